import Verif.Spec.Complete
import Verif.Proof.Lands
import Verif.Props.Util
import Mathlib.Data.List.Sort
import Mathlib.Data.List.Lex
import Mathlib.Data.Char
/-
The word before the cursor and completion.
-/

namespace Liner
namespace Editor
open Liner.Spec

theorem sep_cases {ws : List (Nat × Nat)} (hs : Separated ws) {p q : Nat × Nat} (hp : p ∈ ws)
    (hq : q ∈ ws) : p = q ∨ p.2 < q.1 ∨ q.2 < p.1 := by
  obtain ⟨i, hi, rfl⟩ := List.getElem_of_mem hp
  obtain ⟨j, hj, rfl⟩ := List.getElem_of_mem hq
  have h := List.pairwise_iff_getElem.mp hs.2
  rcases Nat.lt_trichotomy i j with h1 | h1 | h1
  · exact .inr (.inl (h i j hi hj h1))
  · subst h1; exact .inl rfl
  · exact .inr (.inr (h j i hj hi h1))

theorem WordBefore.unique {ws : List (Nat × Nat)} (hs : Separated ws) {c : Nat} {ig : Bool}
    {p q : Nat × Nat} (hp : WordBefore ws c ig p) (hq : WordBefore ws c ig q) : p = q := by
  have h1 := hp.last q hq.mem hq.before
  have h2 := hq.last p hp.mem hp.before
  have h3 := hs.1 p hp.mem
  have h4 := hs.1 q hq.mem
  rcases sep_cases hs hp.mem hq.mem with h | h | h
  · exact h
  · omega
  · omega

theorem wordBefore_iff {ws : List (Nat × Nat)} (hs : Separated ws) (c : Nat) (ig : Bool)
    (p : Nat × Nat) :
    wordBefore ws (CursorPosition.get c ws) ig = some p ↔ WordBefore ws c ig p := by
  have hc := Props.C12_classifies c ws hs
  generalize CursorPosition.get c ws = pos at hc
  -- a touched word is the one
  have touch : ∀ q ∈ ws, q.1 < c → c ≤ q.2 → WordBefore ws c ig q := by
    intro q hq h1 h2
    refine ⟨hq, h1, fun _ => h2, fun q' hq' h3 => ?_⟩
    rcases sep_cases hs hq hq' with h | h | h
    · rw [h]
    · omega
    · have := hs.1 q' hq'; omega
  have some_iff : ∀ q, WordBefore ws c ig q → (some q = some p ↔ WordBefore ws c ig p) := by
    intro q hq
    constructor
    · intro h; cases h; exact hq
    · intro h; rw [WordBefore.unique hs hq h]
  cases pos with
  | inWord i =>
    obtain ⟨a, e, h1, h2, h3⟩ := hc
    simp only [wordBefore, h1]
    exact some_iff _ (touch _ (List.mem_of_getElem? h1) h2 (by simp; omega))
  | onWordRightEdge i =>
    obtain ⟨a, h1⟩ := hc
    simp only [wordBefore, h1]
    have hm := List.mem_of_getElem? h1
    exact some_iff _ (touch _ hm (hs.1 _ hm) (by simp))
  | onWordLeftEdge i =>
    obtain ⟨e, h1⟩ := hc
    have hm := List.mem_of_getElem? h1
    have hne := hs.1 _ hm
    simp only [wordBefore]
    obtain ⟨k2, g2⟩ := List.getElem?_eq_some_iff.mp h1
    have hpw := List.pairwise_iff_getElem.mp hs.2
    have hgt : ∀ q ∈ ws, q.1 < c → ∃ j, ∃ hj : j < ws.length, j < i ∧ ws[j] = q := by
      intro q hq hlt
      obtain ⟨j, hj, rfl⟩ := List.getElem_of_mem hq
      refine ⟨j, hj, ?_, rfl⟩
      rcases Nat.lt_trichotomy j i with h | h | h
      · exact h
      · subst h; rw [g2] at hlt; simp at hlt
      · have := hpw i j k2 hj h
        rw [g2] at this; simp at this hne; omega
    split
    · rename_i hi
      obtain ⟨hig, hi⟩ := hi
      have k1 : i - 1 < ws.length := by omega
      rw [List.getElem?_eq_getElem k1]
      refine some_iff _ ⟨List.getElem_mem _, ?_, ?_, ?_⟩
      · have := hpw (i - 1) i k1 k2 (by omega)
        rw [g2] at this
        have := hs.1 _ (List.getElem_mem k1)
        simp at *; omega
      · intro h; rw [hig] at h; cases h
      · intro q hq hlt
        obtain ⟨j, hj, hji, rfl⟩ := hgt q hq hlt
        rcases Nat.lt_or_ge j (i - 1) with h | h
        · have := hpw j (i - 1) hj k1 h
          have := hs.1 _ (List.getElem_mem hj)
          omega
        · have : j = i - 1 := by omega
          subst this; exact Nat.le_refl _
    · rename_i hi
      simp only [reduceCtorEq, false_iff]
      intro hp
      obtain ⟨j, hj, hji, rfl⟩ := hgt p hp.mem hp.before
      cases ig
      · have h1 := hp.touches rfl
        have := hpw j i hj k2 hji
        rw [g2] at this; simp at this; omega
      · simp at hi; omega
  | inSpace lft rgt =>
    obtain ⟨hout, hl, -⟩ := hc
    have hno : ∀ q ∈ ws, ¬ (q.1 < c ∧ c ≤ q.2) := by
      intro q hq h
      obtain ⟨j, hj⟩ := List.getElem?_of_mem hq
      have := hout j q.1 q.2 hj
      omega
    cases lft with
    | none =>
      simp only [wordBefore, reduceCtorEq, false_iff]
      intro hp
      obtain ⟨j, hj⟩ := List.getElem?_of_mem hp.mem
      have := hl j p.1 p.2 hj
      have := hp.before
      omega
    | some i =>
      obtain ⟨a, e, h1, h2, h3⟩ := hl
      have hm := List.mem_of_getElem? h1
      have hne := hs.1 _ hm
      simp only at hne
      cases ig
      · simp only [wordBefore, Bool.false_eq_true, if_false, reduceCtorEq, false_iff]
        intro hp
        exact hno p hp.mem ⟨hp.before, hp.touches rfl⟩
      · simp only [wordBefore, if_true, h1]
        refine some_iff _ ⟨hm, by simp; omega, (fun h => by cases h), fun q hq hlt => ?_⟩
        obtain ⟨j, hj⟩ := List.getElem?_of_mem hq
        rcases Nat.lt_trichotomy j i with h | h | h
        · obtain ⟨k1, g1⟩ := List.getElem?_eq_some_iff.mp hj
          obtain ⟨k2, g2⟩ := List.getElem?_eq_some_iff.mp h1
          have := List.pairwise_iff_getElem.mp hs.2 j i k1 k2 h
          rw [g1, g2] at this
          have := hs.1 q hq
          simp at *; omega
        · subst h; rw [h1] at hj; cases hj; exact Nat.le_refl _
        · have := h3 j q.1 q.2 h hj; omega

/-! ### The candidates in order -/

theorem textLe_iff (a b : Text) : textLe a b = true ↔ ¬ b < a := by
  induction a generalizing b with
  | nil => simp [textLe]
  | cons x xs ih =>
    cases b with
    | nil => simp [textLe]
    | cons y ys =>
      simp only [textLe, List.cons_lt_cons_iff]
      by_cases h1 : x < y
      · have : x.val < y.val := h1
        have h2 : ¬ y < x := lt_asymm h1
        have h3 : y ≠ x := ne_of_gt h1
        simp [this, h2, h3]
      · have h1' : ¬ x.val < y.val := h1
        by_cases h2 : y < x
        · have : y.val < x.val := h2
          simp [h1', this, h2]
        · have h2' : ¬ y.val < x.val := h2
          have h3 : x = y := le_antisymm (not_lt.mp h2) (not_lt.mp h1)
          subst h3
          simp [ih]
theorem sorted_dedup (l : List Text) (h : l.Pairwise (fun a b => ¬ b < a)) :
   (dedupAdj l).Pairwise (· < ·) ∧ (∀ c, c ∈ dedupAdj l ↔ c ∈ l) := by
  induction l with
  | nil => simp [dedupAdj]
  | cons a l ih =>
    have ih := ih (List.pairwise_cons.mp h).2
    cases l with
    | nil => simp [dedupAdj]
    | cons b l =>
      unfold dedupAdj
      split
      · rename_i hab
        subst hab
        refine ⟨ih.1, fun c => ?_⟩
        rw [ih.2]; simp
      · rename_i hab
        refine ⟨List.pairwise_cons.mpr ⟨fun c hc => ?_, ih.1⟩, fun c => ?_⟩
        · rw [ih.2] at hc
          have h1 : a < b := lt_of_le_of_ne (not_lt.mp ((List.pairwise_cons.mp h).1 b (by simp))) hab
          rcases List.mem_cons.mp hc with rfl | hc
          · exact h1
          · exact lt_of_lt_of_le h1 (not_lt.mp ((List.pairwise_cons.mp (List.pairwise_cons.mp h).2).1 c hc))
        · rw [List.mem_cons, ih.2, List.mem_cons, List.mem_cons, List.mem_cons]

theorem sortDedup_spec (given : List Text) : SortedSet given (sortDedup given) := by
  have : Std.Total fun a b : Text => textLe a b = true :=
    ⟨fun a b => by rw [textLe_iff, textLe_iff, not_lt, not_lt]; exact le_total a b⟩
  have : IsTrans Text fun a b : Text => textLe a b = true :=
    ⟨fun a b c => by rw [textLe_iff, textLe_iff, textLe_iff, not_lt, not_lt, not_lt]; exact le_trans⟩
  have hs : (given.insertionSort fun a b => textLe a b = true).Pairwise (fun a b => ¬ b < a) :=
    (List.pairwise_insertionSort (fun a b : Text => textLe a b = true) given).imp
      (fun h => (textLe_iff _ _).mp h)
  obtain ⟨h1, h2⟩ := sorted_dedup _ hs
  exact ⟨h1, fun c => by
    rw [sortDedup, h2]; exact List.mem_insertionSort _⟩

theorem SortedSet.unique {given cs cs' : List Text} (h : SortedSet given cs)
    (h' : SortedSet given cs') : cs = cs' := by
  exact h.1.eq_of_mem_iff h'.1 (fun c => (h.2 c).trans (h'.2 c).symm)

theorem sortDedup_eq {given cs : List Text} (h : SortedSet given cs) : sortDedup given = cs :=
  SortedSet.unique (sortDedup_spec given) h

/-! ### Where a word begins -/

theorem wordsGo_append (l : Text) : ∀ (i : Nat) (st : Option Nat) (j : Bool),
    (∀ a, st = some a → a < i) →
    ∃ done st' j', (∀ a, st' = some a → a < i + l.length) ∧
      ∀ x, wordsGo (l ++ x) i st j = done ++ wordsGo x (i + l.length) st' j' := by
  induction l with
  | nil => intro i st j h; exact ⟨[], st, j, h, fun x => rfl⟩
  | cons c cs ih =>
    intro i st j h
    have hlen : i + (c :: cs).length = i + 1 + cs.length := by simp; omega
    rw [hlen]
    have hst : ∀ a, st = some a → a < i + 1 := fun a ha => by have := h a ha; omega
    simp only [List.cons_append, wordsGo]
    by_cases hb : c = '\\'
    · obtain ⟨d, st', j', h1, h2⟩ := ih (i + 1) st true hst
      exact ⟨d, st', j', h1, fun x => by rw [if_pos hb]; exact h2 x⟩
    · simp only [if_neg hb]
      cases st with
      | some a =>
        simp only
        by_cases hsp : c = ' ' ∧ ¬ j = true
        · obtain ⟨d, st', j', h1, h2⟩ := ih (i + 1) none false (fun a h => by cases h)
          exact ⟨(a, i) :: d, st', j', h1, fun x => by
            rw [if_pos hsp, h2 x, List.cons_append]⟩
        · obtain ⟨d, st', j', h1, h2⟩ := ih (i + 1) (some a) false hst
          exact ⟨d, st', j', h1, fun x => by rw [if_neg hsp]; exact h2 x⟩
      | none =>
        simp only
        by_cases hsp : c ≠ ' '
        · obtain ⟨d, st', j', h1, h2⟩ := ih (i + 1) (some i) false
            (fun a h => by cases h; omega)
          exact ⟨d, st', j', h1, fun x => by rw [if_pos hsp]; exact h2 x⟩
        · obtain ⟨d, st', j', h1, h2⟩ := ih (i + 1) none false (fun a h => by cases h)
          exact ⟨d, st', j', h1, fun x => by rw [if_neg hsp]; exact h2 x⟩

/-- A word that has begun goes on at least through `c` if the spaces of `c` are escaped. -/
theorem wordsGo_through (c x : Text) : ∀ (i a : Nat) (j : Bool),
    (∀ k, c[k]? = some ' ' → (k = 0 ∧ j = true) ∨ Escaped c k) →
    ∃ e rest, wordsGo (c ++ x) i (some a) j = (a, e) :: rest ∧ i + c.length ≤ e := by
  induction c with
  | nil =>
    intro i a j _
    simp only [List.nil_append, List.length_nil, Nat.add_zero]
    induction x generalizing i j with
    | nil => exact ⟨i, [], rfl, Nat.le_refl _⟩
    | cons y ys ih =>
      unfold wordsGo
      split
      · obtain ⟨e, rest, h1, h2⟩ := ih (i + 1) true (by simp)
        exact ⟨e, rest, h1, by omega⟩
      · simp only
        split
        · exact ⟨i, _, rfl, Nat.le_refl _⟩
        · obtain ⟨e, rest, h1, h2⟩ := ih (i + 1) false (by simp)
          exact ⟨e, rest, h1, by omega⟩
  | cons y ys ih =>
    intro i a j h
    have hlen : i + (y :: ys).length = i + 1 + ys.length := by simp; omega
    rw [hlen]
    have step : ∀ j' : Bool, (y = '\\' → j' = true) →
        ∀ k, ys[k]? = some ' ' → (k = 0 ∧ j' = true) ∨ Escaped ys k := by
      intro j' hj k hk
      rcases h (k + 1) (by simpa using hk) with ⟨h0, _⟩ | ⟨m, hm, h1⟩
      · omega
      · have : m = k := by omega
        subst this
        cases m with
        | zero => exact .inl ⟨rfl, hj (by simpa using h1)⟩
        | succ n => exact .inr ⟨n, rfl, by simpa using h1⟩
    simp only [List.cons_append, wordsGo]
    split
    · exact ih (i + 1) a true (step true (fun _ => rfl))
    · rename_i hb
      split
      · rename_i hsp
        rcases h 0 (by simp [hsp.1]) with ⟨_, h1⟩ | ⟨m, hm, _⟩
        · exact absurd h1 hsp.2
        · omega
      · exact ih (i + 1) a false (step false (fun h => absurd h hb))

/-- A touched word is the word before the cursor. -/
theorem touch_before {ws : List (Nat × Nat)} (hs : Separated ws) {c : Nat} {q : Nat × Nat}
    (hq : q ∈ ws) (h1 : q.1 < c) (h2 : c ≤ q.2) (ig : Bool) : WordBefore ws c ig q := by
  refine ⟨hq, h1, fun _ => h2, fun q' hq' h3 => ?_⟩
  rcases sep_cases hs hq hq' with h | h | h
  · rw [h]
  · omega
  · have := hs.1 q' hq'; omega

/-- In the text `l ++ m ++ x`, a word begins after `l` and goes on at least through `m`. -/
def Starts (l m x : Text) : Prop :=
  ∀ ws, IsDivision (l ++ m ++ x) ws → ∃ e, WordBefore ws (l ++ m).length false (l.length, e)

/-- One word put in place of the touched one is the touched word. -/
theorem Touched.starts {l w1 w2 r c : Text} (ht : Touched l w1 w2 r) (hc : OneWord c) :
    Starts l c (w2 ++ r) := by
  obtain ⟨done, st, j, hlt, hgo⟩ := wordsGo_append l 0 none false (fun a h => by cases h)
  simp only [Nat.zero_add] at hlt hgo
  have hdiv : ∀ t : Text, IsDivision t (wordsGo t 0 none false) := fun t =>
    Props.C11_words (Buffer.ofText t)
  have hsep : ∀ t : Text, Separated (wordsGo t 0 none false) := fun t =>
    Props.C12_default_words_separated (Buffer.ofText t)
  have hnone : st = none := by
    cases hst : st with
    | none => rfl
    | some a =>
      exfalso
      subst hst
      have hal := hlt a rfl
      obtain ⟨e, rest, h1, h2⟩ := wordsGo_through [] (w1 ++ (w2 ++ r)) l.length a j (by simp)
      have hm : (a, e) ∈ wordsGo (l ++ w1 ++ (w2 ++ r)) 0 none false := by
        rw [List.append_assoc, hgo]
        rw [List.nil_append] at h1
        rw [h1]; simp
      rcases ht _ (hdiv _) with ⟨_, hp⟩ | ⟨rfl, rfl, hp⟩
      · have hne := (hsep _).1 _ hp.mem
        rcases sep_cases (hsep _) hm hp.mem with h | h | h
        · have := congrArg Prod.fst h; simp at this; omega
        · simp at h h2; omega
        · simp at h hne; omega
      · exact hp (a, e) (touch_before (hsep _) hm (by simpa using hal) (by simpa using h2) _)
  subst hnone
  obtain ⟨⟨y, hy, hsp, hb⟩, hesc⟩ := hc
  cases c with
  | nil => simp at hy
  | cons z c =>
    simp at hy; subst hy
    obtain ⟨e, rest, h1, h2⟩ := wordsGo_through c (w2 ++ r) (l.length + 1) l.length false (by
      intro k hk
      obtain ⟨m, hm, h1⟩ := hesc (k + 1) (by simpa using hk)
      have : m = k := by omega
      subst this
      cases m with
      | zero => simp at h1; exact absurd h1 hb
      | succ n => exact .inr ⟨n, rfl, by simpa using h1⟩)
    intro ws hws
    have hwe : ws = wordsGo (l ++ z :: c ++ (w2 ++ r)) 0 none false :=
      (Props.C11_words_unique (Buffer.ofText _) ws).mp hws
    refine ⟨e, touch_before (by rw [hwe]; exact hsep _) ?_ (by simp) (by simp at *; omega) _⟩
    rw [hwe, List.append_assoc, hgo]
    refine List.mem_append_right _ ?_
    rw [List.cons_append, wordsGo]
    simp only [if_neg hb, ne_eq, hsp, not_false_eq_true, if_true]
    rw [h1]; simp

section
variable {E : Env} {s : Ed} {l m r : Text}

/-- Deleting the word before the cursor, for any word divider. -/
theorem deleteWord_makes {ws : List (Nat × Nat)} {ig : Bool} {e : Nat}
    (hd : ∀ b, s.curBuf? = some b → E.words b = ws) (hsep : Separated ws)
    (h : At s (l ++ m) r) (hs : SearchOnNewLine s)
    (hp : WordBefore ws (l ++ m).length ig (l.length, e)) :
    WpMakes (deleteWordBeforeCursor E ig) s s.noEol l r := by
  simp only [WpMakes, deleteWordBeforeCursor, getWordBeforeCursor, wordsAndPos, wp_bind, wp_curBuf,
    wp_get, wp_pure]
  refine ⟨fun b hb => ?_, fun _ => trivial⟩
  rw [hd b hb, h.2, (wordBefore_iff hsep _ _ _).mpr hp]
  simp only [wp_bind, wp_get]
  refine wp_edit h.1 (fun b1 n b' hb1 hf => ?_)
  rw [h.2] at hf
  obtain ⟨rfl, hd'⟩ := remove_data hb1 rfl (by simp) hf
  unfold Wp cursorSub
  rw [setCur_cursor, h.2, if_pos (by simp)]
  exact display_set E hs hd' (by simp)

/-- There is no word before the cursor. -/
theorem deleteWord_same {ws : List (Nat × Nat)} {ig : Bool}
    (hd : ∀ b, s.curBuf? = some b → E.words b = ws) (hsep : Separated ws)
    (h : At s l r) (hs : SearchOnNewLine s) (hp : ∀ p, ¬ WordBefore ws l.length ig p) :
    WpMakes (deleteWordBeforeCursor E ig) s s.noEol l r := by
  simp only [WpMakes, deleteWordBeforeCursor, getWordBeforeCursor, wordsAndPos, wp_bind, wp_curBuf,
    wp_get, wp_pure]
  refine ⟨fun b hb => ?_, fun _ => trivial⟩
  rw [hd b hb, h.2]
  have : wordBefore ws (CursorPosition.get l.length ws) ig = none := by
    cases hw : wordBefore ws (CursorPosition.get l.length ws) ig with
    | none => rfl
    | some p => exact absurd ((wordBefore_iff hsep _ _ _).mp hw) (hp p)
  rw [this]
  exact display_makes E h.1 h.2 hs

theorem divides (hw : E.words = getBufferWords) {t : Text} (ht : text? s = some t)
    {ws : List (Nat × Nat)} (hd : IsDivision t ws) :
    (∀ b, s.curBuf? = some b → E.words b = ws) ∧ Separated ws := by
  constructor
  · intro b hb
    obtain ⟨b', hb', hdt⟩ := text?_eq.mp ht
    rw [hb] at hb'; cases hb'
    subst hdt
    rw [hw, (Props.C11_words_unique b ws).mp hd]
  · exact ⟨fun w hm => (hd.words w hm).nonempty, hd.ordered⟩

theorem division_ex (t : Text) : ∃ ws, IsDivision t ws :=
  ⟨_, Props.C11_words (Buffer.ofText t)⟩

/-- Deleting the touched word. -/
theorem deleteTouched {w1 w2 : Text} (hw : E.words = getBufferWords) (h : At s (l ++ w1) (w2 ++ r))
    (hs : SearchOnNewLine s) (ht : Touched l w1 w2 r) :
    WpMakes (deleteWordBeforeCursor E false) s s.noEol l (w2 ++ r) := by
  obtain ⟨ws, hd⟩ := division_ex (l ++ w1 ++ (w2 ++ r))
  obtain ⟨h1, h2⟩ := divides hw h.1 hd
  rcases ht ws hd with ⟨_, hp⟩ | ⟨rfl, rfl, hp⟩
  · exact deleteWord_makes h1 h2 h hs hp
  · rw [List.append_nil] at h hp
    exact deleteWord_same h1 h2 h hs hp

/-! ### What the operations involved leave alone -/

/-- The list of candidates and the mode of the editor stay. -/
def Calm (s s' : Ed) : Prop :=
  (SearchOnNewLine s → SearchOnNewLine s') ∧ s'.noEol = s.noEol ∧
    s'.showCompletionsHint = s.showCompletionsHint

theorem Calm.trans {a b c : Ed} (h : Calm a b) (h' : Calm b c) : Calm a c :=
  ⟨fun x => h'.1 (h.1 x), h'.2.1.trans h.2.1, h'.2.2.trans h.2.2⟩

theorem setCur_calm (s : Ed) (b : Buffer) (c : Nat) : Calm s { setCur s b with cursor := c } := by
  refine ⟨fun h => SearchOnNewLine.mk_cursor (SearchOnNewLine.setCur h b) c, setCur_noEol s b, ?_⟩
  show (setCur s b).showCompletionsHint = _
  unfold setCur; split <;> rfl

theorem pre_calm (s : Ed) : Calm s (pre s) := by
  unfold pre
  split
  · exact ⟨fun _ _ => rfl, rfl, rfl⟩
  · exact ⟨id, rfl, rfl⟩

theorem display_calm (E : Env) (s : Ed) :
    Wp (display E) s (fun _ s' => Calm s s') (fun _ _ => True) (fun _ => True) := by
  refine wp_mono (display_wp E s) (fun _ s' h => ?_) (fun _ _ _ => trivial) (fun _ _ => trivial)
  obtain ⟨b, sug, _, _, _, _, _, _, rfl⟩ := h.ex
  exact (pre_calm s : Calm s (pre s))

theorem insert_calm (E : Env) (s : Ed) (cs : Text) :
    Wp (insertCharsAfterCursor E cs) s (fun _ s' => Calm s s') (fun _ _ => True)
      (fun _ => True) := by
  simp only [insertCharsAfterCursor, wp_bind, wp_get, wp_modify, wp_curBufMut]
  refine ⟨fun b a b' _ _ => ?_, fun _ => trivial⟩
  exact wp_mono (display_calm E _) (fun _ s' h => (setCur_calm s b' _).trans h)
    (fun _ _ _ => trivial) (fun _ _ => trivial)

theorem deleteWord_calm (E : Env) (s : Ed) (ig : Bool) :
    Wp (deleteWordBeforeCursor E ig) s (fun _ s' => Calm s s') (fun _ _ => True)
      (fun _ => True) := by
  simp only [deleteWordBeforeCursor, getWordBeforeCursor, wordsAndPos, wp_bind, wp_curBuf,
    wp_get, wp_pure]
  refine ⟨fun b _ => ?_, fun _ => trivial⟩
  split
  · simp only [wp_bind, wp_get, wp_curBufMut]
    refine ⟨fun b a b' _ _ => ?_, fun _ => trivial⟩
    unfold Wp cursorSub
    split
    · rename_i h
      split at h
      · cases h
        exact wp_mono (display_calm E _) (fun _ s' h => (setCur_calm s b' _).trans h)
          (fun _ _ _ => trivial) (fun _ _ => trivial)
      · cases h
    · trivial
    · trivial
  · exact display_calm E s

/-- Where the cursor rests when it need not be moved back. -/
theorem Lands.at {noEol : Bool} (h : Lands noEol s l r) (hr : noEol = true → r ≠ [] ∨ l = []) :
    At s l r := by
  refine ⟨h.1, ?_⟩
  rw [h.2]
  split
  · rename_i hc
    rcases hr hc.1 with h1 | h1
    · exact absurd hc.2 h1
    · rw [h1]; rfl
  · rfl

/-- Replacing the word before the cursor by `c`. -/
theorem replace_makes (h : WpMakes (deleteWordBeforeCursor E false) s s.noEol l r)
    (hs : SearchOnNewLine s) (he : s.noEol = true → r ≠ [] ∨ l = []) (c : Text) :
    Wp (do
      deleteWordBeforeCursor E false
      insertCharsAfterCursor E c) s (fun _ s' => Lands s.noEol s' (l ++ c) r ∧ Calm s s')
      (fun _ _ => True) (fun _ => True) := by
  rw [wp_bind]
  refine wp_mono (wp_and h (deleteWord_calm E s false))
    (fun _ s1 h1 => ?_) (fun _ _ _ => trivial) (fun _ _ => trivial)
  have hat := Lands.at h1.1 he
  refine wp_mono (wp_and (insert_makes E hat (h1.2.1 hs) c) (insert_calm E s1 c))
    (fun _ s2 h2 => ?_) (fun _ _ _ => trivial) (fun _ _ => trivial)
  rw [h1.2.2.1] at h2
  exact ⟨h2.1, h1.2.trans h2.2⟩

/-- A common prefix that is longer than all others is what the code looks for. -/
theorem lcp_of {cs : List Text} {p : Text} (h2 : 2 ≤ cs.length) (hp : CommonPrefix cs p) :
    findLongestCommonPrefix cs = if p = [] then none else some p := by
  split
  · rename_i h
    subst h
    refine (Props.C13_lcp_none cs h2).mpr (fun q hq => ?_)
    exact List.prefix_nil.mp (hp.2 q hq)
  · rename_i h
    exact (Props.C13_lcp cs h2 p).mpr ⟨h, hp.1, hp.2⟩

theorem byteLen_append (a b : Text) :
    Buffer.byteLen (a ++ b) = Buffer.byteLen a + Buffer.byteLen b := by
  simp [Buffer.byteLen]

theorem byteLen_pos {a : Text} (h : a ≠ []) : 0 < Buffer.byteLen a := by
  cases a with
  | nil => exact absurd rfl h
  | cons c cs =>
    have := Char.utf8Size_pos c
    simp [Buffer.byteLen]; omega

theorem extends_iff (p w : Text) :
    (Buffer.byteLen p > Buffer.byteLen w ∧ w.isPrefixOf p = true) ↔ (w <+: p ∧ p ≠ w) := by
  rw [List.isPrefixOf_iff_prefix]
  constructor
  · rintro ⟨h1, h2⟩
    refine ⟨h2, fun h => ?_⟩
    subst h; omega
  · rintro ⟨⟨x, rfl⟩, h2⟩
    refine ⟨?_, ⟨x, rfl⟩⟩
    have hx : x ≠ [] := fun h => h2 (by rw [h, List.append_nil])
    rw [byteLen_append]
    have := byteLen_pos hx
    omega

theorem setCur_calm' (s : Ed) (b : Buffer) : Calm s (setCur s b) := by
  have h := setCur_calm s b (setCur s b).cursor
  exact h

/-- Tab when no list is shown. -/
theorem completeFirst_wp {w1 w2 : Text} {cs : List Text} {comp : Text → List Text}
    (hw : E.words = getBufferWords) (h : At s (l ++ w1) (w2 ++ r)) (hs : SearchOnNewLine s)
    (ht : Touched l w1 w2 r) (hcs : SortedSet (comp (w1 ++ w2)) cs)
    (he : s.noEol = true → w2 ++ r ≠ [] ∨ l = []) :
    Wp (completeFirst E comp) s (fun _ s' =>
      (cs = [] → At s' (l ++ w1) (w2 ++ r) ∧ s'.showCompletionsHint = none) ∧
      (∀ c, cs = [c] → Lands s.noEol s' (l ++ c) (w2 ++ r) ∧ s'.showCompletionsHint = none) ∧
      (∀ p, 2 ≤ cs.length → CommonPrefix cs p →
        (w1 ++ w2 <+: p ∧ p ≠ w1 ++ w2 → Lands s.noEol s' (l ++ p) (w2 ++ r) ∧
          s'.showCompletionsHint = s.showCompletionsHint) ∧
        (¬ (w1 ++ w2 <+: p ∧ p ≠ w1 ++ w2) → Lands s.noEol s' (l ++ w1) (w2 ++ r) ∧
          s'.showCompletionsHint = some (cs, none))))
      (fun _ _ => True) (fun _ => True) := by
  unfold completeFirst
  simp only [getWordBeforeCursor, wordsAndPos, wp_bind, wp_curBuf, wp_get, wp_pure]
  refine ⟨fun b hb => ?_, fun _ => trivial⟩
  obtain ⟨b0, hb0, hbd⟩ := text?_eq.mp h.1
  rw [hb] at hb0; cases hb0
  have hsep := Props.C12_default_words_separated b
  have hdiv := Props.C11_words b
  rw [hw, h.2]
  -- the word is read
  have hread : ∀ (w : Buffer) (word : Text) (w' : Buffer), w.data = b.data →
      readWord (wordBefore (getBufferWords b)
        (CursorPosition.get (l ++ w1).length (getBufferWords b)) false) w = some (word, w') →
      word = w1 ++ w2 ∧ w' = w := by
    intro w word w' hwd hrd
    rw [hbd] at hdiv
    rcases ht _ hdiv with ⟨_, hp⟩ | ⟨rfl, rfl, hp⟩
    · rw [(wordBefore_iff hsep _ _ _).mpr hp] at hrd
      simp only [readWord, Buffer.range, Option.map_eq_some_iff] at hrd
      obtain ⟨x, hx, hxe⟩ := hrd
      split at hx
      · cases hx; cases hxe
        refine ⟨?_, rfl⟩
        rw [hwd, hbd]
        simp only [List.append_assoc, List.drop_left, List.length_append, Nat.add_sub_cancel_left]
        rw [← List.append_assoc, ← List.length_append, List.take_left]
      · cases hx
    · have : wordBefore (getBufferWords b)
          (CursorPosition.get (l ++ []).length (getBufferWords b)) false = none := by
        cases hx : wordBefore (getBufferWords b)
            (CursorPosition.get (l ++ []).length (getBufferWords b)) false with
        | none => rfl
        | some p => exact absurd ((wordBefore_iff hsep _ _ _).mp hx) (hp p)
      rw [this] at hrd
      cases hrd
      exact ⟨rfl, rfl⟩
  refine wp_edit h.1 (fun w word w' hwd hf => ?_)
  obtain ⟨rfl, rfl⟩ := hread w word w' (hwd.trans hbd.symm) hf
  rw [sortDedup_eq hcs]
  have hc1 := setCur_calm' s w'
  have hat : At (setCur s w') (l ++ w1) (w2 ++ r) := ⟨by rw [setCur_text, hwd], by
    rw [setCur_cursor, h.2]⟩
  have hs1 := hc1.1 hs
  have he1 : (setCur s w').noEol = true → w2 ++ r ≠ [] ∨ l = [] := by
    rw [hc1.2.1]; exact he
  split
  · rw [wp_modify]
    refine ⟨fun _ => ⟨hat, rfl⟩, fun c hc => (by cases hc), fun p h2 => (by simp at h2)⟩
  · rename_i c
    rw [wp_bind, wp_modify]
    refine wp_mono (replace_makes (s := { setCur s w' with showCompletionsHint := none })
      (deleteTouched hw hat hs1 ht) hs1 he1 c) (fun _ s' h' => ?_) (fun _ _ _ => trivial)
      (fun _ _ => trivial)
    refine ⟨fun hc => (by cases hc), fun c' hc => ?_, fun p h2 => (by simp at h2)⟩
    cases hc
    refine ⟨?_, h'.2.2.2⟩
    rw [← hc1.2.1]; exact h'.1
  · rename_i hne hne1
    have h2 : 2 ≤ cs.length := by
      match cs, hne, hne1 with
      | [], h, _ => exact absurd rfl h
      | [c], _, h => exact absurd rfl (h c)
      | _ :: _ :: _, _, _ => simp
    have hno0 : ¬ cs = [] := hne
    have hno1 : ∀ c, ¬ cs = [c] := hne1
    have shown : ∀ p, CommonPrefix cs p → ¬ (w1 ++ w2 <+: p ∧ p ≠ w1 ++ w2) →
        Wp (do
          M.modify fun s => { s with showCompletionsHint := some (cs, none) }
          display E) (setCur s w') (fun _ s' =>
      (cs = [] → At s' (l ++ w1) (w2 ++ r) ∧ s'.showCompletionsHint = none) ∧
      (∀ c, cs = [c] → Lands s.noEol s' (l ++ c) (w2 ++ r) ∧ s'.showCompletionsHint = none) ∧
      (∀ p, 2 ≤ cs.length → CommonPrefix cs p →
        (w1 ++ w2 <+: p ∧ p ≠ w1 ++ w2 → Lands s.noEol s' (l ++ p) (w2 ++ r) ∧
          s'.showCompletionsHint = s.showCompletionsHint) ∧
        (¬ (w1 ++ w2 <+: p ∧ p ≠ w1 ++ w2) → Lands s.noEol s' (l ++ w1) (w2 ++ r) ∧
          s'.showCompletionsHint = some (cs, none))))
      (fun _ _ => True) (fun _ => True) := by
      intro p hp hx
      rw [wp_bind, wp_modify]
      refine wp_mono (wp_and (display_makes E
        (s := { setCur s w' with showCompletionsHint := some (cs, none) }) hat.1 hat.2 hs1)
        (display_calm E _)) (fun _ s' h' => ?_) (fun _ _ _ => trivial) (fun _ _ => trivial)
      refine ⟨fun hc => absurd hc hno0, fun c hc => absurd hc (hno1 c), fun q _ hq => ?_⟩
      have hqp : q = p := (hp.2 q hq.1).eq_of_length_le (hq.2 p hp.1).length_le
      subst hqp
      refine ⟨fun hy => absurd hy hx, fun _ => ⟨?_, h'.2.2.2⟩⟩
      rw [← hc1.2.1]; exact h'.1
    split
    · rename_i p hlcp
      have hp : CommonPrefix cs p := by
        have := (Props.C13_lcp cs h2 p).mp hlcp
        exact ⟨this.2.1, this.2.2⟩
      rw [wp_ite]
      refine ⟨fun hx => ?_, fun hx => shown p hp (fun hy => hx ((extends_iff _ _).mpr hy))⟩
      refine wp_mono (replace_makes (deleteTouched hw hat hs1 ht) hs1 he1 p) (fun _ s' h' => ?_)
        (fun _ _ _ => trivial) (fun _ _ => trivial)
      refine ⟨fun hc => absurd hc hno0, fun c hc => absurd hc (hno1 c), fun q _ hq => ?_⟩
      have hqp : q = p := (hp.2 q hq.1).eq_of_length_le (hq.2 p hp.1).length_le
      subst hqp
      refine ⟨fun _ => ⟨?_, h'.2.2.2.trans hc1.2.2⟩, fun hy => absurd ((extends_iff _ _).mp hx) hy⟩
      rw [← hc1.2.1]; exact h'.1
    · rename_i hlcp
      have hp := (Props.C13_lcp_none cs h2).mp hlcp
      refine shown [] ⟨fun _ _ => List.nil_prefix, fun q hq => by rw [hp q hq]; exact List.nil_prefix⟩ ?_
      rintro ⟨h3, h4⟩
      exact h4 (List.prefix_nil.mp h3).symm

theorem completeFirst_calm (E : Env) (comp : Text → List Text) (s : Ed) :
    Wp (completeFirst E comp) s
      (fun _ s' => (SearchOnNewLine s → SearchOnNewLine s') ∧ s'.noEol = s.noEol)
      (fun _ _ => True) (fun _ => True) := by
  unfold completeFirst
  simp only [getWordBeforeCursor, wordsAndPos, wp_bind, wp_curBuf, wp_get, wp_pure, wp_curBufMut]
  refine ⟨fun b _ => ⟨fun _ word b' _ _ => ?_, fun _ => trivial⟩, fun _ => trivial⟩
  have h0 := setCur_calm' s b'
  have two : ∀ c o, Wp (do
      deleteWordBeforeCursor E false
      insertCharsAfterCursor E c) { setCur s b' with showCompletionsHint := o }
      (fun _ s' => (SearchOnNewLine s → SearchOnNewLine s') ∧ s'.noEol = s.noEol)
      (fun _ _ => True) (fun _ => True) := by
    intro c o
    rw [wp_bind]
    refine wp_mono (deleteWord_calm E _ false) (fun _ s1 h1 => ?_) (fun _ _ _ => trivial)
      (fun _ _ => trivial)
    refine wp_mono (insert_calm E s1 c) (fun _ s2 h2 => ?_) (fun _ _ _ => trivial)
      (fun _ _ => trivial)
    exact ⟨fun h => h2.1 (h1.1 (h0.1 h)), h2.2.1.trans (h1.2.1.trans h0.2.1)⟩
  have shown : ∀ cs : List Text, Wp (do
      M.modify fun s => { s with showCompletionsHint := some (cs, none) }
      display E) (setCur s b')
      (fun _ s' => (SearchOnNewLine s → SearchOnNewLine s') ∧ s'.noEol = s.noEol)
      (fun _ _ => True) (fun _ => True) := by
    intro cs
    rw [wp_bind, wp_modify]
    refine wp_mono (display_calm E _) (fun _ s1 h1 => ?_) (fun _ _ _ => trivial)
      (fun _ _ => trivial)
    exact ⟨fun h => h1.1 (h0.1 h), h1.2.1.trans h0.2.1⟩
  split
  · exact ⟨h0.1, h0.2.1⟩
  · rw [wp_bind, wp_modify]
    exact two _ none
  · split
    · rw [wp_ite]
      exact ⟨fun _ => two _ _, fun _ => shown _⟩
    · exact shown _

/-! ### Tab while the list is shown -/

/-- The state in which candidate `i` of the list stands in the line. -/
structure Cycle (cs : List Text) (l x : Text) (i : Nat) (s : Ed) : Prop where
  hint : s.showCompletionsHint = some (cs, some i)
  son : SearchOnNewLine s
  eol : s.noEol = true → x ≠ [] ∨ l = []
  ex : ∃ c, cs[i]? = some c ∧ Lands s.noEol s (l ++ c) x

/-- Taking the old candidate away. -/
theorem drop_makes {x m : Text} {cs : List Text} {o : Option Nat} (h : text? s = some (l ++ m ++ x))
    (ho : ∀ k, o = some k → cs[k]? = some m)
    (hdel : (o ≠ none → ¬ (l = [] ∧ x = [])) →
      WpMakes (deleteWordBeforeCursor E false) s s.noEol l x)
    (he : s.noEol = true → x ≠ [] ∨ l = []) :
    Wp (do
      let whole ← isWhole cs o
      dropCandidate E whole) s (fun _ s' => At s' l x ∧ Calm s s') (fun _ _ => True)
      (fun _ => True) := by
  have del : (o ≠ none → ¬ (l = [] ∧ x = [])) →
      Wp (deleteWordBeforeCursor E false) s (fun _ s' => At s' l x ∧ Calm s s')
      (fun _ _ => True) (fun _ => True) := fun hx =>
    wp_mono (wp_and (hdel hx) (deleteWord_calm E s false)) (fun _ s' h' => ⟨Lands.at h'.1 he, h'.2⟩)
      (fun _ _ _ => trivial) (fun _ _ => trivial)
  rw [wp_bind]
  cases o with
  | none =>
    simp only [isWhole, wp_pure, dropCandidate, Bool.false_eq_true, if_false]
    exact del (fun h => absurd rfl h)
  | some k =>
    simp only [isWhole, wp_bind, wp_curBuf, wp_ofOption, wp_pure]
    refine ⟨fun b hb => ⟨fun c hc => ?_, fun _ => trivial⟩, fun _ => trivial⟩
    rw [ho k rfl] at hc
    cases hc
    obtain ⟨b0, hb0, hbd⟩ := text?_eq.mp h
    rw [hb] at hb0; cases hb0
    unfold dropCandidate
    split
    · rename_i heq
      simp only [Buffer.eq, Buffer.ofText, hbd, beq_iff_eq] at heq
      have hl : l = [] ∧ x = [] := by
        have := congrArg List.length (heq : l ++ m ++ x = m)
        simp only [List.length_append] at this
        exact ⟨List.length_eq_zero_iff.mp (by omega), List.length_eq_zero_iff.mp (by omega)⟩
      obtain ⟨rfl, rfl⟩ := hl
      rw [wp_bind]
      refine wp_edit h (fun b1 a b' hb1 hf => ?_)
      simp only [noRes, Option.map_eq_some_iff] at hf
      obtain ⟨w, hw, hwe⟩ := hf
      cases hwe
      rw [wp_modify]
      refine ⟨⟨?_, rfl⟩, setCur_calm s b' 0⟩
      show text? (setCur s b') = _
      rw [setCur_text, truncate_data (l := []) hb1 rfl hw]; rfl
    · rename_i heq
      refine del (fun _ hlx => heq ?_)
      rw [hlx.1, hlx.2] at hbd
      simp only [Buffer.eq, Buffer.ofText, hbd, beq_iff_eq, List.nil_append, List.append_nil]

/-- Tab while the list is shown. -/
theorem completeNext_wp {x m c : Text} {cs : List Text} {o : Option Nat} {i : Nat}
    (h : text? s = some (l ++ m ++ x)) (hs : SearchOnNewLine s)
    (ho : ∀ k, o = some k → cs[k]? = some m)
    (hdel : (o ≠ none → ¬ (l = [] ∧ x = [])) → ∀ s1 : Ed, text? s1 = text? s →
      s1.cursor = s.cursor → SearchOnNewLine s1 →
      WpMakes (deleteWordBeforeCursor E false) s1 s1.noEol l x)
    (he : s.noEol = true → x ≠ [] ∨ l = []) (hi : nextCandidate cs.length o = some i)
    (hc : cs[i]? = some c) :
    Wp (completeNext E cs o) s (fun _ s' => Lands s.noEol s' (l ++ c) x ∧ SearchOnNewLine s' ∧
      s'.noEol = s.noEol ∧ s'.showCompletionsHint = some (cs, some i)) (fun _ _ => True)
      (fun _ => True) := by
  unfold completeNext
  rw [wp_bind, wp_modify, hi]
  rw [wp_bind, wp_ofOption]
  refine ⟨fun i' hi' => ?_, fun hn => (by cases hn)⟩
  cases hi'
  have key := drop_makes (E := E) (s := { s with showCompletionsHint := none }) (o := o) (cs := cs)
    h ho (fun hx => hdel hx _ rfl rfl hs) he
  rw [wp_bind] at key
  rw [wp_bind]
  refine wp_mono key (fun whole s1 h1 => ?_) (fun _ _ _ => trivial) (fun _ _ => trivial)
  rw [wp_bind]
  refine wp_mono h1 (fun _ s2 h2 => ?_) (fun _ _ _ => trivial) (fun _ _ => trivial)
  rw [wp_bind, hc, wp_ofOption]
  refine ⟨fun c' hc' => ?_, fun hn => (by cases hn)⟩
  cases hc'
  rw [wp_bind]
  refine wp_mono (wp_and (insert_makes E h2.1 (h2.2.1 hs) c) (insert_calm E s2 c))
    (fun _ s3 h3 => ?_) (fun _ _ _ => trivial) (fun _ _ => trivial)
  rw [wp_modify]
  have hn : s2.noEol = s.noEol := h2.2.2.1
  rw [hn] at h3
  exact ⟨h3.1, h3.2.1 (h2.2.1 hs), h3.2.2.1.trans hn, rfl⟩

/-- Drawing again a line whose cursor is where it may be. -/
theorem display_lands {x : Text} (h : Lands s.noEol s l x) (hs : SearchOnNewLine s) :
    Wp (display E) s (fun _ s' => Lands s.noEol s' l x) (fun _ _ => True) (fun _ => True) := by
  by_cases hx : s.noEol = true ∧ x = []
  · obtain ⟨hn, rfl⟩ := hx
    have hc := h.2
    rw [if_pos ⟨hn, rfl⟩] at hc
    rcases List.eq_nil_or_concat l with rfl | ⟨l', y, rfl⟩
    · have := display_makes E (s := s) (l := []) (r := []) h.1 hc hs
      exact wp_mono this (fun _ _ h' => h') (fun _ _ _ => trivial) (fun _ _ => trivial)
    · rw [List.concat_eq_append] at *
      have := display_makes E (s := s) (l := l') (r := [y]) (by rw [h.1]; simp)
        (by rw [hc]; simp) hs
      refine wp_mono this (fun _ s' h' => ⟨by rw [h'.1]; simp, ?_⟩) (fun _ _ _ => trivial)
        (fun _ _ => trivial)
      rw [h'.2]; simp [hn]
  · have hc := h.2
    rw [if_neg hx] at hc
    exact wp_mono (display_makes E h.1 hc hs) (fun _ _ h' => h') (fun _ _ _ => trivial)
      (fun _ _ => trivial)

theorem complete_next_wp {x m c : Text} {cs : List Text} {o : Option Nat} {i : Nat}
    {comp : Text → List Text} (hh : s.showCompletionsHint = some (cs, o))
    (h : text? s = some (l ++ m ++ x)) (hs : SearchOnNewLine s)
    (ho : ∀ k, o = some k → cs[k]? = some m)
    (hdel : (o ≠ none → ¬ (l = [] ∧ x = [])) → ∀ s1 : Ed, text? s1 = text? s →
      s1.cursor = s.cursor → SearchOnNewLine s1 →
      WpMakes (deleteWordBeforeCursor E false) s1 s1.noEol l x)
    (he : s.noEol = true → x ≠ [] ∨ l = []) (hi : nextCandidate cs.length o = some i)
    (hc : cs[i]? = some c) :
    Wp (complete E comp) s (fun _ s' => Cycle cs l x i s' ∧ s'.noEol = s.noEol) (fun _ _ => True)
      (fun _ => True) := by
  unfold complete
  rw [wp_bind, wp_get]
  simp only [hh]
  rw [wp_bind]
  refine wp_mono (completeNext_wp h hs ho hdel he hi hc)
    (fun _ s1 h1 => ?_) (fun _ _ _ => trivial) (fun _ _ => trivial)
  obtain ⟨h1, h2, h3, h4⟩ := h1
  rw [← h3] at h1
  refine wp_mono (wp_and (display_lands h1 h2) (display_calm E s1)) (fun _ s2 h5 => ?_)
    (fun _ _ _ => trivial) (fun _ _ => trivial)
  obtain ⟨h5, h6⟩ := h5
  have hn : s2.noEol = s.noEol := h6.2.1.trans h3
  rw [← h6.2.1] at h5
  exact ⟨⟨h6.2.2.trans h4, h6.1 h2, by rw [hn]; exact he, ⟨c, hc, h5⟩⟩, hn⟩

/-- The next candidate in turn. -/
theorem Cycle.next {x : Text} {cs : List Text} {i : Nat} {comp : Text → List Text}
    (hw : E.words = getBufferWords) (h : Cycle cs l x i s)
    (hst : ∀ c ∈ cs, Starts l c x) :
    Wp (complete E comp) s (fun _ s' => Cycle cs l x ((i + 1) % cs.length) s' ∧ s'.noEol = s.noEol)
      (fun _ _ => True) (fun _ => True) := by
  obtain ⟨c, hc, hat⟩ := h.ex
  have hpos : 0 < cs.length := by
    have := (List.getElem?_eq_some_iff.mp hc).1; omega
  have hlt := Nat.mod_lt (i + 1) hpos
  refine complete_next_wp (i := (i + 1) % cs.length) (c := cs[(i + 1) % cs.length]) h.hint
    hat.1 h.son (fun k hk => by cases hk; exact hc) (fun hlx s1 h1 h2 h3 => ?_) h.eol ?_
    (List.getElem?_eq_getElem hlt)
  · obtain ⟨ws, hd⟩ := division_ex (l ++ c ++ x)
    have hat' : At s (l ++ c) x := by
      refine ⟨hat.1, ?_⟩
      have := hat.2
      rw [if_neg] at this
      · exact this
      · rintro ⟨hn, hx⟩
        rcases h.eol hn with h' | h'
        · exact h' hx
        · exact hlx (by simp) ⟨h', hx⟩
    have hat1 : At s1 (l ++ c) x := ⟨h1.trans hat'.1, h2.trans hat'.2⟩
    obtain ⟨g1, g2⟩ := divides hw hat1.1 hd
    obtain ⟨e, he⟩ := hst c (List.mem_of_getElem? hc) ws hd
    exact deleteWord_makes g1 g2 hat1 h3 he
  · simp only [nextCandidate]
    rw [if_neg (by omega)]

/-- The first candidate. -/
theorem cycle_first {w1 w2 : Text} {cs : List Text} {comp : Text → List Text}
    (hw : E.words = getBufferWords) (hh : s.showCompletionsHint = some (cs, none)) (hne : cs ≠ [])
    (h : At s (l ++ w1) (w2 ++ r)) (hs : SearchOnNewLine s) (ht : Touched l w1 w2 r)
    (he : s.noEol = true → w2 ++ r ≠ [] ∨ l = []) :
    Wp (complete E comp) s (fun _ s' => Cycle cs l (w2 ++ r) 0 s' ∧ s'.noEol = s.noEol)
      (fun _ _ => True) (fun _ => True) := by
  have hpos : 0 < cs.length := List.length_pos_iff.mpr hne
  exact complete_next_wp (i := 0) (c := cs[0]) hh h.1 hs (fun k hk => by cases hk)
    (fun _ s1 h1 h2 h3 => deleteTouched hw ⟨h1.trans h.1, h2.trans h.2⟩ h3 ht) he rfl
    (List.getElem?_eq_getElem hpos)

/-- Candidates one after the other. -/
theorem Cycle.tabs {x : Text} {cs : List Text} {i : Nat} (hw : E.words = getBufferWords)
    (comps : List (Text → List Text)) (h : Cycle cs l x i s) (hst : ∀ c ∈ cs, Starts l c x) :
    Wp (runOps E (comps.map .complete)) s
      (fun _ s' => ∃ j, j = (if comps = [] then i else (i + comps.length) % cs.length) ∧
        Cycle cs l x j s' ∧ s'.noEol = s.noEol)
      (fun _ _ => True) (fun _ => True) := by
  induction comps generalizing s i with
  | nil => exact ⟨i, by simp, h, rfl⟩
  | cons c comps ih =>
    simp only [List.map_cons, runOps, runOp, wp_bind]
    refine wp_mono (h.next hw hst) (fun _ s1 h1 => ?_) (fun _ _ _ => trivial) (fun _ _ => trivial)
    refine wp_mono (ih h1.1) (fun _ s2 h2 => ?_) (fun _ _ _ => trivial) (fun _ _ => trivial)
    obtain ⟨j, hj, h2, h3⟩ := h2
    refine ⟨j, ?_, h2, h3.trans h1.2⟩
    rw [hj]
    split
    · rename_i h; subst h; simp
    · simp only [reduceCtorEq, if_false, List.length_cons, Nat.mod_add_mod]
      congr 1; omega

end
end Editor
end Liner
