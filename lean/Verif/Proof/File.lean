import Verif.Model.Complete
import Verif.Spec.File
/-
Proofs about paths and file name completion.
-/

namespace Liner.Path
open Liner Liner.Spec

theorem splitOn_eq (t : Text) : Buffer.splitOn (· == '/') t = t.splitOn '/' := by
  induction t with
  | nil => rfl
  | cons c t ih =>
    rw [List.splitOn_cons_eq_if_modifyHead, Buffer.splitOn, ih]
    by_cases h : c = '/'
    · simp [h]
    · rw [if_neg (by simpa using h), if_neg (by simpa using h)]
      cases hs : t.splitOn '/' with
      | nil => exact absurd hs (List.splitOn_ne_nil _ _)
      | cons a l => rfl

theorem pieces_eq (t : Text) : pieces t = (t.drop (front t)).splitOn '/' := splitOn_eq _

theorem blank_iff (p : Text) : blank p = true ↔ p = [] ∨ p = ['.'] := by
  unfold blank; simp

theorem steps_eq (t : Text) : steps t = (t.splitOn '/').filter (!blank ·) := by
  unfold steps
  apply List.filter_congr
  intro p _
  rw [Bool.eq_iff_iff]
  simp [blank]

theorem steps_cut (a b : Text) : steps (a ++ '/' :: b) = steps a ++ steps b := by
  rw [steps_eq, List.splitOn_append_cons_self, List.filter_append, ← steps_eq, ← steps_eq]

theorem steps_nil : steps [] = [] := by decide
theorem steps_dot : steps ['.'] = [] := by decide

theorem steps_name {n : Text} (h : '/' ∉ n) (h1 : n ≠ []) (h2 : n ≠ ['.']) : steps n = [n] := by
  rw [steps_eq, List.splitOn_eq_singleton h]
  have : blank n = false := by
    rw [Bool.eq_false_iff]; intro h; rw [blank_iff] at h; exact h.elim h1 h2
  simp [this]

theorem join_split (t : Text) : join (t.splitOn '/') = t := by
  unfold join
  induction t with
  | nil => rfl
  | cons c t ih =>
    rw [List.splitOn_cons_eq_if_modifyHead]
    cases hs : t.splitOn '/' with
    | nil => exact absurd hs (List.splitOn_ne_nil _ _)
    | cons a l =>
      rw [hs] at ih
      by_cases h : c = '/'
      · rw [if_pos (by simpa using h), h, List.intercalate_cons_cons, ih]
        rfl
      · rw [if_neg (by simpa using h)]
        cases l with
        | nil =>
          simp only [List.intercalate_singleton, List.modifyHead_cons] at ih ⊢
          rw [ih]
        | cons b l =>
          rw [List.modifyHead_cons, List.intercalate_cons_cons]
          rw [List.intercalate_cons_cons] at ih
          simp only [List.cons_append, ih]

theorem split_no {t p : Text} (h : p ∈ t.splitOn '/') : '/' ∉ p := by
  induction t generalizing p with
  | nil =>
    rw [show ([] : Text).splitOn '/' = [[]] from rfl] at h
    simp at h; simp [h]
  | cons c t ih =>
    rw [List.splitOn_cons_eq_if_modifyHead] at h
    cases hs : t.splitOn '/' with
    | nil => exact absurd hs (List.splitOn_ne_nil _ _)
    | cons a l =>
      rw [hs] at h ih
      split at h
      · rcases List.mem_cons.1 h with rfl | h
        · simp
        · exact ih h
      · rename_i hc
        rw [List.modifyHead_cons] at h
        rcases List.mem_cons.1 h with rfl | h
        · have := ih (p := a) (by simp)
          simp only [List.mem_cons, not_or]
          exact ⟨fun h => hc (by simp [← h]), this⟩
        · exact ih (by simp [h])

theorem join_append {a b : List Text} (ha : a ≠ []) (hb : b ≠ []) : join (a ++ b) = join a ++ '/' :: join b := by
  unfold join
  induction a with
  | nil => exact absurd rfl ha
  | cons x a ih =>
    cases a with
    | nil =>
      cases b with
      | nil => exact absurd rfl hb
      | cons y b => simp [List.intercalate_cons_cons]
    | cons z a =>
      have := ih (by simp)
      rw [List.cons_append, List.cons_append, List.intercalate_cons_cons, ← List.cons_append, this,
        List.intercalate_cons_cons]
      simp

theorem steps_join {ps : List Text} (h : ∀ p ∈ ps, blank p = true) : steps (join ps) = [] := by
  induction ps with
  | nil => exact steps_nil
  | cons p ps ih =>
    have hp : steps p = [] := by
      rcases (blank_iff p).1 (h p (by simp)) with rfl | rfl
      · exact steps_nil
      · exact steps_dot
    have hj : join [p] = p := by simp [join]
    cases ps with
    | nil => rw [hj]; exact hp
    | cons q qs =>
      have := join_append (a := [p]) (b := q :: qs) (by simp) (by simp)
      rw [List.singleton_append] at this
      rw [this, steps_cut, ih fun p hp => h p (by simp [hp])]
      rw [hj, hp]; rfl

/-! ### The directory of a name -/

/-- A path without the blank pieces at its end. -/
def trim (y : Text) : Text := y.take (front y) ++ join ((pieces y).reverse.dropWhile blank).reverse

theorem front_le (y : Text) : front y ≤ y.length := by
  unfold front isAbsolute startsCur
  cases y with
  | nil => simp
  | cons c y => split <;> simp

theorem front_cases (y : Text) : front y = 0 ∨ (front y = 1 ∧ ∃ z, y = '/' :: z) ∨
    (front y = 1 ∧ (y = ['.'] ∨ ∃ z, y = '.' :: '/' :: z)) := by
  unfold front isAbsolute startsCur
  match y with
  | [] => simp
  | [c] =>
    by_cases h : c = '/'
    · simp [h]
    · by_cases h' : c = '.' <;> simp [h, h']
  | c :: d :: z =>
    by_cases h : c = '/'
    · simp [h]
    · by_cases h' : c = '.'
      · by_cases h2 : d = '/' <;> simp [h', h2]
      · simp [h, h']

/-- What `trim` takes away. -/
theorem trim_spec (y : Text) : (y = trim y ∨ (∃ z, y = trim y ++ '/' :: z ∧ steps z = [])) ∨
    (trim y = y.take (front y) ∧ steps y = []) := by
  have hy : y = y.take (front y) ++ join (pieces y) := by
    rw [pieces_eq, join_split, List.take_append_drop]
  have hR : pieces y = ((pieces y).reverse.dropWhile blank).reverse ++ ((pieces y).reverse.takeWhile blank).reverse := by
    rw [← List.reverse_append, List.takeWhile_append_dropWhile, List.reverse_reverse]
  have hB : ∀ p ∈ ((pieces y).reverse.takeWhile blank).reverse, blank p = true := fun p hp =>
    List.all_eq_true.1 List.all_takeWhile p (List.mem_reverse.1 hp)
  unfold trim
  generalize ((pieces y).reverse.dropWhile blank).reverse = R at hR ⊢
  generalize ((pieces y).reverse.takeWhile blank).reverse = B at hR hB
  by_cases h0 : R = []
  · right
    subst h0
    rw [List.nil_append] at hR
    refine ⟨by simp [join], ?_⟩
    rcases front_cases y with h | ⟨h, z, rfl⟩ | ⟨h, rfl | ⟨z, rfl⟩⟩
    · rw [hy, h, hR]
      simpa using steps_join hB
    · rw [h] at hy
      simp only [List.take_succ_cons, List.take_zero, List.cons_append, List.nil_append, List.cons.injEq, true_and] at hy
      have := steps_cut [] z
      rw [List.nil_append] at this
      rw [this, steps_nil, List.nil_append]
      rw [hR] at hy
      rw [hy]; exact steps_join hB
    · exact steps_dot
    · rw [h] at hy
      simp only [List.take_succ_cons, List.take_zero, List.cons_append, List.nil_append, List.cons.injEq, true_and] at hy
      have := steps_cut ['.'] z
      rw [List.singleton_append] at this
      rw [this, steps_dot, List.nil_append]
      have h3 := steps_cut [] z
      rw [List.nil_append, steps_nil, List.nil_append] at h3
      rw [← h3, hy, hR]; exact steps_join hB
  · left
    by_cases hb : B = []
    · left
      subst hb
      rw [List.append_nil] at hR
      rw [← hR]; exact hy
    · right
      refine ⟨join B, ?_, steps_join hB⟩
      rw [List.append_assoc, ← join_append h0 hb, ← hR]
      exact hy

theorem trim_steps (y : Text) : steps (trim y) = steps y := by
  rcases trim_spec y with (h | ⟨z, h, hz⟩) | ⟨h, h0⟩
  · rw [← h]
  · conv => rhs; rw [h]
    rw [steps_cut, hz, List.append_nil]
  · rw [h, h0]
    rcases front_cases y with h | ⟨h, z, rfl⟩ | ⟨h, rfl | ⟨z, rfl⟩⟩ <;> rw [h]
    · exact steps_nil
    · show steps ['/'] = []; decide
    · exact steps_dot
    · exact steps_dot

theorem trim_root (y : Text) : rooted (trim y) ↔ rooted y := by
  unfold rooted
  rcases trim_spec y with (h | ⟨z, h, hz⟩) | ⟨h, h0⟩
  · rw [← h]
  · cases ht : trim y with
    | nil =>
      exfalso
      rw [ht, List.nil_append] at h
      have hf : front y = 1 := by rw [h]; rfl
      unfold trim at ht
      rw [hf, h] at ht
      cases ht
    | cons c t => rw [h, ht]; rfl
  · rw [h]
    rcases front_cases y with hf | ⟨hf, z, rfl⟩ | ⟨hf, rfl | ⟨z, rfl⟩⟩ <;> rw [hf]
    · unfold front at hf
      constructor
      · intro h; simp at h
      · intro h
        rw [show isAbsolute y = true by unfold isAbsolute; simp [h]] at hf
        simp at hf
    all_goals simp

theorem isAbsolute_iff (t : Text) : isAbsolute t = true ↔ rooted t := by unfold isAbsolute rooted; simp

theorem name_front {n : Text} (h : '/' ∉ n) (h2 : n ≠ ['.']) : front n = 0 := by
  rcases front_cases n with h' | ⟨-, z, rfl⟩ | ⟨-, rfl | ⟨z, rfl⟩⟩
  · exact h'
  · simp at h
  · exact absurd rfl h2
  · simp at h

theorem cut_front {y n : Text} (hy : y ≠ []) : front (y ++ '/' :: n) = front y := by
  unfold front isAbsolute startsCur
  match y with
  | [c] => by_cases h : c = '.' <;> simp [h]
  | c :: d :: z => simp

theorem name_blank {n : Text} (h1 : n ≠ []) (h2 : n ≠ ['.']) : blank n = false := by
  rw [Bool.eq_false_iff]; intro h; rw [blank_iff] at h; exact h.elim h1 h2

/-- The pieces of a path that ends in a name. -/
theorem pieces_cut {y n : Text} (h : '/' ∉ n) :
    pieces (y ++ '/' :: n) = (if y = [] then [] else pieces y) ++ [n] := by
  by_cases hy : y = []
  · subst hy
    rw [pieces_eq, if_pos rfl]
    show (n.splitOn '/') = _
    rw [List.splitOn_eq_singleton h]; rfl
  · rw [pieces_eq, cut_front hy, if_neg hy, List.drop_append_of_le_length (front_le y), List.splitOn_append_cons_self,
      List.splitOn_eq_singleton h, pieces_eq]

theorem parent_cut {y n : Text} (h : '/' ∉ n) (h1 : n ≠ []) (h2 : n ≠ ['.']) :
    parent (y ++ '/' :: n) = some (if y = [] then ['/'] else trim y) := by
  have hb := name_blank h1 h2
  unfold parent
  rw [pieces_cut h, List.reverse_append, List.reverse_singleton, List.singleton_append, List.dropWhile_cons_of_neg (by simp [hb])]
  by_cases hy : y = []
  · subst hy
    simp [join, front, isAbsolute]
  · rw [if_neg hy, if_neg hy, cut_front hy, List.take_append_of_le_length (front_le y)]
    rfl

theorem parent_name {n : Text} (h : '/' ∉ n) (h1 : n ≠ []) (h2 : n ≠ ['.']) : parent n = some [] := by
  have hb := name_blank h1 h2
  unfold parent
  rw [pieces_eq, name_front h h2, List.drop_zero, List.splitOn_eq_singleton h, List.reverse_singleton,
    List.dropWhile_cons_of_neg (by simp [hb])]
  simp [join]

theorem comps_last {x n : Text} (hx : Folder x) (h : '/' ∉ n) (h1 : n ≠ []) (h2 : n ≠ ['.']) :
    (comps (x ++ n)).getLast? = some (piece n) := by
  have hb := name_blank h1 h2
  unfold comps
  rcases hx with rfl | ⟨y, rfl⟩
  · rw [List.nil_append, pieces_eq, name_front h h2, List.drop_zero, List.splitOn_eq_singleton h]
    simp [hb]
  · rw [List.append_assoc, List.singleton_append, pieces_cut h]
    simp [hb]

theorem fileName_last {x n : Text} (hx : Folder x) (h : '/' ∉ n) (h1 : n ≠ []) (h2 : n ≠ ['.']) (h3 : n ≠ ['.', '.']) :
    fileName (x ++ n) = some n ∧ endsParent (x ++ n) = false := by
  unfold fileName endsParent
  rw [comps_last hx h h1 h2, piece, if_neg h3]
  simp

/-! ### Adding to a path -/

theorem push_folder (w : Text) {d : Text} (hd : Folder d) : Folder (push w d) := by
  unfold push
  rcases hd with rfl | ⟨e, rfl⟩
  · rw [if_neg (by simp [isAbsolute])]
    split
    · exact .inr ⟨w, rfl⟩
    · rename_i h
      rw [List.append_nil]
      by_cases hw : w = []
      · exact .inl hw
      · rw [not_and, Decidable.not_not] at h
        obtain ⟨v, rfl⟩ := List.getLast?_eq_some_iff.1 (h hw)
        exact .inr ⟨v, rfl⟩
  · split
    · exact .inr ⟨e, rfl⟩
    · split
      · exact .inr ⟨w ++ '/' :: e, by simp⟩
      · exact .inr ⟨w ++ e, by simp⟩

theorem push_app (w : Text) {d n : Text} (h : '/' ∉ n) : push w (d ++ n) = push w d ++ n := by
  unfold push
  have : isAbsolute (d ++ n) = isAbsolute d := by
    cases d with
    | nil =>
      cases n with
      | nil => rfl
      | cons c n =>
        have : c ≠ '/' := fun hc => h (by simp [hc])
        simp [isAbsolute, this]
    | cons c d => rfl
  rw [this]
  split
  · rfl
  · split <;> simp

theorem push_steps (w d : Text) : steps (push w d) = if rooted d then steps d else steps w ++ steps d := by
  unfold push
  by_cases hr : rooted d
  · rw [if_pos ((isAbsolute_iff d).2 hr), if_pos hr]
  · rw [if_neg (by rwa [isAbsolute_iff]), if_neg hr]
    split
    · rw [steps_cut]
    · rename_i h
      by_cases hw : w = []
      · subst hw; simp [steps_nil]
      · rw [not_and, Decidable.not_not] at h
        obtain ⟨v, rfl⟩ := List.getLast?_eq_some_iff.1 (h hw)
        rw [List.append_assoc, List.singleton_append, steps_cut]
        have := steps_cut v []
        rw [steps_nil, List.append_nil] at this
        rw [this]

theorem push_root (w d : Text) : rooted (push w d) ↔ rooted d ∨ rooted w := by
  unfold push
  by_cases hr : rooted d
  · rw [if_pos ((isAbsolute_iff d).2 hr)]; simp [hr]
  · rw [if_neg (by rwa [isAbsolute_iff])]
    cases w with
    | nil => simp [rooted]
    | cons c w => split <;> simp [rooted] <;> exact fun h => absurd h hr

/-- The directory read for a name in `d`. -/
theorem parent_reaches {x n : Text} (hx : Folder x) (h : '/' ∉ n) (h1 : n ≠ []) (h2 : n ≠ ['.']) :
    ∃ p, parent (x ++ n) = some p ∧ (rooted p ↔ rooted x) ∧ steps p = steps x := by
  rcases hx with rfl | ⟨y, rfl⟩
  · exact ⟨[], by rw [List.nil_append]; exact parent_name h h1 h2, Iff.rfl, rfl⟩
  · refine ⟨_, by rw [List.append_assoc, List.singleton_append]; exact parent_cut h h1 h2, ?_⟩
    split
    · subst y; exact ⟨Iff.rfl, rfl⟩
    · rename_i hy
      rw [trim_root, trim_steps]
      constructor
      · cases y with
        | nil => exact absurd rfl hy
        | cons c y => rfl
      · have := steps_cut y []
        rw [steps_nil, List.append_nil] at this
        exact this.symm

/-- Adding another name to it. -/
theorem parent_push {d n : Text} (hd : Tidy d) (h : '/' ∉ n) (h1 : n ≠ []) (h2 : n ≠ ['.']) :
    ∃ q, parent (d ++ n) = some q ∧ ∀ f, ¬ rooted f → push q f = d ++ f := by
  have key : ∀ q f, ¬ rooted f → q ≠ [] → q.getLast? ≠ some '/' → push q f = q ++ '/' :: f := fun q f hf hq hl => by
    unfold push
    rw [if_neg (by rwa [isAbsolute_iff]), if_pos ⟨hq, hl⟩]
  rcases hd with rfl | rfl | rfl | ⟨e, m, rfl, he, hm, hm1, hm2⟩
  · refine ⟨[], by rw [List.nil_append]; exact parent_name h h1 h2, fun f hf => ?_⟩
    unfold push
    rw [if_neg (by rwa [isAbsolute_iff])]
    simp
  · refine ⟨['/'], parent_cut (y := []) h h1 h2, fun f hf => ?_⟩
    unfold push
    rw [if_neg (by rwa [isAbsolute_iff])]
    simp
  · refine ⟨['.'], parent_cut (y := ['.']) h h1 h2, fun f hf => ?_⟩
    exact key _ _ hf (by simp) (by simp)
  · have hne : e ++ m ≠ [] := by simp [hm1]
    have htr : trim (e ++ m) = e ++ m := by
      have hp : ∃ ps, pieces (e ++ m) = ps ++ [m] := by
        rcases he with rfl | ⟨y, rfl⟩
        · refine ⟨[], ?_⟩
          rw [List.nil_append, pieces_eq, name_front hm hm2, List.drop_zero, List.splitOn_eq_singleton hm]; rfl
        · exact ⟨_, by rw [List.append_assoc, List.singleton_append]; exact pieces_cut hm⟩
      obtain ⟨ps, hp⟩ := hp
      unfold trim
      have : ((pieces (e ++ m)).reverse.dropWhile blank).reverse = pieces (e ++ m) := by
        rw [hp, List.reverse_append, List.reverse_singleton, List.singleton_append,
          List.dropWhile_cons_of_neg (by simp [name_blank hm1 hm2])]
        simp
      rw [this, pieces_eq, join_split, List.take_append_drop]
    refine ⟨e ++ m, ?_, fun f hf => ?_⟩
    · have := parent_cut (y := e ++ m) h h1 h2
      rw [if_neg hne, htr] at this
      rw [← this]; simp
    · rw [key _ _ hf hne]
      · simp
      · intro hl
        rw [List.getLast?_append, Option.or_eq_some_iff] at hl
        rcases hl with hl | ⟨hl, -⟩
        · exact hm (List.mem_of_getLast? hl)
        · exact hm1 (List.getLast?_eq_none_iff.1 hl)

end Liner.Path

namespace Liner
open Liner.Spec Liner.Path

/-! ### Words -/

theorem escape_eq (t : Text) : escape t = spaced t := by
  unfold escape
  induction t with
  | nil => rfl
  | cons c t ih =>
    rw [List.flatMap_cons, ih, spaced]
    split <;> rfl

theorem unescape_cons {c : Char} {t : Text} (h : ¬ (c = '\\' ∧ t.head? = some ' ')) :
    unescape (c :: t) = c :: unescape t := by
  rw [unescape.eq_def]
  split
  · rename_i heq; cases heq
  · rename_i heq; cases heq
    exact absurd ⟨rfl, rfl⟩ h
  · rename_i heq; cases heq; rfl

theorem unescape_spaced (t : Text) : unescape (spaced t) = t := by
  induction t with
  | nil => rfl
  | cons c t ih =>
    rw [spaced]
    split
    · rename_i h; subst h
      show ' ' :: unescape (spaced t) = _
      rw [ih]
    · rw [unescape_cons, ih]
      rintro ⟨-, h⟩
      cases t with
      | nil => cases h
      | cons d t =>
        rw [spaced] at h
        split at h
        · cases h
        · rename_i hd; simp at h; exact hd h

theorem spaced_append (a b : Text) : spaced (a ++ b) = spaced a ++ spaced b := by
  induction a with
  | nil => rfl
  | cons c a ih =>
    rw [List.cons_append, spaced, spaced, ih]
    split <;> rfl

theorem spaced_nil_iff (t : Text) : spaced t = [] ↔ t = [] := by
  cases t with
  | nil => simp [spaced]
  | cons c t => rw [spaced]; split <;> simp

theorem spaced_last (t : Text) : (spaced t).getLast? = t.getLast? := by
  rcases List.eq_nil_or_concat t with rfl | ⟨t, c, rfl⟩
  · rfl
  · rw [List.concat_eq_append, spaced_append, List.getLast?_append, List.getLast?_append]
    by_cases h : c = ' ' <;> simp [spaced, h]

/-- What the word stands for. -/
theorem wordOf_writes {w x : Text} (h : Writes w x) :
    ∃ s, wordOf w = some (s, x) ∧ (s = [] ↔ x = []) ∧ s.getLast? = x.getLast? := by
  have hq : ∀ (q : Char) (t : Text), q = '"' ∨ q = '\'' → wordOf (q :: (t ++ [q])) = some (t, t) := by
    intro q t hq
    unfold wordOf
    have h1 : quoted (q :: (t ++ [q])) = true := by
      rcases hq with rfl | rfl <;> simp [quoted]
    have h2 : q.utf8Size = 1 := by rcases hq with rfl | rfl <;> decide
    rw [if_pos h1]
    simp [h2]
  rcases h with ⟨rfl, h1, h2⟩ | rfl | rfl
  · refine ⟨_, ?_, spaced_nil_iff x, spaced_last x⟩
    unfold wordOf
    rw [if_neg (by simp [quoted, h1, h2]), unescape_spaced]
  · exact ⟨x, hq _ _ (.inl rfl), Iff.rfl, rfl⟩
  · exact ⟨x, hq _ _ (.inr rfl), Iff.rfl, rfl⟩

/-! ### The entries -/

theorem entry_rel {file : Text} (h : file ≠ [] ∧ '/' ∉ file) (r : Text) : ¬ rooted (file ++ r) := by
  unfold rooted
  cases file with
  | nil => exact absurd rfl h.1
  | cons c f =>
    have : c ≠ '/' := fun hc => h.2 (by simp [hc])
    simp [this]

theorem push_nil (u : Text) : push [] u = u := by
  unfold push; split <;> simp

theorem push_abs {t u : Text} (h : rooted u) : push t u = u := by
  unfold push; rw [if_pos ((isAbsolute_iff u).2 h)]

theorem push_slash {d u : Text} (hd : Folder d) (h : ¬ rooted u) : push d u = d ++ u := by
  unfold push
  rw [if_neg (by rwa [isAbsolute_iff])]
  rcases hd with rfl | ⟨e, rfl⟩ <;> simp

theorem offers (fold : Text → Text) {owned name : Text} {dir : Bool} (d n : Text)
    (hname : ∀ file, (name.isEmpty || name.isPrefixOf (fold file)) = true ↔ n = [] ∨ fold n <+: fold file)
    (a : Text)
    (ha : (if !isAbsolute owned then some [] else if dir then some owned
      else (if (pop owned).2 then some (pop owned).1 else none)) = some a)
    (hb : ∀ e : Text × Bool, e.1 ≠ [] ∧ '/' ∉ e.1 →
      push (if dir then owned else (pop owned).1) (push a e.1 ++ if e.2 then ['/'] else [])
        = d ++ e.1 ++ if e.2 then ['/'] else []) :
    ∀ es, Names es → matchEntries fold owned name dir es = some (es.filterMap (offer fold d n))
  | [], _ => rfl
  | none :: es, h => by
    rw [matchEntries, offers fold d n hname a ha hb es fun e he => h e (by simp [he])]
    rfl
  | some (file, isDir) :: es, h => by
    rw [matchEntries]
    have hrec := offers fold d n hname a ha hb es fun e he => h e (by simp [he])
    have h1 := h (file, isDir) (by simp)
    have h2 := hb (file, isDir) h1
    by_cases hm : n = [] ∨ fold n <+: fold file
    · rw [if_pos ((hname file).2 hm)]
      dsimp only
      rw [ha]
      dsimp only
      rw [hrec, h2, escape_eq, List.filterMap_cons]
      simp [offer, hm, written]
    · rw [if_neg (by rw [hname]; exact hm), hrec, List.filterMap_cons]
      simp [offer, hm]

/-- The completions of a name in a directory. -/
theorem file_names (D : Disk) (wd : Option Text) (cs : Bool) {w d n : Text} (hw : Writes w (d ++ n)) (hd : Folder d)
    (hn : '/' ∉ n) (h1 : n ≠ ['.']) (h2 : n ≠ ['.', '.']) (ht : n = [] ∨ Tidy d)
    (hN : ∀ p es, D.readDir p = some es → Names es) :
    ∃ p, Reaches wd d p ∧
      fileCompletions D wd cs w =
        some (((D.readDir p).getD []).filterMap (offer (if cs then id else D.lower) d n)) := by
  obtain ⟨s, hws, hs0, hsl⟩ := wordOf_writes hw
  have hfull : fullPath wd (d ++ n) = push (wd.getD []) d ++ n := by
    unfold fullPath
    cases wd with
    | none => simp [push_nil]
    | some wd => exact push_app wd hn
  have hx : Folder (push (wd.getD []) d) := push_folder _ hd
  unfold fileCompletions
  rw [hws]
  dsimp only
  rw [hfull]
  generalize hfold : (if cs = true then id else D.lower) = fold
  have habs : n ≠ [] → (isAbsolute (d ++ n) = true ↔ rooted d) := fun hn0 => by
    rw [isAbsolute_iff]
    unfold rooted
    cases d with
    | nil =>
      cases n with
      | nil => exact absurd rfl hn0
      | cons c n =>
        have : c ≠ '/' := fun hc => hn (by simp [hc])
        simp [this]
    | cons c d => rfl
  by_cases hn0 : n = []
  · subst hn0
    rw [List.append_nil] at hsl hs0 ⊢
    have hnt : (d.getLast? != some '/') = false ∨ d = [] := by
      rcases hd with rfl | ⟨e, rfl⟩
      · exact .inr rfl
      · left; simp
    have htar : target fold s d (push (wd.getD []) d) = some (push (wd.getD []) d, [], true) := by
      have hdir : (s.isEmpty || s.getLast? == some '/') = true := by
        rw [hsl]
        rcases hd with rfl | ⟨e, rfl⟩
        · simp [hs0.2 rfl]
        · simp
      unfold target
      rw [hdir]
      have hg : (!s.isEmpty && d.getLast? != some '/' && !endsParent (push (wd.getD []) d)) = false := by
        rcases hnt with h | h
        · rw [h]; simp
        · simp [hs0.2 h]
      split
      · rw [hg]; simp
      · simp
    rw [List.append_nil, htar]
    refine ⟨push (wd.getD []) d, ⟨push_root _ _, push_steps _ _⟩, ?_⟩
    dsimp only
    cases hr : D.readDir (push (wd.getD []) d) with
    | none => rfl
    | some es =>
      dsimp only
      rw [offers fold d [] (by simp) (if isAbsolute d then d else []) (by cases isAbsolute d <;> simp) ?_ es (hN _ _ hr)]
      · rfl
      · intro e he
        rw [if_pos rfl]
        by_cases ha : isAbsolute d = true
        · rw [if_pos ha, push_slash (u := e.1) hd (by simpa using entry_rel he []), push_abs]
          rw [isAbsolute_iff] at ha
          unfold rooted at ha ⊢
          cases d with
          | nil => cases ha
          | cons c d => exact ha
        · rw [if_neg ha, push_nil, push_slash hd (entry_rel he _), List.append_assoc]
  · have ht := ht.resolve_left hn0
    obtain ⟨q, hq, hpush⟩ := parent_push ht hn hn0 h1
    obtain ⟨p, hp, hroot, hsteps⟩ := parent_reaches hx hn hn0 h1
    obtain ⟨hfn, hep⟩ := fileName_last hx hn hn0 h1 h2
    have hlast : (d ++ n).getLast? ≠ some '/' := by
      intro h
      rw [List.getLast?_append, Option.or_eq_some_iff] at h
      rcases h with h | ⟨h, -⟩
      · exact hn (List.mem_of_getLast? h)
      · exact hn0 (List.getLast?_eq_none_iff.1 h)
    have hs : s ≠ [] := fun h => by
      have := hs0.1 h; simp [hn0] at this
    have htar : target fold s (d ++ n) (push (wd.getD []) d ++ n) = some (p, fold n, false) := by
      unfold target
      rw [hp, hfn, hep]
      have : (!s.isEmpty && (d ++ n).getLast? != some '/' && !false) = true := by
        cases s with
        | nil => exact absurd rfl hs
        | cons c s => simpa using hlast
      dsimp only
      rw [if_pos this]; rfl
    rw [htar]
    refine ⟨p, ⟨hroot.trans (push_root _ _), by rw [hsteps]; exact push_steps _ _⟩, ?_⟩
    dsimp only
    have hpop : pop (d ++ n) = (q, true) := by unfold pop; rw [hq]
    cases hr : D.readDir p with
    | none => rfl
    | some es =>
      dsimp only
      rw [offers fold d n ?_ (if isAbsolute (d ++ n) then q else []) ?_ ?_ es (hN _ _ hr)]
      · rfl
      · intro file
        simp only [hn0, false_or, Bool.or_eq_true, List.isEmpty_iff, List.isPrefixOf_iff_prefix]
        constructor
        · rintro (h | h)
          · rw [h]; exact List.nil_prefix
          · exact h
        · exact .inr
      · rw [hpop]; cases isAbsolute (d ++ n) <;> simp
      · intro e he
        rw [hpop, if_neg (by simp)]
        by_cases ha : isAbsolute (d ++ n) = true
        · rw [if_pos ha, hpush e.1 (by simpa using entry_rel he []), push_abs]
          rw [habs hn0] at ha
          unfold rooted at ha ⊢
          cases d with
          | nil => cases ha
          | cons c d => exact ha
        · rw [if_neg ha, push_nil]
          rw [hpush _ (entry_rel he _), List.append_assoc]

/-- The completions of `..`. -/
theorem file_parent (D : Disk) (wd : Option Text) (cs : Bool) {w d : Text} (hw : Writes w (d ++ ['.', '.'])) (hd : Folder d)
    (hN : ∀ p es, D.readDir p = some es → Names es) :
    ∃ p, Reaches wd (d ++ ['.', '.']) p ∧
      fileCompletions D wd cs w =
        some (((D.readDir p).getD []).filterMap
          (offer (if cs then id else D.lower) (d ++ ['.', '.', '/']) [])) := by
  obtain ⟨s, hws, hs0, hsl⟩ := wordOf_writes hw
  have hn : '/' ∉ ['.', '.'] := by decide
  have hfull : fullPath wd (d ++ ['.', '.']) = push (wd.getD []) d ++ ['.', '.'] := by
    unfold fullPath
    cases wd with
    | none => simp [push_nil]
    | some wd => exact push_app wd hn
  have hx : Folder (push (wd.getD []) d) := push_folder _ hd
  have hP : endsParent (push (wd.getD []) d ++ ['.', '.']) = true := by
    unfold endsParent
    rw [comps_last hx hn (by decide) (by decide)]; rfl
  unfold fileCompletions
  rw [hws]
  dsimp only
  rw [hfull]
  generalize hfold : (if cs = true then id else D.lower) = fold
  have htar : target fold s (d ++ ['.', '.']) (push (wd.getD []) d ++ ['.', '.']) =
      some (push (wd.getD []) d ++ ['.', '.'], [], true) := by
    unfold target
    rw [hP]
    split
    · simp
    · simp
  have hpp : push (wd.getD []) d ++ ['.', '.'] = push (wd.getD []) (d ++ ['.', '.']) := (push_app _ hn).symm
  rw [htar]
  refine ⟨_, ⟨push_root _ _, push_steps _ _⟩, ?_⟩
  rw [hpp]
  dsimp only
  have hdots : ∀ f, ¬ rooted f → push (d ++ ['.', '.']) f = d ++ ['.', '.', '/'] ++ f := fun f hf => by
    unfold push
    rw [if_neg (by rwa [isAbsolute_iff]), if_pos (by simp)]
    simp
  cases hr : D.readDir (push (wd.getD []) (d ++ ['.', '.'])) with
  | none => rfl
  | some es =>
    dsimp only
    rw [offers fold (d ++ ['.', '.', '/']) [] (by simp) (if isAbsolute (d ++ ['.', '.']) then d ++ ['.', '.'] else [])
      (by cases isAbsolute (d ++ ['.', '.']) <;> simp) ?_ es (hN _ _ hr)]
    · rfl
    · intro e he
      rw [if_pos rfl]
      by_cases ha : isAbsolute (d ++ ['.', '.']) = true
      · rw [if_pos ha, hdots e.1 (by simpa using entry_rel he []), push_abs]
        rw [isAbsolute_iff] at ha
        unfold rooted at ha ⊢
        cases d with
        | nil => cases ha
        | cons c d => exact ha
      · rw [if_neg ha, push_nil, hdots _ (entry_rel he _)]; simp

/-! ### When the completer panics -/

theorem steps_pieces (y : Text) : (pieces y).filter (!blank ·) = steps y := by
  rw [steps_eq, pieces_eq]
  rcases front_cases y with h | ⟨h, z, rfl⟩ | ⟨h, rfl | ⟨z, rfl⟩⟩ <;> rw [h]
  · rfl
  · have := List.splitOn_append_cons_self (a := '/') [] z
    rw [List.nil_append] at this
    rw [this]; rfl
  · rfl
  · have h1 := List.splitOn_append_cons_self (a := '/') ['.'] z
    have h2 := List.splitOn_append_cons_self (a := '/') [] z
    rw [List.singleton_append] at h1
    rw [List.nil_append] at h2
    show (('/' :: z).splitOn '/').filter _ = _
    rw [h1, h2]; rfl

theorem unrooted_front {y : Text} (hr : ¬ rooted y) (hs : steps y = []) (hy : y ≠ []) : startsCur y = true := by
  rcases front_cases y with h | ⟨h, z, rfl⟩ | ⟨h, rfl | ⟨z, rfl⟩⟩
  · exfalso
    unfold front at h
    by_cases h1 : (isAbsolute y || startsCur y) = true
    · rw [if_pos h1] at h; cases h
    · rw [Bool.not_eq_true, Bool.or_eq_false_iff] at h1
      have hp : ∀ p ∈ y.splitOn '/', blank p = true := by
        rw [steps_eq, List.filter_eq_nil_iff] at hs
        intro p hp
        simpa using hs p hp
      have hj := join_split y
      cases hsp : y.splitOn '/' with
      | nil => exact absurd hsp (List.splitOn_ne_nil _ _)
      | cons a l =>
        rw [hsp] at hj hp
        rcases (blank_iff a).1 (hp a (by simp)) with rfl | rfl
        · cases l with
          | nil => simp [join] at hj; exact hy hj
          | cons b l =>
            rw [join, List.intercalate_cons_cons] at hj
            apply hr
            rw [← hj]; rfl
        · cases l with
          | nil =>
            have : y = ['.'] := by rw [← hj]; simp [join]
            rw [this] at h1
            exact absurd h1.2 (by decide)
          | cons b l =>
            rw [join, List.intercalate_cons_cons] at hj
            rw [← hj] at h1
            have := h1.2
            simp [startsCur] at this
  · exact absurd rfl hr
  · rfl
  · rfl

theorem target_none (fold : Text → Text) {s x full : Text} (hf : x ≠ [] → full ≠ []) (hs : s = [] ↔ x = []) :
    target fold s x full = none ↔ x ≠ [] ∧ x.getLast? ≠ some '/' ∧ ¬ rooted full ∧ steps full = [] := by
  have hdrop : (pieces full).reverse.dropWhile blank = [] ↔ steps full = [] := by
    rw [← steps_pieces, List.filter_eq_nil_iff]
    constructor
    · intro h p hp
      have h2 := List.takeWhile_append_dropWhile (p := blank) (l := (pieces full).reverse)
      rw [h, List.append_nil] at h2
      have := List.all_eq_true.1 (List.all_takeWhile (p := blank) (l := (pieces full).reverse)) p (by rw [h2]; simpa using hp)
      simp [this]
    · intro h
      have h1 : ∀ p ∈ (pieces full).reverse, blank p = true := fun p hp => by simpa using h p (List.mem_reverse.1 hp)
      generalize (pieces full).reverse = l at h1
      induction l with
      | nil => rfl
      | cons a l ih =>
        rw [List.dropWhile_cons_of_pos (h1 a (by simp))]
        exact ih fun p hp => h1 p (by simp [hp])
  have hlast : steps full ≠ [] → ∃ n, (comps full).getLast? = some (piece n) := fun h => by
    unfold comps
    rw [steps_pieces]
    obtain ⟨l, n, hl⟩ := List.eq_nil_or_concat (steps full) |>.resolve_left h
    exact ⟨n, by rw [hl]; simp⟩
  unfold target
  constructor
  · intro h
    split at h
    · rename_i p hp
      split at h
      · rename_i hg
        simp only [Bool.and_eq_true, Bool.not_eq_true', List.isEmpty_eq_false_iff, bne_iff_ne] at hg
        rw [Option.map_eq_none_iff] at h
        have hst : steps full = [] := by
          refine Decidable.byContradiction fun hne => ?_
          obtain ⟨n, hn⟩ := hlast hne
          unfold fileName at h
          unfold endsParent at hg
          rw [hn] at h hg
          unfold piece at h hg
          split at h
          · cases h
          · split at hg
            · simp at hg
            · rename_i h1 h2
              rw [if_neg h2] at h1
              exact h1 n rfl
        refine ⟨fun h => hg.1.1 (hs.2 h), hg.1.2, fun hr => ?_, hst⟩
        unfold parent at hp
        rw [hdrop.2 hst] at hp
        dsimp only at hp
        rw [if_pos ((isAbsolute_iff full).2 hr)] at hp
        cases hp
      · cases h
    · cases h
  · rintro ⟨hx, hl, hr, hst⟩
    have hcur := unrooted_front hr hst (hf hx)
    have habs : isAbsolute full = false := by rw [Bool.eq_false_iff]; rwa [Ne, isAbsolute_iff]
    have hp : parent full = some [] := by
      unfold parent
      rw [hdrop.2 hst]
      dsimp only
      rw [habs, hcur]; rfl
    have hc : comps full = [.cur] := by
      unfold comps
      rw [steps_pieces, hst, habs, hcur]; rfl
    rw [hp]
    dsimp only
    have hg : (!s.isEmpty && x.getLast? != some '/' && !endsParent full) = true := by
      have : s ≠ [] := fun h => hx (hs.1 h)
      unfold endsParent
      rw [hc]
      simp [this, hl]
    rw [if_pos hg]
    unfold fileName
    rw [hc]; rfl

theorem full_ne {wd : Option Text} {x : Text} (h : x ≠ []) : fullPath wd x ≠ [] := by
  unfold fullPath
  split
  · unfold push
    split
    · exact h
    · split <;> simp [h]
  · exact h

theorem fileCompletions_none (D : Disk) (wd : Option Text) (cs : Bool) {w s x : Text} (hw : wordOf w = some (s, x))
    (hs : s = [] ↔ x = []) :
    fileCompletions D wd cs w = none ↔
      x ≠ [] ∧ x.getLast? ≠ some '/' ∧ ¬ rooted (fullPath wd x) ∧ steps (fullPath wd x) = [] := by
  rw [← target_none (if cs = true then id else D.lower) full_ne hs]
  unfold fileCompletions
  rw [hw]
  dsimp only
  cases target (if cs = true then id else D.lower) s x (fullPath wd x) with
  | none => simp
  | some t =>
    dsimp only
    cases D.readDir t.1 <;> simp

theorem full_eq (wd : Option Text) (x : Text) : fullPath wd x = push (wd.getD []) x := by
  unfold fullPath
  cases wd with
  | none => exact (push_nil x).symm
  | some wd => rfl

theorem unescape_nil_iff (t : Text) : unescape t = [] ↔ t = [] := by
  rw [unescape.eq_def]
  split <;> simp

end Liner
