import Verif.Spec.Vi
import Mathlib.Data.List.Range
/-
The motions of the vi key map as functions of the line and the cursor.
-/

namespace Liner
namespace Vi
open Liner.Spec

/-! ### The n-th position -/

section
variable {P : Nat → Bool}

theorem filter_range' (a : Nat) : ∀ m k i, ((List.range' a m).filter P)[k]? = some i ↔
    a ≤ i ∧ i < a + m ∧ P i = true ∧ Nat.count (P · = true) i = Nat.count (P · = true) a + k
  | 0, k, i => by simp; omega
  | m + 1, k, i => by
    rw [List.range'_succ]
    by_cases hp : P a = true
    · rw [List.filter_cons_of_pos hp]
      cases k with
      | zero =>
        simp only [List.getElem?_cons_zero, Option.some.injEq, Nat.add_zero]
        constructor
        · rintro rfl; exact ⟨le_refl _, by omega, hp, rfl⟩
        · rintro ⟨h1, h2, h3, h4⟩
          by_contra hne
          have : Nat.count (P · = true) (a + 1) ≤ Nat.count (P · = true) i :=
            Nat.count_monotone _ (by omega)
          rw [Nat.count_succ, if_pos hp] at this
          omega
      | succ k =>
        rw [List.getElem?_cons_succ, filter_range' (a + 1) m k i, Nat.count_succ, if_pos hp]
        constructor
        · rintro ⟨h1, h2, h3, h4⟩; exact ⟨by omega, by omega, h3, by omega⟩
        · rintro ⟨h1, h2, h3, h4⟩
          have : i ≠ a := by rintro rfl; omega
          exact ⟨by omega, by omega, h3, by omega⟩
    · rw [List.filter_cons_of_neg hp, filter_range' (a + 1) m k i, Nat.count_succ, if_neg hp]
      constructor
      · rintro ⟨h1, h2, h3, h4⟩; exact ⟨by omega, by omega, h3, by omega⟩
      · rintro ⟨h1, h2, h3, h4⟩
        have : i ≠ a := by rintro rfl; exact hp h3
        exact ⟨by omega, by omega, h3, by omega⟩

theorem filter_reverse : ∀ m k i, ((List.range m).reverse.filter P)[k]? = some i ↔
    i < m ∧ P i = true ∧ Nat.count (P · = true) m = Nat.count (P · = true) i + k + 1
  | 0, k, i => by simp
  | m + 1, k, i => by
    rw [List.range_succ, List.reverse_append, List.reverse_singleton, List.singleton_append,
      Nat.count_succ]
    by_cases hp : P m = true
    · rw [List.filter_cons_of_pos hp, if_pos hp]
      cases k with
      | zero =>
        simp only [List.getElem?_cons_zero, Option.some.injEq]
        constructor
        · rintro rfl; exact ⟨by omega, hp, by omega⟩
        · rintro ⟨h1, h2, h3⟩
          by_contra hne
          have : Nat.count (P · = true) (i + 1) ≤ Nat.count (P · = true) m :=
            Nat.count_monotone _ (by omega)
          rw [Nat.count_succ, if_pos h2] at this
          omega
      | succ k =>
        rw [List.getElem?_cons_succ, filter_reverse m k i]
        constructor
        · rintro ⟨h1, h2, h3⟩; exact ⟨by omega, h2, by omega⟩
        · rintro ⟨h1, h2, h3⟩
          have : i ≠ m := by rintro rfl; omega
          exact ⟨by omega, h2, by omega⟩
    · rw [List.filter_cons_of_neg hp, filter_reverse m k i, if_neg hp]
      constructor
      · rintro ⟨h1, h2, h3⟩; exact ⟨by omega, h2, by omega⟩
      · rintro ⟨h1, h2, h3⟩
        have : i ≠ m := by rintro rfl; exact hp h2
        exact ⟨by omega, h2, by omega⟩

theorem nthAfter_iff {cur n i : Nat} (hn : 0 < n) : NthAfter P cur n i ↔
    cur < i ∧ P i = true ∧ Nat.count (P · = true) i = Nat.count (P · = true) (cur + 1) + (n - 1) := by
  unfold NthAfter
  constructor
  · rintro ⟨h1, h2, h3⟩
    rw [Nat.count_succ, if_pos h2] at h3
    exact ⟨h1, h2, by omega⟩
  · rintro ⟨h1, h2, h3⟩
    refine ⟨h1, h2, ?_⟩
    rw [Nat.count_succ, if_pos h2]
    omega

/-- The next one, then the others. -/
theorem nthAfter_succ {cur n i j : Nat} (h : NthAfter P cur 1 j) (hn : 0 < n) :
    NthAfter P cur (n + 1) i ↔ NthAfter P j n i := by
  unfold NthAfter at *
  constructor
  · rintro ⟨h1, h2, h3⟩
    refine ⟨?_, h2, by omega⟩
    by_contra hle
    have : Nat.count (P · = true) (i + 1) ≤ Nat.count (P · = true) (j + 1) :=
      Nat.count_monotone _ (by omega)
    omega
  · rintro ⟨h1, h2, h3⟩
    exact ⟨by omega, h2, by omega⟩

theorem nthBefore_succ {cur n i j : Nat} (h : NthBefore P cur 1 j) (hn : 0 < n) :
    NthBefore P cur (n + 1) i ↔ NthBefore P j n i := by
  unfold NthBefore at *
  constructor
  · rintro ⟨h1, h2, h3⟩
    refine ⟨?_, h2, by omega⟩
    by_contra hle
    have : Nat.count (P · = true) j ≤ Nat.count (P · = true) i := Nat.count_monotone _ (by omega)
    omega
  · rintro ⟨h1, h2, h3⟩
    exact ⟨by omega, h2, by omega⟩

theorem count_between {a b : Nat} (hab : a ≤ b) (h : ∀ j, a ≤ j → j < b → P j = false) :
    Nat.count (P · = true) b = Nat.count (P · = true) a := by
  induction b, hab using Nat.le_induction with
  | base => rfl
  | succ b hb ih =>
    rw [Nat.count_succ, if_neg (by simp [h b hb (by omega)]), Nat.add_zero]
    exact ih fun j h1 h2 => h j h1 (by omega)

/-- The first one after the cursor. -/
theorem nthAfter_one {cur i : Nat} (h1 : cur < i) (h2 : P i = true)
    (h : ∀ j, cur < j → j < i → P j = false) : NthAfter P cur 1 i := by
  refine ⟨h1, h2, ?_⟩
  rw [Nat.count_succ, if_pos h2, count_between (P := P) (show cur + 1 ≤ i from h1)]
  exact fun j ha hb => h j ha hb

theorem nthBefore_one {cur i : Nat} (h1 : i < cur) (h2 : P i = true)
    (h : ∀ j, i < j → j < cur → P j = false) : NthBefore P cur 1 i := by
  refine ⟨h1, h2, ?_⟩
  rw [count_between (P := P) (show i + 1 ≤ cur from h1), Nat.count_succ, if_pos h2]
  exact fun j ha hb => h j ha hb

/-- There is none. -/
theorem no_nthAfter {cur n : Nat} (h : ∀ j, cur < j → P j = false) (i : Nat) :
    ¬ NthAfter P cur n i := by
  rintro ⟨h1, h2, _⟩
  rw [h i h1] at h2; cases h2

theorem no_nthBefore {cur n : Nat} (h : ∀ j, j < cur → P j = false) (i : Nat) :
    ¬ NthBefore P cur n i := by
  rintro ⟨h1, h2, _⟩
  rw [h i h1] at h2; cases h2

end

/-! ### Characters -/

theorem findChar_iff (t : Text) (c : Char) {cur n i : Nat} (hn : 0 < n) :
    findChar t (cur + 1) c n = some i ↔ NthAfter (isAt t c) cur n i := by
  unfold findChar
  rw [show (fun i => t[i]? == some c) = isAt t c from rfl, nthAfter_iff hn, List.range_eq_range',
    List.drop_range', filter_range' (P := isAt t c)]
  simp only [Nat.zero_add, Nat.mul_one]
  constructor
  · rintro ⟨h1, h2, h3, h4⟩; exact ⟨h1, h3, h4⟩
  · rintro ⟨h1, h3, h4⟩
    refine ⟨h1, ?_, h3, h4⟩
    have : i < t.length := by
      unfold isAt at h3
      by_contra hge
      rw [List.getElem?_eq_none (by omega)] at h3
      cases h3
    omega

theorem findCharRev_iff (t : Text) (c : Char) {cur n i : Nat} (hn : 0 < n) (hc : cur ≤ t.length) :
    findCharRev t cur c n = some i ↔ NthBefore (isAt t c) cur n i := by
  unfold findCharRev
  have : (List.range t.length).reverse.drop (t.length - cur) = (List.range cur).reverse := by
    have h1 : List.range t.length = List.range cur ++ (List.range' cur (t.length - cur)) := by
      have h2 := List.range'_append_1 (s := 0) (m := cur) (n := t.length - cur)
      rw [Nat.zero_add, Nat.add_sub_cancel' hc] at h2
      rw [List.range_eq_range', List.range_eq_range', h2]
    rw [h1, List.reverse_append, List.drop_left']
    simp
  rw [this, show (fun i => t[i]? == some c) = isAt t c from rfl, filter_reverse (P := isAt t c)]
  unfold NthBefore
  constructor
  · rintro ⟨h1, h2, h3⟩; exact ⟨h1, h2, by omega⟩
  · rintro ⟨h1, h2, h3⟩; exact ⟨h1, h2, by omega⟩

/-! ### Words -/

section
variable {C : CharClass} {kw : Bool} {b : Buffer}

theorem charAfter_eq (b : Buffer) (i : Nat) : b.charAfter i = b.data[i]? := rfl

def kindW (kw : Bool) : WState → Nat
  | .whitespace => 0
  | .keyword => 1
  | .nonKeyword => if kw then 2 else 1

theorem kindW_classify (C : CharClass) (kw : Bool) (c : Char) :
    kindW kw (classify C c) = kind C (!kw) c := by
  unfold classify kind isKeyword
  cases kw <;> by_cases h1 : C.isWhitespace c = true <;>
    by_cases h2 : (c == '_' || C.isAlphanumeric c) = true <;> simp_all [kindW]

theorem wordStep_spec (C : CharClass) (kw : Bool) (st : WState) (c : Char) :
    (wordStep C kw st c = none ∧ kind C (!kw) c ≠ 0 ∧ kind C (!kw) c ≠ kindW kw st) ∨
    ∃ st', wordStep C kw st c = some st' ∧ (kind C (!kw) c = 0 ∨ kind C (!kw) c = kindW kw st) ∧
      kindW kw st' = kind C (!kw) c := by
  unfold wordStep kind
  rw [Bool.or_assoc, show (c == '_' || C.isAlphanumeric c) = isKeyword C c from rfl]
  cases st <;> cases kw <;> cases C.isWhitespace c <;> cases isKeyword C c <;> simp [kindW]

theorem wordLoop_right : ∀ fuel st cur c, b.data[cur]? = some c → kindW kw st = kind C (!kw) c →
    b.data.length - cur < fuel →
    ((wordLoop C kw true b fuel st cur).2 = true ∧
      NthAfter (startsWord C (!kw) b.data) cur 1 (wordLoop C kw true b fuel st cur).1) ∨
    (wordLoop C kw true b fuel st cur = (b.data.length, false) ∧
      ∀ j, cur < j → startsWord C (!kw) b.data j = false)
  | 0, st, cur, c, hc, hk, hf => by omega
  | fuel + 1, st, cur, c, hc, hk, hf => by
    have hlt : cur < b.data.length := (List.getElem?_eq_some_iff.1 hc).1
    have ha : advance true cur b.numChars = some (cur + 1) := by
      unfold advance Buffer.numChars
      rw [if_pos rfl, if_neg (by omega)]
    unfold wordLoop
    rw [ha]
    simp only [charAfter_eq]
    cases hd : b.data[cur + 1]? with
    | none =>
      have hlen : cur + 1 = b.data.length := by have := List.getElem?_eq_none_iff.1 hd; omega
      right
      refine ⟨by simp [hlen], fun j hj => ?_⟩
      unfold startsWord
      rw [List.getElem?_eq_none (by omega)]
    | some d =>
      have hs : startsWord C (!kw) b.data (cur + 1) =
          (kind C (!kw) d != 0 && kind C (!kw) d != kindW kw st) := by
        unfold startsWord
        rw [hd, hk]
        simp only [Nat.add_sub_cancel, hc, Option.map_some]
        cases kind C (!kw) d != 0 <;> simp [bne, eq_comm]
      rcases wordStep_spec C kw st d with ⟨h1, h2, h3⟩ | ⟨st', h1, h2, h3⟩
      · simp only [h1]
        left
        exact ⟨trivial, nthAfter_one (by omega) (by rw [hs]; simp [h2, h3]) (fun j h1 h2 => by omega)⟩
      · simp only [h1]
        have hlt' : cur + 1 < b.data.length := (List.getElem?_eq_some_iff.1 hd).1
        have hs' : startsWord C (!kw) b.data (cur + 1) = false := by
          rw [hs]; rcases h2 with h2 | h2 <;> simp [h2]
        have := wordLoop_right fuel st' (cur + 1) d hd h3 (by omega)
        rcases this with ⟨g1, g2⟩ | ⟨g1, g2⟩
        · left
          refine ⟨g1, ?_⟩
          obtain ⟨e1, e2, e3⟩ := g2
          refine ⟨by omega, e2, ?_⟩
          rw [e3, Nat.count_succ _ (cur + 1), if_neg (by simp [hs'])]
        · right
          refine ⟨g1, fun j hj => ?_⟩
          by_cases hj' : j = cur + 1
          · rw [hj']; exact hs'
          · exact g2 j (by omega)

theorem wordLoop_left : ∀ fuel st cur c, b.data[cur]? = some c → kindW kw st = kind C (!kw) c →
    cur < fuel →
    (wordLoop C kw false b fuel st cur).2 = true ∧
    (NthBefore (endsWord C (!kw) b.data) cur 1 (wordLoop C kw false b fuel st cur).1 ∨
    ((wordLoop C kw false b fuel st cur).1 = 0 ∧
      ∀ j, j < cur → endsWord C (!kw) b.data j = false))
  | 0, st, cur, c, hc, hk, hf => by omega
  | fuel + 1, st, 0, c, hc, hk, hf => by
    unfold wordLoop
    rw [show advance false 0 b.numChars = none from rfl]
    exact ⟨rfl, .inr ⟨rfl, fun j hj => by omega⟩⟩
  | fuel + 1, st, cur + 1, c, hc, hk, hf => by
    have hlt : cur + 1 < b.data.length := (List.getElem?_eq_some_iff.1 hc).1
    unfold wordLoop
    rw [show advance false (cur + 1) b.numChars = some cur from rfl]
    simp only [charAfter_eq]
    have hd : b.data[cur]? = some b.data[cur] := List.getElem?_eq_getElem (by omega)
    generalize b.data[cur] = d at hd
    simp only [hd]
    have hs : endsWord C (!kw) b.data cur = (kind C (!kw) d != 0 && kind C (!kw) d != kindW kw st) := by
      unfold endsWord
      rw [hd, hk]
      simp only [hc, Option.map_some]
      cases kind C (!kw) d != 0 <;> simp [bne, eq_comm]
    rcases wordStep_spec C kw st d with ⟨h1, h2, h3⟩ | ⟨st', h1, h2, h3⟩
    · simp only [h1]
      exact ⟨trivial, .inl (nthBefore_one (by omega) (by rw [hs]; simp [h2, h3])
        (fun j h1 h2 => by omega))⟩
    · simp only [h1]
      have hs' : endsWord C (!kw) b.data cur = false := by
        rw [hs]; rcases h2 with h2 | h2 <;> simp [h2]
      obtain ⟨g0, g⟩ := wordLoop_left fuel st' cur d hd h3 (by omega)
      refine ⟨g0, ?_⟩
      rcases g with g2 | ⟨g1, g2⟩
      · left
        obtain ⟨e1, e2, e3⟩ := g2
        refine ⟨by omega, e2, ?_⟩
        rw [Nat.count_succ, if_neg (by simp [hs'])]
        exact e3
      · right
        refine ⟨g1, fun j hj => ?_⟩
        by_cases hj' : j = cur
        · rw [hj']; exact hs'
        · exact g2 j (by omega)

/-- A word motion to the right with a count. -/
theorem moveWord_right : ∀ n cur, 0 < n → cur ≤ b.data.length →
    Leads C b.data cur n (.word (!kw)) (moveWordFrom C kw true b n cur)
  | 0, cur, hn, _ => by omega
  | n + 1, cur, _, hcur => by
    unfold moveWordFrom
    rw [charAfter_eq]
    cases hc : b.data[cur]? with
    | none =>
      have := List.getElem?_eq_none_iff.1 hc
      right
      refine ⟨no_nthAfter fun j hj => ?_, by simp; omega⟩
      unfold startsWord
      rw [List.getElem?_eq_none (by omega)]
    | some c =>
      simp only []
      have h := wordLoop_right (C := C) (kw := kw) (b := b) (b.numChars + 1) (classify C c) cur c hc
        (kindW_classify C kw c) (by unfold Buffer.numChars; omega)
      rcases hw : wordLoop C kw true b (b.numChars + 1) (classify C c) cur with ⟨q, f⟩
      rw [hw] at h
      rcases h with ⟨g1, g2⟩ | ⟨g1, g2⟩
      · simp only at g1 g2
        subst g1
        simp only []
        rcases Nat.eq_zero_or_pos n with rfl | hn
        · exact .inl g2
        · have hq : q < b.data.length := by
            have := g2.2.1
            unfold startsWord at this
            by_contra hge
            rw [List.getElem?_eq_none (by omega)] at this
            cases this
          have := moveWord_right n q hn (by omega)
          unfold Leads at this ⊢
          simpa only [nthAfter_succ g2 hn] using this
      · cases g1
        exact .inr ⟨no_nthAfter g2, rfl⟩

/-- A motion to the end of a previous word with a count. -/
theorem moveWord_left : ∀ n cur, 0 < n → cur < b.data.length →
    Leads C b.data cur n (.backEnd (!kw)) (moveWordFrom C kw false b n cur)
  | 0, cur, hn, _ => by omega
  | n + 1, cur, _, hcur => by
    unfold moveWordFrom
    rw [charAfter_eq]
    have hc : b.data[cur]? = some b.data[cur] := List.getElem?_eq_getElem hcur
    generalize b.data[cur] = c at hc
    rw [hc]
    simp only []
    have h := wordLoop_left (C := C) (kw := kw) (b := b) (b.numChars + 1) (classify C c) cur c hc
      (kindW_classify C kw c) (by unfold Buffer.numChars; omega)
    rcases hw : wordLoop C kw false b (b.numChars + 1) (classify C c) cur with ⟨q, f⟩
    rw [hw] at h
    obtain ⟨rfl, h⟩ := h
    simp only at h ⊢
    rcases h with g | ⟨rfl, g⟩
    · rcases Nat.eq_zero_or_pos n with rfl | hn
      · exact .inl g
      · have := moveWord_left n q hn (by have := g.1; omega)
        unfold Leads at this ⊢
        simpa only [nthBefore_succ g hn] using this
    · right
      refine ⟨no_nthBefore g, ?_⟩
      rcases Nat.eq_zero_or_pos n with rfl | hn
      · rfl
      · rcases moveWord_left n 0 hn (by omega) with h | ⟨_, h⟩
        · have := h.1; omega
        · exact h

/-! ### Ends of words -/

/-- No character is both blank and part of a keyword. -/
def Apart (C : CharClass) : Prop := ∀ c, C.isWhitespace c = true → isKeyword C c = false

def kindE : EState → Nat
  | .whitespace => 0
  | .endOnWord => 1
  | .endOnWhitespace => 1
  | .endOnOther => 2

def okE (kw : Bool) : EState → Bool
  | .whitespace => true
  | .endOnWord => kw
  | .endOnWhitespace => !kw
  | .endOnOther => kw

theorem endStep_spec (hC : Apart C) (st : EState) (c : Char) (ho : okE kw st = true) :
    (endStep C kw st c = none ∧ kindE st ≠ 0 ∧ kind C (!kw) c ≠ kindE st) ∨
    ∃ st', endStep C kw st c = some st' ∧ (kindE st = 0 ∨ kind C (!kw) c = kindE st) ∧
      kindE st' = kind C (!kw) c ∧ okE kw st' = true := by
  have h := hC c
  unfold endStep kind
  rw [Bool.or_assoc, show (c == '_' || C.isAlphanumeric c) = isKeyword C c from rfl]
  revert ho h
  cases st <;> cases kw <;> cases C.isWhitespace c <;> cases isKeyword C c <;> simp [kindE, okE]

theorem endLoop_right (hC : Apart C) : ∀ fuel st cur lo, cur ≤ b.data.length → okE kw st = true →
    (kindE st = 0 ∧ lo = cur + 1 ∨
      kindE st ≠ 0 ∧ lo = cur ∧ ∃ c, b.data[cur]? = some c ∧ kind C (!kw) c = kindE st) →
    b.data.length - cur < fuel →
    ((endLoop C kw true b fuel st cur).2 = true ∧ lo ≤ (endLoop C kw true b fuel st cur).1 ∧
      endsWord C (!kw) b.data (endLoop C kw true b fuel st cur).1 = true ∧
      (endLoop C kw true b fuel st cur).1 + 1 < b.data.length ∧
      ∀ j, lo ≤ j → j < (endLoop C kw true b fuel st cur).1 → endsWord C (!kw) b.data j = false) ∨
    ((endLoop C kw true b fuel st cur).1 = b.data.length ∧
      ∀ j, lo ≤ j → endsWord C (!kw) b.data j = true → j + 1 = b.data.length)
  | 0, st, cur, lo, _, _, _, hf => by omega
  | fuel + 1, st, cur, lo, hcur, ho, hlo, hf => by
    have hout : ∀ j, endsWord C (!kw) b.data j = true → j < b.data.length := by
      intro j hj
      unfold endsWord at hj
      by_contra hge
      rw [List.getElem?_eq_none (by omega)] at hj
      cases hj
    rcases Nat.lt_or_ge cur b.data.length with hlt | hge
    swap
    · have : cur = b.data.length := by omega
      unfold endLoop
      rw [show advance true cur b.numChars = none by
        unfold advance Buffer.numChars; rw [if_pos rfl, if_pos this]]
      right
      refine ⟨this, fun j hj h => ?_⟩
      have := hout j h
      omega
    have ha : advance true cur b.numChars = some (cur + 1) := by
      unfold advance Buffer.numChars
      rw [if_pos rfl, if_neg (by omega)]
    unfold endLoop
    rw [ha]
    simp only [charAfter_eq]
    cases hd : b.data[cur + 1]? with
    | none =>
      have hlen : cur + 1 = b.data.length := by have := List.getElem?_eq_none_iff.1 hd; omega
      right
      refine ⟨by simp [hlen], fun j hj h => ?_⟩
      have := hout j h
      omega
    | some d =>
      have hlt' : cur + 1 < b.data.length := (List.getElem?_eq_some_iff.1 hd).1
      have hs : kindE st ≠ 0 → endsWord C (!kw) b.data cur = (kind C (!kw) d != kindE st) := by
        intro hne
        rcases hlo with ⟨h, _⟩ | ⟨_, _, c, hc, hk⟩
        · exact absurd h hne
        unfold endsWord
        rw [hd, hc, ← hk]
        simp only [Option.map_some]
        rw [← hk] at hne
        simp [bne, hne]
      rcases endStep_spec hC st d ho with ⟨h1, h2, h3⟩ | ⟨st', h1, h2, h3, h4⟩
      · simp only [h1]
        have hgo : goBack true (cur + 1) b.numChars = cur := by
          unfold goBack advance; simp
        rw [hgo]
        rcases hlo with ⟨h, _⟩ | ⟨_, hlo, _⟩
        · exact absurd h h2
        left
        exact ⟨trivial, by simp [hlo], by rw [hs h2]; simp [h3], hlt', fun j g1 g2 => by
          omega⟩
      · simp only [h1]
        have hs' : lo = cur → endsWord C (!kw) b.data cur = false := by
          intro hl
          have : kindE st ≠ 0 := by rcases hlo with ⟨_, h⟩ | ⟨h, _⟩ <;> omega
          rw [hs this]
          rcases h2 with h2 | h2
          · exact absurd h2 this
          · simp [h2]
        have hlo' : lo = cur ∨ lo = cur + 1 := by rcases hlo with ⟨_, h⟩ | ⟨_, h, _⟩ <;> omega
        by_cases hz : kind C (!kw) d = 0
        · have hs1 : endsWord C (!kw) b.data (cur + 1) = false := by
            unfold endsWord; rw [hd]; simp [hz]
          have hcl : ∀ j, lo ≤ j → ¬ cur + 1 + 1 ≤ j → endsWord C (!kw) b.data j = false := by
            intro j g1 g2
            by_cases hj : j = cur + 1
            · rw [hj]; exact hs1
            · have : j = cur := by omega
              rw [this]; exact hs' (by omega)
          rcases endLoop_right hC fuel st' (cur + 1) (cur + 1 + 1) (by omega) h4
            (.inl ⟨by omega, rfl⟩) (by omega) with ⟨g1, g2, g3, g4, g5⟩ | ⟨g1, g2⟩
          · left
            refine ⟨g1, by omega, g3, g4, fun j hj hj' => ?_⟩
            by_cases hjj : cur + 1 + 1 ≤ j
            · exact g5 j hjj hj'
            · exact hcl j hj hjj
          · right
            refine ⟨g1, fun j hj he => ?_⟩
            by_cases hjj : cur + 1 + 1 ≤ j
            · exact g2 j hjj he
            · rw [hcl j hj hjj] at he; cases he
        · have hcl : ∀ j, lo ≤ j → ¬ cur + 1 ≤ j → endsWord C (!kw) b.data j = false := by
            intro j g1 g2
            have : j = cur := by omega
            rw [this]; exact hs' (by omega)
          rcases endLoop_right hC fuel st' (cur + 1) (cur + 1) (by omega) h4
            (.inr ⟨by omega, rfl, d, hd, h3.symm⟩) (by omega) with ⟨g1, g2, g3, g4, g5⟩ | ⟨g1, g2⟩
          · left
            refine ⟨g1, by omega, g3, g4, fun j hj hj' => ?_⟩
            by_cases hjj : cur + 1 ≤ j
            · exact g5 j hjj hj'
            · exact hcl j hj hjj
          · right
            refine ⟨g1, fun j hj he => ?_⟩
            by_cases hjj : cur + 1 ≤ j
            · exact g2 j hjj he
            · rw [hcl j hj hjj] at he; cases he

/-- `hi` is one more than the last position in question. -/
theorem endLoop_left (hC : Apart C) : ∀ fuel st cur hi, cur ≤ b.data.length → okE kw st = true →
    (kindE st = 0 ∧ hi = cur ∨
      kindE st ≠ 0 ∧ hi = cur + 1 ∧ ∃ c, b.data[cur]? = some c ∧ kind C (!kw) c = kindE st) →
    cur < fuel →
    (endLoop C kw false b fuel st cur).2 = true ∧
    (((endLoop C kw false b fuel st cur).1 < hi ∧
      startsWord C (!kw) b.data (endLoop C kw false b fuel st cur).1 = true ∧
      ∀ j, (endLoop C kw false b fuel st cur).1 < j → j < hi → startsWord C (!kw) b.data j = false) ∨
    ((endLoop C kw false b fuel st cur).1 = 0 ∧ ∀ j, j < hi → startsWord C (!kw) b.data j = false))
  | 0, st, cur, hi, _, _, _, hf => by omega
  | fuel + 1, st, 0, hi, hcur, ho, hlo, hf => by
    unfold endLoop
    rw [show advance false 0 b.numChars = none from rfl]
    refine ⟨rfl, ?_⟩
    rcases hlo with ⟨_, h⟩ | ⟨h, h', c, hc, hk⟩
    · exact .inr ⟨rfl, fun j hj => by omega⟩
    · left
      refine ⟨by simp [h'], ?_, fun j g1 g2 => by simp only at g1; omega⟩
      unfold startsWord
      simp only [hc]
      simp [hk, h]
  | fuel + 1, st, cur + 1, hi, hcur, ho, hlo, hf => by
    unfold endLoop
    rw [show advance false (cur + 1) b.numChars = some cur from rfl]
    simp only [charAfter_eq]
    have hd : b.data[cur]? = some b.data[cur] := List.getElem?_eq_getElem (by omega)
    generalize b.data[cur] = d at hd
    simp only [hd]
    have hs : kindE st ≠ 0 → startsWord C (!kw) b.data (cur + 1) = (kind C (!kw) d != kindE st) := by
      intro hne
      rcases hlo with ⟨h, _⟩ | ⟨_, _, c, hc, hk⟩
      · exact absurd h hne
      unfold startsWord
      rw [hc, ← hk]
      simp only [Nat.add_sub_cancel, hd, Option.map_some]
      rw [← hk] at hne
      simp [bne, hne]
    rcases endStep_spec hC st d ho with ⟨h1, h2, h3⟩ | ⟨st', h1, h2, h3, h4⟩
    · simp only [h1]
      rcases hlo with ⟨h, _⟩ | ⟨_, hlo, c, hc, _⟩
      · exact absurd h h2
      have hlt : cur + 1 < b.data.length := (List.getElem?_eq_some_iff.1 hc).1
      have hgo : goBack false cur b.numChars = cur + 1 := by
        unfold goBack advance Buffer.numChars
        rw [Bool.not_false, if_pos rfl, if_neg (by omega)]
        rfl
      rw [hgo]
      exact ⟨trivial, .inl ⟨by simp [hlo], by rw [hs h2]; simp [h3], fun j g1 g2 => by
        omega⟩⟩
    · simp only [h1]
      have hs' : hi = cur + 2 → startsWord C (!kw) b.data (cur + 1) = false := by
        intro hl
        have : kindE st ≠ 0 := by rcases hlo with ⟨_, h⟩ | ⟨h, _⟩ <;> omega
        rw [hs this]
        rcases h2 with h2 | h2
        · exact absurd h2 this
        · simp [h2]
      have hlo' : hi = cur + 1 ∨ hi = cur + 2 := by rcases hlo with ⟨_, h⟩ | ⟨_, h, _⟩ <;> omega
      by_cases hz : kind C (!kw) d = 0
      · have hs1 : startsWord C (!kw) b.data cur = false := by
          unfold startsWord; rw [hd]; simp [hz]
        have hcl : ∀ j, j < hi → ¬ j < cur → startsWord C (!kw) b.data j = false := by
          intro j g1 g2
          by_cases hj : j = cur
          · rw [hj]; exact hs1
          · have : j = cur + 1 := by omega
            rw [this]; exact hs' (by omega)
        obtain ⟨g0, g⟩ := endLoop_left hC fuel st' cur cur (by omega) h4 (.inl ⟨by omega, rfl⟩) (by omega)
        refine ⟨g0, ?_⟩
        rcases g with ⟨g1, g2, g3⟩ | ⟨g1, g2⟩
        · left
          refine ⟨by omega, g2, fun j hj hj' => ?_⟩
          by_cases hjj : j < cur
          · exact g3 j hj hjj
          · exact hcl j hj' hjj
        · right
          refine ⟨g1, fun j hj => ?_⟩
          by_cases hjj : j < cur
          · exact g2 j hjj
          · exact hcl j hj hjj
      · have hcl : ∀ j, j < hi → ¬ j < cur + 1 → startsWord C (!kw) b.data j = false := by
          intro j g1 g2
          have : j = cur + 1 := by omega
          rw [this]; exact hs' (by omega)
        obtain ⟨g0, g⟩ := endLoop_left hC fuel st' cur (cur + 1) (by omega) h4
          (.inr ⟨by omega, rfl, d, hd, h3.symm⟩) (by omega)
        refine ⟨g0, ?_⟩
        rcases g with ⟨g1, g2, g3⟩ | ⟨g1, g2⟩
        · left
          refine ⟨by omega, g2, fun j hj hj' => ?_⟩
          by_cases hjj : j < cur + 1
          · exact g3 j hj hjj
          · exact hcl j hj' hjj
        · right
          refine ⟨g1, fun j hj => ?_⟩
          by_cases hjj : j < cur + 1
          · exact g2 j hjj
          · exact hcl j hj hjj

theorem moveWordEnd_right (hC : Apart C) : ∀ n cur, 0 < n → cur ≤ b.data.length →
    Leads C b.data cur n (.wordEnd (!kw)) (moveWordEndFrom C kw true b n cur)
  | 0, cur, hn, _ => by omega
  | n + 1, cur, _, hcur => by
    unfold moveWordEndFrom
    have h := endLoop_right (C := C) (kw := kw) (b := b) hC (b.numChars + 1) .whitespace cur (cur + 1)
      hcur rfl (.inl ⟨rfl, rfl⟩) (by unfold Buffer.numChars; omega)
    rcases hw : endLoop C kw true b (b.numChars + 1) .whitespace cur with ⟨q, f⟩
    rw [hw] at h
    simp only at h
    rcases h with ⟨rfl, g2, g3, g4, g5⟩ | ⟨rfl, g2⟩
    · have hq : NthAfter (endsWord C (!kw) b.data) cur 1 q := nthAfter_one (by omega) g3 g5
      simp only []
      rcases Nat.eq_zero_or_pos n with rfl | hn
      · exact .inl ⟨hq, g4⟩
      · have := moveWordEnd_right hC n q hn (by omega)
        unfold Leads at this ⊢
        simpa only [nthAfter_succ hq hn] using this
    · have hstay : ∀ n, moveWordEndFrom C kw true b n b.data.length = b.data.length := by
        intro n
        cases n with
        | zero => rfl
        | succ n =>
          unfold moveWordEndFrom endLoop
          rw [show advance true b.data.length b.numChars = none by
            unfold advance Buffer.numChars; rw [if_pos rfl, if_pos rfl]]
          simp only []
          induction n with
          | zero => rfl
          | succ n ih =>
            unfold moveWordEndFrom endLoop
            rw [show advance true b.data.length b.numChars = none by
              unfold advance Buffer.numChars; rw [if_pos rfl, if_pos rfl]]
            exact ih
      refine .inr ⟨fun i hi => g2 i hi.1 hi.2.1, ?_⟩
      cases f
      · rfl
      · exact hstay n

theorem moveWordEnd_left (hC : Apart C) : ∀ n cur, 0 < n → cur ≤ b.data.length →
    Leads C b.data cur n (.back (!kw)) (moveWordEndFrom C kw false b n cur)
  | 0, cur, hn, _ => by omega
  | n + 1, cur, _, hcur => by
    unfold moveWordEndFrom
    have h := endLoop_left (C := C) (kw := kw) (b := b) hC (b.numChars + 1) .whitespace cur cur
      hcur rfl (.inl ⟨rfl, rfl⟩) (by unfold Buffer.numChars; omega)
    rcases hw : endLoop C kw false b (b.numChars + 1) .whitespace cur with ⟨q, f⟩
    rw [hw] at h
    simp only at h
    obtain ⟨rfl, h⟩ := h
    simp only []
    rcases h with ⟨g1, g2, g3⟩ | ⟨rfl, g2⟩
    · have hq : NthBefore (startsWord C (!kw) b.data) cur 1 q := nthBefore_one g1 g2 g3
      rcases Nat.eq_zero_or_pos n with rfl | hn
      · exact .inl hq
      · have := moveWordEnd_left hC n q hn (by omega)
        unfold Leads at this ⊢
        simpa only [nthBefore_succ hq hn] using this
    · refine .inr ⟨no_nthBefore g2, ?_⟩
      rcases Nat.eq_zero_or_pos n with rfl | hn
      · rfl
      · rcases moveWordEnd_left hC n 0 hn (by omega) with h | ⟨_, h⟩
        · have := h.1; omega
        · exact h

end

end Vi
end Liner
