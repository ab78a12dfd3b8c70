import Verif.Proof.Flow
import Verif.Proof.Display
import Verif.Props.Buffer
import Verif.Props.Util
import Mathlib.Tactic.Ring
import Mathlib.Tactic.Linarith
/-
The terminal as it follows a redraw.
-/

namespace Liner
open Spec

namespace Screen
open Spec.Screen

variable {w R : Nat} {s : Screen}

/-! ### Escape sequences show nothing -/

theorem removeCodes_plain {t : Text} (h : escChar ∉ t) : removeCodes t = t := by
  unfold removeCodes
  rw [if_neg]
  simpa using h

theorem vis_yellow : removeCodes fgYellow = [] := by decide
theorem vis_reset : removeCodes fgReset = [] := by decide
theorem vis_modes : removeCodes (csi ['?', '1', '0', '0', '0', 'l'] ++ csi ['?', '1', 'l']) = [] := by decide

/-! ### Writing -/

/-- The pen stands where the text `T` ends, which has just been written: in the last column it waits. -/
def Wet (w R : Nat) (T : Text) (s : Screen) : Prop :=
  s.Shows w R T ∧
  ((T.length % w ≠ 0 ∧ s.On w R T.length) ∨
   (T.length % w = 0 ∧ 0 < T.length ∧ s.wrap = true ∧ s.row + 1 = R + T.length / w ∧ s.col + 1 = w))

/-- The same, but not waiting. -/
def Dry (w R : Nat) (T : Text) (s : Screen) : Prop := s.Shows w R T ∧ s.On w R T.length

theorem shows_blank (T : Text) (k : Nat) : s.Shows w R (T ++ List.replicate k ' ') ↔ s.Shows w R T := by
  have : ∀ n, (T ++ List.replicate k ' ').getD n ' ' = T.getD n ' ' := fun n => by
    simp only [List.getD_eq_getElem?_getD]
    by_cases h : n < T.length
    · rw [List.getElem?_append_left h]
    · rw [List.getElem?_append_right (by omega), List.getElem?_replicate, List.getElem?_eq_none (l := T) (by omega)]
      split <;> rfl
  unfold Shows
  constructor
  · intro h i j hj; rw [h i j hj, this]
  · intro h i j hj; rw [h i j hj, this]

theorem put_wet {T : Text} (c : Char) (hw : 0 < w) (h : Wet w R T s ∨ Dry w R T s) :
    Wet w R (T ++ [c]) (s.put w c) ∧ ∀ i j, i < R → (s.put w c).cell i j = s.cell i j := by
  obtain ⟨n, hn⟩ : ∃ n, n = T.length := ⟨_, rfl⟩
  -- where the character goes
  have key : s.Shows w R T ∧ (if s.wrap then s.row + 1 else s.row) = R + n / w ∧
      (if s.wrap then 0 else s.col) = n % w := by
    rcases h with ⟨h1, h2 | h2⟩ | ⟨h1, h2⟩
    · obtain ⟨-, hwr, hr, hc⟩ := h2
      exact ⟨h1, by simp [hwr, hr, hn], by simp [hwr, hc, hn]⟩
    · obtain ⟨hm, -, hwr, hr, hc⟩ := h2
      exact ⟨h1, by simp [hwr, hr, hn], by rw [hwr, hn, hm]; rfl⟩
    · obtain ⟨hwr, hr, hc⟩ := h2
      exact ⟨h1, by simp [hwr, hr, hn], by simp [hwr, hc, hn]⟩
  obtain ⟨h1, hr, hk⟩ := key
  have hd := Nat.div_add_mod n w
  have hlt := Nat.mod_lt n hw
  refine ⟨⟨?_, ?_⟩, ?_⟩
  · intro i j hj
    unfold put
    simp only [hr, hk]
    have hx : (R + i = R + n / w ∧ j = n % w) ↔ i * w + j = n := by
      constructor
      · rintro ⟨h2, h3⟩
        have : i = n / w := by omega
        subst this
        rw [h3, Nat.mul_comm]
        exact hd
      · intro h2
        rw [← h2]
        have h3 : (i * w + j) % w = j := by
          rw [Nat.mul_comm, Nat.mul_add_mod, Nat.mod_eq_of_lt hj]
        have h4 : (i * w + j) / w = i := by
          rw [Nat.mul_comm, Nat.mul_add_div hw, Nat.div_eq_of_lt hj, Nat.add_zero]
        rw [h3, h4]
        exact ⟨rfl, rfl⟩
    simp only [List.getD_eq_getElem?_getD]
    by_cases h2 : i * w + j = n
    · rw [if_pos (hx.mpr h2), h2, hn, List.getElem?_append_right (Nat.le_refl _)]
      simp
    · rw [if_neg (fun h3 => h2 (hx.mp h3)), h1 i j hj]
      simp only [List.getD_eq_getElem?_getD]
      by_cases h4 : i * w + j < n
      · rw [List.getElem?_append_left (hn ▸ h4)]
      · rw [List.getElem?_eq_none (l := T) (by omega), List.getElem?_eq_none (l := T ++ [c])]
        rw [List.length_append, List.length_singleton]
        omega
  · unfold put On
    simp only [hr, hk, List.length_append, List.length_singleton, ← hn]
    by_cases h2 : n % w + 1 < w
    · left
      have h3 : (n + 1) % w = n % w + 1 := by
        rw [Nat.add_mod, Nat.mod_eq_of_lt (b := w) (a := 1) (by omega), Nat.mod_eq_of_lt h2]
      have h4 : (n + 1) / w = n / w := by
        have h5 : n + 1 = w * (n / w) + (n % w + 1) := by omega
        rw [h5, Nat.mul_add_div hw, Nat.div_eq_of_lt h2]
        simp
      rw [h3, h4]
      simp [h2]
    · right
      have h2' : n % w + 1 = w := by omega
      have h5 : n + 1 = w * (n / w + 1) := by
        rw [Nat.mul_add]
        omega
      have h3 : (n + 1) % w = 0 := by rw [h5]; simp
      have h4 : (n + 1) / w = n / w + 1 := by rw [h5]; exact Nat.mul_div_cancel_left _ hw
      rw [h3, h4]
      simp [h2, h2']
      omega
  · intro i j hi
    unfold put
    simp only [hr]
    generalize n / w = q
    rw [if_neg (by omega)]

theorem wet_or {T : Text} (h : Dry w R T s) (hm : T.length % w ≠ 0) : Wet w R T s := ⟨h.1, .inl ⟨hm, h.2⟩⟩

/-- The rows above are as they were. -/
def Above (R : Nat) (s s' : Screen) : Prop := ∀ i j, i < R → s'.cell i j = s.cell i j

theorem Above.refl : Above R s s := fun _ _ _ => rfl
theorem Above.trans {s1 s2 s3 : Screen} (h1 : Above R s1 s2) (h2 : Above R s2 s3) : Above R s1 s3 :=
  fun i j h => (h2 i j h).trans (h1 i j h)

theorem write_wet {T : Text} (l : Text) (hw : 0 < w) (hl : ∀ c ∈ l, c ≠ '\r' ∧ c ≠ '\n')
    (h : Wet w R T s ∨ (Dry w R T s ∧ (l ≠ [] ∨ T.length % w ≠ 0))) :
    Wet w R (T ++ l) (write w l s) ∧ Above R s (write w l s) := by
  induction l generalizing T s with
  | nil =>
    rw [List.append_nil]
    rcases h with h | ⟨h, h' | h'⟩
    · exact ⟨h, .refl⟩
    · exact absurd rfl h'
    · exact ⟨wet_or h h', .refl⟩
  | cons c cs ih =>
    have hc := hl c (by simp)
    have h1 : s.char w c = s.put w c := by
      unfold char
      rw [if_neg hc.1, if_neg hc.2]
    show Wet w R (T ++ c :: cs) (write w cs (s.char w c)) ∧ Above R s (write w cs (s.char w c))
    rw [h1]
    have h2 := put_wet (R := R) c hw (h.imp id And.left)
    have h3 := ih (T := T ++ [c]) (s := s.put w c) (fun c hc => hl c (by simp [hc])) (.inl h2.1)
    rw [List.append_assoc] at h3
    exact ⟨h3.1, Above.trans h2.2 h3.2⟩

/-- The end of a line. -/
theorem crlf_wet {T : Text} (hw : 0 < w) (h : Wet w R T s) :
    Dry w R (wholeRows w T) (write w ['\r', '\n'] s) ∧ Above R s (write w ['\r', '\n'] s) := by
  have he : write w ['\r', '\n'] s = { s with row := s.row + 1, col := 0, wrap := false } := by
    simp [write, char]
  rw [he]
  refine ⟨⟨?_, ?_⟩, fun _ _ _ => rfl⟩
  · show Screen.Shows _ w R (T ++ _)
    rw [shows_blank]
    exact h.1
  · have hd := Nat.div_add_mod T.length w
    have hlt := Nat.mod_lt T.length hw
    rcases h.2 with ⟨hm, hwr, hr, hc⟩ | ⟨hm, -, hwr, hr, hc⟩
    · have hl : (wholeRows w T).length = w * (T.length / w + 1) := by
        unfold wholeRows
        rw [List.length_append, List.length_replicate, Nat.mod_eq_of_lt (by omega), Nat.mul_add]
        omega
      unfold On
      rw [hl, Nat.mul_div_cancel_left _ hw, Nat.mul_mod_right]
      exact ⟨rfl, by dsimp only; omega, rfl⟩
    · have hl : (wholeRows w T).length = T.length := by
        unfold wholeRows
        rw [List.length_append, List.length_replicate, hm]
        simp
      unfold On
      rw [hl, hm]
      exact ⟨rfl, hr, rfl⟩

theorem wholeRows_mod (T : Text) (hw : 0 < w) : (wholeRows w T).length % w = 0 := by
  unfold wholeRows
  rw [List.length_append, List.length_replicate]
  have hd := Nat.div_add_mod T.length w
  have hlt := Nat.mod_lt T.length hw
  by_cases hm : T.length % w = 0
  · rw [hm]; simp [hm]
  · rw [Nat.mod_eq_of_lt (a := w - T.length % w) (by omega)]
    have : T.length + (w - T.length % w) = w * (T.length / w + 1) := by rw [Nat.mul_add]; omega
    rw [this]
    simp

theorem right_dry [Glyphs] {T : Text} {p : Nat} (hp : 0 < p) (hpw : p < w) (hm : T.length % w = 0) (h : Dry w R T s) :
    Dry w R (T ++ List.replicate p ' ') (s.flow1 w (.right p)) ∧ Above R s (s.flow1 w (.right p)) := by
  refine ⟨⟨?_, ?_⟩, fun _ _ _ => rfl⟩
  · rw [shows_blank]; exact h.1
  · obtain ⟨h1, h2, h3⟩ := h.2
    have hw : 0 < w := by omega
    unfold On
    rw [List.length_append, List.length_replicate]
    have hd := Nat.div_add_mod T.length w
    have e : T.length + p = w * (T.length / w) + p := by omega
    rw [e, Nat.mul_add_div hw, Nat.div_eq_of_lt hpw, Nat.mul_add_mod, Nat.mod_eq_of_lt hpw]
    refine ⟨rfl, by show s.row = _; rw [h2]; simp, ?_⟩
    show min (w - 1) (s.col + max 1 p) = p
    rw [h3, hm]
    omega

/-- The final movement: from position `a` to position `b` before it. -/
theorem move_on [Glyphs] {a b : Nat} (hw : 0 < w) (hw' : w < 65536) (hab : b ≤ a) (hrows : a / w < 65536) (h : s.On w R a)
    {ts : List Tok} (ht : Editor.cursorMove a b w = some ts) :
    (flow w ts s).On w R b ∧ (flow w ts s).cell = s.cell := by
  unfold Editor.cursorMove at ht
  have e : ∀ n, (n + w) / w = n / w + 1 := fun n => Nat.add_div_right n hw
  rw [e, e] at ht
  have hdiv : b / w ≤ a / w := Nat.div_le_div_right hab
  rw [if_neg (by omega)] at ht
  simp only [Option.some.injEq] at ht
  have e2 : a / w + 1 - (b / w + 1) = a / w - b / w := by omega
  rw [e2] at ht
  have hda := Nat.div_add_mod a w
  have hdb := Nat.div_add_mod b w
  have hla := Nat.mod_lt a hw
  have hlb := Nat.mod_lt b hw
  have hz : (a : Int) - b - ((a / w - b / w : Nat) : Int) * w = (a % w : Nat) - (b % w : Nat) := by
    have h1 : ((a / w - b / w : Nat) : Int) = (a / w : Nat) - (b / w : Nat) := by omega
    rw [h1]
    have ha : (a : Int) = w * (a / w : Nat) + (a % w : Nat) := by exact_mod_cast hda.symm
    have hb : (b : Int) = w * (b / w : Nat) + (b % w : Nat) := by exact_mod_cast hdb.symm
    have h2 : (((a / w : Nat) : Int) - (b / w : Nat)) * w = w * (a / w : Nat) - w * (b / w : Nat) := by ring
    rw [h2]
    generalize ((a / w : Nat) : Int) = x at *
    generalize ((b / w : Nat) : Int) = y at *
    linarith
  rw [hz] at ht
  subst ht
  obtain ⟨h1, h2, h3⟩ := h
  have hq : Editor.asU16 (a / w - b / w) = a / w - b / w := by
    unfold Editor.asU16
    exact Nat.mod_eq_of_lt (Nat.lt_of_le_of_lt (Nat.sub_le _ _) hrows)
  have hm1 : Editor.asU16 (((a % w : Nat) : Int) - (b % w : Nat)).toNat = a % w - b % w := by
    unfold Editor.asU16
    generalize a % w = x at *
    generalize b % w = y at *
    omega
  have hm2 : Editor.asU16 (-(((a % w : Nat) : Int) - (b % w : Nat))).toNat = b % w - a % w := by
    unfold Editor.asU16
    generalize a % w = x at *
    generalize b % w = y at *
    omega
  rw [hq, hm1, hm2, flow_append]
  clear hq hm1 hm2 hz hda hdb hrows hab e e2
  unfold On
  generalize a / w = qa at *
  generalize b / w = qb at *
  generalize a % w = x at *
  generalize b % w = y at *
  have hup : (flow w (if qa - qb > 0 then [.up (qa - qb)] else []) s) = { s with row := R + qb } := by
    split
    · show ({ s with row := s.row - max 1 (qa - qb), wrap := false } : Screen) = _
      rw [show s.row - max 1 (qa - qb) = R + qb by omega, ← h1]
    · show s = _
      rw [show R + qb = s.row by omega]
  rw [hup]
  split
  · refine ⟨⟨rfl, rfl, ?_⟩, rfl⟩
    show s.col - max 1 (x - y) = y
    omega
  · split
    · refine ⟨⟨rfl, rfl, ?_⟩, rfl⟩
      show min (w - 1) (s.col + max 1 (y - x)) = y
      omega
    · refine ⟨⟨h1, rfl, ?_⟩, rfl⟩
      show s.col = y
      omega

/-! ### Lines -/

theorem linesOf_split {t : Text} {ls : List Text} (h : LinesOf t ls) : Buffer.splitOn (· == '\n') t = ls := by
  obtain ⟨h1, h2, h3⟩ := h
  induction ls generalizing t with
  | nil => exact absurd rfl h1
  | cons l ls ih =>
    have hl : ∀ c ∈ l, (c == '\n') = false := fun c hc => by
      have := h3 l (by simp)
      simp only [beq_eq_false_iff_ne, ne_eq]
      rintro rfl
      exact this hc
    cases ls with
    | nil => subst h2; exact Props.splitOn_no _ _ hl
    | cons l' ls =>
      subst h2
      show Buffer.splitOn _ (l ++ '\n' :: joinLines (l' :: ls)) = _
      rw [Props.splitOn_append_sep _ _ _ _ (by simp), Props.splitOn_no _ _ hl,
        ih (by simp) rfl (fun l hl => h3 l (by simp [hl]))]
      rfl

theorem split_linesOf (t : Text) : LinesOf t (Buffer.splitOn (· == '\n') t) := by
  refine ⟨Props.splitOn_ne_nil _ _, ?_, ?_⟩
  · induction t with
    | nil => rfl
    | cons c cs ih =>
      unfold Buffer.splitOn
      have hne := Props.splitOn_ne_nil (· == '\n') cs
      split
      · rename_i h
        rw [beq_iff_eq] at h
        subst h
        revert ih hne
        cases Buffer.splitOn (· == '\n') cs with
        | nil => intro _ h; exact absurd rfl h
        | cons a as => intro ih _; rw [← ih]; rfl
      · revert ih hne
        cases Buffer.splitOn (· == '\n') cs with
        | nil => intro _ h; exact absurd rfl h
        | cons a as =>
          intro ih _
          rw [← ih]
          cases as <;> rfl
  · intro l hl hc
    have := Props.splitOn_no_sep _ _ l hl _ hc
    simp at this

/-- The lines of a beginning of a text. -/
theorem split_append (p : Char → Bool) (u v : Text) : ∃ xs a b rest,
    Buffer.splitOn p u = xs ++ [a] ∧ Buffer.splitOn p (u ++ v) = xs ++ (a ++ b) :: rest := by
  induction u with
  | nil =>
    obtain ⟨b, rest, h⟩ : ∃ b rest, Buffer.splitOn p v = b :: rest := by
      cases h : Buffer.splitOn p v with
      | nil => exact absurd h (Props.splitOn_ne_nil _ _)
      | cons b rest => exact ⟨b, rest, rfl⟩
    exact ⟨[], [], b, rest, rfl, h⟩
  | cons c cs ih =>
    obtain ⟨xs, a, b, rest, h1, h2⟩ := ih
    simp only [List.cons_append, Buffer.splitOn, h1, h2]
    split
    · exact ⟨[] :: xs, a, b, rest, rfl, rfl⟩
    · cases xs with
      | nil => exact ⟨[], c :: a, b, rest, rfl, rfl⟩
      | cons x xs => exact ⟨(c :: x) :: xs, a, b, rest, rfl, rfl⟩

theorem calcWidth_le (p w : Nat) (ls : List Nat) (t : Nat) (hw : 0 < w) : t ≤ Editor.calcWidth p w ls t := by
  induction ls generalizing t with
  | nil => exact Nat.le_refl _
  | cons l ls ih =>
    unfold Editor.calcWidth
    refine Nat.le_trans ?_ (ih _)
    have hd := Nat.div_add_mod t w
    have hlt := Nat.mod_lt t hw
    split
    · rw [Nat.add_mul, Nat.mul_comm]
      omega
    · omega

theorem calcWidth_append (p w : Nat) (a b : List Nat) (t : Nat) :
    Editor.calcWidth p w (a ++ b) t = Editor.calcWidth p w b (Editor.calcWidth p w a t) := by
  induction a generalizing t with
  | nil => rfl
  | cons l ls ih => exact ih _

/-- The end of a beginning comes no later than the end of the whole. -/
theorem calcWidth_prefix (sw : Text → Nat) (p w : Nat) (u v : Text) (hw : 0 < w)
    (hsw : ∀ a b, (∃ t ∈ Buffer.splitOn (· == '\n') (u ++ v), t = a ++ b) → sw a ≤ sw (a ++ b)) :
    Editor.calcWidth p w ((Buffer.splitOn (· == '\n') u).map sw) 0 ≤
      Editor.calcWidth p w ((Buffer.splitOn (· == '\n') (u ++ v)).map sw) 0 := by
  obtain ⟨xs, a, b, rest, h1, h2⟩ := split_append (· == '\n') u v
  have h3 := hsw a b ⟨a ++ b, by rw [h2]; simp, rfl⟩
  rw [h1, h2, List.map_append, List.map_append, calcWidth_append, calcWidth_append, List.map_cons, List.map_cons]
  unfold Editor.calcWidth
  refine Nat.le_trans ?_ (calcWidth_le _ _ _ _ hw)
  simp only [List.map_nil, Editor.calcWidth]
  omega

/-- Lines put one under the other. -/
def lay (w : Nat) : Text → List Text → Text
  | T, [] => T
  | T, q :: qs => lay w (wholeRows w T ++ q) qs

theorem wholeRows_append (A q : Text) (hA : A.length % w = 0) : wholeRows w (A ++ q) = A ++ wholeRows w q := by
  unfold wholeRows
  rw [List.length_append, Nat.add_mod, hA, Nat.zero_add, Nat.mod_mod, List.append_assoc]

theorem lay_eq (A q : Text) (qs : List Text) (hw : 0 < w) (hA : A.length % w = 0) :
    lay w (A ++ q) qs = A ++ rowsOf w (q :: qs).dropLast ++ (q :: qs).getLastD [] := by
  induction qs generalizing A q with
  | nil => simp [lay, rowsOf]
  | cons q' qs ih =>
    unfold lay
    rw [ih _ _ (wholeRows_mod _ hw), wholeRows_append _ _ hA]
    simp [rowsOf]

theorem lay_rows (q : Text) (qs : List Text) (hw : 0 < w) :
    lay w [] (q :: qs) = rowsOf w (q :: qs).dropLast ++ (q :: qs).getLastD [] := by
  have h := lay_eq (w := w) [] q qs hw (by simp)
  have : wholeRows w [] = [] := by simp [wholeRows]
  unfold lay
  rw [this]
  simpa using h

theorem lay_length (q : Text) (qs : List Text) (hw : 0 < w) : (lay w [] (q :: qs)).length = endOf w (q :: qs) := by
  rw [lay_rows _ _ hw, List.length_append]
  rfl

theorem shows_rows (q : Text) (qs : List Text) (hw : 0 < w) :
    s.Shows w R (lay w [] (q :: qs)) ↔ s.Shows w R (rowsOf w (q :: qs)) := by
  rw [lay_rows _ _ hw]
  have h : rowsOf w (q :: qs) = rowsOf w (q :: qs).dropLast ++ wholeRows w ((q :: qs).getLastD []) := by
    have h2 : (q :: qs) = (q :: qs).dropLast ++ [(q :: qs).getLastD []] := by
      rw [List.getLastD_cons, ← List.getLast_eq_getLastD (by simp)]
      exact (List.dropLast_append_getLast (by simp)).symm
    conv => lhs; rw [h2]
    simp [rowsOf]
  rw [h]
  unfold wholeRows
  rw [← List.append_assoc, shows_blank]

/-- The position the code computes. -/
theorem calcWidth_lay (sw : Text → Nat) (p : Nat) (ls : List Text) (hsw : ∀ l ∈ ls, sw l = l.length) (T : Text) (hw : 0 < w) :
    Editor.calcWidth p w (ls.map sw) T.length = (lay w T (ls.map (List.replicate p ' ' ++ ·))).length := by
  induction ls generalizing T with
  | nil => rfl
  | cons l ls ih =>
    rw [List.map_cons, List.map_cons]
    unfold lay Editor.calcWidth
    dsimp only
    rw [← ih (fun l hl => hsw l (by simp [hl])), hsw l (by simp)]
    congr 1
    have hd := Nat.div_add_mod T.length w
    have hlt := Nat.mod_lt T.length hw
    simp only [wholeRows, List.length_append, List.length_replicate]
    by_cases hm : T.length % w = 0
    · rw [if_neg (by simp [hm]), hm]
      simp
    · rw [if_pos hm, Nat.mod_eq_of_lt (a := w - T.length % w) (by omega), Nat.add_mul, Nat.mul_comm]
      omega

/-- The width of the prompt only matters, not what it is. -/
theorem lay_len_congr (T T' : Text) (qs qs' : List Text) (hT : T.length = T'.length)
    (h : qs.map List.length = qs'.map List.length) : (lay w T qs).length = (lay w T' qs').length := by
  induction qs generalizing T T' qs' with
  | nil =>
    cases qs' with
    | nil => exact hT
    | cons => simp at h
  | cons q qs ih =>
    cases qs' with
    | nil => simp at h
    | cons q' qs' =>
      simp only [List.map_cons, List.cons.injEq] at h
      exact ih (wholeRows w T ++ q) (wholeRows w T' ++ q') qs' (by simp [wholeRows, hT, h.1]) h.2

theorem calcWidth_end (sw : Text → Nat) (p : Text) (ls : List Text) (hne : ls ≠ []) (hsw : ∀ l ∈ ls, sw l = l.length) (hw : 0 < w) :
    Editor.calcWidth p.length w (ls.map sw) 0 = endOf w (indented p ls) := by
  have h := calcWidth_lay (w := w) sw p.length ls hsw [] hw
  cases ls with
  | nil => exact absurd rfl hne
  | cons l ls =>
    unfold indented
    rw [← lay_length _ _ hw]
    refine h.trans (lay_len_congr _ _ _ _ rfl ?_)
    simp

theorem calcWidth_shown [Glyphs] (sw : Text → Nat) (p : Text) (ls : List Text) (hne : ls ≠ []) (hsw : ∀ l ∈ ls, sw l = (onScreen l).length)
    (hw : 0 < w) : Editor.calcWidth (onScreen p).length w (ls.map sw) 0 = endOf w (shown p ls) := by
  have h := calcWidth_end (w := w) List.length (onScreen p) (ls.map onScreen) (by simpa using hne) (fun _ _ => rfl) hw
  rw [List.map_map] at h
  refine Eq.trans ?_ h
  congr 1
  exact List.map_congr_left fun l hl => hsw l hl

/-! ### A redraw -/

theorem splitBytes_append {l a b : Text} {n : Nat} (h : Editor.splitBytes l n = some (a, b)) : a ++ b = l := by
  induction l generalizing n a b with
  | nil =>
    cases n with
    | zero => simp only [Editor.splitBytes, Option.some.injEq, Prod.mk.injEq] at h; rw [← h.1, ← h.2]; rfl
    | succ n => simp [Editor.splitBytes] at h
  | cons c cs ih =>
    cases n with
    | zero => simp only [Editor.splitBytes, Option.some.injEq, Prod.mk.injEq] at h; rw [← h.1, ← h.2]; rfl
    | succ n =>
      unfold Editor.splitBytes at h
      split at h
      · cases h2 : Editor.splitBytes cs (n + 1 - c.utf8Size) with
        | none => simp [h2] at h
        | some q =>
          obtain ⟨a', b'⟩ := q
          simp only [h2, Option.map_some, Option.some.injEq, Prod.mk.injEq] at h
          rw [← h.1, ← h.2, List.cons_append, ih h2]
      · exact absurd h (by simp)

theorem lineToks_cons [Glyphs] {E : Env} {srch : Bool} {p n i rem : Nat} {l : Text} {ls : List Text} {body : List Tok}
    (hE : OnlyColours E) (hl : escChar ∉ l) (h : Editor.lineToks E srch p n (l :: ls) i rem = some body) :
    ∃ mid rem' body', Editor.lineToks E srch p n ls (i + 1) rem' = some body' ∧
      body = (if i > 0 then [.right (Editor.asU16 p)] else []) ++ mid ++ (if i + 1 < n then [.text ['\r', '\n']] else []) ++ body' ∧
      ∀ s, flow w mid s = write w (onScreen l) s := by
  have hcol : ∀ t, escChar ∉ t → removeCodes (match E.closure with | some f => f t | none => t) = t := fun t ht => by
    cases hf : E.closure with
    | none => exact removeCodes_plain ht
    | some f => rw [hE f hf, removeCodes_plain ht]
  unfold Editor.lineToks at h
  dsimp only at h
  split at h
  · rw [Option.map_eq_some_iff] at h
    obtain ⟨b', h1, h2⟩ := h
    refine ⟨_, _, b', h1, h2.symm, fun s => ?_⟩
    rw [flow_text, removeCodes_plain hl]
  · split at h
    · split at h
      · exact absurd h (by simp)
      · rename_i start tail hsp
        rw [Option.map_eq_some_iff] at h
        obtain ⟨b', h1, h2⟩ := h
        have ha := splitBytes_append hsp
        have h3 : escChar ∉ start ∧ escChar ∉ tail := by
          rw [← ha, List.mem_append, not_or] at hl
          exact hl
        refine ⟨_, _, b', h1, h2.symm, fun s => ?_⟩
        cases srch
        · simp only [Bool.false_eq_true, if_false]
          show write w (onScreen (removeCodes tail)) (write w (onScreen (removeCodes fgYellow)) (write w (onScreen (removeCodes _)) s)) = _
          refine (congrArg (fun x => write w (onScreen (removeCodes tail)) (write w (onScreen (removeCodes fgYellow)) (write w (onScreen x) s)))
            (hcol start h3.1)).trans ?_
          rw [vis_yellow, removeCodes_plain h3.2, ← ha, onScreen_append, write_append]
          rfl
        · simp only [if_true]
          show write w (onScreen (removeCodes tail)) (write w (onScreen (removeCodes _)) (write w (onScreen (removeCodes fgYellow)) s)) = _
          refine (congrArg (fun x => write w (onScreen (removeCodes tail)) (write w (onScreen x) (write w (onScreen (removeCodes fgYellow)) s)))
            (hcol start h3.1)).trans ?_
          rw [vis_yellow, removeCodes_plain h3.2, ← ha, onScreen_append, write_append]
          rfl
    · rw [Option.map_eq_some_iff] at h
      obtain ⟨b', h1, h2⟩ := h
      refine ⟨_, _, b', h1, h2.symm, fun s => ?_⟩
      cases srch
      · simp only [Bool.false_eq_true, if_false]
        exact congrArg (fun x => write w (onScreen x) s) (hcol l hl)
      · simp only [if_true]
        show write w (onScreen (removeCodes _)) (write w (onScreen (removeCodes fgYellow)) s) = _
        rw [vis_yellow]
        exact congrArg (fun x => write w (onScreen x) s) (hcol l hl)

/-- Characters that neither move the cursor nor begin an escape sequence. -/
def Plain (l : Text) : Prop := ∀ c ∈ l, c ≠ '\r' ∧ c ≠ '\n' ∧ c ≠ escChar

theorem Plain.on [Glyphs] {l : Text} (h : Plain l) : ∀ x ∈ onScreen l, x ≠ '\r' ∧ x ≠ '\n' :=
  onScreen_plain fun c hc => ⟨(h c hc).1, (h c hc).2.1⟩

theorem Plain.esc {l : Text} (h : Plain l) : escChar ∉ l := fun hc => (h _ hc).2.2 rfl

theorem lines_go [Glyphs] {E : Env} {srch : Bool} {p n : Nat} (hE : OnlyColours E) (hw : 0 < w) (hw' : w < 65536) (ls : List Text) :
    ∀ (l : Text) (i rem : Nat) (body : List Tok) (T Ti : Text) (s : Screen),
    Editor.lineToks E srch p n (l :: ls) i rem = some body → i + 1 + ls.length = n →
    (∀ x ∈ l :: ls, Plain x) → ((ls = [] ∧ i = 0) ∨ (0 < p ∧ p < w)) →
    ((i = 0 ∧ Ti = T ∧ (Wet w R T s ∨ (Dry w R T s ∧ (onScreen l ≠ [] ∨ T.length % w ≠ 0)))) ∨
      (i > 0 ∧ Ti = T ++ List.replicate p ' ' ∧ Dry w R T s ∧ T.length % w = 0)) →
    Wet w R (lay w (Ti ++ onScreen l) ((ls.map onScreen).map (List.replicate p ' ' ++ ·))) (flow w body s) ∧ Above R s (flow w body s) := by
  induction ls with
  | nil =>
    intro l i rem body T Ti s h hn hP hp hs
    obtain ⟨mid, rem', body', h1, rfl, h2⟩ := lineToks_cons (w := w) hE (hP l (by simp)).esc h
    simp only [Editor.lineToks, Option.some.injEq] at h1
    subst h1
    rw [if_neg (c := i + 1 < n) (by simp at hn; omega)]
    simp only [List.append_nil, flow_append, h2]
    show Wet w R (Ti ++ onScreen l) _ ∧ _
    have hlP := hP l (by simp)
    rcases hs with ⟨rfl, rfl, hs⟩ | ⟨hi, rfl, hs, hm⟩
    · exact write_wet (onScreen l) hw hlP.on hs
    · have hp := hp.resolve_left (by omega)
      rw [if_pos hi]
      have hu : Editor.asU16 p = p := by unfold Editor.asU16; omega
      rw [hu]
      have h3 := right_dry hp.1 hp.2 hm hs
      have h4 := write_wet (R := R) (T := T ++ List.replicate p ' ') (s := s.flow1 w (.right p)) (onScreen l) hw
        hlP.on (.inr ⟨h3.1, .inr (by
          rw [List.length_append, List.length_replicate, Nat.add_mod, hm, Nat.zero_add, Nat.mod_mod, Nat.mod_eq_of_lt hp.2]
          omega)⟩)
      exact ⟨h4.1, Above.trans h3.2 h4.2⟩
  | cons l' ls ih =>
    intro l i rem body T Ti s h hn hP hp hs
    obtain ⟨mid, rem', body', h1, rfl, h2⟩ := lineToks_cons (w := w) hE (hP l (by simp)).esc h
    have hp := hp.resolve_left (by simp)
    rw [if_pos (c := i + 1 < n) (by simp at hn; omega)]
    have hlP := hP l (by simp)
    have h5 : Wet w R (Ti ++ onScreen l) (flow w ((if i > 0 then [.right (Editor.asU16 p)] else []) ++ mid) s) ∧
        Above R s (flow w ((if i > 0 then [.right (Editor.asU16 p)] else []) ++ mid) s) := by
      rw [flow_append, h2]
      rcases hs with ⟨rfl, rfl, hs⟩ | ⟨hi, rfl, hs, hm⟩
      · exact write_wet (onScreen l) hw hlP.on hs
      · rw [if_pos hi]
        have hu : Editor.asU16 p = p := by unfold Editor.asU16; omega
        rw [hu]
        have h3 := right_dry hp.1 hp.2 hm hs
        have h4 := write_wet (R := R) (T := T ++ List.replicate p ' ') (s := s.flow1 w (.right p)) (onScreen l) hw
          hlP.on (.inr ⟨h3.1, .inr (by
            rw [List.length_append, List.length_replicate, Nat.add_mod, hm, Nat.zero_add, Nat.mod_mod, Nat.mod_eq_of_lt hp.2]
            omega)⟩)
        exact ⟨h4.1, Above.trans h3.2 h4.2⟩
    rw [flow_append, flow_append]
    generalize flow w ((if i > 0 then [.right (Editor.asU16 p)] else []) ++ mid) s = s1 at h5
    have h6 : removeCodes ['\r', '\n'] = ['\r', '\n'] := by decide
    rw [flow_text, h6, onScreen_crlf]
    have h7 := crlf_wet hw h5.1
    have h8 := ih l' (i + 1) rem' body' (wholeRows w (Ti ++ onScreen l)) (wholeRows w (Ti ++ onScreen l) ++ List.replicate p ' ') _ h1
      (by simp at hn; omega) (fun x hx => hP x (by simp only [List.mem_cons] at hx ⊢; tauto)) (.inr hp)
      (.inr ⟨by omega, rfl, h7.1, wholeRows_mod _ hw⟩)
    refine ⟨?_, Above.trans h5.2 (Above.trans h7.2 h8.2)⟩
    rw [List.map_cons, List.map_cons]
    unfold lay
    rw [← List.append_assoc]
    exact h8.1

/-- Rows that are full: what follows begins on a row of its own. -/
theorem dry_rows {A : Text} {k : Nat} (hw : 0 < w) (hA : A.length = k * w) (h : Dry w R A s) : Dry w (R + k) [] s := by
  obtain ⟨h1, h2, h3, h4⟩ := h
  refine ⟨fun i j hj => ?_, h2, ?_, ?_⟩
  · have := h1 (k + i) j hj
    rw [← Nat.add_assoc] at this
    rw [this, List.getD_eq_getElem?_getD, List.getElem?_eq_none]
    · simp
    · rw [hA, Nat.add_mul]; omega
  · rw [h3, hA, Nat.mul_div_cancel _ hw]; simp
  · rw [h4, hA, Nat.mul_mod_left]; simp

theorem shows_under {A T : Text} {k : Nat} {s' : Screen} (hA : A.length = k * w) (h : s.Shows w R A) (ha : Above (R + k) s s')
    (h' : s'.Shows w (R + k) T) : s'.Shows w R (A ++ T) := by
  intro i j hj
  rw [List.getD_eq_getElem?_getD]
  by_cases hi : i < k
  · rw [ha _ _ (by omega), h i j hj, List.getD_eq_getElem?_getD, List.getElem?_append_left]
    rw [hA]
    have : (i + 1) * w ≤ k * w := Nat.mul_le_mul_right w hi
    rw [Nat.add_mul] at this
    omega
  · obtain ⟨d, rfl⟩ : ∃ d, i = k + d := ⟨i - k, by omega⟩
    have := h' d j hj
    rw [Nat.add_assoc] at this
    rw [this, List.getD_eq_getElem?_getD, List.getElem?_append_right]
    · congr 2
      rw [hA, Nat.add_mul]; omega
    · rw [hA, Nat.add_mul]; omega

theorem Above.le {R' : Nat} {s' : Screen} (h : Above R' s s') (hR : R ≤ R') : Above R s s' := fun i j hi => h i j (by omega)

/-- What is written on `k` rows of their own between the beginning of row `R` and the prompt. -/
structure Heads [Glyphs] (w R k : Nat) (A : Text) (comp : List Tok) : Prop where
  len : A.length = k * w
  goes : ∀ s1 : Screen, Dry w R [] s1 → Dry w R A (flow w comp s1) ∧ Above R s1 (flow w comp s1)

theorem Heads.none [Glyphs] : Heads w R 0 [] [] := ⟨by simp, fun _ h => ⟨h, .refl⟩⟩

/-- What is on the screen before the cursor is moved to its place at the end of a redraw. -/
theorem redraw_pre [Glyphs] {E : Env} {srch : Bool} {p prompt : Text} {a rem tcl : Nat} {ls : List Text} {up body reset : List Tok}
    {k : Nat} {A : Text} {comp : List Tok} (hcomp : Heads w R k A comp) (hE : OnlyColours E) (hw : 0 < w) (hw' : w < 65536) (hpr : removeCodes prompt = p) (hpP : Plain p)
    (hls : ls ≠ []) (hP : ∀ l ∈ ls, Plain l)
    (hp : (0 < (onScreen p).length ∧ (onScreen p).length < w) ∨ ((∃ l, ls = [l]) ∧ shown p ls ≠ [[]]))
    (htcl : 0 < tcl ∧ tcl < 65536) (hrow : s.row = R + (tcl - 1))
    (hup : Editor.upToks tcl = some up)
    (hbody : Editor.lineToks E srch (onScreen p).length ls.length ls 0 rem = some body)
    (ha : a = endOf w (shown p ls))
    (hreset : reset = [] ∨ reset = [.text fgReset]) :
    let s' := flow w ([.text (csi ['?', '1', '0', '0', '0', 'l'] ++ csi ['?', '1', 'l'])] ++ up ++
        [.text ['\r'], .clearAfter] ++ comp ++ [.text prompt] ++ body ++ reset ++
        (if a % w = 0 then [.text ['\r', '\n']] else [])) s
    s'.Shows w R (A ++ rowsOf w (shown p ls)) ∧ s'.On w (R + k) a ∧ Above R s s' := by
  obtain ⟨l, ls', rfl⟩ : ∃ l ls', ls = l :: ls' := by
    cases ls with
    | nil => exact absurd rfl hls
    | cons l ls' => exact ⟨l, ls', rfl⟩
  intro s'
  -- up to the beginning of the first row
  have hu : flow w ([.text (csi ['?', '1', '0', '0', '0', 'l'] ++ csi ['?', '1', 'l'])] ++ up ++ [.text ['\r'], .clearAfter]) s =
      { row := R, col := 0, wrap := false, cell := fun i j => if R < i ∨ (i = R ∧ 0 ≤ j) then ' ' else s.cell i j } := by
    rw [flow_append, flow_append, flow_text, vis_modes, onScreen_nil]
    show flow w _ (flow w up s) = _
    have h1 : (flow w up s).row = R ∧ (flow w up s).cell = s.cell := by
      unfold Editor.upToks at hup
      split at hup
      · split at hup
        · exact absurd hup (by simp)
        · simp only [Option.some.injEq] at hup
          subst hup
          refine ⟨?_, rfl⟩
          show s.row - max 1 (Editor.asU16 tcl - 1) = R
          unfold Editor.asU16
          omega
      · simp only [Option.some.injEq] at hup
        subst hup
        refine ⟨?_, rfl⟩
        show s.row = R
        omega
    generalize flow w up s = s1 at h1
    have h2 : removeCodes ['\r'] = ['\r'] := by decide
    simp only [flow, flow1, h2, onScreen_cr, write, char, if_true, h1.1, h1.2]
  have hdry : Dry w R [] (flow w ([.text (csi ['?', '1', '0', '0', '0', 'l'] ++ csi ['?', '1', 'l'])] ++ up ++ [.text ['\r'], .clearAfter]) s) ∧
      Above R s (flow w ([.text (csi ['?', '1', '0', '0', '0', 'l'] ++ csi ['?', '1', 'l'])] ++ up ++ [.text ['\r'], .clearAfter]) s) := by
    rw [hu]
    refine ⟨⟨fun i j hj => ?_, rfl, by simp, by simp⟩, fun i j hi => ?_⟩
    · dsimp only
      rw [if_pos (by omega)]
      rfl
    · dsimp only
      rw [if_neg (by omega)]
  have hs' : s' = flow w (if a % w = 0 then [.text ['\r', '\n']] else []) (flow w reset (flow w body
      (write w (onScreen p) (flow w comp (flow w ([.text (csi ['?', '1', '0', '0', '0', 'l'] ++ csi ['?', '1', 'l'])] ++ up ++ [.text ['\r'], .clearAfter]) s))))) := by
    show flow w _ s = _
    rw [flow_append, flow_append, flow_append, flow_append, flow_append, flow_text, hpr]
  rw [hs']
  generalize flow w ([.text (csi ['?', '1', '0', '0', '0', 'l'] ++ csi ['?', '1', 'l'])] ++ up ++ [.text ['\r'], .clearAfter]) s = s0 at hdry
  -- the list
  obtain ⟨hl1, hl2⟩ := hcomp.goes s0 hdry.1
  generalize flow w comp s0 = s1 at hl1 hl2
  have hd0 := dry_rows hw hcomp.len hl1
  -- the prompt
  have h2 : (Wet w (R + k) (onScreen p) (write w (onScreen p) s1) ∨ (Dry w (R + k) (onScreen p) (write w (onScreen p) s1) ∧ (onScreen l ≠ [] ∨ (onScreen p).length % w ≠ 0))) ∧ Above (R + k) s1 (write w (onScreen p) s1) := by
    by_cases hp0 : onScreen p = []
    · rw [hp0]
      refine ⟨.inr ⟨hd0, ?_⟩, .refl⟩
      rcases hp with hp | ⟨⟨l', hl'⟩, hne⟩
      · rw [hp0] at hp; simp at hp
      · left
        intro hl0
        simp only [List.cons.injEq] at hl'
        rw [hl'.2] at hne
        apply hne
        simp [shown, indented, hp0, hl0]
    · have := write_wet (onScreen p) hw hpP.on (.inr ⟨hd0, .inl hp0⟩)
      exact ⟨.inl this.1, this.2⟩
  generalize write w (onScreen p) s1 = s2 at h2
  -- the lines
  have h3 := lines_go (R := R + k) (p := (onScreen p).length) hE hw hw' ls' l 0 rem body (onScreen p) (onScreen p) s2 hbody (by simp; omega) hP
    (by
      rcases hp with hp | ⟨⟨l', hl'⟩, -⟩
      · exact .inr hp
      · simp only [List.cons.injEq] at hl'
        exact .inl ⟨hl'.2, rfl⟩)
    (.inl ⟨rfl, rfl, h2.1⟩)
  have hlay : lay w (onScreen p ++ onScreen l) ((ls'.map onScreen).map (List.replicate (onScreen p).length ' ' ++ ·)) = lay w [] (shown p (l :: ls')) := by
    unfold shown indented
    conv => rhs; unfold lay
    congr 1
    simp [wholeRows]
  rw [hlay] at h3
  generalize flow w body s2 = s3 at h3
  have h4 : flow w reset s3 = s3 := by
    rcases hreset with rfl | rfl
    · rfl
    · rw [flow_text, vis_reset]; rfl
  rw [h4]
  -- the end of the last line
  have hlen : (lay w [] (shown p (l :: ls'))).length = a := by
    rw [ha]
    unfold shown indented
    exact lay_length _ _ hw
  have h5 : Dry w (R + k) (lay w [] (shown p (l :: ls'))) (flow w (if a % w = 0 then [.text ['\r', '\n']] else []) s3) ∧
      Above (R + k) s3 (flow w (if a % w = 0 then [.text ['\r', '\n']] else []) s3) := by
    split
    · rename_i hm
      have h6 := crlf_wet hw h3.1
      have h7 : wholeRows w (lay w [] (shown p (l :: ls'))) = lay w [] (shown p (l :: ls')) := by
        unfold wholeRows
        rw [hlen, hm]
        simp
      rw [h7] at h6
      have h8 : removeCodes ['\r', '\n'] = ['\r', '\n'] := by decide
      rw [flow_text, h8, onScreen_crlf]
      exact h6
    · rename_i hm
      rcases h3.1.2 with ⟨-, h6⟩ | ⟨h6, -⟩
      · exact ⟨⟨h3.1.1, h6⟩, .refl⟩
      · rw [hlen] at h6
        exact absurd h6 hm
  have hab := Above.trans h2.2 (Above.trans h3.2 h5.2)
  refine ⟨shows_under hcomp.len hl1.1 hab ?_, hlen ▸ h5.1.2, Above.trans hdry.2 (Above.trans hl2 (hab.le (Nat.le_add_right _ _)))⟩
  have h7 := h5.1.1
  unfold shown at h7 ⊢
  rw [List.map_cons] at h7 ⊢
  unfold indented at h7 ⊢
  rwa [shows_rows _ _ hw] at h7

/-- What is on the screen after a redraw, given what the redraw wrote. -/
theorem redraw [Glyphs] {E : Env} {srch : Bool} {p prompt : Text} {a b rem tcl : Nat} {ls : List Text} {up body move reset : List Tok}
    {k : Nat} {A : Text} {comp : List Tok} (hcomp : Heads w R k A comp) (hE : OnlyColours E) (hw : 0 < w) (hw' : w < 65536) (hpr : removeCodes prompt = p) (hpP : Plain p)
    (hls : ls ≠ []) (hP : ∀ l ∈ ls, Plain l)
    (hp : (0 < (onScreen p).length ∧ (onScreen p).length < w) ∨ ((∃ l, ls = [l]) ∧ shown p ls ≠ [[]]))
    (htcl : 0 < tcl ∧ tcl < 65536) (hrow : s.row = R + (tcl - 1))
    (hup : Editor.upToks tcl = some up)
    (hbody : Editor.lineToks E srch (onScreen p).length ls.length ls 0 rem = some body)
    (ha : a = endOf w (shown p ls)) (hrows : a / w < 65536) (hba : b ≤ a)
    (hmove : Editor.cursorMove a b w = some move)
    (hreset : reset = [] ∨ reset = [.text fgReset]) :
    let s' := flow w ([.text (csi ['?', '1', '0', '0', '0', 'l'] ++ csi ['?', '1', 'l'])] ++ up ++
        [.text ['\r'], .clearAfter] ++ comp ++ [.text prompt] ++ body ++ reset ++
        (if a % w = 0 then [.text ['\r', '\n']] else []) ++ move) s
    s'.Shows w R (A ++ rowsOf w (shown p ls)) ∧ s'.On w (R + k) b ∧ Above R s s' := by
  intro s'
  have h := redraw_pre (s := s) (R := R) hcomp hE hw hw' hpr hpP hls hP hp htcl hrow hup hbody ha hreset
  dsimp only at h
  have hs' : s' = flow w move (flow w ([.text (csi ['?', '1', '0', '0', '0', 'l'] ++ csi ['?', '1', 'l'])] ++ up ++
        [.text ['\r'], .clearAfter] ++ comp ++ [.text prompt] ++ body ++ reset ++
        (if a % w = 0 then [.text ['\r', '\n']] else [])) s) := by
    show flow w _ s = _
    rw [flow_append]
  rw [hs']
  generalize flow w ([.text (csi ['?', '1', '0', '0', '0', 'l'] ++ csi ['?', '1', 'l'])] ++ up ++
        [.text ['\r'], .clearAfter] ++ comp ++ [.text prompt] ++ body ++ reset ++
        (if a % w = 0 then [.text ['\r', '\n']] else [])) s = s4 at h
  have h6 := move_on hw hw' hba hrows h.2.1 hmove
  refine ⟨?_, h6.1, ?_⟩
  · intro i j hj
    rw [h6.2]
    exact h.1 i j hj
  · intro i j hi
    rw [h6.2]
    exact h.2.2 i j hi

end Screen
end Liner
