import Verif.Spec.View
/-
A simpler terminal, which is written column by column and does not know characters of two columns.  As long as none of these meets
the right edge, it shows the same.
-/

namespace Liner.Spec
open Liner

namespace Screen

/-- A column, or a control character. -/
def char (w : Nat) (c : Char) (s : Screen) : Screen :=
  if c = '\r' then { s with col := 0, wrap := false }
  else if c = '\n' then { s with row := s.row + 1, wrap := false }
  else s.put w c

/-- Columns one after the other. -/
def write (w : Nat) : Text → Screen → Screen
  | [], s => s
  | c :: cs, s => write w cs (s.char w c)

variable [Glyphs]

def flow1 (w : Nat) (t : Tok) (s : Screen) : Screen :=
  match t with
  | .text t => s.write w (onScreen (removeCodes t))
  | .up n => { s with row := s.row - max 1 n, wrap := false }
  | .left n => { s with col := s.col - max 1 n, wrap := false }
  | .right n => { s with col := min (w - 1) (s.col + max 1 n), wrap := false }
  | .clearAfter => { s with cell := fun i j => if s.row < i ∨ (i = s.row ∧ s.col ≤ j) then ' ' else s.cell i j }
  | .clearAll => { s with cell := fun _ _ => ' ' }
  | .gotoOrigin => { s with row := 0, col := 0, wrap := false }

def flow (w : Nat) : List Tok → Screen → Screen
  | [], s => s
  | t :: ts, s => flow w ts (s.flow1 w t)

end Screen

variable [Glyphs]

/-- While `out` is written, the cursor of the terminal stays in the first 65535 rows. -/
def Sight (scr : Screen) (w : Nat) (out : List Tok) : Prop := ∀ o, o <+: out → (scr.flow w o).row < 65535

end Liner.Spec

namespace Liner.Screen
open Liner Liner.Spec Liner.Spec.Screen

variable {w : Nat} {s : Spec.Screen}

theorem write_append (a b : Text) (s : Screen) : write w (a ++ b) s = write w b (write w a s) := by
  induction a generalizing s with
  | nil => rfl
  | cons c cs ih => exact ih _

variable [Glyphs]

theorem flow_append (a b : List Tok) (s : Screen) : flow w (a ++ b) s = flow w b (flow w a s) := by
  induction a generalizing s with
  | nil => rfl
  | cons c cs ih => exact ih _

theorem toks_append (a b : List Tok) (s : Screen) : toks w (a ++ b) s = toks w b (toks w a s) := by
  induction a generalizing s with
  | nil => rfl
  | cons c cs ih => exact ih _

theorem flow_text (t : Text) (s : Screen) : flow w [.text t] s = write w (onScreen (removeCodes t)) s := rfl

theorem onScreen_nil : onScreen [] = [] := rfl

theorem onScreen_append (a b : Text) : onScreen (a ++ b) = onScreen a ++ onScreen b := by simp [onScreen]

theorem onScreen_cons (c : Char) (t : Text) : onScreen (c :: t) = cells c ++ onScreen t := by simp [onScreen]

theorem onScreen_crlf : onScreen ['\r', '\n'] = ['\r', '\n'] := by simp [onScreen, cells]

theorem onScreen_cr : onScreen ['\r'] = ['\r'] := by simp [onScreen, cells]

theorem cells_space : cells ' ' = [' '] := by simp [cells, Glyphs.space]

theorem onScreen_spaces (n : Nat) : onScreen (List.replicate n ' ') = List.replicate n ' ' := by
  induction n with
  | zero => rfl
  | succ n ih => rw [List.replicate_succ, onScreen_cons, ih, cells_space]; rfl

theorem cells_plain {c : Char} (h : c ≠ '\r' ∧ c ≠ '\n') {x : Char} (hx : x ∈ cells c) : x ≠ '\r' ∧ x ≠ '\n' := by
  unfold cells at hx
  rw [if_neg (by tauto)] at hx
  split at hx
  · simp at hx
  · split at hx
    · rw [List.mem_singleton] at hx; rw [hx]; exact h
    · rw [List.mem_cons, List.mem_singleton] at hx
      rcases hx with rfl | rfl
      · exact h
      · decide

theorem onScreen_plain {t : Text} (h : ∀ c ∈ t, c ≠ '\r' ∧ c ≠ '\n') : ∀ x ∈ onScreen t, x ≠ '\r' ∧ x ≠ '\n' := by
  intro x hx
  unfold onScreen at hx
  obtain ⟨c, hc, hx⟩ := List.mem_flatMap.mp hx
  exact cells_plain (h c hc) hx

/-- Characters of one column. -/
theorem onScreen_narrow {t : Text} (h : ∀ c ∈ t, Glyphs.width c = 1) : onScreen t = t := by
  induction t with
  | nil => rfl
  | cons c t ih =>
    rw [onScreen_cons, ih fun c hc => h c (by simp [hc])]
    unfold cells
    simp [h c (by simp)]

/-! ### Whether they fit can be computed -/

def textFitsB (w : Nat) : Text → Spec.Screen → Bool
  | [], _ => true
  | c :: cs, s => (decide (Glyphs.width c < 2) || s.roomy w) && textFitsB w cs (s.glyph w c)

def fitsB (w : Nat) : List Tok → Spec.Screen → Bool
  | [], _ => true
  | .text t :: ts, s => textFitsB w (removeCodes t) s && fitsB w ts (s.tok w (.text t))
  | t :: ts, s => fitsB w ts (s.tok w t)

theorem textFitsB_iff (w : Nat) (t : Text) (s : Spec.Screen) : textFitsB w t s = true ↔ TextFits w t s := by
  induction t generalizing s with
  | nil => simp [textFitsB, TextFits]
  | cons c t ih =>
    simp only [textFitsB, TextFits, Bool.and_eq_true, Bool.or_eq_true, decide_eq_true_eq, ih]
    refine and_congr_left fun _ => ⟨fun h h2 => h.resolve_left (by omega), fun h => ?_⟩
    by_cases h2 : 2 ≤ Glyphs.width c
    · exact Or.inr (h h2)
    · exact Or.inl (by omega)

theorem fitsB_iff (w : Nat) (ts : List Tok) (s : Spec.Screen) : fitsB w ts s = true ↔ Fits w ts s := by
  induction ts generalizing s with
  | nil => simp [fitsB, Fits]
  | cons t ts ih => cases t <;> simp [fitsB, Fits, ih, textFitsB_iff]

instance (w : Nat) (ts : List Tok) (s : Spec.Screen) : Decidable (Fits w ts s) := decidable_of_iff _ (fitsB_iff w ts s)

/-! ### The same terminal -/

theorem glyph_eq (c : Char) (h : 2 ≤ Glyphs.width c → s.roomy w = true) : s.glyph w c = s.write w (cells c) := by
  unfold glyph cells
  by_cases h1 : c = '\r'
  · simp [h1, write, char]
  · by_cases h2 : c = '\n'
    · simp [h2, write, char]
    · rw [if_neg h1, if_neg h2, if_neg (c := c = '\r' ∨ c = '\n') (by tauto)]
      by_cases h3 : Glyphs.width c = 0
      · rw [if_pos h3, if_pos h3]; rfl
      · rw [if_neg h3, if_neg h3]
        have hp : ∀ s : Spec.Screen, s.char w c = s.put w c := fun s => by unfold char; rw [if_neg h1, if_neg h2]
        by_cases h4 : Glyphs.width c = 1
        · rw [if_pos h4, if_pos h4]
          exact (hp s).symm
        · rw [if_neg h4, if_neg h4, h (by omega), if_pos rfl]
          show _ = ((s.char w c).char w half)
          rw [hp]
          unfold char
          rw [if_neg (c := half = '\r') (by decide), if_neg (c := half = '\n') (by decide)]

theorem type_eq (t : Text) (s : Screen) (h : TextFits w t s) : s.type w t = s.write w (onScreen t) := by
  induction t generalizing s with
  | nil => rfl
  | cons c t ih =>
    rw [onScreen_cons, write_append, ← glyph_eq c h.1]
    exact ih _ h.2

theorem fits_cons {t : Tok} {ts : List Tok} (h : s.Fits w (t :: ts)) : s.tok w t = s.flow1 w t ∧ (s.flow1 w t).Fits w ts := by
  cases t with
  | text t =>
    have h1 : s.tok w (.text t) = s.flow1 w (.text t) := type_eq _ _ h.1
    exact ⟨h1, h1 ▸ h.2⟩
  | _ => exact ⟨rfl, h⟩

theorem fits_eq (ts : List Tok) (s : Screen) (h : s.Fits w ts) : s.toks w ts = s.flow w ts := by
  induction ts generalizing s with
  | nil => rfl
  | cons t ts ih =>
    obtain ⟨h1, h2⟩ := fits_cons h
    show (s.tok w t).toks w ts = (s.flow1 w t).flow w ts
    rw [h1]
    exact ih _ h2

theorem fits_append (a b : List Tok) (s : Screen) : s.Fits w (a ++ b) ↔ s.Fits w a ∧ (s.toks w a).Fits w b := by
  induction a generalizing s with
  | nil => exact ⟨fun h => ⟨trivial, h⟩, fun h => h.2⟩
  | cons t a ih =>
    cases t with
    | text t =>
      show (_ ∧ Fits w (a ++ b) _) ↔ (_ ∧ Fits w a _) ∧ _
      rw [ih, and_assoc]
      rfl
    | _ => exact ih _

theorem sight_left {a b : List Tok} (h : InSight s w (a ++ b)) : InSight s w a :=
  ⟨((fits_append _ _ _).mp h.1).1, fun o ho => h.2 o (ho.trans (List.prefix_append _ _))⟩

theorem sight_same {out : List Tok} (h : InSight s w out) : s.toks w out = s.flow w out := fits_eq _ _ h.1

theorem sight_in {out : List Tok} (h : InSight s w out) : Sight s w out := fun o ho => by
  obtain ⟨r, rfl⟩ := ho
  rw [← sight_same (sight_left h)]
  exact h.2 o (List.prefix_append _ _)

end Liner.Screen
