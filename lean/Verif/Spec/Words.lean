import Verif.Model.Words
/-
Specification of word division and of cursor classification, over plain texts and indices.
-/

namespace Liner.Spec
open Liner

/-- Character `i` of the text comes right after a backslash. -/
def Escaped (d : Text) (i : Nat) : Prop := ∃ k, i = k + 1 ∧ d[k]? = some '\\'

/-- `[s, e)` is a word of `d`. -/
structure IsWord (d : Text) (s e : Nat) : Prop where
  nonempty : s < e
  inside : e ≤ d.length
  /-- it begins with a character that is neither a space nor a backslash -/
  first : ∃ c, d[s]? = some c ∧ c ≠ ' ' ∧ c ≠ '\\'
  /-- its spaces are escaped -/
  spaces : ∀ i, s ≤ i → i < e → d[i]? = some ' ' → Escaped d i
  /-- it ends at the end of the text or at an unescaped space -/
  stop : e = d.length ∨ (d[e]? = some ' ' ∧ ¬ Escaped d e)

/-- `ws` is the division of `d` into words. -/
structure IsDivision (d : Text) (ws : List (Nat × Nat)) : Prop where
  words : ∀ w ∈ ws, IsWord d w.1 w.2
  /-- words come in order and are separated -/
  ordered : ws.Pairwise fun a b => a.2 < b.1
  /-- whatever is in no word is a space or a backslash -/
  outside : ∀ i c, d[i]? = some c → (∀ w ∈ ws, ¬ (w.1 ≤ i ∧ i < w.2)) → c = ' ' ∨ c = '\\'

/-- The meaning of a cursor classification. -/
def Classifies (cursor : Nat) (ws : List (Nat × Nat)) : CursorPosition → Prop
  | .inWord i => ∃ s e, ws[i]? = some (s, e) ∧ s < cursor ∧ cursor < e
  | .onWordLeftEdge i => ∃ e, ws[i]? = some (cursor, e)
  | .onWordRightEdge i => ∃ s, ws[i]? = some (s, cursor)
  | .inSpace l r =>
    (∀ i s e : Nat, ws[i]? = some (s, e) → e < cursor ∨ cursor < s) ∧
    (match l with
      | none => ∀ i s e : Nat, ws[i]? = some (s, e) → cursor < s
      | some j => ∃ s e, ws[j]? = some (s, e) ∧ e < cursor ∧
          ∀ i s e : Nat, j < i → ws[i]? = some (s, e) → cursor < s) ∧
    (match r with
      | none => ∀ i s e : Nat, ws[i]? = some (s, e) → e < cursor
      | some j => ∃ s e, ws[j]? = some (s, e) ∧ cursor < s ∧
          ∀ i s e : Nat, i < j → ws[i]? = some (s, e) → e < cursor)

/-- Non-empty words in order, separated by at least one character. -/
def Separated (ws : List (Nat × Nat)) : Prop :=
  (∀ w ∈ ws, w.1 < w.2) ∧ ws.Pairwise fun a b => a.2 < b.1

end Liner.Spec
