import Verif.Spec.Rack
import Verif.Spec.Table
/-
Specification of the vi keys with Tab: the rack, and the candidates on the screen.
-/

namespace Liner.Spec
open Liner Liner.Props

/-- What Tab makes of the line `l ++ r` with the cursor in between, where `list` are the candidates on the screen with the
place of the one put in last, and `comp` gives the candidates for a word.  The result is how the line is after it, if it is
changed, with the texts that undo brings back first, and the candidates on the screen after it. -/
inductive Tabs (comp : Text → List Text) (l r : Text) :
    Option (List Text × Option Nat) → Option (List Text × Text × Text) → Option (List Text × Option Nat) → Prop
  /-- there is no candidate for the word touched -/
  | nothing {a w1 w2 z : Text} (hl : l = a ++ w1) (hr : r = w2 ++ z) (ht : Touched a w1 w2 z) (hc : SortedSet (comp (w1 ++ w2)) []) :
      Tabs comp l r none none none
  /-- a single one replaces the part of the word before the cursor -/
  | single {a w1 w2 z c : Text} (hl : l = a ++ w1) (hr : r = w2 ++ z) (ht : Touched a w1 w2 z) (hc : SortedSet (comp (w1 ++ w2)) [c]) :
      Tabs comp l r none (some (if w1 = [] then [l ++ r] else [a ++ r, l ++ r], a ++ c, r)) none
  /-- what all begin with says more than the word -/
  | longer {a w1 w2 z p : Text} {cs : List Text} (hl : l = a ++ w1) (hr : r = w2 ++ z) (ht : Touched a w1 w2 z)
      (hc : SortedSet (comp (w1 ++ w2)) cs) (h2 : 2 ≤ cs.length) (hp : CommonPrefix cs p) (hw : w1 ++ w2 <+: p) (hne : p ≠ w1 ++ w2) :
      Tabs comp l r none (some (if w1 = [] then [l ++ r] else [a ++ r, l ++ r], a ++ p, r)) none
  /-- otherwise the candidates are shown -/
  | choice {a w1 w2 z p : Text} {cs : List Text} (hl : l = a ++ w1) (hr : r = w2 ++ z) (ht : Touched a w1 w2 z)
      (hc : SortedSet (comp (w1 ++ w2)) cs) (h2 : 2 ≤ cs.length) (hp : CommonPrefix cs p) (hw : ¬ (w1 ++ w2 <+: p ∧ p ≠ w1 ++ w2)) :
      Tabs comp l r none none (some (cs, none))
  /-- the next candidate instead of the last one, which is the whole line -/
  | whole {cs : List Text} {i j : Nat} {c : Text} (hj : j = Table.following cs.length (some i)) (hc : cs[j]? = some c)
      (hw : cs[i]? = some (l ++ r)) :
      Tabs comp l r (some (cs, some i)) (some ([[], l ++ r], c, [])) (some (cs, some j))
  /-- the next candidate instead of the part of the word before the cursor -/
  | next {cs : List Text} {last : Option Nat} {j : Nat} {a w1 w2 z c : Text} (hj : j = Table.following cs.length last)
      (hc : cs[j]? = some c) (hw : ∀ i, last = some i → cs[i]? ≠ some (l ++ r)) (hl : l = a ++ w1) (hr : r = w2 ++ z)
      (ht : Touched a w1 w2 z) :
      Tabs comp l r (some (cs, last)) (some (if w1 = [] then [l ++ r] else [a ++ r, l ++ r], a ++ c, r)) (some (cs, some j))

/-- The line has become `l ++ r`.  At the board this counts as changes; the cursor is on a character.  During an insertion
it belongs to this one; it is not repeated by `.`, nor by a count. -/
def Hand.swap (ps : List Text) (l r : Text) : Hand → Hand
  | .board b => .board { b with text := l ++ r, cur := min l.length ((l ++ r).length - 1), past := ps ++ b.past }
  | .pen p full last => .pen { p with left := l, right := r } full last

/-- The rack with the list of candidates on the screen, if there is one, and the place of the candidate put in last. -/
structure Tray where
  rack : Rack
  list : Option (List Text × Option Nat) := none

/-- What can be done: what can be done at the rack, Tab, and Enter to take the list away. -/
inductive Deed where
  | act (a : Act)
  | tab (comp : Text → List Text)
  | shut

/-- The keys pressed for it, with what the completer would say. -/
def Deed.Given : Deed → List (Key × (Text → List Text)) → Prop
  | .act a, ks => ks.map Prod.fst = a.keys
  | .tab comp, ks => ks = [(.char '\t', comp)]
  | .shut, ks => ks.map Prod.fst = [.char '\n']

/-- The keys pressed for one after the other. -/
inductive Deed.AllGiven : List Deed → List (Key × (Text → List Text)) → Prop
  | nil : Deed.AllGiven [] []
  | cons {d : Deed} {ds : List Deed} {ks ks' : List (Key × (Text → List Text))} (h : d.Given ks) (t : Deed.AllGiven ds ks') :
      Deed.AllGiven (d :: ds) (ks ++ ks')

/-- The list stays while suggestions and entries found are taken, if nothing is typed. -/
def Act.keeps : Act → Bool
  | .take _ | .search _ _ _ => true
  | .quest _ more _ => more.all fun k => k = seekKey true ∨ k = seekKey false
  | _ => false

/-- It can be done. -/
def Tray.Can (C : CharClass) (entries : List Text) (t : Tray) : Deed → Prop
  | .act a => t.rack.Can C entries a ∧ (a = .enter → t.list = none)
  | .tab _ => True
  | .shut => t.list ≠ none

/-- What it does. -/
inductive Tray.Step (C : CharClass) (entries : List Text) : Deed → Tray → Tray → Prop
  | act {a : Act} {t : Tray} {r' : Rack} (h : Rack.Step C entries a t.rack r') :
      Tray.Step C entries (.act a) t ⟨r', if a.keeps then t.list else none⟩
  | same {comp : Text → List Text} {t : Tray} {list : Option (List Text × Option Nat)}
      (h : Tabs comp t.rack.hand.left t.rack.hand.right t.list none list) :
      Tray.Step C entries (.tab comp) t ⟨t.rack, list⟩
  | tab {comp : Text → List Text} {t : Tray} {ps : List Text} {l r : Text} {list : Option (List Text × Option Nat)}
      (h : Tabs comp t.rack.hand.left t.rack.hand.right t.list (some (ps, l, r)) list) :
      Tray.Step C entries (.tab comp) t ⟨⟨t.rack.hand.swap ps l r, t.rack.shelf⟩, list⟩
  | shut {t : Tray} : Tray.Step C entries .shut t ⟨⟨t.rack.hand, t.rack.shelf.quit⟩, none⟩

/-- What can be done one after the other. -/
def Tray.CanAll (C : CharClass) (entries : List Text) : List Deed → Tray → Prop
  | [], _ => True
  | d :: ds, t => t.Can C entries d ∧ ∀ t', Tray.Step C entries d t t' → Tray.CanAll C entries ds t'

inductive Tray.Steps (C : CharClass) (entries : List Text) : List Deed → Tray → Tray → Prop
  | nil (t : Tray) : Tray.Steps C entries [] t t
  | cons {d : Deed} {ds : List Deed} {t t1 t' : Tray} (h : Tray.Step C entries d t t1) (k : Tray.Steps C entries ds t1 t') :
      Tray.Steps C entries (d :: ds) t t'

end Liner.Spec
