import Verif.Spec.Editor
/-
Specification vocabulary for reading a line.
-/

namespace Liner.Spec
open Liner

/-- Keys as they come from the terminal. -/
def typed (keys : List (Key × (Text → List Text))) : List KeyMap.Input :=
  keys.map fun k => .key k.1 k.2

/-- The keys are handled one after the other, and none of them finishes the line. -/
inductive Goes {κ : Type} (km : KeyMap κ) (E : Env) :
    List (Key × (Text → List Text)) → κ × Ed → κ × Ed → Prop
  | nil (t : κ × Ed) : Goes km E [] t t
  | cons {k : Key} {comp : Text → List Text} {ks : List (Key × (Text → List Text))}
      {t t1 t2 : κ × Ed} : km.handleKey E comp k t = .ok false t1 → Goes km E ks t1 t2 →
      Goes km E ((k, comp) :: ks) t t2

end Liner.Spec
