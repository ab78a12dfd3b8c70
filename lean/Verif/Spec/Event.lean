import Verif.Model.Event
import Verif.Spec.Editor
/-
What a completer is told, and completers that leave the editor alone.
-/

namespace Liner.Spec
open Liner

/-- A call that a completer receives. -/
inductive Call where
  | event (e : EventKind)
  | asked (word : Text)
deriving DecidableEq, Repr

/-- The completer `H` that also writes down the calls, the oldest first. -/
def recording {η : Type} (H : Handler η) : Handler (η × List Call) where
  completions w h := (H.completions w h.1).map fun u => (u.1, (u.2, h.2 ++ [.asked w]))
  onEvent e t := (H.onEvent e (t.1.1, t.2)).map fun u => ((u.1, t.1.2 ++ [.event e]), u.2)

/-- The key named after it has been handled: Ctrl-H is called Backspace. -/
def after (k : Key) : Key := if k = .ctrl 'h' then .backspace else k

/-- The calls for one key that was handled: before and after it, and for Tab one before completing and at most one
for candidates. -/
inductive Told : Key → List Call → Prop
  | key {k : Key} (h : k ≠ .char '\t') : Told k [.event (.beforeKey k), .event (.afterKey (after k))]
  | shown : Told (.char '\t')
      [.event (.beforeKey (.char '\t')), .event .beforeComplete, .event (.afterKey (.char '\t'))]
  | asked (word : Text) : Told (.char '\t')
      [.event (.beforeKey (.char '\t')), .event .beforeComplete, .asked word, .event (.afterKey (.char '\t'))]

/-- The calls for several keys. -/
inductive ToldAll : List Key → List Call → Prop
  | nil : ToldAll [] []
  | cons {k : Key} {ks : List Key} {c cs : List Call} : Told k c → ToldAll ks cs → ToldAll (k :: ks) (c ++ cs)

/-- Events do not change the editor (they may change the completer). -/
def Quiet {η : Type} (H : Handler η) : Prop := ∀ e h s, ∃ h', H.onEvent e (h, s) = some (h', s)

/-- Events change the editor only by its operations. -/
def Polite {η : Type} (E : Env) (H : Handler η) : Prop :=
  ∀ e h s h' s', H.onEvent e (h, s) = some (h', s') → ∃ ops, runOps E ops s = .ok () s'

/-- What the completer in state `h` answers. -/
def answers {η : Type} (H : Handler η) (h : η) (word : Text) : List Text :=
  ((H.completions word h).map Prod.fst).getD []

/-- The outcome without the completer's state. -/
def erase {κ η α : Type} : Out ((κ × η) × Ed) α → Out (κ × Ed) α
  | .ok a t => .ok a (t.1.1, t.2)
  | .err e t => .err e (t.1.1, t.2)
  | .panic w => .panic w

/-- Keys handled one after the other. -/
def pressH {κ η : Type} (H : Handler η) (E : Env) (km : KeyMap κ) : List Key → KH κ η Unit
  | [] => pure ()
  | k :: ks => do
    let _ ← Handled.handleKey H E km k
    pressH H E km ks

/-- What `read_line` does for a list of keys, as long as it does not return. -/
def sessionH {κ η : Type} (H : Handler η) (E : Env) (km : KeyMap κ) (prompt : Prompt) (keys : List Key) :
    KH κ η Unit := do
  KM.ed (Editor.start E prompt)
  KH.map (km.init E)
  pressH H E km keys

/-- The completer panics on some question. -/
def Panics {η : Type} (H : Handler η) : Prop := ∃ w h, H.completions w h = none

/-- What was read, as input of the model without events. -/
inductive Inputs {η : Type} (H : Handler η) : List (Option Key) → List KeyMap.Input → Prop
  | nil : Inputs H [] []
  | fail (r : List (Option Key)) {is : List KeyMap.Input} : Inputs H r is → Inputs H (none :: r) (.ioErr :: is)
  | key (k : Key) (h : η) {r : List (Option Key)} {is : List KeyMap.Input} : Inputs H r is →
      Inputs H (some k :: r) (.key k (answers H h) :: is)

end Liner.Spec
