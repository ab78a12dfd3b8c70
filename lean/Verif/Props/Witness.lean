import Verif.Tests.Harness
import Verif.Spec.Editor
/-
Concrete situations, used beside the theorems to show that their hypotheses can be met, and as
witnesses where the code violates a property.
-/

namespace Liner.Wit
open Liner Liner.Spec Liner.Tests

/-- The outcome is a success that satisfies the test. -/
def okAnd {σ α : Type} (o : Out σ α) (p : α → σ → Bool) : Bool :=
  match o with
  | .ok a s => p a s
  | _ => false

theorem of_okAnd {σ α : Type} {o : Out σ α} {p : α → σ → Bool} (h : okAnd o p = true) :
    ∃ a s, o = .ok a s ∧ p a s = true := by
  unfold okAnd at h
  split at h
  · exact ⟨_, _, rfl, h⟩
  · cases h

/-- The outcome is an error whose state satisfies the test. -/
def errAnd {σ α : Type} (o : Out σ α) (p : IoErr → σ → Bool) : Bool :=
  match o with
  | .err e s => p e s
  | _ => false

theorem of_errAnd {σ α : Type} {o : Out σ α} {p : IoErr → σ → Bool} (h : errAnd o p = true) :
    ∃ a s, o = .err a s ∧ p a s = true := by
  unfold errAnd at h
  split at h
  · exact ⟨_, _, rfl, h⟩
  · cases h

/-- The outcome is a panic at the given place. -/
def panics {σ α : Type} (o : Out σ α) (w : Site) : Bool :=
  match o with
  | .panic w' => w' == w
  | _ => false

theorem of_panics {σ α : Type} {o : Out σ α} {w : Site} (h : panics o w = true) : o = .panic w := by
  unfold panics at h
  split at h
  · rw [beq_iff_eq] at h; rw [h]
  · cases h

/-- A history, oldest entry first. -/
def hist (entries : List String) : History := { buffers := entries.map fun t => .ofText t.toList }

/-- The editor of `read_line` before anything happens. -/
def fresh (entries : List String) (line : String := "") : Ed :=
  Editor.initial { prompt := ['>', ' '] } (hist entries) noFiles (.ofText line.toList)

/-- The Emacs keys typed on a fresh editor. -/
def emacs (entries : List String) (keys : List Key) (line : String := "") (E : Env := env) :
    Out (Emacs × Ed) Unit :=
  session Emacs.keyMap E { prompt := ['>', ' '] } (keys.map plain) ({}, fresh entries line)

/-- The vi keys typed on a fresh editor. -/
def vi (entries : List String) (keys : List Key) (line : String := "") (E : Env := env) :
    Out (Vi × Ed) Unit :=
  session Vi.keyMap E { prompt := ['>', ' '] } (keys.map plain) ({}, fresh entries line)

/-- Keys for characters. -/
def chars (s : String) : List Key := s.toList.map .char

end Liner.Wit
