import Verif.Proof.ViFuel
import Verif.Props.Witness
/-
The recursion of the vi key map: C57.
-/

namespace Liner.Props
open Liner Liner.Spec Liner.Editor Liner.Wit Liner.Tests

theorem inv_reached {E : Env} {p p' : Prompt} {h : History} {fs : FS} {b : Buffer}
    {keys : List (Key × (Text → List Text))} {t : Vi × Ed}
    (hs : session Vi.keyMap E p keys (({} : Vi), initial p' h fs b) = .ok () t) : Vi.Inv t :=
  (wp_ok (Vi.inv_session E p p' h fs b keys) hs :)

section
variable (E : Env) (p p' : Prompt) (h : History) (fs : FS) (b : Buffer)
  (keys : List (Key × (Text → List Text))) (t : Vi × Ed)
  (hs : session Vi.keyMap E p keys (({} : Vi), initial p' h fs b) = .ok () t)
include hs

/-- Whatever keys were typed before and whatever they left to be repeated, no key makes
`handle_key_core` call itself more than three deep inside the outermost call: what calls deeper than
that would do makes no difference. -/
theorem C57_depth (key : Key) (rest : Key → Vi.ViM Unit) :
    Vi.handleKeyCore E key t = nested E rest 4 key t :=
  (Vi.fuel_eqv (n := 4) (m := 0) (rest := rest) E (inv_reached hs)).1

/-- The depth to which the model follows the calls is therefore enough: there it does what one more
call would do, which is the equation of the source. -/
theorem C57_equation (key : Key) :
    Vi.handleKeyCore E key t = Vi.coreStep (Vi.handleKeyCore E) E key t := by
  have e : ∀ n k, nested E (fun k => M.panic) n k = Vi.coreFuel E n k := by
    intro n
    induction n with
    | zero => exact fun k => rfl
    | succ n ih =>
      intro k
      show Vi.coreStep (nested E _ n) E k = Vi.coreStep (Vi.coreFuel E n) E k
      rw [funext ih]
  have h1 := (Vi.fuel_eqv (n := 4) (m := 5) (rest := fun _ => M.panic) (k := key) E
    (inv_reached hs)).1
  rw [e] at h1
  exact h1

/-- And it is the only solution: every function that satisfies the equation of the source does there
what the model does. -/
theorem C57_unique (f : Key → Vi.ViM Unit) (hf : ∀ k u, f k u = Vi.coreStep f E k u) (key : Key) :
    f key t = Vi.handleKeyCore E key t := by
  have e : ∀ n k, nested E f n k = f k := by
    intro n
    induction n with
    | zero => exact fun k => rfl
    | succ n ih =>
      intro k
      show Vi.coreStep (nested E f n) E k = f k
      rw [funext ih]
      exact (funext (hf k)).symm
  rw [C57_depth E p p' h fs b keys t hs key f, e]

end

/-- The calls do nest: `2.` after an insertion handles Esc, which handles the inserted keys once more. -/
theorem C57_nests : ∃ t rest, vi [] (chars "ix" ++ [.esc] ++ chars "2") = .ok () t ∧
    Vi.handleKeyCore env (.char '.') t ≠ nested env rest 2 (.char '.') t := by
  have h : okAnd (vi [] (chars "ix" ++ [.esc] ++ chars "2")) (fun _ t =>
      okAnd (Vi.handleKeyCore env (.char '.') t) (fun _ _ => true) &&
      !okAnd (nested env (fun _ => M.panic) 2 (.char '.') t) (fun _ _ => true)) = true := by decide +kernel
  obtain ⟨_, t, ht, h⟩ := of_okAnd h
  refine ⟨t, fun _ => M.panic, ht, fun e => ?_⟩
  rw [e] at h
  simp at h

/-- A state whose record holds the key `.` itself: typed after `cw`. -/
example : okAnd (vi [] ([.esc] ++ chars "0cwa.b" ++ [.esc] ++ chars "3") "ab cd") (fun _ t =>
    t.1.lastCommand.contains (.char '.') &&
    okAnd (Vi.handleKeyCore env (.char '.') t) (fun _ _ => true)) = true := by decide +kernel

end Liner.Props
