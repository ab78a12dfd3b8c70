import Verif.Proof.Stroll
import Verif.Props.Resume
import Verif.Props.Navigate
/-
C89: looking through the history and coming back leaves no trace.
-/

namespace Liner.Props
open Liner Liner.Editor M KM Liner.Wit Liner.Spec

/-- How many entries are met going up from the line `x`. -/
def met (h : History) (x : Text) : Nat := (if x = [] then allEntries h else matchingEntries h x).length

theorem picks_met (h : History) (x : Text) : (picks h x).length = met h x := by
  unfold picks met
  split
  · simp [allEntries, texts]
  · rename_i hx
    have h1 := matching_of_subset h (.ofText x) hx
    have h2 : (h.getHistorySubset (.ofText x)).reverse.filterMap ((texts h)[·]?) =
        (h.getHistorySubset (.ofText x)).reverse.map fun i => ((texts h)[i]?).getD [] := by
      rw [← List.filterMap_eq_map]
      apply List.filterMap_congr
      intro i hi
      have := historySubset_lt (List.mem_reverse.mp hi)
      have hl : i < (texts h).length := by simpa [texts] using this
      simp [List.getElem?_eq_getElem hl]
    have h3 : (Buffer.ofText x).data = x := rfl
    rw [h3] at h1
    rw [← h1, h2]
    simp

/-- C89: with the Emacs keys and a history that is not shared, looking through the history and coming back leaves no trace:
two calls that begin with given lines, editing of the new line, and ways up and down in the history which end on the new line
(with the cursor moved and the text edited on the entries, too),
and get to the same text with the cursor at the same place, go on alike, whatever is pressed then, apart from undo and
revert. -/
theorem C89_stroll {c c' : Context} {r r' : Call} {u : Text × Text} (he : c.keyBindings = .emacs)
    (he' : c'.keyBindings = .emacs) (hh : c.history = c'.history) (hf : c.fs = c'.fs) (hs : c.history.share = false)
    (d d' : List (Key × (Text → List Text)))
    (rest : List KeyMap.Input) (hi : r.input = d.map (fun k => .key k.1 k.2) ++ rest)
    (hi' : r'.input = d'.map (fun k => .key k.1 k.2) ++ rest)
    (hd : stroll (hint (texts c.history)) (met c.history) (d.map (·.1)) (r.buffer, []) 0 = some u)
    (hd' : stroll (hint (texts c.history)) (met c.history) (d'.map (·.1)) (r'.buffer, []) 0 = some u)
    (hw : SameWords r.env r'.env) (h : r.env.ttyWidth ≠ some 0) (h' : r'.env.ttyWidth ≠ some 0)
    (hk : ∀ k comp, KeyMap.Input.key k comp ∈ rest → k ≠ .ctrl 'x' ∧ k ≠ .alt 'r') :
    Stopped (c.readLine r) ∨ Stopped (c'.readLine r') ∨ Seen (c.readLine r) = Seen (c'.readLine r') := by
  unfold Context.readLine
  rw [he, he', ← hh, ← hf, hi, hi']
  dsimp only
  have start : ∀ {x s}, Begun c.history c.fs x (proposal c.history x) s → Roams c.history c.fs (x, []) 0 s := by
    intro x s hs
    unfold Roams
    rw [if_pos rfl]
    simpa using hs.poised
  rcases begun_emacs_read (h := c.history) (fs := c.fs) (x := r.buffer) h r.prompt
    (d.map (fun k => .key k.1 k.2) ++ rest) with h1 | ⟨s1, e1, b1⟩
  · exact .inl (ended_stopped c h1)
  rcases begun_emacs_read (h := c.history) (fs := c.fs) (x := r'.buffer) h' r'.prompt
    (d'.map (fun k => .key k.1 k.2) ++ rest) with h2 | ⟨s2, e2, b2⟩
  · exact .inr (.inl (ended_stopped c' h2))
  rcases stroll_loop (E := r.env) hs rest (proposal_hint c.history) (picks_met c.history) d (r.buffer, []) u 0 s1
    (start b1) hd with h3 | ⟨s3, e3, b3⟩
  · rw [e1]; exact .inl (ended_stopped c h3)
  rcases stroll_loop (E := r'.env) hs rest (proposal_hint c.history) (picks_met c.history) d' (r'.buffer, []) u 0 s2
    (start b2) hd' with h4 | ⟨s4, e4, b4⟩
  · rw [e2]; exact .inr (.inl (ended_stopped c' h4))
  rw [e1, e2, e3, e4]
  exact ended_akin (Q := Eq) (poised_loop hw rest hk b3 b4)

/-- C89, when both calls return a line. -/
theorem C89_line {c c' c1 c1' : Context} {r r' : Call} {t t' : Text} {o o' : List Tok} {u : Text × Text}
    (he : c.keyBindings = .emacs) (he' : c'.keyBindings = .emacs) (hh : c.history = c'.history) (hf : c.fs = c'.fs)
    (hs : c.history.share = false) (d d' : List (Key × (Text → List Text))) (rest : List KeyMap.Input)
    (hi : r.input = d.map (fun k => .key k.1 k.2) ++ rest) (hi' : r'.input = d'.map (fun k => .key k.1 k.2) ++ rest)
    (hd : stroll (hint (texts c.history)) (met c.history) (d.map (·.1)) (r.buffer, []) 0 = some u)
    (hd' : stroll (hint (texts c.history)) (met c.history) (d'.map (·.1)) (r'.buffer, []) 0 = some u)
    (hw : SameWords r.env r'.env)
    (hk : ∀ k comp, KeyMap.Input.key k comp ∈ rest → k ≠ .ctrl 'x' ∧ k ≠ .alt 'r')
    (h : c.readLine r = .ok t (c1, o)) (h' : c'.readLine r' = .ok t' (c1', o')) :
    t = t' ∧ c1.history = c1'.history ∧ c1.fs = c1'.fs := by
  have := C89_stroll he he' hh hf hs d d' rest hi hi' hd hd' hw (fun e => (narrow e).1 _ _ h)
    (fun e => (narrow e).1 _ _ h') hk
  rw [h, h'] at this
  simpa [Stopped, Seen] using this

/-! ### Concrete cases -/

/-- Up twice and back on the empty line, once more to `make` and back with `m`, with changes of the entries on the way. -/
def wandering : List Key :=
  [.up, .ctrl 'p', .left, .char 'z', .down, .ctrl 'a', .delete, .ctrl 'n', .char 'm', .home, .up, .ctrl 'u', .char 'q', .home, .up,
    .end, .backspace, .up, .left, .ctrl 'k', .down, .down, .down, .char 'a', .char 'k', .char 'e', .left]

theorem wandering_make : stroll (hint (texts (under .emacs).history)) (met (under .emacs).history) wandering ([], []) 0 =
      some (['m', 'a', 'k'], ['e']) ∧
    stroll (hint (texts (under .emacs).history)) (met (under .emacs).history) [.left] (['m', 'a', 'k', 'e'], []) 0 =
      some (['m', 'a', 'k'], ['e']) := by
  decide +kernel

example : okAnd ((under .emacs).readLine (wide (wandering ++ further))) (fun t _ => t == ['x', 'l', 'm', 'a', 'k', 'k', 'e']) := by
  decide +kernel
example : okAnd ((under .emacs).readLine (supplied ['m', 'a', 'k', 'e'] (slim 30 (.left :: further))))
    (fun t _ => t == ['x', 'l', 'm', 'a', 'k', 'k', 'e']) := by
  decide +kernel

example : Stopped ((under .emacs).readLine (wide (wandering ++ further))) ∨
    Stopped ((under .emacs).readLine (supplied ['m', 'a', 'k', 'e'] (slim 30 (.left :: further)))) ∨
    Seen ((under .emacs).readLine (wide (wandering ++ further))) =
      Seen ((under .emacs).readLine (supplied ['m', 'a', 'k', 'e'] (slim 30 (.left :: further)))) :=
  C89_stroll rfl rfl rfl rfl (by decide +kernel) (served wandering) (served [.left]) (strokes further) rfl rfl wandering_make.1 wandering_make.2
    (sameWords_default rfl rfl) (by decide) (by simp [slim, supplied]) (by
      intro k comp h
      simp only [strokes, List.mem_map] at h
      obtain ⟨k', hk, e⟩ := h
      cases e
      have : ∀ k ∈ further, k ≠ .ctrl 'x' ∧ k ≠ .alt 'r' := by decide +kernel
      exact this k hk)

/-- C89: coming back with Alt-> instead of Down does leave a trace: the place among the entries that match is kept, and the
next Up does not move (compare C35).  So does Ctrl-L on an entry, after which Down does not come back. -/
theorem C89_needed :
    okAnd ((under .emacs).readLine (wide [.char 'm', .up, .down, .up, .char '\n'])) (fun t _ => t == ['m', 'a', 'k', 'e']) = true ∧
    okAnd ((under .emacs).readLine (wide [.char 'm', .up, .alt '>', .up, .char '\n'])) (fun t _ => t == ['m']) = true ∧
    okAnd ((under .emacs).readLine (wide [.char 'm', .up, .down, .char '\n'])) (fun t _ => t == ['m']) = true ∧
    okAnd ((under .emacs).readLine (wide [.char 'm', .up, .ctrl 'l', .down, .char '\n']))
      (fun t _ => t == ['m', 'a', 'k', 'e']) = true := by
  decide +kernel

end Liner.Props
