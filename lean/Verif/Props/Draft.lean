import Verif.Proof.Draft
import Verif.Props.Akin
import Verif.Props.Editor
/-
C86: a draft leaves no trace.
-/

namespace Liner.Props
open Liner Liner.Editor M KM Liner.Wit Liner.Spec

/-- The newest entry that begins with `x` and goes on; none for the empty text. -/
def newestFrom (entries : List Text) (x : Text) : Option Text :=
  if x = [] then none else entries.reverse.find? fun e => x.isPrefixOf e && e != x

theorem newestFrom_of {entries : List Text} {x : Text} {o : Option Text} (h : Suggests entries x o) :
    o = newestFrom entries x := by
  unfold newestFrom
  cases o with
  | none =>
    split
    · rfl
    · rename_i hx
      have h1 := h.resolve_left hx
      symm
      rw [List.find?_eq_none]
      intro e he
      have := h1 e (by simpa using he)
      simp only [Bool.and_eq_true, List.isPrefixOf_iff_prefix, bne_iff_ne, ne_eq]
      exact fun hc => this ⟨hc.1, fun e => hc.2 e.symm⟩
  | some e =>
    obtain ⟨hx, older, newer, rfl, ⟨hp, hn⟩, hno⟩ := h
    rw [if_neg hx]
    have h1 : newer.reverse.find? (fun e => x.isPrefixOf e && e != x) = none := by
      rw [List.find?_eq_none]
      intro e he
      have := hno e (by simpa using he)
      simp only [Bool.and_eq_true, List.isPrefixOf_iff_prefix, bne_iff_ne, ne_eq]
      exact fun hc => this ⟨hc.1, fun e => hc.2 e.symm⟩
    have h2 : (x.isPrefixOf e && e != x) = true := by
      simp only [Bool.and_eq_true, List.isPrefixOf_iff_prefix, bne_iff_ne, ne_eq]
      exact ⟨hp, fun e => hn e.symm⟩
    simp [List.find?_append, h1, h2]

theorem proposal_text (h : History) : (fun x => (proposal h x).map (·.data)) = newestFrom (texts h) := by
  funext x
  exact newestFrom_of (suggests_of (b := .ofText x) rfl)

/-- C86: with the Emacs keys, the draft of a line leaves no trace: two calls that begin with given lines and keys which
leave the cursor at the end (typing, Backspace, Ctrl-H, Ctrl-U, Ctrl-K, Delete, End, Ctrl-E, Ctrl-L, taking a suggestion with
Right or Ctrl-F, Ctrl keys without a meaning), and lead to the same line, go on alike, whatever is pressed then, apart from
undo and revert. -/
theorem C86_draft {c c' : Context} {r r' : Call} (he : c.keyBindings = .emacs) (he' : c'.keyBindings = .emacs)
    (hh : c.history = c'.history) (hf : c.fs = c'.fs) (d d' : List (Key × (Text → List Text)))
    (rest : List KeyMap.Input) (hi : r.input = d.map (fun k => .key k.1 k.2) ++ rest)
    (hi' : r'.input = d'.map (fun k => .key k.1 k.2) ++ rest) (hd : ∀ k ∈ d, drafting k.1 = true)
    (hd' : ∀ k ∈ d', drafting k.1 = true)
    (hx : drafted (newestFrom (texts c.history)) r.buffer d = drafted (newestFrom (texts c.history)) r'.buffer d')
    (hw : SameWords r.env r'.env) (h : r.env.ttyWidth ≠ some 0) (h' : r'.env.ttyWidth ≠ some 0)
    (hk : ∀ k comp, KeyMap.Input.key k comp ∈ rest → k ≠ .ctrl 'x' ∧ k ≠ .alt 'r') :
    Stopped (c.readLine r) ∨ Stopped (c'.readLine r') ∨ Seen (c.readLine r) = Seen (c'.readLine r') := by
  unfold Context.readLine
  rw [he, he', ← hh, ← hf, hi, hi']
  dsimp only
  rw [← proposal_text] at hx
  rcases begun_emacs_read (h := c.history) (fs := c.fs) (x := r.buffer) h r.prompt
    (d.map (fun k => .key k.1 k.2) ++ rest) with h1 | ⟨s1, e1, b1⟩
  · exact .inl (ended_stopped c h1)
  rcases begun_emacs_read (h := c.history) (fs := c.fs) (x := r'.buffer) h' r'.prompt
    (d'.map (fun k => .key k.1 k.2) ++ rest) with h2 | ⟨s2, e2, b2⟩
  · exact .inr (.inl (ended_stopped c' h2))
  rcases begun_drafted (E := r.env) rest d _ s1 b1 hd with h3 | ⟨s3, e3, b3⟩
  · rw [e1]; exact .inl (ended_stopped c h3)
  rcases begun_drafted (E := r'.env) rest d' _ s2 b2 hd' with h4 | ⟨s4, e4, b4⟩
  · rw [e2]; exact .inr (.inl (ended_stopped c' h4))
  rw [e1, e2, e3, e4]
  refine ended_akin (Q := Eq) (begun_loop hw rest hk [] _ s3 b3 (t := s4) ?_ nofun)
  rw [← hx] at b4
  simpa using b4

/-- C86, when both calls return a line. -/
theorem C86_line {c c' c1 c1' : Context} {r r' : Call} {t t' : Text} {o o' : List Tok} (he : c.keyBindings = .emacs)
    (he' : c'.keyBindings = .emacs) (hh : c.history = c'.history) (hf : c.fs = c'.fs)
    (d d' : List (Key × (Text → List Text))) (rest : List KeyMap.Input)
    (hi : r.input = d.map (fun k => .key k.1 k.2) ++ rest) (hi' : r'.input = d'.map (fun k => .key k.1 k.2) ++ rest)
    (hd : ∀ k ∈ d, drafting k.1 = true) (hd' : ∀ k ∈ d', drafting k.1 = true)
    (hx : drafted (newestFrom (texts c.history)) r.buffer d = drafted (newestFrom (texts c.history)) r'.buffer d')
    (hw : SameWords r.env r'.env)
    (hk : ∀ k comp, KeyMap.Input.key k comp ∈ rest → k ≠ .ctrl 'x' ∧ k ≠ .alt 'r')
    (h : c.readLine r = .ok t (c1, o)) (h' : c'.readLine r' = .ok t' (c1', o')) :
    t = t' ∧ c1.history = c1'.history ∧ c1.fs = c1'.fs := by
  have := C86_draft he he' hh hf d d' rest hi hi' hd hd' hx hw (fun e => (narrow e).1 _ _ h) (fun e => (narrow e).1 _ _ h') hk
  rw [h, h'] at this
  simpa [Stopped, Seen] using this

/-! ### Concrete cases -/

/-- A wrong beginning, a wrong letter, and the rest from the entry `make`. -/
def scribble : List Key :=
  [.char 'x', .char 'y', .ctrl 'u', .char 'm', .char 'x', .ctrl 'h', .char 'a', .delete, .ctrl 'k', .right]

/-- With the completer of `strokes`. -/
def served (keys : List Key) : List (Key × (Text → List Text)) :=
  keys.map fun k => (k, fun _ => [['c', 'a', 'r'], ['c', 'a', 't']])

example : drafted (newestFrom (texts (under .emacs).history)) [] (served scribble) = ['m', 'a', 'k', 'e'] := by
  decide +kernel

-- drafted, or given
example : okAnd ((under .emacs).readLine (wide (scribble ++ further))) (fun t _ => t == ['x', 'l', 'm', 'a', 'k', 'e', 'k']) := by
  decide +kernel
example : okAnd ((under .emacs).readLine (supplied ['m', 'a', 'k', 'e'] (slim 30 further)))
    (fun t _ => t == ['x', 'l', 'm', 'a', 'k', 'e', 'k']) := by decide +kernel

example : Stopped ((under .emacs).readLine (wide (scribble ++ further))) ∨
    Stopped ((under .emacs).readLine (supplied ['m', 'a', 'k', 'e'] (slim 30 further))) ∨
    Seen ((under .emacs).readLine (wide (scribble ++ further))) =
      Seen ((under .emacs).readLine (supplied ['m', 'a', 'k', 'e'] (slim 30 further))) :=
  C86_draft rfl rfl rfl rfl (served scribble) [] (strokes further) rfl rfl (by decide) nofun (by decide +kernel)
    (sameWords_default rfl rfl) (by decide) (by simp [slim, supplied]) (by
      intro k comp h
      simp only [strokes, List.mem_map] at h
      obtain ⟨k', hk, e⟩ := h
      cases e
      have : ∀ k ∈ further, k ≠ .ctrl 'x' ∧ k ≠ .alt 'r' := by decide +kernel
      exact this k hk)

/-- C86: undo tells two drafts of the same line apart. -/
theorem C86_needed :
    drafted (newestFrom (texts (under .emacs).history)) [] (served [.char 'a', .char 'b', .backspace]) =
      drafted (newestFrom (texts (under .emacs).history)) [] (served [.char 'a']) ∧
    okAnd ((under .emacs).readLine (wide [.char 'a', .char 'b', .backspace, .ctrl 'x', .char '\n'])) (fun t _ => t == ['a', 'b']) = true ∧
    okAnd ((under .emacs).readLine (wide [.char 'a', .ctrl 'x', .char '\n'])) (fun t _ => t == []) = true := by
  decide +kernel

end Liner.Props
