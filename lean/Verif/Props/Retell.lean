import Verif.Props.Stroll
import Verif.Props.ViDraft
import Verif.Props.Converse
/-
C90: conversations told in another way.
-/

namespace Liner.Props
open Liner Liner.Editor M KM Liner.Wit Liner.Spec

/-- With the history `h`, the second round is another way to do the first one: the same keys on another terminal, a draft
with other keys and perhaps the other key map (C87), other editing that leads to the same place (C88), or other ways through
editing and the history to the same place (C89). -/
inductive Retold (h : History) (r r' : Round) : Prop
  | elsewhere (keys : r.keys = r'.keys) (same : SameKeys r.call r'.call)
  | draft (d d' : List (Key × (Text → List Text))) (rest : List KeyMap.Input)
      (input : r.call.input = d.map (fun k => .key k.1 k.2) ++ rest)
      (input' : r'.call.input = d'.map (fun k => .key k.1 k.2) ++ rest)
      (keys : ∀ k ∈ d, sketching r.keys k.1 = true) (keys' : ∀ k ∈ d', sketching r'.keys k.1 = true)
      (same : drafted (newestFrom (texts h)) r.call.buffer d = drafted (newestFrom (texts h)) r'.call.buffer d')
      (words : SameWords r.call.env r'.call.env)
      (after : ∀ k comp, KeyMap.Input.key k comp ∈ rest → common k = true)
  | edited (d d' : List (Key × (Text → List Text))) (rest : List KeyMap.Input)
      (emacs : r.keys = .emacs) (emacs' : r'.keys = .emacs)
      (input : r.call.input = d.map (fun k => .key k.1 k.2) ++ rest)
      (input' : r'.call.input = d'.map (fun k => .key k.1 k.2) ++ rest)
      (keys : ∀ k ∈ d, editing k.1 = true) (keys' : ∀ k ∈ d', editing k.1 = true)
      (opened : NoEof (texts h) (d.map (·.1)) (r.call.buffer, []))
      (opened' : NoEof (texts h) (d'.map (·.1)) (r'.call.buffer, []))
      (same : edits (texts h) (d.map (·.1)) (r.call.buffer, []) = edits (texts h) (d'.map (·.1)) (r'.call.buffer, []))
      (words : SameWords r.call.env r'.call.env)
      (after : ∀ k comp, KeyMap.Input.key k comp ∈ rest → k ≠ .ctrl 'x' ∧ k ≠ .alt 'r')
  | walk (d d' : List (Key × (Text → List Text))) (rest : List KeyMap.Input) (u : Text × Text)
      (emacs : r.keys = .emacs) (emacs' : r'.keys = .emacs) (share : h.share = false)
      (input : r.call.input = d.map (fun k => .key k.1 k.2) ++ rest)
      (input' : r'.call.input = d'.map (fun k => .key k.1 k.2) ++ rest)
      (way : stroll (hint (texts h)) (met h) (d.map (·.1)) (r.call.buffer, []) 0 = some u)
      (way' : stroll (hint (texts h)) (met h) (d'.map (·.1)) (r'.call.buffer, []) 0 = some u)
      (words : SameWords r.call.env r'.call.env)
      (after : ∀ k comp, KeyMap.Input.key k comp ∈ rest → k ≠ .ctrl 'x' ∧ k ≠ .alt 'r')

/-- Each round of the second conversation is another way to do that of the first one, with the history that the first one has
then. -/
def Retells : List Round → List Round → Context → Prop
  | [], [], _ => True
  | r :: rs, r' :: rs', c => Retold c.history r r' ∧
    (∀ t c1 o, { c with keyBindings := r.keys }.readLine r.call = .ok t (c1, o) → Retells rs rs' (c1.push t)) ∧
    ∀ c1 o, { c with keyBindings := r.keys }.readLine r.call = .err .interrupted (c1, o) → Retells rs rs' c1
  | _, _, _ => False

/-- One round. -/
theorem retold_seen {c c' : Context} {r r' : Round} (hr : Retold c.history r r') (hh : c.history = c'.history)
    (hf : c.fs = c'.fs) (h : r.call.env.ttyWidth ≠ some 0) (h' : r'.call.env.ttyWidth ≠ some 0) :
    Stopped ({ c with keyBindings := r.keys }.readLine r.call) ∨
      Stopped ({ c' with keyBindings := r'.keys }.readLine r'.call) ∨
      Seen ({ c with keyBindings := r.keys }.readLine r.call) = Seen ({ c' with keyBindings := r'.keys }.readLine r'.call) := by
  cases hr with
  | elsewhere keys same => exact C82_outcome ⟨hh, hf, keys⟩ same h h'
  | draft d d' rest input input' keys keys' same words after =>
    exact C87_draft hh hf d d' rest input input' keys keys' same words h h' after
  | edited d d' rest emacs emacs' input input' keys keys' opened opened' same words after =>
    exact C88_resume emacs emacs' hh hf d d' rest input input' keys keys' opened opened' same words h h' after
  | walk d d' rest u emacs emacs' share input input' way way' words after =>
    exact C89_stroll emacs emacs' hh hf share d d' rest input input' way way' words h h' after

/-- C90: when both conversations come to their end, the lines are the same, and so are the history and the files. -/
theorem C90_retell (rs rs' : List Round) (c c' c1 c1' : Context) (ls ls' : List Text) (o o' : List Tok)
    (hr : Retells rs rs' c) (hh : c.history = c'.history) (hf : c.fs = c'.fs)
    (h : converse rs c = some (ls, c1, o)) (h' : converse rs' c' = some (ls', c1', o')) :
    ls = ls' ∧ c1.history = c1'.history ∧ c1.fs = c1'.fs := by
  induction rs generalizing rs' c c' ls ls' o o' with
  | nil =>
    cases rs' with
    | nil => cases h; cases h'; exact ⟨rfl, hh, hf⟩
    | cons => exact hr.elim
  | cons r rs ih =>
    cases rs' with
    | nil => exact hr.elim
    | cons r' rs' =>
      obtain ⟨hr, hok, herr⟩ := hr
      have hw : r.call.env.ttyWidth ≠ some 0 := fun e => by
        rcases converse_cons h with ⟨t, _, _, _, _, h1, -⟩ | ⟨_, _, _, h1, -⟩ | ⟨h1, -⟩
        · exact (narrow e).1 _ _ h1
        · exact absurd ((narrow e).2 _ _ h1) (by decide)
        · exact absurd ((narrow e).2 _ _ h1) (by decide)
      have hw' : r'.call.env.ttyWidth ≠ some 0 := fun e => by
        rcases converse_cons h' with ⟨t, _, _, _, _, h1, -⟩ | ⟨_, _, _, h1, -⟩ | ⟨h1, -⟩
        · exact (narrow e).1 _ _ h1
        · exact absurd ((narrow e).2 _ _ h1) (by decide)
        · exact absurd ((narrow e).2 _ _ h1) (by decide)
      have hs := retold_seen hr hh hf hw hw'
      rcases converse_cons h with ⟨t, c2, o1, ls1, o2, h1, h2, rfl, rfl⟩ | ⟨c2, o1, o2, h1, h2, rfl⟩ | ⟨h1, rfl⟩ <;>
      rcases converse_cons h' with ⟨t', c2', o1', ls1', o2', h1', h2', rfl, rfl⟩ | ⟨c2', o1', o2', h1', h2', rfl⟩ | ⟨h1', rfl⟩ <;>
      rw [h1, h1'] at hs <;>
      simp only [Stopped, Seen, reduceCtorEq, false_or, Option.some.injEq, Prod.mk.injEq, Except.ok.injEq, Except.error.injEq,
        false_and] at hs
      · obtain ⟨rfl, e1, e2⟩ := hs
        have e3 : (c2.push t).history = (c2'.push t).history ∧ (c2.push t).fs = (c2'.push t).fs := by
          unfold Context.push
          rw [e1, e2]
          exact ⟨rfl, rfl⟩
        obtain ⟨rfl, e4⟩ := ih rs' _ _ _ _ _ _ (hok _ _ _ h1) e3.1 e3.2 h2 h2'
        exact ⟨rfl, e4⟩
      · exact ih rs' _ _ _ _ _ _ (herr _ _ h1) hs.2.1 hs.2.2 h2 h2'
      · exact ⟨rfl, hs.2⟩

/-- The terminal put an end to a round of the conversation. -/
def Halted : List Round → Context → Prop
  | [], _ => False
  | r :: rs, c =>
    match { c with keyBindings := r.keys }.readLine r.call with
    | .ok t (c1, _) => Halted rs (c1.push t)
    | .err .interrupted (c1, _) => Halted rs c1
    | .err .unexpectedEof _ => False
    | .err .io _ => True
    | .panic w => w = .redraw ∨ w = .rows ∨ w = .ioUnwrap

/-- C90, when the first one comes to its end: the second one does so with the same lines, the same history and the same files,
or its terminal puts an end to it. -/
theorem C90_ends (rs rs' : List Round) (c c' c1 : Context) (ls : List Text) (o : List Tok)
    (hr : Retells rs rs' c) (hh : c.history = c'.history) (hf : c.fs = c'.fs)
    (hw' : ∀ r ∈ rs', r.call.env.ttyWidth ≠ some 0) (h : converse rs c = some (ls, c1, o)) :
    Halted rs' c' ∨ ∃ c1' o', converse rs' c' = some (ls, c1', o') ∧ c1'.history = c1.history ∧ c1'.fs = c1.fs := by
  induction rs generalizing rs' c c' ls o with
  | nil =>
    cases rs' with
    | nil => cases h; exact .inr ⟨_, _, rfl, hh.symm, hf.symm⟩
    | cons => exact hr.elim
  | cons r rs ih =>
    cases rs' with
    | nil => exact hr.elim
    | cons r' rs' =>
      obtain ⟨hr, hok, herr⟩ := hr
      have hw : r.call.env.ttyWidth ≠ some 0 := fun e => by
        rcases converse_cons h with ⟨t, _, _, _, _, h1, -⟩ | ⟨_, _, _, h1, -⟩ | ⟨h1, -⟩
        · exact (narrow e).1 _ _ h1
        · exact absurd ((narrow e).2 _ _ h1) (by decide)
        · exact absurd ((narrow e).2 _ _ h1) (by decide)
      have hs := retold_seen hr hh hf hw (hw' r' (by simp))
      have hw'' : ∀ r ∈ rs', r.call.env.ttyWidth ≠ some 0 := fun r h => hw' r (by simp [h])
      unfold Halted converse
      cases hx : { c' with keyBindings := r'.keys }.readLine r'.call with
      | panic w =>
        rw [hx] at hs
        rcases converse_cons h with ⟨t, c2, o1, ls1, o2, h1, h2, rfl, rfl⟩ | ⟨c2, o1, o2, h1, h2, rfl⟩ | ⟨h1, rfl⟩ <;>
          rw [h1] at hs <;> simp only [Stopped, Seen, reduceCtorEq, false_or, or_false] at hs <;> exact .inl hs
      | ok t' s =>
        obtain ⟨c2', o1'⟩ := s
        rw [hx] at hs
        rcases converse_cons h with ⟨t, c2, o1, ls1, o2, h1, h2, rfl, rfl⟩ | ⟨c2, o1, o2, h1, h2, rfl⟩ | ⟨h1, rfl⟩ <;>
          rw [h1] at hs <;>
          simp only [Stopped, Seen, reduceCtorEq, false_or, Option.some.injEq, Prod.mk.injEq, Except.ok.injEq, false_and] at hs
        obtain ⟨rfl, e1, e2⟩ := hs
        have e3 : (c2.push t).history = (c2'.push t).history ∧ (c2.push t).fs = (c2'.push t).fs := by
          unfold Context.push
          rw [e1, e2]
          exact ⟨rfl, rfl⟩
        rcases ih rs' _ _ _ _ (hok _ _ _ h1) e3.1 e3.2 hw'' h2 with h3 | ⟨c3, o3, h3, h4⟩
        · exact .inl h3
        · exact .inr ⟨c3, o1' ++ printed (r'.answer t) ++ o3, by dsimp only; rw [h3]; rfl, h4⟩
      | err e s =>
        obtain ⟨c2', o1'⟩ := s
        rw [hx] at hs
        rcases converse_cons h with ⟨t, c2, o1, ls1, o2, h1, h2, rfl, rfl⟩ | ⟨c2, o1, o2, h1, h2, rfl⟩ | ⟨h1, rfl⟩ <;>
          rw [h1] at hs <;>
          simp only [Stopped, Seen, reduceCtorEq, false_or, or_false, Option.some.injEq, Prod.mk.injEq, Except.error.injEq,
            false_and] at hs
        · subst hs
          exact .inl trivial
        · rcases hs with rfl | ⟨rfl, e1, e2⟩
          · exact .inl trivial
          · rcases ih rs' _ _ _ _ (herr _ _ h1) e1 e2 hw'' h2 with h3 | ⟨c3, o3, h3, h4⟩
            · exact .inl h3
            · exact .inr ⟨c3, o1' ++ o3, by dsimp only; rw [h3]; rfl, h4⟩
        · rcases hs with rfl | ⟨rfl, e1, e2⟩
          · exact .inl trivial
          · exact .inr ⟨_, _, rfl, e1.symm, e2.symm⟩

/-! ### Concrete cases -/

/-- A line found on ways through the history, one typed with the vi keys, one given up, one edited, and one with vi commands. -/
def told : List Round :=
  [{ keys := .emacs, call := wide (wandering ++ further) },
   { keys := .vi, call := wide ([.char 'm', .char 'x', .ctrl 'h', .char 'y'] ++ [.left, .char 'z', .char '\n']) },
   { keys := .emacs, call := wide [.char 'q', .up, .ctrl 'c'] },
   { keys := .emacs, call := wide ([.char 'o', .char 'k', .left] ++ [.char 'z', .alt 'b', .char '\n']) },
   { keys := .vi, call := wide [.char 'a', .esc, .char 'k', .char 'x', .char '\n'] }]

/-- The same in another way. -/
def toldAgain : List Round :=
  [{ keys := .emacs, call := supplied ['m', 'a', 'k', 'e'] (slim 30 (.left :: further)) },
   { keys := .emacs, call := supplied ['m'] (slim 30 ([.char 'y'] ++ [.left, .char 'z', .char '\n'])) },
   { keys := .emacs, call := slim 20 [.char 'q', .up, .ctrl 'c'] },
   { keys := .emacs, call := slim 30 ([.char 'k', .char 'j', .backspace, .home, .char 'o'] ++ [.char 'z', .alt 'b', .char '\n']) },
   { keys := .vi, call := slim 30 [.char 'a', .esc, .char 'k', .char 'x', .char '\n'] }]

theorem told_rest (c : Context) : Retells told.tail toldAgain.tail c := by
  have last : ∀ c : Context, Retells (told.drop 4) (toldAgain.drop 4) c := fun c =>
    ⟨.elsewhere rfl (sameKeys 30 _), fun _ _ _ _ => trivial, fun _ _ _ => trivial⟩
  have fourth : ∀ c : Context, Retells (told.drop 3) (toldAgain.drop 3) c := by
    refine fun c => ⟨?_, fun _ _ _ _ => last _, fun _ _ _ => last _⟩
    refine .edited (served [.char 'o', .char 'k', .left]) (served [.char 'k', .char 'j', .backspace, .home, .char 'o'])
      (strokes [.char 'z', .alt 'b', .char '\n']) rfl rfl rfl rfl ?_ ?_ (noEof_of (by decide)) (noEof_of (by decide)) rfl
      (sameWords_default rfl rfl) ?_
    · simp [served, editing]
    · simp [served, editing]
    · simp only [strokes, List.map_cons, List.map_nil, List.mem_cons, KeyMap.Input.key.injEq, List.not_mem_nil, or_false]
      rintro k comp (⟨rfl, -⟩ | ⟨rfl, -⟩ | ⟨rfl, -⟩) <;> decide
  have third : ∀ c : Context, Retells (told.drop 2) (toldAgain.drop 2) c := fun c =>
    ⟨.elsewhere rfl (sameKeys 20 _), fun _ _ _ _ => fourth _, fun _ _ _ => fourth _⟩
  refine ⟨?_, fun _ _ _ _ => third _, fun _ _ _ => third _⟩
  refine .draft (served [.char 'm', .char 'x', .ctrl 'h', .char 'y']) (served [.char 'y'])
    (strokes [.left, .char 'z', .char '\n']) rfl rfl ?_ ?_ rfl (sameWords_default rfl rfl) ?_
  · intro k h
    simp only [served, List.mem_map] at h
    obtain ⟨k', hk, rfl⟩ := h
    have : ∀ k ∈ [Key.char 'm', .char 'x', .ctrl 'h', .char 'y'], sketching .vi k = true := by decide +kernel
    exact this k' hk
  · intro k h
    simp only [served, List.mem_map] at h
    obtain ⟨k', hk, rfl⟩ := h
    have : ∀ k ∈ [Key.char 'y'], sketching .emacs k = true := by decide +kernel
    exact this k' hk
  · intro k comp h
    simp only [strokes, List.mem_map] at h
    obtain ⟨k', hk, e⟩ := h
    cases e
    have : ∀ k ∈ [Key.left, .char 'z', .char '\n'], common k = true := by decide +kernel
    exact this k hk

theorem told_retells : Retells told toldAgain (under .emacs) := by
  refine ⟨?_, fun _ _ _ _ => told_rest _, fun _ _ _ => told_rest _⟩
  refine .walk (served wandering) (served [.left]) (strokes further) _ rfl rfl (by decide +kernel) rfl rfl wandering_make.1
    wandering_make.2 (sameWords_default rfl rfl) ?_
  intro k comp h
  simp only [strokes, List.mem_map] at h
  obtain ⟨k', hk, e⟩ := h
  cases e
  have : ∀ k ∈ further, k ≠ .ctrl 'x' ∧ k ≠ .alt 'r' := by decide +kernel
  exact this k hk

/-- The lines of both. -/
def toldLines : List Text := [['x', 'l', 'm', 'a', 'k', 'k', 'e'], ['m', 'z', 'y'], ['o', 'z', 'k'],
  ['x', 'l', 'm', 'a', 'k', 'k']]

theorem told_lines : (converse told (under .emacs)).map (·.1) = some toldLines ∧
    (converse toldAgain (under .emacs)).map (·.1) = some toldLines := by
  decide +kernel

-- C90: both come to their end, with the same history, and the second one is not stopped
example : ∃ c1 o c1' o', converse told (under .emacs) = some (toldLines, c1, o) ∧
    converse toldAgain (under .emacs) = some (toldLines, c1', o') ∧ c1.history = c1'.history ∧ c1.fs = c1'.fs := by
  obtain ⟨⟨ls, c1, o⟩, h1, e1⟩ := Option.map_eq_some_iff.mp told_lines.1
  obtain ⟨⟨ls', c1', o'⟩, h2, e2⟩ := Option.map_eq_some_iff.mp told_lines.2
  dsimp only at e1 e2
  subst e1 e2
  exact ⟨c1, o, c1', o', h1, h2, (C90_retell told toldAgain _ _ _ _ _ _ _ _ told_retells rfl rfl h1 h2).2⟩

example : ∃ c1 o, converse told (under .emacs) = some (toldLines, c1, o) ∧ (Halted toldAgain (under .emacs) ∨
    ∃ c1' o', converse toldAgain (under .emacs) = some (toldLines, c1', o') ∧ c1'.history = c1.history ∧ c1'.fs = c1.fs) := by
  obtain ⟨⟨ls, c1, o⟩, h1, e1⟩ := Option.map_eq_some_iff.mp told_lines.1
  dsimp only at e1
  subst e1
  exact ⟨c1, o, h1, C90_ends told toldAgain _ _ _ _ _ told_retells rfl rfl (by simp [toldAgain, supplied, slim]) h1⟩

/-- C90: undo in the round of the draft does tell the two apart. -/
theorem C90_needed :
    (converse [{ keys := .emacs, call := wide [.char 'a', .ctrl 'x', .char '\n'] }] (under .emacs)).map (·.1) = some [[]] ∧
    (converse [{ keys := .emacs, call := supplied ['a'] (wide [.ctrl 'x', .char '\n']) }] (under .emacs)).map (·.1) =
      some [['a']] := by
  decide +kernel

end Liner.Props
