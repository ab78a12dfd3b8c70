import Verif.Proof.Elsewhere
import Verif.Proof.Buffer
/-
Two runs whose lines are the same text, with different records for undo.
-/

namespace Liner
open Liner.Editor M KM

/-- What a refresh of a search would give is what there is. -/
structure Settled (s : Ed) : Prop where
  dir : s.reverseSearch = !s.forwardSearch
  index : s.historySubsetIndex = s.history.searchIndex s.newBuf
  without : s.historySubsetLoc = none → s.historySubsetIndex = []
  within : ∀ i, s.historySubsetLoc = some i → i < s.historySubsetIndex.length

/-- On the new line, with nothing to refresh when the line was not changed. -/
structure OnNew (s : Ed) : Prop where
  loc : s.curHistoryLoc = none
  valid : s.histBufValid = false
  search : s.isSearch = true → s.bufferChanged = false → Settled s

/-- The editors have the same text and the same history.  They may differ in the prompt, in what concerns the terminal, in
the records for undo, in the copy of an entry when it is not in use and in the mark of a change, which counts during a
search only.  With `w`, the first is on the new
line and the second may have more changes marked. -/
def Akin (w : Prop) (s t : Ed) : Prop := ∃ p l c o n b hb ch,
  b.data = s.newBuf.data ∧ (s.histBufValid = true → hb.data = s.histBuf.data) ∧
  (s.isSearch = true → ch = s.bufferChanged ∨ w ∧ ch = true) ∧ (w → OnNew s) ∧
  t = { s with prompt := p, termCursorLine := l, ctxBuf := c, out := o, tick := n, newBuf := b, histBuf := hb,
               bufferChanged := ch }

/-- The fields the two predicates look at. -/
def Ed.quest (s : Ed) : Option Nat × Bool × Bool × Bool × Bool × History × Buffer × List Nat × Option Nat :=
  (s.curHistoryLoc, s.histBufValid, s.reverseSearch, s.forwardSearch, s.bufferChanged, s.history, s.newBuf,
    s.historySubsetIndex, s.historySubsetLoc)

theorem OnNew.to {s s1 : Ed} (h : OnNew s) (e : s1.quest = s.quest) : OnNew s1 := by
  simp only [Ed.quest, Prod.mk.injEq] at e
  obtain ⟨a1, a2, a3, a4, a5, a6, a7, a8, a9⟩ := e
  refine ⟨a1.trans h.loc, a2.trans h.valid, fun hs hc => ?_⟩
  have h1 := h.search (by rw [← hs]; unfold Ed.isSearch; rw [a3, a4]) (a5 ▸ hc)
  exact ⟨by rw [a3, a4]; exact h1.dir, by rw [a6, a7, a8]; exact h1.index, by rw [a8, a9]; exact h1.without, by rw [a8, a9]; exact h1.within⟩

macro "akin" : term =>
  `(fun _ _ _ _ _ _ _ _ _ e1 e2 e3 e4 => ⟨_, _, _, _, _, _, _, _, e1, e2, e3, fun h => OnNew.to (e4 h) rfl, rfl⟩)

/-- Two steps with related results. -/
theorem sim_rel {σ τ α α' β : Type} {R : σ → τ → Prop} {Q : α → α' → Prop} {m : M σ α} {m' : M τ α'} {f : α → M σ β}
    {f' : α' → M τ β}
    (h1 : ∀ s t, R s t → Lost (m s) ∨ Lost (m' t) ∨ (m s = .panic .op ∧ m' t = .panic .op) ∨
      ∃ a a' s1 t1, m s = .ok a s1 ∧ m' t = .ok a' t1 ∧ Q a a' ∧ R s1 t1)
    (h2 : ∀ a a', Q a a' → Sim R (f a) (f' a')) : Sim R (m >>= f) (m' >>= f') := by
  intro s t hr
  show Pair R (M.bind m f s) (M.bind m' f' t)
  unfold M.bind
  rcases h1 s t hr with h | h | ⟨e1, e2⟩ | ⟨a, a', s1, t1, e1, e2, q, h⟩
  · left
    revert h
    cases m s <;> simp [Lost]
  · right; left
    revert h
    cases m' t <;> simp [Lost]
  · rw [e1, e2]
    exact .inr (.inr trivial)
  · rw [e1, e2]
    exact h2 a a' q s1 t1 h

/-! ### Buffers with the same text -/

/-- The same result and the same text. -/
def SameRes {α : Type} : Option (α × Buffer) → Option (α × Buffer) → Prop
  | none, none => True
  | some x, some y => x.1 = y.1 ∧ x.2.data = y.2.data
  | _, _ => False

/-- What the operation gives does not depend on the records. -/
def Textual {α : Type} (f : Buffer → Option (α × Buffer)) : Prop :=
  ∀ b b', b'.data = b.data → SameRes (f b) (f b')

theorem textual_remove (a c : Nat) : Textual fun b => b.remove a c := by
  intro b b' h
  unfold Buffer.remove
  dsimp only
  rw [h]
  cases removeRaw b.data a c with
  | none => trivial
  | some x => exact ⟨rfl, rfl⟩

theorem insert_same {b b' : Buffer} (h : b'.data = b.data) (i : Nat) (t : Text) :
    SameRes (noRes (fun b => b.insert i t) b) (noRes (fun b => b.insert i t) b') := by
  unfold noRes Buffer.insert
  dsimp only
  rw [h]
  cases Action.doOn (.insert i t) b.data with
  | none => trivial
  | some x => exact ⟨rfl, rfl⟩

theorem textual_insert (i : Nat) (t : Text) : Textual (noRes fun b => b.insert i t) := fun _ _ h => insert_same h i t

theorem textual_truncate (i : Nat) : Textual (noRes fun b => b.truncate i) := by
  intro b b' h
  unfold noRes Buffer.truncate Buffer.remove
  dsimp only
  rw [h]
  cases removeRaw b.data i b.data.length with
  | none => trivial
  | some x => exact ⟨rfl, rfl⟩

theorem textual_insertFrom (x : Buffer) : Textual (noRes fun b => b.insertFromBuffer x) := by
  intro b b' h
  have := insert_same h b.data.length (x.data.drop b.data.length)
  unfold noRes Buffer.insertFromBuffer at *
  dsimp only at *
  rw [h]
  by_cases h1 : b.data.length ≤ x.data.length
  · simp only [if_pos h1]; exact this
  · simp only [if_neg h1]; trivial

theorem textual_copy (x : Buffer) : Textual (noRes fun b => b.copyBuffer x) := by
  intro b b' h
  unfold noRes Buffer.copyBuffer Buffer.remove
  dsimp only
  rw [h]
  cases removeRaw b.data 0 b.data.length with
  | none => trivial
  | some r =>
    obtain ⟨y, z⟩ := r
    exact insert_same (b := Buffer.pushAction { b with data := z } (.remove 0 y))
      (b' := Buffer.pushAction { b' with data := z } (.remove 0 y)) rfl 0 x.data

/-- The copy does not depend on what was there. -/
theorem copy_any (b x : Buffer) : ∃ w, b.copyBuffer x = some w ∧ w.data = x.data := by
  have h1 := Buffer.remove_eq b 0 b.data.length ⟨by omega, by omega⟩
  simp only [Buffer.copyBuffer, h1]
  simp only [List.take_zero, List.drop_length, List.append_nil]
  rw [Buffer.insert_eq _ 0 x.data (by simp)]
  exact ⟨_, rfl, by simp⟩

theorem textual_after (c : Nat) : Textual fun b =>
    if c < b.numChars then (b.remove c (c + 1)).map ((), ·.2) else some ((), b) := by
  intro b b' h
  have h1 := textual_remove c (c + 1) b b' h
  have e : b'.numChars = b.numChars := congrArg List.length h
  dsimp only
  rw [e]
  by_cases hc : c < b.numChars
  · simp only [if_pos hc]
    dsimp only at h1
    revert h1
    cases b.remove c (c + 1) <;> cases b'.remove c (c + 1) <;> intro h1 <;> try exact h1
    exact ⟨rfl, h1.2⟩
  · simp only [if_neg hc]
    exact ⟨rfl, h.symm⟩

theorem textual_read (r : Option (Nat × Nat)) : Textual (readWord r) := by
  intro b b' h
  unfold readWord
  cases r with
  | none => exact ⟨rfl, h.symm⟩
  | some p =>
    dsimp only
    unfold Buffer.range
    rw [h]
    by_cases h1 : p.1 ≤ p.2 ∧ p.2 ≤ b.data.length
    · simp only [if_pos h1]; exact ⟨rfl, h.symm⟩
    · simp only [if_neg h1]; trivial

theorem textual_keep : Textual (noRes fun b => some b) := fun _ _ h => ⟨rfl, h.symm⟩

theorem searchIndex_same (h : History) {b b' : Buffer} (e : b'.data = b.data) : h.searchIndex b' = h.searchIndex b := by
  unfold History.searchIndex Buffer.contains
  rw [e]

theorem newest_same (h : History) (i : Option Nat) {b b' : Buffer} (e : b'.data = b.data) :
    h.getNewestMatch i b' = h.getNewestMatch i b := by
  unfold History.getNewestMatch Buffer.startsWith
  rw [e]

theorem subset_same (h : History) {b b' : Buffer} (e : b'.data = b.data) :
    h.getHistorySubset b' = h.getHistorySubset b := by
  unfold History.getHistorySubset Buffer.startsWith Buffer.contains Buffer.eq
  rw [e]

/-! ### The operations -/

section
variable {w : Prop} {E E' : Env}

/-- A change that concerns none of the differences. -/
theorem sim_akin {f : Ed → Ed}
    (h : ∀ s p l c o n b hb ch, b.data = s.newBuf.data → (s.histBufValid = true → hb.data = s.histBuf.data) →
      (s.isSearch = true → ch = s.bufferChanged ∨ w ∧ ch = true) → (w → OnNew s) →
      Akin w (f s) (f { s with prompt := p, termCursorLine := l, ctxBuf := c, out := o, tick := n, newBuf := b,
                               histBuf := hb, bufferChanged := ch })) :
    Sim (Akin w) (M.modify f) (M.modify f) := by
  refine sim_modify fun s t hr => ?_
  obtain ⟨p, l, c, o, n, b, hb, ch, e1, e2, e3, e4, rfl⟩ := hr
  exact h s p l c o n b hb ch e1 e2 e3 e4

theorem Akin.outer {s t s1 t1 : Ed} (h : Akin w s t) (h1 : Alike s s1) (h2 : Alike t t1) : Akin w s1 t1 := by
  obtain ⟨p, l, c, o, n, b, hb, ch, e1, e2, e3, e4, rfl⟩ := h
  obtain ⟨_, _, _, _, _, rfl⟩ := h1
  obtain ⟨_, _, _, _, _, rfl⟩ := h2
  exact ⟨_, _, _, _, _, _, _, _, e1, e2, e3, fun h => (e4 h).to rfl, rfl⟩

theorem akin_outer {m m' : EdM Unit} (h : Outer m) (h' : Outer m') : Sim (Akin w) m m' := by
  intro s t hr
  rcases h s with h1 | ⟨s1, e1, a1⟩
  · exact .inl h1
  rcases h' t with h2 | ⟨t1, e2, a2⟩
  · exact .inr (.inl h2)
  rw [e1, e2]
  exact twins_ok (hr.outer a1 a2)

theorem outer_flush (E : Env) : Outer (flush E) := by
  intro s
  unfold flush
  split
  · exact .inr ⟨_, rfl, ⟨_, _, _, _, _, rfl⟩⟩
  · exact .inl rfl

/-- The current lines have the same text. -/
theorem Akin.buf {s t : Ed} (h : Akin w s t) :
    (s.curBuf? = none ∧ t.curBuf? = none) ∨
    ∃ b b', s.curBuf? = some b ∧ t.curBuf? = some b' ∧ b'.data = b.data := by
  obtain ⟨p, l, c, o, n, b, hb, ch, e1, e2, e3, e4, rfl⟩ := h
  unfold Ed.curBuf?
  dsimp only
  cases s.curHistoryLoc with
  | none => exact .inr ⟨_, _, rfl, rfl, e1⟩
  | some i =>
    dsimp only
    split
    · rename_i hv
      exact .inr ⟨_, _, rfl, rfl, e2 hv⟩
    · cases s.history.buffers[i]? with
      | none => exact .inl ⟨rfl, rfl⟩
      | some b => exact .inr ⟨_, _, rfl, rfl, rfl⟩

theorem akin_buf {β : Type} {f f' : Buffer → EdM β} (h : ∀ b b', b'.data = b.data → Sim (Akin w) (f b) (f' b')) :
    Sim (Akin w) (curBuf >>= f) (curBuf >>= f') := by
  refine sim_rel (Q := fun b b' => b'.data = b.data) (fun s t hr => ?_) h
  unfold curBuf
  rcases hr.buf with ⟨e1, e2⟩ | ⟨b, b', e1, e2, e⟩
  · rw [e1, e2]; exact .inr (.inr (.inl ⟨rfl, rfl⟩))
  · rw [e1, e2]; exact .inr (.inr (.inr ⟨_, _, _, _, rfl, rfl, e, hr⟩))

theorem akin_mut {α : Type} {f : Buffer → Option (α × Buffer)} (hf : Textual f) :
    Sim (Akin w) (curBufMut f) (curBufMut f) := by
  rintro s t ⟨p, l, c, o, n, b, hb, ch, e1, e2, e3, e4, rfl⟩
  unfold curBufMut workBuf setCur
  dsimp only
  cases hl : s.curHistoryLoc with
  | none =>
    dsimp only
    have := hf _ _ e1
    revert this
    cases f s.newBuf <;> cases f b <;> intro h <;> try exact h.elim
    · exact .inr (.inr trivial)
    · rename_i x y
      refine .inr (.inr ⟨h.1, _, _, _, _, _, _, _, _, h.2.symm, e2, fun _ => .inl rfl,
        fun hw => ⟨rfl, (e4 hw).valid, fun _ h => nomatch h⟩, rfl⟩)
  | some i =>
    have hw : ¬ w := fun h => by have := (e4 h).loc; rw [hl] at this; cases this
    have key : ∀ x x' : Option Buffer, (match x, x' with
          | none, none => True
          | some x, some x' => x'.data = x.data
          | _, _ => False) →
        Pair (Akin w)
          (match x with
          | none => (Out.panic .op : Out Ed α)
          | some b => match f b with
            | none => .panic .op
            | some (a, b') => .ok a { s with bufferChanged := true, histBuf := b', histBufValid := true, curHistoryLoc := some i })
          (match x' with
          | none => .panic .op
          | some b_1 => match f b_1 with
            | none => .panic .op
            | some (a, b') => .ok a
              { s with prompt := p, termCursorLine := l, ctxBuf := c, out := o, tick := n, newBuf := b,
                       bufferChanged := true, histBuf := b', histBufValid := true, curHistoryLoc := some i }) := by
      intro x x' hx
      cases x with
      | none =>
        cases x' with
        | none => exact .inr (.inr trivial)
        | some _ => exact hx.elim
      | some x =>
        cases x' with
        | none => exact hx.elim
        | some x' =>
          dsimp only
          have := hf _ _ hx
          revert this
          cases f x <;> cases f x' <;> intro h <;> try exact h.elim
          · exact .inr (.inr trivial)
          · exact .inr (.inr ⟨h.1, _, _, _, _, _, _, _, _, e1, fun _ => h.2.symm, fun _ => .inl rfl, fun h => (hw h).elim, rfl⟩)
    dsimp only
    by_cases hv : s.histBufValid = true
    · simp only [if_pos hv]
      exact key (some s.histBuf) (some hb) (e2 hv)
    · simp only [if_neg hv]
      cases s.history.buffers[i]? with
      | none => exact .inr (.inr trivial)
      | some y =>
        refine key (s.histBuf.copyBuffer y) (hb.copyBuffer y) ?_
        obtain ⟨z1, h1, d1⟩ := copy_any s.histBuf y
        obtain ⟨z2, h2, d2⟩ := copy_any hb y
        rw [h1, h2]
        exact d2.trans d1.symm

theorem akin_place (f : Nat → Nat) : Sim (Akin w) (M.modify fun s : Ed => { s with cursor := f s.cursor })
    (M.modify fun s : Ed => { s with cursor := f s.cursor }) := sim_akin akin

theorem akin_hint (x : Option (List Text × Option Nat)) :
    Sim (Akin w) (M.modify fun s : Ed => { s with showCompletionsHint := x })
      (M.modify fun s : Ed => { s with showCompletionsHint := x }) := sim_akin akin

theorem akin_write (x y : List Tok) : Sim (Akin w) (writeTerm E x) (writeTerm E' y) :=
  akin_outer (outer_write _ _) (outer_write _ _)

theorem akin_flush : Sim (Akin w) (flush E) (flush E') := akin_outer (outer_flush _) (outer_flush _)

theorem akin_width {β : Type} {f f' : Nat → EdM β} (h : ∀ a b, Sim (Akin w) (f a) (f' b)) :
    Sim (Akin w) (terminalWidth E >>= f) (terminalWidth E' >>= f') := by
  refine sim_apart (fun s t hr => ?_) h
  show Lost (M.bind (terminalSize E) _ s) ∨ Lost (M.bind (terminalSize E') _ t) ∨
      (M.bind (terminalSize E) _ s = _ ∧ M.bind (terminalSize E') _ t = _) ∨
      ∃ _ _ _ _, M.bind (terminalSize E) _ s = _ ∧ M.bind (terminalSize E') _ t = _ ∧ _
  unfold M.bind terminalSize
  cases E.termSize s.tick with
  | none => exact .inl rfl
  | some w =>
    cases E'.termSize t.tick with
    | none => exact .inr (.inl rfl)
    | some w' =>
      exact .inr (.inr (.inr ⟨_, _, _, _, rfl, rfl, hr.outer ⟨_, _, _, _, _, rfl⟩ ⟨_, _, _, _, _, rfl⟩⟩))

theorem akin_completions {β : Type} (hint : Option (List Text × Option Nat))
    {f f' : Nat × List Tok → EdM β} (h : ∀ a b, Sim (Akin w) (f a) (f' b)) :
    Sim (Akin w) (completionPart E hint >>= f) (completionPart E' hint >>= f') := by
  cases hint with
  | none => exact h _ _
  | some x =>
    refine sim_apart (fun s t hr => ?_) h
    show Lost (M.bind (M.bind (terminalSize E) _) _ s) ∨ Lost (M.bind (M.bind (terminalSize E') _) _ t) ∨
      (M.bind (M.bind (terminalSize E) _) _ s = _ ∧ M.bind (M.bind (terminalSize E') _) _ t = _) ∨
      ∃ _ _ _ _, M.bind (M.bind (terminalSize E) _) _ s = _ ∧ M.bind (M.bind (terminalSize E') _) _ t = _ ∧ _
    unfold M.bind terminalSize
    cases E.termSize s.tick with
    | none => exact .inl rfl
    | some w =>
      cases E'.termSize t.tick with
      | none => exact .inr (.inl rfl)
      | some w' =>
        exact .inr (.inr (.inr ⟨_, _, _, _, rfl, rfl, hr.outer ⟨_, _, _, _, _, rfl⟩ ⟨_, _, _, _, _, rfl⟩⟩))

theorem Akin.isSearch {s t : Ed} (h : Akin w s t) : t.isSearch = s.isSearch := by
  obtain ⟨p, l, c, o, n, b, hb, ch, e1, e2, e3, e4, rfl⟩ := h
  rfl

theorem akin_prompt {β : Type} {f f' : Text × Nat → EdM β}
    (h : ∀ a b, Sim (Akin w) (f a) (f' b)) : Sim (Akin w) (searchPrompt E >>= f) (searchPrompt E' >>= f') := by
  refine sim_apart (fun s t hr => ?_) h
  unfold searchPrompt
  rw [hr.isSearch]
  by_cases hs : s.isSearch = true
  · simp only [if_pos hs]
    rcases hr.buf with ⟨e1, e2⟩ | ⟨b, b', e1, e2, e⟩
    · rw [e1, e2]; exact .inr (.inr (.inl ⟨rfl, rfl⟩))
    · rw [e1, e2]; exact .inr (.inr (.inr ⟨_, _, _, _, rfl, rfl, hr⟩))
  · simp only [if_neg hs]
    exact .inr (.inr (.inr ⟨_, _, _, _, rfl, rfl, hr⟩))

theorem numChars_same {b b' : Buffer} (h : b'.data = b.data) : b'.numChars = b.numChars := congrArg List.length h

theorem akin_displayImpl (x : Bool) : Sim (Akin w) (displayImpl E x) (displayImpl E' x) := by
  unfold displayImpl
  refine akin_prompt fun pr pr' => akin_width fun tw tw' => akin_buf fun b b' hd => ?_
  rw [numChars_same hd]
  refine sim_bind (sim_akin akin) fun _ => sim_get fun s t hr =>
    sim_redraw _ _ _ _ fun w w' => sim_rows _ _ _ _ fun u u' => ?_
  have e : s.showCompletionsHint = t.showCompletionsHint := by
    obtain ⟨p, l, c, o, n, b, hb, ch, e1, e2, e3, e4, rfl⟩ := hr; rfl
  rw [e]
  refine akin_completions _ fun x x' => sim_redraw _ _ _ _ fun f f' => ?_
  refine sim_bind (sim_modify fun s t hr => ?_) fun _ => sim_bind (akin_write _ _) fun _ => akin_flush
  exact hr.outer ⟨_, _, _, _, _, rfl⟩ ⟨_, _, _, _, _, rfl⟩

/-- The entry a suggestion is taken from. -/
def suggestedIdx (s : Ed) : Option Nat :=
  if s.isSearch then s.searchHistoryLoc
  else if s.showAutosuggestions then
    match s.curHistoryLoc with
    | some i => some i
    | none => s.history.getNewestMatch (some s.history.buffers.length) s.newBuf
  else none

theorem suggestion_eq (s : Ed) : currentAutosuggestion s =
    if s.histBufValid then .ok none s
    else match suggestedIdx s with
      | none => .ok none s
      | some i =>
        match s.history.buffers[i]? with
        | some b => .ok (some b) s
        | none => .panic .op := rfl

theorem Akin.idx {s t : Ed} (h : Akin w s t) : suggestedIdx t = suggestedIdx s := by
  obtain ⟨p, l, c, o, n, b, hb, ch, e1, e2, e3, e4, rfl⟩ := h
  unfold suggestedIdx
  dsimp only
  rw [newest_same _ _ e1]
  rfl

theorem akin_suggestion : Sim (Akin w) currentAutosuggestion currentAutosuggestion := by
  intro s t hr
  rw [suggestion_eq, suggestion_eq, hr.idx]
  have e1 : t.histBufValid = s.histBufValid := by
    obtain ⟨p, l, c, o, n, b, hb, ch, e1, e2, e3, e4, rfl⟩ := hr; rfl
  have e2 : t.history = s.history := by
    obtain ⟨p, l, c, o, n, b, hb, ch, e1, e2, e3, e4, rfl⟩ := hr; rfl
  rw [e1, e2]
  split
  · exact twins_ok hr
  · cases suggestedIdx s with
    | none => exact twins_ok hr
    | some i =>
      dsimp only
      cases s.history.buffers[i]? with
      | none => exact .inr (.inr trivial)
      | some b => exact twins_ok hr

/-! ### Searches -/

theorem searchIndex_sorted (h : History) (b : Buffer) : (h.searchIndex b).Pairwise (· < ·) :=
  List.pairwise_lt_range.filter _

theorem refreshLoc_below (f : Bool) (t : Nat) : ∀ (xs : List Nat) (k j : Nat), refreshLoc f t xs k = some j → j < k + xs.length
  | [], _, _, h => by simp [refreshLoc] at h
  | x :: xs, k, j, h => by
    unfold refreshLoc at h
    rw [List.length_cons]
    split at h
    · split at h <;> (simp only [Option.some.injEq] at h; omega)
    · have := refreshLoc_below f t xs (k + 1) j h
      omega

theorem refreshLoc_self (f : Bool) : ∀ (xs : List Nat), xs.Pairwise (· < ·) → ∀ (i k : Nat) (h : i < xs.length),
    refreshLoc f xs[i] xs k = some (k + i)
  | [], _, _, _, h => by simp at h
  | x :: xs, hp, i, k, h => by
    unfold refreshLoc
    cases i with
    | zero => simp
    | succ i =>
      have h1 : x < xs[i]'(by simpa using h) := (List.pairwise_cons.mp hp).1 _ (List.getElem_mem _)
      rw [List.getElem_cons_succ, if_neg (by omega), refreshLoc_self f xs (List.pairwise_cons.mp hp).2 i (k + 1) (by simpa using h)]
      congr 1
      omega

theorem settled_refreshed (f : Bool) (s : Ed) : Settled (refreshed f s) := by
  refine ⟨by simp [refreshed], rfl, fun h => ?_, fun i h => ?_⟩
  · unfold refreshed at *
    dsimp only at *
    split at h
    · rename_i he
      exact List.isEmpty_iff.mp he
    · split at h <;> cases h
  · unfold refreshed at *
    dsimp only at *
    split at h
    · cases h
    · rename_i he
      have hl : 0 < (s.history.searchIndex s.newBuf).length :=
        List.length_pos_iff.mpr fun e => he (by rw [e]; rfl)
      have hst : (if f = true then 0 else (s.history.searchIndex s.newBuf).length - 1) <
          (s.history.searchIndex s.newBuf).length := by split <;> omega
      split at h
      · rename_i t _
        simp only [Option.some.injEq] at h
        subst h
        cases hr : refreshLoc f t (s.history.searchIndex s.newBuf) 0 with
        | none => exact hst
        | some j => have := refreshLoc_below _ _ _ _ _ hr; simpa using this
      · simp only [Option.some.injEq] at h
        omega

/-- Refreshing a settled search changes nothing. -/
theorem Settled.refreshed {s : Ed} (h : Settled s) : refreshed s.forwardSearch s =
    { s with curHistoryLoc := none, histBufValid := false, bufferChanged := false } := by
  have hloc : (if (s.history.searchIndex s.newBuf).isEmpty then none
      else match s.searchHistoryLoc with
        | some t => some ((refreshLoc s.forwardSearch t (s.history.searchIndex s.newBuf) 0).getD
            (if s.forwardSearch then 0 else (s.history.searchIndex s.newBuf).length - 1))
        | none => some (if s.forwardSearch then 0 else (s.history.searchIndex s.newBuf).length - 1) : Option Nat) =
      s.historySubsetLoc := by
    rw [← h.index]
    cases hl : s.historySubsetLoc with
    | none => rw [h.without hl]; rfl
    | some i =>
      have hi := h.within i hl
      rw [if_neg (by intro e; rw [List.isEmpty_iff.mp e] at hi; simp at hi)]
      unfold Ed.searchHistoryLoc
      rw [hl]
      dsimp only
      rw [List.getElem?_eq_getElem hi]
      dsimp only
      rw [refreshLoc_self _ _ (h.index ▸ searchIndex_sorted _ _)]
      simp
  unfold Editor.refreshed
  dsimp only
  congr 1
  · exact h.dir.symm
  · exact h.index.symm

theorem Akin.refreshed {s t : Ed} (h : Akin w s t) (f : Bool) : Akin w (refreshed f s) (refreshed f t) := by
  have hs := settled_refreshed f s
  obtain ⟨p, l, c, o, n, b, hb, ch, e1, e2, e3, e4, rfl⟩ := h
  refine ⟨p, l, c, o, n, b, hb, false, e1, fun h => ?_, fun _ => .inl rfl, fun _ => ⟨rfl, rfl, fun _ _ => hs⟩, ?_⟩
  · exact absurd h (by simp [Editor.refreshed])
  unfold Editor.refreshed
  dsimp only
  rw [searchIndex_same _ e1]
  rfl

theorem akin_refresh (f : Bool) : Sim (Akin w) (refreshSearch f) (refreshSearch f) :=
  sim_modify fun _ _ h => h.refreshed f

/-- The state a redraw starts with. -/
def polled (s : Ed) : Ed := if s.isSearch && s.bufferChanged then refreshed s.forwardSearch s else s

theorem Ed.rest_eq {s : Ed} (h1 : s.curHistoryLoc = none) (h2 : s.histBufValid = false) (h3 : s.bufferChanged = false) :
    ({ s with curHistoryLoc := none, histBufValid := false, bufferChanged := false } : Ed) = s := by
  cases s
  dsimp only at h1 h2 h3
  subst h1 h2 h3
  rfl

theorem Akin.polled {s t : Ed} (h : Akin w s t) : Akin w (polled s) (polled t) := by
  have h1 := h.refreshed s.forwardSearch
  have hi := h.isSearch
  have hf : t.forwardSearch = s.forwardSearch := by
    obtain ⟨p, l, c, o, n, b, hb, ch, e1, e2, e3, e4, rfl⟩ := h; rfl
  have hx : s.isSearch = true → t.bufferChanged = s.bufferChanged ∨ (w ∧ t.bufferChanged = true) := by
    obtain ⟨p, l, c, o, n, b, hb, ch, e1, e2, e3, e4, rfl⟩ := h; exact e3
  have hw : w → OnNew s := by
    obtain ⟨p, l, c, o, n, b, hb, ch, e1, e2, e3, e4, rfl⟩ := h; exact e4
  unfold Liner.polled
  rw [hi, hf]
  by_cases hs : s.isSearch = true
  · rw [hs]
    simp only [Bool.true_and]
    rcases hx hs with e | ⟨hww, e⟩
    · rw [e]
      split
      · exact h1
      · exact h
    · rw [e, if_pos rfl]
      split
      · exact h1
      · rename_i hc
        have hc : s.bufferChanged = false := by simpa using hc
        have h0 := hw hww
        have e2 := Ed.rest_eq h0.loc h0.valid hc
        rw [(h0.search hs hc).refreshed, e2] at h1
        exact h1
  · have hs : s.isSearch = false := by simpa using hs
    rw [hs]
    exact h

theorem display_polled (E : Env) (s : Ed) : display E s =
    (currentAutosuggestion >>= fun sug =>
      (M.modify fun s : Ed => { s with autosuggestion := sug }) >>= fun _ => displayImpl E true) (polled s) := by
  unfold display polled
  show M.bind M.get _ s = _
  unfold M.bind M.get
  dsimp only
  split <;> rfl

theorem akin_display : Sim (Akin w) (display E) (display E') := by
  intro s t h
  rw [display_polled, display_polled]
  have h1 : Sim (Akin w) (currentAutosuggestion >>= fun sug =>
        (M.modify fun s : Ed => { s with autosuggestion := sug }) >>= fun _ => displayImpl E true)
      (currentAutosuggestion >>= fun sug =>
        (M.modify fun s : Ed => { s with autosuggestion := sug }) >>= fun _ => displayImpl E' true) :=
    sim_bind akin_suggestion fun sug => sim_bind (sim_akin akin) fun _ => akin_displayImpl true
  exact h1 _ _ h.polled

theorem akin_clearSearch : Sim (Akin w) clearSearch clearSearch :=
  sim_akin fun _ _ _ _ _ _ _ _ _ e1 e2 _ e4 => ⟨_, _, _, _, _, _, _, _, e1, e2, nofun,
    fun h => ⟨(e4 h).loc, (e4 h).valid, nofun⟩, rfl⟩

theorem akin_clear : Sim (Akin w) (clear E) (clear E') :=
  sim_bind (sim_modify fun _ _ h => h.outer ⟨_, _, _, _, _, rfl⟩ ⟨_, _, _, _, _, rfl⟩) fun _ =>
    sim_bind akin_clearSearch fun _ => akin_display

theorem akin_eol : Sim (Akin w) (moveCursorToEndOfLine E) (moveCursorToEndOfLine E') := by
  unfold moveCursorToEndOfLine
  refine akin_buf fun b b' hd => ?_
  rw [numChars_same hd]
  exact sim_bind (sim_akin akin) fun _ => akin_display

theorem akin_begin (f : Bool) : Sim (Akin w) (freshenHistory >>= fun _ => refreshSearch f)
    (freshenHistory >>= fun _ => refreshSearch f) := by
  intro s t h
  show Pair _ (Out.ok () (refreshed f _)) (Out.ok () (refreshed f _))
  refine twins_ok ?_
  obtain ⟨p, l, c, o, n, b, hb, ch, e1, e2, e3, e4, rfl⟩ := h
  have key : ∀ s1 : Ed, s1.newBuf = s.newBuf → s1.histBuf = s.histBuf →
      Akin w (refreshed f s1) (refreshed f
        { s1 with prompt := p, termCursorLine := l, ctxBuf := c, out := o, tick := n,
                  newBuf := b, histBuf := hb, bufferChanged := ch }) := by
    intro s1 h1 h2
    refine ⟨p, l, c, o, n, b, hb, false, h1 ▸ e1, fun h => absurd h (by simp [Editor.refreshed]), fun _ => .inl rfl,
      fun _ => ⟨rfl, rfl, fun _ _ => settled_refreshed f s1⟩, ?_⟩
    unfold Editor.refreshed
    dsimp only
    rw [searchIndex_same _ (h1 ▸ e1)]
    rfl
  dsimp only
  by_cases hc : (s.history.share && !s.historyFresh) = true
  · simp only [if_pos hc]
    exact key { s with history := _, historyFresh := true } rfl rfl
  · simp only [if_neg hc]
    exact key s rfl rfl

theorem akin_step (f : Bool) : Sim (Akin w)
    (M.modify fun s : Ed => { s with historySubsetLoc :=
      match s.historySubsetLoc with
      | some p =>
        if f then
          (if p < s.historySubsetIndex.length - 1 then some (p + 1) else some 0)
        else if p > 0 then some (p - 1)
        else some (s.historySubsetIndex.length - 1)
      | none => none })
    (M.modify fun s : Ed => { s with historySubsetLoc :=
      match s.historySubsetLoc with
      | some p =>
        if f then
          (if p < s.historySubsetIndex.length - 1 then some (p + 1) else some 0)
        else if p > 0 then some (p - 1)
        else some (s.historySubsetIndex.length - 1)
      | none => none }) := by
  refine sim_akin fun s _ _ _ _ _ _ _ _ e1 e2 e3 e4 => ⟨_, _, _, _, _, _, _, _, e1, e2, e3, fun h =>
    ⟨(e4 h).loc, (e4 h).valid, fun a b => ?_⟩, rfl⟩
  have hs := (e4 h).search a b
  refine ⟨hs.dir, hs.index, ?_, ?_⟩
  · dsimp only
    cases hl : s.historySubsetLoc with
    | none => exact fun _ => hs.without hl
    | some p =>
      dsimp only
      intro h
      split at h <;> split at h <;> cases h
  · dsimp only
    cases hl : s.historySubsetLoc with
    | none => exact fun _ h => nomatch h
    | some p =>
      have := hs.within p hl
      dsimp only
      intro i h
      split at h <;> split at h <;> (simp only [Option.some.injEq] at h; omega)

theorem akin_search (f : Bool) : Sim (Akin w) (search E f) (search E' f) := by
  unfold search
  refine sim_get fun s t hr => ?_
  obtain ⟨p, l, c, o, n, b, hb, ch, e1, e2, e3, e4, rfl⟩ := hr
  dsimp only
  have h : Sim (Akin w) (display E) (display E') := akin_display
  refine sim_ite ?_ (sim_ite (sim_bind (akin_step f) fun _ => h) h)
  have h1 : Sim (Akin w) ((freshenHistory >>= fun _ => refreshSearch f) >>= fun _ => display E)
    ((freshenHistory >>= fun _ => refreshSearch f) >>= fun _ => display E') := sim_bind (akin_begin f) fun _ => h
  exact h1

/-! ### Editing -/

theorem akin_cursor {α : Type} {f f' : Nat → EdM α} (h : ∀ c, Sim (Akin w) (f c) (f' c)) :
    Sim (Akin w) (M.get >>= fun s : Ed => f s.cursor) (M.get >>= fun s : Ed => f' s.cursor) :=
  sim_get fun s t hr => by
    obtain ⟨p, l, c, o, n, b, hb, ch, e1, e2, e3, e4, rfl⟩ := hr
    exact h _

/-- The words depend on the text only. -/
def SameWords (E E' : Env) : Prop := ∀ b b' : Buffer, b'.data = b.data → E'.words b' = E.words b

theorem akin_words (hw : SameWords E E') : Sim (Akin w) (wordsAndPos E) (wordsAndPos E') := by
  unfold wordsAndPos
  refine akin_buf fun b b' hd => ?_
  rw [hw _ _ hd]
  exact akin_cursor (f := fun c => pure (_, CursorPosition.get c (E.words b)))
    (f' := fun c => pure (_, CursorPosition.get c (E.words b))) fun c => sim_pure _

theorem akin_cursorSub (n : Nat) : Sim (Akin w) (cursorSub n) (cursorSub n) := by
  intro s t hr
  obtain ⟨p, l, c, o, m, b, hb, ch, e1, e2, e3, e4, rfl⟩ := hr
  unfold cursorSub
  dsimp only
  split
  · exact twins_ok ⟨_, _, _, _, _, _, _, _, e1, e2, e3, fun h => (e4 h).to rfl, rfl⟩
  · exact .inr (.inr trivial)

theorem akin_deleteWord (hw : SameWords E E') (i : Bool) :
    Sim (Akin w) (deleteWordBeforeCursor E i) (deleteWordBeforeCursor E' i) := by
  unfold deleteWordBeforeCursor getWordBeforeCursor
  refine sim_bind (sim_bind (akin_words hw) fun _ => sim_pure _) fun x => ?_
  cases x with
  | none => exact akin_display
  | some p =>
    dsimp only
    refine akin_cursor (f := fun c => curBufMut (fun b => b.remove p.1 c) >>= fun n => cursorSub n >>= fun _ => Editor.display E)
      (f' := fun c => curBufMut (fun b => b.remove p.1 c) >>= fun n => cursorSub n >>= fun _ => Editor.display E') fun c => ?_
    exact sim_bind (akin_mut (textual_remove _ _)) fun n => sim_bind (akin_cursorSub n) fun _ => akin_display

theorem akin_insert (cs : Text) : Sim (Akin w) (insertCharsAfterCursor E cs) (insertCharsAfterCursor E' cs) := by
  unfold insertCharsAfterCursor
  refine sim_get fun s t hr => ?_
  obtain ⟨p, l, c, o, n, b, hb, ch, e1, e2, e3, e4, rfl⟩ := hr
  exact sim_bind (akin_mut (textual_insert _ _)) fun _ => sim_bind (akin_place (· + cs.length)) fun _ => akin_display

theorem akin_deleteBefore : Sim (Akin w) (deleteBeforeCursor E) (deleteBeforeCursor E') := by
  unfold deleteBeforeCursor
  refine sim_get fun s t hr => ?_
  obtain ⟨p, l, c, o, n, b, hb, ch, e1, e2, e3, e4, rfl⟩ := hr
  dsimp only
  exact sim_ite (sim_bind (akin_mut (textual_remove _ _)) fun _ => sim_bind (akin_place (· - 1)) fun _ => akin_display)
    akin_display

theorem akin_deleteAfter : Sim (Akin w) (deleteAfterCursor E) (deleteAfterCursor E') := by
  unfold deleteAfterCursor
  refine sim_get fun s t hr => ?_
  obtain ⟨p, l, c, o, n, b, hb, ch, e1, e2, e3, e4, rfl⟩ := hr
  exact sim_bind (akin_mut (textual_after _)) fun _ => akin_display

theorem akin_deleteAllBefore : Sim (Akin w) (deleteAllBeforeCursor E) (deleteAllBeforeCursor E') := by
  unfold deleteAllBeforeCursor
  refine sim_get fun s t hr => ?_
  obtain ⟨p, l, c, o, n, b, hb, ch, e1, e2, e3, e4, rfl⟩ := hr
  exact sim_bind (akin_mut (textual_remove _ _)) fun _ => sim_bind (akin_place fun _ => 0) fun _ => akin_display

theorem akin_deleteAllAfter : Sim (Akin w) (deleteAllAfterCursor E) (deleteAllAfterCursor E') := by
  unfold deleteAllAfterCursor
  refine sim_get fun s t hr => ?_
  obtain ⟨p, l, c, o, n, b, hb, ch, e1, e2, e3, e4, rfl⟩ := hr
  exact sim_bind (akin_mut (textual_truncate _)) fun _ => akin_display

theorem akin_deleteUntil (x : Nat) : Sim (Akin w) (deleteUntil E x) (deleteUntil E' x) := by
  unfold deleteUntil
  refine sim_get fun s t hr => ?_
  obtain ⟨p, l, c, o, n, b, hb, ch, e1, e2, e3, e4, rfl⟩ := hr
  exact sim_bind (akin_mut (textual_remove _ _)) fun _ => sim_bind (akin_place (min · x)) fun _ => akin_display

theorem akin_left (n : Nat) : Sim (Akin w) (moveCursorLeft E n) (moveCursorLeft E' n) :=
  sim_bind (akin_place fun c => c - (if n > c then c else n)) fun _ => akin_display

theorem akin_right (m : Nat) : Sim (Akin w) (moveCursorRight E m) (moveCursorRight E' m) := by
  unfold moveCursorRight
  refine akin_buf fun b b' hd => sim_get fun s t hr => ?_
  rw [numChars_same hd]
  obtain ⟨p, l, c, o, n, _, hb, ch, e1, e2, e3, e4, rfl⟩ := hr
  exact sim_ite sim_panic (sim_bind
    (akin_place fun c => c + (if m > b.numChars - c then b.numChars - c else m)) fun _ => akin_display)

theorem akin_moveTo (n : Nat) : Sim (Akin w) (moveCursorTo E n) (moveCursorTo E' n) := by
  unfold moveCursorTo
  refine sim_bind (akin_place fun _ => n) fun _ => akin_buf fun b b' hd => ?_
  rw [numChars_same hd]
  exact sim_bind (akin_place fun c => if c > b.numChars then b.numChars else c) fun _ => akin_display

theorem akin_home : Sim (Akin w) (moveCursorToStartOfLine E) (moveCursorToStartOfLine E') :=
  sim_bind (akin_place fun _ => 0) fun _ => akin_display

/-! ### Completion, suggestions, the end of the line -/

theorem akin_isWhole (cs : List Text) (i : Option Nat) : Sim (Akin w) (isWhole cs i) (isWhole cs i) := by
  cases i with
  | none => exact sim_pure _
  | some x =>
    refine akin_buf fun b b' hd => sim_bind (sim_ofOption _) fun c => ?_
    unfold Buffer.eq
    rw [hd]
    exact sim_pure _

theorem akin_complete (hw : SameWords E E') (comp : Text → List Text) :
    Sim (Akin w) (complete E comp) (complete E' comp) := by
  have hd : Sim (Akin w) (display E) (display E') := akin_display
  unfold complete
  refine sim_get fun s t hr => ?_
  obtain ⟨p, l, c, o, n, b, hb, ch, e1, e2, e3, e4, rfl⟩ := hr
  dsimp only
  cases s.showCompletionsHint with
  | some x =>
    refine sim_bind ?_ fun _ => hd
    unfold completeNext
    refine sim_bind (akin_hint _) fun _ =>
      sim_bind (sim_ofOption _) fun i => sim_bind (akin_isWhole _ _) fun w => ?_
    refine sim_bind ?_ fun _ => sim_bind (sim_ofOption _) fun c => sim_bind (akin_insert c) fun _ => akin_hint _
    unfold dropCandidate
    exact sim_ite (sim_bind (akin_mut (textual_truncate _)) fun _ => akin_place fun _ => 0) (akin_deleteWord hw _)
  | none =>
    dsimp only
    unfold completeFirst getWordBeforeCursor
    refine sim_bind (sim_bind (akin_words hw) fun _ => sim_pure _) fun r =>
      sim_bind (akin_mut (textual_read _)) fun x => ?_
    dsimp only
    have h1 : ∀ cs : List Text, Sim (Akin w)
        ((M.modify fun s : Ed => { s with showCompletionsHint := some (cs, none) }) >>= fun _ => display E)
        ((M.modify fun s : Ed => { s with showCompletionsHint := some (cs, none) }) >>= fun _ => display E') :=
      fun cs => sim_bind (akin_hint _) fun _ => hd
    split
    · exact akin_hint _
    · exact sim_bind (akin_hint _) fun _ => sim_bind (akin_deleteWord hw _) fun _ => akin_insert _
    · split
      · exact sim_ite (sim_bind (akin_deleteWord hw _) fun _ => akin_insert _) (h1 _)
      · exact h1 _

theorem akin_accept : Sim (Akin w) (acceptAutosuggestion E) (acceptAutosuggestion E') := by
  have h : Sim (Akin w) (clearSearch >>= fun _ => moveCursorToEndOfLine E)
      (clearSearch >>= fun _ => moveCursorToEndOfLine E') := sim_bind akin_clearSearch fun _ => akin_eol
  unfold acceptAutosuggestion
  refine sim_get fun s t hr => ?_
  obtain ⟨p, l, c, o, n, b, hb, ch, e1, e2, e3, e4, rfl⟩ := hr
  refine sim_ite (sim_bind (akin_mut ?_) fun _ => h) h
  cases s.autosuggestion with
  | none => exact textual_keep
  | some x =>
    show Textual (noRes fun b => if s.isSearch = true then b.copyBuffer x else b.insertFromBuffer x)
    split
    · exact textual_copy x
    · exact textual_insertFrom x

theorem akin_newline : Sim (Akin w) (handleNewline E) (handleNewline E') := by
  unfold handleNewline
  refine sim_bind (sim_akin akin) fun _ => sim_bind ?_ fun _ => sim_bind akin_clearSearch fun _ => ?_
  · unfold acceptIfSearch
    refine sim_get fun s t hr => ?_
    rw [hr.isSearch]
    exact sim_ite akin_accept (sim_pure _)
  · unfold finishLine
    refine sim_get fun s t hr => ?_
    obtain ⟨p, l, c, o, n, b, hb, ch, e1, e2, e3, e4, rfl⟩ := hr
    refine sim_ite (sim_bind (akin_hint _) fun _ => sim_pure _) ?_
    refine akin_buf fun b b' hd => ?_
    rw [numChars_same hd]
    unfold Buffer.charBefore
    rw [hd]
    refine sim_ite (sim_bind (akin_insert _) fun _ => sim_pure _) ?_
    exact sim_bind (akin_place fun _ => b.numChars) fun _ =>
      sim_bind (akin_displayImpl false) fun _ => sim_bind (akin_write _ _) fun _ =>
      sim_bind (akin_hint _) fun _ => sim_pure _

theorem akin_atEnd : Sim (Akin w) cursorIsAtEndOfLine cursorIsAtEndOfLine := by
  unfold cursorIsAtEndOfLine
  refine akin_buf fun b b' hd => sim_get fun s t hr => ?_
  rw [numChars_same hd]
  obtain ⟨p, l, c, o, n, _, hb, ch, e1, e2, e3, e4, rfl⟩ := hr
  exact sim_ite (sim_ite sim_panic (sim_pure _)) (sim_pure _)

end
end Liner
