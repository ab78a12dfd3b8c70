import Verif.Model.Context
/-
Two runs of the same program in different circumstances.
-/

namespace Liner
open Liner.Editor M KM

/-- The run was stopped by the terminal: an I/O error, or a panic while redrawing. -/
def Lost {σ α : Type} : Out σ α → Prop
  | .ok _ _ => False
  | .err e _ => e = .io
  | .panic w => w ≠ .op

/-- The two runs end in the same way. -/
def Twins {σ τ α : Type} (R : σ → τ → Prop) : Out σ α → Out τ α → Prop
  | .ok a s, .ok b t => a = b ∧ R s t
  | .err e s, .err f t => e = f ∧ R s t
  | .panic _, .panic _ => True
  | _, _ => False

/-- The two runs end in the same way, unless the terminal stops one of them. -/
def Pair {σ τ α : Type} (R : σ → τ → Prop) (x : Out σ α) (y : Out τ α) : Prop :=
  Lost x ∨ Lost y ∨ Twins R x y

/-- From related states the two programs end in the same way. -/
def Sim {σ τ α : Type} (R : σ → τ → Prop) (m : M σ α) (m' : M τ α) : Prop :=
  ∀ s t, R s t → Pair R (m s) (m' t)

/-- The same key map state, and related editors. -/
def OnK {κ : Type} (R : Ed → Ed → Prop) (t t' : κ × Ed) : Prop := t.1 = t'.1 ∧ R t.2 t'.2

section
variable {σ τ α β : Type} {R : σ → τ → Prop}

theorem twins_ok {a : α} {s : σ} {t : τ} (h : R s t) : Pair R (Out.ok a s) (Out.ok a t) :=
  .inr (.inr ⟨rfl, h⟩)

theorem sim_pure (a : α) : Sim R (pure a) (pure a) := fun _ _ h => twins_ok h

theorem sim_panic : Sim R (M.panic : M σ α) M.panic := fun _ _ _ => .inr (.inr trivial)

theorem sim_throw (e : IoErr) : Sim R (M.throw e : M σ α) (M.throw e) := fun _ _ h =>
  .inr (.inr ⟨rfl, h⟩)

theorem sim_ofOption (o : Option α) : Sim R (M.ofOption o) (M.ofOption o) := by
  cases o
  · exact sim_panic
  · exact sim_pure _

theorem sim_redraw (o o' : Option α) (f : α → M σ β) (f' : α → M τ β)
    (h : ∀ a a', Sim R (f a) (f' a')) : Sim R (M.ofOptionRedraw o >>= f) (M.ofOptionRedraw o' >>= f') := by
  intro s t hr
  cases o with
  | none => exact .inl (by simp [Lost, bind, M.bind, M.ofOptionRedraw, M.panicAt])
  | some a =>
    cases o' with
    | none => exact .inr (.inl (by simp [Lost, bind, M.bind, M.ofOptionRedraw, M.panicAt]))
    | some a' => exact h a a' s t hr

theorem sim_rows (o o' : Option α) (f : α → M σ β) (f' : α → M τ β)
    (h : ∀ a a', Sim R (f a) (f' a')) : Sim R (M.ofOptionRows o >>= f) (M.ofOptionRows o' >>= f') := by
  intro s t hr
  cases o with
  | none => exact .inl (by simp [Lost, bind, M.bind, M.ofOptionRows, M.panicAt])
  | some a =>
    cases o' with
    | none => exact .inr (.inl (by simp [Lost, bind, M.bind, M.ofOptionRows, M.panicAt]))
    | some a' => exact h a a' s t hr

/-- Two steps whose results need not agree. -/
theorem sim_apart {α' : Type} {m : M σ α} {m' : M τ α'} {f : α → M σ β} {f' : α' → M τ β}
    (h1 : ∀ s t, R s t → Lost (m s) ∨ Lost (m' t) ∨ (m s = .panic .op ∧ m' t = .panic .op) ∨
      ∃ a a' s1 t1, m s = .ok a s1 ∧ m' t = .ok a' t1 ∧ R s1 t1)
    (h2 : ∀ a a', Sim R (f a) (f' a')) : Sim R (m >>= f) (m' >>= f') := by
  intro s t hr
  show Pair R (M.bind m f s) (M.bind m' f' t)
  unfold M.bind
  rcases h1 s t hr with h | h | ⟨e1, e2⟩ | ⟨a, a', s1, t1, e1, e2, h⟩
  · left
    revert h
    cases m s <;> simp [Lost]
  · right; left
    revert h
    cases m' t <;> simp [Lost]
  · rw [e1, e2]
    exact .inr (.inr trivial)
  · rw [e1, e2]
    exact h2 a a' s1 t1 h

theorem sim_bind {m : M σ α} {m' : M τ α} {f : α → M σ β} {f' : α → M τ β} (h1 : Sim R m m')
    (h2 : ∀ a, Sim R (f a) (f' a)) : Sim R (m >>= f) (m' >>= f') := by
  intro s t hr
  have h := h1 s t hr
  show Pair R (M.bind m f s) (M.bind m' f' t)
  unfold M.bind
  rcases h with h | h | h
  · left
    revert h
    cases m s <;> simp [Lost]
  · right; left
    revert h
    cases m' t <;> simp [Lost]
  · revert h
    cases h3 : m s <;> cases h4 : m' t <;> intro h <;> try exact h.elim
    · obtain ⟨rfl, h⟩ := h
      exact h2 _ _ _ h
    · exact .inr (.inr h)
    · exact .inr (.inr trivial)

theorem sim_get {f : σ → M σ β} {f' : τ → M τ β} (h : ∀ s t, R s t → Sim R (f s) (f' t)) :
    Sim R (M.get >>= f) (M.get >>= f') := fun s t hr => h s t hr s t hr

theorem sim_modify {f : σ → σ} {f' : τ → τ} (h : ∀ s t, R s t → R (f s) (f' t)) :
    Sim R (M.modify f) (M.modify f') := fun s t hr => twins_ok (h s t hr)

theorem sim_ite {c : Prop} [Decidable c] {a b : M σ α} {a' b' : M τ α} (ha : Sim R a a')
    (hb : Sim R b b') : Sim R (if c then a else b) (if c then a' else b') := by split <;> assumption

theorem sim_repeatN {m : M σ Unit} {m' : M τ Unit} (h : Sim R m m') :
    ∀ n, Sim R (M.repeatN n m) (M.repeatN n m')
  | 0 => sim_pure ()
  | n + 1 => sim_bind h fun _ => sim_repeatN h n

theorem sim_forEach {f : β → M σ Unit} {f' : β → M τ Unit} (h : ∀ x, Sim R (f x) (f' x)) :
    ∀ xs, Sim R (M.forEach xs f) (M.forEach xs f')
  | [] => sim_pure ()
  | x :: xs => sim_bind (h x) fun _ => sim_forEach h xs

end

section
variable {κ α : Type} {R : Ed → Ed → Prop}

theorem sim_ed {m m' : EdM α} (h : Sim R m m') : Sim (OnK (κ := κ) R) (ed m) (ed m') := by
  intro s t hr
  have h1 := h s.2 t.2 hr.2
  unfold KM.ed M.zoom
  revert h1
  cases m s.2 <;> cases m' t.2 <;> intro h1 <;> rcases h1 with h1 | h1 | h1 <;>
    first
    | exact .inl h1
    | exact .inr (.inl h1)
    | exact h1.elim
    | exact .inr (.inr ⟨h1.1, hr.1, h1.2⟩)
    | exact .inr (.inr trivial)

theorem sim_getK {f : κ → KM κ α} {f' : κ → KM κ α} (h : ∀ k, Sim (OnK R) (f k) (f' k)) :
    Sim (OnK R) (KM.getK >>= f) (KM.getK >>= f') := by
  intro s t hr
  have : Sim (OnK R) (f s.1) (f' t.1) := hr.1 ▸ h s.1
  exact this s t hr

theorem sim_modK (f : κ → κ) : Sim (OnK R) (KM.modK f) (KM.modK f) := fun _ _ hr =>
  twins_ok ⟨congrArg f hr.1, hr.2⟩

theorem sim_edget {f f' : Ed → KM κ α} (h : ∀ s t, R s t → Sim (OnK R) (f s) (f' t)) :
    Sim (OnK R) (ed M.get >>= f) (ed M.get >>= f') := fun s t hr => h s.2 t.2 hr.2 s t hr

end

/-! ### What the two runs have to agree on for the key maps -/

/-- The operations the key maps use keep the relation. -/
structure Ops (E E' : Env) (R : Ed → Ed → Prop) : Prop where
  cc : E.cc = E'.cc
  words : E.words = E'.words
  cursor : ∀ {s t}, R s t → s.cursor = t.cursor
  newBuf : ∀ {s t}, R s t → s.newBuf = t.newBuf
  buf : Sim R curBuf curBuf
  mutate : ∀ {α : Type} (f : Buffer → Option (α × Buffer)), Sim R (curBufMut f) (curBufMut f)
  place : ∀ (f : Nat → Nat) {s t}, R s t → R { s with cursor := f s.cursor } { t with cursor := f t.cursor }
  noEol : ∀ (b : Bool) {s t}, R s t → R { s with noEol := b } { t with noEol := b }
  viMode : ∀ (m : ViPromptMode), Sim R (setViMode m) (setViMode m)
  display : Sim R (display E) (display E')
  clear : Sim R (clear E) (clear E')
  toEnd : Sim R (moveToEndOfHistory E) (moveToEndOfHistory E')

section
variable {E E' : Env} {R : Ed → Ed → Prop} (H : Ops E E' R)
include H

theorem sim_place (f : Nat → Nat) :
    Sim R (M.modify fun s : Ed => { s with cursor := f s.cursor })
      (M.modify fun s : Ed => { s with cursor := f s.cursor }) := sim_modify fun _ _ h => H.place f h

theorem sim_cursor {α : Type} {f f' : Nat → EdM α} (h : ∀ c, Sim R (f c) (f' c)) :
    Sim R (M.get >>= fun s : Ed => f s.cursor) (M.get >>= fun s : Ed => f' s.cursor) :=
  sim_get fun s t hr => by rw [H.cursor hr]; exact h _

theorem sim_eol : Sim R (moveCursorToEndOfLine E) (moveCursorToEndOfLine E') :=
  sim_bind H.buf fun b => sim_bind (sim_place H fun _ => b.numChars) fun _ => H.display

theorem sim_wordsAndPos : Sim R (wordsAndPos E) (wordsAndPos E') := by
  unfold wordsAndPos
  rw [H.words]
  exact sim_bind H.buf fun b => sim_cursor H (f := fun c => pure (_, CursorPosition.get c (E'.words b)))
    (f' := fun c => pure (_, CursorPosition.get c (E'.words b))) fun c => sim_pure _

theorem sim_cursorSub (n : Nat) : Sim R (cursorSub n) (cursorSub n) := by
  intro s t hr
  unfold cursorSub
  rw [H.cursor hr]
  split
  · exact twins_ok (by have := H.place (· - n) hr; rw [← H.cursor hr]; rw [← H.cursor hr] at this; exact this)
  · exact .inr (.inr trivial)

theorem sim_deleteWord (i : Bool) : Sim R (deleteWordBeforeCursor E i) (deleteWordBeforeCursor E' i) := by
  unfold deleteWordBeforeCursor getWordBeforeCursor
  refine sim_bind (sim_bind (sim_wordsAndPos H) fun _ => sim_pure _) fun w => ?_
  cases w with
  | none => exact H.display
  | some p =>
    dsimp only
    refine sim_cursor H (f := fun c => curBufMut (fun b => b.remove p.1 c) >>= fun n => cursorSub n >>= fun _ => Editor.display E)
      (f' := fun c => curBufMut (fun b => b.remove p.1 c) >>= fun n => cursorSub n >>= fun _ => Editor.display E') fun c => ?_
    exact sim_bind (H.mutate _) fun n => sim_bind (sim_cursorSub H n) fun _ => H.display

theorem sim_insert (cs : Text) : Sim R (insertCharsAfterCursor E cs) (insertCharsAfterCursor E' cs) := by
  unfold insertCharsAfterCursor
  refine sim_get fun s t hr => ?_
  rw [H.cursor hr]
  exact sim_bind (H.mutate _) fun _ =>
    sim_bind (sim_place H (· + cs.length)) fun _ => H.display

theorem sim_did {f : Buffer → Option (Bool × Buffer)} :
    Sim R (do
        let did ← curBufMut f
        if did then moveCursorToEndOfLine E else Editor.display E
        pure did)
      (do
        let did ← curBufMut f
        if did then moveCursorToEndOfLine E' else Editor.display E'
        pure did) := by
  refine sim_bind (H.mutate _) fun d => ?_
  dsimp only
  exact sim_ite (sim_bind (sim_eol H) fun _ => sim_pure _) (sim_bind H.display fun _ => sim_pure _)

theorem sim_undo : Sim R (undo E) (undo E') := sim_did H
theorem sim_redo : Sim R (redo E) (redo E') := sim_did H
theorem sim_revert : Sim R (revert E) (revert E') := sim_did H

theorem sim_deleteBefore : Sim R (deleteBeforeCursor E) (deleteBeforeCursor E') := by
  unfold deleteBeforeCursor
  refine sim_get fun s t hr => ?_
  dsimp only
  rw [H.cursor hr]
  exact sim_ite (sim_bind (H.mutate _) fun _ => sim_bind (sim_place H (· - 1)) fun _ => H.display) H.display

theorem sim_deleteAfter : Sim R (deleteAfterCursor E) (deleteAfterCursor E') := by
  unfold deleteAfterCursor
  refine sim_get fun s t hr => ?_
  rw [H.cursor hr]
  exact sim_bind (H.mutate _) fun _ => H.display

theorem sim_deleteAllBefore : Sim R (deleteAllBeforeCursor E) (deleteAllBeforeCursor E') := by
  unfold deleteAllBeforeCursor
  refine sim_get fun s t hr => ?_
  rw [H.cursor hr]
  exact sim_bind (H.mutate _) fun _ =>
    sim_bind (sim_place H fun _ => 0) fun _ => H.display

theorem sim_deleteAllAfter : Sim R (deleteAllAfterCursor E) (deleteAllAfterCursor E') := by
  unfold deleteAllAfterCursor
  refine sim_get fun s t hr => ?_
  rw [H.cursor hr]
  exact sim_bind (H.mutate _) fun _ => H.display

theorem sim_deleteUntil (p : Nat) : Sim R (deleteUntil E p) (deleteUntil E' p) := by
  unfold deleteUntil
  refine sim_get fun s t hr => ?_
  rw [H.cursor hr]
  exact sim_bind (H.mutate _) fun _ =>
    sim_bind (sim_place H (min · p)) fun _ => H.display

theorem sim_deleteUntilInclusive (p : Nat) : Sim R (deleteUntilInclusive E p) (deleteUntilInclusive E' p) := by
  unfold deleteUntilInclusive
  refine sim_get fun s t hr => ?_
  rw [H.cursor hr]
  exact sim_bind (H.mutate _) fun _ =>
    sim_bind (sim_place H (min · p)) fun _ => H.display

theorem sim_left (n : Nat) : Sim R (moveCursorLeft E n) (moveCursorLeft E' n) :=
  sim_bind (sim_place H fun c => c - (if n > c then c else n)) fun _ => H.display

theorem sim_right (n : Nat) : Sim R (moveCursorRight E n) (moveCursorRight E' n) := by
  unfold moveCursorRight
  refine sim_bind H.buf fun b => sim_get fun s t hr => ?_
  rw [H.cursor hr]
  exact sim_ite sim_panic (sim_bind
    (sim_place H fun c => c + (if n > b.numChars - c then b.numChars - c else n)) fun _ => H.display)

theorem sim_moveTo (n : Nat) : Sim R (moveCursorTo E n) (moveCursorTo E' n) :=
  sim_bind (sim_place H fun _ => n) fun _ => sim_bind H.buf fun b =>
    sim_bind (sim_place H fun c => if c > b.numChars then b.numChars else c) fun _ => H.display

theorem sim_home : Sim R (moveCursorToStartOfLine E) (moveCursorToStartOfLine E') :=
  sim_bind (sim_place H fun _ => 0) fun _ => H.display

theorem sim_onBuf (f : Buffer → Buffer) : Sim R (Vi.onBuf f) (Vi.onBuf f) := H.mutate _

theorem sim_displayUnwrap : Sim R (Vi.displayUnwrap E) (Vi.displayUnwrap E') := by
  intro s t hr
  have h := H.display s t hr
  unfold Vi.displayUnwrap
  revert h
  cases Editor.display E s <;> cases Editor.display E' t <;> intro h <;> rcases h with h | h | h <;>
    first
    | exact h.elim
    | exact .inl h
    | exact .inr (.inl h)
    | exact .inr (.inr h)
    | exact .inl (show Site.ioUnwrap ≠ Site.op from nofun)
    | exact .inr (.inl (show Site.ioUnwrap ≠ Site.op from nofun))
end

end Liner
