import Verif.Model.Buffer
/-
Lemmas about raw edits, logs and the undo/redo loops.
-/

namespace Liner

theorem insertRaw_append (pre text post : Text) :
    insertRaw (pre ++ post) pre.length text = some (pre ++ text ++ post) := by
  induction text generalizing pre with
  | nil => simp [insertRaw]
  | cons c cs ih =>
    have h := ih (pre ++ [c])
    simp only [List.length_append, List.length_cons, List.length_nil, List.append_assoc,
      List.cons_append, List.nil_append] at h
    simp [insertRaw, h]

theorem insertRaw_eq (data : Text) (start : Nat) (text : Text) (h : start ≤ data.length) :
    insertRaw data start text = some (data.take start ++ text ++ data.drop start) := by
  have := insertRaw_append (data.take start) text (data.drop start)
  simpa [List.length_take, Nat.min_eq_left h] using this

theorem insertRaw_none (data : Text) (start : Nat) (text : Text) :
    insertRaw data start text = none ↔ data.length < start ∧ text ≠ [] := by
  constructor
  · intro h
    by_cases hs : start ≤ data.length
    · rw [insertRaw_eq data start text hs] at h; cases h
    · refine ⟨by omega, ?_⟩
      rintro rfl; simp [insertRaw] at h
  · rintro ⟨hs, ht⟩
    cases text with
    | nil => exact absurd rfl ht
    | cons c cs => simp [insertRaw]; omega

theorem removeRaw_append (pre mid post : Text) :
    removeRaw (pre ++ mid ++ post) pre.length (pre.length + mid.length) = some (mid, pre ++ post) := by
  unfold removeRaw
  rw [if_pos (by simp)]
  simp [List.take_append, List.drop_append]

theorem removeRaw_none (data : Text) (start stop : Nat) :
    removeRaw data start stop = none ↔ ¬ (start ≤ stop ∧ stop ≤ data.length) := by
  unfold removeRaw; split <;> simp_all

/-- The text change described by an action. -/
inductive Effect : Action → Text → Text → Prop where
  | insert (pre text post : Text) : Effect (.insert pre.length text) (pre ++ post) (pre ++ text ++ post)
  | remove (pre text post : Text) : Effect (.remove pre.length text) (pre ++ text ++ post) (pre ++ post)
  | startGroup (d : Text) : Effect .startGroup d d
  | endGroup (d : Text) : Effect .endGroup d d

theorem Effect.doOn {a : Action} {d d' : Text} (h : Effect a d d') : a.doOn d = some d' := by
  cases h with
  | insert pre text post => exact insertRaw_append pre text post
  | remove pre text post => rw [Action.doOn, removeRaw_append]; rfl
  | startGroup => rfl
  | endGroup => rfl

theorem Effect.undo {a : Action} {d d' : Text} (h : Effect a d d') : a.undo d' = some d := by
  cases h with
  | insert pre text post => rw [Action.undo, removeRaw_append]; rfl
  | remove pre text post => exact insertRaw_append pre text post
  | startGroup => rfl
  | endGroup => rfl

/-- `Path as d0 d1`: performing the actions `as` (most recent first) turns `d0` into `d1`. -/
inductive Path : List Action → Text → Text → Prop where
  | nil (d : Text) : Path [] d d
  | cons {a : Action} {as : List Action} {d0 d1 d2 : Text} :
      Path as d0 d1 → Effect a d1 d2 → Path (a :: as) d0 d2

/-- `FPath u d`: the actions `u` can be performed one after the other starting with the first,
from `d`, ending in `e`. -/
inductive FPath : List Action → Text → Text → Prop where
  | nil (d : Text) : FPath [] d d
  | cons {a : Action} {as : List Action} {d0 d1 d2 : Text} :
      Effect a d0 d1 → FPath as d1 d2 → FPath (a :: as) d0 d2

theorem Path.split {xs ys : List Action} {d0 d : Text} (h : Path (xs ++ ys) d0 d) :
    ∃ m, Path ys d0 m ∧ Path xs m d := by
  induction xs generalizing d with
  | nil => exact ⟨d, h, .nil d⟩
  | cons a xs ih =>
    cases h with
    | cons hp he =>
      obtain ⟨m, h1, h2⟩ := ih hp
      exact ⟨m, h1, .cons h2 he⟩

theorem Path.append {xs ys : List Action} {d0 m d : Text} (h1 : Path ys d0 m) (h2 : Path xs m d) :
    Path (xs ++ ys) d0 d := by
  induction xs generalizing d with
  | nil => cases h2; exact h1
  | cons a xs ih =>
    cases h2 with
    | cons hp he => exact .cons (ih hp) he

theorem FPath.append {xs ys : List Action} {d0 m d : Text} (h1 : FPath xs d0 m) (h2 : FPath ys m d) :
    FPath (xs ++ ys) d0 d := by
  induction h1 with
  | nil => exact h2
  | cons he _ ih => exact .cons he (ih h2)

theorem FPath.split {xs ys : List Action} {d0 d : Text} (h : FPath (xs ++ ys) d0 d) :
    ∃ m, FPath xs d0 m ∧ FPath ys m d := by
  induction xs generalizing d0 with
  | nil => exact ⟨d0, .nil d0, h⟩
  | cons a xs ih =>
    cases h with
    | cons he hp =>
      obtain ⟨m, h1, h2⟩ := ih hp
      exact ⟨m, .cons he h1, h2⟩

theorem Path.toF {xs : List Action} {d0 d : Text} (h : Path xs d0 d) : FPath xs.reverse d0 d := by
  induction h with
  | nil d => exact .nil d
  | cons _ he ih =>
    rw [List.reverse_cons]
    exact ih.append (.cons he (.nil _))

theorem FPath.toP {xs : List Action} {d0 d : Text} (h : FPath xs d0 d) : Path xs.reverse d0 d := by
  induction h with
  | nil d => exact .nil d
  | cons he _ ih =>
    rw [List.reverse_cons]
    exact Path.append (.cons (.nil _) he) ih

/-- Undoing a list of actions (most recent first). -/
def undoAll : List Action → Text → Option Text
  | [], d => some d
  | a :: as, d => match a.undo d with
    | none => none
    | some d' => undoAll as d'

/-- Performing a list of actions, first one first. -/
def doAll : List Action → Text → Option Text
  | [], d => some d
  | a :: as, d => match a.doOn d with
    | none => none
    | some d' => doAll as d'

theorem Path.undoAll {xs : List Action} {d0 d : Text} (h : Path xs d0 d) :
    Liner.undoAll xs d = some d0 := by
  induction h with
  | nil => rfl
  | cons _ he ih => simp [Liner.undoAll, he.undo, ih]

theorem FPath.doAll {xs : List Action} {d0 d : Text} (h : FPath xs d0 d) :
    Liner.doAll xs d0 = some d := by
  induction h with
  | nil => rfl
  | cons he _ ih => simp [Liner.doAll, he.doOn, ih]

namespace Buffer

/-- The control part of the undo loop: the actions popped (in that order) and the rest. -/
def undoCut : List Action → Int → Nat → List Action × List Action
  | [], _, _ => ([], [])
  | a :: rest, nest, count =>
    if undoNest a nest = 0 ∧ undoCount a count > 0 then ([a], rest)
    else
      let r := undoCut rest (undoNest a nest) (undoCount a count)
      (a :: r.1, r.2)

def redoCut : List Action → Int → Nat → List Action × List Action
  | [], _, _ => ([], [])
  | a :: rest, nest, count =>
    if redoNest a nest = 0 ∧ redoCount a count > 0 then ([a], rest)
    else
      let r := redoCut rest (redoNest a nest) (redoCount a count)
      (a :: r.1, r.2)

theorem undoCut_append (as : List Action) (n : Int) (c : Nat) :
    (undoCut as n c).1 ++ (undoCut as n c).2 = as := by
  induction as generalizing n c with
  | nil => rfl
  | cons a as ih =>
    unfold undoCut
    split
    · rfl
    · simp [ih]

theorem redoCut_append (as : List Action) (n : Int) (c : Nat) :
    (redoCut as n c).1 ++ (redoCut as n c).2 = as := by
  induction as generalizing n c with
  | nil => rfl
  | cons a as ih =>
    unfold redoCut
    split
    · rfl
    · simp [ih]

theorem undoCut_ne_nil (as : List Action) (n : Int) (c : Nat) (h : as ≠ []) :
    (undoCut as n c).1 ≠ [] := by
  cases as with
  | nil => exact absurd rfl h
  | cons a as => unfold undoCut; split <;> simp

theorem undoLoop_eq (as : List Action) (d : Text) (u : List Action) (n : Int) (c : Nat) :
    undoLoop as d u n c =
      (undoAll (undoCut as n c).1 d).map fun d' =>
        { data := d', actions := (undoCut as n c).2, undone := (undoCut as n c).1.reverse ++ u } := by
  induction as generalizing d u n c with
  | nil => simp [undoLoop, undoCut, undoAll]
  | cons a as ih =>
    by_cases hc : undoNest a n = 0 ∧ undoCount a c > 0
    · cases hu : a.undo d with
      | none => simp [undoLoop, undoCut, hc, undoAll, hu]
      | some d' => simp [undoLoop, undoCut, hc, undoAll, hu]
    · cases hu : a.undo d with
      | none => simp [undoLoop, undoCut, hc, undoAll, hu]
      | some d' => simp only [undoLoop, hu, undoCut, if_neg hc, undoAll, ih]; simp

theorem redoLoop_eq (as : List Action) (d : Text) (u : List Action) (n : Int) (c : Nat) :
    redoLoop as d u n c =
      (doAll (redoCut as n c).1 d).map fun d' =>
        { data := d', actions := (redoCut as n c).1.reverse ++ u, undone := (redoCut as n c).2 } := by
  induction as generalizing d u n c with
  | nil => simp [redoLoop, redoCut, doAll]
  | cons a as ih =>
    by_cases hc : redoNest a n = 0 ∧ redoCount a c > 0
    · cases hu : a.doOn d with
      | none => simp [redoLoop, redoCut, hc, doAll, hu]
      | some d' => simp [redoLoop, redoCut, hc, doAll, hu]
    · cases hu : a.doOn d with
      | none => simp [redoLoop, redoCut, hc, doAll, hu]
      | some d' => simp only [redoLoop, hu, redoCut, if_neg hc, doAll, ih]; simp

/-- The logs of the buffer fit its text: from `d0` the recorded actions lead to the text, and the
undone actions can be performed from the text. -/
structure Inv (d0 : Text) (b : Buffer) : Prop where
  past : Path b.actions d0 b.data
  future : ∃ d, FPath b.undone b.data d

theorem Inv.ofText (d : Text) : Inv d (Buffer.ofText d) := ⟨.nil d, d, .nil d⟩

theorem Inv.undo {d0 : Text} {b : Buffer} (h : Inv d0 b) :
    ∃ b', b.undo = some (!b.actions.isEmpty, b') ∧ Inv d0 b' ∧
      b'.actions = (undoCut b.actions 0 0).2 ∧
      b'.undone = (undoCut b.actions 0 0).1.reverse ++ b.undone ∧
      Path (undoCut b.actions 0 0).1 b'.data b.data := by
  have hp := h.past
  rw [← undoCut_append b.actions 0 0] at hp
  obtain ⟨m, h1, h2⟩ := hp.split
  refine ⟨⟨m, (undoCut b.actions 0 0).2, (undoCut b.actions 0 0).1.reverse ++ b.undone⟩, ?_, ?_, rfl, rfl, h2⟩
  · simp [Buffer.undo, undoLoop_eq, h2.undoAll]
  · obtain ⟨e, he⟩ := h.future
    exact ⟨h1, e, h2.toF.append he⟩

theorem Inv.redo {d0 : Text} {b : Buffer} (h : Inv d0 b) :
    ∃ b', b.redo = some (!b.undone.isEmpty, b') ∧ Inv d0 b' ∧
      b'.undone = (redoCut b.undone 0 0).2 ∧
      b'.actions = (redoCut b.undone 0 0).1.reverse ++ b.actions ∧
      FPath (redoCut b.undone 0 0).1 b.data b'.data := by
  obtain ⟨e, hp⟩ := h.future
  rw [← redoCut_append b.undone 0 0] at hp
  obtain ⟨m, h1, h2⟩ := hp.split
  refine ⟨⟨m, (redoCut b.undone 0 0).1.reverse ++ b.actions, (redoCut b.undone 0 0).2⟩, ?_, ?_, rfl, rfl, h1⟩
  · simp [Buffer.redo, redoLoop_eq, h1.doAll]
  · exact ⟨h.past.append h1.toP, e, h2⟩

theorem Inv.push {d0 : Text} {b : Buffer} (h : Inv d0 b) {a : Action} {d : Text}
    (he : Effect a b.data d) : Inv d0 ({ b with data := d }.pushAction a) :=
  ⟨.cons h.past he, d, .nil d⟩

theorem insert_spec (b : Buffer) (pre text post : Text) (h : b.data = pre ++ post) :
    b.insert pre.length text =
      some { data := pre ++ text ++ post, actions := .insert pre.length text :: b.actions, undone := [] } := by
  simp [Buffer.insert, Action.doOn, h, insertRaw_append, pushAction]

theorem insert_eq (b : Buffer) (start : Nat) (text : Text) (h : start ≤ b.data.length) :
    b.insert start text =
      some { data := b.data.take start ++ text ++ b.data.drop start,
             actions := .insert start text :: b.actions, undone := [] } := by
  simp [Buffer.insert, Action.doOn, insertRaw_eq, h, pushAction]

theorem remove_spec (b : Buffer) (pre mid post : Text) (h : b.data = pre ++ mid ++ post) :
    b.remove pre.length (pre.length + mid.length) =
      some (mid.length, { data := pre ++ post, actions := .remove pre.length mid :: b.actions, undone := [] }) := by
  rw [Buffer.remove, h, removeRaw_append]; rfl

theorem remove_eq (b : Buffer) (start stop : Nat) (h : start ≤ stop ∧ stop ≤ b.data.length) :
    b.remove start stop =
      some (stop - start,
        { data := b.data.take start ++ b.data.drop stop,
          actions := .remove start ((b.data.drop start).take (stop - start)) :: b.actions, undone := [] }) := by
  simp [Buffer.remove, removeRaw, h, pushAction]; omega

theorem effect_insert (d : Text) (start : Nat) (text : Text) (h : start ≤ d.length) :
    Effect (.insert start text) d (d.take start ++ text ++ d.drop start) := by
  have := Effect.insert (d.take start) text (d.drop start)
  simpa [List.length_take, Nat.min_eq_left h] using this

theorem effect_remove (d : Text) (start stop : Nat) (h : start ≤ stop ∧ stop ≤ d.length) :
    Effect (.remove start ((d.drop start).take (stop - start))) d (d.take start ++ d.drop stop) := by
  have := Effect.remove (d.take start) ((d.drop start).take (stop - start)) (d.drop stop)
  have e : d.take start ++ (d.drop start).take (stop - start) ++ d.drop stop = d := by
    rw [List.append_assoc]
    have : d.drop stop = (d.drop start).drop (stop - start) := by
      rw [List.drop_drop]; congr 1; omega
    rw [this, List.take_append_drop, List.take_append_drop]
  rw [e] at this
  have hl : (d.take start).length = start := by simp; omega
  rwa [hl] at this

end Buffer
end Liner
