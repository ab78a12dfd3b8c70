import Verif.Proof.Buffer
import Verif.Spec.Client
/-
Refinement of the action logs by the snapshot machine.
-/

namespace Liner
open Spec

def Action.isEdit : Action → Bool
  | .insert _ _ => true
  | .remove _ _ => true
  | _ => false

/-- A non-empty sequence of edits and non-empty groups (chronological). -/
inductive Seq : List Action → Prop where
  | edit (a : Action) (h : a.isEdit = true) : Seq [a]
  | group {body : List Action} : Seq body → Seq (.startGroup :: (body ++ [.endGroup]))
  | app {x y : List Action} : Seq x → Seq y → Seq (x ++ y)

/-- One undoable unit (chronological). -/
inductive Chunk : List Action → Prop where
  | edit (a : Action) (h : a.isEdit = true) : Chunk [a]
  | group {body : List Action} : Seq body → Chunk (.startGroup :: (body ++ [.endGroup]))

theorem Chunk.seq {x : List Action} (h : Chunk x) : Seq x := by
  cases h with
  | edit a h => exact .edit a h
  | group h => exact .group h

namespace Buffer

theorem undoCut_cons (a : Action) (rest : List Action) (n : Int) (c : Nat) :
    undoCut (a :: rest) n c = if undoNest a n = 0 ∧ undoCount a c > 0 then ([a], rest) else
      (a :: (undoCut rest (undoNest a n) (undoCount a c)).1,
        (undoCut rest (undoNest a n) (undoCount a c)).2) := by
  rw [undoCut]

theorem redoCut_cons (a : Action) (rest : List Action) (n : Int) (c : Nat) :
    redoCut (a :: rest) n c = if redoNest a n = 0 ∧ redoCount a c > 0 then ([a], rest) else
      (a :: (redoCut rest (redoNest a n) (redoCount a c)).1,
        (redoCut rest (redoNest a n) (redoCount a c)).2) := by
  rw [redoCut]

theorem undoCut_seq {x : List Action} (hx : Seq x) :
    ∀ (rest : List Action) (n : Int) (c : Nat), 1 ≤ n →
      ∃ c', 0 < c' ∧ undoCut (x.reverse ++ rest) n c =
        (x.reverse ++ (undoCut rest n c').1, (undoCut rest n c').2) := by
  induction hx with
  | edit a h =>
    intro rest n c hn
    refine ⟨c + 1, by omega, ?_⟩
    have e1 : undoNest a n = n := by cases a <;> simp_all [undoNest, Action.isEdit]
    have e2 : undoCount a c = c + 1 := by cases a <;> simp_all [undoCount, Action.isEdit]
    have : ¬ (n = 0 ∧ c + 1 > 0) := by omega
    simp [undoCut, e1, e2]
    intro h0; omega
  | @group body hb ih =>
    intro rest n c hn
    obtain ⟨c', hc', e⟩ := ih (.startGroup :: rest) (n + 1) 0 (by omega)
    refine ⟨c', hc', ?_⟩
    have h1 : ¬ (n + 1 = 0 ∧ 0 > 0) := by omega
    have h2 : ¬ (n + 1 - 1 = 0 ∧ c' > 0) := by omega
    have e3 : undoCut (.startGroup :: rest) (n + 1) c' =
        (.startGroup :: (undoCut rest n c').1, (undoCut rest n c').2) := by
      rw [undoCut_cons]
      rw [if_neg (by simpa [undoNest, undoCount] using h2)]
      simp [undoNest, undoCount]
    rw [e3] at e
    simp only [List.reverse_cons, List.reverse_append, List.reverse_nil, List.nil_append,
      List.cons_append, List.append_assoc]
    rw [undoCut_cons]
    rw [if_neg (by simp [undoNest, undoCount])]
    simp only [undoNest, undoCount]
    rw [e]
  | @app x y _ _ ihx ihy =>
    intro rest n c hn
    obtain ⟨c1, h1, e1⟩ := ihy (x.reverse ++ rest) n c hn
    obtain ⟨c2, h2, e2⟩ := ihx rest n c1 hn
    refine ⟨c2, h2, ?_⟩
    rw [List.reverse_append, List.append_assoc, e1, e2]
    simp

theorem undoCut_chunk {x : List Action} (hx : Chunk x) (rest : List Action) :
    undoCut (x.reverse ++ rest) 0 0 = (x.reverse, rest) := by
  cases hx with
  | edit a h =>
    have e1 : undoNest a 0 = 0 := by cases a <;> simp_all [undoNest, Action.isEdit]
    have e2 : undoCount a 0 = 1 := by cases a <;> simp_all [undoCount, Action.isEdit]
    simp [undoCut, e1, e2]
  | @group body hb =>
    obtain ⟨c', hc', e⟩ := undoCut_seq hb (.startGroup :: rest) 1 0 (by omega)
    have e3 : undoCut (.startGroup :: rest) 1 c' = ([.startGroup], rest) := by
      rw [undoCut_cons]
      rw [if_pos (by simpa [undoNest, undoCount] using hc')]
    rw [e3] at e
    simp only [List.reverse_cons, List.reverse_append, List.reverse_nil, List.nil_append,
      List.cons_append, List.append_assoc]
    rw [undoCut_cons]
    rw [if_neg (by simp [undoNest])]
    simp only [undoNest, undoCount]
    have : (0 : Int) + 1 = 1 := rfl
    rw [this, e]

theorem undoCut_empty (rest : List Action) :
    undoCut (.endGroup :: .startGroup :: rest) 0 0 =
      (.endGroup :: .startGroup :: (undoCut rest 0 0).1, (undoCut rest 0 0).2) := by
  rw [undoCut, if_neg (by simp [undoNest])]
  rw [undoCut, if_neg (by simp [undoNest, undoCount])]
  simp [undoNest, undoCount]

theorem redoCut_seq {x : List Action} (hx : Seq x) :
    ∀ (rest : List Action) (n : Int) (c : Nat), 1 ≤ n →
      ∃ c', 0 < c' ∧ redoCut (x ++ rest) n c =
        (x ++ (redoCut rest n c').1, (redoCut rest n c').2) := by
  induction hx with
  | edit a h =>
    intro rest n c hn
    refine ⟨c + 1, by omega, ?_⟩
    have e1 : redoNest a n = n := by cases a <;> simp_all [redoNest, Action.isEdit]
    have e2 : redoCount a c = c + 1 := by cases a <;> simp_all [redoCount, Action.isEdit]
    simp [redoCut, e1, e2]
    intro h0; omega
  | @group body hb ih =>
    intro rest n c hn
    obtain ⟨c', hc', e⟩ := ih (.endGroup :: rest) (n + 1) 0 (by omega)
    refine ⟨c', hc', ?_⟩
    have h2 : ¬ (n + 1 - 1 = 0 ∧ c' > 0) := by omega
    have e3 : redoCut (.endGroup :: rest) (n + 1) c' =
        (.endGroup :: (redoCut rest n c').1, (redoCut rest n c').2) := by
      rw [redoCut_cons]
      rw [if_neg (by simpa [redoNest, redoCount] using h2)]
      simp [redoNest, redoCount]
    rw [e3] at e
    simp only [List.nil_append, List.cons_append, List.append_assoc]
    rw [redoCut_cons]
    rw [if_neg (by simp [redoNest, redoCount])]
    simp only [redoNest, redoCount]
    rw [e]
  | @app x y _ _ ihx ihy =>
    intro rest n c hn
    obtain ⟨c1, h1, e1⟩ := ihx (y ++ rest) n c hn
    obtain ⟨c2, h2, e2⟩ := ihy rest n c1 hn
    refine ⟨c2, h2, ?_⟩
    rw [List.append_assoc, e1, e2]
    simp

theorem redoCut_chunk {x : List Action} (hx : Chunk x) (rest : List Action) :
    redoCut (x ++ rest) 0 0 = (x, rest) := by
  cases hx with
  | edit a h =>
    have e1 : redoNest a 0 = 0 := by cases a <;> simp_all [redoNest, Action.isEdit]
    have e2 : redoCount a 0 = 1 := by cases a <;> simp_all [redoCount, Action.isEdit]
    simp [redoCut, e1, e2]
  | @group body hb =>
    obtain ⟨c', hc', e⟩ := redoCut_seq hb (.endGroup :: rest) 1 0 (by omega)
    have e3 : redoCut (.endGroup :: rest) 1 c' = ([.endGroup], rest) := by
      rw [redoCut_cons]
      rw [if_pos (by simpa [redoNest, redoCount] using hc')]
    rw [e3] at e
    simp only [List.nil_append, List.cons_append, List.append_assoc]
    rw [redoCut_cons]
    rw [if_neg (by simp [redoNest])]
    simp only [redoNest, redoCount]
    have : (0 : Int) + 1 = 1 := rfl
    rw [this, e]

theorem redoCut_empty (rest : List Action) :
    redoCut (.startGroup :: .endGroup :: rest) 0 0 =
      (.startGroup :: .endGroup :: (redoCut rest 0 0).1, (redoCut rest 0 0).2) := by
  rw [redoCut, if_neg (by simp [redoNest])]
  rw [redoCut, if_neg (by simp [redoNest, redoCount])]
  simp [redoNest, redoCount]

/-- The log (most recent first) represents the past snapshots. -/
inductive PastRep : List Action → Text → List Text → Prop where
  | nil (d : Text) : PastRep [] d []
  | empty {as : List Action} {d : Text} {ps : List Text} :
      PastRep as d ps → PastRep (.endGroup :: .startGroup :: as) d ps
  | chunk {as x : List Action} {p d : Text} {ps : List Text} :
      PastRep as p ps → Chunk x → FPath x p d → PastRep (x.reverse ++ as) d (p :: ps)

/-- The undone log (next first) represents the future snapshots. -/
inductive FutRep : List Action → Text → List Text → Prop where
  | nil (d : Text) : FutRep [] d []
  | empty {as : List Action} {d : Text} {fs : List Text} :
      FutRep as d fs → FutRep (.startGroup :: .endGroup :: as) d fs
  | chunk {as x : List Action} {d f : Text} {fs : List Text} :
      Chunk x → FPath x d f → FutRep as f fs → FutRep (x ++ as) d (f :: fs)

theorem PastRep.path {as : List Action} {d : Text} {ps : List Text} (h : PastRep as d ps) :
    ∃ d0, Path as d0 d := by
  induction h with
  | nil d => exact ⟨d, .nil d⟩
  | empty _ ih =>
    obtain ⟨d0, hp⟩ := ih
    exact ⟨d0, .cons (.cons hp (.startGroup _)) (.endGroup _)⟩
  | chunk _ _ hf ih =>
    obtain ⟨d0, hp⟩ := ih
    exact ⟨d0, hp.append hf.toP⟩

theorem FutRep.path {as : List Action} {d : Text} {fs : List Text} (h : FutRep as d fs) :
    ∃ e, FPath as d e := by
  induction h with
  | nil d => exact ⟨d, .nil d⟩
  | empty _ ih =>
    obtain ⟨e, hp⟩ := ih
    exact ⟨e, .cons (.startGroup _) (.cons (.endGroup _) hp)⟩
  | chunk _ hf _ ih =>
    obtain ⟨e, hp⟩ := ih
    exact ⟨e, hf.append hp⟩

structure Rep (b : Buffer) (s : Snap) : Prop where
  data : b.data = s.cur
  past : PastRep b.actions s.cur s.past
  future : FutRep b.undone s.cur s.future

theorem undo_rep_aux {as : List Action} {d : Text} {ps : List Text} (h : PastRep as d ps) :
    ∀ (u : List Action) (fs : List Text), FutRep u d fs →
      ∃ d', undoAll (undoCut as 0 0).1 d = some d' ∧ d' = (Snap.undo ⟨ps, d, fs⟩).cur ∧
        PastRep (undoCut as 0 0).2 d' (Snap.undo ⟨ps, d, fs⟩).past ∧
        FutRep ((undoCut as 0 0).1.reverse ++ u) d' (Snap.undo ⟨ps, d, fs⟩).future := by
  induction h with
  | nil d => intro u fs hf; exact ⟨d, rfl, rfl, .nil d, hf⟩
  | @empty as d ps h ih =>
    intro u fs hf
    obtain ⟨d', h1, h2, h3, h4⟩ := ih _ fs (.empty hf)
    rw [undoCut_empty]
    refine ⟨d', by simpa [undoAll, Action.undo] using h1, h2, h3, by simpa using h4⟩
  | @chunk as x p d ps h hc hp ih =>
    intro u fs hf
    rw [undoCut_chunk hc]
    refine ⟨p, hp.toP.undoAll, rfl, h, ?_⟩
    rw [List.reverse_reverse]
    exact .chunk hc hp hf

theorem Rep.undo {b : Buffer} {s : Snap} (h : Rep b s) :
    ∃ b', b.undo = some (!b.actions.isEmpty, b') ∧ Rep b' s.undo := by
  obtain ⟨d', h1, h2, h3, h4⟩ := undo_rep_aux h.past _ _ h.future
  refine ⟨⟨d', (undoCut b.actions 0 0).2, (undoCut b.actions 0 0).1.reverse ++ b.undone⟩, ?_, ?_⟩
  · simp [Buffer.undo, undoLoop_eq, h.data, h1]
  · refine ⟨h2, ?_, ?_⟩
    · rw [← h2]; exact h3
    · rw [← h2]; exact h4

theorem redo_rep_aux {u : List Action} {d : Text} {fs : List Text} (h : FutRep u d fs) :
    ∀ (as : List Action) (ps : List Text), PastRep as d ps →
      ∃ d', doAll (redoCut u 0 0).1 d = some d' ∧ d' = (Snap.redo ⟨ps, d, fs⟩).cur ∧
        PastRep ((redoCut u 0 0).1.reverse ++ as) d' (Snap.redo ⟨ps, d, fs⟩).past ∧
        FutRep (redoCut u 0 0).2 d' (Snap.redo ⟨ps, d, fs⟩).future := by
  induction h with
  | nil d => intro as ps hp; exact ⟨d, rfl, rfl, hp, .nil d⟩
  | @empty u d fs h ih =>
    intro as ps hp
    obtain ⟨d', h1, h2, h3, h4⟩ := ih _ ps (.empty hp)
    rw [redoCut_empty]
    refine ⟨d', by simpa [doAll, Action.doOn] using h1, h2, by simpa using h3, h4⟩
  | @chunk u x d f fs hc hp h ih =>
    intro as ps hpast
    rw [redoCut_chunk hc]
    exact ⟨f, hp.doAll, rfl, .chunk hpast hc hp, h⟩

theorem Rep.redo {b : Buffer} {s : Snap} (h : Rep b s) :
    ∃ b', b.redo = some (!b.undone.isEmpty, b') ∧ Rep b' s.redo := by
  obtain ⟨d', h1, h2, h3, h4⟩ := redo_rep_aux h.future _ _ h.past
  refine ⟨⟨d', (redoCut b.undone 0 0).1.reverse ++ b.actions, (redoCut b.undone 0 0).2⟩, ?_, ?_⟩
  · simp [Buffer.redo, redoLoop_eq, h.data, h1]
  · refine ⟨h2, ?_, ?_⟩
    · rw [← h2]; exact h3
    · rw [← h2]; exact h4

theorem undo_actions_length {b b' : Buffer} {f : Bool} (h : b.undo = some (f, b'))
    (hne : b.actions ≠ []) : b'.actions.length < b.actions.length := by
  simp only [Buffer.undo, undoLoop_eq, Option.map_eq_some_iff] at h
  obtain ⟨x, ⟨d, _, rfl⟩, h2⟩ := h
  simp only [Prod.mk.injEq] at h2
  rw [← h2.2]
  have := congrArg List.length (undoCut_append b.actions 0 0)
  have hn := undoCut_ne_nil b.actions 0 0 hne
  have : 0 < (undoCut b.actions 0 0).1.length := List.length_pos_iff.mpr hn
  simp at *
  omega

theorem undo_empty (b : Buffer) (h : b.actions = []) : b.undo = some (false, b) := by
  cases b; simp_all [Buffer.undo, undoLoop]

theorem Rep.revertLoop {n : Nat} : ∀ {b : Buffer} {s : Snap}, Rep b s → b.actions.length < n →
    ∃ b', revertLoop n b = some b' ∧ Rep b' s.revert := by
  induction n with
  | zero => intro b s _ h; omega
  | succ n ih =>
    intro b s hr hn
    by_cases hb : b.actions = []
    · refine ⟨b, by simp [Buffer.revertLoop, undo_empty b hb], ?_⟩
      have : s.past = [] := by
        have := hr.past
        rw [hb] at this
        cases hs : s.past with
        | nil => rfl
        | cons p ps =>
          rw [hs] at this
          generalize he : ([] : List Action) = as at this
          cases this with
          | empty => cases he
          | chunk h hc hp =>
            have := congrArg List.length he
            cases hc <;> simp at this
      have e : s.revert = s := by cases s; simp_all [Snap.revert, Snap.backAll]
      rw [e]; exact hr
    · obtain ⟨b', h1, h2⟩ := hr.undo
      have hlt := undo_actions_length h1 hb
      obtain ⟨b'', h3, h4⟩ := ih h2 (by omega)
      have hne : (!b.actions.isEmpty) = true := by simpa using hb
      refine ⟨b'', by simp [Buffer.revertLoop, h1, hne, h3, hb], ?_⟩
      have e : s.undo.revert = s.revert := by
        unfold Snap.undo Snap.revert
        cases s with
        | mk past cur future => cases past <;> simp [Snap.backAll]
      rw [← e]; exact h4

theorem Rep.revert {b : Buffer} {s : Snap} (h : Rep b s) :
    ∃ b', b.revert = some (!b.actions.isEmpty, b') ∧ Rep b' s.revert := by
  obtain ⟨b', h1, h2⟩ := h.revertLoop (n := b.actions.length + 1) (by omega)
  by_cases hb : b.actions = []
  · refine ⟨b, by simp [Buffer.revert, hb], ?_⟩
    have : b' = b := by
      simp [Buffer.revertLoop, undo_empty b hb] at h1; exact h1.symm
    rw [← this]; rw [this]; rw [this] at h2; exact h2
  · refine ⟨b', by simp [Buffer.revert, hb, h1], h2⟩

end Buffer

theorem runEdit_spec (b : Buffer) (e : Edit) (d : Text) (h : e.apply b.data = some d) :
    ∃ a : Action, a.isEdit = true ∧ Effect a b.data d ∧
      runEdit b e = some { data := d, actions := a :: b.actions, undone := [] } := by
  cases e with
  | insert start text =>
    simp only [Edit.apply] at h
    split at h
    · rename_i hs; cases h
      exact ⟨_, rfl, Buffer.effect_insert _ _ _ hs, Buffer.insert_eq _ _ _ hs⟩
    · cases h
  | remove start stop =>
    simp only [Edit.apply] at h
    split at h
    · rename_i hs; cases h
      exact ⟨_, rfl, Buffer.effect_remove _ _ _ hs, by simp [runEdit, Buffer.remove_eq _ _ _ hs]⟩
    · cases h
  | truncate num =>
    simp only [Edit.apply] at h
    split at h
    · rename_i hs; cases h
      have hs' : num ≤ b.data.length ∧ b.data.length ≤ b.data.length := ⟨hs, Nat.le_refl _⟩
      refine ⟨_, rfl, ?_, by simp [runEdit, Buffer.truncate, Buffer.remove_eq _ _ _ hs']; rfl⟩
      have := Buffer.effect_remove b.data num b.data.length hs'
      simpa using this
    · cases h
  | insertFrom other =>
    simp only [Edit.apply] at h
    split at h
    · rename_i hs; cases h
      have h1 := Buffer.effect_insert b.data b.data.length (other.drop b.data.length) (Nat.le_refl _)
      have h2 := Buffer.insert_eq b b.data.length (other.drop b.data.length) (Nat.le_refl _)
      simp only [List.take_length, List.drop_length, List.append_nil] at h1 h2
      refine ⟨_, rfl, h1, ?_⟩
      show (if b.data.length ≤ other.length then b.insert b.data.length (other.drop b.data.length)
        else none) = _
      rw [if_pos hs, h2]
    · cases h

mutual
theorem runBlock_spec (bl : Block) (hf : bl.Full) (b : Buffer) (d : Text)
    (h : bl.apply b.data = some d) :
    ∃ x, Chunk x ∧ FPath x b.data d ∧
      runBlock b bl = some { data := d, actions := x.reverse ++ b.actions, undone := [] } := by
  match bl, hf, h with
  | .edit e, _, h =>
    obtain ⟨a, ha, he, hr⟩ := runEdit_spec b e d h
    exact ⟨[a], .edit a ha, .cons he (.nil _), by simpa [runBlock] using hr⟩
  | .group bs, hf, h =>
    obtain ⟨x, hx, hp, hr⟩ := runBlocks_spec bs hf.2 hf.1 b.startUndoGroup d h
    refine ⟨_, .group hx, .cons (.startGroup _) (hp.append (.cons (.endGroup _) (.nil _))), ?_⟩
    rw [runBlock, hr]
    simp [Buffer.endUndoGroup, Buffer.startUndoGroup]
theorem runBlocks_spec (bs : List Block) (hf : Block.FullAll bs) (hne : bs ≠ []) (b : Buffer) (d : Text)
    (h : Block.applyAll bs b.data = some d) :
    ∃ x, Seq x ∧ FPath x b.data d ∧
      runBlocks b bs = some { data := d, actions := x.reverse ++ b.actions, undone := [] } := by
  match bs, hf, hne, h with
  | [bl], hf, _, h =>
    simp only [Block.applyAll] at h
    cases hb : bl.apply b.data with
    | none => rw [hb] at h; cases h
    | some d' =>
      rw [hb] at h; cases h
      obtain ⟨x, hx, hp, hr⟩ := runBlock_spec bl hf.1 b d hb
      exact ⟨x, hx.seq, hp, by simp [runBlocks, hr]⟩
  | bl :: bl2 :: rest, hf, _, h =>
    rw [Block.applyAll] at h
    cases hb : bl.apply b.data with
    | none => rw [hb] at h; cases h
    | some d' =>
      rw [hb] at h
      obtain ⟨x, hx, hp, hr⟩ := runBlock_spec bl hf.1 b d' hb
      obtain ⟨y, hy, hq, hs⟩ := runBlocks_spec (bl2 :: rest) hf.2 (by simp)
        { data := d', actions := x.reverse ++ b.actions, undone := [] } d h
      refine ⟨x ++ y, .app hx.seq hy, hp.append hq, ?_⟩
      rw [runBlocks, hr]
      simp only []
      rw [hs]
      simp
end

theorem rep_init (d : Text) : Buffer.Rep (Buffer.ofText d) (Snap.init d) :=
  ⟨rfl, .nil d, .nil d⟩

theorem rep_edit {b : Buffer} {s : Snap} (h : Buffer.Rep b s) (e : Edit) (d : Text)
    (he : e.apply s.cur = some d) : ∃ b', runEdit b e = some b' ∧ Buffer.Rep b' (s.change d) := by
  rw [← h.data] at he
  obtain ⟨a, ha, hef, hr⟩ := runEdit_spec b e d he
  refine ⟨_, hr, rfl, ?_, .nil _⟩
  have := Buffer.PastRep.chunk (x := [a]) (d := d) h.past (.edit a ha)
    (.cons (h.data ▸ hef) (.nil _))
  exact this

theorem rep_step {b : Buffer} {s s' : Snap} (h : Buffer.Rep b s) (st : Step) (hf : st.Full)
    (hs : s.step st = some s') : ∃ b', runStep b st = some b' ∧ Buffer.Rep b' s' := by
  cases st with
  | block bl =>
    simp only [Snap.step, Option.map_eq_some_iff] at hs
    obtain ⟨d, hd, rfl⟩ := hs
    rw [← h.data] at hd
    obtain ⟨x, hx, hp, hr⟩ := runBlock_spec bl hf b d hd
    refine ⟨_, hr, rfl, ?_, .nil _⟩
    exact .chunk h.past hx (h.data ▸ hp)
  | emptyGroup =>
    cases hs
    exact ⟨_, rfl, h.data, .empty h.past, h.future⟩
  | copy other =>
    cases hs
    have h1 : (Edit.remove 0 b.data.length).apply s.cur = some [] := by
      simp [Edit.apply, h.data]
    obtain ⟨b1, hb1, hr1⟩ := rep_edit h _ _ h1
    have h2 : (Edit.insert 0 other).apply (s.change []).cur = some other := by
      simp [Edit.apply, Snap.change]
    obtain ⟨b2, hb2, hr2⟩ := rep_edit hr1 _ _ h2
    refine ⟨b2, ?_, hr2⟩
    simp only [runEdit, Option.map_eq_some_iff] at hb1
    obtain ⟨⟨n, b1'⟩, hb1, rfl⟩ := hb1
    simp only [runStep, Buffer.copyBuffer, hb1, Buffer.ofText]
    exact hb2
  | undo =>
    cases hs
    obtain ⟨b', h1, h2⟩ := h.undo
    exact ⟨b', by simp [runStep, h1], h2⟩
  | redo =>
    cases hs
    obtain ⟨b', h1, h2⟩ := h.redo
    exact ⟨b', by simp [runStep, h1], h2⟩
  | revert =>
    cases hs
    obtain ⟨b', h1, h2⟩ := h.revert
    exact ⟨b', by simp [runStep, h1], h2⟩

theorem rep_steps (steps : List Step) : ∀ {b : Buffer} {s s' : Snap}, Buffer.Rep b s →
    (∀ st ∈ steps, st.Full) → s.run steps = some s' →
    ∃ b', runSteps b steps = some b' ∧ Buffer.Rep b' s' := by
  induction steps with
  | nil => intro b s s' h _ hs; cases hs; exact ⟨b, rfl, h⟩
  | cons st rest ih =>
    intro b s s' h hf hs
    rw [Snap.run] at hs
    cases hst : s.step st with
    | none => rw [hst] at hs; cases hs
    | some s1 =>
      rw [hst] at hs
      obtain ⟨b1, hb1, hr1⟩ := rep_step h st (hf _ (by simp)) hst
      obtain ⟨b2, hb2, hr2⟩ := ih hr1 (fun x hx => hf x (by simp [hx])) hs
      exact ⟨b2, by simp [runSteps, hb1, hb2], hr2⟩

namespace Buffer

/-- General (unbalanced) invariant through revert. -/
theorem Inv.revertLoop {n : Nat} : ∀ {d0 : Text} {b : Buffer}, Inv d0 b → b.actions.length < n →
    ∃ b', revertLoop n b = some b' ∧ Inv d0 b' ∧ b'.actions = [] := by
  induction n with
  | zero => intro b s _ h; omega
  | succ n ih =>
    intro d0 b hr hn
    by_cases hb : b.actions = []
    · exact ⟨b, by simp [Buffer.revertLoop, undo_empty b hb], hr, hb⟩
    · obtain ⟨b', h1, h2, _⟩ := hr.undo
      have hlt := undo_actions_length h1 hb
      obtain ⟨b'', h3, h4⟩ := ih h2 (by omega)
      exact ⟨b'', by
        have hne : (!b.actions.isEmpty) = true := by simpa using hb
        simp [Buffer.revertLoop, h1, hne, h3, hb], h4⟩

theorem Inv.revert {d0 : Text} {b : Buffer} (h : Inv d0 b) :
    ∃ b', b.revert = some (!b.actions.isEmpty, b') ∧ Inv d0 b' ∧ b'.actions = [] := by
  by_cases hb : b.actions = []
  · exact ⟨b, by simp [Buffer.revert, hb], h, hb⟩
  · obtain ⟨b', h1, h2⟩ := h.revertLoop (n := b.actions.length + 1) (by omega)
    exact ⟨b', by simp [Buffer.revert, hb, h1], h2⟩

theorem Inv.edit {d0 : Text} {b : Buffer} (h : Inv d0 b) (e : Edit) (d : Text)
    (he : e.apply b.data = some d) : ∃ b', runEdit b e = some b' ∧ Inv d0 b' ∧ b'.data = d := by
  obtain ⟨a, ha, hef, hr⟩ := runEdit_spec b e d he
  exact ⟨_, hr, ⟨.cons h.past hef, d, .nil d⟩, rfl⟩

theorem Inv.copy {d0 : Text} {b : Buffer} (h : Inv d0 b) (other : Buffer) :
    ∃ b', b.copyBuffer other = some b' ∧ Inv d0 b' ∧ b'.data = other.data := by
  have h1 : (Edit.remove 0 b.data.length).apply b.data = some [] := by simp [Edit.apply]
  obtain ⟨b1, hb1, hr1, hd1⟩ := h.edit _ _ h1
  have h2 : (Edit.insert 0 other.data).apply b1.data = some other.data := by simp [Edit.apply, hd1]
  obtain ⟨b2, hb2, hr2, hd2⟩ := hr1.edit _ _ h2
  refine ⟨b2, ?_, hr2, hd2⟩
  simp only [runEdit, Option.map_eq_some_iff] at hb1
  obtain ⟨⟨n, b1'⟩, hb1, rfl⟩ := hb1
  simp only [Buffer.copyBuffer, hb1]
  exact hb2

theorem Inv.start {d0 : Text} {b : Buffer} (h : Inv d0 b) : Inv d0 b.startUndoGroup :=
  ⟨.cons h.past (.startGroup _), h.future⟩

theorem Inv.end {d0 : Text} {b : Buffer} (h : Inv d0 b) : Inv d0 b.endUndoGroup :=
  ⟨.cons h.past (.endGroup _), h.future⟩

theorem Inv.raw {d0 : Text} {b : Buffer} (h : Inv d0 b) (op : RawOp) (hr : op.InRange b.data) :
    ∃ b', runRaw b op = some b' ∧ Inv d0 b' := by
  cases op with
  | edit e =>
    obtain ⟨d, hd⟩ := Option.isSome_iff_exists.mp hr
    obtain ⟨b', h1, h2, _⟩ := h.edit e d hd
    exact ⟨b', h1, h2⟩
  | copy other =>
    obtain ⟨b', h1, h2, _⟩ := h.copy (Buffer.ofText other)
    exact ⟨b', h1, h2⟩
  | startGroup => exact ⟨_, rfl, h.start⟩
  | endGroup => exact ⟨_, rfl, h.end⟩
  | undo =>
    obtain ⟨b', h1, h2, _⟩ := h.undo
    exact ⟨b', by simp [runRaw, h1], h2⟩
  | redo =>
    obtain ⟨b', h1, h2, _⟩ := h.redo
    exact ⟨b', by simp [runRaw, h1], h2⟩
  | revert =>
    obtain ⟨b', h1, h2, _⟩ := h.revert
    exact ⟨b', by simp [runRaw, h1], h2⟩

end Buffer

theorem reach_inv {d0 : Text} {b : Buffer} (h : Reach d0 b) : Buffer.Inv d0 b := by
  induction h with
  | init d => exact .ofText d
  | op o _ hr hrun ih =>
    obtain ⟨b', h1, h2⟩ := ih.raw o hr
    rw [hrun] at h1; cases h1; exact h2
  | clear _ ih => exact ⟨.nil _, _, .nil _⟩

end Liner
