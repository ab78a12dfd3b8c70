import Verif.Proof.Seek
/-
Keys typed in vi insert mode while a search is under way.
-/

set_option linter.unusedSectionVars false

namespace Liner
namespace Vi
open Liner.Spec Liner.Editor Liner.Props M KM

section
variable (E : Env) {v : Vi} {s : Ed} {l r : Text}

/-- What a key typed makes of the new line, before it is shown. -/
theorem type_run {n : Nat} {k : Key} (hk : Types k) (hv : v.modeStack = [.insert]) (hr : v.movementReset = false)
    (hl : s.curHistoryLoc = none) (hd : s.newBuf.data = l ++ r) (hc : s.cursor = l.length) :
    ∃ w' es b, coreFuel E (n + 1) k (v, s) = (ed (display E) : ViM Unit) ({ v with lastCommand := v.lastCommand ++ [k] },
        { s with newBuf := w', cursor := (typeKey (l, r) k).1.length, bufferChanged := b }) ∧
      (b = true ∨ b = s.bufferChanged ∧ w' = s.newBuf) ∧ w'.data = (typeKey (l, r) k).1 ++ (typeKey (l, r) k).2 ∧
      Plainly es ∧ w'.actions = es ++ s.newBuf.actions ∧ Path es s.newBuf.data w'.data := by
  have hw : workBuf s = some s.newBuf := by unfold workBuf; rw [hl]
  have hset : ∀ w', setCur s w' = { s with bufferChanged := true, newBuf := w' } := by intro w'; unfold setCur; rw [hl]
  have reset : resetInsert (v, s) = .ok () (v, s) := by
    unfold resetInsert
    show (if v.movementReset = true then _ else _ : ViM Unit) (v, s) = _
    rw [hr]
    rfl
  have one : ∀ a : Action, a.isEdit = true → Plainly [a] := fun a h x hx => by rw [List.mem_singleton.1 hx]; exact h
  have typed : ∀ {m : EdM Unit} {s2 : Ed}, m s = display E s2 → (do
      resetInsert
      modK fun v => { v with lastCommand := v.lastCommand ++ [k] }
      ed m : ViM Unit) (v, s) = (ed (display E) : ViM Unit) ({ v with lastCommand := v.lastCommand ++ [k] }, s2) := by
    intro m s2 hm
    rw [bind_ok reset]
    show (ed m : ViM Unit) ({ v with lastCommand := v.lastCommand ++ [k] }, s) = _
    unfold KM.ed M.zoom
    dsimp only
    rw [hm]
  have change : ∀ {α : Type} {f : Buffer → Option (α × Buffer)} {a : α} {w' : Buffer}, f s.newBuf = some (a, w') →
      curBufMut f s = .ok a { s with bufferChanged := true, newBuf := w' } := by
    intro α f a w' h
    unfold curBufMut
    rw [hw]
    dsimp only
    rw [h]
    dsimp only
    rw [hset]
  have htk : (l ++ r).take l.length = l := List.take_left
  have hdr : (l ++ r).drop l.length = r := List.drop_left
  rcases hk with ⟨c, rfl, -⟩ | rfl | rfl
  · have hi := Buffer.insert_eq s.newBuf l.length [c] (by rw [hd, List.length_append]; omega)
    rw [hd, htk, hdr] at hi
    refine ⟨⟨l ++ [c] ++ r, .insert l.length [c] :: s.newBuf.actions, []⟩, [.insert l.length [c]], true, ?_, .inl rfl, ?_, one _ rfl, rfl, ?_⟩
    · rw [core_insert E hv]
      refine typed (m := insertCharsAfterCursor E [c]) ?_
      show (curBufMut (noRes fun b => b.insert s.cursor [c]) >>= fun _ => _) s = _
      rw [hc, bind_ok (change (a := ()) (by unfold noRes; dsimp only; rw [hi]; rfl))]
      show display E _ = _
      congr 1
      simp [typeKey, hc]
    · rfl
    · rw [hd]; exact .cons (.nil _) (.insert l [c] r)
  · rcases List.eq_nil_or_concat l with rfl | ⟨l', c, rfl⟩
    · refine ⟨s.newBuf, [], s.bufferChanged, ?_, .inr ⟨rfl, rfl⟩, hd, (by intro a ha; cases ha), rfl, .nil _⟩
      rw [core_insert E hv]
      refine typed (m := deleteBeforeCursor E) ?_
      show (if s.cursor > 0 then _ else _ : EdM Unit) s = _
      rw [if_neg (by rw [hc]; simp)]
      show display E s = _
      congr 1
      rw [show (typeKey ([], r) .backspace).1.length = s.cursor from hc.symm]
    · rw [List.concat_eq_append] at *
      have hi := Buffer.remove_eq s.newBuf l'.length (l'.length + 1) ⟨by omega, by rw [hd]; simp⟩
      rw [hd, show l' ++ [c] ++ r = l' ++ (c :: r) by simp] at hi
      rw [List.take_left, List.drop_left, List.drop_append, List.drop_eq_nil_of_le (by omega), Nat.add_sub_cancel_left, List.drop_succ_cons,
        List.drop_zero, List.take_succ_cons, List.take_zero, List.nil_append] at hi
      refine ⟨⟨l' ++ r, .remove l'.length [c] :: s.newBuf.actions, []⟩, [.remove l'.length [c]], true, ?_, .inl rfl, ?_, one _ rfl, rfl, ?_⟩
      · rw [core_insert E hv]
        refine typed (m := deleteBeforeCursor E) ?_
        show (if s.cursor > 0 then _ else _ : EdM Unit) s = _
        rw [if_pos (by rw [hc]; simp)]
        show (curBufMut (fun b => b.remove (s.cursor - 1) s.cursor) >>= fun _ => _) s = _
        rw [hc, List.length_append, List.length_singleton, Nat.add_sub_cancel, bind_ok (change hi)]
        show display E _ = _
        congr 1
        simp [typeKey, hc]
      · simp [typeKey]
      · rw [hd]; exact .cons (.nil _) (.remove l' [c] r)
  · cases r with
    | nil =>
      refine ⟨s.newBuf, [], true, ?_, .inl rfl, hd, (by intro a ha; cases ha), rfl, .nil _⟩
      rw [core_insert E hv]
      refine typed (m := deleteAfterCursor E) ?_
      show (curBufMut (fun b =>
        if s.cursor < b.numChars then (b.remove s.cursor (s.cursor + 1)).map ((), ·.2) else some ((), b)) >>= fun _ => _) s = _
      rw [bind_ok (change (a := ()) (w' := s.newBuf) (if_neg (by unfold Buffer.numChars; rw [hd, hc]; simp)))]
      show display E _ = _
      congr 1
      simp [typeKey, hc]
    | cons c r =>
      have hi := Buffer.remove_eq s.newBuf l.length (l.length + 1) ⟨by omega, by rw [hd]; simp⟩
      rw [hd] at hi
      rw [List.take_left, List.drop_left, List.drop_append, List.drop_eq_nil_of_le (by omega), Nat.add_sub_cancel_left, List.drop_succ_cons,
        List.drop_zero, List.take_succ_cons, List.take_zero, List.nil_append] at hi
      refine ⟨⟨l ++ r, .remove l.length [c] :: s.newBuf.actions, []⟩, [.remove l.length [c]], true, ?_, .inl rfl, ?_, one _ rfl, rfl, ?_⟩
      · rw [core_insert E hv]
        refine typed (m := deleteAfterCursor E) ?_
        show (curBufMut (fun b =>
          if s.cursor < b.numChars then (b.remove s.cursor (s.cursor + 1)).map ((), ·.2) else some ((), b)) >>= fun _ => _) s = _
        rw [bind_ok (change (a := ()) ((if_pos (by unfold Buffer.numChars; rw [hd, hc]; simp)).trans (by rw [hc, hi]; rfl)))]
        show display E _ = _
        congr 1
        simp [typeKey, hc]
      · simp [typeKey]
      · rw [hd]; simpa using Path.cons (.nil _) (.remove l [c] r)

/-- What a movement makes of the cursor. -/
theorem move_run {n : Nat} {k : Key} (hk : Moves k) (hv : v.modeStack = [.insert])
    (hl : s.curHistoryLoc = none) (hd : s.newBuf.data = l ++ r) (hc : s.cursor = l.length) :
    coreFuel E (n + 1) k (v, s) = (ed (display E) : ViM Unit) ({ v with count := 0, movementReset := true },
      { s with cursor := (moveKey (l, r) k).1.length }) := by
  have hcur : curBuf s = .ok s.newBuf s := by unfold curBuf Ed.curBuf?; rw [hl]
  have hlen : s.newBuf.numChars = l.length + r.length := by unfold Buffer.numChars; rw [hd, List.length_append]
  have moved : ∀ {m : EdM Unit} {c' : Nat}, m s = display E { s with cursor := c' } →
      (ed m : ViM Unit) ({ v with count := 0, movementReset := true }, s) =
      (ed (display E) : ViM Unit) ({ v with count := 0, movementReset := true }, { s with cursor := c' }) := by
    intro m c' hm
    unfold KM.ed M.zoom
    dsimp only
    rw [hm]
  rw [core_moves E hk hv]
  rcases hk with rfl | rfl | rfl | rfl
  · refine moved ?_
    show display E _ = _
    have e : s.cursor - (if 1 > s.cursor then s.cursor else 1) = (moveKey (l, r) .left).1.length := by
      simp only [moveKey, List.length_dropLast, hc]
      split <;> omega
    dsimp only
    rw [e]
  · exact moved rfl
  · refine moved ?_
    show (curBuf >>= fun _ => _) s = _
    rw [bind_ok hcur]
    show display E _ = _
    congr 2
    simp [moveKey, hlen]
  · refine moved ?_
    show (curBuf >>= fun _ => _) s = _
    rw [bind_ok hcur]
    show (if s.newBuf.numChars < s.cursor then _ else _ : EdM Unit) s = _
    rw [if_neg (by rw [hlen, hc]; omega)]
    show display E _ = _
    have e : s.cursor + (if 1 > s.newBuf.numChars - s.cursor then s.newBuf.numChars - s.cursor else 1) = (moveKey (l, r) .right).1.length := by
      simp only [moveKey, List.length_append, List.length_take, hlen, hc]
      split <;> omega
    dsimp only
    rw [e]

end

section
variable [Around] (E : Env) {v v' : Vi} {s s' : Ed} {pen : Pen} {full : Bool} {last : Option (Char × CharMovement)} {k : Key}

/-- The pen after a key typed, from the line and the log. -/
theorem Inks.types_on (h : Inks pen full last (v, s)) (hk : Types k) (hm : pen.moved = false)
    (hv' : v' = { v with lastCommand := v.lastCommand ++ [k] })
    (ho : Open false s' (typeKey (pen.left, pen.right) k).1 (typeKey (pen.left, pen.right) k).2)
    (hg : ∀ w, workBuf s = some w → ∃ w' es, workBuf s' = some w' ∧ Plainly es ∧ w'.actions = es ++ w.actions ∧ Path es w.data w'.data) :
    ∃ pen', Pen.Step k pen pen' ∧ pen'.left = (typeKey (pen.left, pen.right) k).1 ∧ pen'.right = (typeKey (pen.left, pen.right) k).2 ∧
      Inks pen' full last (v', s') := by
  subst hv'
  obtain ⟨b0, h0, w, es0, g1, g2, g3, g4⟩ := h.log
  obtain ⟨w', es, q1, q2, q3, q4⟩ := hg w g1
  refine ⟨_, .type hk hm, rfl, rfl, h.stack, ho, h.moved, h.last, ?_, h.more, h.plain, ?_, ?_, h.times,
    b0, h0, w', es ++ es0, q1, g2.append q2, by rw [q3, g3, List.append_assoc], g4.append q4⟩
  · intro ch hch
    obtain ⟨ch', g1, g2, g3, -⟩ := making_snoc hch
    rw [g2, g3]
    exact ⟨(h.record ch' g1).1, by rw [← (h.record ch' g1).2]⟩
  · intro ch hch
    obtain ⟨ch', g1, -, -, g4⟩ := making_snoc hch
    rw [g4]; exact h.kept ch' g1
  · intro k' hk'
    rcases List.mem_append.1 hk' with hk' | hk'
    · exact h.types k' hk'
    · simp at hk'; subst hk'; exact hk

/-- The same after a movement. -/
theorem Inks.types_anew (h : Inks pen full last (v, s)) (hk : Types k) (hm : pen.moved = true)
    (hv' : v' = { v with lastCommand := [k], movementReset := false, lastInsert := some (.char 'i') })
    (ho : Open false s' (typeKey (pen.left, pen.right) k).1 (typeKey (pen.left, pen.right) k).2)
    (hg : ∀ w, workBuf s = some w → ∃ w' es, workBuf s' = some w' ∧ Plainly es ∧
      w'.actions = es ++ (.startGroup :: .endGroup :: w.actions) ∧ Path es w.data w'.data) :
    ∃ pen', Pen.Step k pen pen' ∧ pen'.left = (typeKey (pen.left, pen.right) k).1 ∧ pen'.right = (typeKey (pen.left, pen.right) k).2 ∧
      Inks pen' full last (v', s') := by
  subst hv'
  obtain ⟨b0, ⟨hd, hp⟩, w, es0, g1, g2, g3, g4⟩ := h.log
  obtain ⟨w', es, q1, q2, q3, q4⟩ := hg w g1
  have hc0 : v.count = 0 := Classical.byContradiction fun hc => by
    have := (h.plain hc).1; rw [hm] at this; cases this
  have hp' : Path ([.endGroup] ++ es0) b0.data w.data := .cons g4 (by constructor)
  have hbt : w.data = pen.text := by
    obtain ⟨b', hb', e⟩ := curBuf_of_workBuf g1
    obtain ⟨b2, hb2, e2⟩ := text?_eq.mp h.here.here.1
    rw [hb'] at hb2; cases hb2
    exact e.trans e2
  have fin : ∀ past, (past = pen.since :: pen.past ∨ (pen.text = pen.since ∧ past = pen.past)) →
      Past full past (w.data, [.endGroup] ++ es0 ++ b0.actions) →
      ∃ pen', Pen.Step k pen pen' ∧ pen'.left = (typeKey (pen.left, pen.right) k).1 ∧ pen'.right = (typeKey (pen.left, pen.right) k).2 ∧
        Inks pen' full last ({ v with lastCommand := [k], movementReset := false, lastInsert := some (.char 'i') }, s') := by
    intro past hpa hpp
    refine ⟨_, .restart hk hm hpa, rfl, rfl, h.stack, ho, rfl, h.last, ?_, h.more, fun hc => absurd hc0 hc, ?_, ?_, h.times,
      w.endUndoGroup, ⟨hbt, ?_⟩, w', es ++ [.startGroup], q1, opened_nil.append q2, by rw [q3]; simp [Buffer.endUndoGroup], ?_⟩
    · rintro ch ⟨⟩
      exact ⟨rfl, rfl⟩
    · rintro ch ⟨⟩
      rfl
    · intro k' hk'
      simp at hk'; subst hk'; exact hk
    · show Past full past (w.data, .endGroup :: w.actions)
      rw [g3]; exact hpp
    · exact Path.append (.cons (.nil _) (.startGroup _)) q4
  rcases Past.after g2.close hp' hp with hh | ⟨hh, hh'⟩
  · exact fin _ (.inl rfl) (by rw [hd] at hh; exact hh)
  · exact fin _ (.inr ⟨by rw [← hbt, hh, hd], rfl⟩) hh'

end

/-! ### The search goes on -/

theorem begins_again {d : Bool} {l : List Nat} {k : Option Nat} (hl : l.Pairwise (· < ·)) (hk : (l = [] ∧ k = none) ∨ ∃ i, k = some i ∧ i < l.length) :
    Desk.begins d (k.bind (l[·]?)) l = k := by
  unfold Desk.begins
  rcases hk with ⟨rfl, rfl⟩ | ⟨i, rfl, hi⟩
  · rfl
  · rw [if_neg (by rintro rfl; cases hi)]
    simp only [Option.bind_some, List.getElem?_eq_getElem hi]
    have split : l = l.take i ++ l[i] :: l.drop (i + 1) := by simp
    have hlt : ∀ x ∈ l.take i, x < l[i] := by
      intro x hx
      obtain ⟨j, hj, rfl⟩ := List.mem_iff_getElem.1 hx
      rw [List.getElem_take]
      rw [List.length_take] at hj
      exact List.pairwise_iff_getElem.1 hl j i (by omega) hi (by omega)
    have hgt : ∀ x ∈ l.drop (i + 1), l[i] < x := by
      intro x hx
      obtain ⟨j, hj, rfl⟩ := List.mem_iff_getElem.1 hx
      rw [List.getElem_drop]
      rw [List.length_drop] at hj
      exact List.pairwise_iff_getElem.1 hl i (i + 1 + j) hi (by omega) (by omega)
    generalize hx : l[i] = x at *
    have h1 : (l.filter (· < x)).length = i := by
      rw [split, List.filter_append, List.filter_cons_of_neg (by simp), List.filter_eq_self.2 (by simpa using hlt),
        List.filter_eq_nil_iff.2 (fun a ha => by have := hgt a ha; simp; omega)]
      simp; omega
    have h2 : (l.filter (· ≤ x)).length = i + 1 := by
      rw [split, List.filter_append, List.filter_cons_of_pos (by simp), List.filter_eq_self.2 (fun a ha => by have := hlt a ha; simp; omega),
        List.filter_eq_nil_iff.2 (fun a ha => by have := hgt a ha; simp; omega)]
      simp; omega
    cases d
    · simp [h2]
    · simp [h1, hi]

section
variable (E : Env) {H : History} {d : Bool} {w w' hb : Buffer} {c c' : Nat} {k : Option Nat} {s : Ed} {b : Bool}

/-- The line or the cursor may have been changed; then it is shown, and looked for again. -/
theorem seeking_again (h : Seeking H d w hb false c k s) (hb' : b = true ∨ b = s.bufferChanged ∧ w' = s.newBuf) (hc : c' ≤ w'.numChars) :
    Wp (display E) { s with newBuf := w', cursor := c', bufferChanged := b } (fun _ s' =>
      Seeking H d w' hb false c' (Desk.begins d (k.bind ((Desk.holding (texts H) w.data)[·]?)) (Desk.holding (texts H) w'.data)) s')
      (fun _ _ => True) (· ≠ .op) := by
  obtain ⟨hs, h1, h2, h3, h4, h5, h6, -⟩ := h
  have hcl : clampCursor false w'.numChars c' = c' := by unfold clampCursor; simp; omega
  have hidx : s.historySubsetIndex = Desk.holding (texts H) w.data := by rw [hs.index, holding_index, h1, h2]
  have ht : s.searchHistoryLoc = k.bind ((Desk.holding (texts H) w.data)[·]?) := by rw [searchLoc_eq hs, hidx]
  cases b with
  | false =>
    obtain ⟨-, rfl⟩ := hb'.resolve_left (by simp)
    have e : Desk.begins d (k.bind ((Desk.holding (texts H) w.data)[·]?)) (Desk.holding (texts H) s.newBuf.data) = k := by
      rw [h2]
      refine begins_again ?_ ?_
      · rw [← hidx, hs.index]; exact (C19_search_index _ _).1
      · rw [← hidx]; exact hs.dom
    rw [e]
    exact display_seeking E (d := d) ⟨hs.search, hs.dir, hs.loc, hs.valid, rfl, hs.index, hs.subLoc, hs.dom⟩ h1 rfl h3 h4 rfl h6 hcl
  | true =>
    generalize hs2 : ({ s with newBuf := w', cursor := c', bufferChanged := true } : Ed) = s2
    have hp : pre s2 = refreshed d s2 := by
      subst hs2
      unfold pre
      rw [if_pos (by rw [Bool.and_true]; exact hs.search)]
      rw [show ({ s with newBuf := w', cursor := c', bufferChanged := true } : Ed).forwardSearch = d from hs.dir]
    have hpp : pre (refreshed d s2) = refreshed d s2 := by simp [pre, refreshed]
    have key : ∀ {Q : Unit → Ed → Prop}, Wp (display E) (refreshed d s2) Q (fun _ _ => True) (· ≠ .op) → Wp (display E) s2 Q (fun _ _ => True) (· ≠ .op) := by
      intro Q h
      rw [display_wp'] at h ⊢
      rw [hpp] at h
      rw [hp]
      exact h
    refine key ?_
    have hk : (refreshed d s2).historySubsetLoc =
        Desk.begins d (k.bind ((Desk.holding (texts H) w.data)[·]?)) (Desk.holding (texts H) w'.data) := by
      have hs' : (s.history.searchIndex w').Pairwise (· < ·) := (C19_search_index _ _).1
      have e : s.history.searchIndex w' = Desk.holding (texts H) w'.data := by rw [holding_index, h1]
      have := begins_eq d s.searchHistoryLoc hs'
      rw [ht, e] at this
      rw [← this, ← ht, ← e]
      subst hs2
      rfl
    have hr := refreshed_srch d s2
    rw [hk] at hr
    subst hs2
    exact display_seeking E hr h1 rfl h3 h4 rfl h6 hcl

/-- The list of completions and the time do not matter. -/
theorem Seeking.as {e : Bool} (h : Seeking H d w hb e c k s) (x : Option _) (n : Nat) :
    Seeking H d w hb e c k { s with showCompletionsHint := x, tick := n } := by
  obtain ⟨h0, h1, h2, h3, h4, h5, h6, h7⟩ := h
  exact ⟨⟨h0.1, h0.2, h0.3, h0.4, h0.5, h0.6, h0.7, h0.8⟩, h1, h2, h3, h4, h5, h6, h7⟩

end

section
variable [Around] (E : Env) {H : History} {d : Bool} {hb : Buffer} {k : Option Nat} {v : Vi} {s : Ed} {pen : Pen} {full : Bool}
  {last : Option (Char × CharMovement)}

/-- A key while a search is under way. -/
theorem hunt_core {key : Key} (hok : ∀ s : Ed, s.history = H → s.curHistoryLoc = none → s.histBuf = hb → Around.ok (Editor.quiet s))
    (h : Seeking H d s.newBuf hb false s.cursor k s) (hi : Inks pen full last (v, Editor.quiet s)) (hk : WritingKey key) :
    Wp (handleKeyCore E key) (v, s) (fun _ t' => ∃ pen', Pen.Step key pen pen' ∧
      Seeking H d t'.2.newBuf hb false t'.2.cursor
        (Desk.begins d (k.bind ((Desk.holding (texts H) pen.text)[·]?)) (Desk.holding (texts H) pen'.text)) t'.2 ∧
      Inks pen' full last (t'.1, Editor.quiet t'.2)) T2 (· ≠ .op) := by
  have hl : s.curHistoryLoc = none := h.srch.loc
  have hbuf : ∀ {s1 : Ed}, s1.curHistoryLoc = none → s1.curBuf? = some s1.newBuf := by intro s1 h; unfold Ed.curBuf?; rw [h]
  have hwork : ∀ {s1 : Ed}, s1.curHistoryLoc = none → workBuf s1 = some s1.newBuf := by intro s1 h; unfold workBuf; rw [h]
  have hat : At (Editor.quiet s) pen.left pen.right := hi.here.here
  have hd : s.newBuf.data = pen.left ++ pen.right := by
    obtain ⟨b, h1, h2⟩ := text?_eq.mp hat.1
    rw [hbuf (s1 := Editor.quiet s) hl] at h1; cases h1
    exact h2
  have hc : s.cursor = pen.left.length := hat.2
  have stack : v.modeStack = [.insert] := hi.stack
  -- the state after it
  have after : ∀ {s' : Ed} {w' : Buffer} {l r : Text} {k' : Option Nat}, Seeking H d w' hb false l.length k' s' → w'.data = l ++ r →
      Open false (Editor.quiet s') l r ∧ s'.newBuf = w' ∧ s'.cursor = l.length ∧ workBuf (Editor.quiet s') = some w' := by
    intro s' w' l r k' h' hd'
    have hl' : s'.curHistoryLoc = none := h'.srch.loc
    refine ⟨⟨rfl, h'.ne, hok s' h'.hist hl' h'.copy, text?_eq.mpr ⟨w', ?_, hd'⟩, h'.cursor⟩, h'.new, h'.cursor, ?_⟩
    · rw [hbuf (s1 := Editor.quiet s') hl']
      exact congrArg some h'.new
    · rw [hwork (s1 := Editor.quiet s') hl']
      exact congrArg some h'.new
  have shown : ∀ {v' : Vi} {w' : Buffer} {b : Bool} {l r : Text}, (b = true ∨ b = s.bufferChanged ∧ w' = s.newBuf) → w'.data = l ++ r →
      (∀ s', Open false (Editor.quiet s') l r → workBuf (Editor.quiet s') = some w' →
        ∃ pen', Pen.Step key pen pen' ∧ pen'.left = l ∧ pen'.right = r ∧ Inks pen' full last (v', Editor.quiet s')) →
      Wp (ed (display E) : ViM Unit) (v', { s with newBuf := w', cursor := l.length, bufferChanged := b }) (fun _ t' => ∃ pen', Pen.Step key pen pen' ∧
        Seeking H d t'.2.newBuf hb false t'.2.cursor
          (Desk.begins d (k.bind ((Desk.holding (texts H) pen.text)[·]?)) (Desk.holding (texts H) pen'.text)) t'.2 ∧
        Inks pen' full last (t'.1, Editor.quiet t'.2)) T2 (· ≠ .op) := by
    intro v' w' b l r g2 g3 fin
    rw [wp_ed]
    refine wp_mono (seeking_again E (c' := l.length) h g2 (by unfold Buffer.numChars; rw [g3, List.length_append]; omega)) (fun _ s' h' => ?_)
      (fun _ _ h => h) (fun _ h => h)
    obtain ⟨q1, q2, q3, q4⟩ := after h' g3
    obtain ⟨pen', p1, p2, p3, p4⟩ := fin s' q1 q4
    refine ⟨pen', p1, ?_, p4⟩
    dsimp only
    rw [q2, q3]
    unfold Pen.text
    rw [p2, p3, ← g3, ← hd]
    exact h'
  rcases hk with hk | hk | hk
  · by_cases hm : pen.moved = true
    · have hmv : v.movementReset = true := (show v.movementReset = pen.moved from hi.moved).trans hm
      obtain ⟨m, he⟩ := core_type E (n := 7) hk
      let v1 : Vi := { v with lastCommand := [], movementReset := false, lastInsert := some (.char 'i') }
      let s1 : Ed := { s with newBuf := s.newBuf.endUndoGroup.startUndoGroup, bufferChanged := true }
      have change : ∀ (f : Buffer → Buffer) {s2 : Ed}, s2.curHistoryLoc = none →
          (ed (onBuf f) : ViM Unit) (v, s2) = .ok () (v, { s2 with bufferChanged := true, newBuf := f s2.newBuf }) := by
        intro f s2 h2
        unfold KM.ed M.zoom onBuf curBufMut
        rw [hwork h2]
        dsimp only
        unfold setCur
        rw [h2]
      have reset : resetInsert (v, s) = .ok () (v1, s1) := by
        unfold resetInsert
        show (if v.movementReset = true then _ else _ : ViM Unit) (v, s) = _
        rw [hmv, if_pos rfl, bind_ok (change _ hl),
          bind_ok (change _ (s2 := { s with bufferChanged := true, newBuf := s.newBuf.endUndoGroup }) hl)]
        rfl
      obtain ⟨w', es, b, g1, g2, g3, g4, g5, g6⟩ := type_run E (n := 7) (v := v1) (s := s1) (l := pen.left) (r := pen.right) hk stack rfl hl hd hc
      have hbt : b = true := g2.elim id fun h => h.1
      refine wp_from (m' := ed (display E)) (((he v s stack).trans (bind_ok reset)).trans ((he v1 s1 stack).symm.trans g1)) ?_
      refine shown (.inl hbt) g3 fun s' q1 q4 => hi.types_anew hk hm rfl q1 fun w hw => ?_
      rw [hwork (s1 := Editor.quiet s) hl] at hw
      cases hw
      exact ⟨w', es, q4, g4, g5, g6⟩
    · have hm : pen.moved = false := by simpa using hm
      have hmv : v.movementReset = false := (show v.movementReset = pen.moved from hi.moved).trans hm
      obtain ⟨w', es, b, g1, g2, g3, g4, g5, g6⟩ := type_run E (n := 7) (l := pen.left) (r := pen.right) hk stack hmv hl hd hc
      refine wp_from (m' := ed (display E)) g1 ?_
      refine shown g2 g3 fun s' q1 q4 => hi.types_on hk hm rfl q1 fun w hw => ?_
      rw [hwork (s1 := Editor.quiet s) hl] at hw
      cases hw
      exact ⟨w', es, q4, g4, g5, g6⟩
  · refine wp_from (m' := ed (display E)) (move_run E (n := 7) hk stack hl hd hc) ?_
    have hmt : s.newBuf.data = (moveKey (pen.left, pen.right) key).1 ++ (moveKey (pen.left, pen.right) key).2 := by
      rw [hd]
      rcases hk with rfl | rfl | rfl | rfl
      · simp [moveKey, List.dropLast_eq_take, ← List.append_assoc]
      · simp [moveKey]
      · simp [moveKey]
      · show _ = pen.left ++ pen.right.take 1 ++ pen.right.drop 1
        rw [List.append_assoc, List.take_append_drop]
    refine shown (w' := s.newBuf) (b := s.bufferChanged) (.inr ⟨rfl, rfl⟩) hmt fun s' q1 q4 => ?_
    refine ⟨_, .move hk, rfl, rfl, hi.grew ⟨rfl, fun b0 h0 => ⟨s.newBuf, [], q4, rfl, ?_, ?_⟩⟩ q1 rfl rfl rfl rfl rfl rfl (fun hc => absurd rfl hc) rfl⟩
    all_goals
      rw [hwork (s1 := Editor.quiet s) hl] at h0
      cases h0
    · rfl
    · exact .nil _
  · unfold Wp
    rw [show handleKeyCore E key (v, s) = _ from core_inert E (n := 7) hk (.inl stack)]
    refine ⟨pen, .inert hk, ?_, hi⟩
    have e : Desk.begins d (k.bind ((Desk.holding (texts H) pen.text)[·]?)) (Desk.holding (texts H) pen.text) = k := by
      have hidx : s.historySubsetIndex = Desk.holding (texts H) pen.text := by rw [h.srch.index, holding_index, h.hist, hd]; rfl
      rw [← hidx]
      exact begins_again (by rw [h.srch.index]; exact (C19_search_index _ _).1) h.srch.dom
    rw [e]
    exact h

/-- The whole key. -/
theorem hunt_key {key : Key} {comp : Text → List Text} (hok : ∀ s : Ed, s.history = H → s.curHistoryLoc = none → s.histBuf = hb → Around.ok (Editor.quiet s))
    (h : Seeking H d s.newBuf hb false s.cursor k s) (hi : Inks pen full last (v, Editor.quiet s)) (hk : WritingKey key)
    (hr : key = .right → pen.right ≠ []) :
    Wp (Spec.press keyMap E [(key, comp)]) (v, s) (fun _ t' => ∃ pen', Pen.Step key pen pen' ∧
      Seeking H d t'.2.newBuf hb false t'.2.cursor
        (Desk.begins d (k.bind ((Desk.holding (texts H) pen.text)[·]?)) (Desk.holding (texts H) pen'.text)) t'.2 ∧
      Inks pen' full last (t'.1, Editor.quiet t'.2)) T2 (· ≠ .op) := by
  have hse : Seen s key := by
    rcases hk with hk | hk | hk
    · exact types_seen hk s
    · have := moves_seen (s := Editor.quiet s) hk hi.here fun e => .inl (hr e)
      exact ⟨this.1, this.2, this.3, this.4, this.5, this.6, this.7, this.8, this.9⟩
    · exact inert_seen hk s
  unfold Spec.press
  rw [wp_bind]
  refine handleKey_seen E hse h.buf comp (wp_mono (hunt_core E hok h hi hk) (fun _ t1 ⟨pen', h1, h2, h3⟩ => ?_) (fun _ _ h => h) (fun _ h => h))
  rw [wp_ed]
  unfold skipCompletionsHint
  rw [wp_modify, wp_ed, wp_flush]
  exact ⟨fun _ => ⟨pen', h1, h2.as _ _, h3.same rfl rfl rfl rfl rfl rfl ⟨rfl, rfl, rfl, rfl, fun _ => rfl, rfl, id, fun _ => rfl⟩⟩, fun _ => trivial⟩

/-- The pen at another place with the same line and log. -/
theorem inks_held {A B : Around} {s' : Ed} (hi : @Inks A pen full last (v, s)) (ho : @Open B false s' pen.left pen.right) (hw : workBuf s' = workBuf s) :
    @Inks B pen full last (v, s') := by
  obtain ⟨h1, -, h3, h4, h5, h6, h7, h8, h9, h10, h11⟩ := hi
  exact @Inks.mk B _ _ _ _ h1 ho h3 h4 h5 h6 h7 h8 h9 h10 (by dsimp only; rw [hw]; exact h11)

/-- The line during a search, as if there were none. -/
theorem seeking_open {w : Buffer} {c : Nat} {l r : Text} (hok : ∀ s : Ed, s.history = H → s.curHistoryLoc = none → s.histBuf = hb → Around.ok (Editor.quiet s))
    (h : Seeking H d w hb false c k s) (hd : w.data = l ++ r) (hc : c = l.length) :
    Open false (Editor.quiet s) l r ∧ workBuf (Editor.quiet s) = some w := by
  have hl : (Editor.quiet s).curHistoryLoc = none := h.srch.loc
  refine ⟨⟨rfl, h.ne, hok s h.hist hl h.copy, text?_eq.mpr ⟨w, ?_, hd⟩, h.cursor.trans hc⟩, ?_⟩
  · unfold Ed.curBuf?; rw [hl]; exact congrArg some h.new
  · unfold workBuf; rw [hl]; exact congrArg some h.new

theorem hunt_presses (hok : ∀ s : Ed, s.history = H → s.curHistoryLoc = none → s.histBuf = hb → Around.ok (Editor.quiet s)) :
    ∀ (more : List Key) {pen : Pen} {k : Option Nat} {t : Vi × Ed} {kcs : List (Key × (Text → List Text))},
    Seeking H d t.2.newBuf hb false t.2.cursor k t.2 → Inks pen full last (t.1, Editor.quiet t.2) → Hunts.Can (texts H) d more (pen, k) →
    kcs.map Prod.fst = more →
    Wp (Spec.press keyMap E kcs) t (fun _ t' => ∃ pen' k', Hunts (texts H) d more (pen, k) (pen', k') ∧
      Seeking H d t'.2.newBuf hb false t'.2.cursor k' t'.2 ∧ Inks pen' full last (t'.1, Editor.quiet t'.2)) T2 (· ≠ .op)
  | [], pen, k, t, kcs, h, hi, _, hk => by
    obtain rfl : kcs = [] := by simpa using hk
    show Wp (pure ()) t _ _ _
    rw [wp_pure]
    exact ⟨pen, k, .nil _, h, hi⟩
  | key :: more, pen, k, (v, s), kcs, h, hi, hc, hk => by
    obtain ⟨⟨k', comp⟩, ks, rfl, h1, h2⟩ := List.map_eq_cons_iff.mp hk
    dsimp only at h1 h hi
    subst h1
    obtain ⟨hc1, hc2⟩ := hc
    have hat : At (Editor.quiet s) pen.left pen.right := hi.here.here
    have hl : (Editor.quiet s).curHistoryLoc = none := h.srch.loc
    have hd : s.newBuf.data = pen.left ++ pen.right := by
      obtain ⟨b, h1, h2⟩ := text?_eq.mp hat.1
      unfold Ed.curBuf? at h1
      rw [hl] at h1; cases h1
      exact h2
    refine (wp_congr (presses_append E [(k', comp)] ks (v, s))).mpr ?_
    rw [wp_bind]
    rcases hc1 with ⟨f, rfl⟩ | ⟨hw, hr⟩
    · have hcl : clampCursor false s.newBuf.numChars s.cursor = s.cursor := by
        have := hat.2
        unfold clampCursor Buffer.numChars
        rw [hd, List.length_append, show s.cursor = pen.left.length from this]
        simp
      refine wp_mono (search_press E f comp h.buf (seeking_next E f h hcl)) (fun _ t1 ⟨g1, g2⟩ => ?_) (fun _ _ h => h) (fun _ h => h)
      obtain ⟨v1, s1⟩ := t1
      obtain rfl : v1 = v := g1
      dsimp only at g2
      obtain ⟨q1, q2⟩ := seeking_open hok g2 hd hat.2
      have e : (Desk.holding (texts H) s.newBuf.data) = Desk.holding (texts H) pen.text := by rw [hd]; rfl
      rw [e] at g2
      refine wp_mono (hunt_presses hok more (t := (v1, s1)) (k := k.map (searchStep (Desk.holding (texts H) pen.text).length · f))
        (by dsimp only; rw [g2.new, g2.cursor]; exact g2) (inks_held hi q1 (q2.trans ?_)) (hc2 _ (.seek (.nil _))) h2)
        (fun _ t' ⟨p', k', p1, p2, p3⟩ => ⟨p', k', .seek p1, p2, p3⟩) (fun _ _ h => h) (fun _ h => h)
      unfold workBuf; rw [hl]; rfl
    · refine wp_mono (hunt_key E hok h hi hw hr) (fun _ t1 ⟨pen1, g1, g2, g3⟩ => ?_) (fun _ _ h => h) (fun _ h => h)
      exact wp_mono (hunt_presses hok more (t := t1) g2 g3 (hc2 _ (.write hw g1 (.nil _))) h2)
        (fun _ t' ⟨p', k', p1, p2, p3⟩ => ⟨p', k', .write hw g1 p1, p2, p3⟩) (fun _ _ h => h) (fun _ h => h)

end
end Vi
end Liner
