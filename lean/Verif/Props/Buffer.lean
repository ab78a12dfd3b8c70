import Verif.Proof.Undo
import Mathlib.Data.List.Induction
/-
Properties C01-C10 of the line buffer (src/buffer.rs).
`none` as the result of an operation is a panic of the Rust code.
-/

namespace Liner.Props
open Liner Liner.Spec

/-! ### C01: edits splice exactly -/

/-- `insert` puts the text between the characters before and from `start`. -/
theorem C01_insert (b : Buffer) (pre post text : Text) (h : b.data = pre ++ post) :
    ∃ b', b.insert pre.length text = some b' ∧ b'.data = pre ++ text ++ post :=
  ⟨_, Buffer.insert_spec b pre text post h, rfl⟩

/-- `insert` panics exactly when a non-empty text is put beyond the end. -/
theorem C01_insert_panics_iff (b : Buffer) (start : Nat) (text : Text) :
    b.insert start text = none ↔ b.data.length < start ∧ text ≠ [] := by
  rw [← insertRaw_none]
  simp only [Buffer.insert, Action.doOn]
  cases insertRaw b.data start text <;> simp

/-- `remove` deletes exactly the half-open range and returns its length. -/
theorem C01_remove (b : Buffer) (pre mid post : Text) (h : b.data = pre ++ mid ++ post) :
    ∃ b', b.remove pre.length (pre.length + mid.length) = some (mid.length, b') ∧
      b'.data = pre ++ post :=
  ⟨_, Buffer.remove_spec b pre mid post h, rfl⟩

/-- `remove` panics exactly when the range is not within the text. -/
theorem C01_remove_panics_iff (b : Buffer) (start stop : Nat) :
    b.remove start stop = none ↔ ¬ (start ≤ stop ∧ stop ≤ b.data.length) := by
  rw [← removeRaw_none]
  unfold Buffer.remove
  cases removeRaw b.data start stop <;> simp

/-- Every editing call changes the text as its specification says, when in range. -/
theorem C01_edits (b : Buffer) (e : Edit) (d : Text) (h : e.apply b.data = some d) :
    ∃ b', runEdit b e = some b' ∧ b'.data = d := by
  obtain ⟨a, _, _, hr⟩ := runEdit_spec b e d h
  exact ⟨_, hr, rfl⟩

theorem C01_truncate_panics_iff (b : Buffer) (num : Nat) :
    b.truncate num = none ↔ b.data.length < num := by
  unfold Buffer.truncate
  rw [Option.map_eq_none_iff, C01_remove_panics_iff]
  omega

theorem C01_insert_from_buffer_panics_iff (b other : Buffer) :
    b.insertFromBuffer other = none ↔ other.data.length < b.data.length := by
  unfold Buffer.insertFromBuffer
  simp only []
  split
  · rw [C01_insert_panics_iff]; omega
  · simp; omega

/-- `copy_buffer` never panics and makes the texts equal; the other buffer's history is irrelevant. -/
theorem C01_copy_buffer (b other : Buffer) :
    ∃ b', b.copyBuffer other = some b' ∧ b'.data = other.data := by
  have h1 := Buffer.remove_eq b 0 b.data.length ⟨by omega, by omega⟩
  simp only [Buffer.copyBuffer, h1]
  simp only [List.take_zero, List.drop_length, List.append_nil]
  rw [Buffer.insert_eq _ 0 other.data (by simp)]
  exact ⟨_, rfl, by simp⟩

example : ∃ b : Buffer, b.data = "ab".toList ++ "cd".toList := ⟨Buffer.ofText _, rfl⟩
example : (Edit.insertFrom "abcd".toList).apply "xy".toList = some "xycd".toList := by decide
example : (Edit.truncate 1).apply "xy".toList = some "x".toList := by decide

/-! ### C02: undo reverses the last edit -/

/-- Whatever the buffer and its log (reachable or not), the last edit is undone by one `undo`. -/
theorem C02_undo_last_edit (b : Buffer) (e : Edit) (d : Text) (h : e.apply b.data = some d) :
    ∃ b' b'', runEdit b e = some b' ∧ b'.data = d ∧
      b'.undo = some (true, b'') ∧ b''.data = b.data := by
  obtain ⟨a, ha, hef, hr⟩ := runEdit_spec b e d h
  have hc := Buffer.undoCut_chunk (.edit a ha) b.actions
  simp only [List.reverse_cons, List.reverse_nil, List.nil_append, List.cons_append] at hc
  refine ⟨_, ⟨b.data, b.actions, [a]⟩, hr, rfl, ?_, rfl⟩
  simp [Buffer.undo, Buffer.undoLoop_eq, hc, undoAll, hef.undo]

/-- ... and one `redo` then brings the edit back. -/
theorem C02_redo_last_edit (b : Buffer) (e : Edit) (d : Text) (h : e.apply b.data = some d) :
    ∃ b' b'' b''', runEdit b e = some b' ∧ b'.undo = some (true, b'') ∧
      b''.redo = some (true, b''') ∧ b'''.data = d := by
  obtain ⟨a, ha, hef, hr⟩ := runEdit_spec b e d h
  have hc := Buffer.undoCut_chunk (.edit a ha) b.actions
  have hc2 := Buffer.redoCut_chunk (.edit a ha) []
  simp only [List.reverse_cons, List.reverse_nil, List.nil_append, List.cons_append,
    List.append_nil] at hc hc2
  refine ⟨_, ⟨b.data, b.actions, [a]⟩, ⟨d, a :: b.actions, []⟩, hr, ?_, ?_, rfl⟩
  · simp [Buffer.undo, Buffer.undoLoop_eq, hc, undoAll, hef.undo]
  · simp [Buffer.redo, Buffer.redoLoop_eq, hc2, doAll, hef.doOn]

example : (Edit.insert 1 "zz".toList).apply "ab".toList = some "azzb".toList := by decide

/-! ### C03: undo and redo behave as a list of snapshots -/

/-- The whole undo machinery refines a list of snapshots: after any history of edits, (nested,
closed) groups, copies, undos, redos and reverts, the buffer does not panic, has the text the
snapshot machine says, and the next undo / redo / revert gives the text the snapshot machine says;
undo (redo) reports success whenever there is a snapshot to go to. -/
theorem C03_refines_snapshots (d : Text) (steps : List Step) (hfull : ∀ st ∈ steps, st.Full)
    (s : Snap) (h : (Snap.init d).run steps = some s) :
    ∃ b, runSteps (Buffer.ofText d) steps = some b ∧ b.data = s.cur ∧
      (∃ f b', b.undo = some (f, b') ∧ b'.data = s.undo.cur ∧ (s.past ≠ [] → f = true)) ∧
      (∃ f b', b.redo = some (f, b') ∧ b'.data = s.redo.cur ∧ (s.future ≠ [] → f = true)) ∧
      (∃ f b', b.revert = some (f, b') ∧ b'.data = s.revert.cur) := by
  obtain ⟨b, hb, hr⟩ := rep_steps steps (rep_init d) hfull h
  refine ⟨b, hb, hr.data, ?_, ?_, ?_⟩
  · obtain ⟨b', h1, h2⟩ := hr.undo
    refine ⟨_, b', h1, h2.data, ?_⟩
    intro hp
    cases hs : s.past with
    | nil => exact absurd hs hp
    | cons p ps =>
      have hpast := hr.past
      cases hact : b.actions with
      | cons _ _ => rfl
      | nil =>
        rw [hact, hs] at hpast
        generalize he : ([] : List Action) = as at hpast
        cases hpast with
        | empty => cases he
        | chunk h hc _ =>
          have := congrArg List.length he
          cases hc <;> simp at this
  · obtain ⟨b', h1, h2⟩ := hr.redo
    refine ⟨_, b', h1, h2.data, ?_⟩
    intro hp
    cases hs : s.future with
    | nil => exact absurd hs hp
    | cons p ps =>
      have hfut := hr.future
      cases hact : b.undone with
      | cons _ _ => rfl
      | nil =>
        rw [hact, hs] at hfut
        generalize he : ([] : List Action) = as at hfut
        cases hfut with
        | empty => cases he
        | chunk hc _ _ =>
          have := congrArg List.length he
          cases hc <;> simp at this
  · obtain ⟨b', h1, h2⟩ := hr.revert
    exact ⟨_, b', h1, h2.data⟩

theorem snap_undo_redo (k : Nat) : ∀ s : Snap, k ≤ s.past.length →
    ∃ s1, s.run (List.replicate k .undo) = some s1 ∧
      s1.run (List.replicate k .redo) = some s := by
  induction k with
  | zero => intro s _; exact ⟨s, rfl, rfl⟩
  | succ k ih =>
    intro s hk
    cases s with
    | mk past cur future =>
      cases past with
      | nil => simp at hk
      | cons p ps =>
        obtain ⟨s1, h1, h2⟩ := ih ⟨ps, p, cur :: future⟩ (by simpa using hk)
        refine ⟨s1, by simpa [List.replicate_succ, Snap.run, Snap.step, Snap.undo] using h1, ?_⟩
        have run_append : ∀ (xs ys : List Step) (t : Snap),
            t.run (xs ++ ys) = (t.run xs).bind fun t' => t'.run ys := by
          intro xs ys
          induction xs with
          | nil => intro t; rfl
          | cons x xs ihx =>
            intro t
            simp only [List.cons_append, Snap.run]
            cases t.step x with
            | none => rfl
            | some t' => exact ihx t'
        rw [List.replicate_succ', run_append, h2]
        rfl

/-- `k` undos followed by `k` redos give back the text, for every `k` up to the number of undoable
steps. -/
theorem C03_undo_then_redo (d : Text) (steps : List Step) (hfull : ∀ st ∈ steps, st.Full)
    (s : Snap) (h : (Snap.init d).run steps = some s) (k : Nat) (hk : k ≤ s.past.length) :
    ∃ b b1 b2, runSteps (Buffer.ofText d) steps = some b ∧
      runSteps b (List.replicate k .undo) = some b1 ∧
      runSteps b1 (List.replicate k .redo) = some b2 ∧ b2.data = b.data := by
  obtain ⟨b, hb, hr⟩ := rep_steps steps (rep_init d) hfull h
  obtain ⟨s1, h1, h2⟩ := snap_undo_redo k s hk
  obtain ⟨b1, hb1, hr1⟩ := rep_steps (List.replicate k .undo) hr
    (by intro st hst; rw [List.eq_of_mem_replicate hst]; trivial) h1
  obtain ⟨b2, hb2, hr2⟩ := rep_steps (List.replicate k .redo) hr1
    (by intro st hst; rw [List.eq_of_mem_replicate hst]; trivial) h2
  exact ⟨b, b1, b2, hb, hb1, hb2, by rw [hr2.data, hr.data]⟩

/-- A non-trivial history that meets the hypotheses of the C03 theorems. -/
example : ∃ s, (Snap.init "x".toList).run
      [.block (.group [.edit (.insert 1 "ab".toList), .group [.edit (.remove 0 1)]]), .emptyGroup,
        .undo, .redo, .copy "q".toList, .block (.edit (.insert 0 "z".toList)), .undo] = some s ∧
      s.past.length = 3 ∧ s.cur = "q".toList ∧ s.future = ["zq".toList] := by
  exact ⟨_, rfl, by decide, by decide, by decide⟩
example : (Step.block (.group [.edit (.insert 1 "ab".toList), .group [.edit (.remove 0 1)]])).Full := by
  simp [Step.Full, Block.Full, Block.FullAll]

/-! ### C04: a closed group is one undo step -/

/-- A group whose nested groups are all non-empty is undone by one `undo` and restored by one
`redo`, on any buffer whatsoever.
Partial: the claim asks it of every nesting; the code breaks it when a nested group is empty, see
`C04_nested_empty_group_violation`. -/
theorem C04_group_one_step_partial (b : Buffer) (bs : List Block) (hne : bs ≠ [])
    (hfull : Block.FullAll bs) (d : Text) (h : Block.applyAll bs b.data = some d) :
    ∃ b1 b2 b3, runBlock b (.group bs) = some b1 ∧ b1.data = d ∧
      b1.undo = some (true, b2) ∧ b2.data = b.data ∧
      b2.redo = some (true, b3) ∧ b3.data = d := by
  obtain ⟨x, hx, hp, hr⟩ := runBlock_spec (.group bs) ⟨hne, hfull⟩ b d h
  have hc := Buffer.undoCut_chunk hx b.actions
  have hc2 := Buffer.redoCut_chunk hx []
  rw [List.append_nil] at hc2
  have hn : x ≠ [] := by intro h0; subst h0; cases hx
  refine ⟨_, ⟨b.data, b.actions, x⟩, ⟨d, x.reverse ++ b.actions, []⟩, hr, rfl, ?_, rfl, ?_, rfl⟩
  · simp [Buffer.undo, Buffer.undoLoop_eq, hc, hp.toP.undoAll, hn]
  · simp [Buffer.redo, Buffer.redoLoop_eq, hc2, hp.doAll, hn]

/-- A flat group (no nesting), the only kind the library itself makes, is always one step. -/
theorem C04_flat_group_one_step (b : Buffer) (es : List Edit) (hne : es ≠ []) (d : Text)
    (h : Block.applyAll (es.map Block.edit) b.data = some d) :
    ∃ b1 b2 b3, runBlock b (.group (es.map Block.edit)) = some b1 ∧ b1.data = d ∧
      b1.undo = some (true, b2) ∧ b2.data = b.data ∧
      b2.redo = some (true, b3) ∧ b3.data = d := by
  apply C04_group_one_step_partial b _ (by simpa using hne) _ d h
  clear h hne
  induction es with
  | nil => trivial
  | cons e es ih => exact ⟨trivial, ih⟩

/-- A group in which nothing happened is invisible to undo. -/
theorem C04_empty_group_skipped (b : Buffer) (e : Edit) (d : Text) (h : e.apply b.data = some d) :
    ∃ b1 b2, runEdit b e = some b1 ∧
      (b1.startUndoGroup.endUndoGroup).undo = some (true, b2) ∧ b2.data = b.data := by
  obtain ⟨a, ha, hef, hr⟩ := runEdit_spec b e d h
  have hc := Buffer.undoCut_chunk (.edit a ha) b.actions
  simp only [List.reverse_cons, List.reverse_nil, List.nil_append, List.cons_append] at hc
  refine ⟨_, ⟨b.data, b.actions, a :: .startGroup :: .endGroup :: []⟩, hr, ?_, rfl⟩
  have hu := hef.undo
  simp only [Buffer.undo, Buffer.undoLoop_eq, Buffer.startUndoGroup, Buffer.endUndoGroup,
    Buffer.undoCut_empty, hc, undoAll]
  simp only [Action.undo.eq_3, Action.undo.eq_4, hu]
  rfl

/-- The code loses count of the edits of a group when its first nested group is empty, so one undo
takes the previous step away too: the text was "a" before the group, and `undo` gives "". -/
theorem C04_nested_empty_group_violation :
    ∃ b0 b1 b2, runEdit Buffer.new (.insert 0 "a".toList) = some b0 ∧
      runBlock b0 (.group [.group [], .edit (.insert 1 "b".toList)]) = some b1 ∧
      b1.data = "ab".toList ∧ b1.undo = some (true, b2) ∧ b2.data = [] :=
  ⟨_, _, _, rfl, rfl, by decide, rfl, by decide⟩

/-- Redo is then not the inverse of undo either. -/
theorem C03_nested_empty_group_redo_violation :
    ∃ b0 b1 b2 b3, runEdit Buffer.new (.insert 0 "a".toList) = some b0 ∧
      runBlock b0 (.group [.group [], .edit (.insert 1 "b".toList)]) = some b1 ∧
      b1.undo = some (true, b2) ∧ b2.redo = some (true, b3) ∧ b3.data ≠ b1.data :=
  ⟨_, _, _, _, rfl, rfl, rfl, rfl, by decide⟩

/-- A group that was opened and not closed makes the next undo take two edits: this is why the C03
theorems ask for closed groups. -/
theorem C03_open_group_violation :
    ∃ b1 b2 b3, runEdit Buffer.new (.insert 0 "a".toList) = some b1 ∧
      runEdit b1 (.insert 1 "b".toList) = some b2 ∧
      b2.startUndoGroup.undo = some (true, b3) ∧ b3.data = [] :=
  ⟨_, _, _, rfl, rfl, rfl, by decide⟩

example : Block.applyAll [.edit (.insert 0 "ab".toList), .group [.edit (.remove 0 1)]] "x".toList
    = some "bx".toList := by decide

/-! ### C05: revert restores the original text -/

/-- Whatever was done since the buffer was created or its log was cleared (including unbalanced
groups), `revert` restores that text, empties the log and reports whether anything was recorded. -/
theorem C05_revert (d0 : Text) (b : Buffer) (h : Reach d0 b) :
    ∃ b', b.revert = some (!b.actions.isEmpty, b') ∧ b'.data = d0 ∧ b'.actions = [] := by
  obtain ⟨b', h1, h2, h3⟩ := (reach_inv h).revert
  refine ⟨b', h1, ?_, h3⟩
  have := h2.past
  rw [h3] at this
  cases this; rfl

/-- A history with an unclosed group, meeting the hypothesis. -/
example : ∃ b, Reach "x".toList b ∧ b.data = "yx".toList := by
  refine ⟨_, .op (.edit (.insert 0 "y".toList)) (.op .startGroup (.init _) trivial rfl) (by show Option.isSome _ = true; decide) rfl,
    by decide⟩

/-! ### C06: undo, redo and revert never panic -/

theorem C06_no_panic (d0 : Text) (b : Buffer) (h : Reach d0 b) :
    b.undo ≠ none ∧ b.redo ≠ none ∧ b.revert ≠ none := by
  have hi := reach_inv h
  obtain ⟨b1, h1, _⟩ := hi.undo
  obtain ⟨b2, h2, _⟩ := hi.redo
  obtain ⟨b3, h3, _⟩ := hi.revert
  simp [h1, h2, h3]

/-- No in-range operation ever panics on a reachable buffer. -/
theorem C06_in_range_ops_no_panic (d0 : Text) (b : Buffer) (h : Reach d0 b) (op : RawOp)
    (hr : op.InRange b.data) : runRaw b op ≠ none := by
  obtain ⟨b', h1, _⟩ := (reach_inv h).raw op hr
  simp [h1]

/-- Out-of-range calls are what can break it: inserting an empty text beyond the end is accepted,
and the next undo panics. -/
theorem C06_empty_insert_out_of_range_violation :
    ∃ b, Buffer.new.insert 100 [] = some b ∧ b.undo = none := ⟨_, rfl, by decide⟩

/-! ### C07: a fresh edit discards the redo log -/

theorem C07_edit_discards_redo (b : Buffer) (e : Edit) (d : Text) (h : e.apply b.data = some d) :
    ∃ b', runEdit b e = some b' ∧ b'.redo = some (false, b') := by
  obtain ⟨a, _, _, hr⟩ := runEdit_spec b e d h
  exact ⟨_, hr, rfl⟩

/-- ... also after further group markers, until an undo happens. -/
theorem C07_edit_discards_redo_markers (b : Buffer) (e : Edit) (d : Text)
    (h : e.apply b.data = some d) (marks : List Bool) :
    ∃ b', runEdit b e = some b' ∧
      let b'' := marks.foldl (fun x m => if m then x.startUndoGroup else x.endUndoGroup) b'
      b''.redo = some (false, b'') := by
  obtain ⟨a, _, _, hr⟩ := runEdit_spec b e d h
  refine ⟨_, hr, ?_⟩
  have key : ∀ (marks : List Bool) (x : Buffer), x.undone = [] →
      (marks.foldl (fun x m => if m then x.startUndoGroup else x.endUndoGroup) x).undone = [] := by
    intro marks
    induction marks with
    | nil => intro x h; exact h
    | cons m ms ih =>
      intro x h
      apply ih
      cases m <;> simpa [Buffer.startUndoGroup, Buffer.endUndoGroup] using h
  have := key marks ⟨d, a :: b.actions, []⟩ rfl
  generalize marks.foldl _ _ = z at this
  cases z
  simp_all [Buffer.redo, Buffer.redoLoop]

/-! ### C08: views agree with the text -/

theorem C08_roundtrip (t : Text) : (Buffer.ofText t).toText = t ∧ (Buffer.ofText t).data = t :=
  ⟨rfl, rfl⟩

theorem C08_num_chars (b : Buffer) : b.numChars = b.data.length := rfl

theorem byteLen_eq (t : Text) : Buffer.byteLen t = (String.ofList t).toUTF8.size := by
  rw [String.toUTF8, String.toByteArray_ofList]
  induction t with
  | nil => rfl
  | cons c cs ih =>
    rw [List.utf8Encode_cons, ByteArray.size_append, ← ih, List.utf8Encode_singleton]
    simp [Buffer.byteLen]

/-- `num_bytes` is the size of the UTF-8 encoding. -/
theorem C08_num_bytes (b : Buffer) : b.numBytes = (String.ofList b.data).toUTF8.size := by
  rw [Buffer.numBytes, byteLen_eq]

theorem C08_range (b : Buffer) (pre mid post : Text) (h : b.data = pre ++ mid ++ post) :
    b.range pre.length (pre.length + mid.length) = some mid := by
  simp [Buffer.range, h]

theorem C08_range_panics_iff (b : Buffer) (start stop : Nat) :
    b.range start stop = none ↔ ¬ (start ≤ stop ∧ stop ≤ b.data.length) := by
  unfold Buffer.range; split <;> simp_all

theorem C08_char_after (b : Buffer) (pre post : Text) (c : Char) (h : b.data = pre ++ c :: post) :
    b.charAfter pre.length = some c ∧ b.charBefore (pre.length + 1) = some c := by
  simp [Buffer.charAfter, Buffer.charBefore, h]

theorem C08_char_after_none (b : Buffer) (n : Nat) :
    b.charAfter n = none ↔ b.data.length ≤ n := by
  simp [Buffer.charAfter]

theorem C08_char_before (b : Buffer) (n : Nat) :
    b.charBefore 0 = none ∧ b.charBefore (n + 1) = b.charAfter n := by
  simp [Buffer.charAfter, Buffer.charBefore]

theorem splitOn_ne_nil (p : Char → Bool) (d : Text) : Buffer.splitOn p d ≠ [] := by
  cases d with
  | nil => simp [Buffer.splitOn]
  | cons c cs =>
    unfold Buffer.splitOn
    split
    · simp
    · split <;> simp

theorem splitOn_no_sep (p : Char → Bool) (d : Text) :
    ∀ l ∈ Buffer.splitOn p d, ∀ c ∈ l, p c = false := by
  induction d with
  | nil => simp [Buffer.splitOn]
  | cons a cs ih =>
    unfold Buffer.splitOn
    split
    · simpa using ih
    · rename_i ha
      cases hs : Buffer.splitOn p cs with
      | nil => simpa using ha
      | cons h t =>
        rw [hs] at ih
        intro l hl c hc
        rcases List.mem_cons.mp hl with rfl | hl
        · rcases List.mem_cons.mp hc with rfl | hc
          · simpa using ha
          · exact ih h (by simp) c hc
        · exact ih l (by simp [hl]) c hc

/-- The lines joined by newlines are the text, and no line contains a newline. -/
theorem C08_lines (b : Buffer) :
    List.intercalate ['\n'] b.lines = b.data ∧ b.lines ≠ [] ∧ ∀ l ∈ b.lines, '\n' ∉ l := by
  refine ⟨?_, splitOn_ne_nil _ _, ?_⟩
  · unfold Buffer.lines
    generalize b.data = d
    induction d with
    | nil => rfl
    | cons c cs ih =>
      unfold Buffer.splitOn
      have hn := splitOn_ne_nil (· == '\n') cs
      cases hs : Buffer.splitOn (· == '\n') cs with
      | nil => exact absurd hs hn
      | cons h t =>
        rw [hs] at ih
        split
        · rename_i hc
          have : c = '\n' := by simpa using hc
          subst this
          rw [List.intercalate_cons_cons] <;> simp_all
        · cases t with
          | nil => simpa [List.intercalate] using ih
          | cons h2 t2 =>
            rw [List.intercalate_cons_cons] at ih ⊢
            simp [← ih]
  · intro l hl hc
    have := splitOn_no_sep (· == '\n') b.data l hl '\n' hc
    simp at this

/-- Per-line widths are the widths of the lines. -/
theorem C08_width (sw : Text → Nat) (b : Buffer) :
    b.width sw = b.lines.map sw ∧ b.rangeWidth sw 0 b.data.length = some (b.width sw) := by
  simp [Buffer.width, Buffer.lines, Buffer.rangeWidth, Buffer.range]

theorem C08_print (b : Buffer) (pre post : Text) (h : b.data = pre ++ post) :
    b.print = b.data ∧ b.printRest pre.length = (post, (String.ofList post).toUTF8.size) := by
  refine ⟨rfl, ?_⟩
  rw [← byteLen_eq]
  simp [Buffer.printRest, h]

theorem C08_is_empty (b : Buffer) : b.isEmpty = true ↔ b.data = [] := by
  simp [Buffer.isEmpty]

/-- Equality of buffers ignores their logs. -/
theorem C08_eq (a b : Buffer) : a.eq b = true ↔ a.data = b.data := by
  simp [Buffer.eq]

/-! ### C09: prefix and substring tests -/

theorem zip_takeWhile_length (a b : Text) :
    ((a.zip b).takeWhile (fun p => p.1 == p.2)).length = b.length ↔ b <+: a := by
  induction b generalizing a with
  | nil => simp
  | cons y ys ih =>
    cases a with
    | nil => simp
    | cons x xs =>
      by_cases hxy : x = y
      · subst hxy
        simp [List.takeWhile_cons, ih]
      · simp [List.takeWhile_cons, hxy]
        intro h
        exact absurd h.symm hxy

/-- `a.starts_with(b)`: `b` is a non-empty proper prefix of `a`. -/
theorem C09_starts_with (a b : Buffer) :
    a.startsWith b = true ↔ b.data ≠ [] ∧ b.data <+: a.data ∧ b.data ≠ a.data := by
  unfold Buffer.startsWith
  split
  · rename_i h
    simp only [Bool.and_eq_true, Bool.not_eq_true', List.isEmpty_eq_false_iff, bne_iff_ne] at h
    rw [beq_iff_eq, zip_takeWhile_length]
    constructor
    · intro hp; exact ⟨h.1, hp, fun e => h.2 (by rw [e])⟩
    · intro hp; exact hp.2.1
  · rename_i h
    simp only [Bool.false_eq_true, false_iff]
    rintro ⟨h1, h2, h3⟩
    apply h
    simp only [Bool.and_eq_true, Bool.not_eq_true', List.isEmpty_eq_false_iff, bne_iff_ne]
    exact ⟨h1, fun e => h3 (h2.eq_of_length e.symm)⟩

/-- `a.contains(b)`: `b` is non-empty and occurs as a block of `a`. -/
theorem C09_contains (a b : Buffer) :
    a.contains b = true ↔ b.data ≠ [] ∧ ∃ pre post, a.data = pre ++ b.data ++ post := by
  unfold Buffer.contains
  split
  · rename_i h
    have : b.data = [] := by simpa using h
    simp [this]
  · rename_i h
    have hne : b.data ≠ [] := by simpa using h
    simp only [Buffer.windows, List.any_map, List.any_eq_true, List.mem_range, Function.comp_apply,
      beq_iff_eq]
    constructor
    · rintro ⟨i, hi, he⟩
      refine ⟨hne, a.data.take i, (a.data.drop i).drop b.data.length, ?_⟩
      have h1 := List.take_append_drop i a.data
      have h2 := List.take_append_drop b.data.length (a.data.drop i)
      rw [he] at h2
      rw [List.append_assoc, h2, h1]
    · rintro ⟨_, pre, post, he⟩
      refine ⟨pre.length, ?_, ?_⟩
      · simp [he]; omega
      · simp [he]

example : (Buffer.ofText "abc".toList).startsWith (Buffer.ofText "ab".toList) = true := by decide
example : (Buffer.ofText "ab".toList).startsWith (Buffer.ofText "ab".toList) = false := by decide
example : (Buffer.ofText "xaby".toList).contains (Buffer.ofText "ab".toList) = true := by decide

/-! ### C10: last argument -/

theorem splitOn_append_sep (p : Char → Bool) (a b : Text) (c : Char) (hc : p c = true) :
    Buffer.splitOn p (a ++ c :: b) = Buffer.splitOn p a ++ Buffer.splitOn p b := by
  induction a with
  | nil => simp [Buffer.splitOn, hc]
  | cons x xs ih =>
    simp only [List.cons_append, Buffer.splitOn, ih]
    split
    · rfl
    · have hn := splitOn_ne_nil p xs
      cases hs : Buffer.splitOn p xs with
      | nil => exact absurd hs hn
      | cons h t => rfl

theorem splitOn_no (p : Char → Bool) (w : Text) (h : ∀ c ∈ w, p c = false) :
    Buffer.splitOn p w = [w] := by
  induction w with
  | nil => rfl
  | cons c cs ih =>
    simp [Buffer.splitOn, h c (by simp), ih (fun x hx => h x (by simp [hx]))]

theorem splitOn_replicate (n : Nat) :
    (Buffer.splitOn (· == ' ') (List.replicate n ' ')).filter (fun s => !s.isEmpty) = [] := by
  induction n with
  | zero => rfl
  | succ n ih => simp [List.replicate_succ, Buffer.splitOn] at *; exact ih

theorem splitOn_trailing (w : Text) (hw : w ≠ []) (hs : ' ' ∉ w) (n : Nat) :
    (Buffer.splitOn (· == ' ') (w ++ List.replicate n ' ')).filter (fun s => !s.isEmpty) = [w] := by
  have hno := splitOn_no (· == ' ') w (by
    intro c hc; simp; rintro rfl; exact hs hc)
  cases n with
  | zero => simp [hno, hw]
  | succ n =>
    rw [List.replicate_succ, splitOn_append_sep _ _ _ _ (by rfl), hno, List.filter_append,
      splitOn_replicate]
    simp [hw]

/-- `w` is the last maximal run of non-space characters of `d`. -/
def IsLastRun (d w : Text) : Prop :=
  w ≠ [] ∧ ' ' ∉ w ∧ ∃ pre n, d = pre ++ w ++ List.replicate n ' ' ∧
    (pre = [] ∨ pre.getLast? = some ' ')

theorem lastArg_of_run (b : Buffer) (w : Text) (h : IsLastRun b.data w) : b.lastArg = some w := by
  obtain ⟨hw, hs, pre, n, he, hp⟩ := h
  unfold Buffer.lastArg
  rcases hp with rfl | hp
  · rw [he, List.nil_append, splitOn_trailing w hw hs]; rfl
  · obtain ⟨pre', rfl⟩ : ∃ pre', pre = pre' ++ [' '] := by
      have hne : pre ≠ [] := by rintro rfl; cases hp
      refine ⟨pre.dropLast, ?_⟩
      have := List.dropLast_concat_getLast hne
      rw [List.getLast?_eq_some_getLast hne] at hp
      rw [← Option.some.inj hp]; exact this.symm
    have : b.data = pre' ++ ' ' :: (w ++ List.replicate n ' ') := by rw [he]; simp
    rw [this, splitOn_append_sep _ _ _ _ (by rfl), List.filter_append,
      splitOn_trailing w hw hs]
    simp

theorem run_or_spaces (d : Text) : (∀ c ∈ d, c = ' ') ∨ ∃ w, IsLastRun d w := by
  induction d using List.reverseRecOn with
  | nil => left; simp
  | append_singleton d c ih =>
    by_cases hc : c = ' '
    · subst hc
      rcases ih with h | ⟨w, hw, hs, pre, n, he, hp⟩
      · left
        intro x hx
        rcases List.mem_append.mp hx with hx | hx
        · exact h x hx
        · simpa using hx
      · right
        refine ⟨w, hw, hs, pre, n + 1, ?_, hp⟩
        rw [he, List.replicate_succ']; simp
    · right
      rcases ih with h | ⟨w, hw, hs, pre, n, he, hp⟩
      · refine ⟨[c], by simp, by simpa using (Ne.symm hc), d, 0, by simp, ?_⟩
        by_cases hd : d = []
        · exact .inl hd
        · right
          rw [List.getLast?_eq_some_getLast hd, h _ (List.getLast_mem hd)]
      · cases n with
        | zero =>
          refine ⟨w ++ [c], by simp, ?_, pre, 0, by simp [he], hp⟩
          simp only [List.mem_append, List.mem_singleton, not_or]
          exact ⟨hs, fun e => hc e.symm⟩
        | succ n =>
          refine ⟨[c], by simp, by simpa using (Ne.symm hc), d, 0, by simp, .inr ?_⟩
          rw [he, List.replicate_succ', ← List.append_assoc]
          simp

/-- `last_arg` is the last run of non-space characters, and `None` exactly when there is none. -/
theorem C10_last_arg (b : Buffer) :
    (∀ w, b.lastArg = some w ↔ IsLastRun b.data w) ∧
    (b.lastArg = none ↔ ∀ c ∈ b.data, c = ' ') := by
  rcases run_or_spaces b.data with h | ⟨w, hw⟩
  · have hnone : b.lastArg = none := by
      have : b.data = List.replicate b.data.length ' ' := List.eq_replicate_of_mem h
      unfold Buffer.lastArg
      rw [this, splitOn_replicate]; rfl
    refine ⟨?_, by simp [hnone]; exact h⟩
    intro w
    rw [hnone]
    constructor
    · intro h; cases h
    · rintro hr
      have := lastArg_of_run b w hr
      rw [hnone] at this; cases this
  · have hsome := lastArg_of_run b w hw
    constructor
    · intro w'
      constructor
      · intro h; rw [hsome] at h; cases h; exact hw
      · exact lastArg_of_run b w'
    · rw [hsome]
      constructor
      · intro h; cases h
      · intro h
        exfalso
        obtain ⟨hne, hs, pre, n, he, _⟩ := hw
        cases w with
        | nil => exact hne rfl
        | cons c cs =>
          have : c = ' ' := h c (by rw [he]; simp)
          exact hs (by simp [this])

example : IsLastRun "alpha b  ".toList "b".toList :=
  ⟨by decide, by decide, "alpha ".toList, 2, by decide, by decide⟩

end Liner.Props
