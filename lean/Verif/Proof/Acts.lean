import Verif.Proof.Desk
/-
The operations on the current line as a change of it followed by a redraw, in a search or not.
-/

namespace Liner
namespace Props
open Liner.Spec Liner.Editor M

/-- The state before the redraw: the line may have become `o`, the cursor is at `c`. -/
def moved (s : Ed) (o : Option Buffer) (c : Nat) : Ed :=
  match o with
  | some b => { setCur s b with cursor := c }
  | none => { s with cursor := c }

/-- The line `o` is what the sheet `q` says; if there is none, it is still as on the sheet `p`. -/
structure Penned (p : Sheet) (o : Option Buffer) (q : Sheet) : Prop where
  some : ∀ b, o = some b → b.data = q.text ∧ Each q.past q.text b.actions
  none : o = none → q.text = p.text ∧ q.past = p.past

/-- The line and its log are those of the sheet. -/
structure Ground (s : Ed) (p : Sheet) : Prop where
  here : At s p.left p.right
  log : ∃ w, workBuf s = some w ∧ w.data = p.text ∧ Each p.past p.text w.actions

section
variable {α : Type} (E : Env) {s : Ed} {p q : Sheet}

/-- The operation turns the sheet `p` into `q` and redraws; `touch` if it takes the line out for writing. -/
def Acts (m : EdM α) (s : Ed) (p q : Sheet) (touch : Bool) : Prop :=
  ∃ o : Option Buffer, o.isSome = touch ∧ Penned p o q ∧ ∀ (Q : Ed → Prop) (R : IoErr → Ed → Prop) (P : Site → Prop),
    Wp (display E) (moved s o q.left.length) (fun _ s' => Q s') R P → Wp m s (fun _ s' => Q s') R P

theorem wp_curBufMut_of {f : Buffer → Option (α × Buffer)} {Q : α → Ed → Prop}
    {R : IoErr → Ed → Prop} {P : Site → Prop} {w b' : Buffer} {a : α} (hw : workBuf s = some w) (hf : f w = some (a, b'))
    (h : Q a (setCur s b')) : Wp (curBufMut f) s Q R P := by
  rw [wp_curBufMut]
  refine ⟨fun b a1 b1 hb hf1 => ?_, ?_⟩
  · rw [hw] at hb; cases hb
    rw [hf] at hf1; cases hf1
    exact h
  · rintro (h1 | ⟨b, h1, h2⟩)
    · rw [hw] at h1; cases h1
    · rw [hw] at h1; cases h1
      rw [hf] at h2; cases h2

/-- One edit of the line. -/
theorem penned_one {l r : Text} {w b' : Buffer} {a : α} {f : Buffer → Option (α × Buffer)} (h1 : OneEdit f)
    (hd : w.data = p.text) (hl : Each p.past p.text w.actions) (hf : f w = some (a, b')) (hb : b'.data = l ++ r) :
    Penned p (some b') (p.put l r) := by
  refine ⟨fun b e => ?_, (by simp)⟩
  cases e
  obtain ⟨es, g1, g2, g3⟩ := h1 _ _ _ hf
  rw [hd, hb] at g3
  refine ⟨hb, ?_⟩
  rw [g2]
  exact (hl.grown g1 (Nat.le_refl _) g3).1

theorem penned_none {l r : Text} (h : l ++ r = p.text) : Penned p none { p with left := l, right := r } :=
  ⟨fun _ e => (by cases e), fun _ => ⟨h, rfl⟩⟩

theorem insert_acts (h : Ground s p) {cs : Text} (hc : cs ≠ []) :
    Acts E (insertCharsAfterCursor E cs) s p (p.put (p.left ++ cs) p.right) true := by
  obtain ⟨w, hw, hd, hl⟩ := h.log
  obtain ⟨b', h1, h2⟩ := C01_insert w p.left p.right cs hd
  have hf : (noRes fun b => b.insert p.left.length cs) w = some ((), b') := by simp [noRes, h1]
  refine ⟨some b', rfl, penned_one (oneEdit_insert _ hc) hd hl hf h2, fun Q R P hQ => ?_⟩
  unfold insertCharsAfterCursor
  rw [wp_bind, wp_get, wp_bind, h.here.2]
  refine wp_curBufMut_of hw hf ?_
  rw [wp_bind, wp_modify, setCur_cursor, h.here.2]
  simpa [moved, Sheet.put] using hQ

theorem deleteAllBefore_acts (h : Ground s p) : Acts E (deleteAllBeforeCursor E) s p (p.put [] p.right) true := by
  obtain ⟨w, hw, hd, hl⟩ := h.log
  obtain ⟨b', h1, h2⟩ := C01_remove w [] p.left p.right (by rw [hd]; rfl)
  have hf : w.remove 0 p.left.length = some (p.left.length, b') := by simpa using h1
  refine ⟨some b', rfl, penned_one (oneEdit_remove _ _) hd hl hf h2, fun Q R P hQ => ?_⟩
  unfold deleteAllBeforeCursor
  rw [wp_bind, wp_get, wp_bind, h.here.2]
  refine wp_curBufMut_of hw hf ?_
  rw [wp_bind, wp_modify]
  exact hQ

theorem deleteAllAfter_acts (h : Ground s p) : Acts E (deleteAllAfterCursor E) s p (p.put p.left []) true := by
  obtain ⟨w, hw, hd, hl⟩ := h.log
  obtain ⟨b', h1, h2⟩ := C01_edits w (.truncate p.left.length) p.left (by simp [Edit.apply, hd, Sheet.text])
  have hf : (noRes fun b => b.truncate p.left.length) w = some ((), b') := by simpa [noRes, runEdit] using h1
  refine ⟨some b', rfl, penned_one (oneEdit_truncate _) hd hl hf (by simpa using h2), fun Q R P hQ => ?_⟩
  unfold deleteAllAfterCursor
  rw [wp_bind, wp_get, wp_bind, h.here.2]
  refine wp_curBufMut_of hw hf ?_
  rw [show setCur s b' = moved s (some b') (p.put p.left []).left.length from by
    simp [moved, Sheet.put, ← h.here.2, ← setCur_cursor s b']]
  exact hQ

theorem deleteUntil_acts (h : Ground s p) {n : Nat} (hn : n ≤ p.text.length) :
    Acts E (deleteUntil E n) s p (p.put (p.text.take (min p.left.length n)) (p.text.drop (max p.left.length n))) true := by
  obtain ⟨w, hw, hd, hl⟩ := h.log
  have hle : p.left.length ≤ p.text.length := by simp [Sheet.text]
  have h0 : w.data = p.text.take (min p.left.length n) ++
      (p.text.take (max p.left.length n)).drop (min p.left.length n) ++ p.text.drop (max p.left.length n) := by
    have e : p.text.take (min p.left.length n) =
        (p.text.take (max p.left.length n)).take (min p.left.length n) := by
      rw [List.take_take, Nat.min_eq_left (Nat.le_trans (Nat.min_le_left _ _) (Nat.le_max_left _ _))]
    rw [hd, e, List.take_append_drop, List.take_append_drop]
  obtain ⟨b', h1, h2⟩ := C01_remove w _ _ _ h0
  have e1 : (p.text.take (min p.left.length n)).length = min p.left.length n := by rw [List.length_take]; omega
  have e2 : (p.text.take (min p.left.length n)).length +
      ((p.text.take (max p.left.length n)).drop (min p.left.length n)).length = max p.left.length n := by
    rw [e1, List.length_drop, List.length_take]; omega
  rw [e2, e1] at h1
  refine ⟨some b', rfl, penned_one (oneEdit_remove _ _) hd hl h1 h2, fun Q R P hQ => ?_⟩
  unfold deleteUntil
  rw [wp_bind, wp_get, wp_bind, h.here.2]
  refine wp_curBufMut_of hw h1 ?_
  rw [wp_bind, wp_modify, setCur_cursor, h.here.2]
  simpa [moved, Sheet.put, e1] using hQ

theorem moved_none (s : Ed) : moved s none s.cursor = s := rfl

theorem backspace_acts (h : Ground s p) : Acts E (deleteBeforeCursor E) s p
    (if p.left = [] then p else p.put p.left.dropLast p.right) (p.left ≠ []) := by
  rcases List.eq_nil_or_concat p.left with hn | ⟨l, c, hc⟩
  · rw [if_pos hn]
    refine ⟨none, by simp [hn], ⟨fun _ e => (by cases e), fun _ => ⟨rfl, rfl⟩⟩, fun Q R P hQ => ?_⟩
    unfold deleteBeforeCursor
    rw [wp_bind, wp_get, if_neg (by simp [h.here.2, hn])]
    rw [← h.here.2, moved_none] at hQ
    exact hQ
  · rw [List.concat_eq_append] at hc
    rw [if_neg (by simp [hc])]
    obtain ⟨w, hw, hd, hl⟩ := h.log
    obtain ⟨b', h1, h2⟩ := C01_remove w l [c] p.right (by rw [hd, Sheet.text, hc])
    have hcur : s.cursor = l.length + 1 := by rw [h.here.2, hc]; simp
    refine ⟨some b', by simp [hc], penned_one (oneEdit_remove _ _) hd hl h1 (by rw [hc, List.dropLast_concat]; exact h2),
      fun Q R P hQ => ?_⟩
    unfold deleteBeforeCursor
    rw [wp_bind, wp_get, if_pos (by omega), wp_bind, hcur]
    refine wp_curBufMut_of hw h1 ?_
    rw [wp_bind, wp_modify, setCur_cursor, hcur]
    simpa [moved, Sheet.put, hc] using hQ

theorem delete_acts (h : Ground s p) : Acts E (deleteAfterCursor E) s p
    (if p.right = [] then p else p.put p.left p.right.tail) true := by
  obtain ⟨w, hw, hd, hl⟩ := h.log
  unfold deleteAfterCursor
  cases hr : p.right with
  | nil =>
    rw [if_pos rfl]
    refine ⟨some w, rfl, ⟨fun b e => (by cases e; exact ⟨hd, hl⟩), by simp⟩, fun Q R P hQ => ?_⟩
    rw [wp_bind, wp_get, wp_bind]
    refine wp_curBufMut_of hw (a := ()) (b' := w) (if_neg ?_) ?_
    · rw [h.here.2, Buffer.numChars, hd, Sheet.text, hr]; simp
    · rw [show setCur s w = moved s (some w) p.left.length from by
        simp [moved, ← h.here.2, ← setCur_cursor s w]]
      exact hQ
  | cons c r =>
    rw [if_neg (by simp)]
    obtain ⟨b', h1, h2⟩ := C01_remove w p.left [c] r (by rw [hd, Sheet.text, hr]; simp)
    refine ⟨some b', rfl, penned_one (oneEdit_remove _ _) hd hl h1 h2, fun Q R P hQ => ?_⟩
    rw [wp_bind, wp_get, wp_bind]
    refine wp_curBufMut_of hw (a := ()) (b' := b') ?_ ?_
    · rw [if_pos (by rw [h.here.2, Buffer.numChars, hd, Sheet.text, hr]; simp), h.here.2,
        show p.left.length + 1 = p.left.length + [c].length from rfl, h1]
      rfl
    · rw [show setCur s b' = moved s (some b') (p.put p.left (c :: r).tail).left.length from by
        simp [moved, Sheet.put, ← h.here.2, ← setCur_cursor s b']]
      exact hQ

/-- Moving the cursor. -/
theorem cursor_acts {m : EdM α} {l r : Text} (ht : l ++ r = p.text)
    (hm : ∀ (Q : Ed → Prop) (R : IoErr → Ed → Prop) (P : Site → Prop),
      Wp (display E) { s with cursor := l.length } (fun _ s' => Q s') R P → Wp m s (fun _ s' => Q s') R P) :
    Acts E m s p { p with left := l, right := r } false := ⟨none, rfl, penned_none ht, hm⟩

theorem home_acts : Acts E (moveCursorToStartOfLine E) s p { p with left := [], right := p.text } false :=
  cursor_acts E rfl fun Q R P hQ => by
    unfold moveCursorToStartOfLine
    rw [wp_bind, wp_modify]; exact hQ

theorem end_run {b : Buffer} (hb : s.curBuf? = some b) {Q : Unit → Ed → Prop} {R : IoErr → Ed → Prop} {P : Site → Prop}
    (h : Wp (display E) { s with cursor := b.data.length } Q R P) : Wp (moveCursorToEndOfLine E) s Q R P := by
  unfold moveCursorToEndOfLine
  rw [wp_bind, wp_curBuf]
  refine ⟨fun b' hb' => ?_, fun hn => (by rw [hb] at hn; cases hn)⟩
  rw [hb] at hb'; cases hb'
  rw [wp_bind, wp_modify]
  exact h

theorem end_acts (h : Ground s p) : Acts E (moveCursorToEndOfLine E) s p { p with left := p.text, right := [] } false := by
  obtain ⟨b, hb, hd⟩ := text?_eq.mp h.here.1
  refine cursor_acts E (List.append_nil _) fun Q R P hQ => end_run E hb ?_
  rw [hd]; exact hQ

theorem left_acts (h : Ground s p) : Acts E (moveCursorLeft E 1) s p
    { p with left := p.left.take (p.left.length - 1), right := p.left.drop (p.left.length - 1) ++ p.right } false :=
  cursor_acts E (by rw [← List.append_assoc, List.take_append_drop]; rfl) fun Q R P hQ => by
    unfold moveCursorLeft
    rw [wp_bind, wp_modify, h.here.2]
    rw [List.length_take, Nat.min_eq_left (by omega)] at hQ
    rw [show p.left.length - (if 1 > p.left.length then p.left.length else 1) = p.left.length - 1 by split <;> omega]
    exact hQ

theorem right_acts (h : Ground s p) : Acts E (moveCursorRight E 1) s p
    { p with left := p.left ++ p.right.take 1, right := p.right.drop 1 } false := by
  obtain ⟨b, hb, hd⟩ := text?_eq.mp h.here.1
  refine cursor_acts E (by rw [List.append_assoc, List.take_append_drop]; rfl) fun Q R P hQ => ?_
  unfold moveCursorRight
  rw [wp_bind, wp_curBuf]
  refine ⟨fun b' hb' => ?_, fun hn => (by rw [hb] at hn; cases hn)⟩
  rw [hb] at hb'; cases hb'
  rw [wp_bind, wp_get, if_neg (by rw [Buffer.numChars, hd, h.here.2]; simp), wp_bind, wp_modify, h.here.2, Buffer.numChars, hd]
  rw [List.length_append, List.length_take] at hQ
  rw [List.length_append, Nat.add_sub_cancel_left,
    show (if 1 > p.right.length then p.right.length else 1) = min 1 p.right.length by split <;> omega]
  exact hQ

theorem to_acts (h : Ground s p) (n : Nat) : Acts E (moveCursorTo E n) s p
    { p with left := p.text.take n, right := p.text.drop n } false := by
  obtain ⟨b, hb, hd⟩ := text?_eq.mp h.here.1
  refine cursor_acts E (List.take_append_drop _ _) fun Q R P hQ => ?_
  unfold moveCursorTo
  rw [wp_bind, wp_modify, wp_bind, wp_curBuf]
  refine ⟨fun b' hb' => ?_, fun hn => (by rw [show s.curBuf? = none from hn] at hb; cases hb)⟩
  rw [show s.curBuf? = some b' from hb'] at hb; cases hb
  rw [wp_bind, wp_modify, Buffer.numChars, hd]
  rw [List.length_take] at hQ
  rw [show p.left ++ p.right = p.text from rfl,
    show (if n > p.text.length then p.text.length else n) = min n p.text.length by split <;> omega]
  exact hQ

theorem ground_words (hw : E.words = getBufferWords) (h : Ground s p) :
    ∃ ws, IsDivision p.text ws ∧ (∀ b, s.curBuf? = some b → E.words b = ws) ∧ Separated ws := by
  obtain ⟨ws, hd⟩ := division_ex p.text
  exact ⟨ws, hd, divides hw h.here.1 hd⟩

/-- Deleting the word before the cursor. -/
theorem deleteWord_acts (hw : E.words = getBufferWords) (h : Ground s p) :
    ∃ q, Sheet.Rubs p { q with arg := none } ∧ q.arg = p.arg ∧
      Acts E (deleteWordBeforeCursor E true) s p q (q.past ≠ p.past) := by
  obtain ⟨ws, h1, h2, h3⟩ := ground_words E hw h
  obtain ⟨b0, hb0, hd0⟩ := text?_eq.mp h.here.1
  have run : ∀ (Q : Ed → Prop) (R : IoErr → Ed → Prop) (P : Site → Prop),
      Wp (match wordBefore ws (CursorPosition.get p.left.length ws) true with
        | some (start, _) => do
          let s ← M.get
          let moved ← curBufMut (fun b => b.remove start s.cursor)
          cursorSub moved
          display E
        | none => display E) s (fun _ s' => Q s') R P → Wp (deleteWordBeforeCursor E true) s (fun _ s' => Q s') R P := by
    intro Q R P hQ
    simp only [deleteWordBeforeCursor, getWordBeforeCursor, wordsAndPos, wp_bind, wp_curBuf, wp_get, wp_pure]
    refine ⟨fun b hb => ?_, fun hn => (by rw [hb0] at hn; cases hn)⟩
    rw [h2 b hb, h.here.2]
    split
    · rename_i a e hab
      rw [hab] at hQ
      simpa only [wp_bind, wp_get] using hQ
    · rename_i hab
      rw [hab] at hQ
      exact hQ
  by_cases hp : ∃ w, WordBefore ws p.left.length true w
  · obtain ⟨⟨a, e⟩, hp⟩ := hp
    have ha : a < p.left.length := hp.before
    have hl : (p.left.take a).length = a := by rw [List.length_take]; omega
    obtain ⟨w, g1, g2, g3⟩ := h.log
    obtain ⟨b', k1, k2⟩ := C01_remove w (p.left.take a) (p.left.drop a) p.right
      (by rw [g2, List.take_append_drop]; rfl)
    have k3 : w.remove a s.cursor = some ((p.left.drop a).length, b') := by
      rw [h.here.2]
      rw [hl, show a + (p.left.drop a).length = p.left.length by rw [List.length_drop]; omega] at k1
      exact k1
    refine ⟨p.put (p.left.take a) p.right, ⟨ws, h1, .inl ⟨_, hp, rfl⟩⟩, rfl, some b', by simp [Sheet.put],
      penned_one (oneEdit_remove _ _) g2 g3 k3 k2, fun Q R P hQ => run Q R P ?_⟩
    rw [(wordBefore_iff h3 _ _ _).mpr hp]
    dsimp only
    rw [wp_bind, wp_get, wp_bind]
    refine wp_curBufMut_of g1 k3 ?_
    rw [wp_bind]
    unfold Wp cursorSub
    rw [setCur_cursor, h.here.2, if_pos (by simp)]
    have e1 : p.left.length - (p.left.drop a).length = (p.put (p.left.take a) p.right).left.length := by
      rw [List.length_drop]
      show _ = (p.left.take a).length
      rw [hl]; omega
    rw [e1]
    exact hQ
  · have hp' : ∀ w, ¬ WordBefore ws p.left.length true w := fun w hw => hp ⟨w, hw⟩
    refine ⟨p, ⟨ws, h1, .inr ⟨hp', rfl⟩⟩, rfl, none, by simp, ⟨fun _ e => (by cases e), fun _ => ⟨rfl, rfl⟩⟩,
      fun Q R P hQ => run Q R P ?_⟩
    have : wordBefore ws (CursorPosition.get p.left.length ws) true = none := by
      cases hw : wordBefore ws (CursorPosition.get p.left.length ws) true with
      | none => rfl
      | some p => exact absurd ((wordBefore_iff h3 _ _ _).mp hw) (hp' p)
    rw [this]
    rw [← h.here.2, moved_none] at hQ
    exact hQ

/-- Moving by a word: to it, or nothing happens. -/
theorem moveWord_acts (hw : E.words = getBufferWords) (h : Ground s p) (right : Bool) :
    ∃ q, Sheet.Moves (if right then NextEnd else PrevStart) p { q with arg := none } ∧ q.arg = p.arg ∧
      (Acts E (Emacs.moveWord E right) s p q false ∨ (q = p ∧ Emacs.moveWord E right s = .ok () s)) := by
  obtain ⟨ws, h1, h2, hs⟩ := ground_words E hw h
  obtain ⟨b, hb, hbd⟩ := text?_eq.mp h.here.1
  have hc := C12_classifies s.cursor ws hs
  rw [h.here.2] at hc
  have key : match Emacs.wordIndex ws.length (CursorPosition.get p.left.length ws) right with
      | none => if right then NextEnd ws p.left.length p.left.length else PrevStart ws p.left.length p.left.length
      | some i => ∃ w, ws[i]? = some w ∧ (if right then NextEnd ws p.left.length w.2
          else PrevStart ws p.left.length w.1) := by
    cases right
    · exact wordIndex_left hs hc
    · exact wordIndex_right hs hc
  have hR : ∀ n, (if right then NextEnd ws p.left.length n else PrevStart ws p.left.length n) =
      (if right then NextEnd else PrevStart) ws p.left.length n := by
    intro n; cases right <;> rfl
  have e1 : wordsAndPos E s = .ok (ws, CursorPosition.get p.left.length ws) s := by
    unfold wordsAndPos
    rw [bind_ok (m := curBuf) (a := b) (s' := s) (by unfold curBuf; simp [hb]), bind_ok (m := M.get) (a := s) (s' := s) rfl,
      h2 b hb, h.here.2]
    rfl
  cases hi : Emacs.wordIndex ws.length (CursorPosition.get p.left.length ws) right with
  | none =>
    rw [hi] at key
    refine ⟨p, ⟨rfl, rfl, rfl, ws, h1, ?_⟩, rfl, .inr ⟨rfl, ?_⟩⟩
    · rw [hR] at key; exact key
    · unfold Emacs.moveWord
      rw [bind_ok e1]
      dsimp only
      rw [hi]
      rfl
  | some i =>
    rw [hi] at key
    obtain ⟨w, hw', hk⟩ := key
    have hle := (h1.words w (List.mem_of_getElem? hw')).inside
    have hne := sep_ne hs hw'
    refine ⟨{ p with left := p.text.take (if right then w.2 else w.1), right := p.text.drop (if right then w.2 else w.1) },
      ⟨List.take_append_drop _ _, rfl, rfl, ws, h1, ?_⟩, rfl, .inl ?_⟩
    · show (if right then NextEnd else PrevStart) ws p.left.length (p.text.take _).length
      rw [List.length_take, Nat.min_eq_left (by split <;> omega), ← hR]
      cases right <;> exact hk
    · obtain ⟨o, g1, g2, g3⟩ := to_acts E h (if right then w.2 else w.1)
      refine ⟨o, g1, g2, fun Q R P hQ => ?_⟩
      have := g3 Q R P hQ
      unfold Emacs.moveWord
      unfold Wp at this ⊢
      rw [bind_ok e1]
      dsimp only
      rw [hi]
      dsimp only
      rw [bind_ok (m := ofOption ws[i]?) (a := w) (s' := s) (by rw [hw']; rfl)]
      exact this

/-- Undo and revert. -/
theorem undoing_acts {f : Buffer → Option (Bool × Buffer)} {w b' : Buffer} {did : Bool} (h : Ground s p)
    (hw : workBuf s = some w) (hf : f w = some (did, b')) {ps : List Text}
    (hs : did = false → b'.data = p.text) (hl : Each ps b'.data b'.actions) :
    Acts E (do
      let did ← curBufMut f
      if did then moveCursorToEndOfLine E else display E
      pure did : EdM Bool) s p
      { p with left := if did then b'.data else p.left, right := if did then [] else p.right, past := ps } true := by
  have ht : b'.data = (if did then b'.data else p.left) ++ (if did then [] else p.right) := by
    cases did with
    | true => simp
    | false => exact hs rfl
  refine ⟨some b', rfl, ⟨fun b e => ?_, by simp⟩, fun Q R P hQ => ?_⟩
  · cases e
    refine ⟨ht, ?_⟩
    show Each ps (_ ++ _) _
    rw [← ht]; exact hl
  · rw [wp_bind]
    refine wp_curBufMut_of hw hf ?_
    cases did with
    | true =>
      rw [if_pos rfl, wp_bind]
      exact end_run E (setCur_curBuf s b') hQ
    | false =>
      rw [if_neg (by simp), wp_bind]
      have : moved s (some b') p.left.length = setCur s b' := by simp [moved, ← h.here.2, ← setCur_cursor s b']
      rw [← this]
      exact hQ

theorem undo_acts (h : Ground s p) : Acts E (Editor.undo E) s p { p.back with arg := p.arg } true := by
  obtain ⟨w, h1, h2, h3⟩ := h.log
  unfold Editor.undo
  cases hp : p.past with
  | nil =>
    rw [hp, ← h2] at h3
    have := undoing_acts E h h1 h3.undo_nil (fun _ => h2) h3
    simpa [Sheet.back, hp] using this
  | cons t ts =>
    rw [hp, ← h2] at h3
    obtain ⟨b', k1, k2, k3⟩ := h3.undo
    have := undoing_acts E h h1 k1 (by simp) (by rw [k2]; exact k3)
    simpa [Sheet.back, hp, k2] using this

theorem revert_acts (h : Ground s p) : Acts E (Editor.revert E) s p { p.first with arg := p.arg } true := by
  obtain ⟨w, h1, h2, h3⟩ := h.log
  unfold Editor.revert
  cases hp : p.past with
  | nil =>
    rw [hp, ← h2] at h3
    have := undoing_acts E h h1 h3.revert_nil (fun _ => h2) h3
    simpa [Sheet.first, hp] using this
  | cons t ts =>
    rw [hp, ← h2] at h3
    obtain ⟨b', k1, k2, k3⟩ := h3.revert
    have := undoing_acts E h h1 k1 (by simp) (ps := []) (by rw [k3]; exact .nil _)
    rw [Sheet.first, hp, ← k2]
    simpa using this

end
end Props
end Liner
