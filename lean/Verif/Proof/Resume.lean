import Verif.Proof.Draft
import Verif.Spec.Emacs
/-
Two runs with the same text: any editing of the new line.
-/

namespace Liner
open Liner.Editor M KM

/-- An editor on the new line in which nothing was done but to edit it; `n` is the tick and what is left of an edited
entry. -/
abbrev poise (p : Prompt) (l : Nat) (c o : List Tok) (n : Nat × Buffer) (h : History) (fs : FS) (g : Option Buffer) (cur : Nat)
    (b : Buffer) (ch : Bool) : Ed :=
  { prompt := p, cursor := cur, newBuf := b, bufferChanged := ch, autosuggestion := g, history := h, fs := fs,
    termCursorLine := l, ctxBuf := c, out := o, tick := n.1, histBuf := n.2 }

/-- The new line has the text `u.1` before and the text `u.2` after the cursor, and nothing was done but to edit it. -/
def Poised (h : History) (fs : FS) (u : Text × Text) (g : Option Buffer) (s : Ed) : Prop := ∃ p l c o n b ch,
  b.data = u.1 ++ u.2 ∧ s = poise p l c o n h fs g u.1.length b ch

section
variable {h : History} {fs : FS} {u : Text × Text} {x y : Text} {g : Option Buffer} {s t : Ed} {E : Env}

theorem Begun.poised (hs : Begun h fs x g s) : Poised h fs (x, []) g s := by
  obtain ⟨p, l, c, o, n, b, ch, e, rfl⟩ := hs
  exact ⟨_, _, _, _, (n, {}), _, _, by simpa using e, rfl⟩

theorem Poised.akin (w : Prop) (hs : Poised h fs u g s) (ht : Poised h fs u g t) : Akin w s t := by
  obtain ⟨p, l, c, o, n, b, ch, e, rfl⟩ := hs
  obtain ⟨p', l', c', o', n', b', ch', e', rfl⟩ := ht
  exact ⟨p', l', c', o', n'.1, b', n'.2, ch', e'.trans e.symm, nofun, nofun, fun _ => ⟨rfl, rfl, nofun⟩, rfl⟩

theorem Poised.outer (hs : Poised h fs u g s) (ha : Alike s t) : Poised h fs u g t := by
  obtain ⟨p, l, c, o, n, b, ch, e, rfl⟩ := hs
  obtain ⟨_, _, _, _, m, rfl⟩ := ha
  exact ⟨_, _, _, _, (m, n.2), _, _, e, rfl⟩

theorem poised_suggestion (hs : Poised h fs u g s) : currentAutosuggestion s = .ok (proposal h (u.1 ++ u.2)) s := by
  obtain ⟨p, l, c, o, n, b, ch, e, rfl⟩ := hs
  rw [suggestion_eq]
  unfold suggestedIdx
  have e1 : h.getNewestMatch (some h.buffers.length) b = h.getNewestMatch (some h.buffers.length) (.ofText (u.1 ++ u.2)) :=
    newest_same _ _ e
  simp only [Ed.isSearch, Bool.or_self, Bool.false_eq_true, if_false, if_true, e1]
  unfold proposal
  cases hn : h.getNewestMatch (some h.buffers.length) (.ofText (u.1 ++ u.2)) with
  | none => rfl
  | some i =>
    have hi := ((Props.C17_newest_match _ _ _ i).mp hn).1
    simp only [Option.getD_some] at hi
    simp only [Option.bind_some]
    rw [List.getElem?_eq_getElem hi]

theorem poised_display (hs : Poised h fs u g s) :
    Ensues (display E) s (Poised h fs u (proposal h (u.1 ++ u.2))) := by
  have hp : polled s = s := by
    obtain ⟨p, l, c, o, n, b, ch, e, rfl⟩ := hs
    rfl
  unfold Ensues
  rw [display_polled, hp]
  show Lost (M.bind currentAutosuggestion _ s) ∨ ∃ s1, M.bind currentAutosuggestion _ s = _ ∧ _
  unfold M.bind
  rw [poised_suggestion hs]
  dsimp only
  have hs1 : Poised h fs u (proposal h (u.1 ++ u.2)) { s with autosuggestion := proposal h (u.1 ++ u.2) } := by
    obtain ⟨p, l, c, o, n, b, ch, e, rfl⟩ := hs
    exact ⟨_, _, _, _, _, _, _, e, rfl⟩
  show Lost (displayImpl E true { s with autosuggestion := proposal h (u.1 ++ u.2) }) ∨
    ∃ s1, displayImpl E true { s with autosuggestion := proposal h (u.1 ++ u.2) } = _ ∧ _
  have ho : OuterAt { s with autosuggestion := proposal h (u.1 ++ u.2) } (displayImpl E true) := by
    obtain ⟨p, l, c, o, n, b, ch, e, rfl⟩ := hs
    refine outerAt_impl (b := b) rfl ?_ _
    simp [clampCursor, Buffer.numChars, e]
  rcases ho _ (.refl _) with h1 | ⟨_, s1, e1, a1⟩
  · exact .inl h1
  · exact .inr ⟨s1, e1, hs1.outer a1⟩

/-- An operation that changes text and cursor, then redraws. -/
theorem poised_of {op : EdM Unit} {s2 : Ed} (e : op s = display E s2) (hs : Poised h fs u g s2) :
    Ensues op s (Poised h fs u (proposal h (u.1 ++ u.2))) := by
  unfold Ensues
  rw [e]
  exact poised_display hs

theorem poised_move {v : Text × Text} {op : EdM Unit} (hs : Poised h fs u g s) (hv : v.1 ++ v.2 = u.1 ++ u.2)
    (e : ∀ p l c o n b ch, b.data = u.1 ++ u.2 → op (poise p l c o n h fs g u.1.length b ch) =
      display E (poise p l c o n h fs g v.1.length b ch)) : Ensues op s (Poised h fs v (proposal h (v.1 ++ v.2))) := by
  obtain ⟨p, l, c, o, n, b, ch, hb, rfl⟩ := hs
  exact poised_of (e _ _ _ _ _ _ _ hb) ⟨_, _, _, _, _, _, _, hb.trans hv.symm, rfl⟩

theorem poised_left (hs : Poised h fs u g s) :
    Ensues (moveCursorLeft E 1) s (Poised h fs (Spec.goLeft u) (proposal h ((Spec.goLeft u).1 ++ (Spec.goLeft u).2))) := by
  obtain ⟨l, r⟩ := u
  rcases List.eq_nil_or_concat l with rfl | ⟨l, c, rfl⟩
  · exact poised_move hs rfl fun p l c o n b ch hb => rfl
  · refine poised_move (E := E) hs (by simp [Spec.goLeft]) fun p l c o n b ch hb => ?_
    simp [moveCursorLeft, bind, M.bind, M.modify, Spec.goLeft, poise]

theorem poised_right (hs : Poised h fs u g s) :
    Ensues (moveCursorRight E 1) s (Poised h fs (Spec.goRight u) (proposal h ((Spec.goRight u).1 ++ (Spec.goRight u).2))) := by
  obtain ⟨l, r⟩ := u
  cases r with
  | nil =>
    refine poised_move (E := E) hs (by simp [Spec.goRight]) fun p l c o n b ch hb => ?_
    simp [moveCursorRight, bind, M.bind, M.get, curBuf, Ed.curBuf?, Buffer.numChars, M.modify, hb, Spec.goRight, poise]
  | cons y r =>
    refine poised_move (E := E) hs (by simp [Spec.goRight]) fun p li c o n b ch hb => ?_
    have h1 : ¬ l.length + (r.length + 1) < l.length := by omega
    have h2 : ¬ l.length + (r.length + 1) - l.length = 0 := by omega
    simp [moveCursorRight, bind, M.bind, M.get, curBuf, Ed.curBuf?, Buffer.numChars, hb, Spec.goRight, poise, h1, M.modify]

theorem poised_home (hs : Poised h fs u g s) :
    Ensues (moveCursorToStartOfLine E) s (Poised h fs ([], u.1 ++ u.2) (proposal h (u.1 ++ u.2))) :=
  poised_move (v := ([], u.1 ++ u.2)) hs rfl fun _ _ _ _ _ _ _ _ => rfl

theorem poised_end (hs : Poised h fs u g s) :
    Ensues (moveCursorToEndOfLine E) s (Poised h fs (u.1 ++ u.2, []) (proposal h ((u.1 ++ u.2) ++ []))) := by
  refine poised_move (E := E) (v := (u.1 ++ u.2, [])) hs (by simp) fun p l c o n b ch hb => ?_
  simp [moveCursorToEndOfLine, bind, M.bind, curBuf, Ed.curBuf?, Buffer.numChars, M.modify, hb, poise]

theorem poised_insert (hs : Poised h fs u g s) (y : Char) :
    Ensues (insertCharsAfterCursor E [y]) s (Poised h fs (u.1 ++ [y], u.2) (proposal h ((u.1 ++ [y]) ++ u.2))) := by
  obtain ⟨p, l, c, o, n, b, ch, hb, rfl⟩ := hs
  refine poised_of (E := E) (s2 := poise p l c o n h fs g (u.1 ++ [y]).length
    (Buffer.pushAction { b with data := u.1 ++ [y] ++ u.2 } (.insert u.1.length [y])) true) ?_ ⟨_, _, _, _, _, _, _, rfl, rfl⟩
  have hi := insertRaw_append u.1 [y] u.2
  rw [← hb] at hi
  simp [insertCharsAfterCursor, bind, M.bind, M.get, curBufMut, workBuf, noRes, Buffer.insert, Action.doOn, hi, setCur, M.modify, poise]

theorem poised_backspace (hs : Poised h fs u g s) :
    Ensues (deleteBeforeCursor E) s (Poised h fs (u.1.dropLast, u.2) (proposal h (u.1.dropLast ++ u.2))) := by
  obtain ⟨l, r⟩ := u
  obtain ⟨p, li, c, o, n, b, ch, hb, rfl⟩ := hs
  rcases List.eq_nil_or_concat l with rfl | ⟨l, y, rfl⟩
  · refine poised_of (E := E) (s2 := poise p li c o n h fs g 0 b ch) ?_ ⟨_, _, _, _, _, _, _, hb, rfl⟩
    simp [deleteBeforeCursor, bind, M.bind, M.get]
  · have hr := removeRaw_append l [y] r
    simp only [List.concat_eq_append] at hb
    rw [← hb] at hr
    refine poised_of (E := E) (g := g) (s2 := poise p li c o n h fs g l.length
      (Buffer.pushAction { b with data := l ++ r } (.remove l.length [y])) true) ?_
        ⟨p, li, c, o, n, Buffer.pushAction { b with data := l ++ r } (.remove l.length [y]), true,
          by show l ++ r = _; simp, by simp⟩
    simp only [List.length_singleton] at hr
    simp [deleteBeforeCursor, bind, M.bind, M.get, curBufMut, workBuf, Buffer.remove, hr, setCur, M.modify, poise]

theorem poised_delete (hs : Poised h fs u g s) :
    Ensues (deleteAfterCursor E) s (Poised h fs (u.1, u.2.tail) (proposal h (u.1 ++ u.2.tail))) := by
  obtain ⟨l, r⟩ := u
  obtain ⟨p, li, c, o, n, b, ch, hb, rfl⟩ := hs
  cases r with
  | nil =>
    refine poised_of (E := E) (s2 := poise p li c o n h fs g l.length b true) ?_ ⟨_, _, _, _, _, _, _, hb, rfl⟩
    simp [deleteAfterCursor, bind, M.bind, M.get, curBufMut, workBuf, setCur, Buffer.numChars, hb, poise]
  | cons y r =>
    have hr := removeRaw_append l [y] r
    have hb' : b.data = l ++ [y] ++ r := by simpa using hb
    rw [← hb'] at hr
    refine poised_of (E := E) (s2 := poise p li c o n h fs g l.length
      (Buffer.pushAction { b with data := l ++ r } (.remove l.length [y])) true) ?_ ⟨_, _, _, _, _, _, _, rfl, rfl⟩
    simp only [List.length_singleton] at hr
    simp [deleteAfterCursor, bind, M.bind, M.get, curBufMut, workBuf, setCur, Buffer.numChars, Buffer.remove, hb', poise]
    rw [hb'] at hr; simp only [List.append_assoc, List.singleton_append] at hr; simp [hr]

theorem poised_kill (hs : Poised h fs u g s) :
    Ensues (deleteAllBeforeCursor E) s (Poised h fs ([], u.2) (proposal h ([] ++ u.2))) := by
  obtain ⟨p, li, c, o, n, b, ch, hb, rfl⟩ := hs
  have hr := removeRaw_append [] u.1 u.2
  simp only [List.nil_append, List.length_nil, Nat.zero_add] at hr
  rw [← hb] at hr
  refine poised_of (E := E) (s2 := poise p li c o n h fs g 0 (Buffer.pushAction { b with data := u.2 } (.remove 0 u.1)) true) ?_
    ⟨_, _, _, _, _, _, _, rfl, rfl⟩
  simp [deleteAllBeforeCursor, bind, M.bind, M.get, curBufMut, workBuf, setCur, Buffer.remove, hr, M.modify, poise]

theorem poised_killAfter (hs : Poised h fs u g s) :
    Ensues (deleteAllAfterCursor E) s (Poised h fs (u.1, []) (proposal h (u.1 ++ []))) := by
  obtain ⟨p, li, c, o, n, b, ch, hb, rfl⟩ := hs
  have hr := removeRaw_append u.1 u.2 []
  simp only [List.append_nil] at hr
  rw [← List.length_append, ← hb] at hr
  refine poised_of (E := E) (s2 := poise p li c o n h fs g u.1.length (Buffer.pushAction { b with data := u.1 } (.remove u.1.length u.2)) true) ?_
    ⟨_, _, _, _, _, _, _, by simp [Buffer.pushAction], rfl⟩
  simp [deleteAllAfterCursor, bind, M.bind, M.get, curBufMut, workBuf, setCur, noRes, Buffer.truncate, Buffer.remove, hr, poise]

theorem poised_accept {y : Buffer} (hs : Poised h fs u (some y) s) (hy : proposal h (u.1 ++ u.2) = some y) :
    Ensues (acceptAutosuggestion E) s (Poised h fs (y.data, []) (proposal h (y.data ++ []))) := by
  obtain ⟨z, hz⟩ := proposal_prefix hy
  obtain ⟨p, li, c, o, n, b, ch, hb, rfl⟩ := hs
  have hl : b.data.length ≤ y.data.length := by rw [← hz, hb]; simp
  have hd : y.data.drop b.data.length = z := by rw [← hz, hb]; simp
  have hi : insertRaw b.data b.data.length z = some y.data := by
    rw [insertRaw_eq _ _ _ (Nat.le_refl _)]
    rw [List.take_length, List.drop_length, List.append_nil, hb, hz]
  have e1 : acceptAutosuggestion E (poise p li c o n h fs (some y) u.1.length b ch) = display E
      (poise p li c o n h fs (some y) y.data.length
        (Buffer.pushAction { b with data := y.data } (.insert b.data.length z)) true) := by
    simp [acceptAutosuggestion, bind, M.bind, M.get, curBufMut, workBuf, noRes, Buffer.insertFromBuffer, Buffer.insert,
      Action.doOn, setCur, M.modify, Ed.isSearch, clearSearch, hl, hd, hi, moveCursorToEndOfLine, curBuf, Ed.curBuf?, poise,
      Buffer.numChars, Buffer.pushAction]
  exact poised_of e1 ⟨_, _, _, _, _, _, _, by simp [Buffer.pushAction], rfl⟩

/-- One key, from what the dispatch makes of it. -/
theorem poised_step {comp : Text → List Text} {key : Key} {op : EdM Unit} {v : Text × Text} {w : Option Buffer}
    (hs : Poised h fs u g s)
    (hd : Emacs.keyMap.dispatch E comp (u.1 ++ u.2).isEmpty (KeyMap.translate key) (({} : Emacs), s) =
      (ed op >>= fun _ => pure false : KM Emacs Bool) (({} : Emacs), s))
    (ho : Ensues op s (Poised h fs v w)) :
    Lost (Emacs.keyMap.handleKey E comp key ({}, s)) ∨
      ∃ s1, Emacs.keyMap.handleKey E comp key ({}, s) = .ok false ({}, s1) ∧ Poised h fs v w s1 := by
  have hc : ∃ b : Buffer, curBuf s = .ok b s ∧ b.isEmpty = (u.1 ++ u.2).isEmpty := by
    obtain ⟨p, l, c, o, n, b, ch, e, rfl⟩ := hs
    exact ⟨b, rfl, by unfold Buffer.isEmpty; rw [e]⟩
  obtain ⟨b, hb, hbe⟩ := hc
  rw [← hbe] at hd
  have e : Emacs.keyMap.handleKey E comp key (({} : Emacs), s) =
      (ed (op >>= fun _ => flush E) >>= fun _ => pure false : KM Emacs Bool) (({} : Emacs), s) := by
    have e1 : Emacs.keyMap.handleKey E comp key (({} : Emacs), s) =
        (Emacs.keyMap.dispatch E comp b.isEmpty (KeyMap.translate key) >>= fun done =>
          (ed (flush E) >>= fun _ => pure done : KM Emacs Bool)) (({} : Emacs), s) := by
      unfold KeyMap.handleKey
      simp only [bind, M.bind, ed, M.zoom, hb]
    rw [e1]
    simp only [bind, M.bind, hd]
    simp only [ed, M.zoom, M.bind, pure, M.pure]
    cases op s with
    | ok a s => dsimp only
    | err => rfl
    | panic => rfl
  rw [e]
  have hr : Ensues (op >>= fun _ => flush E) s (Poised h fs v w) := by
    refine ho.bind fun s2 b2 => ?_
    rcases outer_flush E s2 with h3 | ⟨s3, e3, a3⟩
    · exact .inl h3
    · exact .inr ⟨s3, e3, b2.outer a3⟩
  show Lost (M.bind (ed _) _ _) ∨ ∃ s1, M.bind (ed _) _ _ = _ ∧ _
  unfold M.bind ed M.zoom
  dsimp only
  rcases hr with h3 | ⟨s3, e3, a3⟩
  · left
    revert h3
    generalize (op >>= fun _ => flush E) s = r
    cases r <;> simp [Lost]
  · rw [e3]
    exact .inr ⟨s3, rfl, a3⟩

theorem poised_skip {op : EdM Unit} {v : Text × Text} {w : Option Buffer} (ho : Ensues op s (Poised h fs v w)) :
    Ensues (op >>= fun _ => skipCompletionsHint) s (Poised h fs v w) := by
  refine ho.bind fun s1 b1 => .inr ⟨_, rfl, ?_⟩
  obtain ⟨p, l, c, o, n, b, ch, e, rfl⟩ := b1
  exact ⟨_, _, _, _, _, _, _, e, rfl⟩

/-- The line after one editing key. -/
theorem poised_edit (hs : Poised h fs u (proposal h (u.1 ++ u.2)) s) (comp : Text → List Text) {key : Key}
    (hk : Spec.editing key = true) (hd : ¬ (key = .ctrl 'd' ∧ u = ([], []))) :
    Lost (Emacs.keyMap.handleKey E comp key ({}, s)) ∨
      ∃ s1, Emacs.keyMap.handleKey E comp key ({}, s) = .ok false ({}, s1) ∧
        ∃ v, v = Spec.edit ((proposal h (u.1 ++ u.2)).map (·.data)) key u ∧ Poised h fs v (proposal h (v.1 ++ v.2)) s1 := by
  suffices hmain : ∃ v, v = Spec.edit ((proposal h (u.1 ++ u.2)).map (·.data)) key u ∧
      (Lost (Emacs.keyMap.handleKey E comp key ({}, s)) ∨
        ∃ s1, Emacs.keyMap.handleKey E comp key ({}, s) = .ok false ({}, s1) ∧ Poised h fs v (proposal h (v.1 ++ v.2)) s1) by
    obtain ⟨v, ev, h1 | ⟨s1, e1, p1⟩⟩ := hmain
    · exact .inl h1
    · exact .inr ⟨s1, e1, v, ev, p1⟩
  have hg : s.autosuggestion = proposal h (u.1 ++ u.2) := by
    obtain ⟨p, l, c, o, n, b, ch, e, rfl⟩ := hs; rfl
  have hsc : ∀ {y}, proposal h (u.1 ++ u.2) = some y → Poised h fs u (some y) s := fun e => e ▸ hs
  have hend : cursorIsAtEndOfLine s = .ok (decide (u.2 = [])) s := by
    obtain ⟨p, l, c, o, n, b, ch, e, rfl⟩ := hs
    have : (u.1.length = u.1.length + u.2.length) ↔ u.2 = [] := by
      rw [← List.length_eq_zero_iff]; omega
    simp [cursorIsAtEndOfLine, bind, M.bind, M.get, curBuf, Ed.curBuf?, Buffer.numChars, pure, M.pure, e]
  cases key with
  | char y =>
    have ht : KeyMap.translate (.char y) = .char y := by simp [KeyMap.translate]
    simp only [Spec.editing, Bool.and_eq_true, bne_iff_ne, ne_eq] at hk
    exact ⟨_, rfl, poised_step hs (by rw [ht]; exact dispatch_body _ (by simp [hk.1, hk.2]) (by simp) rfl)
      (poised_skip (poised_insert hs y))⟩
  | left => exact ⟨_, rfl, poised_step hs (dispatch_body _ (by decide) (fun h => absurd h (by decide)) rfl) (poised_skip (poised_left hs))⟩
  | home => exact ⟨_, rfl, poised_step hs (dispatch_body _ (by decide) (fun h => absurd h (by decide)) rfl) (poised_skip (poised_home hs))⟩
  | «end» => exact ⟨_, rfl, poised_step hs (dispatch_body _ (by decide) (fun h => absurd h (by decide)) rfl) (poised_skip (poised_end hs))⟩
  | backspace => exact ⟨_, rfl, poised_step hs (dispatch_body _ (by decide) (fun h => absurd h (by decide)) rfl) (poised_skip (poised_backspace hs))⟩
  | delete => exact ⟨_, rfl, poised_step hs (dispatch_body _ (by decide) (fun h => absurd h (by decide)) rfl) (poised_skip (poised_delete hs))⟩
  | right =>
    cases hp : proposal h (u.1 ++ u.2) with
    | none =>
      rw [hp] at hg
      exact ⟨_, rfl, poised_step hs (dispatch_body _ (by decide) (fun _ => hg) rfl) (poised_skip (poised_right hs))⟩
    | some y =>
      rw [hp] at hg
      have ht : KeyMap.translate .right = .right := by simp [KeyMap.translate]
      by_cases hr : u.2 = []
      · refine ⟨(y.data, []), by simp [Spec.edit, hr], poised_step hs ?_ (poised_accept (E := E) (hsc hp) hp)⟩
        rw [ht]
        unfold KeyMap.dispatch
        simp [bind, M.bind, ed, M.zoom, M.get, hg, hend, hr]
      · refine ⟨Spec.goRight u, by simp [Spec.edit, hr], poised_step hs ?_ (poised_skip (poised_right (E := E) hs))⟩
        rw [ht]
        unfold KeyMap.dispatch
        simp only [bind, M.bind, ed, M.zoom, M.get, hg, hend, hr, pure, M.pure, Emacs.keyMap, Emacs.handleKeyCore, modK,
          Emacs.handleKeyBody, reduceCtorEq, false_and, if_false, Option.isSome_some, and_self, if_true, decide_false,
          Bool.false_eq_true]
        cases moveCursorRight E 1 s <;> rfl
  | ctrl c =>
    by_cases c1 : c = 'h'
    · subst c1
      exact ⟨_, rfl, poised_step hs (dispatch_body _ (by decide) (fun h => absurd h (by decide)) rfl) (poised_skip (poised_backspace hs))⟩
    have ht : KeyMap.translate (.ctrl c) = .ctrl c := by simp [KeyMap.translate, c1]
    by_cases c2 : c = 'f'
    · subst c2
      cases hp : proposal h (u.1 ++ u.2) with
      | none =>
        rw [hp] at hg
        exact ⟨_, rfl, poised_step hs (dispatch_body _ (by decide) (fun _ => hg) rfl) (poised_skip (poised_right hs))⟩
      | some y =>
        rw [hp] at hg
        refine ⟨(y.data, []), rfl, poised_step hs ?_ (poised_accept (E := E) (hsc hp) hp)⟩
        rw [ht]
        unfold KeyMap.dispatch
        simp [bind, M.bind, ed, M.zoom, M.get, hg]
    by_cases c3 : c = 'd'
    · subst c3
      have hu : (u.1 ++ u.2).isEmpty = false := by
        rw [Bool.eq_false_iff]
        intro hu
        rw [List.isEmpty_iff, List.append_eq_nil_iff] at hu
        exact hd ⟨rfl, Prod.ext hu.1 hu.2⟩
      refine ⟨_, rfl, poised_step hs ?_ (poised_skip (poised_delete (E := E) hs))⟩
      rw [ht, hu]
      unfold KeyMap.dispatch
      simp only [bind, M.bind, ed, M.zoom, M.get, pure, M.pure, Emacs.keyMap, Emacs.handleKeyCore, modK,
        Emacs.handleKeyBody, Emacs.handleCtrlKey, reduceCtorEq, false_and, and_false, if_false, Key.ctrl.injEq,
        Bool.false_eq_true, Char.reduceEq, if_true]
      cases deleteAfterCursor E s <;> rfl
    have hc : c ∈ ['a', 'e', 'b', 'u', 'k'] := by
      simp only [Spec.editing, decide_eq_true_eq, List.mem_cons, List.not_mem_nil, or_false] at hk
      simp only [List.mem_cons, List.not_mem_nil, or_false]
      tauto
    simp only [List.mem_cons, List.not_mem_nil, or_false] at hc
    rcases hc with rfl | rfl | rfl | rfl | rfl
    · exact ⟨_, rfl, poised_step hs (dispatch_body _ (by decide) (fun h => absurd h (by decide)) rfl) (poised_skip (poised_home hs))⟩
    · exact ⟨_, rfl, poised_step hs (dispatch_body _ (by decide) (fun h => absurd h (by decide)) rfl) (poised_skip (poised_end hs))⟩
    · exact ⟨_, rfl, poised_step hs (dispatch_body _ (by decide) (fun h => absurd h (by decide)) rfl) (poised_skip (poised_left hs))⟩
    · exact ⟨_, rfl, poised_step hs (dispatch_body _ (by decide) (fun h => absurd h (by decide)) rfl) (poised_skip (poised_kill hs))⟩
    · exact ⟨_, rfl, poised_step hs (dispatch_body _ (by decide) (fun h => absurd h (by decide)) rfl) (poised_skip (poised_killAfter hs))⟩
  | _ => cases hk

/-- The line after some editing keys; `f` gives the suggestion for a text. -/
theorem poised_edits (input : List KeyMap.Input) {f : Text → Option Text} (hf : ∀ x, (proposal h x).map (·.data) = f x) :
    ∀ (keys : List (Key × (Text → List Text))) (u : Text × Text) (s : Ed), Poised h fs u (proposal h (u.1 ++ u.2)) s →
      (∀ k ∈ keys, Spec.editing k.1 = true) →
      (∀ a c, keys.map Prod.fst = a ++ .ctrl 'd' :: c →
        a.foldl (fun t key => Spec.edit (f (t.1 ++ t.2)) key t) u ≠ ([], [])) →
      Lost (Emacs.keyMap.loop E (keys.map (fun k => .key k.1 k.2) ++ input) ({}, s)) ∨
      ∃ s1 v, Emacs.keyMap.loop E (keys.map (fun k => .key k.1 k.2) ++ input) ({}, s) = Emacs.keyMap.loop E input ({}, s1) ∧
        v = (keys.map Prod.fst).foldl (fun t key => Spec.edit (f (t.1 ++ t.2)) key t) u ∧
        Poised h fs v (proposal h (v.1 ++ v.2)) s1
  | [], u, s, hs, _, _ => .inr ⟨s, u, rfl, rfl, hs⟩
  | k :: keys, u, s, hs, hk, hd => by
    have hcons : Emacs.keyMap.loop E ((k :: keys).map (fun k => .key k.1 k.2) ++ input) (({} : Emacs), s) =
        (Emacs.keyMap.handleKey E k.2 k.1 >>= fun done =>
          if done then ed M.get >>= fun s => ofOption (intoText s)
          else Emacs.keyMap.loop E (keys.map (fun k => .key k.1 k.2) ++ input)) (({} : Emacs), s) := rfl
    rw [hcons]
    show Lost (M.bind _ _ _) ∨ ∃ s1 v, M.bind _ _ _ = _ ∧ _
    unfold M.bind
    rcases poised_edit (E := E) hs k.2 (hk k (by simp))
        (fun e => hd [] (keys.map Prod.fst) (by simp [e.1]) (by simp [e.2])) with h3 | ⟨s1, e1, v, ev, b1⟩
    · left
      revert h3
      generalize Emacs.keyMap.handleKey E k.2 k.1 _ = r
      cases r <;> simp [Lost]
    · rw [e1]
      rw [hf] at ev
      subst ev
      exact poised_edits input hf keys _ s1 b1 (fun k' hk' => hk k' (by simp [hk']))
        fun a c hac => hd (k.1 :: a) c (by simp [hac])

/-- Two runs from there. -/
theorem poised_loop {E' : Env} (hw : SameWords E E') (input : List KeyMap.Input)
    (hk : ∀ k comp, KeyMap.Input.key k comp ∈ input → k ≠ .ctrl 'x' ∧ k ≠ .alt 'r') (hs : Poised h fs u g s)
    (ht : Poised h fs u g t) :
    Pair (OnK (Akin False)) (Emacs.keyMap.loop E input ({}, s)) (Emacs.keyMap.loop E' input ({}, t)) := by
  refine akin_loop (Q := Eq) Emacs.keyMap Emacs.keyMap input (fun k comp h => ?_) _ _ ⟨rfl, hs.akin False ht⟩
  obtain ⟨h1, h2⟩ := hk k comp h
  refine akin_handleKey hw _ _ comp k fun _ _ _ => akin_emacs hw ?_ ?_
  · unfold KeyMap.translate; split
    · exact nofun
    · exact h1
  · unfold KeyMap.translate; split
    · exact nofun
    · exact h2

end

end Liner
