import Verif.Spec.Sheet
import Verif.Proof.ViBoard
import Verif.Proof.Beside
/-
The Emacs keys on a line, and the sheet.
-/

namespace Liner
namespace Editor
open Liner.Spec Liner.Props

/-! ### How many edits an operation logs -/

/-- So many edits. -/
def Count (n : Nat) (es : List Action) : Prop := Plainly es ∧ es.length = n

theorem count_nothing {es : List Action} (h : Nothing es) : Count 0 es := by
  cases h; exact ⟨by simp [Plainly], rfl⟩

/-- A buffer operation that is one edit. -/
def OneEdit {α : Type} (f : Buffer → Option (α × Buffer)) : Prop :=
  ∀ b a b', f b = some (a, b') → ∃ es, Count 1 es ∧ b'.actions = es ++ b.actions ∧ Path es b.data b'.data

theorem one_of {b b' : Buffer} (e : Edit) (hr : runEdit b e = some b') (ha : e.apply b.data ≠ none) :
    ∃ es, Count 1 es ∧ b'.actions = es ++ b.actions ∧ Path es b.data b'.data := by
  obtain ⟨x, hx⟩ := Option.ne_none_iff_exists'.mp ha
  obtain ⟨a, h1, h2, h3⟩ := runEdit_spec b e x hx
  rw [hr] at h3; cases h3
  exact ⟨[a], ⟨by simpa [Plainly] using h1, rfl⟩, rfl, .cons (.nil _) h2⟩

theorem one_remove {b b' : Buffer} {i j n : Nat} (h : b.remove i j = some (n, b')) :
    ∃ es, Count 1 es ∧ b'.actions = es ++ b.actions ∧ Path es b.data b'.data := by
  refine one_of (.remove i j) (by simp [runEdit, h]) ?_
  intro hn
  have := (Props.C01_remove_panics_iff b i j).mpr (by
    simp only [Edit.apply, ite_eq_right_iff, reduceCtorEq, imp_false] at hn; omega)
  rw [this] at h; cases h

theorem oneEdit_remove (i j : Nat) : OneEdit (fun b => b.remove i j) := fun _ _ _ h => one_remove h

theorem oneEdit_truncate (i : Nat) : OneEdit (noRes fun b => b.truncate i) := by
  intro b a b' h
  simp only [noRes, Buffer.truncate, Option.map_map, Option.map_eq_some_iff] at h
  obtain ⟨⟨n, w⟩, h, he⟩ := h
  cases he
  exact one_remove h

theorem oneEdit_insert (i : Nat) {cs : Text} (hc : cs ≠ []) : OneEdit (noRes fun b => b.insert i cs) := by
  intro b a b' h
  simp only [noRes, Option.map_eq_some_iff] at h
  obtain ⟨w, h, he⟩ := h
  cases he
  refine one_of (.insert i cs) h ?_
  intro hn
  simp only [Edit.apply, ite_eq_right_iff, reduceCtorEq, imp_false] at hn
  rw [(Props.C01_insert_panics_iff b i cs).mpr ⟨by omega, hc⟩] at h
  cases h

section
variable (E : Env) {s : Ed} {l r : Text}

/-- The state after an operation that logs `n` edits. -/
def Lands (s : Ed) (n : Nat) (t c : Bool) (l r : Text) (s' : Ed) : Prop :=
  Settled false s s' l r ∧ Grew (Count n) s s' ∧ Beside t c s s'

/-- The operation does not panic except in the redraw. -/
abbrev Writes {α : Type} (m : EdM α) (s : Ed) (n : Nat) (t c : Bool) (l r : Text) : Prop :=
  Wp m s (fun _ s' => Lands s n t c l r s') (fun _ _ => True) (· ≠ .op)

variable {t c : Bool}

theorem writes_of {α : Type} {m : EdM α} {n : Nat} (h1 : Yields m false s s l r)
    (h2 : Wp m s (fun _ s' => Grew (Count n) s s') (fun _ _ => True) (fun _ => True))
    (h3 : Wp m s (fun _ s' => Beside t c s s') (fun _ _ => True) (fun _ => True)) : Writes m s n t c l r :=
  wp_mono (wp_and h1 (wp_and h2 h3)) (fun _ _ h => h) (fun _ _ _ => trivial) (fun _ h => h.1)

theorem writes_none {α : Type} {m : EdM α} (h1 : Yields m false s s l r) (hq : s.isSearch = false) (h2 : Gw Nothing m)
    (h3 : Bs t c m) : Writes m s 0 t c l r :=
  writes_of h1 (wp_mono (h2 s hq) (fun _ _ h => h.mono fun _ => count_nothing) (fun _ _ h => h) (fun _ h => h)) (h3 s hq)

theorem writes_one {α : Type} {m : EdM α} (h1 : Yields m false s s l r) (hq : s.isSearch = false) (h2 : Gw (Count 1) m)
    (h3 : Bs t c m) : Writes m s 1 t c l r := writes_of h1 (h2 s hq) (h3 s hq)

theorem gw1_insert {cs : Text} (hc : cs ≠ []) : Gw (Count 1) (insertCharsAfterCursor E cs) := by
  unfold insertCharsAfterCursor
  exact gw_quiet gw_get fun s => gw_then (gw_curBufMut (oneEdit_insert s.cursor hc)) fun _ => by gw
theorem gw1_deleteAllBefore : Gw (Count 1) (deleteAllBeforeCursor E) := by
  unfold deleteAllBeforeCursor
  exact gw_quiet gw_get fun s => gw_then (gw_curBufMut (oneEdit_remove _ _)) fun _ => by gw
theorem gw1_deleteAllAfter : Gw (Count 1) (deleteAllAfterCursor E) := by
  unfold deleteAllAfterCursor
  exact gw_quiet gw_get fun s => gw_then (gw_curBufMut (oneEdit_truncate _)) fun _ => by gw
theorem gw1_deleteUntil (p : Nat) : Gw (Count 1) (deleteUntil E p) := by
  unfold deleteUntil
  exact gw_quiet gw_get fun s => gw_then (gw_curBufMut (oneEdit_remove _ _)) fun _ => by gw

theorem backspace_writes (h : Open false s l r) :
    Writes (deleteBeforeCursor E) s (if l = [] then 0 else 1) (l ≠ []) false l.dropLast r := by
  have key : Wp (deleteBeforeCursor E) s
      (fun _ s' => Grew (Count (if l = [] then 0 else 1)) s s' ∧ Beside (l ≠ []) false s s') (fun _ _ => True) (fun _ => True) := by
    unfold deleteBeforeCursor
    rw [wp_bind, wp_get]
    dsimp only
    by_cases hl : l = []
    · rw [if_neg (by simp [h.here.2, hl]), if_pos hl, show (decide (l ≠ [])) = false by simp [hl]]
      exact wp_mono (wp_and (gw_display E s h.quiet) (bs_display E s h.quiet))
        (fun _ _ h => ⟨h.1.mono fun _ => count_nothing, h.2⟩) (fun _ _ h => trivial) (fun _ h => trivial)
    · rw [if_pos (by rw [h.here.2]; exact List.length_pos_iff.2 hl), if_neg hl, show (decide (l ≠ [])) = true by simp [hl]]
      exact wp_mono (wp_and (gw_then (gw_curBufMut (oneEdit_remove _ _)) (fun _ => by gw) s h.quiet)
        (bs_then bs_curBufMut (fun _ => by bs) s h.quiet)) (fun _ _ h => h) (fun _ _ h => trivial) (fun _ h => trivial)
  exact writes_of (backspace_sets E h) (wp_mono key (fun _ _ h => h.1) (fun _ _ h => h) (fun _ h => h))
    (wp_mono key (fun _ _ h => h.2) (fun _ _ h => h) (fun _ h => h))

theorem delete_writes (h : Open false s l r) :
    Writes (deleteAfterCursor E) s (if r = [] then 0 else 1) true false l r.tail := by
  refine writes_of (delete_sets E h) ?_ (bs_delete E s h.quiet)
  obtain ⟨b0, h0, h1⟩ := text?_eq.mp h.here.1
  obtain ⟨w, hw, hwd⟩ := workBuf_of_curBuf h0
  have hlen : s.cursor < w.numChars ↔ r ≠ [] := by
    rw [h.here.2, Buffer.numChars, hwd, h1, List.length_append]
    cases r <;> simp
  unfold deleteAfterCursor
  rw [wp_bind, wp_get, wp_bind, wp_curBufMut]
  refine ⟨fun b a b' hb hf => ?_, fun _ => trivial⟩
  rw [hw] at hb; cases hb
  have hq : (setCur s b').isSearch = false := by rw [setCur_quiet]; exact h.quiet
  have key : Grew (Count (if r = [] then 0 else 1)) s (setCur s b') := by
    refine ⟨hq, fun v hv => ?_⟩
    rw [hw] at hv; cases hv
    by_cases hr : r = []
    · rw [if_neg (by rw [hlen]; simp [hr])] at hf
      cases hf
      rw [if_pos hr]
      exact ⟨w, [], setCur_workBuf _ _, count_nothing rfl, rfl, .nil _⟩
    · rw [if_pos (hlen.2 hr), Option.map_eq_some_iff] at hf
      obtain ⟨⟨n, x⟩, hx, he⟩ := hf
      cases he
      obtain ⟨es, g1, g2, g3⟩ := one_remove hx
      rw [if_neg hr]
      exact ⟨_, es, setCur_workBuf _ _, g1, g2, g3⟩
  exact wp_mono (gw_display E _ hq) (fun _ _ h' => key.trans h' (fun x y hx hy => by rw [hy]; exact hx))
    (fun _ _ h => h) (fun _ h => h)

theorem accept_writes {x : Buffer} (h : Ready s l r) (hx : s.autosuggestion = some x) :
    Writes (acceptAutosuggestion E) s 1 true true x.data [] := by
  refine writes_of (accept_sets E h.here (Side.refl _) h.show' hx (h.sug x hx)) ?_ ?_
  rotate_left
  · unfold acceptAutosuggestion
    rw [wp_bind, wp_get]
    dsimp only
    rw [h.show', if_pos rfl]
    exact bs_bind bs_curBufMut (fun _ => bs_then bs_clearSearch fun _ => bs_end E) s h.here.quiet
  unfold acceptAutosuggestion clearSearch
  rw [wp_bind, wp_get]
  dsimp only
  rw [h.show', if_pos rfl]
  refine gw_then (gw_curBufMut (P := Count 1) fun b a b' hf => ?_) (fun _ => ?_) s h.here.quiet
  · simp only [noRes, hx, h.here.quiet, Bool.false_eq_true, if_false, Option.map_eq_some_iff] at hf
    obtain ⟨w, hf, he⟩ := hf
    cases he
    unfold Buffer.insertFromBuffer at hf
    dsimp only at hf
    split at hf
    · exact one_of (.insert _ _) hf (by simp [Edit.apply])
    · cases hf
  · have h1 := gw_end E
    refine gw_quiet (gw_modify (fun s hs => ?_) fun s => workBuf_same rfl rfl rfl rfl rfl) fun _ => h1
    simp [Ed.isSearch]

/-- Deleting the word before the cursor. -/
theorem deleteWord_writes {m : Text} {ws : List (Nat × Nat)} {e : Nat} (h : Open false s (l ++ m) r)
    (hd : ∀ b, s.curBuf? = some b → E.words b = ws) (hsep : Separated ws)
    (hp : WordBefore ws (l ++ m).length true (l.length, e)) : Writes (deleteWordBeforeCursor E true) s 1 true false l r := by
  obtain ⟨b0, h0, h1⟩ := text?_eq.mp h.here.1
  simp only [Writes, deleteWordBeforeCursor, getWordBeforeCursor, wordsAndPos, wp_bind, wp_curBuf, wp_get, wp_pure]
  refine ⟨fun b hb => ?_, fun hn => by rw [h0] at hn; cases hn⟩
  rw [hd b hb, h.here.2, (wordBefore_iff hsep _ _ _).mpr hp]
  simp only [wp_bind, wp_get]
  obtain ⟨w, hw, hwd⟩ := workBuf_of_curBuf h0
  obtain ⟨b', h3, h4⟩ := Props.C01_remove w l m r (by rw [hwd, h1])
  have hrem : w.remove l.length s.cursor = some (m.length, b') := by
    rw [h.here.2]; simpa using h3
  rw [wp_curBufMut]
  refine ⟨fun w' a b1 hw' hf => ?_, ?_⟩
  · rw [hw] at hw'; cases hw'
    rw [hrem] at hf; cases hf
    unfold Wp cursorSub
    rw [setCur_cursor, h.here.2, if_pos (by simp)]
    have ho : Open false { setCur s b' with cursor := (l ++ m).length - m.length } l r := h.set h4 (by simp)
    have hg : Grew (Count 1) s { setCur s b' with cursor := (l ++ m).length - m.length } := by
      refine ⟨ho.quiet, fun v hv => ?_⟩
      rw [hw] at hv; cases hv
      obtain ⟨es, g1, g2, g3⟩ := one_remove hrem
      exact ⟨b', es, setCur_workBuf s b', g1, g2, g3⟩
    have hbs : Beside true false s { setCur s b' with cursor := (l ++ m).length - m.length } := by
      have := Beside.setCur h.quiet b'
      exact ⟨this.quiet, this.loc, this.walk, this.met, this.new, this.copy, this.valid⟩
    refine wp_mono (wp_and (display_sets E ho (side_set (Side.refl s) _ _))
      (wp_and (gw_display E _ ho.quiet) (bs_display E _ ho.quiet))) (fun _ _ h' => ?_)
      (fun _ _ _ => trivial) (fun _ h => h.1)
    exact ⟨h'.1, hg.trans h'.2.1 (fun x y hx hy => by rw [hy]; exact hx), by simpa using hbs.trans h'.2.2⟩
  · rintro (h5 | ⟨w', h5, h6⟩)
    · rw [hw] at h5; cases h5
    · rw [hw] at h5; cases h5; rw [hrem] at h6; cases h6

theorem deleteWord_writes_none {ws : List (Nat × Nat)} (h : Open false s l r)
    (hd : ∀ b, s.curBuf? = some b → E.words b = ws) (hsep : Separated ws)
    (hp : ∀ p, ¬ WordBefore ws l.length true p) : Writes (deleteWordBeforeCursor E true) s 0 false false l r := by
  obtain ⟨b0, h0, h1⟩ := text?_eq.mp h.here.1
  simp only [Writes, deleteWordBeforeCursor, getWordBeforeCursor, wordsAndPos, wp_bind, wp_curBuf, wp_get, wp_pure]
  refine ⟨fun b hb => ?_, fun hn => by rw [h0] at hn; cases hn⟩
  have : wordBefore ws (CursorPosition.get l.length ws) true = none := by
    cases hw : wordBefore ws (CursorPosition.get l.length ws) true with
    | none => rfl
    | some p => exact absurd ((wordBefore_iff hsep _ _ _).mp hw) (hp p)
  rw [hd b hb, h.here.2, this]
  exact writes_none (display_sets E h (Side.refl s)) h.quiet (gw_display E) (bs_display E)

/-- Moving by a word. -/
theorem moveWord_writes {ws : List (Nat × Nat)} (right : Bool) (h : Open false s l r)
    (hsug : sugOf s = some s.autosuggestion)
    (hd : ∀ b, s.curBuf? = some b → E.words b = ws) (hs : Separated ws) (hin : ∀ w ∈ ws, w.2 ≤ (l ++ r).length) :
    Wp (Emacs.moveWord E right) s (fun _ s' => ∃ l' r', l' ++ r' = l ++ r ∧ Lands s 0 false false l' r' s' ∧
      if right then NextEnd ws l.length l'.length else PrevStart ws l.length l'.length) (fun _ _ => True) (· ≠ .op) := by
  obtain ⟨b, hb, hbd⟩ := text?_eq.mp h.here.1
  have hc := C12_classifies s.cursor ws hs
  unfold Emacs.moveWord wordsAndPos
  rw [wp_bind, wp_bind, wp_curBuf]
  refine ⟨fun b' hb' => ?_, fun hn => by rw [hb] at hn; cases hn⟩
  rw [hb] at hb'; cases hb'
  rw [wp_bind, wp_get]
  dsimp only
  rw [hd b hb, wp_pure]
  dsimp only
  rw [h.here.2] at hc ⊢
  have key : match Emacs.wordIndex ws.length (CursorPosition.get l.length ws) right with
      | none => if right then NextEnd ws l.length l.length else PrevStart ws l.length l.length
      | some i => ∃ w, ws[i]? = some w ∧ (if right then NextEnd ws l.length w.2
          else PrevStart ws l.length w.1) := by
    cases right
    · exact wordIndex_left hs hc
    · exact wordIndex_right hs hc
  split
  · rename_i hi
    rw [hi] at key
    exact ⟨l, r, rfl, ⟨⟨by rw [rest_false]; exact h, Side.refl s, hsug⟩,
      (Grew.refl h.quiet).mono fun _ => count_nothing, .refl h.quiet⟩, key⟩
  · rename_i i hi
    rw [hi] at key
    obtain ⟨w, hw, hk⟩ := key
    rw [wp_bind, hw]
    show Wp (moveCursorTo E _) _ _ _ _
    have hle := hin w (List.mem_of_getElem? hw)
    have hne := sep_ne hs hw
    refine wp_mono (writes_none (to_sets E h (Side.refl _) (if right then w.2 else w.1)) h.quiet (gw_to E _) (bs_to E _))
      (fun _ s' h' => ?_) (fun _ _ h => h) (fun _ h => h)
    refine ⟨_, _, List.take_append_drop _ _, h', ?_⟩
    rw [List.length_take]
    cases right
    · have h1 : min w.1 (l ++ r).length = w.1 := Nat.min_eq_left (by omega)
      simpa [h1, -List.length_append] using hk
    · have h1 : min w.2 (l ++ r).length = w.2 := Nat.min_eq_left hle
      simpa [h1, -List.length_append] using hk

/-! ### The log and the texts that undo brings back -/

/-- Every edit in the log leads from one of the texts to the next. -/
inductive Each : List Text → Text → List Action → Prop
  | nil (d : Text) : Each [] d []
  | cons {ps : List Text} {p d : Text} {a : Action} {acts : List Action} (h : Each ps p acts) (ha : a.isEdit = true)
      (hp : Path [a] p d) : Each (p :: ps) d (a :: acts)

theorem Each.grown {ps : List Text} {d d' : Text} {acts es : List Action} {n : Nat} (h : Each ps d acts)
    (hc : Count n es) (hn : n ≤ 1) (hp : Path es d d') :
    Each (if n = 0 then ps else d :: ps) d' (es ++ acts) ∧ (n = 0 → d' = d) := by
  match es, n, hc, hn with
  | [], _, ⟨_, rfl⟩, _ =>
    cases Vi.path_nil hp
    exact ⟨h, fun _ => rfl⟩
  | [a], _, ⟨h1, rfl⟩, _ => exact ⟨.cons h (h1 a (by simp)) hp, by simp⟩
  | _ :: _ :: _, _, ⟨_, rfl⟩, hn => simp at hn

theorem Each.undo {p : Text} {ps : List Text} {b : Buffer} (h : Each (p :: ps) b.data b.actions) :
    ∃ b', b.undo = some (true, b') ∧ b'.data = p ∧ Each ps p b'.actions := by
  obtain ⟨d, acts, u⟩ := b
  cases h with
  | @cons _ _ _ a acts h ha hp =>
    have h1 := Vi.undone_single (b0 := ⟨p, acts, []⟩) ha hp
    obtain ⟨b', h2, h3, h4⟩ := Vi.undo_some (b := ⟨d, a :: acts, u⟩) h1
    exact ⟨b', h2, h3, by rw [h4]; exact h⟩

theorem Each.undo_nil {b : Buffer} (h : Each [] b.data b.actions) : b.undo = some (false, b) := by
  obtain ⟨d, acts, u⟩ := b
  cases h with
  | nil => rfl

theorem Each.length {ps : List Text} {d : Text} {acts : List Action} (h : Each ps d acts) : acts.length = ps.length := by
  induction h with
  | nil => rfl
  | cons _ _ _ ih => simp [ih]

theorem Each.revertLoop {ps : List Text} : ∀ {n : Nat} {b : Buffer}, Each ps b.data b.actions → ps.length < n →
    ∃ b', Buffer.revertLoop n b = some b' ∧ b'.data = (b.data :: ps).getLast (by simp) ∧ b'.actions = [] := by
  induction ps with
  | nil =>
    intro n b h hn
    obtain ⟨m, rfl⟩ : ∃ m, n = m + 1 := ⟨n - 1, by simp at hn; omega⟩
    refine ⟨b, by simp [Buffer.revertLoop, h.undo_nil], rfl, ?_⟩
    have := h.length
    simpa using this
  | cons p ps ih =>
    intro n b h hn
    obtain ⟨m, rfl⟩ : ∃ m, n = m + 1 := ⟨n - 1, by simp at hn; omega⟩
    obtain ⟨b', h1, h2, h3⟩ := h.undo
    rw [← h2] at h3
    obtain ⟨b'', h4, h5, h6⟩ := ih (n := m) h3 (by simpa using hn)
    refine ⟨b'', by simp [Buffer.revertLoop, h1, h4], ?_, h6⟩
    rw [h5, h2, List.getLast_cons_cons]

theorem Each.revert {p : Text} {ps : List Text} {b : Buffer} (h : Each (p :: ps) b.data b.actions) :
    ∃ b', b.revert = some (true, b') ∧ some b'.data = (p :: ps).getLast? ∧ b'.actions = [] := by
  have hl := h.length
  have hne : b.actions.isEmpty = false := by
    cases hb : b.actions with
    | nil => rw [hb] at hl; simp at hl
    | cons => rfl
  obtain ⟨b', h1, h2, h3⟩ := h.revertLoop (n := b.actions.length + 1) (by omega)
  refine ⟨b', by simp [Buffer.revert, hne, h1], ?_, h3⟩
  rw [h2, List.getLast_cons_cons, ← List.getLast?_eq_getLast_of_ne_nil]

theorem Each.revert_nil {b : Buffer} (h : Each [] b.data b.actions) : b.revert = some (false, b) := by
  have := h.length
  have h1 : b.actions = [] := by simpa using this
  simp [Buffer.revert, h1]

/-- Undo and revert outside a search. -/
theorem undoing_lands {f : Buffer → Option (Bool × Buffer)} {w b' : Buffer} {did : Bool} (h : Open false s l r)
    (hw : workBuf s = some w) (hf : f w = some (did, b')) (hs : did = false → b'.data = l ++ r) :
    Wp (do
      let did ← curBufMut f
      if did then moveCursorToEndOfLine E else display E
      pure did : EdM Bool) s (fun _ s' => Settled false s s' (if did then b'.data else l) (if did then [] else r) ∧
        (∃ w', workBuf s' = some w' ∧ w'.data = b'.data ∧ w'.actions = b'.actions) ∧ Beside true false s s')
        (fun _ _ => True) (· ≠ .op) := by
  have hbs := bs_undoing E f s h.quiet
  suffices hg : Wp (do
      let did ← curBufMut f
      if did then moveCursorToEndOfLine E else display E
      pure did : EdM Bool) s (fun _ s' => Settled false s s' (if did then b'.data else l) (if did then [] else r) ∧
        ∃ w', workBuf s' = some w' ∧ w'.data = b'.data ∧ w'.actions = b'.actions) (fun _ _ => True) (· ≠ .op) from
    wp_mono (wp_and hg hbs) (fun _ _ h => ⟨h.1.1, h.1.2, h.2⟩) (fun _ _ _ => trivial) (fun _ h => h.1)
  rw [wp_bind, wp_curBufMut]
  refine ⟨fun w1 d1 b1 hw1 hf1 => ?_, ?_⟩
  · rw [hw] at hw1; cases hw1
    rw [hf] at hf1; cases hf1
    have hq' : (setCur s b').isSearch = false := by rw [setCur_quiet]; exact h.quiet
    have fin : ∀ (m : EdM Unit) (x y : Text), Gw Nothing m → Yields m false s (setCur s b') x y →
        Wp (do m; pure did : EdM Bool) (setCur s b') (fun _ s' => Settled false s s' x y ∧
        ∃ w', workBuf s' = some w' ∧ w'.data = b'.data ∧ w'.actions = b'.actions) (fun _ _ => True) (· ≠ .op) := by
      intro m x y hm hy
      rw [wp_bind]
      refine wp_mono (wp_and (hm _ hq') hy) (fun _ s1 h1 => ?_) (fun _ _ _ => trivial) (fun _ h => h.2)
      obtain ⟨b2, es, g1, rfl, g3, g4⟩ := h1.1.log b' (setCur_workBuf s b')
      exact ⟨h1.2, b2, g1, (Vi.path_nil g4).symm, g3⟩
    cases did with
    | true =>
      refine fin _ _ _ (gw_end E) (end_sets' E hq' ?_ trivial ?_ (Side.setCur s b'))
      · rw [setCur_noEol]; exact h.ne
      · rw [setCur_text, if_pos rfl]
    | false =>
      exact fin _ _ _ (gw_display E) (display_sets E (h.set' (hs rfl) h.here.2) (Side.setCur s b'))
  · rintro (h5 | ⟨w', h5, h6⟩)
    · rw [hw] at h5; cases h5
    · rw [hw] at h5; cases h5; rw [hf] at h6; cases h6

end
end Editor

namespace Props
open Liner.Spec Liner.Editor KM

section
variable (E : Env) (comp : Text → List Text) {H : History} {k k' : Emacs} {s s' : Ed} {p q : Sheet} {key : Key}

/-- The editor holds the sheet, on a new line or on an entry of the history. -/
structure Held (H : History) (k : Emacs) (s : Ed) (p : Sheet) : Prop where
  here : Open false s p.left p.right
  clean : s.curHistoryLoc = none → s.histBufValid = false
  loc : ∀ i, s.curHistoryLoc = some i → i < H.buffers.length
  show' : s.showAutosuggestions = true
  hist : s.history = H
  sug : sugOf s = some s.autosuggestion
  log : ∃ b, workBuf s = some b ∧ b.data = p.text ∧ Each p.past p.text b.actions
  arg : k.lastArgFetchIndex = p.arg
  bound : ∀ i, p.arg = some i → i < H.buffers.length

/-- The suggestion shown. -/
def sugText (s : Ed) : Option Text := s.autosuggestion.map (·.data)

theorem Held.new (h : Held H k s p) (hl : s.curHistoryLoc = none) : OnNew H s p.left p.right :=
  ⟨h.here, hl, h.clean hl, h.show', h.hist, h.sug⟩

/-- The suggestion on an entry: the entry itself, until it is changed. -/
theorem Held.entry (h : Held H k s p) {i : Nat} (hl : s.curHistoryLoc = some i) :
    sugText s = if s.histBufValid then none else some p.text := by
  have h1 := h.sug
  have h2 := h.here.here.1
  unfold sugOf at h1
  unfold text? Ed.curBuf? at h2
  rw [hl] at h2
  simp only at h2
  cases hv : s.histBufValid with
  | true =>
    rw [hv, if_pos rfl] at h1
    rw [sugText, ← Option.some.inj h1]
    rfl
  | false =>
    simp only [hv, Bool.false_eq_true, if_false, h.here.quiet, h.show', if_true, hl] at h1 h2
    cases hb : s.history.buffers[i]? with
    | none => rw [hb] at h1; cases h1
    | some b =>
      rw [hb] at h1 h2
      rw [sugText, ← Option.some.inj h1]
      exact h2

theorem Held.ready (h : Held H k s p) : Ready s p.left p.right := by
  refine ⟨h.here, h.show', fun x hx => ?_⟩
  cases hl : s.curHistoryLoc with
  | none => exact (h.new hl).ready.sug x hx
  | some i =>
    have := h.entry hl
    rw [sugText, hx] at this
    split at this
    · cases this
    · have h2 : x.data = p.text := Option.some.inj this
      rw [h2]
      exact List.prefix_rfl

theorem Held.listed (h : Held H k s p) (c : Option (List Text × Option Nat)) (n : Nat) :
    Held H k { s with showCompletionsHint := c, tick := n } p :=
  ⟨⟨h.here.quiet, h.here.ne, trivial, h.here.here⟩, h.clean, h.loc, h.show', h.hist, h.sug, h.log, h.arg, h.bound⟩

theorem Held.wrote (h : Held H k s p) (n : Nat) :
    Held H k { s with showCompletionsHint := none, tick := n } p := h.listed none n

/-- After an operation. -/
theorem Held.next (h : Held H k s p) {l r : Text} {ps : List Text} {a : Option Nat} (hs : Settled false s s' l r)
    (hw : ∃ w, workBuf s' = some w ∧ w.data = l ++ r ∧ Each ps (l ++ r) w.actions)
    (hk : k'.lastArgFetchIndex = a) (hb : ∀ i, a = some i → i < H.buffers.length) : Held H k' s' ⟨l, r, ps, a⟩ where
  here := by have := hs.here; rwa [rest_false] at this
  clean hl := by
    have h1 := hs.side.loc.symm.trans hl
    exact (hs.side.newValid h1).trans (h.clean h1)
  loc i hi := h.loc i (hs.side.loc.symm.trans hi)
  show' := hs.side.showSug.trans h.show'
  hist := hs.side.history.trans h.hist
  sug := hs.sug
  log := hw
  arg := hk
  bound := hb

theorem Held.lands (h : Held H k s p) {n : Nat} {t c : Bool} {l r : Text} (hl : Lands s n t c l r s') (hn : n ≤ 1)
    {a : Option Nat} (ha : k'.lastArgFetchIndex = a) (hb : ∀ i, a = some i → i < H.buffers.length) :
    Held H k' s' ⟨l, r, if n = 0 then p.past else p.text :: p.past, a⟩ := by
  refine h.next hl.1 ?_ ha hb
  obtain ⟨b, g1, g2, g3⟩ := h.log
  obtain ⟨b', es, k1, k2, k3, k4⟩ := hl.2.1.log b g1
  rw [g2] at k4
  have hd : b'.data = l ++ r := by
    obtain ⟨c, hc, he⟩ := curBuf_of_workBuf k1
    have := hl.1.here.here.1
    rw [rest_false, text?, show s'.curBuf? = some c from hc] at this
    rw [he]
    exact Option.some.inj this
  obtain ⟨g4, -⟩ := g3.grown k2 hn k4
  rw [hd] at g4
  exact ⟨b', k1, hd, by rw [k3]; exact g4⟩

/-- A key that goes to the key map. -/
theorem key_body (h : Held H k s p) {Q : Emacs → Ed → Prop}
    (hQ : ∀ k s n, Q k s → Q k { s with showCompletionsHint := none, tick := n })
    (h1 : KeyMap.translate key ∉ [.ctrl 'c', .char '\t', .char '\n', .ctrl 'r', .ctrl 's', .alt '.'])
    (h2 : ¬ (KeyMap.translate key = .ctrl 'd' ∧ p.text = []))
    (h3 : s.autosuggestion.isSome = true → KeyMap.translate key ≠ .ctrl 'f' ∧ KeyMap.translate key ≠ .right)
    (hm : ∀ k' : Emacs, k'.lastArgFetchIndex = none → Wp (Emacs.handleKeyBody E (KeyMap.translate key)) (k', s)
      (fun _ t' => Q t'.1 t'.2) (fun _ _ => True) (· ≠ .op)) :
    Wp (Emacs.keyMap.handleKey E comp key) (k, s) (fun done t' => done = false ∧ Q t'.1 t'.2)
      (fun _ _ => True) (· ≠ .op) := by
  obtain ⟨b, hb, hbd⟩ := text?_eq.mp h.here.here.1
  simp only [List.mem_cons, List.not_mem_nil, or_false, not_or] at h1
  obtain ⟨h4, h5, h6, h7, h8, h9⟩ := h1
  rw [wp_congr (handleKey_eq Emacs.keyMap E comp (t := (k, s)) hb key), wp_bind,
    wp_congr (dispatch_core Emacs.keyMap E comp (k, s) h4
    (fun h => h2 ⟨h.1, by simpa [Buffer.isEmpty, hbd, Sheet.text] using h.2⟩) h5 h6 (fun h => (h3 h.2).1 h.1) h7 h8
    (fun h => (h3 h.2).2 h.1))]
  unfold toCore
  rw [wp_bind]
  show Wp (Emacs.handleKeyCore E _) _ _ _ _
  unfold Emacs.handleKeyCore
  rw [if_neg h9, wp_bind, wp_modK]
  refine wp_mono (hm _ rfl) (fun _ t' h' => ?_) (fun _ _ h => h) (fun _ h => h)
  rw [wp_bind, wp_ed, skipCompletionsHint, wp_modify, wp_pure, wp_bind, wp_ed, wp_flush]
  exact ⟨fun _ => ⟨rfl, hQ t'.1 t'.2 _ h'⟩, fun _ => trivial⟩

/-- The result of a key on the sheet `p` in the state `s`. -/
def Turns (H : History) (key : Key) (p : Sheet) (s : Ed) (k' : Emacs) (s' : Ed) : Prop :=
  ∃ q t, Sheet.Does (texts H) (sugText s) s.curHistoryLoc key p q ∧ Held H k' s' q ∧
    Beside t (p.clears (sugText s) key) s s' ∧ (p.past ≠ [] → t = Sheet.touches key p q)

theorem Turns.wrote (h : Turns H key p s k s') (n : Nat) :
    Turns H key p s k { s' with showCompletionsHint := none, tick := n } := by
  obtain ⟨q, t, h1, h2, h3, h4⟩ := h
  exact ⟨q, t, h1, h2.wrote n, h3.wrote n, h4⟩

/-- The key turns the sheet, and does not panic except in the redraw. -/
abbrev Turned (H : History) (key : Key) (p : Sheet) (k : Emacs) (s : Ed) : Prop :=
  Wp (Emacs.keyMap.handleKey E comp key) (k, s) (fun done t' => done = false ∧ Turns H key p s t'.1 t'.2)
      (fun _ _ => True) (· ≠ .op)

/-- A key for an operation of the editor. -/
theorem key_ed (h : Held H k s p) {m : EdM Unit} {n : Nat} {t c : Bool} {l r : Text}
    (h1 : KeyMap.translate key ∉ [.ctrl 'c', .char '\t', .char '\n', .ctrl 'r', .ctrl 's', .alt '.'])
    (h2 : ¬ (KeyMap.translate key = .ctrl 'd' ∧ p.text = []))
    (h3 : s.autosuggestion.isSome = true → KeyMap.translate key ≠ .ctrl 'f' ∧ KeyMap.translate key ≠ .right)
    (hb : Emacs.handleKeyBody E (KeyMap.translate key) = ed m) (hm : Writes m s n t c l r) (hn : n ≤ 1)
    (hq : p.Does (texts H) (sugText s) s.curHistoryLoc key ⟨l, r, if n = 0 then p.past else p.text :: p.past, none⟩)
    (hc : c = p.clears (sugText s) key)
    (ht : t = (decide (n ≠ 0) || decide (key = .delete) || decide (key = .ctrl 'd'))) :
    Turned E comp H key p k s := by
  refine key_body E comp h (fun k s n h => h.wrote n) h1 h2 h3 fun k' hk' => ?_
  rw [hb, wp_ed]
  refine wp_mono hm (fun _ s' h' => ⟨_, t, hq, h.lands h' hn hk' (by simp), by rw [← hc]; exact h'.2.2, fun _ => ?_⟩)
    (fun _ _ h => h) (fun _ h => h)
  rw [ht]
  unfold Sheet.touches
  by_cases h0 : n = 0 <;> simp [h0]

/-- A key that takes the suggestion. -/
theorem take_writes (h : Held H k s p) {x : Buffer} (hx : s.autosuggestion = some x) (c : KM Emacs Bool)
    (hc : c = (do ed (acceptAutosuggestion E); pure false : KM Emacs Bool)) :
    Wp c (k, s) (fun done t' => done = false ∧
      Held H t'.1 t'.2 { p.put x.data [] with arg := p.arg } ∧ Beside true true s t'.2) (fun _ _ => True) (· ≠ .op) := by
  subst hc
  rw [wp_bind, wp_ed]
  refine wp_mono (accept_writes E h.ready hx) (fun _ s' h' => ?_) (fun _ _ h => h) (fun _ h => h)
  exact ⟨rfl, h.lands h' (Nat.le_refl _) h.arg h.bound, h'.2.2⟩

theorem key_take (h : Held H k s p) {x : Buffer} (hx : s.autosuggestion = some x)
    (hk : key = .ctrl 'f' ∨ (key = .right ∧ p.right = [])) :
    Wp (Emacs.keyMap.handleKey E comp key) (k, s) (fun done t' => done = false ∧
      Held H t'.1 t'.2 { p.put x.data [] with arg := p.arg } ∧ Beside true true s t'.2) (fun _ _ => True) (· ≠ .op) := by
  obtain ⟨b, hb, hbd⟩ := text?_eq.mp h.here.here.1
  rw [wp_congr (handleKey_eq Emacs.keyMap E comp (t := (k, s)) hb key), wp_bind,
    translate_ne (by rcases hk with rfl | ⟨rfl, -⟩ <;> simp)]
  have fin : Wp (Emacs.keyMap.dispatch E comp b.isEmpty key) (k, s) (fun done t' => done = false ∧
      Held H t'.1 t'.2 { p.put x.data [] with arg := p.arg } ∧ Beside true true s t'.2) (fun _ _ => True) (· ≠ .op) := by
    rcases hk with rfl | ⟨rfl, hr⟩
    · rw [wp_congr (dispatch_ctrlF Emacs.keyMap E comp (k, s) (by rw [hx]; rfl))]
      exact take_writes E h hx _ rfl
    · rw [wp_congr (dispatch_right Emacs.keyMap E comp (k, s) (by rw [hx]; rfl)), wp_bind, wp_ed]
      simp only [cursorIsAtEndOfLine, wp_bind, wp_curBuf, wp_get]
      refine ⟨fun b1 hb1 => ?_, fun hn => ?_⟩
      · rw [hb] at hb1; cases hb1
        rw [if_neg (by rw [h.here.ne]; simp), wp_pure, if_pos]
        · exact take_writes E h hx _ rfl
        · have : s.cursor = b.numChars := by
            rw [h.here.here.2, Buffer.numChars, hbd, hr, List.append_nil]
          simpa using this
      · rw [show s.curBuf? = none from hn] at hb; cases hb
  refine wp_mono fin (fun done t1 h1 => ?_) (fun _ _ h => h) (fun _ h => h)
  obtain ⟨rfl, h2, h3⟩ := h1
  rw [wp_bind, wp_ed, wp_flush]
  refine ⟨fun _ => ⟨rfl, ?_⟩, fun _ => trivial⟩
  exact And.intro (h2.listed t1.2.showCompletionsHint (t1.2.tick + 1)) (h3.listed t1.2.showCompletionsHint (t1.2.tick + 1))

/-- Right with a suggestion, not at the end. -/
theorem key_right (h : Held H k s p) {x : Buffer} (hx : s.autosuggestion = some x) (hr : p.right ≠ [])
    (hq : p.Does (texts H) (sugText s) s.curHistoryLoc .right ⟨p.left ++ p.right.take 1, p.right.drop 1, p.past, none⟩) :
    Turned E comp H .right p k s := by
  obtain ⟨b, hb, hbd⟩ := text?_eq.mp h.here.here.1
  unfold Turned
  rw [wp_congr (handleKey_eq Emacs.keyMap E comp (t := (k, s)) hb .right), wp_bind,
    translate_ne (by simp), wp_congr (dispatch_right Emacs.keyMap E comp (k, s) (by rw [hx]; rfl)), wp_bind, wp_ed]
  simp only [cursorIsAtEndOfLine, wp_bind, wp_curBuf, wp_get]
  refine ⟨fun b1 hb1 => ?_, fun hn => ?_⟩
  · rw [hb] at hb1; cases hb1
    rw [if_neg (by rw [h.here.ne]; simp), wp_pure, if_neg]
    · unfold toCore
      rw [wp_bind]
      rw [show Emacs.keyMap.core = Emacs.handleKeyCore from rfl]
      unfold Emacs.handleKeyCore
      rw [if_neg (by simp), wp_bind, wp_modK]
      show Wp (ed (moveCursorRight E 1)) _ _ _ _
      rw [wp_ed]
      refine wp_mono (writes_none (right_sets E h.here (Side.refl s) 1) h.here.quiet (gw_right E 1) (bs_right E 1))
        (fun _ s' h' => ?_) (fun _ _ h => h) (fun _ h => h)
      have := h.lands h' (k' := { lastArgFetchIndex := none }) (Nat.zero_le _) rfl (a := none) (by simp)
      rw [wp_bind, wp_ed, skipCompletionsHint, wp_modify, wp_pure, wp_ed, wp_flush]
      refine ⟨fun _ => ⟨rfl, _, false, hq, this.wrote _, ?_, fun _ => ?_⟩, fun _ => trivial⟩
      · rw [show p.clears (sugText s) .right = false by simp [Sheet.clears, Sheet.takes, hr]]
        exact h'.2.2.wrote _
      · simp [Sheet.touches]
    · have : s.cursor ≠ b.numChars := by
        rw [h.here.here.2, Buffer.numChars, hbd, List.length_append]
        have := List.length_pos_iff.2 hr
        omega
      simpa using this
  · rw [show s.curBuf? = none from hn] at hb; cases hb

/-- The editing keys. -/
theorem key_edit (h : Held H k s p) (hk : editing key = true) (hd : ¬ (key = .ctrl 'd' ∧ p.text = [])) :
    Turned E comp H key p k s := by
  have hR := Side.refl s
  have hq := h.here.quiet
  have hN : ∀ {q : Sheet}, q = p.edited (sugText s) key → p.Does (texts H) (sugText s) s.curHistoryLoc key q := by
    intro q hq
    unfold Sheet.Does
    rw [if_pos hk]; exact hq
  have move : ∀ {m : EdM Unit} {n : Nat} {t : Bool} {l' r' : Text}, key ≠ .ctrl 'h' →
      key ∉ [Key.ctrl 'c', .char '\t', .char '\n', .ctrl 'r', .ctrl 's', .alt '.'] →
      (s.autosuggestion.isSome = true → key ≠ .ctrl 'f' ∧ key ≠ .right) →
      Emacs.handleKeyBody E key = KM.ed m → Writes m s n t false l' r' → n ≤ 1 →
      (⟨l', r', if n = 0 then p.past else p.text :: p.past, none⟩ = p.edited (sugText s) key ∧
        p.clears (sugText s) key = false ∧
        t = (decide (n ≠ 0) || decide (key = .delete) || decide (key = .ctrl 'd'))) →
      Turned E comp H key p k s := by
    intro m n t l' r' h0 h1 h3 h4 h5 h6 h7
    have ht := translate_ne h0
    exact key_ed E comp h (by rwa [ht]) (by rwa [ht]) (by rwa [ht]) (by rwa [ht]) h5 h6 (hN h7.1) h7.2.1.symm h7.2.2
  cases key with
  | char c =>
    simp only [editing, Bool.and_eq_true, bne_iff_ne, ne_eq] at hk
    exact move (by simp) (by simp [hk]) (by simp) rfl
      (writes_one (insert_sets E h.here hR [c]) hq (gw1_insert E (by simp)) (bs_insert E _)) (Nat.le_refl _)
      (by simp [Sheet.edited, edit, Sheet.counts, Sheet.takes, Sheet.clears])
  | left =>
    refine move (by simp) (by simp) (by simp) rfl (writes_none (left_sets E h.here hR 1) hq (gw_left E 1) (bs_left E 1))
      (Nat.zero_le _) ?_
    simp [Sheet.edited, edit, go_left, Sheet.counts, Sheet.takes, Sheet.clears]
  | right =>
    cases hs : s.autosuggestion with
    | none =>
      have ho : sugText s = none := by rw [sugText, hs]; rfl
      refine move (by simp) (by simp) (by simp [hs]) rfl (writes_none (right_sets E h.here hR 1) hq (gw_right E 1) (bs_right E 1))
        (Nat.zero_le _) ?_
      rw [ho]
      simp [Sheet.edited, edit, go_right, Sheet.counts, Sheet.takes, Sheet.clears]
    | some x =>
      have ho' : sugText s = some x.data := by rw [sugText, hs]; rfl
      by_cases hr : p.right = []
      · refine wp_mono (key_take E comp h hs (.inr ⟨rfl, hr⟩)) (fun done t' h' => ⟨h'.1, _, true, hN ?_, h'.2.1, ?_, fun _ => ?_⟩) (fun _ _ h => h)
          (fun _ h => h)
        · rw [ho']
          simp [Sheet.edited, edit, Sheet.counts, Sheet.takes, hr, Sheet.put]
        · rw [show p.clears (sugText s) .right = true by simp [Sheet.clears, Sheet.takes, ho', hr]]
          exact h'.2.2
        · simp [Sheet.touches, Sheet.put]
      · refine key_right E comp h hs hr (hN ?_)
        rw [ho']
        simp [Sheet.edited, edit, Sheet.counts, Sheet.takes, hr, go_right]
  | home =>
    exact move (by simp) (by simp) (by simp) rfl (writes_none (home_sets E h.here hR) hq (gw_home E) (bs_home E)) (Nat.zero_le _)
      (by simp [Sheet.edited, edit, Sheet.counts, Sheet.takes, Sheet.clears])
  | «end» =>
    exact move (by simp) (by simp) (by simp) rfl (writes_none (end_sets E h.here hR) hq (gw_end E) (bs_end E)) (Nat.zero_le _)
      (by simp [Sheet.edited, edit, Sheet.counts, Sheet.takes, Sheet.clears])
  | backspace =>
    exact move (by simp) (by simp) (by simp) rfl (backspace_writes E h.here) (by split <;> simp)
      (by by_cases hl : p.left = [] <;> simp [Sheet.edited, edit, Sheet.counts, Sheet.takes, Sheet.clears, hl])
  | delete =>
    exact move (by simp) (by simp) (by simp) rfl (delete_writes E h.here) (by split <;> simp)
      (by by_cases hl : p.right = [] <;> simp [Sheet.edited, edit, Sheet.counts, Sheet.takes, Sheet.clears, hl])
  | ctrl c =>
    simp only [editing, List.mem_cons, List.not_mem_nil, or_false, decide_eq_true_eq] at hk
    rcases hk with rfl | rfl | rfl | rfl | rfl | rfl | rfl | rfl
    · exact move (by simp) (by simp) (by simp) rfl (writes_none (home_sets E h.here hR) hq (gw_home E) (bs_home E)) (Nat.zero_le _)
        (by simp [Sheet.edited, edit, Sheet.counts, Sheet.takes, Sheet.clears])
    · exact move (by simp) (by simp) (by simp) rfl (writes_none (end_sets E h.here hR) hq (gw_end E) (bs_end E)) (Nat.zero_le _)
        (by simp [Sheet.edited, edit, Sheet.counts, Sheet.takes, Sheet.clears])
    · exact move (by simp) (by simp) (by simp) rfl (writes_none (left_sets E h.here hR 1) hq (gw_left E 1) (bs_left E 1))
        (Nat.zero_le _) (by simp [Sheet.edited, edit, go_left, Sheet.counts, Sheet.takes, Sheet.clears])
    · cases hs : s.autosuggestion with
      | none =>
        have ho : sugText s = none := by rw [sugText, hs]; rfl
        refine move (by simp) (by simp) (by simp [hs]) rfl
          (writes_none (right_sets E h.here hR 1) hq (gw_right E 1) (bs_right E 1)) (Nat.zero_le _) ?_
        rw [ho]
        simp [Sheet.edited, edit, go_right, Sheet.counts, Sheet.takes, Sheet.clears]
      | some x =>
        have ho' : sugText s = some x.data := by rw [sugText, hs]; rfl
        refine wp_mono (key_take E comp h hs (.inl rfl)) (fun done t' h' => ⟨h'.1, _, true, hN ?_, h'.2.1, ?_, fun _ => ?_⟩) (fun _ _ h => h)
          (fun _ h => h)
        · rw [ho']
          simp [Sheet.edited, edit, Sheet.counts, Sheet.takes, Sheet.put]
        · rw [show p.clears (sugText s) (.ctrl 'f') = true by simp [Sheet.clears, Sheet.takes, ho']]
          exact h'.2.2
        · simp [Sheet.touches, Sheet.put]
    · exact move (by simp) (by simp) (by simp) rfl (delete_writes E h.here) (by split <;> simp)
        (by by_cases hl : p.right = [] <;> simp [Sheet.edited, edit, Sheet.counts, Sheet.takes, Sheet.clears, hl])
    · exact key_ed E comp h (by simp [KeyMap.translate]) (by simp [KeyMap.translate])
        (by simp [KeyMap.translate]) rfl (backspace_writes E h.here) (by split <;> simp)
        (hN (by by_cases hl : p.left = [] <;> simp [Sheet.edited, edit, Sheet.counts, Sheet.takes, hl]))
        (by simp [Sheet.clears, Sheet.takes]) (by by_cases hl : p.left = [] <;> simp [hl])
    · exact move (by simp) (by simp) (by simp) rfl
        (writes_one (deleteAllBefore_sets E h.here hR) hq (gw1_deleteAllBefore E) (bs_deleteAllBefore E)) (Nat.le_refl _)
        (by simp [Sheet.edited, edit, Sheet.counts, Sheet.takes, Sheet.clears])
    · exact move (by simp) (by simp) (by simp) rfl
        (writes_one (deleteAllAfter_sets E h.here hR) hq (gw1_deleteAllAfter E) (bs_deleteAllAfter E)) (Nat.le_refl _)
        (by simp [Sheet.edited, edit, Sheet.counts, Sheet.takes, Sheet.clears])
  | _ => cases hk

/-- Undo. -/
theorem undo_held (h : Held H k s p) (hk : k'.lastArgFetchIndex = none) :
    Wp (Editor.undo E) s (fun _ s' => Held H k' s' p.back ∧ Beside true false s s') (fun _ _ => True) (· ≠ .op) := by
  obtain ⟨w, h1, h2, h3⟩ := h.log
  unfold Editor.undo
  cases hp : p.past with
  | nil =>
    rw [hp, ← h2] at h3
    refine wp_mono (undoing_lands E h.here h1 h3.undo_nil fun _ => h2) (fun _ s' h' => ?_) (fun _ _ h => h)
      (fun _ h => h)
    obtain ⟨g1, ⟨w', g2, g3, g4⟩, g5⟩ := h'
    have := h.next (a := none) g1 ⟨w', g2, by rw [g3, h2]; rfl, by
      have := h3
      rw [h2, ← g4] at this
      exact this⟩ hk (by simp)
    exact ⟨by simpa [Sheet.back, hp] using this, g5⟩
  | cons t ts =>
    rw [hp, ← h2] at h3
    obtain ⟨b', k1, k2, k3⟩ := h3.undo
    refine wp_mono (undoing_lands E h.here h1 k1 (by simp)) (fun _ s' h' => ?_) (fun _ _ h => h) (fun _ h => h)
    obtain ⟨g1, ⟨w', g2, g3, g4⟩, g5⟩ := h'
    rw [if_pos rfl, if_pos rfl, k2] at g1
    have := h.next (a := none) g1 ⟨w', g2, by rw [g3, k2, List.append_nil], by rw [g4, List.append_nil]; exact k3⟩ hk (by simp)
    exact ⟨by simpa [Sheet.back, hp] using this, g5⟩

/-- Undo of everything. -/
theorem revert_held (h : Held H k s p) (hk : k'.lastArgFetchIndex = none) :
    Wp (Editor.revert E) s (fun _ s' => Held H k' s' p.first ∧ Beside true false s s') (fun _ _ => True) (· ≠ .op) := by
  obtain ⟨w, h1, h2, h3⟩ := h.log
  unfold Editor.revert
  cases hp : p.past with
  | nil =>
    rw [hp, ← h2] at h3
    refine wp_mono (undoing_lands E h.here h1 h3.revert_nil fun _ => h2) (fun _ s' h' => ?_) (fun _ _ h => h)
      (fun _ h => h)
    obtain ⟨g1, ⟨w', g2, g3, g4⟩, g5⟩ := h'
    have := h.next (a := none) g1 ⟨w', g2, by rw [g3, h2]; rfl, by
      have := h3
      rw [h2, ← g4] at this
      exact this⟩ hk (by simp)
    exact ⟨by simpa [Sheet.first, hp] using this, g5⟩
  | cons t ts =>
    rw [hp, ← h2] at h3
    obtain ⟨b', k1, k2, k3⟩ := h3.revert
    refine wp_mono (undoing_lands E h.here h1 k1 (by simp)) (fun _ s' h' => ?_) (fun _ _ h => h) (fun _ h => h)
    obtain ⟨g1, ⟨w', g2, g3, g4⟩, g5⟩ := h'
    rw [if_pos rfl, if_pos rfl] at g1
    have := h.next (a := none) g1 (ps := []) ⟨w', g2, by rw [g3, List.append_nil], by rw [g4, k3]; exact .nil _⟩ hk (by simp)
    refine ⟨?_, g5⟩
    unfold Sheet.first
    rw [hp, ← k2]
    exact this

/-! ### The last arguments -/

/-- The log has grown. -/
def Longer (t : Bool) (a b : List Text) : Prop := if t then a.length < b.length else b = a

theorem Longer.refl (a : List Text) : Longer false a a := rfl
theorem Longer.cons (x : Text) (a : List Text) : Longer true a (x :: a) := by simp [Longer]
theorem Longer.trans {t u : Bool} {a b c : List Text} (h1 : Longer t a b) (h2 : Longer u b c) : Longer (t || u) a c := by
  unfold Longer at *
  cases t <;> cases u <;> simp_all
  omega
theorem Longer.eq {t : Bool} {a b : List Text} (h : Longer t a b) : t = decide (b ≠ a) := by
  unfold Longer at h
  cases t with
  | false => simpa using h
  | true =>
    rw [if_pos rfl] at h
    have : b ≠ a := by rintro rfl; omega
    simp [this]

theorem insert_held (h : Held H k s p) {cs : Text} (hc : cs ≠ []) {a : Option Nat} (hk : k'.lastArgFetchIndex = a)
    (hb : ∀ i, a = some i → i < H.buffers.length) :
    Wp (insertCharsAfterCursor E cs) s (fun _ s' => Held H k' s' { p.put (p.left ++ cs) p.right with arg := a } ∧
      Beside true false s s') (fun _ _ => True) (· ≠ .op) :=
  wp_mono (writes_one (insert_sets E h.here (Side.refl s) cs) h.here.quiet (gw1_insert E hc) (bs_insert E cs))
    (fun _ _ h' => ⟨h.lands h' (Nat.le_refl _) hk hb, h'.2.2⟩) (fun _ _ h => h) (fun _ h => h)

theorem fetchArg_held (h : Held H k s p) {i : Nat} {x : Text} (hx : (texts H)[i]? = some x) :
    Wp (fetchArg E i) (k, s) (fun _ t' => ∃ n t, Sheet.Adds x p n ∧ Held H t'.1 t'.2 { n with arg := some i } ∧
      Beside t false s t'.2 ∧ Longer t p.past n.past) (fun _ _ => True) (· ≠ .op) := by
  rw [texts, List.getElem?_map, Option.map_eq_some_iff] at hx
  obtain ⟨b, hb, rfl⟩ := hx
  have hi : i < H.buffers.length := (List.getElem?_eq_some_iff.mp hb).1
  unfold fetchArg
  rw [wp_bind, wp_ed, wp_get]
  dsimp only
  rw [h.hist, hb, wp_bind]
  show Wp (match b.lastArg with
    | some arg => KM.ed (insertCharsAfterCursor E arg) >>= fun _ => _
    | none => _) _ _ _ _
  cases hl : b.lastArg with
  | none =>
    dsimp only
    rw [wp_modK]
    refine ⟨p, false, .inr ⟨(C10_last_arg b).2.mp hl, rfl⟩,
      ⟨h.here, h.clean, h.loc, h.show', h.hist, h.sug, h.log, rfl, ?_⟩, .refl h.here.quiet, .refl _⟩
    rintro j ⟨⟩; exact hi
  | some w =>
    have hw := ((C10_last_arg b).1 w).mp hl
    dsimp only
    rw [wp_bind, wp_ed]
    refine wp_mono (insert_held E h hw.1 (k' := { lastArgFetchIndex := some i }) rfl ?_) (fun _ s' h' => ?_)
      (fun _ _ h => h) (fun _ h => h)
    · rintro j ⟨⟩; exact hi
    · rw [wp_modK]
      exact ⟨_, true, .inl ⟨w, hw, rfl⟩, h'.1, h'.2, .cons _ _⟩

theorem deleteUntil_writes {l r : Text} (h : Open false s l r) {n : Nat} (hn : n ≤ (l ++ r).length) :
    Writes (deleteUntil E n) s 1 true false ((l ++ r).take (min l.length n)) ((l ++ r).drop (max l.length n)) := by
  rcases Nat.le_total l.length n with hl | hl
  · have h1 : Open false s l (r.take (n - l.length) ++ r.drop (n - l.length)) := by
      rw [List.take_append_drop]; exact h
    have h2 := deleteUntil_forward_sets E (Side.refl s) h1
    rw [List.length_append] at hn
    rw [show l.length + (r.take (n - l.length)).length = n by rw [List.length_take]; omega] at h2
    rw [Nat.min_eq_left hl, Nat.max_eq_right hl, List.take_left, List.drop_append, List.drop_eq_nil_of_le hl,
      List.nil_append]
    exact writes_one h2 h.quiet (gw1_deleteUntil E n) (bs_deleteUntil E n)
  · have h1 : Open false s (l.take n ++ l.drop n) r := by rw [List.take_append_drop]; exact h
    have h2 := deleteUntil_backward_sets E (Side.refl s) h1
    rw [show (l.take n).length = n by rw [List.length_take]; omega] at h2
    rw [Nat.min_eq_right hl, Nat.max_eq_left hl, List.drop_left, List.take_append_of_le_length hl]
    exact writes_one h2 h.quiet (gw1_deleteUntil E n) (bs_deleteUntil E n)

theorem deleteLastArg_held (h : Held H k s p) :
    Wp (Emacs.deleteLastArg E) s (fun _ s' => ∃ m t, Sheet.Drops p m ∧ Held H k s' m ∧ Beside t false s s' ∧
      Longer t p.past m.past) (fun _ _ => True) (· ≠ .op) := by
  obtain ⟨b, hb, hbd⟩ := text?_eq.mp h.here.here.1
  unfold Emacs.deleteLastArg
  rw [wp_bind, wp_curBuf]
  refine ⟨fun b' hb' => ?_, fun hn => by rw [hb] at hn; cases hn⟩
  rw [hb] at hb'; cases hb'
  cases hl : b.lastArg with
  | none =>
    have := (C10_last_arg b).2.mp hl
    rw [hbd] at this
    exact ⟨p, false, .inr ⟨this, rfl⟩, h, .refl h.here.quiet, .refl _⟩
  | some w =>
    have hw := ((C10_last_arg b).1 w).mp hl
    rw [hbd] at hw
    dsimp only
    rw [Buffer.numChars, hbd]
    refine wp_mono (deleteUntil_writes E h.here (Nat.sub_le _ _)) (fun _ s' h' => ?_) (fun _ _ h => h) (fun _ h => h)
    exact ⟨_, true, .inl ⟨w, hw, rfl⟩, h.lands h' (Nat.le_refl _) h.arg h.bound, h'.2.2, .cons _ _⟩

theorem fetch_held (h : Held H k s p) :
    Wp (Emacs.handleLastArgFetch E) (k, s) (fun _ t' => ∃ q t, p.Fetches (texts H) s.curHistoryLoc q ∧ Held H t'.1 t'.2 q ∧
      Beside t false s t'.2 ∧ Longer t p.past q.past) (fun _ _ => True) (· ≠ .op) := by
  have hlen : (texts H).length = H.buffers.length := by simp [texts]
  by_cases he : H.buffers = []
  · have hn : p.nextArg (texts H) s.curHistoryLoc = none := by simp [Sheet.nextArg, texts, he]
    unfold Emacs.handleLastArgFetch
    rw [wp_bind, wp_ed, wp_get, wp_bind, wp_getK]
    dsimp only
    rw [if_pos (by simp [h.hist, he]), wp_pure]
    exact ⟨p, false, by simp [Sheet.Fetches, hn], h, .refl h.here.quiet, .refl _⟩
  have het : texts H ≠ [] := by simpa [texts] using he
  have hne : s.history.buffers ≠ [] := by rw [h.hist]; exact he
  cases ha : p.arg with
  | none =>
    have hk : k.lastArgFetchIndex = none := h.arg.trans ha
    refine (wp_congr (fetch_first E hk hne)).mpr ?_
    rw [h.hist]
    have hlt : s.curHistoryLoc.getD (H.buffers.length - 1) < (texts H).length := by
      cases hl : s.curHistoryLoc with
      | none =>
        have := List.length_pos_iff.2 het
        rw [Option.getD_none]
        omega
      | some i => rw [hlen]; exact h.loc i hl
    refine wp_mono (fetchArg_held E h (List.getElem?_eq_getElem hlt)) (fun _ t' h' => ?_) (fun _ _ h => h) (fun _ h => h)
    obtain ⟨n, t, h1, h2, h3, h4⟩ := h'
    refine ⟨_, t, ?_, h2, h3, h4⟩
    simp only [Sheet.Fetches, Sheet.nextArg, het, if_false, ha]
    exact ⟨p, _, n, by simp, by rw [hlen]; exact List.getElem?_eq_getElem hlt, h1, by rw [hlen]⟩
  | some i =>
    have hk : k.lastArgFetchIndex = some i := h.arg.trans ha
    have hb := h.bound i ha
    cases i with
    | zero =>
      refine wp_mono (fetch_oldest E hk) (fun _ t' h' => ?_) (fun _ _ h => h) (fun _ h => h)
      subst h'
      exact ⟨p, false, by simp [Sheet.Fetches, Sheet.nextArg, ha], h, .refl h.here.quiet, .refl _⟩
    | succ i =>
      refine (wp_congr (fetch_again E hk hne)).mpr ?_
      rw [wp_bind, wp_ed]
      have hlt : i < (texts H).length := by omega
      refine wp_mono (deleteLastArg_held E h) (fun _ s' h' => ?_) (fun _ _ h => h) (fun _ h => h)
      obtain ⟨m, t, h1, h2, g3, g4⟩ := h'
      refine wp_mono (fetchArg_held E h2 (List.getElem?_eq_getElem hlt)) (fun _ t' h' => ?_) (fun _ _ h => h)
        (fun _ h => h)
      obtain ⟨n, u, h3, h4, g5, g6⟩ := h'
      refine ⟨_, t || u, ?_, h4, g3.trans g5, g4.trans g6⟩
      simp only [Sheet.Fetches, Sheet.nextArg, het, if_false, ha]
      exact ⟨m, _, n, by simpa using h1, List.getElem?_eq_getElem hlt, h3, rfl⟩

/-! ### All keys -/

theorem idle_writes (h : Held H k s p) : Writes (pure () : EdM Unit) s 0 false false p.left p.right :=
  ⟨⟨by rw [rest_false]; exact h.here, Side.refl s, h.sug⟩,
    (Grew.refl h.here.quiet).mono fun _ => count_nothing, .refl h.here.quiet⟩

theorem clear_writes (h : Held H k s p) : Writes (clear E) s 0 false true p.left p.right := by
  refine writes_none ?_ h.here.quiet (gw_clear E) (bs_clear E)
  unfold clear clearSearch
  rw [Yields, wp_bind, wp_modify, wp_bind, wp_modify]
  exact display_sets E ⟨rfl, h.here.ne, trivial, h.here.here⟩ ⟨rfl, rfl, rfl, rfl, rfl, fun _ => rfl, fun h => h⟩

theorem held_words (hw : E.words = getBufferWords) (h : Held H k s p) : ∃ ws, IsDivision p.text ws ∧
    (∀ b, s.curBuf? = some b → E.words b = ws) ∧ Separated ws := by
  obtain ⟨ws, hd⟩ := division_ex p.text
  exact ⟨ws, hd, divides hw h.here.here.1 hd⟩

theorem rub_held (hw : E.words = getBufferWords) (h : Held H k s p) (hk : k'.lastArgFetchIndex = none) :
    Wp (deleteWordBeforeCursor E true) s (fun _ s' => ∃ q t, p.Rubs q ∧ Held H k' s' q ∧ Beside t false s s' ∧
      Longer t p.past q.past) (fun _ _ => True) (· ≠ .op) := by
  obtain ⟨ws, h1, h2, h3⟩ := held_words E hw h
  by_cases hp : ∃ w, WordBefore ws p.left.length true w
  · obtain ⟨⟨a, e⟩, hp⟩ := hp
    have ha : a < p.left.length := hp.before
    have hl : (p.left.take a).length = a := by rw [List.length_take]; omega
    have ho : Open false s (p.left.take a ++ p.left.drop a) p.right := by
      rw [List.take_append_drop]; exact h.here
    refine wp_mono (deleteWord_writes E (e := e) ho h2 h3 (by rw [List.take_append_drop, hl]; exact hp)) (fun _ s' h' => ?_)
      (fun _ _ h => h) (fun _ h => h)
    exact ⟨_, true, ⟨ws, h1, .inl ⟨_, hp, rfl⟩⟩, h.lands h' (Nat.le_refl _) hk (by simp), h'.2.2, .cons _ _⟩
  · have hp' : ∀ w, ¬ WordBefore ws p.left.length true w := fun w hw => hp ⟨w, hw⟩
    refine wp_mono (deleteWord_writes_none E h.here h2 h3 hp') (fun _ s' h' => ?_) (fun _ _ h => h) (fun _ h => h)
    exact ⟨_, false, ⟨ws, h1, .inr ⟨hp', rfl⟩⟩, h.lands h' (Nat.zero_le _) hk (by simp), h'.2.2, .refl _⟩

theorem word_held (hw : E.words = getBufferWords) (h : Held H k s p) (hk : k'.lastArgFetchIndex = none) (right : Bool) :
    Wp (Emacs.moveWord E right) s (fun _ s' => ∃ q t, p.Moves (if right then NextEnd else PrevStart) q ∧ Held H k' s' q ∧
      Beside t false s s' ∧ Longer t p.past q.past) (fun _ _ => True) (· ≠ .op) := by
  obtain ⟨ws, h1, h2, h3⟩ := held_words E hw h
  refine wp_mono (moveWord_writes E right h.here h.sug h2 h3 (fun w hm => (h1.words w hm).inside))
    (fun _ s' h' => ?_) (fun _ _ h => h) (fun _ h => h)
  obtain ⟨l', r', g1, g2, g3⟩ := h'
  refine ⟨⟨l', r', p.past, none⟩, false, ⟨g1, rfl, rfl, ws, h1, ?_⟩, h.lands g2 (Nat.zero_le _) hk (by simp), g2.2.2, .refl _⟩
  cases right <;> exact g3

theorem key_step (hw : E.words = getBufferWords) (h : Held H k s p) (hl : Sheet.leaves key = false)
    (hd : ¬ (key = .ctrl 'd' ∧ p.text = [])) : Turned E comp H key p k s := by
  by_cases he : editing key = true
  · exact key_edit E comp h he hd
  have hN : ∀ q, p.Does (texts H) (sugText s) s.curHistoryLoc key q ↔
      (if key = .ctrl 'w' ∨ key = .alt '\x7f' then p.Rubs q
      else if key = .alt 'f' then p.Moves NextEnd q
      else if key = .alt 'b' then p.Moves PrevStart q
      else if key = .ctrl 'x' then q = p.back
      else if key = .alt 'r' then q = p.first
      else if key = .alt '.' then p.Fetches (texts H) s.curHistoryLoc q
      else q = { p with arg := none }) := by
    intro q
    unfold Sheet.Does
    rw [if_neg he]
  have hh : key ≠ .ctrl 'h' := by rintro rfl; exact he rfl
  have ht := translate_ne hh
  have hcl : p.clears (sugText s) key = decide (key = .ctrl 'l') := by
    have : p.takes (sugText s) key = false := by
      unfold Sheet.takes
      rw [Bool.and_eq_false_iff]
      right
      rw [Bool.or_eq_false_iff]
      constructor
      · exact decide_eq_false (by rintro rfl; exact he rfl)
      · rw [Bool.and_eq_false_iff]
        exact .inl (decide_eq_false (by rintro rfl; exact he rfl))
    simp [Sheet.clears, this]
  have hto : ∀ q : Sheet, Sheet.touches key p q = decide (q.past ≠ p.past) := by
    intro q
    have h1 : key ≠ .delete := by rintro rfl; exact he rfl
    have h2 : key ≠ .ctrl 'd' := by rintro rfl; exact he rfl
    simp [Sheet.touches, h1, h2]
  have body : key ≠ .alt '.' → (∀ k' : Emacs, k'.lastArgFetchIndex = none → Wp (Emacs.handleKeyBody E key) (k', s)
      (fun _ t' => Turns H key p s t'.1 t'.2) (fun _ _ => True) (· ≠ .op)) → Turned E comp H key p k s := by
    intro hdot hm
    refine key_body E comp h (fun k s n h => h.wrote n) ?_ (by rwa [ht]) ?_ (by rw [ht]; exact hm)
    · rw [ht]
      rintro hmem
      simp only [List.mem_cons, List.not_mem_nil, or_false] at hmem
      rcases hmem with rfl | rfl | rfl | rfl | rfl | rfl <;> first | exact hdot rfl | cases hl
    · rw [ht]
      exact fun _ => ⟨by rintro rfl; exact he rfl, by rintro rfl; exact he rfl⟩
  have idle : ∀ k' : Emacs, k'.lastArgFetchIndex = none → ∀ (m : EdM Unit) (c : Bool), Writes m s 0 false c p.left p.right →
      c = decide (key = .ctrl 'l') → p.Does (texts H) (sugText s) s.curHistoryLoc key { p with arg := none } →
      Wp m s (fun _ s' => Turns H key p s k' s') (fun _ _ => True) (· ≠ .op) :=
    fun k' hk' m c hm hc hq => wp_mono hm (fun _ s' h' => ⟨_, false, hq, h.lands h' (Nat.zero_le _) hk' (by simp),
      by rw [hcl, ← hc]; exact h'.2.2, fun _ => by rw [hto]; simp⟩) (fun _ _ h => h) (fun _ h => h)
  have long : ∀ {k' : Emacs} {s' : Ed} {q : Sheet} {t : Bool}, key ≠ .ctrl 'l' →
      p.Does (texts H) (sugText s) s.curHistoryLoc key q → Held H k' s' q → Beside t false s s' → Longer t p.past q.past →
      Turns H key p s k' s' := by
    intro k' s' q t hkl h1 h2 h3 h4
    exact ⟨q, t, h1, h2, by rw [hcl, show decide (key = .ctrl 'l') = false by simp [hkl]]; exact h3,
      fun _ => by rw [hto]; exact h4.eq⟩
  cases key with
  | char c =>
    exfalso
    simp only [Sheet.leaves, List.mem_cons, List.not_mem_nil, or_false, decide_eq_false_iff_not, not_or] at hl
    exact he (by simp [editing, hl])
  | up => cases hl
  | down => cases hl
  | left => exact absurd rfl he
  | right => exact absurd rfl he
  | home => exact absurd rfl he
  | «end» => exact absurd rfl he
  | backspace => exact absurd rfl he
  | delete => exact absurd rfl he
  | null =>
    refine body (by simp) fun k' hk' => ?_
    exact idle k' hk' (pure ()) _ (idle_writes h) (by simp) (by rw [hN]; simp)
  | esc =>
    refine body (by simp) fun k' hk' => ?_
    exact idle k' hk' (pure ()) _ (idle_writes h) (by simp) (by rw [hN]; simp)
  | other n =>
    refine body (by simp) fun k' hk' => ?_
    exact idle k' hk' (pure ()) _ (idle_writes h) (by simp) (by rw [hN]; simp)
  | ctrl c =>
    refine body (by simp) fun k' hk' => ?_
    simp only [editing, List.mem_cons, List.not_mem_nil, or_false, decide_eq_true_eq, not_or] at he
    simp only [Sheet.leaves, List.mem_cons, List.not_mem_nil, or_false, decide_eq_false_iff_not, not_or] at hl
    obtain ⟨e1, e2, e3, e4, e5, e6, e7, e8⟩ := he
    obtain ⟨l1, l2, l3, l4, l5⟩ := hl
    show Wp (ed (Emacs.handleCtrlKey E c)) _ _ _ _
    rw [wp_ed]
    unfold Emacs.handleCtrlKey
    by_cases c1 : c = 'l'
    · subst c1
      rw [if_pos rfl]
      exact idle k' hk' _ _ (clear_writes E h) (by simp) (by rw [hN]; simp)
    rw [if_neg c1, if_neg e1, if_neg e2, if_neg e3, if_neg e4, if_neg e5, if_neg l2, if_neg l3, if_neg e7, if_neg e8]
    by_cases c2 : c = 'w'
    · subst c2
      rw [if_pos rfl]
      refine wp_mono (rub_held E hw h hk') (fun _ s' h' => ?_) (fun _ _ h => h) (fun _ h => h)
      obtain ⟨q, t, h1, h2, h3, h4⟩ := h'
      exact long (by simp) (by rw [hN]; simpa using h1) h2 h3 h4
    rw [if_neg c2]
    by_cases c3 : c = 'x'
    · subst c3
      rw [if_pos rfl, wp_bind]
      refine wp_mono (undo_held E h hk') (fun _ s' h' => ?_) (fun _ _ h => h) (fun _ h => h)
      refine ⟨p.back, true, by rw [hN]; simp, h'.1, by rw [hcl]; exact h'.2, fun hp => ?_⟩
      rw [hto]
      unfold Sheet.back
      cases hpp : p.past with
      | nil => exact absurd hpp hp
      | cons => simp
    rw [if_neg c3]
    exact idle k' hk' _ _ (idle_writes h) (by simp [c1]) (by rw [hN]; simp [c2, c3])
  | alt c =>
    by_cases c0 : c = '.'
    · subst c0
      refine wp_mono (key_fetch E comp (Q := fun t' => Turns H (.alt '.') p s t'.1 t'.2) h.here.here
        (wp_mono (fetch_held E h) (fun _ t' h' => ?_) (fun _ _ h => h) (fun _ h => h))) (fun _ _ h => h) (fun _ _ h => h)
        (fun _ h => h)
      obtain ⟨q, t, h1, h2, h3, h4⟩ := h'
      exact long (by simp) (by rw [hN]; simpa using h1) (h2.wrote _) (h3.wrote _) h4
    refine body (by simpa using c0) fun k' hk' => ?_
    simp only [Sheet.leaves, List.mem_cons, List.not_mem_nil, or_false, decide_eq_false_iff_not, not_or] at hl
    show Wp (Emacs.handleAltKey E c) _ _ _ _
    unfold Emacs.handleAltKey
    rw [if_neg hl.1, if_neg hl.2, show Emacs.delChar = '\x7f' from rfl]
    by_cases c1 : c = '\x7f'
    · rw [if_pos c1, wp_ed]
      refine wp_mono (rub_held E hw h hk') (fun _ s' h' => ?_) (fun _ _ h => h) (fun _ h => h)
      obtain ⟨q, t, h1, h2, h3, h4⟩ := h'
      exact long (by simp) (by rw [hN]; simpa [c1] using h1) h2 h3 h4
    rw [if_neg c1]
    by_cases c2 : c = 'f'
    · rw [if_pos c2, wp_ed]
      refine wp_mono (word_held E hw h hk' true) (fun _ s' h' => ?_) (fun _ _ h => h) (fun _ h => h)
      obtain ⟨q, t, h1, h2, h3, h4⟩ := h'
      exact long (by simp) (by rw [hN]; simpa [c2] using h1) h2 h3 h4
    rw [if_neg c2]
    by_cases c3 : c = 'b'
    · rw [if_pos c3, wp_ed]
      refine wp_mono (word_held E hw h hk' false) (fun _ s' h' => ?_) (fun _ _ h => h) (fun _ h => h)
      obtain ⟨q, t, h1, h2, h3, h4⟩ := h'
      exact long (by simp) (by rw [hN]; simpa [c3] using h1) h2 h3 h4
    rw [if_neg c3]
    by_cases c4 : c = 'r'
    · rw [if_pos c4, wp_bind, wp_ed]
      refine wp_mono (revert_held E h hk') (fun _ s' h' => ?_) (fun _ _ h => h) (fun _ h => h)
      refine ⟨p.first, true, by rw [hN]; simp [c4], h'.1, by rw [hcl]; exact h'.2, fun hp => ?_⟩
      rw [hto]
      unfold Sheet.first
      cases hpp : p.past.getLast? with
      | none => exact absurd (List.getLast?_eq_none_iff.mp hpp) hp
      | some t => simpa using hp
    rw [if_neg c4, if_neg c0]
    exact idle k' hk' (pure ()) _ (idle_writes h) (by simp) (by rw [hN]; simp [c0, c1, c2, c3, c4])

/-- Held on a new line. -/
def HeldNew (H : History) (k : Emacs) (s : Ed) (p : Sheet) : Prop := Held H k s p ∧ s.curHistoryLoc = none

/-- On a new line the suggestion is the newest entry that goes on. -/
theorem new_step (hw : E.words = getBufferWords) (h : HeldNew H k s p) (hl : Sheet.leaves key = false)
    (hd : ¬ (key = .ctrl 'd' ∧ p.text = [])) :
    Wp (Emacs.keyMap.handleKey E comp key) (k, s)
      (fun done t' => done = false ∧ ∃ q, p.Next (texts H) key q ∧ HeldNew H t'.1 t'.2 q) (fun _ _ => True) (· ≠ .op) := by
  refine wp_mono (key_step E comp hw h.1 hl hd) (fun done t' h' => ?_) (fun _ _ h => h) (fun _ h => h)
  obtain ⟨rfl, q, t, h1, h2, h3, -⟩ := h'
  have ho : sugText s = hint (texts H) p.text := hint_of (h.1.new h.2).suggests
  rw [ho, h.2] at h1
  exact ⟨rfl, q, h1, h2, h3.loc.trans h.2⟩

/-- Ctrl-D is never pressed on an empty line. -/
def NeverEof (entries : List Text) (keys : List Key) (p : Sheet) : Prop :=
  ∀ a c, keys = a ++ .ctrl 'd' :: c → ∀ q, Sheet.Run entries a p q → q.text ≠ []

theorem never_next {entries : List Text} {keys : List Key} {m : Sheet} (h : NeverEof entries (key :: keys) p)
    (hm : p.Next entries key m) : NeverEof entries keys m := by
  intro a c hac q hq
  exact h (key :: a) c (by rw [hac]; rfl) q ⟨m, hm, hq⟩

theorem press_sheet (hw : E.words = getBufferWords) : ∀ (keys : List (Key × (Text → List Text))),
    (∀ x ∈ keys, Sheet.leaves x.1 = false) → ∀ (k : Emacs) (s : Ed) (p : Sheet), HeldNew H k s p →
    Wp (press Emacs.keyMap E keys) (k, s)
      (fun _ t' => ∃ q, Sheet.Run (texts H) (keys.map (·.1)) p q ∧ HeldNew H t'.1 t'.2 q)
      (fun e _ => NeverEof (texts H) (keys.map (·.1)) p → e = .io ∧ ¬ Works E)
      (fun w => NeverEof (texts H) (keys.map (·.1)) p → w ≠ .op)
  | [], _, k, s, p, h => ⟨p, rfl, h⟩
  | (key, comp) :: keys, hk, k, s, p, h => by
    unfold press
    rw [wp_bind]
    by_cases hd : key = .ctrl 'd' ∧ p.text = []
    · have hne : ¬ NeverEof (texts H) (((key, comp) :: keys).map (·.1)) p := by
        intro hne
        exact hne [] (keys.map (·.1)) (by simp [hd.1]) p rfl hd.2
      have := C44_ctrl_d_empty_partial Emacs.keyMap E comp (k, s)
        (by rw [show text? (k, s).2 = some p.text from h.1.here.here.1, hd.2])
      unfold Wp
      obtain ⟨rfl, hd⟩ := hd
      cases hm : Emacs.keyMap.handleKey E comp (.ctrl 'd') (k, s) with
      | ok a s' => exact (this.1 _ _ hm).elim
      | err e s' => exact fun h => absurd h hne
      | panic w => exact fun h => absurd h hne
    · have h1 := new_step E comp hw h (hk _ (List.mem_cons_self ..)) hd
      have h2 : Wp (Emacs.keyMap.handleKey E comp key) (k, s) (fun _ _ => True)
          (fun e _ => e = .io ∧ ¬ Works E) (fun _ => True) := by
        unfold Wp
        cases hm : Emacs.keyMap.handleKey E comp key (k, s) with
        | ok a s' => trivial
        | panic w => trivial
        | err e s' =>
          have hA : Io E (fun e => e = .io ∧ ¬ Works E) := by
            by_cases hw : Works E
            · exact .inl hw
            · exact .inr ⟨rfl, hw⟩
          rcases only_stops Emacs.keyMap E comp hA (fun key => errs_usesK (T := fun _ => False) hA
            (fun _ h => h.elim) (Emacs.uses_core E key)) hm with h' | ⟨-, rfl⟩ | ⟨-, rfl, h'⟩
          · exact h'
          · have := hk _ (List.mem_cons_self ..)
            cases this
          · refine absurd ⟨rfl, ?_⟩ hd
            have := h'.symm.trans h.1.here.here.1
            exact (Option.some.inj this).symm
      refine wp_mono (wp_and h1 h2) (fun _ t1 h3 => ?_) (fun _ _ h _ => h.2) (fun _ h _ => h.1)
      obtain ⟨⟨-, m, h4, h5⟩, -⟩ := h3
      refine wp_mono (press_sheet hw keys (fun y hy => hk y (List.mem_cons_of_mem _ hy)) t1.1 t1.2 m h5) (fun _ t2 h6 => ?_)
        (fun _ _ h hne => h (never_next hne h4)) (fun _ h hne => h (never_next hne h4))
      obtain ⟨q, h7, h8⟩ := h6
      exact ⟨q, ⟨m, h4, h7⟩, h8⟩

theorem start_held (pr pr' : Prompt) (H : History) (fs : FS) (t : Text) :
    Wp (start E pr) (initial pr' H fs (.ofText t)) (fun _ s' => HeldNew H {} s' ⟨t, [], [], none⟩)
      (fun e _ => e = .io ∧ ¬ Works E) (fun w => w = .op → E.ttyWidth = some 0) := by
  have he : Wp (start E pr) (initial pr' H fs (.ofText t)) (fun _ _ => True) (fun e _ => e = .io ∧ ¬ Works E)
      (fun _ => True) := by
    have hA : Io E (fun e => e = .io ∧ ¬ Works E) := by
      by_cases hw : Works E
      · exact .inl hw
      · exact .inr ⟨rfl, hw⟩
    exact (errs_start hA pr).wp _
  have hg := Vi.gw_start E pr (initial pr' H fs (.ofText t)) rfl
  refine wp_mono (wp_and (wp_and (start_sets E pr pr' H fs (.ofText t) trivial) he) hg) (fun _ s1 h1 => ?_) (fun _ _ h => h.1.2)
    (fun _ h => h.1.1)
  obtain ⟨⟨h1, -⟩, h4⟩ := h1
  have h2 := h1.here
  rw [rest_false] at h2
  refine ⟨⟨h2, fun _ => h1.side.newValid rfl, fun i hi => (by rw [h1.side.loc] at hi; cases hi), h1.side.showSug,
    h1.side.history, h1.sug, ?_, rfl, by simp⟩, h1.side.loc⟩
  obtain ⟨b, es, g1, rfl, g3, g4⟩ := h4.log (.ofText t) rfl
  refine ⟨b, g1, ?_, ?_⟩
  · rw [← Vi.path_nil g4]; simp [Sheet.text, Buffer.ofText]
  · rw [g3]; exact .nil _

theorem session_sheet (hw : E.words = getBufferWords) (pr pr' : Prompt) (H : History) (fs : FS) (t : Text)
    (keys : List (Key × (Text → List Text))) (hk : ∀ x ∈ keys, Sheet.leaves x.1 = false) :
    Wp (session Emacs.keyMap E pr keys) ({}, initial pr' H fs (.ofText t))
      (fun _ t' => ∃ q, Sheet.Run (texts H) (keys.map (·.1)) ⟨t, [], [], none⟩ q ∧ HeldNew H t'.1 t'.2 q)
      (fun _ _ => NeverEof (texts H) (keys.map (·.1)) ⟨t, [], [], none⟩ → ¬ Works E)
      (fun w => NeverEof (texts H) (keys.map (·.1)) ⟨t, [], [], none⟩ → w = .op → E.ttyWidth = some 0) := by
  unfold session
  rw [wp_bind, wp_ed]
  refine wp_mono (start_held E pr pr' H fs t) (fun _ s1 h1 => ?_) (fun _ _ h _ => h.2) (fun _ h _ => h)
  show Wp (pure () >>= fun _ => press Emacs.keyMap E keys) _ _ _ _
  rw [wp_bind, wp_pure]
  exact wp_mono (press_sheet E hw keys hk _ s1 _ h1) (fun _ _ h => h) (fun _ _ h hne => (h hne).2)
    (fun _ h hne hw => absurd hw (h hne))

end
end Props
end Liner
