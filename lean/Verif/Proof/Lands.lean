import Verif.Proof.Pres
import Verif.Proof.Steady
/-
The exact effect of operations on the line and the cursor.
-/

namespace Liner
namespace Editor
open Liner.Spec

/-- `Makes` as a condition on runs. -/
abbrev WpMakes {α : Type} (m : EdM α) (s : Ed) (noEol : Bool) (l r : Text) : Prop :=
  Wp m s (fun _ s' => Lands noEol s' l r) (fun _ s' => text? s' = some (l ++ r)) (fun _ => True)

theorem makes_of {α : Type} {m : EdM α} {s : Ed} {l r : Text} (h : WpMakes m s s.noEol l r) :
    Makes m s l r :=
  ⟨fun _ _ e => wp_ok (Q := fun _ s' => Lands s.noEol s' l r) h e,
    fun _ _ e => wp_err (R := fun _ s' => text? s' = some (l ++ r)) h e⟩

theorem text?_eq {s : Ed} {t : Text} : text? s = some t ↔ ∃ b, s.curBuf? = some b ∧ b.data = t := by
  unfold text?
  rw [Option.map_eq_some_iff]

theorem searchOnNew_iff {s : Ed} : SearchOnNewLine s ↔ (s.isSearch = true → s.curHistoryLoc = none) := by
  unfold SearchOnNewLine Ed.isSearch
  rw [Bool.or_eq_true]

/-- The refresh of a search does not change the line that is being edited. -/
theorem pre_curBuf {s : Ed} (h : SearchOnNewLine s) : (pre s).curBuf? = s.curBuf? := by
  unfold pre
  split
  · rename_i hc
    simp only [Bool.and_eq_true] at hc
    have := searchOnNew_iff.mp h hc.1
    simp [refreshed, Ed.curBuf?, this]
  · rfl

theorem clamp_eq (noEol : Bool) (l r : Text) :
    clampCursor noEol (l ++ r).length l.length =
      if noEol = true ∧ r = [] then l.length - 1 else l.length := by
  have h1 : ¬ (l ++ r).length < l.length := by simp
  simp only [clampCursor, h1, if_false]
  by_cases hr : r = []
  · subst hr
    cases noEol
    · simp
    · cases l <;> simp
  · have : l.length ≠ (l ++ r).length := by
      have := List.length_pos_iff.mpr hr
      simp; omega
    simp [hr]

/-- A redraw shows the line as it is. -/
theorem display_makes (E : Env) {s : Ed} {l r : Text} (ht : text? s = some (l ++ r))
    (hc : s.cursor = l.length) (hs : SearchOnNewLine s) : WpMakes (display E) s s.noEol l r := by
  obtain ⟨b0, hb0, hd⟩ := text?_eq.mp ht
  refine wp_mono (display_wp E s) (fun _ s' h => ?_) (fun _ s' h => ?_) (fun _ _ => trivial)
  · obtain ⟨b, sug, hb, _, h⟩ := h.ex
    have hcb := drawn_curBuf h
    rw [pre_curBuf hs, hb0] at hb
    cases hb
    refine ⟨text?_eq.mpr ⟨b0, ?_, hd⟩, ?_⟩
    · rw [hcb, pre_curBuf hs, hb0]
    · obtain ⟨_, _, _, _, rfl⟩ := h
      show clampCursor s.noEol b0.numChars s.cursor = _
      rw [hc, Buffer.numChars, hd]
      exact clamp_eq _ _ _
  · obtain ⟨cu, sug, _, h, _⟩ := h.ex
    refine text?_eq.mpr ⟨b0, ?_, hd⟩
    rw [drawn_curBuf h, pre_curBuf hs, hb0]

theorem setCur_noEol (s : Ed) (b : Buffer) : (setCur s b).noEol = s.noEol := by
  unfold setCur; split <;> rfl

theorem setCur_text (s : Ed) (b : Buffer) : text? (setCur s b) = some b.data := by
  rw [text?_eq]; exact ⟨b, setCur_curBuf _ _, rfl⟩

theorem SearchOnNewLine.setCur {s : Ed} (h : SearchOnNewLine s) (b : Buffer) :
    SearchOnNewLine (setCur s b) := by
  unfold SearchOnNewLine Editor.setCur at *
  split <;> exact h

theorem SearchOnNewLine.mk_cursor {s : Ed} (h : SearchOnNewLine s) (c : Nat) :
    SearchOnNewLine { s with cursor := c } := h

/-- Editing the current line when it is known to be `t`. -/
theorem wp_edit {α : Type} {f : Buffer → Option (α × Buffer)} {s : Ed} {t : Text}
    {Q : α → Ed → Prop} {R : IoErr → Ed → Prop} (ht : text? s = some t)
    (hf : ∀ b a b', b.data = t → f b = some (a, b') → Q a (setCur s b')) :
    Wp (curBufMut f) s Q R (fun _ => True) := by
  rw [wp_curBufMut]
  refine ⟨fun b a b' hb hf' => hf b a b' ?_ hf', fun _ => trivial⟩
  obtain ⟨b0, h0, h1⟩ := text?_eq.mp ht
  obtain ⟨b1, h2, h3⟩ := curBuf_of_workBuf hb
  rw [h0] at h2; cases h2
  rw [h3, h1]

theorem insert_data {b b' : Buffer} {l r t : Text} (hb : b.data = l ++ r)
    (h : b.insert l.length t = some b') : b'.data = l ++ t ++ r := by
  obtain ⟨b1, h1, h2⟩ := Props.C01_insert b l r t hb
  rw [h] at h1; cases h1; exact h2

theorem remove_data {b b' : Buffer} {l m r : Text} {start stop n : Nat} (hb : b.data = l ++ m ++ r)
    (h1 : start = l.length) (h2 : stop = l.length + m.length)
    (h : b.remove start stop = some (n, b')) : n = m.length ∧ b'.data = l ++ r := by
  subst h1 h2
  obtain ⟨b1, h1, h2⟩ := Props.C01_remove b l m r hb
  rw [h] at h1; cases h1; exact ⟨rfl, h2⟩

theorem truncate_data {b b' : Buffer} {l r : Text} {n : Nat} (hb : b.data = l ++ r)
    (h1 : n = l.length) (h : b.truncate n = some b') : b'.data = l := by
  subst h1
  obtain ⟨b1, h1, h2⟩ := Props.C01_edits b (.truncate l.length) l (by simp [Edit.apply, hb])
  simp only [runEdit] at h1
  rw [h] at h1; cases h1; exact h2

/-! ### Editing -/

section
variable (E : Env) {s : Ed} {l m r : Text}

/-- The redraw after the line was set to `w` and the cursor to `c`. -/
theorem display_set (hs : SearchOnNewLine s) {w : Buffer} {c : Nat} (hd : w.data = l ++ r)
    (hc : c = l.length) : WpMakes (display E) { setCur s w with cursor := c } s.noEol l r := by
  have := display_makes E (s := { setCur s w with cursor := c }) (l := l) (r := r)
    (by show text? (setCur s w) = _; rw [setCur_text, hd]) hc (SearchOnNewLine.mk_cursor (SearchOnNewLine.setCur hs w) _)
  rw [show ({ setCur s w with cursor := c } : Ed).noEol = s.noEol from setCur_noEol s w] at this
  exact this

theorem display_set' (hs : SearchOnNewLine s) {w : Buffer} (hd : w.data = l ++ r)
    (hc : s.cursor = l.length) : WpMakes (display E) (setCur s w) s.noEol l r := by
  have := display_makes E (s := setCur s w) (l := l) (r := r)
    (by rw [setCur_text, hd]) (by rw [setCur_cursor, hc]) (SearchOnNewLine.setCur hs w)
  rw [setCur_noEol] at this
  exact this

theorem insert_makes (h : At s l r) (hs : SearchOnNewLine s) (cs : Text) :
    WpMakes (insertCharsAfterCursor E cs) s s.noEol (l ++ cs) r := by
  simp only [WpMakes, insertCharsAfterCursor, wp_bind, wp_get, wp_modify]
  refine wp_edit h.1 (fun b a b' hb hf => ?_)
  simp only [noRes, Option.map_eq_some_iff] at hf
  rw [h.2] at hf
  obtain ⟨w, hw, he⟩ := hf
  cases he
  exact display_set E hs (insert_data hb hw) (by simp [setCur_cursor, h.2])

theorem deleteBefore_makes {c : Char} (h : At s (l ++ [c]) r) (hs : SearchOnNewLine s) :
    WpMakes (deleteBeforeCursor E) s s.noEol l r := by
  simp only [WpMakes, deleteBeforeCursor, wp_bind, wp_get, wp_modify, wp_ite]
  refine ⟨fun _ => wp_edit h.1 (fun b a b' hb hf => ?_), fun hn => ?_⟩
  · have hd := remove_data (m := [c]) hb (by simp [h.2]) (by simp [h.2]) hf
    exact display_set E hs hd.2 (by simp [setCur_cursor, h.2])
  · simp [h.2] at hn

theorem deleteBefore_start (h : At s [] r) (hs : SearchOnNewLine s) :
    WpMakes (deleteBeforeCursor E) s s.noEol [] r := by
  simp only [WpMakes, deleteBeforeCursor, wp_bind, wp_get, wp_modify, wp_ite]
  refine ⟨fun hn => ?_, fun hn => display_makes E h.1 h.2 hs⟩
  simp [h.2] at hn

theorem deleteAfter_makes {c : Char} (h : At s l (c :: r)) (hs : SearchOnNewLine s) :
    WpMakes (deleteAfterCursor E) s s.noEol l r := by
  simp only [WpMakes, deleteAfterCursor, wp_bind, wp_get]
  refine wp_edit h.1 (fun b a b' hb hf => ?_)
  have hlt : s.cursor < b.numChars := by simp [Buffer.numChars, hb, h.2]
  rw [if_pos hlt, Option.map_eq_some_iff] at hf
  obtain ⟨⟨n, w⟩, hw, he⟩ := hf
  cases he
  have hd := remove_data (m := [c]) (l := l) (r := r) (by simp [hb]) (by simp [h.2])
    (by simp [h.2]) hw
  exact display_set' E hs hd.2 h.2

theorem deleteAfter_end (h : At s l []) (hs : SearchOnNewLine s) :
    WpMakes (deleteAfterCursor E) s s.noEol l [] := by
  simp only [WpMakes, deleteAfterCursor, wp_bind, wp_get]
  refine wp_edit h.1 (fun b a b' hb hf => ?_)
  have hlt : ¬ s.cursor < b.numChars := by simp [Buffer.numChars, hb, h.2]
  rw [if_neg hlt] at hf
  cases hf
  exact display_set' E hs hb h.2

theorem deleteAllBefore_makes (h : At s l r) (hs : SearchOnNewLine s) :
    WpMakes (deleteAllBeforeCursor E) s s.noEol [] r := by
  simp only [WpMakes, deleteAllBeforeCursor, wp_bind, wp_get, wp_modify]
  refine wp_edit h.1 (fun b a b' hb hf => ?_)
  have hd := remove_data (l := []) (m := l) (r := r) (by simp [hb]) rfl (by simp [h.2]) hf
  exact display_set E hs hd.2 rfl

theorem deleteAllAfter_makes (h : At s l r) (hs : SearchOnNewLine s) :
    WpMakes (deleteAllAfterCursor E) s s.noEol l [] := by
  simp only [WpMakes, deleteAllAfterCursor, wp_bind, wp_get]
  refine wp_edit h.1 (fun b a b' hb hf => ?_)
  simp only [noRes, Option.map_eq_some_iff] at hf
  obtain ⟨w, hw, he⟩ := hf
  cases he
  exact display_set' E hs (by simpa using truncate_data hb h.2 hw) h.2

theorem deleteUntil_forward (h : At s l (m ++ r)) (hs : SearchOnNewLine s) {p : Nat}
    (hp : p = l.length + m.length) : WpMakes (deleteUntil E p) s s.noEol l r := by
  simp only [WpMakes, deleteUntil, wp_bind, wp_get, wp_modify]
  refine wp_edit h.1 (fun b a b' hb hf => ?_)
  have hd := remove_data (l := l) (m := m) (r := r) (by simp [hb]) (by rw [h.2, hp]; omega)
    (by rw [h.2, hp]; omega) hf
  exact display_set E hs hd.2 (by rw [setCur_cursor, h.2, hp]; omega)

theorem deleteUntil_backward (h : At s (l ++ m) r) (hs : SearchOnNewLine s) {p : Nat}
    (hp : p = l.length) : WpMakes (deleteUntil E p) s s.noEol l r := by
  have hc : s.cursor = l.length + m.length := by simpa using h.2
  simp only [WpMakes, deleteUntil, wp_bind, wp_get, wp_modify]
  refine wp_edit h.1 (fun b a b' hb hf => ?_)
  have hd := remove_data (l := l) (m := m) (r := r) (by simp [hb]) (by rw [hc, hp]; omega)
    (by rw [hc, hp]; omega) hf
  exact display_set E hs hd.2 (by rw [setCur_cursor, hc, hp]; omega)

theorem deleteUntilInclusive_forward {c : Char} (h : At s l (m ++ c :: r))
    (hs : SearchOnNewLine s) {p : Nat} (hp : p = l.length + m.length) :
    WpMakes (deleteUntilInclusive E p) s s.noEol l r := by
  simp only [WpMakes, deleteUntilInclusive, wp_bind, wp_get, wp_modify]
  refine wp_edit h.1 (fun b a b' hb hf => ?_)
  have hd := remove_data (l := l) (m := m ++ [c]) (r := r) (by simp [hb]) (by rw [h.2, hp]; omega)
    (by rw [h.2, hp]; simp; omega) hf
  exact display_set E hs hd.2 (by rw [setCur_cursor, h.2, hp]; omega)

theorem deleteUntilInclusive_backward {c : Char} (h : At s (l ++ m) (c :: r))
    (hs : SearchOnNewLine s) {p : Nat} (hp : p = l.length) :
    WpMakes (deleteUntilInclusive E p) s s.noEol l r := by
  have hc : s.cursor = l.length + m.length := by simpa using h.2
  simp only [WpMakes, deleteUntilInclusive, wp_bind, wp_get, wp_modify]
  refine wp_edit h.1 (fun b a b' hb hf => ?_)
  have hd := remove_data (l := l) (m := m ++ [c]) (r := r) (by simp [hb]) (by rw [hc, hp]; omega)
    (by rw [hc, hp]; simp; omega) hf
  exact display_set E hs hd.2 (by rw [setCur_cursor, hc, hp]; omega)

/-- Past the end. -/
theorem deleteUntil_panics {t : Text} (h : text? s = some t) {p : Nat} (hp : t.length < p) :
    deleteUntil E p s = .panic .op := by
  have : Wp (deleteUntil E p) s (fun _ _ => False) (fun _ _ => False) (· = .op) := by
    simp only [deleteUntil, wp_bind, wp_get, wp_modify]
    rw [wp_curBufMut]
    refine ⟨fun b a b' hb hf => ?_, fun _ => rfl⟩
    obtain ⟨b0, h0, h1⟩ := text?_eq.mp h
    obtain ⟨b1, h2, h3⟩ := curBuf_of_workBuf hb
    rw [h0] at h2; cases h2
    have := (Props.C01_remove_panics_iff b (min s.cursor p) (max s.cursor p)).mpr
      (by rw [h3, h1]; omega)
    rw [this] at hf; cases hf
  unfold Wp at this
  split at this
  · exact this.elim
  · exact this.elim
  · rename_i h; rw [h, this]

/-! ### Motions -/

theorem left_makes (h : At s (l ++ m) r) (hs : SearchOnNewLine s) {n : Nat} (hn : n = m.length) :
    WpMakes (moveCursorLeft E n) s s.noEol l (m ++ r) := by
  have hc : s.cursor = l.length + m.length := by simpa using h.2
  simp only [WpMakes, moveCursorLeft, wp_bind, wp_modify]
  refine display_makes E (s := { s with cursor := _ }) ?_ ?_ hs
  · show text? s = _
    rw [h.1, List.append_assoc]
  · show _ - _ = _
    rw [hc, hn]
    split <;> omega

theorem left_clamps (h : At s l r) (hs : SearchOnNewLine s) {n : Nat} (hn : l.length ≤ n) :
    WpMakes (moveCursorLeft E n) s s.noEol [] (l ++ r) := by
  simp only [WpMakes, moveCursorLeft, wp_bind, wp_modify]
  refine display_makes E (s := { s with cursor := _ }) ?_ ?_ hs
  · show text? s = _
    rw [h.1]; rfl
  · show _ - _ = _
    rw [h.2]
    split <;> simp
    omega

theorem right_makes (h : At s l (m ++ r)) (hs : SearchOnNewLine s) {n : Nat} (hn : n = m.length) :
    WpMakes (moveCursorRight E n) s s.noEol (l ++ m) r := by
  obtain ⟨b0, h0, h1⟩ := text?_eq.mp h.1
  simp only [WpMakes, moveCursorRight, wp_bind, wp_curBuf, wp_get, wp_ite, wp_panic, wp_modify]
  refine ⟨fun b hb => ⟨fun _ => trivial, fun _ => ?_⟩, fun _ => trivial⟩
  rw [h0] at hb; cases hb
  refine display_makes E (s := { s with cursor := _ }) ?_ ?_ hs
  · show text? s = _
    rw [h.1, List.append_assoc]
  · show _ + _ = _
    simp only [Buffer.numChars, h1, h.2, hn, List.length_append]
    split <;> omega

theorem right_clamps (h : At s l r) (hs : SearchOnNewLine s) {n : Nat} (hn : r.length ≤ n) :
    WpMakes (moveCursorRight E n) s s.noEol (l ++ r) [] := by
  obtain ⟨b0, h0, h1⟩ := text?_eq.mp h.1
  simp only [WpMakes, moveCursorRight, wp_bind, wp_curBuf, wp_get, wp_ite, wp_panic, wp_modify]
  refine ⟨fun b hb => ⟨fun _ => trivial, fun _ => ?_⟩, fun _ => trivial⟩
  rw [h0] at hb; cases hb
  refine display_makes E (s := { s with cursor := _ }) ?_ ?_ hs
  · show text? s = _
    rw [h.1]; simp
  · show _ + _ = _
    simp only [Buffer.numChars, h1, h.2, List.length_append]
    split <;> omega

theorem to_makes (h : text? s = some (l ++ r)) (hs : SearchOnNewLine s) {p : Nat}
    (hp : p = l.length ∨ l.length ≤ p ∧ r = []) :
    WpMakes (moveCursorTo E p) s s.noEol l r := by
  obtain ⟨b0, h0, h1⟩ := text?_eq.mp h
  simp only [WpMakes, moveCursorTo, wp_bind, wp_curBuf, wp_modify]
  refine ⟨fun b hb => ?_, fun _ => trivial⟩
  rw [show s.curBuf? = some b from hb] at h0; cases h0
  refine display_makes E (s := { s with cursor := _ }) h ?_ hs
  show (if _ then _ else _) = _
  simp only [Buffer.numChars, h1, List.length_append]
  rcases hp with hp | ⟨hp, rfl⟩
  · split <;> omega
  · simp only [List.length_nil, Nat.add_zero]; split <;> omega

theorem home_makes (h : text? s = some r) (hs : SearchOnNewLine s) :
    WpMakes (moveCursorToStartOfLine E) s s.noEol [] r := by
  simp only [WpMakes, moveCursorToStartOfLine, wp_bind, wp_modify]
  exact display_makes E (s := { s with cursor := 0 }) h rfl hs

theorem end_makes (h : text? s = some l) (hs : SearchOnNewLine s) :
    WpMakes (moveCursorToEndOfLine E) s s.noEol l [] := by
  obtain ⟨b0, h0, h1⟩ := text?_eq.mp h
  simp only [WpMakes, moveCursorToEndOfLine, wp_bind, wp_curBuf, wp_modify]
  refine ⟨fun b hb => ?_, fun _ => trivial⟩
  rw [h0] at hb; cases hb
  exact display_makes E (s := { s with cursor := _ }) (by
    show text? s = _; rw [h, List.append_nil]) (by
    show b0.numChars = _
    rw [Buffer.numChars, h1]) hs

/-! ### Undo, redo, revert -/

theorem edited_curBuf {b : Buffer} (h : Edited s b) : s.curBuf? = some b := by
  unfold Ed.curBuf?
  rcases h with ⟨h1, h2⟩ | ⟨⟨i, h1⟩, h2, h3⟩
  · rw [h1]; exact congrArg some h2
  · rw [h1]; simp only [h2, if_true]; exact congrArg some h3

theorem edited_workBuf {b : Buffer} (h : Edited s b) : workBuf s = some b := by
  unfold Editor.workBuf
  rcases h with ⟨h1, h2⟩ | ⟨⟨i, h1⟩, h2, h3⟩
  · rw [h1]; exact congrArg some h2
  · rw [h1]; simp only [h2, if_true]; exact congrArg some h3

theorem setCur_edited (s : Ed) (b : Buffer) : Edited (setCur s b) b := by
  unfold setCur Edited
  cases h : s.curHistoryLoc with
  | none => exact .inl ⟨rfl, rfl⟩
  | some i => exact .inr ⟨⟨i, rfl⟩, rfl, rfl⟩

theorem edited_drawn {b : Buffer} (h : Edited s b) (hs : SearchOnNewLine s) {s' : Ed} {c : Nat}
    {o : Option Buffer} (hd : Drawn { pre s with autosuggestion := o } s' c) : Edited s' b := by
  obtain ⟨l, cb, ou, t, rfl⟩ := hd
  unfold pre
  split
  · rename_i hc
    simp only [Bool.and_eq_true] at hc
    have hn := searchOnNew_iff.mp hs hc.1
    rcases h with ⟨h1, h2⟩ | ⟨⟨i, h1⟩, h2, h3⟩
    · exact .inl ⟨rfl, h2⟩
    · rw [hn] at h1; cases h1
  · exact h

theorem display_edited {b : Buffer} (h : Edited s b) (hs : SearchOnNewLine s) :
    Wp (display E) s (fun _ s' => Edited s' b) (fun _ s' => Edited s' b) (fun _ => True) := by
  refine wp_mono (display_wp E s) (fun _ s' h1 => ?_) (fun _ s' h1 => ?_) (fun _ _ => trivial)
  · obtain ⟨b, sug, _, _, h1⟩ := h1.ex
    exact edited_drawn h hs h1
  · obtain ⟨cu, sug, _, h1, _⟩ := h1.ex
    exact edited_drawn h hs h1

theorem moveEnd_edited {b : Buffer} (h : Edited s b) (hs : SearchOnNewLine s) :
    Wp (moveCursorToEndOfLine E) s (fun _ s' => Edited s' b) (fun _ s' => Edited s' b)
      (fun _ => True) := by
  simp only [moveCursorToEndOfLine, wp_bind, wp_curBuf, wp_modify]
  exact ⟨fun b' hb => display_edited E (s := { s with cursor := _ }) h hs, fun _ => trivial⟩

theorem applies_of {f : Buffer → Option (Bool × Buffer)} {b : Buffer}
    (hf : ∀ b b', f b = some (false, b') → b'.data = b.data)
    (h : Edited s b) (hs : SearchOnNewLine s) :
    Wp (do
      let did ← curBufMut f
      if did then moveCursorToEndOfLine E else display E
      pure did) s (fun did s' => Applies f s b did s')
      (fun _ s' => ∃ did b', f b = some (did, b') ∧ Edited s' b') (fun _ => True) := by
  simp only [wp_bind, wp_curBufMut]
  refine ⟨fun b1 did b' hb hfb => ?_, fun _ => trivial⟩
  rw [edited_workBuf h] at hb; cases hb
  have he := setCur_edited s b'
  have hs' := SearchOnNewLine.setCur hs b'
  cases did
  · simp only [Bool.false_eq_true, if_false]
    have hd := hf _ _ hfb
    rw [wp_bind]
    by_cases hat : ∃ l r, At s l r
    · obtain ⟨l, r, hat⟩ := hat
      have hc := text?_eq.mp hat.1
      obtain ⟨b2, hb2, hd2⟩ := hc
      rw [edited_curBuf h] at hb2; cases hb2
      refine wp_mono (wp_and (display_edited E he hs') (display_set' E hs (hd.trans hd2) hat.2))
        (fun _ s' h1 => ?_) (fun _ s' h1 => ⟨_, _, hfb, h1.1⟩) (fun _ _ => trivial)
      refine ⟨b', hfb, h1.1, fun h => by simp at h, fun _ l' r' hat' => ?_⟩
      have e1 : l.length = l'.length := hat.2.symm.trans hat'.2
      have e2 : l ++ r = l' ++ r' := Option.some.inj (hat.1.symm.trans hat'.1)
      obtain ⟨rfl, rfl⟩ := List.append_inj e2 e1
      exact h1.2
    · refine wp_mono (display_edited E he hs') (fun _ s' h1 => ?_)
        (fun _ s' h1 => ⟨_, _, hfb, h1⟩) (fun _ _ => trivial)
      exact ⟨b', hfb, h1, fun h => by simp at h, fun _ l' r' hat' => absurd ⟨l', r', hat'⟩ hat⟩
  · simp only [if_true]
    rw [wp_bind]
    have hm := end_makes E (s := setCur s b') (l := b'.data) (setCur_text s b') hs'
    rw [setCur_noEol] at hm
    refine wp_mono (wp_and (moveEnd_edited E he hs') hm)
      (fun _ s' h1 => ?_) (fun _ s' h1 => ⟨_, _, hfb, h1.1⟩) (fun _ _ => trivial)
    exact ⟨b', hfb, h1.1, fun _ => h1.2, fun h => by simp at h⟩

theorem undo_false (b b' : Buffer) (h : b.undo = some (false, b')) : b'.data = b.data := by
  unfold Buffer.undo at h
  rw [Option.map_eq_some_iff] at h
  obtain ⟨w, hw, he⟩ := h
  simp only [Prod.mk.injEq, Bool.not_eq_false', List.isEmpty_iff] at he
  obtain ⟨h1, rfl⟩ := he
  rw [h1] at hw
  cases hw; rfl

theorem redo_false (b b' : Buffer) (h : b.redo = some (false, b')) : b'.data = b.data := by
  unfold Buffer.redo at h
  rw [Option.map_eq_some_iff] at h
  obtain ⟨w, hw, he⟩ := h
  simp only [Prod.mk.injEq, Bool.not_eq_false', List.isEmpty_iff] at he
  obtain ⟨h1, rfl⟩ := he
  rw [h1] at hw
  cases hw; rfl

theorem revert_false (b b' : Buffer) (h : b.revert = some (false, b')) : b'.data = b.data := by
  unfold Buffer.revert at h
  split at h
  · cases h; rfl
  · rw [Option.map_eq_some_iff] at h
    obtain ⟨w, hw, he⟩ := h
    simp at he

theorem undo_applies {b : Buffer} (h : Edited s b) (hs : SearchOnNewLine s) :
    Wp (undo E) s (fun did s' => Applies Buffer.undo s b did s')
      (fun _ s' => ∃ did b', b.undo = some (did, b') ∧ Edited s' b') (fun _ => True) :=
  applies_of E undo_false h hs

theorem redo_applies {b : Buffer} (h : Edited s b) (hs : SearchOnNewLine s) :
    Wp (redo E) s (fun did s' => Applies Buffer.redo s b did s')
      (fun _ s' => ∃ did b', b.redo = some (did, b') ∧ Edited s' b') (fun _ => True) :=
  applies_of E redo_false h hs

theorem revert_applies {b : Buffer} (h : Edited s b) (hs : SearchOnNewLine s) :
    Wp (revert E) s (fun did s' => Applies Buffer.revert s b did s')
      (fun _ s' => ∃ did b', b.revert = some (did, b') ∧ Edited s' b') (fun _ => True) :=
  applies_of E revert_false h hs

/-! ### Enter -/

/-- Drawing the line a last time, without the suggestion. -/
theorem displayImpl_makes {l r : Text} (ht : text? s = some (l ++ r)) (hc : s.cursor = l.length)
    (sa : Bool) : WpMakes (displayImpl E sa) s s.noEol l r := by
  obtain ⟨b0, hb0, hd⟩ := text?_eq.mp ht
  refine wp_mono (displayImpl_wp E sa s) (fun _ s' h => ?_) (fun _ s' h => ?_) (fun _ _ => trivial)
  · obtain ⟨b, hb, l', c', o, t, rfl⟩ := h.drawn
    rw [hb0] at hb; cases hb
    refine ⟨ht, ?_⟩
    show clampCursor s.noEol b0.numChars s.cursor = _
    rw [hc, Buffer.numChars, hd]
    exact clamp_eq _ _ _
  · obtain ⟨cu, ⟨l', c, o, t, rfl⟩, _⟩ := h
    exact ht

theorem charBefore_at {b : Buffer} (hb : b.data = l ++ r) : b.charBefore l.length = l.getLast? := by
  unfold Buffer.charBefore
  rcases List.eq_nil_or_concat l with rfl | ⟨l', c, rfl⟩
  · simp
  · simp [hb]

/-- The state without a search. -/
def quiet (s : Ed) : Ed :=
  { s with historyFresh := false, reverseSearch := false, forwardSearch := false,
           historySubsetLoc := none, historySubsetIndex := [] }

theorem newline_run (hs : s.isSearch = false) {Q : Bool → Ed → Prop} {R : IoErr → Ed → Prop}
    {P : Site → Prop} : Wp (handleNewline E) s Q R P ↔ Wp (finishLine E) (quiet s) Q R P := by
  have : ({ s with historyFresh := false } : Ed).isSearch = false := hs
  simp only [handleNewline, acceptIfSearch, clearSearch, wp_bind, wp_modify, wp_get, this,
    Bool.false_eq_true, if_false, wp_pure, quiet]

/-- With a list of completions shown, Enter only dismisses it. -/
theorem finish_hint (hh : s.showCompletionsHint ≠ none) :
    Wp (finishLine E) s (fun res s' => res = false ∧ s'.showCompletionsHint = none ∧
      text? s' = text? s ∧ s'.cursor = s.cursor) (fun _ _ => False) (fun _ => False) := by
  unfold finishLine
  rw [wp_bind, wp_get]
  rw [if_pos (Option.isSome_iff_ne_none.mpr hh), wp_bind, wp_modify]
  exact ⟨rfl, rfl, rfl, rfl⟩

theorem finish_backslash (hs : SearchOnNewLine s) (hh : s.showCompletionsHint = none)
    (h : At s (l ++ ['\\']) r) :
    Wp (finishLine E) s (fun res s' => res = false ∧ Lands s.noEol s' (l ++ ['\\', '\n']) r)
      (fun _ s' => text? s' = some (l ++ ['\\', '\n'] ++ r)) (fun _ => True) := by
  obtain ⟨b0, h0, h1⟩ := text?_eq.mp h.1
  unfold finishLine
  rw [wp_bind, wp_get]
  rw [if_neg (by simp [hh]), wp_bind, wp_curBuf]
  refine ⟨fun b hb => ?_, fun _ => trivial⟩
  rw [h0] at hb; cases hb
  rw [if_pos (by rw [h.2, charBefore_at h1]; simp), wp_bind]
  refine wp_mono (insert_makes E h hs ['\n']) (fun _ s' h1 => ?_) (fun _ s' h1 => by simpa using h1)
    (fun _ _ => trivial)
  exact ⟨rfl, by simpa using h1⟩

theorem finish_done (hh : s.showCompletionsHint = none) (h : At s l r)
    (hl : l.getLast? ≠ some '\\') :
    Wp (finishLine E) s (fun res s' => res = true ∧ Lands s.noEol s' (l ++ r) [])
      (fun _ s' => text? s' = some (l ++ r)) (fun _ => True) := by
  obtain ⟨b0, h0, h1⟩ := text?_eq.mp h.1
  unfold finishLine
  rw [wp_bind, wp_get]
  rw [if_neg (by simp [hh]), wp_bind, wp_curBuf]
  refine ⟨fun b hb => ?_, fun _ => trivial⟩
  rw [h0] at hb; cases hb
  rw [if_neg (by rw [h.2, charBefore_at h1]; exact hl), wp_bind, wp_modify, wp_bind]
  have := displayImpl_makes E (s := { s with cursor := b0.numChars }) (l := l ++ r) (r := [])
      (by show text? s = _; rw [h.1, List.append_nil])
      (by show b0.numChars = _; rw [Buffer.numChars, h1]) false
  refine wp_mono this (fun _ s' h2 => ?_) (fun _ s' h2 => by simpa using h2) (fun _ _ => trivial)
  rw [wp_bind, wp_writeTerm]
  refine ⟨fun _ => ?_, fun _ => ?_⟩
  · rw [wp_bind, wp_modify]
    exact ⟨rfl, h2⟩
  · exact (by simpa using h2.1 : text? s' = some (l ++ r))

/-! ### Suggestions -/

theorem clearSearch_onNew (s : Ed) : SearchOnNewLine
    { s with reverseSearch := false, forwardSearch := false, historySubsetLoc := none,
             historySubsetIndex := [] } := by intro h; simp at h

theorem clearSearch_end (h : text? s = some l) {n : Bool} (hn : s.noEol = n) :
    Wp (do clearSearch; moveCursorToEndOfLine E) s (fun _ s' => Lands n s' l [])
      (fun _ s' => text? s' = some (l ++ [])) (fun _ => True) := by
  simp only [wp_bind, clearSearch, wp_modify]
  subst hn
  exact end_makes E (s := { s with reverseSearch := false, forwardSearch := false,
                                   historySubsetLoc := none, historySubsetIndex := [] }) h
    (clearSearch_onNew s)

/-- The search has ended after the operation. -/
theorem accept_ends : Wp (acceptAutosuggestion E) s (fun _ s' => s'.isSearch = false)
    (fun _ s' => s'.isSearch = false) (fun _ => True) := by
  have key : ∀ s, Wp (do clearSearch; moveCursorToEndOfLine E) s (fun _ s' => s'.isSearch = false)
      (fun _ s' => s'.isSearch = false) (fun _ => True) := by
    intro s
    simp only [wp_bind, clearSearch, wp_modify, moveCursorToEndOfLine, wp_curBuf]
    refine ⟨fun b _ => ?_, fun _ => trivial⟩
    refine wp_mono (display_wp E _) (fun _ s' h => ?_) (fun _ s' h => ?_) (fun _ _ => trivial)
    · rw [h.same.isSearch]; rfl
    · rw [h.same.isSearch]; rfl
  unfold acceptAutosuggestion
  rw [wp_bind, wp_get]
  dsimp only
  split
  · rw [wp_bind, wp_curBufMut]
    exact ⟨fun _ _ _ _ _ => key _, fun _ => trivial⟩
  · exact key _

theorem accept_same : Wp (acceptAutosuggestion E) s
    (fun _ s' => s'.showCompletionsHint = s.showCompletionsHint ∧ s'.noEol = s.noEol)
    (fun _ _ => True) (fun _ => True) := by
  have key : ∀ s, Wp (do clearSearch; moveCursorToEndOfLine E) s
      (fun _ s' => s'.showCompletionsHint = s.showCompletionsHint ∧ s'.noEol = s.noEol)
      (fun _ _ => True) (fun _ => True) := by
    intro s
    simp only [wp_bind, clearSearch, wp_modify, moveCursorToEndOfLine, wp_curBuf]
    refine ⟨fun b _ => ?_, fun _ => trivial⟩
    refine wp_mono (display_wp E _) (fun _ s' h => ?_) (fun _ s' h => trivial) (fun _ _ => trivial)
    exact ⟨h.same.hint, h.same.noEol⟩
  unfold acceptAutosuggestion
  rw [wp_bind, wp_get]
  dsimp only
  split
  · rw [wp_bind, wp_curBufMut]
    refine ⟨fun b a b' _ _ => ?_, fun _ => trivial⟩
    have h2 : (setCur s b').showCompletionsHint = s.showCompletionsHint := by
      unfold setCur; split <;> rfl
    exact wp_mono (key _) (fun _ _ h => ⟨h.1.trans h2, h.2.trans (setCur_noEol _ _)⟩)
      (fun _ _ h => h) (fun _ h => h)
  · exact key _

theorem accept_some {x : Buffer} {t : Text} (hw : s.showAutosuggestions = true)
    (hx : s.autosuggestion = some x) (ht : text? s = some t)
    (hp : s.isSearch = false → t <+: x.data) :
    WpMakes (acceptAutosuggestion E) s s.noEol x.data [] := by
  unfold WpMakes acceptAutosuggestion
  rw [wp_bind, wp_get]
  dsimp only
  rw [hw, if_pos rfl, wp_bind]
  refine wp_edit ht (fun b a b' hb hf => ?_)
  have hd : b'.data = x.data := by
    simp only [noRes, hx, Option.map_eq_some_iff] at hf
    obtain ⟨w, hf, he⟩ := hf
    cases he
    split at hf
    · obtain ⟨b1, h1, h2⟩ := Props.C01_copy_buffer b x
      rw [hf] at h1; cases h1; exact h2
    · rename_i hns
      obtain ⟨u, hu⟩ := hp (by simpa using hns)
      unfold Buffer.insertFromBuffer at hf
      dsimp only at hf
      split at hf
      · have := insert_data (l := b.data) (r := []) (by simp) hf
        rw [this, hb, ← hu]; simp
      · cases hf
  exact clearSearch_end E (by rw [setCur_text, hd]) (setCur_noEol _ _)

theorem accept_none {t : Text} (hx : s.autosuggestion = none) (ht : text? s = some t) :
    WpMakes (acceptAutosuggestion E) s s.noEol t [] := by
  unfold WpMakes acceptAutosuggestion
  rw [wp_bind, wp_get]
  dsimp only
  split
  · rw [wp_bind]
    refine wp_edit ht (fun b a b' hb hf => ?_)
    have hd : b'.data = t := by
      simp only [noRes, hx, Option.map_eq_some_iff] at hf
      obtain ⟨w, hf, he⟩ := hf
      cases he; cases hf; exact hb
    exact clearSearch_end E (by rw [setCur_text, hd]) (setCur_noEol _ _)
  · exact clearSearch_end E ht rfl

theorem newestMatch_getElem (h : History) (b : Buffer) {i : Nat}
    (hi : h.getNewestMatch (some h.buffers.length) b = some i) : ∃ x, h.buffers[i]? = some x := by
  have := ((Props.C17_newest_match h _ b i).mp hi).1
  simp only [Option.getD_some] at this
  exact ⟨_, List.getElem?_eq_getElem this⟩

/-- Outside a search a suggestion can be chosen, if the displayed entry is edited or suggestions are
off or the new line is edited. -/
theorem sugOf_some (hs : s.isSearch = false)
    (h : s.histBufValid = true ∨ s.showAutosuggestions = false ∨ s.curHistoryLoc = none) :
    ∃ o, sugOf (pre s) = some o := by
  have hp : pre s = s := by simp [pre, hs]
  rw [hp]
  unfold sugOf
  by_cases hv : s.histBufValid = true
  · exact ⟨none, by rw [if_pos hv]⟩
  · rw [if_neg hv]
    simp only [hs, Bool.false_eq_true, if_false]
    by_cases ha : s.showAutosuggestions = true
    · have hl : s.curHistoryLoc = none := by
        rcases h with h | h | h
        · exact absurd h hv
        · rw [ha] at h; cases h
        · exact h
      simp only [ha, if_true, hl]
      cases hn : s.history.getNewestMatch (some s.history.buffers.length) s.newBuf with
      | none => exact ⟨_, rfl⟩
      | some i =>
        obtain ⟨x, hx⟩ := newestMatch_getElem _ _ hn
        exact ⟨some x, by simp only [hx]⟩
    · exact ⟨none, by simp [ha]⟩

theorem display_no_op (hs : s.isSearch = false)
    (h : s.histBufValid = true ∨ s.showAutosuggestions = false ∨ s.curHistoryLoc = none)
    {b : Buffer} (hb : s.curBuf? = some b) :
    Wp (display E) s (fun _ _ => True) (fun _ _ => True) (· ≠ .op) := by
  refine wp_mono (display_wp E s) (fun _ _ _ => trivial) (fun _ _ _ => trivial) (fun w hw => ?_)
  rintro rfl
  obtain ⟨o, ho⟩ := sugOf_some hs h
  rcases hw with ⟨-, hw⟩ | ⟨o', -, hw⟩
  · rw [ho] at hw; cases hw
  · have hp : pre s = s := by simp [pre, hs]
    rw [hp] at hw
    have : s.curBuf? = none := hw
    rw [hb] at this; cases this

/-- Accepting does not panic, except possibly in the redraw. -/
theorem accept_no_op {t : Text} (ht : text? s = some t)
    (hp : s.isSearch = false → ∀ x, s.autosuggestion = some x → t <+: x.data) :
    Wp (acceptAutosuggestion E) s (fun _ _ => True) (fun _ _ => True) (· ≠ .op) := by
  have fin : ∀ s1 b, s1.curBuf? = some b →
      (s1.histBufValid = true ∨ s1.showAutosuggestions = false ∨ s1.curHistoryLoc = none) →
      Wp (do clearSearch; moveCursorToEndOfLine E) s1 (fun _ _ => True) (fun _ _ => True)
        (· ≠ .op) := by
    intro s1 b hb h1
    simp only [wp_bind, clearSearch, wp_modify, moveCursorToEndOfLine, wp_curBuf]
    refine ⟨fun b' _ => ?_, fun hn => ?_⟩
    · exact display_no_op E (s := { s1 with
          reverseSearch := false, forwardSearch := false, historySubsetLoc := none,
          historySubsetIndex := [], cursor := b'.numChars }) rfl h1 hb
    · rw [show s1.curBuf? = none from hn] at hb; cases hb
  obtain ⟨b, hb, hbt⟩ := text?_eq.mp ht
  unfold acceptAutosuggestion
  rw [wp_bind, wp_get]
  dsimp only
  split
  · rw [wp_bind, wp_curBufMut]
    refine ⟨fun b1 a b' _ _ => fin _ _ (setCur_curBuf _ _) ?_, fun hn => ?_⟩
    · unfold setCur; split
      · exact .inl rfl
      · rename_i hl; exact .inr (.inr hl)
    · exfalso
      obtain ⟨w, hw, hwd⟩ := workBuf_of_curBuf hb
      rcases hn with hn | ⟨b1, h1, h2⟩
      · rw [hw] at hn; cases hn
      · rw [hw] at h1; cases h1
        simp only [noRes, Option.map_eq_none_iff] at h2
        split at h2
        · rename_i x hx
          split at h2
          · obtain ⟨_, h3, _⟩ := Props.C01_copy_buffer w x
            rw [h3] at h2; cases h2
          · rename_i hns
            have := hp (by simpa using hns) x hx
            have hle : w.data.length ≤ x.data.length := by
              rw [hwd, hbt]; exact this.length_le
            simp [Buffer.insertFromBuffer, hle, Buffer.insert_eq] at h2
        · cases h2
  · rename_i hns
    exact fin s b hb (.inr (.inl (by simpa using hns)))

end
end Editor
end Liner
