import Verif.Proof.Safe
import Verif.Proof.Sug
import Verif.Proof.ViFuel
/-
The vi key map keeps the invariants and does not panic outside a redraw, under conditions on the keys typed while an
operator waits for its movement and on what `.` repeats.
-/

namespace Liner
namespace Vi
open Liner.Spec Liner.Editor M KM

/-- The invariants of the editor while vi keys are handled. -/
structure Ok (h : Ctx) (s : Ed) : Prop where
  i : I h s
  td : Td true s

theorem Ok.son {h : Ctx} {s : Ed} (ho : Ok h s) : SearchOnNewLine s := searchOnNew_iff.mpr (ho.td.son rfl)
theorem Ok.j {h : Ctx} {s : Ed} (ho : Ok h s) : J h s := ho.i.j

/-- `m` keeps them, does not panic outside a redraw, and afterwards `Q` holds. -/
def VS {α : Type} (h : Ctx) (m : ViM α) (t : Vi × Ed) (Q : α → Vi × Ed → Prop) : Prop :=
  Wp m t (fun a t' => Ok h t'.2 ∧ Q a t') (fun _ t' => J h t'.2) h.May

section
variable {h : Ctx} {α β : Type} {t : Vi × Ed}

theorem vs_bind {m : ViM α} {f : α → ViM β} {Q : β → Vi × Ed → Prop}
    (h1 : VS h m t (fun a t' => VS h (f a) t' Q)) : VS h (m >>= f) t Q := by
  unfold VS
  rw [wp_bind]
  exact wp_mono h1 (fun _ _ h => h.2) (fun _ _ x => x) (fun _ x => x)

theorem vs_mono {m : ViM α} {Q Q' : α → Vi × Ed → Prop} (h1 : VS h m t Q)
    (hq : ∀ a t', Ok h t'.2 → Q a t' → Q' a t') : VS h m t Q' :=
  wp_mono h1 (fun a t' x => ⟨x.1, hq a t' x.1 x.2⟩) (fun _ _ x => x) (fun _ x => x)

theorem vs_and {m : ViM α} {Q Q' : α → Vi × Ed → Prop} (h1 : VS h m t Q) (h2 : Wp m t Q' T2 T1) :
    VS h m t (fun a t' => Q a t' ∧ Q' a t') :=
  wp_mono (wp_and h1 h2) (fun _ _ x => ⟨x.1.1, x.1.2, x.2⟩) (fun _ _ x => x.1) (fun _ x => x.1)

theorem vs_pure {a : α} {Q : α → Vi × Ed → Prop} (ho : Ok h t.2) (hq : Q a t) : VS h (pure a : ViM α) t Q :=
  ⟨ho, hq⟩

theorem vs_getK {Q : Vi → Vi × Ed → Prop} (ho : Ok h t.2) (hq : Q t.1 t) : VS h getK t Q := ⟨ho, hq⟩

theorem vs_get {Q : Ed → Vi × Ed → Prop} (ho : Ok h t.2) (hq : Q t.2 t) : VS h (ed get) t Q := ⟨ho, hq⟩

theorem vs_modK {f : Vi → Vi} {Q : Unit → Vi × Ed → Prop} (ho : Ok h t.2) (hq : Q () (f t.1, t.2)) :
    VS h (modK f) t Q := ⟨ho, hq⟩

theorem vs_popStack {Q : Mode → Vi × Ed → Prop} (ho : Ok h t.2)
    (hq : Q (t.1.modeStack.headD .normal) ({ t.1 with modeStack := t.1.modeStack.tail }, t.2)) : VS h popStack t Q :=
  ⟨ho, hq⟩

theorem vs_ite {c : Prop} [Decidable c] {m n : ViM α} {Q : α → Vi × Ed → Prop} (h1 : c → VS h m t Q)
    (h2 : ¬ c → VS h n t Q) : VS h (if c then m else n) t Q := by
  split
  · exact h1 ‹_›
  · exact h2 ‹_›

/-- Operations of the editor, with a fact about what they do. -/
theorem vs_ed' {E : Env} {m : EdM α} {Q : α → Vi × Ed → Prop} {Q' : α → Ed → Prop} (ho : Ok h t.2) (hm : Safe h m t.2)
    (hu : Uses E .vi m) (hq' : Wp m t.2 Q' (fun _ _ => True) (fun _ => True))
    (hq : ∀ a s', Ok h s' → Q' a s' → Q a (t.1, s')) : VS h (ed m) t Q := by
  unfold VS
  rw [wp_ed]
  exact wp_mono (wp_and (wp_and hm hq') ((td_kept E .vi true (fun _ => rfl)).uses hu t.2 ho.td))
    (fun a s' x => ⟨⟨x.1.1, x.2.1⟩, hq a s' ⟨x.1.1, x.2.1⟩ x.1.2⟩) (fun _ _ x => x.1.1) (fun _ x => x.1.1)

theorem vs_ed {E : Env} {m : EdM α} {Q : α → Vi × Ed → Prop} (ho : Ok h t.2) (hm : Safe h m t.2)
    (hu : Uses E .vi m) (hq : ∀ a s', Ok h s' → Q a (t.1, s')) : VS h (ed m) t Q :=
  vs_ed' ho hm hu wp_trivial (fun a s' h1 _ => hq a s' h1)

theorem vs_curBuf {Q : Buffer → Vi × Ed → Prop} (ho : Ok h t.2)
    (hq : ∀ b, t.2.curBuf? = some b → Q b t) : VS h (ed curBuf) t Q := by
  unfold VS
  rw [wp_ed, wp_curBuf]
  refine ⟨fun b hb => ⟨ho, hq b hb⟩, fun hn => ?_⟩
  obtain ⟨b, hb⟩ := ho.i.j.good.curBuf
  rw [hb] at hn; cases hn

end

/-! ### The text -/

/-- Keeps the text. -/
def Txt {α : Type} (m : EdM α) : Prop :=
  ∀ s, SearchOnNewLine s → Wp m s (fun _ s' => text? s' = text? s) (fun _ _ => True) (fun _ => True)

section
variable (E : Env)

/-- What a redraw keeps. -/
theorem display_same {s : Ed} (hs : SearchOnNewLine s) :
    Wp (display E) s (fun _ s' => s'.curBuf? = s.curBuf? ∧ (∀ b, s.curBuf? = some b →
      s'.cursor = clampCursor s.noEol b.numChars s.cursor)) (fun _ _ => True) (fun _ => True) := by
  refine wp_mono (display_wp E s) (fun _ s' h => ?_) (fun _ _ _ => trivial) (fun _ _ => trivial)
  obtain ⟨b, sug, hb, _, h⟩ := h.ex
  have hcb := drawn_curBuf h
  rw [pre_curBuf hs] at hb hcb
  refine ⟨hcb, fun b' hb' => ?_⟩
  rw [hb] at hb'; cases hb'
  obtain ⟨l, cb, ou, tk, rfl⟩ := h
  rfl

theorem text_of {s s' : Ed} (h : s'.curBuf? = s.curBuf?) : text? s' = text? s := by unfold text?; rw [h]

theorem txt_display : Txt (display E) := fun _ hs =>
  wp_mono (display_same E hs) (fun _ _ h => text_of h.1) (fun _ _ _ => trivial) (fun _ _ => trivial)

theorem txt_left (n : Nat) : Txt (moveCursorLeft E n) := by
  intro s hs
  unfold moveCursorLeft
  rw [wp_bind, wp_modify]
  exact txt_display E _ (SearchOnNewLine.mk_cursor hs _)

theorem txt_right (n : Nat) : Txt (moveCursorRight E n) := by
  intro s hs
  simp only [moveCursorRight, wp_bind, wp_curBuf, wp_get, wp_ite, wp_panic, wp_modify]
  exact ⟨fun b _ => ⟨fun _ => trivial, fun _ => txt_display E _ (SearchOnNewLine.mk_cursor hs _)⟩, fun _ => trivial⟩

theorem txt_to (n : Nat) : Txt (moveCursorTo E n) := by
  intro s hs
  simp only [moveCursorTo, wp_bind, wp_curBuf, wp_modify]
  exact ⟨fun b _ => txt_display E _ (SearchOnNewLine.mk_cursor (SearchOnNewLine.mk_cursor hs _) _), fun _ => trivial⟩

theorem txt_home : Txt (moveCursorToStartOfLine E) := by
  intro s hs
  simp only [moveCursorToStartOfLine, wp_bind, wp_modify]
  exact txt_display E _ (SearchOnNewLine.mk_cursor hs _)

theorem txt_end : Txt (moveCursorToEndOfLine E) := by
  intro s hs
  simp only [moveCursorToEndOfLine, wp_bind, wp_curBuf, wp_modify]
  exact ⟨fun b _ => txt_display E _ (SearchOnNewLine.mk_cursor hs _), fun _ => trivial⟩

theorem txt_word (kw r : Bool) (n : Nat) : Txt (moveWord E kw r n) := by
  intro s hs
  simp only [moveWord, wp_bind, wp_get, wp_ite, wp_pure, wp_curBuf]
  exact ⟨fun _ => txt_to E _ s hs, fun _ => ⟨fun _ _ => txt_to E _ s hs, fun _ => trivial⟩⟩

theorem txt_wordEnd (kw r : Bool) (n : Nat) : Txt (moveWordEnd E kw r n) := by
  intro s hs
  simp only [moveWordEnd, wp_bind, wp_get, wp_ite, wp_pure, wp_curBuf]
  exact ⟨fun _ => txt_to E _ s hs, fun _ => ⟨fun _ _ => txt_to E _ s hs, fun _ => trivial⟩⟩

theorem txt_onBuf {f : Buffer → Buffer} (hf : ∀ b, (f b).data = b.data) : Txt (onBuf f) := by
  intro s _
  unfold onBuf
  rw [wp_curBufMut]
  refine ⟨fun b a b' hb hf' => ?_, fun _ => trivial⟩
  cases hf'
  rw [setCur_text]
  obtain ⟨b0, h0, h1⟩ := curBuf_of_workBuf hb
  rw [hf, h1]
  exact (text?_eq.mpr ⟨b0, h0, rfl⟩).symm

end

/-! ### Safety of the operations vi adds -/

section
variable {h : Ctx} {E : Env} {s : Ed} [Draws E h]

theorem I.setCur_data (hi : I h s) {w w' : Buffer} (hw : workBuf s = some w) (hd : w'.data = w.data)
    (hinv : ∃ d, Buffer.Inv d w') : I h (setCur s w') := by
  have hj := hi.j.setCur hinv
  obtain ⟨b, hb, hd'⟩ := curBuf_of_workBuf hw
  refine ⟨⟨hj.good, ⟨w', setCur_curBuf _ _, ?_⟩, ?_⟩, hj.hist, hj.strict⟩
  · rw [setCur_cursor]
    obtain ⟨b', hb', hc⟩ := hi.cur
    rw [hb] at hb'; cases hb'
    rw [hd, hd']; exact hc
  · intro hs x hx
    rw [setCur_isSearch] at hs
    have hx' : s.autosuggestion = some x := by
      unfold setCur at hx
      split at hx <;> exact hx
    obtain ⟨b', hb', hc⟩ := hi.steady.sug hs x hx'
    rw [hb] at hb'; cases hb'
    exact ⟨w', setCur_curBuf _ _, by rw [hd, hd']; exact hc⟩

theorem onBuf_safe (hi : I h s) {f : Buffer → Buffer} (hf : ∀ b, (f b).data = b.data)
    (hv : ∀ d b, Buffer.Inv d b → Buffer.Inv d (f b)) : Safe h (onBuf f) s := by
  unfold Safe onBuf
  rw [wp_curBufMut]
  refine ⟨fun b a b' hb hf' => ?_, ?_⟩
  · cases hf'
    obtain ⟨d, hd⟩ := hi.j.good.workInv hb
    exact I.setCur_data hi hb (hf b) ⟨d, hv d b hd⟩
  · rintro (hn | ⟨w, _, hn⟩)
    · obtain ⟨w, hw⟩ := workBuf_some hi.j
      rw [hw] at hn; cases hn
    · cases hn

theorem startGroup_safe (hi : I h s) : Safe h (onBuf Buffer.startUndoGroup) s :=
  onBuf_safe hi (fun _ => rfl) (fun _ _ hi => hi.start)
theorem endGroup_safe (hi : I h s) : Safe h (onBuf Buffer.endUndoGroup) s :=
  onBuf_safe hi (fun _ => rfl) (fun _ _ hi => hi.end)

theorem J.mk_noEol (hj : J h s) (e : Bool) : J h { s with noEol := e } :=
  ⟨⟨hj.good.loc, hj.good.sub, hj.good.subLoc, hj.good.newInv, hj.good.histInv,
    hj.good.hint, hj.good.srch⟩, hj.hist, hj.strict⟩
theorem I.mk_noEol (hi : I h s) (e : Bool) : I h { s with noEol := e } :=
  ⟨⟨(J.mk_noEol hi.j e).good, hi.steady.cur, hi.steady.sug⟩, hi.hist, hi.strict⟩
theorem J.mk_prompt (hj : J h s) (p : Prompt) : J h { s with prompt := p } :=
  ⟨⟨hj.good.loc, hj.good.sub, hj.good.subLoc, hj.good.newInv, hj.good.histInv,
    hj.good.hint, hj.good.srch⟩, hj.hist, hj.strict⟩
theorem I.mk_prompt (hi : I h s) (p : Prompt) : I h { s with prompt := p } :=
  ⟨⟨(J.mk_prompt hi.j p).good, hi.steady.cur, hi.steady.sug⟩, hi.hist, hi.strict⟩

theorem noEol_safe (hi : I h s) (e : Bool) : Safe h (M.modify fun s : Ed => { s with noEol := e }) s := by
  unfold Safe; rw [wp_modify]; exact I.mk_noEol hi e

theorem setViMode_safe (hi : I h s) (m : ViPromptMode) : Safe h (setViMode m) s := by
  unfold Safe setViMode; rw [wp_modify]
  split
  · exact I.mk_prompt hi _
  · exact hi

theorem word_safe (hi : I h s) (kw r : Bool) (n : Nat) : Safe h (moveWord E kw r n) s := by
  simp only [Safe, moveWord, wp_bind, wp_get, wp_ite, wp_pure, wp_curBuf]
  refine ⟨fun _ => moveCursorTo_safe hi.j _, fun _ => ⟨fun _ _ => moveCursorTo_safe hi.j _, fun hn => ?_⟩⟩
  obtain ⟨b, hb⟩ := hi.j.good.curBuf
  rw [hb] at hn; cases hn

theorem wordEnd_safe (hi : I h s) (kw r : Bool) (n : Nat) : Safe h (moveWordEnd E kw r n) s := by
  simp only [Safe, moveWordEnd, wp_bind, wp_get, wp_ite, wp_pure, wp_curBuf]
  refine ⟨fun _ => moveCursorTo_safe hi.j _, fun _ => ⟨fun _ _ => moveCursorTo_safe hi.j _, fun hn => ?_⟩⟩
  obtain ⟨b, hb⟩ := hi.j.good.curBuf
  rw [hb] at hn; cases hn

theorem common_safe (hs : h.hist.share = false) (hi : I h s) (key : Key) : Safe h (handleKeyCommon E key) s := by
  unfold handleKeyCommon
  split
  · exact clear_safe hi.j
  · split
    · exact moveCursorLeft_safe hi.j _
    · exact moveCursorRight_safe hi.j hi.cur _
    · exact moveUp_safe hs hi.j
    · exact moveDown_safe hs hi.j
    · exact moveCursorToStartOfLine_safe hi.j
    · exact moveCursorToEndOfLine_safe hi.j
    · exact deleteBefore_safe hi.j hi.cur
    · exact deleteAfter_safe hi.j
    · exact hi

theorem repeatWhile_safe {op : EdM Bool} (hop : ∀ s, I h s → Safe h op s) : ∀ (n : Nat) (s : Ed), I h s →
    Safe h (repeatWhile op n) s
  | 0, _, hi => hi
  | n + 1, s, hi => by
    unfold Safe repeatWhile
    rw [wp_bind]
    refine wp_mono (hop s hi) (fun d s1 h1 => ?_) (fun _ _ x => x) (fun _ x => x)
    split
    · exact repeatWhile_safe hop n s1 h1
    · exact h1

/-! ### Changes of the mode -/

variable {t : Vi × Ed}

theorem vs_noEol {Q : Unit → Vi × Ed → Prop} (ho : Ok h t.2) (e : Bool)
    (hq : Ok h { t.2 with noEol := e } → Q () (t.1, { t.2 with noEol := e })) : VS h (setNoEol e) t Q := by
  have h1 : Ok h { t.2 with noEol := e } := ⟨I.mk_noEol ho.i e, ⟨ho.td.son, ho.td.valid, ho.td.idx⟩⟩
  unfold setNoEol VS
  rw [wp_ed, wp_modify]
  exact ⟨h1, hq h1⟩

/-- The text is the same, and the cursor where it was, if it can be there. -/
structure Still (s s' : Ed) : Prop where
  text : text? s' = text? s
  noEol : s'.noEol = s.noEol
  cursor : s.noEol = false → (∃ b, s.curBuf? = some b ∧ s.cursor ≤ b.data.length) → s'.cursor = s.cursor

theorem vs_setEditorMode (ho : Ok h t.2) :
    VS h (setEditorMode E) t (fun _ t' => t'.1 = t.1 ∧ Still t.2 t'.2) := by
  have go : ∀ m, VS h (do ed (setViMode m); ed (display E) : ViM Unit) t (fun _ t' => t'.1 = t.1 ∧ Still t.2 t'.2) := by
    intro m
    have hstill : ∀ s1 : Ed, s1.curBuf? = t.2.curBuf? → s1.noEol = t.2.noEol → s1.cursor = t.2.cursor → ∀ s', (s'.curBuf? = s1.curBuf? ∧ (∀ b, s1.curBuf? = some b →
        s'.cursor = clampCursor s1.noEol b.numChars s1.cursor)) → s'.noEol = s1.noEol → Still t.2 s' := by
      intro s1 e1 e2 e3 s' hx hne
      refine ⟨text_of (hx.1.trans e1), hne.trans e2, fun hn hc => ?_⟩
      obtain ⟨b, hb, hle⟩ := hc
      have hlt : ¬ b.numChars < t.2.cursor := by simp only [Buffer.numChars]; omega
      rw [hx.2 b (e1.trans hb), e2, e3, hn]
      unfold clampCursor
      simp [hlt]
    refine vs_bind (vs_ed' (E := E) (Q' := fun _ s1 => s1.curBuf? = t.2.curBuf? ∧ s1.noEol = t.2.noEol ∧ s1.cursor = t.2.cursor) ho
      (setViMode_safe ho.i m) (uses_setViMode E m) ?_ fun _ s1 h1 h2 => ?_)
    · unfold setViMode
      rw [wp_modify]
      split <;> exact ⟨rfl, rfl, rfl⟩
    · exact vs_ed' (E := E) h1 (display_safe h1.j) (uses_display E) (wp_mono (wp_and (display_same E h1.son) (pres_display E s1)) (fun _ _ x => x) (fun _ _ _ => trivial) (fun _ _ => trivial)) (fun _ s' _ h3 =>
        ⟨rfl, hstill s1 h2.1 h2.2.1 h2.2.2 s' h3.1 h3.2.noEol⟩)
  unfold setEditorMode
  refine vs_bind (vs_getK ho ?_)
  have hp : VS h (pure () : ViM Unit) t (fun _ t' => t'.1 = t.1 ∧ Still t.2 t'.2) := vs_pure ho ⟨rfl, rfl, rfl, fun _ _ => rfl⟩
  split
  · exact go _
  · exact go _
  · exact hp

/-- Text and cursor are the same. -/
structure Fixed (s s' : Ed) : Prop where
  text : text? s' = text? s
  cursor : s'.cursor = s.cursor

theorem Still.fixed {s s' : Ed} (hs : Still s s') (hn : s.noEol = false) (hi : I h s) : Fixed s s' :=
  ⟨hs.text, hs.cursor hn hi.cur⟩

theorem onBuf_cursor {s : Ed} (f : Buffer → Buffer) :
    Wp (onBuf f) s (fun _ s' => s'.cursor = s.cursor) (fun _ _ => True) (fun _ => True) := by
  unfold onBuf
  rw [wp_curBufMut]
  refine ⟨fun b a b' hb hf' => ?_, fun _ => trivial⟩
  exact setCur_cursor _ _

theorem vs_group {f : Buffer → Buffer} (ho : Ok h t.2) (hu : Uses E .vi (onBuf f)) (hf : ∀ b, (f b).data = b.data)
    (hv : ∀ d b, Buffer.Inv d b → Buffer.Inv d (f b)) :
    VS h (ed (onBuf f)) t (fun _ t' => t'.1 = t.1 ∧ Fixed t.2 t'.2 ∧ t'.2.noEol = t.2.noEol) :=
  vs_ed' ho (onBuf_safe ho.i hf hv) hu (wp_mono (wp_and (wp_and (txt_onBuf hf t.2 ho.son) (onBuf_cursor f)) (pres_onBuf f t.2)) (fun _ _ x => x) (fun _ _ _ => trivial) (fun _ _ => trivial))
    (fun _ _ _ x => ⟨rfl, ⟨x.1.1, x.1.2⟩, x.2.noEol⟩)

theorem vs_startGroup (E : Env) [Draws E h] (ho : Ok h t.2) :
    VS h (ed (onBuf Buffer.startUndoGroup)) t (fun _ t' => t'.1 = t.1 ∧ Fixed t.2 t'.2 ∧ t'.2.noEol = t.2.noEol) :=
  vs_group (E := E) ho (uses_startGroup E) (fun _ => rfl) (fun _ _ hi => hi.start)

theorem vs_endGroup (E : Env) [Draws E h] (ho : Ok h t.2) :
    VS h (ed (onBuf Buffer.endUndoGroup)) t (fun _ t' => t'.1 = t.1 ∧ Fixed t.2 t'.2 ∧ t'.2.noEol = t.2.noEol) :=
  vs_group (E := E) ho (uses_endGroup E) (fun _ => rfl) (fun _ _ hi => hi.end)

theorem Fixed.trans {a b c : Ed} (h1 : Fixed a b) (h2 : Fixed b c) : Fixed a c :=
  ⟨h2.text.trans h1.text, h2.cursor.trans h1.cursor⟩

theorem vs_preserve {m : Mode} (ho : Ok h t.2) (hm : m ≠ .normal) :
    VS h (setModePreserveLast E m) t (fun _ t' =>
      t'.1 = { t.1 with movementReset := m ≠ .insert, modeStack := m :: t.1.modeStack } ∧ Fixed t.2 t'.2 ∧ t'.2.noEol = false) := by
  unfold setModePreserveLast
  refine vs_bind (vs_noEol ho _ fun h1 => vs_bind (vs_modK h1 (vs_bind (vs_mono (vs_setEditorMode (by exact h1)) fun _ t1 o1 h2 => ?_))))
  have h3 : Fixed t.2 t1.2 := by
    have := h2.2.fixed (h := h) (by simp [hm]) h1.i
    exact ⟨this.text, this.cursor⟩
  have hne : t1.2.noEol = false := h2.2.noEol.trans (by simp [hm])
  refine vs_ite (fun _ => vs_mono (vs_startGroup E o1) fun _ t2 _ h4 => ⟨h4.1.trans h2.1, h3.trans h4.2.1, h4.2.2.trans hne⟩)
    (fun _ => vs_pure o1 ⟨h2.1, h3, hne⟩)

theorem vs_setMode {m : Mode} (ho : Ok h t.2) (hm : m ≠ .normal) :
    VS h (setMode E m) t (fun _ t' => t'.1.modeStack = m :: t.1.modeStack ∧ Fixed t.2 t'.2 ∧ t'.2.noEol = false) := by
  unfold setMode
  refine vs_bind (vs_mono (vs_preserve ho hm) fun _ t1 o1 h1 => ?_)
  exact vs_ite (fun _ => vs_modK o1 ⟨by rw [h1.1], h1.2⟩) (fun _ => vs_pure o1 ⟨by rw [h1.1], h1.2⟩)

theorem vs_displayUnwrap (hio : h.io = true ∨ ∀ s e s', display E s ≠ .err e s') (ho : Ok h t.2) :
    VS h (ed (displayUnwrap E)) t (fun _ t' => t'.1 = t.1) := by
  refine vs_ed ho ?_ (uses_displayUnwrap E) (fun _ _ _ => rfl)
  have h1 := display_safe (E := E) ho.j
  unfold Safe Wp displayUnwrap at *
  cases hd : display E t.2 with
  | ok a s' => rw [hd] at h1; exact h1
  | err e s' =>
    rcases hio with hio | hio
    · exact .inr (.inr ⟨rfl, hio⟩)
    · exact absurd hd (hio _ _ _)
  | panic w => rw [hd] at h1; exact h1

theorem vs_popMode (hio : t.1.modeStack.headD .normal = .tilde → h.io = true ∨ ∀ s e s', display E s ≠ .err e s')
    (ho : Ok h t.2) : VS h (popMode E) t (fun _ t' => t'.1 = popped t.1) := by
  unfold popMode
  refine vs_bind (vs_popStack ho (vs_bind (vs_getK ho ?_)))
  refine vs_bind (vs_noEol (by exact ho) _ fun h1 => ?_)
  refine vs_bind (vs_modK (by exact h1) ?_)
  show VS h _ (popped t.1, { t.2 with noEol := decide ((popped t.1).mode = Mode.normal) }) _
  have hlast : ∀ t1 : Vi × Ed, Ok h t1.2 → t1.1 = popped t.1 → VS h (setEditorMode E) t1 (fun _ t' => t'.1 = popped t.1) :=
    fun t1 o1 h2 => vs_mono (vs_setEditorMode o1) fun _ _ _ h3 => h3.1.trans h2
  have second : ∀ t1 : Vi × Ed, Ok h t1.2 → t1.1 = popped t.1 → VS h (do
      if t.1.modeStack.headD .normal = .tilde then ed (displayUnwrap E) else pure ()
      setEditorMode E : ViM Unit) t1 (fun _ t' => t'.1 = popped t.1) := by
    intro t1 o1 h2
    dsimp only
    split
    · rename_i hh
      exact vs_bind (vs_mono (vs_displayUnwrap (hio hh) o1) fun _ t2 o2 h3 => hlast t2 o2 (h3.trans h2))
    · exact hlast t1 o1 h2
  dsimp only
  split
  · exact vs_bind (vs_mono (vs_endGroup E h1) fun _ t2 o2 h3 => second t2 o2 h3.1)
  · exact second _ h1 rfl

theorem vs_abort (ho : Ok h t.2) : VS h (normalModeAbort E) t (fun _ t' => t'.1 = { t.1 with modeStack := [], count := 0 }) := by
  unfold normalModeAbort
  refine vs_bind (vs_modK ho ?_)
  refine vs_bind (vs_noEol (by exact ho) _ fun h1 => ?_)
  refine vs_bind (vs_modK (by exact h1) ?_)
  exact vs_mono (vs_setEditorMode (by exact h1)) fun _ _ _ h2 => h2.1

/-- What a pending operator needs at the end of a movement. -/
def Reach (i : Bool) (s : Ed) (p : Nat) : Prop :=
  ∃ b, s.curBuf? = some b ∧ p ≤ b.data.length ∧ (i = true → s.cursor < b.data.length ∧ p < b.data.length)

theorem vs_after (i : Bool) (ho : Ok h t.2)
    (hr : ∀ p, Mode.delete p ∈ t.1.modeStack → Reach i t.2 p) :
    VS h (popModeAfterMovement E i) t (fun _ _ => True) := by
  -- what follows once the operator is known
  have fin : ∀ (m : Mode) (t1 : Vi × Ed), Ok h t1.2 → VS h (do
      if m = .normal then modK fun v => { v with count := 0 } else pure ()
      setEditorMode E : ViM Unit) t1 (fun _ _ => True) := by
    intro m t1 o1
    dsimp only
    split
    · exact vs_bind (vs_modK o1 (vs_mono (vs_setEditorMode o1) fun _ _ _ _ => trivial))
    · exact vs_mono (vs_setEditorMode o1) fun _ _ _ _ => trivial
  have rest : ∀ (m l : Mode) (v1 : Vi) (s1 : Ed), Ok h s1 → (∀ p, l = .delete p → Reach i s1 p) → VS h (do
      let v ← getK
      setNoEol (v.mode = .normal)
      modK fun v => { v with movementReset := v.mode ≠ .insert }
      match l with
      | .delete startPos =>
        if i then ed (Editor.deleteUntilInclusive E startPos)
        else ed (Editor.deleteUntil E startPos)
        modK fun v => { v with lastCommand := v.currentCommand, currentCommand := v.lastCommand,
                               lastInsert := v.currentInsert, lastCount := v.count,
                               count := 0, secondaryCount := 0 }
      | _ => pure ()
      if m = .normal then modK fun v => { v with count := 0 } else pure ()
      setEditorMode E : ViM Unit) (v1, s1) (fun _ _ => True) := by
    intro m l v1 s1 o1 hl
    refine vs_bind (vs_getK (by exact o1) ?_)
    refine vs_bind (vs_noEol (by exact o1) _ fun h1 => ?_)
    refine vs_bind (vs_modK (by exact h1) ?_)
    cases l with
    | delete p =>
      obtain ⟨b, hb, hp, hi⟩ := hl p rfl
      obtain ⟨b', hb', hc⟩ := o1.i.cur
      obtain rfl : b = b' := Option.some.inj (hb.symm.trans hb')
      dsimp only
      cases i with
      | true => exact vs_bind (vs_ed h1 (deleteUntilInclusive_safe h1.j ⟨b, hb, hi rfl⟩) (uses_deleteUntilInclusive E p)
          fun _ s2 o2 => vs_bind (vs_modK o2 (fin m _ o2)))
      | false => exact vs_bind (vs_ed h1 (deleteUntil_safe h1.j ⟨b, hb, hc, hp⟩) (uses_deleteUntil E p)
          fun _ s2 o2 => vs_bind (vs_modK o2 (fin m _ o2)))
    | insert => exact fin m _ h1
    | normal => exact fin m _ h1
    | replace => exact fin m _ h1
    | moveToChar c => exact fin m _ h1
    | g => exact fin m _ h1
    | tilde => exact fin m _ h1
  unfold popModeAfterMovement
  refine vs_bind (vs_popStack ho (vs_bind (vs_getK ho ?_)))
  have hm : ∀ p, t.1.modeStack.headD .normal = .delete p → Reach i t.2 p := by
    intro p hp
    cases hst : t.1.modeStack with
    | nil => rw [hst] at hp; cases hp
    | cons a l => rw [hst] at hp; exact hr p (by rw [hst, show a = .delete p from hp]; simp)
  cases htl : t.1.modeStack.tail with
  | nil =>
    rw [show ({ t.1 with modeStack := ([] : List Mode) } : Vi).mode = .normal from rfl]
    exact vs_bind (vs_pure (by exact ho) (rest (t.1.modeStack.headD .normal) (t.1.modeStack.headD .normal) _ _ ho hm))
  | cons a l =>
    rw [show ({ t.1 with modeStack := (a :: l : List Mode) } : Vi).mode = a from rfl]
    cases a with
    | delete p =>
      refine vs_bind (vs_popStack (by exact ho) (rest (t.1.modeStack.headD .normal) (.delete p) _ _ ho ?_))
      intro q hq
      refine hr q (List.mem_of_mem_tail ?_)
      rw [htl]
      rw [show q = p from (Mode.delete.inj hq).symm]
      simp
    | _ => exact vs_bind (vs_pure (by exact ho) (rest (t.1.modeStack.headD .normal) (t.1.modeStack.headD .normal) _ _ ho hm))

end
end Vi
end Liner
