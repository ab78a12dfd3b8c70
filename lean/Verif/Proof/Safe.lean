import Verif.Proof.Steady
import Verif.Proof.Lands
import Verif.Proof.Tidy
import Verif.Proof.Uses
/-
Handling a key keeps the invariants and does not panic outside a redraw: the part common to the key maps, and the
Emacs key map.
-/

namespace Liner
namespace Editor
open Liner.Spec

section
variable {h : Ctx} {E : Env} {s : Ed} [Draws E h]

theorem quiet_safe (hi : I h s) (hq : s.isSearch = false) : Safe h clearSearch s := by
  simp only [Safe, Editor.clearSearch, wp_modify]
  exact ⟨⟨hi.j.clearSearch.good, hi.cur, fun _ x hx => hi.steady.sug hq x hx⟩, hi.hist, fun _ => rfl⟩

theorem writeTerm_safe (hi : I h s) (o : List Tok) : Safe h (writeTerm E o) s := by
  unfold Safe Wp writeTerm
  split
  · rename_i hw
    split at hw
    · cases hw; exact hi.mk_out _ _
    · cases hw
  · rename_i hw
    split at hw
    · cases hw
    · cases hw; exact (hi.mk_out _ s.out).j
  · rename_i hw
    split at hw <;> cases hw

theorem flush_safe (hi : I h s) : Safe h (flush E) s := by
  unfold Safe Wp flush
  split
  · rename_i hw
    split at hw
    · cases hw; exact hi.mk_out _ s.out
    · cases hw
  · rename_i hw
    split at hw
    · cases hw
    · cases hw; exact (hi.mk_out _ s.out).j
  · rename_i hw
    split at hw <;> cases hw

theorem skip_safe (hi : I h s) : Safe h skipCompletionsHint s := by
  simp only [Safe, skipCompletionsHint, wp_modify]
  exact hi.mk_hint (fun _ _ he => by cases he)

theorem finishLine_safe (hi : I h s) : Safe h (finishLine E) s := by
  unfold Safe finishLine
  simp only [wp_bind, wp_get, wp_ite, wp_modify, wp_pure, wp_curBuf]
  refine ⟨fun _ => hi.mk_hint (fun _ _ he => by cases he), fun _ => ⟨fun b hb => ⟨fun _ => ?_, fun _ => ?_⟩, fun hn => ?_⟩⟩
  · exact insertChars_safe hi.j hi.cur _
  · refine wp_mono (displayImpl_safe (s := { s with cursor := b.numChars }) (hi.j.mk_cursor _)
      (fun hs x hx => hi.steady.sug hs x hx)) (fun _ s1 h1 => ?_) (fun _ _ x => x) (fun _ x => x)
    refine wp_mono (writeTerm_safe h1 _) (fun _ s2 h2 => ?_) (fun _ _ x => x) (fun _ x => x)
    exact h2.mk_hint (fun _ _ he => by cases he)
  · obtain ⟨b, hb⟩ := hi.j.good.curBuf
    rw [hb] at hn; cases hn

theorem handleNewline_safe (hi : I h s) : Safe h (handleNewline E) s := by
  unfold Safe handleNewline acceptIfSearch
  simp only [wp_bind, wp_get, wp_modify, wp_ite, wp_pure]
  have hi0 : I h { s with historyFresh := false } :=
    ⟨⟨(hi.j.mk_fresh false).good, hi.cur, hi.steady.sug⟩, hi.hist, hi.strict⟩
  have rest : ∀ s1 : Ed, I h s1 → s1.isSearch = false → Wp Editor.clearSearch s1 (fun _ s' => Wp (finishLine E) s' (fun _ s' => I h s')
      (fun _ s' => J h s') h.May) (fun _ s' => J h s') h.May := fun s1 h1 hq =>
    wp_mono (quiet_safe h1 hq) (fun _ _ h2 => finishLine_safe h2) (fun _ _ x => x) (fun _ x => x)
  refine ⟨fun _ => ?_, fun hq => rest _ hi0 (by simpa using hq)⟩
  exact wp_mono (wp_and (accept_safe (E := E) hi0) (accept_ends E)) (fun _ s1 h1 => rest s1 h1.1 h1.2) (fun _ _ x => x.1) (fun _ x => x.1)

/-- The cursor is after the last character. -/
def AtEnd (s : Ed) : Prop := ∃ b, s.curBuf? = some b ∧ s.cursor = b.numChars

theorem atEnd_safe (hi : I h s) (hne : s.noEol = true → text? s ≠ some []) :
    Wp cursorIsAtEndOfLine s (fun a s' => s' = s ∧ (a = true → s.noEol = false → AtEnd s)) (fun _ _ => False) h.May := by
  unfold cursorIsAtEndOfLine
  simp only [wp_bind, wp_get, wp_ite, wp_pure, wp_curBuf, wp_panic]
  refine ⟨fun b hb => ⟨fun hn => ⟨fun h0 => ?_, fun _ => ⟨trivial, fun _ h => by rw [hn] at h; cases h⟩⟩,
    fun _ => ⟨trivial, fun h _ => ⟨b, hb, of_decide_eq_true h⟩⟩⟩, fun hn => ?_⟩
  · refine (hne hn ?_).elim
    unfold text?
    rw [hb]
    simpa [Buffer.numChars] using h0
  · obtain ⟨b, hb⟩ := hi.j.good.curBuf
    rw [hb] at hn; cases hn

theorem start_safe (hi : I h s) (p : Prompt) (hw : E.ttyWidth ≠ some 0) : Safe h (start E p) s := by
  unfold Safe start
  rw [wp_bind]
  refine wp_mono (writeTerm_safe hi _) (fun _ s1 h1 => ?_) (fun _ _ x => x) (fun _ x => x)
  simp only []
  rw [wp_ite]
  refine ⟨fun h0 => ?_, fun _ => ?_⟩
  · cases ht : E.ttyWidth with
    | none => rw [ht] at h0; cases h0
    | some n => rw [ht] at h0; exact (hw (by rw [ht]; exact congrArg some h0)).elim
  · rw [wp_bind]
    refine wp_mono (wp_repeatN (I := I h) (fun s hs => writeTerm_safe hs _) _ s1 h1) (fun _ s2 h2 => ?_) (fun _ _ x => x) (fun _ x => x)
    rw [wp_bind]
    refine wp_mono (writeTerm_safe h2 _) (fun _ s3 h3 => ?_) (fun _ _ x => x) (fun _ x => x)
    rw [wp_bind]
    refine wp_mono (writeTerm_safe h3 _) (fun _ s4 h4 => ?_) (fun _ _ x => x) (fun _ x => x)
    simp only [wp_bind, wp_get, wp_ite]
    exact ⟨fun _ => display_safe h4.j, fun _ => wp_mono (moveCursorToEndOfLine_safe h4.j)
      (fun _ s5 h5 => display_safe h5.j) (fun _ _ x => x) (fun _ x => x)⟩

theorem initial_safe (p : Prompt) (fs : FS) {b : Buffer} (hb : ∃ d, Buffer.Inv d b) : I h (initial p h.hist fs b) := by
  refine ⟨⟨⟨?_, ?_, ?_, hb, ⟨[], Buffer.Inv.ofText []⟩, ?_, ?_⟩, ⟨b, rfl, Nat.zero_le _⟩, ?_⟩, rfl, fun _ => rfl⟩ <;>
    simp [initial, Ed.isSearch]

/-- A computation of a key map keeps the invariants, `K` among them, and does not panic outside a redraw. -/
def KS {κ α : Type} (h : Ctx) (K : κ → Ed → Prop) (m : KM κ α) (t : κ × Ed) : Prop :=
  Wp m t (fun _ t' => I h t'.2 ∧ K t'.1 t'.2) (fun _ t' => J h t'.2) h.May

theorem kSafe_ed {κ α : Type} {K : κ → Ed → Prop} {m : EdM α} {t : κ × Ed} (hm : Safe h m t.2) (hp : Pres m)
    (hk : ∀ s', I h s' → s'.noEol = t.2.noEol → K t.1 s') : KS h K (KM.ed m) t := by
  unfold KS
  rw [wp_ed]
  exact wp_mono (wp_and hm (hp t.2)) (fun _ s' h' => ⟨h'.1, hk s' h'.1 h'.2.noEol⟩) (fun _ _ h' => h'.1) (fun _ h' => h'.1)

theorem kSafe_bind {κ α β : Type} {K K' : κ → Ed → Prop} {m : KM κ α} {f : α → KM κ β} {t : κ × Ed} (h1 : KS h K m t)
    (h2 : ∀ a t', I h t'.2 → K t'.1 t'.2 → KS h K' (f a) t') : KS h K' (m >>= f) t := by
  unfold KS
  rw [wp_bind]
  exact wp_mono h1 (fun a t' h' => h2 a t' h'.1 h'.2) (fun _ _ x => x) (fun _ x => x)

/-- The keys that `handle_key` itself may handle. -/
def Special (key : Key) : Prop :=
  key = .char '\t' ∨ key = .char '\n' ∨ key = .ctrl 'f' ∨ key = .ctrl 'r' ∨ key = .ctrl 's' ∨ key = .right

theorem dispatch_safe {κ : Type} {K : κ → Ed → Prop} (km : KeyMap κ) (hs : h.hist.share = false) (hw : WordsOk E) {t : κ × Ed} (hi : I h t.2)
    (comp : Text → List Text) (e : Bool) (key : Key) (hq : h.strict = true → key ≠ .ctrl 'r' ∧ key ≠ .ctrl 's')
    (hst : Special key → (key = .right → t.2.autosuggestion.isSome = true ∧ (t.2.noEol = false → AtEnd t.2)) → ∀ s', I h s' → s'.noEol = t.2.noEol → K t.1 s')
    (hr : key = .right → t.2.autosuggestion.isSome → t.2.noEol = true → text? t.2 ≠ some [])
    (hcore : KS h K (km.core E key) t)
    (hskip : ∀ v s, K v s → K v { s with showCompletionsHint := none }) : KS h K (km.dispatch E comp e key) t := by
  have low : ∀ {α : Type} (m : EdM α) (f : α → KM κ Bool), Safe h m t.2 → Pres m → Special key → key ≠ .right →
      (∀ a t', KS h K (f a) t' ↔ I h t'.2 ∧ K t'.1 t'.2) → KS h K (KM.ed m >>= f) t := fun m f h1 h2 h3 h3' h4 =>
    kSafe_bind (kSafe_ed h1 h2 (hst h3 (fun h => absurd h h3'))) (fun a t' h5 h6 => (h4 a t').mpr ⟨h5, h6⟩)
  unfold KeyMap.dispatch
  show Wp _ t _ _ _
  rw [wp_bind, wp_ed, wp_get]
  simp only [wp_ite]
  refine ⟨fun _ => ?_, fun _ => ⟨fun _ => ?_, fun _ => ⟨fun hk => ?_, fun _ => ⟨fun hk => ?_, fun _ => ⟨fun hk => ?_,
    fun _ => ⟨fun hk => ?_, fun _ => ⟨fun hk => ?_, fun _ => ?_⟩⟩⟩⟩⟩⟩⟩
  · rw [wp_bind, wp_ed]
    exact wp_mono (handleNewline_safe hi) (fun _ s' h' => h'.j) (fun _ _ x => x) (fun _ x => x)
  · rw [wp_bind, wp_ed]
    exact wp_mono (handleNewline_safe hi) (fun _ s' h' => h'.j) (fun _ _ x => x) (fun _ x => x)
  · exact low _ _ (complete_safe hw hi comp) (pres_complete E comp) (.inl hk) (by rw [hk]; simp) (fun _ _ => Iff.rfl)
  · exact kSafe_ed (handleNewline_safe hi) (pres_newline E) (hst (.inr (.inl hk)) (fun h => by rw [hk] at h; cases h))
  · exact low _ _ (accept_safe hi) (pres_accept E) (.inr (.inr (.inl hk.1))) (by rw [hk.1]; simp) (fun _ _ => Iff.rfl)
  · exact low _ _ (search_safe hs (Bool.eq_false_iff.mpr fun h => (hq h).1 hk) hi.j false) (pres_search E false) (.inr (.inr (.inr (.inl hk)))) (by rw [hk]; simp) (fun _ _ => Iff.rfl)
  · exact low _ _ (search_safe hs (Bool.eq_false_iff.mpr fun h => (hq h).2 hk) hi.j true) (pres_search E true) (.inr (.inr (.inr (.inr (.inl hk))))) (by rw [hk]; simp) (fun _ _ => Iff.rfl)
  · have yes : key = .right → t.2.autosuggestion.isSome = true → (t.2.noEol = false → AtEnd t.2) → Wp (KM.ed (acceptAutosuggestion E) : KM κ Unit) t (fun _ t' => I h t'.2 ∧ K t'.1 t'.2) (fun _ t' => J h t'.2) h.May :=
      fun hk ha he => kSafe_ed (accept_safe hi) (pres_accept E) (hst (.inr (.inr (.inr (.inr (.inr hk))))) (fun _ => ⟨ha, he⟩))
    have no : Wp (km.core E key) t (fun _ t' => Wp (KM.ed skipCompletionsHint : KM κ Unit) t' (fun _ t' => I h t'.2 ∧ K t'.1 t'.2)
        (fun _ t' => J h t'.2) h.May) (fun _ t' => J h t'.2) h.May := by
      refine wp_mono hcore (fun _ t' h' => ?_) (fun _ _ x => x) (fun _ x => x)
      rw [wp_ed, skipCompletionsHint, wp_modify]
      exact ⟨h'.1.mk_hint (fun _ _ he => by cases he), hskip _ _ h'.2⟩
    refine ⟨fun hk => ?_, fun _ => ?_⟩
    · rw [wp_bind, wp_ed]
      refine wp_mono (atEnd_safe hi (hr hk.1 hk.2)) (fun a s' h' => ?_) (fun _ _ x => x.elim) (fun _ x => x)
      obtain ⟨rfl, he⟩ := h'
      simp only [wp_ite, wp_bind, wp_pure]
      exact ⟨fun ha => yes hk.1 hk.2 (he ha), fun _ => no⟩
    · simp only [wp_ite, wp_bind, wp_pure]
      refine ⟨fun hf => ?_, fun _ => no⟩
      cases hf

theorem translate_ne {key : Key} (h : key ≠ .ctrl 'r' ∧ key ≠ .ctrl 's') :
    KeyMap.translate key ≠ .ctrl 'r' ∧ KeyMap.translate key ≠ .ctrl 's' := by
  unfold KeyMap.translate
  split
  · exact ⟨by simp, by simp⟩
  · exact h

theorem handleKey_safe {κ : Type} {K : κ → Ed → Prop} (km : KeyMap κ) (hs : h.hist.share = false) (hw : WordsOk E) {t : κ × Ed} (hi : I h t.2)
    (comp : Text → List Text) (key : Key) (hq : h.strict = true → key ≠ .ctrl 'r' ∧ key ≠ .ctrl 's')
    (hst : Special (KeyMap.translate key) → (KeyMap.translate key = .right → t.2.autosuggestion.isSome = true ∧ (t.2.noEol = false → AtEnd t.2)) → ∀ s', I h s' → s'.noEol = t.2.noEol → K t.1 s')
    (hr : KeyMap.translate key = .right → t.2.autosuggestion.isSome → t.2.noEol = true → text? t.2 ≠ some [])
    (hcore : KS h K (km.core E (KeyMap.translate key)) t)
    (hskip : ∀ v s, K v s → K v { s with showCompletionsHint := none })
    (hflush : ∀ v s, K v s → K v { s with tick := s.tick + 1 }) : KS h K (km.handleKey E comp key) t := by
  unfold KeyMap.handleKey KS
  rw [wp_bind, wp_ed, wp_curBuf]
  refine ⟨fun b _ => ?_, fun hn => ?_⟩
  · rw [wp_bind]
    refine wp_mono (dispatch_safe km hs hw hi comp _ _ (fun h => translate_ne (hq h)) hst hr hcore hskip) (fun _ t' h' => ?_) (fun _ _ x => x) (fun _ x => x)
    rw [wp_bind, wp_ed]
    refine wp_mono (wp_and (flush_safe (E := E) h'.1) (Q' := fun _ s' => s' = { t'.2 with tick := t'.2.tick + 1 }) (R' := fun _ _ => True)
      (P' := fun _ => True) ?_) (fun _ s' h2 => ?_) (fun _ _ x => x.1) (fun _ x => x.1)
    · unfold Wp flush
      split <;> rename_i hf <;> split at hf <;> cases hf <;> trivial
    · exact ⟨h2.1, by rw [h2.2]; exact hflush _ _ h'.2⟩
  · obtain ⟨b, hb⟩ := hi.j.good.curBuf
    rw [hb] at hn; cases hn

/-- Reading a line. -/
theorem loop_safe {κ : Type} {K : κ → Ed → Prop} (km : KeyMap κ) (A : Key → Prop)
    (step : ∀ t key comp, A key → I h t.2 → K t.1 t.2 → KS h K (km.handleKey E comp key) t) : ∀ (input : List KeyMap.Input) (t : κ × Ed),
    (∀ k c, KeyMap.Input.key k c ∈ input → A k) → I h t.2 → K t.1 t.2 →
    Wp (km.loop E input) t (fun _ _ => True) (fun _ _ => True) h.May
  | [], t, _, hi, hk => by
    unfold KeyMap.loop
    simp only [wp_bind, wp_ed, wp_get, wp_ofOption, intoText]
    obtain ⟨b, hb⟩ := hi.j.good.curBuf
    exact ⟨fun _ _ => trivial, fun hn => by rw [hb] at hn; cases hn⟩
  | .ioErr :: _, t, _, _, _ => trivial
  | .key k c :: rest, t, hq, hi, hk => by
    unfold KeyMap.loop
    rw [wp_bind]
    refine wp_mono (step t k c (hq k c List.mem_cons_self) hi hk) (fun done t' h' => ?_) (fun _ _ _ => trivial) (fun _ x => x)
    simp only [wp_bind, wp_ed, wp_get, wp_ofOption, intoText, wp_ite]
    obtain ⟨b, hb⟩ := h'.1.j.good.curBuf
    exact ⟨fun _ => ⟨fun _ _ => trivial, fun hn => by rw [hb] at hn; cases hn⟩,
      fun _ => loop_safe km A step rest t' (fun k c hk => hq k c (List.mem_cons_of_mem _ hk)) h'.1 h'.2⟩

end
end Editor

namespace Emacs
open Liner.Spec Liner.Editor M KM

section
variable {h : Ctx} {E : Env} [Draws E h]

/-- The index kept for Alt-. is one of the history, and `no_eol` is never set. -/
def Kept (h : Ctx) (k : Emacs) (s : Ed) : Prop :=
  (∀ x, k.lastArgFetchIndex = some x → x < h.hist.buffers.length) ∧ s.noEol = false

theorem moveWord_safe (hw : WordsOk E) {s : Ed} (hi : I h s) (right : Bool) : Safe h (moveWord E right) s := by
  unfold Safe moveWord wordsAndPos
  simp only [wp_bind, wp_curBuf, wp_get, wp_pure]
  refine ⟨fun b hb => ?_, fun hn => ?_⟩
  · have hc := Props.C12_classifies s.cursor (E.words b) (hw b).1
    split
    · exact hi
    · rename_i i hwi
      simp only [wp_bind, wp_ofOption]
      refine ⟨fun _ _ => moveCursorTo_safe hi.j _, fun hn => ?_⟩
      have hlt : i < (E.words b).length := by
        generalize CursorPosition.get s.cursor (E.words b) = pos at hc hwi
        cases pos with
        | inWord j =>
          obtain ⟨_, _, h1, _⟩ := hc
          cases hwi
          exact (List.getElem?_eq_some_iff.mp h1).1
        | onWordLeftEdge j =>
          obtain ⟨_, h1⟩ := hc
          have := (List.getElem?_eq_some_iff.mp h1).1
          simp only [wordIndex, Option.some.injEq] at hwi
          split at hwi <;> omega
        | onWordRightEdge j =>
          obtain ⟨_, h1⟩ := hc
          have := (List.getElem?_eq_some_iff.mp h1).1
          simp only [wordIndex, Option.some.injEq] at hwi
          split at hwi <;> omega
        | inSpace l r =>
          obtain ⟨_, h1, h2⟩ := hc
          simp only [wordIndex] at hwi
          split at hwi
          · subst hwi
            obtain ⟨_, _, h3, _⟩ := h2
            exact (List.getElem?_eq_some_iff.mp h3).1
          · subst hwi
            obtain ⟨_, _, h3, _⟩ := h1
            exact (List.getElem?_eq_some_iff.mp h3).1
      rw [List.getElem?_eq_getElem hlt] at hn; cases hn
  · obtain ⟨b, hb⟩ := hi.j.good.curBuf
    rw [hb] at hn; cases hn

theorem deleteLastArg_safe {s : Ed} (hi : I h s) : Safe h (deleteLastArg E) s := by
  unfold Safe deleteLastArg
  simp only [wp_bind, wp_curBuf]
  refine ⟨fun b hb => ?_, fun hn => ?_⟩
  · split
    · obtain ⟨b', hb', hc⟩ := hi.cur
      refine deleteUntil_safe hi.j ⟨b', hb', hc, ?_⟩
      obtain rfl := Option.some.inj (hb.symm.trans hb')
      simp only [Buffer.numChars]
      omega
    · exact hi
  · obtain ⟨b, hb⟩ := hi.j.good.curBuf
    rw [hb] at hn; cases hn

theorem ctrl_safe (hs : h.hist.share = false) (hw : WordsOk E) {s : Ed} (hi : I h s) (c : Char) : Safe h (handleCtrlKey E c) s := by
  unfold Safe handleCtrlKey
  simp only [wp_ite, wp_bind, wp_pure]
  exact ⟨fun _ => clear_safe hi.j, fun _ => ⟨fun _ => moveCursorToStartOfLine_safe hi.j, fun _ => ⟨fun _ => moveCursorToEndOfLine_safe hi.j,
    fun _ => ⟨fun _ => moveCursorLeft_safe hi.j _, fun _ => ⟨fun _ => moveCursorRight_safe hi.j hi.cur _, fun _ => ⟨fun _ => deleteAfter_safe hi.j,
    fun _ => ⟨fun _ => moveUp_safe hs hi.j, fun _ => ⟨fun _ => moveDown_safe hs hi.j, fun _ => ⟨fun _ => deleteAllBefore_safe hi.j hi.cur,
    fun _ => ⟨fun _ => deleteAllAfter_safe hi.j hi.cur, fun _ => ⟨fun _ => deleteWord_safe hw hi.j hi.cur _, fun _ => ⟨fun _ => undo_safe hi.j,
    fun _ => hi⟩⟩⟩⟩⟩⟩⟩⟩⟩⟩⟩⟩

/-- Without the condition on `no_eol`. -/
def Idx (h : Ctx) (k : Emacs) (_ : Ed) : Prop := ∀ x, k.lastArgFetchIndex = some x → x < h.hist.buffers.length

theorem lastArg_safe {t : Emacs × Ed} (hi : I h t.2) (hk : Idx h t.1 t.2) : KS h (Idx h) (handleLastArgFetch E) t := by
  unfold KS handleLastArgFetch
  simp only [wp_bind, wp_ed, wp_get, wp_getK, wp_ite, wp_pure, wp_modK, wp_ofOption]
  refine ⟨fun _ => ⟨hi, hk⟩, fun hne => ⟨fun _ => ⟨hi, hk⟩, fun h0 => ?_⟩⟩
  have hlen : 0 < h.hist.buffers.length := by
    rw [hi.hist] at hne
    exact List.length_pos_iff.mpr (by simpa using hne)
  have hidx : (match t.1.lastArgFetchIndex with
      | some x => x - 1
      | none => t.2.curHistoryLoc.getD (t.2.history.buffers.length - 1)) < h.hist.buffers.length := by
    cases hl : t.1.lastArgFetchIndex with
    | some x =>
      have := hk x hl
      exact Nat.lt_of_le_of_lt (Nat.sub_le _ _) this
    | none =>
      dsimp only
      cases hc : t.2.curHistoryLoc with
      | none => simp only [Option.getD_none]; rw [hi.hist]; exact Nat.sub_lt hlen Nat.one_pos
      | some i => have := hi.j.good.loc i hc; rw [hi.hist] at this; exact this
  have hix : ∀ (k : Emacs) (s : Ed), Idx h { k with lastArgFetchIndex := some (match t.1.lastArgFetchIndex with
      | some x => x - 1
      | none => t.2.curHistoryLoc.getD (t.2.history.buffers.length - 1)) } s := fun _ _ x hx => by cases hx; exact hidx
  have rest : ∀ s, I h s → (∀ a, s.history.buffers[match t.1.lastArgFetchIndex with
            | some x => x - 1
            | none => t.2.curHistoryLoc.getD (t.2.history.buffers.length - 1)]? = some a →
      Wp (match a.lastArg with
        | some arg => do
          ed (Editor.insertCharsAfterCursor E arg)
          modK fun k => { k with lastArgFetchIndex := some (match t.1.lastArgFetchIndex with
            | some x => x - 1
            | none => t.2.curHistoryLoc.getD (t.2.history.buffers.length - 1)) }
        | none => modK fun k => { k with lastArgFetchIndex := some (match t.1.lastArgFetchIndex with
            | some x => x - 1
            | none => t.2.curHistoryLoc.getD (t.2.history.buffers.length - 1)) } : KM Emacs Unit)
        (t.1, s) (fun _ s' => I h s'.2 ∧ Idx h s'.1 s'.2) (fun _ t' => J h t'.2) h.May) ∧
      (s.history.buffers[match t.1.lastArgFetchIndex with
            | some x => x - 1
            | none => t.2.curHistoryLoc.getD (t.2.history.buffers.length - 1)]? = none → h.May .op) := by
    intro s hs
    refine ⟨fun a _ => ?_, fun hn => ?_⟩
    · split
      · simp only [wp_bind, wp_ed, wp_modK]
        exact wp_mono (insertChars_safe hs.j hs.cur _) (fun _ s' h' => ⟨h', hix t.1 _⟩) (fun _ _ x => x) (fun _ x => x)
      · rw [wp_modK]
        exact ⟨hs, hix t.1 _⟩
    · rw [hs.hist, List.getElem?_eq_getElem hidx] at hn; cases hn
  refine ⟨fun _ => ?_, fun _ => rest _ hi⟩
  exact wp_mono (deleteLastArg_safe hi) (fun _ s' h' => rest s' h') (fun _ _ x => x) (fun _ x => x)

theorem edIdx {t : Emacs × Ed} {α : Type} {m : EdM α} (hm : Safe h m t.2) (hk : Idx h t.1 t.2) :
    Wp (ed m) t (fun _ t' => I h t'.2 ∧ Idx h t'.1 t'.2) (fun _ t' => J h t'.2) h.May := by
  rw [wp_ed]
  exact wp_mono hm (fun _ s' h' => ⟨h', hk⟩) (fun _ _ x => x) (fun _ x => x)

theorem body_safe (hs : h.hist.share = false) (hw : WordsOk E) {t : Emacs × Ed} (hi : I h t.2) (hk : Idx h t.1 t.2) (key : Key) :
    KS h (Idx h) (handleKeyBody E key) t := by
  unfold KS handleKeyBody
  split
  · exact edIdx (insertChars_safe hi.j hi.cur _) hk
  · unfold handleAltKey
    simp only [wp_ite, wp_bind, wp_pure]
    exact ⟨fun _ => edIdx (moveToStartOfHistory_safe hi.j) hk, fun _ => ⟨fun _ => edIdx (moveToEndOfHistory_safe hi.j) hk,
      fun _ => ⟨fun _ => edIdx (deleteWord_safe hw hi.j hi.cur _) hk, fun _ => ⟨fun _ => edIdx (moveWord_safe hw hi _) hk,
      fun _ => ⟨fun _ => edIdx (moveWord_safe hw hi _) hk, fun _ => ⟨fun _ => edIdx (revert_safe hi.j) hk,
      fun _ => ⟨fun _ => lastArg_safe hi hk, fun _ => ⟨hi, hk⟩⟩⟩⟩⟩⟩⟩⟩
  · exact edIdx (ctrl_safe hs hw hi _) hk
  · exact edIdx (moveCursorLeft_safe hi.j _) hk
  · exact edIdx (moveCursorRight_safe hi.j hi.cur _) hk
  · exact edIdx (moveUp_safe hs hi.j) hk
  · exact edIdx (moveDown_safe hs hi.j) hk
  · exact edIdx (moveCursorToStartOfLine_safe hi.j) hk
  · exact edIdx (moveCursorToEndOfLine_safe hi.j) hk
  · exact edIdx (deleteBefore_safe hi.j hi.cur) hk
  · exact edIdx (deleteAfter_safe hi.j) hk
  · exact ⟨hi, hk⟩

theorem core_safe (hs : h.hist.share = false) (hw : WordsOk E) {t : Emacs × Ed} (hi : I h t.2) (hk : Kept h t.1 t.2) (key : Key) :
    KS h (Kept h) (keyMap.core E key) t := by
  have h1 : KS h (Idx h) (keyMap.core E key) t := by
    show Wp (handleKeyCore E key) t _ _ _
    unfold handleKeyCore
    simp only [wp_bind, wp_ite, wp_modK]
    exact ⟨fun _ => body_safe hs hw hi hk.1 key, fun _ => body_safe (t := ({}, t.2)) hs hw hi (fun x (hx : (none : Option Nat) = some x) => by cases hx) key⟩
  refine wp_mono (wp_and h1 ((sets_kept E .emacs).usesK (uses_core (T := Any) E key) t trivial))
    (fun _ t' h' => ⟨h'.1.1, h'.1.2, (h'.2.2.noEol rfl).trans hk.2⟩) (fun _ _ h' => h'.1) (fun _ h' => h'.1)

theorem press_safe (hs : h.hist.share = false) (hw : WordsOk E) : ∀ (keys : List (Key × (Text → List Text))) (t : Emacs × Ed),
    (h.strict = true → ∀ k ∈ keys, k.1 ≠ .ctrl 'r' ∧ k.1 ≠ .ctrl 's') → I h t.2 → Kept h t.1 t.2 → KS h (Kept h) (press keyMap E keys) t
  | [], _, _, hi, hk => ⟨hi, hk⟩
  | k :: ks, t, hq, hi, hk => by
    show Wp _ t _ _ _
    unfold press
    rw [wp_bind]
    exact wp_mono (handleKey_safe keyMap hs hw hi k.2 k.1 (fun h => hq h k List.mem_cons_self) (fun _ _ s' _ he => ⟨hk.1, he.trans hk.2⟩)
        (fun _ _ hn => by rw [hk.2] at hn; cases hn) (core_safe hs hw hi hk _) (fun _ _ h => h) (fun _ _ h => h))
      (fun _ t' h' => press_safe hs hw ks t' (fun h k hk => hq h k (List.mem_cons_of_mem _ hk)) h'.1 h'.2) (fun _ _ x => x) (fun _ x => x)

theorem session_safe (hs : h.hist.share = false) (hw : WordsOk E) (ht : E.ttyWidth ≠ some 0) (p p' : Prompt) (fs : FS) {b : Buffer}
    (hb : ∃ d, Buffer.Inv d b) (keys : List (Key × (Text → List Text)))
    (hq : h.strict = true → ∀ k ∈ keys, k.1 ≠ .ctrl 'r' ∧ k.1 ≠ .ctrl 's') :
    KS h (Kept h) (session keyMap E p keys) ({}, initial p' h.hist fs b) := by
  have hi := initial_safe (h := h) p' fs hb
  show Wp _ _ _ _ _
  unfold session
  rw [wp_bind, wp_ed]
  refine wp_mono (wp_and (start_safe hi p ht) (pres_start E p _)) (fun _ s' h' => ?_) (fun _ _ x => x.1) (fun _ x => x.1)
  exact press_safe hs hw keys _ hq h'.1 ⟨(fun x (hx : (none : Option Nat) = some x) => by cases hx), h'.2.noEol⟩

theorem readLine_safe (hs : h.hist.share = false) (hw : WordsOk E) (ht : E.ttyWidth ≠ some 0) (p p' : Prompt) (fs : FS) {b : Buffer}
    (hb : ∃ d, Buffer.Inv d b) (input : List KeyMap.Input)
    (hq : h.strict = true → ∀ k c, KeyMap.Input.key k c ∈ input → k ≠ .ctrl 'r' ∧ k ≠ .ctrl 's') :
    Wp (keyMap.readLine E p input) ({}, initial p' h.hist fs b) (fun _ _ => True) (fun _ _ => True) h.May := by
  have hi := initial_safe (h := h) p' fs hb
  unfold KeyMap.readLine KeyMap.handleKeys
  rw [wp_bind, wp_ed]
  refine wp_mono (wp_and (start_safe hi p ht) (pres_start E p _)) (fun _ s' h' => ?_) (fun _ _ _ => trivial) (fun _ x => x.1)
  rw [wp_bind]
  refine loop_safe (K := Kept h) keyMap (fun k => h.strict = true → k ≠ .ctrl 'r' ∧ k ≠ .ctrl 's')
    (fun t k c hq hi hk => ?_) input _ (fun k c hk hs => hq hs k c hk) h'.1 ⟨(fun x (hx : (none : Option Nat) = some x) => by cases hx), h'.2.noEol⟩
  exact handleKey_safe keyMap hs hw hi c k hq (fun _ _ s' _ he => ⟨hk.1, he.trans hk.2⟩)
        (fun _ _ hn => by rw [hk.2] at hn; cases hn) (core_safe hs hw hi hk _) (fun _ _ h => h) (fun _ _ h => h)

end
end Emacs
end Liner
