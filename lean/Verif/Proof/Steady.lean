import Verif.Proof.Editor
/-
Every operation of the editor keeps the invariants and panics at most in a redraw, as long as
the history is not shared (a shared history can be replaced while it is being displayed).
-/

namespace Liner
namespace Editor
open Liner.Spec

/-- The setting of the invariants: the stored history, whether searches are left out (and with them the panics
while a line is drawn), and whether an I/O error can become a panic. -/
structure Ctx where
  hist : History
  strict : Bool
  io : Bool := false

/-- The panics that are not excluded. -/
def Ctx.May (h : Ctx) (w : Site) : Prop :=
  w = .rows ∨ (w = .redraw ∧ h.strict = false) ∨ (w = .ioUnwrap ∧ h.io = true)

/-- The invariants, with the stored history fixed. -/
structure I (h : Ctx) (s : Ed) : Prop where
  steady : Steady s
  hist : s.history = h.hist
  strict : h.strict = true → s.isSearch = false

/-- The invariants that also hold within operations and after I/O errors. -/
structure J (h : Ctx) (s : Ed) : Prop where
  good : Good s
  hist : s.history = h.hist
  strict : h.strict = true → s.isSearch = false

/-- Lines are drawn without a panic outside a search. -/
class Draws (E : Env) (h : Ctx) : Prop where
  all : h.strict = true → ∀ s, Good s → s.history = h.hist → s.isSearch = false → display E s ≠ .panic .redraw
  last : h.strict = true → ∀ s, Good s → s.isSearch = false →
    (∀ x, s.autosuggestion = some x → ∃ b, s.curBuf? = some b ∧ b.data <+: x.data) → displayImpl E false s ≠ .panic .redraw

instance (E : Env) (h : History) (io : Bool) : Draws E ⟨h, false, io⟩ := ⟨(fun h => by cases h), (fun h => by cases h)⟩

/-- The cursor is inside the current line. -/
def CurOk (s : Ed) : Prop := ∃ b, s.curBuf? = some b ∧ s.cursor ≤ b.data.length

theorem I.j {h : Ctx} {s : Ed} (hi : I h s) : J h s := ⟨hi.steady.toGood, hi.hist, hi.strict⟩
theorem I.cur {h : Ctx} {s : Ed} (hi : I h s) : CurOk s := hi.steady.cur

/-- `m` run from `s` keeps the invariants and does not panic, except possibly in a redraw. -/
abbrev Safe {α : Type} (h : Ctx) (m : EdM α) (s : Ed) : Prop :=
  Wp m s (fun _ s' => I h s') (fun _ s' => J h s') h.May

/-- The words of the line, as the word divider of the context has to give them. -/
def WordsOk (E : Env) : Prop :=
  ∀ b, Separated (E.words b) ∧ ∀ w ∈ E.words b, w.2 ≤ b.data.length

theorem getBufferWords_ok (E : Env) (h : E.words = getBufferWords) : WordsOk E := by
  intro b
  rw [h]
  exact ⟨Props.C12_default_words_separated b, fun w hw => ((Props.C11_words b).words w hw).inside⟩

section
variable {h : Ctx} {E : Env} {s : Ed} [Draws E h]

/-- Changes of fields the invariants do not speak about. -/
theorem J.mk_cursor (hj : J h s) (c : Nat) : J h { s with cursor := c } :=
  ⟨⟨hj.good.loc, hj.good.sub, hj.good.subLoc, hj.good.newInv, hj.good.histInv, hj.good.hint,
    hj.good.srch⟩, hj.hist, hj.strict⟩

theorem J.setCur (hj : J h s) {b : Buffer} (hb : ∃ d, Buffer.Inv d b) : J h (setCur s b) := by
  refine ⟨hj.good.setCur hb, ?_, fun h => ?_⟩
  · rw [← hj.hist]
    unfold Editor.setCur
    split <;> rfl
  · rw [← hj.strict h]
    unfold Editor.setCur
    split <;> rfl

theorem setCur_cursor (s : Ed) (b : Buffer) : (setCur s b).cursor = s.cursor := by
  unfold setCur; split <;> rfl

theorem setCur_isSearch (s : Ed) (b : Buffer) : (setCur s b).isSearch = s.isSearch := by
  unfold setCur; split <;> rfl

theorem may_of {α : Type} {m : EdM α} {P : Site → Prop} (hd : ∀ w, P w → w = .redraw ∨ w = .rows)
    {Q : α → Ed → Prop} {R : IoErr → Ed → Prop} (hm : Wp m s Q R P) (hr : h.strict = true → m s ≠ .panic .redraw) :
    Wp m s Q R h.May := by
  unfold Wp at *
  split at hm
  · exact hm
  · exact hm
  · rename_i w he
    rcases hd w hm with rfl | rfl
    · refine .inr (.inl ⟨rfl, ?_⟩)
      cases hs : h.strict with
      | false => rfl
      | true => exact absurd he (hr hs)
    · exact .inl rfl

theorem drawPanic_site {sa : Bool} {w : Site} (hg : Good s) (h : DrawPanic E sa s w) : w = .redraw ∨ w = .rows := by
  cases w with
  | op =>
    obtain ⟨b, hb⟩ := hg.curBuf
    rw [show s.curBuf? = none from h] at hb; cases hb
  | rows => exact .inr rfl
  | redraw => exact .inl rfl
  | ioUnwrap => exact h.elim

theorem display_safe (hj : J h s) : Safe h (display E) s := by
  have h1 := may_of (h := h) (P := fun w => ShowPanic E s w) (fun w hw => ?_) (wp_mono (wp_and (display_good E hj.good) (display_wp E s)) (fun _ _ p => p.1)
    (fun _ _ p => p.1) (fun _ p => p.2)) (fun hs => ?_)
  · exact wp_mono h1 (fun _ _ p => ⟨p.1, p.2.history.trans hj.hist, fun h => p.2.isSearch.trans (hj.strict h)⟩)
      (fun _ _ p => ⟨p.1, p.2.history.trans hj.hist, fun h => p.2.isSearch.trans (hj.strict h)⟩) (fun _ p => p)
  · have h2 := hw.ne_op hj.good
    rcases hw with h3 | ⟨sug, h3, h4⟩
    · exact absurd h3.1 h2
    · cases w with
      | op => exact absurd rfl h2
      | rows => exact .inr rfl
      | redraw => exact .inl rfl
      | ioUnwrap => exact h4.elim
  · exact Draws.all hs s hj.good hj.hist (hj.strict hs)

theorem moveCursorToEndOfLine_safe (hj : J h s) : Safe h (moveCursorToEndOfLine E) s := by
  simp only [Safe, moveCursorToEndOfLine, wp_bind, wp_curBuf, wp_modify]
  obtain ⟨b, hb⟩ := hj.good.curBuf
  exact ⟨fun _ _ => display_safe (hj.mk_cursor _), fun hn => by rw [hb] at hn; cases hn⟩

theorem workBuf_some (hj : J h s) : ∃ w, workBuf s = some w := by
  obtain ⟨b, hb⟩ := hj.good.curBuf
  obtain ⟨w, hw, _⟩ := workBuf_of_curBuf hb
  exact ⟨w, hw⟩

/-- Editing the current line: it is enough to consider the text. -/
theorem curBufMut_safe {α : Type} {f : Buffer → Option (α × Buffer)} {Q : α → Ed → Prop}
    {R : IoErr → Ed → Prop} (hj : J h s)
    (hf : ∀ b w d, s.curBuf? = some b → w.data = b.data → Buffer.Inv d w →
      ∃ a w', f w = some (a, w') ∧ (∃ d', Buffer.Inv d' w') ∧
        (J h (setCur s w') → Q a (setCur s w'))) :
    Wp (curBufMut f) s Q R h.May := by
  rw [wp_curBufMut]
  obtain ⟨b, hb⟩ := hj.good.curBuf
  obtain ⟨w, hw, hd⟩ := workBuf_of_curBuf hb
  obtain ⟨d, hi⟩ := hj.good.workInv hw
  obtain ⟨a, w', h1, h2, h3⟩ := hf b w d hb hd hi
  refine ⟨fun b1 a1 b2 hb1 hf1 => ?_, ?_⟩
  · rw [hw] at hb1; cases hb1
    rw [h1] at hf1; cases hf1
    exact h3 (hj.setCur h2)
  · rintro (hn | ⟨b1, hb1, hn⟩)
    · rw [hw] at hn; cases hn
    · rw [hw] at hb1; cases hb1
      rw [h1] at hn; cases hn

theorem inv_insert {d : Text} {b : Buffer} (hi : Buffer.Inv d b) {start : Nat} {t : Text}
    (hs : start ≤ b.data.length) :
    ∃ b', b.insert start t = some b' ∧ Buffer.Inv d b' ∧
      b'.data = b.data.take start ++ t ++ b.data.drop start := by
  obtain ⟨b', h1, h2, h3⟩ := hi.edit (.insert start t) _ (by simp [Edit.apply, hs]; rfl)
  exact ⟨b', h1, h2, by simpa using h3⟩

theorem inv_remove {d : Text} {b : Buffer} (hi : Buffer.Inv d b) {start stop : Nat}
    (hs : start ≤ stop ∧ stop ≤ b.data.length) :
    ∃ b', b.remove start stop = some (stop - start, b') ∧ Buffer.Inv d b' ∧
      b'.data = b.data.take start ++ b.data.drop stop := by
  have he := Buffer.remove_eq b start stop hs
  obtain ⟨b', h1, h2, h3⟩ := hi.edit (.remove start stop) _ (by simp [Edit.apply, hs]; rfl)
  simp only [runEdit, he, Option.map_some, Option.some.injEq] at h1
  subst h1
  refine ⟨_, ?_, h2, h3⟩
  rw [he]

theorem inv_truncate {d : Text} {b : Buffer} (hi : Buffer.Inv d b) {n : Nat}
    (hs : n ≤ b.data.length) :
    ∃ b', b.truncate n = some b' ∧ Buffer.Inv d b' ∧ b'.data = b.data.take n := by
  obtain ⟨b', h1, h2, h3⟩ := hi.edit (.truncate n) _ (by simp [Edit.apply, hs]; rfl)
  exact ⟨b', h1, h2, by simpa using h3⟩

theorem insertChars_safe (hj : J h s) (hc : CurOk s) (cs : Text) :
    Safe h (insertCharsAfterCursor E cs) s := by
  simp only [Safe, insertCharsAfterCursor, wp_bind, wp_get, wp_modify]
  refine curBufMut_safe hj (fun b w d hb hw hi => ?_)
  obtain ⟨b0, h0, hc⟩ := hc
  rw [hb] at h0; cases h0
  obtain ⟨b', h1, h2, h3⟩ := inv_insert hi (t := cs) (start := s.cursor) (by rw [hw]; exact hc)
  exact ⟨(), b', by simp [noRes, h1], ⟨d, h2⟩, fun hj' => display_safe (hj'.mk_cursor _)⟩

theorem undo_safe (hj : J h s) : Safe h (undo E) s := by
  simp only [Safe, undo, wp_bind]
  refine curBufMut_safe hj (fun b w d hb hw hi => ?_)
  obtain ⟨b', h1, h2, _⟩ := hi.undo
  refine ⟨_, _, h1, ⟨_, h2⟩, fun hj' => ?_⟩
  simp only [wp_ite, wp_bind, wp_pure]
  exact ⟨fun _ => moveCursorToEndOfLine_safe hj', fun _ => display_safe hj'⟩

theorem redo_safe (hj : J h s) : Safe h (redo E) s := by
  simp only [Safe, redo, wp_bind]
  refine curBufMut_safe hj (fun b w d hb hw hi => ?_)
  obtain ⟨b', h1, h2, _⟩ := hi.redo
  refine ⟨_, _, h1, ⟨_, h2⟩, fun hj' => ?_⟩
  simp only [wp_ite, wp_bind, wp_pure]
  exact ⟨fun _ => moveCursorToEndOfLine_safe hj', fun _ => display_safe hj'⟩

theorem revert_safe (hj : J h s) : Safe h (revert E) s := by
  simp only [Safe, revert, wp_bind]
  refine curBufMut_safe hj (fun b w d hb hw hi => ?_)
  obtain ⟨b', h1, h2, _⟩ := hi.revert
  refine ⟨_, _, h1, ⟨_, h2⟩, fun hj' => ?_⟩
  simp only [wp_ite, wp_bind, wp_pure]
  exact ⟨fun _ => moveCursorToEndOfLine_safe hj', fun _ => display_safe hj'⟩

theorem freshen_eq (hs : s.history.share = false) :
    ∀ {Q : Unit → Ed → Prop} {R : IoErr → Ed → Prop} {P : Site → Prop},
      Wp freshenHistory s Q R P ↔ Q () s := by
  intro Q R P
  simp only [freshenHistory, wp_modify, hs]
  simp

theorem J.lax (hj : J h s) (hy : s.isSearch = true) : h.strict = false := by
  cases hs : h.strict with
  | false => rfl
  | true => rw [hj.strict hs] at hy; cases hy

theorem search_safe (hs : h.hist.share = false) (hst : h.strict = false) (hj : J h s) (fwd : Bool) : Safe h (search E fwd) s := by
  have hs' : s.history.share = false := by rw [hj.hist]; exact hs
  simp only [Safe, search, wp_bind, wp_get, wp_ite, wp_modify, refreshSearch]
  refine ⟨fun _ => ?_, fun _ => ⟨fun hne => ?_, fun _ => ?_⟩⟩
  · rw [freshen_eq hs']
    exact display_safe ⟨hj.good.refreshed _, hj.hist, fun h => by rw [hst] at h; cases h⟩
  · refine display_safe ⟨⟨hj.good.loc, hj.good.sub, ?_, hj.good.newInv, hj.good.histInv,
      hj.good.hint, hj.good.srch⟩, hj.hist, hj.strict⟩
    intro i hi
    dsimp only at hi
    have hpos : 0 < s.historySubsetIndex.length := by
      rw [List.length_pos_iff]; simpa using hne
    cases hl : s.historySubsetLoc with
    | none => rw [hl] at hi; cases hi
    | some p =>
      rw [hl] at hi
      dsimp only at hi ⊢
      have := hj.good.subLoc p hl
      split at hi <;> split at hi <;> (cases hi; omega)
  · exact display_safe hj

theorem wordBefore_le {ws : List (Nat × Nat)} (hw : Separated ws) {c : Nat} {ig : Bool}
    {p : Nat × Nat} (hp : wordBefore ws (CursorPosition.get c ws) ig = some p) :
    p ∈ ws ∧ p.1 ≤ c := by
  have hc := Props.C12_classifies c ws hw
  generalize CursorPosition.get c ws = pos at hp hc
  have hlt := hw.1
  cases pos with
  | inWord i =>
    obtain ⟨a, e, h1, h2, h3⟩ := hc
    simp only [wordBefore] at hp
    rw [h1] at hp; cases hp
    exact ⟨List.mem_of_getElem? h1, by simp; omega⟩
  | onWordRightEdge i =>
    obtain ⟨a, h1⟩ := hc
    simp only [wordBefore] at hp
    rw [h1] at hp; cases hp
    have := hlt _ (List.mem_of_getElem? h1)
    exact ⟨List.mem_of_getElem? h1, by simp at *; omega⟩
  | onWordLeftEdge i =>
    obtain ⟨e, h1⟩ := hc
    simp only [wordBefore] at hp
    split at hp
    · rename_i hi
      refine ⟨List.mem_of_getElem? hp, ?_⟩
      have hpw := hw.2
      rw [List.pairwise_iff_getElem] at hpw
      obtain ⟨k1, g1⟩ := List.getElem?_eq_some_iff.mp hp
      obtain ⟨k2, g2⟩ := List.getElem?_eq_some_iff.mp h1
      have := hpw (i - 1) i k1 k2 (by omega)
      rw [g1, g2] at this
      have := hlt _ (List.mem_of_getElem? hp)
      simp at *; omega
    · cases hp
  | inSpace l r =>
    cases l with
    | none => cases hp
    | some i =>
      obtain ⟨_, ⟨a, e, h1, h2, _⟩, _⟩ := hc
      simp only [wordBefore] at hp
      split at hp
      · rw [h1] at hp; cases hp
        have := hlt _ (List.mem_of_getElem? h1)
        exact ⟨List.mem_of_getElem? h1, by simp at *; omega⟩
      · cases hp

theorem deleteWord_safe (hw : WordsOk E) (hj : J h s) (hc : CurOk s) (ig : Bool) :
    Safe h (deleteWordBeforeCursor E ig) s := by
  simp only [Safe, deleteWordBeforeCursor, getWordBeforeCursor, wordsAndPos, wp_bind, wp_curBuf,
    wp_get, wp_pure]
  obtain ⟨b, hb, hc⟩ := hc
  refine ⟨fun b' hb' => ?_, fun hn => by rw [hb] at hn; cases hn⟩
  rw [hb] at hb'; cases hb'
  split
  · rename_i start stop hwb
    simp only [wp_bind, wp_get]
    obtain ⟨hm, hle⟩ := wordBefore_le (hw b).1 hwb
    refine curBufMut_safe hj (fun b1 w d hb1 hw1 hi => ?_)
    rw [hb] at hb1; cases hb1
    obtain ⟨b', h1, h2, h3⟩ := inv_remove hi (start := start) (stop := s.cursor)
      ⟨hle, by rw [hw1]; exact hc⟩
    refine ⟨_, _, h1, ⟨d, h2⟩, fun hj' => ?_⟩
    unfold Wp cursorSub
    rw [setCur_cursor]
    rw [if_pos (by omega)]
    exact display_safe (hj'.mk_cursor _)
  · exact display_safe hj

theorem J.mk_hint (hj : J h s) {o : Option (List Text × Option Nat)}
    (ho : ∀ cs i, o = some (cs, i) → cs ≠ [] ∧ ∀ k, i = some k → k < cs.length) :
    J h { s with showCompletionsHint := o } :=
  ⟨⟨hj.good.loc, hj.good.sub, hj.good.subLoc, hj.good.newInv, hj.good.histInv, ho,
    hj.good.srch⟩, hj.hist, hj.strict⟩

theorem I.mk_hint (hi : I h s) {o : Option (List Text × Option Nat)}
    (ho : ∀ cs i, o = some (cs, i) → cs ≠ [] ∧ ∀ k, i = some k → k < cs.length) :
    I h { s with showCompletionsHint := o } :=
  ⟨⟨(hi.j.mk_hint ho).good, hi.steady.cur, hi.steady.sug⟩, hi.hist, hi.strict⟩

theorem dropCandidate_wp (hw : WordsOk E) (hi : I h s) (whole : Bool) :
    Wp (dropCandidate E whole) s (fun _ s' => J h s' ∧ CurOk s') (fun _ s' => J h s')
      h.May := by
  unfold dropCandidate
  cases whole with
  | true =>
    rw [if_pos rfl, wp_bind]
    refine curBufMut_safe hi.j (fun b w d hb hw1 hinv => ?_)
    obtain ⟨b', h1, h2, h3⟩ := inv_truncate hinv (n := 0) (by omega)
    refine ⟨(), b', by simp [noRes, h1], ⟨d, h2⟩, fun hj' => ?_⟩
    rw [wp_modify]
    exact ⟨hj'.mk_cursor _, b', setCur_curBuf _ _, Nat.zero_le _⟩
  | false =>
    rw [if_neg (by simp)]
    exact wp_mono (deleteWord_safe hw hi.j hi.cur false) (fun _ s2 h2 => ⟨h2.j, h2.cur⟩)
      (fun _ _ x => x) (fun _ x => x)

theorem completeNext_safe (hw : WordsOk E) (hi : I h s) {cs : List Text} {o : Option Nat}
    (hcs : cs ≠ []) (ho : ∀ k, o = some k → k < cs.length) :
    Safe h (completeNext E cs o) s := by
  have hlen : 0 < cs.length := List.length_pos_iff.mpr hcs
  have hi0 : I h { s with showCompletionsHint := none } := hi.mk_hint (fun _ _ he => by cases he)
  unfold Safe completeNext
  rw [wp_bind, wp_modify, wp_bind, wp_ofOption]
  have hnext : ∃ i, nextCandidate cs.length o = some i ∧ i < cs.length := by
    cases o with
    | none => exact ⟨0, rfl, hlen⟩
    | some x => exact ⟨_, by simp [nextCandidate, hcs]; rfl, Nat.mod_lt _ hlen⟩
  obtain ⟨i, hi1, hi2⟩ := hnext
  refine ⟨fun i' he => ?_, fun hn => by rw [hi1] at hn; cases hn⟩
  rw [hi1] at he; cases he
  rw [wp_bind]
  refine wp_mono (Q := fun _ s' => I h s') (R := fun _ _ => False) (P := h.May) ?_
    (fun whole s1 hs1 => ?_) (fun _ _ x => x.elim) (fun _ x => x)
  · unfold isWhole
    split
    · exact hi0
    · rename_i x
      simp only [wp_bind, wp_curBuf, wp_ofOption, wp_pure]
      refine ⟨fun b hb => ⟨fun _ _ => hi0, fun hn => ?_⟩, fun hn => ?_⟩
      · rw [List.getElem?_eq_getElem (ho x rfl)] at hn; cases hn
      · obtain ⟨b, hb⟩ := hi0.j.good.curBuf
        rw [hb] at hn; cases hn
  · rw [wp_bind]
    refine wp_mono (dropCandidate_wp hw hs1 whole) (fun _ s2 h2 => ?_) (fun _ _ x => x) (fun _ x => x)
    simp only [wp_bind, wp_ofOption, wp_modify]
    refine ⟨fun c _ => ?_, fun hn => ?_⟩
    · refine wp_mono (insertChars_safe h2.1 h2.2 c) (fun _ s3 h3 => ?_) (fun _ _ x => x) (fun _ x => x)
      refine h3.mk_hint (fun cs' i' he => ?_)
      cases he
      exact ⟨hcs, fun k hk => by cases hk; exact hi2⟩
    · rw [List.getElem?_eq_getElem hi2] at hn; cases hn

theorem dedupAdj_eq_nil : ∀ l : List Text, dedupAdj l = [] ↔ l = []
  | [] => by simp [dedupAdj]
  | [a] => by simp [dedupAdj]
  | a :: b :: l => by
    unfold dedupAdj
    split
    · simp [dedupAdj_eq_nil (b :: l)]
    · simp

/-- A change of the logs only: the text of the line stays. -/
theorem I.setCur_same (hi : I h s) {w : Buffer} (hw : workBuf s = some w) : I h (setCur s w) := by
  have hj := hi.j.setCur (hi.j.good.workInv hw)
  obtain ⟨b, hb, hd⟩ := curBuf_of_workBuf hw
  refine ⟨⟨hj.good, ⟨w, setCur_curBuf _ _, ?_⟩, ?_⟩, hj.hist, hj.strict⟩
  · rw [setCur_cursor]
    obtain ⟨b', hb', hc⟩ := hi.cur
    rw [hb] at hb'; cases hb'
    rw [hd]; exact hc
  · intro hs x hx
    rw [setCur_isSearch] at hs
    have hx' : s.autosuggestion = some x := by
      unfold setCur at hx
      split at hx <;> exact hx
    obtain ⟨b', hb', hc⟩ := hi.steady.sug hs x hx'
    rw [hb] at hb'; cases hb'
    exact ⟨w, setCur_curBuf _ _, by rw [hd]; exact hc⟩

theorem completeFirst_safe (hw : WordsOk E) (hi : I h s) (comp : Text → List Text) :
    Safe h (completeFirst E comp) s := by
  unfold Safe completeFirst
  rw [wp_bind]
  simp only [getWordBeforeCursor, wordsAndPos, wp_bind, wp_curBuf, wp_get, wp_pure]
  obtain ⟨b, hb, hc⟩ := hi.cur
  refine ⟨fun b' hb' => ?_, fun hn => by rw [hb] at hn; cases hn⟩
  rw [hb] at hb'; cases hb'
  rw [wp_curBufMut]
  -- the word can be read
  have hrange : ∀ w : Buffer, w.data = b.data →
      ∀ r, wordBefore (E.words b) (CursorPosition.get s.cursor (E.words b)) false = r →
      ∃ t, readWord r w = some (t, w) := by
    intro w hwd r hr
    cases r with
    | none => exact ⟨[], rfl⟩
    | some p =>
      obtain ⟨hm, _⟩ := wordBefore_le (hw b).1 hr
      have h1 := (hw b).1.1 p hm
      have h2 := (hw b).2 p hm
      refine ⟨(w.data.drop p.1).take (p.2 - p.1), ?_⟩
      simp only [readWord, Buffer.range]
      rw [if_pos ⟨by omega, by rw [hwd]; exact h2⟩]
      rfl
  refine ⟨fun w word w' hwb hf => ?_, ?_⟩
  · obtain ⟨b1, hb1, hd1⟩ := curBuf_of_workBuf hwb
    rw [hb] at hb1; cases hb1
    obtain ⟨t, ht⟩ := hrange w hd1 _ rfl
    rw [ht] at hf
    cases hf
    have hi1 : I h (setCur s w) := hi.setCur_same hwb
    have two : ∀ c, Wp (do
        deleteWordBeforeCursor E false
        insertCharsAfterCursor E c) (setCur s w) (fun _ s' => I h s') (fun _ s' => J h s')
        h.May := by
      intro c
      rw [wp_bind]
      exact wp_mono (deleteWord_safe hw hi1.j hi1.cur false)
        (fun _ s2 h2 => insertChars_safe h2.j h2.cur c) (fun _ _ x => x) (fun _ x => x)
    have hno : I h { setCur s w with showCompletionsHint := none } :=
      hi1.mk_hint (fun _ _ he => by cases he)
    have shown : ∀ cs : List Text, cs ≠ [] → Wp (do
        M.modify fun s => { s with showCompletionsHint := some (cs, none) }
        display E) (setCur s w) (fun _ s' => I h s') (fun _ s' => J h s') h.May := by
      intro cs hcs
      rw [wp_bind, wp_modify]
      exact display_safe (hi1.j.mk_hint (fun _ _ he => by
        cases he; exact ⟨hcs, fun k hk => by cases hk⟩))
    split
    · exact hno
    · rw [wp_bind, wp_modify, wp_bind]
      exact wp_mono (deleteWord_safe hw hno.j hno.cur false)
        (fun _ s2 h2 => insertChars_safe h2.j h2.cur _) (fun _ _ x => x) (fun _ x => x)
    · rename_i hne _
      split
      · rw [wp_ite]
        exact ⟨fun _ => two _, fun _ => shown _ hne⟩
      · exact shown _ hne
  · rintro (hn | ⟨w, hwb, hn⟩)
    · obtain ⟨w, hwb⟩ := workBuf_some hi.j
      rw [hwb] at hn; cases hn
    · obtain ⟨b1, hb1, hd1⟩ := curBuf_of_workBuf hwb
      rw [hb] at hb1; cases hb1
      obtain ⟨t, ht⟩ := hrange w hd1 _ rfl
      rw [ht] at hn
      cases hn

theorem complete_safe (hw : WordsOk E) (hi : I h s) (comp : Text → List Text) :
    Safe h (complete E comp) s := by
  unfold Safe complete
  rw [wp_bind, wp_get]
  split
  · rename_i cs o hs
    obtain ⟨h1, h2⟩ := hi.j.good.hint _ _ hs
    rw [wp_bind]
    exact wp_mono (completeNext_safe hw hi h1 h2) (fun _ s2 h2 => display_safe h2.j)
      (fun _ _ x => x) (fun _ x => x)
  · exact completeFirst_safe hw hi comp

theorem J.clearSearch (hj : J h s) : J h
    { s with reverseSearch := false, forwardSearch := false, historySubsetLoc := none,
             historySubsetIndex := [] } :=
  ⟨⟨hj.good.loc, by simp, by simp, hj.good.newInv, hj.good.histInv, hj.good.hint,
    by simp [Ed.isSearch]⟩, hj.hist, fun _ => rfl⟩

theorem clear_safe (hj : J h s) : Safe h (clear E) s := by
  simp only [Safe, clear, clearSearch, wp_bind, wp_modify]
  have hj' : J h { s with ctxBuf := s.ctxBuf ++ [.clearAll, .gotoOrigin], termCursorLine := 1 } :=
    ⟨⟨hj.good.loc, hj.good.sub, hj.good.subLoc, hj.good.newInv, hj.good.histInv, hj.good.hint,
      hj.good.srch⟩, hj.hist, hj.strict⟩
  exact display_safe hj'.clearSearch

theorem J.mk_loc (hj : J h s) {o : Option Nat} (ho : ∀ i, o = some i → i < h.hist.buffers.length) :
    J h { s with curHistoryLoc := o } :=
  ⟨⟨by rw [hj.hist]; exact ho, hj.good.sub, hj.good.subLoc, hj.good.newInv, hj.good.histInv,
    hj.good.hint, hj.good.srch⟩, hj.hist, hj.strict⟩

theorem J.mk_valid (hj : J h s) (v : Bool) : J h { s with histBufValid := v } :=
  ⟨⟨hj.good.loc, hj.good.sub, hj.good.subLoc, hj.good.newInv, hj.good.histInv,
    hj.good.hint, hj.good.srch⟩, hj.hist, hj.strict⟩

theorem J.mk_fresh (hj : J h s) (v : Bool) : J h { s with historyFresh := v } :=
  ⟨⟨hj.good.loc, hj.good.sub, hj.good.subLoc, hj.good.newInv, hj.good.histInv,
    hj.good.hint, hj.good.srch⟩, hj.hist, hj.strict⟩

/-- Moving within the subset, outside a search. -/
theorem J.mk_sub (hj : J h s) (hns : s.isSearch = false) {o p : Option Nat} {idx : List Nat}
    (hi : ∀ j ∈ idx, j < h.hist.buffers.length) (ho : ∀ i, o = some i → i < idx.length)
    (hp : ∀ i, p = some i → i < h.hist.buffers.length) :
    J h { s with historySubsetLoc := o, historySubsetIndex := idx, curHistoryLoc := p } :=
  ⟨⟨by rw [hj.hist]; exact hp, by rw [hj.hist]; exact hi, ho, hj.good.newInv, hj.good.histInv,
    hj.good.hint, fun hs => by rw [show s.isSearch = true from hs] at hns; cases hns⟩, hj.hist, hj.strict⟩

theorem moveUpLoc_wp (hj : J h s) (hns : s.isSearch = false) :
    Wp moveUpLoc s (fun _ s' => J h s') (fun _ _ => False) h.May := by
  have hg := hj.good
  unfold moveUpLoc
  rw [wp_bind, wp_get]
  simp only [wp_ite]
  refine ⟨fun _ => ?_, fun _ => ?_⟩
  · split
    · rename_i i hl
      simp only [wp_ite, wp_bind, wp_ofOption, wp_modify, wp_pure]
      refine ⟨fun hpos => ⟨fun loc hloc => ?_, fun hn => ?_⟩, fun _ => hj⟩
      · have hm := List.mem_of_getElem? hloc
        have := hj.mk_sub hns (idx := s.historySubsetIndex) (o := some (i - 1)) (p := some loc)
          (by rw [← hj.hist]; exact hg.sub)
          (fun k hk => by cases hk; have := hg.subLoc i hl; omega)
          (fun k hk => by cases hk; rw [← hj.hist]; exact hg.sub _ hm)
        exact this
      · have := hg.subLoc i hl
        rw [List.getElem?_eq_getElem (by omega)] at hn; cases hn
    · rename_i hl
      rw [wp_bind, wp_modify]
      have hsub : ∀ j ∈ s.history.getHistorySubset s.newBuf, j < h.hist.buffers.length :=
        fun j hm => by have := historySubset_lt hm; rw [hj.hist] at this; exact this
      split
      · rename_i loc hlast
        rw [wp_modify]
        have hm := List.mem_of_getLast? hlast
        exact hj.mk_sub hns (idx := s.history.getHistorySubset s.newBuf)
          (o := some ((s.history.getHistorySubset s.newBuf).length - 1)) (p := some loc) hsub
          (fun k hk => by cases hk; have := List.length_pos_of_mem hm; omega)
          (fun k hk => by cases hk; exact hsub _ hm)
      · rw [wp_pure]
        have := hj.mk_sub hns (idx := s.history.getHistorySubset s.newBuf) (o := none)
          (p := s.curHistoryLoc) hsub (by simp) (by rw [← hj.hist]; exact hg.loc)
        rw [← hl] at this
        exact this
  · split
    · rename_i i hl
      simp only [wp_ite, wp_modify, wp_pure]
      refine ⟨fun _ => hj.mk_loc (fun k hk => ?_), fun _ => hj⟩
      cases hk
      have := hg.loc i hl
      rw [hj.hist] at this; omega
    · simp only [wp_ite, wp_modify, wp_pure]
      refine ⟨fun _ => hj, fun hne => hj.mk_loc (fun k hk => ?_)⟩
      cases hk
      rw [hj.hist] at hne ⊢
      have : h.hist.buffers ≠ [] := by simpa using hne
      have := List.length_pos_iff.mpr this
      omega

theorem moveUp_safe (hs : h.hist.share = false) (hj : J h s) : Safe h (moveUp E) s := by
  unfold Safe moveUp
  rw [wp_bind, wp_get, wp_ite]
  refine ⟨fun hy => search_safe hs (hj.lax hy) hj _, fun hns => ?_⟩
  have hs' : s.history.share = false := by rw [hj.hist]; exact hs
  rw [wp_bind, wp_modify, wp_bind, freshen_eq (by exact hs'), wp_bind]
  exact wp_mono (moveUpLoc_wp (hj.mk_valid false) (Bool.eq_false_iff.mpr hns))
    (fun _ s2 h2 => moveCursorToEndOfLine_safe h2) (fun _ _ x => x.elim) (fun _ x => x)

theorem moveDownLoc_wp (hj : J h s) (hns : s.isSearch = false) :
    Wp moveDownLoc s (fun _ s' => J h s') (fun _ _ => False) h.May := by
  have hg := hj.good
  unfold moveDownLoc
  rw [wp_bind, wp_get]
  simp only [wp_ite]
  refine ⟨fun _ => ?_, fun _ => ?_⟩
  · split
    · rename_i i hl
      have hlt := hg.subLoc i hl
      simp only [wp_ite, wp_bind, wp_ofOption, wp_modify, wp_panic]
      refine ⟨fun h0 => by omega, fun _ => ⟨fun hlt' => ⟨fun loc hloc => ?_, fun hn => ?_⟩, fun _ => ?_⟩⟩
      · have hm := List.mem_of_getElem? hloc
        exact hj.mk_sub hns (idx := s.historySubsetIndex) (o := some (i + 1)) (p := some loc)
          (by rw [← hj.hist]; exact hg.sub) (fun k hk => by cases hk; omega)
          (fun k hk => by cases hk; rw [← hj.hist]; exact hg.sub _ hm)
      · rw [List.getElem?_eq_getElem (by omega)] at hn; cases hn
      · exact (hj.mk_sub hns (idx := []) (o := none) (p := none) (by simp) (by simp)
          (by simp)).mk_fresh false
    · exact hj
  · split
    · rename_i i hl
      have hlt := hg.loc i hl
      simp only [wp_ite, wp_modify, wp_panic]
      refine ⟨fun h0 => by omega, fun _ => ⟨fun hlt' => ?_, fun _ => ?_⟩⟩
      · refine hj.mk_loc (fun k hk => ?_)
        cases hk
        rw [hj.hist] at hlt'; omega
      · exact (hj.mk_loc (o := none) (by simp)).mk_fresh false
    · rw [wp_modify]
      exact (hj.mk_loc (o := none) (by simp)).mk_fresh false

theorem moveDown_safe (hs : h.hist.share = false) (hj : J h s) : Safe h (moveDown E) s := by
  unfold Safe moveDown
  rw [wp_bind, wp_get, wp_ite]
  refine ⟨fun hy => search_safe hs (hj.lax hy) hj _, fun hns => ?_⟩
  rw [wp_bind, wp_modify, wp_bind]
  exact wp_mono (moveDownLoc_wp (hj.mk_valid false) (Bool.eq_false_iff.mpr hns))
    (fun _ s2 h2 => moveCursorToEndOfLine_safe h2) (fun _ _ x => x.elim) (fun _ x => x)

theorem moveToStartOfHistory_safe (hj : J h s) : Safe h (moveToStartOfHistory E) s := by
  simp only [Safe, moveToStartOfHistory, wp_bind, wp_modify, wp_get, wp_ite]
  refine ⟨fun _ => display_safe ((hj.mk_valid false).mk_loc (o := none) (by simp)), fun hne => ?_⟩
  refine moveCursorToEndOfLine_safe ((hj.mk_valid false).mk_loc (o := some 0) (fun i hi => ?_))
  cases hi
  have : s.history.buffers ≠ [] := by simpa using hne
  rw [hj.hist] at this
  exact List.length_pos_iff.mpr this

theorem moveToEndOfHistory_safe (hj : J h s) : Safe h (moveToEndOfHistory E) s := by
  simp only [Safe, moveToEndOfHistory, wp_bind, wp_modify, wp_get, wp_ite]
  exact ⟨fun _ => moveCursorToEndOfLine_safe ((hj.mk_valid false).mk_loc (o := none) (by simp)),
    fun _ => display_safe (hj.mk_valid false)⟩

theorem deleteBefore_safe (hj : J h s) (hc : CurOk s) : Safe h (deleteBeforeCursor E) s := by
  simp only [Safe, deleteBeforeCursor, wp_bind, wp_get, wp_ite, wp_modify]
  refine ⟨fun hpos => ?_, fun _ => display_safe hj⟩
  refine curBufMut_safe hj (fun b w d hb hw hi => ?_)
  obtain ⟨b0, h0, hc⟩ := hc
  rw [hb] at h0; cases h0
  obtain ⟨b', h1, h2, h3⟩ := inv_remove hi (start := s.cursor - 1) (stop := s.cursor)
    ⟨by omega, by rw [hw]; exact hc⟩
  exact ⟨_, _, h1, ⟨d, h2⟩, fun hj' => display_safe (hj'.mk_cursor _)⟩

theorem deleteAfter_safe (hj : J h s) : Safe h (deleteAfterCursor E) s := by
  simp only [Safe, deleteAfterCursor, wp_bind, wp_get]
  refine curBufMut_safe hj (fun b w d hb hw hi => ?_)
  by_cases hlt : s.cursor < w.numChars
  · obtain ⟨b', h1, h2, h3⟩ := inv_remove hi (start := s.cursor) (stop := s.cursor + 1)
      ⟨by omega, hlt⟩
    exact ⟨(), b', by simp [hlt, h1], ⟨d, h2⟩, fun hj' => display_safe hj'⟩
  · exact ⟨(), w, by simp [hlt], ⟨d, hi⟩, fun hj' => display_safe hj'⟩

theorem deleteAllBefore_safe (hj : J h s) (hc : CurOk s) : Safe h (deleteAllBeforeCursor E) s := by
  simp only [Safe, deleteAllBeforeCursor, wp_bind, wp_get, wp_modify]
  refine curBufMut_safe hj (fun b w d hb hw hi => ?_)
  obtain ⟨b0, h0, hc⟩ := hc
  rw [hb] at h0; cases h0
  obtain ⟨b', h1, h2, h3⟩ := inv_remove hi (start := 0) (stop := s.cursor)
    ⟨by omega, by rw [hw]; exact hc⟩
  exact ⟨_, _, h1, ⟨d, h2⟩, fun hj' => display_safe (hj'.mk_cursor _)⟩

theorem deleteAllAfter_safe (hj : J h s) (hc : CurOk s) : Safe h (deleteAllAfterCursor E) s := by
  simp only [Safe, deleteAllAfterCursor, wp_bind, wp_get]
  refine curBufMut_safe hj (fun b w d hb hw hi => ?_)
  obtain ⟨b0, h0, hc⟩ := hc
  rw [hb] at h0; cases h0
  obtain ⟨b', h1, h2, h3⟩ := inv_truncate hi (n := s.cursor) (by rw [hw]; exact hc)
  exact ⟨(), b', by simp [noRes, h1], ⟨d, h2⟩, fun hj' => display_safe hj'⟩

theorem deleteUntil_safe (hj : J h s) {p : Nat}
    (hc : ∃ b, s.curBuf? = some b ∧ s.cursor ≤ b.data.length ∧ p ≤ b.data.length) :
    Safe h (deleteUntil E p) s := by
  simp only [Safe, deleteUntil, wp_bind, wp_get, wp_modify]
  refine curBufMut_safe hj (fun b w d hb hw hi => ?_)
  obtain ⟨b0, h0, hc1, hc2⟩ := hc
  rw [hb] at h0; cases h0
  obtain ⟨b', h1, h2, h3⟩ := inv_remove hi (start := min s.cursor p) (stop := max s.cursor p)
    ⟨by omega, by rw [hw]; omega⟩
  exact ⟨_, _, h1, ⟨d, h2⟩, fun hj' => display_safe (hj'.mk_cursor _)⟩

theorem deleteUntilInclusive_safe (hj : J h s) {p : Nat}
    (hc : ∃ b, s.curBuf? = some b ∧ s.cursor < b.data.length ∧ p < b.data.length) :
    Safe h (deleteUntilInclusive E p) s := by
  simp only [Safe, deleteUntilInclusive, wp_bind, wp_get, wp_modify]
  refine curBufMut_safe hj (fun b w d hb hw hi => ?_)
  obtain ⟨b0, h0, hc1, hc2⟩ := hc
  rw [hb] at h0; cases h0
  obtain ⟨b', h1, h2, h3⟩ := inv_remove hi (start := min s.cursor p)
    (stop := max (s.cursor + 1) (p + 1)) ⟨by omega, by rw [hw]; omega⟩
  exact ⟨_, _, h1, ⟨d, h2⟩, fun hj' => display_safe (hj'.mk_cursor _)⟩

theorem moveCursorLeft_safe (hj : J h s) (n : Nat) : Safe h (moveCursorLeft E n) s := by
  simp only [Safe, moveCursorLeft, wp_bind, wp_modify]
  exact display_safe (hj.mk_cursor _)

theorem moveCursorRight_safe (hj : J h s) (hc : CurOk s) (n : Nat) :
    Safe h (moveCursorRight E n) s := by
  simp only [Safe, moveCursorRight, wp_bind, wp_curBuf, wp_get, wp_ite, wp_panic, wp_modify]
  obtain ⟨b, hb, hc⟩ := hc
  refine ⟨fun b' hb' => ⟨fun hlt => ?_, fun _ => display_safe (hj.mk_cursor _)⟩,
    fun hn => by rw [hb] at hn; cases hn⟩
  rw [hb] at hb'; cases hb'
  simp only [Buffer.numChars] at hlt
  omega

theorem moveCursorTo_safe (hj : J h s) (p : Nat) : Safe h (moveCursorTo E p) s := by
  simp only [Safe, moveCursorTo, wp_bind, wp_modify, wp_curBuf]
  obtain ⟨b, hb⟩ := hj.good.curBuf
  exact ⟨fun _ _ => display_safe ((hj.mk_cursor _).mk_cursor _),
    fun hn => by rw [show s.curBuf? = none from hn] at hb; cases hb⟩

theorem moveCursorToStartOfLine_safe (hj : J h s) : Safe h (moveCursorToStartOfLine E) s := by
  simp only [Safe, moveCursorToStartOfLine, wp_bind, wp_modify]
  exact display_safe (hj.mk_cursor _)

theorem accept_safe (hi : I h s) : Safe h (acceptAutosuggestion E) s := by
  have fin : ∀ s1, J h s1 → Wp (do
      clearSearch
      moveCursorToEndOfLine E) s1 (fun _ s' => I h s') (fun _ s' => J h s') h.May := by
    intro s1 hj1
    simp only [clearSearch, wp_bind, wp_modify]
    exact moveCursorToEndOfLine_safe hj1.clearSearch
  unfold Safe acceptAutosuggestion
  rw [wp_bind, wp_get]
  simp only []
  rw [wp_ite]
  refine ⟨fun _ => ?_, fun _ => fin _ hi.j⟩
  rw [wp_bind]
  refine curBufMut_safe hi.j (fun b w d hb hw hinv => ?_)
  cases hx : s.autosuggestion with
  | none => exact ⟨(), w, by simp [noRes], ⟨d, hinv⟩, fun hj' => fin _ hj'⟩
  | some x =>
    by_cases hsr : s.isSearch = true
    · obtain ⟨w', h1, h2, _⟩ := hinv.copy x
      exact ⟨(), w', by simp [noRes, hsr, h1], ⟨d, h2⟩, fun hj' => fin _ hj'⟩
    · obtain ⟨b', hb', hp⟩ := hi.steady.sug (by simpa using hsr) x hx
      rw [hb] at hb'; cases hb'
      have hle : w.data.length ≤ x.data.length := by rw [hw]; exact hp.length_le
      obtain ⟨w', h1, h2, h3⟩ := inv_insert hinv (t := x.data.drop w.data.length) (Nat.le_refl _)
      exact ⟨(), w', by simp [noRes, hsr, Buffer.insertFromBuffer, hle, h1], ⟨d, h2⟩,
        fun hj' => fin _ hj'⟩

theorem displayImpl_safe (hi : J h s) (hsug : s.isSearch = false → ∀ x, s.autosuggestion = some x →
    ∃ b, s.curBuf? = some b ∧ b.data <+: x.data) : Safe h (displayImpl E false) s := by
  refine wp_mono (may_of (fun w => drawPanic_site hi.good) (displayImpl_wp E false s) (fun hs => Draws.last hs s hi.good (hi.strict hs) (hsug (hi.strict hs)))) (fun _ s' hd => ?_) (fun _ s' hd => ?_) (fun w hd => ?_)
  · obtain ⟨b, hb, l, c, o, t, rfl⟩ := hd.drawn
    exact ⟨⟨⟨hi.good.loc, hi.good.sub, hi.good.subLoc, hi.good.newInv, hi.good.histInv,
      hi.good.hint, hi.good.srch⟩, ⟨b, hb, clampCursor_le _ _ _⟩, hsug⟩, hi.hist, hi.strict⟩
  · obtain ⟨cu, ⟨l, c, o, t, rfl⟩, _⟩ := hd
    exact ⟨⟨hi.good.loc, hi.good.sub, hi.good.subLoc, hi.good.newInv, hi.good.histInv,
      hi.good.hint, hi.good.srch⟩, hi.hist, hi.strict⟩
  · exact hd

theorem J.mk_out (hj : J h s) (t : Nat) (o : List Tok) : J h { s with tick := t, out := o } :=
  ⟨⟨hj.good.loc, hj.good.sub, hj.good.subLoc, hj.good.newInv, hj.good.histInv,
    hj.good.hint, hj.good.srch⟩, hj.hist, hj.strict⟩

theorem I.mk_out (hi : I h s) (t : Nat) (o : List Tok) : I h { s with tick := t, out := o } :=
  ⟨⟨(hi.j.mk_out t o).good, hi.steady.cur, hi.steady.sug⟩, hi.hist, hi.strict⟩

end
end Editor
end Liner
