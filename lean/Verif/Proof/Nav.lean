import Verif.Proof.Lands
import Verif.Spec.Nav
/-
Moving through the history.
-/

namespace Liner
namespace Editor
open Liner.Spec

/-- Where the editor stands: `idx` are the entries met, the last one first; `pos` is the position. -/
structure Nav (idx : List Nat) (pos : Nat) (s : Ed) : Prop where
  search : s.isSearch = false
  upto : UpToDate s
  le : pos ≤ idx.length
  bound : ∀ i ∈ idx, i < s.history.buffers.length
  loc : s.curHistoryLoc = if pos = 0 then none else idx[idx.length - pos]?
  empty : s.newBuf.data = [] → idx = List.range s.history.buffers.length
  typed : s.newBuf.data ≠ [] → idx = s.history.getHistorySubset s.newBuf ∧
    (if pos = 0 then s.historySubsetLoc = none
     else s.historySubsetLoc = some (idx.length - pos) ∧ s.historySubsetIndex = idx)

/-- Fields that matter for navigation. -/
structure NavSame (s s' : Ed) : Prop where
  search : s'.isSearch = s.isSearch
  fs : s'.fs = s.fs
  history : s'.history = s.history
  newBuf : s'.newBuf = s.newBuf
  loc : s'.curHistoryLoc = s.curHistoryLoc
  subLoc : s'.historySubsetLoc = s.historySubsetLoc
  sub : s'.historySubsetIndex = s.historySubsetIndex
  valid : s'.histBufValid = s.histBufValid
  noEol : s'.noEol = s.noEol

theorem Nav.same {idx : List Nat} {pos : Nat} {s s' : Ed} (h : Nav idx pos s) (e : NavSame s s') :
    Nav idx pos s' := by
  refine ⟨by rw [e.search]; exact h.search, ?_, h.le, by rw [e.history]; exact h.bound,
    by rw [e.loc]; exact h.loc, ?_, ?_⟩
  · unfold UpToDate; rw [e.history, e.fs]; exact h.upto
  · rw [e.newBuf, e.history]; exact h.empty
  · rw [e.newBuf, e.history, e.subLoc, e.sub]; exact h.typed

theorem pre_noSearch {s : Ed} (h : s.isSearch = false) : pre s = s := by simp [pre, h]

theorem display_navSame (E : Env) {s : Ed} (h : s.isSearch = false) :
    Wp (display E) s (fun _ s' => NavSame s s') (fun _ s' => NavSame s s') (fun _ => True) := by
  refine wp_mono (display_wp E s) (fun _ s' hs => ?_) (fun _ s' hs => ?_) (fun _ _ => trivial)
  · obtain ⟨b, sug, -, -, l, c, o, t, rfl⟩ := hs.ex
    rw [pre_noSearch h]
    exact ⟨rfl, rfl, rfl, rfl, rfl, rfl, rfl, rfl, rfl⟩
  · obtain ⟨cu, sug, -, ⟨l, c, o, t, rfl⟩, -⟩ := hs.ex
    rw [pre_noSearch h]
    exact ⟨rfl, rfl, rfl, rfl, rfl, rfl, rfl, rfl, rfl⟩

theorem end_navSame (E : Env) {s : Ed} (h : s.isSearch = false) :
    Wp (moveCursorToEndOfLine E) s (fun _ s' => NavSame s s') (fun _ s' => NavSame s s')
      (fun _ => True) := by
  simp only [moveCursorToEndOfLine, wp_bind, wp_curBuf, wp_modify]
  refine ⟨fun b _ => ?_, fun _ => trivial⟩
  exact wp_mono (display_navSame E (s := { s with cursor := b.numChars }) h)
    (fun _ s' e => ⟨e.1, e.2, e.3, e.4, e.5, e.6, e.7, e.8, e.9⟩)
    (fun _ s' e => ⟨e.1, e.2, e.3, e.4, e.5, e.6, e.7, e.8, e.9⟩) (fun _ h => h)

theorem freshen_upTo {s : Ed} (h : UpToDate s) {Q : Unit → Ed → Prop} {R : IoErr → Ed → Prop}
    {P : Site → Prop} (hq : ∀ b, Q () { s with historyFresh := b }) : Wp freshenHistory s Q R P := by
  unfold freshenHistory
  rw [wp_modify]
  by_cases hs : (s.history.share && !s.historyFresh) = true
  · rw [if_pos hs]
    simp only [Bool.and_eq_true] at hs
    rw [h hs.1]
    exact hq true
  · rw [if_neg hs]
    exact hq s.historyFresh

theorem Nav.mk_fresh {idx : List Nat} {pos : Nat} {s : Ed} (h : Nav idx pos s) (b : Bool) :
    Nav idx pos { s with historyFresh := b } :=
  h.same ⟨rfl, rfl, rfl, rfl, rfl, rfl, rfl, rfl, rfl⟩

theorem Nav.mk_valid {idx : List Nat} {pos : Nat} {s : Ed} (h : Nav idx pos s) (b : Bool) :
    Nav idx pos { s with histBufValid := b } :=
  ⟨h.search, h.upto, h.le, h.bound, h.loc, h.empty, h.typed⟩

/-- Fields that the choice of the entry does not touch. -/
structure NavKeep (s s' : Ed) : Prop where
  valid : s'.histBufValid = s.histBufValid
  noEol : s'.noEol = s.noEol
  newBuf : s'.newBuf = s.newBuf
  history : s'.history = s.history

theorem moveUpLoc_nav {idx : List Nat} {pos : Nat} {s : Ed} (h : Nav idx pos s) :
    Wp moveUpLoc s (fun _ s' => Nav idx (navStep idx.length pos true) s' ∧ NavKeep s s')
      (fun _ _ => False) (fun _ => True) := by
  have hle := h.le
  unfold moveUpLoc
  rw [wp_bind, wp_get]
  have hnc : (s.newBuf.numChars > 0) ↔ s.newBuf.data ≠ [] := by
    rw [Buffer.numChars, gt_iff_lt, List.length_pos_iff]
  by_cases ht : s.newBuf.data = []
  · rw [if_neg (by rw [hnc]; simpa using ht)]
    have hi := h.empty ht
    have hlen : idx.length = s.history.buffers.length := by rw [hi, List.length_range]
    have hget : ∀ k, k < idx.length → idx[k]? = some k := by
      intro k hk
      rw [hi] at hk ⊢
      rw [List.getElem?_range (by simpa using hk)]
    split
    · rename_i i hl
      have hp : pos ≠ 0 := by
        rintro rfl
        rw [h.loc] at hl; simp at hl
      rw [h.loc, if_neg hp, hget _ (by omega)] at hl
      cases hl
      rw [wp_ite]
      refine ⟨fun hpos => ?_, fun hpos => ?_⟩
      · rw [wp_modify]
        refine ⟨⟨h.search, h.upto, by unfold navStep; simp, h.bound, ?_, h.empty,
          fun hn => absurd ht hn⟩, ⟨rfl, rfl, rfl, rfl⟩⟩
        have : navStep idx.length pos true = pos + 1 := by unfold navStep; simp; omega
        rw [this, if_neg (by omega), hget _ (by omega)]
        show some (idx.length - pos - 1) = _
        congr 1
      · rw [wp_pure]
        have : navStep idx.length pos true = pos := by unfold navStep; simp; omega
        rw [this]
        exact ⟨h, ⟨rfl, rfl, rfl, rfl⟩⟩
    · rename_i hl
      have hp : pos = 0 := by
        by_contra hp
        rw [h.loc, if_neg hp, hget _ (by omega)] at hl; cases hl
      subst hp
      rw [wp_ite]
      refine ⟨fun he => ?_, fun he => ?_⟩
      · rw [wp_pure]
        have : navStep idx.length 0 true = 0 := by
          have : s.history.buffers = [] := by simpa using he
          unfold navStep; simp [hlen, this]
        rw [this]
        exact ⟨h, ⟨rfl, rfl, rfl, rfl⟩⟩
      · rw [wp_modify]
        have hpos : 0 < idx.length := by
          rw [hlen, List.length_pos_iff]; simpa using he
        have : navStep idx.length 0 true = 1 := by unfold navStep; simp; omega
        rw [this]
        refine ⟨⟨h.search, h.upto, hpos, h.bound, ?_, h.empty, fun hn => absurd ht hn⟩, ⟨rfl, rfl, rfl, rfl⟩⟩
        rw [if_neg (by omega), hget _ (by omega), hlen]
  · rw [if_pos (by rw [hnc]; exact ht)]
    obtain ⟨hi, hs⟩ := h.typed ht
    split
    · rename_i i hl
      have hp : pos ≠ 0 := by
        rintro rfl
        rw [if_pos rfl] at hs; rw [hs] at hl; cases hl
      rw [if_neg hp] at hs
      rw [hs.1] at hl
      cases hl
      simp only [wp_ite, wp_bind, wp_ofOption, wp_modify, wp_pure]
      refine ⟨fun hpos => ⟨fun loc hloc => ?_, fun _ => trivial⟩, fun hpos => ?_⟩
      · have : navStep idx.length pos true = pos + 1 := by unfold navStep; simp; omega
        rw [this]
        rw [hs.2] at hloc
        refine ⟨⟨h.search, h.upto, by omega, h.bound, ?_, fun he => absurd he ht,
          fun _ => ⟨hi, ?_⟩⟩, ⟨rfl, rfl, rfl, rfl⟩⟩
        · rw [if_neg (by omega), ← hloc]; rfl
        · rw [if_neg (by omega)]
          exact ⟨rfl, hs.2⟩
      · have : navStep idx.length pos true = pos := by unfold navStep; simp; omega
        rw [this]
        exact ⟨h, ⟨rfl, rfl, rfl, rfl⟩⟩
    · rename_i hl
      have hp : pos = 0 := by
        by_contra hp
        rw [if_neg hp, hl] at hs
        exact absurd hs.1 (by simp)
      subst hp
      rw [← hi, wp_bind, wp_modify]
      split
      · rename_i loc hlast
        rw [wp_modify]
        have hne : idx ≠ [] := by rintro rfl; simp at hlast
        have hpos : 0 < idx.length := List.length_pos_iff.mpr hne
        have : navStep idx.length 0 true = 1 := by unfold navStep; simp; omega
        rw [this]
        refine ⟨⟨h.search, h.upto, hpos, h.bound, ?_, fun he => absurd he ht,
          fun _ => ⟨hi, ?_⟩⟩, ⟨rfl, rfl, rfl, rfl⟩⟩
        · rw [if_neg (by omega), ← List.getLast?_eq_getElem?, hlast]
        · rw [if_neg (by omega)]
          exact ⟨rfl, rfl⟩
      · rename_i hlast
        rw [wp_pure]
        have hnil : idx = [] := by simpa using hlast
        have : navStep idx.length 0 true = 0 := by unfold navStep; simp [hnil]
        rw [this]
        refine ⟨⟨h.search, h.upto, by omega, h.bound, h.loc, fun he => absurd he ht,
          fun _ => ⟨hi, ?_⟩⟩, ⟨rfl, rfl, rfl, rfl⟩⟩
        rw [if_pos rfl]
        exact hl

theorem moveDownLoc_nav {idx : List Nat} {pos : Nat} {s : Ed} (h : Nav idx pos s) :
    Wp moveDownLoc s (fun _ s' => Nav idx (navStep idx.length pos false) s' ∧ NavKeep s s')
      (fun _ _ => False) (fun _ => True) := by
  have hle := h.le
  unfold moveDownLoc
  rw [wp_bind, wp_get]
  have hnc : (s.newBuf.numChars > 0) ↔ s.newBuf.data ≠ [] := by
    rw [Buffer.numChars, gt_iff_lt, List.length_pos_iff]
  have hstep : navStep idx.length pos false = pos - 1 := by simp [navStep]
  rw [hstep]
  by_cases ht : s.newBuf.data = []
  · rw [if_neg (by rw [hnc]; simpa using ht)]
    have hi := h.empty ht
    have hlen : idx.length = s.history.buffers.length := by rw [hi, List.length_range]
    have hget : ∀ k, k < idx.length → idx[k]? = some k := by
      intro k hk
      rw [hi] at hk ⊢
      rw [List.getElem?_range (by simpa using hk)]
    split
    · rename_i i hl
      have hp : pos ≠ 0 := by
        rintro rfl
        rw [h.loc] at hl; simp at hl
      rw [h.loc, if_neg hp, hget _ (by omega)] at hl
      cases hl
      simp only [wp_ite, wp_modify, wp_panic]
      refine ⟨fun _ => trivial, fun hne => ⟨fun hlt => ?_, fun hlt => ?_⟩⟩
      · refine ⟨⟨h.search, h.upto, by omega, h.bound, ?_, h.empty, fun hn => absurd ht hn⟩, ⟨rfl, rfl, rfl, rfl⟩⟩
        rw [if_neg (by omega), hget _ (by omega)]
        show some (idx.length - pos + 1) = _
        congr 1
        omega
      · have : pos = 1 := by omega
        subst this
        exact ⟨⟨h.search, h.upto, by omega, h.bound, rfl, h.empty, fun hn => absurd ht hn⟩, ⟨rfl, rfl, rfl, rfl⟩⟩
    · rename_i hl
      have hp : pos = 0 := by
        by_contra hp
        rw [h.loc, if_neg hp, hget _ (by omega)] at hl; cases hl
      subst hp
      rw [wp_modify]
      exact ⟨⟨h.search, h.upto, by omega, h.bound, rfl, h.empty, fun hn => absurd ht hn⟩, ⟨rfl, rfl, rfl, rfl⟩⟩
  · rw [if_pos (by rw [hnc]; exact ht)]
    obtain ⟨hi, hs⟩ := h.typed ht
    split
    · rename_i i hl
      have hp : pos ≠ 0 := by
        rintro rfl
        rw [if_pos rfl] at hs; rw [hs] at hl; cases hl
      rw [if_neg hp] at hs
      rw [hs.1] at hl
      cases hl
      simp only [wp_ite, wp_bind, wp_ofOption, wp_modify, wp_panic]
      refine ⟨fun _ => trivial, fun _ => ⟨fun hlt => ⟨fun loc hloc => ?_, fun _ => trivial⟩,
        fun hlt => ?_⟩⟩
      · rw [hs.2] at hloc hlt
        have he : idx.length - pos + 1 = idx.length - (pos - 1) := by omega
        refine ⟨⟨h.search, h.upto, by omega, h.bound, ?_, fun he => absurd he ht,
          fun _ => ⟨hi, ?_⟩⟩, ⟨rfl, rfl, rfl, rfl⟩⟩
        · rw [if_neg (by omega), ← he, hloc]
        · rw [if_neg (by omega)]
          exact ⟨by rw [he], hs.2⟩
      · rw [hs.2] at hlt
        have : pos = 1 := by omega
        subst this
        exact ⟨⟨h.search, h.upto, by omega, h.bound, rfl, fun he => absurd he ht,
          fun _ => ⟨hi, rfl⟩⟩, ⟨rfl, rfl, rfl, rfl⟩⟩
    · rename_i hl
      have hp : pos = 0 := by
        by_contra hp
        rw [if_neg hp, hl] at hs
        exact absurd hs.1 (by simp)
      subst hp
      rw [wp_pure]
      exact ⟨h, ⟨rfl, rfl, rfl, rfl⟩⟩

/-- The line shown. -/
theorem Nav.text {idx : List Nat} {pos : Nat} {s : Ed} (h : Nav idx pos s)
    (hv : s.histBufValid = false) :
    text? s = navText s.newBuf.data (idx.reverse.filterMap ((texts s.history)[·]?)) pos := by
  unfold text? Ed.curBuf? navText
  rw [h.loc]
  by_cases hp : pos = 0
  · simp [hp]
  · rw [if_neg hp, if_neg hp]
    have hle := h.le
    have hlt : idx.length - pos < idx.length := by omega
    rw [List.getElem?_eq_getElem hlt]
    have hb := h.bound _ (List.getElem_mem hlt)
    simp only [hv, Bool.false_eq_true, if_false]
    have hmap : idx.reverse.filterMap ((texts s.history)[·]?) =
        idx.reverse.map fun i => ((texts s.history)[i]?).getD [] := by
      rw [← List.filterMap_eq_map]
      apply List.filterMap_congr
      intro i hi
      have := h.bound i (by simpa using hi)
      have hl : i < (texts s.history).length := by simpa [texts] using this
      simp [List.getElem?_eq_getElem hl]
    rw [hmap, List.getElem?_map, List.getElem?_reverse (by omega)]
    have : idx.length - 1 - (pos - 1) = idx.length - pos := by omega
    rw [this, List.getElem?_eq_getElem hlt]
    simp [texts, List.getElem?_eq_getElem hb]

/-- After a step. -/
structure NavDone (idx : List Nat) (pos : Nat) (s s' : Ed) : Prop where
  nav : Nav idx pos s'
  newBuf : s'.newBuf = s.newBuf
  history : s'.history = s.history
  noEol : s'.noEol = s.noEol
  valid : s'.histBufValid = false
  lands : ∃ t, Lands s.noEol s' t []

theorem end_nav (E : Env) {idx : List Nat} {pos : Nat} {s0 s : Ed} (h : Nav idx pos s)
    (hk : NavKeep s0 s) (hv : s0.histBufValid = false) :
    Wp (moveCursorToEndOfLine E) s (fun _ s' => NavDone idx pos s0 s')
      (fun _ _ => True) (fun _ => True) := by
  have hv' := hk.valid.trans hv
  cases ht : text? s with
  | none =>
    simp only [moveCursorToEndOfLine, wp_bind, wp_curBuf]
    have : s.curBuf? = none := by simpa [text?] using ht
    exact ⟨fun b hb => (by rw [this] at hb; cases hb), fun _ => trivial⟩
  | some t =>
    have hs : SearchOnNewLine s := fun hx => by
      have := h.search
      simp only [Ed.isSearch, Bool.or_eq_false_iff] at this
      simp [this] at hx
    refine wp_mono (wp_and (end_navSame E h.search) (end_makes E ht hs))
      (fun _ s' e => ?_) (fun _ _ _ => trivial) (fun _ _ => trivial)
    obtain ⟨e, l⟩ := e
    exact ⟨h.same e, e.newBuf.trans hk.newBuf, e.history.trans hk.history, e.noEol.trans hk.noEol,
      e.valid.trans hv', t, by rw [← hk.noEol]; exact l⟩

theorem moveUp_nav (E : Env) {idx : List Nat} {pos : Nat} {s : Ed} (h : Nav idx pos s) :
    Wp (moveUp E) s (fun _ s' => NavDone idx (navStep idx.length pos true) s s')
      (fun _ _ => True) (fun _ => True) := by
  unfold moveUp
  rw [wp_bind, wp_get, if_neg (by simp [h.search]), wp_bind, wp_modify, wp_bind]
  refine freshen_upTo (s := { s with histBufValid := false }) h.upto (fun b => ?_)
  rw [wp_bind]
  refine wp_mono (moveUpLoc_nav ((h.mk_valid false).mk_fresh b)) (fun _ s2 h2 => ?_)
    (fun _ _ h => h.elim) (fun _ h => h)
  refine wp_mono (end_nav E h2.1 h2.2 rfl) (fun _ s3 h3 => ?_) (fun _ _ h => h) (fun _ h => h)
  exact ⟨h3.1, h3.2, h3.3, h3.4, h3.5, h3.6⟩

theorem moveDown_nav (E : Env) {idx : List Nat} {pos : Nat} {s : Ed} (h : Nav idx pos s) :
    Wp (moveDown E) s (fun _ s' => NavDone idx (navStep idx.length pos false) s s')
      (fun _ _ => True) (fun _ => True) := by
  unfold moveDown
  rw [wp_bind, wp_get, if_neg (by simp [h.search]), wp_bind, wp_modify, wp_bind]
  refine wp_mono (moveDownLoc_nav (h.mk_valid false)) (fun _ s2 h2 => ?_)
    (fun _ _ h => h.elim) (fun _ h => h)
  refine wp_mono (end_nav E h2.1 h2.2 rfl) (fun _ s3 h3 => ?_) (fun _ _ h => h) (fun _ h => h)
  exact ⟨h3.1, h3.2, h3.3, h3.4, h3.5, h3.6⟩

/-- Any number of steps. -/
theorem navOps_nav (E : Env) {idx : List Nat} : ∀ (dirs : List Bool) (up : Bool) {pos : Nat} {s : Ed},
    Nav idx pos s → Wp (runOps E (navOps (up :: dirs))) s
      (fun _ s' => NavDone idx ((up :: dirs).foldl (navStep idx.length) pos) s s')
      (fun _ _ => True) (fun _ => True) := by
  have step : ∀ (up : Bool) {pos : Nat} {s : Ed}, Nav idx pos s →
      Wp (runOp E (if up then .moveUp else .moveDown)) s
        (fun _ s' => NavDone idx (navStep idx.length pos up) s s') (fun _ _ => True)
        (fun _ => True) := by
    intro up pos s h
    cases up
    · exact moveDown_nav E h
    · exact moveUp_nav E h
  intro dirs
  induction dirs with
  | nil =>
    intro up pos s h
    simp only [navOps, List.map_cons, List.map_nil, runOps]
    rw [wp_bind]
    exact wp_mono (step up h) (fun _ _ h => h) (fun _ _ h => h) (fun _ h => h)
  | cons d dirs ih =>
    intro up pos s h
    have : navOps (up :: d :: dirs) = (if up then .moveUp else .moveDown) :: navOps (d :: dirs) := rfl
    rw [this, runOps, wp_bind]
    refine wp_mono (step up h) (fun _ s1 h1 => ?_) (fun _ _ h => h) (fun _ h => h)
    refine wp_mono (ih d h1.nav) (fun _ s2 h2 => ?_) (fun _ _ h => h) (fun _ h => h)
    exact ⟨h2.nav, h2.newBuf.trans h1.newBuf, h2.history.trans h1.history, h2.noEol.trans h1.noEol,
      h2.valid, by rw [← h1.noEol]; exact h2.lands⟩

theorem filterMap_range_filter {α : Type} (l : List α) (p : Nat → Bool) (q : α → Bool)
    (h : ∀ i x, l[i]? = some x → p i = q x) :
    ((List.range l.length).filter p).filterMap (l[·]?) = l.filter q := by
  induction l using List.reverseRecOn with
  | nil => rfl
  | append_singleton l a ih =>
    rw [List.length_append, List.length_singleton, List.range_succ, List.filter_append,
      List.filterMap_append, List.filter_append]
    have h1 : ∀ i ∈ (List.range l.length).filter p, (l ++ [a])[i]? = l[i]? := by
      intro i hi
      have := List.mem_range.mp (List.mem_of_mem_filter hi)
      rw [List.getElem?_append_left this]
    rw [List.filterMap_congr h1, ih (fun i x hx => h i x (by
      have := (List.getElem?_eq_some_iff.mp hx).1
      rw [List.getElem?_append_left this]; exact hx))]
    have h2 : (l ++ [a])[l.length]? = some a := by simp
    have h3 := h _ _ h2
    cases hq : q a
    · rw [hq] at h3; simp [h3, hq]
    · rw [hq] at h3; simp [h3, hq]

theorem all_of_range (h : History) :
    (List.range h.buffers.length).reverse.filterMap ((texts h)[·]?) = allEntries h := by
  have := filterMap_range_filter (texts h) (fun _ => true) (fun _ => true) (fun _ _ _ => rfl)
  simp only [List.filter_true] at this
  have hlen : h.buffers.length = (texts h).length := by simp [texts]
  rw [allEntries, List.filterMap_reverse, hlen, this]

theorem matching_of_subset (h : History) (b : Buffer) (hb : b.data ≠ []) :
    (h.getHistorySubset b).reverse.filterMap ((texts h)[·]?) = matchingEntries h b.data := by
  unfold History.getHistorySubset matchingEntries
  dsimp only
  rw [List.reverse_append, List.filterMap_append, List.filterMap_reverse, List.filterMap_reverse,
    List.filter_reverse, List.filter_reverse]
  have hlen : h.buffers.length = (texts h).length := by simp [texts]
  rw [hlen]
  congr 2
  · apply filterMap_range_filter
    intro i x hx
    simp only [texts, List.getElem?_map, Option.map_eq_some_iff] at hx
    obtain ⟨t, ht, rfl⟩ := hx
    rw [ht, Option.any_some, Bool.eq_iff_iff, Props.C09_starts_with]
    simp [hb, ne_comm]
  · apply filterMap_range_filter
    intro i x hx
    simp only [texts, List.getElem?_map, Option.map_eq_some_iff] at hx
    obtain ⟨t, ht, rfl⟩ := hx
    have he : t.eq b = true ↔ t.data = b.data := by simp [Buffer.eq]
    have hc : (∃ pre post, t.data = pre ++ b.data ++ post) ↔ b.data <:+: t.data :=
      ⟨fun ⟨x, y, e⟩ => ⟨x, y, e.symm⟩, fun ⟨x, y, e⟩ => ⟨x, y, e.symm⟩⟩
    rw [ht, Option.any_some, Bool.eq_iff_iff]
    simp only [Bool.and_eq_true, Bool.not_eq_true', ← Bool.not_eq_true, he, Props.C09_starts_with,
      Props.C09_contains, hc, decide_eq_true_eq]
    constructor
    · rintro ⟨⟨⟨h1, h2⟩, h3⟩, h4⟩
      exact ⟨h2, fun hp => h3 ⟨h1, hp, fun e => h4 e.symm⟩⟩
    · rintro ⟨h2, h3⟩
      exact ⟨⟨⟨hb, h2⟩, fun hx => h3 hx.2.1⟩, fun e => h3 (e ▸ List.prefix_refl _)⟩

end Editor
end Liner
