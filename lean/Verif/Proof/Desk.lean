import Verif.Spec.Desk
import Verif.Proof.SheetRead
import Verif.Proof.Recall
/-
The Emacs keys on the new line and on the entries of the history.
-/

namespace Liner
namespace Props
open Editor KM Liner.Spec

/-- Copying leaves two edits. -/
theorem copy_each {b x w : Buffer} {ps : List Text} (h : Each ps b.data b.actions) (hc : b.copyBuffer x = some w) :
    w.data = x.data ∧ Each ([] :: b.data :: ps) w.data w.actions := by
  obtain ⟨a1, h1, h2, h3⟩ := runEdit_spec b (.remove 0 b.data.length) [] (by simp [Edit.apply])
  simp only [runEdit, Option.map_eq_some_iff] at h3
  obtain ⟨⟨n, b1⟩, h3, h4⟩ := h3
  dsimp only at h4
  subst h4
  obtain ⟨a2, g1, g2, g3⟩ := runEdit_spec ⟨[], a1 :: b.actions, []⟩ (.insert 0 x.data) x.data (by simp [Edit.apply])
  unfold Buffer.copyBuffer at hc
  rw [h3] at hc
  dsimp only at hc
  rw [show runEdit ⟨[], a1 :: b.actions, []⟩ (.insert 0 x.data) = _ from hc] at g3
  cases g3
  exact ⟨rfl, .cons (.cons h h1 (.cons (.nil _) h2)) g1 (.cons (.nil _) g2)⟩

theorem meets_subset (h : History) (b : Buffer) (hb : b.data ≠ []) :
    h.getHistorySubset b = Desk.meets (texts h) b.data := by
  unfold History.getHistorySubset Desk.meets
  dsimp only
  have hlen : h.buffers.length = (texts h).length := by simp [texts]
  rw [hlen]
  congr 1
  · apply List.filter_congr
    intro i _
    simp only [texts, List.getElem?_map, Option.any_map]
    cases ht : h.buffers[i]? with
    | none => rfl
    | some t =>
      have he : t.eq b = true ↔ t.data = b.data := by simp [Buffer.eq]
      have hc : (∃ pre post, t.data = pre ++ b.data ++ post) ↔ b.data <:+: t.data :=
        ⟨fun ⟨x, y, e⟩ => ⟨x, y, e.symm⟩, fun ⟨x, y, e⟩ => ⟨x, y, e.symm⟩⟩
      rw [Option.any_some, Option.any_some, Bool.eq_iff_iff]
      simp only [Bool.and_eq_true, Bool.not_eq_true', ← Bool.not_eq_true, he, Props.C09_starts_with,
        Props.C09_contains, hc, decide_eq_true_eq]
      constructor
      · rintro ⟨⟨⟨h1, h2⟩, h3⟩, h4⟩
        exact ⟨h2, fun hp => h3 ⟨h1, hp, fun e => h4 e.symm⟩⟩
      · rintro ⟨h2, h3⟩
        exact ⟨⟨⟨hb, h2⟩, fun hx => h3 hx.2.1⟩, fun e => h3 (e ▸ List.prefix_refl _)⟩
  · apply List.filter_congr
    intro i _
    simp only [texts, List.getElem?_map, Option.any_map]
    cases ht : h.buffers[i]? with
    | none => rfl
    | some t =>
      rw [Option.any_some, Option.any_some, Bool.eq_iff_iff, Props.C09_starts_with]
      simp [hb, ne_comm]

section
variable (E : Env) (comp : Text → List Text) {H : History} {k k' : Emacs} {s s' : Ed} {d : Desk} {key : Key}

/-- What lies on the desk besides the line shown. -/
structure Lies (H : History) (s : Ed) (d : Desk) : Prop where
  hist : s.history = H
  shown : s.curHistoryLoc = d.shown
  changed : s.histBufValid = d.changed
  new : s.newBuf.data = d.new.text
  newLog : Each d.new.past d.new.text s.newBuf.actions
  copy : s.histBuf.data = d.copy.text
  copyLog : Each d.copy.past d.copy.text s.histBuf.actions
  met : s.historySubsetIndex = d.met
  walk : s.historySubsetLoc = d.walk
  clean : d.shown = none → d.changed = false
  loc : ∀ i, d.shown = some i → i < H.buffers.length
  bound : ∀ i ∈ d.met, i < H.buffers.length
  within : ∀ i, d.walk = some i → i < d.met.length

/-- The editor holds the desk. -/
def OnDesk (H : History) (k : Emacs) (s : Ed) (d : Desk) : Prop := Held H k s d.sheet ∧ Lies H s d

/-- The line to be changed and its log. -/
theorem Lies.work (h : Lies H s d) : ∃ w, workBuf s = some w ∧ text? s = some w.data ∧ Each d.past w.data w.actions := by
  unfold workBuf text? Ed.curBuf?
  rw [h.shown, h.changed, h.hist]
  unfold Desk.past
  cases hd : d.shown with
  | none =>
    refine ⟨_, rfl, rfl, ?_⟩
    rw [if_pos rfl, h.new]
    exact h.newLog
  | some i =>
    rw [if_neg (by simp)]
    cases hc : d.changed with
    | true =>
      refine ⟨_, rfl, rfl, ?_⟩
      rw [if_pos rfl, h.copy]
      exact h.copyLog
    | false =>
      have hi := h.loc i hd
      obtain ⟨w, h1, h2⟩ := C01_copy_buffer s.histBuf H.buffers[i]
      obtain ⟨h3, h4⟩ := copy_each (b := s.histBuf) (by rw [h.copy]; exact h.copyLog) h1
      refine ⟨w, by simpa [List.getElem?_eq_getElem hi] using h1, by simp [List.getElem?_eq_getElem hi, h3], ?_⟩
      rw [h.copy] at h4
      exact h4

theorem Lies.same (h : Lies H s d) (hn : NavSame s s') (hb : Beside false false s s') (hc : d.changed = false) :
    Lies H s' d where
  hist := hn.history.trans h.hist
  shown := hn.loc.trans h.shown
  changed := hn.valid.trans h.changed
  new := by rw [hn.newBuf, h.new]
  newLog := by rw [hn.newBuf]; exact h.newLog
  copy := by rw [hb.copy (hn.valid.trans (h.changed.trans hc)), h.copy]
  copyLog := by rw [hb.copy (hn.valid.trans (h.changed.trans hc))]; exact h.copyLog
  met := hn.sub.trans h.met
  walk := hn.subLoc.trans h.walk
  clean := h.clean
  loc := h.loc
  bound := h.bound
  within := h.within

theorem Lies.on (h : Lies H s d) (hs : Settled false s' s d.left d.right) (h1 : s'.showAutosuggestions = true)
    (hk : k.lastArgFetchIndex = none) (ha : d.arg = none) : OnDesk H k s d := by
  have ho := hs.here
  rw [rest_false] at ho
  refine ⟨⟨ho, fun hl => ?_, fun i hi => h.loc i (h.shown ▸ hi), hs.side.showSug.trans h1, h.hist, hs.sug, ?_, hk.trans ha.symm,
    fun i hi => (by rw [show d.sheet.arg = none from ha] at hi; cases hi)⟩, h⟩
  · rw [h.changed]
    exact h.clean (h.shown ▸ hl)
  · obtain ⟨w, g1, g2, g3⟩ := h.work
    have : w.data = d.sheet.text := Option.some.inj (g2.symm.trans ho.here.1)
    exact ⟨w, g1, this, this ▸ g3⟩

/-- A line is shown with the cursor at its end. -/
theorem turn_desk (h : Lies H s d) (hc : d.changed = false) (hq : s.isSearch = false) (hn : s.noEol = false)
    (h1 : s.showAutosuggestions = true) (hk : k.lastArgFetchIndex = none) :
    Wp (moveCursorToEndOfLine E) s (fun _ s' => OnDesk H k s' (d.turn (texts H) d.shown)) (fun _ _ => True) (· ≠ .op) := by
  obtain ⟨w, g1, g2, g3⟩ := h.work
  refine wp_mono (wp_and (wp_and (end_sets' E hq hn trivial g2 (Side.refl s)) (end_navSame E hq)) (bs_end E s hq)) (fun _ s' h' => ?_)
    (fun _ _ _ => trivial) (fun _ h => h.1.1)
  obtain ⟨⟨h3, h4⟩, h5⟩ := h'
  have hl := h.same h4 h5 hc
  have : Lies H s' (d.turn (texts H) d.shown) :=
    ⟨hl.hist, hl.shown, hl.changed.trans hc, hl.new, hl.newLog, hl.copy, hl.copyLog, hl.met, hl.walk, fun _ => rfl, hl.loc,
      hl.bound, hl.within⟩
  refine this.on (s' := s) ?_ h1 hk rfl
  have e : (d.turn (texts H) d.shown).left = w.data := by
    unfold text? Ed.curBuf? at g2
    rw [h.shown, h.changed, hc, h.hist] at g2
    unfold Desk.turn
    dsimp only
    cases hd : d.shown with
    | none => rw [hd] at g2; rw [← h.new]; exact Option.some.inj g2
    | some i =>
      rw [hd] at g2
      dsimp only at g2
      rw [if_neg (by simp)] at g2
      dsimp only
      rw [texts, List.getElem?_map, g2]
      rfl
  rw [e]
  exact h3

/-- Outside searches and lists. -/
structure AtEase (s : Ed) : Prop where
  quiet : s.isSearch = false
  ne : s.noEol = false
  show' : s.showAutosuggestions = true

theorem Lies.to (h : Lies H s d) (hc : d.changed = false) {s1 : Ed} {a b : Option Nat} {c : List Nat}
    (e : s1.history = s.history ∧ s1.newBuf = s.newBuf ∧ s1.histBuf = s.histBuf ∧ s1.histBufValid = s.histBufValid)
    (e1 : s1.curHistoryLoc = a) (e2 : s1.historySubsetLoc = b) (e3 : s1.historySubsetIndex = c)
    (ha : ∀ i, a = some i → i < H.buffers.length) (hb : ∀ i ∈ c, i < H.buffers.length) (hw : ∀ i, b = some i → i < c.length) :
    Lies H s1 { d with shown := a, walk := b, met := c } :=
  ⟨e.1.trans h.hist, e1, e.2.2.2.trans h.changed, by rw [e.2.1]; exact h.new, by rw [e.2.1]; exact h.newLog,
    by rw [e.2.2.1]; exact h.copy, by rw [e.2.2.1]; exact h.copyLog, e3, e2, fun _ => hc, ha, hb, hw⟩

/-- The line to be shown has been chosen. -/
def Chosen (H : History) (e : Desk) (s : Ed) : Prop :=
  AtEase s ∧ ∃ d1, Lies H s d1 ∧ d1.changed = false ∧ d1.turn (texts H) d1.shown = e

theorem chosen {e : Desk} (hc : AtEase s) (h : Lies H s d) (h1 : d.changed = false) (h2 : d.turn (texts H) d.shown = e) :
    Chosen H e s := ⟨hc, d, h, h1, h2⟩

theorem upLoc_desk (hs : AtEase s) (h : Lies H s d) (hc : d.changed = false) :
    Wp moveUpLoc s (fun _ s' => Chosen H (d.up (texts H)) s') (fun _ _ => False) (fun _ => False) := by
  have hlen : (texts H).length = H.buffers.length := by simp [texts]
  have he : texts H = [] ↔ H.buffers = [] := by simp [texts]
  unfold moveUpLoc
  rw [wp_bind, wp_get]
  have hnc : (s.newBuf.numChars > 0) ↔ d.new.text ≠ [] := by
    rw [Buffer.numChars, gt_iff_lt, List.length_pos_iff, h.new]
  unfold Desk.up
  by_cases ht : d.new.text = []
  · rw [if_neg (by rw [hnc]; simpa using ht), if_pos ht, h.shown]
    cases hd : d.shown with
    | some i =>
      have hi := h.loc i hd
      dsimp only
      rw [wp_ite]
      refine ⟨fun hpos => ?_, fun hpos => ?_⟩
      · rw [wp_modify]
        exact chosen ⟨hs.1, hs.2, hs.3⟩ (h.to hc ⟨rfl, rfl, rfl, rfl⟩ rfl h.walk h.met
          (fun j hj => (by cases hj; omega)) h.bound h.within) hc rfl
      · rw [wp_pure]
        obtain rfl : i = 0 := by omega
        exact chosen hs h hc (by rw [hd])
    | none =>
      dsimp only
      rw [wp_ite]
      refine ⟨fun hemp => ?_, fun hemp => ?_⟩
      · rw [wp_pure]
        have : texts H = [] := by rw [he, ← h.hist]; simpa using hemp
        exact chosen hs h hc (by rw [hd, if_pos this])
      · have hne : H.buffers ≠ [] := by rw [← h.hist]; simpa using hemp
        rw [wp_modify, if_neg (by rw [he]; exact hne)]
        exact chosen ⟨hs.1, hs.2, hs.3⟩ (h.to hc ⟨rfl, rfl, rfl, rfl⟩ rfl h.walk h.met
          (fun j hj => (by
            have := List.length_pos_iff.mpr hne
            rw [h.hist] at hj
            cases hj; omega)) h.bound h.within) hc (by rw [hlen, h.hist]; rfl)
  · rw [if_pos (by rw [hnc]; exact ht), if_neg ht, h.walk]
    cases hd : d.walk with
    | some i =>
      have hi := h.within i hd
      dsimp only
      rw [wp_ite]
      refine ⟨fun hpos => ?_, fun hpos => ?_⟩
      · obtain ⟨i, rfl⟩ : ∃ j, i = j + 1 := ⟨i - 1, by omega⟩
        rw [wp_bind, wp_ofOption, h.met]
        refine ⟨fun loc hloc => ?_, fun hn => ?_⟩
        · rw [wp_modify]
          rw [Nat.add_sub_cancel] at hloc
          dsimp only
          rw [hloc]
          exact chosen ⟨hs.1, hs.2, hs.3⟩ (h.to hc ⟨rfl, rfl, rfl, rfl⟩ rfl rfl h.met
            (fun j hj => (by cases hj; exact h.bound _ (List.mem_of_getElem? hloc))) h.bound
            (fun j hj => (by cases hj; omega))) hc rfl
        · rw [List.getElem?_eq_none_iff] at hn; omega
      · rw [wp_pure]
        obtain rfl : i = 0 := by omega
        exact chosen hs h hc rfl
    | none =>
      dsimp only
      have hsub : s.history.getHistorySubset s.newBuf = Desk.meets (texts H) d.new.text := by
        rw [h.hist, meets_subset _ _ (by rw [h.new]; exact ht), h.new]
      have hb : ∀ i ∈ Desk.meets (texts H) d.new.text, i < H.buffers.length := by
        intro i hi
        rw [← hsub] at hi
        have := historySubset_lt hi
        rwa [h.hist] at this
      rw [hsub, wp_bind, wp_modify]
      cases hl : (Desk.meets (texts H) d.new.text).getLast? with
      | none =>
        dsimp only
        rw [wp_pure]
        have := List.getLast?_eq_none_iff.mp hl
        rw [this]
        exact chosen ⟨hs.1, hs.2, hs.3⟩ (h.to (s1 := { s with historySubsetIndex := [] }) (c := []) hc ⟨rfl, rfl, rfl, rfl⟩
          h.shown h.walk rfl h.loc (by simp) (fun j hj => (by rw [hd] at hj; cases hj))) hc (by rw [hd])
      | some loc =>
        dsimp only
        rw [wp_modify]
        have hm := List.mem_of_getLast? hl
        have := List.length_pos_of_mem hm
        exact chosen ⟨hs.1, hs.2, hs.3⟩ (h.to (c := Desk.meets (texts H) d.new.text) hc ⟨rfl, rfl, rfl, rfl⟩ rfl rfl rfl
          (fun j hj => (by cases hj; exact hb _ hm)) hb (fun j hj => (by cases hj; exact Nat.sub_lt this Nat.one_pos))) hc rfl

theorem downLoc_desk (hs : AtEase s) (h : Lies H s d) (hc : d.changed = false) :
    Wp moveDownLoc s (fun _ s' => Chosen H (d.down (texts H)) s') (fun _ _ => False) (fun _ => False) := by
  have hlen : (texts H).length = H.buffers.length := by simp [texts]
  unfold moveDownLoc
  rw [wp_bind, wp_get]
  have hnc : (s.newBuf.numChars > 0) ↔ d.new.text ≠ [] := by
    rw [Buffer.numChars, gt_iff_lt, List.length_pos_iff, h.new]
  unfold Desk.down
  by_cases ht : d.new.text = []
  · rw [if_neg (by rw [hnc]; simpa using ht), if_pos ht, h.shown]
    cases hd : d.shown with
    | some i =>
      have hi := h.loc i hd
      dsimp only
      rw [h.hist, if_neg (by omega), wp_ite, hlen]
      refine ⟨fun hpos => ?_, fun hpos => ?_⟩
      · rw [wp_modify, if_pos (by omega)]
        exact chosen ⟨hs.1, hs.2, hs.3⟩ (h.to hc ⟨rfl, rfl, rfl, rfl⟩ rfl h.walk h.met
          (fun j hj => (by cases hj; omega)) h.bound h.within) hc rfl
      · rw [wp_modify, if_neg (by omega)]
        exact chosen ⟨hs.1, hs.2, hs.3⟩ (h.to hc ⟨rfl, rfl, rfl, rfl⟩ rfl h.walk h.met
          (fun j hj => (by cases hj)) h.bound h.within) hc rfl
    | none =>
      dsimp only
      rw [wp_modify]
      exact chosen ⟨hs.1, hs.2, hs.3⟩ (h.to hc ⟨rfl, rfl, rfl, rfl⟩ rfl h.walk h.met
          (fun j hj => (by cases hj)) h.bound h.within) hc rfl
  · rw [if_pos (by rw [hnc]; exact ht), if_neg ht, h.walk]
    cases hd : d.walk with
    | some i =>
      have hi := h.within i hd
      dsimp only
      rw [h.met, if_neg (by omega), wp_ite]
      refine ⟨fun hpos => ?_, fun hpos => ?_⟩
      · rw [wp_bind, wp_ofOption, if_pos (by omega)]
        refine ⟨fun loc hloc => ?_, fun hn => ?_⟩
        · rw [wp_modify, hloc]
          exact chosen ⟨hs.1, hs.2, hs.3⟩ (h.to hc ⟨rfl, rfl, rfl, rfl⟩ rfl rfl h.met
            (fun j hj => (by cases hj; exact h.bound _ (List.mem_of_getElem? hloc))) h.bound
            (fun j hj => (by cases hj; omega))) hc rfl
        · rw [List.getElem?_eq_none_iff] at hn; omega
      · rw [wp_modify, if_neg (by omega)]
        exact chosen ⟨hs.1, hs.2, hs.3⟩ (h.to hc ⟨rfl, rfl, rfl, rfl⟩ rfl rfl rfl
          (fun j hj => (by cases hj)) (by simp) (fun j hj => (by cases hj))) hc rfl
    | none =>
      dsimp only
      rw [wp_pure]
      exact chosen hs h hc rfl

theorem OnDesk.calm (h : OnDesk H k s d) : AtEase s := ⟨h.1.here.quiet, h.1.here.ne, h.1.show'⟩

theorem OnDesk.left (h : OnDesk H k s d) : Lies H { s with histBufValid := false } { d with changed := false } :=
  ⟨h.2.hist, h.2.shown, rfl, h.2.new, h.2.newLog, h.2.copy, h.2.copyLog, h.2.met, h.2.walk, fun _ => rfl, h.2.loc, h.2.bound,
    h.2.within⟩

theorem chosen_end {e : Desk} (h : Chosen H e s) (hk : k'.lastArgFetchIndex = none) :
    Wp (moveCursorToEndOfLine E) s (fun _ s' => OnDesk H k' s' e) (fun _ _ => True) (· ≠ .op) := by
  obtain ⟨hs, d1, h1, h2, h3⟩ := h
  rw [← h3]
  exact turn_desk E h1 h2 hs.1 hs.2 hs.3 hk

theorem up_desk (hH : H.share = false) (h : OnDesk H k s d) (hk : k'.lastArgFetchIndex = none) :
    Wp (moveUp E) s (fun _ s' => OnDesk H k' s' (d.up (texts H))) (fun _ _ => True) (· ≠ .op) := by
  unfold moveUp
  rw [wp_bind, wp_get, h.calm.quiet, if_neg (by simp), wp_bind, wp_modify, wp_bind, freshenHistory, wp_modify,
    if_neg (by simp [h.2.hist, hH]), wp_bind]
  exact wp_mono (upLoc_desk (s := { s with histBufValid := false }) ⟨h.calm.1, h.calm.2, h.calm.3⟩ h.left rfl)
    (fun _ _ h' => chosen_end E h' hk) (fun _ _ h => h.elim) (fun _ h => h.elim)

theorem down_desk (h : OnDesk H k s d) (hk : k'.lastArgFetchIndex = none) :
    Wp (moveDown E) s (fun _ s' => OnDesk H k' s' (d.down (texts H))) (fun _ _ => True) (· ≠ .op) := by
  unfold moveDown
  rw [wp_bind, wp_get, h.calm.quiet, if_neg (by simp), wp_bind, wp_modify, wp_bind]
  exact wp_mono (downLoc_desk (s := { s with histBufValid := false }) ⟨h.calm.1, h.calm.2, h.calm.3⟩ h.left rfl)
    (fun _ _ h' => chosen_end E h' hk) (fun _ _ h => h.elim) (fun _ h => h.elim)

/-- The new line is shown again. -/
theorem redraw_desk (h : OnDesk H k s d) (hd : d.shown = none) (hk : k'.lastArgFetchIndex = none) :
    Wp (display E) s (fun _ s' => OnDesk H k' s' { d with arg := none }) (fun _ _ => True) (· ≠ .op) := by
  have hc := h.2.clean hd
  refine wp_mono (wp_and (wp_and (display_sets E h.1.here (Side.refl s)) (display_navSame E h.calm.quiet)) (bs_display E s h.calm.quiet))
    (fun _ s' h' => ?_) (fun _ _ _ => trivial) (fun _ h => h.1.1)
  obtain ⟨⟨h3, h4⟩, h5⟩ := h'
  have hl := h.2.same h4 h5 hc
  exact (⟨hl.hist, hl.shown, hl.changed, hl.new, hl.newLog, hl.copy, hl.copyLog, hl.met, hl.walk, hl.clean, hl.loc,
      hl.bound, hl.within⟩ : Lies H s' { d with arg := none }).on (s' := s) h3 h.calm.show' hk rfl

theorem same_valid (h : OnDesk H k s d) (hd : d.shown = none) : ({ s with histBufValid := false } : Ed) = s := by
  have := h.2.changed.trans (h.2.clean hd)
  cases s
  dsimp only at this
  rw [this]

theorem oldest_desk (h : OnDesk H k s d) (hk : k'.lastArgFetchIndex = none) :
    Wp (moveToStartOfHistory E) s (fun _ s' => OnDesk H k' s' (d.oldest (texts H))) (fun _ _ => True) (· ≠ .op) := by
  have he : texts H = [] ↔ H.buffers = [] := by simp [texts]
  unfold moveToStartOfHistory Desk.oldest
  rw [wp_bind, wp_modify, wp_bind, wp_get, wp_ite]
  refine ⟨fun hemp => ?_, fun hemp => ?_⟩
  · have hb : H.buffers = [] := by rw [← h.2.hist]; simpa using hemp
    have hd : d.shown = none := by
      cases hd : d.shown with
      | none => rfl
      | some i => have := h.2.loc i hd; rw [hb] at this; simp at this
    rw [wp_bind, wp_modify, if_pos (he.mpr hb), same_valid h hd]
    rw [show ({ s with curHistoryLoc := none } : Ed) = s from by
      have := h.2.shown.trans hd
      cases s
      dsimp only at this
      rw [this]]
    exact redraw_desk E h hd hk
  · have hb : H.buffers ≠ [] := by rw [← h.2.hist]; simpa using hemp
    rw [wp_bind, wp_modify, if_neg (by rw [he]; exact hb)]
    exact chosen_end E (chosen ⟨h.calm.1, h.calm.2, h.calm.3⟩ (h.left.to rfl ⟨rfl, rfl, rfl, rfl⟩ rfl h.2.walk h.2.met
      (fun j hj => (by cases hj; exact List.length_pos_iff.mpr hb)) h.2.bound h.2.within) rfl rfl) hk

theorem newest_desk (h : OnDesk H k s d) (hk : k'.lastArgFetchIndex = none) :
    Wp (moveToEndOfHistory E) s (fun _ s' => OnDesk H k' s' (d.newest (texts H))) (fun _ _ => True) (· ≠ .op) := by
  unfold moveToEndOfHistory Desk.newest
  rw [wp_bind, wp_modify, wp_bind, wp_get, wp_ite]
  refine ⟨fun hsome => ?_, fun hsome => ?_⟩
  · have hd : d.shown ≠ none := by
      rw [← h.2.shown]
      intro hn
      rw [show ({ s with histBufValid := false } : Ed).curHistoryLoc = none from hn] at hsome
      cases hsome
    rw [wp_bind, wp_modify, if_neg hd]
    exact chosen_end E (chosen ⟨h.calm.1, h.calm.2, h.calm.3⟩ (h.left.to rfl ⟨rfl, rfl, rfl, rfl⟩ rfl h.2.walk h.2.met
      (fun j hj => (by cases hj)) h.2.bound h.2.within) rfl rfl) hk
  · have hd : d.shown = none := by
      rw [← h.2.shown]
      simpa using hsome
    rw [if_pos hd, same_valid h hd]
    exact redraw_desk E h hd hk

/-- The line shown is changed. -/
theorem write_desk {q : Sheet} {t c touch : Bool} (h : OnDesk H k s d) (hq : Held H k' s' q) (hb : Beside t c s s')
    (ht : d.past ≠ [] → t = touch) (hp : touch = false → q.past = d.past) : OnDesk H k' s' (d.write touch c q) := by
  obtain ⟨w, g1, g2, g3⟩ := hq.log
  have hv : s'.histBufValid = (decide (d.shown ≠ none) && (d.changed || touch)) := by
    rw [hb.valid, h.2.shown, h.2.changed]
    cases hd : d.shown with
    | none => simp [h.2.clean hd]
    | some i =>
      cases hc : d.changed with
      | true => simp
      | false =>
        rw [ht (by simp [Desk.past, hd, hc])]
        simp
  have hs : (d.write touch c q).sheet = q := by
    unfold Desk.sheet Desk.past Desk.write
    dsimp only
    cases hd : d.shown with
    | none => simp
    | some i =>
      cases hc : (d.changed || touch) with
      | true => simp
      | false =>
        simp only [Bool.or_eq_false_iff] at hc
        have := hp hc.2
        simp only [Desk.past, hd, hc.1, reduceCtorEq, Bool.false_eq_true, if_false] at this
        simp [← this]
  refine ⟨by rw [hs]; exact hq, ?_⟩
  have hloc : s'.curHistoryLoc = d.shown := hb.loc.trans h.2.shown
  refine ⟨hq.hist, hloc, hv, ?_, ?_, ?_, ?_, ?_, ?_, ?_, h.2.loc, ?_, ?_⟩
  · unfold Desk.write
    cases hd : d.shown with
    | none =>
      unfold workBuf at g1
      rw [hloc, hd] at g1
      cases g1
      exact g2
    | some i =>
      rw [hb.new (by rw [h.2.shown, hd]; simp)]
      exact h.2.new
  · unfold Desk.write
    cases hd : d.shown with
    | none =>
      unfold workBuf at g1
      rw [hloc, hd] at g1
      cases g1
      exact g3
    | some i =>
      rw [hb.new (by rw [h.2.shown, hd]; simp)]
      exact h.2.newLog
  · unfold Desk.write
    dsimp only
    by_cases hx : d.shown ≠ none ∧ (d.changed || touch) = true
    · rw [if_pos hx]
      rw [hx.2, Bool.and_true, decide_eq_true hx.1] at hv
      obtain ⟨i, hi⟩ := Option.ne_none_iff_exists'.mp hx.1
      unfold workBuf at g1
      rw [hloc, hi, hv] at g1
      cases g1
      exact g2
    · rw [if_neg hx]
      rw [hb.copy (by rw [hv]; rw [Bool.eq_false_iff]; simpa using hx)]
      exact h.2.copy
  · unfold Desk.write
    dsimp only
    by_cases hx : d.shown ≠ none ∧ (d.changed || touch) = true
    · rw [if_pos hx]
      rw [hx.2, Bool.and_true, decide_eq_true hx.1] at hv
      obtain ⟨i, hi⟩ := Option.ne_none_iff_exists'.mp hx.1
      unfold workBuf at g1
      rw [hloc, hi, hv] at g1
      cases g1
      exact g3
    · rw [if_neg hx]
      rw [hb.copy (by rw [hv]; rw [Bool.eq_false_iff]; simpa using hx)]
      exact h.2.copyLog
  · rw [hb.met, h.2.met]; rfl
  · rw [hb.walk, h.2.walk]; rfl
  · intro hd
    have hd : d.shown = none := hd
    simp [Desk.write, hd]
  · intro i hi
    unfold Desk.write at hi
    dsimp only at hi
    split at hi
    · simp at hi
    · exact h.2.bound i hi
  · intro i hi
    unfold Desk.write at hi ⊢
    dsimp only at hi ⊢
    split at hi
    · cases hi
    · rename_i hc
      rw [if_neg hc]
      exact h.2.within i hi

theorem OnDesk.sug (h : OnDesk H k s d) : sugText s = d.suggestion (texts H) := by
  unfold Desk.suggestion
  cases hd : d.shown with
  | none =>
    rw [if_pos rfl]
    exact hint_of (h.1.new (h.2.shown.trans hd)).suggests
  | some i =>
    rw [if_neg (by simp), h.1.entry (h.2.shown.trans hd), h.2.changed]
    rfl

theorem OnDesk.listed (h : OnDesk H k s d) (c : Option (List Text × Option Nat)) (n : Nat) :
    OnDesk H k { s with showCompletionsHint := c, tick := n } d :=
  ⟨h.1.listed c n, h.2.1, h.2.2, h.2.3, h.2.4, h.2.5, h.2.6, h.2.7, h.2.8, h.2.9, h.2.10, h.2.11, h.2.12, h.2.13⟩

theorem OnDesk.wrote (h : OnDesk H k s d) (n : Nat) : OnDesk H k { s with showCompletionsHint := none, tick := n } d :=
  h.listed none n

/-- One key. -/
theorem desk_step (hw : E.words = getBufferWords) (hH : H.share = false) (h : OnDesk H k s d) (hl : Desk.leaves key = false)
    (hd : ¬ (key = .ctrl 'd' ∧ d.text = [])) :
    Wp (Emacs.keyMap.handleKey E comp key) (k, s)
      (fun done t' => done = false ∧ ∃ e, d.Next (texts H) key e ∧ OnDesk H t'.1 t'.2 e) (fun _ _ => True) (· ≠ .op) := by
  have nav : ∀ {m : EdM Unit} {e : Desk} {key' : Key}, key = key' →
      KeyMap.translate key' ∉ [.ctrl 'c', .char '\t', .char '\n', .ctrl 'r', .ctrl 's', .alt '.', .ctrl 'd', .ctrl 'f', .right] →
      Emacs.handleKeyBody E (KeyMap.translate key') = ed m →
      (∀ k' : Emacs, k'.lastArgFetchIndex = none → Wp m s (fun _ s' => OnDesk H k' s' e) (fun _ _ => True) (· ≠ .op)) →
      d.Next (texts H) key e →
      Wp (Emacs.keyMap.handleKey E comp key) (k, s)
        (fun done t' => done = false ∧ ∃ e, d.Next (texts H) key e ∧ OnDesk H t'.1 t'.2 e) (fun _ _ => True) (· ≠ .op) := by
    rintro m e key' rfl h1 h2 h3 h4
    simp only [List.mem_cons, List.not_mem_nil, or_false, not_or] at h1
    refine key_body E comp h.1 (Q := fun k s => ∃ e, d.Next (texts H) key e ∧ OnDesk H k s e)
      (fun k s n ⟨e, h5, h6⟩ => ⟨e, h5, h6.wrote n⟩) (by simp [h1]) (by simp [h1]) (by simp [h1]) fun k' hk' => ?_
    rw [h2, wp_ed]
    exact wp_mono (h3 k' hk') (fun _ s' h' => ⟨e, h4, h'⟩) (fun _ _ h => h) (fun _ h => h)
  have hN : ∀ e, d.Next (texts H) key e ↔ if key = .up ∨ key = .ctrl 'p' then e = d.up (texts H)
      else if key = .down ∨ key = .ctrl 'n' then e = d.down (texts H)
      else if key = .alt '<' then e = d.oldest (texts H)
      else if key = .alt '>' then e = d.newest (texts H)
      else ∃ q, d.sheet.Does (texts H) (d.suggestion (texts H)) d.shown key q ∧
        e = d.write (Sheet.touches key d.sheet q) (d.sheet.clears (d.suggestion (texts H)) key) q := fun _ => Iff.rfl
  by_cases c1 : key = .up ∨ key = .ctrl 'p'
  · refine nav (e := d.up (texts H)) rfl ?_ (m := moveUp E) ?_ (fun k' hk' => up_desk E hH h hk') (by rw [hN, if_pos c1])
    all_goals rcases c1 with rfl | rfl <;> first | rfl | decide
  by_cases c2 : key = .down ∨ key = .ctrl 'n'
  · refine nav (e := d.down (texts H)) rfl ?_ (m := moveDown E) ?_ (fun k' hk' => down_desk E h hk') (by rw [hN, if_neg c1, if_pos c2])
    all_goals rcases c2 with rfl | rfl <;> first | rfl | decide
  by_cases c3 : key = .alt '<'
  · refine nav (e := d.oldest (texts H)) c3 (by decide) (m := moveToStartOfHistory E) rfl (fun k' hk' => oldest_desk E h hk') ?_
    rw [hN, if_neg c1, if_neg c2, if_pos c3]
  by_cases c4 : key = .alt '>'
  · refine nav (e := d.newest (texts H)) c4 (by decide) (m := moveToEndOfHistory E) rfl (fun k' hk' => newest_desk E h hk') ?_
    rw [hN, if_neg c1, if_neg c2, if_neg c3, if_pos c4]
  have hl' : Sheet.leaves key = false := by
    cases key with
    | char c => exact hl
    | ctrl c =>
      simp only [Desk.leaves, Sheet.leaves, decide_eq_false_iff_not, List.mem_cons, List.not_mem_nil, or_false, not_or] at hl ⊢
      simp only [reduceCtorEq, Key.ctrl.injEq, false_or] at c1 c2
      exact ⟨hl.1, c1, c2, hl.2⟩
    | alt c =>
      simp only [Key.alt.injEq] at c3 c4
      simp [Sheet.leaves, c3, c4]
    | up => simp at c1
    | down => simp at c2
    | _ => rfl
  refine wp_mono (key_step E comp hw h.1 hl' hd) (fun done t' h' => ?_) (fun _ _ h => h) (fun _ h => h)
  obtain ⟨rfl, q, t, h1, h2, h3, h4⟩ := h'
  rw [h.sug, h.2.shown] at h1
  rw [h.sug] at h3
  refine ⟨rfl, _, by rw [hN, if_neg c1, if_neg c2, if_neg c3, if_neg c4]; exact ⟨q, h1, rfl⟩, write_desk h h2 h3 h4 fun ht => ?_⟩
  unfold Sheet.touches at ht
  simp only [Bool.or_eq_false_iff, decide_eq_false_iff_not, not_not] at ht
  exact ht.1.1

end
end Props
end Liner
