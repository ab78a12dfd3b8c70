import Verif.Spec.Rack
import Verif.Proof.ViRead
import Verif.Proof.Desk
import Verif.Proof.Hunt
/-
The vi keys on the new line and on the entries of the history.
-/

namespace Liner
namespace Vi
open Liner.Spec Liner.Editor Liner.Props M KM

/-- The editor is at the place that the shelf says, `nb` being the new line behind an entry and `hb` the copy of
another entry. -/
def OnShelf (H : History) (f : Shelf) (nb hb : Buffer) (s : Ed) : Prop :=
  s.history = H ∧ s.curHistoryLoc = f.shown ∧ s.historySubsetLoc = f.walk ∧ s.historySubsetIndex = f.met ∧
  (f.shown ≠ none → s.newBuf = nb) ∧ (s.histBufValid = false ∨ f.shown = none → s.histBuf = hb)

/-- This is kept by everything that does not lead to another line. -/
abbrev onShelf (H : History) (f : Shelf) (nb hb : Buffer) : Around where
  ok := OnShelf H f nb hb
  still h ho := ⟨h.history.trans ho.1, h.loc.trans ho.2.1, h.walk.trans ho.2.2.1, h.met.trans ho.2.2.2.1,
    fun hs => (h.new (by rw [ho.2.1]; exact hs)).trans (ho.2.2.2.2.1 hs), fun hs =>
      (h.copy (hs.imp id fun hs => by rw [ho.2.1]; exact hs)).trans (ho.2.2.2.2.2 (hs.imp h.copied id))⟩
  enters := f.walk = none ∧ f.met = []
  quiet h _ ho := ⟨ho.1, ho.2.1, h.1.symm, h.2.symm, ho.2.2.2.2⟩

/-- The places are places of the history. -/
structure Fine (H : History) (f : Shelf) : Prop where
  loc : ∀ i, f.shown = some i → i < H.buffers.length
  bound : ∀ i ∈ f.met, i < H.buffers.length
  within : ∀ i, f.walk = some i → i < f.met.length

/-- Another line has been chosen. -/
structure Placed (H : History) (f : Shelf) (nb hb : Buffer) (s0 s : Ed) : Prop where
  hist : s.history = H
  shown : s.curHistoryLoc = f.shown
  walk : s.historySubsetLoc = f.walk
  met : s.historySubsetIndex = f.met
  new : s.newBuf = nb
  copy : s.histBuf = hb
  valid : s.histBufValid = false
  quiet : s.isSearch = s0.isSearch
  noEol : s.noEol = s0.noEol
  fine : Fine H f

/-- The new line behind an entry and the copy are as the shelf says. -/
structure Laid (f : Shelf) (nb hb : Buffer) : Prop where
  new : nb.data = f.new.text
  newPast : Past f.new.full f.new.past (nb.data, nb.actions)
  copy : hb.data = f.copy.text
  copyPast : Past f.copy.full f.copy.past (hb.data, hb.actions)

section
variable (E : Env) {H : History} {f f' : Shelf} {nb hb : Buffer} {s s0 s' : Ed}

theorem upLoc_shelf (h : Placed H f nb hb s0 s) (hn : nb.data = f.new.text) :
    Wp moveUpLoc s (fun _ s' => Placed H (f.up (texts H)) nb hb s0 s') (fun _ _ => False) (fun _ => False) := by
  have hlen : (texts H).length = H.buffers.length := by simp [texts]
  have he : texts H = [] ↔ H.buffers = [] := by simp [texts]
  unfold moveUpLoc
  rw [wp_bind, wp_get]
  have hnc : (s.newBuf.numChars > 0) ↔ f.new.text ≠ [] := by
    rw [Buffer.numChars, gt_iff_lt, List.length_pos_iff, h.new, hn]
  unfold Shelf.up
  by_cases ht : f.new.text = []
  · rw [if_neg (by rw [hnc]; simpa using ht), if_pos ht, h.shown]
    cases hd : f.shown with
    | some i =>
      have hi := h.fine.loc i hd
      dsimp only
      rw [wp_ite]
      refine ⟨fun hpos => ?_, fun hpos => ?_⟩
      · rw [wp_modify]
        exact ⟨h.hist, rfl, h.walk, h.met, h.new, h.copy, h.valid, h.quiet, h.noEol, fun j hj => (by cases hj; omega), h.fine.bound, h.fine.within⟩
      · rw [wp_pure]
        obtain rfl : i = 0 := by omega
        exact ⟨h.hist, h.shown.trans hd, h.walk, h.met, h.new, h.copy, h.valid, h.quiet, h.noEol, fun j hj => (by cases hj; exact hi), h.fine.bound,
          h.fine.within⟩
    | none =>
      dsimp only
      rw [wp_ite]
      refine ⟨fun hemp => ?_, fun hemp => ?_⟩
      · rw [wp_pure]
        have : texts H = [] := by rw [he, ← h.hist]; simpa using hemp
        rw [if_pos this]
        exact ⟨h.hist, h.shown.trans hd, h.walk, h.met, h.new, h.copy, h.valid, h.quiet, h.noEol, fun j hj => (by cases hj), h.fine.bound,
          h.fine.within⟩
      · have hne : H.buffers ≠ [] := by rw [← h.hist]; simpa using hemp
        rw [wp_modify, if_neg (by rw [he]; exact hne)]
        have := List.length_pos_iff.mpr hne
        exact ⟨h.hist, by rw [hlen, h.hist], h.walk, h.met, h.new, h.copy, h.valid, h.quiet, h.noEol,
          fun j hj => (by cases hj; rw [hlen]; omega), h.fine.bound, h.fine.within⟩
  · rw [if_pos (by rw [hnc]; exact ht), if_neg ht, h.walk]
    cases hd : f.walk with
    | some i =>
      have hi := h.fine.within i hd
      dsimp only
      rw [wp_ite]
      refine ⟨fun hpos => ?_, fun hpos => ?_⟩
      · obtain ⟨i, rfl⟩ : ∃ j, i = j + 1 := ⟨i - 1, by omega⟩
        rw [wp_bind, wp_ofOption, h.met]
        refine ⟨fun loc hloc => ?_, fun hn => ?_⟩
        · rw [wp_modify]
          rw [Nat.add_sub_cancel] at hloc
          dsimp only
          rw [hloc]
          exact ⟨h.hist, rfl, rfl, h.met, h.new, h.copy, h.valid, h.quiet, h.noEol,
            fun j hj => (by cases hj; exact h.fine.bound _ (List.mem_of_getElem? hloc)), h.fine.bound,
            fun j hj => (by cases hj; dsimp only; omega)⟩
        · rw [List.getElem?_eq_none_iff] at hn; omega
      · rw [wp_pure]
        obtain rfl : i = 0 := by omega
        exact h
    | none =>
      dsimp only
      have hsub : s.history.getHistorySubset s.newBuf = Desk.meets (texts H) f.new.text := by
        rw [h.hist, meets_subset _ _ (by rw [h.new, hn]; exact ht), h.new, hn]
      have hb : ∀ i ∈ Desk.meets (texts H) f.new.text, i < H.buffers.length := by
        intro i hi
        rw [← hsub] at hi
        have := historySubset_lt hi
        rwa [h.hist] at this
      rw [hsub, wp_bind, wp_modify]
      cases hl : (Desk.meets (texts H) f.new.text).getLast? with
      | none =>
        dsimp only
        rw [wp_pure]
        have := List.getLast?_eq_none_iff.mp hl
        rw [this]
        exact ⟨h.hist, h.shown, h.walk.trans hd, rfl, h.new, h.copy, h.valid, h.quiet, h.noEol, h.fine.loc, by simp, fun j hj => (by cases hj)⟩
      | some loc =>
        dsimp only
        rw [wp_modify]
        have hm := List.mem_of_getLast? hl
        have := List.length_pos_of_mem hm
        exact ⟨h.hist, rfl, rfl, rfl, h.new, h.copy, h.valid, h.quiet, h.noEol, fun j hj => (by cases hj; exact hb _ hm), hb,
          fun j hj => (by cases hj; exact Nat.sub_lt this Nat.one_pos)⟩

theorem downLoc_shelf (h : Placed H f nb hb s0 s) (hn : nb.data = f.new.text) :
    Wp moveDownLoc s (fun _ s' => Placed H (f.down (texts H)) nb hb s0 s') (fun _ _ => False) (fun _ => False) := by
  have hlen : (texts H).length = H.buffers.length := by simp [texts]
  unfold moveDownLoc
  rw [wp_bind, wp_get]
  have hnc : (s.newBuf.numChars > 0) ↔ f.new.text ≠ [] := by
    rw [Buffer.numChars, gt_iff_lt, List.length_pos_iff, h.new, hn]
  unfold Shelf.down
  by_cases ht : f.new.text = []
  · rw [if_neg (by rw [hnc]; simpa using ht), if_pos ht, h.shown]
    cases hd : f.shown with
    | some i =>
      have hi := h.fine.loc i hd
      dsimp only
      rw [h.hist, if_neg (by omega), wp_ite, hlen]
      refine ⟨fun hpos => ?_, fun hpos => ?_⟩
      · rw [wp_modify, if_pos (by omega)]
        exact ⟨h.hist, rfl, h.walk, h.met, h.new, h.copy, h.valid, h.quiet, h.noEol, fun j hj => (by cases hj; omega), h.fine.bound, h.fine.within⟩
      · rw [wp_modify, if_neg (by omega)]
        exact ⟨h.hist, rfl, h.walk, h.met, h.new, h.copy, h.valid, h.quiet, h.noEol, fun j hj => (by cases hj), h.fine.bound, h.fine.within⟩
    | none =>
      dsimp only
      rw [wp_modify]
      exact ⟨h.hist, hd.symm, h.walk, h.met, h.new, h.copy, h.valid, h.quiet, h.noEol, h.fine.loc, h.fine.bound, h.fine.within⟩
  · rw [if_pos (by rw [hnc]; exact ht), if_neg ht, h.walk]
    cases hd : f.walk with
    | some i =>
      have hi := h.fine.within i hd
      dsimp only
      rw [h.met, if_neg (by omega), wp_ite]
      refine ⟨fun hpos => ?_, fun hpos => ?_⟩
      · rw [wp_bind, wp_ofOption, if_pos (by omega)]
        refine ⟨fun loc hloc => ?_, fun hn => ?_⟩
        · rw [wp_modify, hloc]
          exact ⟨h.hist, rfl, rfl, h.met, h.new, h.copy, h.valid, h.quiet, h.noEol,
            fun j hj => (by cases hj; exact h.fine.bound _ (List.mem_of_getElem? hloc)), h.fine.bound,
            fun j hj => (by cases hj; dsimp only; omega)⟩
        · rw [List.getElem?_eq_none_iff] at hn; omega
      · rw [wp_modify, if_neg (by omega)]
        exact ⟨h.hist, rfl, rfl, rfl, h.new, h.copy, h.valid, h.quiet, h.noEol, fun j hj => (by cases hj), by simp, fun j hj => (by cases hj)⟩
    | none =>
      dsimp only
      rw [wp_pure]
      exact h

theorem Placed.ok (h : Placed H f nb hb s0 s) : OnShelf H f nb hb s := ⟨h.hist, h.shown, h.walk, h.met, fun _ => h.new, fun _ => h.copy⟩

/-- The copy of an entry: two changes. -/
theorem copy_past (hb b : Buffer) : ∃ w, hb.copyBuffer b = some w ∧ w.data = b.data ∧
    ∀ full ps, Past full ps (hb.data, hb.actions) → Past full ([] :: hb.data :: ps) (w.data, w.actions) := by
  have h1 := Buffer.remove_eq hb 0 hb.data.length ⟨by omega, by omega⟩
  simp only [Buffer.copyBuffer, h1]
  simp only [List.take_zero, List.drop_length, List.append_nil]
  rw [Buffer.insert_eq _ 0 b.data (by simp)]
  refine ⟨_, rfl, by simp, fun full ps h => ?_⟩
  refine ⟨(by simp), ([], Action.remove 0 hb.data :: hb.actions), ?_, rfl, (by simp), (hb.data, hb.actions), ?_, rfl, h⟩
  · simp [undone, Buffer.undoCut, undoAll, Action.undo, Buffer.undoNest, Buffer.undoCount, removeRaw]
  · simp [undone, Buffer.undoCut, undoAll, Action.undo, Buffer.undoNest, Buffer.undoCount]
    rw [show insertRaw [] 0 hb.data = some hb.data by rw [insertRaw_eq _ _ _ (by simp)]; simp]

/-- The line shown, its text and its log. -/
theorem Placed.work (h : Placed H f nb hb s0 s) (hl : Laid f nb hb) :
    ∃ w, workBuf s = some w ∧ text? s = some (f.leaf (texts H)).text ∧ w.data = (f.leaf (texts H)).text ∧
      Past (f.leaf (texts H)).full (f.leaf (texts H)).past (w.data, w.actions) := by
  unfold workBuf text? Ed.curBuf? Shelf.leaf
  rw [h.shown, h.valid, h.hist, h.new, h.copy]
  cases hd : f.shown with
  | none => exact ⟨nb, rfl, by rw [← hl.new]; rfl, hl.new, hl.newPast⟩
  | some i =>
    have hi := h.fine.loc i hd
    obtain ⟨w, h1, h2, h3⟩ := copy_past hb H.buffers[i]
    refine ⟨w, by simpa [List.getElem?_eq_getElem hi] using h1, by simp [texts, List.getElem?_eq_getElem hi],
      by simp [texts, List.getElem?_eq_getElem hi, h2], ?_⟩
    have := h3 f.copy.full f.copy.past hl.copyPast
    rw [hl.copy] at this
    exact this

/-- The line shown is put on the shelf. -/
theorem placed_of {nb' hb' : Buffer} (hs : OnShelf H f nb hb s) (hf : Fine H f) {l : Leaf} (hg : f' = { f with new := l } ∨ f' = { f with copy := l } ∨ f' = f)
    (hn : s.newBuf = nb') (hh : s.histBuf = hb') : Placed H f' nb' hb' s { s with histBufValid := false } := by
  rcases hg with rfl | rfl | rfl <;> exact ⟨hs.1, hs.2.1, hs.2.2.1, hs.2.2.2.1, hn, hh, rfl, rfl, rfl, hf.1, hf.2, hf.3⟩

/-- The line that is shown next. -/
def next (up : Bool) (H : History) (f : Shelf) : Shelf := if up then f.up (texts H) else f.down (texts H)

def turning (up : Bool) : EdM Unit := if up then moveUp E else moveDown E

theorem next_new (up : Bool) (H : History) (f : Shelf) : (next up H f).new = f.new := by
  unfold next Shelf.up Shelf.down
  cases up <;> dsimp only <;> (repeat' split) <;> rfl

theorem next_copy (up : Bool) (H : History) (f : Shelf) : (next up H f).copy = f.copy := by
  unfold next Shelf.up Shelf.down
  cases up <;> dsimp only <;> (repeat' split) <;> rfl

theorem Laid.next (h : Laid f nb hb) (up : Bool) (H : History) : Laid (next up H f) nb hb :=
  ⟨by rw [next_new]; exact h.new, by rw [next_new]; exact h.newPast, by rw [next_copy]; exact h.copy, by rw [next_copy]; exact h.copyPast⟩

theorem turning_shelf {e up : Bool} (hu : H.share = false) (h : Placed H f nb hb s { s with histBufValid := false })
    (hq : s.isSearch = false) (he : s.noEol = e) (hl : Laid f nb hb) :
    Wp (turning E up) s (fun _ s' => Placed H (next up H f) nb hb s s' ∧
      @Open (onShelf H (next up H f) nb hb) e s' (rest e ((next up H f).leaf (texts H)).text []).1
        (rest e ((next up H f).leaf (texts H)).text []).2) (fun _ _ => True) (· ≠ .op) := by
  have hsh : s.history.share = false := by rw [show s.history = H from h.hist]; exact hu
  have key : ∀ m : EdM Unit, Wp m { s with histBufValid := false } (fun _ s' => Placed H (next up H f) nb hb s s')
      (fun _ _ => False) (fun _ => False) → Wp (do m; moveCursorToEndOfLine E) { s with histBufValid := false } (fun _ s' => Placed H (next up H f) nb hb s s' ∧
      @Open (onShelf H (next up H f) nb hb) e s' (rest e ((next up H f).leaf (texts H)).text []).1
        (rest e ((next up H f).leaf (texts H)).text []).2) (fun _ _ => True) (· ≠ .op) := by
    intro m hm
    rw [wp_bind]
    refine wp_mono hm (fun _ s1 h1 => ?_) (fun _ _ h => h.elim) (fun _ h => h.elim)
    obtain ⟨w, g1, g2, g3, g4⟩ := h1.work (hl.next up H)
    refine wp_mono (wp_and (@end_sets' (onShelf H (next up H f) nb hb) E e s1 s1 _ (h1.quiet.trans hq) (h1.noEol.trans he) h1.ok g2 (Side.refl s1))
      (end_navSame E (h1.quiet.trans hq))) (fun _ s2 h2 => ?_) (fun _ _ _ => trivial) (fun _ h => h.1)
    obtain ⟨h2, n⟩ := h2
    have h3 := @Settled.here (onShelf H (next up H f) nb hb) _ _ _ _ _ h2
    have h4 : OnShelf H (next up H f) nb hb s2 := @Open.around (onShelf H (next up H f) nb hb) _ _ _ _ h3
    exact ⟨⟨n.history.trans h1.hist, n.loc.trans h1.shown, n.subLoc.trans h1.walk, n.sub.trans h1.met, n.newBuf.trans h1.new,
      h4.2.2.2.2.2 (.inl (n.valid.trans h1.valid)),
      n.valid.trans h1.valid, n.search.trans h1.quiet, n.noEol.trans h1.noEol, h1.fine⟩, h3⟩
  cases up
  · show Wp (moveDown E) s _ _ _
    unfold moveDown
    rw [wp_bind, wp_get, hq, if_neg (by simp), wp_bind, wp_modify]
    exact key _ (downLoc_shelf h hl.new)
  · show Wp (moveUp E) s _ _ _
    unfold moveUp
    rw [wp_bind, wp_get, hq, if_neg (by simp), wp_bind, wp_modify, wp_bind, freshenHistory, wp_modify, if_neg (by simp [hsh])]
    exact key _ (upLoc_shelf h hl.new)

/-- What follows at the board. -/
theorem turn_core {v : Vi} {up : Bool} (hu : H.share = false) (hv : v.modeStack = []) (h : Placed H f nb hb s { s with histBufValid := false })
    (hq : s.isSearch = false) (he : s.noEol = true) (hl : Laid f nb hb) :
    Wp (do ed (turning E up); popModeAfterMovement E false : ViM Unit) (v, s) (fun _ t' => t'.1 = popAfter v ∧
      @Open (onShelf H (next up H f) nb hb) true t'.2 (rest true ((next up H f).leaf (texts H)).text []).1
        (rest true ((next up H f).leaf (texts H)).text []).2 ∧ Fine H (next up H f) ∧
      ∃ w, workBuf t'.2 = some w ∧ w.data = ((next up H f).leaf (texts H)).text ∧
        Past ((next up H f).leaf (texts H)).full ((next up H f).leaf (texts H)).past (w.data, w.actions)) T2 (· ≠ .op) := by
  rw [wp_bind, wp_ed]
  refine wp_mono (turning_shelf E hu h hq he hl) (fun _ s1 ⟨h1, h2⟩ => ?_) (fun _ _ h => h) (fun _ h => h)
  obtain ⟨w, g1, -, g3, g4⟩ := h1.work (hl.next up H)
  have hop : opOf v.modeStack = none := by rw [hv]; rfl
  have hf : Fits v false (rest true ((next up H f).leaf (texts H)).text []).1 (rest true ((next up H f).leaf (texts H)).text []).2 :=
    fun p hp => by rw [hop] at hp; cases hp
  refine wp_mono (wp_and (@pop_gives (onShelf H (next up H f) nb hb) E _ _ _ _ _ false (.inl (.inl hv)) h2 hf)
    (popMove_free E false (t := (v, s1)) (h1.quiet.trans hq) (by show ∀ p, _ ∉ v.modeStack; rw [hv]; simp)))
    (fun _ t' h' => ?_) (fun _ _ _ => trivial) (fun _ h => h.1)
  obtain ⟨⟨e1, ho⟩, hg⟩ := h'
  have hfin : finish v false (rest true ((next up H f).leaf (texts H)).text []).1 (rest true ((next up H f).leaf (texts H)).text []).2 =
      rest true ((next up H f).leaf (texts H)).text [] := by
    unfold finish
    rw [hop]
    exact rest_rest ..
  rw [hfin, show decide (baseOf v = []) = true by simp [baseOf, hv]] at ho
  refine ⟨e1, ho, h1.fine, ?_⟩
  obtain ⟨w', es, q1, rfl, q3, q4⟩ := hg.log w g1
  have hd := path_nil q4
  exact ⟨w', q1, hd ▸ g3, by rw [← hd, show w'.actions = w.actions from q3]; exact g4⟩

/-- What follows during an insertion. -/
theorem turn_pen {v : Vi} {up : Bool} (hu : H.share = false) (h : Placed H f nb hb s { s with histBufValid := false })
    (hq : s.isSearch = false) (he : s.noEol = false) (hl : Laid f nb hb) :
    Wp (do ed (turning E up); ed (onBuf Buffer.startUndoGroup) : ViM Unit) (v, s) (fun _ t' => t'.1 = v ∧
      @Open (onShelf H (next up H f) nb hb) false t'.2 ((next up H f).leaf (texts H)).text [] ∧ Fine H (next up H f) ∧
      ∃ w : Buffer, workBuf t'.2 = some w.startUndoGroup ∧ w.data = ((next up H f).leaf (texts H)).text ∧
        Past ((next up H f).leaf (texts H)).full ((next up H f).leaf (texts H)).past (w.data, w.actions)) T2 (· ≠ .op) := by
  rw [wp_bind, wp_ed]
  refine wp_mono (turning_shelf E hu h hq he hl) (fun _ s1 ⟨h1, h2⟩ => ?_) (fun _ _ h => h) (fun _ h => h)
  obtain ⟨w, g1, -, g3, g4⟩ := h1.work (hl.next up H)
  rw [rest_false] at h2
  have hw : Wp (ed (onBuf Buffer.startUndoGroup) : ViM Unit) (v, s1) (fun _ t' => ∃ w : Buffer, workBuf t'.2 = some w.startUndoGroup ∧ w.data = ((next up H f).leaf (texts H)).text ∧
        Past ((next up H f).leaf (texts H)).full ((next up H f).leaf (texts H)).past (w.data, w.actions)) T2 (· ≠ .op) := by
    rw [wp_ed]
    unfold onBuf
    rw [wp_curBufMut]
    refine ⟨fun b a b' hb hf => ?_, ?_⟩
    · rw [g1] at hb; cases hb; cases hf
      exact ⟨w, setCur_workBuf _ _, g3, g4⟩
    · rintro (h | ⟨b, h, h'⟩)
      · rw [g1] at h; cases h
      · cases h'
  exact wp_mono (wp_and (@gives_onBuf (onShelf H (next up H f) nb hb) _ _ _ _ _ Buffer.startUndoGroup (fun _ => rfl) h2) hw)
    (fun _ t' h' => ⟨h'.1.1, h'.1.2, h1.fine, h'.2⟩) (fun _ _ _ => trivial) (fun _ h => h.1)

/-! ### The rack -/

/-- The hand is where the editor and the key map are. -/
def Handed (A : Around) : Hand → Vi × Ed → Prop
  | .board b, t => @Shows A b t
  | .pen p full last, t => VI t ∧ @Inks A p full last t

/-- The rack shows the editor and the key map. -/
structure Racked (H : History) (r : Rack) (nb hb : Buffer) (t : Vi × Ed) : Prop where
  fine : Fine H r.shelf
  leaf : r.shelf.shown ≠ none → nb.data = r.shelf.new.text ∧ Past r.shelf.new.full r.shelf.new.past (nb.data, nb.actions)
  copy : hb.data = r.shelf.copy.text ∧ Past r.shelf.copy.full r.shelf.copy.past (hb.data, hb.actions)
  hand : Handed (onShelf H r.shelf nb hb) r.hand t

theorem turn_seen (up letter : Bool) {k : Key} (hk : (Act.turn up letter).keys = [k]) (s : Ed) : Seen s k := by
  cases up <;> cases letter <;> cases hk <;> constructor <;> simp

theorem core_turn {v : Vi} {up letter : Bool} {k : Key} (hk : (Act.turn up letter).keys = [k]) (hv : v.modeStack = []) :
    handleKeyCore E k (v, s) = (do ed (turning E up); popModeAfterMovement E false : ViM Unit) (v, s) := by
  unfold handleKeyCore
  rw [show maxDepth = 7 + 1 from rfl, core_normal E hv]
  cases up <;> cases letter <;> cases hk <;> rfl

theorem core_turning {v : Vi} {up : Bool} {k : Key} (hk : (Act.turn up false).keys = [k]) (hv : v.modeStack = [.insert]) :
    handleKeyCore E k (v, s) = (do
      ed (onBuf Buffer.endUndoGroup)
      ed (turning E up)
      ed (onBuf Buffer.startUndoGroup) : ViM Unit) ({ v with count := 0, movementReset := true }, s) := by
  unfold handleKeyCore
  rw [show maxDepth = 7 + 1 from rfl, core_insert E hv]
  cases up <;> cases hk <;> rfl

theorem new_of_work {w : Buffer} (hs : s.curHistoryLoc = none) (h : workBuf s = some w) : s.newBuf = w := by
  unfold workBuf at h
  rw [hs] at h
  exact Option.some.inj h

/-- The line is put on the shelf. -/
theorem put_laid {r : Rack} {l : Leaf} {w : Buffer} (hok : OnShelf H r.shelf nb hb s) (hf : Fine H r.shelf)
    (hn : r.shelf.shown ≠ none → nb.data = r.shelf.new.text ∧ Past r.shelf.new.full r.shelf.new.past (nb.data, nb.actions))
    (hc : hb.data = r.shelf.copy.text ∧ Past r.shelf.copy.full r.shelf.copy.past (hb.data, hb.actions))
    (hw : workBuf s = some w) (hl : r.hand.Left l) (hd : w.data = l.text) (hp : Past l.full l.past (w.data, w.actions)) :
    ∃ f1 nb1 hb1, r.Put (texts H) f1 ∧ Placed H f1 nb1 hb1 s { s with histBufValid := false } ∧ Laid f1 nb1 hb1 := by
  cases hsh : r.shelf.shown with
  | none =>
    have hnew := new_of_work (hok.2.1.trans hsh) hw
    refine ⟨{ r.shelf with new := l }, s.newBuf, hb, ⟨l, hl, by rw [hsh]⟩, placed_of hok hf (.inl rfl) rfl (hok.2.2.2.2.2 (.inr hsh)), ?_, ?_, hc.1, hc.2⟩
    · rw [hnew]; exact hd
    · rw [hnew]; exact hp
  | some i =>
    have hne : r.shelf.shown ≠ none := by rw [hsh]; simp
    obtain ⟨hn1, hn2⟩ := hn hne
    by_cases hv : s.histBufValid = true
    · have hw' : s.histBuf = w := by
        unfold workBuf at hw
        rw [hok.2.1, hsh] at hw
        dsimp only at hw
        rw [if_pos hv] at hw
        exact Option.some.inj hw
      refine ⟨{ r.shelf with copy := l }, nb, s.histBuf, ⟨l, hl, by rw [hsh]; exact .inl rfl⟩, placed_of hok hf (.inr (.inl rfl)) (hok.2.2.2.2.1 hne) rfl,
        hn1, hn2, ?_, ?_⟩
      · rw [hw']; exact hd
      · rw [hw']; exact hp
    · have hv : s.histBufValid = false := by simpa using hv
      have hi := hf.loc i hsh
      have ht : l.text = (texts H)[i]?.getD [] := by
        unfold workBuf at hw
        rw [hok.2.1, hsh] at hw
        dsimp only at hw
        rw [if_neg (by simp [hv]), hok.1, List.getElem?_eq_getElem hi] at hw
        obtain ⟨w', h1, h2, -⟩ := copy_past s.histBuf H.buffers[i]
        obtain rfl : w' = w := Option.some.inj (h1.symm.trans hw)
        rw [← hd, h2]
        simp [texts, List.getElem?_eq_getElem hi]
      exact ⟨r.shelf, nb, hb, ⟨l, hl, by rw [hsh]; exact .inr ⟨ht, rfl⟩⟩, placed_of (l := l) hok hf (.inr (.inr rfl)) (hok.2.2.2.2.1 hne)
        (hok.2.2.2.2.2 (.inl hv)), hn1, hn2, hc.1, hc.2⟩

/-- At the board. -/
theorem turn_board {v : Vi} {b : Board} {up letter : Bool} {k : Key} {c : Text → List Text} (C : CharClass)
    (hu : H.share = false) (hr : Racked H ⟨.board b, f⟩ nb hb (v, s)) (hk : (Act.turn up letter).keys = [k]) :
    Wp (Spec.press keyMap E [(k, c)]) (v, s) (fun _ t' => ∃ r' nb' hb', Rack.Step C (texts H) (.turn up letter) ⟨.board b, f⟩ r' ∧
      Racked H r' nb' hb' t') T2 (· ≠ .op) := by
  have hs : @Shows (onShelf H f nb hb) b (v, s) := hr.hand
  have ho := @Shows.here (onShelf H f nb hb) _ _ hs
  have hok : OnShelf H f nb hb s := @Open.around (onShelf H f nb hb) _ _ _ _ ho
  have hq : s.isSearch = false := @Open.quiet (onShelf H f nb hb) _ _ _ _ ho
  have he : s.noEol = true := @Open.ne (onShelf H f nb hb) _ _ _ _ ho
  have hv : v.modeStack = [] := @Shows.stack (onShelf H f nb hb) _ _ hs
  obtain ⟨x, ⟨-, w, hw, hwd, hwa⟩, hxt, hpast⟩ := @Shows.line (onShelf H f nb hb) _ _ hs
  obtain ⟨f1, nb1, hb1, hput, hpl, hl1⟩ := put_laid (r := ⟨.board b, f⟩) (l := ⟨b.text, b.past, b.full⟩) hok hr.fine hr.leaf hr.copy hw rfl
    (hwd.trans hxt) (by rw [hwd, hwa]; exact hpast)
  have hcore := (wp_congr (core_turn E (s := s) hk hv)).mpr (turn_core E (v := v) (up := up) hu hv hpl hq he hl1)
  refine wp_mono (wp_and (@key_with (onShelf H f nb hb) E _ _ _ k c _ _ _ (turn_seen up letter hk s) ho (fun t1 t2 hQ e1 e2 e3 e4 e5 e6 e7 => ?_) hcore)
    (kvi_press E [(k, c)] (v, s) (@Shows.vi (onShelf H f nb hb) _ _ hs))) (fun _ t' h' => ?_) (fun _ _ _ => trivial) (fun _ h => h.1)
  · obtain ⟨q1, q2, q3, w, q4, q5⟩ := hQ
    exact ⟨e1.trans q1, @open_same (onShelf H (next up H f1) nb1 hb1) _ _ _ _ _ q2 e2 e4 e5 e6 e7, q3, w, e3.trans q4, q5⟩
  · obtain ⟨⟨q1, q2, q3, w, q4, q5, q6⟩, hvi⟩ := h'
    have hpop : popAfter v = { v with modeStack := [], movementReset := true, count := 0 } := by
      unfold popAfter; rw [hv]; rfl
    rw [hpop] at q1
    have hlen : ((next up H f1).leaf (texts H)).text.length - 1 ≤ ((next up H f1).leaf (texts H)).text.length := Nat.sub_le ..
    have hl2 := hl1.next up H
    refine ⟨_, nb1, hb1, .turn hput rfl, ⟨q3, fun _ => ⟨hl2.new, hl2.newPast⟩, ⟨hl2.copy, hl2.copyPast⟩, ?_⟩⟩
    · refine @Shows.mk (onShelf H (next up H f1) nb1 hb1) _ _ hvi (by rw [q1]) ?_ hlen (by rw [q1]) ?_ ?_ ⟨(w.data, w.actions), ⟨?_, w, q4, rfl, rfl⟩, q5, q6⟩
      · have hl : (rest true ((next up H f1).leaf (texts H)).text []).1 = ((next up H f1).leaf (texts H)).text.take (((next up H f1).leaf (texts H)).text.length - 1) := by
          unfold rest; rw [if_pos ⟨rfl, rfl⟩]; exact List.dropLast_eq_take
        have hr' : (rest true ((next up H f1).leaf (texts H)).text []).2 = ((next up H f1).leaf (texts H)).text.drop (((next up H f1).leaf (texts H)).text.length - 1) := by
          have := rest_append true ((next up H f1).leaf (texts H)).text []
          rw [hl, List.append_nil] at this
          exact List.append_cancel_left (this.trans (List.take_append_drop _ _).symm)
        rw [hl, hr'] at q2
        exact q2
      · rw [q1]; exact @Shows.last (onShelf H f nb hb) _ _ hs
      · intro ch n hd
        obtain ⟨k, h1, h2⟩ := @Shows.done (onShelf H f nb hb) _ _ hs ch n hd
        exact ⟨k, by rw [q1]; exact ⟨h1.opener, h1.record, h1.count⟩, h2⟩
      · exact @Open.quiet (onShelf H (next up H f1) nb1 hb1) _ _ _ _ q2

/-- During an insertion. -/
theorem turn_insert {v : Vi} {pen : Pen} {full : Bool} {last : Option (Char × CharMovement)} {up : Bool} {k : Key}
    {c : Text → List Text} (C : CharClass) (hu : H.share = false) (hr : Racked H ⟨.pen pen full last, f⟩ nb hb (v, s))
    (hk : (Act.turn up false).keys = [k]) :
    Wp (Spec.press keyMap E [(k, c)]) (v, s) (fun _ t' => ∃ r' nb' hb', Rack.Step C (texts H) (.turn up false) ⟨.pen pen full last, f⟩ r' ∧
      Racked H r' nb' hb' t') T2 (· ≠ .op) := by
  obtain ⟨hvi0, hi⟩ : VI (v, s) ∧ @Inks (onShelf H f nb hb) pen full last (v, s) := hr.hand
  have ho := @Inks.here (onShelf H f nb hb) _ _ _ _ hi
  have hok0 : OnShelf H f nb hb s := @Open.around (onShelf H f nb hb) _ _ _ _ ho
  have hv : v.modeStack = [.insert] := @Inks.stack (onShelf H f nb hb) _ _ _ _ hi
  obtain ⟨b0, ⟨hd, hp⟩, w, es, g1, g2, g3, g4⟩ := @Inks.log (onShelf H f nb hb) _ _ _ _ hi
  have hp' : Path ([.endGroup] ++ es) b0.data w.data := .cons g4 (by constructor)
  have hbt : w.data = pen.text := by
    obtain ⟨b', hb', e⟩ := curBuf_of_workBuf g1
    obtain ⟨b2, hb2, e2⟩ := text?_eq.mp (@Open.here (onShelf H f nb hb) _ _ _ _ ho).1
    rw [hb'] at hb2; cases hb2
    exact e.trans e2
  have hba : w.endUndoGroup.actions = [.endGroup] ++ es ++ b0.actions := by
    show Action.endGroup :: w.actions = _; rw [g3]; rfl
  let s1 := setCur s w.endUndoGroup
  have hok : OnShelf H f nb hb s1 := @around_as (onShelf H f nb hb) _ _ hok0 (Unmoved.setCur s _)
  have hw1 : workBuf s1 = some w.endUndoGroup := setCur_workBuf _ _
  have hleft : ∃ l, Hand.Left (.pen pen full last) l ∧ w.endUndoGroup.data = l.text ∧
      Past l.full l.past (w.endUndoGroup.data, w.endUndoGroup.actions) := by
    rcases Past.after g2.close hp' hp with hh | ⟨hh, hh'⟩
    · exact ⟨⟨pen.text, pen.since :: pen.past, full⟩, ⟨rfl, rfl, .inl rfl⟩, hbt, by rw [hba]; rw [hd] at hh; exact hh⟩
    · exact ⟨⟨pen.text, pen.past, full⟩, ⟨rfl, rfl, .inr ⟨by rw [← hbt, hh, hd], rfl⟩⟩, hbt, by rw [hba]; exact hh'⟩
  obtain ⟨f1, nb1, hb1, hput, hpl, hl1⟩ : ∃ f1 nb1 hb1, Rack.Put (texts H) ⟨.pen pen full last, f⟩ f1 ∧
      Placed H f1 nb1 hb1 s1 { s1 with histBufValid := false } ∧ Laid f1 nb1 hb1 := by
    obtain ⟨l, q1, q2, q3⟩ := hleft
    exact put_laid hok hr.fine hr.leaf hr.copy hw1 q1 q2 q3
  have hq : s1.isSearch = false := (setCur_isSearch s _).trans (@Open.quiet (onShelf H f nb hb) _ _ _ _ ho)
  have he : s1.noEol = false := (setCur_noEol s _).trans (@Open.ne (onShelf H f nb hb) _ _ _ _ ho)
  have hend : ∀ v' : Vi, (ed (onBuf Buffer.endUndoGroup) : ViM Unit) (v', s) = .ok () (v', s1) := by
    intro v'
    have : onBuf Buffer.endUndoGroup s = .ok () s1 := by
      unfold onBuf curBufMut
      rw [g1]
    unfold ed zoom
    dsimp only
    rw [this]
  have hcore := wp_from ((core_turning E (s := s) hk hv).trans (bind_ok (hend _)))
    (turn_pen E (v := { v with count := 0, movementReset := true }) (up := up) hu hpl hq he hl1)
  refine wp_mono (wp_and (@key_with (onShelf H f nb hb) E _ _ _ k c _ _ _ (turn_seen up false hk s) ho (fun t1 t2 hQ e1 e2 e3 e4 e5 e6 e7 => ?_) hcore)
    (kvi_press E [(k, c)] (v, s) hvi0)) (fun _ t' h' => ?_) (fun _ _ _ => trivial) (fun _ h => h.1)
  · obtain ⟨q1, q2, q3, w, q4, q5⟩ := hQ
    exact ⟨e1.trans q1, @open_same (onShelf H (next up H f1) nb1 hb1) _ _ _ _ _ q2 e2 e4 e5 e6 e7, q3, w, e3.trans q4, q5⟩
  · obtain ⟨⟨q1, q2, q3, w', q4, q5, q6⟩, hvi⟩ := h'
    have hl2 := hl1.next up H
    refine ⟨_, nb1, hb1, .turn hput rfl, ⟨q3, fun _ => ⟨hl2.new, hl2.newPast⟩, ⟨hl2.copy, hl2.copyPast⟩, ?_⟩⟩
    · refine ⟨hvi, @Inks.mk (onShelf H (next up H f1) nb1 hb1) _ _ _ _ (by rw [q1]; exact hv) q2 (by rw [q1]) ?_ ?_ (by rw [q1]; rfl) ?_ ?_ ?_ ?_ ?_⟩
      · rw [q1]; exact @Inks.last (onShelf H f nb hb) _ _ _ _ hi
      · rw [q1]; exact @Inks.record (onShelf H f nb hb) _ _ _ _ hi
      · intro hc; rw [q1] at hc; exact absurd rfl hc
      · have := @Inks.kept (onShelf H f nb hb) _ _ _ _ hi; exact this
      · have := @Inks.types (onShelf H f nb hb) _ _ _ _ hi; exact this
      · rw [q1]; exact @Inks.times (onShelf H f nb hb) _ _ _ _ hi
      · exact ⟨w', ⟨q5, q6⟩, w'.startUndoGroup, [.startGroup], q4, opened_nil, rfl, .cons (.nil _) (by constructor)⟩

/-- Another line. -/
theorem turn_rack {r : Rack} {t : Vi × Ed} {up letter : Bool} {k : Key} {c : Text → List Text} (C : CharClass)
    (hu : H.share = false) (hr : Racked H r nb hb t) (hc : r.Can C (texts H) (.turn up letter)) (hk : (Act.turn up letter).keys = [k]) :
    Wp (Spec.press keyMap E [(k, c)]) t (fun _ t' => ∃ r' nb' hb', Rack.Step C (texts H) (.turn up letter) r r' ∧
      Racked H r' nb' hb' t') T2 (· ≠ .op) := by
  obtain ⟨v, s⟩ := t
  obtain ⟨h, f⟩ := r
  cases h with
  | board b => exact turn_board E C hu hr hk
  | pen p full last =>
    cases letter with
    | true => obtain ⟨b, hb⟩ := hc rfl; cases hb
    | false => exact turn_insert E C hu hr hk

/-- Enter first gives up the walk. -/
theorem enter_quiet {v : Vi} {c : Text → List Text} {b : Buffer} {Q : Unit → Vi × Ed → Prop} {R : IoErr → Vi × Ed → Prop} {P : Site → Prop}
    (hq : s.isSearch = false) (hb : s.curBuf? = some b) (h : Wp (Spec.press keyMap E [(.char '\n', c)]) (v, Editor.quiet s) Q R P) :
    Wp (Spec.press keyMap E [(.char '\n', c)]) (v, s) Q R P := by
  have ht : KeyMap.translate (.char '\n') = .char '\n' := by decide
  unfold Spec.press at h ⊢
  rw [wp_bind, wp_congr (handleKey_eq keyMap E c (t := (v, s)) hb _), wp_bind, ht, wp_congr (dispatch_newline keyMap E c (v, s)), wp_ed,
    newline_run E hq]
  rw [wp_bind, wp_congr (handleKey_eq keyMap E c (t := (v, Editor.quiet s)) hb _), wp_bind, ht,
    wp_congr (dispatch_newline keyMap E c (v, Editor.quiet s)), wp_ed, newline_run E rfl] at h
  exact h

theorem quit_ok (h : OnShelf H f nb hb s) : OnShelf H f.quit nb hb (Editor.quiet s) := ⟨h.1, h.2.1, rfl, rfl, h.2.2.2.2⟩

theorem quit_open {e : Bool} {l r : Text} (h : @Open (onShelf H f nb hb) e s l r) :
    @Open (onShelf H f.quit nb hb) e (Editor.quiet s) l r := by
  obtain ⟨-, h2, h3, h4⟩ := h
  exact @Open.mk (onShelf H f.quit nb hb) _ _ _ _ rfl h2 (quit_ok h3) h4

theorem vi_quiet {v : Vi} (h : VI (v, s)) : VI (v, Editor.quiet s) := ⟨h.stack, h.esc, h.eol, h.rests, h.shown⟩

theorem Racked.quit {r : Rack} {v : Vi} (h : Racked H r nb hb (v, s)) : Racked H ⟨r.hand, r.shelf.quit⟩ nb hb (v, Editor.quiet s) := by
  obtain ⟨hd, f⟩ := r
  refine ⟨⟨h.fine.loc, fun i hi => (by cases hi), fun i hi => (by cases hi)⟩, h.leaf, h.copy, ?_⟩
  cases hd with
  | board b =>
    have hs : @Shows (onShelf H f nb hb) b (v, s) := h.hand
    obtain ⟨h1, h2, h3, h4, h5, h6, h7, x, hx, h8⟩ := hs
    exact @Shows.mk (onShelf H f.quit nb hb) _ _ (vi_quiet h1) h2 (quit_open h3) h4 h5 h6 h7 ⟨x, ⟨rfl, hx.2⟩, h8⟩
  | pen p full last =>
    obtain ⟨hvi, hi⟩ : VI (v, s) ∧ @Inks (onShelf H f nb hb) p full last (v, s) := h.hand
    obtain ⟨h1, h2, h3, h4, h5, h6, h7, h8, h9, h10, h11⟩ := hi
    exact ⟨vi_quiet hvi, @Inks.mk (onShelf H f.quit nb hb) _ _ _ _ h1 (quit_open h2) h3 h4 h5 h6 h7 h8 h9 h10 h11⟩

/-- Enter after a backslash. -/
theorem enter_rack {r : Rack} {t : Vi × Ed} {c : Text → List Text} (hr : Racked H r nb hb t)
    (hn : t.2.showCompletionsHint = none) (hl : r.hand.left.getLast? = some '\\') :
    Wp (Spec.press keyMap E [(.char '\n', c)]) t (fun _ t' => ∃ r' nb' hb', Rack.Step E.cc (texts H) .enter r r' ∧
      Racked H r' nb' hb' t') T2 (· ≠ .op) := by
  obtain ⟨v, s⟩ := t
  obtain ⟨hd, f⟩ := r
  have hq := hr.quit
  have ha : f.quit.walk = none ∧ f.quit.met = [] := ⟨rfl, rfl⟩
  cases hd with
  | board b =>
    have ho := @Shows.here (onShelf H f nb hb) _ _ hr.hand
    obtain ⟨w, hw, -⟩ := text?_eq.mp (@Open.here (onShelf H f nb hb) _ _ _ _ ho).1
    refine enter_quiet E (@Open.quiet (onShelf H f nb hb) _ _ _ _ ho) hw ?_
    exact wp_mono (@enters (onShelf H f.quit nb hb) E b _ _ ha hq.hand hn hl rfl)
      (fun _ t' ⟨b', h1, h2⟩ => ⟨⟨.board b', f.quit⟩, nb, hb, .enter h1, hq.fine, hq.leaf, hq.copy, h2⟩) (fun _ _ h => h) (fun _ h => h)
  | pen p full last =>
    have ho := @Inks.here (onShelf H f nb hb) _ _ _ _ hr.hand.2
    obtain ⟨w, hw, -⟩ := text?_eq.mp (@Open.here (onShelf H f nb hb) _ _ _ _ ho).1
    refine enter_quiet E (@Open.quiet (onShelf H f nb hb) _ _ _ _ ho) hw ?_
    exact wp_mono (wp_and (kvi_press E [(.char '\n', c)] (v, Editor.quiet s) hq.hand.1) (@inks_enter (onShelf H f.quit nb hb) E p full last _ c ha hq.hand.2 hn hl))
      (fun _ t' ⟨hv', p', h1, h2⟩ => ⟨⟨.pen p' full last, f.quit⟩, nb, hb, .enterPen h1, hq.fine, hq.leaf, hq.copy, hv', h2⟩) (fun _ _ _ => trivial) (fun _ h => h.2)

/-! ### Taking a suggestion -/

/-- The suggestion belongs to the line. -/
structure Hinted (s : Ed) : Prop where
  tied : Tied true s
  show' : s.showAutosuggestions = true

theorem hinted_press (kcs : List (Key × (Text → List Text))) (t : Vi × Ed) (h : Hinted t.2) :
    Wp (Spec.press keyMap E kcs) t (fun _ t' => Hinted t'.2) T2 T1 :=
  wp_mono (wp_and ((tied_kept E .vi true (fun _ => rfl)).usesK (uses_press keyMap E kcs fun _ _ => Vi.uses_core E _) t h.tied)
    ((sets_kept E .vi).usesK (uses_press keyMap E kcs fun _ _ => Vi.uses_core E _) t trivial))
    (fun _ _ h' => ⟨h'.1.1, h'.2.2.showSug.trans h.show'⟩) (fun _ _ _ => trivial) (fun _ _ => trivial)

theorem Hinted.hint (h : Hinted s) (hq : s.isSearch = false) (hl : s.curHistoryLoc = none) (hh : s.history = H) :
    s.autosuggestion.map (·.data) = Spec.hint (texts H) s.newBuf.data := by
  rw [← hh]
  exact hint_of (suggests_of (h.tied.sug.newest hq hl h.show'))

theorem accept_shelf {e : Bool} {l r : Text} {x : Buffer} (h : @Open (onShelf H f nb hb) e s l r)
    (hw : s.showAutosuggestions = true) (hx : s.autosuggestion = some x) (hp : l ++ r <+: x.data) :
    Wp (acceptAutosuggestion E) s (fun _ s' => @Open (onShelf H f.quit nb hb) e s' (rest e x.data []).1 (rest e x.data []).2 ∧
      Grew (Count 1) s s') (fun _ _ => True) (· ≠ .op) := by
  have hok : OnShelf H f nb hb s := @Open.around (onShelf H f nb hb) _ _ _ _ h
  have ho : @Open anywhere e s l r := @Open.plain (onShelf H f nb hb) _ _ _ _ h
  have hgrew : Wp (acceptAutosuggestion E) s (fun _ s' => Grew (Count 1) s s') (fun _ _ => True) (fun _ => True) := by
    unfold acceptAutosuggestion clearSearch
    rw [wp_bind, wp_get]
    dsimp only
    rw [hw, if_pos rfl]
    refine gw_then (gw_curBufMut (P := Count 1) fun b a b' hf => ?_) (fun _ => ?_) s ho.quiet
    · simp only [noRes, hx, ho.quiet, Bool.false_eq_true, if_false, Option.map_eq_some_iff] at hf
      obtain ⟨w, hf, he⟩ := hf
      cases he
      unfold Buffer.insertFromBuffer at hf
      dsimp only at hf
      split at hf
      · exact one_of (.insert _ _) hf (by simp [Edit.apply])
      · cases hf
    · have h1 := gw_end E
      refine gw_quiet (gw_modify (fun s hs => ?_) fun s => workBuf_same rfl rfl rfl rfl rfl) fun _ => h1
      simp [Ed.isSearch]
  obtain ⟨u, hu⟩ := hp
  refine wp_mono (wp_and (Q := fun _ s' => @Open (onShelf H f.quit nb hb) e s' (rest e x.data []).1 (rest e x.data []).2) (R := fun _ _ => True) (P := (· ≠ .op)) ?_ hgrew)
    (fun _ _ h => h) (fun _ _ _ => trivial) (fun _ h => h.1)
  unfold acceptAutosuggestion clearSearch
  rw [wp_bind, wp_get]
  dsimp only
  rw [hw, if_pos rfl, wp_bind]
  refine wp_edit_open ho (fun b hb' => ?_)
  have hle : b.data.length ≤ x.data.length := by simp [hb', ← hu]
  obtain ⟨b', h1, h2⟩ := Props.C01_insert b b.data [] u (by simp)
  have h2' : b'.data = x.data ++ [] := by rw [h2, hb', ← hu]
  refine ⟨(), b', ?_, ?_⟩
  · simp only [noRes, hx, ho.quiet, Bool.false_eq_true, if_false, Buffer.insertFromBuffer, hle, if_true]
    rw [← hu, ← hb', List.drop_left, h1]
    rfl
  · rw [wp_bind, wp_modify]
    have h3 := ho.set (c := (x.data).length) h2' rfl
    have hok' : OnShelf H f nb hb (setCur s b') := @around_as (onShelf H f nb hb) _ _ hok (Unmoved.setCur s b')
    refine wp_mono (@end_sets' (onShelf H f.quit nb hb) E e _ _ x.data rfl h3.ne ⟨hok'.1, hok'.2.1, rfl, rfl, hok'.2.2.2.2⟩ ?_ (Side.refl _))
      (fun _ s' h => @Settled.here (onShelf H f.quit nb hb) _ _ _ _ _ h) (fun _ _ h => h) (fun _ h => h)
    show text? (setCur s b') = _
    rw [setCur_text, h2', List.append_nil]

/-- Ctrl-F, and Right at the end of the line. -/
theorem take_press {v : Vi} {right : Bool} {k : Key} {c : Text → List Text} {l r : Text} {e : Bool} {Q : Vi × Ed → Prop}
    (hk : takeKey right = k) (h : At s l r) (hne0 : s.noEol = e) (hs : s.autosuggestion.isSome = true)
    (hr : right = true → (e = true → r.length = 1) ∧ (e = false → r = []))
    (hQ : ∀ s1 n, Q (v, s1) → Q (v, { s1 with tick := n }))
    (hg : Wp (acceptAutosuggestion E) s (fun _ s' => Q (v, s')) (fun _ _ => True) (· ≠ .op)) :
    Wp (Spec.press keyMap E [(k, c)]) (v, s) (fun _ t' => Q t') T2 (· ≠ .op) := by
  obtain ⟨b, hb, hbd⟩ := text?_eq.mp h.1
  have fin : Wp (do ed (acceptAutosuggestion E); pure false : KM Vi Bool) (v, s) (fun _ t' => ∃ s', t' = (v, s') ∧ Q (v, s')) T2 (· ≠ .op) := by
    rw [wp_bind, wp_ed]
    exact wp_mono hg (fun _ s' h => ⟨s', rfl, h⟩) (fun _ _ h => h) (fun _ h => h)
  unfold Spec.press
  rw [wp_bind, wp_congr (handleKey_eq keyMap E c (t := (v, s)) hb _), wp_bind]
  have key : Wp (keyMap.dispatch E c b.isEmpty (KeyMap.translate k)) (v, s) (fun _ t' => ∃ s', t' = (v, s') ∧ Q (v, s')) T2 (· ≠ .op) := by
    cases right with
    | false =>
      obtain rfl : Key.ctrl 'f' = k := hk
      rw [show KeyMap.translate (.ctrl 'f') = .ctrl 'f' from by decide]
      exact (wp_congr (dispatch_ctrlF keyMap E c (v, s) hs)).mpr fin
    | true =>
      obtain rfl : Key.right = k := hk
      rw [show KeyMap.translate .right = .right from by decide]
      obtain ⟨hr1, hr2⟩ := hr rfl
      have hne : ¬ (s.noEol = true ∧ l ++ r = []) := by
        rintro ⟨h1, h2⟩
        have := hr1 (hne0 ▸ h1)
        simp_all
      obtain ⟨a, e1, e2⟩ := atEnd_run h.1 hne
      have ha : a = true := by
        rw [e2]
        unfold Furthest
        rw [hne0, h.2]
        cases e with
        | true => have := hr1 rfl; simp [this]
        | false => have := hr2 rfl; simp [this]
      have e3 : (ed cursorIsAtEndOfLine (v, s) : Liner.Out (Vi × Ed) Bool) = .ok a (v, s) := by simp [KM.ed, M.zoom, e1]
      refine wp_from' ((dispatch_right keyMap E c (v, s) hs).trans (bind_ok e3)) ?_
      rw [if_pos ha]
      exact fin
  refine wp_mono key (fun done t1 ⟨s1, e1, h1⟩ => ?_) (fun _ _ h => h) (fun _ h => h)
  subst e1
  rw [wp_bind, wp_ed, wp_flush]
  exact ⟨fun _ => hQ _ _ h1, fun _ => trivial⟩

theorem Racked.here {r : Rack} {t : Vi × Ed} (h : Racked H r nb hb t) :
    ∃ e, @Open (onShelf H r.shelf nb hb) e t.2 r.hand.left r.hand.right := by
  obtain ⟨-, -, -, h⟩ := h
  cases hh : r.hand with
  | board b => rw [hh] at h; exact ⟨_, @Shows.here (onShelf H r.shelf nb hb) _ _ h⟩
  | pen p full last => rw [hh] at h; exact ⟨_, @Inks.here (onShelf H r.shelf nb hb) _ _ _ _ h.2⟩

theorem taken {e : Bool} {l r : Text} (hx : Hinted s) (h : @Open (onShelf H f nb hb) e s l r) (hf : f.shown = none) :
    s.autosuggestion.map (·.data) = Spec.hint (texts H) (l ++ r) := by
  have hok : OnShelf H f nb hb s := @Open.around (onShelf H f nb hb) _ _ _ _ h
  rw [hx.hint (@Open.quiet (onShelf H f nb hb) _ _ _ _ h) (hok.2.1.trans hf) hok.1]
  congr 1
  have := (@Open.here (onShelf H f nb hb) _ _ _ _ h).1
  obtain ⟨b, hb, hd⟩ := text?_eq.mp this
  unfold Ed.curBuf? at hb
  rw [hok.2.1, hf] at hb
  cases hb
  exact hd

theorem hint_prefix {es : List Text} {t x : Text} (h : Spec.hint es t = some x) : t <+: x := by
  unfold Spec.hint at h
  split at h
  · cases h
  · have := List.find?_some h
    simp only [Bool.and_eq_true, List.isPrefixOf_iff_prefix] at this
    exact this.1

/-- The line has become `x`, with the cursor at its end, at the board. -/
theorem became_board {b : Board} {v : Vi} {x : Text} {ps : List Text} {t' : Vi × Ed} {w' : Buffer} (hs : @Shows (onShelf H f nb hb) b (v, s))
    (hvi : VI t') (q1 : t'.1 = v) (q2 : @Open (onShelf H f.quit nb hb) true t'.2 (rest true x []).1 (rest true x []).2)
    (q3 : workBuf t'.2 = some w') (hp : Past b.full ps (w'.data, w'.actions)) :
    @Shows (onShelf H f.quit nb hb) { b with text := x, cur := x.length - 1, past := ps } t' := by
  have hq2 : @Open (onShelf H f.quit nb hb) true t'.2 (x.take (x.length - 1)) (x.drop (x.length - 1)) := by
    have := rest_at (t := x) (q := x.length) (Nat.le_refl _)
    rw [List.take_length, List.drop_length, Nat.min_eq_right (Nat.sub_le ..)] at this
    rw [this] at q2
    exact q2
  have hwx : w'.data = x := by
    obtain ⟨b', hb', e⟩ := curBuf_of_workBuf q3
    obtain ⟨b2, hb2, e2⟩ := text?_eq.mp (@Open.here (onShelf H f.quit nb hb) _ _ _ _ hq2).1
    rw [hb'] at hb2; cases hb2
    rw [List.take_append_drop] at e2
    exact e.trans e2
  exact @Shows.mk (onShelf H f.quit nb hb) _ _ hvi (by rw [q1]; exact @Shows.stack (onShelf H f nb hb) _ _ hs) hq2 (Nat.sub_le ..)
    (by rw [q1]; exact @Shows.count (onShelf H f nb hb) _ _ hs)
    (by rw [q1]; exact @Shows.last (onShelf H f nb hb) _ _ hs) (by rw [q1]; exact @Shows.done (onShelf H f nb hb) _ _ hs)
    ⟨(w'.data, w'.actions), ⟨@Open.quiet (onShelf H f.quit nb hb) _ _ _ _ q2, w', q3, rfl, rfl⟩, hwx, hp⟩

/-- The same during an insertion. -/
theorem became_pen {p : Pen} {full : Bool} {last : Option (Char × CharMovement)} {v : Vi} {x : Text} {t' : Vi × Ed}
    (hi : @Inks (onShelf H f nb hb) p full last (v, s)) (q1 : t'.1 = v)
    (q2 : @Open (onShelf H f.quit nb hb) false t'.2 (rest false x []).1 (rest false x []).2)
    (hl : ∀ w, workBuf s = some w → ∃ w' es, workBuf t'.2 = some w' ∧ Plainly es ∧ w'.actions = es ++ w.actions ∧ Path es w.data w'.data) :
    @Inks (onShelf H f.quit nb hb) { p with left := x, right := [] } full last t' := by
  obtain ⟨b0, h0, w, es0, g1, g2, g3, g4⟩ := @Inks.log (onShelf H f nb hb) _ _ _ _ hi
  obtain ⟨w', es, q3, q4, q5, q6⟩ := hl w g1
  rw [rest_false] at q2
  exact @Inks.mk (onShelf H f.quit nb hb) _ _ _ _ (by rw [q1]; exact @Inks.stack (onShelf H f nb hb) _ _ _ _ hi) q2
    (by rw [q1]; exact @Inks.moved (onShelf H f nb hb) _ _ _ _ hi) (by rw [q1]; exact @Inks.last (onShelf H f nb hb) _ _ _ _ hi)
    (by rw [q1]; exact @Inks.record (onShelf H f nb hb) _ _ _ _ hi) (by rw [q1]; exact @Inks.more (onShelf H f nb hb) _ _ _ _ hi)
    (by rw [q1]; exact @Inks.plain (onShelf H f nb hb) _ _ _ _ hi) (@Inks.kept (onShelf H f nb hb) _ _ _ _ hi :)
    (@Inks.types (onShelf H f nb hb) _ _ _ _ hi :) (by rw [q1]; exact @Inks.times (onShelf H f nb hb) _ _ _ _ hi)
    ⟨b0, h0, w', es ++ es0, q3, g2.append q4, by rw [q5, g3, List.append_assoc], g4.append q6⟩

theorem take_rack {r : Rack} {t : Vi × Ed} {right : Bool} {c : Text → List Text} (C : CharClass)
    (hr : Racked H r nb hb t) (hh : Hinted t.2) (hc : r.Can C (texts H) (.take right)) :
    Wp (Spec.press keyMap E [(takeKey right, c)]) t (fun _ t' => ∃ r' nb' hb', Rack.Step C (texts H) (.take right) r r' ∧
      Racked H r' nb' hb' t') T2 (· ≠ .op) := by
  obtain ⟨v, s⟩ := t
  obtain ⟨hd, f⟩ := r
  obtain ⟨hf, hne, hat⟩ := hc
  obtain ⟨x, hx⟩ := Option.ne_none_iff_exists'.mp hne
  have hfine : Fine H f.quit := ⟨hr.fine.loc, fun i hi => (by cases hi), fun i hi => (by cases hi)⟩
  cases hd with
  | board b =>
    have hs : @Shows (onShelf H f nb hb) b (v, s) := hr.hand
    have ho := @Shows.here (onShelf H f nb hb) _ _ hs
    have htk := taken hh ho hf
    rw [show Spec.hint (texts H) (b.left ++ b.right) = some x from hx, Option.map_eq_some_iff] at htk
    obtain ⟨X, hX, hXd⟩ := htk
    obtain ⟨y, ⟨-, w, hw, hwd, hwa⟩, hyt, hpast⟩ := @Shows.line (onShelf H f nb hb) _ _ hs
    refine wp_mono (wp_and (take_press E (Q := fun t' => t'.1 = v ∧ @Open (onShelf H f.quit nb hb) true t'.2 (rest true x []).1 (rest true x []).2 ∧
        ∃ w' es, workBuf t'.2 = some w' ∧ Count 1 es ∧ w'.actions = es ++ w.actions ∧ Path es w.data w'.data) rfl
        (@Open.here (onShelf H f nb hb) _ _ _ _ ho) (@Open.ne (onShelf H f nb hb) _ _ _ _ ho) (by rw [hX]; rfl)
        (fun e => ⟨fun _ => hat e, fun e => (by cases e)⟩) (fun s1 n h => ⟨h.1, @open_same (onShelf H f.quit nb hb) _ _ _ _ _ h.2.1 rfl rfl rfl rfl ⟨rfl, rfl, rfl, rfl, fun _ => rfl, rfl, id, fun _ => rfl⟩, h.2.2⟩)
        (wp_mono (accept_shelf E ho hh.show' hX (by rw [hXd]; exact hint_prefix hx))
          (fun _ s1 h1 => ⟨rfl, hXd ▸ h1.1, h1.2.log w hw⟩) (fun _ _ h => h) (fun _ h => h)))
      (kvi_press E [(takeKey right, c)] (v, s) (@Shows.vi (onShelf H f nb hb) _ _ hs))) (fun _ t' h' => ?_) (fun _ _ _ => trivial) (fun _ h => h.1)
    obtain ⟨⟨q1, q2, w', es, q3, q4, q5, q6⟩, hvi⟩ := h'
    refine ⟨_, nb, hb, .take (x := x) hx, hfine, hr.leaf, hr.copy, became_board hs hvi q1 q2 q3 ?_⟩
    obtain ⟨a, rfl⟩ := List.length_eq_one_iff.mp q4.2
    have ha : a.isEdit = true := q4.1 a (by simp)
    have hp := undone_single ha q6
    rw [q5]
    refine ⟨by simp, _, hp, hwd.trans hyt, ?_⟩
    rw [hwd, hwa]
    exact hpast
  | pen p full last =>
    obtain ⟨hvi0, hi⟩ : VI (v, s) ∧ @Inks (onShelf H f nb hb) p full last (v, s) := hr.hand
    have ho := @Inks.here (onShelf H f nb hb) _ _ _ _ hi
    have htk := taken hh ho hf
    rw [show Spec.hint (texts H) (p.left ++ p.right) = some x from hx, Option.map_eq_some_iff] at htk
    obtain ⟨X, hX, hXd⟩ := htk
    refine wp_mono (wp_and (take_press E (Q := fun t' => t'.1 = v ∧ @Open (onShelf H f.quit nb hb) false t'.2 (rest false x []).1 (rest false x []).2 ∧
        ∀ w, workBuf s = some w → ∃ w' es, workBuf t'.2 = some w' ∧ Plainly es ∧ w'.actions = es ++ w.actions ∧ Path es w.data w'.data) rfl
        (@Open.here (onShelf H f nb hb) _ _ _ _ ho) (@Open.ne (onShelf H f nb hb) _ _ _ _ ho) (by rw [hX]; rfl)
        (fun e => ⟨fun e => (by cases e), fun _ => hat e⟩) (fun s1 n h => ⟨h.1, @open_same (onShelf H f.quit nb hb) _ _ _ _ _ h.2.1 rfl rfl rfl rfl ⟨rfl, rfl, rfl, rfl, fun _ => rfl, rfl, id, fun _ => rfl⟩, h.2.2⟩)
        (wp_mono (accept_shelf E ho hh.show' hX (by rw [hXd]; exact hint_prefix hx))
          (fun _ s1 h1 => ⟨rfl, hXd ▸ h1.1, fun w hw => (h1.2.log w hw).imp fun _ h => h.imp fun _ h => ⟨h.1, h.2.1.1, h.2.2⟩⟩) (fun _ _ h => h) (fun _ h => h)))
      (kvi_press E [(takeKey right, c)] (v, s) hvi0)) (fun _ t' h' => ?_) (fun _ _ _ => trivial) (fun _ h => h.1)
    obtain ⟨⟨q1, q2, q3⟩, hvi⟩ := h'
    exact ⟨_, nb, hb, .take (x := x) hx, hfine, hr.leaf, hr.copy, hvi, became_pen hi q1 q2 q3⟩

/-! ### Taking what a search has found -/

/-- The entry found is copied to the new line; without one this is left as it is. -/
theorem accept_seeking {w : Buffer} {d e : Bool} {c : Nat} {k : Option Nat} (h : Seeking H d w hb e c k s) (hf : f.shown = none) :
    ∃ w', (∀ x, s.autosuggestion = some x → w.copyBuffer x = some w') ∧ w'.data = (s.autosuggestion.map (·.data)).getD w.data ∧
      Wp (acceptAutosuggestion E) s (fun _ s' => @Open (onShelf H f.quit nb hb) e s' (rest e w'.data []).1 (rest e w'.data []).2 ∧
        (∃ w2, workBuf s' = some w2 ∧ w2.data = w'.data ∧ w2.actions = w'.actions) ∧
        s'.showCompletionsHint = s.showCompletionsHint) (fun _ _ => True) (· ≠ .op) := by
  obtain ⟨hs, h1, h2, h3, h4, h5, h6, -⟩ := h
  have hw : workBuf s = some w := by unfold workBuf; rw [hs.loc, h2]
  obtain ⟨w', hw', hd⟩ : ∃ w', ((∀ x, s.autosuggestion = some x → w.copyBuffer x = some w') ∧ (s.autosuggestion = none → w' = w)) ∧
      w'.data = (s.autosuggestion.map (·.data)).getD w.data := by
    cases s.autosuggestion with
    | none => exact ⟨w, ⟨fun x h => (by cases h), fun _ => rfl⟩, rfl⟩
    | some x => obtain ⟨w', -, q1, q2, -⟩ := copy_log w x; exact ⟨w', ⟨fun x h => (by cases h; exact q1), fun h => (by cases h)⟩, q2⟩
  refine ⟨w', hw'.1, hd, ?_⟩
  unfold acceptAutosuggestion clearSearch
  rw [wp_bind, wp_get]
  dsimp only
  rw [h6, if_pos rfl, wp_bind]
  refine wp_curBufMut_of hw (a := ()) (b' := w') ?_ ?_
  · simp only [noRes, hs.search, if_true]
    cases hx : s.autosuggestion with
    | none => dsimp only; rw [hw'.2 hx]; rfl
    | some x => dsimp only; rw [hw'.1 x hx]; rfl
  · rw [wp_bind, wp_modify]
    have hset : setCur s w' = { s with bufferChanged := true, newBuf := w' } := by unfold setCur; rw [hs.loc]
    rw [hset]
    refine wp_mono (wp_and (@end_sets' (onShelf H f.quit nb hb) E e _ _ w'.data rfl h4 ⟨h1, hs.loc.trans hf.symm, rfl, rfl, fun h => absurd hf h, fun _ => h3⟩
        (by unfold text? Ed.curBuf?; rw [show ({ s with bufferChanged := true, newBuf := w' } : Ed).curHistoryLoc = none from hs.loc]; rfl) (Side.refl _)) (gw_end E _ rfl))
      (fun _ s' h => ⟨@Settled.here (onShelf H f.quit nb hb) _ _ _ _ _ h.1, ?_, (@Settled.side (onShelf H f.quit nb hb) _ _ _ _ _ h.1).hint⟩) (fun _ _ _ => trivial) (fun _ h => h.1)
    obtain ⟨w2, es, g1, rfl, g3, g4⟩ := h.2.log w' (by unfold workBuf; rw [show ({ s with bufferChanged := true, newBuf := w' } : Ed).curHistoryLoc = none from hs.loc])
    have nil : ∀ {a b : Text}, Path [] a b → b = a := fun h => by cases h; rfl
    exact ⟨w2, g1, nil g4, g3⟩

theorem Racked.vi {r : Rack} {t : Vi × Ed} (h : Racked H r nb hb t) : VI t := by
  obtain ⟨-, -, -, h⟩ := h
  cases hh : r.hand with
  | board b => rw [hh] at h; exact @Shows.vi (onShelf H r.shelf nb hb) _ _ h
  | pen p full last => rw [hh] at h; exact h.1

/-- On the new line the searches lead to the entry found. -/
theorem seek_rack {r : Rack} {t : Vi × Ed} {forward : Bool} {more : List Bool} {kcs : List (Key × (Text → List Text))} (hu : H.share = false)
    (hr : Racked H r nb hb t) (hh : Hinted t.2) (hf : r.shelf.shown = none) (hks : kcs.map Prod.fst = (forward :: more).map seekKey) :
    t.2.newBuf.data = r.hand.text ∧ t.2.curHistoryLoc = none ∧
    Wp (Spec.press keyMap E kcs) t (fun _ t' => t'.1 = t.1 ∧ t'.2.autosuggestion.map (·.data) = r.shelf.finds (texts H) r.hand.text forward more ∧
      Seeking H forward t.2.newBuf hb t.2.noEol t.2.cursor ((Desk.begins forward (r.shelf.walk.bind (r.shelf.met[·]?)) (Desk.holding (texts H) r.hand.text)).map
        (more.foldl (searchStep (Desk.holding (texts H) r.hand.text).length))) t'.2) T2 (· ≠ .op) := by
  obtain ⟨v, s⟩ := t
  obtain ⟨e, ho⟩ := hr.here
  have hok : OnShelf H r.shelf nb hb s := @Open.around (onShelf H r.shelf nb hb) _ _ _ _ ho
  have hq : s.isSearch = false := @Open.quiet (onShelf H r.shelf nb hb) _ _ _ _ ho
  have hl : s.curHistoryLoc = none := hok.2.1.trans hf
  have hcur : s.curBuf? = some s.newBuf := by unfold Ed.curBuf?; rw [hl]
  have hd : s.newBuf.data = r.hand.text := by
    obtain ⟨b, h1, h2⟩ := text?_eq.mp (@Open.here (onShelf H r.shelf nb hb) _ _ _ _ ho).1
    rw [hcur] at h1; cases h1
    exact h2
  have hcl : clampCursor s.noEol s.newBuf.numChars s.cursor = s.cursor := by
    obtain ⟨b, h1, h2, h3⟩ := hr.vi.rests
    rw [show (v, s).2.curBuf? = some s.newBuf from hcur] at h1; cases h1
    dsimp only at h2 h3
    unfold clampCursor Buffer.numChars
    have e1 : (if s.newBuf.data.length < s.cursor then s.newBuf.data.length else s.cursor) = s.cursor := if_neg (by omega)
    simp only [e1]
    rw [if_neg]
    rintro ⟨q1, q2, q3⟩
    rcases h3 q1 with h | h
    · omega
    · exact q2 h
  refine ⟨hd, hl, ?_⟩
  obtain ⟨⟨k', comp⟩, ks, rfl, h1, h2⟩ := List.map_eq_cons_iff.mp hks
  dsimp only at h1
  subst h1
  refine (wp_congr (presses_append E [(seekKey forward, comp)] ks (v, s))).mpr ?_
  rw [wp_bind]
  refine wp_mono (search_press E forward comp hcur (seeking_begin E forward hq hu hok.1 rfl (hok.2.2.2.2.2 (.inr hf)) rfl rfl hh.show' hcl
    hok.2.2.2.1 hok.2.2.1)) (fun _ t1 ⟨g1, g2⟩ => ?_) (fun _ _ h => h) (fun _ h => h)
  refine wp_mono (seek_presses E hcl more g2 h2) (fun _ t' ⟨q1, q2⟩ => ⟨q1.trans g1, ?_, hd ▸ q2⟩) (fun _ _ h => h) (fun _ h => h)
  have := q2.sel
  rw [this]
  unfold Shelf.finds
  rw [hd]

theorem search_rack {r : Rack} {t : Vi × Ed} {forward : Bool} {more : List Bool} {right : Bool} {kcs : List (Key × (Text → List Text))}
    (C : CharClass) (hu : H.share = false) (hr : Racked H r nb hb t) (hh : Hinted t.2) (hc : r.Can C (texts H) (.search forward more right))
    (hks : kcs.map Prod.fst = (Act.search forward more right).keys) :
    Wp (Spec.press keyMap E kcs) t (fun _ t' => ∃ r' nb' hb', Rack.Step C (texts H) (.search forward more right) r r' ∧
      Racked H r' nb' hb' t') T2 (· ≠ .op) := by
  obtain ⟨hf, hne, hat⟩ := hc
  obtain ⟨x, hx⟩ := Option.ne_none_iff_exists'.mp hne
  have hfine : Fine H r.shelf.quit := ⟨hr.fine.loc, fun i hi => (by cases hi), fun i hi => (by cases hi)⟩
  obtain ⟨ks, k1, rfl, h1, h2⟩ := List.map_eq_append_iff.1 hks
  rw [List.map_eq_singleton_iff] at h2
  obtain ⟨⟨k', c⟩, rfl, hk'⟩ := h2
  dsimp only at hk'
  subst hk'
  obtain ⟨hd, hl, hseek⟩ := seek_rack E hu hr hh hf h1
  refine wp_mono (wp_and (Q := fun _ t' => VI t' → ∃ r' nb' hb', Rack.Step C (texts H) (.search forward more right) r r' ∧
    Racked H r' nb' hb' t') (R := T2) (P := (· ≠ .op)) ?_ (kvi_press E (ks ++ [(takeKey right, c)]) t hr.vi)) (fun _ t' h => h.1 h.2) (fun _ _ _ => trivial) (fun _ h => h.1)
  refine (wp_congr (presses_append E ks [(takeKey right, c)] t)).mpr ?_
  rw [wp_bind]
  refine wp_mono hseek (fun _ t1 ⟨g1, g2, g3⟩ => ?_) (fun _ _ h => h) (fun _ h => h)
  obtain ⟨v, s⟩ := t
  obtain ⟨v1, s1⟩ := t1
  obtain rfl : v = v1 := g1.symm
  dsimp only at g2 g3 hd hl
  rw [hx, Option.map_eq_some_iff] at g2
  obtain ⟨X, hX, hXd⟩ := g2
  obtain ⟨w', e1, e2, e3⟩ := accept_seeking E (nb := nb) g3 hf
  rw [hX] at e2
  have hwx : w'.data = x := e2.trans hXd
  rw [hwx] at e3
  have hw : workBuf s = some s.newBuf := by unfold workBuf; rw [hl]
  obtain ⟨e, ho⟩ := hr.here
  have hne1 : s.noEol = e := @Open.ne (onShelf H r.shelf nb hb) _ _ _ _ ho
  have hat1 : At s1 r.hand.left r.hand.right := by
    refine ⟨text?_eq.mpr ⟨_, g3.buf, hd⟩, g3.cursor.trans (@Open.here (onShelf H r.shelf nb hb) _ _ _ _ ho).2⟩
  refine wp_mono (take_press E (Q := fun t' => t'.1 = v ∧ @Open (onShelf H r.shelf.quit nb hb) s.noEol t'.2 (rest s.noEol x []).1 (rest s.noEol x []).2 ∧
      ∃ w2, workBuf t'.2 = some w2 ∧ w2.data = x ∧ w2.actions = w'.actions) rfl hat1 (g3.ne.trans hne1) (by rw [hX]; rfl)
      (fun er => ?_) (fun s1 n h => ⟨h.1, @open_same (onShelf H r.shelf.quit nb hb) _ _ _ _ _ h.2.1 rfl rfl rfl rfl ⟨rfl, rfl, rfl, rfl, fun _ => rfl, rfl, id, fun _ => rfl⟩, h.2.2⟩)
      (wp_mono e3 (fun _ s' h => ⟨rfl, h.1, h.2.1⟩) (fun _ _ h => h) (fun _ h => h))) (fun _ t' ⟨q1, q2, w2, q3, q4, q5⟩ hvi => ?_) (fun _ _ h => h) (fun _ h => h)
  · have := hat er
    obtain ⟨hd0, f⟩ := r
    cases hd0 with
    | board b =>
      have : s.noEol = true := @Open.ne (onShelf H f nb hb) _ _ _ _ (@Shows.here (onShelf H f nb hb) _ _ hr.hand)
      rw [this] at hne1
      subst hne1
      exact ⟨fun _ => hat er, fun h => (by cases h)⟩
    | pen p full last =>
      have : s.noEol = false := @Open.ne (onShelf H f nb hb) _ _ _ _ (@Inks.here (onShelf H f nb hb) _ _ _ _ hr.hand.2)
      rw [this] at hne1
      subst hne1
      exact ⟨fun h => (by cases h), fun _ => hat er⟩
  · obtain ⟨hd0, f⟩ := r
    refine ⟨_, nb, hb, .search (x := x) hx, hfine, hr.leaf, hr.copy, ?_⟩
    cases hd0 with
    | board b =>
      have hs : @Shows (onShelf H f nb hb) b (v, s) := hr.hand
      have : s.noEol = true := @Open.ne (onShelf H f nb hb) _ _ _ _ (@Shows.here (onShelf H f nb hb) _ _ hs)
      rw [this] at q2
      refine became_board hs hvi q1 q2 q3 ?_
      obtain ⟨y, ⟨-, w, hw1, hwd, hwa⟩, hyt, hpast⟩ := @Shows.line (onShelf H f nb hb) _ _ hs
      dsimp only at hw1
      rw [hw] at hw1; cases hw1
      obtain ⟨w3, c1, c2, c3⟩ := copy_past s.newBuf X
      rw [e1 X hX] at c1; cases c1
      rw [q4, ← hwx, q5]
      have := c3 b.full b.past (by rw [hwd, hwa]; exact hpast)
      rw [show s.newBuf.data = b.text from hwd.trans hyt] at this
      exact this
    | pen p full last =>
      obtain ⟨-, hi⟩ : VI (v, s) ∧ @Inks (onShelf H f nb hb) p full last (v, s) := hr.hand
      have : s.noEol = false := @Open.ne (onShelf H f nb hb) _ _ _ _ (@Inks.here (onShelf H f nb hb) _ _ _ _ hi)
      rw [this] at q2
      refine ⟨hvi, became_pen hi q1 q2 fun w hw1 => ?_⟩
      rw [hw] at hw1; cases hw1
      obtain ⟨w3, es, c1, c2, c3, c4, c5⟩ := copy_log s.newBuf X
      rw [e1 X hX] at c1; cases c1
      exact ⟨w2, es, q3, c3, by rw [q5, c4], by rw [q4, ← hwx]; exact c5⟩

/-! ### Searches with keys typed -/

/-- The search begins. -/
theorem quest_begins {p : Pen} {full : Bool} {last : Option (Char × CharMovement)} {t : Vi × Ed} {forward : Bool} {comp : Text → List Text}
    (hu : H.share = false) (hr : Racked H ⟨.pen p full last, f⟩ nb hb t) (hh : Hinted t.2) (hf : f.shown = none) :
    Wp (Spec.press keyMap E [(seekKey forward, comp)]) t (fun _ t' =>
      Seeking H forward t'.2.newBuf hb false t'.2.cursor (f.hunt (texts H) p forward).2 t'.2 ∧
      @Inks (onShelf H f.quit nb hb) p full last (t'.1, Editor.quiet t'.2)) T2 (· ≠ .op) := by
  obtain ⟨hvi, hi⟩ : VI t ∧ @Inks (onShelf H f nb hb) p full last t := hr.hand
  obtain ⟨hd, hl, hseek⟩ := seek_rack E (forward := forward) (more := []) (kcs := [(seekKey forward, comp)]) hu hr hh hf rfl
  refine wp_mono hseek (fun _ t1 ⟨g1, _, g3⟩ => ?_) (fun _ _ h => h) (fun _ h => h)
  obtain ⟨v, s⟩ := t
  obtain ⟨v1, s1⟩ := t1
  obtain rfl : v1 = v := g1
  dsimp only at g3 hd hl
  have ho := @Inks.here (onShelf H f nb hb) _ _ _ _ hi
  rw [show s.noEol = false from @Open.ne (onShelf H f nb hb) _ _ _ _ ho] at g3
  obtain ⟨q1, q2⟩ := @seeking_open (onShelf H f.quit nb hb) _ _ _ _ _ _ _ p.left p.right
    (fun s h1 h2 h3 => ⟨h1, h2.trans hf.symm, rfl, rfl, fun h => absurd hf h, fun _ => h3⟩) g3 hd
    (@Open.here (onShelf H f nb hb) _ _ _ _ ho).2
  refine ⟨?_, inks_held hi q1 (q2.trans ?_)⟩
  · dsimp only
    rw [g3.new, g3.cursor]
    have e : ∀ o : Option Nat, o.map (List.foldl (searchStep (Desk.holding (texts H) (Hand.pen p full last).text).length) · []) = o := by
      intro o; cases o <;> rfl
    rw [e] at g3
    exact g3
  · unfold workBuf; rw [hl]

/-- It leads to the entry found. -/
theorem quest_runs {p : Pen} {full : Bool} {last : Option (Char × CharMovement)} {t : Vi × Ed} {forward : Bool} {more : List Key}
    {kcs : List (Key × (Text → List Text))} (hu : H.share = false) (hr : Racked H ⟨.pen p full last, f⟩ nb hb t) (hh : Hinted t.2) (hf : f.shown = none)
    (hc : Hunts.Can (texts H) forward more (f.hunt (texts H) p forward)) (hks : kcs.map Prod.fst = seekKey forward :: more) :
    Wp (Spec.press keyMap E kcs) t (fun _ t' => ∃ p' k', Hunts (texts H) forward more (f.hunt (texts H) p forward) (p', k') ∧
      Seeking H forward t'.2.newBuf hb false t'.2.cursor k' t'.2 ∧ t'.2.newBuf.data = p'.text ∧
      @Inks (onShelf H f.quit nb hb) p' full last (t'.1, Editor.quiet t'.2)) T2 (· ≠ .op) := by
  obtain ⟨⟨k', comp⟩, ks, rfl, h1, h2⟩ := List.map_eq_cons_iff.mp hks
  dsimp only at h1
  subst h1
  refine (wp_congr (presses_append E [(seekKey forward, comp)] ks t)).mpr ?_
  rw [wp_bind]
  refine wp_mono (quest_begins E hu hr hh hf) (fun _ t1 ⟨g1, g2⟩ => ?_) (fun _ _ h => h) (fun _ h => h)
  refine wp_mono (@hunt_presses (onShelf H f.quit nb hb) E H forward hb full last
    (fun s h1 h2 h3 => ⟨h1, h2.trans hf.symm, rfl, rfl, fun h => absurd hf h, fun _ => h3⟩) more p _ t1 ks g1 g2 hc h2)
    (fun _ t' ⟨p', k', q1, q2, q3⟩ => ⟨p', k', q1, q2, ?_, q3⟩) (fun _ _ h => h) (fun _ h => h)
  obtain ⟨b, e1, e2⟩ := text?_eq.mp (@Open.here (onShelf H f.quit nb hb) _ _ _ _ (@Inks.here (onShelf H f.quit nb hb) _ _ _ _ q3)).1
  unfold Ed.curBuf? at e1
  rw [show (Editor.quiet t'.2).curHistoryLoc = none from q2.srch.loc] at e1
  cases e1
  exact e2

theorem quest_rack {r : Rack} {t : Vi × Ed} {forward : Bool} {more : List Key} {right : Bool} {kcs : List (Key × (Text → List Text))}
    (C : CharClass) (hu : H.share = false) (hr : Racked H r nb hb t) (hh : Hinted t.2) (hc : r.Can C (texts H) (.quest forward more right))
    (hks : kcs.map Prod.fst = (Act.quest forward more right).keys) :
    Wp (Spec.press keyMap E kcs) t (fun _ t' => ∃ r' nb' hb', Rack.Step C (texts H) (.quest forward more right) r r' ∧
      Racked H r' nb' hb' t') T2 (· ≠ .op) := by
  obtain ⟨hd0, f⟩ := r
  obtain ⟨p, full, last, rfl, hf, hcan, hend⟩ := hc
  obtain ⟨hvi, hi⟩ : VI t ∧ @Inks (onShelf H f nb hb) p full last t := hr.hand
  have hfine : Fine H f.quit := ⟨hr.fine.loc, fun i hi => (by cases hi), fun i hi => (by cases hi)⟩
  obtain ⟨ks, k1, rfl, h1, h2⟩ := List.map_eq_append_iff.1 hks
  rw [List.map_eq_singleton_iff] at h2
  obtain ⟨⟨k', c⟩, rfl, hk'⟩ := h2
  dsimp only at hk'
  subst hk'
  refine wp_mono (wp_and (Q := fun _ t' => VI t' → ∃ r' nb' hb', Rack.Step C (texts H) (.quest forward more right) ⟨.pen p full last, f⟩ r' ∧
    Racked H r' nb' hb' t') (R := T2) (P := (· ≠ .op)) ?_ (kvi_press E (ks ++ [(takeKey right, c)]) t hvi)) (fun _ t' h => h.1 h.2) (fun _ _ _ => trivial) (fun _ h => h.1)
  refine (wp_congr (presses_append E ks [(takeKey right, c)] t)).mpr ?_
  rw [wp_bind]
  refine wp_mono (quest_runs E hu hr hh hf hcan h1) (fun _ t1 ⟨p', k, g1, g2, g4, g3⟩ => ?_) (fun _ _ h => h) (fun _ h => h)
  obtain ⟨v1, s1⟩ := t1
  dsimp only at g2 g3 g4
  obtain ⟨hx, hat⟩ := hend _ g1
  obtain ⟨x, hx⟩ := Option.ne_none_iff_exists'.mp hx
  have hX : s1.autosuggestion.map (·.data) = quarry (texts H) (p', k) := by rw [g2.sel, g4]; rfl
  rw [hx, Option.map_eq_some_iff] at hX
  obtain ⟨X, hX, hXd⟩ := hX
  obtain ⟨w', e1, e2, e3⟩ := accept_seeking E (nb := nb) g2 hf
  rw [hX] at e2
  have hwx : w'.data = x := e2.trans hXd
  rw [hwx] at e3
  have ho := @Inks.here (onShelf H f.quit nb hb) _ _ _ _ g3
  have hat1 : At s1 p'.left p'.right :=
    ⟨text?_eq.mpr ⟨_, g2.buf, g4⟩, (@Open.here (onShelf H f.quit nb hb) _ _ _ _ ho).2⟩
  refine wp_mono (take_press E (Q := fun t' => t'.1 = v1 ∧ @Open (onShelf H f.quit nb hb) false t'.2 (rest false x []).1 (rest false x []).2 ∧
      ∃ w2, workBuf t'.2 = some w2 ∧ w2.data = x ∧ w2.actions = w'.actions) rfl hat1 g2.ne (by rw [hX]; rfl)
      (fun er => ⟨fun h => (by cases h), fun _ => hat er⟩) (fun s1 n h => ⟨h.1, @open_same (onShelf H f.quit nb hb) _ _ _ _ _ h.2.1 rfl rfl rfl rfl ⟨rfl, rfl, rfl, rfl, fun _ => rfl, rfl, id, fun _ => rfl⟩, h.2.2⟩)
      (wp_mono e3 (fun _ s' h => ⟨rfl, h.1, h.2.1⟩) (fun _ _ h => h) (fun _ h => h))) (fun _ t' ⟨q1, q2, w2, q3, q4, q5⟩ hvi => ?_) (fun _ _ h => h) (fun _ h => h)
  refine ⟨_, nb, hb, .quest g1 hx, hfine, hr.leaf, hr.copy, hvi, became_pen (f := f.quit) g3 q1 q2 fun w hw1 => ?_⟩
  have hw : workBuf (Editor.quiet s1) = some s1.newBuf := by
    unfold workBuf; rw [show (Editor.quiet s1).curHistoryLoc = none from g2.srch.loc]; rfl
  rw [hw] at hw1; cases hw1
  obtain ⟨w3, es, c1, c2, c3, c4, c5⟩ := copy_log s1.newBuf X
  rw [e1 X hX] at c1; cases c1
  exact ⟨w2, es, q3, c3, by rw [q5, c4], by rw [q4, ← hwx]; exact c5⟩

/-! ### Anything -/

/-- One act. -/
theorem act_press (hC : Apart E.cc) (hu : H.share = false) {a : Act} {r : Rack} {t : Vi × Ed}
    {kcs : List (Key × (Text → List Text))} (hr : Racked H r nb hb t) (hh : Hinted t.2) (hn : t.2.showCompletionsHint = none)
    (hc : r.Can E.cc (texts H) a) (hks : kcs.map Prod.fst = a.keys) :
    Wp (Spec.press keyMap E kcs) t (fun _ t' => ∃ r' nb' hb', Rack.Step E.cc (texts H) a r r' ∧ Racked H r' nb' hb' t') T2 (· ≠ .op) := by
  obtain ⟨h, f⟩ := r
  have one : ∀ k, a.keys = [k] → ∃ c, kcs = [(k, c)] := by
    intro k hk
    rw [hk, List.map_eq_singleton_iff] at hks
    obtain ⟨⟨k', c⟩, rfl, hk'⟩ := hks
    exact ⟨c, by rw [← hk']⟩
  cases a with
  | command c =>
    obtain ⟨b, rfl, hcan, hne⟩ := hc
    exact wp_mono (@board_step (onShelf H f nb hb) E b c t kcs (.inr hne) hC hr.hand (.inl hn) hcan hks)
      (fun _ t' ⟨b', q1, q2⟩ => ⟨⟨.board b', f⟩, nb, hb, .command q1, hr.fine, hr.leaf, hr.copy, q2⟩) (fun _ _ h => h) (fun _ h => h)
  | begin op ds =>
    obtain ⟨b, rfl, hd, hcan⟩ := hc
    exact wp_mono (@opens_inks (onShelf H f nb hb) E _ _ _ _ _ hC hr.hand hd hcan hks) (fun _ t1 ⟨i1, p, i2, i3⟩ =>
      ⟨⟨.pen (b.pen op ds p) b.full (op.search b.last), f⟩, nb, hb, .begin i2, hr.fine, hr.leaf, hr.copy, i1, i3⟩) (fun _ _ h => h) (fun _ h => h)
  | key k =>
    obtain ⟨p, full, last, rfl, hk, hright⟩ := hc
    obtain ⟨hvi, hi⟩ := hr.hand
    obtain ⟨c, rfl⟩ := one k rfl
    refine wp_mono (@inks_key (onShelf H f nb hb) E full last k p t c (.inr (usual_writing hk).enter) hvi hi hn (.inl ⟨hk, fun e => ?_⟩))
      (fun _ t' ⟨⟨q1, _⟩, p', q2, q3⟩ => ⟨⟨.pen p' full last, f⟩, nb, hb, .key q2, hr.fine, hr.leaf, hr.copy, q1, q3⟩) (fun _ _ h => h) (fun _ h => h)
    refine (hright e).imp id fun ⟨hf, hx⟩ => ?_
    have := taken hh (@Inks.here (onShelf H f nb hb) _ _ _ _ hi) hf
    rw [show Spec.hint (texts H) (p.left ++ p.right) = none from hx] at this
    exact Option.map_eq_none_iff.mp this
  | leave =>
    obtain ⟨p, full, last, rfl⟩ := hc
    obtain ⟨hvi, hi⟩ := hr.hand
    refine wp_mono (@inks_rest (onShelf H f nb hb) E ⟨[], 0, 0, last, none, [], full⟩ p t [] kcs (.inr (by simp)) hvi hi hn trivial hks)
      (fun _ t' ⟨p', b', q1, q2, q3⟩ => ?_) (fun _ _ h => h) (fun _ h => h)
    cases q1
    exact ⟨⟨.board b', f⟩, nb, hb, .leave rfl rfl q2, hr.fine, hr.leaf, hr.copy, q3⟩
  | enter =>
    obtain ⟨c, rfl⟩ := one _ rfl
    exact enter_rack E hr hn hc
  | turn up letter =>
    obtain ⟨k, hk⟩ : ∃ k, (Act.turn up letter).keys = [k] := by cases up <;> cases letter <;> exact ⟨_, rfl⟩
    obtain ⟨c, rfl⟩ := one k hk
    exact turn_rack E E.cc hu hr hc hk
  | take right =>
    obtain ⟨c, rfl⟩ := one _ rfl
    exact take_rack E E.cc hr hh hc
  | search forward more right => exact search_rack E E.cc hu hr hh hc hks
  | quest forward more right => exact quest_rack E E.cc hu hr hh hc hks

theorem usual_seek (f : Bool) : Usual (seekKey f) := by cases f <;> constructor <;> simp [seekKey]

theorem seek_writing (f : Bool) : ¬ WritingKey (seekKey f) := by
  cases f <;> simp [WritingKey, Types, Moves, Inert, seekKey]

theorem hunt_goes {es : List Text} {d : Bool} : ∀ {k : Key} {x : Pen × Option Nat}, Hunts.Can es d [k] x → ∃ x', Hunts es d [k] x x' := by
  intro k ⟨p, i⟩ ⟨h, _⟩
  rcases h with ⟨f, rfl⟩ | ⟨hk, -⟩
  · exact ⟨_, .seek (.nil _)⟩
  · obtain ⟨p', hp⟩ : ∃ p', Pen.Step k p p' := by
      rcases hk with hk | hk | hk
      · by_cases hm : p.moved = true
        · exact ⟨_, .restart hk hm (.inl rfl)⟩
        · exact ⟨_, .type hk (by simpa using hm)⟩
      · exact ⟨_, .move hk⟩
      · exact ⟨_, .inert hk⟩
    exact ⟨_, .write hk hp (.nil _)⟩

theorem hunt_usual {es : List Text} {d : Bool} : ∀ {ks : List Key} {x : Pen × Option Nat}, Hunts.Can es d ks x → ∀ k ∈ ks, Usual k
  | [], x, _, k, hk => by cases hk
  | k0 :: ks, x, h, k, hk => by
    rcases List.mem_cons.1 hk with rfl | hk
    · rcases h.1 with ⟨f, rfl⟩ | ⟨hw, -⟩
      · exact usual_seek f
      · exact usual_writing hw
    · obtain ⟨x', hx⟩ := hunt_goes (d := d) (es := es) (k := k0) (x := x) ⟨h.1, fun _ _ => trivial⟩
      exact hunt_usual (h.2 x' hx) k hk

theorem act_usual {C : CharClass} {es : List Text} {a : Act} {r : Rack} (hc : r.Can C es a) (he : a ≠ .enter) (hm : ∀ c, a ≠ .command c) :
    ∀ k ∈ a.keys, Usual k := by
  cases a with
  | command c => exact absurd rfl (hm c)
  | begin op ds => obtain ⟨b, -, hd, hcan⟩ := hc; exact fun k hk => usual_of (opening_seen hd hcan k hk)
  | key k => obtain ⟨p, full, last, -, hk, -⟩ := hc; intro k' hk'; obtain rfl : k' = k := (by simpa [Act.keys] using hk'); exact usual_writing hk
  | leave => intro k hk; obtain rfl : k = .esc := (by simpa [Act.keys] using hk); exact usual_esc
  | enter => exact absurd rfl he
  | turn up letter =>
    intro k hk
    have : (Act.turn up letter).keys = [k] := by cases up <;> cases letter <;> (simp only [Act.keys, List.mem_singleton] at hk; subst hk; rfl)
    exact usual_of (turn_seen up letter this)
  | take right => intro k hk; cases right <;> (simp only [Act.keys, List.mem_singleton, takeKey] at hk; subst hk; constructor <;> simp)
  | search forward more right =>
    intro k hk
    simp only [Act.keys, List.mem_append, List.mem_map, List.mem_singleton] at hk
    rcases hk with ⟨f, -, rfl⟩ | rfl
    · cases f <;> constructor <;> simp [seekKey]
    · cases right <;> constructor <;> simp [takeKey]
  | quest forward more right =>
    obtain ⟨p, full, last, -, -, hcan, -⟩ := hc
    intro k hk
    simp only [Act.keys, List.mem_append, List.mem_cons, List.not_mem_nil, or_false] at hk
    rcases hk with (rfl | hk) | rfl
    · exact usual_seek forward
    · exact hunt_usual hcan k hk
    · cases right <;> constructor <;> simp [takeKey]

section
variable {tail : List KeyMap.Input} {Q : Text → Vi × Ed → Prop} {R : IoErr → Vi × Ed → Prop} {P : Site → Prop}
  (hR : ∀ e t, Fails E e → R e t) (hP : ∀ w, w ≠ .op → P w)
include hR hP

theorem act_rack (hC : Apart E.cc) (hu : H.share = false) {a : Act} {r : Rack} {t : Vi × Ed}
    {kcs : List (Key × (Text → List Text))} (hr : Racked H r nb hb t) (hh : Hinted t.2) (hn : t.2.showCompletionsHint = none)
    (hc : r.Can E.cc (texts H) a) (hks : kcs.map Prod.fst = a.keys)
    (g : ∀ r' nb' hb' t', Rack.Step E.cc (texts H) a r r' → Racked H r' nb' hb' t' → Hinted t'.2 → t'.2.showCompletionsHint = none →
      Wp (keyMap.loop E tail) t' Q R P) :
    Wp (keyMap.loop E (Spec.typed kcs ++ tail)) t Q R P := by
  have key : Wp (Spec.press keyMap E kcs) t (fun _ t' => t'.2.showCompletionsHint = none → Wp (keyMap.loop E tail) t' Q R P) T2 P :=
    wp_mono (wp_and (act_press E hC hu hr hh hn hc hks) (hinted_press E kcs t hh)) (fun _ t' ⟨⟨r', nb', hb', h1, h2⟩, h3⟩ hn' =>
      g r' nb' hb' t' h1 h2 h3 hn') (fun _ _ _ => trivial) (fun w h => hP w h.1)
  by_cases hm : ∃ c, a = .command c
  · obtain ⟨c, rfl⟩ := hm
    obtain ⟨h, f⟩ := r
    obtain ⟨b, rfl, hcan, hne⟩ := hc
    refine @loop_board (onShelf H f nb hb) E tail Q R P hR hP (fun t => Hinted t.2) (hinted_press E) hC [c] b t kcs (.inr (by simpa using hne)) hr.hand hh hn
      ⟨hcan, fun _ _ => trivial⟩ (by simpa [Act.keys] using hks) fun b' t' q1 q2 q3 q4 => ?_
    cases q1 with
    | cons h1 h2 =>
      cases h2
      exact g ⟨.board b', f⟩ nb hb t' (.command h1) ⟨hr.fine, hr.leaf, hr.copy, q2⟩ q3 q4
  by_cases he : a = .enter
  · subst he
    rw [show Act.keys .enter = [Key.char '\n'] from rfl, List.map_eq_singleton_iff] at hks
    obtain ⟨⟨k', c⟩, rfl, hk'⟩ := hks
    dsimp only at hk'
    subst hk'
    obtain ⟨e, ho⟩ := hr.here
    exact @loop_goes (onShelf H r.shelf nb hb) E c tail Q R P hR e t _ _ ho hn hc key
  · exact loop_press E hR kcs t (usual_keys (act_usual hc he fun c e => hm ⟨c, e⟩) hks) hn key

theorem loop_rack (hC : Apart E.cc) (hu : H.share = false) : ∀ (as : List Act) (r : Rack) (nb hb : Buffer) (t : Vi × Ed)
    (kcs : List (Key × (Text → List Text))), Racked H r nb hb t → Hinted t.2 → t.2.showCompletionsHint = none → Rack.CanAll E.cc (texts H) as r →
    kcs.map Prod.fst = as.flatMap Act.keys →
    (∀ r' nb' hb' t', Rack.Steps E.cc (texts H) as r r' → Racked H r' nb' hb' t' → Hinted t'.2 → t'.2.showCompletionsHint = none →
      Wp (keyMap.loop E tail) t' Q R P) →
    Wp (keyMap.loop E (Spec.typed kcs ++ tail)) t Q R P
  | [], r, nb, hb, t, kcs, hr, hh, hn, _, hks, g => by
    obtain rfl : kcs = [] := by simpa using hks
    exact g r nb hb t (.nil r) hr hh hn
  | a :: as, r, nb, hb, t, kcs, hr, hh, hn, hc, hks, g => by
    rw [List.flatMap_cons] at hks
    obtain ⟨k1, k2, rfl, h1, h2⟩ := List.map_eq_append_iff.1 hks
    rw [typed_append, List.append_assoc]
    exact act_rack E hR hP hC hu hr hh hn hc.1 h1 fun r1 nb1 hb1 t1 q1 q2 q3 q4 =>
      loop_rack hC hu as r1 nb1 hb1 t1 k2 q2 q3 q4 (hc.2 r1 q1) h2 fun r' nb' hb' t' p1 p2 p3 p4 => g r' nb' hb' t' (.cons q1 p1) p2 p3 p4

end

theorem hinted_session (p p' : Prompt) (h : History) (fs : FS) (b : Buffer) :
    Wp (session keyMap E p []) (({} : Vi), initial p' h fs b) (fun _ t' => Hinted t'.2) T2 T1 :=
  wp_mono (wp_and (tied_session keyMap E (w := .vi) (b := true) (fun _ => rfl) (Vi.uses_init E) p [] (fun _ h => by cases h) _ (initial_td true p' h fs b))
    ((sets_kept E .vi).usesK (uses_session keyMap E (Vi.uses_init E) p [] (fun _ h => by cases h)) _ trivial))
    (fun _ t' h' => ⟨h'.1, h'.2.2.showSug.trans rfl⟩) (fun _ _ _ => trivial) (fun _ _ => trivial)

theorem read_racked {tail : List KeyMap.Input} {Q : Text → Vi × Ed → Prop} {R : IoErr → Vi × Ed → Prop}
    (hR : ∀ e t, Fails E e → R e t) (hC : Apart E.cc) (p p' : Prompt) (hu : H.share = false) (fs : FS) (b : Buffer)
    (hb : b.actions = []) (as : List Act) (hc : Rack.CanAll E.cc (texts H) as (Rack.fresh b.data))
    {kcs : List (Key × (Text → List Text))} (hks : kcs.map Prod.fst = as.flatMap Act.keys)
    (g : ∀ r nb hb t', Rack.Steps E.cc (texts H) as (Rack.fresh b.data) r →
      Racked H r nb hb t' → Hinted t'.2 → t'.2.showCompletionsHint = none →
      Wp (keyMap.loop E tail) t' Q R (· ≠ .op)) :
    Wp (keyMap.readLine E p (Spec.typed kcs ++ tail)) (({} : Vi), initial p' H fs b) Q R
      (fun w => w = .op → E.ttyWidth = some 0) := by
  refine (wp_congr (read_then E p _ _)).mpr ?_
  rw [wp_bind]
  have h0 : OnShelf H (Rack.fresh b.data).shelf b {} (initial p' H fs b) := ⟨rfl, rfl, rfl, rfl, fun h => absurd rfl h, fun _ => rfl⟩
  refine wp_mono (wp_and (@begin_now (onShelf H (Rack.fresh b.data).shelf b {}) E p p' H fs b h0) (hinted_session E p p' H fs b))
    (fun _ t ⟨⟨h1, h2⟩, hh⟩ => ?_) (fun e t h => hR e t h.1) (fun _ h => h.1)
  have hi := @now_inks (onShelf H (Rack.fresh b.data).shelf b {}) b t hb h1
  have hr : Racked H (Rack.fresh b.data) b {} t := ⟨⟨fun i h => (by cases h), fun i h => (by cases h), fun i h => (by cases h)⟩,
    fun h => absurd rfl h, ⟨rfl, fun _ n => ⟨([], []), undones_nil n [], rfl⟩⟩, h1.1.vi, hi⟩
  exact wp_mono (loop_rack E hR (fun _ h => h) hC hu as _ b {} t kcs hr hh h2 hc hks fun r nb hb t' q1 q2 q3 q4 => g r nb hb t' q1 q2 q3 q4)
    (fun _ _ h => h) (fun _ _ h => h) (fun w h h' => absurd h' h)

theorem read_rack {tail : List KeyMap.Input} {Q : Text → Vi × Ed → Prop} {R : IoErr → Vi × Ed → Prop}
    (hR : ∀ e t, Fails E e → R e t) (hC : Apart E.cc) (p p' : Prompt) (hu : H.share = false) (fs : FS) (b : Buffer)
    (hb : b.actions = []) (as : List Act) (hc : Rack.CanAll E.cc (texts H) as (Rack.fresh b.data))
    {kcs : List (Key × (Text → List Text))} (hks : kcs.map Prod.fst = as.flatMap Act.keys)
    (g : ∀ r nb hb e t', Rack.Steps E.cc (texts H) as (Rack.fresh b.data) r →
      @Open (onShelf H r.shelf nb hb) e t'.2 r.hand.left r.hand.right → t'.2.showCompletionsHint = none →
      Wp (keyMap.loop E tail) t' Q R (· ≠ .op)) :
    Wp (keyMap.readLine E p (Spec.typed kcs ++ tail)) (({} : Vi), initial p' H fs b) Q R
      (fun w => w = .op → E.ttyWidth = some 0) :=
  read_racked E hR hC p p' hu fs b hb as hc hks fun r nb hb t' q1 q2 _ q3 => by
    obtain ⟨e, ho⟩ := q2.here
    exact g r nb hb e t' q1 ho q3

/-- Enter during a search. -/
theorem newline_seeking {w : Buffer} {d e : Bool} {c : Nat} {k : Option Nat} {s : Ed} {x : Text}
    (h : Seeking H d w hb e c k s) (hh : s.showCompletionsHint = none) (hx : (s.autosuggestion.map (·.data)).getD w.data = x) :
    Wp (handleNewline E) s (fun done s' => (rest e x []).1.getLast? ≠ some '\\' → done = true ∧ text? s' = some x) (fun _ _ => True) (· ≠ .op) := by
  have hs : s.isSearch = true := by exact h.srch.search
  have h' : Seeking H d w hb e c k { s with historyFresh := false } := by
    obtain ⟨h0, h1, h2, h3, h4, h5, h6, h7⟩ := h
    exact ⟨⟨h0.1, h0.2, h0.3, h0.4, h0.5, h0.6, h0.7, h0.8⟩, h1, h2, h3, h4, h5, h6, h7⟩
  obtain ⟨w', -, e2, e3⟩ := accept_seeking E (f := { new := ⟨[], [], true⟩ }) (nb := w) h' rfl
  have hwx : w'.data = x := e2.trans hx
  rw [hwx] at e3
  unfold handleNewline acceptIfSearch clearSearch
  rw [wp_bind, wp_modify, wp_bind, wp_bind, wp_get, if_pos (by exact hs)]
  refine wp_mono e3 (fun _ s1 h1 => ?_) (fun _ _ h => h) (fun _ h => h)
  rw [wp_bind, wp_modify]
  have ho : @Open anywhere e s1 (rest e x []).1 (rest e x []).2 := @Open.plain (onShelf H _ w hb) _ _ _ _ h1.1
  refine wp_mono (@finishes_open anywhere E e _ _ _ (@Open.mk anywhere _ _ _ _ rfl ho.ne trivial ho.here) (h1.2.2.trans hh)) (fun done s' h2 hl => ?_) (fun _ _ h => h) (fun _ h => h)
  have := (h2.2 hl).2
  rw [rest_append, List.append_nil] at this
  exact ⟨(h2.2 hl).1, this⟩

theorem loop_found {w : Buffer} {d e : Bool} {c : Nat} {k : Option Nat} {t : Vi × Ed} {comp : Text → List Text} {x : Text} {tail : List KeyMap.Input}
    (h : Seeking H d w hb e c k t.2) (hh : t.2.showCompletionsHint = none) (hx : (t.2.autosuggestion.map (·.data)).getD w.data = x)
    (hl : (rest e x []).1.getLast? ≠ some '\\') :
    Wp (keyMap.loop E (.key (.char '\n') comp :: tail)) t (fun txt _ => txt = x) (fun e _ => Fails E e) (· ≠ .op) := by
  obtain ⟨v, s⟩ := t
  unfold KeyMap.loop
  rw [wp_bind]
  have h1 : Wp (keyMap.handleKey E comp (.char '\n')) (v, s) (fun done t' => done = true ∧ text? t'.2 = some x) (fun _ _ => True) (· ≠ .op) := by
    rw [wp_congr (handleKey_eq keyMap E comp (t := (v, s)) h.buf _), wp_bind]
    have : KeyMap.translate (.char '\n') = .char '\n' := by decide
    rw [this, wp_congr (dispatch_newline keyMap E comp (v, s)), wp_ed]
    refine wp_mono (newline_seeking E h hh hx) (fun done s' h2 => ?_) (fun _ _ h => h) (fun _ h => h)
    rw [wp_bind, wp_ed, wp_flush]
    exact ⟨fun _ => h2 hl, fun _ => trivial⟩
  refine wp_mono (wp_and h1 (key_fails E comp (v, s) (.char '\n'))) (fun done t1 h2 => ?_) (fun e t' h2 => ?_) (fun _ h => h.1)
  · obtain ⟨⟨rfl, h3⟩, -⟩ := h2
    rw [if_pos rfl, wp_bind, wp_ed, wp_get]
    have : intoText t1.2 = some x := h3
    rw [this]
    exact rfl
  · rcases h2.2 with h | h | h
    · exact h
    · cases h.2
    · cases h.2.1

/-- Ctrl-C during a search, and Ctrl-D with an empty line. -/
theorem loop_quits {w : Buffer} {d e : Bool} {c : Nat} {k : Option Nat} {t : Vi × Ed} {comp : Text → List Text} {tail : List KeyMap.Input} {key : Key} {err : IoErr}
    (h : Seeking H d w hb e c k t.2) (hh : t.2.showCompletionsHint = none)
    (hk : (key = .ctrl 'c' ∧ err = .interrupted) ∨ (key = .ctrl 'd' ∧ w.data = [] ∧ err = .unexpectedEof)) :
    Wp (keyMap.loop E (.key key comp :: tail)) t (fun _ _ => False) (fun e _ => e = err ∨ Fails E e) (· ≠ .op) := by
  obtain ⟨v, s⟩ := t
  unfold KeyMap.loop
  rw [wp_bind]
  have h1 : Wp (keyMap.handleKey E comp key) (v, s) (fun _ _ => False) (fun _ _ => True) (· ≠ .op) := by
    rw [wp_congr (handleKey_eq keyMap E comp (t := (v, s)) h.buf _), wp_bind]
    have fin : ∀ e, Wp (do let _ ← KM.ed (handleNewline E); M.throw e : KM Vi Bool) (v, s) (fun _ _ => False)
        (fun _ _ => True) (· ≠ .op) := by
      intro e
      rw [wp_bind, wp_ed]
      exact wp_mono (newline_seeking E h hh rfl) (fun _ _ _ => trivial) (fun _ _ h => h) (fun _ h => h)
    refine wp_mono (Q := fun _ _ => False) (R := fun _ _ => True) (P := (· ≠ .op)) ?_ (fun _ _ h => h.elim) (fun _ _ h => h)
      (fun _ h => h)
    rcases hk with ⟨rfl, -⟩ | ⟨rfl, he, -⟩
    · rw [show KeyMap.translate (.ctrl 'c') = .ctrl 'c' from by decide]
      refine (wp_congr ?_).mpr (fin .interrupted)
      unfold KeyMap.dispatch
      rw [bind_ok (m := KM.ed M.get) (a := (v, s).2) (s' := (v, s)) rfl]
      dsimp only
      rw [if_pos rfl]
    · rw [show KeyMap.translate (.ctrl 'd') = .ctrl 'd' from by decide]
      refine (wp_congr ?_).mpr (fin .unexpectedEof)
      unfold KeyMap.dispatch
      rw [bind_ok (m := KM.ed M.get) (a := (v, s).2) (s' := (v, s)) rfl]
      dsimp only
      rw [if_neg (by simp), if_pos ⟨rfl, by simp [Buffer.isEmpty, he]⟩]
  refine wp_mono (wp_and h1 (key_fails E comp (v, s) key)) (fun _ _ h => h.1.elim) (fun e t' h2 => ?_) (fun _ h => h.1)
  rcases h2.2 with h2 | h2 | h2
  · exact .inr h2
  · refine .inl ?_
    rcases hk with hk | hk
    · rw [h2.1, hk.2]
    · rw [hk.1] at h2; cases h2.2
  · refine .inl ?_
    rcases hk with hk | hk
    · rw [hk.1] at h2; cases h2.2.1
    · rw [h2.1, hk.2.2]

/-- Searches and Enter. -/
theorem loop_search {tail : List KeyMap.Input} {r : Rack} {t : Vi × Ed} {forward : Bool} {more : List Bool} {kcs : List (Key × (Text → List Text))}
    {comp : Text → List Text} {x : Text} (hu : H.share = false) (hr : Racked H r nb hb t) (hh : Hinted t.2) (hn : t.2.showCompletionsHint = none)
    (hf : r.shelf.shown = none) (hks : kcs.map Prod.fst = (forward :: more).map seekKey)
    (hx : (r.shelf.finds (texts H) r.hand.text forward more).getD r.hand.text = x) (hl : (r.hand.ending x).getLast? ≠ some '\\') :
    Wp (keyMap.loop E (Spec.typed kcs ++ .key (.char '\n') comp :: tail)) t (fun txt _ => txt = x) (fun e _ => Fails E e) (· ≠ .op) := by
  refine loop_press E (fun _ _ h => h) kcs t (usual_keys (ks := (forward :: more).map seekKey) (fun k hk => ?_) hks) hn ?_
  · obtain ⟨f, -, rfl⟩ := List.mem_map.mp hk
    cases f <;> constructor <;> simp [seekKey]
  obtain ⟨hd, -, hseek⟩ := seek_rack E hu hr hh hf hks
  refine wp_mono hseek (fun _ t1 ⟨g1, g2, g3⟩ hn1 => loop_found E g3 hn1 (by rw [g2, hd]; exact hx) ?_) (fun _ _ h => h) (fun _ h => h)
  have ending : ∀ y : Text, (rest true y []).1 = y.dropLast := by
    intro y
    have := rest_at (t := y) (q := y.length) (Nat.le_refl _)
    rw [List.take_length, List.drop_length, Nat.min_eq_right (Nat.sub_le ..)] at this
    rw [this, List.dropLast_eq_take]
  obtain ⟨hd0, f⟩ := r
  cases hd0 with
  | board b =>
    rw [show t.2.noEol = true from @Open.ne (onShelf H f nb hb) _ _ _ _ (@Shows.here (onShelf H f nb hb) _ _ hr.hand), ending]
    exact hl
  | pen p full last =>
    rw [show t.2.noEol = false from @Open.ne (onShelf H f nb hb) _ _ _ _ (@Inks.here (onShelf H f nb hb) _ _ _ _ hr.hand.2), rest_false]
    exact hl

/-- A search with keys typed. -/
theorem loop_quest {tail : List KeyMap.Input} {p : Pen} {full : Bool} {last : Option (Char × CharMovement)} {t : Vi × Ed} {forward : Bool}
    {more : List Key} {kcs : List (Key × (Text → List Text))} {Q : Text → Vi × Ed → Prop} {R : IoErr → Vi × Ed → Prop}
    (hR : ∀ e t, Fails E e → R e t) (hu : H.share = false)
    (hr : Racked H ⟨.pen p full last, f⟩ nb hb t) (hh : Hinted t.2) (hn : t.2.showCompletionsHint = none)
    (hf : f.shown = none) (hc : Hunts.Can (texts H) forward more (f.hunt (texts H) p forward)) (hks : kcs.map Prod.fst = seekKey forward :: more)
    (g : ∀ x t', Hunts (texts H) forward more (f.hunt (texts H) p forward) x →
      Seeking H forward t'.2.newBuf hb false t'.2.cursor x.2 t'.2 → t'.2.newBuf.data = x.1.text →
      (t'.2.autosuggestion.map (·.data)).getD t'.2.newBuf.data = (quarry (texts H) x).getD x.1.text →
      t'.2.showCompletionsHint = none → Wp (keyMap.loop E tail) t' Q R (· ≠ .op)) :
    Wp (keyMap.loop E (Spec.typed kcs ++ tail)) t Q R (· ≠ .op) := by
  refine loop_press E hR kcs t (usual_keys (ks := seekKey forward :: more) (fun k hk => ?_) hks) hn ?_
  · rcases List.mem_cons.1 hk with rfl | hk
    · exact usual_seek forward
    · exact hunt_usual hc k hk
  refine wp_mono (quest_runs E hu hr hh hf hc hks) (fun _ t1 ⟨p', k', g1, g2, g3, g4⟩ hn1 => g (p', k') t1 g1 g2 g3 ?_ hn1) (fun _ _ h => h) (fun _ h => h)
  rw [g2.sel, g3]; rfl

/-! ### Without undo what is done is certain -/

/-- The same but for the texts that undo brings back. -/
def ShelfSame (f f' : Shelf) : Prop := f'.new.text = f.new.text ∧ f'.shown = f.shown ∧ f'.met = f.met ∧ f'.walk = f.walk

def HandSame : Hand → Hand → Prop
  | .board b, .board b' => b.Same b'
  | .pen p _ last, .pen p' _ last' => p.Same p' ∧ last' = last
  | _, _ => False

def RackSame (r r' : Rack) : Prop := HandSame r.hand r'.hand ∧ ShelfSame r.shelf r'.shelf

theorem up_same {es : List Text} (h : ShelfSame f f') : ShelfSame (f.up es) (f'.up es) := by
  obtain ⟨⟨t, p, u⟩, sh, m, w, c⟩ := f
  obtain ⟨⟨t', p', u'⟩, sh', m', w', c'⟩ := f'
  obtain ⟨h1, h2, h3, h4⟩ := h
  dsimp only at h1 h2 h3 h4
  subst h1; subst h2; subst h3; subst h4
  unfold Shelf.up
  dsimp only
  split
  · cases sh' <;> exact ⟨rfl, rfl, rfl, rfl⟩
  · rcases w' with _ | _ | i
    · dsimp only
      cases (Desk.meets es t').getLast? <;> exact ⟨rfl, rfl, rfl, rfl⟩
    · exact ⟨rfl, rfl, rfl, rfl⟩
    · exact ⟨rfl, rfl, rfl, rfl⟩

theorem down_same {es : List Text} (h : ShelfSame f f') : ShelfSame (f.down es) (f'.down es) := by
  obtain ⟨⟨t, p, u⟩, sh, m, w, c⟩ := f
  obtain ⟨⟨t', p', u'⟩, sh', m', w', c'⟩ := f'
  obtain ⟨h1, h2, h3, h4⟩ := h
  dsimp only at h1 h2 h3 h4
  subst h1; subst h2; subst h3; subst h4
  unfold Shelf.down
  dsimp only
  split
  · cases sh' <;> exact ⟨rfl, rfl, rfl, rfl⟩
  · rcases w' with _ | i
    · exact ⟨rfl, rfl, rfl, rfl⟩
    · dsimp only
      split <;> exact ⟨rfl, rfl, rfl, rfl⟩

theorem leaf_same {es : List Text} (h : ShelfSame f f') : (f'.leaf es).text = (f.leaf es).text := by
  unfold Shelf.leaf
  rw [h.2.1]
  cases f.shown with
  | none => exact h.1
  | some i => rfl

theorem left_same {a b : Hand} {l l' : Leaf} (h : HandSame a b) (h1 : a.Left l) (h2 : b.Left l') : l'.text = l.text := by
  cases a <;> cases b
  · rw [show l = _ from h1, show l' = _ from h2]; exact h.1
  · exact h.elim
  · exact h.elim
  · rw [h1.1, h2.1]; unfold Pen.text; rw [h.1.1, h.1.2.1]

theorem put_same {r r' : Rack} {es : List Text} (h : RackSame r r') (h1 : r.Put es f) (h2 : r'.Put es f') : ShelfSame f f' := by
  obtain ⟨l, q1, g1⟩ := h1
  obtain ⟨l', q2, g2⟩ := h2
  rw [h.2.2.1] at g2
  cases hs : r.shelf.shown with
  | none =>
    rw [hs] at g1 g2
    dsimp only at g1 g2
    subst g1; subst g2
    exact ⟨left_same h.1 q1 q2, h.2.2⟩
  | some i =>
    rw [hs] at g1 g2
    rcases g1 with rfl | ⟨-, rfl⟩ <;> rcases g2 with rfl | ⟨-, rfl⟩ <;> exact h.2

theorem over_same {a b : Hand} {l l' : Leaf} (h : HandSame a b) (ht : l'.text = l.text) : HandSame (a.over l) (b.over l') := by
  cases a <;> cases b
  · exact ⟨ht, by show l'.text.length - 1 = l.text.length - 1; rw [ht], rfl, h.2.2.2.1, h.2.2.2.2⟩
  · exact h.elim
  · exact h.elim
  · exact ⟨⟨ht, rfl, h.1.2.2.1, h.1.2.2.2.1, rfl, h.1.2.2.2.2.2.1, rfl⟩, h.2⟩

theorem sides_same {a b : Hand} (h : HandSame a b) : b.left = a.left ∧ b.right = a.right := by
  cases a <;> cases b
  · obtain ⟨e1, e2, -⟩ := h
    exact ⟨by show Board.left _ = Board.left _; unfold Board.left; rw [e1, e2], by show Board.right _ = Board.right _; unfold Board.right; rw [e1, e2]⟩
  · exact h.elim
  · exact h.elim
  · exact ⟨h.1.1, h.1.2.1⟩

theorem hunt_same {es : List Text} {d : Bool} {ks : List Key} {x x1 : Pen × Option Nat} (h1 : Hunts es d ks x x1) :
    ∀ {q : Pen} {y1 : Pen × Option Nat}, x.1.Same q → Hunts es d ks (q, x.2) y1 → x1.1.Same y1.1 ∧ y1.2 = x1.2 := by
  induction h1 with
  | nil x =>
    intro q y1 hs h2
    cases h2
    exact ⟨hs, rfl⟩
  | @seek f ks p k x t ih =>
    intro q y1 hs h2
    have ht : q.text = p.text := by unfold Pen.text; rw [hs.1, hs.2.1]
    generalize hk : seekKey f = key at h2
    cases h2 with
    | @seek f' _ _ _ _ t2 =>
      obtain rfl : f = f' := by revert hk; cases f <;> cases f' <;> simp [seekKey]
      exact ih hs (by rw [ht] at t2; exact t2)
    | write hw =>
      subst hk
      exact absurd hw (seek_writing f)
  | @write key ks p p' k x hw hp t ih =>
    intro q y1 hs h2
    have ht : q.text = p.text := by unfold Pen.text; rw [hs.1, hs.2.1]
    cases h2 with
    | @seek f _ _ _ _ t2 => exact absurd hw (seek_writing f)
    | @write _ _ _ q' _ _ _ hq t2 =>
      have hs' := pen_same hs hp hq
      have ht' : q'.text = p'.text := by unfold Pen.text; rw [hs'.1, hs'.2.1]
      exact ih hs' (by rw [ht, ht'] at t2; exact t2)

theorem rack_same {C : CharClass} {es : List Text} {a : Act} {r r' q q' : Rack} (h : RackSame r r') (hu : a ≠ .command .undo)
    (h1 : Rack.Step C es a r q) (h2 : Rack.Step C es a r' q') : RackSame q q' := by
  cases h1 with
  | command g1 =>
    cases h2 with
    | command g2 => exact ⟨step_same h.1 (fun e => hu (by rw [e])) g1 g2, h.2⟩
  | @begin op ds b _ p g1 =>
    cases h2 with
    | @begin _ _ b' _ p' g2 =>
      obtain ⟨e1, e2, e3, e4, e5⟩ : b.Same b' := h.1
      have ht : b'.times = b.times := by unfold Board.times; rw [e3]
      have hl : b'.left = b.left := by unfold Board.left; rw [e1, e2]
      have hr : b'.right = b.right := by unfold Board.right; rw [e1, e2]
      rw [ht, hl, hr] at g2
      obtain rfl := opens_unique g1 g2
      exact ⟨⟨⟨rfl, rfl, rfl, rfl, by simp only [Board.pen, ht], by simp only [Board.pen, ht], rfl⟩, by rw [e4]⟩, h.2⟩
  | key g1 =>
    cases h2 with
    | key g2 => exact ⟨⟨pen_same h.1.1 g1 g2, h.1.2⟩, h.2⟩
  | leave a0 a1 g1 =>
    cases h2 with
    | leave b0 b1 g2 => exact ⟨ends_same h.1.1 (by rw [b1, a1]; exact h.1.2) g1 g2, h.2⟩
  | enter g1 =>
    cases h2 with
    | enter g2 => exact ⟨step_same h.1 (by simp) g1 g2, h.2.1, h.2.2.1, rfl, rfl⟩
    | enterPen g2 => exact h.1.elim
  | enterPen g1 =>
    cases h2 with
    | enter g2 => exact h.1.elim
    | enterPen g2 => exact ⟨⟨pen_same h.1.1 g1 g2, h.1.2⟩, h.2.1, h.2.2.1, rfl, rfl⟩
  | turn g1 hf =>
    cases h2 with
    | turn g2 hf' =>
      subst hf; subst hf'
      have hp := put_same h g1 g2
      rename_i up letter f1 f2
      cases up
      · exact ⟨over_same h.1 (leaf_same (down_same hp)), down_same hp⟩
      · exact ⟨over_same h.1 (leaf_same (up_same hp)), up_same hp⟩
  | take g1 =>
    cases h2 with
    | take g2 =>
      have ht : r'.hand.text = r.hand.text := by
        unfold Hand.text
        rw [(sides_same h.1).1, (sides_same h.1).2]
      rw [ht, g1] at g2
      cases g2
      refine ⟨?_, h.2.1, h.2.2.1, rfl, rfl⟩
      have hs := h.1
      revert hs
      cases r.hand <;> cases r'.hand <;> intro hs
      · exact ⟨rfl, rfl, hs.2.2⟩
      · exact hs
      · exact hs
      · exact ⟨⟨rfl, rfl, hs.1.2.2⟩, hs.2⟩
  | search g1 =>
    cases h2 with
    | search g2 =>
      have ht : r'.hand.text = r.hand.text := by
        unfold Hand.text
        rw [(sides_same h.1).1, (sides_same h.1).2]
      have hfi : ∀ x f m, r'.shelf.finds es x f m = r.shelf.finds es x f m := by
        intro x f m
        unfold Shelf.finds
        rw [h.2.2.2.1, h.2.2.2.2]
      rw [ht, hfi, g1] at g2
      cases g2
      refine ⟨?_, h.2.1, h.2.2.1, rfl, rfl⟩
      have hs := h.1
      revert hs
      cases r.hand <;> cases r'.hand <;> intro hs
      · exact ⟨rfl, rfl, hs.2.2⟩
      · exact hs
      · exact hs
      · exact ⟨⟨rfl, rfl, hs.1.2.2⟩, hs.2⟩
  | @quest forward more right p p1 full last f k x g1 hx =>
    cases h2 with
    | @quest _ _ _ q q1 full' last' f' k' x' g2 hx' =>
      have hs : p.Same q := h.1.1
      have ht : q.text = p.text := by unfold Pen.text; rw [hs.1, hs.2.1]
      have e : f'.hunt es q forward = (q, (f.hunt es p forward).2) := by
        unfold Shelf.hunt
        rw [ht, show f'.walk = f.walk from h.2.2.2.2, show f'.met = f.met from h.2.2.2.1]
      rw [e] at g2
      obtain ⟨s1, rfl⟩ := hunt_same g1 hs g2
      have ht1 : q1.text = p1.text := by unfold Pen.text; rw [s1.1, s1.2.1]
      unfold quarry at hx hx'
      rw [show (q1, k').1.text = (p1, k').1.text from ht1, hx] at hx'
      cases hx'
      exact ⟨⟨⟨rfl, rfl, s1.2.2⟩, h.1.2⟩, h.2.1, h.2.2.1, rfl, rfl⟩

theorem racks_same {C : CharClass} {es : List Text} {as : List Act} {r q : Rack} (h1 : Rack.Steps C es as r q) :
    ∀ {r' q' : Rack}, RackSame r r' → Act.command .undo ∉ as → Rack.Steps C es as r' q' → RackSame q q' := by
  induction h1 with
  | nil r => intro r' q' h _ h2; cases h2; exact h
  | cons g _ ih =>
    intro r' q' h hu h2
    cases h2 with
    | cons g2 t2 =>
      exact ih (rack_same h (fun e => hu (by rw [e]; exact List.mem_cons_self)) g g2) (fun h' => hu (List.mem_cons_of_mem _ h')) t2

theorem racks_unique {C : CharClass} {es : List Text} {as : List Act} {r q q' : Rack} (hu : Act.command .undo ∉ as)
    (h1 : Rack.Steps C es as r q) (h2 : Rack.Steps C es as r q') : q'.hand.left = q.hand.left ∧ q'.hand.right = q.hand.right := by
  have h0 : RackSame r r := by
    refine ⟨?_, rfl, rfl, rfl, rfl⟩
    cases r.hand
    · exact ⟨rfl, rfl, rfl, rfl, rfl⟩
    · exact ⟨⟨rfl, rfl, rfl, rfl, rfl, rfl, rfl⟩, rfl⟩
  exact sides_same (racks_same h1 h0 hu h2).1

end
end Vi
end Liner
