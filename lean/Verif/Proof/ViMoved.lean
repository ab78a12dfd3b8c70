import Verif.Proof.ViUndo
/-
Typing after a movement in insert mode begins a new undo group.
-/

namespace Liner
namespace Editor

/-- No search begins. -/
def Qt {α : Type} (m : EdM α) : Prop :=
  ∀ s, s.isSearch = false → Wp m s (fun _ s' => s'.isSearch = false) (fun _ _ => True) (fun _ => True)

section
variable {α β : Type}

theorem Gw.qt {P : List Action → Prop} {m : EdM α} (h : Gw P m) : Qt m := fun s hs =>
  wp_mono (h s hs) (fun _ _ h1 => h1.quiet) (fun _ _ h => h) (fun _ h => h)

theorem qt_bind {m : EdM α} {f : α → EdM β} (h1 : Qt m) (h2 : ∀ a, Qt (f a)) : Qt (m >>= f) := by
  intro s hs
  rw [wp_bind]
  exact wp_mono (h1 s hs) (fun a s' h => h2 a s' h) (fun _ _ h => h) (fun _ h => h)

theorem qt_pure (a : α) : Qt (pure a : EdM α) := fun _ hs => hs
theorem qt_get : Qt (M.get : EdM Ed) := fun _ hs => hs
theorem qt_panic : Qt (M.panic : EdM α) := fun _ _ => trivial
theorem qt_modify {f : Ed → Ed} (h : ∀ s, (f s).isSearch = s.isSearch) : Qt (M.modify f) := fun s hs =>
  (h s).trans hs
theorem qt_ofOption (o : Option α) : Qt (M.ofOption o : EdM α) := (gw_ofOption o).qt

theorem qt_fresh : Qt freshenHistory := by
  unfold freshenHistory
  refine qt_modify fun s => ?_
  split <;> rfl

theorem qt_upLoc : Qt moveUpLoc := by
  unfold moveUpLoc
  refine qt_bind qt_get fun s => ?_
  dsimp only
  split
  · split
    · split
      · exact qt_bind (qt_ofOption _) fun _ => qt_modify fun _ => rfl
      · exact qt_pure _
    · refine qt_bind (qt_modify fun _ => rfl) fun _ => ?_
      split
      · exact qt_modify fun _ => rfl
      · exact qt_pure _
  · split
    · split
      · exact qt_modify fun _ => rfl
      · exact qt_pure _
    · split
      · exact qt_pure _
      · exact qt_modify fun _ => rfl

theorem qt_downLoc : Qt moveDownLoc := by
  unfold moveDownLoc
  refine qt_bind qt_get fun s => ?_
  repeat' first
    | exact qt_pure _
    | exact qt_panic
    | exact qt_modify fun _ => rfl
    | refine qt_bind (qt_ofOption _) fun _ => ?_
    | refine qt_bind (qt_modify fun _ => rfl) fun _ => ?_
    | split

theorem qt_up (E : Env) : Qt (moveUp E) := by
  intro s hs
  unfold moveUp
  rw [wp_bind, wp_get, hs]
  simp only [Bool.false_eq_true, if_false]
  exact qt_bind (qt_modify (f := fun s => { s with histBufValid := false }) fun _ => rfl) (fun _ => qt_bind qt_fresh fun _ => qt_bind qt_upLoc fun _ => (gw_end E).qt) s hs

theorem qt_down (E : Env) : Qt (moveDown E) := by
  intro s hs
  unfold moveDown
  rw [wp_bind, wp_get, hs]
  simp only [Bool.false_eq_true, if_false]
  exact qt_bind (qt_modify (f := fun s => { s with histBufValid := false }) fun _ => rfl) (fun _ => qt_bind qt_downLoc fun _ => (gw_end E).qt) s hs

end
end Editor

namespace Vi
open M KM Editor Liner.Spec
variable (E : Env)

theorem onBuf_qt (f : Buffer → Buffer) : Qt (onBuf f) := by
  intro s hs
  unfold onBuf
  rw [wp_curBufMut]
  refine ⟨fun b a b' _ _ => ?_, fun _ => trivial⟩
  rw [setCur_quiet]; exact hs

/-- A movement in insert mode. -/
theorem moved_out {core : Key → ViM Unit} {key : Key} (hk : key ∈ insertMoves) {t : Vi × Ed}
    (hq : t.2.isSearch = false) :
    Wp (handleKeyInsert core E key) t (fun _ t' => t'.1 = { t.1 with count := 0, movementReset := true } ∧
      t'.2.isSearch = false) T2 T1 := by
  have go : ∀ m : EdM Unit, Qt m → Wp (do
      modK fun v => { v with count := 0, movementReset := true }
      ed m : ViM Unit) t (fun _ t' => t'.1 = { t.1 with count := 0, movementReset := true } ∧
      t'.2.isSearch = false) T2 T1 := by
    intro m hm
    rw [wp_bind, wp_modK, wp_ed]
    exact wp_mono (hm t.2 hq) (fun _ s' h => ⟨rfl, h⟩) (fun _ _ _ => trivial) (fun _ _ => trivial)
  have up : ∀ m : EdM Unit, Qt m → Wp (do
      modK fun v => { v with count := 0, movementReset := true }
      ed (onBuf Buffer.endUndoGroup)
      ed m
      ed (onBuf Buffer.startUndoGroup) : ViM Unit) t (fun _ t' => t'.1 = { t.1 with count := 0, movementReset := true } ∧
      t'.2.isSearch = false) T2 T1 := by
    intro m hm
    rw [wp_bind, wp_modK, wp_bind, wp_ed]
    refine wp_mono (onBuf_qt _ t.2 hq) (fun _ s1 h1 => ?_) (fun _ _ _ => trivial) (fun _ _ => trivial)
    rw [wp_bind, wp_ed]
    refine wp_mono (hm s1 h1) (fun _ s2 h2 => ?_) (fun _ _ _ => trivial) (fun _ _ => trivial)
    rw [wp_ed]
    exact wp_mono (onBuf_qt _ s2 h2) (fun _ s' h => ⟨rfl, h⟩) (fun _ _ _ => trivial) (fun _ _ => trivial)
  unfold handleKeyInsert
  simp only [insertMoves, List.mem_cons, List.not_mem_nil, or_false] at hk
  rcases hk with rfl | rfl | rfl | rfl | rfl | rfl
  · rw [if_neg (by simp)]; refine go _ ?_; unfold handleKeyCommon; rw [if_neg (by simp)]; exact (gw_left E 1).qt
  · rw [if_neg (by simp)]; refine go _ ?_; unfold handleKeyCommon; rw [if_neg (by simp)]; exact (gw_right E 1).qt
  · rw [if_neg (by simp)]; refine go _ ?_; unfold handleKeyCommon; rw [if_neg (by simp)]; exact (gw_home E).qt
  · rw [if_neg (by simp)]; refine go _ ?_; unfold handleKeyCommon; rw [if_neg (by simp)]; exact (gw_end E).qt
  · rw [if_neg (by simp)]; exact up _ (qt_up E)
  · rw [if_neg (by simp)]; exact up _ (qt_down E)

/-- The first key typed after it. -/
theorem reset_out {core : Key → ViM Unit} {key : Key} (hk : Typing key) {t : Vi × Ed} (hq : t.2.isSearch = false)
    (hr : t.1.movementReset = true) :
    Wp (handleKeyInsert core E key) t (fun _ t' =>
      t'.1 = { t.1 with lastCommand := [key], movementReset := false, lastInsert := some (.char 'i') } ∧
      Grew (fun es => ∃ x, Single x ∧ es = x ++ [.startGroup, .endGroup]) t.2 t'.2) T2 T1 := by
  have go : ∀ m : EdM Unit, Gw Single m → Wp (do
      resetInsert
      modK fun v => { v with lastCommand := v.lastCommand ++ [key] }
      ed m : ViM Unit) t (fun _ t' =>
      t'.1 = { t.1 with lastCommand := [key], movementReset := false, lastInsert := some (.char 'i') } ∧
      Grew (fun es => ∃ x, Single x ∧ es = x ++ [.startGroup, .endGroup]) t.2 t'.2) T2 T1 := by
    intro m hm
    unfold resetInsert
    rw [wp_bind, wp_bind, wp_getK, hr]
    simp only [if_true]
    have h0 : KG (fun es => es = [.startGroup, .endGroup]) (do
        ed (onBuf Buffer.endUndoGroup)
        ed (onBuf Buffer.startUndoGroup)
        modK fun v => { v with lastCommand := [], movementReset := false, lastInsert := some (.char 'i') } : ViM Unit) :=
      kg_bind (kg_ed gw_endGroup) (fun _ => kg_then (kg_ed gw_startGroup) fun _ => kg_modK _)
        fun x y hx hy => by rw [hx, hy]; rfl
    refine with_v h0 (f := fun v => { v with lastCommand := [], movementReset := false, lastInsert := some (.char 'i') })
      (vx_bind (f := id) (vx_ed _) fun _ => vx_bind (f := id) (vx_ed _) fun _ => vx_modK _) hq fun _ s1 h1 => ?_
    rw [wp_bind, wp_modK]
    refine with_v (kg_ed hm) (vx_ed _) h1.quiet fun _ s' hg => ⟨rfl, h1.trans hg fun x y hx hy => ⟨y, hy, by rw [hx]⟩⟩
  unfold handleKeyInsert
  rcases hk with ⟨c, rfl⟩ | rfl | rfl
  · rw [if_neg (by simp)]; exact go _ (gw_insert E c)
  · rw [if_neg (by simp)]
    refine go _ ?_
    unfold handleKeyCommon; rw [if_neg (by simp)]; exact gw_deleteBefore E
  · rw [if_neg (by simp)]
    refine go _ ?_
    unfold handleKeyCommon; rw [if_neg (by simp)]; exact gw_deleteAfter E

/-- It begins a command of its own. -/
theorem reset_cmd {k : Key} (hk : Typing k) {t : Vi × Ed} (h : VI t) (hq : t.2.isSearch = false)
    (hs : t.1.modeStack = [.insert]) (hr : t.1.movementReset = true) (hc : t.1.count = 0) {b : Buffer}
    (hb : workBuf t.2 = some b) :
    Wp (handleKeyCore E k) t (fun _ t' => Cmd b.endUndoGroup t') T2 T1 := by
  have h1 : Wp (handleKeyCore E k) t (fun _ t' => VI t') T2 T1 := core_ok E |>.all k t h
  have he : handleKeyCore E k t = handleKeyInsert (coreFuel E 7) E k t := core_insert E hs
  refine wp_mono (wp_and h1 ((wp_congr he).mpr (reset_out E hk hq hr))) (fun _ t' h' => ?_) (fun _ _ _ => trivial)
    (fun _ _ => trivial)
  obtain ⟨g0, g1, g2⟩ := h'
  obtain ⟨b', es, g3, ⟨x, g4, rfl⟩, g5, g6⟩ := g2.log b hb
  have hst : t'.1.modeStack = [.insert] := by rw [g1]; exact hs
  refine ⟨g0, g2.quiet, ⟨b', x ++ [.startGroup], g3, ?_, ?_, ?_⟩, fun _ => ?_⟩
  · rw [hst, Shape, if_pos (by simp)]; exact ⟨x, g4.plainly, rfl⟩
  · rw [g5]; simp [Buffer.endUndoGroup]
  · obtain ⟨m, p1, p2⟩ := g6.split
    cases p1 with
    | cons p1 e1 =>
      cases e1
      cases p1 with
      | cons p1 e1 =>
        cases e1
        cases p1
        exact Path.append (.cons (.nil _) (.startGroup _)) p2
  · rw [g1]
    exact ⟨rfl, .inl hc⟩

/-- Esc right after a movement. -/
theorem esc_line {t : Vi × Ed} (hq : t.2.isSearch = false) (hs : t.1.modeStack = [.insert]) (hc : t.1.count = 0)
    {b : Buffer} (hb : workBuf t.2 = some b) :
    Wp (handleKeyCore E .esc) t (fun _ t' => t'.1.modeStack = [] ∧ t'.1.count = 0 ∧
      Line (b.data, .endGroup :: b.actions) t'.2) T2 T1 := by
  have he : handleKeyCore E .esc t = handleKeyInsert (coreFuel E 7) E .esc t := core_insert E hs
  refine (wp_congr he).mpr ?_
  unfold handleKeyInsert
  rw [if_pos (.inl rfl), wp_bind, wp_getK]
  dsimp only
  rw [if_neg (by omega)]
  rw [wp_bind]
  refine with_v (kg_ed (gw_left E 1)) (vx_ed _) hq fun _ s2 hg2 => ?_
  refine wp_mono (wp_and (popMode_grew E (m := .insert) (base := []) hs hg2.quiet) (vx_popMode E _))
    (fun _ t3 h3 => ?_) (fun _ _ _ => trivial) (fun _ _ => trivial)
  obtain ⟨h3, h4⟩ := h3
  obtain ⟨b1, e1, k1, rfl, k3, k4⟩ := hg2.log b hb
  obtain ⟨b2, e2, g1, rfl, g3, g4⟩ := h3.log b1 k1
  refine ⟨by rw [h4]; simp [popped, hs], by rw [h4]; simp [popped, hc], h3.quiet, b2, g1, ?_, ?_⟩
  · cases g4 with
    | cons p1 e1 =>
      cases e1
      rw [← path_nil p1]
      exact (path_nil k4).symm
  · rw [g3, k3]; simp

end Vi
end Liner
