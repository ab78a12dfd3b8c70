import Verif.Proof.Nav
import Verif.Proof.Open
import Verif.Proof.ViFuel
import Verif.Proof.Keys
/-
Moving through the history with keys, from the opening of the editor on.
-/

namespace Liner
open Liner.Spec Liner.Editor M KM

section
variable {E : Env} {x : Text} {h : History} {idx : List Nat} {pos : Nat} {s s' : Ed}

/-- The entries that are met. -/
def recallIdx (x : Text) (h : History) : List Nat :=
  if x = [] then List.range h.buffers.length else h.getHistorySubset (.ofText x)

theorem subset_data {a b : Buffer} (he : a.data = b.data) : h.getHistorySubset a = h.getHistorySubset b := by
  unfold History.getHistorySubset Buffer.contains Buffer.startsWith Buffer.eq
  rw [he]

/-- At position `pos` of the entries, with the cursor after the line. -/
structure Walk (x : Text) (h : History) (idx : List Nat) (pos : Nat) (s : Ed) : Prop where
  nav : Nav idx pos s
  hist : s.history = h
  new : s.newBuf.data = x
  here : ∃ t, navText x (idx.reverse.filterMap ((texts h)[·]?)) pos = some t ∧ Open false s t []

theorem Walk.same (w : Walk x h idx pos s) (e : NavSame s s') (ht : text? s' = text? s) (hc : s'.cursor = s.cursor) :
    Walk x h idx pos s' where
  nav := w.nav.same e
  hist := e.history.trans w.hist
  new := by rw [e.newBuf]; exact w.new
  here := by
    obtain ⟨t, h1, h2⟩ := w.here
    exact ⟨t, h1, e.search.trans h2.quiet, e.noEol.trans h2.ne, trivial, ht.trans h2.here.1, hc.trans h2.here.2⟩

theorem walk_start (p : Prompt) (fs : FS) (hu : h.share = false) :
    Wp (start E p) (initial p h fs (.ofText x))
      (fun _ s' => Walk x h (recallIdx x h) 0 s' ∧ s'.showCompletionsHint = none) (fun _ _ => True) (fun _ => True) := by
  have h0 : Nav (recallIdx x h) 0 (initial p h fs (.ofText x)) := by
    refine ⟨rfl, fun hs => (by rw [show (initial p h fs (.ofText x)).history.share = false from hu] at hs; cases hs), by omega, fun i hi => ?_, rfl,
      fun he => ?_, fun he => ⟨?_, rfl⟩⟩
    · unfold recallIdx at hi
      split at hi
      · exact List.mem_range.mp hi
      · exact historySubset_lt hi
    · exact if_pos he
    · exact if_neg he
  have hn : Wp (start E p) (initial p h fs (.ofText x)) (fun _ s' => NavSame (initial p h fs (.ofText x)) s')
      (fun _ _ => True) (fun _ => True) := by
    generalize hs : initial p h fs (.ofText x) = s at h0
    have hq : s.isSearch = false := h0.search
    have hw : Wrote s s := ⟨_, _, rfl⟩
    unfold start
    rw [wp_bind]
    refine wp_mono (write_wrote E _ hw) (fun _ s1 h1 => ?_) (fun _ _ h => h) (fun _ h => h.elim)
    dsimp only
    split
    · trivial
    rw [wp_bind]
    refine wp_mono (wp_repeatN (I := Wrote s) (fun s2 h2 => write_wrote E _ h2) _ _ h1)
      (fun _ s2 h2 => ?_) (fun _ _ h => h) (fun _ h => h.elim)
    rw [wp_bind]
    refine wp_mono (write_wrote E _ h2) (fun _ s3 h3 => ?_) (fun _ _ h => h) (fun _ h => h.elim)
    rw [wp_bind]
    refine wp_mono (write_wrote E _ h3) (fun _ s4 h4 => ?_) (fun _ _ h => h) (fun _ h => h.elim)
    rw [wp_bind, wp_get]
    obtain ⟨o, n, rfl⟩ := h4
    have same : ∀ {s' s'' : Ed}, NavSame { s with out := o, tick := n } s' → NavSame s' s'' → NavSame s s'' := fun a b =>
      ⟨b.1.trans a.1, b.2.trans a.2, b.3.trans a.3, b.4.trans a.4, b.5.trans a.5, b.6.trans a.6, b.7.trans a.7, b.8.trans a.8, b.9.trans a.9⟩
    have last : ∀ s', NavSame { s with out := o, tick := n } s' → Wp (display E) s' (fun _ s'' => NavSame s s'')
        (fun _ _ => True) (fun _ => True) := fun s' h' =>
      wp_mono (display_navSame E (h'.search.trans hq)) (fun _ _ h'' => same h' h'') (fun _ _ _ => trivial) (fun _ _ => trivial)
    split
    · exact last _ ⟨rfl, rfl, rfl, rfl, rfl, rfl, rfl, rfl, rfl⟩
    · rw [wp_bind]
      exact wp_mono (end_navSame E hq) (fun _ s5 h5 => last _ h5) (fun _ _ _ => trivial) (fun _ h => h)
  refine wp_mono (wp_and hn (start_sets E p p h fs (.ofText x) trivial)) (fun _ s' hh => ?_) (fun _ _ _ => trivial) (fun _ _ => trivial)
  obtain ⟨h1, h2⟩ := hh
  have h3 := h2.here
  rw [rest_false] at h3
  exact ⟨⟨h0.same h1, h1.history, by rw [h1.newBuf]; rfl, x, by simp [navText], h3⟩, h2.side.hint⟩

/-- Changing the undo log of the line. -/
theorem Walk.set (w : Walk x h idx pos s) {b b' : Buffer} (hb : workBuf s = some b) (he : b'.data = b.data) :
    Walk x h idx pos (setCur s b') := by
  obtain ⟨t, h1, h2⟩ := w.here
  obtain ⟨b0, h3, h4⟩ := text?_eq.mp h2.here.1
  obtain ⟨b1, h5, h6⟩ := workBuf_of_curBuf h3
  rw [hb] at h5
  cases h5
  have hd : b'.data = t ++ [] := he.trans (h6.trans h4)
  have h7 := h2.set' hd h2.here.2
  have hx := w.nav
  have hw := w.new
  have hh := w.hist
  have hi : (setCur s b').isSearch = s.isSearch := by unfold setCur Ed.isSearch; split <;> rfl
  unfold workBuf at hb
  cases hl : s.curHistoryLoc with
  | none =>
    rw [hl] at hb
    cases hb
    have e : setCur s b' = { s with bufferChanged := true, newBuf := b' } := by unfold setCur; rw [hl]
    rw [e] at h7 ⊢
    refine ⟨⟨hx.search, hx.upto, hx.le, hx.bound, hx.loc, fun h0 => hx.empty (he ▸ h0), fun h0 => ?_⟩, hh, he.trans hw, t, h1, h7⟩
    have := hx.typed (he ▸ h0)
    rw [subset_data he]
    exact this
  | some i =>
    have e : setCur s b' = { s with bufferChanged := true, histBuf := b', histBufValid := true } := by unfold setCur; rw [hl]
    rw [e] at h7 ⊢
    exact ⟨⟨hx.search, hx.upto, hx.le, hx.bound, hx.loc, hx.empty, hx.typed⟩, hh, hw, t, h1, h7⟩

theorem walk_onBuf {f : Buffer → Buffer} (hf : ∀ b, (f b).data = b.data) (w : Walk x h idx pos s) :
    Wp (Vi.onBuf f) s (fun _ s' => Walk x h idx pos s' ∧ s'.showCompletionsHint = s.showCompletionsHint) (fun _ _ => True) (fun _ => True) := by
  unfold Vi.onBuf
  rw [wp_curBufMut]
  refine ⟨fun b a b' hb he => ?_, fun _ => trivial⟩
  cases he
  exact ⟨w.set hb (hf b), (Side.setCur s _).hint⟩

/-- A step. -/
theorem walk_move (E : Env) (up : Bool) (w : Walk x h idx pos s) :
    Wp (if up then moveUp E else moveDown E) s (fun _ s' => Walk x h idx (navStep idx.length pos up) s') (fun _ _ => True) (fun _ => True) := by
  have fin : ∀ s', NavDone idx (navStep idx.length pos up) s s' → Walk x h idx (navStep idx.length pos up) s' := by
    intro s' d
    obtain ⟨t, ht⟩ := d.lands
    obtain ⟨t0, -, ho⟩ := w.here
    have h1 := d.nav.text d.valid
    rw [d.newBuf, d.history, w.hist, w.new, ht.1, List.append_nil] at h1
    refine ⟨d.nav, d.history.trans w.hist, by rw [d.newBuf]; exact w.new, t, h1.symm, d.nav.search, d.noEol.trans ho.ne, trivial, ht.1, ?_⟩
    have := ht.2
    rw [ho.ne] at this
    simpa using this
  cases up
  · exact wp_mono (moveDown_nav E w.nav) (fun _ s' d => fin s' d) (fun _ _ h => h) (fun _ h => h)
  · exact wp_mono (moveUp_nav E w.nav) (fun _ s' d => fin s' d) (fun _ _ h => h) (fun _ h => h)

/-- Up or Down. -/
def navKey (up : Bool) : Key := if up then .up else .down

variable {κ : Type} {km : KeyMap κ} {I : κ → Prop}

/-- What the key maps do with Up and Down. -/
def Steps (E : Env) (km : KeyMap κ) (I : κ → Prop) : Prop :=
  ∀ (x : Text) (h : History) (idx : List Nat) (pos : Nat) (up : Bool) (t : κ × Ed), I t.1 → Walk x h idx pos t.2 →
    Wp (km.core E (navKey up)) t (fun _ t' => I t'.1 ∧ Walk x h idx (navStep idx.length pos up) t'.2) (fun _ _ => True) (fun _ => True)

theorem steps_emacs (E : Env) : Steps E Emacs.keyMap (fun _ => True) := by
  intro x h idx pos up t _ w
  show Wp (Emacs.handleKeyCore E (navKey up)) t _ _ _
  unfold Emacs.handleKeyCore
  dsimp only
  rw [if_neg (by cases up <;> simp [navKey]), wp_bind, wp_modK]
  cases up
  · exact wp_ed.mpr (wp_mono (walk_move E false w) (fun _ t' h => ⟨trivial, h⟩) (fun _ _ h => h) (fun _ h => h))
  · exact wp_ed.mpr (wp_mono (walk_move E true w) (fun _ t' h => ⟨trivial, h⟩) (fun _ _ h => h) (fun _ h => h))

theorem steps_vi (E : Env) : Steps E Vi.keyMap (fun v => v.mode = .insert) := by
  intro x h idx pos up t hm w
  show Wp (Vi.coreFuel E 8 (navKey up)) t _ _ _
  have e : Vi.coreFuel E 8 (navKey up) t = Vi.handleKeyInsert (Vi.coreFuel E 7) E (navKey up) t := by
    rw [Vi.core_mode, hm]
  rw [wp_congr e]
  have fin : ∀ (up : Bool) (t : Vi × Ed), t.1.mode = .insert → Walk x h idx pos t.2 →
      Wp (do
        modK fun v : Vi => { v with count := 0, movementReset := true }
        ed (Vi.onBuf Buffer.endUndoGroup)
        ed (if up then moveUp E else moveDown E)
        ed (Vi.onBuf Buffer.startUndoGroup) : KM Vi Unit) t
        (fun _ t' => t'.1.mode = .insert ∧ Walk x h idx (navStep idx.length pos up) t'.2) (fun _ _ => True) (fun _ => True) := by
    intro up t hm w
    rw [wp_bind, wp_modK, wp_bind, wp_ed]
    refine wp_mono (walk_onBuf (fun _ => rfl) w) (fun _ s1 h1 => ?_) (fun _ _ h => h) (fun _ h => h)
    rw [wp_bind, wp_ed]
    refine wp_mono (walk_move E up h1.1) (fun _ s2 h2 => ?_) (fun _ _ h => h) (fun _ h => h)
    rw [wp_ed]
    exact wp_mono (walk_onBuf (fun _ => rfl) h2) (fun _ s3 h3 => ⟨hm, h3.1⟩) (fun _ _ h => h) (fun _ h => h)
  have := fin up t hm w
  unfold Vi.handleKeyInsert
  cases up
  · simp only [navKey, Bool.false_eq_true, if_false] at this ⊢
    rw [if_neg (by simp)]
    exact this
  · simp only [navKey, if_true] at this ⊢
    rw [if_neg (by simp)]
    exact this

theorem walk_init (E : Env) {v : Vi} (hm : v.mode = .insert) (w : Walk x h idx pos s) (hh : s.showCompletionsHint = none) :
    Wp (Vi.keyMap.init E) (v, s) (fun _ t' => t'.1.mode = .insert ∧ Walk x h idx pos t'.2 ∧ t'.2.showCompletionsHint = none)
      (fun _ _ => True) (fun _ => True) := by
  show Wp (Vi.init E) (v, s) _ _ _
  unfold Vi.init Vi.setEditorMode
  rw [wp_bind, wp_ed]
  refine wp_mono (walk_onBuf (fun _ => rfl) w) (fun _ s1 h1 => ?_) (fun _ _ h => h) (fun _ h => h)
  rw [wp_bind, wp_getK]
  dsimp only
  rw [hm]
  dsimp only
  rw [wp_bind, wp_ed]
  unfold setViMode
  rw [wp_modify, wp_ed]
  have fin : ∀ s1 : Ed, Walk x h idx pos s1 → s1.showCompletionsHint = none → Wp (display E) s1 (fun _ s' => v.mode = .insert ∧ Walk x h idx pos s' ∧
      s'.showCompletionsHint = none) (fun _ _ => True) (fun _ => True) := by
    intro s1 w1 h1
    obtain ⟨t, h3, h4⟩ := w1.here
    refine wp_mono (wp_and (display_navSame E h4.quiet) (display_sets E h4 (Side.refl s1))) (fun _ s2 h2 => ?_) (fun _ _ _ => trivial) (fun _ _ => trivial)
    have h5 := h2.2.here
    rw [rest_false] at h5
    exact ⟨hm, ⟨w1.nav.same h2.1, h2.1.history.trans w1.hist, by rw [h2.1.newBuf]; exact w1.new, t, h3, h5⟩, h2.2.side.hint.trans h1⟩
  have hh1 := h1.2.trans hh
  have hw1 := h1.1
  dsimp only
  split
  · exact fin _ (hw1.same ⟨rfl, rfl, rfl, rfl, rfl, rfl, rfl, rfl, rfl⟩ rfl rfl) hh1
  · exact fin _ hw1 hh1

/-- A key. -/
theorem walk_key (hst : Steps E km I) (comp : Text → List Text) (up : Bool) {t : κ × Ed} (hi : I t.1) (w : Walk x h idx pos t.2) :
    Wp (km.handleKey E comp (navKey up)) t (fun r t' => r = false ∧ I t'.1 ∧ Walk x h idx (navStep idx.length pos up) t'.2 ∧
      t'.2.showCompletionsHint = none) (fun _ _ => True) (fun _ => True) := by
  obtain ⟨b, hb, -⟩ := text?_eq.mp w.here.choose_spec.2.here.1
  have e : KeyMap.translate (navKey up) = navKey up := by cases up <;> rfl
  rw [wp_congr (handleKey_eq km E comp hb (navKey up)), e, wp_bind,
    wp_congr (dispatch_core km E comp t (by cases up <;> simp [navKey]) (by cases up <;> simp [navKey]) (by cases up <;> simp [navKey])
      (by cases up <;> simp [navKey]) (by cases up <;> simp [navKey]) (by cases up <;> simp [navKey]) (by cases up <;> simp [navKey])
      (by cases up <;> simp [navKey]))]
  unfold toCore
  rw [wp_bind]
  refine wp_mono (hst x h idx pos up t hi w) (fun _ t1 h1 => ?_) (fun _ _ h => h) (fun _ h => h)
  rw [wp_bind, wp_ed]
  unfold skipCompletionsHint
  rw [wp_modify]
  show Wp (do ed (flush E); pure false : KM κ Bool) _ _ _ _
  rw [wp_bind, wp_ed, wp_flush]
  exact ⟨fun _ => ⟨rfl, h1.1, h1.2.same ⟨rfl, rfl, rfl, rfl, rfl, rfl, rfl, rfl, rfl⟩ rfl rfl, rfl⟩, fun _ => trivial⟩

/-- Enter. -/
theorem walk_enter (comp : Text → List Text) {t : κ × Ed} {line : Text} (w : Walk x h idx pos t.2) (hh : t.2.showCompletionsHint = none)
    (ht : navText x (idx.reverse.filterMap ((texts h)[·]?)) pos = some line) (hl : line.getLast? ≠ some '\\') :
    Wp (km.handleKey E comp (.char '\n')) t (fun r t' => r = true ∧ text? t'.2 = some line) (fun _ _ => True) (fun _ => True) := by
  obtain ⟨t0, h1, h2⟩ := w.here
  rw [ht] at h1
  cases h1
  obtain ⟨b, hb, -⟩ := text?_eq.mp h2.here.1
  have e : KeyMap.translate (.char '\n') = .char '\n' := by decide
  rw [wp_congr (handleKey_eq km E comp hb _), e, wp_bind, wp_congr (dispatch_newline km E comp t), wp_ed, newline_run E h2.quiet]
  have h3 : At (quiet t.2) line [] := h2.here
  refine wp_mono (finish_done E (s := quiet t.2) hh h3 hl) (fun r s' h4 => ?_) (fun _ _ _ => trivial) (fun _ _ => trivial)
  rw [wp_bind, wp_ed, wp_flush]
  refine ⟨fun _ => ⟨h4.1, ?_⟩, fun _ => trivial⟩
  have h5 := h4.2.1
  rw [List.append_nil, List.append_nil] at h5
  exact h5

/-- The keys, and then Enter. -/
theorem walk_loop (hst : Steps E km I) (comps : List (Bool × (Text → List Text))) (comp : Text → List Text) (rest : List KeyMap.Input)
    {t : κ × Ed} {line : Text} (hi : I t.1) (w : Walk x h idx pos t.2) (hh : t.2.showCompletionsHint = none)
    (ht : navText x (idx.reverse.filterMap ((texts h)[·]?)) ((comps.map Prod.fst).foldl (navStep idx.length) pos) = some line)
    (hl : line.getLast? ≠ some '\\') :
    Wp (km.loop E ((comps.map fun c => .key (navKey c.1) c.2) ++ .key (.char '\n') comp :: rest)) t (fun r _ => r = line)
      (fun _ _ => True) (fun _ => True) := by
  induction comps generalizing t pos with
  | nil =>
    show Wp (km.loop E (.key (.char '\n') comp :: rest)) t _ _ _
    unfold KeyMap.loop
    rw [wp_bind]
    refine wp_mono (walk_enter comp w hh ht hl) (fun r t1 h1 => ?_) (fun _ _ h => h) (fun _ h => h)
    rw [if_pos h1.1, wp_bind, wp_ed, wp_get, wp_ofOption]
    refine ⟨fun a ha => ?_, fun _ => trivial⟩
    have h2 : text? t1.2 = some a := ha
    rw [h1.2] at h2
    cases h2
    rfl
  | cons c comps ih =>
    show Wp (km.loop E (.key (navKey c.1) c.2 :: _)) t _ _ _
    unfold KeyMap.loop
    rw [wp_bind]
    refine wp_mono (walk_key hst c.2 c.1 hi w) (fun r t1 h1 => ?_) (fun _ _ h => h) (fun _ h => h)
    rw [if_neg (by simp [h1.1])]
    exact ih h1.2.1 h1.2.2.1 h1.2.2.2 ht

end
end Liner
