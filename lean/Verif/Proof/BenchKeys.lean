import Verif.Proof.Bench
/-
The single keys during a search.
-/

namespace Liner
namespace Props
open Editor KM Liner.Spec

section
variable (E : Env) (comp : Text → List Text) {H : History} {k k' : Emacs} {s s' : Ed} {d : Desk} {key : Key} {f : Bool} {q : Sheet}

theorem Sought.listed (h : Sought H f k s d) (c : Option (List Text × Option Nat)) (n : Nat) :
    Sought H f k { s with showCompletionsHint := c, tick := n } d :=
  ⟨⟨⟨h.pend.lies.1, h.pend.lies.2, h.pend.lies.3, h.pend.lies.4, h.pend.lies.5, h.pend.lies.6, h.pend.lies.7, h.pend.lies.8,
    h.pend.lies.9, h.pend.lies.10, h.pend.lies.11, h.pend.lies.12, h.pend.lies.13⟩, h.pend.clean, h.pend.rev, h.pend.fwd, h.pend.ne,
    h.pend.show', h.pend.calm⟩, h.here, h.arg, h.bound, h.sug⟩

theorem Sought.wrote (h : Sought H f k s d) (n : Nat) : Sought H f k { s with showCompletionsHint := none, tick := n } d :=
  h.listed none n

/-- Only the argument looked at changes. -/
theorem Sought.args (h : Sought H f k s d) {a : Option Nat} (hk : k'.lastArgFetchIndex = a)
    (hb : ∀ i, a = some i → i < H.buffers.length) : Sought H f k' s { d with arg := a } :=
  ⟨⟨⟨h.pend.lies.1, h.pend.lies.2, h.pend.lies.3, h.pend.lies.4, h.pend.lies.5, h.pend.lies.6, h.pend.lies.7, h.pend.lies.8,
    h.pend.lies.9, h.pend.lies.10, h.pend.lies.11, h.pend.lies.12, h.pend.lies.13⟩, h.pend.clean, h.pend.rev, h.pend.fwd, h.pend.ne,
    h.pend.show', h.pend.calm⟩, h.here, hk, hb, h.sug⟩

/-- A key that goes to the key map. -/
theorem core_key {l r : Text} (h : At s l r) {Q : Emacs → Ed → Prop}
    (hQ : ∀ k s n, Q k s → Q k { s with showCompletionsHint := none, tick := n })
    (h1 : KeyMap.translate key ∉ [.ctrl 'c', .char '\t', .char '\n', .ctrl 'r', .ctrl 's', .alt '.'])
    (h2 : ¬ (KeyMap.translate key = .ctrl 'd' ∧ l ++ r = []))
    (h3 : s.autosuggestion.isSome = true → KeyMap.translate key ≠ .ctrl 'f' ∧ KeyMap.translate key ≠ .right)
    (hm : ∀ k' : Emacs, k'.lastArgFetchIndex = none → Wp (Emacs.handleKeyBody E (KeyMap.translate key)) (k', s)
      (fun _ t' => Q t'.1 t'.2) (fun _ _ => True) (· ≠ .op)) :
    Wp (Emacs.keyMap.handleKey E comp key) (k, s) (fun done t' => done = false ∧ Q t'.1 t'.2)
      (fun _ _ => True) (· ≠ .op) := by
  obtain ⟨b, hb, hbd⟩ := text?_eq.mp h.1
  simp only [List.mem_cons, List.not_mem_nil, or_false, not_or] at h1
  obtain ⟨h4, h5, h6, h7, h8, h9⟩ := h1
  rw [wp_congr (handleKey_eq Emacs.keyMap E comp (t := (k, s)) hb key), wp_bind,
    wp_congr (dispatch_core Emacs.keyMap E comp (k, s) h4
    (fun h => h2 ⟨h.1, by simpa [Buffer.isEmpty, hbd] using h.2⟩) h5 h6 (fun h => (h3 h.2).1 h.1) h7 h8
    (fun h => (h3 h.2).2 h.1))]
  unfold toCore
  rw [wp_bind]
  show Wp (Emacs.handleKeyCore E _) _ _ _ _
  unfold Emacs.handleKeyCore
  rw [if_neg h9, wp_bind, wp_modK]
  refine wp_mono (hm _ rfl) (fun _ t' h' => ?_) (fun _ _ h => h) (fun _ h => h)
  rw [wp_bind, wp_ed, skipCompletionsHint, wp_modify, wp_pure, wp_bind, wp_ed, wp_flush]
  exact ⟨fun _ => ⟨rfl, hQ t'.1 t'.2 _ h'⟩, fun _ => trivial⟩

/-- To another entry that was found. -/
theorem step_sought (h : Sought H f k s d) (g : Bool) {a : Option Nat} (hk : k'.lastArgFetchIndex = a)
    (hb : ∀ i, a = some i → i < H.buffers.length) :
    Wp (search E g) s (fun _ s' => Sought H f k' s' { (if g then d.forth else d.back) with arg := a }) (fun _ _ => True)
      (· ≠ .op) := by
  have hl := h.pend.lies
  have hgo : ∀ w, (∀ i, w = some i → i < d.met.length) → { (if g then d.forth else d.back) with arg := a } = { d with walk := w, arg := a } →
      Wp (display E) { s with historySubsetLoc := w } (fun _ s' => Sought H f k' s' { (if g then d.forth else d.back) with arg := a })
        (fun _ _ => True) (· ≠ .op) := by
    intro w hw e
    rw [e]
    have hp : Pend H f { s with historySubsetLoc := w } { d with walk := w, arg := a } :=
      ⟨⟨hl.1, hl.2, hl.3, hl.4, hl.5, hl.6, hl.7, hl.8, rfl, hl.10, hl.11, hl.12, hw⟩, h.pend.clean, h.pend.rev, h.pend.fwd, h.pend.ne,
        h.pend.show', h.pend.calm⟩
    refine display_sought E (by rw [hp.pre]; exact hp) (by rw [hp.pre]; exact h.here.1) ?_ hk hb
    show min s.cursor (d.left ++ d.right).length = d.left.length
    rw [h.here.2]
    simp
  unfold search
  rw [wp_bind, wp_get, if_neg (by simp [h.pend.search])]
  by_cases he : d.met = []
  · rw [if_neg (by simp [hl.met, he])]
    show Wp (display E) s _ _ _
    have hw : d.walk = none := by
      cases hw : d.walk with
      | none => rfl
      | some i => have := hl.within i hw; rw [he] at this; cases this
    have := hgo none (by simp) (by cases g <;> simp [Desk.forth, Desk.back, hw])
    rwa [show ({ s with historySubsetLoc := none } : Ed) = s from by rw [← hw, ← hl.walk]] at this
  · rw [if_pos (by simpa [hl.met] using he), wp_bind, wp_modify]
    refine hgo _ ?_ ?_
    · rw [hl.met, hl.walk]
      cases hw : d.walk with
      | none => simp
      | some i =>
        have hi := hl.within i hw
        intro j hj
        dsimp only at hj
        split at hj
        · split at hj <;> cases hj <;> omega
        · split at hj <;> cases hj <;> omega
    · rw [hl.met, hl.walk]
      cases hw : d.walk with
      | none => cases g <;> simp [Desk.forth, Desk.back, hw]
      | some i =>
        have hi := hl.within i hw
        cases g with
        | true =>
          simp only [Desk.forth, hw, if_true, Option.map_some]
          congr 1
          split
          · rw [if_pos (by omega)]
          · rw [if_neg (by omega)]
        | false =>
          simp only [Desk.back, hw, Bool.false_eq_true, if_false, Option.map_some]
          congr 1
          split
          · rw [if_neg (by omega)]
          · rw [if_pos (by omega)]

/-- The cursor goes to the end of another line. -/
theorem turn_sought {a : Option Nat} (h : Pend H f s d) (hl : a = d.shown) (hk : k'.lastArgFetchIndex = none) :
    Wp (moveCursorToEndOfLine E) s (fun _ s' => Sought H f k' s' (d.turn (texts H) a)) (fun _ _ => True) (· ≠ .op) := by
  subst hl
  obtain ⟨w, g1, g2, g3⟩ := h.lies.work
  obtain ⟨b, hb, hbd⟩ := text?_eq.mp g2
  refine end_run E hb ?_
  have e : (d.turn (texts H) d.shown).left = b.data := by
    have hx := g2
    unfold text? Ed.curBuf? at hx
    rw [h.lies.shown, h.lies.changed, h.clean, h.lies.hist] at hx
    unfold Desk.turn
    dsimp only
    cases hd : d.shown with
    | none => rw [hd] at hx; rw [← h.lies.new, hbd]; exact Option.some.inj hx
    | some i =>
      rw [hd] at hx
      dsimp only at hx
      rw [if_neg (by simp)] at hx
      dsimp only
      rw [texts, List.getElem?_map, hx, hbd]
      rfl
  have ht : (d.turn (texts H) d.shown).text = b.data := by
    rw [← e]
    exact List.append_nil _
  have hp : Pend H f { s with cursor := b.data.length } (d.turn (texts H) d.shown) :=
    ⟨⟨h.lies.1, h.lies.2, h.lies.3.trans h.clean, h.lies.4, h.lies.5, h.lies.6, h.lies.7, h.lies.8, h.lies.9, fun _ => rfl, h.lies.11, h.lies.12,
      h.lies.13⟩, rfl, h.rev, h.fwd, h.ne, h.show', h.calm⟩
  refine display_sought E (by rw [hp.pre]; exact hp) (by rw [hp.pre, ht, hbd]; exact g2) ?_ hk (by rintro i ⟨⟩)
  rw [ht, e]
  exact Nat.min_self _

theorem redraw_sought (h : Sought H f k s d) (hk : k'.lastArgFetchIndex = none) :
    Wp (display E) s (fun _ s' => Sought H f k' s' { d with arg := none }) (fun _ _ => True) (· ≠ .op) := by
  have hp := (h.pend.at (a := none) s.cursor (l := d.left) (r := d.right))
  refine display_sought E (s := s) (by rw [h.pend.pre]; exact hp) (by rw [h.pend.pre]; exact h.here.1) ?_ hk (by rintro i ⟨⟩)
  show min s.cursor (d.left ++ d.right).length = d.left.length
  rw [h.here.2]
  simp

theorem oldest_sought (h : Sought H f k s d) (hk : k'.lastArgFetchIndex = none) :
    Wp (moveToStartOfHistory E) s (fun _ s' => Sought H f k' s' (d.oldest (texts H))) (fun _ _ => True) (· ≠ .op) := by
  have he : texts H = [] ↔ H.buffers = [] := by simp [texts]
  have hl := h.pend.lies
  unfold moveToStartOfHistory Desk.oldest
  have hv : ({ s with histBufValid := false } : Ed) = s := by
    have := hl.changed.trans h.pend.clean
    rw [← this]
  rw [wp_bind, wp_modify, hv, wp_bind, wp_get, wp_ite]
  refine ⟨fun hemp => ?_, fun hemp => ?_⟩
  · have hb : H.buffers = [] := by rw [← hl.hist]; simpa using hemp
    have hd : d.shown = none := by
      cases hd : d.shown with
      | none => rfl
      | some i => have := hl.loc i hd; rw [hb] at this; simp at this
    rw [wp_bind, wp_modify, if_pos (he.mpr hb), show ({ s with curHistoryLoc := none } : Ed) = s from by rw [← hd, ← hl.shown]]
    exact redraw_sought E h hk
  · have hb : H.buffers ≠ [] := by rw [← hl.hist]; simpa using hemp
    rw [wp_bind, wp_modify, if_neg (by rw [he]; exact hb)]
    have hp : Pend H f { s with curHistoryLoc := some 0 } { d with shown := some 0 } :=
      ⟨⟨hl.1, rfl, hl.3, hl.4, hl.5, hl.6, hl.7, hl.8, hl.9, by simp, fun j hj => (by cases hj; exact List.length_pos_iff.mpr hb), hl.12,
        hl.13⟩, h.pend.clean, h.pend.rev, h.pend.fwd, h.pend.ne, h.pend.show', h.pend.calm⟩
    have := turn_sought E hp rfl hk
    exact this

theorem newest_sought (h : Sought H f k s d) (hk : k'.lastArgFetchIndex = none) :
    Wp (moveToEndOfHistory E) s (fun _ s' => Sought H f k' s' (d.newest (texts H))) (fun _ _ => True) (· ≠ .op) := by
  have hl := h.pend.lies
  unfold moveToEndOfHistory Desk.newest
  have hv : ({ s with histBufValid := false } : Ed) = s := by
    have := hl.changed.trans h.pend.clean
    rw [← this]
  rw [wp_bind, wp_modify, hv, wp_bind, wp_get, wp_ite]
  refine ⟨fun hsome => ?_, fun hsome => ?_⟩
  · have hd : d.shown ≠ none := by
      rw [← hl.shown]
      intro hn
      rw [hn] at hsome
      cases hsome
    rw [wp_bind, wp_modify, if_neg hd]
    have hp : Pend H f { s with curHistoryLoc := none } { d with shown := none } :=
      ⟨⟨hl.1, rfl, hl.3, hl.4, hl.5, hl.6, hl.7, hl.8, hl.9, fun _ => h.pend.clean, by simp, hl.12,
        hl.13⟩, h.pend.clean, h.pend.rev, h.pend.fwd, h.pend.ne, h.pend.show', h.pend.calm⟩
    have := turn_sought E hp rfl hk
    exact this
  · have hd : d.shown = none := by
      rw [← hl.shown]
      simpa using hsome
    rw [if_pos hd]
    exact redraw_sought E h hk

/-- A redraw after the end of a search. -/
theorem display_desk (hs : AtEase s) (h : Lies H s d) (ht : At s d.left d.right) (hk : k.lastArgFetchIndex = d.arg)
    (hb : ∀ i, d.arg = some i → i < H.buffers.length) :
    Wp (display E) s (fun _ s' => OnDesk H k s' d) (fun _ _ => True) (· ≠ .op) := by
  obtain ⟨b, hb1, hb2⟩ := text?_eq.mp ht.1
  have hp := pre_quiet hs.quiet
  obtain ⟨w, g1, g2, g3⟩ := h.work
  have hw : w.data = d.sheet.text := Option.some.inj (g2.symm.trans ht.1)
  refine wp_mono (wp_and (display_wp E s) (display_sets E ⟨hs.quiet, hs.ne, trivial, ht⟩ (Side.refl s))) (fun _ s' h' => ?_) (fun _ _ _ => trivial)
    (fun w hw => hw.2)
  obtain ⟨h1, h2⟩ := h'
  obtain ⟨b', sug, g4, g5, l, c, o', t, rfl⟩ := h1.ex
  rw [hp] at g4 g5 h2 ⊢
  have ho := h2.here
  rw [rest_false] at ho
  refine ⟨⟨ho, fun hl => ?_, fun i hi => h.loc i (h.shown ▸ hi), hs.show', h.hist, h2.sug, ⟨w, g1, hw, hw ▸ g3⟩, hk, hb⟩,
    h.1, h.2, h.3, h.4, h.5, h.6, h.7, h.8, h.9, h.10, h.11, h.12, h.13⟩
  exact h.changed.trans (h.clean (h.shown ▸ hl))

/-- Ctrl-L. -/
theorem clear_sought (h : Sought H f k s d) (hk : k'.lastArgFetchIndex = none) :
    Wp (clear E) s (fun _ s' => OnDesk H k' s' (d.write false true { d.sheet with arg := none })) (fun _ _ => True) (· ≠ .op) := by
  have hl := h.pend.lies
  have e : d.write false true { d.sheet with arg := none } = { d with arg := none, met := [], walk := none } := by
    have := write_self (q := { d.sheet with arg := none }) (hl.text h.here.1) h.pend.clean rfl rfl
    unfold Desk.write at this ⊢
    simp only [Bool.false_eq_true, if_false, if_true] at this ⊢
    rw [Desk.mk.injEq] at this ⊢
    exact ⟨this.1, this.2.1, this.2.2.1, this.2.2.2.1, this.2.2.2.2.1, this.2.2.2.2.2.1, this.2.2.2.2.2.2.1, rfl, rfl⟩
  rw [e]
  unfold clear clearSearch
  rw [wp_bind, wp_modify, wp_bind, wp_modify]
  exact display_desk E ⟨rfl, h.pend.ne, h.pend.show'⟩
    ⟨hl.1, hl.2, hl.3, hl.4, hl.5, hl.6, hl.7, rfl, rfl, hl.10, hl.11, by simp, by simp⟩ h.here hk (by rintro i ⟨⟩)

/-- The entry found is taken. -/
theorem accept_sought (h : Sought H f k s d) :
    Wp (acceptAutosuggestion E) s (fun _ s' => OnDesk H k s' (d.accept (texts H))) (fun _ _ => True) (· ≠ .op) := by
  have hl := h.pend.lies
  obtain ⟨w, g1, g2, g3⟩ := h.ground.log
  have hsug := h.sug
  unfold acceptAutosuggestion
  rw [wp_bind, wp_get, if_pos h.pend.show', wp_bind]
  have key : ∃ b, (noRes fun b => match s.autosuggestion with
      | some x => if s.isSearch then b.copyBuffer x else b.insertFromBuffer x
      | none => some b) w = some ((), b) ∧ ∃ q : Sheet, b.data = q.text ∧ Each q.past q.text b.actions ∧
      d.accept (texts H) = d.write true true q ∧ q.right = [] ∧ q.arg = d.arg := by
    unfold Desk.accept noRes
    rw [h.pend.search, ← hsug]
    unfold sugText
    cases hx : s.autosuggestion with
    | none =>
      refine ⟨w, rfl, ⟨d.text, [], d.past, d.arg⟩, ?_, ?_, rfl, rfl, rfl⟩
      · rw [g2]; exact (List.append_nil _).symm
      · rw [show (⟨d.text, [], d.past, d.arg⟩ : Sheet).text = d.sheet.text from List.append_nil _]; exact g3
    | some x =>
      obtain ⟨b, h1, -⟩ := C01_copy_buffer w x
      obtain ⟨h2, h3⟩ := copy_each (b := w) (by rw [g2]; exact g3) h1
      refine ⟨b, by simp [h1], ⟨x.data, [], [] :: d.text :: d.past, d.arg⟩, ?_, ?_, rfl, rfl, rfl⟩
      · rw [h2]; exact (List.append_nil _).symm
      · rw [h2, g2] at h3
        rw [show (⟨x.data, [], [] :: d.text :: d.past, d.arg⟩ : Sheet).text = x.data from List.append_nil _]
        exact h3
  obtain ⟨b, h1, q, h2, h3, h4, h5, h6⟩ := key
  rw [h4]
  refine wp_curBufMut_of g1 h1 ?_
  have hl2 := hl.set h2 h3 q.left.length
  unfold clearSearch
  rw [wp_bind, wp_modify]
  have hcur : ∀ c, (setCur s b).curHistoryLoc = c → (setCur s b).curBuf? = some b := by
    intro c _
    unfold setCur Ed.curBuf?
    cases hc : s.curHistoryLoc <;> simp
  have hside : (setCur s b).noEol = false ∧ (setCur s b).showAutosuggestions = true := by
    unfold setCur
    cases s.curHistoryLoc <;> exact ⟨h.pend.ne, h.pend.show'⟩
  refine end_run E (b := b) ?_ ?_
  · exact hcur _ rfl
  have hq : q.text = q.left := by rw [Sheet.text, h5, List.append_nil]
  rw [h2, hq]
  refine display_desk E ⟨rfl, hside.1, hside.2⟩ ?_ ⟨?_, rfl⟩ (h.arg.trans h6.symm) (fun i hi => h.bound i (h6 ▸ hi))
  · exact ⟨hl2.1, hl2.2, hl2.3, hl2.4, hl2.5, hl2.6, hl2.7, rfl, rfl, hl2.10, hl2.11, by simp [Desk.write], by simp [Desk.write]⟩
  · have : (setCur s b).curBuf? = some b := hcur _ rfl
    exact text?_eq.mpr ⟨b, this, h2⟩

/-- A search begins. -/
theorem start_sought (hH : H.share = false) (h : OnDesk H k s d) (g : Bool) :
    Wp (search E g) s (fun _ s' => Sought H g k s' (d.look (texts H) g)) (fun _ _ => True) (· ≠ .op) := by
  unfold search
  rw [wp_bind, wp_get, if_pos (by simp [h.calm.quiet]), wp_bind, freshenHistory, wp_modify, if_neg (by simp [h.2.hist, hH]), wp_bind,
    refreshSearch, wp_modify]
  have hp : Pend H g (refreshed g s) (d.look (texts H) g) :=
    ⟨h.2.look g, rfl, rfl, rfl, h.calm.ne, h.calm.show', rfl⟩
  have ht : (d.look (texts H) g).text = d.new.text := List.take_append_drop _ _
  refine display_sought E (by rw [hp.pre]; exact hp) ?_ ?_ h.1.arg h.1.bound
  · rw [hp.pre, ht, ← h.2.new]; rfl
  · rw [ht, show (refreshed g s).cursor = d.left.length from h.1.here.here.2]
    exact (List.length_take ..).symm

end
end Props
end Liner
