import Verif.Proof.Lands
import Verif.Proof.Keys
/-
What happens to the list of candidates at a key other than Tab.
-/

namespace Liner
namespace Props
open Editor KM Liner.Spec

section
variable (E : Env) (comp : Text → List Text) {κ α β : Type} {s : Ed}

/-- The operation leaves the list of candidates alone. -/
def Dry {α : Type} (m : EdM α) : Prop :=
  ∀ s, Wp m s (fun _ s' => s'.showCompletionsHint = s.showCompletionsHint) (fun _ _ => True) (fun _ => True)

theorem Dry.bind {m : EdM α} {f : α → EdM β} (h : Dry m) (g : ∀ a, Dry (f a)) : Dry (m >>= f) := by
  intro s
  rw [wp_bind]
  exact wp_mono (h s) (fun a s1 h1 => wp_mono (g a s1) (fun _ _ h2 => h2.trans h1) (fun _ _ h => h) (fun _ h => h))
    (fun _ _ h => h) (fun _ h => h)

theorem dry_pure (a : α) : Dry (pure a : EdM α) := fun _ => rfl

theorem dry_get : Dry (M.get : EdM Ed) := fun _ => rfl

theorem dry_modify {g : Ed → Ed} (h : ∀ s, (g s).showCompletionsHint = s.showCompletionsHint) : Dry (M.modify g : EdM Unit) := h

theorem dry_curBuf : Dry curBuf := by
  intro s
  rw [wp_curBuf]
  exact ⟨fun _ _ => rfl, fun _ => trivial⟩

theorem setCur_hint (s : Ed) (b : Buffer) : (setCur s b).showCompletionsHint = s.showCompletionsHint := by
  unfold setCur
  cases s.curHistoryLoc <;> rfl

theorem dry_curBufMut (f : Buffer → Option (α × Buffer)) : Dry (curBufMut f) := by
  intro s
  rw [wp_curBufMut]
  exact ⟨fun b a b' _ _ => setCur_hint s b', fun _ => trivial⟩

theorem dry_displayImpl (sa : Bool) : Dry (displayImpl E sa) := by
  intro s
  refine wp_mono (displayImpl_wp E sa s) (fun _ s' h => ?_) (fun _ _ _ => trivial) (fun _ _ => trivial)
  obtain ⟨b, hb, l', c, o, t, rfl⟩ := h.drawn
  rfl

theorem refreshed_hint (f : Bool) (s : Ed) : (refreshed f s).showCompletionsHint = s.showCompletionsHint := rfl

theorem dry_display : Dry (display E) := by
  intro s
  refine wp_mono (display_wp E s) (fun _ s' h => ?_) (fun _ _ _ => trivial) (fun _ _ => trivial)
  obtain ⟨b, sug, -, -, l, c, o, t, rfl⟩ := h.ex
  show (pre s).showCompletionsHint = _
  unfold pre
  split <;> rfl

theorem dry_clearSearch : Dry clearSearch := dry_modify fun _ => rfl

theorem dry_toEnd : Dry (moveCursorToEndOfLine E) :=
  dry_curBuf.bind fun _ => Dry.bind (dry_modify (by intro; rfl)) fun _ => dry_display E

theorem dry_accept : Dry (acceptAutosuggestion E) := by
  unfold acceptAutosuggestion
  refine dry_get.bind fun s => ?_
  dsimp only
  have h : Dry (clearSearch >>= fun _ => moveCursorToEndOfLine E) := dry_clearSearch.bind fun _ => dry_toEnd E
  split
  · exact (dry_curBufMut _).bind fun _ => h
  · exact h

theorem dry_search (f : Bool) : Dry (search E f) := by
  unfold search
  refine dry_get.bind fun s => ?_
  dsimp only
  split
  · refine Dry.bind (dry_modify fun s => ?_) fun _ => Dry.bind (dry_modify (refreshed_hint f)) fun _ => dry_display E
    split <;> rfl
  · split
    · exact Dry.bind (dry_modify (by intro; rfl)) fun _ => dry_display E
    · exact dry_display E

theorem dry_insert (cs : Text) : Dry (insertCharsAfterCursor E cs) := by
  unfold insertCharsAfterCursor
  exact dry_get.bind fun s => (dry_curBufMut _).bind fun _ => Dry.bind (dry_modify (by intro; rfl)) fun _ => dry_display E

theorem dry_write (toks : List Tok) : Dry (writeTerm E toks) := by
  intro s
  rw [wp_writeTerm]
  exact ⟨fun _ => rfl, fun _ => trivial⟩

theorem dry_repeat (n : Nat) {m : EdM Unit} (h : Dry m) : Dry (M.repeatN n m) := by
  induction n with
  | zero => exact dry_pure _
  | succ n ih => exact h.bind fun _ => ih

theorem dry_panic : Dry (M.panic : EdM α) := fun _ => trivial

theorem dry_start (p : Prompt) : Dry (start E p) := by
  unfold start
  refine (dry_write E _).bind fun _ => ?_
  dsimp only
  split
  · exact dry_panic
  refine (dry_repeat _ (dry_write E _)).bind fun _ => (dry_write E _).bind fun _ => (dry_write E _).bind fun _ => dry_get.bind fun s => ?_
  split
  · exact dry_display E
  · exact (dry_toEnd E).bind fun _ => dry_display E

/-- After Enter there is no list. -/
theorem newline_hint : Wp (handleNewline E) s (fun _ s' => s'.showCompletionsHint = none) (fun _ _ => True) (fun _ => True) := by
  unfold handleNewline acceptIfSearch clearSearch finishLine
  rw [wp_bind, wp_modify, wp_bind]
  refine wp_mono (Q := fun _ _ => True) (R := fun _ _ => True) (P := fun _ => True) ?_ (fun _ s1 _ => ?_) (fun _ _ h => h) (fun _ h => h)
  · unfold Wp
    split <;> trivial
  rw [wp_bind, wp_modify, wp_bind, wp_get]
  split
  · rw [wp_bind, wp_modify, wp_pure]
  · rename_i hn
    rw [wp_bind, wp_curBuf]
    refine ⟨fun b hb => ?_, fun _ => trivial⟩
    split
    · rw [wp_bind]
      refine wp_mono (dry_insert E _ _) (fun _ s' h => ?_) (fun _ _ h => h) (fun _ h => h)
      rw [wp_pure, h]
      simpa using hn
    · rw [wp_bind, wp_modify, wp_bind]
      refine wp_mono (dry_displayImpl E false _) (fun _ s' h => ?_) (fun _ _ h => h) (fun _ h => h)
      rw [wp_bind, wp_writeTerm]
      exact ⟨fun _ => rfl, fun _ => trivial⟩

/-- The keys that leave the list of candidates as it is. -/
def keeps (s : Ed) (key : Key) : Prop :=
  key = .ctrl 'r' ∨ key = .ctrl 's' ∨ (key = .ctrl 'f' ∧ s.autosuggestion.isSome = true) ∨
    (key = .right ∧ s.autosuggestion.isSome = true ∧ cursorIsAtEndOfLine s = .ok true s)

/-- The list after a key other than Tab. -/
theorem key_list (km : KeyMap κ) (t : κ × Ed) {key : Key} (hk : key ≠ .char '\t') : Wp (km.handleKey E comp key) t
    (fun _ t' => (keeps t.2 key → t'.2.showCompletionsHint = t.2.showCompletionsHint) ∧
      (¬ keeps t.2 key → t'.2.showCompletionsHint = none)) (fun _ _ => True) (fun _ => True) := by
  unfold KeyMap.handleKey
  rw [wp_bind, wp_ed, wp_curBuf]
  refine ⟨fun b _ => ?_, fun _ => trivial⟩
  rw [wp_bind]
  have ht : KeyMap.translate key ≠ .char '\t' := by
    unfold KeyMap.translate
    split
    · simp
    · exact hk
  have hkk : keeps t.2 (KeyMap.translate key) ↔ keeps t.2 key := by
    unfold KeyMap.translate
    split
    · rename_i h
      subst h
      simp [keeps]
    · rfl
  rw [← hkk]
  clear hkk hk
  generalize KeyMap.translate key = key at ht ⊢
  suffices h : Wp (km.dispatch E comp b.isEmpty key) t
    (fun _ t' => (keeps t.2 key → t'.2.showCompletionsHint = t.2.showCompletionsHint) ∧
      (¬ keeps t.2 key → t'.2.showCompletionsHint = none)) (fun _ _ => True) (fun _ => True) by
    refine wp_mono h (fun _ t1 h1 => ?_) (fun _ _ h => h) (fun _ h => h)
    rw [wp_bind, wp_ed, wp_flush]
    exact ⟨fun _ => h1, fun _ => trivial⟩
  unfold KeyMap.dispatch
  rw [wp_bind, wp_ed, wp_get]
  dsimp only
  split
  · rw [wp_bind, wp_ed]
    exact wp_mono (newline_hint E) (fun _ _ _ => trivial) (fun _ _ h => h) (fun _ h => h)
  split
  · rw [wp_bind, wp_ed]
    exact wp_mono (newline_hint E) (fun _ _ _ => trivial) (fun _ _ h => h) (fun _ h => h)
  split
  · rename_i h
    subst h
    rw [wp_ed]
    refine wp_mono (newline_hint E) (fun _ _ h => ⟨fun hk => ?_, fun _ => h⟩) (fun _ _ h => h) (fun _ h => h)
    simp [keeps] at hk
  split
  · rename_i h
    rw [wp_bind, wp_ed]
    exact wp_mono (dry_accept E _) (fun _ _ h' => ⟨fun _ => h', fun hn => absurd (.inr (.inr (.inl h))) hn⟩) (fun _ _ h => h) (fun _ h => h)
  split
  · rename_i h
    rw [wp_bind, wp_ed]
    exact wp_mono (dry_search E _ _) (fun _ _ h' => ⟨fun _ => h', fun hn => absurd (.inl h) hn⟩) (fun _ _ h => h) (fun _ h => h)
  split
  · rename_i h
    rw [wp_bind, wp_ed]
    exact wp_mono (dry_search E _ _) (fun _ _ h' => ⟨fun _ => h', fun hn => absurd (.inr (.inl h)) hn⟩) (fun _ _ h => h) (fun _ h => h)
  rename_i n1 n2 n4 n5 n6 n7
  have core : ¬ keeps t.2 key → Wp (do km.core E key; ed skipCompletionsHint; pure false : KM κ Bool) t
    (fun _ t' => (keeps t.2 key → t'.2.showCompletionsHint = t.2.showCompletionsHint) ∧
      (¬ keeps t.2 key → t'.2.showCompletionsHint = none)) (fun _ _ => True) (fun _ => True) := by
    intro hn
    rw [wp_bind]
    refine wp_mono (Q := fun _ _ => True) (R := fun _ _ => True) (P := fun _ => True) ?_ (fun _ t1 _ => ?_) (fun _ _ h => h) (fun _ h => h)
    · unfold Wp
      split <;> trivial
    exact ⟨fun h => absurd h hn, fun _ => rfl⟩
  by_cases hr : key = .right ∧ t.2.autosuggestion.isSome = true
  · rw [if_pos hr, wp_bind, wp_ed]
    unfold Wp
    cases hc : cursorIsAtEndOfLine t.2 with
    | err e s' => trivial
    | panic w => trivial
    | ok a s' =>
      have hs : s' = t.2 := by
        unfold cursorIsAtEndOfLine at hc
        cases hb : t.2.curBuf? with
        | none =>
          rw [show (curBuf >>= _) t.2 = Out.panic Site.op from by
            show M.bind _ _ _ = _
            unfold M.bind curBuf
            rw [hb]] at hc
          cases hc
        | some b =>
          rw [bind_ok (m := curBuf) (a := b) (s' := t.2) (by unfold curBuf; rw [hb]), bind_ok (m := M.get) (a := t.2) (s' := t.2) rfl] at hc
          split at hc
          · split at hc
            · cases hc
            · cases hc; rfl
          · cases hc; rfl
      subst hs
      dsimp only
      cases a with
      | true =>
        show Wp (ed (acceptAutosuggestion E) >>= fun _ => pure false) t _ _ _
        rw [wp_bind, wp_ed]
        exact wp_mono (dry_accept E _) (fun _ _ h' => ⟨fun _ => h', fun hn => absurd (.inr (.inr (.inr ⟨hr.1, hr.2, hc⟩))) hn⟩)
          (fun _ _ h => h) (fun _ h => h)
      | false =>
        refine core ?_
        simp only [keeps, hr.1, hc]
        simp
  · rw [if_neg hr, wp_bind, wp_pure]
    refine core ?_
    rintro (h | h | h | h)
    · exact n6 h
    · exact n7 h
    · exact n5 h
    · exact hr ⟨h.1, h.2.1⟩

/-- No list appears without Tab. -/
theorem key_dry (km : KeyMap κ) (t : κ × Ed) {key : Key} (hk : key ≠ .char '\t') (hn : t.2.showCompletionsHint = none) :
    Wp (km.handleKey E comp key) t (fun _ t' => t'.2.showCompletionsHint = none) (fun _ _ => True) (fun _ => True) :=
  wp_mono (key_list E comp km t hk)
    (fun _ _ h => by by_cases hk : keeps t.2 key; exacts [(h.1 hk).trans hn, h.2 hk])
    (fun _ _ h => h) (fun _ h => h)

end
end Props
end Liner
