import Verif.Proof.ViKeys
import Verif.Props.Witness
import Mathlib.Tactic.IntervalCases
/-
Properties of the vi modes: C49, C58.
-/

namespace Liner.Props
open Liner Liner.Spec Liner.Editor Liner.Wit

/-! ### C49 -/

/-- C49: in normal mode, after any keys, the cursor is on a character, or the line is empty. -/
theorem C49_cursor (E : Env) (p p' : Prompt) (h : History) (fs : FS) (b : Buffer)
    (keys : List (Key × (Text → List Text))) (v : Vi) (s : Ed)
    (hs : session Vi.keyMap E p keys (({} : Vi), initial p' h fs b) = .ok () (v, s))
    (hm : v.mode = .normal) :
    ∃ t, text? s = some t ∧ (s.cursor < t.length ∨ (t = [] ∧ s.cursor = 0)) := by
  have hv : Vi.VI (v, s) := wp_ok (Vi.vi_session E p p' h fs b keys) hs
  obtain ⟨b, hb, hc, hn⟩ := hv.rests
  refine ⟨b.data, text?_eq.mpr ⟨b, hb, rfl⟩, ?_⟩
  have he : s.noEol = true := by rw [hv.eol]; simp [hm]
  rcases hn he with h1 | h1
  · exact .inl h1
  · cases hd : b.data with
    | nil => exact .inr ⟨rfl, h1⟩
    | cons c r => exact .inl (by dsimp only at h1; rw [h1]; simp)

/-- In every mode the cursor is inside the line. -/
theorem C49_inside (E : Env) (p p' : Prompt) (h : History) (fs : FS) (b : Buffer)
    (keys : List (Key × (Text → List Text))) (v : Vi) (s : Ed)
    (hs : session Vi.keyMap E p keys (({} : Vi), initial p' h fs b) = .ok () (v, s)) :
    ∃ t, text? s = some t ∧ s.cursor ≤ t.length := by
  have hv : Vi.VI (v, s) := wp_ok (Vi.vi_session E p p' h fs b keys) hs
  obtain ⟨b, hb, hc, hn⟩ := hv.rests
  exact ⟨b.data, text?_eq.mpr ⟨b, hb, rfl⟩, hc⟩

example : okAnd (vi ["one two"] ([.esc, .up, .char '$', .char 'x']))
    (fun _ t => t.1.mode == .normal && text? t.2 == some "one tw".toList && t.2.cursor == 5) = true := by
  decide +kernel
example : okAnd (vi [] ([.esc] ++ chars "d$"))
    (fun _ t => t.1.mode == .normal && text? t.2 == some [] && t.2.cursor == 0) = true := by
  decide +kernel

/-! ### C58 -/

/-- C58: reading a line starts in insert mode. -/
theorem C58_start (E : Env) (p p' : Prompt) (h : History) (fs : FS) (b : Buffer) (v : Vi) (s : Ed)
    (hs : session Vi.keyMap E p [] (({} : Vi), initial p' h fs b) = .ok () (v, s)) :
    v.mode = .insert := by
  have : v.modeStack = [.insert] := by
    suffices h : Wp (session Vi.keyMap E p []) (({} : Vi), initial p' h fs b)
      (fun _ t => t.1.modeStack = [.insert]) (fun _ _ => True) (fun _ => True) from (wp_ok h hs :)
    unfold session
    rw [wp_bind]
    refine wp_mono (Vi.ed_fst _ _) (fun _ t1 h1 => ?_) (fun _ _ h => h) (fun _ h => h)
    rw [show Vi.keyMap.init E = Vi.init E from rfl]
    unfold Vi.init Vi.setEditorMode
    rw [wp_bind, wp_bind]
    refine wp_mono (Vi.ed_fst _ _) (fun _ t2 h2 => ?_) (fun _ _ h => h) (fun _ h => h)
    rw [wp_bind, wp_getK]
    have h3 : t2.1 = {} := h2.trans h1
    rw [show t2.1.mode = .insert by rw [h3]; rfl]
    dsimp only
    rw [wp_bind]
    refine wp_mono (Vi.ed_fst _ _) (fun _ t4 h4 => ?_) (fun _ _ h => h) (fun _ h => h)
    refine wp_mono (Vi.ed_fst _ _) (fun _ t5 h5 => ?_) (fun _ _ h => h) (fun _ h => h)
    show t5.1.modeStack = _
    rw [h5, h4, h3]
  simp [Vi.mode, this]

/-- C58: Esc leads to normal mode from every mode. -/
theorem C58_esc (E : Env) (p p' : Prompt) (h : History) (fs : FS) (b : Buffer)
    (keys : List (Key × (Text → List Text))) (v : Vi) (s : Ed)
    (hs : session Vi.keyMap E p keys (({} : Vi), initial p' h fs b) = .ok () (v, s))
    (comp : Text → List Text) (done : Bool) (t' : Vi × Ed)
    (hk : Vi.keyMap.handleKey E comp .esc (v, s) = .ok done t') :
    done = false ∧ t'.1.mode = .normal ∧ t'.1.modeStack = [] := by
  have hv : Vi.VI (v, s) := wp_ok (Vi.vi_session E p p' h fs b keys) hs
  obtain ⟨b, hb, -⟩ := hv.rests
  have := wp_ok (Vi.handleKey_seen E (Q := fun d t => d = false ∧ t.1.modeStack = []) (R := Vi.T2)
    (P := Vi.T1) Vi.seen_esc hb comp
    (wp_mono (Vi.core_esc E hv (.inl rfl)) (fun _ t1 h1 => wp_mono (Vi.ed_fst _ _) (fun _ t2 h2 =>
      wp_mono (Vi.ed_fst _ _) (fun _ t3 h3 => ⟨rfl, by rw [h3, h2]; exact h1.2⟩) (fun _ _ h => h)
      (fun _ h => h)) (fun _ _ h => h) (fun _ h => h)) (fun _ _ h => h) (fun _ h => h))) hk
  exact ⟨this.1, Vi.mode_nil this.2, this.2⟩

/-- C58: Ctrl-[ is another Esc, except in normal mode, where it does nothing. -/
theorem C58_ctrl (E : Env) (p p' : Prompt) (h : History) (fs : FS) (b : Buffer)
    (keys : List (Key × (Text → List Text))) (v : Vi) (s : Ed)
    (hs : session Vi.keyMap E p keys (({} : Vi), initial p' h fs b) = .ok () (v, s))
    (comp : Text → List Text) (done : Bool) (t' : Vi × Ed) (hm : v.mode ≠ .normal)
    (hk : Vi.keyMap.handleKey E comp (.ctrl '[') (v, s) = .ok done t') :
    done = false ∧ t'.1.mode = .normal ∧ t'.1.modeStack = [] := by
  have hv : Vi.VI (v, s) := wp_ok (Vi.vi_session E p p' h fs b keys) hs
  obtain ⟨b, hb, -⟩ := hv.rests
  have := wp_ok (Vi.handleKey_seen E (Q := fun d t => d = false ∧ t.1.modeStack = []) (R := Vi.T2)
    (P := Vi.T1) (by constructor <;> simp) hb comp
    (wp_mono (Vi.core_esc E hv (.inr ⟨rfl, hm⟩)) (fun _ t1 h1 => wp_mono (Vi.ed_fst _ _) (fun _ t2 h2 =>
      wp_mono (Vi.ed_fst _ _) (fun _ t3 h3 => ⟨rfl, by rw [h3, h2]; exact h1.2⟩) (fun _ _ h => h)
      (fun _ h => h)) (fun _ _ h => h) (fun _ h => h)) (fun _ _ h => h) (fun _ h => h))) hk
  exact ⟨this.1, Vi.mode_nil this.2, this.2⟩

/-- C58: the mode shown by the prompt, if it shows one: insert during an insertion, also while the
operator of a `c` waits for its motion, and normal otherwise. -/
theorem C58_shown (E : Env) (p p' : Prompt) (h : History) (fs : FS) (b : Buffer)
    (keys : List (Key × (Text → List Text))) (v : Vi) (s : Ed)
    (hs : session Vi.keyMap E p keys (({} : Vi), initial p' h fs b) = .ok () (v, s)) (st : ViStatus)
    (hst : s.prompt.viStatus = some st) :
    (v.mode = .normal → st.mode = .normal) ∧ (v.mode = .insert → st.mode = .insert) ∧
    st.mode = if .insert ∈ v.modeStack then .insert else .normal := by
  have hv : Vi.VI (v, s) := wp_ok (Vi.vi_session E p p' h fs b keys) hs
  have := hv.shown st hst
  refine ⟨fun hm => ?_, fun hm => ?_, this⟩
  · rw [this, hv.nil hm]; rfl
  · rw [this, hv.insert hm]; rfl

theorem mem_motionKeys (key : Key) : key ∈ motionKeys ↔ Vi.isMovementKey key = true := by
  cases key with
  | char c =>
    simp only [motionKeys, Vi.isMovementKey, List.mem_append, List.mem_map, Key.char.injEq,
      exists_eq_right, decide_eq_true_eq, List.mem_cons, List.not_mem_nil, or_false, reduceCtorEq]
    tauto
  | _ => simp [motionKeys, Vi.isMovementKey]

theorem digit_iff (c : Char) :
    c ∈ ['0', '1', '2', '3', '4', '5', '6', '7', '8', '9'] ↔ (Vi.digit? c).isSome = true := by
  constructor
  · intro h
    simp only [List.mem_cons, List.not_mem_nil, or_false] at h
    rcases h with rfl | rfl | rfl | rfl | rfl | rfl | rfl | rfl | rfl | rfl <;> decide
  · intro h
    unfold Vi.digit? at h
    split at h
    · rename_i hc
      have h1 : 48 ≤ c.val.toNat := hc.1
      have h2 : c.val.toNat ≤ 57 := hc.2
      have h3 : c = Char.ofNat c.val.toNat := by simp
      generalize c.val.toNat = n at *
      subst h3
      interval_cases n <;> decide
    · cases h

theorem mem_digitKeys (key : Key) :
    key ∈ digitKeys ↔ (match key with | .char c => (Vi.digit? c).isSome | _ => false) = true := by
  cases key with
  | char c =>
    rw [← digit_iff]
    simp only [digitKeys, List.mem_map, Key.char.injEq, exists_eq_right]
  | _ => simp [digitKeys]

/-- C58: a waiting mode is given up by a key it does not take, and nothing is changed.  Missing: the
keys that `KeyMap::handle_key` handles before the key map sees them do not cancel, see
`C58_tab_violation`. -/
theorem C58_cancel_partial (E : Env) (p p' : Prompt) (h : History) (fs : FS) (b : Buffer)
    (keys : List (Key × (Text → List Text))) (v : Vi) (s : Ed)
    (hs : session Vi.keyMap E p keys (({} : Vi), initial p' h fs b) = .ok () (v, s))
    (hw : Waiting v.mode) (key : Key) (ht : ¬ Takes v key) (hk : Seen s key)
    (hn : ¬ s.reverseSearch ∧ ¬ s.forwardSearch) {l r : Text} (ha : At s l r)
    (comp : Text → List Text) :
    (∀ done t', Vi.keyMap.handleKey E comp key (v, s) = .ok done t' → done = false ∧
      t'.1.mode = .normal ∧ text? t'.2 = some (l ++ r) ∧
      t'.2.cursor = if r = [] then l.length - 1 else l.length) ∧
    Vi.keyMap.handleKey E comp key (v, s) ≠ .panic .op := by
  have hv : Vi.VI (v, s) := wp_ok (Vi.vi_session E p p' h fs b keys) hs
  have ho : Open s.noEol s l r := ⟨by simp [Ed.isSearch, hn.1, hn.2], rfl, trivial, ha⟩
  have key' : ∃ v', v'.modeStack = [] ∧
      Vi.GivesP (Vi.handleKeyCore E key) (v, s) v' true (rest true l r) := by
    show ∃ v', v'.modeStack = [] ∧
      Vi.GivesP (Vi.coreStep (Vi.coreFuel E 7) E key) (v, s) v' true (rest true l r)
    unfold Vi.coreStep
    unfold Takes at ht
    cases hm : v.mode with
    | insert => rw [hm] at hw; exact hw.elim
    | normal => rw [hm] at hw; exact hw.elim
    | tilde => exact absurd hm hv.tilde
    | replace =>
      rw [hm] at ht
      refine ⟨{ v with modeStack := [], count := 0 }, rfl, Vi.gives_getK ?_⟩
      rw [hm]
      unfold Vi.handleKeyReplace
      have := Vi.gives_bind (Vi.abort_gives E (v := v) ho)
        (fun _ s' h' => Vi.gives_modK (f := fun v => { v with count := 0 }) h')
      cases key with
      | char c => exact absurd ⟨c, rfl⟩ ht
      | _ => exact this
    | moveToChar m =>
      rw [hm] at ht
      refine ⟨{ v with modeStack := [], count := 0 }, rfl, Vi.gives_getK ?_⟩
      rw [hm]
      unfold Vi.handleKeyMoveToChar
      refine Vi.gives_getK (Vi.gives_mod ?_)
      have : Vi.resolveMove key (.dir m) v.lastCharMovement = none := by
        cases key with
        | char c => exact absurd ⟨c, rfl⟩ ht
        | _ => simp [Vi.resolveMove]
      rw [this]
      exact Vi.abort_gives E (v := { v with count := 0 }) ho
    | g =>
      rw [hm] at ht
      refine ⟨{ v with modeStack := [], count := 0, currentCommand := v.currentCommand ++ [key] }, rfl,
        Vi.gives_getK ?_⟩
      rw [hm]
      unfold Vi.handleKeyG
      refine Vi.gives_getK (Vi.gives_mod ?_)
      dsimp only
      rw [if_neg (fun h => ht (.inl h)), if_neg (fun h => ht (.inr h))]
      exact Vi.gives_bind (Vi.abort_gives E (v := { v with currentCommand := v.currentCommand ++ [key] }) ho)
        (fun _ s' h' => Vi.gives_modK (f := fun v => { v with count := 0 }) h')
    | delete q =>
      rw [hm] at ht
      dsimp only at ht
      rw [not_or, not_or] at ht
      refine ⟨{ v with modeStack := [], count := 0 }, rfl, Vi.gives_getK ?_⟩
      rw [hm]
      unfold Vi.handleKeyDeleteOrChange
      refine Vi.gives_getK ?_
      rw [if_neg, if_neg, if_neg]
      · exact Vi.abort_gives E (v := v) ho
      · rintro (⟨rfl, h2⟩ | ⟨rfl, h2⟩)
        · exact ht.2.2 (by rw [h2]; rfl)
        · exact ht.2.2 (by rw [h2]; rfl)
      · exact fun h => ht.2.1 ((mem_digitKeys key).2 h)
      · rintro (h1 | ⟨rfl, _⟩)
        · exact ht.1 ((mem_motionKeys key).2 h1)
        · exact ht.2.1 (by decide)
  obtain ⟨v', hv', hg⟩ := key'
  have := Vi.handleKey_gives E hk ho comp hg
  refine ⟨fun done t' h' => ?_, fun h' => wp_panic' this h' rfl⟩
  obtain ⟨h1, h2, h3⟩ := wp_ok this h'
  refine ⟨h1, Vi.mode_nil (by rw [h2]; exact hv'), ?_, ?_⟩
  · have := h3.here.1
    rwa [rest_append] at this
  · rw [h3.here.2, rest_length]; simp

/-- C58 fails for the keys handled before: an operator survives a completion. -/
theorem C58_tab_violation : okAnd (vi [] (chars "a b" ++ [.esc, .char 'd', .char '\t']))
    (fun _ t => t.1.mode == .delete 2) = true := by decide +kernel

end Liner.Props
