import Verif.Proof.ViSafeCore
/-
Whole keys and whole sessions of the vi key map.
-/

namespace Liner
namespace Vi
open Liner.Spec Liner.Editor M KM

section
variable {h : Ctx} {E : Env} [Draws E h] {t : Vi × Ed}

omit [Draws E h] in
theorem wp_run {α : Type} {m : ViM α} : Wp m t (fun a t' => m t = .ok a t') T2 T1 := by
  unfold Wp
  cases m t <;> trivial

omit [Draws E h] in
theorem vs_forEach {f : Key → ViM Unit} {P : Vi × Ed → Prop} : ∀ (xs : List Key) (t : Vi × Ed), Ok h t.2 → P t →
    (∀ x ∈ xs, ∀ t, Ok h t.2 → P t → VS h (f x) t (fun _ t' => P t')) → VS h (forEach xs f) t (fun _ t' => P t')
  | [], _, ho, hp, _ => vs_pure (a := ()) ho hp
  | x :: xs, t, ho, hp, hf => vs_bind (vs_mono (hf x List.mem_cons_self t ho hp) fun _ t1 o1 h1 =>
      vs_forEach xs t1 o1 h1 fun y hy => hf y (List.mem_cons_of_mem _ hy))

omit [Draws E h] in
theorem vs_repeatN {m : ViM Unit} {P : Vi × Ed → Prop} (hm : ∀ t, Ok h t.2 → P t → VS h m t (fun _ t' => P t')) : ∀ (n : Nat) (t : Vi × Ed),
    Ok h t.2 → P t → VS h (repeatN n m) t (fun _ t' => P t')
  | 0, _, ho, hp => vs_pure (a := ()) ho hp
  | n + 1, t, ho, hp => vs_bind (vs_mono (hm t ho hp) fun _ t1 o1 h1 => vs_repeatN hm n t1 o1 h1)

omit [Draws E h] in
theorem VI.nodel_insert (hm : t.1.modeStack = [.insert]) : Pn t.1 t.2 := (nodel_of (.inr (.inl hm))).pn

/-- A key that replays no others. -/
theorem vs_coreOwn {n : Nat} {k : Key} (hs : h.hist.share = false) (hio : TildeOk E h) (ho : Ok h t.2) (hv : Inv t) (hp : Pn t.1 t.2) (hk : Own t.1 k)
    (hc : Fit t k) : VS h (coreFuel E (n + 1) k) t (fun _ t' => (Pn t'.1 t'.2 ∧ Inv t') ∧ handleKeyCore E k t = .ok () t') := by
  have h1 := vs_own (core := coreFuel E n) (E := E) hs (fun _ _ => hio) ho hv.1 hp hk hc
  have h2 := (own_eqv (rest := fun _ => pure ()) (n := n) (m := 0) E hv hk).2
  have e : coreFuel E (n + 1) k t = handleKeyCore E k t := own_core E hk
  refine vs_mono (vs_and (vs_and h1 h2) (wp_run (m := coreStep (coreFuel E n) E k))) fun _ t' _ x => ⟨⟨x.1.1, x.1.2.1⟩, e.symm.trans x.2⟩

/-- A key typed in insert mode. -/
theorem vs_coreIns {n : Nat} {k : Key} (hs : h.hist.share = false) (ho : Ok h t.2) (hv : Ins t) (hk : Plain k) :
    VS h (coreFuel E (n + 1) k) t (fun _ t' => Ins t') := by
  have hm := mode_cons hv.2
  have h1 := vs_own (core := coreFuel E n) (E := E) (k := k) hs (fun hx => by rw [hm] at hx; cases hx) ho hv.1 (VI.nodel_insert hv.2) ⟨fun hx => hx.2 hk, fun hx => by rw [hm] at hx; cases hx.1⟩
    ⟨fun p hx => (by rw [hm] at hx; cases hx), fun p hx => (by rw [hm] at hx; cases hx)⟩
  exact vs_mono (vs_and h1 ((coreFuel_ok E (n + 1)).ins k hk t hv.1 hv.2)) fun _ t' _ x => x.2

/-- Esc at the end of an insertion. -/
theorem vs_coreEsc {n : Nat} {k : Key} (hs : h.hist.share = false) (ho : Ok h t.2) (hv : Inv t) (hm : t.1.mode = .insert) (hk : ¬ Plain k) :
    VS h (coreFuel E (n + 2) k) t (fun _ t' => Pn t'.1 t'.2 ∧ Inv t') := by
  have hst := hv.1.insert hm
  have fin : ∀ t1 : Vi × Ed, Ok h t1.2 → t1.1.modeStack = [.insert] → VS h (do
      ed (Editor.moveCursorLeft E 1)
      popMode E : ViM Unit) t1 (fun _ t' => Pn t'.1 t'.2) := by
    intro t1 o1 e1
    refine vs_bind (vs_ed o1 (moveCursorLeft_safe o1.j _) (uses_left E 1) fun _ s2 o2 => ?_)
    refine vs_mono (vs_popMode (by dsimp only; rw [e1]; intro hx; cases hx) (by exact o2)) fun _ t3 _ e3 => NoDel.pn (nodel_of (.inl ?_))
    rw [e3]
    simp [popped, e1]
  refine vs_mono (vs_and ?_ (esc_eqv (rest := fun _ => pure ()) (n := n) (m := 0) E hv hm hk).2) fun _ t' _ x => ⟨x.1, x.2.1⟩
  show VS h (coreStep (coreFuel E (n + 1)) E k) t _
  unfold coreStep
  refine vs_bind (vs_getK ho ?_)
  rw [hm]
  dsimp only
  have hk' : k = .esc ∨ k = .ctrl '[' := by
    by_contra hne
    exact hk ⟨fun h => hne (.inl h), fun h => hne (.inr h)⟩
  unfold handleKeyInsert
  rw [if_pos hk']
  refine vs_bind (vs_getK ho (vs_ite (fun _ => ?_) (fun _ => fin t ho hst)))
  refine vs_bind (vs_modK ho ?_)
  refine vs_bind (vs_mono (vs_repeatN (P := Ins) (fun t2 o2 i2 => ?_) (t.1.count - 1) _ (by exact ho)
    (Ins.noEsc ⟨hv.1, hst⟩ (v := { t.1 with lastCount := t.1.count }) rfl hv.1.esc.last)) fun _ t2 o2 i2 => ?_)
  · refine vs_bind (vs_getK o2 ?_)
    refine vs_bind (vs_modK o2 ?_)
    exact vs_forEach (P := Ins) _ _ (by exact o2) (Ins.noEsc i2 (v := { t2.1 with lastCommand := [] }) rfl (fun k hk => by cases hk))
      fun x hx t3 o3 i3 => vs_coreIns hs o3 i3 (i2.1.esc.last x hx)
  · refine vs_bind (vs_modK o2 ?_)
    exact fin _ (by exact o2) i2.2

/-- Every key but a repetition. -/
theorem vs_coreAny {n : Nat} {k : Key} (hs : h.hist.share = false) (hio : TildeOk E h) (ho : Ok h t.2) (hv : Inv t) (hp : Pn t.1 t.2)
    (hk : ¬ (t.1.mode = .normal ∧ k = .char '.')) (hc : Fit t k) : VS h (coreFuel E (n + 2) k) t (fun _ t' => Pn t'.1 t'.2 ∧ Inv t') := by
  by_cases h1 : t.1.mode = .insert ∧ ¬ Plain k
  · exact vs_coreEsc hs ho hv h1.1 h1.2
  · exact vs_mono (vs_coreOwn (n := n + 1) hs hio ho hv hp ⟨h1, hk⟩ hc) fun _ _ _ x => x.1

/-- A record is replayed. -/
theorem vs_replay {n : Nat} (hs : h.hist.share = false) (hio : TildeOk E h) : ∀ (ks : List Key) (t : Vi × Ed), (∀ k ∈ ks, Plain k) → Ok h t.2 →
    Pn t.1 t.2 ∧ Inv t → AllFit E ks t → VS h (forEach ks (coreFuel E (n + 1))) t (fun _ t' => Pn t'.1 t'.2 ∧ Inv t')
  | [], _, _, ho, hp, _ => vs_pure (a := ()) ho hp
  | k :: ks, t, hpl, ho, hp, hf => by
    refine vs_bind (vs_mono (vs_coreOwn (n := n) hs hio ho hp.2 hp.1 ⟨fun hx => hx.2 (hpl k List.mem_cons_self), hf.2.1⟩ hf.1) fun _ t1 o1 h1 => ?_)
    exact vs_replay hs hio ks t1 (fun k hk => hpl k (List.mem_cons_of_mem _ hk)) o1 h1.1 (hf.2.2 t1 h1.2)

/-- The repetition. -/
theorem vs_coreDot {n : Nat} (hs : h.hist.share = false) (hio : TildeOk E h) (ho : Ok h t.2) (hv : Inv t) (hm : t.1.mode = .normal)
    (hf : AllFit E (recorded t.1) (repeating t.1, t.2)) : VS h (coreFuel E (n + 3) (.char '.')) t (fun _ t' => Pn t'.1 t'.2) := by
  have hst := hv.1.nil hm
  have hb : Inv (repeating t.1, t.2) := inv_begin hv _
  have hpl := hv.1.esc.last
  have fin : ∀ t1 : Vi × Ed, Ok h t1.2 → Pn t1.1 t1.2 ∧ Inv t1 → AllFit E t.1.lastCommand t1 → VS h (do
      replay (coreFuel E (n + 2)) t.1.lastCommand
      let v ← getK
      if v.lastInsert.isSome then coreFuel E (n + 2) .esc else pure ()
      modK fun v => { v with lastCommand := t.1.lastCommand } : ViM Unit) t1 (fun _ t' => Pn t'.1 t'.2) := by
    intro t1 o1 h1 f1
    refine vs_bind (vs_mono (vs_replay (n := n + 1) hs hio t.1.lastCommand t1 hpl o1 h1 f1) fun _ t2 o2 h2 => ?_)
    refine vs_bind (vs_getK o2 (vs_ite (fun _ => ?_) (fun _ => ?_)))
    · refine vs_bind (vs_mono (vs_coreAny (n := n) (k := .esc) hs hio o2 h2.2 h2.1 (by simp) ⟨fun _ _ => by simp, fun _ _ _ => by simp [reaching]⟩) fun _ t3 o3 h3 => ?_)
      exact vs_modK o3 h3.1
    · exact vs_modK o2 h2.1
  show VS h (coreStep (coreFuel E (n + 2)) E (.char '.')) t _
  unfold coreStep
  refine vs_bind (vs_getK ho ?_)
  rw [hm]
  show VS h (do modK _; repeatLast _ : ViM Unit) t _
  refine vs_bind (vs_modK ho ?_)
  unfold repeatLast
  refine vs_bind (vs_modK (by exact ho) ?_)
  refine vs_bind (vs_getK (by exact ho) ?_)
  refine vs_bind (vs_modK (by exact ho) ?_)
  dsimp only
  unfold recorded at hf
  split
  rotate_left
  · rename_i hi
    rw [hi] at hf
    exact fin (repeating t.1, t.2) ho ⟨(nodel_of (.inl hst)).pn, hb⟩ hf
  · rename_i k hi
    rw [hi] at hf
    refine vs_bind (vs_mono (vs_coreOwn (n := n + 1) (t := (repeating t.1, t.2)) hs hio ho hb (nodel_of (.inl hst)).pn ⟨fun hx => ?_, hf.2.1⟩ hf.1)
      fun _ t1 o1 h1 => fin t1 o1 h1.1 (hf.2.2 t1 h1.2))
    have : (repeating t.1).mode = .normal := mode_nil hst
    rw [this] at hx
    cases hx.1

/-- Every key. -/
theorem vs_core {k : Key} (hs : h.hist.share = false) (hio : TildeOk E h) (ho : Ok h t.2) (hv : Inv t) (hp : Pn t.1 t.2) (hc : Calm E t k) :
    VS h (handleKeyCore E k) t (fun _ t' => Pn t'.1 t'.2) := by
  by_cases hk : t.1.mode = .normal ∧ k = .char '.'
  · obtain ⟨h1, rfl⟩ := hk
    exact vs_coreDot (n := 5) hs hio ho hv h1 (hc.repeats h1 rfl)
  · exact vs_mono (vs_coreAny (n := 6) hs hio ho hv hp hk hc.fit) fun _ _ _ x => x.1

/-- A whole key. -/
theorem vs_handleKey (hs : h.hist.share = false) (hw : WordsOk E) (hio : TildeOk E h) (ho : Ok h t.2) (hv : Inv t) (hp : Pn t.1 t.2) (comp : Text → List Text) {key : Key}
    (hq : h.strict = true → key ≠ .ctrl 'r' ∧ key ≠ .ctrl 's') (hc : Calm E t (KeyMap.translate key)) :
    VS h (keyMap.handleKey E comp key) t (fun _ t' => Pn t'.1 t'.2 ∧ Inv t') := by
  have h1 : KS h Pn (keyMap.handleKey E comp key) t := by
    refine handleKey_safe keyMap hs hw ho.i comp key hq (fun hsp hr s' _ _ => ?_) (fun hk ha hn => ?_) ?_ (fun _ _ hx => hx) (fun _ _ hx => hx)
    · by_cases hd : NoDel t.1
      · exact hd.pn
      · simp only [NoDel, not_forall, not_not] at hd
        obtain ⟨p, hd⟩ := hd
        obtain ⟨h2, h3⟩ := hc.wait p hd
        exfalso
        rcases hsp with hk | hk | hk | hk | hk | hk
        · exact h2 (by rw [hk]; simp [swapping])
        · exact h2 (by rw [hk]; simp [swapping])
        · exact h2 (by rw [hk]; simp [swapping])
        · exact h2 (by rw [hk]; simp [swapping])
        · exact h2 (by rw [hk]; simp [swapping])
        · obtain ⟨h4, h5⟩ := hr hk
          have hne : t.2.noEol = false := hv.1.noEol_false fun hx => by rw [hv.1.nil hx] at hd; cases hd
          obtain ⟨b, hb, hcu⟩ := h5 hne
          exact h3 ⟨hk, h4, by rw [text?_eq.mpr ⟨b, hb, rfl⟩, hcu]; rfl⟩
    · refine hc.right ?_ hk ha
      rw [hv.1.eol] at hn
      exact of_decide_eq_true hn
    · exact wp_mono (vs_core hs hio ho hv hp hc) (fun _ t' x => ⟨x.1.i, x.2⟩) (fun _ _ x => x) (fun _ x => x)
  have h2 := (td_kept E .vi true (fun _ => rfl)).usesK (uses_handleKey keyMap E comp key (uses_core E _)) t ho.td
  have h3 := kinv_handleKey E comp key t hv
  exact wp_mono (wp_and (wp_and h1 h2) h3) (fun _ t' x => ⟨⟨x.1.1.1, x.1.2.1⟩, x.1.1.2, x.2⟩) (fun _ _ x => x.1.1) (fun _ x => x.1.1)

/-- Every key is calm when it comes. -/
def Careful (E : Env) : List KeyMap.Input → Vi × Ed → Prop
  | [], _ => True
  | .ioErr :: _, _ => True
  | .key k c :: rest, t => Calm E t (KeyMap.translate k) ∧ ∀ t', keyMap.handleKey E c k t = .ok false t' → Careful E rest t'

theorem loop_careful (hs : h.hist.share = false) (hw : WordsOk E) (hio : TildeOk E h) : ∀ (input : List KeyMap.Input) (t : Vi × Ed),
    (h.strict = true → ∀ k c, KeyMap.Input.key k c ∈ input → k ≠ .ctrl 'r' ∧ k ≠ .ctrl 's') → Ok h t.2 → Pn t.1 t.2 ∧ Inv t → Careful E input t →
    Wp (keyMap.loop E input) t (fun _ _ => True) (fun _ _ => True) h.May
  | [], t, _, ho, _, _ => by
    unfold KeyMap.loop
    simp only [wp_bind, wp_ed, wp_get, wp_ofOption, intoText]
    obtain ⟨b, hb⟩ := ho.j.good.curBuf
    exact ⟨fun _ _ => trivial, fun hn => by rw [hb] at hn; cases hn⟩
  | .ioErr :: _, t, _, _, _, _ => trivial
  | .key k c :: rest, t, hq, ho, hk, hc => by
    unfold KeyMap.loop
    rw [wp_bind]
    refine wp_mono (vs_and (vs_handleKey hs hw hio ho hk.2 hk.1 c (fun hx => hq hx k c List.mem_cons_self) hc.1) (wp_run (m := keyMap.handleKey E c k)))
      (fun done t' h' => ?_) (fun _ _ _ => trivial) (fun _ x => x)
    simp only [wp_bind, wp_ed, wp_get, wp_ofOption, intoText, wp_ite]
    obtain ⟨b, hb⟩ := h'.1.j.good.curBuf
    refine ⟨fun _ => ⟨fun _ _ => trivial, fun hn => by rw [hb] at hn; cases hn⟩, fun hd => ?_⟩
    refine loop_careful hs hw hio rest t' (fun hx k c hk => hq hx k c (List.mem_cons_of_mem _ hk)) h'.1 h'.2.1 (hc.2 t' ?_)
    rw [h'.2.2]
    simpa using hd

/-- Before the first key. -/
theorem vs_open (ht : E.ttyWidth ≠ some 0) (p p' : Prompt) (fs : FS) {b : Buffer} (hb : ∃ d, Buffer.Inv d b) :
    VS h (session keyMap E p []) (({} : Vi), initial p' h.hist fs b) (fun _ t' => Pn t'.1 t'.2 ∧ Inv t') := by
  have hi := initial_safe (h := h) p' fs hb
  have htd := initial_td true p' h.hist fs b
  refine vs_mono (vs_and (Q := fun _ t' => t'.1.modeStack = [.insert]) ?_ (inv_session E p p' h.hist fs b [])) fun _ t' _ x => ⟨VI.nodel_insert x.1, x.2⟩
  unfold session
  refine vs_bind (Q := fun _ (t' : Vi × Ed) => t'.1.modeStack = [.insert]) ?_
  have h1 : Wp (ed (start E p)) (({} : Vi), initial p' h.hist fs b) (fun _ t' => Ok h t'.2 ∧ t'.1 = ({} : Vi)) (fun _ t' => J h t'.2) h.May := by
    rw [wp_ed]
    exact wp_mono (wp_and (start_safe hi p ht) (td_start E p _ htd)) (fun _ s' x => ⟨⟨x.1, x.2⟩, rfl⟩) (fun _ _ x => x.1) (fun _ x => x.1)
  refine wp_mono h1 (fun _ t1 x => ⟨x.1, ?_⟩) (fun _ _ x => x) (fun _ x => x)
  obtain ⟨o1, e1⟩ := x
  refine vs_bind ?_
  show VS h (init E) t1 _
  unfold init
  refine vs_bind (vs_mono (vs_startGroup E o1) fun _ t2 o2 h2 => ?_)
  refine vs_mono (vs_setEditorMode o2) fun _ t3 o3 h3 => vs_pure o3 ?_
  rw [h3.1, h2.1, e1]

theorem readLine_careful (hs : h.hist.share = false) (hw : WordsOk E) (hio : TildeOk E h) (ht : E.ttyWidth ≠ some 0) (p p' : Prompt) (fs : FS) {b : Buffer}
    (hb : ∃ d, Buffer.Inv d b) (input : List KeyMap.Input)
    (hq : h.strict = true → ∀ k c, KeyMap.Input.key k c ∈ input → k ≠ .ctrl 'r' ∧ k ≠ .ctrl 's')
    (hc : ∀ t, session keyMap E p [] (({} : Vi), initial p' h.hist fs b) = .ok () t → Careful E input t) :
    Wp (keyMap.readLine E p input) (({} : Vi), initial p' h.hist fs b) (fun _ _ => True) (fun _ _ => True) h.May := by
  have e : keyMap.readLine E p input = (session keyMap E p [] >>= fun _ => keyMap.loop E input) := by
    show M.bind (ed (start E p)) (fun _ => M.bind (keyMap.init E) (fun _ => keyMap.loop E input)) =
      M.bind (M.bind (ed (start E p)) (fun _ => M.bind (keyMap.init E) (fun _ => M.pure ()))) (fun _ => keyMap.loop E input)
    rw [bind_assoc0]
    congr 1
    funext _
    rw [bind_assoc0]
    rfl
  rw [e, wp_bind]
  exact wp_mono (vs_and (vs_open ht p p' fs hb) (wp_run (m := session keyMap E p []))) (fun _ t' x => loop_careful hs hw hio input t' hq x.1 x.2.1 (hc t' x.2.2))
    (fun _ _ _ => trivial) (fun _ x => x)

omit [Draws E h] in
theorem press_snoc (E : Env) (k : Key) (c : Text → List Text) : ∀ (pre : List (Key × (Text → List Text))) (t t1 t2 : Vi × Ed) (d : Bool),
    press keyMap E pre t = .ok () t1 → keyMap.handleKey E c k t1 = .ok d t2 → press keyMap E (pre ++ [(k, c)]) t = .ok () t2
  | [], t, t1, t2, d, h1, h2 => by
    cases h1
    show (keyMap.handleKey E c k >>= fun _ => press keyMap E []) t = _
    show M.bind _ _ t = _
    unfold M.bind
    rw [h2]
    rfl
  | x :: pre, t, t1, t2, d, h1, h2 => by
    have h1' : M.bind (keyMap.handleKey E x.2 x.1) (fun _ => press keyMap E pre) t = .ok () t1 := h1
    show M.bind (keyMap.handleKey E x.2 x.1) (fun _ => press keyMap E (pre ++ [(k, c)])) t = .ok () t2
    unfold M.bind at h1' ⊢
    split at h1'
    · exact press_snoc E k c pre _ t1 t2 d h1' h2
    · cases h1'
    · cases h1'

omit [Draws E h] in
theorem session_snoc (E : Env) (p : Prompt) {k : Key} {c : Text → List Text} {pre : List (Key × (Text → List Text))} {t t1 t2 : Vi × Ed} {d : Bool}
    (h1 : session keyMap E p pre t = .ok () t1) (h2 : keyMap.handleKey E c k t1 = .ok d t2) : session keyMap E p (pre ++ [(k, c)]) t = .ok () t2 := by
  have h1' : M.bind (ed (start E p)) (fun _ => M.bind (keyMap.init E) (fun _ => press keyMap E pre)) t = .ok () t1 := h1
  show M.bind (ed (start E p)) (fun _ => M.bind (keyMap.init E) (fun _ => press keyMap E (pre ++ [(k, c)]))) t = .ok () t2
  unfold M.bind at h1' ⊢
  split at h1'
  · dsimp only at h1' ⊢
    split at h1'
    · exact press_snoc E k c pre _ t1 t2 d h1' h2
    · cases h1'
    · cases h1'
  · cases h1'
  · cases h1'

omit [Draws E h] in
/-- The condition on the keys, in terms of the states that the keys before lead to. -/
theorem careful_of (E : Env) (p : Prompt) (t0 : Vi × Ed) : ∀ (input : List KeyMap.Input) (pre : List (Key × (Text → List Text))) (t : Vi × Ed),
    session keyMap E p pre t0 = .ok () t →
    (∀ (mid : List (Key × (Text → List Text))) (k : Key) (c : Text → List Text) (post : List KeyMap.Input) (t : Vi × Ed),
      input = mid.map (fun x => .key x.1 x.2) ++ .key k c :: post → session keyMap E p (pre ++ mid) t0 = .ok () t → Calm E t (KeyMap.translate k)) →
    Careful E input t
  | [], _, _, _, _ => trivial
  | .ioErr :: _, _, _, _, _ => trivial
  | .key k c :: rest, pre, t, hr, hc => by
    refine ⟨hc [] k c rest t rfl (by rw [List.append_nil]; exact hr), fun t' ht' => ?_⟩
    refine careful_of E p t0 rest (pre ++ [(k, c)]) t' (session_snoc E p hr ht') fun mid k' c' post t2 he hs2 => ?_
    refine hc ((k, c) :: mid) k' c' post t2 (by rw [he]; rfl) ?_
    rw [List.append_assoc] at hs2
    exact hs2

end
end Vi
end Liner
