import Verif.Proof.ViSafeKeys
/-
The dispatch of the vi key map: no key panics outside a redraw, under conditions on the keys typed while an operator
is pending and on what `.` repeats.
-/

namespace Liner
namespace Vi
open Liner.Spec Liner.Editor M KM

section
variable {h : Ctx} {E : Env} [Draws E h] {t : Vi × Ed}

/-- The keys of normal mode, other than `.`. -/
theorem vs_normal {core : Key → ViM Unit} {key : Key} (hs : h.hist.share = false) (hio : key = .char '~' → TildeOk E h) (hc : key ≠ .char '.')
    (ho : Ok h t.2) (hv : VI t) (hst : t.1.modeStack = []) : VS h (handleKeyNormal core E key) t (fun _ t' => Pn t'.1 t'.2) := by
  have nc : ∀ c, c ≠ '.' → c ≠ '~' → VS h (normalChar core E c) t (fun _ t' => Pn t'.1 t'.2) := fun c h1 h2 =>
    vs_normalChar hs (fun hx => absurd hx h2) h1 ho hv hst
  have com : VS h (ed (handleKeyCommon E key)) t (fun _ t' => Pn t'.1 t'.2) :=
    vs_ed ho (common_safe hs ho.i _) (uses_common E _) fun _ _ _ => (nodel_of (.inl hst)).pn
  have hredo : Uses E .vi (Editor.redo E) := by uses
  unfold handleKeyNormal
  split
  · exact vs_modK ho (nodel_of (.inl hst)).pn
  · exact vs_normalChar hs (fun hx => hio (by rw [hx])) (fun hx => hc (by rw [hx])) ho hv hst
  · exact nc _ (by simp) (by simp)
  · exact nc _ (by simp) (by simp)
  · exact nc _ (by simp) (by simp)
  · exact nc _ (by simp) (by simp)
  · exact nc _ (by simp) (by simp)
  · refine vs_bind (vs_modK ho ?_)
    refine vs_bind (vs_modK (by exact ho) ?_)
    exact vs_cut (by exact ho) fun _ _ => (nodel_of (.inl hst)).pn
  · refine vs_ite (fun _ => ?_) (fun _ => com)
    refine vs_bind (vs_getK ho ?_)
    refine vs_bind (vs_modK ho ?_)
    exact vs_ed (by exact ho) (repeatWhile_safe (fun s hi => redo_safe hi.j) _ _ ho.i) (uses_repeatWhile E hredo _) fun _ _ _ => (nodel_of (.inl hst)).pn
  · exact com

omit [Draws E h] in
theorem move_of {c : Char} {n : Nat} (hk : isMovementKey (.char c) = true ∨ (Key.char c = .char '0' ∧ n = 0)) (h0 : c ≠ '0') (hg : c ≠ 'g')
    (hf : c ∉ ['f', 'F', 't', 'T']) : c ∈ ['h', 'l', ' ', 'k', 'j', ';', ',', 'w', 'W', 'e', 'E', 'b', 'B', '^', '$'] := by
  simp [isMovementKey, h0, hg] at hk hf ⊢
  tauto

/-- The keys after an operator. -/
theorem vs_delete {core : Key → ViM Unit} {key : Key} {p : Nat} (hs : h.hist.share = false) (ho : Ok h t.2) (hv : VI t) (hm : t.1.mode = .delete p)
    (hp : Pn t.1 t.2) (hedge : key ≠ .home ∧ key ≠ .end) (hem : key ∈ reaching → text? t.2 ≠ some []) :
    VS h (handleKeyDeleteOrChange core E key) t (fun _ t' => Pn t'.1 t'.2) := by
  obtain ⟨base, hst, hb⟩ := hv.delete hm
  have hu : Under t.1.modeStack := .inr ⟨p, base, hst, hb⟩
  have hop := Opn.of_under hu
  unfold handleKeyDeleteOrChange
  refine vs_bind (vs_getK ho (vs_ite (fun hk => ?_) (fun hk => ?_)))
  · refine vs_bind (vs_modK ho ?_)
    generalize hv2 : ({ t.1 with count := operatorCount t.1.count t.1.secondaryCount, currentCommand := t.1.currentCommand ++ [key] } : Vi) = v2
    have e2 : v2.modeStack = t.1.modeStack := by rw [← hv2]
    have em : v2.mode = .delete p := by rw [mode, e2]; exact hm
    have hp2 : Pn v2 t.2 := by intro q hq; rw [e2] at hq; exact ⟨(hp q hq).1, fun hi => by rw [em] at hi; exact hi.elim⟩
    have mv : ∀ c ∈ ['h', 'l', ' ', 'k', 'j', ';', ',', 'w', 'W', 'e', 'E', 'b', 'B', '^', '$'], c ≠ 'k' ∧ c ≠ 'j' → (c = ';' ∨ c = ',' → key = .char c) →
        VS h (normalChar core E c) (v2, t.2) (fun _ t' => Pn t'.1 t'.2) := by
      intro c hc hkj hsk
      refine vs_mono (vs_moveKey (t := (v2, t.2)) hs hc ho ?_ (by rw [e2]; exact hop) hp2 (fun hx => absurd hx (by simp [hkj])) (fun hx _ => hem ?_)) fun _ t' _ x => x.pn
      · refine hv.modK e2 ⟨by rw [← hv2]; exact hv.esc.last, fun hpe => ?_⟩
        rw [← hv2]
        intro k hk'
        rcases List.mem_append.1 hk' with hk' | hk'
        · exact hv.esc.cur ⟨p, by rw [hst]; simp⟩ k hk'
        · rw [List.mem_singleton.1 hk']
          rcases hk with hk | hk
          · constructor <;> rintro rfl <;> simp [isMovementKey] at hk
          · rw [hk.1]; exact plain_char _
      · rw [hsk hx]
        rcases hx with rfl | rfl <;> simp [reaching]
    have push : ∀ m : Mode, (m = .g ∨ ∃ k, m = .moveToChar k) → (Incl m → key ∈ reaching) → VS h (setMode E m) (v2, t.2) (fun _ t' => Pn t'.1 t'.2) :=
      fun m h1 h2 => vs_push (t := (v2, t.2)) h1 ho hp2 (fun hi _ => hem (h2 hi))
    cases key with
    | char c =>
      show VS h (normalChar core E c) (v2, t.2) _
      by_cases h0 : c = '0'
      · subst h0
        exact vs_digit (t := (v2, t.2)) (by decide) ho (by rw [e2]; exact hop) hp2 (by rw [em]; exact id)
      · by_cases hg : c = 'g'
        · subst hg
          exact push .g (.inl rfl) (fun _ => by simp [reaching])
        by_cases hf : c ∈ ['f', 'F', 't', 'T']
        · simp only [List.mem_cons, List.not_mem_nil, or_false] at hf
          rcases hf with rfl | rfl | rfl | rfl
          · exact push _ (.inr ⟨_, rfl⟩) (fun _ => by simp [reaching])
          · exact push _ (.inr ⟨_, rfl⟩) (fun hi => by cases hi)
          · exact push _ (.inr ⟨_, rfl⟩) (fun _ => by simp [reaching])
          · exact push _ (.inr ⟨_, rfl⟩) (fun hi => by cases hi)
        refine mv c (move_of hk h0 hg hf) ?_ (fun _ => rfl)
        constructor <;> rintro rfl <;> simp [isMovementKey] at hk
    | left =>
      show VS h (normalChar core E 'h') (v2, t.2) _
      exact mv 'h' (by simp) (by simp) (by simp)
    | right =>
      show VS h (normalChar core E 'l') (v2, t.2) _
      exact mv 'l' (by simp) (by simp) (by simp)
    | backspace =>
      show VS h (normalChar core E 'h') (v2, t.2) _
      exact mv 'h' (by simp) (by simp) (by simp)
    | home => exact absurd rfl hedge.1
    | «end» => exact absurd rfl hedge.2
    | _ => simp [isMovementKey] at hk
  · refine vs_ite (fun hd => ?_) (fun _ => vs_ite (fun hl => ?_) (fun _ => ?_))
    · cases key with
      | char c =>
        show VS h (normalChar core E c) t _
        exact vs_digit hd ho hop hp (by rw [hm]; exact id)
      | _ => cases hd
    · refine vs_bind (vs_modK ho ?_)
      refine vs_bind (vs_ed (by exact ho) (moveCursorToStartOfLine_safe ho.j) (uses_home E) fun _ s1 o1 => ?_)
      refine vs_bind (vs_ed (by exact o1) (deleteAllAfter_safe o1.j o1.i.cur) (uses_deleteAllAfter E) fun _ s2 o2 => ?_)
      refine vs_mono (vs_popMode (by dsimp only; rw [hst]; intro hx; cases hx) (by exact o2)) fun _ t3 _ e3 => NoDel.pn (nodel_of ?_)
      rw [e3]
      simp only [popped, hst, List.tail_cons]
      rcases hb with hb | hb <;> simp [hb]
    · exact vs_mono (vs_abort ho) fun _ t1 _ e1 => (nodel_of (.inl (by rw [e1]))).pn

theorem VI.noEol_false (hv : VI t) (hm : t.1.mode ≠ .normal) : t.2.noEol = false := by rw [hv.eol]; exact decide_eq_false hm

/-- The keys that do not repeat others. -/
theorem vs_own {core : Key → ViM Unit} {k : Key} (hs : h.hist.share = false) (hio : t.1.mode = .normal → k = .char '~' → TildeOk E h) (ho : Ok h t.2) (hv : VI t)
    (hp : Pn t.1 t.2) (hk : Own t.1 k) (hc : Fit t k) : VS h (coreStep core E k) t (fun _ t' => Pn t'.1 t'.2) := by
  unfold coreStep
  refine vs_bind (vs_getK ho ?_)
  cases hm : t.1.mode with
  | normal => exact vs_normal hs (hio hm) (fun hx => hk.2 ⟨hm, hx⟩) ho hv (hv.nil hm)
  | insert =>
    have hpl : Plain k := Classical.byContradiction fun hx => hk.1 ⟨hm, hx⟩
    exact vs_mono (vs_insert hs hpl ho) fun _ t' _ e => (nodel_of (.inr (.inl (e.trans (hv.insert hm))))).pn
  | replace => exact vs_mono (vs_replace ho (hv.replace hm)) fun _ t' _ e => e.pn
  | delete p => exact vs_delete hs ho hv hm hp (hc.edge p hm) (fun h1 h2 => hc.empty p hm h2 h1)
  | moveToChar m =>
    obtain ⟨r, hst, hu⟩ := hv.char hm
    have hop := Opn.of_char hst hu
    refine vs_mono (vs_wk (vs_toChar (E := E) (key := k) (arg := .dir m) ho hp fun p hq => ⟨hv.noEol_false (by rw [hm]; simp), fun c m' hr hi => ?_⟩) (wk_moveToChar E hop)) fun _ t' _ x => NoDel.pn ?_
    · refine (hp p hq).2 ?_
      rw [hm]
      cases k with
      | char x =>
        simp only [resolveMove, Option.some.injEq, Prod.mk.injEq] at hr
        rw [← hr.2] at hi
        exact hi
      | _ => cases hr
    · rcases x.2 with h1 | h1
      · exact nodel_of (.inl h1.1)
      · exact nodel_moved (by exact hop) (.inr h1)
  | g =>
    obtain ⟨r, hst, hu⟩ := hv.g hm
    have hop := Opn.of_g hst hu
    refine vs_mono (vs_wk (vs_g (E := E) (key := k) ho hp hm (hv.noEol_false (by rw [hm]; simp))) (wk_handleG E hop)) fun _ t' _ x => NoDel.pn ?_
    rcases x.2 with h1 | h1
    · exact nodel_of (.inl h1.1)
    · exact nodel_moved (by exact hop) (.inr h1)
  | tilde => exact absurd hm hv.tilde

end
end Vi
end Liner
