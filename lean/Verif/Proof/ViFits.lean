import Verif.Proof.ViSafeRun
/-
Records that can be repeated safely.
-/

namespace Liner
namespace Vi
open Liner.Spec Liner.Editor M KM

section
variable {E : Env} {t : Vi × Ed}

theorem fit_of {k : Key} (hm : ∀ p, t.1.mode ≠ .delete p) : Fit t k :=
  ⟨fun p hx => absurd hx (hm p), fun p hx => absurd hx (hm p)⟩

/-- Typed keys in insert mode. -/
theorem fits_ins : ∀ (ks : List Key) (t : Vi × Ed), Ins t → (∀ k ∈ ks, Plain k) → AllFit E ks t
  | [], _, _, _ => trivial
  | k :: ks, t, hi, hp => by
    have hm := mode_cons hi.2
    refine ⟨fit_of fun p => by rw [hm]; simp, fun hx => (by rw [hm] at hx; cases hx.1), fun t' ht' => ?_⟩
    have h1 := (core_ok E).ins k (hp k List.mem_cons_self) t hi.1 hi.2
    exact fits_ins ks t' (wp_ok h1 ht' :) fun k hk => hp k (List.mem_cons_of_mem _ hk)

theorem wk_begin {core : Key → ViM Unit} {v : Vi} {c : Char} (hc : c ∈ ['i', 'a', 'A', 'I', 's', 'C']) :
    WK (normalChar core E c) v (fun _ v' => v'.modeStack = .insert :: v.modeStack) := by
  have ent : ∀ (m : EdM Unit), WK (do
      modK fun v => { v with lastInsert := some (.char c) }
      setMode E .insert
      ed m : ViM Unit) v (fun _ v' => v'.modeStack = .insert :: v.modeStack) := fun m =>
    wk_bind <| wk_modK <| wk_bind <| wk_setInsert E <| wk_ed fun _ => rfl
  simp only [List.mem_cons, List.not_mem_nil, or_false] at hc
  rcases hc with rfl | rfl | rfl | rfl | rfl | rfl
  · exact wk_bind <| wk_modK <| wk_setInsert E rfl
  · exact ent _
  · exact ent _
  · exact ent _
  · exact wk_bind <| wk_bind <| wk_modK <| wk_setInsert E <| wk_cut E rfl
  · exact wk_bind <| wk_modK <| wk_bind <| wk_modK <| wk_bind <| wk_setModePreserveLast E <| wk_ed fun _ => rfl

theorem core_eq_normal {k : Key} (hm : t.1.mode = .normal) : handleKeyCore E k t = handleKeyNormal (coreFuel E 7) E k t :=
  core_normal_f E hm

/-- An insertion. -/
theorem fits_insertion {c : Char} (hc : c ∈ ['i', 'a', 'A', 'I', 's', 'C']) (hv : VI t) (hm : t.1.mode = .normal) (ks : List Key) (hp : ∀ k ∈ ks, Plain k) :
    AllFit E (.char c :: ks) t := by
  refine ⟨fit_of fun p => by rw [hm]; simp, fun hx => ?_, fun t' ht' => fits_ins ks t' ⟨?_, ?_⟩ hp⟩
  · obtain ⟨_, hx⟩ := hx
    cases hx
    simp at hc
  · exact (wp_ok ((core_ok E).all _ t hv) ht' :)
  · rw [core_eq_normal hm] at ht'
    have h1 := wk_begin (E := E) (core := coreFuel E 7) (v := t.1) hc t.2
    have h2 : t'.1.modeStack = .insert :: t.1.modeStack := (wp_ok h1 ht' :)
    rw [h2, hv.nil hm]

/-- A single key. -/
theorem fits_one {k : Key} (hk : k ≠ .char '.') (hm : t.1.mode = .normal) : AllFit E [k] t :=
  ⟨fit_of fun p => by rw [hm]; simp, fun hx => hk hx.2, fun _ _ => trivial⟩

/-- `r` and a character. -/
theorem fits_replace {k : Key} (hm : t.1.mode = .normal) : AllFit E [.char 'r', k] t := by
  refine ⟨fit_of fun p => by rw [hm]; simp, fun hx => absurd hx.2 (by simp), fun t' ht' => ?_⟩
  rw [core_eq_normal hm] at ht'
  have h2 : Push .replace t.1 t'.1 := (wp_ok (wk_r (core := coreFuel E 7) E (v := t.1) t.2) ht' :)
  have h3 := mode_cons h2.1
  exact ⟨fit_of fun p => by rw [h3]; simp, fun hx => (by rw [h3] at hx; cases hx.1), fun _ _ => trivial⟩

/-- The operator `d`: the line is not touched. -/
theorem d_runs (hm : t.1.mode = .normal) {t' : Vi × Ed} (ht' : handleKeyCore E (.char 'd') t = .ok () t') :
    (∃ p, t'.1.modeStack = .delete p :: t.1.modeStack) ∧ text? t'.2 = text? t.2 := by
  rw [core_eq_normal hm] at ht'
  cases ht'
  exact ⟨⟨_, rfl⟩, rfl⟩

/-- `d` and a motion. -/
theorem fits_d {k : Key} (hm : t.1.mode = .normal) (he : k ≠ .home ∧ k ≠ .end) (hk : text? t.2 = some [] → k ∉ reaching) :
    AllFit E [.char 'd', k] t := by
  refine ⟨fit_of fun p => by rw [hm]; simp, fun hx => absurd hx.2 (by simp), fun t' ht' => ?_⟩
  obtain ⟨⟨p, h1⟩, h2⟩ := d_runs hm ht'
  exact ⟨⟨fun _ _ => he, fun _ _ hx => hk (h2.symm.trans hx)⟩, fun hx => (by rw [mode_cons h1] at hx; cases hx.1), fun _ _ => trivial⟩

/-- `d` and a motion of two keys. -/
theorem fits_d2 {c : Char} {k : Key} (hm : t.1.mode = .normal) (hc : c ∈ ['f', 'F', 't', 'T', 'g']) (hk : text? t.2 ≠ some []) :
    AllFit E [.char 'd', .char c, k] t := by
  refine ⟨fit_of fun p => by rw [hm]; simp, fun hx => absurd hx.2 (by simp), fun t' ht' => ?_⟩
  obtain ⟨⟨p, h1⟩, h2⟩ := d_runs hm ht'
  refine ⟨⟨fun _ _ => by simp, fun _ _ hx => absurd (h2.symm.trans hx) hk⟩, fun hx => (by rw [mode_cons h1] at hx; cases hx.1), fun t2 ht2 => ?_⟩
  have e : handleKeyCore E (.char c) t' = handleKeyDeleteOrChange (coreFuel E 7) E (.char c) t' := core_delete_f E (mode_cons h1)
  rw [e] at ht2
  have h3 : ∀ p, t2.1.mode ≠ .delete p ∧ t2.1.mode ≠ .normal := by
    by_cases hg : c = 'g'
    · subst hg
      have h4 := (wp_ok (wk_opg (core := coreFuel E 7) E (v := t'.1) t'.2) ht2 :)
      exact fun p => by rw [mode_cons h4.1]; simp
    · have h4 := (wp_ok (wk_opfind (core := coreFuel E 7) E (v := t'.1) (c := c) (by simpa [hg] using hc) t'.2) ht2 :)
      obtain ⟨m, h5⟩ := h4.1
      exact fun p => by rw [mode_cons h5]; simp
  exact ⟨fit_of fun p => (h3 p).1, fun hx => absurd hx.1 (h3 0).2, fun _ _ => trivial⟩

end
end Vi
end Liner
