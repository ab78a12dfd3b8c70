import Verif.Model.KeyMap
/-
A Hoare-style predicate for the editor monad.
-/

namespace Liner

/-- After running `m` from `s`: `Q` holds on success, `R` on an I/O error, `P` on a panic. -/
def Wp {σ α : Type} (m : M σ α) (s : σ) (Q : α → σ → Prop) (R : IoErr → σ → Prop)
    (P : Site → Prop) : Prop :=
  match m s with
  | .ok a s' => Q a s'
  | .err e s' => R e s'
  | .panic w => P w

section
variable {σ α β : Type} {s : σ} {Q : α → σ → Prop} {R : IoErr → σ → Prop} {P : Site → Prop}

theorem wp_ok {m : M σ α} {a s'} (h : Wp m s Q R P) (e : m s = .ok a s') : Q a s' := by
  simpa [Wp, e] using h

theorem wp_err {m : M σ α} {a s'} (h : Wp m s Q R P) (e : m s = .err a s') : R a s' := by
  simpa [Wp, e] using h

theorem wp_panic' {m : M σ α} {a} (h : Wp m s Q R P) (e : m s = .panic a) : P a := by
  simpa [Wp, e] using h

theorem wp_mono {m : M σ α} {Q' : α → σ → Prop} {R' : IoErr → σ → Prop} {P' : Site → Prop}
    (h : Wp m s Q R P) (hq : ∀ a s', Q a s' → Q' a s') (hr : ∀ e s', R e s' → R' e s')
    (hp : ∀ w, P w → P' w) : Wp m s Q' R' P' := by
  unfold Wp at *
  split at h <;> simp_all

theorem wp_and {m : M σ α} {Q' : α → σ → Prop} {R' : IoErr → σ → Prop} {P' : Site → Prop}
    (h : Wp m s Q R P) (h' : Wp m s Q' R' P') :
    Wp m s (fun a s => Q a s ∧ Q' a s) (fun a s => R a s ∧ R' a s) (fun w => P w ∧ P' w) := by
  unfold Wp at *
  split at h <;> simp_all

theorem wp_bind {m : M σ β} {f : β → M σ α} :
    Wp (m >>= f) s Q R P ↔ Wp m s (fun a s' => Wp (f a) s' Q R P) R P := by
  show Wp (M.bind m f) s Q R P ↔ _
  unfold Wp M.bind
  cases m s <;> simp

theorem wp_bind' {m : M σ β} {f : β → M σ α} :
    Wp (M.bind m f) s Q R P ↔ Wp m s (fun a s' => Wp (f a) s' Q R P) R P := wp_bind

theorem wp_pure {a : α} : Wp (pure a : M σ α) s Q R P ↔ Q a s := Iff.rfl
theorem wp_pure' {a : α} : Wp (M.pure a : M σ α) s Q R P ↔ Q a s := Iff.rfl
theorem wp_get {Q : σ → σ → Prop} : Wp M.get s Q R P ↔ Q s s := Iff.rfl
theorem wp_modify {f : σ → σ} {Q : Unit → σ → Prop} :
    Wp (M.modify f) s Q R P ↔ Q () (f s) := Iff.rfl
theorem wp_throw {e : IoErr} : Wp (M.throw e : M σ α) s Q R P ↔ R e s := Iff.rfl
theorem wp_panicAt {w : Site} : Wp (M.panicAt w : M σ α) s Q R P ↔ P w := Iff.rfl
theorem wp_panic : Wp (M.panic : M σ α) s Q R P ↔ P .op := Iff.rfl

theorem wp_ofOption {o : Option α} :
    Wp (M.ofOption o : M σ α) s Q R P ↔ (∀ a, o = some a → Q a s) ∧ (o = none → P .op) := by
  cases o <;> simp [M.ofOption, wp_pure', wp_panic]

theorem wp_ofOptionRedraw {o : Option α} :
    Wp (M.ofOptionRedraw o : M σ α) s Q R P ↔
      (∀ a, o = some a → Q a s) ∧ (o = none → P .redraw) := by
  cases o <;> simp [M.ofOptionRedraw, wp_pure', wp_panicAt]

theorem wp_ofOptionRows {o : Option α} :
    Wp (M.ofOptionRows o : M σ α) s Q R P ↔
      (∀ a, o = some a → Q a s) ∧ (o = none → P .rows) := by
  cases o <;> simp [M.ofOptionRows, wp_pure', wp_panicAt]

theorem wp_ite {c : Prop} [Decidable c] {a b : M σ α} :
    Wp (if c then a else b) s Q R P ↔ (c → Wp a s Q R P) ∧ (¬c → Wp b s Q R P) := by
  by_cases h : c <;> simp [h]

theorem wp_zoom {τ : Type} {g : τ → σ} {p : σ → τ → τ} {m : M σ α} {t : τ}
    {Q : α → τ → Prop} {R : IoErr → τ → Prop} :
    Wp (M.zoom g p m) t Q R P ↔
      Wp m (g t) (fun a s => Q a (p s t)) (fun e s => R e (p s t)) P := by
  unfold Wp M.zoom
  cases m (g t) <;> simp

theorem wp_ed {κ : Type} {m : EdM α} {t : κ × Ed}
    {Q : α → κ × Ed → Prop} {R : IoErr → κ × Ed → Prop} :
    Wp (KM.ed m) t Q R P ↔ Wp m t.2 (fun a e => Q a (t.1, e)) (fun x e => R x (t.1, e)) P :=
  wp_zoom

theorem wp_getK {κ : Type} {t : κ × Ed} {Q : κ → κ × Ed → Prop} {R : IoErr → κ × Ed → Prop} :
    Wp KM.getK t Q R P ↔ Q t.1 t := Iff.rfl

theorem wp_modK {κ : Type} {t : κ × Ed} {f : κ → κ} {Q : Unit → κ × Ed → Prop}
    {R : IoErr → κ × Ed → Prop} : Wp (KM.modK f) t Q R P ↔ Q () (f t.1, t.2) := Iff.rfl

/-- The trivial conditions. -/
theorem wp_trivial {m : M σ α} : Wp m s (fun _ _ => True) (fun _ _ => True) (fun _ => True) := by
  unfold Wp; split <;> trivial

theorem wp_run {m : M σ α} :
    Wp m s (fun a s' => m s = .ok a s') (fun e s' => m s = .err e s') (fun w => m s = .panic w) := by
  unfold Wp; split <;> simp_all

/-- Iterated actions keep an invariant. -/
theorem wp_repeatN {I : σ → Prop} {m : M σ Unit}
    (h : ∀ s, I s → Wp m s (fun _ s' => I s') R P) :
    ∀ n s, I s → Wp (M.repeatN n m) s (fun _ s' => I s') R P
  | 0, s, hs => by simpa [M.repeatN, wp_pure'] using hs
  | n + 1, s, hs => by
    simp only [M.repeatN, wp_bind']
    exact wp_mono (h s hs) (fun _ s' h' => wp_repeatN h n s' h') (fun _ _ x => x) (fun _ x => x)

theorem wp_forEach {I : σ → Prop} {f : β → M σ Unit} {xs : List β}
    (h : ∀ x ∈ xs, ∀ s, I s → Wp (f x) s (fun _ s' => I s') R P) :
    ∀ s, I s → Wp (M.forEach xs f) s (fun _ s' => I s') R P := by
  induction xs with
  | nil => intro s hs; simpa [M.forEach, wp_pure'] using hs
  | cons x xs ih =>
    intro s hs
    simp only [M.forEach, wp_bind']
    exact wp_mono (h x (by simp) s hs) (fun _ s' h' => ih (fun y hy => h y (by simp [hy])) s' h')
      (fun _ _ x => x) (fun _ x => x)

end

macro "wp_simp" : tactic => `(tactic|
  simp only [wp_bind, wp_bind', wp_pure, wp_pure', wp_get, wp_modify, wp_throw, wp_panicAt, wp_panic,
    wp_ofOption, wp_ofOptionRedraw, wp_ofOptionRows, wp_ite, wp_ed, wp_getK, wp_modK])

end Liner
