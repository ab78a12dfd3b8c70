import Verif.Proof.Errs
/-
What `handle_key` does with a key.
-/

namespace Liner
open Liner.Spec Liner.Editor M KM

section
variable {σ α β γ : Type}

theorem bind_ok {m : M σ α} {f : α → M σ β} {s s' : σ} {a : α} (h : m s = .ok a s') :
    (m >>= f) s = f a s' := by
  show M.bind m f s = _
  unfold M.bind
  rw [h]

theorem wp_congr {m m' : M σ α} {s : σ} {Q : α → σ → Prop} {R : IoErr → σ → Prop} {P : Site → Prop}
    (h : m s = m' s) : Wp m s Q R P ↔ Wp m' s Q R P := by
  unfold Wp
  rw [h]

theorem bind_assoc' (m : M σ α) (f : α → M σ β) (g : β → M σ γ) :
    (m >>= f) >>= g = m >>= fun a => f a >>= g := by
  funext s
  show M.bind (M.bind m f) g s = M.bind m (fun a => M.bind (f a) g) s
  unfold M.bind
  cases m s <;> rfl

theorem pure_bind' (a : α) (f : α → M σ β) : (pure a : M σ α) >>= f = f a := rfl

theorem bind_congr' {m : M σ α} {f g : α → M σ β} (h : ∀ a, f a = g a) : m >>= f = m >>= g := by
  rw [funext h]

end

section
variable {κ : Type} (km : KeyMap κ) (E : Env) (comp : Text → List Text)

/-- Keys that `handle_key` hands to the key map whatever the state. -/
def ordinary : Key → Bool
  | .char '\t' | .char '\n' | .ctrl 'c' | .ctrl 'd' | .ctrl 'f' | .ctrl 'r' | .ctrl 's' | .right =>
    false
  | _ => true

/-- The key is handed to the key map. -/
def toCore (key : Key) : KM κ Bool := do
  km.core E key
  ed skipCompletionsHint
  pure false

theorem dispatch_core {e : Bool} {key : Key} (t : κ × Ed)
    (h1 : key ≠ .ctrl 'c') (h2 : ¬ (key = .ctrl 'd' ∧ e = true)) (h3 : key ≠ .char '\t')
    (h4 : key ≠ .char '\n') (h5 : ¬ (key = .ctrl 'f' ∧ t.2.autosuggestion.isSome = true))
    (h6 : key ≠ .ctrl 'r') (h7 : key ≠ .ctrl 's')
    (h8 : ¬ (key = .right ∧ t.2.autosuggestion.isSome = true)) :
    km.dispatch E comp e key t = toCore km E key t := by
  unfold KeyMap.dispatch toCore
  rw [bind_ok (m := ed M.get) (a := t.2) (s' := t) rfl]
  dsimp only
  rw [if_neg h1, if_neg h2, if_neg h3, if_neg h4, if_neg h5, if_neg h6, if_neg h7, if_neg h8]
  rw [pure_bind', if_neg (by simp)]

/-- Right with a suggestion. -/
theorem dispatch_right {e : Bool} (t : κ × Ed) (h : t.2.autosuggestion.isSome = true) :
    km.dispatch E comp e .right t = (do
      let accept ← ed cursorIsAtEndOfLine
      if accept then do
        ed (acceptAutosuggestion E)
        pure false
      else toCore km E .right : KM κ Bool) t := by
  unfold KeyMap.dispatch toCore
  rw [bind_ok (m := ed M.get) (a := t.2) (s' := t) rfl]
  dsimp only
  rw [if_neg (by simp), if_neg (by simp), if_neg (by simp), if_neg (by simp), if_neg (by simp),
    if_neg (by simp), if_neg (by simp), if_pos ⟨rfl, h⟩]

theorem dispatch_ctrlF {e : Bool} (t : κ × Ed) (h : t.2.autosuggestion.isSome = true) :
    km.dispatch E comp e (.ctrl 'f') t = (do
      ed (acceptAutosuggestion E)
      pure false : KM κ Bool) t := by
  unfold KeyMap.dispatch
  rw [bind_ok (m := ed M.get) (a := t.2) (s' := t) rfl]
  dsimp only
  rw [if_neg (by simp), if_neg (by simp), if_neg (by simp), if_neg (by simp), if_pos ⟨rfl, h⟩]

theorem dispatch_newline {e : Bool} (t : κ × Ed) :
    km.dispatch E comp e (.char '\n') t = ed (handleNewline E) t := by
  unfold KeyMap.dispatch
  rw [bind_ok (m := ed M.get) (a := t.2) (s' := t) rfl]
  dsimp only
  rw [if_neg (by simp), if_neg (by simp), if_neg (by simp), if_pos rfl]

theorem dispatch_tab {e : Bool} (t : κ × Ed) :
    km.dispatch E comp e (.char '\t') t = (do
      ed (complete E comp)
      pure false : KM κ Bool) t := by
  unfold KeyMap.dispatch
  rw [bind_ok (m := ed M.get) (a := t.2) (s' := t) rfl]
  dsimp only
  rw [if_neg (by simp), if_neg (by simp), if_pos rfl]

theorem dispatch_search {e : Bool} (t : κ × Ed) (f : Bool) :
    km.dispatch E comp e (.ctrl (if f then 's' else 'r')) t = (do
      ed (search E f)
      pure false : KM κ Bool) t := by
  unfold KeyMap.dispatch
  rw [bind_ok (m := ed M.get) (a := t.2) (s' := t) rfl]
  dsimp only
  cases f <;> simp

theorem ed_curBuf {t : κ × Ed} {b : Buffer} (h : t.2.curBuf? = some b) :
    (ed curBuf t : Out (κ × Ed) Buffer) = .ok b t := by
  simp [KM.ed, M.zoom, curBuf, h]

/-- `handle_key` on an existing line. -/
theorem handleKey_eq {t : κ × Ed} {b : Buffer} (h : t.2.curBuf? = some b) (key : Key) :
    km.handleKey E comp key t = (do
      let done ← km.dispatch E comp b.isEmpty (KeyMap.translate key)
      ed (flush E)
      pure done : KM κ Bool) t := by
  unfold KeyMap.handleKey
  rw [bind_ok (ed_curBuf h)]

/-- Only Enter finishes. -/
theorem handleKey_done (t : κ × Ed) (key : Key) :
    Wp (km.handleKey E comp key) t (fun done _ => done = true → key = .char '\n') (fun _ _ => True)
      (fun _ => True) := by
  have ht : KeyMap.translate key = .char '\n' → key = .char '\n' := by
    unfold KeyMap.translate
    split
    · intro h; cases h
    · exact fun h => h
  have hd : ∀ e key (t : κ × Ed), Wp (km.dispatch E comp e key) t
      (fun done _ => done = true → key = .char '\n') (fun _ _ => True) (fun _ => True) := by
    intro e key t
    have hf : ∀ {γ : Type} (m : KM κ γ) (t : κ × Ed),
        Wp (m >>= fun _ => (pure false : KM κ Bool)) t (fun done _ => done = true → key = .char '\n')
        (fun _ _ => True) (fun _ => True) := by
      intro γ m t
      rw [wp_bind]
      exact wp_mono wp_trivial (fun _ _ _ h => by cases h) (fun _ _ h => h) (fun _ h => h)
    unfold KeyMap.dispatch
    rw [wp_bind, wp_ed, wp_get]
    split
    · exact wp_mono (stopsW _ t) (fun _ _ h => h.elim) (fun _ _ h => h) (fun _ h => h)
    split
    · exact wp_mono (stopsW _ t) (fun _ _ h => h.elim) (fun _ _ h => h) (fun _ h => h)
    split
    · exact hf _ _
    split
    · rename_i h; exact wp_mono wp_trivial (fun _ _ _ _ => h) (fun _ _ h => h) (fun _ h => h)
    split
    · exact hf _ _
    split
    · exact hf _ _
    split
    · exact hf _ _
    dsimp only
    split
    · rw [wp_bind]
      refine wp_mono wp_trivial (fun a t1 _ => ?_) (fun _ _ h => h) (fun _ h => h)
      split
      · exact hf _ _
      · rw [← bind_assoc']; exact hf _ _
    · rw [wp_bind, wp_pure, if_neg (by simp), ← bind_assoc']
      exact hf _ _
  unfold KeyMap.handleKey
  rw [wp_bind]
  refine wp_mono wp_trivial (fun b t1 _ => ?_) (fun _ _ h => h) (fun _ h => h)
  rw [wp_bind]
  refine wp_mono (hd _ _ t1) (fun done t2 h => ?_) (fun _ _ h => h) (fun _ h => h)
  rw [wp_bind]
  exact wp_mono wp_trivial (fun _ _ _ hdone => ht (h hdone)) (fun _ _ h => h) (fun _ h => h)
where
  stopsW {κ : Type} {E : Env} (e : IoErr) (t : κ × Ed) :
      Wp (do let _ ← KM.ed (handleNewline E); M.throw e : KM κ Bool) t (fun _ _ => False)
        (fun _ _ => True) (fun _ => True) := by
    rw [wp_bind]
    exact wp_mono wp_trivial (fun _ _ _ => trivial) (fun _ _ h => h) (fun _ h => h)

end
end Liner
