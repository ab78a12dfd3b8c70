import Verif.Spec.Event
import Verif.Proof.Uses
/-
A completer with a state and events: what it is told, and what it cannot change.
-/

namespace Liner
open M KM KH Spec

/-! ### Agreement with the model without events -/

section
variable {κ η α β : Type} {c : Prop}

/-- The state without the completer. -/
def bare (t : (κ × η) × Ed) : κ × Ed := (t.1.1, t.2)

/-- The same outcome, or the completer panicked. -/
def Agree (c : Prop) (x : Out ((κ × η) × Ed) α) (y : Out (κ × Ed) α) : Prop :=
  erase x = y ∨ (x = .panic .op ∧ c)

theorem agree_bind {mH : KH κ η α} {fH : α → KH κ η β} {m : KM κ α} {f : α → KM κ β} {t}
    (h : Agree c (mH t) (m (bare t)))
    (hf : ∀ a u, mH t = .ok a u → Agree c (fH a u) (f a (bare u))) :
    Agree c ((mH >>= fH) t) ((m >>= f) (bare t)) := by
  show Agree c (M.bind mH fH t) (M.bind m f (bare t))
  unfold M.bind
  rcases h with h | ⟨h, hc⟩
  · rw [← h]
    cases e : mH t with
    | ok a u => exact hf a u e
    | err x u => exact .inl rfl
    | panic w => exact .inl rfl
  · rw [h]; exact .inr ⟨rfl, hc⟩

theorem agree_ed (m : EdM α) (t : (κ × η) × Ed) : Agree c (ed m t) (ed m (bare t)) := by
  refine .inl ?_
  show erase (M.zoom _ _ _ _) = M.zoom _ _ _ _
  unfold M.zoom bare
  dsimp only
  cases m t.2 <;> rfl

theorem agree_map (m : KM κ α) (t : (κ × η) × Ed) : Agree c (KH.map m t) (m (bare t)) := by
  refine .inl ?_
  unfold KH.map M.zoom bare
  dsimp only
  cases m (t.1.1, t.2) <;> rfl

theorem agree_pure (a : α) (t : (κ × η) × Ed) : Agree c ((pure a : KH κ η α) t) ((pure a : KM κ α) (bare t)) :=
  .inl rfl

theorem agree_throw (e : IoErr) (t : (κ × η) × Ed) :
    Agree c ((M.throw e : KH κ η α) t) ((M.throw e : KM κ α) (bare t)) := .inl rfl

theorem agree_ofOption (o : Option α) (t : (κ × η) × Ed) :
    Agree c ((M.ofOption o : KH κ η α) t) ((M.ofOption o : KM κ α) (bare t)) := by
  cases o <;> exact .inl rfl

theorem ed_state {m : EdM α} {t u : (κ × η) × Ed} {a : α} (h : ed m t = .ok a u) : u.1 = t.1 := by
  have h' : M.zoom _ _ _ _ = _ := h
  unfold M.zoom at h'
  cases hm : m t.2 with
  | ok b s => rw [hm] at h'; cases h'; rfl
  | err b s => rw [hm] at h'; cases h'
  | panic w => rw [hm] at h'; cases h'

theorem completeFirst_offer (E : Env) (comp : Text → List Text) : Editor.completeFirst E comp = (do
    let range ← Editor.getWordBeforeCursor E false
    let word ← Editor.curBufMut (Editor.readWord range)
    Handled.offer E word (Editor.sortDedup (comp word))) := by
  unfold Editor.completeFirst Handled.offer
  rfl

theorem ed_bind {m : EdM α} {f : α → EdM β} : (ed (m >>= f) : KM κ β) = (do let a ← ed m; ed (f a)) := by
  funext t
  show M.zoom _ _ (M.bind m f) t = M.bind (M.zoom _ _ m) (fun a => M.zoom _ _ (f a)) t
  unfold M.zoom M.bind
  cases h : m t.2 <;> simp [h]

variable (H : Handler η) (E : Env) (km : KeyMap κ)

theorem agree_complete (hq : Quiet H) (t : (κ × η) × Ed) :
    ∃ h, Agree (Panics H) (Handled.complete H E t) (ed (Editor.complete E (answers H h)) (bare t)) := by
  obtain ⟨h, hh⟩ := hq .beforeComplete t.1.2 t.2
  refine ⟨h, ?_⟩
  unfold Handled.complete Editor.complete
  have hf : fire H .beforeComplete t = .ok () ((t.1.1, h), t.2) := by
    unfold fire; rw [hh]
  show Agree _ (M.bind (fire H .beforeComplete) _ t) _
  unfold M.bind
  rw [hf]
  dsimp only
  rw [ed_bind]
  have hb : bare ((t.1.1, h), t.2) = bare t := rfl
  rw [← hb]
  refine agree_bind (agree_ed _ _) fun s u hu => ?_
  have hu1 : u = ((t.1.1, h), t.2) ∧ s = t.2 := by
    have h' : Out.ok t.2 ((t.1.1, h), t.2) = .ok s u := hu
    cases h'; exact ⟨rfl, rfl⟩
  obtain ⟨rfl, rfl⟩ := hu1
  cases hs : t.2.showCompletionsHint with
  | some p =>
    obtain ⟨cs, i⟩ := p
    dsimp only
    rw [ed_bind]
    exact agree_bind (agree_ed _ _) fun _ _ _ => agree_ed _ _
  | none =>
    dsimp only
    rw [completeFirst_offer]
    simp only [ed_bind]
    refine agree_bind (agree_ed _ _) fun range u1 h1 => ?_
    refine agree_bind (agree_ed _ _) fun word u2 h2 => ?_
    have he : u2.1.2 = h := by rw [ed_state h2, ed_state h1]
    show Agree _ (M.bind (ask H word) _ u2) _
    unfold M.bind ask
    rw [he]
    cases hc : H.completions word h with
    | none => exact .inr ⟨rfl, word, h, hc⟩
    | some p =>
      have ha : answers H h word = p.1 := by simp [answers, hc]
      rw [ha]
      dsimp only
      have hb2 : bare u2 = bare ((u2.1.1, p.2), u2.2) := rfl
      rw [hb2]
      exact agree_ed _ _

theorem agree_dispatch (hq : Quiet H) (e : Bool) (key : Key) (t : (κ × η) × Ed) :
    ∃ h, Agree (Panics H) (Handled.dispatch H E km e key t) (km.dispatch E (answers H h) e key (bare t)) := by
  by_cases hk : key = .char '\t'
  · subst hk
    obtain ⟨h, hh⟩ := agree_complete (κ := κ) H E hq t
    refine ⟨h, ?_⟩
    unfold Handled.dispatch KeyMap.dispatch
    refine agree_bind (agree_ed _ _) fun s u hu => ?_
    have hu1 : u = t := by
      have h' : Out.ok t.2 (t.1, t.2) = .ok s u := hu
      cases h'; rfl
    subst hu1
    rw [if_neg (by simp), if_neg (by simp), if_pos rfl, if_neg (by simp), if_neg (by simp), if_pos rfl]
    exact agree_bind hh fun _ _ _ => agree_pure _ _
  · refine ⟨t.1.2, ?_⟩
    unfold Handled.dispatch KeyMap.dispatch
    refine agree_bind (agree_ed _ _) fun s u hu => ?_
    split
    · exact agree_bind (agree_ed _ _) fun _ _ _ => agree_throw _ _
    split
    · exact agree_bind (agree_ed _ _) fun _ _ _ => agree_throw _ _
    split
    · exact agree_ed _ _
    split
    · exact agree_bind (agree_ed _ _) fun _ _ _ => agree_pure _ _
    split
    · exact agree_bind (agree_ed _ _) fun _ _ _ => agree_pure _ _
    split
    · exact agree_bind (agree_ed _ _) fun _ _ _ => agree_pure _ _
    dsimp only
    split
    · refine agree_bind (agree_ed _ _) fun a v hv => ?_
      cases a with
      | true => exact agree_bind (agree_ed _ _) fun _ _ _ => agree_pure _ _
      | false =>
        exact agree_bind (agree_map _ _) fun _ _ _ =>
          agree_bind (agree_ed _ _) fun _ _ _ => agree_pure _ _
    · refine agree_bind (agree_pure _ _) fun a v hv => ?_
      cases a with
      | true => exact agree_bind (agree_ed _ _) fun _ _ _ => agree_pure _ _
      | false =>
        exact agree_bind (agree_map _ _) fun _ _ _ =>
          agree_bind (agree_ed _ _) fun _ _ _ => agree_pure _ _

theorem agree_fire {H : Handler η} (hq : Quiet H) (e : EventKind) (t : (κ × η) × Ed) :
    ∃ h, fire H e t = .ok () ((t.1.1, h), t.2) := by
  obtain ⟨h, hh⟩ := hq e t.1.2 t.2
  exact ⟨h, by unfold fire; rw [hh]⟩

theorem agree_handleKey (hq : Quiet H) (key : Key) (t : (κ × η) × Ed) :
    ∃ h, Agree (Panics H) (Handled.handleKey H E km key t) (km.handleKey E (answers H h) key (bare t)) := by
  obtain ⟨h1, hf⟩ := agree_fire hq (.beforeKey key) t
  unfold Handled.handleKey KeyMap.handleKey
  have hb : bare t = bare ((t.1.1, h1), t.2) := rfl
  rw [hb]
  cases hc : t.2.curBuf? with
  | none =>
    refine ⟨h1, .inl ?_⟩
    show erase (M.bind (fire H _) _ t) = M.bind (ed Editor.curBuf) _ _
    unfold M.bind
    rw [hf]
    dsimp only
    have h2 : Editor.curBuf t.2 = .panic .op := by unfold Editor.curBuf; simp [hc]
    have h3 : (ed Editor.curBuf : KH κ η _) ((t.1.1, h1), t.2) = .panic .op := by
      unfold ed M.zoom; dsimp only; rw [h2]
    have h4 : (ed Editor.curBuf : KM κ _) (bare ((t.1.1, h1), t.2)) = .panic .op := by
      unfold ed M.zoom bare; dsimp only; rw [h2]
    rw [h4]
    show erase (M.bind (ed Editor.curBuf) _ _) = _
    unfold M.bind
    rw [h3]; rfl
  | some b =>
    obtain ⟨h2, hd⟩ := agree_dispatch H E km hq b.isEmpty (KeyMap.translate key) ((t.1.1, h1), t.2)
    refine ⟨h2, ?_⟩
    show Agree _ (M.bind (fire H _) _ t) _
    unfold M.bind
    rw [hf]
    dsimp only
    refine agree_bind (agree_ed _ _) fun b' u hu => ?_
    have hcb : Editor.curBuf t.2 = .ok b t.2 := by
      unfold Editor.curBuf; simp [hc]
    have hu2 : u = ((t.1.1, h1), t.2) ∧ b' = b := by
      have h' : M.zoom _ _ _ _ = _ := hu
      unfold M.zoom at h'
      dsimp only at h'
      rw [hcb] at h'
      cases h'; exact ⟨rfl, rfl⟩
    obtain ⟨rfl, rfl⟩ := hu2
    refine agree_bind hd fun done v hv => ?_
    obtain ⟨h3, hg⟩ := agree_fire hq (.afterKey (KeyMap.translate key)) v
    show Agree _ (M.bind (fire H _) _ v) _
    unfold M.bind
    rw [hg]
    dsimp only
    have hb3 : bare v = bare ((v.1.1, h3), v.2) := rfl
    rw [hb3]
    exact agree_bind (agree_ed _ _) fun _ _ _ => agree_pure _ _

theorem inputs_exist (h : η) : ∀ r, ∃ is, Inputs H r is
  | [] => ⟨[], .nil⟩
  | none :: r => let ⟨_, hi⟩ := inputs_exist h r; ⟨_, .fail r hi⟩
  | some k :: r => let ⟨_, hi⟩ := inputs_exist h r; ⟨_, .key k h hi⟩

theorem agree_loop (hq : Quiet H) : ∀ (r : List (Option Key)) (t : (κ × η) × Ed),
    ∃ is, Inputs H r is ∧ Agree (Panics H) (Handled.loop H E km r t) (km.loop E is (bare t))
  | [], t => ⟨[], .nil, by
      unfold Handled.loop KeyMap.loop
      exact agree_bind (agree_ed _ _) fun _ _ _ => agree_ofOption _ _⟩
  | none :: r, t => by
    obtain ⟨is, hi⟩ := inputs_exist H t.1.2 r
    exact ⟨_, .fail r hi, agree_throw _ _⟩
  | some k :: r, t => by
    obtain ⟨h, hk⟩ := agree_handleKey H E km hq k t
    have base : ∀ is, (∀ u, Handled.handleKey H E km k t = .ok false u →
          Agree (Panics H) (Handled.loop H E km r u) (km.loop E is (bare u))) →
        Agree (Panics H) (Handled.loop H E km (some k :: r) t)
          (km.loop E (.key k (answers H h) :: is) (bare t)) := by
      intro is hl
      unfold Handled.loop KeyMap.loop
      refine agree_bind hk fun done u hu => ?_
      cases done with
      | true => exact agree_bind (agree_ed _ _) fun _ _ _ => agree_ofOption _ _
      | false => exact hl u hu
    cases hx : Handled.handleKey H E km k t with
    | ok done u =>
      cases done with
      | false =>
        obtain ⟨is, hi, hl⟩ := agree_loop hq r u
        refine ⟨_, .key k h hi, base is fun u' hu' => ?_⟩
        rw [hx] at hu'; cases hu'; exact hl
      | true =>
        obtain ⟨is, hi⟩ := inputs_exist H h r
        exact ⟨_, .key k h hi, base is fun u' hu' => by rw [hx] at hu'; cases hu'⟩
    | err e u =>
      obtain ⟨is, hi⟩ := inputs_exist H h r
      exact ⟨_, .key k h hi, base is fun u' hu' => by rw [hx] at hu'; cases hu'⟩
    | panic w =>
      obtain ⟨is, hi⟩ := inputs_exist H h r
      exact ⟨_, .key k h hi, base is fun u' hu' => by rw [hx] at hu'; cases hu'⟩

theorem agree_readLine (hq : Quiet H) (p : Prompt) (r : List (Option Key)) (t : (κ × η) × Ed) :
    ∃ is, Inputs H r is ∧ Agree (Panics H) (Handled.readLine H E km p r t) (km.readLine E p is (bare t)) := by
  have base : ∀ is, (∀ v, Agree (Panics H) (Handled.loop H E km r v) (km.loop E is (bare v)) ∨
        ¬ ∃ u, ed (Editor.start E p) t = .ok () u ∧ KH.map (km.init E) u = .ok () v) →
      Agree (Panics H) (Handled.readLine H E km p r t) (km.readLine E p is (bare t)) := by
    intro is hl
    unfold Handled.readLine KeyMap.readLine KeyMap.handleKeys
    refine agree_bind (agree_ed _ _) fun _ u hu => ?_
    refine agree_bind (agree_map _ _) fun _ v hv => ?_
    rcases hl v with h | h
    · exact h
    · exact absurd ⟨u, hu, hv⟩ h
  by_cases hx : ∃ v u, ed (Editor.start E p) t = .ok () u ∧ KH.map (km.init E) u = .ok () v
  · obtain ⟨v, u, hu, hv⟩ := hx
    obtain ⟨is, hi, hl⟩ := agree_loop H E km hq r v
    refine ⟨is, hi, base is fun v' => ?_⟩
    by_cases h : ∃ u, ed (Editor.start E p) t = .ok () u ∧ KH.map (km.init E) u = .ok () v'
    · obtain ⟨u', hu', hv'⟩ := h
      rw [hu] at hu'; cases hu'
      rw [hv] at hv'; cases hv'
      exact .inl hl
    · exact .inr h
  · obtain ⟨is, hi⟩ := inputs_exist H t.1.2 r
    exact ⟨is, hi, base is fun v => .inr fun h => hx ⟨v, h⟩⟩

end

/-! ### What a completer is told -/

section
variable {κ η α β : Type}

theorem wp_map {m : KM κ α} {t : (κ × η) × Ed} {Q : α → (κ × η) × Ed → Prop}
    {R : IoErr → (κ × η) × Ed → Prop} {P : Site → Prop} :
    Wp (KH.map m) t Q R P ↔ Wp m (t.1.1, t.2) (fun a u => Q a ((u.1, t.1.2), u.2))
      (fun e u => R e ((u.1, t.1.2), u.2)) P := wp_zoom

theorem wp_fire {H : Handler η} {e : EventKind} {t : (κ × η) × Ed} {Q : Unit → (κ × η) × Ed → Prop}
    {R : IoErr → (κ × η) × Ed → Prop} {P : Site → Prop} :
    Wp (fire H e) t Q R P ↔ (∀ u, H.onEvent e (t.1.2, t.2) = some u → Q () ((t.1.1, u.1), u.2)) ∧
      (H.onEvent e (t.1.2, t.2) = none → P .op) := by
  unfold Wp fire
  cases H.onEvent e (t.1.2, t.2) <;> simp

theorem wp_ask {H : Handler η} {w : Text} {t : (κ × η) × Ed} {Q : List Text → (κ × η) × Ed → Prop}
    {R : IoErr → (κ × η) × Ed → Prop} {P : Site → Prop} :
    Wp (ask H w) t Q R P ↔ (∀ u, H.completions w t.1.2 = some u → Q u.1 ((t.1.1, u.2), t.2)) ∧
      (H.completions w t.1.2 = none → P .op) := by
  unfold Wp ask
  cases H.completions w t.1.2 <;> simp

/-- What was written down so far. -/
def calls (t : (κ × η × List Call) × Ed) : List Call := t.1.2.2

/-- The computation makes the calls in `S`. -/
def Calls (S : List Call → Prop) (m : KH κ (η × List Call) α) : Prop :=
  ∀ t, Wp m t (fun _ t' => ∃ c, S c ∧ calls t' = calls t ++ c)
    (fun _ t' => ∃ c, S c ∧ calls t' = calls t ++ c) (fun _ => True)

/-- The computation makes no call. -/
abbrev Silent (m : KH κ (η × List Call) α) : Prop := Calls (· = []) m

theorem silent_ed (m : EdM α) : Silent (κ := κ) (η := η) (ed m) := fun t => by
  rw [wp_ed]
  exact wp_mono wp_trivial (fun _ _ _ => ⟨[], rfl, (List.append_nil _).symm⟩)
    (fun _ _ _ => ⟨[], rfl, (List.append_nil _).symm⟩) (fun _ h => h)

theorem silent_map (m : KM κ α) : Silent (η := η) (KH.map m) := fun t => by
  rw [wp_map]
  exact wp_mono wp_trivial (fun _ _ _ => ⟨[], rfl, (List.append_nil _).symm⟩)
    (fun _ _ _ => ⟨[], rfl, (List.append_nil _).symm⟩) (fun _ h => h)

theorem silent_pure (a : α) : Silent (κ := κ) (η := η) (pure a) :=
  fun _ => ⟨[], rfl, (List.append_nil _).symm⟩

theorem silent_throw (e : IoErr) : Silent (κ := κ) (η := η) (α := α) (throw e) :=
  fun _ => ⟨[], rfl, (List.append_nil _).symm⟩

theorem silent_bind {m : KH κ (η × List Call) α} {f : α → KH κ (η × List Call) β} (hm : Silent m)
    (hf : ∀ a, Silent (f a)) : Silent (m >>= f) := fun t => by
  rw [wp_bind]
  refine wp_mono (hm t) (fun a u h => ?_) (fun _ _ h => h) (fun _ h => h)
  obtain ⟨_, rfl, h⟩ := h
  refine wp_mono (hf a u) ?_ ?_ (fun _ h => h)
  · rintro _ v ⟨_, rfl, hv⟩
    exact ⟨[], rfl, by rw [hv, h]; simp⟩
  · rintro _ v ⟨_, rfl, hv⟩
    exact ⟨[], rfl, by rw [hv, h]; simp⟩

variable (H : Handler η) (E : Env) (km : KeyMap κ)

theorem fire_calls (e : EventKind) (t : (κ × η × List Call) × Ed) :
    Wp (fire (recording H) e) t (fun _ t' => calls t' = calls t ++ [.event e]) (fun _ _ => False)
      (fun _ => True) := by
  rw [wp_fire]
  refine ⟨fun u hu => ?_, fun _ => trivial⟩
  simp only [recording, Option.map_eq_some_iff] at hu
  obtain ⟨v, _, rfl⟩ := hu
  rfl

/-- The calls of `complete`. -/
def Asks (c : List Call) : Prop := c = [.event .beforeComplete] ∨ ∃ w, c = [.event .beforeComplete, .asked w]

theorem complete_calls : Calls (κ := κ) Asks (Handled.complete (recording H) E) := fun t => by
  unfold Handled.complete
  rw [wp_bind]
  refine wp_mono (fire_calls H .beforeComplete t) (fun _ u hu => ?_) (fun _ _ h => h.elim) (fun _ h => h)
  rw [wp_bind, wp_ed, wp_get]
  have quiet : ∀ (m : KH κ (η × List Call) Unit), Silent m → ∀ v, calls v = calls u →
      Wp m v (fun _ t' => ∃ c, Asks c ∧ calls t' = calls t ++ c)
        (fun _ t' => ∃ c, Asks c ∧ calls t' = calls t ++ c) (fun _ => True) := by
    intro m hm v hv
    refine wp_mono (hm v) ?_ ?_ (fun _ h => h) <;> rintro _ w ⟨_, rfl, hw⟩ <;>
      exact ⟨_, .inl rfl, by rw [hw, hv, hu]; simp⟩
  cases hs : u.2.showCompletionsHint with
  | some p =>
    exact quiet _ (silent_bind (silent_ed _) fun _ => silent_ed _) _ rfl
  | none =>
    dsimp only
    rw [wp_bind]
    refine wp_mono (silent_ed _ _) ?_ ?_ (fun _ h => h)
    rotate_left
    · rintro _ v ⟨_, rfl, hv⟩
      exact ⟨_, .inl rfl, by rw [hv]; show calls u ++ [] = _; rw [hu]; simp⟩
    rintro range v ⟨_, rfl, hv⟩
    rw [wp_bind]
    refine wp_mono (silent_ed _ _) ?_ ?_ (fun _ h => h)
    rotate_left
    · rintro _ v2 ⟨_, rfl, hv2⟩
      exact ⟨_, .inl rfl, by rw [hv2, hv]; show (calls u ++ []) ++ [] = _; rw [hu]; simp⟩
    rintro word v2 ⟨_, rfl, hv2⟩
    rw [wp_bind, wp_ask]
    refine ⟨fun x hx => ?_, fun _ => trivial⟩
    simp only [recording, Option.map_eq_some_iff] at hx
    obtain ⟨y, _, rfl⟩ := hx
    have hw : calls ((v2.1.1, (y.2, v2.1.2.2 ++ [Call.asked word])), v2.2) =
        calls t ++ [.event .beforeComplete, .asked word] := by
      show calls v2 ++ [Call.asked word] = _
      rw [hv2, hv]
      show ((calls u ++ []) ++ []) ++ _ = _
      rw [hu]; simp
    refine wp_mono (silent_ed _ _) ?_ ?_ (fun _ h => h) <;> rintro _ z ⟨_, rfl, hz⟩ <;>
      exact ⟨_, .inr ⟨word, rfl⟩, by rw [hz, hw]; simp⟩

theorem dispatch_calls (e : Bool) (key : Key) :
    Calls (fun c => if key = .char '\t' then Asks c else c = [])
      (Handled.dispatch (recording H) E km e key) := fun t => by
  unfold Handled.dispatch
  rw [wp_bind, wp_ed, wp_get]
  by_cases hk : key = .char '\t'
  · subst hk
    rw [if_neg (by simp), if_neg (by simp), if_pos rfl]
    simp only [if_true]
    rw [wp_bind]
    exact wp_mono (complete_calls H E _) (fun _ _ h => h) (fun _ _ h => h) (fun _ h => h)
  · simp only [if_neg hk]
    refine (?_ : Silent _) t
    repeat (first
      | exact silent_ed _
      | exact silent_map _
      | exact silent_pure _
      | exact silent_throw _
      | (refine silent_bind ?_ fun _ => ?_)
      | split)

theorem handleKey_calls (k : Key) (t : (κ × η × List Call) × Ed) :
    Wp (Handled.handleKey (recording H) E km k) t
      (fun _ t' => ∃ c, Told k c ∧ calls t' = calls t ++ c)
      (fun _ t' => ∃ c r, Told k (c ++ r) ∧ c ≠ [] ∧
        ((k = .ctrl 'c' → c = [.event (.beforeKey k)])) ∧ calls t' = calls t ++ c) (fun _ => True) := by
  have after_eq : KeyMap.translate k = after k := rfl
  have tab : KeyMap.translate k = .char '\t' ↔ k = .char '\t' := by
    unfold KeyMap.translate
    by_cases h : k = .ctrl 'h'
    · subst h; simp
    · simp [h]
  unfold Handled.handleKey
  rw [wp_bind]
  refine wp_mono (fire_calls H _ t) (fun _ u hu => ?_) (fun _ _ h => h.elim) (fun _ h => h)
  have told : ∀ c, (if k = .char '\t' then Asks c else c = []) →
      Told k ((Call.event (.beforeKey k) :: c) ++ [.event (.afterKey (KeyMap.translate k))]) := by
    intro c hc
    by_cases h : k = .char '\t'
    · subst h
      simp only [if_true] at hc
      rcases hc with rfl | ⟨w, rfl⟩
      · exact .shown
      · exact .asked w
    · simp only [if_neg h] at hc
      subst hc
      exact .key h
  rw [wp_bind]
  refine wp_mono (silent_ed _ u) ?_ ?_ (fun _ h => h)
  rotate_left
  · rintro _ v ⟨_, rfl, hv⟩
    by_cases h : k = .char '\t'
    · exact ⟨[.event (.beforeKey k)], _, told [.event .beforeComplete] (by rw [if_pos h]; exact .inl rfl),
        by simp, fun _ => rfl, by rw [hv, hu]; simp⟩
    · exact ⟨[.event (.beforeKey k)], _, told [] (by rw [if_neg h]), by simp, fun _ => rfl,
        by rw [hv, hu]; simp⟩
  rintro b v ⟨_, rfl, hv⟩
  rw [wp_bind]
  have hd := dispatch_calls (κ := κ) H E km b.isEmpty (KeyMap.translate k) v
  simp only [tab] at hd
  have hcc : k = .ctrl 'c' → Wp (Handled.dispatch (recording H) E km b.isEmpty (KeyMap.translate k)) v
      (fun _ _ => False) (fun _ _ => True) (fun _ => True) := by
    rintro rfl
    have : KeyMap.translate (.ctrl 'c') = .ctrl 'c' := by decide
    rw [this]
    unfold Handled.dispatch
    rw [wp_bind, wp_ed, wp_get, if_pos rfl, wp_bind, wp_ed]
    exact wp_mono wp_trivial (fun _ _ _ => trivial) (fun _ _ _ => trivial) (fun _ _ => trivial)
  have hd' : Wp (Handled.dispatch (recording H) E km b.isEmpty (KeyMap.translate k)) v
      (fun _ t' => k ≠ .ctrl 'c' ∧ ∃ c, (if k = .char '\t' then Asks c else c = []) ∧ calls t' = calls v ++ c)
      (fun _ t' => ∃ c, (if k = .char '\t' then Asks c else c = []) ∧ calls t' = calls v ++ c)
      (fun _ => True) := by
    by_cases h : k = .ctrl 'c'
    · exact wp_mono (wp_and hd (hcc h)) (fun _ _ h => h.2.elim) (fun _ _ h => h.1) (fun _ _ => trivial)
    · exact wp_mono hd (fun _ _ h' => ⟨h, h'⟩) (fun _ _ h => h) (fun _ _ => trivial)
  refine wp_mono hd' ?_ ?_ (fun _ h => h)
  rotate_left
  · rintro _ w ⟨c, hc, hw⟩
    refine ⟨Call.event (.beforeKey k) :: c, _, told c hc, by simp, ?_, by rw [hw, hv, hu]; simp⟩
    rintro rfl
    rw [if_neg (by simp)] at hc
    rw [hc]
  rintro done w ⟨hncc, c, hc, hw⟩
  rw [wp_bind]
  refine wp_mono (fire_calls H _ w) (fun _ x hx => ?_) (fun _ _ h => h.elim) (fun _ h => h)
  have hx' : calls x = calls t ++ ((Call.event (.beforeKey k) :: c) ++
      [.event (.afterKey (KeyMap.translate k))]) := by
    rw [hx, hw, hv, hu]; simp
  rw [wp_bind]
  refine wp_mono (silent_ed _ x) ?_ ?_ (fun _ h => h)
  · rintro _ y ⟨_, rfl, hy⟩
    rw [wp_pure]
    exact ⟨_, told c hc, by rw [hy, hx']; simp⟩
  · rintro _ y ⟨_, rfl, hy⟩
    exact ⟨_, [], by rw [List.append_nil]; exact told c hc, by simp, fun h => absurd h hncc,
      by rw [hy, hx']; simp⟩

theorem press_calls : ∀ (ks : List Key) (t : (κ × η × List Call) × Ed),
    Wp (pressH (recording H) E km ks) t (fun _ t' => ∃ c, ToldAll ks c ∧ calls t' = calls t ++ c)
      (fun _ _ => True) (fun _ => True)
  | [], t => ⟨[], .nil, (List.append_nil _).symm⟩
  | k :: ks, t => by
    unfold pressH
    rw [wp_bind]
    refine wp_mono (handleKey_calls H E km k t) ?_ (fun _ _ _ => trivial) (fun _ h => h)
    rintro _ u ⟨c, hc, hu⟩
    refine wp_mono (press_calls ks u) ?_ (fun _ _ h => h) (fun _ h => h)
    rintro _ v ⟨cs, hcs, hv⟩
    exact ⟨c ++ cs, .cons hc hcs, by rw [hv, hu]; simp⟩

/-- Whether the completer is asked depends on the list shown when completing begins. -/
theorem complete_asked (hq : Quiet H) (t : (κ × η × List Call) × Ed) :
    Wp (Handled.complete (recording H) E) t
      (fun _ t' => (∃ w, Call.asked w ∈ (calls t').drop (calls t).length) ↔
        t.2.showCompletionsHint = none) (fun _ _ => True) (fun _ => True) := by
  unfold Handled.complete
  rw [wp_bind, wp_fire]
  refine ⟨fun x hx => ?_, fun _ => trivial⟩
  obtain ⟨h', hq'⟩ := hq .beforeComplete t.1.2.1 t.2
  simp only [recording, hq', Option.map_some, Option.some.injEq] at hx
  subst hx
  rw [wp_bind, wp_ed, wp_get]
  dsimp only
  cases hs : t.2.showCompletionsHint with
  | some p =>
    dsimp only
    refine wp_mono ((silent_bind (silent_ed _) fun _ => silent_ed _ : Silent _) _) ?_ (fun _ _ _ => trivial)
      (fun _ h => h)
    rintro _ v ⟨_, rfl, hv⟩
    rw [hv]
    simp [calls]
  | none =>
    dsimp only
    rw [wp_bind]
    refine wp_mono (silent_ed _ _) ?_ (fun _ _ _ => trivial) (fun _ h => h)
    rintro range v ⟨_, rfl, hv⟩
    rw [wp_bind]
    refine wp_mono (silent_ed _ _) ?_ (fun _ _ _ => trivial) (fun _ h => h)
    rintro word v2 ⟨_, rfl, hv2⟩
    rw [wp_bind, wp_ask]
    refine ⟨fun x hx => ?_, fun _ => trivial⟩
    simp only [recording, Option.map_eq_some_iff] at hx
    obtain ⟨y, _, rfl⟩ := hx
    refine wp_mono (silent_ed _ _) ?_ (fun _ _ _ => trivial) (fun _ h => h)
    rintro _ z ⟨_, rfl, hz⟩
    rw [hz]
    have e1 : v2.1.2.2 = calls t ++ [.event .beforeComplete] := by
      show calls v2 = _
      rw [hv2, hv]; simp [calls]
    simp [calls, e1]

/-! ### What the operations keep -/

variable {H E km}

theorem inside_fire (hp : Polite E H) (e : EventKind) (t : (κ × η) × Ed) (ht : Inside t.2) :
    Wp (fire H e) t (fun _ t' => Inside t'.2) (fun _ _ => True) (fun _ => True) := by
  rw [wp_fire]
  refine ⟨fun u hu => ?_, fun _ => trivial⟩
  obtain ⟨ops, ho⟩ := hp e t.1.2 t.2 u.1 u.2 hu
  clear hu
  have key : ∀ ops s, Inside s →
      Wp (runOps E ops) s (fun _ s' => Inside s') (fun _ _ => True) (fun _ => True) := by
    intro ops
    induction ops with
    | nil => exact fun s hs => hs
    | cons o ops ih =>
      intro s hs
      unfold runOps
      rw [wp_bind]
      exact wp_mono (Editor.keeps_op E o s hs) (fun _ s1 h1 => ih s1 h1) (fun _ _ h => h) (fun _ h => h)
  have := wp_ok (key ops t.2 ht) ho
  exact this

/-- The cursor stays inside the line. -/
def KeepI (m : KH κ η α) : Prop :=
  ∀ t, Inside t.2 → Wp m t (fun _ t' => Inside t'.2) (fun _ _ => True) (fun _ => True)

theorem keepI_bind {m : KH κ η α} {f : α → KH κ η β} (hm : KeepI m) (hf : ∀ a, KeepI (f a)) :
    KeepI (m >>= f) := fun t ht => by
  rw [wp_bind]
  exact wp_mono (hm t ht) (fun a u h => hf a u h) (fun _ _ h => h) (fun _ h => h)

theorem keepI_ed {w : Who} {m : EdM α} (hm : Uses E w m) : KeepI (κ := κ) (η := η) (ed m) := fun t ht => by
  rw [wp_ed]
  exact wp_mono ((inside_kept E w).uses hm t.2 ht) (fun _ _ h => h.1) (fun _ _ _ => trivial)
    (fun _ _ => trivial)

theorem keepI_map {w : Who} {m : KM κ α} (hm : UsesK E w Any m) : KeepI (η := η) (KH.map m) := fun t ht => by
  rw [wp_map]
  exact wp_mono ((inside_kept E w).usesK hm (t.1.1, t.2) ht) (fun _ _ h => h.1) (fun _ _ _ => trivial)
    (fun _ _ => trivial)

/-- `complete` after its event. -/
def complRest (H : Handler η) (E : Env) : KH κ η Unit := do
  let s ← ed get
  match s.showCompletionsHint with
  | some (completions, iIn) =>
    ed (Editor.completeNext E completions iIn)
    ed (Editor.display E)
  | none =>
    let range ← ed (Editor.getWordBeforeCursor E false)
    let word ← ed (Editor.curBufMut (Editor.readWord range))
    let completions ← ask H word
    ed (Handled.offer E word (Editor.sortDedup completions))

theorem keepI_rest : KeepI (κ := κ) (complRest H E) := fun t ht => by
  let H' : Handler η := { H with onEvent := fun _ t => some t }
  obtain ⟨h, ha⟩ := agree_complete (κ := κ) H' E (fun _ h _ => ⟨h, rfl⟩) t
  have he : Handled.complete H' E t = complRest H E t := rfl
  rw [he] at ha
  have hk := (inside_kept E .vi).uses (Uses.op (.complete (answers H' h)) (by simp [Allowed])) t.2 ht
  have hw : Wp (ed (Editor.complete E (answers H' h)) : KM κ Unit) (bare t) (fun _ t' => Inside t'.2)
      (fun _ _ => True) (fun _ => True) := by
    rw [wp_ed]
    exact wp_mono hk (fun _ _ h => h.1) (fun _ _ _ => trivial) (fun _ h => h)
  unfold Wp at hw ⊢
  rcases ha with ha | ⟨ha, _⟩
  · rw [← ha] at hw
    cases hx : complRest (κ := κ) H E t <;> rw [hx] at hw <;> exact hw
  · rw [ha]; trivial

theorem keepI_complete (hp : Polite E H) : KeepI (κ := κ) (Handled.complete H E) :=
  keepI_bind (m := fire H .beforeComplete) (f := fun _ => complRest H E) (inside_fire hp _) fun _ => keepI_rest

theorem keepI_dispatch {w : Who} (hp : Polite E H) (hc : ∀ key, UsesK E w Any (km.core E key)) (e : Bool) (key : Key) :
    KeepI (Handled.dispatch H E km e key) := by
  have hpure : ∀ b : Bool, KeepI (κ := κ) (η := η) (pure b) := fun b t ht => ht
  have hthrow : ∀ x, KeepI (κ := κ) (η := η) (α := Bool) (throw x) := fun _ _ _ => trivial
  have hcomp := keepI_complete (κ := κ) hp
  have h1 : ∀ f, KeepI (κ := κ) (η := η) (ed (Editor.search E f)) := fun f =>
    keepI_ed (w := w) (E := E) (by uses)
  have h2 : KeepI (κ := κ) (η := η) (ed (Editor.acceptAutosuggestion E)) :=
    keepI_ed (w := w) (E := E) (by uses)
  have h3 : KeepI (κ := κ) (η := η) (ed Editor.cursorIsAtEndOfLine) :=
    keepI_ed (w := w) (E := E) (by uses)
  have h4 : KeepI (κ := κ) (η := η) (ed Editor.skipCompletionsHint) :=
    keepI_ed (w := w) (E := E) (by uses)
  have h5 : KeepI (κ := κ) (η := η) (ed (Editor.handleNewline E)) :=
    keepI_ed (w := w) (E := E) (by uses)
  have h6 : KeepI (κ := κ) (η := η) (ed M.get) := keepI_ed (w := w) (E := E) (by uses)
  have h7 : ∀ k, KeepI (η := η) (KH.map (km.core E k)) := fun k => keepI_map (hc k)
  unfold Handled.dispatch
  refine keepI_bind h6 fun s => ?_
  repeat (first
    | exact h1 _
    | exact h2
    | exact h3
    | exact h4
    | exact h5
    | exact h7 _
    | exact hpure _
    | exact hthrow _
    | exact hcomp
    | (refine keepI_bind ?_ fun _ => ?_)
    | split
    | dsimp only)

theorem keepI_handleKey {w : Who} (hp : Polite E H) (hc : ∀ key, UsesK E w Any (km.core E key)) (key : Key) :
    KeepI (Handled.handleKey H E km key) := by
  unfold Handled.handleKey
  refine keepI_bind (inside_fire hp _) fun _ => ?_
  refine keepI_bind (keepI_ed (w := w) (E := E) (by uses)) fun _ => ?_
  refine keepI_bind (keepI_dispatch hp hc _ _) fun _ => ?_
  refine keepI_bind (inside_fire hp _) fun _ => ?_
  exact keepI_bind (keepI_ed (w := w) (E := E) (by uses)) fun _ t ht => ht

theorem keepI_press {w : Who} (hp : Polite E H) (hc : ∀ key, UsesK E w Any (km.core E key)) :
    ∀ keys, KeepI (pressH H E km keys)
  | [] => fun _ ht => ht
  | k :: ks => keepI_bind (keepI_handleKey hp hc k) fun _ => keepI_press hp hc ks

theorem inside_sessionH {w : Who} (hp : Polite E H) (hc : ∀ key, UsesK E w Any (km.core E key))
    (hi : UsesK E w Any (km.init E)) (p : Prompt) (keys : List Key) (t : (κ × η) × Ed) :
    Wp (sessionH H E km p keys) t (fun _ t' => Inside t'.2) (fun _ _ => True) (fun _ => True) := by
  unfold sessionH
  rw [wp_bind, wp_ed]
  refine wp_mono (Editor.ends_start E p t.2) (fun _ s1 h1 => ?_) (fun _ _ _ => trivial) (fun _ _ => trivial)
  exact keepI_bind (keepI_map hi) (fun _ => keepI_press hp hc keys) _ h1

end
end Liner
