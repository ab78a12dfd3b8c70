import Verif.Props.Converse
/-
The string a context collects what is written to it in: C70.
-/

namespace Liner.Props
open Liner Liner.Spec Liner.Editor Liner.History Liner.Wit

/-- What was written to the context stays. -/
def Adds (s s' : Ed) : Prop := s.ctxBuf <+: s'.ctxBuf

theorem adds_of_pres {α : Type} {m : EdM α} (h : Pres m) : Keep (fun _ => True) Adds Adds m := fun s _ =>
  wp_mono (h s) (fun _ _ h1 => ⟨trivial, h1.buf⟩) (fun _ _ h1 => h1.buf) (fun _ h1 => h1)

theorem adds_kept (E : Env) (w : Who) : Kept E w (fun _ => True) Adds Adds where
  refl _ := List.prefix_refl _
  frefl _ := List.prefix_refl _
  trans _ _ _ h1 h2 := h1.trans h2
  ftrans _ _ _ h1 h2 := h1.trans h2
  op o _ := by
    cases o
    case setPrompt p =>
      intro s _
      show _ ∧ _
      refine ⟨trivial, ?_⟩
      dsimp only [Adds]
      split <;> exact List.prefix_refl _
    case setViMode m =>
      intro s _
      show _ ∧ _
      refine ⟨trivial, ?_⟩
      dsimp only [Adds]
      split <;> exact List.prefix_refl _
    all_goals exact adds_of_pres (pres_op E _ (by simp) (by simp))
  newline := adds_of_pres (pres_newline E)
  undo := adds_of_pres (pres_undo E)
  redo := adds_of_pres (pres_redo E)
  revert := adds_of_pres (pres_revert E)
  start p := adds_of_pres (pres_start E p)
  startGroup _ := adds_of_pres (pres_curBufMut _)
  endGroup _ := adds_of_pres (pres_curBufMut _)
  setNoEol _ _ := fun _ _ => ⟨trivial, List.prefix_refl _⟩

theorem Editor.Grown.after {a b c : Ed} (h1 : Adds a b) (h2 : Grown b c) : Grown a c := by
  obtain ⟨t, h1⟩ := h1
  obtain ⟨u, h2, h3⟩ := h2
  refine ⟨t ++ u, by rw [h2, ← h1, List.append_assoc], ?_⟩
  rw [List.length_append]
  omega

theorem Editor.Grown.before {a b c : Ed} (h1 : Grown a b) (h2 : Adds b c) : Grown a c := by
  obtain ⟨t, h2⟩ := h2
  obtain ⟨u, h1, h3⟩ := h1
  refine ⟨u ++ t, by rw [← h2, h1, List.append_assoc], ?_⟩
  rw [List.length_append]
  omega

/-- Ends with a redraw. -/
def GrowsM {α : Type} (m : EdM α) : Prop := ∀ s, Wp m s (fun _ s' => Grown s s') (fun _ s' => Adds s s') (fun _ => True)

theorem grows_bind {α β : Type} {m : EdM α} {f : α → EdM β} (h1 : Pres m) (h2 : ∀ a, GrowsM (f a)) : GrowsM (m >>= f) := by
  intro s
  rw [wp_bind]
  refine wp_mono (h1 s) (fun a s1 h => ?_) (fun _ _ h => h.buf) (fun _ h => h)
  exact wp_mono (h2 a s1) (fun _ _ h' => Editor.Grown.after h.buf h') (fun _ _ h' => h.buf.trans h') (fun _ h => h)

theorem grows_display (E : Env) : GrowsM (display E) := fun s => display_grows E s

theorem grows_start (E : Env) (p : Prompt) : GrowsM (start E p) := by
  unfold start
  refine grows_bind (pres_writeTerm _ _) fun _ => ?_
  dsimp only
  split
  · intro s; trivial
  · refine grows_bind (pres_repeatN (pres_writeTerm _ _) _) fun _ => grows_bind (pres_writeTerm _ _) fun _ => grows_bind (pres_writeTerm _ _) fun _ =>
      grows_bind pres_get fun s => ?_
    split
    · exact grows_display E
    · exact grows_bind (pres_moveEnd E) fun _ => grows_display E

/-- A read that gets past its first redraw. -/
theorem grows_read {κ : Type} {km : KeyMap κ} {w : Who} {E : Env} (hc : ∀ key, UsesK E w Any (km.core E key)) (hi : UsesK E w Any (km.init E))
    (p : Prompt) (input : List KeyMap.Input) (t : κ × Ed) :
    Wp (km.readLine E p input) t (fun _ t' => Grown t.2 t'.2) (fun e t' => Adds t.2 t'.2 ∧ (e ≠ .io → Grown t.2 t'.2)) (fun _ => True) := by
  unfold KeyMap.readLine
  rw [wp_bind, wp_ed]
  refine wp_mono (wp_and (grows_start E p t.2) ((errs_start (A := fun e => e = .io) (.inr rfl) p).wp t.2)) (fun _ s1 h1 => ?_)
    (fun e s1 h => ⟨h.1, fun hn => absurd h.2 hn⟩) (fun _ _ => trivial)
  have g := h1.1
  refine wp_mono ((adds_kept E w).usesK (UsesK.bind hi fun _ => uses_loop km E hc input) (t.1, s1) trivial) (fun _ t' h => ?_) (fun _ t' h => ?_)
    (fun _ _ => trivial)
  · exact Editor.Grown.before g h.2
  · exact ⟨(Editor.Grown.before g h).pre, fun _ => Editor.Grown.before g h⟩

/-- C70: a read, however it ends, only appends to the context's `buffer`; and once it got past the first redraw - it returned a
line, or Ctrl-C or Ctrl-D ended it - it has appended to it, be the line as short as it may. -/
theorem C70_read (c c' : Context) (r : Call) (o : List Tok) :
    (∀ t, c.readLine r = .ok t (c', o) → ∃ x, c'.buffer = c.buffer ++ x ∧ 3 ≤ x.length) ∧
    (∀ e, c.readLine r = .err e (c', o) → ∃ x, c'.buffer = c.buffer ++ x ∧ (e ≠ .io → 3 ≤ x.length)) := by
  have fin : ∀ {κ : Type} {km : KeyMap κ} {k : κ} {w : Who}, (∀ key, UsesK r.env w Any (km.core r.env key)) → UsesK r.env w Any (km.init r.env) →
      (∀ t, c.ended (km.readLine r.env r.prompt r.input (k, initial r.prompt c.history c.fs (.ofText r.buffer))) = .ok t (c', o) →
        ∃ x, c'.buffer = c.buffer ++ x ∧ 3 ≤ x.length) ∧
      (∀ e, c.ended (km.readLine r.env r.prompt r.input (k, initial r.prompt c.history c.fs (.ofText r.buffer))) = .err e (c', o) →
        ∃ x, c'.buffer = c.buffer ++ x ∧ (e ≠ .io → 3 ≤ x.length)) := by
    intro κ km k w hc hi
    have key := grows_read hc hi r.prompt r.input (k, initial r.prompt c.history c.fs (.ofText r.buffer))
    generalize hx : km.readLine r.env r.prompt r.input (k, initial r.prompt c.history c.fs (.ofText r.buffer)) = x
    cases x with
    | ok a s =>
      refine ⟨fun t h => ?_, fun e h => nomatch h⟩
      have := wp_ok key hx
      obtain ⟨x, h1, h2⟩ := this
      cases h
      refine ⟨x, ?_, h2⟩
      dsimp only
      rw [h1]
      rfl
    | err a s =>
      refine ⟨fun t h => (nomatch h), fun e h => ?_⟩
      have := wp_err key hx
      cases h
      refine ⟨s.2.ctxBuf, rfl, fun hn => ?_⟩
      obtain ⟨x, h1, h2⟩ := this.2 hn
      rw [h1, List.length_append]
      omega
    | panic w => exact ⟨fun t h => (nomatch h), fun e h => (nomatch h)⟩
  unfold Context.readLine
  dsimp only
  cases hk : c.keyBindings with
  | emacs => exact fin (Emacs.uses_core r.env) (Emacs.uses_init r.env)
  | vi => exact fin (Vi.uses_core r.env) (Vi.uses_init r.env)

/-- C70: so over a conversation `buffer` never loses anything and grows with every line. -/
theorem C70_conversation (rs : List Round) (c c' : Context) (ls : List Text) (o : List Tok) (h : converse rs c = some (ls, c', o)) :
    ∃ x, c'.buffer = c.buffer ++ x ∧ 3 * ls.length ≤ x.length := by
  induction rs generalizing c ls o with
  | nil => cases h; exact ⟨[], (List.append_nil _).symm, Nat.le_refl _⟩
  | cons r rs ih =>
    rcases converse_cons h with ⟨t, c1, o1, ls1, o2, h1, h2, rfl, rfl⟩ | ⟨c1, o1, o2, h1, h2, rfl⟩ | ⟨h1, rfl⟩
    · obtain ⟨x, g1, g2⟩ := (C70_read _ _ _ _).1 _ h1
      obtain ⟨y, g3, g4⟩ := ih _ _ _ h2
      have e : (c1.push t).buffer = c1.buffer := rfl
      rw [e, g1, List.append_assoc] at g3
      refine ⟨x ++ y, g3, ?_⟩
      rw [List.length_append, List.length_cons]
      omega
    · obtain ⟨x, g1, -⟩ := (C70_read _ _ _ _).2 _ h1
      obtain ⟨y, g3, g4⟩ := ih _ _ _ h2
      rw [g1, List.append_assoc] at g3
      refine ⟨x ++ y, g3, ?_⟩
      rw [List.length_append]
      omega
    · obtain ⟨x, g1, -⟩ := (C70_read _ _ _ _).2 _ h1
      exact ⟨x, g1, Nat.zero_le _⟩

/-! ### No bound -/

/-- A history of one empty entry, to which no further one is added. -/
def idle : Context where
  history := hist [""]
  fs := Tests.noFiles

/-- Enter on an empty line. -/
def blank : Round where
  keys := .emacs
  call := { env := Tests.env, prompt := { prompt := ['>', ' '] }, input := Spec.typed [plain (.char '\n')] }

theorem blank_run : okAnd (idle.readLine blank.call) (fun t _ => t == []) = true := by decide +kernel

theorem blank_read (b : List Tok) : ∃ x o, { idle with buffer := b }.readLine blank.call = .ok [] ({ idle with buffer := b ++ x }, o) := by
  have h : okAnd ({ idle with buffer := b }.readLine blank.call) (fun t _ => t == []) = true := by
    have h := blank_run
    unfold Context.readLine at h ⊢
    dsimp only [idle] at h ⊢
    generalize Emacs.keyMap.readLine blank.call.env blank.call.prompt blank.call.input
      (({} : Emacs), initial blank.call.prompt (hist [""]) Tests.noFiles (.ofText blank.call.buffer)) = x at h ⊢
    cases x with
    | ok a s => exact h
    | err a s => cases h
    | panic w => cases h
  obtain ⟨t, ⟨c1, o⟩, h1, h2⟩ := of_okAnd h
  obtain rfl : t = [] := eq_of_beq h2
  obtain ⟨g1, g2, g3⟩ := read_keeps (.inl ⟨_, h1⟩)
  have g4 := Reloaded.unshared g1 rfl
  obtain ⟨x, g5, -⟩ := (C70_read _ _ _ _).1 _ h1
  refine ⟨x, o, ?_⟩
  rw [h1]
  obtain ⟨a1, a2, a3, a4⟩ := c1
  dsimp only at g2 g3 g4 g5
  subst g2 g3 g4 g5
  rfl

/-- C70: there is no bound on it: empty lines, of which the history keeps none, are enough for any size. -/
theorem C70_unbounded_violation (n : Nat) : ∃ c' o, converse (List.replicate n blank) idle = some (List.replicate n [], c', o) ∧
    c'.history = idle.history ∧ c'.fs = idle.fs ∧ 3 * n ≤ c'.buffer.length := by
  have key : ∀ (n : Nat) (b : List Tok), ∃ x o, converse (List.replicate n blank) { idle with buffer := b } =
      some (List.replicate n [], { idle with buffer := x }, o) := by
    intro n
    induction n with
    | zero => intro b; exact ⟨b, [], rfl⟩
    | succ n ih =>
      intro b
      obtain ⟨x, o, h1⟩ := blank_read b
      obtain ⟨y, o2, h2⟩ := ih (b ++ x)
      refine ⟨y, o ++ printed (blank.answer []) ++ o2, ?_⟩
      rw [List.replicate_succ, List.replicate_succ]
      unfold converse
      have e : { ({ idle with buffer := b } : Context) with keyBindings := blank.keys }.readLine blank.call =
          .ok [] ({ idle with buffer := b ++ x }, o) := h1
      rw [e]
      dsimp only
      have e2 : Context.push { idle with buffer := b ++ x } [] = { idle with buffer := b ++ x } := by
        unfold Context.push History.push
        rw [if_pos (show ¬ idle.history.appendDuplicateEntries = true ∧ (idle.history.buffers.getLast?.map (·.data)) = some (Buffer.ofText []).data from by decide)]
      rw [e2, h2]
      rfl
  obtain ⟨x, o, h⟩ := key n []
  refine ⟨_, o, h, rfl, rfl, ?_⟩
  obtain ⟨y, h1, h2⟩ := C70_conversation _ _ _ _ _ h
  rw [h1, List.length_append]
  rw [List.length_replicate] at h2
  omega

/-- A conversation of two lines, as in `C70_conversation`. -/
example : ∃ c' o, converse (List.replicate 2 blank) idle = some ([[], []], c', o) :=
  let ⟨c', o, h, _⟩ := C70_unbounded_violation 2
  ⟨c', o, h⟩

end Liner.Props
