import Verif.Proof.Keys
import Verif.Proof.Open
import Verif.Spec.Loop
import Verif.Props.Editor
/-
Properties of the reading loop: C44, C45.
-/

namespace Liner.Props
open Liner Liner.Spec Liner.Editor Liner.Wit

/-! ### C44 -/

section
variable {E : Env}

/-- The stored history is `H`, and stays so. -/
abbrev Stays {α : Type} (H : History) (m : EdM α) (s : Ed) : Prop :=
  Wp m s (fun _ s' => s'.history = H) (fun _ s' => s'.history = H) (fun _ => True)

variable {H : History} {s : Ed}

theorem hist_display (h : s.history = H) : Stays H (display E) s :=
  wp_mono (display_wp E s) (fun _ _ h' => h'.same.history.trans h)
    (fun _ _ h' => h'.same.history.trans h) (fun _ _ => trivial)

theorem hist_displayImpl (sa : Bool) (h : s.history = H) : Stays H (displayImpl E sa) s := by
  refine wp_mono (displayImpl_wp E sa s) (fun _ s' h => ?_) (fun _ s' h => ?_) (fun _ _ => trivial)
  · obtain ⟨b, hb, l, c, o, t, rfl⟩ := h.drawn
    exact ‹s.history = H›
  · obtain ⟨cu, ⟨l, c, o, t, rfl⟩, _⟩ := h
    exact ‹s.history = H›

theorem setCur_history (s : Ed) (b : Buffer) : (setCur s b).history = s.history := by
  unfold setCur; split <;> rfl

theorem hist_moveEnd (h : s.history = H) : Stays H (moveCursorToEndOfLine E) s := by
  unfold moveCursorToEndOfLine
  rw [Stays, wp_bind, wp_curBuf]
  exact ⟨fun b _ => hist_display (s := { s with cursor := b.numChars }) h, fun _ => trivial⟩

theorem hist_accept (h : s.history = H) : Stays H (acceptAutosuggestion E) s := by
  unfold acceptAutosuggestion clearSearch
  simp only [Stays, wp_bind, wp_get, wp_modify, wp_ite]
  refine ⟨fun _ => ?_, fun _ => hist_moveEnd h⟩
  rw [wp_curBufMut]
  exact ⟨fun b a b' _ _ => hist_moveEnd ((setCur_history s b').trans h), fun _ => trivial⟩

theorem hist_insert (cs : Text) (h : s.history = H) : Stays H (insertCharsAfterCursor E cs) s := by
  unfold insertCharsAfterCursor
  simp only [Stays, wp_bind, wp_get, wp_modify, wp_curBufMut]
  exact ⟨fun b a b' _ _ => hist_display ((setCur_history s b').trans h), fun _ => trivial⟩

theorem hist_finish (h : s.history = H) : Stays H (finishLine E) s := by
  unfold finishLine
  simp only [Stays, wp_bind, wp_get, wp_modify, wp_ite, wp_pure, wp_curBuf]
  refine ⟨fun _ => h, fun _ => ⟨fun b _ => ⟨fun _ => hist_insert _ h, fun _ => ?_⟩,
    fun _ => trivial⟩⟩
  refine wp_mono (hist_displayImpl false (s := { s with cursor := _ }) h) (fun _ s1 h1 => ?_)
    (fun _ _ h => h) (fun _ _ => trivial)
  rw [wp_writeTerm]
  exact ⟨fun _ => h1, fun _ => h1⟩

/-- Enter does not touch the stored history. -/
theorem hist_newline (h : s.history = H) : Stays H (handleNewline E) s := by
  unfold handleNewline acceptIfSearch clearSearch
  simp only [Stays, wp_bind, wp_get, wp_modify, wp_ite, wp_pure]
  exact ⟨fun _ => wp_mono (hist_accept (s := { s with historyFresh := false }) h)
    (fun _ s1 h1 => hist_finish h1) (fun _ _ h => h) (fun _ h => h), fun _ => hist_finish h⟩

end

section
variable {κ : Type} (km : KeyMap κ) (E : Env) (comp : Text → List Text)

/-- Ending the read with an error. -/
theorem stops {e : IoErr} (t : κ × Ed) :
    Wp (do let _ ← KM.ed (handleNewline E); M.throw e : KM κ Bool) t (fun _ _ => False)
      (fun x t' => (x = e ∨ x = .io ∧ ¬ Works E) ∧ t'.2.history = t.2.history) (fun _ => True) := by
  rw [wp_bind, wp_ed]
  have h1 : Wp (handleNewline E) t.2 (fun _ _ => True) (fun x _ => x = .io ∧ ¬ Works E)
      (fun _ => True) := by
    by_cases hw : Works E
    · exact wp_mono ((errs_handleNewline (A := fun _ => False) (.inl hw)).wp t.2)
        (fun _ _ h => h) (fun _ _ h => h.elim) (fun _ h => h)
    · exact wp_mono ((errs_handleNewline (A := fun x => x = .io) (.inr rfl)).wp t.2)
        (fun _ _ h => h) (fun _ _ h => ⟨h, hw⟩) (fun _ h => h)
  exact wp_mono (wp_and h1 (hist_newline (s := t.2) rfl)) (fun _ s1 h => ⟨.inl rfl, h.2⟩)
    (fun _ _ h => ⟨.inr h.1, h.2⟩) (fun _ _ => trivial)

/-- C44: Ctrl-C never completes; it returns `Interrupted`, or an I/O error if the terminal fails
first.  The stored history is unchanged. -/
theorem C44_ctrl_c_partial (t : κ × Ed) :
    (∀ done t', km.handleKey E comp (.ctrl 'c') t ≠ .ok done t') ∧
    (∀ e t', km.handleKey E comp (.ctrl 'c') t = .err e t' →
      (e = .interrupted ∨ e = .io ∧ ¬ Works E) ∧ t'.2.history = t.2.history) := by
  have key : Wp (km.handleKey E comp (.ctrl 'c')) t (fun _ _ => False)
      (fun x t' => (x = .interrupted ∨ x = .io ∧ ¬ Works E) ∧ t'.2.history = t.2.history)
      (fun _ => True) := by
    unfold KeyMap.handleKey
    rw [wp_bind, wp_ed, wp_curBuf]
    refine ⟨fun b _ => ?_, fun _ => trivial⟩
    rw [wp_bind]
    exact wp_mono (stops E t) (fun _ _ h => h.elim) (fun _ _ h => h) (fun _ h => h)
  exact ⟨fun _ _ h => wp_ok key h, fun _ _ h => wp_err key h⟩

/-- C44: on an empty line the same holds of Ctrl-D with `UnexpectedEof`. -/
theorem C44_ctrl_d_empty_partial (t : κ × Ed) (ht : text? t.2 = some []) :
    (∀ done t', km.handleKey E comp (.ctrl 'd') t ≠ .ok done t') ∧
    (∀ e t', km.handleKey E comp (.ctrl 'd') t = .err e t' →
      (e = .unexpectedEof ∨ e = .io ∧ ¬ Works E) ∧ t'.2.history = t.2.history) := by
  have key : Wp (km.handleKey E comp (.ctrl 'd')) t (fun _ _ => False)
      (fun x t' => (x = .unexpectedEof ∨ x = .io ∧ ¬ Works E) ∧ t'.2.history = t.2.history)
      (fun _ => True) := by
    obtain ⟨b0, h0, h1⟩ := text?_eq.mp ht
    unfold KeyMap.handleKey
    rw [wp_bind, wp_ed, wp_curBuf]
    refine ⟨fun b hb => ?_, fun _ => trivial⟩
    rw [h0] at hb; cases hb
    have he : b0.isEmpty = true := by simp [Buffer.isEmpty, h1]
    rw [wp_bind, he]
    exact wp_mono (stops E t) (fun _ _ h => h.elim) (fun _ _ h => h) (fun _ h => h)
  exact ⟨fun _ _ h => wp_ok key h, fun _ _ h => wp_err key h⟩

/-- C44: on any other line Ctrl-D is an ordinary key: the key map handles it and reading goes on. -/
theorem C44_ctrl_d_key (t : κ × Ed) {c : Char} {r : Text} (ht : text? t.2 = some (c :: r)) :
    km.handleKey E comp (.ctrl 'd') t =
      (do km.core E (.ctrl 'd')
          KM.ed skipCompletionsHint
          KM.ed (flush E)
          pure false : KM κ Bool) t := by
  obtain ⟨b0, h0, h1⟩ := text?_eq.mp ht
  have he : b0.isEmpty = false := by simp [Buffer.isEmpty, h1]
  have h3 : KeyMap.translate (.ctrl 'd') = .ctrl 'd' := by decide
  rw [handleKey_eq km E comp h0, h3, he]
  show M.bind _ _ t = _
  unfold M.bind
  rw [dispatch_core km E comp t (by decide) (by simp) (by decide) (by decide) (by simp) (by decide)
    (by decide) (by simp)]
  simp only [toCore]
  cases hk : km.core E (.ctrl 'd') t <;>
    simp [hk, bind, M.bind, KM.ed, M.zoom, skipCompletionsHint, M.modify, pure, M.pure]


/-- C44, the converse: a key ends the read with one of these errors only in these cases. -/
theorem only_stops {A : IoErr → Prop} (hio : Io E A) (hc : ∀ key, Errs A (km.core E key)) {key : Key} {t t' : κ × Ed} {e : IoErr}
    (h : km.handleKey E comp key t = .err e t') :
    A e ∨ (e = .interrupted ∧ key = .ctrl 'c') ∨
      (e = .unexpectedEof ∧ key = .ctrl 'd' ∧ text? t.2 = some []) := by
  have htr : ∀ c, c ≠ 'h' → KeyMap.translate key = .ctrl c → key = .ctrl c := by
    intro c hn
    unfold KeyMap.translate
    split
    · intro h; cases h
    · exact fun h => h
  have hcur : ∃ b, t.2.curBuf? = some b := by
    cases hb : t.2.curBuf? with
    | some b => exact ⟨b, rfl⟩
    | none =>
      have : km.handleKey E comp key t = .panic .op := by
        unfold KeyMap.handleKey
        show M.bind _ _ t = _
        simp [M.bind, KM.ed, M.zoom, curBuf, hb]
      rw [this] at h; cases h
  obtain ⟨b, hb⟩ := hcur
  rw [handleKey_eq km E comp hb] at h
  have stop : ∀ x : IoErr, Wp (do let _ ← KM.ed (handleNewline E); M.throw x : KM κ Bool) t
      (fun _ _ => True) (fun e _ => A e ∨ e = x) (fun _ => True) := by
    intro x
    rw [wp_bind]
    exact wp_mono ((errs_ed (errs_handleNewline hio)).wp t) (fun _ _ _ => .inr rfl)
      (fun _ _ h => .inl h) (fun _ h => h)
  have key' : Wp (km.dispatch E comp b.isEmpty (KeyMap.translate key)) t (fun _ _ => True)
      (fun e _ => A e ∨ (e = .interrupted ∧ key = .ctrl 'c') ∨
        (e = .unexpectedEof ∧ key = .ctrl 'd' ∧ text? t.2 = some [])) (fun _ => True) := by
    by_cases h1 : KeyMap.translate key = .ctrl 'c'
    · have := stop .interrupted
      unfold KeyMap.dispatch
      rw [wp_bind, wp_ed, wp_get, if_pos h1]
      exact wp_mono this (fun _ _ h => h)
        (fun _ _ h => h.imp_right fun h => .inl ⟨h, htr 'c' (by decide) h1⟩) (fun _ h => h)
    by_cases h2 : KeyMap.translate key = .ctrl 'd' ∧ b.isEmpty = true
    · have := stop .unexpectedEof
      unfold KeyMap.dispatch
      rw [wp_bind, wp_ed, wp_get, if_neg h1, if_pos h2]
      refine wp_mono this (fun _ _ h => h)
        (fun _ _ h => h.imp_right fun h => .inr ⟨h, htr 'd' (by decide) h2.1, ?_⟩) (fun _ h => h)
      have := h2.2
      rw [Buffer.isEmpty, List.isEmpty_iff] at this
      exact text?_eq.mpr ⟨b, hb, this⟩
    have : Errs A (do
        let s ← KM.ed M.get
        if KeyMap.translate key = .char '\t' then do
          KM.ed (Editor.complete E comp)
          pure false
        else if KeyMap.translate key = .char '\n' then
          KM.ed (Editor.handleNewline E)
        else if KeyMap.translate key = .ctrl 'f' ∧ s.autosuggestion.isSome then do
          KM.ed (Editor.acceptAutosuggestion E)
          pure false
        else if KeyMap.translate key = .ctrl 'r' then do
          KM.ed (Editor.search E false)
          pure false
        else if KeyMap.translate key = .ctrl 's' then do
          KM.ed (Editor.search E true)
          pure false
        else do
          let accept ← if KeyMap.translate key = .right ∧ s.autosuggestion.isSome then
              KM.ed Editor.cursorIsAtEndOfLine
            else pure false
          if accept then
            KM.ed (Editor.acceptAutosuggestion E)
          else do
            km.core E (KeyMap.translate key)
            KM.ed Editor.skipCompletionsHint
          pure false : KM κ Bool) := by
      have h1 := errs_complete hio comp
      have h2 := errs_handleNewline hio
      have h3 := errs_accept hio
      have h4 := errs_search hio
      have h5 := hc (KeyMap.translate key)
      unfold cursorIsAtEndOfLine skipCompletionsHint
      errs
      all_goals exact h4 _
    refine wp_mono ?_ (fun _ _ h => h) (fun e _ h => .inl h) (fun _ h => h)
    unfold KeyMap.dispatch
    have := this.wp t
    rw [wp_bind, wp_ed, wp_get] at this ⊢
    rw [if_neg h1, if_neg h2]
    exact this
  refine wp_err (Q := fun _ _ => True) (P := fun _ => True) (R := fun e _ => A e ∨
    (e = .interrupted ∧ key = .ctrl 'c') ∨
    (e = .unexpectedEof ∧ key = .ctrl 'd' ∧ text? t.2 = some [])) ?_ h
  rw [wp_bind]
  refine wp_mono key' (fun d t1 _ => ?_) (fun _ _ h => h) (fun _ h => h)
  rw [wp_bind]
  exact wp_mono ((errs_ed (errs_flush hio)).wp t1) (fun _ _ _ => trivial) (fun _ _ h => .inl h)
    (fun _ h => h)

end

/-- C44, the converse for the Emacs keys. -/
theorem C44_only_emacs (E : Env) (comp : Text → List Text) {key : Key} {t t' : Emacs × Ed} {e : IoErr}
    (h : Emacs.keyMap.handleKey E comp key t = .err e t') :
    e = .io ∨ (e = .interrupted ∧ key = .ctrl 'c') ∨
      (e = .unexpectedEof ∧ key = .ctrl 'd' ∧ text? t.2 = some []) :=
  only_stops Emacs.keyMap E comp (A := (· = .io)) (.inr rfl)
    (fun key : Key => errs_usesK (A := (· = .io)) (T := fun _ => False) (.inr rfl) (fun _ h => h.elim)
      (Emacs.uses_core E key)) h

/-- C44, the converse for the vi keys. -/
theorem C44_only_vi (E : Env) (comp : Text → List Text) {key : Key} {t t' : Vi × Ed} {e : IoErr}
    (h : Vi.keyMap.handleKey E comp key t = .err e t') :
    e = .io ∨ (e = .interrupted ∧ key = .ctrl 'c') ∨
      (e = .unexpectedEof ∧ key = .ctrl 'd' ∧ text? t.2 = some []) :=
  only_stops Vi.keyMap E comp (A := (· = .io)) (.inr rfl)
    (fun key : Key => errs_usesK (A := (· = .io)) (T := fun _ => False) (.inr rfl) (fun _ h => h.elim)
      (Vi.uses_core E key)) h

example : errAnd (emacs ["a"] (chars "bc" ++ [.left, .ctrl 'c'])) (fun e t =>
    e == .interrupted && texts t.2.history == ["a".toList]) = true := by decide +kernel

example : errAnd (vi ["a"] (chars "b" ++ [.backspace, .ctrl 'd'])) (fun e t =>
    e == .unexpectedEof && texts t.2.history == ["a".toList]) = true := by decide +kernel

example : okAnd (emacs [] (chars "bc" ++ [.left, .ctrl 'd'])) (fun _ t =>
    text? t.2 == some ['b']) = true := by decide +kernel

/-! ### C45 -/

section
variable {E : Env} {κ : Type} (km : KeyMap κ)

theorem bind_ok_iff {σ α β : Type} {m : M σ α} {f : α → M σ β} {s s' : σ} {b : β} :
    (m >>= f) s = .ok b s' ↔ ∃ a s1, m s = .ok a s1 ∧ f a s1 = .ok b s' := by
  show M.bind m f s = _ ↔ _
  unfold M.bind
  cases m s with
  | ok a s1 =>
    constructor
    · exact fun h => ⟨a, s1, rfl, h⟩
    · rintro ⟨a', s1', h1, h2⟩
      cases h1; exact h2
  | err e s1 => simp
  | panic w => simp

theorem loop_end (t t' : κ × Ed) (txt : Text) :
    (do let s ← KM.ed M.get; M.ofOption (intoText s) : KM κ Text) t = .ok txt t' ↔
      t' = t ∧ text? t.2 = some txt := by
  rw [bind_ok_iff]
  constructor
  · rintro ⟨a, t1, h1, h2⟩
    cases h1
    unfold intoText at h2
    unfold text?
    cases hb : Option.map (·.data) t.2.curBuf? with
    | none => rw [hb] at h2; cases h2
    | some x => rw [hb] at h2; cases h2; exact ⟨rfl, rfl⟩
  · rintro ⟨rfl, h⟩
    exact ⟨t'.2, t', rfl, by unfold intoText; unfold text? at h; rw [h]; rfl⟩

/-- What the loop returns. -/
theorem loop_returns (input : List KeyMap.Input) (t t' : κ × Ed) (txt : Text) :
    km.loop E input t = .ok txt t' ↔
      text? t'.2 = some txt ∧ ∃ keys,
        (input = typed keys ∧ Goes km E keys t t') ∨
        (∃ comp rest t1, input = typed keys ++ .key (.char '\n') comp :: rest ∧
          Goes km E keys t t1 ∧ km.handleKey E comp (.char '\n') t1 = .ok true t') := by
  induction input generalizing t with
  | nil =>
    unfold KeyMap.loop
    rw [loop_end]
    constructor
    · rintro ⟨rfl, h⟩
      exact ⟨h, [], .inl ⟨rfl, .nil _⟩⟩
    · rintro ⟨h, keys, ⟨h1, h2⟩ | ⟨comp, rest, t1, h1, -⟩⟩
      · cases keys with
        | nil => cases h2; exact ⟨rfl, h⟩
        | cons => cases h1
      · simp at h1
  | cons x input ih =>
    cases x with
    | ioErr =>
      unfold KeyMap.loop
      constructor
      · intro h; cases h
      · rintro ⟨-, keys, ⟨h1, -⟩ | ⟨comp, rest, t1, h1, -⟩⟩
        · cases keys <;> cases h1
        · cases keys <;> cases h1
    | key k comp =>
      unfold KeyMap.loop
      rw [bind_ok_iff]
      constructor
      · rintro ⟨done, t1, h1, h2⟩
        cases done with
        | true =>
          rw [if_pos rfl, loop_end] at h2
          obtain ⟨rfl, h2⟩ := h2
          have hk := wp_ok (handleKey_done km E comp t k) h1 rfl
          subst hk
          exact ⟨h2, [], .inr ⟨comp, input, t, rfl, .nil _, h1⟩⟩
        | false =>
          rw [if_neg (by simp), ih] at h2
          obtain ⟨h2, keys, ⟨rfl, hg⟩ | ⟨comp', rest, t2, rfl, hg, hn⟩⟩ := h2
          · exact ⟨h2, (k, comp) :: keys, .inl ⟨rfl, .cons h1 hg⟩⟩
          · exact ⟨h2, (k, comp) :: keys, .inr ⟨comp', rest, t2, rfl, .cons h1 hg, hn⟩⟩
      · rintro ⟨h2, keys, ⟨h3, hg⟩ | ⟨comp', rest, t2, h3, hg, hn⟩⟩
        · cases hg with
          | nil => cases h3
          | cons h4 h5 =>
            cases h3
            exact ⟨false, _, h4, by
              rw [if_neg (by simp), ih]; exact ⟨h2, _, .inl ⟨rfl, h5⟩⟩⟩
        · cases hg with
          | nil =>
            cases h3
            exact ⟨true, t', hn, by rw [if_pos rfl, loop_end]; exact ⟨rfl, h2⟩⟩
          | cons h4 h5 =>
            cases h3
            exact ⟨false, _, h4, by
              rw [if_neg (by simp), ih]; exact ⟨h2, _, .inr ⟨_, _, _, rfl, h5, hn⟩⟩⟩

/-- C45: `read_line` returns exactly the text of the current line at the moment when the keys run out
or Enter finishes the line. -/
theorem C45_returns (p : Prompt) (input : List KeyMap.Input) (t t' : κ × Ed) (txt : Text) :
    km.readLine E p input t = .ok txt t' ↔
      ∃ t0, session km E p [] t = .ok () t0 ∧ text? t'.2 = some txt ∧ ∃ keys,
        (input = typed keys ∧ Goes km E keys t0 t') ∨
        (∃ comp rest t1, input = typed keys ++ .key (.char '\n') comp :: rest ∧
          Goes km E keys t0 t1 ∧ km.handleKey E comp (.char '\n') t1 = .ok true t') := by
  unfold KeyMap.readLine KeyMap.handleKeys session press
  rw [bind_ok_iff]
  constructor
  · rintro ⟨_, t0, h0, h⟩
    obtain ⟨_, t1, h1, h⟩ := bind_ok_iff.mp h
    refine ⟨t1, ?_, (loop_returns km input t1 t' txt).mp h⟩
    rw [bind_ok h0, bind_ok h1]
    rfl
  · rintro ⟨t1, h1, h⟩
    obtain ⟨_, t0, h0, h1⟩ := bind_ok_iff.mp h1
    obtain ⟨_, t2, h1, h2⟩ := bind_ok_iff.mp h1
    cases h2
    exact ⟨(), t0, h0, bind_ok_iff.mpr ⟨(), t1, h1, (loop_returns km input t1 t' txt).mpr h⟩⟩

theorem loop_goes (keys : List (Key × (Text → List Text))) (rest : List KeyMap.Input) (t t' : κ × Ed)
    (h : Goes km E keys t t') : km.loop E (typed keys ++ rest) t = km.loop E rest t' := by
  induction h with
  | nil => rfl
  | cons h1 _ ih =>
    show km.loop E (.key _ _ :: (typed _ ++ rest)) _ = _
    rw [KeyMap.loop, bind_ok h1, if_neg (by simp)]
    exact ih

/-- C45: when reading a key fails, `read_line` fails with that error, and the editor is as the keys before
left it. -/
theorem C45_read_error (p : Prompt) (keys : List (Key × (Text → List Text))) (rest : List KeyMap.Input)
    (t t0 t' : κ × Ed) (h0 : session km E p [] t = .ok () t0) (hg : Goes km E keys t0 t') :
    km.readLine E p (typed keys ++ .ioErr :: rest) t = .err .io t' := by
  unfold session press at h0
  obtain ⟨_, t1, h1, h0⟩ := bind_ok_iff.mp h0
  obtain ⟨_, t2, h2, h0⟩ := bind_ok_iff.mp h0
  cases h0
  unfold KeyMap.readLine KeyMap.handleKeys
  rw [bind_ok h1, bind_ok h2, loop_goes km keys _ _ _ hg]
  rfl

/-- Enter outside a search does not change the text of a line it finishes. -/
theorem newline_text {s : Ed} (hs : s.isSearch = false) :
    Wp (handleNewline E) s (fun done s' => done = true → text? s' = text? s) (fun _ _ => True)
      (fun _ => True) := by
  rw [newline_run E hs]
  unfold finishLine
  rw [wp_bind, wp_get]
  split
  · rw [wp_bind, wp_modify, wp_pure]
    intro h; cases h
  rw [wp_bind, wp_curBuf]
  refine ⟨fun b hb => ?_, fun _ => trivial⟩
  split
  · rw [wp_bind]
    refine wp_mono wp_trivial (fun _ _ _ => ?_) (fun _ _ h => h) (fun _ h => h)
    intro h; cases h
  rw [wp_bind, wp_modify, wp_bind]
  refine wp_mono (displayImpl_wp E false _) (fun _ s1 h => ?_) (fun _ _ _ => trivial)
    (fun _ _ => trivial)
  rw [wp_bind, wp_writeTerm]
  refine ⟨fun _ => ?_, fun _ => trivial⟩
  rw [wp_bind, wp_modify]
  intro _
  obtain ⟨b, hb, l, c, o, t, rfl⟩ := h.drawn
  rfl

/-- C45: the text that Enter returns outside a search is the text that was on the line when it was
pressed, without a newline for the key itself. -/
theorem C45_enter (comp : Text → List Text) (t t' : κ × Ed)
    (hs : ¬ t.2.reverseSearch ∧ ¬ t.2.forwardSearch)
    (h : km.handleKey E comp (.char '\n') t = .ok true t') : text? t'.2 = text? t.2 := by
  have hq : t.2.isSearch = false := by simp [Ed.isSearch, hs.1, hs.2]
  refine wp_ok (a := true) (s' := t') (R := fun _ _ => True) (P := fun _ => True)
    (Q := fun d t' => d = true → text? t'.2 = text? t.2) ?_ h rfl
  unfold KeyMap.handleKey
  rw [wp_bind, wp_ed, wp_curBuf]
  refine ⟨fun b _ => ?_, fun _ => trivial⟩
  rw [wp_bind]
  have : km.dispatch E comp b.isEmpty (KeyMap.translate (.char '\n')) t =
    KM.ed (handleNewline E) t := dispatch_newline km E comp t
  rw [wp_congr this, wp_ed]
  refine wp_mono (newline_text hq)
    (fun d t1 h1 => ?_) (fun _ _ h => h) (fun _ h => h)
  rw [wp_bind, wp_ed, wp_flush]
  exact ⟨fun _ => h1, fun _ => trivial⟩

end

/-- C45: the Emacs keys start on the initial buffer with the cursor at its end. -/
theorem C45_start_emacs (E : Env) (p p' : Prompt) (h : History) (fs : FS) (b : Buffer) (k : Emacs)
    (t : Emacs × Ed) (hr : session Emacs.keyMap E p [] (k, initial p' h fs b) = .ok () t) :
    At t.2 b.data [] := by
  refine wp_ok (a := ()) (s' := t) (R := fun _ _ => True) (P := fun _ => True)
    (Q := fun _ t => At t.2 b.data []) ?_ hr
  unfold session press
  rw [wp_bind, wp_ed]
  refine wp_mono (start_sets E p p' h fs b trivial) (fun _ s1 h1 => ?_) (fun _ _ h => h) (fun _ _ => trivial)
  have := h1.here.here
  rw [rest_false] at this
  exact this

/-- C45: so do the vi keys, in insert mode. -/
theorem C45_start_vi (E : Env) (p p' : Prompt) (h : History) (fs : FS) (b : Buffer)
    (t : Vi × Ed) (hr : session Vi.keyMap E p [] ({}, initial p' h fs b) = .ok () t) :
    At t.2 b.data [] ∧ t.1.mode = .insert := by
  refine wp_ok (a := ()) (s' := t) (R := fun _ _ => True) (P := fun _ => True)
    (Q := fun _ t => At t.2 b.data [] ∧ t.1.mode = .insert) ?_ hr
  unfold session press
  rw [wp_bind, wp_ed]
  refine wp_mono (start_sets E p p' h fs b trivial) (fun _ s1 h1 => ?_) (fun _ _ h => h) (fun _ _ => trivial)
  have h2 := h1.here
  rw [rest_false] at h2
  rw [wp_bind]
  show Wp (Vi.init E) _ _ _ _
  unfold Vi.init Vi.setEditorMode Vi.onBuf
  rw [wp_bind, wp_ed]
  refine wp_mono (wp_edit_open (Q := fun _ s2 => Open false s2 b.data []) (R := fun _ _ => True) h2
    (fun b' hb => ⟨(), _, rfl, h2.set' (by simpa [Buffer.startUndoGroup] using hb) h2.here.2⟩))
    (fun _ s2 h3 => ?_) (fun _ _ h => h) (fun _ _ => trivial)
  rw [wp_bind, wp_getK]
  show Wp (do KM.ed (setViMode .insert); KM.ed (display E) : KM Vi Unit) _ _ _ _
  rw [wp_bind, wp_ed]
  unfold setViMode
  rw [wp_modify, wp_ed]
  refine wp_mono (display_sets E (s0 := _) (l := b.data) (r := []) (e := false) ?_ (Side.refl _))
    (fun _ s3 h4 => ?_) (fun _ _ h => h) (fun _ _ => trivial)
  · split <;> exact ⟨h3.quiet, h3.ne, trivial, h3.here⟩
  · have := h4.here.here
    rw [rest_false] at this
    exact ⟨this, rfl⟩

example : okAnd (Emacs.keyMap.readLine Tests.env { prompt := ['>', ' '] }
    (typed ((chars "bc" ++ [Key.left, .char 'x', .char '\n', .char 'y']).map plain))
    ({}, fresh [] "a")) (fun txt _ => txt == "abxc".toList) = true := by decide +kernel

example : okAnd (Vi.keyMap.readLine Tests.env { prompt := ['>', ' '] }
    (typed ((chars "bc" ++ [Key.esc, .char 'x']).map plain))
    ({}, fresh [] "a")) (fun txt _ => txt == "ab".toList) = true := by decide +kernel

end Liner.Props
