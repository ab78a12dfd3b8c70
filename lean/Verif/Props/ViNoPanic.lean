import Verif.Proof.ViFits
import Verif.Proof.Errs
import Verif.Props.NoPanic
import Verif.Props.ViEnds
/-
Reading a line with the vi keys does not abort: C57.
-/

namespace Liner.Props
open Liner Liner.Spec Liner.Editor Liner.Wit Liner.Tests

/-- A key of the input. -/
def given (x : Key × (Text → List Text)) : KeyMap.Input := .key x.1 x.2

/-- C57: reading a line with the vi keys, from any prompt, history, files, terminal and buffer, panics at most while the
line is drawn and where the code unwraps an I/O error, as long as the history is not shared, the terminal has a width and
every key is calm in the state in which it is typed. -/
theorem C57_safe_partial (E : Env) (p p' : Prompt) (h : History) (fs : FS) (d : Text) (b : Buffer) (hb : Reach d b)
    (hs : h.share = false) (hw : E.ttyWidth ≠ some 0)
    (hd : ∀ b, Separated (E.words b) ∧ ∀ w ∈ E.words b, w.2 ≤ b.data.length) (input : List KeyMap.Input)
    (hc : ∀ pre k c post t, input = pre.map given ++ .key k c :: post →
      session Vi.keyMap E p pre ({}, initial p' h fs b) = .ok () t → Calm E t (KeyMap.translate k)) (site : Site)
    (hp : Vi.keyMap.readLine E p input ({}, initial p' h fs b) = .panic site) :
    site = .redraw ∨ site = .rows ∨ site = .ioUnwrap := by
  have h1 := Vi.readLine_careful (h := ⟨h, false, true⟩) (E := E) hs hd (.inl rfl) hw p p' fs ⟨d, reach_inv hb⟩ input (fun h => by cases h)
    (fun t ht => Vi.careful_of E p _ input [] t ht fun mid k c post t' he hs' => hc mid k c post t' he hs')
  rw [Wp, hp] at h1
  rcases h1 with h1 | h1 | h1
  · exact .inr (.inl h1)
  · exact .inl h1.1
  · exact .inr (.inr h1.1)

/-- C57: if moreover no key starts a search, every history entry is of ASCII characters or of one line, no text is wider
when cut and the terminal works, then it does not panic, unless the cursor is more than 65535 rows below the prompt. -/
theorem C57_safe_draws_partial (E : Env) (p p' : Prompt) (h : History) (fs : FS) (d : Text) (b : Buffer) (hb : Reach d b)
    (hs : h.share = false) (hw : E.ttyWidth ≠ some 0)
    (hd : ∀ b, Separated (E.words b) ∧ ∀ w ∈ E.words b, w.2 ≤ b.data.length)
    (hsw : ∀ a b, E.sw a ≤ E.sw (a ++ b)) (hh : ∀ e ∈ texts h, Ascii e ∨ '\n' ∉ e)
    (hio : (∀ n, E.writeOk n = true) ∧ ∀ n, (E.termSize n).isSome = true) (input : List KeyMap.Input)
    (hk : ∀ k c, KeyMap.Input.key k c ∈ input → k ≠ .ctrl 'r' ∧ k ≠ .ctrl 's')
    (hc : ∀ pre k c post t, input = pre.map given ++ .key k c :: post →
      session Vi.keyMap E p pre ({}, initial p' h fs b) = .ok () t → Calm E t (KeyMap.translate k)) (site : Site)
    (hp : Vi.keyMap.readLine E p input ({}, initial p' h fs b) = .panic site) : site = .rows := by
  have := draws false hsw hh
  have hdisp : ∀ s e s', display E s ≠ .err e s' := fun s e s' he =>
    (errs_display (A := fun _ => False) (.inl ⟨hio.2, hio.1⟩)).only s e s' he
  have h1 := Vi.readLine_careful (h := ⟨h, true, false⟩) (E := E) hs hd (.inr hdisp) hw p p' fs ⟨d, reach_inv hb⟩ input (fun _ => hk)
    (fun t ht => Vi.careful_of E p _ input [] t ht fun mid k c post t' he hs' => hc mid k c post t' he hs')
  rw [Wp, hp] at h1
  rcases h1 with h1 | h1 | h1
  · exact h1
  · cases h1.2
  · cases h1.2

/-- C57, what `.` may repeat: insertions, changes of one character, `D` and `C`, and the operator `d` with a motion, on a
line that is not empty if the motion is one that reaches for a character. -/
theorem C57_repeats (E : Env) (p p' : Prompt) (h : History) (fs : FS) (b : Buffer) (keys : List (Key × (Text → List Text))) (t : Vi × Ed)
    (hs : session Vi.keyMap E p keys (({} : Vi), initial p' h fs b) = .ok () t) (hm : t.1.mode = .normal)
    (hr : (∃ c ∈ ['i', 'a', 'A', 'I', 's'], t.1.lastInsert = some (.char c)) ∨
      (t.1.lastInsert = none ∧
        ((∃ k, t.1.lastCommand = [k] ∧ k ≠ .char '.') ∨ (∃ k, t.1.lastCommand = [.char 'r', k]) ∨ (∃ ks, t.1.lastCommand = .char 'C' :: ks) ∨
        (∃ k, t.1.lastCommand = [.char 'd', k] ∧ k ≠ .home ∧ k ≠ .end ∧ (text? t.2 = some [] → k ∉ reaching)) ∨
        (∃ c k, t.1.lastCommand = [.char 'd', .char c, k] ∧ c ∈ ['f', 'F', 't', 'T', 'g'] ∧ text? t.2 ≠ some [])))) :
    AllFit E (recorded t.1) (repeating t.1, t.2) := by
  have hi := inv_reached hs
  have hb : Vi.Inv (repeating t.1, t.2) := Vi.inv_begin hi _
  have hst := hi.1.nil hm
  have hm' : (repeating t.1).mode = .normal := Vi.mode_nil hst
  have hpl := hi.1.esc.last
  unfold recorded
  rcases hr with ⟨c, hc, hr⟩ | ⟨h0, hr⟩
  · rw [hr]
    exact Vi.fits_insertion (t := (repeating t.1, t.2)) (by simp at hc ⊢; tauto) hb.1 hm' _ hpl
  · rw [h0]
    rcases hr with ⟨k, hr, hk⟩ | ⟨k, hr⟩ | ⟨ks, hr⟩ | ⟨k, hr, h1, h2, h3⟩ | ⟨c, k, hr, h1, h2⟩
    · rw [hr]; exact Vi.fits_one (t := (repeating t.1, t.2)) hk hm'
    · rw [hr]; exact Vi.fits_replace (t := (repeating t.1, t.2)) hm'
    · rw [hr] at hpl ⊢
      exact Vi.fits_insertion (t := (repeating t.1, t.2)) (by simp) hb.1 hm' _ fun k hk => hpl k (List.mem_cons_of_mem _ hk)
    · rw [hr]; exact Vi.fits_d (t := (repeating t.1, t.2)) hm' ⟨h1, h2⟩ h3
    · rw [hr]; exact Vi.fits_d2 (t := (repeating t.1, t.2)) hm' h1 h2

/-! ### The conditions are needed -/

/-- C57 fails when an operator meets a motion that reaches for a character on an empty line. -/
theorem C57_empty_violation : vi [] ([.esc] ++ chars "dfx") = .panic .op ∧ vi [] ([.esc] ++ chars "dge") = .panic .op :=
  ⟨of_panics (by decide +kernel), of_panics (by decide +kernel)⟩

/-- It fails when End is typed after an operator: the operator stays pending with the cursor after the last character. -/
theorem C57_edge_violation : vi [] ([.esc] ++ chars "d" ++ [.end] ++ chars "fx") "abx" = .panic .op := of_panics (by decide +kernel)

/-- It fails when a search is started while an operator is pending on a history entry: the search goes back to the line
typed, which is shorter. -/
theorem C57_wait_violation : vi ["cccc", "a"] ([.up, .up, .esc] ++ chars "$d" ++ [.ctrl 'r', .char 'h']) = .panic .op :=
  of_panics (by decide +kernel)

/-- It fails when Right is typed in normal mode on a history entry that is empty. -/
theorem C57_right_violation : vi [""] [.esc, .char 'k', .right] = .panic .op := of_panics (by decide +kernel)

/-- It fails when a repetition meets a line that its command has emptied. -/
theorem C57_repeat_violation : vi [] ([.esc] ++ chars "0dfb.") "ab" = .panic .op := of_panics (by decide +kernel)

/-- It fails when the terminal fails at the end of `~`. -/
theorem C57_tilde_violation : vi [] ([.esc] ++ chars "~") "ab" { env with writeOk := fun t => t != 105 } = .panic .ioUnwrap :=
  of_panics (by decide +kernel)

/-! ### A case -/

/-- A test for the condition on a key. -/
def fitTest (t : Vi × Ed) (k : Key) : Bool :=
  match t.1.mode with
  | .delete _ => k != .home && k != .end && (text? t.2 != some [] || !reaching.contains k)
  | _ => true

def allFitTest (E : Env) : List Key → Vi × Ed → Bool
  | [], _ => true
  | k :: ks, t => fitTest t k && !(t.1.mode == .normal && k == .char '.') &&
      match Vi.handleKeyCore E k t with
      | .ok _ t' => allFitTest E ks t'
      | _ => true

def calmTest (E : Env) (t : Vi × Ed) (k : Key) : Bool :=
  fitTest t k && (!(t.1.modeStack.any fun m => match m with | .delete _ => true | _ => false) || (!swapping.contains k && k != .right)) &&
    (!(t.1.mode == .normal && k == .right && t.2.autosuggestion.isSome) || text? t.2 != some []) &&
    (!(t.1.mode == .normal && k == .char '.') || allFitTest E (recorded t.1) (repeating t.1, t.2))

def calmRun (E : Env) : List (Key × (Text → List Text)) → Vi × Ed → Bool
  | [], _ => true
  | x :: ks, t => calmTest E t (KeyMap.translate x.1) &&
      match Vi.keyMap.handleKey E x.2 x.1 t with
      | .ok _ t' => calmRun E ks t'
      | _ => true

theorem of_fitTest {t : Vi × Ed} {k : Key} (h : fitTest t k = true) : Fit t k := by
  unfold fitTest at h
  split at h
  · rename_i p hp
    simp only [Bool.and_eq_true, bne_iff_ne, ne_eq, Bool.or_eq_true, Bool.not_eq_true', List.contains_eq_mem, decide_eq_false_iff_not] at h
    exact ⟨fun _ _ => h.1, fun _ _ hx => h.2.resolve_left (fun hy => hy hx)⟩
  · rename_i hp
    exact ⟨fun p hx => absurd hx (hp p), fun p hx => absurd hx (hp p)⟩

theorem of_allFitTest {E : Env} : ∀ {ks : List Key} {t : Vi × Ed}, allFitTest E ks t = true → AllFit E ks t
  | [], _, _ => trivial
  | k :: ks, t, h => by
    unfold allFitTest at h
    simp only [Bool.and_eq_true] at h
    refine ⟨of_fitTest h.1.1, fun hx => ?_, fun t' ht' => ?_⟩
    · rw [hx.1, hx.2] at h; exact absurd h.1.2 (by simp)
    · have := h.2
      rw [ht'] at this
      exact of_allFitTest this

theorem of_calmTest {E : Env} {t : Vi × Ed} {k : Key} (h : calmTest E t k = true) : Calm E t k := by
  unfold calmTest at h
  simp only [Bool.and_eq_true] at h
  obtain ⟨⟨⟨h1, h2⟩, h3⟩, h4⟩ := h
  refine ⟨of_fitTest h1, fun p hp => ?_, fun hm hk ha => ?_, fun hm hk => ?_⟩
  · have : (t.1.modeStack.any fun m => match m with | .delete _ => true | _ => false) = true := List.any_eq_true.mpr ⟨_, hp, rfl⟩
    rw [this] at h2
    simp only [Bool.not_true, Bool.false_or, Bool.and_eq_true, Bool.not_eq_true', List.contains_eq_mem, decide_eq_false_iff_not, bne_iff_ne, ne_eq] at h2
    exact ⟨h2.1, fun hx => h2.2 hx.1⟩
  · rw [hm, hk, ha] at h3
    simpa using h3
  · rw [hm, hk] at h4
    exact of_allFitTest (by simpa using h4)

theorem of_calmRun {E : Env} : ∀ {keys : List (Key × (Text → List Text))} {t : Vi × Ed}, calmRun E keys t = true →
    ∀ pre x post t', keys = pre ++ x :: post → press Vi.keyMap E pre t = .ok () t' → Calm E t' (KeyMap.translate x.1)
  | [], _, _, pre, x, post, _, he, _ => by cases pre <;> cases he
  | y :: ks, t, h, [], x, post, t', he, hp => by
    cases he
    cases hp
    unfold calmRun at h
    simp only [Bool.and_eq_true] at h
    exact of_calmTest h.1
  | y :: ks, t, h, z :: pre, x, post, t', he, hp => by
    cases he
    unfold calmRun at h
    simp only [Bool.and_eq_true] at h
    have hp' : M.bind (Vi.keyMap.handleKey E y.2 y.1) (fun _ => press Vi.keyMap E pre) t = .ok () t' := hp
    unfold M.bind at hp'
    split at hp'
    · rename_i a t1 ht1
      have h2 := h.2
      rw [ht1] at h2
      exact of_calmRun h2 pre x post t' rfl hp'
    · cases hp'
    · cases hp'

theorem press_of_session {E : Env} {p : Prompt} {pre : List (Key × (Text → List Text))} {t t' : Vi × Ed}
    (h : session Vi.keyMap E p pre t = .ok () t') : ∃ t1, session Vi.keyMap E p [] t = .ok () t1 ∧ press Vi.keyMap E pre t1 = .ok () t' := by
  have h' : M.bind (KM.ed (start E p)) (fun _ => M.bind (Vi.keyMap.init E) (fun _ => press Vi.keyMap E pre)) t = .ok () t' := h
  have e : session Vi.keyMap E p [] t = M.bind (KM.ed (start E p)) (fun _ => M.bind (Vi.keyMap.init E) (fun _ => M.pure ())) t := rfl
  rw [e]
  unfold M.bind at h' ⊢
  split at h'
  · dsimp only at h' ⊢
    split at h'
    · exact ⟨_, rfl, h'⟩
    · cases h'
    · cases h'
  · cases h'
  · cases h'

/-- The keys of the case: they insert with a count, delete and change with motions, repeat, and go through the history. -/
def someKeys : List (Key × (Text → List Text)) :=
  (chars "x y" ++ [Key.esc] ++ chars "0dw.cwq" ++ [Key.esc] ++ chars "u3ifo" ++ [Key.esc] ++ chars ".kj0dfo.A!" ++
    [Key.esc, Key.char '.', Key.char '~', Key.char 'r', Key.char 'Z', Key.char '\n']).map plain

/-- The state of the case, on a narrow terminal. -/
def someStart : Vi × Ed :=
  ({}, initial { prompt := ['$', ' '] } (hist ["é b", "a\nb"]) noFiles (.ofText ['é', ' ', 'b', 'c']))

/-- The keys are calm there; the other hypotheses of `C57_safe_draws_partial` are as in the example for C61. -/
example : (∀ pre k c post t, someKeys.map given = pre.map given ++ .key k c :: post →
      session Vi.keyMap (columns 9) { prompt := ['$', ' '] } pre someStart = .ok () t → Calm (columns 9) t (KeyMap.translate k)) ∧
    okAnd (Vi.keyMap.readLine (columns 9) { prompt := ['$', ' '] } (someKeys.map given) someStart)
      (fun t _ => t == ['f', 'f', 'o', 'f', 'o', 'f', 'o', 'o', 'y', '!', 'Z']) = true := by
  refine ⟨fun pre k c post t he hs => ?_, by decide +kernel⟩
  obtain ⟨t1, h1, h2⟩ := press_of_session hs
  have hrun : okAnd (session Vi.keyMap (columns 9) { prompt := ['$', ' '] } [] someStart) (fun _ t => calmRun (columns 9) someKeys t) = true := by
    decide +kernel
  obtain ⟨_, t2, h3, h4⟩ := of_okAnd hrun
  obtain rfl : t1 = t2 := by
    rw [h1] at h3
    cases h3
    rfl
  obtain ⟨l1, l2, e1, e2, e3⟩ := List.map_eq_append_iff.mp he
  obtain ⟨x, l3, e4, e5, e6⟩ := List.map_eq_cons_iff.mp e3
  have hinj : Function.Injective given := by
    rintro ⟨a, b⟩ ⟨c, d⟩ h
    simp only [given, KeyMap.Input.key.injEq] at h
    rw [h.1, h.2]
  obtain rfl := hinj.list_map e2
  cases e5
  exact of_calmRun h4 l1 x l3 t (by rw [e1, e4]) h2

end Liner.Props
