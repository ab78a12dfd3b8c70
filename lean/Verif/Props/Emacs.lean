import Verif.Props.Keys
import Verif.Props.Complete
import Verif.Spec.Emacs
/-
Properties of the Emacs keys: C46, C47, C48.
-/

namespace Liner.Props
open Liner Liner.Spec Liner.Editor Liner.Wit

/-! ### C46 -/

section
variable (E : Env) (comp : Text → List Text)

/-- Outside a search, with the cursor between `l` and `r`, and a suggestion shown if any. -/
structure Ready (s : Ed) (l r : Text) : Prop where
  here : Open false s l r
  show' : s.showAutosuggestions = true
  sug : ∀ x, s.autosuggestion = some x → l ++ r <+: x.data

variable {s0 s : Ed} {l r : Text} {k : Emacs}

/-- What a key does to the state, `handle_key_core` of which is `m`. -/
theorem core_step {m : EdM Unit} {key : Key} {l' r' : Text} (ha : key ≠ .alt '.')
    (hk : Emacs.handleKeyBody E key = KM.ed m) (hm : Yields m false s s l' r') :
    Wp (toCore Emacs.keyMap E key) (k, s) (fun done t' => done = false ∧
      ∃ s', Settled false s s' l' r' ∧ t'.2 = { s' with showCompletionsHint := none })
      (fun _ _ => True) (· ≠ .op) := by
  unfold toCore
  rw [wp_bind]
  show Wp (Emacs.handleKeyCore E key) _ _ _ _
  unfold Emacs.handleKeyCore
  rw [if_neg ha, wp_bind, wp_modK, hk, wp_ed]
  refine wp_mono hm (fun _ s' h' => ?_) (fun _ _ h => h) (fun _ h => h)
  rw [wp_bind, wp_ed, skipCompletionsHint, wp_modify, wp_pure]
  exact ⟨rfl, s', h', rfl⟩

/-- The result of an editing key. -/
abbrev Edits (key : Key) (k : Emacs) (s : Ed) (l r : Text) : Prop :=
  Wp (Emacs.keyMap.handleKey E comp key) (k, s) (fun done t' => done = false ∧
    ∃ s', Settled false s s' l r ∧ ∃ c n, t'.2 = { s' with showCompletionsHint := c, tick := n })
    (fun _ _ => True) (· ≠ .op)

theorem edits_of (h : Ready s l r) {key : Key} {l' r' : Text}
    (hm : ∀ b : Buffer, b.data = l ++ r →
      Wp (Emacs.keyMap.dispatch E comp b.isEmpty (KeyMap.translate key)) (k, s)
      (fun done t' => done = false ∧ ∃ s', Settled false s s' l' r' ∧
        ∃ c, t'.2 = { s' with showCompletionsHint := c }) (fun _ _ => True) (· ≠ .op)) :
    Edits E comp key k s l' r' := by
  obtain ⟨b, hb, hbd⟩ := text?_eq.mp h.here.here.1
  unfold Edits
  rw [wp_congr (handleKey_eq Emacs.keyMap E comp (t := (k, s)) hb key), wp_bind]
  refine wp_mono (hm b hbd) (fun done t1 h1 => ?_) (fun _ _ h => h) (fun _ h => h)
  obtain ⟨rfl, s', h2, c, h3⟩ := h1
  rw [wp_bind, wp_ed, wp_flush]
  exact ⟨fun _ => ⟨rfl, s', h2, c, _, by rw [h3]⟩, fun _ => trivial⟩

/-- A key that goes to the key map. -/
theorem edits_core (h : Ready s l r) {key : Key} {m : EdM Unit} {l' r' : Text}
    (h1 : KeyMap.translate key ∉ [.ctrl 'c', .char '\t', .char '\n', .ctrl 'r', .ctrl 's', .alt '.'])
    (h2 : ¬ (KeyMap.translate key = .ctrl 'd' ∧ l ++ r = []))
    (h3 : s.autosuggestion.isSome = true →
      KeyMap.translate key ≠ .ctrl 'f' ∧ KeyMap.translate key ≠ .right)
    (hk : Emacs.handleKeyBody E (KeyMap.translate key) = KM.ed m)
    (hm : Yields m false s s l' r') : Edits E comp key k s l' r' := by
  refine edits_of E comp h fun b hb => ?_
  simp only [List.mem_cons, List.not_mem_nil, or_false, not_or] at h1
  obtain ⟨h4, h5, h6, h7, h8, h9⟩ := h1
  rw [wp_congr (dispatch_core Emacs.keyMap E comp (k, s) h4
    (fun h => h2 ⟨h.1, by simpa [Buffer.isEmpty, hb] using h.2⟩) h5 h6 (fun h => (h3 h.2).1 h.1) h7 h8
    (fun h => (h3 h.2).2 h.1))]
  refine wp_mono (core_step E h9 hk hm) (fun done t' h => ?_) (fun _ _ h => h) (fun _ h => h)
  obtain ⟨rfl, s', h10, h11⟩ := h
  exact ⟨rfl, s', h10, none, h11⟩

/-- Accepting the suggestion. -/
theorem accept_step (h : Ready s l r) {x : Buffer} (hx : s.autosuggestion = some x) :
    Wp (do KM.ed (acceptAutosuggestion E); pure false : KM Emacs Bool) (k, s)
      (fun done t' => done = false ∧ ∃ s', Settled false s s' x.data [] ∧
        ∃ c, t'.2 = { s' with showCompletionsHint := c }) (fun _ _ => True) (· ≠ .op) := by
  rw [wp_bind, wp_ed]
  exact wp_mono (accept_sets E h.here (Side.refl _) h.show' hx (h.sug x hx))
    (fun _ s' h' => ⟨rfl, s', h', s'.showCompletionsHint, rfl⟩) (fun _ _ h => h) (fun _ h => h)

theorem translate_ne {key : Key} (h : key ≠ .ctrl 'h') : KeyMap.translate key = key := by
  simp [KeyMap.translate, h]

theorem go_left (l r : Text) : goLeft (l, r) = (l.take (l.length - 1), l.drop (l.length - 1) ++ r) := by
  rcases List.eq_nil_or_concat l with rfl | ⟨l', c, rfl⟩
  · rfl
  · simp [goLeft]

theorem go_right (l r : Text) : goRight (l, r) = (l ++ r.take 1, r.drop 1) := by
  cases r <;> rfl

theorem backspace_sets (h : Open false s l r) :
    Yields (deleteBeforeCursor E) false s s l.dropLast r := by
  rcases List.eq_nil_or_concat l with rfl | ⟨l', c, rfl⟩
  · exact deleteBefore_start_sets E (Side.refl _) h
  · simpa using deleteBefore_sets E (Side.refl _) (l := l') (c := c) (by simpa using h)

theorem delete_sets (h : Open false s l r) : Yields (deleteAfterCursor E) false s s l r.tail := by
  cases r with
  | nil => exact deleteAfter_end_sets E (Side.refl _) h
  | cons c r => exact deleteAfter_sets E (Side.refl _) h

/-- What `handle_key` does with an editing key. -/
theorem edit_step (h : Ready s l r) {key : Key} (hk : editing key = true)
    (hd : ¬ (key = .ctrl 'd' ∧ l ++ r = [])) :
    Edits E comp key k s (edit (s.autosuggestion.map (·.data)) key (l, r)).1
      (edit (s.autosuggestion.map (·.data)) key (l, r)).2 := by
  have hR := Side.refl s
  have move : ∀ {key : Key}, key ≠ .ctrl 'h' →
      key ∉ [Key.ctrl 'c', .char '\t', .char '\n', .ctrl 'r', .ctrl 's', .alt '.'] →
      ¬ (key = .ctrl 'd' ∧ l ++ r = []) →
      (s.autosuggestion.isSome = true → key ≠ .ctrl 'f' ∧ key ≠ .right) →
      ∀ {m : EdM Unit} {l' r' : Text}, Emacs.handleKeyBody E key = KM.ed m →
      Yields m false s s l' r' → Edits E comp key k s l' r' := by
    intro key h0 h1 h2 h3 m l' r' h4 h5
    have ht := translate_ne h0
    exact edits_core E comp h (by rwa [ht]) (by rwa [ht]) (by rwa [ht]) (by rwa [ht]) h5
  cases key with
  | char c =>
    simp only [editing, Bool.and_eq_true, bne_iff_ne, ne_eq] at hk
    exact move (by simp) (by simp [hk]) (by simp) (by simp) rfl (insert_sets E h.here hR [c])
  | left =>
    simp only [edit, go_left]
    exact move (by simp) (by simp) (by simp) (by simp) rfl (left_sets E h.here hR 1)
  | right =>
    cases hs : s.autosuggestion with
    | none =>
      simp only [edit, Option.map_none, go_right]
      exact move (by simp) (by simp) (by simp) (by simp [hs]) rfl (right_sets E h.here hR 1)
    | some x =>
      refine edits_of E comp h fun b hb => ?_
      obtain ⟨b', hb', hbd⟩ := text?_eq.mp h.here.here.1
      rw [translate_ne (by simp),
        wp_congr (dispatch_right Emacs.keyMap E comp (k, s) (by rw [hs]; rfl)), wp_bind, wp_ed]
      simp only [cursorIsAtEndOfLine, wp_bind, wp_curBuf, wp_get]
      refine ⟨fun b1 hb1 => ?_, fun hn => ?_⟩
      · rw [hb'] at hb1; cases hb1
        rw [if_neg (by rw [h.here.ne]; simp), wp_pure]
        have hc : s.cursor = b'.numChars ↔ r = [] := by
          rw [h.here.here.2, Buffer.numChars, hbd, List.length_append]
          cases r <;> simp
        simp only [hc, edit, Option.map_some, decide_eq_true_eq]
        by_cases hr : r = []
        · rw [if_pos hr, if_pos hr]
          exact accept_step E h hs
        · rw [if_neg hr, if_neg hr, go_right]
          refine wp_mono (core_step E (by simp) rfl (right_sets E h.here hR 1))
            (fun done t' h => ?_) (fun _ _ h => h) (fun _ h => h)
          obtain ⟨rfl, s', h10, h11⟩ := h
          exact ⟨rfl, s', h10, none, h11⟩
      · rw [show s.curBuf? = none from hn] at hb'; cases hb'
  | home => exact move (by simp) (by simp) (by simp) (by simp) rfl (home_sets E h.here hR)
  | «end» => exact move (by simp) (by simp) (by simp) (by simp) rfl (end_sets E h.here hR)
  | backspace => exact move (by simp) (by simp) (by simp) (by simp) rfl (backspace_sets E h.here)
  | delete => exact move (by simp) (by simp) (by simp) (by simp) rfl (delete_sets E h.here)
  | ctrl c =>
    simp only [editing, List.mem_cons, List.not_mem_nil, or_false, decide_eq_true_eq] at hk
    rcases hk with rfl | rfl | rfl | rfl | rfl | rfl | rfl | rfl
    · exact move (by simp) (by simp) (by simp) (by simp) rfl (home_sets E h.here hR)
    · exact move (by simp) (by simp) (by simp) (by simp) rfl (end_sets E h.here hR)
    · simp only [edit, go_left]
      exact move (by simp) (by simp) (by simp) (by simp) rfl (left_sets E h.here hR 1)
    · cases hs : s.autosuggestion with
      | none =>
        simp only [edit, Option.map_none, go_right]
        exact move (by simp) (by simp) (by simp) (by simp [hs]) rfl (right_sets E h.here hR 1)
      | some x =>
        refine edits_of E comp h fun b hb => ?_
        rw [translate_ne (by simp),
          wp_congr (dispatch_ctrlF Emacs.keyMap E comp (k, s) (by rw [hs]; rfl))]
        exact accept_step E h hs
    · exact move (by simp) (by simp) hd (by simp) rfl (delete_sets E h.here)
    · exact edits_core E comp h (by simp [KeyMap.translate]) (by simp [KeyMap.translate])
        (by simp [KeyMap.translate]) rfl (backspace_sets E h.here)
    · exact move (by simp) (by simp) (by simp) (by simp) rfl (deleteAllBefore_sets E h.here hR)
    · exact move (by simp) (by simp) (by simp) (by simp) rfl (deleteAllAfter_sets E h.here hR)
  | _ => cases hk

end

/-- C46: an editing key after any keys, outside a search, does to the line and the cursor what it does
to a pair of texts.  It never panics, except possibly in the redraw (C42). -/
theorem C46_step (E : Env) (p p' : Prompt) (h : History) (fs : FS) (b : Buffer)
    (keys : List (Key × (Text → List Text))) (k k' : Emacs) (s : Ed)
    (hs : session Emacs.keyMap E p keys (k, initial p' h fs b) = .ok () (k', s))
    (hn : ¬ s.reverseSearch ∧ ¬ s.forwardSearch) {l r : Text} (ha : At s l r)
    (comp : Text → List Text) {key : Key} (hk : editing key = true)
    (hd : ¬ (key = .ctrl 'd' ∧ l ++ r = [])) :
    (∀ done t', Emacs.keyMap.handleKey E comp key (k', s) = .ok done t' → done = false ∧
      (¬ t'.2.reverseSearch ∧ ¬ t'.2.forwardSearch) ∧
      At t'.2 (edit (s.autosuggestion.map (·.data)) key (l, r)).1
        (edit (s.autosuggestion.map (·.data)) key (l, r)).2) ∧
    Emacs.keyMap.handleKey E comp key (k', s) ≠ .panic .op := by
  have hk' := atKey_emacs hs
  have hq : s.isSearch = false := by simp [Ed.isSearch, hn.1, hn.2]
  have he : s.noEol = false := (wp_ok ((sets_kept E .emacs).usesK (uses_session Emacs.keyMap E
    (Emacs.uses_init E) p keys (fun k _ => Emacs.uses_core E _)) _ trivial) hs).2.noEol rfl
  have hr : Ready s l r := by
    refine ⟨⟨hq, he, trivial, ha⟩, hk'.show', fun x hx => ?_⟩
    obtain ⟨b1, hb1, hp⟩ := hk'.tied.sug.pre hq x hx
    obtain ⟨b2, hb2, hd2⟩ := text?_eq.mp ha.1
    rw [hb1] at hb2; cases hb2
    rwa [hd2] at hp
  have := edit_step E comp (k := k') hr hk hd
  refine ⟨fun done t' ht => ?_, fun hp => wp_panic' this hp rfl⟩
  obtain ⟨h1, s', h2, c, n, h3⟩ := (wp_ok this ht :)
  have h4 := h2.here
  rw [rest_false] at h4
  refine ⟨h1, ?_, by rw [h3]; exact h4.here⟩
  have := h4.quiet
  simp only [Ed.isSearch, Bool.or_eq_false_iff] at this
  rw [h3]
  simp [this.1, this.2]

theorem hint_of {entries : List Text} {t : Text} {o : Option Text} (h : Suggests entries t o) :
    o = hint entries t := by
  unfold hint
  cases o with
  | some x =>
    obtain ⟨ht, older, newer, rfl, hx, hy⟩ := h
    rw [if_neg ht]
    simp only [List.reverse_append, List.reverse_cons, List.append_assoc,
      List.find?_append, List.cons_append, List.nil_append]
    rw [List.find?_eq_none.mpr, Option.none_or, List.find?_cons_of_pos]
    · simp [List.isPrefixOf_iff_prefix, hx.1, hx.2]
    · intro y hy'
      have := hy y (List.mem_reverse.mp hy')
      simpa [List.isPrefixOf_iff_prefix] using this
  | none =>
    split
    · rfl
    · rename_i ht
      refine (List.find?_eq_none.mpr fun y hy' => ?_).symm
      have := h.resolve_left ht y (List.mem_reverse.mp hy')
      simpa [List.isPrefixOf_iff_prefix] using this

/-- On the new line outside a search, after a redraw. -/
structure OnNew (H : History) (s : Ed) (l r : Text) : Prop where
  here : Open false s l r
  loc : s.curHistoryLoc = none
  valid : s.histBufValid = false
  show' : s.showAutosuggestions = true
  hist : s.history = H
  sug : sugOf s = some s.autosuggestion

theorem OnNew.suggests {H : History} {s : Ed} {l r : Text} (h : OnNew H s l r) :
    Suggests (texts H) (l ++ r) (s.autosuggestion.map (·.data)) := by
  have hb : s.newBuf.data = l ++ r := by
    have := h.here.here.1
    simpa [text?, Ed.curBuf?, h.loc] using this
  rw [← hb, ← h.hist]
  apply suggests_of
  have := h.sug
  unfold sugOf at this
  simp only [h.valid, h.here.quiet, h.show', h.loc, Bool.false_eq_true, if_false, if_true] at this
  cases hm : s.history.getNewestMatch (some s.history.buffers.length) s.newBuf with
  | none => rw [hm] at this; simpa using this.symm
  | some i =>
    rw [hm] at this
    simp only [Option.bind_some] at this ⊢
    cases hi : s.history.buffers[i]? with
    | none => rw [hi] at this; cases this
    | some x => rw [hi] at this; exact (Option.some.inj this).symm

theorem OnNew.ready {H : History} {s : Ed} {l r : Text} (h : OnNew H s l r) : Ready s l r := by
  refine ⟨h.here, h.show', fun x hx => ?_⟩
  have := h.suggests
  rw [hx] at this
  obtain ⟨-, _, _, _, hp, -⟩ := this
  exact hp.1

theorem OnNew.next {H : History} {s s' : Ed} {l r l' r' : Text} (h : OnNew H s l r)
    (h' : Settled false s s' l' r') (c : Option (List Text × Option Nat)) (n : Nat) :
    OnNew H { s' with showCompletionsHint := c, tick := n } l' r' := by
  have h1 := h'.here
  rw [rest_false] at h1
  exact ⟨⟨h1.quiet, h1.ne, trivial, h1.here⟩, h'.side.loc.trans h.loc,
    (h'.side.newValid h.loc).trans h.valid, h'.side.showSug.trans h.show',
    h'.side.history.trans h.hist, h'.sug⟩

/-- Ctrl-D is never pressed on an empty line. -/
def NoEof (entries : List Text) (keys : List Key) (t : Text × Text) : Prop :=
  ∀ a c, keys = a ++ .ctrl 'd' :: c → edits entries a t ≠ ([], [])

theorem press_edits (E : Env) {H : History} (keys : List (Key × (Text → List Text)))
    (hk : ∀ k ∈ keys, editing k.1 = true) (k : Emacs) (s : Ed) (l r : Text) (h : OnNew H s l r) :
    Wp (press Emacs.keyMap E keys) (k, s)
      (fun _ t' => At t'.2 (edits (texts H) (keys.map (·.1)) (l, r)).1
        (edits (texts H) (keys.map (·.1)) (l, r)).2)
      (fun e _ => NoEof (texts H) (keys.map (·.1)) (l, r) → e = .io ∧ ¬ Works E)
      (fun w => NoEof (texts H) (keys.map (·.1)) (l, r) → w ≠ .op) := by
  induction keys generalizing k s l r with
  | nil => exact h.here.here
  | cons x keys ih =>
    obtain ⟨key, comp⟩ := x
    unfold press
    rw [wp_bind]
    have ho := hint_of h.suggests
    have hnext : NoEof (texts H) (((key, comp) :: keys).map (·.1)) (l, r) →
        NoEof (texts H) (keys.map (·.1))
          (edit (hint (texts H) (l ++ r)) key (l, r)) := by
      intro hne a c hac
      have := hne (key :: a) c (by simp [hac])
      exact this
    by_cases hd : key = .ctrl 'd' ∧ l ++ r = []
    · have hne : ¬ NoEof (texts H) (((key, comp) :: keys).map (·.1)) (l, r) := by
        intro hne
        rw [List.append_eq_nil_iff] at hd
        refine hne [] (keys.map (·.1)) ?_ ?_
        · simp [hd.1]
        · simp [edits, hd.2.1, hd.2.2]
      have := C44_ctrl_d_empty_partial Emacs.keyMap E comp (k, s)
        (by rw [h.here.here.1, hd.2])
      unfold Wp
      obtain ⟨rfl, hd⟩ := hd
      cases hm : Emacs.keyMap.handleKey E comp (.ctrl 'd') (k, s) with
      | ok a s' => exact (this.1 _ _ hm).elim
      | err e s' => exact fun h => absurd h hne
      | panic w => exact fun h => absurd h hne
    · have h1 := edit_step E comp (k := k) h.ready (hk _ (List.mem_cons_self ..)) hd
      have h2 : Wp (Emacs.keyMap.handleKey E comp key) (k, s) (fun _ _ => True)
          (fun e _ => e = .io ∧ ¬ Works E) (fun _ => True) := by
        unfold Wp
        cases hm : Emacs.keyMap.handleKey E comp key (k, s) with
        | ok a s' => trivial
        | panic w => trivial
        | err e s' =>
          have hA : Io E (fun e => e = .io ∧ ¬ Works E) := by
            by_cases hw : Works E
            · exact .inl hw
            · exact .inr ⟨rfl, hw⟩
          rcases only_stops Emacs.keyMap E comp hA (fun key => errs_usesK (T := fun _ => False) hA
            (fun _ h => h.elim) (Emacs.uses_core E key)) hm with h | ⟨-, rfl⟩ | ⟨-, rfl, h'⟩
          · exact h
          · have := hk _ (List.mem_cons_self ..)
            cases this
          · refine absurd ⟨rfl, ?_⟩ hd
            have := h'.symm.trans h.here.here.1
            exact (Option.some.inj this).symm
      refine wp_mono (wp_and h1 h2) (fun _ t1 h3 => ?_) (fun _ _ h _ => h.2) (fun _ h _ => h.1)
      obtain ⟨⟨-, s', h4, c, n, h5⟩, -⟩ := h3
      rw [ho] at h4
      obtain ⟨k1, s1⟩ := t1
      cases h5
      refine wp_mono (ih (fun y hy => hk y (List.mem_cons_of_mem _ hy)) k1 _ _ _ (h.next h4 c n))
        (fun _ _ h => h) (fun _ _ h hne => h (hnext hne)) (fun _ h hne => h (hnext hne))

/-- C46: editing keys on a new line, from the creation of the editor.  The line and the cursor are what
the keys do to the pair of the initial text and the empty text, with the newest extension of the line
in the history as the suggestion.  As long as Ctrl-D is not pressed on an empty line and the terminal
works, nothing fails; the only possible panics are in the redraw (C42). -/
theorem C46_run (E : Env) (p p' : Prompt) (h : History) (fs : FS) (b : Buffer)
    (keys : List (Key × (Text → List Text))) (k : Emacs) (hk : ∀ k ∈ keys, editing k.1 = true) :
    (∀ t', session Emacs.keyMap E p keys (k, initial p' h fs b) = .ok () t' →
      At t'.2 (edits (texts h) (keys.map (·.1)) (b.data, [])).1
        (edits (texts h) (keys.map (·.1)) (b.data, [])).2) ∧
    (NoEof (texts h) (keys.map (·.1)) (b.data, []) → Works E → ∀ e t',
      session Emacs.keyMap E p keys (k, initial p' h fs b) ≠ .err e t') ∧
    (NoEof (texts h) (keys.map (·.1)) (b.data, []) → E.ttyWidth ≠ some 0 →
      session Emacs.keyMap E p keys (k, initial p' h fs b) ≠ .panic .op) := by
  have key : Wp (session Emacs.keyMap E p keys) (k, initial p' h fs b)
      (fun _ t' => At t'.2 (edits (texts h) (keys.map (·.1)) (b.data, [])).1
        (edits (texts h) (keys.map (·.1)) (b.data, [])).2)
      (fun _ _ => NoEof (texts h) (keys.map (·.1)) (b.data, []) → ¬ Works E)
      (fun w => NoEof (texts h) (keys.map (·.1)) (b.data, []) → w = .op → E.ttyWidth = some 0) := by
    unfold session
    rw [wp_bind, wp_ed]
    have he : Wp (start E p) (initial p' h fs b) (fun _ _ => True) (fun _ _ => ¬ Works E)
        (fun _ => True) := by
      by_cases hw : Works E
      · exact wp_mono ((errs_start (A := fun _ => False) (.inl hw) p).wp _) (fun _ _ h => h)
          (fun _ _ h => h.elim) (fun _ h => h)
      · exact wp_mono wp_trivial (fun _ _ h => h) (fun _ _ _ => hw) (fun _ h => h)
    refine wp_mono (wp_and (start_sets E p p' h fs b trivial) he) (fun _ s1 h1 => ?_) (fun _ _ h _ => h.2)
      (fun _ h _ => h.1)
    show Wp (pure () >>= fun _ => press Emacs.keyMap E keys) _ _ _ _
    rw [wp_bind, wp_pure]
    have h2 := h1.1.here
    rw [rest_false] at h2
    have h3 : OnNew h s1 b.data [] := ⟨h2, h1.1.side.loc, h1.1.side.newValid rfl, h1.1.side.showSug,
      h1.1.side.history, h1.1.sug⟩
    exact wp_mono (press_edits E keys hk k s1 _ _ h3) (fun _ _ h => h) (fun _ _ h hne => (h hne).2)
      (fun _ h hne hw => absurd hw (h hne))
  refine ⟨fun t' ht => (wp_ok key ht :), fun hne hw e t' ht => (wp_err key ht :) hne hw,
    fun hne hw hp => hw ((wp_panic' key hp :) hne rfl)⟩

example : okAnd (emacs ["make all", "make", "ls"]
      (chars "xmak" ++ [.left, .ctrl 'b', .home, .delete, .end, .right, .backspace, .char 'E']))
    (fun _ t => text? t.2 == some "makE".toList && t.2.cursor == 4) = true := by decide +kernel

example : edits ["make all".toList, "make".toList, "ls".toList]
      (chars "xmak" ++ [Key.left, .ctrl 'b', .home, .delete, .end, .right, .backspace, .char 'E'])
      ([], []) = ("makE".toList, []) := by decide

example : okAnd (emacs ["make all"] (chars "mak" ++ [.left, .ctrl 'f', .ctrl 'k']))
    (fun _ t => text? t.2 == some "make all".toList && t.2.cursor == 8) = true := by decide +kernel

/-! ### C47 -/

/-- Later words are further to the right. -/
theorem sep_lt {ws : List (Nat × Nat)} (h : Separated ws) {i j : Nat} {a b : Nat × Nat} (hij : i < j)
    (hi : ws[i]? = some a) (hj : ws[j]? = some b) : a.2 < b.1 := by
  obtain ⟨h1, rfl⟩ := List.getElem?_eq_some_iff.mp hi
  obtain ⟨h2, rfl⟩ := List.getElem?_eq_some_iff.mp hj
  exact List.pairwise_iff_getElem.mp h.2 i j h1 h2 hij

theorem sep_ne {ws : List (Nat × Nat)} (h : Separated ws) {i : Nat} {a : Nat × Nat}
    (hi : ws[i]? = some a) : a.1 < a.2 := h.1 a (List.mem_of_getElem? hi)

/-- Where Alt-F goes: the nearest word end after the cursor, if there is one. -/
def NextEnd (ws : List (Nat × Nat)) (cursor p : Nat) : Prop :=
  (∃ w ∈ ws, w.2 = p ∧ cursor < p ∧ ∀ v ∈ ws, cursor < v.2 → p ≤ v.2) ∨
  ((∀ w ∈ ws, w.2 ≤ cursor) ∧ p = cursor)

/-- Where Alt-B goes: the nearest word start before the cursor, if there is one. -/
def PrevStart (ws : List (Nat × Nat)) (cursor p : Nat) : Prop :=
  (∃ w ∈ ws, w.1 = p ∧ p < cursor ∧ ∀ v ∈ ws, v.1 < cursor → v.1 ≤ p) ∨
  ((∀ w ∈ ws, cursor ≤ w.1) ∧ p = cursor)

theorem wordIndex_right {ws : List (Nat × Nat)} {cursor : Nat} {pos : CursorPosition}
    (hs : Separated ws) (hc : Classifies cursor ws pos) :
    match Emacs.wordIndex ws.length pos true with
    | none => NextEnd ws cursor cursor
    | some i => ∃ w, ws[i]? = some w ∧ NextEnd ws cursor w.2 := by
  have nearest : ∀ {i : Nat} {w : Nat × Nat}, ws[i]? = some w → cursor < w.2 →
      (∀ j v, j < i → ws[j]? = some v → v.2 ≤ cursor) → NextEnd ws cursor w.2 := by
    intro i w hi hlt hbefore
    refine .inl ⟨w, List.mem_of_getElem? hi, rfl, hlt, fun v hv hcv => ?_⟩
    obtain ⟨j, hj⟩ := List.mem_iff_getElem?.mp hv
    rcases Nat.lt_trichotomy j i with h | h | h
    · have := hbefore j v h hj; omega
    · subst h; rw [hi] at hj; cases hj; exact Nat.le_refl _
    · have := sep_lt hs h hi hj
      have := sep_ne hs hj
      omega
  cases pos with
  | inWord i =>
    obtain ⟨s, e, hi, h1, h2⟩ := hc
    refine ⟨(s, e), hi, nearest hi h2 fun j v hj hv => ?_⟩
    have := sep_lt hs hj hv hi
    omega
  | onWordLeftEdge i =>
    obtain ⟨e, hi⟩ := hc
    have hne := sep_ne hs hi
    simp only [Emacs.wordIndex, Bool.not_true, Bool.false_eq_true, and_false, if_false]
    refine ⟨_, hi, nearest hi hne fun j v hj hv => ?_⟩
    have := sep_lt hs hj hv hi
    omega
  | onWordRightEdge i =>
    obtain ⟨s, hi⟩ := hc
    have hlen := (List.getElem?_eq_some_iff.mp hi).1
    simp only [Emacs.wordIndex, and_true]
    by_cases hl : i < ws.length - 1
    · rw [if_pos hl]
      have hi' : ws[i + 1]? = some ws[i + 1] := List.getElem?_eq_getElem (by omega)
      have h1 := sep_lt hs (Nat.lt_succ_self i) hi hi'
      have h2 := sep_ne hs hi'
      refine ⟨_, hi', nearest hi' (by omega) fun j v hj hv => ?_⟩
      rcases Nat.lt_or_ge j i with h | h
      · have := sep_lt hs h hv hi
        have := sep_ne hs hi
        omega
      · have : j = i := by omega
        subst this; rw [hi] at hv; cases hv; exact Nat.le_refl _
    · rw [if_neg hl]
      refine ⟨_, hi, .inr ⟨fun w hw => ?_, rfl⟩⟩
      obtain ⟨j, hj⟩ := List.mem_iff_getElem?.mp hw
      have hjl := (List.getElem?_eq_some_iff.mp hj).1
      rcases Nat.lt_or_ge j i with h | h
      · have := sep_lt hs h hj hi
        have := sep_ne hs hi
        omega
      · have : j = i := by omega
        subst this; rw [hi] at hj; cases hj; exact Nat.le_refl _
  | inSpace l r =>
    obtain ⟨-, -, hr⟩ := hc
    cases r with
    | none =>
      refine .inr ⟨fun w hw => ?_, rfl⟩
      obtain ⟨j, hj⟩ := List.mem_iff_getElem?.mp hw
      exact Nat.le_of_lt (hr j w.1 w.2 hj)
    | some j =>
      obtain ⟨s, e, hj, h1, h2⟩ := hr
      have hne := sep_ne hs hj
      exact ⟨_, hj, nearest hj (by simp only at hne ⊢; omega)
        fun i v hi hv => Nat.le_of_lt (h2 i v.1 v.2 hi hv)⟩

theorem wordIndex_left {ws : List (Nat × Nat)} {cursor : Nat} {pos : CursorPosition}
    (hs : Separated ws) (hc : Classifies cursor ws pos) :
    match Emacs.wordIndex ws.length pos false with
    | none => PrevStart ws cursor cursor
    | some i => ∃ w, ws[i]? = some w ∧ PrevStart ws cursor w.1 := by
  have nearest : ∀ {i : Nat} {w : Nat × Nat}, ws[i]? = some w → w.1 < cursor →
      (∀ j v, i < j → ws[j]? = some v → cursor ≤ v.1) → PrevStart ws cursor w.1 := by
    intro i w hi hlt hafter
    refine .inl ⟨w, List.mem_of_getElem? hi, rfl, hlt, fun v hv hcv => ?_⟩
    obtain ⟨j, hj⟩ := List.mem_iff_getElem?.mp hv
    rcases Nat.lt_trichotomy j i with h | h | h
    · have := sep_lt hs h hj hi
      have := sep_ne hs hj
      omega
    · subst h; rw [hi] at hj; cases hj; exact Nat.le_refl _
    · have := hafter j v h hj; omega
  cases pos with
  | inWord i =>
    obtain ⟨s, e, hi, h1, h2⟩ := hc
    refine ⟨(s, e), hi, nearest hi h1 fun j v hj hv => ?_⟩
    have := sep_lt hs hj hi hv
    omega
  | onWordLeftEdge i =>
    obtain ⟨e, hi⟩ := hc
    simp only [Emacs.wordIndex, Bool.not_false, and_true]
    by_cases hl : 0 < i
    · rw [if_pos hl]
      have hlen := (List.getElem?_eq_some_iff.mp hi).1
      have hi' : ws[i - 1]? = some ws[i - 1] := List.getElem?_eq_getElem (by omega)
      have h1 := sep_lt hs (by omega : i - 1 < i) hi' hi
      have h2 := sep_ne hs hi'
      refine ⟨_, hi', nearest hi' (by simp only at h1; omega) fun j v hj hv => ?_⟩
      rcases Nat.lt_or_ge i j with h | h
      · have := sep_lt hs h hi hv
        have := sep_ne hs hi
        simp only at *
        omega
      · have : j = i := by omega
        subst this; rw [hi] at hv; cases hv; exact Nat.le_refl _
    · rw [if_neg hl]
      refine ⟨_, hi, .inr ⟨fun w hw => ?_, rfl⟩⟩
      obtain ⟨j, hj⟩ := List.mem_iff_getElem?.mp hw
      rcases Nat.lt_or_ge i j with h | h
      · have := sep_lt hs h hi hj
        have := sep_ne hs hi
        simp only at *
        omega
      · have : j = i := by omega
        subst this; rw [hi] at hj; cases hj; exact Nat.le_refl _
  | onWordRightEdge i =>
    obtain ⟨s, hi⟩ := hc
    have hne := sep_ne hs hi
    simp only [Emacs.wordIndex, Bool.false_eq_true, and_false, if_false]
    refine ⟨_, hi, nearest hi hne fun j v hj hv => ?_⟩
    exact Nat.le_of_lt (sep_lt hs hj hi hv)
  | inSpace l r =>
    obtain ⟨-, hl, -⟩ := hc
    cases l with
    | none =>
      refine .inr ⟨fun w hw => ?_, rfl⟩
      obtain ⟨j, hj⟩ := List.mem_iff_getElem?.mp hw
      exact Nat.le_of_lt (hl j w.1 w.2 hj)
    | some j =>
      obtain ⟨s, e, hj, h1, h2⟩ := hl
      have hne := sep_ne hs hj
      exact ⟨_, hj, nearest hj (by simp only at hne ⊢; omega)
        fun i v hi hv => Nat.le_of_lt (h2 i v.1 v.2 hi hv)⟩

/-- Moving by a word. -/
theorem moveWord_goes (E : Env) {s : Ed} {l r : Text} {ws : List (Nat × Nat)} (right : Bool)
    (h : Open false s l r) (hd : ∀ b, s.curBuf? = some b → E.words b = ws) (hs : Separated ws)
    (hin : ∀ w ∈ ws, w.2 ≤ (l ++ r).length) :
    Wp (Emacs.moveWord E right) s (fun _ s' => s'.isSearch = false ∧ ∃ l' r', l' ++ r' = l ++ r ∧
      At s' l' r' ∧ if right then NextEnd ws l.length l'.length else PrevStart ws l.length l'.length)
      (fun _ _ => True) (· ≠ .op) := by
  obtain ⟨b, hb, hbd⟩ := text?_eq.mp h.here.1
  have hc := C12_classifies s.cursor ws hs
  unfold Emacs.moveWord wordsAndPos
  rw [wp_bind, wp_bind, wp_curBuf]
  refine ⟨fun b' hb' => ?_, fun hn => by rw [hb] at hn; cases hn⟩
  rw [hb] at hb'; cases hb'
  rw [wp_bind, wp_get]
  dsimp only
  rw [hd b hb, wp_pure]
  dsimp only
  rw [h.here.2] at hc ⊢
  have key : match Emacs.wordIndex ws.length (CursorPosition.get l.length ws) right with
      | none => if right then NextEnd ws l.length l.length else PrevStart ws l.length l.length
      | some i => ∃ w, ws[i]? = some w ∧ (if right then NextEnd ws l.length w.2
          else PrevStart ws l.length w.1) := by
    cases right
    · exact wordIndex_left hs hc
    · exact wordIndex_right hs hc
  split
  · rename_i hi
    rw [hi] at key
    exact ⟨h.quiet, l, r, rfl, h.here, key⟩
  · rename_i i hi
    rw [hi] at key
    obtain ⟨w, hw, hk⟩ := key
    rw [wp_bind, hw]
    show Wp (moveCursorTo E _) _ _ _ _
    have hle := hin w (List.mem_of_getElem? hw)
    have hne := sep_ne hs hw
    refine wp_mono (to_sets E h (Side.refl _) (if right then w.2 else w.1)) (fun _ s' h' => ?_)
      (fun _ _ h => h) (fun _ h => h)
    have h1 := h'.here
    rw [rest_false] at h1
    refine ⟨h1.quiet, _, _, List.take_append_drop _ _, h1.here, ?_⟩
    rw [List.length_take]
    cases right
    · have h1 : min w.1 (l ++ r).length = w.1 := Nat.min_eq_left (by omega)
      simpa [h1, -List.length_append] using hk
    · have h1 : min w.2 (l ++ r).length = w.2 := Nat.min_eq_left hle
      simpa [h1, -List.length_append] using hk

/-- The state after any Emacs keys, outside a search. -/
theorem open_session (E : Env) (p p' : Prompt) (h : History) (fs : FS) (b : Buffer)
    (keys : List (Key × (Text → List Text))) (k k' : Emacs) (s : Ed)
    (hs : session Emacs.keyMap E p keys (k, initial p' h fs b) = .ok () (k', s))
    (hn : ¬ s.reverseSearch ∧ ¬ s.forwardSearch) {l r : Text} (ha : At s l r) : Open false s l r :=
  ⟨by simp [Ed.isSearch, hn.1, hn.2],
    (wp_ok ((sets_kept E .emacs).usesK (uses_session Emacs.keyMap E (Emacs.uses_init E) p keys
      (fun k _ => Emacs.uses_core E _)) _ trivial) hs).2.noEol rfl, trivial, ha⟩

/-- C47: Alt-F and Alt-B after any keys, outside a search.  The text stays, and the cursor goes to the
nearest word end after it, or the nearest word start before it; without such a word it stays.  This
holds for every word divider whose words come in order inside the line. -/
theorem C47_moves (E : Env) (p p' : Prompt) (h : History) (fs : FS) (b : Buffer)
    (keys : List (Key × (Text → List Text))) (k k' : Emacs) (s : Ed)
    (hs : session Emacs.keyMap E p keys (k, initial p' h fs b) = .ok () (k', s))
    (hn : ¬ s.reverseSearch ∧ ¬ s.forwardSearch) {l r : Text} (ha : At s l r)
    {ws : List (Nat × Nat)} (hd : ∀ b, s.curBuf? = some b → E.words b = ws) (hsep : Separated ws)
    (hin : ∀ w ∈ ws, w.2 ≤ (l ++ r).length) (comp : Text → List Text) (right : Bool) :
    (∀ done t', Emacs.keyMap.handleKey E comp (.alt (if right then 'f' else 'b')) (k', s) =
        .ok done t' → done = false ∧ (¬ t'.2.reverseSearch ∧ ¬ t'.2.forwardSearch) ∧
        ∃ l' r', l' ++ r' = l ++ r ∧ At t'.2 l' r' ∧
          if right then NextEnd ws l.length l'.length else PrevStart ws l.length l'.length) ∧
    Emacs.keyMap.handleKey E comp (.alt (if right then 'f' else 'b')) (k', s) ≠ .panic .op := by
  have hq : s.isSearch = false := by simp [Ed.isSearch, hn.1, hn.2]
  have he : s.noEol = false := (wp_ok ((sets_kept E .emacs).usesK (uses_session Emacs.keyMap E
    (Emacs.uses_init E) p keys (fun k _ => Emacs.uses_core E _)) _ trivial) hs).2.noEol rfl
  obtain ⟨b0, hb0, -⟩ := text?_eq.mp ha.1
  have key : Wp (Emacs.keyMap.handleKey E comp (.alt (if right then 'f' else 'b'))) (k', s)
      (fun done t' => done = false ∧ t'.2.isSearch = false ∧ ∃ l' r', l' ++ r' = l ++ r ∧
        At t'.2 l' r' ∧
          if right then NextEnd ws l.length l'.length else PrevStart ws l.length l'.length)
      (fun _ _ => True) (· ≠ .op) := by
    rw [wp_congr (handleKey_eq Emacs.keyMap E comp (t := (k', s)) hb0 _), wp_bind,
      translate_ne (by simp), wp_congr (dispatch_core Emacs.keyMap E comp (k', s) (by simp) (by simp)
        (by simp) (by simp) (by simp) (by simp) (by simp) (by simp))]
    unfold toCore
    rw [wp_bind]
    show Wp (Emacs.handleKeyCore E _) _ _ _ _
    unfold Emacs.handleKeyCore
    rw [if_neg (by cases right <;> simp), wp_bind, wp_modK]
    have hb : Emacs.handleKeyBody E (.alt (if right then 'f' else 'b')) =
        KM.ed (Emacs.moveWord E right) := by cases right <;> rfl
    rw [hb, wp_ed]
    refine wp_mono (moveWord_goes E right ⟨hq, he, trivial, ha⟩ hd hsep hin) (fun _ s' h' => ?_)
      (fun _ _ h => h) (fun _ h => h)
    rw [wp_bind, wp_ed, skipCompletionsHint, wp_modify, wp_pure, wp_bind, wp_ed, wp_flush]
    exact ⟨fun _ => ⟨rfl, h'⟩, fun _ => trivial⟩
  refine ⟨fun done t' ht => ?_, fun hp => wp_panic' key hp rfl⟩
  obtain ⟨h1, h2, h3⟩ := (wp_ok key ht :)
  simp only [Ed.isSearch, Bool.or_eq_false_iff] at h2
  exact ⟨h1, ⟨by simp [h2.1], by simp [h2.2]⟩, h3⟩

/-- C47 for the default word divider and the words as specified. -/
theorem C47_default (E : Env) (hw : E.words = getBufferWords) (p p' : Prompt) (h : History) (fs : FS)
    (b : Buffer) (keys : List (Key × (Text → List Text))) (k k' : Emacs) (s : Ed)
    (hs : session Emacs.keyMap E p keys (k, initial p' h fs b) = .ok () (k', s))
    (hn : ¬ s.reverseSearch ∧ ¬ s.forwardSearch) {l r : Text} (ha : At s l r)
    {ws : List (Nat × Nat)} (hd : IsDivision (l ++ r) ws) (comp : Text → List Text) (right : Bool) :
    (∀ done t', Emacs.keyMap.handleKey E comp (.alt (if right then 'f' else 'b')) (k', s) =
        .ok done t' → done = false ∧ (¬ t'.2.reverseSearch ∧ ¬ t'.2.forwardSearch) ∧
        ∃ l' r', l' ++ r' = l ++ r ∧ At t'.2 l' r' ∧
          if right then NextEnd ws l.length l'.length else PrevStart ws l.length l'.length) ∧
    Emacs.keyMap.handleKey E comp (.alt (if right then 'f' else 'b')) (k', s) ≠ .panic .op := by
  obtain ⟨h1, h2⟩ := divides hw ha.1 hd
  exact C47_moves E p p' h fs b keys k k' s hs hn ha h1 h2 (fun w hm => (hd.words w hm).inside) comp
    right

example : okAnd (emacs [] (chars "ab  cd e" ++ [.home, .alt 'f', .alt 'f']))
    (fun _ t => t.2.cursor == 6) = true := by decide +kernel
example : okAnd (emacs [] (chars "ab  cd e " ++ [.alt 'f', .alt 'b', .alt 'b']))
    (fun _ t => t.2.cursor == 4) = true := by decide +kernel
example : okAnd (emacs [] (chars " ab" ++ [.alt 'b', .alt 'b']))
    (fun _ t => t.2.cursor == 1) = true := by decide +kernel
example : NextEnd [(0, 2), (4, 6), (7, 8)] 2 6 := .inl ⟨(4, 6), by decide, rfl, by decide, by decide⟩
example : PrevStart [(0, 2), (4, 6), (7, 8)] 5 4 :=
  .inl ⟨(4, 6), by decide, rfl, by decide, by decide⟩

/-! ### C48 -/

/-- Entry `i` of the history ends in the argument `w`. -/
def Arg (h : History) (i : Nat) (w : Text) : Prop := ∃ x, (texts h)[i]? = some x ∧ IsLastRun x w

theorem arg_buffer {h : History} {i : Nat} {w : Text} (ha : Arg h i w) :
    ∃ b : Buffer, h.buffers[i]? = some b ∧ b.lastArg = some w := by
  obtain ⟨x, hx, hr⟩ := ha
  rw [texts, List.getElem?_map, Option.map_eq_some_iff] at hx
  obtain ⟨b, hb, rfl⟩ := hx
  exact ⟨b, hb, ((C10_last_arg b).1 w).mpr hr⟩

/-- The second half of `handle_last_arg_fetch`. -/
def fetchArg (E : Env) (index : Nat) : KM Emacs Unit := do
  let s ← KM.ed M.get
  let b ← M.ofOption s.history.buffers[index]?
  match b.lastArg with
  | some arg => KM.ed (insertCharsAfterCursor E arg)
  | none => pure ()
  KM.modK fun k => { k with lastArgFetchIndex := some index }

section
variable (E : Env) {s s0 : Ed} {l r w : Text} {k : Emacs} {i : Nat}

theorem arg_sets (h : Open false s l r) (hs : Side s0 s) (ha : Arg s.history i w) :
    Wp (fetchArg E i) (k, s) (fun _ t' => t'.1.lastArgFetchIndex = some i ∧
      Settled false s0 t'.2 (l ++ w) r) (fun _ _ => True) (· ≠ .op) := by
  obtain ⟨b, hb, hw⟩ := arg_buffer ha
  unfold fetchArg
  rw [wp_bind, wp_ed, wp_get]
  dsimp only
  rw [hb, wp_bind]
  show Wp (match b.lastArg with
    | some arg => KM.ed (insertCharsAfterCursor E arg) >>= fun _ => _
    | none => _) _ _ _ _
  rw [hw]
  dsimp only
  rw [wp_bind, wp_ed]
  refine wp_mono (insert_sets E h hs w) (fun _ s' h' => ?_) (fun _ _ h => h) (fun _ h => h)
  rw [wp_modK]
  exact ⟨rfl, h'⟩

theorem blank_sets {x : Text} (hx : (texts s.history)[i]? = some x)
    (ha : ∀ c ∈ x, c = ' ') :
    Wp (fetchArg E i) (k, s) (fun _ t' => t'.2 = s) (fun _ _ => True) (· ≠ .op) := by
  rw [texts, List.getElem?_map, Option.map_eq_some_iff] at hx
  obtain ⟨b, hb, rfl⟩ := hx
  have hw := (C10_last_arg b).2.mpr ha
  unfold fetchArg
  rw [wp_bind, wp_ed, wp_get]
  dsimp only
  rw [hb, wp_bind]
  show Wp (match b.lastArg with
    | some arg => KM.ed (insertCharsAfterCursor E arg) >>= fun _ => _
    | none => _) _ _ _ _
  rw [hw]
  dsimp only
  rw [wp_modK]

theorem fetch_none (he : s.history.buffers = []) :
    Wp (Emacs.handleLastArgFetch E) (k, s) (fun _ t' => t'.2 = s) (fun _ _ => True) (· ≠ .op) := by
  unfold Emacs.handleLastArgFetch
  rw [wp_bind, wp_ed, wp_get, wp_bind, wp_getK]
  dsimp only
  rw [if_pos (by simp [he]), wp_pure]

theorem fetch_oldest (hk : k.lastArgFetchIndex = some 0) :
    Wp (Emacs.handleLastArgFetch E) (k, s) (fun _ t' => t' = (k, s)) (fun _ _ => True)
      (· ≠ .op) := by
  unfold Emacs.handleLastArgFetch
  rw [wp_bind, wp_ed, wp_get, wp_bind, wp_getK]
  dsimp only
  split
  all_goals rw [wp_pure]

theorem fetch_first (hk : k.lastArgFetchIndex = none) (hne : s.history.buffers ≠ []) :
    Emacs.handleLastArgFetch E (k, s) =
      fetchArg E (s.curHistoryLoc.getD (s.history.buffers.length - 1)) (k, s) := by
  unfold Emacs.handleLastArgFetch
  rw [bind_ok (m := KM.ed M.get) (a := s) (s' := (k, s)) rfl,
    bind_ok (m := KM.getK) (a := k) (s' := (k, s)) rfl]
  dsimp only
  rw [if_neg (by simpa using hne), if_neg (by simp [hk]), hk]
  rfl

theorem fetch_again (hk : k.lastArgFetchIndex = some (i + 1)) (hne : s.history.buffers ≠ []) :
    Emacs.handleLastArgFetch E (k, s) = (do
      KM.ed (Emacs.deleteLastArg E)
      fetchArg E i : KM Emacs Unit) (k, s) := by
  unfold Emacs.handleLastArgFetch
  rw [bind_ok (m := KM.ed M.get) (a := s) (s' := (k, s)) rfl,
    bind_ok (m := KM.getK) (a := k) (s' := (k, s)) rfl]
  dsimp only
  rw [if_neg (by simpa using hne), if_neg (by simp [hk]), hk]
  rfl

/-- The previous argument is deleted when it is the end of the line, and nothing but it. -/
theorem deleteLastArg_sets (h : Open false s (l ++ w) []) (hs : Side s0 s) (hr : IsLastRun (l ++ w) w) :
    Yields (Emacs.deleteLastArg E) false s0 s l [] := by
  obtain ⟨b, hb, hbd⟩ := text?_eq.mp h.here.1
  rw [List.append_nil] at hbd
  unfold Yields Emacs.deleteLastArg
  rw [wp_bind, wp_curBuf]
  refine ⟨fun b' hb' => ?_, fun hn => by rw [hb] at hn; cases hn⟩
  rw [hb] at hb'; cases hb'
  rw [((C10_last_arg b).1 w).mpr (by rw [hbd]; exact hr)]
  dsimp only
  have := deleteUntil_backward_sets E hs (l := l) (m := w) (r := []) h
  rwa [show b.numChars - w.length = l.length by simp [Buffer.numChars, hbd]]

/-- A key is not Alt-`.`: the next Alt-`.` starts afresh. -/
theorem fresh_arg (comp : Text → List Text) (key : Key) (hkey : key ≠ .alt '.') (t : Emacs × Ed)
    (hk : t.1.lastArgFetchIndex = none) :
    Wp (Emacs.keyMap.handleKey E comp key) t (fun _ t' => t'.1.lastArgFetchIndex = none)
      (fun _ _ => True) (fun _ => True) := by
  have hed : ∀ {α : Type} (m : EdM α) (t : Emacs × Ed), t.1.lastArgFetchIndex = none →
      Wp (KM.ed m) t (fun _ t' => t'.1.lastArgFetchIndex = none) (fun _ _ => True)
        (fun _ => True) := by
    intro α m t h
    rw [wp_ed]
    exact wp_mono wp_trivial (fun _ _ _ => h) (fun _ _ h => h) (fun _ h => h)
  have hbind : ∀ {α β : Type} {m : KM Emacs α} {f : α → KM Emacs β} {t : Emacs × Ed},
      Wp m t (fun _ t' => t'.1.lastArgFetchIndex = none) (fun _ _ => True) (fun _ => True) →
      (∀ a t, t.1.lastArgFetchIndex = none →
        Wp (f a) t (fun _ t' => t'.1.lastArgFetchIndex = none) (fun _ _ => True) (fun _ => True)) →
      Wp (m >>= f) t (fun _ t' => t'.1.lastArgFetchIndex = none) (fun _ _ => True)
        (fun _ => True) := by
    intro α β m f t h1 h2
    rw [wp_bind]
    exact wp_mono h1 (fun a t' h => h2 a t' h) (fun _ _ h => h) (fun _ h => h)
  have hcore : ∀ key : Key, key ≠ .alt '.' → ∀ t : Emacs × Ed,
      Wp (Emacs.keyMap.core E key) t (fun _ t' => t'.1.lastArgFetchIndex = none) (fun _ _ => True)
        (fun _ => True) := by
    intro key hkey t
    show Wp (Emacs.handleKeyCore E key) _ _ _ _
    unfold Emacs.handleKeyCore
    rw [if_neg hkey, wp_bind, wp_modK]
    unfold Emacs.handleKeyBody Emacs.handleAltKey
    split
    case h_2 c =>
      have hc : c ≠ '.' := fun h => hkey (by rw [h])
      rw [if_neg hc]
      repeat' split
      all_goals first | exact hed _ _ rfl | exact hbind (hed _ _ rfl) (fun _ t h => h) | rfl
    all_goals first | exact hed _ _ rfl | rfl
  have htr : KeyMap.translate key ≠ .alt '.' := by
    unfold KeyMap.translate
    split
    · simp
    · exact hkey
  unfold KeyMap.handleKey
  refine hbind (hed _ _ hk) fun b t hk => hbind ?_ fun _ t hk => hbind (hed _ _ hk) fun _ t hk => hk
  unfold KeyMap.dispatch
  refine hbind (hed _ _ hk) fun b t hk => ?_
  have hthrow : ∀ {α : Type} (x : IoErr) (t : Emacs × Ed),
      Wp (M.throw x : KM Emacs α) t (fun _ t' => t'.1.lastArgFetchIndex = none) (fun _ _ => True)
        (fun _ => True) := fun _ _ => trivial
  split
  · exact hbind (hed _ _ hk) fun _ t _ => hthrow _ t
  split
  · exact hbind (hed _ _ hk) fun _ t _ => hthrow _ t
  split
  · exact hbind (hed _ _ hk) fun _ t h => h
  split
  · exact hed _ _ hk
  split
  · exact hbind (hed _ _ hk) fun _ t h => h
  split
  · exact hbind (hed _ _ hk) fun _ t h => h
  split
  · exact hbind (hed _ _ hk) fun _ t h => h
  dsimp only
  split
  all_goals
    refine hbind (by first | exact hed _ _ hk | exact hk) fun a t hk => ?_
    split
    · exact hbind (hed _ _ hk) fun _ t h => h
    · exact hbind (hcore _ htr _) fun _ t h => hbind (hed _ _ h) fun _ t h => h

end

/-- After keys other than Alt-`.`. -/
theorem fresh_session (E : Env) (p : Prompt) (keys : List (Key × (Text → List Text)))
    (hkeys : ∀ x ∈ keys, x.1 ≠ .alt '.') {s0 s : Ed} {k : Emacs}
    (hs : session Emacs.keyMap E p keys ({}, s0) = .ok () (k, s)) : k.lastArgFetchIndex = none := by
  have hpress : ∀ (keys : List (Key × (Text → List Text))), (∀ x ∈ keys, x.1 ≠ .alt '.') →
      ∀ t : Emacs × Ed, t.1.lastArgFetchIndex = none →
      Wp (press Emacs.keyMap E keys) t (fun _ t' => t'.1.lastArgFetchIndex = none) (fun _ _ => True)
        (fun _ => True) := by
    intro keys
    induction keys with
    | nil => exact fun _ t h => h
    | cons x keys ih =>
      intro hk t ht
      unfold press
      rw [wp_bind]
      exact wp_mono (fresh_arg E x.2 x.1 (hk x (List.mem_cons_self ..)) t ht)
        (fun _ t' h => ih (fun y hy => hk y (List.mem_cons_of_mem _ hy)) t' h) (fun _ _ h => h)
        (fun _ h => h)
  have : Wp (session Emacs.keyMap E p keys) ({}, s0) (fun _ t' => t'.1.lastArgFetchIndex = none)
      (fun _ _ => True) (fun _ => True) := by
    unfold session
    rw [wp_bind, wp_ed]
    refine wp_mono wp_trivial (fun _ s1 _ => ?_) (fun _ _ h => h) (fun _ h => h)
    show Wp (pure () >>= fun _ => press Emacs.keyMap E keys) _ _ _ _
    rw [wp_bind, wp_pure]
    exact hpress keys hkeys _ rfl
  exact (wp_ok this hs :)

section
variable (E : Env) (comp : Text → List Text) {s : Ed} {l r w : Text} {k : Emacs} {i : Nat}

/-- Alt-`.` goes to `handle_last_arg_fetch`. -/
theorem key_fetch (h : At s l r) {Q : Emacs × Ed → Prop}
    (hm : Wp (Emacs.handleLastArgFetch E) (k, s)
      (fun _ t' => Q (t'.1, { t'.2 with showCompletionsHint := none, tick := t'.2.tick + 1 }))
      (fun _ _ => True) (· ≠ .op)) :
    Wp (Emacs.keyMap.handleKey E comp (.alt '.')) (k, s) (fun done t' => done = false ∧ Q t')
      (fun _ _ => True) (· ≠ .op) := by
  obtain ⟨b0, hb0, -⟩ := text?_eq.mp h.1
  rw [wp_congr (handleKey_eq Emacs.keyMap E comp (t := (k, s)) hb0 _), wp_bind,
    translate_ne (by simp), wp_congr (dispatch_core Emacs.keyMap E comp (k, s) (by simp) (by simp)
      (by simp) (by simp) (by simp) (by simp) (by simp) (by simp))]
  unfold toCore
  rw [wp_bind]
  rw [show Emacs.keyMap.core = Emacs.handleKeyCore from rfl]
  unfold Emacs.handleKeyCore
  rw [if_pos rfl]
  show Wp (Emacs.handleLastArgFetch E) _ _ _ _
  refine wp_mono hm (fun _ t' h' => ?_) (fun _ _ h => h) (fun _ h => h)
  rw [wp_bind, wp_ed, skipCompletionsHint, wp_modify, wp_pure, wp_bind, wp_ed, wp_flush]
  exact ⟨fun _ => ⟨rfl, h'⟩, fun _ => trivial⟩

end

/-- C48, the first Alt-`.` after any keys, outside a search: the last argument of the current history
entry, or on a new line of the newest one, is inserted at the cursor. -/
theorem C48_first (E : Env) (p p' : Prompt) (h : History) (fs : FS) (b : Buffer)
    (keys : List (Key × (Text → List Text))) (hkeys : ∀ x ∈ keys, x.1 ≠ .alt '.') (k : Emacs) (s : Ed)
    (hs : session Emacs.keyMap E p keys ({}, initial p' h fs b) = .ok () (k, s))
    (hn : ¬ s.reverseSearch ∧ ¬ s.forwardSearch) {l r w : Text} (ha : At s l r)
    (hw : Arg s.history (s.curHistoryLoc.getD ((texts s.history).length - 1)) w)
    (comp : Text → List Text) :
    (∀ done t', Emacs.keyMap.handleKey E comp (.alt '.') (k, s) = .ok done t' →
      done = false ∧ At t'.2 (l ++ w) r) ∧
    Emacs.keyMap.handleKey E comp (.alt '.') (k, s) ≠ .panic .op := by
  have ho := open_session E p p' h fs b keys {} k s hs hn ha
  have hk := fresh_session E p keys hkeys hs
  rw [texts, List.length_map] at hw
  have hne : s.history.buffers ≠ [] := by
    obtain ⟨x, hx, -⟩ := arg_buffer hw
    intro h0; rw [h0] at hx; cases hx
  have key : Wp (Emacs.keyMap.handleKey E comp (.alt '.')) (k, s)
      (fun done t' => done = false ∧ At t'.2 (l ++ w) r) (fun _ _ => True) (· ≠ .op) := by
    refine key_fetch E comp (Q := fun t' => At t'.2 (l ++ w) r) ha ?_
    rw [wp_congr (fetch_first E hk hne)]
    exact wp_mono (arg_sets E ho (Side.refl _) hw) (fun _ t' h => by
      have := h.2.here; rw [rest_false] at this; exact this.here) (fun _ _ h => h) (fun _ h => h)
  exact ⟨fun done t' ht => (wp_ok key ht :), fun hp => wp_panic' key hp rfl⟩

/-- C48: with no history, or when the entry in question is blank, the first Alt-`.` changes nothing. -/
theorem C48_nothing (E : Env) (p p' : Prompt) (h : History) (fs : FS) (b : Buffer)
    (keys : List (Key × (Text → List Text))) (hkeys : ∀ x ∈ keys, x.1 ≠ .alt '.') (k : Emacs) (s : Ed)
    (hs : session Emacs.keyMap E p keys ({}, initial p' h fs b) = .ok () (k, s))
    {l r : Text} (ha : At s l r)
    (hw : texts s.history = [] ∨
      ∃ x, (texts s.history)[s.curHistoryLoc.getD ((texts s.history).length - 1)]? = some x ∧
        ∀ c ∈ x, c = ' ') (comp : Text → List Text) :
    (∀ done t', Emacs.keyMap.handleKey E comp (.alt '.') (k, s) = .ok done t' →
      done = false ∧ At t'.2 l r) ∧
    Emacs.keyMap.handleKey E comp (.alt '.') (k, s) ≠ .panic .op := by
  have hk := fresh_session E p keys hkeys hs
  have key : Wp (Emacs.keyMap.handleKey E comp (.alt '.')) (k, s)
      (fun done t' => done = false ∧ At t'.2 l r) (fun _ _ => True) (· ≠ .op) := by
    refine key_fetch E comp (Q := fun t' => At t'.2 l r) ha ?_
    rcases hw with hw | ⟨x, hx, hb⟩
    · exact wp_mono (fetch_none E (by simpa [texts] using hw)) (fun _ t' h => by rw [h]; exact ha)
        (fun _ _ h => h) (fun _ h => h)
    · have hne : s.history.buffers ≠ [] := by
        intro h0; rw [texts, h0] at hx; cases hx
      rw [wp_congr (fetch_first E hk hne)]
      rw [show (texts s.history).length = s.history.buffers.length by simp [texts]] at hx
      exact wp_mono (blank_sets E hx hb) (fun _ t' h => by rw [h]; exact ha)
        (fun _ _ h => h) (fun _ h => h)
  exact ⟨fun done t' ht => (wp_ok key ht :), fun hp => wp_panic' key hp rfl⟩

theorem run_of {l w x : Text} (hl : l = [] ∨ l.getLast? = some ' ') (h : IsLastRun x w) :
    IsLastRun (l ++ w) w := ⟨h.1, h.2.1, l, 0, by simp, hl⟩

/-- Further presses. -/
theorem press_again (E : Env) {H : History} (presses : List (Key × (Text → List Text)))
    (hpr : ∀ x ∈ presses, x.1 = .alt '.') {l : Text} (hl : l = [] ∨ l.getLast? = some ' ')
    (k : Emacs) (s : Ed) (i : Nat) (w : Text) (hk : k.lastArgFetchIndex = some i)
    (ho : Open false s (l ++ w) []) (hH : s.history = H) (hw : Arg H i w)
    (hargs : ∀ j, j < i → i - presses.length ≤ j → ∃ w, Arg H j w) :
    Wp (press Emacs.keyMap E presses) (k, s)
      (fun _ t' => ∃ w, Arg H (i - presses.length) w ∧ At t'.2 (l ++ w) [])
      (fun _ _ => True) (· ≠ .op) := by
  induction presses generalizing k s i w with
  | nil => exact ⟨w, hw, ho.here⟩
  | cons x presses ih =>
    obtain ⟨key, comp⟩ := x
    obtain rfl : key = .alt '.' := hpr _ (List.mem_cons_self ..)
    have hpr' := fun x hx => hpr x (List.mem_cons_of_mem _ hx)
    unfold press
    rw [wp_bind]
    cases i with
    | zero =>
      refine wp_mono (key_fetch E comp (Q := fun t' => t'.1.lastArgFetchIndex = some 0 ∧
        t'.2.history = H ∧ Open false t'.2 (l ++ w) []) ho.here
        (wp_mono (fetch_oldest E hk) (fun _ t' h => ?_) (fun _ _ h => h) (fun _ h => h)))
        (fun _ t' h => ?_) (fun _ _ h => h) (fun _ h => h)
      · rw [h]; exact ⟨hk, hH, ho.quiet, ho.ne, trivial, ho.here⟩
      · have := ih hpr' t'.1 t'.2 0 w h.2.1 h.2.2.2 h.2.2.1 hw (fun j h => by omega)
        simpa using this
    | succ i =>
      have hne : s.history.buffers ≠ [] := by
        obtain ⟨x, hx, -⟩ := arg_buffer hw
        rw [hH]; intro h0; rw [h0] at hx; cases hx
      obtain ⟨w', hw'⟩ := hargs i (by omega) (by simp)
      obtain ⟨x, -, hr⟩ := hw
      refine wp_mono (key_fetch E comp (Q := fun t' => t'.1.lastArgFetchIndex = some i ∧
        t'.2.history = H ∧ Open false t'.2 (l ++ w') []) ho.here ?_)
        (fun _ t' h => ?_) (fun _ _ h => h) (fun _ h => h)
      · rw [wp_congr (fetch_again E hk hne), wp_bind, wp_ed]
        refine wp_mono (deleteLastArg_sets E ho (Side.refl _) (run_of hl hr)) (fun _ s1 h1 => ?_)
          (fun _ _ h => h) (fun _ h => h)
        have h2 := h1.here
        rw [rest_false] at h2
        refine wp_mono (arg_sets E h2 h1.side (by rw [h1.side.history, hH]; exact hw'))
          (fun _ t' h => ?_) (fun _ _ h => h) (fun _ h => h)
        have h3 := h.2.here
        rw [rest_false] at h3
        exact ⟨h.1, h.2.side.history.trans hH, h3.quiet, h3.ne, trivial, h3.here⟩
      · have := ih hpr' t'.1 t'.2 i w' h.2.1 h.2.2.2 h.2.2.1 hw'
          (fun j h h' => hargs j (by omega) (by simp; omega))
        rw [show i + 1 - ((Key.alt '.', comp) :: presses).length = i - presses.length by simp]
        exact this

/-- C48 as claimed: after any keys other than Alt-`.`, outside a search, `n + 1` presses of Alt-`.`
insert at the cursor the last argument of the `n`-th entry before the current or newest one.  What is
missing: the cursor has to be at the end of a line that is empty or ends in a space, and the entries in
question must not be blank; the violations below show that neither can be dropped. -/
theorem C48_presses_partial (E : Env) (p p' : Prompt) (h : History) (fs : FS) (b : Buffer)
    (keys : List (Key × (Text → List Text))) (hkeys : ∀ x ∈ keys, x.1 ≠ .alt '.') (k : Emacs) (s : Ed)
    (hs : session Emacs.keyMap E p keys ({}, initial p' h fs b) = .ok () (k, s))
    (hn : ¬ s.reverseSearch ∧ ¬ s.forwardSearch) {l : Text} (ha : At s l [])
    (hl : l = [] ∨ l.getLast? = some ' ') (n : Nat) (i : Nat)
    (hi : i = s.curHistoryLoc.getD ((texts s.history).length - 1))
    (hargs : ∀ j, j ≤ i → i - n ≤ j → ∃ w, Arg s.history j w)
    (presses : List (Key × (Text → List Text))) (hpr : ∀ x ∈ presses, x.1 = .alt '.')
    (hlen : presses.length = n + 1) :
    (∀ t', press Emacs.keyMap E presses (k, s) = .ok () t' →
      ∃ w, Arg s.history (i - n) w ∧ At t'.2 (l ++ w) []) ∧
    press Emacs.keyMap E presses (k, s) ≠ .panic .op := by
  have ho := open_session E p p' h fs b keys {} k s hs hn ha
  have hk := fresh_session E p keys hkeys hs
  rw [texts, List.length_map] at hi
  obtain ⟨w, hw⟩ := hargs i (Nat.le_refl _) (by omega)
  have hne : s.history.buffers ≠ [] := by
    obtain ⟨x, hx, -⟩ := arg_buffer hw
    intro h0; rw [h0] at hx; cases hx
  cases presses with
  | nil => simp at hlen
  | cons x presses =>
    obtain ⟨key, comp⟩ := x
    obtain rfl : key = .alt '.' := hpr _ (List.mem_cons_self ..)
    obtain rfl : presses.length = n := by simpa using hlen
    have key : Wp (press Emacs.keyMap E ((.alt '.', comp) :: presses)) (k, s)
        (fun _ t' => ∃ w, Arg s.history (i - presses.length) w ∧ At t'.2 (l ++ w) [])
        (fun _ _ => True) (· ≠ .op) := by
      unfold press
      rw [wp_bind]
      refine wp_mono (key_fetch E comp (Q := fun t' => t'.1.lastArgFetchIndex = some i ∧
        t'.2.history = s.history ∧ Open false t'.2 (l ++ w) []) ha ?_)
        (fun _ t' h => press_again E presses (fun x hx => hpr x (List.mem_cons_of_mem _ hx)) hl t'.1
          t'.2 i w h.2.1 h.2.2.2 h.2.2.1 hw (fun j h1 h2 => hargs j (by omega) h2))
        (fun _ _ h => h) (fun _ h => h)
      rw [wp_congr (fetch_first E hk hne), ← hi]
      refine wp_mono (arg_sets E ho (Side.refl _) hw) (fun _ t' h => ?_) (fun _ _ h => h)
        (fun _ h => h)
      have h3 := h.2.here
      rw [rest_false] at h3
      exact ⟨h.1, h.2.side.history, h3.quiet, h3.ne, trivial, h3.here⟩
    exact ⟨fun t' ht => (wp_ok key ht :), fun hp => wp_panic' key hp rfl⟩

example : okAnd (emacs ["ls a", "rm b c ", "cd d"] (chars "x " ++ [.alt '.', .alt '.']))
    (fun _ t => text? t.2 == some "x c".toList && t.2.cursor == 3) = true := by decide +kernel
example : okAnd (emacs ["ls a", "rm b c ", "cd d"] (chars "x " ++ List.replicate 5 (.alt '.')))
    (fun _ t => text? t.2 == some "x a".toList) = true := by decide +kernel
example : Arg (hist ["ls a", "rm b c ", "cd d"]) 1 ['c'] :=
  ⟨"rm b c ".toList, rfl, by decide, by decide, "rm b ".toList, 1, by decide, .inr (by decide)⟩

/-- C48 fails after a word: the second press also deletes what was typed before the argument. -/
theorem C48_word_violation : okAnd (emacs ["ls a", "rm b"] (chars "x -f=" ++ [.alt '.', .alt '.']))
    (fun _ t => text? t.2 == some "x a".toList) = true := by decide +kernel

/-- C48 fails when the cursor is not at the end: the second press deletes typed text after the cursor,
and leaves the first argument. -/
theorem C48_middle_violation :
    okAnd (emacs ["ls a", "rm b"] (chars "x y z" ++ List.replicate 4 .left ++ [.alt '.', .alt '.']))
    (fun _ t => text? t.2 == some "xbaz".toList) = true := by decide +kernel

/-- C48 fails at a blank entry: nothing is inserted for it, and the next press deletes typed text. -/
theorem C48_blank_violation :
    okAnd (emacs ["ls a", " ", "rm b"] (chars "xyz " ++ [.alt '.', .alt '.', .alt '.']))
    (fun _ t => text? t.2 == some "xa".toList) = true := by decide +kernel

/-- C48 fails after accepting a suggestion: Alt-`.` then replaces the last word of the accepted line, as
if it had been pressed twice in a row. -/
theorem C48_accept_violation :
    okAnd (emacs ["cx y", "q z", "b c"] [.alt '.', .ctrl 'f', .alt '.'])
    (fun _ t => text? t.2 == some "cx z".toList) = true := by decide +kernel

end Liner.Props
