import Verif.Proof.Enter
import Verif.Proof.Errs
import Verif.Props.View
/-
What is on the screen when a line is finished: C67.
-/

namespace Liner.Props
open Liner Liner.Spec Liner.Editor Liner.Screen

section
variable {E : Env} {P : Char → Prop} {H : List Text → Prop} {w : Nat} {pr : Prompt} {hist : History} {fs : FS} {x : Text} {scr : Screen}
variable {base : Nat → Nat → Char} {R0 : Nat} {κ : Type} {km : KeyMap κ}

/-- A key that finishes the line is Enter. -/
theorem only_enter {comp : Text → List Text} {k : Key} {t t' : κ × Ed} (h : km.handleKey E comp k t = .ok true t') :
    k = .char '\n' ∧ ∃ s', handleNewline E t.2 = .ok true s' ∧ t'.2.out = s'.out ∧ t'.2.prompt = s'.prompt ∧ text? t'.2 = text? s' ∧
      t'.2.cursor = s'.cursor ∧ t'.2.autosuggestion = s'.autosuggestion := by
  have key : Wp (km.handleKey E comp k) t (fun r t' => r = true → k = .char '\n' ∧ ∃ s', handleNewline E t.2 = .ok true s' ∧
      t'.2.out = s'.out ∧ t'.2.prompt = s'.prompt ∧ text? t'.2 = text? s' ∧
      t'.2.cursor = s'.cursor ∧ t'.2.autosuggestion = s'.autosuggestion) (fun _ _ => True) (fun _ => True) := by
    unfold KeyMap.handleKey
    rw [wp_bind, wp_ed, wp_curBuf]
    refine ⟨fun b _ => ?_, fun _ => trivial⟩
    rw [wp_bind]
    have hd : Wp (km.dispatch E comp b.isEmpty (KeyMap.translate k)) t
        (fun r t' => r = true → k = .char '\n' ∧ handleNewline E t.2 = .ok true t'.2) (fun _ _ => True) (fun _ => True) := by
      have no : ∀ (m : KM κ Unit) (u : κ × Ed), Wp (do m; pure false : KM κ Bool) u
          (fun r t' => r = true → k = .char '\n' ∧ handleNewline E t.2 = .ok true t'.2) (fun _ _ => True) (fun _ => True) := by
        intro m u
        rw [wp_bind]
        exact wp_mono wp_trivial (fun _ _ _ => fun h => nomatch h) (fun _ _ h => h) (fun _ h => h)
      unfold KeyMap.dispatch
      rw [wp_bind, wp_ed, wp_get]
      split
      · rw [wp_bind]
        exact wp_mono wp_trivial (fun _ _ _ => trivial) (fun _ _ h => h) (fun _ h => h)
      split
      · rw [wp_bind]
        exact wp_mono wp_trivial (fun _ _ _ => trivial) (fun _ _ h => h) (fun _ h => h)
      split
      · exact no _ _
      split
      · rename_i hnl
        rw [wp_ed]
        refine wp_mono wp_run (fun r s' h hr => ⟨?_, hr ▸ h⟩) (fun _ _ _ => trivial) (fun _ _ => trivial)
        unfold KeyMap.translate at hnl
        split at hnl
        · cases hnl
        · exact hnl
      split
      · exact no _ _
      split
      · exact no _ _
      split
      · exact no _ _
      have h1 : ∀ (a : Bool) (u : κ × Ed), Wp (if a = true then (do KM.ed (acceptAutosuggestion E); pure false : KM κ Bool)
          else do km.core E (KeyMap.translate k); KM.ed skipCompletionsHint; pure false) u
          (fun r t' => r = true → k = .char '\n' ∧ handleNewline E t.2 = .ok true t'.2) (fun _ _ => True) (fun _ => True) := by
        intro a u
        split
        · exact no _ _
        · rw [wp_bind]
          exact wp_mono wp_trivial (fun _ u' _ => no _ u') (fun _ _ h => h) (fun _ h => h)
      dsimp only
      split
      · rw [wp_bind]
        exact wp_mono wp_trivial (fun a u' _ => h1 a u') (fun _ _ h => h) (fun _ h => h)
      · exact h1 false t
    refine wp_mono hd (fun r t1 h => ?_) (fun _ _ h => h) (fun _ h => h)
    rw [wp_bind, wp_ed, wp_flush]
    exact ⟨fun _ hr => ⟨(h hr).1, t1.2, (h hr).2, rfl, rfl, rfl, rfl, rfl⟩, fun _ => trivial⟩
  exact wp_ok key h rfl

/-- The keys that end the read with an error of their own go through the same steps as Enter. -/
theorem stop_newline {comp : Text → List Text} {k : Key} {e : IoErr} {t t' : κ × Ed} (hc : ∀ key, Errs (fun e => e = .io) (km.core E key))
    (h : km.handleKey E comp k t = .err e t') (he : e ≠ .io) : ∃ r, handleNewline E t.2 = .ok r t'.2 := by
  have key : Wp (km.handleKey E comp k) t (fun _ _ => True) (fun e t' => e ≠ .io → ∃ r, handleNewline E t.2 = .ok r t'.2)
      (fun _ => True) := by
    have hio : Io E (fun e => e = .io) := Or.inr rfl
    have no : ∀ {α : Type} {m : KM κ α} (_ : Errs (fun e => e = .io) m) (u : κ × Ed), Wp m u (fun _ _ => True)
        (fun e t' => e ≠ .io → ∃ r, handleNewline E t.2 = .ok r t'.2) (fun _ => True) := fun hm u =>
      wp_mono (hm.wp u) (fun _ _ h => h) (fun _ _ h he => absurd h he) (fun _ h => h)
    have hstop : ∀ x : IoErr, Wp (do let _ ← KM.ed (handleNewline E); M.throw x : KM κ Bool) t
        (fun _ _ => True) (fun e t' => e ≠ .io → ∃ r, handleNewline E t.2 = .ok r t'.2) (fun _ => True) := by
      intro x
      rw [wp_bind, wp_ed]
      exact wp_mono (wp_and wp_run ((errs_handleNewline hio).wp t.2)) (fun r _ h _ => ⟨r, h.1⟩) (fun _ _ h he => absurd h.2 he)
        (fun _ _ => trivial)
    unfold KeyMap.handleKey
    rw [wp_bind, wp_ed, wp_curBuf]
    refine ⟨fun b _ => ?_, fun _ => trivial⟩
    rw [wp_bind]
    refine wp_mono (Q := fun _ _ => True) ?_ (fun r t1 _ => ?_) (fun _ _ h => h) (fun _ h => h)
    · unfold KeyMap.dispatch
      rw [wp_bind, wp_ed, wp_get]
      split
      · exact hstop _
      split
      · exact hstop _
      split
      · exact no (errs_bind (errs_ed (errs_complete hio _)) fun _ => errs_pure _) t
      split
      · exact no (errs_ed (errs_handleNewline hio)) t
      split
      · exact no (errs_bind (errs_ed (errs_accept hio)) fun _ => errs_pure _) t
      split
      · exact no (errs_bind (errs_ed (errs_search hio _)) fun _ => errs_pure _) t
      split
      · exact no (errs_bind (errs_ed (errs_search hio _)) fun _ => errs_pure _) t
      have h1 : ∀ a : Bool, Errs (fun e => e = .io) (if a = true then (do KM.ed (acceptAutosuggestion E); pure false : KM κ Bool)
          else do km.core E (KeyMap.translate k); KM.ed skipCompletionsHint; pure false) := fun a =>
        errs_ite (errs_bind (errs_ed (errs_accept hio)) fun _ => errs_pure _)
          (errs_bind (hc _) fun _ => errs_bind (errs_ed (errs_modify _)) fun _ => errs_pure _)
      dsimp only
      split
      · refine no (errs_bind (errs_ed ?_) h1) t
        unfold cursorIsAtEndOfLine
        exact errs_bind errs_curBuf fun _ => errs_bind errs_get fun _ => errs_ite (errs_ite errs_panic' (errs_pure _)) (errs_pure _)
      · exact no (h1 false) t
    · rw [wp_bind, wp_ed]
      exact wp_mono ((errs_flush hio).wp t1.2) (fun _ _ h => h) (fun _ _ h he => absurd h he) (fun _ h => h)
  exact wp_err key h he

/-- Without a search, a list or a backslash before the cursor the line is finished. -/
theorem newline_true {s s' : Ed} {r : Bool} (h : handleNewline E s = .ok r s') (hs : s.isSearch = false) (hc : s.showCompletionsHint = none)
    {line : Text} (ht : text? s = some line) (hb : (line.take s.cursor).getLast? ≠ some '\\') : r = true := by
  have key : Wp (handleNewline E) s (fun r _ => r = true) (fun _ _ => True) (fun _ => True) := by
    unfold handleNewline acceptIfSearch finishLine clearSearch
    simp only [wp_bind, wp_modify, wp_get]
    rw [if_neg (by exact fun h => by rw [Ed.isSearch] at hs; simp_all [Ed.isSearch])]
    simp only [wp_pure, hc, Option.isSome_none, Bool.false_eq_true, if_false, wp_bind, wp_curBuf]
    refine ⟨fun b hb1 => ?_, fun _ => trivial⟩
    have hb2 : s.curBuf? = some b := hb1
    obtain rfl : b.data = line := by
      unfold text? at ht
      rw [hb2] at ht
      simpa using ht
    rw [if_neg]
    · simp only [wp_bind, wp_modify]
      refine wp_mono wp_trivial (fun _ _ _ => ?_) (fun _ _ h => h) (fun _ h => h)
      refine wp_mono wp_trivial (fun _ _ _ => ?_) (fun _ _ h => h) (fun _ h => h)
      rfl
    · intro hcb
      apply hb
      unfold Buffer.charBefore at hcb
      split at hcb
      · cases hcb
      · rename_i h0
        have h0 : s.cursor ≠ 0 := h0
        have hcb : b.data[s.cursor - 1]? = some '\\' := hcb
        have hlt : s.cursor - 1 < b.data.length := (List.getElem?_eq_some_iff.mp hcb).1
        rw [List.getLast?_eq_getElem?, List.length_take, Nat.min_eq_left (by omega), List.getElem?_take, if_pos (by omega), hcb]
  have h' := wp_ok key h
  exact h'

/-- The states between the keys. -/
theorem goes_page [Glyphs] {I : κ → Prop} (hT : Plainly E P w)
    {keys : List (Key × (Text → List Text))} (hk : ∀ k ∈ keys, Calm E P w k)
    (hcore : ∀ (C : Ed → Prop), Scene E P (Offered keys) (∃ k ∈ keys, k.1 = .ctrl 'l') C →
      ∀ key, KeyInk P (∃ k ∈ keys, k.1 = .ctrl 'l') key → UpK E C I (km.core E key))
    {t0 t : κ × Ed} (h0 : I t0.1)
    (hn : Now E (Page E P (Offered keys) w scr R0 base (∃ k ∈ keys, k.1 = .ctrl 'l') (Searches keys)) t0.2)
    (hg : Goes km E keys t0 t) : Now E (Page E P (Offered keys) w scr R0 base (∃ k ∈ keys, k.1 = .ctrl 'l') (Searches keys)) t.2 := by
  have hC := scene_page (scr := scr) (R0 := R0) (base := base) (L := ∃ k ∈ keys, k.1 = .ctrl 'l') (S := Searches keys)
    hT.colours hT.size hT.width hT.one (offered_fits hk)
  exact (now_goes hC (hcore _ hC)
    (fun k h => ⟨fun hne => ⟨fun c hc => (hk k h).1 c hc fun h => hne (h ▸ hc), fun hl => ⟨k, h, hl⟩⟩, calm_comp hk h⟩)
    (by
      by_cases hS : Searches keys
      · exact Or.inl fun f s hs => page_search hS f s hs
      · exact Or.inr fun k h => ⟨fun he => hS ⟨k, h, Or.inl he⟩, fun he => hS ⟨k, h, Or.inr he⟩⟩) hg h0 hn).2

theorem _root_.Liner.Spec.SameRow.same [Glyphs] {s s' : Ed} {p line : Text} (h : SameRow w s p line) (h1 : s.cursor = s'.cursor)
    (h2 : s.autosuggestion = s'.autosuggestion) : SameRow w s' p line := by
  refine ⟨?_, ?_⟩
  · have := h.ends
    unfold drawn at this ⊢
    rw [← h2]; exact this
  · rw [← h1]; exact h.under

theorem enter_page [Glyphs] {L S : Prop} (hT : Plainly E P w) (hH : ∀ cs, H cs → ListFits E w cs) {s s' : Ed} (hs : Now E (Page E P H w scr R0 base L S) s)
    (h : handleNewline E s = .ok true s') (hsee : InSight scr w s'.out) {p : Text} (hp : PromptFits E w s'.prompt p) {line : Text}
    (ht : text? s' = some line) (hrow : SameRow w s' p line) {ls before : List Text} (hls : LinesOf line ls)
    (hb : LinesOf (line.take s'.cursor) before) :
    ∃ R, R0 ≤ R ∧ (¬ L → R = R0) ∧ Finished (scr.toks w s'.out) w R p ls (endOf w (shown p before)) ∧
      ∀ i j, i < R0 → (scr.toks w s'.out).cell i j = base i j := by
  obtain ⟨R, h1, h2, h3, h4, h5, h6, h7, h8⟩ := page_finish hT.colours hT.size hT.width hT.one hH hs h (sight_in hsee) p hp line ht ls _
    before hls (split_linesOf _) hb (fun d h1 h2 => hrow.under d before h1 h2 hb) (hrow.ends _ _ hls (split_linesOf _))
  rw [sight_same hsee]
  exact ⟨R, h1, h2, ⟨h3, h4, h5, h6, h7⟩, h8⟩

end

/-- C67 for the Emacs keys.  An editor is opened as in C66 and handles `keys`, and a further key finishes the line.  If
no suggestion is shown that reaches into a further row, then the screen shows the prompt and the line and nothing else,
and the cursor of the terminal is at the beginning of the row below, which is blank; what was above is still there. -/
theorem C67_enter_emacs_partial [Glyphs] (E : Env) (P : Char → Prop) (w : Nat) (hT : Plainly E P w)
    (pr : Prompt) (hs : List Text) (hist : History) (fs : FS) (x : Text) (hB : Begins E P w pr hs hist x)
    (scr : Screen) (hc : scr.col < w) (hcl : hs ≠ [] → Clear scr w) (s1 : Ed) (e : Emacs) (h0 : start E pr (initial pr hist fs (.ofText x)) = .ok () s1)
    (keys : List (Key × (Text → List Text))) (hk : ∀ k ∈ keys, Calm E P w k) (hS : Searches keys → SearchFits E P pr)
    (t : Emacs × Ed) (hg : Goes Emacs.keyMap E keys (e, s1) t)
    (k : Key) (comp : Text → List Text) (t' : Emacs × Ed) (hf : Emacs.keyMap.handleKey E comp k t = .ok true t')
    (hsee : InSight scr w t'.2.out) (p line : Text) (hp : PromptFits E w t'.2.prompt p) (ht : text? t'.2 = some line)
    (hrow : SameRow w t'.2 p line) (ls before : List Text) (hls : LinesOf line ls) (hb : LinesOf (line.take t'.2.cursor) before) :
    k = .char '\n' ∧
    ∃ R, editorRow w hs scr ≤ R ∧ ((∀ k ∈ keys, k.1 ≠ .ctrl 'l') → R = editorRow w hs scr) ∧
      Finished (scr.toks w t'.2.out) w R p ls (endOf w (shown p before)) ∧
      Topped w hs scr (scr.toks w t'.2.out) := by
  obtain ⟨hk1, s', h1, h2, h3, h4, h5, h6⟩ := only_enter hf
  obtain ⟨base, hbase, h0⟩ := start_page hT (offered_fits hk) hB hS hc hcl h0
  have hn := goes_page hT hk (I := fun _ => True) (fun _ hC _ hk => Emacs.upk_core hC hk) trivial h0 hg
  rw [h2] at hsee ⊢
  rw [h5] at hb
  obtain ⟨R, g1, g2, g3, g4⟩ := enter_page hT (offered_fits hk) hn h1 hsee (h3 ▸ hp) (h4 ▸ ht) (hrow.same h5 h6) hls hb
  exact ⟨hk1, R, g1, fun h => g2 fun ⟨k, hk, hl⟩ => h k hk hl, g3, hbase _ g4⟩

/-- C67 for the vi keys. -/
theorem C67_enter_vi_partial [Glyphs] (E : Env) (P : Char → Prop) (w : Nat) (hT : Plainly E P w)
    (hcase : ∀ c, P c → (∀ d ∈ E.cc.toUppercase c, P d) ∧ ∀ d ∈ E.cc.toLowercase c, P d)
    (hown : ∀ c ∈ ['h', 'i', 'j', 'k', 'l', 'r'], P c)
    (pr : Prompt) (hs : List Text) (hist : History) (fs : FS) (x : Text) (hB : Begins E P w pr hs hist x)
    (scr : Screen) (hc : scr.col < w) (hcl : hs ≠ [] → Clear scr w) (s1 : Ed) (t0 : Vi × Ed) (h0 : start E pr (initial pr hist fs (.ofText x)) = .ok () s1)
    (hi : Vi.keyMap.init E ({}, s1) = .ok () t0)
    (keys : List (Key × (Text → List Text))) (hk : ∀ k ∈ keys, Calm E P w k) (hS : Searches keys → SearchFits E P pr)
    (t : Vi × Ed) (hg : Goes Vi.keyMap E keys t0 t)
    (k : Key) (comp : Text → List Text) (t' : Vi × Ed) (hf : Vi.keyMap.handleKey E comp k t = .ok true t')
    (hsee : InSight scr w t'.2.out) (p line : Text) (hp : PromptFits E w t'.2.prompt p) (ht : text? t'.2 = some line)
    (hrow : SameRow w t'.2 p line) (ls before : List Text) (hls : LinesOf line ls) (hb : LinesOf (line.take t'.2.cursor) before) :
    k = .char '\n' ∧
    ∃ R, editorRow w hs scr ≤ R ∧ ((∀ k ∈ keys, k.1 ≠ .ctrl 'l') → R = editorRow w hs scr) ∧
      Finished (scr.toks w t'.2.out) w R p ls (endOf w (shown p before)) ∧
      Topped w hs scr (scr.toks w t'.2.out) := by
  have ho : Vi.OwnKeys P := ⟨hown _ (by simp), hown _ (by simp), hown _ (by simp), hown _ (by simp), hown _ (by simp), hown _ (by simp)⟩
  obtain ⟨base, hbase, h0⟩ := start_page hT (offered_fits hk) hB hS hc hcl h0
  have hC := scene_page (scr := scr) (R0 := editorRow w hs scr) (base := base) (L := ∃ k ∈ keys, k.1 = .ctrl 'l') (S := Searches keys)
    hT.colours hT.size hT.width hT.one (offered_fits hk)
  have h0 := wp_ok (Vi.upk_init hC ({}, s1) (viInk_new ho.i) h0) hi
  obtain ⟨hk1, s', h1, h2, h3, h4, h5, h6⟩ := only_enter hf
  have hn := goes_page hT hk (fun _ hC _ hk => Vi.upk_core hC hcase ho hk) h0.1 h0.2 hg
  rw [h2] at hsee ⊢
  rw [h5] at hb
  obtain ⟨R, g1, g2, g3, g4⟩ := enter_page hT (offered_fits hk) hn h1 hsee (h3 ▸ hp) (h4 ▸ ht) (hrow.same h5 h6) hls hb
  exact ⟨hk1, R, g1, fun h => g2 fun ⟨k, hk, hl⟩ => h k hk hl, g3, hbase _ g4⟩

theorem emacs_io (E : Env) (key : Key) : Errs (fun e => e = .io) (Emacs.keyMap.core E key) :=
  errs_usesK (A := fun e => e = .io) (T := fun _ => False) (Or.inr rfl) (fun _ h => h.elim) (Emacs.uses_core E key)

theorem vi_io (E : Env) (key : Key) : Errs (fun e => e = .io) (Vi.keyMap.core E key) :=
  errs_usesK (A := fun e => e = .io) (T := fun _ => False) (Or.inr rfl) (fun _ h => h.elim) (Vi.uses_core E key)

/-- C67 for a key that ends the read with an error other than an I/O error (Ctrl-C, and Ctrl-D on an empty line; see
C44), for the Emacs keys.  There is no search, and no backslash before the cursor. -/
theorem C67_stop_emacs_partial [Glyphs] (E : Env) (P : Char → Prop) (w : Nat) (hT : Plainly E P w)
    (pr : Prompt) (hs : List Text) (hist : History) (fs : FS) (x : Text) (hB : Begins E P w pr hs hist x)
    (scr : Screen) (hc : scr.col < w) (hcl : hs ≠ [] → Clear scr w) (s1 : Ed) (e : Emacs) (h0 : start E pr (initial pr hist fs (.ofText x)) = .ok () s1)
    (keys : List (Key × (Text → List Text))) (hk : ∀ k ∈ keys, Calm E P w k) (hS : Searches keys → SearchFits E P pr)
    (t : Emacs × Ed) (hg : Goes Emacs.keyMap E keys (e, s1) t)
    (k : Key) (comp : Text → List Text) (err : IoErr) (t' : Emacs × Ed) (hf : Emacs.keyMap.handleKey E comp k t = .err err t') (he : err ≠ .io)
    (line : Text) (ht : text? t.2 = some line) (hq : ¬ t.2.reverseSearch ∧ ¬ t.2.forwardSearch) (hh : t.2.showCompletionsHint = none)
    (hback : (line.take t.2.cursor).getLast? ≠ some '\\')
    (hsee : InSight scr w t'.2.out) (p : Text) (hp : PromptFits E w t'.2.prompt p) (ht' : text? t'.2 = some line)
    (hrow : SameRow w t'.2 p line) (ls before : List Text) (hls : LinesOf line ls) (hb : LinesOf (line.take t'.2.cursor) before) :
    ∃ R, editorRow w hs scr ≤ R ∧ ((∀ k ∈ keys, k.1 ≠ .ctrl 'l') → R = editorRow w hs scr) ∧
      Finished (scr.toks w t'.2.out) w R p ls (endOf w (shown p before)) ∧
      Topped w hs scr (scr.toks w t'.2.out) := by
  obtain ⟨r, h1⟩ := stop_newline (emacs_io E) hf he
  obtain ⟨base, hbase, h0⟩ := start_page hT (offered_fits hk) hB hS hc hcl h0
  have hn := goes_page hT hk (I := fun _ => True) (fun _ hC _ hk => Emacs.upk_core hC hk) trivial h0 hg
  obtain rfl := newline_true h1 (by simpa [Ed.isSearch] using hq) hh ht hback
  obtain ⟨R, g1, g2, g3, g4⟩ := enter_page hT (offered_fits hk) hn h1 hsee hp ht' hrow hls hb
  exact ⟨R, g1, fun h => g2 fun ⟨k, hk, hl⟩ => h k hk hl, g3, hbase _ g4⟩

/-- The same for the vi keys. -/
theorem C67_stop_vi_partial [Glyphs] (E : Env) (P : Char → Prop) (w : Nat) (hT : Plainly E P w)
    (hcase : ∀ c, P c → (∀ d ∈ E.cc.toUppercase c, P d) ∧ ∀ d ∈ E.cc.toLowercase c, P d)
    (hown : ∀ c ∈ ['h', 'i', 'j', 'k', 'l', 'r'], P c)
    (pr : Prompt) (hs : List Text) (hist : History) (fs : FS) (x : Text) (hB : Begins E P w pr hs hist x)
    (scr : Screen) (hc : scr.col < w) (hcl : hs ≠ [] → Clear scr w) (s1 : Ed) (t0 : Vi × Ed) (h0 : start E pr (initial pr hist fs (.ofText x)) = .ok () s1)
    (hi : Vi.keyMap.init E ({}, s1) = .ok () t0)
    (keys : List (Key × (Text → List Text))) (hk : ∀ k ∈ keys, Calm E P w k) (hS : Searches keys → SearchFits E P pr)
    (t : Vi × Ed) (hg : Goes Vi.keyMap E keys t0 t)
    (k : Key) (comp : Text → List Text) (err : IoErr) (t' : Vi × Ed) (hf : Vi.keyMap.handleKey E comp k t = .err err t') (he : err ≠ .io)
    (line : Text) (ht : text? t.2 = some line) (hq : ¬ t.2.reverseSearch ∧ ¬ t.2.forwardSearch) (hh : t.2.showCompletionsHint = none)
    (hback : (line.take t.2.cursor).getLast? ≠ some '\\')
    (hsee : InSight scr w t'.2.out) (p : Text) (hp : PromptFits E w t'.2.prompt p) (ht' : text? t'.2 = some line)
    (hrow : SameRow w t'.2 p line) (ls before : List Text) (hls : LinesOf line ls) (hb : LinesOf (line.take t'.2.cursor) before) :
    ∃ R, editorRow w hs scr ≤ R ∧ ((∀ k ∈ keys, k.1 ≠ .ctrl 'l') → R = editorRow w hs scr) ∧
      Finished (scr.toks w t'.2.out) w R p ls (endOf w (shown p before)) ∧
      Topped w hs scr (scr.toks w t'.2.out) := by
  have ho : Vi.OwnKeys P := ⟨hown _ (by simp), hown _ (by simp), hown _ (by simp), hown _ (by simp), hown _ (by simp), hown _ (by simp)⟩
  obtain ⟨base, hbase, h0⟩ := start_page hT (offered_fits hk) hB hS hc hcl h0
  have hC := scene_page (scr := scr) (R0 := editorRow w hs scr) (base := base) (L := ∃ k ∈ keys, k.1 = .ctrl 'l') (S := Searches keys)
    hT.colours hT.size hT.width hT.one (offered_fits hk)
  have h0 := wp_ok (Vi.upk_init hC ({}, s1) (viInk_new ho.i) h0) hi
  obtain ⟨r, h1⟩ := stop_newline (vi_io E) hf he
  have hn := goes_page hT hk (fun _ hC _ hk => Vi.upk_core hC hcase ho hk) h0.1 h0.2 hg
  obtain rfl := newline_true h1 (by simpa [Ed.isSearch] using hq) hh ht hback
  obtain ⟨R, g1, g2, g3, g4⟩ := enter_page hT (offered_fits hk) hn h1 hsee hp ht' hrow hls hb
  exact ⟨R, g1, fun h => g2 fun ⟨k, hk, hl⟩ => h k hk hl, g3, hbase _ g4⟩

/-! ### Cases -/

open Liner.Tests Liner.Wit

attribute [local instance] ideographs

/-- Emacs keys, and a suggestion that ends on the row of the line. -/
theorem enter_run : okAnd (start (columns 10) dollar (initial dollar (hist ["ab\ncdabcd", "last"]) noFiles (.ofText "ab\ncd".toList)))
    (fun _ s1 => match trace Emacs.keyMap (columns 10) (viewKeys.map plain) ({}, s1) with
      | some t => okAnd (Emacs.keyMap.handleKey (columns 10) (fun _ => []) (.char '\n') t) fun r t' => r &&
          decide (used.Fits 10 t'.2.out ∧ lowest used 10 t'.2.out ≤ 100) && text? t'.2 == some "ab\ncdabc".toList && t'.2.cursor == 8 &&
          drawn t'.2 "ab\ncdabc".toList == "ab\ncdabcd".toList && t'.2.prompt.toText == ['$', ' '] &&
          rowsOn 10 6 (used.toks 10 t'.2.out) == ["xxx       ".toList, "xxx⏎      ".toList, "$ ab      ".toList, "  cdabc   ".toList,
            "          ".toList, "          ".toList] &&
          (used.toks 10 t'.2.out).row == 4 && (used.toks 10 t'.2.out).col == 0
      | none => false) = true := by
  decide +kernel

theorem sameRow_of {w : Nat} {s : Ed} {p line : Text}
    (h : let a := endOf w (shown p (Buffer.splitOn (· == '\n') line))
      let b := endOf w (shown p (Buffer.splitOn (· == '\n') (drawn s line)))
      b = a ∨ (b / w = a / w ∧ a % w ≠ 0))
    (hu : (line[s.cursor]?).all (fun c => decide (Glyphs.width c < 2) ||
      decide (endOf w (shown p (Buffer.splitOn (· == '\n') (line.take s.cursor))) % w + 1 ≠ w)) = true) : SameRow w s p line := by
  refine ⟨fun ls ts h1 h2 => ?_, fun c bs h1 h2 h3 => ?_⟩
  · rw [← linesOf_split h1, ← linesOf_split h2]
    exact h
  · rw [← linesOf_split h3]
    rw [h1] at hu
    simp only [Option.all_some, Bool.or_eq_true, decide_eq_true_eq] at hu
    exact hu.resolve_left (by omega)

/-- The hypotheses of `C67_enter_emacs_partial` are met by them. -/
example : ∃ (s1 : Ed) (t t' : Emacs × Ed), Plainly (columns 10) Visible 10 ∧
    Begins (columns 10) Visible 10 dollar [] (hist ["ab\ncdabcd", "last"]) "ab\ncd".toList ∧
    start (columns 10) dollar (initial dollar (hist ["ab\ncdabcd", "last"]) noFiles (.ofText "ab\ncd".toList)) = .ok () s1 ∧
    (∀ k ∈ viewKeys.map plain, Calm (columns 10) Visible 10 k) ∧ Goes Emacs.keyMap (columns 10) (viewKeys.map plain) ({}, s1) t ∧
    ¬ Searches (viewKeys.map plain) ∧ Emacs.keyMap.handleKey (columns 10) (fun _ => []) (.char '\n') t = .ok true t' ∧
    InSight used 10 t'.2.out ∧ PromptFits (columns 10) 10 t'.2.prompt ['$', ' '] ∧ text? t'.2 = some "ab\ncdabc".toList ∧
    drawn t'.2 "ab\ncdabc".toList = "ab\ncdabcd".toList ∧ SameRow 10 t'.2 ['$', ' '] "ab\ncdabc".toList := by
  obtain ⟨_, s1, h1, h2⟩ := of_okAnd enter_run
  split at h2
  · rename_i t ht
    obtain ⟨r, t', h3, h4⟩ := of_okAnd h2
    simp only [Bool.and_eq_true, decide_eq_true_eq, beq_iff_eq] at h4
    obtain ⟨⟨⟨⟨⟨⟨⟨⟨h5, h6⟩, h7⟩, h8⟩, h9⟩, h10⟩, -⟩, -⟩, -⟩ := h4
    subst h5
    refine ⟨s1, t, t', plainly_columns (by decide) (fun _ h => h), begins_dollar (by decide) _ _ (by decide) (by decide), h1, calm_all (by decide),
      trace_goes ht, by unfold Searches; decide, h3, inSight_of h6, fits_plain h10 (by unfold Plain; decide) (by decide), h7, h9,
      sameRow_of (by rw [h9]; decide) (by rw [h8]; decide)⟩
  · cases h2

/-- Emacs keys after a list of candidates: the first Enter takes the candidate, the second finishes the line. -/
theorem enter_tab_run : okAnd (start (columns 10) dollar (initial dollar (hist []) noFiles (.ofText [])))
    (fun _ s1 => match trace Emacs.keyMap (columns 10) (tabKeys ++ [plain (.char '\n')]) ({}, s1) with
      | some t => okAnd (Emacs.keyMap.handleKey (columns 10) (fun _ => []) (.char '\n') t) fun r t' => r &&
          decide (used.Fits 10 t'.2.out ∧ lowest used 10 t'.2.out ≤ 100) && text? t'.2 == some "xy a".toList && t'.2.cursor == 4 &&
          drawn t'.2 "xy a".toList == "xy a".toList && t'.2.prompt.toText == ['$', ' '] &&
          rowsOn 10 5 (used.toks 10 t'.2.out) == ["xxx       ".toList, "xxx⏎      ".toList, "$ xy a    ".toList, "          ".toList,
            "          ".toList] &&
          (used.toks 10 t'.2.out).row == 3 && (used.toks 10 t'.2.out).col == 0
      | none => false) = true := by
  decide +kernel

/-- The hypotheses of `C67_enter_emacs_partial` are met by them. -/
example : ∃ (s1 : Ed) (t t' : Emacs × Ed), Plainly (columns 10) Visible 10 ∧
    Begins (columns 10) Visible 10 dollar [] (hist []) [] ∧
    start (columns 10) dollar (initial dollar (hist []) noFiles (.ofText [])) = .ok () s1 ∧
    (∀ k ∈ tabKeys ++ [plain (.char '\n')], Calm (columns 10) Visible 10 k) ∧
    Goes Emacs.keyMap (columns 10) (tabKeys ++ [plain (.char '\n')]) ({}, s1) t ∧
    ¬ Searches (tabKeys ++ [plain (.char '\n')]) ∧ Emacs.keyMap.handleKey (columns 10) (fun _ => []) (.char '\n') t = .ok true t' ∧
    InSight used 10 t'.2.out ∧ PromptFits (columns 10) 10 t'.2.prompt ['$', ' '] ∧ text? t'.2 = some "xy a".toList ∧
    SameRow 10 t'.2 ['$', ' '] "xy a".toList := by
  obtain ⟨_, s1, h1, h2⟩ := of_okAnd enter_tab_run
  split at h2
  · rename_i t ht
    obtain ⟨r, t', h3, h4⟩ := of_okAnd h2
    simp only [Bool.and_eq_true, decide_eq_true_eq, beq_iff_eq] at h4
    obtain ⟨⟨⟨⟨⟨⟨⟨⟨h5, h6⟩, h7⟩, h8⟩, h9⟩, h10⟩, -⟩, -⟩, -⟩ := h4
    subst h5
    refine ⟨s1, t, t', plainly_columns (by decide) (fun _ h => h), begins_dollar (by decide) _ _ (by decide) (by decide), h1, fun k hk => ?_,
      trace_goes ht, by unfold Searches; decide, h3, inSight_of h6, fits_plain h10 (by unfold Plain; decide) (by decide), h7,
      sameRow_of (by rw [h9]; decide) (by rw [h8]; decide)⟩
    rcases List.mem_append.mp hk with h | h
    · exact tab_calm k h
    · exact calm_all (ks := [.char '\n']) (by decide) k h
  · cases h2

/-- Vi keys: Enter in normal mode, after a line that fills its row, on a character of two columns. -/
theorem enter_vi_run : okAnd (start (columns 10) modal (initial modal (hist []) noFiles (.ofText "ab".toList)))
    (fun _ s1 => okAnd (Vi.keyMap.init (columns 10) ({}, s1)) fun _ t0 =>
      match trace Vi.keyMap (columns 10) ((chars "cde漢" ++ [Key.esc]).map plain) t0 with
      | some t => okAnd (Vi.keyMap.handleKey (columns 10) (fun _ => []) (.char '\n') t) fun r t' => r &&
          decide (used.Fits 10 t'.2.out ∧ lowest used 10 t'.2.out ≤ 100) && text? t'.2 == some "abcde漢".toList && t'.2.cursor == 5 &&
          drawn t'.2 "abcde漢".toList == "abcde漢".toList && t'.2.prompt.toText == ['N', '$', ' '] &&
          rowsOn 10 5 (used.toks 10 t'.2.out) == ["xxx       ".toList, "xxx⏎      ".toList, "N$ abcde漢".toList ++ [half], "          ".toList,
            "          ".toList] &&
          (used.toks 10 t'.2.out).row == 3 && (used.toks 10 t'.2.out).col == 0
      | none => false) = true := by
  decide +kernel

/-- The hypotheses of `C67_enter_vi_partial` are met by them. -/
example : ∃ (s1 : Ed) (t0 t t' : Vi × Ed), Plainly (columns 10) Visible 10 ∧
    Begins (columns 10) Visible 10 modal [] (hist []) "ab".toList ∧
    start (columns 10) modal (initial modal (hist []) noFiles (.ofText "ab".toList)) = .ok () s1 ∧
    Vi.keyMap.init (columns 10) ({}, s1) = .ok () t0 ∧
    (∀ k ∈ (chars "cde漢" ++ [Key.esc]).map plain, Calm (columns 10) Visible 10 k) ∧ Goes Vi.keyMap (columns 10) ((chars "cde漢" ++ [Key.esc]).map plain) t0 t ∧
    ¬ Searches ((chars "cde漢" ++ [Key.esc]).map plain) ∧ Vi.keyMap.handleKey (columns 10) (fun _ => []) (.char '\n') t = .ok true t' ∧
    InSight used 10 t'.2.out ∧ PromptFits (columns 10) 10 t'.2.prompt ['N', '$', ' '] ∧ text? t'.2 = some "abcde漢".toList ∧ t'.2.cursor = 5 ∧
    SameRow 10 t'.2 ['N', '$', ' '] "abcde漢".toList := by
  obtain ⟨_, s1, h1, h2⟩ := of_okAnd enter_vi_run
  obtain ⟨_, t0, h0, h2⟩ := of_okAnd h2
  split at h2
  · rename_i t ht
    obtain ⟨r, t', h3, h4⟩ := of_okAnd h2
    simp only [Bool.and_eq_true, decide_eq_true_eq, beq_iff_eq] at h4
    obtain ⟨⟨⟨⟨⟨⟨⟨⟨h5, h6⟩, h7⟩, h8⟩, h9⟩, h10⟩, -⟩, -⟩, -⟩ := h4
    subst h5
    exact ⟨s1, t0, t, t', plainly_columns (by decide) (fun _ h => h), begins_modal _ _ (by decide) (by decide), h1, h0, calm_all (by decide),
      trace_goes ht, by unfold Searches; decide, h3, inSight_of h6, fits_plain h10 (by unfold Plain; decide) (by decide), h7, h8,
      sameRow_of (by rw [h9]; decide) (by rw [h8]; decide)⟩
  · cases h2

/-- A prompt of three lines: the first, in bold, takes two rows of ten columns, the second is empty. -/
def tallPrompt : Prompt := { prompt := [escChar, '[', '1', 'm'] ++ "in /usr/bin:".toList ++ [escChar, '[', 'm', '\n', '\n', '%', ' '] }

def tallHeads : List Text := ["in /usr/bin:".toList, []]

/-- A terminal with something on two rows. -/
def halfUsed : Screen := { row := 1, col := 3, cell := fun i j => if i < 2 ∧ j < 3 then 'x' else ' ' }

theorem tall_run : okAnd (start (columns 10) tallPrompt (initial tallPrompt (hist []) noFiles (.ofText [])))
    (fun _ s1 => match trace Emacs.keyMap (columns 10) ((chars "make all -k").map plain) ({}, s1) with
      | some t => okAnd (Emacs.keyMap.handleKey (columns 10) (fun _ => []) (.char '\n') t) fun r t' => r &&
          decide (halfUsed.Fits 10 t'.2.out ∧ lowest halfUsed 10 t'.2.out ≤ 100) && text? t'.2 == some "make all -k".toList && t'.2.cursor == 11 &&
          drawn t'.2 "make all -k".toList == "make all -k".toList && t'.2.prompt.toText == ['%', ' '] &&
          rowsOn 10 8 (halfUsed.toks 10 t'.2.out) == ["xxx       ".toList, "xxx⏎      ".toList, "in /usr/bi".toList, "n:        ".toList,
            "          ".toList, "% make all".toList, " -k       ".toList, "          ".toList] &&
          (halfUsed.toks 10 t'.2.out).row == 7 && (halfUsed.toks 10 t'.2.out).col == 0
      | none => false) = true := by
  decide +kernel

theorem begins_tall : Begins (columns 10) Visible 10 tallPrompt tallHeads (hist []) [] where
  prompt := by
    refine ⟨[[escChar, '[', '1', 'm'] ++ "in /usr/bin:".toList ++ [escChar, '[', 'm'], []], ['%', ' '], ['%', ' '], by unfold LinesOf; decide,
      .cons ?_ (.cons (fun u v h => h) .nil), ⟨by rw [← C14_remove_codes]; decide, counted_columns (by unfold Plain; decide), by decide⟩,
      fun _ => ⟨['%', ' '], fits_plain rfl (by unfold Plain; decide) (by decide)⟩⟩
    intro u v h
    refine .csi ['1'] _ _ 'm' (by decide) (by decide) ?_
    iterate 12 refine .keep _ _ _ (by decide) ?_
    exact .csi [] _ _ 'm' (by decide) (by decide) h
  heads := by unfold tallHeads; decide
  share := rfl
  entries := fun _ h => nomatch h
  line := fun _ h => nomatch h

/-- The hypotheses of `C67_enter_emacs_partial` are met by it. -/
example : ∃ (s1 : Ed) (t t' : Emacs × Ed), Plainly (columns 10) Visible 10 ∧
    Begins (columns 10) Visible 10 tallPrompt tallHeads (hist []) [] ∧ Clear halfUsed 10 ∧
    start (columns 10) tallPrompt (initial tallPrompt (hist []) noFiles (.ofText [])) = .ok () s1 ∧
    (∀ k ∈ (chars "make all -k").map plain, Calm (columns 10) Visible 10 k) ∧
    Goes Emacs.keyMap (columns 10) ((chars "make all -k").map plain) ({}, s1) t ∧ ¬ Searches ((chars "make all -k").map plain) ∧
    Emacs.keyMap.handleKey (columns 10) (fun _ => []) (.char '\n') t = .ok true t' ∧
    InSight halfUsed 10 t'.2.out ∧ PromptFits (columns 10) 10 t'.2.prompt ['%', ' '] ∧ text? t'.2 = some "make all -k".toList ∧
    SameRow 10 t'.2 ['%', ' '] "make all -k".toList ∧ editorRow 10 tallHeads halfUsed = 5 := by
  obtain ⟨_, s1, h1, h2⟩ := of_okAnd tall_run
  split at h2
  · rename_i t ht
    obtain ⟨r, t', h3, h4⟩ := of_okAnd h2
    simp only [Bool.and_eq_true, decide_eq_true_eq, beq_iff_eq] at h4
    obtain ⟨⟨⟨⟨⟨⟨⟨⟨h5, h6⟩, h7⟩, h8⟩, h9⟩, h10⟩, -⟩, -⟩, -⟩ := h4
    subst h5
    refine ⟨s1, t, t', plainly_columns (by decide) (fun _ h => h), begins_tall, fun i j hi hj => ?_, h1, calm_all (by decide),
      trace_goes ht, by unfold Searches; decide, h3, inSight_of h6, fits_plain h10 (by unfold Plain; decide) (by decide), h7,
      sameRow_of (by rw [h9]; decide) (by rw [h8]; decide), by decide⟩
    have hi : 2 ≤ i := hi
    exact if_neg (by omega)
  · cases h2

/-- Ctrl-C in the middle of a line. -/
theorem stop_run : okAnd (start (columns 10) dollar (initial dollar (hist ["ab\ncdabcd", "last"]) noFiles (.ofText "ab\ncd".toList)))
    (fun _ s1 => match trace Emacs.keyMap (columns 10) (viewKeys.map plain) ({}, s1) with
      | some t => text? t.2 == some "ab\ncdabc".toList && !t.2.reverseSearch && !t.2.forwardSearch && t.2.cursor == 6 && t.2.showCompletionsHint == none &&
        errAnd (Emacs.keyMap.handleKey (columns 10) (fun _ => []) (.ctrl 'c') t) fun e t' => e == .interrupted &&
          decide (used.Fits 10 t'.2.out ∧ lowest used 10 t'.2.out ≤ 100) && text? t'.2 == some "ab\ncdabc".toList && t'.2.cursor == 8 &&
          drawn t'.2 "ab\ncdabc".toList == "ab\ncdabcd".toList && t'.2.prompt.toText == ['$', ' '] &&
          rowsOn 10 6 (used.toks 10 t'.2.out) == ["xxx       ".toList, "xxx⏎      ".toList, "$ ab      ".toList, "  cdabc   ".toList,
            "          ".toList, "          ".toList] &&
          (used.toks 10 t'.2.out).row == 4 && (used.toks 10 t'.2.out).col == 0
      | none => false) = true := by
  decide +kernel

/-- The hypotheses of `C67_stop_emacs_partial` are met by it. -/
example : ∃ (s1 : Ed) (t t' : Emacs × Ed), Plainly (columns 10) Visible 10 ∧
    Begins (columns 10) Visible 10 dollar [] (hist ["ab\ncdabcd", "last"]) "ab\ncd".toList ∧
    start (columns 10) dollar (initial dollar (hist ["ab\ncdabcd", "last"]) noFiles (.ofText "ab\ncd".toList)) = .ok () s1 ∧
    (∀ k ∈ viewKeys.map plain, Calm (columns 10) Visible 10 k) ∧ Goes Emacs.keyMap (columns 10) (viewKeys.map plain) ({}, s1) t ∧
    ¬ Searches (viewKeys.map plain) ∧ Emacs.keyMap.handleKey (columns 10) (fun _ => []) (.ctrl 'c') t = .err .interrupted t' ∧
    text? t.2 = some "ab\ncdabc".toList ∧ (¬ t.2.reverseSearch ∧ ¬ t.2.forwardSearch) ∧ t.2.showCompletionsHint = none ∧
    ("ab\ncdabc".toList.take t.2.cursor).getLast? ≠ some '\\' ∧
    InSight used 10 t'.2.out ∧ PromptFits (columns 10) 10 t'.2.prompt ['$', ' '] ∧ text? t'.2 = some "ab\ncdabc".toList ∧
    SameRow 10 t'.2 ['$', ' '] "ab\ncdabc".toList := by
  obtain ⟨_, s1, h1, h2⟩ := of_okAnd stop_run
  split at h2
  · rename_i t ht
    simp only [Bool.and_eq_true, beq_iff_eq, Bool.not_eq_true'] at h2
    obtain ⟨⟨⟨⟨⟨a1, a2⟩, a3⟩, a4⟩, a5⟩, h2⟩ := h2
    obtain ⟨e, t', h3, h4⟩ := of_errAnd h2
    simp only [Bool.and_eq_true, decide_eq_true_eq, beq_iff_eq] at h4
    obtain ⟨⟨⟨⟨⟨⟨⟨⟨h5, h6⟩, h7⟩, h8⟩, h9⟩, h10⟩, -⟩, -⟩, -⟩ := h4
    subst h5
    exact ⟨s1, t, t', plainly_columns (by decide) (fun _ h => h), begins_dollar (by decide) _ _ (by decide) (by decide), h1, calm_all (by decide),
      trace_goes ht, by unfold Searches; decide, h3, a1, by simp [a2, a3], a5, by rw [a4]; decide, inSight_of h6,
      fits_plain h10 (by unfold Plain; decide) (by decide), h7, sameRow_of (by rw [h9]; decide) (by rw [h8]; decide)⟩
  · cases h2

/-- C67 fails when a suggestion is shown that takes more rows than the line: after Enter the cursor of the terminal is at the
beginning of the row of the line. -/
theorem C67_suggestion_violation : ∃ (E : Env) (w : Nat) (pr : Prompt) (hist : History) (s1 : Ed) (t t' : Emacs × Ed) (scr : Screen),
    (∀ t, E.termSize t = some w) ∧ E.ttyWidth = some w ∧ start E pr (initial pr hist noFiles {}) = .ok () s1 ∧
    Emacs.keyMap.handleKey E (fun _ => []) (.char 'a') ({}, s1) = .ok false t ∧
    Emacs.keyMap.handleKey E (fun _ => []) (.char '\n') t = .ok true t' ∧ scr.row = 5 ∧ scr.col = 0 ∧ scr.wrap = false ∧
    (List.range 10).map ((scr.toks w t'.2.out).cell 5) = "$ a       ".toList ∧ (scr.toks w t'.2.out).row = 5 ∧ (scr.toks w t'.2.out).col = 0 := by
  have h : okAnd (start (columns 10) dollar (initial dollar (hist ["abcdefghijk"]) noFiles {})) (fun _ s1 =>
      okAnd (Emacs.keyMap.handleKey (columns 10) (fun _ => []) (.char 'a') ({}, s1)) fun r t => !r &&
      okAnd (Emacs.keyMap.handleKey (columns 10) (fun _ => []) (.char '\n') t) fun r t' => r &&
        (List.range 10).map ((({ row := 5 } : Screen).toks 10 t'.2.out).cell 5) == "$ a       ".toList &&
        (({ row := 5 } : Screen).toks 10 t'.2.out).row == 5 && (({ row := 5 } : Screen).toks 10 t'.2.out).col == 0) = true := by decide +kernel
  obtain ⟨_, s1, h1, h2⟩ := of_okAnd h
  obtain ⟨r, t, h2, h3⟩ := of_okAnd h2
  simp only [Bool.and_eq_true, Bool.not_eq_true'] at h3
  obtain ⟨rfl, h3⟩ := h3
  obtain ⟨r, t', h3, h4⟩ := of_okAnd h3
  simp only [Bool.and_eq_true, beq_iff_eq] at h4
  obtain ⟨⟨⟨rfl, h5⟩, h6⟩, h7⟩ := h4
  exact ⟨columns 10, 10, dollar, _, s1, t, t', { row := 5 }, fun _ => rfl, rfl, h1, h2, h3, rfl, rfl, rfl, h5, h6, h7⟩

/-- C67 fails for Ctrl-C after a backslash: a newline is put into the line, the read ends, and the cursor of the terminal
is left inside the line. -/
theorem C67_interrupt_violation : ∃ (E : Env) (w : Nat) (pr : Prompt) (s1 : Ed) (t' : Emacs × Ed) (scr : Screen),
    (∀ t, E.termSize t = some w) ∧ E.ttyWidth = some w ∧ start E pr (initial pr {} noFiles (.ofText "a\\".toList)) = .ok () s1 ∧
    Emacs.keyMap.handleKey E (fun _ => []) (.ctrl 'c') ({}, s1) = .err .interrupted t' ∧ scr.row = 0 ∧ scr.col = 0 ∧ scr.wrap = false ∧
    text? t'.2 = some "a\\\n".toList ∧ (scr.toks w t'.2.out).row = 1 ∧ (scr.toks w t'.2.out).col = 2 := by
  have h : okAnd (start (columns 10) dollar (initial dollar {} noFiles (.ofText "a\\".toList))) (fun _ s1 =>
      errAnd (Emacs.keyMap.handleKey (columns 10) (fun _ => []) (.ctrl 'c') ({}, s1)) fun e t' => e == .interrupted &&
        text? t'.2 == some "a\\\n".toList && (({} : Screen).toks 10 t'.2.out).row == 1 && (({} : Screen).toks 10 t'.2.out).col == 2) = true := by
    decide +kernel
  obtain ⟨_, s1, h1, h2⟩ := of_okAnd h
  obtain ⟨e, t', h2, h3⟩ := of_errAnd h2
  simp only [Bool.and_eq_true, beq_iff_eq] at h3
  obtain ⟨⟨⟨rfl, h4⟩, h5⟩, h6⟩ := h3
  exact ⟨columns 10, 10, dollar, s1, t', {}, fun _ => rfl, rfl, h1, h2, rfl, rfl, rfl, h4, h5, h6⟩

end Liner.Props
