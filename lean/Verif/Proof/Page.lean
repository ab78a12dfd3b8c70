import Verif.Proof.FreshKeys
import Verif.Proof.Redraw
/-
The screen while a line is read.
-/

namespace Liner
open Liner.Spec Liner.Editor Liner.Screen

/-- The states of an editor that is shown from row `R0` on, or further below after Ctrl-L (`L`), perhaps in a search (`S`) or
with a list of candidates (in `H`), below the cells `base`. -/
structure Page [Glyphs] (E : Env) (P : Char → Prop) (H : List Text → Prop) (w : Nat) (scr : Screen) (R0 : Nat) (base : Nat → Nat → Char) (L S : Prop) (s : Ed) : Prop where
  search : s.isSearch = true → S
  fits : S → SearchFits E P s.prompt
  hint : ∀ x, s.showCompletionsHint = some x → H x.1
  share : s.history.share = false
  prompt : ∀ m, ∃ p, PromptFits E w (inMode s.prompt m) p
  inks : Inks P s
  page : Sight scr w s.out → ∃ R, R0 ≤ R ∧ (¬ L → R = R0) ∧ (scr.flow w s.out).row = R + (s.termCursorLine - 1) ∧
    0 < s.termCursorLine ∧ s.termCursorLine < 65536 ∧ ∀ i j, i < R0 → (scr.flow w s.out).cell i j = base i j

theorem inMode_self (pr : Prompt) : ∃ m, inMode pr m = pr := by
  unfold inMode
  cases pr with
  | mk t v =>
    cases v with
    | none => exact ⟨.normal, rfl⟩
    | some st => exact ⟨st.mode, rfl⟩

theorem sugOf_mem {s : Ed} {x : Buffer} (h : sugOf s = some (some x)) : x ∈ s.history.buffers := by
  unfold sugOf at h
  split at h
  · cases h
  · dsimp only at h
    split at h
    · cases h
    · split at h
      · rename_i b hb
        cases h
        exact List.mem_of_getElem? hb
      · cases h

theorem drawn_sug {s s' : Ed} {o : Option Buffer} {c : Nat} (h : Drawn { s with autosuggestion := o } s' c) :
    s'.autosuggestion = o := by
  obtain ⟨_, _, _, _, rfl⟩ := h
  rfl

theorem lines_one {t : Text} {ls : List Text} (h : LinesOf t ls) (hn : '\n' ∉ t) : ls = [t] := by
  rw [← linesOf_split h, Props.split_none hn]

theorem search_cond {s : Ed} : (s.reverseSearch = true ∨ s.forwardSearch = true) ↔ s.isSearch = true := by
  simp [Ed.isSearch]

section
variable [Glyphs] {E : Env} {P : Char → Prop} {H : List Text → Prop} {w : Nat} {scr : Screen} {R0 : Nat} {base : Nat → Nat → Char} {L S : Prop}

theorem Sight.left {a b : List Tok} (h : Sight scr w (a ++ b)) : Sight scr w a :=
  fun o ho => h o (ho.trans (List.prefix_append _ _))

omit [Glyphs] in
theorem text_ink {s : Ed} {line : Text} (hi : Inks P s) (ht : text? s = some line) : Ink P line := by
  unfold text? at ht
  rw [Option.map_eq_some_iff] at ht
  obtain ⟨b, hcb, rfl⟩ := ht
  exact curBuf_ink hi hcb

omit [Glyphs] in
theorem drawn_ink {s : Ed} {line : Text} (hi : Inks P s) (ht : text? s = some line) : Ink P (drawn s line) := by
  unfold drawn
  cases hx : s.autosuggestion with
  | none => exact text_ink hi ht
  | some x => exact hi.sug x hx

theorem searchLine_ink {pr : Prompt} {m : ViPromptMode} (h : SearchFits E P (inMode pr m)) (hpr : inMode pr m = pr) {term : Text}
    (ht : Ink P term) (i n : Nat) : Ink P (searchLine pr.pre term i n) := by
  have hd : ∀ (n : Nat) c, c ∈ (toString n).toList → P c := by
    intro n c hc
    rw [← Props.fmtNat_eq] at hc
    have := Props.digits_plain n c hc
    refine h.frame c ?_
    have h1 : ∀ k, k < 10 → Char.ofNat (48 + k) ∈ "(search)'` (0123456789/): ".toList := by decide
    have h2 : 48 ≤ c.toNat ∧ c.toNat ≤ 57 := by
      simp only [Char.isDigit, Bool.and_eq_true, decide_eq_true_eq] at this
      exact ⟨this.1, this.2⟩
    have h3 := h1 (c.toNat - 48) (by omega)
    rw [show 48 + (c.toNat - 48) = c.toNat by omega, Char.ofNat_toNat] at h3
    exact h3
  have hm : Ink P pr.pre := by
    have := h.mode m
    rw [show inMode (inMode pr m) m = pr by rw [hpr, hpr]] at this
    exact this
  have hf : ∀ t : Text, (∀ c ∈ t, c ∈ "(search)'` (0123456789/): ".toList) → ∀ c ∈ t, P c := fun t ht c hc => h.frame c (ht c hc)
  intro c hc
  unfold searchLine at hc
  simp only [List.mem_append] at hc
  rcases hc with ((((((hc | hc) | hc) | hc) | hc) | hc) | hc) | hc
  · exact hm c hc
  · exact hf "(search)'".toList (by decide) c hc
  · exact ht c hc
  · exact hf "` (".toList (by decide) c hc
  · exact hd _ c hc
  · exact hf "/".toList (by decide) c hc
  · exact hd _ c hc
  · exact hf "): ".toList (by decide) c hc

variable (hE : OnlyColours E) (htw : ∀ t, E.termSize t = some w) (hw : 0 < w ∧ w < 65536) (hP : CountsRight E P) (hH : ∀ cs, H cs → ListFits E w cs)
include hE htw hw hP hH

/-- What a redraw shows. -/
theorem page_draw {s s' : Ed} (hs : Page E P H w scr R0 base L S s) (h : display E s = .ok () s')
    (hi : Inks P s') (hsame : Same s s') (hsee : Sight scr w s'.out) (p : Text) (ls : List Text) (n : Nat)
    (hv : ToSee E w s' p ls n) :
    ∃ R rows, R0 ≤ R ∧ (¬ L → R = R0) ∧ HintRows w s.showCompletionsHint rows ∧
      (scr.flow w s'.out).Shows w R (rowsOf w (rows ++ shown p ls)) ∧ (scr.flow w s'.out).On w (R + rows.length) n ∧
      (scr.flow w s'.out).row = R + (s'.termCursorLine - 1) ∧ 0 < s'.termCursorLine ∧ s'.termCursorLine < 65536 ∧
      ∀ i j, i < R0 → (scr.flow w s'.out).cell i j = base i j := by
  obtain ⟨line, ht, hls, hv⟩ := hv
  have hink := drawn_ink hi ht
  have hn : ∀ l ∈ ls, Counted E l := by
    intro l hl
    have h1 : l ∈ Buffer.splitOn (· == '\n') (drawn s' line) := by rw [linesOf_split hls]; exact hl
    have h2 := splitOn_ink hink l h1
    exact hP l (fun c hc => (h2 c hc).1) (hls.2.2 l hl)
  obtain ⟨o, ho⟩ : ∃ o, s'.out = s.out ++ o := by
    obtain ⟨sug, _, hd⟩ := Props.draw_any h
    obtain ⟨b, w', tc, up, comp, f, t, _, _, _, _, _, _, rfl⟩ := hd.ex
    refine ⟨f.toks, ?_⟩
    show (pre s).out ++ f.toks = _
    unfold pre
    split <;> rfl
  obtain ⟨R, h1, h2, h3, h4, h5, h6⟩ := hs.page (Sight.left (ho ▸ hsee))
  have hc : HintFits E w s.showCompletionsHint := fun x hx => hH _ (hs.hint x hx)
  have fin : ∀ (rows : List Text) (o1 o2 : List Tok), HintRows w s.showCompletionsHint rows → s'.out = s.out ++ (o1 ++ o2) →
      ((scr.flow w s.out).flow w o1).row = R + rows.length + endOf w (shown p ls) / w →
      (rows.length + endOf w (shown p ls) / w + 1 < 65536 →
        ((scr.flow w s.out).flow w (o1 ++ o2)).Shows w R (rowsOf w (rows ++ shown p ls)) ∧
        ((scr.flow w s.out).flow w (o1 ++ o2)).On w (R + rows.length) n ∧
        (∀ i j, i < R → ((scr.flow w s.out).flow w (o1 ++ o2)).cell i j = (scr.flow w s.out).cell i j) ∧
        ((scr.flow w s.out).flow w (o1 ++ o2)).row = R + (s'.termCursorLine - 1) ∧ 0 < s'.termCursorLine ∧ s'.termCursorLine < 65536) →
      ∃ R rows, R0 ≤ R ∧ (¬ L → R = R0) ∧ HintRows w s.showCompletionsHint rows ∧
        (scr.flow w s'.out).Shows w R (rowsOf w (rows ++ shown p ls)) ∧ (scr.flow w s'.out).On w (R + rows.length) n ∧
        (scr.flow w s'.out).row = R + (s'.termCursorLine - 1) ∧ 0 < s'.termCursorLine ∧ s'.termCursorLine < 65536 ∧
        ∀ i j, i < R0 → (scr.flow w s'.out).cell i j = base i j := by
    intro rows o1 o2 hr h7 h8 h9
    have h10 := hsee (s.out ++ o1) (by rw [h7, ← List.append_assoc]; exact List.prefix_append _ _)
    rw [flow_append, h8] at h10
    obtain ⟨g1, g2, g3, g4, g5, g6⟩ := h9 (by omega)
    rw [h7, flow_append]
    exact ⟨R, rows, h1, h2, hr, g1, g2, g4, g5, g6, fun i j hij => (g3 i j (by omega)).trans (h6 i j hij)⟩
  by_cases hq : s.isSearch = true
  · rw [if_pos (search_cond.mpr (hsame.isSearch.trans hq))] at hv
    obtain ⟨hp, rfl⟩ := hv
    have hS := hs.fits (hs.search hq)
    obtain ⟨m, hm⟩ := inMode_self s.prompt
    have hnl : ∀ {t : Text}, Ink P t → '\n' ∉ t := fun ht hc => hS.one (ht _ hc)
    have hnar : ∀ {t : Text}, Ink P t → ∀ c ∈ t, Glyphs.width c = 1 := fun ht c hc => hS.narrow c (ht c hc)
    have hsub : ∀ l ∈ ls, ∀ c ∈ l, c ∈ drawn s' line := by
      intro l hl c hc
      rw [lines_one hls (hnl hink), List.mem_singleton] at hl
      rw [← hl]; exact hc
    have hlen := hS.len m
    rw [hm] at hlen
    rw [hsame.prompt] at hp
    have hpi : Ink P p := by
      rw [hp]; exact searchLine_ink (m := m) (by rw [hm]; exact hS) hm (text_ink hi ht) _ _
    have hone := lines_one hls (hnl hink)
    obtain ⟨rows, o1, o2, hr, h7, h8, h9⟩ := Props.search_core E w s s' h (search_cond.mpr hq) hc hE (htw _) (Or.inl (htw _)) hw hlen line ht
      ⟨hP _ (text_ink hi ht) (hnl (text_ink hi ht)), hnar (text_ink hi ht)⟩ p hp ⟨hP p hpi (hnl hpi), hnar hpi⟩ ls hls
      (fun l hl => ⟨hn l hl, hnar fun c hc => hink c (hsub l hl c hc)⟩) (Or.inr (by rw [hone]; rfl))
      (by rw [hone]; exact Nat.le_total _ _) (scr.flow w s.out) R ⟨h4, h5⟩ h3
    rw [← hsame.prompt] at h9
    exact fin rows o1 o2 hr h7 h8 h9
  · rw [if_neg (fun hc => hq (hsame.isSearch.symm.trans (search_cond.mp hc)))] at hv
    obtain ⟨hp, before, hb, rfl⟩ := hv
    rw [hsame.prompt] at hp
    have hq' : ¬ s.reverseSearch ∧ ¬ s.forwardSearch := by simpa [Ed.isSearch] using hq
    obtain ⟨rows, o1, o2, hr, h7, h8, h9⟩ := Props.redraw_core E w s s' h hq' hc hE (htw _) (Or.inl (htw _)) hw p hp.strip hp.one hp.counted line ht ls before
      hls hb hn (Or.inl hp.fits) (scr.flow w s.out) R ⟨h4, h5⟩ h3
    exact fin rows o1 o2 hr h7 h8 h9

theorem page_disp (s : Ed) (hs : Page E P H w scr R0 base L S s) :
    Wp (display E) s (fun _ s' => Page E P H w scr R0 base L S s') (fun _ _ => True) (fun _ => True) := by
  refine wp_mono (wp_and wp_run (display_wp E s)) (fun _ s' h => ?_) (fun _ _ _ => trivial) (fun _ _ => trivial)
  obtain ⟨h1, h2⟩ := h
  have hsame := h2.same
  obtain ⟨sug, hsug, hd⟩ := Props.draw_any h1
  have hi : Inks P s' := by
    refine ⟨hsame.newBuf ▸ hs.inks.new, hsame.histBuf ▸ hs.inks.his, hsame.history ▸ hs.inks.ent, fun b hb => ?_,
      hsame.hint ▸ hs.inks.hint⟩
    obtain ⟨_, _, hdr⟩ := hd.drawn
    rw [drawn_sug hdr] at hb
    subst hb
    have := sugOf_mem hsug
    rw [(pre_same s).history] at this
    exact hs.inks.ent b this
  refine ⟨fun h => hs.search (hsame.isSearch.symm.trans h), hsame.prompt ▸ hs.fits, hsame.hint ▸ hs.hint, hsame.history ▸ hs.share,
    hsame.prompt ▸ hs.prompt, hi, fun hsee => ?_⟩
  obtain ⟨m, hm⟩ := inMode_self s'.prompt
  obtain ⟨p, hp⟩ : ∃ p, PromptFits E w s'.prompt p := by
    have := hs.prompt m
    rw [← hsame.prompt, hm] at this
    exact this
  obtain ⟨line, ht⟩ : ∃ line, text? s' = some line := by
    obtain ⟨b, w', tc, up, comp, f, t, hb, _, _, _, _, _, rfl⟩ := hd.ex
    exact ⟨b.data, by unfold text?; exact congrArg (Option.map _) (hb : (pre s).curBuf? = some b)⟩
  obtain ⟨p, ls, n, hv⟩ : ∃ p ls n, ToSee E w s' p ls n := by
    by_cases hq : s'.reverseSearch = true ∨ s'.forwardSearch = true
    · exact ⟨_, _, _, line, ht, split_linesOf _, by rw [if_pos hq]; exact ⟨rfl, rfl⟩⟩
    · exact ⟨_, _, _, line, ht, split_linesOf _, by rw [if_neg hq]; exact ⟨hp, _, split_linesOf _, rfl⟩⟩
  obtain ⟨R, rows, g1, g2, _, _, _, g5, g6, g7, g8⟩ := page_draw hE htw hw hP hH hs h1 hi hsame hsee p ls n hv
  exact ⟨R, g1, g2, g5, g6, g7, g8⟩

theorem scene_page : Scene E P H L (Page E P H w scr R0 base L S) where
  inks s hs := hs.inks
  lists s x hs hx := hs.hint x hx
  disp := page_disp hE htw hw hP hH
  put s n h c v l e bc si sl f hs hn hh := ⟨hs.search, hs.fits, hs.hint, hs.share, hs.prompt,
    ⟨hn, hh, hs.inks.ent, hs.inks.sug, hs.inks.hint⟩, hs.page⟩
  list s x hs hx := ⟨hs.search, hs.fits, fun y h => (hx y h).1, hs.share, hs.prompt,
    ⟨hs.inks.new, hs.inks.his, hs.inks.ent, hs.inks.sug, fun y h => (hx y h).2⟩, hs.page⟩
  tick s t hs := ⟨hs.search, hs.fits, hs.hint, hs.share, hs.prompt,
    ⟨hs.inks.new, hs.inks.his, hs.inks.ent, hs.inks.sug, hs.inks.hint⟩, hs.page⟩
  mode s m st hs hst := by
    have hmm : ∀ m', inMode { s.prompt with viStatus := some { st with mode := m } } m' = inMode s.prompt m' := by
      intro m'; unfold inMode; rw [hst]; rfl
    refine ⟨hs.search, fun h => ?_, hs.hint, hs.share, fun m' => ?_,
      ⟨hs.inks.new, hs.inks.his, hs.inks.ent, hs.inks.sug, hs.inks.hint⟩, hs.page⟩
    · have := hs.fits h
      exact ⟨this.one, this.narrow, this.frame, fun m' => by rw [hmm]; exact this.mode m', fun m' => by rw [hmm]; exact this.len m'⟩
    · have := hs.prompt m'
      rw [← hmm] at this
      exact this
  load s hs h := by rw [hs.share] at h; cases h
  quiet s hs := ⟨fun h => (by cases h), hs.fits, hs.hint, hs.share, hs.prompt,
    ⟨hs.inks.new, hs.inks.his, hs.inks.ent, hs.inks.sug, hs.inks.hint⟩, hs.page⟩
  top hl s t hs := by
    refine ⟨hs.search, hs.fits, hs.hint, hs.share, hs.prompt, ⟨hs.inks.new, hs.inks.his, hs.inks.ent, hs.inks.sug, hs.inks.hint⟩, fun hsee => ?_⟩
    obtain ⟨R, h1, h2, h3, h4, h5, h6⟩ := hs.page hsee
    exact ⟨R + (s.termCursorLine - 1), by omega, fun h => absurd hl h, h3, Nat.one_pos, by show 1 < 65536; omega, h6⟩

omit hE htw hw hP hH in
theorem page_search (h : S) (f : Bool) (s : Ed) (hs : Page E P H w scr R0 base L S s) : Page E P H w scr R0 base L S (refreshed f s) :=
  ⟨fun _ => h, hs.fits, hs.hint, hs.share, hs.prompt, ⟨hs.inks.new, hs.inks.his, hs.inks.ent, hs.inks.sug, hs.inks.hint⟩, hs.page⟩

/-- An up to date screen. -/
theorem page_shows {s : Ed} (hs : Now E (Page E P H w scr R0 base L S) s) (hsee : Sight scr w s.out)
    (p : Text) (ls : List Text) (n : Nat) (hv : ToSee E w s p ls n) :
    ∃ R rows, R0 ≤ R ∧ (¬ L → R = R0) ∧ (rows = [] ∨ ∃ cs, H cs ∧ Listed w cs rows) ∧
      (∀ x, s.showCompletionsHint = some x → Listed w x.1 rows) ∧ (scr.flow w s.out).Shows w R (rowsOf w (rows ++ shown p ls)) ∧
      (scr.flow w s.out).On w (R + rows.length) n ∧ ∀ i j, i < R0 → (scr.flow w s.out).cell i j = base i j := by
  obtain ⟨hs, s0, s1, h0, h1, h2, h3⟩ := hs
  have hsame : Same s0 s1 := (wp_ok (display_wp E s0) h1).same
  have hw1 := page_disp hE htw hw hP hH s0 h0
  unfold Wp at hw1
  rw [h1] at hw1
  have hpg : Page E P H w scr R0 base L S s1 := hw1
  rw [← h2] at hsee ⊢
  have hv1 : ToSee E w s1 p ls n := by
    obtain ⟨line, ht, hls, hv⟩ := hv
    refine ⟨line, h3.text ▸ ht, ?_, ?_⟩
    · have hd : drawn s1 line = drawn s line := by unfold drawn; rw [h3.sug]
      rw [hd]; exact hls
    · rw [h3.search.1, h3.search.2, h3.prompt, h3.cursor] at hv
      by_cases hq : s1.reverseSearch = true ∨ s1.forwardSearch = true
      · rw [if_pos hq] at hv ⊢
        have := h3.found (search_cond.mp hq)
        unfold placeOf at hv ⊢
        rw [this.1, this.2] at hv
        exact hv
      · rw [if_neg hq] at hv ⊢
        exact hv
  obtain ⟨R, rows, g1, g2, gr, g3, g4, g5, g6, g7, g8⟩ := page_draw hE htw hw hP hH h0 h1 hpg.inks hsame hsee p ls n hv1
  refine ⟨R, rows, g1, g2, ?_, fun x hx => ?_, g3, g4, g8⟩
  · cases hh : s0.showCompletionsHint with
    | none => rw [hh] at gr; exact Or.inl gr
    | some x => rw [hh] at gr; exact Or.inr ⟨x.1, h0.hint x hh, gr⟩
  · rcases h3.list with h | h
    · rw [h] at hx; cases hx
    · rw [h, hsame.hint] at hx
      rw [hx] at gr
      exact gr

end
end Liner
