import Verif.Proof.Complete
import Verif.Proof.Page
import Verif.Props.Screen
import Verif.Proof.Opening
/-
After every key the screen shows the prompt, the line and the cursor: C66.
-/

namespace Liner.Props
open Liner Liner.Spec Liner.Editor Liner.Screen

/-! ### The last thing written is a redraw of what the editor holds -/

theorem compOk_any (comp : Text → List Text) : CompOk (fun _ => True) (fun _ => True) comp :=
  fun _ => ⟨fun _ _ _ _ => trivial, fun _ _ => trivial⟩

theorem keyInk_any (k : Key) : KeyInk (fun _ => True) True k := ⟨fun _ _ => trivial, fun _ => trivial⟩

theorem start_now {E : Env} {pr : Prompt} {s s1 : Ed} (h : start E pr s = .ok () s1) : Now E (fun _ => True) s1 := by
  have key : Wp (start E pr) s (fun _ s' => Now E (fun _ => True) s') (fun _ _ => True) (fun _ => True) := by
    unfold start
    simp only [wp_bind, wp_writeTerm]
    refine ⟨fun _ => ?_, fun _ => trivial⟩
    split
    · trivial
    · rw [wp_bind]
      refine wp_mono wp_trivial (fun _ s2 _ => ?_) (fun _ _ _ => trivial) (fun _ _ => trivial)
      simp only [wp_bind, wp_writeTerm, wp_get]
      refine ⟨fun _ => ⟨fun _ => ?_, fun _ => trivial⟩, fun _ => trivial⟩
      split
      · exact fin_display (scene_any E) _ trivial
      · rw [wp_bind]
        exact wp_mono wp_trivial (fun _ s2 _ => fin_display (scene_any E) _ trivial) (fun _ _ _ => trivial) (fun _ _ => trivial)
  have h' := wp_ok key h
  exact h'

/-- C66 for the Emacs keys: whenever `read_line` waits for a key, the last thing that was written to the terminal is a
redraw of a state with the same prompt, line, cursor, suggestion and search as the editor now has.  `keys` are any
keys, the completers give any answers and the terminal may have any size at any time. -/
theorem C66_fresh_emacs (E : Env) (pr : Prompt) (s0 s1 : Ed) (e : Emacs) (hs : start E pr s0 = .ok () s1)
    (keys : List (Key × (Text → List Text))) (t : Emacs × Ed) (hg : Goes Emacs.keyMap E keys (e, s1) t) :
    Fresh E (fun _ => True) t.2 :=
  (now_goes (scene_any E) (I := fun _ => True) (fun _ hk => Emacs.upk_core (scene_any E) hk)
    (fun k _ => ⟨fun _ => keyInk_any k.1, fun _ => compOk_any k.2⟩) (Or.inl fun _ _ _ => trivial) hg trivial (start_now hs)).2.2

theorem viInk_new {P : Char → Prop} {L : Prop} (h : P 'i') : Vi.ViInk P L {} :=
  ⟨Vi.keysInk_nil, Vi.keysInk_nil, (fun k hk => by cases hk; exact ⟨fun _ hc => by cases hc; exact h, fun hc => nomatch hc⟩), Vi.optInk_none⟩

/-- C66 for the vi keys. -/
theorem C66_fresh_vi (E : Env) (pr : Prompt) (s0 s1 : Ed) (t0 t : Vi × Ed) (hs : start E pr s0 = .ok () s1)
    (hi : Vi.keyMap.init E ({}, s1) = .ok () t0)
    (keys : List (Key × (Text → List Text))) (hg : Goes Vi.keyMap E keys t0 t) :
    Fresh E (fun _ => True) t.2 := by
  have h0 := wp_ok (Vi.upk_init (scene_any E) ({}, s1) (viInk_new trivial) (start_now hs)) hi
  exact (now_goes (scene_any E) (I := Vi.ViInk (fun _ => True) True)
    (fun _ hk => Vi.upk_core (scene_any E) (fun _ _ => ⟨fun _ _ => trivial, fun _ _ => trivial⟩)
      ⟨trivial, trivial, trivial, trivial, trivial, trivial⟩ hk)
    (fun k _ => ⟨fun _ => keyInk_any k.1, fun _ => compOk_any k.2⟩) (Or.inl fun _ _ _ => trivial) hg h0.1 h0.2).2.2

/-! ### What is on the screen -/

/-- What the theorems below ask of the terminal and the environment: `w` columns, and the columns of characters in `P`
are counted right. -/
structure Plainly [Glyphs] (E : Env) (P : Char → Prop) (w : Nat) : Prop where
  colours : OnlyColours E
  size : ∀ t, E.termSize t = some w
  tty : E.ttyWidth = some w
  width : 0 < w ∧ w < 65536
  one : CountsRight E P

/-- What they ask of the start: a prompt with the lines `hs` above a last one that takes one row, a history that is not shared
and an initial line, with characters in `P`. -/
structure Begins [Glyphs] (E : Env) (P : Char → Prop) (w : Nat) (pr : Prompt) (hs : List Text) (hist : History) (x : Text) : Prop where
  prompt : ∃ ts t q, LinesOf pr.prompt (ts ++ [t]) ∧ List.Forall₂ ShowsAs ts hs ∧ (Strip t q ∧ Counted E q ∧ (onScreen q).length ≤ w) ∧
    ∀ m, ∃ p, PromptFits E w (inMode { pr with prompt := t } m) p
  heads : ∀ h ∈ hs, ∀ c ∈ h, c ≠ '\r'
  share : hist.share = false
  entries : ∀ b ∈ hist.buffers, ∀ c ∈ b.data, P c
  line : ∀ c ∈ x, P c

/-- What they ask of a key: a character in `P`; or Tab, and the candidates have characters in `P` and if there are several, their
list fits. -/
def Calm [Glyphs] (E : Env) (P : Char → Prop) (w : Nat) (k : Key × (Text → List Text)) : Prop :=
  (∀ c, k.1 = .char c → c ≠ '\t' → P c) ∧
    (k.1 = .char '\t' → ∀ v, (∀ t ∈ k.2 v, ∀ c ∈ t, P c) ∧ ∀ cs, SortedSet (k.2 v) cs → 2 ≤ cs.length → ListFits E w cs)

/-- The candidates at one of the keys. -/
def Offered (keys : List (Key × (Text → List Text))) (cs : List Text) : Prop :=
  ∃ k ∈ keys, k.1 = .char '\t' ∧ ∃ v, SortedSet (k.2 v) cs ∧ 2 ≤ cs.length

/-- One of the keys begins a search. -/
def Searches (keys : List (Key × (Text → List Text))) : Prop := ∃ k ∈ keys, k.1 = .ctrl 'r' ∨ k.1 = .ctrl 's'

theorem calm_comp [Glyphs] {E : Env} {P : Char → Prop} {w : Nat} {keys : List (Key × (Text → List Text))} (hk : ∀ k ∈ keys, Calm E P w k)
    {k : Key × (Text → List Text)} (h : k ∈ keys) (ht : k.1 = .char '\t') : CompOk P (Offered keys) k.2 := by
  intro v
  have hs := sortDedup_spec (k.2 v)
  exact ⟨fun c hc => ((hk k h).2 ht v).1 c ((hs.2 c).mp hc), fun h3 h4 => ⟨k, h, ht, v, hs, by omega⟩⟩

theorem offered_fits [Glyphs] {E : Env} {P : Char → Prop} {w : Nat} {keys : List (Key × (Text → List Text))} (hk : ∀ k ∈ keys, Calm E P w k)
    (cs : List Text) (h : Offered keys cs) : ListFits E w cs := by
  obtain ⟨k, h1, h2, v, h3, h4⟩ := h
  exact ((hk k h1).2 h2 v).2 cs h3 h4

section
variable {E : Env} {P : Char → Prop} {H : List Text → Prop} {w : Nat} {pr : Prompt} {hist : History} {fs : FS} {x : Text} {hs : List Text} {scr : Screen}
variable {base : Nat → Nat → Char} {R0 : Nat} {L S : Prop}

theorem showsAs_mem {t h : Text} (hs : ShowsAs t h) (c : Char) (hc : c ∈ h) : c ∈ t := by
  have h1 := (C14_remove_codes _ _).mpr (hs [] [] .nil)
  have h2 := C14_remove_codes_sublist (t ++ [])
  rw [h1, List.append_nil, List.append_nil] at h2
  exact h2.subset hc

theorem forall₂_right {α β : Type} {r : α → β → Prop} {l : List α} {l' : List β} (h : List.Forall₂ r l l') : ∀ b ∈ l', ∃ a ∈ l, r a b := by
  induction h with
  | nil => exact fun _ h => nomatch h
  | cons h _ ih =>
    intro b hb
    rcases List.mem_cons.mp hb with rfl | hb
    · exact ⟨_, by simp, h⟩
    · obtain ⟨a, ha, hr⟩ := ih b hb
      exact ⟨a, by simp [ha], hr⟩

theorem lastLine_join (ts : List Text) (t : Text) (h : '\n' ∉ t) : lastLine (joinLines (ts ++ [t])) = t := by
  cases ts with
  | nil => exact (C14_handle_prompt [] t h).2
  | cons a ts =>
    obtain ⟨pre, hpre⟩ : ∃ pre, joinLines (a :: ts ++ [t]) = pre ++ '\n' :: t := by
      induction ts generalizing a with
      | nil => exact ⟨a, rfl⟩
      | cons b ts ih =>
        obtain ⟨pre, hp⟩ := ih b
        exact ⟨a ++ '\n' :: pre, by
          show a ++ '\n' :: joinLines (b :: ts ++ [t]) = _
          rw [hp]; simp⟩
    rw [hpre]
    exact (C14_handle_prompt pre t h).1

theorem start_page [Glyphs] (hT : Plainly E P w) (hH : ∀ cs, H cs → ListFits E w cs) (hB : Begins E P w pr hs hist x) (hS : S → SearchFits E P pr)
    (hc : scr.col < w) (hcl : hs ≠ [] → Clear scr w) {s1 : Ed} (h : start E pr (initial pr hist fs (.ofText x)) = .ok () s1) :
    ∃ base, (∀ scr' : Screen, (∀ i j, i < editorRow w hs scr → scr'.cell i j = base i j) → Topped w hs scr scr') ∧
      Now E (Page E P H w scr (editorRow w hs scr) base L S) s1 := by
  obtain ⟨ts, t, q, hls, hts, ⟨hq, hqn, hqw⟩, hpr⟩ := hB.prompt
  have hnot : '\n' ∉ t := hls.2.2 t (by simp)
  have hlast : lastLine pr.prompt = t := by
    rw [← hls.2.1]
    exact lastLine_join ts t hnot
  have hjoin : joinCrLf pr.prompt = List.intercalate ['\r', '\n'] (ts ++ [t]) := by
    unfold joinCrLf
    rw [linesOf_split hls]
  have hnl : ∀ h ∈ hs, ∀ c ∈ h, c ≠ '\r' ∧ c ≠ '\n' := by
    intro h hh c hc
    refine ⟨hB.heads h hh c hc, ?_⟩
    rintro rfl
    obtain ⟨a, ha, hab⟩ := forall₂_right hts h hh
    exact hls.2.2 a (by simp [ha]) (showsAs_mem hab _ hc)
  obtain ⟨o, ho, hor, hoc⟩ := opening_heads (w := w) (scr := scr) hT.width.1 hc hts hnl hcl hq (Counted.plain hqn) hqw
  obtain ⟨base, hbase⟩ : ∃ base, base = (scr.flow w o).cell := ⟨_, rfl⟩
  rw [← hbase] at hoc
  refine ⟨base, hoc, ?_⟩
  have hC := scene_page (scr := scr) (R0 := editorRow w hs scr) (base := base) (L := L) (S := S) hT.colours hT.size hT.width hT.one hH
  have hini : (initial pr hist fs (.ofText x)).prompt = { pr with prompt := t } := by
    show ({ pr with prompt := lastLine pr.prompt } : Prompt) = _
    rw [hlast]
  have hpage : ∀ t, Page E P H w scr (editorRow w hs scr) base L S { initial pr hist fs (.ofText x) with tick := t, out := o } := fun t => {
    search := fun h => (by cases h)
    fits := fun h => by
      show SearchFits E P (initial pr hist fs (.ofText x)).prompt
      rw [hini]; exact ⟨(hS h).one, (hS h).narrow, (hS h).frame, (hS h).mode, (hS h).len⟩
    hint := fun _ h => (nomatch h)
    share := hB.share
    prompt := fun m => by
      show ∃ p, PromptFits E w (inMode (initial pr hist fs (.ofText x)).prompt m) p
      rw [hini]; exact hpr m
    inks := ⟨ofText_ink hB.line, ⟨(fun _ h => nomatch h), (fun _ h => nomatch h), (fun _ h => nomatch h)⟩, hB.entries,
      (fun _ h => nomatch h), (fun _ h => nomatch h)⟩
    page := fun _ => ⟨editorRow w hs scr, Nat.le_refl _, fun _ => rfl, hor, Nat.one_pos, by show 1 < 65536; omega, fun _ _ _ => by rw [hbase]⟩ }
  have key : Wp (start E pr) (initial pr hist fs (.ofText x)) (fun _ s' => Now E (Page E P H w scr (editorRow w hs scr) base L S) s')
      (fun _ _ => True) (fun _ => True) := by
    unfold start
    simp only [wp_bind, wp_writeTerm, hT.tty, Option.getD_some]
    refine ⟨fun _ => ?_, fun _ => trivial⟩
    have := hT.width
    rw [if_neg (by omega), wp_bind]
    refine wp_mono (repeat_write E (w - 1) _) (fun _ s2 h2 => ?_) (fun _ _ _ => trivial) (fun _ h => h.elim)
    obtain ⟨t2, rfl⟩ := h2
    simp only [wp_bind, wp_writeTerm, wp_get]
    refine ⟨fun _ => ⟨fun _ => ?_, fun _ => trivial⟩, fun _ => trivial⟩
    have hst := hpage (t2 + 1 + 1)
    rw [← hjoin] at ho
    rw [ho] at hst
    split
    · exact fin_display hC _ hst
    · rw [wp_bind]
      exact wp_mono (fin_moveEnd hC _ hst) (fun _ s2 h => fin_display hC _ h.1) (fun _ _ _ => trivial) (fun _ _ => trivial)
  have h' := wp_ok key h
  exact h'

/-- What is on the screen when an editor waits for a key. -/
theorem screen_goes [Glyphs] {κ : Type} {km : KeyMap κ} {I : κ → Prop} (hT : Plainly E P w)
    {keys : List (Key × (Text → List Text))} (hk : ∀ k ∈ keys, Calm E P w k)
    (hcore : ∀ (C : Ed → Prop), Scene E P (Offered keys) (∃ k ∈ keys, k.1 = .ctrl 'l') C →
      ∀ key, KeyInk P (∃ k ∈ keys, k.1 = .ctrl 'l') key → UpK E C I (km.core E key))
    {t0 t : κ × Ed} (h0 : I t0.1)
    (hn : Now E (Page E P (Offered keys) w scr R0 base (∃ k ∈ keys, k.1 = .ctrl 'l') (Searches keys)) t0.2)
    (hg : Goes km E keys t0 t) (hsee : InSight scr w t.2.out)
    (p : Text) (ls : List Text) (n : Nat) (hv : ToSee E w t.2 p ls n) :
    ∃ R rows, R0 ≤ R ∧ ((∀ k ∈ keys, k.1 ≠ .ctrl 'l') → R = R0) ∧
      (rows = [] ∨ ∃ cs, Offered keys cs ∧ Listed w cs rows) ∧ (∀ x, t.2.showCompletionsHint = some x → Listed w x.1 rows) ∧
      (scr.toks w t.2.out).Shows w R (rowsOf w (rows ++ shown p ls)) ∧ (scr.toks w t.2.out).On w (R + rows.length) n ∧
      ∀ i j, i < R0 → (scr.toks w t.2.out).cell i j = base i j := by
  have hC := scene_page (scr := scr) (R0 := R0) (base := base) (L := ∃ k ∈ keys, k.1 = .ctrl 'l') (S := Searches keys)
    hT.colours hT.size hT.width hT.one (offered_fits hk)
  have h1 := now_goes hC (hcore _ hC)
    (fun k h => ⟨fun hne => ⟨fun c hc => (hk k h).1 c hc fun h => hne (h ▸ hc), fun hl => ⟨k, h, hl⟩⟩, calm_comp hk h⟩)
    (by
      by_cases hS : Searches keys
      · exact Or.inl fun f s hs => page_search hS f s hs
      · exact Or.inr fun k h => ⟨fun he => hS ⟨k, h, Or.inl he⟩, fun he => hS ⟨k, h, Or.inr he⟩⟩) hg h0 hn
  obtain ⟨R, rows, g1, g2, g3, g4, g5⟩ := page_shows hT.colours hT.size hT.width hT.one (offered_fits hk) h1.2 (sight_in hsee) p ls n hv
  rw [sight_same hsee]
  exact ⟨R, rows, g1, fun h => g2 fun ⟨k, hk, hl⟩ => h k hk hl, g3, g4, g5⟩

end

/-- C66, what is on the screen, for the Emacs keys.  The terminal has `w` columns and its cursor is anywhere; an editor
is opened on the line `x` and handles `keys` (lists of candidates fit, see `ListFits`, and if the keys search, all lines
take one row).  Then the screen shows what there is to be seen: first the rows of the list of candidates if there is one
(the one last shown may stay until the next redraw); then the prompt and the lines of the text or of the suggestion
that continues it, or the search and what it found; and nothing below that.  The cursor of the terminal stands where
the text before the cursor of the editor ends; all that was before the cursor of the terminal at the start is still
there, and below it are the lines of the prompt above the last one; and the editor has not moved from the row it
began on, unless Ctrl-L was typed. -/
theorem C66_screen_emacs_partial [Glyphs] (E : Env) (P : Char → Prop) (w : Nat) (hT : Plainly E P w)
    (pr : Prompt) (hs : List Text) (hist : History) (fs : FS) (x : Text) (hB : Begins E P w pr hs hist x)
    (scr : Screen) (hc : scr.col < w) (hcl : hs ≠ [] → Clear scr w) (s1 : Ed) (e : Emacs) (h1 : start E pr (initial pr hist fs (.ofText x)) = .ok () s1)
    (keys : List (Key × (Text → List Text))) (hk : ∀ k ∈ keys, Calm E P w k) (hS : Searches keys → SearchFits E P pr)
    (t : Emacs × Ed) (hg : Goes Emacs.keyMap E keys (e, s1) t) (hsee : InSight scr w t.2.out)
    (p : Text) (ls : List Text) (n : Nat) (hv : ToSee E w t.2 p ls n) :
    ∃ R rows, editorRow w hs scr ≤ R ∧ ((∀ k ∈ keys, k.1 ≠ .ctrl 'l') → R = editorRow w hs scr) ∧
      (rows = [] ∨ ∃ cs, Offered keys cs ∧ Listed w cs rows) ∧ (∀ x, t.2.showCompletionsHint = some x → Listed w x.1 rows) ∧
      (scr.toks w t.2.out).Shows w R (rowsOf w (rows ++ shown p ls)) ∧ (scr.toks w t.2.out).On w (R + rows.length) n ∧
      Topped w hs scr (scr.toks w t.2.out) := by
  obtain ⟨base, hb, h0⟩ := start_page hT (offered_fits hk) hB hS hc hcl h1
  obtain ⟨R, rows, g1, g2, g3, g4, g5, g6, g7⟩ := screen_goes hT hk (I := fun _ => True) (fun _ hC _ hk => Emacs.upk_core hC hk) trivial h0 hg hsee p ls n hv
  exact ⟨R, rows, g1, g2, g3, g4, g5, g6, hb _ g7⟩

/-- C66, what is on the screen, for the vi keys.  Characters in `P` stay in `P` when their case changes, and the
letters h, i, j, k, l, r are in `P`. -/
theorem C66_screen_vi_partial [Glyphs] (E : Env) (P : Char → Prop) (w : Nat) (hT : Plainly E P w)
    (hcase : ∀ c, P c → (∀ d ∈ E.cc.toUppercase c, P d) ∧ ∀ d ∈ E.cc.toLowercase c, P d)
    (hown : ∀ c ∈ ['h', 'i', 'j', 'k', 'l', 'r'], P c)
    (pr : Prompt) (hs : List Text) (hist : History) (fs : FS) (x : Text) (hB : Begins E P w pr hs hist x)
    (scr : Screen) (hc : scr.col < w) (hcl : hs ≠ [] → Clear scr w) (s1 : Ed) (t0 : Vi × Ed) (h1 : start E pr (initial pr hist fs (.ofText x)) = .ok () s1)
    (hi : Vi.keyMap.init E ({}, s1) = .ok () t0)
    (keys : List (Key × (Text → List Text))) (hk : ∀ k ∈ keys, Calm E P w k) (hS : Searches keys → SearchFits E P pr)
    (t : Vi × Ed) (hg : Goes Vi.keyMap E keys t0 t) (hsee : InSight scr w t.2.out)
    (p : Text) (ls : List Text) (n : Nat) (hv : ToSee E w t.2 p ls n) :
    ∃ R rows, editorRow w hs scr ≤ R ∧ ((∀ k ∈ keys, k.1 ≠ .ctrl 'l') → R = editorRow w hs scr) ∧
      (rows = [] ∨ ∃ cs, Offered keys cs ∧ Listed w cs rows) ∧ (∀ x, t.2.showCompletionsHint = some x → Listed w x.1 rows) ∧
      (scr.toks w t.2.out).Shows w R (rowsOf w (rows ++ shown p ls)) ∧ (scr.toks w t.2.out).On w (R + rows.length) n ∧
      Topped w hs scr (scr.toks w t.2.out) := by
  have ho : Vi.OwnKeys P := ⟨hown _ (by simp), hown _ (by simp), hown _ (by simp), hown _ (by simp), hown _ (by simp), hown _ (by simp)⟩
  obtain ⟨base, hb, h0⟩ := start_page hT (offered_fits hk) hB hS hc hcl h1
  have hC := scene_page (scr := scr) (R0 := editorRow w hs scr) (base := base) (L := ∃ k ∈ keys, k.1 = .ctrl 'l') (S := Searches keys)
    hT.colours hT.size hT.width hT.one (offered_fits hk)
  have h2 := wp_ok (Vi.upk_init hC ({}, s1) (viInk_new ho.i) h0) hi
  obtain ⟨R, rows, g1, g2, g3, g4, g5, g6, g7⟩ := screen_goes hT hk (fun _ hC _ hk => Vi.upk_core hC hcase ho hk) h2.1 h2.2 hg hsee p ls n hv
  exact ⟨R, rows, g1, g2, g3, g4, g5, g6, hb _ g7⟩

/-! ### Cases -/

open Liner.Tests Liner.Wit

attribute [local instance] ideographs

/-- The keys one after the other, as long as none finishes the line. -/
def trace {κ : Type} (km : KeyMap κ) (E : Env) : List (Key × (Text → List Text)) → κ × Ed → Option (κ × Ed)
  | [], t => some t
  | k :: ks, t =>
    match km.handleKey E k.2 k.1 t with
    | .ok false t1 => trace km E ks t1
    | _ => none

theorem trace_goes {κ : Type} {km : KeyMap κ} {E : Env} {keys : List (Key × (Text → List Text))} {t t' : κ × Ed}
    (h : trace km E keys t = some t') : Goes km E keys t t' := by
  induction keys generalizing t with
  | nil => cases h; exact .nil _
  | cons k ks ih =>
    unfold trace at h
    split at h
    · rename_i h1
      exact .cons h1 (ih h)
    · cases h

/-- The largest row while some output is written. -/
def lowest [Glyphs] (scr : Screen) (w : Nat) (out : List Tok) : Nat :=
  ((List.range (out.length + 1)).map fun n => (scr.toks w (out.take n)).row).foldl max 0

theorem foldl_max_le {l : List Nat} {a b : Nat} (h : l.foldl max a ≤ b) : a ≤ b ∧ ∀ x ∈ l, x ≤ b := by
  induction l generalizing a with
  | nil => exact ⟨h, fun _ h => nomatch h⟩
  | cons y l ih =>
    obtain ⟨h1, h2⟩ := ih h
    refine ⟨by omega, fun x hx => ?_⟩
    rcases List.mem_cons.mp hx with rfl | hx
    · omega
    · exact h2 x hx

theorem inSight_of [Glyphs] {scr : Screen} {w : Nat} {out : List Tok} (h : scr.Fits w out ∧ lowest scr w out ≤ 100) : InSight scr w out := by
  refine ⟨h.1, fun o ho => ?_⟩
  obtain ⟨-, h⟩ := h
  have := (foldl_max_le h).2 (scr.toks w o).row (List.mem_map.mpr ⟨o.length, by
    rw [List.mem_range]; have := ho.length_le; omega, by rw [← List.prefix_iff_eq_take.mp ho]⟩)
  omega

/-- The characters other than CR and ESC. -/
def Visible (c : Char) : Prop := c ≠ '\r' ∧ c ≠ escChar

/-- Those of one column that stay on one row. -/
def OneRow (c : Char) : Prop := Visible c ∧ c ≠ '\n' ∧ Glyphs.width c = 1

instance (c : Char) : Decidable (Visible c) := inferInstanceAs (Decidable (_ ∧ _))
instance (c : Char) : Decidable (OneRow c) := inferInstanceAs (Decidable (_ ∧ _))

theorem plainly_columns {w : Nat} (hw : 0 < w ∧ w < 65536) {P : Char → Prop} (hP : ∀ c, P c → Visible c) : Plainly (columns w) P w where
  colours := fun _ h => nomatch h
  size := fun _ => rfl
  tty := rfl
  width := hw
  one := fun _ ht hn => counted_columns fun c hc => ⟨(hP c (ht c hc)).1, fun h => hn (h ▸ hc), (hP c (ht c hc)).2⟩

theorem sub_val {a b k : UInt32} (h : a + k = b) : a = b - k := by rw [← h]; simp

theorem upper_ne (c d : Char) (h : c ≠ d)
    (hd : ¬ ('a'.val ≤ d.val - ('A'.val - 'a'.val) ∧ d.val - ('A'.val - 'a'.val) ≤ 'z'.val)) : c.toUpper ≠ d := by
  unfold Char.toUpper
  split
  · rename_i h
    rw [Ne, Char.ext_iff]; intro he
    rw [sub_val he] at h
    exact hd h
  · exact h

theorem lower_ne (c d : Char) (h : c ≠ d)
    (hd : ¬ (d.val - ('a'.val - 'A'.val) ≥ 'A'.val ∧ d.val - ('a'.val - 'A'.val) ≤ 'Z'.val)) : c.toLower ≠ d := by
  unfold Char.toLower
  split
  · rename_i h
    rw [Ne, Char.ext_iff]; intro he
    rw [sub_val he] at h
    exact hd h
  · exact h

theorem visible_case (c : Char) (h : Visible c) : (∀ d ∈ ascii.toUppercase c, Visible d) ∧ ∀ d ∈ ascii.toLowercase c, Visible d := by
  constructor
  · intro d hd
    simp only [ascii, List.mem_singleton] at hd
    subst hd
    exact ⟨upper_ne _ _ h.1 (by decide), upper_ne _ _ h.2 (by decide)⟩
  · intro d hd
    simp only [ascii, List.mem_singleton] at hd
    subst hd
    exact ⟨lower_ne _ _ h.1 (by decide), lower_ne _ _ h.2 (by decide)⟩

theorem calm_all {E : Env} {w : Nat} {P : Char → Prop} [DecidablePred P] {ks : List Key}
    (h : ks.all (fun k => match k with | .char c => decide (P c) | _ => true) = true) : ∀ k ∈ ks.map plain, Calm E P w k := by
  intro k hk
  obtain ⟨k, hk1, rfl⟩ := List.mem_map.mp hk
  have h1 := List.all_eq_true.mp h k hk1
  refine ⟨fun c hc _ => ?_, fun _ _ => ⟨(fun _ h => nomatch h), fun cs hs h2 => ?_⟩⟩
  · have hc : k = .char c := hc
    subst hc
    exact of_decide_eq_true h1
  · match cs, h2 with
    | c :: _, _ => exact nomatch (hs.2 c).mp (by simp)

/-- Two prompts. -/
def dollar : Prompt := { prompt := ['$', ' '] }
def modal : Prompt := { prompt := ['$', ' '], viStatus := some { mode := .insert, insert := ['I'], normal := ['N'] } }

theorem fits_plain {w : Nat} {pr : Prompt} {p : Text} (h : pr.toText = p) (hp : Plain p) (hw : 0 < (onScreen p).length ∧ (onScreen p).length < w) :
    PromptFits (columns w) w pr p :=
  ⟨by rw [h, ← C14_remove_codes]; exact removeCodes_plain fun he => (hp _ he).2.2 rfl, fun hn => (hp _ (h ▸ hn)).2.1 rfl, counted_columns hp, hw⟩

theorem begins_dollar {w : Nat} {P : Char → Prop} (hw : 2 < w) (entries : List String) (x : Text)
    (h : ∀ b ∈ (hist entries).buffers, ∀ c ∈ b.data, P c) (hx : ∀ c ∈ x, P c) : Begins (columns w) P w dollar [] (hist entries) x where
  prompt := ⟨[], ['$', ' '], ['$', ' '], by unfold LinesOf; decide, .nil,
    ⟨by rw [← C14_remove_codes]; decide, counted_columns (by unfold Plain; decide), Nat.le_of_lt hw⟩,
    fun _ => ⟨['$', ' '], fits_plain rfl (by unfold Plain; decide) ⟨by decide, hw⟩⟩⟩
  heads := fun _ h => nomatch h
  share := rfl
  entries := h
  line := hx

theorem begins_modal (entries : List String) (x : Text) (h : ∀ b ∈ (hist entries).buffers, ∀ c ∈ b.data, Visible c)
    (hx : ∀ c ∈ x, Visible c) : Begins (columns 10) Visible 10 modal [] (hist entries) x where
  prompt := ⟨[], ['$', ' '], ['$', ' '], by unfold LinesOf; decide, .nil,
    ⟨by rw [← C14_remove_codes]; decide, counted_columns (by unfold Plain; decide), by decide⟩, fun m => by
      cases m
      · exact ⟨['N', '$', ' '], fits_plain rfl (by unfold Plain; decide) (by decide)⟩
      · exact ⟨['I', '$', ' '], fits_plain rfl (by unfold Plain; decide) (by decide)⟩⟩
  heads := fun _ h => nomatch h
  share := rfl
  entries := h
  line := hx


/-- A terminal with something on it, and the cursor in the middle of a row. -/
def used : Screen := { row := 1, col := 3, cell := fun i j => if i ≤ 1 ∧ j < 3 then 'x' else ' ' }

/-- Emacs keys that type, move and look through the history; the suggestion takes another row. -/
def viewKeys : List Key := chars "abX" ++ [.left, .up, .down, .backspace, .char 'c', .left, .left]

def oldLines : List String := ["ab\ncdabcdefghijk", "last"]

theorem some_run : okAnd (start (columns 10) dollar (initial dollar (hist oldLines) noFiles (.ofText "ab\ncd".toList)))
    (fun _ s1 => match trace Emacs.keyMap (columns 10) (viewKeys.map plain) ({}, s1) with
      | some t => decide (used.Fits 10 t.2.out ∧ lowest used 10 t.2.out ≤ 100) && text? t.2 == some "ab\ncdabc".toList && t.2.cursor == 6 &&
          drawn t.2 "ab\ncdabc".toList == "ab\ncdabcdefghijk".toList && !t.2.reverseSearch && !t.2.forwardSearch && t.2.prompt.toText == ['$', ' '] &&
          rowsOn 10 6 (used.toks 10 t.2.out) == ["xxx       ".toList, "xxx⏎      ".toList, "$ ab      ".toList, "  cdabcdef".toList,
            "ghijk     ".toList, "          ".toList] &&
          (used.toks 10 t.2.out).row == 3 && (used.toks 10 t.2.out).col == 5
      | none => false) = true := by
  decide +kernel

/-- The hypotheses of `C66_screen_emacs_partial` are met by them. -/
example : ∃ (s1 : Ed) (t : Emacs × Ed), Plainly (columns 10) Visible 10 ∧
    Begins (columns 10) Visible 10 dollar [] (hist oldLines) "ab\ncd".toList ∧
    start (columns 10) dollar (initial dollar (hist oldLines) noFiles (.ofText "ab\ncd".toList)) = .ok () s1 ∧
    (∀ k ∈ viewKeys.map plain, Calm (columns 10) Visible 10 k) ∧ Goes Emacs.keyMap (columns 10) (viewKeys.map plain) ({}, s1) t ∧
    ¬ Searches (viewKeys.map plain) ∧ InSight used 10 t.2.out ∧
    ToSee (columns 10) 10 t.2 ['$', ' '] ["ab".toList, "cdabcdefghijk".toList] 15 := by
  obtain ⟨_, s1, h1, h2⟩ := of_okAnd some_run
  split at h2
  · rename_i t ht
    simp only [Bool.and_eq_true, decide_eq_true_eq, beq_iff_eq] at h2
    obtain ⟨⟨⟨⟨⟨⟨⟨⟨⟨h3, h4⟩, h5⟩, h6⟩, h8⟩, h9⟩, h7⟩, -⟩, -⟩, -⟩ := h2
    refine ⟨s1, t, plainly_columns (by decide) (fun _ h => h), begins_dollar (by decide) _ _ (by decide) (by decide), h1, calm_all (by decide), trace_goes ht,
      by unfold Searches; decide, inSight_of h3, _, h4, by rw [h6]; unfold LinesOf; decide, ?_⟩
    rw [if_neg (by simp_all)]
    exact ⟨fits_plain h7 (by unfold Plain; decide) (by decide), ["ab".toList, "cda".toList], by rw [h5]; unfold LinesOf; decide, by decide⟩
  · cases h2

/-- Keys that type characters of two columns and of none. -/
def wideKeys : List Key := chars "b字Xe\u0301字漢字" ++ [.left, .left, .left, .left, .left, .left, .backspace, .char '漢', .right]

theorem wide_run : okAnd (start (columns 10) dollar (initial dollar (hist []) noFiles (.ofText "漢漢\na".toList)))
    (fun _ s1 => match trace Emacs.keyMap (columns 10) (wideKeys.map plain) ({}, s1) with
      | some t => decide (used.Fits 10 t.2.out ∧ lowest used 10 t.2.out ≤ 100) && text? t.2 == some "漢漢\nab漢Xe\u0301字漢字".toList && t.2.cursor == 7 &&
          drawn t.2 "漢漢\nab漢Xe\u0301字漢字".toList == "漢漢\nab漢Xe\u0301字漢字".toList && !t.2.reverseSearch && !t.2.forwardSearch && t.2.prompt.toText == ['$', ' '] &&
          rowsOn 10 6 (used.toks 10 t.2.out) == ["xxx       ".toList, "xxx⏎      ".toList, ['$', ' ', '漢', half, '漢', half, ' ', ' ', ' ', ' '],
            [' ', ' ', 'a', 'b', '漢', half, 'X', 'e', '字', half], ['漢', half, '字', half, ' ', ' ', ' ', ' ', ' ', ' '], "          ".toList] &&
          (used.toks 10 t.2.out).row == 3 && (used.toks 10 t.2.out).col == 7
      | none => false) = true := by
  decide +kernel

/-- They are met by these, too. -/
example : ∃ (s1 : Ed) (t : Emacs × Ed), Plainly (columns 10) Visible 10 ∧
    Begins (columns 10) Visible 10 dollar [] (hist []) "漢漢\na".toList ∧
    start (columns 10) dollar (initial dollar (hist []) noFiles (.ofText "漢漢\na".toList)) = .ok () s1 ∧
    (∀ k ∈ wideKeys.map plain, Calm (columns 10) Visible 10 k) ∧ Goes Emacs.keyMap (columns 10) (wideKeys.map plain) ({}, s1) t ∧
    ¬ Searches (wideKeys.map plain) ∧ InSight used 10 t.2.out ∧
    ToSee (columns 10) 10 t.2 ['$', ' '] ["漢漢".toList, "ab漢Xe\u0301字漢字".toList] 17 := by
  obtain ⟨_, s1, h1, h2⟩ := of_okAnd wide_run
  split at h2
  · rename_i t ht
    simp only [Bool.and_eq_true, decide_eq_true_eq, beq_iff_eq] at h2
    obtain ⟨⟨⟨⟨⟨⟨⟨⟨⟨h3, h4⟩, h5⟩, h6⟩, h8⟩, h9⟩, h7⟩, -⟩, -⟩, -⟩ := h2
    refine ⟨s1, t, plainly_columns (by decide) (fun _ h => h), begins_dollar (by decide) _ _ (by decide) (by decide), h1, calm_all (by decide), trace_goes ht,
      by unfold Searches; decide, inSight_of h3, _, h4, by rw [h6]; unfold LinesOf; decide, ?_⟩
    rw [if_neg (by simp_all)]
    exact ⟨fits_plain h7 (by unfold Plain; decide) (by decide), ["漢漢".toList, "ab漢X".toList], by rw [h5]; unfold LinesOf; decide, by decide⟩
  · cases h2

/-- A completer with four candidates, one of them twice. -/
def four : Text → List Text := fun _ => ["d".toList, "b".toList, "a".toList, "b".toList, "c".toList]

/-- Emacs keys that show their list and go to the first of them. -/
def tabKeys : List (Key × (Text → List Text)) := (chars "xy ").map plain ++ [(.char '\t', four), (.char '\t', four)]

theorem four_fits (v : Text) (cs : List Text) (h : SortedSet (four v) cs) : ListFits (columns 10) 10 cs := by
  obtain rfl : ["a".toList, "b".toList, "c".toList, "d".toList] = cs := by
    refine SortedSet.unique ⟨by decide, fun c => ?_⟩ h
    unfold four
    simp only [List.mem_cons, List.not_mem_nil, or_false]
    tauto
  refine ⟨?_, by decide, by decide, ?_⟩
  · simp only [List.mem_cons, List.not_mem_nil, or_false]
    rintro c (rfl | rfl | rfl | rfl) <;> exact narrow_columns (by unfold Plain; decide) (by decide)
  · intro m hm h1 h2
    obtain rfl : m = 1 := by
      rcases h2 with h2 | ⟨c, hc, h2⟩
      · exact h2
      · simp only [List.mem_cons, List.not_mem_nil, or_false] at hc
        rcases hc with rfl | rfl | rfl | rfl <;> exact h2.symm
    decide

theorem tab_calm : ∀ k ∈ tabKeys, Calm (columns 10) Visible 10 k := by
  intro k hk
  unfold tabKeys at hk
  rcases List.mem_append.mp hk with h | h
  · exact calm_all (by decide) k h
  · have hk : k = (.char '\t', four) := by simpa using h
    subst hk
    refine ⟨fun c hc hne => ?_, fun _ v => ⟨?_, fun cs h _ => four_fits v cs h⟩⟩
    · cases hc
      exact absurd rfl hne
    · show ∀ t ∈ ["d".toList, "b".toList, "a".toList, "b".toList, "c".toList], ∀ c ∈ t, Visible c
      decide

theorem tab_run : okAnd (start (columns 10) dollar (initial dollar (hist []) noFiles (.ofText [])))
    (fun _ s1 => match trace Emacs.keyMap (columns 10) tabKeys ({}, s1) with
      | some t => decide (used.Fits 10 t.2.out ∧ lowest used 10 t.2.out ≤ 100) && text? t.2 == some "xy a".toList && t.2.cursor == 4 &&
          drawn t.2 "xy a".toList == "xy a".toList && !t.2.reverseSearch && !t.2.forwardSearch && t.2.prompt.toText == ['$', ' '] &&
          t.2.showCompletionsHint == some (["a".toList, "b".toList, "c".toList, "d".toList], some 0) &&
          rowsOn 10 6 (used.toks 10 t.2.out) == ["xxx       ".toList, "xxx⏎      ".toList, "a  b  c   ".toList, "d         ".toList,
            "$ xy a    ".toList, "          ".toList] &&
          (used.toks 10 t.2.out).row == 4 && (used.toks 10 t.2.out).col == 6
      | none => false) = true := by
  decide +kernel

/-- The hypotheses of `C66_screen_emacs_partial` are met by them. -/
example : ∃ (s1 : Ed) (t : Emacs × Ed), Plainly (columns 10) Visible 10 ∧ Begins (columns 10) Visible 10 dollar [] (hist []) [] ∧
    start (columns 10) dollar (initial dollar (hist []) noFiles (.ofText [])) = .ok () s1 ∧
    (∀ k ∈ tabKeys, Calm (columns 10) Visible 10 k) ∧ Goes Emacs.keyMap (columns 10) tabKeys ({}, s1) t ∧
    ¬ Searches tabKeys ∧ InSight used 10 t.2.out ∧ ToSee (columns 10) 10 t.2 ['$', ' '] ["xy a".toList] 6 ∧
    t.2.showCompletionsHint = some (["a".toList, "b".toList, "c".toList, "d".toList], some 0) := by
  obtain ⟨_, s1, h1, h2⟩ := of_okAnd tab_run
  split at h2
  · rename_i t ht
    simp only [Bool.and_eq_true, decide_eq_true_eq, beq_iff_eq] at h2
    obtain ⟨⟨⟨⟨⟨⟨⟨⟨⟨⟨h3, h4⟩, h5⟩, h6⟩, h8⟩, h9⟩, h7⟩, h10⟩, -⟩, -⟩, -⟩ := h2
    refine ⟨s1, t, plainly_columns (by decide) (fun _ h => h), begins_dollar (by decide) _ _ (by decide) (by decide), h1, tab_calm, trace_goes ht,
      by unfold Searches; decide, inSight_of h3, ⟨_, h4, by rw [h6]; unfold LinesOf; decide, ?_⟩, h10⟩
    rw [if_neg (by simp_all)]
    exact ⟨fits_plain h7 (by unfold Plain; decide) (by decide), ["xy a".toList], by rw [h5]; unfold LinesOf; decide, by decide⟩
  · cases h2

/-- Emacs keys that search; a further Ctrl-R goes to the entry before. -/
def seekKeys : List Key := chars "x" ++ [.ctrl 'u', .ctrl 'r'] ++ chars "abc" ++ [.ctrl 'r', .left]

theorem seek_run : okAnd (start (columns 20) dollar (initial dollar (hist ["1abc", "abcabcabc", "zabczz"]) noFiles (.ofText "".toList)))
    (fun _ s1 => match trace Emacs.keyMap (columns 20) (seekKeys.map plain) ({}, s1) with
      | some t => decide (used.Fits 20 t.2.out ∧ lowest used 20 t.2.out ≤ 100) && text? t.2 == some "abc".toList && t.2.cursor == 2 &&
          drawn t.2 "abc".toList == "abcabcabc".toList && (t.2.reverseSearch || t.2.forwardSearch) &&
          t.2.prompt.toText == ['$', ' '] && t.2.prompt.pre == [] && placeOf t.2 == 2 && t.2.historySubsetIndex.length == 3 &&
          rowsOn 20 5 (used.toks 20 t.2.out) == ["xxx                 ".toList, "xxx⏎                ".toList,
            "(search)'abc` (2/3):".toList, " abcabcabc          ".toList, "                    ".toList] &&
          (used.toks 20 t.2.out).row == 2 && (used.toks 20 t.2.out).col == 11
      | none => false) = true := by
  decide +kernel

/-- The hypotheses of `C66_screen_emacs_partial` are met by them. -/
example : ∃ (s1 : Ed) (t : Emacs × Ed), Plainly (columns 20) OneRow 20 ∧
    Begins (columns 20) OneRow 20 dollar [] (hist ["1abc", "abcabcabc", "zabczz"]) "".toList ∧
    start (columns 20) dollar (initial dollar (hist ["1abc", "abcabcabc", "zabczz"]) noFiles (.ofText "".toList)) = .ok () s1 ∧
    (∀ k ∈ seekKeys.map plain, Calm (columns 20) OneRow 20 k) ∧ Goes Emacs.keyMap (columns 20) (seekKeys.map plain) ({}, s1) t ∧
    SearchFits (columns 20) OneRow dollar ∧ InSight used 20 t.2.out ∧
    ToSee (columns 20) 20 t.2 "(search)'abc` (2/3): ".toList ["abcabcabc".toList] 11 := by
  obtain ⟨_, s1, h1, h2⟩ := of_okAnd seek_run
  split at h2
  · rename_i t ht
    simp only [Bool.and_eq_true, decide_eq_true_eq, beq_iff_eq, Bool.or_eq_true] at h2
    obtain ⟨⟨⟨⟨⟨⟨⟨⟨⟨⟨⟨h3, h4⟩, h5⟩, h6⟩, h7⟩, -⟩, h8⟩, h9⟩, h10⟩, -⟩, -⟩, -⟩ := h2
    refine ⟨s1, t, plainly_columns (by decide) (fun _ h => h.1), begins_dollar (by decide) _ _ (by decide) (by decide), h1,
      calm_all (by decide), trace_goes ht, ⟨by decide, fun _ h => h.2.2, by decide, fun m => by cases m <;> decide, fun m => by cases m <;> rfl⟩,
      inSight_of h3, _, h4, by rw [h6]; unfold LinesOf; decide, ?_⟩
    rw [if_pos h7, h8, h9, h10, h5]
    decide
  · cases h2

/-- Vi keys that type, delete, put, change the case, insert, move, repeat and undo. -/
def viewViKeys : List Key := chars "abc" ++ [.esc] ++ chars "0xp~ifoo " ++ [.esc] ++ chars "j2.u"

theorem vi_run : okAnd (start (columns 10) modal (initial modal (hist oldLines) noFiles (.ofText "ab\ncd".toList)))
    (fun _ s1 => okAnd (Vi.keyMap.init (columns 10) ({}, s1)) fun _ t0 =>
      match trace Vi.keyMap (columns 10) (viewViKeys.map plain) t0 with
      | some t => decide (used.Fits 10 t.2.out ∧ lowest used 10 t.2.out ≤ 100) && text? t.2 == some "Bfoo \ncdabc".toList && t.2.cursor == 10 &&
          drawn t.2 "Bfoo \ncdabc".toList == "Bfoo \ncdabc".toList && !t.2.reverseSearch && !t.2.forwardSearch && t.2.prompt.toText == ['N', '$', ' '] &&
          rowsOn 10 6 (used.toks 10 t.2.out) == ["xxx       ".toList, "xxx⏎      ".toList, "N$ Bfoo   ".toList, "   cdabc  ".toList,
            "          ".toList, "          ".toList] &&
          (used.toks 10 t.2.out).row == 3 && (used.toks 10 t.2.out).col == 7
      | none => false) = true := by
  decide +kernel

/-- The hypotheses of `C66_screen_vi_partial` are met by them. -/
example : ∃ (s1 : Ed) (t0 t : Vi × Ed), Plainly (columns 10) Visible 10 ∧
    (∀ c, Visible c → (∀ d ∈ (columns 10).cc.toUppercase c, Visible d) ∧ ∀ d ∈ (columns 10).cc.toLowercase c, Visible d) ∧
    (∀ c ∈ ['h', 'i', 'j', 'k', 'l', 'r'], Visible c) ∧
    Begins (columns 10) Visible 10 modal [] (hist oldLines) "ab\ncd".toList ∧
    start (columns 10) modal (initial modal (hist oldLines) noFiles (.ofText "ab\ncd".toList)) = .ok () s1 ∧
    Vi.keyMap.init (columns 10) ({}, s1) = .ok () t0 ∧
    (∀ k ∈ viewViKeys.map plain, Calm (columns 10) Visible 10 k) ∧ Goes Vi.keyMap (columns 10) (viewViKeys.map plain) t0 t ∧
    ¬ Searches (viewViKeys.map plain) ∧ InSight used 10 t.2.out ∧
    ToSee (columns 10) 10 t.2 ['N', '$', ' '] ["Bfoo ".toList, "cdabc".toList] 17 := by
  obtain ⟨_, s1, h1, h2⟩ := of_okAnd vi_run
  obtain ⟨_, t0, h0, h2⟩ := of_okAnd h2
  split at h2
  · rename_i t ht
    simp only [Bool.and_eq_true, decide_eq_true_eq, beq_iff_eq] at h2
    obtain ⟨⟨⟨⟨⟨⟨⟨⟨⟨h3, h4⟩, h5⟩, h6⟩, h8⟩, h9⟩, h7⟩, -⟩, -⟩, -⟩ := h2
    refine ⟨s1, t0, t, plainly_columns (by decide) (fun _ h => h), visible_case, by decide, begins_modal _ _ (by decide) (by decide), h1, h0,
      calm_all (by decide), trace_goes ht, by unfold Searches; decide, inSight_of h3, _, h4, by rw [h6]; unfold LinesOf; decide, ?_⟩
    rw [if_neg (by simp_all)]
    exact ⟨fits_plain h7 (by unfold Plain; decide) (by decide), ["Bfoo ".toList, "cdab".toList], by rw [h5]; unfold LinesOf; decide, by decide⟩
  · cases h2

/-- C66 does not hold for Ctrl-L the way it reads ("clear the screen"): the codes that clear the terminal and move its cursor to the
first row never reach it.  What was on the terminal stays, and when the cursor is not on the first row of the editor,
the prompt and the lines above the cursor are shown twice. -/
theorem C66_clear_violation : ∃ (E : Env) (w : Nat) (pr : Prompt) (s s' : Ed) (scr : Screen), (∀ t, E.termSize t = some w) ∧
    E.ttyWidth = some w ∧ start E pr (initial pr {} noFiles (.ofText "ab\ncd".toList)) = .ok () s ∧ clear E s = .ok () s' ∧
    rowsOn w 5 scr = ["x         ".toList, "          ".toList, "          ".toList, "          ".toList, "          ".toList] ∧
    rowsOn w 5 (scr.toks w s'.out) =
      ["x         ".toList, "$ ab      ".toList, "$ ab      ".toList, "  cd      ".toList, "          ".toList] := by
  have key : okAnd (start (columns 10) dollar (initial dollar {} noFiles (.ofText "ab\ncd".toList))) (fun _ s =>
      okAnd (clear (columns 10) s) fun _ s' =>
        rowsOn 10 5 (({ row := 1, cell := fun i j => if i = 0 ∧ j = 0 then 'x' else ' ' } : Screen).toks 10 s'.out) ==
          ["x         ".toList, "$ ab      ".toList, "$ ab      ".toList, "  cd      ".toList, "          ".toList]) = true := by
    decide +kernel
  obtain ⟨_, s, h1, h2⟩ := of_okAnd key
  obtain ⟨_, s', h2, h3⟩ := of_okAnd h2
  exact ⟨columns 10, 10, dollar, s, s', { row := 1, cell := fun i j => if i = 0 ∧ j = 0 then 'x' else ' ' }, fun _ => rfl, rfl, h1, h2,
    by decide, by simpa using h3⟩

end Liner.Props
