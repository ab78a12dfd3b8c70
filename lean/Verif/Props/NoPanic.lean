import Verif.Proof.Safe
import Verif.Props.Redraw
/-
Reading a line with the Emacs keys does not abort: C61; and the row number in C42.
-/

namespace Liner.Props
open Liner Liner.Spec Liner.Editor Liner.Screen

/-- Every entry is of ASCII characters or of one line. -/
def Tame (h : History) : Prop := ∀ e ∈ texts h, Ascii e ∨ '\n' ∉ e

theorem draws {E : Env} {h : History} (io : Bool) (hsw : ∀ a b, E.sw a ≤ E.sw (a ++ b)) (hh : Tame h) : Draws E ⟨h, true, io⟩ where
  all _ s hg hi hq hp := by
    obtain ⟨b, hb⟩ := hg.curBuf
    have hpre : pre s = s := by simp [pre, hq]
    rcases display_panics hp with ⟨h1, -⟩ | ⟨sug, hsug, h1⟩
    · cases h1
    · rw [hpre] at hsug h1
      have hi : s.history = h := hi
      have hpfx : b.data <+: (sug.getD b).data := by
        cases sug with
        | none => exact List.prefix_refl _
        | some x =>
          obtain ⟨b', h2, h3⟩ := sugOf_prefix hq hsug
          obtain rfl : b = b' := Option.some.inj (hb.symm.trans h2)
          exact h3
      refine edit_draws (s := { s with autosuggestion := sug }) hq hsw hb hpfx (fun _ => ?_) h1
      cases sug with
      | none => exact .inl rfl
      | some x =>
        have hm := List.mem_map_of_mem (f := fun b : Buffer => b.data) (sugOf_mem hsug)
        rw [hi] at hm
        rcases hh _ hm with h3 | h3
        · exact .inr (.inl h3)
        · exact .inr (.inr ⟨fun hc => h3 (hpfx.subset hc), hpfx⟩)
  last _ s hg hq hs hp := by
    obtain ⟨b, hb⟩ := hg.curBuf
    have hpfx : b.data <+: (s.autosuggestion.getD b).data := by
      cases hsug : s.autosuggestion with
      | none => exact List.prefix_refl _
      | some x =>
        obtain ⟨b', h2, h3⟩ := hs x hsug
        obtain rfl : b = b' := Option.some.inj (hb.symm.trans h2)
        exact h3
    have h1 := displayImpl_wp E false s
    rw [Wp, hp] at h1
    exact edit_draws hq hsw hb hpfx (fun h => by cases h) h1

/-- C61: reading a line with the Emacs keys, from any prompt, history, files, terminal and buffer, and for every input,
panics at most while the line is drawn, as long as the history is not shared and the terminal has a width. -/
theorem C61_emacs_partial (E : Env) (p p' : Prompt) (h : History) (fs : FS) (d : Text) (b : Buffer) (hb : Reach d b)
    (hs : h.share = false) (hw : E.ttyWidth ≠ some 0)
    (hd : ∀ b, Separated (E.words b) ∧ ∀ w ∈ E.words b, w.2 ≤ b.data.length) (input : List KeyMap.Input) (site : Site)
    (hp : Emacs.keyMap.readLine E p input ({}, initial p' h fs b) = .panic site) : site = .redraw ∨ site = .rows := by
  have h1 := Emacs.readLine_safe (h := ⟨h, false, false⟩) hs hd hw p p' fs ⟨d, reach_inv hb⟩ input (fun h => by cases h)
  rw [Wp, hp] at h1
  rcases h1 with h1 | h1 | h1
  · exact .inr h1
  · exact .inl h1.1
  · cases h1.2

/-- C61: if moreover no key starts a search, every history entry is of ASCII characters or of one line and no text is
wider when cut, then it does not panic, unless the cursor is more than 65535 rows below the prompt. -/
theorem C61_emacs_draws_partial (E : Env) (p p' : Prompt) (h : History) (fs : FS) (d : Text) (b : Buffer) (hb : Reach d b)
    (hs : h.share = false) (hw : E.ttyWidth ≠ some 0)
    (hd : ∀ b, Separated (E.words b) ∧ ∀ w ∈ E.words b, w.2 ≤ b.data.length)
    (hsw : ∀ a b, E.sw a ≤ E.sw (a ++ b)) (hh : ∀ e ∈ texts h, Ascii e ∨ '\n' ∉ e) (input : List KeyMap.Input)
    (hk : ∀ k c, KeyMap.Input.key k c ∈ input → k ≠ .ctrl 'r' ∧ k ≠ .ctrl 's') (site : Site)
    (hp : Emacs.keyMap.readLine E p input ({}, initial p' h fs b) = .panic site) : site = .rows := by
  have := draws false hsw hh
  have h1 := Emacs.readLine_safe (h := ⟨h, true, false⟩) hs hd hw p p' fs ⟨d, reach_inv hb⟩ input (fun _ => hk)
  rw [Wp, hp] at h1
  rcases h1 with h1 | h1 | h1
  · exact h1
  · cases h1.2
  · cases h1.2

/-- The default word divider meets the condition of these theorems. -/
theorem C61_default_words (b : Buffer) :
    Separated (getBufferWords b) ∧ ∀ w ∈ getBufferWords b, w.2 ≤ b.data.length :=
  ⟨C12_default_words_separated b, fun w hw => ((C11_words b).words w hw).inside⟩

open Liner.Tests Liner.Wit

/-- The hypotheses of `C61_emacs_draws_partial` are met by a history with other than ASCII characters and with several
lines, on a narrow terminal; the keys edit, complete, fetch arguments and go through the history. -/
example : (columns 9).ttyWidth ≠ some 0 ∧ (∀ a b, (columns 9).sw a ≤ (columns 9).sw (a ++ b)) ∧
    (hist ["é b", "a\nb"]).share = false ∧ (∀ e ∈ texts (hist ["é b", "a\nb"]), Ascii e ∨ '\n' ∉ e) ∧
    (∀ b, Separated ((columns 9).words b) ∧ ∀ w ∈ (columns 9).words b, w.2 ≤ b.data.length) ∧
    okAnd (Emacs.keyMap.readLine (columns 9) { prompt := ['$', ' '] } ((([.up, .alt '.', .alt '.', .ctrl 'w', .char '\t', .char '\t', .char 'x', .char ' ', .char 'é', .char 'z', .char 'u', .char 'v',
      .up, .alt '<', .right, .char '\n'] : List Key)).map fun k => .key k fun _ => [['p', 'q'], ['r', 's']])
      ({}, initial { prompt := ['$', ' '] } (hist ["é b", "a\nb"]) noFiles (.ofText ['é', '\n']))) (fun t _ => t == ['é', ' ', 'b']) = true := by
  refine ⟨by decide, fun a b => ?_, rfl, ?_, C61_default_words, by decide +kernel⟩
  · let _ := ideographs
    show (onScreen a).length ≤ (onScreen (a ++ b)).length
    rw [Screen.onScreen_append, List.length_append]; exact Nat.le_add_right _ _
  · intro e he
    have h : e = ['é', ' ', 'b'] ∨ e = ['a', '\n', 'b'] := by simpa [texts, hist, Buffer.ofText] using he
    rcases h with rfl | rfl
    · exact .inr (by decide)
    · exact .inl (by unfold Ascii; decide)

/-- C61 fails for a shared history: it is read again while the line shows one of its entries, and the entry is gone. -/
theorem C61_shared_violation : ∃ (E : Env) (p : Prompt) (h : History) (fs : FS) (es : List Key), h.share = true ∧
    es = [.alt '<', .up] ∧ session Emacs.keyMap E p (es.map plain) ({}, initial p h fs {}) = .panic .op :=
  ⟨env, { prompt := ['>', ' '] }, { hist ["a"] with share := true, fileName := some ['h'] },
    { file := fun _ => some { bytes := [] }, canCreate := fun _ => true }, _, rfl, rfl, of_panics (by decide +kernel)⟩

theorem panic_of_wp {σ α : Type} {m : M σ α} {s : σ} {w : Site} (h : Wp m s (fun _ _ => False) (fun _ _ => False) (· = w)) : m s = .panic w := by
  unfold Wp at h
  split at h
  · exact h.elim
  · exact h.elim
  · rename_i he
    rw [he, h]

/-- C61 fails on a terminal that says it has no columns, before any key. -/
theorem C61_width_violation (E : Env) (h0 : E.ttyWidth = some 0) (hw : ∀ t, E.writeOk t = true) (p p' : Prompt) (h : History) (fs : FS)
    (b : Buffer) (input : List KeyMap.Input) : Emacs.keyMap.readLine E p input ({}, initial p' h fs b) = .panic .op := by
  refine panic_of_wp ?_
  unfold KeyMap.readLine Editor.start
  rw [wp_bind, wp_ed, wp_bind]
  have h1 : ∀ o s, writeTerm E o s = .ok () { s with tick := s.tick + 1, out := s.out ++ o } := fun o s => by
    unfold writeTerm; rw [if_pos (hw _)]
  unfold Wp
  rw [h1]
  dsimp only
  rw [h0]
  rfl

/-- A terminal of one column. -/
def thin : Env := { columns 1 with sw := List.length }

/-- C42 fails on the second redraw of a line whose cursor is on a row that is a multiple of 65536: the number is
converted to `u16`, and 1 is subtracted from 0. -/
theorem C42_rows_violation (n : Nat) (hn : (n + 1) % 65536 = 0) (line : Text) (hl : line.length = n) (h1 : '\n' ∉ line) :
    (display thin >>= fun _ => display thin)
      { initial { prompt := [] } {} noFiles (.ofText line) with cursor := n } = .panic .rows := by
  refine panic_of_wp ?_
  generalize hs0 : ({ initial { prompt := [] } {} noFiles (.ofText line) with cursor := n } : Ed) = s0
  have hsug : ∀ s : Ed, s.histBufValid = false → s.isSearch = false → s.curHistoryLoc = none → s.history = {} → sugOf s = some none := by
    intro s h1 h2 h3 h4
    unfold sugOf
    rw [if_neg (by simp [h1]), h2, h3, h4]
    have : ∀ b, History.getNewestMatch {} (some 0) b = none := fun b => rfl
    cases s.showAutosuggestions <;> simp [this]
  rw [wp_bind, display_wp']
  have hpre : pre s0 = s0 := by subst hs0; rfl
  rw [hpre]
  refine ⟨fun sug hs => ?_, fun h => by rw [hsug s0 (by subst hs0; rfl) (by subst hs0; rfl) (by subst hs0; rfl) (by subst hs0; rfl)] at h; cases h⟩
  rw [hsug s0 (by subst hs0; rfl) (by subst hs0; rfl) (by subst hs0; rfl) (by subst hs0; rfl)] at hs
  obtain rfl := Option.some.inj hs
  have hcur : s0.curBuf? = some (.ofText line) := by subst hs0; rfl
  have hq : s0.isSearch = false := by subst hs0; rfl
  have hpr : promptFor thin { s0 with autosuggestion := none } {} = ([], 0) := by subst hs0; rfl
  have htcl : upToks s0.termCursorLine = some [] := by subst hs0; rfl
  have hh : s0.showCompletionsHint = none := by subst hs0; rfl
  have hc : clampCursor s0.noEol (Buffer.ofText line).numChars s0.cursor = n := by
    subst hs0
    show clampCursor false line.length n = n
    unfold clampCursor
    simp [hl]
  have hsp : ∀ t : Text, '\n' ∉ t → Buffer.splitOn (· == '\n') t = [t] := fun t ht =>
    splitOn_no _ _ (fun c hc => by simp only [beq_eq_false_iff_ne, ne_eq]; rintro rfl; exact ht hc)
  have hwd : widthsToCursor thin none (.ofText line) n = some [n] := by
    unfold widthsToCursor Buffer.rangeWidth
    dsimp only
    rw [range_take _ _ (by show n ≤ line.length; omega)]
    show some ((Buffer.splitOn (· == '\n') (line.take n)).map List.length) = _
    rw [List.take_of_length_le (by omega), hsp _ h1, List.map_cons, List.map_nil, hl]
  have hw2 : (Buffer.ofText line).width thin.sw = [n] := by
    show (Buffer.splitOn (· == '\n') line).map List.length = _
    rw [hsp _ h1, List.map_cons, List.map_nil, hl]
  have H : ∀ s2 : Ed, pre s2 = s2 → sugOf s2 = some none → upToks s2.termCursorLine = none → s2.curBuf? = some (.ofText line) →
      s2.isSearch = false → clampCursor s2.noEol (Buffer.ofText line).numChars s2.cursor = n →
      Wp (display thin) s2 (fun _ _ => False) (fun _ _ => False) (· = .rows) := by
    intro s2 e1 e2 e3 e4 e5 e6
    rw [display_wp', e1]
    refine ⟨fun sug hs => ?_, fun h => absurd (e2.symm.trans h) (by simp)⟩
    obtain rfl := Option.some.inj (e2.symm.trans hs)
    unfold displayImpl
    rw [wp_bind, wp_searchPrompt]
    refine ⟨fun h => absurd (e5.symm.trans h) (by simp), fun _ => ?_⟩
    rw [wp_bind, wp_terminalWidth]
    refine ⟨fun w hw => ?_, fun h => by cases h⟩
    rw [wp_bind, wp_curBuf]
    refine ⟨fun b hb => ?_, fun h => absurd (e4.symm.trans h) (by simp)⟩
    obtain rfl := Option.some.inj (e4.symm.trans hb)
    simp only [wp_bind, wp_modify, wp_get, wp_ofOptionRedraw, wp_ofOptionRows]
    rw [e6, hwd]
    exact ⟨fun _ _ => ⟨fun up hup => absurd (e3.symm.trans hup) (by simp), fun _ => by trivial⟩, fun h => by cases h⟩
  unfold displayImpl
  rw [wp_bind, wp_searchPrompt]
  refine ⟨fun h => absurd (hq.symm.trans h) (by simp), fun _ => ?_⟩
  rw [hpr, wp_bind, wp_terminalWidth]
  refine ⟨fun w hw => ?_, fun h => by cases h⟩
  obtain rfl : 1 = w := Option.some.inj hw
  rw [if_neg (by decide), wp_bind, wp_curBuf]
  refine ⟨fun b hb => ?_, fun h => absurd (hcur.symm.trans h) (by simp)⟩
  obtain rfl := Option.some.inj (hcur.symm.trans hb)
  simp only [wp_bind, wp_modify, wp_get, wp_ofOptionRedraw, wp_ofOptionRows]
  rw [hc, hwd]
  refine ⟨fun tc htc => ⟨fun up hup => ?_, fun h => absurd (htcl.symm.trans h) (by simp)⟩, fun h => by cases h⟩
  obtain rfl := Option.some.inj htc
  obtain rfl := Option.some.inj (htcl.symm.trans hup)
  rw [hh]
  simp only [completionPart, wp_pure]
  have hfr : ∀ s : Ed, s.autosuggestion = none → s.isSearch = false → ∃ f, frame thin true s ([], 0) 1 (.ofText line) [n] [] (0, []) = some f ∧
      f.line = n + 1 := by
    intro s hs1 hs2
    have hfo := frame_ok (E := thin) (s := s) (pr := ([], 0)) (tw := 1) (b := .ofText line) (tc := [n]) (up := []) (comp := (0, []))
      (fun p m => by rw [hs1]; exact lines_ok _ _ _ line _ (.inl rfl) _ _) (by rw [hs1, hs2, Option.getD_none, hw2]; exact Nat.le_refl _)
    cases hf : frame thin true s ([], 0) 1 (.ofText line) [n] [] (0, []) with
    | none => exact absurd hf hfo
    | some f =>
      refine ⟨f, rfl, ?_⟩
      rw [frame_eq] at hf
      dsimp only at hf
      split at hf
      · cases hf
        rw [hs2]
        show (calcWidth 0 1 [n] 0 + 1) / 1 + 0 = n + 1
        simp [calcWidth]
      · cases hf
  obtain ⟨f, hf, hfl⟩ := hfr { s0 with autosuggestion := none, tick := s0.tick + 1, cursor := n } rfl hq
  refine ⟨fun f' hf' => ?_, fun h => ?_⟩
  · obtain rfl := Option.some.inj (hf.symm.trans hf')
    simp only [wp_writeTerm, wp_flush]
    refine ⟨fun _ => ⟨fun _ => ?_, fun h => by cases h⟩, fun h => by cases h⟩
    subst hs0
    refine H _ rfl (hsug _ rfl rfl rfl rfl) ?_ rfl rfl hc
    show upToks f.line = none
    rw [hfl]
    unfold upToks
    have : asU16 (n + 1) = 0 := by unfold asU16; omega
    rw [if_pos (by omega), if_pos this]
  · exact absurd (hf.symm.trans h) (by simp)
/-- Such a line. -/
example : (65535 + 1) % 65536 = 0 ∧ (List.replicate 65535 'a').length = 65535 ∧ '\n' ∉ List.replicate 65535 'a' :=
  ⟨rfl, List.length_replicate, fun h => by cases List.eq_of_mem_replicate h⟩

end Liner.Props
