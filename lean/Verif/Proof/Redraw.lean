import Verif.Proof.Listed
import Verif.Proof.Editor
/-
What a redraw leaves on the terminal, with the row the cursor gets to on the way.
-/

namespace Liner.Props
open Liner Liner.Spec Liner.Editor Liner.Screen

theorem Counted.plain [Glyphs] {E : Env} {t : Text} (h : Counted E t) : Plain t := h.1

theorem Counted.width [Glyphs] {E : Env} {t : Text} (h : Counted E t) : E.sw t = (onScreen t).length := by
  have := h.2 t.length (Nat.le_refl _)
  rwa [List.take_length] at this

theorem Counted.prefix [Glyphs] {E : Env} {a b : Text} (h : Counted E (a ++ b)) : E.sw a = (onScreen a).length := by
  have := h.2 a.length (by simp)
  rwa [List.take_left'] at this
  rfl

theorem Narrow.prefix [Glyphs] {E : Env} {a b : Text} (h : Narrow E (a ++ b)) : E.sw a = a.length := by
  rw [Counted.prefix h.1, onScreen_narrow fun c hc => h.2 c (List.mem_append_left _ hc)]

/-- The quiet case of a redraw. -/
theorem draw_quiet {E : Env} {s s' : Ed} (h : display E s = .ok () s') (hs : s.isSearch = false) :
    ∃ sug, sugOf s = some sug ∧ DrawOk E true { s with autosuggestion := sug } s' := by
  have hp : pre s = s := by simp [pre, hs]
  have h2 : Wp (display E) s (fun _ s' => ∃ sug, sugOf s = some sug ∧ DrawOk E true { s with autosuggestion := sug } s')
      (fun _ _ => True) (fun _ => True) := by
    rw [display_wp', hp]
    exact ⟨fun sug h1 => wp_mono (displayImpl_wp E true _) (fun _ s' h2 => ⟨sug, h1, h2⟩) (fun _ _ _ => trivial)
      (fun _ _ => trivial), fun _ => trivial⟩
  exact wp_ok h2 h

theorem range_take (b : Buffer) (n : Nat) (hn : n ≤ b.data.length) : b.range 0 n = some (b.data.take n) := by
  unfold Buffer.range
  simp [hn]

theorem clamp_le (e : Bool) (n c : Nat) : clampCursor e n c ≤ n := by
  unfold clampCursor
  dsimp only
  split <;> split <;> omega

/-- A redraw in terms of the buffer that is drawn. -/
theorem frame_eq (E : Env) (s : Ed) (pr : Text × Nat) (tw : Nat) (b : Buffer) (tc : List Nat) (up : List Tok)
    (comp : Nat × List Tok) : frame E true s pr tw b tc up comp =
      (let db := s.autosuggestion.getD b
       let pw := lastPromptLineWidth E.sw pr.1
       let total := calcWidth pw tw (db.width E.sw) 0
       let cur := calcWidth (if s.isSearch then pr.2 else pw) tw tc 0
       match lineToks E s.isSearch pw db.lines.length db.lines 0 b.numBytes, cursorMove total cur tw with
       | some body, some move => some
          { toks := [.text (csi ['?', '1', '0', '0', '0', 'l'] ++ csi ['?', '1', 'l'])] ++ up ++
              [.text ['\r'], .clearAfter] ++ comp.2 ++ [.text pr.1] ++ body ++
              (if s.autosuggestion.isSome || s.isSearch then [.text fgReset] else []) ++
              (if total % tw = 0 then [.text ['\r', '\n']] else []) ++ move
            line := (cur + tw) / tw + comp.1 }
       | _, _ => none) := by
  unfold frame
  cases s.autosuggestion <;> rfl

theorem rowsOf_append (w : Nat) (a b : List Text) : rowsOf w (a ++ b) = rowsOf w a ++ rowsOf w b := by simp [rowsOf]

/-- The output of a redraw, with the cursor on position `cur` after the list. -/
theorem redraw_frame [Glyphs] {E : Env} {s : Ed} {pr : Text × Nat} {b : Buffer} {tc : List Nat} {up : List Tok} {f : Frame} {w : Nat}
    {comp : Nat × List Tok} (hf : frame E true s pr w b tc up comp = some f) (hE : OnlyColours E) (hw : 0 < w ∧ w < 65536)
    {p : Text} (hp : Strip pr.1 p) (hnl : '\n' ∉ pr.1) (hpn : Counted E p)
    {ls : List Text} (hls : LinesOf (s.autosuggestion.getD b).data ls) (hn : ∀ l ∈ ls, Counted E l)
    (hfit : (0 < (onScreen p).length ∧ (onScreen p).length < w) ∨ (ls.length = 1 ∧ shown p ls ≠ [[]]))
    {cur : Nat} (hcur : calcWidth (if s.isSearch then pr.2 else (onScreen p).length) w tc 0 = cur) (hle : cur ≤ endOf w (shown p ls))
    {scr : Screen} {R tcl : Nat} (htcl : 0 < tcl ∧ tcl < 65536) (hrow : scr.row = R + (tcl - 1)) (hup : upToks tcl = some up)
    {rows : List Text} (hk : comp.1 = rows.length) (hcomp : Heads w R rows.length (rowsOf w rows) comp.2) :
    ∃ o1 o2, f.toks = o1 ++ o2 ∧ (scr.flow w o1).row = R + rows.length + endOf w (shown p ls) / w ∧
      (rows.length + endOf w (shown p ls) / w + 1 < 65536 →
      (scr.flow w (o1 ++ o2)).Shows w R (rowsOf w (rows ++ shown p ls)) ∧
      (scr.flow w (o1 ++ o2)).On w (R + rows.length) cur ∧
      (∀ i j, i < R → (scr.flow w (o1 ++ o2)).cell i j = scr.cell i j) ∧
      (scr.flow w (o1 ++ o2)).row = R + (f.line - 1) ∧ 0 < f.line ∧ f.line < 65536) := by
  have hpw : lastPromptLineWidth E.sw pr.1 = (onScreen p).length := by
    rw [(C14_last_prompt_line_width E.sw [] pr.1 p hnl hp).2, Counted.width hpn]
  have hsp := linesOf_split hls
  rw [frame_eq] at hf
  dsimp only at hf
  have hwd2 : (s.autosuggestion.getD b).width E.sw = ls.map E.sw := by unfold Buffer.width; rw [hsp]
  have hli2 : (s.autosuggestion.getD b).lines = ls := by unfold Buffer.lines; rw [hsp]
  rw [hpw, hwd2, hli2, hcur, calcWidth_shown E.sw p ls hls.1 (fun l hl => Counted.width (hn l hl)) hw.1] at hf
  split at hf
  · rename_i body move hbody hmove
    simp only [Option.some.injEq] at hf
    subst hf
    have key0 := redraw_pre (s := scr) (R := R) (w := w) (reset := if (s.autosuggestion.isSome || s.isSearch) = true then [.text fgReset] else [])
      hcomp hE hw.1 hw.2 ((C14_remove_codes _ _).mpr hp) (Counted.plain hpn) hls.1 (fun l hl => Counted.plain (hn l hl))
      (hfit.imp id (fun h => ⟨List.length_eq_one_iff.mp h.1, h.2⟩)) htcl hrow hup hbody rfl (by split <;> simp)
    refine ⟨_, move, rfl, key0.2.1.2.1, fun hrows => ?_⟩
    have key := redraw (s := scr) (R := R) (w := w) (reset := if (s.autosuggestion.isSome || s.isSearch) = true then [.text fgReset] else [])
      hcomp hE hw.1 hw.2 ((C14_remove_codes _ _).mpr hp) (Counted.plain hpn) hls.1 (fun l hl => Counted.plain (hn l hl))
      (hfit.imp id (fun h => ⟨List.length_eq_one_iff.mp h.1, h.2⟩)) htcl hrow hup hbody rfl (by omega) hle hmove
      (by split <;> simp)
    refine ⟨by rw [rowsOf_append]; exact key.1, key.2.1, key.2.2, ?_, ?_, ?_⟩
    · show _ = R + ((cur + w) / w + comp.1 - 1)
      refine key.2.1.2.1.trans ?_
      rw [Nat.add_div_right _ hw.1, hk]
      generalize cur / w = x
      omega
    · show 0 < (cur + w) / w + comp.1
      rw [Nat.add_div_right _ hw.1]
      generalize cur / w = x
      omega
    · show (cur + w) / w + comp.1 < 65536
      rw [hk]
      rw [Nat.add_div_right _ hw.1]
      have := Nat.div_le_div_right (c := w) hle
      omega
  · exact absurd hf (by simp)

/-- A redraw; see C43.  Before the last movement the cursor of the terminal is on the last row that is drawn. -/
theorem redraw_core [Glyphs] (E : Env) (w : Nat) (s s' : Ed) (h : display E s = .ok () s')
    (hs : ¬ s.reverseSearch ∧ ¬ s.forwardSearch) (hc : HintFits E w s.showCompletionsHint) (hE : OnlyColours E)
    (htw : E.termSize s.tick = some w) (htl : E.termSize (s.tick + 1) = some w ∨ s.showCompletionsHint = none) (hw : 0 < w ∧ w < 65536)
    (p : Text) (hp : Strip s.prompt.toText p) (hnl : '\n' ∉ s.prompt.toText) (hpn : Counted E p)
    (line : Text) (ht : text? s' = some line) (ls before : List Text) (hls : LinesOf (drawn s' line) ls)
    (hb : LinesOf (line.take s'.cursor) before) (hn : ∀ l ∈ ls, Counted E l)
    (hfit : (0 < (onScreen p).length ∧ (onScreen p).length < w) ∨ (ls.length = 1 ∧ shown p ls ≠ [[]]))
    (scr : Screen) (R : Nat) (htcl : 0 < s.termCursorLine ∧ s.termCursorLine < 65536)
    (hrow : scr.row = R + (s.termCursorLine - 1)) :
    ∃ rows o1 o2, HintRows w s.showCompletionsHint rows ∧ s'.out = s.out ++ (o1 ++ o2) ∧
      (scr.flow w o1).row = R + rows.length + endOf w (shown p ls) / w ∧
      (rows.length + endOf w (shown p ls) / w + 1 < 65536 →
      (scr.flow w (o1 ++ o2)).Shows w R (rowsOf w (rows ++ shown p ls)) ∧
      (scr.flow w (o1 ++ o2)).On w (R + rows.length) (endOf w (shown p before)) ∧
      (∀ i j, i < R → (scr.flow w (o1 ++ o2)).cell i j = scr.cell i j) ∧
      (scr.flow w (o1 ++ o2)).row = R + (s'.termCursorLine - 1) ∧ 0 < s'.termCursorLine ∧ s'.termCursorLine < 65536) := by
  have hs0 : s.isSearch = false := by simpa [Ed.isSearch] using hs
  obtain ⟨sug, hsug, hd⟩ := draw_quiet h hs0
  obtain ⟨b, w', tc, up, comp, f, t, hb1, hw1, htc, hup, hcomp, hf, rfl⟩ := hd.ex
  have hb1 : s.curBuf? = some b := hb1
  have hw1 : E.termSize s.tick = some w' := hw1
  obtain rfl : w' = w := by rw [htw] at hw1; simpa using hw1.symm
  have hww : widthOf w' = w' := by unfold widthOf; rw [if_neg (by omega)]
  rw [hww] at hf
  have hup : upToks s.termCursorLine = some up := hup
  have hline : b.data = line := by
    have : text? s = some line := ht
    unfold text? at this
    rw [hb1] at this
    simpa using this
  subst hline
  have hs1 : ({ s with autosuggestion := sug } : Ed).isSearch = false := hs0
  have hcl : clampCursor s.noEol b.numChars s.cursor ≤ b.data.length := clamp_le _ _ _
  obtain ⟨rows, hr1, hr2, hr3⟩ := comp_heads (R := R) hc htl (hcomp : CompOf E s.showCompletionsHint (s.tick + 1) comp)
  have hpr : promptFor E { s with autosuggestion := sug } b = (s.prompt.toText, 0) := by
    unfold promptFor
    rw [hs1]
    rfl
  -- the text that is drawn
  obtain ⟨d, hd1, rest, hd2, hdb⟩ : ∃ d, drawn { s with autosuggestion := sug } b.data = d ∧ ∃ rest, d = b.data ++ rest ∧
      (sug.getD b).data = d := by
    cases sug with
    | none => exact ⟨b.data, rfl, [], by simp, rfl⟩
    | some x =>
      obtain ⟨b', h1, h2⟩ := sugOf_prefix hs0 hsug
      obtain rfl : b = b' := Option.some.inj ((hb1 : s.curBuf? = some b).symm.trans h1)
      obtain ⟨rest, h2⟩ := h2
      exact ⟨x.data, rfl, rest, h2.symm, rfl⟩
  have hls : LinesOf d ls := hd1 ▸ hls
  have hsp := linesOf_split hls
  -- the widths up to the cursor
  have htc' : tc = before.map E.sw := by
    have hb := linesOf_split hb
    have hb : Buffer.splitOn (· == '\n') (b.data.take (clampCursor s.noEol b.numChars s.cursor)) = before := hb
    have htc : widthsToCursor E sug b (clampCursor s.noEol b.numChars s.cursor) = some tc := htc
    unfold widthsToCursor Buffer.rangeWidth at htc
    rw [← hb]
    cases sug with
    | none =>
      dsimp only at htc
      rw [range_take _ _ hcl] at htc
      simpa using htc.symm
    | some x =>
      have hx : x.data = b.data ++ rest := hd1.trans hd2
      dsimp only at htc
      split at htc
      · rw [range_take x _ (by rw [hx, List.length_append]; omega)] at htc
        rw [hx, List.take_append_of_le_length hcl] at htc
        simpa using htc.symm
      · rw [range_take _ _ hcl] at htc
        simpa using htc.symm
  subst htc'
  have hbn : ∀ l ∈ before, E.sw l = (onScreen l).length := by
    intro l hl
    have hb : Buffer.splitOn (· == '\n') (b.data.take (clampCursor s.noEol b.numChars s.cursor)) = before := linesOf_split hb
    obtain ⟨xs, a, e, rst, h1, h2⟩ := split_append (· == '\n') (b.data.take (clampCursor s.noEol b.numChars s.cursor))
      (b.data.drop (clampCursor s.noEol b.numChars s.cursor) ++ rest)
    rw [← List.append_assoc, List.take_append_drop, ← hd2, hsp] at h2
    rw [hb] at h1
    rw [h1, List.mem_append, List.mem_singleton] at hl
    rcases hl with hl | rfl
    · exact Counted.width (hn l (by rw [h2]; simp [hl]))
    · exact Counted.prefix (hn (l ++ e) (by rw [h2]; simp))
  have hle : endOf w' (shown p before) ≤ endOf w' (shown p ls) := by
    have hb0 : Buffer.splitOn (· == '\n') (b.data.take (clampCursor s.noEol b.numChars s.cursor)) = before := linesOf_split hb
    rw [← calcWidth_shown E.sw p before hb.1 hbn hw.1, ← calcWidth_shown E.sw p ls hls.1 (fun l hl => Counted.width (hn l hl)) hw.1]
    have h1 := calcWidth_prefix E.sw (onScreen p).length w' (b.data.take (clampCursor s.noEol b.numChars s.cursor))
      (b.data.drop (clampCursor s.noEol b.numChars s.cursor) ++ rest) hw.1
    rw [← List.append_assoc, List.take_append_drop, ← hd2, hsp, hb0] at h1
    refine h1 ?_
    rintro x y ⟨l, hl, rfl⟩
    rw [Counted.prefix (hn _ hl), Counted.width (hn _ hl), onScreen_append, List.length_append]
    omega
  -- the output
  obtain ⟨o1, o2, g1, g2, g3⟩ := redraw_frame (cur := endOf w' (shown p before)) hf hE hw (by rw [hpr]; exact hp) (by rw [hpr]; exact hnl) hpn
    (by show LinesOf (sug.getD b).data ls; rw [hdb]; exact hls) hn hfit
    (by rw [hs1, if_neg (by simp), calcWidth_shown E.sw p before hb.1 hbn hw.1]) hle htcl hrow hup hr2 hr3
  exact ⟨rows, o1, o2, hr1, congrArg (s.out ++ ·) g1, g2, g3⟩

/-! ### In a search -/

theorem draw_any {E : Env} {s s' : Ed} (h : display E s = .ok () s') :
    ∃ sug, sugOf (pre s) = some sug ∧ DrawOk E true { pre s with autosuggestion := sug } s' := by
  have h2 : Wp (display E) s (fun _ s' => ∃ sug, sugOf (pre s) = some sug ∧ DrawOk E true { pre s with autosuggestion := sug } s')
      (fun _ _ => True) (fun _ => True) := by
    rw [display_wp']
    exact ⟨fun sug h1 => wp_mono (displayImpl_wp E true _) (fun _ s' h2 => ⟨sug, h1, h2⟩) (fun _ _ _ => trivial)
      (fun _ _ => trivial), fun _ => trivial⟩
  exact wp_ok h2 h

theorem Strip.plain {t rest out : Text} (h : escChar ∉ t) (hr : Strip rest out) : Strip (t ++ rest) (t ++ out) := by
  induction t with
  | nil => exact hr
  | cons c t ih =>
    rw [List.mem_cons, not_or] at h
    exact .keep c _ _ (fun hc => h.1 hc.symm) (ih h.2)

theorem strip_colour {t rest out : Text} (ht : t = fgRed ∨ t = fgGreen ∨ t = fgReset) (hr : Strip rest out) : Strip (t ++ rest) out := by
  rcases ht with rfl | rfl | rfl
  · exact .csi ['3', '8', ';', '5', ';', '1'] rest out 'm' (by decide) (by decide) hr
  · exact .csi ['3', '8', ';', '5', ';', '2'] rest out 'm' (by decide) (by decide) hr
  · exact .csi ['3', '9'] rest out 'm' (by decide) (by decide) hr

theorem fmtNat_eq (n : Nat) : fmtNat n = (toString n).toList := by
  show Nat.toDigits 10 n = (String.ofList (Nat.toDigits 10 n)).toList
  simp

theorem digits_plain (n : Nat) (c : Char) (h : c ∈ fmtNat n) : c.isDigit = true := by
  exact Nat.isDigit_of_mem_toDigits (by decide) (by decide) h

theorem strip_search {mode colour term : Text} {place n : Nat} (hc : colour = fgRed ∨ colour = fgGreen) (hm : escChar ∉ mode)
    (ht : escChar ∉ term) : Strip (searchText mode colour term place n) (searchLine mode term place n) := by
  have hd : ∀ n, escChar ∉ fmtNat n := fun n h => by have := digits_plain n _ h; revert this; decide
  unfold searchText searchLine
  rw [← fmtNat_eq, ← fmtNat_eq]
  simp only [List.append_assoc]
  refine Strip.plain hm (Strip.plain (by decide) (strip_colour (hc.imp id Or.inl) (Strip.plain ht (strip_colour (Or.inr (Or.inr rfl)) ?_))))
  refine Strip.plain (t := ['`', ' ', '(']) (by decide) (Strip.plain (hd _) (Strip.plain (t := ['/']) (by decide) (Strip.plain (hd _) ?_)))
  exact Strip.plain (t := [')', ':', ' ']) (rest := []) (out := []) (by decide) .nil

theorem search_nl {mode colour term : Text} {place n : Nat} (hc : colour = fgRed ∨ colour = fgGreen) (hm : '\n' ∉ mode)
    (ht : '\n' ∉ term) : '\n' ∉ searchText mode colour term place n := by
  have hd : ∀ n, '\n' ∉ fmtNat n := fun n h => by have := digits_plain n _ h; revert this; decide
  have hcn : '\n' ∉ colour := by rcases hc with rfl | rfl <;> decide
  unfold searchText
  simp only [List.mem_append, not_or]
  exact ⟨⟨⟨⟨⟨⟨⟨⟨⟨hm, by decide⟩, hcn⟩, ht⟩, by decide⟩, by decide⟩, hd _⟩, by decide⟩, hd _⟩, by decide⟩

theorem endOf_first (w : Nat) (l : Text) (ls : List Text) : l.length ≤ endOf w (l :: ls) := by
  unfold endOf
  cases ls with
  | nil => simp
  | cons a ls =>
    rw [List.dropLast_cons_of_ne_nil (by simp)]
    simp [rowsOf, wholeRows]
    omega

theorem split_none {t : Text} (h : '\n' ∉ t) : Buffer.splitOn (· == '\n') t = [t] :=
  splitOn_no _ _ (fun c hc => by simp only [beq_eq_false_iff_ne, ne_eq]; rintro rfl; exact h hc)

/-- A redraw in a search; see C43. -/
theorem search_core [Glyphs] (E : Env) (w : Nat) (s s' : Ed) (h : display E s = .ok () s')
    (hs : s.reverseSearch = true ∨ s.forwardSearch = true) (hc : HintFits E w s.showCompletionsHint) (hE : OnlyColours E)
    (htw : E.termSize s.tick = some w) (htl : E.termSize (s.tick + 1) = some w ∨ s.showCompletionsHint = none) (hw : 0 < w ∧ w < 65536)
    (hlen : E.stripLen s.prompt.pre = s.prompt.pre.length) (term : Text) (ht : text? s' = some term) (htn : Narrow E term)
    (p : Text) (hp : p = searchLine s.prompt.pre term (placeOf s') s'.historySubsetIndex.length) (hpn : Narrow E p)
    (ls : List Text) (hls : LinesOf (drawn s' term) ls) (hn : ∀ l ∈ ls, Narrow E l) (hfit : p.length < w ∨ ls.length = 1)
    (hcur : s'.cursor ≤ (ls.headD []).length ∨ (drawn s' term).length ≤ s'.cursor)
    (scr : Screen) (R : Nat) (htcl : 0 < s.termCursorLine ∧ s.termCursorLine < 65536)
    (hrow : scr.row = R + (s.termCursorLine - 1)) :
    ∃ rows o1 o2, HintRows w s.showCompletionsHint rows ∧ s'.out = s.out ++ (o1 ++ o2) ∧
      (scr.flow w o1).row = R + rows.length + endOf w (shown p ls) / w ∧
      (rows.length + endOf w (shown p ls) / w + 1 < 65536 →
      (scr.flow w (o1 ++ o2)).Shows w R (rowsOf w (rows ++ shown p ls)) ∧
      (scr.flow w (o1 ++ o2)).On w (R + rows.length) (s.prompt.pre.length + 9 + s'.cursor) ∧
      (∀ i j, i < R → (scr.flow w (o1 ++ o2)).cell i j = scr.cell i j) ∧
      (scr.flow w (o1 ++ o2)).row = R + (s'.termCursorLine - 1) ∧ 0 < s'.termCursorLine ∧ s'.termCursorLine < 65536) := by
  have hs0 : s.isSearch = true := by simpa [Ed.isSearch] using hs
  obtain ⟨sug, hsug, hd⟩ := draw_any h
  obtain ⟨b, w', tc, up, comp, f, t, hb1, hw1, htc, hup, hcomp, hf, rfl⟩ := hd.ex
  have hb1 : (pre s).curBuf? = some b := hb1
  obtain ⟨e1, e2, e3, e4, e5, e6⟩ : (pre s).tick = s.tick ∧ (pre s).termCursorLine = s.termCursorLine ∧ (pre s).out = s.out ∧
      (pre s).showCompletionsHint = s.showCompletionsHint ∧ (pre s).prompt = s.prompt ∧ (pre s).isSearch = true := by
    unfold pre
    split
    · refine ⟨rfl, rfl, rfl, rfl, rfl, ?_⟩
      simp [refreshed, Ed.isSearch]
    · exact ⟨rfl, rfl, rfl, rfl, rfl, hs0⟩
  have hs1 : ({ pre s with autosuggestion := sug } : Ed).isSearch = true := e6
  obtain rfl : w' = w := by
    have hw1 : E.termSize (pre s).tick = some w' := hw1
    rw [e1, htw] at hw1; simpa using hw1.symm
  have hww : widthOf w' = w' := by unfold widthOf; rw [if_neg (by omega)]
  rw [hww] at hf
  have hup : upToks s.termCursorLine = some up := e2 ▸ hup
  have hline : b.data = term := by
    have : text? (pre s) = some term := ht
    unfold text? at this
    rw [hb1] at this
    simpa using this
  subst hline
  have hcl : clampCursor (pre s).noEol b.numChars (pre s).cursor ≤ b.data.length := clamp_le _ _ _
  have hcur : clampCursor (pre s).noEol b.numChars (pre s).cursor ≤ (ls.headD []).length ∨
    ((sug.map (·.data)).getD b.data).length ≤ clampCursor (pre s).noEol b.numChars (pre s).cursor := hcur
  have htc : widthsToCursor E sug b (clampCursor (pre s).noEol b.numChars (pre s).cursor) = some tc := htc
  have hls : LinesOf ((sug.map (·.data)).getD b.data) ls := hls
  have hp : p = searchLine s.prompt.pre b.data (placeOf (pre s)) (pre s).historySubsetIndex.length := hp
  have hcomp : CompOf E (pre s).showCompletionsHint ((pre s).tick + 1) comp := hcomp
  rw [e4, e1] at hcomp
  obtain ⟨rows, hr1, hr2, hr3⟩ := comp_heads (R := R) hc htl hcomp
  generalize hcl0 : clampCursor (pre s).noEol b.numChars (pre s).cursor = cl at *
  -- the widths up to the cursor
  have hnb : ∀ {d l : Text}, Narrow E l → d <+: l → d.length = cl → E.sw <$> Buffer.splitOn (· == '\n') d = [cl] := by
    intro d l hl hd hlen
    obtain ⟨r, rfl⟩ := hd
    rw [split_none (fun hm => (hl.1.1 _ (List.mem_append_left _ hm)).2.1 rfl)]
    simp [Narrow.prefix hl, hlen]
  have hnb1 : (Buffer.splitOn (· == '\n') (b.data.take cl)).map E.sw = [cl] :=
    hnb htn (List.take_prefix _ _) (by simp; omega)
  have htc' : tc = [cl] := by
    unfold widthsToCursor Buffer.rangeWidth at htc
    cases sug with
    | none =>
      dsimp only at htc
      rw [range_take _ _ hcl] at htc
      simp only [Option.map_some, Option.some.injEq] at htc
      rw [← htc, hnb1]
    | some x =>
      dsimp only at htc
      split at htc
      · rename_i hlt
        have hlt : cl < x.data.length := hlt
        rw [range_take x _ (by omega)] at htc
        simp only [Option.map_some, Option.some.injEq] at htc
        have hfirst : cl ≤ (ls.headD []).length := by
          rcases hcur with h | h
          · exact h
          · simp only [Option.map_some, Option.getD_some] at h; omega
        have hx : LinesOf x.data ls := hls
        obtain ⟨l, ls', rfl⟩ : ∃ l ls', ls = l :: ls' := by
          cases ls with
          | nil => exact absurd rfl hls.1
          | cons l ls' => exact ⟨l, ls', rfl⟩
        have hxl : ∃ r, x.data = l ++ r := by
          rw [← hx.2.1]
          cases ls' with
          | nil => exact ⟨[], by simp [joinLines]⟩
          | cons a ls' => exact ⟨_, rfl⟩
        obtain ⟨r, hr⟩ := hxl
        have hfirst : cl ≤ l.length := hfirst
        rw [← htc, hr, List.take_append_of_le_length hfirst]
        exact hnb (hn l (by simp)) (List.take_prefix _ _) (by simp; omega)
      · rw [range_take _ _ hcl] at htc
        simp only [Option.map_some, Option.some.injEq] at htc
        rw [← htc, hnb1]
  subst htc'
  -- the prompt
  have hpr : promptFor E { pre s with autosuggestion := sug } b =
      (searchText s.prompt.pre (if (pre s).historySubsetIndex.isEmpty then fgRed else fgGreen) b.data (placeOf (pre s))
        (pre s).historySubsetIndex.length, s.prompt.pre.length + 9) := by
    unfold promptFor placeOf
    rw [hs1, if_pos rfl]
    show (searchText (pre s).prompt.pre _ _ _ _, E.stripLen (pre s).prompt.pre + 9) = _
    rw [e5, hlen]
    simp only [List.isEmpty_iff]
  have hcol : (if (pre s).historySubsetIndex.isEmpty then fgRed else fgGreen) = fgRed ∨
      (if (pre s).historySubsetIndex.isEmpty then fgRed else fgGreen) = fgGreen := by split <;> simp
  have hmode : Plain s.prompt.pre := fun c hc => hpn.1.1 c (by rw [hp]; unfold searchLine; simp [hc])
  have hterm : Plain b.data := Counted.plain htn.1
  have hlp : s.prompt.pre.length + 9 + b.data.length ≤ p.length := by
    rw [hp]; unfold searchLine; simp
    omega
  have hpe : onScreen p = p := onScreen_narrow hpn.2
  obtain ⟨o1, o2, g1, g2, g3⟩ := redraw_frame (cur := s.prompt.pre.length + 9 + cl) hf hE hw (p := p)
    (by rw [hpr, hp]; exact strip_search hcol (fun hm => (hmode _ hm).2.2 rfl) (fun hm => (hterm _ hm).2.2 rfl))
    (by rw [hpr]; exact search_nl hcol (fun hm => (hmode _ hm).2.1 rfl) (fun hm => (hterm _ hm).2.1 rfl)) hpn.1
    (ls := ls) (by
      have : (sug.getD b).data = (sug.map (·.data)).getD b.data := by cases sug <;> rfl
      show LinesOf (sug.getD b).data ls
      rw [this]; exact hls) (fun l hl => (hn l hl).1)
    (hfit.imp (fun h => ⟨by rw [hpe]; omega, by rw [hpe]; exact h⟩) fun h => ⟨h, fun he => by
      obtain ⟨l, rfl⟩ := List.length_eq_one_iff.mp h
      simp only [shown, List.map_cons, hpe, indented, List.map_nil, List.cons.injEq, and_true, List.append_eq_nil_iff] at he
      rw [he.1] at hlp
      simp at hlp⟩)
    (by rw [hs1, if_pos rfl, hpr]
        show (if 0 % w' ≠ 0 then _ else 0) + (s.prompt.pre.length + 9 + cl) = _
        simp)
    (by
      obtain ⟨l, ls', rfl⟩ : ∃ l ls', ls = l :: ls' := by
        cases ls with
        | nil => exact absurd rfl hls.1
        | cons l ls' => exact ⟨l, ls', rfl⟩
      unfold shown
      refine Nat.le_trans ?_ (endOf_first w' (onScreen p ++ onScreen l) _)
      rw [hpe, List.length_append]
      omega) htcl hrow hup hr2 hr3
  exact ⟨rows, o1, o2, hr1, by
    show (pre s).out ++ f.toks = _
    rw [e3, g1], g2, g3⟩

end Liner.Props
