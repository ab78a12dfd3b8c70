import Verif.Proof.Page
/-
The last redraw of a line, which Enter makes.
-/

namespace Liner.Props
open Liner Liner.Spec Liner.Editor Liner.Screen Liner.Spec.Screen

/-- The final movement, for what it does to the row. -/
theorem move_row [Glyphs] {w R : Nat} {s : Screen} {a b : Nat} (hw : 0 < w) (hab : b ≤ a) (hrows : a / w < 65536) (h : s.row = R + a / w)
    {ts : List Tok} (ht : cursorMove a b w = some ts) : (flow w ts s).row = R + b / w ∧ (flow w ts s).cell = s.cell := by
  unfold cursorMove at ht
  have e : ∀ n, (n + w) / w = n / w + 1 := fun n => Nat.add_div_right n hw
  rw [e, e] at ht
  have hdiv : b / w ≤ a / w := Nat.div_le_div_right hab
  rw [if_neg (by omega)] at ht
  simp only [Option.some.injEq] at ht
  have e2 : a / w + 1 - (b / w + 1) = a / w - b / w := by omega
  have hq : asU16 (a / w - b / w) = a / w - b / w := by
    unfold asU16
    exact Nat.mod_eq_of_lt (Nat.lt_of_le_of_lt (Nat.sub_le _ _) hrows)
  rw [e2, hq] at ht
  subst ht
  rw [flow_append]
  have hup : (flow w (if a / w - b / w > 0 then [.up (a / w - b / w)] else []) s).row = R + b / w ∧
      (flow w (if a / w - b / w > 0 then [.up (a / w - b / w)] else []) s).cell = s.cell := by
    split
    · refine ⟨?_, rfl⟩
      show s.row - max 1 (a / w - b / w) = _
      generalize a / w = x at *
      generalize b / w = y at *
      omega
    · refine ⟨?_, rfl⟩
      show s.row = _
      omega
  generalize flow w (if a / w - b / w > 0 then [.up (a / w - b / w)] else []) s = s1 at hup
  split
  · exact hup
  · split
    · exact hup
    · exact hup

theorem roundUp_le {w n k : Nat} (hw : 0 < w) (h : n ≤ (k + 1) * w) : n + (w - n % w) % w ≤ (k + 1) * w := by
  have hd := Nat.div_add_mod n w
  have hl := Nat.mod_lt n hw
  by_cases hm : n % w = 0
  · rw [hm]; simp; exact h
  · rw [Nat.mod_eq_of_lt (a := w - n % w) (by omega)]
    have h1 : n / w < k + 1 := by
      rw [Nat.div_lt_iff_lt_mul hw]
      rcases Nat.lt_or_eq_of_le h with h | h
      · exact h
      · rw [h] at hm; simp at hm
    have h2 := Nat.mul_le_mul_right w (Nat.succ_le_of_lt h1)
    have h3 : (n / w).succ * w = w * (n / w) + w := by rw [Nat.succ_mul, Nat.mul_comm]
    omega

theorem rowsOf_mod {w : Nat} (hw : 0 < w) (qs : List Text) : (rowsOf w qs).length % w = 0 := by
  induction qs with
  | nil => simp [rowsOf]
  | cons q qs ih =>
    show (wholeRows w q ++ rowsOf w qs).length % w = 0
    rw [List.length_append, Nat.add_mod, wholeRows_mod _ hw, ih]
    simp

theorem rowsOf_snoc (w : Nat) (qs : List Text) (q : Text) : rowsOf w (qs ++ [q]) = rowsOf w qs ++ wholeRows w q := by
  simp [rowsOf]

theorem endOf_snoc (w : Nat) (qs : List Text) (q : Text) : endOf w (qs ++ [q]) = (rowsOf w qs).length + q.length := by
  unfold endOf
  simp

/-- The rows reach to the row with the end of the last line. -/
theorem rowsOf_le {w : Nat} (hw : 0 < w) (qs : List Text) (q : Text) (k : Nat) (h : endOf w (qs ++ [q]) ≤ (k + 1) * w) :
    (rowsOf w (qs ++ [q])).length ≤ (k + 1) * w := by
  rw [endOf_snoc] at h
  rw [rowsOf_snoc, List.length_append]
  have h1 := roundUp_le hw h
  have h2 := rowsOf_mod hw qs
  rw [Nat.add_mod, h2, Nat.zero_add, Nat.mod_mod] at h1
  simp only [wholeRows, List.length_append, List.length_replicate]
  omega

theorem indented_snoc (p : Text) (ls : List Text) (l : Text) : ∃ qs q, ∀ x, indented p (ls ++ [l ++ x]) = qs ++ [q ++ x] := by
  cases ls with
  | nil => exact ⟨[], p ++ l, fun x => by simp [indented]⟩
  | cons a ls => exact ⟨(p ++ a) :: ls.map (List.replicate p.length ' ' ++ ·), List.replicate p.length ' ' ++ l, fun x => by simp [indented]⟩

theorem indented_more (p : Text) (a : Text) (ls : List Text) (l : Text) :
    indented p ((a :: ls) ++ [l]) = indented p (a :: ls) ++ [List.replicate p.length ' ' ++ l] := by
  simp [indented]

theorem split_snoc (u : Text) (c : Char) : ∃ xs a, Buffer.splitOn (· == '\n') u = xs ++ [a] ∧
    Buffer.splitOn (· == '\n') (u ++ [c]) = if c = '\n' then xs ++ [a] ++ [[]] else xs ++ [a ++ [c]] := by
  induction u with
  | nil => exact ⟨[], [], rfl, by by_cases h : c = '\n' <;> simp [Buffer.splitOn, h]⟩
  | cons d u ih =>
    obtain ⟨xs, a, h1, h2⟩ := ih
    simp only [List.cons_append, Buffer.splitOn, h1, h2]
    by_cases hd : d = '\n'
    · refine ⟨[] :: xs, a, by simp [hd], ?_⟩
      by_cases h : c = '\n' <;> simp [h, hd]
    · cases xs with
      | nil =>
        refine ⟨[], d :: a, by simp [hd], ?_⟩
        by_cases h : c = '\n' <;> simp [h, hd]
      | cons x xs =>
        refine ⟨(d :: x) :: xs, a, by simp [hd], ?_⟩
        by_cases h : c = '\n' <;> simp [h, hd]

theorem getD_blank {T : Text} {k : Nat} (h : T.length ≤ k) (m n : Nat) (hn : k ≤ n) : (T ++ List.replicate m ' ').getD n ' ' = ' ' := by
  rw [List.getD_eq_getElem?_getD, List.getElem?_append_right (by omega), List.getElem?_replicate]
  split <;> rfl

/-- Below the row with the end of the text before the cursor nothing is drawn, when the cursor is at the end or on the last
character. -/
theorem blank_below [Glyphs] {w : Nat} (hw : 0 < w) (p line : Text) (c : Nat) (hc : line.length ≤ c + 1)
    (hu : ∀ d, line[c]? = some d → 2 ≤ Glyphs.width d → endOf w (shown p (Buffer.splitOn (· == '\n') (line.take c))) % w + 1 ≠ w) (n : Nat)
    (hn : (endOf w (shown p (Buffer.splitOn (· == '\n') (line.take c))) / w + 1) * w ≤ n) :
    (rowsOf w (shown p (Buffer.splitOn (· == '\n') line))).getD n ' ' = ' ' := by
  have hlt : ∀ e : Nat, e + 1 ≤ (e / w + 1) * w := fun e => by
    have hd := Nat.div_add_mod e w
    have hl := Nat.mod_lt e hw
    rw [Nat.add_mul, Nat.mul_comm]; omega
  have short : ∀ {T : Text}, T.length ≤ n → T.getD n ' ' = ' ' := fun h => by
    rw [List.getD_eq_getElem?_getD, List.getElem?_eq_none h]; rfl
  unfold shown at hu hn ⊢
  by_cases hlen : line.length ≤ c
  · rw [List.take_of_length_le hlen] at hn
    obtain ⟨xs, a, h1⟩ : ∃ xs a, Buffer.splitOn (· == '\n') line = xs ++ [a] := by
      obtain ⟨xs, a, h, _⟩ := split_snoc line ' '
      exact ⟨xs, a, h⟩
    rw [h1, List.map_append, List.map_cons, List.map_nil] at hn ⊢
    obtain ⟨qs, q, hq⟩ := indented_snoc (onScreen p) (xs.map onScreen) (onScreen a)
    have hq0 := hq []
    simp only [List.append_nil] at hq0
    rw [hq0] at hn ⊢
    exact short (Nat.le_trans (rowsOf_le hw qs q _ (Nat.le_of_succ_le (hlt _))) hn)
  · obtain ⟨u, d, rfl⟩ : ∃ u d, line = u ++ [d] := by
      rcases List.eq_nil_or_concat line with rfl | ⟨u, d, rfl⟩
      · simp at hlen
      · exact ⟨u, d, by simp⟩
    simp only [List.length_append, List.length_singleton] at hc hlen
    obtain rfl : c = u.length := by omega
    rw [List.take_left' rfl] at hn hu
    replace hu := hu d (by simp)
    obtain ⟨xs, a, h1, h2⟩ := split_snoc u d
    obtain ⟨qs, q, hq⟩ := indented_snoc (onScreen p) (xs.map onScreen) (onScreen a)
    have hq0 := hq []
    simp only [List.append_nil] at hq0
    rw [h1, List.map_append, List.map_cons, List.map_nil, hq0] at hn hu
    rw [h2]
    split
    · rw [show xs ++ [a] ++ [[]] = (xs ++ [a]) ++ [[]] from rfl]
      obtain ⟨y, ys, hy⟩ : ∃ y ys, xs ++ [a] = y :: ys := by
        cases xs with
        | nil => exact ⟨a, [], rfl⟩
        | cons x xs => exact ⟨x, xs ++ [a], rfl⟩
      have hy' : xs.map onScreen ++ [onScreen a] = onScreen y :: ys.map onScreen := by
        rw [← List.map_cons, ← hy]; simp
      rw [hy, List.map_append, List.map_cons, List.map_cons, List.map_nil, indented_more, ← hy', hq0, onScreen_nil, List.append_nil,
        rowsOf_snoc, wholeRows, List.replicate_append_replicate]
      exact getD_blank (rowsOf_le hw qs q _ (Nat.le_of_succ_le (hlt _))) _ _ hn
    · rw [List.map_append, List.map_cons, List.map_nil, onScreen_append, hq (onScreen [d])]
      refine short (Nat.le_trans (rowsOf_le hw qs (q ++ onScreen [d]) _ ?_) hn)
      rename_i hd
      have h3 : (onScreen [d]).length ≤ 1 ∨ (2 ≤ Glyphs.width d ∧ (onScreen [d]).length = 2) := by
        rw [onScreen_cons, onScreen_nil, List.append_nil]
        unfold cells
        split
        · exact .inl (Nat.le_refl _)
        · split
          · exact .inl (Nat.zero_le _)
          · split
            · exact .inl (Nat.le_refl _)
            · exact .inr ⟨by omega, rfl⟩
      rw [endOf_snoc] at hu ⊢
      rw [endOf_snoc, List.length_append]
      have := hlt ((rowsOf w qs).length + q.length)
      rcases h3 with h3 | ⟨h3, h4⟩
      · omega
      · have h5 := hu h3
        rw [h4, ← Nat.add_assoc]
        generalize (rowsOf w qs).length + q.length = e at *
        have hd := Nat.div_add_mod e w
        have hl := Nat.mod_lt e hw
        rw [Nat.add_mul, Nat.mul_comm]
        omega

/-- The last redraw in terms of the buffer and of the suggestion. -/
theorem frame_final (E : Env) (s : Ed) (pr : Text × Nat) (tw : Nat) (b : Buffer) (tc : List Nat) (up : List Tok)
    (comp : Nat × List Tok) : frame E false s pr tw b tc up comp =
      (let pw := lastPromptLineWidth E.sw pr.1
       let total := calcWidth pw tw ((s.autosuggestion.getD b).width E.sw) 0
       let cur := calcWidth (if s.isSearch then pr.2 else pw) tw tc 0
       match lineToks E s.isSearch pw b.lines.length b.lines 0 b.numBytes, cursorMove total cur tw with
       | some body, some move => some
          { toks := [.text (csi ['?', '1', '0', '0', '0', 'l'] ++ csi ['?', '1', 'l'])] ++ up ++
              [.text ['\r'], .clearAfter] ++ comp.2 ++ [.text pr.1] ++ body ++
              (if s.autosuggestion.isSome || s.isSearch then [.text fgReset] else []) ++
              (if total % tw = 0 then [.text ['\r', '\n']] else []) ++ move
            line := (cur + tw) / tw + comp.1 }
       | _, _ => none) := by
  unfold frame
  cases s.autosuggestion <;> rfl

/-- The last redraw and the line break after it.  `total` is where what the suggestion continues ends. -/
theorem enter_frame [Glyphs] {E : Env} {s : Ed} {pr : Text × Nat} {b : Buffer} {tc : List Nat} {up : List Tok} {f : Frame} {w : Nat}
    (hf : frame E false s pr w b tc up (0, []) = some f) (hs : s.isSearch = false) (hE : OnlyColours E) (hw : 0 < w ∧ w < 65536)
    {p : Text} (hp : Strip pr.1 p) (hnl : '\n' ∉ pr.1) (hpn : Counted E p)
    {ls ts : List Text} (hls : LinesOf b.data ls) (hts : LinesOf (s.autosuggestion.getD b).data ts) (hn : ∀ l ∈ ls, Counted E l)
    (hnt : ∀ l ∈ ts, Counted E l) (hfit : 0 < (onScreen p).length ∧ (onScreen p).length < w)
    {total cur : Nat} (htot : endOf w (shown p ts) = total) (hcur : calcWidth (onScreen p).length w tc 0 = cur)
    (hle : cur ≤ endOf w (shown p ls)) (hlt : endOf w (shown p ls) ≤ total)
    (hrow2 : total = endOf w (shown p ls) ∨ (total / w = endOf w (shown p ls) / w ∧ endOf w (shown p ls) % w ≠ 0))
    {scr : Screen} {R tcl : Nat} (htcl : 0 < tcl ∧ tcl < 65536) (hrow : scr.row = R + (tcl - 1)) (hup : upToks tcl = some up) :
    ∃ o1 o2, f.toks = o1 ++ o2 ∧ (scr.flow w o1).row = R + endOf w (shown p ls) / w ∧
      (endOf w (shown p ls) / w + 1 < 65536 →
      (scr.flow w (o1 ++ o2 ++ [.text ['\r', '\n']])).Shows w R (rowsOf w (shown p ls)) ∧
      (scr.flow w (o1 ++ o2 ++ [.text ['\r', '\n']])).row = R + cur / w + 1 ∧
      (scr.flow w (o1 ++ o2 ++ [.text ['\r', '\n']])).col = 0 ∧
      (scr.flow w (o1 ++ o2 ++ [.text ['\r', '\n']])).wrap = false ∧
      (∀ i j, i < R → (scr.flow w (o1 ++ o2 ++ [.text ['\r', '\n']])).cell i j = scr.cell i j)) := by
  have hpw : lastPromptLineWidth E.sw pr.1 = (onScreen p).length := by
    rw [(C14_last_prompt_line_width E.sw [] pr.1 p hnl hp).2, Counted.width hpn]
  have heol : (if total % w = 0 then [Tok.text ['\r', '\n']] else []) =
      if endOf w (shown p ls) % w = 0 then [Tok.text ['\r', '\n']] else [] := by
    rcases hrow2 with h | ⟨h1, h2⟩
    · rw [h]
    · rw [if_neg h2, if_neg]
      intro h3
      have e1 := Nat.div_add_mod total w
      have e2 := Nat.div_add_mod (endOf w (shown p ls)) w
      rw [h1, h3] at e1
      omega
  have hbw : (s.autosuggestion.getD b).width E.sw = ts.map E.sw := by unfold Buffer.width; rw [linesOf_split hts]
  have hbl : b.lines = ls := by unfold Buffer.lines; rw [linesOf_split hls]
  rw [frame_final] at hf
  dsimp only at hf
  rw [hbw, hbl, hpw, hs, if_neg (by simp), hcur, calcWidth_shown E.sw p ts hts.1 (fun l hl => Counted.width (hnt l hl)) hw.1, htot, heol] at hf
  split at hf
  · rename_i body move hbody hmove
    simp only [Option.some.injEq] at hf
    subst hf
    have key := redraw_pre (Heads.none (w := w) (R := R)) (s := scr) (R := R) (w := w) (reset := if (s.autosuggestion.isSome || false) = true then [.text fgReset] else [])
      hE hw.1 hw.2 ((C14_remove_codes _ _).mpr hp) (Counted.plain hpn) hls.1 (fun l hl => Counted.plain (hn l hl))
      (Or.inl hfit) htcl hrow hup hbody rfl (by split <;> simp)
    refine ⟨_, move, rfl, key.2.1.2.1, fun hrows => ?_⟩
    rw [flow_append, flow_append]
    have hcr : removeCodes ['\r', '\n'] = ['\r', '\n'] := by decide
    obtain ⟨k1, k2, k3⟩ := key
    generalize flow w ([Tok.text (csi ['?', '1', '0', '0', '0', 'l'] ++ csi ['?', '1', 'l'])] ++ up ++ [Tok.text ['\r'], Tok.clearAfter] ++
      (0, ([] : List Tok)).2 ++ [Tok.text pr.1] ++ body ++ (if (s.autosuggestion.isSome || false) = true then [Tok.text fgReset] else []) ++
      if endOf w (shown p ls) % w = 0 then [Tok.text ['\r', '\n']] else []) scr = s1 at k1 k2 k3 ⊢
    have hdiv : total / w = endOf w (shown p ls) / w := hrow2.elim (fun h => by rw [h]) (·.1)
    obtain ⟨m1, m2⟩ := move_row (R := R) (s := s1) hw.1 (Nat.le_trans hle hlt) (by omega) (by rw [hdiv]; exact k2.2.1) hmove
    rw [flow_text, hcr, onScreen_crlf]
    refine ⟨?_, ?_, rfl, rfl, ?_⟩
    · intro i j hj
      show (flow w move s1).cell (R + i) j = _
      rw [m2]
      exact k1 i j hj
    · show (flow w move s1).row + 1 = _
      rw [m1]
    · intro i j hi
      show (flow w move s1).cell i j = _
      rw [m2]
      exact k3 i j hi
  · exact absurd hf (by simp)

/-- Where the redraw takes the cursor to be. -/
theorem toCursor_eq {E : Env} {sug : Option Buffer} {b : Buffer} {cl : Nat} {tc : List Nat} (h : widthsToCursor E sug b cl = some tc)
    (hcl : cl ≤ b.data.length) (hsug : ∀ x, sug = some x → b.data <+: x.data) :
    tc = (Buffer.splitOn (· == '\n') (b.data.take cl)).map E.sw := by
  unfold widthsToCursor Buffer.rangeWidth at h
  cases sug with
  | none =>
    dsimp only at h
    rw [range_take _ _ hcl] at h
    simpa using h.symm
  | some x =>
    obtain ⟨rest, hx⟩ := hsug x rfl
    dsimp only at h
    split at h
    · rw [range_take x _ (by rw [← hx, List.length_append]; omega)] at h
      rw [← hx, List.take_append_of_le_length hcl] at h
      simpa using h.symm
    · rw [range_take _ _ hcl] at h
      simpa using h.symm

/-- Lines of a beginning of a text. -/
theorem begin_lines [Glyphs] {E : Env} {p : Text} {w : Nat} (hw : 0 < w) {u v : Text} (hn : ∀ l ∈ Buffer.splitOn (· == '\n') (u ++ v), Counted E l) :
    (∀ l ∈ Buffer.splitOn (· == '\n') u, E.sw l = (onScreen l).length) ∧
      endOf w (shown p (Buffer.splitOn (· == '\n') u)) ≤ endOf w (shown p (Buffer.splitOn (· == '\n') (u ++ v))) := by
  have h1 : ∀ l ∈ Buffer.splitOn (· == '\n') u, E.sw l = (onScreen l).length := by
    intro l hl
    obtain ⟨xs, a, e, rst, h1, h2⟩ := split_append (· == '\n') u v
    rw [h1, List.mem_append, List.mem_singleton] at hl
    rcases hl with hl | rfl
    · exact Counted.width (hn l (by rw [h2]; simp [hl]))
    · exact Counted.prefix (hn (l ++ e) (by rw [h2]; simp))
  refine ⟨h1, ?_⟩
  rw [← calcWidth_shown E.sw p _ (splitOn_ne_nil _ _) h1 hw, ← calcWidth_shown E.sw p _ (splitOn_ne_nil _ _) (fun l hl => Counted.width (hn l hl)) hw]
  refine calcWidth_prefix E.sw (onScreen p).length w u v hw ?_
  rintro x y ⟨l, hl, rfl⟩
  rw [Counted.prefix (hn _ hl), Counted.width (hn _ hl), onScreen_append, List.length_append]
  omega

theorem clamp_last (e : Bool) (n : Nat) : n ≤ clampCursor e n n + 1 := by
  unfold clampCursor
  dsimp only
  split <;> split <;> omega

/-- The end of `handle_newline`. -/
theorem finish_draw {E : Env} {s s' : Ed} (h : finishLine E s = .ok true s') :
    s.showCompletionsHint = none ∧ ∃ b s1 t, s.curBuf? = some b ∧ DrawOk E false { s with cursor := b.numChars } s1 ∧
      s' = { s1 with tick := t, out := s1.out ++ [.text ['\r', '\n']], showCompletionsHint := none } := by
  have key : Wp (finishLine E) s (fun r s' => r = true → s.showCompletionsHint = none ∧ ∃ b s1 t, s.curBuf? = some b ∧
      DrawOk E false { s with cursor := b.numChars } s1 ∧
      s' = { s1 with tick := t, out := s1.out ++ [.text ['\r', '\n']], showCompletionsHint := none }) (fun _ _ => True) (fun _ => True) := by
    unfold finishLine
    rw [wp_bind, wp_get]
    split
    · rw [wp_bind, wp_modify]
      exact fun h => nomatch h
    · rename_i hc
      rw [wp_bind, wp_curBuf]
      refine ⟨fun b hb => ?_, fun _ => trivial⟩
      split
      · rw [wp_bind]
        exact wp_mono wp_trivial (fun _ _ _ => fun h => nomatch h) (fun _ _ h => h) (fun _ h => h)
      · rw [wp_bind, wp_modify, wp_bind]
        refine wp_mono (displayImpl_wp E false _) (fun _ s1 h => ?_) (fun _ _ _ => trivial) (fun _ _ => trivial)
        rw [wp_bind, wp_writeTerm]
        refine ⟨fun _ => ?_, fun _ => trivial⟩
        rw [wp_bind, wp_modify]
        exact fun _ => ⟨by simpa using hc, b, s1, _, hb, h, rfl⟩
  exact wp_ok key h rfl

/-- The suggestion that continues the line ends on the row where the line ends. -/
theorem finish_core [Glyphs] (E : Env) (s s' : Ed) (h : finishLine E s = .ok true s') (hs : s.isSearch = false) (hE : OnlyColours E)
    (w : Nat) (htw : E.termSize s.tick = some w) (hw : 0 < w ∧ w < 65536)
    (p : Text) (hp : PromptFits E w s.prompt p) (line : Text) (ht : text? s' = some line)
    (ls ts before : List Text) (hls : LinesOf line ls) (hts : LinesOf (drawn s' line) ts)
    (hb : LinesOf (line.take s'.cursor) before) (hnt : ∀ l ∈ ts, Counted E l) (hn : ∀ l ∈ ls, Counted E l)
    (hunder : ∀ d, line[s'.cursor]? = some d → 2 ≤ Glyphs.width d → endOf w (shown p before) % w + 1 ≠ w)
    (hsug : ∀ x, s.autosuggestion = some x → line <+: x.data)
    (hrow2 : endOf w (shown p ts) = endOf w (shown p ls) ∨
      (endOf w (shown p ts) / w = endOf w (shown p ls) / w ∧ endOf w (shown p ls) % w ≠ 0))
    (scr : Screen) (R : Nat) (htcl : 0 < s.termCursorLine ∧ s.termCursorLine < 65536)
    (hrow : scr.row = R + (s.termCursorLine - 1)) :
    ∃ o1 o2, s'.out = s.out ++ (o1 ++ o2) ∧ (scr.flow w o1).row = R + endOf w (shown p ls) / w ∧
      (endOf w (shown p ls) / w + 1 < 65536 →
      (scr.flow w (o1 ++ o2)).Shows w R (rowsOf w (shown p ls)) ∧
      (scr.flow w (o1 ++ o2)).row = R + endOf w (shown p before) / w + 1 ∧
      (scr.flow w (o1 ++ o2)).col = 0 ∧ (scr.flow w (o1 ++ o2)).wrap = false ∧
      (∀ i j, (scr.flow w (o1 ++ o2)).row ≤ i → j < w → (scr.flow w (o1 ++ o2)).cell i j = ' ') ∧
      (∀ i j, i < R → (scr.flow w (o1 ++ o2)).cell i j = scr.cell i j)) := by
  obtain ⟨hc, b, s1, t', hb1, hd, rfl⟩ := finish_draw h
  obtain ⟨b', w', tc, up, comp, f, t, hb2, hw1, htc, hup, hcomp, hf, rfl⟩ := hd.ex
  obtain rfl : b = b' := Option.some.inj ((hb1.symm.trans hb2 : some b = some b'))
  have hw1 : E.termSize s.tick = some w' := hw1
  obtain rfl : w' = w := by rw [htw] at hw1; simpa using hw1.symm
  have hww : widthOf w' = w' := by unfold widthOf; rw [if_neg (by omega)]
  rw [hww] at hf
  have hup : upToks s.termCursorLine = some up := hup
  have hline : b.data = line := by
    have : text? s = some line := ht
    unfold text? at this
    rw [hb1] at this
    simpa using this
  subst hline
  have hs1 : ({ s with cursor := b.numChars } : Ed).isSearch = false := hs
  have hcl : clampCursor s.noEol b.numChars b.numChars ≤ b.data.length := clamp_le _ _ _
  have hcl2 : b.data.length ≤ clampCursor s.noEol b.numChars b.numChars + 1 := clamp_last _ _
  have hcomp : comp = (0, []) := by
    have : CompOf E s.showCompletionsHint (s.tick + 1) comp := hcomp
    rw [hc] at this
    exact this
  subst hcomp
  have hpr : promptFor E { s with cursor := b.numChars } b = (s.prompt.toText, 0) := by
    unfold promptFor
    rw [hs1]
    rfl
  have hb : LinesOf (b.data.take (clampCursor s.noEol b.numChars b.numChars)) before := hb
  have htc : widthsToCursor E s.autosuggestion b (clampCursor s.noEol b.numChars b.numChars) = some tc := htc
  have hunder : ∀ d, b.data[clampCursor s.noEol b.numChars b.numChars]? = some d → 2 ≤ Glyphs.width d →
    endOf w' (shown p before) % w' + 1 ≠ w' := hunder
  generalize clampCursor s.noEol b.numChars b.numChars = cl at *
  obtain rfl := linesOf_split hls
  obtain rfl := linesOf_split hb
  obtain rfl := toCursor_eq htc hcl hsug
  have hts : LinesOf (s.autosuggestion.getD b).data ts := by
    have hts : LinesOf ((s.autosuggestion.map (·.data)).getD b.data) ts := hts
    cases hx : s.autosuggestion <;> rw [hx] at hts <;> exact hts
  have h1 := begin_lines (E := E) (p := p) hw.1 (u := b.data.take cl) (v := b.data.drop cl)
    (by rw [List.take_append_drop]; exact hn)
  rw [List.take_append_drop] at h1
  have h2 : endOf w' (shown p (Buffer.splitOn (· == '\n') b.data)) ≤ endOf w' (shown p ts) := by
    obtain ⟨rest, hr⟩ : ∃ rest, (s.autosuggestion.getD b).data = b.data ++ rest := by
      cases hx : s.autosuggestion with
      | none => exact ⟨[], by simp⟩
      | some x => obtain ⟨r, hr⟩ := hsug x hx; exact ⟨r, hr.symm⟩
    obtain rfl := linesOf_split hts
    rw [hr] at hnt ⊢
    exact (begin_lines hw.1 hnt).2
  obtain ⟨o1, o2, g1, g2, g3⟩ := enter_frame (scr := scr) (R := R) hf hs1 hE hw (by rw [hpr]; exact hp.strip) (by rw [hpr]; exact hp.one) hp.counted hls hts
    hn hnt hp.fits rfl (calcWidth_shown E.sw p _ hb.1 h1.1 hw.1) h1.2 h2 hrow2 htcl hrow hup
  refine ⟨o1, o2 ++ [.text ['\r', '\n']], ?_, g2, fun hrows => ?_⟩
  · show (s.out ++ f.toks) ++ _ = _
    rw [g1]
    simp only [List.append_assoc]
  · obtain ⟨k1, k2, k3, k4, k5⟩ := g3 hrows
    rw [← List.append_assoc]
    refine ⟨k1, k2, k3, k4, fun i j hi hj => ?_, k5⟩
    rw [k2] at hi
    obtain ⟨k, rfl⟩ := Nat.exists_eq_add_of_le (Nat.le_trans (Nat.le_trans (Nat.le_add_right _ _) (Nat.le_add_right _ _)) hi : R ≤ i)
    rw [k1 k j hj]
    refine blank_below hw.1 p b.data cl hcl2 hunder _ ?_
    have : endOf w' (shown p (Buffer.splitOn (· == '\n') (b.data.take cl))) / w' + 1 ≤ k := by omega
    exact Nat.le_trans (Nat.mul_le_mul_right w' this) (Nat.le_add_right _ _)

end Liner.Props

namespace Liner
open Liner.Spec Liner.Editor Liner.Screen

/-- Enter up to the last redraw. -/
theorem newline_finish {E : Env} {P : Char → Prop} {H : List Text → Prop} {L : Prop} {C : Ed → Prop} (hC : Scene E P H L C)
    {s s' : Ed} {r : Bool} (hs : Now E C s) (h : handleNewline E s = .ok r s') :
    ∃ s1, Now E C s1 ∧ s1.isSearch = false ∧ finishLine E s1 = .ok r s' := by
  have key : Wp (handleNewline E) s (fun r s' => ∃ s1, Now E C s1 ∧ s1.isSearch = false ∧ finishLine E s1 = .ok r s')
      (fun _ _ => True) (fun _ => True) := by
    unfold handleNewline acceptIfSearch
    rw [wp_bind, wp_modify, wp_bind, wp_bind, wp_get]
    have hs1 : Now E C { s with historyFresh := false } :=
      up_modify (f := fun s : Ed => { s with historyFresh := false })
        (fun s hs => hC.put s _ _ _ _ _ _ _ _ _ _ hs (hC.inks s hs).new (hC.inks s hs).his)
        (fun _ => ⟨⟨rfl, rfl, rfl, rfl, ⟨rfl, rfl⟩, fun _ => ⟨rfl, rfl⟩, rfl, Or.inr rfl⟩, rfl⟩) s hs
    have fin : ∀ s1, Now E C s1 → s1.isSearch = false →
        Wp (do clearSearch; finishLine E) s1 (fun r s' => ∃ s1, Now E C s1 ∧ s1.isSearch = false ∧ finishLine E s1 = .ok r s')
          (fun _ _ => True) (fun _ => True) := by
      intro s1 h1 h2
      rw [wp_bind]
      have h3 := now_clearSearch hC s1 h1 h2
      refine wp_mono (Q := fun _ s2 => Now E C s2 ∧ s2.isSearch = false) ?_ (fun _ s2 h => ?_) (fun _ _ h => h) (fun _ h => h)
      · exact ⟨h3, rfl⟩
      · exact wp_mono wp_run (fun r s' h' => ⟨s2, h.1, h.2, h'⟩) (fun _ _ _ => trivial) (fun _ _ => trivial)
    split
    · exact wp_mono (fin_accept_quiet hC _ hs1.1) (fun _ s1 h => fin s1 h.1 h.2) (fun _ _ h => h) (fun _ h => h)
    · rename_i hn
      rw [wp_pure]
      exact fin _ hs1 (by simpa using hn)
  have h' := wp_ok key h
  exact h'

section
variable [Glyphs] {E : Env} {P : Char → Prop} {H : List Text → Prop} {w : Nat} {scr : Screen} {R0 : Nat} {base : Nat → Nat → Char} {L S : Prop}

omit [Glyphs] in
theorem now_prefix {C : Ed → Prop} {s : Ed} (hs : Now E C s) (hq : s.isSearch = false) {line : Text} (ht : text? s = some line)
    (x : Buffer) (hx : s.autosuggestion = some x) : line <+: x.data := by
  obtain ⟨-, s0, s1, -, h1, -, h3⟩ := hs
  have hsame : Same s0 s1 := (wp_ok (display_wp E s0) h1).same
  have hq0 : s0.isSearch = false := by
    rw [← hsame.isSearch]
    unfold Ed.isSearch at hq ⊢
    rw [← h3.search.1, ← h3.search.2]
    exact hq
  obtain ⟨sug, hsug, hd⟩ := Props.draw_quiet h1 hq0
  obtain ⟨b, _, hdr⟩ := hd.drawn
  have h4 : s1.autosuggestion = sug := drawn_sug hdr
  have h5 := h3.sug
  rw [h4, hx] at h5
  cases sug with
  | none => cases h5
  | some y =>
    obtain ⟨b', h6, h7⟩ := sugOf_prefix hq0 hsug
    have h8 : text? s1 = some b'.data := by
      obtain ⟨b, w', tc, up, comp, f, t, _, _, _, _, _, _, rfl⟩ := hd.ex
      unfold text?
      exact congrArg (Option.map (·.data)) h6
    rw [h3.text, h8] at ht
    cases ht
    have h9 : x.data = y.data := by simpa using h5
    rw [h9]
    exact h7

variable (hE : OnlyColours E) (htw : ∀ t, E.termSize t = some w) (hw : 0 < w ∧ w < 65536) (hP : CountsRight E P) (hH : ∀ cs, H cs → ListFits E w cs)
include hE htw hw hP hH

/-- The screen after the line is finished. -/
theorem page_finish {s s' : Ed} (hs : Now E (Page E P H w scr R0 base L S) s) (h : handleNewline E s = .ok true s')
    (hsee : Sight scr w s'.out) (p : Text) (hp : PromptFits E w s'.prompt p) (line : Text) (ht : text? s' = some line)
    (ls ts before : List Text) (hls : LinesOf line ls) (hts : LinesOf (drawn s' line) ts) (hb : LinesOf (line.take s'.cursor) before)
    (hunder : ∀ d, line[s'.cursor]? = some d → 2 ≤ Glyphs.width d → endOf w (shown p before) % w + 1 ≠ w)
    (hrow2 : endOf w (shown p ts) = endOf w (shown p ls) ∨
      (endOf w (shown p ts) / w = endOf w (shown p ls) / w ∧ endOf w (shown p ls) % w ≠ 0)) :
    ∃ R, R0 ≤ R ∧ (¬ L → R = R0) ∧ (scr.flow w s'.out).Shows w R (rowsOf w (shown p ls)) ∧
      (scr.flow w s'.out).row = R + endOf w (shown p before) / w + 1 ∧ (scr.flow w s'.out).col = 0 ∧ (scr.flow w s'.out).wrap = false ∧
      (∀ i j, (scr.flow w s'.out).row ≤ i → j < w → (scr.flow w s'.out).cell i j = ' ') ∧
      ∀ i j, i < R0 → (scr.flow w s'.out).cell i j = base i j := by
  have hC := scene_page (scr := scr) (R0 := R0) (base := base) (L := L) (S := S) hE htw hw hP hH
  obtain ⟨s1, h1, hq, h2⟩ := newline_finish hC hs h
  obtain ⟨-, b, s2, t, hb1, hd, he⟩ := Props.finish_draw h2
  have hkept : s'.prompt = s1.prompt ∧ text? s' = text? s1 ∧ s'.autosuggestion = s1.autosuggestion := by
    obtain ⟨b', w', tc, up, comp, f, t', _, _, _, _, _, _, rfl⟩ := hd.ex
    subst he
    exact ⟨rfl, rfl, rfl⟩
  have hin : Ink P line := text_ink h1.1.inks (hkept.2.1 ▸ ht)
  have hin2 : Ink P (drawn s' line) := by
    have := drawn_ink h1.1.inks (hkept.2.1 ▸ ht)
    unfold drawn at this ⊢
    rw [hkept.2.2]
    exact this
  have hnar : ∀ {x : Text} {xs : List Text}, Ink P x → LinesOf x xs → ∀ l ∈ xs, Counted E l := by
    intro x xs hx hxs l hl
    have h1 : l ∈ Buffer.splitOn (· == '\n') x := by rw [linesOf_split hxs]; exact hl
    exact hP l (fun c hc => (splitOn_ink hx l h1 c hc).1) (hxs.2.2 l hl)
  have hout : ∃ o, s'.out = s1.out ++ o := by
    obtain ⟨b', w', tc, up, comp, f, t', _, _, _, _, _, _, rfl⟩ := hd.ex
    subst he
    exact ⟨f.toks ++ [.text ['\r', '\n']], by simp⟩
  obtain ⟨o, ho⟩ := hout
  obtain ⟨R, g1, g2, g3, g4, g5, g6⟩ := h1.1.page (Sight.left (ho ▸ hsee))
  obtain ⟨o1, o2, h7, h8, h9⟩ := Props.finish_core E s1 s' h2 hq hE w (htw _) hw p (hkept.1 ▸ hp) line ht ls ts before hls hts hb
    (hnar hin2 hts) (hnar hin hls) hunder (fun x hx => now_prefix h1 hq (hkept.2.1 ▸ ht) x hx) hrow2 (scr.flow w s1.out) R ⟨g4, g5⟩ g3
  have h10 := hsee (s1.out ++ o1) (by rw [h7, ← List.append_assoc]; exact List.prefix_append _ _)
  rw [flow_append, h8] at h10
  obtain ⟨k1, k2, k3, k4, k5, k6⟩ := h9 (by omega)
  rw [h7, flow_append]
  exact ⟨R, g1, g2, k1, k2, k3, k4, k5, fun i j hij => (k6 i j (by omega)).trans (g6 i j hij)⟩

end
end Liner
