import Verif.Proof.Redraw
import Verif.Props.Witness
/-
What a redraw leaves on the terminal: C43.
-/

namespace Liner.Props
open Liner Liner.Spec Liner.Editor Liner.Screen

/-- C43: a redraw.  `s` is any state without a running search, the terminal has `w` columns, and its cursor is on the
row the editor takes it to be on, counting from row `R`.  The prompt shows as `p`, and the columns of it and of all lines are
counted right (characters may take one column, two, or none); no character of two columns meets the right edge; if there is a list
of completions, its characters take one column, two candidates fit on a row and the last row is not full.  Then the redraw shows, from row `R` on, the rows of the list, then the prompt and the lines (those of the suggestion if there is
one), each line on whole rows; it leaves everything above row `R` alone; the cursor of the terminal stands where the text
before the cursor of the editor ends; and the editor again knows which row that is. -/
theorem C43_redraw_partial [Glyphs] (E : Env) (w : Nat) (s s' : Ed) (h : display E s = .ok () s')
    (hs : ¬ s.reverseSearch ∧ ¬ s.forwardSearch) (hc : HintFits E w s.showCompletionsHint) (hE : OnlyColours E)
    (htw : E.termSize s.tick = some w) (htl : E.termSize (s.tick + 1) = some w ∨ s.showCompletionsHint = none) (hw : 0 < w ∧ w < 65536)
    (p : Text) (hp : Strip s.prompt.toText p) (hnl : '\n' ∉ s.prompt.toText) (hpn : Counted E p)
    (line : Text) (ht : text? s' = some line) (ls before : List Text) (hls : LinesOf (drawn s' line) ls)
    (hb : LinesOf (line.take s'.cursor) before) (hn : ∀ l ∈ ls, Counted E l)
    (hfit : (0 < (onScreen p).length ∧ (onScreen p).length < w) ∨ (ls.length = 1 ∧ shown p ls ≠ [[]]))
    (scr : Screen) (R : Nat) (htcl : 0 < s.termCursorLine ∧ s.termCursorLine < 65536)
    (hrow : scr.row = R + (s.termCursorLine - 1)) :
    ∃ o rows, s'.out = s.out ++ o ∧ HintRows w s.showCompletionsHint rows ∧
      (scr.Fits w o → rows.length + endOf w (shown p ls) / w + 1 < 65536 →
      (scr.toks w o).Shows w R (rowsOf w (rows ++ shown p ls)) ∧
      (scr.toks w o).On w (R + rows.length) (endOf w (shown p before)) ∧
      (∀ i j, i < R → (scr.toks w o).cell i j = scr.cell i j) ∧
      (scr.toks w o).row = R + (s'.termCursorLine - 1) ∧ 0 < s'.termCursorLine ∧ s'.termCursorLine < 65536) := by
  obtain ⟨rows, o1, o2, h0, h1, -, h2⟩ := redraw_core E w s s' h hs hc hE htw htl hw p hp hnl hpn line ht ls before hls hb hn hfit scr R htcl hrow
  exact ⟨_, rows, h1, h0, fun hf => by rw [fits_eq _ _ hf]; exact h2⟩

/-- C43: a redraw in a search for `term`.  Before the entry found (or before the term, when there is none) stands the
term with the place of the entry, and the cursor of the terminal is in the term.  The first line of the entry must
reach to the cursor, or the whole entry must not reach beyond it; see `C43_search_violation`. -/
theorem C43_search_partial [Glyphs] (E : Env) (w : Nat) (s s' : Ed) (h : display E s = .ok () s')
    (hs : s.reverseSearch = true ∨ s.forwardSearch = true) (hc : HintFits E w s.showCompletionsHint) (hE : OnlyColours E)
    (htw : E.termSize s.tick = some w) (htl : E.termSize (s.tick + 1) = some w ∨ s.showCompletionsHint = none) (hw : 0 < w ∧ w < 65536)
    (hlen : E.stripLen s.prompt.pre = s.prompt.pre.length) (term : Text) (ht : text? s' = some term) (htn : Narrow E term)
    (p : Text) (hp : p = searchLine s.prompt.pre term (placeOf s') s'.historySubsetIndex.length) (hpn : Narrow E p)
    (ls : List Text) (hls : LinesOf (drawn s' term) ls) (hn : ∀ l ∈ ls, Narrow E l) (hfit : p.length < w ∨ ls.length = 1)
    (hcur : s'.cursor ≤ (ls.headD []).length ∨ (drawn s' term).length ≤ s'.cursor)
    (scr : Screen) (R : Nat) (htcl : 0 < s.termCursorLine ∧ s.termCursorLine < 65536)
    (hrow : scr.row = R + (s.termCursorLine - 1)) :
    ∃ o rows, s'.out = s.out ++ o ∧ HintRows w s.showCompletionsHint rows ∧
      (scr.Fits w o → rows.length + endOf w (shown p ls) / w + 1 < 65536 →
      (scr.toks w o).Shows w R (rowsOf w (rows ++ shown p ls)) ∧
      (scr.toks w o).On w (R + rows.length) (s.prompt.pre.length + 9 + s'.cursor) ∧
      (∀ i j, i < R → (scr.toks w o).cell i j = scr.cell i j) ∧
      (scr.toks w o).row = R + (s'.termCursorLine - 1) ∧ 0 < s'.termCursorLine ∧ s'.termCursorLine < 65536) := by
  obtain ⟨rows, o1, o2, h0, h1, -, h2⟩ := search_core E w s s' h hs hc hE htw htl hw hlen term ht htn p hp hpn ls hls hn hfit hcur scr R htcl hrow
  exact ⟨_, rows, h1, h0, fun hf => by rw [fits_eq _ _ hf]; exact h2⟩

/-! ### The first redraw -/

/-- Where the next character goes, counted in columns from the beginning of the screen. -/
def pen (w : Nat) (s : Screen) : Nat := (if s.wrap then s.row + 1 else s.row) * w + (if s.wrap then 0 else s.col)

theorem put_pen {w : Nat} {s : Screen} (c : Char) (hw : 0 < w) (hc : s.col < w) :
    pen w (s.put w c) = pen w s + 1 ∧ (s.put w c).col < w ∧ (s.put w c).row = pen w s / w ∧
      ∀ i j, i < s.row → (s.put w c).cell i j = s.cell i j := by
  have hk : (if s.wrap then 0 else s.col) < w := by split <;> omega
  unfold pen Screen.put
  dsimp only
  generalize hr : (if s.wrap then s.row + 1 else s.row) = r
  generalize hkk : (if s.wrap then 0 else s.col) = k at hk ⊢
  have hsr : s.row ≤ r := by rw [← hr]; split <;> omega
  refine ⟨?_, ?_, ?_, ?_⟩
  · by_cases h : k + 1 < w
    · simp [h]
      omega
    · simp [h]
      rw [Nat.add_mul]
      omega
  · split <;> omega
  · rw [Nat.mul_comm, Nat.mul_add_div hw, Nat.div_eq_of_lt hk]
    simp
  · intro i j hi
    rw [if_neg (by omega)]

/-- After some more characters that are neither returns nor line feeds. -/
theorem write_pen {w : Nat} (l : Text) (hw : 0 < w) (hl : ∀ c ∈ l, c ≠ '\r' ∧ c ≠ '\n') :
    ∀ s : Screen, s.col < w → pen w (s.write w l) = pen w s + l.length ∧ (s.write w l).col < w ∧
      (l ≠ [] → (s.write w l).row = (pen w s + l.length - 1) / w) ∧ s.row ≤ (s.write w l).row ∧
      ∀ i j, i < s.row → (s.write w l).cell i j = s.cell i j := by
  induction l with
  | nil => exact fun s hs => ⟨rfl, hs, fun h => absurd rfl h, Nat.le_refl _, fun _ _ _ => rfl⟩
  | cons c cs ih =>
    intro s hs
    have hc := hl c (by simp)
    have h1 : s.char w c = s.put w c := by
      unfold Screen.char
      rw [if_neg hc.1, if_neg hc.2]
    have h2 := put_pen (w := w) (s := s) c hw hs
    have h3 := ih (fun c hc => hl c (by simp [hc])) (s.put w c) h2.2.1
    have hrow : s.row ≤ (s.put w c).row := by
      unfold Screen.put
      dsimp only
      split <;> omega
    show pen w ((s.char w c).write w cs) = _ ∧ ((s.char w c).write w cs).col < w ∧
      (_ → ((s.char w c).write w cs).row = _) ∧ s.row ≤ ((s.char w c).write w cs).row ∧
      ∀ i j, i < s.row → ((s.char w c).write w cs).cell i j = _
    rw [h1]
    refine ⟨by rw [h3.1, h2.1, List.length_cons]; omega, h3.2.1, fun _ => ?_, Nat.le_trans hrow h3.2.2.2.1, fun i j hi => ?_⟩
    · by_cases hcs : cs = []
      · subst hcs
        exact h2.2.2.1
      · rw [h3.2.2.1 hcs, h2.1, List.length_cons]
        congr 1
        omega
    · rw [h3.2.2.2.2 i j (by omega), h2.2.2.2 i j hi]

theorem repeat_write (E : Env) (n : Nat) : ∀ s : Ed,
    Wp (M.repeatN n (writeTerm E [.text [' ']])) s
      (fun _ s' => ∃ t, s' = { s with tick := t, out := s.out ++ List.replicate n (.text [' ']) }) (fun _ _ => True) (fun _ => False) := by
  induction n with
  | zero => exact fun s => wp_pure.mpr ⟨s.tick, by simp⟩
  | succ n ih =>
    intro s
    refine wp_bind.mpr (wp_writeTerm.mpr ?_)
    refine ⟨fun _ => ?_, fun _ => trivial⟩
    refine wp_mono (ih _) (fun _ s' h => ?_) (fun _ _ h => h) (fun _ h => h)
    obtain ⟨t, rfl⟩ := h
    exact ⟨t, by simp [List.replicate_succ]⟩

theorem toks_spaces [Glyphs] {w : Nat} (n : Nat) (s : Screen) :
    s.flow w (List.replicate n (.text [' '])) = s.write w (List.replicate n ' ') := by
  induction n generalizing s with
  | zero => rfl
  | succ n ih =>
    rw [List.replicate_succ, List.replicate_succ]
    have : removeCodes [' '] = [' '] := by decide
    show (s.write w (onScreen (removeCodes [' ']))).flow w _ = (s.write w [' ']).write w _
    rw [this, ih, onScreen_narrow (by simp [Glyphs.space])]

/-- What opening an editor writes before the first redraw leaves the cursor at the beginning of a row, wherever it
was. -/
theorem opening [Glyphs] {w : Nat} {scr : Screen} (hw : 0 < w) (hc : scr.col < w) {q t : Text} (hq : removeCodes t = q)
    (hqP : Plain q) (hqw : (onScreen q).length ≤ w) :
    ∃ o, o = [.text ['⏎']] ++ List.replicate (w - 1) (.text [' ']) ++ [.text ['\r', ' ', '\r']] ++ [.text t] ∧
      (scr.flow w o).row = scr.row + (if scr.col = 0 ∧ scr.wrap = false then 0 else 1) ∧
      ∀ i j, i < scr.row → (scr.flow w o).cell i j = scr.cell i j := by
  refine ⟨_, rfl, ?_⟩
  rw [flow_append, flow_append, flow_append, flow_text, flow_text, flow_text, toks_spaces, hq]
  have h1 : removeCodes ['⏎'] = ['⏎'] := by decide
  have h2 : removeCodes ['\r', ' ', '\r'] = ['\r', ' ', '\r'] := by decide
  have h2' : onScreen ['\r', ' ', '\r'] = ['\r', ' ', '\r'] := by simp [onScreen, cells, Glyphs.space]
  rw [h1, h2, onScreen_narrow (t := ['⏎']) (by simp [Glyphs.mark]), h2', ← write_append ['⏎'] (List.replicate (w - 1) ' ') scr]
  have h3 := write_pen (w := w) (['⏎'] ++ List.replicate (w - 1) ' ') hw (by
    intro c hc
    simp only [List.mem_append, List.mem_singleton, List.mem_replicate] at hc
    rcases hc with rfl | ⟨-, rfl⟩ <;> decide) scr hc
  have hlen : (['⏎'] ++ List.replicate (w - 1) ' ').length = w := by simp; omega
  rw [hlen] at h3
  have h4 := h3.2.2.1 (by simp)
  have hrow : (scr.write w (['⏎'] ++ List.replicate (w - 1) ' ')).row = scr.row + (if scr.col = 0 ∧ scr.wrap = false then 0 else 1) := by
    rw [h4]
    unfold pen
    cases hwr : scr.wrap
    · simp only [Bool.false_eq_true, if_false, and_true]
      by_cases h0 : scr.col = 0
      · rw [h0, if_pos rfl, show scr.row * w + 0 + w - 1 = w * scr.row + (w - 1) by rw [Nat.mul_comm]; omega,
          Nat.mul_add_div hw, Nat.div_eq_of_lt (by omega)]
      · rw [if_neg h0, show scr.row * w + scr.col + w - 1 = w * (scr.row + 1) + (scr.col - 1) by rw [Nat.mul_comm, Nat.mul_add]; omega,
          Nat.mul_add_div hw, Nat.div_eq_of_lt (by omega)]
    · simp only [if_true]
      rw [show (scr.row + 1) * w + 0 + w - 1 = w * (scr.row + 1) + (w - 1) by rw [Nat.mul_comm]; omega,
          Nat.mul_add_div hw, Nat.div_eq_of_lt (by omega)]
      simp
  generalize scr.write w (['⏎'] ++ List.replicate (w - 1) ' ') = s1 at h3 hrow
  have h5 : s1.write w ['\r', ' ', '\r'] = { (({ s1 with col := 0, wrap := false } : Screen).put w ' ') with col := 0, wrap := false } := by
    simp [Screen.write, Screen.char]
  have h6 := put_pen (w := w) (s := { s1 with col := 0, wrap := false }) ' ' hw hw
  have h7 : (({ s1 with col := 0, wrap := false } : Screen).put w ' ').row = s1.row := by simp [Screen.put]
  have h8 := write_pen (w := w) (onScreen q) hw hqP.on (s1.write w ['\r', ' ', '\r']) (by rw [h5]; exact hw)
  have h9 : (s1.write w ['\r', ' ', '\r']).row = s1.row := by rw [h5]; exact h7
  have hle : scr.row ≤ s1.row := h3.2.2.2.1
  refine ⟨?_, fun i j hi => ?_⟩
  · rw [← hrow, ← h9]
    by_cases hq0 : onScreen q = []
    · rw [hq0]; rfl
    · rw [h8.2.2.1 hq0]
      have : pen w (s1.write w ['\r', ' ', '\r']) = w * s1.row := by
        rw [h5]
        show s1.row * w + 0 = _
        rw [Nat.mul_comm]; rfl
      have hpos : 0 < (onScreen q).length := List.length_pos_iff.mpr hq0
      rw [this, h9, show w * s1.row + (onScreen q).length - 1 = w * s1.row + ((onScreen q).length - 1) by omega, Nat.mul_add_div hw,
        Nat.div_eq_of_lt (by omega)]
      rfl
  · rw [h8.2.2.2.2 i j (by rw [h9]; omega), h5]
    show (({ s1 with col := 0, wrap := false } : Screen).put w ' ').cell i j = _
    rw [h6.2.2.2 i j (by show i < s1.row; omega)]
    exact h3.2.2.2.2 i j hi

theorem wp_self {m : EdM Unit} {s : Ed} : Wp m s (fun a s' => m s = .ok a s') (fun _ _ => True) (fun _ => True) := by
  unfold Wp
  cases m s <;> simp

/-- C43: opening an editor on an empty line, with the cursor of the terminal anywhere.  The prompt (one line here)
appears at the beginning of a row: the row the cursor was on, or the next one when the cursor was not in the first
column.  Rows above are not touched. -/
theorem C43_start_partial [Glyphs] (E : Env) (pr : Prompt) (hist : History) (fs : FS) (s' : Ed)
    (h : start E pr (initial pr hist fs {}) = .ok () s') (hE : OnlyColours E)
    (w : Nat) (htw : ∀ t, E.termSize t = some w) (htty : E.ttyWidth = some w) (hw : 0 < w ∧ w < 65536)
    (q p : Text) (hq : Strip pr.prompt q) (hqn : Counted E q) (hqw : (onScreen q).length ≤ w)
    (hp : Strip pr.toText p) (hnl : '\n' ∉ pr.toText) (hpn : Counted E p)
    (t : Text) (ht : drawn s' [] = t) (ls : List Text) (hls : LinesOf t ls) (hn : ∀ l ∈ ls, Counted E l)
    (hfit : (0 < (onScreen p).length ∧ (onScreen p).length < w) ∨ (ls.length = 1 ∧ shown p ls ≠ [[]]))
    (hrows : endOf w (shown p ls) / w + 1 < 65536)
    (scr : Screen) (hc : scr.col < w) (hsee : scr.Fits w s'.out) :
    ∃ R, R = scr.row + (if scr.col = 0 ∧ scr.wrap = false then 0 else 1) ∧
      (scr.toks w s'.out).Shows w R (rowsOf w (shown p ls)) ∧ (scr.toks w s'.out).On w R (onScreen p).length ∧
      (∀ i j, i < scr.row → (scr.toks w s'.out).cell i j = scr.cell i j) ∧
      (scr.toks w s'.out).row = R + (s'.termCursorLine - 1) ∧ 0 < s'.termCursorLine ∧ s'.termCursorLine < 65536 := by
  have hq0 : '\n' ∉ pr.prompt := by
    intro hc
    refine hnl ?_
    unfold Prompt.toText
    split
    · exact List.mem_append_right _ hc
    · exact hc
  have hlast : lastLine pr.prompt = pr.prompt := (C14_handle_prompt [] pr.prompt hq0).2
  have hjoin : joinCrLf pr.prompt = pr.prompt := by
    unfold joinCrLf
    rw [splitOn_no _ _ (fun c hc => by simp only [beq_eq_false_iff_ne, ne_eq]; rintro rfl; exact hq0 hc)]
    simp [List.intercalate]
  obtain ⟨o, ho, hor, hoc⟩ := opening (w := w) (scr := scr) hw.1 hc ((C14_remove_codes _ _).mpr hq) (Counted.plain hqn) hqw
  have key : Wp (start E pr) (initial pr hist fs {}) (fun _ s' => ∃ t,
      display E { initial pr hist fs {} with tick := t, out := o } = .ok () s') (fun _ _ => True) (fun _ => True) := by
    unfold start
    simp only [wp_bind, wp_writeTerm, htty, Option.getD_some]
    refine ⟨fun _ => ?_, fun _ => trivial⟩
    rw [if_neg (by omega), wp_bind]
    refine wp_mono (repeat_write E (w - 1) _) (fun _ s2 h2 => ?_) (fun _ _ _ => trivial) (fun _ h => h.elim)
    obtain ⟨t2, rfl⟩ := h2
    simp only [wp_bind, wp_writeTerm, wp_get]
    refine ⟨fun _ => ⟨fun _ => ?_, fun _ => trivial⟩, fun _ => trivial⟩
    rw [if_pos (by rfl)]
    refine wp_mono wp_self (fun _ s3 h3 => ⟨t2 + 1 + 1, ?_⟩) (fun _ _ _ => trivial) (fun _ _ => trivial)
    rw [← h3, hjoin, ho]
    rfl
  obtain ⟨t0, hd⟩ := wp_ok key h
  have htext : text? s' = some [] := by
    obtain ⟨sug, -, hd2⟩ := draw_quiet hd rfl
    obtain ⟨b, hb, l, c, o', t', rfl⟩ := hd2.drawn
    rfl
  obtain ⟨rows, o1, o2, h0, h1, -, h2⟩ := redraw_core E w _ s' hd ⟨by simp [initial], by simp [initial]⟩ (fun _ h => nomatch h) hE
    (htw _) (.inr rfl) hw p
    (by show Strip (Prompt.toText { pr with prompt := lastLine pr.prompt }) p; rw [hlast]; exact hp)
    (by show '\n' ∉ Prompt.toText { pr with prompt := lastLine pr.prompt }; rw [hlast]; exact hnl) hpn [] htext ls [[]] (ht ▸ hls)
    (by rw [List.take_nil]; exact ⟨by simp, rfl, by simp⟩) hn hfit (scr.flow w o)
    (scr.row + (if scr.col = 0 ∧ scr.wrap = false then 0 else 1)) ⟨by show 0 < 1; omega, by show 1 < 65536; omega⟩
    (by rw [hor]; rfl)
  obtain rfl : rows = [] := h0
  obtain ⟨h2, h3, h4, h5⟩ := h2 (by simpa using hrows)
  have h1 : s'.out = o ++ (o1 ++ o2) := h1
  refine ⟨_, rfl, ?_⟩
  rw [fits_eq _ _ hsee, h1, flow_append]
  refine ⟨h2, ?_, fun i j hi => ?_, h5⟩
  · simpa [shown, indented, endOf, rowsOf, onScreen_nil] using h3
  · rw [h4 i j (by omega), hoc i j hi]

/-! ### Cases, and where it goes wrong -/

open Liner.Tests Liner.Wit

/-- A terminal that gives two columns to ideographs and none to combining accents. -/
@[reducible] def ideographs : Glyphs where
  width c := if 0x4e00 ≤ c.toNat ∧ c.toNat < 0xa000 then 2 else if 0x300 ≤ c.toNat ∧ c.toNat < 0x370 then 0 else 1
  space := by decide
  mark := by decide

attribute [local instance] ideographs

/-- A terminal with `w` columns. -/
def columns (w : Nat) : Env := { env with sw := fun t => (onScreen t).length, termSize := fun _ => some w, ttyWidth := some w }

/-- Emacs keys typed after a prompt on such a terminal. -/
def typed (w : Nat) (p : Text) (keys : List Key) (entries : List String) (line : String) : Out (Emacs × Ed) Unit :=
  session Emacs.keyMap (columns w) { prompt := p } (keys.map plain)
    ({}, initial { prompt := p } (hist entries) noFiles (.ofText line.toList))

theorem counted_columns {w : Nat} {t : Text} (h : Plain t) : Counted (columns w) t := ⟨h, fun _ _ => rfl⟩

theorem narrow_columns {w : Nat} {t : Text} (h : Plain t) (h1 : ∀ c ∈ t, Glyphs.width c = 1) : Narrow (columns w) t :=
  ⟨counted_columns h, h1⟩

/-- The screen: some rows of it. -/
def rowsOn (w n : Nat) (s : Screen) : List Text := (List.range n).map fun i => (List.range w).map fun j => s.cell i j

/-- The hypotheses of `C43_redraw_partial` are met by a prompt `$ `, two lines and a suggestion that continues
the second one, ten columns, and the cursor two characters before the end. -/
example : okAnd (typed 10 ['$', ' '] (chars "abcdefgh" ++ [.left, .left]) ["ab\ncdabcdefghijk"] "ab\ncd") (fun _ t =>
    okAnd (display (columns 10) t.2) fun _ s' =>
      !t.2.reverseSearch && !t.2.forwardSearch && t.2.showCompletionsHint.isNone &&
      t.2.prompt.toText == ['$', ' '] && text? s' == some "ab\ncdabcdefgh".toList && s'.cursor == 11 &&
      drawn s' "ab\ncdabcdefgh".toList == "ab\ncdabcdefghijk".toList &&
      joinLines ["ab".toList, "cdabcdefghijk".toList] == "ab\ncdabcdefghijk".toList &&
      t.2.termCursorLine == 3 && (({} : Screen).toks 10 t.2.out).row == 2 &&
      (({} : Screen).toks 10 s'.out).row == 2 && (({} : Screen).toks 10 s'.out).col == 0 &&
      rowsOn 10 4 (({} : Screen).toks 10 s'.out) ==
        ["$ ab      ".toList, "  cdabcdef".toList, "ghijk     ".toList, "          ".toList]) = true := by
  decide +kernel

example : Narrow (columns 10) ['a', 'b'] ∧ Narrow (columns 10) "cdabcdefghijk".toList ∧ Narrow (columns 10) ['$', ' '] :=
  ⟨narrow_columns (by unfold Plain; decide) (by decide), narrow_columns (by unfold Plain; decide) (by decide), narrow_columns (by unfold Plain; decide) (by decide)⟩

/-- They are met by ideographs, which take two columns each, and a combining accent, which takes none, up to a full row and on
the next. -/
example : okAnd (typed 10 ['$', ' '] (chars "a漢字e\u0301b" ++ [.left]) ["a漢字e\u0301bz字漢u"] "") (fun _ t =>
    okAnd (display (columns 10) t.2) fun _ s' =>
      !t.2.reverseSearch && !t.2.forwardSearch && t.2.showCompletionsHint.isNone &&
      t.2.prompt.toText == ['$', ' '] && text? s' == some "a漢字e\u0301b".toList && s'.cursor == 5 &&
      drawn s' "a漢字e\u0301b".toList == "a漢字e\u0301bz字漢u".toList &&
      decide (({} : Screen).Fits 10 s'.out) &&
      t.2.termCursorLine == 1 && (({} : Screen).toks 10 t.2.out).row == 0 &&
      (({} : Screen).toks 10 s'.out).row == 0 && (({} : Screen).toks 10 s'.out).col == 8 &&
      rowsOn 10 3 (({} : Screen).toks 10 s'.out) ==
        [['$', ' ', 'a', '漢', half, '字', half, 'e', 'b', 'z'], ['字', half, '漢', half, 'u', ' ', ' ', ' ', ' ', ' '],
          List.replicate 10 ' ']) = true := by
  decide +kernel

example : Counted (columns 10) "a漢字e\u0301bz字漢u".toList := counted_columns (by unfold Plain; decide)

/-- They are also met by a list of four candidates in rows of three, the second of them highlighted. -/
example : okAnd (typed 10 ['$', ' '] (chars "xy" ++ [.left]) [] "") (fun _ t =>
    okAnd (display (columns 10) { t.2 with showCompletionsHint := some (["a".toList, "b".toList, "c".toList, "d".toList], some 1) }) fun _ s' =>
      !t.2.reverseSearch && !t.2.forwardSearch && t.2.prompt.toText == ['$', ' '] && text? s' == some "xy".toList && s'.cursor == 1 &&
      drawn s' "xy".toList == "xy".toList && t.2.termCursorLine == 1 && (({} : Screen).toks 10 t.2.out).row == 0 &&
      s'.termCursorLine == 3 && (({} : Screen).toks 10 s'.out).row == 2 && (({} : Screen).toks 10 s'.out).col == 3 &&
      rowsOn 10 4 (({} : Screen).toks 10 s'.out) ==
        ["a  b  c   ".toList, "d         ".toList, "$ xy      ".toList, "          ".toList]) = true := by
  decide +kernel

example : HintFits (columns 10) 10 (some (["a".toList, "b".toList, "c".toList, "d".toList], some 1)) := by
  intro x hx
  cases hx
  refine ⟨?_, by decide, by decide, ?_⟩
  · simp only [List.mem_cons, List.not_mem_nil, or_false]
    rintro c (rfl | rfl | rfl | rfl) <;> exact narrow_columns (by unfold Plain; decide) (by decide)
  · intro m hm h1 h2
    have : m = 1 := by
      rcases h2 with h2 | ⟨c, hc, h2⟩
      · exact h2
      · simp only [List.mem_cons, List.not_mem_nil, or_false] at hc
        rcases hc with rfl | rfl | rfl | rfl <;> exact h2.symm
    subst this
    decide

/-- A closure that only colours. -/
example : OnlyColours { columns 10 with closure := some fun t => fgRed ++ t } := by
  intro f hf t
  cases hf
  exact (C14_remove_codes _ _).mpr (Strip.csi ['3', '8', ';', '5', ';', '1'] t _ 'm' (by decide) (by decide) ((C14_remove_codes t _).mp rfl))

/-- The hypotheses of `C43_search_partial` are met by a search for `abc` that finds the second of three entries, whose
second line goes on to the next row. -/
example : okAnd (typed 25 ['$', ' '] ([.ctrl 'r'] ++ chars "abc" ++ [.ctrl 'r', .left]) ["1abc", "abcab\nabc", "zabczz"] "") (fun _ t =>
    okAnd (display (columns 25) t.2) fun _ s' =>
      (t.2.reverseSearch || t.2.forwardSearch) && t.2.showCompletionsHint.isNone &&
      t.2.prompt.pre == [] && text? s' == some "abc".toList && s'.cursor == 2 &&
      drawn s' "abc".toList == "abcab\nabc".toList &&
      searchLine t.2.prompt.pre "abc".toList (placeOf s') s'.historySubsetIndex.length == "(search)'abc` (2/3): ".toList &&
      t.2.termCursorLine == 1 && (({} : Screen).toks 25 t.2.out).row == 0 &&
      (({} : Screen).toks 25 s'.out).row == 0 && (({} : Screen).toks 25 s'.out).col == 11 &&
      rowsOn 25 4 (({} : Screen).toks 25 s'.out) ==
        ["(search)'abc` (2/3): abca".toList, "b                        ".toList, "                     abc ".toList,
          "                         ".toList]) = true := by
  decide +kernel

/-- C43 fails in a search that finds an entry whose first line is shorter than what was typed: the cursor of the
terminal stands on the row of the second line of the entry, not in the term. -/
theorem C43_search_violation : ∃ (E : Env) (w : Nat) (s : Ed) (scr : Screen), (∀ t, E.termSize t = some w) ∧
    (s.reverseSearch = true ∨ s.forwardSearch = true) ∧ s.prompt.pre = [] ∧ text? s = some ['a', 'b', 'c'] ∧ s.cursor = 3 ∧
    rowsOn w 3 (scr.toks w s.out) = ["(search)'abc` (1/1): x        ".toList, "                     abc      ".toList,
      "                              ".toList] ∧
    (scr.toks w s.out).row = 1 := by
  have h : okAnd (typed 30 ['$', ' '] ([.ctrl 'r'] ++ chars "abc") ["x\nabc"] "") (fun _ t =>
      (t.2.reverseSearch || t.2.forwardSearch) && t.2.prompt.pre == [] && text? t.2 == some ['a', 'b', 'c'] && t.2.cursor == 3 &&
      rowsOn 30 3 (({} : Screen).toks 30 t.2.out) == ["(search)'abc` (1/1): x        ".toList, "                     abc      ".toList,
        "                              ".toList] && (({} : Screen).toks 30 t.2.out).row == 1) = true := by decide +kernel
  obtain ⟨_, t, -, h2⟩ := of_okAnd h
  simp only [Bool.and_eq_true, Bool.or_eq_true, beq_iff_eq] at h2
  obtain ⟨⟨⟨⟨⟨h3, h4⟩, h5⟩, h6⟩, h7⟩, h8⟩ := h2
  exact ⟨columns 30, 30, t.2, {}, fun _ => rfl, h3, h4, h5, h6, h7, h8⟩

/-- C43 fails when a character of two columns meets the right edge: the terminal puts it on the next row, the editor does not
reckon with that, and the next redraw begins too low; what was drawn before stays there. -/
theorem C43_edge_violation : ∃ (w : Nat) (k : Emacs) (s : Ed), (∀ t, Plain t → Counted (columns w) t) ∧
    typed w ['$', ' '] (chars "漢字漢") [] "" = .ok () (k, s) ∧ s.prompt.toText = ['$', ' '] ∧ text? s = some "漢字漢".toList ∧
    s.autosuggestion = none ∧ ¬ s.reverseSearch ∧ ¬ s.forwardSearch ∧ s.showCompletionsHint = none ∧
    rowsOn w 5 (({} : Screen).toks w s.out) = [['$', ' ', ' '], ['$', ' ', ' '], ['漢', half, ' '], ['字', half, ' '], ['漢', half, ' ']] := by
  have h : okAnd (typed 3 ['$', ' '] (chars "漢字漢") [] "") (fun _ t =>
      t.2.prompt.toText == ['$', ' '] && text? t.2 == some "漢字漢".toList && t.2.autosuggestion.isNone &&
      !t.2.reverseSearch && !t.2.forwardSearch && t.2.showCompletionsHint.isNone &&
      rowsOn 3 5 (({} : Screen).toks 3 t.2.out) ==
        [['$', ' ', ' '], ['$', ' ', ' '], ['漢', half, ' '], ['字', half, ' '], ['漢', half, ' ']]) = true := by decide +kernel
  obtain ⟨_, ⟨k, s⟩, h1, h2⟩ := of_okAnd h
  simp only [Bool.and_eq_true, beq_iff_eq, Bool.not_eq_true', Option.isNone_iff_eq_none] at h2
  obtain ⟨⟨⟨⟨⟨⟨h3, h4⟩, h5⟩, h6⟩, h7⟩, h8⟩, h9⟩ := h2
  exact ⟨3, k, s, fun _ => counted_columns, h1, h3, h4, h5, by simp [h6], by simp [h7], h8, h9⟩

/-- C43 fails in a search for a character of two columns: what the cursor has passed is measured in the entry that was found, not in
the term, and the cursor of the terminal stands inside the term, not after it. -/
theorem C43_search_wide_violation : ∃ (E : Env) (w : Nat) (s : Ed) (scr : Screen), (∀ t, E.termSize t = some w) ∧
    (∀ t, Plain t → Counted E t) ∧
    (s.reverseSearch = true ∨ s.forwardSearch = true) ∧ s.prompt.pre = [] ∧ text? s = some ['字'] ∧ s.cursor = 1 ∧
    scr.Fits w s.out ∧ (scr.toks w s.out).row = 0 ∧
    rowsOn w 1 (scr.toks w s.out) = ["(search)'字".toList ++ half :: "` (1/1): abc字".toList ++ half :: "     ".toList] ∧
    (scr.toks w s.out).col = 10 := by
  have h : okAnd (typed 30 ['$', ' '] ([.ctrl 'r'] ++ chars "字") ["abc字"] "") (fun _ t =>
      (t.2.reverseSearch || t.2.forwardSearch) && t.2.prompt.pre == [] && text? t.2 == some ['字'] && t.2.cursor == 1 &&
      decide (({} : Screen).Fits 30 t.2.out) && (({} : Screen).toks 30 t.2.out).row == 0 &&
      rowsOn 30 1 (({} : Screen).toks 30 t.2.out) == ["(search)'字".toList ++ half :: "` (1/1): abc字".toList ++ half :: "     ".toList] &&
      (({} : Screen).toks 30 t.2.out).col == 10) = true := by decide +kernel
  obtain ⟨_, t, -, h2⟩ := of_okAnd h
  simp only [Bool.and_eq_true, Bool.or_eq_true, beq_iff_eq, decide_eq_true_eq] at h2
  obtain ⟨⟨⟨⟨⟨⟨⟨h3, h4⟩, h5⟩, h6⟩, h7⟩, h8⟩, h9⟩, h10⟩ := h2
  exact ⟨columns 30, 30, t.2, {}, fun _ => rfl, fun _ => counted_columns, h3, h4, h5, h6, h7, h8, h9, h10⟩

/-- C43 fails for an empty prompt: with an empty line every redraw ends one row lower, and the editor does not know. -/
theorem C43_empty_violation : ∃ (E : Env) (w : Nat) (s s' : Ed) (scr : Screen) (o : List Tok), (∀ t, E.termSize t = some w) ∧
    s.prompt.toText = [] ∧ text? s = some [] ∧ s.autosuggestion = none ∧ ¬ s.reverseSearch ∧ ¬ s.forwardSearch ∧
    s.showCompletionsHint = none ∧ display E s = .ok () s' ∧ s'.out = s.out ++ o ∧
    scr.row = s.termCursorLine - 1 ∧ s'.termCursorLine = 1 ∧ (scr.toks w o).row = 1 := by
  have h : okAnd (display (columns 10) (initial { prompt := [] } {} noFiles {})) (fun _ s' =>
      s'.termCursorLine == 1 && (({} : Screen).toks 10 s'.out).row == 1) = true := by decide +kernel
  obtain ⟨_, s', h1, h2⟩ := of_okAnd h
  simp only [Bool.and_eq_true, beq_iff_eq] at h2
  exact ⟨columns 10, 10, _, s', {}, s'.out, fun _ => rfl, rfl, rfl, rfl, by decide, by decide, rfl, h1, rfl, rfl, h2.1, h2.2⟩

/-- C43 fails for an empty prompt and several lines: the second line begins in the second column. -/
theorem C43_indent_violation : ∃ (E : Env) (w : Nat) (s s' : Ed) (scr : Screen) (o : List Tok), (∀ t, E.termSize t = some w) ∧
    s.prompt.toText = [] ∧ text? s' = some ['a', '\n', 'b'] ∧ s'.autosuggestion = none ∧ ¬ s.reverseSearch ∧ ¬ s.forwardSearch ∧
    s.showCompletionsHint = none ∧ display E s = .ok () s' ∧ s'.out = s.out ++ o ∧
    scr.row = s.termCursorLine - 1 ∧ (scr.toks w o).cell 1 0 = ' ' ∧ (scr.toks w o).cell 1 1 = 'b' := by
  have h : okAnd (display (columns 10) (initial { prompt := [] } {} noFiles (.ofText ['a', '\n', 'b']))) (fun _ s' =>
      text? s' == some ['a', '\n', 'b'] && s'.autosuggestion.isNone &&
      (({} : Screen).toks 10 s'.out).cell 1 0 == ' ' && (({} : Screen).toks 10 s'.out).cell 1 1 == 'b') = true := by decide +kernel
  obtain ⟨_, s', h1, h2⟩ := of_okAnd h
  simp only [Bool.and_eq_true, beq_iff_eq, Option.isNone_iff_eq_none] at h2
  obtain ⟨⟨⟨h3, h4⟩, h5⟩, h6⟩ := h2
  exact ⟨columns 10, 10, _, s', {}, s'.out, fun _ => rfl, rfl, h3, h4, by decide, by decide, rfl, h1, rfl, rfl, h5, h6⟩

/-- C43 fails for a prompt as wide as the terminal or wider when the editor is opened: the first redraw does not
begin on the first row of the prompt that was written before, which stays there and is seen twice. -/
theorem C43_wide_violation : ∃ (E : Env) (w : Nat) (p : Prompt) (s' : Ed), (∀ t, E.termSize t = some w) ∧ E.ttyWidth = some w ∧
    p.toText = ['p', 'r', 'o', 'm', 'p', 't'] ∧ start E p (initial p {} noFiles {}) = .ok () s' ∧
    (rowsOn w 3 (({} : Screen).toks w s'.out)) = [['p', 'r', 'o', 'm'], ['p', 'r', 'o', 'm'], ['p', 't', ' ', ' ']] := by
  have h : okAnd (start (columns 4) { prompt := ['p', 'r', 'o', 'm', 'p', 't'] } (initial { prompt := ['p', 'r', 'o', 'm', 'p', 't'] } {} noFiles {}))
      (fun _ s' => (rowsOn 4 3 (({} : Screen).toks 4 s'.out)) == [['p', 'r', 'o', 'm'], ['p', 'r', 'o', 'm'], ['p', 't', ' ', ' ']]) = true := by
    decide +kernel
  obtain ⟨_, s', h1, h2⟩ := of_okAnd h
  exact ⟨columns 4, 4, _, s', fun _ => rfl, rfl, rfl, h1, by simpa using h2⟩

/-- C43 fails when Enter is pressed while a suggestion is shown that takes more rows than the line: the rows of the
suggestion are counted but those of the line are drawn, and the cursor ends up on the row of the line, where what
is written next replaces the line. -/
theorem C43_enter_violation : ∃ (E : Env) (w : Nat) (s s' : Ed) (scr : Screen) (o : List Tok), (∀ t, E.termSize t = some w) ∧
    s.prompt.toText = ['$', ' '] ∧ text? s = some ['a'] ∧ s.autosuggestion.map (·.data) = some "abcdefghijk".toList ∧
    ¬ s.reverseSearch ∧ ¬ s.forwardSearch ∧ s.showCompletionsHint = none ∧ s.termCursorLine = 1 ∧ scr.row = 5 ∧
    handleNewline E s = .ok true s' ∧ s'.out = s.out ++ o ∧
    (scr.toks w o).cell 5 2 = 'a' ∧ (scr.toks w o).row = 5 ∧ (scr.toks w o).col = 0 := by
  have h : okAnd (typed 10 ['$', ' '] [.char 'a'] ["abcdefghijk"] "") (fun _ t =>
      t.2.prompt.toText == ['$', ' '] && text? t.2 == some ['a'] && t.2.autosuggestion.map (·.data) == some "abcdefghijk".toList &&
      !t.2.reverseSearch && !t.2.forwardSearch && t.2.showCompletionsHint.isNone && t.2.termCursorLine == 1 &&
      okAnd (handleNewline (columns 10) t.2) fun r s' => r && s'.out == t.2.out ++ s'.out.drop t.2.out.length &&
        (({ row := 5 } : Screen).toks 10 (s'.out.drop t.2.out.length)).cell 5 2 == 'a' &&
        (({ row := 5 } : Screen).toks 10 (s'.out.drop t.2.out.length)).row == 5 &&
        (({ row := 5 } : Screen).toks 10 (s'.out.drop t.2.out.length)).col == 0) = true := by decide +kernel
  obtain ⟨_, t, -, h2⟩ := of_okAnd h
  simp only [Bool.and_eq_true, beq_iff_eq, Bool.not_eq_true', Option.isNone_iff_eq_none] at h2
  obtain ⟨⟨⟨⟨⟨⟨⟨h3, h4⟩, h5⟩, h6⟩, h7⟩, h8⟩, h9⟩, h10⟩ := h2
  obtain ⟨r, s', h11, h12⟩ := of_okAnd h10
  simp only [Bool.and_eq_true, beq_iff_eq] at h12
  obtain ⟨⟨⟨⟨h13, h14⟩, h15⟩, h16⟩, h17⟩ := h12
  subst h13
  exact ⟨columns 10, 10, t.2, s', { row := 5 }, _, fun _ => rfl, h3, h4, h5, by simp [h6], by simp [h7], h8, h9, rfl, h11, h14, h15, h16, h17⟩

/-- C43 fails after a list of completions whose last row is full: the list is counted one row too high, and the next
redraw begins one row too high, erasing what is there. -/
theorem C43_list_violation : ∃ (E : Env) (w : Nat) (s s' s'' : Ed) (scr : Screen) (o o' : List Tok), (∀ t, E.termSize t = some w) ∧
    s.prompt.toText = ['$', ' '] ∧ text? s = some [] ∧ ¬ s.reverseSearch ∧ ¬ s.forwardSearch ∧
    s.showCompletionsHint = some ([['a', 'b'], ['a', 'c']], none) ∧ s.termCursorLine = 1 ∧ scr.row = 5 ∧ scr.cell 4 0 = 'x' ∧
    display E s = .ok () s' ∧ s'.out = s.out ++ o ∧ (scr.toks w o).cell 4 0 = 'x' ∧
    display E { s' with showCompletionsHint := none } = .ok () s'' ∧ s''.out = s'.out ++ o' ∧
    (scr.toks w (o ++ o')).cell 4 0 = '$' := by
  have h : okAnd (display (columns 10) { initial { prompt := ['$', ' '] } {} noFiles {} with showCompletionsHint := some ([['a', 'b'], ['a', 'c']], none) }) (fun _ s' =>
      (({ row := 5, cell := fun _ _ => 'x' } : Screen).toks 10 s'.out).cell 4 0 == 'x' &&
      okAnd (display (columns 10) { s' with showCompletionsHint := none }) fun _ s'' =>
        s''.out == s'.out ++ s''.out.drop s'.out.length &&
        (({ row := 5, cell := fun _ _ => 'x' } : Screen).toks 10 (s'.out ++ s''.out.drop s'.out.length)).cell 4 0 == '$') = true := by decide +kernel
  obtain ⟨_, s', h1, h2⟩ := of_okAnd h
  simp only [Bool.and_eq_true, beq_iff_eq] at h2
  obtain ⟨_, s'', h3, h4⟩ := of_okAnd h2.2
  simp only [Bool.and_eq_true, beq_iff_eq] at h4
  exact ⟨columns 10, 10, _, s', s'', { row := 5, cell := fun _ _ => 'x' }, s'.out, _, fun _ => rfl, rfl, rfl, by decide, by decide, rfl, rfl, rfl, rfl,
    h1, rfl, h2.1, h3, h4.1, h4.2⟩

end Liner.Props
