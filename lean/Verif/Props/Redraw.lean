import Verif.Props.Screen
/-
A redraw does not abort: C42.
-/

namespace Liner.Props
open Liner Liner.Spec Liner.Editor Liner.Screen

/-- Characters of one byte. -/
def Ascii (t : Text) : Prop := ∀ c ∈ t, c.utf8Size = 1

theorem splitBytes_at (a b : Text) : splitBytes (a ++ b) (Buffer.byteLen a) = some (a, b) := by
  induction a with
  | nil => cases b <;> rfl
  | cons c cs ih =>
    have hpos : 0 < c.utf8Size := Char.utf8Size_pos c
    have hlen : Buffer.byteLen (c :: cs) = c.utf8Size + Buffer.byteLen cs := by simp [Buffer.byteLen]
    obtain ⟨n, hn⟩ : ∃ n, c.utf8Size + Buffer.byteLen cs = n + 1 := ⟨c.utf8Size + Buffer.byteLen cs - 1, by omega⟩
    rw [hlen, hn, List.cons_append]
    unfold splitBytes
    rw [if_pos (by omega), show n + 1 - c.utf8Size = Buffer.byteLen cs by omega, ih]
    rfl

theorem splitBytes_ascii (t : Text) (h : Ascii t) : ∀ n, n ≤ Buffer.byteLen t → splitBytes t n ≠ none := by
  induction t with
  | nil => intro n hn; simp [Buffer.byteLen] at hn; subst hn; simp [splitBytes]
  | cons c cs ih =>
    intro n hn
    have hlen : Buffer.byteLen (c :: cs) = c.utf8Size + Buffer.byteLen cs := by simp [Buffer.byteLen]
    have hc := h c (by simp)
    cases n with
    | zero => simp [splitBytes]
    | succ n =>
      unfold splitBytes
      rw [if_pos (by omega)]
      have := ih (fun c hc => h c (by simp [hc])) (n + 1 - c.utf8Size) (by omega)
      simpa using this

/-- Once all bytes are counted nothing can go wrong. -/
theorem lineToks_zero (E : Env) (srch : Bool) (p n : Nat) (ls : List Text) : ∀ i, lineToks E srch p n ls i 0 ≠ none := by
  induction ls with
  | nil => intro i; simp [lineToks]
  | cons l ls ih =>
    intro i
    unfold lineToks
    simp only [if_true]
    simpa using ih (i + 1)

theorem lineToks_ascii (E : Env) (srch : Bool) (p n : Nat) (ls : List Text) (h : ∀ l ∈ ls, Ascii l) :
    ∀ i rem, lineToks E srch p n ls i rem ≠ none := by
  induction ls with
  | nil => intro i rem; simp [lineToks]
  | cons l ls ih =>
    intro i rem
    have ih := ih (fun l hl => h l (by simp [hl]))
    unfold lineToks
    dsimp only
    split
    · simpa using ih (i + 1) 0
    · split
      · rename_i hgt
        have h1 := splitBytes_ascii l (h l (by simp)) rem (by omega)
        cases h2 : splitBytes l rem with
        | none => exact absurd h2 h1
        | some q => simpa using ih (i + 1) 0
      · simpa using ih (i + 1) _

theorem lineToks_whole (E : Env) (srch : Bool) (p n : Nat) (ls : List Text) :
    ∀ i rem, (ls.map Buffer.byteLen).sum ≤ rem → lineToks E srch p n ls i rem ≠ none := by
  induction ls with
  | nil => intro i rem _; simp [lineToks]
  | cons l ls ih =>
    intro i rem h
    rw [List.map_cons, List.sum_cons] at h
    unfold lineToks
    dsimp only
    split
    · simpa using lineToks_zero E srch p n ls (i + 1)
    · rw [if_neg (by omega)]
      simpa using ih (i + 1) (rem - Buffer.byteLen l) (by omega)

/-- The line, of one piece, at the beginning of what is drawn. -/
theorem lineToks_begin (E : Env) (srch : Bool) (p n : Nat) (a b : Text) (ls : List Text) (i : Nat) :
    lineToks E srch p n ((a ++ b) :: ls) i (Buffer.byteLen a) ≠ none := by
  unfold lineToks
  dsimp only
  split
  · simpa using lineToks_zero E srch p n ls (i + 1)
  · split
    · rw [splitBytes_at]
      simpa using lineToks_zero E srch p n ls (i + 1)
    · rename_i h
      have h1 : Buffer.byteLen (a ++ b) = Buffer.byteLen a + Buffer.byteLen b := by simp [Buffer.byteLen]
      rw [show Buffer.byteLen a - Buffer.byteLen (a ++ b) = 0 by omega]
      simpa using lineToks_zero E srch p n ls (i + 1)

theorem split_bytes (t : Text) : ((Buffer.splitOn (· == '\n') t).map Buffer.byteLen).sum ≤ Buffer.byteLen t := by
  induction t with
  | nil => simp [Buffer.splitOn]
  | cons c cs ih =>
    have hlen : Buffer.byteLen (c :: cs) = c.utf8Size + Buffer.byteLen cs := by simp [Buffer.byteLen]
    have h0 : Buffer.byteLen [] = 0 := rfl
    unfold Buffer.splitOn
    split
    · rw [List.map_cons, List.sum_cons, hlen, h0]; omega
    · revert ih
      have hne := splitOn_ne_nil (· == '\n') cs
      revert hne
      cases Buffer.splitOn (· == '\n') cs with
      | nil => intro h; exact absurd rfl h
      | cons a as =>
        intro _ ih
        have h1 : Buffer.byteLen (c :: a) = c.utf8Size + Buffer.byteLen a := by simp [Buffer.byteLen]
        rw [List.map_cons, List.sum_cons] at ih ⊢
        rw [hlen, h1]
        omega

theorem split_ascii {t : Text} (h : Ascii t) : ∀ l ∈ Buffer.splitOn (· == '\n') t, Ascii l := by
  induction t with
  | nil => simp [Buffer.splitOn, Ascii]
  | cons c cs ih =>
    have ih := ih (fun c hc => h c (by simp [hc]))
    unfold Buffer.splitOn
    split
    · intro l hl
      rw [List.mem_cons] at hl
      rcases hl with rfl | hl
      · simp [Ascii]
      · exact ih l hl
    · revert ih
      cases Buffer.splitOn (· == '\n') cs with
      | nil => intro _ l hl; simp at hl; subst hl; intro x hx; simp at hx; subst hx; exact h x (by simp)
      | cons a as =>
        intro ih l hl
        rw [List.mem_cons] at hl
        rcases hl with rfl | hl
        · intro x hx
          rw [List.mem_cons] at hx
          rcases hx with rfl | hx
          · exact h x (by simp)
          · exact ih a (by simp) x hx
        · exact ih l (by simp [hl])

/-- Drawing `d` while the line is `t`. -/
theorem lines_ok (E : Env) (srch : Bool) (p : Nat) (t d : Text)
    (h : d = t ∨ Ascii d ∨ ('\n' ∉ t ∧ t <+: d)) (n i : Nat) :
    lineToks E srch p n (Buffer.splitOn (· == '\n') d) i (Buffer.byteLen t) ≠ none := by
  rcases h with rfl | h | ⟨h, r, rfl⟩
  · exact lineToks_whole _ _ _ _ _ _ _ (split_bytes d)
  · exact lineToks_ascii _ _ _ _ _ (split_ascii h) _ _
  · obtain ⟨xs, a, b, rest, h1, h2⟩ := split_append (· == '\n') t r
    rw [splitOn_no _ _ (fun c hc => by simp only [beq_eq_false_iff_ne, ne_eq]; rintro rfl; exact h hc)] at h1
    have : xs = [] ∧ t = a := by
      cases xs with
      | nil => simpa using h1
      | cons x xs => simp at h1
    obtain ⟨rfl, rfl⟩ := this
    rw [h2]
    exact lineToks_begin _ _ _ _ _ _ _ _

theorem cursorMove_ok {a b w : Nat} (h : b ≤ a) : cursorMove a b w ≠ none := by
  unfold cursorMove
  dsimp only
  have : (b + w) / w ≤ (a + w) / w := Nat.div_le_div_right (by omega)
  generalize (b + w) / w = x at *
  generalize (a + w) / w = y at *
  rw [if_neg (by omega)]
  simp

theorem upToks_ok {n : Nat} (h : n < 65536) : upToks n ≠ none := by
  unfold upToks asU16
  split
  · rw [if_neg (by omega)]; simp
  · simp

theorem widthOf_pos (w : Nat) : 0 < widthOf w := by unfold widthOf; split <;> omega

/-- What a panic of a redraw comes from. -/
theorem display_panics {E : Env} {s : Ed} {w : Site} (h : display E s = .panic w) : ShowPanic E s w := by
  have := display_wp E s
  simpa [Wp, h] using this

theorem sugOf_mem {s : Ed} {x : Buffer} (h : sugOf s = some (some x)) : x ∈ s.history.buffers := by
  unfold sugOf at h
  split at h
  · cases h
  · dsimp only at h
    split at h
    · cases h
    · split at h
      · rename_i hb
        cases h
        exact List.mem_of_getElem? hb
      · cases h

theorem sugOf_ne {s : Ed} {b : Buffer} (hs : s.isSearch = false) (hb : s.curBuf? = some b) : sugOf s ≠ none := by
  unfold sugOf
  rw [hs]
  split
  · simp
  · rename_i hv
    simp only [Bool.false_eq_true, if_false]
    split
    · simp
    · rename_i i hi
      split at hi
      · split at hi
        · rename_i k hk
          cases hi
          unfold Ed.curBuf? at hb
          rw [hk] at hb
          simp only [hv, Bool.false_eq_true, if_false] at hb
          rw [hb]
          simp
        · obtain ⟨y, h1, -⟩ := newestMatch_some hi
          rw [h1]
          simp
      · cases hi

/-- The widths up to the cursor are those of what is drawn or of the line. -/
theorem widths_ok (E : Env) (sug : Option Buffer) (b : Buffer) (c : Nat) (hc : c ≤ b.data.length) :
    ∃ u, widthsToCursor E sug b c = some ((Buffer.splitOn (· == '\n') u).map E.sw) ∧
      ((∃ v, u ++ v = (sug.getD b).data) ∨ (u = b.data.take c ∧ ∃ x, sug = some x ∧ x.data.length ≤ c)) := by
  unfold widthsToCursor Buffer.rangeWidth
  cases sug with
  | none =>
    refine ⟨b.data.take c, ?_, .inl ⟨b.data.drop c, List.take_append_drop _ _⟩⟩
    dsimp only
    rw [range_take _ _ hc]
    rfl
  | some x =>
    dsimp only
    split
    · rename_i h
      refine ⟨x.data.take c, ?_, .inl ⟨x.data.drop c, List.take_append_drop _ _⟩⟩
      rw [range_take x _ (Nat.le_of_lt h)]
      rfl
    · rename_i h
      refine ⟨b.data.take c, ?_, .inr ⟨rfl, x, rfl, Nat.le_of_not_lt h⟩⟩
      rw [range_take _ _ hc]
      rfl

theorem frame_ok {E : Env} {s : Ed} {pr : Text × Nat} {tw : Nat} {b : Buffer} {tc : List Nat} {up : List Tok} {comp : Nat × List Tok}
    (h1 : ∀ p n, lineToks E s.isSearch p n (s.autosuggestion.getD b).lines 0 b.numBytes ≠ none)
    (h2 : calcWidth (if s.isSearch then pr.2 else lastPromptLineWidth E.sw pr.1) tw tc 0 ≤
      calcWidth (lastPromptLineWidth E.sw pr.1) tw ((s.autosuggestion.getD b).width E.sw) 0) :
    frame E true s pr tw b tc up comp ≠ none := by
  rw [frame_eq]
  dsimp only
  have h1 := h1 (lastPromptLineWidth E.sw pr.1) (s.autosuggestion.getD b).lines.length
  have h2 := cursorMove_ok (w := tw) h2
  cases h3 : lineToks E s.isSearch (lastPromptLineWidth E.sw pr.1) (s.autosuggestion.getD b).lines.length (s.autosuggestion.getD b).lines 0 b.numBytes with
  | none => exact absurd h3 h1
  | some body =>
    cases h4 : cursorMove (calcWidth (lastPromptLineWidth E.sw pr.1) tw ((s.autosuggestion.getD b).width E.sw) 0)
        (calcWidth (if s.isSearch then pr.2 else lastPromptLineWidth E.sw pr.1) tw tc 0) tw with
    | none => exact absurd h4 h2
    | some move => simp

/-- The same for the last redraw, which leaves out the suggestion. -/
theorem frame_last {E : Env} {s : Ed} {pr : Text × Nat} {tw : Nat} {b : Buffer} {tc : List Nat} {up : List Tok} {comp : Nat × List Tok}
    (h2 : calcWidth (if s.isSearch then pr.2 else lastPromptLineWidth E.sw pr.1) tw tc 0 ≤
      calcWidth (lastPromptLineWidth E.sw pr.1) tw ((s.autosuggestion.getD b).width E.sw) 0) :
    frame E false s pr tw b tc up comp ≠ none := by
  have h2 := cursorMove_ok (w := tw) h2
  have h1 : ∀ n, lineToks E s.isSearch (lastPromptLineWidth E.sw pr.1) n b.lines 0 b.numBytes ≠ none := fun n =>
    lines_ok E _ _ b.data _ (.inl rfl) n 0
  unfold frame
  cases hsug : s.autosuggestion with
  | none =>
    rw [hsug] at h2
    dsimp only [Option.getD_none] at h2 ⊢
    cases h3 : lineToks E s.isSearch (lastPromptLineWidth E.sw pr.1) b.lines.length b.lines 0 b.numBytes with
    | none => exact absurd h3 (h1 _)
    | some body =>
      cases h4 : cursorMove (calcWidth (lastPromptLineWidth E.sw pr.1) tw (b.width E.sw) 0)
          (calcWidth (if s.isSearch then pr.2 else lastPromptLineWidth E.sw pr.1) tw tc 0) tw with
      | none => exact absurd h4 h2
      | some move => simp
  | some x =>
    rw [hsug] at h2
    dsimp only [Option.getD_some] at h2 ⊢
    rw [if_neg (by simp)]
    cases h3 : lineToks E s.isSearch (lastPromptLineWidth E.sw pr.1) b.lines.length b.lines 0 b.numBytes with
    | none => exact absurd h3 (h1 _)
    | some body =>
      cases h4 : cursorMove (calcWidth (lastPromptLineWidth E.sw pr.1) tw (x.width E.sw) 0)
          (calcWidth (if s.isSearch then pr.2 else lastPromptLineWidth E.sw pr.1) tw tc 0) tw with
      | none => exact absurd h4 h2
      | some move => simp

/-- Outside a search a line is drawn, with what continues it. -/
theorem edit_draws {E : Env} {s : Ed} (hs0 : s.isSearch = false) (hsw : ∀ a b, E.sw a ≤ E.sw (a ++ b)) {b : Buffer}
    (hb : s.curBuf? = some b) (hpfx : b.data <+: (s.autosuggestion.getD b).data) {sa : Bool}
    (hsd : sa = true → (s.autosuggestion.getD b).data = b.data ∨ Ascii (s.autosuggestion.getD b).data ∨
      ('\n' ∉ b.data ∧ b.data <+: (s.autosuggestion.getD b).data)) : ¬ DrawPanic E sa s .redraw := by
  rintro ⟨b', tw, hb', -, h1⟩
  obtain rfl : b = b' := Option.some.inj (hb.symm.trans hb')
  obtain ⟨u, hu1, hu2⟩ := widths_ok E s.autosuggestion b (clampCursor s.noEol b.numChars s.cursor) (clamp_le _ _ _)
  have hu3 : ∃ v, u ++ v = (s.autosuggestion.getD b).data := by
    rcases hu2 with h | ⟨h2, -⟩
    · exact h
    · obtain ⟨r, hr⟩ := hpfx
      exact ⟨b.data.drop (clampCursor s.noEol b.numChars s.cursor) ++ r, by rw [h2, ← List.append_assoc, List.take_append_drop, hr]⟩
  rcases h1 with h1 | ⟨tc, up, comp, htc, hf⟩
  · exact absurd (hu1.symm.trans h1) (by simp)
  · obtain rfl := Option.some.inj (hu1.symm.trans htc)
    have hw : calcWidth (if s.isSearch then (promptFor E s b).2 else lastPromptLineWidth E.sw (promptFor E s b).1) (widthOf tw)
        ((Buffer.splitOn (· == '\n') u).map E.sw) 0 ≤
        calcWidth (lastPromptLineWidth E.sw (promptFor E s b).1) (widthOf tw) ((s.autosuggestion.getD b).width E.sw) 0 := by
      rw [hs0]
      obtain ⟨v, hv⟩ := hu3
      show calcWidth _ _ ((Buffer.splitOn (· == '\n') u).map E.sw) 0 ≤ calcWidth _ _ ((Buffer.splitOn (· == '\n') (s.autosuggestion.getD b).data).map E.sw) 0
      rw [← hv]
      exact calcWidth_prefix E.sw _ _ u v (widthOf_pos tw) (fun a b _ => hsw a b)
    cases sa with
    | true => exact frame_ok (fun p n => lines_ok E _ p b.data _ (hsd rfl) n 0) hw hf
    | false => exact frame_last hw hf

/-- C42: outside a search, on a terminal of any width and with any prompt, a redraw does not panic, provided the text
drawn is not wider when cut, and provided that every history entry that continues the line is only of ASCII
characters if the line has several lines.  The editor's row number must fit 16 bits. -/
theorem C42_edit_partial (E : Env) (s : Ed) (hs : ¬ s.reverseSearch ∧ ¬ s.forwardSearch)
    (hsw : ∀ a b, E.sw a ≤ E.sw (a ++ b)) (htcl : s.termCursorLine < 65536) (line : Text) (ht : text? s = some line)
    (hh : '\n' ∉ line ∨ ∀ e ∈ texts s.history, line <+: e → e = line ∨ Ascii e) (w : Site) :
    display E s ≠ .panic w := by
  intro hp
  have hs0 : s.isSearch = false := by simpa [Ed.isSearch] using hs
  have hpre : pre s = s := by simp [pre, hs0]
  obtain ⟨b, hb, rfl⟩ : ∃ b, s.curBuf? = some b ∧ b.data = line := by
    unfold text? at ht
    rwa [Option.map_eq_some_iff] at ht
  rcases display_panics hp with ⟨-, h1⟩ | ⟨sug, hsug, h1⟩
  · rw [hpre] at h1
    exact sugOf_ne hs0 hb h1
  · rw [hpre] at hsug h1
    have hpfx : b.data <+: (sug.getD b).data := by
      cases sug with
      | none => exact List.prefix_refl _
      | some x =>
        obtain ⟨b', h2, h3⟩ := sugOf_prefix hs0 hsug
        obtain rfl : b = b' := Option.some.inj (hb.symm.trans h2)
        exact h3
    have hsd : (sug.getD b).data = b.data ∨ Ascii (sug.getD b).data ∨ ('\n' ∉ b.data ∧ b.data <+: (sug.getD b).data) := by
      rcases hh with hh | hh
      · exact .inr (.inr ⟨hh, hpfx⟩)
      · cases sug with
        | none => exact .inl rfl
        | some x => exact (hh x.data (List.mem_map_of_mem (sugOf_mem hsug)) hpfx).imp id .inl
    cases w with
    | op =>
      have h1 : s.curBuf? = none := h1
      rw [hb] at h1
      exact absurd h1 (by simp)
    | ioUnwrap => exact h1
    | rows => exact upToks_ok htcl h1
    | redraw => exact edit_draws (s := { s with autosuggestion := sug }) hs0 hsw hb hpfx (fun _ => hsd) h1

/-! ### During a search -/

theorem strip_plain_append {a x y : Text} (ha : escChar ∉ a) (h : Strip x y) : Strip (a ++ x) (a ++ y) := by
  induction a with
  | nil => exact h
  | cons c cs ih =>
    simp only [List.mem_cons, not_or] at ha
    exact Strip.keep c _ _ (fun h => ha.1 h.symm) (ih ha.2)

theorem fmtNat_digits (n : Nat) : ∀ c ∈ fmtNat n, c ≠ '\n' ∧ c ≠ escChar := by
  intro c hc
  have h := Nat.isDigit_of_mem_toDigits (by decide) (by decide) hc
  constructor <;> rintro rfl <;> exact absurd h (by decide)

/-- The fixed part of the prompt of a search. -/
def searchWord : Text := ['(', 's', 'e', 'a', 'r', 'c', 'h', ')', '\'']

/-- What the prompt of a search shows. -/
theorem searchText_strip (pre colour term : Text) (a b : Nat) (hc : colour = fgRed ∨ colour = fgGreen) (h1 : escChar ∉ pre)
    (h2 : escChar ∉ term) :
    Strip (searchText pre colour term a b) (pre ++ searchWord ++ term ++ (['`', ' ', '('] ++ fmtNat a ++ ['/'] ++ fmtNat b ++ [')', ':', ' '])) := by
  have hd := fun n => (show escChar ∉ fmtNat n from fun h => (fmtNat_digits n _ h).2 rfl)
  have hrest : Strip (['`', ' ', '('] ++ fmtNat a ++ ['/'] ++ fmtNat b ++ [')', ':', ' ']) (['`', ' ', '('] ++ fmtNat a ++ ['/'] ++ fmtNat b ++ [')', ':', ' ']) := by
    refine strip_no_esc ?_
    have := hd a
    have := hd b
    simp only [List.mem_append, not_or]
    exact ⟨⟨⟨⟨by decide, hd a⟩, by decide⟩, hd b⟩, by decide⟩
  have h3 : Strip (fgReset ++ (['`', ' ', '('] ++ fmtNat a ++ ['/'] ++ fmtNat b ++ [')', ':', ' '])) (['`', ' ', '('] ++ fmtNat a ++ ['/'] ++ fmtNat b ++ [')', ':', ' ']) :=
    Strip.csi ['3', '9'] _ _ 'm' (by decide) (by decide) hrest
  have h4 := strip_plain_append h2 h3
  have h5 : Strip (colour ++ (term ++ (fgReset ++ (['`', ' ', '('] ++ fmtNat a ++ ['/'] ++ fmtNat b ++ [')', ':', ' ']))))
      (term ++ (['`', ' ', '('] ++ fmtNat a ++ ['/'] ++ fmtNat b ++ [')', ':', ' '])) := by
    rcases hc with rfl | rfl
    · exact Strip.csi ['3', '8', ';', '5', ';', '1'] _ _ 'm' (by decide) (by decide) h4
    · exact Strip.csi ['3', '8', ';', '5', ';', '2'] _ _ 'm' (by decide) (by decide) h4
  have h6 := strip_plain_append h1 (strip_plain_append (a := searchWord) (by decide) h5)
  unfold searchText
  simpa [List.append_assoc, searchWord] using h6

theorem searchText_line (pre colour term : Text) (a b : Nat) (hc : colour = fgRed ∨ colour = fgGreen) (h1 : '\n' ∉ pre)
    (h2 : '\n' ∉ term) : '\n' ∉ searchText pre colour term a b := by
  have hd := fun n => (show '\n' ∉ fmtNat n from fun h => (fmtNat_digits n _ h).1 rfl)
  unfold searchText
  simp only [List.mem_append, not_or]
  refine ⟨⟨⟨⟨⟨⟨⟨⟨⟨h1, by decide⟩, ?_⟩, h2⟩, by decide⟩, by decide⟩, hd a⟩, by decide⟩, hd b⟩, by decide⟩
  rcases hc with rfl | rfl <;> decide

theorem calcWidth_mono {p p' w : Nat} (hp : p ≤ p') (hw : 0 < w) (ls : List Nat) :
    ∀ t t', t ≤ t' → calcWidth p w ls t ≤ calcWidth p' w ls t' := by
  induction ls with
  | nil => exact fun _ _ h => h
  | cons l ls ih =>
    intro t t' h
    unfold calcWidth
    refine ih _ _ ?_
    have hup : ∀ t, (if t % w ≠ 0 then (t / w + 1) * w else t) = (t + w - 1) / w * w := by
      intro t
      have hd := Nat.div_add_mod t w
      have hlt := Nat.mod_lt t hw
      split
      · have : t + w - 1 = w * (t / w + 1) + (t % w - 1) := by rw [Nat.mul_add]; omega
        rw [this, Nat.mul_add_div hw, Nat.div_eq_of_lt (Nat.lt_of_le_of_lt (Nat.sub_le _ _) hlt), Nat.add_zero]
      · have : t + w - 1 = w * (t / w) + (w - 1) := by omega
        rw [this, Nat.mul_add_div hw, Nat.div_eq_of_lt (show w - 1 < w by omega), Nat.add_zero, Nat.mul_comm]
        omega
    rw [hup, hup]
    have : (t + w - 1) / w * w ≤ (t' + w - 1) / w * w := Nat.mul_le_mul_right _ (Nat.div_le_div_right (by omega))
    omega

/-- C42: during a search a redraw does not panic while it draws, on a terminal of any width, provided that widths add
up, that the term has one line and no escape character, and that every history entry is of ASCII characters only or
begins with the term.  (`hpre`: the mode indicator before the prompt has no newline and no escape character, and no
more bytes than columns; `hword`: the word `(search)'` takes its 9 columns.) -/
theorem C42_search_partial (E : Env) (s : Ed) (hs : s.reverseSearch ∨ s.forwardSearch)
    (hsw : ∀ a b, E.sw (a ++ b) = E.sw a + E.sw b) (hword : E.sw searchWord = 9)
    (hpre : '\n' ∉ s.prompt.pre ∧ escChar ∉ s.prompt.pre ∧ E.stripLen s.prompt.pre ≤ E.sw s.prompt.pre)
    (htcl : s.termCursorLine < 65536) (hl : s.curHistoryLoc = none) (term : Text) (ht : text? s = some term) (hnl : '\n' ∉ term) (hesc : escChar ∉ term)
    (hh : ∀ e ∈ texts s.history, Ascii e ∨ term <+: e) :
    display E s ≠ .panic .redraw ∧ display E s ≠ .panic .rows := by
  have hs0 : s.isSearch = true := by simpa [Ed.isSearch] using hs
  have hps : (pre s).isSearch = true ∧ (pre s).curBuf? = s.curBuf? ∧ (pre s).history = s.history ∧ (pre s).prompt = s.prompt := by
    unfold pre
    split
    · refine ⟨?_, ?_, rfl, rfl⟩
      · show (!s.forwardSearch || s.forwardSearch) = true
        cases s.forwardSearch <;> rfl
      · unfold Ed.curBuf?
        rw [hl]
        rfl
    · exact ⟨hs0, rfl, rfl, rfl⟩
  obtain ⟨b, hb, rfl⟩ : ∃ b, s.curBuf? = some b ∧ b.data = term := by
    unfold text? at ht
    rwa [Option.map_eq_some_iff] at ht
  refine ⟨fun hp => ?_, fun hp => ?_⟩
  rotate_left
  · rcases display_panics hp with ⟨h1, -⟩ | ⟨sug, hsug, h1⟩
    · cases h1
    · have h1 : upToks (pre s).termCursorLine = none := h1
      have : (pre s).termCursorLine = s.termCursorLine := by unfold pre; split <;> rfl
      rw [this] at h1
      exact upToks_ok htcl h1
  · rcases display_panics hp with ⟨h1, -⟩ | ⟨sug, hsug, b', tw, hb', -, h1⟩
    · cases h1
    · have hb' : (pre s).curBuf? = some b' := hb'
      obtain rfl : b = b' := Option.some.inj (hb.symm.trans (hps.2.1.symm.trans hb'))
      have hsd : (sug.getD b).data = b.data ∨ Ascii (sug.getD b).data ∨ ('\n' ∉ b.data ∧ b.data <+: (sug.getD b).data) := by
        cases sug with
        | none => exact .inl rfl
        | some x =>
          have := sugOf_mem hsug
          rw [hps.2.2.1] at this
          exact .inr ((hh x.data (List.mem_map_of_mem this)).imp id (fun h => ⟨hnl, h⟩))
      obtain ⟨u, hu1, hu2⟩ := widths_ok E sug b (clampCursor (pre s).noEol b.numChars (pre s).cursor) (clamp_le _ _ _)
      rcases h1 with h1 | ⟨tc, up, comp, htc, hf⟩
      · exact absurd (hu1.symm.trans h1) (by simp)
      · obtain rfl := Option.some.inj (hu1.symm.trans htc)
        refine frame_ok ?_ ?_ hf
        · intro p n
          exact lines_ok E _ p b.data _ hsd n 0
        · have hs1 : ({ pre s with autosuggestion := sug } : Ed).isSearch = true := hps.1
          rw [hs1, if_pos rfl]
          -- the prompt is wide enough
          have hpw : E.stripLen s.prompt.pre + 9 + E.sw b.data ≤
              lastPromptLineWidth E.sw (promptFor E { pre s with autosuggestion := sug } b).1 := by
            unfold promptFor
            rw [hs1, if_pos rfl]
            have hc : (if ({ pre s with autosuggestion := sug } : Ed).historySubsetIndex.isEmpty = true then fgRed else fgGreen) = fgRed ∨
                (if ({ pre s with autosuggestion := sug } : Ed).historySubsetIndex.isEmpty = true then fgRed else fgGreen) = fgGreen := by
              split <;> simp
            have hpp : ({ pre s with autosuggestion := sug } : Ed).prompt = s.prompt := hps.2.2.2
            dsimp only
            rw [hpp, (C14_last_prompt_line_width E.sw [] _ _ (searchText_line _ _ _ _ _ hc hpre.1 hnl)
              (searchText_strip _ _ _ _ _ hc hpre.2.1 hesc)).2, hsw, hsw, hsw, hword]
            omega
          have hp2 : (promptFor E { pre s with autosuggestion := sug } b).2 = E.stripLen s.prompt.pre + 9 := by
            unfold promptFor
            rw [hs1, if_pos rfl]
            show E.stripLen (pre s).prompt.pre + 9 = _
            rw [hps.2.2.2]
          rw [hp2]
          rcases hu2 with ⟨v, hv⟩ | ⟨hu2, x, rfl, hx⟩
          · refine Nat.le_trans (calcWidth_mono (p' := lastPromptLineWidth E.sw (promptFor E { pre s with autosuggestion := sug } b).1)
              (by omega) (widthOf_pos tw) _ 0 0 (Nat.le_refl _)) ?_
            show calcWidth _ _ ((Buffer.splitOn (· == '\n') u).map E.sw) 0 ≤ calcWidth _ _ ((Buffer.splitOn (· == '\n') (sug.getD b).data).map E.sw) 0
            rw [← hv]
            exact calcWidth_prefix E.sw _ _ u v (widthOf_pos tw) (fun a b _ => by rw [hsw]; omega)
          · subst hu2
            have hno : '\n' ∉ b.data.take (clampCursor (pre s).noEol b.numChars (pre s).cursor) := fun h => hnl (List.mem_of_mem_take h)
            rw [splitOn_no _ _ (fun c hc => by simp only [beq_eq_false_iff_ne, ne_eq]; rintro rfl; exact hno hc)]
            have htake : E.sw (b.data.take (clampCursor (pre s).noEol b.numChars (pre s).cursor)) ≤ E.sw b.data := by
              conv => rhs; rw [← List.take_append_drop (clampCursor (pre s).noEol b.numChars (pre s).cursor) b.data, hsw]
              omega
            have h0 : ∀ p l, calcWidth p (widthOf tw) [l] 0 = p + l := fun p l => by simp [calcWidth]
            rw [List.map_cons, List.map_nil, h0]
            show _ ≤ calcWidth _ _ ((Buffer.splitOn (· == '\n') x.data).map E.sw) 0
            obtain ⟨l, ls, hls⟩ : ∃ l ls, Buffer.splitOn (· == '\n') x.data = l :: ls := by
              cases h : Buffer.splitOn (· == '\n') x.data with
              | nil => exact absurd h (splitOn_ne_nil _ _)
              | cons l ls => exact ⟨l, ls, rfl⟩
            rw [hls, List.map_cons]
            unfold calcWidth
            refine Nat.le_trans ?_ (calcWidth_le _ _ _ _ (widthOf_pos tw))
            simp only [Nat.zero_mod, ne_eq, not_true_eq_false, if_false]
            have h3 := Nat.le_trans (Nat.add_le_add_left htake (E.stripLen s.prompt.pre + 9)) hpw
            refine Nat.le_trans h3 ?_
            exact Nat.le_trans (Nat.le_add_right _ _) (Nat.le_add_left _ 0)

open Liner.Tests Liner.Wit

/-- Vi keys typed after the prompt `$ ` with mode indicators. -/
def viTyped (w : Nat) (keys : List Key) (entries : List String) : Out (Vi × Ed) Unit :=
  session Vi.keyMap (columns w) { prompt := ['$', ' '], viStatus := some {} } (keys.map plain)
    ({}, initial { prompt := ['$', ' '], viStatus := some {} } (hist entries) noFiles {})

/-- The hypotheses of `C42_edit_partial` are met by two lines with other than ASCII characters, continued by no entry but
one of ASCII characters, and eight columns, -/
example : okAnd (typed 8 ['$', ' '] (chars "é") ["a\nb", "é", "a\nbcdefghijk"] "a\nb") (fun _ t =>
    !t.2.reverseSearch && !t.2.forwardSearch && decide (t.2.termCursorLine < 65536) && text? t.2 == some "a\nbé".toList &&
    (texts t.2.history).all (fun e => !"a\nbé".toList.isPrefixOf e)) = true := by decide +kernel

/-- and by one line with other than ASCII characters that an entry continues, in a narrow terminal. -/
example : okAnd (typed 3 ['$', ' '] (chars "éa") ["éaéaéaéa"] "") (fun _ t =>
    !t.2.reverseSearch && !t.2.forwardSearch && decide (t.2.termCursorLine < 65536) && text? t.2 == some "éa".toList &&
    t.2.autosuggestion.map (·.data) == some "éaéaéaéa".toList) = true := by decide +kernel

/-- Widths add up, and the fixed part of the prompt takes its columns. -/
example (w : Nat) : (∀ a b, (columns w).sw (a ++ b) = (columns w).sw a + (columns w).sw b) ∧ (columns w).sw searchWord = 9 :=
  ⟨fun a b => by
    let _ := ideographs
    show (onScreen (a ++ b)).length = (onScreen a).length + (onScreen b).length
    rw [onScreen_append, List.length_append], rfl⟩

/-- The hypotheses of `C42_search_partial` are met by a search that finds two entries, with a mode indicator. -/
example : okAnd (viTyped 12 (.ctrl 'r' :: chars "ab") ["xaby", "abé", "abc"]) (fun _ t =>
    t.2.reverseSearch && t.2.curHistoryLoc.isNone && decide (t.2.termCursorLine < 65536) && text? t.2 == some ['a', 'b'] &&
    t.2.historySubsetIndex.length == 3 && t.2.prompt.pre == ['[', 'I', ']', ' '] &&
    (columns 12).stripLen t.2.prompt.pre == (columns 12).sw t.2.prompt.pre &&
    (texts t.2.history).all (fun e => e.all (fun c => decide (c.utf8Size = 1)) || ['a', 'b'].isPrefixOf e)) = true := by decide +kernel

/-- C42 fails in a search that finds an entry in which an other than ASCII character precedes the term: the entry is cut
after as many bytes as the term has. -/
theorem C42_search_violation : ∃ (E : Env) (p : Prompt) (h : History) (es : List Key), texts h = [['é', 'b']] ∧
    es = [.ctrl 'r', .char 'b'] ∧
    session Emacs.keyMap E p (es.map plain) ({}, initial p h noFiles {}) = .panic .redraw :=
  ⟨columns 20, { prompt := ['$', ' '] }, hist ["éb"], _, by decide +kernel, rfl,
    of_panics (o := typed 20 ['$', ' '] [.ctrl 'r', .char 'b'] ["éb"] "") (by decide +kernel)⟩

/-- C42 fails for a line with several lines that an entry continues with an other than ASCII character: the newlines are
not counted when the entry is cut where the line ends. -/
theorem C42_lines_violation : ∃ (E : Env) (p : Prompt) (h : History) (b : Buffer), texts h = [['a', '\n', 'b', 'é']] ∧
    b.data = ['a', '\n', 'b'] ∧ display E (initial p h noFiles b) = .panic .redraw :=
  ⟨columns 20, { prompt := ['$', ' '] }, hist ["a\nbé"], .ofText ['a', '\n', 'b'], by decide +kernel, rfl,
    of_panics (by decide +kernel)⟩

/-- C42 fails in a search with several lines and a mode indicator: the columns before the cursor are counted with the
indicator and those of the whole without it, and `unreachable!()` is reached. -/
theorem C42_indicator_violation : ∃ (E : Env) (p : Prompt) (es : List Key), p.pre = ['[', 'I', ']', ' '] ∧
    es = [.char '\\', .char '\n', .ctrl 'r'] ∧
    session Vi.keyMap E p (es.map plain) ({}, initial p {} noFiles {}) = .panic .redraw :=
  ⟨columns 12, { prompt := ['$', ' '], viStatus := some {} }, _, rfl, rfl,
    of_panics (o := viTyped 12 [.char '\\', .char '\n', .ctrl 'r'] []) (by decide +kernel)⟩

end Liner.Props
