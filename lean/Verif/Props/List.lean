import Verif.Proof.Display
import Verif.Props.Witness
import Mathlib.Data.List.Basic
/-
The list of completions: C60.
-/

namespace Liner.Props
open Liner Liner.Spec Liner.Editor

/-- What is written for the candidate number `n`: the text filled up with spaces, in other colours if it is the
highlighted one. -/
def cellToks (width : Nat) (highlighted : Option Nat) (c : Text × Nat) : List Tok :=
  let t : List Tok := [.text (c.1 ++ List.replicate (width - c.1.length) ' ')]
  if highlighted = some c.2 then [.text (fgBlack ++ bgWhite)] ++ t ++ [.text (bgReset ++ fgReset)] else t

/-- What is written for rows of candidates: the rows one after the other with line ends between them. -/
def rowsToks (width : Nat) (highlighted : Option Nat) : List (List (Text × Nat)) → List Tok
  | [] => []
  | [r] => r.flatMap (cellToks width highlighted)
  | r :: r' :: rs => r.flatMap (cellToks width highlighted) ++ .text ['\r', '\n'] :: rowsToks width highlighted (r' :: rs)

/-- The candidates numbered and laid out in rows: each in its turn, every row but the last with `cols` of them, the
last with at least one and at most that many. -/
def LaidOut (cols : Nat) (candidates : List Text) (rows : List (List (Text × Nat))) : Prop :=
  rows.flatten = candidates.zipIdx ∧ (∀ r ∈ rows.dropLast, r.length = cols) ∧ ∀ r ∈ rows, 0 < r.length ∧ r.length ≤ cols

/-- The rest of a list of which the current row already has `i` cells. -/
theorem completionToks_rows (cols width : Nat) (hl : Option Nat) (hc : 0 < cols) (cs : List Text) :
    ∀ (index i : Nat), 0 < i → i ≤ cols → ∃ (r : List (Text × Nat)) (rows : List (List (Text × Nat))),
      completionToks cols width hl cs index i = r.flatMap (cellToks width hl) ++
        (if rows = [] then [] else .text ['\r', '\n'] :: rowsToks width hl rows) ∧
      r ++ rows.flatten = cs.zipIdx index ∧ i + r.length ≤ cols ∧ (rows ≠ [] → i + r.length = cols) ∧
      (∀ r ∈ rows.dropLast, r.length = cols) ∧ ∀ r ∈ rows, 0 < r.length ∧ r.length ≤ cols := by
  induction cs with
  | nil => exact fun index i hi hic => ⟨[], [], by simp [completionToks], by simp, by simpa, by simp, by simp, by simp⟩
  | cons c cs ih =>
    intro index i hi hic
    have hcell : (if some index = hl then [.text (fgBlack ++ bgWhite), .text (padRight c width), .text (bgReset ++ fgReset)]
        else [.text (padRight c width)]) = cellToks width hl (c, index) := by
      unfold cellToks padRight
      by_cases h : some index = hl
      · simp [h]
      · rw [if_neg h, if_neg (fun h' => h h'.symm)]
    unfold completionToks
    dsimp only
    rw [hcell]
    by_cases h : i = cols
    · simp only [h, if_true]
      obtain ⟨r, rows, h1, h2, h3, h4, h5, h6⟩ := ih (index + 1) (0 + 1) (by omega) (by omega)
      refine ⟨[], ((c, index) :: r) :: rows, ?_, ?_, by simp, by simp, ?_, ?_⟩
      · rw [h1]
        cases rows with
        | nil => simp [rowsToks]
        | cons r' rs => simp [rowsToks]
      · simp only [List.zipIdx_cons, List.nil_append, List.flatten_cons, List.cons_append, h2]
      · cases rows with
        | nil => simp
        | cons r' rs =>
          rw [List.dropLast_cons_of_ne_nil (by simp)]
          intro x hx
          rw [List.mem_cons] at hx
          rcases hx with rfl | hx
          · have := h4 (by simp)
            simp only [List.length_cons]
            omega
          · exact h5 x hx
      · intro x hx
        rw [List.mem_cons] at hx
        rcases hx with rfl | hx
        · simp only [List.length_cons]
          omega
        · exact h6 x hx
    · simp only [h, if_false]
      obtain ⟨r, rows, h1, h2, h3, h4, h5, h6⟩ := ih (index + 1) (i + 1) (by omega) (by omega)
      refine ⟨(c, index) :: r, rows, ?_, ?_, ?_, ?_, h5, h6⟩
      · rw [h1]
        simp
      · rw [List.zipIdx_cons, ← h2]; rfl
      · simp only [List.length_cons]; omega
      · intro hr
        have := h4 hr
        simp only [List.length_cons]; omega

theorem list_rows (cols width : Nat) (hl : Option Nat) (hc : 0 < cols) (cs : List Text) :
    ∃ rows, LaidOut cols cs rows ∧ completionToks cols width hl cs 0 0 = rowsToks width hl rows := by
  cases cs with
  | nil => exact ⟨[], by simp [LaidOut], rfl⟩
  | cons c cs =>
    obtain ⟨r, rows, h1, h2, h3, h4, h5, h6⟩ := completionToks_rows cols width hl hc cs 1 1 (by omega) hc
    refine ⟨((c, 0) :: r) :: rows, ⟨?_, ?_, ?_⟩, ?_⟩
    · simp only [List.zipIdx_cons, List.flatten_cons, List.cons_append, h2]
    · cases rows with
      | nil => simp
      | cons r' rs =>
        rw [List.dropLast_cons_of_ne_nil (by simp)]
        intro x hx
        rw [List.mem_cons] at hx
        rcases hx with rfl | hx
        · have := h4 (by simp)
          simp only [List.length_cons]
          omega
        · exact h5 x hx
    · intro x hx
      rw [List.mem_cons] at hx
      rcases hx with rfl | hx
      · simp only [List.length_cons]
        omega
      · exact h6 x hx
    · have hcell : (if some 0 = hl then [.text (fgBlack ++ bgWhite), .text (padRight c width), .text (bgReset ++ fgReset)]
          else [.text (padRight c width)]) = cellToks width hl (c, 0) := by
        unfold cellToks padRight
        by_cases h : some 0 = hl
        · simp [h]
        · rw [if_neg h, if_neg (fun h' => h h'.symm)]
      unfold completionToks
      dsimp only
      rw [hcell, if_neg (by omega), if_neg (by omega), h1]
      cases rows with
      | nil => simp [rowsToks]
      | cons r' rs => simp [rowsToks]

/-- The number of rows is what it must be. -/
theorem LaidOut.count {cols : Nat} {cs : List Text} {rows : List (List (Text × Nat))} (h : LaidOut cols cs rows)
    (hc : 0 < cols) : rows.length = (cs.length + cols - 1) / cols := by
  obtain ⟨h1, h2, h3⟩ := h
  have hlen : cs.length = (rows.map List.length).sum := by
    have := congrArg List.length h1
    rw [List.length_flatten, List.length_zipIdx] at this
    exact this.symm
  rcases List.eq_nil_or_concat rows with rfl | ⟨ini, last, rfl⟩
  · simp only [List.map_nil, List.sum_nil] at hlen
    rw [hlen, Nat.zero_add, Nat.div_eq_of_lt (by omega)]
    rfl
  · have h4 : (ini.map List.length).sum = ini.length * cols := by
      have : ∀ r ∈ ini, r.length = cols := by
        rw [List.concat_eq_append, List.dropLast_concat] at h2
        exact h2
      clear h1 h2 h3 hlen
      induction ini with
      | nil => simp
      | cons a as ih =>
        rw [List.map_cons, List.sum_cons, ih (fun r hr => this r (by simp [hr])), this a (by simp), List.length_cons, Nat.add_mul]
        omega
    have h5 := h3 last (by simp)
    simp only [List.concat_eq_append, List.map_append, List.sum_append, h4, List.map_cons, List.map_nil, List.sum_cons, List.sum_nil] at hlen
    rw [hlen, List.concat_eq_append, List.length_append, List.length_singleton]
    have : ini.length * cols + (last.length + 0) + cols - 1 = cols * (ini.length + 1) + (last.length - 1) := by
      rw [Nat.mul_add, Nat.mul_comm]
      omega
    rw [this, Nat.mul_add_div hc, Nat.div_eq_of_lt (by omega)]

/-- The columns chosen for a terminal of `w` columns. -/
theorem layout_facts (w : Nat) (cs : List Text) : ∃ m, (∀ c ∈ cs, c.length ≤ m) ∧ 1 ≤ m ∧ (m = 1 ∨ ∃ c ∈ cs, c.length = m) ∧
    0 < (completionLayout w cs).1 ∧ (m ≤ w → m + 2 ≤ (completionLayout w cs).2) ∧
    (2 * m ≤ w → 3 ≤ w → (completionLayout w cs).1 * (completionLayout w cs).2 ≤ w) := by
  have key : ∀ (cs : List Text) (k : Nat), k ≤ cs.foldl (fun m x => max m x.length) k ∧
      (∀ c ∈ cs, c.length ≤ cs.foldl (fun m x => max m x.length) k) ∧
      (cs.foldl (fun m x => max m x.length) k = k ∨ ∃ c ∈ cs, c.length = cs.foldl (fun m x => max m x.length) k) := by
    intro cs
    induction cs with
    | nil => exact fun k => ⟨Nat.le_refl _, by simp, .inl rfl⟩
    | cons c cs ih =>
      intro k
      obtain ⟨h1, h2, h3⟩ := ih (max k c.length)
      rw [List.foldl_cons]
      refine ⟨by omega, ?_, ?_⟩
      · intro x hx
        rw [List.mem_cons] at hx
        rcases hx with rfl | hx
        · omega
        · exact h2 x hx
      · rcases h3 with h3 | ⟨x, hx, h3⟩
        · by_cases hk : c.length ≤ k
          · left; omega
          · right; exact ⟨c, by simp, by omega⟩
        · exact .inr ⟨x, by simp [hx], h3⟩
  obtain ⟨h1, h2, h3⟩ := key cs 1
  unfold completionLayout
  dsimp only
  generalize cs.foldl (fun m x => max m x.length) 1 = m at h1 h2 h3
  have hm : 0 < m := h1
  refine ⟨m, h2, h1, h3, by omega, fun hw => ?_, fun hw h3w => ?_⟩
  · have h4 : 1 ≤ w / m := (Nat.one_le_div_iff hm).mpr hw
    rw [Nat.max_eq_right h4]
    have h5 : m ≤ w / (w / m) := by
      rw [Nat.le_div_iff_mul_le h4, Nat.mul_comm]
      exact Nat.div_mul_le_self w m
    omega
  · have h4 : 2 ≤ w / m := by rw [Nat.le_div_iff_mul_le hm]; omega
    rw [Nat.max_eq_right (a := 1) (b := w / m) (by omega)]
    have h5 : w / (w / m) ≤ w / 2 := Nat.div_le_div_left h4 (by omega)
    have h6 : 2 + w / (w / m) ≤ w := by omega
    have h7 : 1 ≤ w / (2 + w / (w / m)) := (Nat.one_le_div_iff (Nat.add_pos_left (by decide) _)).mpr h6
    rw [Nat.max_eq_right h7]
    exact Nat.div_mul_le_self _ _

/-- A redraw in general. -/
theorem draw_ok {E : Env} {s s' : Ed} (h : display E s = .ok () s') :
    ∃ sug, sugOf (pre s) = some sug ∧ DrawOk E true { pre s with autosuggestion := sug } s' := by
  have h2 : Wp (display E) s (fun _ s' => ∃ sug, sugOf (pre s) = some sug ∧ DrawOk E true { pre s with autosuggestion := sug } s')
      (fun _ _ => True) (fun _ => True) := by
    rw [display_wp']
    exact ⟨fun sug h1 => wp_mono (displayImpl_wp E true _) (fun _ s' h2 => ⟨sug, h1, h2⟩) (fun _ _ _ => trivial)
      (fun _ _ => trivial), fun _ => trivial⟩
  exact wp_ok h2 h

theorem pre_kept (s : Ed) : (pre s).out = s.out ∧ (pre s).tick = s.tick ∧ (pre s).showCompletionsHint = s.showCompletionsHint ∧
    (pre s).termCursorLine = s.termCursorLine := by
  unfold pre
  split <;> exact ⟨rfl, rfl, rfl, rfl⟩

theorem frame_parts {E : Env} {sa : Bool} {s : Ed} {pr : Text × Nat} {tw : Nat} {b : Buffer} {tc : List Nat} {up : List Tok}
    {comp : Nat × List Tok} {f : Frame} (h : frame E sa s pr tw b tc up comp = some f) :
    (∃ rest, f.toks = [.text (csi ['?', '1', '0', '0', '0', 'l'] ++ csi ['?', '1', 'l'])] ++ up ++
      [.text ['\r'], .clearAfter] ++ comp.2 ++ .text pr.1 :: rest) ∧
    f.line = (calcWidth (if s.isSearch then pr.2 else lastPromptLineWidth E.sw pr.1) tw tc 0 + tw) / tw + comp.1 := by
  unfold frame at h
  dsimp only at h
  split at h
  · simp only [Option.some.injEq] at h
    subst h
    exact ⟨⟨_, by simp only [List.append_assoc, List.cons_append, List.nil_append]; rfl⟩, rfl⟩
  · exact absurd h (by simp)

/-- C60: a redraw with a list of completions.  After clearing the screen from the first row of the prompt, and before
the prompt, it writes the candidates, each once and in order, in rows of `cols` of them (the last row may have
fewer), the chosen one highlighted, and then ends the line.  When no candidate is longer than the terminal is wide every
candidate is followed by at least two spaces, and when two of the longest fit on a row so does every row. -/
theorem C60_list (E : Env) (s s' : Ed) (h : display E s = .ok () s') (candidates : List Text) (chosen : Option Nat)
    (hh : s.showCompletionsHint = some (candidates, chosen)) :
    ∃ w cols width rows a p b, E.termSize (s.tick + 1) = some w ∧ 0 < cols ∧ LaidOut cols candidates rows ∧
      s'.out = s.out ++ a ++ [.text ['\r'], .clearAfter] ++ rowsToks width chosen rows ++ [.text ['\r', '\n'], .text p] ++ b ∧
      (∀ n, (∀ c ∈ candidates, c.length ≤ n) → (∃ c ∈ candidates, c.length = n) → 1 ≤ n →
        (n ≤ w → n + 2 ≤ width) ∧ (2 * n ≤ w → 3 ≤ w → cols * width ≤ w)) := by
  obtain ⟨sug, -, hd⟩ := draw_ok h
  obtain ⟨b, w', tc, up, comp, f, t, hb1, hw1, htc, hup, hcomp, hf, rfl⟩ := hd.ex
  obtain ⟨k1, k2, k3, k4⟩ := pre_kept s
  have hcomp : CompOf E (pre s).showCompletionsHint ((pre s).tick + 1) comp := hcomp
  rw [k3, hh, k2] at hcomp
  obtain ⟨w, hw, rfl⟩ := hcomp
  obtain ⟨m, hm1, hm2, hm3, hm4, hm5, hm6⟩ := layout_facts w candidates
  obtain ⟨rows, hr1, hr2⟩ := list_rows (completionLayout w candidates).1 (completionLayout w candidates).2 chosen hm4 candidates
  obtain ⟨⟨rest, hrest⟩, -⟩ := frame_parts hf
  refine ⟨w, _, (completionLayout w candidates).2, rows, [.text (csi ['?', '1', '0', '0', '0', 'l'] ++ csi ['?', '1', 'l'])] ++ up,
    (promptFor E { pre s with autosuggestion := sug } b).1, rest, hw, hm4, hr1, ?_, ?_⟩
  rotate_left
  · intro n hn1 hn2 hn3
    obtain rfl : n = m := by
      obtain ⟨c, hc, rfl⟩ := hn2
      rcases hm3 with h1 | ⟨c', hc', rfl⟩
      · have := hm1 c hc; omega
      · exact Nat.le_antisymm (hm1 c hc) (hn1 c' hc')
    exact ⟨hm5, hm6⟩
  · show (pre s).out ++ f.toks = _
    rw [k1, hrest, ← hr2]
    simp only [List.append_assoc, List.cons_append, List.nil_append]

/-- C60: the rows of the list that are counted, compared with a redraw of the same state without the list.  They are
the rows written, unless all rows are full: then one too many is counted. -/
theorem C60_count_partial (E : Env) (s s' s1 : Ed) (h : display E s = .ok () s')
    (h1 : display E { s with showCompletionsHint := none } = .ok () s1) (candidates : List Text) (chosen : Option Nat)
    (hh : s.showCompletionsHint = some (candidates, chosen)) :
    ∃ cols width rows a b, LaidOut cols candidates rows ∧
      s'.out = s.out ++ a ++ rowsToks width chosen rows ++ [.text ['\r', '\n']] ++ b ∧
      (¬ cols ∣ candidates.length → s'.termCursorLine = s1.termCursorLine + rows.length) ∧
      (cols ∣ candidates.length → s'.termCursorLine = s1.termCursorLine + rows.length + 1) := by
  obtain ⟨sug, hsug, hd⟩ := draw_ok h
  obtain ⟨b, w', tc, up, comp, f, t, hb1, hw1, htc, hup, hcomp, hf, rfl⟩ := hd.ex
  obtain ⟨k1, k2, k3, k4⟩ := pre_kept s
  have hcomp : CompOf E (pre s).showCompletionsHint ((pre s).tick + 1) comp := hcomp
  rw [k3, hh, k2] at hcomp
  obtain ⟨w, hw, rfl⟩ := hcomp
  obtain ⟨m, hm1, hm2, hm3, hm4, hm5, hm6⟩ := layout_facts w candidates
  obtain ⟨rows, hr1, hr2⟩ := list_rows (completionLayout w candidates).1 (completionLayout w candidates).2 chosen hm4 candidates
  obtain ⟨⟨rest, hrest⟩, hline⟩ := frame_parts hf
  have hpre : pre { s with showCompletionsHint := none } = { pre s with showCompletionsHint := none } := by
    unfold pre
    by_cases hc : (s.isSearch && s.bufferChanged) = true
    · have hc' : (({ s with showCompletionsHint := none } : Ed).isSearch && ({ s with showCompletionsHint := none } : Ed).bufferChanged) = true := hc
      rw [if_pos hc, if_pos hc']; rfl
    · have hc' : ¬ (({ s with showCompletionsHint := none } : Ed).isSearch && ({ s with showCompletionsHint := none } : Ed).bufferChanged) = true := hc
      rw [if_neg hc, if_neg hc']
  -- the other redraw
  have hl1 : s1.termCursorLine = (calcWidth (if ({ pre s with autosuggestion := sug } : Ed).isSearch then (promptFor E { pre s with autosuggestion := sug } b).2
      else lastPromptLineWidth E.sw (promptFor E { pre s with autosuggestion := sug } b).1) (widthOf w') tc 0 + widthOf w') / widthOf w' := by
    obtain ⟨sug1, hsug1, hd1⟩ := draw_ok h1
    obtain ⟨b1, w1, tc1, up1, comp1, f1, t1, hb1', hw1', htc', hup', hcomp', hf', rfl⟩ := hd1.ex
    obtain ⟨-, hline1⟩ := frame_parts hf'
    rw [hpre] at *
    have e1 : sug1 = sug := by
      have : sugOf (pre s) = some sug1 := hsug1
      rw [hsug] at this
      exact (Option.some.inj this).symm
    have e2 : b1 = b := Option.some.inj ((hb1' : (pre s).curBuf? = some b1).symm.trans hb1)
    have e3 : w1 = w' := Option.some.inj ((hw1' : E.termSize (pre s).tick = some w1).symm.trans hw1)
    subst e1 e2 e3
    have e4 : tc1 = tc := Option.some.inj (htc'.symm.trans htc)
    subst e4
    have e5 : comp1 = (0, []) := hcomp'
    subst e5
    exact hline1
  have hcount := hr1.count hm4
  have hline : ∀ x, s1.termCursorLine = x → f.line = x + (1 + candidates.length / (completionLayout w candidates).1) := by
    intro x hx
    rw [hline, ← hx, hl1]
  generalize (completionLayout w candidates).1 = cols at *
  refine ⟨cols, (completionLayout w candidates).2, rows, [.text (csi ['?', '1', '0', '0', '0', 'l'] ++ csi ['?', '1', 'l'])] ++ up ++
    [.text ['\r'], .clearAfter], .text (promptFor E { pre s with autosuggestion := sug } b).1 :: rest, hr1, ?_, fun hdiv => ?_, fun hdiv => ?_⟩
  rotate_left
  · show f.line = _
    rw [hline _ rfl, hcount]
    have hd := Nat.div_add_mod candidates.length cols
    have hlt := Nat.mod_lt candidates.length hm4
    have hne : candidates.length % cols ≠ 0 := fun hz => hdiv (Nat.dvd_of_mod_eq_zero hz)
    have : candidates.length + cols - 1 = cols * (candidates.length / cols + 1) + (candidates.length % cols - 1) := by
      rw [Nat.mul_add]; omega
    rw [this, Nat.mul_add_div hm4, Nat.div_eq_of_lt (Nat.lt_of_le_of_lt (Nat.sub_le _ _) hlt)]
    generalize candidates.length / cols = q
    omega
  · show f.line = _
    rw [hline _ rfl, hcount]
    obtain ⟨q, hq⟩ := hdiv
    rw [hq, Nat.mul_div_cancel_left _ hm4, show cols * q + cols - 1 = cols * q + (cols - 1) by omega, Nat.mul_add_div hm4,
      Nat.div_eq_of_lt (by omega)]
    omega
  · show (pre s).out ++ f.toks = _
    rw [k1, hrest, ← hr2]
    simp only [List.append_assoc, List.cons_append, List.nil_append]

open Liner.Tests Liner.Wit

/-- Four candidates in rows of three, ten columns, the second highlighted, as `C60_list` and `C60_count_partial` say. -/
example : okAnd (display { env with termSize := fun _ => some 10 }
      { initial { prompt := ['$', ' '] } {} noFiles {} with showCompletionsHint := some ([['a'], ['b'], ['c'], ['d']], some 1) }) (fun _ s' =>
    okAnd (display { env with termSize := fun _ => some 10 } (initial { prompt := ['$', ' '] } {} noFiles {})) fun _ s1 =>
    s'.termCursorLine == s1.termCursorLine + 2 &&
    (s'.out.drop 3).take 9 == [.text "a  ".toList, .text (fgBlack ++ bgWhite), .text "b  ".toList, .text (bgReset ++ fgReset), .text "c  ".toList,
      .text ['\r', '\n'], .text "d  ".toList, .text ['\r', '\n'], .text ['$', ' ']]) = true := by decide +kernel

/-- C60 fails when the last row of the list is full: two rows are counted for the one row that is written. -/
theorem C60_count_violation : ∃ (E : Env) (s s' s1 : Ed) (a b : List Tok) (rows : List (List (Text × Nat))),
    s.showCompletionsHint = some ([['a'], ['b'], ['c']], none) ∧ display E s = .ok () s' ∧
    display E { s with showCompletionsHint := none } = .ok () s1 ∧ LaidOut 3 [['a'], ['b'], ['c']] rows ∧ rows.length = 1 ∧
    s'.out = s.out ++ a ++ rowsToks 3 none rows ++ [.text ['\r', '\n']] ++ b ∧ s'.termCursorLine = s1.termCursorLine + 2 := by
  have h : okAnd (display { env with termSize := fun _ => some 10 }
      { initial { prompt := ['$', ' '] } {} noFiles {} with showCompletionsHint := some ([['a'], ['b'], ['c']], none) }) (fun _ s' =>
      okAnd (display { env with termSize := fun _ => some 10 } (initial { prompt := ['$', ' '] } {} noFiles {})) fun _ s1 =>
      s'.termCursorLine == s1.termCursorLine + 2 &&
      s'.out == s'.out.take 3 ++ rowsToks 3 none [[(['a'], 0), (['b'], 1), (['c'], 2)]] ++ [.text ['\r', '\n']] ++ s'.out.drop 7) = true := by decide +kernel
  obtain ⟨_, s', h1, h2⟩ := of_okAnd h
  obtain ⟨_, s1, h3, h4⟩ := of_okAnd h2
  simp only [Bool.and_eq_true, beq_iff_eq] at h4
  exact ⟨_, _, s', s1, s'.out.take 3, s'.out.drop 7, [[(['a'], 0), (['b'], 1), (['c'], 2)]], rfl, h1, h3,
    ⟨rfl, by simp, by simp⟩, rfl, h4.2, h4.1⟩

/-- C60 fails when only one of the candidates fits on a row: each is filled up to two columns more than the terminal
has and so takes two rows, while one is counted. -/
theorem C60_wrap_violation : ∃ (E : Env) (w : Nat) (s s' s1 : Ed) (a b : List Tok), (∀ t, E.termSize t = some w) ∧
    s.showCompletionsHint = some ([['a', 'b', 'c'], ['a', 'b', 'd']], none) ∧ (∀ c ∈ [['a', 'b', 'c'], ['a', 'b', 'd']], c.length < w) ∧
    display E s = .ok () s' ∧ display E { s with showCompletionsHint := none } = .ok () s1 ∧
    s'.out = s.out ++ a ++ [.text (['a', 'b', 'c'] ++ List.replicate (w - 1) ' '), .text ['\r', '\n'],
      .text (['a', 'b', 'd'] ++ List.replicate (w - 1) ' '), .text ['\r', '\n']] ++ b ∧ s'.termCursorLine = s1.termCursorLine + 3 := by
  have h : okAnd (display { env with termSize := fun _ => some 5 }
      { initial { prompt := ['$', ' '] } {} noFiles {} with showCompletionsHint := some ([['a', 'b', 'c'], ['a', 'b', 'd']], none) }) (fun _ s' =>
      okAnd (display { env with termSize := fun _ => some 5 } (initial { prompt := ['$', ' '] } {} noFiles {})) fun _ s1 =>
      s'.termCursorLine == s1.termCursorLine + 3 &&
      s'.out == s'.out.take 3 ++ [.text (['a', 'b', 'c'] ++ List.replicate 4 ' '), .text ['\r', '\n'],
      .text (['a', 'b', 'd'] ++ List.replicate 4 ' '), .text ['\r', '\n']] ++ s'.out.drop 7) = true := by decide +kernel
  obtain ⟨_, s', h1, h2⟩ := of_okAnd h
  obtain ⟨_, s1, h3, h4⟩ := of_okAnd h2
  simp only [Bool.and_eq_true, beq_iff_eq] at h4
  exact ⟨_, 5, _, s', s1, s'.out.take 3, s'.out.drop 7, fun _ => rfl, rfl, by simp, h1, h3, h4.2, h4.1⟩

end Liner.Props
