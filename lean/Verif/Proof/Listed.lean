import Verif.Proof.Screen
import Verif.Props.List
/-
The list of candidates on the screen.
-/

namespace Liner
open Spec Liner.Editor

namespace Screen
open Spec.Screen
open Liner.Props (cellToks rowsToks LaidOut)

variable {w R : Nat} {s : Screen}

/-- What a candidate looks like in a column. -/
def cell (width : Nat) (c : Text) : Text := c ++ List.replicate (width - c.length) ' '

/-- What a row looks like. -/
def rowText (width : Nat) (r : List (Text × Nat)) : Text := r.flatMap fun c => cell width c.1

theorem toks_cell [Glyphs] {width : Nat} {hl : Option Nat} {c : Text × Nat} (hc : Plain c.1 ∧ onScreen c.1 = c.1) (s : Screen) :
    flow w (cellToks width hl c) s = write w (cell width c.1) s := by
  have h1 : removeCodes (fgBlack ++ bgWhite) = [] := by decide
  have h2 : removeCodes (bgReset ++ fgReset) = [] := by decide
  have h3 : removeCodes (c.1 ++ List.replicate (width - c.1.length) ' ') = cell width c.1 := by
    refine removeCodes_plain fun h => ?_
    rw [List.mem_append, List.mem_replicate] at h
    rcases h with h | h
    · exact hc.1.esc h
    · exact absurd h.2 (by decide)
  have h4 : onScreen (cell width c.1) = cell width c.1 := by
    unfold cell
    rw [onScreen_append, hc.2, onScreen_spaces]
  unfold cellToks
  dsimp only
  split
  · rw [flow_append, flow_append, flow_text, flow_text, flow_text, h1, h2, h3, h4]; rfl
  · rw [flow_text, h3, h4]

theorem toks_row [Glyphs] {width : Nat} {hl : Option Nat} {r : List (Text × Nat)} (hc : ∀ c ∈ r, Plain c.1 ∧ onScreen c.1 = c.1) (s : Screen) :
    flow w (r.flatMap (cellToks width hl)) s = write w (rowText width r) s := by
  induction r generalizing s with
  | nil => rfl
  | cons c r ih =>
    rw [List.flatMap_cons, flow_append, toks_cell (hc c (by simp)), ih (fun c hc' => hc c (by simp [hc']))]
    unfold rowText
    rw [List.flatMap_cons, write_append]

theorem row_plain {width : Nat} {r : List (Text × Nat)} (hc : ∀ c ∈ r, Plain c.1) : Plain (rowText width r) := by
  intro x hx
  unfold rowText at hx
  rw [List.mem_flatMap] at hx
  obtain ⟨c, h1, h2⟩ := hx
  unfold cell at h2
  rw [List.mem_append, List.mem_replicate] at h2
  rcases h2 with h2 | h2
  · exact hc c h1 x h2
  · rw [h2.2]; decide

theorem row_length {width : Nat} {r : List (Text × Nat)} (hc : ∀ c ∈ r, c.1.length ≤ width) :
    (rowText width r).length = r.length * width := by
  induction r with
  | nil => simp [rowText]
  | cons c r ih =>
    have h1 := hc c (by simp)
    have h2 := ih fun c h => hc c (by simp [h])
    unfold rowText at h2 ⊢
    rw [List.flatMap_cons, List.length_append, h2, List.length_cons, Nat.add_mul]
    simp only [cell, List.length_append, List.length_replicate]
    omega

theorem wholeRows_one {l : Text} (h : 0 < l.length) (hw : l.length ≤ w) : (wholeRows w l).length = w := by
  unfold wholeRows
  rw [List.length_append, List.length_replicate]
  rcases Nat.lt_or_ge l.length w with h1 | h1
  · rw [Nat.mod_eq_of_lt h1, Nat.mod_eq_of_lt (by omega)]; omega
  · have : l.length = w := by omega
    rw [this]; simp

theorem rowsOf_one {ls : List Text} (h : ∀ l ∈ ls, 0 < l.length ∧ l.length ≤ w) : (rowsOf w ls).length = ls.length * w := by
  induction ls with
  | nil => simp [rowsOf]
  | cons l ls ih =>
    have h1 := ih fun l hl => h l (by simp [hl])
    unfold rowsOf at h1 ⊢
    rw [List.map_cons, List.flatten_cons, List.length_append, h1, wholeRows_one (h l (by simp)).1 (h l (by simp)).2, List.length_cons,
      Nat.add_mul]
    omega

/-- The rows of a list one after the other. -/
theorem rows_go [Glyphs] {width : Nat} {hl : Option Nat} (hw : 0 < w) (rows : List (List (Text × Nat))) : rows ≠ [] →
    (∀ r ∈ rows, (∀ c ∈ r, Plain c.1 ∧ onScreen c.1 = c.1) ∧ 0 < (rowText width r).length) → ∀ (T : Text) (s : Screen), T.length % w = 0 → Dry w R T s →
    Dry w R (T ++ rowsOf w (rows.map (rowText width))) (flow w (rowsToks width hl rows ++ [.text ['\r', '\n']]) s) ∧
      Above R s (flow w (rowsToks width hl rows ++ [.text ['\r', '\n']]) s) := by
  have hcr : removeCodes ['\r', '\n'] = ['\r', '\n'] := by decide
  have one : ∀ (r : List (Text × Nat)), (∀ c ∈ r, Plain c.1 ∧ onScreen c.1 = c.1) → 0 < (rowText width r).length → ∀ (T : Text) (s : Screen), T.length % w = 0 →
      Dry w R T s → Dry w R (T ++ wholeRows w (rowText width r)) (flow w (r.flatMap (cellToks width hl) ++ [.text ['\r', '\n']]) s) ∧
      Above R s (flow w (r.flatMap (cellToks width hl) ++ [.text ['\r', '\n']]) s) := by
    intro r hr hr' T s hT h
    rw [flow_append, toks_row hr, flow_text, hcr, onScreen_crlf]
    have hpl := row_plain (width := width) fun c hc => (hr c hc).1
    have h1 := write_wet (R := R) (rowText width r) hw (fun c hc => ⟨(hpl c hc).1, (hpl c hc).2.1⟩)
      (.inr ⟨h, .inl (List.ne_nil_of_length_pos hr')⟩)
    have h2 := crlf_wet hw h1.1
    rw [wholeRows_append _ _ hT] at h2
    exact ⟨h2.1, Above.trans h1.2 h2.2⟩
  induction rows with
  | nil => exact fun h => absurd rfl h
  | cons r rows ih =>
    intro _ hr T s hT h
    have h1 := one r (hr r (by simp)).1 (hr r (by simp)).2 T s hT h
    cases rows with
    | nil =>
      have : rowsOf w ([r].map (rowText width)) = wholeRows w (rowText width r) := by simp [rowsOf]
      rw [this]
      exact h1
    | cons r' rows =>
      have h2 := ih (by simp) (fun x hx => hr x (by simp only [List.mem_cons] at hx ⊢; tauto)) _ _ (by
        rw [List.length_append, Nat.add_mod, hT, wholeRows_mod _ hw]; simp) h1.1
      have e : rowsToks width hl (r :: r' :: rows) ++ [.text ['\r', '\n']] =
          (r.flatMap (cellToks width hl) ++ [.text ['\r', '\n']]) ++ (rowsToks width hl (r' :: rows) ++ [.text ['\r', '\n']]) := by
        simp [rowsToks]
      have e2 : T ++ rowsOf w ((r :: r' :: rows).map (rowText width)) =
          T ++ wholeRows w (rowText width r) ++ rowsOf w ((r' :: rows).map (rowText width)) := by
        simp [rowsOf]
      rw [e, e2, flow_append]
      exact ⟨h2.1, Above.trans h1.2 h2.2⟩

theorem zip_text (rows : List (List (Text × Nat))) : (rows.map (List.map Prod.fst)).flatten = rows.flatten.map Prod.fst := by
  simp [List.map_flatten]

/-- A list that fits: it is shown as it should be, and its rows are counted right. -/
theorem list_heads [Glyphs] {E : Env} {cs : List Text} {hl : Option Nat} (hf : ListFits E w cs) :
    ∃ rows, Listed w cs rows ∧ rows.length = 1 + cs.length / (completionLayout w cs).1 ∧
      Heads w R rows.length (rowsOf w rows)
        (completionToks (completionLayout w cs).1 (completionLayout w cs).2 hl cs 0 0 ++ [.text ['\r', '\n']]) := by
  have hw : 0 < w := by have := hf.wide; omega
  obtain ⟨m, hm1, hm2, hm3, hm4, hm5, hm6⟩ := Props.layout_facts w cs
  have hmw : 2 * m ≤ w := by
    rcases hm3 with rfl | ⟨c, hc, rfl⟩
    · have := hf.wide; omega
    · exact hf.half c hc
  have hwd := hm5 (by omega)
  have hfit := hm6 hmw hf.wide
  have hcols : (completionLayout w cs).1 = listColumns w m := by
    have hfold : cs.foldl (fun m x => max m x.length) 1 = m := by
      have key : ∀ (cs : List Text) (k : Nat), k ≤ m → (∀ c ∈ cs, c.length ≤ m) → (k = m ∨ ∃ c ∈ cs, c.length = m) →
          cs.foldl (fun m x => max m x.length) k = m := by
        intro cs
        induction cs with
        | nil => intro k _ _ h; exact h.resolve_right (by simp)
        | cons c cs ih =>
          intro k h1 h2 h3
          have h4 := h2 c (by simp)
          rw [List.foldl_cons]
          refine ih (max k c.length) (by omega) (fun x hx => h2 x (by simp [hx])) ?_
          rcases h3 with h3 | ⟨x, hx, h3⟩
          · left; omega
          · rcases List.mem_cons.mp hx with rfl | hx
            · left; omega
            · exact .inr ⟨x, hx, h3⟩
      exact key cs 1 hm2 hm1 (hm3.imp (·.symm) id)
    have h4 : 2 ≤ w / m := by rw [Nat.le_div_iff_mul_le hm2]; omega
    have h5 : w / (w / m) ≤ w / 2 := Nat.div_le_div_left h4 (by omega)
    have h3w := hf.wide
    have h6 : 2 + w / (w / m) ≤ w := by omega
    have h7 : 1 ≤ w / (2 + w / (w / m)) := (Nat.one_le_div_iff (Nat.add_pos_left (by decide) _)).mpr h6
    unfold completionLayout listColumns
    dsimp only
    rw [hfold, Nat.max_eq_right (a := 1) (b := w / m) (by omega), Nat.max_eq_right h7, Nat.add_comm 2]
  have hdiv := hf.last m hm2 hm1 hm3
  rw [← hcols] at hdiv
  obtain ⟨rows, hr1, hr2⟩ := Props.list_rows (completionLayout w cs).1 (completionLayout w cs).2 hl hm4 cs
  have hcount := hr1.count hm4
  rw [hr2]
  generalize (completionLayout w cs).1 = cols at *
  generalize (completionLayout w cs).2 = width at *
  obtain ⟨hr3, hr4, hr5⟩ := hr1
  have hmem : ∀ r ∈ rows, ∀ c ∈ r, c.1 ∈ cs := by
    intro r hr c hc
    have : c ∈ rows.flatten := List.mem_flatten.mpr ⟨r, hr, hc⟩
    rw [hr3] at this
    exact List.fst_mem_of_mem_zipIdx this
  have hlen : ∀ r ∈ rows, (rowText width r).length = r.length * width := fun r hr =>
    row_length fun c hc => by have := hm1 _ (hmem r hr c hc); omega
  have hlen' : ∀ l ∈ rows.map (rowText width), 0 < l.length ∧ l.length ≤ w := by
    intro l hl
    obtain ⟨r, hr, rfl⟩ := List.mem_map.mp hl
    rw [hlen r hr]
    have := hr5 r hr
    exact ⟨Nat.mul_pos this.1 (by omega), Nat.le_trans (Nat.mul_le_mul_right _ this.2) hfit⟩
  have hne : rows ≠ [] := by
    rintro rfl
    apply hdiv
    have : cs.length = 0 := by simpa using congrArg List.length hr3.symm
    rw [this]; exact ⟨0, by simp⟩
  refine ⟨rows.map (rowText width), ⟨cols, width, rows.map (List.map Prod.fst), ?_, ?_, ?_, ?_, hfit, ?_⟩, ?_, ?_, ?_⟩
  · rw [zip_text, hr3, List.zipIdx_map_fst]
  · intro r hr
    rw [← List.map_dropLast] at hr
    obtain ⟨r', hr', rfl⟩ := List.mem_map.mp hr
    rw [List.length_map]; exact hr4 r' hr'
  · intro r hr
    obtain ⟨r', hr', rfl⟩ := List.mem_map.mp hr
    rw [List.length_map]; exact hr5 r' hr'
  · intro c hc; have := hm1 c hc; omega
  · rw [List.map_map]
    refine List.map_congr_left fun r _ => ?_
    simp [rowText, cell, List.flatMap_map]
  · rw [List.length_map, hcount]
    have hd := Nat.div_add_mod cs.length cols
    have hlt := Nat.mod_lt cs.length hm4
    have hne : cs.length % cols ≠ 0 := fun hz => hdiv (Nat.dvd_of_mod_eq_zero hz)
    have : cs.length + cols - 1 = cols * (cs.length / cols + 1) + (cs.length % cols - 1) := by
      rw [Nat.mul_add]; omega
    rw [this, Nat.mul_add_div hm4, Nat.div_eq_of_lt (Nat.lt_of_le_of_lt (Nat.sub_le _ _) hlt)]
    generalize cs.length / cols = q
    omega
  · exact rowsOf_one hlen'
  · intro s1 h1
    exact rows_go hw rows hne (fun r hr => ⟨fun c hc => ⟨(hf.narrow _ (hmem r hr c hc)).1.1, onScreen_narrow (hf.narrow _ (hmem r hr c hc)).2⟩, (hlen' _ (List.mem_map_of_mem hr)).1⟩) [] s1 (by simp) h1

theorem comp_heads [Glyphs] {E : Env} {hint : Option (List Text × Option Nat)} {t : Nat} {comp : Nat × List Tok}
    (hf : HintFits E w hint) (ht : E.termSize t = some w ∨ hint = none) (h : CompOf E hint t comp) :
    ∃ rows, HintRows w hint rows ∧ comp.1 = rows.length ∧ Heads w R rows.length (rowsOf w rows) comp.2 := by
  cases hint with
  | none =>
    have h : comp = (0, []) := h
    subst h
    exact ⟨[], rfl, rfl, Heads.none⟩
  | some x =>
    obtain ⟨cs, i⟩ := x
    obtain ⟨w', hw', rfl⟩ := h
    have ht := ht.resolve_right (by simp)
    rw [ht] at hw'
    cases hw'
    obtain ⟨rows, h1, h2, h3⟩ := list_heads (R := R) (hl := i) (hf _ rfl)
    exact ⟨rows, h1, h2.symm, h3⟩

end Screen
end Liner
