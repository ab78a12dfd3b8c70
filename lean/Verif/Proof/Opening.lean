import Verif.Props.Screen
import Verif.Spec.View
/-
The screen before the first redraw: the lines of a prompt above the last one.
-/

namespace Liner.Props
open Liner Liner.Spec Liner.Spec.Screen Liner.Editor Liner.Screen

variable {w R : Nat} {s scr : Screen}

/-! ### What is before the cursor stays -/

theorem put_before (c : Char) {i j : Nat} (h : Before s i j) : (s.put w c).cell i j = s.cell i j ∧ Before (s.put w c) i j := by
  unfold Before at h
  cases hw : s.wrap
  · rw [hw] at h
    simp only [Bool.false_eq_true, or_false] at h
    refine ⟨?_, ?_⟩
    · show (if _ then _ else _) = _
      rw [if_neg]
      rw [hw]
      simp only [Bool.false_eq_true, if_false]
      omega
    · unfold Before Screen.put
      dsimp only
      rw [hw]
      simp only [Bool.false_eq_true, if_false]
      rcases h with h | ⟨h1, h2⟩
      · exact Or.inl h
      · right
        refine ⟨h1, Or.inl ?_⟩
        split <;> omega
  · rw [hw] at h
    refine ⟨?_, ?_⟩
    · show (if _ then _ else _) = _
      rw [if_neg]
      rw [hw]
      simp only [if_true]
      omega
    · unfold Before Screen.put
      dsimp only
      rw [hw]
      simp only [if_true]
      left; omega

theorem write_before (l : Text) (hl : ∀ c ∈ l, c ≠ '\r' ∧ c ≠ '\n') {i j : Nat} (h : Before s i j) :
    (s.write w l).cell i j = s.cell i j ∧ Before (s.write w l) i j := by
  induction l generalizing s with
  | nil => exact ⟨rfl, h⟩
  | cons c cs ih =>
    have hc := hl c (by simp)
    have h1 : s.char w c = s.put w c := by
      unfold Screen.char
      rw [if_neg hc.1, if_neg hc.2]
    show ((s.char w c).write w cs).cell i j = _ ∧ Before ((s.char w c).write w cs) i j
    rw [h1]
    have h2 := put_before (w := w) c h
    have h3 := ih (fun c hc => hl c (by simp [hc])) h2.2
    exact ⟨h3.1.trans h2.1, h3.2⟩

theorem spaces_blank (n : Nat) (Q : Nat → Nat → Prop) (h : ∀ i j, Q i j → s.cell i j = ' ') (i j : Nat) (hq : Q i j) :
    (s.write w (List.replicate n ' ')).cell i j = ' ' := by
  induction n generalizing s with
  | zero => exact h i j hq
  | succ n ih =>
    rw [List.replicate_succ]
    refine ih (s := s.char w ' ') fun i j hq => ?_
    have : s.char w ' ' = s.put w ' ' := by unfold Screen.char; simp
    rw [this]
    unfold put
    dsimp only
    rw [h i j hq, ite_self]

/-! ### The rows of the lines above -/

theorem crlf_dry {T : Text} (hw : 0 < w) (hm : T.length % w = 0) (h : Dry w R T s) :
    Dry w R (T ++ List.replicate w ' ') (write w ['\r', '\n'] s) ∧ Above R s (write w ['\r', '\n'] s) := by
  have he : write w ['\r', '\n'] s = { s with row := s.row + 1, col := 0, wrap := false } := by
    simp [write, Screen.char]
  rw [he]
  refine ⟨⟨?_, ?_⟩, fun _ _ _ => rfl⟩
  · rw [shows_blank]
    exact h.1
  · obtain ⟨h1, h2, h3⟩ := h.2
    refine ⟨rfl, ?_, ?_⟩
    · show s.row + 1 = _
      rw [List.length_append, List.length_replicate, Nat.add_div_right _ hw, h2]
      omega
    · show 0 = _
      rw [List.length_append, List.length_replicate, Nat.add_mod_right, hm]

theorem headRow_mod (hw : 0 < w) (l : Text) : (headRow w l).length % w = 0 := by
  unfold headRow
  split
  · rw [List.length_replicate, Nat.mod_self]
  · exact wholeRows_mod l hw

/-- The rows of lines given by their columns. -/
def rowsAbove (w : Nat) (hs : List Text) : Text := (hs.map (headRow w)).flatten

theorem rowsAbove_mod (hw : 0 < w) (hs : List Text) : (rowsAbove w hs).length % w = 0 := by
  unfold rowsAbove
  induction hs with
  | nil => simp
  | cons h hs ih =>
    rw [List.map_cons, List.flatten_cons, List.length_append, Nat.add_mod, headRow_mod hw, ih]
    simp

theorem headRows_eq [Glyphs] (hs : List Text) : headRows w hs = rowsAbove w (hs.map onScreen) := by
  unfold headRows rowsAbove
  rw [List.map_map]
  rfl

theorem headRows_mod [Glyphs] (hw : 0 < w) (hs : List Text) : (headRows w hs).length % w = 0 := by
  rw [headRows_eq]; exact rowsAbove_mod hw _

theorem wholeRows_append {T : Text} (hm : T.length % w = 0) (l : Text) : wholeRows w (T ++ l) = T ++ wholeRows w l := by
  unfold wholeRows
  rw [List.length_append, Nat.add_mod, hm, Nat.zero_add, Nat.mod_mod, List.append_assoc]

/-- What is written for the lines above. -/
def headText (hs : List Text) : Text := (hs.map (· ++ ['\r', '\n'])).flatten

theorem heads_dry (hw : 0 < w) (hs : List Text) (hp : ∀ h ∈ hs, ∀ c ∈ h, c ≠ '\r' ∧ c ≠ '\n') {T : Text} (hm : T.length % w = 0)
    (h : Dry w R T s) : Dry w R (T ++ rowsAbove w hs) (s.write w (headText hs)) ∧ Above R s (s.write w (headText hs)) := by
  induction hs generalizing T s with
  | nil =>
    refine ⟨?_, Above.refl⟩
    show Dry w R (T ++ []) s
    rw [List.append_nil]; exact h
  | cons l hs ih =>
    have h1 : Dry w R (T ++ headRow w l) (s.write w (l ++ ['\r', '\n'])) ∧ Above R s (s.write w (l ++ ['\r', '\n'])) := by
      rw [write_append]
      unfold headRow
      by_cases hl : l = []
      · subst hl
        rw [if_pos rfl]
        exact crlf_dry hw hm h
      · rw [if_neg hl]
        have h2 := write_wet (w := w) (R := R) l hw (hp l (by simp)) (Or.inr ⟨h, Or.inl hl⟩)
        have h3 := crlf_wet hw h2.1
        rw [wholeRows_append hm] at h3
        exact ⟨h3.1, h2.2.trans h3.2⟩
    have h2 := ih (fun h hh => hp h (by simp [hh])) (T := T ++ headRow w l)
      (by rw [List.length_append, Nat.add_mod, hm, headRow_mod hw]; simp) h1.1
    have h3 : headText (l :: hs) = (l ++ ['\r', '\n']) ++ headText hs := by simp [headText]
    have h4 : rowsAbove w (l :: hs) = headRow w l ++ rowsAbove w hs := by simp [rowsAbove]
    rw [h3, h4, write_append, ← List.append_assoc]
    exact ⟨h2.1, h1.2.trans h2.2⟩

theorem onScreen_heads [Glyphs] (hs : List Text) : onScreen (headText hs) = headText (hs.map onScreen) := by
  induction hs with
  | nil => rfl
  | cons h hs ih =>
    have h1 : headText (h :: hs) = (h ++ ['\r', '\n']) ++ headText hs := by simp [headText]
    rw [h1, onScreen_append, onScreen_append, onScreen_crlf, ih]
    simp [headText]

/-- The text of the prompt without escape sequences, as it is written. -/
theorem strip_heads {ts hs : List Text} (h : List.Forall₂ ShowsAs ts hs) {t q : Text} (hq : Strip t q) :
    Strip (List.intercalate ['\r', '\n'] (ts ++ [t])) (headText hs ++ q) := by
  induction h with
  | nil => simpa [headText, List.intercalate] using hq
  | @cons a b ts hs hab _ ih =>
    have h1 : List.intercalate ['\r', '\n'] (a :: ts ++ [t]) = a ++ ('\r' :: '\n' :: List.intercalate ['\r', '\n'] (ts ++ [t])) := by
      cases ts <;> simp [List.intercalate, List.intersperse]
    have h2 : headText (b :: hs) ++ q = b ++ ('\r' :: '\n' :: (headText hs ++ q)) := by simp [headText]
    rw [h1, h2]
    exact hab _ _ (.keep _ _ _ (by decide) (.keep _ _ _ (by decide) ih))

/-! ### Before the first redraw -/

/-- The mark for a missing end of line is written and, in the first column, taken away again. -/
theorem opening_mark [Glyphs] (hw : 0 < w) (hc : scr.col < w) :
    ∃ o s2, o = [.text ['⏎']] ++ List.replicate (w - 1) (.text [' ']) ++ [.text ['\r', ' ', '\r']] ∧ s2 = scr.flow w o ∧
      s2.row = firstRow scr ∧ s2.col = 0 ∧ s2.wrap = false ∧ (∀ i j, Before scr i j → s2.cell i j = scr.cell i j) ∧
      (Clear scr w → Dry w (firstRow scr) [] s2) := by
  obtain ⟨o, ho, hrow, -⟩ := opening (w := w) (scr := scr) hw hc (q := []) (t := []) (by decide) (by unfold Plain; decide) (Nat.zero_le _)
  refine ⟨_, _, rfl, rfl, ?_⟩
  have he : removeCodes [] = [] := by decide
  rw [ho, flow_append, flow_text, he] at hrow
  have hrow : (scr.flow w ([.text ['⏎']] ++ List.replicate (w - 1) (.text [' ']) ++ [.text ['\r', ' ', '\r']])).row = firstRow scr := hrow
  have h1 : removeCodes ['⏎'] = ['⏎'] := by decide
  have h2 : removeCodes ['\r', ' ', '\r'] = ['\r', ' ', '\r'] := by decide
  have h2' : onScreen ['\r', ' ', '\r'] = ['\r', ' ', '\r'] := by simp [onScreen, cells, Glyphs.space]
  rw [flow_append, flow_append, flow_text, flow_text, toks_spaces, h1, h2, onScreen_narrow (t := ['⏎']) (by simp [Glyphs.mark]), h2'] at hrow ⊢
  generalize hs1 : (scr.write w ['⏎']).write w (List.replicate (w - 1) ' ') = s1 at hrow ⊢
  have h5 : s1.write w ['\r', ' ', '\r'] = { (({ s1 with col := 0, wrap := false } : Screen).put w ' ') with col := 0, wrap := false } := by
    simp [Screen.write, Screen.char]
  have hr1 : s1.row = firstRow scr := by rw [← hrow, h5]; simp [Screen.put]
  have hcell : ∀ i j, (s1.write w ['\r', ' ', '\r']).cell i j = if i = s1.row ∧ j = 0 then ' ' else s1.cell i j := by
    intro i j
    rw [h5]
    simp [Screen.put]
  have hmark : scr.write w ['⏎'] = scr.put w '⏎' := by
    show scr.char w '⏎' = _
    unfold Screen.char
    rw [if_neg (by decide), if_neg (by decide)]
  refine ⟨hrow, by rw [h5], by rw [h5], fun i j hb => ?_, fun hcl => ?_⟩
  · rw [hcell]
    have h3 := write_before (w := w) ['⏎'] (by decide) hb
    have h4 := write_before (w := w) (List.replicate (w - 1) ' ') (fun c hc => by rw [(List.mem_replicate.mp hc).2]; decide) h3.2
    rw [hs1] at h4
    rw [if_neg, h4.1, h3.1]
    rintro ⟨rfl, rfl⟩
    rw [hr1] at hb
    unfold Before firstRow at hb
    by_cases h0 : scr.col = 0 ∧ scr.wrap = false
    · rw [if_pos h0, h0.1, h0.2] at hb
      simp at hb
    · rw [if_neg h0] at hb
      omega
  · refine ⟨fun i j hj => ?_, by rw [h5], by rw [hrow]; simp, by rw [h5]; simp⟩
    rw [hcell]
    split
    · simp
    · rename_i hne
      rw [← hs1]
      refine (spaces_blank (w - 1) (fun i j => firstRow scr ≤ i ∧ j < w ∧ ¬ (i = firstRow scr ∧ j = 0)) (fun i j h => ?_) _ _
        ⟨Nat.le_add_right _ _, hj, by rw [hr1] at hne; exact hne⟩).trans (by simp)
      rw [hmark]
      show (if _ then _ else _) = _
      rw [if_neg]
      · exact hcl i j h.1 h.2.1
      · rintro ⟨h6, h7⟩
        have := h.2.2
        have h8 := h.1
        apply this
        unfold firstRow at h8 ⊢
        cases hwr : scr.wrap
        · rw [hwr] at h6 h7 h8
          simp only [Bool.false_eq_true, if_false, and_true] at h6 h7 h8 ⊢
          split at h8
          · rename_i h0
            rw [if_pos h0]; omega
          · omega
        · rw [hwr] at h6 h7 h8
          simp only [if_true, Bool.true_eq_false, and_false, if_false] at h6 h7 h8 ⊢
          omega

/-- Then the prompt is written. -/
theorem opening_heads [Glyphs] (hw : 0 < w) (hc : scr.col < w) {ts hs : List Text} (hts : List.Forall₂ ShowsAs ts hs)
    (hp : ∀ h ∈ hs, ∀ c ∈ h, c ≠ '\r' ∧ c ≠ '\n') (hcl : hs ≠ [] → Clear scr w) {t q : Text} (hq : Strip t q) (hqP : Plain q) (hqw : (onScreen q).length ≤ w) :
    ∃ o, o = [.text ['⏎']] ++ List.replicate (w - 1) (.text [' ']) ++ [.text ['\r', ' ', '\r']] ++
        [.text (List.intercalate ['\r', '\n'] (ts ++ [t]))] ∧
      (scr.flow w o).row = editorRow w hs scr ∧
      ∀ scr' : Screen, (∀ i j, i < editorRow w hs scr → scr'.cell i j = (scr.flow w o).cell i j) → Topped w hs scr scr' := by
  obtain ⟨o, s2, ho, hs2, h1, h2, h3, h4, h5⟩ := opening_mark (scr := scr) hw hc
  refine ⟨_, by rw [← ho], ?_⟩
  rw [flow_append, ← hs2, flow_text, (C14_remove_codes _ _).mpr (strip_heads hts hq), onScreen_append, onScreen_heads, write_append]
  -- the lines above
  have hp' : ∀ h ∈ hs.map onScreen, ∀ c ∈ h, c ≠ '\r' ∧ c ≠ '\n' := by
    intro h hh
    obtain ⟨h', hh', rfl⟩ := List.mem_map.mp hh
    exact onScreen_plain (hp h' hh')
  have h6 : (s2.write w (headText (hs.map onScreen))).row = editorRow w hs scr ∧ (s2.write w (headText (hs.map onScreen))).col = 0 ∧ (s2.write w (headText (hs.map onScreen))).wrap = false ∧
      (∀ i j, i < firstRow scr → (s2.write w (headText (hs.map onScreen))).cell i j = s2.cell i j) ∧
      (∀ i j, j < w → i * w + j < (headRows w hs).length →
        (s2.write w (headText (hs.map onScreen))).cell (firstRow scr + i) j = (headRows w hs).getD (i * w + j) ' ') := by
    by_cases h0 : hs = []
    · subst h0
      refine ⟨?_, h2, h3, fun _ _ _ => rfl, fun i j _ h => absurd h (Nat.not_lt_zero _)⟩
      show s2.row = firstRow scr + 0 / w
      rw [h1, Nat.zero_div, Nat.add_zero]
    · obtain ⟨⟨h7, h8, h9, h10⟩, h11⟩ := heads_dry hw (hs.map onScreen) hp' (T := []) (by simp) (h5 (hcl h0))
      rw [List.nil_append, ← headRows_eq] at h7 h9 h10
      rw [headRows_mod hw] at h10
      exact ⟨h9, h10, h8, h11, fun i j hj _ => h7 i j hj⟩
  obtain ⟨h7, h8, h9, h10, h11⟩ := h6
  generalize s2.write w (headText (hs.map onScreen)) = s3 at h7 h8 h9 h10 h11
  have h12 := write_pen (w := w) (onScreen q) hw hqP.on s3 (by rw [h8]; exact hw)
  refine ⟨?_, fun scr' ha => ?_⟩
  · by_cases hq0 : onScreen q = []
    · rw [hq0]; exact h7
    · rw [h12.2.2.1 hq0, ← h7]
      have : pen w s3 = w * s3.row := by
        unfold pen
        rw [h9, h8, Nat.mul_comm]
        simp
      have hpos : 0 < (onScreen q).length := List.length_pos_iff.mpr hq0
      rw [this, show w * s3.row + (onScreen q).length - 1 = w * s3.row + ((onScreen q).length - 1) by omega, Nat.mul_add_div hw, Nat.div_eq_of_lt (by omega)]
      rfl
  · have hfe : firstRow scr ≤ editorRow w hs scr := Nat.le_add_right _ _
    refine ⟨fun i j hb => ?_, fun i j hj hi => ?_⟩
    · have hlt : i < firstRow scr := by
        unfold Before at hb
        unfold firstRow
        split
        · rename_i h0
          rw [h0.1, h0.2] at hb
          simp at hb
          omega
        · omega
      rw [ha i j (by omega), h12.2.2.2.2 i j (by omega), h10 i j hlt, h4 i j hb]
    · have hlt : firstRow scr + i < editorRow w hs scr := by
        unfold editorRow
        have hm := headRows_mod hw hs
        have hd := Nat.div_add_mod (headRows w hs).length w
        rw [hm, Nat.add_zero] at hd
        have h13 : w * i < w * ((headRows w hs).length / w) := by rw [hd, Nat.mul_comm]; omega
        have := Nat.lt_of_mul_lt_mul_left h13
        omega
      rw [ha _ j hlt, h12.2.2.2.2 _ j (by omega), h11 i j hj hi]

end Liner.Props
