import Verif.Proof.Opening
import Verif.Spec.Talk
import Verif.Model.Context
/-
What a round leaves on the screen, below what was there.
-/

namespace Liner.Props
open Liner Liner.Spec Liner.Spec.Screen Liner.Editor Liner.Screen

section
variable {w R n : Nat} {T p : Text} {hs ls : List Text} {s s' : Screen}

theorem fit_length (n : Nat) (t : Text) : (fit n t).length = n := by
  unfold fit
  rw [List.length_take, List.length_append, List.length_replicate]
  omega

theorem fit_getD {n i : Nat} {t : Text} (h : i < n) : (fit n t).getD i ' ' = t.getD i ' ' := by
  unfold fit
  simp only [List.getD_eq_getElem?_getD, List.getElem?_take, if_pos h]
  by_cases hi : i < t.length
  · rw [List.getElem?_append_left hi]
  · rw [List.getElem?_append_right (by omega), List.getElem?_eq_none (l := t) (by omega)]
    rw [List.getElem?_replicate]
    split <;> rfl

theorem dry_clear (hm : T.length % w = 0) (h : Dry w R T s) :
    firstRow s = R + T.length / w ∧ s.col = 0 ∧ s.wrap = false ∧ s.row = R + T.length / w ∧ Clear s w := by
  obtain ⟨h1, h2, h3, h4⟩ := h
  rw [hm] at h4
  have hf : firstRow s = R + T.length / w := by
    unfold firstRow
    rw [if_pos ⟨h4, h2⟩, h3]
    rfl
  refine ⟨hf, h4, h2, h3, fun i j hi hj => ?_⟩
  rw [hf] at hi
  obtain ⟨k, rfl⟩ : ∃ k, i = R + (T.length / w + k) := ⟨i - R - T.length / w, by omega⟩
  rw [h1 _ j hj]
  have hd := Nat.div_add_mod T.length w
  rw [hm, Nat.add_zero] at hd
  rw [List.getD_eq_getElem?_getD, List.getElem?_eq_none]
  · rfl
  · rw [Nat.add_mul, Nat.mul_comm (T.length / w) w, hd]
    omega

/-- Below `T` comes what a finished line leaves. -/
theorem turn_dry [Glyphs] (hw : 0 < w) (hm : T.length % w = 0) (h : Dry w R T s) (ht : Topped w hs s s')
    (hf : Finished s' w (editorRow w hs s) p ls n) :
    Dry w R (T ++ (headRows w hs ++ fit ((n / w + 1) * w) (rowsOf w (shown p ls)))) s' ∧ Above R s s' ∧
      ∀ c ∈ (rowsOf w (shown p ls)).drop ((n / w + 1) * w), c = ' ' := by
  obtain ⟨e1, e2, e3, e4, e5⟩ := dry_clear hm h
  obtain ⟨h1, h2, h3, h4⟩ := h
  obtain ⟨A, hA⟩ : ∃ A, T.length = A * w := ⟨T.length / w, by
    have := Nat.div_add_mod T.length w
    rw [hm, Nat.add_zero, Nat.mul_comm] at this
    exact this.symm⟩
  obtain ⟨B, hB⟩ : ∃ B, (headRows w hs).length = B * w := ⟨(headRows w hs).length / w, by
    have := Nat.div_add_mod (headRows w hs).length w
    rw [headRows_mod hw, Nat.add_zero, Nat.mul_comm] at this
    exact this.symm⟩
  have hAd : T.length / w = A := by rw [hA, Nat.mul_div_cancel _ hw]
  have hBd : (headRows w hs).length / w = B := by rw [hB, Nat.mul_div_cancel _ hw]
  have her : editorRow w hs s = R + A + B := by
    unfold editorRow
    rw [e1, hAd, hBd]
  rw [hAd] at e1 e4
  rw [her] at hf
  have hlow : ∀ {a b j : Nat}, j < w → a < b → a * w + j < b * w := by
    intro a b j hj hab
    have : (a + 1) * w ≤ b * w := Nat.mul_le_mul_right w hab
    rw [Nat.add_mul, Nat.one_mul] at this
    omega
  have hshow : s'.Shows w R (T ++ (headRows w hs ++ fit ((n / w + 1) * w) (rowsOf w (shown p ls)))) := by
    intro i j hj
    by_cases hiA : i < A
    · rw [ht.before (R + i) j (Or.inl (by rw [e4]; omega)), h1 i j hj]
      have := hlow hj hiA
      simp only [List.getD_eq_getElem?_getD]
      rw [List.getElem?_append_left (by omega)]
    · obtain ⟨i, rfl⟩ : ∃ k, i = A + k := ⟨i - A, by omega⟩
      have hx : (A + i) * w + j - T.length = i * w + j := by rw [Nat.add_mul, hA]; omega
      rw [List.getD_eq_getElem?_getD, List.getElem?_append_right (by rw [Nat.add_mul, hA]; omega), hx]
      by_cases hiB : i < B
      · have := hlow hj hiB
        have h5 := ht.heads i j hj (by omega)
        rw [e1] at h5
        rw [← Nat.add_assoc, h5, List.getElem?_append_left (by omega), List.getD_eq_getElem?_getD]
      · obtain ⟨i, rfl⟩ : ∃ k, i = B + k := ⟨i - B, by omega⟩
        have hx : (B + i) * w + j - (headRows w hs).length = i * w + j := by rw [Nat.add_mul, hB]; omega
        rw [List.getElem?_append_right (by rw [Nat.add_mul, hB]; omega), hx, ← List.getD_eq_getElem?_getD]
        by_cases hn : i < n / w + 1
        · rw [fit_getD (hlow hj hn), ← hf.shows i j hj]
          congr 1
          omega
        · rw [hf.below _ j (by rw [hf.row]; omega) hj]
          have : (n / w + 1) * w ≤ i * w := Nat.mul_le_mul_right w (by omega)
          rw [List.getD_eq_getElem?_getD, List.getElem?_eq_none (by rw [fit_length]; omega)]
          rfl
  refine ⟨⟨hshow, hf.wrap, ?_, ?_⟩, fun i j hi => ht.before i j (Or.inl (by rw [e4]; omega)), fun c hc => ?_⟩
  · rw [List.length_append, List.length_append, fit_length, hA, hB, hf.row, ← Nat.add_mul, ← Nat.add_mul, Nat.mul_div_cancel _ hw]
    omega
  · rw [List.length_append, List.length_append, fit_length, hA, hB, hf.col, ← Nat.add_mul, ← Nat.add_mul, Nat.mul_mod_left]
  · obtain ⟨k, hk, rfl⟩ := List.mem_iff_getElem.mp hc
    rw [List.getElem_drop]
    have h5 := hf.shows (n / w + 1 + k / w) (k % w) (Nat.mod_lt _ hw)
    have h6 : (n / w + 1 + k / w) * w + k % w = (n / w + 1) * w + k := by
      have := Nat.div_add_mod k w
      rw [Nat.mul_comm] at this
      rw [Nat.add_mul]
      omega
    have h7 : s'.row ≤ R + A + B + (n / w + 1 + k / w) := by rw [hf.row]; have := Nat.zero_le (k / w); omega
    rw [hf.below _ _ h7 (Nat.mod_lt _ hw), h6, List.getD_eq_getElem?_getD,
      List.getElem?_eq_getElem (by rw [List.length_drop] at hk; omega)] at h5
    exact h5.symm

theorem printed_write [Glyphs] (as : List Text) (hp : ∀ a ∈ as, Plain a) : s.flow w (printed as) = s.write w (headText (as.map onScreen)) := by
  induction as generalizing s with
  | nil => rfl
  | cons a as ih =>
    have h1 : headText ((a :: as).map onScreen) = (onScreen a ++ ['\r', '\n']) ++ headText (as.map onScreen) := by simp [headText]
    show (s.flow1 w (.text (a ++ ['\r', '\n']))).flow w (printed as) = _
    rw [ih (fun b hb => hp b (by simp [hb])), h1, write_append]
    congr 1
    show s.write w (onScreen (removeCodes (a ++ ['\r', '\n']))) = _
    rw [removeCodes_plain, onScreen_append, onScreen_crlf]
    intro h
    rcases List.mem_append.mp h with h | h
    · exact (hp a (by simp)).esc h
    · exact absurd h (by decide)

end
end Liner.Props
