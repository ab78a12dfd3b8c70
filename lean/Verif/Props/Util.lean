import Verif.Model.Util
/-
Properties C13 (longest common prefix) and C14 (prompt measurement), src/util.rs.
-/

namespace Liner.Props
open Liner

/-! ### C13 -/

theorem shortestWord_spec (best : Text) (ws : List Text) :
    shortestWord best ws ∈ best :: ws ∧ ∀ w ∈ best :: ws, (shortestWord best ws).length ≤ w.length := by
  induction ws generalizing best with
  | nil => simp [shortestWord]
  | cons w ws ih =>
    unfold shortestWord
    split
    · rename_i h
      obtain ⟨h1, h2⟩ := ih w
      refine ⟨List.mem_cons_of_mem _ h1, ?_⟩
      intro x hx
      rcases List.mem_cons.mp hx with rfl | hx
      · have := h2 w (by simp); omega
      · exact h2 x hx
    · rename_i h
      obtain ⟨h1, h2⟩ := ih best
      constructor
      · rcases List.mem_cons.mp h1 with h1 | h1
        · rw [h1]; simp
        · simp [h1]
      · intro x hx
        rcases List.mem_cons.mp hx with rfl | hx
        · exact h2 x (by simp)
        · rcases List.mem_cons.mp hx with rfl | hx
          · have := h2 best (by simp); omega
          · exact h2 x (by simp [hx])

theorem lcpLoop_spec (among : List Text) (shortest : Text) (hs : shortest ∈ among) (n : Nat) :
    match lcpLoop among shortest n with
    | some p => p <+: shortest ∧ p.length ≤ n ∧ (p ≠ [] ∨ shortest = []) ∧ (∀ w ∈ among, p <+: w) ∧
        ∀ q, q.length ≤ n → (∀ w ∈ among, q <+: w) → q <+: p
    | none => ∀ q, q.length ≤ n → (∀ w ∈ among, q <+: w) → q = [] := by
  induction n with
  | zero =>
    simp only [lcpLoop]
    intro q hq _
    simpa using hq
  | succ n ih =>
    simp only [lcpLoop]
    split
    · rename_i p heq
      split at heq
      · rename_i hall
        cases heq
        simp only [List.all_eq_true, List.isPrefixOf_iff_prefix] at hall
        refine ⟨List.take_prefix _ _, by simp; omega, ?_, hall, ?_⟩
        · cases shortest with
          | nil => exact .inr rfl
          | cons c cs => left; simp
        · intro q hq hqa
          have := hqa shortest hs
          exact List.prefix_take_iff.mpr ⟨this, hq⟩
      · rename_i hall
        rw [heq] at ih
        obtain ⟨h1, h2, h3, h4, h5⟩ := ih
        refine ⟨h1, by omega, h3, h4, ?_⟩
        intro q hq hqa
        by_cases hqn : q.length ≤ n
        · exact h5 q hqn hqa
        · exfalso
          apply hall
          simp only [List.all_eq_true, List.isPrefixOf_iff_prefix]
          have hq1 : q.length = n + 1 := by omega
          have : q = shortest.take (n + 1) := by
            have := List.prefix_iff_eq_take.mp (hqa shortest hs)
            rwa [hq1] at this
          rw [← this]; exact hqa
    · rename_i heq
      split at heq
      · cases heq
      · rename_i hall
        rw [heq] at ih
        intro q hq hqa
        by_cases hqn : q.length ≤ n
        · exact ih q hqn hqa
        · exfalso
          apply hall
          simp only [List.all_eq_true, List.isPrefixOf_iff_prefix]
          have hq1 : q.length = n + 1 := by omega
          have : q = shortest.take (n + 1) := by
            have := List.prefix_iff_eq_take.mp (hqa shortest hs)
            rwa [hq1] at this
          rw [← this]; exact hqa

theorem C13_lcp_none_and_one (w : Text) :
    findLongestCommonPrefix [] = none ∧ findLongestCommonPrefix [w] = some w := ⟨rfl, rfl⟩

/-- C13: for two or more words the answer is the greatest common prefix, when it is not empty. -/
theorem C13_lcp (among : List Text) (h2 : 2 ≤ among.length) (p : Text) :
    findLongestCommonPrefix among = some p ↔
      p ≠ [] ∧ (∀ w ∈ among, p <+: w) ∧ ∀ q, (∀ w ∈ among, q <+: w) → q <+: p := by
  match among, h2 with
  | w :: v :: ws, _ =>
    unfold findLongestCommonPrefix
    simp only []
    split
    · rename_i hany
      simp only [List.any_eq_true, List.isEmpty_iff] at hany
      obtain ⟨x, hx, rfl⟩ := hany
      constructor
      · intro h; cases h
      · rintro ⟨h1, h2, _⟩
        exact absurd (List.prefix_nil.mp (h2 [] hx)) h1
    · rename_i hany
      have hs := shortestWord_spec w (v :: ws)
      have := lcpLoop_spec (w :: v :: ws) (shortestWord w (v :: ws)) hs.1
        (shortestWord w (v :: ws)).length
      have hle : ∀ q : Text, (∀ x ∈ w :: v :: ws, q <+: x) →
          q.length ≤ (shortestWord w (v :: ws)).length := fun q hq => (hq _ hs.1).length_le
      have hne : shortestWord w (v :: ws) ≠ [] := by
        intro h0
        apply hany
        simp only [List.any_eq_true, List.isEmpty_iff]
        exact ⟨[], h0 ▸ hs.1, rfl⟩
      cases hl : lcpLoop (w :: v :: ws) (shortestWord w (v :: ws))
          (shortestWord w (v :: ws)).length with
      | none =>
        rw [hl] at this
        constructor
        · intro h; cases h
        · rintro ⟨h1, h2, _⟩
          exact absurd (this p (hle p h2) h2) h1
      | some r =>
        rw [hl] at this
        obtain ⟨h1, h2, h3, h4, h5⟩ := this
        have hr : r ≠ [] := h3.resolve_right hne
        constructor
        · intro h; cases h
          exact ⟨hr, h4, fun q hq => h5 q (hle q hq) hq⟩
        · rintro ⟨_, h2', h3'⟩
          have e1 := h5 p (hle p h2') h2'
          have e2 := h3' r h4
          rw [e2.eq_of_length (Nat.le_antisymm e2.length_le e1.length_le)]

/-- C13: the answer is `None` exactly when only the empty text is a common prefix. -/
theorem C13_lcp_none (among : List Text) (h2 : 2 ≤ among.length) :
    findLongestCommonPrefix among = none ↔ ∀ q, (∀ w ∈ among, q <+: w) → q = [] := by
  match among, h2 with
  | w :: v :: ws, _ =>
    unfold findLongestCommonPrefix
    simp only []
    split
    · rename_i hany
      simp only [List.any_eq_true, List.isEmpty_iff] at hany
      obtain ⟨x, hx, rfl⟩ := hany
      simp only [true_iff]
      intro q hq
      exact List.prefix_nil.mp (hq [] hx)
    · rename_i hany
      have hs := shortestWord_spec w (v :: ws)
      have := lcpLoop_spec (w :: v :: ws) (shortestWord w (v :: ws)) hs.1
        (shortestWord w (v :: ws)).length
      have hle : ∀ q : Text, (∀ x ∈ w :: v :: ws, q <+: x) →
          q.length ≤ (shortestWord w (v :: ws)).length := fun q hq => (hq _ hs.1).length_le
      have hne : shortestWord w (v :: ws) ≠ [] := by
        intro h0
        apply hany
        simp only [List.any_eq_true, List.isEmpty_iff]
        exact ⟨[], h0 ▸ hs.1, rfl⟩
      cases hl : lcpLoop (w :: v :: ws) (shortestWord w (v :: ws))
          (shortestWord w (v :: ws)).length with
      | none =>
        rw [hl] at this
        simp only [true_iff]
        intro q hq
        exact this q (hle q hq) hq
      | some r =>
        rw [hl] at this
        obtain ⟨h1, h2, h3, h4, h5⟩ := this
        constructor
        · intro h; cases h
        · intro h
          exact absurd (h r h4) (h3.resolve_right hne)

example : findLongestCommonPrefix ["foobar".toList, "foo".toList, "fob".toList] = some "fo".toList := by
  decide

/-! ### C14 -/

/-- What stripping escape sequences means: `Strip input output`. -/
inductive Strip : Text → Text → Prop where
  | nil : Strip [] []
  | keep (c : Char) (rest out : Text) : c ≠ escChar → Strip rest out → Strip (c :: rest) (c :: out)
  /-- ESC `[` parameters letter -/
  | csi (body rest out : Text) (c : Char) : (∀ x ∈ body, isAsciiAlphabetic x = false) →
      isAsciiAlphabetic c = true → Strip rest out → Strip (escChar :: '[' :: (body ++ c :: rest)) out
  /-- ESC `]` text BEL -/
  | osc (body rest out : Text) : bel ∉ body → Strip rest out →
      Strip (escChar :: ']' :: (body ++ bel :: rest)) out
  /-- ESC and one other character -/
  | two (c : Char) (rest out : Text) : c ≠ '[' → c ≠ ']' → Strip rest out →
      Strip (escChar :: c :: rest) out
  /-- sequences cut off by the end of the text -/
  | cutEsc : Strip [escChar] []
  | cutCsi (body : Text) : (∀ x ∈ body, isAsciiAlphabetic x = false) → Strip (escChar :: '[' :: body) []
  | cutOsc (body : Text) : bel ∉ body → Strip (escChar :: ']' :: body) []

theorem removeCodesGo_csi (body rest : Text) (h : ∀ x ∈ body, isAsciiAlphabetic x = false) :
    removeCodesGo .csi (body ++ rest) = removeCodesGo .csi rest := by
  induction body with
  | nil => rfl
  | cons c cs ih =>
    simp [removeCodesGo, h c (by simp)]
    exact ih (fun x hx => h x (by simp [hx]))

theorem removeCodesGo_osc (body rest : Text) (h : bel ∉ body) :
    removeCodesGo .osc (body ++ rest) = removeCodesGo .osc rest := by
  induction body with
  | nil => rfl
  | cons c cs ih =>
    simp only [List.mem_cons, not_or] at h
    simp [removeCodesGo, Ne.symm h.1]
    exact ih h.2

theorem removeCodesGo_of_strip {i o : Text} (h : Strip i o) : removeCodesGo .norm i = o := by
  induction h with
  | nil => rfl
  | keep c rest out hc _ ih => simp [removeCodesGo, hc, ih]
  | csi body rest out c hb hc _ ih =>
    simp [removeCodesGo, removeCodesGo_csi _ _ hb, hc, ih]
  | osc body rest out hb _ ih =>
    have : (']' : Char) ≠ '[' := by decide
    simp [removeCodesGo, removeCodesGo_osc _ _ hb, ih]
  | two c rest out h1 h2 _ ih => simp [removeCodesGo, h1, h2, ih]
  | cutEsc => simp [removeCodesGo]
  | cutCsi body hb =>
    have := removeCodesGo_csi body [] hb
    simp [removeCodesGo] at *
    exact this
  | cutOsc body hb =>
    have := removeCodesGo_osc body [] hb
    simp [removeCodesGo] at *
    exact this

theorem csi_split (t : Text) : (∀ x ∈ t, isAsciiAlphabetic x = false) ∨
    ∃ body c rest, t = body ++ c :: rest ∧ (∀ x ∈ body, isAsciiAlphabetic x = false) ∧
      isAsciiAlphabetic c = true := by
  induction t with
  | nil => left; simp
  | cons a t ih =>
    by_cases ha : isAsciiAlphabetic a = true
    · right; exact ⟨[], a, t, rfl, by simp, ha⟩
    · rcases ih with h | ⟨body, c, rest, he, hb, hc⟩
      · left
        intro x hx
        rcases List.mem_cons.mp hx with rfl | hx
        · simpa using ha
        · exact h x hx
      · right
        refine ⟨a :: body, c, rest, by simp [he], ?_, hc⟩
        intro x hx
        rcases List.mem_cons.mp hx with rfl | hx
        · simpa using ha
        · exact hb x hx

theorem strip_total : ∀ (n : Nat) (i : Text), i.length ≤ n → ∃ o, Strip i o := by
  intro n
  induction n with
  | zero => intro i hi; have : i = [] := by simpa using hi
            subst this; exact ⟨[], .nil⟩
  | succ n ih =>
    intro i hi
    match i, hi with
    | [], _ => exact ⟨[], .nil⟩
    | c :: rest, hi =>
      by_cases hc : c = escChar
      · subst hc
        match rest, hi with
        | [], _ => exact ⟨[], .cutEsc⟩
        | a :: t, hi =>
          simp at hi
          by_cases h1 : a = '['
          · subst h1
            rcases csi_split t with h | ⟨body, c, rest, he, hb, hc⟩
            · exact ⟨[], .cutCsi t h⟩
            · subst he
              obtain ⟨o, ho⟩ := ih rest (by simp at hi; omega)
              exact ⟨o, .csi body rest o c hb hc ho⟩
          · by_cases h2 : a = ']'
            · subst h2
              by_cases hb : bel ∈ t
              · obtain ⟨body, rest, he, hn⟩ := List.eq_append_cons_of_mem hb
                subst he
                obtain ⟨o, ho⟩ := ih rest (by simp at hi; omega)
                exact ⟨o, .osc body rest o hn ho⟩
              · exact ⟨[], .cutOsc t hb⟩
            · obtain ⟨o, ho⟩ := ih t (by omega)
              exact ⟨o, .two a t o h1 h2 ho⟩
      · obtain ⟨o, ho⟩ := ih rest (by simpa using hi)
        exact ⟨_, .keep c rest o hc ho⟩

theorem strip_no_esc {t : Text} (h : escChar ∉ t) : Strip t t := by
  induction t with
  | nil => exact .nil
  | cons c cs ih =>
    simp only [List.mem_cons, not_or] at h
    exact .keep c cs cs (Ne.symm h.1) (ih h.2)

/-- C14: `remove_codes` deletes exactly the escape sequences and keeps everything else in order. -/
theorem C14_remove_codes (input out : Text) : removeCodes input = out ↔ Strip input out := by
  have key : Strip input (removeCodes input) := by
    unfold removeCodes
    split
    · obtain ⟨o, ho⟩ := strip_total _ input (Nat.le_refl _)
      rw [removeCodesGo_of_strip ho]; exact ho
    · rename_i h
      exact strip_no_esc (by simpa using h)
  constructor
  · rintro rfl; exact key
  · intro h
    rw [← removeCodesGo_of_strip h, removeCodesGo_of_strip key]

theorem C14_remove_codes_plain (input : Text) (h : escChar ∉ input) : removeCodes input = input :=
  (C14_remove_codes input input).mpr (strip_no_esc h)

theorem C14_remove_codes_no_esc (input : Text) : escChar ∉ removeCodes input := by
  have h := (C14_remove_codes input _).mp rfl
  generalize removeCodes input = o at h
  induction h with
  | nil => simp
  | keep c rest out hc _ ih => simp only [List.mem_cons, not_or]; exact ⟨Ne.symm hc, ih⟩
  | csi _ _ _ _ _ _ _ ih => exact ih
  | osc _ _ _ _ _ ih => exact ih
  | two _ _ _ _ _ _ ih => exact ih
  | cutEsc => simp
  | cutCsi => simp
  | cutOsc => simp

theorem C14_remove_codes_idempotent (input : Text) :
    removeCodes (removeCodes input) = removeCodes input :=
  C14_remove_codes_plain _ (C14_remove_codes_no_esc input)

theorem C14_remove_codes_sublist (input : Text) : (removeCodes input).Sublist input := by
  have h := (C14_remove_codes input _).mp rfl
  generalize removeCodes input = o at h
  induction h with
  | nil => simp
  | keep c rest out hc _ ih => exact ih.cons_cons c
  | csi body rest out c _ _ _ ih =>
    exact .cons _ (.cons _ ((ih.cons c).trans (List.sublist_append_right body (c :: rest))))
  | osc body rest out _ _ ih =>
    exact .cons _ (.cons _ ((ih.cons bel).trans (List.sublist_append_right body (bel :: rest))))
  | two _ _ _ _ _ _ ih => exact .cons _ (.cons _ ih)
  | cutEsc => simp
  | cutCsi => simp
  | cutOsc => simp

theorem rfindChar_append (p : Char) (pre post : Text) (h : p ∉ post) :
    rfindChar p (pre ++ p :: post) = some pre.length := by
  have hpost : rfindChar p post = none := by
    clear pre
    induction post with
    | nil => rfl
    | cons c cs ih =>
      simp only [List.mem_cons, not_or] at h
      simp [rfindChar, ih h.2, Ne.symm h.1]
  induction pre with
  | nil => simp [rfindChar, hpost]
  | cons c cs ih => simp [rfindChar, ih]

theorem rfindChar_none (p : Char) (t : Text) (h : p ∉ t) : rfindChar p t = none := by
  induction t with
  | nil => rfl
  | cons c cs ih =>
    simp only [List.mem_cons, not_or] at h
    simp [rfindChar, ih h.2, Ne.symm h.1]

/-- C14: `handle_prompt` returns the part after the last newline (everything if there is none). -/
theorem C14_handle_prompt (pre post : Text) (h : '\n' ∉ post) :
    handlePrompt (pre ++ '\n' :: post) = post ∧ handlePrompt post = post := by
  constructor
  · simp [handlePrompt, rfindChar_append _ _ _ h]
  · simp [handlePrompt, rfindChar_none _ _ h]

/-- C14: the prompt is measured as the width of its last line without escape sequences. -/
theorem C14_last_prompt_line_width (sw : Text → Nat) (pre post out : Text) (h : '\n' ∉ post)
    (hs : Strip post out) :
    lastPromptLineWidth sw (pre ++ '\n' :: post) = sw out ∧ lastPromptLineWidth sw post = sw out := by
  simp [lastPromptLineWidth, (C14_handle_prompt pre post h).1, (C14_handle_prompt pre post h).2,
    (C14_remove_codes post out).mpr hs]

example : removeCodes (escChar :: "[1;32mhi".toList ++ escChar :: "]0;title".toList ++ bel :: "$ ".toList)
    = "hi$ ".toList := by decide
example : Strip (escChar :: '[' :: ("1".toList ++ 'm' :: "a".toList)) "a".toList :=
  .csi _ _ _ _ (by decide) (by decide) (.keep _ _ _ (by decide) .nil)

end Liner.Props
