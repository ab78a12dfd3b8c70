import Verif.Spec.Words
/-
Properties C11 (word division) and C12 (cursor classification).
-/

namespace Liner.Props
open Liner Liner.Spec

/-- Words found from position `lo` on. -/
inductive Good (d : Text) : Nat → List (Nat × Nat) → Prop where
  | nil (lo : Nat) : (∀ k c, lo ≤ k → d[k]? = some c → c = ' ' ∨ c = '\\') → Good d lo []
  | cons (lo s e : Nat) (rest : List (Nat × Nat)) : lo ≤ s →
      (∀ k c, lo ≤ k → k < s → d[k]? = some c → c = ' ' ∨ c = '\\') →
      IsWord d s e → Good d e rest → Good d lo ((s, e) :: rest)

theorem escaped_iff (pre cs : Text) :
    Escaped (pre ++ cs) pre.length ↔ pre.getLast? = some '\\' := by
  constructor
  · rintro ⟨k, hk, he⟩
    have hlt : k < pre.length := by omega
    rw [List.getElem?_append_left hlt] at he
    rw [List.getLast?_eq_getElem?]
    simpa [hk] using he
  · intro h
    rw [List.getLast?_eq_getElem?] at h
    have hne : pre.length ≠ 0 := by
      intro h0
      have : pre = [] := by simpa using h0
      subst this; simp at h
    refine ⟨pre.length - 1, by omega, ?_⟩
    rw [List.getElem?_append_left (by omega)]
    exact h

theorem wordsGo_good (cs : Text) :
    (∀ (pre : Text) (lo : Nat) (jhb : Bool), lo ≤ pre.length →
      (∀ k c, lo ≤ k → k < pre.length → (pre ++ cs)[k]? = some c → c = ' ' ∨ c = '\\') →
      Good (pre ++ cs) lo (wordsGo cs pre.length none jhb)) ∧
    (∀ (pre : Text) (start : Nat) (jhb : Bool), start < pre.length →
      (∃ c, (pre ++ cs)[start]? = some c ∧ c ≠ ' ' ∧ c ≠ '\\') →
      (∀ i, start ≤ i → i < pre.length → (pre ++ cs)[i]? = some ' ' → Escaped (pre ++ cs) i) →
      (jhb = true ↔ pre.getLast? = some '\\') →
      ∃ e rest, wordsGo cs pre.length (some start) jhb = (start, e) :: rest ∧
        IsWord (pre ++ cs) start e ∧ Good (pre ++ cs) e rest) := by
  induction cs with
  | nil =>
    constructor
    · intro pre lo jhb hlo hsep
      refine .nil lo ?_
      intro k c hk hc
      have hlt : k < pre.length := by
        have := (List.getElem?_eq_some_iff.mp hc).1
        simpa using this
      exact hsep k c hk hlt hc
    · intro pre start jhb hs hf hsp _
      refine ⟨pre.length, [], rfl, ⟨hs, by simp, hf, hsp, .inl (by simp)⟩, .nil _ ?_⟩
      intro k c hk hc
      have := (List.getElem?_eq_some_iff.mp hc).1
      simp at this; omega
  | cons c cs ih =>
    have hcons : ∀ pre : Text, pre ++ c :: cs = (pre ++ [c]) ++ cs := by simp
    have hlen : ∀ pre : Text, (pre ++ [c]).length = pre.length + 1 := by simp
    have hget : ∀ pre : Text, (pre ++ c :: cs)[pre.length]? = some c := by simp
    constructor
    · intro pre lo jhb hlo hsep
      have hsep' : (c = ' ' ∨ c = '\\') →
          ∀ k x, lo ≤ k → k < (pre ++ [c]).length → ((pre ++ [c]) ++ cs)[k]? = some x →
            x = ' ' ∨ x = '\\' := by
        intro hc k x hk hk2 hx
        rw [← hcons] at hx
        by_cases hkl : k < pre.length
        · exact hsep k x hk hkl hx
        · have : k = pre.length := by rw [hlen] at hk2; omega
          subst this
          rw [hget] at hx; cases hx; exact hc
      unfold wordsGo
      by_cases hb : c = '\\'
      · rw [if_pos hb]
        have := ih.1 (pre ++ [c]) lo true (by rw [hlen]; omega) (hsep' (.inr hb))
        rwa [hlen, ← hcons] at this
      · rw [if_neg hb]
        by_cases hsp : c = ' '
        · simp only [ne_eq, hsp, not_true_eq_false, if_false]
          have := ih.1 (pre ++ [c]) lo false (by rw [hlen]; omega) (hsep' (.inl hsp))
          rw [hlen, ← hcons] at this
          simpa [hsp] using this
        · simp only [ne_eq, hsp, not_false_eq_true, if_true]
          obtain ⟨e, rest, h1, h2, h3⟩ := ih.2 (pre ++ [c]) pre.length false (by rw [hlen]; omega)
            ⟨c, by rw [← hcons]; exact hget pre, hsp, hb⟩
            (by
              intro i hi hi2 hx
              have : i = pre.length := by rw [hlen] at hi2; omega
              subst this
              rw [← hcons, hget] at hx
              exact absurd (Option.some.inj hx) hsp)
            (by simp [hb])
          rw [hlen] at h1
          rw [h1]
          rw [← hcons] at h2 h3
          exact .cons lo _ e rest hlo hsep h2 h3
    · intro pre start jhb hs hf hspc hj
      have hf' : ∃ x, ((pre ++ [c]) ++ cs)[start]? = some x ∧ x ≠ ' ' ∧ x ≠ '\\' := by
        rw [← hcons]; exact hf
      have hspc' : (c = ' ' → jhb = true) → ∀ i, start ≤ i → i < (pre ++ [c]).length →
          ((pre ++ [c]) ++ cs)[i]? = some ' ' → Escaped ((pre ++ [c]) ++ cs) i := by
        intro hc i hi hi2 hx
        rw [← hcons] at hx ⊢
        by_cases hil : i < pre.length
        · exact hspc i hi hil hx
        · have : i = pre.length := by rw [hlen] at hi2; omega
          subst this
          rw [hget] at hx
          rw [escaped_iff]
          exact hj.mp (hc (Option.some.inj hx))
      unfold wordsGo
      by_cases hb : c = '\\'
      · rw [if_pos hb]
        have hne : c ≠ ' ' := by rw [hb]; decide
        have := ih.2 (pre ++ [c]) start true (by rw [hlen]; omega) hf'
          (hspc' (fun h => absurd h hne)) (by simp [hb])
        rwa [hlen, ← hcons] at this
      · rw [if_neg hb]
        by_cases hsp : c = ' ' ∧ ¬ jhb = true
        · simp only []
          rw [if_pos hsp]
          have hesc : ¬ Escaped (pre ++ c :: cs) pre.length := by
            rw [escaped_iff, ← hj]; exact hsp.2
          refine ⟨pre.length, _, rfl, ⟨hs, by simp, hf, hspc, .inr ⟨?_, hesc⟩⟩, ?_⟩
          · rw [hget, hsp.1]
          · have := ih.1 (pre ++ [c]) pre.length false (by rw [hlen]; omega) (by
              intro k x hk hk2 hx
              have : k = pre.length := by rw [hlen] at hk2; omega
              subst this
              rw [← hcons, hget] at hx; cases hx; exact .inl hsp.1)
            rwa [hlen, ← hcons] at this
        · simp only []
          rw [if_neg hsp]
          have := ih.2 (pre ++ [c]) start false (by rw [hlen]; omega) hf'
            (hspc' (fun h => by
              by_cases hjb : jhb = true
              · exact hjb
              · exact absurd ⟨h, hjb⟩ hsp)) (by simp [hb])
          rwa [hlen, ← hcons] at this

theorem Good.lower {d : Text} {lo : Nat} {ws : List (Nat × Nat)} (h : Good d lo ws) :
    ∀ w ∈ ws, lo ≤ w.1 := by
  induction h with
  | nil => simp
  | cons lo s e rest hlo _ hw _ ih =>
    intro w hm
    rcases List.mem_cons.mp hm with rfl | hm
    · exact hlo
    · have := ih w hm
      have := hw.nonempty
      omega

theorem Good.words {d : Text} {lo : Nat} {ws : List (Nat × Nat)} (h : Good d lo ws) :
    ∀ w ∈ ws, IsWord d w.1 w.2 := by
  induction h with
  | nil => simp
  | cons lo s e rest _ _ hw _ ih =>
    intro w hm
    rcases List.mem_cons.mp hm with rfl | hm
    · exact hw
    · exact ih w hm

theorem Good.ordered {d : Text} {lo : Nat} {ws : List (Nat × Nat)} (h : Good d lo ws) :
    ws.Pairwise fun a b => a.2 < b.1 := by
  induction h with
  | nil => exact .nil
  | cons lo s e rest _ _ hw hg ih =>
    refine List.pairwise_cons.mpr ⟨?_, ih⟩
    intro w hm
    have h1 := hg.lower w hm
    have h2 := hg.words w hm
    rcases Nat.lt_or_eq_of_le h1 with h | h
    · exact h
    · exfalso
      obtain ⟨c, hc, hne, _⟩ := h2.first
      rcases hw.stop with h3 | ⟨h3, _⟩
      · have := (List.getElem?_eq_some_iff.mp hc).1
        omega
      · rw [← h, h3] at hc
        exact hne (Option.some.inj hc).symm

theorem Good.outside {d : Text} {lo : Nat} {ws : List (Nat × Nat)} (h : Good d lo ws) :
    ∀ i c, lo ≤ i → d[i]? = some c → (∀ w ∈ ws, ¬ (w.1 ≤ i ∧ i < w.2)) → c = ' ' ∨ c = '\\' := by
  induction h with
  | nil lo h => intro i c hi hc _; exact h i c hi hc
  | cons lo s e rest _ hsep hw _ ih =>
    intro i c hi hc hout
    by_cases his : i < s
    · exact hsep i c hi his hc
    · have := hout (s, e) (by simp)
      simp only [not_and, Nat.not_lt] at this
      exact ih i c (by omega) hc (fun w hm => hout w (by simp [hm]))

/-- C11: the default word divider computes the division of the text into words. -/
theorem C11_words (b : Buffer) : IsDivision b.data (getBufferWords b) := by
  have h := (wordsGo_good b.data).1 [] 0 false (by simp) (by simp)
  simp only [List.nil_append, List.length_nil] at h
  exact ⟨h.words, h.ordered, fun i c hc => h.outside i c (Nat.zero_le i) hc⟩

theorem escaped_lt_of_eq {d : Text} {s e e' : Nat} (h : IsWord d s e) (h' : IsWord d s e')
    (hlt : e < e') : False := by
  rcases h.stop with h1 | ⟨h1, h2⟩
  · have := h'.inside; omega
  · exact h2 (h'.spaces e (Nat.le_of_lt h.nonempty) hlt h1)

/-- Two words that start at the same place end at the same place. -/
theorem isWord_unique {d : Text} {s e e' : Nat} (h : IsWord d s e) (h' : IsWord d s e') : e = e' := by
  rcases Nat.lt_trichotomy e e' with hlt | heq | hlt
  · exact (escaped_lt_of_eq h h' hlt).elim
  · exact heq
  · exact (escaped_lt_of_eq h' h hlt).elim

theorem division_unique_aux (d : Text) : ∀ (ws ws' : List (Nat × Nat)) (lo : Nat),
    (∀ w ∈ ws, IsWord d w.1 w.2 ∧ lo ≤ w.1) → (∀ w ∈ ws', IsWord d w.1 w.2 ∧ lo ≤ w.1) →
    ws.Pairwise (fun a b => a.2 < b.1) → ws'.Pairwise (fun a b => a.2 < b.1) →
    (∀ i c, lo ≤ i → d[i]? = some c → (∀ w ∈ ws, ¬ (w.1 ≤ i ∧ i < w.2)) → c = ' ' ∨ c = '\\') →
    (∀ i c, lo ≤ i → d[i]? = some c → (∀ w ∈ ws', ¬ (w.1 ≤ i ∧ i < w.2)) → c = ' ' ∨ c = '\\') →
    ws = ws' := by
  have first_in : ∀ (ws : List (Nat × Nat)) (lo s e : Nat), IsWord d s e → lo ≤ s →
      (∀ i c, lo ≤ i → d[i]? = some c → (∀ w ∈ ws, ¬ (w.1 ≤ i ∧ i < w.2)) → c = ' ' ∨ c = '\\') →
      ∃ w ∈ ws, w.1 ≤ s ∧ s < w.2 := by
    intro ws lo s e hw hlo hout
    by_cases hex : ∃ w ∈ ws, w.1 ≤ s ∧ s < w.2
    · exact hex
    · exfalso
      obtain ⟨c, hc, h1, h2⟩ := hw.first
      rcases hout s c hlo hc (fun w hm hh => hex ⟨w, hm, hh⟩) with h | h
      · exact h1 h
      · exact h2 h
  intro ws
  induction ws with
  | nil =>
    intro ws' lo _ hw' _ _ hout _
    cases ws' with
    | nil => rfl
    | cons w ws' =>
      obtain ⟨h1, h2⟩ := hw' w (by simp)
      obtain ⟨x, hx, _⟩ := first_in [] lo w.1 w.2 h1 h2 hout
      cases hx
  | cons w ws ih =>
    intro ws' lo hw hw' hp hp' hout hout'
    obtain ⟨h1, h2⟩ := hw w (by simp)
    obtain ⟨x, hx, hx1, hx2⟩ := first_in ws' lo w.1 w.2 h1 h2 hout'
    cases ws' with
    | nil => cases hx
    | cons w' ws' =>
      obtain ⟨h1', h2'⟩ := hw' w' (by simp)
      obtain ⟨y, hy, hy1, hy2⟩ := first_in (w :: ws) lo w'.1 w'.2 h1' h2' hout
      have hge : ∀ z ∈ w' :: ws', w'.1 ≤ z.1 := by
        intro z hz
        rcases List.mem_cons.mp hz with rfl | hz
        · exact Nat.le_refl _
        · have := (List.pairwise_cons.mp hp').1 z hz
          have := h1'.nonempty; omega
      have hge2 : ∀ z ∈ w :: ws, w.1 ≤ z.1 := by
        intro z hz
        rcases List.mem_cons.mp hz with rfl | hz
        · exact Nat.le_refl _
        · have := (List.pairwise_cons.mp hp).1 z hz
          have := h1.nonempty; omega
      have e1 : w.1 = w'.1 := by
        have := hge x hx; have := hge2 y hy; omega
      have e2 : w.2 = w'.2 := isWord_unique h1 (e1 ▸ h1')
      have e3 : w = w' := Prod.ext e1 e2
      subst e3
      congr 1
      have hlo : ∀ i, w.2 ≤ i → lo ≤ i := by
        intro i hi; have := h1.nonempty; omega
      refine ih ws' w.2 ?_ ?_ (List.pairwise_cons.mp hp).2 (List.pairwise_cons.mp hp').2 ?_ ?_
      · intro z hz
        exact ⟨(hw z (by simp [hz])).1, Nat.le_of_lt ((List.pairwise_cons.mp hp).1 z hz)⟩
      · intro z hz
        exact ⟨(hw' z (by simp [hz])).1, Nat.le_of_lt ((List.pairwise_cons.mp hp').1 z hz)⟩
      · intro i c hi hc hz
        refine hout i c (hlo i hi) hc ?_
        intro z hzm
        rcases List.mem_cons.mp hzm with rfl | hzm
        · omega
        · exact hz z hzm
      · intro i c hi hc hz
        refine hout' i c (hlo i hi) hc ?_
        intro z hzm
        rcases List.mem_cons.mp hzm with rfl | hzm
        · omega
        · exact hz z hzm

/-- C11: there is only one such division, so the specification pins the divider down. -/
theorem C11_words_unique (b : Buffer) (ws : List (Nat × Nat)) :
    IsDivision b.data ws ↔ ws = getBufferWords b := by
  constructor
  · intro h
    have h' := C11_words b
    exact division_unique_aux b.data ws (getBufferWords b) 0
      (fun w hw => ⟨h.words w hw, Nat.zero_le _⟩) (fun w hw => ⟨h'.words w hw, Nat.zero_le _⟩)
      h.ordered h'.ordered (fun i c _ => h.outside i c) (fun i c _ => h'.outside i c)
  · rintro rfl; exact C11_words b

example : getBufferWords (Buffer.ofText "  ab c\\ d \\e".toList) = [(2, 4), (5, 9), (11, 12)] := by
  decide

/-! ### C12 -/

theorem go_classifies (cursor : Nat) (pre ws : List (Nat × Nat)) (hne : pre ++ ws ≠ [])
    (hs : Separated (pre ++ ws)) (hpre : ∀ w ∈ pre, w.2 < cursor)
    (hfirst : pre = [] → ∀ w ∈ ws.head?, w.1 ≤ cursor) :
    Classifies cursor (pre ++ ws) (CursorPosition.go cursor ws pre.length) := by
  induction ws generalizing pre with
  | nil =>
    unfold CursorPosition.go
    have hpos : 0 < pre.length := by
      cases pre with
      | nil => simp at hne
      | cons => simp
    simp only [List.append_nil] at *
    refine ⟨?_, ?_, ?_⟩
    · intro i s e he
      exact .inl (hpre _ (List.mem_of_getElem? he))
    · have hlt : pre.length - 1 < pre.length := by omega
      refine ⟨(pre[pre.length - 1]).1, (pre[pre.length - 1]).2, List.getElem?_eq_getElem hlt, hpre _ (by simp), ?_⟩
      intro i s e hi he
      have := (List.getElem?_eq_some_iff.mp he).1
      omega
    · intro i s e he
      exact hpre _ (List.mem_of_getElem? he)
  | cons w ws ih =>
    obtain ⟨start, stop⟩ := w
    have hget : (pre ++ (start, stop) :: ws)[pre.length]? = some (start, stop) := by simp
    have hpw := hs.2
    rw [List.pairwise_append] at hpw
    have hlater : ∀ i s e : Nat, pre.length < i → (pre ++ (start, stop) :: ws)[i]? = some (s, e) →
        stop < s := by
      intro i s e hi he
      rw [List.getElem?_append_right (by omega)] at he
      obtain ⟨k, hk⟩ : ∃ k, i - pre.length = k + 1 := ⟨i - pre.length - 1, by omega⟩
      rw [hk, List.getElem?_cons_succ] at he
      exact (List.pairwise_cons.mp hpw.2.1).1 _ (List.mem_of_getElem? he)
    have hearlier : ∀ i s e : Nat, i < pre.length → (pre ++ (start, stop) :: ws)[i]? = some (s, e) →
        e < cursor := by
      intro i s e hi he
      rw [List.getElem?_append_left hi] at he
      exact hpre _ (List.mem_of_getElem? he)
    have hss : start < stop := hs.1 (start, stop) (by simp)
    unfold CursorPosition.go
    split
    · rename_i h; exact ⟨stop, by rw [hget, h]⟩
    · split
      · rename_i h; exact ⟨start, by rw [hget, h]⟩
      · split
        · rename_i h; exact ⟨start, stop, hget, h.1, h.2⟩
        · split
          · rename_i h
            have hpos : 0 < pre.length := by
              cases pre with
              | nil =>
                have := hfirst rfl (start, stop) (by simp)
                omega
              | cons => simp
            have htri : ∀ i s e : Nat, (pre ++ (start, stop) :: ws)[i]? = some (s, e) →
                (i < pre.length ∧ e < cursor) ∨ (pre.length ≤ i ∧ cursor < s) := by
              intro i s e he
              rcases Nat.lt_trichotomy i pre.length with hi | hi | hi
              · exact .inl ⟨hi, hearlier i s e hi he⟩
              · subst hi; rw [hget] at he; cases he; exact .inr ⟨Nat.le_refl _, h⟩
              · have := hlater i s e hi he
                exact .inr ⟨by omega, by omega⟩
            refine ⟨?_, ?_, ?_⟩
            · intro i s e he
              rcases htri i s e he with h | h
              · exact .inl h.2
              · exact .inr h.2
            · have hlt : pre.length - 1 < pre.length := by omega
              refine ⟨(pre[pre.length - 1]).1, (pre[pre.length - 1]).2, ?_, hpre _ (by simp), ?_⟩
              · rw [List.getElem?_append_left hlt]; exact List.getElem?_eq_getElem hlt
              · intro i s e hi he
                rcases htri i s e he with h | h
                · omega
                · exact h.2
            · exact ⟨start, stop, hget, h, hearlier⟩
          · have h5 : stop < cursor := by omega
            have := ih (pre ++ [(start, stop)]) (by simp) (by simpa using hs) (by
              intro w hw
              rcases List.mem_append.mp hw with hw | hw
              · exact hpre w hw
              · simp at hw; subst hw; exact h5) (by simp)
            simpa using this

/-- C12: the classification reported is true of the cursor. -/
theorem C12_classifies (cursor : Nat) (ws : List (Nat × Nat)) (hs : Separated ws) :
    Classifies cursor ws (CursorPosition.get cursor ws) := by
  unfold CursorPosition.get
  split
  · simp [Classifies]
  · rename_i left r rest
    split
    · rename_i h; exact ⟨r, by simp [h]⟩
    · split
      · rename_i h1 h2
        have hall : ∀ i s e : Nat, ((left, r) :: rest)[i]? = some (s, e) → cursor < s := by
          intro i s e he
          cases i with
          | zero => simp at he; omega
          | succ i =>
            rw [List.getElem?_cons_succ] at he
            have := (List.pairwise_cons.mp hs.2).1 _ (List.mem_of_getElem? he)
            have := hs.1 (left, r) (by simp)
            simp at *; omega
        exact ⟨fun i s e he => .inr (hall i s e he), hall, left, r, by simp, h2, by simp⟩
      · have := go_classifies cursor [] ((left, r) :: rest) (by simp) hs (by simp) (by
          intro _ w hw; simp at hw; subst hw; show left ≤ cursor; omega)
        simpa using this

theorem separated_lt {ws : List (Nat × Nat)} (hs : Separated ws) {i j s e s' e' : Nat}
    (hi : ws[i]? = some (s, e)) (hj : ws[j]? = some (s', e')) (hij : i < j) : e < s' := by
  have h1 := (List.getElem?_eq_some_iff.mp hi)
  have h2 := (List.getElem?_eq_some_iff.mp hj)
  obtain ⟨h1l, h1e⟩ := h1
  obtain ⟨h2l, h2e⟩ := h2
  have := (List.pairwise_iff_getElem.mp hs.2) i j h1l h2l hij
  rw [h1e, h2e] at this
  exact this

/-- C12: no other classification is true of the cursor, so each answer is given exactly when its
meaning holds. -/
theorem C12_classification_unique (cursor : Nat) (ws : List (Nat × Nat)) (hs : Separated ws)
    (p : CursorPosition) : Classifies cursor ws p ↔ CursorPosition.get cursor ws = p := by
  constructor
  · intro hp
    have hq := C12_classifies cursor ws hs
    generalize CursorPosition.get cursor ws = q at hq
    have hne : ∀ i s e : Nat, ws[i]? = some (s, e) → s < e := fun i s e h =>
      hs.1 _ (List.mem_of_getElem? h)
    -- two words touched by the cursor are the same word
    have touch : ∀ i j s e s' e' : Nat, ws[i]? = some (s, e) → ws[j]? = some (s', e') →
        s ≤ cursor → cursor ≤ e → s' ≤ cursor → cursor ≤ e' → i = j ∧ s = s' ∧ e = e' := by
      intro i j s e s' e' hi hj h1 h2 h3 h4
      rcases Nat.lt_trichotomy i j with h | h | h
      · have := separated_lt hs hi hj h; omega
      · subst h; rw [hi] at hj; cases hj; exact ⟨rfl, rfl, rfl⟩
      · have := separated_lt hs hj hi h; omega
    have space : ∀ (l r : Option Nat) (i s e : Nat), Classifies cursor ws (.inSpace l r) → ws[i]? = some (s, e) →
        s ≤ cursor → cursor ≤ e → False := by
      intro l r i s e h he h1 h2
      rcases h.1 i s e he with h | h <;> omega
    cases p with
    | inWord i =>
      obtain ⟨s, e, he, h1, h2⟩ := hp
      cases q with
      | inWord j =>
        obtain ⟨s', e', he', h1', h2'⟩ := hq
        rw [(touch i j s e s' e' he he' (by omega) (by omega) (by omega) (by omega)).1]
      | onWordLeftEdge j =>
        obtain ⟨e', he'⟩ := hq
        have := hne _ _ _ he'
        have := touch i j s e _ e' he he' (by omega) (by omega) (by omega) (by omega)
        omega
      | onWordRightEdge j =>
        obtain ⟨s', he'⟩ := hq
        have := hne _ _ _ he'
        have := touch i j s e s' _ he he' (by omega) (by omega) (by omega) (by omega)
        omega
      | inSpace l r => exact (space l r i s e hq he (by omega) (by omega)).elim
    | onWordLeftEdge i =>
      obtain ⟨e, he⟩ := hp
      have h0 := hne _ _ _ he
      cases q with
      | inWord j =>
        obtain ⟨s', e', he', h1', h2'⟩ := hq
        have := touch i j _ e s' e' he he' (by omega) (by omega) (by omega) (by omega)
        omega
      | onWordLeftEdge j =>
        obtain ⟨e', he'⟩ := hq
        have := hne _ _ _ he'
        rw [(touch i j _ e _ e' he he' (by omega) (by omega) (by omega) (by omega)).1]
      | onWordRightEdge j =>
        obtain ⟨s', he'⟩ := hq
        have := hne _ _ _ he'
        have := touch i j _ e s' _ he he' (by omega) (by omega) (by omega) (by omega)
        omega
      | inSpace l r => exact (space l r i _ e hq he (by omega) (by omega)).elim
    | onWordRightEdge i =>
      obtain ⟨s, he⟩ := hp
      have h0 := hne _ _ _ he
      cases q with
      | inWord j =>
        obtain ⟨s', e', he', h1', h2'⟩ := hq
        have := touch i j s _ s' e' he he' (by omega) (by omega) (by omega) (by omega)
        omega
      | onWordLeftEdge j =>
        obtain ⟨e', he'⟩ := hq
        have := hne _ _ _ he'
        have := touch i j s _ _ e' he he' (by omega) (by omega) (by omega) (by omega)
        omega
      | onWordRightEdge j =>
        obtain ⟨s', he'⟩ := hq
        have := hne _ _ _ he'
        rw [(touch i j s _ s' _ he he' (by omega) (by omega) (by omega) (by omega)).1]
      | inSpace l r => exact (space l r i s _ hq he (by omega) (by omega)).elim
    | inSpace l r =>
      cases q with
      | inWord j =>
        obtain ⟨s', e', he', h1', h2'⟩ := hq
        exact (space l r j s' e' hp he' (by omega) (by omega)).elim
      | onWordLeftEdge j =>
        obtain ⟨e', he'⟩ := hq
        have := hne _ _ _ he'
        exact (space l r j _ e' hp he' (by omega) (by omega)).elim
      | onWordRightEdge j =>
        obtain ⟨s', he'⟩ := hq
        have := hne _ _ _ he'
        exact (space l r j s' _ hp he' (by omega) (by omega)).elim
      | inSpace l' r' =>
        obtain ⟨_, hl, hr⟩ := hp
        obtain ⟨_, hl', hr'⟩ := hq
        have el : l' = l := by
          cases l with
          | none =>
            cases l' with
            | none => rfl
            | some j =>
              obtain ⟨s, e, he, h1, _⟩ := hl'
              have := hl j s e he
              have := hne _ _ _ he
              omega
          | some i =>
            obtain ⟨s, e, he, h1, h2⟩ := hl
            have := hne _ _ _ he
            cases l' with
            | none => have := hl' i s e he; omega
            | some j =>
              obtain ⟨s', e', he', h1', h2'⟩ := hl'
              have := hne _ _ _ he'
              rcases Nat.lt_trichotomy i j with h | h | h
              · have := h2 j s' e' h he'; omega
              · rw [h]
              · have := h2' i s e h he; omega
        have er : r' = r := by
          cases r with
          | none =>
            cases r' with
            | none => rfl
            | some j =>
              obtain ⟨s, e, he, h1, _⟩ := hr'
              have := hr j s e he
              have := hne _ _ _ he
              omega
          | some i =>
            obtain ⟨s, e, he, h1, h2⟩ := hr
            have := hne _ _ _ he
            cases r' with
            | none => have := hr' i s e he; omega
            | some j =>
              obtain ⟨s', e', he', h1', h2'⟩ := hr'
              have := hne _ _ _ he'
              rcases Nat.lt_trichotomy i j with h | h | h
              · have := h2' i s e h he; omega
              · rw [h]
              · have := h2 j s' e' h he'; omega
        rw [el, er]
  · rintro rfl; exact C12_classifies cursor ws hs

/-- The words of the default divider meet the hypothesis. -/
theorem C12_default_words_separated (b : Buffer) : Separated (getBufferWords b) :=
  ⟨fun w hw => ((C11_words b).words w hw).nonempty, (C11_words b).ordered⟩

example : CursorPosition.get 4 [(0, 2), (5, 9)] = .inSpace (some 0) (some 1) := by decide
example : Separated [(0, 2), (5, 9)] := ⟨by decide, by decide⟩

end Liner.Props
