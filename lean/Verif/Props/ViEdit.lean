import Verif.Proof.ViEdit
import Verif.Props.ViMove
/-
Properties of the vi commands on characters: C54.
-/

namespace Liner.Props
open Liner Liner.Spec Liner.Editor Liner.Wit

section
variable (E : Env)
  (p p' : Prompt) (h : History) (fs : FS) (b : Buffer)
  (keys : List (Key × (Text → List Text))) (v : Vi) (s : Ed) (l r : Text)
  (hs : session Vi.keyMap E p keys (({} : Vi), initial p' h fs b) = .ok () (v, s))
  (hm : v.mode = .normal) (hq : s.isSearch = false) (hl : At s l r)
include hs hm hq hl

/-- One key in normal mode. -/
theorem vi_one {k : Key} {comp : Text → List Text} {v' : Vi} {e' : Bool} {l' r' : Text} {Q : Vi × Ed → Prop}
    (hk : Seen s k)
    (hg : v.modeStack = [] → Open true s l r → (r ≠ [] ∨ l = []) →
      Vi.Gives (Vi.handleKeyNormal (Vi.coreFuel E 7) E k) (v, s) v' e' l' r')
    (hQ : ∀ s', Open e' s' l' r' → Q (v', s')) :
    press Vi.keyMap E [(k, comp)] (v, s) ≠ .panic .op ∧
    ∀ t', press Vi.keyMap E [(k, comp)] (v, s) = .ok () t' → Q t' := by
  obtain ⟨hv, ho, hr⟩ := vi_ready hs hm hq hl
  refine out_of (wp_mono (Vi.press_one E hk ho ((wp_congr (Vi.core_normal E hv)).mpr (hg hv ho hr)))
    (fun _ t' h' => ?_) (fun _ _ h => h) (fun _ h => h))
  obtain ⟨v1, s1⟩ := t'
  obtain ⟨rfl, h'⟩ := h'
  exact hQ s1 h'

/-- C54: `x` and the key Delete delete as many characters at the cursor as the count says, if there are as
many; the cursor stays on the line. -/
theorem C54_x (k : Key) (hk : k = .char 'x' ∨ k = .delete) (comp : Text → List Text) :
    press Vi.keyMap E [(k, comp)] (v, s) ≠ .panic .op ∧
    ∀ t', press Vi.keyMap E [(k, comp)] (v, s) = .ok () t' →
      t'.1.mode = .normal ∧ t'.1.count = 0 ∧
      text? t'.2 = some (l ++ r.drop (if v.count = 0 then 1 else v.count)) ∧
      t'.2.cursor = min l.length ((l ++ r.drop (if v.count = 0 then 1 else v.count)).length - 1) := by
  refine vi_one E p p' h fs b keys v s l r hs hm hq hl ?_
    (fun hv ho _ => Vi.x_gives E _ hk ho) fun s' h' => ⟨hm, rfl, at_rest h'.here⟩
  rcases hk with rfl | rfl
  · exact Vi.seen_char (by decide) (by decide)
  · constructor <;> simp

/-- C54: `s` deletes the same characters and enters insert mode. -/
theorem C54_s (comp : Text → List Text) :
    press Vi.keyMap E [(.char 's', comp)] (v, s) ≠ .panic .op ∧
    ∀ t', press Vi.keyMap E [(.char 's', comp)] (v, s) = .ok () t' →
      t'.1.mode = .insert ∧ t'.1.count = 0 ∧ At t'.2 l (r.drop (if v.count = 0 then 1 else v.count)) :=
  vi_one E p p' h fs b keys v s l r hs hm hq hl (Vi.seen_char (by decide) (by decide))
    (fun hv ho _ => Vi.s_gives E _ hv ho) fun s' h' => ⟨rfl, rfl, h'.here⟩

/-- C54: `D` deletes to the end of the line. -/
theorem C54_D (comp : Text → List Text) :
    press Vi.keyMap E [(.char 'D', comp)] (v, s) ≠ .panic .op ∧
    ∀ t', press Vi.keyMap E [(.char 'D', comp)] (v, s) = .ok () t' →
      t'.1.mode = .normal ∧ t'.1.count = 0 ∧ text? t'.2 = some l ∧ t'.2.cursor = l.length - 1 := by
  refine vi_one E p p' h fs b keys v s l r hs hm hq hl (Vi.seen_char (by decide) (by decide))
    (fun hv ho _ => Vi.D_gives E _ ho) fun s' h' => ⟨hm, rfl, ?_⟩
  have := at_rest h'.here
  rw [List.append_nil] at this
  exact ⟨this.1, by rw [this.2]; omega⟩

/-- C54: `C` does so and enters insert mode. -/
theorem C54_C (comp : Text → List Text) :
    press Vi.keyMap E [(.char 'C', comp)] (v, s) ≠ .panic .op ∧
    ∀ t', press Vi.keyMap E [(.char 'C', comp)] (v, s) = .ok () t' →
      t'.1.mode = .insert ∧ t'.1.count = 0 ∧ At t'.2 l [] :=
  vi_one E p p' h fs b keys v s l r hs hm hq hl (Vi.seen_char (by decide) (by decide))
    (fun hv ho _ => Vi.C_gives E _ hv ho) fun s' h' => ⟨rfl, rfl, h'.here⟩

/-- C54: `i`, `a`, `I`, `A` enter insert mode before and after the cursor, at the start and at the end of
the line; the text stays. -/
theorem C54_insert (c : Char) (l' r' : Text)
    (hc : (c, l', r') ∈ [('i', l, r), ('a', l ++ r.take 1, r.drop 1), ('I', [], l ++ r), ('A', l ++ r, [])])
    (comp : Text → List Text) :
    press Vi.keyMap E [(.char c, comp)] (v, s) ≠ .panic .op ∧
    ∀ t', press Vi.keyMap E [(.char c, comp)] (v, s) = .ok () t' →
      t'.1.mode = .insert ∧ t'.1.count = v.count ∧ At t'.2 l' r' := by
  simp only [List.mem_cons, Prod.mk.injEq, List.not_mem_nil, or_false] at hc
  rcases hc with ⟨rfl, rfl, rfl⟩ | ⟨rfl, rfl, rfl⟩ | ⟨rfl, rfl, rfl⟩ | ⟨rfl, rfl, rfl⟩
  · exact vi_one E p p' h fs b keys v s _ _ hs hm hq hl (Vi.seen_char (by decide) (by decide))
      (fun hv ho _ => Vi.i_gives E _ hv ho) fun s' h' => ⟨rfl, rfl, h'.here⟩
  · exact vi_one E p p' h fs b keys v s l r hs hm hq hl (Vi.seen_char (by decide) (by decide))
      (fun hv ho _ => Vi.a_gives E _ hv ho) fun s' h' => ⟨rfl, rfl, h'.here⟩
  · exact vi_one E p p' h fs b keys v s l r hs hm hq hl (Vi.seen_char (by decide) (by decide))
      (fun hv ho _ => Vi.I_gives E _ hv ho) fun s' h' => ⟨rfl, rfl, h'.here⟩
  · exact vi_one E p p' h fs b keys v s l r hs hm hq hl (Vi.seen_char (by decide) (by decide))
      (fun hv ho _ => Vi.A_gives E _ hv ho) fun s' h' => ⟨rfl, rfl, h'.here⟩

/-- C54: `r` and a character replace as many characters as the count says, and the cursor is on the last
of them; if there are fewer characters nothing is replaced. -/
theorem C54_replace (c : Char) (hc : c ≠ '\t' ∧ c ≠ '\n') (kcs : List (Key × (Text → List Text)))
    (hks : kcs.map Prod.fst = [.char 'r', .char c]) (n : Nat) (hn : n = if v.count = 0 then 1 else v.count) :
    press Vi.keyMap E kcs (v, s) ≠ .panic .op ∧
    ∀ t', press Vi.keyMap E kcs (v, s) = .ok () t' →
      t'.1.mode = .normal ∧ t'.1.count = 0 ∧
      if n ≤ r.length then
        text? t'.2 = some (l ++ List.replicate n c ++ r.drop n) ∧ t'.2.cursor = l.length + n - 1
      else At t'.2 l r := by
  obtain ⟨hv, ho, hr⟩ := vi_ready hs hm hq hl
  obtain ⟨⟨k1, c1⟩, k2, rfl, h1, h2⟩ := List.map_eq_cons_iff.1 hks
  obtain ⟨⟨k3, c3⟩, rfl, h3⟩ := List.map_eq_singleton_iff.1 h2
  dsimp only at h1 h3
  subst h1; subst h3
  have hr1 : Vi.Gives (Vi.handleKeyCore E (.char 'r')) (v, s)
      { v with movementReset := true, modeStack := [.replace] } false l r := by
    refine (wp_congr (Vi.core_normal E hv)).mpr ?_
    have := Vi.push_gives E (m := .replace) (v := v) ho (by simp) (by simp) (by simp)
    rw [hv] at this
    exact this
  have hmc : ({ v with movementReset := true, modeStack := [.replace] } : Vi).moveCount = n := by
    rw [hn]; rfl
  by_cases hle : n ≤ r.length
  · have h4 := fun s1 (h1 : Open false s1 l r) => Vi.press_one E (c := c3) (Vi.seen_char hc.1 hc.2) h1
      ((wp_congr (Vi.core_replace E (v := { v with movementReset := true, modeStack := [.replace] }) rfl)).mpr
        (Vi.replace_gives E c (v := { v with movementReset := true, modeStack := [.replace] }) (base := []) rfl (.inl rfl) h1
        (by rw [hmc]; exact hle)))
    refine out_of (wp_mono (Vi.press_cons E (c := c1) (Vi.seen_char (by decide) (by decide)) ho hr1 h4)
      (fun _ t' h' => ?_) (fun _ _ h => h) (fun _ h => h))
    obtain ⟨h5, h6⟩ := h'
    rw [h5, if_pos hle]
    rw [hmc] at h6
    have hpos : 0 < n := by rw [hn]; split <;> omega
    refine ⟨rfl, rfl, ?_, ?_⟩
    · rw [h6.here.1]
      congr 1
      rw [show n = n - 1 + 1 by omega, List.replicate_succ']
      simp
    · rw [h6.here.2]; simp; omega
  · have h4 := fun s1 (h1 : Open false s1 l r) => Vi.press_one E (c := c3) (Vi.seen_char hc.1 hc.2) h1
      ((wp_congr (Vi.core_replace E (v := { v with movementReset := true, modeStack := [.replace] }) rfl)).mpr
        (Vi.replace_short_gives E c (v := { v with movementReset := true, modeStack := [.replace] }) (base := []) rfl (.inl rfl) h1
        (by rw [hmc]; omega)))
    refine out_of (wp_mono (Vi.press_cons E (c := c1) (Vi.seen_char (by decide) (by decide)) ho hr1 h4)
      (fun _ t' h' => ?_) (fun _ _ h => h) (fun _ h => h))
    obtain ⟨h5, h6⟩ := h'
    rw [h5, if_neg hle]
    refine ⟨rfl, rfl, ?_⟩
    have : rest true l r = (l, r) := by
      rcases hr with hr | rfl
      · simp [rest, hr]
      · cases r <;> rfl
    have h7 := h6.here
    simp only [decide_true, this] at h7
    exact h7

/-- C54: `~` changes the case of as many characters as the count says, and goes to the next one. -/
theorem C54_tilde_partial (comp : Text → List Text) (n : Nat) (hn : n = if v.count = 0 then 1 else v.count) :
    press Vi.keyMap E [(.char '~', comp)] (v, s) ≠ .panic .op ∧
    ∀ t', press Vi.keyMap E [(.char '~', comp)] (v, s) = .ok () t' →
      t'.1.mode = .normal ∧
      ∃ a, a = l ++ (r.take n).flatMap (toggleCase E.cc) ∧ text? t'.2 = some (a ++ r.drop n) ∧
        t'.2.cursor = min a.length ((a ++ r.drop n).length - 1) := by
  subst hn
  exact vi_one E p p' h fs b keys v s l r hs hm hq hl (Vi.seen_char (by decide) (by decide))
    (fun hv ho _ => Vi.tildeKey_gives E _ hv ho) fun s' h' => ⟨rfl, _, rfl, at_rest h'.here⟩

/-- C54: `dd` empties the line, `cc` does so and enters insert mode, whatever the counts. -/
theorem C54_line (op : Char) (ho' : op = 'd' ∨ op = 'c') (ds : List Char) (hd : Digits ds)
    (kcs : List (Key × (Text → List Text)))
    (hks : kcs.map Prod.fst = .char op :: (ds.map Key.char ++ [.char op])) :
    press Vi.keyMap E kcs (v, s) ≠ .panic .op ∧
    ∀ t', press Vi.keyMap E kcs (v, s) = .ok () t' →
      t'.1.mode = (if op = 'd' then .normal else .insert) ∧ t'.1.count = 0 ∧ t'.1.secondaryCount = 0 ∧
      At t'.2 [] [] := by
  obtain ⟨hv, ho, hr⟩ := vi_ready hs hm hq hl
  obtain ⟨⟨ko, cmp⟩, k3, rfl, h1, h2⟩ := List.map_eq_cons_iff.1 hks
  obtain ⟨k4, k5, rfl, h4, h5⟩ := List.map_eq_append_iff.1 h2
  obtain ⟨⟨k6, c6⟩, rfl, h6⟩ := List.map_eq_singleton_iff.1 h5
  dsimp only at h1 h6
  subst h1; subst h6
  have last : ∀ (v2 : Vi) (base : List Mode), v2.modeStack = .delete l.length :: base → v2.count = 0 →
      (base = [] ∨ base = [.insert]) →
      ((op = 'c' ∧ v2.currentInsert = some (.char 'c')) ∨ (op = 'd' ∧ v2.currentInsert = none)) →
      ∀ s2, Open false s2 l r → Vi.PressSat E (k4 ++ [(.char op, c6)]) v2 s2
        (fun v' => v'.modeStack = base ∧ v'.count = 0 ∧ v'.secondaryCount = 0) (decide (base = [])) ([], []) := by
    intro v2 base hm h0 hb hci s2 hs2
    refine Vi.sat_append E (Vi.digits_press E h4 hd h0 (.inr ⟨_, _, hm⟩) hs2) fun s4 hs4 => ?_
    refine Vi.sat_of E ⟨?_, ?_⟩ (Vi.press_one E (Vi.seen_char ?_ ?_) hs4
      ((wp_congr (Vi.core_delete E (v := { v2 with count := min (decimal ds) Vi.u32max }) hm)).mpr
        (Vi.line_gives E _ (v := { v2 with count := min (decimal ds) Vi.u32max }) hm ?_ hb hs4)))
    · rfl
    · exact ⟨rfl, rfl⟩
    · rcases ho' with rfl | rfl <;> decide
    · rcases ho' with rfl | rfl <;> decide
    · rcases hci with ⟨rfl, h'⟩ | ⟨rfl, h'⟩
      · exact .inl ⟨rfl, h'⟩
      · exact .inr ⟨rfl, h'⟩
  rcases ho' with rfl | rfl
  · refine out_of (wp_mono (Vi.sat_append E (ks := [(.char 'd', cmp)]) (p := ([], [])) (e' := decide (([] : List Mode) = []))
      (Q := fun v' => v'.modeStack = [] ∧ v'.count = 0 ∧ v'.secondaryCount = 0)
      (Vi.press_one E (Vi.seen_char (by decide) (by decide)) ho (Vi.d_gives E hv ho)) fun s2 h2 => ?_)
      (fun _ t' h' => ?_) (fun _ _ h => h) (fun _ h => h))
    · exact last { v with currentCommand := [.char 'd'], currentInsert := none, movementReset := true, modeStack := [.delete l.length], secondaryCount := v.count, count := 0 } []
        rfl rfl (.inl rfl) (.inr ⟨rfl, rfl⟩) s2 h2
    · exact ⟨by simp [Vi.mode, h'.1.1], h'.1.2.1, h'.1.2.2, h'.2.here⟩
  · refine out_of (wp_mono (Vi.sat_append E (ks := [(.char 'c', cmp)]) (p := ([], [])) (e' := decide (([.insert] : List Mode) = []))
      (Q := fun v' => v'.modeStack = [.insert] ∧ v'.count = 0 ∧ v'.secondaryCount = 0)
      (Vi.press_one E (Vi.seen_char (by decide) (by decide)) ho (Vi.c_gives E hv ho)) fun s2 h2 => ?_)
      (fun _ t' h' => ?_) (fun _ _ h => h) (fun _ h => h))
    · exact last { v with currentCommand := [], currentInsert := some (.char 'c'), movementReset := true, modeStack := [.delete l.length, .insert], lastCount := 0, lastCommand := [], secondaryCount := v.count, count := 0 } [.insert]
        rfl rfl (.inr rfl) (.inl ⟨rfl, rfl⟩) s2 h2
    · exact ⟨by simp [Vi.mode, h'.1.1], h'.1.2.1, h'.1.2.2, h'.2.here⟩

end

example : viEnds "abcdef" "02x" .normal "cdef" 0 = true := by decide +kernel
example : viEnds "abcdef" "9x" .normal "abcde" 4 = true := by decide +kernel
example : viEnds "abcdef" "02s" .insert "cdef" 0 = true := by decide +kernel
example : viEnds "abcdef" "2hD" .normal "abc" 2 = true := by decide +kernel
example : viEnds "abcdef" "2hC" .insert "abc" 3 = true := by decide +kernel
example : viEnds "abcdef" "2ha" .insert "abcdef" 4 = true := by decide +kernel
example : viEnds "abcdef" "2hI" .insert "abcdef" 0 = true := by decide +kernel
example : viEnds "abcdef" "03rx" .normal "xxxdef" 2 = true := by decide +kernel
example : viEnds "abcdef" "2rx" .normal "abcdef" 5 = true := by decide +kernel
example : viEnds "aBc" "0~" .normal "ABc" 1 = true := by decide +kernel
example : viEnds "abcdef" "3d2d" .normal "" 0 = true := by decide +kernel
example : viEnds "abcdef" "c2c" .insert "" 0 = true := by decide +kernel

/-- C54: the count of `~` is not used up: `3~` and then `x` deletes three characters. -/
theorem C54_tilde_violation : viEnds "abcdefgh" "03~x" .normal "ABCgh" 3 = true := by decide +kernel

end Liner.Props
