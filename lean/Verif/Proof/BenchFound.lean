import Verif.Proof.BenchNext
/-
During a search, the entries met are those that contain the new line.
-/

namespace Liner
namespace Props
open Editor Liner.Spec

theorem cons_ne {α : Type} (a : α) (l : List α) : a :: l ≠ l := fun h => by simpa using congrArg List.length h

theorem goLeft_text (t : Text × Text) : (goLeft t).1 ++ (goLeft t).2 = t.1 ++ t.2 := by
  obtain ⟨l, r⟩ := t
  unfold goLeft
  cases h : l.getLast? with
  | none => simp [List.getLast?_eq_none_iff.mp h]
  | some c =>
    have : l.dropLast ++ [c] = l := List.dropLast_append_getLast? c h
    show l.dropLast ++ (l.getLast?.toList ++ r) = l ++ r
    rw [h, ← List.append_assoc, show l.dropLast ++ (some c).toList = l from this]

theorem goRight_text (t : Text × Text) : (goRight t).1 ++ (goRight t).2 = t.1 ++ t.2 := by
  obtain ⟨l, r⟩ := t
  unfold goRight
  cases r <;> simp

/-- An editing key that does not count leaves the text alone. -/
theorem edited_text {o : Option Text} {key : Key} {p : Sheet} (hc : p.counts o key = false) : (p.edited o key).text = p.text := by
  unfold Sheet.edited Sheet.text
  dsimp only
  unfold edit
  split
  · cases hc
  · exact goLeft_text _
  · exact goLeft_text _
  · split
    · simp only [Sheet.counts, Sheet.takes] at hc
      split
      · rename_i h; exact absurd h (by simpa using hc)
      · exact goRight_text _
    · exact goRight_text _
  · split
    · simp [Sheet.counts, Sheet.takes] at hc
    · exact goRight_text _
  · simp
  · simp
  · simp
  · simp
  · simp only [Sheet.counts, ne_eq, decide_not, Bool.not_eq_false', decide_eq_true_eq] at hc; simp [hc]
  · simp only [Sheet.counts, ne_eq, decide_not, Bool.not_eq_false', decide_eq_true_eq] at hc; simp [hc]
  · simp only [Sheet.counts, ne_eq, decide_not, Bool.not_eq_false', decide_eq_true_eq] at hc; simp [hc]
  · simp only [Sheet.counts, ne_eq, decide_not, Bool.not_eq_false', decide_eq_true_eq] at hc; simp [hc]
  · cases hc
  · cases hc
  · rfl

/-- A line that is not taken out for writing keeps its text. -/
theorem taken_text {entries : List Text} {o : Option Text} {shown : Option Nat} {key : Key} {p q : Sheet}
    (h : p.Does entries o shown key q) (ht : Desk.taken key p q = false) (hk : key ≠ .alt '.') : q.text = p.text := by
  simp only [Desk.taken, Sheet.touches, Bool.or_eq_false_iff, decide_eq_false_iff_not, ne_eq, Decidable.not_not] at ht
  obtain ⟨⟨⟨⟨hp, -⟩, -⟩, hx⟩, hr⟩ := ht
  unfold Sheet.Does at h
  split at h
  · subst h
    refine edited_text ?_
    cases hc : p.counts o key with
    | false => rfl
    | true =>
      simp only [Sheet.edited, hc, if_true] at hp
      exact absurd hp (cons_ne _ _)
  · split at h
    · obtain ⟨ws, -, ⟨w, -, rfl⟩ | ⟨-, rfl⟩⟩ := h
      · exact absurd hp (cons_ne _ _)
      · rfl
    · split at h
      · exact h.1
      · split at h
        · exact h.1
        · rw [h]; rfl

theorem begins_none {f : Bool} {t : Option Nat} {l : List Nat} (h : Desk.begins f t l = none) : l = [] := by
  unfold Desk.begins at h
  split at h
  · assumption
  · cases h

theorem same_write {d : Desk} {q : Sheet} {t c : Bool} : Desk.Same (d.write t c q) := by
  intro hd
  have hd : d.shown = none := hd
  simp [Desk.write, hd, Desk.text, Sheet.text]

/-- The entries met are those that contain the new line, and if there are any, one is found. -/
structure Kept (entries : List Text) (d : Desk) : Prop where
  same : Desk.Same d
  met : d.met = Desk.holding entries d.new.text
  walk : d.walk = none → d.met = []

section
variable {entries : List Text} {f : Bool} {d : Desk} {key : Key}

theorem kept_look : Kept entries (d.look entries f) where
  same _ := by simp [Desk.look, Desk.text]
  met := rfl
  walk := begins_none

theorem Kept.back (h : Kept entries d) : Kept entries d.back where
  same := h.same
  met := h.met
  walk hw := h.walk (Option.map_eq_none_iff.mp hw)

theorem Kept.forth (h : Kept entries d) : Kept entries d.forth where
  same := h.same
  met := h.met
  walk hw := h.walk (Option.map_eq_none_iff.mp hw)

theorem Kept.arg (h : Kept entries d) (a : Option Nat) : Kept entries { d with arg := a } := ⟨h.same, h.met, h.walk⟩

theorem Kept.turn (h : Kept entries d) (l : Option Nat) : Kept entries (d.turn entries l) := ⟨same_turn _ _, h.met, h.walk⟩

theorem Kept.seek (h : Kept entries d) {t : Bool} {q : Sheet} (hq : t = false → q.text = d.text) :
    Kept entries (d.seek entries f t q) := by
  unfold Desk.seek
  cases t with
  | true => exact kept_look
  | false =>
    refine ⟨same_write, ?_, h.walk⟩
    refine h.met.trans ?_
    congr 1
    show d.new.text = (d.write false false q).new.text
    unfold Desk.write
    split
    · rename_i hd; exact (h.same hd).symm.trans (hq rfl).symm
    · rfl

theorem Kept.fetch (h : Kept entries d) : Kept entries (d.fetch entries f) := by
  unfold Desk.fetch
  split
  · exact h
  · dsimp only
    have h1 : Kept entries (if d.arg = none then d else
        d.seek entries f (d.sheet.dropArg.past ≠ d.past) d.sheet.dropArg) := by
      split
      · exact h
      · refine h.seek fun hp => ?_
        simp only [ne_eq, decide_eq_false_iff_not, Decidable.not_not] at hp
        rcases drops_iff.mpr (rfl : d.sheet.dropArg = _) with ⟨w, -, h2⟩ | ⟨-, h2⟩
        · rw [h2] at hp; exact absurd hp (cons_ne _ _)
        · rw [h2]; rfl
    generalize (if d.arg = none then d else
        d.seek entries f (d.sheet.dropArg.past ≠ d.past) d.sheet.dropArg) = m at h1
    refine Kept.arg (h1.seek fun hp => ?_) _
    simp only [ne_eq, decide_eq_false_iff_not, Decidable.not_not] at hp
    rename_i i _
    rcases adds_iff.mpr (rfl : Sheet.addArg (entries[i]?.getD []) m.sheet = _) with ⟨w, -, h2⟩ | ⟨-, h2⟩
    · rw [h2] at hp; exact absurd hp (cons_ne _ _)
    · rw [h2]; rfl

/-- What holds on every bench that can be reached. -/
def Right (entries : List Text) (b : Bench) : Prop := Desk.Same b.desk ∧ (b.forward ≠ none → Kept entries b.desk)

theorem right_seeks (hs : d.Sound entries) (h : Kept entries d) : Right entries (Bench.seeks entries f key d) := by
  have go : ∀ {e : Desk} {o : Option Bool}, Kept entries e → Right entries ⟨e, o⟩ := fun h => ⟨h.same, fun _ => h⟩
  have stop : ∀ {e : Desk}, Desk.Same e → Right entries ⟨e, none⟩ := fun h => ⟨h, fun h' => absurd rfl h'⟩
  unfold Bench.seeks
  repeat' split
  · exact go h.back
  · exact go h.forth
  · exact go (h.back.arg none)
  · exact go (h.forth.arg none)
  · refine go ?_
    unfold Desk.oldest
    split
    · exact h.arg none
    · exact h.turn _
  · refine go ?_
    unfold Desk.newest
    split
    · exact h.arg none
    · exact h.turn _
  · exact stop same_write
  · exact stop same_write
  · exact go h.fetch
  · rename_i hk
    exact go (h.seek fun ht => taken_text ((does_iff (p := d.sheet) hs.arg hs.shown).mpr rfl) ht hk)

theorem right_step {b : Bench} (hs : b.desk.Sound entries) (h : Right entries b) : Right entries (b.step entries key) := by
  unfold Bench.step
  cases hf : b.forward with
  | some f => exact right_seeks hs (h.2 (by rw [hf]; simp))
  | none =>
    dsimp only
    repeat' split
    · exact ⟨kept_look.same, fun _ => kept_look⟩
    · exact ⟨kept_look.same, fun _ => kept_look⟩
    · exact ⟨same_step h.1, fun h' => absurd rfl h'⟩

theorem right_steps : ∀ {keys : List Key} {b : Bench}, b.desk.Sound entries → Right entries b →
    Right entries (Bench.steps entries keys b) ∧ (Bench.steps entries keys b).desk.Sound entries
  | [], _, hs, h => ⟨h, hs⟩
  | _ :: keys, _, hs, h => right_steps (keys := keys) (sound_bench hs) (right_step hs h)

theorem mem_holding {t : Text} {i : Nat} : i ∈ Desk.holding entries t ↔ ∃ x, entries[i]? = some x ∧ t ≠ [] ∧ t <:+: x := by
  unfold Desk.holding
  rw [List.mem_filter, List.mem_range]
  constructor
  · rintro ⟨hi, h⟩
    rw [List.getElem?_eq_getElem hi] at h
    exact ⟨_, List.getElem?_eq_getElem hi, by simpa using h⟩
  · rintro ⟨x, hx, h⟩
    refine ⟨(List.getElem?_eq_some_iff.mp hx).1, ?_⟩
    rw [hx]
    simpa using h

/-- The entry found contains the new line; there is one if any entry contains it and it is not empty. -/
theorem Kept.found (h : Kept entries d) (hs : d.Sound entries) :
    (∀ x, d.found entries = some x → x ∈ entries ∧ d.new.text ≠ [] ∧ d.new.text <:+: x) ∧
    (d.found entries = none → d.new.text ≠ [] → ∀ x ∈ entries, ¬ d.new.text <:+: x) := by
  unfold Desk.found
  refine ⟨fun x hx => ?_, fun hn ht x hx hi => ?_⟩
  · obtain ⟨i, hi, hx⟩ := Option.bind_eq_some_iff.mp hx
    obtain ⟨j, -, hj⟩ := Option.bind_eq_some_iff.mp hi
    have := List.mem_of_getElem? hj
    rw [h.met, mem_holding] at this
    obtain ⟨y, hy, h1⟩ := this
    rw [hx] at hy
    cases hy
    exact ⟨List.mem_of_getElem? hx, h1⟩
  · obtain ⟨i, hi'⟩ := List.mem_iff_getElem?.mp hx
    have hm : i ∈ d.met := by rw [h.met, mem_holding]; exact ⟨x, hi', ht, hi⟩
    cases hw : d.walk with
    | none => rw [h.walk hw] at hm; simp at hm
    | some j =>
      have hj := hs.walk j hw
      have hb := hs.met _ (List.getElem_mem hj)
      rw [hw] at hn
      simp only [Option.bind_some, List.getElem?_eq_getElem hj] at hn
      rw [List.getElem?_eq_getElem hb] at hn
      cases hn

end
end Props
end Liner
