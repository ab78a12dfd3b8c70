import Verif.Spec.Desk
import Verif.Proof.SheetNext
/-
The desk after a key is determined: a computable step.
-/

namespace Liner
namespace Spec
open Props

namespace Desk

/-- One key. -/
def step (entries : List Text) (key : Key) (d : Desk) : Desk :=
  if key = .up ∨ key = .ctrl 'p' then d.up entries
  else if key = .down ∨ key = .ctrl 'n' then d.down entries
  else if key = .alt '<' then d.oldest entries
  else if key = .alt '>' then d.newest entries
  else
    let q := d.sheet.does entries (d.suggestion entries) d.shown key
    d.write (Sheet.touches key d.sheet q) (d.sheet.clears (d.suggestion entries) key) q

/-- What is read. -/
def said (entries : List Text) : List (Option Key) → Desk → Sheet.Said
  | [], d => .line d.text
  | none :: _, _ => .stop .io
  | some key :: rest, d =>
    if key = .ctrl 'c' then .stop .interrupted
    else if key = .ctrl 'd' ∧ d.text = [] then .stop .unexpectedEof
    else if key = .char '\n' then
      if d.left.getLast? = some '\\' then said entries rest (d.write true true (d.sheet.put (d.left ++ ['\n']) d.right))
      else .line d.text
    else said entries rest (step entries key d)

/-- The desk after the keys. -/
def steps (entries : List Text) (keys : List Key) (d : Desk) : Desk := keys.foldl (fun d key => d.step entries key) d

/-- All numbers are those of entries. -/
structure Sound (entries : List Text) (d : Desk) : Prop where
  arg : ∀ i, d.arg = some i → i < entries.length
  shown : ∀ i, d.shown = some i → i < entries.length
  met : ∀ i ∈ d.met, i < entries.length
  walk : ∀ i, d.walk = some i → i < d.met.length

end Desk
end Spec

namespace Props
open Editor Liner.Spec

theorem sound_turn {entries : List Text} {d : Desk} {line : Option Nat} (hl : ∀ i, line = some i → i < entries.length)
    (hm : ∀ i ∈ d.met, i < entries.length) (hw : ∀ i, d.walk = some i → i < d.met.length) :
    (d.turn entries line).Sound entries := ⟨fun i hi => (by cases hi), hl, hm, hw⟩

theorem meets_lt {entries : List Text} {t : Text} : ∀ i ∈ Desk.meets entries t, i < entries.length := by
  intro i hi
  unfold Desk.meets at hi
  simp only [List.mem_append, List.mem_filter, List.mem_range] at hi
  rcases hi with h | h <;> exact h.1

theorem sound_up {entries : List Text} {d : Desk} (h : d.Sound entries) : (d.up entries).Sound entries := by
  unfold Desk.up
  split
  · split
    · rename_i i hi
      have := h.shown i hi
      exact sound_turn (fun j hj => by cases hj; omega) h.met h.walk
    · refine sound_turn (fun j hj => ?_) h.met h.walk
      split at hj
      · cases hj
      · rename_i he
        have := List.length_pos_iff.mpr he
        cases hj; omega
  · split
    · exact sound_turn h.shown h.met h.walk
    · rename_i i hi
      have := h.walk _ hi
      refine sound_turn (fun j hj => h.met j (List.mem_of_getElem? hj)) h.met fun j hj => ?_
      cases hj
      exact Nat.lt_of_succ_lt this
    · dsimp only
      split
      · rename_i hw _ _
        exact sound_turn h.shown (by simp) (fun j hj => by rw [hw] at hj; cases hj)
      · rename_i j hl
        have hm := List.mem_of_getLast? hl
        have := List.length_pos_of_mem hm
        refine sound_turn (fun j hj => by cases hj; exact meets_lt _ hm) meets_lt fun j hj => ?_
        cases hj
        exact Nat.sub_lt this Nat.one_pos

theorem sound_down {entries : List Text} {d : Desk} (h : d.Sound entries) : (d.down entries).Sound entries := by
  unfold Desk.down
  split
  · split
    · refine sound_turn (fun j hj => ?_) h.met h.walk
      split at hj
      · cases hj; assumption
      · cases hj
    · exact sound_turn (by simp) h.met h.walk
  · split
    · split
      · refine sound_turn (fun j hj => h.met j (List.mem_of_getElem? hj)) h.met fun j hj => ?_
        cases hj
        assumption
      · exact sound_turn (by simp) (by simp) (by simp)
    · exact sound_turn h.shown h.met h.walk

theorem sound_write {entries : List Text} {d : Desk} {q : Sheet} {t c : Bool} (h : d.Sound entries)
    (hq : Sheet.Bound entries q) : (d.write t c q).Sound entries := by
  refine ⟨hq, h.shown, fun i hi => ?_, fun i hi => ?_⟩
  · unfold Desk.write at hi
    dsimp only at hi
    split at hi
    · simp at hi
    · exact h.met i hi
  · unfold Desk.write at hi ⊢
    dsimp only at hi ⊢
    split at hi
    · cases hi
    · rename_i hc
      rw [if_neg hc]
      exact h.walk i hi

theorem sound_step {entries : List Text} {d : Desk} {key : Key} (h : d.Sound entries) : (d.step entries key).Sound entries := by
  unfold Desk.step
  repeat' split
  · exact sound_up h
  · exact sound_down h
  · unfold Desk.oldest
    split
    · exact ⟨by simp, h.shown, h.met, h.walk⟩
    · rename_i he
      exact sound_turn (fun j hj => by cases hj; exact List.length_pos_iff.mpr he) h.met h.walk
  · unfold Desk.newest
    split
    · exact ⟨by simp, h.shown, h.met, h.walk⟩
    · exact sound_turn (by simp) h.met h.walk
  · exact sound_write h (does_bound h.arg h.shown)

theorem desk_next_iff {entries : List Text} {key : Key} {d e : Desk} (h : d.Sound entries) :
    d.Next entries key e ↔ e = d.step entries key := by
  unfold Desk.Next Desk.step
  repeat' split
  · rfl
  · rfl
  · rfl
  · rfl
  · constructor
    · rintro ⟨q, h1, h2⟩
      rw [does_iff (p := d.sheet) h.arg h.shown] at h1
      rw [h2, h1]
    · intro h2
      exact ⟨_, (does_iff (p := d.sheet) h.arg h.shown).mpr rfl, h2⟩

theorem desk_run_iff {entries : List Text} : ∀ {keys : List Key} {d e : Desk}, d.Sound entries →
    (Desk.Run entries keys d e ↔ e = Desk.steps entries keys d)
  | [], d, e, _ => Iff.rfl
  | key :: keys, d, e, hb => by
    unfold Desk.Run
    constructor
    · rintro ⟨m, h1, h2⟩
      rw [(desk_next_iff hb).mp h1, desk_run_iff (sound_step hb)] at h2
      exact h2
    · intro h
      exact ⟨_, (desk_next_iff hb).mpr rfl, (desk_run_iff (sound_step hb)).mpr h⟩

theorem desk_reads_iff {entries : List Text} : ∀ {input : List (Option Key)} {d : Desk} {o : Sheet.Said},
    d.Sound entries → (Desk.Reads entries input d o ↔ o = Desk.said entries input d)
  | [], d, o, _ => Iff.rfl
  | none :: _, d, o, _ => Iff.rfl
  | some key :: rest, d, o, hb => by
    unfold Desk.Reads Desk.said
    repeat' split
    · rfl
    · rfl
    · exact desk_reads_iff (sound_write hb hb.arg)
    · rfl
    · constructor
      · rintro ⟨m, h1, h2⟩
        rw [(desk_next_iff hb).mp h1, desk_reads_iff (sound_step hb)] at h2
        exact h2
      · intro h
        exact ⟨_, (desk_next_iff hb).mpr rfl, (desk_reads_iff (sound_step hb)).mpr h⟩

theorem sound_fresh (entries : List Text) (t : Text) : (Desk.fresh t).Sound entries :=
  ⟨by simp [Desk.fresh], by simp [Desk.fresh], by simp [Desk.fresh], by simp [Desk.fresh]⟩

theorem sound_steps {entries : List Text} : ∀ {keys : List Key} {d : Desk}, d.Sound entries → (Desk.steps entries keys d).Sound entries
  | [], _, h => h
  | _ :: keys, _, h => sound_steps (keys := keys) (sound_step h)

/-- The keys that go on to newer lines. -/
def onward : Key → Bool
  | .down | .ctrl 'n' | .alt '>' => true
  | _ => false

/-- Other keys on an entry leave the new line alone. -/
theorem step_aside {entries : List Text} {key : Key} {d : Desk} (h : d.Sound entries) (hk : onward key = false)
    (hd : d.shown ≠ none) : (d.step entries key).shown ≠ none ∧ (d.step entries key).new = d.new := by
  unfold Desk.step
  split
  · unfold Desk.up
    split
    · split
      · exact ⟨by simp [Desk.turn], rfl⟩
      · rename_i h'; exact absurd h' hd
    · split
      · exact ⟨hd, rfl⟩
      · rename_i i hi
        have := h.walk _ hi
        refine ⟨?_, rfl⟩
        show d.met[i]? ≠ none
        rw [ne_eq, List.getElem?_eq_none_iff]
        omega
      · dsimp only
        split
        · exact ⟨hd, rfl⟩
        · exact ⟨by simp [Desk.turn], rfl⟩
  · split
    · rename_i h'
      rcases h' with rfl | rfl <;> cases hk
    · split
      · unfold Desk.oldest
        split
        · exact ⟨hd, rfl⟩
        · exact ⟨by simp [Desk.turn], rfl⟩
      · split
        · rename_i h'; subst h'; cases hk
        · exact ⟨hd, if_neg hd⟩

theorem steps_aside {entries : List Text} : ∀ {keys : List Key} {d : Desk}, d.Sound entries → (∀ key ∈ keys, onward key = false) →
    d.shown ≠ none → (Desk.steps entries keys d).shown ≠ none ∧ (Desk.steps entries keys d).new = d.new
  | [], _, _, _, hd => ⟨hd, rfl⟩
  | key :: keys, d, h, hk, hd => by
    have h1 := step_aside h (hk key (List.mem_cons_self ..)) hd
    have h2 := steps_aside (sound_step h) (fun x hx => hk x (List.mem_cons_of_mem _ hx)) h1.1
    exact ⟨h2.1, h2.2.trans h1.2⟩

/-- On the new line, the line shown is the new line. -/
def Desk.Same (d : Desk) : Prop := d.shown = none → d.text = d.new.text

theorem same_turn {entries : List Text} (d : Desk) (line : Option Nat) : Desk.Same (d.turn entries line) := by
  intro h
  have h : line = none := h
  subst h
  simp [Desk.turn, Desk.text]

theorem same_step {entries : List Text} {key : Key} {d : Desk} (h : Desk.Same d) : Desk.Same (d.step entries key) := by
  unfold Desk.step
  repeat' split
  · unfold Desk.up
    dsimp only
    repeat' split
    all_goals exact same_turn _ _
  · unfold Desk.down
    repeat' split
    all_goals exact same_turn _ _
  · unfold Desk.oldest
    split
    · exact h
    · exact same_turn _ _
  · unfold Desk.newest
    split
    · exact h
    · exact same_turn _ _
  · intro hd
    have hd : d.shown = none := hd
    simp [Desk.write, hd, Desk.text, Sheet.text]

theorem same_steps {entries : List Text} : ∀ {keys : List Key} {d : Desk}, Desk.Same d → Desk.Same (Desk.steps entries keys d)
  | [], _, h => h
  | _ :: keys, _, h => same_steps (keys := keys) (same_step h)

end Props
end Liner
