import Verif.Props.Rack
/-
What `read_line` returns in vi mode when text is typed during a search: C80.
-/

namespace Liner.Props
open Liner Liner.Spec Liner.Editor Liner.Wit Liner.Tests

/-- Without undo what is found is certain. -/
theorem hunted_unique {C : CharClass} {entries : List Text} {as : List Act} {d : Text} {forward : Bool} {more : List Key} {x y : Pen × Option Nat}
    (hu : Act.command .undo ∉ as) (hx : Hunted C entries as d forward more x) (hy : Hunted C entries as d forward more y) :
    y.1.left = x.1.left ∧ y.1.right = x.1.right ∧ y.2 = x.2 := by
  obtain ⟨⟨hand, f⟩, p, full, last, h1, rfl, h2⟩ := hx
  obtain ⟨⟨hand, f'⟩, p', full', last', h1', rfl, h2'⟩ := hy
  obtain ⟨⟨hs, -⟩, -, -, hm, hw⟩ := Vi.racks_same h1
    (⟨⟨⟨rfl, rfl, rfl, rfl, rfl, rfl, rfl⟩, rfl⟩, rfl, rfl, rfl, rfl⟩ : Vi.RackSame (Rack.fresh d) (Rack.fresh d)) hu h1'
  have e : f'.hunt entries p' forward = (p', (f.hunt entries p forward).2) := by
    have ht : p'.text = p.text := by unfold Pen.text; rw [hs.1, hs.2.1]
    unfold Shelf.hunt
    dsimp only
    rw [ht, show f'.walk = f.walk from hw, show f'.met = f.met from hm]
  dsimp only at h2 h2'
  rw [e] at h2'
  obtain ⟨s1, s2⟩ := Vi.hunt_same h2 (q := p') hs h2'
  exact ⟨s1.1, s1.2.1, s2⟩

section
variable (E : Env) (hC : ∀ c, E.cc.isWhitespace c = true → E.cc.isAlphanumeric c = false ∧ c ≠ '_')
  (p p' : Prompt) (h : History) (hs : h.share = false) (fs : FS) (b : Buffer) (hb : b.actions = []) (as : List Act)
  (hc : Rack.CanAll E.cc (texts h) as (Rack.fresh b.data))
  (kcs : List (Key × (Text → List Text))) (hks : kcs.map Prod.fst = as.flatMap Act.keys)
  (forward : Bool) (more : List Key) (scs : List (Key × (Text → List Text))) (hsc : scs.map Prod.fst = seekKey forward :: more)
  (hf : ∀ r, Rack.Steps E.cc (texts h) as (Rack.fresh b.data) r → ∃ pen full last, r.hand = .pen pen full last ∧ r.shelf.shown = none ∧
    Hunts.Can (texts h) forward more (r.shelf.hunt (texts h) pen forward))
include hC hs hb hc hks hsc hf

/-- What all three cases have in common. -/
theorem read_quest {tail : List KeyMap.Input} {Q : Text → Vi × Ed → Prop} {R : IoErr → Vi × Ed → Prop} (hR : ∀ e t, Vi.Fails E e → R e t)
    (g : ∀ x hb t', Hunted E.cc (texts h) as b.data forward more x →
      Vi.Seeking h forward t'.2.newBuf hb false t'.2.cursor x.2 t'.2 → t'.2.newBuf.data = x.1.text →
      (t'.2.autosuggestion.map (·.data)).getD t'.2.newBuf.data = (quarry (texts h) x).getD x.1.text →
      t'.2.showCompletionsHint = none → Wp (Vi.keyMap.loop E tail) t' Q R (· ≠ .op)) :
    Wp (Vi.keyMap.readLine E p (Spec.typed kcs ++ (Spec.typed scs ++ tail))) (({} : Vi), initial p' h fs b) Q R
      (fun w => w = .op → E.ttyWidth = some 0) :=
  Vi.read_racked E hR (apart_of hC) p p' hs fs b hb as hc hks fun r nb hb t' h1 h2 h3 h4 => by
    obtain ⟨hand, f⟩ := r
    obtain ⟨pen, full, last, rfl, h5, h6⟩ := hf _ h1
    exact Vi.loop_quest E hR hs h2 h3 h4 h5 h6 hsc fun x t1 q1 q2 q3 q4 q5 => g x hb t1 ⟨_, pen, full, last, h1, rfl, q1⟩ q2 q3 q4 q5

/-- C80: Enter returns the entry found, or the line typed if there is none. -/
theorem C80_enter (comp : Text → List Text) (rest : List KeyMap.Input)
    (hl : ∀ x, Hunted E.cc (texts h) as b.data forward more x → ((quarry (texts h) x).getD x.1.text).getLast? ≠ some '\\') :
    (∀ txt t', Vi.keyMap.readLine E p (Spec.typed kcs ++ (Spec.typed scs ++ .key (.char '\n') comp :: rest)) ({}, initial p' h fs b) = .ok txt t' →
      ∃ x, Hunted E.cc (texts h) as b.data forward more x ∧ txt = (quarry (texts h) x).getD x.1.text) ∧
    (∀ e t', Vi.keyMap.readLine E p (Spec.typed kcs ++ (Spec.typed scs ++ .key (.char '\n') comp :: rest)) ({}, initial p' h fs b) = .err e t' →
      e = .io ∧ ¬ Works E) ∧
    (Vi.keyMap.readLine E p (Spec.typed kcs ++ (Spec.typed scs ++ .key (.char '\n') comp :: rest)) ({}, initial p' h fs b) = .panic .op →
      E.ttyWidth = some 0) := by
  have key := read_quest E hC p p' h hs fs b hb as hc kcs hks forward more scs hsc hf (tail := .key (.char '\n') comp :: rest)
    (Q := fun txt _ => ∃ x, Hunted E.cc (texts h) as b.data forward more x ∧ txt = (quarry (texts h) x).getD x.1.text)
    (R := fun e _ => Vi.Fails E e) (fun _ _ h => h) fun x hb t' h1 h2 _ h4 h5 =>
      wp_mono (Vi.loop_found E h2 h5 h4 (by rw [Editor.rest_false]; exact hl x h1)) (fun _ _ h => ⟨x, h1, h⟩) (fun _ _ h => h) (fun _ h => h)
  exact ⟨fun txt t' hr => (wp_ok key hr :), fun e t' hr => (wp_err key hr :), fun hr => wp_panic' key hr rfl⟩

/-- C80: the end of the input returns the line typed, whatever was found. -/
theorem C80_end :
    (∀ txt t', Vi.keyMap.readLine E p (Spec.typed kcs ++ Spec.typed scs) ({}, initial p' h fs b) = .ok txt t' →
      ∃ x, Hunted E.cc (texts h) as b.data forward more x ∧ txt = x.1.left ++ x.1.right) ∧
    (∀ e t', Vi.keyMap.readLine E p (Spec.typed kcs ++ Spec.typed scs) ({}, initial p' h fs b) = .err e t' → e = .io ∧ ¬ Works E) ∧
    (Vi.keyMap.readLine E p (Spec.typed kcs ++ Spec.typed scs) ({}, initial p' h fs b) = .panic .op → E.ttyWidth = some 0) := by
  have key := read_quest E hC p p' h hs fs b hb as hc kcs hks forward more scs hsc hf (tail := [])
    (Q := fun txt _ => ∃ x, Hunted E.cc (texts h) as b.data forward more x ∧ txt = x.1.left ++ x.1.right)
    (R := fun e _ => Vi.Fails E e) (fun _ _ h => h) fun x hb t' h1 h2 h3 _ _ => by
      unfold KeyMap.loop
      rw [wp_bind, wp_ed, wp_get]
      have : intoText t'.2 = some x.1.text := text?_eq.mpr ⟨_, h2.buf, h3⟩
      rw [this]
      exact ⟨x, h1, rfl⟩
  rw [List.append_nil] at key
  exact ⟨fun txt t' hr => (wp_ok key hr :), fun e t' hr => (wp_err key hr :), fun hr => wp_panic' key hr rfl⟩

/-- C80: Ctrl-C makes it fail, and Ctrl-D does if the line typed is empty. -/
theorem C80_stop (comp : Text → List Text) (rest : List KeyMap.Input) (k : Key) (err : IoErr)
    (hk : (k = .ctrl 'c' ∧ err = .interrupted) ∨ (k = .ctrl 'd' ∧ err = .unexpectedEof ∧
      ∀ x, Hunted E.cc (texts h) as b.data forward more x → x.1.left ++ x.1.right = [])) :
    (∀ txt t', Vi.keyMap.readLine E p (Spec.typed kcs ++ (Spec.typed scs ++ .key k comp :: rest)) ({}, initial p' h fs b) ≠ .ok txt t') ∧
    (∀ e t', Vi.keyMap.readLine E p (Spec.typed kcs ++ (Spec.typed scs ++ .key k comp :: rest)) ({}, initial p' h fs b) = .err e t' →
      e = err ∨ (e = .io ∧ ¬ Works E)) ∧
    (Vi.keyMap.readLine E p (Spec.typed kcs ++ (Spec.typed scs ++ .key k comp :: rest)) ({}, initial p' h fs b) = .panic .op →
      E.ttyWidth = some 0) := by
  have key := read_quest E hC p p' h hs fs b hb as hc kcs hks forward more scs hsc hf (tail := .key k comp :: rest)
    (Q := fun _ _ => False) (R := fun e _ => e = err ∨ Vi.Fails E e) (fun _ _ h => .inr h) fun x hb t' h1 h2 h3 _ h5 =>
      Vi.loop_quits E h2 h5 (hk.imp id fun h => ⟨h.1, h3.trans (h.2.2 x h1), h.2.1⟩)
  exact ⟨fun txt t' hr => (wp_ok key hr :), fun e t' hr => (wp_err key hr :), fun hr => wp_panic' key hr rfl⟩

/-- C80: on a terminal that works, without undo before the search what Enter returns is certain, if nothing panics. -/
theorem C80_exact (hE : Works E) (hu : Act.command .undo ∉ as) (x : Pen × Option Nat) (hx : Hunted E.cc (texts h) as b.data forward more x)
    (hn : ((quarry (texts h) x).getD x.1.text).getLast? ≠ some '\\') (comp : Text → List Text) (rest : List KeyMap.Input) :
    (∃ t', Vi.keyMap.readLine E p (Spec.typed kcs ++ (Spec.typed scs ++ .key (.char '\n') comp :: rest)) ({}, initial p' h fs b) =
      .ok ((quarry (texts h) x).getD (x.1.left ++ x.1.right)) t') ∨
    ∃ w, Vi.keyMap.readLine E p (Spec.typed kcs ++ (Spec.typed scs ++ .key (.char '\n') comp :: rest)) ({}, initial p' h fs b) = .panic w := by
  have same : ∀ y, Hunted E.cc (texts h) as b.data forward more y → (quarry (texts h) y).getD y.1.text = (quarry (texts h) x).getD x.1.text := by
    intro y hy
    obtain ⟨h1, h2, h3⟩ := hunted_unique hu hx hy
    have e : y.1.text = x.1.text := by unfold Pen.text; rw [h1, h2]
    unfold quarry
    rw [e, h3]
  have h1 := C80_enter E hC p p' h hs fs b hb as hc kcs hks forward more scs hsc hf comp rest (fun y hy => by rw [same y hy]; exact hn)
  cases hm : Vi.keyMap.readLine E p (Spec.typed kcs ++ (Spec.typed scs ++ .key (.char '\n') comp :: rest)) ({}, initial p' h fs b) with
  | ok txt t' =>
    obtain ⟨y, h2, rfl⟩ := h1.1 txt t' hm
    rw [same y h2]
    exact .inl ⟨t', rfl⟩
  | err e t' => exact absurd hE (h1.2.1 e t' hm).2
  | panic w => exact .inr ⟨w, rfl⟩

end

/-! ### What is found -/

theorem hunts_write {entries : List Text} {forward : Bool} {key : Key} {ks : List Key} {p : Pen} {k : Option Nat} {x : Pen × Option Nat} (hk : WritingKey key)
    (h : Hunts entries forward (key :: ks) (p, k) x) : ∃ p', Pen.Step key p p' ∧
      Hunts entries forward ks (p', Desk.begins forward (k.bind ((Desk.holding entries p.text)[·]?)) (Desk.holding entries p'.text)) x := by
  generalize hks : key :: ks = ks' at h
  generalize hx : (p, k) = x' at h
  cases h with
  | nil => cases hks
  | seek t => cases hks; exact absurd hk (Vi.seek_writing _)
  | write hk' h t => cases hks; cases hx; exact ⟨_, h, t⟩

section
variable {entries : List Text} {forward : Bool}

theorem begins_not {d : Bool} {t : Option Nat} {met : List Nat} : Desk.begins d t met = none ↔ met = [] := by
  unfold Desk.begins
  split <;> simp_all

theorem begin_lt {d : Bool} {t : Option Nat} {met : List Nat} {j : Nat} (h : Desk.begins d t met = some j) : j < met.length := by
  unfold Desk.begins at h
  split at h
  · cases h
  rename_i hm
  have hp := List.length_pos_iff.mpr hm
  have hle : ∀ t, (met.filter (· ≤ t)).length ≤ met.length := fun t => List.length_filter_le _ _
  cases h
  split
  · split <;> omega
  · rename_i t
    have := hle t
    split
    · split <;> omega
    · omega

/-- The place is one among the entries that contain the line, if there are any. -/
def OnTrack (entries : List Text) (x : Pen × Option Nat) : Prop :=
  (x.2 = none ↔ Desk.holding entries x.1.text = []) ∧ ∀ j, x.2 = some j → j < (Desk.holding entries x.1.text).length

theorem onTrack_begins {d : Bool} {t : Option Nat} {p : Pen} : OnTrack entries (p, Desk.begins d t (Desk.holding entries p.text)) :=
  ⟨begins_not, fun _ => begin_lt⟩

theorem hunts_onTrack {ks : List Key} {x x' : Pen × Option Nat} (h : Hunts entries forward ks x x') : OnTrack entries x → OnTrack entries x' := by
  induction h with
  | nil => exact id
  | @seek f ks p k x t ih =>
    intro ⟨h1, h2⟩
    refine ih ⟨by simpa using h1, fun j hj => ?_⟩
    dsimp only at hj h2
    rw [Option.map_eq_some_iff] at hj
    obtain ⟨a, ha, rfl⟩ := hj
    have := h2 a ha
    unfold searchStep
    split <;> exact Nat.mod_lt _ (by omega)
  | write hk h t ih => exact fun _ => ih onTrack_begins

theorem in_holding {t : Text} {i : Nat} (h : i ∈ Desk.holding entries t) : ∃ y, entries[i]? = some y ∧ t ≠ [] ∧ t <:+: y := by
  unfold Desk.holding at h
  obtain ⟨-, h⟩ := List.mem_filter.1 h
  cases hy : entries[i]? with
  | none => rw [hy] at h; cases h
  | some y => rw [hy] at h; exact ⟨y, rfl, by simpa using h⟩

/-- C80: an entry found contains the line typed, which is not empty then, and nothing is found only if there is no such
entry. -/
theorem C80_found {C : CharClass} {as : List Act} {d : Text} {more : List Key} {x : Pen × Option Nat}
    (h : Hunted C entries as d forward more x) :
    (∀ y, quarry entries x = some y → y ∈ entries ∧ x.1.left ++ x.1.right ≠ [] ∧ x.1.left ++ x.1.right <:+: y) ∧
    (quarry entries x = none → ∀ y ∈ entries, x.1.left ++ x.1.right <:+: y → x.1.left ++ x.1.right = []) := by
  obtain ⟨r, p, full, last, -, -, h⟩ := h
  obtain ⟨h1, h2⟩ := hunts_onTrack h onTrack_begins
  have out : ∀ j i, x.2 = some j → (Desk.holding entries x.1.text)[j]? = some i → ∃ y, entries[i]? = some y ∧ x.1.text ≠ [] ∧ x.1.text <:+: y :=
    fun j i _ hi => in_holding (List.mem_of_getElem? hi)
  constructor
  · intro y hy
    unfold quarry at hy
    obtain ⟨i, hi, hy⟩ := Option.bind_eq_some_iff.1 hy
    obtain ⟨j, hj, hi⟩ := Option.bind_eq_some_iff.1 hi
    obtain ⟨y', e1, e2, e3⟩ := out j i hj hi
    obtain rfl : y' = y := by rw [e1] at hy; simpa using hy
    exact ⟨List.mem_of_getElem? e1, e2, e3⟩
  · intro hn y hy hxy
    by_contra hne
    have : ∃ i, i ∈ Desk.holding entries x.1.text := by
      obtain ⟨i, hi, rfl⟩ := List.getElem_of_mem hy
      refine ⟨i, List.mem_filter.2 ⟨List.mem_range.2 hi, ?_⟩⟩
      rw [List.getElem?_eq_getElem hi]
      simpa using ⟨hne, hxy⟩
    obtain ⟨i, hi⟩ := this
    cases hk : x.2 with
    | none => rw [h1.1 hk] at hi; cases hi
    | some j =>
      have hj := h2 j hk
      obtain ⟨y', e1, -⟩ := out j _ hk (List.getElem?_eq_getElem hj)
      unfold quarry at hn
      rw [hk, Option.bind_some, List.getElem?_eq_getElem hj, Option.bind_some, e1] at hn
      cases hn

/-- C80: the line typed is the one that the keys make of it without the search. -/
theorem C80_line {more : List Key} {x x' : Pen × Option Nat} (h : Hunts entries forward more x x') :
    Pen.Steps (more.filter fun k => ¬ (k = .ctrl 'r' ∨ k = .ctrl 's')) x.1 x'.1 := by
  induction h with
  | nil x => exact .nil _
  | @seek f ks p k x t ih =>
    rw [List.filter_cons_of_neg (by cases f <;> simp [seekKey])]
    exact ih
  | @write key ks p p' k x hk h t ih =>
    rw [List.filter_cons_of_pos]
    · exact .cons h ih
    · rw [decide_eq_true_eq]
      rintro (rfl | rfl) <;> simp [WritingKey, Types, Moves, Inert] at hk

theorem holds_sorted (t : Text) : (Desk.holding entries t).Pairwise (· < ·) :=
  List.Pairwise.filter _ List.pairwise_lt_range

theorem below_getElem : ∀ {met : List Nat} {j : Nat} (_ : met.Pairwise (· < ·)) (hj : j < met.length),
    (met.filter (· < met[j])).length = j ∧ (met.filter (· ≤ met[j])).length = j + 1 := by
  intro met
  induction met with
  | nil => intro j _ hj; cases hj
  | cons a met ih =>
    intro j hs hj
    rw [List.pairwise_cons] at hs
    cases j with
    | zero =>
      rw [List.getElem_cons_zero, List.filter_cons_of_neg (by simp), List.filter_cons_of_pos (by simp)]
      rw [List.filter_eq_nil_iff.mpr (by intro b hb; have := hs.1 b hb; simp; omega),
        List.filter_eq_nil_iff.mpr (by intro b hb; have := hs.1 b hb; simp; omega)]
      exact ⟨rfl, rfl⟩
    | succ j =>
      have hj' : j < met.length := Nat.lt_of_succ_lt_succ hj
      have := hs.1 _ (List.getElem_mem hj')
      rw [List.getElem_cons_succ, List.filter_cons_of_pos (by simpa using this), List.filter_cons_of_pos (by simp; omega),
        List.length_cons, List.length_cons, (ih hs.2 hj').1, (ih hs.2 hj').2]
      exact ⟨rfl, rfl⟩

/-- C80: an entry found is found still after a key as long as it contains the line. -/
theorem C80_stays {key : Key} {p p' : Pen} {k k' : Option Nat} {i : Nat} {y : Text} (hk : WritingKey key)
    (h : Hunts entries forward [key] (p, k) (p', k')) (hi : k.bind ((Desk.holding entries p.text)[·]?) = some i) (hy : entries[i]? = some y)
    (hp : p'.left ++ p'.right ≠ []) (hc : p'.left ++ p'.right <:+: y) :
    k'.bind ((Desk.holding entries p'.text)[·]?) = some i := by
  have hm : i ∈ Desk.holding entries p'.text := by
    refine List.mem_filter.2 ⟨List.mem_range.2 (List.getElem?_eq_some_iff.1 hy).1, ?_⟩
    rw [hy]
    simpa using ⟨hp, hc⟩
  obtain ⟨j, hj, rfl⟩ := List.getElem_of_mem hm
  have hb : Desk.begins forward (some (Desk.holding entries p'.text)[j]) (Desk.holding entries p'.text) = some j := by
    obtain ⟨e1, e2⟩ := below_getElem (holds_sorted p'.text) hj
    unfold Desk.begins
    rw [if_neg (fun e => by rw [e] at hj; cases hj)]
    dsimp only
    rw [e1, e2]
    cases forward <;> simp [hj]
  generalize hks : [key] = ks at h
  generalize hx' : (p', k') = x' at h
  cases h with
  | nil => cases hks
  | seek t => cases hks; exact absurd hk (Vi.seek_writing _)
  | write hk' h t =>
    cases hks
    cases t
    cases hx'
    rw [hi, hb, Option.bind_some, List.getElem?_eq_getElem hj]

theorem split_sorted : ∀ {met : List Nat} (_ : met.Pairwise (· < ·)) (i : Nat),
    met = met.filter (· < i) ++ met.filter (i ≤ ·) ∧ met = met.filter (· ≤ i) ++ met.filter (i < ·) := by
  intro met
  induction met with
  | nil => intro _ i; exact ⟨rfl, rfl⟩
  | cons a met ih =>
    intro hs i
    rw [List.pairwise_cons] at hs
    obtain ⟨h1, h2⟩ := ih hs.2 i
    constructor
    · by_cases ha : a < i
      · rw [List.filter_cons_of_pos (by simpa using ha), List.filter_cons_of_neg (by simp; omega), List.cons_append, ← h1]
      · rw [List.filter_cons_of_neg (by simpa using ha), List.filter_cons_of_pos (by simp; omega),
          List.filter_eq_nil_iff.mpr (by intro b hb; have := hs.1 b hb; simp; omega),
          List.filter_eq_self.mpr (by intro b hb; have := hs.1 b hb; simp; omega), List.nil_append]
    · by_cases ha : a ≤ i
      · rw [List.filter_cons_of_pos (by simpa using ha), List.filter_cons_of_neg (by simp; omega), List.cons_append, ← h2]
      · rw [List.filter_cons_of_neg (by simpa using ha), List.filter_cons_of_pos (by simp; omega),
          List.filter_eq_nil_iff.mpr (by intro b hb; have := hs.1 b hb; simp; omega),
          List.filter_eq_self.mpr (by intro b hb; have := hs.1 b hb; simp; omega), List.nil_append]

/-- C80: after a key, the next entry in the direction of the search is found from the one found before on, or the oldest. -/
theorem C80_next {key : Key} {p p' : Pen} {k k' : Option Nat} {i : Nat} (hk : WritingKey key)
    (h : Hunts entries forward [key] (p, k) (p', k')) (hi : k.bind ((Desk.holding entries p.text)[·]?) = some i) :
    k'.bind ((Desk.holding entries p'.text)[·]?) =
      (if forward then ((Desk.holding entries p'.text).filter (i ≤ ·)).head? else ((Desk.holding entries p'.text).filter (· ≤ i)).getLast?).or
        (Desk.holding entries p'.text).head? := by
  have hb : (Desk.begins forward (some i) (Desk.holding entries p'.text)).bind ((Desk.holding entries p'.text)[·]?) =
      (if forward then ((Desk.holding entries p'.text).filter (i ≤ ·)).head? else ((Desk.holding entries p'.text).filter (· ≤ i)).getLast?).or
        (Desk.holding entries p'.text).head? := by
    have hs := holds_sorted (entries := entries) p'.text
    generalize Desk.holding entries p'.text = met at hs
    obtain ⟨e1, e2⟩ := split_sorted hs i
    unfold Desk.begins
    split
    · rename_i e; rw [e]; cases forward <;> rfl
    · rename_i hne
      cases forward
      · simp only [Bool.false_eq_true, if_false, Option.bind_some]
        rcases List.eq_nil_or_concat (met.filter (· ≤ i)) with e | ⟨l, a, e⟩
        · rw [e, List.head?_eq_getElem?]; rfl
        · rw [e, List.concat_eq_append] at e2
          rw [e, List.concat_eq_append, List.getLast?_concat, List.length_append]
          conv => lhs; rw [e2]
          simp
      · simp only [if_true, Option.bind_some]
        cases e : met.filter (i ≤ ·) with
        | nil =>
          rw [e, List.append_nil] at e1
          rw [← e1, if_neg (Nat.lt_irrefl _)]
          exact List.head?_eq_getElem?.symm
        | cons a l =>
          rw [e] at e1
          have hlt : (met.filter (· < i)).length < met.length := by
            conv => rhs; rw [e1]
            simp
          rw [if_pos hlt]
          generalize met.filter (· < i) = l0 at e1
          rw [e1]
          simp
  obtain ⟨p1, -, t⟩ : ∃ p1, Pen.Step key p p1 ∧ Hunts entries forward [] (p1, Desk.begins forward (k.bind ((Desk.holding entries p.text)[·]?)) (Desk.holding entries p1.text)) (p', k') :=
    hunts_write hk h
  rw [hi] at t
  cases t
  exact hb

/-- C80: where nothing was found, a key that makes entries contain the line finds the latest of them, or, if the search
began forwards, the oldest. -/
theorem C80_first {key : Key} {p p' : Pen} {k' : Option Nat} (hk : WritingKey key) (h : Hunts entries forward [key] (p, none) (p', k')) :
    k'.bind ((Desk.holding entries p'.text)[·]?) = if forward then (Desk.holding entries p'.text).head? else (Desk.holding entries p'.text).getLast? := by
  have hb : (Desk.begins forward none (Desk.holding entries p'.text)).bind ((Desk.holding entries p'.text)[·]?) =
      if forward then (Desk.holding entries p'.text).head? else (Desk.holding entries p'.text).getLast? := by
    unfold Desk.begins
    split
    · rename_i e; rw [e]; cases forward <;> rfl
    · cases forward <;> simp [List.getLast?_eq_getElem?, List.head?_eq_getElem?]
  generalize hks : [key] = ks at h
  generalize hx' : (p', k') = x' at h
  cases h with
  | nil => cases hks
  | seek t => cases hks; exact absurd hk (Vi.seek_writing _)
  | write hk' h t =>
    cases hks
    cases t
    cases hx'
    exact hb

end

/-! ### Cases -/

/-- A character typed at the end of the line. -/
theorem typed_char {p p' : Pen} {c : Char} (hc : c ≠ '\n' ∧ c ≠ '\t') (h : Pen.Step (.char c) p p') (hr : p.right = []) :
    p'.left = p.left ++ [c] ∧ p'.right = [] := by
  cases h with
  | type h hm => exact ⟨rfl, hr⟩
  | restart h hm hp => exact ⟨rfl, hr⟩
  | move h => simp [Moves] at h
  | inert h => simp [Inert] at h
  | enter _ => exact absurd rfl hc.1

/-- A search begun on the empty line, with something typed. -/
def huntKeys : List Key := [.char 'l', .char 's']

theorem huntKeys_can (entries : List Text) (forward : Bool) (x : Pen × Option Nat) : Hunts.Can entries forward huntKeys x := by
  have hw : ∀ c : Char, c ≠ '\n' → c ≠ '\t' → WritingKey (.char c) := fun c h1 h2 => .inl (.inl ⟨c, rfl, h2, h1⟩)
  exact ⟨.inr ⟨hw _ (by decide) (by decide), by simp⟩, fun _ _ => ⟨.inr ⟨hw _ (by decide) (by decide), by simp⟩, fun _ _ => trivial⟩⟩

theorem hunted_ls {x : Pen × Option Nat} {p : Pen} (hl : p.left = []) (hr : p.right = [])
    (h : Hunts (texts (hist someEntries)) false huntKeys (p, none) x) :
    x.1.left = ['l', 's'] ∧ x.1.right = [] ∧ quarry (texts (hist someEntries)) x = some ['l', 's', ' ', '-', 'l'] := by
  have hw : ∀ c : Char, c ≠ '\n' → c ≠ '\t' → WritingKey (.char c) := fun c h1 h2 => .inl (.inl ⟨c, rfl, h2, h1⟩)
  obtain ⟨p1, h1, h⟩ := hunts_write (hw _ (by decide) (by decide)) h
  obtain ⟨p2, h2, h⟩ := hunts_write (hw _ (by decide) (by decide)) h
  obtain ⟨e1, e2⟩ := typed_char (by decide) h1 hr
  obtain ⟨e3, e4⟩ := typed_char (by decide) h2 e2
  rw [hl] at e1
  rw [e1] at e3
  cases h
  refine ⟨e3, e4, ?_⟩
  unfold quarry Pen.text
  dsimp only
  rw [e1, e2, e3, e4, hl, hr]
  decide +kernel

/-- A case of the hypotheses of `C80_enter` and `C80_exact`. -/
example : (∀ r, Rack.Steps env.cc (texts (hist someEntries)) [] (Rack.fresh []) r → ∃ pen full last, r.hand = .pen pen full last ∧
      r.shelf.shown = none ∧ Hunts.Can (texts (hist someEntries)) false huntKeys (r.shelf.hunt (texts (hist someEntries)) pen false)) ∧
    (∃ x, Hunted env.cc (texts (hist someEntries)) [] [] false huntKeys x) ∧
    ∀ x, Hunted env.cc (texts (hist someEntries)) [] [] false huntKeys x →
      (quarry (texts (hist someEntries)) x).getD x.1.text = ['l', 's', ' ', '-', 'l'] := by
  have hw : ∀ c : Char, c ≠ '\n' → c ≠ '\t' → WritingKey (.char c) := fun c h1 h2 => .inl (.inl ⟨c, rfl, h2, h1⟩)
  have ht : ∀ c : Char, c ≠ '\n' → c ≠ '\t' → Types (.char c) := fun c h1 h2 => .inl ⟨c, rfl, h2, h1⟩
  refine ⟨fun r hr => ?_, ?_, fun x ⟨r, p, full, last, h1, h2, h3⟩ => ?_⟩
  · cases hr
    exact ⟨_, _, _, rfl, rfl, huntKeys_can _ _ _⟩
  · exact ⟨_, _, _, _, _, .nil _, rfl, .write (hw _ (by decide) (by decide)) (.type (ht _ (by decide) (by decide)) rfl)
      (.write (hw _ (by decide) (by decide)) (.type (ht _ (by decide) (by decide)) rfl) (.nil _))⟩
  · cases h1
    cases h2
    rw [(hunted_ls rfl rfl h3).2.2]
    rfl

example : okAnd (viWalks someEntries "" [.ctrl 'r', .char 'l', .char 's', .char '\n', .char 'z']) (fun txt _ => txt == "ls -l".toList) = true := by
  decide +kernel
example : okAnd (viWalks someEntries "" [.ctrl 'r', .char 'l', .char '\n']) (fun txt _ => txt == "git log".toList) = true := by decide +kernel
example : okAnd (viWalks someEntries "" [.ctrl 's', .char 'l', .char '\n']) (fun txt _ => txt == "ls -l".toList) = true := by decide +kernel

/-- What was found stays when a character is taken away. -/
example : okAnd (viWalks someEntries "" [.ctrl 'r', .char 'l', .char 's', .backspace, .char '\n']) (fun txt _ => txt == "ls -l".toList) = true := by
  decide +kernel
example : okAnd (viWalks someEntries "" [.ctrl 'r', .char 'l', .char 's', .backspace, .ctrl 'r', .char '\n']) (fun txt _ => txt == "git log".toList) = true := by
  decide +kernel

/-- After a line that no entry contains the search begins again. -/
example : okAnd (viWalks someEntries "" [.ctrl 's', .char 'm', .ctrl 's', .char '\n']) (fun txt _ => txt == "make test".toList) = true := by
  decide +kernel
example : okAnd (viWalks someEntries "" [.ctrl 's', .char 'm', .ctrl 's', .char 'q', .backspace, .char '\n']) (fun txt _ => txt == "make".toList) = true := by
  decide +kernel

/-- Nothing found, and the end of the input. -/
example : okAnd (viWalks someEntries "" [.ctrl 'r', .char 'l', .char 's', .char 'q', .char '\n']) (fun txt _ => txt == "lsq".toList) = true := by
  decide +kernel
example : okAnd (viWalks someEntries "" [.ctrl 'r', .char 'l', .char 's']) (fun txt _ => txt == "ls".toList) = true := by decide +kernel

/-- The entry found taken among the acts of C78, and the line goes on. -/
def questActs : List Act := [.quest false huntKeys true, .key (.char '!')]

theorem questActs_can : Rack.CanAll env.cc (texts (hist someEntries)) questActs (Rack.fresh []) := by
  have hw : ∀ c : Char, c ≠ '\n' → c ≠ '\t' → WritingKey (.char c) := fun c h1 h2 => .inl (.inl ⟨c, rfl, h2, h1⟩)
  refine ⟨⟨_, _, _, rfl, rfl, huntKeys_can _ _ _, fun x hx => ?_⟩, fun r1 h1 => ?_⟩
  · obtain ⟨-, h2, h3⟩ := hunted_ls rfl rfl hx
    exact ⟨by rw [h3]; simp, fun _ => h2⟩
  · cases h1 with | quest _ _ => ?_
    exact ⟨⟨_, _, _, rfl, hw _ (by decide) (by decide), by simp⟩, fun _ _ => trivial⟩

example : ∃ r, Rack.Steps env.cc (texts (hist someEntries)) questActs (Rack.fresh []) r ∧
    r.hand.left ++ r.hand.right = ['l', 's', ' ', '-', 'l', '!'] := by
  have key : okAnd (viWalks someEntries "" (questActs.flatMap Act.keys)) (fun txt _ => txt == ['l', 's', ' ', '-', 'l', '!']) = true := by
    decide +kernel
  obtain ⟨txt, t', h1, h2⟩ := of_okAnd key
  obtain ⟨r, h3, h4⟩ := (C78_end env ascii_apart _ _ _ rfl _ (.ofText []) rfl questActs questActs_can
    ((questActs.flatMap Act.keys).map fun k => (k, fun _ => [])) (by simp [List.map_map, Function.comp_def])).1 txt t'
    (by unfold viWalks at h1; rw [Spec.typed, List.map_map]; exact h1)
  exact ⟨r, h3, by rw [← h4]; simpa using h2⟩

/-- For undo it belongs to the insertion, and the dot repeats only the keys typed. -/
example : okAnd (viWalks someEntries "" [.ctrl 'r', .char 'l', .char 's', .right, .char '!', .esc, .char 'u']) (fun txt _ => txt == []) = true := by
  decide +kernel
example : okAnd (viWalks someEntries "" [.ctrl 'r', .char 'l', .char 's', .right, .char '!', .esc, .char '.']) (fun txt _ => txt == "ls -lls!!".toList) = true := by
  decide +kernel

end Liner.Props
