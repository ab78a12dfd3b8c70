import Verif.Proof.ViMove
import Verif.Spec.Board
/-
Motions as sequences of keys, in normal mode and after an operator.
-/

set_option linter.unusedSectionVars false

namespace Liner
namespace Vi
open Liner.Spec Liner.Editor M KM

/-- Pressing the keys. -/
abbrev PressGives [Around] (E : Env) (ks : List (Key × (Text → List Text))) (v : Vi) (s : Ed) (v' : Vi) (e : Bool)
    (p : Text × Text) : Prop :=
  GivesP (press keyMap E ks) (v, s) v' e p

section
variable [Around] (E : Env) {e e' : Bool} {l r l' r' : Text} {v v' : Vi} {s : Ed}

theorem press_nil (h : Open e s l r) : PressGives E [] v s v e (l, r) := gives_pure () h

theorem press_cons {k : Key} {c : Text → List Text} {ks : List (Key × (Text → List Text))} {v1 : Vi}
    {e1 : Bool} {l1 r1 : Text} {p : Text × Text} (hk : Seen s k) (h : Open e s l r)
    (h1 : Gives (handleKeyCore E k) (v, s) v1 e1 l1 r1)
    (h2 : ∀ s1, Open e1 s1 l1 r1 → PressGives E ks v1 s1 v' e' p) :
    PressGives E ((k, c) :: ks) v s v' e' p := by
  unfold PressGives press
  rw [GivesP, Gives, wp_bind]
  refine wp_mono (handleKey_gives E hk h c h1) (fun d t' h' => ?_) (fun _ _ h => h) (fun _ h => h)
  obtain ⟨v2, s2⟩ := t'
  obtain ⟨-, rfl, h'⟩ := h'
  exact h2 s2 h'

theorem press_append {ks ks' : List (Key × (Text → List Text))} {v1 : Vi} {e1 : Bool} {p1 p : Text × Text}
    (h1 : PressGives E ks v s v1 e1 p1)
    (h2 : ∀ s1, Open e1 s1 p1.1 p1.2 → PressGives E ks' v1 s1 v' e' p) :
    PressGives E (ks ++ ks') v s v' e' p := by
  induction ks generalizing v s with
  | nil =>
    obtain ⟨rfl, h⟩ := h1
    exact h2 s h
  | cons k ks ih =>
    rw [List.cons_append]
    unfold PressGives press at h1 ⊢
    rw [GivesP, Gives, wp_bind] at h1 ⊢
    refine wp_mono h1 (fun d t' h' => ?_) (fun _ _ h => h) (fun _ h => h)
    obtain ⟨v2, s2⟩ := t'
    exact ih h'

/-- The key map in normal mode. -/
theorem core_normal {n : Nat} {k : Key} (hv : v.modeStack = []) :
    coreFuel E (n + 1) k (v, s) = handleKeyNormal (coreFuel E n) E k (v, s) := by
  show coreStep (coreFuel E n) E k (v, s) = _
  unfold coreStep
  rw [bind_ok (show getK (v, s) = .ok v (v, s) from rfl), mode_nil hv]

theorem core_insert {n : Nat} {k : Key} (hv : v.modeStack = [.insert]) :
    coreFuel E (n + 1) k (v, s) = handleKeyInsert (coreFuel E n) E k (v, s) := by
  show coreStep (coreFuel E n) E k (v, s) = _
  unfold coreStep
  rw [bind_ok (show getK (v, s) = .ok v (v, s) from rfl), mode_cons hv]

theorem core_delete {n : Nat} {k : Key} {p : Nat} {st : List Mode} (hv : v.modeStack = .delete p :: st) :
    coreFuel E (n + 1) k (v, s) = handleKeyDeleteOrChange (coreFuel E n) E k (v, s) := by
  show coreStep (coreFuel E n) E k (v, s) = _
  unfold coreStep
  rw [bind_ok (show getK (v, s) = .ok v (v, s) from rfl), mode_cons hv]

theorem core_char {n : Nat} {k : Key} {m : CharMovement} {st : List Mode} (hv : v.modeStack = .moveToChar m :: st) :
    coreFuel E (n + 1) k (v, s) = handleKeyMoveToChar E k (.dir m) (v, s) := by
  show coreStep (coreFuel E n) E k (v, s) = _
  unfold coreStep
  rw [bind_ok (show getK (v, s) = .ok v (v, s) from rfl), mode_cons hv]

theorem core_g {n : Nat} {k : Key} {st : List Mode} (hv : v.modeStack = .g :: st) :
    coreFuel E (n + 1) k (v, s) = handleKeyG E k (v, s) := by
  show coreStep (coreFuel E n) E k (v, s) = _
  unfold coreStep
  rw [bind_ok (show getK (v, s) = .ok v (v, s) from rfl), mode_cons hv]

theorem core_replace {n : Nat} {k : Key} {st : List Mode} (hv : v.modeStack = .replace :: st) :
    coreFuel E (n + 1) k (v, s) = handleKeyReplace E k (v, s) := by
  show coreStep (coreFuel E n) E k (v, s) = _
  unfold coreStep
  rw [bind_ok (show getK (v, s) = .ok v (v, s) from rfl), mode_cons hv]

omit [Around] in
/-- A key given in the state `v`, leading to `v1`: typed keys and Esc in insert mode, and no operator of a
change given up.  If `b`, normal mode has been left before. -/
structure Inside (b : Bool) (k : Key) (v v1 : Vi) : Prop where
  busy : b = true → v.mode ≠ .normal
  typing : v.mode = .insert → Types k ∨ k = .esc
  change : v.mode ≠ .insert → Mode.insert ∈ v.modeStack → v1.mode ≠ .normal

/-- Keys given to the key map one after the other, each leading from what is known of the state to the
next, in every state of the editor. -/
inductive Chain (E : Env) (n : Nat) (b : Bool) : List Key → Vi → Bool → Text × Text → Vi → Bool → Text × Text → Prop
  | nil {v : Vi} {e : Bool} {p : Text × Text} : Chain E n b [] v e p v e p
  | cons {k : Key} {ks : List Key} {v v1 v' : Vi} {e e1 e' : Bool} {p p1 p' : Text × Text} (i : Inside b k v v1)
      (h : ∀ s, Open e s p.1 p.2 → GivesP (coreFuel E (n + 2) k) (v, s) v1 e1 p1)
      (t : Chain E n b ks v1 e1 p1 v' e' p') : Chain E n b (k :: ks) v e p v' e' p'

theorem Chain.one {n : Nat} {b : Bool} {k : Key} {p p' : Text × Text} (i : Inside b k v v')
    (h : ∀ s, Open e s p.1 p.2 → GivesP (coreFuel E (n + 2) k) (v, s) v' e' p') : Chain E n b [k] v e p v' e' p' :=
  .cons i h .nil

theorem Chain.append {n : Nat} {b : Bool} {ks ks' : List Key} {v1 : Vi} {e1 : Bool} {p p1 p' : Text × Text}
    (h1 : Chain E n b ks v e p v1 e1 p1) (h2 : Chain E n b ks' v1 e1 p1 v' e' p') :
    Chain E n b (ks ++ ks') v e p v' e' p' := by
  induction h1 with
  | nil => exact h2
  | cons i h t ih => exact .cons i h (ih h2)

theorem Chain.replay {n : Nat} {b : Bool} {ks : List Key} {p p' : Text × Text} (h : Chain E n b ks v e p v' e' p') :
    ∀ s, Open e s p.1 p.2 → GivesP (Vi.replay (coreFuel E (n + 2)) ks) (v, s) v' e' p' := by
  induction h with
  | nil => exact fun s h => gives_pure () h
  | cons _ h t ih => exact fun s hs => gives_bind (h s hs) fun _ s1 h1 => ih s1 h1

theorem Chain.press {b : Bool} {ks : List Key} {p p' : Text × Text} (h : Chain E 6 b ks v e p v' e' p') :
    ∀ (kcs : List (Key × (Text → List Text))) (s : Ed), kcs.map Prod.fst = ks → (∀ k ∈ ks, ∀ s, Seen s k) →
      Open e s p.1 p.2 → PressGives E kcs v s v' e' p' := by
  induction h with
  | nil =>
    intro kcs s hk _ h
    obtain rfl : kcs = [] := by simpa using hk
    exact press_nil E h
  | cons _ h t ih =>
    intro kcs s hk hs ho
    obtain ⟨⟨k', c⟩, kcs', rfl, rfl, hk'⟩ := List.map_eq_cons_iff.1 hk
    exact press_cons E (hs _ (List.mem_cons_self ..) s) ho (h s ho) fun s1 h1 =>
      ih kcs' s1 hk' (fun k hk => hs k (List.mem_cons_of_mem _ hk)) h1

/-- The keys of a whole command: the first in normal mode, the others inside the command. -/
inductive Whole (E : Env) (n : Nat) : List Key → Vi → Bool → Text × Text → Vi → Bool → Text × Text → Prop
  | cons {k : Key} {ks : List Key} {v v1 v' : Vi} {e e1 e' : Bool} {p p1 p' : Text × Text}
      (h : ∀ s, Open e s p.1 p.2 → GivesP (coreFuel E (n + 2) k) (v, s) v1 e1 p1)
      (t : Chain E n true ks v1 e1 p1 v' e' p') : Whole E n (k :: ks) v e p v' e' p'

theorem Whole.one {n : Nat} {k : Key} {p p' : Text × Text}
    (h : ∀ s, Open e s p.1 p.2 → GivesP (coreFuel E (n + 2) k) (v, s) v' e' p') : Whole E n [k] v e p v' e' p' :=
  .cons h .nil

theorem Whole.append {n : Nat} {ks ks' : List Key} {v1 : Vi} {e1 : Bool} {p p1 p' : Text × Text}
    (h1 : Whole E n ks v e p v1 e1 p1) (h2 : Chain E n true ks' v1 e1 p1 v' e' p') :
    Whole E n (ks ++ ks') v e p v' e' p' := by
  cases h1 with
  | cons h t => exact .cons h (t.append E h2)

theorem Inside.weak {b : Bool} {k : Key} {v1 : Vi} (i : Inside b k v v1) : Inside false k v v1 :=
  ⟨(fun h => by simp at h), i.typing, i.change⟩

theorem Chain.weak {n : Nat} {b : Bool} {ks : List Key} {p p' : Text × Text} (h : Chain E n b ks v e p v' e' p') :
    Chain E n false ks v e p v' e' p' := by
  induction h with
  | nil => exact .nil
  | cons i h t ih => exact .cons i.weak h ih

/-- In normal mode. -/
theorem Inside.normal {k : Key} {v1 : Vi} (hv : v.modeStack = []) : Inside false k v v1 :=
  ⟨(fun h => by simp at h), fun h => (by rw [mode_nil hv] at h; simp at h), fun _ h => (by rw [hv] at h; cases h)⟩

theorem Whole.chain {n : Nat} {ks : List Key} {p p' : Text × Text} (hv : v.modeStack = [])
    (h : Whole E n ks v e p v' e' p') : Chain E n false ks v e p v' e' p' := by
  cases h with
  | cons h t => exact .cons (.normal hv) h (t.weak E)

/-- After an operator or in a mode that waits for a key: a key that does not end in normal mode if it is
a change. -/
theorem Inside.wait {k : Key} {v1 : Vi} {b : Bool} {md : Mode} {st : List Mode} (hv : v.modeStack = md :: st)
    (hn : md ≠ .normal) (hi : md ≠ .insert) (h : Mode.insert ∈ st → v1.mode ≠ .normal) : Inside b k v v1 := by
  have hm : v.mode = md := mode_cons hv
  refine ⟨fun _ => by rw [hm]; exact hn, fun h => absurd (hm.symm.trans h) hi, fun _ h' => h ?_⟩
  rw [hv] at h'
  rcases List.mem_cons.1 h' with h' | h'
  · exact absurd h'.symm hi
  · exact h'

omit [Around] in
/-- The character search remembered after the motion. -/
def newLast (v : Vi) (m : Motion) (ks : List Key) : Option (Char × CharMovement) := m.search ks v.lastCharMovement

omit [Around] in
/-- The count remembered for `.`: that of a character search is lost. -/
def keptCount (m : Motion) (n : Nat) : Nat :=
  match m with
  | .find _ _ => 0
  | _ => n

omit [Around] in
/-- The keys of a motion given to the normal mode key handler, from a state `v` in which an operator may
be pending: the first key. -/
structure Motioned (v v' : Vi) (m : Motion) (ks : List Key) : Prop where
  stack : v'.modeStack = baseOf v
  count : v'.count = 0
  search : v'.lastCharMovement = newLast v m ks
  /-- Without an operator nothing is remembered. -/
  plain : opOf v.modeStack = none → v'.lastCommand = v.lastCommand ∧ v'.lastInsert = v.lastInsert ∧
    v'.lastCount = v.lastCount ∧ v'.movementReset = true
  oper : (opOf v.modeStack).isSome = true → v'.lastInsert = v.currentInsert ∧ v'.secondaryCount = 0 ∧
    v'.lastCount = keptCount m v.count ∧
    v'.lastCommand = v.currentCommand ++ ks.tail ∧ v'.movementReset = decide (baseOf v = [])

omit [Around] in
/-- The motion leads to `q`; the operator can be carried out. -/
structure Target (E : Env) (v : Vi) (t : Text) (cur n : Nat) (m : Motion) (q : Nat) : Prop where
  leads : Leads E.cc t cur n m q
  fits : ∀ p, opOf v.modeStack = some p → p ≤ t.length ∧
    (m.inclusive = true → p < t.length ∧ q < t.length)

theorem does_gives {prog : ViM Unit} {t : Text} {cur n q : Nat} {m : Motion}
    (h : Does E prog v s t cur n m v') (ht : Target E v t cur n m q) :
    GivesP prog (v, s) v' (decide (baseOf v = [])) (finish v m.inclusive (t.take q) (t.drop q)) := by
  obtain ⟨q', h1, h2, h3⟩ := h
  cases leads_unique h1 ht.leads
  exact h3 ht.fits

theorem popAfter_none (h : opOf v.modeStack = none) : popAfter v =
    { v with modeStack := [], movementReset := true, count := if v.modeStack = [] then 0 else v.count } := by
  unfold popAfter; rw [h]

theorem popAfter_some (h : (opOf v.modeStack).isSome = true) : popAfter v =
    { v with modeStack := baseOf v, movementReset := decide (baseOf v = []), lastCommand := v.currentCommand, currentCommand := v.lastCommand, lastInsert := v.currentInsert, lastCount := v.count, count := 0, secondaryCount := 0 } := by
  unfold popAfter
  cases h' : opOf v.modeStack with
  | none => rw [h'] at h; cases h
  | some p => rfl

theorem baseOf_none (hu : Under v.modeStack) (h : opOf v.modeStack = none) : baseOf v = [] := by
  rcases hu with hu | ⟨p, b, hu, -⟩
  · unfold baseOf; rw [hu]; rfl
  · rw [hu] at h; cases h

/-- The state after a motion of one key. -/
theorem motioned_one {m : Motion} {k : Key} (hu : Under v.modeStack) (hm : ∀ mv c, m ≠ .find mv c) :
    Motioned v (popAfter v) m [k] := by
  have hl : newLast v m [k] = v.lastCharMovement := by
    cases m with
    | find mv c => exact absurd rfl (hm mv c)
    | _ => rfl
  have hs : keptCount m v.count = v.count := by
    cases m with
    | find mv c => exact absurd rfl (hm mv c)
    | _ => rfl
  cases hop : opOf v.modeStack with
  | none =>
    have hb := baseOf_none hu hop
    rw [popAfter_none hop]
    refine ⟨hb.symm, ?_, hl.symm, fun _ => ⟨rfl, rfl, rfl, rfl⟩, fun h => (by rw [hop] at h; cases h)⟩
    rcases hu with hu | ⟨p, b, hu, -⟩
    · simp [hu]
    · rw [hu] at hop; cases hop
  | some p =>
    rw [popAfter_some (by rw [hop]; rfl)]
    refine ⟨rfl, rfl, hl.symm, fun h => (by rw [hop] at h; cases h), fun _ => ⟨rfl, rfl, ?_, ?_, rfl⟩⟩
    · exact hs.symm
    · simp

/-- After `;` or `,`. -/
theorem motioned_again {mv : CharMovement} {c : Char} {k : Key} (hu : Under v.modeStack) :
    Motioned v (popAfter { v with count := 0 }) (.find mv c) [k] := by
  cases hop : opOf v.modeStack with
  | none =>
    have hb := baseOf_none hu hop
    rw [popAfter_none (v := { v with count := 0 }) hop]
    refine ⟨hb.symm, ?_, rfl, fun _ => ⟨rfl, rfl, rfl, rfl⟩, fun h => (by rw [hop] at h; cases h)⟩
    simp
  | some p =>
    rw [popAfter_some (v := { v with count := 0 }) (by simp [hop])]
    exact ⟨rfl, rfl, rfl, fun h => (by rw [hop] at h; cases h), fun _ => ⟨rfl, rfl, rfl, by simp, rfl⟩⟩

/-- After a character search. -/
theorem motioned_find {mv : CharMovement} {c : Char} {k k' : Key} (hu : Under v.modeStack) (b : Bool)
    (md : Mode) (hmd : md ≠ .insert) (hmd' : ∀ p, md ≠ .delete p) :
    Motioned v (popAfter { v with movementReset := b, modeStack := md :: v.modeStack, count := 0, lastCharMovement := some (c, mv), currentCommand := v.currentCommand ++ [k'] })
      (.find mv c) [k, k'] := by
  have hop' : opOf (md :: v.modeStack) = opOf v.modeStack := by
    cases md <;> first | rfl | exact absurd rfl (hmd' _)
  have hbase : (md :: v.modeStack).filter (· = .insert) = baseOf v := by
    rw [List.filter_cons_of_neg (by simp [hmd])]; rfl
  cases hop : opOf v.modeStack with
  | none =>
    have hb := baseOf_none hu hop
    rw [popAfter_none (by simpa [hop'] using hop)]
    exact ⟨hb.symm, by simp, rfl, fun _ => ⟨rfl, rfl, rfl, rfl⟩, fun h => (by rw [hop] at h; cases h)⟩
  | some p =>
    rw [popAfter_some (by simp [hop', hop])]
    refine ⟨hbase, rfl, rfl, fun h => (by rw [hop] at h; cases h), fun _ => ⟨rfl, rfl, rfl, rfl, ?_⟩⟩
    exact decide_eq_decide.mpr (Iff.of_eq (congrArg (· = []) hbase))

theorem motioned_g {big : Bool} {k k' : Key} (hu : Under v.modeStack) (b : Bool) :
    Motioned v { popAfter { v with movementReset := b, modeStack := .g :: v.modeStack, currentCommand := v.currentCommand ++ [k'] } with count := 0 }
      (.backEnd big) [k, k'] := by
  have hop' : opOf (.g :: v.modeStack) = opOf v.modeStack := rfl
  have hbase : (Mode.g :: v.modeStack).filter (· = .insert) = baseOf v := by
    rw [List.filter_cons_of_neg (by simp)]; rfl
  cases hop : opOf v.modeStack with
  | none =>
    have hb := baseOf_none hu hop
    rw [popAfter_none (by simpa [hop'] using hop)]
    exact ⟨hb.symm, rfl, rfl, fun _ => ⟨rfl, rfl, rfl, rfl⟩, fun h => (by rw [hop] at h; cases h)⟩
  | some p =>
    rw [popAfter_some (by simp [hop', hop])]
    refine ⟨hbase, rfl, rfl, fun h => (by rw [hop] at h; cases h), fun _ => ⟨rfl, rfl, rfl, rfl, ?_⟩⟩
    exact decide_eq_decide.mpr (Iff.of_eq (congrArg (· = []) hbase))

/-- What the keys of a motion do, the first one being handled by `handle_key_normal`. -/
def Runs (E : Env) (core : Key → ViM Unit) (v : Vi) (e : Bool) (l r : Text) (ks : List Key) (v' : Vi)
    (p : Text × Text) : Prop :=
  (∃ k, ks = [k] ∧ (∀ s, Seen s k) ∧
    ∀ s, Open e s l r → GivesP (handleKeyNormal core E k) (v, s) v' (decide (baseOf v = [])) p) ∨
  (∃ k c v1, ks = [k, .char c] ∧ (∀ s, Seen s k) ∧ c ≠ '\t' ∧ c ≠ '\n' ∧
    (∃ md, v1.modeStack = md :: v.modeStack ∧ (md = .g ∨ ∃ mv, md = .moveToChar mv)) ∧
    (∀ s, Open e s l r → Gives (handleKeyNormal core E k) (v, s) v1 false l r) ∧
    ∀ n s1, Open false s1 l r → GivesP (coreFuel E (n + 1) (.char c)) (v1, s1) v' (decide (baseOf v = [])) p)

theorem runs_motion (core : Key → ViM Unit) {m : Motion} {ks : List Key} {q : Nat} (hC : Apart E.cc)
    (hk : ks ∈ m.keys v.lastCharMovement) (hu : Under v.modeStack)
    (he : e = true → opOf v.modeStack = none) (hr : r ≠ [] ∨ l = [])
    (ht : Target E v (l ++ r) l.length v.moveCount m q) :
    ∃ v', Motioned v v' m ks ∧ Runs E core v e l r ks v'
      (finish v m.inclusive ((l ++ r).take q) ((l ++ r).drop q)) := by
  have hst : MoveStack v.modeStack := .inl hu
  have seen : ∀ c, c ≠ '\t' → c ≠ '\n' → ∀ s, Seen s (.char c) := fun c h1 h2 s => seen_char h1 h2
  have one : ∀ k c, (∀ mv c, m ≠ .find mv c) → (∀ s, Seen s k) →
      handleKeyNormal core E k = normalChar core E c →
      (∀ s, Open e s l r → Does E (normalChar core E c) v s (l ++ r) l.length v.moveCount m (popAfter v)) →
      ∃ v', Motioned v v' m [k] ∧ Runs E core v e l r [k] v'
        (finish v m.inclusive ((l ++ r).take q) ((l ++ r).drop q)) := by
    intro k c hm hs hc hd
    exact ⟨popAfter v, motioned_one hu hm, .inl ⟨k, rfl, hs, fun s h => by rw [hc]; exact does_gives E (hd s h) ht⟩⟩
  cases m with
  | left =>
    simp only [Motion.keys, List.mem_cons, List.not_mem_nil, or_false] at hk
    have hd := fun s (h : Open e s l r) => does_left E core hst he h
    rcases hk with rfl | rfl | rfl
    · exact one _ 'h' (by simp) (seen _ (by decide) (by decide)) rfl hd
    · exact one _ 'h' (by simp) (fun s => by constructor <;> simp) rfl hd
    · exact one _ 'h' (by simp) (fun s => by constructor <;> simp) rfl hd
  | right =>
    simp only [Motion.keys, List.mem_cons, List.not_mem_nil, or_false] at hk
    rcases hk with rfl | rfl
    · exact one _ 'l' (by simp) (seen _ (by decide) (by decide)) rfl (fun s h => does_right E core hst he h (.inl rfl))
    · exact one _ ' ' (by simp) (seen _ (by decide) (by decide)) rfl (fun s h => does_right E core hst he h (.inr rfl))
  | first =>
    simp only [Motion.keys, List.mem_cons, List.not_mem_nil, or_false] at hk
    subst hk
    exact one _ '^' (by simp) (seen _ (by decide) (by decide)) rfl (fun s h => does_first E core hst he h (.inl rfl))
  | last =>
    simp only [Motion.keys, List.mem_cons, List.not_mem_nil, or_false] at hk
    subst hk
    exact one _ '$' (by simp) (seen _ (by decide) (by decide)) rfl (fun s h => does_last E core hst he h)
  | word b =>
    simp only [Motion.keys, List.mem_cons, List.not_mem_nil, or_false] at hk
    subst hk
    exact one _ _ (by simp) (seen _ (by cases b <;> decide) (by cases b <;> decide)) rfl
      (fun s h => does_word E core hst he h b)
  | wordEnd b =>
    simp only [Motion.keys, List.mem_cons, List.not_mem_nil, or_false] at hk
    subst hk
    exact one _ _ (by simp) (seen _ (by cases b <;> decide) (by cases b <;> decide)) rfl
      (fun s h => does_wordEnd E core hst he h hC b)
  | back b =>
    simp only [Motion.keys, List.mem_cons, List.not_mem_nil, or_false] at hk
    subst hk
    exact one _ _ (by simp) (seen _ (by cases b <;> decide) (by cases b <;> decide)) rfl
      (fun s h => does_back E core hst he h hC b)
  | backEnd b =>
    simp only [Motion.keys, List.mem_cons, List.not_mem_nil, or_false] at hk
    subst hk
    refine ⟨_, motioned_g (k := .char 'g') (k' := .char (if b then 'E' else 'e')) hu true,
      .inr ⟨.char 'g', _, { v with movementReset := true, modeStack := .g :: v.modeStack }, rfl,
        seen _ (by decide) (by decide), by cases b <;> decide, by cases b <;> decide,
        ⟨_, rfl, .inl rfl⟩, fun s h => push_gives E h (by simp) (by simp) (by simp), fun n s1 h1 => ?_⟩⟩
    refine (wp_congr (core_g E (v := { v with movementReset := true, modeStack := .g :: v.modeStack }) rfl)).mpr ?_
    exact does_gives E (does_backEnd E (v := { v with movementReset := true, modeStack := .g :: v.modeStack })
      (.inr (.inr ⟨_, rfl, hu⟩)) (by simp) h1 b hr) ⟨ht.leads, ht.fits⟩
  | find mv c =>
    have again : ∀ (k : Key) (arg : MoveArg), arg.isDir = false → (∀ s, Seen s k) →
        handleKeyNormal core E k = handleKeyMoveToChar E k arg →
        resolveMove k arg v.lastCharMovement = some (c, mv) →
        ∃ v', Motioned v v' (.find mv c) [k] ∧ Runs E core v e l r [k] v'
          (finish v (Motion.find mv c).inclusive ((l ++ r).take q) ((l ++ r).drop q)) := by
      intro k arg ha hs hc hres
      refine ⟨_, motioned_again hu, .inl ⟨k, rfl, hs, fun s h => ?_⟩⟩
      have hd := does_find E hst he h hres
      rw [if_neg (by simp [ha])] at hd
      rw [hc]; exact does_gives E hd ht
    simp only [Motion.keys, List.mem_append] at hk
    rcases hk with (hk | hk) | hk
    · split at hk
      · cases hk
      rename_i hc
      rw [not_or] at hc
      simp only [List.mem_cons, List.not_mem_nil, or_false] at hk
      subst hk
      refine ⟨_, motioned_find (mv := mv) (c := c) (k := .char (searchKey mv)) (k' := .char c) hu true
        (.moveToChar mv) (by simp) (by simp),
        .inr ⟨.char (searchKey mv), c, { v with movementReset := true, modeStack := .moveToChar mv :: v.modeStack },
          rfl, seen _ (by cases mv <;> decide) (by cases mv <;> decide), hc.1, hc.2, ⟨_, rfl, .inr ⟨_, rfl⟩⟩, fun s h => ?_, fun n s1 h1 => ?_⟩⟩
      · have := push_gives E (m := .moveToChar mv) (v := v) h (by simp) (by simp) (by simp)
        cases mv <;> exact this
      · refine (wp_congr (core_char E (v := { v with movementReset := true, modeStack := .moveToChar mv :: v.modeStack }) rfl)).mpr ?_
        have := does_find E (v := { v with movementReset := true, modeStack := .moveToChar mv :: v.modeStack })
          (.inr (.inl ⟨_, _, rfl, hu⟩)) (by simp) h1 (key := .char c) (arg := .dir mv) (m := mv) (c := c) rfl
        rw [if_pos (show (MoveArg.dir mv).isDir = true from rfl)] at this
        exact does_gives E this ⟨ht.leads, ht.fits⟩
    · split at hk
      · rename_i hl
        simp only [List.mem_cons, List.not_mem_nil, or_false] at hk
        subst hk
        exact again (.char ';') .repeat rfl (seen _ (by decide) (by decide)) rfl (by rw [hl]; rfl)
      · cases hk
    · split at hk
      · rename_i hl
        simp only [List.mem_cons, List.not_mem_nil, or_false] at hk
        subst hk
        exact again (.char ',') .reverseRepeat rfl (seen _ (by decide) (by decide)) rfl
          (by rw [hl]; cases mv <;> rfl)
      · cases hk

/-- A motion in normal mode. -/
theorem normal_press {m : Motion} {ks : List Key} {kcs : List (Key × (Text → List Text))} {q : Nat}
    (hC : Apart E.cc) (hks : kcs.map Prod.fst = ks) (hk : ks ∈ m.keys v.lastCharMovement)
    (hv : v.modeStack = []) (h : Open true s l r) (hr : r ≠ [] ∨ l = [])
    (ht : Leads E.cc (l ++ r) l.length v.moveCount m q) :
    ∃ v', Motioned v v' m ks ∧
      PressGives E kcs v s v' true (rest true ((l ++ r).take q) ((l ++ r).drop q)) := by
  have hop : opOf v.modeStack = none := by rw [hv]; rfl
  obtain ⟨v', hm, hrun⟩ := runs_motion E (e := true) (coreFuel E 7) hC hk (.inl hv) (fun _ => hop) hr
    ⟨ht, fun p hp => by rw [hop] at hp; cases hp⟩
  refine ⟨v', hm, ?_⟩
  have hb : decide (baseOf v = []) = true := by simp [baseOf, hv]
  have hfin : ∀ a b, finish v m.inclusive a b = rest true a b := by
    intro a b; unfold finish; rw [hop]
  rw [hfin] at hrun
  rcases hrun with ⟨k, rfl, hs, hg⟩ | ⟨k, c, v1, rfl, hs, h1, h2, -, hg1, hg2⟩
  · rw [List.map_eq_singleton_iff] at hks
    obtain ⟨⟨k', cmp⟩, rfl, rfl⟩ := hks
    rw [hb] at hg
    exact press_cons E (hs s) h ((wp_congr (core_normal E hv)).mpr (hg s h)) fun s1 h1 => press_nil E h1
  · obtain ⟨⟨k', cmp⟩, rest', rfl, rfl, hks2⟩ := List.map_eq_cons_iff.1 hks
    rw [List.map_eq_singleton_iff] at hks2
    obtain ⟨⟨k', cmp'⟩, rfl, rfl⟩ := hks2
    refine press_cons E (hs s) h ((wp_congr (core_normal E hv)).mpr (hg1 s h)) fun s1 h1' => ?_
    have := hg2 7 s1 h1'
    rw [hb] at this
    exact press_cons E (seen_char h1 h2) h1' this fun s2 h2' => press_nil E h2'

theorem movement_first {last : Option (Char × CharMovement)} {m : Motion} {ks : List Key} {k : Key}
    (h : ks ∈ m.keys last) (hk : ks.head? = some k) : isMovementKey k = true := by
  cases m with
  | find mv c =>
    simp only [Motion.keys, List.mem_append] at h
    rcases h with (h | h) | h
    · split at h
      · cases h
      · simp only [List.mem_cons, List.not_mem_nil, or_false] at h
        subst h
        simp only [List.head?_cons, Option.some.injEq] at hk
        subst hk
        cases mv <;> rfl
    · split at h
      · simp only [List.mem_cons, List.not_mem_nil, or_false] at h
        subst h; cases hk; rfl
      · cases h
    · split at h
      · simp only [List.mem_cons, List.not_mem_nil, or_false] at h
        subst h; cases hk; rfl
      · cases h
  | left =>
    simp only [Motion.keys, List.mem_cons, List.not_mem_nil, or_false] at h
    rcases h with rfl | rfl | rfl <;> (cases hk; rfl)
  | right =>
    simp only [Motion.keys, List.mem_cons, List.not_mem_nil, or_false] at h
    rcases h with rfl | rfl <;> (cases hk; rfl)
  | first | last =>
    simp only [Motion.keys, List.mem_cons, List.not_mem_nil, or_false] at h
    subst h; cases hk; rfl
  | word b | wordEnd b | back b | backEnd b =>
    simp only [Motion.keys, List.mem_cons, List.not_mem_nil, or_false] at h
    subst h; cases hk; cases b <;> rfl

omit [Around] in
/-- The count of an operator and its motion. -/
def bothCounts (v : Vi) : Nat := moveCount { v with count := operatorCount v.count v.secondaryCount }

omit [Around] in
/-- After an operator. -/
structure Operated (v v' : Vi) (base : List Mode) (m : Motion) (ks : List Key) : Prop where
  stack : v'.modeStack = base
  count : v'.count = 0
  second : v'.secondaryCount = 0
  search : v'.lastCharMovement = newLast v m ks
  insert : v'.lastInsert = v.currentInsert
  command : v'.lastCommand = v.currentCommand ++ ks
  lastCount : v'.lastCount = keptCount m (operatorCount v.count v.secondaryCount)
  reset : v'.movementReset = decide (base = [])

theorem end_insert {base : List Mode} {v' : Vi} (hb : base = [] ∨ base = [.insert]) (h : v'.modeStack = base)
    (hi : Mode.insert ∈ base) : v'.mode ≠ .normal := by
  rcases hb with rfl | rfl
  · cases hi
  · rw [mode_cons h]; simp

/-- A motion after an operator given at `p`. -/
theorem oper_chain {n : Nat} {bb : Bool} {m : Motion} {ks : List Key} {p q : Nat}
    {base : List Mode} (hC : Apart E.cc)
    (hk : ks ∈ m.keys v.lastCharMovement) (hv : v.modeStack = .delete p :: base)
    (hbase : base = [] ∨ base = [.insert]) (hr : r ≠ [] ∨ l = [])
    (ht : Leads E.cc (l ++ r) l.length (bothCounts v) m q) (hp : p ≤ (l ++ r).length)
    (hi : m.inclusive = true → p < (l ++ r).length ∧ q < (l ++ r).length) :
    ∃ v', Operated v v' base m ks ∧ (∀ k ∈ ks, ∀ s, Seen s k) ∧
      Chain E n bb ks v false (l, r) v' (decide (base = [])) (rest (decide (base = []))
        (cut (l ++ r) p q m.inclusive).1 (cut (l ++ r) p q m.inclusive).2) := by
  have hq : q ≤ (l ++ r).length := leads_le (by simp) ht
  -- the first key
  obtain ⟨k, kt, hkk⟩ : ∃ k kt, ks = k :: kt := by
    cases ks with
    | nil =>
      exfalso
      revert hk
      cases m with
      | find mv c => simp [Motion.keys]
      | _ => simp [Motion.keys]
    | cons k kt => exact ⟨k, kt, rfl⟩
  have hmk : isMovementKey k = true := movement_first hk (by rw [hkk]; rfl)
  let v0 : Vi := { v with count := operatorCount v.count v.secondaryCount, currentCommand := v.currentCommand ++ [k] }
  have hop : opOf v0.modeStack = some p := by show opOf v.modeStack = _; rw [hv]; rfl
  have hb0 : baseOf v0 = base := by
    show v.modeStack.filter _ = _
    rw [hv, List.filter_cons_of_neg (by simp), base_filter hbase]
  obtain ⟨v', hm, hrun⟩ := runs_motion E (coreFuel E (n + 1)) (v := v0) (ks := ks) hC hk (.inr ⟨p, base, hv, hbase⟩)
    (e := false) (by simp) hr ⟨ht, fun p' hp' => by rw [hop] at hp'; cases hp'; exact ⟨hp, hi⟩⟩
  have hfin : finish v0 m.inclusive ((l ++ r).take q) ((l ++ r).drop q) = rest (decide (base = []))
        (cut (l ++ r) p q m.inclusive).1 (cut (l ++ r) p q m.inclusive).2 := by
    unfold finish
    rw [hop, hb0]
    simp only [List.take_append_drop, List.length_take, Nat.min_eq_left hq]
  rw [hfin] at hrun
  have hO := hm.oper (by rw [hop]; rfl)
  have hO' : Operated v v' base m ks := by
    refine ⟨by rw [hm.stack, hb0], hm.count, hO.2.1, ?_, hO.1, ?_, hO.2.2.1, by rw [hO.2.2.2.2, hb0]⟩
    · rw [hm.search]; unfold newLast; rfl
    · rw [hO.2.2.2.1, hkk]; show (v.currentCommand ++ [k]) ++ _ = _; simp
  have core : ∀ {s : Ed} {v1 : Vi} {e1 : Bool} {l1 r1 : Text},
      Gives (handleKeyNormal (coreFuel E (n + 1)) E k) (v0, s) v1 e1 l1 r1 →
      Gives (coreFuel E (n + 2) k) (v, s) v1 e1 l1 r1 := by
    intro s v1 e1 l1 r1 hg
    refine (wp_congr (core_delete E hv)).mpr ?_
    unfold handleKeyDeleteOrChange
    refine gives_getK ?_
    rw [if_pos (.inl hmk)]
    exact gives_mod hg
  have ins : ∀ {k : Key}, v'.modeStack = base → Inside bb k v v' := fun hb =>
    .wait hv (by simp) (by simp) fun hi => end_insert hbase hb hi
  rcases hrun with ⟨k', hkk', hs, hg⟩ | ⟨k', c, v1, hkk', hs, h1, h2, ⟨md, hmd, hmw⟩, hg1, hg2⟩
  · refine ⟨v', hO', ?_, ?_⟩
    · rw [hkk']; simpa using hs
    rw [hkk] at hkk' ⊢
    cases hkk'
    rw [hb0] at hg
    exact .one E (ins hO'.stack) fun s h => core (hg s h)
  · refine ⟨v', hO', ?_, ?_⟩
    · rw [hkk']
      simp only [List.mem_cons, List.not_mem_nil, or_false, forall_eq_or_imp, forall_eq]
      exact ⟨hs, fun s => seen_char h1 h2⟩
    rw [hkk] at hkk' ⊢
    cases hkk'
    rw [hb0] at hg2
    have hmn : md ≠ .normal := by rcases hmw with rfl | ⟨mv, rfl⟩ <;> simp
    have hmi : md ≠ .insert := by rcases hmw with rfl | ⟨mv, rfl⟩ <;> simp
    refine .cons (p1 := (l, r)) (.wait hv (by simp) (by simp) fun _ => by rw [mode_cons hmd]; exact hmn)
      (fun s h => core (hg1 s h)) (.one E (.wait hmd hmn hmi fun hi' => ?_) fun s h => hg2 (n + 1) s h)
    have hst : v0.modeStack = .delete p :: base := hv
    rw [hst] at hi'
    rcases List.mem_cons.1 hi' with hi' | hi'
    · cases hi'
    · exact end_insert hbase hO'.stack hi'

/-- The same, pressing the keys. -/
theorem delete_press {m : Motion} {ks : List Key} {kcs : List (Key × (Text → List Text))} {p q : Nat}
    {base : List Mode} (hC : Apart E.cc) (hks : kcs.map Prod.fst = ks)
    (hk : ks ∈ m.keys v.lastCharMovement) (hv : v.modeStack = .delete p :: base)
    (hbase : base = [] ∨ base = [.insert]) (h : Open false s l r) (hr : r ≠ [] ∨ l = [])
    (ht : Leads E.cc (l ++ r) l.length (bothCounts v) m q) (hp : p ≤ (l ++ r).length)
    (hi : m.inclusive = true → p < (l ++ r).length ∧ q < (l ++ r).length) :
    ∃ v', Operated v v' base m ks ∧
      PressGives E kcs v s v' (decide (base = [])) (rest (decide (base = []))
        (cut (l ++ r) p q m.inclusive).1 (cut (l ++ r) p q m.inclusive).2) := by
  obtain ⟨v', h1, h2, h3⟩ := oper_chain E (n := 6) (bb := true) hC hk hv hbase hr ht hp hi
  exact ⟨v', h1, h3.press E kcs s hks h2 h⟩

/-! ### Operators and counts -/

theorem d_gives {n : Nat} (hv : v.modeStack = []) (h : Open e s l r) :
    Gives (coreFuel E (n + 1) (.char 'd')) (v, s)
      { v with currentCommand := [.char 'd'], currentInsert := none, movementReset := true, modeStack := [.delete l.length], secondaryCount := v.count, count := 0 }
      false l r := by
  refine (wp_congr (core_normal E hv)).mpr ?_
  show Gives (do
    modK fun v => { v with currentCommand := [] }
    modK fun v => { v with currentInsert := none, currentCommand := [.char 'd'] }
    let s ← ed get
    setMode E (.delete s.cursor)
    modK fun v => { v with secondaryCount := v.count, count := 0 }) (v, s) _ _ _ _
  refine gives_mod (gives_mod (gives_get ?_))
  have := gives_bind (push_gives E (m := .delete s.cursor)
    (v := { v with currentInsert := none, currentCommand := [.char 'd'] }) h (by simp) (by simp) (by simp))
    fun _ s' h' => gives_modK (f := fun v => { v with secondaryCount := v.count, count := 0 }) h'
  rw [h.here.2] at this ⊢
  rw [hv] at this ⊢
  exact this

/-- Entering insert mode from normal mode. -/
theorem enter_gives (hv : v.modeStack = []) (h : Open e s l r) :
    Gives (setModePreserveLast E .insert) (v, s) { v with movementReset := false, modeStack := [.insert] }
      false l r := by
  unfold setModePreserveLast
  refine gives_bind (e := false) (l := l) (r := r) (v' := v) (gives_setNoEol (v := v) false h) fun _ s1 h1 => gives_mod ?_
  rw [hv]
  refine gives_bind (e := false) (l := l) (r := r)
    (v' := { v with movementReset := false, modeStack := [.insert] }) ?_ fun _ s2 h2 => ?_
  · have := setEditorMode_gives E (v := { v with movementReset := false, modeStack := [.insert] }) (.inr rfl) h1
    rwa [rest_false] at this
  · exact gives_onBuf (fun b => by rfl) h2

theorem insert_gives (hv : v.modeStack = []) (h : Open e s l r) :
    Gives (setMode E .insert) (v, s)
      { v with movementReset := false, modeStack := [.insert], lastCount := 0, lastCommand := [] } false l r := by
  unfold setMode
  exact gives_bind (enter_gives E hv h) fun _ s1 h1 =>
    gives_modK (f := fun v => { v with lastCount := 0, lastCommand := [] }) h1

theorem c_gives {n : Nat} (hv : v.modeStack = []) (h : Open e s l r) :
    Gives (coreFuel E (n + 1) (.char 'c')) (v, s)
      { v with currentCommand := [], currentInsert := some (.char 'c'), movementReset := true, modeStack := [.delete l.length, .insert], lastCount := 0, lastCommand := [], secondaryCount := v.count, count := 0 }
      false l r := by
  refine (wp_congr (core_normal E hv)).mpr ?_
  show Gives (do
    modK fun v => { v with currentCommand := [] }
    modK fun v => { v with currentInsert := some (.char 'c') }
    setMode E .insert
    let s ← ed get
    setMode E (.delete s.cursor)
    modK fun v => { v with secondaryCount := v.count, count := 0 }) (v, s) _ _ _ _
  refine gives_mod (gives_mod (gives_bind (insert_gives E (v := { v with currentCommand := [], currentInsert := some (.char 'c') }) hv h) fun _ s1 h1 => gives_get ?_))
  have := gives_bind (push_gives E (m := .delete s1.cursor)
    (v := { v with currentCommand := [], currentInsert := some (.char 'c'), movementReset := false, modeStack := [.insert], lastCount := 0, lastCommand := [] }) h1 (by simp) (by simp) (by simp))
    fun _ s' h' => gives_modK (f := fun v => { v with secondaryCount := v.count, count := 0 }) h'
  rw [h1.here.2] at this ⊢
  exact this

/-- A digit, in normal mode or after an operator, that is not the key `0`. -/
theorem digit_gives {n : Nat} {c : Char} {d : Nat} (hd : digit? c = some d) (h0 : ¬ (d = 0 ∧ v.count = 0))
    (hv : v.modeStack = [] ∨ ∃ p base, v.modeStack = .delete p :: base) (h : Open e s l r) :
    Gives (coreFuel E (n + 1) (.char c)) (v, s) { v with count := satAdd (satMul v.count 10) d } e l r := by
  have hdig : ∀ core : Key → ViM Unit, Gives (normalChar core E c) (v, s)
      { v with count := satAdd (satMul v.count 10) d } e l r := by
    intro core
    have hn : ∀ c', digit? c' = none → c ≠ c' := by
      rintro c' h' rfl; rw [hd] at h'; cases h'
    unfold normalChar
    simp only [if_neg (hn 'i' rfl), if_neg (hn 'a' rfl), if_neg (hn 'A' rfl), if_neg (hn 'I' rfl),
      if_neg (hn 's' rfl), if_neg (hn 'r' rfl), if_neg (not_or.2 ⟨hn 'd' rfl, hn 'c' rfl⟩), if_neg (hn 'D' rfl),
      if_neg (hn 'C' rfl), if_neg (hn '.' rfl), if_neg (hn 'h' rfl),
      if_neg (not_or.2 ⟨hn 'l' rfl, hn ' ' rfl⟩), if_neg (hn 'k' rfl), if_neg (hn 'j' rfl), if_neg (hn 't' rfl),
      if_neg (hn 'T' rfl), if_neg (hn 'f' rfl), if_neg (hn 'F' rfl), if_neg (hn ';' rfl), if_neg (hn ',' rfl),
      if_neg (hn 'w' rfl), if_neg (hn 'W' rfl), if_neg (hn 'e' rfl), if_neg (hn 'E' rfl), if_neg (hn 'b' rfl),
      if_neg (hn 'B' rfl), if_neg (hn 'g' rfl), if_neg (hn '^' rfl), if_neg (hn '$' rfl), if_neg (hn 'x' rfl),
      if_neg (hn '~' rfl), if_neg (hn 'u' rfl), hd]
    refine gives_getK ?_
    rw [if_neg h0]
    exact gives_modK (f := fun v => { v with count := satAdd (satMul v.count 10) d }) h
  rcases hv with hv | ⟨p, base, hv⟩
  · exact (wp_congr (core_normal E hv)).mpr (hdig _)
  · refine (wp_congr (core_delete E hv)).mpr ?_
    unfold handleKeyDeleteOrChange
    refine gives_getK ?_
    have hne : ∀ c', digit? c' = none → c ≠ c' := by
      rintro c' h' rfl; rw [hd] at h'; cases h'
    rw [if_neg, if_pos]
    · exact hdig _
    · simp [hd]
    · rintro (h1 | ⟨h1, h2⟩)
      · unfold isMovementKey at h1
        simp only [decide_eq_true_eq] at h1
        simp only [List.mem_cons, List.not_mem_nil, or_false] at h1
        rcases h1 with h1 | h1 | h1 | h1 | h1 | h1 | h1 | h1 | h1 | h1 | h1 | h1 | h1 | h1 | h1 | h1 | h1 | h1 <;>
          exact hne _ (by decide) h1
      · cases h1
        exact h0 ⟨by rw [show digit? '0' = some 0 from rfl] at hd; cases hd; rfl, h2⟩

/-! ### Numbers -/

theorem sat_step (c d : Nat) : satAdd (satMul (min c u32max) 10) d = min (10 * c + d) u32max := by
  unfold satAdd satMul
  unfold u32max
  omega

theorem decimal_pos : ∀ (ds : List Char) (c : Nat), 0 < c → 0 < ds.foldl (fun n d => 10 * n + digitValue d) c
  | [], c, hc => hc
  | d :: ds, c, hc => decimal_pos ds (10 * c + digitValue d) (by omega)

theorem digit_value {c : Char} (h : c ∈ digitChars) : digit? c = some (digitValue c) := by
  simp only [digitChars, List.mem_cons, List.not_mem_nil, or_false] at h
  rcases h with rfl | rfl | rfl | rfl | rfl | rfl | rfl | rfl | rfl | rfl <;> rfl

theorem digits_chain {n : Nat} {b : Bool} {p : Text × Text} : ∀ (ds : List Char) (c0 : Nat) (v : Vi),
    (∀ d ∈ ds, d ∈ digitChars) → (0 < c0 ∨ ds.head? ≠ some '0') →
    v.count = min c0 u32max → ((b = false ∧ v.modeStack = []) ∨ ∃ p base, v.modeStack = .delete p :: base) →
    Chain E n b (ds.map Key.char) v e p
      { v with count := min (ds.foldl (fun n d => 10 * n + digitValue d) c0) u32max } e p
  | [], c0, v, hd, h0, hc, hv => by
    have h' : ({ v with count := min c0 u32max } : Vi) = v := by rw [← hc]
    show Chain E n b [] v e p { v with count := min c0 u32max } e p
    rw [h']
    exact .nil
  | d :: ds, c0, v, hd, h0, hc, hv => by
    have hdd := hd d (List.mem_cons_self ..)
    have hdv := digit_value hdd
    have hz : ¬ (digitValue d = 0 ∧ v.count = 0) := by
      rintro ⟨h1, h2⟩
      rcases h0 with h0 | h0
      · have h3 : u32max > 0 := by decide
        omega
      · apply h0
        rw [List.head?_cons]
        simp only [digitChars, List.mem_cons, List.not_mem_nil, or_false] at hdd
        rcases hdd with rfl | rfl | rfl | rfl | rfl | rfl | rfl | rfl | rfl | rfl <;>
          first | rfl | (exfalso; revert h1; decide)
    have hc1 : 0 < 10 * c0 + digitValue d := by
      by_contra hn
      have : c0 = 0 := by omega
      exact hz ⟨by omega, by rw [hc, this]; rfl⟩
    refine .cons ?_ (fun s h => digit_gives E hdv hz (hv.imp_left And.right) h) ?_
    · rcases hv with ⟨rfl, hv⟩ | ⟨p, base, hv⟩
      · exact .normal hv
      · exact .wait hv (by simp) (by simp) fun _ => by
          show v.mode ≠ .normal
          rw [mode_cons hv]; simp
    have hst : satAdd (satMul v.count 10) (digitValue d) = min (10 * c0 + digitValue d) u32max := by
      rw [hc, sat_step]
    rw [hst]
    exact digits_chain ds (10 * c0 + digitValue d) { v with count := min (10 * c0 + digitValue d) u32max }
      (fun x hx => hd x (List.mem_cons_of_mem _ hx)) (.inl hc1) rfl hv

theorem seen_digit {d : Char} (hd : d ∈ digitChars) : Seen s (.char d) := by
  refine seen_char ?_ ?_ <;> (rintro rfl; simp [digitChars] at hd)

/-- The digits of a count, from a state without one. -/
theorem digits_press {kcs : List (Key × (Text → List Text))} {ds : List Char}
    (hks : kcs.map Prod.fst = ds.map Key.char) (hd : Digits ds) (hc : v.count = 0)
    (hv : v.modeStack = [] ∨ ∃ p base, v.modeStack = .delete p :: base) (h : Open e s l r) :
    PressGives E kcs v s { v with count := min (decimal ds) u32max } e (l, r) :=
  (digits_chain E (n := 6) (b := false) (p := (l, r)) ds 0 v hd.1 (.inr hd.2) hc (hv.imp_left (⟨rfl, ·⟩))).press E kcs s hks
    (fun k hk s => by
      obtain ⟨d, h1, rfl⟩ := List.mem_map.1 hk
      exact seen_digit (hd.1 d h1)) h

theorem decimal_pos' {ds : List Char} (hd : Digits ds) (hne : ds ≠ []) : 0 < decimal ds := by
  cases ds with
  | nil => exact absurd rfl hne
  | cons d ds =>
    refine decimal_pos ds (10 * 0 + digitValue d) ?_
    have hdd := hd.1 d (List.mem_cons_self ..)
    have h0 := hd.2
    rw [List.head?_cons] at h0
    simp only [digitChars, List.mem_cons, List.not_mem_nil, or_false] at hdd
    rcases hdd with rfl | rfl | rfl | rfl | rfl | rfl | rfl | rfl | rfl | rfl <;>
      first | (exact absurd rfl h0) | decide

theorem moveCount_counted {ds : List Char} (hd : Digits ds) (v : Vi) :
    moveCount { v with count := min (decimal ds) u32max } = counted ds := by
  unfold moveCount counted
  by_cases hne : ds = []
  · subst hne; rfl
  · have := decimal_pos' hd hne
    rw [if_neg (by simp only; unfold u32max; omega), if_neg hne]
    rfl

theorem bothCounts_eq {ds ds' : List Char} (hd : Digits ds) (hd' : Digits ds') (v : Vi)
    (hc : v.count = min (decimal ds') u32max) (hs : v.secondaryCount = min (decimal ds) u32max) :
    bothCounts v = min (counted ds * counted ds') u32max := by
  unfold bothCounts operatorCount moveCount counted
  rw [hc, hs]
  by_cases h1 : ds = [] <;> by_cases h2 : ds' = []
  · subst h1; subst h2; rfl
  · subst h1
    have := decimal_pos' hd' h2
    have hm : min (decimal ds') u32max ≠ 0 := by unfold u32max; omega
    simp only [hm, if_false, h2]
    rw [show decimal [] = 0 from rfl, Nat.zero_min]
    simp only [if_true, hm, if_false]
    unfold u32max; omega
  · subst h2
    have := decimal_pos' hd h1
    have hm : min (decimal ds) u32max ≠ 0 := by unfold u32max; omega
    rw [show decimal [] = 0 from rfl, Nat.zero_min]
    simp only [if_true, hm, if_false, h1]
    unfold u32max; omega
  · have p1 := decimal_pos' hd h1
    have p2 := decimal_pos' hd' h2
    have hm : min (decimal ds) u32max ≠ 0 := by unfold u32max; omega
    have hm' : min (decimal ds') u32max ≠ 0 := by unfold u32max; omega
    have hmm : satMul (min (decimal ds) u32max) (min (decimal ds') u32max) ≠ 0 := by
      unfold satMul
      have : 0 < min (decimal ds) u32max * min (decimal ds') u32max := Nat.mul_pos (by omega) (by omega)
      unfold u32max at *
      omega
    simp only [hm, hm', if_false, h1, h2, hmm]
    rfl

theorem leads_lt {C : CharClass} {t : Text} {cur n q : Nat} {m : Motion} (hc : cur < t.length)
    (hi : m.inclusive = true) (hl : Leads C t cur n m q) : q < t.length := by
  cases m with
  | backEnd b =>
    rcases hl with hl | ⟨_, hl⟩
    · have := hl.1; omega
    · omega
  | find m c =>
    have hat : ∀ i, isAt t c i = true → i < t.length := by
      intro i hi
      unfold isAt at hi
      by_contra hge
      rw [List.getElem?_eq_none (by omega)] at hi
      cases hi
    cases m with
    | rightAt =>
      rcases hl with hl | ⟨_, hl⟩
      · exact hat _ hl.2.1
      · omega
    | rightUntil =>
      rcases hl with hl | ⟨_, hl⟩
      · have := hat _ hl.2.1; omega
      · omega
    | _ => cases hi
  | _ => cases hi

/-- A character search stays on the line. -/
theorem find_inside {C : CharClass} {n q : Nat} {m : CharMovement} {c : Char} (hr : r ≠ [] ∨ l = [])
    (hl : Leads C (l ++ r) l.length n (.find m c) q) : min q ((l ++ r).length - 1) = q := by
  have hat : ∀ i, isAt (l ++ r) c i = true → i < (l ++ r).length := by
    intro i hi
    unfold isAt at hi
    by_contra hge
    rw [List.getElem?_eq_none (by omega)] at hi
    cases hi
  have hcur : l.length ≤ (l ++ r).length - 1 := by
    rw [List.length_append]
    rcases hr with hr | hr
    · have := List.length_pos_iff.2 hr; omega
    · subst hr; simp
  apply Nat.min_eq_left
  cases m with
  | rightAt =>
    rcases hl with hl | ⟨_, hl⟩
    · have := hat _ hl.2.1; omega
    · omega
  | rightUntil =>
    rcases hl with hl | ⟨_, hl⟩
    · have := hat _ hl.2.1; omega
    · omega
  | leftAt =>
    rcases hl with hl | ⟨_, hl⟩
    · have := hl.1; omega
    · omega
  | leftUntil =>
    rcases hl with ⟨_, hl⟩ | ⟨_, hl⟩
    · have := hl.1; omega
    · omega

/-- Pressing the keys, unless there is an error, leads to a state of the key map with `Q`, and to
the given text and cursor. -/
abbrev PressSat (E : Env) (ks : List (Key × (Text → List Text))) (v : Vi) (s : Ed) (Q : Vi → Prop) (e : Bool)
    (p : Text × Text) : Prop :=
  Wp (press keyMap E ks) (v, s) (fun _ t' => Q t'.1 ∧ Open e t'.2 p.1 p.2) T2 (· ≠ .op)

theorem sat_of {ks : List (Key × (Text → List Text))} {Q : Vi → Prop} {p : Text × Text} (hq : Q v')
    (h : PressGives E ks v s v' e p) : PressSat E ks v s Q e p :=
  wp_mono h (fun _ _ h' => ⟨h'.1 ▸ hq, h'.2⟩) (fun _ _ h => h) (fun _ h => h)

theorem sat_append {ks ks' : List (Key × (Text → List Text))} {v1 : Vi} {e1 : Bool} {p1 p : Text × Text}
    {Q : Vi → Prop} (h1 : PressGives E ks v s v1 e1 p1)
    (h2 : ∀ s1, Open e1 s1 p1.1 p1.2 → PressSat E ks' v1 s1 Q e' p) :
    PressSat E (ks ++ ks') v s Q e' p := by
  induction ks generalizing v s with
  | nil =>
    obtain ⟨rfl, h⟩ := h1
    exact h2 s h
  | cons k ks ih =>
    rw [List.cons_append]
    unfold PressGives press at h1
    unfold PressSat press
    rw [GivesP, Gives, wp_bind] at h1
    rw [wp_bind]
    refine wp_mono h1 (fun d t' h' => ?_) (fun _ _ h => h) (fun _ h => h)
    obtain ⟨v2, s2⟩ := t'
    exact ih h'

theorem press_one {k : Key} {c : Text → List Text} (hk : Seen s k) (h : Open e s l r)
    (h1 : Gives (handleKeyCore E k) (v, s) v' e' l' r') : PressGives E [(k, c)] v s v' e' (l', r') :=
  press_cons E hk h h1 fun _ h' => press_nil E h'

/-- Counts, an operator, a motion. -/
theorem operator_press {op : Char} {base : List Mode} (hop : op = 'd' ∧ base = [] ∨ op = 'c' ∧ base = [.insert])
    {m : Motion} {ds ds' : List Char} {ks : List Key} {kcs : List (Key × (Text → List Text))} {q : Nat}
    (hC : Apart E.cc) (hd : Digits ds) (hd' : Digits ds')
    (hks : kcs.map Prod.fst = ds.map Key.char ++ .char op :: (ds'.map Key.char ++ ks))
    (hk : ks ∈ m.keys v.lastCharMovement) (hv : v.modeStack = []) (hc : v.count = 0) (h : Open true s l r)
    (hr : r ≠ [] ∨ l = []) (hi : m.inclusive = true → r ≠ [])
    (ht : Leads E.cc (l ++ r) l.length (min (counted ds * counted ds') u32max) m q) :
    PressSat E kcs v s (fun v' => v'.modeStack = base ∧ v'.count = 0 ∧ v'.secondaryCount = 0 ∧
        v'.lastCharMovement = newLast v m ks ∧ v'.lastInsert = (if op = 'c' then some (.char 'c') else none) ∧
        v'.lastCommand = (if op = 'c' then [] else [.char 'd']) ++ ks)
      (decide (base = [])) (rest (decide (base = []))
        (cut (l ++ r) l.length q m.inclusive).1 (cut (l ++ r) l.length q m.inclusive).2) := by
  obtain ⟨k1, k2, rfl, h1, h2⟩ := List.map_eq_append_iff.1 hks
  obtain ⟨⟨ko, cmp⟩, k3, rfl, ho, h3⟩ := List.map_eq_cons_iff.1 h2
  obtain ⟨k4, k5, rfl, h4, h5⟩ := List.map_eq_append_iff.1 h3
  dsimp only at ho
  subst ho
  have hlt : m.inclusive = true → l.length < (l ++ r).length := by
    intro h'
    have := List.length_pos_iff.2 (hi h')
    rw [List.length_append]; omega
  have last : ∀ v2 : Vi, v2.modeStack = .delete l.length :: base → v2.lastCharMovement = v.lastCharMovement →
      v2.count = 0 → v2.secondaryCount = min (decimal ds) u32max → (base = [] ∨ base = [.insert]) →
      v2.currentInsert = (if op = 'c' then some (.char 'c') else none) →
      v2.currentCommand = (if op = 'c' then [] else [.char 'd']) →
      ∀ s2, Open false s2 l r → PressSat E (k4 ++ k5) v2 s2 (fun v' => v'.modeStack = base ∧ v'.count = 0 ∧
        v'.secondaryCount = 0 ∧
        v'.lastCharMovement = newLast v m ks ∧ v'.lastInsert = (if op = 'c' then some (.char 'c') else none) ∧
        v'.lastCommand = (if op = 'c' then [] else [.char 'd']) ++ ks) (decide (base = [])) (rest (decide (base = []))
        (cut (l ++ r) l.length q m.inclusive).1 (cut (l ++ r) l.length q m.inclusive).2) := by
    intro v2 hm hl h20 h2s hb hci hcc s2 hs2
    refine sat_append E (digits_press E h4 hd' h20 (.inr ⟨_, _, hm⟩) hs2) fun s4 hs4 => ?_
    have hbc := bothCounts_eq hd hd' { v2 with count := min (decimal ds') u32max } rfl h2s
    obtain ⟨v', ho, hg⟩ := delete_press E (v := { v2 with count := min (decimal ds') u32max }) hC h5
      (by rw [show ({ v2 with count := min (decimal ds') u32max } : Vi).lastCharMovement = v.lastCharMovement from hl]; exact hk)
      hm hb hs4 hr (by rw [hbc]; exact ht) (by simp)
      (fun h' => ⟨hlt h', leads_lt (hlt h') h' ht⟩)
    refine sat_of E ⟨ho.stack, ho.count, ho.second, ?_, ho.insert.trans hci, ?_⟩ hg
    · rw [ho.search]; unfold newLast; dsimp only; rw [hl]
    · rw [ho.command]; dsimp only; rw [hcc]
  refine sat_append E (digits_press E h1 hd hc (.inl hv) h) fun s1 h1 => ?_
  rcases hop with ⟨rfl, rfl⟩ | ⟨rfl, rfl⟩
  · refine sat_append E (ks := [(.char 'd', cmp)]) (press_one E (seen_char (by decide) (by decide)) h1
      (d_gives E (v := { v with count := min (decimal ds) u32max }) hv h1)) fun s2 h2 => ?_
    exact last { v with currentCommand := [.char 'd'], currentInsert := none, movementReset := true, modeStack := [.delete l.length], secondaryCount := min (decimal ds) u32max, count := 0 }
      rfl rfl rfl rfl (.inl rfl) rfl rfl s2 h2
  · refine sat_append E (ks := [(.char 'c', cmp)]) (press_one E (seen_char (by decide) (by decide)) h1
      (c_gives E (v := { v with count := min (decimal ds) u32max }) hv h1)) fun s2 h2 => ?_
    exact last { v with currentCommand := [], currentInsert := some (.char 'c'), movementReset := true, modeStack := [.delete l.length, .insert], lastCount := 0, lastCommand := [], secondaryCount := min (decimal ds) u32max, count := 0 }
      rfl rfl rfl rfl (.inr rfl) rfl rfl s2 h2

/-- The key `0` when no count has been typed. -/
theorem zero_press {cmp : Text → List Text} (hv : v.modeStack = []) (hc : v.count = 0) (h : Open true s l r) :
    PressSat E [(.char '0', cmp)] v s (fun v' => v'.modeStack = [] ∧ v'.count = 0) true ([], l ++ r) := by
  have hop : opOf v.modeStack = none := by rw [hv]; rfl
  have hd := does_gives E (does_first E (coreFuel E 7) (.inl (.inl hv)) (by simp [hop]) h (.inr ⟨rfl, hc⟩))
    (q := 0) ⟨rfl, fun p hp => by rw [hop] at hp; cases hp⟩
  have hm := motioned_one (v := v) (m := .first) (k := .char '0') (.inl hv) (by simp)
  refine sat_of E ⟨?_, hm.count⟩ (press_one E (seen_char (by decide) (by decide)) h
    ((wp_congr (core_normal E hv)).mpr ?_))
  · rw [hm.stack]; simp [baseOf, hv]
  have hb : decide (baseOf v = []) = true := by simp [baseOf, hv]
  rw [hb] at hd
  have hfin : finish v false ([] : Text) (l ++ r) = ([], l ++ r) := by
    unfold finish; rw [hop]; simp only; unfold rest; split
    · simp_all
    · rfl
  rw [show Motion.first.inclusive = false from rfl, List.take_zero, List.drop_zero, hfin] at hd
  exact hd

/-- An operator without a count, and the key `0`. -/
theorem operator_zero {op : Char} {base : List Mode} (hop : op = 'd' ∧ base = [] ∨ op = 'c' ∧ base = [.insert])
    {kcs : List (Key × (Text → List Text))} (hks : kcs.map Prod.fst = [.char op, .char '0'])
    (hv : v.modeStack = []) (hc : v.count = 0) (h : Open true s l r) :
    PressSat E kcs v s (fun v' => v'.modeStack = base ∧ v'.count = 0) (decide (base = [])) ([], r) := by
  obtain ⟨⟨ko, cmp⟩, k3, rfl, ho, h3⟩ := List.map_eq_cons_iff.1 hks
  obtain ⟨⟨kz, cmp'⟩, rfl, hz⟩ := List.map_eq_singleton_iff.1 h3
  dsimp only at ho hz
  subst ho; subst hz
  have last : ∀ v2 : Vi, v2.modeStack = .delete l.length :: base → v2.count = 0 → v2.secondaryCount = 0 →
      (base = [] ∨ base = [.insert]) → ∀ s2, Open false s2 l r →
      PressSat E [(.char '0', cmp')] v2 s2 (fun v' => v'.modeStack = base ∧ v'.count = 0) (decide (base = [])) ([], r) := by
    intro v2 hm h0 hs0 hb s2 h2
    let v0 : Vi := { v2 with count := operatorCount v2.count v2.secondaryCount, currentCommand := v2.currentCommand ++ [.char '0'] }
    have hc0 : v0.count = 0 := by show operatorCount _ _ = 0; rw [h0, hs0]; rfl
    have hop : opOf v0.modeStack = some l.length := by show opOf v2.modeStack = _; rw [hm]; rfl
    have hb0 : baseOf v0 = base := by
      show v2.modeStack.filter _ = _
      rw [hm, List.filter_cons_of_neg (by simp), base_filter hb]
    have hu : Under v0.modeStack := .inr ⟨_, base, hm, hb⟩
    have hd := does_gives E (does_first E (coreFuel E 7) (v := v0) (.inl hu) (by simp) h2 (.inr ⟨rfl, hc0⟩))
      (q := 0) ⟨rfl, fun p hp => by rw [hop] at hp; cases hp; simp [Motion.inclusive]⟩
    have hmo := motioned_one (v := v0) (m := .first) (k := .char '0') hu (by simp)
    refine sat_of E ⟨hmo.stack.trans hb0, hmo.count⟩ (press_one E (seen_char (by decide) (by decide)) h2
      ((wp_congr (core_delete E hm)).mpr ?_))
    unfold handleKeyDeleteOrChange
    refine gives_getK ?_
    rw [if_pos (.inr ⟨rfl, h0⟩)]
    refine gives_mod ?_
    rw [hb0] at hd
    have hfin : finish v0 false ([] : Text) (l ++ r) = ([], r) := by
      unfold finish; rw [hop, hb0]
      simp only [List.nil_append, List.length_nil, cut]
      unfold rest; split
      · simp_all
      · simp
    rw [show Motion.first.inclusive = false from rfl, List.take_zero, List.drop_zero, hfin] at hd
    exact hd
  rcases hop with ⟨rfl, rfl⟩ | ⟨rfl, rfl⟩
  · refine sat_append E (ks := [(.char 'd', cmp)]) (press_one E (seen_char (by decide) (by decide)) h
      (d_gives E hv h)) fun s2 h2 => ?_
    exact last { v with currentCommand := [.char 'd'], currentInsert := none, movementReset := true, modeStack := [.delete l.length], secondaryCount := v.count, count := 0 }
      rfl rfl hc (.inl rfl) s2 h2
  · refine sat_append E (ks := [(.char 'c', cmp)]) (press_one E (seen_char (by decide) (by decide)) h
      (c_gives E hv h)) fun s2 h2 => ?_
    exact last { v with currentCommand := [], currentInsert := some (.char 'c'), movementReset := true, modeStack := [.delete l.length, .insert], lastCount := 0, lastCommand := [], secondaryCount := v.count, count := 0 }
      rfl rfl hc (.inr rfl) s2 h2

end
end Vi
end Liner
