import Verif.Proof.ViKeys
import Verif.Proof.ViWords
/-
The effect of motions, alone and after an operator.
-/

set_option linter.unusedSectionVars false

namespace Liner
namespace Vi
open Liner.Spec Liner.Editor M KM

/-- The position where a pending operator was given. -/
def opOf : List Mode → Option Nat
  | [] => none
  | .delete p :: _ => some p
  | _ :: r => opOf r

/-- What remains of the modes after a motion. -/
def baseOf (v : Vi) : List Mode := v.modeStack.filter (· = .insert)

/-- What an operator given at `p` removes when the motion leads to `q`. -/
def cut (t : Text) (p q : Nat) (incl : Bool) : Text × Text :=
  (t.take (min p q), t.drop (max p q + if incl then 1 else 0))

/-- The key map after a motion. -/
def popAfter (v : Vi) : Vi :=
  match opOf v.modeStack with
  | some _ =>
    { v with modeStack := baseOf v, movementReset := decide (baseOf v = []),
             lastCommand := v.currentCommand, currentCommand := v.lastCommand,
             lastInsert := v.currentInsert, lastCount := v.count, count := 0, secondaryCount := 0 }
  | none =>
    { v with modeStack := [], movementReset := true,
             count := if v.modeStack = [] then 0 else v.count }

/-- The line after a motion to the place between `l` and `r`. -/
def finish (v : Vi) (incl : Bool) (l r : Text) : Text × Text :=
  match opOf v.modeStack with
  | some p =>
    let x := cut (l ++ r) p l.length incl
    rest (decide (baseOf v = [])) x.1 x.2
  | none => rest true l r

section
variable [Around] (E : Env) {e : Bool} {l r : Text} {v : Vi} {s : Ed}

theorem _root_.List.drop_append_add {α : Type} (l r : List α) (k : Nat) :
    (l ++ r).drop (l.length + k) = r.drop k := by
  rw [← List.drop_drop, List.drop_left]

theorem deleteUntil_to {p : Nat} (h : Open e s l r) (hp : p ≤ (l ++ r).length) :
    Yields (deleteUntil E p) e s s (cut (l ++ r) p l.length false).1 (cut (l ++ r) p l.length false).2 := by
  unfold cut
  rcases Nat.le_total l.length p with hle | hle
  · obtain ⟨k, rfl⟩ := Nat.le.dest hle
    have hk : k ≤ r.length := by rw [List.length_append] at hp; omega
    have := deleteUntil_forward_sets E (l := l) (m := r.take k) (r := r.drop k) (s0 := s)
      (Side.refl s) (by rw [List.take_append_drop]; exact h)
    rw [List.length_take, Nat.min_eq_left hk] at this
    rw [Nat.min_eq_right hle, Nat.max_eq_left hle]
    rw [if_neg (by simp), Nat.add_zero, List.take_left, List.drop_append_add]
    exact this
  · have := deleteUntil_backward_sets E (l := l.take p) (m := l.drop p) (r := r) (s0 := s)
      (Side.refl s) (by rw [List.take_append_drop]; exact h)
    rw [List.length_take, Nat.min_eq_left hle] at this
    rw [Nat.min_eq_left hle, Nat.max_eq_right hle]
    simpa [List.take_append_of_le_length hle] using this

theorem deleteUntilInclusive_to {p : Nat} (h : Open e s l r) (hp : p < (l ++ r).length) (hr : r ≠ []) :
    Yields (deleteUntilInclusive E p) e s s (cut (l ++ r) p l.length true).1
      (cut (l ++ r) p l.length true).2 := by
  unfold cut
  rcases Nat.le_total l.length p with hle | hle
  · obtain ⟨k, rfl⟩ := Nat.le.dest hle
    have hk : k < r.length := by rw [List.length_append] at hp; omega
    have hd : r.drop k = r[k] :: r.drop (k + 1) := List.drop_eq_getElem_cons hk
    have := deleteUntilInclusive_forward_sets E (l := l) (m := r.take k) (r := r.drop (k + 1)) (s0 := s)
      (c := r[k]) (Side.refl s) (by rw [← hd, List.take_append_drop]; exact h)
    rw [List.length_take, Nat.min_eq_left hk.le] at this
    rw [Nat.min_eq_right hle, Nat.max_eq_left hle]
    rw [if_pos rfl, Nat.add_assoc, List.take_left, List.drop_append_add]
    exact this
  · obtain ⟨c, r', rfl⟩ := List.exists_cons_of_ne_nil hr
    have := deleteUntilInclusive_backward_sets E (l := l.take p) (m := l.drop p) (c := c) (r := r') (s0 := s)
      (Side.refl s) (by rw [List.take_append_drop]; exact h)
    rw [List.length_take, Nat.min_eq_left hle] at this
    rw [Nat.min_eq_left hle, Nat.max_eq_right hle]
    rw [if_pos rfl, List.take_append_of_le_length hle, List.drop_append_add]
    exact this

omit [Around] in
/-- What an operator needs: its start is inside the line, and with an inclusive motion there is
something to remove. -/
def Fits (v : Vi) (incl : Bool) (l r : Text) : Prop :=
  ∀ p, opOf v.modeStack = some p → p ≤ (l ++ r).length ∧ (incl = true → p < (l ++ r).length ∧ r ≠ [])

theorem opOf_under {st : List Mode} (h : Under st) :
    (st = [] ∧ opOf st = none) ∨
    ∃ p base, st = .delete p :: base ∧ opOf st = some p ∧ (base = [] ∨ base = [.insert]) := by
  rcases h with rfl | ⟨p, base, rfl, hb⟩
  · exact .inl ⟨rfl, rfl⟩
  · exact .inr ⟨p, base, rfl, rfl, hb⟩

theorem pop_gives (incl : Bool) (hst : MoveStack v.modeStack) (h : Open e s l r)
    (hf : Fits v incl l r) :
    GivesP (popModeAfterMovement E incl) (v, s) (popAfter v) (decide (baseOf v = [])) (finish v incl l r) := by
  -- an operator is carried out
  have key : ∀ (m : Mode) (p : Nat) (base : List Mode) (v : Vi), (base = [] ∨ base = [.insert]) →
      v.modeStack = base → m ≠ .normal → p ≤ (l ++ r).length →
      (incl = true → p < (l ++ r).length ∧ r ≠ []) →
      GivesP (do
        let v ← getK
        setNoEol (v.mode = .normal)
        modK fun v => { v with movementReset := v.mode ≠ .insert }
        if incl then ed (Editor.deleteUntilInclusive E p)
        else ed (Editor.deleteUntil E p)
        modK fun v => { v with lastCommand := v.currentCommand, currentCommand := v.lastCommand,
                               lastInsert := v.currentInsert, lastCount := v.count,
                               count := 0, secondaryCount := 0 }
        if m = .normal then modK fun v => { v with count := 0 } else pure ()
        setEditorMode E : ViM Unit) (v, s)
        { v with modeStack := base, movementReset := decide (base = []), lastCommand := v.currentCommand, currentCommand := v.lastCommand, lastInsert := v.currentInsert, lastCount := v.count, count := 0, secondaryCount := 0 }
        (decide (base = []))
        (rest (decide (base = [])) (cut (l ++ r) p l.length incl).1 (cut (l ++ r) p l.length incl).2) := by
    intro m p base v hb hv hm hp hi
    refine gives_getK (gives_bind (gives_setNoEol _ h) fun _ s1 h1 => gives_mod ?_)
    have hmode : decide (v.mode = .normal) = decide (base = []) := by
      rcases hb with rfl | rfl
      · rw [mode_nil hv]; rfl
      · rw [mode_cons hv]; rfl
    have hins : decide (v.mode ≠ .insert) = decide (base = []) := by
      rcases hb with rfl | rfl
      · rw [mode_nil hv]; rfl
      · rw [mode_cons hv]; rfl
    rw [hmode] at h1
    rw [hins]
    have last : ∀ s2 x y, Open (decide (base = [])) s2 (rest (decide (base = [])) x y).1
        (rest (decide (base = [])) x y).2 → GivesP (do
        modK fun v => { v with lastCommand := v.currentCommand, currentCommand := v.lastCommand,
                               lastInsert := v.currentInsert, lastCount := v.count,
                               count := 0, secondaryCount := 0 }
        setEditorMode E : ViM Unit) ({ v with movementReset := decide (base = []) }, s2)
        { v with modeStack := base, movementReset := decide (base = []), lastCommand := v.currentCommand, currentCommand := v.lastCommand, lastInsert := v.currentInsert, lastCount := v.count, count := 0, secondaryCount := 0 }
        (decide (base = [])) (rest (decide (base = [])) x y) := by
      intro s2 x y h2
      refine gives_mod ?_
      have h3 := setEditorMode_gives E (v := { v with modeStack := base, movementReset := decide (base = []), lastCommand := v.currentCommand, currentCommand := v.lastCommand, lastInsert := v.currentInsert, lastCount := v.count, count := 0, secondaryCount := 0 }) hb h2
      rw [rest_rest] at h3
      subst hv
      exact h3
    dsimp only
    split
    · rename_i hI
      rw [hI] at hi ⊢
      exact gives_bind (gives_ed (deleteUntilInclusive_to E h1 (hi rfl).1 (hi rfl).2))
        fun _ s2 h2 => last s2 _ _ h2
    · rename_i hI
      have hI : incl = false := by simpa using hI
      rw [hI]
      exact gives_bind (gives_ed (deleteUntil_to E h1 hp)) fun _ s2 h2 => last s2 _ _ h2
  -- no operator
  have key' : ∀ (m : Mode) (v : Vi), v.modeStack = [] → (∀ p, m ≠ .delete p) →
      GivesP (do
        let v ← getK
        setNoEol (v.mode = .normal)
        modK fun v => { v with movementReset := v.mode ≠ .insert }
        if m = .normal then modK fun v => { v with count := 0 } else pure ()
        setEditorMode E : ViM Unit) (v, s)
        { v with modeStack := [], movementReset := true, count := if m = .normal then 0 else v.count }
        true (rest true l r) := by
    intro m v hv hm
    refine gives_getK (gives_bind (gives_setNoEol _ h) fun _ s1 h1 => gives_mod ?_)
    rw [mode_nil hv] at h1
    rw [mode_nil hv]
    dsimp only
    split
    · refine gives_mod ?_
      have := setEditorMode_gives E (v := { v with modeStack := [], movementReset := true, count := 0 }) (.inl rfl) h1
      subst_vars
      exact (by simpa [hv] using this)
    · have := setEditorMode_gives E (v := { v with modeStack := [], movementReset := true }) (.inl rfl) h1
      exact (by simpa [hv] using this)
  have above : ∀ (m : Mode) (st : List Mode), v.modeStack = m :: st → Under st → (∀ p, m ≠ .delete p) →
      m ≠ .insert → m ≠ .normal →
      GivesP (popModeAfterMovement E incl) (v, s) (popAfter v) (decide (baseOf v = []))
        (finish v incl l r) := by
    intro m st hv hr hm hm' hm''
    have hop : opOf v.modeStack = opOf st := by
      rw [hv]; cases m <;> first | rfl | exact absurd rfl (hm _)
    have hba : baseOf v = st.filter (· = .insert) := by
      unfold baseOf; rw [hv, List.filter_cons_of_neg (by simp [hm'])]
    unfold popModeAfterMovement
    rw [GivesP, Gives, wp_bind, wp_popStack]
    simp only [hv, List.headD_cons, List.tail_cons]
    rw [wp_bind, wp_getK]
    rcases hr with rfl | ⟨p, base, rfl, hb⟩
    · rw [show ({ v with modeStack := ([] : List Mode) } : Vi).mode = .normal from rfl]
      dsimp only
      rw [wp_bind, wp_pure]
      have := key' m { v with modeStack := ([] : List Mode) } rfl hm
      rw [show popAfter v = { v with modeStack := [], movementReset := true } by
          unfold popAfter; rw [hop, hv]; simp [opOf],
        show finish v incl l r = rest true l r by unfold finish; rw [hop]; simp [opOf],
        show decide (baseOf v = []) = true by rw [hba]; rfl]
      cases m with
      | delete p => exact absurd rfl (hm p)
      | insert => exact absurd rfl hm'
      | normal => exact absurd rfl hm''
      | _ => exact this
    · rw [show ({ v with modeStack := (.delete p :: base : List Mode) } : Vi).mode = .delete p from rfl]
      dsimp only
      rw [wp_bind, wp_popStack]
      simp only [List.headD_cons, List.tail_cons]
      have hf' := hf p (by rw [hop]; rfl)
      have := key m p base { v with modeStack := base } hb rfl hm'' hf'.1 hf'.2
      have hba' : baseOf v = base := by
        rw [hba, List.filter_cons_of_neg (by simp), base_filter hb]
      rw [show popAfter v = { v with modeStack := base, movementReset := decide (base = []), lastCommand := v.currentCommand, currentCommand := v.lastCommand, lastInsert := v.currentInsert, lastCount := v.count, count := 0, secondaryCount := 0 } by
          unfold popAfter; rw [hop, hba']; simp [opOf],
        show finish v incl l r = rest (decide (base = [])) (cut (l ++ r) p l.length incl).1
          (cut (l ++ r) p l.length incl).2 by unfold finish; rw [hop, hba']; simp [opOf], hba']
      exact this
  rcases hst with hs | ⟨m, st, hs, hr⟩ | ⟨st, hs, hr⟩
  · rcases hs with hs | ⟨p, base, hs, hb⟩
    · unfold popModeAfterMovement
      rw [GivesP, Gives, wp_bind, wp_popStack]
      simp only [hs, List.headD_nil, List.tail_nil]
      rw [wp_bind, wp_getK]
      rw [show ({ v with modeStack := ([] : List Mode) } : Vi).mode = .normal from rfl]
      dsimp only
      rw [wp_bind, wp_pure]
      have := key' .normal { v with modeStack := ([] : List Mode) } rfl (by simp)
      rw [show popAfter v = { v with modeStack := [], movementReset := true, count := 0 } by
          unfold popAfter; rw [hs]; simp [opOf],
        show finish v incl l r = rest true l r by unfold finish; rw [hs]; simp [opOf],
        show decide (baseOf v = []) = true by unfold baseOf; rw [hs]; rfl]
      exact this
    · have hf' := hf p (by rw [hs]; rfl)
      have hba' : baseOf v = base := by
        unfold baseOf; rw [hs, List.filter_cons_of_neg (by simp), base_filter hb]
      have := key (.delete p) p base { v with modeStack := base } hb rfl (by simp) hf'.1 hf'.2
      rw [show popAfter v = { v with modeStack := base, movementReset := decide (base = []), lastCommand := v.currentCommand, currentCommand := v.lastCommand, lastInsert := v.currentInsert, lastCount := v.count, count := 0, secondaryCount := 0 } by
          unfold popAfter; rw [hs, hba']; simp [opOf],
        show finish v incl l r = rest (decide (base = [])) (cut (l ++ r) p l.length incl).1
          (cut (l ++ r) p l.length incl).2 by unfold finish; rw [hs, hba']; simp [opOf], hba']
      unfold popModeAfterMovement
      rw [GivesP, Gives, wp_bind, wp_popStack]
      simp only [hs, List.headD_cons, List.tail_cons]
      rw [wp_bind, wp_getK]
      rcases hb with rfl | rfl
      · rw [show ({ v with modeStack := ([] : List Mode) } : Vi).mode = .normal from rfl]
        dsimp only
        rw [wp_bind, wp_pure]
        exact this
      · rw [show ({ v with modeStack := ([.insert] : List Mode) } : Vi).mode = .insert from rfl]
        dsimp only
        rw [wp_bind, wp_pure]
        exact this
  · exact above _ st hs hr (by simp) (by simp) (by simp)
  · exact above _ st hs hr (by simp) (by simp) (by simp)

/-- A movement of the cursor, then the end of the motion. -/
theorem moved_gives {m : EdM Unit} {l1 r1 : Text} (incl : Bool) (hst : MoveStack v.modeStack)
    (he : e = true → opOf v.modeStack = none) (hm : Yields m e s s l1 r1) (hf : Fits v incl l1 r1) :
    GivesP (do ed m; popModeAfterMovement E incl : ViM Unit) (v, s) (popAfter v)
      (decide (baseOf v = [])) (finish v incl l1 r1) := by
  refine gives_bind (gives_ed hm) fun _ s1 h1 => ?_
  cases e with
  | false =>
    rw [rest_false] at h1
    exact pop_gives E incl hst h1 hf
  | true =>
    have hop := he rfl
    have := pop_gives E incl hst h1 (fun p hp => by rw [hop] at hp; cases hp)
    have hfin : ∀ a b, finish v incl a b = rest true a b := by intro a b; unfold finish; rw [hop]
    rw [hfin, rest_rest] at this
    rw [hfin]
    exact this

/-- The program carries out the motion: the cursor goes where the motion leads, or the operator is
carried out, if it can be. -/
def Does (E : Env) (prog : ViM Unit) (v : Vi) (s : Ed) (t : Text) (cur n : Nat) (m : Motion) (v' : Vi) :
    Prop :=
  ∃ q, Leads E.cc t cur n m q ∧ q ≤ t.length ∧
    ((∀ p, opOf v.modeStack = some p → p ≤ t.length ∧ (m.inclusive = true → p < t.length ∧ q < t.length)) →
      GivesP prog (v, s) v' (decide (baseOf v = [])) (finish v m.inclusive (t.take q) (t.drop q)))

theorem fits_of {t : Text} {q : Nat} {m : Motion}
    (h : ∀ p, opOf v.modeStack = some p → p ≤ t.length ∧ (m.inclusive = true → p < t.length ∧ q < t.length)) :
    Fits v m.inclusive (t.take q) (t.drop q) := by
  intro p hp
  rw [List.take_append_drop]
  refine ⟨(h p hp).1, fun hi => ⟨((h p hp).2 hi).1, ?_⟩⟩
  have := ((h p hp).2 hi).2
  rw [← List.length_pos_iff, List.length_drop]
  omega

/-- A motion done by moving the cursor to `q`. -/
theorem does_move {mv : EdM Unit} {q n : Nat} {m : Motion} (hst : MoveStack v.modeStack)
    (he : e = true → opOf v.modeStack = none) (hl : Leads E.cc (l ++ r) l.length n m q)
    (hq : q ≤ (l ++ r).length)
    (hm : Yields mv e s s ((l ++ r).take q) ((l ++ r).drop q)) :
    Does E (do ed mv; popModeAfterMovement E m.inclusive) v s (l ++ r) l.length n m (popAfter v) :=
  ⟨q, hl, hq, fun hf => moved_gives E _ hst he hm (fits_of hf)⟩

theorem does_bind {α : Type} {m : ViM α} {f : α → ViM Unit} {a : α} {t : Text} {cur n : Nat} {mo : Motion}
    {v' : Vi} (hm : m (v, s) = .ok a (v, s)) (h : Does E (f a) v s t cur n mo v') :
    Does E (m >>= f) v s t cur n mo v' := by
  obtain ⟨q, h1, h2, h3⟩ := h
  refine ⟨q, h1, h2, fun hf => ?_⟩
  have : (m >>= f) (v, s) = f a (v, s) := bind_ok hm
  exact (wp_congr this).mpr (h3 hf)

theorem does_getK {f : Vi → ViM Unit} {t : Text} {cur n : Nat} {mo : Motion} {v' : Vi}
    (h : Does E (f v) v s t cur n mo v') : Does E (getK >>= f) v s t cur n mo v' :=
  does_bind E rfl h

theorem does_mod {f : Vi → Vi} {g : Unit → ViM Unit} {t : Text} {cur n : Nat} {mo : Motion} {v' : Vi}
    (hf : (f v).modeStack = v.modeStack) (h : Does E (g ()) (f v) s t cur n mo v') :
    Does E (modK f >>= g) v s t cur n mo v' := by
  obtain ⟨q, h1, h2, h3⟩ := h
  unfold baseOf finish at h3
  unfold baseOf at h3
  rw [hf] at h3
  exact ⟨q, h1, h2, fun hx => gives_mod (h3 hx)⟩

theorem does_then {α : Type} {a : ViM α} {f : α → ViM Unit} {g : Vi → Vi} {t : Text} {cur n : Nat} {mo : Motion} {v' : Vi}
    (h : Does E (a >>= f) v s t cur n mo v') :
    Does E (a >>= fun x => f x >>= fun _ => modK g) v s t cur n mo (g v') := by
  obtain ⟨q, h1, h2, h3⟩ := h
  refine ⟨q, h1, h2, fun hx => ?_⟩
  have := gives_bind (h3 hx) (fun _ s' h' => gives_modK (f := g) h')
  rw [Gives, wp_bind, wp_bind] at this
  rw [GivesP, Gives, wp_bind]
  exact wp_mono this (fun _ _ h => by rw [wp_bind]; exact h) (fun _ _ h => h) (fun _ h => h)

theorem moveCount_pos (v : Vi) : 0 < v.moveCount := by unfold moveCount; split <;> omega

variable (core : Key → ViM Unit) (hst : MoveStack v.modeStack)
  (he : e = true → opOf v.modeStack = none) (h : Open e s l r)
include hst he h

theorem does_left : Does E (normalChar core E 'h') v s (l ++ r) l.length v.moveCount .left (popAfter v) := by
  show Does E (do
    let n ← moveCountLeft
    ed (Editor.moveCursorLeft E n)
    popModeAfterMovement E false) v s _ _ _ _ _
  refine does_bind E (a := min l.length v.moveCount) ?_ ?_
  · unfold moveCountLeft
    show Out.ok (min s.cursor v.moveCount) (v, s) = _
    rw [h.here.2]
  · refine does_move E (m := .left) hst he (q := l.length - v.moveCount) rfl (by simp; omega) ?_
    have := left_sets E h (Side.refl s) (min l.length v.moveCount)
    rw [show l.length - min l.length v.moveCount = l.length - v.moveCount by omega] at this
    rwa [List.take_append_of_le_length (by omega), List.drop_append_of_le_length (by omega)]

omit hst he in
theorem countRight_eq : moveCountRight (v, s) = .ok (min r.length v.moveCount) (v, s) := by
  obtain ⟨b, hb, hd⟩ := text?_eq.mp h.here.1
  unfold moveCountRight
  have hc : (ed curBuf : ViM Buffer) (v, s) = .ok b (v, s) := by
    have h1 : curBuf s = .ok b s := by
      show (match s.curBuf? with | some b => Out.ok b s | none => Out.panic .op) = _
      rw [hb]
    unfold ed zoom
    rw [h1]
  show (ed curBuf >>= fun b => if b.numChars < s.cursor then M.panic
    else pure (min (b.numChars - s.cursor) v.moveCount) : ViM Nat) (v, s) = _
  rw [bind_ok hc, if_neg (by rw [Buffer.numChars, hd, h.here.2, List.length_append]; omega)]
  rw [Buffer.numChars, hd, h.here.2, List.length_append, Nat.add_sub_cancel_left]
  rfl

theorem does_right {c : Char} (hc : c = 'l' ∨ c = ' ') :
    Does E (normalChar core E c) v s (l ++ r) l.length v.moveCount .right (popAfter v) := by
  have : normalChar core E c = (do
    let n ← moveCountRight
    ed (Editor.moveCursorRight E n)
    popModeAfterMovement E false) := by rcases hc with rfl | rfl <;> rfl
  rw [this]
  refine does_bind E (countRight_eq h) ?_
  refine does_move E (m := .right) hst he (q := min (l.length + v.moveCount) (l ++ r).length) rfl
    (by omega) ?_
  have := right_sets E h (Side.refl s) (min r.length v.moveCount)
  rw [show min (l.length + v.moveCount) (l ++ r).length = l.length + min r.length v.moveCount by
    rw [List.length_append]; omega, List.drop_append_add, List.take_length_add_append]
  exact this

theorem does_first {c : Char} (hc : c = '^' ∨ c = '0' ∧ v.count = 0) :
    Does E (normalChar core E c) v s (l ++ r) l.length v.moveCount .first (popAfter v) := by
  have : Does E (do
      ed (Editor.moveCursorToStartOfLine E)
      popModeAfterMovement E false) v s (l ++ r) l.length v.moveCount .first (popAfter v) :=
    does_move E (m := .first) hst he (q := 0) rfl (by omega) (by simpa using home_sets E h (Side.refl s))
  rcases hc with rfl | ⟨rfl, hc⟩
  · exact this
  · show Does E (do
      let v ← getK
      if 0 = 0 ∧ v.count = 0 then
        ed (Editor.moveCursorToStartOfLine E)
        popModeAfterMovement E false
      else modK fun v => { v with count := satAdd (satMul v.count 10) 0 }) v s _ _ _ _ _
    refine does_getK E ?_
    rw [if_pos ⟨rfl, hc⟩]
    exact this

theorem does_last : Does E (normalChar core E '$') v s (l ++ r) l.length v.moveCount .last (popAfter v) :=
  does_move E (m := .last) hst he (q := (l ++ r).length) rfl (by omega)
    (by rw [List.take_length, List.drop_length]; exact end_sets E h (Side.refl s))

/-- A motion done by `move_cursor_to` with a position computed from the line. -/
theorem does_to {f : Buffer → Nat → Nat} {n : Nat} {m : Motion} (hn : 0 < n)
    (hl : ∀ b : Buffer, b.data = l ++ r → Leads E.cc (l ++ r) l.length n m (f b l.length) ∧
      f b l.length ≤ (l ++ r).length) :
    Does E (do
      ed (do
        let s ← get
        let b ← if n = 0 then pure s.newBuf else Editor.curBuf
        Editor.moveCursorTo E (f b s.cursor))
      popModeAfterMovement E m.inclusive) v s (l ++ r) l.length n m (popAfter v) := by
  obtain ⟨b, hb, hd⟩ := text?_eq.mp h.here.1
  obtain ⟨h1, h2⟩ := hl b hd
  refine does_move E hst he h1 h2 ?_
  rw [Yields, wp_bind, wp_get, if_neg (by omega), wp_bind, wp_curBuf]
  refine ⟨fun b' hb' => ?_, fun hn => ?_⟩
  · rw [show s.curBuf? = some b' from hb'] at hb; cases hb
    rw [h.here.2]
    exact to_sets E h (Side.refl s) _
  · rw [show s.curBuf? = none from hn] at hb; cases hb

omit hst he h in
theorem leads_le {C : CharClass} {t : Text} {cur n q : Nat} {m : Motion} (hc : cur ≤ t.length)
    (hl : Leads C t cur n m q) : q ≤ t.length := by
  have hw : ∀ big i, startsWord C big t i = true → i < t.length := by
    intro big i hi
    unfold startsWord at hi
    by_contra hge
    rw [List.getElem?_eq_none (by omega)] at hi
    cases hi
  have hat : ∀ c i, isAt t c i = true → i < t.length := by
    intro c i hi
    unfold isAt at hi
    by_contra hge
    rw [List.getElem?_eq_none (by omega)] at hi
    cases hi
  cases m with
  | left => unfold Leads at hl; simp only at hl; omega
  | right => unfold Leads at hl; simp only at hl; omega
  | first => unfold Leads at hl; simp only at hl; omega
  | last => unfold Leads at hl; simp only at hl; omega
  | word b =>
    rcases hl with hl | ⟨_, hl⟩
    · exact (hw _ _ hl.2.1).le
    · omega
  | wordEnd b => rcases hl with ⟨_, hl⟩ | ⟨_, hl⟩ <;> omega
  | back b =>
    rcases hl with hl | ⟨_, hl⟩
    · exact (hw _ _ hl.2.1).le
    · omega
  | backEnd b =>
    rcases hl with hl | ⟨_, hl⟩
    · have := hl.1; omega
    · omega
  | find m c =>
    cases m with
    | rightAt =>
      rcases hl with hl | ⟨_, hl⟩
      · exact (hat _ _ hl.2.1).le
      · omega
    | rightUntil =>
      rcases hl with hl | ⟨_, hl⟩
      · have := (hat _ _ hl.2.1).le; omega
      · omega
    | leftAt =>
      rcases hl with hl | ⟨_, hl⟩
      · exact (hat _ _ hl.2.1).le
      · omega
    | leftUntil =>
      rcases hl with ⟨_, hl⟩ | ⟨_, hl⟩
      · have := hl.1; omega
      · omega

theorem does_word (big : Bool) : Does E (normalChar core E (if big then 'W' else 'w')) v s (l ++ r) l.length
    v.moveCount (.word big) (popAfter v) := by
  have key : ∀ kw, Does E (do
      let v ← getK
      ed (moveWord E kw true v.moveCount)
      popModeAfterMovement E false) v s (l ++ r) l.length v.moveCount (.word (!kw)) (popAfter v) := by
    intro kw
    refine does_getK E (does_to E hst he h (m := .word (!kw))
      (f := fun b cur => moveWordFrom E.cc kw true b v.moveCount cur) (moveCount_pos v) fun b hb => ?_)
    have := moveWord_right (C := E.cc) (kw := kw) (b := b) v.moveCount l.length (moveCount_pos v)
      (by rw [hb]; simp)
    rw [hb] at this
    exact ⟨this, leads_le (by simp) this⟩
  cases big
  · exact key true
  · exact key false

theorem does_wordEnd (hC : Apart E.cc) (big : Bool) : Does E (normalChar core E (if big then 'E' else 'e')) v s
    (l ++ r) l.length v.moveCount (.wordEnd big) (popAfter v) := by
  have key : ∀ kw, Does E (do
      let v ← getK
      ed (moveWordEnd E kw true v.moveCount)
      popModeAfterMovement E false) v s (l ++ r) l.length v.moveCount (.wordEnd (!kw)) (popAfter v) := by
    intro kw
    refine does_getK E (does_to E hst he h (m := .wordEnd (!kw))
      (f := fun b cur => moveWordEndFrom E.cc kw true b v.moveCount cur) (moveCount_pos v) fun b hb => ?_)
    have := moveWordEnd_right (kw := kw) (b := b) hC v.moveCount l.length (moveCount_pos v)
      (by rw [hb]; simp)
    rw [hb] at this
    exact ⟨this, leads_le (by simp) this⟩
  cases big
  · exact key true
  · exact key false

theorem does_back (hC : Apart E.cc) (big : Bool) : Does E (normalChar core E (if big then 'B' else 'b')) v s
    (l ++ r) l.length v.moveCount (.back big) (popAfter v) := by
  have key : ∀ kw, Does E (do
      let v ← getK
      ed (moveWordEnd E kw false v.moveCount)
      popModeAfterMovement E false) v s (l ++ r) l.length v.moveCount (.back (!kw)) (popAfter v) := by
    intro kw
    refine does_getK E (does_to E hst he h (m := .back (!kw))
      (f := fun b cur => moveWordEndFrom E.cc kw false b v.moveCount cur) (moveCount_pos v) fun b hb => ?_)
    have := moveWordEnd_left (kw := kw) (b := b) hC v.moveCount l.length (moveCount_pos v)
      (by rw [hb]; simp)
    rw [hb] at this
    exact ⟨this, leads_le (by simp) this⟩
  cases big
  · exact key true
  · exact key false

theorem does_backEnd (big : Bool) (hr : r ≠ [] ∨ l = []) :
    Does E (handleKeyG E (.char (if big then 'E' else 'e'))) v s (l ++ r) l.length v.moveCount
      (.backEnd big)
      { popAfter { v with currentCommand := v.currentCommand ++ [.char (if big then 'E' else 'e')] } with count := 0 } := by
  have hq : ∀ (kw : Bool) (b : Buffer), b.data = l ++ r → Leads E.cc (l ++ r) l.length v.moveCount
      (.backEnd (!kw)) (moveWordFrom E.cc kw false b v.moveCount l.length) := by
    intro kw b hb
    by_cases hlr : l ++ r = []
    · have hl : l = [] := (List.append_eq_nil_iff.1 hlr).1
      have hx : ∀ n, moveWordFrom E.cc kw false b n 0 = 0 := by
        intro n
        cases n with
        | zero => rfl
        | succ n => unfold moveWordFrom; rw [charAfter_eq, hb, hlr]; rfl
      rw [hl, List.length_nil, hx]
      refine .inr ⟨no_nthBefore fun j hj => by omega, rfl⟩
    · have hlt : l.length < (l ++ r).length := by
        rcases hr with hr | hr
        · rw [List.length_append]; have := List.length_pos_iff.2 hr; omega
        · rw [hr, List.length_nil]; exact List.length_pos_iff.2 (by rwa [hr] at hlr)
      have := moveWord_left (C := E.cc) (kw := kw) (b := b) v.moveCount l.length (moveCount_pos v)
        (by rw [hb]; exact hlt)
      rwa [hb] at this
  have key : ∀ kw k, Does E (do
        modK fun v => { v with currentCommand := v.currentCommand ++ [k] }
        ed (moveWord E kw false v.moveCount)
        popModeAfterMovement E true
        modK fun v => { v with count := 0 }) v s (l ++ r) l.length v.moveCount (.backEnd (!kw))
        { popAfter { v with currentCommand := v.currentCommand ++ [k] } with count := 0 } := by
    intro kw k
    refine does_mod E rfl (does_then E ?_ (g := fun v => { v with count := 0 }))
    exact does_to E (v := { v with currentCommand := v.currentCommand ++ [k] }) hst he h (m := .backEnd (!kw))
      (f := fun b cur => moveWordFrom E.cc kw false b v.moveCount cur) (moveCount_pos v)
      fun b hb => ⟨hq kw b hb, leads_le (by simp) (hq kw b hb)⟩
  cases big
  · exact does_getK E (key true (.char 'e'))
  · exact does_getK E (key false (.char 'E'))

omit hst he h in
/-- Where a character search goes. -/
theorem charTarget_leads (C : CharClass) {t : Text} {cur n : Nat} (hn : 0 < n) (hc : cur ≤ t.length)
    (m : CharMovement) (c : Char) : Leads C t cur n (.find m c) ((charTarget t cur m c n).getD cur) := by
  have hf : ∀ o : Option Nat, findChar t (cur + 1) c n = o → match o with
      | some i => NthAfter (isAt t c) cur n i
      | none => ∀ i, ¬ NthAfter (isAt t c) cur n i := by
    intro o ho
    cases o with
    | some i => exact (findChar_iff t c hn).1 ho
    | none =>
      intro i hi
      rw [(findChar_iff t c hn).2 hi] at ho
      cases ho
  have hb : ∀ o : Option Nat, findCharRev t cur c n = o → match o with
      | some i => NthBefore (isAt t c) cur n i
      | none => ∀ i, ¬ NthBefore (isAt t c) cur n i := by
    intro o ho
    cases o with
    | some i => exact (findCharRev_iff t c hn hc).1 ho
    | none =>
      intro i hi
      rw [(findCharRev_iff t c hn hc).2 hi] at ho
      cases ho
  cases m with
  | rightAt =>
    have := hf _ rfl
    unfold charTarget
    revert this
    cases findChar t (cur + 1) c n with
    | some i => exact fun h => .inl h
    | none => exact fun h => .inr ⟨h, rfl⟩
  | rightUntil =>
    have := hf _ rfl
    unfold charTarget
    revert this
    cases findChar t (cur + 1) c n with
    | some i =>
      refine fun h => .inl ?_
      have : i - 1 + 1 = i := by have := h.1; omega
      simpa [this] using h
    | none => exact fun h => .inr ⟨h, rfl⟩
  | leftAt =>
    have := hb _ rfl
    unfold charTarget
    revert this
    cases findCharRev t cur c n with
    | some i => exact fun h => .inl h
    | none => exact fun h => .inr ⟨h, rfl⟩
  | leftUntil =>
    have := hb _ rfl
    unfold charTarget
    revert this
    cases findCharRev t cur c n with
    | some i => exact fun h => .inl ⟨by simp, by simpa using h⟩
    | none => exact fun h => .inr ⟨h, rfl⟩

theorem does_find {key : Key} {arg : MoveArg} {m : CharMovement} {c : Char}
    (hr : resolveMove key arg v.lastCharMovement = some (c, m)) :
    Does E (handleKeyMoveToChar E key arg) v s (l ++ r) l.length v.moveCount (.find m c)
      (popAfter (if arg.isDir then { v with count := 0, lastCharMovement := some (c, m), currentCommand := v.currentCommand ++ [key] } else { v with count := 0 })) := by
  obtain ⟨b, hb, hd⟩ := text?_eq.mp h.here.1
  have hlead := charTarget_leads E.cc (t := l ++ r) (moveCount_pos v) (cur := l.length) (by simp) m c
  have hin : m.inclusive = (Motion.find m c).inclusive := by cases m <;> rfl
  have fin : ∀ v1 : Vi, v1.modeStack = v.modeStack → Does E (do
      let s ← ed get
      let b ← ed Editor.curBuf
      if !m.inclusive ∧ b.numChars < s.cursor then M.panic
      else
        match charTarget b.data s.cursor m c v.moveCount with
        | some i => ed (Editor.moveCursorTo E i)
        | none => pure ()
        popModeAfterMovement E m.inclusive) v1 s (l ++ r) l.length v.moveCount (.find m c) (popAfter v1) := by
    intro v1 hv1
    have hc : (ed curBuf : ViM Buffer) (v1, s) = .ok b (v1, s) := by
      have h1 : curBuf s = .ok b s := by
        show (match s.curBuf? with | some b => Out.ok b s | none => Out.panic .op) = _
        rw [hb]
      unfold ed zoom
      rw [h1]
    refine does_bind E (a := s) rfl (does_bind E hc ?_)
    rw [if_neg (by rw [Buffer.numChars, hd, h.here.2, List.length_append]; omega), hd, h.here.2, hin]
    rw [← hv1] at hst he
    revert hlead
    dsimp only
    cases charTarget (l ++ r) l.length m c v.moveCount with
    | some i =>
      intro hlead
      exact does_move E hst he hlead (leads_le (by simp) hlead) (to_sets E h (Side.refl s) i)
    | none =>
      intro hlead
      refine ⟨l.length, hlead, by simp, fun hf => ?_⟩
      have h1 : (l ++ r).take l.length = l := List.take_left
      have h2 : (l ++ r).drop l.length = r := List.drop_left
      have := pop_gives E (Motion.find m c).inclusive hst h (by
        have := fits_of hf
        rwa [h1, h2] at this)
      rw [h1, h2]
      exact this
  unfold handleKeyMoveToChar
  refine does_getK E (does_mod E rfl ?_)
  rw [hr]
  dsimp only
  cases arg with
  | dir x =>
    exact does_mod E (f := fun v => { v with lastCharMovement := some (c, m), currentCommand := v.currentCommand ++ [key] }) rfl (fin _ rfl)
  | «repeat» => exact fin _ rfl
  | reverseRepeat => exact fin _ rfl

omit hst he in
/-- Waiting for another key. -/
theorem push_gives {m : Mode} (h1 : m ≠ .insert) (h2 : m ≠ .normal) (h3 : m ≠ .tilde) :
    Gives (setMode E m) (v, s) { v with movementReset := true, modeStack := m :: v.modeStack } false l r := by
  unfold setMode setModePreserveLast
  refine gives_bind (e := false) (l := l) (r := r) (v' := { v with movementReset := true, modeStack := m :: v.modeStack }) ?_ fun _ s' h' => ?_
  · refine gives_bind (e := false) (l := l) (r := r) (v' := v) ?_ fun _ s' h' => gives_mod ?_
    · have := gives_setNoEol (v := v) (decide (m = .normal)) h
      rw [decide_eq_false h2] at this ⊢
      exact this
    · have hm : ({ v with movementReset := decide (m ≠ .insert), modeStack := m :: v.modeStack } : Vi) = { v with movementReset := true, modeStack := m :: v.modeStack } := by
        rw [decide_eq_true h1]
      rw [hm]
      refine gives_bind (e := false) (l := l) (r := r) (v' := { v with movementReset := true, modeStack := m :: v.modeStack }) ?_ fun _ s2 h'' => ?_
      · unfold setEditorMode
        refine gives_getK ?_
        rw [mode_cons (r := v.modeStack) rfl]
        cases m with
        | insert => exact absurd rfl h1
        | normal => exact absurd rfl h2
        | _ => exact gives_pure () h'
      · rw [if_neg (by simp [h1, h3])]
        exact gives_pure () h''
  · rw [if_neg h1]
    exact gives_pure () h'

end

/-! ### The target is determined -/

theorem nthAfter_unique {P : Nat → Bool} {cur n i j : Nat} (h1 : NthAfter P cur n i)
    (h2 : NthAfter P cur n j) : i = j := by
  have key : ∀ i j, NthAfter P cur n i → NthAfter P cur n j → ¬ i < j := by
    intro i j h1 h2 hlt
    have : Nat.count (P · = true) (i + 1) ≤ Nat.count (P · = true) j := Nat.count_monotone _ hlt
    have h3 := h2.2.2
    rw [Nat.count_succ, if_pos h2.2.1] at h3
    have := h1.2.2
    omega
  have := key i j h1 h2
  have := key j i h2 h1
  omega

theorem nthBefore_unique {P : Nat → Bool} {cur n i j : Nat} (h1 : NthBefore P cur n i)
    (h2 : NthBefore P cur n j) : i = j := by
  have key : ∀ i j, NthBefore P cur n i → NthBefore P cur n j → ¬ i < j := by
    intro i j h1 h2 hlt
    have h4 : Nat.count (P · = true) (i + 1) ≤ Nat.count (P · = true) j := Nat.count_monotone _ hlt
    rw [Nat.count_succ, if_pos h1.2.1] at h4
    have := h1.2.2
    have := h2.2.2
    omega
  have := key i j h1 h2
  have := key j i h2 h1
  omega

theorem leads_unique {C : CharClass} {t : Text} {cur n q q' : Nat} {m : Motion}
    (h : Leads C t cur n m q) (h' : Leads C t cur n m q') : q = q' := by
  have ha : ∀ {P : Nat → Bool} {d x y : Nat}, (NthAfter P cur n x ∨ (∀ i, ¬ NthAfter P cur n i) ∧ x = d) →
      (NthAfter P cur n y ∨ (∀ i, ¬ NthAfter P cur n i) ∧ y = d) → x = y := by
    rintro P d x y (h | ⟨h, rfl⟩) (h' | ⟨h', rfl⟩)
    · exact nthAfter_unique h h'
    · exact absurd h (h' _)
    · exact absurd h' (h _)
    · rfl
  have hb : ∀ {P : Nat → Bool} {d x y : Nat}, (NthBefore P cur n x ∨ (∀ i, ¬ NthBefore P cur n i) ∧ x = d) →
      (NthBefore P cur n y ∨ (∀ i, ¬ NthBefore P cur n i) ∧ y = d) → x = y := by
    rintro P d x y (h | ⟨h, rfl⟩) (h' | ⟨h', rfl⟩)
    · exact nthBefore_unique h h'
    · exact absurd h (h' _)
    · exact absurd h' (h _)
    · rfl
  cases m with
  | left => exact (Eq.trans h (Eq.symm h') :)
  | right => exact (Eq.trans h (Eq.symm h') :)
  | first => exact (Eq.trans h (Eq.symm h') :)
  | last => exact (Eq.trans h (Eq.symm h') :)
  | word b => exact ha h h'
  | wordEnd b =>
    rcases h with ⟨h1, h2⟩ | ⟨h1, h2⟩ <;> rcases h' with ⟨h3, h4⟩ | ⟨h3, h4⟩
    · exact nthAfter_unique h1 h3
    · have := h3 _ h1; omega
    · have := h1 _ h3; omega
    · omega
  | back b => exact hb h h'
  | backEnd b => exact hb h h'
  | find m c =>
    cases m with
    | rightAt => exact ha h h'
    | leftAt => exact hb h h'
    | rightUntil =>
      rcases h with h | ⟨h, rfl⟩ <;> rcases h' with h' | ⟨h', rfl⟩
      · have := nthAfter_unique h h'; omega
      · exact absurd h (h' _)
      · exact absurd h' (h _)
      · rfl
    | leftUntil =>
      rcases h with ⟨h0, h⟩ | ⟨h, rfl⟩ <;> rcases h' with ⟨h0', h'⟩ | ⟨h', rfl⟩
      · have := nthBefore_unique h h'; omega
      · exact absurd h (h' _)
      · exact absurd h' (h _)
      · rfl

theorem leads_exists (C : CharClass) (t : Text) (cur n : Nat) (m : Motion) : ∃ q, Leads C t cur n m q := by
  have ha : ∀ (P : Nat → Bool) (d : Nat), ∃ x, NthAfter P cur n x ∨ (∀ i, ¬ NthAfter P cur n i) ∧ x = d := by
    intro P d
    by_cases h : ∃ i, NthAfter P cur n i
    · obtain ⟨i, h⟩ := h; exact ⟨i, .inl h⟩
    · exact ⟨d, .inr ⟨fun i hi => h ⟨i, hi⟩, rfl⟩⟩
  have hb : ∀ (P : Nat → Bool) (d : Nat), ∃ x, NthBefore P cur n x ∨ (∀ i, ¬ NthBefore P cur n i) ∧ x = d := by
    intro P d
    by_cases h : ∃ i, NthBefore P cur n i
    · obtain ⟨i, h⟩ := h; exact ⟨i, .inl h⟩
    · exact ⟨d, .inr ⟨fun i hi => h ⟨i, hi⟩, rfl⟩⟩
  cases m with
  | left => exact ⟨_, rfl⟩
  | right => exact ⟨_, rfl⟩
  | first => exact ⟨_, rfl⟩
  | last => exact ⟨_, rfl⟩
  | word b => exact ha _ _
  | wordEnd b =>
    by_cases h : ∃ i, NthAfter (endsWord C b t) cur n i ∧ i + 1 < t.length
    · obtain ⟨i, h⟩ := h; exact ⟨i, .inl h⟩
    · refine ⟨t.length, .inr ⟨fun i hi => ?_, rfl⟩⟩
      have h1 : i < t.length := by
        have := hi.2.1
        unfold endsWord at this
        by_contra hge
        rw [List.getElem?_eq_none (by omega)] at this
        cases this
      have : ¬ i + 1 < t.length := fun h2 => h ⟨i, hi, h2⟩
      omega
  | back b => exact hb _ _
  | backEnd b => exact hb _ _
  | find m c =>
    cases m with
    | rightAt => exact ha _ _
    | leftAt => exact hb _ _
    | rightUntil =>
      rcases ha (isAt t c) 0 with ⟨x, h | ⟨h, -⟩⟩
      · exact ⟨x - 1, .inl (by rw [Nat.sub_add_cancel (by have := h.1; omega)]; exact h)⟩
      · exact ⟨cur, .inr ⟨h, rfl⟩⟩
    | leftUntil =>
      rcases hb (isAt t c) 0 with ⟨x, h | ⟨h, -⟩⟩
      · exact ⟨x + 1, .inl ⟨by omega, h⟩⟩
      · exact ⟨cur, .inr ⟨h, rfl⟩⟩

end Vi
end Liner
