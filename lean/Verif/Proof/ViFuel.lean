import Verif.Proof.ViMode
import Verif.Spec.Vi
/-
`handle_key_core` and `repeat` call each other.  Every chain of such calls ends: the bound on the
depth that the model uses is never reached.
-/

namespace Liner
namespace Vi
open Liner.Spec Liner.Editor M KM

/-! ### The key map alone -/

/-- What an action does to the key map, whatever the editor is. -/
def WK {α : Type} (m : ViM α) (v : Vi) (Q : α → Vi → Prop) : Prop :=
  ∀ s : Ed, Wp m (v, s) (fun a t' => Q a t'.1) T2 T1

section
variable {α β : Type} {v : Vi}

theorem wk_ed {m : EdM α} {Q : α → Vi → Prop} (h : ∀ a, Q a v) : WK (ed m) v Q := by
  intro s
  rw [wp_ed]
  exact wp_mono (wp_trivial (m := m)) (fun a _ _ => h a) (fun _ _ _ => trivial) (fun _ _ => trivial)

theorem wk_bind {m : ViM α} {f : α → ViM β} {Q : β → Vi → Prop}
    (h : WK m v (fun a v' => WK (f a) v' Q)) : WK (m >>= f) v Q := by
  intro s
  rw [wp_bind]
  exact wp_mono (h s) (fun a t' h' => h' t'.2) (fun _ _ h => h) (fun _ h => h)

theorem wk_pure {a : α} {Q : α → Vi → Prop} (h : Q a v) : WK (pure a) v Q := fun _ => h
theorem wk_panic {Q : α → Vi → Prop} : WK (M.panic : ViM α) v Q := fun _ => trivial
theorem wk_getK {Q : Vi → Vi → Prop} (h : Q v v) : WK getK v Q := fun _ => h
theorem wk_modK {f : Vi → Vi} {Q : Unit → Vi → Prop} (h : Q () (f v)) : WK (modK f) v Q := fun _ => h
theorem wk_popStack {Q : Mode → Vi → Prop}
    (h : Q (v.modeStack.headD .normal) { v with modeStack := v.modeStack.tail }) :
    WK popStack v Q := fun _ => h
theorem wk_ite {c : Prop} [Decidable c] {a b : ViM α} {Q : α → Vi → Prop} (ha : c → WK a v Q)
    (hb : ¬ c → WK b v Q) : WK (if c then a else b) v Q := by
  split
  · exact ha ‹_›
  · exact hb ‹_›
theorem wk_mono {m : ViM α} {Q Q' : α → Vi → Prop} (h : WK m v Q) (hq : ∀ a v', Q a v' → Q' a v') :
    WK m v Q' := fun s => wp_mono (h s) (fun a t' h' => hq a t'.1 h') (fun _ _ h => h) (fun _ h => h)

theorem wk_repeat_ed {m : EdM Unit} {Q : Unit → Vi → Prop} (h : Q () v) :
    ∀ n, WK (repeatN n (ed m)) v Q
  | 0 => fun _ => h
  | n + 1 => wk_bind (wk_ed fun _ => wk_repeat_ed h n)

variable (E : Env)

theorem wk_setNoEol {b : Bool} {Q : Unit → Vi → Prop} (h : Q () v) : WK (setNoEol b) v Q :=
  wk_ed fun _ => h

theorem wk_setEditorMode {Q : Unit → Vi → Prop} (h : Q () v) : WK (setEditorMode E) v Q := by
  unfold setEditorMode
  refine wk_bind (wk_getK ?_)
  split
  · exact wk_bind (wk_ed fun _ => wk_ed fun _ => h)
  · exact wk_bind (wk_ed fun _ => wk_ed fun _ => h)
  · exact wk_pure h

theorem wk_setModePreserveLast {m : Mode} {Q : Unit → Vi → Prop}
    (h : Q () { v with movementReset := m ≠ .insert, modeStack := m :: v.modeStack }) :
    WK (setModePreserveLast E m) v Q := by
  unfold setModePreserveLast
  refine wk_bind (wk_setNoEol <| wk_bind <| wk_modK <| wk_bind <| wk_setEditorMode E ?_)
  exact wk_ite (fun _ => wk_ed fun _ => h) (fun _ => wk_pure h)

theorem wk_setMode {m : Mode} (hm : m ≠ .insert) {Q : Unit → Vi → Prop}
    (h : Q () { v with movementReset := m ≠ .insert, modeStack := m :: v.modeStack }) :
    WK (setMode E m) v Q := by
  unfold setMode
  refine wk_bind (wk_setModePreserveLast E ?_)
  rw [if_neg hm]
  exact wk_pure h

theorem wk_setInsert {Q : Unit → Vi → Prop}
    (h : Q () { v with movementReset := False, modeStack := .insert :: v.modeStack, lastCount := 0,
                       lastCommand := [] }) :
    WK (setMode E .insert) v Q := by
  unfold setMode
  refine wk_bind (wk_setModePreserveLast E ?_)
  rw [if_pos rfl]
  exact wk_modK (by simpa using h)

theorem wk_popMode {Q : Unit → Vi → Prop}
    (h : ∀ b, Q () { v with movementReset := b, modeStack := v.modeStack.tail }) :
    WK (popMode E) v Q := by
  unfold popMode
  refine wk_bind <| wk_popStack <| wk_bind <| wk_getK <| wk_bind <| wk_setNoEol <| wk_bind <| wk_modK ?_
  have fin : WK (setEditorMode E)
      { v with movementReset := decide (({ v with modeStack := v.modeStack.tail } : Vi).mode ≠ .insert),
               modeStack := v.modeStack.tail } Q := wk_setEditorMode E (h _)
  have fin2 : WK (if v.modeStack.headD .normal = .tilde then do
        let _ ← ed (displayUnwrap E)
        setEditorMode E
      else setEditorMode E : ViM Unit)
      { v with movementReset := decide (({ v with modeStack := v.modeStack.tail } : Vi).mode ≠ .insert),
               modeStack := v.modeStack.tail } Q :=
    wk_ite (fun _ => wk_bind (wk_ed fun _ => fin)) (fun _ => fin)
  exact wk_ite (fun _ => wk_bind (wk_ed fun _ => fin2)) (fun _ => fin2)

theorem wk_abort {Q : Unit → Vi → Prop} (h : Q () { v with modeStack := [], count := 0 }) :
    WK (normalModeAbort E) v Q := by
  unfold normalModeAbort
  exact wk_bind <| wk_modK <| wk_bind <| wk_setNoEol <| wk_bind <| wk_modK <| wk_setEditorMode E h

theorem wk_countLeft {Q : Nat → Vi → Prop} (h : ∀ n, Q n v) : WK moveCountLeft v Q := by
  unfold moveCountLeft
  exact wk_bind <| wk_getK <| wk_bind <| wk_ed fun s => wk_pure (h _)

theorem wk_countRight {Q : Nat → Vi → Prop} (h : ∀ n, Q n v) : WK moveCountRight v Q := by
  unfold moveCountRight
  exact wk_bind <| wk_getK <| wk_bind <| wk_ed fun s => wk_bind <| wk_ed fun b =>
    wk_ite (fun _ => wk_panic) (fun _ => wk_pure (h _))

end

/-! ### What the commands do to the records -/

/-- The records are left alone. -/
structure Same (v v' : Vi) : Prop where
  lc : v'.lastCommand = v.lastCommand
  li : v'.lastInsert = v.lastInsert
  cc : v'.currentCommand = v.currentCommand
  ci : v'.currentInsert = v.currentInsert
  lk : v'.lastCount = v.lastCount

/-- A pending operator and what is under it. -/
def Has (l : List Mode) (p : Nat) (base : List Mode) : Prop :=
  l = .delete p :: base ∨ (∃ m, l = .moveToChar m :: .delete p :: base) ∨ l = .g :: .delete p :: base

/-- No operator is pending. -/
def Free (l : List Mode) : Prop := l = [] ∨ (∃ m, l = [.moveToChar m]) ∨ l = [.g]

/-- After a movement. -/
def Moved_f (v v' : Vi) : Prop :=
  (Free v.modeStack ∧ v'.modeStack = [] ∧ Same v v') ∨
  (∃ p base, Has v.modeStack p base ∧ v'.modeStack = base ∧ v'.lastCommand = v.currentCommand ∧
    v'.lastInsert = v.currentInsert ∧ v'.currentInsert = v.currentInsert)

theorem Same.trans {v w v' : Vi} (h : Same v w) (h' : Same w v') : Same v v' :=
  ⟨h'.lc.trans h.lc, h'.li.trans h.li, h'.cc.trans h.cc, h'.ci.trans h.ci, h'.lk.trans h.lk⟩

theorem Moved_f.of {v w v' : Vi} (hs : Same v w) (hm : w.modeStack = v.modeStack) (h : Moved_f w v') :
    Moved_f v v' := by
  rcases h with ⟨h1, h2, h3⟩ | ⟨p, base, h1, h2, h3, h4, h5⟩
  · exact .inl ⟨hm ▸ h1, h2, hs.trans h3⟩
  · exact .inr ⟨p, base, hm ▸ h1, h2, h3.trans hs.cc, h4.trans hs.ci, h5.trans hs.ci⟩

/-- After an abort. -/
def Quit (v v' : Vi) : Prop := v'.modeStack = [] ∧ Same v v'

section
variable (E : Env) {v : Vi}

theorem wk_after {i : Bool} {Q : Unit → Vi → Prop} (hs : Free v.modeStack ∨ ∃ p base, Has v.modeStack p base ∧ (base = [] ∨ base = [.insert]))
    (h : ∀ v', Moved_f v v' → Q () v') : WK (popModeAfterMovement E i) v Q := by
  unfold popModeAfterMovement
  have fin : ∀ (v' : Vi) (c : Prop) [Decidable c], Moved_f v v' → (∀ n, Moved_f v { v' with count := n }) → WK (do
      if c then modK fun v => { v with count := 0 } else pure ()
      setEditorMode E : ViM Unit) v' Q := fun v' c _ h1 h2 =>
    wk_ite (fun _ => wk_bind (wk_modK (wk_setEditorMode E (h _ (h2 _)))))
      (fun _ => wk_setEditorMode E (h _ h1))
  have op : ∀ (v' : Vi) (c : Prop) [Decidable c] (p : Nat), (∀ d l n k, Moved_f v { v' with
        lastCommand := v'.currentCommand, currentCommand := d, lastInsert := v'.currentInsert, lastCount := l, count := n,
        secondaryCount := k }) → WK (do
      if i then ed (Editor.deleteUntilInclusive E p) else ed (Editor.deleteUntil E p)
      modK fun v => { v with lastCommand := v.currentCommand, currentCommand := v.lastCommand,
                             lastInsert := v.currentInsert, lastCount := v.count,
                             count := 0, secondaryCount := 0 }
      if c then modK fun v => { v with count := 0 } else pure ()
      setEditorMode E : ViM Unit) v' Q := by
    intro v' c _ p h1
    have : WK (do
      modK fun v => { v with lastCommand := v.currentCommand, currentCommand := v.lastCommand,
                             lastInsert := v.currentInsert, lastCount := v.count,
                             count := 0, secondaryCount := 0 }
      if c then modK fun v => { v with count := 0 } else pure ()
      setEditorMode E : ViM Unit) v' Q :=
      wk_bind <| wk_modK <| fin _ _ (h1 _ _ _ _) (fun n => h1 _ _ n _)
    refine wk_ite (fun _ => wk_bind (wk_ed fun _ => this)) (fun _ => wk_bind (wk_ed fun _ => this))
  refine wk_bind <| wk_popStack <| wk_bind <| wk_getK ?_
  rcases hs with hs | ⟨p, base, hs, hb⟩
  · rcases hs with hs | ⟨m, hs⟩ | hs
    · simp only [mode, hs, List.tail_nil, List.headD_nil]
      refine wk_bind <| wk_pure <| wk_bind <| wk_getK <| wk_bind <| wk_setNoEol <| wk_bind <| wk_modK <| fin _ _ ?_ (fun n => ?_)
      all_goals exact .inl ⟨.inl hs, rfl, rfl, rfl, rfl, rfl, rfl⟩
    · simp only [mode, hs, List.tail_cons, List.headD_cons, List.headD_nil]
      refine wk_bind <| wk_pure <| wk_bind <| wk_getK <| wk_bind <| wk_setNoEol <| wk_bind <| wk_modK <| fin _ _ ?_ (fun n => ?_)
      all_goals exact .inl ⟨.inr (.inl ⟨m, hs⟩), rfl, rfl, rfl, rfl, rfl, rfl⟩
    · simp only [mode, hs, List.tail_cons, List.headD_cons, List.headD_nil]
      refine wk_bind <| wk_pure <| wk_bind <| wk_getK <| wk_bind <| wk_setNoEol <| wk_bind <| wk_modK <| fin _ _ ?_ (fun n => ?_)
      all_goals exact .inl ⟨.inr (.inr hs), rfl, rfl, rfl, rfl, rfl, rfl⟩
  · rcases hs with hs | ⟨m, hs⟩ | hs
    · rcases hb with rfl | rfl
      all_goals
        simp only [mode, hs, List.tail_cons, List.headD_cons, List.headD_nil]
        refine wk_bind <| wk_pure <| wk_bind <| wk_getK <| wk_bind <| wk_setNoEol <| wk_bind <| wk_modK <| op _ _ _ ?_
        exact fun _ _ _ _ => .inr ⟨p, _, .inl hs, rfl, rfl, rfl, rfl⟩
    · simp only [mode, hs, List.tail_cons, List.headD_cons]
      refine wk_bind <| wk_popStack <| wk_bind <| wk_getK <| wk_bind <| wk_setNoEol <| wk_bind <| wk_modK <| op _ _ _ ?_
      exact fun _ _ _ _ => .inr ⟨p, base, .inr (.inl ⟨m, hs⟩), rfl, rfl, rfl, rfl⟩
    · simp only [mode, hs, List.tail_cons, List.headD_cons]
      refine wk_bind <| wk_popStack <| wk_bind <| wk_getK <| wk_bind <| wk_setNoEol <| wk_bind <| wk_modK <| op _ _ _ ?_
      exact fun _ _ _ _ => .inr ⟨p, base, .inr (.inr hs), rfl, rfl, rfl, rfl⟩

/-- A pending operator, or none: not an insertion or a replacement. -/
def Opn (l : List Mode) : Prop :=
  Free l ∨ ∃ p base, Has l p base ∧ (base = [] ∨ base = [.insert])

theorem Opn.of_under {l : List Mode} (h : Under l) : Opn l := by
  rcases h with h | ⟨p, base, h, hb⟩
  · exact .inl (.inl h)
  · exact .inr ⟨p, base, .inl h, hb⟩

theorem Opn.of_char {l r : List Mode} {m : CharMovement} (h : l = .moveToChar m :: r) (hu : Under r) :
    Opn l := by
  rcases hu with rfl | ⟨p, base, rfl, hb⟩
  · exact .inl (.inr (.inl ⟨m, h⟩))
  · exact .inr ⟨p, base, .inr (.inl ⟨m, h⟩), hb⟩

theorem Opn.of_g {l r : List Mode} (h : l = .g :: r) (hu : Under r) : Opn l := by
  rcases hu with rfl | ⟨p, base, rfl, hb⟩
  · exact .inl (.inr (.inr h))
  · exact .inr ⟨p, base, .inr (.inr h), hb⟩

theorem wk_moveToChar {key : Key} {arg : MoveArg} (hs : Opn v.modeStack) :
    WK (handleKeyMoveToChar E key arg) v (fun _ v' => Quit v v' ∨
      Moved_f { v with currentCommand := if arg.isDir then v.currentCommand ++ [key] else v.currentCommand } v') := by
  unfold handleKeyMoveToChar
  refine wk_bind <| wk_getK <| wk_bind <| wk_modK ?_
  cases resolveMove key arg v.lastCharMovement with
  | none => exact wk_abort E (.inl ⟨rfl, rfl, rfl, rfl, rfl, rfl⟩)
  | some x =>
    obtain ⟨c, m⟩ := x
    dsimp only
    have fin : ∀ (v1 : Vi), v1.modeStack = v.modeStack → (∀ v', Moved_f v1 v' → Moved_f { v with
          currentCommand := if arg.isDir then v.currentCommand ++ [key] else v.currentCommand } v') → WK (do
        let s ← ed get
        let b ← ed Editor.curBuf
        if !m.inclusive ∧ b.numChars < s.cursor then M.panic
        else
          match charTarget b.data s.cursor m c v.moveCount with
          | some i => ed (Editor.moveCursorTo E i)
          | none => pure ()
          popModeAfterMovement E m.inclusive : ViM Unit) v1 (fun _ v' => Quit v v' ∨
      Moved_f { v with currentCommand := if arg.isDir then v.currentCommand ++ [key] else v.currentCommand } v') := by
      intro v1 h1 h2
      refine wk_bind <| wk_ed fun s => wk_bind <| wk_ed fun b => wk_ite (fun _ => wk_panic) (fun _ => ?_)
      have pop : WK (popModeAfterMovement E m.inclusive) v1 (fun _ v' => Quit v v' ∨
        Moved_f { v with currentCommand := if arg.isDir then v.currentCommand ++ [key] else v.currentCommand } v') :=
        wk_after E (by rw [h1]; exact hs) fun v' h => .inr (h2 v' h)
      cases charTarget b.data s.cursor m c v.moveCount with
      | none => exact pop
      | some i => exact wk_bind (wk_ed fun _ => pop)
    refine wk_ite (fun hd => wk_bind (wk_modK (fin _ rfl ?_))) (fun hd => fin _ rfl ?_)
    · intro v' h
      rw [if_pos hd]
      refine Moved_f.of ?_ ?_ h <;> first | rfl | exact ⟨rfl, rfl, rfl, rfl, rfl⟩
    · intro v' h
      rw [if_neg hd]
      refine Moved_f.of ?_ ?_ h <;> first | rfl | exact ⟨rfl, rfl, rfl, rfl, rfl⟩

/-- The movements of normal mode that end with the key. -/
theorem wk_move {core : Key → ViM Unit} {c : Char}
    (hc : c ∈ ['h', 'l', ' ', 'k', 'j', ';', ',', 'w', 'W', 'e', 'E', 'b', 'B', '^', '$'])
    (hs : Opn v.modeStack) :
    WK (normalChar core E c) v (fun _ v' => Quit v v' ∨ Moved_f v v') := by
  have pop : ∀ m : EdM Unit, WK (do ed m; popModeAfterMovement E false : ViM Unit) v
      (fun _ v' => Quit v v' ∨ Moved_f v v') := fun m =>
    wk_bind (wk_ed fun _ => wk_after E hs fun v' h => .inr h)
  simp only [List.mem_cons, List.not_mem_nil, or_false] at hc
  rcases hc with rfl | rfl | rfl | rfl | rfl | rfl | rfl | rfl | rfl | rfl | rfl | rfl | rfl | rfl | rfl
  · exact wk_bind (wk_countLeft fun n => pop _)
  · exact wk_bind (wk_countRight fun n => pop _)
  · exact wk_bind (wk_countRight fun n => pop _)
  · exact pop _
  · exact pop _
  · exact wk_moveToChar E (arg := .repeat) hs
  · exact wk_moveToChar E (arg := .reverseRepeat) hs
  · exact wk_bind (wk_getK (pop _))
  · exact wk_bind (wk_getK (pop _))
  · exact wk_bind (wk_getK (pop _))
  · exact wk_bind (wk_getK (pop _))
  · exact wk_bind (wk_getK (pop _))
  · exact wk_bind (wk_getK (pop _))
  · exact pop _
  · exact pop _

/-- A mode is pushed. -/
def Push (m : Mode) (v v' : Vi) : Prop := v'.modeStack = m :: v.modeStack ∧ Same v v'

theorem wk_find {core : Key → ViM Unit} {c : Char} (hc : c ∈ ['f', 'F', 't', 'T']) :
    WK (normalChar core E c) v (fun _ v' => ∃ m, Push (.moveToChar m) v v') := by
  simp only [List.mem_cons, List.not_mem_nil, or_false] at hc
  rcases hc with rfl | rfl | rfl | rfl
  all_goals exact wk_setMode E (by simp) ⟨_, rfl, rfl, rfl, rfl, rfl, rfl⟩

theorem wk_g {core : Key → ViM Unit} :
    WK (normalChar core E 'g') v (fun _ v' => Push .g v v') :=
  wk_setMode E (by simp) ⟨rfl, rfl, rfl, rfl, rfl, rfl⟩

theorem digit_zero {c : Char} (h : digit? c = some 0) : c = '0' := by
  unfold digit? at h
  split at h
  · rename_i hc
    have h1 : c.val.toNat - 48 = 0 := by simpa using h
    have h2 : 48 ≤ c.val.toNat := by simpa [UInt32.le_iff_toNat_le] using hc.1
    have h3 : c.val.toNat = 48 := by omega
    exact Char.ext (UInt32.toNat_inj.1 (by simpa using h3))
  · cases h

theorem wk_digit {core : Key → ViM Unit} {c : Char} (hc : (digit? c).isSome) (hs : Opn v.modeStack) :
    WK (normalChar core E c) v (fun _ v' =>
      (v'.modeStack = v.modeStack ∧ v'.secondaryCount = v.secondaryCount ∧ Same v v') ∨
      (c = '0' ∧ v.count = 0 ∧ Moved_f v v')) := by
  unfold normalChar
  dsimp only
  iterate 32 refine wk_ite (fun h => by
    (first | subst h | (rcases h with rfl | rfl)) <;> exact absurd hc (by decide)) (fun _ => ?_)
  cases hd : digit? c with
  | none => rw [hd] at hc; cases hc
  | some d =>
    refine wk_bind <| wk_getK <| wk_ite (fun h => wk_bind <| wk_ed fun _ => wk_after E hs fun v' h' => ?_)
      (fun _ => wk_modK (.inl ⟨rfl, rfl, rfl, rfl, rfl, rfl, rfl⟩))
    exact .inr ⟨digit_zero (by rw [hd, h.1]), h.2, h'⟩

/-- A command of normal mode. -/
inductive Norm (key : Key) (v v' : Vi) : Prop
  | quit (h : Quit v v')
  | find (m : CharMovement) (h : Push (.moveToChar m) v v')
  | g (h : Push .g v v')
  | replace (h : Push .replace v v') (hk : key = .char 'r')
  | insert (h : v'.modeStack = .insert :: v.modeStack) (hc : v'.currentInsert = v.currentInsert)
      (hi : v'.lastInsert ≠ some (.char '.'))
      (hk : ∃ c ∈ ['i', 'a', 'A', 'I', 's', 'C'], key = .char c)
  | one (h : v'.modeStack = v.modeStack) (hc : v'.currentInsert = v.currentInsert)
      (hi : v'.lastInsert = none) (hl : v'.lastCommand = [key])
      (hk : key ∈ [.char 'x', .char '~', .char 'D', .delete])
  | del (p : Nat) (h : v'.modeStack = .delete p :: v.modeStack) (hc : v'.currentInsert = none)
      (hi : v'.lastInsert = v.lastInsert) (hl : v'.lastCommand = v.lastCommand)
      (hk : v'.currentCommand = [.char 'd']) (hn : v'.secondaryCount = v.count) (hkey : key = .char 'd')
  | change (p : Nat) (h : v'.modeStack = .delete p :: .insert :: v.modeStack)
      (hc : v'.currentInsert = some (.char 'c')) (hi : v'.lastInsert = v.lastInsert)
      (hl : v'.lastCommand = []) (hkey : key = .char 'c')

theorem norm_moved {key : Key} {v' : Vi} (hs : v.modeStack = []) (h : Quit v v' ∨ Moved_f v v') :
    Norm key v v' := by
  rcases h with h | ⟨_, h1, h2⟩ | ⟨p, base, h, _⟩
  · exact .quit h
  · exact .quit ⟨h1, h2⟩
  · rw [hs] at h
    rcases h with h | ⟨m, h⟩ | h <;> simp at h

theorem norm_same {key : Key} {v' : Vi} (hs : v.modeStack = []) (h : v'.modeStack = v.modeStack)
    (h' : Same v v') : Norm key v v' := .quit ⟨h.trans hs, h'⟩

/-- The deletion under `x`. -/
theorem wk_cut {f : Vi → Vi} {Q : Unit → Vi → Prop} (h : Q () (f v)) :
    WK (do
      let n ← moveCountRight
      let s ← ed get
      ed (Editor.deleteUntil E (s.cursor + n))
      modK f : ViM Unit) v Q :=
  wk_bind <| wk_countRight fun _ => wk_bind <| wk_ed fun _ => wk_bind <| wk_ed fun _ => wk_modK h

theorem wk_normalChar {core : Key → ViM Unit} {c : Char} (hc : c ≠ '.') (hs : v.modeStack = []) :
    WK (normalChar core E c) v (fun _ v' => Norm (.char c) v v') := by
  have ho : Opn v.modeStack := .inl (.inl hs)
  by_cases h1 : c ∈ ['h', 'l', ' ', 'k', 'j', ';', ',', 'w', 'W', 'e', 'E', 'b', 'B', '^', '$']
  · exact wk_mono (wk_move E h1 ho) fun _ v' h => norm_moved hs h
  by_cases h2 : c ∈ ['f', 'F', 't', 'T']
  · exact wk_mono (wk_find E h2) fun _ v' h => .find _ h.choose_spec
  by_cases h3 : (digit? c).isSome
  · refine wk_mono (wk_digit E h3 ho) fun _ v' h => ?_
    rcases h with ⟨h, _, h'⟩ | ⟨_, _, h⟩
    · exact norm_same hs h h'
    · exact norm_moved hs (.inr h)
  have ent : ∀ (m : EdM Unit), c ∈ ['i', 'a', 'A', 'I', 's', 'C'] → WK (do
      modK fun v => { v with lastInsert := some (.char c) }
      setMode E .insert
      ed m : ViM Unit) v (fun _ v' => Norm (.char c) v v') := fun m hm =>
    wk_bind <| wk_modK <| wk_bind <| wk_setInsert E <| wk_ed fun _ =>
      .insert rfl rfl (by simpa using hc) ⟨c, hm, rfl⟩
  simp only [List.mem_cons, List.not_mem_nil, or_false, not_or] at h1 h2
  obtain ⟨a1, a2, a3, a4, a5, a6, a7, a8, a9, a10, a11, a12, a13, a14, a15⟩ := h1
  obtain ⟨b1, b2, b3, b4⟩ := h2
  unfold normalChar
  dsimp only
  -- i a A I s r
  refine wk_ite (fun h => wk_bind <| wk_modK <| wk_setInsert E <|
    .insert rfl rfl (by simpa using hc) ⟨c, by simp [h], rfl⟩) (fun _ => ?_)
  refine wk_ite (fun h => ent _ (by simp [h])) (fun _ => ?_)
  refine wk_ite (fun h => ent _ (by simp [h])) (fun _ => ?_)
  refine wk_ite (fun h => ent _ (by simp [h])) (fun _ => ?_)
  refine wk_ite (fun h => ?_) (fun _ => ?_)
  · exact wk_bind <| wk_bind <| wk_modK <| wk_setInsert E <| wk_cut E <|
      .insert rfl rfl (by simpa using hc) ⟨c, by simp [h], rfl⟩
  refine wk_ite (fun h => wk_setMode E (by simp) (.replace ⟨rfl, rfl, rfl, rfl, rfl, rfl⟩ (by rw [h]))) (fun _ => ?_)
  -- d c
  refine wk_ite (fun h => ?_) (fun _ => ?_)
  · refine wk_bind <| wk_modK <| wk_ite (fun hd => ?_) (fun hd => ?_)
    · subst hd
      refine wk_bind <| wk_modK <| wk_bind <| wk_ed fun s => wk_bind <| wk_setMode E (by simp) <| wk_modK ?_
      exact .del _ rfl rfl rfl rfl rfl rfl rfl
    · obtain rfl := h.resolve_left hd
      refine wk_bind <| wk_modK <| wk_bind <| wk_setInsert E <| wk_bind <| wk_ed fun s => wk_bind <|
        wk_setMode E (by simp) <| wk_modK ?_
      exact .change _ rfl rfl rfl rfl rfl
  -- D C
  refine wk_ite (fun h => ?_) (fun _ => ?_)
  · subst h
    exact wk_bind <| wk_modK <| wk_bind <| wk_modK <| wk_ed fun _ => .one rfl rfl rfl rfl (by simp)
  refine wk_ite (fun h => ?_) (fun _ => ?_)
  · exact wk_bind <| wk_modK <| wk_bind <| wk_modK <| wk_bind <| wk_setModePreserveLast E <| wk_ed fun _ =>
      .insert rfl rfl (by simp) ⟨c, by simp [h], rfl⟩
  refine wk_ite (fun h => absurd h hc) (fun _ => ?_)
  -- movements
  refine wk_ite (fun h => absurd h a1) (fun _ => ?_)
  refine wk_ite (fun h => absurd h (by simp [a2, a3])) (fun _ => ?_)
  refine wk_ite (fun h => absurd h a4) (fun _ => ?_)
  refine wk_ite (fun h => absurd h a5) (fun _ => ?_)
  refine wk_ite (fun h => absurd h b3) (fun _ => ?_)
  refine wk_ite (fun h => absurd h b4) (fun _ => ?_)
  refine wk_ite (fun h => absurd h b1) (fun _ => ?_)
  refine wk_ite (fun h => absurd h b2) (fun _ => ?_)
  refine wk_ite (fun h => absurd h a6) (fun _ => ?_)
  refine wk_ite (fun h => absurd h a7) (fun _ => ?_)
  refine wk_ite (fun h => absurd h a8) (fun _ => ?_)
  refine wk_ite (fun h => absurd h a9) (fun _ => ?_)
  refine wk_ite (fun h => absurd h a10) (fun _ => ?_)
  refine wk_ite (fun h => absurd h a11) (fun _ => ?_)
  refine wk_ite (fun h => absurd h a12) (fun _ => ?_)
  refine wk_ite (fun h => absurd h a13) (fun _ => ?_)
  refine wk_ite (fun h => wk_setMode E (by simp) (.g ⟨rfl, rfl, rfl, rfl, rfl, rfl⟩)) (fun _ => ?_)
  refine wk_ite (fun h => absurd h a14) (fun _ => ?_)
  refine wk_ite (fun h => absurd h a15) (fun _ => ?_)
  -- x ~ u
  refine wk_ite (fun h => ?_) (fun _ => ?_)
  · subst h
    exact wk_bind <| wk_modK <| wk_bind <| wk_modK <| wk_cut E <| .one rfl rfl rfl rfl (by simp)
  refine wk_ite (fun h => ?_) (fun _ => ?_)
  · subst h
    refine wk_bind <| wk_modK <| wk_bind <| wk_modK <| wk_bind <| wk_setMode E (by simp) <| wk_bind <|
      wk_countRight fun n => wk_bind <| wk_repeat_ed ?_ n
    exact wk_popMode E fun b => .one rfl rfl rfl rfl (by simp)
  refine wk_ite (fun h => ?_) (fun _ => ?_)
  · exact wk_bind <| wk_getK <| wk_bind <| wk_modK <| wk_ed fun _ => norm_same hs rfl ⟨rfl, rfl, rfl, rfl, rfl⟩
  cases hd : digit? c with
  | some d => rw [hd] at h3; simp at h3
  | none => exact wk_ed fun _ => norm_same hs rfl ⟨rfl, rfl, rfl, rfl, rfl⟩

theorem wk_normal {core : Key → ViM Unit} {key : Key} (hc : key ≠ .char '.') (hs : v.modeStack = []) :
    WK (handleKeyNormal core E key) v (fun _ v' => Norm key v v') := by
  have ho : Opn v.modeStack := .inl (.inl hs)
  have mv : ∀ c ∈ ['h', 'l', ' ', 'k', 'j', ';', ',', 'w', 'W', 'e', 'E', 'b', 'B', '^', '$'],
      WK (normalChar core E c) v (fun _ v' => Norm key v v') := fun c h1 =>
    wk_mono (wk_move E h1 ho) fun _ v' h => norm_moved hs h
  have com : WK (ed (handleKeyCommon E key)) v (fun _ v' => Norm key v v') :=
    wk_ed fun _ => norm_same hs rfl ⟨rfl, rfl, rfl, rfl, rfl⟩
  unfold handleKeyNormal
  split
  · exact wk_modK (norm_same hs rfl ⟨rfl, rfl, rfl, rfl, rfl⟩)
  · exact wk_normalChar E (by simpa using hc) hs
  · exact mv _ (by simp)
  · exact mv _ (by simp)
  · exact mv _ (by simp)
  · exact mv _ (by simp)
  · exact mv _ (by simp)
  · exact wk_bind <| wk_modK <| wk_bind <| wk_modK <| wk_cut E <| .one rfl rfl rfl rfl (by simp)
  · refine wk_ite (fun _ => ?_) (fun _ => com)
    exact wk_bind <| wk_getK <| wk_bind <| wk_modK <| wk_ed fun _ => norm_same hs rfl ⟨rfl, rfl, rfl, rfl, rfl⟩
  · exact com

theorem wk_handleG {key : Key} (hs : Opn v.modeStack) :
    WK (handleKeyG E key) v (fun _ v' => Quit { v with currentCommand := v.currentCommand ++ [key] } v' ∨
      Moved_f { v with currentCommand := v.currentCommand ++ [key] } v') := by
  unfold handleKeyG
  have fin : ∀ v1 : Vi, (Quit { v with currentCommand := v.currentCommand ++ [key] } v1 ∨
      Moved_f { v with currentCommand := v.currentCommand ++ [key] } v1) →
      (Quit { v with currentCommand := v.currentCommand ++ [key] } { v1 with count := 0 } ∨
      Moved_f { v with currentCommand := v.currentCommand ++ [key] } { v1 with count := 0 }) := by
    rintro v1 (⟨h1, h2⟩ | ⟨h1, h2, h3⟩ | h)
    · exact .inl ⟨h1, h2.lc, h2.li, h2.cc, h2.ci, h2.lk⟩
    · exact .inr (.inl ⟨h1, h2, h3.lc, h3.li, h3.cc, h3.ci, h3.lk⟩)
    · exact .inr (.inr h)
  have mv : ∀ m : EdM Unit, WK (do
      ed m
      popModeAfterMovement E true
      modK fun v => { v with count := 0 } : ViM Unit) { v with currentCommand := v.currentCommand ++ [key] }
      (fun _ v' => Quit { v with currentCommand := v.currentCommand ++ [key] } v' ∨
      Moved_f { v with currentCommand := v.currentCommand ++ [key] } v') := fun m =>
    wk_bind <| wk_ed fun _ => wk_bind <| wk_after E hs fun v' h => wk_modK (fin _ (.inr h))
  refine wk_bind <| wk_getK <| wk_bind <| wk_modK <| wk_ite (fun _ => mv _) (fun _ => wk_ite (fun _ => mv _) (fun _ => ?_))
  exact wk_bind <| wk_abort E <| wk_modK (.inl ⟨rfl, rfl, rfl, rfl, rfl, rfl⟩)

theorem wk_replace {key : Key} (hs : v.modeStack = [.replace]) :
    WK (handleKeyReplace E key) v (fun _ v' => Quit v v' ∨ (v'.modeStack = [] ∧
      v'.currentInsert = v.currentInsert ∧ v'.lastInsert = none ∧ v'.lastCommand = [.char 'r', key])) := by
  unfold handleKeyReplace
  split
  · refine wk_bind <| wk_countRight fun n => wk_bind <| wk_getK <| wk_ite (fun _ => ?_) (fun _ => ?_)
    · refine wk_bind <| wk_modK <| wk_bind <| wk_ed fun _ => wk_bind <| wk_repeat_ed ?_ n
      refine wk_bind <| wk_ed fun _ => wk_bind <| wk_ed fun _ => wk_bind <| wk_popMode E fun b => wk_modK ?_
      exact .inr ⟨by simp [hs], rfl, rfl, rfl⟩
    · refine wk_bind <| wk_popMode E fun b => wk_modK ?_
      exact .inl ⟨by simp [hs], rfl, rfl, rfl, rfl, rfl⟩
  · exact wk_bind <| wk_abort E <| wk_modK (.inl ⟨rfl, rfl, rfl, rfl, rfl, rfl⟩)

/-- A key while an operator is pending. -/
inductive Oper (key : Key) (v v' : Vi) : Prop
  | quit (h : Quit v v')
  | digit (h : v'.modeStack = v.modeStack) (hn : v'.secondaryCount = v.secondaryCount)
      (h' : Same v v')
  | edge (hk : key ∈ [.home, .end, .char '0']) (h : v'.modeStack = v.modeStack)
      (hn : v'.secondaryCount = v.secondaryCount)
      (h' : Same { v with currentCommand := v.currentCommand ++ [key] } v')
  | moved (hf : ∀ c ∈ ['f', 'F', 't', 'T', 'g'], key ≠ .char c) (hk : key ≠ .home ∧ key ≠ .end)
      (hz : key = .char '0' → v.secondaryCount = 0)
      (h : Quit { v with currentCommand := v.currentCommand ++ [key] } v' ∨
        Moved_f { v with currentCommand := v.currentCommand ++ [key] } v')
  | find (c : Char) (hc : c ∈ ['f', 'F', 't', 'T']) (hk : key = .char c) (m : CharMovement)
      (h : Push (.moveToChar m) { v with currentCommand := v.currentCommand ++ [key] } v')
  | g (hk : key = .char 'g') (h : Push .g { v with currentCommand := v.currentCommand ++ [key] } v')
  | line (h : v'.modeStack = v.modeStack.tail) (hl : v'.lastCommand = v.lastCommand)
      (hi : v'.lastInsert = v.lastInsert) (hc : v'.currentInsert = v.currentInsert)

theorem wk_delete {core : Key → ViM Unit} {key : Key} (hs : Under v.modeStack) :
    WK (handleKeyDeleteOrChange core E key) v (fun _ v' => Oper key v v') := by
  have ho := Opn.of_under hs
  unfold handleKeyDeleteOrChange
  refine wk_bind <| wk_getK <| wk_ite (fun hk => ?_) (fun hk => ?_)
  · refine wk_bind <| wk_modK ?_
    have mv : ∀ c ∈ ['h', 'l', ' ', 'k', 'j', ';', ',', 'w', 'W', 'e', 'E', 'b', 'B', '^', '$'],
        (∀ c ∈ ['f', 'F', 't', 'T', 'g'], key ≠ .char c) → (key ≠ .home ∧ key ≠ .end ∧ key ≠ .char '0') →
        WK (normalChar core E c) { v with
          count := operatorCount v.count v.secondaryCount, currentCommand := v.currentCommand ++ [key] }
          (fun _ v' => Oper key v v') := by
      intro c h1 h2 h3
      refine wk_mono (wk_move E h1 ho) fun _ v' h => .moved h2 ⟨h3.1, h3.2.1⟩ (fun h => absurd h h3.2.2) ?_
      rcases h with ⟨h, h'⟩ | h
      · exact .inl ⟨h, h'.lc, h'.li, h'.cc, h'.ci, h'.lk⟩
      · refine .inr (Moved_f.of ?_ ?_ h) <;> first | rfl | exact ⟨rfl, rfl, rfl, rfl, rfl⟩
    cases key with
    | char c =>
      by_cases h0 : c = '0'
      · subst h0
        have hk0 : v.count = 0 := by
          rcases hk with hk | hk
          · simp [isMovementKey] at hk
          · exact hk.2
        show WK (normalChar core E '0') _ _
        refine wk_mono (wk_digit E (by decide) (v := { v with
          count := operatorCount v.count v.secondaryCount,
          currentCommand := v.currentCommand ++ [.char '0'] }) ho) fun _ v' h => ?_
        rcases h with ⟨h, hn, h'⟩ | ⟨_, hz, h⟩
        · exact .edge (by simp) h hn ⟨h'.lc, h'.li, h'.cc, h'.ci, h'.lk⟩
        · refine .moved (by simp) (by simp) (fun _ => ?_) (.inr (Moved_f.of ?_ ?_ h))
          · simpa [operatorCount, hk0] using hz
          · exact ⟨rfl, rfl, rfl, rfl, rfl⟩
          · rfl
      · by_cases hg : c = 'g'
        · subst hg
          refine wk_mono (wk_g (core := core) E) fun _ v' h => .g rfl ⟨h.1, h.2.lc, h.2.li, h.2.cc, h.2.ci, h.2.lk⟩
        by_cases hf : c ∈ ['f', 'F', 't', 'T']
        · refine wk_mono (wk_find E hf) fun _ v' h => ?_
          obtain ⟨m, h⟩ := h
          exact .find c hf rfl m ⟨h.1, h.2.lc, h.2.li, h.2.cc, h.2.ci, h.2.lk⟩
        have hc : c ∈ ['h', 'l', ' ', 'k', 'j', ';', ',', 'w', 'W', 'e', 'E', 'b', 'B', '^', '$'] := by
          simp [isMovementKey, h0, hg] at hk hf ⊢
          tauto
        refine mv c hc ?_ (by simp [h0])
        intro c' hc' h
        cases h
        simp [hg] at hc' hf
        tauto
    | left => exact mv 'h' (by simp) (by simp) (by simp)
    | right => exact mv 'l' (by simp) (by simp) (by simp)
    | backspace => exact mv 'h' (by simp) (by simp) (by simp)
    | home => exact wk_ed fun _ => .edge (by simp) rfl rfl ⟨rfl, rfl, rfl, rfl, rfl⟩
    | «end» => exact wk_ed fun _ => .edge (by simp) rfl rfl ⟨rfl, rfl, rfl, rfl, rfl⟩
    | _ => simp [isMovementKey] at hk
  · refine wk_ite (fun hd => ?_) (fun _ => wk_ite (fun hl => ?_) (fun _ => ?_))
    · cases key with
      | char c =>
        refine wk_mono (wk_digit E hd ho) fun _ v' h => ?_
        rcases h with ⟨h, hn, h'⟩ | ⟨h0, h1, _⟩
        · exact .digit h hn h'
        · exact absurd (.inr ⟨by rw [h0], h1⟩) hk
      | _ => cases hd
    · refine wk_bind <| wk_modK <| wk_bind <| wk_ed fun _ => wk_bind <| wk_ed fun _ => wk_popMode E fun b => ?_
      exact .line rfl rfl rfl rfl
    · exact wk_abort E (.quit ⟨rfl, rfl, rfl, rfl, rfl, rfl⟩)

end

/-! ### The records that can be repeated -/

/-- `d` and keys that leave it pending. -/
def Begun (l : List Key) : Prop :=
  ∃ ks, l = .char 'd' :: ks ∧ ∀ k ∈ ks, k ∈ [Key.home, .end, .char '0']

theorem Begun.snoc {l : List Key} (h : Begun l) {k : Key} (hk : k ∈ [Key.home, .end, .char '0']) :
    Begun (l ++ [k]) := by
  obtain ⟨ks, rfl, h⟩ := h
  refine ⟨ks ++ [k], rfl, fun k' hk' => ?_⟩
  rcases List.mem_append.1 hk' with h' | h'
  · exact h k' h'
  · rw [List.mem_singleton.1 h']; exact hk

/-- A record that no key changes the meaning of: every key of it but the first is the argument of
the one before. -/
inductive Simple : List Key → Prop
  | one {k : Key} (hk : k ∈ [.char 'x', .char '~', .char 'D', .delete]) : Simple [k]
  | replace (k : Key) : Simple [.char 'r', k]
  | move {d : List Key} (hd : Begun d) (k : Key) : Simple (d ++ [k])
  | find {d : List Key} (hd : Begun d) {c : Char} (hc : c ∈ ['f', 'F', 't', 'T']) (k : Key) :
      Simple (d ++ [.char c] ++ [k])
  | g {d : List Key} (hd : Begun d) (k : Key) : Simple (d ++ [.char 'g'] ++ [k])

/-- The record of a pending operator is the beginning of such a record. -/
structure Opk (v : Vi) : Prop where
  del : ∀ p, v.modeStack = [.delete p] → v.currentInsert = none ∧ Begun v.currentCommand
  find : ∀ m p, v.modeStack = [.moveToChar m, .delete p] → v.currentInsert = none ∧
    ∃ d c, Begun d ∧ c ∈ ['f', 'F', 't', 'T'] ∧ v.currentCommand = d ++ [.char c]
  g : ∀ p, v.modeStack = [.g, .delete p] → v.currentInsert = none ∧
    ∃ d, Begun d ∧ v.currentCommand = d ++ [.char 'g']

/-- The last command can be repeated without further repetitions. -/
def Lc (v : Vi) : Prop := v.lastCommand = [] ∨ (v.lastInsert = none ∧ Simple v.lastCommand)

/-- The states of a repetition. -/
def Good (v : Vi) : Prop := v.mode = .insert ∨ (Lc v ∧ Opk v)

theorem Opk.other {v : Vi} (h : ∀ p, v.modeStack ≠ [.delete p] ∧ (∀ m, v.modeStack ≠ [.moveToChar m, .delete p]) ∧
    v.modeStack ≠ [.g, .delete p]) : Opk v :=
  ⟨fun p hp => absurd hp (h p).1, fun m p hp => absurd hp ((h p).2.1 m), fun p hp => absurd hp (h p).2.2⟩

theorem Opk.nil {v : Vi} (h : v.modeStack = []) : Opk v := .other fun p => by simp [h]

theorem Lc.same {v v' : Vi} (h : Lc v) (hs : Same v v') : Lc v' := by
  unfold Lc
  rw [hs.lc, hs.li]
  exact h

theorem Good.quit {v v' : Vi} (h : Lc v) (hq : Quit v v') : Good v' := .inr ⟨h.same hq.2, .nil hq.1⟩

/-- A movement finishes a record. -/
theorem Good.moved {v v' : Vi} (h : Lc v) (hs : Opn v.modeStack)
    (hr : ∀ p, Has v.modeStack p [] → v.currentInsert = none ∧ Simple v.currentCommand)
    (hm : Moved_f v v') : Good v' := by
  rcases hm with ⟨_, h1, h2⟩ | ⟨p, base, h1, h2, h3, h4, h5⟩
  · exact .inr ⟨h.same h2, .nil h1⟩
  · have hb : base = [] ∨ base = [.insert] := by
      rcases hs with hf | ⟨p', base', h1', hb⟩
      · rcases hf with hf | ⟨m, hf⟩ | hf <;> rw [hf] at h1 <;> rcases h1 with h1 | ⟨m, h1⟩ | h1 <;> simp at h1
      · rcases h1' with h1' | ⟨m, h1'⟩ | h1' <;> rw [h1'] at h1 <;> rcases h1 with h1 | ⟨m, h1⟩ | h1 <;>
          simp at h1 <;> simp_all
    rcases hb with rfl | rfl
    · obtain ⟨a1, a2⟩ := hr p h1
      exact .inr ⟨.inr ⟨h4.trans a1, by rw [h3]; exact a2⟩, .nil h2⟩
    · exact .inl (mode_cons h2)

/-- `Esc` in insert mode and `.` in normal mode are the keys that replay others. -/
def Own (v : Vi) (k : Key) : Prop :=
  ¬ (v.mode = .insert ∧ ¬ Plain k) ∧ ¬ (v.mode = .normal ∧ k = .char '.')

section
variable (E : Env) {v : Vi}

theorem good_norm {k : Key} {v' : Vi} (hs : v.modeStack = []) (hl : Lc v) (h : Norm k v v') : Good v' := by
  cases h with
  | quit h => exact .quit hl h
  | find m h => exact .inr ⟨hl.same h.2, .other fun p => by simp [h.1, hs]⟩
  | g h => exact .inr ⟨hl.same h.2, .other fun p => by simp [h.1, hs]⟩
  | replace h => exact .inr ⟨hl.same h.2, .other fun p => by simp [h.1, hs]⟩
  | insert h _ _ _ => exact .inl (mode_cons h)
  | one h hc hi hk hk' => exact .inr ⟨.inr ⟨hi, by rw [hk]; exact .one hk'⟩, .nil (h.trans hs)⟩
  | del p h hc hi hl' hk =>
    rw [hs] at h
    refine .inr ⟨by unfold Lc; rw [hl', hi]; exact hl, ⟨fun q _ => ⟨hc, ?_⟩, fun m q hq => ?_, fun q hq => ?_⟩⟩
    · exact ⟨[], hk, by simp⟩
    · simp [h] at hq
    · simp [h] at hq
  | change p h hc hi hl' => exact .inr ⟨.inl hl', .other fun q => by simp [h]⟩

theorem good_oper {k : Key} {v' : Vi} (hs : Under v.modeStack) {p : Nat} (hm : v.mode = .delete p)
    (hl : Lc v) (ho : Opk v) (h : Oper k v v') : Good v' := by
  obtain ⟨base, hst, hb⟩ : ∃ base, v.modeStack = .delete p :: base ∧ (base = [] ∨ base = [.insert]) := by
    rcases hs with hs | ⟨q, base, hs, hb⟩
    · rw [mode_nil hs] at hm; cases hm
    · rw [mode_cons hs] at hm; cases hm; exact ⟨base, hs, hb⟩
  have rec0 : ∀ q, Has v.modeStack q [] → v.currentInsert = none ∧ Begun v.currentCommand := by
    intro q hq
    rcases hq with hq | ⟨m, hq⟩ | hq
    · exact ho.del q hq
    · rw [hst] at hq; simp at hq
    · rw [hst] at hq; simp at hq
  cases h with
  | quit h => exact .quit hl h
  | digit h hn h' =>
    refine .inr ⟨hl.same h', ⟨fun q hq => ?_, fun m q hq => ?_, fun q hq => ?_⟩⟩
    · rw [h'.ci, h'.cc]; exact ho.del q (h ▸ hq)
    · rw [h'.ci, h'.cc]; exact ho.find m q (h ▸ hq)
    · rw [h'.ci, h'.cc]; exact ho.g q (h ▸ hq)
  | edge hk h hn h' =>
    refine .inr ⟨by unfold Lc; rw [h'.lc, h'.li]; exact hl, ⟨fun q hq => ?_, fun m q hq => ?_, fun q hq => ?_⟩⟩
    · rw [h'.ci, h'.cc]
      obtain ⟨a1, a2⟩ := ho.del q (h ▸ hq)
      exact ⟨a1, a2.snoc hk⟩
    · rw [h, hst] at hq; simp at hq
    · rw [h, hst] at hq; simp at hq
  | moved hf hk hz h =>
    have hl1 : Lc { v with currentCommand := v.currentCommand ++ [k] } := hl
    rcases h with h | h
    · exact .quit hl1 h
    · exact .moved hl1 (.of_under hs) (fun q hq => ⟨(rec0 q hq).1, .move (rec0 q hq).2 k⟩) h
  | find c hc hk m h =>
    refine .inr ⟨by unfold Lc; rw [h.2.lc, h.2.li]; exact hl, ⟨fun q hq => ?_, fun m' q hq => ?_, fun q hq => ?_⟩⟩
    · rw [h.1] at hq; simp at hq
    · rw [h.2.ci, h.2.cc]
      rw [h.1, hst] at hq
      simp at hq
      obtain ⟨a1, a2⟩ := rec0 p (.inl (by rw [hst, hq.2.2]))
      exact ⟨a1, _, c, a2, hc, by rw [hk]⟩
    · rw [h.1] at hq; simp at hq
  | g hk h =>
    refine .inr ⟨by unfold Lc; rw [h.2.lc, h.2.li]; exact hl, ⟨fun q hq => ?_, fun m' q hq => ?_, fun q hq => ?_⟩⟩
    · rw [h.1] at hq; simp at hq
    · rw [h.1] at hq; simp at hq
    · rw [h.2.ci, h.2.cc]
      rw [h.1, hst] at hq
      simp at hq
      obtain ⟨a1, a2⟩ := rec0 p (.inl (by rw [hst, hq.2]))
      exact ⟨a1, _, a2, by rw [hk]⟩
  | line h h1 h2 h3 =>
    rw [hst, List.tail_cons] at h
    rcases hb with rfl | rfl
    · exact .inr ⟨by unfold Lc; rw [h1, h2]; exact hl, .nil h⟩
    · exact .inl (mode_cons h)

/-- A key that replays no others keeps the records of a repetition. -/
theorem good_step {core : Key → ViM Unit} {k : Key} {t : Vi × Ed} (hv : VI t) (hg : Good t.1)
    (hk : Own t.1 k) : Wp (coreStep core E k) t (fun _ t' => Good t'.1) T2 T1 := by
  unfold coreStep
  rw [wp_bind, wp_getK]
  have hl : ∀ m : Mode, t.1.mode = m → m ≠ .insert → Lc t.1 ∧ Opk t.1 := fun m hm hn =>
    hg.resolve_left (by rw [hm]; exact hn)
  split
  · rename_i hm
    obtain ⟨h1, h2⟩ := hl _ hm (by simp)
    exact wk_mono (wk_normal E (fun h => hk.2 ⟨hm, h⟩) (hv.nil hm)) (fun _ v' h => good_norm (hv.nil hm) h1 h) t.2
  · rename_i hm
    have hp : Plain k := by
      by_contra h
      exact hk.1 ⟨hm, h⟩
    exact wp_mono (insert_plain E hp ⟨hv, hv.insert hm⟩) (fun _ _ h => .inl (mode_cons h.2)) (fun _ _ h => h)
      (fun _ h => h)
  · rename_i hm
    obtain ⟨h1, h2⟩ := hl _ hm (by simp)
    refine wk_mono (wk_replace E (hv.replace hm)) (fun _ v' h => ?_) t.2
    rcases h with h | ⟨a1, a2, a3, a4⟩
    · exact .quit h1 h
    · exact .inr ⟨.inr ⟨a3, by rw [a4]; exact .replace k⟩, .nil a1⟩
  · rename_i p hm
    obtain ⟨h1, h2⟩ := hl _ hm (by simp)
    obtain ⟨base, hst, hb⟩ := hv.delete hm
    have hu : Under t.1.modeStack := .inr ⟨p, base, hst, hb⟩
    exact wk_mono (wk_delete E hu) (fun _ v' h => good_oper hu hm h1 h2 h) t.2
  · rename_i m hm
    obtain ⟨h1, h2⟩ := hl _ hm (by simp)
    obtain ⟨r, hst, hu⟩ := hv.char hm
    refine wk_mono (wk_moveToChar E (.of_char hst hu)) (fun _ v' h => ?_) t.2
    rcases h with h | h
    · exact .quit h1 h
    · refine Good.moved (v := { t.1 with currentCommand := t.1.currentCommand ++ [k] }) h1 (.of_char hst hu) ?_ h
      intro p hp
      rcases hp with hp | ⟨m', hp⟩ | hp
      · rw [hst] at hp; simp at hp
      · obtain ⟨a1, d, c, a2, a3, a4⟩ := h2.find m' p hp
        exact ⟨a1, by dsimp only; rw [a4]; exact .find a2 a3 k⟩
      · rw [hst] at hp; simp at hp
  · rename_i hm
    obtain ⟨h1, h2⟩ := hl _ hm (by simp)
    obtain ⟨r, hst, hu⟩ := hv.g hm
    refine wk_mono (wk_handleG E (.of_g hst hu)) (fun _ v' h => ?_) t.2
    have h1' : Lc { t.1 with currentCommand := t.1.currentCommand ++ [k] } := h1
    rcases h with h | h
    · exact .quit h1' h
    · refine Good.moved h1' (.of_g hst hu) ?_ h
      intro p hp
      rcases hp with hp | ⟨m', hp⟩ | hp
      · rw [hst] at hp; simp at hp
      · rw [hst] at hp; simp at hp
      · obtain ⟨a1, d, a2, a3⟩ := h2.g p hp
        exact ⟨a1, by dsimp only; rw [a3]; exact .g a2 k⟩
  · trivial

theorem wk_d {core : Key → ViM Unit} :
    WK (handleKeyNormal core E (.char 'd')) v (fun _ v' => ∃ p, v'.modeStack = .delete p :: v.modeStack ∧
      v'.currentInsert = none ∧ v'.lastInsert = v.lastInsert ∧ v'.secondaryCount = v.count) :=
  wk_bind <| wk_modK <| wk_bind <| wk_modK <| wk_bind <| wk_ed fun _ => wk_bind <| wk_setMode E (by simp) <|
    wk_modK ⟨_, rfl, rfl, rfl, rfl⟩

theorem wk_r {core : Key → ViM Unit} :
    WK (handleKeyNormal core E (.char 'r')) v (fun _ v' => Push .replace v v') :=
  wk_setMode E (by simp) ⟨rfl, rfl, rfl, rfl, rfl, rfl⟩

theorem wk_edge {core : Key → ViM Unit} {key : Key} (hk : key ∈ [Key.home, .end, .char '0'])
    (hn : v.secondaryCount ≠ 0) (hs : Under v.modeStack) :
    WK (handleKeyDeleteOrChange core E key) v (fun _ v' => v'.modeStack = v.modeStack ∧
      v'.currentInsert = v.currentInsert ∧ v'.lastInsert = v.lastInsert ∧
      v'.secondaryCount = v.secondaryCount) := by
  simp only [List.mem_cons, List.not_mem_nil, or_false] at hk
  rcases hk with rfl | rfl | rfl
  · exact wk_bind <| wk_getK <| wk_bind <| wk_modK <| wk_ed fun _ => ⟨rfl, rfl, rfl, rfl⟩
  · exact wk_bind <| wk_getK <| wk_bind <| wk_modK <| wk_ed fun _ => ⟨rfl, rfl, rfl, rfl⟩
  · unfold handleKeyDeleteOrChange
    refine wk_bind <| wk_getK <| wk_ite (fun h => wk_bind <| wk_modK ?_) (fun h => ?_)
    · have h0 : v.count = 0 := by
        rcases h with h | h
        · simp [isMovementKey] at h
        · exact h.2
      show WK (normalChar core E '0') _ _
      refine wk_mono (wk_digit E (by decide) (v := { v with
          count := operatorCount v.count v.secondaryCount,
          currentCommand := v.currentCommand ++ [.char '0'] }) (.of_under hs)) fun _ v' h => ?_
      rcases h with ⟨h, hn, h'⟩ | ⟨_, hz, h⟩
      · exact ⟨h, h'.ci, h'.li, hn⟩
      · rw [h0] at hz
        exact absurd (by simpa [operatorCount] using hz) hn
    · rw [if_pos (by decide)]
      show WK (normalChar core E '0') _ _
      refine wk_mono (wk_digit E (by decide) (.of_under hs)) fun _ v' h' => ?_
      rcases h' with ⟨h1, hn, h'⟩ | ⟨_, hz, _⟩
      · exact ⟨h1, h'.ci, h'.li, hn⟩
      · exact absurd (.inr ⟨rfl, hz⟩) h

theorem wk_opfind {core : Key → ViM Unit} {c : Char} (hc : c ∈ ['f', 'F', 't', 'T']) :
    WK (handleKeyDeleteOrChange core E (.char c)) v (fun _ v' => (∃ m, v'.modeStack = .moveToChar m :: v.modeStack) ∧
      v'.currentInsert = v.currentInsert ∧ v'.lastInsert = v.lastInsert) := by
  have hm : isMovementKey (.char c) = true := by
    simp only [List.mem_cons, List.not_mem_nil, or_false] at hc
    rcases hc with rfl | rfl | rfl | rfl <;> rfl
  unfold handleKeyDeleteOrChange
  refine wk_bind <| wk_getK ?_
  rw [if_pos (.inl hm)]
  refine wk_bind <| wk_modK ?_
  refine wk_mono (wk_find (core := core) E hc) fun _ v' h => ?_
  obtain ⟨m, h, h'⟩ := h
  exact ⟨⟨m, h⟩, h'.ci, h'.li⟩

theorem wk_opg {core : Key → ViM Unit} :
    WK (handleKeyDeleteOrChange core E (.char 'g')) v (fun _ v' => v'.modeStack = .g :: v.modeStack ∧
      v'.currentInsert = v.currentInsert ∧ v'.lastInsert = v.lastInsert) := by
  unfold handleKeyDeleteOrChange
  refine wk_bind <| wk_getK ?_
  rw [if_pos (.inl rfl)]
  refine wk_bind <| wk_modK ?_
  refine wk_mono (wk_g (core := core) E) fun _ v' h => ?_
  exact ⟨h.1, h.2.ci, h.2.li⟩

/-! ### No repetition is recorded -/

/-- Neither the last command nor the pending one starts with a repetition. -/
def LI (v : Vi) : Prop := v.lastInsert ≠ some (.char '.') ∧ v.currentInsert ≠ some (.char '.')

theorem LI.of {v v' : Vi} (h : LI v) (h1 : v'.lastInsert = v.lastInsert ∨ v'.lastInsert = v.currentInsert)
    (h2 : v'.currentInsert = v.currentInsert) : LI v' := by
  refine ⟨?_, h2 ▸ h.2⟩
  rcases h1 with h1 | h1 <;> rw [h1]
  · exact h.1
  · exact h.2

theorem LI.moved {v w v' : Vi} (h : LI v) (hm : Quit w v' ∨ Moved_f w v')
    (h1 : w.lastInsert = v.lastInsert) (h2 : w.currentInsert = v.currentInsert) : LI v' := by
  rcases hm with ⟨_, hm⟩ | ⟨_, _, hm⟩ | ⟨_, _, _, _, _, h3, h4⟩
  · exact h.of (.inl (hm.li.trans h1)) (hm.ci.trans h2)
  · exact h.of (.inl (hm.li.trans h1)) (hm.ci.trans h2)
  · exact h.of (.inr (h3.trans h2)) (h4.trans h2)

theorem li_norm {k : Key} {v' : Vi} (h : LI v) (hn : Norm k v v') : LI v' := by
  cases hn with
  | quit h' => exact h.of (.inl h'.2.li) h'.2.ci
  | find m h' => exact h.of (.inl h'.2.li) h'.2.ci
  | g h' => exact h.of (.inl h'.2.li) h'.2.ci
  | replace h' => exact h.of (.inl h'.2.li) h'.2.ci
  | insert _ hc hi _ => exact ⟨hi, hc ▸ h.2⟩
  | one _ hc hi _ _ => exact ⟨by rw [hi]; simp, hc ▸ h.2⟩
  | del _ _ hc hi _ _ => exact ⟨hi ▸ h.1, by rw [hc]; simp⟩
  | change _ _ hc hi _ => exact ⟨hi ▸ h.1, by rw [hc]; simp⟩

theorem li_oper {k : Key} {v' : Vi} (h : LI v) (hn : Oper k v v') : LI v' := by
  cases hn with
  | quit h' => exact h.of (.inl h'.2.li) h'.2.ci
  | digit _ _ h' => exact h.of (.inl h'.li) h'.ci
  | edge _ _ _ h' => exact h.of (.inl h'.li) h'.ci
  | moved _ _ _ h' => exact h.moved h' rfl rfl
  | find _ _ _ _ h' => exact h.of (.inl h'.2.li) h'.2.ci
  | g _ h' => exact h.of (.inl h'.2.li) h'.2.ci
  | line _ _ hi hc => exact h.of (.inl hi) hc

theorem wk_reset (h : LI v) {Q : Unit → Vi → Prop} (hq : ∀ v', LI v' → Q () v') : WK resetInsert v Q := by
  unfold resetInsert
  refine wk_bind <| wk_getK <| wk_ite (fun _ => ?_) (fun _ => wk_pure (hq v h))
  exact wk_bind <| wk_ed fun _ => wk_bind <| wk_ed fun _ => wk_modK (hq _ ⟨by simp, h.2⟩)

theorem li_insert {core : Key → ViM Unit} {key : Key} (hk : Plain key) (h : LI v) :
    WK (handleKeyInsert core E key) v (fun _ v' => LI v') := by
  unfold handleKeyInsert
  rw [if_neg (by rintro (rfl | rfl); exacts [hk.1 rfl, hk.2 rfl])]
  have typed : ∀ m : EdM Unit, WK (do
      resetInsert
      modK fun v => { v with lastCommand := v.lastCommand ++ [key] }
      ed m : ViM Unit) v (fun _ v' => LI v') := fun m =>
    wk_bind <| wk_reset h fun v' h' => wk_bind <| wk_modK <| wk_ed fun _ => h'
  split
  · exact typed _
  · exact typed _
  · exact typed _
  · exact wk_bind <| wk_modK <| wk_ed fun _ => h
  · exact wk_bind <| wk_modK <| wk_ed fun _ => h
  · exact wk_bind <| wk_modK <| wk_ed fun _ => h
  · exact wk_bind <| wk_modK <| wk_ed fun _ => h
  · exact wk_bind <| wk_modK <| wk_bind <| wk_ed fun _ => wk_bind <| wk_ed fun _ => wk_ed fun _ => h
  · exact wk_bind <| wk_modK <| wk_bind <| wk_ed fun _ => wk_bind <| wk_ed fun _ => wk_ed fun _ => h
  · exact wk_ed fun _ => h

/-- A key that replays no others. -/
theorem li_own {core : Key → ViM Unit} {k : Key} {t : Vi × Ed} (hv : VI t) (h : LI t.1) (hk : Own t.1 k) :
    Wp (coreStep core E k) t (fun _ t' => LI t'.1) T2 T1 := by
  unfold coreStep
  rw [wp_bind, wp_getK]
  split
  · rename_i hm
    exact wk_mono (wk_normal E (fun h => hk.2 ⟨hm, h⟩) (hv.nil hm)) (fun _ v' h' => li_norm h h') t.2
  · rename_i hm
    have hp : Plain k := by
      by_contra h
      exact hk.1 ⟨hm, h⟩
    exact li_insert E hp h t.2
  · rename_i hm
    refine wk_mono (wk_replace E (hv.replace hm)) (fun _ v' h' => ?_) t.2
    rcases h' with h' | ⟨_, a2, a3, _⟩
    · exact h.of (.inl h'.2.li) h'.2.ci
    · exact ⟨by rw [a3]; simp, a2 ▸ h.2⟩
  · rename_i p hm
    obtain ⟨base, hst, hb⟩ := hv.delete hm
    exact wk_mono (wk_delete E (.inr ⟨p, base, hst, hb⟩)) (fun _ v' h' => li_oper h h') t.2
  · rename_i m hm
    obtain ⟨r, hst, hu⟩ := hv.char hm
    refine wk_mono (wk_moveToChar E (.of_char hst hu)) (fun _ v' h' => ?_) t.2
    rcases h' with h' | h'
    · exact h.of (.inl h'.2.li) h'.2.ci
    · exact h.moved (.inr h') rfl rfl
  · rename_i hm
    obtain ⟨r, hst, hu⟩ := hv.g hm
    exact wk_mono (wk_handleG E (.of_g hst hu)) (fun _ v' h' => h.moved h' rfl rfl) t.2
  · trivial

/-! ### The recursion ends -/

theorem bind_assoc0 {σ α β γ : Type} (m : M σ α) (f : α → M σ β) (g : β → M σ γ) :
    M.bind (M.bind m f) g = M.bind m fun a => M.bind (f a) g := by
  funext s
  unfold M.bind
  cases m s <;> rfl

/-- Two actions do the same from a state. -/
def Eqv {α : Type} (m m' : ViM α) (t : Vi × Ed) (Q : α → Vi × Ed → Prop) : Prop :=
  m t = m' t ∧ Wp m t Q T2 T1

theorem eqv_bind {α β : Type} {m m' : ViM α} {f f' : α → ViM β} {t : Vi × Ed} {Q' : α → Vi × Ed → Prop}
    {Q : β → Vi × Ed → Prop} (h : Eqv m m' t Q') (hf : ∀ a t', Q' a t' → Eqv (f a) (f' a) t' Q) :
    Eqv (m >>= f) (m' >>= f') t Q := by
  refine ⟨?_, wp_bind.2 (wp_mono h.2 (fun a t' h' => (hf a t' h').2) (fun _ _ h => h) (fun _ h => h))⟩
  have h1 := h.1
  have h2 := h.2
  show M.bind m f t = M.bind m' f' t
  unfold M.bind
  unfold Wp at h2
  rw [← h1]
  cases hm : m t with
  | ok a t' =>
    rw [hm] at h2
    exact (hf a t' h2).1
  | err e t' => rfl
  | panic w => rfl

theorem eqv_refl {α : Type} {m : ViM α} {t : Vi × Ed} {Q : α → Vi × Ed → Prop} (h : Wp m t Q T2 T1) :
    Eqv m m t Q := ⟨rfl, h⟩

theorem eqv_mono {α : Type} {m m' : ViM α} {t : Vi × Ed} {Q Q' : α → Vi × Ed → Prop} (h : Eqv m m' t Q)
    (hq : ∀ a t', Q a t' → Q' a t') : Eqv m m' t Q' :=
  ⟨h.1, wp_mono h.2 hq (fun _ _ h => h) (fun _ h => h)⟩

theorem eqv_forEach {f g : Key → ViM Unit} {I : Vi × Ed → Prop} : ∀ {xs : List Key} {t : Vi × Ed}, I t →
    (∀ x ∈ xs, ∀ t, I t → Eqv (f x) (g x) t (fun _ t' => I t')) →
    Eqv (M.forEach xs f) (M.forEach xs g) t (fun _ t' => I t')
  | [], _, hi, _ => ⟨rfl, hi⟩
  | x :: xs, t, hi, h => eqv_bind (h x (by simp) t hi) fun _ t' h' =>
      eqv_forEach h' fun y hy => h y (by simp [hy])

theorem eqv_repeatN {m m' : ViM Unit} {I : Vi × Ed → Prop} (h : ∀ t, I t → Eqv m m' t (fun _ t' => I t')) :
    ∀ (n : Nat) (t : Vi × Ed), I t → Eqv (M.repeatN n m) (M.repeatN n m') t (fun _ t' => I t')
  | 0, _, hi => ⟨rfl, hi⟩
  | n + 1, t, hi => eqv_bind (h t hi) fun _ t' h' => eqv_repeatN h n t' h'

theorem normalChar_core {c1 c2 : Key → ViM Unit} {c : Char} (hc : c ≠ '.') :
    normalChar c1 E c = normalChar c2 E c := by
  unfold normalChar
  simp only [if_neg hc]

theorem normal_core {c1 c2 : Key → ViM Unit} {k : Key} (hc : k ≠ .char '.') :
    handleKeyNormal c1 E k = handleKeyNormal c2 E k := by
  cases k with
  | char c => exact normalChar_core E (by simpa using hc)
  | left => exact normalChar_core (c1 := c1) (c2 := c2) E (c := 'h') (by decide)
  | right => exact normalChar_core (c1 := c1) (c2 := c2) E (c := 'l') (by decide)
  | backspace => exact normalChar_core (c1 := c1) (c2 := c2) E (c := 'h') (by decide)
  | up => exact normalChar_core (c1 := c1) (c2 := c2) E (c := 'k') (by decide)
  | down => exact normalChar_core (c1 := c1) (c2 := c2) E (c := 'j') (by decide)
  | _ => rfl

theorem delete_core {c1 c2 : Key → ViM Unit} {k : Key} :
    handleKeyDeleteOrChange c1 E k = handleKeyDeleteOrChange c2 E k := by
  by_cases hc : k = .char '.'
  · subst hc
    rfl
  · unfold handleKeyDeleteOrChange
    rw [normal_core E hc]

/-- A key that replays no others does not depend on how they would be replayed. -/
theorem own_core {c1 c2 : Key → ViM Unit} {k : Key} {t : Vi × Ed} (hk : Own t.1 k) :
    coreStep c1 E k t = coreStep c2 E k t := by
  show (match t.1.mode with
    | .normal => handleKeyNormal c1 E k
    | .insert => handleKeyInsert c1 E k
    | .replace => handleKeyReplace E k
    | .delete _ => handleKeyDeleteOrChange c1 E k
    | .moveToChar m => handleKeyMoveToChar E k (.dir m)
    | .g => handleKeyG E k
    | .tilde => M.panic) t = (match t.1.mode with
    | .normal => handleKeyNormal c2 E k
    | .insert => handleKeyInsert c2 E k
    | .replace => handleKeyReplace E k
    | .delete _ => handleKeyDeleteOrChange c2 E k
    | .moveToChar m => handleKeyMoveToChar E k (.dir m)
    | .g => handleKeyG E k
    | .tilde => M.panic) t
  cases hm : t.1.mode with
  | normal => dsimp only; rw [normal_core E (fun h => hk.2 ⟨hm, h⟩)]
  | insert =>
    have hp : Plain k := by
      by_contra h
      exact hk.1 ⟨hm, h⟩
    dsimp only
    unfold handleKeyInsert
    rw [if_neg (by rintro (rfl | rfl); exacts [hp.1 rfl, hp.2 rfl]),
      if_neg (by rintro (rfl | rfl); exacts [hp.1 rfl, hp.2 rfl])]
  | delete p => dsimp only; rw [delete_core E]
  | replace => rfl
  | moveToChar m => rfl
  | g => rfl
  | tilde => rfl

variable {rest : Key → ViM Unit}

/-- What holds between two keys. -/
def Inv (t : Vi × Ed) : Prop := VI t ∧ LI t.1

/-- A key that replays no others. -/
theorem own_eqv {n m : Nat} {k : Key} {t : Vi × Ed} (hv : Inv t) (hk : Own t.1 k) :
    Eqv (coreFuel E (n + 1) k) (nested E rest (m + 1) k) t
      (fun _ t' => Inv t' ∧ (Good t.1 → Good t'.1)) := by
  refine ⟨own_core E hk, ?_⟩
  show Wp (coreStep _ E k) t _ T2 T1
  have h1 := wp_and ((coreStep_ok E (coreFuel_ok E n)).all k t hv.1)
    (li_own E (core := coreFuel E n) hv.1 hv.2 hk)
  by_cases hg : Good t.1
  · exact wp_mono (wp_and h1 (good_step E hv.1 hg hk)) (fun _ t' h => ⟨⟨h.1.1, h.1.2⟩, fun _ => h.2⟩)
      (fun _ _ _ => trivial) (fun _ _ => trivial)
  · exact wp_mono h1 (fun _ t' h => ⟨⟨h.1, h.2⟩, fun h => absurd h hg⟩) (fun _ _ _ => trivial)
      (fun _ _ => trivial)

/-- Keys in insert mode. -/
theorem ins_eqv {n m : Nat} {k : Key} {t : Vi × Ed} (hv : Inv t) (hs : t.1.modeStack = [.insert]) (hk : Plain k) :
    Eqv (coreFuel E (n + 1) k) (nested E rest (m + 1) k) t
      (fun _ t' => Inv t' ∧ t'.1.modeStack = [.insert]) := by
  have h := own_eqv (rest := rest) (n := n) (m := m) E hv (k := k) ⟨fun h => h.2 hk, fun h => by rw [mode_cons hs] at h; cases h.1⟩
  exact ⟨h.1, wp_mono (wp_and h.2 ((coreFuel_ok E (n + 1)).ins k hk t hv.1 hs)) (fun _ t' h => ⟨h.1.1, h.2.2⟩)
    (fun _ _ _ => trivial) (fun _ _ => trivial)⟩

/-- `Esc` in insert mode. -/
theorem esc_eqv {n m : Nat} {k : Key} {t : Vi × Ed} (hv : Inv t) (hm : t.1.mode = .insert) (hk : ¬ Plain k) :
    Eqv (coreFuel E (n + 2) k) (nested E rest (m + 2) k) t (fun _ t' => Inv t' ∧ t'.1.modeStack = []) := by
  have hs := hv.1.insert hm
  have fin : ∀ t1 : Vi × Ed, LI t1.1 → Eqv (do
      ed (Editor.moveCursorLeft E 1)
      popMode E : ViM Unit) (do
      ed (Editor.moveCursorLeft E 1)
      popMode E : ViM Unit) t1 (fun _ t' => LI t'.1) := by
    intro t1 h1
    refine eqv_refl ?_
    have h2 : WK (do ed (Editor.moveCursorLeft E 1); popMode E : ViM Unit) t1.1 (fun _ v' => LI v') :=
      wk_bind <| wk_ed fun _ => wk_popMode E fun b => h1
    exact h2 t1.2
  have key : Eqv (handleKeyInsert (coreFuel E (n + 1)) E k) (handleKeyInsert (nested E rest (m + 1)) E k) t
      (fun _ t' => LI t'.1) := by
    unfold handleKeyInsert
    have hk' : k = .esc ∨ k = .ctrl '[' := by
      by_contra hne
      exact hk ⟨fun h => hne (.inl h), fun h => hne (.inr h)⟩
    rw [if_pos hk', if_pos hk']
    refine eqv_bind (Q' := fun v t' => v = t.1 ∧ t' = t) ⟨rfl, rfl, rfl⟩ ?_
    rintro v t' ⟨rfl, rfl⟩
    dsimp only
    split
    · refine eqv_bind (Q' := fun _ t2 => Inv t2 ∧ t2.1.modeStack = [.insert]) ⟨rfl, ?_⟩ fun _ t2 h2 => ?_
      · rw [wp_modK]
        have := (Ins.noEsc ⟨hv.1, hs⟩ (v := { t'.1 with lastCount := t'.1.count }) rfl hv.1.esc.last)
        exact ⟨⟨this.1, hv.2⟩, this.2⟩
      · unfold insertRepeats replay
        refine eqv_bind (eqv_repeatN (I := fun t2 => Inv t2 ∧ t2.1.modeStack = [.insert]) ?_ _ t2 h2)
          fun _ t3 h3 => ?_
        · rintro t4 ⟨h4, h5⟩
          refine eqv_bind (Q' := fun v t' => v = t4.1 ∧ t' = t4) ⟨rfl, rfl, rfl⟩ ?_
          rintro v t5 ⟨rfl, rfl⟩
          refine eqv_bind (Q' := fun _ t2 => Inv t2 ∧ t2.1.modeStack = [.insert]) ⟨rfl, ?_⟩ fun _ t6 h6 => ?_
          · rw [wp_modK]
            have := (Ins.noEsc ⟨h4.1, h5⟩ (v := { t5.1 with lastCommand := [] }) rfl (fun k hk => by cases hk))
            exact ⟨⟨this.1, h4.2⟩, this.2⟩
          · exact eqv_forEach (I := fun t2 => Inv t2 ∧ t2.1.modeStack = [.insert]) h6
              fun x hx t7 h7 => ins_eqv E h7.1 h7.2 (h4.1.esc.last x hx)
        · refine eqv_bind (Q' := fun _ t2 => LI t2.1) ⟨rfl, ?_⟩ fun _ t4 h4 => fin t4 h4
          rw [wp_modK]
          exact h3.1.2
    · exact fin _ hv.2
  have e : ∀ core, coreStep core E k t = handleKeyInsert core E k t := by
    intro core
    show (match t.1.mode with
      | .normal => handleKeyNormal core E k
      | .insert => handleKeyInsert core E k
      | .replace => handleKeyReplace E k
      | .delete _ => handleKeyDeleteOrChange core E k
      | .moveToChar m => handleKeyMoveToChar E k (.dir m)
      | .g => handleKeyG E k
      | .tilde => M.panic) t = _
    rw [hm]
  refine ⟨(e _).trans (key.1.trans (e _).symm), ?_⟩
  have e' : coreFuel E (n + 2) k t = _ := e (coreFuel E (n + 1))
  unfold Wp
  rw [e']
  exact wp_mono (wp_and key.2 (insert_esc E (coreFuel_ok E (n + 1)) hk ⟨hv.1, hs⟩))
    (fun _ t' h => ⟨⟨h.2.1, h.1⟩, h.2.2⟩) (fun _ _ _ => trivial) (fun _ _ => trivial)

/-! ### Repetitions -/

/-- The dispatch of a key. -/
theorem core_mode (n : Nat) (k : Key) (t : Vi × Ed) : coreFuel E (n + 1) k t = (match t.1.mode with
    | .normal => handleKeyNormal (coreFuel E n) E k
    | .insert => handleKeyInsert (coreFuel E n) E k
    | .replace => handleKeyReplace E k
    | .delete _ => handleKeyDeleteOrChange (coreFuel E n) E k
    | .moveToChar m => handleKeyMoveToChar E k (.dir m)
    | .g => handleKeyG E k
    | .tilde => M.panic) t := rfl

theorem core_normal_f {n : Nat} {k : Key} {t : Vi × Ed} (h : t.1.mode = .normal) :
    coreFuel E (n + 1) k t = handleKeyNormal (coreFuel E n) E k t := by rw [core_mode, h]
theorem core_replace_f {n : Nat} {k : Key} {t : Vi × Ed} (h : t.1.mode = .replace) :
    coreFuel E (n + 1) k t = handleKeyReplace E k t := by rw [core_mode, h]
theorem core_delete_f {n : Nat} {k : Key} {t : Vi × Ed} {p : Nat} (h : t.1.mode = .delete p) :
    coreFuel E (n + 1) k t = handleKeyDeleteOrChange (coreFuel E n) E k t := by rw [core_mode, h]
theorem core_find {n : Nat} {k : Key} {t : Vi × Ed} {m : CharMovement} (h : t.1.mode = .moveToChar m) :
    coreFuel E (n + 1) k t = handleKeyMoveToChar E k (.dir m) t := by rw [core_mode, h]
theorem core_g_f {n : Nat} {k : Key} {t : Vi × Ed} (h : t.1.mode = .g) :
    coreFuel E (n + 1) k t = handleKeyG E k t := by rw [core_mode, h]

theorem wp_eq {α : Type} {m m' : ViM α} {t : Vi × Ed} {Q : α → Vi × Ed → Prop} (h : m t = m' t)
    (hw : Wp m' t Q T2 T1) : Wp m t Q T2 T1 := by
  unfold Wp at *
  rw [h]
  exact hw

/-- A key that replays no others, in a repetition. -/
theorem own_and {n m : Nat} {k : Key} {t : Vi × Ed} {Q : Vi → Prop} (hv : Inv t) (hg : Good t.1) (hk : Own t.1 k)
    (hw : ∃ m0 : ViM Unit, coreFuel E (n + 1) k t = m0 t ∧ WK m0 t.1 (fun _ v' => Q v')) :
    Eqv (coreFuel E (n + 1) k) (nested E rest (m + 1) k) t (fun _ t' => Inv t' ∧ Good t'.1 ∧ Q t'.1) := by
  have h := own_eqv (rest := rest) (n := n) (m := m) E hv hk
  obtain ⟨m0, e, hw⟩ := hw
  exact ⟨h.1, wp_mono (wp_and h.2 (wp_eq e (hw t.2))) (fun _ t' h' => ⟨h'.1.1, h'.1.2 hg, h'.2⟩) (fun _ _ _ => trivial)
    (fun _ _ => trivial)⟩

theorem own_of {k : Key} {m : Mode} (hm : v.mode = m) (h1 : m ≠ .insert) (h2 : m ≠ .normal ∨ k ≠ .char '.') :
    Own v k := by
  refine ⟨fun h => h1 (hm.symm.trans h.1), fun h => ?_⟩
  rcases h2 with h2 | h2
  · exact h2 (hm.symm.trans h.1)
  · exact h2 h.2

theorem eqv_append {f g : Key → ViM Unit} {I Q : Vi × Ed → Prop} : ∀ {xs ys : List Key} {t : Vi × Ed},
    Eqv (M.forEach xs f) (M.forEach xs g) t (fun _ t' => I t') →
    (∀ t, I t → Eqv (M.forEach ys f) (M.forEach ys g) t (fun _ t' => Q t')) →
    Eqv (M.forEach (xs ++ ys) f) (M.forEach (xs ++ ys) g) t (fun _ t' => Q t') := by
  intro xs ys t h1 h2
  have e : ∀ (f : Key → ViM Unit) (xs : List Key), M.forEach (xs ++ ys) f = M.forEach xs f >>= fun _ => M.forEach ys f := by
    intro f xs
    induction xs with
    | nil => rfl
    | cons x xs ih =>
      show M.bind (f x) (fun _ => M.forEach (xs ++ ys) f) = M.bind (M.bind (f x) fun _ => M.forEach xs f) _
      rw [ih]
      exact (bind_assoc0 _ _ _).symm
  rw [e, e]
  exact eqv_bind h1 fun _ t' h' => h2 t' h'

theorem eqv_single {f g : Key → ViM Unit} {k : Key} {t : Vi × Ed} {Q : Vi × Ed → Prop}
    (h : Eqv (f k) (g k) t (fun _ t' => Q t')) :
    Eqv (M.forEach [k] f) (M.forEach [k] g) t (fun _ t' => Q t') :=
  eqv_bind h fun _ _ h' => ⟨rfl, h'⟩

theorem li_none_norm {k : Key} {v' : Vi} (h : v.lastInsert = none) (hk : ∀ c ∈ ['i', 'a', 'A', 'I', 's', 'C'], k ≠ .char c)
    (hn : Norm k v v') : v'.lastInsert = none := by
  cases hn with
  | quit h' => exact h'.2.li.trans h
  | find m h' => exact h'.2.li.trans h
  | g h' => exact h'.2.li.trans h
  | replace h' => exact h'.2.li.trans h
  | insert _ _ _ hk' => obtain ⟨c, h1, h2⟩ := hk'; exact absurd h2 (hk c h1)
  | one _ _ hi _ _ => exact hi
  | del _ _ _ hi _ _ => exact hi.trans h
  | change _ _ _ hi _ => exact hi.trans h

theorem li_none_moved {w v' : Vi} (h1 : w.lastInsert = none) (h2 : w.currentInsert = none)
    (hm : Quit w v' ∨ Moved_f w v') : v'.lastInsert = none := by
  rcases hm with ⟨_, hm⟩ | ⟨_, _, hm⟩ | ⟨_, _, _, _, _, h3, h4⟩
  · exact hm.li.trans h1
  · exact hm.li.trans h1
  · exact h3.trans h2

theorem li_none_oper {k : Key} {v' : Vi} (h1 : v.lastInsert = none) (h2 : v.currentInsert = none)
    (hn : Oper k v v') : v'.lastInsert = none := by
  cases hn with
  | quit h' => exact h'.2.li.trans h1
  | digit _ _ h' => exact h'.li.trans h1
  | edge _ _ _ h' => exact h'.li.trans h1
  | moved _ _ _ h' => exact li_none_moved (w := { v with currentCommand := v.currentCommand ++ [k] }) h1 h2 h'
  | find _ _ _ _ h' => exact h'.2.li.trans h1
  | g _ h' => exact h'.2.li.trans h1
  | line _ _ hi _ => exact hi.trans h1

/-- A `d` is pending in a repetition. -/
def Mid (t : Vi × Ed) : Prop := Inv t ∧ Good t.1 ∧ (∃ p, t.1.modeStack = [.delete p]) ∧
  t.1.currentInsert = none ∧ t.1.lastInsert = none ∧ t.1.secondaryCount ≠ 0

/-- Where a repetition starts. -/
def Start (t : Vi × Ed) : Prop := Inv t ∧ Good t.1 ∧ t.1.modeStack = [] ∧ t.1.lastInsert = none ∧ t.1.count ≠ 0

/-- Where it ends. -/
def Stop (t : Vi × Ed) : Prop := Inv t ∧ Good t.1 ∧ t.1.lastInsert = none

theorem begun_eqv {n m : Nat} {d : List Key} (hd : Begun d) {t : Vi × Ed} (h : Start t) :
    Eqv (M.forEach d (coreFuel E (n + 1))) (M.forEach d (nested E rest (m + 1))) t (fun _ t' => Mid t') := by
  obtain ⟨ks, rfl, hks⟩ := hd
  obtain ⟨h1, h2, h3, h4, h5⟩ := h
  have hm := mode_nil h3
  refine eqv_bind (own_and E (Q := fun v' => (∃ p, v'.modeStack = [.delete p]) ∧ v'.currentInsert = none ∧
    v'.lastInsert = none ∧ v'.secondaryCount ≠ 0) h1 h2 (own_of hm (by simp) (.inr (by simp))) ?_)
    fun _ t1 ⟨a1, a2, a3⟩ => ?_
  · refine ⟨_, core_normal_f E hm, wk_mono (wk_d E) (fun _ v' h' => ?_)⟩
    obtain ⟨p, b1, b2, b3, b4⟩ := h'
    exact ⟨⟨p, by rw [b1, h3]⟩, b2, b3.trans h4, by rw [b4]; exact h5⟩
  · refine eqv_forEach (I := Mid) ⟨a1, a2, a3⟩ ?_
    rintro k hk t2 ⟨b1, b2, ⟨p, b3⟩, b4, b5, b6⟩
    have hm2 := mode_cons b3
    refine own_and E (Q := fun v' => (∃ p, v'.modeStack = [.delete p]) ∧ v'.currentInsert = none ∧
      v'.lastInsert = none ∧ v'.secondaryCount ≠ 0) b1 b2 (own_of hm2 (by simp) (.inl (by simp))) ?_
    refine ⟨_, core_delete_f E hm2, wk_mono (wk_edge E (hks k hk) b6 (.inr ⟨p, [], b3, .inl rfl⟩))
      (fun _ v' h' => ?_)⟩
    obtain ⟨c1, c2, c3, c4⟩ := h'
    exact ⟨⟨p, c1.trans b3⟩, c2.trans b4, c3.trans b5, by rw [c4]; exact b6⟩

/-- Repeating a simple record replays no repetition. -/
theorem simple_eqv {n m : Nat} {ks : List Key} (hs : Simple ks) {t : Vi × Ed} (h : Start t) :
    Eqv (M.forEach ks (coreFuel E (n + 1))) (M.forEach ks (nested E rest (m + 1))) t (fun _ t' => Stop t') := by
  obtain ⟨h1, h2, h3, h4, h5⟩ := h
  have hm := mode_nil h3
  cases hs with
  | one hk =>
    rename_i k
    refine eqv_single (own_and E (Q := fun v' => v'.lastInsert = none) h1 h2 (own_of hm (by simp) (.inr ?_)) ?_)
    · rintro rfl; simp at hk
    · refine ⟨_, core_normal_f E hm, wk_mono (wk_normal E ?_ h3) (fun _ v' h' => li_none_norm h4 ?_ h')⟩
      · rintro rfl; simp at hk
      · rintro c hc rfl
        simp at hk hc
        rcases hk with rfl | rfl | rfl <;> simp at hc
  | replace k =>
    refine eqv_bind (own_and E (Q := fun v' => v'.modeStack = [.replace] ∧ v'.lastInsert = none) h1 h2
      (own_of hm (by simp) (.inr (by simp))) ?_) fun _ t1 ⟨a1, a2, a3, a4⟩ => ?_
    · refine ⟨_, core_normal_f E hm, wk_mono (wk_r E) (fun _ v' h' => ?_)⟩
      exact ⟨by rw [h'.1, h3], h'.2.li.trans h4⟩
    · have hm1 := mode_cons a3
      refine eqv_single (own_and E (Q := fun v' => v'.lastInsert = none) a1 a2 (own_of hm1 (by simp) (.inl (by simp))) ?_)
      refine ⟨_, core_replace_f E hm1, wk_mono (wk_replace E a3) (fun _ v' h' => ?_)⟩
      rcases h' with h' | h'
      · exact h'.2.li.trans a4
      · exact h'.2.2.1
  | move hd k =>
    refine eqv_append (begun_eqv E hd ⟨h1, h2, h3, h4, h5⟩) ?_
    rintro t1 ⟨b1, b2, ⟨p, b3⟩, b4, b5, b6⟩
    have hm1 := mode_cons b3
    refine eqv_single (own_and E (Q := fun v' => v'.lastInsert = none) b1 b2 (own_of hm1 (by simp) (.inl (by simp))) ?_)
    exact ⟨_, core_delete_f E hm1, wk_mono (wk_delete E (.inr ⟨p, [], b3, .inl rfl⟩))
      (fun _ v' h' => li_none_oper b5 b4 h')⟩
  | @find d hd c hc k =>
    refine eqv_append (I := fun t2 => Inv t2 ∧ Good t2.1 ∧ (∃ m p, t2.1.modeStack = [.moveToChar m, .delete p]) ∧
      t2.1.currentInsert = none ∧ t2.1.lastInsert = none) (eqv_append (begun_eqv E hd ⟨h1, h2, h3, h4, h5⟩) ?_) ?_
    · rintro t1 ⟨b1, b2, ⟨p, b3⟩, b4, b5, b6⟩
      have hm1 := mode_cons b3
      refine eqv_single (own_and E (Q := fun v' => (∃ m p, v'.modeStack = [.moveToChar m, .delete p]) ∧
        v'.currentInsert = none ∧ v'.lastInsert = none) b1 b2 (own_of hm1 (by simp) (.inl (by simp))) ?_)
      refine ⟨_, core_delete_f E hm1, wk_mono (wk_opfind E hc) (fun _ v' h' => ?_)⟩
      obtain ⟨⟨m, c1⟩, c2, c3⟩ := h'
      exact ⟨⟨m, p, by rw [c1, b3]⟩, c2.trans b4, c3.trans b5⟩
    · rintro t1 ⟨b1, b2, ⟨m, p, b3⟩, b4, b5⟩
      have hm1 := mode_cons b3
      refine eqv_single (own_and E (Q := fun v' => v'.lastInsert = none) b1 b2 (own_of hm1 (by simp) (.inl (by simp))) ?_)
      refine ⟨_, core_find E hm1, wk_mono (wk_moveToChar E (.of_char b3 (.inr ⟨p, [], rfl, .inl rfl⟩)))
        (fun _ v' h' => ?_)⟩
      rcases h' with h' | h'
      · exact h'.2.li.trans b5
      · exact li_none_moved (w := { t1.1 with currentCommand := t1.1.currentCommand ++ [k] }) b5 b4 (.inr h')
  | @g d hd k =>
    refine eqv_append (I := fun t2 => Inv t2 ∧ Good t2.1 ∧ (∃ p, t2.1.modeStack = [.g, .delete p]) ∧
      t2.1.currentInsert = none ∧ t2.1.lastInsert = none) (eqv_append (begun_eqv E hd ⟨h1, h2, h3, h4, h5⟩) ?_) ?_
    · rintro t1 ⟨b1, b2, ⟨p, b3⟩, b4, b5, b6⟩
      have hm1 := mode_cons b3
      refine eqv_single (own_and E (Q := fun v' => (∃ p, v'.modeStack = [.g, .delete p]) ∧
        v'.currentInsert = none ∧ v'.lastInsert = none) b1 b2 (own_of hm1 (by simp) (.inl (by simp))) ?_)
      refine ⟨_, core_delete_f E hm1, wk_mono (wk_opg E) (fun _ v' h' => ?_)⟩
      obtain ⟨c1, c2, c3⟩ := h'
      exact ⟨⟨p, by rw [c1, b3]⟩, c2.trans b4, c3.trans b5⟩
    · rintro t1 ⟨b1, b2, ⟨p, b3⟩, b4, b5⟩
      have hm1 := mode_cons b3
      refine eqv_single (own_and E (Q := fun v' => v'.lastInsert = none) b1 b2 (own_of hm1 (by simp) (.inl (by simp))) ?_)
      exact ⟨_, core_g_f E hm1, wk_mono (wk_handleG E (.of_g b3 (.inr ⟨p, [], rfl, .inl rfl⟩)))
        (fun _ v' h' => li_none_moved (w := { t1.1 with currentCommand := t1.1.currentCommand ++ [k] }) b5 b4 h')⟩

/-- The parts of a repetition. -/
theorem repeat_eqv {c1 c2 : Key → ViM Unit} {t : Vi × Ed} {J J2 J3 : Vi × Ed → Prop}
    (h0 : t.1.lastInsert = none → J ({ t.1 with lastCount := t.1.count, lastCommand := [] }, t.2))
    (h1 : ∀ k, t.1.lastInsert = some k → Eqv (c1 k) (c2 k)
      ({ t.1 with lastCount := t.1.count, lastCommand := [] }, t.2) (fun _ t' => J t'))
    (h2 : ∀ t1, J t1 → Eqv (M.forEach t.1.lastCommand c1) (M.forEach t.1.lastCommand c2) t1 (fun _ t' => J2 t'))
    (h3 : ∀ t2, J2 t2 → t2.1.lastInsert.isSome → Eqv (c1 .esc) (c2 .esc) t2 (fun _ t' => J3 t'))
    (h4 : ∀ t2, J2 t2 → t2.1.lastInsert = none → J3 t2)
    {Q : Vi × Ed → Prop} (h5 : ∀ t3, J3 t3 → Q ({ t3.1 with lastCommand := t.1.lastCommand }, t3.2)) :
    Eqv (repeatLast c1) (repeatLast c2) t (fun _ t' => Q t') := by
  have fin : ∀ t2 : Vi × Ed, J2 t2 → Eqv (do
      let v ← getK
      if v.lastInsert.isSome then c1 .esc else pure ()
      modK fun v => { v with lastCommand := t.1.lastCommand } : ViM Unit) (do
      let v ← getK
      if v.lastInsert.isSome then c2 .esc else pure ()
      modK fun v => { v with lastCommand := t.1.lastCommand } : ViM Unit) t2 (fun _ t' => Q t') := by
    intro t2 hj
    refine eqv_bind (Q' := fun v t' => v = t2.1 ∧ t' = t2) ⟨rfl, rfl, rfl⟩ ?_
    rintro v t' ⟨rfl, rfl⟩
    dsimp only
    split
    · rename_i hi
      exact eqv_bind (h3 _ hj hi) fun _ t3 h => eqv_refl (h5 t3 h)
    · rename_i hi
      exact eqv_refl (h5 _ (h4 _ hj (by simpa using hi)))
  unfold repeatLast
  refine eqv_bind (Q' := fun _ t' => t' = ({ t.1 with lastCount := t.1.count }, t.2)) ⟨rfl, rfl⟩ ?_
  rintro _ _ rfl
  refine eqv_bind (Q' := fun v t' => v = { t.1 with lastCount := t.1.count } ∧
    t' = ({ t.1 with lastCount := t.1.count }, t.2)) ⟨rfl, rfl, rfl⟩ ?_
  rintro _ _ ⟨rfl, rfl⟩
  dsimp only
  refine eqv_bind (Q' := fun _ t' => t' = ({ t.1 with lastCount := t.1.count, lastCommand := [] }, t.2)) ⟨rfl, rfl⟩ ?_
  rintro _ _ rfl
  cases hi : t.1.lastInsert with
  | some k =>
    exact eqv_bind (h1 k hi) fun _ t1 hj => eqv_bind (h2 t1 hj) fun _ t2 hj2 => fin t2 hj2
  | none =>
    exact eqv_bind (h2 _ (h0 hi)) fun _ t2 hj2 => fin t2 hj2

theorem dotCount_ne (a b : Nat) : dotCount a b ≠ 0 := by
  unfold dotCount
  split
  · split
    · simp
    · assumption
  · assumption

/-- `.` itself. -/
theorem dot_key {n m : Nat} {t : Vi × Ed} (hm : t.1.mode = .normal) {Q : Vi × Ed → Prop}
    (h : Eqv (repeatLast (coreFuel E n)) (repeatLast (nested E rest m))
      ({ t.1 with count := dotCount t.1.count t.1.lastCount }, t.2) (fun _ t' => Q t')) :
    Eqv (coreFuel E (n + 1) (.char '.')) (nested E rest (m + 1) (.char '.')) t (fun _ t' => Q t') := by
  refine ⟨?_, wp_eq (core_normal_f E hm) ?_⟩
  · have e : ∀ core, coreStep core E (.char '.') t = handleKeyNormal core E (.char '.') t := by
      intro core
      show (match t.1.mode with
        | .normal => handleKeyNormal core E (.char '.')
        | .insert => handleKeyInsert core E (.char '.')
        | .replace => handleKeyReplace E (.char '.')
        | .delete _ => handleKeyDeleteOrChange core E (.char '.')
        | .moveToChar m => handleKeyMoveToChar E (.char '.') (.dir m)
        | .g => handleKeyG E (.char '.')
        | .tilde => M.panic) t = _
      rw [hm]
    exact (e _).trans (h.1.trans (e _).symm)
  · exact h.2

theorem Inv.modK {t : Vi × Ed} (h : Inv t) {v : Vi} (hs : v.modeStack = t.1.modeStack) (he : NoEsc v)
    (h1 : v.lastInsert = t.1.lastInsert) (h2 : v.currentInsert = t.1.currentInsert) : Inv (v, t.2) :=
  ⟨h.1.modK hs he, h1 ▸ h.2.1, h2 ▸ h.2.2⟩

theorem inv_begin {t : Vi × Ed} (hv : Inv t) (c : Nat) :
    Inv ({ t.1 with count := c, lastCount := c, lastCommand := [] }, t.2) :=
  hv.modK rfl ⟨fun k hk => (by cases hk), hv.1.esc.cur⟩ rfl rfl

/-- A key that replays others at most once. -/
theorem esc_or_own {n m : Nat} {k : Key} {t : Vi × Ed} (hv : Inv t) (hk : k ≠ .char '.') :
    Eqv (coreFuel E (n + 2) k) (nested E rest (m + 2) k) t
      (fun _ t' => Inv t' ∧ (Good t.1 → t'.1.mode = .insert ∨ Opk t'.1)) := by
  by_cases h : t.1.mode = .insert ∧ ¬ Plain k
  · exact eqv_mono (esc_eqv E hv h.1 h.2) fun _ t' h' => ⟨h'.1, fun _ => .inr (.nil h'.2)⟩
  · refine eqv_mono (own_eqv E hv ⟨h, fun h' => hk h'.2⟩) fun _ t' h' => ⟨h'.1, fun hg => ?_⟩
    rcases h'.2 hg with h' | h'
    · exact .inl h'
    · exact .inr h'.2

/-- Repeating a command recorded during a repetition. -/
theorem dot_simple {n m : Nat} {t : Vi × Ed} (hv : Inv t) (hm : t.1.mode = .normal) (hl : Lc t.1) :
    Eqv (coreFuel E (n + 3) (.char '.')) (nested E rest (m + 3) (.char '.')) t
      (fun _ t' => Inv t' ∧ Good t'.1) := by
  have hs := hv.1.nil hm
  have hb := inv_begin hv (dotCount t.1.count t.1.lastCount)
  have hg : Good { t.1 with
      count := dotCount t.1.count t.1.lastCount, lastCount := dotCount t.1.count t.1.lastCount, lastCommand := [] } :=
    .inr ⟨.inl rfl, .nil hs⟩
  have restore : ∀ t3 : Vi × Ed, Inv t3 → Inv ({ t3.1 with lastCommand := t.1.lastCommand }, t3.2) :=
    fun t3 h3 => h3.modK rfl ⟨hv.1.esc.last, h3.1.esc.cur⟩ rfl rfl
  refine dot_key E (n := n + 2) (m := m + 2) hm (Q := fun t' => Inv t' ∧ Good t'.1) ?_
  rcases hl with hl | ⟨hl, hsim⟩
  · refine repeat_eqv (J := fun t1 => Inv t1 ∧ Good t1.1) (J2 := fun t1 => Inv t1 ∧ Good t1.1)
      (J3 := fun t1 => Inv t1 ∧ (t1.1.mode = .insert ∨ Opk t1.1)) ?_ ?_ ?_ ?_ ?_ ?_
    · exact fun _ => ⟨hb, hg⟩
    · intro k hk
      refine eqv_mono (own_eqv (n := n + 1) (m := m + 1) E (k := k) hb (own_of (mode_nil hs) (by simp) (.inr ?_)))
        fun _ t' h => ⟨h.1, h.2 hg⟩
      rintro rfl
      exact hv.2.1 hk
    · intro t1 h1
      show Eqv (M.forEach t.1.lastCommand _) (M.forEach t.1.lastCommand _) t1 _
      rw [hl]
      exact ⟨rfl, h1⟩
    · intro t2 h2 _
      exact eqv_mono (esc_or_own E h2.1 (by simp)) fun _ t' h => ⟨h.1, h.2 h2.2⟩
    · intro t2 h2 _
      refine ⟨h2.1, ?_⟩
      rcases h2.2 with h | h
      · exact .inl h
      · exact .inr h.2
    · intro t3 h3
      refine ⟨restore t3 h3.1, ?_⟩
      rcases h3.2 with h | h
      · exact .inl h
      · exact .inr ⟨.inl hl, ⟨h.del, h.find, h.g⟩⟩
  · refine repeat_eqv (J := Start) (J2 := Stop) (J3 := Stop) ?_ ?_ ?_ ?_ ?_ ?_
    · exact fun _ => ⟨hb, hg, hs, hl, dotCount_ne _ _⟩
    · intro k hk
      rw [show ({ t.1 with count := dotCount t.1.count t.1.lastCount } : Vi).lastInsert = t.1.lastInsert from rfl,
        hl] at hk
      cases hk
    · intro t1 h1
      exact simple_eqv (n := n + 1) (m := m + 1) E hsim h1
    · intro t2 h2 h
      rw [h2.2.2] at h
      cases h
    · exact fun t2 h2 _ => h2
    · intro t3 h3
      refine ⟨restore t3 h3.1, ?_⟩
      rcases h3.2.1 with h | h
      · exact .inl h
      · exact .inr ⟨.inr ⟨h3.2.2, hsim⟩, ⟨h.2.del, h.2.find, h.2.g⟩⟩

/-- Repeating any command. -/
theorem dot_any {n m : Nat} {t : Vi × Ed} (hv : Inv t) (hm : t.1.mode = .normal) :
    Eqv (coreFuel E (n + 4) (.char '.')) (nested E rest (m + 4) (.char '.')) t (fun _ t' => Inv t') := by
  have hs := hv.1.nil hm
  have hb := inv_begin hv (dotCount t.1.count t.1.lastCount)
  have hg : Good { t.1 with
      count := dotCount t.1.count t.1.lastCount, lastCount := dotCount t.1.count t.1.lastCount, lastCommand := [] } :=
    .inr ⟨.inl rfl, .nil hs⟩
  refine dot_key E (n := n + 3) (m := m + 3) hm (Q := Inv) ?_
  refine repeat_eqv (J := fun t1 => Inv t1 ∧ Good t1.1) (J2 := fun t1 => Inv t1 ∧ Good t1.1) (J3 := Inv)
    ?_ ?_ ?_ ?_ ?_ ?_
  · exact fun _ => ⟨hb, hg⟩
  · intro k hk
    refine eqv_mono (own_eqv (n := n + 2) (m := m + 2) E (k := k) hb (own_of (mode_nil hs) (by simp) (.inr ?_)))
      fun _ t' h => ⟨h.1, h.2 hg⟩
    rintro rfl
    exact hv.2.1 hk
  · intro t1 h1
    refine eqv_forEach (I := fun t1 => Inv t1 ∧ Good t1.1) h1 fun k hk t2 h2 => ?_
    have hp : Plain k := hv.1.esc.last k hk
    by_cases hd : t2.1.mode = .normal ∧ k = .char '.'
    · obtain ⟨hd1, rfl⟩ := hd
      exact dot_simple E h2.1 hd1 (h2.2.resolve_left (by rw [hd1]; simp)).1
    · exact eqv_mono (own_eqv (n := n + 2) (m := m + 2) E (k := k) h2.1 ⟨fun h => h.2 hp, hd⟩)
        fun _ t' h => ⟨h.1, h.2 h2.2⟩
  · intro t2 h2 _
    exact eqv_mono (esc_or_own (n := n + 1) (m := m + 1) E h2.1 (by simp)) fun _ t' h => h.1
  · exact fun t2 h2 _ => h2.1
  · exact fun t3 h3 => h3.modK rfl ⟨hv.1.esc.last, h3.1.esc.cur⟩ rfl rfl

/-- The recursion is never more than four calls deep. -/
theorem fuel_eqv {n m : Nat} {k : Key} {t : Vi × Ed} (hv : Inv t) :
    Eqv (coreFuel E (n + 4) k) (nested E rest (m + 4) k) t (fun _ t' => Inv t') := by
  by_cases hk : k = .char '.'
  · subst hk
    by_cases hm : t.1.mode = .normal
    · exact dot_any E hv hm
    · refine eqv_mono (own_eqv (n := n + 3) (m := m + 3) E hv ⟨fun h => h.2 (plain_char _), fun h => hm h.1⟩)
        fun _ t' h => h.1
  · exact eqv_mono (esc_or_own (n := n + 2) (m := m + 2) E hv hk) fun _ t' h => h.1

/-! ### Whole sessions -/

/-- An action that keeps it. -/
def KInv {α : Type} (m : ViM α) : Prop := ∀ t, Inv t → Wp m t (fun _ t' => Inv t') T2 T1

section
variable {α β : Type}

theorem kinv_bind {m : ViM α} {f : α → ViM β} (h1 : KInv m) (h2 : ∀ a, KInv (f a)) : KInv (m >>= f) := by
  intro t ht
  rw [wp_bind]
  exact wp_mono (h1 t ht) (fun a t' h => h2 a t' h) (fun _ _ h => h) (fun _ h => h)

theorem kinv_pure (a : α) : KInv (pure a : ViM α) := fun _ h => h
theorem kinv_throw (e : IoErr) : KInv (M.throw e : ViM α) := fun _ _ => trivial
theorem kinv_ite {c : Prop} [Decidable c] {a b : ViM α} (ha : KInv a) (hb : KInv b) :
    KInv (if c then a else b) := by split <;> assumption
theorem kinv_ed {m : EdM α} (hp : Pres m) (hh : Holds m) : KInv (ed m) := fun _ h =>
  wp_mono (vi_ed hp hh h.1) (fun _ _ h' => ⟨h'.1, by rw [h'.2]; exact h.2⟩) (fun _ _ h => h) (fun _ h => h)
theorem kinv_get : KInv (ed (M.get : EdM Ed) : ViM Ed) := fun _ h => h

end

theorem kinv_core (k : Key) : KInv (handleKeyCore E k) := fun _ h =>
  (fuel_eqv (n := 4) (m := 0) (rest := fun _ => pure ()) E h).2

theorem kinv_handleKey (comp : Text → List Text) (key : Key) :
    KInv (keyMap.handleKey E comp key) := by
  have hnl : KInv (ed (handleNewline E)) := kinv_ed (pres_newline E) (holds_newline E)
  have hacc : KInv (ed (acceptAutosuggestion E)) := kinv_ed (pres_accept E) (fixes_accept E).holds
  unfold KeyMap.handleKey KeyMap.dispatch
  refine kinv_bind (kinv_ed pres_curBuf holds_curBuf) fun b => kinv_bind (kinv_bind kinv_get fun s => ?_)
    fun d => kinv_bind (kinv_ed (pres_flush E) (holds_flush E)) fun _ => kinv_pure _
  refine kinv_ite (kinv_bind hnl fun _ => kinv_throw _) <| kinv_ite (kinv_bind hnl fun _ => kinv_throw _) <|
    kinv_ite (kinv_bind (kinv_ed (pres_complete E comp) (holds_complete E comp)) fun _ => kinv_pure _) <|
    kinv_ite hnl <| kinv_ite (kinv_bind hacc fun _ => kinv_pure _) <|
    kinv_ite (kinv_bind (kinv_ed (pres_search E _) (fixes_search E _).holds) fun _ => kinv_pure _) <|
    kinv_ite (kinv_bind (kinv_ed (pres_search E _) (fixes_search E _).holds) fun _ => kinv_pure _) ?_
  have rest : ∀ a : Bool, KInv (do
      if a then ed (acceptAutosuggestion E)
      else
        keyMap.core E (KeyMap.translate key)
        ed skipCompletionsHint
      pure false : ViM Bool) := fun a =>
    kinv_ite (kinv_bind hacc fun _ => kinv_pure _) (kinv_bind (kinv_core E _) fun _ =>
      kinv_bind (kinv_ed pres_skip holds_skip) fun _ => kinv_pure _)
  exact kinv_ite (kinv_bind (kinv_ed pres_atEnd holds_atEnd) rest) (kinv_bind (kinv_pure _) rest)

theorem kinv_press : ∀ keys, KInv (press keyMap E keys)
  | [] => kinv_pure _
  | k :: ks => by
    unfold press
    exact kinv_bind (kinv_handleKey E k.2 k.1) fun _ => kinv_press ks

/-- Every state between two keys. -/
theorem inv_session (p p' : Prompt) (h : History) (fs : FS) (b : Buffer)
    (keys : List (Key × (Text → List Text))) :
    Wp (session keyMap E p keys) (({} : Vi), initial p' h fs b) (fun _ t' => Inv t') T2 T1 := by
  unfold session
  rw [wp_bind, wp_ed]
  refine wp_mono (wp_and (pres_start E p _) (fixes_start E p _)) (fun _ s1 h1 => ?_) (fun _ _ _ => trivial)
    (fun _ _ => trivial)
  have hn : s1.noEol = false := h1.1.noEol
  have hi : Wp (keyMap.init E) (({} : Vi), s1) (fun _ t' => Inv t') T2 T1 := by
    show Wp (Vi.init E) _ _ _ _
    unfold Vi.init
    rw [wp_bind, wp_ed]
    refine wp_mono (pres_onBuf Buffer.startUndoGroup s1) (fun _ s2 h2 => ?_) (fun _ _ _ => trivial) (fun _ _ => trivial)
    refine wp_mono (wp_and (setEditorMode_wp E (t := (({} : Vi), s2)) (.inr rfl)
      (noEsc_nil (.inr rfl) (fun k hk => by cases hk)) (by rw [h2.noEol, hn]; rfl))
      (wk_setEditorMode E (v := ({} : Vi)) (Q := fun _ v => LI v) ⟨by decide, by decide⟩ s2)) (fun _ _ h => ⟨h.1.1, h.2⟩) (fun _ _ h => trivial)
      (fun _ h => trivial)
  rw [wp_bind]
  exact wp_mono hi (fun _ t1 h1 => kinv_press E keys t1 h1) (fun _ _ h => h) (fun _ h => h)

end
end Vi
end Liner
