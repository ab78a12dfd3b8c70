import Verif.Proof.ViPress
/-
The vi commands that change characters or enter insert mode.
-/

set_option linter.unusedSectionVars false

namespace Liner
namespace Vi
open Liner.Spec Liner.Editor M KM

section
variable [Around] (E : Env) (core : Key → ViM Unit) {e : Bool} {l r : Text} {v : Vi} {s : Ed}

/-- A computation without effect. -/
theorem gives_pureB {α β : Type} {m : ViM α} {f : α → ViM β} {a : α} {t : Vi × Ed} {v' : Vi} {e' : Bool} {l' r' : Text}
    (hm : m t = .ok a t) (h : Gives (f a) t v' e' l' r') : Gives (m >>= f) t v' e' l' r' :=
  (wp_congr (bind_ok hm)).mpr h

/-- The deletion of `n` characters at the cursor. -/
theorem deleteN_gives (n : Nat) (h : Open e s l r) :
    GivesP (ed (deleteUntil E (s.cursor + min r.length n))) (v, s) v e (rest e l (r.drop n)) := by
  have h1 := deleteUntil_to E (p := s.cursor + min r.length n) h
    (by rw [h.here.2, List.length_append]; omega)
  have h2 := gives_ed (v := v) h1
  rw [h.here.2] at h2 ⊢
  have hc : cut (l ++ r) (l.length + min r.length n) l.length false = (l, r.drop n) := by
    unfold cut
    rw [Nat.min_eq_right (by omega), Nat.max_eq_left (by omega), List.take_left]
    simp only [Bool.false_eq_true, if_false, Nat.add_zero, List.drop_append_add]
    congr 1
    by_cases hle : n ≤ r.length
    · rw [Nat.min_eq_right hle]
    · rw [Nat.min_eq_left (by omega), List.drop_eq_nil_iff.2 (by omega), List.drop_eq_nil_iff.2 (by omega)]
  rw [hc] at h2
  exact h2

/-- `x` and the key Delete. -/
theorem x_gives {k : Key} (hk : k = .char 'x' ∨ k = .delete) (h : Open e s l r) :
    GivesP (handleKeyNormal core E k) (v, s)
      { v with lastInsert := none, lastCommand := [k], lastCount := v.count, count := 0 }
      e (rest e l (r.drop v.moveCount)) := by
  have : GivesP (do
      rememberKey k
      modK fun v => { v with lastCount := v.count }
      let n ← moveCountRight
      let s ← ed get
      ed (Editor.deleteUntil E (s.cursor + n))
      modK fun v => { v with count := 0 }) (v, s)
      { v with lastInsert := none, lastCommand := [k], lastCount := v.count, count := 0 }
      e (rest e l (r.drop v.moveCount)) := by
    unfold rememberKey
    refine gives_mod (gives_mod (gives_pureB (countRight_eq h) (gives_get ?_)))
    exact gives_bind (deleteN_gives E v.moveCount h) fun _ s1 h1 => gives_modK h1
  rcases hk with rfl | rfl
  · exact this
  · exact this

theorem D_gives (h : Open e s l r) :
    GivesP (handleKeyNormal core E (.char 'D')) (v, s)
      { v with lastInsert := none, lastCommand := [.char 'D'], count := 0, lastCount := 0 } e (rest e l []) := by
  show GivesP (do
    rememberKey (.char 'D')
    modK fun v => { v with count := 0, lastCount := 0 }
    ed (Editor.deleteAllAfterCursor E)) _ _ _ _
  unfold rememberKey
  exact gives_mod (gives_mod (gives_ed (deleteAllAfter_sets E h (Side.refl _))))

theorem C_gives (hv : v.modeStack = []) (h : Open e s l r) :
    Gives (handleKeyNormal core E (.char 'C')) (v, s)
      { v with lastInsert := none, lastCommand := [.char 'C'], count := 0, lastCount := 0, movementReset := false, modeStack := [.insert] }
      false l [] := by
  show Gives (do
    rememberKey (.char 'C')
    modK fun v => { v with count := 0, lastCount := 0 }
    setModePreserveLast E .insert
    ed (Editor.deleteAllAfterCursor E)) _ _ _ _ _
  unfold rememberKey
  refine gives_mod (gives_mod (gives_bind (enter_gives E (v := { v with lastInsert := none, lastCommand := [.char 'C'], count := 0, lastCount := 0 }) hv h) fun _ s1 h1 => ?_))
  have := gives_ed (v := { v with lastInsert := none, lastCommand := [.char 'C'], count := 0, lastCount := 0, movementReset := false, modeStack := [.insert] })
    (deleteAllAfter_sets E h1 (Side.refl _))
  rwa [rest_false] at this

omit [Around] in
/-- The state after entering insert mode with a key. -/
def entered (v : Vi) (k : Key) : Vi :=
  { v with lastInsert := some k, movementReset := false, modeStack := [.insert], lastCount := 0, lastCommand := [] }

theorem enterKey_gives (k : Key) (hv : v.modeStack = []) (h : Open e s l r) :
    Gives (do modK fun v => { v with lastInsert := some k }; setMode E .insert : ViM Unit) (v, s) (entered v k) false l r :=
  gives_mod (insert_gives E (v := { v with lastInsert := some k }) hv h)

theorem i_gives (hv : v.modeStack = []) (h : Open e s l r) :
    Gives (handleKeyNormal core E (.char 'i')) (v, s) (entered v (.char 'i')) false l r :=
  enterKey_gives E _ hv h

theorem a_gives (hv : v.modeStack = []) (h : Open e s l r) :
    Gives (handleKeyNormal core E (.char 'a')) (v, s) (entered v (.char 'a')) false (l ++ r.take 1) (r.drop 1) := by
  refine gives_bind (enterKey_gives E (.char 'a') hv h) fun _ s1 h1 => ?_
  have := gives_ed (v := entered v (.char 'a')) (right_sets E h1 (Side.refl _) 1)
  rwa [rest_false] at this

theorem A_gives (hv : v.modeStack = []) (h : Open e s l r) :
    Gives (handleKeyNormal core E (.char 'A')) (v, s) (entered v (.char 'A')) false (l ++ r) [] := by
  refine gives_bind (enterKey_gives E (.char 'A') hv h) fun _ s1 h1 => ?_
  have := gives_ed (v := entered v (.char 'A')) (end_sets E h1 (Side.refl _))
  rwa [rest_false] at this

theorem I_gives (hv : v.modeStack = []) (h : Open e s l r) :
    Gives (handleKeyNormal core E (.char 'I')) (v, s) (entered v (.char 'I')) false [] (l ++ r) := by
  refine gives_bind (enterKey_gives E (.char 'I') hv h) fun _ s1 h1 => ?_
  have := gives_ed (v := entered v (.char 'I')) (home_sets E h1 (Side.refl _))
  rwa [rest_false] at this

theorem s_gives (hv : v.modeStack = []) (h : Open e s l r) :
    Gives (handleKeyNormal core E (.char 's')) (v, s)
      { entered v (.char 's') with lastCount := v.count, count := 0 } false l (r.drop v.moveCount) := by
  show Gives (do
    (do modK fun v => { v with lastInsert := some (.char 's') }; setMode E .insert)
    let n ← moveCountRight
    let s ← ed get
    ed (Editor.deleteUntil E (s.cursor + n))
    modK fun v => { v with lastCount := v.count, count := 0 }) _ _ _ _ _
  refine gives_bind (enterKey_gives E (.char 's') hv h) fun _ s1 h1 => ?_
  refine gives_pureB (countRight_eq h1) (gives_get ?_)
  have := deleteN_gives E (v := entered v (.char 's')) v.moveCount h1
  rw [rest_false] at this
  exact gives_bind this fun _ s2 h2 => gives_modK h2

theorem gives_start {α : Type} {m m' : ViM α} {t t' : Vi × Ed} {v' : Vi} {e' : Bool} {l' r' : Text}
    (h : m t = m' t') (h' : Gives m' t' v' e' l' r') : Gives m t v' e' l' r' := by
  unfold Gives Wp at h' ⊢; rw [h]; exact h'

theorem ed_bind {α β : Type} (m : EdM α) (f : α → EdM β) :
    (ed (m >>= f) : ViM β) = ed m >>= fun a => ed (f a) := by
  funext t
  show zoom _ _ _ t = M.bind _ _ t
  unfold M.bind ed zoom
  have h0 : (m >>= f) t.2 = M.bind m f t.2 := rfl
  rw [h0]
  unfold M.bind
  cases h : m t.2 <;> simp

theorem popMode_eq {m : Mode} {base : List Mode} (hv : v.modeStack = m :: base) :
    popMode E (v, s) = (do
      let v ← getK
      setNoEol (v.mode = .normal)
      modK fun v => { v with movementReset := v.mode ≠ .insert }
      if m = .insert ∨ m = .tilde then ed (onBuf Buffer.endUndoGroup) else pure ()
      if m = .tilde then ed (displayUnwrap E) else pure ()
      setEditorMode E : ViM Unit) ({ v with modeStack := base }, s) := by
  have h1 : popStack (v, s) = .ok m ({ v with modeStack := base }, s) := by
    unfold popStack; rw [hv]; rfl
  unfold popMode
  rw [bind_ok h1]

/-- `display().unwrap()` -/
theorem displayUnwrap_gives (h : Open e s l r) :
    GivesP (ed (displayUnwrap E)) (v, s) v e (rest e l r) := by
  rw [GivesP, Gives, wp_ed]
  have := display_sets E h (Side.refl s)
  unfold Yields Wp at this
  unfold Wp displayUnwrap
  cases hd : display E s with
  | ok a s' => rw [hd] at this; exact ⟨rfl, this.here⟩
  | err x s' => simp
  | panic w => rw [hd] at this; exact this

/-- Leaving a mode. -/
theorem popMode_gives {m : Mode} {base : List Mode} (hv : v.modeStack = m :: base)
    (hb : base = [] ∨ base = [.insert]) (h : Open e s l r) :
    GivesP (popMode E) (v, s) { v with modeStack := base, movementReset := decide (base = []) }
      (decide (base = [])) (rest (decide (base = [])) l r) := by
  refine gives_start (popMode_eq E hv) ?_
  have hmode : decide (({ v with modeStack := base } : Vi).mode = .normal) = decide (base = []) := by
    rcases hb with rfl | rfl <;> rfl
  have hins : decide (({ v with modeStack := base } : Vi).mode ≠ .insert) = decide (base = []) := by
    rcases hb with rfl | rfl <;> rfl
  refine gives_getK (gives_bind (gives_setNoEol _ h) fun _ s1 h1 => gives_mod ?_)
  rw [hmode] at h1
  rw [hins]
  have last : ∀ s2, Open (decide (base = [])) s2 l r → GivesP (do
      if m = .tilde then ed (displayUnwrap E) else pure ()
      setEditorMode E : ViM Unit) ({ v with modeStack := base, movementReset := decide (base = []) }, s2)
      { v with modeStack := base, movementReset := decide (base = []) }
      (decide (base = [])) (rest (decide (base = [])) l r) := by
    intro s2 h2
    dsimp only
    split
    · refine gives_bind (displayUnwrap_gives E h2) fun _ s3 h3 => ?_
      have := setEditorMode_gives E (v := { v with modeStack := base, movementReset := decide (base = []) }) hb h3
      rwa [rest_rest] at this
    · exact setEditorMode_gives E (v := { v with modeStack := base, movementReset := decide (base = []) }) hb h2
  dsimp only
  split
  · exact gives_bind (gives_onBuf (f := Buffer.endUndoGroup) (fun b => by rfl) h1) fun _ s2 h2 => last s2 h2
  · exact last s1 h1

/-! ### Replacing -/

theorem replaceStep_gives {c d : Char} (h : Open false s l (d :: r)) :
    Gives (ed (replaceStep E c)) (v, s) v false (l ++ [c]) r := by
  unfold replaceStep
  rw [ed_bind]
  have h1 := gives_ed (v := v) (deleteAfter_sets E (Side.refl s) h)
  rw [rest_false] at h1
  refine gives_bind h1 fun _ s1 h1 => ?_
  have h2 := gives_ed (v := v) (insert_sets E h1 (Side.refl s1) [c])
  rwa [rest_false] at h2

theorem replaceN_gives (c : Char) : ∀ (n : Nat) (s : Ed) (l r : Text), n ≤ r.length → Open false s l r →
    Gives (repeatN n (ed (replaceStep E c))) (v, s) v false (l ++ List.replicate n c) (r.drop n)
  | 0, s, l, r, _, h => by
    rw [List.replicate_zero, List.append_nil, List.drop_zero]
    exact gives_pure () h
  | n + 1, s, l, [], hn, h => by simp at hn
  | n + 1, s, l, d :: r, hn, h => by
    refine gives_bind (replaceStep_gives E (c := c) h) fun _ s1 h1 => ?_
    have := replaceN_gives c n s1 (l ++ [c]) r (by simpa using hn) h1
    rw [List.append_assoc] at this
    exact this

theorem moveCount_bound (hn : ¬ min r.length v.moveCount = v.moveCount) : r.length < v.moveCount := by
  omega

/-- A character after `r`. -/
theorem replace_gives (c : Char) {base : List Mode} (hv : v.modeStack = .replace :: base)
    (hb : base = [] ∨ base = [.insert]) (h : Open false s l r) (hn : v.moveCount ≤ r.length) :
    GivesP (handleKeyReplace E (.char c)) (v, s)
      { v with lastInsert := none, lastCommand := [.char 'r', .char c], lastCount := v.count, modeStack := base, movementReset := decide (base = []), count := 0 }
      (decide (base = []))
      (l ++ List.replicate (v.moveCount - 1) c, c :: r.drop v.moveCount) := by
  have hpos := moveCount_pos v
  unfold handleKeyReplace
  show GivesP (do
    let n ← moveCountRight
    let v ← getK
    if n = v.moveCount then
      modK fun v => { v with lastInsert := none, lastCommand := [.char 'r', .char c],
                             lastCount := v.count }
      ed (onBuf Buffer.startUndoGroup)
      repeatN n (ed (replaceStep E c))
      ed (onBuf Buffer.endUndoGroup)
      ed (Editor.moveCursorLeft E 1)
    else pure ()
    popMode E
    modK fun v => { v with count := 0 }) _ _ _ _
  refine gives_pureB (countRight_eq h) (gives_getK ?_)
  rw [Nat.min_eq_right hn]
  dsimp only
  rw [if_pos rfl]
  refine gives_mod (gives_bind (gives_onBuf (f := Buffer.startUndoGroup) (fun b => by rfl) h) fun _ s1 h1 =>
    gives_bind (replaceN_gives E c v.moveCount s1 l r hn h1) fun _ s2 h2 =>
    gives_bind (gives_onBuf (f := Buffer.endUndoGroup) (fun b => by rfl) h2) fun _ s3 h3 => ?_)
  have h4 := gives_ed (v := { v with lastInsert := none, lastCommand := [.char 'r', .char c], lastCount := v.count })
    (left_sets E h3 (Side.refl s3) 1)
  rw [rest_false] at h4
  have hl : l ++ List.replicate v.moveCount c = (l ++ List.replicate (v.moveCount - 1) c) ++ [c] := by
    rw [List.append_assoc, ← List.replicate_succ', Nat.sub_add_cancel hpos]
  rw [hl] at h4
  have ht : ((l ++ List.replicate (v.moveCount - 1) c) ++ [c]).length - 1 = (l ++ List.replicate (v.moveCount - 1) c).length := by
    simp
  rw [ht, List.take_left, List.drop_left] at h4
  refine gives_bind h4 fun _ s4 h5 => ?_
  have := popMode_gives E (v := { v with lastInsert := none, lastCommand := [.char 'r', .char c], lastCount := v.count })
    hv hb h5
  rw [List.singleton_append, rest_cons] at this
  exact gives_bind this fun _ s5 h6 => gives_modK h6

/-- A character after `r`, with too few characters to replace. -/
theorem replace_short_gives (c : Char) {base : List Mode} (hv : v.modeStack = .replace :: base)
    (hb : base = [] ∨ base = [.insert]) (h : Open false s l r) (hn : r.length < v.moveCount) :
    GivesP (handleKeyReplace E (.char c)) (v, s)
      { v with modeStack := base, movementReset := decide (base = []), count := 0 }
      (decide (base = [])) (rest (decide (base = [])) l r) := by
  unfold handleKeyReplace
  show GivesP (do
    let n ← moveCountRight
    let v ← getK
    if n = v.moveCount then
      modK fun v => { v with lastInsert := none, lastCommand := [.char 'r', .char c],
                             lastCount := v.count }
      ed (onBuf Buffer.startUndoGroup)
      repeatN n (ed (replaceStep E c))
      ed (onBuf Buffer.endUndoGroup)
      ed (Editor.moveCursorLeft E 1)
    else pure ()
    popMode E
    modK fun v => { v with count := 0 }) _ _ _ _
  refine gives_pureB (countRight_eq h) (gives_getK ?_)
  dsimp only
  rw [if_neg (by omega)]
  exact gives_bind (popMode_gives E hv hb h) fun _ s5 h6 => gives_modK h6

/-! ### Changing the case -/

theorem insertEach_gives : ∀ (cs : Text) (s : Ed) (l : Text), Open false s l r →
    Gives (ed (insertEach E cs)) (v, s) v false (l ++ cs) r
  | [], s, l, h => by
    rw [List.append_nil]; exact gives_pure () h
  | c :: cs, s, l, h => by
    have h1 := gives_ed (v := v) (insert_sets E h (Side.refl s) [c])
    rw [rest_false] at h1
    show Gives (ed (insertCharsAfterCursor E [c] >>= fun _ => insertEach E cs) : ViM Unit) _ _ _ _ _
    rw [ed_bind]
    refine gives_bind h1 fun _ s1 h1 => ?_
    have := insertEach_gives cs s1 (l ++ [c]) h1
    rwa [List.append_assoc] at this

theorem tildeStep_gives {c : Char} (h : Open false s l (c :: r)) :
    Gives (ed (tildeStep E)) (v, s) v false (l ++ toggleCase E.cc c) r := by
  unfold tildeStep
  rw [ed_bind]
  refine gives_curBuf h fun b hb hd => ?_
  rw [ed_bind]
  refine gives_get ?_
  have hc : b.charAfter s.cursor = some c := by
    unfold Buffer.charAfter
    rw [hd, h.here.2]; simp
  rw [hc, ed_bind]
  refine gives_pureB (a := c) rfl ?_
  have hdel := gives_ed (v := v) (deleteAfter_sets E (Side.refl s) h)
  rw [rest_false] at hdel
  unfold toggleCase
  split
  · rw [ed_bind]
    exact gives_bind hdel fun _ s1 h1 => insertEach_gives E _ s1 l h1
  split
  · rw [ed_bind]
    exact gives_bind hdel fun _ s1 h1 => insertEach_gives E _ s1 l h1
  · have := gives_ed (v := v) (right_sets E h (Side.refl s) 1)
    rwa [rest_false] at this

theorem tildeN_gives : ∀ (n : Nat) (s : Ed) (l r : Text), n ≤ r.length → Open false s l r →
    Gives (repeatN n (ed (tildeStep E))) (v, s) v false (l ++ (r.take n).flatMap (toggleCase E.cc)) (r.drop n)
  | 0, s, l, r, _, h => by
    rw [List.take_zero, List.flatMap_nil, List.append_nil, List.drop_zero]
    exact gives_pure (v := v) () h
  | n + 1, s, l, [], hn, h => by simp at hn
  | n + 1, s, l, d :: r, hn, h => by
    refine gives_bind (tildeStep_gives E h) fun _ s1 h1 => ?_
    have := tildeN_gives n s1 (l ++ toggleCase E.cc d) r (by simpa using hn) h1
    rw [List.append_assoc] at this
    exact this

/-- Waiting in the mode of `~`. -/
theorem tilde_gives (hv : v.modeStack = []) (h : Open e s l r) :
    Gives (setMode E .tilde) (v, s) { v with movementReset := true, modeStack := [.tilde] } false l r := by
  unfold setMode setModePreserveLast
  refine gives_bind (e := false) (l := l) (r := r) (v' := { v with movementReset := true, modeStack := [.tilde] }) ?_
    fun _ s' h' => gives_pure () h'
  refine gives_bind (e := false) (l := l) (r := r) (v' := v) (gives_setNoEol (v := v) false h) fun _ s' h' => gives_mod ?_
  rw [hv]
  refine gives_bind (e := false) (l := l) (r := r) (v' := { v with movementReset := true, modeStack := [.tilde] })
    ?_ fun _ s2 h'' => gives_onBuf (f := Buffer.startUndoGroup) (fun b => by rfl) h''
  exact gives_getK (gives_pure () h')

/-- `~` -/
theorem tildeKey_gives (hv : v.modeStack = []) (h : Open e s l r) :
    GivesP (handleKeyNormal core E (.char '~')) (v, s)
      { v with lastInsert := none, lastCommand := [.char '~'], lastCount := v.count, modeStack := [], movementReset := true }
      true (rest true (l ++ (r.take v.moveCount).flatMap (toggleCase E.cc)) (r.drop v.moveCount)) := by
  show GivesP (do
    rememberKey (.char '~')
    modK fun v => { v with lastCount := v.count }
    setMode E .tilde
    let n ← moveCountRight
    repeatN n (ed (tildeStep E))
    popMode E) _ _ _ _
  unfold rememberKey
  refine gives_mod (gives_mod (gives_bind (tilde_gives E (v := { v with lastInsert := none, lastCommand := [.char '~'], lastCount := v.count }) hv h) fun _ s1 h1 => gives_pureB (countRight_eq h1) ?_))
  have hmc : ∀ v' : Vi, v'.count = v.count → v'.moveCount = v.moveCount := by
    intro v' h'; unfold moveCount; rw [h']
  rw [hmc _ rfl]
  have h2 := tildeN_gives E (v := { v with lastInsert := none, lastCommand := [.char '~'], lastCount := v.count, movementReset := true, modeStack := [.tilde] })
    (min r.length v.moveCount) s1 l r (by omega) h1
  have ht : r.take (min r.length v.moveCount) = r.take v.moveCount := by
    rw [List.take_eq_take_iff]; omega
  have hd : r.drop (min r.length v.moveCount) = r.drop v.moveCount := by
    by_cases hle : v.moveCount ≤ r.length
    · rw [Nat.min_eq_right hle]
    · rw [Nat.min_eq_left (by omega), List.drop_eq_nil_iff.2 (by omega), List.drop_eq_nil_iff.2 (by omega)]
  rw [ht, hd] at h2
  exact gives_bind h2 fun _ s2 h3 => popMode_gives E (base := []) rfl (.inl rfl) h3

/-- `dd` and `cc`: the second key. -/
theorem line_gives {k : Key} {p : Nat} {base : List Mode} (hv : v.modeStack = .delete p :: base)
    (hk : (k = .char 'c' ∧ v.currentInsert = some (.char 'c')) ∨ (k = .char 'd' ∧ v.currentInsert = none))
    (hb : base = [] ∨ base = [.insert]) (h : Open e s l r) :
    Gives (handleKeyDeleteOrChange core E k) (v, s)
      { v with currentCommand := v.currentCommand ++ [k], count := 0, secondaryCount := 0, modeStack := base, movementReset := decide (base = []) }
      (decide (base = [])) [] [] := by
  unfold handleKeyDeleteOrChange
  refine gives_getK ?_
  have h1 : ¬ (isMovementKey k = true ∨ (k = .char '0' ∧ v.count = 0)) := by
    rcases hk with ⟨rfl, -⟩ | ⟨rfl, -⟩ <;> simp [isMovementKey]
  rw [if_neg h1]
  have hd : ∀ (c : Char) (x y : ViM Unit), c = 'c' ∨ c = 'd' → (if (digit? c).isSome = true then x else y) = y := by
    rintro c x y (rfl | rfl)
    · exact if_neg (by decide)
    · exact if_neg (by decide)
  obtain ⟨c, rfl, hc⟩ : ∃ c, k = .char c ∧ (c = 'c' ∨ c = 'd') := by
    rcases hk with ⟨rfl, -⟩ | ⟨rfl, -⟩
    · exact ⟨_, rfl, .inl rfl⟩
    · exact ⟨_, rfl, .inr rfl⟩
  dsimp only
  rw [hd c _ _ hc, if_pos hk]
  have hr : ∀ e : Bool, rest e ([] : Text) [] = ([], []) := by intro e; cases e <;> rfl
  have h3 := gives_ed (v := { v with currentCommand := v.currentCommand ++ [.char c], count := 0, secondaryCount := 0 })
    (home_sets E h (Side.refl s))
  have hrh : rest e ([] : Text) (l ++ r) = ([], l ++ r) := by
    cases hlr : l ++ r with
    | nil => exact hr e
    | cons c t => rw [rest_cons]
  rw [hrh] at h3
  refine gives_mod (gives_bind h3 fun _ s1 h4 => ?_)
  have h5 := gives_ed (v := { v with currentCommand := v.currentCommand ++ [.char c], count := 0, secondaryCount := 0 })
    (deleteAllAfter_sets E h4 (Side.refl s1))
  rw [hr] at h5
  refine gives_bind h5 fun _ s2 h6 => ?_
  have h7 := popMode_gives E (v := { v with currentCommand := v.currentCommand ++ [.char c], count := 0, secondaryCount := 0 })
    hv hb h6
  rw [hr] at h7
  exact h7

end
end Vi
end Liner
