import Verif.Proof.ViSafe
import Verif.Proof.ViEdit
/-
The keys of the vi key map, one by one: none of them panics outside a redraw as long as a pending operator can be
carried out.
-/

namespace Liner
namespace Vi
open Liner.Spec Liner.Editor M KM

/-- No operator is pending. -/
def NoDel (v : Vi) : Prop := ∀ p, Mode.delete p ∉ v.modeStack

/-- An operator that was started at `p` can be carried out. -/
def Ready (s : Ed) (p : Nat) : Prop :=
  ∃ x, text? s = some x ∧ p ≤ x.length ∧ (x ≠ [] → p < x.length ∧ s.cursor < x.length)

/-- The movement that is being typed includes the character it ends on. -/
def Incl : Mode → Prop
  | .g => True
  | .moveToChar m => m.inclusive = true
  | _ => False

/-- Every pending operator can be carried out. -/
def Pn (v : Vi) (s : Ed) : Prop :=
  ∀ p, Mode.delete p ∈ v.modeStack → Ready s p ∧ (Incl v.mode → text? s ≠ some [])

theorem NoDel.pn {v : Vi} {s : Ed} (hv : NoDel v) : Pn v s := fun p hp => absurd hp (hv p)

theorem Ready.fixed {s s' : Ed} {p : Nat} (hr : Ready s p) (hf : Fixed s s') : Ready s' p := by
  obtain ⟨x, h1, h2, h3⟩ := hr
  exact ⟨x, hf.text.trans h1, h2, by rw [hf.cursor]; exact h3⟩

theorem nodel_of {v : Vi} (h : v.modeStack = [] ∨ v.modeStack = [.insert] ∨ v.modeStack = [.replace]) : NoDel v := by
  intro p hp
  rcases h with h | h | h <;> rw [h] at hp <;> simp at hp

theorem nodel_moved {v v' : Vi} (hs : Opn v.modeStack) (h : Quit v v' ∨ Moved_f v v') : NoDel v' := by
  rcases h with h | ⟨_, h, _⟩ | ⟨p, base, h, hb, _⟩
  · exact nodel_of (.inl h.1)
  · exact nodel_of (.inl h)
  · rcases hs with hs | ⟨q, base', hq, hb'⟩
    · rcases hs with hs | ⟨m, hs⟩ | hs <;> rw [hs] at h <;> rcases h with h | ⟨m', h⟩ | h <;> simp at h
    · have : base = base' := by
        rcases h with h | ⟨m', h⟩ | h <;> rcases hq with hq | ⟨m, hq⟩ | hq <;> rw [h] at hq <;> simp_all
      subst this
      refine nodel_of ?_
      rw [hb]
      rcases hb' with hb' | hb' <;> simp [hb']

section
variable {h : Ctx} {E : Env} [Draws E h] {t : Vi × Ed}

theorem vs_wk {α : Type} {m : ViM α} {Q : α → Vi × Ed → Prop} {Q' : α → Vi → Prop} (h1 : VS h m t Q) (h2 : WK m t.1 Q') :
    VS h m t (fun a t' => Q a t' ∧ Q' a t'.1) := vs_and h1 (h2 t.2)

theorem vs_countLeft {Q : Nat → Vi × Ed → Prop} (ho : Ok h t.2) (hq : ∀ n, n ≤ t.2.cursor → Q n t) : VS h moveCountLeft t Q := by
  unfold moveCountLeft
  exact vs_bind (vs_getK ho (vs_bind (vs_get ho (vs_pure ho (hq _ (Nat.min_le_left _ _))))))

theorem vs_countRight {Q : Nat → Vi × Ed → Prop} (ho : Ok h t.2)
    (hq : ∀ n b, t.2.curBuf? = some b → t.2.cursor + n ≤ b.data.length → Q n t) : VS h moveCountRight t Q := by
  unfold moveCountRight
  refine vs_bind (vs_getK ho (vs_bind (vs_get ho (vs_bind (vs_curBuf ho fun b hb => ?_)))))
  obtain ⟨b', hb', hc⟩ := ho.i.cur
  obtain rfl : b = b' := Option.some.inj (hb.symm.trans hb')
  refine vs_ite (fun hlt => absurd hc (by simp only [Buffer.numChars] at hlt; omega)) (fun _ => vs_pure ho (hq _ b hb ?_))
  have := Nat.min_le_left (b.numChars - t.2.cursor) t.1.moveCount
  simp only [Buffer.numChars] at this ⊢
  omega

/-- A movement that leaves the text alone, or that no operator waits for. -/
theorem vs_motion {m : EdM Unit} (ho : Ok h t.2) (hp : Pn t.1 t.2) (hm : Safe h m t.2) (hu : Uses E .vi m)
    (ht : NoDel t.1 ∨ Txt m) : VS h (do ed m; popModeAfterMovement E false : ViM Unit) t (fun _ _ => True) := by
  refine vs_bind ?_
  rcases ht with ht | ht
  · exact vs_ed ho hm hu fun _ s' o1 => vs_after false o1 (fun p hp => absurd hp (ht p))
  · refine vs_ed' ho hm hu (ht t.2 ho.son) fun _ s' o1 h1 => vs_after false o1 (fun p hq => ?_)
    obtain ⟨⟨x, hx, hle, _⟩, _⟩ := hp p hq
    obtain ⟨b, hb, rfl⟩ := text?_eq.mp (h1.trans hx)
    exact ⟨b, hb, hle, fun h => by cases h⟩

/-- Where `move_cursor_to` goes. -/
theorem to_cursor (E : Env) {s : Ed} (hs : SearchOnNewLine s) (hn : s.noEol = false) (p : Nat) {x : Text} (hx : text? s = some x) (hp : p < x.length) :
    Wp (moveCursorTo E p) s (fun _ s' => text? s' = some x ∧ s'.cursor < x.length) (fun _ _ => True) (fun _ => True) := by
  have h1 : x = x.take p ++ x.drop p := (List.take_append_drop p x).symm
  refine wp_mono (to_makes E (l := x.take p) (r := x.drop p) (by rw [← h1]; exact hx) hs (.inl (by simp; omega))) (fun _ s' h2 => ?_)
    (fun _ _ _ => trivial) (fun _ _ => trivial)
  rw [hn] at h2
  obtain ⟨h3, h4⟩ := h2
  rw [← h1] at h3
  exact ⟨h3, by simp at h4; omega⟩

theorem findChar_lt {x : Text} {a n i : Nat} {c : Char} (hf : findChar x a c n = some i) : a ≤ i ∧ i < x.length := by
  unfold findChar at hf
  have h1 := List.mem_of_getElem? hf
  have h2 := (List.mem_filter.1 h1).1
  obtain ⟨j, hj, he⟩ := List.getElem_of_mem h2
  simp only [List.getElem_drop, List.getElem_range] at he
  simp at hj
  omega

/-- Moving to a character. -/
theorem vs_toChar {key : Key} {arg : MoveArg} (ho : Ok h t.2) (hp : Pn t.1 t.2)
    (hi : ∀ p, Mode.delete p ∈ t.1.modeStack → t.2.noEol = false ∧
      ∀ c m, resolveMove key arg t.1.lastCharMovement = some (c, m) → m.inclusive = true → text? t.2 ≠ some []) :
    VS h (handleKeyMoveToChar E key arg) t (fun _ _ => True) := by
  unfold handleKeyMoveToChar
  refine vs_bind (vs_getK ho ?_)
  refine vs_bind (vs_modK ho ?_)
  cases hr : resolveMove key arg t.1.lastCharMovement with
  | none => exact vs_mono (vs_abort (by exact ho)) fun _ _ _ _ => trivial
  | some cm =>
    obtain ⟨c, m⟩ := cm
    have rest : ∀ v : Vi, v.modeStack = t.1.modeStack → VS h (do
        let s ← ed get
        let b ← ed Editor.curBuf
        if !m.inclusive ∧ b.numChars < s.cursor then M.panic
        else
          match charTarget b.data s.cursor m c t.1.moveCount with
          | some i => ed (Editor.moveCursorTo E i)
          | none => pure ()
          popModeAfterMovement E m.inclusive : ViM Unit) (v, t.2) (fun _ _ => True) := by
      intro v hv
      refine vs_bind (vs_get (by exact ho) ?_)
      refine vs_bind (vs_curBuf (by exact ho) fun b hb => ?_)
      obtain ⟨b', hb', hc⟩ := ho.i.cur
      obtain rfl : b = b' := Option.some.inj (hb.symm.trans hb')
      refine vs_ite (fun hlt => absurd hc (by have := hlt.2; simp only [Buffer.numChars] at this; omega)) (fun _ => ?_)
      have hx : text? t.2 = some b.data := text?_eq.mpr ⟨b, hb, rfl⟩
      have fin : ∀ (s' : Ed), Ok h s' → text? s' = some b.data → (m.inclusive = true → t.2.noEol = false → t.2.cursor < b.data.length → s'.cursor < b.data.length) →
          VS h (popModeAfterMovement E m.inclusive) (v, s') (fun _ _ => True) := by
        intro s' o1 h1 h2
        refine vs_after _ (by exact o1) fun p hq => ?_
        dsimp only at hq
        rw [hv] at hq
        obtain ⟨⟨x, hx', hle, hne⟩, _⟩ := hp p hq
        obtain rfl : b.data = x := Option.some.inj (hx.symm.trans hx')
        obtain ⟨b1, hb1, hd⟩ := text?_eq.mp h1
        refine ⟨b1, hb1, by rw [hd]; exact hle, fun hinc => ?_⟩
        rw [hd]
        have hn : b.data ≠ [] := fun h0 => ((hi p hq).2 c m hr hinc) (by rw [hx, h0])
        obtain ⟨g1, g2⟩ := hne hn
        exact ⟨h2 hinc (hi p hq).1 g2, g1⟩
      cases hct : charTarget b.data t.2.cursor m c t.1.moveCount with
      | none =>
        exact fin t.2 ho hx (fun _ _ h => h)
      | some i =>
        refine vs_bind (vs_ed' (E := E) (Q' := fun _ s' => text? s' = some b.data ∧ (m.inclusive = true → t.2.noEol = false → s'.cursor < b.data.length)) (by exact ho)
          (moveCursorTo_safe ho.j i) (uses_to E i) ?_ fun _ s' o1 h1 => fin s' o1 h1.1 (fun a b _ => h1.2 a b))
        by_cases hinc : m.inclusive = true ∧ t.2.noEol = false
        · refine wp_mono (to_cursor E ho.son hinc.2 i hx ?_) (fun _ s' h1 => ⟨h1.1, fun _ _ => h1.2⟩) (fun _ _ _ => trivial) (fun _ _ => trivial)
          cases m with
          | rightUntil =>
            obtain ⟨j, hj, rfl⟩ := Option.map_eq_some_iff.mp hct
            have := findChar_lt hj
            omega
          | rightAt => exact (findChar_lt hct).2
          | leftUntil => cases hinc.1
          | leftAt => cases hinc.1
        · exact wp_mono (txt_to E i t.2 ho.son) (fun _ s' h1 => ⟨h1.trans hx, fun a b => absurd ⟨a, b⟩ hinc⟩) (fun _ _ _ => trivial) (fun _ _ => trivial)
    dsimp only
    refine vs_ite (fun _ => ?_) (fun _ => ?_)
    · exact vs_bind (vs_modK (by exact ho) (rest _ rfl))
    · exact rest _ rfl

theorem advance_left_le {c m c' : Nat} (ha : advance false c m = some c') : c' ≤ c := by
  simp only [advance] at ha
  simp at ha
  omega

theorem wordLoop_le {C : CharClass} {kw : Bool} {b : Buffer} : ∀ (n : Nat) (st : WState) (c : Nat), (wordLoop C kw false b n st c).1 ≤ c
  | 0, _, _ => Nat.le_refl _
  | n + 1, st, c => by
    unfold wordLoop
    cases ha : advance false c b.numChars with
    | none => exact Nat.le_refl _
    | some c' =>
      have h1 := advance_left_le ha
      dsimp only
      cases b.charAfter c' with
      | none => exact h1
      | some x =>
        dsimp only
        cases wordStep C kw st x with
        | none => exact h1
        | some st' => exact Nat.le_trans (wordLoop_le n st' c') h1

theorem moveWordFrom_le {C : CharClass} {kw : Bool} {b : Buffer} : ∀ (n c : Nat), moveWordFrom C kw false b n c ≤ c
  | 0, _ => Nat.le_refl _
  | n + 1, c => by
    unfold moveWordFrom
    cases b.charAfter c with
    | none => exact Nat.le_refl _
    | some x =>
      dsimp only
      have h1 := wordLoop_le (C := C) (kw := kw) (b := b) (b.numChars + 1) (classify C x) c
      rcases hw : wordLoop C kw false b (b.numChars + 1) (classify C x) c with ⟨q, f⟩
      rw [hw] at h1
      cases f with
      | true => exact Nat.le_trans (moveWordFrom_le n q) h1
      | false => exact h1

theorem moveCount_ne (v : Vi) : v.moveCount ≠ 0 := by
  unfold moveCount
  split
  · simp
  · assumption

/-- `g`. -/
theorem vs_g {key : Key} (ho : Ok h t.2) (hp : Pn t.1 t.2) (hm : t.1.mode = .g) (hn : t.2.noEol = false) :
    VS h (handleKeyG E key) t (fun _ _ => True) := by
  have fin : ∀ t1 : Vi × Ed, Ok h t1.2 → VS h (modK fun v => { v with count := 0 } : ViM Unit) t1 (fun _ _ => True) :=
    fun t1 o1 => vs_modK o1 trivial
  have mv : ∀ kw : Bool, VS h (do
        ed (moveWord E kw false t.1.moveCount)
        popModeAfterMovement E true
        modK fun v => { v with count := 0 } : ViM Unit)
      ({ t.1 with currentCommand := t.1.currentCommand ++ [key] }, t.2) (fun _ _ => True) := by
    intro kw
    obtain ⟨b, hb, hc⟩ := ho.i.cur
    have hx : text? t.2 = some b.data := text?_eq.mpr ⟨b, hb, rfl⟩
    refine vs_bind (vs_ed' (E := E) (Q' := fun _ s' => text? s' = some b.data ∧ (t.2.cursor < b.data.length → s'.cursor < b.data.length)) (by exact ho)
      (word_safe ho.i kw false _) (uses_moveWord E kw false _) ?_ fun _ s' o1 h1 => vs_bind (vs_mono (vs_after true (by exact o1) fun p hq => ?_) fun _ t2 o2 _ => fin t2 o2))
    · unfold moveWord
      rw [wp_bind, wp_get, if_neg (moveCount_ne _), wp_bind, wp_curBuf]
      refine ⟨fun b' hb' => ?_, fun _ => trivial⟩
      obtain rfl : b = b' := Option.some.inj (hb.symm.trans hb')
      by_cases hlt : t.2.cursor < b.data.length
      · exact wp_mono (to_cursor E ho.son hn _ hx (Nat.lt_of_le_of_lt (moveWordFrom_le _ _) hlt)) (fun _ s' h1 => ⟨h1.1, fun _ => h1.2⟩)
          (fun _ _ _ => trivial) (fun _ _ => trivial)
      · exact wp_mono (txt_to E _ t.2 ho.son) (fun _ s' h1 => ⟨h1.trans hx, fun a => absurd a hlt⟩) (fun _ _ _ => trivial) (fun _ _ => trivial)
    · obtain ⟨⟨x, hx', hle, hne⟩, hi⟩ := hp p hq
      obtain rfl : b.data = x := Option.some.inj (hx.symm.trans hx')
      obtain ⟨b1, hb1, hd⟩ := text?_eq.mp h1.1
      have hn : b.data ≠ [] := fun h0 => hi (by rw [hm]; trivial) (by rw [hx, h0])
      obtain ⟨g1, g2⟩ := hne hn
      exact ⟨b1, hb1, by rw [hd]; exact hle, fun _ => by rw [hd]; exact ⟨h1.2 g2, g1⟩⟩
  unfold handleKeyG
  refine vs_bind (vs_getK ho ?_)
  refine vs_bind (vs_modK ho ?_)
  exact vs_ite (fun _ => mv true) (fun _ => vs_ite (fun _ => mv false) (fun _ =>
    vs_bind (vs_mono (vs_abort (by exact ho)) fun _ t1 o1 _ => fin t1 o1)))

/-- Operations whose effect is known. -/
theorem vs_op {m : EdM Unit} {l r : Text} (ho : Ok h t.2) (hn : t.2.noEol = false) (hm : Safe h m t.2) (hu : Uses E .vi m)
    (hp : Pres m) (hw : WpMakes m t.2 t.2.noEol l r) :
    VS h (ed m) t (fun _ t' => t'.1 = t.1 ∧ t'.2.noEol = false ∧ At t'.2 l r) := by
  refine vs_ed' ho hm hu (wp_mono (wp_and hw (hp t.2)) (fun _ _ x => x) (fun _ _ _ => trivial) (fun _ _ => trivial)) fun _ s' o1 h1 => ?_
  obtain ⟨⟨h2, h3⟩, h4⟩ := h1
  refine ⟨rfl, h4.noEol.trans hn, h2, ?_⟩
  rw [hn] at h3
  simpa using h3

theorem vs_insertEach : ∀ (cs : Text) (t : Vi × Ed) (l r : Text), Ok h t.2 → t.2.noEol = false → At t.2 l r →
    VS h (ed (insertEach E cs)) t (fun _ t' => t'.1 = t.1 ∧ t'.2.noEol = false ∧ ∃ l', At t'.2 l' r)
  | [], t, l, r, ho, hn, ha => vs_pure (a := ()) ho ⟨rfl, hn, l, ha⟩
  | c :: cs, t, l, r, ho, hn, ha => by
    show VS h (ed (insertCharsAfterCursor E [c] >>= fun _ => insertEach E cs)) t _
    rw [ed_bind]
    refine vs_bind (vs_mono (vs_op ho hn (insertChars_safe ho.j ho.i.cur _) (uses_insert E _) (pres_insert E _) (insert_makes E ha ho.son [c])) fun _ t1 o1 h1 => ?_)
    refine vs_mono (vs_insertEach cs t1 _ _ o1 h1.2.1 h1.2.2) fun _ t2 o2 h2 => ⟨h2.1.trans h1.1, h2.2⟩

/-- One step of `~`. -/
theorem vs_tildeStep {c : Char} {l r : Text} (ho : Ok h t.2) (hn : t.2.noEol = false) (ha : At t.2 l (c :: r)) :
    VS h (ed (tildeStep E)) t (fun _ t' => t'.1 = t.1 ∧ t'.2.noEol = false ∧ ∃ l', At t'.2 l' r) := by
  unfold tildeStep
  rw [ed_bind]
  refine vs_bind (vs_curBuf ho fun b hb => ?_)
  rw [ed_bind]
  refine vs_bind (vs_get ho ?_)
  have hd : b.data = l ++ c :: r := by
    have := (text?_eq.mpr ⟨b, hb, rfl⟩).symm.trans ha.1
    exact Option.some.inj this
  have hc : b.charAfter t.2.cursor = some c := by
    unfold Buffer.charAfter
    rw [hd, ha.2]; simp
  rw [hc, ed_bind]
  refine vs_bind (vs_pure (a := c) ho ?_)
  have del : ∀ cs : Text, VS h (ed (do deleteAfterCursor E; insertEach E cs : EdM Unit)) t
      (fun _ t' => t'.1 = t.1 ∧ t'.2.noEol = false ∧ ∃ l', At t'.2 l' r) := by
    intro cs
    rw [ed_bind]
    refine vs_bind (vs_mono (vs_op ho hn (deleteAfter_safe ho.j) (uses_deleteAfter E) (pres_deleteAfter E) (deleteAfter_makes E ha ho.son)) fun _ t1 o1 h1 => ?_)
    exact vs_mono (vs_insertEach cs t1 _ _ o1 h1.2.1 h1.2.2) fun _ t2 o2 h2 => ⟨h2.1.trans h1.1, h2.2⟩
  split
  · exact del _
  · split
    · exact del _
    · exact vs_mono (vs_op (l := l ++ [c]) (r := r) ho hn (moveCursorRight_safe ho.j ho.i.cur 1) (uses_right E 1) (pres_right E 1) (right_makes E (m := [c]) ha ho.son rfl))
        fun _ t1 o1 h1 => ⟨h1.1, h1.2.1, _, h1.2.2⟩

theorem vs_tildeN : ∀ (n : Nat) (t : Vi × Ed) (l r : Text), n ≤ r.length → Ok h t.2 → t.2.noEol = false → At t.2 l r →
    VS h (repeatN n (ed (tildeStep E))) t (fun _ t' => t'.1 = t.1)
  | 0, t, l, r, _, ho, hn, ha => vs_pure (a := ()) ho rfl
  | n + 1, t, l, [], hl, ho, hn, ha => by simp at hl
  | n + 1, t, l, c :: r, hl, ho, hn, ha => by
    refine vs_bind (vs_mono (vs_tildeStep ho hn ha) fun _ t1 o1 h1 => ?_)
    obtain ⟨h2, h3, l', h4⟩ := h1
    exact vs_mono (vs_tildeN n t1 l' r (by simpa using hl) o1 h3 h4) fun _ t2 _ h5 => h5.trans h2

theorem vs_repeat {m : EdM Unit} (hm : ∀ s, Ok h s → Safe h m s) (hu : Uses E .vi m) : ∀ (n : Nat) (t : Vi × Ed), Ok h t.2 →
    VS h (repeatN n (ed m)) t (fun _ t' => t'.1 = t.1)
  | 0, t, ho => vs_pure (a := ()) ho rfl
  | n + 1, t, ho => vs_bind (vs_ed ho (hm _ ho) hu fun _ s1 o1 => vs_mono (vs_repeat hm hu n (t.1, s1) o1) fun _ _ _ h2 => h2)

theorem replaceStep_safe {s : Ed} (ho : Ok h s) (c : Char) : Safe h (replaceStep E c) s := by
  unfold replaceStep Safe
  rw [wp_bind]
  exact wp_mono (deleteAfter_safe ho.j) (fun _ s1 h1 => insertChars_safe h1.j h1.cur _) (fun _ _ x => x) (fun _ x => x)

theorem uses_replaceStep (E : Env) (c : Char) : Uses E .vi (replaceStep E c) := by
  unfold replaceStep; uses

/-- `r`. -/
theorem vs_replace {key : Key} (ho : Ok h t.2) (hs : t.1.modeStack = [.replace]) : VS h (handleKeyReplace E key) t (fun _ t' => NoDel t'.1) := by
  refine vs_mono (vs_wk (Q := fun _ _ => True) ?_ (wk_replace E hs)) fun _ t' _ x => ?_
  · have fin : ∀ t1 : Vi × Ed, Ok h t1.2 → VS h (modK fun v => { v with count := 0 } : ViM Unit) t1 (fun _ _ => True) :=
      fun t1 o1 => vs_modK o1 trivial
    have pop : ∀ t1 : Vi × Ed, Ok h t1.2 → t1.1.modeStack = [.replace] → VS h (do popMode E; modK fun v => { v with count := 0 } : ViM Unit) t1 (fun _ _ => True) :=
      fun t1 o1 h1 => vs_bind (vs_mono (vs_popMode (by rw [h1]; intro h; cases h) o1) fun _ t2 o2 _ => fin t2 o2)
    unfold handleKeyReplace
    cases key with
    | char c =>
      refine vs_bind (vs_countRight ho fun n b hb hle => ?_)
      refine vs_bind (vs_getK ho ?_)
      refine vs_ite (fun _ => ?_) (fun _ => pop t ho hs)
      refine vs_bind (vs_modK ho ?_)
      refine vs_bind (vs_mono (vs_startGroup E (by exact ho)) fun _ t1 o1 h1 => ?_)
      refine vs_bind (vs_mono (vs_repeat (E := E) (fun s o => replaceStep_safe o c) (uses_replaceStep E c) n t1 o1) fun _ t2 o2 h2 => ?_)
      refine vs_bind (vs_mono (vs_endGroup E o2) fun _ t3 o3 h3 => ?_)
      refine vs_bind (vs_ed o3 (moveCursorLeft_safe o3.j 1) (uses_left E 1) fun _ s4 o4 => ?_)
      exact pop _ o4 (by dsimp only; rw [h3.1, h2, h1.1]; exact hs)
    | _ => exact vs_bind (vs_mono (vs_abort ho) fun _ t1 o1 _ => fin t1 o1)
  · exact nodel_of (.inl (x.2.elim (·.1) (·.1)))

theorem vs_reset (E : Env) [Draws E h] (ho : Ok h t.2) : VS h resetInsert t (fun _ t' => t'.1.modeStack = t.1.modeStack) := by
  unfold resetInsert
  refine vs_bind (vs_getK ho (vs_ite (fun _ => ?_) (fun _ => vs_pure ho rfl)))
  refine vs_bind (vs_mono (vs_endGroup E ho) fun _ t1 o1 h1 => ?_)
  refine vs_bind (vs_mono (vs_startGroup E o1) fun _ t2 o2 h2 => ?_)
  exact vs_modK o2 (by dsimp only; rw [h2.1, h1.1])

/-- A key typed in insert mode, other than Esc. -/
theorem vs_insert {core : Key → ViM Unit} {key : Key} (hs : h.hist.share = false) (hk : Plain key) (ho : Ok h t.2) :
    VS h (handleKeyInsert core E key) t (fun _ t' => t'.1.modeStack = t.1.modeStack) := by
  have typed : ∀ m : EdM Unit, (∀ s, Ok h s → Safe h m s) → Uses E .vi m → VS h (do
      resetInsert
      modK fun v => { v with lastCommand := v.lastCommand ++ [key] }
      ed m : ViM Unit) t (fun _ t' => t'.1.modeStack = t.1.modeStack) := by
    intro m hm hu
    refine vs_bind (vs_mono (vs_reset E ho) fun _ t1 o1 h1 => ?_)
    refine vs_bind (vs_modK o1 ?_)
    exact vs_ed (by exact o1) (hm _ o1) hu fun _ s2 o2 => h1
  have moved : ∀ m : EdM Unit, Safe h m t.2 → Uses E .vi m → VS h (do
      modK fun v => { v with count := 0, movementReset := true }
      ed m : ViM Unit) t (fun _ t' => t'.1.modeStack = t.1.modeStack) := by
    intro m hm hu
    refine vs_bind (vs_modK ho ?_)
    exact vs_ed (by exact ho) hm hu fun _ s2 o2 => rfl
  have updown : ∀ m : EdM Unit, (∀ s, Ok h s → Safe h m s) → Uses E .vi m → VS h (do
      modK fun v => { v with count := 0, movementReset := true }
      ed (onBuf Buffer.endUndoGroup)
      ed m
      ed (onBuf Buffer.startUndoGroup) : ViM Unit) t (fun _ t' => t'.1.modeStack = t.1.modeStack) := by
    intro m hm hu
    refine vs_bind (vs_modK ho ?_)
    refine vs_bind (vs_mono (vs_endGroup E (by exact ho)) fun _ t1 o1 h1 => ?_)
    refine vs_bind (vs_ed o1 (hm _ o1) hu fun _ s2 o2 => ?_)
    exact vs_mono (vs_startGroup E (by exact o2)) fun _ t3 o3 h3 => by rw [h3.1]; dsimp only; rw [h1.1]
  have com : ∀ k, ∀ s, Ok h s → Safe h (handleKeyCommon E k) s := fun k s o => common_safe hs o.i k
  unfold handleKeyInsert
  rw [if_neg (fun hx => hx.elim hk.1 hk.2)]
  split
  · exact typed _ (fun s o => insertChars_safe o.j o.i.cur _) (uses_insert E _)
  · exact typed _ (com _) (uses_common E _)
  · exact typed _ (com _) (uses_common E _)
  · exact moved _ (com _ _ ho) (uses_common E _)
  · exact moved _ (com _ _ ho) (uses_common E _)
  · exact moved _ (com _ _ ho) (uses_common E _)
  · exact moved _ (com _ _ ho) (uses_common E _)
  · exact updown _ (fun s o => moveUp_safe hs o.j) (uses_moveUp E)
  · exact updown _ (fun s o => moveDown_safe hs o.j) (uses_moveDown E)
  · exact vs_ed ho (com _ _ ho) (uses_common E _) fun _ _ _ => rfl

/-- The deletion under `x`. -/
theorem vs_cut {f : Vi → Vi} {Q : Unit → Vi × Ed → Prop} (ho : Ok h t.2) (hq : ∀ s', Ok h s' → Q () (f t.1, s')) :
    VS h (do
      let n ← moveCountRight
      let s ← ed get
      ed (Editor.deleteUntil E (s.cursor + n))
      modK f : ViM Unit) t Q := by
  refine vs_bind (vs_countRight ho fun n b hb hle => ?_)
  refine vs_bind (vs_get ho ?_)
  refine vs_bind (vs_ed ho (deleteUntil_safe ho.j ⟨b, hb, by omega, hle⟩) (uses_deleteUntil E _) fun _ s1 o1 => ?_)
  exact vs_modK (by exact o1) (hq s1 o1)

/-- A movement in normal mode or while an operator is pending. -/
theorem vs_moveKey {core : Key → ViM Unit} {c : Char} (hs : h.hist.share = false)
    (hc : c ∈ ['h', 'l', ' ', 'k', 'j', ';', ',', 'w', 'W', 'e', 'E', 'b', 'B', '^', '$'])
    (ho : Ok h t.2) (hv : VI t) (hst : Opn t.1.modeStack) (hp : Pn t.1 t.2) (hkj : c = 'k' ∨ c = 'j' → NoDel t.1)
    (hem : c = ';' ∨ c = ',' → ¬ NoDel t.1 → text? t.2 ≠ some []) :
    VS h (normalChar core E c) t (fun _ t' => NoDel t'.1) := by
  refine vs_mono (vs_wk (Q := fun _ _ => True) ?_ (wk_move E hc hst)) fun _ t' _ x => nodel_moved hst x.2
  have hnd : ∀ p, Mode.delete p ∈ t.1.modeStack → ¬ NoDel t.1 := fun p hp hn => hn p hp
  have hne : ∀ p, Mode.delete p ∈ t.1.modeStack → t.2.noEol = false := by
    intro p hp
    rw [hv.eol, decide_eq_false_iff_not]
    intro hm
    rw [hv.nil hm] at hp
    cases hp
  simp only [List.mem_cons, List.not_mem_nil, or_false] at hc
  rcases hc with rfl | rfl | rfl | rfl | rfl | rfl | rfl | rfl | rfl | rfl | rfl | rfl | rfl | rfl | rfl
  · exact vs_bind (vs_countLeft ho fun n _ => vs_motion ho hp (moveCursorLeft_safe ho.j n) (uses_left E n) (.inr (txt_left E n)))
  · exact vs_bind (vs_countRight ho fun n _ _ _ => vs_motion ho hp (moveCursorRight_safe ho.j ho.i.cur n) (uses_right E n) (.inr (txt_right E n)))
  · exact vs_bind (vs_countRight ho fun n _ _ _ => vs_motion ho hp (moveCursorRight_safe ho.j ho.i.cur n) (uses_right E n) (.inr (txt_right E n)))
  · exact vs_motion ho hp (moveUp_safe hs ho.j) (uses_moveUp E) (.inl (hkj (.inl rfl)))
  · exact vs_motion ho hp (moveDown_safe hs ho.j) (uses_moveDown E) (.inl (hkj (.inr rfl)))
  · exact vs_toChar ho hp fun p hp => ⟨hne p hp, fun _ _ _ _ => hem (.inl rfl) (hnd p hp)⟩
  · exact vs_toChar ho hp fun p hp => ⟨hne p hp, fun _ _ _ _ => hem (.inr rfl) (hnd p hp)⟩
  · exact vs_bind (vs_getK ho (vs_motion ho hp (word_safe ho.i _ _ _) (uses_moveWord E _ _ _) (.inr (txt_word E _ _ _))))
  · exact vs_bind (vs_getK ho (vs_motion ho hp (word_safe ho.i _ _ _) (uses_moveWord E _ _ _) (.inr (txt_word E _ _ _))))
  · exact vs_bind (vs_getK ho (vs_motion ho hp (wordEnd_safe ho.i _ _ _) (uses_moveWordEnd E _ _ _) (.inr (txt_wordEnd E _ _ _))))
  · exact vs_bind (vs_getK ho (vs_motion ho hp (wordEnd_safe ho.i _ _ _) (uses_moveWordEnd E _ _ _) (.inr (txt_wordEnd E _ _ _))))
  · exact vs_bind (vs_getK ho (vs_motion ho hp (wordEnd_safe ho.i _ _ _) (uses_moveWordEnd E _ _ _) (.inr (txt_wordEnd E _ _ _))))
  · exact vs_bind (vs_getK ho (vs_motion ho hp (wordEnd_safe ho.i _ _ _) (uses_moveWordEnd E _ _ _) (.inr (txt_wordEnd E _ _ _))))
  · exact vs_motion ho hp (moveCursorToStartOfLine_safe ho.j) (uses_home E) (.inr (txt_home E))
  · exact vs_motion ho hp (moveCursorToEndOfLine_safe ho.j) (uses_end E) (.inr (txt_end E))

/-- A key that announces a movement. -/
theorem vs_push {m : Mode} (hm : m = .g ∨ ∃ k, m = .moveToChar k) (ho : Ok h t.2) (hp : Pn t.1 t.2)
    (hem : Incl m → ¬ NoDel t.1 → text? t.2 ≠ some []) : VS h (setMode E m) t (fun _ t' => Pn t'.1 t'.2) := by
  have hm' : m ≠ .normal := by rcases hm with rfl | ⟨k, rfl⟩ <;> simp
  have hd : ∀ p, m ≠ .delete p := by rcases hm with rfl | ⟨k, rfl⟩ <;> simp
  refine vs_mono (vs_setMode ho hm') fun _ t' _ h1 p hq => ?_
  rw [h1.1] at hq
  rcases List.mem_cons.1 hq with hq | hq
  · exact absurd hq.symm (hd p)
  · refine ⟨(hp p hq).1.fixed h1.2.1, fun hi => ?_⟩
    rw [mode_cons h1.1] at hi
    rw [h1.2.1.text]
    exact hem hi (fun hn => hn p hq)

/-- A digit. -/
theorem vs_digit {core : Key → ViM Unit} {c : Char} (hd : (digit? c).isSome) (ho : Ok h t.2) (hst : Opn t.1.modeStack) (hp : Pn t.1 t.2)
    (hi : ¬ Incl t.1.mode) : VS h (normalChar core E c) t (fun _ t' => Pn t'.1 t'.2) := by
  unfold normalChar
  dsimp only
  iterate 32 refine vs_ite (fun h => by
    (first | subst h | (rcases h with rfl | rfl)) <;> exact absurd hd (by decide)) (fun _ => ?_)
  cases he : digit? c with
  | none => rw [he] at hd; cases hd
  | some d =>
    refine vs_bind (vs_getK ho (vs_ite (fun _ => ?_) (fun _ => vs_modK ho ?_)))
    · refine vs_mono (vs_wk (vs_motion ho hp (moveCursorToStartOfLine_safe ho.j) (uses_home E) (.inr (txt_home E)))
        (Q' := fun _ v' => Quit t.1 v' ∨ Moved_f t.1 v') (wk_bind (wk_ed fun _ => wk_after E hst fun v' h => .inr h))) fun _ t' _ x => (nodel_moved hst x.2).pn
    · exact fun p hp' => ⟨(hp p hp').1, fun hi' => absurd hi' hi⟩

/-- `~` panics when the redraw at its end reports an error. -/
def TildeOk (E : Env) (h : Ctx) : Prop := h.io = true ∨ ∀ s e s', display E s ≠ .err e s'

theorem at_of {s : Ed} (hi : I h s) {n : Nat} {b : Buffer} (hb : s.curBuf? = some b) (hle : s.cursor + n ≤ b.data.length) :
    ∃ l r, At s l r ∧ n ≤ r.length := by
  refine ⟨b.data.take s.cursor, b.data.drop s.cursor, ⟨?_, ?_⟩, ?_⟩
  · rw [List.take_append_drop]; exact text?_eq.mpr ⟨b, hb, rfl⟩
  · rw [List.length_take]; omega
  · rw [List.length_drop]; omega

/-- The character keys of normal mode, other than `.`. -/
theorem vs_normalChar {core : Key → ViM Unit} {c : Char} (hs : h.hist.share = false) (hio : c = '~' → TildeOk E h) (hc : c ≠ '.') (ho : Ok h t.2) (hv : VI t)
    (hst : t.1.modeStack = []) : VS h (normalChar core E c) t (fun _ t' => Pn t'.1 t'.2) := by
  have hop : Opn t.1.modeStack := .inl (.inl hst)
  have hnd : NoDel t.1 := nodel_of (.inl hst)
  have hi : ¬ Incl t.1.mode := by rw [mode_nil hst]; exact id
  by_cases h1 : c ∈ ['h', 'l', ' ', 'k', 'j', ';', ',', 'w', 'W', 'e', 'E', 'b', 'B', '^', '$']
  · exact vs_mono (vs_moveKey hs h1 ho hv hop hnd.pn (fun _ => hnd) (fun _ h => absurd hnd h)) fun _ t' _ x => x.pn
  by_cases h2 : c ∈ ['f', 'F', 't', 'T']
  · simp only [List.mem_cons, List.not_mem_nil, or_false] at h2
    rcases h2 with rfl | rfl | rfl | rfl
    all_goals exact vs_push (.inr ⟨_, rfl⟩) ho hnd.pn (fun _ h => absurd hnd h)
  by_cases h3 : (digit? c).isSome
  · exact vs_digit h3 ho hop hnd.pn hi
  have pn_of : ∀ {t' : Vi × Ed}, t'.1.modeStack = [] ∨ t'.1.modeStack = [.insert] ∨ t'.1.modeStack = [.replace] → Pn t'.1 t'.2 := fun hx => (nodel_of hx).pn
  have ent : ∀ (m : EdM Unit), (∀ s, Ok h s → Safe h m s) → Uses E .vi m → VS h (do
      modK fun v => { v with lastInsert := some (.char c) }
      setMode E .insert
      ed m : ViM Unit) t (fun _ t' => Pn t'.1 t'.2) := by
    intro m hm hu
    refine vs_bind (vs_modK ho ?_)
    refine vs_bind (vs_mono (vs_setMode (by exact ho) (by simp)) fun _ t1 o1 e1 => ?_)
    exact vs_ed o1 (hm _ o1) hu fun _ s2 o2 => pn_of (.inr (.inl (by rw [e1.1]; simp [hst])))
  have hundo : Uses E .vi (Editor.undo E) := by uses
  simp only [List.mem_cons, List.not_mem_nil, or_false, not_or] at h1 h2
  obtain ⟨a1, a2, a3, a4, a5, a6, a7, a8, a9, a10, a11, a12, a13, a14, a15⟩ := h1
  obtain ⟨b1, b2, b3, b4⟩ := h2
  unfold normalChar
  dsimp only
  -- i a A I s r
  refine vs_ite (fun hx => ?_) (fun _ => ?_)
  · refine vs_bind (vs_modK ho ?_)
    exact vs_mono (vs_setMode (by exact ho) (by simp)) fun _ t1 o1 e1 => pn_of (.inr (.inl (by rw [e1.1]; simp [hst])))
  refine vs_ite (fun hx => ent _ (fun s o => moveCursorRight_safe o.j o.i.cur 1) (uses_right E 1)) (fun _ => ?_)
  refine vs_ite (fun hx => ent _ (fun s o => moveCursorToEndOfLine_safe o.j) (uses_end E)) (fun _ => ?_)
  refine vs_ite (fun hx => ent _ (fun s o => moveCursorToStartOfLine_safe o.j) (uses_home E)) (fun _ => ?_)
  refine vs_ite (fun hx => ?_) (fun _ => ?_)
  · refine vs_bind (vs_bind (vs_modK ho ?_))
    refine vs_mono (vs_setMode (by exact ho) (by simp)) fun _ t1 o1 e1 => ?_
    exact vs_cut o1 fun s' _ => pn_of (.inr (.inl (by dsimp only; rw [e1.1]; simp [hst])))
  refine vs_ite (fun hx => ?_) (fun _ => ?_)
  · exact vs_mono (vs_setMode ho (by simp)) fun _ t1 o1 e1 => pn_of (.inr (.inr (by rw [e1.1, hst])))
  -- d c
  refine vs_ite (fun hx => ?_) (fun _ => ?_)
  · have fin : ∀ (v1 : Vi) (s1 : Ed) (base : List Mode), Ok h s1 → v1.modeStack = base → (base = [] ∨ base = [.insert]) → Fixed t.2 s1 → VS h (do
        let s ← ed get
        setMode E (.delete s.cursor)
        modK fun v => { v with secondaryCount := v.count, count := 0 } : ViM Unit) (v1, s1) (fun _ t' => Pn t'.1 t'.2) := by
      intro v1 s1 base o1 e1 hb hf
      refine vs_bind (vs_get (by exact o1) ?_)
      refine vs_bind (vs_mono (vs_setMode (by exact o1) (by simp)) fun _ t2 o2 e2 => ?_)
      refine vs_modK o2 fun p hp => ?_
      dsimp only at hp ⊢
      rw [e2.1] at hp
      have hp' : p = s1.cursor := by
        rcases List.mem_cons.1 hp with hp | hp
        · exact Mode.delete.inj hp
        · dsimp only at hp; rw [e1] at hp; rcases hb with rfl | rfl <;> simp at hp
      subst hp'
      refine ⟨?_, fun hi => ?_⟩
      · obtain ⟨b, hb, hle, hlt⟩ := hv.rests
        have hne : t.2.noEol = true := by rw [hv.eol, mode_nil hst]; rfl
        refine Ready.fixed (s := t.2) ⟨b.data, text?_eq.mpr ⟨b, hb, rfl⟩, ?_, fun hn => ?_⟩ (hf.trans e2.2.1)
        · rw [hf.cursor]; exact hle
        · have h5 := hlt hne
          rw [hf.cursor]
          have h6 := List.length_pos_iff.mpr hn
          omega
      · rw [show ({ t2.1 with secondaryCount := t2.1.count, count := 0 } : Vi).mode = .delete s1.cursor from mode_cons e2.1] at hi
        exact hi.elim
    refine vs_bind (vs_modK ho ?_)
    refine vs_ite (fun hd => ?_) (fun hd => ?_)
    · refine vs_bind (vs_modK (by exact ho) ?_)
      exact fin _ _ [] ho hst (.inl rfl) ⟨rfl, rfl⟩
    · refine vs_bind (vs_modK (by exact ho) ?_)
      refine vs_bind (vs_mono (vs_setMode (by exact ho) (by simp)) fun _ t1 o1 e1 => ?_)
      exact fin _ _ [.insert] o1 (by rw [e1.1]; simp [hst]) (.inr rfl) e1.2.1
  -- D C
  refine vs_ite (fun hx => ?_) (fun _ => ?_)
  · refine vs_bind (vs_modK ho ?_)
    refine vs_bind (vs_modK (by exact ho) ?_)
    exact vs_ed (by exact ho) (deleteAllAfter_safe ho.j ho.i.cur) (uses_deleteAllAfter E) fun _ _ _ => pn_of (.inl hst)
  refine vs_ite (fun hx => ?_) (fun _ => ?_)
  · refine vs_bind (vs_modK ho ?_)
    refine vs_bind (vs_modK (by exact ho) ?_)
    refine vs_bind (vs_mono (vs_preserve (by exact ho) (by simp)) fun _ t1 o1 e1 => ?_)
    exact vs_ed o1 (deleteAllAfter_safe o1.j o1.i.cur) (uses_deleteAllAfter E) fun _ _ _ => pn_of (.inr (.inl (by rw [e1.1]; simp [hst])))
  refine vs_ite (fun hx => absurd hx hc) (fun _ => ?_)
  -- movements
  refine vs_ite (fun hx => absurd hx a1) (fun _ => ?_)
  refine vs_ite (fun hx => absurd hx (by simp [a2, a3])) (fun _ => ?_)
  refine vs_ite (fun hx => absurd hx a4) (fun _ => ?_)
  refine vs_ite (fun hx => absurd hx a5) (fun _ => ?_)
  refine vs_ite (fun hx => absurd hx b3) (fun _ => ?_)
  refine vs_ite (fun hx => absurd hx b4) (fun _ => ?_)
  refine vs_ite (fun hx => absurd hx b1) (fun _ => ?_)
  refine vs_ite (fun hx => absurd hx b2) (fun _ => ?_)
  refine vs_ite (fun hx => absurd hx a6) (fun _ => ?_)
  refine vs_ite (fun hx => absurd hx a7) (fun _ => ?_)
  refine vs_ite (fun hx => absurd hx a8) (fun _ => ?_)
  refine vs_ite (fun hx => absurd hx a9) (fun _ => ?_)
  refine vs_ite (fun hx => absurd hx a10) (fun _ => ?_)
  refine vs_ite (fun hx => absurd hx a11) (fun _ => ?_)
  refine vs_ite (fun hx => absurd hx a12) (fun _ => ?_)
  refine vs_ite (fun hx => absurd hx a13) (fun _ => ?_)
  refine vs_ite (fun hx => vs_push (.inl rfl) ho hnd.pn (fun _ h => absurd hnd h)) (fun _ => ?_)
  refine vs_ite (fun hx => absurd hx a14) (fun _ => ?_)
  refine vs_ite (fun hx => absurd hx a15) (fun _ => ?_)
  -- x ~ u
  refine vs_ite (fun hx => ?_) (fun _ => ?_)
  · refine vs_bind (vs_modK ho ?_)
    refine vs_bind (vs_modK (by exact ho) ?_)
    exact vs_cut (by exact ho) fun _ _ => pn_of (.inl hst)
  refine vs_ite (fun hc => ?_) (fun _ => ?_)
  · refine vs_bind (vs_modK ho ?_)
    refine vs_bind (vs_modK (by exact ho) ?_)
    refine vs_bind (vs_mono (vs_setMode (by exact ho) (by simp)) fun _ t1 o1 e1 => ?_)
    have hst1 : t1.1.modeStack = [.tilde] := by rw [e1.1]; simp [hst]
    refine vs_bind (vs_countRight o1 fun n b hb hle => ?_)
    obtain ⟨l, r, ha, hn⟩ := at_of o1.i hb hle
    refine vs_bind (vs_mono (vs_tildeN n t1 l r hn o1 e1.2.2 ha) fun _ t2 o2 e2 => ?_)
    exact vs_mono (vs_popMode (fun _ => hio hc) o2) fun _ t3 o3 e3 => pn_of (.inl (by rw [e3, e2]; simp [popped, hst1]))
  refine vs_ite (fun hx => ?_) (fun _ => ?_)
  · refine vs_bind (vs_getK ho ?_)
    refine vs_bind (vs_modK ho ?_)
    exact vs_ed (by exact ho) (repeatWhile_safe (fun s hi => undo_safe hi.j) _ _ ho.i) (uses_repeatWhile E (hundo) _) fun _ _ _ => pn_of (.inl hst)
  cases hd : digit? c with
  | some d => rw [hd] at h3; simp at h3
  | none => exact vs_ed ho (common_safe hs ho.i _) (uses_common E _) fun _ _ _ => pn_of (.inl hst)

end
end Vi
end Liner
