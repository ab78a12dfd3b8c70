import Verif.Spec.Tray
import Verif.Proof.Rack
import Verif.Proof.Table
import Verif.Proof.TableNext
/-
The vi keys with Tab.
-/

set_option linter.unusedSectionVars false

namespace Liner
namespace Vi
open Liner.Spec Liner.Editor Liner.Props M KM

/-- The changes made one after the other, with the texts before each of them. -/
inductive Trail (x : Text × List Action) : List Text → Text × List Action → Prop
  | nil : Trail x [] x
  | step {ps : List Text} {y : Text × List Action} {es : List Action} {d : Text} (h : Trail x ps y) (hc : Count 1 es)
      (hp : Path es y.1 d) : Trail x (y.1 :: ps) (d, es ++ y.2)

theorem Trail.past {x y : Text × List Action} {ps past : List Text} {full : Bool} (h : Trail x ps y) (hp : Past full past x) :
    Past full (ps ++ past) y := by
  induction h with
  | nil => exact hp
  | @step ps y es d h hc hpath ih =>
    obtain ⟨hp, hl⟩ := hc
    obtain ⟨a, rfl⟩ := List.length_eq_one_iff.mp hl
    exact ⟨by simp, y, undone_single (b0 := ⟨y.1, y.2, []⟩) (hp a (by simp)) hpath, rfl, ih⟩

theorem Trail.log {x y : Text × List Action} {ps : List Text} (h : Trail x ps y) :
    ∃ es, Plainly es ∧ y.2 = es ++ x.2 ∧ Path es x.1 y.1 := by
  induction h with
  | nil => exact ⟨[], fun a ha => (by cases ha), rfl, .nil _⟩
  | @step ps y es d h hc hpath ih =>
    obtain ⟨es', h1, h2, h3⟩ := ih
    refine ⟨es ++ es', fun a ha => ?_, by rw [h2, List.append_assoc], h3.append hpath⟩
    rcases List.mem_append.mp ha with ha | ha
    · exact hc.1 a ha
    · exact h1 a ha

/-- Where the line is, and how it came to be. -/
structure On [Around] (e : Bool) (x : Text × List Action) (ps : List Text) (l r : Text) (s : Ed) : Prop where
  here : Open e s l r
  line : ∃ y, Line y s ∧ Trail x ps y

section
variable [Around] (E : Env) {e : Bool} {s s0 : Ed} {l r : Text} {x : Text × List Action} {ps : List Text}

theorem On.listed (h : On e x ps l r s) (c : Option (List Text × Option Nat)) : On e x ps l r { s with showCompletionsHint := c } := by
  obtain ⟨y, hy, ht⟩ := h.line
  exact ⟨open_same h.here rfl rfl rfl rfl ⟨rfl, rfl, rfl, rfl, fun _ => rfl, rfl, id, fun _ => rfl⟩, y, hy, ht⟩

/-- The line taken out for writing. -/
theorem On.taken (h : On e x ps l r s) {w : Buffer} (hw : workBuf s = some w) : On e x ps l r (setCur s w) := by
  obtain ⟨y, ⟨hq, w', hw', h1, h2⟩, ht⟩ := h.line
  rw [hw] at hw'; cases hw'
  have hx := line_text h.here ⟨hq, w, hw, h1, h2⟩
  exact ⟨h.here.set' (h1.trans hx) h.here.here.2, y, ⟨(setCur_quiet s w).trans hq, w, setCur_workBuf _ _, h1, h2⟩, ht⟩

/-- A change. -/
theorem On.set {l' r' : Text} {w b' : Buffer} (h : On e x ps l r s) (hw : workBuf s = some w) (hd : b'.data = l' ++ r')
    (one : ∃ es, Count 1 es ∧ b'.actions = es ++ w.actions ∧ Path es w.data b'.data) :
    On e x ((l ++ r) :: ps) l' r' { setCur s b' with cursor := l'.length } := by
  obtain ⟨y, ⟨hq, w', hw', h1, h2⟩, ht⟩ := h.line
  rw [hw] at hw'; cases hw'
  have hx := line_text h.here ⟨hq, w, hw, h1, h2⟩
  obtain ⟨es, g1, g2, g3⟩ := one
  refine ⟨h.here.set hd rfl, (b'.data, es ++ y.2), ⟨(setCur_quiet s b').trans hq, b', ?_, rfl, by rw [g2, h2]⟩, ?_⟩
  · exact setCur_workBuf _ _
  · rw [← hx]
    exact .step ht g1 (by rw [← h1]; exact g3)

theorem On.display (h : On e x ps l r s) : Wp (display E) s
    (fun _ s' => On e x ps (rest e l r).1 (rest e l r).2 s' ∧ s'.showCompletionsHint = s.showCompletionsHint) (fun _ _ => True) (· ≠ .op) := by
  obtain ⟨y, hy, ht⟩ := h.line
  refine wp_mono (wp_and (display_sets E h.here (Side.refl s)) (gw_display E s hy.1)) (fun _ s' h' => ?_) (fun _ _ _ => trivial)
    (fun _ h => h.1)
  refine ⟨⟨h'.1.here, y, ?_, ht⟩, h'.1.side.hint⟩
  exact hy.grew h'.2

theorem On.insert (h : On e x ps l r s) (c : Text) : Wp (insertCharsAfterCursor E c) s
    (fun _ s' => On e x ((l ++ r) :: ps) (rest e (l ++ c) r).1 (rest e (l ++ c) r).2 s' ∧ s'.showCompletionsHint = s.showCompletionsHint)
    (fun _ _ => True) (· ≠ .op) := by
  obtain ⟨y, hy, ht⟩ := h.line
  have hx := line_text h.here hy
  obtain ⟨-, w, hw, hd, ha⟩ := hy
  have hd := hd.trans hx
  obtain ⟨b', h1, h2⟩ := C01_insert w l r c hd
  unfold insertCharsAfterCursor
  rw [wp_bind, wp_get, wp_bind, h.here.here.2]
  refine wp_curBufMut_of hw (a := ()) (b' := b') (by simp [noRes, h1]) ?_
  rw [wp_bind, wp_modify, setCur_cursor, h.here.here.2, ← List.length_append]
  refine wp_mono (On.display E (h.set hw (l' := l ++ c) (r' := r) h2 ?_)) (fun _ s' h' => ⟨h'.1, h'.2.trans (setCur_hint s b')⟩)
    (fun _ _ h => h) (fun _ h => h)
  exact one_of (.insert l.length c) h1 (by simp [Edit.apply, hd])

/-- Taking the part of the word before the cursor away. -/
theorem On.drop (hw : E.words = getBufferWords) (h : On e x ps l r s) {a w1 w2 z : Text} (h1 : l = a ++ w1) (h2 : r = w2 ++ z)
    (ht : Touched a w1 w2 z) (he : e = true → r ≠ [] ∨ l = []) : Wp (deleteWordBeforeCursor E false) s
    (fun _ s' => On e x (if w1 = [] then ps else (l ++ r) :: ps) a r s' ∧ s'.showCompletionsHint = s.showCompletionsHint)
    (fun _ _ => True) (· ≠ .op) := by
  obtain ⟨y, hy, htr⟩ := h.line
  have hx := line_text h.here hy
  obtain ⟨hq, w, hwb, hd, ha⟩ := hy
  have hd := hd.trans hx
  have hr : rest e a r = (a, r) := by
    cases e with
    | false => exact rest_false ..
    | true => exact edge_rest ((he rfl).imp id fun hl => by rw [hl] at h1; exact (List.append_eq_nil_iff.mp h1.symm).1)
  obtain ⟨b0, hb0, hd0⟩ := text?_eq.mp h.here.here.1
  simp only [deleteWordBeforeCursor, getWordBeforeCursor, wordsAndPos, wp_bind, wp_curBuf, wp_get, wp_pure]
  refine ⟨fun b hb => ?_, fun hn => (by rw [hb0] at hn; cases hn)⟩
  rw [hb0] at hb; cases hb
  have hsep := C12_default_words_separated b0
  have hdiv := C11_words b0
  rw [hd0, h1, h2] at hdiv
  rw [hw, h.here.here.2]
  rcases ht _ hdiv with ⟨hn, hp⟩ | ⟨rfl, rfl, hp⟩
  · rw [← h1] at hp
    obtain ⟨b', k1, k2⟩ := C01_remove w a w1 r (by rw [hd, h1])
    have k3 : w.remove a.length l.length = some (w1.length, b') := by
      rw [h1, List.length_append]
      exact k1
    rw [(wordBefore_iff hsep _ _ _).mpr hp, if_neg hn]
    dsimp only
    rw [wp_bind, wp_get, wp_bind, h.here.here.2]
    refine wp_curBufMut_of hwb k3 ?_
    rw [wp_bind]
    unfold Wp cursorSub
    rw [setCur_cursor, h.here.here.2, if_pos (by rw [h1]; simp), show l.length - w1.length = a.length by rw [h1]; simp]
    have := On.display E (h.set hwb (l' := a) (r' := r) k2 (one_remove k3))
    rw [hr] at this
    exact wp_mono this (fun _ s' h' => ⟨h'.1, h'.2.trans (setCur_hint s b')⟩) (fun _ _ h => h) (fun _ h => h)
  · rw [List.append_nil] at h1
    subst h1
    rw [List.append_nil] at hp
    rw [wordBefore_none hsep hp, if_pos rfl]
    have := On.display E h
    rw [hr] at this
    exact this

/-- What a Tab leaves. -/
def Tabbed (comp : Text → List Text) (e : Bool) (x : Text × List Action) (l r : Text) (list : Option (List Text × Option Nat)) (s : Ed) : Prop :=
  (∀ cs i, s.showCompletionsHint = some (cs, i) → cs ≠ [] ∧ ∀ n, i = some n → n < cs.length) ∧
  ((Tabs comp l r list none s.showCompletionsHint ∧ On e x [] l r s) ∨
    ∃ ps l' r', Tabs comp l r list (some (ps, l', r')) s.showCompletionsHint ∧ On e x ps (rest e l' r').1 (rest e l' r').2 s)

theorem rest_off {a w : Text} (h : e = true → r ≠ [] ∨ l = []) (hl : l = a ++ w) : rest e a r = (a, r) := by
  cases e with
  | false => exact rest_false ..
  | true => exact edge_rest ((h rfl).imp id fun hl' => by rw [hl'] at hl; exact (List.append_eq_nil_iff.mp hl.symm).1)

/-- Taking the part of the word before the cursor away and putting something in. -/
theorem On.replace (hw : E.words = getBufferWords) (h : On e x ps l r s) {a w1 w2 z : Text} (h1 : l = a ++ w1) (h2 : r = w2 ++ z)
    (ht : Touched a w1 w2 z) (he : e = true → r ≠ [] ∨ l = []) (c : Text) :
    Wp (do deleteWordBeforeCursor E false; insertCharsAfterCursor E c) s
    (fun _ s' => On e x ((if w1 = [] then [l ++ r] else [a ++ r, l ++ r]) ++ ps) (rest e (a ++ c) r).1 (rest e (a ++ c) r).2 s' ∧
      s'.showCompletionsHint = s.showCompletionsHint) (fun _ _ => True) (· ≠ .op) := by
  rw [wp_bind]
  refine wp_mono (On.drop E hw h h1 h2 ht he) (fun _ s1 h' => ?_) (fun _ _ h => h) (fun _ h => h)
  refine wp_mono (On.insert E h'.1 c) (fun _ s2 h2 => ⟨?_, h2.2.trans h'.2⟩) (fun _ _ h => h) (fun _ h => h)
  have := h2.1
  by_cases hn : w1 = []
  · subst hn
    simp only [if_true, List.append_nil] at this h1 ⊢
    subst h1
    exact this
  · simp only [if_neg hn] at this ⊢
    exact this

/-- Tab without a list. -/
theorem first_on (comp : Text → List Text) (hw : E.words = getBufferWords) (h : On e x [] l r s) (he : e = true → r ≠ [] ∨ l = [])
    (hh : s.showCompletionsHint = none) :
    Wp (completeFirst E comp) s (fun _ s' => Tabbed comp e x l r none s') (fun _ _ => True) (· ≠ .op) := by
  obtain ⟨a, w1, w2, z, hl, hr, ht⟩ := parts_ex l r
  obtain ⟨y, hy, -⟩ := h.line
  have hx := line_text h.here hy
  obtain ⟨hq, w, hwb, hwd, hwa⟩ := hy
  have hwd := hwd.trans hx
  obtain ⟨b0, hb0, hbd⟩ := text?_eq.mp h.here.here.1
  unfold completeFirst
  simp only [getWordBeforeCursor, wordsAndPos, wp_bind, wp_curBuf, wp_get, wp_pure]
  refine ⟨fun b' hb => ?_, fun hn => (by rw [hb0] at hn; cases hn)⟩
  rw [hb0] at hb; cases hb
  have hsep := C12_default_words_separated b0
  have hdiv := C11_words b0
  rw [hw, h.here.here.2]
  have hread : readWord (wordBefore (getBufferWords b0) (CursorPosition.get l.length (getBufferWords b0)) false) w
      = some (w1 ++ w2, w) := by
    rw [hbd, hl, hr] at hdiv
    rw [hl]
    rcases ht _ hdiv with ⟨_, hb⟩ | ⟨rfl, rfl, hb⟩
    · rw [(wordBefore_iff hsep _ _ _).mpr hb]
      have hwd' : w.data = a ++ w1 ++ (w2 ++ z) := by rw [hwd, ← hl, ← hr]
      simp only [readWord, Buffer.range, hwd']
      rw [if_pos (by simp)]
      simp only [List.append_assoc, List.drop_left, List.length_append, Nat.add_sub_cancel_left, Option.map_some]
      rw [← List.append_assoc, ← List.length_append, List.take_left]
    · rw [wordBefore_none hsep hb]
      rfl
  refine wp_curBufMut_of hwb hread ?_
  have h0 := h.taken hwb
  have hcs := sortDedup_spec (comp (w1 ++ w2))
  generalize hcse : sortDedup (comp (w1 ++ w2)) = cs at hcs
  split
  · rw [wp_modify]
    exact ⟨by simp, .inl ⟨.nothing hl hr ht hcs, h0.listed none⟩⟩
  · rename_i c
    rw [wp_bind, wp_modify]
    refine wp_mono (On.replace E hw (h0.listed none) hl hr ht he c) (fun _ s' h' => ?_) (fun _ _ h => h) (fun _ h => h)
    obtain ⟨h1, h2⟩ := h'
    have h2 : s'.showCompletionsHint = none := h2
    rw [List.append_nil] at h1
    exact ⟨by simp [h2], .inr ⟨_, _, _, by rw [h2]; exact .single hl hr ht hcs, h1⟩⟩
  · rename_i hne hne1
    have h2 : 2 ≤ cs.length := by
      match cs, hne, hne1 with
      | [], h, _ => exact absurd rfl h
      | [c], _, h => exact absurd rfl (h c)
      | _ :: _ :: _, _, _ => simp
    obtain ⟨p, hpre⟩ := common_ex h2
    rw [lcp_of h2 hpre]
    have shown : ¬ (w1 ++ w2 <+: p ∧ p ≠ w1 ++ w2) → Wp (do
          M.modify fun s => { s with showCompletionsHint := some (cs, none) }
          Editor.display E) (setCur s w) (fun _ s' => Tabbed comp e x l r none s') (fun _ _ => True) (· ≠ .op) := by
      intro hx
      rw [wp_bind, wp_modify]
      refine wp_mono (On.display E (h0.listed (some (cs, none)))) (fun _ s' h' => ?_) (fun _ _ h => h) (fun _ h => h)
      obtain ⟨g1, g2⟩ := h'
      have g2 : s'.showCompletionsHint = some (cs, none) := g2
      rw [rest_off (w := []) he (by simp)] at g1
      refine ⟨fun cs' i hc => ?_, .inl ⟨by rw [g2]; exact .choice hl hr ht hcs h2 hpre hx, g1⟩⟩
      rw [g2] at hc; cases hc
      exact ⟨hne, by simp⟩
    split
    · rename_i p' hp'
      split at hp'
      · cases hp'
      cases hp'
      split
      · rename_i hx
        rw [extends_iff] at hx
        refine wp_mono (On.replace E hw h0 hl hr ht he p) (fun _ s' h' => ?_) (fun _ _ h => h) (fun _ h => h)
        obtain ⟨g1, g2⟩ := h'
        rw [setCur_hint, hh] at g2
        rw [List.append_nil] at g1
        exact ⟨by simp [g2], .inr ⟨_, _, _, by rw [g2]; exact .longer hl hr ht hcs h2 hpre hx.1 hx.2, g1⟩⟩
      · rename_i hx
        rw [extends_iff] at hx
        exact shown hx
    · rename_i hp'
      split at hp'
      · rename_i e
        subst e
        exact shown (fun hx => hx.2 (List.prefix_nil.mp hx.1).symm)
      · cases hp'

/-- Tab with a list. -/
theorem next_on (comp : Text → List Text) (hw : E.words = getBufferWords) (h : On e x [] l r s) (he : e = true → r ≠ [] ∨ l = [])
    {cs : List Text} {i : Option Nat} (hh : s.showCompletionsHint = some (cs, i)) (hn : cs ≠ []) (hi : ∀ x, i = some x → x < cs.length) :
    Wp (complete E comp) s (fun _ s' => Tabbed comp e x l r (some (cs, i)) s') (fun _ _ => True) (· ≠ .op) := by
  unfold complete
  rw [wp_bind, wp_get, hh]
  dsimp only
  have hpos : 0 < cs.length := List.length_pos_iff.mpr hn
  obtain ⟨j, hj, hjn, hjl⟩ : ∃ j, j = Table.following cs.length i ∧
      nextCandidate cs.length i = some j ∧ j < cs.length := by
    refine ⟨_, rfl, ?_, ?_⟩
    · cases i with
      | none => rfl
      | some i =>
        have := hi i rfl
        simp only [nextCandidate, Table.following]
        rw [if_neg (by omega)]
        by_cases he : i + 1 = cs.length
        · simp [he]
        · rw [if_neg he, Nat.mod_eq_of_lt (by omega)]
    · cases i with
      | none => exact hpos
      | some i =>
        have := hi i rfl
        show (if i + 1 = cs.length then 0 else i + 1) < cs.length
        by_cases he : i + 1 = cs.length
        · rw [if_pos he]; exact hpos
        · rw [if_neg he]; omega
  have hc : cs[j]? = some cs[j] := List.getElem?_eq_getElem hjl
  unfold completeNext
  have h0 := h.listed none
  have fin : ∀ (ps : List Text) (l' r' : Text) (s1 : Ed), On e x ps (rest e l' r').1 (rest e l' r').2 s1 →
      Tabs comp l r (some (cs, i)) (some (ps, l', r')) (some (cs, some j)) →
      Wp (M.modify fun s : Ed => { s with showCompletionsHint := some (cs, some j) }) s1 (fun _ s' =>
        Wp (Editor.display E) s' (fun _ s' => Tabbed comp e x l r (some (cs, i)) s') (fun _ _ => True) (· ≠ .op)) (fun _ _ => True) (· ≠ .op) := by
    intro ps l' r' s1 h1 h2
    rw [wp_modify]
    refine wp_mono (On.display E (h1.listed (some (cs, some j)))) (fun _ s' h' => ?_) (fun _ _ h => h) (fun _ h => h)
    obtain ⟨g1, g2⟩ := h'
    have g2 : s'.showCompletionsHint = some (cs, some j) := g2
    rw [rest_rest] at g1
    refine ⟨fun cs' i hc => ?_, .inr ⟨ps, l', r', by rw [g2]; exact h2, g1⟩⟩
    rw [g2] at hc; cases hc
    exact ⟨hn, fun n hn => by cases hn; exact hjl⟩
  have del : (∀ x, i = some x → cs[x]? ≠ some (l ++ r)) → Wp (deleteWordBeforeCursor E false) { s with showCompletionsHint := none }
      (fun _ s' => Wp (M.ofOption cs[j]?) s' (fun c s' => Wp (insertCharsAfterCursor E c) s'
        (fun _ s' => Wp (M.modify fun s : Ed => { s with showCompletionsHint := some (cs, some j) }) s' (fun _ s' =>
          Wp (Editor.display E) s' (fun _ s' => Tabbed comp e x l r (some (cs, i)) s') (fun _ _ => True) (· ≠ .op))
          (fun _ _ => True) (· ≠ .op)) (fun _ _ => True) (· ≠ .op)) (fun _ _ => True) (· ≠ .op)) (fun _ _ => True) (· ≠ .op) := by
    intro hne
    obtain ⟨a, w1, w2, z, hl, hr, ht⟩ := parts_ex l r
    have h1 := On.replace E hw h0 hl hr ht he cs[j]
    rw [wp_bind] at h1
    refine wp_mono h1 (fun _ s1 h1 => ?_) (fun _ _ h => h) (fun _ h => h)
    rw [hc]
    show Wp (insertCharsAfterCursor E cs[j]) s1 _ _ _
    refine wp_mono h1 (fun _ s2 h2 => ?_) (fun _ _ h => h) (fun _ h => h)
    have h2 := h2.1
    rw [List.append_nil] at h2
    exact fin _ _ _ s2 h2 (.next hj hc hne hl hr ht)
  simp only [wp_bind]
  rw [wp_modify, hjn]
  show Wp (isWhole cs i) { s with showCompletionsHint := none } _ _ _
  cases i with
  | none =>
    show Wp (dropCandidate E false) _ _ _ _
    simp only [dropCandidate, Bool.false_eq_true, if_false]
    exact del (by simp)
  | some n =>
    have hx := hi n rfl
    obtain ⟨b0, hb0, hbd⟩ := text?_eq.mp h.here.here.1
    simp only [isWhole, wp_bind, wp_curBuf, wp_ofOption, wp_pure]
    refine ⟨fun b1 hb1 => ⟨fun c hcx => ?_, fun hcx => ?_⟩, fun hn => ?_⟩
    · have hb1 : s.curBuf? = some b1 := hb1
      rw [hb0] at hb1; cases hb1
      by_cases hwh : cs[n]? = some (l ++ r)
      · rw [hcx] at hwh
        cases hwh
        rw [show b0.eq (Buffer.ofText (l ++ r)) = true from by simp [Buffer.eq, Buffer.ofText, hbd]]
        simp only [dropCandidate, if_true]
        obtain ⟨y, hy, -⟩ := h0.line
        have hxt := line_text h0.here hy
        obtain ⟨hq, w, hwb, hwd, hwa⟩ := hy
        obtain ⟨b', k1, k2⟩ := C01_edits w (.truncate 0) [] (by simp [Edit.apply])
        have hf : (noRes fun b => b.truncate 0) w = some ((), b') := by simpa [noRes, runEdit] using k1
        rw [wp_bind]
        refine wp_curBufMut_of hwb hf ?_
        rw [wp_modify]
        refine ⟨fun c' e => ?_, fun hn => by rw [hc] at hn; cases hn⟩
        rw [hc] at e; cases e
        have h1 : On e x [l ++ r] [] [] _ := h0.set hwb (l' := []) (r' := []) k2 (oneEdit_truncate 0 _ _ _ hf)
        refine wp_mono (On.insert E h1 cs[j]) (fun _ s2 h2 => ?_) (fun _ _ h => h) (fun _ h => h)
        exact fin _ _ _ s2 h2.1 (.whole hj hc hcx)
      · rw [show b0.eq (Buffer.ofText c) = false from by
          rw [hcx] at hwh
          simp only [Buffer.eq, Buffer.ofText, hbd, beq_eq_false_iff_ne, ne_eq]
          exact fun h => hwh (congrArg some h.symm)]
        simp only [dropCandidate, Bool.false_eq_true, if_false]
        have := del (fun y hy => by cases hy; exact hwh)
        simp only [wp_ofOption] at this
        exact this
    · rw [List.getElem?_eq_getElem hx] at hcx; cases hcx
    · have hn : s.curBuf? = none := hn
      rw [hb0] at hn; cases hn

/-- Tab. -/
theorem complete_on (comp : Text → List Text) (hw : E.words = getBufferWords) (h : On e x [] l r s) (he : e = true → r ≠ [] ∨ l = [])
    (hf : ∀ cs i, s.showCompletionsHint = some (cs, i) → cs ≠ [] ∧ ∀ n, i = some n → n < cs.length) :
    Wp (complete E comp) s (fun _ s' => Tabbed comp e x l r s.showCompletionsHint s') (fun _ _ => True) (· ≠ .op) := by
  cases hh : s.showCompletionsHint with
  | none =>
    unfold complete
    rw [wp_bind, wp_get, hh]
    exact first_on E comp hw h he hh
  | some p =>
    obtain ⟨cs, i⟩ := p
    exact next_on E comp hw h he hh (hf cs i hh).1 (hf cs i hh).2

end

/-! ### Tab at the rack -/

section
variable (E : Env) {H : History} {nb hb : Buffer} {f : Shelf} {s : Ed}

/-- The line has become `tx` at the board. -/
theorem on_board {b : Board} {v : Vi} {x : Text × List Action} {ps : List Text} {tx : Text} {c : Nat} {t' : Vi × Ed}
    (hs : @Shows (onShelf H f nb hb) b (v, s)) (hx : Past b.full b.past x) (hvi : VI t') (q1 : t'.1 = v) (hc : c ≤ tx.length)
    (q2 : @On (onShelf H f nb hb) true x ps (tx.take c) (tx.drop c) t'.2) :
    @Shows (onShelf H f nb hb) { b with text := tx, cur := c, past := ps ++ b.past } t' := by
  have ho := @On.here (onShelf H f nb hb) _ _ _ _ _ _ q2
  obtain ⟨y, hy, ht⟩ := @On.line (onShelf H f nb hb) _ _ _ _ _ _ q2
  have hyt := @line_text (onShelf H f nb hb) _ _ _ _ _ ho hy
  rw [List.take_append_drop] at hyt
  exact @Shows.mk (onShelf H f nb hb) _ _ hvi (by rw [q1]; exact @Shows.stack (onShelf H f nb hb) _ _ hs) ho hc
    (by rw [q1]; exact @Shows.count (onShelf H f nb hb) _ _ hs)
    (by rw [q1]; exact @Shows.last (onShelf H f nb hb) _ _ hs) (by rw [q1]; exact @Shows.done (onShelf H f nb hb) _ _ hs)
    ⟨y, hy, hyt, ht.past hx⟩

/-- The same during an insertion. -/
theorem on_pen {p : Pen} {full : Bool} {last : Option (Char × CharMovement)} {v : Vi} {x : Text × List Action} {ps : List Text} {l r : Text}
    {t' : Vi × Ed} (hi : @Inks (onShelf H f nb hb) p full last (v, s)) (hx : ∀ w, workBuf s = some w → x = (w.data, w.actions))
    (q1 : t'.1 = v) (q2 : @On (onShelf H f nb hb) false x ps l r t'.2) :
    @Inks (onShelf H f nb hb) { p with left := l, right := r } full last t' := by
  have ho := @On.here (onShelf H f nb hb) _ _ _ _ _ _ q2
  obtain ⟨y, ⟨-, w', hw', hd, ha⟩, ht⟩ := @On.line (onShelf H f nb hb) _ _ _ _ _ _ q2
  obtain ⟨b0, h0, w, es0, g1, g2, g3, g4⟩ := @Inks.log (onShelf H f nb hb) _ _ _ _ hi
  obtain rfl := hx w g1
  obtain ⟨es, q4, q5, q6⟩ := ht.log
  exact @Inks.mk (onShelf H f nb hb) _ _ _ _ (by rw [q1]; exact @Inks.stack (onShelf H f nb hb) _ _ _ _ hi) ho
    (by rw [q1]; exact @Inks.moved (onShelf H f nb hb) _ _ _ _ hi) (by rw [q1]; exact @Inks.last (onShelf H f nb hb) _ _ _ _ hi)
    (by rw [q1]; exact @Inks.record (onShelf H f nb hb) _ _ _ _ hi) (by rw [q1]; exact @Inks.more (onShelf H f nb hb) _ _ _ _ hi)
    (by rw [q1]; exact @Inks.plain (onShelf H f nb hb) _ _ _ _ hi) (@Inks.kept (onShelf H f nb hb) _ _ _ _ hi :)
    (@Inks.types (onShelf H f nb hb) _ _ _ _ hi :) (by rw [q1]; exact @Inks.times (onShelf H f nb hb) _ _ _ _ hi)
    ⟨b0, h0, w', es ++ es0, hw', g2.append q4, by rw [ha, q5, g3, List.append_assoc], by rw [hd]; exact g4.append q6⟩

/-- The list of candidates is one. -/
def Listed (list : Option (List Text × Option Nat)) : Prop := ∀ cs i, list = some (cs, i) → cs ≠ [] ∧ ∀ n, i = some n → n < cs.length

/-- Tab. -/
theorem tab_press {v : Vi} {c : Text → List Text} {e : Bool} {x : Text × List Action} {l r : Text} (hw : E.words = getBufferWords)
    (h : @On (onShelf H f nb hb) e x [] l r s) (he : e = true → r ≠ [] ∨ l = []) (hl : Listed s.showCompletionsHint) :
    Wp (Spec.press keyMap E [(.char '\t', c)]) (v, s) (fun _ t' => t'.1 = v ∧ @Tabbed (onShelf H f nb hb) c e x l r s.showCompletionsHint t'.2)
      T2 (· ≠ .op) := by
  obtain ⟨b, hb', -⟩ := text?_eq.mp (@Open.here (onShelf H f nb hb) _ _ _ _ (@On.here (onShelf H f nb hb) _ _ _ _ _ _ h)).1
  have ht : KeyMap.translate (.char '\t') = .char '\t' := by decide
  unfold Spec.press
  rw [wp_bind, wp_congr (handleKey_eq keyMap E c (t := (v, s)) hb' _), wp_bind, ht, wp_congr (dispatch_tab keyMap E c (v, s)), wp_bind, wp_ed]
  refine wp_mono (@complete_on (onShelf H f nb hb) E _ _ _ _ _ c hw h he hl) (fun _ s1 h1 => ?_) (fun _ _ h => h) (fun _ h => h)
  rw [wp_pure, wp_bind, wp_ed, wp_flush]
  refine ⟨fun _ => ⟨rfl, h1.1, ?_⟩, fun _ => trivial⟩
  have tick : ∀ {ps : List Text} {l r : Text} (n : Nat), @On (onShelf H f nb hb) e x ps l r s1 →
      @On (onShelf H f nb hb) e x ps l r { s1 with tick := n } := fun n h => by
    obtain ⟨y, hy, ht⟩ := @On.line (onShelf H f nb hb) _ _ _ _ _ _ h
    exact @On.mk (onShelf H f nb hb) _ _ _ _ _ _ (@open_same (onShelf H f nb hb) _ _ _ _ _ (@On.here (onShelf H f nb hb) _ _ _ _ _ _ h) rfl rfl rfl rfl
      ⟨rfl, rfl, rfl, rfl, fun _ => rfl, rfl, id, fun _ => rfl⟩) ⟨y, hy, ht⟩
  rcases h1.2 with ⟨g1, g2⟩ | ⟨ps, l', r', g1, g2⟩
  · exact .inl ⟨g1, tick _ g2⟩
  · exact .inr ⟨ps, l', r', g1, tick _ g2⟩

theorem tab_rack {r : Rack} {t : Vi × Ed} {c : Text → List Text} (C : CharClass) (hw : E.words = getBufferWords) (hr : Racked H r nb hb t)
    (hl : Listed t.2.showCompletionsHint) :
    Wp (Spec.press keyMap E [(.char '\t', c)]) t (fun _ t' => (∃ r', Tray.Step C (texts H) (.tab c) ⟨r, t.2.showCompletionsHint⟩
      ⟨r', t'.2.showCompletionsHint⟩ ∧ Racked H r' nb hb t') ∧ Listed t'.2.showCompletionsHint) T2 (· ≠ .op) := by
  obtain ⟨v, s⟩ := t
  obtain ⟨hd, f⟩ := r
  cases hd with
  | board b =>
    have hs : @Shows (onShelf H f nb hb) b (v, s) := hr.hand
    have ho := @Shows.here (onShelf H f nb hb) _ _ hs
    have hvi0 := @Shows.vi (onShelf H f nb hb) _ _ hs
    obtain ⟨y, hy, hyt, hpast⟩ := @Shows.line (onShelf H f nb hb) _ _ hs
    refine wp_mono (wp_and (tab_press E (x := y) hw (@On.mk (onShelf H f nb hb) _ _ _ _ _ _ ho ⟨y, hy, .nil⟩) (fun _ => @edge_of (onShelf H f nb hb) _ _ _ hvi0 ho) hl)
      (kvi_press E [(.char '\t', c)] (v, s) hvi0)) (fun _ t' h' => ?_) (fun _ _ _ => trivial) (fun _ h => h.1)
    obtain ⟨⟨q1, q2, q3⟩, hvi⟩ := h'
    refine ⟨?_, q2⟩
    rcases q3 with ⟨g1, g2⟩ | ⟨ps, l', r', g1, g2⟩
    · exact ⟨_, .same g1, hr.fine, hr.leaf, hr.copy, on_board hs hpast hvi q1 (@Shows.cur (onShelf H f nb hb) _ _ hs) g2⟩
    · refine ⟨_, .tab g1, hr.fine, hr.leaf, hr.copy, ?_⟩
      have hat := rest_at (t := l' ++ r') (q := l'.length) (by simp)
      rw [List.take_left, List.drop_left] at hat
      rw [hat] at g2
      exact on_board hs hpast hvi q1 (Nat.le_trans (Nat.min_le_left _ _) (by simp)) g2
  | pen p full last =>
    obtain ⟨hvi0, hi⟩ : VI (v, s) ∧ @Inks (onShelf H f nb hb) p full last (v, s) := hr.hand
    have ho := @Inks.here (onShelf H f nb hb) _ _ _ _ hi
    obtain ⟨b0, h0, w, es0, g1, g2, g3, g4⟩ := @Inks.log (onShelf H f nb hb) _ _ _ _ hi
    refine wp_mono (wp_and (tab_press E (x := (w.data, w.actions)) hw (@On.mk (onShelf H f nb hb) _ _ _ _ _ _ ho
        ⟨_, ⟨@Open.quiet (onShelf H f nb hb) _ _ _ _ ho, w, g1, rfl, rfl⟩, .nil⟩) (fun h => (by cases h)) hl)
      (kvi_press E [(.char '\t', c)] (v, s) hvi0)) (fun _ t' h' => ?_) (fun _ _ _ => trivial) (fun _ h => h.1)
    obtain ⟨⟨q1, q2, q3⟩, hvi⟩ := h'
    refine ⟨?_, q2⟩
    have hx : ∀ w', workBuf s = some w' → (w.data, w.actions) = (w'.data, w'.actions) := fun w' hw' => by
      dsimp only at g1
      rw [g1] at hw'; cases hw'; rfl
    rcases q3 with ⟨g1, g2⟩ | ⟨ps, l', r', g1, g2⟩
    · exact ⟨_, .same g1, hr.fine, hr.leaf, hr.copy, hvi, on_pen hi hx q1 g2⟩
    · rw [rest_false] at g2
      exact ⟨_, .tab g1, hr.fine, hr.leaf, hr.copy, hvi, on_pen hi hx q1 g2⟩

theorem Racked.unlisted {r : Rack} {v : Vi} (h : Racked H r nb hb (v, s)) (c : Option (List Text × Option Nat)) (n : Nat) :
    Racked H r nb hb (v, { s with showCompletionsHint := c, tick := n }) := by
  obtain ⟨hd, f⟩ := r
  have same : ∀ {e : Bool} {l r : Text}, @Open (onShelf H f nb hb) e s l r → @Open (onShelf H f nb hb) e { s with showCompletionsHint := c, tick := n } l r :=
    fun h => @open_same (onShelf H f nb hb) _ _ _ _ _ h rfl rfl rfl rfl ⟨rfl, rfl, rfl, rfl, fun _ => rfl, rfl, id, fun _ => rfl⟩
  have hv : VI (v, s) → VI (v, { s with showCompletionsHint := c, tick := n }) := fun h => ⟨h.stack, h.esc, h.eol, h.rests, h.shown⟩
  refine ⟨h.fine, h.leaf, h.copy, ?_⟩
  cases hd with
  | board b =>
    have hs : @Shows (onShelf H f nb hb) b (v, s) := h.hand
    obtain ⟨h1, h2, h3, h4, h5, h6, h7, x, hx, h8⟩ := hs
    exact @Shows.mk (onShelf H f nb hb) _ _ (hv h1) h2 (same h3) h4 h5 h6 h7 ⟨x, hx, h8⟩
  | pen p full last =>
    obtain ⟨hvi, hi⟩ : VI (v, s) ∧ @Inks (onShelf H f nb hb) p full last (v, s) := h.hand
    obtain ⟨h1, h2, h3, h4, h5, h6, h7, h8, h9, h10, h11⟩ := hi
    exact ⟨hv hvi, @Inks.mk (onShelf H f nb hb) _ _ _ _ h1 (same h2) h3 h4 h5 h6 h7 h8 h9 h10 h11⟩

/-- Enter takes the list away. -/
theorem shut_rack {r : Rack} {t : Vi × Ed} {c : Text → List Text} (hr : Racked H r nb hb t) (hn : t.2.showCompletionsHint ≠ none) :
    Wp (keyMap.handleKey E c (.char '\n')) t (fun done t' => done = false ∧ t'.2.showCompletionsHint = none ∧
      Racked H ⟨r.hand, r.shelf.quit⟩ nb hb t') T2 (· ≠ .op) := by
  obtain ⟨v, s⟩ := t
  obtain ⟨e, ho⟩ := hr.here
  obtain ⟨b, hb', -⟩ := text?_eq.mp (@Open.here (onShelf H r.shelf nb hb) _ _ _ _ ho).1
  have ht : KeyMap.translate (.char '\n') = .char '\n' := by decide
  rw [wp_congr (handleKey_eq keyMap E c (t := (v, s)) hb' _), wp_bind, ht, wp_congr (dispatch_newline keyMap E c (v, s)), wp_ed,
    newline_run E (@Open.quiet (onShelf H r.shelf nb hb) _ _ _ _ ho)]
  unfold Wp
  rw [finish_listed E (s := Editor.quiet s) hn]
  dsimp only
  show Wp (do ed (flush E); pure false : KM Vi Bool) (v, { Editor.quiet s with showCompletionsHint := none }) _ _ _
  rw [wp_bind, wp_ed, wp_flush]
  exact ⟨fun _ => ⟨rfl, rfl, hr.quit.unlisted none _⟩, fun _ => trivial⟩

/-! ### What stays of the list -/

/-- A key that the key map sees takes the list away. -/
theorem seen_keeps {k : Key} (h : Seen s k) : ¬ keeps s k := by
  rintro (h1 | h1 | h1 | ⟨h1, h2, h3⟩)
  · exact h.searchR h1
  · exact h.searchS h1
  · exact h.accept h1
  · refine h.right ⟨h1, h2, ?_⟩
    unfold cursorIsAtEndOfLine at h3
    cases hb : s.curBuf? with
    | none =>
      simp [Bind.bind, M.bind, curBuf, hb] at h3
    | some b =>
      rw [bind_ok (m := curBuf) (a := b) (s' := s) (by unfold curBuf; simp [hb]), bind_ok (m := M.get) (a := s) (s' := s) rfl] at h3
      refine ⟨b.data, text?_eq.mpr ⟨b, hb, rfl⟩, ?_⟩
      cases hn : s.noEol with
      | true =>
        rw [hn, if_pos rfl] at h3
        split at h3
        · cases h3
        · rename_i h0
          have : decide (s.cursor = b.numChars - 1) = true := by injection h3
          have h4 := of_decide_eq_true this
          unfold Buffer.numChars at h0 h4
          simp only [if_true]
          omega
      | false =>
        rw [hn, if_neg (by simp)] at h3
        have : decide (s.cursor = b.numChars) = true := by injection h3
        have h4 := of_decide_eq_true this
        unfold Buffer.numChars at h4
        simp only [Bool.false_eq_true, if_false]
        omega

/-- If the first key takes it away, there is none. -/
theorem shut_first {k : Key} {c : Text → List Text} {kcs : List (Key × (Text → List Text))} {t : Vi × Ed} (hk : Seen t.2 k)
    (ht : ∀ x ∈ kcs, x.1 ≠ .char '\t') :
    Wp (Spec.press keyMap E ((k, c) :: kcs)) t (fun _ t' => t'.2.showCompletionsHint = none) T2 (fun _ => True) := by
  unfold Spec.press
  rw [wp_bind]
  exact wp_mono (key_list E c keyMap t hk.tab) (fun _ t1 h1 => press_dry E kcs t1 ht (h1.2 (seen_keeps hk))) (fun _ _ _ => trivial) (fun _ h => h)

theorem motion_first {last : Option (Char × CharMovement)} {m : Motion} {ks : List Key} (h : ks ∈ m.keys last) : ks ≠ [] := by
  rintro rfl
  cases m <;> simp [Motion.keys] at h

/-- The first key of a command. -/
theorem command_seen [Around] {C : CharClass} {b : Board} {c : Command} {t : Vi × Ed} (hs : Shows b t) (h : b.Can C c)
    (he : .char '\n' ∉ c.keys) : ∃ k ks, c.keys = k :: ks ∧ Seen t.2 k := by
  have first : ∀ ks : List Key, ks ≠ [] → (∀ k ∈ ks, ∀ s, Seen s k) → ∃ k ks', ks = k :: ks' ∧ Seen t.2 k := by
    intro ks hn hs
    cases ks with
    | nil => exact absurd rfl hn
    | cons k ks => exact ⟨k, ks, rfl, hs k List.mem_cons_self _⟩
  cases c with
  | enter => simp [Command.keys] at he
  | write op ds ks =>
    obtain ⟨k, ks', h1, h2⟩ := first (op.keys ds) (by cases op <;> simp [Opening.keys]) (opening_seen h.1 h.2.1)
    exact ⟨k, ks' ++ ks ++ [.esc], by simp [Command.keys, h1], h2⟩
  | digit d => exact ⟨_, _, rfl, seen_digit h⟩
  | move m ks =>
    rcases h with h | ⟨-, rfl, h⟩
    · exact first ks (motion_first h) (motion_seen h)
    · refine ⟨_, _, rfl, right_seen hs.here ?_⟩
      show 1 < (b.text.drop b.cur).length
      rw [List.length_drop]
      omega
  | make ch ds => exact first (ch.keys ds) (by cases ch <;> simp [Change.keys]) (change_seen h.1 h.2)
  | clear ds => exact ⟨_, _, rfl, seen_char (by decide) (by decide)⟩
  | edge last => cases last <;> exact ⟨_, _, rfl, by constructor <;> simp⟩
  | giveUp c ds =>
    refine ⟨_, _, rfl, ?_⟩
    rcases h with ⟨rfl, -⟩ | ⟨h, -⟩
    · exact seen_char (by decide) (by decide)
    · simp only [List.mem_cons, List.not_mem_nil, or_false] at h
      rcases h with rfl | rfl | rfl | rfl | rfl | rfl <;> exact seen_char (by decide) (by decide)
  | inert k => exact ⟨_, _, rfl, inert_seen h _⟩
  | again => exact ⟨_, _, rfl, seen_char (by decide) (by decide)⟩
  | undo => exact ⟨_, _, rfl, seen_char (by decide) (by decide)⟩
  | cancel => exact ⟨_, _, rfl, seen_esc⟩

theorem take_keeps {right : Bool} {l r : Text} {e : Bool} (h : At s l r) (hne0 : s.noEol = e) (hs : s.autosuggestion.isSome = true)
    (hr : right = true → (e = true → r.length = 1) ∧ (e = false → r = [])) : keeps s (takeKey right) := by
  cases right with
  | false => exact .inr (.inr (.inl ⟨rfl, hs⟩))
  | true =>
    obtain ⟨hr1, hr2⟩ := hr rfl
    have hne : ¬ (s.noEol = true ∧ l ++ r = []) := by
      rintro ⟨h1, h2⟩
      have := hr1 (hne0 ▸ h1)
      simp_all
    obtain ⟨a, e1, e2⟩ := atEnd_run h.1 hne
    have ha : a = true := by
      rw [e2]
      unfold Furthest
      rw [hne0, h.2]
      cases e with
      | true => have := hr1 rfl; simp [this]
      | false => have := hr2 rfl; simp [this]
    subst ha
    exact .inr (.inr (.inr ⟨rfl, hs, e1⟩))

theorem keep_list {k : Key} {c : Text → List Text} {t : Vi × Ed} (hk : keeps t.2 k) (ht : k ≠ .char '\t') :
    Wp (Spec.press keyMap E [(k, c)]) t (fun _ t' => t'.2.showCompletionsHint = t.2.showCompletionsHint) T2 (fun _ => True) := by
  unfold Spec.press
  rw [wp_bind]
  exact wp_mono (key_list E c keyMap t ht) (fun _ t1 h1 => h1.1 hk) (fun _ _ _ => trivial) (fun _ h => h)

theorem seek_list : ∀ {fs : List Bool} {kcs : List (Key × (Text → List Text))} {t : Vi × Ed}, kcs.map Prod.fst = fs.map seekKey →
    Wp (Spec.press keyMap E kcs) t (fun _ t' => t'.2.showCompletionsHint = t.2.showCompletionsHint) T2 (fun _ => True)
  | [], kcs, t, h => by
    obtain rfl : kcs = [] := by simpa using h
    exact rfl
  | f :: fs, kcs, t, h => by
    obtain ⟨⟨k', comp⟩, ks, rfl, h1, h2⟩ := List.map_eq_cons_iff.mp h
    dsimp only at h1
    subst h1
    refine (wp_congr (presses_append E [(seekKey f, comp)] ks t)).mpr ?_
    rw [wp_bind]
    refine wp_mono (keep_list E (k := seekKey f) (by cases f <;> simp [keeps, seekKey]) (by cases f <;> simp [seekKey])) (fun _ t1 h1 => ?_)
      (fun _ _ h => h) (fun _ h => h)
    exact wp_mono (seek_list h2) (fun _ t2 h2 => h2.trans h1) (fun _ _ h => h) (fun _ h => h)

/-- What keys during a search leave of the list. -/
theorem hunts_list [Around] {d : Bool} {full : Bool} {last : Option (Char × CharMovement)}
    (hok : ∀ s : Ed, s.history = H → s.curHistoryLoc = none → s.histBuf = hb → Around.ok (Editor.quiet s)) :
    ∀ (more : List Key) {pen : Pen} {k : Option Nat} {t : Vi × Ed} {kcs : List (Key × (Text → List Text))},
    Seeking H d t.2.newBuf hb false t.2.cursor k t.2 → Inks pen full last (t.1, Editor.quiet t.2) → Hunts.Can (texts H) d more (pen, k) →
    kcs.map Prod.fst = more →
    Wp (Spec.press keyMap E kcs) t (fun _ t' => t'.2.showCompletionsHint =
      if more.all (fun k => k = seekKey true ∨ k = seekKey false) then t.2.showCompletionsHint else none) T2 (fun _ => True)
  | [], pen, k, t, kcs, h, hi, _, hk => by
    obtain rfl : kcs = [] := by simpa using hk
    exact rfl
  | key :: more, pen, k, t, kcs, h, hi, hc, hk => by
    have hus := hunt_usual hc
    obtain ⟨⟨k', comp⟩, ks, rfl, h1, h2⟩ := List.map_eq_cons_iff.mp hk
    dsimp only at h1 h hi
    subst h1
    have hc0 := hc
    obtain ⟨hc1, hc2⟩ := hc
    rcases hc1 with ⟨f, rfl⟩ | ⟨hw, hr⟩
    · refine (wp_congr (presses_append E [(seekKey f, comp)] ks t)).mpr ?_
      rw [wp_bind]
      refine wp_mono (wp_and (hunt_presses E hok [seekKey f] h hi ⟨.inl ⟨f, rfl⟩, fun _ _ => trivial⟩ (kcs := [(seekKey f, comp)]) rfl)
        (keep_list E (k := seekKey f) (by cases f <;> simp [keeps, seekKey]) (by cases f <;> simp [seekKey])))
        (fun _ t1 ⟨⟨p1, k1, g1, g2, g3⟩, g4⟩ => ?_) (fun _ _ _ => trivial) (fun _ _ => trivial)
      refine wp_mono (hunts_list hok more g2 g3 (hc2 _ g1) h2) (fun _ t2 e => e.trans ?_) (fun _ _ h => h) (fun _ h => h)
      rw [g4, List.all_cons]
      have : decide (seekKey f = seekKey true ∨ seekKey f = seekKey false) = true := by cases f <;> simp
      rw [this, Bool.true_and]
    · have hse : Seen t.2 k' := by
        rcases hw with hk | hk | hk
        · exact types_seen hk t.2
        · have := moves_seen (s := Editor.quiet t.2) hk hi.here fun e => .inl (hr e)
          exact ⟨this.1, this.2, this.3, this.4, this.5, this.6, this.7, this.8, this.9⟩
        · exact inert_seen hk t.2
      have hno : decide (k' = seekKey true ∨ k' = seekKey false) = false := by
        rw [decide_eq_false_iff_not]
        rintro (e | e) <;> exact seek_writing _ (e ▸ hw)
      refine wp_mono (shut_first E hse fun x hx => ?_) (fun _ t2 e => e.trans ?_) (fun _ _ h => h) (fun _ h => h)
      · exact (hus x.1 (List.mem_cons_of_mem _ (h2 ▸ List.mem_map_of_mem hx))).tab
      · rw [List.all_cons, hno]; rfl

theorem quest_list {p : Pen} {full : Bool} {last : Option (Char × CharMovement)} {t : Vi × Ed} {forward : Bool} {more : List Key}
    {kcs : List (Key × (Text → List Text))} (hu : H.share = false) (hr : Racked H ⟨.pen p full last, f⟩ nb hb t) (hh : Hinted t.2) (hf : f.shown = none)
    (hc : Hunts.Can (texts H) forward more (f.hunt (texts H) p forward)) (hks : kcs.map Prod.fst = seekKey forward :: more) :
    Wp (Spec.press keyMap E kcs) t (fun _ t' => t'.2.showCompletionsHint =
      if more.all (fun k => k = seekKey true ∨ k = seekKey false) then t.2.showCompletionsHint else none) T2 (fun _ => True) := by
  obtain ⟨⟨k', comp⟩, ks, rfl, h1, h2⟩ := List.map_eq_cons_iff.mp hks
  dsimp only at h1
  subst h1
  refine (wp_congr (presses_append E [(seekKey forward, comp)] ks t)).mpr ?_
  rw [wp_bind]
  refine wp_mono (wp_and (quest_begins E hu hr hh hf)
    (keep_list E (k := seekKey forward) (by cases forward <;> simp [keeps, seekKey]) (by cases forward <;> simp [seekKey])))
    (fun _ t1 ⟨⟨g1, g2⟩, g3⟩ => ?_) (fun _ _ _ => trivial) (fun _ _ => trivial)
  refine wp_mono (@hunts_list E H hb (onShelf H f.quit nb hb) forward full last
    (fun s h1 h2 h3 => ⟨h1, h2.trans hf.symm, rfl, rfl, fun h => absurd hf h, fun _ => h3⟩) more p _ t1 ks g1 g2 hc h2)
    (fun _ t' e => e.trans (by rw [g3])) (fun _ _ h => h) (fun _ h => h)

/-- Where the cursor is at the end of the line. -/
theorem Racked.atEnd {r : Rack} {t : Vi × Ed} (hr : Racked H r nb hb t) (ha : r.hand.AtEnd) :
    (t.2.noEol = true → r.hand.right.length = 1) ∧ (t.2.noEol = false → r.hand.right = []) := by
  obtain ⟨hd0, f⟩ := r
  cases hd0 with
  | board b =>
    have : t.2.noEol = true := @Open.ne (onShelf H f nb hb) _ _ _ _ (@Shows.here (onShelf H f nb hb) _ _ hr.hand)
    exact ⟨fun _ => ha, fun h => (by rw [this] at h; cases h)⟩
  | pen p full last =>
    have : t.2.noEol = false := @Open.ne (onShelf H f nb hb) _ _ _ _ (@Inks.here (onShelf H f nb hb) _ _ _ _ hr.hand.2)
    exact ⟨fun h => (by rw [this] at h; cases h), fun _ => ha⟩

theorem pen_seen {p : Pen} {full : Bool} {last : Option (Char × CharMovement)} {t : Vi × Ed} {k : Key}
    (hi : @Inks (onShelf H f nb hb) p full last t) (hh : Hinted t.2) (hk : WritingKey k)
    (hright : k = .right → p.right ≠ [] ∨ (f.shown = none ∧ Spec.hint (texts H) p.text = none)) : Seen t.2 k := by
  rcases hk with hk | hk | hk
  · exact types_seen hk _
  · refine @moves_seen (onShelf H f nb hb) _ _ _ _ hk (@Inks.here (onShelf H f nb hb) _ _ _ _ hi) fun e => ?_
    refine (hright e).imp id fun ⟨hf, hx⟩ => ?_
    have := taken hh (@Inks.here (onShelf H f nb hb) _ _ _ _ hi) hf
    rw [show Spec.hint (texts H) (p.left ++ p.right) = none from hx] at this
    exact Option.map_eq_none_iff.mp this
  · exact inert_seen hk _

/-- What an act leaves of the list. -/
theorem act_list (hu : H.share = false) {C : CharClass} {a : Act} {r : Rack} {t : Vi × Ed} {kcs : List (Key × (Text → List Text))}
    (hr : Racked H r nb hb t) (hh : Hinted t.2) (hn : a = .enter → t.2.showCompletionsHint = none) (hc : r.Can C (texts H) a) (hks : kcs.map Prod.fst = a.keys) :
    Wp (Spec.press keyMap E kcs) t (fun _ t' => t'.2.showCompletionsHint = if a.keeps then t.2.showCompletionsHint else none) T2 T1 := by
  have one : ∀ k, a.keys = [k] → ∃ c, kcs = [(k, c)] := by
    intro k hk
    rw [hk, List.map_eq_singleton_iff] at hks
    obtain ⟨⟨k', c⟩, rfl, hk'⟩ := hks
    exact ⟨c, by rw [← hk']⟩
  have shut : ∀ k ks, kcs.map Prod.fst = k :: ks → Seen t.2 k → (∀ x ∈ ks, x ≠ .char '\t') →
      Wp (Spec.press keyMap E kcs) t (fun _ t' => t'.2.showCompletionsHint = none) T2 (fun _ => True) := by
    intro k ks h1 h2 h3
    obtain ⟨⟨k', c⟩, kcs', rfl, rfl, h4⟩ := List.map_eq_cons_iff.1 h1
    exact shut_first E h2 fun x hx => h3 _ (h4 ▸ List.mem_map_of_mem hx)
  have first : ∀ k, a.keys = [k] → Seen t.2 k → Wp (Spec.press keyMap E kcs) t (fun _ t' => t'.2.showCompletionsHint = none) T2 (fun _ => True) :=
    fun k h1 h2 => shut k [] (hks.trans h1) h2 (by simp)
  obtain ⟨hd, f⟩ := r
  cases a with
  | command c =>
    obtain ⟨b, rfl, hcan, hne⟩ := hc
    obtain ⟨k, ks, h1, h2⟩ := @command_seen (onShelf H f nb hb) _ _ _ _ hr.hand hcan hne
    exact shut k ks (hks.trans h1) h2 fun x hx => command_tab hcan x (by rw [h1]; exact List.mem_cons_of_mem _ hx)
  | begin op ds =>
    obtain ⟨b, rfl, hd, hcan⟩ := hc
    exact opens_shut E hd hcan hks
  | key k =>
    obtain ⟨p, full, last, rfl, hk, hright⟩ := hc
    obtain ⟨hvi, hi⟩ : VI t ∧ @Inks (onShelf H f nb hb) p full last t := hr.hand
    exact first k rfl (pen_seen hi hh hk hright)
  | leave => exact first _ rfl seen_esc
  | enter =>
    obtain ⟨c, rfl⟩ := one _ rfl
    exact press_dry E _ _ (by simp) (hn rfl)
  | turn up letter =>
    obtain ⟨k, hk⟩ : ∃ k, (Act.turn up letter).keys = [k] := by cases up <;> cases letter <;> exact ⟨_, rfl⟩
    exact first k hk (turn_seen up letter hk _)
  | take right =>
    obtain ⟨c, rfl⟩ := one _ rfl
    obtain ⟨hf, hne, hat⟩ := hc
    obtain ⟨e, ho⟩ := hr.here
    have htk := taken hh ho hf
    obtain ⟨x, hx⟩ := Option.ne_none_iff_exists'.mp hne
    rw [show Spec.hint (texts H) (hd.left ++ hd.right) = some x from hx, Option.map_eq_some_iff] at htk
    obtain ⟨X, hX, -⟩ := htk
    exact keep_list E (take_keeps (@Open.here (onShelf H f nb hb) _ _ _ _ ho) rfl (by rw [hX]; rfl) fun e => hr.atEnd (hat e)) (by cases right <;> simp [takeKey])
  | search forward more right =>
    obtain ⟨ks, k1, rfl, h1, h2⟩ := List.map_eq_append_iff.1 hks
    rw [List.map_eq_singleton_iff] at h2
    obtain ⟨⟨k', c⟩, rfl, hk'⟩ := h2
    dsimp only at hk'
    subst hk'
    obtain ⟨hf, hne, hat⟩ := hc
    obtain ⟨e, ho⟩ := hr.here
    obtain ⟨x, hx⟩ := Option.ne_none_iff_exists'.mp hne
    obtain ⟨hd', hl, hseek⟩ := seek_rack E hu hr hh hf h1
    refine (wp_congr (presses_append E ks [(takeKey right, c)] t)).mpr ?_
    rw [wp_bind]
    refine wp_mono (wp_and hseek (seek_list E h1)) (fun _ t1 ⟨⟨g1, g2, g3⟩, g4⟩ => ?_) (fun _ _ _ => trivial) (fun _ _ => trivial)
    rw [hx, Option.map_eq_some_iff] at g2
    obtain ⟨X, hX, -⟩ := g2
    have hat1 : At t1.2 hd.left hd.right :=
      ⟨text?_eq.mpr ⟨_, g3.buf, hd'⟩, g3.cursor.trans (@Open.here (onShelf H f nb hb) _ _ _ _ ho).2⟩
    exact wp_mono (keep_list E (take_keeps hat1 g3.ne (by rw [hX]; rfl) fun e => hr.atEnd (hat e)) (by cases right <;> simp [takeKey]))
      (fun _ t2 h2 => h2.trans g4) (fun _ _ h => h) (fun _ h => h)
  | quest forward more right =>
    obtain ⟨ks, k1, rfl, h1, h2⟩ := List.map_eq_append_iff.1 hks
    rw [List.map_eq_singleton_iff] at h2
    obtain ⟨⟨k', c⟩, rfl, hk'⟩ := h2
    dsimp only at hk'
    subst hk'
    obtain ⟨p, full, last, rfl, hf, hcan, hend⟩ := hc
    refine (wp_congr (presses_append E ks [(takeKey right, c)] t)).mpr ?_
    rw [wp_bind]
    refine wp_mono (wp_and (quest_runs E hu hr hh hf hcan h1) (quest_list E hu hr hh hf hcan h1)) (fun _ t1 ⟨⟨p', k', g1, g2, g3, g4⟩, g5⟩ => ?_) (fun _ _ _ => trivial) (fun _ _ => trivial)
    obtain ⟨hx, hat⟩ := hend _ g1
    obtain ⟨x, hx⟩ := Option.ne_none_iff_exists'.mp hx
    have hX : t1.2.autosuggestion.map (·.data) = quarry (texts H) (p', k') := by rw [g2.sel, g3]; rfl
    rw [hx, Option.map_eq_some_iff] at hX
    obtain ⟨X, hX, -⟩ := hX
    have ho := @Inks.here (onShelf H f.quit nb hb) _ _ _ _ g4
    have hat1 : At t1.2 p'.left p'.right :=
      ⟨text?_eq.mpr ⟨_, g2.buf, g3⟩, (@Open.here (onShelf H f.quit nb hb) _ _ _ _ ho).2⟩
    exact wp_mono (keep_list E (take_keeps hat1 g2.ne (by rw [hX]; rfl) fun e => ⟨fun h => (by cases h), fun _ => hat e⟩) (by cases right <;> simp [takeKey]))
      (fun _ t2 h2 => h2.trans g5) (fun _ _ h => h) (fun _ h => h)

/-! ### Anything -/

/-- One act; the list may be there. -/
theorem act_over (hC : Apart E.cc) (hu : H.share = false) {a : Act} {r : Rack} {t : Vi × Ed}
    {kcs : List (Key × (Text → List Text))} (hr : Racked H r nb hb t) (hh : Hinted t.2) (hn : a = .enter → t.2.showCompletionsHint = none)
    (hc : r.Can E.cc (texts H) a) (hks : kcs.map Prod.fst = a.keys) :
    Wp (Spec.press keyMap E kcs) t (fun _ t' => ∃ r' nb' hb', Rack.Step E.cc (texts H) a r r' ∧ Racked H r' nb' hb' t') T2 (· ≠ .op) := by
  obtain ⟨h, f⟩ := r
  have one : ∀ k, a.keys = [k] → ∃ c, kcs = [(k, c)] := by
    intro k hk
    rw [hk, List.map_eq_singleton_iff] at hks
    obtain ⟨⟨k', c⟩, rfl, hk'⟩ := hks
    exact ⟨c, by rw [← hk']⟩
  cases a with
  | command c =>
    obtain ⟨b, rfl, hcan, hne⟩ := hc
    exact wp_mono (@board_step (onShelf H f nb hb) E b c t kcs (.inr hne) hC hr.hand (.inr fun e => hne (by rw [e]; simp [Command.keys])) hcan hks)
      (fun _ t' ⟨b', q1, q2⟩ => ⟨⟨.board b', f⟩, nb, hb, .command q1, hr.fine, hr.leaf, hr.copy, q2⟩) (fun _ _ h => h) (fun _ h => h)
  | begin op ds =>
    obtain ⟨b, rfl, hd, hcan⟩ := hc
    exact wp_mono (@opens_inks (onShelf H f nb hb) E _ _ _ _ _ hC hr.hand hd hcan hks) (fun _ t1 ⟨i1, p, i2, i3⟩ =>
      ⟨⟨.pen (b.pen op ds p) b.full (op.search b.last), f⟩, nb, hb, .begin i2, hr.fine, hr.leaf, hr.copy, i1, i3⟩) (fun _ _ h => h) (fun _ h => h)
  | key k =>
    obtain ⟨p, full, last, rfl, hk, hright⟩ := hc
    obtain ⟨hvi, hi⟩ : VI t ∧ @Inks (onShelf H f nb hb) p full last t := hr.hand
    obtain ⟨c, rfl⟩ := one k rfl
    obtain ⟨v, s⟩ := t
    refine wp_mono (wp_and (@key_with (onShelf H f nb hb) E _ _ _ _ c _ _ (fun t' => ∃ pen', Pen.Step k p pen' ∧ @Inks (onShelf H f nb hb) pen' full last t')
      (pen_seen hi hh hk hright) (@Inks.here (onShelf H f nb hb) _ _ _ _ hi)
      (fun t1 t2 hQ e1 e2 e3 e4 e5 e6 e7 => by
        obtain ⟨p1, g1, g2⟩ := hQ
        exact ⟨p1, g1, @Inks.same (onShelf H f nb hb) _ _ _ _ _ g2 e1 e2 e3 e4 e5 e6 e7⟩) (@inks_core (onShelf H f nb hb) E _ _ _ _ _ hvi hi hk))
      (kvi_press E [(k, c)] (v, s) hvi))
      (fun _ t' ⟨⟨p', q2, q3⟩, q1⟩ => ⟨⟨.pen p' full last, f⟩, nb, hb, .key q2, hr.fine, hr.leaf, hr.copy, q1, q3⟩) (fun _ _ _ => trivial) (fun _ h => h.1)
  | leave =>
    obtain ⟨p, full, last, rfl⟩ := hc
    obtain ⟨hvi, hi⟩ : VI t ∧ @Inks (onShelf H f nb hb) p full last t := hr.hand
    obtain ⟨c, rfl⟩ := one _ rfl
    exact wp_mono (@inks_esc (onShelf H f nb hb) E p ⟨[], 0, 0, last, none, [], full⟩ t c hvi hi)
      (fun _ t' ⟨b', q2, q3⟩ => ⟨⟨.board b', f⟩, nb, hb, .leave rfl rfl q2, hr.fine, hr.leaf, hr.copy, q3⟩) (fun _ _ h => h) (fun _ h => h)
  | enter =>
    obtain ⟨c, rfl⟩ := one _ rfl
    exact enter_rack E hr (hn rfl) hc
  | turn up letter =>
    obtain ⟨k, hk⟩ : ∃ k, (Act.turn up letter).keys = [k] := by cases up <;> cases letter <;> exact ⟨_, rfl⟩
    obtain ⟨c, rfl⟩ := one k hk
    exact turn_rack E E.cc hu hr hc hk
  | take right =>
    obtain ⟨c, rfl⟩ := one _ rfl
    exact take_rack E E.cc hr hh hc
  | search forward more right => exact search_rack E E.cc hu hr hh hc hks
  | quest forward more right => exact quest_rack E E.cc hu hr hh hc hks

/-- The keys of an act neither end the line nor stop it. -/
theorem act_goes {C : CharClass} {es : List Text} {a : Act} {r : Rack} (hc : r.Can C es a) (he : a ≠ .enter) : ∀ k ∈ a.keys, Usual k := by
  by_cases hm : ∃ c, a = .command c
  · obtain ⟨c, rfl⟩ := hm
    obtain ⟨b, -, hcan, hne⟩ := hc
    by_cases hw : ∃ op ds ks, c = .write op ds ks
    · obtain ⟨op, ds, ks, rfl⟩ := hw
      intro k hk
      have hk' := hk
      simp only [Act.keys, Command.keys, List.mem_append, List.mem_cons, List.not_mem_nil, or_false] at hk'
      rcases hk' with (h | h) | rfl
      · exact (usual_opening hcan).1 k h
      · exact ((usual_opening hcan).2 k h).resolve_right fun e => hne (by subst e; exact hk)
      · exact usual_esc
    · exact usual_command hcan (fun e => hne (by rw [e]; simp [Command.keys])) fun op ds ks e => hw ⟨op, ds, ks, e⟩
  · exact act_usual hc he fun c e => hm ⟨c, e⟩

/-- Keys at the beginning of what is read, with or without a list. -/
theorem loop_keys {tail : List KeyMap.Input} {Q : Text → Vi × Ed → Prop} {R : IoErr → Vi × Ed → Prop} {P : Site → Prop}
    (hR : ∀ e t, Fails E e → R e t) : ∀ (kcs : List (Key × (Text → List Text))) (t : Vi × Ed),
    (∀ x ∈ kcs, x.1 ≠ .ctrl 'c' ∧ x.1 ≠ .ctrl 'd' ∧ x.1 ≠ .char '\n') →
    Wp (Spec.press keyMap E kcs) t (fun _ t' => Wp (keyMap.loop E tail) t' Q R P) T2 P →
    Wp (keyMap.loop E (Spec.typed kcs ++ tail)) t Q R P
  | [], t, _, h => h
  | (k, c) :: kcs, t, hu, h => by
    unfold Spec.press at h
    rw [wp_bind] at h
    show Wp (keyMap.loop E (.key k c :: (Spec.typed kcs ++ tail))) t Q R P
    unfold KeyMap.loop
    rw [wp_bind]
    obtain ⟨u1, u2, u3⟩ := hu (k, c) List.mem_cons_self
    have h1 : Wp (keyMap.handleKey E c k) t (fun done _ => done = false) (fun _ _ => True) (fun _ => True) := by
      unfold Wp
      cases hm : keyMap.handleKey E c k t with
      | ok a s' =>
        cases a with
        | false => rfl
        | true => exact absurd (only_enter hm).1 u3
      | err e s' => trivial
      | panic w => trivial
    refine wp_mono (wp_and h (wp_and h1 (key_fails E c t k))) (fun done t1 h1 => ?_) (fun e t' h => hR e t' ?_) (fun _ h => h.1)
    · obtain ⟨h1, rfl, -⟩ := h1
      rw [if_neg (by simp)]
      exact loop_keys hR kcs t1 (fun x hx => hu x (List.mem_cons_of_mem _ hx)) h1
    · rcases h.2.2 with h | h | h
      · exact h
      · exact absurd h.2 u1
      · exact absurd h.2.1 u2

/-- The tray shows the editor and the key map. -/
structure Trayed (H : History) (y : Tray) (nb hb : Buffer) (t : Vi × Ed) : Prop where
  rack : Racked H y.rack nb hb t
  hinted : Hinted t.2
  list : t.2.showCompletionsHint = y.list
  listed : Listed y.list

section
variable {tail : List KeyMap.Input} {Q : Text → Vi × Ed → Prop} {R : IoErr → Vi × Ed → Prop} {P : Site → Prop}
  (hR : ∀ e t, Fails E e → R e t) (hP : ∀ w, w ≠ .op → P w)
include hR hP

theorem deed_tray (hC : Apart E.cc) (hw : E.words = getBufferWords) (hu : H.share = false) {d : Deed} {y : Tray} {t : Vi × Ed}
    {kcs : List (Key × (Text → List Text))} (hy : Trayed H y nb hb t) (hc : y.Can E.cc (texts H) d) (hks : d.Given kcs)
    (g : ∀ y' nb' hb' t', Tray.Step E.cc (texts H) d y y' → Trayed H y' nb' hb' t' → Wp (keyMap.loop E tail) t' Q R P) :
    Wp (keyMap.loop E (Spec.typed kcs ++ tail)) t Q R P := by
  obtain ⟨r, list⟩ := y
  have hl : t.2.showCompletionsHint = list := hy.list
  cases d with
  | act a =>
    have hks : kcs.map Prod.fst = a.keys := hks
    have hn : a = .enter → t.2.showCompletionsHint = none := fun e => hl.trans (hc.2 e)
    have key : Wp (Spec.press keyMap E kcs) t (fun _ t' => Wp (keyMap.loop E tail) t' Q R P) T2 P := by
      refine wp_mono (wp_and (act_over E hC hu hy.rack hy.hinted hn hc.1 hks) (wp_and (hinted_press E kcs t hy.hinted) (act_list E hu hy.rack hy.hinted hn hc.1 hks)))
        (fun _ t' ⟨⟨r', nb', hb', h1, h2⟩, h3, h4⟩ => g ⟨r', _⟩ nb' hb' t' (.act h1) ⟨h2, h3, h4.trans (by rw [hl]), ?_⟩) (fun _ _ _ => trivial) (fun w h => hP w h.1)
      split
      · exact hy.listed
      · intro cs i h; cases h
    by_cases he : a = .enter
    · subst he
      rw [show Act.keys .enter = [Key.char '\n'] from rfl, List.map_eq_singleton_iff] at hks
      obtain ⟨⟨k', c⟩, rfl, hk'⟩ := hks
      dsimp only at hk'
      subst hk'
      obtain ⟨e, ho⟩ := hy.rack.here
      exact @loop_goes (onShelf H r.shelf nb hb) E c tail Q R P hR e t _ _ ho (hn rfl) hc.1
        (wp_mono key (fun _ _ h _ => h) (fun _ _ h => h) (fun _ h => h))
    · refine loop_keys E hR kcs t (fun x hx => ?_) key
      have := usual_keys (act_goes hc.1 he) hks x hx
      exact ⟨this.ctrlC, this.ctrlD, this.enter⟩
  | tab comp =>
    obtain rfl : kcs = _ := hks
    refine loop_keys E hR _ t (by simp) ?_
    have hl' : Listed t.2.showCompletionsHint := by rw [hl]; exact hy.listed
    refine wp_mono (wp_and (tab_rack E E.cc hw hy.rack hl') (hinted_press E _ t hy.hinted))
      (fun _ t' ⟨⟨⟨r', h1, h2⟩, h3⟩, h4⟩ => g ⟨r', _⟩ nb hb t' (by rw [hl] at h1; exact h1) ⟨h2, h4, rfl, h3⟩) (fun _ _ _ => trivial) (fun w h => hP w h.1)
  | shut =>
    rw [show Deed.Given .shut kcs = (kcs.map Prod.fst = [.char '\n']) from rfl, List.map_eq_singleton_iff] at hks
    obtain ⟨⟨k', c⟩, rfl, hk'⟩ := hks
    dsimp only at hk'
    subst hk'
    show Wp (keyMap.loop E (.key (.char '\n') c :: tail)) t Q R P
    unfold KeyMap.loop
    rw [wp_bind]
    have hh := hinted_press E [(.char '\n', c)] t hy.hinted
    unfold Spec.press at hh
    rw [wp_bind] at hh
    refine wp_mono (wp_and (shut_rack E hy.rack (by rw [hl]; exact hc)) (wp_and hh (key_fails E c t (.char '\n')))) (fun done t1 h1 => ?_) (fun e t' h => hR e t' ?_)
      (fun w h => hP w h.1)
    · obtain ⟨⟨rfl, h2, h3⟩, h4, -⟩ := h1
      rw [if_neg (by simp)]
      exact g ⟨_, none⟩ nb hb t1 .shut ⟨h3, h4, h2, fun cs i h => (by cases h)⟩
    · rcases h.2.2 with h | h | h
      · exact h
      · cases h.2
      · cases h.2.1

theorem loop_tray (hC : Apart E.cc) (hw : E.words = getBufferWords) (hu : H.share = false) {ds : List Deed} {kcs : List (Key × (Text → List Text))}
    (hks : Deed.AllGiven ds kcs) : ∀ (y : Tray) (nb hb : Buffer) (t : Vi × Ed), Trayed H y nb hb t → Tray.CanAll E.cc (texts H) ds y →
    (∀ y' nb' hb' t', Tray.Steps E.cc (texts H) ds y y' → Trayed H y' nb' hb' t' → Wp (keyMap.loop E tail) t' Q R P) →
    Wp (keyMap.loop E (Spec.typed kcs ++ tail)) t Q R P := by
  induction hks with
  | nil => exact fun y nb hb t hy _ g => g y nb hb t (.nil y) hy
  | cons h _ ih =>
    intro y nb hb t hy hc g
    rw [typed_append, List.append_assoc]
    exact deed_tray E hR hP hC hw hu hy hc.1 h fun y1 nb1 hb1 t1 q1 q2 =>
      ih y1 nb1 hb1 t1 q2 (hc.2 y1 q1) fun y' nb' hb' t' p1 p2 => g y' nb' hb' t' (.cons q1 p1) p2

end

theorem read_tray {tail : List KeyMap.Input} {Q : Text → Vi × Ed → Prop} {R : IoErr → Vi × Ed → Prop}
    (hR : ∀ e t, Fails E e → R e t) (hC : Apart E.cc) (hw : E.words = getBufferWords) (p p' : Prompt) (hu : H.share = false) (fs : FS) (b : Buffer)
    (hb : b.actions = []) (ds : List Deed) (hc : Tray.CanAll E.cc (texts H) ds ⟨Rack.fresh b.data, none⟩)
    {kcs : List (Key × (Text → List Text))} (hks : Deed.AllGiven ds kcs)
    (g : ∀ y nb hb t', Tray.Steps E.cc (texts H) ds ⟨Rack.fresh b.data, none⟩ y → Trayed H y nb hb t' →
      Wp (keyMap.loop E tail) t' Q R (· ≠ .op)) :
    Wp (keyMap.readLine E p (Spec.typed kcs ++ tail)) (({} : Vi), initial p' H fs b) Q R
      (fun w => w = .op → E.ttyWidth = some 0) := by
  refine (wp_congr (read_then E p _ _)).mpr ?_
  rw [wp_bind]
  have h0 : OnShelf H (Rack.fresh b.data).shelf b {} (initial p' H fs b) := ⟨rfl, rfl, rfl, rfl, fun h => absurd rfl h, fun _ => rfl⟩
  refine wp_mono (wp_and (@begin_now (onShelf H (Rack.fresh b.data).shelf b {}) E p p' H fs b h0) (hinted_session E p p' H fs b))
    (fun _ t ⟨⟨h1, h2⟩, hh⟩ => ?_) (fun e t h => hR e t h.1) (fun _ h => h.1)
  have hi := @now_inks (onShelf H (Rack.fresh b.data).shelf b {}) b t hb h1
  have hr : Racked H (Rack.fresh b.data) b {} t := ⟨⟨fun i h => (by cases h), fun i h => (by cases h), fun i h => (by cases h)⟩,
    fun h => absurd rfl h, ⟨rfl, fun _ n => ⟨([], []), undones_nil n [], rfl⟩⟩, h1.1.vi, hi⟩
  exact wp_mono (loop_tray E hR (fun _ h => h) hC hw hu hks ⟨Rack.fresh b.data, none⟩ b {} t ⟨hr, hh, h2, fun cs i h => (by cases h)⟩ hc g)
    (fun _ _ h => h) (fun _ _ h => h) (fun w h h' => absurd h' h)

/-- Ctrl-C, and Ctrl-D on an empty line, while a list is shown. -/
theorem stop_listed [Around] {comp : Text → List Text} {e : Bool} {t : Vi × Ed} {l r : Text} {tail : List KeyMap.Input} {key : Key} {err : IoErr} (h : Open e t.2 l r)
    (hk : (key = .ctrl 'c' ∧ err = .interrupted) ∨ (key = .ctrl 'd' ∧ l ++ r = [] ∧ err = .unexpectedEof)) :
    Wp (keyMap.loop E (.key key comp :: tail)) t (fun _ _ => False) (fun e _ => e = err ∨ Fails E e) (· ≠ .op) := by
  by_cases hh : t.2.showCompletionsHint = none
  · exact loop_stop E comp h hh hk
  obtain ⟨v, s⟩ := t
  obtain ⟨b, hb, hbd⟩ := text?_eq.mp h.here.1
  unfold KeyMap.loop
  rw [wp_bind]
  have h1 : Wp (keyMap.handleKey E comp key) (v, s) (fun _ _ => False) (fun _ _ => True) (· ≠ .op) := by
    rw [wp_congr (handleKey_eq keyMap E comp (t := (v, s)) hb _), wp_bind]
    have fin : ∀ e, Wp (do let _ ← ed (handleNewline E); M.throw e : KM Vi Bool) (v, s) (fun _ _ => False)
        (fun _ _ => True) (· ≠ .op) := by
      intro e
      rw [wp_bind, wp_ed, newline_run E h.quiet]
      unfold Wp
      rw [finish_listed E (s := Editor.quiet s) hh]
      trivial
    refine wp_mono (Q := fun _ _ => False) (R := fun _ _ => True) (P := (· ≠ .op)) ?_ (fun _ _ h => h.elim) (fun _ _ h => h)
      (fun _ h => h)
    rcases hk with ⟨rfl, -⟩ | ⟨rfl, he, -⟩
    · rw [show KeyMap.translate (.ctrl 'c') = .ctrl 'c' from by decide]
      refine (wp_congr ?_).mpr (fin .interrupted)
      unfold KeyMap.dispatch
      rw [bind_ok (m := ed M.get) (a := (v, s).2) (s' := (v, s)) rfl]
      dsimp only
      rw [if_pos rfl]
    · rw [show KeyMap.translate (.ctrl 'd') = .ctrl 'd' from by decide]
      refine (wp_congr ?_).mpr (fin .unexpectedEof)
      unfold KeyMap.dispatch
      rw [bind_ok (m := ed M.get) (a := (v, s).2) (s' := (v, s)) rfl]
      dsimp only
      rw [if_neg (by simp), if_pos ⟨rfl, by rw [he] at hbd; simp [Buffer.isEmpty, hbd]⟩]
  refine wp_mono (wp_and h1 (key_fails E comp (v, s) key)) (fun _ _ h => h.1.elim) (fun e t' h2 => ?_) (fun _ h => h.1)
  rcases h2.2 with h2 | h2 | h2
  · exact .inr h2
  · refine .inl ?_
    rcases hk with hk | hk
    · rw [h2.1, hk.2]
    · rw [hk.1] at h2; cases h2.2
  · refine .inl ?_
    rcases hk with hk | hk
    · rw [hk.1] at h2; cases h2.2.1
    · rw [h2.1, hk.2.2]

end

/-! ### Without undo what is done is certain -/

/-- What Tab does is certain. -/
theorem tabs_unique {comp : Text → List Text} {l r : Text} {list : Option (List Text × Option Nat)} {o o' : Option (List Text × Text × Text)}
    {list1 list2 : Option (List Text × Option Nat)} (h1 : Tabs comp l r list o list1) (h2 : Tabs comp l r list o' list2) :
    o' = o ∧ list2 = list1 := by
  cases h1 with
  | nothing hl hr ht hc =>
    cases h2 with
    | nothing => exact ⟨rfl, rfl⟩
    | single hl' hr' ht' hc' =>
      obtain ⟨rfl, rfl, rfl, rfl⟩ := parts_unique hl hr ht hl' hr' ht'
      cases SortedSet.unique hc hc'
    | longer hl' hr' ht' hc' h2 =>
      obtain ⟨rfl, rfl, rfl, rfl⟩ := parts_unique hl hr ht hl' hr' ht'
      cases SortedSet.unique hc hc'
      simp at h2
    | choice hl' hr' ht' hc' h2 =>
      obtain ⟨rfl, rfl, rfl, rfl⟩ := parts_unique hl hr ht hl' hr' ht'
      cases SortedSet.unique hc hc'
      simp at h2
  | single hl hr ht hc =>
    cases h2 with
    | nothing hl' hr' ht' hc' =>
      obtain ⟨rfl, rfl, rfl, rfl⟩ := parts_unique hl hr ht hl' hr' ht'
      cases SortedSet.unique hc hc'
    | single hl' hr' ht' hc' =>
      obtain ⟨rfl, rfl, rfl, rfl⟩ := parts_unique hl hr ht hl' hr' ht'
      cases SortedSet.unique hc hc'
      exact ⟨rfl, rfl⟩
    | longer hl' hr' ht' hc' h2 =>
      obtain ⟨rfl, rfl, rfl, rfl⟩ := parts_unique hl hr ht hl' hr' ht'
      cases SortedSet.unique hc hc'
      simp at h2
    | choice hl' hr' ht' hc' h2 =>
      obtain ⟨rfl, rfl, rfl, rfl⟩ := parts_unique hl hr ht hl' hr' ht'
      cases SortedSet.unique hc hc'
      simp at h2
  | longer hl hr ht hc g2 hp hw hne =>
    cases h2 with
    | nothing hl' hr' ht' hc' =>
      obtain ⟨rfl, rfl, rfl, rfl⟩ := parts_unique hl hr ht hl' hr' ht'
      cases SortedSet.unique hc hc'
      simp at g2
    | single hl' hr' ht' hc' =>
      obtain ⟨rfl, rfl, rfl, rfl⟩ := parts_unique hl hr ht hl' hr' ht'
      cases SortedSet.unique hc hc'
      simp at g2
    | longer hl' hr' ht' hc' h2 hp' =>
      obtain ⟨rfl, rfl, rfl, rfl⟩ := parts_unique hl hr ht hl' hr' ht'
      cases SortedSet.unique hc hc'
      cases common_unique hp hp'
      exact ⟨rfl, rfl⟩
    | choice hl' hr' ht' hc' h2 hp' hw' =>
      obtain ⟨rfl, rfl, rfl, rfl⟩ := parts_unique hl hr ht hl' hr' ht'
      cases SortedSet.unique hc hc'
      cases common_unique hp hp'
      exact absurd ⟨hw, hne⟩ hw'
  | choice hl hr ht hc g2 hp hw =>
    cases h2 with
    | nothing hl' hr' ht' hc' =>
      obtain ⟨rfl, rfl, rfl, rfl⟩ := parts_unique hl hr ht hl' hr' ht'
      cases SortedSet.unique hc hc'
      simp at g2
    | single hl' hr' ht' hc' =>
      obtain ⟨rfl, rfl, rfl, rfl⟩ := parts_unique hl hr ht hl' hr' ht'
      cases SortedSet.unique hc hc'
      simp at g2
    | longer hl' hr' ht' hc' h2 hp' hw' hne' =>
      obtain ⟨rfl, rfl, rfl, rfl⟩ := parts_unique hl hr ht hl' hr' ht'
      cases SortedSet.unique hc hc'
      cases common_unique hp hp'
      exact absurd ⟨hw', hne'⟩ hw
    | choice hl' hr' ht' hc' =>
      obtain ⟨rfl, rfl, rfl, rfl⟩ := parts_unique hl hr ht hl' hr' ht'
      cases SortedSet.unique hc hc'
      exact ⟨rfl, rfl⟩
  | whole hj hc hw =>
    cases h2 with
    | whole hj' hc' hw' =>
      subst hj; subst hj'
      rw [hc] at hc'; cases hc'
      exact ⟨rfl, rfl⟩
    | next hj' hc' hw' => exact absurd hw (hw' _ rfl)
  | next hj hc hw hl hr ht =>
    cases h2 with
    | whole hj' hc' hw' => exact absurd hw' (hw _ rfl)
    | next hj' hc' hw' hl' hr' ht' =>
      obtain ⟨rfl, rfl, rfl, rfl⟩ := parts_unique hl hr ht hl' hr' ht'
      subst hj; subst hj'
      rw [hc] at hc'; cases hc'
      exact ⟨rfl, rfl⟩

def TraySame (y y' : Tray) : Prop := RackSame y.rack y'.rack ∧ y'.list = y.list

theorem swap_same {a b : Hand} {ps ps' : List Text} {l r : Text} (h : HandSame a b) : HandSame (a.swap ps l r) (b.swap ps' l r) := by
  cases a <;> cases b
  · exact ⟨rfl, rfl, h.2.2⟩
  · exact h.elim
  · exact h.elim
  · exact ⟨⟨rfl, rfl, h.1.2.2⟩, h.2⟩

theorem tray_same {C : CharClass} {es : List Text} {d : Deed} {y y' q q' : Tray} (h : TraySame y y') (hu : d ≠ .act (.command .undo))
    (h1 : Tray.Step C es d y q) (h2 : Tray.Step C es d y' q') : TraySame q q' := by
  have hs := sides_same h.1.1
  cases h1 with
  | act g1 =>
    cases h2 with
    | act g2 => exact ⟨rack_same h.1 (fun e => hu (by rw [e])) g1 g2, by rw [h.2]⟩
  | same g1 =>
    cases h2 with
    | same g2 =>
      rw [hs.1, hs.2, h.2] at g2
      exact ⟨h.1, (tabs_unique g1 g2).2⟩
    | tab g2 =>
      rw [hs.1, hs.2, h.2] at g2
      cases (tabs_unique g1 g2).1
  | tab g1 =>
    cases h2 with
    | same g2 =>
      rw [hs.1, hs.2, h.2] at g2
      cases (tabs_unique g1 g2).1
    | tab g2 =>
      rw [hs.1, hs.2, h.2] at g2
      obtain ⟨e1, e2⟩ := tabs_unique g1 g2
      cases e1
      exact ⟨⟨swap_same h.1.1, h.1.2⟩, e2⟩
  | shut =>
    cases h2 with
    | shut => exact ⟨⟨h.1.1, h.1.2.1, h.1.2.2.1, rfl, rfl⟩, rfl⟩

theorem trays_unique {C : CharClass} {es : List Text} {ds : List Deed} {y q : Tray} (h1 : Tray.Steps C es ds y q) :
    ∀ {y' q' : Tray}, TraySame y y' → Deed.act (.command .undo) ∉ ds → Tray.Steps C es ds y' q' → TraySame q q' := by
  induction h1 with
  | nil y => intro y' q' h _ h2; cases h2; exact h
  | cons g _ ih =>
    intro y' q' h hu h2
    cases h2 with
    | cons g2 t2 =>
      exact ih (tray_same h (fun e => hu (by rw [e]; exact List.mem_cons_self)) g g2) (fun h' => hu (List.mem_cons_of_mem _ h')) t2

theorem TraySame.refl (y : Tray) : TraySame y y := by
  refine ⟨⟨?_, rfl, rfl, rfl, rfl⟩, rfl⟩
  cases y.rack.hand
  · exact ⟨rfl, rfl, rfl, rfl, rfl⟩
  · exact ⟨⟨rfl, rfl, rfl, rfl, rfl, rfl, rfl⟩, rfl⟩

end Vi
end Liner
