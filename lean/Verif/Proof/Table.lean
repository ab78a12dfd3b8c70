import Verif.Proof.BenchRead
import Verif.Spec.Table
/-
Completion on the bench.
-/

namespace Liner
namespace Props
open Editor KM Liner.Spec

section
variable (E : Env) {H : History} {k k' : Emacs} {s s' : Ed} {d : Desk} {b : Bench} {key : Key} {f : Bool} {p q : Sheet}

/-! ### Operations on the line -/

theorem insert_any (h : Ground s p) (cs : Text) :
    Acts E (insertCharsAfterCursor E cs) s p (p.put (p.left ++ cs) p.right) true := by
  obtain ⟨w, hw, hd, hl⟩ := h.log
  obtain ⟨b', h1, h2⟩ := C01_insert w p.left p.right cs hd
  refine ⟨some b', rfl, ⟨fun b e => ?_, (by simp)⟩, fun Q R P hQ => ?_⟩
  · cases e
    obtain ⟨es, g1, g2, g3⟩ := one_of (.insert p.left.length cs) h1 (by simp [Edit.apply, hd, Sheet.text])
    rw [hd, h2] at g3
    refine ⟨h2, ?_⟩
    rw [g2]
    exact (hl.grown g1 (Nat.le_refl _) g3).1
  unfold insertCharsAfterCursor
  rw [wp_bind, wp_get, wp_bind, h.here.2]
  refine wp_curBufMut_of hw (a := ()) (b' := b') (by simp [noRes, h1]) ?_
  rw [wp_bind, wp_modify, setCur_cursor, h.here.2]
  simpa [moved, Sheet.put] using hQ

theorem division_unique {t : Text} {ws ws' : List (Nat × Nat)} (h : IsDivision t ws) (h' : IsDivision t ws') : ws = ws' :=
  ((C11_words_unique (.ofText t) ws).mp h).trans ((C11_words_unique (.ofText t) ws').mp h').symm

/-- The word touched by the cursor. -/
theorem parts_ex (l r : Text) : ∃ a w1 w2 c, l = a ++ w1 ∧ r = w2 ++ c ∧ Touched a w1 w2 c := by
  obtain ⟨ws, hd⟩ := division_ex (l ++ r)
  by_cases hp : ∃ w, WordBefore ws l.length false w
  · obtain ⟨⟨a, e⟩, hp⟩ := hp
    have ha : a < l.length := hp.before
    have he : l.length ≤ e := hp.touches rfl
    have hi : e ≤ (l ++ r).length := (hd.words _ hp.mem).inside
    rw [List.length_append] at hi
    refine ⟨l.take a, l.drop a, r.take (e - l.length), r.drop (e - l.length), (List.take_append_drop _ _).symm,
      (List.take_append_drop _ _).symm, fun ws' hd' => .inl ⟨?_, ?_⟩⟩
    · simp only [ne_eq, List.drop_eq_nil_iff, Nat.not_le]; exact ha
    · rw [List.take_append_drop, List.take_append_drop] at hd'
      cases division_unique hd hd'
      rw [List.take_append_drop, show (l.take a).length = a by rw [List.length_take]; omega,
        show (l ++ r.take (e - l.length)).length = e by rw [List.length_append, List.length_take]; omega]
      exact hp
  · refine ⟨l, [], [], r, by simp, by simp, fun ws' hd' => .inr ⟨rfl, rfl, fun w hw => hp ⟨w, ?_⟩⟩⟩
    rw [List.append_nil] at hd' hw
    cases division_unique hd hd'
    exact hw

theorem parts_unique {l r a w1 w2 c a' w1' w2' c' : Text} (h1 : l = a ++ w1) (h2 : r = w2 ++ c) (h3 : Touched a w1 w2 c)
    (h1' : l = a' ++ w1') (h2' : r = w2' ++ c') (h3' : Touched a' w1' w2' c') : a = a' ∧ w1 = w1' ∧ w2 = w2' ∧ c = c' := by
  obtain ⟨ws, hd⟩ := division_ex (l ++ r)
  have hs : Separated ws := ⟨fun w hm => (hd.words w hm).nonempty, hd.ordered⟩
  have g := h3 ws (by rw [← h1, ← h2]; exact hd)
  have g' := h3' ws (by rw [← h1', ← h2']; exact hd)
  rw [← h1] at g
  rw [← h1'] at g'
  rcases g with ⟨n, hp⟩ | ⟨rfl, rfl, hn⟩ <;> rcases g' with ⟨n', hp'⟩ | ⟨rfl, rfl, hn'⟩
  · have := WordBefore.unique hs hp hp'
    simp only [Prod.mk.injEq] at this
    obtain ⟨e1, e2⟩ := this
    have e3 := List.append_inj (h1.symm.trans h1') e1
    rw [List.length_append, List.length_append] at e2
    have e4 := List.append_inj (h2.symm.trans h2') (by omega)
    exact ⟨e3.1, e3.2, e4.1, e4.2⟩
  · exact absurd hp (hn' _)
  · exact absurd hp' (hn _)
  · simp only [List.append_nil, List.nil_append] at h1 h2 h1' h2'
    exact ⟨h1.symm.trans h1', rfl, rfl, h2.symm.trans h2'⟩

theorem wordBefore_none {ws : List (Nat × Nat)} (hs : Separated ws) {c : Nat} {ig : Bool} (h : ∀ w, ¬ WordBefore ws c ig w) :
    wordBefore ws (CursorPosition.get c ws) ig = none := by
  cases hw : wordBefore ws (CursorPosition.get c ws) ig with
  | none => rfl
  | some p => exact absurd ((wordBefore_iff hs _ _ _).mp hw) (h p)

/-- Deleting the part of the word before the cursor. -/
theorem dropWord_acts (hw : E.words = getBufferWords) (h : Ground s p) {l w1 w2 r : Text} (h1 : p.left = l ++ w1) (h2 : p.right = w2 ++ r)
    (ht : Touched l w1 w2 r) : Acts E (deleteWordBeforeCursor E false) s p (if w1 = [] then p else p.put l p.right) (w1 ≠ []) := by
  obtain ⟨ws, hd, hws, hs⟩ := ground_words E hw h
  obtain ⟨b0, hb0, hd0⟩ := text?_eq.mp h.here.1
  have run : ∀ (Q : Ed → Prop) (R : IoErr → Ed → Prop) (P : Site → Prop),
      Wp (match wordBefore ws (CursorPosition.get p.left.length ws) false with
        | some (start, _) => do
          let s ← M.get
          let moved ← curBufMut (fun b => b.remove start s.cursor)
          cursorSub moved
          display E
        | none => display E) s (fun _ s' => Q s') R P → Wp (deleteWordBeforeCursor E false) s (fun _ s' => Q s') R P := by
    intro Q R P hQ
    simp only [deleteWordBeforeCursor, getWordBeforeCursor, wordsAndPos, wp_bind, wp_curBuf, wp_get, wp_pure]
    refine ⟨fun b hb => ?_, fun hn => (by rw [hb0] at hn; cases hn)⟩
    rw [hws b hb, h.here.2]
    split
    · rename_i a e hab
      rw [hab] at hQ
      simpa only [wp_bind, wp_get] using hQ
    · rename_i hab
      rw [hab] at hQ
      exact hQ
  have hd' : IsDivision (l ++ w1 ++ (w2 ++ r)) ws := by rw [← h1, ← h2]; exact hd
  rcases ht ws hd' with ⟨hn, hp⟩ | ⟨rfl, rfl, hp⟩
  · rw [if_neg hn]
    rw [← h1] at hp
    obtain ⟨w, g1, g2, g3⟩ := h.log
    obtain ⟨b', k1, k2⟩ := C01_remove w l w1 p.right (by rw [g2, ← h1]; rfl)
    have k3 : w.remove l.length s.cursor = some (w1.length, b') := by
      rw [h.here.2, h1, List.length_append]
      exact k1
    refine ⟨some b', by simp [hn], penned_one (oneEdit_remove _ _) g2 g3 k3 k2, fun Q R P hQ => run Q R P ?_⟩
    rw [(wordBefore_iff hs _ _ _).mpr hp]
    dsimp only
    rw [wp_bind, wp_get, wp_bind]
    refine wp_curBufMut_of g1 k3 ?_
    rw [wp_bind]
    unfold Wp cursorSub
    rw [setCur_cursor, h.here.2, if_pos (by rw [h1]; simp)]
    rw [show p.left.length - w1.length = (p.put l p.right).left.length from by rw [h1]; simp [Sheet.put]]
    exact hQ
  · rw [if_pos rfl]
    rw [← h1] at hp
    refine ⟨none, by simp, ⟨fun _ e => (by cases e), fun _ => ⟨rfl, rfl⟩⟩, fun Q R P hQ => run Q R P ?_⟩
    rw [wordBefore_none hs hp]
    rw [← h.here.2, moved_none] at hQ
    exact hQ

/-! ### On the bench -/

theorem OnDesk.ground (h : OnDesk H k s d) : Ground s d.sheet := ⟨h.1.here.here, h.1.log⟩

theorem write_same (h : OnDesk H k s d) (ht : q.text = d.text) (hp : q.past = d.past) :
    d.write false false q = { d with left := q.left, right := q.right, arg := q.arg } := by
  cases hc : d.changed with
  | false => exact hc ▸ write_self (h.2.text h.1.here.here.1) hc ht hp
  | true =>
    have hd : d.shown ≠ none := fun hd => by rw [h.2.clean hd] at hc; cases hc
    have hx : d.copy.text = d.text := by
      have hx := h.1.here.here.1
      unfold text? Ed.curBuf? at hx
      rw [h.2.changed, hc, h.2.shown] at hx
      cases hs : d.shown with
      | none => exact absurd hs hd
      | some i =>
        rw [hs] at hx
        rw [← h.2.copy]
        exact Option.some.inj hx
    have : (⟨q.text, q.past⟩ : Paper) = d.copy := by
      rw [ht, hp, Desk.past, if_neg hd, hc, if_pos rfl, ← hx]
    unfold Desk.write
    simp only [hc, this, hd, if_false, Bool.false_eq_true, Bool.or_false, ne_eq, not_false_eq_true, and_self,
      if_true, decide_true, Bool.and_self]

/-- An operation on the line outside a search. -/
theorem OnDesk.acts {α : Type} {m : EdM α} {touch : Bool} (h : OnDesk H k s d) (ha : Acts E m s d.sheet q touch) {a : Option Nat}
    (hk : k'.lastArgFetchIndex = a) (hb : ∀ i, a = some i → i < H.buffers.length) :
    Wp m s (fun _ s' => OnDesk H k' s' (d.write touch false { q with arg := a })) (fun _ _ => True) (· ≠ .op) := by
  obtain ⟨o, rfl, hp, run⟩ := ha
  refine run _ _ _ ?_
  cases o with
  | none =>
    obtain ⟨h1, h2⟩ := hp.none rfl
    have e : d.write false false { q with arg := a } = { d with left := q.left, right := q.right, arg := a } := write_same h h1 h2
    rw [show (none : Option Buffer).isSome = false from rfl, e]
    refine display_desk E ⟨h.calm.1, h.calm.2, h.calm.3⟩ ?_ ⟨?_, rfl⟩ hk hb
    · exact ⟨h.2.1, h.2.2, h.2.3, h.2.4, h.2.5, h.2.6, h.2.7, h.2.8, h.2.9, h.2.10, h.2.11, h.2.12, h.2.13⟩
    · exact h.1.here.here.1.trans (congrArg some h1.symm)
  | some b =>
    obtain ⟨h1, h2⟩ := hp.some b rfl
    have hl := h.2.set (q := { q with arg := a }) h1 h2 q.left.length
    refine display_desk E ?_ hl ⟨?_, rfl⟩ hk hb
    · show AtEase { setCur s b with cursor := q.left.length }
      unfold setCur
      cases s.curHistoryLoc <;> exact ⟨h.calm.1, h.calm.2, h.calm.3⟩
    · exact (setCur_text s b).trans (congrArg some h1)

theorem Stands.ground (h : Stands H k s b) : Ground s b.desk.sheet := by
  obtain ⟨d, o⟩ := b
  cases o with
  | none => exact OnDesk.ground h
  | some f => exact Sought.ground h

theorem Stands.arg (h : Stands H k s b) : k.lastArgFetchIndex = b.desk.arg := by
  obtain ⟨d, o⟩ := b
  cases o with
  | none =>
    have h : OnDesk H k s d := h
    exact h.1.arg
  | some f => exact Sought.arg h

theorem Stands.bound (h : Stands H k s b) : ∀ i, b.desk.arg = some i → i < H.buffers.length := by
  obtain ⟨d, o⟩ := b
  cases o with
  | none =>
    have h : OnDesk H k s d := h
    exact h.1.bound
  | some f => exact Sought.bound h

theorem Stands.listed (h : Stands H k s b) (c : Option (List Text × Option Nat)) (n : Nat) :
    Stands H k { s with showCompletionsHint := c, tick := n } b := by
  obtain ⟨d, o⟩ := b
  cases o with
  | none => exact OnDesk.listed h c n
  | some f => exact Sought.listed h c n

/-- An operation on the line. -/
theorem Stands.acts {α : Type} {m : EdM α} {touch : Bool} (h : Stands H k s b) (ha : Acts E m s b.desk.sheet q touch)
    (hq : q.arg = b.desk.arg) : Wp m s (fun _ s' => Stands H k s' (b.put (texts H) touch q)) (fun _ _ => True) (· ≠ .op) := by
  have e : { q with arg := b.desk.arg } = q := by rw [← hq]
  have h1 := h.arg
  have h2 := h.bound
  obtain ⟨d, o⟩ := b
  cases o with
  | none => exact e ▸ OnDesk.acts E h ha h1 h2
  | some f => exact e ▸ Sought.acts E h ha h1 h2

/-- Another redraw. -/
theorem Stands.redraw (h : Stands H k s b) : Wp (display E) s (fun _ s' => Stands H k s' b) (fun _ _ => True) (· ≠ .op) := by
  have h1 := h.arg
  have h2 := h.bound
  obtain ⟨d, o⟩ := b
  cases o with
  | none =>
    have h : OnDesk H k s d := h
    exact display_desk E h.calm h.2 h.1.here.here h1 h2
  | some f =>
    have h : Sought H f k s d := h
    refine display_sought E (by rw [h.pend.pre]; exact h.pend) (by rw [h.pend.pre]; exact h.here.1) ?_ h1 h2
    show min s.cursor (d.left ++ d.right).length = d.left.length
    rw [h.here.2]
    simp

/-! ### Tab -/

/-- An operation after the line was taken out for writing. -/
theorem Stands.touched {α : Type} {m : EdM α} {touch : Bool} {w : Buffer} (h : Stands H k s b) (hw : workBuf s = some w)
    (ha : Acts E m (setCur s w) b.desk.sheet q touch) (hq : q.arg = b.desk.arg) :
    Wp m (setCur s w) (fun _ s' => Stands H k s' (b.put (texts H) true q)) (fun _ _ => True) (· ≠ .op) := by
  obtain ⟨o, rfl, hp, run⟩ := ha
  obtain ⟨w', g1, g2, g3⟩ := h.ground.log
  rw [hw] at g1; cases g1
  refine Stands.acts E (m := fun _ => m (setCur s w)) h ⟨some (o.getD w), rfl, ⟨fun b' e => ?_, (by simp)⟩, fun Q R P hQ => ?_⟩ hq
  · cases e
    cases o with
    | none =>
      obtain ⟨e1, e2⟩ := hp.none rfl
      rw [e1, e2]
      exact ⟨g2, g3⟩
    | some b' => exact hp.some b' rfl
  · refine run Q R P ?_
    convert hQ using 1
    cases o <;> unfold moved setCur <;> cases hl : s.curHistoryLoc <;> simp

theorem setCur_listed (s : Ed) (w : Buffer) (c : Option (List Text × Option Nat)) :
    setCur { s with showCompletionsHint := c } w = { setCur s w with showCompletionsHint := c } := by
  unfold setCur
  cases s.curHistoryLoc <;> simp

theorem dry_deleteWord (ig : Bool) : Dry (deleteWordBeforeCursor E ig) := by
  intro s
  exact wp_mono (deleteWord_calm E s ig) (fun _ _ h => h.2.2) (fun _ _ h => h) (fun _ h => h)

/-- Taking the part of the word before the cursor away and putting something in. -/
theorem replace_stands (hw : E.words = getBufferWords) {l w1 w2 r : Text} {w : Buffer} (h : Stands H k s b)
    (hp : b.Parts l w1 w2 r) (hwb : workBuf s = some w) (c : Text) :
    Wp (do deleteWordBeforeCursor E false; insertCharsAfterCursor E c) (setCur s w)
      (fun _ s' => Stands H k s' ((b.drop (texts H) true l w1).paste (texts H) c) ∧ s'.showCompletionsHint = s.showCompletionsHint)
      (fun _ _ => True) (· ≠ .op) := by
  rw [wp_bind]
  have g : Ground (setCur s w) b.desk.sheet := by
    obtain ⟨w', g1, g2, g3⟩ := h.ground.log
    rw [hwb] at g1; cases g1
    refine ⟨⟨(setCur_text s w).trans (congrArg some g2), (setCur_cursor s w).trans h.ground.here.2⟩, w, ?_, g2, g3⟩
    unfold setCur workBuf
    cases s.curHistoryLoc <;> simp
  have h1 := Stands.touched E h hwb (dropWord_acts E hw g hp.left hp.right hp.touched) (by split <;> rfl)
  have e : b.put (texts H) true (if w1 = [] then b.desk.sheet else b.desk.sheet.put l b.desk.sheet.right) = b.drop (texts H) true l w1 := by
    unfold Bench.drop
    split <;> rfl
  rw [e] at h1
  refine wp_mono (wp_and h1 (dry_deleteWord E false _)) (fun _ s1 h2 => ?_) (fun _ _ h => h.1) (fun _ h => h.1)
  obtain ⟨h2, h3⟩ := h2
  refine wp_mono (wp_and (Stands.acts E h2 (insert_any E h2.ground c) rfl) (dry_insert E c _)) (fun _ s2 h4 => ⟨h4.1, ?_⟩)
    (fun _ _ h => h.1) (fun _ h => h.1)
  rw [h4.2, h3, setCur_hint]

theorem common_ex {cs : List Text} (h : 2 ≤ cs.length) : ∃ p, CommonPrefix cs p := by
  cases hl : findLongestCommonPrefix cs with
  | none =>
    have := (C13_lcp_none cs h).mp hl
    exact ⟨[], fun _ _ => List.nil_prefix, fun q hq => by rw [this q hq]⟩
  | some p =>
    have := (C13_lcp cs h p).mp hl
    exact ⟨p, this.2.1, this.2.2⟩

/-- Tab without a list. -/
theorem first_stands (comp : Text → List Text) (hw : E.words = getBufferWords) (h : Stands H k s b) (hh : s.showCompletionsHint = none) :
    Wp (completeFirst E comp) s
      (fun _ s' => ∃ o, Table.Begins (texts H) comp b o ∧ ∀ t, o = some t → Stands H k s' t.bench ∧ s'.showCompletionsHint = t.list ∧
        ∀ cs i, t.list = some (cs, i) → cs ≠ [] ∧ i = none) (fun _ _ => True) (· ≠ .op) := by
  obtain ⟨l, w1, w2, r, hl, hr, ht⟩ := parts_ex b.desk.left b.desk.right
  have hp : b.Parts l w1 w2 r := ⟨hl, hr, ht⟩
  obtain ⟨w, hwb, hwd, hwl⟩ := h.ground.log
  obtain ⟨b0, hb0, hbd⟩ := text?_eq.mp h.at.1
  unfold completeFirst
  simp only [getWordBeforeCursor, wordsAndPos, wp_bind, wp_curBuf, wp_get, wp_pure]
  refine ⟨fun b' hb => ?_, fun hn => (by rw [hb0] at hn; cases hn)⟩
  rw [hb0] at hb; cases hb
  have hsep := C12_default_words_separated b0
  have hdiv := C11_words b0
  rw [hw, h.at.2]
  have hread : readWord (wordBefore (getBufferWords b0) (CursorPosition.get b.desk.left.length (getBufferWords b0)) false) w
      = some (w1 ++ w2, w) := by
    rw [hbd, hl, hr] at hdiv
    rw [hl]
    rcases ht _ hdiv with ⟨_, hb⟩ | ⟨rfl, rfl, hb⟩
    · rw [(wordBefore_iff hsep _ _ _).mpr hb]
      have hwd' : w.data = l ++ w1 ++ (w2 ++ r) := by rw [hwd, ← hl, ← hr]; rfl
      simp only [readWord, Buffer.range, hwd']
      rw [if_pos (by simp)]
      simp only [List.append_assoc, List.drop_left, List.length_append, Nat.add_sub_cancel_left, Option.map_some]
      rw [← List.append_assoc, ← List.length_append, List.take_left]
    · rw [wordBefore_none hsep hb]
      rfl
  refine wp_curBufMut_of hwb hread ?_
  have hcs := sortDedup_spec (comp (w1 ++ w2))
  generalize hcse : sortDedup (comp (w1 ++ w2)) = cs at hcs
  split
  · rw [wp_modify]
    refine ⟨_, ⟨l, w1, w2, r, [], hp, hcs, .inl ⟨rfl, rfl⟩⟩, fun t e => ?_⟩
    split at e
    · rename_i hc
      cases e
      refine ⟨?_, rfl, by simp⟩
      obtain ⟨d, o⟩ := b
      obtain ⟨h0, hc⟩ := hc
      dsimp only at h0 hc
      subst h0
      have h : OnDesk H k s d := h
      have e : setCur s w = { s with bufferChanged := true } := by
        unfold setCur
        unfold workBuf at hwb
        cases hs : s.curHistoryLoc with
        | none =>
          rw [hs] at hwb
          cases hwb
          rfl
        | some i =>
          rw [hs] at hwb
          rcases hc with hc | hc
          · rw [h.2.shown, hc] at hs; cases hs
          · rw [← h.2.changed] at hc
            simp only [hc, if_true, Option.some.injEq] at hwb
            subst hwb
            simp [hc]
      rw [e]
      exact ⟨⟨⟨h.1.here.quiet, h.1.here.ne, trivial, h.1.here.here⟩, h.1.clean, h.1.loc, h.1.show', h.1.hist, h.1.sug, h.1.log, h.1.arg, h.1.bound⟩,
        h.2.1, h.2.2, h.2.3, h.2.4, h.2.5, h.2.6, h.2.7, h.2.8, h.2.9, h.2.10, h.2.11, h.2.12, h.2.13⟩
    · cases e
  · rename_i c
    rw [wp_bind, wp_modify, ← setCur_listed]
    refine wp_mono (replace_stands E hw (h.listed none s.tick) hp hwb c) (fun _ s' h' => ?_) (fun _ _ h => h) (fun _ h => h)
    refine ⟨_, ⟨l, w1, w2, r, [c], hp, hcs, .inr (.inl ⟨c, rfl, rfl⟩)⟩, fun t e => ?_⟩
    cases e
    exact ⟨h'.1, h'.2, by simp⟩
  · rename_i hne hne1
    have h2 : 2 ≤ cs.length := by
      match cs, hne, hne1 with
      | [], h, _ => exact absurd rfl h
      | [c], _, h => exact absurd rfl (h c)
      | _ :: _ :: _, _, _ => simp
    obtain ⟨p, hpre⟩ := common_ex h2
    rw [lcp_of h2 hpre]
    have shown : ¬ (w1 ++ w2 <+: p ∧ p ≠ w1 ++ w2) → Wp (do
          M.modify fun s => { s with showCompletionsHint := some (cs, none) }
          display E) (setCur s w)
      (fun _ s' => ∃ o, Table.Begins (texts H) comp b o ∧ ∀ t, o = some t → Stands H k s' t.bench ∧ s'.showCompletionsHint = t.list ∧
        ∀ cs i, t.list = some (cs, i) → cs ≠ [] ∧ i = none) (fun _ _ => True) (· ≠ .op) := by
      intro hx
      rw [wp_bind, wp_modify, ← setCur_listed]
      have ha : Acts E (display E) (setCur { s with showCompletionsHint := some (cs, none) } w) b.desk.sheet b.desk.sheet false := by
        refine ⟨none, rfl, ⟨fun _ e => (by cases e), fun _ => ⟨rfl, rfl⟩⟩, fun Q R P hQ => ?_⟩
        have : (setCur { s with showCompletionsHint := some (cs, none) } w).cursor = b.desk.left.length :=
          (setCur_cursor _ w).trans h.ground.here.2
        rw [show b.desk.sheet.left.length = _ from this.symm, moved_none] at hQ
        exact hQ
      refine wp_mono (wp_and (Stands.touched E (h.listed (some (cs, none)) s.tick) hwb ha rfl) (dry_display E _)) (fun _ s' h' => ?_)
        (fun _ _ h => h.1) (fun _ h => h.1)
      refine ⟨_, ⟨l, w1, w2, r, cs, hp, hcs, .inr (.inr ⟨p, h2, hpre, rfl⟩)⟩, fun t e => ?_⟩
      rw [if_neg hx] at e
      cases e
      refine ⟨h'.1, h'.2.trans (setCur_hint _ _), fun cs' i e => ?_⟩
      cases e
      exact ⟨hne, rfl⟩
    split
    · rename_i p' hp'
      split at hp'
      · cases hp'
      cases hp'
      split
      · rename_i hx
        rw [extends_iff] at hx
        refine wp_mono (replace_stands E hw h hp hwb p) (fun _ s' h' => ?_) (fun _ _ h => h) (fun _ h => h)
        refine ⟨_, ⟨l, w1, w2, r, cs, hp, hcs, .inr (.inr ⟨p, h2, hpre, rfl⟩)⟩, fun t e => ?_⟩
        rw [if_pos hx] at e
        cases e
        exact ⟨h'.1, h'.2.trans hh, by simp⟩
      · rename_i hx
        rw [extends_iff] at hx
        exact shown hx
    · rename_i hp'
      split at hp'
      · rename_i e
        subst e
        exact shown (fun hx => hx.2 (List.prefix_nil.mp hx.1).symm)
      · cases hp'

/-- The whole line is taken away and something is put in. -/
theorem whole_acts {p : Sheet} (h : Ground s p) (c : Text) : Acts E (do
    curBufMut (noRes fun b => b.truncate 0)
    M.modify fun s => { s with cursor := 0 }
    insertCharsAfterCursor E c) s p ((p.put [] []).put c []) true := by
  obtain ⟨w, hw, hd, hl⟩ := h.log
  obtain ⟨b', h1, h2⟩ := C01_edits w (.truncate 0) [] (by simp [Edit.apply])
  have hf : (noRes fun b => b.truncate 0) w = some ((), b') := by simpa [noRes, runEdit] using h1
  have hpn := penned_one (p := p) (l := []) (r := []) (oneEdit_truncate 0) hd hl hf (by simpa using h2)
  obtain ⟨e1, e2⟩ := hpn.some b' rfl
  have g : Ground { setCur s b' with cursor := 0 } (p.put [] []) := by
    refine ⟨⟨(setCur_text s b').trans (congrArg some e1), rfl⟩, b', ?_, e1, e2⟩
    unfold setCur workBuf
    cases s.curHistoryLoc <;> simp
  obtain ⟨o, ho, hp, run⟩ := insert_any E g c
  obtain ⟨b2, rfl⟩ := Option.isSome_iff_exists.mp ho
  refine ⟨some b2, rfl, ⟨fun b e => ?_, (by simp)⟩, fun Q R P hQ => ?_⟩
  · cases e
    exact hp.some b2 rfl
  · rw [wp_bind]
    refine wp_curBufMut_of hw hf ?_
    rw [wp_bind, wp_modify]
    refine run Q R P ?_
    convert hQ using 1
    unfold moved setCur
    cases s.curHistoryLoc <;> simp [Sheet.put]

/-- Tab with a list. -/
theorem next_stands (comp : Text → List Text) (hw : E.words = getBufferWords) (h : Stands H k s b) {cs : List Text} {i : Option Nat}
    (hh : s.showCompletionsHint = some (cs, i)) (hn : cs ≠ []) (hi : ∀ x, i = some x → x < cs.length) :
    Wp (complete E comp) s
      (fun _ s' => ∃ t j, Table.Goes (texts H) cs i b (some t) ∧ Stands H k s' t.bench ∧ s'.showCompletionsHint = t.list ∧
        t.list = some (cs, some j) ∧ j < cs.length) (fun _ _ => True) (· ≠ .op) := by
  unfold complete
  rw [wp_bind, wp_get, hh]
  dsimp only
  have hpos : 0 < cs.length := List.length_pos_iff.mpr hn
  obtain ⟨j, hj, hjn, hjl⟩ : ∃ j, j = Table.following cs.length i ∧
      nextCandidate cs.length i = some j ∧ j < cs.length := by
    refine ⟨_, rfl, ?_, ?_⟩
    · cases i with
      | none => rfl
      | some i =>
        have := hi i rfl
        simp only [nextCandidate, Table.following]
        rw [if_neg (by omega)]
        by_cases he : i + 1 = cs.length
        · simp [he]
        · rw [if_neg he, Nat.mod_eq_of_lt (by omega)]
    · cases i with
      | none => exact hpos
      | some i =>
        have := hi i rfl
        show (if i + 1 = cs.length then 0 else i + 1) < cs.length
        by_cases he : i + 1 = cs.length
        · rw [if_pos he]; exact hpos
        · rw [if_neg he]; omega
  have hc : cs[j]? = some cs[j] := List.getElem?_eq_getElem hjl
  unfold completeNext
  have h0 := h.listed none s.tick
  have fin : ∀ (c : Bench) (s1 : Ed), Stands H k s1 c → Table.Goes (texts H) cs i b (some ⟨c, some (cs, some j)⟩) →
      Wp (do M.modify (fun s : Ed => { s with showCompletionsHint := some (cs, some j) }); display E) s1
      (fun _ s' => ∃ t j, Table.Goes (texts H) cs i b (some t) ∧ Stands H k s' t.bench ∧ s'.showCompletionsHint = t.list ∧
        t.list = some (cs, some j) ∧ j < cs.length) (fun _ _ => True) (· ≠ .op) := by
    intro c s1 h1 h2
    rw [wp_bind, wp_modify]
    refine wp_mono (wp_and (Stands.redraw E (h1.listed (some (cs, some j)) s1.tick)) (dry_display E _)) (fun _ s' h' => ?_)
      (fun _ _ h => h.1) (fun _ h => h.1)
    exact ⟨_, j, h2, h'.1, h'.2, rfl, hjl⟩
  have del : (∀ x, i = some x → cs[x]? ≠ some b.desk.text) → Wp (deleteWordBeforeCursor E false) { s with showCompletionsHint := none }
      (fun _ s' => Wp (M.ofOption cs[j]?) s' (fun c s' => Wp (insertCharsAfterCursor E c) s'
        (fun _ s' => Wp (M.modify fun s : Ed => { s with showCompletionsHint := some (cs, some j) }) s' (fun _ s' =>
          Wp (display E) s' (fun _ s' => ∃ t j, Table.Goes (texts H) cs i b (some t) ∧ Stands H k s' t.bench ∧
            s'.showCompletionsHint = t.list ∧ t.list = some (cs, some j) ∧ j < cs.length) (fun _ _ => True) (· ≠ .op))
          (fun _ _ => True) (· ≠ .op)) (fun _ _ => True) (· ≠ .op)) (fun _ _ => True) (· ≠ .op)) (fun _ _ => True) (· ≠ .op) := by
    intro hne
    obtain ⟨l, w1, w2, r, hl, hr, ht⟩ := parts_ex b.desk.left b.desk.right
    refine wp_mono (Stands.acts E h0 (dropWord_acts E hw h0.ground hl hr ht) (by split <;> rfl)) (fun _ s1 h1 => ?_)
      (fun _ _ h => h) (fun _ h => h)
    rw [hc]
    show Wp (insertCharsAfterCursor E cs[j]) s1 _ _ _
    refine wp_mono (Stands.acts E h1 (insert_any E h1.ground cs[j]) rfl) (fun _ s2 h2 => ?_) (fun _ _ h => h) (fun _ h => h)
    have := fin _ s2 h2 ⟨j, _, hj, hc, .inr ⟨hne, l, w1, w2, r, ⟨hl, hr, ht⟩, ?_⟩⟩
    · rw [wp_bind] at this
      exact this
    · have e : b.put (texts H) (decide (w1 ≠ [])) (if w1 = [] then b.desk.sheet else b.desk.sheet.put l b.desk.sheet.right)
          = b.drop (texts H) false l w1 := by
        unfold Bench.drop
        split <;> rename_i hw1
        · simp [hw1]
        · simp only [ne_eq, hw1, not_false_eq_true, decide_true]; rfl
      rw [e]
      rfl
  simp only [wp_bind]
  rw [wp_modify, hjn]
  show Wp (isWhole cs i) { s with showCompletionsHint := none } _ _ _
  cases i with
  | none =>
    show Wp (dropCandidate E false) _ _ _ _
    simp only [dropCandidate, Bool.false_eq_true, if_false]
    exact del (by simp)
  | some x =>
    have hx := hi x rfl
    obtain ⟨b0, hb0, hbd⟩ := text?_eq.mp h.at.1
    simp only [isWhole, wp_bind, wp_curBuf, wp_ofOption, wp_pure]
    refine ⟨fun b1 hb1 => ⟨fun c hcx => ?_, fun hcx => ?_⟩, fun hn => ?_⟩
    · have hb1 : s.curBuf? = some b1 := hb1
      rw [hb0] at hb1; cases hb1
      by_cases he : cs[x]? = some b.desk.text
      · rw [hcx] at he
        cases he
        rw [show b0.eq (Buffer.ofText b.desk.text) = true from by simp [Buffer.eq, Buffer.ofText, hbd, Desk.text]]
        simp only [dropCandidate, if_true]
        have ha := whole_acts E h0.ground cs[j]
        have h1 := Stands.acts E h0 ha rfl
        simp only [wp_bind] at h1 ⊢
        refine wp_mono h1 (fun _ s1 h1 => ?_) (fun _ _ h => h) (fun _ h => h)
        refine wp_mono h1 (fun _ s1 h1 => ?_) (fun _ _ h => h) (fun _ h => h)
        rw [hc]
        refine ⟨fun c' e => ?_, by simp⟩
        cases e
        refine wp_mono h1 (fun _ s2 h2 => ?_) (fun _ _ h => h) (fun _ h => h)
        have := fin _ s2 h2 ⟨j, _, hj, hc, .inl ⟨⟨x, rfl, hcx⟩, rfl⟩⟩
        rw [wp_bind] at this
        exact this
      · rw [show b0.eq (Buffer.ofText c) = false from by
          rw [hcx] at he
          simp only [Buffer.eq, Buffer.ofText, hbd, beq_eq_false_iff_ne, ne_eq]
          exact fun h => he (congrArg some h.symm)]
        simp only [dropCandidate, Bool.false_eq_true, if_false]
        have := del (fun y hy => by cases hy; exact he)
        simp only [wp_ofOption] at this
        exact this
    · rw [List.getElem?_eq_getElem hx] at hcx; cases hcx
    · have hn : s.curBuf? = none := hn
      rw [hb0] at hn; cases hn

/-! ### Keys on the table -/

/-- The editor holds the table. -/
structure Tabled (H : History) (k : Emacs) (s : Ed) (t : Table) : Prop where
  stands : Stands H k s t.bench
  list : s.showCompletionsHint = t.list
  fine : ∀ cs i, t.list = some (cs, i) → cs ≠ [] ∧ ∀ x, i = some x → x < cs.length

theorem Stands.noEol (h : Stands H k s b) : s.noEol = false := by
  obtain ⟨d, o⟩ := b
  cases o with
  | none =>
    have h : OnDesk H k s d := h
    exact h.1.here.ne
  | some f => exact (Sought.pend h).ne

theorem keeps_iff (h : Stands H k s b) : keeps s key ↔ Table.keeps (texts H) key b = true := by
  have h1 : s.autosuggestion.isSome = (b.suggestion (texts H)).isSome := by
    rw [← h.suggestion]; unfold sugText; simp
  have h2 : cursorIsAtEndOfLine s = .ok true s ↔ b.desk.right = [] := by
    obtain ⟨b0, hb0, hbd⟩ := text?_eq.mp h.at.1
    unfold cursorIsAtEndOfLine
    rw [bind_ok (m := curBuf) (a := b0) (s' := s) (by unfold curBuf; rw [hb0]), bind_ok (m := M.get) (a := s) (s' := s) rfl, h.noEol]
    show Out.ok (decide (s.cursor = b0.numChars)) s = .ok true s ↔ _
    rw [h.at.2, Buffer.numChars, hbd]
    simp [List.length_eq_zero_iff, eq_comm]
  unfold keeps Table.keeps Sheet.takes
  rw [h1, h2]
  show _ ↔ _
  simp only [Bool.or_eq_true, decide_eq_true_eq, Bool.and_eq_true]
  show _ ↔ (_ ∨ _) ∨ (_ ∧ (_ ∨ (_ ∧ b.desk.right = [])))
  tauto

variable (comp : Text → List Text) {t : Table}

/-- The key Tab. -/
theorem tab_step (hw : E.words = getBufferWords) (h : Tabled H k s t) :
    Wp (Emacs.keyMap.handleKey E comp (.char '\t')) (k, s)
      (fun done t' => done = false ∧ ∃ o, Table.Next (texts H) (.char '\t') comp t o ∧ ∀ u, o = some u → Tabled H t'.1 t'.2 u)
      (fun _ _ => True) (· ≠ .op) := by
  obtain ⟨b0, hb, hbd⟩ := text?_eq.mp h.stands.at.1
  rw [wp_congr (handleKey_eq Emacs.keyMap E comp (t := (k, s)) hb _), wp_bind]
  have : KeyMap.translate (.char '\t') = .char '\t' := by decide
  rw [this, wp_congr (dispatch_tab Emacs.keyMap E comp (k, s)), wp_bind, wp_ed]
  have key : Wp (complete E comp) s
      (fun _ s' => ∃ o, Table.Next (texts H) (.char '\t') comp t o ∧ ∀ u, o = some u → Tabled H k s' u)
      (fun _ _ => True) (· ≠ .op) := by
    obtain ⟨b, l⟩ := t
    cases l with
    | none =>
      unfold complete
      have hn : s.showCompletionsHint = none := h.list
      rw [wp_bind, wp_get, hn]
      refine wp_mono (first_stands E comp hw h.stands hn) (fun _ s' h' => ?_) (fun _ _ h => h) (fun _ h => h)
      obtain ⟨o, h1, h2⟩ := h'
      refine ⟨o, by unfold Table.Next; rw [if_pos rfl]; exact h1, fun u hu => ?_⟩
      obtain ⟨g1, g2, g3⟩ := h2 u hu
      exact ⟨g1, g2, fun cs i e => ⟨(g3 cs i e).1, fun x hx => by rw [(g3 cs i e).2] at hx; cases hx⟩⟩
    | some p =>
      obtain ⟨cs, i⟩ := p
      obtain ⟨f1, f2⟩ := h.fine cs i rfl
      refine wp_mono (next_stands E comp hw h.stands h.list f1 f2) (fun _ s' h' => ?_) (fun _ _ h => h) (fun _ h => h)
      obtain ⟨u, j, g1, g2, g3, g4, g5⟩ := h'
      refine ⟨some u, by unfold Table.Next; rw [if_pos rfl]; exact g1, fun u' hu => ?_⟩
      cases hu
      refine ⟨g2, g3, fun cs' i' e => ?_⟩
      rw [g4] at e
      cases e
      exact ⟨f1, fun x hx => by cases hx; exact g5⟩
  refine wp_mono key (fun _ s' h1 => ?_) (fun _ _ h => h) (fun _ h => h)
  rw [wp_pure, wp_bind, wp_ed, wp_flush]
  refine ⟨fun _ => ⟨rfl, ?_⟩, fun _ => trivial⟩
  obtain ⟨o, h2, h3⟩ := h1
  refine ⟨o, h2, fun u hu => ?_⟩
  have h4 := h3 u hu
  exact ⟨h4.stands.listed s'.showCompletionsHint (s'.tick + 1), h4.list, h4.fine⟩

/-- One key on the table. -/
theorem table_step (hw : E.words = getBufferWords) (hH : H.share = false) (h : Tabled H k s t)
    (hn : key ≠ .char '\n') (hc : key ≠ .ctrl 'c') (hd : ¬ (key = .ctrl 'd' ∧ t.bench.desk.text = [])) :
    Wp (Emacs.keyMap.handleKey E comp key) (k, s)
      (fun done t' => done = false ∧ ∃ o, Table.Next (texts H) key comp t o ∧ ∀ u, o = some u → Tabled H t'.1 t'.2 u)
      (fun _ _ => True) (· ≠ .op) := by
  by_cases ht : key = .char '\t'
  · subst ht
    exact tab_step E comp hw h
  have hl : Bench.leaves key = false := by
    cases key with
    | char c =>
      simp only [ne_eq, Key.char.injEq] at ht hn
      simp [Bench.leaves, ht, hn]
    | ctrl c =>
      simp only [ne_eq, Key.ctrl.injEq] at hc
      simp [Bench.leaves, hc]
    | _ => rfl
  refine wp_mono (wp_and (bench_step E comp hw hH h.stands hl hd) (key_list E comp Emacs.keyMap (k, s) ht)) (fun done t' h1 => ?_)
    (fun _ _ h => h.1) (fun _ h => h.1)
  obtain ⟨⟨h2, c, h3, h4⟩, h5, h6⟩ := h1
  refine ⟨h2, some ⟨c, if Table.keeps (texts H) key t.bench then t.list else none⟩, ?_, ?_⟩
  · unfold Table.Next
    rw [if_neg ht]
    exact ⟨c, h3, rfl⟩
  · intro u hu
    cases hu
    by_cases hk : Table.keeps (texts H) key t.bench = true
    · rw [if_pos hk]
      exact ⟨h4, (h5 ((keeps_iff h.stands).mpr hk)).trans h.list, h.fine⟩
    · rw [if_neg hk]
      exact ⟨h4, h6 (fun h' => hk ((keeps_iff h.stands).mp h')), by simp⟩

/-- Enter while a list is shown. -/
theorem enter_listed (h : Tabled H k s t) (hl : t.list ≠ none) : Wp (Emacs.keyMap.handleKey E comp (.char '\n')) (k, s)
    (fun done t' => done = false ∧ Tabled H t'.1 t'.2
      ⟨⟨(t.bench.enter (texts H)).write false true (t.bench.enter (texts H)).sheet, none⟩, none⟩) (fun _ _ => True) (· ≠ .op) := by
  obtain ⟨b0, hb, hbd⟩ := text?_eq.mp h.stands.at.1
  rw [wp_congr (handleKey_eq Emacs.keyMap E comp (t := (k, s)) hb _), wp_bind]
  have : KeyMap.translate (.char '\n') = .char '\n' := by decide
  rw [this, wp_congr (dispatch_newline Emacs.keyMap E comp (k, s)), wp_ed]
  refine wp_mono (newline_listed E h.stands (by rw [h.list]; exact hl)) (fun done s' h1 => ?_) (fun _ _ h => h) (fun _ h => h)
  rw [wp_bind, wp_ed, wp_flush]
  obtain ⟨rfl, h2, h3⟩ := h1
  exact ⟨fun _ => ⟨rfl, h3.listed s'.showCompletionsHint (s'.tick + 1), h2, by simp⟩, fun _ => trivial⟩

/-- Ctrl-D is never pressed on an empty line, and the table always describes the editor. -/
def NeverLost (entries : List Text) (keys : List (Key × (Text → List Text))) (t : Table) : Prop :=
  (∀ a comp c, keys = a ++ (.ctrl 'd', comp) :: c → ∀ e, Table.Run entries a t (some e) → e.bench.desk.text ≠ []) ∧
    ¬ Table.Run entries keys t none

theorem neverLost_next {entries : List Text} {keys : List (Key × (Text → List Text))} {m : Table}
    (h : NeverLost entries ((key, comp) :: keys) t) (hm : t.Next entries key comp (some m)) : NeverLost entries keys m := by
  refine ⟨fun a comp' c hac q hq => ?_, fun hr => h.2 ⟨some m, hm, hr⟩⟩
  exact h.1 ((key, comp) :: a) comp' c (by rw [hac]; rfl) q ⟨some m, hm, hq⟩

theorem press_table (hw : E.words = getBufferWords) (hH : H.share = false) : ∀ (keys : List (Key × (Text → List Text))),
    (∀ x ∈ keys, x.1 ≠ .char '\n' ∧ x.1 ≠ .ctrl 'c') → ∀ (k : Emacs) (s : Ed) (t : Table), Tabled H k s t →
    Wp (press Emacs.keyMap E keys) (k, s)
      (fun _ t' => ∃ o, Table.Run (texts H) keys t o ∧ ∀ u, o = some u → Tabled H t'.1 t'.2 u)
      (fun e _ => NeverLost (texts H) keys t → e = .io ∧ ¬ Works E)
      (fun w => NeverLost (texts H) keys t → w ≠ .op)
  | [], _, k, s, t, h => ⟨some t, rfl, fun u hu => by cases hu; exact h⟩
  | (key, comp) :: keys, hk, k, s, t, h => by
    unfold press
    rw [wp_bind]
    have ht : text? (k, s).2 = some t.bench.desk.text := h.stands.at.1
    obtain ⟨hk1, hk2⟩ := hk _ (List.mem_cons_self ..)
    by_cases hd : key = .ctrl 'd' ∧ t.bench.desk.text = []
    · have hne : ¬ NeverLost (texts H) ((key, comp) :: keys) t := by
        intro hne
        exact hne.1 [] comp keys (by simp [hd.1]) t rfl hd.2
      refine wp_mono (stop_bench E comp h.stands (.inr hd)) (fun _ _ h => h.elim) (fun _ _ _ h => absurd h hne) (fun _ _ h => absurd h hne)
    · refine wp_mono (wp_and (table_step E comp hw hH h hk1 hk2 hd) (key_errs E comp (k, s) key))
        (fun _ t1 h3 => ?_) (fun _ _ h3 _ => ?_) (fun _ h _ => h.1)
      · obtain ⟨⟨-, o, h4, h5⟩, -⟩ := h3
        cases o with
        | none =>
          have lost : Table.Run (texts H) ((key, comp) :: keys) t none := ⟨none, h4, rfl⟩
          have hne : ¬ NeverLost (texts H) ((key, comp) :: keys) t := fun h => h.2 lost
          unfold Wp
          split
          · exact ⟨none, lost, by simp⟩
          · exact fun h => absurd h hne
          · exact fun h => absurd h hne
        | some m =>
          refine wp_mono (press_table hw hH keys (fun y hy => hk y (List.mem_cons_of_mem _ hy)) t1.1 t1.2 m (h5 m rfl)) (fun _ t2 h6 => ?_)
            (fun _ _ h hne => h (neverLost_next comp hne h4)) (fun _ h hne => h (neverLost_next comp hne h4))
          obtain ⟨q, h7, h8⟩ := h6
          exact ⟨q, ⟨some m, h4, h7⟩, h8⟩
      · rcases h3.2 with h4 | ⟨-, h4⟩ | ⟨-, h4, h5⟩
        · exact h4
        · exact absurd h4 hk2
        · rw [ht] at h5; exact absurd ⟨h4, Option.some.inj h5⟩ hd

theorem loop_table (hw : E.words = getBufferWords) (hH : H.share = false) : ∀ (input : List KeyMap.Input),
    ∀ (k : Emacs) (s : Ed) (t : Table), Tabled H k s t →
    Wp (Emacs.keyMap.loop E input) (k, s)
      (fun txt _ => ¬ Table.Reads (texts H) (input.map Table.heard) t none →
        Table.Reads (texts H) (input.map Table.heard) t (some (.line txt)))
      (fun e _ => ¬ Table.Reads (texts H) (input.map Table.heard) t none →
        Table.Reads (texts H) (input.map Table.heard) t (some (.stop e)) ∨ (e = .io ∧ ¬ Works E))
      (fun w => ¬ Table.Reads (texts H) (input.map Table.heard) t none → w ≠ .op)
  | [], k, s, t, h => by
    unfold KeyMap.loop
    rw [wp_bind, wp_ed, wp_get]
    have : intoText s = some t.bench.desk.text := h.stands.at.1
    rw [this]
    exact fun _ => rfl
  | .ioErr :: _, k, s, t, h => fun _ => .inl rfl
  | .key key comp :: rest, k, s, t, h => by
    have ih := loop_table hw hH rest
    have h2 := key_errs E comp (k, s) key
    have ht : text? (k, s).2 = some t.bench.desk.text := h.stands.at.1
    have hr : ∀ o, Table.Reads (texts H) ((KeyMap.Input.key key comp :: rest).map Table.heard) t o ↔
      if key = .ctrl 'c' then o = some (.stop .interrupted)
      else if key = .ctrl 'd' ∧ t.bench.desk.text = [] then o = some (.stop .unexpectedEof)
      else if key = .char '\n' then
        let d := t.bench.enter (texts H)
        if t.list ≠ none then Table.Reads (texts H) (rest.map Table.heard) ⟨⟨d.write false true d.sheet, none⟩, none⟩ o
        else if d.left.getLast? = some '\\' then Table.Reads (texts H) (rest.map Table.heard)
          ⟨⟨d.write true true (d.sheet.put (d.left ++ ['\n']) d.right), none⟩, none⟩ o
        else o = some (.line d.text)
      else ∃ m, t.Next (texts H) key comp m ∧ match m with
        | none => o = none
        | some m => Table.Reads (texts H) (rest.map Table.heard) m o := fun o => Iff.rfl
    simp only [hr]
    clear hr
    unfold KeyMap.loop
    rw [wp_bind]
    have err : ∀ e : IoErr, ((e = .io ∧ ¬ Works E) ∨ (e = .interrupted ∧ key = .ctrl 'c') ∨
        (e = .unexpectedEof ∧ key = .ctrl 'd' ∧ text? (k, s).2 = some [])) → key ≠ .ctrl 'c' →
        ¬ (key = .ctrl 'd' ∧ t.bench.desk.text = []) → e = .io ∧ ¬ Works E := by
      rintro e (h | ⟨-, h⟩ | ⟨-, h, h'⟩) h3 h4
      · exact h
      · exact absurd h h3
      · rw [ht] at h'; exact absurd ⟨h, Option.some.inj h'⟩ h4
    by_cases hc : key = .ctrl 'c'
    · simp only [if_pos hc]
      refine wp_mono (wp_and (stop_bench E comp h.stands (.inl hc)) h2) (fun _ _ h => h.1.elim) (fun e _ h3 _ => ?_) (fun _ h _ => h.1)
      rcases h3.2 with h4 | ⟨rfl, -⟩ | ⟨-, h4, -⟩
      · exact .inr h4
      · exact .inl rfl
      · rw [hc] at h4; cases h4
    simp only [if_neg hc]
    by_cases hd : key = .ctrl 'd' ∧ t.bench.desk.text = []
    · simp only [if_pos hd]
      refine wp_mono (wp_and (stop_bench E comp h.stands (.inr hd)) h2) (fun _ _ h => h.1.elim) (fun e _ h3 _ => ?_) (fun _ h _ => h.1)
      rcases h3.2 with h4 | ⟨-, h4⟩ | ⟨rfl, -⟩
      · exact .inr h4
      · exact absurd h4 hc
      · exact .inl rfl
    simp only [if_neg hd]
    by_cases hn : key = .char '\n'
    · subst hn
      simp only [if_pos]
      by_cases hl : t.list = none
      · have hh : s.showCompletionsHint = none := h.list.trans hl
        simp only [hl, ne_eq, not_true_eq_false, if_false]
        refine wp_mono (wp_and (wp_and (enter_bench E comp h.stands hh) h2) (key_dry E comp Emacs.keyMap (k, s) (by simp) hh))
          (fun done t1 h3 => ?_) (fun e _ h3 _ => .inr (err e h3.1.2 hc hd)) (fun _ h _ => h.1.1)
        obtain ⟨⟨h3, -⟩, h5⟩ := h3
        by_cases hl : (t.bench.enter (texts H)).left.getLast? = some '\\'
        · simp only [if_pos hl]
          obtain ⟨rfl, h4⟩ := h3.1 hl
          exact ih t1.1 t1.2 _ ⟨h4, h5, by simp⟩
        · simp only [if_neg hl]
          obtain ⟨rfl, h4⟩ := h3.2 hl
          rw [if_pos rfl, wp_bind, wp_ed, wp_get]
          have : intoText t1.2 = some (t.bench.enter (texts H)).text := h4
          rw [this]
          exact fun _ => rfl
      · simp only [ne_eq, hl, not_false_eq_true, if_true]
        refine wp_mono (wp_and (enter_listed E comp h hl) h2) (fun done t1 h3 => ?_) (fun e _ h3 _ => .inr (err e h3.2 hc hd))
          (fun _ h _ => h.1)
        obtain ⟨⟨rfl, h4⟩, -⟩ := h3
        exact ih t1.1 t1.2 _ h4
    simp only [if_neg hn]
    refine wp_mono (wp_and (table_step E comp hw hH h hn hc hd) h2) (fun done t1 h3 => ?_) (fun e _ h3 _ => .inr (err e h3.2 hc hd))
        (fun _ h _ => h.1)
    obtain ⟨⟨rfl, o, h4, h5⟩, h6⟩ := h3
    rw [if_neg (by simp)]
    cases o with
    | none =>
      unfold Wp
      split
      · exact fun hx => absurd ⟨none, h4, trivial⟩ hx
      · exact fun hx => absurd ⟨none, h4, trivial⟩ hx
      · exact fun hx => absurd ⟨none, h4, trivial⟩ hx
    | some m =>
      refine wp_mono (ih t1.1 t1.2 m (h5 m rfl)) (fun _ _ h hx => ⟨some m, h4, h fun hr => hx ⟨some m, h4, hr⟩⟩)
        (fun _ _ h hx => ?_) (fun _ h hx => h fun hr => hx ⟨some m, h4, hr⟩)
      exact (h fun hr => hx ⟨some m, h4, hr⟩).imp (fun h => ⟨some m, h4, h⟩) id

theorem start_table (pr pr' : Prompt) (H : History) (fs : FS) (t : Text) : Wp (start E pr) (initial pr' H fs (.ofText t))
    (fun _ s1 => Tabled H {} s1 ⟨⟨.fresh t, none⟩, none⟩) (fun e _ => e = .io ∧ ¬ Works E) (fun w => w = .op → E.ttyWidth = some 0) :=
  wp_mono (wp_and (start_desk E pr pr' H fs t) (dry_start E pr _)) (fun _ _ h => ⟨h.1, h.2, by simp⟩) (fun _ _ h => h.1) (fun _ h => h.1)

theorem session_table (hw : E.words = getBufferWords) (pr pr' : Prompt) (H : History) (hH : H.share = false) (fs : FS) (t : Text)
    (keys : List (Key × (Text → List Text))) (hk : ∀ x ∈ keys, x.1 ≠ .char '\n' ∧ x.1 ≠ .ctrl 'c') :
    Wp (session Emacs.keyMap E pr keys) ({}, initial pr' H fs (.ofText t))
      (fun _ t' => ∃ o, Table.Run (texts H) keys ⟨⟨.fresh t, none⟩, none⟩ o ∧ ∀ u, o = some u → Tabled H t'.1 t'.2 u)
      (fun _ _ => NeverLost (texts H) keys ⟨⟨.fresh t, none⟩, none⟩ → ¬ Works E)
      (fun w => NeverLost (texts H) keys ⟨⟨.fresh t, none⟩, none⟩ → w = .op → E.ttyWidth = some 0) := by
  unfold session
  rw [wp_bind, wp_ed]
  refine wp_mono (start_table E pr pr' H fs t) (fun _ s1 h1 => ?_) (fun _ _ h _ => h.2) (fun _ h _ => h)
  show Wp (pure () >>= fun _ => press Emacs.keyMap E keys) _ _ _ _
  rw [wp_bind, wp_pure]
  exact wp_mono (press_table E hw hH keys hk _ s1 _ h1) (fun _ _ h => h) (fun _ _ h hne => (h hne).2)
    (fun _ h hne hw => absurd hw (h hne))

theorem read_table (hw : E.words = getBufferWords) (pr pr' : Prompt) (H : History) (hH : H.share = false) (fs : FS) (t : Text)
    (input : List KeyMap.Input) (hn : ¬ Table.Reads (texts H) (input.map Table.heard) ⟨⟨.fresh t, none⟩, none⟩ none) :
    Wp (Emacs.keyMap.readLine E pr input) ({}, initial pr' H fs (.ofText t))
      (fun txt _ => Table.Reads (texts H) (input.map Table.heard) ⟨⟨.fresh t, none⟩, none⟩ (some (.line txt)))
      (fun e _ => Table.Reads (texts H) (input.map Table.heard) ⟨⟨.fresh t, none⟩, none⟩ (some (.stop e)) ∨ (e = .io ∧ ¬ Works E))
      (fun w => w = .op → E.ttyWidth = some 0) := by
  unfold KeyMap.readLine KeyMap.handleKeys
  rw [wp_bind, wp_ed]
  refine wp_mono (start_table E pr pr' H fs t) (fun _ s1 h1 => ?_) (fun _ _ h => .inr h) (fun _ h => h)
  show Wp (pure () >>= fun _ => Emacs.keyMap.loop E input) _ _ _ _
  rw [wp_bind, wp_pure]
  exact wp_mono (loop_table E hw hH input _ s1 _ h1) (fun _ _ h => h hn) (fun _ _ h => h hn) (fun _ h hw => absurd hw (h hn))

end
end Props
end Liner
