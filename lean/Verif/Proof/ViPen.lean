import Verif.Proof.ViPast
import Verif.Proof.ViEnter
import Verif.Proof.ViMoved
/-
Insertions with movements, keys given up and `dd` on the board.
-/

set_option linter.unusedSectionVars false

namespace Liner
namespace Vi
open Liner.Spec Liner.Editor M KM

section
variable [Around] (E : Env) {e e' : Bool} {v v' : Vi} {s : Ed} {b0 : Buffer}

/-! ### What begins an insertion -/

omit [Around] in
/-- The key map after the keys that begin an insertion. -/
structure Entered (op : Opening) (n : Nat) (v v1 : Vi) : Prop where
  stack : v1.modeStack = [.insert]
  reset : v1.movementReset = false
  search : v1.lastCharMovement = op.search v.lastCharMovement
  times : dotCount 0 v1.lastCount = op.keeps n
  more : v1.count - 1 = op.more n
  plain : v1.count ≠ 0 → ∃ c, op = .insert c
  record : ∀ ch, op.making [] = some ch → v1.lastInsert = opener ch ∧ v1.lastCommand = record ch

theorem opening_done {n : Nat} {op : Opening} {ds : List Char} {l r : Text} (hC : Apart E.cc) (hd : Digits ds)
    (hc : op.Can v.lastCharMovement (l ++ r)) (hr : r ≠ [] ∨ l = []) (hv : v.modeStack = []) :
    ∃ v1 p, Whole E n (op.keys ds) v true (l, r) v1 false p ∧ Entered op (op.total v.moveCount ds) v v1 ∧
      Opens E.cc (op.total v.moveCount ds) l r op p := by
  cases op with
  | insert c =>
    have hc : c ∈ ['i', 'a', 'I', 'A'] := hc
    have key : ∀ p : Text × Text, (c, p) ∈ [('i', l, r), ('a', l ++ r.take 1, r.drop 1), ('I', [], l ++ r), ('A', l ++ r, [])] →
        (∀ s, Open true s l r → Gives (coreFuel E (n + 2) (.char c)) (v, s) (entered v (.char c)) false p.1 p.2) →
        ∃ v1 p, Whole E n (Opening.keys ds (.insert c)) v true (l, r) v1 false p ∧
          Entered (.insert c) (Opening.total v.moveCount ds (.insert c)) v v1 ∧ Opens E.cc (Opening.total v.moveCount ds (.insert c)) l r (.insert c) p := by
      intro p hp hg
      refine ⟨_, p, .one E hg, ⟨rfl, rfl, rfl, rfl, moveCount_pred v, fun _ => ⟨c, rfl⟩, ?_⟩, hp⟩
      rintro ch ⟨⟩
      exact ⟨rfl, rfl⟩
    simp only [List.mem_cons, List.not_mem_nil, or_false] at hc
    rcases hc with rfl | rfl | rfl | rfl
    · exact key (l, r) (by simp) fun s h => (wp_congr (core_normal E hv)).mpr (i_gives E _ hv h)
    · exact key (l ++ r.take 1, r.drop 1) (by simp) fun s h => (wp_congr (core_normal E hv)).mpr (a_gives E _ hv h)
    · exact key ([], l ++ r) (by simp) fun s h => (wp_congr (core_normal E hv)).mpr (I_gives E _ hv h)
    · exact key (l ++ r, []) (by simp) fun s h => (wp_congr (core_normal E hv)).mpr (A_gives E _ hv h)
  | subst =>
    refine ⟨_, (l, r.drop v.moveCount), .one E fun s h => (wp_congr (core_normal E hv)).mpr (s_gives E _ hv h),
      ⟨rfl, rfl, rfl, rfl, rfl, fun h => absurd rfl h, ?_⟩, rfl⟩
    rintro ch ⟨⟩
    exact ⟨rfl, rfl⟩
  | change m ks =>
    let v2 : Vi := { v with currentCommand := [], currentInsert := some (.char 'c'), movementReset := true, modeStack := [.delete l.length, .insert], lastCount := 0, lastCommand := [], secondaryCount := v.count, count := 0 }
    obtain ⟨q, v', hq, ho, hg⟩ := oper_done E (n := n) (v := v) (v2 := v2) (base := [.insert]) hC hd hc.1 hc.2 hr rfl (.inr rfl) rfl rfl
    rw [show decide (([.insert] : List Mode) = []) = false from rfl, rest_false] at hg
    refine ⟨v', _, .cons (p1 := (l, r)) (fun s h => c_gives E hv h) hg, ⟨ho.stack, ho.reset, ho.search, ?_, ?_, ?_, ?_⟩, q, hq, rfl⟩
    · rw [(oper_kept (ts := []) hd rfl ho).2]
      cases m <;> rfl
    · rw [ho.count]; rfl
    · exact fun h => absurd ho.count h
    · rintro ch ⟨⟩
      exact ⟨ho.insert, by rw [ho.command]; show [] ++ ks = ks ++ []; simp⟩
  | line =>
    let v2 : Vi := { v with currentCommand := [], currentInsert := some (.char 'c'), movementReset := true, modeStack := [.delete l.length, .insert], lastCount := 0, lastCommand := [], secondaryCount := v.count, count := 0 }
    have hdig := digits_chain E (n := n) (b := true) (e := false) (p := (l, r)) ds 0 v2 hd.1 (.inr hd.2) rfl (.inr ⟨_, _, rfl⟩)
    refine ⟨_, ([], []), .cons (p1 := (l, r)) (fun s h => c_gives E hv h) (hdig.append E (.one E (.wait rfl (by simp) (by simp) ?_)
      fun s h => (wp_congr (core_delete E rfl)).mpr (line_gives E _ rfl (.inl ⟨rfl, rfl⟩) (.inr rfl) h))), ⟨rfl, rfl, rfl, rfl, rfl, fun h => absurd rfl h, ?_⟩, rfl⟩
    · intro _; simp [Vi.mode]
    · intro ch h; cases h
  | tail =>
    refine ⟨_, (l, []), .one E fun s h => (wp_congr (core_normal E hv)).mpr (C_gives E _ hv h),
      ⟨rfl, rfl, rfl, rfl, rfl, fun h => absurd rfl h, ?_⟩, rfl⟩
    intro ch h; cases h

/-! ### Keys during an insertion -/

/-- The pen shows the editor and the key map. -/
structure Inks (pen : Pen) (full : Bool) (last : Option (Char × CharMovement)) (t : Vi × Ed) : Prop where
  stack : t.1.modeStack = [.insert]
  here : Open false t.2 pen.left pen.right
  moved : t.1.movementReset = pen.moved
  last : t.1.lastCharMovement = last
  record : ∀ ch, pen.how.making pen.typed = some ch → t.1.lastInsert = opener ch ∧ t.1.lastCommand = record ch
  more : t.1.count - 1 = pen.more
  plain : t.1.count ≠ 0 → pen.moved = false ∧ (∃ c, pen.how = .insert c) ∧ pen.times = 1
  kept : ∀ ch, pen.how.making pen.typed = some ch → ch.keeps pen.times = pen.times
  types : ∀ k ∈ pen.typed, Types k
  times : dotCount 0 t.1.lastCount = pen.times
  log : ∃ b0 : Buffer, (b0.data = pen.since ∧ Past full pen.past (b0.data, b0.actions)) ∧
    ∃ b es, workBuf t.2 = some b ∧ Opened es ∧ b.actions = es ++ b0.actions ∧ Path es b0.data b.data

theorem Inks.typing {pen : Pen} {full : Bool} {last : Option (Char × CharMovement)} {t : Vi × Ed} (h : Inks pen full last t)
    (hc : t.1.count ≠ 0) : t.1.lastCommand = pen.typed := by
  obtain ⟨-, ⟨c, hh⟩, -⟩ := h.plain hc
  exact (h.record (.insert c pen.typed) (by rw [hh]; rfl)).2

/-- The command so far. -/
theorem Inks.cmd {pen : Pen} {full : Bool} {last : Option (Char × CharMovement)} {t : Vi × Ed} (h : Inks pen full last t)
    (hv : VI t) : ∃ b0 : Buffer, (b0.data = pen.since ∧ Past full pen.past (b0.data, b0.actions)) ∧
      Cmd b0 ({ t.1 with movementReset := false }, t.2) := by
  obtain ⟨b0, h0, b, es, h1, h2, h3, h4⟩ := h.log
  refine ⟨b0, h0, ⟨hv.modK rfl ⟨hv.esc.1, hv.esc.2⟩, h.here.quiet, ⟨b, es, h1, ?_, h3, h4⟩, fun _ => ⟨rfl, ?_⟩⟩⟩
  · rw [show ({ t.1 with movementReset := false } : Vi).modeStack = [.insert] from h.stack]
    simpa [Shape] using h2
  · by_cases hc : t.1.count = 0
    · exact .inl hc
    · refine .inr fun k hk => typing_of (h.types k ?_)
      rw [← h.typing hc]; exact hk

theorem making_snoc {op : Opening} {ts : List Key} {k : Key} {ch : Change} (h : op.making (ts ++ [k]) = some ch) :
    ∃ ch', op.making ts = some ch' ∧ opener ch = opener ch' ∧ record ch = record ch' ++ [k] ∧ ∀ n, ch.keeps n = ch'.keeps n := by
  cases op <;> cases h
  · exact ⟨_, rfl, rfl, rfl, fun _ => rfl⟩
  · exact ⟨_, rfl, rfl, rfl, fun _ => rfl⟩
  · rename_i m ks
    exact ⟨_, rfl, rfl, by simp [record], fun _ => by cases m <;> rfl⟩

/-- A key typed. -/
theorem inks_type {n : Nat} {pen : Pen} {full : Bool} {last : Option (Char × CharMovement)} {t : Vi × Ed} {k : Key}
    (hv : VI t) (h : Inks pen full last t) (hk : Types k) (hm : pen.moved = false) :
    Wp (coreFuel E (n + 2) k) t (fun _ t' => ∃ pen', Pen.Step k pen pen' ∧ Inks pen' full last t') T2 (· ≠ .op) := by
  obtain ⟨v, s⟩ := t
  obtain ⟨b0, hb0, hcmd⟩ := h.cmd hv
  have hmv : v.movementReset = false := (show v.movementReset = pen.moved from h.moved).trans hm
  have hst : v.modeStack = [.insert] := h.stack
  have hvv : ({ v with movementReset := false } : Vi) = v := by rw [← hmv]
  have hcmd : Cmd b0 (v, s) := by
    have := hcmd
    dsimp only at this
    rwa [hvv] at this
  refine wp_mono (wp_and (type_gives E (n := n + 1) hk hst hmv h.here) (core_next E n hcmd
    (by show v.mode ≠ _; rw [mode_cons hst]; simp) (fun _ => .inl (typing_of hk)))) (fun _ t' h' => ?_) (fun _ _ _ => trivial) (fun _ h => h.1)
  obtain ⟨⟨h1, h2⟩, h3⟩ := h'
  obtain ⟨b, es, g1, g2, g3, g4⟩ := (h3 (fun hi => absurd (mode_cons hst) hi)).log
  rw [show t'.1.modeStack = [.insert] by rw [h1]; exact hst] at g2
  refine ⟨_, .type hk hm, by rw [h1]; exact hst, h2, by rw [h1]; exact h.moved, by rw [h1]; exact h.last, ?_, by rw [h1]; exact h.more,
    by rw [h1]; exact h.plain, ?_, ?_, by rw [h1]; exact h.times, b0, hb0, b, es, g1, by simpa [Shape] using g2, g3, g4⟩
  · intro ch hch
    obtain ⟨ch', g1, g2, g3, -⟩ := making_snoc hch
    rw [h1, g2, g3]
    exact ⟨(h.record ch' g1).1, by rw [← (h.record ch' g1).2]⟩
  · intro ch hch
    obtain ⟨ch', g1, -, -, g4⟩ := making_snoc hch
    rw [g4]; exact h.kept ch' g1
  · intro k' hk'
    rcases List.mem_append.1 hk' with hk' | hk'
    · exact h.types k' hk'
    · simp at hk'; subst hk'; exact hk

theorem core_type {n : Nat} {k : Key} (hk : Types k) : ∃ m : ViM Unit, ∀ (v : Vi) (s : Ed), v.modeStack = [.insert] →
    coreFuel E (n + 1) k (v, s) = (resetInsert >>= fun _ => m) (v, s) := by
  rcases hk with ⟨c, rfl, -⟩ | rfl | rfl
  · exact ⟨_, fun v s hv => core_insert E hv⟩
  · exact ⟨_, fun v s hv => core_insert E hv⟩
  · exact ⟨_, fun v s hv => core_insert E hv⟩

theorem reset_gives {l r : Text} (hm : v.movementReset = true) (h : Open e s l r) :
    Gives resetInsert (v, s) { v with lastCommand := [], movementReset := false, lastInsert := some (.char 'i') } e l r := by
  unfold resetInsert
  refine gives_getK ?_
  rw [hm, if_pos rfl]
  exact gives_bind (gives_onBuf (f := Buffer.endUndoGroup) (fun _ => rfl) h) fun _ s1 h1 =>
    gives_bind (gives_onBuf (f := Buffer.startUndoGroup) (fun _ => rfl) h1) fun _ s2 h2 => gives_modK h2

theorem restart_gives {n : Nat} {k : Key} {l r : Text} (hk : Types k) (hv : v.modeStack = [.insert])
    (hm : v.movementReset = true) (h : Open false s l r) :
    GivesP (coreFuel E (n + 1) k) (v, s) { v with lastCommand := [k], movementReset := false, lastInsert := some (.char 'i') }
      false (typeKey (l, r) k) := by
  obtain ⟨m, he⟩ := core_type E (n := n) hk
  refine (wp_congr (he v s hv)).mpr (gives_bind (reset_gives hm h) fun _ s1 h1 => ?_)
  have := type_gives E (n := n) (v := { v with lastCommand := [], movementReset := false, lastInsert := some (.char 'i') }) hk hv rfl h1
  have heq := he { v with lastCommand := [], movementReset := false, lastInsert := some (.char 'i') } s1 hv
  exact (wp_congr (show m ({ v with lastCommand := [], movementReset := false, lastInsert := some (.char 'i') }, s1) = _ from heq.symm)).mpr this

/-- A key typed after a movement: first the step for undo is ended. -/
theorem inks_restart {pen : Pen} {full : Bool} {last : Option (Char × CharMovement)} {t : Vi × Ed} {k : Key}
    (hv : VI t) (h : Inks pen full last t) (hk : Types k) (hm : pen.moved = true) :
    Wp (handleKeyCore E k) t (fun _ t' => ∃ pen', Pen.Step k pen pen' ∧ Inks pen' full last t') T2 (· ≠ .op) := by
  obtain ⟨v, s⟩ := t
  have hmv : v.movementReset = true := (show v.movementReset = pen.moved from h.moved).trans hm
  have hst : v.modeStack = [.insert] := h.stack
  have hc0 : v.count = 0 := Classical.byContradiction fun hc => by
    have := (h.plain hc).1; rw [hm] at this; cases this
  obtain ⟨b0, ⟨hd, hp⟩, b, es, g1, g2, g3, g4⟩ := h.log
  have hp' : Path ([.endGroup] ++ es) b0.data b.data := .cons g4 (by constructor)
  have hbt : b.data = pen.text := by
    obtain ⟨b', hb', e⟩ := curBuf_of_workBuf g1
    obtain ⟨b2, hb2, e2⟩ := text?_eq.mp h.here.here.1
    rw [hb'] at hb2; cases hb2
    exact e.trans e2
  have hba : b.endUndoGroup.actions = [.endGroup] ++ es ++ b0.actions := by
    show Action.endGroup :: b.actions = _; rw [g3]; rfl
  have hcmd := reset_cmd E (typing_of hk) (t := (v, s)) hv h.here.quiet hst hmv hc0 g1
  refine wp_mono (wp_and (restart_gives E (n := 7) hk hst hmv h.here) hcmd) (fun _ t' h' => ?_) (fun _ _ _ => trivial) (fun _ h => h.1)
  obtain ⟨⟨h1, h2⟩, h3⟩ := h'
  obtain ⟨b', es', q1, q2, q3, q4⟩ := h3.log
  rw [show t'.1.modeStack = [.insert] by rw [h1]; exact hst] at q2
  have fin : ∀ past, (past = pen.since :: pen.past ∨ (pen.text = pen.since ∧ past = pen.past)) →
      Past full past (b.data, [.endGroup] ++ es ++ b0.actions) →
      ∃ pen', Pen.Step k pen pen' ∧ Inks pen' full last t' := by
    intro past hpa hpp
    refine ⟨_, .restart hk hm hpa, by rw [h1]; exact hst, h2, by rw [h1], by rw [h1]; exact h.last, ?_, by rw [h1]; exact h.more,
      fun hc => absurd (by rw [h1]; exact hc0) hc, ?_, ?_, by rw [h1]; exact h.times, b.endUndoGroup, ⟨hbt, ?_⟩, b', es', q1,
      by simpa [Shape] using q2, q3, q4⟩
    · rintro ch ⟨⟩
      rw [h1]; exact ⟨rfl, rfl⟩
    · rintro ch ⟨⟩
      rfl
    · intro k' hk'
      simp at hk'; subst hk'; exact hk
    · rw [hba]; exact hpp
  rcases Past.after g2.close hp' hp with hh | ⟨hh, hh'⟩
  · exact fin _ (.inl rfl) (by rw [hd] at hh; exact hh)
  · exact fin _ (.inr ⟨by rw [← hbt, hh, hd], rfl⟩) hh'

theorem core_moves {n : Nat} {k : Key} (hk : Moves k) (hv : v.modeStack = [.insert]) :
    coreFuel E (n + 1) k (v, s) = (ed (handleKeyCommon E k) : ViM Unit) ({ v with count := 0, movementReset := true }, s) := by
  rcases hk with rfl | rfl | rfl | rfl <;> exact core_insert E hv

theorem moves_sets {k : Key} {l r : Text} (hk : Moves k) (h : Open false s l r) :
    Yields (handleKeyCommon E k) false s s (moveKey (l, r) k).1 (moveKey (l, r) k).2 := by
  rcases hk with rfl | rfl | rfl | rfl
  · have := left_sets E h (Side.refl s) 1
    rw [← List.dropLast_eq_take] at this
    exact this
  · exact home_sets E h (Side.refl s)
  · exact end_sets E h (Side.refl s)
  · exact right_sets E h (Side.refl s) 1

theorem moves_quiet {k : Key} (hk : Moves k) : Gw Nothing (handleKeyCommon E k) := by
  rcases hk with rfl | rfl | rfl | rfl
  · exact gw_left E 1
  · exact gw_home E
  · exact gw_end E
  · exact gw_right E 1

theorem Inks.grew {pen : Pen} {full : Bool} {last : Option (Char × CharMovement)} {v' : Vi} {s' : Ed} {l r : Text} {m : Nat} {mv : Bool}
    (h : Inks pen full last (v, s)) (hg : Grew Nothing s s') (ho : Open false s' l r) (hs : v'.modeStack = v.modeStack)
    (hr : v'.movementReset = mv) (hl : v'.lastCharMovement = v.lastCharMovement) (hi : v'.lastInsert = v.lastInsert)
    (hc : v'.lastCommand = v.lastCommand) (hm : v'.count - 1 = m) (hp : v'.count ≠ 0 → mv = false ∧ (∃ c, pen.how = .insert c) ∧ pen.times = 1)
    (ht : v'.lastCount = v.lastCount) :
    Inks ⟨l, r, pen.how, pen.typed, m, pen.times, mv, pen.since, pen.past⟩ full last (v', s') := by
  obtain ⟨b0, h0, b, es, g1, g2, g3, g4⟩ := h.log
  obtain ⟨b', es', q1, rfl, q3, q4⟩ := hg.log b g1
  refine ⟨hs.trans h.stack, ho, hr, hl.trans h.last, fun ch hch => ?_, hm, hp, h.kept, h.types, by rw [ht]; exact h.times, b0, h0, b', es,
    q1, g2, q3.trans g3, by rw [← path_nil q4]; exact g4⟩
  rw [hi, hc]; exact h.record ch hch

/-- A movement. -/
theorem inks_move {n : Nat} {pen : Pen} {full : Bool} {last : Option (Char × CharMovement)} {t : Vi × Ed} {k : Key}
    (h : Inks pen full last t) (hk : Moves k) :
    Wp (coreFuel E (n + 1) k) t (fun _ t' => ∃ pen', Pen.Step k pen pen' ∧ Inks pen' full last t') T2 (· ≠ .op) := by
  obtain ⟨v, s⟩ := t
  unfold Wp
  rw [show coreFuel E (n + 1) k (v, s) = _ from core_moves E hk h.stack]
  change Wp (ed (handleKeyCommon E k)) _ _ _ _
  rw [wp_ed]
  refine wp_mono (wp_and (moves_sets E hk h.here) (moves_quiet E hk s h.here.quiet)) (fun _ s' h' => ?_) (fun _ _ _ => trivial) (fun _ h => h.1)
  have ho := h'.1.here
  rw [rest_false] at ho
  exact ⟨_, .move hk, h.grew h'.2 ho rfl rfl rfl rfl rfl rfl (fun hc => absurd rfl hc) rfl⟩

theorem core_inert {n : Nat} {k : Key} (hk : Inert k) (hv : v.modeStack = [.insert] ∨ v.modeStack = []) :
    coreFuel E (n + 1) k (v, s) = .ok () (v, s) := by
  rcases hv with hv | hv
  · rw [core_insert E hv]
    rcases hk with ⟨c, rfl⟩ | rfl | ⟨n, rfl⟩ <;> rfl
  · rw [core_normal E hv]
    rcases hk with ⟨c, rfl⟩ | rfl | ⟨n, rfl⟩ <;> rfl

theorem inert_seen {k : Key} (hk : Inert k) (s : Ed) : Seen s k := by
  rcases hk with ⟨c, rfl⟩ | rfl | ⟨n, rfl⟩ <;> constructor <;> simp

theorem moves_seen {k : Key} {l r : Text} (hk : Moves k) (h : Open false s l r) (hr : k = .right → r ≠ [] ∨ s.autosuggestion = none) : Seen s k := by
  rcases hk with rfl | rfl | rfl | rfl
  · constructor <;> simp
  · constructor <;> simp
  · constructor <;> simp
  · refine ⟨by simp, by simp, by simp, by simp, by simp, by simp, by simp, by simp, ?_⟩
    rintro ⟨-, hs, d, hd, hc⟩
    rcases hr rfl with hr | hr
    · rw [h.ne] at hc
      rw [h.here.1] at hd
      cases hd
      have h1 : (l ++ r).length ≤ s.cursor := hc
      rw [h.here.2, List.length_append] at h1
      exact hr (List.length_eq_zero_iff.1 (by omega))
    · rw [hr] at hs; cases hs

/-- One key. -/
theorem inks_core {pen : Pen} {full : Bool} {last : Option (Char × CharMovement)} {t : Vi × Ed} {k : Key}
    (hv : VI t) (h : Inks pen full last t) (hk : WritingKey k) :
    Wp (handleKeyCore E k) t (fun _ t' => ∃ pen', Pen.Step k pen pen' ∧ Inks pen' full last t') T2 (· ≠ .op) := by
  rcases hk with hk | hk | hk
  · by_cases hm : pen.moved = true
    · exact inks_restart E hv h hk hm
    · exact inks_type E (n := 6) hv h hk (by simpa using hm)
  · exact inks_move E (n := 7) h hk
  · unfold Wp
    rw [show handleKeyCore E k t = _ from core_inert E (n := 7) hk (.inl h.stack)]
    exact ⟨pen, .inert hk, h⟩

theorem Inks.same {pen : Pen} {full : Bool} {last : Option (Char × CharMovement)} {t1 t2 : Vi × Ed} (h : Inks pen full last t1)
    (e1 : t2.1 = t1.1) (e2 : t2.2.curBuf? = t1.2.curBuf?) (e3 : workBuf t2.2 = workBuf t1.2) (e4 : t2.2.cursor = t1.2.cursor)
    (e5 : t2.2.isSearch = t1.2.isSearch) (e6 : t2.2.noEol = t1.2.noEol)
    (e7 : Unmoved t1.2 t2.2) : Inks pen full last t2 := by
  obtain ⟨v1, s1⟩ := t1
  obtain ⟨v2, s2⟩ := t2
  dsimp only at *
  subst e1
  exact ⟨h.stack, open_same h.here e2 e4 e5 e6 e7, h.moved, h.last, h.record, h.more, h.plain, h.kept, h.types, h.times, by
    dsimp only; rw [e3]; exact h.log⟩

theorem presses_append : ∀ (ks1 ks2 : List (Key × (Text → List Text))) (t : Vi × Ed),
    Spec.press keyMap E (ks1 ++ ks2) t = (Spec.press keyMap E ks1 >>= fun _ => Spec.press keyMap E ks2) t
  | [], ks2, t => rfl
  | k :: ks1, ks2, t => by
    show M.bind (keyMap.handleKey E k.2 k.1) (fun _ => Spec.press keyMap E (ks1 ++ ks2)) t =
      M.bind (M.bind (keyMap.handleKey E k.2 k.1) (fun _ => Spec.press keyMap E ks1)) (fun _ => Spec.press keyMap E ks2) t
    unfold M.bind
    cases keyMap.handleKey E k.2 k.1 t with
    | ok d t1 => exact presses_append ks1 ks2 t1
    | err e t1 => rfl
    | panic w => rfl

/-- Enter after a backslash. -/
theorem inks_enter {pen : Pen} {full : Bool} {last : Option (Char × CharMovement)} {t : Vi × Ed} {comp : Text → List Text}
    (ha : Around.enters) (h : Inks pen full last t) (hn : t.2.showCompletionsHint = none) (hl : pen.left.getLast? = some '\\') :
    Wp (Spec.press keyMap E [(.char '\n', comp)]) t (fun _ t' => ∃ pen', Pen.Step (.char '\n') pen pen' ∧ Inks pen' full last t')
      T2 (· ≠ .op) := by
  obtain ⟨v, s⟩ := t
  refine wp_mono (enter_goes E ha h.here hn hl) (fun _ t' ⟨e1, ho, hg⟩ => ?_) (fun _ _ h => h) (fun _ h => h)
  rw [rest_false] at ho
  obtain ⟨b0, h0, b, es, g1, g2, g3, g4⟩ := h.log
  obtain ⟨b', es', q1, q2, q3, q4⟩ := hg.log b g1
  refine ⟨_, .enter hl, by rw [e1]; exact h.stack, ho, by rw [e1]; exact h.moved, by rw [e1]; exact h.last, by rw [e1]; exact h.record,
    by rw [e1]; exact h.more, by rw [e1]; exact h.plain, h.kept, h.types, by rw [e1]; exact h.times, b0, h0, b', es' ++ es, q1,
    g2.append q2.plainly, by rw [q3, g3, List.append_assoc], g4.append q4⟩

theorem types_tab {k : Key} (h : WritingKey k) : k ≠ .char '\t' := by
  rcases h with (⟨c, rfl, h1, h2⟩ | rfl | rfl) | (rfl | rfl | rfl | rfl) | (⟨c, rfl⟩ | rfl | ⟨n, rfl⟩) <;> simp_all

/-- One key, with what comes before the key map. -/
theorem inks_key {full : Bool} {last : Option (Char × CharMovement)} {k : Key} {pen : Pen} {t : Vi × Ed} {c : Text → List Text}
    (ha : Around.enters ∨ k ≠ Key.char '\n') (hv : VI t) (h : Inks pen full last t) (hn : t.2.showCompletionsHint = none)
    (hk : (WritingKey k ∧ (k = .right → pen.right ≠ [] ∨ t.2.autosuggestion = none)) ∨ (k = .char '\n' ∧ pen.left.getLast? = some '\\')) :
    Wp (Spec.press keyMap E [(k, c)]) t (fun _ t' => (VI t' ∧ t'.2.showCompletionsHint = none) ∧
      ∃ pen', Pen.Step k pen pen' ∧ Inks pen' full last t') T2 (· ≠ .op) := by
  obtain ⟨v, s⟩ := t
  have hone : Wp (Spec.press keyMap E [(k, c)]) (v, s) (fun _ t' => ∃ pen', Pen.Step k pen pen' ∧ Inks pen' full last t')
      T2 (· ≠ .op) := by
    rcases hk with ⟨hk, hr⟩ | ⟨rfl, hl⟩
    · have hse : Seen s k := by
        rcases hk with hk | hk | hk
        · exact types_seen hk s
        · exact moves_seen hk h.here hr
        · exact inert_seen hk s
      exact key_with E hse h.here (fun t1 t2 hQ e1 e2 e3 e4 e5 e6 e7 => by
        obtain ⟨p1, g1, g2⟩ := hQ
        exact ⟨p1, g1, g2.same e1 e2 e3 e4 e5 e6 e7⟩) (inks_core E hv h hk)
    · exact inks_enter E (ha.resolve_right fun h => h rfl) h hn hl
  have htab : ∀ x ∈ [(k, c)], x.1 ≠ .char '\t' := by
    intro x hx
    obtain rfl : x = (k, c) := by simpa using hx
    rcases hk with hk | hk
    · exact types_tab hk.1
    · rw [hk.1]; simp
  exact wp_mono (wp_and hone (wp_and (kvi_press E [(k, c)] _ hv) (press_dry E _ _ htab hn))) (fun _ t1 h1 => ⟨h1.2, h1.1⟩)
    (fun _ _ _ => trivial) (fun _ h => h.1)

/-- All the keys. -/
theorem inks_keys {full : Bool} {last : Option (Char × CharMovement)} : ∀ (ks : List Key) (pen : Pen) (t : Vi × Ed)
    (kcs : List (Key × (Text → List Text))), (Around.enters ∨ Key.char '\n' ∉ ks) → VI t → Inks pen full last t →
    t.2.showCompletionsHint = none → Pen.CanAll ks pen → kcs.map Prod.fst = ks →
    Wp (Spec.press keyMap E kcs) t (fun _ t' => (VI t' ∧ t'.2.showCompletionsHint = none) ∧
      ∃ pen', Pen.Steps ks pen pen' ∧ Inks pen' full last t') T2 (· ≠ .op)
  | [], pen, t, kcs, _, hv, h, hn, _, hks => by
    obtain rfl : kcs = [] := by simpa using hks
    exact ⟨⟨hv, hn⟩, pen, .nil pen, h⟩
  | k :: ks, pen, t, kcs, ha, hv, h, hn, hw, hks => by
    obtain ⟨⟨k', c⟩, kcs', rfl, rfl, hk'⟩ := List.map_eq_cons_iff.1 hks
    obtain ⟨hk, hw⟩ := hw
    refine (wp_congr (presses_append E [(k', c)] kcs' t)).mpr ?_
    rw [wp_bind]
    refine wp_mono (inks_key E (ha.imp id fun h e => h (e ▸ List.mem_cons_self)) hv h hn (hk.imp (fun h => ⟨h.1, fun e => .inl (h.2 e)⟩) id)) (fun _ t1 h1 => ?_) (fun _ _ _ => trivial) (fun _ h => h)
    obtain ⟨⟨hv1, hn1⟩, p1, g1, g2⟩ := h1
    exact wp_mono (inks_keys ks p1 t1 kcs' (ha.imp id fun h h' => h (List.mem_cons_of_mem _ h')) hv1 g2 hn1 (hw p1 g1) hk')
      (fun _ t' ⟨q1, p', q2, q3⟩ => ⟨q1, p', .cons g1 q2, q3⟩) (fun _ _ h => h) (fun _ h => h)

/-! ### Esc -/

theorem pop_either {Q : Unit → Vi × Ed → Prop} {P : Site → Prop} (h : Wp (popMode E) ({ v with movementReset := false }, s) Q T2 P) :
    Wp (popMode E) (v, s) Q T2 P := by
  unfold popMode setNoEol at h ⊢
  rw [wp_bind, wp_popStack, wp_bind, wp_getK, wp_bind, wp_ed] at h ⊢
  exact wp_mono h (fun _ s1 h1 => h1) (fun _ _ h => h) (fun _ h => h)

theorem core_leave {n : Nat} {Q : Unit → Vi × Ed → Prop} {P : Site → Prop} (hv : v.modeStack = [.insert]) (hc : v.count = 0)
    (h : Wp (coreFuel E (n + 2) .esc) ({ v with movementReset := false }, s) Q T2 P) :
    Wp (coreFuel E (n + 2) .esc) (v, s) Q T2 P := by
  have key : ∀ w : Vi, w.modeStack = [.insert] → w.count = 0 → coreFuel E (n + 2) .esc (w, s) = (do
      ed (Editor.moveCursorLeft E 1)
      popMode E : ViM Unit) (w, s) := by
    intro w hw h0
    rw [core_insert E hw]
    show (do
      let v ← getK
      if v.count > 0 then
        modK fun v => { v with lastCount := v.count }
        insertRepeats (coreFuel E (n + 1)) (v.count - 1)
        modK fun v => { v with count := 0 }
      else pure ()
      ed (Editor.moveCursorLeft E 1)
      popMode E : ViM Unit) (w, s) = _
    rw [bind_ok (show getK (w, s) = .ok w (w, s) from rfl)]
    simp only [h0, Nat.lt_irrefl, gt_iff_lt, if_false]
  have h := (wp_congr (key { v with movementReset := false } hv hc)).mp h
  refine (wp_congr (key v hv hc)).mpr ?_
  rw [wp_bind, wp_ed] at h ⊢
  exact wp_mono h (fun _ s1 h1 => pop_either E h1) (fun _ _ h => h) (fun _ h => h)

/-- The end of an insertion. -/
theorem inks_esc {pen : Pen} {b : Board} {t : Vi × Ed} {cmp : Text → List Text} (hv : VI t) (h : Inks pen b.full b.last t) :
    Wp (Spec.press keyMap E [(.esc, cmp)]) t (fun _ t' => ∃ b', pen.Ends b b' ∧ Shows b' t') T2 (· ≠ .op) := by
  obtain ⟨v, s⟩ := t
  obtain ⟨b0, hb0, hcmd⟩ := h.cmd hv
  have hst : v.modeStack = [.insert] := h.stack
  let v0 : Vi := { v with movementReset := false }
  let p' : Text × Text := back ((List.replicate pen.more pen.typed).flatten.foldl typeKey (pen.left, pen.right))
  have hfl : (List.replicate (v0.count - 1) v0.lastCommand).flatten = (List.replicate pen.more pen.typed).flatten := by
    rw [show v0.count - 1 = pen.more from h.more]
    by_cases hc : v.count = 0
    · rw [show pen.more = 0 by rw [← h.more]; show v.count - 1 = 0; rw [hc]]; rfl
    · rw [show v0.lastCommand = pen.typed from h.typing hc]
  have hg : GivesP (coreFuel E 8 .esc) (v0, s) (escaped v0) true p' := by
    have := esc_gives E (n := 6) (v := v0) (fun hc k hk => h.types k (by rw [← h.typing (t := (v, s)) hc]; exact hk)) hst rfl h.here
    rwa [hfl] at this
  have hn := core_next E 6 hcmd (k := .esc) (by show v.mode ≠ _; rw [mode_cons hst]; simp) (fun _ => .inr rfl)
  have hsits : Wp (coreFuel E 8 .esc) (v0, s) (fun _ t' => Sits (escaped v0) (fun q y => q = p' ∧ y.1 = q.1 ++ q.2 ∧
      ∃ ps, Past b.full ps y ∧ (ps = pen.since :: pen.past ∨ (q.1 ++ q.2 = pen.since ∧ ps = pen.past))) t') T2 (· ≠ .op) := by
    refine wp_mono (wp_and hg hn) (fun _ t' h' => ?_) (fun _ _ _ => trivial) (fun _ h => h.1)
    obtain ⟨⟨h1, h2⟩, h3⟩ := h'
    obtain ⟨x', ps, hl, hx', hp', hnote⟩ := noted_of (b := ⟨pen.since, 0, 0, none, none, pen.past, b.full⟩) (x := (b0.data, b0.actions))
      ⟨hb0.1, hb0.2⟩ ⟨rfl, rfl⟩ (h3 fun hi => absurd (mode_cons hst) hi) (by rw [h1]; rfl) h2
    exact ⟨h1, p', x', h2, hl, rfl, hx', ps, hp', hnote⟩
  have hcore : Wp (handleKeyCore E .esc) (v, s) (fun _ t' => Sits (escaped v0) (fun q y => q = p' ∧ y.1 = q.1 ++ q.2 ∧
      ∃ ps, Past b.full ps y ∧ (ps = pen.since :: pen.past ∨ (q.1 ++ q.2 = pen.since ∧ ps = pen.past))) t') T2 (· ≠ .op) := by
    by_cases hc : v.count = 0
    · exact core_leave E (n := 6) hst hc hsits
    · have : v0 = v := by
        show ({ v with movementReset := false } : Vi) = v
        rw [← (h.plain hc).1, ← h.moved]
      rw [this] at hsits ⊢
      exact hsits
  refine wp_mono (wp_and (kvi_press E [(.esc, cmp)] _ hv) (key_sits E seen_esc h.here (comp := cmp) hcore))
    (fun _ t' h' => ?_) (fun _ _ _ => trivial) (fun _ h => h.2)
  obtain ⟨hv', h1, q, y, ho, hl, rfl, hy, ps, hps, hnote⟩ := h'
  refine ⟨⟨p'.1 ++ p'.2, p'.1.length, 0, b.last, (pen.how.making pen.typed).map fun ch => (ch, if pen.more = 0 then pen.times else pen.more + 1),
    ps, b.full⟩, ⟨⟨_, _, rfl, back_append _, back_length _⟩, rfl, rfl, rfl, hnote, rfl⟩,
    ⟨hv', by rw [h1]; rfl, ?_, by simp, by rw [h1]; rfl, by rw [h1]; exact h.last, ?_, _, hl, hy, hps⟩⟩
  · simpa [Board.left, Board.right] using ho
  · intro ch n hd
    obtain ⟨ch', hm, hd⟩ := Option.map_eq_some_iff.1 hd
    cases hd
    obtain ⟨r1, r2⟩ := h.record ch hm
    by_cases hc : v.count = 0
    · have hmore : pen.more = 0 := by rw [← h.more]; show v.count - 1 = 0; rw [hc]
      refine ⟨pen.times, ?_, by rw [if_pos hmore]; exact (h.kept ch hm).symm⟩
      rw [h1]
      refine ⟨r1, r2, ?_⟩
      show dotCount 0 (if v.count = 0 then v.lastCount else v.count) = kept pen.times ch
      rw [if_pos hc, show dotCount 0 v.lastCount = pen.times from h.times]
      exact (h.kept ch hm).symm
    · obtain ⟨-, ⟨c, hh⟩, ht⟩ := h.plain hc
      have hmore : v.count - 1 = pen.more := h.more
      have hc : v.count ≠ 0 := hc
      have hch : ch = .insert c pen.typed := by rw [hh] at hm; cases hm; rfl
      refine ⟨v.count, ?_, ?_⟩
      · rw [h1]
        refine ⟨r1, r2, ?_⟩
        show dotCount 0 (if v.count = 0 then v.lastCount else v.count) = kept v.count ch
        rw [if_neg hc, hch]
        unfold dotCount
        rw [if_pos rfl, if_neg hc]
        rfl
      · subst hch
        show _ = v.count
        split <;> omega

/-! ### Keys given up -/

/-- The key map waits for another key. -/
structure Waits (c : Char) (v0 : Vi) (x : Text × List Action) (l r : Text) (t : Vi × Ed) : Prop where
  stack : ∃ m, t.1.modeStack = [m] ∧ (m = .replace ∨ m = .g ∨ (∃ mv, m = .moveToChar mv) ∨ ∃ p, m = .delete p)
  oper : c = 'd' → ∃ p, t.1.modeStack = [.delete p]
  command : t.1.lastCommand = v0.lastCommand
  insert : t.1.lastInsert = v0.lastInsert
  times : t.1.lastCount = v0.lastCount
  search : t.1.lastCharMovement = v0.lastCharMovement
  here : Open false t.2 l r
  line : Line x t.2

theorem Waits.same {c : Char} {v0 : Vi} {x : Text × List Action} {l r : Text} {t1 t2 : Vi × Ed} (h : Waits c v0 x l r t1)
    (e1 : t2.1 = t1.1) (e2 : t2.2.curBuf? = t1.2.curBuf?) (e3 : workBuf t2.2 = workBuf t1.2) (e4 : t2.2.cursor = t1.2.cursor)
    (e5 : t2.2.isSearch = t1.2.isSearch) (e6 : t2.2.noEol = t1.2.noEol)
    (e7 : Unmoved t1.2 t2.2) : Waits c v0 x l r t2 := by
  obtain ⟨v1, s1⟩ := t1
  obtain ⟨v2, s2⟩ := t2
  dsimp only at *
  subst e1
  obtain ⟨h3, b, h4⟩ := h.line
  exact ⟨h.stack, h.oper, h.command, h.insert, h.times, h.search, open_same h.here e2 e4 e5 e6 e7, ⟨e5.trans h3, b, by rw [e3]; exact h4⟩⟩

theorem waits_first {n : Nat} {c : Char} {x : Text × List Action} {l r : Text} (hc : c ∈ ['d', 'r', 'g', 'f', 'F', 't', 'T'])
    (hv : v.modeStack = []) (h : Open true s l r) (hx : Line x s) :
    Wp (coreFuel E (n + 1) (.char c)) (v, s) (fun _ t' => Waits c v x l r t') T2 (· ≠ .op) := by
  have push : ∀ m : Mode, (m = .replace ∨ m = .g ∨ ∃ mv, m = .moveToChar mv) → c ≠ 'd' →
      Wp (setMode E m) (v, s) (fun _ t' => Waits c v x l r t') T2 (· ≠ .op) := by
    intro m hm hcd
    have h1 : m ≠ .insert := by rcases hm with rfl | rfl | ⟨mv, rfl⟩ <;> simp
    have h2 : m ≠ .normal := by rcases hm with rfl | rfl | ⟨mv, rfl⟩ <;> simp
    have h3 : m ≠ .tilde := by rcases hm with rfl | rfl | ⟨mv, rfl⟩ <;> simp
    refine wp_mono (wp_and (push_gives E (v := v) h h1 h2 h3) (kg_push E h1 h3 (v, s) hx.1)) (fun _ t' h' => ?_)
      (fun _ _ _ => trivial) (fun _ h => h.1)
    obtain ⟨⟨g1, g2⟩, g3⟩ := h'
    exact ⟨⟨m, by rw [g1]; show m :: v.modeStack = _; rw [hv], by
      rcases hm with hm | hm | hm
      · exact .inl hm
      · exact .inr (.inl hm)
      · exact .inr (.inr (.inl hm))⟩, fun h => absurd h hcd, by rw [g1], by rw [g1], by rw [g1], by rw [g1], g2, hx.grew g3⟩
  simp only [List.mem_cons, List.not_mem_nil, or_false] at hc
  rcases hc with rfl | rfl | rfl | rfl | rfl | rfl | rfl
  · have hk : KG Nothing (do
        modK fun v => { v with currentCommand := [] }
        modK fun v => { v with currentInsert := none, currentCommand := [.char 'd'] }
        let s ← ed get
        setMode E (.delete s.cursor)
        modK fun v => { v with secondaryCount := v.count, count := 0 } : ViM Unit) :=
      kg_quiet (kg_modK _) fun _ => kg_quiet (kg_modK _) fun _ => kg_quiet (kg_ed gw_get) fun _ =>
        kg_quiet (kg_push E (by simp) (by simp)) fun _ => kg_modK _
    refine wp_mono (wp_and (d_gives E hv h) ((wp_congr (core_normal E hv)).mpr (hk (v, s) hx.1))) (fun _ t' h' => ?_)
      (fun _ _ _ => trivial) (fun _ h => h.1)
    obtain ⟨⟨g1, g2⟩, g3⟩ := h'
    exact ⟨⟨_, by rw [g1], .inr (.inr (.inr ⟨_, rfl⟩))⟩, fun _ => ⟨_, by rw [g1]⟩, by rw [g1], by rw [g1], by rw [g1], by rw [g1], g2, hx.grew g3⟩
  · exact (wp_congr (core_normal E hv)).mpr (push .replace (.inl rfl) (by decide))
  · exact (wp_congr (core_normal E hv)).mpr (push .g (.inr (.inl rfl)) (by decide))
  · exact (wp_congr (core_normal E hv)).mpr (push (.moveToChar .rightAt) (.inr (.inr ⟨_, rfl⟩)) (by decide))
  · exact (wp_congr (core_normal E hv)).mpr (push (.moveToChar .leftAt) (.inr (.inr ⟨_, rfl⟩)) (by decide))
  · exact (wp_congr (core_normal E hv)).mpr (push (.moveToChar .rightUntil) (.inr (.inr ⟨_, rfl⟩)) (by decide))
  · exact (wp_congr (core_normal E hv)).mpr (push (.moveToChar .leftUntil) (.inr (.inr ⟨_, rfl⟩)) (by decide))

theorem core_digit_wait {n : Nat} {d : Char} {p : Nat} {st : List Mode} (hd : d ∈ digitChars) (h0 : d = '0' → v.count ≠ 0)
    (hv : v.modeStack = .delete p :: st) :
    coreFuel E (n + 1) (.char d) (v, s) =
      .ok () ({ v with count := satAdd (satMul v.count 10) (digitValue d) }, s) := by
  rw [core_delete E hv]
  unfold handleKeyDeleteOrChange
  rw [bind_ok (show getK (v, s) = .ok v (v, s) from rfl)]
  have h1 : ¬ (isMovementKey (.char d) = true ∨ (Key.char d = .char '0' ∧ v.count = 0)) := by
    rintro (h | h)
    · simp only [digitChars, List.mem_cons, List.not_mem_nil, or_false] at hd
      rcases hd with rfl | rfl | rfl | rfl | rfl | rfl | rfl | rfl | rfl | rfl <;> revert h <;> decide
    · exact h0 (Key.char.inj h.1) h.2
  rw [if_neg h1]
  simp only [digitChars, List.mem_cons, List.not_mem_nil, or_false] at hd
  rcases hd with rfl | rfl | rfl | rfl | rfl | rfl | rfl | rfl | rfl | rfl <;> try rfl
  show (getK >>= fun v : Vi => if 0 = 0 ∧ v.count = 0 then _ else modK fun v : Vi => { v with count := satAdd (satMul v.count 10) 0 } : ViM Unit) (v, s) = _
  rw [bind_ok (show getK (v, s) = .ok v (v, s) from rfl), if_neg (fun h => h0 rfl h.2)]
  rfl

theorem waits_digits {v0 : Vi} {x : Text × List Action} {l r : Text} : ∀ (ds : List Char) (t : Vi × Ed)
    (kcs : List (Key × (Text → List Text))), Waits 'd' v0 x l r t → (∀ d ∈ ds, d ∈ digitChars) → (ds.head? = some '0' → t.1.count ≠ 0) →
    kcs.map Prod.fst = ds.map Key.char →
    Wp (Spec.press keyMap E kcs) t (fun _ t' => Waits 'd' v0 x l r t') T2 (· ≠ .op)
  | [], t, kcs, h, _, _, hks => by
    obtain rfl : kcs = [] := by simpa using hks
    exact h
  | d :: ds, t, kcs, h, hd, h0, hks => by
    obtain ⟨⟨k', c⟩, kcs', rfl, hk1, hk'⟩ := List.map_eq_cons_iff.1 hks
    dsimp only at hk1
    subst hk1
    obtain ⟨v, s⟩ := t
    obtain ⟨p, hp⟩ := h.oper rfl
    have hdd := hd d List.mem_cons_self
    have h0' : d = '0' → v.count ≠ 0 := fun e => h0 (by rw [e]; rfl)
    have hse : Seen s (.char d) := seen_char (by rintro rfl; revert hdd; simp [digitChars]) (by rintro rfl; revert hdd; simp [digitChars])
    have hone : Wp (Spec.press keyMap E [(.char d, c)]) (v, s) (fun _ t' => Waits 'd' v0 x l r t' ∧ t'.1.count ≠ 0) T2 (· ≠ .op) :=
      key_with E hse h.here (fun t1 t2 hQ e1 e2 e3 e4 e5 e6 e7 => ⟨hQ.1.same e1 e2 e3 e4 e5 e6 e7, by rw [e1]; exact hQ.2⟩) (by
        unfold Wp
        rw [show handleKeyCore E (.char d) (v, s) = _ from core_digit_wait E (n := 7) hdd h0' hp]
        refine ⟨⟨h.stack, h.oper, h.command, h.insert, h.times, h.search, h.here, h.line⟩, ?_⟩
        show satAdd (satMul v.count 10) (digitValue d) ≠ 0
        rw [sat_any]
        have : v.count ≠ 0 ∨ digitValue d ≠ 0 := by
          by_cases e : d = '0'
          · exact .inl (h0' e)
          · right
            simp only [digitChars, List.mem_cons, List.not_mem_nil, or_false] at hdd
            rcases hdd with rfl | rfl | rfl | rfl | rfl | rfl | rfl | rfl | rfl | rfl <;> revert e <;> decide
        omega)
    refine (wp_congr (presses_append E [(.char d, c)] kcs' (v, s))).mpr ?_
    rw [wp_bind]
    exact wp_mono hone (fun _ t1 h1 => waits_digits ds t1 kcs' h1.1 (fun d hd' => hd d (List.mem_cons_of_mem _ hd')) (fun _ => h1.2) hk')
      (fun _ _ h => h) (fun _ h => h)

theorem waits_esc {n : Nat} {c : Char} {v0 : Vi} {x : Text × List Action} {l r : Text} {t : Vi × Ed} (h : Waits c v0 x l r t) :
    Wp (coreFuel E (n + 1) .esc) t (fun _ t' => (t'.1.modeStack = [] ∧ t'.1.count = 0 ∧ t'.1.lastCommand = v0.lastCommand ∧
      t'.1.lastInsert = v0.lastInsert ∧ t'.1.lastCount = v0.lastCount ∧ t'.1.lastCharMovement = v0.lastCharMovement) ∧
      Open true t'.2 (rest true l r).1 (rest true l r).2 ∧ Line x t'.2) T2 (· ≠ .op) := by
  obtain ⟨v, s⟩ := t
  have key : ∀ w : Vi, w.lastCommand = v.lastCommand → w.lastInsert = v.lastInsert → w.lastCount = v.lastCount →
      w.lastCharMovement = v.lastCharMovement →
      Wp (normalModeAbort E) (w, s) (fun _ t' => (t'.1.modeStack = [] ∧ t'.1.count = 0 ∧ t'.1.lastCommand = v0.lastCommand ∧
        t'.1.lastInsert = v0.lastInsert ∧ t'.1.lastCount = v0.lastCount ∧ t'.1.lastCharMovement = v0.lastCharMovement) ∧
        Open true t'.2 (rest true l r).1 (rest true l r).2 ∧ Line x t'.2) T2 (· ≠ .op) := by
    intro w h1 h2 h3 h4
    refine wp_mono (wp_and (abort_gives E h.here) (kg_abort E (w, s) h.line.1)) (fun _ t' h' => ?_) (fun _ _ _ => trivial) (fun _ h => h.1)
    obtain ⟨⟨g1, g2⟩, g3⟩ := h'
    rw [g1]
    exact ⟨⟨rfl, rfl, h1.trans h.command, h2.trans h.insert, h3.trans h.times, h4.trans h.search⟩, g2, h.line.grew g3⟩
  obtain ⟨m, hm, hk⟩ := h.stack
  rcases hk with rfl | rfl | ⟨mv, rfl⟩ | ⟨p, rfl⟩
  · refine (wp_congr (core_replace E hm)).mpr ?_
    show Wp (normalModeAbort E >>= fun _ => modK fun v => { v with count := 0 }) (v, s) _ _ _
    rw [wp_bind]
    exact wp_mono (key v rfl rfl rfl rfl) (fun _ t' h' => ⟨⟨h'.1.1, rfl, h'.1.2.2⟩, h'.2⟩) (fun _ _ h => h) (fun _ h => h)
  · refine (wp_congr (core_g E hm)).mpr ?_
    show Wp ((modK fun w => { w with currentCommand := w.currentCommand ++ [.esc] }) >>= fun _ =>
      normalModeAbort E >>= fun _ => modK fun v => { v with count := 0 }) (v, s) _ _ _
    rw [wp_bind, wp_modK, wp_bind]
    exact wp_mono (key _ rfl rfl rfl rfl) (fun _ t' h' => ⟨⟨h'.1.1, rfl, h'.1.2.2⟩, h'.2⟩) (fun _ _ h => h) (fun _ h => h)
  · refine (wp_congr (core_char E hm)).mpr ?_
    show Wp ((modK fun w => { w with count := 0 }) >>= fun _ => normalModeAbort E) (v, s) _ _ _
    rw [wp_bind, wp_modK]
    exact key _ rfl rfl rfl rfl
  · refine (wp_congr (core_delete E hm)).mpr ?_
    exact key _ rfl rfl rfl rfl

/-- A key that waits for another one, given up. -/
theorem gives_up {b : Board} {c : Char} {ds : List Char} {t : Vi × Ed} {kcs : List (Key × (Text → List Text))}
    (h : Shows b t) (hc : b.Can E.cc (.giveUp c ds)) (hks : kcs.map Prod.fst = Command.keys (.giveUp c ds)) :
    Wp (Spec.press keyMap E kcs) t (fun _ t' => ∃ b', b.Step E.cc (.giveUp c ds) b' ∧ Shows b' t') T2 (· ≠ .op) := by
  obtain ⟨v, s⟩ := t
  obtain ⟨x, hx, hxt, hpast⟩ := h.line
  have hedge := edge_of h.vi h.here
  have hvi' := kvi_press E kcs _ h.vi
  have hcm : c ∈ ['d', 'r', 'g', 'f', 'F', 't', 'T'] := by
    rcases hc with hc | hc
    · rw [hc.1]; decide
    · exact List.mem_cons_of_mem _ hc.1
  obtain ⟨⟨k, cmp⟩, kcs1, rfl, hk, hks1⟩ := List.map_eq_cons_iff.1 hks
  dsimp only at hk
  subst hk
  obtain ⟨kcs2, kcs3, rfl, h2, h3⟩ := List.map_eq_append_iff.1 hks1
  rw [List.map_eq_singleton_iff] at h3
  obtain ⟨⟨k, cmp'⟩, rfl, hk⟩ := h3
  dsimp only at hk
  subst hk
  have hse : Seen s (.char c) := by
    simp only [List.mem_cons, List.not_mem_nil, or_false] at hcm
    rcases hcm with rfl | rfl | rfl | rfl | rfl | rfl | rfl <;> exact seen_char (by decide) (by decide)
  have hall : Wp (Spec.press keyMap E ((.char c, cmp) :: (kcs2 ++ [(.esc, cmp')]))) (v, s) (fun _ t' =>
      (t'.1.modeStack = [] ∧ t'.1.count = 0 ∧ t'.1.lastCommand = v.lastCommand ∧
        t'.1.lastInsert = v.lastInsert ∧ t'.1.lastCount = v.lastCount ∧ t'.1.lastCharMovement = v.lastCharMovement) ∧
      Open true t'.2 b.left b.right ∧ Line x t'.2) T2 (· ≠ .op) := by
    refine (wp_congr (presses_append E [(.char c, cmp)] _ (v, s))).mpr ?_
    rw [wp_bind]
    refine wp_mono (key_with E hse h.here (fun t1 t2 hQ e1 e2 e3 e4 e5 e6 e7 => Waits.same hQ e1 e2 e3 e4 e5 e6 e7)
      (waits_first E (n := 7) hcm h.stack h.here hx)) (fun _ t1 h1 => ?_) (fun _ _ h => h) (fun _ h => h)
    refine (wp_congr (presses_append E kcs2 _ t1)).mpr ?_
    rw [wp_bind]
    have hmid : Wp (Spec.press keyMap E kcs2) t1 (fun _ t' => Waits c v x b.left b.right t') T2 (· ≠ .op) := by
      rcases hc with ⟨rfl, hd⟩ | ⟨-, rfl⟩
      · exact waits_digits E ds t1 kcs2 h1 hd.1 (fun e => absurd e hd.2) h2
      · obtain rfl : kcs2 = [] := by simpa using h2
        exact h1
    refine wp_mono hmid (fun _ t2 h2 => ?_) (fun _ _ h => h) (fun _ h => h)
    obtain ⟨v2, s2⟩ := t2
    refine key_with E seen_esc h2.here (fun t1 t2 hQ e1 e2 e3 e4 e5 e6 e7 => ?_) (wp_mono (waits_esc E (n := 7) h2) (fun _ t' h' => ?_)
      (fun _ _ h => h) (fun _ h => h))
      (Q := fun t' => (t'.1.modeStack = [] ∧ t'.1.count = 0 ∧ t'.1.lastCommand = v.lastCommand ∧
        t'.1.lastInsert = v.lastInsert ∧ t'.1.lastCount = v.lastCount ∧ t'.1.lastCharMovement = v.lastCharMovement) ∧
      Open true t'.2 b.left b.right ∧ Line x t'.2)
    · obtain ⟨h1, h2, h3, bb, h4⟩ := hQ
      rw [e1]
      exact ⟨h1, open_same h2 e2 e4 e5 e6 e7, ⟨e5.trans h3, bb, by rw [e3]; exact h4⟩⟩
    · have : rest true b.left b.right = (b.left, b.right) := by
        unfold rest
        split
        · rename_i h
          rcases hedge with h' | h'
          · exact absurd h.2 h'
          · rw [h', h.2]; rfl
        · rfl
      rw [this] at h'
      exact h'
  refine wp_mono (wp_and hvi' hall) (fun _ t' h' => ?_) (fun _ _ _ => trivial) (fun _ h => h.2)
  obtain ⟨hv', ⟨g1, g2, g3, g4, g5, g6⟩, ho, hl⟩ := h'
  refine ⟨_, rfl, ⟨hv', g1, ho, h.cur, g2, g6.trans h.last, fun ch n hd => ?_, _, hl, hxt, hpast⟩⟩
  obtain ⟨k, q1, q2⟩ := h.done ch n hd
  exact ⟨k, q1.keep g3 g4 g5, q2⟩

/-! ### Insertions, `dd`, Home and End, keys without meaning -/

theorem not_aside {c : Char} (h : c ∉ ['u', '.', 'k', 'j']) : ¬ AsideKey (.char c) := by
  rintro (⟨c', h1, h' | h' | h' | h'⟩ | h1 | h1 | h1) <;> cases h1 <;> simp [h'] at h

theorem opening_first {op : Opening} {last : Option (Char × CharMovement)} {t : Text} (hc : op.Can last t) (ds : List Char) :
    ∀ k, (op.keys ds).head? = some k → ¬ AsideKey k := by
  intro k hk
  cases op with
  | insert c =>
    obtain rfl : Key.char c = k := by simpa [Opening.keys] using hk
    have hc : c ∈ ['i', 'a', 'I', 'A'] := hc
    simp only [List.mem_cons, List.not_mem_nil, or_false] at hc
    rcases hc with rfl | rfl | rfl | rfl <;> exact not_aside (by decide)
  | subst => obtain rfl : Key.char 's' = k := by simpa [Opening.keys] using hk
             exact not_aside (by decide)
  | change m ks => obtain rfl : Key.char 'c' = k := by simpa [Opening.keys] using hk
                   exact not_aside (by decide)
  | line => obtain rfl : Key.char 'c' = k := by simpa [Opening.keys] using hk
            exact not_aside (by decide)
  | tail => obtain rfl : Key.char 'C' = k := by simpa [Opening.keys] using hk
            exact not_aside (by decide)

theorem opening_seen {op : Opening} {last : Option (Char × CharMovement)} {t : Text} {ds : List Char} (hd : Digits ds)
    (hc : op.Can last t) : ∀ k ∈ op.keys ds, ∀ s, Seen s k := by
  have hch : ∀ c : Char, c ≠ '\t' → c ≠ '\n' → ∀ s, Seen s (.char c) := fun c h1 h2 s => seen_char h1 h2
  have hdig : ∀ k ∈ ds.map Key.char, ∀ s, Seen s k := fun k hk s => by
    obtain ⟨d, h1, rfl⟩ := List.mem_map.1 hk
    exact seen_digit (hd.1 d h1)
  intro k hk
  cases op with
  | insert c =>
    obtain rfl : k = Key.char c := by simpa [Opening.keys] using hk
    have hc : c ∈ ['i', 'a', 'I', 'A'] := hc
    simp only [List.mem_cons, List.not_mem_nil, or_false] at hc
    rcases hc with rfl | rfl | rfl | rfl <;> exact hch _ (by decide) (by decide)
  | subst => obtain rfl : k = Key.char 's' := by simpa [Opening.keys] using hk
             exact hch _ (by decide) (by decide)
  | change m ks =>
    simp only [Opening.keys, List.mem_cons, List.mem_append] at hk
    rcases hk with rfl | hk | hk
    · exact hch _ (by decide) (by decide)
    · exact hdig k hk
    · exact motion_seen hc.1 k hk
  | line =>
    simp only [Opening.keys, List.mem_cons, List.mem_append, List.not_mem_nil, or_false] at hk
    rcases hk with rfl | hk | rfl
    · exact hch _ (by decide) (by decide)
    · exact hdig k hk
    · exact hch _ (by decide) (by decide)
  | tail => obtain rfl : k = Key.char 'C' := by simpa [Opening.keys] using hk
            exact hch _ (by decide) (by decide)

/-- The keys of an insertion and Esc, once it has begun. -/
theorem inks_rest {b : Board} {pen : Pen} {t : Vi × Ed} {ks : List Key} {kcs : List (Key × (Text → List Text))}
    (ha : Around.enters ∨ Key.char '\n' ∉ ks) (hv : VI t) (h : Inks pen b.full b.last t) (hn : t.2.showCompletionsHint = none) (hw : Pen.CanAll ks pen) (hks : kcs.map Prod.fst = ks ++ [.esc]) :
    Wp (Spec.press keyMap E kcs) t (fun _ t' => ∃ pen' b', Pen.Steps ks pen pen' ∧ pen'.Ends b b' ∧ Shows b' t') T2 (· ≠ .op) := by
  obtain ⟨kcs1, kcs2, rfl, h1, h2⟩ := List.map_eq_append_iff.1 hks
  rw [List.map_eq_singleton_iff] at h2
  obtain ⟨⟨k, cmp⟩, rfl, hk⟩ := h2
  dsimp only at hk
  subst hk
  refine (wp_congr (presses_append E kcs1 _ t)).mpr ?_
  rw [wp_bind]
  refine wp_mono (inks_keys E ks pen t kcs1 ha hv h hn hw h1) (fun _ t1 ⟨⟨g1, _⟩, pen', g2, g3⟩ => ?_) (fun _ _ h => h) (fun _ h => h)
  exact wp_mono (inks_esc E (b := b) g1 g3) (fun _ t' ⟨b', q1, q2⟩ => ⟨pen', b', g2, q1, q2⟩) (fun _ _ h => h) (fun _ h => h)

theorem times_eq {b : Board} {t : Vi × Ed} (h : Shows b t) : t.1.moveCount = b.times := by
  unfold moveCount Board.times; rw [h.count]

/-- The beginning of an insertion. -/
theorem opens_inks {b : Board} {op : Opening} {ds : List Char} {t : Vi × Ed} {kcs : List (Key × (Text → List Text))}
    (hC : Apart E.cc) (h : Shows b t) (hd : Digits ds) (hcan : op.Can b.last b.text) (h1 : kcs.map Prod.fst = op.keys ds) :
    Wp (Spec.press keyMap E kcs) t (fun _ t1 => VI t1 ∧ ∃ p, Opens E.cc (op.total b.times ds) b.left b.right op p ∧
      Inks (b.pen op ds p) b.full (op.search b.last) t1) T2 (· ≠ .op) := by
  have hmc := times_eq h
  obtain ⟨v, s⟩ := t
  obtain ⟨x, hx, hxt, hpast⟩ := h.line
  have hedge := edge_of h.vi h.here
  have hl : v.lastCharMovement = b.last := h.last
  obtain ⟨b0, hb0, hbd⟩ := hx.buf
  obtain ⟨v1, p, hwh, hen, hop⟩ := opening_done E (n := 6) (v := v) (op := op) (ds := ds) hC hd
    (by rw [hl, b.sides]; exact hcan) hedge h.stack
  rw [show v.moveCount = b.times from hmc] at hen hop
  have hse := opening_seen hd hcan
  refine wp_mono (wp_and ((hwh.chain E h.stack).press E kcs s h1 hse h.here)
    (hwh.press_now E (opening_first hcan ds) h1 hse h.vi h.stack h.here hb0)) (fun _ t1 h' => ?_) (fun _ _ _ => trivial) (fun _ h => h.1)
  obtain ⟨hcmd, e1, ho⟩ := h'.2
  have hcount : t1.1.count - 1 = op.more (op.total b.times ds) := by rw [e1]; exact hen.more
  refine ⟨hcmd.vi, p, hop, ?_⟩
  refine ⟨by rw [e1]; exact hen.stack, ho, by rw [e1]; exact hen.reset, by rw [e1, hen.search, hl], ?_, hcount, ?_, ?_, ?_,
    by rw [e1]; exact hen.times, b0, ⟨hbd.1.trans hxt, ?_⟩, ?_⟩
  · intro ch hch
    rw [e1]; exact hen.record ch hch
  · intro hc
    rw [e1] at hc
    obtain ⟨c, rfl⟩ := hen.plain hc
    exact ⟨rfl, ⟨c, rfl⟩, rfl⟩
  · intro ch hch
    cases op with
    | insert c => cases hch; rfl
    | subst => cases hch; rfl
    | change m ks => cases hch; cases m <;> rfl
    | line => cases hch
    | tail => cases hch
  · intro k hk; cases hk
  · rw [hbd.1, hbd.2]; exact hpast
  · obtain ⟨bb, es, g1, g2, g3, g4⟩ := hcmd.log
    rw [show t1.1.modeStack = [.insert] by rw [e1]; exact hen.stack] at g2
    exact ⟨bb, es, g1, by simpa [Shape] using g2, g3, g4⟩

/-- After it there is no list of candidates. -/
theorem opens_shut {b : Board} {op : Opening} {ds : List Char} {t : Vi × Ed} {kcs : List (Key × (Text → List Text))}
    (hd : Digits ds) (hcan : op.Can b.last b.text) (h1 : kcs.map Prod.fst = op.keys ds) :
    Wp (Spec.press keyMap E kcs) t (fun _ t' => t'.2.showCompletionsHint = none) T2 (fun _ => True) := by
  refine press_shut E kcs t ?_ fun x hx => opening_seen hd hcan x.1 (h1 ▸ List.mem_map_of_mem hx)
  rintro rfl
  cases op <;> simp [Opening.keys] at h1

/-- Enter after a backslash. -/
theorem enters {b : Board} {t : Vi × Ed} {kcs : List (Key × (Text → List Text))} (ha : Around.enters) (h : Shows b t)
    (hn : t.2.showCompletionsHint = none) (hl : b.left.getLast? = some '\\') (hks : kcs.map Prod.fst = Command.keys .enter) :
    Wp (Spec.press keyMap E kcs) t (fun _ t' => ∃ b', b.Step E.cc .enter b' ∧ Shows b' t') T2 (· ≠ .op) := by
  obtain ⟨v, s⟩ := t
  obtain ⟨⟨b0d, b0a⟩, hx, hxt, hpast⟩ := h.line
  obtain ⟨b0, hb0, hbd⟩ := hx.buf
  simp only [Command.keys] at hks
  rw [List.map_eq_singleton_iff] at hks
  obtain ⟨⟨k, cmp⟩, rfl, hk⟩ := hks
  dsimp only at hk
  subst hk
  refine wp_mono (wp_and (kvi_press E _ _ h.vi) (enter_goes E ha h.here hn hl)) (fun _ t' ⟨hv', e1, ho, hg⟩ => ?_) (fun _ _ _ => trivial)
    (fun _ h => h.2)
  have hr : b.right ≠ [] := by
    rcases edge_of h.vi h.here with hr | hr
    · exact hr
    · rw [hr] at hl; cases hl
  have hrest : rest true (b.left ++ ['\n']) b.right = (b.left ++ ['\n'], b.right) := by
    unfold rest
    rw [if_neg (fun h => hr h.2)]
  rw [hrest] at ho
  obtain ⟨b', es, q1, q2, q3, q4⟩ := hg.log b0 hb0
  have hda : b'.data = b.left ++ '\n' :: b.right := by
    obtain ⟨b1, hb1, e⟩ := curBuf_of_workBuf q1
    obtain ⟨b2, hb2, e2⟩ := text?_eq.mp ho.here.1
    rw [hb1] at hb2; cases hb2
    rw [← e] at e2
    simpa using e2
  have hpast' : Past b.full b.past (b0.data, b0.actions) := by rw [hbd.1, hbd.2]; exact hpast
  have hlen := Board.left_length h.cur
  have fin : ∀ ps, (ps = b.text :: b.past ∨ (b.left ++ '\n' :: b.right = b.text ∧ ps = b.past)) →
      Past b.full ps (b'.data, es ++ b0.actions) → ∃ b', b.Step E.cc .enter b' ∧ Shows b' t' := by
    intro ps h1 h2
    refine ⟨⟨b.left ++ '\n' :: b.right, b.cur + 1, b.count, b.last, b.done, ps, b.full⟩, ⟨rfl, rfl, rfl, rfl, rfl, rfl, h1⟩,
      ⟨hv', by rw [e1]; exact h.stack, ?_, ?_, by rw [e1]; exact h.count, by rw [e1]; exact h.last, by rw [e1]; exact h.done,
        (b'.data, b'.actions), ⟨ho.quiet, b', q1, rfl, rfl⟩, hda, by rw [q3]; exact h2⟩⟩
    · have e1 : (b.left ++ '\n' :: b.right).take (b.cur + 1) = b.left ++ ['\n'] := by
        rw [← hlen, show b.left ++ '\n' :: b.right = (b.left ++ ['\n']) ++ b.right by simp, List.take_left' (by simp)]
      have e2 : (b.left ++ '\n' :: b.right).drop (b.cur + 1) = b.right := by
        rw [← hlen, show b.left ++ '\n' :: b.right = (b.left ++ ['\n']) ++ b.right by simp, List.drop_left' (by simp)]
      show Open true t'.2 (List.take _ _) (List.drop _ _)
      rw [e1, e2]; exact ho
    · show b.cur + 1 ≤ _
      rw [List.length_append, hlen]; simp
  have hb0t : b0.data = b.text := hbd.1.trans hxt
  rcases Past.after (.inl q2) q4 hpast' with hh | ⟨hh, hh'⟩
  · exact fin _ (.inl rfl) (by rw [hb0t] at hh; exact hh)
  · exact fin _ (.inr ⟨by rw [← hda, hh, hb0t], rfl⟩) hh'

theorem writes {b : Board} {op : Opening} {ds : List Char} {ks : List Key} {t : Vi × Ed} {kcs : List (Key × (Text → List Text))}
    (ha : Around.enters ∨ Key.char '\n' ∉ ks) (hC : Apart E.cc) (h : Shows b t) (hc : b.Can E.cc (.write op ds ks)) (hks : kcs.map Prod.fst = Command.keys (.write op ds ks)) :
    Wp (Spec.press keyMap E kcs) t (fun _ t' => ∃ b', b.Step E.cc (.write op ds ks) b' ∧ Shows b' t') T2 (· ≠ .op) := by
  obtain ⟨hd, hcan, hw⟩ := hc
  have hks : kcs.map Prod.fst = op.keys ds ++ (ks ++ [.esc]) := by rw [hks, ← List.append_assoc]; rfl
  obtain ⟨kcs1, kcs2, rfl, h1, h2⟩ := List.map_eq_append_iff.1 hks
  refine (wp_congr (presses_append E kcs1 _ t)).mpr ?_
  rw [wp_bind]
  refine wp_mono (wp_and (opens_inks E hC h hd hcan h1) (opens_shut E hd hcan h1)) (fun _ t1 ⟨⟨g1, p, hop, hinks⟩, g2⟩ => ?_)
    (fun _ _ _ => trivial) (fun _ h => h.1)
  exact wp_mono (inks_rest E (b := { b with last := op.search b.last }) ha g1 hinks g2 (hw p hop) h2)
    (fun _ t' ⟨pen', b', q1, q2, q3⟩ => ⟨b', ⟨p, pen', hop, q1, q2⟩, q3⟩) (fun _ _ h => h) (fun _ h => h)

/-- `dd` -/
theorem clears {b : Board} {ds : List Char} {t : Vi × Ed} {kcs : List (Key × (Text → List Text))}
    (h : Shows b t) (hd : Digits ds) (hks : kcs.map Prod.fst = Command.keys (.clear ds)) :
    Wp (Spec.press keyMap E kcs) t (fun _ t' => ∃ b', b.Step E.cc (.clear ds) b' ∧ Shows b' t') T2 (· ≠ .op) := by
  obtain ⟨v, s⟩ := t
  obtain ⟨x, hx, hxt, hpast⟩ := h.line
  obtain ⟨b0, hb0, hbd⟩ := hx.buf
  have hst : v.modeStack = [] := h.stack
  let v2 : Vi := { v with currentCommand := [.char 'd'], currentInsert := none, movementReset := true, modeStack := [.delete b.left.length], secondaryCount := v.count, count := 0 }
  have hdig := digits_chain E (n := 6) (b := true) (e := false) (p := (b.left, b.right)) ds 0 v2 hd.1 (.inr hd.2) rfl (.inr ⟨_, _, rfl⟩)
  have hwh : Whole E 6 (Command.keys (.clear ds)) v true (b.left, b.right) _ true ([], []) :=
    .cons (p1 := (b.left, b.right)) (fun s h => d_gives E hst h) (hdig.append E (.one E (.wait rfl (by simp) (by simp) (by simp))
      fun s h => (wp_congr (core_delete E rfl)).mpr (line_gives E _ rfl (.inr ⟨rfl, rfl⟩) (.inl rfl) h)))
  have hse : ∀ k ∈ Command.keys (.clear ds), ∀ s, Seen s k := by
    intro k hk s
    simp only [Command.keys, List.mem_cons, List.mem_append, List.not_mem_nil, or_false] at hk
    rcases hk with rfl | hk | rfl
    · exact seen_char (by decide) (by decide)
    · obtain ⟨d, h1, rfl⟩ := List.mem_map.1 hk
      exact seen_digit (hd.1 d h1)
    · exact seen_char (by decide) (by decide)
  have hfi : ∀ k, (Command.keys (.clear ds)).head? = some k → ¬ AsideKey k := by
    intro k hk
    obtain rfl : Key.char 'd' = k := by simpa [Command.keys] using hk
    exact not_aside (by decide)
  refine wp_mono (wp_and (kvi_press E kcs _ h.vi) (wp_and ((hwh.chain E hst).press E kcs s hks hse h.here)
    (hwh.press_now E hfi hks hse h.vi hst h.here hb0))) (fun _ t' h' => ?_) (fun _ _ _ => trivial) (fun _ h => h.2.1)
  obtain ⟨hv', -, hcmd, e1, ho⟩ := h'
  obtain ⟨x', ps, hl, hx', hp', hnote⟩ := noted_of ⟨hxt, hpast⟩ hbd hcmd (by rw [e1]) ho
  refine ⟨⟨[], 0, 0, b.last, b.done, ps, b.full⟩, ⟨rfl, rfl, rfl, rfl, rfl, rfl, hnote⟩,
    ⟨hv', by rw [e1], by simpa [Board.left, Board.right] using ho, by simp, by rw [e1], by rw [e1]; exact h.last, fun ch n hd => ?_, _, hl, hx', hp'⟩⟩
  obtain ⟨k, q1, q2⟩ := h.done ch n hd
  exact ⟨k, q1.keep (by rw [e1]) (by rw [e1]) (by rw [e1]), q2⟩

/-- Home and End. -/
theorem edges {b : Board} {last : Bool} {t : Vi × Ed} {kcs : List (Key × (Text → List Text))}
    (h : Shows b t) (hks : kcs.map Prod.fst = Command.keys (.edge last)) :
    Wp (Spec.press keyMap E kcs) t (fun _ t' => ∃ b', b.Step E.cc (.edge last) b' ∧ Shows b' t') T2 (· ≠ .op) := by
  obtain ⟨v, s⟩ := t
  obtain ⟨x, hx, hxt, hpast⟩ := h.line
  simp only [Command.keys] at hks
  rw [List.map_eq_singleton_iff] at hks
  obtain ⟨⟨k, cmp⟩, rfl, hk⟩ := hks
  dsimp only at hk
  have hst : v.modeStack = [] := h.stack
  have hcore : coreFuel E 8 k (v, s) = (ed (handleKeyCommon E k) : ViM Unit) (v, s) := by
    rw [core_normal E hst, hk]
    cases last <;> rfl
  let c := if last then b.text.length - 1 else 0
  have hset : Wp (handleKeyCommon E k) s (fun _ s' => Open true s' (b.text.take c) (b.text.drop c) ∧ Line x s') (fun _ _ => True) (· ≠ .op) := by
    cases last
    · obtain rfl : Key.home = k := by rw [hk]; rfl
      refine wp_mono (wp_and (home_sets E h.here (Side.refl s)) (gw_home E s hx.1)) (fun _ s' h' => ?_) (fun _ _ _ => trivial) (fun _ h => h.1)
      have ho := h'.1.here
      rw [b.sides, show rest true [] b.text = ([], b.text) by
        have := rest_at (t := b.text) (q := 0) (Nat.zero_le _)
        simpa using this] at ho
      exact ⟨ho, hx.grew h'.2⟩
    · obtain rfl : Key.end = k := by rw [hk]; rfl
      refine wp_mono (wp_and (end_sets E h.here (Side.refl s)) (gw_end E s hx.1)) (fun _ s' h' => ?_) (fun _ _ _ => trivial) (fun _ h => h.1)
      have ho := h'.1.here
      have := rest_at (t := b.text) (q := b.text.length) (Nat.le_refl _)
      rw [List.take_length, List.drop_length, Nat.min_eq_right (Nat.sub_le ..)] at this
      rw [b.sides, this] at ho
      exact ⟨ho, hx.grew h'.2⟩
  have hse : Seen s k := by rw [hk]; cases last <;> constructor <;> simp
  refine wp_mono (wp_and (kvi_press E _ _ h.vi) (key_sits E hse h.here (comp := cmp)
    (R := fun q y => q = (b.text.take c, b.text.drop c) ∧ y = x) (v' := v) ?_))
    (fun _ t' h' => ?_) (fun _ _ _ => trivial) (fun _ h => h.2)
  · refine (wp_congr hcore).mpr ?_
    rw [wp_ed]
    exact wp_mono hset (fun _ s' h' => ⟨rfl, _, _, h'.1, h'.2, rfl, rfl⟩) (fun _ _ h => h) (fun _ h => h)
  obtain ⟨hv', h1, q, y, ho, hl, rfl, rfl⟩ := h'
  refine ⟨{ b with cur := c }, rfl, ⟨hv', by rw [h1]; exact h.stack, ho, ?_, by rw [h1]; exact h.count, by rw [h1]; exact h.last,
    by rw [h1]; exact h.done, _, hl, hxt, hpast⟩⟩
  show c ≤ b.text.length
  unfold c
  split <;> omega

/-- A key without meaning. -/
theorem inerts {b : Board} {k : Key} {t : Vi × Ed} {kcs : List (Key × (Text → List Text))}
    (h : Shows b t) (hk : Inert k) (hks : kcs.map Prod.fst = Command.keys (.inert k)) :
    Wp (Spec.press keyMap E kcs) t (fun _ t' => ∃ b', b.Step E.cc (.inert k) b' ∧ Shows b' t') T2 (· ≠ .op) := by
  obtain ⟨v, s⟩ := t
  obtain ⟨x, hx, hxt, hpast⟩ := h.line
  simp only [Command.keys] at hks
  rw [List.map_eq_singleton_iff] at hks
  obtain ⟨⟨k', cmp⟩, rfl, hk'⟩ := hks
  dsimp only at hk'
  subst hk'
  refine wp_mono (wp_and (kvi_press E _ _ h.vi) (key_sits E (inert_seen hk s) h.here (comp := cmp)
    (R := fun q y => q = (b.left, b.right) ∧ y = x) (v' := v) (by
      unfold Wp
      rw [show handleKeyCore E k' (v, s) = _ from core_inert E (n := 7) hk (.inr h.stack)]
      exact ⟨rfl, _, _, h.here, hx, rfl, rfl⟩)))
    (fun _ t' h' => ?_) (fun _ _ _ => trivial) (fun _ h => h.2)
  obtain ⟨hv', h1, q, y, ho, hl, rfl, rfl⟩ := h'
  exact ⟨b, rfl, ⟨hv', by rw [h1]; exact h.stack, ho, h.cur, by rw [h1]; exact h.count, by rw [h1]; exact h.last,
    by rw [h1]; exact h.done, _, hl, hxt, hpast⟩⟩

end
end Vi
end Liner
