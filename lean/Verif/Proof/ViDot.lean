import Verif.Proof.ViEdit
import Verif.Proof.ViSafeRun
/-
Changes and their repetition with `.`.
-/

set_option linter.unusedSectionVars false

namespace Liner
namespace Vi
open Liner.Spec Liner.Editor M KM

section
variable [Around] (E : Env) {e : Bool} {l r : Text} {v : Vi} {s : Ed}

/-! ### Typing -/

/-- A key typed in insert mode. -/
theorem type_gives {n : Nat} {k : Key} (hk : Types k) (hv : v.modeStack = [.insert]) (hr : v.movementReset = false)
    (h : Open false s l r) :
    GivesP (coreFuel E (n + 1) k) (v, s) { v with lastCommand := v.lastCommand ++ [k] } false (typeKey (l, r) k) := by
  refine (wp_congr (core_insert E hv)).mpr ?_
  have reset : resetInsert (v, s) = .ok () (v, s) := by
    unfold resetInsert
    show (if v.movementReset = true then _ else _ : ViM Unit) (v, s) = _
    rw [hr]
    rfl
  have typed : ∀ {m : EdM Unit} {l' r' : Text}, Yields m false s s l' r' → Gives (do
      resetInsert
      modK fun v => { v with lastCommand := v.lastCommand ++ [k] }
      ed m : ViM Unit) (v, s) { v with lastCommand := v.lastCommand ++ [k] } false l' r' := by
    intro m l' r' hm
    refine gives_pureB reset (gives_mod ?_)
    have := gives_ed (v := { v with lastCommand := v.lastCommand ++ [k] }) hm
    rwa [rest_false] at this
  rcases hk with ⟨c, rfl, -⟩ | rfl | rfl
  · exact typed (insert_sets E h (Side.refl s) [c])
  · refine typed (m := deleteBeforeCursor E) ?_
    rcases List.eq_nil_or_concat l with rfl | ⟨l', c, rfl⟩
    · exact deleteBefore_start_sets E (Side.refl s) h
    · rw [List.concat_eq_append] at h ⊢
      show Yields _ _ _ _ (l' ++ [c]).dropLast r
      rw [List.dropLast_concat]
      exact deleteBefore_sets E (Side.refl s) h
  · refine typed (m := deleteAfterCursor E) ?_
    cases r with
    | nil => exact deleteAfter_end_sets E (Side.refl s) h
    | cons c r => exact deleteAfter_sets E (Side.refl s) h

theorem types_seen {k : Key} (hk : Types k) : ∀ s, Seen s k := by
  intro s
  rcases hk with ⟨c, rfl, h1, h2⟩ | rfl | rfl
  · exact seen_char h1 h2
  · constructor <;> simp
  · constructor <;> simp

theorem Inside.typed {b : Bool} {k : Key} {v1 : Vi} (hv : v.modeStack = [.insert]) (hk : Types k ∨ k = .esc) :
    Inside b k v v1 :=
  ⟨fun _ => (by rw [mode_cons hv]; simp), fun _ => hk, fun h => absurd (mode_cons hv) h⟩

theorem type_chain {n : Nat} {b : Bool} : ∀ (ts : List Key) (v : Vi) (p : Text × Text), (∀ k ∈ ts, Types k) →
    v.modeStack = [.insert] → v.movementReset = false →
    Chain E n b ts v false p { v with lastCommand := v.lastCommand ++ ts } false (ts.foldl typeKey p)
  | [], v, p, _, _, _ => by
    rw [List.append_nil]; exact .nil
  | k :: ts, v, p, ht, hv, hr => by
    refine .cons (.typed hv (.inl (ht k List.mem_cons_self))) (fun s h => type_gives E (ht k List.mem_cons_self) hv hr h) ?_
    have := type_chain (n := n) (b := b) ts { v with lastCommand := v.lastCommand ++ [k] } (typeKey p k)
      (fun k hk => ht k (List.mem_cons_of_mem _ hk)) hv hr
    rw [List.append_assoc] at this
    exact this

theorem replay_types {n : Nat} : ∀ (ts : List Key) (v : Vi) (p : Text × Text) (s : Ed), (∀ k ∈ ts, Types k) →
    v.modeStack = [.insert] → v.movementReset = false → Open false s p.1 p.2 →
    GivesP (replay (coreFuel E (n + 1)) ts) (v, s) { v with lastCommand := v.lastCommand ++ ts } false (ts.foldl typeKey p)
  | [], v, p, s, _, _, _, h => by
    rw [List.append_nil]; exact gives_pure () h
  | k :: ts, v, p, s, ht, hv, hr, h => by
    refine gives_bind (type_gives E (ht k List.mem_cons_self) hv hr h) fun _ s1 h1 => ?_
    have := replay_types (n := n) ts { v with lastCommand := v.lastCommand ++ [k] } (typeKey p k) s1
      (fun k hk => ht k (List.mem_cons_of_mem _ hk)) hv hr h1
    rw [List.append_assoc] at this
    exact this

/-- The insertion, some more times. -/
theorem repeats_gives {n : Nat} (ht : ∀ k ∈ v.lastCommand, Types k) (hv : v.modeStack = [.insert])
    (hr : v.movementReset = false) : ∀ (m : Nat) (p : Text × Text) (s : Ed), Open false s p.1 p.2 →
    GivesP (insertRepeats (coreFuel E (n + 1)) m) (v, s) v false
      ((List.replicate m v.lastCommand).flatten.foldl typeKey p)
  | 0, p, s, h => gives_pure () h
  | m + 1, p, s, h => by
    rw [List.replicate_succ, List.flatten_cons, List.foldl_append]
    refine gives_bind (m := do
      let v ← getK
      modK fun v => { v with lastCommand := [] }
      replay (coreFuel E (n + 1)) v.lastCommand) (gives_getK (gives_mod ?_)) fun _ s1 h1 => repeats_gives ht hv hr m _ s1 h1
    exact replay_types E v.lastCommand { v with lastCommand := [] } p s ht hv hr h

omit [Around] in
/-- One place to the left. -/
def back (p : Text × Text) : Text × Text := (p.1.take (p.1.length - 1), p.1.drop (p.1.length - 1) ++ p.2)

theorem rest_back (e : Bool) (p : Text × Text) : rest e (back p).1 (back p).2 = back p := by
  unfold rest back
  split
  · rename_i h
    have h1 := (List.append_eq_nil_iff.1 h.2).1
    have h2 := (List.append_eq_nil_iff.1 h.2).2
    have : p.1 = [] := by
      have := congrArg List.length h1
      simp at this
      exact List.length_eq_zero_iff.1 (by omega)
    simp [this, h2]
  · rfl

omit [Around] in
/-- The state after Esc. -/
def escaped (v : Vi) : Vi :=
  { v with lastCount := if v.count = 0 then v.lastCount else v.count, count := 0, modeStack := [], movementReset := true }

theorem esc_gives {n : Nat} (ht : v.count ≠ 0 → ∀ k ∈ v.lastCommand, Types k) (hv : v.modeStack = [.insert])
    (hr : v.movementReset = false) (h : Open false s l r) :
    GivesP (coreFuel E (n + 2) .esc) (v, s) (escaped v) true
      (back ((List.replicate (v.count - 1) v.lastCommand).flatten.foldl typeKey (l, r))) := by
  refine (wp_congr (core_insert E hv)).mpr ?_
  have last : ∀ (v1 : Vi) (p : Text × Text) (s1 : Ed), v1.modeStack = [.insert] → Open false s1 p.1 p.2 →
      GivesP (do
        ed (Editor.moveCursorLeft E 1)
        popMode E : ViM Unit) (v1, s1) { v1 with modeStack := [], movementReset := true } true (back p) := by
    intro v1 p s1 hv1 h1
    have h2 := gives_ed (v := v1) (left_sets E h1 (Side.refl s1) 1)
    rw [rest_false] at h2
    refine gives_bind h2 fun _ s2 h2 => ?_
    have h3 := popMode_gives E (v := v1) (base := []) hv1 (.inl rfl) h2
    have h4 := rest_back true p
    unfold back at h4
    rw [show decide (([] : List Mode) = []) = true from rfl, h4] at h3
    exact h3
  show GivesP (do
    let v ← getK
    if v.count > 0 then
      modK fun v => { v with lastCount := v.count }
      insertRepeats (coreFuel E (n + 1)) (v.count - 1)
      modK fun v => { v with count := 0 }
    else pure ()
    ed (Editor.moveCursorLeft E 1)
    popMode E : ViM Unit) _ _ _ _
  refine gives_getK ?_
  dsimp only
  unfold escaped
  split
  · rename_i hc
    rw [if_neg (by omega)]
    refine gives_mod (gives_bind (repeats_gives E (v := { v with lastCount := v.count }) (ht (by omega)) hv hr _ (l, r) s h) fun _ s1 h1 =>
      gives_mod ?_)
    exact last { v with lastCount := v.count, count := 0 } _ s1 hv h1
  · rename_i hc
    have h0 : v.count = 0 := by omega
    rw [if_pos h0]
    have := last v (l, r) s hv h
    cases v
    dsimp only at h0 this ⊢
    subst h0
    exact this

/-! ### Changes -/

end

/-- The key that begins the insertion of a change. -/
def opener : Change → Option Key
  | .insert c _ => some (.char c)
  | .subst _ => some (.char 's')
  | .change _ _ _ => some (.char 'c')
  | _ => none

/-- The keys remembered of a change. -/
def record : Change → List Key
  | .cut k => [k]
  | .toggle => [.char '~']
  | .cutEnd => [.char 'D']
  | .replace c => [.char 'r', .char c]
  | .delete _ ks => .char 'd' :: ks
  | .insert _ ts => ts
  | .subst ts => ts
  | .change _ ks ts => ks ++ ts

/-- The keys of a change up to Esc. -/
def body (ds : List Char) : Change → List Key
  | .delete _ ks => .char 'd' :: (ds.map Key.char ++ ks)
  | .change _ ks ts => .char 'c' :: (ds.map Key.char ++ ks ++ ts)
  | ch => (opener ch).toList ++ record ch

theorem body_nil (ch : Change) : body [] ch = (opener ch).toList ++ record ch := by cases ch <;> rfl

theorem keys_body (ds : List Char) (ch : Change) :
    ch.keys ds = body ds ch ++ if (opener ch).isSome = true then [.esc] else [] := by
  cases ch <;> simp [Change.keys, body, opener, record]

/-- The count remembered of a change. -/
abbrev kept (n : Nat) (ch : Change) : Nat := ch.keeps n

theorem kept_kept (n : Nat) (ch : Change) : kept (kept n ch) ch = kept n ch := by
  unfold kept Change.keeps; split <;> simp_all

/-- What is remembered of the change, done `n` times. -/
structure Rec (ch : Change) (n : Nat) (v : Vi) : Prop where
  opener : v.lastInsert = opener ch
  record : v.lastCommand = record ch
  count : dotCount 0 v.lastCount = kept n ch

/-- After the change. -/
structure Final (C : CharClass) (ch : Change) (n : Nat) (v0 : Vi) (l r : Text) (v' : Vi) (p' : Text × Text) : Prop where
  stack : v'.modeStack = []
  count : v'.count = ch.leaves v0.count
  search : v'.lastCharMovement = ch.search v0.lastCharMovement
  record : (∀ c, ch = .replace c → n ≤ r.length) → Rec ch n v'
  short : ∀ c, ch = .replace c → ¬ n ≤ r.length →
    v'.lastInsert = v0.lastInsert ∧ v'.lastCount = v0.lastCount ∧ v'.lastCommand = v0.lastCommand
  makes : Changes C n l r (p'.1 ++ p'.2) p'.1.length ch

/-- The change is done by its keys. -/
def ChangeDone [Around] (E : Env) (n : Nat) (ch : Change) (ds : List Char) (v : Vi) (l r : Text) : Prop :=
  ∃ v1 e1 p1, Whole E n (body ds ch) v true (l, r) v1 e1 p1 ∧
    (opener ch = none → e1 = true ∧ Final E.cc ch (ch.total v.moveCount ds) v l r v1 p1) ∧
    ((opener ch).isSome = true → v1.lastInsert = opener ch ∧ ∃ v' p', Chain E n true [.esc] v1 e1 p1 v' true p' ∧
      Final E.cc ch (ch.total v.moveCount ds) v l r v' p')

section
variable [Around] (E : Env) {n : Nat} {ds : List Char} {l r : Text} {v : Vi}

theorem rest_min (a b : Text) : (rest true a b).1.length = min a.length ((a ++ b).length - 1) := by
  rw [rest_length, List.length_append]
  cases b with
  | nil => simp
  | cons c b => simp

theorem moveCount_dot (v : Vi) : dotCount 0 v.count = v.moveCount := rfl

theorem not_replace {ch : Change} {p : Prop} (h : ∀ c, ch ≠ .replace c) : ∀ c, ch = .replace c → p :=
  fun c hc => absurd hc (h c)

theorem done_cut {k : Key} (hk : k = .char 'x' ∨ k = .delete) (hv : v.modeStack = []) :
    ChangeDone E n (.cut k) ds v l r := by
  refine ⟨_, _, _, .one E fun s h => (wp_congr (core_normal E hv)).mpr (x_gives E _ hk h), fun _ => ⟨rfl, ?_⟩, fun h => by cases h⟩
  refine ⟨hv, rfl, rfl, fun _ => ⟨rfl, rfl, rfl⟩, not_replace (by simp), ?_⟩
  rw [rest_append, rest_min]
  exact ⟨rfl, rfl⟩

theorem done_toggle (hv : v.modeStack = []) : ChangeDone E n .toggle ds v l r := by
  refine ⟨_, _, _, .one E fun s h => (wp_congr (core_normal E hv)).mpr (tildeKey_gives E _ hv h), fun _ => ⟨rfl, ?_⟩, fun h => by cases h⟩
  refine ⟨rfl, rfl, rfl, fun _ => ⟨rfl, rfl, rfl⟩, not_replace (by simp), ?_⟩
  rw [rest_append, rest_min]
  exact ⟨_, rfl, rfl, rfl⟩

theorem done_cutEnd (hv : v.modeStack = []) : ChangeDone E n .cutEnd ds v l r := by
  refine ⟨_, _, _, .one E fun s h => (wp_congr (core_normal E hv)).mpr (D_gives E _ h), fun _ => ⟨rfl, ?_⟩, fun h => by cases h⟩
  refine ⟨hv, rfl, rfl, fun _ => ⟨rfl, rfl, rfl⟩, not_replace (by simp), ?_⟩
  rw [rest_append, rest_min]
  exact ⟨by simp, by simp⟩

theorem done_replace {c : Char} (hv : v.modeStack = []) (hr : r ≠ [] ∨ l = []) : ChangeDone E n (.replace c) ds v l r := by
  let v1 : Vi := { v with movementReset := true, modeStack := [.replace] }
  have h1 : ∀ s, Open true s l r → Gives (coreFuel E (n + 2) (.char 'r')) (v, s) v1 false l r := by
    intro s h
    refine (wp_congr (core_normal E hv)).mpr ?_
    have := push_gives E (v := v) (m := .replace) h (by simp) (by simp) (by simp)
    rw [hv] at this
    exact this
  have hmc : v1.moveCount = v.moveCount := rfl
  by_cases hn : v.moveCount ≤ r.length
  · refine ⟨_, _, _, .cons (p1 := (l, r)) h1 (.one E (.wait (v := v1) (st := []) rfl (by simp) (by simp) (by simp)) fun s h => (wp_congr (core_replace E (v := v1) (st := []) rfl)).mpr
      (replace_gives E c (v := v1) (base := []) rfl (.inl rfl) h hn)), fun _ => ⟨rfl, ?_⟩, fun h => by cases h⟩
    refine ⟨rfl, rfl, rfl, fun _ => ⟨rfl, rfl, rfl⟩, fun c _ h => absurd hn h, ?_⟩
    unfold Changes Change.total
    have := moveCount_pos v
    simp only [hmc, if_pos hn]
    refine ⟨?_, ?_⟩
    · rw [show v.moveCount = (v.moveCount - 1) + 1 by omega, List.replicate_succ']
      simp
    · simp; omega
  · refine ⟨_, _, _, .cons (p1 := (l, r)) h1 (.one E (.wait (v := v1) (st := []) rfl (by simp) (by simp) (by simp)) fun s h => (wp_congr (core_replace E (v := v1) (st := []) rfl)).mpr
      (replace_short_gives E c (v := v1) (base := []) rfl (.inl rfl) h (Nat.not_le.1 hn))), fun _ => ⟨rfl, ?_⟩, fun h => by cases h⟩
    refine ⟨rfl, rfl, rfl, fun h => absurd (h c rfl) hn, fun _ _ _ => ⟨rfl, rfl, rfl⟩, ?_⟩
    have hrr : rest true l r = (l, r) := by
      unfold rest
      rcases hr with hr | hr
      · rw [if_neg (by simp [hr])]
      · split
        · rename_i h; rw [hr, h.2]; rfl
        · rfl
    show if v.moveCount ≤ r.length then _ else _
    rw [if_neg hn, show decide (([] : List Mode) = []) = true from rfl, hrr]
    exact ⟨rfl, rfl⟩

theorem back_append (p : Text × Text) : (back p).1 ++ (back p).2 = p.1 ++ p.2 := by
  unfold back
  rw [← List.append_assoc, List.take_append_drop]

theorem back_length (p : Text × Text) : (back p).1.length = p.1.length - 1 := by
  unfold back; simp

theorem typed_back (m : Nat) (ts : List Key) (p : Text × Text) :
    Typed m ts p.1 p.2 ((back ((List.replicate m ts).flatten.foldl typeKey p)).1 ++
      (back ((List.replicate m ts).flatten.foldl typeKey p)).2)
      (back ((List.replicate m ts).flatten.foldl typeKey p)).1.length :=
  ⟨_, _, rfl, back_append _, back_length _⟩

theorem flatten_pred {m : Nat} (hm : 0 < m) (ts : List Key) (p : Text × Text) :
    (List.replicate (m - 1) ts).flatten.foldl typeKey (ts.foldl typeKey p) = (List.replicate m ts).flatten.foldl typeKey p := by
  obtain ⟨m, rfl⟩ : ∃ m', m = m' + 1 := ⟨m - 1, by omega⟩
  rw [List.replicate_succ, List.flatten_cons, List.foldl_append]
  rfl

theorem moveCount_pred (v : Vi) : v.count - 1 = v.moveCount - 1 := by
  unfold moveCount; split <;> omega

theorem done_insert {c : Char} {ts : List Key} (hc : c ∈ ['i', 'a', 'I', 'A']) (ht : ∀ k ∈ ts, Types k)
    (hv : v.modeStack = []) : ChangeDone E n (.insert c ts) ds v l r := by
  have key : ∀ l' r', (c, l', r') ∈ [('i', l, r), ('a', l ++ r.take 1, r.drop 1), ('I', [], l ++ r), ('A', l ++ r, [])] →
      (∀ s, Open true s l r → Gives (coreFuel E (n + 2) (.char c)) (v, s) (entered v (.char c)) false l' r') →
      ChangeDone E n (.insert c ts) ds v l r := by
    intro l' r' hm hg
    refine ⟨_, _, _, .cons (p1 := (l', r')) hg (type_chain E ts (entered v (.char c)) (l', r') ht rfl rfl),
      (fun h => by cases h), fun _ => ⟨rfl, _, _, .one E (.typed rfl (.inr rfl)) fun s h => esc_gives E ?_ rfl rfl h, ?_⟩⟩
    · exact fun _ => ht
    · refine ⟨rfl, rfl, rfl, fun _ => ⟨rfl, rfl, ?_⟩, not_replace (by simp), l', r', hm, ?_⟩
      · unfold escaped entered dotCount kept Change.keeps Change.total
        dsimp only
        unfold moveCount
        split <;> simp_all
      · show Typed v.moveCount ts l' r' _ _
        unfold entered
        dsimp only
        rw [List.nil_append, moveCount_pred, flatten_pred (moveCount_pos v)]
        exact typed_back v.moveCount ts (l', r')
  simp only [List.mem_cons, List.not_mem_nil, or_false] at hc
  rcases hc with rfl | rfl | rfl | rfl
  · exact key l r (by simp) fun s h => (wp_congr (core_normal E hv)).mpr (i_gives E _ hv h)
  · exact key _ _ (by simp) fun s h => (wp_congr (core_normal E hv)).mpr (a_gives E _ hv h)
  · exact key _ _ (by simp) fun s h => (wp_congr (core_normal E hv)).mpr (I_gives E _ hv h)
  · exact key _ _ (by simp) fun s h => (wp_congr (core_normal E hv)).mpr (A_gives E _ hv h)

theorem done_subst {ts : List Key} (ht : ∀ k ∈ ts, Types k) (hv : v.modeStack = []) :
    ChangeDone E n (.subst ts) ds v l r := by
  refine ⟨_, _, _, .cons (p1 := (l, r.drop v.moveCount)) (fun s h => (wp_congr (core_normal E hv)).mpr (s_gives E _ hv h))
      (type_chain E ts _ (l, r.drop v.moveCount) ht rfl rfl),
      (fun h => by cases h), fun _ => ⟨rfl, _, _, .one E (.typed rfl (.inr rfl)) fun s h => esc_gives E ?_ rfl rfl h, ?_⟩⟩
  · exact fun h => absurd rfl h
  · refine ⟨rfl, rfl, rfl, fun _ => ⟨rfl, rfl, rfl⟩, not_replace (by simp), ?_⟩
    have := typed_back 1 ts (l, r.drop v.moveCount)
    simp only [List.replicate_one, List.flatten_cons, List.flatten_nil, List.append_nil] at this
    exact this

theorem total_eq {v2 : Vi} (hd : Digits ds) (hc : v2.count = min (decimal ds) u32max) (hs : v2.secondaryCount = v.count) :
    bothCounts v2 = if ds = [] then v.moveCount else min (v.moveCount * counted ds) 4294967295 := by
  unfold bothCounts operatorCount moveCount counted
  rw [hc, hs]
  by_cases h2 : ds = []
  · subst h2
    simp [decimal]
  · have := decimal_pos' hd h2
    have hm : min (decimal ds) u32max ≠ 0 := by unfold u32max; omega
    simp only [hm, if_false, h2]
    by_cases h0 : v.count = 0
    · simp only [h0, if_true, hm, if_false]
      unfold u32max; omega
    · have hmm : satMul v.count (min (decimal ds) u32max) ≠ 0 := by
        unfold satMul
        have : 0 < v.count * min (decimal ds) u32max := Nat.mul_pos (by omega) (by omega)
        unfold u32max at *
        omega
      simp only [h0, if_false, hmm]
      rfl

theorem kept_count {m : Motion} {c : Nat} {ks ts : List Key} (w : Vi) (hw : w.count = c) :
    dotCount 0 (keptCount m c) = kept w.moveCount (.delete m ks) ∧
    dotCount 0 (keptCount m c) = kept w.moveCount (.change m ks ts) := by
  subst hw
  cases m <;> exact ⟨rfl, rfl⟩

/-- An operator with its motion, after the key of the operator. -/
theorem oper_done {m : Motion} {ks : List Key} {v2 : Vi} {base : List Mode} (hC : Apart E.cc) (hd : Digits ds)
    (hk : ks ∈ m.keys v2.lastCharMovement) (hi : m.inclusive = true → l ++ r ≠ []) (hr : r ≠ [] ∨ l = [])
    (hv : v2.modeStack = .delete l.length :: base) (hb : base = [] ∨ base = [.insert]) (h0 : v2.count = 0)
    (hs : v2.secondaryCount = v.count) :
    ∃ q v', Leads E.cc (l ++ r) l.length (if ds = [] then v.moveCount else min (v.moveCount * counted ds) 4294967295) m q ∧
      Operated { v2 with count := min (decimal ds) u32max } v' base m ks ∧
      Chain E n true (ds.map Key.char ++ ks) v2 false (l, r) v' (decide (base = [])) (rest (decide (base = []))
        (cut (l ++ r) l.length q m.inclusive).1 (cut (l ++ r) l.length q m.inclusive).2) := by
  obtain ⟨q, hq⟩ := leads_exists E.cc (l ++ r) l.length
    (if ds = [] then v.moveCount else min (v.moveCount * counted ds) 4294967295) m
  have hlt : m.inclusive = true → l.length < (l ++ r).length := by
    intro h'
    have : r ≠ [] := by
      rcases hr with hr | hr
      · exact hr
      · have := hi h'; simpa [hr] using this
    have := List.length_pos_iff.2 this
    rw [List.length_append]; omega
  have hbc := total_eq (v := v) (v2 := { v2 with count := min (decimal ds) u32max }) hd rfl hs
  obtain ⟨v', ho, -, hg⟩ := oper_chain E (n := n) (v := { v2 with count := min (decimal ds) u32max }) hC hk hv hb hr
    (by rw [hbc]; exact hq) (by simp) (fun h' => ⟨hlt h', leads_lt (hlt h') h' hq⟩)
  exact ⟨q, v', hq, ho, (digits_chain E (n := n) (p := (l, r)) ds 0 v2 hd.1 (.inr hd.2) h0 (.inr ⟨_, _, hv⟩)).append E hg⟩

theorem oper_kept {m : Motion} {ks ts : List Key} {v2 v' : Vi} {base : List Mode} (hd : Digits ds)
    (hs : v2.secondaryCount = v.count)
    (ho : Operated { v2 with count := min (decimal ds) u32max } v' base m ks) :
    dotCount 0 v'.lastCount = kept (Change.total v.moveCount ds (.delete m ks)) (.delete m ks) ∧
    dotCount 0 v'.lastCount = kept (Change.total v.moveCount ds (.change m ks ts)) (.change m ks ts) := by
  have hbc := total_eq (v := v) (v2 := { v2 with count := min (decimal ds) u32max }) hd rfl hs
  rw [ho.lastCount]
  unfold Change.total
  simp only []
  rw [← hbc]
  exact kept_count (m := m) (ks := ks) (ts := ts) (c := operatorCount (min (decimal ds) u32max) v2.secondaryCount)
    { v2 with count := operatorCount (min (decimal ds) u32max) v2.secondaryCount } rfl

theorem cut_length {t : Text} {p q : Nat} {b : Bool} (hp : p ≤ t.length) : (cut t p q b).1.length = min p q := by
  unfold cut
  rw [List.length_take]; omega

theorem done_delete {m : Motion} {ks : List Key} (hC : Apart E.cc) (hd : Digits ds)
    (hk : ks ∈ m.keys v.lastCharMovement) (hi : m.inclusive = true → l ++ r ≠ []) (hr : r ≠ [] ∨ l = [])
    (hv : v.modeStack = []) : ChangeDone E n (.delete m ks) ds v l r := by
  let v2 : Vi := { v with currentCommand := [.char 'd'], currentInsert := none, movementReset := true, modeStack := [.delete l.length], secondaryCount := v.count, count := 0 }
  obtain ⟨q, v', hq, ho, hg⟩ := oper_done E (n := n) (v := v) (v2 := v2) (base := []) hC hd hk hi hr rfl (.inl rfl) rfl rfl
  refine ⟨v', true, _, .cons (p1 := (l, r)) (fun s h => d_gives E hv h) hg, fun _ => ⟨rfl, ?_⟩, fun h => by cases h⟩
  refine ⟨ho.stack, ho.count, ho.search, fun _ => ⟨ho.insert, ho.command, (oper_kept (ts := []) hd rfl ho).1⟩, not_replace (by simp), q, hq, ?_⟩
  rw [rest_append, show decide (([] : List Mode) = []) = true from rfl, rest_min, cut_length (by simp)]
  exact ⟨rfl, rfl⟩

theorem done_change {m : Motion} {ks ts : List Key} (hC : Apart E.cc) (hd : Digits ds)
    (hk : ks ∈ m.keys v.lastCharMovement) (hi : m.inclusive = true → l ++ r ≠ []) (ht : ∀ k ∈ ts, Types k)
    (hr : r ≠ [] ∨ l = []) (hv : v.modeStack = []) : ChangeDone E n (.change m ks ts) ds v l r := by
  let v2 : Vi := { v with currentCommand := [], currentInsert := some (.char 'c'), movementReset := true, modeStack := [.delete l.length, .insert], lastCount := 0, lastCommand := [], secondaryCount := v.count, count := 0 }
  obtain ⟨q, v', hq, ho, hg⟩ := oper_done E (n := n) (v := v) (v2 := v2) (base := [.insert]) hC hd hk hi hr rfl (.inr rfl) rfl rfl
  rw [show decide (([.insert] : List Mode) = []) = false from rfl, rest_false] at hg
  have hty := type_chain E (n := n) (b := true) ts v' (cut (l ++ r) l.length q m.inclusive) ht ho.stack ho.reset
  refine ⟨_, false, _, .cons (p1 := (l, r)) (fun s h => c_gives E hv h) (hg.append E hty), (fun h => by cases h),
    fun _ => ⟨ho.insert, _, _, .one E (.typed ho.stack (.inr rfl)) fun s h => esc_gives E (fun h' => absurd ho.count h') ho.stack ho.reset h, ?_⟩⟩
  have h0 := ho.count
  refine ⟨rfl, rfl, ho.search, fun _ => ⟨ho.insert, ?_, ?_⟩, not_replace (by simp), q, hq, ?_⟩
  · show v'.lastCommand ++ ts = _
    rw [ho.command]; rfl
  · show dotCount 0 (if v'.count = 0 then v'.lastCount else v'.count) = _
    rw [if_pos h0]
    exact (oper_kept hd rfl ho).2
  · have := typed_back 1 ts (cut (l ++ r) l.length q m.inclusive)
    simp only [List.replicate_one, List.flatten_cons, List.flatten_nil, List.append_nil] at this
    dsimp only
    rw [h0]
    exact this

/-- Every possible change. -/
theorem change_done {ch : Change} (hC : Apart E.cc) (hd : Digits ds) (hc : ch.Can v.lastCharMovement (l ++ r))
    (hr : r ≠ [] ∨ l = []) (hv : v.modeStack = []) : ChangeDone E n ch ds v l r := by
  cases ch with
  | cut k => exact done_cut E hc hv
  | toggle => exact done_toggle E hv
  | cutEnd => exact done_cutEnd E hv
  | replace c => exact done_replace E hv hr
  | delete m ks => exact done_delete E hC hd hc.1 hc.2 hr hv
  | insert c ts => exact done_insert E hc.1 hc.2 hv
  | subst ts => exact done_subst E hc hv
  | change m ks ts => exact done_change E hC hd hc.1 hc.2.1 hc.2.2 hr hv

/-! ### The repetition -/

theorem binds_assoc {σ α β γ : Type} (m : M σ α) (f : α → M σ β) (g : β → M σ γ) :
    (m >>= f) >>= g = m >>= fun a => f a >>= g := bind_assoc0 m f g

theorem repeat_eq (core : Key → ViM Unit) (o : Option Key) (keys : List Key) :
    (do
      match o with
      | some k => core k
      | none => pure ()
      replay core keys
      let v ← getK
      if v.lastInsert.isSome then core .esc else pure ()
      modK fun v => { v with lastCommand := keys } : ViM Unit) =
    (do
      (match o with
        | some k => core k
        | none => pure ())
      replay core keys
      let v ← getK
      if v.lastInsert.isSome then core .esc else pure ()) >>= fun _ => modK fun v => { v with lastCommand := keys } := by
  cases o with
  | none =>
    simp only [binds_assoc]
    refine bind_congr' fun _ => bind_congr' fun v => ?_
    split <;> rfl
  | some k =>
    simp only [binds_assoc]
    refine bind_congr' fun _ => bind_congr' fun _ => bind_congr' fun v => ?_
    split <;> rfl

/-- `.` does the change again, as often as the count says or as it was done. -/
theorem dot_gives {ch : Change} {k : Nat} {s : Ed} (hC : Apart E.cc) (hR : Rec ch k v)
    (hc : ch.Can v.lastCharMovement (l ++ r)) (hr : r ≠ [] ∨ l = []) (hv : v.modeStack = []) (h : Open true s l r) :
    ∃ v' p', GivesP (coreFuel E (n + 3) (.char '.')) (v, s) v' true p' ∧ v'.modeStack = [] ∧
      (v'.count = ch.leaves (if v.count = 0 then kept k ch else v.count)) ∧
      v'.lastCharMovement = ch.search v.lastCharMovement ∧ Rec ch (if v.count = 0 then kept k ch else v.count) v' ∧
      Changes E.cc (if v.count = 0 then kept k ch else v.count) l r (p'.1 ++ p'.2) p'.1.length ch := by
  have hN : dotCount v.count v.lastCount = if v.count = 0 then kept k ch else v.count := by
    rw [← hR.count]; unfold dotCount; split <;> rfl
  rw [← hN]
  have hpos := dotCount_ne v.count v.lastCount
  let N := dotCount v.count v.lastCount
  let w : Vi := { v with count := N, lastCount := N, lastCommand := [] }
  have hmc : w.moveCount = N := by
    show (if N = 0 then 1 else N) = N
    rw [if_neg hpos]
  have htot : ch.total w.moveCount [] = N := by
    rw [hmc]; cases ch <;> rfl
  obtain ⟨v1, e1, p1, hch, h1, h2⟩ := change_done E (n := n) (ds := []) (v := w) hC ⟨by simp, by simp⟩ hc hr hv
  rw [htot, body_nil] at *
  have rec' : ∀ (v' : Vi) (p' : Text × Text), Final E.cc ch N w l r v' p' →
      Rec ch N { v' with lastCommand := v.lastCommand } := by
    intro v' p' hf
    by_cases hs : ∀ c, ch = .replace c → N ≤ r.length
    · exact ⟨(hf.record hs).opener, hR.record, (hf.record hs).count⟩
    · simp only [not_forall] at hs
      obtain ⟨c, hc, hn⟩ := hs
      obtain ⟨a1, a2, -⟩ := hf.short c hc hn
      refine ⟨a1.trans hR.opener, hR.record, ?_⟩
      show dotCount 0 v'.lastCount = _
      rw [a2, hc]
      show (if N = 0 then 1 else N) = N
      rw [if_neg hpos]
  have fin : ∀ (v' : Vi) (p' : Text × Text), Final E.cc ch N w l r v' p' →
      GivesP (do
        (match v.lastInsert with
          | some k => coreFuel E (n + 2) k
          | none => pure ())
        replay (coreFuel E (n + 2)) v.lastCommand
        let v ← getK
        if v.lastInsert.isSome then coreFuel E (n + 2) .esc else pure () : ViM Unit) (w, s) v' true p' →
      ∃ v' p', GivesP (coreFuel E (n + 3) (.char '.')) (v, s) v' true p' ∧ v'.modeStack = [] ∧
      (v'.count = ch.leaves N) ∧
      v'.lastCharMovement = ch.search v.lastCharMovement ∧ Rec ch N v' ∧ Changes E.cc N l r (p'.1 ++ p'.2) p'.1.length ch := by
    intro v' p' hf hg
    refine ⟨{ v' with lastCommand := v.lastCommand }, p', ?_, hf.stack, hf.count, hf.search, rec' v' p' hf, hf.makes⟩
    refine (wp_congr (core_normal E hv)).mpr ?_
    show GivesP (do
      modK fun v => { v with count := dotCount v.count v.lastCount }
      repeatLast (coreFuel E (n + 2)) : ViM Unit) _ _ _ _
    unfold repeatLast
    refine gives_mod (gives_mod (gives_getK (gives_mod ?_)))
    have := gives_bind hg fun _ s1 h1 => gives_modK (f := fun v' => { v' with lastCommand := v.lastCommand }) h1
    exact gives_start (congrFun (repeat_eq (coreFuel E (n + 2)) v.lastInsert v.lastCommand) (w, s)) this
  have whole : ∀ {v' : Vi} {e' : Bool} {p' : Text × Text},
      Chain E n false ((opener ch).toList ++ record ch) w true (l, r) v' e' p' →
      GivesP (do
        (match v.lastInsert with
          | some k => coreFuel E (n + 2) k
          | none => pure ())
        replay (coreFuel E (n + 2)) v.lastCommand : ViM Unit) (w, s) v' e' p' := by
    intro v' e' p' hc
    rw [hR.record, hR.opener]
    cases hop : opener ch with
    | none =>
      rw [hop] at hc
      exact gives_bind (gives_pure (v := w) () h) fun _ s1 h1 => hc.replay E s1 h1
    | some k =>
      rw [hop] at hc
      have := hc.replay E s h
      exact this
  cases hop : opener ch with
  | none =>
    obtain ⟨rfl, hf⟩ := h1 hop
    refine fin v1 p1 hf ?_
    have hli : v1.lastInsert = none := by
      by_cases hs : ∀ c, ch = .replace c → N ≤ r.length
      · exact (hf.record hs).opener.trans hop
      · simp only [not_forall] at hs
        obtain ⟨c, hc, hn⟩ := hs
        exact (hf.short c hc hn).1.trans (hR.opener.trans hop)
    have := gives_bind (whole (hch.chain E hv)) fun _ s1 h1 => gives_getK (f := fun v : Vi => if v.lastInsert.isSome = true then coreFuel E (n + 2) .esc else pure ())
      (v'' := v1) (e' := true) (l' := p1.1) (r' := p1.2) (by
        rw [hli]; exact gives_pure () h1)
    refine gives_start ?_ this
    simp only [binds_assoc]
  | some k =>
    obtain ⟨hli, v', p', hesc, hf⟩ := h2 (by rw [hop]; rfl)
    refine fin v' p' hf ?_
    have hesc' : ∀ s1, Open e1 s1 p1.1 p1.2 → GivesP (coreFuel E (n + 2) .esc) (v1, s1) v' true p' := by
      cases hesc with
      | cons _ h t => cases t; exact h
    have := gives_bind (whole (hch.chain E hv)) fun _ s1 h1 => gives_getK (f := fun v : Vi => if v.lastInsert.isSome = true then coreFuel E (n + 2) .esc else pure ())
      (v'' := v') (e' := true) (l' := p'.1) (r' := p'.2) (by
        rw [hli, hop]; exact hesc' s1 h1)
    refine gives_start ?_ this
    simp only [binds_assoc]

/-! ### Other keys -/

omit [Around] in
/-- The record of the change, outside an insertion and an operator. -/
def Keeps (ch : Change) (k : Nat) (v : Vi) : Prop := Rec ch k v ∧ Free v.modeStack

theorem Keeps.same {ch : Change} {k : Nat} {v' : Vi} (h : Rec ch k v) (hs : Same v v') (hf : Free v'.modeStack) :
    Keeps ch k v' :=
  ⟨⟨hs.li.trans h.opener, hs.lc.trans h.record, by rw [hs.lk]; exact h.count⟩, hf⟩

theorem free_opn {st : List Mode} (h : Free st) : Opn st := .inl h

theorem has_free {st base : List Mode} {p : Nat} (h : Has st p base) (hf : Free st) : False := by
  rcases hf with hf | ⟨m, hf⟩ | hf <;> rcases h with h | ⟨m', h⟩ | h <;> (rw [hf] at h; simp at h)

theorem Keeps.moved {ch : Change} {k : Nat} {w v' : Vi} (h : Rec ch k w) (hf : Free w.modeStack)
    (hm : Quit w v' ∨ Moved_f w v') : Keeps ch k v' := by
  rcases hm with ⟨h1, h2⟩ | ⟨_, h1, h2⟩ | ⟨p, base, h1, _⟩
  · exact .same h h2 (.inl h1)
  · exact .same h h2 (.inl h1)
  · exact (has_free h1 hf).elim

/-- A key that does not begin a change. -/
theorem keeps_core {ch : Change} {k : Nat} {key : Key} (h : Keeps ch k v) (hk : v.mode = .normal → key ∉ changing) :
    WK (handleKeyCore E key) v (fun _ v' => Keeps ch k v') := by
  obtain ⟨hR, hf⟩ := h
  intro s
  show Wp (coreStep (coreFuel E 7) E key) _ _ _ _
  unfold coreStep
  rw [wp_bind, wp_getK]
  rcases id hf with h | ⟨m, h⟩ | h
  · have hm : v.mode = .normal := mode_nil h
    have hk := hk hm
    rw [hm]
    refine wk_mono (wk_normal E (core := coreFuel E 7) (key := key) (by rintro rfl; exact hk (by simp [changing])) h) (fun _ v' hn => ?_) s
    cases hn with
    | quit h' => exact .moved hR hf (.inl h')
    | find m h' => exact .same hR h'.2 (.inr (.inl ⟨m, by rw [h'.1, h]⟩))
    | g h' => exact .same hR h'.2 (.inr (.inr (by rw [h'.1, h])))
    | replace _ h' => exact absurd (by rw [h']; simp [changing]) hk
    | insert _ _ _ h' =>
      obtain ⟨c, hc, rfl⟩ := h'
      refine absurd ?_ hk
      simp only [List.mem_cons, List.not_mem_nil, or_false] at hc
      rcases hc with rfl | rfl | rfl | rfl | rfl | rfl <;> simp [changing]
    | one _ _ _ _ h' =>
      refine absurd ?_ hk
      simp only [List.mem_cons, List.not_mem_nil, or_false] at h'
      rcases h' with rfl | rfl | rfl | rfl <;> simp [changing]
    | del _ _ _ _ _ _ _ h' => exact absurd (by rw [h']; simp [changing]) hk
    | change _ _ _ _ _ h' => exact absurd (by rw [h']; simp [changing]) hk
  · rw [mode_cons h]
    refine wk_mono (wk_moveToChar E (key := key) (free_opn hf)) (fun _ v' hn => ?_) s
    rcases hn with hn | hn
    · exact .moved hR hf (.inl hn)
    · exact Keeps.moved (w := { v with currentCommand := v.currentCommand ++ [key] }) ⟨hR.opener, hR.record, hR.count⟩ hf (.inr hn)
  · rw [mode_cons h]
    refine wk_mono (wk_handleG E (key := key) (free_opn hf)) (fun _ v' hn => ?_) s
    exact Keeps.moved (w := { v with currentCommand := v.currentCommand ++ [key] }) ⟨hR.opener, hR.record, hR.count⟩ hf hn

theorem translate_changing {key : Key} (h : key ∉ changing) : KeyMap.translate key ∉ changing := by
  unfold KeyMap.translate
  split
  · simp [changing]
  · exact h

/-- The whole key. -/
theorem keeps_handleKey {ch : Change} {k : Nat} {key : Key} (comp : Text → List Text) (h : Keeps ch k v)
    (hk : v.mode = .normal → key ∉ changing) :
    WK (keyMap.handleKey E comp key) v (fun _ v' => Keeps ch k v') := by
  unfold KeyMap.handleKey KeyMap.dispatch
  refine wk_bind <| wk_ed fun b => wk_bind <| wk_bind <| wk_ed fun s => ?_
  have fin : ∀ (d : Bool) (v' : Vi), Keeps ch k v' → WK (do
      ed (flush E)
      pure d : ViM Bool) v' (fun _ v' => Keeps ch k v') := fun d v' h' => wk_bind <| wk_ed fun _ => wk_pure h'
  have thr : ∀ {α : Type} (m : EdM α) (e : IoErr) (Q : Bool → Vi → Prop), WK (do
      let _ ← ed m
      M.throw e : ViM Bool) v Q := fun m e Q => wk_bind <| wk_ed fun _ _ => trivial
  have one : ∀ (m : EdM Unit), WK (do
      ed m
      pure false : ViM Bool) v (fun d v' => WK (do
      ed (flush E)
      pure d : ViM Bool) v' (fun _ v' => Keeps ch k v')) := fun m => wk_bind <| wk_ed fun _ => wk_pure <| fin _ _ h
  refine wk_ite (fun _ => thr _ _ _) fun _ => wk_ite (fun _ => thr _ _ _) fun _ => wk_ite (fun _ => one _) fun _ =>
    wk_ite (fun _ => wk_ed fun d => fin d _ h) fun _ => wk_ite (fun _ => one _) fun _ =>
    wk_ite (fun _ => one _) fun _ => wk_ite (fun _ => one _) fun _ => ?_
  have rest : ∀ a : Bool, WK (do
      if a then ed (acceptAutosuggestion E)
      else
        keyMap.core E (KeyMap.translate key)
        ed skipCompletionsHint
      pure false : ViM Bool) v (fun d v' => WK (do
      ed (flush E)
      pure d : ViM Bool) v' (fun _ v' => Keeps ch k v')) := fun a => by
    refine wk_ite (fun _ => one _) fun _ => wk_bind ?_
    refine wk_mono (keeps_core E h fun hm => translate_changing (hk hm)) fun _ v' h' => ?_
    exact wk_bind <| wk_ed fun _ => wk_pure <| fin _ _ h'
  exact wk_ite (fun _ => wk_bind <| wk_ed rest) (fun _ => wk_bind <| wk_pure (rest _))

end
end Vi
end Liner
