import Verif.Proof.ViUndo
import Verif.Props.ViDot
/-
The vi commands and the board: the texts that undo brings back, changes, undo and motions.
-/

set_option linter.unusedSectionVars false

namespace Liner
namespace Vi
open Liner.Spec Liner.Editor M KM

/-! ### The texts that undo brings back -/

/-- From this text and log, undo brings back these texts, one after the other; if `full`, nothing more. -/
def Past (full : Bool) : List Text → Text × List Action → Prop
  | [], x => full = true → ∀ n, ∃ y, undones n x = some y ∧ y.1 = x.1
  | p :: ps, x => x.2 ≠ [] ∧ ∃ y, undone x = some y ∧ y.1 = p ∧ Past full ps y

theorem undone_nil (d : Text) : undone (d, []) = some (d, []) := rfl

/-- A command that edited. -/
theorem undone_edit {b0 : Buffer} {d : Text} {xs : List Action} (hx : Plainly xs) (hne : xs ≠ [])
    (hp : Path ([.endGroup] ++ (xs ++ [.startGroup])) b0.data d) :
    undone (d, [.endGroup] ++ (xs ++ [.startGroup]) ++ b0.actions) = some (b0.data, b0.actions) := by
  have hc : Chunk ([.endGroup] ++ (xs ++ [.startGroup]) : List Action).reverse := by
    have := Chunk.group (seq_of (xs := xs.reverse) (fun a ha => hx a (by simpa using ha)) (by simpa using hne))
    simpa using this
  unfold undone
  dsimp only
  have := Buffer.undoCut_chunk hc b0.actions
  rw [List.reverse_reverse] at this
  rw [this, hp.undoAll]
  rfl

theorem undone_single {b0 : Buffer} {d : Text} {a : Action} (ha : a.isEdit = true) (hp : Path [a] b0.data d) :
    undone (d, [a] ++ b0.actions) = some (b0.data, b0.actions) := by
  have hc : Chunk ([a] : List Action).reverse := .edit a ha
  unfold undone
  dsimp only
  have := Buffer.undoCut_chunk hc b0.actions
  rw [List.reverse_reverse] at this
  rw [this, hp.undoAll]
  rfl

/-- An empty group is passed over. -/
theorem undone_empty (d : Text) (acts : List Action) :
    undone (d, [.endGroup, .startGroup] ++ acts) = undone (d, acts) := by
  unfold undone
  dsimp only [List.cons_append, List.nil_append]
  simp [Buffer.undoCut, undoAll, Action.undo, Buffer.undoNest, Buffer.undoCount]

theorem path_empty {x y : Text} (h : Path [.endGroup, .startGroup] x y) : y = x := by
  have := h.undoAll
  simp [undoAll, Action.undo] at this
  exact this

theorem Past.empty {full : Bool} {ps : List Text} {d : Text} {acts : List Action} (h : Past full ps (d, acts)) :
    Past full ps (d, [.endGroup, .startGroup] ++ acts) := by
  cases ps with
  | nil =>
    intro hf n
    cases n with
    | zero => exact ⟨_, rfl, rfl⟩
    | succ n =>
      obtain ⟨y, h1, h2⟩ := h hf (n + 1)
      exact ⟨y, by rw [undones, undone_empty]; exact h1, h2⟩
  | cons p ps =>
    obtain ⟨-, y, h1, h2⟩ := h
    exact ⟨by simp, y, by rw [undone_empty]; exact h1, h2⟩

/-- After a command. -/
theorem Past.after {full : Bool} {ps : List Text} {b0 : Buffer} {d : Text} {es : List Action} (hd : Done es)
    (hp : Path es b0.data d) (h : Past full ps (b0.data, b0.actions)) :
    Past full (b0.data :: ps) (d, es ++ b0.actions) ∨ (d = b0.data ∧ Past full ps (d, es ++ b0.actions)) := by
  rcases hd with (rfl | ⟨a, ha, rfl⟩) | ⟨xs, hx, rfl⟩
  · cases path_nil hp; exact .inr ⟨rfl, h⟩
  · exact .inl ⟨by simp, _, undone_single ha hp, rfl, h⟩
  · by_cases hxs : xs = []
    · subst hxs
      have := path_empty hp
      subst this
      exact .inr ⟨rfl, Past.empty h⟩
    · exact .inl ⟨by simp, _, undone_edit hx hxs hp, rfl, h⟩

/-! ### The log after the keys of a command -/

section
variable [Around] (E : Env) {e e' : Bool} {v v' : Vi} {s : Ed} {b0 : Buffer}

/-- What is known of a state inside a command or after it. -/
def Now (b0 : Buffer) (v' : Vi) (e' : Bool) (p' : Text × Text) (t : Vi × Ed) : Prop :=
  Cmd b0 t ∧ t.1 = v' ∧ Open e' t.2 p'.1 p'.2

theorem typing_of {k : Key} (h : Types k) : Typing k := by
  rcases h with ⟨c, h, -⟩ | h | h
  · exact .inl ⟨c, h⟩
  · exact .inr (.inl h)
  · exact .inr (.inr h)

theorem now_next {n : Nat} {k : Key} {v1 : Vi} {e1 : Bool} {p p1 : Text × Text} {t : Vi × Ed} (ht : Now b0 v e p t)
    (i : Inside true k v v1) (h : ∀ s, Open e s p.1 p.2 → GivesP (coreFuel E (n + 2) k) (v, s) v1 e1 p1) :
    Wp (coreFuel E (n + 2) k) t (fun _ t' => Now b0 v1 e1 p1 t') T2 T1 := by
  obtain ⟨v2, s⟩ := t
  obtain ⟨hc, rfl, ho⟩ := ht
  refine wp_mono (wp_and (h s ho) (core_next E n hc (i.busy rfl) fun hm => (i.typing hm).imp_left typing_of))
    (fun _ t' h' => ?_) (fun _ _ _ => trivial) (fun _ _ => trivial)
  obtain ⟨⟨h1, h2⟩, h3⟩ := h'
  exact ⟨h3 (by rw [h1]; exact i.change), h1, h2⟩

theorem now_first {n : Nat} {k : Key} {v1 : Vi} {e1 : Bool} {p p1 : Text × Text} (hv : VI (v, s)) (hs : v.modeStack = [])
    (ho : Open e s p.1 p.2) (hb : workBuf s = some b0) (ha : ¬ AsideKey k)
    (h : ∀ s, Open e s p.1 p.2 → GivesP (coreFuel E (n + 2) k) (v, s) v1 e1 p1) :
    Wp (coreFuel E (n + 2) k) (v, s) (fun _ t' => Now b0 v1 e1 p1 t') T2 T1 := by
  refine wp_mono (wp_and (h s ho) (core_first E n ha (t := (v, s)) hv ho.quiet hs hb))
    (fun _ t' h' => ⟨h'.2, h'.1.1, h'.1.2⟩) (fun _ _ _ => trivial) (fun _ _ => trivial)

theorem Chain.now {n : Nat} {ks : List Key} {p p' : Text × Text} (h : Chain E n true ks v e p v' e' p') :
    ∀ t, Now b0 v e p t → Wp (Vi.replay (coreFuel E (n + 2)) ks) t (fun _ t' => Now b0 v' e' p' t') T2 T1 := by
  induction h with
  | nil => exact fun t h => h
  | @cons k ks v v1 v' e e1 e' p p1 p' i h t ih =>
    intro t0 ht
    show Wp (coreFuel E (n + 2) k >>= fun _ => Vi.replay (coreFuel E (n + 2)) ks) t0 _ _ _
    rw [wp_bind]
    exact wp_mono (now_next E ht i h) (fun _ t1 h1 => ih t1 h1) (fun _ _ h => h) (fun _ h => h)

theorem Whole.now {n : Nat} {ks : List Key} {p p' : Text × Text} (h : Whole E n ks v e p v' e' p')
    (ha : ∀ k, ks.head? = some k → ¬ AsideKey k) (hv : VI (v, s)) (hs : v.modeStack = [])
    (ho : Open e s p.1 p.2) (hb : workBuf s = some b0) :
    Wp (Vi.replay (coreFuel E (n + 2)) ks) (v, s) (fun _ t' => Now b0 v' e' p' t') T2 T1 := by
  cases h with
  | @cons k ks v v1 v' e e1 e' p p1 p' h t =>
    show Wp (coreFuel E (n + 2) k >>= fun _ => Vi.replay (coreFuel E (n + 2)) ks) _ _ _ _
    rw [wp_bind]
    exact wp_mono (now_first E hv hs ho hb (ha k rfl) h) (fun _ t1 h1 => t.now E t1 h1) (fun _ _ h => h) (fun _ h => h)

/-- From the key map to the whole key. -/
theorem now_key {k : Key} {comp : Text → List Text} {v1 : Vi} {e1 : Bool} {l r l1 r1 : Text} {t : Vi × Ed} (hv : VI t)
    (hk : Seen t.2 k) (ho : Open e t.2 l r) (hg : Gives (handleKeyCore E k) t v1 e1 l1 r1)
    (h : Wp (handleKeyCore E k) t (fun _ t' => Now b0 v1 e1 (l1, r1) t') T2 T1) :
    Wp (keyMap.handleKey E comp k) t (fun _ t' => Now b0 v1 e1 (l1, r1) t') T2 T1 := by
  obtain ⟨v, s⟩ := t
  obtain ⟨b, hb, -⟩ := text?_eq.mp ho.here.1
  refine wp_mono (wp_and (kvi_handleKey E comp k _ hv) (wp_and (handleKey_gives E hk ho comp hg) (key_of E hk hb comp
    (Q := fun t' => t'.2.isSearch = false ∧
      (∃ b es, workBuf t'.2 = some b ∧ Shape t'.1.modeStack es ∧ b.actions = es ++ b0.actions ∧ Path es b0.data b.data) ∧
      (t'.1.modeStack = [.insert] → Fresh t'.1))
    (fun t1 t2 hQ e1 e2 e3 => by rw [e1, e2, e3]; exact hQ)
    (wp_mono h (fun _ t2 h2 => ⟨h2.1.quiet, h2.1.log, h2.1.fresh⟩) (fun _ _ h => h) (fun _ h => h)))))
    (fun _ t' h' => ?_) (fun _ _ _ => trivial) (fun _ _ => trivial)
  obtain ⟨h1, ⟨-, h2, h3⟩, -, h4, h5, h6⟩ := h'
  exact ⟨⟨h1, h4, h5, h6⟩, h2, h3⟩

theorem Chain.press_now {ks : List Key} {p p' : Text × Text} (h : Chain E 6 true ks v e p v' e' p') :
    ∀ (kcs : List (Key × (Text → List Text))) (t : Vi × Ed), kcs.map Prod.fst = ks → (∀ k ∈ ks, ∀ s, Seen s k) →
      Now b0 v e p t → Wp (Spec.press keyMap E kcs) t (fun _ t' => Now b0 v' e' p' t') T2 T1 := by
  induction h with
  | nil =>
    intro kcs t hk _ h
    obtain rfl : kcs = [] := by simpa using hk
    exact h
  | cons i h t ih =>
    intro kcs t hk hs ht
    obtain ⟨⟨k', c⟩, kcs', rfl, rfl, hk'⟩ := List.map_eq_cons_iff.1 hk
    unfold Spec.press
    rw [wp_bind]
    obtain ⟨v2, s⟩ := t
    obtain ⟨hc, rfl, ho⟩ := id ht
    exact wp_mono (now_key E hc.vi (hs _ (List.mem_cons_self ..) s) ho (h s ho) (now_next E (n := 6) ht i h)) (fun _ t1 h1 =>
      ih kcs' t1 hk' (fun k hk => hs k (List.mem_cons_of_mem _ hk)) h1) (fun _ _ h => h) (fun _ h => h)

theorem Whole.press_now {ks : List Key} {p p' : Text × Text} (h : Whole E 6 ks v e p v' e' p')
    (ha : ∀ k, ks.head? = some k → ¬ AsideKey k) {kcs : List (Key × (Text → List Text))} (hk : kcs.map Prod.fst = ks)
    (hse : ∀ k ∈ ks, ∀ s, Seen s k) (hv : VI (v, s)) (hs : v.modeStack = [])
    (ho : Open e s p.1 p.2) (hb : workBuf s = some b0) :
    Wp (Spec.press keyMap E kcs) (v, s) (fun _ t' => Now b0 v' e' p' t') T2 T1 := by
  cases h with
  | @cons k ks v v1 v' e e1 e' p p1 p' h t =>
    obtain ⟨⟨k', c⟩, kcs', rfl, rfl, hk'⟩ := List.map_eq_cons_iff.1 hk
    unfold Spec.press
    rw [wp_bind]
    exact wp_mono (now_key E hv (hse _ (List.mem_cons_self ..) s) ho (h s ho) (now_first E (n := 6) hv hs ho hb (ha _ rfl) h))
      (fun _ t1 h1 => t.press_now E kcs' t1 hk' (fun k hk => hse k (List.mem_cons_of_mem _ hk)) h1)
      (fun _ _ h => h) (fun _ h => h)

/-! ### Changes -/

theorem body_first {ch : Change} {last : Option (Char × CharMovement)} {t : Text} (hc : ch.Can last t) (ds : List Char) :
    ∀ k, (body ds ch).head? = some k → ¬ AsideKey k := by
  have hch : ∀ c : Char, c ∉ ['u', '.', 'k', 'j'] → ¬ AsideKey (.char c) := by
    rintro c hc (⟨c', h, h' | h' | h' | h'⟩ | h | h | h) <;> cases h <;> simp [h'] at hc
  intro k hk
  cases ch with
  | cut k' =>
    obtain rfl : k' = k := by simpa [body, record, opener] using hk
    rcases hc with rfl | rfl
    · exact hch _ (by decide)
    · rintro (⟨c', h, -⟩ | h | h | h) <;> cases h
  | insert c ts =>
    obtain rfl : Key.char c = k := by simpa [body, record, opener] using hk
    have := hc.1
    simp only [List.mem_cons, List.not_mem_nil, or_false] at this
    rcases this with rfl | rfl | rfl | rfl <;> exact hch _ (by decide)
  | toggle => obtain rfl : Key.char '~' = k := by simpa [body, record, opener] using hk
              exact hch _ (by decide)
  | cutEnd => obtain rfl : Key.char 'D' = k := by simpa [body, record, opener] using hk
              exact hch _ (by decide)
  | replace c => obtain rfl : Key.char 'r' = k := by simpa [body, record, opener] using hk
                 exact hch _ (by decide)
  | delete m ks => obtain rfl : Key.char 'd' = k := by simpa [body, record, opener] using hk
                   exact hch _ (by decide)
  | subst ts => obtain rfl : Key.char 's' = k := by simpa [body, record, opener] using hk
                exact hch _ (by decide)
  | change m ks ts => obtain rfl : Key.char 'c' = k := by simpa [body, record, opener] using hk
                      exact hch _ (by decide)

theorem head_append {α : Type} {xs ys : List α} (h : xs ≠ []) : (xs ++ ys).head? = xs.head? := by
  cases xs with
  | nil => exact absurd rfl h
  | cons x xs => rfl

theorem body_ne {ch : Change} {ds : List Char} : body ds ch ≠ [] := by
  cases ch <;> simp [body, record, opener]

/-- The keys of a change: what they do and what they leave in the log. -/
theorem change_now {ch : Change} {ds : List Char} {l r : Text}
    {kcs : List (Key × (Text → List Text))} (hC : Apart E.cc) (hd : Digits ds)
    (hc : ch.Can v.lastCharMovement (l ++ r)) (hr : r ≠ [] ∨ l = []) (hvi : VI (v, s)) (hv : v.modeStack = [])
    (hks : kcs.map Prod.fst = ch.keys ds) (h : Open true s l r) (hb : workBuf s = some b0) :
    ∃ v' p', Wp (Spec.press keyMap E kcs) (v, s) (fun _ t' => Now b0 v' true p' t') T2 (· ≠ .op) ∧
      Final E.cc ch (ch.total v.moveCount ds) v l r v' p' := by
  obtain ⟨v1, e1, p1, hch, h1, h2⟩ := change_done E (n := 6) (ds := ds) hC hd hc hr hv
  have hseen := change_seen hd hc
  have hf := body_first hc ds
  rw [keys_body] at hks hseen
  have both : ∀ {v' : Vi} {p' : Text × Text} {ks : List Key}, kcs.map Prod.fst = ks → (∀ k ∈ ks, ∀ s, Seen s k) →
      (∀ k, ks.head? = some k → ¬ AsideKey k) → Whole E 6 ks v true (l, r) v' true p' →
      Wp (Spec.press keyMap E kcs) (v, s) (fun _ t' => Now b0 v' true p' t') T2 (· ≠ .op) := by
    intro v' p' ks hk hse hfi hw
    exact wp_mono (wp_and ((hw.chain E hv).press E kcs s hk hse h) (hw.press_now E hfi hk hse hvi hv h hb))
      (fun _ t' h' => h'.2) (fun _ _ _ => trivial) (fun _ h => h.1)
  cases hop : opener ch with
  | none =>
    obtain ⟨rfl, hfin⟩ := h1 hop
    rw [hop] at hks hseen
    simp only [Option.isSome_none, Bool.false_eq_true, if_false, List.append_nil] at hks hseen
    exact ⟨v1, p1, both hks hseen hf hch, hfin⟩
  | some k =>
    obtain ⟨-, v', p', hesc, hfin⟩ := h2 (by rw [hop]; rfl)
    rw [hop] at hks hseen
    simp only [Option.isSome_some, if_true] at hks hseen
    refine ⟨v', p', both hks hseen ?_ (hch.append E hesc), hfin⟩
    rw [head_append body_ne]; exact hf

/-- `.` leaves in the log what the change leaves there. -/
theorem dot_now {n : Nat} {ch : Change} {k : Nat} {l r : Text} (hC : Apart E.cc) (hR : Rec ch k v)
    (hc : ch.Can v.lastCharMovement (l ++ r)) (hr : r ≠ [] ∨ l = []) (hvi : VI (v, s)) (hv : v.modeStack = [])
    (h : Open true s l r) (hb : workBuf s = some b0) :
    Wp (coreFuel E (n + 3) (.char '.')) (v, s) (fun _ t' => Cmd b0 t') T2 T1 := by
  have hpos := dotCount_ne v.count v.lastCount
  let N := dotCount v.count v.lastCount
  let w : Vi := { v with count := N, lastCount := N, lastCommand := [] }
  have hmc : w.moveCount = N := by
    show (if N = 0 then 1 else N) = N
    rw [if_neg hpos]
  have htot : ch.total w.moveCount [] = N := by
    rw [hmc]; cases ch <;> rfl
  have hwi : VI (w, s) := hvi.modK rfl ⟨by simp [w], hvi.esc.cur⟩
  obtain ⟨v1, e1, p1, hch, h1, h2⟩ := change_done E (n := n) (ds := []) (v := w) hC ⟨by simp, by simp⟩ hc hr hv
  have hfst := body_first hc []
  have hnow := hch.now E hfst hwi hv h hb
  rw [htot, body_nil] at *
  have fin : ∀ t : Vi × Ed, t.1.modeStack = [] → Cmd b0 t →
      VI ({ t.1 with lastCommand := v.lastCommand }, t.2) → Cmd b0 ({ t.1 with lastCommand := v.lastCommand }, t.2) :=
    fun t hs hc hv' => ⟨hv', hc.quiet, hc.log, fun h => by rw [show t.1.modeStack = _ from h] at hs; cases hs⟩
  have hlast : ∀ {v' : Vi} {p' : Text × Text}, Final E.cc ch N w l r v' p' → v'.lastInsert = opener ch := by
    intro v' p' hf
    by_cases hs : ∀ c, ch = .replace c → N ≤ r.length
    · exact (hf.record hs).opener
    · simp only [not_forall] at hs
      obtain ⟨c, hc, hn⟩ := hs
      exact (hf.short c hc hn).1.trans hR.opener
  -- the whole repetition
  suffices hmid : Wp (do
        (match v.lastInsert with
          | some k => coreFuel E (n + 2) k
          | none => pure ())
        replay (coreFuel E (n + 2)) v.lastCommand
        let v ← getK
        if v.lastInsert.isSome then coreFuel E (n + 2) .esc else pure () : ViM Unit) (w, s)
        (fun _ t' => Cmd b0 t' ∧ t'.1.modeStack = []) T2 T1 by
    have hvi' : Wp (coreFuel E (n + 3) (.char '.')) (v, s) (fun _ t' => VI t') T2 T1 := coreFuel_all E (n + 3) _ _ hvi
    refine wp_mono (wp_and hvi' (Q' := fun _ t' => ∃ t, Cmd b0 t ∧ t.1.modeStack = [] ∧
      t' = ({ t.1 with lastCommand := v.lastCommand }, t.2)) (R' := T2) (P' := T1) ?_) (fun _ t' h' => ?_) (fun _ _ _ => trivial) (fun _ _ => trivial)
    · refine (wp_congr (core_normal E hv)).mpr ?_
      show Wp (do
        modK fun v => { v with count := dotCount v.count v.lastCount }
        repeatLast (coreFuel E (n + 2)) : ViM Unit) _ _ _ _
      unfold repeatLast
      rw [wp_bind, wp_modK, wp_bind, wp_modK, wp_bind, wp_getK, wp_bind, wp_modK]
      refine (wp_congr (congrFun (repeat_eq (coreFuel E (n + 2)) v.lastInsert v.lastCommand) (w, s))).mpr ?_
      rw [wp_bind]
      refine wp_mono hmid (fun _ t1 h1 => ?_) (fun _ _ h => h) (fun _ h => h)
      rw [wp_modK]
      exact ⟨t1, h1.1, h1.2, rfl⟩
    · obtain ⟨g1, t, g2, g3, rfl⟩ := h'
      exact fin t g3 g2 g1
  have hrun : Wp (do
        (match v.lastInsert with
          | some k => coreFuel E (n + 2) k
          | none => pure ())
        replay (coreFuel E (n + 2)) v.lastCommand : ViM Unit) (w, s) (fun _ t' => Now b0 v1 e1 p1 t') T2 T1 := by
    rw [hR.record, hR.opener]
    cases hop : opener ch with
    | none => rw [hop] at hnow; exact hnow
    | some k => rw [hop] at hnow; exact hnow
  have hsplit : Wp (do
        (match v.lastInsert with
          | some k => coreFuel E (n + 2) k
          | none => pure ())
        replay (coreFuel E (n + 2)) v.lastCommand : ViM Unit) (w, s) (fun _ t1 =>
        Wp (getK >>= fun v : Vi => if v.lastInsert.isSome then coreFuel E (n + 2) .esc else pure () : ViM Unit) t1
          (fun _ t' => Cmd b0 t' ∧ t'.1.modeStack = []) T2 T1) T2 T1 := by
    refine wp_mono hrun (fun _ t1 ht1 => ?_) (fun _ _ h => h) (fun _ h => h)
    rw [wp_bind, wp_getK]
    cases hop : opener ch with
    | none =>
      obtain ⟨rfl, hf⟩ := h1 hop
      rw [ht1.2.1, hlast hf, hop]
      exact ⟨ht1.1, by rw [ht1.2.1]; exact hf.stack⟩
    | some k =>
      obtain ⟨hli, v', p', hesc, hf⟩ := h2 (by rw [hop]; rfl)
      rw [ht1.2.1, hli, hop]
      have := hesc.now E t1 ht1
      cases hesc with
      | cons i hg t =>
        cases t
        exact wp_mono (now_next E ht1 i hg) (fun _ t2 h2 => ⟨h2.1, by rw [h2.2.1]; exact hf.stack⟩) (fun _ _ h => h) (fun _ h => h)
  rw [← wp_bind] at hsplit
  refine (wp_congr ?_).mpr hsplit
  simp only [binds_assoc]

/-! ### Undo -/

theorem rest_edge (a b : Text) : (rest true a b).2 ≠ [] ∨ (rest true a b).1 = [] := by
  cases b with
  | nil =>
    rcases List.eq_nil_or_concat a with rfl | ⟨a', c, rfl⟩
    · right; rfl
    · left; simp [rest]
  | cons c b => left; simp [rest]

theorem edge_rest {l r : Text} (h : r ≠ [] ∨ l = []) : rest true l r = (l, r) := by
  unfold rest
  split
  · rename_i hr
    rcases h with h | h
    · exact absurd hr.2 h
    · subst h; rw [hr.2]; rfl
  · rfl

theorem undo_some {b : Buffer} {y : Text × List Action} (h : undone (b.data, b.actions) = some y) :
    ∃ b', b.undo = some (!b.actions.isEmpty, b') ∧ b'.data = y.1 ∧ b'.actions = y.2 := by
  unfold undone at h
  dsimp only at h
  unfold Buffer.undo
  rw [Buffer.undoLoop_eq]
  cases hu : undoAll (Buffer.undoCut b.actions 0 0).1 b.data with
  | none => rw [hu] at h; cases h
  | some d =>
    rw [hu] at h
    simp only [Option.map_some, Option.some.injEq] at h
    exact ⟨_, rfl, by rw [← h], by rw [← h]⟩

/-- One undo. -/
theorem undo_gives {l r : Text} {x y : Text × List Action} (ho : Open e s l r) (hx : Line x s) (hu : undone x = some y) :
    Wp (undo E) s (fun did s' => did = !x.2.isEmpty ∧ Line y s' ∧
      ∃ q, q = (if x.2 = [] then rest e l r else rest e y.1 []) ∧ Open e s' q.1 q.2) (fun _ _ => True) (· ≠ .op) := by
  obtain ⟨hq, b, hb, hd, ha⟩ := hx
  have hu' : undone (b.data, b.actions) = some y := by rw [hd, ha]; exact hu
  obtain ⟨b1, h1, h2, h3⟩ := undo_some hu'
  unfold undo
  rw [wp_bind, wp_curBufMut]
  refine ⟨fun b2 did b' hb2 hun => ?_, ?_⟩
  · rw [hb] at hb2; cases hb2
    rw [h1] at hun
    simp only [Option.some.injEq, Prod.mk.injEq] at hun
    obtain ⟨rfl, rfl⟩ := hun
    have hq' : (setCur s b1).isSearch = false := by rw [setCur_quiet]; exact hq
    have hn' : (setCur s b1).noEol = e := by
      unfold setCur; split <;> exact ho.ne
    have ht : text? (setCur s b1) = some y.1 := by
      have hl : Line y (setCur s b1) := ⟨hq', b1, setCur_workBuf s b1, h2, h3⟩
      exact hl.cur
    have fin : ∀ (m : EdM Unit) (p : Text × Text), Gw Nothing m → Wp m (setCur s b1) (fun _ s' => Open e s' p.1 p.2)
        (fun _ _ => True) (· ≠ .op) →
        p = (if x.2 = [] then rest e l r else rest e y.1 []) →
        Wp (do m; pure (!b.actions.isEmpty) : EdM Bool) (setCur s b1)
          (fun did s' => did = !x.2.isEmpty ∧ Line y s' ∧
      ∃ q, q = (if x.2 = [] then rest e l r else rest e y.1 []) ∧ Open e s' q.1 q.2) (fun _ _ => True) (· ≠ .op) := by
      intro m p hm hy hp
      rw [wp_bind]
      refine wp_mono (wp_and (hm _ hq') hy) (fun _ s1 h1 => ?_) (fun _ _ _ => trivial) (fun _ h => h.2)
      obtain ⟨b2, es, g1, rfl, g3, g4⟩ := h1.1.log b1 (setCur_workBuf s b1)
      exact ⟨by rw [ha], ⟨h1.1.quiet, b2, g1, by rw [← path_nil g4, h2], by rw [g3]; exact h3⟩, p, hp, h1.2⟩
    dsimp only
    by_cases hx2 : x.2 = []
    · have hba : b.actions = [] := by rw [ha, hx2]
      rw [hba] at fin ⊢
      rw [if_neg (by simp)]
      refine fin _ (rest e l r) (gw_display E) ?_ (by rw [if_pos hx2])
      have hy : y.1 = l ++ r := by
        have h4 := hu
        rw [show x = (x.1, []) by rw [← hx2]] at h4
        rw [undone_nil] at h4
        cases h4
        have h5 : text? s = some x.1 := Line.cur ⟨hq, b, hb, hd, ha⟩
        have h6 := h5.symm.trans ho.here.1
        injection h6
      have ho1 : Open e (setCur s b1) l r := by
        refine ⟨hq', hn', around_as ho.around (.setCur s b1), by rw [ht, hy], ?_⟩
        have : (setCur s b1).cursor = s.cursor := by unfold setCur; split <;> rfl
        rw [this]; exact ho.here.2
      exact wp_mono (display_sets E ho1 (Side.refl _)) (fun _ _ h => h.here) (fun _ _ _ => trivial) (fun _ h => h)
    · have hba : (!b.actions.isEmpty) = true := by rw [ha]; simpa using hx2
      rw [hba] at fin ⊢
      rw [if_pos rfl]
      refine fin _ (rest e y.1 []) (gw_end E) ?_ (by rw [if_neg hx2])
      exact wp_mono (end_sets' E hq' hn' (around_as ho.around (.setCur s b1)) ht (Side.refl _)) (fun _ _ h => h.here) (fun _ _ _ => trivial) (fun _ h => h)
  · rintro (h | ⟨b2, h, h'⟩)
    · rw [hb] at h; cases h
    · rw [hb] at h; cases h; rw [h1] at h'; cases h'

theorem past_next {full : Bool} {ps : List Text} {x : Text × List Action} (h : Past full ps x) {n : Nat}
    (hn : full = true ∨ n + 1 ≤ ps.length) : ∃ y, undone x = some y ∧ Past full ps.tail y ∧
      (x.1 :: ps)[min 1 ps.length]? = some y.1 := by
  cases ps with
  | nil =>
    have hf : full = true := hn.resolve_right (by simp)
    obtain ⟨y, h1, h2⟩ := h hf 1
    have h1' : undone x = some y := by
      rw [undones] at h1
      cases hu : undone x with
      | none => rw [hu] at h1; cases h1
      | some z => rw [hu] at h1; exact h1
    refine ⟨y, h1', fun _ m => ?_, by simp [h2]⟩
    obtain ⟨z, h3, h4⟩ := h hf (m + 1)
    rw [undones, h1'] at h3
    exact ⟨z, h3, h4.trans h2.symm⟩
  | cons p ps =>
    obtain ⟨-, y, h1, h2, h3⟩ := h
    exact ⟨y, h1, h3, by simp [h2]⟩

/-- Some undos. -/
theorem undos_gives {full : Bool} : ∀ (n : Nat) (s : Ed) (l r : Text) (x : Text × List Action) (ps : List Text),
    Open true s l r → (r ≠ [] ∨ l = []) → Line x s → Past full ps x → (full = true ∨ n ≤ ps.length) →
    Wp (repeatWhile (Editor.undo E) n) s (fun _ s' => ∃ y q, Open true s' q.1 q.2 ∧ Line y s' ∧ Past full (ps.drop n) y ∧
      (x.1 :: ps)[min n ps.length]? = some y.1 ∧
      (q = rest true y.1 [] ∨ ((ps = [] ∨ n = 0) ∧ q = (l, r)))) (fun _ _ => True) (· ≠ .op)
  | 0, s, l, r, x, ps, ho, hr, hx, hp, hn => by
    exact ⟨x, (l, r), ho, hx, by simpa using hp, by simp, .inr ⟨.inr rfl, rfl⟩⟩
  | n + 1, s, l, r, x, ps, ho, hr, hx, hp, hn => by
    unfold repeatWhile
    rw [wp_bind]
    obtain ⟨y, hu, hp', hy⟩ := past_next hp hn
    refine wp_mono (undo_gives E ho hx hu) (fun did s1 h1 => ?_) (fun _ _ h => h) (fun _ h => h)
    obtain ⟨hdid, hl, q, hq, ho1⟩ := h1
    by_cases hx2 : x.2 = []
    · -- nothing to undo
      have hps : ps = [] := by
        cases ps with
        | nil => rfl
        | cons p ps => exact absurd hx2 hp.1
      subst hps
      have hyx : y = x := by
        have h4 := hu
        rw [show x = (x.1, []) by rw [← hx2]] at h4
        rw [undone_nil] at h4
        cases h4
        rw [← hx2]
      subst hyx
      rw [if_pos hx2, edge_rest hr] at hq
      rw [hdid, hx2]
      exact ⟨y, q, ho1, hl, hp', by simp, .inr ⟨.inl rfl, hq⟩⟩
    · rw [if_neg hx2] at hq
      have hd : did = true := by rw [hdid]; simp [hx2]
      rw [hd, if_pos rfl]
      have hn' : full = true ∨ n ≤ ps.tail.length := hn.imp_right fun h => by rw [List.length_tail]; omega
      have he : q.2 ≠ [] ∨ q.1 = [] := by rw [hq]; exact rest_edge _ _
      refine wp_mono (undos_gives n s1 q.1 q.2 y ps.tail ho1 he hl hp' hn') (fun _ s2 h2 => ?_) (fun _ _ h => h) (fun _ h => h)
      obtain ⟨z, q', g1, g2, g3, g4, g5⟩ := h2
      refine ⟨z, q', g1, g2, by rw [← List.drop_tail]; exact g3, ?_, .inl ?_⟩
      · cases ps with
        | nil =>
          simp at hy g4 ⊢
          rw [hy]; exact g4
        | cons p ps =>
          simp at hy
          rw [List.tail_cons] at g4
          rw [List.length_cons, Nat.add_min_add_right, List.getElem?_cons_succ, hy]
          exact g4
      · rcases g5 with g5 | ⟨g5, g6⟩
        · exact g5
        · rw [g6, hq]
          have : z.1 = y.1 := by
            rcases g5 with g5 | g5
            · rw [g5] at g4; simpa using g4.symm
            · rw [g5] at g4; simpa using g4.symm
          rw [this]

/-! ### Motions -/

theorem Line.grew {s s' : Ed} {x : Text × List Action} (h : Line x s) (hg : Grew Nothing s s') : Line x s' := by
  obtain ⟨hq, b, hb, hd, ha⟩ := h
  obtain ⟨b', es, g1, rfl, g3, g4⟩ := hg.log b hb
  exact ⟨hg.quiet, b', g1, by rw [← path_nil g4, hd], g3.trans ha⟩

theorem Line.went {st : List Mode} {s : Ed} {t' : Vi × Ed} {x : Text × List Action} (h : Line x s) (hw : Went st s t')
    (hd : ∀ p, Mode.delete p ∉ st) : Line x t'.2 := by
  rcases hw with hw | hw
  · exact h.grew (hw.1.mono fun es he => he.2 hd)
  · exact h.grew hw.1

theorem movement_not_aside {k : Key} (h : isMovementKey k = true) : ¬ AsideKey k := by
  rintro (⟨c, rfl, rfl | rfl | rfl | rfl⟩ | rfl | rfl | rfl) <;> revert h <;> decide

/-- The line after a key, from the key map. -/
theorem line_key {k : Key} {comp : Text → List Text} {x : Text × List Action} {t : Vi × Ed} (hk : Seen t.2 k) (hx : Line x t.2)
    (h : Wp (handleKeyCore E k) t (fun _ t' => Line x t'.2) T2 T1) :
    Wp (keyMap.handleKey E comp k) t (fun _ t' => Line x t'.2) T2 T1 := by
  obtain ⟨-, b, hb, -⟩ := hx
  obtain ⟨b', hb', -⟩ := curBuf_of_workBuf hb
  refine wp_mono (key_of E hk hb' comp (Q := fun t' => Line x t'.2) (fun t1 t2 hQ e1 e2 e3 => ?_) h)
    (fun _ _ h => h.2) (fun _ _ h => h) (fun _ h => h)
  obtain ⟨g1, b, g2⟩ := hQ
  exact ⟨e2.trans g1, b, by rw [e3]; exact g2⟩

theorem first_line {k : Key} {n : Nat} {x : Text × List Action} {t : Vi × Ed} (hv : VI t) (hs : t.1.modeStack = [])
    (hk : isMovementKey k = true) (hx : Line x t.2) :
    Wp (coreFuel E (n + 2) k) t (fun _ t' => t'.1.modeStack ≠ [.insert] → (∀ p, t'.1.modeStack ≠ [.delete p, .insert]) →
      Line x t'.2) T2 T1 := by
  refine (wp_congr (core_normal E hs)).mpr (wp_mono (normal_out E k (movement_not_aside hk) hv hx.1 (.inl hs))
    (fun _ t' h h1 h2 => ?_) (fun _ _ h => h) (fun _ h => h))
  rw [hs] at h
  rcases h with h | h | h | h
  · exact hx.went (.inl h) (by simp)
  · exact hx.went (.inr h) (by simp)
  · have := h.1.2 rfl; rw [hk] at this; cases this
  · rcases h.2.2 with ⟨h3, -⟩ | ⟨p, h3⟩
    · exact absurd h3 h1
    · exact absurd h3 (h2 p)

/-- A motion in normal mode: what it does, and nothing in the log. -/
theorem motion_now {m : Motion} {ks : List Key} {kcs : List (Key × (Text → List Text))} {q : Nat} {l r : Text}
    {x : Text × List Action} (hC : Apart E.cc) (hks : kcs.map Prod.fst = ks) (hk : ks ∈ m.keys v.lastCharMovement)
    (hvi : VI (v, s)) (hv : v.modeStack = []) (h : Open true s l r) (hr : r ≠ [] ∨ l = [])
    (ht : Leads E.cc (l ++ r) l.length v.moveCount m q) (hx : Line x s) :
    ∃ v', Motioned v v' m ks ∧ Wp (Spec.press keyMap E kcs) (v, s) (fun _ t' =>
      t'.1 = v' ∧ Open true t'.2 (rest true ((l ++ r).take q) ((l ++ r).drop q)).1
        (rest true ((l ++ r).take q) ((l ++ r).drop q)).2 ∧ Line x t'.2) T2 (· ≠ .op) := by
  have hop : opOf v.modeStack = none := by rw [hv]; rfl
  obtain ⟨v', hm, hrun⟩ := runs_motion E (e := true) (coreFuel E 7) hC hk (.inl hv) (fun _ => hop) hr
    ⟨ht, fun p hp => by rw [hop] at hp; cases hp⟩
  refine ⟨v', hm, ?_⟩
  have hb : decide (baseOf v = []) = true := by simp [baseOf, hv]
  have hst : v'.modeStack = [] := by rw [hm.stack]; simp [baseOf, hv]
  have hfin : ∀ a b, finish v m.inclusive a b = rest true a b := by
    intro a b; unfold finish; rw [hop]
  rw [hfin] at hrun
  unfold Runs at hrun
  rw [hb] at hrun
  rcases hrun with ⟨k, rfl, hs, hg⟩ | ⟨k, c, v1, rfl, hs, h1, h2, ⟨md, hmd, hmw⟩, hg1, hg2⟩
  · rw [List.map_eq_singleton_iff] at hks
    obtain ⟨⟨k', cmp⟩, rfl, rfl⟩ := hks
    have hmk : isMovementKey k' = true := movement_first hk rfl
    have hcore := (wp_congr (core_normal (n := 7) E hv)).mpr (hg s h)
    unfold Spec.press
    rw [wp_bind]
    have hline : Wp (handleKeyCore E k') (v, s) (fun _ t' => Line x t'.2) T2 T1 :=
      wp_mono (wp_and hcore (first_line E (n := 6) (t := (v, s)) hvi hv hmk hx))
        (fun _ t' h' => h'.2 (by rw [h'.1.1, hst]; simp) (by rw [h'.1.1, hst]; simp)) (fun _ _ _ => trivial) (fun _ _ => trivial)
    exact wp_mono (wp_and (handleKey_gives E (hs s) h cmp hcore) (line_key E (t := (v, s)) (comp := cmp) (hs s) hx hline))
      (fun _ t' h' => ⟨h'.1.2.1, h'.1.2.2, h'.2⟩) (fun _ _ _ => trivial) (fun _ h => h.1)
  · obtain ⟨⟨k', cmp⟩, rest', rfl, rfl, hks2⟩ := List.map_eq_cons_iff.1 hks
    rw [List.map_eq_singleton_iff] at hks2
    obtain ⟨⟨k2, cmp'⟩, rfl, hk2⟩ := hks2
    dsimp only at hk2
    subst hk2
    have hmk : isMovementKey k' = true := movement_first hk rfl
    have hcore := (wp_congr (core_normal (n := 7) E hv)).mpr (hg1 s h)
    rw [hv] at hmd
    unfold Spec.press
    rw [wp_bind]
    have hline : Wp (handleKeyCore E k') (v, s) (fun _ t' => Line x t'.2) T2 T1 :=
      wp_mono (wp_and hcore (first_line E (n := 6) (t := (v, s)) hvi hv hmk hx))
        (fun _ t' h' => h'.2 (by rw [h'.1.1, hmd]; rcases hmw with rfl | ⟨mv, rfl⟩ <;> simp)
          (by rw [h'.1.1, hmd]; rcases hmw with rfl | ⟨mv, rfl⟩ <;> simp)) (fun _ _ _ => trivial) (fun _ _ => trivial)
    refine wp_mono (wp_and (kvi_handleKey E cmp k' _ hvi) (wp_and (handleKey_gives E (hs s) h cmp hcore)
      (line_key E (t := (v, s)) (comp := cmp) (hs s) hx hline))) (fun _ t1 h' => ?_) (fun _ _ _ => trivial) (fun _ h => h.2.1)
    obtain ⟨hvi1, ⟨-, e1, ho1⟩, hx1⟩ := h'
    obtain ⟨v2, s1⟩ := t1
    dsimp only at e1 ho1 hx1
    subst e1
    unfold Spec.press
    rw [wp_bind]
    have hcore2 : Gives (handleKeyCore E (.char c)) (v2, s1) v' _ _ _ := hg2 7 s1 ho1
    have hse : Seen s1 (.char c) := seen_char h1 h2
    have hline2 : Wp (handleKeyCore E (.char c)) (v2, s1) (fun _ t' => Line x t'.2) T2 T1 := by
      have hnd : ∀ p, Mode.delete p ∉ v2.modeStack := by
        intro p; rw [hmd]; rcases hmw with rfl | ⟨mv, rfl⟩ <;> simp
      rcases hmw with rfl | ⟨mv, rfl⟩
      · refine (wp_congr (core_g (n := 7) E hmd)).mpr ?_
        exact wp_mono (g_went E (t := (v2, s1)) (.char c) hvi1 ho1.quiet (mode_cons hmd)) (fun _ t' h => hx1.went h hnd)
          (fun _ _ h => h) (fun _ h => h)
      · refine (wp_congr (core_char (n := 7) E hmd)).mpr ?_
        exact wp_mono (moveToChar_went E (t := (v2, s1)) (.char c) _ hvi1 ho1.quiet (.inr (.inl ⟨mv, [], hmd, .inl rfl⟩)))
          (fun _ t' h => hx1.went h hnd) (fun _ _ h => h) (fun _ h => h)
    exact wp_mono (wp_and (handleKey_gives E hse ho1 cmp' hcore2) (line_key E (t := (v2, s1)) (comp := cmp') hse hx1 hline2))
      (fun _ t' h' => ⟨h'.1.2.1, h'.1.2.2, h'.2⟩) (fun _ _ _ => trivial) (fun _ h => h.1)

theorem right_seen {l r : Text} (h : Open true s l r) (hr : 1 < r.length) : Seen s .right := by
  refine ⟨by simp, by simp, by simp, by simp, by simp, by simp, by simp, by simp, ?_⟩
  rintro ⟨-, -, d, hd, hc⟩
  rw [h.ne] at hc
  rw [h.here.1] at hd
  cases hd
  have h1 : (l ++ r).length ≤ s.cursor + 1 := hc
  rw [h.here.2, List.length_append] at h1
  omega

/-- The key Right, before the last character. -/
theorem right_now {kcs : List (Key × (Text → List Text))} {q : Nat} {l r : Text}
    {x : Text × List Action} (hks : kcs.map Prod.fst = [.right])
    (hvi : VI (v, s)) (hv : v.modeStack = []) (h : Open true s l r) (hr : 1 < r.length)
    (ht : Leads E.cc (l ++ r) l.length v.moveCount .right q) (hx : Line x s) :
    ∃ v', Motioned v v' .right [.right] ∧ Wp (Spec.press keyMap E kcs) (v, s) (fun _ t' =>
      t'.1 = v' ∧ Open true t'.2 (rest true ((l ++ r).take q) ((l ++ r).drop q)).1
        (rest true ((l ++ r).take q) ((l ++ r).drop q)).2 ∧ Line x t'.2) T2 (· ≠ .op) := by
  have hop : opOf v.modeStack = none := by rw [hv]; rfl
  refine ⟨popAfter v, motioned_one (.inl hv) (by simp), ?_⟩
  have hg := does_gives E (does_right E (coreFuel E 7) (.inl (.inl hv)) (fun _ => hop) h (.inl rfl))
    ⟨ht, fun p hp => by rw [hop] at hp; cases hp⟩
  have hb : decide (baseOf v = []) = true := by simp [baseOf, hv]
  have hst : (popAfter v).modeStack = [] := by rw [(motioned_one (k := .right) (m := .right) (.inl hv) (by simp)).stack]; simp [baseOf, hv]
  have hfin : ∀ a b, finish v Motion.right.inclusive a b = rest true a b := by
    intro a b; unfold finish; rw [hop]
  rw [hfin, hb] at hg
  rw [List.map_eq_singleton_iff] at hks
  obtain ⟨⟨k', cmp⟩, rfl, hk⟩ := hks
  dsimp only at hk
  subst hk
  have hs := right_seen h hr
  have hcore := (wp_congr (core_normal (n := 7) (k := .right) E hv)).mpr hg
  unfold Spec.press
  rw [wp_bind]
  have hline : Wp (handleKeyCore E .right) (v, s) (fun _ t' => Line x t'.2) T2 T1 :=
    wp_mono (wp_and hcore (first_line E (n := 6) (t := (v, s)) hvi hv rfl hx))
      (fun _ t' h' => h'.2 (by rw [h'.1.1, hst]; simp) (by rw [h'.1.1, hst]; simp)) (fun _ _ _ => trivial) (fun _ _ => trivial)
  exact wp_mono (wp_and (handleKey_gives E hs h cmp hcore) (line_key E (t := (v, s)) (comp := cmp) hs hx hline))
    (fun _ t' h' => ⟨h'.1.2.1, h'.1.2.2, h'.2⟩) (fun _ _ _ => trivial) (fun _ h => h.1)

/-! ### The commands -/

/-- The board shows the editor and the key map. -/
structure Shows (b : Board) (t : Vi × Ed) : Prop where
  vi : VI t
  stack : t.1.modeStack = []
  here : Open true t.2 b.left b.right
  cur : b.cur ≤ b.text.length
  count : t.1.count = b.count
  last : t.1.lastCharMovement = b.last
  done : ∀ ch n, b.done = some (ch, n) → ∃ k, Rec ch k t.1 ∧ n = ch.keeps k
  line : ∃ x, Line x t.2 ∧ x.1 = b.text ∧ Past b.full b.past x

theorem _root_.Liner.Spec.Board.sides (b : Board) : b.left ++ b.right = b.text := List.take_append_drop ..

theorem _root_.Liner.Spec.Board.left_length {b : Board} (h : b.cur ≤ b.text.length) : b.left.length = b.cur := by
  unfold Board.left; rw [List.length_take, Nat.min_eq_left h]

theorem edge_of {t : Vi × Ed} {l r : Text} (hv : VI t) (h : Open true t.2 l r) : r ≠ [] ∨ l = [] := by
  obtain ⟨b, hb, -, hn⟩ := hv.rests
  have hd : b.data = l ++ r := by
    obtain ⟨b', hb', e⟩ := text?_eq.mp h.here.1
    rw [hb] at hb'; cases hb'; exact e
  rw [hd, h.here.2] at hn
  rcases hn h.ne with h1 | h1
  · left; rintro rfl; simp at h1
  · right; exact List.length_eq_zero_iff.1 h1

theorem line_text {s : Ed} {l r : Text} {x : Text × List Action} (h : Open e s l r) (hx : Line x s) : x.1 = l ++ r := by
  obtain ⟨-, b, hb, hd, -⟩ := hx
  obtain ⟨b', hb', e⟩ := curBuf_of_workBuf hb
  obtain ⟨b2, hb2, e2⟩ := text?_eq.mp h.here.1
  rw [hb'] at hb2; cases hb2
  rw [← hd, e, e2]

theorem rest_at {t : Text} {q : Nat} (h : q ≤ t.length) :
    rest true (t.take q) (t.drop q) = (t.take (min q (t.length - 1)), t.drop (min q (t.length - 1))) := by
  by_cases hq : q = t.length
  · subst hq
    rw [List.take_length, List.drop_length]
    rcases List.eq_nil_or_concat t with rfl | ⟨a, c, rfl⟩
    · rfl
    · simp [rest]
  · rw [edge_rest (.inl (by intro h'; have := congrArg List.length h'; simp at this; omega)), Nat.min_eq_left (by omega)]

/-- From the core to the whole key. -/
theorem key_with {k : Key} {comp : Text → List Text} {l r : Text} {Q : Vi × Ed → Prop} (hk : Seen s k) (h : Open e s l r)
    (hQ : ∀ t1 t2 : Vi × Ed, Q t1 → t2.1 = t1.1 → t2.2.curBuf? = t1.2.curBuf? → workBuf t2.2 = workBuf t1.2 →
      t2.2.cursor = t1.2.cursor → t2.2.isSearch = t1.2.isSearch → t2.2.noEol = t1.2.noEol → Unmoved t1.2 t2.2 → Q t2)
    (hg : Wp (handleKeyCore E k) (v, s) (fun _ t' => Q t') T2 (· ≠ .op)) :
    Wp (Spec.press keyMap E [(k, comp)]) (v, s) (fun _ t' => Q t') T2 (· ≠ .op) := by
  obtain ⟨b, hb, -⟩ := text?_eq.mp h.here.1
  unfold Spec.press
  rw [wp_bind]
  refine handleKey_seen E hk hb comp (wp_mono hg (fun _ t1 h1 => ?_) (fun _ _ h => h) (fun _ h => h))
  rw [wp_ed]
  unfold skipCompletionsHint
  rw [wp_modify, wp_ed, wp_flush]
  exact ⟨fun _ => hQ _ _ h1 rfl rfl rfl rfl rfl rfl ⟨rfl, rfl, rfl, rfl, fun _ => rfl, rfl, id, fun _ => rfl⟩, fun _ => trivial⟩

/-- The line, the cursor and the log after a key. -/
def Sits (v' : Vi) (R : Text × Text → Text × List Action → Prop) (t : Vi × Ed) : Prop :=
  t.1 = v' ∧ ∃ q x, Open true t.2 q.1 q.2 ∧ Line x t.2 ∧ R q x

theorem key_sits {k : Key} {comp : Text → List Text} {l r : Text} {v' : Vi} {R : Text × Text → Text × List Action → Prop}
    (hk : Seen s k) (h : Open e s l r) (hg : Wp (handleKeyCore E k) (v, s) (fun _ t' => Sits v' R t') T2 (· ≠ .op)) :
    Wp (Spec.press keyMap E [(k, comp)]) (v, s) (fun _ t' => Sits v' R t') T2 (· ≠ .op) := by
  refine key_with E hk h (fun t1 t2 hQ e1 e2 e3 e4 e5 e6 e7 => ?_) hg
  obtain ⟨h1, q, x, h2, ⟨h3, b, h4⟩, h5⟩ := hQ
  exact ⟨e1.trans h1, q, x, open_same h2 e2 e4 e5 e6 e7, ⟨e5.trans h3, b, by rw [e3]; exact h4⟩, h5⟩

theorem core_digit {n : Nat} {d : Char} (hd : d ∈ digitChars) (h0 : d = '0' → v.count ≠ 0) (hv : v.modeStack = []) :
    coreFuel E (n + 1) (.char d) (v, s) =
      .ok () ({ v with count := satAdd (satMul v.count 10) (digitValue d) }, s) := by
  rw [core_normal E hv]
  simp only [digitChars, List.mem_cons, List.not_mem_nil, or_false] at hd
  rcases hd with rfl | rfl | rfl | rfl | rfl | rfl | rfl | rfl | rfl | rfl <;> try rfl
  show (getK >>= fun v : Vi => if 0 = 0 ∧ v.count = 0 then _ else modK fun v : Vi => { v with count := satAdd (satMul v.count 10) 0 } : ViM Unit) (v, s) = _
  rw [bind_ok (show getK (v, s) = .ok v (v, s) from rfl), if_neg (fun h => h0 rfl h.2)]
  rfl

theorem sat_any (c d : Nat) : satAdd (satMul c 10) d = min (10 * c + d) 4294967295 := by
  unfold satAdd satMul
  unfold u32max
  omega

theorem core_undo {n : Nat} (hv : v.modeStack = []) :
    coreFuel E (n + 1) (.char 'u') (v, s) =
      (ed (repeatWhile (Editor.undo E) v.moveCount) : ViM Unit) ({ v with count := 0 }, s) := by
  rw [core_normal E hv]; rfl

theorem core_cancel {n : Nat} (hv : v.modeStack = []) : coreFuel E (n + 1) .esc (v, s) = .ok () ({ v with count := 0 }, s) := by
  rw [core_normal E hv]; rfl

theorem core_start {n : Nat} (hv : v.modeStack = []) (hc : v.count = 0) :
    coreFuel E (n + 1) (.char '0') (v, s) = (do
      ed (Editor.moveCursorToStartOfLine E)
      popModeAfterMovement E false : ViM Unit) (v, s) := by
  rw [core_normal E hv]
  show (getK >>= fun v : Vi => if 0 = 0 ∧ v.count = 0 then (do
      ed (Editor.moveCursorToStartOfLine E)
      popModeAfterMovement E false : ViM Unit) else _ : ViM Unit) (v, s) = _
  rw [bind_ok (show getK (v, s) = .ok v (v, s) from rfl), if_pos ⟨rfl, hc⟩]

theorem Rec.keep {ch : Change} {k : Nat} {v v' : Vi} (h : Rec ch k v) (h1 : v'.lastCommand = v.lastCommand)
    (h2 : v'.lastInsert = v.lastInsert) (h3 : v'.lastCount = v.lastCount) : Rec ch k v' :=
  ⟨h2.trans h.opener, h1.trans h.record, by rw [h3]; exact h.count⟩

/-- The board after a change. -/
theorem noted_of {b : Board} {x : Text × List Action} {b0 : Buffer} {t : Vi × Ed} {p' : Text × Text}
    (hx : x.1 = b.text ∧ Past b.full b.past x) (hb0 : b0.data = x.1 ∧ b0.actions = x.2) (hc : Cmd b0 t)
    (hs : t.1.modeStack = []) (ho : Open true t.2 p'.1 p'.2) :
    ∃ x' ps, Line x' t.2 ∧ x'.1 = p'.1 ++ p'.2 ∧ Past b.full ps x' ∧
      (ps = b.text :: b.past ∨ (p'.1 ++ p'.2 = b.text ∧ ps = b.past)) := by
  obtain ⟨bb, es, h1, h2, h3, h4⟩ := hc.log
  rw [hs] at h2
  have hd : Done es := by simpa [Shape] using h2
  have hl : Line (bb.data, es ++ b0.actions) t.2 := ⟨hc.quiet, bb, h1, rfl, h3⟩
  have ht := line_text ho hl
  have hp : Past b.full b.past (b0.data, b0.actions) := by rw [hb0.1, hb0.2]; exact hx.2
  rcases Past.after hd h4 hp with h | ⟨h, h'⟩
  · exact ⟨_, _, hl, ht, h, .inl (by rw [hb0.1, hx.1])⟩
  · exact ⟨_, _, hl, ht, h', .inr ⟨by rw [← ht]; exact h.trans (hb0.1.trans hx.1), rfl⟩⟩

theorem Line.buf {s : Ed} {x : Text × List Action} (h : Line x s) :
    ∃ b0, workBuf s = some b0 ∧ b0.data = x.1 ∧ b0.actions = x.2 := h.2

end
end Vi
end Liner
