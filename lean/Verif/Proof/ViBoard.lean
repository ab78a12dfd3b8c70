import Verif.Proof.ViPen
/-
The vi commands and the board: all the commands.
-/

set_option linter.unusedSectionVars false

namespace Liner
namespace Vi
open Liner.Spec Liner.Editor Liner.Props M KM

section
variable [Around] (E : Env) {e e' : Bool} {v v' : Vi} {s : Ed} {b0 : Buffer}

omit [Around] in
/-- A key that does not end the line and shows no list. -/
structure Usual (k : Key) : Prop where
  ctrlC : k ≠ .ctrl 'c'
  ctrlD : k ≠ .ctrl 'd'
  tab : k ≠ .char '\t'
  enter : k ≠ .char '\n'

/-- One command. -/
theorem board_step {b : Board} {c : Command} {t : Vi × Ed} {kcs : List (Key × (Text → List Text))}
    (ha : Around.enters ∨ Key.char '\n' ∉ c.keys) (hC : Apart E.cc) (h : Shows b t) (hn : t.2.showCompletionsHint = none ∨ c ≠ .enter) (hc : b.Can E.cc c) (hks : kcs.map Prod.fst = c.keys) :
    Wp (Spec.press keyMap E kcs) t (fun _ t' => ∃ b', b.Step E.cc c b' ∧ Shows b' t') T2 (· ≠ .op) := by
  obtain ⟨v, s⟩ := t
  have hlen := Board.left_length h.cur
  have hedge := edge_of h.vi h.here
  have hst0 : v.modeStack = [] := h.stack
  have hmc : v.moveCount = b.times := by
    unfold moveCount Board.times; rw [show v.count = b.count from h.count]
  have hvi' := kvi_press E kcs _ h.vi
  have hdone : ∀ v' : Vi, v'.lastCommand = v.lastCommand → v'.lastInsert = v.lastInsert → v'.lastCount = v.lastCount →
      ∀ ch n, b.done = some (ch, n) → ∃ k, Rec ch k v' ∧ n = ch.keeps k := fun v' h1 h2 h3 ch n hd => by
    obtain ⟨k, g1, g2⟩ := h.done ch n hd
    exact ⟨k, g1.keep h1 h2 h3, g2⟩
  obtain ⟨x, hx, hxt, hpast⟩ := h.line
  cases c with
  | digit d =>
    simp only [Command.keys] at hks
    rw [List.map_eq_singleton_iff] at hks
    obtain ⟨⟨k, cmp⟩, rfl, hk⟩ := hks
    dsimp only at hk
    subst hk
    by_cases h00 : d = '0' ∧ b.count = 0
    · obtain rfl := h00.1
      have hc0 : v.count = 0 := (show v.count = b.count from h.count).trans h00.2
      obtain ⟨q, hq, -, hg⟩ := does_first E (v := v) (coreFuel E 7) (.inl (.inl hst0)) (e := true) (fun _ => by rw [h.stack]; rfl) h.here (c := '0')
        (.inr ⟨rfl, hc0⟩)
      have hq0 : q = 0 := hq
      subst hq0
      have hop : opOf v.modeStack = none := by rw [show v.modeStack = [] from h.stack]; rfl
      have hg := hg (fun p hp => by rw [hop] at hp; cases hp)
      have hfin : finish v Motion.first.inclusive ((b.left ++ b.right).take 0) ((b.left ++ b.right).drop 0) = ([], b.text) := by
        unfold finish; rw [hop]
        simp only [List.take_zero, List.drop_zero, b.sides]
        unfold rest
        split
        · rename_i h; rw [h.2]; rfl
        · rfl
      have hpa : popAfter v = { v with movementReset := true } := by
        unfold popAfter; rw [hop]
        simp only [show v.modeStack = [] from h.stack, if_true, hc0]
      have hbase : decide (baseOf v = []) = true := by simp [baseOf, show v.modeStack = [] from h.stack]
      rw [hfin, hpa, hbase] at hg
      have hline : Wp (handleKeyCore E (.char '0')) (v, s) (fun _ t' => Line x t'.2) T2 T1 := by
        refine (wp_congr (core_start E (n := 7) h.stack hc0)).mpr ?_
        rw [wp_bind, wp_ed]
        refine wp_mono (gw_home E s hx.1) (fun _ s1 h1 => ?_) (fun _ _ h => h) (fun _ h => h)
        exact wp_mono (popMove_free E false (t := (v, s1)) h1.quiet (by simp [show v.modeStack = [] from h.stack]))
          (fun _ t' h2 => (hx.grew h1).grew h2) (fun _ _ h => h) (fun _ h => h)
      refine wp_mono (wp_and hvi' (key_sits E (seen_char (by decide) (by decide)) h.here (comp := cmp)
        (R := fun q y => q = ([], b.text) ∧ y = x) (v' := { v with movementReset := true })
        (wp_mono (wp_and ((wp_congr (core_normal E (n := 7) h.stack)).mpr hg) hline)
          (fun _ t' h' => ⟨h'.1.1, _, _, h'.1.2, h'.2, rfl, rfl⟩) (fun _ _ h => trivial) (fun _ h => h.1))))
        (fun _ t' h' => ?_) (fun _ _ _ => trivial) (fun _ h => h.2)
      obtain ⟨hv', h1, q, y, ho, hl, rfl, rfl⟩ := h'
      exact ⟨{ b with cur := 0 }, by unfold Board.Step; dsimp only; rw [if_pos h00], ⟨hv', by rw [h1]; exact h.stack, ho, Nat.zero_le _, by rw [h1]; exact h.count, by rw [h1]; exact h.last,
        hdone _ (by rw [h1]) (by rw [h1]) (by rw [h1]), _, hl, hxt, hpast⟩⟩
    · have hse : Seen s (.char d) := seen_char (by rintro rfl; revert hc; simp [Board.Can, digitChars])
        (by rintro rfl; revert hc; simp [Board.Can, digitChars])
      refine wp_mono (wp_and hvi' (key_sits E hse h.here (comp := cmp) (R := fun q y => q = (b.left, b.right) ∧ y = x) (v' := { v with count := satAdd (satMul v.count 10) (digitValue d) }) (by
          unfold Wp
          rw [show handleKeyCore E (.char d) (v, s) = _ from core_digit E (n := 7) hc
            (fun h0 => by rw [show v.count = b.count from h.count]; exact fun h1 => h00 ⟨h0, h1⟩) hst0]
          exact ⟨rfl, _, _, h.here, hx, rfl, rfl⟩)))
        (fun _ t' h' => ?_) (fun _ _ _ => trivial) (fun _ h => h.2)
      obtain ⟨hv', h1, q, y, ho, hl, rfl, rfl⟩ := h'
      refine ⟨{ b with count := min (10 * b.count + digitValue d) 4294967295 }, by unfold Board.Step; dsimp only; rw [if_neg h00],
        ⟨hv', by rw [h1]; exact h.stack, ho, h.cur, ?_, by rw [h1]; exact h.last, ?_, _, hl, hxt, hpast⟩⟩
      · rw [h1]; show satAdd (satMul v.count 10) _ = _; rw [sat_any, show v.count = b.count from h.count]
      · exact hdone _ (by rw [h1]) (by rw [h1]) (by rw [h1])
  | cancel =>
    simp only [Command.keys] at hks
    rw [List.map_eq_singleton_iff] at hks
    obtain ⟨⟨k, cmp⟩, rfl, hk⟩ := hks
    dsimp only at hk
    subst hk
    refine wp_mono (wp_and hvi' (key_sits E seen_esc h.here (comp := cmp) (R := fun q y => q = (b.left, b.right) ∧ y = x)
      (v' := { v with count := 0 }) (by
        unfold Wp
        rw [show handleKeyCore E .esc (v, s) = _ from core_cancel E (n := 7) hst0]
        exact ⟨rfl, _, _, h.here, hx, rfl, rfl⟩)))
      (fun _ t' h' => ?_) (fun _ _ _ => trivial) (fun _ h => h.2)
    obtain ⟨hv', h1, q, y, ho, hl, rfl, rfl⟩ := h'
    exact ⟨_, rfl, ⟨hv', by rw [h1]; exact h.stack, ho, h.cur, by rw [h1], by rw [h1]; exact h.last,
      hdone _ (by rw [h1]) (by rw [h1]) (by rw [h1]), _, hl, hxt, hpast⟩⟩
  | move m ks =>
    obtain ⟨q, hq⟩ := leads_exists E.cc b.text b.cur b.times m
    have hql : q ≤ b.text.length := leads_le h.cur hq
    have hlead : Leads E.cc (b.left ++ b.right) b.left.length v.moveCount m q := by rw [b.sides, hlen, hmc]; exact hq
    obtain ⟨v', hm, hw⟩ : ∃ v', Motioned v v' m ks ∧ Wp (Spec.press keyMap E kcs) (v, s) (fun _ t' =>
        t'.1 = v' ∧ Open true t'.2 (rest true ((b.left ++ b.right).take q) ((b.left ++ b.right).drop q)).1
          (rest true ((b.left ++ b.right).take q) ((b.left ++ b.right).drop q)).2 ∧ Line x t'.2) T2 (· ≠ .op) := by
      rcases hc with hc | ⟨rfl, rfl, hc⟩
      · have hk : ks ∈ m.keys v.lastCharMovement := by rw [show v.lastCharMovement = b.last from h.last]; exact hc
        exact motion_now E hC hks hk h.vi h.stack h.here hedge hlead hx
      · exact right_now E hks h.vi h.stack h.here (by unfold Board.right; rw [List.length_drop]; omega) hlead hx
    refine wp_mono (wp_and hvi' hw) (fun _ t' h' => ?_) (fun _ _ _ => trivial) (fun _ h => h.2)
    obtain ⟨hv', rfl, ho, hl⟩ := h'
    have hop : opOf v.modeStack = none := by rw [show v.modeStack = [] from h.stack]; rfl
    obtain ⟨p1, p2, p3, -⟩ := hm.plain hop
    rw [b.sides, rest_at hql] at ho
    refine ⟨_, ⟨q, hq, rfl⟩, ⟨hv', ?_, ho, ?_, hm.count, ?_, hdone _ p1 p2 p3, _, hl, hxt, hpast⟩⟩
    · rw [hm.stack]; simp [baseOf, show v.modeStack = [] from h.stack]
    · show min q (b.text.length - 1) ≤ b.text.length; omega
    · rw [hm.search]; unfold newLast; rw [show v.lastCharMovement = b.last from h.last]
  | undo =>
    simp only [Command.keys] at hks
    rw [List.map_eq_singleton_iff] at hks
    obtain ⟨⟨k, cmp⟩, rfl, hk⟩ := hks
    dsimp only at hk
    subst hk
    have hpos : b.times ≠ 0 := by unfold Board.times; split <;> omega
    refine wp_mono (wp_and hvi' (key_sits E (seen_char (by decide) (by decide)) h.here (comp := cmp) (v' := { v with count := 0 })
      (R := fun q y => Past b.full (b.past.drop b.times) y ∧ (x.1 :: b.past)[min b.times b.past.length]? = some y.1 ∧
        (q = rest true y.1 [] ∨ ((b.past = [] ∨ b.times = 0) ∧ q = (b.left, b.right))))
      ?_)) (fun _ t' h' => ?_) (fun _ _ _ => trivial) (fun _ h => h.2)
    · unfold Wp
      rw [show handleKeyCore E (.char 'u') (v, s) = _ from core_undo E (n := 7) hst0]
      change Wp (ed _) _ _ _ _
      rw [wp_ed, hmc]
      exact wp_mono (undos_gives E b.times s b.left b.right x b.past h.here hedge hx hpast hc)
        (fun _ s' ⟨y, q, h1, h2, h3⟩ => ⟨rfl, q, y, h1, h2, h3⟩) (fun _ _ h => h) (fun _ h => h)
    obtain ⟨hv', h1, q, y, ho, hl, g1, g2, g3⟩ := h'
    have hstk : t'.1.modeStack = [] := by rw [h1]; exact h.stack
    have hdn := hdone t'.1 (by rw [h1]) (by rw [h1]) (by rw [h1])
    rw [hxt] at g2
    rcases g3 with rfl | ⟨g3 | g3, rfl⟩
    · have := rest_at (t := y.1) (q := y.1.length) (Nat.le_refl _)
      rw [List.take_length, List.drop_length, Nat.min_eq_right (Nat.sub_le ..)] at this
      rw [this] at ho
      refine ⟨{ b with text := y.1, cur := y.1.length - 1, count := 0, past := b.past.drop b.times },
        ⟨rfl, rfl, rfl, rfl, rfl, g2, .inl rfl⟩, ⟨hv', hstk, ho, Nat.sub_le .., by rw [h1], by rw [h1]; exact h.last, hdn,
          _, hl, rfl, g1⟩⟩
    · have hy : b.text = y.1 := by rw [g3] at g2; simpa using g2
      refine ⟨{ b with count := 0, past := b.past.drop b.times },
        ⟨rfl, rfl, rfl, rfl, rfl, by rw [g2, hy], .inr ⟨g3, rfl⟩⟩, ⟨hv', hstk, ho, h.cur, by rw [h1], by rw [h1]; exact h.last, hdn,
          _, hl, hy.symm, g1⟩⟩
    · exact absurd g3 hpos
  | make ch ds =>
    obtain ⟨b0, hb0, hbd⟩ := hx.buf
    obtain ⟨v', p', hw, hf⟩ := change_now E hC hc.1 (by rw [b.sides, show v.lastCharMovement = b.last from h.last]; exact hc.2)
      hedge h.vi h.stack hks h.here hb0
    refine wp_mono (wp_and hvi' hw) (fun _ t' h' => ?_) (fun _ _ _ => trivial) (fun _ h => h.2)
    obtain ⟨hv', hcmd, rfl, ho⟩ := h'
    obtain ⟨x', ps, hl, hx', hp', hnote⟩ := noted_of ⟨hxt, hpast⟩ hbd hcmd hf.stack ho
    rw [hmc] at hf
    by_cases hr : ∀ c, ch = .replace c → ch.total b.times ds ≤ b.right.length
    · refine ⟨⟨p'.1 ++ p'.2, p'.1.length, ch.leaves b.count, ch.search b.last, some (ch, ch.keeps (ch.total b.times ds)), ps, b.full⟩,
        ⟨⟨hf.makes, rfl, rfl, hnote⟩, rfl, fun _ => rfl, fun ⟨c, hch, hnn⟩ => absurd (hr c hch) (by subst hch; exact Nat.not_le.2 hnn)⟩, ⟨hv', hf.stack, ?_, by simp, ?_, ?_, ?_, _, hl, hx', hp'⟩⟩
      · simpa [Board.left, Board.right] using ho
      · rw [hf.count]; show ch.leaves v.count = _; rw [show v.count = b.count from h.count]
      · rw [hf.search]; show ch.search v.lastCharMovement = _; rw [show v.lastCharMovement = b.last from h.last]
      · rintro ch' n hd
        cases hd
        exact ⟨_, hf.record hr, rfl⟩
    · simp only [not_forall] at hr
      obtain ⟨c, hch, hn⟩ := hr
      obtain ⟨q1, q2, q3⟩ := hf.short c hch hn
      refine ⟨⟨p'.1 ++ p'.2, p'.1.length, ch.leaves b.count, ch.search b.last, b.done, ps, b.full⟩,
        ⟨⟨hf.makes, rfl, rfl, hnote⟩, rfl,
          fun hs => absurd ⟨c, hch, by subst hch; exact Nat.not_le.1 hn⟩ hs, fun _ => rfl⟩,
        ⟨hv', hf.stack, ?_, by simp, ?_, ?_, hdone _ q3 q1 q2, _, hl, hx', hp'⟩⟩
      · simpa [Board.left, Board.right] using ho
      · rw [hf.count]; show ch.leaves v.count = _; rw [show v.count = b.count from h.count]
      · rw [hf.search]; show ch.search v.lastCharMovement = _; rw [show v.lastCharMovement = b.last from h.last]
  | again =>
    simp only [Command.keys] at hks
    rw [List.map_eq_singleton_iff] at hks
    obtain ⟨⟨k, cmp⟩, rfl, hk⟩ := hks
    dsimp only at hk
    subst hk
    obtain ⟨ch, n, hd, hcan⟩ := hc
    obtain ⟨k0, hR, rfl⟩ := h.done ch n hd
    obtain ⟨b0, hb0, hbd⟩ := hx.buf
    have hcan' : ch.Can v.lastCharMovement (b.left ++ b.right) := by
      rw [b.sides, show v.lastCharMovement = b.last from h.last]; exact hcan
    obtain ⟨v', p', hg, hst, hcnt, hlm, hrec, hch⟩ := dot_gives E (n := 5) hC hR hcan' hedge h.stack h.here
    have hn := dot_now E (n := 5) hC hR hcan' hedge h.vi h.stack h.here hb0
    have hse : Seen s (.char '.') := seen_char (by decide) (by decide)
    have hw := now_key E (t := (v, s)) (b0 := b0) (comp := cmp) h.vi hse h.here hg
      (wp_mono (wp_and hg hn) (fun _ t' h' => ⟨h'.2, h'.1.1, h'.1.2⟩) (fun _ _ _ => trivial) (fun _ _ => trivial))
    have hw2 := handleKey_gives E hse h.here cmp hg
    have hpr : Wp (Spec.press keyMap E [(.char '.', cmp)]) (v, s) (fun _ t' => Now b0 v' true (p'.1, p'.2) t') T2 (· ≠ .op) := by
      unfold Spec.press
      rw [wp_bind]
      exact wp_mono (wp_and hw hw2) (fun _ t' h' => h'.1) (fun _ _ _ => trivial) (fun _ h => h.2)
    refine wp_mono (wp_and hvi' hpr) (fun _ t' h' => ?_) (fun _ _ _ => trivial) (fun _ h => h.2)
    obtain ⟨hv', hcmd, rfl, ho⟩ := h'
    obtain ⟨x', ps, hl, hx', hp', hnote⟩ := noted_of ⟨hxt, hpast⟩ hbd hcmd hst ho
    rw [show v.count = b.count from h.count] at hcnt hrec hch
    rw [show v.lastCharMovement = b.last from h.last] at hlm
    refine ⟨⟨p'.1 ++ p'.2, p'.1.length, ch.leaves (if b.count = 0 then ch.keeps k0 else b.count), ch.search b.last,
      some (ch, ch.keeps (if b.count = 0 then ch.keeps k0 else b.count)), ps, b.full⟩,
      ⟨ch, _, hd, _, rfl, ⟨hch, rfl, rfl, hnote⟩, rfl, rfl⟩, ⟨hv', hst, ?_, by simp, hcnt, hlm, ?_, _, hl, hx', hp'⟩⟩
    · simpa [Board.left, Board.right] using ho
    · rintro ch' n hd'
      cases hd'
      exact ⟨_, hrec, rfl⟩

  | write op ds ks => exact writes E (ha.imp id fun h h' => h (by simp [Command.keys, h'])) hC h hc hks
  | clear ds => exact clears E h hc hks
  | edge last => exact edges E h hks
  | giveUp c ds => exact gives_up E h hc hks
  | inert k => exact inerts E h hc hks
  | enter => exact enters E (ha.resolve_right fun h => h (by simp [Command.keys])) h (hn.resolve_right fun h => h rfl) hc hks

/-! ### The keys are usual -/

theorem usual_of {k : Key} (h : ∀ s, Seen s k) : Usual k := by
  let s0 : Ed := initial ⟨[], none⟩ {} ⟨fun _ => none, fun _ => false⟩ (.ofText [])
  refine ⟨(h s0).ctrlC, fun hk => (h s0).ctrlD ⟨hk, rfl⟩, (h s0).tab, (h s0).enter⟩

theorem usual_writing {k : Key} (h : WritingKey k) : Usual k := by
  rcases h with (⟨c, rfl, h1, h2⟩ | rfl | rfl) | (rfl | rfl | rfl | rfl) | (⟨c, rfl⟩ | rfl | ⟨n, rfl⟩) <;> constructor <;> simp_all

theorem pen_next {k : Key} (h : WritingKey k) (p : Pen) : ∃ p', Pen.Step k p p' := by
  rcases h with h | h | h
  · by_cases hm : p.moved = true
    · exact ⟨_, .restart h hm (.inl rfl)⟩
    · exact ⟨_, .type h (by simpa using hm)⟩
  · exact ⟨_, .move h⟩
  · exact ⟨_, .inert h⟩

theorem usual_pen : ∀ (ks : List Key) (p : Pen), Pen.CanAll ks p → ∀ k ∈ ks, Usual k ∨ k = .char '\n'
  | [], _, _, k, hk => by cases hk
  | k :: ks, p, h, k', hk => by
    rcases List.mem_cons.1 hk with rfl | hk
    · exact h.1.imp (fun h => usual_writing h.1) (fun h => h.1)
    · obtain ⟨p', hp⟩ : ∃ p', Pen.Step k p p' := by
        rcases h.1 with h1 | ⟨rfl, h1⟩
        · exact pen_next h1.1 p
        · exact ⟨_, .enter h1⟩
      exact usual_pen ks p' (h.2 p' hp) k' hk

theorem opens_exists (C : CharClass) (n : Nat) (l r : Text) {op : Opening} {last : Option (Char × CharMovement)} {t : Text}
    (h : op.Can last t) : ∃ p, Opens C n l r op p := by
  cases op with
  | insert c =>
    have h : c ∈ ['i', 'a', 'I', 'A'] := h
    simp only [List.mem_cons, List.not_mem_nil, or_false] at h
    rcases h with rfl | rfl | rfl | rfl <;> simp [Opens]
  | subst => exact ⟨_, rfl⟩
  | change m ks =>
    obtain ⟨q, hq⟩ := leads_exists C (l ++ r) l.length n m
    exact ⟨_, q, hq, rfl⟩
  | line => exact ⟨_, rfl⟩
  | tail => exact ⟨_, rfl⟩

theorem usual_char {c : Char} (h1 : c ≠ '\t') (h2 : c ≠ '\n') : Usual (.char c) := by constructor <;> simp [h1, h2]

theorem usual_esc : Usual .esc := by constructor <;> simp

theorem usual_inert {k : Key} (h : Inert k) : Usual k := usual_writing (.inr (.inr h))

theorem usual_digit {d : Char} (h : d ∈ digitChars) : Usual (.char d) := usual_of fun _ => seen_digit h

theorem usual_digits {ds : List Char} (h : Digits ds) : ∀ k ∈ ds.map Key.char, Usual k := fun k hk => by
  obtain ⟨d, h1, rfl⟩ := List.mem_map.1 hk
  exact usual_digit (h.1 d h1)

theorem usual_opening {C : CharClass} {b : Board} {op : Opening} {ds : List Char} {ks : List Key} (h : b.Can C (.write op ds ks)) :
    (∀ k ∈ op.keys ds, Usual k) ∧ ∀ k ∈ ks, Usual k ∨ k = .char '\n' := by
  refine ⟨fun k hk => usual_of (opening_seen h.1 h.2.1 k hk), ?_⟩
  obtain ⟨p, hp⟩ := opens_exists C (op.total b.times ds) b.left b.right h.2.1
  exact usual_pen ks _ (h.2.2 p hp)

theorem usual_command {C : CharClass} {b : Board} {c : Command} (h : b.Can C c) (he : c ≠ .enter)
    (hw : ∀ op ds ks, c ≠ .write op ds ks) : ∀ k ∈ c.keys, Usual k := by
  cases c with
  | enter => exact absurd rfl he
  | write op ds ks => exact absurd rfl (hw op ds ks)
  | digit d => intro k hk; obtain rfl : k = .char d := by simpa [Command.keys] using hk
               exact usual_digit h
  | move m ks =>
    intro k hk
    rcases h with h | ⟨-, rfl, -⟩
    · exact usual_of (motion_seen h k hk)
    · obtain rfl : k = .right := by simpa [Command.keys] using hk
      constructor <;> simp
  | make ch ds => exact fun k hk => usual_of (change_seen h.1 h.2 k hk)
  | clear ds =>
    intro k hk
    simp only [Command.keys, List.mem_append, List.mem_cons, List.not_mem_nil, or_false] at hk
    rcases hk with rfl | hk | rfl
    · exact usual_char (by decide) (by decide)
    · exact usual_digits h k hk
    · exact usual_char (by decide) (by decide)
  | edge last =>
    intro k hk
    obtain rfl : k = _ := by simpa [Command.keys] using hk
    cases last <;> constructor <;> simp
  | giveUp c ds =>
    intro k hk
    simp only [Command.keys, List.mem_append, List.mem_cons, List.not_mem_nil, or_false] at hk
    rcases hk with rfl | hk | rfl
    · rcases h with ⟨rfl, -⟩ | ⟨h, -⟩
      · exact usual_char (by decide) (by decide)
      · simp only [List.mem_cons, List.not_mem_nil, or_false] at h
        rcases h with rfl | rfl | rfl | rfl | rfl | rfl <;> exact usual_char (by decide) (by decide)
    · rcases h with ⟨-, h⟩ | ⟨-, rfl⟩
      · exact usual_digits h k hk
      · simp at hk
    · exact usual_esc
  | inert k' => intro k hk; obtain rfl : k = k' := by simpa [Command.keys] using hk
                exact usual_inert h
  | again => intro k hk; obtain rfl : k = .char '.' := by simpa [Command.keys] using hk
             exact usual_char (by decide) (by decide)
  | undo => intro k hk; obtain rfl : k = .char 'u' := by simpa [Command.keys] using hk
            exact usual_char (by decide) (by decide)
  | cancel => intro k hk; obtain rfl : k = .esc := by simpa [Command.keys] using hk
              exact usual_esc

theorem usual_keys {kcs : List (Key × (Text → List Text))} {ks : List Key} (h : ∀ k ∈ ks, Usual k) (hks : kcs.map Prod.fst = ks) :
    ∀ x ∈ kcs, Usual x.1 := fun _ hx => h _ (hks ▸ List.mem_map_of_mem hx)

/-- The keys of a command. -/
theorem command_tab {C : CharClass} {b : Board} {c : Command} (h : b.Can C c) : ∀ k ∈ c.keys, k ≠ .char '\t' := by
  intro k hk
  cases c with
  | enter => obtain rfl : k = .char '\n' := by simpa [Command.keys] using hk
             decide
  | write op ds ks =>
    simp only [Command.keys, List.mem_append, List.mem_cons, List.not_mem_nil, or_false] at hk
    rcases hk with (hk | hk) | rfl
    · exact ((usual_opening h).1 k hk).tab
    · rcases (usual_opening h).2 k hk with h | rfl
      · exact h.tab
      · decide
    · decide
  | _ => exact (usual_command h (by simp) (by simp) k hk).tab

/-- All the commands. -/
theorem board_steps (hC : Apart E.cc) : ∀ (cs : List Command) (b : Board) (t : Vi × Ed) (kcs : List (Key × (Text → List Text))),
    (Around.enters ∨ Key.char '\n' ∉ cs.flatMap Command.keys) → Shows b t → (t.2.showCompletionsHint = none ∨ .enter ∉ cs) → Board.CanAll E.cc cs b → kcs.map Prod.fst = cs.flatMap Command.keys →
    Wp (Spec.press keyMap E kcs) t (fun _ t' => ∃ b', Board.Steps E.cc cs b b' ∧ Shows b' t') T2 (· ≠ .op)
  | [], b, t, kcs, _, h, _, _, hks => by
    obtain rfl : kcs = [] := by simpa using hks
    exact ⟨b, .nil b, h⟩
  | c :: cs, b, t, kcs, ha, h, hn, hc, hks => by
    rw [List.flatMap_cons] at hks ha
    obtain ⟨ks1, ks2, rfl, h1, h2⟩ := List.map_eq_append_iff.1 hks
    refine (wp_congr (presses_append E ks1 ks2 t)).mpr ?_
    rw [wp_bind]
    have hd : Wp (Spec.press keyMap E ks1) t (fun _ t' => t'.2.showCompletionsHint = none ∨ .enter ∉ cs) T2 (fun _ => True) := by
      rcases hn with hn | hn
      · exact wp_mono (press_dry E ks1 t (fun x hx => command_tab hc.1 x.1 (h1 ▸ List.mem_map_of_mem hx)) hn) (fun _ _ h => .inl h)
          (fun _ _ h => h) (fun _ h => h)
      · unfold Wp
        cases Spec.press keyMap E ks1 t with
        | ok a t' => exact .inr fun h => hn (List.mem_cons_of_mem _ h)
        | err e t' => trivial
        | panic w => trivial
    refine wp_mono (wp_and (board_step E (ha.imp id fun h h' => h (List.mem_append.2 (.inl h'))) hC h (hn.imp id fun h e => h (e ▸ List.mem_cons_self)) hc.1 h1) hd)
      (fun _ t1 ⟨⟨b1, hb1, hs1⟩, hn1⟩ => ?_) (fun _ _ _ => trivial) (fun _ h => h.1)
    exact wp_mono (board_steps hC cs b1 t1 ks2 (ha.imp id fun h h' => h (List.mem_append.2 (.inr h'))) hs1 hn1 (hc.2 b1 hb1) h2) (fun _ t' ⟨b', g1, g2⟩ => ⟨b', .cons hb1 g1, g2⟩)
      (fun _ _ h => h) (fun _ h => h)

theorem session_then (p : Prompt) (ks : List (Key × (Text → List Text))) (t : Vi × Ed) :
    session keyMap E p ks t = (session keyMap E p [] >>= fun _ => Spec.press keyMap E ks) t := by
  show M.bind (ed (start E p)) (fun _ => M.bind (keyMap.init E) (fun _ => Spec.press keyMap E ks)) t =
    M.bind (M.bind (ed (start E p)) (fun _ => M.bind (keyMap.init E) (fun _ => Spec.press keyMap E []))) (fun _ => Spec.press keyMap E ks) t
  unfold M.bind
  cases ed (start E p) t with
  | ok a t1 =>
    dsimp only
    cases keyMap.init E t1 <;> rfl
  | err e t1 => rfl
  | panic w => rfl

theorem session_append (p : Prompt) (ks1 ks2 : List (Key × (Text → List Text))) (t : Vi × Ed) :
    session keyMap E p (ks1 ++ ks2) t = (session keyMap E p ks1 >>= fun _ => Spec.press keyMap E ks2) t := by
  rw [session_then E p (ks1 ++ ks2) t]
  show M.bind (session keyMap E p []) (fun _ => Spec.press keyMap E (ks1 ++ ks2)) t =
    M.bind (session keyMap E p ks1) (fun _ => Spec.press keyMap E ks2) t
  have h1 := session_then E p ks1 t
  have h2 : (session keyMap E p [] >>= fun _ => Spec.press keyMap E ks1) t =
    M.bind (session keyMap E p []) (fun _ => Spec.press keyMap E ks1) t := rfl
  unfold M.bind at h2 ⊢
  rw [h1, h2]
  cases session keyMap E p [] t with
  | ok a t1 => exact presses_append E ks1 ks2 t1
  | err e t1 => rfl
  | panic w => rfl

theorem undones_nil : ∀ (n : Nat) (d : Text), undones n (d, []) = some (d, [])
  | 0, d => rfl
  | n + 1, d => by rw [undones, undone_nil]; exact undones_nil n d

/-- A line just begun. -/
theorem session_open (p p' : Prompt) (h : History) (fs : FS) (b : Buffer) (ha : Around.ok (initial p' h fs b)) :
    Wp (session keyMap E p []) (({} : Vi), initial p' h fs b) (fun _ t' => Now b {} false (b.data, []) t') T2
      (fun w => w = .op → E.ttyWidth = some 0) := by
  have hopen : Wp (session keyMap E p []) (({} : Vi), initial p' h fs b)
      (fun _ t' => t'.1 = {} ∧ Open false t'.2 b.data []) T2 (fun w => w = .op → E.ttyWidth = some 0) := by
    unfold session
    rw [wp_bind, wp_ed]
    refine wp_mono (start_sets E p p' h fs b ha) (fun _ s1 h1 => ?_) (fun _ _ _ => trivial) (fun _ h => h)
    have ho : Open false s1 b.data [] := by
      have := h1.here; rwa [rest_false] at this
    have hi : Gives (keyMap.init E) (({} : Vi), s1) {} false b.data [] := by
      show Gives (Vi.init E) _ _ _ _ _
      unfold Vi.init
      refine gives_bind (gives_onBuf (v := ({} : Vi)) (f := Buffer.startUndoGroup) (fun b => by rfl) ho) fun _ s2 h2 => ?_
      have := setEditorMode_gives E (v := ({} : Vi)) (.inr rfl) h2
      rwa [rest_false] at this
    rw [wp_bind]
    exact wp_mono hi (fun _ t2 h2 => h2) (fun _ _ h => h) (fun w h h' => absurd h' h)
  refine wp_mono (wp_and hopen (wp_and (vi_session E p p' h fs b []) (wp_and (kg_session E p (({} : Vi), initial p' h fs b) rfl)
    (vx_session E p (({} : Vi), initial p' h fs b))))) (fun _ t h' => ?_) (fun _ _ _ => trivial) (fun _ h => h.1)
  obtain ⟨⟨e1, ho⟩, hv, hg1, hvx⟩ := h'
  obtain ⟨b', es, g1, rfl, g3, g4⟩ := hg1.log b rfl
  refine ⟨⟨hv, hg1.quiet, ⟨b', _, g1, ?_, g3, g4⟩, fun _ => ?_⟩, e1, ho⟩
  · rw [hvx]; exact opened_nil
  · rw [hvx]; exact ⟨rfl, .inl rfl⟩

/-- The pen of a line just begun. -/
theorem now_inks {b : Buffer} {t : Vi × Ed} (hb : b.actions = []) (h1 : Now b {} false (b.data, []) t) :
    Inks ((Board.fresh b.data).pen (.insert 'i') [] (b.data, [])) (Board.fresh b.data).full (Board.fresh b.data).last t := by
  obtain ⟨v, s⟩ := t
  have e1 : v = {} := h1.2.1
  subst e1
  refine ⟨rfl, h1.2.2, rfl, rfl, ?_, rfl, fun hc => absurd rfl hc, ?_, ?_, rfl, b, ⟨rfl, ?_⟩, ?_⟩
  · rintro ch ⟨⟩
    exact ⟨rfl, rfl⟩
  · rintro ch ⟨⟩
    rfl
  · intro k hk; cases hk
  · rw [hb]; exact fun _ n => ⟨_, undones_nil n _, rfl⟩
  · obtain ⟨bb, es, g1, g2, g3, g4⟩ := h1.1.log
    exact ⟨bb, es, g1, by simpa [Shape] using g2, g3, g4⟩

/-- There is no list of candidates. -/
theorem session_dry (p p' : Prompt) (h : History) (fs : FS) (b : Buffer) : Wp (session keyMap E p []) (({} : Vi), initial p' h fs b)
    (fun _ t' => t'.2.showCompletionsHint = none) T2 (fun _ => True) := by
  unfold session
  rw [wp_bind, wp_ed]
  refine wp_mono (dry_start E p _) (fun _ s1 h1 => ?_) (fun _ _ _ => trivial) (fun _ h => h)
  rw [wp_bind]
  show Wp (Vi.init E) _ _ _ _
  unfold Vi.init setEditorMode
  rw [wp_bind, wp_ed]
  refine wp_mono (dry_curBufMut _ s1) (fun _ s2 h2 => ?_) (fun _ _ _ => trivial) (fun _ h => h)
  rw [wp_bind, wp_getK]
  show Wp (do ed (Editor.setViMode .insert); ed (Editor.display E) : ViM Unit) _ _ _ _
  rw [wp_bind, wp_ed]
  have : Dry (Editor.setViMode .insert) := dry_modify fun s => by split <;> rfl
  refine wp_mono (this s2) (fun _ s3 h3 => ?_) (fun _ _ _ => trivial) (fun _ h => h)
  rw [wp_ed]
  refine wp_mono (dry_display E s3) (fun _ s4 h4 => ?_) (fun _ _ _ => trivial) (fun _ h => h)
  exact h4.trans (h3.trans (h2.trans h1))

/-- The first insertion of a line. -/
theorem first_shows (p p' : Prompt) (h : History) (fs : FS) (b : Buffer) (ha : Around.ok (initial p' h fs b)) (hb : b.actions = []) {ks : List Key}
    {kcs : List (Key × (Text → List Text))} (he : Around.enters ∨ Key.char '\n' ∉ ks)
    (hw : Pen.CanAll ks ((Board.fresh b.data).pen (.insert 'i') [] (b.data, []))) (hks : kcs.map Prod.fst = ks ++ [.esc]) :
    Wp (session keyMap E p kcs) (({} : Vi), initial p' h fs b)
      (fun _ t' => ∃ b0, Board.Begun b.data ks b0 ∧ Shows b0 t' ∧ t'.2.showCompletionsHint = none) T2
      (fun w => w = .op → E.ttyWidth = some 0) := by
  refine (wp_congr (session_then E p kcs _)).mpr ?_
  rw [wp_bind]
  refine wp_mono (wp_and (session_open E p p' h fs b ha) (session_dry E p p' h fs b)) (fun _ t ⟨h1, hn⟩ => ?_) (fun _ _ _ => trivial) (fun _ h => h.1)
  have htab : ∀ x ∈ kcs, x.1 ≠ .char '\t' := fun x hx => by
    have hm : x.1 ∈ ks ++ [.esc] := hks ▸ List.mem_map_of_mem hx
    rcases List.mem_append.1 hm with hm | hm
    · rcases usual_pen ks _ hw _ hm with h | h
      · exact h.tab
      · rw [h]; simp
    · rw [show x.1 = .esc by simpa using hm]; simp
  exact wp_mono (wp_and (inks_rest E (b := Board.fresh b.data) he h1.1.vi (now_inks hb h1) hn hw hks) (press_dry E kcs t htab hn))
    (fun _ t' ⟨⟨pen', b', q1, q2, q3⟩, q4⟩ => ⟨b', ⟨pen', q1, q2⟩, q3, q4⟩) (fun _ _ _ => trivial) (fun w h h' => absurd h' h.1)

/-- Any state of the normal mode. -/
theorem any_shows {t : Vi × Ed} {d : Text} (ha : Around.ok t.2) (hv : VI t) (hs : t.1.modeStack = []) (hq : t.2.isSearch = false)
    (ht : text? t.2 = some d) :
    Shows ⟨d, t.2.cursor, t.1.count, t.1.lastCharMovement, none, [], false⟩ t := by
  obtain ⟨b, hb, hc, -⟩ := hv.rests
  obtain ⟨b', hb', hd⟩ := text?_eq.mp ht
  rw [hb] at hb'; cases hb'
  obtain ⟨w, hw, hwd⟩ := workBuf_of_curBuf hb
  rw [hd] at hc
  refine ⟨hv, hs, ⟨hq, by rw [hv.eol, mode_nil hs]; rfl, ha, ?_, ?_⟩, hc, rfl, rfl, fun ch n h => (by cases h),
    (w.data, w.actions), ⟨hq, w, hw, rfl, rfl⟩, hwd.trans hd, fun h => (by cases h)⟩
  · rw [ht, Board.sides]
  · exact (Board.left_length (b := ⟨d, _, _, _, _, _, _⟩) hc).symm

theorem keys_any {m : Motion} {ks : List Key} (last : Option (Char × CharMovement)) (h : ks ∈ m.keys none) :
    ks ∈ m.keys last := by
  cases m <;> simp only [Motion.keys] at h ⊢ <;> try exact h
  simp only [reduceCtorEq, if_false, List.append_nil] at h
  simp only [List.mem_append, h, true_or]

theorem always_can {ch : Change} (h : ch.Always) (last : Option (Char × CharMovement)) (t : Text) : ch.Can last t := by
  cases ch with
  | delete m ks => exact ⟨keys_any last h.1, fun hi => by rw [h.2] at hi; cases hi⟩
  | change m ks ts => exact ⟨keys_any last h.1, fun hi => by (rw [h.2.1] at hi; cases hi), h.2.2⟩
  | _ => exact h

omit [Around] in
/-- An insertion that `.` can repeat. -/
def _root_.Liner.Spec.Pen.Always (p : Pen) : Prop := p.how.Always ∧ ∀ k ∈ p.typed, Types k

theorem pen_always {k : Key} {p p' : Pen} (h : Pen.Step k p p') (hp : p.Always) : p'.Always := by
  cases h with
  | type h hm =>
    refine ⟨hp.1, fun k' hk' => ?_⟩
    rcases List.mem_append.1 hk' with hk' | hk'
    · exact hp.2 k' hk'
    · simp at hk'; subst hk'; exact h
  | restart h hm hq =>
    refine ⟨show 'i' ∈ ['i', 'a', 'I', 'A'] by decide, fun k' hk' => ?_⟩
    simp at hk'; subst hk'; exact h
  | move h => exact hp
  | inert h => exact hp
  | enter h => exact hp

theorem pens_always {ks : List Key} {p p' : Pen} (h : Pen.Steps ks p p') (hp : p.Always) : p'.Always := by
  induction h with
  | nil p => exact hp
  | cons h t ih => exact ih (pen_always h hp)

theorem making_always {op : Opening} {ts : List Key} (h : op.Always) (ht : ∀ k ∈ ts, Types k) :
    ∃ ch, op.making ts = some ch ∧ ch.Always := by
  cases op with
  | insert c => exact ⟨_, rfl, h, ht⟩
  | subst => exact ⟨_, rfl, ht⟩
  | change m ks => exact ⟨_, rfl, h.1, h.2, ht⟩
  | line => cases h
  | tail => cases h

theorem opening_can {op : Opening} (h : op.Always) (last : Option (Char × CharMovement)) (t : Text) : op.Can last t := by
  cases op with
  | insert c => exact h
  | change m ks => exact ⟨keys_any last h.1, fun hi => by rw [h.2] at hi; cases hi⟩
  | _ => trivial

theorem ends_always {p : Pen} {b b' : Board} (h : p.Ends b b') (hp : p.Always) : ∃ ch n, b'.done = some (ch, n) ∧ ch.Always := by
  obtain ⟨ch, h1, h2⟩ := making_always hp.1 hp.2
  exact ⟨ch, _, by rw [h.done, h1]; rfl, h2⟩

theorem pen_can : ∀ (ks : List Key) (p : Pen), (∀ k ∈ ks, WritingKey k ∧ k ≠ .right) → Pen.CanAll ks p
  | [], _, _ => trivial
  | k :: ks, _, h => ⟨.inl ⟨(h k List.mem_cons_self).1, fun e => absurd e (h k List.mem_cons_self).2⟩,
    fun p' _ => pen_can ks p' fun k hk => h k (List.mem_cons_of_mem _ hk)⟩

theorem canAll_always (C : CharClass) : ∀ (cs : List Command) (b : Board), (∀ c ∈ cs, c.Always) → b.full = true →
    (∃ ch n, b.done = some (ch, n) ∧ ch.Always) → Board.CanAll C cs b
  | [], _, _, _, _ => trivial
  | c :: cs, b, hcs, hf, ⟨ch, n, hd, hch⟩ => by
    have hc := hcs c List.mem_cons_self
    have hcs' : ∀ c ∈ cs, c.Always := fun c h => hcs c (List.mem_cons_of_mem _ h)
    have keep : ∀ b' : Board, b'.full = b.full → b'.done = b.done → Board.CanAll C cs b' := fun b' h1 h2 =>
      canAll_always C cs b' hcs' (h1.trans hf) ⟨ch, n, h2.trans hd, hch⟩
    cases c with
    | digit d =>
      refine ⟨hc, fun b' h => ?_⟩
      unfold Board.Step at h
      dsimp only at h
      split at h <;> subst h <;> exact keep _ rfl rfl
    | move m ks =>
      refine ⟨.inl (keys_any _ hc), fun b' h => ?_⟩
      obtain ⟨q, -, rfl⟩ := h
      exact keep _ rfl rfl
    | cancel => exact ⟨trivial, fun b' h => by cases h; exact keep _ rfl rfl⟩
    | enter => exact hc.elim
    | clear ds => exact ⟨hc, fun b' h => keep _ h.2.2.2.2.2.1 h.2.2.2.2.1⟩
    | edge last => exact ⟨trivial, fun b' h => by cases h; exact keep _ rfl rfl⟩
    | giveUp c ds => exact ⟨hc, fun b' h => by cases h; exact keep _ rfl rfl⟩
    | inert k => exact ⟨hc, fun b' h => by cases h; exact keep _ rfl rfl⟩
    | write op ds ks =>
      refine ⟨⟨hc.1, opening_can hc.2.1 _ _, fun p _ => pen_can _ _ hc.2.2⟩, fun b' h => ?_⟩
      obtain ⟨p, pen, -, h2, h3⟩ := h
      exact canAll_always C cs b' hcs' (h3.full.trans hf)
        (ends_always h3 (pens_always h2 ⟨hc.2.1, fun k hk => (by cases hk)⟩))
    | undo => exact ⟨.inl hf, fun b' h => keep _ h.2.2.2.1 h.2.2.1⟩
    | make ch' ds =>
      refine ⟨⟨hc.1, always_can hc.2 _ _⟩, fun b' h => ?_⟩
      obtain ⟨h1, -, h3, h4⟩ := h
      by_cases hs : b.Short ch'
      · exact keep _ h1.noted.1 (h4 hs)
      · exact canAll_always C cs b' hcs' (h1.noted.1.trans hf) ⟨_, _, h3 hs, hc.2⟩
    | again =>
      refine ⟨⟨ch, n, hd, always_can hch _ _⟩, fun b' h => ?_⟩
      obtain ⟨ch', k, h1, n', -, h2, -, h3⟩ := h
      rw [hd] at h1; cases h1
      exact canAll_always C cs b' hcs' (h2.noted.1.trans hf) ⟨_, _, h3, hch⟩

/-! ### The board leaves nothing open but undo -/

theorem typed_unique {n : Nat} {ts : List Key} {l r t t' : Text} {c c' : Nat} (h : Typed n ts l r t c) (h' : Typed n ts l r t' c') :
    t' = t ∧ c' = c := by
  obtain ⟨a, b, h1, h2, h3⟩ := h
  obtain ⟨a', b', h1', h2', h3'⟩ := h'
  rw [h1] at h1'
  cases h1'
  exact ⟨h2'.trans h2.symm, h3'.trans h3.symm⟩

theorem changes_unique {C : CharClass} {n : Nat} {l r t t' : Text} {c c' : Nat} {ch : Change} (h : Changes C n l r t c ch)
    (h' : Changes C n l r t' c' ch) : t' = t ∧ c' = c := by
  cases ch with
  | cut k =>
    obtain ⟨rfl, rfl⟩ := h
    obtain ⟨rfl, h2⟩ := h'
    exact ⟨rfl, h2⟩
  | toggle =>
    obtain ⟨a, rfl, rfl, rfl⟩ := h
    obtain ⟨a', rfl, h1, h2⟩ := h'
    exact ⟨h1, by rw [h2, h1]⟩
  | cutEnd => obtain ⟨rfl, rfl⟩ := h; exact h'
  | replace k =>
    unfold Changes at h h'
    dsimp only at h h'
    split at h <;> rename_i hn
    · rw [if_pos hn] at h'; obtain ⟨rfl, rfl⟩ := h; exact h'
    · rw [if_neg hn] at h'; obtain ⟨rfl, rfl⟩ := h; exact h'
  | delete m ks =>
    obtain ⟨q, h1, rfl, rfl⟩ := h
    obtain ⟨q', h1', h2, h3⟩ := h'
    cases leads_unique h1 h1'
    exact ⟨h2, by rw [h3, h2]⟩
  | insert k ts =>
    obtain ⟨a, b, h1, h2⟩ := h
    obtain ⟨a', b', h1', h2'⟩ := h'
    simp only [List.mem_cons, Prod.mk.injEq, List.not_mem_nil, or_false] at h1 h1'
    rcases h1 with ⟨rfl, rfl, rfl⟩ | ⟨rfl, rfl, rfl⟩ | ⟨rfl, rfl, rfl⟩ | ⟨rfl, rfl, rfl⟩ <;>
      simp [-List.drop_one] at h1' <;> obtain ⟨rfl, rfl⟩ := h1' <;> exact typed_unique h2 h2'
  | subst ts => exact typed_unique (h : Typed 1 ts l (r.drop n) t c) h'
  | change m ks ts =>
    obtain ⟨q, h1, h2⟩ := h
    obtain ⟨q', h1', h2'⟩ := h'
    cases leads_unique h1 h1'
    exact typed_unique h2 h2'

theorem opens_unique {C : CharClass} {n : Nat} {l r : Text} {op : Opening} {p p' : Text × Text} (h : Opens C n l r op p)
    (h' : Opens C n l r op p') : p' = p := by
  cases op with
  | insert c =>
    obtain ⟨a, b⟩ := p
    obtain ⟨a', b'⟩ := p'
    simp only [Opens, List.mem_cons, Prod.mk.injEq, List.not_mem_nil, or_false] at h h'
    rcases h with ⟨rfl, rfl, rfl⟩ | ⟨rfl, rfl, rfl⟩ | ⟨rfl, rfl, rfl⟩ | ⟨rfl, rfl, rfl⟩ <;>
      simp [-List.drop_one] at h' <;> obtain ⟨rfl, rfl⟩ := h' <;> rfl
  | subst => rw [show p = _ from h]; exact h'
  | change m ks =>
    obtain ⟨q, h1, h2⟩ := h
    obtain ⟨q', h1', h2'⟩ := h'
    cases leads_unique h1 h1'
    exact h2'.trans h2.symm
  | line => rw [show p = _ from h]; exact h'
  | tail => rw [show p = _ from h]; exact h'

omit [Around] in
/-- The pens agree, but for undo. -/
def _root_.Liner.Spec.Pen.Same (p p' : Pen) : Prop :=
  p'.left = p.left ∧ p'.right = p.right ∧ p'.how = p.how ∧ p'.typed = p.typed ∧ p'.more = p.more ∧ p'.times = p.times ∧ p'.moved = p.moved

theorem types_moves {k : Key} (h : Types k) (h' : Moves k) : False := by
  rcases h with ⟨c, rfl, -⟩ | rfl | rfl <;> rcases h' with h | h | h | h <;> cases h

theorem types_inert {k : Key} (h : Types k) (h' : Inert k) : False := by
  rcases h with ⟨c, rfl, -⟩ | rfl | rfl <;> rcases h' with ⟨c, h⟩ | h | ⟨c, h⟩ <;> cases h

theorem not_types_enter (h : Types (.char '\n')) : False := by
  rcases h with ⟨c, h, -, h2⟩ | h | h <;> cases h
  exact h2 rfl

theorem not_moves_enter (h : Moves (.char '\n')) : False := by
  rcases h with h | h | h | h <;> cases h

theorem not_inert_enter (h : Inert (.char '\n')) : False := by
  rcases h with ⟨c, h⟩ | h | ⟨c, h⟩ <;> cases h

theorem moves_inert {k : Key} (h : Moves k) (h' : Inert k) : False := by
  rcases h with rfl | rfl | rfl | rfl <;> rcases h' with ⟨c, h⟩ | h | ⟨c, h⟩ <;> cases h

theorem pen_same {k : Key} {a b a' b' : Pen} (h : a.Same b) (ha : Pen.Step k a a') (hb : Pen.Step k b b') : a'.Same b' := by
  obtain ⟨l, r, ho, ty, mo, ti, mv, si, pa⟩ := a
  obtain ⟨l2, r2, ho2, ty2, mo2, ti2, mv2, si2, pa2⟩ := b
  obtain ⟨h1, h2, h3, h4, h5, h6, h7⟩ := h
  dsimp only at h1 h2 h3 h4 h5 h6 h7
  subst h1 h2 h3 h4 h5 h6 h7
  cases ha with
  | type h hm =>
    cases hb with
    | type h' hm' => exact ⟨rfl, rfl, rfl, rfl, rfl, rfl, rfl⟩
    | restart h' hm' _ => exact absurd (hm.symm.trans hm') (by simp)
    | move h' => exact (types_moves h h').elim
    | inert h' => exact (types_inert h h').elim
    | enter => exact (not_types_enter h).elim
  | restart h hm _ =>
    cases hb with
    | type h' hm' => exact absurd (hm.symm.trans hm') (by simp)
    | restart h' hm' _ => exact ⟨rfl, rfl, rfl, rfl, rfl, rfl, rfl⟩
    | move h' => exact (types_moves h h').elim
    | inert h' => exact (types_inert h h').elim
    | enter => exact (not_types_enter h).elim
  | move h =>
    cases hb with
    | type h' hm' => exact (types_moves h' h).elim
    | restart h' hm' _ => exact (types_moves h' h).elim
    | move h' => exact ⟨rfl, rfl, rfl, rfl, rfl, rfl, rfl⟩
    | inert h' => exact (moves_inert h h').elim
    | enter => exact (not_moves_enter h).elim
  | inert h =>
    cases hb with
    | type h' hm' => exact (types_inert h' h).elim
    | restart h' hm' _ => exact (types_inert h' h).elim
    | move h' => exact (moves_inert h' h).elim
    | inert h' => exact ⟨rfl, rfl, rfl, rfl, rfl, rfl, rfl⟩
    | enter => exact (not_inert_enter h).elim
  | enter h =>
    cases hb with
    | type h' hm' => exact (not_types_enter h').elim
    | restart h' hm' _ => exact (not_types_enter h').elim
    | move h' => exact (not_moves_enter h').elim
    | inert h' => exact (not_inert_enter h').elim
    | enter => exact ⟨rfl, rfl, rfl, rfl, rfl, rfl, rfl⟩

theorem pens_same {ks : List Key} {a a' : Pen} (ha : Pen.Steps ks a a') : ∀ {b b' : Pen}, a.Same b → Pen.Steps ks b b' → a'.Same b' := by
  induction ha with
  | nil a => intro b b' h hb; cases hb; exact h
  | cons h t ih =>
    intro b b' hs hb
    cases hb with
    | cons h' t' => exact ih (pen_same hs h h') t'

theorem ends_same {p q : Pen} {a b a' b' : Board} (h : p.Same q) (hl : b.last = a.last) (ha : p.Ends a a') (hb : q.Ends b b') : a'.Same b' := by
  obtain ⟨h1, h2, h3, h4, h5, h6, h7⟩ := h
  obtain ⟨l, r, e, e1, e2⟩ := ha.typed
  obtain ⟨l', r', e', e1', e2'⟩ := hb.typed
  rw [h1, h2, h4, h5, e] at e'
  cases e'
  exact ⟨e1'.trans e1.symm, e2'.trans e2.symm, hb.count.trans ha.count.symm, hb.last.trans (hl.trans ha.last.symm), by
    rw [hb.done, ha.done, h3, h4, h5, h6]⟩

theorem step_same {C : CharClass} {a b a' b' : Board} {c : Command} (h : a.Same b) (hu : c ≠ .undo) (ha : a.Step C c a')
    (hb : b.Step C c b') : a'.Same b' := by
  obtain ⟨t, cu, co, la, dn, ps, fu⟩ := a
  obtain ⟨t2, cu2, co2, la2, dn2, ps2, fu2⟩ := b
  obtain ⟨h1, h2, h3, h4, h5⟩ := h
  dsimp only at h1 h2 h3 h4 h5
  subst h1 h2 h3 h4 h5
  cases c with
  | digit d =>
    unfold Board.Step at ha hb
    dsimp only at ha hb
    split at ha <;> rename_i hd
    · rw [if_pos hd] at hb; subst ha hb; exact ⟨rfl, rfl, rfl, rfl, rfl⟩
    · rw [if_neg hd] at hb; subst ha hb; exact ⟨rfl, rfl, rfl, rfl, rfl⟩
  | move m ks =>
    obtain ⟨q, h1, rfl⟩ := ha
    obtain ⟨q', h1', rfl⟩ := hb
    cases leads_unique h1 h1'
    exact ⟨rfl, rfl, rfl, rfl, rfl⟩
  | make ch ds =>
    obtain ⟨h1, h2, h3, h4⟩ := ha
    obtain ⟨h1', h2', h3', h4'⟩ := hb
    obtain ⟨e1, e2⟩ := changes_unique h1.changes h1'.changes
    refine ⟨e1, e2, h2'.trans h2.symm, h1'.last.trans h1.last.symm, ?_⟩
    by_cases hs : Board.Short ⟨t2, cu2, co2, la2, dn2, ps, fu⟩ ch
    · rw [h4 hs]; exact h4' hs
    · rw [h3 hs]; exact h3' hs
  | enter => exact ⟨hb.1.trans ha.1.symm, hb.2.1.trans ha.2.1.symm, hb.2.2.1.trans ha.2.2.1.symm,
      hb.2.2.2.1.trans ha.2.2.2.1.symm, hb.2.2.2.2.1.trans ha.2.2.2.2.1.symm⟩
  | again =>
    obtain ⟨ch, k, d1, n, rfl, h1, h2, h3⟩ := ha
    obtain ⟨ch', k', d1', n', rfl, h1', h2', h3'⟩ := hb
    have : some (ch', k') = some (ch, k) := d1'.symm.trans d1
    cases this
    obtain ⟨e1, e2⟩ := changes_unique h1.changes h1'.changes
    exact ⟨e1, e2, h2'.trans h2.symm, h1'.last.trans h1.last.symm, h3'.trans h3.symm⟩
  | undo => exact absurd rfl hu
  | cancel => cases ha; cases hb; exact ⟨rfl, rfl, rfl, rfl, rfl⟩
  | edge last => cases ha; cases hb; exact ⟨rfl, rfl, rfl, rfl, rfl⟩
  | giveUp k ds => cases ha; cases hb; exact ⟨rfl, rfl, rfl, rfl, rfl⟩
  | inert k => cases ha; cases hb; exact ⟨rfl, rfl, rfl, rfl, rfl⟩
  | clear ds =>
    obtain ⟨g1, g2, g3, g4, g5, -⟩ := ha
    obtain ⟨q1, q2, q3, q4, q5, -⟩ := hb
    exact ⟨q1.trans g1.symm, q2.trans g2.symm, q3.trans g3.symm, q4.trans g4.symm, q5.trans g5.symm⟩
  | write op ds ks =>
    obtain ⟨p, pen, g1, g2, g3⟩ := ha
    obtain ⟨p', pen', q1, q2, q3⟩ := hb
    cases opens_unique g1 q1
    have hs : Pen.Same (Board.pen ⟨t2, cu2, co2, la2, dn2, ps, fu⟩ op ds p) (Board.pen ⟨t2, cu2, co2, la2, dn2, ps2, fu2⟩ op ds p) :=
      ⟨rfl, rfl, rfl, rfl, rfl, rfl, rfl⟩
    exact ends_same (a := { Board.mk t2 cu2 co2 la2 dn2 ps fu with last := op.search la2 })
      (b := { Board.mk t2 cu2 co2 la2 dn2 ps2 fu2 with last := op.search la2 }) (pens_same g2 hs q2) rfl g3 q3

theorem steps_same {C : CharClass} {a : Board} {cs : List Command} {a' : Board} (ha : Board.Steps C cs a a') :
    ∀ {b b' : Board}, a.Same b → .undo ∉ cs → Board.Steps C cs b b' → a'.Same b' := by
  induction ha with
  | nil a => intro b b' h _ hb; cases hb; exact h
  | cons h t ih =>
    intro b b' hs hu hb
    cases hb with
    | cons h' t' =>
      exact ih (step_same hs (fun hc => hu (by rw [hc]; exact List.mem_cons_self)) h h') (fun hc => hu (List.mem_cons_of_mem _ hc)) t'

/-! ### An insertion without movements is a change -/

theorem pen_typing : ∀ (ts : List Key) (p p' : Pen), (∀ k ∈ ts, Types k) → p.moved = false →
    (Pen.Steps ts p p' ↔ p' = { p with left := (ts.foldl typeKey (p.left, p.right)).1, right := (ts.foldl typeKey (p.left, p.right)).2, typed := p.typed ++ ts })
  | [], p, p', _, _ => by
    constructor
    · intro h; cases h; simp
    · intro h
      have : p' = p := by rw [h]; simp
      rw [this]; exact .nil p
  | k :: ts, p, p', ht, hm => by
    have hk := ht k List.mem_cons_self
    have ih := pen_typing ts { p with left := (typeKey (p.left, p.right) k).1, right := (typeKey (p.left, p.right) k).2, typed := p.typed ++ [k] } p'
      (fun k hk => ht k (List.mem_cons_of_mem _ hk)) hm
    constructor
    · intro h
      cases h with
      | cons h t =>
        cases h with
        | type h' hm' =>
          rw [ih.mp t]
          simp
        | restart h' hm' _ => exact absurd (hm.symm.trans hm') (by simp)
        | move h' => exact (types_moves hk h').elim
        | inert h' => exact (types_inert hk h').elim
        | enter => exact (not_types_enter hk).elim
    · intro h
      refine .cons (.type hk hm) (ih.mpr ?_)
      rw [h]
      simp

theorem times_pos (b : Board) : b.times ≠ 0 := by unfold Board.times; split <;> omega

theorem write_make {C : CharClass} {b b' : Board} {op : Opening} {ds : List Char} {ts : List Key} {ch : Change}
    (hm : op.making ts = some ch) (ht : ∀ k ∈ ts, Types k) : b.Step C (.write op ds ts) b' ↔ b.Step C (.make ch ds) b' := by
  have hsh : ¬ b.Short ch := by
    rintro ⟨c, rfl, -⟩
    cases op <;> cases hm
  have hpos := times_pos b
  have key : ∀ p : Text × Text, (∃ pen, Pen.Steps ts (b.pen op ds p) pen ∧ pen.Ends { b with last := op.search b.last } b') ↔
      ((∃ l r, (List.replicate (op.more (op.total b.times ds)) ts).flatten.foldl typeKey (ts.foldl typeKey p) = (l, r) ∧
        b'.text = l ++ r ∧ b'.cur = l.length - 1) ∧ b'.count = 0 ∧ b'.last = op.search b.last ∧
        b'.done = some (ch, if op.more (op.total b.times ds) = 0 then op.keeps (op.total b.times ds) else op.more (op.total b.times ds) + 1) ∧
        b.Noted b') := by
    intro p
    constructor
    · rintro ⟨pen, h1, h2⟩
      rw [pen_typing ts _ _ ht rfl] at h1
      subst h1
      refine ⟨h2.typed, h2.count, h2.last, ?_, h2.full, h2.past⟩
      rw [h2.done]
      show ((op.making ([] ++ ts)).map _ : Option (Change × Nat)) = _
      rw [List.nil_append, hm]
      rfl
    · rintro ⟨h1, h2, h3, h4, h5, h6⟩
      refine ⟨_, (pen_typing ts _ _ ht rfl).mpr rfl, h1, h2, h3, ?_, h6, h5⟩
      rw [h4]
      show _ = ((op.making ([] ++ ts)).map _ : Option (Change × Nat))
      rw [List.nil_append, hm]
      rfl
  have hflat : ∀ (n : Nat) (p : Text × Text), n ≠ 0 →
      (List.replicate (n - 1) ts).flatten.foldl typeKey (ts.foldl typeKey p) = (List.replicate n ts).flatten.foldl typeKey p := by
    intro n p hn
    obtain ⟨n, rfl⟩ := Nat.exists_eq_succ_of_ne_zero hn
    rw [Nat.succ_sub_one, List.replicate_succ, List.flatten_cons, List.foldl_append]
  have hlhs : b.Step C (.write op ds ts) b' ↔ ∃ p, Opens C (op.total b.times ds) b.left b.right op p ∧
      ∃ pen, Pen.Steps ts (b.pen op ds p) pen ∧ pen.Ends { b with last := op.search b.last } b' :=
    ⟨fun ⟨p, pen, h1, h2⟩ => ⟨p, h1, pen, h2⟩, fun ⟨p, h1, pen, h2⟩ => ⟨p, pen, h1, h2⟩⟩
  rw [hlhs]
  simp only [key]
  have fin : (∃ p, Opens C (op.total b.times ds) b.left b.right op p ∧
        ∃ l r, (List.replicate (op.more (op.total b.times ds)) ts).flatten.foldl typeKey (ts.foldl typeKey p) = (l, r) ∧
          b'.text = l ++ r ∧ b'.cur = l.length - 1) ↔ Changes C (ch.total b.times ds) b.left b.right b'.text b'.cur ch := by
    cases op with
    | insert c =>
      cases hm
      constructor
      · rintro ⟨⟨l', r'⟩, h1, l, r, h2, h3⟩
        exact ⟨l', r', h1, l, r, by rw [← hflat _ _ (show Change.total b.times ds (.insert c ts) ≠ 0 from hpos)]; exact h2, h3⟩
      · rintro ⟨l', r', h1, l, r, h2, h3⟩
        exact ⟨(l', r'), h1, l, r, by rw [← hflat _ _ (show Change.total b.times ds (.insert c ts) ≠ 0 from hpos)] at h2; exact h2, h3⟩
    | subst =>
      cases hm
      constructor
      · rintro ⟨p, rfl, l, r, h2, h3⟩
        exact ⟨l, r, by rw [← hflat 1 _ (by decide)]; exact h2, h3⟩
      · rintro ⟨l, r, h2, h3⟩
        exact ⟨_, rfl, l, r, by rw [← hflat 1 _ (by decide)] at h2; exact h2, h3⟩
    | change m ks =>
      cases hm
      constructor
      · rintro ⟨p, ⟨q, h1, rfl⟩, l, r, h2, h3⟩
        exact ⟨q, h1, l, r, by rw [← hflat 1 _ (by decide)]; exact h2, h3⟩
      · rintro ⟨q, h1, l, r, h2, h3⟩
        exact ⟨_, ⟨q, h1, rfl⟩, l, r, by rw [← hflat 1 _ (by decide)] at h2; exact h2, h3⟩
    | line => cases hm
    | tail => cases hm
  have e1 : ch.leaves b.count = 0 := by cases op <;> cases hm <;> rfl
  have e2 : ch.search b.last = op.search b.last := by cases op <;> cases hm <;> rfl
  have e3 : (if op.more (op.total b.times ds) = 0 then op.keeps (op.total b.times ds) else op.more (op.total b.times ds) + 1) =
      ch.keeps (ch.total b.times ds) := by
    cases op with
    | insert c =>
      cases hm
      show (if b.times - 1 = 0 then 1 else b.times - 1 + 1) = b.times
      split <;> omega
    | subst => cases hm; rfl
    | change m ks => cases hm; cases m <;> rfl
    | line => cases hm
    | tail => cases hm
  rw [e3]
  constructor
  · rintro ⟨p, h1, h2, h3, h4, h5, h6⟩
    exact ⟨⟨fin.mp ⟨p, h1, h2⟩, by rw [h4, e2], h6⟩, by rw [h3, e1], fun _ => h5, fun h => absurd h hsh⟩
  · rintro ⟨⟨h1, h2, h3⟩, h4, h5, -⟩
    obtain ⟨p, q1, q2⟩ := fin.mpr h1
    exact ⟨p, q1, q2, h4.trans e1, h2.trans e2, h5 hsh, h3⟩

end
end Vi
end Liner
