import Verif.Proof.ViBoard
import Verif.Proof.SheetRead
import Verif.Props.Enter
import Verif.Props.Keys
import Verif.Spec.ViLine
/-
What `read_line` returns with the vi keys.
-/

set_option linter.unusedSectionVars false

namespace Liner
namespace Vi
open Liner.Spec Liner.Editor Liner.Props M KM

/-- The only errors are those of the terminal. -/
def Fails (E : Env) (e : IoErr) : Prop := e = .io ∧ ¬ Works E

section
variable [Around] (E : Env) (comp : Text → List Text)

theorem io_fails : Io E (Fails E) := by
  by_cases hw : Works E
  · exact .inl hw
  · exact .inr ⟨rfl, hw⟩

theorem key_fails (t : Vi × Ed) (key : Key) : Wp (keyMap.handleKey E comp key) t (fun _ _ => True)
    (fun e _ => Fails E e ∨ (e = .interrupted ∧ key = .ctrl 'c') ∨
      (e = .unexpectedEof ∧ key = .ctrl 'd' ∧ text? t.2 = some [])) (fun _ => True) := by
  unfold Wp
  cases hm : keyMap.handleKey E comp key t with
  | ok a s' => trivial
  | panic w => trivial
  | err e s' => exact only_stops keyMap E comp (io_fails E) (fun key => errs_usesK (T := fun _ => False) (io_fails E)
      (fun _ h => h.elim) (Vi.uses_core E key)) hm

/-- A usual key does not end the line. -/
theorem key_usual {t : Vi × Ed} {key : Key} (hk : Usual key) (hn : t.2.showCompletionsHint = none) :
    Wp (keyMap.handleKey E comp key) t (fun done t' => done = false ∧ t'.2.showCompletionsHint = none)
    (fun e _ => Fails E e) (fun _ => True) := by
  have h1 : Wp (keyMap.handleKey E comp key) t (fun done _ => done = false) (fun _ _ => True) (fun _ => True) := by
    unfold Wp
    cases hm : keyMap.handleKey E comp key t with
    | ok a s' =>
      cases a with
      | false => rfl
      | true => exact absurd (only_enter hm).1 hk.enter
    | err e s' => trivial
    | panic w => trivial
  refine wp_mono (wp_and h1 (wp_and (key_fails E comp t key) (key_dry E comp keyMap t hk.tab hn)))
    (fun _ _ h => ⟨h.1, h.2.2⟩) (fun e _ h => ?_) (fun _ _ => trivial)
  rcases h.2.1 with h | h | h
  · exact h
  · exact absurd h.2 hk.ctrlC
  · exact absurd h.2.1 hk.ctrlD

/-- Keys at the beginning of what is read. -/
theorem loop_press {tail : List KeyMap.Input} {Q : Text → Vi × Ed → Prop} {R : IoErr → Vi × Ed → Prop} {P : Site → Prop}
    (hR : ∀ e t, Fails E e → R e t) : ∀ (kcs : List (Key × (Text → List Text))) (t : Vi × Ed), (∀ x ∈ kcs, Usual x.1) →
    t.2.showCompletionsHint = none →
    Wp (Spec.press keyMap E kcs) t (fun _ t' => t'.2.showCompletionsHint = none → Wp (keyMap.loop E tail) t' Q R P) T2 P →
    Wp (keyMap.loop E (Spec.typed kcs ++ tail)) t Q R P
  | [], t, _, hn, h => h hn
  | (k, c) :: kcs, t, hu, hn, h => by
    unfold Spec.press at h
    rw [wp_bind] at h
    show Wp (keyMap.loop E (.key k c :: (Spec.typed kcs ++ tail))) t Q R P
    unfold KeyMap.loop
    rw [wp_bind]
    refine wp_mono (wp_and h (key_usual E c (hu (k, c) List.mem_cons_self) hn)) (fun done t1 h1 => ?_) (fun e t' h => hR e t' h.2)
      (fun _ h => h.1)
    obtain ⟨h1, rfl, h3⟩ := h1
    rw [if_neg (by simp)]
    exact loop_press hR kcs t1 (fun x hx => hu x (List.mem_cons_of_mem _ hx)) h3 h1

/-- Enter after a backslash. -/
theorem loop_goes {tail : List KeyMap.Input} {Q : Text → Vi × Ed → Prop} {R : IoErr → Vi × Ed → Prop} {P : Site → Prop}
    (hR : ∀ e t, Fails E e → R e t) {e : Bool} {t : Vi × Ed} {l r : Text} (h : Open e t.2 l r)
    (hn : t.2.showCompletionsHint = none) (hl : l.getLast? = some '\\')
    (g : Wp (Spec.press keyMap E [(.char '\n', comp)]) t (fun _ t' => t'.2.showCompletionsHint = none → Wp (keyMap.loop E tail) t' Q R P) T2 P) :
    Wp (keyMap.loop E (Spec.typed [(.char '\n', comp)] ++ tail)) t Q R P := by
  obtain ⟨v, s⟩ := t
  unfold Spec.press at g
  rw [wp_bind] at g
  show Wp (keyMap.loop E (.key (.char '\n') comp :: tail)) (v, s) Q R P
  unfold KeyMap.loop
  rw [wp_bind]
  obtain ⟨b, hb, hbd⟩ := text?_eq.mp h.here.1
  have h1 : Wp (keyMap.handleKey E comp (.char '\n')) (v, s) (fun done _ => done = false) (fun _ _ => True) (fun _ => True) := by
    rw [wp_congr (handleKey_eq keyMap E comp (t := (v, s)) hb _), wp_bind]
    have : KeyMap.translate (.char '\n') = .char '\n' := by decide
    rw [this, wp_congr (dispatch_newline keyMap E comp (v, s)), wp_ed]
    refine wp_mono (@finish_open anywhere E _ _ _ _ trivial h.plain hn) (fun done s' h1 => ?_) (fun _ _ h => h) (fun _ _ => trivial)
    rw [wp_bind, wp_ed, wp_flush]
    exact ⟨fun _ => (h1.1 hl).1, fun _ => trivial⟩
  refine wp_mono (wp_and g (wp_and h1 (wp_and (key_fails E comp (v, s) (.char '\n')) (key_dry E comp keyMap (v, s) (by simp) hn))))
    (fun done t1 h1 => ?_) (fun e t' h => hR e t' ?_) (fun _ h => h.1)
  · obtain ⟨h1, rfl, -, h3⟩ := h1
    rw [if_neg (by simp)]
    exact h1 h3
  · rcases h.2.2.1 with h | h | h
    · exact h
    · cases h.2
    · cases h.2.1

/-! ### Reading -/

theorem typed_append (a b : List (Key × (Text → List Text))) : Spec.typed (a ++ b) = Spec.typed a ++ Spec.typed b := by
  unfold Spec.typed; rw [List.map_append]

theorem always (kcs : List (Key × (Text → List Text))) (t : Vi × Ed) (_ : True) :
    Wp (Spec.press keyMap E kcs) t (fun _ _ => True) T2 T1 := by
  unfold Wp; split <;> trivial

section
variable {tail : List KeyMap.Input} {Q : Text → Vi × Ed → Prop} {R : IoErr → Vi × Ed → Prop} {P : Site → Prop}
  (hR : ∀ e t, Fails E e → R e t) (hP : ∀ w, w ≠ .op → P w)
  {J : Vi × Ed → Prop} (hJ : ∀ kcs t, J t → Wp (Spec.press keyMap E kcs) t (fun _ t' => J t') T2 T1)
include hR hP hJ

theorem loop_pen {full : Bool} {last : Option (Char × CharMovement)} : ∀ (ks : List Key) (pen : Pen) (t : Vi × Ed)
    (kcs : List (Key × (Text → List Text))), (Around.enters ∨ Key.char '\n' ∉ ks) → VI t → Inks pen full last t → J t →
    t.2.showCompletionsHint = none → Pen.CanAll ks pen → kcs.map Prod.fst = ks →
    (∀ pen' t', Pen.Steps ks pen pen' → VI t' → Inks pen' full last t' → J t' → t'.2.showCompletionsHint = none →
      Wp (keyMap.loop E tail) t' Q R P) →
    Wp (keyMap.loop E (Spec.typed kcs ++ tail)) t Q R P
  | [], pen, t, kcs, _, hv, h, hj, hn, _, hks, g => by
    obtain rfl : kcs = [] := by simpa using hks
    exact g pen t (.nil pen) hv h hj hn
  | k :: ks, pen, t, kcs, ha, hv, h, hj, hn, hc, hks, g => by
    obtain ⟨⟨k', c⟩, kcs', rfl, rfl, hk'⟩ := List.map_eq_cons_iff.1 hks
    obtain ⟨hk, hw⟩ := hc
    have key : Wp (Spec.press keyMap E [(k', c)]) t (fun _ t' => t'.2.showCompletionsHint = none →
        Wp (keyMap.loop E (Spec.typed kcs' ++ tail)) t' Q R P) T2 P :=
      wp_mono (wp_and (inks_key E (ha.imp id fun h e => h (e ▸ List.mem_cons_self)) hv h hn (hk.imp (fun h => ⟨h.1, fun e => .inl (h.2 e)⟩) id)) (hJ _ t hj)) (fun _ t1 ⟨⟨⟨hv1, hn1⟩, p1, g1, g2⟩, hj1⟩ _ =>
        loop_pen ks p1 t1 kcs' (ha.imp id fun h h' => h (List.mem_cons_of_mem _ h')) hv1 g2 hj1 hn1 (hw p1 g1) hk' fun pen' t' q1 q2 q3 q4 q5 => g pen' t' (.cons g1 q1) q2 q3 q4 q5)
        (fun _ _ _ => trivial) (fun w h => hP w h.1)
    rcases hk with hk | ⟨rfl, hl⟩
    · exact loop_press E hR [(k', c)] t (fun x hx => by
        obtain rfl : x = (k', c) := by simpa using hx
        exact usual_writing hk.1) hn key
    · exact loop_goes E _ hR h.here hn hl key

theorem loop_first {b : Board} {ks : List Key} {pen : Pen} {t : Vi × Ed}
    {kcs : List (Key × (Text → List Text))} (ha : Around.enters ∨ Key.char '\n' ∉ ks) (hv : VI t) (h : Inks pen b.full b.last t) (hj : J t) (hn : t.2.showCompletionsHint = none)
    (hc : Pen.CanAll ks pen) (hks : kcs.map Prod.fst = ks ++ [.esc])
    (g : ∀ pen' b' t', Pen.Steps ks pen pen' → pen'.Ends b b' → Shows b' t' → J t' → t'.2.showCompletionsHint = none →
      Wp (keyMap.loop E tail) t' Q R P) :
    Wp (keyMap.loop E (Spec.typed kcs ++ tail)) t Q R P := by
  obtain ⟨k1, k2, rfl, h1, h2⟩ := List.map_eq_append_iff.1 hks
  rw [typed_append, List.append_assoc]
  refine loop_pen E hR hP hJ ks pen t k1 ha hv h hj hn hc h1 fun pen' t' q1 q2 q3 qj q4 => ?_
  refine loop_press E hR k2 t' (usual_keys (ks := [.esc]) (fun k hk => ?_) h2) q4 ?_
  · obtain rfl : k = .esc := by simpa using hk
    exact usual_esc
  exact wp_mono (wp_and (inks_rest E (b := b) (ks := []) (.inr (by simp)) q2 q3 q4 trivial h2) (hJ _ t' qj)) (fun _ t1 ⟨⟨pen'', b', g1, g2, g3⟩, gj⟩ hn1 => by
    cases g1
    exact g pen' b' t1 q1 g2 g3 gj hn1) (fun _ _ _ => trivial) (fun w h => hP w h.1)

theorem loop_board (hC : Apart E.cc) : ∀ (cs : List Command) (b : Board) (t : Vi × Ed) (kcs : List (Key × (Text → List Text))),
    (Around.enters ∨ Key.char '\n' ∉ cs.flatMap Command.keys) → Shows b t → J t → t.2.showCompletionsHint = none → Board.CanAll E.cc cs b → kcs.map Prod.fst = cs.flatMap Command.keys →
    (∀ b' t', Board.Steps E.cc cs b b' → Shows b' t' → J t' → t'.2.showCompletionsHint = none → Wp (keyMap.loop E tail) t' Q R P) →
    Wp (keyMap.loop E (Spec.typed kcs ++ tail)) t Q R P
  | [], b, t, kcs, _, h, hj, hn, _, hks, g => by
    obtain rfl : kcs = [] := by simpa using hks
    exact g b t (.nil b) h hj hn
  | c :: cs, b, t, kcs, ha, h, hj, hn, hc, hks, g => by
    rw [List.flatMap_cons] at hks ha
    have ha1 : Around.enters ∨ Key.char '\n' ∉ c.keys := ha.imp id fun h h' => h (List.mem_append.2 (.inl h'))
    have ha2 : Around.enters ∨ Key.char '\n' ∉ cs.flatMap Command.keys := ha.imp id fun h h' => h (List.mem_append.2 (.inr h'))
    obtain ⟨ks1, ks2, rfl, h1, h2⟩ := List.map_eq_append_iff.1 hks
    rw [typed_append, List.append_assoc]
    have next : ∀ b1 t1, b.Step E.cc c b1 → Shows b1 t1 → J t1 → t1.2.showCompletionsHint = none →
        Wp (keyMap.loop E (Spec.typed ks2 ++ tail)) t1 Q R P := fun b1 t1 hb1 hs1 hj1 hn1 =>
      loop_board hC cs b1 t1 ks2 ha2 hs1 hj1 hn1 (hc.2 b1 hb1) h2 fun b' t' q1 q2 q3 q4 => g b' t' (.cons hb1 q1) q2 q3 q4
    have hstep : Wp (Spec.press keyMap E ks1) t (fun _ t' => t'.2.showCompletionsHint = none →
        Wp (keyMap.loop E (Spec.typed ks2 ++ tail)) t' Q R P) T2 P :=
      wp_mono (wp_and (board_step E ha1 hC h (.inl hn) hc.1 h1) (hJ _ t hj)) (fun _ t1 ⟨⟨b1, hb1, hs1⟩, hj1⟩ hn1 => next b1 t1 hb1 hs1 hj1 hn1) (fun _ _ _ => trivial) (fun w h => hP w h.1)
    by_cases he : c = .enter
    · subst he
      rw [show Command.keys .enter = [Key.char '\n'] from rfl, List.map_eq_singleton_iff] at h1
      obtain ⟨⟨k, cmp⟩, rfl, hk⟩ := h1
      dsimp only at hk
      subst hk
      exact loop_goes E _ hR h.here hn hc.1 hstep
    by_cases hw : ∃ op ds ks, c = .write op ds ks
    · obtain ⟨op, ds, ks, rfl⟩ := hw
      have h1 : ks1.map Prod.fst = op.keys ds ++ (ks ++ [.esc]) := by rw [h1, ← List.append_assoc]; rfl
      obtain ⟨k1, k2, rfl, h11, h12⟩ := List.map_eq_append_iff.1 h1
      rw [typed_append, List.append_assoc]
      obtain ⟨hd, hcan, hpen⟩ := hc.1
      refine loop_press E hR k1 t (usual_keys (usual_opening hc.1).1 h11) hn ?_
      refine wp_mono (wp_and (opens_inks E hC h hd hcan h11) (hJ _ t hj)) (fun _ t1 ⟨⟨i1, p, i2, i3⟩, ij⟩ i4 => ?_) (fun _ _ _ => trivial) (fun w h => hP w h.1)
      exact loop_first E hR hP hJ (b := { b with last := op.search b.last }) (ha1.imp id fun h h' => h (by simp [Command.keys, h'])) i1 i3 ij i4 (hpen p i2) h12 fun pen' b' t' q1 q2 q3 q4 q5 =>
        next b' t' ⟨p, pen', i2, q1, q2⟩ q3 q4 q5
    · exact loop_press E hR ks1 t (usual_keys (usual_command hc.1 he (fun op ds ks e => hw ⟨op, ds, ks, e⟩)) h1) hn hstep

omit hJ
/-- A whole line. -/
theorem loop_line (ha : Around.enters) (hC : Apart E.cc) {b : Buffer} {t : Vi × Ed} (hb : b.actions = []) (ht : Now b {} false (b.data, []) t)
    (hn : t.2.showCompletionsHint = none) (line : ViLine) (hc : line.Can E.cc b.data)
    {kcs : List (Key × (Text → List Text))} (hks : kcs.map Prod.fst = line.keys)
    (g : ∀ l r e t', line.Leaves E.cc b.data l r → VI t' → Open e t'.2 l r → t'.2.showCompletionsHint = none →
      Wp (keyMap.loop E tail) t' Q R P) :
    Wp (keyMap.loop E (Spec.typed kcs ++ tail)) t Q R P := by
  have hi := now_inks hb ht
  cases line with
  | first ks =>
    exact loop_pen E hR hP (J := fun _ => True) (always E) ks _ t kcs (.inl ha) ht.1.vi hi trivial hn hc hks fun pen t' g1 g2 g3 _ g4 => g _ _ _ t' ⟨pen, g1, rfl, rfl⟩ g2 g3.here g4
  | commands ks cs =>
    obtain ⟨k1, k2, rfl, h1, h2⟩ := List.map_eq_append_iff.1 hks
    rw [typed_append, List.append_assoc]
    refine loop_first E hR hP (J := fun _ => True) (always E) (b := Board.fresh b.data) (.inl ha) ht.1.vi hi trivial hn hc.1 h1 fun pen b0 t0 g1 g2 g3 _ g4 => ?_
    exact loop_board E hR hP (J := fun _ => True) (always E) hC cs b0 t0 k2 (.inl ha) g3 trivial g4 (hc.2 b0 ⟨pen, g1, g2⟩) h2 fun b' t' q1 q2 _ q3 =>
      g _ _ _ t' ⟨b0, b', ⟨pen, g1, g2⟩, q1, rfl, rfl⟩ q2.vi q2.here q3
  | writing ks cs op ds ks' =>
    obtain ⟨k12, k3, rfl, h12, h3⟩ := List.map_eq_append_iff.1 hks
    obtain ⟨k1, k2, rfl, h1, h2⟩ := List.map_eq_append_iff.1 h12
    obtain ⟨k3, k4, rfl, h3, h4⟩ := List.map_eq_append_iff.1 h3
    rw [typed_append, typed_append, typed_append]
    simp only [List.append_assoc]
    refine loop_first E hR hP (J := fun _ => True) (always E) (b := Board.fresh b.data) (.inl ha) ht.1.vi hi trivial hn hc.1 h1 fun pen b0 t0 g1 g2 g3 _ g4 => ?_
    have hc0 := hc.2 b0 ⟨pen, g1, g2⟩
    refine loop_board E hR hP (J := fun _ => True) (always E) hC cs b0 t0 k2 (.inl ha) g3 trivial g4 hc0.1 h2 fun b' t' q1 q2 _ q3 => ?_
    have hc1 := hc0.2 b' q1
    refine loop_press E hR k3 t' (usual_keys (usual_opening hc1).1 h3) q3 ?_
    refine wp_mono (opens_inks E hC q2 hc1.1 hc1.2.1 h3) (fun _ t1 ⟨i1, p, i2, i3⟩ i4 => ?_) (fun _ _ h => h) hP
    exact loop_pen E hR hP (J := fun _ => True) (always E) ks' _ t1 k4 (.inl ha) i1 i3 trivial i4 (hc1.2.2 p i2) h4 fun pen' t2 j1 j2 j3 _ j4 =>
      g _ _ _ t2 ⟨b0, b', p, pen', ⟨pen, g1, g2⟩, q1, i2, j1, rfl, rfl⟩ j2 j3.here j4

end

/-- The line just begun. -/
theorem begin_now (p p' : Prompt) (h : History) (fs : FS) (b : Buffer) (ha : Around.ok (initial p' h fs b)) :
    Wp (session keyMap E p []) (({} : Vi), initial p' h fs b) (fun _ t' => Now b {} false (b.data, []) t' ∧
      t'.2.showCompletionsHint = none) (fun e _ => Fails E e) (fun w => w = .op → E.ttyWidth = some 0) := by
  have hd := session_dry E p p' h fs b
  have he : Wp (session keyMap E p []) (({} : Vi), initial p' h fs b) (fun _ _ => True) (fun e _ => Fails E e) (fun _ => True) := by
    have : Errs (Fails E) (session keyMap E p []) := errs_bind (errs_ed (errs_start (io_fails E) p)) fun _ =>
      errs_bind (errs_usesK (T := fun _ => False) (io_fails E) (fun _ h => h.elim) (Vi.uses_init E)) fun _ => errs_pure _
    exact this.wp _
  exact wp_mono (wp_and (session_open E p p' h fs b ha) (wp_and hd he)) (fun _ _ h => ⟨h.1, h.2.1⟩) (fun _ _ h => h.2.2) (fun _ h => h.1)

theorem read_then (p : Prompt) (input : List KeyMap.Input) (t : Vi × Ed) :
    keyMap.readLine E p input t = (session keyMap E p [] >>= fun _ => keyMap.loop E input) t := by
  show M.bind (ed (start E p)) (fun _ => M.bind (keyMap.init E) (fun _ => keyMap.loop E input)) t =
    M.bind (M.bind (ed (start E p)) (fun _ => M.bind (keyMap.init E) (fun _ => Spec.press keyMap E []))) (fun _ => keyMap.loop E input) t
  unfold M.bind
  cases ed (start E p) t with
  | ok a t1 =>
    dsimp only
    cases keyMap.init E t1 <;> rfl
  | err e t1 => rfl
  | panic w => rfl

theorem read_line {tail : List KeyMap.Input} {Q : Text → Vi × Ed → Prop} {R : IoErr → Vi × Ed → Prop}
    (hR : ∀ e t, Fails E e → R e t) (hC : Apart E.cc)
    (he : Around.enters) (p p' : Prompt) (h : History) (fs : FS) (b : Buffer) (ha : Around.ok (initial p' h fs b)) (hb : b.actions = []) (line : ViLine) (hc : line.Can E.cc b.data)
    {kcs : List (Key × (Text → List Text))} (hks : kcs.map Prod.fst = line.keys)
    (g : ∀ l r e t', line.Leaves E.cc b.data l r → VI t' → Open e t'.2 l r → t'.2.showCompletionsHint = none →
      Wp (keyMap.loop E tail) t' Q R (· ≠ .op)) :
    Wp (keyMap.readLine E p (Spec.typed kcs ++ tail)) (({} : Vi), initial p' h fs b) Q R
      (fun w => w = .op → E.ttyWidth = some 0) := by
  refine (wp_congr (read_then E p _ _)).mpr ?_
  rw [wp_bind]
  refine wp_mono (begin_now E p p' h fs b ha) (fun _ t ⟨h1, h2⟩ => ?_) (fun e t h => hR e t h) (fun _ h => h)
  exact wp_mono (loop_line E hR (fun _ h => h) he hC hb h1 h2 line hc hks g) (fun _ _ h => h) (fun _ _ h => h) (fun w h h' => absurd h' h)

/-! ### The end of the line -/

theorem loop_end {e : Bool} {t : Vi × Ed} {l r : Text} (h : Open e t.2 l r) :
    Wp (keyMap.loop E []) t (fun txt _ => txt = l ++ r) (fun _ _ => False) (· ≠ .op) := by
  unfold KeyMap.loop
  rw [wp_bind, wp_ed, wp_get]
  have : intoText t.2 = some (l ++ r) := h.here.1
  rw [this]
  exact rfl

theorem loop_enter {e : Bool} {t : Vi × Ed} {l r : Text} {rest : List KeyMap.Input} (h : Open e t.2 l r)
    (hh : t.2.showCompletionsHint = none) (hl : l.getLast? ≠ some '\\') :
    Wp (keyMap.loop E (.key (.char '\n') comp :: rest)) t (fun txt _ => txt = l ++ r) (fun e _ => Fails E e) (· ≠ .op) := by
  obtain ⟨v, s⟩ := t
  obtain ⟨b, hb, hbd⟩ := text?_eq.mp h.here.1
  unfold KeyMap.loop
  rw [wp_bind]
  have h1 : Wp (keyMap.handleKey E comp (.char '\n')) (v, s) (fun done t' => done = true ∧ text? t'.2 = some (l ++ r)) (fun _ _ => True) (· ≠ .op) := by
    rw [wp_congr (handleKey_eq keyMap E comp (t := (v, s)) hb _), wp_bind]
    have : KeyMap.translate (.char '\n') = .char '\n' := by decide
    rw [this, wp_congr (dispatch_newline keyMap E comp (v, s)), wp_ed]
    refine wp_mono (@finish_open anywhere E _ _ _ _ trivial h.plain hh) (fun done s' h1 => ?_) (fun _ _ h => h) (fun _ h => h)
    rw [wp_bind, wp_ed, wp_flush]
    exact ⟨fun _ => h1.2 hl, fun _ => trivial⟩
  refine wp_mono (wp_and h1 (key_fails E comp (v, s) (.char '\n'))) (fun done t1 h2 => ?_) (fun e t' h2 => ?_) (fun _ h => h.1)
  · obtain ⟨⟨rfl, h3⟩, -⟩ := h2
    rw [if_pos rfl, wp_bind, wp_ed, wp_get]
    have : intoText t1.2 = some (l ++ r) := h3
    rw [this]
    exact rfl
  · rcases h2.2 with h | h | h
    · exact h
    · cases h.2
    · cases h.2.1

/-- Ctrl-C, and Ctrl-D on an empty line. -/
theorem loop_stop {e : Bool} {t : Vi × Ed} {l r : Text} {rest : List KeyMap.Input} {key : Key} {err : IoErr} (h : Open e t.2 l r)
    (hh : t.2.showCompletionsHint = none)
    (hk : (key = .ctrl 'c' ∧ err = .interrupted) ∨ (key = .ctrl 'd' ∧ l ++ r = [] ∧ err = .unexpectedEof)) :
    Wp (keyMap.loop E (.key key comp :: rest)) t (fun _ _ => False) (fun e _ => e = err ∨ Fails E e) (· ≠ .op) := by
  obtain ⟨v, s⟩ := t
  obtain ⟨b, hb, hbd⟩ := text?_eq.mp h.here.1
  unfold KeyMap.loop
  rw [wp_bind]
  have h1 : Wp (keyMap.handleKey E comp key) (v, s) (fun _ _ => False) (fun _ _ => True) (· ≠ .op) := by
    rw [wp_congr (handleKey_eq keyMap E comp (t := (v, s)) hb _), wp_bind]
    have fin : ∀ e, Wp (do let _ ← ed (handleNewline E); M.throw e : KM Vi Bool) (v, s) (fun _ _ => False)
        (fun _ _ => True) (· ≠ .op) := by
      intro e
      rw [wp_bind, wp_ed]
      exact wp_mono (@finish_open anywhere E _ _ _ _ trivial h.plain hh) (fun _ _ _ => trivial) (fun _ _ h => h) (fun _ h => h)
    refine wp_mono (Q := fun _ _ => False) (R := fun _ _ => True) (P := (· ≠ .op)) ?_ (fun _ _ h => h.elim) (fun _ _ h => h)
      (fun _ h => h)
    rcases hk with ⟨rfl, -⟩ | ⟨rfl, he, -⟩
    · rw [show KeyMap.translate (.ctrl 'c') = .ctrl 'c' from by decide]
      refine (wp_congr ?_).mpr (fin .interrupted)
      unfold KeyMap.dispatch
      rw [bind_ok (m := ed M.get) (a := (v, s).2) (s' := (v, s)) rfl]
      dsimp only
      rw [if_pos rfl]
    · rw [show KeyMap.translate (.ctrl 'd') = .ctrl 'd' from by decide]
      refine (wp_congr ?_).mpr (fin .unexpectedEof)
      unfold KeyMap.dispatch
      rw [bind_ok (m := ed M.get) (a := (v, s).2) (s' := (v, s)) rfl]
      dsimp only
      rw [if_neg (by simp), if_pos ⟨rfl, by rw [he] at hbd; simp [Buffer.isEmpty, hbd]⟩]
  refine wp_mono (wp_and h1 (key_fails E comp (v, s) key)) (fun _ _ h => h.1.elim) (fun e t' h2 => ?_) (fun _ h => h.1)
  rcases h2.2 with h2 | h2 | h2
  · exact .inr h2
  · refine .inl ?_
    rcases hk with hk | hk
    · rw [h2.1, hk.2]
    · rw [hk.1] at h2; cases h2.2
  · refine .inl ?_
    rcases hk with hk | hk
    · rw [hk.1] at h2; cases h2.2.1
    · rw [h2.1, hk.2.2]

/-! ### Without undo the result is certain -/

theorem leaves_unique {C : CharClass} {d l r l' r' : Text} {line : ViLine} (hu : line.NoUndo) (h : line.Leaves C d l r)
    (h' : line.Leaves C d l' r') : l' = l ∧ r' = r := by
  cases line with
  | first ks =>
    obtain ⟨p1, g1, rfl, rfl⟩ := h
    obtain ⟨p2, q1, rfl, rfl⟩ := h'
    have := pens_same g1 ⟨rfl, rfl, rfl, rfl, rfl, rfl, rfl⟩ q1
    exact ⟨this.1, this.2.1⟩
  | commands ks cs =>
    obtain ⟨b1, b1', ⟨p1, g1, g2⟩, g3, rfl, rfl⟩ := h
    obtain ⟨b2, b2', ⟨p2, q1, q2⟩, q3, rfl, rfl⟩ := h'
    have := steps_same g3 (ends_same (pens_same g1 ⟨rfl, rfl, rfl, rfl, rfl, rfl, rfl⟩ q1) rfl g2 q2) hu q3
    unfold Board.left Board.right
    rw [this.1, this.2.1]
    exact ⟨rfl, rfl⟩
  | writing ks cs op ds ks' =>
    obtain ⟨b1, b1', p1', n1, ⟨p1, g1, g2⟩, g3, g4, g5, rfl, rfl⟩ := h
    obtain ⟨b2, b2', p2', n2, ⟨p2, q1, q2⟩, q3, q4, q5, rfl, rfl⟩ := h'
    have := steps_same g3 (ends_same (pens_same g1 ⟨rfl, rfl, rfl, rfl, rfl, rfl, rfl⟩ q1) rfl g2 q2) hu q3
    have ht : b2'.times = b1'.times := by unfold Board.times; rw [this.2.2.1]
    have hl : b2'.left = b1'.left := by unfold Board.left; rw [this.1, this.2.1]
    have hr : b2'.right = b1'.right := by unfold Board.right; rw [this.1, this.2.1]
    rw [ht, hl, hr] at q4
    obtain rfl := opens_unique g4 q4
    have hs : Pen.Same (b1'.pen op ds p2') (b2'.pen op ds p2') :=
      ⟨rfl, rfl, rfl, rfl, by simp only [Board.pen, ht], by simp only [Board.pen, ht], rfl⟩
    have := pens_same g5 hs q5
    exact ⟨this.1, this.2.1⟩

end
end Vi
end Liner
