import Verif.Proof.BenchStep
import Verif.Proof.DeskRead
/-
Keys one after the other on the bench, and what `read_line` returns.
-/

namespace Liner
namespace Props
open Editor KM Liner.Spec

section
variable (E : Env) (comp : Text → List Text) {H : History} {k k' : Emacs} {s s' : Ed} {d : Desk} {b : Bench} {key : Key} {f : Bool}

theorem Stands.at (h : Stands H k s b) : At s b.desk.left b.desk.right := by
  obtain ⟨d, o⟩ := b
  cases o with
  | none =>
    have h : OnDesk H k s d := h
    exact h.1.here.here
  | some f => exact Sought.here h

theorem Stands.suggestion (h : Stands H k s b) : sugText s = b.suggestion (texts H) := by
  obtain ⟨d, o⟩ := b
  cases o with
  | none => exact OnDesk.sug h
  | some f => exact Sought.sug h

theorem Stands.lies (h : Stands H k s b) : Lies H s b.desk := by
  obtain ⟨d, o⟩ := b
  cases o with
  | none => exact h.2
  | some f => exact (Sought.pend h).lies

theorem Stands.direction (h : Stands H k s b) :
    s.forwardSearch = decide (b.forward = some true) ∧ s.reverseSearch = decide (b.forward = some false) := by
  obtain ⟨d, o⟩ := b
  cases o with
  | none =>
    have := (OnDesk.calm h).quiet
    unfold Ed.isSearch at this
    simp only [Bool.or_eq_false_iff] at this
    simp [this]
  | some f =>
    have h1 := (Sought.pend h).rev
    have h2 := (Sought.pend h).fwd
    cases f <;> simp [h1, h2]

theorem fresh_sought (h : Sought H f k s d) : Sought H f k { s with historyFresh := false } d :=
  ⟨⟨⟨h.pend.lies.1, h.pend.lies.2, h.pend.lies.3, h.pend.lies.4, h.pend.lies.5, h.pend.lies.6, h.pend.lies.7, h.pend.lies.8,
    h.pend.lies.9, h.pend.lies.10, h.pend.lies.11, h.pend.lies.12, h.pend.lies.13⟩, h.pend.clean, h.pend.rev, h.pend.fwd, h.pend.ne,
    h.pend.show', h.pend.calm⟩, h.here, h.arg, h.bound, h.sug⟩

theorem cleared_held {p : Sheet} (h : Held H k s p) :
    Held H k { s with reverseSearch := false, forwardSearch := false, historySubsetLoc := none, historySubsetIndex := [] } p := by
  have hq := h.here.quiet
  refine ⟨⟨rfl, h.here.ne, trivial, h.here.here⟩, h.clean, h.loc, h.show', h.hist, ?_, h.log, h.arg, h.bound⟩
  refine Eq.trans ?_ h.sug
  unfold sugOf
  rw [hq]
  rfl

theorem beside_cleared (s : Ed) : Beside false true s
    { s with reverseSearch := false, forwardSearch := false, historySubsetLoc := none, historySubsetIndex := [] } :=
  ⟨rfl, rfl, rfl, rfl, fun _ => rfl, fun _ => rfl, by simp⟩

/-- Enter during a search. -/
theorem newline_sought (h : Sought H f k s d) (hh : s.showCompletionsHint = none) : Wp (handleNewline E) s
    (fun done s' => ((d.accept (texts H)).left.getLast? = some '\\' → done = false ∧
        OnDesk H k s' ((d.accept (texts H)).write true true
          ((d.accept (texts H)).sheet.put ((d.accept (texts H)).left ++ ['\n']) (d.accept (texts H)).right))) ∧
      ((d.accept (texts H)).left.getLast? ≠ some '\\' → done = true ∧ text? s' = some (d.accept (texts H)).text))
    (fun _ _ => True) (· ≠ .op) := by
  have h0 := fresh_sought h
  unfold handleNewline acceptIfSearch
  rw [wp_bind, wp_modify, wp_bind, wp_bind, wp_get, if_pos h0.pend.search]
  refine wp_mono (wp_and (accept_sought E h0) (dry_accept E _)) (fun _ s1 h1 => ?_) (fun _ _ h => h.1) (fun _ h => h.1)
  obtain ⟨h1, hh1⟩ := h1
  unfold clearSearch
  rw [wp_bind, wp_modify]
  generalize d.accept (texts H) = e at h1 ⊢
  have h2 := cleared_held h1.1
  have h3 := beside_cleared s1
  refine wp_mono (finish_held E h2 (hh1.trans hh)) (fun done s' h4 => ⟨fun hl => ?_, fun hl => h4.2 hl⟩) (fun _ _ h => h) (fun _ h => h)
  obtain ⟨rfl, h5, h6⟩ := h4.1 hl
  exact ⟨rfl, write_desk h1 h5 (h3.trans h6) (fun _ => rfl) (by simp)⟩

/-- What Enter leads to. -/
def Entered (H : History) (k : Emacs) (d : Desk) (done : Bool) (s : Ed) : Prop :=
  (d.left.getLast? = some '\\' → done = false ∧ OnDesk H k s (d.write true true (d.sheet.put (d.left ++ ['\n']) d.right))) ∧
  (d.left.getLast? ≠ some '\\' → done = true ∧ text? s = some d.text)

theorem newline_bench (h : Stands H k s b) (hh : s.showCompletionsHint = none) : Wp (handleNewline E) s
    (fun done s' => Entered H k (b.enter (texts H)) done s') (fun _ _ => True) (· ≠ .op) := by
  obtain ⟨d, o⟩ := b
  cases o with
  | some f => exact newline_sought E h hh
  | none =>
    have h : OnDesk H k s d := h
    refine wp_mono (newline_held E h.1 hh) (fun done s' h1 => ⟨fun hl => ?_, fun hl => h1.2 hl⟩)
      (fun _ _ h => h) (fun _ h => h)
    obtain ⟨h2, h3, h4⟩ := h1.1 hl
    exact ⟨h2, write_desk h h3 h4 (fun _ => rfl) (by simp)⟩

/-- Enter while a list is shown. -/
theorem newline_listed (h : Stands H k s b) (hh : s.showCompletionsHint ≠ none) : Wp (handleNewline E) s
    (fun done s' => done = false ∧ s'.showCompletionsHint = none ∧
      OnDesk H k s' ((b.enter (texts H)).write false true (b.enter (texts H)).sheet)) (fun _ _ => True) (· ≠ .op) := by
  obtain ⟨d, o⟩ := b
  cases o with
  | none =>
    have h : OnDesk H k s d := h
    rw [newline_run E h.1.here.quiet]
    unfold Wp
    rw [finish_listed E (s := Editor.quiet s) hh]
    refine ⟨rfl, rfl, ?_⟩
    exact (write_desk h h.1.quiet (beside_quiet s) (fun _ => rfl) (fun _ => rfl)).listed none _
  | some f =>
    unfold handleNewline acceptIfSearch
    have h0 := (fresh_sought h)
    rw [wp_bind, wp_modify, wp_bind, wp_bind, wp_get, if_pos h0.pend.search]
    refine wp_mono (wp_and (accept_sought E h0) (dry_accept E _)) (fun _ s1 h1 => ?_) (fun _ _ h => h.1) (fun _ h => h.1)
    obtain ⟨h1, hh1⟩ := h1
    unfold clearSearch
    rw [wp_bind, wp_modify]
    have h1 : OnDesk H k s1 (d.accept (texts H)) := h1
    unfold Wp
    rw [finish_listed E (by rw [show _ = s.showCompletionsHint from hh1]; exact hh)]
    refine ⟨rfl, rfl, ?_⟩
    exact (write_desk h1 (cleared_held h1.1) (beside_cleared s1) (fun _ => rfl) (fun _ => rfl)).listed none _

/-- The key Enter. -/
theorem enter_bench (h : Stands H k s b) (hh : s.showCompletionsHint = none) : Wp (Emacs.keyMap.handleKey E comp (.char '\n')) (k, s)
    (fun done t' => Entered H t'.1 (b.enter (texts H)) done t'.2) (fun _ _ => True) (· ≠ .op) := by
  obtain ⟨b0, hb, hbd⟩ := text?_eq.mp h.at.1
  rw [wp_congr (handleKey_eq Emacs.keyMap E comp (t := (k, s)) hb _), wp_bind]
  have : KeyMap.translate (.char '\n') = .char '\n' := by decide
  rw [this, wp_congr (dispatch_newline Emacs.keyMap E comp (k, s)), wp_ed]
  refine wp_mono (newline_bench E h hh) (fun done s' h1 => ?_) (fun _ _ h => h) (fun _ h => h)
  rw [wp_bind, wp_ed, wp_flush]
  refine ⟨fun _ => ⟨fun hl => ?_, fun hl => ?_⟩, fun _ => trivial⟩
  · obtain ⟨rfl, h2⟩ := h1.1 hl
    refine ⟨rfl, ?_⟩
    exact h2.listed s'.showCompletionsHint (s'.tick + 1)
  · exact h1.2 hl

/-- Enter does not panic except in the redraw. -/
theorem newline_safe (h : Stands H k s b) : Wp (handleNewline E) s (fun _ _ => True) (fun _ _ => True) (· ≠ .op) := by
  by_cases hh : s.showCompletionsHint = none
  · exact wp_mono (newline_bench E h hh) (fun _ _ _ => trivial) (fun _ _ h => h) (fun _ h => h)
  · exact wp_mono (newline_listed E h hh) (fun _ _ _ => trivial) (fun _ _ h => h) (fun _ h => h)

/-- Ctrl-C, and Ctrl-D on an empty line. -/
theorem stop_bench (h : Stands H k s b) (hk : key = .ctrl 'c' ∨ (key = .ctrl 'd' ∧ b.desk.text = [])) :
    Wp (Emacs.keyMap.handleKey E comp key) (k, s) (fun _ _ => False) (fun _ _ => True) (· ≠ .op) := by
  obtain ⟨b0, hb, hbd⟩ := text?_eq.mp h.at.1
  rw [wp_congr (handleKey_eq Emacs.keyMap E comp (t := (k, s)) hb _), wp_bind]
  have fin : ∀ e, Wp (do let _ ← KM.ed (handleNewline E); M.throw e : KM Emacs Bool) (k, s) (fun _ _ => False)
      (fun _ _ => True) (· ≠ .op) := by
    intro e
    rw [wp_bind, wp_ed]
    exact newline_safe E h
  rcases hk with rfl | ⟨rfl, he⟩
  · rw [show KeyMap.translate (.ctrl 'c') = .ctrl 'c' from by decide]
    refine wp_mono (Q := fun _ _ => False) (R := fun _ _ => True) (P := (· ≠ .op)) ?_ (fun _ _ h => h.elim) (fun _ _ h => h)
      (fun _ h => h)
    refine (wp_congr ?_).mpr (fin .interrupted)
    unfold KeyMap.dispatch
    rw [bind_ok (m := ed M.get) (a := (k, s).2) (s' := (k, s)) rfl]
    dsimp only
    rw [if_pos rfl]
  · rw [show KeyMap.translate (.ctrl 'd') = .ctrl 'd' from by decide]
    refine wp_mono (Q := fun _ _ => False) (R := fun _ _ => True) (P := (· ≠ .op)) ?_ (fun _ _ h => h.elim) (fun _ _ h => h)
      (fun _ h => h)
    refine (wp_congr ?_).mpr (fin .unexpectedEof)
    unfold KeyMap.dispatch
    rw [bind_ok (m := ed M.get) (a := (k, s).2) (s' := (k, s)) rfl]
    dsimp only
    rw [if_neg (by simp), if_pos ⟨rfl, by rw [show b.desk.left ++ b.desk.right = [] from he] at hbd; simp [Buffer.isEmpty, hbd]⟩]

/-- Ctrl-D is never pressed on an empty line. -/
def NeverBare (entries : List Text) (keys : List Key) (b : Bench) : Prop :=
  ∀ a c, keys = a ++ .ctrl 'd' :: c → ∀ e, Bench.Run entries a b e → e.desk.text ≠ []

theorem neverBare_next {entries : List Text} {keys : List Key} {m : Bench} (h : NeverBare entries (key :: keys) b)
    (hm : b.Next entries key m) : NeverBare entries keys m := by
  intro a c hac q hq
  exact h (key :: a) c (by rw [hac]; rfl) q ⟨m, hm, hq⟩

theorem press_bench (hw : E.words = getBufferWords) (hH : H.share = false) : ∀ (keys : List (Key × (Text → List Text))),
    (∀ x ∈ keys, Bench.leaves x.1 = false) → ∀ (k : Emacs) (s : Ed) (b : Bench), Stands H k s b →
    Wp (press Emacs.keyMap E keys) (k, s)
      (fun _ t' => ∃ e, Bench.Run (texts H) (keys.map (·.1)) b e ∧ Stands H t'.1 t'.2 e)
      (fun e _ => NeverBare (texts H) (keys.map (·.1)) b → e = .io ∧ ¬ Works E)
      (fun w => NeverBare (texts H) (keys.map (·.1)) b → w ≠ .op)
  | [], _, k, s, b, h => ⟨b, rfl, h⟩
  | (key, comp) :: keys, hk, k, s, b, h => by
    unfold press
    rw [wp_bind]
    have ht : text? (k, s).2 = some b.desk.text := h.at.1
    by_cases hd : key = .ctrl 'd' ∧ b.desk.text = []
    · have hne : ¬ NeverBare (texts H) (((key, comp) :: keys).map (·.1)) b := by
        intro hne
        exact hne [] (keys.map (·.1)) (by simp [hd.1]) b rfl hd.2
      refine wp_mono (stop_bench E comp h (.inr hd)) (fun _ _ h => h.elim) (fun _ _ _ h => absurd h hne) (fun _ _ h => absurd h hne)
    · refine wp_mono (wp_and (bench_step E comp hw hH h (hk _ (List.mem_cons_self ..)) hd) (key_errs E comp (k, s) key))
        (fun _ t1 h3 => ?_) (fun _ _ h3 _ => ?_) (fun _ h _ => h.1)
      · obtain ⟨⟨-, m, h4, h5⟩, -⟩ := h3
        refine wp_mono (press_bench hw hH keys (fun y hy => hk y (List.mem_cons_of_mem _ hy)) t1.1 t1.2 m h5) (fun _ t2 h6 => ?_)
          (fun _ _ h hne => h (neverBare_next hne h4)) (fun _ h hne => h (neverBare_next hne h4))
        obtain ⟨q, h7, h8⟩ := h6
        exact ⟨q, ⟨m, h4, h7⟩, h8⟩
      · rcases h3.2 with h4 | ⟨-, rfl⟩ | ⟨-, h4, h5⟩
        · exact h4
        · have := hk _ (List.mem_cons_self ..)
          cases this
        · rw [ht] at h5; exact absurd ⟨h4, Option.some.inj h5⟩ hd

theorem loop_bench (hw : E.words = getBufferWords) (hH : H.share = false) : ∀ (input : List KeyMap.Input),
    some (.char '\t') ∉ input.map Sheet.pressed → ∀ (k : Emacs) (s : Ed) (b : Bench), Stands H k s b → s.showCompletionsHint = none →
    Wp (Emacs.keyMap.loop E input) (k, s)
      (fun txt _ => Bench.Reads (texts H) (input.map Sheet.pressed) b (.line txt))
      (fun e _ => Bench.Reads (texts H) (input.map Sheet.pressed) b (.stop e) ∨ (e = .io ∧ ¬ Works E)) (· ≠ .op)
  | [], _, k, s, b, h, _ => by
    unfold KeyMap.loop
    rw [wp_bind, wp_ed, wp_get]
    have : intoText s = some b.desk.text := h.at.1
    rw [this]
    exact rfl
  | .ioErr :: _, _, k, s, b, h, _ => .inl rfl
  | .key key comp :: rest, hk, k, s, b, h, hh => by
    have hk' : key ≠ .char '\t' := by rintro rfl; exact hk (List.mem_cons_self ..)
    have ih := loop_bench hw hH rest (fun hy => hk (List.mem_cons_of_mem _ hy))
    have h2 := key_after E comp (k, s) hk' hh
    have ht : text? (k, s).2 = some b.desk.text := h.at.1
    have hr : ∀ o, Bench.Reads (texts H) ((KeyMap.Input.key key comp :: rest).map Sheet.pressed) b o ↔
      if key = .ctrl 'c' then o = .stop .interrupted
      else if key = .ctrl 'd' ∧ b.desk.text = [] then o = .stop .unexpectedEof
      else if key = .char '\n' then
        let d := b.enter (texts H)
        if d.left.getLast? = some '\\' then Bench.Reads (texts H) (rest.map Sheet.pressed)
          ⟨d.write true true (d.sheet.put (d.left ++ ['\n']) d.right), none⟩ o
        else o = .line d.text
      else ∃ m, b.Next (texts H) key m ∧ Bench.Reads (texts H) (rest.map Sheet.pressed) m o := fun o => Iff.rfl
    simp only [hr]
    clear hr
    unfold KeyMap.loop
    rw [wp_bind]
    have err : ∀ e : IoErr, ((e = .io ∧ ¬ Works E) ∨ (e = .interrupted ∧ key = .ctrl 'c') ∨
        (e = .unexpectedEof ∧ key = .ctrl 'd' ∧ text? (k, s).2 = some [])) → key ≠ .ctrl 'c' →
        ¬ (key = .ctrl 'd' ∧ b.desk.text = []) → e = .io ∧ ¬ Works E := by
      rintro e (h | ⟨-, h⟩ | ⟨-, h, h'⟩) h3 h4
      · exact h
      · exact absurd h h3
      · rw [ht] at h'; exact absurd ⟨h, Option.some.inj h'⟩ h4
    by_cases hc : key = .ctrl 'c'
    · simp only [if_pos hc]
      refine wp_mono (wp_and (stop_bench E comp h (.inl hc)) h2) (fun _ _ h => h.1.elim) (fun e _ h3 => ?_) (fun _ h => h.1)
      rcases h3.2 with h4 | ⟨rfl, -⟩ | ⟨-, h4, -⟩
      · exact .inr h4
      · exact .inl rfl
      · rw [hc] at h4; cases h4
    simp only [if_neg hc]
    by_cases hd : key = .ctrl 'd' ∧ b.desk.text = []
    · simp only [if_pos hd]
      refine wp_mono (wp_and (stop_bench E comp h (.inr hd)) h2) (fun _ _ h => h.1.elim) (fun e _ h3 => ?_) (fun _ h => h.1)
      rcases h3.2 with h4 | ⟨-, h4⟩ | ⟨rfl, -⟩
      · exact .inr h4
      · exact absurd h4 hc
      · exact .inl rfl
    simp only [if_neg hd]
    by_cases hn : key = .char '\n'
    · subst hn
      simp only [if_pos]
      refine wp_mono (wp_and (enter_bench E comp h hh) h2) (fun done t1 h3 => ?_) (fun e _ h3 => .inr (err e h3.2 hc hd))
        (fun _ h => h.1)
      by_cases hl : (b.enter (texts H)).left.getLast? = some '\\'
      · simp only [if_pos hl]
        obtain ⟨rfl, h4⟩ := h3.1.1 hl
        exact ih t1.1 t1.2 _ h4 h3.2
      · simp only [if_neg hl]
        obtain ⟨rfl, h4⟩ := h3.1.2 hl
        rw [if_pos rfl, wp_bind, wp_ed, wp_get]
        have : intoText t1.2 = some (b.enter (texts H)).text := h4
        rw [this]
        exact rfl
    simp only [if_neg hn]
    have hlv : Bench.leaves key = false := by
      cases key with
      | char c =>
        simp only [ne_eq, Key.char.injEq] at hk' hn
        simp [Bench.leaves, hk', hn]
      | ctrl c =>
        simp only [Key.ctrl.injEq] at hc
        simp [Bench.leaves, hc]
      | _ => rfl
    refine wp_mono (wp_and (bench_step E comp hw hH h hlv hd) h2) (fun done t1 h3 => ?_) (fun e _ h3 => .inr (err e h3.2 hc hd))
        (fun _ h => h.1)
    obtain ⟨⟨rfl, m, h4, h5⟩, h6⟩ := h3
    rw [if_neg (by simp)]
    refine wp_mono (ih t1.1 t1.2 m h5 h6) (fun _ _ h => ⟨m, h4, h⟩) (fun _ _ h => ?_) (fun _ h => h)
    exact h.imp (fun h => ⟨m, h4, h⟩) id

theorem session_bench (hw : E.words = getBufferWords) (pr pr' : Prompt) (H : History) (hH : H.share = false) (fs : FS) (t : Text)
    (keys : List (Key × (Text → List Text))) (hk : ∀ x ∈ keys, Bench.leaves x.1 = false) :
    Wp (session Emacs.keyMap E pr keys) ({}, initial pr' H fs (.ofText t))
      (fun _ t' => ∃ e, Bench.Run (texts H) (keys.map (·.1)) ⟨.fresh t, none⟩ e ∧ Stands H t'.1 t'.2 e)
      (fun _ _ => NeverBare (texts H) (keys.map (·.1)) ⟨.fresh t, none⟩ → ¬ Works E)
      (fun w => NeverBare (texts H) (keys.map (·.1)) ⟨.fresh t, none⟩ → w = .op → E.ttyWidth = some 0) := by
  unfold session
  rw [wp_bind, wp_ed]
  refine wp_mono (start_desk E pr pr' H fs t) (fun _ s1 h1 => ?_) (fun _ _ h _ => h.2) (fun _ h _ => h)
  show Wp (pure () >>= fun _ => press Emacs.keyMap E keys) _ _ _ _
  rw [wp_bind, wp_pure]
  exact wp_mono (press_bench E hw hH keys hk _ s1 ⟨.fresh t, none⟩ h1) (fun _ _ h => h) (fun _ _ h hne => (h hne).2)
    (fun _ h hne hw => absurd hw (h hne))

theorem read_bench (hw : E.words = getBufferWords) (pr pr' : Prompt) (H : History) (hH : H.share = false) (fs : FS) (t : Text)
    (input : List KeyMap.Input) (hk : some (.char '\t') ∉ input.map Sheet.pressed) :
    Wp (Emacs.keyMap.readLine E pr input) ({}, initial pr' H fs (.ofText t))
      (fun txt _ => Bench.Reads (texts H) (input.map Sheet.pressed) ⟨.fresh t, none⟩ (.line txt))
      (fun e _ => Bench.Reads (texts H) (input.map Sheet.pressed) ⟨.fresh t, none⟩ (.stop e) ∨ (e = .io ∧ ¬ Works E))
      (fun w => w = .op → E.ttyWidth = some 0) := by
  unfold KeyMap.readLine KeyMap.handleKeys
  rw [wp_bind, wp_ed]
  refine wp_mono (wp_and (start_desk E pr pr' H fs t) (dry_start E pr _)) (fun _ s1 h1 => ?_) (fun _ _ h => .inr h.1) (fun _ h => h.1)
  show Wp (pure () >>= fun _ => Emacs.keyMap.loop E input) _ _ _ _
  rw [wp_bind, wp_pure]
  exact wp_mono (loop_bench E hw hH input hk _ s1 ⟨.fresh t, none⟩ h1.1 h1.2) (fun _ _ h => h) (fun _ _ h => h) (fun _ h hw => absurd hw h)

end
end Props
end Liner
