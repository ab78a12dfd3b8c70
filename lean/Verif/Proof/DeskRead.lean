import Verif.Proof.Desk
/-
Keys one after the other on the desk, and what `read_line` returns.
-/

namespace Liner
namespace Props
open Editor KM Liner.Spec

section
variable (E : Env) (comp : Text → List Text) {H : History} {k k' : Emacs} {s s' : Ed} {d : Desk} {key : Key}

/-- Ctrl-D is never pressed on an empty line. -/
def NeverEmpty (entries : List Text) (keys : List Key) (d : Desk) : Prop :=
  ∀ a c, keys = a ++ .ctrl 'd' :: c → ∀ e, Desk.Run entries a d e → e.text ≠ []

theorem neverEmpty_next {entries : List Text} {keys : List Key} {m : Desk} (h : NeverEmpty entries (key :: keys) d)
    (hm : d.Next entries key m) : NeverEmpty entries keys m := by
  intro a c hac q hq
  exact h (key :: a) c (by rw [hac]; rfl) q ⟨m, hm, hq⟩

theorem press_desk (hw : E.words = getBufferWords) (hH : H.share = false) : ∀ (keys : List (Key × (Text → List Text))),
    (∀ x ∈ keys, Desk.leaves x.1 = false) → ∀ (k : Emacs) (s : Ed) (d : Desk), OnDesk H k s d →
    Wp (press Emacs.keyMap E keys) (k, s)
      (fun _ t' => ∃ e, Desk.Run (texts H) (keys.map (·.1)) d e ∧ OnDesk H t'.1 t'.2 e)
      (fun e _ => NeverEmpty (texts H) (keys.map (·.1)) d → e = .io ∧ ¬ Works E)
      (fun w => NeverEmpty (texts H) (keys.map (·.1)) d → w ≠ .op)
  | [], _, k, s, d, h => ⟨d, rfl, h⟩
  | (key, comp) :: keys, hk, k, s, d, h => by
    unfold press
    rw [wp_bind]
    have ht : text? (k, s).2 = some d.text := h.1.here.here.1
    by_cases hd : key = .ctrl 'd' ∧ d.text = []
    · have hne : ¬ NeverEmpty (texts H) (((key, comp) :: keys).map (·.1)) d := by
        intro hne
        exact hne [] (keys.map (·.1)) (by simp [hd.1]) d rfl hd.2
      refine wp_mono (stop_held E comp h.1 (.inr hd)) (fun _ _ h => h.elim) (fun _ _ _ h => absurd h hne) (fun _ _ h => absurd h hne)
    · refine wp_mono (wp_and (desk_step E comp hw hH h (hk _ (List.mem_cons_self ..)) hd) (key_errs E comp (k, s) key))
        (fun _ t1 h3 => ?_) (fun _ _ h3 _ => ?_) (fun _ h _ => h.1)
      · obtain ⟨⟨-, m, h4, h5⟩, -⟩ := h3
        refine wp_mono (press_desk hw hH keys (fun y hy => hk y (List.mem_cons_of_mem _ hy)) t1.1 t1.2 m h5) (fun _ t2 h6 => ?_)
          (fun _ _ h hne => h (neverEmpty_next hne h4)) (fun _ h hne => h (neverEmpty_next hne h4))
        obtain ⟨q, h7, h8⟩ := h6
        exact ⟨q, ⟨m, h4, h7⟩, h8⟩
      · rcases h3.2 with h4 | ⟨-, rfl⟩ | ⟨-, h4, h5⟩
        · exact h4
        · have := hk _ (List.mem_cons_self ..)
          cases this
        · rw [ht] at h5; exact absurd ⟨h4, Option.some.inj h5⟩ hd

theorem loop_desk (hw : E.words = getBufferWords) (hH : H.share = false) : ∀ (input : List KeyMap.Input),
    (∀ key, some key ∈ input.map Sheet.pressed → Desk.leaves key = true → key = .char '\n' ∨ key = .ctrl 'c') →
    ∀ (k : Emacs) (s : Ed) (d : Desk), OnDesk H k s d → s.showCompletionsHint = none →
    Wp (Emacs.keyMap.loop E input) (k, s)
      (fun txt _ => Desk.Reads (texts H) (input.map Sheet.pressed) d (.line txt))
      (fun e _ => Desk.Reads (texts H) (input.map Sheet.pressed) d (.stop e) ∨ (e = .io ∧ ¬ Works E)) (· ≠ .op)
  | [], _, k, s, d, h, _ => by
    unfold KeyMap.loop
    rw [wp_bind, wp_ed, wp_get]
    have : intoText s = some d.text := h.1.here.here.1
    rw [this]
    exact rfl
  | .ioErr :: _, _, k, s, d, h, _ => .inl rfl
  | .key key comp :: rest, hk, k, s, d, h, hh => by
    have hk' := hk key (by simp [Sheet.pressed])
    have ih := loop_desk hw hH rest (fun y hy => hk y (List.mem_cons_of_mem _ hy))
    have h2 := key_after E comp (k, s) (key := key) (by rintro rfl; rcases hk' rfl with h | h <;> cases h) hh
    have ht : text? (k, s).2 = some d.text := h.1.here.here.1
    have hr : ∀ o, Desk.Reads (texts H) ((KeyMap.Input.key key comp :: rest).map Sheet.pressed) d o ↔
      if key = .ctrl 'c' then o = .stop .interrupted
      else if key = .ctrl 'd' ∧ d.text = [] then o = .stop .unexpectedEof
      else if key = .char '\n' then
        if d.left.getLast? = some '\\' then Desk.Reads (texts H) (rest.map Sheet.pressed)
          (d.write true true (d.sheet.put (d.left ++ ['\n']) d.right)) o
        else o = .line d.text
      else ∃ m, d.Next (texts H) key m ∧ Desk.Reads (texts H) (rest.map Sheet.pressed) m o := fun o => Iff.rfl
    simp only [hr]
    clear hr
    unfold KeyMap.loop
    rw [wp_bind]
    have err : ∀ e : IoErr, ((e = .io ∧ ¬ Works E) ∨ (e = .interrupted ∧ key = .ctrl 'c') ∨
        (e = .unexpectedEof ∧ key = .ctrl 'd' ∧ text? (k, s).2 = some [])) → key ≠ .ctrl 'c' →
        ¬ (key = .ctrl 'd' ∧ d.text = []) → e = .io ∧ ¬ Works E := by
      rintro e (h | ⟨-, h⟩ | ⟨-, h, h'⟩) h3 h4
      · exact h
      · exact absurd h h3
      · rw [ht] at h'; exact absurd ⟨h, Option.some.inj h'⟩ h4
    by_cases hc : key = .ctrl 'c'
    · simp only [if_pos hc]
      refine wp_mono (wp_and (stop_held E comp h.1 (.inl hc)) h2) (fun _ _ h => h.1.elim) (fun e _ h3 => ?_) (fun _ h => h.1)
      rcases h3.2 with h4 | ⟨rfl, -⟩ | ⟨-, h4, -⟩
      · exact .inr h4
      · exact .inl rfl
      · rw [hc] at h4; cases h4
    simp only [if_neg hc]
    by_cases hd : key = .ctrl 'd' ∧ d.text = []
    · simp only [if_pos hd]
      refine wp_mono (wp_and (stop_held E comp h.1 (.inr hd)) h2) (fun _ _ h => h.1.elim) (fun e _ h3 => ?_) (fun _ h => h.1)
      rcases h3.2 with h4 | ⟨-, h4⟩ | ⟨rfl, -⟩
      · exact .inr h4
      · exact absurd h4 hc
      · exact .inl rfl
    simp only [if_neg hd]
    by_cases hn : key = .char '\n'
    · subst hn
      simp only [if_pos]
      refine wp_mono (wp_and (enter_held E comp h.1 hh) h2) (fun done t1 h3 => ?_) (fun e _ h3 => .inr (err e h3.2 hc hd))
        (fun _ h => h.1)
      by_cases hl : d.left.getLast? = some '\\'
      · simp only [if_pos hl]
        obtain ⟨rfl, h4, h5⟩ := h3.1.1 hl
        exact ih t1.1 t1.2 _ (write_desk h h4 h5 (fun _ => rfl) (by simp)) h3.2
      · simp only [if_neg hl]
        obtain ⟨rfl, h4⟩ := h3.1.2 hl
        rw [if_pos rfl, wp_bind, wp_ed, wp_get]
        have : intoText t1.2 = some d.text := h4
        rw [this]
        exact rfl
    simp only [if_neg hn]
    have hlv : Desk.leaves key = false := by
      cases hlv : Desk.leaves key with
      | false => rfl
      | true => rcases hk' hlv with h | h <;> contradiction
    refine wp_mono (wp_and (desk_step E comp hw hH h hlv hd) h2) (fun done t1 h3 => ?_) (fun e _ h3 => .inr (err e h3.2 hc hd))
        (fun _ h => h.1)
    obtain ⟨⟨rfl, m, h4, h5⟩, h6⟩ := h3
    rw [if_neg (by simp)]
    refine wp_mono (ih t1.1 t1.2 m h5 h6) (fun _ _ h => ⟨m, h4, h⟩) (fun _ _ h => ?_) (fun _ h => h)
    exact h.imp (fun h => ⟨m, h4, h⟩) id

theorem bs_write (toks : List Tok) : Bs false false (writeTerm E toks) := by
  intro s hs
  unfold Wp writeTerm
  by_cases hw : E.writeOk s.tick = true
  · simp only [hw, if_true]
    exact ⟨hs, rfl, rfl, rfl, fun _ => rfl, fun _ => rfl, by simp⟩
  · simp [hw]

theorem bs_start (p : Prompt) : Bs false false (start E p) := by
  have h1 := bs_write E
  have h2 := bs_display E
  have h3 := bs_end E
  have h4 : ∀ n m, Bs false false m → Bs false false (M.repeatN n m : EdM Unit) := fun n m hm => by
    induction n with
    | zero => exact bs_pure _
    | succ n ih => exact bs_first hm fun _ => ih
  unfold start
  refine bs_first (h1 _) fun _ => bs_ite bs_panic (bs_first (h4 _ _ (h1 _)) fun _ => bs_first (h1 _) fun _ => bs_first (h1 _) fun _ =>
    bs_first bs_get fun s => ?_)
  dsimp only
  exact bs_ite h2 (bs_first h3 fun _ => h2)

theorem start_desk (pr pr' : Prompt) (H : History) (fs : FS) (t : Text) :
    Wp (start E pr) (initial pr' H fs (.ofText t)) (fun _ s' => OnDesk H {} s' (.fresh t))
      (fun e _ => e = .io ∧ ¬ Works E) (fun w => w = .op → E.ttyWidth = some 0) := by
  have hn : Wp (start E pr) (initial pr' H fs (.ofText t)) (fun _ s' => Beside false false (initial pr' H fs (.ofText t)) s')
      (fun _ _ => True) (fun _ => True) := bs_start E pr _ rfl
  refine wp_mono (wp_and (start_held E pr pr' H fs t) hn) (fun _ s1 h1 => ?_) (fun _ _ h => h.1) (fun _ h => h.1)
  obtain ⟨⟨h1, h2⟩, h3⟩ := h1
  refine ⟨h1, ?_⟩
  obtain ⟨w, g1, g2, g3⟩ := h1.log
  unfold workBuf at g1
  rw [h2] at g1
  cases g1
  have hv := h1.clean h2
  have hb := h3.copy hv
  have hb : s1.histBuf = {} := hb
  refine ⟨h1.hist, h2, hv, by simpa [Desk.fresh, Sheet.text] using g2, by simpa [Desk.fresh, Sheet.text] using g3,
    by rw [hb]; rfl, by rw [hb]; exact .nil _, h3.met, h3.walk, fun _ => rfl, ?_, ?_, ?_⟩
  all_goals simp [Desk.fresh]

theorem session_desk (hw : E.words = getBufferWords) (pr pr' : Prompt) (H : History) (hH : H.share = false) (fs : FS) (t : Text)
    (keys : List (Key × (Text → List Text))) (hk : ∀ x ∈ keys, Desk.leaves x.1 = false) :
    Wp (session Emacs.keyMap E pr keys) ({}, initial pr' H fs (.ofText t))
      (fun _ t' => ∃ e, Desk.Run (texts H) (keys.map (·.1)) (.fresh t) e ∧ OnDesk H t'.1 t'.2 e)
      (fun _ _ => NeverEmpty (texts H) (keys.map (·.1)) (.fresh t) → ¬ Works E)
      (fun w => NeverEmpty (texts H) (keys.map (·.1)) (.fresh t) → w = .op → E.ttyWidth = some 0) := by
  unfold session
  rw [wp_bind, wp_ed]
  refine wp_mono (start_desk E pr pr' H fs t) (fun _ s1 h1 => ?_) (fun _ _ h _ => h.2) (fun _ h _ => h)
  show Wp (pure () >>= fun _ => press Emacs.keyMap E keys) _ _ _ _
  rw [wp_bind, wp_pure]
  exact wp_mono (press_desk E hw hH keys hk _ s1 _ h1) (fun _ _ h => h) (fun _ _ h hne => (h hne).2)
    (fun _ h hne hw => absurd hw (h hne))

theorem read_desk (hw : E.words = getBufferWords) (pr pr' : Prompt) (H : History) (hH : H.share = false) (fs : FS) (t : Text)
    (input : List KeyMap.Input)
    (hk : ∀ key, some key ∈ input.map Sheet.pressed → Desk.leaves key = true → key = .char '\n' ∨ key = .ctrl 'c') :
    Wp (Emacs.keyMap.readLine E pr input) ({}, initial pr' H fs (.ofText t))
      (fun txt _ => Desk.Reads (texts H) (input.map Sheet.pressed) (.fresh t) (.line txt))
      (fun e _ => Desk.Reads (texts H) (input.map Sheet.pressed) (.fresh t) (.stop e) ∨ (e = .io ∧ ¬ Works E))
      (fun w => w = .op → E.ttyWidth = some 0) := by
  unfold KeyMap.readLine KeyMap.handleKeys
  rw [wp_bind, wp_ed]
  refine wp_mono (wp_and (start_desk E pr pr' H fs t) (dry_start E pr _)) (fun _ s1 h1 => ?_) (fun _ _ h => .inr h.1) (fun _ h => h.1)
  show Wp (pure () >>= fun _ => Emacs.keyMap.loop E input) _ _ _ _
  rw [wp_bind, wp_pure]
  exact wp_mono (loop_desk E hw hH input hk _ s1 _ h1.1 h1.2) (fun _ _ h => h) (fun _ _ h => h) (fun _ h hw => absurd hw h)

end
end Props
end Liner
