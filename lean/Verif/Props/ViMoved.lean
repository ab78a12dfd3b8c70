import Verif.Proof.ViMoved
import Verif.Props.ViUndo
/-
Undo of text typed after a movement in insert mode: C55.
-/

namespace Liner.Props
open Liner Liner.Spec Liner.Editor Liner.Wit Liner.Tests

section
variable (E : Env)
  (p p' : Prompt) (h : History) (fs : FS) (b : Buffer)
  (keys : List (Key × (Text → List Text))) (v : Vi) (s : Ed)
  (hs : session Vi.keyMap E p keys (({} : Vi), initial p' h fs b) = .ok () (v, s))
  (hm : v.mode = .insert) (hq : s.isSearch = false)
  (m : Key) (hmv : m ∈ insertMoves) (hse : Seen s m) (comp : Text → List Text) (t1 : Vi × Ed) (d : Bool)
  (hr : Vi.keyMap.handleKey E comp m (v, s) = .ok d t1)
include hs hm hq hmv hse hr

theorem moved_state : Vi.VI t1 ∧ t1.2.isSearch = false ∧ t1.1.modeStack = [.insert] ∧ t1.1.movementReset = true ∧
    t1.1.count = 0 := by
  have hv : Vi.VI (v, s) := wp_ok (Vi.vi_session E p p' h fs b keys) hs
  have hst := hv.insert hm
  obtain ⟨c, hc⟩ : ∃ c, s.curBuf? = some c := by
    cases hcb : s.curBuf? with
    | some b1 => exact ⟨b1, rfl⟩
    | none =>
      unfold KeyMap.handleKey at hr
      have : (KM.ed curBuf : Vi.ViM Buffer) (v, s) = .panic .op := by simp [KM.ed, M.zoom, curBuf, hcb]
      simp only [bind, M.bind, this] at hr
      cases hr
  have he : Vi.handleKeyCore E m (v, s) = Vi.handleKeyInsert (Vi.coreFuel E 7) E m (v, s) := Vi.core_insert E hst
  have h2 := wp_ok (Vi.key_of E hse hc comp
    (Q := fun t' => t'.1 = { v with count := 0, movementReset := true } ∧ t'.2.isSearch = false)
    (fun t1 t2 hQ e1 e2 _ => ⟨e1.trans hQ.1, e2.trans hQ.2⟩)
    ((wp_congr he).mpr (Vi.moved_out E hmv hq))) hr
  obtain ⟨-, g1, g2⟩ := h2
  exact ⟨wp_ok (Vi.kvi_handleKey E comp m (v, s) hv) hr, g2, by rw [g1]; exact hst, by rw [g1], by rw [g1]⟩

variable (k : Key) (hk : Seen t1.2 k) (hty : Typing k) (comp' : Text → List Text) (t2 : Vi × Ed) (d' : Bool)
  (hr2 : Vi.keyMap.handleKey E comp' k t1 = .ok d' t2)
  (ks : List (Key × (Text → List Text))) (t' : Vi × Ed) (hg : Follows E ks t2 t')
include hk hty hr2 hg

theorem moved_cmd {b0 : Buffer} (hb : workBuf t1.2 = some b0) : Vi.Cmd b0.endUndoGroup t' := by
  obtain ⟨g1, g2, g3, g4, g5⟩ := moved_state E p p' h fs b keys v s hs hm hq m hmv hse comp t1 d hr
  refine follows_cmd hg (cmd_key g1 hb hk hr2 (H := fun _ => True) trivial ?_)
  exact wp_mono (Vi.reset_cmd E hty g1 g2 g3 g4 g5 hb) (fun _ t2 h2 _ => h2) (fun _ _ h => h) (fun _ h => h)

variable (hm' : t'.1.mode = .normal) (hc' : t'.1.count = 0)
include hm' hc'

/-- C55: text typed after a movement in insert mode is a change of its own: after Esc one `u` brings back the text at
the movement, with what had been typed before. -/
theorem C55_moved (a : Text) (hta : text? t1.2 = some a) (hne : text? t'.2 ≠ some a)
    (us : List (Key × (Text → List Text))) (hu : us.map Prod.fst = [.char 'u']) (u : Vi × Ed)
    (hru : press Vi.keyMap E us t' = .ok () u) : u.1.mode = .normal ∧ text? u.2 = some a := by
  obtain ⟨b1, hb1, hd1⟩ := text?_eq.mp hta
  obtain ⟨b0, hb0, hd0⟩ := workBuf_of_curBuf hb1
  have hc := moved_cmd E p p' h fs b keys v s hs hm hq m hmv hse comp t1 d hr k hk hty comp' t2 d' hr2 ks t' hg hb0
  have he : b0.data = a := hd0.trans hd1
  obtain ⟨h1, y, h2, h3⟩ := cmd_undo hc hm' hc' (by show _ ≠ some b0.data; rw [he]; exact hne) 0 us hu u hru
  cases h2
  exact ⟨h1, by rw [h3, ← he]; rfl⟩

/-- C55: and `n` more `u` do what `n` of them would have done if Esc had been typed at the movement. -/
theorem C55_moved_again (hne : text? t'.2 ≠ text? t1.2) (n : Nat) (e : Text → List Text)
    (us us' : List (Key × (Text → List Text))) (hu : us.map Prod.fst = List.replicate (n + 1) (.char 'u'))
    (hu' : us'.map Prod.fst = List.replicate n (.char 'u')) (u u' : Vi × Ed)
    (hru : press Vi.keyMap E us t' = .ok () u) (hru' : press Vi.keyMap E ((.esc, e) :: us') t1 = .ok () u') :
    text? u.2 = text? u'.2 := by
  obtain ⟨g1, g2, g3, g4, g5⟩ := moved_state E p p' h fs b keys v s hs hm hq m hmv hse comp t1 d hr
  obtain ⟨c, hc⟩ : ∃ c, t1.2.curBuf? = some c := by
    cases hcb : t1.2.curBuf? with
    | some b1 => exact ⟨b1, rfl⟩
    | none =>
      unfold KeyMap.handleKey at hr2
      have : (KM.ed curBuf : Vi.ViM Buffer) t1 = .panic .op := by simp [KM.ed, M.zoom, curBuf, hcb]
      simp only [bind, M.bind, this] at hr2
      cases hr2
  obtain ⟨b0, hb0, hd0⟩ := workBuf_of_curBuf hc
  have hcm := moved_cmd E p p' h fs b keys v s hs hm hq m hmv hse comp t1 d hr k hk hty comp' t2 d' hr2 ks t' hg hb0
  have ht1 : text? t1.2 = some b0.data := by rw [text?, hc, hd0]; rfl
  obtain ⟨h1, y, h2, h3⟩ := cmd_undo hcm hm' hc' (by rw [ht1] at hne; exact hne) n us hu u hru
  have key : Wp (press Vi.keyMap E ((.esc, e) :: us')) t1 (fun _ t' => ∃ y, Vi.undones n (b0.data, .endGroup :: b0.actions) = some y ∧
      Vi.Line y t'.2) Vi.T2 Vi.T1 := by
    unfold press
    rw [wp_bind]
    refine wp_mono (Vi.key_of E Vi.seen_esc hc e
      (Q := fun t' => t'.1.modeStack = [] ∧ t'.1.count = 0 ∧ Vi.Line (b0.data, .endGroup :: b0.actions) t'.2) ?_
      (Vi.esc_line E g2 g3 g5 hb0)) (fun _ t3 h' => ?_) (fun _ _ h => h) (fun _ h => h)
    · rintro x1 x2 ⟨q1, q2, q3, q4⟩ q5 q6 q7
      exact ⟨by rw [q5]; exact q1, by rw [q5]; exact q2, q6.trans q3, by rw [q7]; exact q4⟩
    · obtain ⟨-, q1, q2, q3⟩ := h'
      exact wp_mono (Vi.u_press E n us' hu' t3 _ q1 q2 q3) (fun _ t4 h4 => h4.2) (fun _ _ h => h) (fun _ h => h)
  obtain ⟨z, q1, q2⟩ := (wp_ok key hru' :)
  have : Vi.undones n (b0.endUndoGroup.data, b0.endUndoGroup.actions) = some z := q1
  rw [this] at h2
  cases h2
  rw [h3, q2.cur]
end

/-! ### Cases that meet the hypotheses -/

/-- After the keys `before`, in insert mode, a movement, typed keys and Esc. -/
def movedCase (entries : List String) (line : String) (before : List Key) (m : Key) (k : Key) (ks : List Key) : Bool :=
  okAnd (vi entries before line) fun _ t =>
    t.1.mode == .insert && !t.2.isSearch && t.2.autosuggestion.isNone &&
    match Vi.keyMap.handleKey env (fun _ => []) m t with
    | .ok _ t1 =>
      (match Vi.keyMap.handleKey env (fun _ => []) k t1 with
      | .ok _ t2 =>
        (match walk env ks t2 with
        | some t' => t'.1.mode == .normal && t'.1.count == 0 && text? t'.2 != text? t1.2
        | none => false)
      | _ => false)
    | _ => false

example : movedCase [] "" (chars "abc") .left (.char 'x') (chars "yz" ++ [.esc]) = true := by decide +kernel
example : movedCase ["old"] "" (chars "abc" ++ [.left]) .home .delete (chars "yz" ++ [.esc]) = true := by decide +kernel
example : movedCase ["old"] "" [] .up (.char 'x') [.esc] = true := by decide +kernel
example : okAnd (vi [] (chars "abc" ++ [.left] ++ chars "xyz" ++ [.esc] ++ chars "u"))
    (fun _ x => text? x.2 == some "abc".toList) = true := by decide +kernel
example : okAnd (vi [] (chars "abc" ++ [.left] ++ chars "xyz" ++ [.esc] ++ chars "uu"))
    (fun _ x => text? x.2 == some []) = true := by decide +kernel

end Liner.Props
