import Verif.Proof.ViUndo
import Verif.Props.ViEdit
/-
Undo of the vi commands: C55.
-/

namespace Liner.Props
open Liner Liner.Spec Liner.Editor Liner.Wit Liner.Tests

/-- A key that leads to a state inside a command. -/
theorem cmd_key {E : Env} {b0 : Buffer} {k : Key} {comp : Text → List Text} {t t1 : Vi × Ed} (hv : Vi.VI t)
    {b : Buffer} (hb : workBuf t.2 = some b) (hk : Seen t.2 k) {d : Bool}
    (run : Vi.keyMap.handleKey E comp k t = .ok d t1) {H : List Mode → Prop} (hH : H t1.1.modeStack)
    (h : Wp (Vi.handleKeyCore E k) t (fun _ t' => H t'.1.modeStack → Vi.Cmd b0 t') Vi.T2 Vi.T1) : Vi.Cmd b0 t1 := by
  obtain ⟨c, hc, -⟩ := curBuf_of_workBuf hb
  have h1 := wp_ok (Vi.kvi_handleKey E comp k t hv) run
  have h2 := wp_ok (Vi.key_of E hk hc comp
    (Q := fun t' => H t'.1.modeStack → t'.2.isSearch = false ∧
      (∃ b es, workBuf t'.2 = some b ∧ Vi.Shape t'.1.modeStack es ∧ b.actions = es ++ b0.actions ∧ Path es b0.data b.data) ∧
      (t'.1.modeStack = [.insert] → Vi.Fresh t'.1))
    (fun t1 t2 hQ e1 e2 e3 hh => by
      rw [e1] at hh ⊢
      rw [e2, e3]
      exact hQ hh)
    (wp_mono h (fun _ t2 h2 hh => ⟨(h2 hh).quiet, (h2 hh).log, (h2 hh).fresh⟩) (fun _ _ h => h) (fun _ h => h))) run
  obtain ⟨g1, g2, g3⟩ := h2.2 hH
  exact ⟨h1, g1, g2, g3⟩

theorem follows_cmd {E : Env} {ks : List (Key × (Text → List Text))} {t t' : Vi × Ed} (hg : Follows E ks t t')
    {b0 : Buffer} (h : Vi.Cmd b0 t) : Vi.Cmd b0 t' := by
  induction hg with
  | nil => exact h
  | @cons k comp ks t t1 t' seen busy typing change run _ ih =>
    refine ih ?_
    obtain ⟨b, es, hb, -⟩ := h.log
    exact cmd_key h.vi hb seen run
      (H := fun st => t.1.mode ≠ .insert → Mode.insert ∈ t.1.modeStack → st.headD .normal ≠ .normal) change
      (Vi.core_next E 6 h busy typing)

/-- After a whole command: so many `u` more take it back together with what was before. -/
theorem cmd_undo {E : Env} {b0 : Buffer} {t' : Vi × Ed} (h : Vi.Cmd b0 t') (hm : t'.1.mode = .normal)
    (hc : t'.1.count = 0) (hne : text? t'.2 ≠ some b0.data) (n : Nat) (us : List (Key × (Text → List Text)))
    (hu : us.map Prod.fst = List.replicate (n + 1) (.char 'u')) (u : Vi × Ed)
    (hr : press Vi.keyMap E us t' = .ok () u) :
    u.1.mode = .normal ∧ ∃ y, Vi.undones n (b0.data, b0.actions) = some y ∧ text? u.2 = some y.1 := by
  have hs := h.vi.nil hm
  obtain ⟨b, es, hb, hsh, ha, hp⟩ := h.log
  rw [hs, Vi.Shape, if_neg (by simp), if_pos rfl] at hsh
  have hl : Vi.Line (b.data, es ++ b0.actions) t'.2 := ⟨h.quiet, b, hb, rfl, ha⟩
  have hd : b.data ≠ b0.data := fun e => hne (by rw [hl.cur, e])
  obtain ⟨h1, y, h2, h3⟩ := (wp_ok (Vi.u_press E (n + 1) us hu t' _ hs hc hl) hr :)
  rw [Vi.undones, Vi.undone_done hsh hp hd] at h2
  exact ⟨by rw [h1]; exact hm, y, h2, h3.cur⟩

section
variable (E : Env)
  (p p' : Prompt) (h : History) (fs : FS) (b : Buffer)
  (keys : List (Key × (Text → List Text))) (v : Vi) (s : Ed)
  (hs : session Vi.keyMap E p keys (({} : Vi), initial p' h fs b) = .ok () (v, s))
  (hm : v.mode = .normal) (hq : s.isSearch = false)
  (k : Key) (hk : Seen s k) (ha : k ∉ asideKeys) (comp : Text → List Text) (t1 : Vi × Ed) (d : Bool)
  (hr : Vi.keyMap.handleKey E comp k (v, s) = .ok d t1)
  (ks : List (Key × (Text → List Text))) (t' : Vi × Ed) (hg : Follows E ks t1 t')
  (hm' : t'.1.mode = .normal) (hc' : t'.1.count = 0)
include hs hm hq hk ha hr hg

theorem whole {b0 : Buffer} (hb : workBuf s = some b0) : Vi.Cmd b0 t' := by
  have hv : Vi.VI (v, s) := wp_ok (Vi.vi_session E p p' h fs b keys) hs
  refine follows_cmd hg (cmd_key (t := (v, s)) hv hb hk hr (H := fun _ => True) trivial ?_)
  refine wp_mono (Vi.core_first E 6 (b0 := b0) (fun h' => ha ?_) hv hq (hv.nil hm) hb) (fun _ t2 h2 _ => h2)
    (fun _ _ h => h) (fun _ h => h)
  rcases h' with ⟨c, rfl, rfl | rfl | rfl | rfl⟩ | rfl | rfl | rfl
  · simp [asideKeys]
  · simp [asideKeys]
  · simp [asideKeys]
  · simp [asideKeys]
  · simp [asideKeys]
  · simp [asideKeys]
  · exact absurd rfl hk.searchR

include hm' hc'

/-- C55: after a whole command that changed the text, one `u` brings back the text before it. -/
theorem C55_undo_partial (a : Text) (hta : text? s = some a) (hne : text? t'.2 ≠ some a)
    (us : List (Key × (Text → List Text))) (hu : us.map Prod.fst = [.char 'u']) (u : Vi × Ed)
    (hru : press Vi.keyMap E us t' = .ok () u) : u.1.mode = .normal ∧ text? u.2 = some a := by
  obtain ⟨b1, hb1, hd1⟩ := text?_eq.mp hta
  obtain ⟨b0, hb0, hd0⟩ := workBuf_of_curBuf hb1
  have hc := whole E p p' h fs b keys v s hs hm hq k hk ha comp t1 d hr ks t' hg hb0
  have he : b0.data = a := hd0.trans hd1
  obtain ⟨h1, y, h2, h3⟩ := cmd_undo hc hm' hc' (by rw [he]; exact hne) 0 us hu u hru
  cases h2
  exact ⟨h1, by rw [h3, he]⟩

/-- C55: and the commands before it can be taken back as if it had never been given: `n` more `u` do
what `n` of them would have done before the command. -/
theorem C55_again_partial (hc0 : v.count = 0) (hne : text? t'.2 ≠ text? s) (n : Nat)
    (us us' : List (Key × (Text → List Text))) (hu : us.map Prod.fst = List.replicate (n + 1) (.char 'u'))
    (hu' : us'.map Prod.fst = List.replicate n (.char 'u')) (u u' : Vi × Ed)
    (hru : press Vi.keyMap E us t' = .ok () u) (hru' : press Vi.keyMap E us' (v, s) = .ok () u') :
    text? u.2 = text? u'.2 := by
  have hv : Vi.VI (v, s) := wp_ok (Vi.vi_session E p p' h fs b keys) hs
  cases hw : workBuf s with
  | none =>
    -- there is always a line
    exfalso
    cases hcb : s.curBuf? with
    | some b1 => obtain ⟨b0, hb0, -⟩ := workBuf_of_curBuf hcb; rw [hw] at hb0; cases hb0
    | none =>
      unfold KeyMap.handleKey at hr
      have : (KM.ed curBuf : Vi.ViM Buffer) (v, s) = .panic .op := by
        simp [KM.ed, M.zoom, curBuf, hcb]
      simp only [bind, M.bind, this] at hr
      cases hr
  | some b0 =>
    have hc := whole E p p' h fs b keys v s hs hm hq k hk ha comp t1 d hr ks t' hg hw
    have hl : Vi.Line (b0.data, b0.actions) s := ⟨hq, b0, hw, rfl, rfl⟩
    obtain ⟨h1, y, h2, h3⟩ := cmd_undo hc hm' hc' (by rw [hl.cur] at hne; exact hne) n us hu u hru
    obtain ⟨g1, z, g2, g3⟩ := (wp_ok (Vi.u_press E n us' hu' (v, s) _ (hv.nil hm) hc0 hl) hru' :)
    rw [h2] at g2; cases g2
    rw [h3, g3.cur]
end


/-- C55: what is typed before the first Esc is taken back by one `u` after it. -/
theorem C55_first (E : Env) (p p' : Prompt) (h : History) (fs : FS) (b : Buffer) (t : Vi × Ed)
    (hs : session Vi.keyMap E p [] (({} : Vi), initial p' h fs b) = .ok () t)
    (ks : List (Key × (Text → List Text))) (t' : Vi × Ed) (hg : Follows E ks t t')
    (hm' : t'.1.mode = .normal) (hc' : t'.1.count = 0) (hne : text? t'.2 ≠ some b.data)
    (us : List (Key × (Text → List Text))) (hu : us.map Prod.fst = [.char 'u']) (u : Vi × Ed)
    (hru : press Vi.keyMap E us t' = .ok () u) : u.1.mode = .normal ∧ text? u.2 = some b.data := by
  have hv : Vi.VI t := wp_ok (Vi.vi_session E p p' h fs b []) hs
  have hg1 := (wp_ok (Vi.kg_session E p (({} : Vi), initial p' h fs b) rfl) hs :)
  have hvx := (wp_ok (Vi.vx_session E p (({} : Vi), initial p' h fs b)) hs :)
  obtain ⟨b', es, g1, rfl, g3, g4⟩ := hg1.log b rfl
  have hc : Vi.Cmd b t := by
    refine ⟨hv, hg1.quiet, ⟨b', _, g1, ?_, g3, g4⟩, fun _ => ?_⟩
    · rw [hvx]; exact Vi.opened_nil
    · rw [hvx]; exact ⟨rfl, .inl rfl⟩
  obtain ⟨h1, y, h2, h3⟩ := cmd_undo (follows_cmd hg hc) hm' hc' hne 0 us hu u hru
  cases h2
  exact ⟨h1, h3⟩

/-- C55: an operator `c` that is given up with Esc leaves an undo group open: the next `u` takes back two
commands at once. -/
theorem C55_change_violation :
    okAnd (vi [] ([.esc] ++ chars "xx") "abcd") (fun _ x => text? x.2 == some "ab".toList && x.1.mode == .normal)
      = true ∧
    okAnd (vi [] ([.esc] ++ chars "xxu") "abcd") (fun _ x => text? x.2 == some "abc".toList) = true ∧
    okAnd (vi [] ([.esc] ++ chars "xxc" ++ [.esc]) "abcd")
      (fun _ x => text? x.2 == some "ab".toList && x.1.mode == .normal) = true ∧
    okAnd (vi [] ([.esc] ++ chars "xxc" ++ [.esc] ++ chars "u") "abcd")
      (fun _ x => text? x.2 == some "abcd".toList) = true := by
  decide +kernel

/-! ### Cases that meet the hypotheses -/

/-- The characters but Tab and Enter, and Esc. -/
def simpleKey : Key → Bool
  | .char c => c != '\t' && c != '\n'
  | .esc => true
  | _ => false

/-- Characters and Esc, with the conditions of `Follows` checked on the way. -/
def walk (E : Env) : List Key → Vi × Ed → Option (Vi × Ed)
  | [], t => some t
  | k :: ks, t =>
    if simpleKey k && t.1.mode != .normal then
      match Vi.keyMap.handleKey E (fun _ => []) k t with
      | .ok false t1 =>
        if t.1.mode != .insert && t.1.modeStack.contains .insert && t1.1.mode == .normal then none
        else walk E ks t1
      | _ => none
    else none

theorem walk_follows {E : Env} {ks : List Key} {t t' : Vi × Ed} (h : walk E ks t = some t') :
    Follows E (ks.map plain) t t' := by
  induction ks generalizing t with
  | nil => cases h; exact .nil _
  | cons k ks ih =>
    unfold walk at h
    split at h
    · rename_i hf
      rw [Bool.and_eq_true, bne_iff_ne] at hf
      split at h
      · rename_i t1 hr
        split at h
        · cases h
        · rename_i hc
          refine .cons ?_ hf.2 ?_ ?_ hr (ih h)
          · cases k with
            | char c =>
              have h1 := hf.1
              rw [simpleKey, Bool.and_eq_true, bne_iff_ne, bne_iff_ne] at h1
              exact Vi.seen_char h1.1 h1.2
            | esc => exact Vi.seen_esc
            | _ => simp [simpleKey] at hf
          · intro _
            cases k with
            | char c => exact .inl (.inl ⟨c, rfl⟩)
            | esc => exact .inr rfl
            | _ => simp [simpleKey] at hf
          · intro h1 h2 h3
            refine hc ?_
            simp [h1, h2, h3]
      · cases h
    · cases h

/-- The keys are a whole command that changes the text: the first is given in normal mode after `before`. -/
def command (line : String) (before : List Key) (k : Key) (ks : List Key) : Bool :=
  okAnd (vi [] before line) fun _ t =>
    t.1.mode == .normal && !t.2.isSearch &&
    match Vi.keyMap.handleKey env (fun _ => []) k t with
    | .ok _ t1 =>
      (match walk env ks t1 with
      | some t' => t'.1.mode == .normal && t'.1.count == 0 && text? t'.2 != text? t.2
      | none => false)
    | _ => false

example : command "ab cd" [.esc] (.char 'x') [] = true := by decide +kernel
example : command "ab cd" ([.esc] ++ chars "0") (.char 'd') (chars "w") = true := by decide +kernel
example : command "ab cd" [.esc] (.char 'r') (chars "x") = true := by decide +kernel
example : command "ab cd" [.esc] (.char 'i') (chars "two words" ++ [.esc]) = true := by decide +kernel
example : command "ab cd" [.esc] (.char 'c') (chars "bef" ++ [.esc]) = true := by decide +kernel
example : command "ab cd" ([.esc] ++ chars "3") (.char 'a') (chars "e" ++ [.esc]) = true := by decide +kernel
example : command "ab cd" ([.esc] ++ chars "xix" ++ [.esc]) (.char 'd') (chars "1Fa") = true := by decide +kernel

/-- The keys are typed from the beginning. -/
def firstWords (line : String) (ks : List Key) : Bool :=
  okAnd (vi [] [] line) fun _ t =>
    match walk env ks t with
    | some t' => t'.1.mode == .normal && t'.1.count == 0 && text? t'.2 != some line.toList
    | none => false

example : firstWords "ab" (chars "two words" ++ [.esc]) = true := by decide +kernel
example : firstWords "" (chars "x" ++ [.esc]) = true := by decide +kernel

example : okAnd (vi [] ([.esc] ++ chars "cbef" ++ [.esc] ++ chars "u") "ab cd")
    (fun _ x => text? x.2 == some "ab cd".toList) = true := by decide +kernel
example : okAnd (vi [] ([.esc] ++ chars "3ae" ++ [.esc] ++ chars "u") "ab cd")
    (fun _ x => text? x.2 == some "ab cd".toList) = true := by decide +kernel
example : okAnd (vi [] (chars "two words" ++ [.esc] ++ chars "u") "ab")
    (fun _ x => text? x.2 == some "ab".toList) = true := by decide +kernel

end Liner.Props
