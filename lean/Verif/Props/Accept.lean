import Verif.Props.Editor
import Verif.Proof.Keys
/-
C38: the keys that take the suggestion.
-/

namespace Liner.Props
open Liner.Spec Liner.Editor M KM Liner.Wit Liner.Tests

/-- The cursor is as far to the right as it may be: after the last character of the text, or, where it
may not be there, on that character. -/
def Furthest (noEol : Bool) (text : Text) (cursor : Nat) : Prop :=
  if noEol then cursor + 1 = text.length else cursor = text.length

/-- The suggestion `x` was taken by the key. -/
def Took {κ : Type} (t : κ × Ed) (x : Text) (o : Out (κ × Ed) Bool) : Prop :=
  ∀ done t', o = .ok done t' → done = false ∧ t'.1 = t.1 ∧ Lands t.2.noEol t'.2 x [] ∧
    ¬ t'.2.reverseSearch ∧ ¬ t'.2.forwardSearch

/-- The key was left to the key map. -/
def Left {κ : Type} (km : KeyMap κ) (E : Env) (key : Key) (t : κ × Ed) (o : Out (κ × Ed) Bool) : Prop :=
  o = (do km.core E key; ed skipCompletionsHint; ed (flush E); pure false : KM κ Bool) t

theorem bind_at {σ α β : Type} {m m' : M σ α} {f : α → M σ β} {s : σ} (h : m s = m' s) :
    (m >>= f) s = (m' >>= f) s := by
  show M.bind m f s = M.bind m' f s
  unfold M.bind
  rw [h]

theorem atEnd_run {s : Ed} {txt : Text} (ht : text? s = some txt) (h0 : ¬ (s.noEol = true ∧ txt = [])) :
    ∃ a : Bool, cursorIsAtEndOfLine s = .ok a s ∧ (a = true ↔ Furthest s.noEol txt s.cursor) := by
  obtain ⟨b, hb, rfl⟩ := text?_eq.mp ht
  unfold cursorIsAtEndOfLine Furthest
  rw [bind_ok (m := curBuf) (a := b) (s' := s) (by unfold curBuf; simp [hb]), bind_ok (m := M.get) (a := s) (s' := s) rfl]
  cases hn : s.noEol with
  | false =>
    refine ⟨decide (s.cursor = b.numChars), by simp; rfl, ?_⟩
    rw [decide_eq_true_iff]; exact Iff.rfl
  | true =>
    have hb0 : b.data ≠ [] := fun h => h0 ⟨hn, h⟩
    have hb1 : 0 < b.data.length := List.length_pos_iff.mpr hb0
    refine ⟨decide (s.cursor = b.numChars - 1), ?_, ?_⟩
    · rw [if_pos rfl, if_neg (by simpa [Buffer.numChars] using hb0)]; rfl
    · rw [decide_eq_true_iff]; simp only [Buffer.numChars, if_true]; omega

theorem AtKey.took {κ : Type} {t : κ × Ed} (h : AtKey t.2) (E : Env) {x : Buffer} {txt : Text}
    (ht : text? t.2 = some txt) (hx : t.2.autosuggestion = some x) :
    Took t x.data ((do
      let done ← (do ed (acceptAutosuggestion E); pure false : KM κ Bool)
      ed (flush E)
      pure done : KM κ Bool) t) := by
  intro done t' hr
  have ha := (h.accept E).1
  cases hm : acceptAutosuggestion E t.2 with
  | ok u s1 =>
    obtain ⟨h1, h2, h3⟩ := ha s1 hm
    have h4 := h3 txt ht
    rw [hx] at h4
    have e1 : (do ed (acceptAutosuggestion E); pure false : KM κ Bool) t = .ok false (t.1, s1) := by
      rw [bind_ok (m := ed (acceptAutosuggestion E)) (a := ()) (s' := (t.1, s1)) (by simp [KM.ed, M.zoom, hm])]
      rfl
    rw [bind_ok e1] at hr
    by_cases hw : E.writeOk s1.tick = true
    · rw [bind_ok (m := ed (flush E)) (a := ()) (s' := (t.1, { s1 with tick := s1.tick + 1 }))
        (by simp [KM.ed, M.zoom, flush, hw])] at hr
      cases hr
      exact ⟨rfl, rfl, h4, h1, h2⟩
    · exfalso
      revert hr
      show M.bind (ed (flush E)) _ _ = _ → _
      simp [M.bind, KM.ed, M.zoom, flush, hw]
  | err e s1 =>
    exfalso
    revert hr
    show M.bind (M.bind (ed (acceptAutosuggestion E)) _) _ _ = _ → _
    simp [M.bind, KM.ed, M.zoom, hm]
  | panic w =>
    exfalso
    revert hr
    show M.bind (M.bind (ed (acceptAutosuggestion E)) _) _ _ = _ → _
    simp [M.bind, KM.ed, M.zoom, hm]

theorem AtKey.keys {κ : Type} (km : KeyMap κ) {t : κ × Ed} (h : AtKey t.2) (E : Env)
    (comp : Text → List Text) {x : Buffer} {txt : Text}
    (ht : text? t.2 = some txt) (hx : t.2.autosuggestion = some x) :
    Took t x.data (km.handleKey E comp (.ctrl 'f') t) ∧
    (¬ (t.2.noEol = true ∧ txt = []) →
      (Furthest t.2.noEol txt t.2.cursor → Took t x.data (km.handleKey E comp .right t)) ∧
      (¬ Furthest t.2.noEol txt t.2.cursor → Left km E .right t (km.handleKey E comp .right t))) := by
  obtain ⟨b, hb, hd⟩ := text?_eq.mp ht
  have hs : t.2.autosuggestion.isSome = true := by rw [hx]; rfl
  refine ⟨?_, fun h0 => ?_⟩
  · rw [handleKey_eq km E comp hb, show KeyMap.translate (.ctrl 'f') = .ctrl 'f' from rfl]
    have := h.took E ht hx
    rwa [show ((do
        let done ← km.dispatch E comp b.isEmpty (.ctrl 'f')
        ed (flush E)
        pure done : KM κ Bool) t) = _ from bind_at (dispatch_ctrlF km E comp t hs)]
  · obtain ⟨a, e1, e2⟩ := atEnd_run ht h0
    have e3 : (ed cursorIsAtEndOfLine t : Out (κ × Ed) Bool) = .ok a t := by simp [KM.ed, M.zoom, e1]
    rw [handleKey_eq km E comp hb, show KeyMap.translate .right = .right from rfl,
      show ((do
        let done ← km.dispatch E comp b.isEmpty .right
        ed (flush E)
        pure done : KM κ Bool) t) = _ from bind_at ((dispatch_right km E comp t hs).trans (bind_ok e3))]
    refine ⟨fun hf => ?_, fun hf => ?_⟩
    · rw [if_pos (e2.mpr hf)]
      exact h.took E ht hx
    · rw [if_neg (fun q => hf (e2.mp q))]
      unfold Left toCore
      simp only [bind_assoc']
      rfl

/-- C38: which keys take the suggestion, after any Emacs keys.  Ctrl-F always does.  Right does exactly
when the cursor is at the end of the line; elsewhere it goes to the key map. -/
theorem C38_keys_emacs (E : Env) (p p' : Prompt) (h : History) (fs : FS) (b : Buffer)
    (keys : List (Key × (Text → List Text))) (comp : Text → List Text) (k k' : Emacs) (s : Ed)
    (hk : session Emacs.keyMap E p keys (k, initial p' h fs b) = .ok () (k', s))
    (x : Buffer) (txt : Text) (ht : text? s = some txt) (hx : s.autosuggestion = some x) :
    s.noEol = false ∧
    Took (k', s) x.data (Emacs.keyMap.handleKey E comp (.ctrl 'f') (k', s)) ∧
    (s.cursor = txt.length → Took (k', s) x.data (Emacs.keyMap.handleKey E comp .right (k', s))) ∧
    (s.cursor ≠ txt.length → Left Emacs.keyMap E .right (k', s) (Emacs.keyMap.handleKey E comp .right (k', s))) := by
  have hn : s.noEol = false := (wp_ok ((sets_kept E .emacs).usesK (uses_session Emacs.keyMap E (Emacs.uses_init E) p keys
    (fun k _ => Emacs.uses_core E _)) _ trivial) hk).2.noEol rfl
  have key := AtKey.keys Emacs.keyMap (t := (k', s)) (atKey_emacs hk) E comp ht hx
  have h2 := key.2 (by simp [hn])
  simp only [Furthest, hn] at h2
  exact ⟨hn, key.1, h2.1, h2.2⟩

example : okAnd (emacs ["make all"] (chars "ma")) (fun _ t =>
    t.2.autosuggestion.map (·.data) == some "make all".toList && t.2.cursor == 2 &&
    okAnd (Emacs.keyMap.handleKey Tests.env (fun _ => []) .right t) fun _ t =>
      text? t.2 == some "make all".toList && t.2.cursor == 8) = true := by decide +kernel

example : okAnd (emacs ["make all"] (chars "ma" ++ [.left])) (fun _ t =>
    t.2.autosuggestion.isSome && t.2.cursor == 1 &&
    okAnd (Emacs.keyMap.handleKey Tests.env (fun _ => []) .right t) fun _ t =>
      text? t.2 == some "ma".toList && t.2.cursor == 2) = true := by decide +kernel

/-- C38: which keys take the suggestion, after any vi keys.  In the normal mode the cursor is at the
end when it is on the last character.  Left out: Right on an empty line in the normal mode, which
panics (`C57_right_violation`). -/
theorem C38_keys_vi_partial (E : Env) (p p' : Prompt) (h : History) (fs : FS) (b : Buffer)
    (keys : List (Key × (Text → List Text))) (comp : Text → List Text) (k k' : Vi) (s : Ed)
    (hk : session Vi.keyMap E p keys (k, initial p' h fs b) = .ok () (k', s))
    (x : Buffer) (txt : Text) (ht : text? s = some txt) (hx : s.autosuggestion = some x) :
    Took (k', s) x.data (Vi.keyMap.handleKey E comp (.ctrl 'f') (k', s)) ∧
    (¬ (s.noEol = true ∧ txt = []) →
      (Furthest s.noEol txt s.cursor → Took (k', s) x.data (Vi.keyMap.handleKey E comp .right (k', s))) ∧
      (¬ Furthest s.noEol txt s.cursor →
        Left Vi.keyMap E .right (k', s) (Vi.keyMap.handleKey E comp .right (k', s)))) :=
  AtKey.keys Vi.keyMap (t := (k', s)) (atKey_vi hk) E comp ht hx

example : okAnd (vi ["make all"] (chars "ma" ++ [.esc])) (fun _ t =>
    t.2.autosuggestion.map (·.data) == some "make all".toList && t.2.noEol && t.2.cursor == 1 &&
    okAnd (Vi.keyMap.handleKey Tests.env (fun _ => []) .right t) fun _ t =>
      text? t.2 == some "make all".toList && t.2.cursor == 7) = true := by decide +kernel

example : okAnd (vi ["make all"] (chars "ma" ++ [.esc, .char 'h'])) (fun _ t =>
    t.2.autosuggestion.isSome && t.2.cursor == 0 &&
    okAnd (Vi.keyMap.handleKey Tests.env (fun _ => []) .right t) fun _ t =>
      text? t.2 == some "ma".toList && t.2.cursor == 1) = true := by decide +kernel

end Liner.Props
