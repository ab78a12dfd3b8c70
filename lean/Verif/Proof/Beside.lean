import Verif.Proof.ViUndo
/-
What the operations on the current line do to the other line, to the copy of an entry and to the walk through the history.
-/

namespace Liner
namespace Editor
open Liner.Spec Liner.Props

/-- The line changes only where it is shown: an entry is copied before (`touch`), and the walk through the history may be
given up (`clears`). -/
structure Beside (touch clears : Bool) (s s' : Ed) : Prop where
  quiet : s'.isSearch = false
  loc : s'.curHistoryLoc = s.curHistoryLoc
  walk : s'.historySubsetLoc = if clears then none else s.historySubsetLoc
  met : s'.historySubsetIndex = if clears then [] else s.historySubsetIndex
  new : s.curHistoryLoc ≠ none → s'.newBuf = s.newBuf
  copy : s'.histBufValid = false → s'.histBuf = s.histBuf
  valid : s'.histBufValid = (s.histBufValid || (touch && s.curHistoryLoc.isSome))

theorem Beside.refl {s : Ed} (h : s.isSearch = false) : Beside false false s s :=
  ⟨h, rfl, rfl, rfl, fun _ => rfl, fun _ => rfl, by simp⟩

theorem Beside.trans {a b c d : Bool} {s t u : Ed} (h1 : Beside a b s t) (h2 : Beside c d t u) :
    Beside (a || c) (b || d) s u where
  quiet := h2.quiet
  loc := h2.loc.trans h1.loc
  walk := by rw [h2.walk, h1.walk]; cases b <;> cases d <;> rfl
  met := by rw [h2.met, h1.met]; cases b <;> cases d <;> rfl
  new h := (h2.new (by rw [h1.loc]; exact h)).trans (h1.new h)
  copy h := by
    have h3 := h2.valid
    rw [h] at h3
    have h4 : t.histBufValid = false := by
      cases hv : t.histBufValid with
      | false => rfl
      | true => rw [hv] at h3; cases h3
    exact (h2.copy h).trans (h1.copy h4)
  valid := by
    rw [h2.valid, h1.valid, h1.loc]
    cases s.histBufValid <;> cases a <;> cases c <;> cases s.curHistoryLoc.isSome <;> rfl

theorem Beside.listed {a b : Bool} {s t : Ed} (h : Beside a b s t) (c : Option (List Text × Option Nat)) (n : Nat) :
    Beside a b s { t with showCompletionsHint := c, tick := n } :=
  ⟨h.quiet, h.loc, h.walk, h.met, h.new, h.copy, h.valid⟩

theorem Beside.wrote {a b : Bool} {s t : Ed} (h : Beside a b s t) (n : Nat) :
    Beside a b s { t with showCompletionsHint := none, tick := n } := h.listed none n

/-- An operation outside a search. -/
def Bs {α : Type} (touch clears : Bool) (m : EdM α) : Prop :=
  ∀ s, s.isSearch = false → Wp m s (fun _ s' => Beside touch clears s s') (fun _ _ => True) (fun _ => True)

section
variable {α β : Type} {a b : Bool}

theorem bs_bind {c d : Bool} {m : EdM α} {f : α → EdM β} (h1 : Bs a b m) (h2 : ∀ x, Bs c d (f x)) :
    Bs (a || c) (b || d) (m >>= f) := by
  intro s hs
  rw [wp_bind]
  refine wp_mono (h1 s hs) (fun x s1 h => ?_) (fun _ _ h => h) (fun _ h => h)
  exact wp_mono (h2 x s1 h.quiet) (fun _ _ h' => h.trans h') (fun _ _ h' => h') (fun _ h => h)

theorem bs_first {m : EdM α} {f : α → EdM β} (h1 : Bs false false m) (h2 : ∀ x, Bs a b (f x)) : Bs a b (m >>= f) := by
  have := bs_bind h1 h2
  simpa using this

theorem bs_then {m : EdM α} {f : α → EdM β} (h1 : Bs a b m) (h2 : ∀ x, Bs false false (f x)) : Bs a b (m >>= f) := by
  have := bs_bind h1 h2
  simpa using this

theorem bs_pure (x : α) : Bs false false (pure x : EdM α) := fun _ hs => .refl hs
theorem bs_get : Bs false false (M.get : EdM Ed) := fun _ hs => .refl hs
theorem bs_panic : Bs a b (M.panic : EdM α) := fun _ _ => trivial
theorem bs_ite {c : Prop} [Decidable c] {x y : EdM α} (hx : Bs a b x) (hy : Bs a b y) : Bs a b (if c then x else y) := by
  split <;> assumption
theorem bs_ofOption (o : Option α) : Bs false false (M.ofOption o : EdM α) := by
  intro s hs
  rw [wp_ofOption]
  exact ⟨fun _ _ => .refl hs, fun _ => trivial⟩
theorem bs_curBuf : Bs false false curBuf := by
  intro s hs
  rw [wp_curBuf]
  exact ⟨fun _ _ => .refl hs, fun _ => trivial⟩
theorem bs_modify {f : Ed → Ed} (h : ∀ s, s.isSearch = false → Beside a b s (f s)) : Bs a b (M.modify f) := h

theorem Beside.setCur {s : Ed} (hs : s.isSearch = false) (w : Buffer) : Beside true false s (setCur s w) := by
  unfold Editor.setCur
  cases hl : s.curHistoryLoc with
  | none => exact ⟨hs, by simp [hl], rfl, rfl, fun h => absurd hl h, fun _ => rfl, by simp [hl]⟩
  | some i => exact ⟨hs, by simp [hl], rfl, rfl, fun _ => rfl, fun h => (by cases h), by simp [hl]⟩

theorem bs_curBufMut {f : Buffer → Option (α × Buffer)} : Bs true false (curBufMut f) := by
  intro s hs
  rw [wp_curBufMut]
  exact ⟨fun _ _ b' _ _ => .setCur hs b', fun _ => trivial⟩

theorem bs_display (E : Env) : Bs false false (display E) := by
  intro s hs
  refine wp_mono (display_wp E s) (fun _ s' h => ?_) (fun _ s' h => trivial) (fun _ _ => trivial)
  obtain ⟨b', o', hb', ho', l', c, ou, t, rfl⟩ := h.ex
  rw [pre_quiet hs]
  exact ⟨hs, rfl, rfl, rfl, fun _ => rfl, fun _ => rfl, by simp⟩

end

/-- Go through the program text of an operation that edits nothing. -/
macro "bs" : tactic => `(tactic| repeat' (first
  | with_reducible exact bs_display _
  | with_reducible exact bs_curBuf
  | with_reducible exact bs_get
  | with_reducible exact bs_panic
  | with_reducible exact bs_pure _
  | with_reducible exact bs_ofOption _
  | with_reducible assumption
  | with_reducible apply bs_first
  | with_reducible apply bs_ite
  | ((with_reducible apply bs_modify); (intro s hs; exact ⟨hs, rfl, rfl, rfl, fun _ => rfl, fun _ => rfl, by simp⟩))
  | with_reducible intro _
  | split
  | dsimp only))

section
variable (E : Env)

theorem bs_left (n : Nat) : Bs false false (moveCursorLeft E n) := by unfold moveCursorLeft; bs
theorem bs_right (n : Nat) : Bs false false (moveCursorRight E n) := by unfold moveCursorRight; bs
theorem bs_to (n : Nat) : Bs false false (moveCursorTo E n) := by unfold moveCursorTo; bs
theorem bs_home : Bs false false (moveCursorToStartOfLine E) := by unfold moveCursorToStartOfLine; bs
theorem bs_end : Bs false false (moveCursorToEndOfLine E) := by unfold moveCursorToEndOfLine; bs

theorem bs_clearSearch : Bs false true clearSearch :=
  bs_modify fun s _ => ⟨rfl, rfl, rfl, rfl, fun _ => rfl, fun _ => rfl, by simp⟩

theorem bs_clear : Bs false true (clear E) := by
  unfold clear
  exact bs_first (by bs) fun _ => bs_then bs_clearSearch fun _ => bs_display E

theorem bs_insert (cs : Text) : Bs true false (insertCharsAfterCursor E cs) := by
  unfold insertCharsAfterCursor
  exact bs_first bs_get fun s => bs_then bs_curBufMut fun _ => by bs
theorem bs_delete : Bs true false (deleteAfterCursor E) := by
  unfold deleteAfterCursor
  exact bs_first bs_get fun s => bs_then bs_curBufMut fun _ => by bs
theorem bs_deleteAllBefore : Bs true false (deleteAllBeforeCursor E) := by
  unfold deleteAllBeforeCursor
  exact bs_first bs_get fun s => bs_then bs_curBufMut fun _ => by bs
theorem bs_deleteAllAfter : Bs true false (deleteAllAfterCursor E) := by
  unfold deleteAllAfterCursor
  exact bs_first bs_get fun s => bs_then bs_curBufMut fun _ => by bs
theorem bs_deleteUntil (p : Nat) : Bs true false (deleteUntil E p) := by
  unfold deleteUntil
  exact bs_first bs_get fun s => bs_then bs_curBufMut fun _ => by bs

theorem bs_undoing (f : Buffer → Option (Bool × Buffer)) : Bs true false (do
      let did ← curBufMut f
      if did then moveCursorToEndOfLine E else display E
      pure did : EdM Bool) := by
  have := bs_end E
  exact bs_then bs_curBufMut fun _ => by bs

theorem bs_moveWord (right : Bool) : Bs false false (Emacs.moveWord E right) := by
  have := bs_to E
  unfold Emacs.moveWord wordsAndPos
  refine bs_first ?_ fun x => ?_
  · bs
  · bs
    all_goals exact this _

end
end Editor
end Liner
