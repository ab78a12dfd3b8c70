import Verif.Proof.Display
import Verif.Proof.Undo
import Verif.Props.History
import Verif.Props.Words
/-
Invariants of the editor.
-/

namespace Liner
namespace Editor
open Liner.Spec

theorem wp_curBufMut {α : Type} {f : Buffer → Option (α × Buffer)} {s : Ed} {Q : α → Ed → Prop}
    {R : IoErr → Ed → Prop} {P : Site → Prop} :
    Wp (curBufMut f) s Q R P ↔
      (∀ b a b', workBuf s = some b → f b = some (a, b') → Q a (setCur s b')) ∧
      (workBuf s = none ∨ (∃ b, workBuf s = some b ∧ f b = none) → P .op) := by
  unfold Wp curBufMut
  cases hw : workBuf s with
  | none => simp
  | some b =>
    cases hf : f b with
    | none =>
      simp only [hf]
      exact ⟨fun h => ⟨fun b' a c hb hf' => by (cases hb; rw [hf] at hf'; cases hf'), fun _ => h⟩,
        fun h => h.2 (.inr ⟨b, rfl, hf⟩)⟩
    | some p =>
      obtain ⟨a, b'⟩ := p
      simp only [hf]
      refine ⟨fun h => ⟨fun c a' c' hb hf' => ?_, ?_⟩, fun h => h.1 _ _ _ rfl hf⟩
      · cases hb; rw [hf] at hf'; cases hf'; exact h
      · rintro (h1 | ⟨c, hb, h2⟩)
        · cases h1
        · cases hb; rw [hf] at h2; cases h2

theorem setCur_curBuf (s : Ed) (b : Buffer) : (setCur s b).curBuf? = some b := by
  unfold setCur Ed.curBuf?
  cases h : s.curHistoryLoc <;> simp

/-- The buffer handed out has the text of the current line. -/
theorem workBuf_of_curBuf {s : Ed} {b : Buffer} (h : s.curBuf? = some b) :
    ∃ w, workBuf s = some w ∧ w.data = b.data := by
  unfold workBuf
  unfold Ed.curBuf? at h
  cases hl : s.curHistoryLoc with
  | none => rw [hl] at h; cases h; exact ⟨_, rfl, rfl⟩
  | some i =>
    rw [hl] at h
    dsimp only at h ⊢
    by_cases hv : s.histBufValid = true
    · rw [if_pos hv] at h ⊢; cases h; exact ⟨_, rfl, rfl⟩
    · rw [if_neg hv] at h ⊢
      obtain ⟨b', h1, h2⟩ := Props.C01_copy_buffer s.histBuf b
      exact ⟨b', by simp [h, h1], h2⟩

theorem curBuf_of_workBuf {s : Ed} {w : Buffer} (h : workBuf s = some w) :
    ∃ b, s.curBuf? = some b ∧ w.data = b.data := by
  cases hc : s.curBuf? with
  | some b =>
    obtain ⟨w', h1, h2⟩ := workBuf_of_curBuf hc
    rw [h] at h1; cases h1
    exact ⟨b, rfl, h2⟩
  | none =>
    exfalso
    unfold workBuf at h
    unfold Ed.curBuf? at hc
    cases hl : s.curHistoryLoc with
    | none => rw [hl] at hc; cases hc
    | some i =>
      rw [hl] at h hc
      dsimp only at h hc
      by_cases hv : s.histBufValid = true
      · rw [if_pos hv] at hc; cases hc
      · rw [if_neg hv] at h hc; rw [hc] at h; cases h

/-- What holds of the editor at all times. -/
structure Good (s : Ed) : Prop where
  loc : ∀ i, s.curHistoryLoc = some i → i < s.history.buffers.length
  sub : ∀ j ∈ s.historySubsetIndex, j < s.history.buffers.length
  subLoc : ∀ i, s.historySubsetLoc = some i → i < s.historySubsetIndex.length
  newInv : ∃ d, Buffer.Inv d s.newBuf
  histInv : ∃ d, Buffer.Inv d s.histBuf
  hint : ∀ cs o, s.showCompletionsHint = some (cs, o) → cs ≠ [] ∧ ∀ i, o = some i → i < cs.length
  srch : s.isSearch = true → s.bufferChanged = false →
    s.historySubsetIndex = s.history.searchIndex s.newBuf

/-- What holds in addition between operations. -/
structure Steady (s : Ed) : Prop extends Good s where
  cur : ∃ b, s.curBuf? = some b ∧ s.cursor ≤ b.data.length
  sug : s.isSearch = false → ∀ x, s.autosuggestion = some x →
    ∃ b, s.curBuf? = some b ∧ b.data <+: x.data

theorem Good.curBuf {s : Ed} (h : Good s) : ∃ b, s.curBuf? = some b := by
  unfold Ed.curBuf?
  cases hl : s.curHistoryLoc with
  | none => exact ⟨_, rfl⟩
  | some i =>
    dsimp only
    split
    · exact ⟨_, rfl⟩
    · exact ⟨_, List.getElem?_eq_getElem (h.loc i hl)⟩

theorem Good.workInv {s : Ed} (h : Good s) {w : Buffer} (hw : workBuf s = some w) :
    ∃ d, Buffer.Inv d w := by
  unfold workBuf at hw
  cases hl : s.curHistoryLoc with
  | none => rw [hl] at hw; cases hw; exact h.newInv
  | some i =>
    rw [hl] at hw
    dsimp only at hw
    by_cases hv : s.histBufValid = true
    · rw [if_pos hv] at hw; cases hw; exact h.histInv
    · rw [if_neg hv] at hw
      obtain ⟨d, hd⟩ := h.histInv
      cases hb : s.history.buffers[i]? with
      | none => rw [hb] at hw; cases hw
      | some b =>
        rw [hb] at hw
        obtain ⟨b', h1, h2, _⟩ := hd.copy b
        simp only [Option.bind_some, h1] at hw
        cases hw
        exact ⟨d, h2⟩

theorem Good.setCur {s : Ed} (h : Good s) {b : Buffer} (hb : ∃ d, Buffer.Inv d b) :
    Good (setCur s b) := by
  unfold Editor.setCur
  cases hl : s.curHistoryLoc with
  | none =>
    exact ⟨fun i hi => by simp at hi, h.sub, h.subLoc, hb, h.histInv, h.hint,
      fun _ h' => by simp at h'⟩
  | some i =>
    exact ⟨fun k hk => h.loc k (by simpa [hl] using hk), h.sub, h.subLoc, h.newInv, hb, h.hint,
      fun _ h' => by simp at h'⟩

theorem searchIndex_lt {h : History} {b : Buffer} {j : Nat} (hj : j ∈ h.searchIndex b) :
    j < h.buffers.length := by
  simp only [History.searchIndex, List.mem_filter, List.mem_range] at hj
  exact hj.1

theorem historySubset_lt {h : History} {b : Buffer} {j : Nat} (hj : j ∈ h.getHistorySubset b) :
    j < h.buffers.length := by
  simp only [History.getHistorySubset, List.mem_append, List.mem_filter, List.mem_range] at hj
  rcases hj with hj | hj <;> exact hj.1

theorem refreshLoc_lt (fwd : Bool) (t : Nat) :
    ∀ (l : List Nat) (i j : Nat), refreshLoc fwd t l i = some j → j < i + l.length
  | [], i, j, h => by simp [refreshLoc] at h
  | x :: xs, i, j, h => by
    unfold refreshLoc at h
    simp only [List.length_cons]
    split at h
    · split at h <;> (cases h; omega)
    · have := refreshLoc_lt fwd t xs (i + 1) j h
      omega

theorem Good.refreshed {s : Ed} (h : Good s) (fwd : Bool) : Good (refreshed fwd s) := by
  refine ⟨?_, ?_, ?_, h.newInv, h.histInv, h.hint, ?_⟩
  · intro i hi; simp [Editor.refreshed] at hi
  · intro j hj; exact searchIndex_lt hj
  · intro i hi
    simp only [Editor.refreshed] at hi ⊢
    split at hi
    · cases hi
    · rename_i hne
      have hpos : 0 < (s.history.searchIndex s.newBuf).length := by
        rw [List.length_pos_iff]; simpa using hne
      split at hi
      · rename_i t _
        cases hi
        cases hr : refreshLoc fwd t (s.history.searchIndex s.newBuf) 0 with
        | none =>
          simp only [Option.getD_none]
          split <;> omega
        | some j =>
          have := refreshLoc_lt fwd t _ _ _ hr
          simpa using this
      · cases hi
        split <;> omega
  · intro _ _; rfl

theorem Good.pre {s : Ed} (h : Good s) : Good (pre s) := by
  unfold Editor.pre
  split
  · exact h.refreshed _
  · exact h

theorem newestMatch_some {h : History} {p : Option Nat} {b : Buffer} {i : Nat}
    (hi : h.getNewestMatch p b = some i) :
    ∃ x, h.buffers[i]? = some x ∧ x.startsWith b = true := by
  unfold History.getNewestMatch at hi
  have := List.find?_some hi
  simp only [Option.any_eq_true] at this
  obtain ⟨x, h1, h2⟩ := this
  exact ⟨x, h1, h2⟩

theorem Good.sugOf {s : Ed} (h : Good s) : ∃ x, sugOf s = some x := by
  unfold Editor.sugOf
  split
  · exact ⟨_, rfl⟩
  · dsimp only
    split
    · exact ⟨_, rfl⟩
    · rename_i i hi
      have : i < s.history.buffers.length := by
        split at hi
        · unfold Ed.searchHistoryLoc at hi
          cases hl : s.historySubsetLoc with
          | none => rw [hl] at hi; cases hi
          | some k =>
            rw [hl] at hi
            exact h.sub _ (List.mem_of_getElem? hi)
        · split at hi
          · split at hi
            · rename_i k hk; cases hi; exact h.loc _ hk
            · obtain ⟨x, hx, _⟩ := newestMatch_some hi
              exact (List.getElem?_eq_some_iff.mp hx).1
          · cases hi
      rw [List.getElem?_eq_getElem this]
      exact ⟨_, rfl⟩

theorem sugOf_prefix {s : Ed} (hs : s.isSearch = false) {x : Buffer}
    (hx : sugOf s = some (some x)) : ∃ b, s.curBuf? = some b ∧ b.data <+: x.data := by
  unfold sugOf at hx
  split at hx
  · cases hx
  · rename_i hv
    rw [hs] at hx
    dsimp only at hx
    simp only [Bool.false_eq_true, if_false] at hx
    split at hx
    · cases hx
    · rename_i i hi
      split at hi
      · split at hi
        · rename_i k hk
          cases hi
          unfold Ed.curBuf?
          rw [hk]
          simp only [hv, Bool.false_eq_true, if_false]
          split at hx
          · rename_i b hb
            cases hx
            exact ⟨x, hb, List.prefix_refl _⟩
          · cases hx
        · rename_i hk
          obtain ⟨y, h1, h2⟩ := newestMatch_some hi
          rw [h1] at hx
          cases hx
          unfold Ed.curBuf?
          rw [hk]
          exact ⟨_, rfl, ((Props.C09_starts_with _ _).mp h2).2.1⟩
      · cases hi

theorem clampCursor_le (noEol : Bool) (len c : Nat) : clampCursor noEol len c ≤ len := by
  unfold clampCursor
  dsimp only
  split <;> split <;> omega

/-- Fields that a redraw does not touch. -/
structure Same (s s' : Ed) : Prop where
  history : s'.history = s.history
  fs : s'.fs = s.fs
  noEol : s'.noEol = s.noEol
  prompt : s'.prompt = s.prompt
  newBuf : s'.newBuf = s.newBuf
  histBuf : s'.histBuf = s.histBuf
  hint : s'.showCompletionsHint = s.showCompletionsHint
  showSug : s'.showAutosuggestions = s.showAutosuggestions
  isSearch : s'.isSearch = s.isSearch
  fresh : s'.historyFresh = s.historyFresh

theorem pre_same (s : Ed) : Same s (pre s) := by
  unfold pre
  split
  · rename_i h
    refine ⟨rfl, rfl, rfl, rfl, rfl, rfl, rfl, rfl, ?_, rfl⟩
    simp only [Bool.and_eq_true] at h
    rw [h.1]
    simp [Ed.isSearch, refreshed]
  · exact ⟨rfl, rfl, rfl, rfl, rfl, rfl, rfl, rfl, rfl, rfl⟩

theorem drawn_same {s s' : Ed} {o : Option Buffer} {c : Nat}
    (h : Drawn { pre s with autosuggestion := o } s' c) : Same s s' := by
  obtain ⟨l, cb, ou, t, rfl⟩ := h
  have := pre_same s
  exact ⟨this.history, this.fs, this.noEol, this.prompt, this.newBuf, this.histBuf, this.hint,
    this.showSug, this.isSearch, this.fresh⟩

theorem drawn_good {s s' : Ed} {o : Option Buffer} {c : Nat}
    (h : Drawn { s with autosuggestion := o } s' c) (hg : Good s) : Good s' := by
  obtain ⟨l, cb, ou, t, rfl⟩ := h
  exact ⟨hg.loc, hg.sub, hg.subLoc, hg.newInv, hg.histInv, hg.hint, hg.srch⟩

theorem Shown.same {s s' : Ed} (h : Shown s s') : Same s s' := by
  obtain ⟨b, sug, _, _, h⟩ := h.ex
  exact drawn_same h

theorem ShownErr.same {s s' : Ed} (h : ShownErr s s') : Same s s' := by
  obtain ⟨_, sug, _, h, _⟩ := h.ex
  exact drawn_same h

theorem drawn_curBuf {s s' : Ed} {o : Option Buffer} {c : Nat}
    (h : Drawn { s with autosuggestion := o } s' c) : s'.curBuf? = s.curBuf? := by
  obtain ⟨l, cb, ou, t, rfl⟩ := h
  rfl

theorem Shown.steady {s s' : Ed} (h : Shown s s') (hg : Good s) : Steady s' := by
  obtain ⟨b, sug, hb, hs, h⟩ := h.ex
  have hc := drawn_curBuf h
  refine ⟨drawn_good h hg.pre, ⟨b, by rw [hc, hb], ?_⟩, ?_⟩
  · obtain ⟨l, cb, ou, t, rfl⟩ := h
    exact clampCursor_le _ _ _
  · intro hn x hx
    have hn' : (pre s).isSearch = false := by
      obtain ⟨l, cb, ou, t, rfl⟩ := h
      exact hn
    have hx' : sug = some x := by
      obtain ⟨l, cb, ou, t, rfl⟩ := h
      exact hx
    subst hx'
    rw [hc]
    exact sugOf_prefix hn' hs

theorem ShownErr.good {s s' : Ed} (h : ShownErr s s') (hg : Good s) : Good s' := by
  obtain ⟨cu, sug, hs, h, _⟩ := h.ex
  exact drawn_good h hg.pre

theorem ShowPanic.ne_op {E : Env} {s : Ed} {w : Site} (h : ShowPanic E s w) (hg : Good s) :
    w ≠ .op := by
  rintro rfl
  obtain ⟨x, hx⟩ := hg.pre.sugOf
  obtain ⟨b, hb⟩ := hg.pre.curBuf
  rcases h with ⟨_, h⟩ | ⟨sug, _, h⟩
  · rw [hx] at h; cases h
  · have h' : (pre s).curBuf? = none := h
    rw [hb] at h'; cases h'

/-- A redraw from a good state. -/
theorem display_good (E : Env) {s : Ed} (hg : Good s) :
    Wp (display E) s (fun _ s' => Steady s' ∧ Same s s') (fun _ s' => Good s' ∧ Same s s')
      (fun w => w ≠ .op) :=
  wp_mono (display_wp E s) (fun _ _ h => ⟨h.steady hg, h.same⟩) (fun _ _ h => ⟨h.good hg, h.same⟩)
    (fun _ h => h.ne_op hg)

end Editor
end Liner
