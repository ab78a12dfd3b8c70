import Verif.Proof.Resume
import Verif.Proof.Nav
/-
Two runs with the same text: looking through the history and coming back.
-/

set_option linter.unusedSimpArgs false

namespace Liner
open Liner.Editor M KM

/-- The entries met with Up on the line `x`, the first one last. -/
def picks (h : History) (x : Text) : List Nat :=
  if x = [] then List.range h.buffers.length else h.getHistorySubset (.ofText x)

/-- `k` entries up from the new line, which has the text `u.1` before and `u.2` after the cursor.  With `v` the entry was
edited. -/
def Roams (h : History) (fs : FS) (u : Text × Text) (k : Nat) (s : Ed) : Prop :=
  if k = 0 then Poised h fs u (proposal h (u.1 ++ u.2)) s
  else k ≤ (picks h (u.1 ++ u.2)).length ∧ ∃ p l c o n b ch g i e q v, b.data = u.1 ++ u.2 ∧
    (picks h (u.1 ++ u.2))[(picks h (u.1 ++ u.2)).length - k]? = some i ∧ h.buffers[i]? = some e ∧
    q ≤ (if v then n.2 else e).data.length ∧ s = { poise p l c o n h fs g q b ch with
          histBufValid := v, curHistoryLoc := some i,
          historySubsetIndex := if u.1 ++ u.2 = [] then [] else picks h (u.1 ++ u.2),
          historySubsetLoc := if u.1 ++ u.2 = [] then none else some ((picks h (u.1 ++ u.2)).length - k) }

section
variable {h : History} {fs : FS} {u : Text × Text} {x : Text} {g : Option Buffer} {s t : Ed} {E : Env}

theorem picks_lt {i : Nat} (hi : i ∈ picks h x) : i < h.buffers.length := by
  unfold picks at hi
  split at hi
  · simpa using hi
  · exact historySubset_lt hi

/-- A redraw of an entry. -/
theorem entry_display {p : Prompt} {l : Nat} {c o : List Tok} {n : Nat × Buffer} {q i : Nat} {b e : Buffer} {ch v : Bool}
    {J : List Nat} {L : Option Nat} (hi : h.buffers[i]? = some e) (hq : q ≤ (if v then n.2 else e).data.length) :
    Ensues (display E)
      { poise p l c o n h fs g q b ch with
        histBufValid := v, curHistoryLoc := some i, historySubsetIndex := J, historySubsetLoc := L }
      fun s => ∃ p l c o m g, s =
        { poise p l c o (m, n.2) h fs g q b ch with
          histBufValid := v, curHistoryLoc := some i, historySubsetIndex := J, historySubsetLoc := L } := by
  unfold Ensues
  rw [display_polled]
  have hp : polled { poise p l c o n h fs g q b ch with
        histBufValid := v, curHistoryLoc := some i, historySubsetIndex := J, historySubsetLoc := L } =
      { poise p l c o n h fs g q b ch with
        histBufValid := v, curHistoryLoc := some i, historySubsetIndex := J, historySubsetLoc := L } := rfl
  rw [hp]
  obtain ⟨g', hc⟩ : ∃ g', currentAutosuggestion { poise p l c o n h fs g q b ch with
        histBufValid := v, curHistoryLoc := some i, historySubsetIndex := J, historySubsetLoc := L } =
      .ok g' { poise p l c o n h fs g q b ch with
        histBufValid := v, curHistoryLoc := some i, historySubsetIndex := J, historySubsetLoc := L } := by
    rw [suggestion_eq]
    unfold suggestedIdx
    cases v
    · exact ⟨some e, by simp [Ed.isSearch, hi]⟩
    · exact ⟨none, by simp⟩
  show Lost (M.bind currentAutosuggestion _ _) ∨ ∃ s1, M.bind currentAutosuggestion _ _ = _ ∧ _
  unfold M.bind
  rw [hc]
  dsimp only
  have ho : OuterAt { poise p l c o n h fs g' q b ch with
        histBufValid := v, curHistoryLoc := some i, historySubsetIndex := J, historySubsetLoc := L } (displayImpl E true) := by
    refine outerAt_impl (b := if v then n.2 else e) ?_ ?_ _
    · cases v <;> simp [Ed.curBuf?, hi]
    · have : ¬ (if v then n.2 else e).data.length < q := by omega
      simp only [clampCursor, Buffer.numChars]
      simp [this]
  rcases ho _ (.refl _) with h1 | ⟨_, s1, e1, p', l', c', o', n', e2⟩
  · exact .inl h1
  · exact .inr ⟨s1, e1, p', l', c', o', n', g', e2⟩

/-- To the end of an entry. -/
theorem entry_eol {p : Prompt} {l : Nat} {c o : List Tok} {n : Nat × Buffer} {c0 i : Nat} {b e : Buffer} {ch : Bool} {J : List Nat}
    {L : Option Nat} (hi : h.buffers[i]? = some e) :
    Ensues (moveCursorToEndOfLine E)
      { poise p l c o n h fs g c0 b ch with curHistoryLoc := some i, historySubsetIndex := J, historySubsetLoc := L }
      fun s => ∃ p l c o m g, s =
        { poise p l c o (m, n.2) h fs g e.data.length b ch with
          curHistoryLoc := some i, historySubsetIndex := J, historySubsetLoc := L } := by
  have e1 : moveCursorToEndOfLine E
      { poise p l c o n h fs g c0 b ch with curHistoryLoc := some i, historySubsetIndex := J, historySubsetLoc := L } =
      display E { poise p l c o n h fs g e.data.length b ch with
        curHistoryLoc := some i, historySubsetIndex := J, historySubsetLoc := L } := by
    simp [moveCursorToEndOfLine, bind, M.bind, curBuf, Ed.curBuf?, hi, M.modify, Buffer.numChars]
  unfold Ensues
  rw [e1]
  exact entry_display (v := false) hi (Nat.le_refl _)

/-- Arriving `k` entries up. -/
theorem roams_entry {p : Prompt} {l : Nat} {c o : List Tok} {n : Nat × Buffer} {c0 k i : Nat} {b : Buffer} {ch : Bool}
    (hb : b.data = u.1 ++ u.2) (hk : 0 < k) (hle : k ≤ (picks h (u.1 ++ u.2)).length)
    (hi : (picks h (u.1 ++ u.2))[(picks h (u.1 ++ u.2)).length - k]? = some i) {J : List Nat} {L : Option Nat}
    (hJ : J = if u.1 ++ u.2 = [] then [] else picks h (u.1 ++ u.2))
    (hL : L = if u.1 ++ u.2 = [] then none else some ((picks h (u.1 ++ u.2)).length - k)) :
    Ensues (moveCursorToEndOfLine E)
      { poise p l c o n h fs g c0 b ch with curHistoryLoc := some i, historySubsetIndex := J, historySubsetLoc := L }
      (Roams h fs (u.1 ++ u.2, []) k) := by
  have hlt := picks_lt (List.mem_of_getElem? hi)
  rcases entry_eol (E := E) (g := g) (p := p) (l := l) (c := c) (o := o) (n := n) (c0 := c0) (b := b) (ch := ch) (fs := fs)
    (J := J) (L := L) (List.getElem?_eq_getElem hlt) with h1 | ⟨s1, e1, p, l, c, o, m, g, e2⟩
  · exact .inl h1
  · refine .inr ⟨s1, e1, ?_⟩
    unfold Roams
    rw [if_neg (by omega)]
    simp only [List.append_nil]
    refine ⟨hle, p, l, c, o, (m, n.2), b, ch, g, i, h.buffers[i], _, false, hb, hi,
      List.getElem?_eq_getElem hlt, Nat.le_refl _, ?_⟩
    rw [e2, hJ, hL]
    rfl

theorem poised_eol {p : Prompt} {l : Nat} {c o : List Tok} {n : Nat × Buffer} {c0 : Nat} {b : Buffer} {ch : Bool}
    (e : b.data = x) :
    Ensues (moveCursorToEndOfLine E) (poise p l c o n h fs g c0 b ch) (Poised h fs (x, []) (proposal h x)) := by
  have := poised_of (E := E) (op := moveCursorToEndOfLine E) (h := h) (fs := fs) (u := (x, [])) (g := g)
    (s := poise p l c o n h fs g c0 b ch) (s2 := poise p l c o n h fs g x.length b ch)
    (by subst e; rfl) ⟨_, _, _, _, _, _, _, by simpa using e, rfl⟩
  simpa using this

theorem freshen_same (hs : s.history.share = false) : freshenHistory s = .ok () s := by
  unfold freshenHistory M.modify
  simp [hs]

theorem roams_up {k : Nat} (hh : h.share = false) (hs : Roams h fs u k s) :
    Ensues (moveUp E) s (Roams h fs (u.1 ++ u.2, []) (min (k + 1) (picks h (u.1 ++ u.2)).length)) := by
  by_cases hk : k = 0
  · subst hk
    unfold Roams at hs
    rw [if_pos rfl] at hs
    obtain ⟨p, l, c, o, n, b, ch, hb, rfl⟩ := hs
    have hsub := subset_same h (b := .ofText (u.1 ++ u.2)) (b' := b) hb
    by_cases hn : (picks h (u.1 ++ u.2)).length = 0
    · have e1 : moveUp E (poise p l c o n h fs (proposal h (u.1 ++ u.2)) u.1.length b ch) =
          moveCursorToEndOfLine E (poise p l c o n h fs (proposal h (u.1 ++ u.2)) u.1.length b ch) := by
        by_cases hx : u.1 ++ u.2 = []
        · unfold picks at hn
          rw [if_pos hx] at hn
          simp only [List.length_range, List.length_eq_zero_iff] at hn
          simp [moveUp, moveUpLoc, bind, M.bind, M.get, M.modify, Ed.isSearch, freshenHistory, hh, Buffer.numChars, hb, hx, hn, poise,
            pure, M.pure]
        · unfold picks at hn
          rw [if_neg hx, List.length_eq_zero_iff, ← hsub] at hn
          have hl : 0 < b.data.length := by rw [hb]; exact List.length_pos_iff.mpr hx
          simp [moveUp, moveUpLoc, bind, M.bind, M.get, M.modify, Ed.isSearch, freshenHistory, hh, Buffer.numChars, hl, hn, poise,
            pure, M.pure]
      rw [hn, Nat.min_zero]
      unfold Ensues
      rw [e1]
      rcases poised_eol (E := E) (x := u.1 ++ u.2) hb with h1 | ⟨s1, e2, b2⟩
      · exact .inl h1
      · refine .inr ⟨s1, e2, ?_⟩
        unfold Roams
        rw [if_pos rfl]
        simpa using b2
    · have hm : min (0 + 1) (picks h (u.1 ++ u.2)).length = 1 := by omega
      rw [hm]
      obtain ⟨i, hi⟩ : ∃ i, (picks h (u.1 ++ u.2))[(picks h (u.1 ++ u.2)).length - 1]? = some i :=
        ⟨_, List.getElem?_eq_getElem (by omega)⟩
      have e1 : moveUp E (poise p l c o n h fs (proposal h (u.1 ++ u.2)) u.1.length b ch) =
          moveCursorToEndOfLine E { poise p l c o n h fs (proposal h (u.1 ++ u.2)) u.1.length b ch with
            curHistoryLoc := some i,
            historySubsetIndex := if u.1 ++ u.2 = [] then [] else picks h (u.1 ++ u.2),
            historySubsetLoc := if u.1 ++ u.2 = [] then none else some ((picks h (u.1 ++ u.2)).length - 1) } := by
        by_cases hx : u.1 ++ u.2 = []
        · unfold picks at hn hi
          simp only [if_pos hx, List.length_range] at hn hi
          rw [List.getElem?_range (by omega)] at hi
          cases hi
          have hne : h.buffers ≠ [] := fun e => hn (by rw [e]; rfl)
          simp [moveUp, moveUpLoc, bind, M.bind, M.get, M.modify, Ed.isSearch, freshenHistory, hh, Buffer.numChars, hb, hx, hne, poise,
            pure, M.pure]
        · have hl : 0 < b.data.length := by rw [hb]; exact List.length_pos_iff.mpr hx
          have hp : picks h (u.1 ++ u.2) = h.getHistorySubset b := by unfold picks; rw [if_neg hx, hsub]
          rw [hp] at hi ⊢
          have hlast : (h.getHistorySubset b).getLast? = some i := by rw [List.getLast?_eq_getElem?]; exact hi
          simp [moveUp, moveUpLoc, bind, M.bind, M.get, M.modify, Ed.isSearch, freshenHistory, hh, Buffer.numChars, hl, hlast, hx, poise,
            pure, M.pure]
      unfold Ensues
      rw [e1]
      exact roams_entry hb (by omega) (by omega) hi rfl rfl
  · unfold Roams at hs
    rw [if_neg hk] at hs
    obtain ⟨hle, p, l, c, o, n, b, ch, g, i, e, q, v, hb, hi, he, hq, rfl⟩ := hs
    by_cases hn : k < (picks h (u.1 ++ u.2)).length
    · have hm : min (k + 1) (picks h (u.1 ++ u.2)).length = k + 1 := by omega
      rw [hm]
      obtain ⟨j, hj⟩ : ∃ j, (picks h (u.1 ++ u.2))[(picks h (u.1 ++ u.2)).length - (k + 1)]? = some j :=
        ⟨_, List.getElem?_eq_getElem (by omega)⟩
      have e1 : moveUp E { poise p l c o n h fs g q b ch with
            histBufValid := v, curHistoryLoc := some i,
            historySubsetIndex := if u.1 ++ u.2 = [] then [] else picks h (u.1 ++ u.2),
            historySubsetLoc := if u.1 ++ u.2 = [] then none else some ((picks h (u.1 ++ u.2)).length - k) } =
          moveCursorToEndOfLine E { poise p l c o n h fs g q b ch with
            curHistoryLoc := some j,
            historySubsetIndex := if u.1 ++ u.2 = [] then [] else picks h (u.1 ++ u.2),
            historySubsetLoc := if u.1 ++ u.2 = [] then none else some ((picks h (u.1 ++ u.2)).length - (k + 1)) } := by
        by_cases hx : u.1 ++ u.2 = []
        · unfold picks at hn hi hj
          simp only [if_pos hx, List.length_range] at hn hi hj
          rw [List.getElem?_range (by omega)] at hi hj
          cases hi
          cases hj
          have h0 : 0 < h.buffers.length - k := by omega
          have h1 : h.buffers.length - k - 1 = h.buffers.length - (k + 1) := by omega
          simp [moveUp, moveUpLoc, bind, M.bind, M.get, M.modify, Ed.isSearch, freshenHistory, hh, Buffer.numChars, hb, hx, h1, h0,
            pure, M.pure]
        · have hl : 0 < b.data.length := by rw [hb]; exact List.length_pos_iff.mpr hx
          have h0 : 0 < (picks h (u.1 ++ u.2)).length - k := by omega
          have h1 : (picks h (u.1 ++ u.2)).length - k - 1 = (picks h (u.1 ++ u.2)).length - (k + 1) := by omega
          simp only [if_neg hx]
          simp [moveUp, moveUpLoc, bind, M.bind, M.get, M.modify, Ed.isSearch, freshenHistory, hh, Buffer.numChars, hl, h1, h0, hj,
            pure, M.pure, M.ofOption]
      unfold Ensues
      rw [e1]
      exact roams_entry hb (by omega) (by omega) hj rfl rfl
    · have hkn : k = (picks h (u.1 ++ u.2)).length := by omega
      have hm : min (k + 1) (picks h (u.1 ++ u.2)).length = k := by omega
      rw [hm]
      have e1 : moveUp E { poise p l c o n h fs g q b ch with
            histBufValid := v, curHistoryLoc := some i,
            historySubsetIndex := if u.1 ++ u.2 = [] then [] else picks h (u.1 ++ u.2),
            historySubsetLoc := if u.1 ++ u.2 = [] then none else some ((picks h (u.1 ++ u.2)).length - k) } =
          moveCursorToEndOfLine E { poise p l c o n h fs g q b ch with
            curHistoryLoc := some i,
            historySubsetIndex := if u.1 ++ u.2 = [] then [] else picks h (u.1 ++ u.2),
            historySubsetLoc := if u.1 ++ u.2 = [] then none else some ((picks h (u.1 ++ u.2)).length - k) } := by
        by_cases hx : u.1 ++ u.2 = []
        · unfold picks at hkn hi
          simp only [if_pos hx, List.length_range] at hkn hi
          rw [List.getElem?_range (by omega)] at hi
          cases hi
          simp [moveUp, moveUpLoc, bind, M.bind, M.get, M.modify, Ed.isSearch, freshenHistory, hh, Buffer.numChars, hb, hx, poise,
            pure, M.pure, hkn]
        · have hl : 0 < b.data.length := by rw [hb]; exact List.length_pos_iff.mpr hx
          have h0 : (picks h (u.1 ++ u.2)).length - k = 0 := by omega
          simp only [if_neg hx, h0]
          simp [moveUp, moveUpLoc, bind, M.bind, M.get, M.modify, Ed.isSearch, freshenHistory, hh, Buffer.numChars, hl, poise,
            pure, M.pure]
      unfold Ensues
      rw [e1]
      exact roams_entry hb (by omega) (by omega) hi rfl rfl

theorem roams_down {k : Nat} (hs : Roams h fs u k s) :
    Ensues (moveDown E) s (Roams h fs (u.1 ++ u.2, []) (k - 1)) := by
  have back : ∀ {p l c o n b ch g c0}, b.data = u.1 ++ u.2 →
      moveDown E s = moveCursorToEndOfLine E (poise p l c o n h fs g c0 b ch) →
      Ensues (moveDown E) s (Roams h fs (u.1 ++ u.2, []) 0) := by
    intro p l c o n b ch g c0 hb e1
    unfold Ensues
    rw [e1]
    rcases poised_eol (E := E) (x := u.1 ++ u.2) hb with h1 | ⟨s1, e2, b2⟩
    · exact .inl h1
    · refine .inr ⟨s1, e2, ?_⟩
      unfold Roams
      rw [if_pos rfl]
      simpa using b2
  by_cases hk : k = 0
  · subst hk
    have hs' := hs
    unfold Roams at hs'
    rw [if_pos rfl] at hs'
    obtain ⟨p, l, c, o, n, b, ch, hb, e⟩ := hs'
    refine back (p := p) (l := l) (c := c) (o := o) (n := n) (b := b) (ch := ch) (g := proposal h (u.1 ++ u.2)) (c0 := u.1.length) hb ?_
    subst e
    by_cases hx : b.data = []
    · simp [moveDown, moveDownLoc, bind, M.bind, M.get, M.modify, Ed.isSearch, Buffer.numChars, hx, poise]
    · have hl : 0 < b.data.length := List.length_pos_iff.mpr hx
      simp [moveDown, moveDownLoc, bind, M.bind, M.get, M.modify, Ed.isSearch, Buffer.numChars, hl, poise, pure, M.pure]
  · have hs' := hs
    unfold Roams at hs'
    rw [if_neg hk] at hs'
    obtain ⟨hle, p, l, c, o, n, b, ch, g, i, e, q, v, hb, hi, he, hq, es⟩ := hs'
    by_cases h1 : k = 1
    · subst h1
      refine back (p := p) (l := l) (c := c) (o := o) (n := n) (b := b) (ch := ch) (g := g) (c0 := q) hb ?_
      subst es
      by_cases hx : u.1 ++ u.2 = []
      · unfold picks at hle hi
        simp only [if_pos hx, List.length_range] at hle hi
        rw [List.getElem?_range (by omega)] at hi
        cases hi
        have h0 : h.buffers ≠ [] := fun e => by rw [e] at hle; simp at hle
        simp [moveDown, moveDownLoc, bind, M.bind, M.get, M.modify, Ed.isSearch, Buffer.numChars, hb, hx, poise, h0]
      · have hl : 0 < b.data.length := by rw [hb]; exact List.length_pos_iff.mpr hx
        have h0 : picks h (u.1 ++ u.2) ≠ [] := fun e => by rw [e] at hle; simp at hle
        simp only [if_neg hx]
        simp [moveDown, moveDownLoc, bind, M.bind, M.get, M.modify, Ed.isSearch, Buffer.numChars, hl, poise, h0]
    · obtain ⟨j, hj⟩ : ∃ j, (picks h (u.1 ++ u.2))[(picks h (u.1 ++ u.2)).length - (k - 1)]? = some j :=
        ⟨_, List.getElem?_eq_getElem (by omega)⟩
      have e1 : moveDown E s =
          moveCursorToEndOfLine E { poise p l c o n h fs g q b ch with
            curHistoryLoc := some j,
            historySubsetIndex := if u.1 ++ u.2 = [] then [] else picks h (u.1 ++ u.2),
            historySubsetLoc := if u.1 ++ u.2 = [] then none else some ((picks h (u.1 ++ u.2)).length - (k - 1)) } := by
        subst es
        by_cases hx : u.1 ++ u.2 = []
        · unfold picks at hle hi hj
          simp only [if_pos hx, List.length_range] at hle hi hj
          rw [List.getElem?_range (by omega)] at hi hj
          cases hi
          cases hj
          have h0 : h.buffers ≠ [] := fun e => by rw [e] at hle; simp at hle; omega
          have h2 : h.buffers.length - k + 1 = h.buffers.length - (k - 1) := by omega
          have h3 : h.buffers.length - k < h.buffers.length - 1 := by omega
          simp [moveDown, moveDownLoc, bind, M.bind, M.get, M.modify, Ed.isSearch, Buffer.numChars, hb, hx, poise, h0, h2, h3]
        · have hl : 0 < b.data.length := by rw [hb]; exact List.length_pos_iff.mpr hx
          have h0 : picks h (u.1 ++ u.2) ≠ [] := fun e => by rw [e] at hle; simp at hle; omega
          have h2 : (picks h (u.1 ++ u.2)).length - k + 1 = (picks h (u.1 ++ u.2)).length - (k - 1) := by omega
          have h3 : (picks h (u.1 ++ u.2)).length - k < (picks h (u.1 ++ u.2)).length - 1 := by omega
          simp only [if_neg hx]
          simp [moveDown, moveDownLoc, bind, M.bind, M.get, M.modify, Ed.isSearch, Buffer.numChars, hl, poise, h0, h2, h3, hj,
            M.ofOption, pure, M.pure]
      unfold Ensues
      rw [e1]
      exact roams_entry hb (by omega) (by omega) hj rfl rfl

theorem Roams.outer {k : Nat} (hs : Roams h fs u k s) (ha : Alike s t) : Roams h fs u k t := by
  unfold Roams at hs ⊢
  split
  · rename_i hk
    rw [if_pos hk] at hs
    exact hs.outer ha
  · rename_i hk
    rw [if_neg hk] at hs
    obtain ⟨hle, p, l, c, o, n, b, ch, g, i, e, q, v, hb, hi, he, hq, rfl⟩ := hs
    obtain ⟨_, _, _, _, m, rfl⟩ := ha
    exact ⟨hle, _, _, _, _, (m, n.2), b, ch, g, i, e, q, v, hb, hi, he, hq, rfl⟩

theorem Roams.skip {k : Nat} (hs : Roams h fs u k s) : Roams h fs u k { s with showCompletionsHint := none } := by
  unfold Roams at hs ⊢
  split
  · rename_i hk
    rw [if_pos hk] at hs
    obtain ⟨p, l, c, o, n, b, ch, e, rfl⟩ := hs
    exact ⟨_, _, _, _, _, _, _, e, rfl⟩
  · rename_i hk
    rw [if_neg hk] at hs
    obtain ⟨hle, p, l, c, o, n, b, ch, g, i, e, q, v, hb, hi, he, hq, rfl⟩ := hs
    exact ⟨hle, _, _, _, _, _, b, ch, g, i, e, q, v, hb, hi, he, hq, rfl⟩

theorem Roams.buf {k : Nat} (hs : Roams h fs u k s) : ∃ b, curBuf s = .ok b s := by
  unfold Roams at hs
  split at hs
  · obtain ⟨p, l, c, o, n, b, ch, e, rfl⟩ := hs
    exact ⟨b, rfl⟩
  · obtain ⟨hle, p, l, c, o, n, b, ch, g, i, e, q, v, hb, hi, he, hq, rfl⟩ := hs
    exact ⟨if v then n.2 else e, by cases v <;> simp [curBuf, Ed.curBuf?, he]⟩

/-- One key that is left to the key map. -/
theorem roams_step {comp : Text → List Text} {key : Key} {op : EdM Unit} {v : Text × Text} {k k' : Nat}
    (hs : Roams h fs u k s)
    (h1 : KeyMap.translate key ∉ [.ctrl 'c', .ctrl 'd', .char '\t', .char '\n', .ctrl 'r', .ctrl 's', .alt '.'])
    (h2 : KeyMap.translate key ≠ .ctrl 'f' ∧ KeyMap.translate key ≠ .right)
    (h3 : Emacs.handleKeyBody E (KeyMap.translate key) = ed op)
    (ho : Ensues op s (Roams h fs v k')) :
    Lost (Emacs.keyMap.handleKey E comp key ({}, s)) ∨
      ∃ s1, Emacs.keyMap.handleKey E comp key ({}, s) = .ok false ({}, s1) ∧ Roams h fs v k' s1 := by
  obtain ⟨b, hb⟩ := hs.buf
  have hd := dispatch_body (comp := comp) (s := s) b.isEmpty h1 (fun h => (h.elim h2.1 h2.2).elim) h3
  have e : Emacs.keyMap.handleKey E comp key (({} : Emacs), s) =
      (ed (op >>= fun _ => skipCompletionsHint >>= fun _ => flush E) >>= fun _ => pure false : KM Emacs Bool)
        (({} : Emacs), s) := by
    have e1 : Emacs.keyMap.handleKey E comp key (({} : Emacs), s) =
        (Emacs.keyMap.dispatch E comp b.isEmpty (KeyMap.translate key) >>= fun done =>
          (ed (flush E) >>= fun _ => pure done : KM Emacs Bool)) (({} : Emacs), s) := by
      unfold KeyMap.handleKey
      simp only [bind, M.bind, ed, M.zoom, hb]
    rw [e1]
    simp only [bind, M.bind, hd]
    simp only [ed, M.zoom, M.bind, pure, M.pure]
    cases op s with
    | ok a s => rfl
    | err => rfl
    | panic => rfl
  rw [e]
  have hr : Ensues (op >>= fun _ => skipCompletionsHint >>= fun _ => flush E) s (Roams h fs v k') := by
    refine ho.bind fun s2 b2 => ?_
    have : Ensues skipCompletionsHint s2 (Roams h fs v k') := .inr ⟨_, rfl, b2.skip⟩
    refine this.bind fun s2 b2 => ?_
    rcases outer_flush E s2 with h3 | ⟨s3, e3, a3⟩
    · exact .inl h3
    · exact .inr ⟨s3, e3, b2.outer a3⟩
  show Lost (M.bind (ed _) _ _) ∨ ∃ s1, M.bind (ed _) _ _ = _ ∧ _
  unfold M.bind ed M.zoom
  dsimp only
  rcases hr with h3 | ⟨s3, e3, a3⟩
  · left
    revert h3
    generalize (op >>= fun _ => skipCompletionsHint >>= fun _ => flush E) s = r
    cases r <;> simp [Lost]
  · rw [e3]
    exact .inr ⟨s3, rfl, a3⟩

/-- The keys that move the cursor on an entry without taking it. -/
def looking (key : Key) : Bool := key ∈ [.left, .home, .end, .ctrl 'a', .ctrl 'b', .ctrl 'e']

theorem roams_look {k : Nat} (hk : k ≠ 0) (hs : Roams h fs u k s) {op : EdM Unit}
    (ho : ∀ (s : Ed) e, s.curBuf? = some e → s.cursor ≤ e.data.length → ∃ q, q ≤ e.data.length ∧
      op s = display E { s with cursor := q }) : Ensues op s (Roams h fs u k) := by
  unfold Roams at hs
  rw [if_neg hk] at hs
  obtain ⟨hle, p, l, c, o, n, b, ch, g, i, e, q, v, hb, hi, he, hq, rfl⟩ := hs
  obtain ⟨q', hq', e1⟩ := ho { poise p l c o n h fs g q b ch with
          histBufValid := v, curHistoryLoc := some i,
          historySubsetIndex := if u.1 ++ u.2 = [] then [] else picks h (u.1 ++ u.2),
          historySubsetLoc := if u.1 ++ u.2 = [] then none else some ((picks h (u.1 ++ u.2)).length - k) }
    (if v then n.2 else e) (by cases v <;> simp [Ed.curBuf?, he]) hq
  unfold Ensues
  rw [e1]
  rcases entry_display (E := E) (g := g) (p := p) (l := l) (c := c) (o := o) (n := n) (b := b) (ch := ch) (fs := fs) (v := v)
    (J := if u.1 ++ u.2 = [] then [] else picks h (u.1 ++ u.2))
    (L := if u.1 ++ u.2 = [] then none else some ((picks h (u.1 ++ u.2)).length - k)) he hq' with
    h1 | ⟨s1, e1, p, l, c, o, m, g, e2⟩
  · exact .inl h1
  · refine .inr ⟨s1, e1, ?_⟩
    unfold Roams
    rw [if_neg hk]
    exact ⟨hle, p, l, c, o, (m, n.2), b, ch, g, i, e, q', v, hb, hi, he, hq', e2⟩

theorem roams_left {k : Nat} (hk : k ≠ 0) (hs : Roams h fs u k s) : Ensues (moveCursorLeft E 1) s (Roams h fs u k) :=
  roams_look hk hs fun s e _ hq => ⟨s.cursor - (if 1 > s.cursor then s.cursor else 1), by omega, rfl⟩

theorem roams_home {k : Nat} (hk : k ≠ 0) (hs : Roams h fs u k s) :
    Ensues (moveCursorToStartOfLine E) s (Roams h fs u k) :=
  roams_look hk hs fun _ _ _ _ => ⟨0, by omega, rfl⟩

theorem roams_end {k : Nat} (hk : k ≠ 0) (hs : Roams h fs u k s) :
    Ensues (moveCursorToEndOfLine E) s (Roams h fs u k) :=
  roams_look (E := E) hk hs fun s e he _ => ⟨e.data.length, by omega, by
    simp [moveCursorToEndOfLine, bind, M.bind, curBuf, he, M.modify, Buffer.numChars]⟩

/-- Editing an entry changes the copy only. -/
theorem roams_edit {k : Nat} (hk : k ≠ 0) (hs : Roams h fs u k s) {op : EdM Unit}
    (ho : ∀ w, workBuf s = some w → s.cursor ≤ w.data.length → ∃ w' q, q ≤ w'.data.length ∧
      op s = display E { setCur s w' with cursor := q }) : Ensues op s (Roams h fs u k) := by
  unfold Roams at hs
  rw [if_neg hk] at hs
  obtain ⟨hle, p, l, c, o, n, b, ch, g, i, e, q, v, hb, hi, he, hq, rfl⟩ := hs
  obtain ⟨w, hw, hd⟩ : ∃ w, workBuf { poise p l c o n h fs g q b ch with
          histBufValid := v, curHistoryLoc := some i,
          historySubsetIndex := if u.1 ++ u.2 = [] then [] else picks h (u.1 ++ u.2),
          historySubsetLoc := if u.1 ++ u.2 = [] then none else some ((picks h (u.1 ++ u.2)).length - k) } = some w ∧
      w.data = (if v then n.2 else e).data := by
    cases v
    · obtain ⟨w, h1, h2⟩ := copy_any n.2 e
      exact ⟨w, by simp [workBuf, he, h1], h2⟩
    · exact ⟨n.2, by simp [workBuf], rfl⟩
  obtain ⟨w', q', hq', e1⟩ := ho w hw (by rw [hd]; exact hq)
  unfold Ensues
  rw [e1]
  rcases entry_display (E := E) (g := g) (p := p) (l := l) (c := c) (o := o) (n := (n.1, w')) (b := b) (ch := true) (fs := fs)
    (v := true) (J := if u.1 ++ u.2 = [] then [] else picks h (u.1 ++ u.2))
    (L := if u.1 ++ u.2 = [] then none else some ((picks h (u.1 ++ u.2)).length - k)) he hq' with
    h1 | ⟨s1, e1, p, l, c, o, m, g, e2⟩
  · exact .inl h1
  · refine .inr ⟨s1, e1, ?_⟩
    unfold Roams
    rw [if_neg hk]
    exact ⟨hle, p, l, c, o, (m, w'), b, true, g, i, e, q', true, hb, hi, he, hq', e2⟩

theorem setCur_cursor (s : Ed) (b : Buffer) : (setCur s b).cursor = s.cursor := by
  unfold setCur
  split <;> rfl

theorem setCur_stay (s : Ed) (b : Buffer) : { setCur s b with cursor := s.cursor } = setCur s b := by
  unfold setCur
  split <;> rfl

theorem roams_insert {k : Nat} (hk : k ≠ 0) (hs : Roams h fs u k s) (y : Char) :
    Ensues (insertCharsAfterCursor E [y]) s (Roams h fs u k) :=
  roams_edit (E := E) hk hs fun w hw hq => by
    refine ⟨{ data := w.data.take s.cursor ++ [y] ++ w.data.drop s.cursor, actions := .insert s.cursor [y] :: w.actions,
              undone := [] }, s.cursor + 1, by simp; omega, ?_⟩
    simp [insertCharsAfterCursor, bind, M.bind, M.get, curBufMut, hw, noRes, Buffer.insert_eq w _ _ hq, M.modify,
      setCur_cursor]

theorem roams_backspace {k : Nat} (hk : k ≠ 0) (hs : Roams h fs u k s) :
    Ensues (deleteBeforeCursor E) s (Roams h fs u k) := by
  by_cases h0 : s.cursor = 0
  · have e : deleteBeforeCursor E s = moveCursorToStartOfLine E s := by
      have e1 : { s with cursor := 0 } = s := by rw [← h0]
      simp [deleteBeforeCursor, bind, M.bind, M.get, h0, pure, M.pure, moveCursorToStartOfLine, M.modify, e1]
    unfold Ensues
    rw [e]
    exact roams_home hk hs
  · refine roams_edit (E := E) hk hs fun w hw hq => ?_
    refine ⟨{ data := w.data.take (s.cursor - 1) ++ w.data.drop s.cursor,
              actions := .remove (s.cursor - 1) ((w.data.drop (s.cursor - 1)).take (s.cursor - (s.cursor - 1))) :: w.actions,
              undone := [] }, s.cursor - 1, by simp; omega, ?_⟩
    have h1 : s.cursor > 0 := by omega
    simp only [deleteBeforeCursor, bind, M.bind, M.get, h1, if_true, curBufMut, hw,
      Buffer.remove_eq w (s.cursor - 1) s.cursor ⟨by omega, hq⟩, M.modify, setCur_cursor]

theorem roams_delete {k : Nat} (hk : k ≠ 0) (hs : Roams h fs u k s) :
    Ensues (deleteAfterCursor E) s (Roams h fs u k) :=
  roams_edit (E := E) hk hs fun w hw hq => by
    by_cases hc : s.cursor < w.data.length
    · refine ⟨{ data := w.data.take s.cursor ++ w.data.drop (s.cursor + 1),
                actions := .remove s.cursor ((w.data.drop s.cursor).take (s.cursor + 1 - s.cursor)) :: w.actions,
                undone := [] }, s.cursor, by simp; omega, ?_⟩
      rw [setCur_stay]
      simp only [deleteAfterCursor, bind, M.bind, M.get, curBufMut, hw, Buffer.numChars, hc, if_true,
        Buffer.remove_eq w s.cursor (s.cursor + 1) ⟨by omega, hc⟩, Option.map_some]
    · refine ⟨w, s.cursor, hq, ?_⟩
      rw [setCur_stay]
      simp [deleteAfterCursor, bind, M.bind, M.get, curBufMut, hw, Buffer.numChars, hc]

theorem roams_kill {k : Nat} (hk : k ≠ 0) (hs : Roams h fs u k s) :
    Ensues (deleteAllBeforeCursor E) s (Roams h fs u k) :=
  roams_edit (E := E) hk hs fun w hw hq => by
    refine ⟨{ data := w.data.take 0 ++ w.data.drop s.cursor,
              actions := .remove 0 ((w.data.drop 0).take (s.cursor - 0)) :: w.actions, undone := [] }, 0, Nat.zero_le _, ?_⟩
    simp only [deleteAllBeforeCursor, bind, M.bind, M.get, curBufMut, hw, Buffer.remove_eq w 0 s.cursor ⟨by omega, hq⟩, M.modify]

theorem roams_killAfter {k : Nat} (hk : k ≠ 0) (hs : Roams h fs u k s) :
    Ensues (deleteAllAfterCursor E) s (Roams h fs u k) :=
  roams_edit (E := E) hk hs fun w hw hq => by
    refine ⟨{ data := w.data.take s.cursor ++ w.data.drop w.data.length,
              actions := .remove s.cursor ((w.data.drop s.cursor).take (w.data.length - s.cursor)) :: w.actions,
              undone := [] }, s.cursor, by simp; omega, ?_⟩
    · rw [setCur_stay]
      simp only [deleteAllAfterCursor, bind, M.bind, M.get, curBufMut, hw, noRes, Buffer.truncate,
        Buffer.remove_eq w s.cursor _ ⟨hq, Nat.le_refl _⟩, Option.map_some]

/-- The keys that edit an entry. -/
def tinkering : Key → Bool
  | .char c => c != '\t' && c != '\n'
  | .backspace | .delete => true
  | .ctrl c => c ∈ ['h', 'u', 'k']
  | _ => false

theorem roams_tinker {k : Nat} (hk : k ≠ 0) (hs : Roams h fs u k s) (comp : Text → List Text) {key : Key}
    (ht : tinkering key = true) : Lost (Emacs.keyMap.handleKey E comp key ({}, s)) ∨
      ∃ s1, Emacs.keyMap.handleKey E comp key ({}, s) = .ok false ({}, s1) ∧ Roams h fs u k s1 := by
  cases key with
  | char y =>
    have e : KeyMap.translate (.char y) = .char y := by simp [KeyMap.translate]
    simp only [tinkering, Bool.and_eq_true, bne_iff_ne, ne_eq] at ht
    exact roams_step hs (by rw [e]; simp [ht.1, ht.2]) (by rw [e]; simp) (by rw [e]; rfl) (roams_insert hk hs y)
  | backspace => exact roams_step hs (by decide) (by decide) rfl (roams_backspace hk hs)
  | delete => exact roams_step hs (by decide) (by decide) rfl (roams_delete hk hs)
  | ctrl c =>
    simp only [tinkering, decide_eq_true_eq, List.mem_cons, List.not_mem_nil, or_false] at ht
    rcases ht with rfl | rfl | rfl
    · exact roams_step hs (by decide) (by decide) rfl (roams_backspace hk hs)
    · exact roams_step hs (by decide) (by decide) rfl (roams_kill hk hs)
    · exact roams_step hs (by decide) (by decide) rfl (roams_killAfter hk hs)
  | _ => cases ht

/-- The keys that go up and down in the history. -/
def goesUp (key : Key) : Bool := key = .up ∨ key = .ctrl 'p'
def goesDown (key : Key) : Bool := key = .down ∨ key = .ctrl 'n'

/-- Editing on the new line, going up and down in the history, and moving the cursor and editing on entries; what is on the
new line if it ends there.  The line `x` has the suggestion `f x` and `m x` entries are met going up from it. -/
def stroll (f : Text → Option Text) (m : Text → Nat) : List Key → Text × Text → Nat → Option (Text × Text)
  | [], u, k => if k = 0 then some u else none
  | key :: keys, u, k =>
    if goesUp key then stroll f m keys (u.1 ++ u.2, []) (min (k + 1) (m (u.1 ++ u.2)))
    else if goesDown key then stroll f m keys (u.1 ++ u.2, []) (k - 1)
    else if k = 0 ∧ Spec.editing key = true ∧ ¬ (key = .ctrl 'd' ∧ u = ([], [])) then
      stroll f m keys (Spec.edit (f (u.1 ++ u.2)) key u) 0
    else if k ≠ 0 ∧ (looking key = true ∨ tinkering key = true) then stroll f m keys u k
    else none

theorem stroll_loop (hh : h.share = false) (input : List KeyMap.Input) {f : Text → Option Text} {m : Text → Nat}
    (hf : ∀ x, (proposal h x).map (·.data) = f x) (hm : ∀ x, (picks h x).length = m x) :
    ∀ (keys : List (Key × (Text → List Text))) (u v : Text × Text) (k : Nat) (s : Ed), Roams h fs u k s →
      stroll f m (keys.map Prod.fst) u k = some v →
      Lost (Emacs.keyMap.loop E (keys.map (fun k => .key k.1 k.2) ++ input) ({}, s)) ∨
      ∃ s1, Emacs.keyMap.loop E (keys.map (fun k => .key k.1 k.2) ++ input) ({}, s) = Emacs.keyMap.loop E input ({}, s1) ∧
        Poised h fs v (proposal h (v.1 ++ v.2)) s1
  | [], u, v, k, s, hs, hv => by
    unfold Roams at hs
    simp only [List.map_nil, stroll] at hv
    split at hv
    · rename_i hk
      cases hv
      rw [if_pos hk] at hs
      exact .inr ⟨s, rfl, hs⟩
    · cases hv
  | key :: keys, u, v, k, s, hs, hv => by
    have hcons : Emacs.keyMap.loop E ((key :: keys).map (fun k => .key k.1 k.2) ++ input) (({} : Emacs), s) =
        (Emacs.keyMap.handleKey E key.2 key.1 >>= fun done =>
          if done then ed M.get >>= fun s => ofOption (intoText s)
          else Emacs.keyMap.loop E (keys.map (fun k => .key k.1 k.2) ++ input)) (({} : Emacs), s) := rfl
    rw [hcons]
    have go : ∀ {u' k'}, (Lost (Emacs.keyMap.handleKey E key.2 key.1 ({}, s)) ∨
        ∃ s1, Emacs.keyMap.handleKey E key.2 key.1 ({}, s) = .ok false ({}, s1) ∧ Roams h fs u' k' s1) →
        stroll f m (keys.map Prod.fst) u' k' = some v →
        Lost (M.bind (Emacs.keyMap.handleKey E key.2 key.1) (fun done =>
          if done then ed M.get >>= fun s => ofOption (intoText s)
          else Emacs.keyMap.loop E (keys.map (fun k => .key k.1 k.2) ++ input)) (({} : Emacs), s)) ∨
        ∃ s1, M.bind (Emacs.keyMap.handleKey E key.2 key.1) (fun done =>
          if done then ed M.get >>= fun s => ofOption (intoText s)
          else Emacs.keyMap.loop E (keys.map (fun k => .key k.1 k.2) ++ input)) (({} : Emacs), s) =
            Emacs.keyMap.loop E input ({}, s1) ∧ Poised h fs v (proposal h (v.1 ++ v.2)) s1 := by
      intro u' k' hstep hv'
      unfold M.bind
      rcases hstep with h3 | ⟨s1, e1, b1⟩
      · left
        revert h3
        generalize Emacs.keyMap.handleKey E key.2 key.1 _ = r
        cases r <;> simp [Lost]
      · rw [e1]
        exact stroll_loop hh input hf hm keys u' v k' s1 b1 hv'
    simp only [List.map_cons, stroll] at hv
    split at hv
    · rename_i hup
      rw [← hm] at hv
      refine go ?_ hv
      simp only [goesUp, decide_eq_true_eq] at hup
      rcases hup with e | e <;> rw [e] <;>
        exact roams_step hs (by decide) (by decide) rfl (roams_up hh hs)
    split at hv
    · rename_i hdn
      refine go ?_ hv
      simp only [goesDown, decide_eq_true_eq] at hdn
      rcases hdn with e | e <;> rw [e] <;>
        exact roams_step hs (by decide) (by decide) rfl (roams_down hs)
    split at hv
    · rename_i hc
      obtain ⟨hk, hed, hnd⟩ := hc
      subst hk
      refine go ?_ hv
      unfold Roams at hs
      rw [if_pos rfl] at hs
      rcases poised_edit (E := E) hs key.2 hed hnd with h1 | ⟨s1, e1, w, hw, b1⟩
      · exact .inl h1
      · refine .inr ⟨s1, e1, ?_⟩
        rw [hf] at hw
        subst hw
        unfold Roams
        rw [if_pos rfl]
        exact b1
    split at hv
    · rename_i hc
      obtain ⟨hk, hl⟩ := hc
      refine go ?_ hv
      rcases hl with hl | hl
      rotate_left
      · exact roams_tinker hk hs key.2 hl
      simp only [looking, decide_eq_true_eq, List.mem_cons, List.not_mem_nil, or_false] at hl
      rcases hl with e | e | e | e | e | e <;> rw [e]
      · exact roams_step hs (by decide) (by decide) rfl (roams_left hk hs)
      · exact roams_step hs (by decide) (by decide) rfl (roams_home hk hs)
      · exact roams_step hs (by decide) (by decide) rfl (roams_end hk hs)
      · exact roams_step hs (by decide) (by decide) rfl (roams_home hk hs)
      · exact roams_step hs (by decide) (by decide) rfl (roams_left hk hs)
      · exact roams_step hs (by decide) (by decide) rfl (roams_end hk hs)
    · cases hv

end

end Liner
