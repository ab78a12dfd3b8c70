import Verif.Proof.Nav
import Verif.Props.Witness
/-
Moving through the history: C34, C35.
-/

namespace Liner.Props
open Liner Liner.Spec Liner.Editor Liner.Wit

theorem nav_start {s : Ed} (hs : ¬ s.reverseSearch ∧ ¬ s.forwardSearch) (hl : s.curHistoryLoc = none)
    (hu : UpToDate s) (ht : s.newBuf.data ≠ [] → s.historySubsetLoc = none) :
    Nav (if s.newBuf.data = [] then List.range s.history.buffers.length
      else s.history.getHistorySubset s.newBuf) 0 s where
  search := by simp [Ed.isSearch, hs.1, hs.2]
  upto := hu
  le := by omega
  bound i hi := by
    split at hi
    · simpa using hi
    · exact historySubset_lt hi
  loc := by rw [if_pos rfl]; exact hl
  empty he := by rw [if_pos he]
  typed he := ⟨by rw [if_neg he], by rw [if_pos rfl]; exact ht he⟩

theorem nav_run {E : Env} {s s' : Ed} {idx : List Nat} (h : Nav idx 0 s) (dirs : List Bool)
    (hd : dirs ≠ []) (hr : runOps E (navOps dirs) s = .ok () s') :
    ∃ t, navText s.newBuf.data (idx.reverse.filterMap ((texts s.history)[·]?))
      (dirs.foldl (navStep idx.length) 0) = some t ∧ Lands s.noEol s' t [] := by
  obtain ⟨up, dirs, rfl⟩ := List.exists_cons_of_ne_nil hd
  have hn := wp_ok (navOps_nav E dirs up h) hr
  obtain ⟨t, ht⟩ := hn.lands
  refine ⟨t, ?_, ht⟩
  have := hn.nav.text hn.valid
  rw [hn.newBuf, hn.history, ht.1, List.append_nil] at this
  exact this.symm

/-! ### C34 -/

/-- C34: with nothing typed, any sequence of moves up (`true`) and down (`false`) from the new line is a
walk over the entries, newest first. -/
theorem C34_walk (E : Env) (s s' : Ed) (dirs : List Bool) (hd : dirs ≠ [])
    (hs : ¬ s.reverseSearch ∧ ¬ s.forwardSearch) (hl : s.curHistoryLoc = none)
    (he : s.newBuf.data = []) (hu : UpToDate s)
    (hr : runOps E (navOps dirs) s = .ok () s') :
    ∃ t, navText [] (allEntries s.history)
        (dirs.foldl (navStep (allEntries s.history).length) 0) = some t ∧
      Lands s.noEol s' t [] := by
  have hn := nav_start hs hl hu (fun h => absurd he h)
  rw [if_pos he] at hn
  obtain ⟨t, h1, h2⟩ := nav_run hn dirs hd hr
  refine ⟨t, ?_, h2⟩
  rw [all_of_range, he] at h1
  have : (allEntries s.history).length = (List.range s.history.buffers.length).length := by
    simp [allEntries, texts]
  rw [this]
  exact h1

/-- The same, one step of the walk: the position never leaves the range, so up at the oldest entry and
down on the new line stay. -/
theorem navSteps_up (n k : Nat) : (List.replicate k true).foldl (navStep n) 0 = min n k := by
  have : ∀ k p, p ≤ n → (List.replicate k true).foldl (navStep n) p = min n (p + k) := by
    intro k
    induction k with
    | zero => intro p hp; simp; omega
    | succ k ih =>
      intro p hp
      rw [List.replicate_succ, List.foldl_cons, ih _ (by simp [navStep])]
      simp [navStep]; omega
  rw [this k 0 (by omega)]; simp

theorem navSteps_down (n k p : Nat) : (List.replicate k false).foldl (navStep n) p = p - k := by
  induction k generalizing p with
  | zero => simp
  | succ k ih => rw [List.replicate_succ, List.foldl_cons, ih]; simp [navStep]; omega

/-- C34: the `k`-th `move_up` shows the `k`-th newest entry. -/
theorem C34_kth (E : Env) (s s' : Ed) (k : Nat) (hk : 0 < k) (t : Text)
    (ht : (texts s.history)[(texts s.history).length - k]? = some t)
    (hn : k ≤ (texts s.history).length)
    (hs : ¬ s.reverseSearch ∧ ¬ s.forwardSearch) (hl : s.curHistoryLoc = none)
    (he : s.newBuf.data = []) (hu : UpToDate s)
    (hr : runOps E (List.replicate k .moveUp) s = .ok () s') : Lands s.noEol s' t [] := by
  have hd : List.replicate k true ≠ [] := by simp; omega
  have hops : navOps (List.replicate k true) = List.replicate k .moveUp := by simp [navOps]
  obtain ⟨t', h1, h2⟩ := C34_walk E s s' _ hd hs hl he hu (by rw [hops]; exact hr)
  have hlen : (allEntries s.history).length = (texts s.history).length := by simp [allEntries]
  rw [navSteps_up, hlen, Nat.min_eq_right hn, navText, if_neg (by omega), allEntries,
    List.getElem?_reverse (by omega)] at h1
  have : (texts s.history).length - 1 - (k - 1) = (texts s.history).length - k := by omega
  rw [this, ht] at h1
  cases h1
  exact h2

/-- C34: further up than the oldest entry stays at the oldest entry. -/
theorem C34_oldest (E : Env) (s s' : Ed) (k : Nat) (t : Text) (hk : 0 < k)
    (ht : (texts s.history)[0]? = some t) (hn : (texts s.history).length ≤ k)
    (hs : ¬ s.reverseSearch ∧ ¬ s.forwardSearch) (hl : s.curHistoryLoc = none)
    (he : s.newBuf.data = []) (hu : UpToDate s)
    (hr : runOps E (List.replicate k .moveUp) s = .ok () s') : Lands s.noEol s' t [] := by
  have hd : List.replicate k true ≠ [] := by simp; omega
  have hops : navOps (List.replicate k true) = List.replicate k .moveUp := by simp [navOps]
  obtain ⟨t', h1, h2⟩ := C34_walk E s s' _ hd hs hl he hu (by rw [hops]; exact hr)
  have hlen : (allEntries s.history).length = (texts s.history).length := by simp [allEntries]
  have h0 : 0 < (texts s.history).length := (List.getElem?_eq_some_iff.mp ht).1
  rw [navSteps_up, hlen, Nat.min_eq_left hn, navText, if_neg (by omega), allEntries,
    List.getElem?_reverse (by omega)] at h1
  have : (texts s.history).length - 1 - ((texts s.history).length - 1) = 0 := by omega
  rw [this, ht] at h1
  cases h1
  exact h2

/-- C34: going down past the newest entry returns to the empty new line. -/
theorem C34_back (E : Env) (s s' : Ed) (k m : Nat) (hk : 0 < k) (hm : k ≤ m)
    (hs : ¬ s.reverseSearch ∧ ¬ s.forwardSearch) (hl : s.curHistoryLoc = none)
    (he : s.newBuf.data = []) (hu : UpToDate s)
    (hr : runOps E (List.replicate k .moveUp ++ List.replicate m .moveDown) s = .ok () s') :
    text? s' = some [] := by
  have hd : List.replicate k true ++ List.replicate m false ≠ [] := by simp; omega
  have hops : navOps (List.replicate k true ++ List.replicate m false) =
    List.replicate k .moveUp ++ List.replicate m .moveDown := by simp [navOps]
  obtain ⟨t', h1, h2⟩ := C34_walk E s s' _ hd hs hl he hu (by rw [hops]; exact hr)
  rw [List.foldl_append, navSteps_up, navSteps_down, navText, if_pos (by omega)] at h1
  cases h1
  exact h2.1

example : okAnd (runOps Tests.env (navOps [true, true, true, false]) (fresh ["one", "two", "three"]))
    (fun _ s => text? s == some "two".toList && s.cursor == 3) = true := by decide +kernel

example : UpToDate (fresh ["one", "two"]) := fun h => by simp [fresh, Editor.initial, hist] at h

/-! ### C35 -/

/-- C35: with text typed, any sequence of moves from the new line is a walk over the entries that start
with it, then those that contain it; position 0 is the typed text. -/
theorem C35_walk_partial (E : Env) (s s' : Ed) (dirs : List Bool) (hd : dirs ≠ [])
    (hs : ¬ s.reverseSearch ∧ ¬ s.forwardSearch) (hl : s.curHistoryLoc = none)
    (he : s.newBuf.data ≠ []) (hn : s.historySubsetLoc = none) (hu : UpToDate s)
    (hr : runOps E (navOps dirs) s = .ok () s') :
    ∃ t, navText s.newBuf.data (matchingEntries s.history s.newBuf.data)
        (dirs.foldl (navStep (matchingEntries s.history s.newBuf.data).length) 0) = some t ∧
      Lands s.noEol s' t [] := by
  have hv := nav_start hs hl hu (fun _ => hn)
  rw [if_neg he] at hv
  obtain ⟨t, h1, h2⟩ := nav_run hv dirs hd hr
  refine ⟨t, ?_, h2⟩
  have hlen : (matchingEntries s.history s.newBuf.data).length =
      (s.history.getHistorySubset s.newBuf).length := by
    rw [← matching_of_subset _ _ he]
    have : (s.history.getHistorySubset s.newBuf).reverse.filterMap ((texts s.history)[·]?) =
        (s.history.getHistorySubset s.newBuf).reverse.map
          fun i => ((texts s.history)[i]?).getD [] := by
      rw [← List.filterMap_eq_map]
      apply List.filterMap_congr
      intro i hi
      have := hv.bound i (by simpa using hi)
      have hl : i < (texts s.history).length := by simpa [texts] using this
      simp [List.getElem?_eq_getElem hl]
    rw [this]
    simp
  rw [hlen, ← matching_of_subset _ _ he]
  exact h1

/-- C35: coming back down restores the typed text. -/
theorem C35_back_partial (E : Env) (s s' : Ed) (k m : Nat) (hk : 0 < k) (hm : k ≤ m)
    (hs : ¬ s.reverseSearch ∧ ¬ s.forwardSearch) (hl : s.curHistoryLoc = none)
    (he : s.newBuf.data ≠ []) (hn : s.historySubsetLoc = none) (hu : UpToDate s)
    (hr : runOps E (List.replicate k .moveUp ++ List.replicate m .moveDown) s = .ok () s') :
    text? s' = some s.newBuf.data := by
  have hd : List.replicate k true ++ List.replicate m false ≠ [] := by simp; omega
  have hops : navOps (List.replicate k true ++ List.replicate m false) =
    List.replicate k .moveUp ++ List.replicate m .moveDown := by simp [navOps]
  obtain ⟨t', h1, h2⟩ := C35_walk_partial E s s' _ hd hs hl he hn hu (by rw [hops]; exact hr)
  rw [List.foldl_append, navSteps_up, navSteps_down, navText, if_pos (by omega)] at h1
  cases h1
  rw [h2.1, List.append_nil]

example : okAnd (runOps Tests.env (navOps [true, true, true, false])
    (fresh ["make", "remake", "ls", "make all"] "make")) (fun _ s => text? s == some "make all".toList)
    = true := by decide +kernel

example : okAnd (runOps Tests.env (navOps [true, true])
    (fresh ["make", "remake", "ls", "make all"] "make")) (fun _ s => text? s == some "remake".toList)
    = true := by decide +kernel

example : matchingEntries (hist ["make", "remake", "ls", "make all"]) "make".toList =
    ["make all".toList, "remake".toList] := by decide

/-- C35 fails when the text is changed after Alt-> has left the history: the next Up continues with the
entries of the old text.  Here "ac" is typed, "acd" is the only entry that matches, but Up shows the
entry "ac". -/
theorem C35_stale_violation : ∃ (E : Env) (s s' : Ed), ¬ s.reverseSearch ∧ ¬ s.forwardSearch ∧
    s.curHistoryLoc = none ∧ s.newBuf.data = ['a', 'c'] ∧
    matchingEntries s.history s.newBuf.data = [['a', 'c', 'd']] ∧
    moveUp E s = .ok () s' ∧ text? s' = some ['a', 'c'] := by
  have h : okAnd (emacs ["ab", "ac", "acd"] [.char 'a', .up, .alt '>', .char 'c']) (fun _ t =>
      !t.2.reverseSearch && !t.2.forwardSearch && t.2.curHistoryLoc == none &&
      t.2.newBuf.data == ['a', 'c'] &&
      matchingEntries t.2.history t.2.newBuf.data == [['a', 'c', 'd']] &&
      okAnd (moveUp Tests.env t.2) fun _ s' => text? s' == some ['a', 'c']) = true := by
    decide +kernel
  obtain ⟨_, t, _, h⟩ := of_okAnd h
  simp only [Bool.and_eq_true, beq_iff_eq, Bool.not_eq_true'] at h
  obtain ⟨⟨⟨⟨⟨h1, h2⟩, h3⟩, h4⟩, h5⟩, h6⟩ := h
  obtain ⟨_, s', h6, h7⟩ := of_okAnd h6
  rw [beq_iff_eq] at h7
  exact ⟨_, t.2, s', by simp [h1], by simp [h2], h3, h4, h5, h6, h7⟩

end Liner.Props
