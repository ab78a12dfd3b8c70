import Verif.Proof.Search
import Verif.Props.Editor
/-
The incremental search: C36.
-/

namespace Liner.Props
open Liner Liner.Spec Liner.Editor Liner.Wit

/-! ### C36 -/

/-- C36: a search that starts while no entry was selected begins with the newest (backward) or the oldest
(forward) entry that contains the typed text, and every continuation is one cyclic step among these
entries.  The typed text and the history stay. -/
theorem C36_walk_partial (E : Env) (s s' : Ed) (f : Bool) (dirs : List Bool)
    (hs : ¬ s.reverseSearch ∧ ¬ s.forwardSearch) (hn : s.historySubsetLoc = none) (hu : UpToDate s)
    (hr : runOps E (searchOps (f :: dirs)) s = .ok () s') :
    (s'.reverseSearch ∨ s'.forwardSearch) ∧ text? s' = some s.newBuf.data ∧ s'.history = s.history ∧
    s'.autosuggestion.map (·.data) = (found s.history s.newBuf.data)[
      dirs.foldl (searchStep (found s.history s.newBuf.data).length)
        (searchStart (found s.history s.newBuf.data).length f)]? := by
  have hs' : s.isSearch = false := by simp [Ed.isSearch, hs.1, hs.2]
  have hloc : s.searchHistoryLoc = none := by simp [Ed.searchHistoryLoc, hn]
  have key : Wp (runOps E (searchOps (f :: dirs))) s (fun _ s' =>
      (∃ k, Srch f k s') ∧ SrchKeep s s' ∧ s'.autosuggestion = selOf s
        ((refreshed f s).historySubsetLoc.map
          (dirs.foldl (searchStep (s.history.searchIndex s.newBuf).length))))
      (fun _ _ => True) (fun _ => True) := by
    simp only [searchOps, List.map_cons, runOps]
    rw [wp_bind]
    refine wp_mono (search_start E f hs' hu) (fun _ s1 h1 => ?_) (fun _ _ h => h) (fun _ h => h)
    obtain ⟨h1, h2, h3⟩ := h1
    have hsel : ∀ k, selOf s1 k = selOf s k := by
      intro k; unfold selOf; rw [h2.history, h2.newBuf]
    refine wp_mono (searchOps_srch E dirs h1 (by rw [hsel]; exact h3)) (fun _ s2 h4 => ?_)
      (fun _ _ h => h) (fun _ h => h)
    rw [hsel, h2.history, h2.newBuf] at h4
    exact ⟨⟨_, h4.1⟩, ⟨h4.2.1.newBuf.trans h2.newBuf, h4.2.1.history.trans h2.history,
      h4.2.1.noEol.trans h2.noEol⟩, h4.2.2⟩
  obtain ⟨⟨k, h1⟩, h2, h3⟩ := wp_ok key hr
  refine ⟨by simpa [Ed.isSearch] using h1.search, ?_, h2.history, ?_⟩
  · simp [text?, Ed.curBuf?, h1.loc, h2.newBuf]
  · rw [h3, selOf_found, (refreshed_start f hloc).2, found_length]
    split
    · rename_i he; simp [he]
    · rfl

/-- Steps in one direction add up. -/
theorem searchSteps (n k p : Nat) (f : Bool) (hp : p < n) :
    (List.replicate k f).foldl (searchStep n) p =
      if f then (p + k) % n else (p + k * (n - 1)) % n := by
  induction k generalizing p with
  | zero => cases f <;> simp [Nat.mod_eq_of_lt hp]
  | succ k ih =>
    have hpos : 0 < n := by omega
    rw [List.replicate_succ, List.foldl_cons, ih _ (by unfold searchStep; split <;> exact Nat.mod_lt _ hpos)]
    cases f
    · simp only [searchStep, Bool.false_eq_true, if_false]
      rw [Nat.mod_add_mod]
      congr 1
      rw [Nat.add_mul, Nat.one_mul]
      omega
    · simp only [searchStep, if_true]
      rw [Nat.mod_add_mod]
      congr 1
      omega

theorem searchStep_lt {n p : Nat} (hp : p < n) (f : Bool) : searchStep n p f < n := by
  unfold searchStep
  split <;> exact Nat.mod_lt _ (by omega)

theorem searchFold_lt {n p : Nat} (hp : p < n) (dirs : List Bool) :
    dirs.foldl (searchStep n) p < n := by
  induction dirs generalizing p with
  | nil => exact hp
  | cons f dirs ih => exact ih (searchStep_lt hp f)

/-- C36: after as many steps in one direction as there are matches the selection is back. -/
theorem C36_cycle_partial (E : Env) (s s1 s2 : Ed) (f g : Bool) (dirs : List Bool)
    (hs : ¬ s.reverseSearch ∧ ¬ s.forwardSearch) (hn : s.historySubsetLoc = none) (hu : UpToDate s)
    (h1 : runOps E (searchOps (f :: dirs)) s = .ok () s1)
    (h2 : runOps E (searchOps (f :: dirs ++
      List.replicate (found s.history s.newBuf.data).length g)) s = .ok () s2) :
    s2.autosuggestion.map (·.data) = s1.autosuggestion.map (·.data) := by
  rw [(C36_walk_partial E s s1 f dirs hs hn hu h1).2.2.2,
    (C36_walk_partial E s s2 f (dirs ++ List.replicate _ g) hs hn hu h2).2.2.2, List.foldl_append]
  generalize found s.history s.newBuf.data = l
  rcases Nat.eq_zero_or_pos l.length with he | hpos
  · rw [List.length_eq_zero_iff.mp he]; simp
  · have hp : searchStart l.length f < l.length := by unfold searchStart; split <;> omega
    have hq := searchFold_lt hp dirs
    generalize dirs.foldl (searchStep l.length) (searchStart l.length f) = q at hq ⊢
    rw [searchSteps _ _ _ _ hq]
    split
    · rw [Nat.add_mod_right, Nat.mod_eq_of_lt hq]
    · rw [Nat.add_mul_mod_self_left, Nat.mod_eq_of_lt hq]

/-- C36: the matches in the order in which they are visited: going backward the newest first, going
forward the oldest first. -/
theorem C36_order_partial (E : Env) (s s' : Ed) (f : Bool) (k : Nat)
    (hk : k < (found s.history s.newBuf.data).length)
    (hs : ¬ s.reverseSearch ∧ ¬ s.forwardSearch) (hn : s.historySubsetLoc = none) (hu : UpToDate s)
    (hr : runOps E (searchOps (List.replicate (k + 1) f)) s = .ok () s') :
    s'.autosuggestion.map (·.data) = (if f then found s.history s.newBuf.data
      else (found s.history s.newBuf.data).reverse)[k]? := by
  rw [List.replicate_succ] at hr
  rw [(C36_walk_partial E s s' f _ hs hn hu hr).2.2.2]
  generalize found s.history s.newBuf.data = l at *
  have hp : searchStart l.length f < l.length := by unfold searchStart; split <;> omega
  rw [searchSteps _ _ _ _ hp]
  cases f
  · simp only [searchStart, Bool.false_eq_true, if_false]
    rw [List.getElem?_reverse hk]
    have : l.length - 1 + k * (l.length - 1) = (l.length - 1 - k) + l.length * k := by
      obtain ⟨m, hm⟩ : ∃ m, l.length = m + 1 + k := ⟨l.length - 1 - k, by omega⟩
      rw [hm, show m + 1 + k - 1 = m + k by omega, show m + k - k = m by omega]
      rw [Nat.mul_add, Nat.add_mul, Nat.add_mul, Nat.one_mul, Nat.mul_comm k m]
      omega
    rw [this, Nat.add_mul_mod_self_left, Nat.mod_eq_of_lt (by omega)]
  · simp only [searchStart, if_true, Nat.zero_add]
    rw [Nat.mod_eq_of_lt hk]

/-- C36: a search that starts while the entry `target` was selected by moving through the history begins
with the nearest match from there. -/
theorem C36_near (E : Env) (s s' : Ed) (f : Bool) (l target : Nat)
    (hs : ¬ s.reverseSearch ∧ ¬ s.forwardSearch) (hl : s.historySubsetLoc = some l)
    (ht : s.historySubsetIndex[l]? = some target) (hu : UpToDate s)
    (hr : search E f s = .ok () s') (j : Nat) (hj : ContainsAt s.history s.newBuf.data j) :
    ∃ i, Picks s.history s.newBuf.data f target i ∧
      s'.autosuggestion.map (·.data) = (texts s.history)[i]? := by
  obtain ⟨-, -, h3⟩ := wp_ok (search_start E f (by simp [Ed.isSearch, hs.1, hs.2]) hu) hr
  obtain ⟨i, h4, h5⟩ := refreshed_picks f (s := s) (t := target)
    (by simp [Ed.searchHistoryLoc, hl, ht]) hj
  exact ⟨i, h4, by rw [h3]; unfold selOf; rw [h5]; simp [texts]⟩

/-- The redraw after the text changed during a search. -/
theorem typed_display {E : Env} {s s' : Ed} (hs : s.isSearch = true) (hc : s.bufferChanged = true)
    (hr : display E s = .ok () s') :
    s'.autosuggestion = selOf s (refreshed s.forwardSearch s).historySubsetLoc := by
  have hp : pre s = refreshed s.forwardSearch s := by unfold pre; rw [if_pos (by simp [hs, hc])]
  obtain ⟨b, sug, -, hsug, l, c, o, t, rfl⟩ := (wp_ok (display_wp E s) hr).ex
  rw [hp, sugOf_srch (refreshed_srch _ _)] at hsug
  cases hsug
  rfl

/-- What typing during a search selects. -/
theorem typed_selects {E : Env} {s s1 s' : Ed} {b : Buffer} {c l target : Nat}
    (hs : s.reverseSearch ∨ s.forwardSearch) (hn : s.curHistoryLoc = none)
    (hl : s.historySubsetLoc = some l) (ht : s.historySubsetIndex[l]? = some target)
    (h1 : s1 = { setCur s b with cursor := c }) (hr : display E s1 = .ok () s')
    (j : Nat) (hj : ContainsAt s.history b.data j) :
    ∃ i, Picks s.history b.data s.forwardSearch target i ∧
      s'.autosuggestion.map (·.data) = (texts s.history)[i]? := by
  have he : setCur s b = { s with bufferChanged := true, newBuf := b } := by simp [setCur, hn]
  rw [he] at h1
  subst h1
  have h3 := typed_display (by simpa [Ed.isSearch] using hs) rfl hr
  obtain ⟨i, h4, h5⟩ := refreshed_picks s.forwardSearch
    (s := { s with bufferChanged := true, newBuf := b, cursor := c }) (t := target)
    (by simp [Ed.searchHistoryLoc, hl, ht]) hj
  refine ⟨i, h4, ?_⟩
  rw [h3]; unfold selOf; rw [h5]; simp [texts]

/-- C36: typing during a search goes to the nearest match of the longer text, seen from the entry
selected before. -/
theorem C36_typed (E : Env) (s s' : Ed) (l r cs : Text) (k target : Nat)
    (hs : s.reverseSearch ∨ s.forwardSearch) (hn : s.curHistoryLoc = none) (ha : At s l r)
    (hk : s.historySubsetLoc = some k) (ht : s.historySubsetIndex[k]? = some target)
    (hr : insertCharsAfterCursor E cs s = .ok () s')
    (j : Nat) (hj : ContainsAt s.history (l ++ cs ++ r) j) :
    ∃ i, Picks s.history (l ++ cs ++ r) s.forwardSearch target i ∧
      s'.autosuggestion.map (·.data) = (texts s.history)[i]? := by
  have key : Wp (insertCharsAfterCursor E cs) s (fun _ s' =>
      ∃ i, Picks s.history (l ++ cs ++ r) s.forwardSearch target i ∧
        s'.autosuggestion.map (·.data) = (texts s.history)[i]?) (fun _ _ => True) (fun _ => True) := by
    simp only [insertCharsAfterCursor, wp_bind, wp_get, wp_modify]
    refine wp_edit ha.1 (fun b a b' hb hf => ?_)
    simp only [noRes, Option.map_eq_some_iff] at hf
    rw [ha.2] at hf
    obtain ⟨w, hw, he⟩ := hf
    cases he
    have hd := insert_data hb hw
    rw [← hd] at hj ⊢
    refine wp_mono wp_run (fun _ s2 h2 => ?_) (fun _ _ _ => trivial) (fun _ _ => trivial)
    exact typed_selects hs hn hk ht rfl h2 j hj
  exact wp_ok key hr

/-- C36: deleting the character before the cursor during a search does the same for the shorter text. -/
theorem C36_deleted (E : Env) (s s' : Ed) (l r : Text) (c : Char) (k target : Nat)
    (hs : s.reverseSearch ∨ s.forwardSearch) (hn : s.curHistoryLoc = none) (ha : At s (l ++ [c]) r)
    (hk : s.historySubsetLoc = some k) (ht : s.historySubsetIndex[k]? = some target)
    (hr : deleteBeforeCursor E s = .ok () s')
    (j : Nat) (hj : ContainsAt s.history (l ++ r) j) :
    ∃ i, Picks s.history (l ++ r) s.forwardSearch target i ∧
      s'.autosuggestion.map (·.data) = (texts s.history)[i]? := by
  have key : Wp (deleteBeforeCursor E) s (fun _ s' =>
      ∃ i, Picks s.history (l ++ r) s.forwardSearch target i ∧
        s'.autosuggestion.map (·.data) = (texts s.history)[i]?) (fun _ _ => True) (fun _ => True) := by
    simp only [deleteBeforeCursor, wp_bind, wp_get, wp_modify, wp_ite]
    refine ⟨fun _ => wp_edit ha.1 (fun b a b' hb hf => ?_), fun h0 => absurd h0 (by simp [ha.2])⟩
    have hd := (remove_data (m := [c]) hb (by simp [ha.2]) (by simp [ha.2]) hf).2
    rw [← hd] at hj ⊢
    refine wp_mono wp_run (fun _ s2 h2 => ?_) (fun _ _ _ => trivial) (fun _ _ => trivial)
    exact typed_selects hs hn hk ht rfl h2 j hj
  exact wp_ok key hr

/-- `x` is an entry that contains the non-empty `t`; `none` if there is no such entry. -/
def Selects (entries : List Text) (t : Text) : Option Text → Prop
  | some x => x ∈ entries ∧ t ≠ [] ∧ t <:+: x
  | none => ∀ x ∈ entries, ¬ (t ≠ [] ∧ t <:+: x)

theorem selects_of {s : Ed} (h : Sel s) :
    Selects (texts s.history) s.newBuf.data (s.autosuggestion.map (·.data)) := by
  unfold Sel at h
  cases hx : s.autosuggestion with
  | none =>
    rw [hx] at h
    intro x hx
    obtain ⟨b, hb, rfl⟩ := List.mem_map.mp hx
    exact h b hb
  | some x =>
    rw [hx] at h
    exact ⟨List.mem_map_of_mem h.1, h.2⟩

/-- C36: whenever a search runs after any Emacs keys, the selected entry contains the typed text, and
there is one if any entry does. -/
theorem C36_contains_emacs (E : Env) (p p' : Prompt) (h : History) (fs : FS) (b : Buffer)
    (keys : List (Key × (Text → List Text))) (k k' : Emacs) (s' : Ed)
    (hk : session Emacs.keyMap E p keys (k, initial p' h fs b) = .ok () (k', s'))
    (hs : s'.reverseSearch ∨ s'.forwardSearch) :
    Selects (texts s'.history) s'.newBuf.data (s'.autosuggestion.map (·.data)) :=
  selects_of ((atKey_emacs hk).tied.sug.sel (by simpa [Ed.isSearch] using hs))

/-- C36: the same after any vi keys. -/
theorem C36_contains_vi (E : Env) (p p' : Prompt) (h : History) (fs : FS) (b : Buffer)
    (keys : List (Key × (Text → List Text))) (k k' : Vi) (s' : Ed)
    (hk : session Vi.keyMap E p keys (k, initial p' h fs b) = .ok () (k', s'))
    (hs : s'.reverseSearch ∨ s'.forwardSearch) :
    Selects (texts s'.history) s'.newBuf.data (s'.autosuggestion.map (·.data)) :=
  selects_of ((atKey_vi hk).tied.sug.sel (by simpa [Ed.isSearch] using hs))

/-- C36: the same after any operations called on a new editor. -/
theorem C36_contains_ops (E : Env) (p p' : Prompt) (h : History) (fs : FS) (b : Buffer)
    (ops : List EdOp) (s1 s' : Ed) (h1 : start E p (initial p' h fs b) = .ok () s1)
    (h2 : runOps E ops s1 = .ok () s') (hs : s'.reverseSearch ∨ s'.forwardSearch) :
    Selects (texts s'.history) s'.newBuf.data (s'.autosuggestion.map (·.data)) := by
  have ht := initial_td false p' h fs b
  have t1 : Tied false s1 := ⟨(wp_ok (td_start E p _ ht) h1 :), wp_ok (es_start E p _ ht) h1⟩
  exact selects_of ((wp_ok (tied_ops E ops s1 t1) h2).1.sug.sel (by simpa [Ed.isSearch] using hs))

/-- C36 fails when Alt-> has left the history before: the search does not begin with the newest match but
with the entry visited last.  Here "a" is typed; the newest match is "a3", Ctrl-R selects "a1". -/
theorem C36_start_violation : ∃ (E : Env) (s s' : Ed), ¬ s.reverseSearch ∧ ¬ s.forwardSearch ∧
    s.curHistoryLoc = none ∧ text? s = some ['a'] ∧
    (found s.history ['a']).getLast? = some ['a', '3'] ∧
    search E false s = .ok () s' ∧ s'.autosuggestion.map (·.data) = some ['a', '1'] := by
  have h : okAnd (emacs ["a1", "a2", "a3"] [.char 'a', .up, .up, .up, .alt '>']) (fun _ t =>
      !t.2.reverseSearch && !t.2.forwardSearch && t.2.curHistoryLoc == none &&
      text? t.2 == some ['a'] &&
      (found t.2.history ['a']).getLast? == some ['a', '3'] &&
      okAnd (search Tests.env false t.2) fun _ s' =>
        s'.autosuggestion.map (·.data) == some ['a', '1']) = true := by
    decide +kernel
  obtain ⟨_, t, _, h⟩ := of_okAnd h
  simp only [Bool.and_eq_true, beq_iff_eq, Bool.not_eq_true'] at h
  obtain ⟨⟨⟨⟨⟨h1, h2⟩, h3⟩, h4⟩, h5⟩, h6⟩ := h
  obtain ⟨_, s', h6, h7⟩ := of_okAnd h6
  rw [beq_iff_eq] at h7
  exact ⟨_, _, _, by simp [h1], by simp [h2], h3, h4, h5, h6, h7⟩

example : okAnd (runOps Tests.env (searchOps [false, false, true, true])
      (fresh ["ab", "x", "cb", "b"] "b")) (fun _ s =>
    s.isSearch && text? s == some ['b'] &&
    s.autosuggestion.map (·.data) == some ['a', 'b']) = true := by decide +kernel

example : found (hist ["ab", "x", "cb", "b"]) ['b'] = [['a','b'], ['c','b'], ['b']] := by decide

example : okAnd (emacs ["ab", "x", "cb", "b"] [.ctrl 'r', .char 'b', .ctrl 'r']) (fun _ t =>
    t.2.isSearch && t.2.curHistoryLoc == none && t.2.historySubsetLoc == some 1 &&
    t.2.historySubsetIndex[1]? == some 2 && text? t.2 == some ['b'] && t.2.cursor == 1 &&
    t.2.autosuggestion.map (·.data) == some ['c', 'b']) = true := by decide +kernel

example : okAnd (vi ["ab", "x", "cb", "b"] [.ctrl 'r', .char 'x']) (fun _ t =>
    t.2.isSearch && t.2.autosuggestion.map (·.data) == some ['x']) = true := by decide +kernel

end Liner.Props
