import Verif.Model.Context
import Verif.Proof.Recall
import Verif.Props.Editor
import Verif.Props.Keys
import Verif.Props.HistoryFile
import Verif.Props.Navigate
import Verif.Props.Witness
/-
An application that reads one line after the other: C69.
-/

namespace Liner.Props
open Liner Liner.Spec Liner.Editor Liner.History Liner.Wit

/-! ### The history -/

theorem reloaded_config {fs : FS} {h h' : History} (hr : Reloaded fs h h') : SameConfig h h' := by
  induction hr with
  | refl => exact .refl h
  | step _ _ ih => exact ih.trans (loadHistory_config _ _ _)

/-- A read leaves the files alone, and the history, except that a shared one may have been reloaded. -/
theorem read_keeps {c c' : Context} {r : Call} {o : List Tok}
    (h : (∃ t, c.readLine r = .ok t (c', o)) ∨ ∃ e, c.readLine r = .err e (c', o)) :
    Reloaded c.fs c.history c'.history ∧ c'.fs = c.fs ∧ c'.keyBindings = c.keyBindings := by
  have fin : ∀ {κ : Type} {km : KeyMap κ} {k : κ}, (Wp (km.readLine r.env r.prompt r.input)
      (k, initial r.prompt c.history c.fs (.ofText r.buffer)) (fun _ t' => True ∧ HRel (initial r.prompt c.history c.fs (.ofText r.buffer)) t'.2)
        (fun _ t' => HRel (initial r.prompt c.history c.fs (.ofText r.buffer)) t'.2) (fun _ => True)) →
      ((∃ t, c.ended (km.readLine r.env r.prompt r.input (k, initial r.prompt c.history c.fs (.ofText r.buffer))) = .ok t (c', o)) ∨
        ∃ e, c.ended (km.readLine r.env r.prompt r.input (k, initial r.prompt c.history c.fs (.ofText r.buffer))) = .err e (c', o)) →
      Reloaded c.fs c.history c'.history ∧ c'.fs = c.fs ∧ c'.keyBindings = c.keyBindings := by
    intro κ km k key h
    generalize hx : km.readLine r.env r.prompt r.input (k, initial r.prompt c.history c.fs (.ofText r.buffer)) = x at h
    cases x with
    | ok a s =>
      have := wp_ok key hx
      rcases h with ⟨t, h⟩ | ⟨e, h⟩
      · cases h
        exact ⟨this.2.hist, this.2.fs, rfl⟩
      · cases h
    | err a s =>
      have := wp_err key hx
      rcases h with ⟨t, h⟩ | ⟨e, h⟩
      · cases h
      · cases h
        exact ⟨this.hist, this.fs, rfl⟩
    | panic w => rcases h with ⟨t, h⟩ | ⟨e, h⟩ <;> cases h
  unfold Context.readLine at h
  dsimp only at h
  cases hk : c.keyBindings with
  | emacs =>
    rw [hk] at h
    rw [← hk]
    exact fin ((hist_kept r.env .emacs).usesK (uses_readLine Emacs.keyMap r.env (Emacs.uses_core r.env) (Emacs.uses_init r.env) r.prompt r.input)
      ({}, _) trivial) h
  | vi =>
    rw [hk] at h
    rw [← hk]
    exact fin ((hist_kept r.env .vi).usesK (uses_readLine Vi.keyMap r.env (Vi.uses_core r.env) (Vi.uses_init r.env) r.prompt r.input)
      ({}, _) trivial) h

/-- How a conversation goes on. -/
theorem converse_cons {r : Round} {rs : List Round} {c c' : Context} {ls : List Text} {o : List Tok} (h : converse (r :: rs) c = some (ls, c', o)) :
    (∃ t c1 o1 ls1 o2, { c with keyBindings := r.keys }.readLine r.call = .ok t (c1, o1) ∧ converse rs (c1.push t) = some (ls1, c', o2) ∧
      ls = t :: ls1 ∧ o = o1 ++ printed (r.answer t) ++ o2) ∨
    (∃ c1 o1 o2, { c with keyBindings := r.keys }.readLine r.call = .err .interrupted (c1, o1) ∧ converse rs c1 = some (ls, c', o2) ∧ o = o1 ++ o2) ∨
    ({ c with keyBindings := r.keys }.readLine r.call = .err .unexpectedEof (c', o) ∧ ls = []) := by
  unfold converse at h
  split at h
  · rename_i t c1 o1 hr
    obtain ⟨⟨ls1, c2, o2⟩, hx, he⟩ := Option.map_eq_some_iff.mp h
    cases he
    exact .inl ⟨t, c1, o1, ls1, o2, hr, hx, rfl, rfl⟩
  · rename_i c1 o1 hr
    obtain ⟨⟨ls1, c2, o2⟩, hx, he⟩ := Option.map_eq_some_iff.mp h
    cases he
    exact .inr (.inl ⟨c1, o1, o2, hr, hx, rfl⟩)
  · rename_i c1 o1 hr
    cases h
    exact .inr (.inr ⟨hr, rfl⟩)
  · cases h
  · cases h

/-- C69: after a conversation with a history that is not shared, the history and its file are what pushing the lines
returned, one after the other, makes of those before: lines that were given up (Ctrl-C, Ctrl-D), keys, completions, searches
and suggestions leave no trace. -/
theorem C69_history (rs : List Round) (c c' : Context) (ls : List Text) (o : List Tok) (hs : c.history.share = false)
    (h : converse rs c = some (ls, c', o)) : (c'.history, c'.fs) = pushAll c.history c.fs ls := by
  induction rs generalizing c ls o with
  | nil => cases h; rfl
  | cons r rs ih =>
    rcases converse_cons h with ⟨t, c1, o1, ls1, o2, h1, h2, rfl, rfl⟩ | ⟨c1, o1, o2, h1, h2, rfl⟩ | ⟨h1, rfl⟩
    · obtain ⟨g1, g2, -⟩ := read_keeps (.inl ⟨t, h1⟩)
      have g3 := Reloaded.unshared g1 hs
      have e : (c1.push t).history = (c.history.push c.fs (.ofText t)).1 ∧ (c1.push t).fs = (c.history.push c.fs (.ofText t)).2 := by
        unfold Context.push
        dsimp only at g2 ⊢
        rw [g2, g3]
        exact ⟨rfl, rfl⟩
      have := ih _ _ _ (by rw [e.1, (push_config _ _ _).share]; exact hs) h2
      rw [e.1, e.2] at this
      exact this
    · obtain ⟨g1, g2, -⟩ := read_keeps (.inr ⟨_, h1⟩)
      have g3 := Reloaded.unshared g1 hs
      have := ih _ _ _ (by rw [g3]; exact hs) h2
      rw [g3, g2] at this
      exact this
    · obtain ⟨g1, g2, -⟩ := read_keeps (.inr ⟨_, h1⟩)
      rw [Reloaded.unshared g1 hs, g2]
      rfl

/-- C69: so the history holds the newest of the entries before and of the lines returned. -/
theorem C69_newest (rs : List Round) (c c' : Context) (ls : List Text) (o : List Tok) (hs : c.history.share = false)
    (hd : c.history.appendDuplicateEntries = true) (hne : ls ≠ [])
    (h : converse rs c = some (ls, c', o)) : texts c'.history = lastN c.history.maxBuffersSize (texts c.history ++ ls) := by
  have := congrArg Prod.fst (C69_history rs c c' ls o hs h)
  dsimp only at this
  rw [this]
  exact C15_push_keeps_newest_partial _ _ _ (fun hr => by have := hr.2.2.2; rw [hs] at this; cases this) hd hne

/-- C69: and when repeated entries are dropped, a line that repeats the one before it is left out. -/
theorem C69_newest_no_repeat (rs : List Round) (c c' : Context) (ls : List Text) (o : List Tok) (hs : c.history.share = false)
    (hd : c.history.appendDuplicateEntries = false) (hm : 0 < c.history.maxBuffersSize) (hb : (texts c.history).length ≤ c.history.maxBuffersSize)
    (h : converse rs c = some (ls, c', o)) :
    texts c'.history = lastN c.history.maxBuffersSize (texts c.history ++ noRepeat (texts c.history).getLast? ls) := by
  have := congrArg Prod.fst (C69_history rs c c' ls o hs h)
  dsimp only at this
  rw [this]
  exact C15_push_no_repeat_partial _ _ _ (fun hr => by have := hr.2.2.2; rw [hs] at this; cases this) hd hm hb

/-- C69: with `inc_append` the file grows by the lines returned, in order, and nothing else is written to it.  This also holds
when the history is shared. -/
theorem C69_file (rs : List Round) (c c' : Context) (ls : List Text) (o : List Tok) (p : FPathName) (bytes : Bytes)
    (hi : c.history.incAppend = true) (hf : c.history.fileName = some p) (hb : Holds c.fs p bytes)
    (hl : c.history.loadDuplicates = true) (ha : c.history.appendDuplicateEntries = true)
    (h : converse rs c = some (ls, c', o)) : Holds c'.fs p (bytes ++ asLines ls) := by
  induction rs generalizing c ls o bytes with
  | nil => cases h; simpa [asLines] using hb
  | cons r rs ih =>
    rcases converse_cons h with ⟨t, c1, o1, ls1, o2, h1, h2, rfl, rfl⟩ | ⟨c1, o1, o2, h1, h2, rfl⟩ | ⟨h1, rfl⟩
    · obtain ⟨g1, g2, -⟩ := read_keeps (.inl ⟨t, h1⟩)
      have g3 := reloaded_config g1
      dsimp only at g2 g3
      have g4 := push_append c1.history c1.fs p bytes t (g3.incAppend.trans hi) (g3.fileName.trans hf) (g2 ▸ hb)
        (.inl (g3.loadDuplicates.trans hl)) (.inl (g3.appendDuplicateEntries.trans ha))
      have g5 := push_config c1.history c1.fs (Buffer.ofText t)
      have := ih (c1.push t) ls1 o2 (bytes ++ encode t ++ [10]) (g5.incAppend.trans (g3.incAppend.trans hi))
        (g5.fileName.trans (g3.fileName.trans hf)) g4.1 (g5.loadDuplicates.trans (g3.loadDuplicates.trans hl))
        (g5.appendDuplicateEntries.trans (g3.appendDuplicateEntries.trans ha)) h2
      simpa [asLines] using this
    · obtain ⟨g1, g2, -⟩ := read_keeps (.inr ⟨_, h1⟩)
      have g3 := reloaded_config g1
      dsimp only at g2 g3
      exact ih c1 ls o2 bytes (g3.incAppend.trans hi) (g3.fileName.trans hf) (g2 ▸ hb) (g3.loadDuplicates.trans hl)
        (g3.appendDuplicateEntries.trans ha) h2
    · obtain ⟨g1, g2, -⟩ := read_keeps (.inr ⟨_, h1⟩)
      rw [g2]
      simpa [asLines] using hb

/-! ### Coming back to earlier lines -/

/-- The input: Ups (`true`) and Downs, and then Enter. -/
def recalls (comps : List (Bool × (Text → List Text))) (comp : Text → List Text) (rest : List KeyMap.Input) : List KeyMap.Input :=
  (comps.map fun c => .key (if c.1 then .up else .down) c.2) ++ .key (.char '\n') comp :: rest

/-- C69: a read that returns after some Ups and Downs and Enter returns the entry at that place, counted from the newest;
with a text to begin with, of the entries that contain it.  Both for Emacs and for vi keys. -/
theorem C69_recall (c c' : Context) (r : Call) (t : Text) (o : List Tok) (hs : c.history.share = false)
    (comps : List (Bool × (Text → List Text))) (comp : Text → List Text) (rest : List KeyMap.Input) (hr : r.input = recalls comps comp rest)
    (h : c.readLine r = .ok t (c', o)) (entries : List Text)
    (he : entries = if r.buffer = [] then allEntries c.history else matchingEntries c.history r.buffer)
    (line : Text) (hl : navText r.buffer entries ((comps.map Prod.fst).foldl (navStep entries.length) 0) = some line)
    (hb : line.getLast? ≠ some '\\') : t = line := by
  have e : entries = (recallIdx r.buffer c.history).reverse.filterMap ((texts c.history)[·]?) := by
    rw [he]
    unfold recallIdx
    split
    · exact (all_of_range _).symm
    · rename_i hne
      exact (matching_of_subset c.history (.ofText r.buffer) hne).symm
  have en : entries.length = (recallIdx r.buffer c.history).length := by
    rw [e]
    have : ∀ i ∈ (recallIdx r.buffer c.history).reverse, ∃ a, (texts c.history)[i]? = some a := by
      intro i hi
      have hi : i < (texts c.history).length := by
        rw [List.mem_reverse] at hi
        unfold recallIdx at hi
        unfold texts
        rw [List.length_map]
        split at hi
        · exact List.mem_range.mp hi
        · exact historySubset_lt hi
      exact ⟨_, List.getElem?_eq_getElem hi⟩
    rw [← List.length_reverse (as := recallIdx r.buffer c.history)]
    generalize (recallIdx r.buffer c.history).reverse = l at this
    induction l with
    | nil => rfl
    | cons a l ih =>
      obtain ⟨b, hb⟩ := this a (by simp)
      rw [List.filterMap_cons, hb]
      simp only [List.length_cons]
      rw [ih fun i hi => this i (by simp [hi])]
  rw [en, e] at hl
  have hin : r.input = (comps.map fun c => .key (navKey c.1) c.2) ++ .key (.char '\n') comp :: rest := hr
  unfold Context.readLine at h
  dsimp only at h
  cases hk : c.keyBindings with
  | emacs =>
    rw [hk] at h
    have key : Wp (Emacs.keyMap.readLine r.env r.prompt r.input) ({}, initial r.prompt c.history c.fs (.ofText r.buffer))
        (fun t _ => t = line) (fun _ _ => True) (fun _ => True) := by
      unfold KeyMap.readLine KeyMap.handleKeys
      rw [wp_bind, wp_ed]
      refine wp_mono (walk_start r.prompt c.fs hs) (fun _ s1 h1 => ?_) (fun _ _ h => h) (fun _ h => h)
      rw [hin]
      exact walk_loop (steps_emacs r.env) comps comp rest trivial h1.1 h1.2 hl hb
    dsimp only at h
    generalize hx : Emacs.keyMap.readLine r.env r.prompt r.input ({}, initial r.prompt c.history c.fs (.ofText r.buffer)) = x at h
    cases x with
    | ok a s => cases h; have := wp_ok key hx; exact this
    | err a s => cases h
    | panic w => cases h
  | vi =>
    rw [hk] at h
    have key : Wp (Vi.keyMap.readLine r.env r.prompt r.input) ({}, initial r.prompt c.history c.fs (.ofText r.buffer))
        (fun t _ => t = line) (fun _ _ => True) (fun _ => True) := by
      unfold KeyMap.readLine KeyMap.handleKeys
      rw [wp_bind, wp_ed]
      refine wp_mono (walk_start r.prompt c.fs hs) (fun _ s1 h1 => ?_) (fun _ _ h => h) (fun _ h => h)
      rw [wp_bind]
      refine wp_mono (walk_init r.env rfl h1.1 h1.2) (fun _ t1 h2 => ?_) (fun _ _ h => h) (fun _ h => h)
      rw [hin]
      exact walk_loop (steps_vi r.env) comps comp rest h2.1 h2.2.1 h2.2.2 hl hb
    dsimp only at h
    generalize hx : Vi.keyMap.readLine r.env r.prompt r.input ({}, initial r.prompt c.history c.fs (.ofText r.buffer)) = x at h
    cases x with
    | ok a s => cases h; have := wp_ok key hx; exact this
    | err a s => cases h
    | panic w => cases h

/-- C69: in particular, after a conversation, `k` Ups and Enter bring back the line that was returned `k` lines ago. -/
theorem C69_again (rs : List Round) (c c' c'' : Context) (ls : List Text) (o o' : List Tok) (hs : c.history.share = false)
    (hd : c.history.appendDuplicateEntries = true) (h : converse rs c = some (ls, c', o))
    (r : Call) (t : Text) (k : Nat) (hk : 0 < k) (hm : k ≤ c.history.maxBuffersSize) (hbuf : r.buffer = [])
    (hr : r.input = List.replicate k (.key .up fun _ => []) ++ [.key (.char '\n') fun _ => []])
    (h' : c'.readLine r = .ok t (c'', o')) (line : Text) (hl : ls.reverse[k - 1]? = some line) (hb : line.getLast? ≠ some '\\') :
    t = line := by
  have hne : ls ≠ [] := by
    rintro rfl
    simp at hl
  have hlen : k - 1 < ls.length := by
    have := (List.getElem?_eq_some_iff.mp hl).1
    simpa using this
  have hh := C69_history rs c c' ls o hs h
  have hsh : c'.history.share = false := by
    have := congrArg Prod.fst hh
    dsimp only at this
    rw [this]
    clear * - hs
    generalize c.history = x at hs ⊢
    generalize c.fs = fs
    induction ls generalizing x fs with
    | nil => exact hs
    | cons a ls ih => exact ih _ ((push_config x fs (Buffer.ofText a)).share.trans hs) _
  have ht := C69_newest rs c c' ls o hs hd hne h
  refine C69_recall c' c'' r t o' hsh (List.replicate k (true, fun _ => [])) (fun _ => []) [] ?_ h' _ rfl line ?_ hb
  · rw [hr]
    unfold recalls
    simp
  · rw [if_pos hbuf, hbuf, List.map_replicate, navSteps_up]
    have hn : (allEntries c'.history).length = min c.history.maxBuffersSize ((texts c.history).length + ls.length) := by
      unfold allEntries
      rw [List.length_reverse, ht, lastN]
      simp
      omega
    rw [navText, hn, Nat.min_eq_right (by omega), if_neg (by omega), allEntries, ht, lastN]
    rw [List.getElem?_reverse hlen] at hl
    rw [List.getElem?_reverse (by rw [List.length_drop, List.length_append]; omega), List.getElem?_drop, List.length_drop, List.length_append,
      List.getElem?_append_right (by omega), ← hl]
    congr 1
    omega

/-! ### A conversation that meets the hypotheses -/

/-- Two lines, one given up, and the end; in between the keys change. -/
def dialogue : List Round :=
  let r (m : KeyBindings) (ks : List Key) : Round :=
    { keys := m, call := { env := Tests.env, prompt := { prompt := ['>', ' '] }, input := typed (ks.map plain) } }
  [r .emacs (chars "ls" ++ [.char '\n']), r .emacs (chars "x" ++ [.ctrl 'c']), r .vi (chars "cda" ++ [.esc, .char 'x', .char '\n']),
    r .vi [.ctrl 'd'], r .emacs []]

/-- The history is kept in a file that is appended to, and holds two entries at most. -/
def kept : Context where
  history := { hist ["old"] with fileName := some ['h'], incAppend := true, loadDuplicates := true, appendDuplicateEntries := true, maxBuffersSize := 2 }
  fs := oneFile ['h'] (encode "old\n".toList)

theorem dialogue_run : (match converse dialogue kept with
    | some (ls, c', _) => ls == ["ls".toList, "cd".toList] && texts c'.history == ["ls".toList, "cd".toList] &&
      (c'.fs.file ['h']).map (·.bytes) == some (encode "old\nls\ncd\n".toList) &&
      okAnd (c'.readLine { env := Tests.env, prompt := { prompt := ['>', ' '] }, input := recalls [(true, fun _ => []), (true, fun _ => [])] (fun _ => []) [] })
        (fun t _ => t == "ls".toList) &&
      okAnd (c'.readLine { env := Tests.env, prompt := { prompt := ['>', ' '] }, buffer := ['l'], input := recalls [(true, fun _ => [])] (fun _ => []) [] })
        (fun t _ => t == "ls".toList)
    | none => false) = true := by decide +kernel

/-- The hypotheses of the theorems above are met by it. -/
example : ∃ c' o, converse dialogue kept = some (["ls".toList, "cd".toList], c', o) ∧ kept.history.share = false ∧
    kept.history.appendDuplicateEntries = true ∧ kept.history.incAppend = true ∧ kept.history.fileName = some ['h'] ∧
    Holds kept.fs ['h'] (encode "old\n".toList) ∧ kept.history.loadDuplicates = true ∧ 2 ≤ kept.history.maxBuffersSize ∧
    (∃ c'' o', c'.readLine { env := Tests.env, prompt := { prompt := ['>', ' '] }, input := recalls [(true, fun _ => []), (true, fun _ => [])] (fun _ => []) [] } =
      .ok "ls".toList (c'', o')) ∧
    (∃ c'' o', c'.readLine { env := Tests.env, prompt := { prompt := ['>', ' '] }, buffer := ['l'], input := recalls [(true, fun _ => [])] (fun _ => []) [] } =
      .ok "ls".toList (c'', o')) := by
  have h := dialogue_run
  split at h
  · rename_i ls c' o hc
    simp only [Bool.and_eq_true, beq_iff_eq] at h
    obtain ⟨⟨⟨⟨rfl, -⟩, -⟩, h1⟩, h2⟩ := h
    obtain ⟨t, ⟨c1, o1⟩, h1, ht⟩ := of_okAnd h1
    rw [beq_iff_eq] at ht
    subst ht
    obtain ⟨t, ⟨c2, o2⟩, h2, ht⟩ := of_okAnd h2
    rw [beq_iff_eq] at ht
    subst ht
    exact ⟨c', o, hc, rfl, rfl, rfl, rfl, rfl, rfl, by decide, ⟨c1, o1, h1⟩, c2, o2, h2⟩
  · cases h

/-- `C69_newest_no_repeat`: the newest entry of the history is the first line returned, and is not stored again. -/
example : ∃ c' o, converse dialogue { history := hist ["ls"], fs := kept.fs } = some (["ls".toList, "cd".toList], c', o) ∧
    (hist ["ls"]).share = false ∧ (hist ["ls"]).appendDuplicateEntries = false ∧ 0 < (hist ["ls"]).maxBuffersSize ∧
    (texts (hist ["ls"])).length ≤ (hist ["ls"]).maxBuffersSize ∧ texts c'.history = ["ls".toList, "cd".toList] := by
  have h : (match converse dialogue { history := hist ["ls"], fs := kept.fs } with
    | some (ls, c', _) => ls == ["ls".toList, "cd".toList] && texts c'.history == ["ls".toList, "cd".toList]
    | none => false) = true := by decide +kernel
  split at h
  · rename_i ls c' o hc
    simp only [Bool.and_eq_true, beq_iff_eq] at h
    obtain ⟨rfl, h1⟩ := h
    exact ⟨c', o, hc, rfl, rfl, by decide, by decide, h1⟩
  · cases h

end Liner.Props
