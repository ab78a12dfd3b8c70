import Verif.Proof.History
/-
C15-C19, C21, C22: the in-memory history and loading.
-/

namespace Liner.Props
open Liner Spec History

/-! ### C15 -/

theorem texts_push {h : History} (fs : FS) (t : Text) (hn : ¬ Reloads h)
    (ha : h.appendDuplicateEntries = true ∨ (texts h).getLast? ≠ some t) :
    texts (h.push fs (Buffer.ofText t)).1 = lastN h.maxBuffersSize (texts h ++ [t]) := by
  unfold texts
  rw [push_buffers h fs _ hn (by
    rcases ha with ha | ha
    · exact .inl ha
    · right; simpa [texts, Buffer.ofText] using ha), lastN_map]
  simp [Buffer.ofText]

theorem pushAll_cons (h : History) (fs : FS) (t : Text) (ts : List Text) :
    pushAll h fs (t :: ts) =
      pushAll (h.push fs (Buffer.ofText t)).1 (h.push fs (Buffer.ofText t)).2 ts := rfl

/-- C15, duplicates allowed: after pushing `ts` the history is the newest `max_buffers_size` of the
old entries followed by `ts`.  Excluded: the configuration in which `push` reloads the file
(`Reloads`). -/
theorem C15_push_keeps_newest_partial (h : History) (fs : FS) (ts : List Text) (hn : ¬ Reloads h)
    (hd : h.appendDuplicateEntries = true) (hts : ts ≠ []) :
    texts (pushAll h fs ts).1 = lastN h.maxBuffersSize (texts h ++ ts) := by
  induction ts generalizing h fs with
  | nil => exact absurd rfl hts
  | cons t ts ih =>
    have hp := texts_push fs t hn (.inl hd)
    have hc := push_config h fs (Buffer.ofText t)
    rw [pushAll_cons]
    by_cases h0 : ts = []
    · subst h0; exact hp
    · rw [ih _ _ (noReloads_push h fs _ hn) (by rw [hc.appendDuplicateEntries, hd]) h0,
        hc.maxBuffersSize, hp, lastN_append]
      simp

theorem lastN_getLast? {α : Type} (n : Nat) (l : List α) (hn : 0 < n) :
    (lastN n l).getLast? = l.getLast? := by
  unfold lastN
  rw [List.getLast?_drop]
  by_cases h0 : l.length = 0
  · have : l = [] := List.length_eq_zero_iff.mp h0
    subst this; simp
  · rw [if_neg (by omega)]

/-- C15, duplicates not allowed: the accepted lines are those that differ from the previously
accepted one. -/
theorem C15_push_no_repeat_partial (h : History) (fs : FS) (ts : List Text) (hn : ¬ Reloads h)
    (hd : h.appendDuplicateEntries = false) (hm : 0 < h.maxBuffersSize)
    (hb : (texts h).length ≤ h.maxBuffersSize) :
    texts (pushAll h fs ts).1 =
      lastN h.maxBuffersSize (texts h ++ noRepeat (texts h).getLast? ts) := by
  induction ts generalizing h fs with
  | nil => simp only [pushAll, noRepeat, List.append_nil]; rw [lastN_of_le _ _ hb]
  | cons t ts ih =>
    rw [pushAll_cons]
    by_cases he : (texts h).getLast? = some t
    · rw [push_duplicate h fs _ hd (by simpa [texts, Buffer.ofText] using he)]
      rw [ih h fs hn hd hm hb, noRepeat, if_pos he]
    · have hp := texts_push fs t hn (.inr he)
      have hc := push_config h fs (Buffer.ofText t)
      rw [ih _ _ (noReloads_push h fs _ hn) (by rw [hc.appendDuplicateEntries, hd])
        (by rw [hc.maxBuffersSize]; exact hm)
        (by rw [hc.maxBuffersSize, hp, lastN_length]; omega),
        hc.maxBuffersSize, hp, lastN_append, lastN_getLast? _ _ hm, noRepeat, if_neg he]
      simp

theorem load_length (h : History) (fs : FS) (path : FPathName) (n : Nat) (append : Bool) :
    (texts (loadHistoryFileTest h fs path n append).2).length ≤ max (texts h).length h.maxFileSize := by
  cases hr : fs.openRead path with
  | none => simp only [loadHistoryFileTest, hr]; omega
  | some bytes =>
    rw [load_eq _ _ _ _ _ _ hr]
    simp only []
    split
    · simp only [texts, List.length_map]
      generalize (if append = true then h.buffers else []) ++ List.map Buffer.ofText (fileLines bytes) = all
      have h1 := lastN_length h.maxFileSize all
      have h2 := dedup_length (lastN h.maxFileSize all)
      split <;> omega
    · split
      · simp [texts]
      · omega

/-- C15, the bound: with the limit on the file not above the limit on the memory, one push never
leaves more than `max_buffers_size` entries, in every configuration. -/
theorem C15_bound_partial (h : History) (fs : FS) (b : Buffer)
    (hlim : Reloads h → h.maxFileSize ≤ h.maxBuffersSize)
    (hb : (texts h).length ≤ h.maxBuffersSize) :
    (texts (h.push fs b).1).length ≤ h.maxBuffersSize := by
  by_cases ha : h.appendDuplicateEntries = true ∨ h.buffers.getLast?.map (·.data) ≠ some b.data
  · by_cases hn : Reloads h
    · have hl := hlim hn
      obtain ⟨hi, hf, hld, hsh⟩ := hn
      obtain ⟨path, hf⟩ := Option.isSome_iff_exists.mp hf
      unfold push
      rw [if_neg (by
        rintro ⟨h1, h2⟩
        rcases ha with ha | ha
        · exact h1 ha
        · exact ha h2)]
      simp only [hi, hf, texts, List.length_map]
      rw [pushAppend_buffers]
      unfold pushCompaction
      have hdl : ∀ l : List Buffer, (l.drop (l.length - h.maxBuffersSize)).length ≤ h.maxBuffersSize := by
        intro l; simp; omega
      simp only [hld, Bool.false_eq_true, if_false]
      split
      · unfold compact
        simp only [hsh, if_true]
        unfold loadHistory
        simp only [hf, overwriteHistory, truncate_eq]
        generalize hg : loadHistoryFileTest _ fs path _ false = r
        have hlen := load_length
          { h with
            buffers := (h.buffers ++ [b]).drop ((h.buffers ++ [b]).length - h.maxBuffersSize)
            compactionWrites := h.compactionWrites + 1 } fs path h.fileSize false
        have hcfg := loadHistoryFileTest_config
          { h with
            buffers := (h.buffers ++ [b]).drop ((h.buffers ++ [b]).length - h.maxBuffersSize)
            compactionWrites := h.compactionWrites + 1 } fs path h.fileSize false
        simp only [hi, hld, hsh, hf] at hlen hcfg
        rw [hg] at hlen hcfg
        have := hdl (h.buffers ++ [b])
        have hmf : r.2.maxFileSize = h.maxFileSize := hcfg.maxFileSize
        simp only [texts, List.length_map] at hlen
        rcases r with ⟨_ | _, r⟩
        · simp only []
          split <;> simp only [lastN_length] <;> simp only [] at hlen hmf <;> omega
        · simp only []
          split <;> simp only [lastN_length] <;> simp only [] at hlen hmf <;> omega
      · exact hdl _
    · simp only [texts, List.length_map]
      rw [push_buffers h fs b hn ha, lastN_length]
      omega
  · simp only [not_or, Bool.not_eq_true, ne_eq, Decidable.not_not] at ha
    rw [push_duplicate h fs b ha.1 ha.2]; exact hb

/-- With no bound on the old content, a push that is kept still leaves at most `max_buffers_size`
entries. -/
theorem C15_bound_after_push (h : History) (fs : FS) (t : Text) (hn : ¬ Reloads h)
    (hd : h.appendDuplicateEntries = true) :
    (texts (h.push fs (Buffer.ofText t)).1).length ≤ h.maxBuffersSize := by
  rw [texts_push fs t hn (.inl hd), lastN_length]; omega

example : texts (pushAll { maxBuffersSize := 2, appendDuplicateEntries := true }
    ⟨fun _ => none, fun _ => true⟩ [['a'], ['b'], ['b']]).1 = [['b'], ['b']] := by decide
example : texts (pushAll { maxBuffersSize := 2 }
    ⟨fun _ => none, fun _ => true⟩ [['a'], ['b'], ['b'], ['c']]).1 = [['b'], ['c']] := by decide

/-- C15 fails when the file limit is above the memory limit: the compaction of a shared history
reloads up to `max_file_size` entries.  Thirty pushes with a memory limit of one, while another
process has put two lines into the file. -/
theorem C15_bound_violation :
    ∃ (h : History) (fs : FS) (ts : List Text), h.maxBuffersSize = 1 ∧ texts h = [] ∧
      (texts (pushAll h fs ts).1).length > 1 :=
  ⟨{ maxBuffersSize := 1, incAppend := true, share := true, loadDuplicates := false,
     fileName := some ['h'] },
   ⟨fun _ => some ⟨encode ['x', '\n', 'y', '\n'], true, true⟩, fun _ => true⟩,
   (List.range 30).map (fun i => [Char.ofNat (65 + i)]), by decide +kernel⟩

/-! ### C16 -/

/-- C16: pushing a line equal to the newest entry changes neither memory nor files. -/
theorem C16_repeat_ignored (h : History) (fs : FS) (t : Text)
    (hd : h.appendDuplicateEntries = false) (hl : (texts h).getLast? = some t) :
    h.push fs (Buffer.ofText t) = (h, fs) :=
  push_duplicate h fs _ hd (by simpa [texts, Buffer.ofText] using hl)

theorem noAdj_nil : NoAdjacentEqual [] := by intro i a b h; simp at h

theorem noAdj_drop {l : List Text} (h : NoAdjacentEqual l) (n : Nat) : NoAdjacentEqual (l.drop n) := by
  intro i a b ha hb
  rw [List.getElem?_drop] at ha hb
  exact h (n + i) a b ha hb

theorem noAdj_lastN {l : List Text} (h : NoAdjacentEqual l) (n : Nat) : NoAdjacentEqual (lastN n l) :=
  noAdj_drop h _

theorem noAdj_nodup {l : List Text} (h : l.Nodup) : NoAdjacentEqual l := by
  intro i a b ha hb he
  subst he
  have h1 := (List.getElem?_eq_some_iff.mp ha).1
  have := (List.getElem?_inj h1 h).mp (ha.trans hb.symm)
  omega

theorem noAdj_append {l : List Text} {t : Text} (h : NoAdjacentEqual l) (hl : l.getLast? ≠ some t) :
    NoAdjacentEqual (l ++ [t]) := by
  intro i a b ha hb he
  by_cases h1 : i + 1 < l.length
  · rw [List.getElem?_append_left (by omega)] at ha
    rw [List.getElem?_append_left h1] at hb
    exact h i a b ha hb he
  · have : i + 1 < (l ++ [t]).length := (List.getElem?_eq_some_iff.mp hb).1
    have hi : i + 1 = l.length := by simp at this; omega
    rw [List.getElem?_append_left (by omega)] at ha
    rw [List.getElem?_append_right (by omega), hi] at hb
    simp at hb
    apply hl
    rw [List.getLast?_eq_getElem?, ← hi]
    simp [ha, hb, he]

theorem noAdj_load (h : History) (fs : FS) (path : FPathName) (n : Nat)
    (hld : h.loadDuplicates = false) (hh : NoAdjacentEqual (texts h)) :
    NoAdjacentEqual (texts (loadHistoryFileTest h fs path n false).2) := by
  cases hr : fs.openRead path with
  | none => simpa only [loadHistoryFileTest, hr] using hh
  | some bytes =>
    rw [load_eq _ _ _ _ _ _ hr]
    simp only []
    split
    · simp only [texts, hld, Bool.false_eq_true, if_false, List.nil_append]
      rw [dedup_map]
      · exact noAdj_nodup (keepLast_nodup _)
      · intro b hb
        have hb := List.mem_of_mem_drop hb
        obtain ⟨t, ht, rfl⟩ := List.mem_map.mp hb
        exact fileLines_no_newline bytes t ht
    · split
      · exact noAdj_nil
      · exact hh

/-- C16: no push, in any configuration, makes two adjacent entries equal. -/
theorem C16_no_adjacent_repeats_step (h : History) (fs : FS) (b : Buffer)
    (hd : h.appendDuplicateEntries = false) (hh : NoAdjacentEqual (texts h)) :
    NoAdjacentEqual (texts (h.push fs b).1) := by
  by_cases hl : h.buffers.getLast?.map (·.data) = some b.data
  · rw [push_duplicate h fs b hd hl]; exact hh
  · have hh' : NoAdjacentEqual ((h.buffers ++ [b]).map (·.data)) := by
      rw [List.map_append]
      exact noAdj_append hh (by simpa using hl)
    by_cases hn : Reloads h
    · obtain ⟨hi, hf, hld, hsh⟩ := hn
      obtain ⟨path, hf⟩ := Option.isSome_iff_exists.mp hf
      unfold push
      rw [if_neg (fun hx => hl hx.2)]
      simp only [hi, hf, texts]
      rw [pushAppend_buffers]
      unfold pushCompaction
      simp only [hld, Bool.false_eq_true, if_false]
      split
      · unfold compact
        simp only [hsh, if_true]
        unfold loadHistory
        simp only [hf, overwriteHistory, truncate_eq]
        generalize hg : loadHistoryFileTest _ fs path _ false = r
        have hlen := noAdj_load
          { h with
            buffers := (h.buffers ++ [b]).drop ((h.buffers ++ [b]).length - h.maxBuffersSize)
            compactionWrites := h.compactionWrites + 1 } fs path h.fileSize hld
            (by simp only [texts, List.map_drop]; exact noAdj_drop hh' _)
        simp only [hi, hld, hsh, hf] at hlen
        rw [hg] at hlen
        rcases r with ⟨_ | _, r⟩
        · simp only []
          split <;> simp only [lastN_map] <;> exact noAdj_lastN hlen _
        · simp only []
          split <;> simp only [lastN_map] <;> exact noAdj_lastN hlen _
      · simp only [List.map_drop]; exact noAdj_drop hh' _
    · simp only [texts]
      rw [push_buffers h fs b hn (.inr hl), lastN_map]
      exact noAdj_lastN hh' _

/-- C16 over any sequence of pushes, in every configuration. -/
theorem C16_no_adjacent_repeats (h : History) (fs : FS) (ts : List Text)
    (hd : h.appendDuplicateEntries = false) (hh : NoAdjacentEqual (texts h)) :
    NoAdjacentEqual (texts (pushAll h fs ts).1) := by
  induction ts generalizing h fs with
  | nil => exact hh
  | cons t ts ih =>
    rw [pushAll_cons]
    exact ih _ _ (by rw [(push_config h fs _).appendDuplicateEntries, hd])
      (C16_no_adjacent_repeats_step h fs _ hd hh)

example : NoAdjacentEqual (texts History.new) := noAdj_nil
example : (History.new).appendDuplicateEntries = false := rfl

/-! ### C17 -/

theorem startsWith_at (h : History) (b : Buffer) (i : Nat) :
    ((h.buffers[i]?).any fun t => t.startsWith b) = true ↔ ProperPrefixAt h b.data i := by
  unfold ProperPrefixAt texts
  cases hx : h.buffers[i]? with
  | none => simp [hx]
  | some t => simp [hx, C09_starts_with]

theorem contains_at (h : History) (b : Buffer) (i : Nat) :
    ((h.buffers[i]?).any fun t => t.contains b) = true ↔ ContainsAt h b.data i := by
  unfold ContainsAt texts
  cases hx : h.buffers[i]? with
  | none => simp [hx]
  | some t => simp [hx, C09_contains, and_comm]

theorem find_range_rev (p : Nat → Bool) (n i : Nat) :
    (List.range n).reverse.find? p = some i ↔ i < n ∧ p i = true ∧ ∀ j, i < j → j < n → p j = false := by
  induction n with
  | zero => simp
  | succ n ih =>
    rw [List.range_succ, List.reverse_append, List.reverse_singleton, List.singleton_append,
      List.find?_cons]
    cases hp : p n with
    | true =>
      simp only [Option.some.injEq]
      constructor
      · rintro rfl; exact ⟨by omega, hp, by intros; omega⟩
      · rintro ⟨h1, h2, h3⟩
        rcases Nat.lt_or_ge i n with h | h
        · rw [h3 n h (by omega)] at hp; cases hp
        · omega
    | false =>
      rw [ih]
      constructor
      · rintro ⟨h1, h2, h3⟩
        refine ⟨by omega, h2, fun j hj hjn => ?_⟩
        rcases Nat.lt_or_ge j n with h | h
        · exact h3 j hj h
        · have : j = n := by omega
          rw [this, hp]
      · rintro ⟨h1, h2, h3⟩
        have : i ≠ n := by rintro rfl; rw [h2] at hp; cases hp
        exact ⟨by omega, h2, fun j hj hjn => h3 j hj (by omega)⟩

/-- C17: the newest match is the greatest index below the position whose entry properly starts with
the text. -/
theorem C17_newest_match (h : History) (pos : Option Nat) (b : Buffer) (i : Nat) :
    h.getNewestMatch pos b = some i ↔
      i < pos.getD (texts h).length ∧ ProperPrefixAt h b.data i ∧
        ∀ j, i < j → j < pos.getD (texts h).length → ¬ ProperPrefixAt h b.data j := by
  unfold getNewestMatch
  simp only []
  rw [find_range_rev]
  have hlen : h.buffers.length = (texts h).length := by simp [texts]
  rw [hlen, startsWith_at]
  simp only [← Bool.not_eq_true, startsWith_at]

/-- C17: no answer exactly when no entry below the position matches. -/
theorem C17_no_match (h : History) (pos : Option Nat) (b : Buffer) :
    h.getNewestMatch pos b = none ↔
      ∀ i, i < pos.getD (texts h).length → ¬ ProperPrefixAt h b.data i := by
  unfold getNewestMatch
  simp only []
  rw [List.find?_eq_none]
  have hlen : h.buffers.length = (texts h).length := by simp [texts]
  rw [hlen]
  simp only [List.mem_reverse, List.mem_range, startsWith_at]

example : getNewestMatch { buffers := [.ofText ['a','b'], .ofText ['a','c'], .ofText ['a']] } none
    (.ofText ['a']) = some 1 := by decide

/-! ### C18 -/

theorem filter_range_sorted (p : Nat → Bool) (n : Nat) : ((List.range n).filter p).Pairwise (· < ·) :=
  List.Pairwise.filter p List.pairwise_lt_range

theorem containsAt_lt {h : History} {b : Text} {i : Nat} (hc : ContainsAt h b i) :
    i < h.buffers.length := by
  obtain ⟨t, ht, _⟩ := hc
  have := (List.getElem?_eq_some_iff.mp ht).1
  simpa [texts] using this

theorem properPrefixAt_lt {h : History} {b : Text} {i : Nat} (hc : ProperPrefixAt h b i) :
    i < h.buffers.length := by
  obtain ⟨t, ht, _⟩ := hc
  have := (List.getElem?_eq_some_iff.mp ht).1
  simpa [texts] using this

/-- C18: first the entries that contain the text without starting with it, then those that properly
start with it, each ascending. -/
theorem C18_subset (h : History) (b : Buffer) :
    ∃ first second, h.getHistorySubset b = first ++ second ∧
      first.Pairwise (· < ·) ∧ second.Pairwise (· < ·) ∧
      (∀ i, i ∈ first ↔ ∃ t, (texts h)[i]? = some t ∧ b.data ≠ [] ∧
        (∃ pre post, t = pre ++ b.data ++ post) ∧ ¬ b.data <+: t) ∧
      (∀ i, i ∈ second ↔ ∃ t, (texts h)[i]? = some t ∧ b.data ≠ [] ∧ b.data <+: t ∧ b.data ≠ t) := by
  refine ⟨_, _, rfl, filter_range_sorted _ _, filter_range_sorted _ _, ?_, ?_⟩
  · intro i
    rw [List.mem_filter, List.mem_range]
    cases hx : h.buffers[i]? with
    | none => simp [texts, hx]
    | some t =>
      have hlt : i < h.buffers.length := (List.getElem?_eq_some_iff.mp hx).1
      have hs := C09_starts_with t b
      have hc := C09_contains t b
      have he : t.eq b = true ↔ t.data = b.data := by simp [Buffer.eq]
      simp only [texts, List.getElem?_map, hx, hlt, true_and, Option.map_some, Option.some.injEq,
        exists_eq_left', Bool.and_eq_true, Bool.not_eq_true', ← Bool.not_eq_true, hs, hc, he, Option.any_some]
      constructor
      · rintro ⟨⟨⟨h1, h2⟩, h3⟩, h4⟩
        exact ⟨h1, h2, fun hp => h3 ⟨h1, hp, fun e => h4 e.symm⟩⟩
      · rintro ⟨h1, h2, h3⟩
        exact ⟨⟨⟨h1, h2⟩, fun hx => h3 hx.2.1⟩, fun e => h3 (e ▸ List.prefix_refl _)⟩
  · intro i
    rw [List.mem_filter, List.mem_range, startsWith_at]
    constructor
    · exact fun hp => hp.2
    · exact fun hp => ⟨properPrefixAt_lt hp, hp⟩

/-- C18: no index occurs twice. -/
theorem C18_no_index_twice (h : History) (b : Buffer) : (h.getHistorySubset b).Nodup := by
  obtain ⟨A, B, he, hA, hB, mA, mB⟩ := C18_subset h b
  rw [he, List.nodup_append]
  refine ⟨hA.imp (fun h => Nat.ne_of_lt h), hB.imp (fun h => Nat.ne_of_lt h), ?_⟩
  rintro i hi j hj rfl
  obtain ⟨t, h1, _, _, h2⟩ := (mA i).mp hi
  obtain ⟨t', h3, _, h4, _⟩ := (mB i).mp hj
  rw [h1] at h3
  cases h3
  exact h2 h4

example : getHistorySubset { buffers := [.ofText ['a','b'], .ofText ['b','a'], .ofText ['a'],
    .ofText ['c','a'], .ofText ['a', 'd']] } (.ofText ['a']) = [1, 3, 0, 4] := by decide

/-! ### C19 -/

/-- C19: the ascending list of exactly the entries that contain the text. -/
theorem C19_search_index (h : History) (b : Buffer) :
    (h.searchIndex b).Pairwise (· < ·) ∧ ∀ i, i ∈ h.searchIndex b ↔ ContainsAt h b.data i := by
  refine ⟨filter_range_sorted _ _, fun i => ?_⟩
  unfold searchIndex
  rw [List.mem_filter, List.mem_range, contains_at]
  exact ⟨fun hp => hp.2, fun hp => ⟨containsAt_lt hp, hp⟩⟩

/-- C19: nothing is found for the empty text. -/
theorem C19_search_index_empty (h : History) (b : Buffer) (hb : b.data = []) :
    h.searchIndex b = [] := by
  rw [List.eq_nil_iff_forall_not_mem]
  intro i hi
  obtain ⟨t, _, h1, _⟩ := ((C19_search_index h b).2 i).mp hi
  exact h1 hb

example : searchIndex { buffers := [.ofText ['a','b'], .ofText ['c'], .ofText ['b']] } (.ofText ['b'])
    = [0, 2] := by decide

/-! ### C21 -/

/-- C21: every file content has lines in the sense of `FileHas`, so the theorems below speak about
every file. -/
theorem C21_every_file (bytes : Bytes) : ∃ ts, FileHas bytes ts := by
  obtain ⟨segs, h1, h2, h3⟩ := segments_exist bytes
  obtain ⟨ts, rest, h4, h5⟩ := decodable_split (linesOfSegments segs)
  exact ⟨ts, segs, rest, h1, h2, h3, h4, h5⟩

theorem FileHas.takeOk {bytes : Bytes} {ts : List Text} (hf : FileHas bytes ts) :
    History.takeOk ((rawLines bytes []).map decodeLine) = ts := by
  obtain ⟨segs, rest, _, hs, rfl, hl, hrest⟩ := hf
  have : (rawLines (List.intercalate [10] segs) []).map decodeLine =
      ((rawLines (List.intercalate [10] segs) []).map stripCR).map decode := by
    rw [List.map_map]; rfl
  rw [this, rawLines_segments segs hs, hl, takeOk_decode ts rest hrest]

/-- C21: the lines of a file are unique. -/
theorem C21_lines_unique {bytes : Bytes} {ts ts' : List Text} (h : FileHas bytes ts)
    (h' : FileHas bytes ts') : ts = ts' := by
  rw [← FileHas.takeOk h, ← FileHas.takeOk h']

theorem FileHas.fileLines {bytes : Bytes} {ts : List Text} (hf : FileHas bytes ts) :
    History.fileLines bytes = entries ts := by
  unfold History.fileLines entries
  rw [FileHas.takeOk hf]
  apply List.filter_congr
  intro t _
  by_cases ht : t.head? = some '#' <;> simp [isComment, ht]

theorem map_data_ofText (ts : List Text) : (ts.map Buffer.ofText).map (·.data) = ts := by
  rw [List.map_map]
  have hid : (fun x : Buffer => x.data) ∘ Buffer.ofText = id := rfl
  rw [hid, List.map_id]

/-- C21: `ts` are the lines of the file up to the first undecodable one.  Loading keeps the newest
`max_file_size` of the old entries (when appending) followed by the lines that are not comments, and
reports the length in bytes.  (An empty file that is appended changes nothing, not even the
limit.) -/
theorem C21_load_lines (h : History) (fs : FS) (path : FPathName) (append : Bool) (bytes : Bytes)
    (ts : List Text) (hr : fs.openRead path = some bytes) (hl : FileHas bytes ts)
    (hd : h.loadDuplicates = true) :
    (h.loadHistoryFile fs path append).1 = some bytes.length ∧
    texts (h.loadHistoryFile fs path append).2 =
      if bytes = [] then (if append then texts h else [])
      else lastN h.maxFileSize ((if append then texts h else []) ++ entries ts) := by
  unfold loadHistoryFile
  rw [load_eq _ _ _ _ _ _ hr]
  refine ⟨rfl, ?_⟩
  simp only []
  by_cases h0 : bytes = []
  · rw [if_pos h0, if_neg (by simpa using h0)]
    cases append
    · simp [texts, h0]
    · simp
  · rw [if_neg h0, if_pos (by simpa using h0)]
    simp only [texts, hd, if_true]
    rw [lastN_map, List.map_append, FileHas.fileLines hl, map_data_ofText]
    cases append <;> simp

/-- C21: `load_history` with a remembered length reads the file unless the length in bytes is the
remembered one, and then remembers the new length. -/
theorem C21_reload_when_length_differs (h : History) (fs : FS) (path : FPathName) (append : Bool)
    (bytes : Bytes) (hf : h.fileName = some path) (hr : fs.openRead path = some bytes)
    (hne : bytes.length ≠ h.fileSize) (h0 : bytes ≠ []) :
    (h.loadHistory fs append).1 = some bytes.length ∧
    (h.loadHistory fs append).2.fileSize = bytes.length ∧
    texts (h.loadHistory fs append).2 = texts (h.loadHistoryFile fs path append).2 := by
  unfold loadHistory loadHistoryFile
  simp only [hf]
  rw [load_eq _ _ _ _ _ _ hr, load_eq _ _ _ _ _ _ hr]
  have h0' : bytes.length ≠ 0 := by simpa using h0
  simp only [hne, h0', ne_eq, not_false_eq_true, if_true]
  exact ⟨trivial, trivial, rfl⟩

/-- C21: with the remembered length equal to the file length (and not zero) nothing is re-read. -/
theorem C21_skip_when_length_equal (h : History) (fs : FS) (path : FPathName) (append : Bool)
    (bytes : Bytes) (hf : h.fileName = some path) (hr : fs.openRead path = some bytes)
    (heq : bytes.length = h.fileSize) (h0 : bytes ≠ []) :
    h.loadHistory fs append = (some bytes.length, h) := by
  unfold loadHistory
  simp only [hf]
  rw [load_eq _ _ _ _ _ _ hr]
  have h0' : bytes.length ≠ 0 := by simpa using h0
  simp [heq] at h0' ⊢
  simp [h0']

/-- C21: an unreadable file leaves the history alone and reports an error. -/
theorem C21_unreadable (h : History) (fs : FS) (path : FPathName) (append : Bool)
    (hr : fs.openRead path = none) : h.loadHistoryFile fs path append = (none, h) := by
  simp [loadHistoryFile, loadHistoryFileTest, hr]

/-- A file with a comment, a carriage return, an undecodable line and a line after it. -/
example : FileHas [97, 13, 10, 35, 98, 10, 206, 187, 10, 255, 10, 99] [['a'], ['#', 'b'], ['λ']] :=
  ⟨[[97, 13], [35, 98], [206, 187], [255], [99]], [[255], [99]], by simp, by decide, by decide,
    by decide, by
      intro b hb t he
      cases hb
      have := (decode_iff (bs := [255]) (t := t)).mpr he
      rw [show decode [255] = none by decide] at this
      cases this⟩

/-! ### C22 -/

/-- C22: `ts` are the lines of the file as in `C21_load_lines`.  Loading without duplicates keeps
exactly the last occurrence of each text among the newest `max_file_size` entries, in order.  When
appending, the old entries must not contain newlines. -/
theorem C22_load_keeps_last_partial (h : History) (fs : FS) (path : FPathName) (append : Bool)
    (bytes : Bytes) (ts : List Text) (hr : fs.openRead path = some bytes) (hl : FileHas bytes ts)
    (hd : h.loadDuplicates = false) (hne : bytes ≠ [])
    (hnl : append = true → ∀ t ∈ texts h, '\n' ∉ t) :
    texts (h.loadHistoryFile fs path append).2 =
      keepLast (lastN h.maxFileSize ((if append then texts h else []) ++ entries ts)) := by
  have hlen0 : bytes.length ≠ 0 := by simpa using hne
  unfold loadHistoryFile
  rw [load_eq _ _ _ _ _ _ hr]
  simp only [hlen0, ne_eq, not_false_eq_true, if_true, texts, hd, Bool.false_eq_true, if_false]
  rw [dedup_map]
  · rw [lastN_map, List.map_append, FileHas.fileLines hl, map_data_ofText]
    cases append <;> simp
  · intro b hb
    rcases List.mem_append.mp (List.mem_of_mem_drop hb) with hb | hb
    · cases append
      · simp at hb
      · exact hnl rfl b.data (List.mem_map.mpr ⟨b, by simpa using hb, rfl⟩)
    · obtain ⟨t, ht, rfl⟩ := List.mem_map.mp hb
      exact fileLines_no_newline _ t ht

/-- C22: what `keepLast` means: no text twice, the same set of texts, and the order is kept. -/
theorem C22_keepLast (l : List Text) :
    (keepLast l).Nodup ∧ (∀ t, t ∈ keepLast l ↔ t ∈ l) ∧ (keepLast l).Sublist l :=
  ⟨keepLast_nodup l, fun _ => mem_keepLast, keepLast_sublist l⟩

/-- C22: of two texts, the one whose last occurrence comes first is first in the result. -/
theorem C22_keepLast_order (pre mid : List Text) (s t : Text) (hs : s ∉ mid) (hst : s ≠ t) :
    ∃ a b c, keepLast (pre ++ s :: mid ++ [t]) = a ++ s :: b ++ t :: c := by
  have key : ∀ l : List Text, s ∉ l → s ≠ t → ∃ b, keepLast (s :: l ++ [t]) = s :: b ++ [t] := by
    intro l hl hne
    rw [keepLast_append_singleton, List.filter_cons_of_pos (by simpa using hne), keepLast,
      if_neg (by simp [hl])]
    exact ⟨_, rfl⟩
  obtain ⟨b, hb⟩ := key mid hs hst
  have ext : ∀ pre l : List Text, ∃ a, keepLast (pre ++ l) = a ++ keepLast l := by
    intro pre l
    induction pre with
    | nil => exact ⟨[], rfl⟩
    | cons x xs ih =>
      obtain ⟨a, ha⟩ := ih
      rw [List.cons_append, keepLast]
      split
      · exact ⟨a, ha⟩
      · exact ⟨x :: a, by rw [ha]; rfl⟩
  obtain ⟨a, ha⟩ := ext pre (s :: mid ++ [t])
  refine ⟨a, b, [], ?_⟩
  rw [List.append_assoc, ha, hb]
  simp

/-- C22 fails when appending to a history that has an entry with a newline: the entry is compared
without its newline, so the entry "a⏎b" disappears because the file holds "ab". -/
theorem C22_multiline_violation :
    ∃ (h : History) (fs : FS) (path : FPathName), h.loadDuplicates = false ∧
      texts h = [['a', '\n', 'b']] ∧ fs.openRead path = some (encode ['a', 'b', '\n']) ∧
      texts (h.loadHistoryFile fs path true).2 = [['a', 'b']] :=
  ⟨{ buffers := [.ofText ['a', '\n', 'b']], loadDuplicates := false },
    ⟨fun _ => some ⟨encode ['a', 'b', '\n'], true, true⟩, fun _ => true⟩, ['h'], by decide⟩

example : keepLast [['a'], ['b'], ['a'], ['c'], ['c']] = [['b'], ['a'], ['c']] := by decide

end Liner.Props
