import Verif.Proof.Utf8
import Verif.Spec.History
import Verif.Props.Buffer
/-
Lemmas about the in-memory history and about loading.
-/

namespace Liner
open Spec

namespace History

theorem truncate_eq (h : History) : h.truncate = { h with buffers := lastN h.maxFileSize h.buffers } := by
  unfold truncate lastN
  split
  · rfl
  · rename_i hlt
    have : h.buffers.length - h.maxFileSize = 0 := by omega
    rw [this]; rfl

theorem lastN_length {α : Type} (n : Nat) (l : List α) : (lastN n l).length = min n l.length := by
  simp [lastN]; omega

theorem lastN_of_le {α : Type} (n : Nat) (l : List α) (h : l.length ≤ n) : lastN n l = l := by
  unfold lastN
  have : l.length - n = 0 := by omega
  rw [this]; rfl

theorem lastN_append {α : Type} (n : Nat) (l m : List α) : lastN n (lastN n l ++ m) = lastN n (l ++ m) := by
  unfold lastN
  rw [← List.drop_append_of_le_length (by omega), List.drop_drop]
  congr 1
  simp
  omega

theorem lastN_map {α β : Type} (f : α → β) (n : Nat) (l : List α) :
    (lastN n l).map f = lastN n (l.map f) := by
  simp [lastN, List.map_drop]

/-! keepLast -/

theorem mem_keepLast {l : List Text} {t : Text} : t ∈ keepLast l ↔ t ∈ l := by
  induction l with
  | nil => simp [keepLast]
  | cons x xs ih =>
    unfold keepLast
    split
    · rename_i h
      rw [ih, List.mem_cons]
      constructor
      · exact .inr
      · rintro (rfl | h') <;> assumption
    · rw [List.mem_cons, List.mem_cons, ih]

theorem keepLast_nodup (l : List Text) : (keepLast l).Nodup := by
  induction l with
  | nil => simp [keepLast]
  | cons x xs ih =>
    unfold keepLast
    split
    · exact ih
    · rename_i h
      rw [List.nodup_cons, mem_keepLast]
      exact ⟨h, ih⟩

theorem keepLast_sublist (l : List Text) : (keepLast l).Sublist l := by
  induction l with
  | nil => simp [keepLast]
  | cons x xs ih =>
    unfold keepLast
    split
    · exact ih.cons x
    · exact ih.cons_cons x

theorem keepLast_of_nodup {l : List Text} (h : l.Nodup) : keepLast l = l := by
  induction l with
  | nil => rfl
  | cons x xs ih =>
    rw [List.nodup_cons] at h
    rw [keepLast, if_neg h.1, ih h.2]

theorem keepLast_append_singleton (xs : List Text) (t : Text) :
    keepLast (xs ++ [t]) = keepLast (xs.filter (· != t)) ++ [t] := by
  induction xs with
  | nil => simp [keepLast]
  | cons x xs ih =>
    by_cases hx : x = t
    · subst hx
      simp [keepLast, ih]
    · have hf : (x :: xs).filter (· != t) = x :: xs.filter (· != t) := by simp [hx]
      rw [hf, List.cons_append, keepLast, keepLast, ih]
      have : (x ∈ xs ++ [t]) ↔ x ∈ xs.filter (· != t) := by simp [hx]
      by_cases hm : x ∈ xs ++ [t]
      · rw [if_pos hm, if_pos (this.mp hm)]
      · rw [if_neg hm, if_neg (fun h => hm (this.mpr h))]; simp

theorem dedupLinesRev_eq (n : Nat) (l : List Text) (h : l.length ≤ n) :
    (dedupLinesRev n l).reverse = keepLast l.reverse := by
  induction n generalizing l with
  | zero =>
    have : l = [] := by simpa using h
    subst this; rfl
  | succ n ih =>
    cases l with
    | nil => rfl
    | cons t rest =>
      have hl : (rest.filter (· != t)).length ≤ n := by
        have := List.length_filter_le (· != t) rest
        simp at h; omega
      rw [dedupLinesRev, List.reverse_cons, List.reverse_cons, ih _ hl, keepLast_append_singleton,
        List.filter_reverse]

theorem lines_flatten (b : Buffer) (h : '\n' ∉ b.data) : b.lines.flatten = b.data := by
  unfold Buffer.lines
  rw [Props.splitOn_no]
  · simp
  · intro c hc
    simp
    rintro rfl; exact h hc

theorem dedupRev_map (n : Nat) (l : List Buffer) (h : ∀ b ∈ l, '\n' ∉ b.data) :
    (dedupRev n l).map (·.data) = dedupLinesRev n (l.map (·.data)) := by
  induction n generalizing l with
  | zero => rfl
  | succ n ih =>
    cases l with
    | nil => rfl
    | cons b rest =>
      rw [dedupRev, List.map_cons, List.map_cons, dedupLinesRev, ih]
      · congr 2
        rw [removeDuplicates, List.filter_map]
        congr 1
        apply List.filter_congr
        intro x hx
        simp [lines_flatten x (h x (by simp [hx]))]
      · intro x hx
        exact h x (by simp [removeDuplicates] at hx; simp [hx.1])

theorem dedup_map (l : List Buffer) (h : ∀ b ∈ l, '\n' ∉ b.data) :
    (dedup l).map (·.data) = keepLast (l.map (·.data)) := by
  unfold dedup
  rw [List.map_reverse, dedupRev_map _ _ (by simpa using h)]
  rw [dedupLinesRev_eq _ _ (by simp)]
  simp

theorem dedupRev_length (n : Nat) (l : List Buffer) : (dedupRev n l).length ≤ l.length := by
  induction n generalizing l with
  | zero => simp [dedupRev]
  | succ n ih =>
    cases l with
    | nil => simp [dedupRev]
    | cons b rest =>
      have := ih (removeDuplicates rest b.data)
      have h2 : (removeDuplicates rest b.data).length ≤ rest.length := List.length_filter_le _ _
      simp [dedupRev]; omega

theorem dedup_length (l : List Buffer) : (dedup l).length ≤ l.length := by
  have := dedupRev_length l.length l.reverse
  simpa [dedup] using this

/-! file lines -/

theorem rawLines_no_newline (bs acc : Bytes) (hacc : (10 : UInt8) ∉ acc) :
    ∀ l ∈ rawLines bs acc, (10 : UInt8) ∉ l.1 := by
  induction bs generalizing acc with
  | nil =>
    unfold rawLines
    split
    · simp
    · simpa using hacc
  | cons b bs ih =>
    unfold rawLines
    split
    · intro l hl
      rcases List.mem_cons.mp hl with rfl | hl
      · simpa using hacc
      · exact ih [] (by simp) l hl
    · rename_i hb
      exact ih (b :: acc) (by simp only [List.mem_cons, not_or]; exact ⟨Ne.symm hb, hacc⟩)

theorem mem_takeOk {l : List (Option Text)} {t : Text} (h : t ∈ takeOk l) : some t ∈ l := by
  induction l with
  | nil => simp [takeOk] at h
  | cons o l ih =>
    cases o with
    | none => simp [takeOk] at h
    | some s =>
      simp only [takeOk, List.mem_cons] at h
      rcases h with rfl | h
      · simp
      · exact List.mem_cons_of_mem _ (ih h)

theorem fileLines_no_newline (bs : Bytes) : ∀ t ∈ fileLines bs, '\n' ∉ t := by
  intro t ht
  unfold fileLines at ht
  have ht := mem_takeOk (List.mem_filter.mp ht).1
  obtain ⟨l, hl, he⟩ := List.mem_map.mp ht
  have h1 := rawLines_no_newline bs [] (by simp) l hl
  unfold decodeLine at he
  have := decode_eq_some he
  rw [← newline_mem_encode, ← this]
  unfold stripCR
  split
  · intro hm; exact h1 (List.dropLast_subset _ hm)
  · exact h1

/-- What loading computes, in one equation. -/
theorem load_eq (h : History) (fs : FS) (path : FPathName) (length : Nat) (append : Bool)
    (bytes : Bytes) (hr : fs.openRead path = some bytes) :
    loadHistoryFileTest h fs path length append =
      (some bytes.length,
        if bytes.length ≠ length then
          let all := (if append then h.buffers else []) ++ (fileLines bytes).map Buffer.ofText
          { h with buffers :=
              if h.loadDuplicates then lastN h.maxFileSize all else dedup (lastN h.maxFileSize all) }
        else if bytes.length = 0 ∧ append = false then { h with buffers := [] } else h) := by
  unfold loadHistoryFileTest
  rw [hr]
  simp only []
  by_cases hl : bytes.length = length
  · rw [if_neg (by simpa using hl)]
    simp only [ne_eq, hl, not_true_eq_false, if_false]
    by_cases h0 : length = 0 ∧ append = false
    · rw [if_pos ⟨h0.1, h0.1, h0.2⟩, if_pos h0]; rfl
    · rw [if_neg (by rintro ⟨a, b, c⟩; exact h0 ⟨a, c⟩), if_neg h0]
  · rw [if_pos (by simpa using hl)]
    have hne : ¬ (bytes.length = 0 ∧ length = 0 ∧ append = false) := by omega
    rw [if_neg hne]
    simp only [ne_eq, hl, not_false_eq_true, if_true]
    congr 1
    cases append
    · simp only [Bool.false_eq_true, if_false, truncate_eq, clearHistory]
      cases h.loadDuplicates <;> simp
    · simp only [if_true, truncate_eq]
      cases h.loadDuplicates <;> simp

/-- Every file is made of newline-free segments. -/
theorem segments_exist (bs : Bytes) :
    ∃ segs : List Bytes, segs ≠ [] ∧ (∀ s ∈ segs, (10 : UInt8) ∉ s) ∧
      bs = List.intercalate [10] segs := by
  induction bs with
  | nil => exact ⟨[[]], by simp, by simp, by simp⟩
  | cons b bs ih =>
    obtain ⟨segs, hne, hs, rfl⟩ := ih
    cases segs with
    | nil => exact absurd rfl hne
    | cons s rest =>
      by_cases hb : b = 10
      · refine ⟨[] :: s :: rest, by simp, ?_, ?_⟩
        · intro x hx
          rcases List.mem_cons.mp hx with rfl | hx
          · simp
          · exact hs x hx
        · rw [List.intercalate_cons_cons]; simp [hb]
      · refine ⟨(b :: s) :: rest, by simp, ?_, ?_⟩
        · intro x hx
          rcases List.mem_cons.mp hx with rfl | hx
          · simp only [List.mem_cons, not_or]
            exact ⟨Ne.symm hb, hs s (by simp)⟩
          · exact hs x (by simp [hx])
        · cases rest with
          | nil => simp
          | cons r rs => rw [List.intercalate_cons_cons, List.intercalate_cons_cons]; simp

theorem rawLines_segments (segs : List Bytes) (hs : ∀ s ∈ segs, (10 : UInt8) ∉ s) :
    (rawLines (List.intercalate [10] segs) []).map stripCR = linesOfSegments segs := by
  induction segs with
  | nil => rfl
  | cons s rest ih =>
    cases rest with
    | nil =>
      rw [List.intercalate_singleton, rawLines_last _ _ (hs s (by simp))]
      by_cases h : s = []
      · subst h; rfl
      · rw [if_neg (by simpa using h)]
        simp [stripCR, linesOfSegments, h]
    | cons r rs =>
      rw [List.intercalate_cons_cons, List.append_assoc, List.singleton_append,
        rawLines_terminated _ _ _ (hs s (by simp)), List.map_cons,
        ih (fun x hx => hs x (by simp [hx]))]
      simp [linesOfSegments, stripCR]

theorem takeOk_decode (texts : List Text) (rest : List Bytes)
    (hrest : ∀ b ∈ rest.head?, ∀ t, b ≠ encode t) :
    takeOk ((texts.map encode ++ rest).map decode) = texts := by
  rw [List.map_append, List.map_map]
  have : texts.map (decode ∘ encode) = texts.map some := by
    apply List.map_congr_left; intro t _; exact decode_encode t
  rw [this, takeOk_map_some]
  cases rest with
  | nil => simp [takeOk]
  | cons b bs =>
    have hd : decode b = none := by
      cases hd : decode b with
      | none => rfl
      | some t => exact absurd (decode_eq_some hd) (hrest b (by simp) t)
    simp [hd, takeOk]

theorem decodable_split (ls : List Bytes) :
    ∃ (texts : List Text) (rest : List Bytes), ls = texts.map encode ++ rest ∧
      ∀ b ∈ rest.head?, ∀ t, b ≠ encode t := by
  induction ls with
  | nil => exact ⟨[], [], rfl, by simp⟩
  | cons l ls ih =>
    cases hd : decode l with
    | none =>
      refine ⟨[], l :: ls, rfl, ?_⟩
      intro b hb t he
      simp at hb
      subst hb
      rw [he, decode_encode] at hd; cases hd
    | some t =>
      obtain ⟨texts, rest, he, hr⟩ := ih
      exact ⟨t :: texts, rest, by simp [he, decode_eq_some hd], hr⟩

/-! push -/

/-- The fields `push` and loading never change. -/
structure SameConfig (h h' : History) : Prop where
  fileName : h'.fileName = h.fileName
  maxBuffersSize : h'.maxBuffersSize = h.maxBuffersSize
  maxFileSize : h'.maxFileSize = h.maxFileSize
  appendDuplicateEntries : h'.appendDuplicateEntries = h.appendDuplicateEntries
  incAppend : h'.incAppend = h.incAppend
  share : h'.share = h.share
  loadDuplicates : h'.loadDuplicates = h.loadDuplicates

theorem SameConfig.refl (h : History) : SameConfig h h := ⟨rfl, rfl, rfl, rfl, rfl, rfl, rfl⟩

theorem SameConfig.trans {a b c : History} (h1 : SameConfig a b) (h2 : SameConfig b c) :
    SameConfig a c :=
  ⟨h2.1.trans h1.1, h2.2.trans h1.2, h2.3.trans h1.3, h2.4.trans h1.4, h2.5.trans h1.5,
    h2.6.trans h1.6, h2.7.trans h1.7⟩

theorem loadHistoryFileTest_config (h : History) (fs : FS) (path : FPathName) (length : Nat)
    (append : Bool) : SameConfig h (loadHistoryFileTest h fs path length append).2 := by
  cases hr : fs.openRead path with
  | none => simp only [loadHistoryFileTest, hr]; exact .refl h
  | some bytes =>
    rw [load_eq _ _ _ _ _ _ hr]
    simp only []
    split
    · exact ⟨rfl, rfl, rfl, rfl, rfl, rfl, rfl⟩
    · split
      · exact ⟨rfl, rfl, rfl, rfl, rfl, rfl, rfl⟩
      · exact .refl h

theorem loadHistory_config (h : History) (fs : FS) (append : Bool) :
    SameConfig h (h.loadHistory fs append).2 := by
  unfold loadHistory
  cases hf : h.fileName with
  | none => exact .refl h
  | some path =>
    simp only []
    have := loadHistoryFileTest_config h fs path h.fileSize append
    rcases hx : loadHistoryFileTest h fs path h.fileSize append with ⟨o, h'⟩
    rw [hx] at this
    cases o
    · exact this
    · exact ⟨this.1, this.2, this.3, this.4, this.5, this.6, this.7⟩

theorem overwriteHistory_config (h : History) (fs : FS) (path : FPathName) :
    SameConfig h (h.overwriteHistory fs path).2.1 := by
  unfold overwriteHistory
  rw [truncate_eq]
  simp only []
  split <;> exact ⟨rfl, rfl, rfl, rfl, rfl, rfl, rfl⟩

theorem compact_config (h : History) (fs : FS) (path : FPathName) :
    SameConfig h (h.compact fs path).1 := by
  unfold compact
  split
  · simp only []
    exact (loadHistory_config h fs false).trans (overwriteHistory_config _ fs path)
  · exact .refl h

theorem pushCompaction_config (h : History) (fs : FS) (path : FPathName) :
    SameConfig h (h.pushCompaction fs path).1 := by
  unfold pushCompaction
  split
  · exact ⟨rfl, rfl, rfl, rfl, rfl, rfl, rfl⟩
  · simp only []
    split
    · have := compact_config { h with compactionWrites := h.compactionWrites + 1 } fs path
      exact ⟨this.1, this.2, this.3, this.4, this.5, this.6, this.7⟩
    · exact ⟨rfl, rfl, rfl, rfl, rfl, rfl, rfl⟩

theorem pushAppend_config (h : History) (fs : FS) (path : FPathName) (item : Text) :
    SameConfig h (h.pushAppend fs path item).1 := by
  unfold pushAppend
  split
  · exact ⟨rfl, rfl, rfl, rfl, rfl, rfl, rfl⟩
  · exact .refl h

theorem push_config (h : History) (fs : FS) (b : Buffer) : SameConfig h (h.push fs b).1 := by
  unfold push
  split
  · exact .refl h
  · simp only []
    split
    · rename_i path _ _
      refine SameConfig.trans ?_ (pushAppend_config _ _ _ _)
      have := pushCompaction_config
        { h with buffers := (h.buffers ++ [b]).drop ((h.buffers ++ [b]).length - h.maxBuffersSize) } fs path
      exact ⟨this.1, this.2, this.3, this.4, this.5, this.6, this.7⟩
    · exact ⟨rfl, rfl, rfl, rfl, rfl, rfl, rfl⟩

theorem pushAppend_buffers (h : History) (fs : FS) (path : FPathName) (item : Text) :
    (h.pushAppend fs path item).1.buffers = h.buffers := by
  unfold pushAppend; split <;> rfl

/-- `push` may replace the in-memory history by the content of the file only in this
configuration. -/
def Reloads (h : History) : Prop :=
  h.incAppend = true ∧ h.fileName.isSome = true ∧ h.loadDuplicates = false ∧ h.share = true

theorem push_duplicate (h : History) (fs : FS) (b : Buffer) (hd : h.appendDuplicateEntries = false)
    (hl : h.buffers.getLast?.map (·.data) = some b.data) : h.push fs b = (h, fs) := by
  unfold push
  rw [if_pos ⟨by simp [hd], hl⟩]

theorem push_buffers (h : History) (fs : FS) (b : Buffer) (hn : ¬ Reloads h)
    (ha : h.appendDuplicateEntries = true ∨ h.buffers.getLast?.map (·.data) ≠ some b.data) :
    (h.push fs b).1.buffers = lastN h.maxBuffersSize (h.buffers ++ [b]) := by
  unfold push
  rw [if_neg (by
    rintro ⟨h1, h2⟩
    rcases ha with ha | ha
    · exact h1 ha
    · exact ha h2)]
  simp only []
  cases hi : h.incAppend
  · rfl
  · cases hf : h.fileName with
    | none => rfl
    | some path =>
      simp only [pushAppend_buffers]
      unfold pushCompaction
      split
      · rfl
      · rename_i hld
        simp only []
        split
        · unfold compact
          split
          · rename_i hsh
            exact absurd ⟨hi, by simp [hf], by simpa using hld, hsh⟩ hn
          · rfl
        · rfl

theorem noReloads_push (h : History) (fs : FS) (b : Buffer) (hn : ¬ Reloads h) :
    ¬ Reloads (h.push fs b).1 := by
  have := push_config h fs b
  unfold Reloads at *
  rw [this.incAppend, this.fileName, this.loadDuplicates, this.share]
  exact hn

end History
end Liner
