import Verif.Props.History
/-
C20, C23-C27: the history file.
-/

namespace Liner.Props
open Liner Spec History

/-- The file at `p` exists with this content and may be read and written. -/
def Holds (fs : FS) (p : FPathName) (bytes : Bytes) : Prop := fs.file p = some ⟨bytes, true, true⟩

theorem Holds.openRead {fs : FS} {p : FPathName} {bs : Bytes} (h : Holds fs p bs) :
    fs.openRead p = some bs := by simp [FS.openRead, Holds] at *; simp [h]

theorem Holds.append {fs : FS} {p : FPathName} {bs : Bytes} (h : Holds fs p bs) (x : Bytes) :
    Holds (fs.append p x) p (bs ++ x) := by
  unfold Holds at *
  simp [FS.append, h, FS.set]

theorem Holds.canAppend {fs : FS} {p : FPathName} {bs : Bytes} (h : Holds fs p bs) :
    fs.canAppend p = true := by simp [FS.canAppend, Holds] at *; simp [h]

theorem Holds.create {fs : FS} {p : FPathName} {bs : Bytes} (h : Holds fs p bs) :
    ∃ fs', fs.create p = some fs' ∧ Holds fs' p [] := by
  unfold Holds at *
  exact ⟨fs.set p ⟨[], true, true⟩, by simp [FS.create, h], by simp [FS.set]⟩

theorem linesBytes_eq (ls : List Text) : linesBytes ls = asLines ls := by
  induction ls with
  | nil => rfl
  | cons t ts ih => rw [asLines, ← ih]; simp [linesBytes]

theorem asLines_append (a b : List Text) : asLines (a ++ b) = asLines a ++ asLines b := by
  rw [← linesBytes_eq, ← linesBytes_eq, ← linesBytes_eq]; simp [linesBytes]

theorem asLines_eq_nil {ls : List Text} (h : asLines ls = []) : ls = [] := by
  cases ls with
  | nil => rfl
  | cons t ts => simp [asLines] at h

theorem storable_good {t : Text} (h : Storable t) : GoodLine t := ⟨h.1, h.2.1, h.2.2⟩

/-! ### C20 -/

/-- C20: a new file can be created, or the old one be rewritten. -/
def CanSave (fs : FS) (p : FPathName) : Prop :=
  (∃ bytes, Holds fs p bytes) ∨ (fs.file p = none ∧ fs.canCreate p = true)

theorem CanSave.create {fs : FS} {p : FPathName} (h : CanSave fs p) :
    ∃ fs', fs.create p = some fs' ∧ Holds fs' p [] := by
  rcases h with ⟨bs, h⟩ | ⟨h1, h2⟩
  · exact h.create
  · exact ⟨fs.set p ⟨[], true, true⟩, by simp [FS.create, h1, h2], by simp [FS.set, Holds]⟩

/-- C20: committing writes the newest `max_file_size` entries, one line each, whatever was in the
file. -/
theorem C20_commit_content (h : History) (fs : FS) (p : FPathName) (hi : h.incAppend = false)
    (hs : CanSave fs p) :
    ∃ h' fs', h.commitToFilePath fs p = (some (), h', fs') ∧
      Holds fs' p (asLines (lastN h.maxFileSize (texts h))) := by
  obtain ⟨fs', h1, h2⟩ := hs.create
  refine ⟨h.truncate, fs'.append p (linesBytes (h.truncate.buffers.map (·.data))), ?_, ?_⟩
  · simp [commitToFilePath, hi, overwriteHistory, h1]
  · have := h2.append (linesBytes (h.truncate.buffers.map (·.data)))
    rw [linesBytes_eq, truncate_eq] at this
    simp only [lastN_map, List.nil_append] at this
    rw [linesBytes_eq, truncate_eq]
    simp only [lastN_map]
    exact this

/-- C20: with `inc_append` the lines are in the file already, and committing writes nothing. -/
theorem C20_commit_inc_append (h : History) (fs : FS) (p : FPathName) (hi : h.incAppend = true) :
    h.commitToFilePath fs p = (some (), h, fs) ∧ h.commitToFile fs = (h, fs) := by
  have h1 : h.commitToFilePath fs p = (some (), h, fs) := by simp [commitToFilePath, hi]
  refine ⟨h1, ?_⟩
  unfold commitToFile
  split
  · rfl
  · simp [commitToFilePath, hi]

example : ({ incAppend := true, buffers := [.ofText ['a']] } : History).incAppend = true := rfl

/-- C20: `commit_to_file` is `commit_to_file_path` with the file name of the history; without one nothing
happens. -/
theorem C20_commit_to_file (h : History) (fs : FS) :
    (h.fileName = none → h.commitToFile fs = (h, fs)) ∧
    (∀ p, h.fileName = some p → h.incAppend = false → CanSave fs p →
      Holds (h.commitToFile fs).2 p (asLines (lastN h.maxFileSize (texts h)))) := by
  refine ⟨fun hn => by simp [commitToFile, hn], fun p hp hi hs => ?_⟩
  obtain ⟨h', fs', h1, h2⟩ := C20_commit_content h fs p hi hs
  simp only [commitToFile, hp, h1]
  exact h2

theorem load_fileName (h : History) (fs : FS) (p : FPathName) (append : Bool) :
    (h.loadHistoryFile fs p append).2.fileName = h.fileName := by
  unfold loadHistoryFile
  cases hr : fs.openRead p with
  | none => simp [loadHistoryFileTest, hr]
  | some bytes =>
    rw [load_eq _ _ _ _ _ _ hr]
    dsimp only
    split
    · rfl
    · split <;> rfl

/-- C21: `set_file_name_and_load_history` remembers the name whatever happens, loads the file and remembers
its length when it is there, and creates it empty when it is not; then the entries stay as they are. -/
theorem C21_set_file_name (h : History) (fs : FS) (p : FPathName) :
    (h.setFileNameAndLoadHistory fs p).2.1.fileName = some p ∧
    (∀ bytes, fs.openRead p = some bytes →
      (h.setFileNameAndLoadHistory fs p).1 = some bytes.length ∧
      (h.setFileNameAndLoadHistory fs p).2.2 = fs ∧
      (h.setFileNameAndLoadHistory fs p).2.1.fileSize = bytes.length ∧
      texts (h.setFileNameAndLoadHistory fs p).2.1 = texts (h.loadHistoryFile fs p false).2) ∧
    (fs.file p = none → fs.canCreate p = true →
      (h.setFileNameAndLoadHistory fs p).1 = some 0 ∧
      Holds (h.setFileNameAndLoadHistory fs p).2.2 p [] ∧
      (h.setFileNameAndLoadHistory fs p).2.1.fileSize = 0 ∧
      texts (h.setFileNameAndLoadHistory fs p).2.1 = texts h) ∧
    (fs.file p = none → fs.canCreate p = false →
      (h.setFileNameAndLoadHistory fs p).1 = none ∧ (h.setFileNameAndLoadHistory fs p).2.2 = fs ∧
      texts (h.setFileNameAndLoadHistory fs p).2.1 = texts h) := by
  refine ⟨?_, fun bytes hb => ?_, fun hf hc => ?_, fun hf hc => ?_⟩
  · unfold setFileNameAndLoadHistory
    dsimp only
    have hl := load_fileName { h with fileName := some p, fileSize := 0 } fs p false
    split
    · split
      · rename_i heq; rw [heq] at hl; exact hl
      · rename_i heq; rw [heq] at hl; exact hl
    · split <;> rfl
  · have hf : ∃ f, fs.file p = some f := by
      unfold FS.openRead at hb
      cases h' : fs.file p with
      | none => rw [h'] at hb; cases hb
      | some f => exact ⟨f, rfl⟩
    obtain ⟨f, hf⟩ := hf
    simp only [setFileNameAndLoadHistory, hf, loadHistoryFile]
    rw [load_eq _ _ _ _ _ _ hb, load_eq _ _ _ _ _ _ hb]
    refine ⟨rfl, rfl, rfl, ?_⟩
    dsimp only
    split
    · rfl
    · split <;> rfl
  · simp [setFileNameAndLoadHistory, hf, FS.create, hc, texts, Holds, FS.set]
  · simp [setFileNameAndLoadHistory, hf, FS.create, hc, texts]

theorem load_asLines (g : History) (fs : FS) (p : FPathName) (ls : List Text)
    (hs : ∀ t ∈ ls, Storable t) (hf : Holds fs p (asLines ls)) (hd : g.loadDuplicates = true) :
    (g.loadHistoryFile fs p false).1 = some (asLines ls).length ∧
    texts (g.loadHistoryFile fs p false).2 = lastN g.maxFileSize ls := by
  obtain ⟨ts, hts⟩ := C21_every_file (asLines ls)
  have hl := C21_load_lines g fs p false _ ts hf.openRead hts hd
  refine ⟨hl.1, ?_⟩
  rw [hl.2]
  have he : entries ts = ls := by
    rw [← FileHas.fileLines hts, ← linesBytes_eq]
    exact fileLines_linesBytes ls (fun t ht => storable_good (hs t ht))
  by_cases h0 : asLines ls = []
  · rw [if_pos h0, asLines_eq_nil h0]; simp [lastN]
  · rw [if_neg h0, he]; simp

/-- C20: saving and loading gives the newest `max_file_size` entries back. -/
theorem C20_save_load (h g : History) (fs : FS) (p : FPathName) (hi : h.incAppend = false)
    (hs : CanSave fs p) (hst : ∀ t ∈ texts h, Storable t) (hd : g.loadDuplicates = true)
    (hlim : g.maxFileSize = h.maxFileSize) :
    ∃ h' fs' bytes, h.commitToFilePath fs p = (some (), h', fs') ∧ Holds fs' p bytes ∧
      (g.loadHistoryFile fs' p false).1 = some bytes.length ∧
      texts (g.loadHistoryFile fs' p false).2 = lastN h.maxFileSize (texts h) := by
  obtain ⟨h', fs', h1, h2⟩ := C20_commit_content h fs p hi hs
  have hst' : ∀ t ∈ lastN h.maxFileSize (texts h), Storable t :=
    fun t ht => hst t (List.mem_of_mem_drop ht)
  have := load_asLines g fs' p _ hst' h2 hd
  refine ⟨h', fs', _, h1, h2, this.1, ?_⟩
  rw [this.2, hlim]
  exact lastN_of_le _ _ (by rw [lastN_length]; omega)

/-- C20 as stated: at most `max_file_size` entries come back exactly. -/
theorem C20_round_trip (h g : History) (fs : FS) (p : FPathName) (hi : h.incAppend = false)
    (hs : CanSave fs p) (hst : ∀ t ∈ texts h, Storable t) (hd : g.loadDuplicates = true)
    (hlim : g.maxFileSize = h.maxFileSize) (hn : (texts h).length ≤ h.maxFileSize) :
    ∃ h' fs' bytes, h.commitToFilePath fs p = (some (), h', fs') ∧ Holds fs' p bytes ∧
      (g.loadHistoryFile fs' p false).1 = some bytes.length ∧
      texts (g.loadHistoryFile fs' p false).2 = texts h := by
  obtain ⟨h', fs', b, h1, h2, h3, h4⟩ := C20_save_load h g fs p hi hs hst hd hlim
  exact ⟨h', fs', b, h1, h2, h3, by rw [h4, lastN_of_le _ _ hn]⟩

example : Storable ['a', '#', 'λ'] := by unfold Storable; decide
example : CanSave ⟨fun _ => none, fun _ => true⟩ ['h'] := .inr ⟨rfl, rfl⟩

/-- The file system used by the witnesses below: any file can be created, none exists. -/
def emptyFS : FS := ⟨fun _ => none, fun _ => true⟩

/-- The file system with one file. -/
def oneFile (p : FPathName) (bytes : Bytes) : FS :=
  ⟨fun q => if q = p then some ⟨bytes, true, true⟩ else none, fun _ => true⟩

/-- Save a history that holds one entry and load it again. -/
def saveLoad (t : Text) : List Text :=
  let h : History := { buffers := [.ofText t] }
  texts (History.new.loadHistoryFile (h.commitToFilePath emptyFS ['h']).2.2 ['h'] false).2

/-- Each condition on the entries is needed: a newline splits the entry, a leading '#' loses it, a
final carriage return is dropped. -/
theorem C20_conditions_needed :
    saveLoad ['a', '\n', 'b'] = [['a'], ['b']] ∧ saveLoad ['#', 'a'] = [] ∧
    saveLoad ['a', '\r'] = [['a']] := by decide

/-! ### C23 -/

/-- What one accepted push does in the configuration without compaction. -/
theorem push_append (h : History) (fs : FS) (p : FPathName) (bytes : Bytes) (t : Text)
    (hi : h.incAppend = true) (hf : h.fileName = some p) (hb : Holds fs p bytes)
    (hc : h.loadDuplicates = true ∨ h.compactionWrites < 29)
    (ha : h.appendDuplicateEntries = true ∨ (texts h).getLast? ≠ some t) :
    Holds (h.push fs (Buffer.ofText t)).2 p (bytes ++ encode t ++ [10]) ∧
    (h.push fs (Buffer.ofText t)).1.fileSize = h.fileSize + (encode t).length + 1 ∧
    (h.push fs (Buffer.ofText t)).1.compactionWrites =
      (if h.loadDuplicates then 1 else h.compactionWrites + 1) := by
  unfold push
  rw [if_neg (by
    rintro ⟨h1, h2⟩
    rcases ha with ha | ha
    · exact h1 ha
    · exact ha (by simpa [texts, Buffer.ofText] using h2))]
  simp only [hi, hf]
  unfold pushCompaction
  cases hld : h.loadDuplicates
  · simp only [Bool.false_eq_true, if_false]
    rw [hld] at hc
    simp only [Bool.false_eq_true, false_or] at hc
    rw [if_neg (by omega)]
    unfold pushAppend
    rw [if_pos ⟨hb.canAppend, by simp⟩]
    refine ⟨?_, rfl, rfl⟩
    have := hb.append (encode t ++ [10])
    simpa [List.append_assoc, Buffer.ofText] using this
  · simp only [if_true]
    unfold pushAppend
    rw [if_pos ⟨hb.canAppend, by simp⟩]
    refine ⟨?_, rfl, rfl⟩
    have := hb.append (encode t ++ [10])
    simpa [List.append_assoc, Buffer.ofText] using this

/-- C23, one push: an accepted line is appended with a newline; the remembered size grows by as
much. -/
theorem C23_push_appends (h : History) (fs : FS) (p : FPathName) (bytes : Bytes) (t : Text)
    (hi : h.incAppend = true) (hf : h.fileName = some p) (hb : Holds fs p bytes)
    (hc : h.loadDuplicates = true)
    (ha : h.appendDuplicateEntries = true ∨ (texts h).getLast? ≠ some t) :
    Holds (h.push fs (Buffer.ofText t)).2 p (bytes ++ asLines [t]) ∧
    (h.push fs (Buffer.ofText t)).1.fileSize = h.fileSize + (asLines [t]).length := by
  have := push_append h fs p bytes t hi hf hb (.inl hc) ha
  refine ⟨by simpa [asLines] using this.1, by rw [this.2.1]; simp [asLines]; omega⟩

/-- C23: with duplicates in the file allowed, or while fewer than thirty lines have been written
since the last compaction, the file is the old content followed by all pushed lines.  (Repeated lines
are accepted.) -/
theorem C23_push_all_partial (h : History) (fs : FS) (p : FPathName) (bytes : Bytes) (ts : List Text)
    (hi : h.incAppend = true) (hf : h.fileName = some p) (hb : Holds fs p bytes)
    (hc : h.loadDuplicates = true ∨ h.compactionWrites + ts.length ≤ 29)
    (ha : h.appendDuplicateEntries = true) :
    Holds (pushAll h fs ts).2 p (bytes ++ asLines ts) := by
  induction ts generalizing h fs bytes with
  | nil => simpa [pushAll, asLines] using hb
  | cons t ts ih =>
    rw [pushAll_cons]
    have hp := push_append h fs p bytes t hi hf hb (by
      rcases hc with hc | hc
      · exact .inl hc
      · right; simp at hc; omega) (.inl ha)
    have hcfg := push_config h fs (Buffer.ofText t)
    have := ih (h.push fs (Buffer.ofText t)).1 (h.push fs (Buffer.ofText t)).2
      (bytes ++ encode t ++ [10]) (by rw [hcfg.incAppend, hi]) (by rw [hcfg.fileName, hf]) hp.1
      (by
        rw [hcfg.loadDuplicates, hp.2.2]
        rcases hc with hc | hc
        · exact .inl hc
        · by_cases hld : h.loadDuplicates = true
          · exact .inl hld
          · right; rw [if_neg hld]; simp at hc; omega)
      (by rw [hcfg.appendDuplicateEntries, ha])
    simpa [asLines, List.append_assoc] using this

/-- C23 with repeats ignored: the accepted lines are those that differ from the one accepted
before. -/
theorem C23_push_all_no_repeat_partial (h : History) (fs : FS) (p : FPathName) (bytes : Bytes)
    (ts : List Text) (hi : h.incAppend = true) (hf : h.fileName = some p) (hb : Holds fs p bytes)
    (hc : h.loadDuplicates = true ∨ h.compactionWrites + ts.length ≤ 29)
    (ha : h.appendDuplicateEntries = false) (hm : 0 < h.maxBuffersSize) :
    Holds (pushAll h fs ts).2 p (bytes ++ asLines (noRepeat (texts h).getLast? ts)) := by
  induction ts generalizing h fs bytes with
  | nil => simpa [pushAll, asLines, noRepeat] using hb
  | cons t ts ih =>
    rw [pushAll_cons]
    by_cases he : (texts h).getLast? = some t
    · rw [push_duplicate h fs _ ha (by simpa [texts, Buffer.ofText] using he)]
      rw [noRepeat, if_pos he]
      exact ih h fs bytes hi hf hb (by
        rcases hc with hc | hc
        · exact .inl hc
        · right; simp at hc; omega) ha hm
    · have hp := push_append h fs p bytes t hi hf hb (by
        rcases hc with hc | hc
        · exact .inl hc
        · right; simp at hc; omega) (.inr he)
      have hcfg := push_config h fs (Buffer.ofText t)
      have hlast : (texts (h.push fs (Buffer.ofText t)).1).getLast? = some t := by
        by_cases hn : Reloads h
        · -- below the compaction threshold the reload does not happen
          have hcw : h.compactionWrites < 29 := by
            rcases hc with hc | hc
            · rw [hn.2.2.1] at hc; cases hc
            · simp at hc; omega
          have hld := hn.2.2.1
          have : (h.push fs (Buffer.ofText t)).1.buffers =
              lastN h.maxBuffersSize (h.buffers ++ [Buffer.ofText t]) := by
            unfold push
            rw [if_neg (by
              rintro ⟨_, h2⟩
              exact he (by simpa [texts, Buffer.ofText] using h2))]
            simp only [hi, hf, pushAppend_buffers]
            unfold pushCompaction
            simp only [hld, Bool.false_eq_true, if_false]
            rw [if_neg (by omega)]
            rfl
          unfold texts
          rw [this, lastN_map, lastN_getLast? _ _ hm]
          simp [Buffer.ofText]
        · rw [texts_push fs t hn (.inr he), lastN_getLast? _ _ hm]
          simp
      have := ih (h.push fs (Buffer.ofText t)).1 (h.push fs (Buffer.ofText t)).2
        (bytes ++ encode t ++ [10]) (by rw [hcfg.incAppend, hi]) (by rw [hcfg.fileName, hf]) hp.1
        (by
          rw [hcfg.loadDuplicates, hp.2.2]
          rcases hc with hc | hc
          · exact .inl hc
          · by_cases hld : h.loadDuplicates = true
            · exact .inl hld
            · right; rw [if_neg hld]; simp at hc; omega)
        (by rw [hcfg.appendDuplicateEntries, ha]) (by rw [hcfg.maxBuffersSize]; exact hm)
      rw [hlast] at this
      rw [noRepeat, if_neg he]
      simpa [asLines, List.append_assoc] using this

/-! ### C24 -/

theorem compactLines_eq (m : Nat) (ls : List Text) : compactLines m ls = keepLast (lastN m ls) := by
  unfold compactLines
  have : (if ls.length ≥ m then ls.drop (ls.length - m) else ls) = lastN m ls := by
    unfold lastN
    split
    · rfl
    · have : ls.length - m = 0 := by omega
      rw [this]; rfl
  simp only [this]
  rw [dedupLinesRev_eq _ _ (by simp)]
  simp

theorem lastN_sublist {α : Type} (n : Nat) (l : List α) : (lastN n l).Sublist l := List.drop_sublist _ _

/-- C24: compaction either leaves the file alone, when its lines are already distinct and few enough,
or rewrites it as exactly the last occurrences among the newest `max_file_size` non-comment lines. -/
theorem C24_compaction_content (fs : FS) (p : FPathName) (m : Nat) (bytes : Bytes) (ts : List Text)
    (hb : Holds fs p bytes) (hts : FileHas bytes ts) :
    ∃ fs', deduplicateHistoryFile fs p m = some fs' ∧
      ((entries ts = keepLast (lastN m (entries ts)) ∧ fs' = fs) ∨
       (entries ts ≠ keepLast (lastN m (entries ts)) ∧
        Holds fs' p (asLines (keepLast (lastN m (entries ts)))))) := by
  have hl := FileHas.fileLines hts
  obtain ⟨fs1, hc, h1⟩ := hb.create
  unfold deduplicateHistoryFile
  rw [hb.openRead]
  simp only [hl, compactLines_eq, hc]
  by_cases he : (entries ts).length = (keepLast (lastN m (entries ts))).length
  · rw [if_neg (by simpa using he)]
    refine ⟨fs, rfl, .inl ⟨?_, rfl⟩⟩
    exact (List.Sublist.eq_of_length ((keepLast_sublist _).trans (lastN_sublist m _)) he.symm).symm
  · rw [if_pos he]
    refine ⟨_, rfl, .inr ⟨fun hx => he (congrArg List.length hx), ?_⟩⟩
    have := h1.append (linesBytes (keepLast (lastN m (entries ts))))
    rw [linesBytes_eq] at this
    rw [linesBytes_eq]
    simpa using this

/-- C24, in terms of what is read from the compacted file.  Missing: lines that end in a carriage
return after the line end has been removed (see `C24_carriage_return_violation`). -/
theorem C24_compaction_lines_partial (fs : FS) (p : FPathName) (m : Nat) (bytes : Bytes)
    (ts : List Text) (hb : Holds fs p bytes) (hts : FileHas bytes ts)
    (hcr : ∀ t ∈ entries ts, t.getLast? ≠ some '\r') :
    ∃ fs' bytes' ts', deduplicateHistoryFile fs p m = some fs' ∧ Holds fs' p bytes' ∧
      FileHas bytes' ts' ∧ entries ts' = keepLast (lastN m (entries ts)) := by
  obtain ⟨fs', h1, h2⟩ := C24_compaction_content fs p m bytes ts hb hts
  rcases h2 with ⟨h2, rfl⟩ | ⟨_, h2⟩
  · exact ⟨fs', bytes, ts, h1, hb, hts, h2⟩
  · obtain ⟨ts', h3⟩ := C21_every_file (asLines (keepLast (lastN m (entries ts))))
    refine ⟨fs', _, ts', h1, h2, h3, ?_⟩
    rw [← FileHas.fileLines h3, ← linesBytes_eq]
    apply fileLines_linesBytes
    intro t ht
    have hm : t ∈ entries ts := List.mem_of_mem_drop (mem_keepLast.mp ht)
    refine ⟨?_, ?_, hcr t hm⟩
    · exact fileLines_no_newline bytes t (by rw [FileHas.fileLines hts]; exact hm)
    · have := (List.mem_filter.mp hm).2
      simpa using this

/-- C24 fails for a line ending in two carriage returns: compaction rewrites it with one, and it is
then read with none. -/
theorem C24_carriage_return_violation :
    ∃ (fs fs' : FS) (p : FPathName), deduplicateHistoryFile fs p 10 = some fs' ∧
      texts (History.new.loadHistoryFile fs p false).2 = [['a'], ['a'], ['a', '\r']] ∧
      texts (History.new.loadHistoryFile fs' p false).2 = [['a'], ['a']] :=
  ⟨oneFile ['h'] (encode ['a', '\n', 'a', '\n', 'a', '\r', '\r', '\n']), _, ['h'], rfl, by decide, by decide⟩

example : Holds (oneFile ['h'] [97, 10]) ['h'] [97, 10] := rfl

/-! ### C23, the thirtieth line -/

/-- C23 fails in general: without sharing and with `load_duplicates = false`, a push after 29 written
lines compacts the file and does not write its own line; if the line was not in the file before, it is
not there afterwards. -/
theorem C23_compaction_loses_line_violation (h : History) (fs : FS) (p : FPathName) (bytes : Bytes)
    (ts : List Text) (t : Text) (hi : h.incAppend = true) (hf : h.fileName = some p)
    (hb : Holds fs p bytes) (hts : FileHas bytes ts) (hld : h.loadDuplicates = false)
    (hsh : h.share = false) (hcw : h.compactionWrites = 29)
    (ha : h.appendDuplicateEntries = true ∨ (texts h).getLast? ≠ some t)
    (hcr : ∀ u ∈ entries ts, u.getLast? ≠ some '\r') (hnew : t ∉ entries ts) :
    (texts (h.push fs (Buffer.ofText t)).1).getLast? = (lastN h.maxBuffersSize [t]).getLast? ∧
    ∃ bytes' ts', Holds (h.push fs (Buffer.ofText t)).2 p bytes' ∧ FileHas bytes' ts' ∧
      t ∉ entries ts' := by
  have hnr : ¬ Reloads h := by rintro ⟨_, _, _, hs⟩; rw [hsh] at hs; cases hs
  constructor
  · rw [texts_push fs t hnr ha]
    by_cases hm : h.maxBuffersSize = 0
    · simp [hm, lastN]
    · rw [lastN_getLast? _ _ (by omega), lastN_getLast? _ _ (by omega)]; simp
  · obtain ⟨fs', b', ts', h1, h2, h3, h4⟩ := C24_compaction_lines_partial fs p h.maxFileSize bytes ts hb hts hcr
    refine ⟨b', ts', ?_, h3, ?_⟩
    · have : (h.push fs (Buffer.ofText t)).2 = fs' := by
        unfold push
        rw [if_neg (by
          rintro ⟨h1, h2⟩
          rcases ha with ha | ha
          · exact h1 ha
          · exact ha (by simpa [texts, Buffer.ofText] using h2))]
        simp only [hi, hf]
        unfold pushCompaction
        simp only [hld, Bool.false_eq_true, if_false, hcw]
        rw [if_pos (by omega)]
        unfold compact
        simp only [hsh, Bool.false_eq_true, if_false, h1, Option.getD_some]
        unfold pushAppend
        simp
      rw [this]; exact h2
    · rw [h4, mem_keepLast]
      intro hm
      exact hnew (List.mem_of_mem_drop hm)

/-- The situation of the previous theorem is reached from a new history and an empty file by thirty
pushes: the file holds the first 29 lines. -/
theorem C23_thirty_pushes_violation :
    let h : History := { incAppend := true, loadDuplicates := false, fileName := some ['h'] }
    let ts : List Text := (List.range 30).map (fun i => [Char.ofNat (65 + i)])
    texts (pushAll h (oneFile ['h'] []) ts).1 = ts ∧
    (pushAll h (oneFile ['h'] []) ts).2.openRead ['h'] = some (asLines (ts.take 29)) := by
  decide +kernel

/-- With sharing the thirtieth line is lost when another session has written to the file in between:
the compaction reloads the file and throws the new line away. -/
theorem C23_shared_compaction_violation :
    let h : History := { incAppend := true, share := true, loadDuplicates := false,
                         fileName := some ['h'] }
    let ts : List Text := (List.range 30).map (fun i => [Char.ofNat (65 + i)])
    texts (pushAll h (oneFile ['h'] (asLines [['x']])) ts).1 = ['x'] :: ts.take 29 ∧
    (pushAll h (oneFile ['h'] (asLines [['x']])) ts).2.openRead ['h'] =
      some (asLines (['x'] :: ts.take 29)) := by
  decide +kernel

/-! ### C25 -/

/-- Every session appends to the file `p` and allows duplicates in it. -/
def AllAppend (ss : List History) (p : FPathName) : Prop :=
  ∀ h ∈ ss, h.incAppend = true ∧ h.fileName = some p ∧ h.loadDuplicates = true

theorem AllAppend.set {ss : List History} {p : FPathName} (ha : AllAppend ss p) {i : Nat}
    {h h' : History} (hi : ss[i]? = some h) (hc : SameConfig h h') : AllAppend (ss.set i h') p := by
  intro g hg
  rcases List.mem_or_eq_of_mem_set hg with hg | rfl
  · exact ha g hg
  · have := ha h (List.mem_of_getElem? hi)
    exact ⟨by rw [hc.incAppend, this.1], by rw [hc.fileName, this.2.1], by rw [hc.loadDuplicates, this.2.2]⟩

theorem evStep_none {ss : List History} (fs : FS) {i : Nat} (t : Text) (hi : ss[i]? = none) :
    evStep ss fs (.push i t) = (ss, fs, []) := by simp [evStep, hi]

theorem evStep_some {ss : List History} (fs : FS) {i : Nat} {h : History} (t : Text)
    (hi : ss[i]? = some h) :
    evStep ss fs (.push i t) = (ss.set i (h.push fs (Buffer.ofText t)).1,
      (h.push fs (Buffer.ofText t)).2,
      if h.appendDuplicateEntries = false ∧ (texts h).getLast? = some t then [] else [(i, t)]) := by
  simp [evStep, hi]

theorem evStep_rnone {ss : List History} (fs : FS) {i : Nat} (hi : ss[i]? = none) :
    evStep ss fs (.refresh i) = (ss, fs, []) := by simp [evStep, hi]

theorem evStep_rsome {ss : List History} (fs : FS) {i : Nat} {h : History} (hi : ss[i]? = some h) :
    evStep ss fs (.refresh i) = (ss.set i (h.loadHistory fs false).2, fs, []) := by
  simp [evStep, hi]

theorem evStep_length (ss : List History) (fs : FS) (e : Ev) : (evStep ss fs e).1.length = ss.length := by
  cases e with
  | push i t =>
    cases hi : ss[i]? with
    | none => rw [evStep_none fs t hi]
    | some h => rw [evStep_some fs t hi]; simp
  | refresh i =>
    cases hi : ss[i]? with
    | none => rw [evStep_rnone fs hi]
    | some h => rw [evStep_rsome fs hi]; simp

theorem evStep_refresh_acc (ss : List History) (fs : FS) (i : Nat) :
    (evStep ss fs (.refresh i)).2.2 = [] := by
  cases hi : ss[i]? with
  | none => rw [evStep_rnone fs hi]
  | some h => rw [evStep_rsome fs hi]

theorem evStep_file (ss : List History) (fs : FS) (p : FPathName) (bytes : Bytes) (e : Ev)
    (ha : AllAppend ss p) (hb : Holds fs p bytes) :
    AllAppend (evStep ss fs e).1 p ∧
    Holds (evStep ss fs e).2.1 p (bytes ++ asLines ((evStep ss fs e).2.2.map (·.2))) := by
  cases e with
  | push i t =>
    cases hi : ss[i]? with
    | none => rw [evStep_none fs t hi]; exact ⟨ha, by simpa [asLines] using hb⟩
    | some h =>
      rw [evStep_some fs t hi]
      have hh := ha h (List.mem_of_getElem? hi)
      simp only []
      refine ⟨ha.set hi (push_config h fs _), ?_⟩
      by_cases hd : h.appendDuplicateEntries = false ∧ (texts h).getLast? = some t
      · rw [push_duplicate h fs _ hd.1 (by simpa [texts, Buffer.ofText] using hd.2), if_pos hd]
        simpa [asLines] using hb
      · have hacc : h.appendDuplicateEntries = true ∨ (texts h).getLast? ≠ some t := by
          by_cases h1 : h.appendDuplicateEntries = true
          · exact .inl h1
          · exact .inr (fun h2 => hd ⟨by simpa using h1, h2⟩)
        rw [if_neg hd]
        exact (C23_push_appends h fs p bytes t hh.1 hh.2.1 hb hh.2.2 hacc).1
  | refresh i =>
    cases hi : ss[i]? with
    | none => rw [evStep_rnone fs hi]; exact ⟨ha, by simpa [asLines] using hb⟩
    | some h => rw [evStep_rsome fs hi]; exact ⟨ha.set hi (loadHistory_config h fs false), by simpa [asLines] using hb⟩

theorem evRun_cons (ss : List History) (fs : FS) (e : Ev) (es : List Ev) :
    evRun ss fs (e :: es) =
      ((evRun (evStep ss fs e).1 (evStep ss fs e).2.1 es).1,
       (evRun (evStep ss fs e).1 (evStep ss fs e).2.1 es).2.1,
       (evStep ss fs e).2.2 ++ (evRun (evStep ss fs e).1 (evStep ss fs e).2.1 es).2.2) := rfl

/-- C25: under every schedule of pushes and refreshes by any number of sessions the file is the
initial content followed by every accepted line, once, in schedule order. -/
theorem C25_interleavings (ss : List History) (fs : FS) (p : FPathName) (bytes : Bytes) (es : List Ev)
    (ha : AllAppend ss p) (hb : Holds fs p bytes) :
    Holds (evRun ss fs es).2.1 p (bytes ++ asLines ((evRun ss fs es).2.2.map (·.2))) := by
  induction es generalizing ss fs bytes with
  | nil => simpa [evRun, asLines] using hb
  | cons e es ih =>
    have h1 := evStep_file ss fs p bytes e ha hb
    have h2 := ih _ _ _ h1.1 h1.2
    rw [evRun_cons]
    simp only [List.map_append, asLines_append]
    rw [← List.append_assoc]
    exact h2

/-- The pushes of a schedule. -/
def pushesOf : List Ev → List (Nat × Text)
  | [] => []
  | .push i t :: es => (i, t) :: pushesOf es
  | .refresh _ :: es => pushesOf es

/-- C25: the accepted lines are a subsequence of the pushes, so each session's lines keep their
order. -/
theorem C25_order (ss : List History) (fs : FS) (es : List Ev) :
    (evRun ss fs es).2.2.Sublist (pushesOf es) ∧
    ∀ i, ((evRun ss fs es).2.2.filter (·.1 = i)).Sublist ((pushesOf es).filter (·.1 = i)) := by
  have main : (evRun ss fs es).2.2.Sublist (pushesOf es) := by
    induction es generalizing ss fs with
    | nil => simp [evRun, pushesOf]
    | cons e es ih =>
      rw [evRun_cons]
      have := ih (evStep ss fs e).1 (evStep ss fs e).2.1
      cases e with
      | push i t =>
        cases hi : ss[i]? with
        | none => rw [evStep_none fs t hi] at this ⊢; simpa [pushesOf] using this.cons _
        | some h =>
          rw [evStep_some fs t hi] at this ⊢
          simp only []
          split
          · simpa [pushesOf] using this.cons _
          · simpa [pushesOf] using this
      | refresh i =>
        cases hi : ss[i]? with
        | none => rw [evStep_rnone fs hi] at this ⊢; simpa [pushesOf] using this
        | some h => rw [evStep_rsome fs hi] at this ⊢; simpa [pushesOf] using this
  exact ⟨main, fun i => main.filter _⟩

theorem AllAppend.run {ss : List History} {p : FPathName} {fs : FS} {bytes : Bytes}
    (ha : AllAppend ss p) (hb : Holds fs p bytes) (es : List Ev) : AllAppend (evRun ss fs es).1 p := by
  induction es generalizing ss fs bytes with
  | nil => exact ha
  | cons e es ih =>
    have h1 := evStep_file ss fs p bytes e ha hb
    exact ih h1.1 h1.2

theorem evStep_keeps (ss : List History) (fs : FS) (e : Ev) :
    ∀ (i : Nat) (h' : History), (evStep ss fs e).1[i]? = some h' → ∃ h, ss[i]? = some h ∧ SameConfig h h' := by
  intro i h' hi
  have key : ∀ (k : Nat) (g g' : History), ss[k]? = some g → SameConfig g g' →
      (ss.set k g')[i]? = some h' → ∃ h, ss[i]? = some h ∧ SameConfig h h' := by
    intro k g g' hk hc hs
    by_cases hki : k = i
    · subst hki
      have hlt := (List.getElem?_eq_some_iff.mp hk).1
      rw [List.getElem?_set_self hlt] at hs
      cases hs
      exact ⟨g, hk, hc⟩
    · rw [List.getElem?_set_ne hki] at hs
      exact ⟨h', hs, .refl _⟩
  cases e with
  | push k t =>
    cases hk : ss[k]? with
    | none => rw [evStep_none fs t hk] at hi; exact ⟨h', hi, .refl _⟩
    | some g => rw [evStep_some fs t hk] at hi; exact key k g _ hk (push_config g fs _) hi
  | refresh k =>
    cases hk : ss[k]? with
    | none => rw [evStep_rnone fs hk] at hi; exact ⟨h', hi, .refl _⟩
    | some g => rw [evStep_rsome fs hk] at hi; exact key k g _ hk (loadHistory_config g fs false) hi

theorem evRun_keeps (ss : List History) (fs : FS) (es : List Ev) :
    ∀ (i : Nat) (h' : History), (evRun ss fs es).1[i]? = some h' → ∃ h, ss[i]? = some h ∧ SameConfig h h' := by
  induction es generalizing ss fs with
  | nil => intro i h' hi; exact ⟨h', hi, .refl _⟩
  | cons e es ih =>
    intro i h' hi
    rw [evRun_cons] at hi
    obtain ⟨h1, h2, h3⟩ := ih _ _ i h' hi
    obtain ⟨h0, h4, h5⟩ := evStep_keeps ss fs e i h1 h2
    exact ⟨h0, h4, h5.trans h3⟩

/-- C25: when every session accepts repeated lines, every push by an existing session is
accepted. -/
theorem C25_all_accepted (ss : List History) (fs : FS) (es : List Ev)
    (hd : ∀ h ∈ ss, h.appendDuplicateEntries = true)
    (hex : ∀ i t, Ev.push i t ∈ es → i < ss.length) :
    (evRun ss fs es).2.2 = pushesOf es := by
  induction es generalizing ss fs with
  | nil => rfl
  | cons e es ih =>
    have hlen := evStep_length ss fs e
    rw [evRun_cons]
    simp only []
    rw [ih (evStep ss fs e).1 (evStep ss fs e).2.1 (by
      intro h' hm
      obtain ⟨i, hi⟩ := List.getElem?_of_mem hm
      obtain ⟨h, h1, h2⟩ := evStep_keeps ss fs e i h' hi
      rw [h2.appendDuplicateEntries]
      exact hd h (List.mem_of_getElem? h1)) (by
      intro i t hm; rw [hlen]; exact hex i t (by simp [hm]))]
    cases e with
    | push i t =>
      have hlt := hex i t (by simp)
      rw [evStep_some fs t (List.getElem?_eq_getElem hlt)]
      simp only []
      rw [if_neg (by rw [hd _ (List.getElem_mem hlt)]; simp)]
      rfl
    | refresh i => rw [evStep_refresh_acc]; rfl

example : AllAppend [{ incAppend := true, fileName := some ['h'] },
    { incAppend := true, fileName := some ['h'], maxBuffersSize := 3 }] ['h'] := by
  intro h hm
  simp at hm
  rcases hm with rfl | rfl <;> exact ⟨rfl, rfl, rfl⟩

/-! ### C26 -/

/-- C26: the file after a crash is a byte prefix of the new content. -/
theorem C26_crash_prefix (h : History) (fs : FS) (p : FPathName) (n : Nat) (hs : CanSave fs p) :
    ∃ bytes, Holds (h.crashOverwrite fs p n) p bytes ∧
      bytes = (asLines (lastN h.maxFileSize (texts h))).take n := by
  obtain ⟨fs', h1, h2⟩ := hs.create
  unfold crashOverwrite
  rw [h1]
  simp only [linesBytes_eq, truncate_eq, lastN_map]
  exact ⟨_, by simpa [texts] using h2.append _, rfl⟩

theorem fileLines_take (ls : List Text) (hs : ∀ t ∈ ls, Storable t) (n : Nat) :
    ∃ k tail, fileLines ((asLines ls).take n) = ls.take k ++ tail ∧
      (tail = [] ∨ ∃ c t, tail = [c] ∧ ls[k]? = some t ∧ c ≠ [] ∧ c <+: t) := by
  induction ls generalizing n with
  | nil => exact ⟨0, [], by simp [asLines, fileLines, rawLines, takeOk], .inl rfl⟩
  | cons t ts ih =>
    have hst := hs t (by simp)
    rcases Nat.lt_or_ge (encode t).length n with hn | hn
    · -- the whole first line is there
      obtain ⟨k, tail, h1, h2⟩ := ih (fun t ht => hs t (by simp [ht])) (n - (encode t).length - 1)
      have htake : (asLines (t :: ts)).take n =
          linesBytes [t] ++ (asLines ts).take (n - (encode t).length - 1) := by
        rw [linesBytes_eq, asLines, asLines, asLines, List.take_append,
          List.take_of_length_le (by omega), List.append_assoc]
        congr 1
        obtain ⟨m, hm⟩ : ∃ m, n - (encode t).length = m + 1 := ⟨n - (encode t).length - 1, by omega⟩
        rw [hm]; simp
      refine ⟨k + 1, tail, ?_, ?_⟩
      · rw [htake, fileLines_linesBytes_append [t] (by simpa using storable_good hst), h1]
        simp
      · rcases h2 with h2 | ⟨c, u, h2⟩
        · exact .inl h2
        · exact .inr ⟨c, u, by simpa using h2⟩
    · -- the first line is cut
      have htake : (asLines (t :: ts)).take n = (encode t).take n := by
        rw [asLines, List.take_append, Nat.sub_eq_zero_of_le hn]; simp
      rw [htake]
      have hno : (10 : UInt8) ∉ (encode t).take n := by
        intro hm
        exact hst.1 (newline_mem_encode.mp (List.mem_of_mem_take hm))
      refine ⟨0, fileLines ((encode t).take n), by simp, ?_⟩
      unfold fileLines
      rw [rawLines_last _ _ hno]
      by_cases h0 : (encode t).take n = []
      · left; rw [h0]; rfl
      · rw [if_neg (by simpa using h0)]
        simp only [List.reverse_nil, List.nil_append, List.map_cons, List.map_nil, decodeLine, stripCR,
          Bool.false_and, Bool.false_eq_true, if_false]
        cases hd : decode ((encode t).take n) with
        | none => left; simp [takeOk]
        | some c =>
          have he := decode_eq_some hd
          have hp : c <+: t := encode_prefix (he ▸ List.take_prefix _ _)
          have hc0 : c ≠ [] := by rintro rfl; exact h0 he
          right
          refine ⟨c, t, ?_, rfl, hc0, hp⟩
          have hh : c.head? ≠ some '#' := by
            obtain ⟨x, rfl⟩ := hp
            cases c with
            | nil => exact absurd rfl hc0
            | cons a as => simpa using hst.2.1
          simp [takeOk, isComment, hh]

/-- C26: loading the file after a crash gives the first entries, possibly followed by a non-empty
beginning of the next one. -/
theorem C26_load_after_crash (h g : History) (fs : FS) (p : FPathName) (n : Nat) (hs : CanSave fs p)
    (hst : ∀ t ∈ texts h, Storable t) (hd : g.loadDuplicates = true)
    (hlim : h.maxFileSize ≤ g.maxFileSize) :
    ∃ k tail, texts (g.loadHistoryFile (h.crashOverwrite fs p n) p false).2 =
        (lastN h.maxFileSize (texts h)).take k ++ tail ∧
      (tail = [] ∨ ∃ c t, tail = [c] ∧ (lastN h.maxFileSize (texts h))[k]? = some t ∧ c ≠ [] ∧ c <+: t) := by
  obtain ⟨bytes, h1, h2⟩ := C26_crash_prefix h fs p n hs
  obtain ⟨ts, hts⟩ := C21_every_file bytes
  have hl := (C21_load_lines g _ p false bytes ts h1.openRead hts hd).2
  by_cases h0 : bytes = []
  · rw [hl, if_pos h0]
    exact ⟨0, [], by simp, .inl rfl⟩
  · rw [hl, if_neg h0, ← FileHas.fileLines hts, h2]
    obtain ⟨k, tail, h3, h4⟩ := fileLines_take (lastN h.maxFileSize (texts h))
      (fun t ht => hst t (List.mem_of_mem_drop ht)) n
    refine ⟨k, tail, ?_, h4⟩
    rw [h3]
    simp only [Bool.false_eq_true, if_false, List.nil_append]
    apply lastN_of_le
    have hlen := lastN_length h.maxFileSize (texts h)
    rcases h4 with rfl | ⟨c, t, rfl, h5, _⟩
    · simp; omega
    · have := (List.getElem?_eq_some_iff.mp h5).1
      simp; omega

/-- Without a crash (all bytes written) the result is that of `overwrite_history`. -/
theorem C26_no_crash (h : History) (fs : FS) (p : FPathName) (n : Nat)
    (hn : (asLines (lastN h.maxFileSize (texts h))).length ≤ n) :
    h.crashOverwrite fs p n = (h.overwriteHistory fs p).2.2 := by
  unfold crashOverwrite overwriteHistory
  cases fs.create p with
  | none => rfl
  | some fs' =>
    simp only []
    rw [List.take_of_length_le]
    rw [linesBytes_eq, truncate_eq]
    simpa only [lastN_map, texts] using hn

/-- A crash that cuts the two-byte character of "é" loses that entry, one byte less cuts "ab". -/
example : texts (History.new.loadHistoryFile
      (crashOverwrite { buffers := [.ofText ['a', 'b'], .ofText ['é']] } emptyFS ['h'] 4) ['h'] false).2 = [['a', 'b']] ∧
    texts (History.new.loadHistoryFile
      (crashOverwrite { buffers := [.ofText ['a', 'b'], .ofText ['é']] } emptyFS ['h'] 1) ['h'] false).2 = [['a']] := by
  decide

/-! ### C27 -/

/-- No event of the list refreshes session `i`. -/
def NoRefresh (i : Nat) (es : List Ev) : Prop := Ev.refresh i ∉ es

/-- Lines accepted by session `i`. -/
def own (i : Nat) (acc : List (Nat × Text)) : List Text := (acc.filter (·.1 = i)).map (·.2)
/-- Lines accepted by the other sessions. -/
def others (i : Nat) (acc : List (Nat × Text)) : List Text := (acc.filter (¬ ·.1 = i)).map (·.2)

theorem own_others_length (i : Nat) (acc : List (Nat × Text)) :
    (asLines (acc.map (·.2))).length = (asLines (own i acc)).length + (asLines (others i acc)).length := by
  induction acc with
  | nil => rfl
  | cons a acc ih =>
    by_cases ha : a.1 = i
    · simp only [own, others, List.map_cons, asLines, ha, decide_true, List.filter_cons, decide_not,
        Bool.not_true, if_true, Bool.false_eq_true, if_false, List.length_append, List.length_cons] at *
      omega
    · simp only [own, others, List.map_cons, asLines, ha, decide_false, List.filter_cons, decide_not,
        Bool.not_false, if_true, Bool.false_eq_true, if_false, List.length_append, List.length_cons] at *
      omega

theorem own_append (i : Nat) (a b : List (Nat × Text)) : own i (a ++ b) = own i a ++ own i b := by
  simp [own]

/-- The remembered size of a session counts the file at its last refresh and its own lines. -/
theorem evRun_fileSize (ss : List History) (fs : FS) (p : FPathName) (bytes : Bytes) (es : List Ev)
    (ha : AllAppend ss p) (hb : Holds fs p bytes) (i : Nat) (h h' : History) (hi : ss[i]? = some h)
    (hnr : NoRefresh i es) (hi' : (evRun ss fs es).1[i]? = some h') :
    h'.fileSize = h.fileSize + (asLines (own i (evRun ss fs es).2.2)).length := by
  induction es generalizing ss fs bytes h with
  | nil =>
    simp only [evRun] at hi' ⊢
    rw [hi] at hi'; cases hi'; rfl
  | cons e es ih =>
    rw [evRun_cons] at hi' ⊢
    simp only [own_append, asLines_append, List.length_append] at hi' ⊢
    have hst := evStep_file ss fs p bytes e ha hb
    have hlt := (List.getElem?_eq_some_iff.mp hi).1
    have hnr' : NoRefresh i es := fun hm => hnr (by simp [hm])
    cases e with
    | push k t =>
      by_cases hk : k = i
      · subst hk
        have hh := ha h (List.mem_of_getElem? hi)
        have hs1 : (evStep ss fs (.push k t)).1[k]? = some (h.push fs (Buffer.ofText t)).1 := by
          rw [evStep_some fs t hi]; exact List.getElem?_set_self hlt
        have := ih _ _ _ hst.1 hst.2 _ hs1 hnr' hi'
        rw [this]
        have hsz : (h.push fs (Buffer.ofText t)).1.fileSize =
            h.fileSize + (asLines (own k (evStep ss fs (.push k t)).2.2)).length := by
          rw [evStep_some fs t hi]
          by_cases hd : h.appendDuplicateEntries = false ∧ (texts h).getLast? = some t
          · rw [push_duplicate h fs _ hd.1 (by simpa [texts, Buffer.ofText] using hd.2), if_pos hd]
            rfl
          · simp only []
            rw [if_neg hd]
            have hacc : h.appendDuplicateEntries = true ∨ (texts h).getLast? ≠ some t := by
              by_cases h1 : h.appendDuplicateEntries = true
              · exact .inl h1
              · exact .inr (fun h2 => hd ⟨by simpa using h1, h2⟩)
            rw [(C23_push_appends h fs p bytes t hh.1 hh.2.1 hb hh.2.2 hacc).2]
            simp [own]
        rw [hsz]; omega
      · have hs1 : (evStep ss fs (.push k t)).1[i]? = some h := by
          cases hk' : ss[k]? with
          | none => rw [evStep_none fs t hk']; exact hi
          | some g => rw [evStep_some fs t hk']; simp only []; rw [List.getElem?_set_ne hk]; exact hi
        have := ih _ _ _ hst.1 hst.2 _ hs1 hnr' hi'
        rw [this]
        have : own i (evStep ss fs (.push k t)).2.2 = [] := by
          cases hk' : ss[k]? with
          | none => rw [evStep_none fs t hk']; rfl
          | some g => rw [evStep_some fs t hk']; simp only []; split <;> simp [own, hk]
        rw [this]; simp [asLines]
    | refresh k =>
      have hk : k ≠ i := by rintro rfl; exact hnr (by simp)
      have hs1 : (evStep ss fs (.refresh k)).1[i]? = some h := by
        cases hk' : ss[k]? with
        | none => rw [evStep_rnone fs hk']; exact hi
        | some g => rw [evStep_rsome fs hk']; simp only []; rw [List.getElem?_set_ne hk]; exact hi
      have := ih _ _ _ hst.1 hst.2 _ hs1 hnr' hi'
      rw [this]
      have : own i (evStep ss fs (.refresh k)).2.2 = [] := by rw [evStep_refresh_acc]; rfl
      rw [this]; simp [asLines]

/-- C27: session `i` last refreshed when the file was `bytes`.  After any schedule of events of all
sessions, if another session's line has been accepted, a refresh shows exactly the newest
`max_file_size` lines of the file: those of `bytes` followed by all accepted lines in order.
Missing from the full claim: sessions with `load_duplicates = false`, and other writers that rewrite
the file to the same length (`C27_same_length_violation`). -/
theorem C27_refresh_shows_others_partial (ss : List History) (fs : FS) (p : FPathName) (ls : List Text)
    (es : List Ev) (ha : AllAppend ss p) (hls : ∀ t ∈ ls, Storable t)
    (hes : ∀ i t, Ev.push i t ∈ es → Storable t) (hb : Holds fs p (asLines ls))
    (i : Nat) (h h' : History) (hi : ss[i]? = some h) (hsz : h.fileSize = (asLines ls).length)
    (hnr : NoRefresh i es) (hi' : (evRun ss fs es).1[i]? = some h')
    (ho : others i (evRun ss fs es).2.2 ≠ []) :
    texts (h'.loadHistory (evRun ss fs es).2.1 false).2 =
      lastN h'.maxFileSize (ls ++ (evRun ss fs es).2.2.map (·.2)) := by
  have hfile := C25_interleavings ss fs p _ es ha hb
  have hsize := evRun_fileSize ss fs p _ es ha hb i h h' hi hnr hi'
  have hcfg := (AllAppend.run ha hb es) h' (List.mem_of_getElem? hi')
  rw [← asLines_append] at hfile
  have hne : (asLines (ls ++ (evRun ss fs es).2.2.map (·.2))).length ≠ h'.fileSize := by
    rw [hsize, hsz, asLines_append, List.length_append, own_others_length i]
    have : (asLines (others i (evRun ss fs es).2.2)).length ≠ 0 := by
      intro h0
      exact ho (asLines_eq_nil (List.length_eq_zero_iff.mp h0))
    omega
  have hnil : asLines (ls ++ (evRun ss fs es).2.2.map (·.2)) ≠ [] := by
    intro h0
    have := asLines_eq_nil h0
    have h1 : (evRun ss fs es).2.2 = [] := by
      have := (List.append_eq_nil_iff.mp this).2
      simpa using this
    rw [h1] at ho
    exact ho rfl
  have hrl := C21_reload_when_length_differs h' _ p false _ hcfg.2.1 hfile.openRead hne hnil
  rw [hrl.2.2]
  refine (load_asLines h' _ p _ ?_ hfile hcfg.2.2).2
  intro t ht
  rcases List.mem_append.mp ht with ht | ht
  · exact hls t ht
  · obtain ⟨⟨k, u⟩, hm, rfl⟩ := List.mem_map.mp ht
    have := (C25_order ss fs es).1.subset hm
    have hpush : ∀ es : List Ev, (k, u) ∈ pushesOf es → Ev.push k u ∈ es := by
      intro es
      induction es with
      | nil => simp [pushesOf]
      | cons e es ih =>
        cases e with
        | push a b =>
          simp only [pushesOf, List.mem_cons, Prod.mk.injEq, Ev.push.injEq]
          rintro (h | h)
          · exact .inl h
          · exact .inr (ih h)
        | refresh a => simp only [pushesOf, List.mem_cons]; exact fun h => .inr (ih h)
    exact hes k u (hpush es this)

/-- C27: when no other session has written, a refresh changes nothing (the session's own lines stay
as they were pushed), provided the file is not empty. -/
theorem C27_refresh_keeps_own (ss : List History) (fs : FS) (p : FPathName) (bytes : Bytes)
    (es : List Ev) (ha : AllAppend ss p) (hb : Holds fs p bytes) (hne : bytes ≠ [])
    (i : Nat) (h h' : History) (hi : ss[i]? = some h) (hsz : h.fileSize = bytes.length)
    (hnr : NoRefresh i es) (hi' : (evRun ss fs es).1[i]? = some h')
    (ho : others i (evRun ss fs es).2.2 = []) :
    (h'.loadHistory (evRun ss fs es).2.1 false).2 = h' := by
  have hfile := C25_interleavings ss fs p _ es ha hb
  have hsize := evRun_fileSize ss fs p _ es ha hb i h h' hi hnr hi'
  have hcfg := (AllAppend.run ha hb es) h' (List.mem_of_getElem? hi')
  rw [C21_skip_when_length_equal h' _ p false _ hcfg.2.1 hfile.openRead ?_ (by simp [hne])]
  rw [hsize, hsz, List.length_append, own_others_length i, ho]
  simp [asLines]

/-- C27 fails when another session rewrites the file to the same length: the refresh compares
lengths only. -/
theorem C27_same_length_violation :
    let me : History := { incAppend := true, share := true, fileName := some ['h'],
                          buffers := [.ofText ['a']], fileSize := 2 }
    let other : History := { fileName := some ['h'], buffers := [.ofText ['b']] }
    let fs := (other.commitToFile (oneFile ['h'] (asLines [['a']]))).2
    fs.openRead ['h'] = some (asLines [['b']]) ∧
    texts (me.loadHistory fs false).2 = [['a']] := by decide

/-- Two sessions, the second one writes: the first one sees the line after a refresh. -/
example :
    let s : History := { incAppend := true, share := true, fileName := some ['h'], fileSize := 2,
                         buffers := [.ofText ['a']] }
    let r := evRun [s, s] (oneFile ['h'] (asLines [['a']])) [.push 1 ['b'], .push 0 ['c'], .refresh 0]
    r.1.map texts = [[['a'], ['b'], ['c']], [['a'], ['b']]] ∧ others 0 r.2.2 = [['b']] := by decide

end Liner.Props
