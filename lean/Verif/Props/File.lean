import Verif.Proof.File
/-
Properties of file name completion: C63, C64, C65.
-/

namespace Liner.Props
open Liner Liner.Spec

/-- C63: for a word that stands for the path `d ++ n`, where `n` is the beginning of a name (or nothing) and `d`
the part before it, exactly the entries of the directory `d` whose names begin with `n` are offered, in the order in
which the system lists them, each as the path typed with the name completed, with a separator if it is a directory.
Missing: `n` is `.`, the path has a `.` or a repeated separator before a name (see the violations). -/
theorem C63_names_partial (D : Disk) (hN : ∀ p es, D.readDir p = some es → Names es) (wd : Option Text) (caseSensitive : Bool)
    (w d n : Text) (hw : Writes w (d ++ n)) (hd : Folder d) (hn : '/' ∉ n) (h1 : n ≠ ['.']) (h2 : n ≠ ['.', '.'])
    (ht : n = [] ∨ Tidy d) :
    ∃ p, Reaches wd d p ∧ fileCompletions D wd caseSensitive w =
      some (((D.readDir p).getD []).filterMap (offer (if caseSensitive then id else D.lower) d n)) :=
  file_names D wd caseSensitive hw hd hn h1 h2 ht hN

/-- C63: for a path that ends in `..` all entries of that directory are offered. -/
theorem C63_parent (D : Disk) (hN : ∀ p es, D.readDir p = some es → Names es) (wd : Option Text) (caseSensitive : Bool)
    (w d : Text) (hw : Writes w (d ++ ['.', '.'])) (hd : Folder d) :
    ∃ p, Reaches wd (d ++ ['.', '.']) p ∧ fileCompletions D wd caseSensitive w =
      some (((D.readDir p).getD []).filterMap
        (offer (if caseSensitive then id else D.lower) (d ++ ['.', '.', '/']) [])) :=
  file_parent D wd caseSensitive hw hd hN

/-- C64: with an absolute working directory the completer panics for no word that is not in quotation marks, and
for one in quotation marks only if its last character is not an ASCII character. -/
theorem C64_absolute_partial (D : Disk) (wd : Text) (hr : rooted wd) (caseSensitive : Bool) (w : Text) :
    fileCompletions D (some wd) caseSensitive w = none ↔
      (w.head? = some '"' ∨ w.head? = some '\'') ∧ ∃ c, (w.drop 1).getLast? = some c ∧ 127 < c.toNat := by
  have hfull : ∀ x, rooted (fullPath (some wd) x) := fun x => by
    rw [full_eq, Path.push_root]; exact .inr hr
  have hone : ∀ c : Char, c.utf8Size = 1 ↔ ¬ 127 < c.toNat := fun c => by
    have : c.utf8Size = if c.toNat ≤ 127 then 1 else if c.toNat ≤ 2047 then 2 else if c.toNat ≤ 65535 then 3 else 4 := rfl
    rw [this]
    constructor
    · intro h
      repeat' split at h
      all_goals omega
    · intro h
      rw [if_pos (by omega)]
  by_cases hq : quoted w = true
  · have hq' : w.head? = some '"' ∨ w.head? = some '\'' := by simpa [quoted] using hq
    cases hl : (w.drop 1).getLast? with
    | none =>
      have hw : wordOf w = some (w.drop 1, w.drop 1) := by
        unfold wordOf; rw [if_pos hq]; dsimp only; rw [hl]
      rw [fileCompletions_none D _ _ hw Iff.rfl]
      simp [hfull]
    | some c =>
      by_cases hc : c.utf8Size = 1
      · have hw : wordOf w = some ((w.drop 1).dropLast, (w.drop 1).dropLast) := by
          unfold wordOf; rw [if_pos hq]; dsimp only; rw [hl]; simp [hc]
        rw [fileCompletions_none D _ _ hw Iff.rfl]
        simp only [hfull, not_true_eq_false, false_and, and_false, Option.some.injEq, false_iff]
        rintro ⟨-, c', rfl, h⟩
        exact (hone c).1 hc h
      · have hw : wordOf w = none := by
          unfold wordOf; rw [if_pos hq]; dsimp only; rw [hl]; simp [hc]
        unfold fileCompletions
        rw [hw]
        simp only [true_iff]
        refine ⟨hq', c, rfl, ?_⟩
        exact Decidable.byContradiction fun h => hc ((hone c).2 h)
  · have hw : wordOf w = some (w, unescape w) := by unfold wordOf; rw [if_neg hq]
    rw [fileCompletions_none D _ _ hw (unescape_nil_iff w).symm]
    have hq' : ¬ (w.head? = some '"' ∨ w.head? = some '\'') := by simpa [quoted] using hq
    simp only [hfull, not_true_eq_false, false_and, and_false, hq']

/-- C64: the completer panics for a word that stands for the path `x` exactly if `x` ends in `.` and, with the working
directory, leads nowhere. -/
theorem C64_words (D : Disk) (wd : Option Text) (caseSensitive : Bool) (w x : Text) (hw : Writes w x) :
    fileCompletions D wd caseSensitive w = none ↔
      x ≠ [] ∧ x.getLast? ≠ some '/' ∧ ¬ rooted x ∧ ¬ rooted (wd.getD []) ∧ steps x = [] ∧ steps (wd.getD []) = [] := by
  obtain ⟨s, h1, h2, -⟩ := wordOf_writes hw
  rw [fileCompletions_none D wd caseSensitive h1 h2, full_eq, Path.push_root, Path.push_steps, not_or]
  constructor
  · rintro ⟨h1, h2, ⟨h3, h4⟩, h5⟩
    rw [if_neg h3, List.append_eq_nil_iff] at h5
    exact ⟨h1, h2, h3, h4, h5.2, h5.1⟩
  · rintro ⟨h1, h2, h3, h4, h5, h6⟩
    rw [if_neg h3, h5, h6]
    exact ⟨h1, h2, ⟨h3, h4⟩, rfl⟩

/-- C65: what is offered with case-sensitive names for a word written with backslashes continues that word, and
stands for the path of an entry whose name continues the name typed, unless that path begins with a quotation mark.
Missing: words in quotation marks and the paths left out in C63 (see the violations). -/
theorem C65_extends_partial (D : Disk) (hN : ∀ p es, D.readDir p = some es → Names es) (wd : Option Text)
    (d n : Text) (hw : Writes (spaced (d ++ n)) (d ++ n)) (hd : Folder d) (hn : '/' ∉ n) (h1 : n ≠ ['.'])
    (h2 : n ≠ ['.', '.']) (ht : n = [] ∨ Tidy d) (cs : List Text)
    (hc : fileCompletions D wd true (spaced (d ++ n)) = some cs) :
    ∃ p, Reaches wd d p ∧ ∀ c ∈ cs, spaced (d ++ n) <+: c ∧
      ∃ name isDir, some (name, isDir) ∈ (D.readDir p).getD [] ∧ n <+: name ∧
        ((d ++ name).head? ≠ some '"' → (d ++ name).head? ≠ some '\'' →
          Writes c (d ++ name ++ if isDir then ['/'] else [])) := by
  obtain ⟨p, hp, h⟩ := file_names D wd true hw hd hn h1 h2 ht hN
  rw [h] at hc
  cases hc
  refine ⟨p, hp, fun c hc => ?_⟩
  obtain ⟨e, he, ho⟩ := List.mem_filterMap.1 hc
  cases e with
  | none => cases ho
  | some e =>
    unfold offer at ho
    simp only [if_true, id_eq] at ho
    by_cases hm : n = [] ∨ n <+: e.1
    · rw [if_pos hm] at ho
      cases ho
      have hpre : n <+: e.1 := by
        rcases hm with rfl | hm
        · exact List.nil_prefix
        · exact hm
      have hne : e.1 ≠ [] := by
        cases hr : D.readDir p with
        | none => rw [hr] at he; cases he
        | some es => rw [hr] at he; exact (hN p es hr e he).1
      refine ⟨?_, e.1, e.2, he, hpre, fun h3 h4 => .inl ⟨rfl, ?_⟩⟩
      · obtain ⟨t, ht⟩ := hpre
        unfold written
        rw [← ht, ← List.append_assoc, List.append_assoc (d ++ n), spaced_append (d ++ n)]
        exact List.prefix_append _ _
      · have hsp : ∀ q : Char, q ≠ '\\' → (d ++ e.1).head? ≠ some q → (written d e).head? ≠ some q := by
          intro q hq h
          unfold written
          have hne' : d ++ e.1 ≠ [] := by simp [hne]
          cases hde : d ++ e.1 with
          | nil => exact absurd hde hne'
          | cons c t =>
            rw [hde] at h
            rw [List.cons_append, spaced]
            split
            · simpa using fun h => hq h.symm
            · simpa using h
        exact ⟨hsp _ (by decide) h3, hsp _ (by decide) h4⟩
    · rw [if_neg hm] at ho
      cases ho

/-! ### Cases and violations -/

/-- A small tree. -/
def tree : Disk where
  readDir p :=
    if rooted p then
      if steps p = [['h']] then some [some (['u'], true), none, some (['u', 'v'], false)]
      else if steps p = [['h'], ['u']] then
        some [some ("foo".toList, false), some (".rc".toList, false), some ("fa b".toList, true),
          some ("Fig".toList, false), some ("\"q".toList, false)]
      else if steps p = [['h'], ['u'], "fa b".toList] then some [some (['x'], false)]
      else none
    else if steps p = [] ∧ p ≠ [] then some [some ("foo".toList, false)]
    else none
  lower t := t.map Char.toLower

/-- The completions in the tree. -/
def treeGives (wd : Option String) (cs : Bool) (w : String) (r : List String) : Bool :=
  fileCompletions tree (wd.map (·.toList)) cs w.toList == some (r.map (·.toList))

example : ∀ p es, tree.readDir p = some es → Names es := by
  intro p es h
  have hok : ∀ es : List (Option (Text × Bool)),
      (es.all fun e => match e with | some e => !e.1.isEmpty && !e.1.contains '/' | none => true) = true → Names es := by
    intro es h e he
    have := List.all_eq_true.1 h _ he
    simpa using this
  unfold tree at h
  dsimp only at h
  repeat' split at h
  all_goals first
    | (cases h; done)
    | (cases h; exact hok _ (by decide +kernel))

example : treeGives (some "/h/u") true "f" ["foo", "fa\\ b/"] = true := by decide +kernel
example : treeGives (some "/h/u") false "f" ["foo", "fa\\ b/", "Fig"] = true := by decide +kernel
example : treeGives (some "/h/u") true "fa\\ b/" ["fa\\ b/x"] = true := by decide +kernel
example : treeGives (some "/h/u") true "\"fa b\"" ["fa\\ b/"] = true := by decide +kernel
example : treeGives none true "./" ["./foo"] = true := by decide +kernel
example : Tidy "fa b/".toList ∧ Tidy "/h/u/".toList ∧ Folder "fa b/".toList :=
  ⟨.inr (.inr (.inr ⟨[], "fa b".toList, by decide, .inl rfl, by decide, by decide, by decide⟩)),
   .inr (.inr (.inr ⟨"/h/".toList, ['u'], by decide, .inr ⟨"/h".toList, by decide⟩, by decide, by decide, by decide⟩)),
   .inr ⟨"fa b".toList, by decide⟩⟩
example : Writes "fa\\ b".toList "fa b".toList := .inl (by decide)
example : Reaches (some "/h/u".toList) "fa b/".toList "/h//u/./fa b".toList := ⟨by decide, by decide⟩

/-- C64: without a working directory the word `.` makes the completer panic. -/
theorem C64_dot_violation : fileCompletions tree none true ['.'] = none := by decide +kernel

/-- C64: so does a quotation mark and one letter that is not ASCII, in any directory. -/
theorem C64_quote_violation : fileCompletions tree (some "/h/u".toList) true ['"', 'é'] = none := by decide +kernel

/-- C63: for `.` the names next to the working directory are offered that begin with its own name, not the hidden
files in it. -/
theorem C63_dot_violation : treeGives (some "/h/u") true "." ["u/", "uv"] = true := by decide +kernel

/-- C63: the last letter of a word with only an opening quotation mark is not looked at. -/
theorem C63_open_violation : treeGives (some "/h/u") true "\"foo" ["foo"] = true ∧
    treeGives (some "/h/u") true "\"fx" ["foo", "fa\\ b/"] = true := ⟨by decide +kernel, by decide +kernel⟩

/-- C63: without a working directory a name alone is looked up in the directory with the empty name, which does not
exist, and not in the current directory. -/
theorem C63_here_violation : treeGives none true "fo" [] = true ∧ treeGives none true "./fo" ["./foo"] = true :=
  ⟨by decide +kernel, by decide +kernel⟩

/-- C65: a name that begins with a quotation mark is offered as it is, but a word that begins with one is read
differently. -/
theorem C65_quote_violation : treeGives (some "/h") true "u/" ["u/foo", "u/.rc", "u/fa\\ b/", "u/Fig", "u/\"q"] = true ∧
    treeGives (some "/h/u") true "" ["foo", ".rc", "fa\\ b/", "Fig", "\"q"] = true ∧
    treeGives (some "/h/u") true "\"q" ["foo", ".rc", "fa\\ b/", "Fig", "\"q"] = true :=
  ⟨by decide +kernel, by decide +kernel, by decide +kernel⟩

/-- C65: a repeated separator is removed, so that what is offered does not continue what was typed; quotation marks
are removed as well. -/
theorem C65_untidy_violation : treeGives (some "/x") true "/h//u" ["/h/u/", "/h/uv"] = true ∧
    treeGives (some "/h/u") true "'foo'" ["foo"] = true := ⟨by decide +kernel, by decide +kernel⟩

end Liner.Props
