import Verif.Proof.Complete
import Verif.Model.Complete
import Verif.Props.Witness
/-
C39: the first Tab.
C40: further Tabs cycle through the candidates.
C41: deleting the previous word.
C59: `BasicCompleter`.
-/

namespace Liner.Props
open Liner Liner.Spec Liner.Editor Liner.Wit

/-! ### C41 -/

/-- C41: the text from the start of the word before (or around) the cursor to the cursor is removed; with
`ignoreSpace` the word may end before the cursor, and what is between is removed too.  This holds for
every word divider whose words come in order. -/
theorem C41_delete_word (E : Env) (s : Ed) (l m r : Text) (ws : List (Nat × Nat))
    (ignoreSpace : Bool) (e : Nat) (hd : ∀ b, s.curBuf? = some b → E.words b = ws)
    (hsep : Separated ws) (h : At s (l ++ m) r) (hs : SearchOnNewLine s)
    (hp : WordBefore ws (l ++ m).length ignoreSpace (l.length, e)) :
    Makes (deleteWordBeforeCursor E ignoreSpace) s l r :=
  makes_of (deleteWord_makes hd hsep h hs hp)

/-- C41: nothing is removed when there is no such word. -/
theorem C41_no_word (E : Env) (s : Ed) (l r : Text) (ws : List (Nat × Nat)) (ignoreSpace : Bool)
    (hd : ∀ b, s.curBuf? = some b → E.words b = ws) (hsep : Separated ws) (h : At s l r)
    (hs : SearchOnNewLine s) (hp : ∀ p, ¬ WordBefore ws l.length ignoreSpace p) :
    Makes (deleteWordBeforeCursor E ignoreSpace) s l r :=
  makes_of (deleteWord_same hd hsep h hs hp)

/-- C41: the same for the default word divider and the words as specified. -/
theorem C41_default (E : Env) (hw : E.words = getBufferWords) (s : Ed) (l m r : Text)
    (ws : List (Nat × Nat)) (hd : IsDivision (l ++ m ++ r) ws) (h : At s (l ++ m) r)
    (hs : SearchOnNewLine s) (ignoreSpace : Bool) :
    (∀ e, WordBefore ws (l ++ m).length ignoreSpace (l.length, e) →
      Makes (deleteWordBeforeCursor E ignoreSpace) s l r) ∧
    ((∀ p, ¬ WordBefore ws (l ++ m).length ignoreSpace p) →
      Makes (deleteWordBeforeCursor E ignoreSpace) s (l ++ m) r) := by
  obtain ⟨h1, h2⟩ := divides hw h.1 hd
  exact ⟨fun e hp => C41_delete_word E s l m r ws ignoreSpace e h1 h2 h hs hp,
    fun hp => C41_no_word E s (l ++ m) r ws ignoreSpace h1 h2 h hs hp⟩

/-- C41: with the default divider, and when spaces are skipped, the removed text is a word beginning
followed by unescaped spaces and stray backslashes only. -/
theorem C41_removed (t : Text) (ws : List (Nat × Nat)) (hd : IsDivision t ws) (cursor : Nat)
    (p : Nat × Nat) (hp : WordBefore ws cursor true p) (i : Nat) (c : Char) (h1 : p.2 ≤ i)
    (h2 : i < cursor) (hc : t[i]? = some c) : c = ' ' ∨ c = '\\' := by
  refine hd.outside i c hc (fun w hw hin => ?_)
  have hsep : Separated ws := ⟨fun w hm => (hd.words w hm).nonempty, hd.ordered⟩
  have := hp.last w hw (by omega)
  have h3 := hsep.1 w hw
  have h4 := hsep.1 p hp.mem
  rcases sep_cases hsep hw hp.mem with h | h | h
  · rw [h] at hin; omega
  · omega
  · omega

example : okAnd (deleteWordBeforeCursor Tests.env false
      { fresh [] "foo ba\\ rx" with cursor := 9 }) (fun _ s =>
    text? s == some "foo x".toList && s.cursor == 4) = true := by decide +kernel

example : IsDivision "foo ba\\ rx".toList [(0, 3), (4, 10)] ∧
    WordBefore [(0, 3), (4, 10)] 9 false (4, 10) := by
  refine ⟨(C11_words_unique (.ofText "foo ba\\ rx".toList) _).mpr (by decide), by decide, by decide,
    by decide, by decide⟩

example : WordBefore [(0, 3), (4, 8)] 10 true (4, 8) ∧
    ∀ p, ¬ WordBefore [(0, 3), (4, 8)] 10 false p := by
  refine ⟨⟨by decide, by decide, by decide, by decide⟩, fun p hp => ?_⟩
  have h1 := hp.mem
  have h2 := hp.touches rfl
  simp at h1
  rcases h1 with rfl | rfl <;> simp at h2

/-! ### C39

The word that the completer is asked about is `w1 ++ w2`, with the cursor in between or at its end; what
is replaced is `w1`. -/

/-- C39: no candidates: the line, the cursor and the list stay. -/
theorem C39_none (E : Env) (hw : E.words = getBufferWords) (s s' : Ed) (l w1 w2 r : Text)
    (comp : Text → List Text) (hh : s.showCompletionsHint = none) (h : At s (l ++ w1) (w2 ++ r))
    (hs : SearchOnNewLine s) (ht : Touched l w1 w2 r) (hc : comp (w1 ++ w2) = [])
    (he : s.noEol = true → w2 ++ r ≠ [] ∨ l = []) (hr : complete E comp s = .ok () s') :
    At s' (l ++ w1) (w2 ++ r) ∧ s'.showCompletionsHint = none := by
  have hcs : SortedSet (comp (w1 ++ w2)) [] := ⟨.nil, by simp [hc]⟩
  unfold complete at hr
  have := wp_ok (m := complete E comp) (s := s) (a := ()) (s' := s') (Q := fun _ s' =>
      At s' (l ++ w1) (w2 ++ r) ∧ s'.showCompletionsHint = none) (R := fun _ _ => True)
      (P := fun _ => True) (by
    unfold complete
    rw [wp_bind, wp_get]; simp only [hh]
    exact wp_mono (completeFirst_wp hw h hs ht hcs he) (fun _ _ h' => h'.1 rfl)
      (fun _ _ h => h) (fun _ h => h)) hr
  exact this

/-- C39: one candidate (perhaps given several times) takes the place of the word before the cursor. -/
theorem C39_one (E : Env) (hw : E.words = getBufferWords) (s s' : Ed) (l w1 w2 r : Text)
    (comp : Text → List Text) (hh : s.showCompletionsHint = none) (h : At s (l ++ w1) (w2 ++ r))
    (hs : SearchOnNewLine s) (ht : Touched l w1 w2 r) (c : Text)
    (hc : ∀ x, x ∈ comp (w1 ++ w2) ↔ x = c)
    (he : s.noEol = true → w2 ++ r ≠ [] ∨ l = []) (hr : complete E comp s = .ok () s') :
    Lands s.noEol s' (l ++ c) (w2 ++ r) ∧ s'.showCompletionsHint = none := by
  have hcs : SortedSet (comp (w1 ++ w2)) [c] := ⟨by simp, by simp [hc]⟩
  exact wp_ok (m := complete E comp) (s := s) (a := ()) (s' := s') (Q := fun _ s' =>
      Lands s.noEol s' (l ++ c) (w2 ++ r) ∧ s'.showCompletionsHint = none) (R := fun _ _ => True)
      (P := fun _ => True) (by
    unfold complete
    rw [wp_bind, wp_get]; simp only [hh]
    exact wp_mono (completeFirst_wp hw h hs ht hcs he) (fun _ _ h' => h'.2.1 c rfl)
      (fun _ _ h => h) (fun _ h => h)) hr

/-- C39: several candidates.  If their longest common prefix `p` extends the word, it takes the place of
the word before the cursor and no list is shown; otherwise the sorted list without repetitions is shown and the
line stays. -/
theorem C39_several (E : Env) (hw : E.words = getBufferWords) (s s' : Ed) (l w1 w2 r : Text)
    (comp : Text → List Text) (hh : s.showCompletionsHint = none) (h : At s (l ++ w1) (w2 ++ r))
    (hs : SearchOnNewLine s) (ht : Touched l w1 w2 r) (cs : List Text)
    (hcs : SortedSet (comp (w1 ++ w2)) cs) (h2 : 2 ≤ cs.length) (p : Text) (hp : CommonPrefix cs p)
    (he : s.noEol = true → w2 ++ r ≠ [] ∨ l = []) (hr : complete E comp s = .ok () s') :
    ((w1 ++ w2 <+: p ∧ p ≠ w1 ++ w2) →
      Lands s.noEol s' (l ++ p) (w2 ++ r) ∧ s'.showCompletionsHint = none) ∧
    (¬ (w1 ++ w2 <+: p ∧ p ≠ w1 ++ w2) →
      Lands s.noEol s' (l ++ w1) (w2 ++ r) ∧ s'.showCompletionsHint = some (cs, none)) := by
  have := wp_ok (m := complete E comp) (s := s) (a := ()) (s' := s') (Q := fun _ s' =>
    ((w1 ++ w2 <+: p ∧ p ≠ w1 ++ w2) →
      Lands s.noEol s' (l ++ p) (w2 ++ r) ∧ s'.showCompletionsHint = none) ∧
    (¬ (w1 ++ w2 <+: p ∧ p ≠ w1 ++ w2) →
      Lands s.noEol s' (l ++ w1) (w2 ++ r) ∧ s'.showCompletionsHint = some (cs, none)))
      (R := fun _ _ => True) (P := fun _ => True) (by
    unfold complete
    rw [wp_bind, wp_get]; simp only [hh]
    exact wp_mono (completeFirst_wp hw h hs ht hcs he) (fun _ _ h' => hh ▸ h'.2.2 p h2 hp)
      (fun _ _ h => h) (fun _ h => h)) hr
  exact this

/-- C39: there is always exactly one way to list candidates in order, and a longest common prefix: the cases
above cover every list of candidates. -/
theorem C39_cases (given : List Text) : ∃ cs, SortedSet given cs ∧
    (∀ cs', SortedSet given cs' → cs' = cs) ∧
    (cs = [] ∧ given = [] ∨ (∃ c, cs = [c] ∧ ∀ x, x ∈ given ↔ x = c) ∨
      (2 ≤ cs.length ∧ ∃ p, CommonPrefix cs p)) := by
  have hs := sortDedup_spec given
  refine ⟨sortDedup given, hs, fun cs' h => SortedSet.unique h hs, ?_⟩
  match hm : sortDedup given with
  | [] =>
    refine .inl ⟨rfl, ?_⟩
    rw [hm] at hs
    cases given with
    | nil => rfl
    | cons x xs => simpa using (hs.2 x).mpr (by simp)
  | [c] =>
    rw [hm] at hs
    exact .inr (.inl ⟨c, rfl, fun x => by rw [← hs.2]; simp⟩)
  | a :: b :: rest =>
    refine .inr (.inr ⟨by simp, ?_⟩)
    cases hl : findLongestCommonPrefix (a :: b :: rest) with
    | none =>
      have := (C13_lcp_none (a :: b :: rest) (by simp)).mp hl
      exact ⟨[], fun _ _ => List.nil_prefix, fun q hq => by
        rw [this q hq]; exact List.nil_prefix⟩
    | some p =>
      have := (C13_lcp (a :: b :: rest) (by simp) p).mp hl
      exact ⟨p, this.2.1, this.2.2⟩

/-- C39 does not hold of the whole word when the cursor is inside it.  Here the cursor is in "fo|x", the
completer is asked about "fox" and answers "foxes", and the line becomes "foxesx". -/
theorem C39_inside_word_violation : ∃ (E : Env) (comp : Text → List Text) (s s' : Ed),
    E.words = getBufferWords ∧ s.showCompletionsHint = none ∧ At s ['f', 'o'] ['x'] ∧
    comp ['f', 'o', 'x'] = ["foxes".toList] ∧ complete E comp s = .ok () s' ∧
    text? s' = some "foxesx".toList := by
  have h : okAnd (complete Tests.env (fun w => if w = ['f', 'o', 'x'] then ["foxes".toList] else [])
      { fresh [] "fox" with cursor := 2 }) (fun _ s =>
    text? s == some "foxesx".toList) = true := by decide +kernel
  obtain ⟨_, s', h1, h2⟩ := of_okAnd h
  rw [beq_iff_eq] at h2
  exact ⟨_, _, _, s', rfl, rfl, ⟨rfl, rfl⟩, by simp, h1, h2⟩

/-! ### C40 -/

/-- C40: while the list `cs` of single-word candidates is shown, the k-th further Tab puts candidate
`(k - 1) mod n` in the place of the word before the cursor. -/
theorem C40_cycle (E : Env) (hw : E.words = getBufferWords) (s s' : Ed) (l w1 w2 r : Text)
    (cs : List Text) (hne : cs ≠ []) (hone : ∀ c ∈ cs, OneWord c)
    (hh : s.showCompletionsHint = some (cs, none)) (h : At s (l ++ w1) (w2 ++ r))
    (hs : SearchOnNewLine s) (ht : Touched l w1 w2 r)
    (he : s.noEol = true → w2 ++ r ≠ [] ∨ l = [])
    (comps : List (Text → List Text)) (hk : comps ≠ [])
    (hr : runOps E (comps.map .complete) s = .ok () s') :
    ∃ c, cs[(comps.length - 1) % cs.length]? = some c ∧ Lands s.noEol s' (l ++ c) (w2 ++ r) ∧
      s'.showCompletionsHint = some (cs, some ((comps.length - 1) % cs.length)) := by
  cases comps with
  | nil => exact absurd rfl hk
  | cons comp comps =>
    have hw := wp_ok (m := runOps E ((comp :: comps).map .complete)) (s := s) (a := ()) (s' := s')
      (Q := fun _ s' => ∃ j, j = (if comps = [] then 0 else (0 + comps.length) % cs.length) ∧
        Cycle cs l (w2 ++ r) j s' ∧ s'.noEol = s.noEol) (R := fun _ _ => True) (P := fun _ => True)
      (by
        simp only [List.map_cons, runOps, runOp, wp_bind]
        refine wp_mono (cycle_first hw hh hne h hs ht he) (fun _ s1 h1 => ?_)
          (fun _ _ _ => trivial) (fun _ _ => trivial)
        refine wp_mono (h1.1.tabs hw comps (fun c hc => Touched.starts ht (hone c hc)))
          (fun _ s2 h2 => ?_) (fun _ _ _ => trivial) (fun _ _ => trivial)
        obtain ⟨j, hj, h2, h3⟩ := h2
        exact ⟨j, hj, h2, h3.trans h1.2⟩) hr
    obtain ⟨j, hj, hcy, hn⟩ := hw
    have hj' : j = ((comp :: comps).length - 1) % cs.length := by
      rw [hj]
      split
      · rename_i h0; subst h0; simp
      · simp
    rw [← hj']
    obtain ⟨c, hc, hl⟩ := hcy.ex
    rw [hn] at hl
    exact ⟨c, hc, hl, hcy.hint⟩

/-- C39 and C40 together: a Tab that shows the list and k further ones. -/
theorem C40_from_first (E : Env) (hw : E.words = getBufferWords) (s s' : Ed) (l w1 w2 r : Text)
    (comp : Text → List Text) (hh : s.showCompletionsHint = none) (h : At s (l ++ w1) (w2 ++ r))
    (hs : SearchOnNewLine s) (ht : Touched l w1 w2 r) (cs : List Text)
    (hcs : SortedSet (comp (w1 ++ w2)) cs) (h2 : 2 ≤ cs.length) (p : Text) (hp : CommonPrefix cs p)
    (hx : ¬ (w1 ++ w2 <+: p ∧ p ≠ w1 ++ w2)) (hone : ∀ c ∈ cs, OneWord c)
    (he : s.noEol = true → w2 ++ r ≠ []) (comps : List (Text → List Text)) (hk : comps ≠ [])
    (hr : runOps E ((comp :: comps).map .complete) s = .ok () s') :
    ∃ c, cs[(comps.length - 1) % cs.length]? = some c ∧ Lands s.noEol s' (l ++ c) (w2 ++ r) := by
  simp only [List.map_cons, runOps, runOp] at hr
  have key := wp_ok (m := do
      complete E comp
      runOps E (comps.map .complete)) (s := s) (a := ()) (s' := s') (R := fun _ _ => True)
      (P := fun _ => True) (Q := fun _ s' => ∃ c, cs[(comps.length - 1) % cs.length]? = some c ∧
        Lands s.noEol s' (l ++ c) (w2 ++ r)) (by
    rw [wp_bind]
    unfold complete
    rw [wp_bind, wp_get]; simp only [hh]
    refine wp_mono (wp_and (completeFirst_wp hw h hs ht hcs (fun hn => .inl (he hn)))
      (completeFirst_calm E comp s)) (fun _ s1 h1 => ?_) (fun _ _ _ => trivial) (fun _ _ => trivial)
    obtain ⟨h3, h4⟩ := (h1.1.2.2 p h2 hp).2 hx
    have hat := Lands.at h3 (fun hn => .inl (he hn))
    refine wp_mono wp_run (fun _ s2 h5 => ?_) (fun _ _ _ => trivial) (fun _ _ => trivial)
    obtain ⟨c, hc, hl, _⟩ := C40_cycle E hw s1 s2 l w1 w2 r cs
      (fun h0 => by subst h0; simp at h2) hone h4 hat (h1.2.1 hs) ht
      (fun hn => .inl (he (h1.2.2 ▸ hn))) comps hk h5
    exact ⟨c, hc, h1.2.2 ▸ hl⟩) hr
  exact key

/-- With candidates that are not one word this fails: only the last word of the old candidate is
replaced. -/
example : okAnd (runOps Tests.env [.complete fun _ => [], .complete fun _ => []]
    { fresh [] "x " with showCompletionsHint := some (["a b".toList, "c".toList], none),
                         cursor := 2 }) (fun _ s =>
    text? s == some "x a c".toList) = true := by decide +kernel

example : okAnd (runOps Tests.env (List.replicate 4 (.complete fun w =>
      if w = ['f'] then ["fox".toList, "a\\ b".toList, "fig".toList, "fox".toList] else []))
    { fresh [] "x f y" with cursor := 3 }) (fun _ s =>
    text? s == some "x fox y".toList &&
    s.showCompletionsHint == some (["a\\ b".toList, "fig".toList, "fox".toList], some 2)) = true := by
  decide +kernel

example : OneWord "a\\ b".toList := by
  refine ⟨⟨'a', rfl, by decide, by decide⟩, fun i hi => ?_⟩
  match i with
  | 0 => simp at hi
  | 1 => simp at hi
  | 2 => exact ⟨1, rfl, rfl⟩
  | 3 => simp at hi
  | n + 4 => simp at hi

example : Touched "x ".toList ['f'] [] " y".toList := by
  intro ws hws
  have : ws = [(0, 1), (2, 3), (4, 5)] := (C11_words_unique (.ofText _) ws).mp hws
  subst this
  exact .inl ⟨by simp, by decide, by decide, by decide, by decide⟩

example : Touched "x ".toList [] [] " y".toList := by
  intro ws hws
  have : ws = [(0, 1), (3, 4)] := (C11_words_unique (.ofText _) ws).mp hws
  subst this
  refine .inr ⟨rfl, rfl, fun p hp => ?_⟩
  have h1 := hp.mem
  have h2 := hp.touches rfl
  have h3 := hp.before
  simp at h1
  rcases h1 with rfl | rfl <;> simp at h2 h3

/-! ### C59 -/

/-- C59: the answer contains only words that start with the given text, in the order of the list, and every
other such selection is contained in it. -/
theorem C59_basic (prefixes : List Text) (start : Text) :
    (basicCompletions prefixes start).Sublist prefixes ∧
    (∀ w ∈ basicCompletions prefixes start, start <+: w) ∧
    ∀ ws : List Text, ws.Sublist prefixes → (∀ w ∈ ws, start <+: w) →
      ws.Sublist (basicCompletions prefixes start) := by
  refine ⟨List.filter_sublist, fun w hw => ?_, fun ws h1 h2 => ?_⟩
  · exact List.isPrefixOf_iff_prefix.mp (List.mem_filter.mp hw).2
  · have := h1.filter fun s => start.isPrefixOf s
    rwa [List.filter_eq_self.mpr (fun w hw => List.isPrefixOf_iff_prefix.mpr (h2 w hw))] at this

example : basicCompletions ["ab".toList, "b".toList, "abc".toList] ['a'] =
    ["ab".toList, "abc".toList] := by decide

end Liner.Props
