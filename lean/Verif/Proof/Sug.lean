import Verif.Proof.Tidy
import Verif.Proof.Lands
/-
The suggestion belongs to the line, whenever `read_line` runs.
-/

namespace Liner
namespace Editor
open Liner.Spec

/-- The entry selected by a search contains the new line; if none is selected, none does. -/
def Sel (s : Ed) : Prop :=
  match s.autosuggestion with
  | some x => x ∈ s.history.buffers ∧ s.newBuf.data ≠ [] ∧ s.newBuf.data <:+: x.data
  | none => ∀ x ∈ s.history.buffers, ¬ (s.newBuf.data ≠ [] ∧ s.newBuf.data <:+: x.data)

/-- Outside a search, the suggestion is the newest match of the new line; it extends the line. -/
structure SugOk (s : Ed) : Prop where
  newest : s.isSearch = false → s.curHistoryLoc = none → s.showAutosuggestions = true →
    s.autosuggestion = (s.history.getNewestMatch (some s.history.buffers.length) s.newBuf).bind
      (s.history.buffers[·]?)
  pre : s.isSearch = false → ∀ x, s.autosuggestion = some x →
    ∃ b, s.curBuf? = some b ∧ b.data <+: x.data
  sel : s.isSearch = true → Sel s

/-- `m` establishes it. -/
def ESug {α : Type} (m : EdM α) : Prop :=
  ∀ s, Td false s → Wp m s (fun _ s' => SugOk s') (fun _ _ => True) (fun _ => True)

/-- `m` keeps it. -/
def KSug {α : Type} (m : EdM α) : Prop :=
  ∀ s, Td false s → SugOk s → Wp m s (fun _ s' => SugOk s') (fun _ _ => True) (fun _ => True)

section
variable {α β : Type}

theorem ESug.k {m : EdM α} (h : ESug m) : KSug m := fun s hs _ => h s hs

theorem es_bind {m : EdM α} {f : α → EdM β} (h1 : KTd false m) (h2 : ∀ a, ESug (f a)) :
    ESug (m >>= f) := by
  intro s hs
  rw [wp_bind]
  exact wp_mono (h1 s hs) (fun a s1 h => h2 a s1 h) (fun _ _ h => h) (fun _ h => h)

theorem es_bind_k {m : EdM α} {f : α → EdM β} (h0 : KTd false m) (h1 : ESug m)
    (h2 : ∀ a, KSug (f a)) : ESug (m >>= f) := by
  intro s hs
  rw [wp_bind]
  exact wp_mono (wp_and (h0 s hs) (h1 s hs)) (fun a s1 h => h2 a s1 h.1 h.2) (fun _ _ _ => trivial)
    (fun _ _ => trivial)

theorem ks_bind {m : EdM α} {f : α → EdM β} (h0 : KTd false m) (h1 : KSug m)
    (h2 : ∀ a, KSug (f a)) : KSug (m >>= f) := by
  intro s hs hg
  rw [wp_bind]
  exact wp_mono (wp_and (h0 s hs) (h1 s hs hg)) (fun a s1 h => h2 a s1 h.1 h.2)
    (fun _ _ _ => trivial) (fun _ _ => trivial)

theorem es_ite {c : Prop} [Decidable c] {a b : EdM α} (ha : ESug a) (hb : ESug b) :
    ESug (if c then a else b) := by split <;> assumption
theorem ks_ite {c : Prop} [Decidable c] {a b : EdM α} (ha : KSug a) (hb : KSug b) :
    KSug (if c then a else b) := by split <;> assumption
theorem es_panic : ESug (M.panic : EdM α) := fun _ _ => trivial
theorem ks_pure (a : α) : KSug (pure a : EdM α) := fun _ _ h => h
theorem ks_get : KSug (M.get : EdM Ed) := fun _ _ h => h
theorem ks_curBuf : KSug curBuf := by
  intro s _ h
  rw [wp_curBuf]
  exact ⟨fun _ _ => h, fun _ => trivial⟩
theorem ks_modify {f : Ed → Ed} (h : ∀ s, SugOk s → SugOk (f s)) : KSug (M.modify f) :=
  fun s _ hs => h s hs

theorem sugOf_newest {s : Ed} (hs : s.isSearch = false) (hl : s.curHistoryLoc = none)
    (hv : s.histBufValid = false) (ha : s.showAutosuggestions = true) {x : Option Buffer}
    (hx : sugOf s = some x) :
    x = (s.history.getNewestMatch (some s.history.buffers.length) s.newBuf).bind
      (s.history.buffers[·]?) := by
  unfold sugOf at hx
  simp only [hv, hs, ha, hl, Bool.false_eq_true, if_false, if_true] at hx
  cases hn : s.history.getNewestMatch (some s.history.buffers.length) s.newBuf with
  | none => rw [hn] at hx; cases hx; rfl
  | some i =>
    rw [hn] at hx
    dsimp only at hx
    simp only [Option.bind_some]
    split at hx <;> cases hx
    rename_i b hb
    rw [hb]

theorem containsAt_iff {h : History} {t : Text} {i : Nat} {x : Buffer} (hx : h.buffers[i]? = some x) :
    ContainsAt h t i ↔ t ≠ [] ∧ t <:+: x.data := by
  have h1 : (texts h)[i]? = some x.data := by simp [texts, hx]
  constructor
  · rintro ⟨y, hy, h2, a, c, e⟩
    rw [h1] at hy
    cases hy
    exact ⟨h2, a, c, e.symm⟩
  · rintro ⟨h2, a, c, e⟩
    exact ⟨_, h1, h2, a, c, e.symm⟩

theorem sel_of {s s' : Ed} (h : Idx s) (hs : s.isSearch = true) (hsug : sugOf s = some s'.autosuggestion)
    (hh : s'.history = s.history) (hn : s'.newBuf = s.newBuf) : Sel s' := by
  obtain ⟨h1, h2, h3⟩ := h
  unfold sugOf at hsug
  simp only [h2, hs, if_true, Bool.false_eq_true, if_false, Ed.searchHistoryLoc] at hsug
  unfold Sel
  rw [hh, hn]
  rcases h3 with h3 | ⟨i, h3, h4⟩
  · have he : s.searchHistoryLoc = none := by
      unfold Ed.searchHistoryLoc
      rw [h3]; split <;> simp
    unfold Ed.searchHistoryLoc at he
    rw [he] at hsug
    simp only [Option.some.injEq] at hsug
    rw [← hsug]
    intro x hx hc
    obtain ⟨j, hj, rfl⟩ := List.mem_iff_getElem.mp hx
    have := ((Props.C19_search_index s.history s.newBuf).2 j).mpr
      ((containsAt_iff (List.getElem?_eq_getElem hj)).mpr hc)
    rw [← h1, h3] at this
    cases this
  · rw [h3] at hsug
    simp only [List.getElem?_eq_getElem h4] at hsug
    have hm : s.historySubsetIndex[i] ∈ s.history.searchIndex s.newBuf := by
      rw [← h1]; exact List.getElem_mem h4
    have hc := ((Props.C19_search_index s.history s.newBuf).2 _).mp hm
    split at hsug
    · rename_i b hb
      simp only [Option.some.injEq] at hsug
      rw [← hsug]
      exact ⟨List.mem_of_getElem? hb, (containsAt_iff hb).mp hc⟩
    · cases hsug

theorem Shown.sug {s s' : Ed} (h : Shown s s') (hs : Td false s) : SugOk s' := by
  obtain ⟨b, sug, hb, hsug, hd⟩ := h.ex
  have hc := drawn_curBuf hd
  obtain ⟨l, c, o, t, rfl⟩ := hd
  refine ⟨fun h1 h2 h3 => ?_, fun h1 x hx => ?_, fun h1 => ?_⟩
  · exact sugOf_newest h1 h2 (hs.pre.valid h2) h3 hsug
  · rw [hc]
    change sug = some x at hx
    subst hx
    exact sugOf_prefix h1 hsug
  · refine sel_of (s := Editor.pre s) ?_ h1 hsug rfl rfl
    refine hs.pre.idx h1 ?_
    unfold Editor.pre at h1 ⊢
    split
    · rfl
    · rename_i hn
      rw [if_neg hn] at h1
      change s.isSearch = true at h1
      simpa [h1] using hn

theorem es_display (E : Env) : ESug (display E) := fun s hs =>
  wp_mono (display_wp E s) (fun _ _ h => h.sug hs) (fun _ _ _ => trivial) (fun _ _ => trivial)

theorem ks_displayImpl (E : Env) (sa : Bool) : KSug (displayImpl E sa) := by
  intro s _ hs
  refine wp_mono (displayImpl_wp E sa s) (fun _ s' h => ?_) (fun _ _ _ => trivial) (fun _ _ => trivial)
  obtain ⟨w, hb, l, c, o, t, rfl⟩ := h.drawn
  exact ⟨hs.newest, hs.pre, hs.sel⟩

theorem ks_writeTerm (E : Env) (toks : List Tok) : KSug (writeTerm E toks) := by
  intro s _ hs
  rw [wp_writeTerm]
  exact ⟨fun _ => ⟨hs.newest, hs.pre, hs.sel⟩, fun _ => trivial⟩

theorem ks_flush (E : Env) : KSug (flush E) := by
  intro s _ hs
  rw [wp_flush]
  exact ⟨fun _ => ⟨hs.newest, hs.pre, hs.sel⟩, fun _ => trivial⟩

theorem newestMatch_data (h : History) (p : Option Nat) {a b : Buffer} (hd : a.data = b.data) :
    h.getNewestMatch p a = h.getNewestMatch p b := by
  have : ∀ t : Buffer, t.startsWith a = t.startsWith b := by
    intro t
    unfold Buffer.startsWith
    rw [hd]
  unfold History.getNewestMatch
  simp only [this]

/-- Changes of the buffer that keep its text. -/
theorem ks_curBufMut {f : Buffer → Option (α × Buffer)}
    (hf : ∀ b a b', f b = some (a, b') → b'.data = b.data) : KSug (curBufMut f) := by
  intro s _ hs
  rw [wp_curBufMut]
  refine ⟨fun b a b' hb hf' => ?_, fun _ => trivial⟩
  have hd := hf _ _ _ hf'
  obtain ⟨c, hc, hcd⟩ := curBuf_of_workBuf hb
  refine ⟨?_, ?_, ?_⟩
  · unfold setCur
    split
    · rename_i i hi
      intro _ h2 _
      simp [hi] at h2
    · rename_i hl
      unfold workBuf at hb
      rw [hl] at hb
      cases hb
      intro h1 h2 h3
      have := hs.newest h1 h2 h3
      simp only
      rw [this, newestMatch_data _ _ hd]
  · intro h1 x hx
    rw [setCur_isSearch'] at h1
    have hx' : s.autosuggestion = some x := by
      rw [← hx]; unfold setCur; split <;> rfl
    obtain ⟨c', hc', hp⟩ := hs.pre h1 x hx'
    rw [hc] at hc'; cases hc'
    exact ⟨b', setCur_curBuf _ _, by rw [hd, hcd]; exact hp⟩
  · intro h1
    rw [setCur_isSearch'] at h1
    have := hs.sel h1
    unfold setCur
    split
    · exact this
    · rename_i hl
      unfold workBuf at hb
      rw [hl] at hb
      cases hb
      unfold Sel at this ⊢
      simp only [hd]
      exact this
where
  setCur_isSearch' {s : Ed} {b : Buffer} : (setCur s b).isSearch = s.isSearch := by
    unfold setCur; split <;> rfl

end

macro "es" : tactic => `(tactic| repeat' (first
  | with_reducible exact es_display _
  | with_reducible exact es_panic
  | with_reducible assumption
  | ((with_reducible apply es_bind); focus (td; done))
  | with_reducible apply es_ite
  | with_reducible intro _
  | split
  | dsimp only))

section
variable (E : Env)

theorem es_moveEnd : ESug (moveCursorToEndOfLine E) := by unfold moveCursorToEndOfLine; es
theorem es_search (f : Bool) : ESug (search E f) := fun _ hs =>
  td_searchStep E f hs fun s1 h1 => es_display E s1 h1
theorem es_deleteWord (i : Bool) : ESug (deleteWordBeforeCursor E i) := by
  have := td_wordBefore (b := false) E i
  unfold deleteWordBeforeCursor; es
theorem es_insert (cs : Text) : ESug (insertCharsAfterCursor E cs) := by
  unfold insertCharsAfterCursor; es
theorem es_clear : ESug (clear E) := by unfold clear; es
theorem es_deleteBefore : ESug (deleteBeforeCursor E) := by unfold deleteBeforeCursor; es
theorem es_deleteAfter : ESug (deleteAfterCursor E) := by unfold deleteAfterCursor; es
theorem es_deleteAllBefore : ESug (deleteAllBeforeCursor E) := by
  unfold deleteAllBeforeCursor; es
theorem es_deleteAllAfter : ESug (deleteAllAfterCursor E) := by
  unfold deleteAllAfterCursor; es
theorem es_deleteUntil (p : Nat) : ESug (deleteUntil E p) := by unfold deleteUntil; es
theorem es_deleteUntilInclusive (p : Nat) : ESug (deleteUntilInclusive E p) := by
  unfold deleteUntilInclusive; es
theorem es_left (n : Nat) : ESug (moveCursorLeft E n) := by unfold moveCursorLeft; es
theorem es_right (n : Nat) : ESug (moveCursorRight E n) := by unfold moveCursorRight; es
theorem es_to (n : Nat) : ESug (moveCursorTo E n) := by unfold moveCursorTo; es
theorem es_home : ESug (moveCursorToStartOfLine E) := by unfold moveCursorToStartOfLine; es
theorem es_accept : ESug (acceptAutosuggestion E) := by
  have h2 := es_moveEnd E
  unfold acceptAutosuggestion; es

theorem es_undo : ESug (undo E) := by
  have h2 := es_moveEnd E
  have h3 := es_display E
  unfold undo
  refine es_bind (td_curBufMut _) fun did => ?_
  split
  · exact es_bind_k (td_moveEnd E) h2 fun _ => ks_pure _
  · exact es_bind_k (td_display E) h3 fun _ => ks_pure _
theorem es_redo : ESug (redo E) := by
  have h2 := es_moveEnd E
  have h3 := es_display E
  unfold redo
  refine es_bind (td_curBufMut _) fun did => ?_
  split
  · exact es_bind_k (td_moveEnd E) h2 fun _ => ks_pure _
  · exact es_bind_k (td_display E) h3 fun _ => ks_pure _
theorem es_revert : ESug (revert E) := by
  have h2 := es_moveEnd E
  have h3 := es_display E
  unfold revert
  refine es_bind (td_curBufMut _) fun did => ?_
  split
  · exact es_bind_k (td_moveEnd E) h2 fun _ => ks_pure _
  · exact es_bind_k (td_display E) h3 fun _ => ks_pure _

theorem es_moveUp : ESug (moveUp E) := by
  intro s hs
  unfold moveUp
  rw [wp_bind, wp_get]
  split
  · exact es_search E _ s hs
  · rename_i hn
    have hn' : s.isSearch = false := by simpa using hn
    rw [wp_bind, wp_modify, wp_bind, freshenHistory, wp_modify, wp_bind]
    have : Free (if s.history.share && !s.historyFresh then
        { s with histBufValid := false, history := (s.history.loadHistory s.fs false).2,
                 historyFresh := true } else { s with histBufValid := false }) := by
      split <;> exact ⟨hn', rfl⟩
    exact wp_mono (free_moveUpLoc this) (fun _ _ h => es_moveEnd E _ h.td) (fun _ _ h => h)
      (fun _ h => h)

theorem es_moveDown : ESug (moveDown E) := by
  intro s hs
  unfold moveDown
  rw [wp_bind, wp_get]
  split
  · exact es_search E _ s hs
  · rename_i hn
    have hn' : s.isSearch = false := by simpa using hn
    rw [wp_bind, wp_modify, wp_bind]
    exact wp_mono (free_moveDownLoc (s := { s with histBufValid := false }) ⟨hn', rfl⟩)
      (fun _ _ h => es_moveEnd E _ h.td) (fun _ _ h => h) (fun _ h => h)

theorem es_histStart : ESug (moveToStartOfHistory E) := by
  intro s hs
  unfold moveToStartOfHistory
  rw [wp_bind, wp_modify, wp_bind, wp_get]
  split
  · rw [wp_bind, wp_modify]
    exact es_display E _ ⟨fun _ _ => rfl, fun _ => rfl,
      fun h1 h2 => ⟨(hs.idx h1 h2).1, rfl, (hs.idx h1 h2).2.2⟩⟩
  · rw [wp_bind, wp_modify]
    exact es_moveEnd E _ ⟨fun h => (by cases h), fun _ => rfl,
      fun h1 h2 => ⟨(hs.idx h1 h2).1, rfl, (hs.idx h1 h2).2.2⟩⟩

theorem es_histEnd : ESug (moveToEndOfHistory E) := by
  intro s hs
  unfold moveToEndOfHistory
  rw [wp_bind, wp_modify, wp_bind, wp_get]
  split
  · rw [wp_bind, wp_modify]
    exact es_moveEnd E _ ⟨fun _ _ => rfl, fun _ => rfl,
      fun h1 h2 => ⟨(hs.idx h1 h2).1, rfl, (hs.idx h1 h2).2.2⟩⟩
  · exact es_display E _ ⟨hs.son, fun _ => rfl,
      fun h1 h2 => ⟨(hs.idx h1 h2).1, rfl, (hs.idx h1 h2).2.2⟩⟩

theorem ks_completeFirst (c : Text → List Text) : KSug (completeFirst E c) := by
  have h0 := td_wordBefore (b := false) E
  have h3 := es_insert E
  have h4 := td_deleteWord (b := false) E
  have h5 : ∀ x : List Text × Option Nat, ESug (do
      M.modify fun s : Ed => { s with showCompletionsHint := some x }
      display E) := by intro x; es
  unfold completeFirst
  refine ks_bind (h0 _) ?_ fun r => ks_bind (td_curBufMut _)
    (ks_curBufMut fun b a b' h => readWord_data h) fun w => ?_
  · unfold getWordBeforeCursor wordsAndPos
    exact ks_bind (td_bind td_curBuf fun _ => td_bind td_get fun _ => td_pure _)
      (ks_bind td_curBuf ks_curBuf fun _ => ks_bind td_get ks_get fun _ => ks_pure _)
      fun _ => ks_pure _
  · dsimp only
    split
    · exact ks_modify fun _ h => ⟨h.newest, h.pre, h.sel⟩
    · refine ESug.k (es_bind ?_ fun _ => es_bind (h4 _) fun _ => h3 _)
      exact td_modify fun _ h => ⟨h.son, h.valid, h.idx⟩
    · split
      · exact (es_ite (es_bind (h4 _) fun _ => h3 _) (h5 _)).k
      · exact (h5 _).k

theorem ks_complete (c : Text → List Text) : KSug (complete E c) := by
  unfold complete
  refine ks_bind td_get ks_get fun s => ?_
  split
  · exact (es_bind (td_completeNext E _ _) fun _ => es_display E).k
  · exact ks_completeFirst E c

theorem ks_finishLine : KSug (finishLine E) := by
  have hm : ∀ {f : Ed → Ed}, (∀ s, Td false s → Td false (f s)) → KTd false (M.modify f) :=
    fun h => td_modify h
  unfold finishLine
  refine ks_bind td_get ks_get fun s => ks_ite ?_ ?_
  · exact ks_bind (td_modify fun _ h => ⟨h.son, h.valid, h.idx⟩) (ks_modify fun _ h => ⟨h.newest, h.pre, h.sel⟩)
      fun _ => ks_pure _
  · refine ks_bind td_curBuf ks_curBuf fun b => ks_ite ?_ ?_
    · exact ks_bind (td_insert E _) (es_insert E _).k fun _ => ks_pure _
    · refine ks_bind (td_modify fun _ h => ⟨h.son, h.valid, h.idx⟩)
        (ks_modify fun _ h => ⟨h.newest, h.pre, h.sel⟩) fun _ => ?_
      refine ks_bind (td_displayImpl E _) (ks_displayImpl E _) fun _ => ?_
      refine ks_bind (td_writeTerm E _) (ks_writeTerm E _) fun _ => ?_
      exact ks_bind (td_modify fun _ h => ⟨h.son, h.valid, h.idx⟩)
        (ks_modify fun _ h => ⟨h.newest, h.pre, h.sel⟩) fun _ => ks_pure _

theorem ks_newline : KSug (handleNewline E) := by
  intro s hs hg
  unfold handleNewline acceptIfSearch
  rw [wp_bind, wp_modify, wp_bind, wp_bind, wp_get]
  have hs' : Td false { s with historyFresh := false } := ⟨hs.son, hs.valid, hs.idx⟩
  split
  · refine wp_mono (wp_and (accept_ends E) (wp_and (es_accept E _ hs') (td_accept E _ hs')))
      (fun _ s1 h => ?_) (fun _ _ _ => trivial) (fun _ _ => trivial)
    rw [wp_bind, clearSearch, wp_modify]
    obtain ⟨h1, h2, h3⟩ := h
    exact ks_finishLine E _ ⟨fun h => (by cases h), h3.valid, fun h => (by simp [Ed.isSearch] at h)⟩
      ⟨fun _ => h2.newest h1, fun _ => h2.pre h1, fun h => (by simp [Ed.isSearch] at h)⟩
  · rename_i hn
    have hn' : s.isSearch = false := eq_false_of_ne_true hn
    rw [wp_pure, wp_bind, clearSearch, wp_modify]
    exact ks_finishLine E _ ⟨fun h => (by cases h), hs.valid, fun h => (by simp [Ed.isSearch] at h)⟩
      ⟨fun _ => hg.newest hn', fun _ => hg.pre hn', fun h => (by simp [Ed.isSearch] at h)⟩

theorem es_start (p : Prompt) : ESug (start E p) := by
  have := td_moveEnd (b := false) E
  unfold start; es

theorem ks_op (o : EdOp) : KSug (runOp E o) := by
  cases o <;> simp only [runOp]
  case handleNewline => exact ks_bind (td_newline E) (ks_newline E) fun _ => ks_pure _
  case undo => exact ks_bind (td_undo E) (es_undo E).k fun _ => ks_pure _
  case redo => exact ks_bind (td_redo E) (es_redo E).k fun _ => ks_pure _
  case revert => exact ks_bind (td_revert E) (es_revert E).k fun _ => ks_pure _
  case search f => exact (es_search E f).k
  case flush => exact ks_flush E
  case skipCompletionsHint => exact ks_modify fun _ h => ⟨h.newest, h.pre, h.sel⟩
  case complete c => exact ks_complete E c
  case deleteWordBeforeCursor i => exact (es_deleteWord E i).k
  case clear => exact (es_clear E).k
  case moveUp => exact (es_moveUp E).k
  case moveDown => exact (es_moveDown E).k
  case moveToStartOfHistory => exact (es_histStart E).k
  case moveToEndOfHistory => exact (es_histEnd E).k
  case insert cs => exact (es_insert E cs).k
  case deleteBeforeCursor => exact (es_deleteBefore E).k
  case deleteAfterCursor => exact (es_deleteAfter E).k
  case deleteAllBeforeCursor => exact (es_deleteAllBefore E).k
  case deleteAllAfterCursor => exact (es_deleteAllAfter E).k
  case deleteUntil p => exact (es_deleteUntil E p).k
  case deleteUntilInclusive p => exact (es_deleteUntilInclusive E p).k
  case moveCursorLeft n => exact (es_left E n).k
  case moveCursorRight n => exact (es_right E n).k
  case moveCursorTo n => exact (es_to E n).k
  case moveCursorToStartOfLine => exact (es_home E).k
  case moveCursorToEndOfLine => exact (es_moveEnd E).k
  case acceptAutosuggestion => exact (es_accept E).k
  case display => exact (es_display E).k
  case setViMode m =>
    refine ks_modify fun s hs => ?_
    split <;> exact ⟨hs.newest, hs.pre, hs.sel⟩
  case setPrompt p =>
    refine ks_modify fun s hs => ?_
    split <;> exact ⟨hs.newest, hs.pre, hs.sel⟩

end
end Editor

open Editor

/-- Both facts together. -/
structure Tied (b : Bool) (s : Ed) : Prop where
  td : Td b s
  sug : SugOk s

theorem Editor.Td.weaken {b : Bool} {s : Ed} (h : Td b s) : Td false s :=
  ⟨fun h' => (by cases h'), h.valid, h.idx⟩

theorem tied_of {α : Type} {b : Bool} {m : EdM α} (h : KTd b m) (h' : KSug m) :
    Keep (Tied b) (fun _ _ => True) (fun _ _ => True) m := fun s hs =>
  wp_mono (wp_and (h s hs.td) (h' s hs.td.weaken hs.sug)) (fun _ _ h => ⟨⟨h.1, h.2⟩, trivial⟩)
    (fun _ _ _ => trivial) (fun _ _ => trivial)

theorem tied_kept (E : Env) (w : Who) (b : Bool) (hb : b = true → w = .vi) :
    Kept E w (Tied b) (fun _ _ => True) (fun _ _ => True) where
  refl _ := trivial
  frefl _ := trivial
  trans _ _ _ _ _ := trivial
  ftrans _ _ _ _ _ := trivial
  op o h := tied_of (td_op E o h hb) (ks_op E o)
  newline := tied_of (td_newline E) (ks_newline E)
  undo := tied_of (td_undo E) (es_undo E).k
  redo := tied_of (td_redo E) (es_redo E).k
  revert := tied_of (td_revert E) (es_revert E).k
  start p := tied_of (td_start E p) (es_start E p).k
  startGroup _ := tied_of (td_curBufMut _) (ks_curBufMut fun b a b' h => by cases h; rfl)
  endGroup _ := tied_of (td_curBufMut _) (ks_curBufMut fun b a b' h => by cases h; rfl)
  setNoEol _ _ := tied_of (td_modify fun _ hs => ⟨hs.son, hs.valid, hs.idx⟩)
    (ks_modify fun _ h => ⟨h.newest, h.pre, h.sel⟩)

end Liner

namespace Liner
open Liner.Spec Liner.Editor

/-- A session starts with a redraw, which chooses the suggestion. -/
theorem tied_session {κ : Type} (km : KeyMap κ) (E : Env) {w : Who} {b : Bool}
    (hb : b = true → w = .vi) (hi : UsesK E w Any (km.init E)) (p : Prompt)
    (keys : List (Key × (Text → List Text)))
    (hc : ∀ k ∈ keys, UsesK E w Any (km.core E (KeyMap.translate k.1))) (t : κ × Ed) (ht : Td b t.2) :
    Wp (session km E p keys) t (fun _ t' => Tied b t'.2) (fun _ _ => True) (fun _ => True) := by
  unfold session
  rw [wp_bind, wp_ed]
  refine wp_mono (wp_and (td_start E p t.2 ht) (es_start E p t.2 ht.weaken)) (fun _ s1 h1 => ?_)
    (fun _ _ _ => trivial) (fun _ _ => trivial)
  exact wp_mono ((tied_kept E w b hb).usesK
      (UsesK.bind hi fun _ => uses_press km E keys hc) (t.1, s1) ⟨h1.1, h1.2⟩)
    (fun _ _ h => h.1) (fun _ _ _ => trivial) (fun _ h => h)

theorem initial_td (b : Bool) (p : Prompt) (h : History) (fs : FS) (buf : Buffer) :
    Td b (initial p h fs buf) :=
  ⟨fun _ _ => rfl, fun _ => rfl, fun h' => (by simp [Ed.isSearch, initial] at h')⟩

end Liner
