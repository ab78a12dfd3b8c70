import Verif.Proof.Lands
/-
Operations outside a search: their exact effect, what they leave alone, and that they do not panic
except possibly while redrawing.
-/

set_option linter.unusedSectionVars false

namespace Liner
namespace Editor
open Liner.Spec

/-- The history, the place in it, the walk through it, the new line behind an entry and the copy of another entry are the
same. -/
structure Unmoved (s s' : Ed) : Prop where
  history : s'.history = s.history
  loc : s'.curHistoryLoc = s.curHistoryLoc
  walk : s'.historySubsetLoc = s.historySubsetLoc
  met : s'.historySubsetIndex = s.historySubsetIndex
  new : s.curHistoryLoc ≠ none → s'.newBuf = s.newBuf
  showSug : s'.showAutosuggestions = s.showAutosuggestions
  copied : s'.histBufValid = false → s.histBufValid = false
  copy : s'.histBufValid = false ∨ s.curHistoryLoc = none → s'.histBuf = s.histBuf

/-- Something about what lies around the line. -/
class Around where
  ok : Ed → Prop
  still : ∀ {s s'}, Unmoved s s' → ok s → ok s'
  /-- Enter, which gives up a walk through the history, keeps it too. -/
  enters : Prop
  quiet : enters → ∀ {s}, ok s → ok (quiet s)

/-- Nothing, unless something else is asked for. -/
instance anywhere : Around := ⟨fun _ => True, fun _ _ => trivial, True, fun _ _ _ => trivial⟩

theorem around_as [Around] {s s' : Ed} (h : Around.ok s) (hs : Unmoved s s') : Around.ok s' := Around.still hs h

theorem Unmoved.setCur (s : Ed) (b : Buffer) : Unmoved s (setCur s b) := by
  unfold Editor.setCur
  cases hl : s.curHistoryLoc with
  | none => exact ⟨rfl, by simp [hl], rfl, rfl, fun h => absurd hl h, rfl, id, fun _ => rfl⟩
  | some i => exact ⟨rfl, by simp [hl], rfl, rfl, fun _ => rfl, rfl, (fun h => by cases h), fun h => h.elim (fun h => by cases h) fun h => (by rw [hl] at h; cases h)⟩

/-- Not searching, with the cursor between `l` and `r`. -/
structure Open [Around] (e : Bool) (s : Ed) (l r : Text) : Prop where
  quiet : s.isSearch = false
  ne : s.noEol = e
  around : Around.ok s
  here : At s l r

/-- Without what lies around. -/
theorem Open.plain [Around] {e : Bool} {s : Ed} {l r : Text} (h : Open e s l r) : @Open anywhere e s l r :=
  @Open.mk anywhere _ _ _ _ h.quiet h.ne trivial h.here

/-- What editing operations leave alone. -/
structure Side (s s' : Ed) : Prop where
  loc : s'.curHistoryLoc = s.curHistoryLoc
  history : s'.history = s.history
  showSug : s'.showAutosuggestions = s.showAutosuggestions
  hint : s'.showCompletionsHint = s.showCompletionsHint
  prompt : s'.prompt = s.prompt
  newValid : s.curHistoryLoc = none → s'.histBufValid = s.histBufValid
  valid : s.histBufValid = true → s'.histBufValid = true

theorem Side.refl (s : Ed) : Side s s := ⟨rfl, rfl, rfl, rfl, rfl, fun _ => rfl, fun h => h⟩

theorem Side.trans {a b c : Ed} (h1 : Side a b) (h2 : Side b c) : Side a c :=
  ⟨h2.loc.trans h1.loc, h2.history.trans h1.history, h2.showSug.trans h1.showSug,
    h2.hint.trans h1.hint, h2.prompt.trans h1.prompt,
    fun h => (h2.newValid (h1.loc.trans h)).trans (h1.newValid h), fun h => h2.valid (h1.valid h)⟩

theorem Side.setCur (s : Ed) (b : Buffer) : Side s (setCur s b) := by
  unfold Editor.setCur
  cases hl : s.curHistoryLoc with
  | none => exact ⟨by simp [hl], rfl, rfl, rfl, rfl, fun _ => rfl, fun h => h⟩
  | some i => exact ⟨by simp [hl], rfl, rfl, rfl, rfl, (fun h => by rw [hl] at h; cases h), fun _ => rfl⟩

/-- Where the cursor rests: on the last character if it may not be after it. -/
def rest (e : Bool) (l r : Text) : Text × Text :=
  if e = true ∧ r = [] then (l.dropLast, l.getLast?.toList) else (l, r)

theorem rest_false (l r : Text) : rest false l r = (l, r) := by simp [rest]

theorem rest_cons (e : Bool) (l r : Text) (c : Char) : rest e l (c :: r) = (l, c :: r) := by
  simp [rest]

theorem rest_append (e : Bool) (l r : Text) : (rest e l r).1 ++ (rest e l r).2 = l ++ r := by
  unfold rest
  split
  · rename_i h
    rw [h.2]
    rcases List.eq_nil_or_concat l with rfl | ⟨l', c, rfl⟩ <;> simp
  · rfl

theorem rest_length (e : Bool) (l r : Text) : (rest e l r).1.length =
    if e = true ∧ r = [] then l.length - 1 else l.length := by
  unfold rest
  split <;> simp

variable [Around]

/-- After a redraw. -/
structure Settled (e : Bool) (s0 s : Ed) (l r : Text) : Prop where
  here : Open e s (rest e l r).1 (rest e l r).2
  side : Side s0 s
  sug : sugOf s = some s.autosuggestion

/-- The operation makes the line `l ++ r` with the cursor in between, and does not panic except in the
redraw. -/
abbrev Yields {α : Type} (m : EdM α) (e : Bool) (s0 s : Ed) (l r : Text) : Prop :=
  Wp m s (fun _ s' => Settled e s0 s' l r) (fun _ _ => True) (· ≠ .op)

section
variable (E : Env) {e : Bool} {s0 s : Ed} {l m r : Text}

theorem pre_quiet (h : s.isSearch = false) : pre s = s := by simp [pre, h]

theorem Open.sug (h : Open e s l r) : ∃ o, sugOf s = some o := by
  obtain ⟨b, hb, -⟩ := text?_eq.mp h.here.1
  by_cases hv : s.histBufValid = true ∨ s.showAutosuggestions = false ∨ s.curHistoryLoc = none
  · have := sugOf_some h.quiet hv
    rwa [pre_quiet h.quiet] at this
  · simp only [not_or, Bool.not_eq_true, Bool.not_eq_false] at hv
    obtain ⟨h1, h2, h3⟩ := hv
    cases hl : s.curHistoryLoc with
    | none => exact absurd hl h3
    | some i =>
      unfold Ed.curBuf? at hb
      rw [hl] at hb
      simp only [h1, Bool.false_eq_true, if_false] at hb
      refine ⟨some b, ?_⟩
      unfold sugOf
      simp [h1, h.quiet, h2, hl, hb]

theorem display_sets (h : Open e s l r) (hs : Side s0 s) : Yields (display E) e s0 s l r := by
  obtain ⟨o, ho⟩ := h.sug
  obtain ⟨b, hb, hd⟩ := text?_eq.mp h.here.1
  have hp := pre_quiet h.quiet
  refine wp_mono (display_wp E s) (fun _ s' h' => ?_) (fun _ _ _ => trivial) (fun w hw => ?_)
  · obtain ⟨b', o', hb', ho', l', c, ou, t, rfl⟩ := h'.ex
    rw [hp] at hb' ho' ⊢
    rw [hb] at hb'; cases hb'
    rw [ho] at ho'; cases ho'
    refine ⟨⟨h.quiet, h.ne, around_as h.around ⟨rfl, rfl, rfl, rfl, fun _ => rfl, rfl, id, fun _ => rfl⟩, ?_, ?_⟩, ?_, ?_⟩
    · rw [rest_append]; exact h.here.1
    · rw [rest_length]
      show clampCursor s.noEol b.numChars s.cursor = _
      rw [h.ne, h.here.2, Buffer.numChars, hd, clamp_eq]
    · exact ⟨hs.loc, hs.history, hs.showSug, hs.hint, hs.prompt, hs.newValid, hs.valid⟩
    · exact ho
  · rintro rfl
    rcases hw with ⟨-, hw⟩ | ⟨o', -, hw⟩
    · rw [hp, ho] at hw; cases hw
    · rw [hp] at hw
      have : s.curBuf? = none := hw
      rw [hb] at this; cases this

/-- Editing the current line. -/
theorem wp_edit_open {α : Type} {f : Buffer → Option (α × Buffer)} {Q : α → Ed → Prop}
    {R : IoErr → Ed → Prop} (h : Open e s l r)
    (hf : ∀ b, b.data = l ++ r → ∃ a b', f b = some (a, b') ∧ Q a (setCur s b')) :
    Wp (curBufMut f) s Q R (· ≠ .op) := by
  rw [wp_curBufMut]
  obtain ⟨b0, h0, h1⟩ := text?_eq.mp h.here.1
  obtain ⟨w, hw, hwd⟩ := workBuf_of_curBuf h0
  obtain ⟨a, b', hb, hq⟩ := hf w (hwd.trans h1)
  refine ⟨fun b a1 b1 hb1 hf1 => ?_, fun hn => ?_⟩
  · rw [hw] at hb1; cases hb1
    rw [hb] at hf1; cases hf1
    exact hq
  · exfalso
    rcases hn with hn | ⟨b1, h2, h3⟩
    · rw [hw] at hn; cases hn
    · rw [hw] at h2; cases h2
      rw [hb] at h3; cases h3

theorem Open.set {l' r' : Text} (h : Open e s l r) {b : Buffer} {c : Nat} (hd : b.data = l' ++ r')
    (hc : c = l'.length) : Open e { setCur s b with cursor := c } l' r' where
  quiet := by
    show (setCur s b).isSearch = false
    have := h.quiet
    unfold setCur Ed.isSearch at *
    split <;> exact this
  ne := by
    show (setCur s b).noEol = e
    rw [setCur_noEol, h.ne]
  around := around_as (around_as h.around (.setCur s b)) ⟨rfl, rfl, rfl, rfl, fun _ => rfl, rfl, id, fun _ => rfl⟩
  here := ⟨by show text? (setCur s b) = _; rw [setCur_text, hd], hc⟩

theorem Open.set' {l' r' : Text} (h : Open e s l r) {b : Buffer} (hd : b.data = l' ++ r')
    (hc : s.cursor = l'.length) : Open e (setCur s b) l' r' :=
  h.set (b := b) (c := (setCur s b).cursor) hd (by rw [setCur_cursor, hc])

theorem Open.cursor {l' r' : Text} (h : Open e s l r) {c : Nat} (hd : l ++ r = l' ++ r')
    (hc : c = l'.length) : Open e { s with cursor := c } l' r' :=
  ⟨h.quiet, h.ne, around_as h.around ⟨rfl, rfl, rfl, rfl, fun _ => rfl, rfl, id, fun _ => rfl⟩, by rw [← hd]; exact h.here.1, hc⟩

theorem side_cursor (hs : Side s0 s) (c : Nat) : Side s0 { s with cursor := c } :=
  ⟨hs.loc, hs.history, hs.showSug, hs.hint, hs.prompt, hs.newValid, hs.valid⟩

theorem side_set (hs : Side s0 s) (b : Buffer) (c : Nat) :
    Side s0 { setCur s b with cursor := c } :=
  side_cursor (hs.trans (Side.setCur s b)) c

theorem end_sets' {t : Text} (hq : s.isSearch = false) (hn : s.noEol = e) (ha : Around.ok s) (ht : text? s = some t)
    (hs : Side s0 s) : Yields (moveCursorToEndOfLine E) e s0 s t [] := by
  obtain ⟨b0, h0, h1⟩ := text?_eq.mp ht
  simp only [Yields, moveCursorToEndOfLine, wp_bind, wp_curBuf, wp_modify]
  refine ⟨fun b hb => ?_, fun hn => ?_⟩
  · rw [h0] at hb; cases hb
    exact display_sets E ⟨hq, hn, around_as ha ⟨rfl, rfl, rfl, rfl, fun _ => rfl, rfl, id, fun _ => rfl⟩, by rw [List.append_nil]; exact ht,
        by simp [Buffer.numChars, h1]⟩
      (side_cursor hs _)
  · rw [h0] at hn; cases hn

variable (h : Open e s l r) (hs : Side s0 s)
include h hs

theorem insert_sets (cs : Text) : Yields (insertCharsAfterCursor E cs) e s0 s (l ++ cs) r := by
  simp only [Yields, insertCharsAfterCursor, wp_bind, wp_get, wp_modify]
  refine wp_edit_open h (fun b hb => ?_)
  obtain ⟨b', h1, h2⟩ := Props.C01_insert b l r cs hb
  refine ⟨(), b', by simp [noRes, h.here.2, h1], ?_⟩
  exact display_sets E (h.set h2 (by simp [setCur_cursor, h.here.2])) (side_set hs _ _)

theorem deleteAllBefore_sets : Yields (deleteAllBeforeCursor E) e s0 s [] r := by
  simp only [Yields, deleteAllBeforeCursor, wp_bind, wp_get, wp_modify]
  refine wp_edit_open h (fun b hb => ?_)
  obtain ⟨b', h1, h2⟩ := Props.C01_remove b [] l r (by simpa using hb)
  refine ⟨_, b', by simpa [h.here.2] using h1, ?_⟩
  exact display_sets E (h.set h2 (by simp)) (side_set hs _ _)

theorem deleteAllAfter_sets : Yields (deleteAllAfterCursor E) e s0 s l [] := by
  simp only [Yields, deleteAllAfterCursor, wp_bind, wp_get]
  refine wp_edit_open h (fun b hb => ?_)
  obtain ⟨b', h1, h2⟩ := Props.C01_edits b (.truncate l.length) l (by simp [Edit.apply, hb])
  refine ⟨(), b', by simpa [noRes, h.here.2, runEdit] using h1, ?_⟩
  exact display_sets E (h.set' (by simpa using h2) h.here.2) (hs.trans (Side.setCur s b'))

theorem home_sets : Yields (moveCursorToStartOfLine E) e s0 s [] (l ++ r) := by
  simp only [Yields, moveCursorToStartOfLine, wp_bind, wp_modify]
  exact display_sets E (h.cursor (by simp) rfl) (side_cursor hs _)

theorem end_sets : Yields (moveCursorToEndOfLine E) e s0 s (l ++ r) [] :=
  end_sets' E h.quiet h.ne h.around h.here.1 hs

/-- Moving to a position, or to the end if that is beyond it. -/
theorem to_sets (p : Nat) :
    Yields (moveCursorTo E p) e s0 s ((l ++ r).take p) ((l ++ r).drop p) := by
  obtain ⟨b0, h0, h1⟩ := text?_eq.mp h.here.1
  simp only [Yields, moveCursorTo, wp_bind, wp_curBuf, wp_modify]
  refine ⟨fun b hb => ?_, fun hn => ?_⟩
  · rw [show s.curBuf? = some b from hb] at h0; cases h0
    refine display_sets E (h.cursor (by simp) ?_) (side_cursor hs _)
    rw [Buffer.numChars, h1, List.length_take]
    split <;> omega
  · rw [show s.curBuf? = none from hn] at h0; cases h0

theorem left_sets (n : Nat) : Yields (moveCursorLeft E n) e s0 s
    (l.take (l.length - n)) (l.drop (l.length - n) ++ r) := by
  simp only [Yields, moveCursorLeft, wp_bind, wp_modify]
  refine display_sets E (h.cursor (by simp [← List.append_assoc]) ?_) (side_cursor hs _)
  rw [List.length_take, h.here.2]
  split <;> omega

theorem right_sets (n : Nat) : Yields (moveCursorRight E n) e s0 s (l ++ r.take n) (r.drop n) := by
  obtain ⟨b0, h0, h1⟩ := text?_eq.mp h.here.1
  simp only [Yields, moveCursorRight, wp_bind, wp_curBuf, wp_get, wp_ite, wp_panic, wp_modify]
  refine ⟨fun b hb => ⟨fun hn => ?_, fun _ => ?_⟩, fun hn => ?_⟩
  · rw [h0] at hb; cases hb
    rw [Buffer.numChars, h1, h.here.2, List.length_append] at hn; omega
  · rw [h0] at hb; cases hb
    refine display_sets E (h.cursor (by simp) ?_) (side_cursor hs _)
    rw [Buffer.numChars, h1, h.here.2, List.length_append, List.length_append, List.length_take]
    split <;> omega
  · rw [h0] at hn; cases hn

omit h in
theorem deleteBefore_sets {c : Char} (h : Open e s (l ++ [c]) r) :
    Yields (deleteBeforeCursor E) e s0 s l r := by
  have hc : s.cursor = l.length + 1 := by simpa using h.here.2
  simp only [Yields, deleteBeforeCursor, wp_bind, wp_get, wp_modify, wp_ite]
  refine ⟨fun _ => wp_edit_open h (fun b hb => ?_), fun hn => by omega⟩
  obtain ⟨b', h1, h2⟩ := Props.C01_remove b l [c] r hb
  refine ⟨_, b', by simpa [hc] using h1, ?_⟩
  exact display_sets E (h.set h2 (by rw [setCur_cursor, hc]; rfl)) (side_set hs _ _)

omit h in
theorem deleteBefore_start_sets (h : Open e s [] r) : Yields (deleteBeforeCursor E) e s0 s [] r := by
  have hc : s.cursor = 0 := by simpa using h.here.2
  simp only [Yields, deleteBeforeCursor, wp_bind, wp_get, wp_modify, wp_ite]
  exact ⟨fun hn => by omega, fun _ => display_sets E h hs⟩

omit h in
theorem deleteAfter_sets {c : Char} (h : Open e s l (c :: r)) :
    Yields (deleteAfterCursor E) e s0 s l r := by
  simp only [Yields, deleteAfterCursor, wp_bind, wp_get]
  refine wp_edit_open h (fun b hb => ?_)
  obtain ⟨b', h1, h2⟩ := Props.C01_remove b l [c] r (by simpa using hb)
  have hlt : s.cursor < b.numChars := by simp [Buffer.numChars, hb, h.here.2]
  refine ⟨(), b', ?_, display_sets E (h.set' h2 h.here.2) (hs.trans (Side.setCur s b'))⟩
  rw [if_pos hlt, h.here.2, show l.length + 1 = l.length + [c].length from rfl, h1]
  rfl

omit h in
theorem deleteAfter_end_sets (h : Open e s l []) : Yields (deleteAfterCursor E) e s0 s l [] := by
  simp only [Yields, deleteAfterCursor, wp_bind, wp_get]
  refine wp_edit_open h (fun b hb => ?_)
  have hlt : ¬ s.cursor < b.numChars := by simp [Buffer.numChars, hb, h.here.2]
  exact ⟨(), b, by rw [if_neg hlt], display_sets E (h.set' hb h.here.2) (hs.trans (Side.setCur s b))⟩

omit h in
theorem deleteUntil_forward_sets (h : Open e s l (m ++ r)) :
    Yields (deleteUntil E (l.length + m.length)) e s0 s l r := by
  simp only [Yields, deleteUntil, wp_bind, wp_get, wp_modify]
  refine wp_edit_open h (fun b hb => ?_)
  obtain ⟨b', h1, h2⟩ := Props.C01_remove b l m r (by simpa using hb)
  refine ⟨m.length, b', ?_, display_sets E (h.set h2 ?_) (side_set hs _ _)⟩
  · rw [h.here.2, show min l.length (l.length + m.length) = l.length by omega,
      show max l.length (l.length + m.length) = l.length + m.length by omega]
    exact h1
  · rw [setCur_cursor, h.here.2]; omega

omit h in
theorem deleteUntil_backward_sets (h : Open e s (l ++ m) r) :
    Yields (deleteUntil E l.length) e s0 s l r := by
  have hc : s.cursor = l.length + m.length := by simpa using h.here.2
  simp only [Yields, deleteUntil, wp_bind, wp_get, wp_modify]
  refine wp_edit_open h (fun b hb => ?_)
  obtain ⟨b', h1, h2⟩ := Props.C01_remove b l m r hb
  refine ⟨m.length, b', ?_, display_sets E (h.set h2 ?_) (side_set hs _ _)⟩
  · rw [hc, show min (l.length + m.length) l.length = l.length by omega,
      show max (l.length + m.length) l.length = l.length + m.length by omega]
    exact h1
  · rw [setCur_cursor, hc]; omega

omit h in
theorem deleteUntilInclusive_forward_sets {c : Char} (h : Open e s l (m ++ c :: r)) :
    Yields (deleteUntilInclusive E (l.length + m.length)) e s0 s l r := by
  simp only [Yields, deleteUntilInclusive, wp_bind, wp_get, wp_modify]
  refine wp_edit_open h (fun b hb => ?_)
  obtain ⟨b', h1, h2⟩ := Props.C01_remove b l (m ++ [c]) r (by simpa using hb)
  refine ⟨(m ++ [c]).length, b', ?_, display_sets E (h.set h2 ?_) (side_set hs _ _)⟩
  · rw [h.here.2, show min l.length (l.length + m.length) = l.length by omega,
      show max (l.length + 1) (l.length + m.length + 1) = l.length + (m ++ [c]).length by
        simp; omega]
    exact h1
  · rw [setCur_cursor, h.here.2]; omega

omit h in
theorem deleteUntilInclusive_backward_sets {c : Char} (h : Open e s (l ++ m) (c :: r)) :
    Yields (deleteUntilInclusive E l.length) e s0 s l r := by
  have hc : s.cursor = l.length + m.length := by simpa using h.here.2
  simp only [Yields, deleteUntilInclusive, wp_bind, wp_get, wp_modify]
  refine wp_edit_open h (fun b hb => ?_)
  obtain ⟨b', h1, h2⟩ := Props.C01_remove b l (m ++ [c]) r (by simpa using hb)
  refine ⟨(m ++ [c]).length, b', ?_, display_sets E (h.set h2 ?_) (side_set hs _ _)⟩
  · rw [hc, show min (l.length + m.length) l.length = l.length by omega,
      show max (l.length + m.length + 1) (l.length + 1) = l.length + (m ++ [c]).length by
        simp; omega]
    exact h1
  · rw [setCur_cursor, hc]; omega

end

end Editor

namespace Editor
open Liner.Spec

section
variable (E : Env) {e : Bool} {s0 s : Ed} {l m r : Text}

/-- Accepting a suggestion that extends the line. -/
theorem accept_sets (h : Open e s l r) (hs : Side s0 s) {x : Buffer} (hw : s.showAutosuggestions = true)
    (hx : s.autosuggestion = some x) (hp : l ++ r <+: x.data) :
    Yields (acceptAutosuggestion E) e s0 s x.data [] := by
  obtain ⟨u, hu⟩ := hp
  unfold acceptAutosuggestion clearSearch
  rw [Yields, wp_bind, wp_get]
  dsimp only
  rw [hw, if_pos rfl, wp_bind]
  refine wp_edit_open h (fun b hb => ?_)
  have hle : b.data.length ≤ x.data.length := by simp [hb, ← hu]
  obtain ⟨b', h1, h2⟩ := Props.C01_insert b b.data [] u (by simp)
  have h2' : b'.data = x.data ++ [] := by rw [h2, hb, ← hu]
  refine ⟨(), b', ?_, ?_⟩
  · simp only [noRes, hx, h.quiet, Bool.false_eq_true, if_false, Buffer.insertFromBuffer, hle,
      if_true]
    rw [← hu, ← hb, List.drop_left, h1]
    rfl
  · rw [wp_bind, wp_modify]
    have h3 := h.set (c := (x.data).length) h2' rfl
    have h4 := side_set hs b' 0
    refine end_sets' E rfl h3.ne trivial ?_
      ⟨h4.loc, h4.history, h4.showSug, h4.hint, h4.prompt, h4.newValid, h4.valid⟩
    show text? (setCur s b') = _
    rw [setCur_text, h2', List.append_nil]

end

/-! ### Starting -/

section
variable [Around] (E : Env)

omit [Around] in
/-- Only the terminal changed. -/
def Wrote (s s' : Ed) : Prop := ∃ o n, s' = { s with out := o, tick := n }

theorem write_wrote (toks : List Tok) {s s' : Ed} (h : Wrote s s') :
    Wp (writeTerm E toks) s' (fun _ s'' => Wrote s s'') (fun _ _ => True) (fun _ => False) := by
  obtain ⟨o, n, rfl⟩ := h
  rw [wp_writeTerm]
  exact ⟨fun _ => ⟨_, _, rfl⟩, fun _ => trivial⟩

/-- Creating the editor. -/
theorem start_sets (p p' : Prompt) (h : History) (fs : FS) (b : Buffer) (ha : Around.ok (initial p' h fs b)) :
    Wp (start E p) (initial p' h fs b)
      (fun _ s' => Settled false (initial p' h fs b) s' b.data []) (fun _ _ => True)
      (fun w => w = .op → E.ttyWidth = some 0) := by
  generalize hs : initial p' h fs b = s at ha ⊢
  have hw : Wrote s s := ⟨_, _, rfl⟩
  have hf : ∀ w, False → (w = Site.op → E.ttyWidth = some 0) := fun _ h => h.elim
  unfold start
  rw [wp_bind]
  refine wp_mono (write_wrote E _ hw) (fun _ s1 h1 => ?_) (fun _ _ h => h) hf
  dsimp only
  split
  · rename_i h0
    intro _
    cases hE : E.ttyWidth with
    | none => rw [hE] at h0; cases h0
    | some n => rw [hE] at h0; exact congrArg some h0
  rw [wp_bind]
  refine wp_mono (wp_repeatN (I := Wrote s) (fun s2 h2 => write_wrote E _ h2) _ _ h1)
    (fun _ s2 h2 => ?_) (fun _ _ h => h) hf
  rw [wp_bind]
  refine wp_mono (write_wrote E _ h2) (fun _ s3 h3 => ?_) (fun _ _ h => h) hf
  rw [wp_bind]
  refine wp_mono (write_wrote E _ h3) (fun _ s4 h4 => ?_) (fun _ _ h => h) hf
  rw [wp_bind, wp_get]
  obtain ⟨o, n, rfl⟩ := h4
  have side : ∀ {s' : Ed}, Side { s with out := o, tick := n } s' → Side s s' := fun w =>
    ⟨w.loc, w.history, w.showSug, w.hint, w.prompt, w.newValid, w.valid⟩
  have ht : text? { s with out := o, tick := n } = some b.data := by rw [← hs]; rfl
  have hq : ({ s with out := o, tick := n } : Ed).isSearch = false := by rw [← hs]; rfl
  have hn : ({ s with out := o, tick := n } : Ed).noEol = false := by rw [← hs]; rfl
  have ha' : Around.ok ({ s with out := o, tick := n } : Ed) := around_as ha ⟨rfl, rfl, rfl, rfl, fun _ => rfl, rfl, id, fun _ => rfl⟩
  have hb : s.newBuf = b := by rw [← hs]; rfl
  have hc : s.cursor = 0 := by rw [← hs]; rfl
  have last : ∀ s', Settled false { s with out := o, tick := n } s' b.data [] →
      Wp (display E) s' (fun _ s'' => Settled false s s'' b.data []) (fun _ _ => True)
      (fun w => w = .op → E.ttyWidth = some 0) := fun s' h' =>
    wp_mono (display_sets E (l := b.data) (r := []) h'.here h'.side)
      (fun _ _ h'' => ⟨h''.here, side h''.side, h''.sug⟩) (fun _ _ _ => trivial)
      (fun _ h h' => absurd h' h)
  split
  · rename_i he
    rw [hb, Buffer.isEmpty, List.isEmpty_iff] at he
    refine wp_mono (display_sets E (l := b.data) (r := []) (s := { s with out := o, tick := n })
      ⟨hq, hn, ha', by rw [List.append_nil]; exact ht, by rw [he]; exact hc⟩ (Side.refl _))
      (fun _ _ h'' => ⟨h''.here, side h''.side, h''.sug⟩) (fun _ _ _ => trivial)
      (fun _ h h' => absurd h' h)
  · rw [wp_bind]
    exact wp_mono (end_sets' E hq hn ha' ht (Side.refl _)) (fun _ s' h' => last s' h')
      (fun _ _ h => h) (fun _ h h' => absurd h' h)

end
end Editor
end Liner
