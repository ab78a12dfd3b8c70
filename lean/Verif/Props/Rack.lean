import Verif.Proof.Rack
import Verif.Props.ViRead
/-
What `read_line` returns in vi mode when Up and Down lead to the entries of the history: C78.
-/

namespace Liner.Props
open Liner Liner.Spec Liner.Editor Liner.Wit Liner.Tests

section
variable (E : Env) (hC : ∀ c, E.cc.isWhitespace c = true → E.cc.isAlphanumeric c = false ∧ c ≠ '_')
  (p p' : Prompt) (h : History) (hs : h.share = false) (fs : FS) (b : Buffer) (hb : b.actions = []) (as : List Act)
  (hc : Rack.CanAll E.cc (texts h) as (Rack.fresh b.data))
  (kcs : List (Key × (Text → List Text))) (hks : kcs.map Prod.fst = as.flatMap Act.keys)
include hC hs hb hc hks

/-- C78: Enter returns the line that the rack shows, unless there is a backslash before the cursor; only a terminal that
does not work can make it fail. -/
theorem C78_enter (comp : Text → List Text) (rest : List KeyMap.Input)
    (hl : ∀ r, Rack.Steps E.cc (texts h) as (Rack.fresh b.data) r → r.hand.left.getLast? ≠ some '\\') :
    (∀ txt t', Vi.keyMap.readLine E p (Spec.typed kcs ++ .key (.char '\n') comp :: rest) ({}, initial p' h fs b) = .ok txt t' →
      ∃ r, Rack.Steps E.cc (texts h) as (Rack.fresh b.data) r ∧ txt = r.hand.left ++ r.hand.right) ∧
    (∀ e t', Vi.keyMap.readLine E p (Spec.typed kcs ++ .key (.char '\n') comp :: rest) ({}, initial p' h fs b) = .err e t' →
      e = .io ∧ ¬ Works E) ∧
    (Vi.keyMap.readLine E p (Spec.typed kcs ++ .key (.char '\n') comp :: rest) ({}, initial p' h fs b) = .panic .op →
      E.ttyWidth = some 0) := by
  have key := Vi.read_rack E (tail := .key (.char '\n') comp :: rest)
    (Q := fun txt _ => ∃ r, Rack.Steps E.cc (texts h) as (Rack.fresh b.data) r ∧ txt = r.hand.left ++ r.hand.right)
    (R := fun e _ => Vi.Fails E e) (fun _ _ h => h) (apart_of hC) p p' hs fs b hb as hc hks
    fun r nb hb e t' h1 h2 h3 => wp_mono (@Vi.loop_enter (Vi.onShelf h r.shelf nb hb) E comp _ _ _ _ _ h2 h3 (hl r h1)) (fun _ _ h => ⟨r, h1, h⟩)
      (fun _ _ h => h) (fun _ h => h)
  exact ⟨fun txt t' hr => (wp_ok key hr :), fun e t' hr => (wp_err key hr :), fun hr => wp_panic' key hr rfl⟩

/-- C78: so does the end of the input. -/
theorem C78_end :
    (∀ txt t', Vi.keyMap.readLine E p (Spec.typed kcs) ({}, initial p' h fs b) = .ok txt t' →
      ∃ r, Rack.Steps E.cc (texts h) as (Rack.fresh b.data) r ∧ txt = r.hand.left ++ r.hand.right) ∧
    (∀ e t', Vi.keyMap.readLine E p (Spec.typed kcs) ({}, initial p' h fs b) = .err e t' → e = .io ∧ ¬ Works E) ∧
    (Vi.keyMap.readLine E p (Spec.typed kcs) ({}, initial p' h fs b) = .panic .op → E.ttyWidth = some 0) := by
  have key := Vi.read_rack E (tail := [])
    (Q := fun txt _ => ∃ r, Rack.Steps E.cc (texts h) as (Rack.fresh b.data) r ∧ txt = r.hand.left ++ r.hand.right)
    (R := fun e _ => Vi.Fails E e) (fun _ _ h => h) (apart_of hC) p p' hs fs b hb as hc hks
    fun r nb hb e t' h1 h2 h3 => wp_mono (@Vi.loop_end (Vi.onShelf h r.shelf nb hb) E _ _ _ _ h2) (fun _ _ h => ⟨r, h1, h⟩)
      (fun _ _ h => h.elim) (fun _ h => h)
  rw [List.append_nil] at key
  exact ⟨fun txt t' hr => (wp_ok key hr :), fun e t' hr => (wp_err key hr :), fun hr => wp_panic' key hr rfl⟩

/-- C78: Ctrl-C makes it fail, and Ctrl-D does if the line shown is empty. -/
theorem C78_stop (comp : Text → List Text) (rest : List KeyMap.Input) (k : Key) (err : IoErr)
    (hk : (k = .ctrl 'c' ∧ err = .interrupted) ∨ (k = .ctrl 'd' ∧ err = .unexpectedEof ∧
      ∀ r, Rack.Steps E.cc (texts h) as (Rack.fresh b.data) r → r.hand.left ++ r.hand.right = [])) :
    (∀ txt t', Vi.keyMap.readLine E p (Spec.typed kcs ++ .key k comp :: rest) ({}, initial p' h fs b) ≠ .ok txt t') ∧
    (∀ e t', Vi.keyMap.readLine E p (Spec.typed kcs ++ .key k comp :: rest) ({}, initial p' h fs b) = .err e t' →
      e = err ∨ (e = .io ∧ ¬ Works E)) ∧
    (Vi.keyMap.readLine E p (Spec.typed kcs ++ .key k comp :: rest) ({}, initial p' h fs b) = .panic .op →
      E.ttyWidth = some 0) := by
  have key := Vi.read_rack E (tail := .key k comp :: rest)
    (Q := fun _ _ => False) (R := fun e _ => e = err ∨ Vi.Fails E e)
    (fun _ _ h => .inr h) (apart_of hC) p p' hs fs b hb as hc hks
    fun r nb hb e t' h1 h2 h3 => @Vi.loop_stop (Vi.onShelf h r.shelf nb hb) E comp _ _ _ _ _ _ _ h2 h3 (hk.imp id fun h => ⟨h.1, h.2.2 r h1, h.2.1⟩)
  exact ⟨fun txt t' hr => (wp_ok key hr :), fun e t' hr => (wp_err key hr :), fun hr => wp_panic' key hr rfl⟩

/-- C78: Enter during a search returns the entry found, or the line if there is none. -/
theorem C78_search (forward : Bool) (more : List Bool) (scs : List (Key × (Text → List Text)))
    (hsc : scs.map Prod.fst = (forward :: more).map seekKey) (comp : Text → List Text) (rest : List KeyMap.Input)
    (hf : ∀ r, Rack.Steps E.cc (texts h) as (Rack.fresh b.data) r → r.shelf.shown = none)
    (hl : ∀ r, Rack.Steps E.cc (texts h) as (Rack.fresh b.data) r →
      (r.hand.ending ((r.shelf.finds (texts h) r.hand.text forward more).getD r.hand.text)).getLast? ≠ some '\\') :
    (∀ txt t', Vi.keyMap.readLine E p (Spec.typed kcs ++ (Spec.typed scs ++ .key (.char '\n') comp :: rest)) ({}, initial p' h fs b) = .ok txt t' →
      ∃ r, Rack.Steps E.cc (texts h) as (Rack.fresh b.data) r ∧
        txt = (r.shelf.finds (texts h) r.hand.text forward more).getD r.hand.text) ∧
    (∀ e t', Vi.keyMap.readLine E p (Spec.typed kcs ++ (Spec.typed scs ++ .key (.char '\n') comp :: rest)) ({}, initial p' h fs b) = .err e t' →
      e = .io ∧ ¬ Works E) ∧
    (Vi.keyMap.readLine E p (Spec.typed kcs ++ (Spec.typed scs ++ .key (.char '\n') comp :: rest)) ({}, initial p' h fs b) = .panic .op →
      E.ttyWidth = some 0) := by
  have key := Vi.read_racked E (tail := Spec.typed scs ++ .key (.char '\n') comp :: rest)
    (Q := fun txt _ => ∃ r, Rack.Steps E.cc (texts h) as (Rack.fresh b.data) r ∧
      txt = (r.shelf.finds (texts h) r.hand.text forward more).getD r.hand.text)
    (R := fun e _ => Vi.Fails E e) (fun _ _ h => h) (apart_of hC) p p' hs fs b hb as hc hks
    fun r nb hb t' h1 h2 h3 h4 => wp_mono (Vi.loop_search E hs h2 h3 h4 (hf r h1) hsc rfl (hl r h1)) (fun _ _ h => ⟨r, h1, h⟩)
      (fun _ _ h => h) (fun _ h => h)
  exact ⟨fun txt t' hr => (wp_ok key hr :), fun e t' hr => (wp_err key hr :), fun hr => wp_panic' key hr rfl⟩

/-- C78: on a terminal that works, without undo the line that the rack shows is returned exactly, if nothing panics. -/
theorem C78_exact (hE : Works E) (hu : Act.command .undo ∉ as) (r : Rack)
    (hl : Rack.Steps E.cc (texts h) as (Rack.fresh b.data) r) (hn : r.hand.left.getLast? ≠ some '\\')
    (comp : Text → List Text) (rest : List KeyMap.Input) :
    (∃ t', Vi.keyMap.readLine E p (Spec.typed kcs ++ .key (.char '\n') comp :: rest) ({}, initial p' h fs b) =
      .ok (r.hand.left ++ r.hand.right) t') ∨
    ∃ w, Vi.keyMap.readLine E p (Spec.typed kcs ++ .key (.char '\n') comp :: rest) ({}, initial p' h fs b) = .panic w := by
  have h1 := C78_enter E hC p p' h hs fs b hb as hc kcs hks comp rest
    (fun r' h' => by rw [(Vi.racks_unique hu hl h').1]; exact hn)
  cases hm : Vi.keyMap.readLine E p (Spec.typed kcs ++ .key (.char '\n') comp :: rest) ({}, initial p' h fs b) with
  | ok txt t' =>
    obtain ⟨r', h2, rfl⟩ := h1.1 txt t' hm
    obtain ⟨h3, h4⟩ := Vi.racks_unique hu hl h2
    rw [h3, h4]
    exact .inl ⟨t', rfl⟩
  | err e t' => exact absurd hE (h1.2.1 e t' hm).2
  | panic w => exact .inr ⟨w, rfl⟩

end

/-- C78: without undo the line shown is certain. -/
theorem C78_unique (C : CharClass) (entries : List Text) (as : List Act) (r q q' : Rack) (hu : Act.command .undo ∉ as)
    (h1 : Rack.Steps C entries as r q) (h2 : Rack.Steps C entries as r q') :
    q'.hand.left = q.hand.left ∧ q'.hand.right = q.hand.right := Vi.racks_unique hu h1 h2

/-! ### Cases -/

/-- What `read_line` makes of the keys with a history. -/
def viWalks (entries : List String) (line : String) (keys : List Key) : Out (Vi × Ed) Text :=
  Vi.keyMap.readLine env { prompt := ['>', ' '] } (keys.map fun k => .key k fun _ => []) (({} : Vi), fresh entries line)

/-- Something typed and Up, which leads to an entry that begins with it; a change to this; `k`, which leads to an entry
before it; an insertion. -/
def someActs : List Act :=
  [.key (.char 'm'), .turn true false, .key (.char '!'), .leave, .command (.make (.cut (.char 'x')) []), .turn true true,
   .begin (.insert 'a') [], .key (.char 's')]

theorem someActs_can (entries : List Text) (d : Text) : Rack.CanAll env.cc entries someActs (Rack.fresh d) := by
  have hw : ∀ c : Char, c ≠ '\n' → c ≠ '\t' → WritingKey (.char c) := fun c h1 h2 => .inl (.inl ⟨c, rfl, h2, h1⟩)
  refine ⟨⟨_, _, _, rfl, hw _ (by decide) (by decide), by simp⟩, fun r1 h1 => ?_⟩
  cases h1 with | key _ => ?_
  refine ⟨fun h => (by cases h), fun r2 h2 => ?_⟩
  cases h2 with | turn _ _ => ?_
  refine ⟨⟨_, _, _, rfl, hw _ (by decide) (by decide), by simp⟩, fun r3 h3 => ?_⟩
  cases h3 with | key _ => ?_
  refine ⟨⟨_, _, _, rfl⟩, fun r4 h4 => ?_⟩
  cases h4 with | leave _ _ _ => ?_
  refine ⟨⟨_, rfl, ?_, by decide⟩, fun r5 h5 => ?_⟩
  · simp [Board.Can, Change.Can, Digits]
  cases h5 with | command _ => ?_
  refine ⟨fun _ => ⟨_, rfl⟩, fun r6 h6 => ?_⟩
  cases h6 with | turn _ _ => ?_
  refine ⟨⟨_, rfl, by simp [Digits], (by decide : 'a' ∈ ['i', 'a', 'I', 'A'])⟩, fun r7 h7 => ?_⟩
  cases h7 with | begin _ => ?_
  exact ⟨⟨_, _, _, rfl, hw _ (by decide) (by decide), by simp⟩, fun _ _ => trivial⟩

def someEntries : List String := ["make", "ls -l", "make test", "git log"]

/-- What the rack shows is what is returned. -/
example : ∃ r, Rack.Steps env.cc (texts (hist someEntries)) someActs (Rack.fresh []) r ∧
    r.hand.left ++ r.hand.right = ['m', 'a', 'k', 'e', 's'] := by
  have key : okAnd (viWalks someEntries "" (someActs.flatMap Act.keys)) (fun txt _ => txt == ['m', 'a', 'k', 'e', 's']) = true := by
    decide +kernel
  obtain ⟨txt, t', h1, h2⟩ := of_okAnd key
  obtain ⟨r, h3, h4⟩ := (C78_end env ascii_apart _ _ _ rfl _ (.ofText []) rfl someActs (someActs_can _ _)
    ((someActs.flatMap Act.keys).map fun k => (k, fun _ => [])) (by simp [List.map_map, Function.comp_def])).1 txt t'
    (by unfold viWalks at h1; rw [Spec.typed, List.map_map]; exact h1)
  exact ⟨r, h3, by rw [← h4]; simpa using h2⟩

example : okAnd (viWalks someEntries "" (someActs.flatMap Act.keys ++ [.char '\n', .char 'z'])) (fun txt _ => txt == "makes".toList) = true := by
  decide +kernel

example : Act.command .undo ∉ someActs := by simp [someActs]

/-- What was changed on an entry is gone once another line has been shown. -/
example : okAnd (viWalks someEntries "" [.esc, .char 'k', .char 'x', .char 'k', .char 'j']) (fun txt _ => txt == "git log".toList) = true := by
  decide +kernel

/-- The new line is as it was left, and can be undone. -/
example : okAnd (viWalks someEntries "a" [.char 'b', .esc, .char 'x', .char 'k', .char 'j', .char 'u']) (fun txt _ => txt == "ab".toList) = true := by
  decide +kernel

/-- A count before `k` is dropped. -/
example : okAnd (viWalks someEntries "" [.esc, .char '3', .char 'k', .char 'x']) (fun txt _ => txt == "git lo".toList) = true := by
  decide +kernel

/-- `u` on an entry that has not been changed empties the line: the copying of the entry is undone.  Then it brings back the
entry changed before, though that is not the one shown. -/
example : okAnd (viWalks someEntries "" [.esc, .char 'k', .char 'u']) (fun txt _ => txt == []) = true := by
  decide +kernel
example : okAnd (viWalks someEntries "" [.esc, .char 'k', .char 'x', .char 'k', .char 'u', .char 'u']) (fun txt _ => txt == "git lo".toList) = true := by
  decide +kernel

/-- These are acts on the rack. -/
def undoActs : List Act := [.leave, .turn true true, .command .undo]

theorem undoActs_can (entries : List Text) (d : Text) : Rack.CanAll env.cc entries undoActs (Rack.fresh d) := by
  refine ⟨⟨_, _, _, rfl⟩, fun r1 h1 => ?_⟩
  cases h1 with | leave h0 _ h => ?_
  rename_i b0 b
  refine ⟨fun _ => ⟨_, rfl⟩, fun r2 h2 => ?_⟩
  cases h2 with | turn hput hf => ?_
  refine ⟨⟨_, rfl, ?_, by decide⟩, fun _ _ => trivial⟩
  obtain ⟨l, hl, hg⟩ := hput
  obtain rfl := hg
  have hfull : l.full = true := by
    rw [show l = _ from hl]; exact h.full.trans h0
  refine .inl ?_
  show (Shelf.leaf entries _).full = true
  subst hf
  have hkeep : ∀ g : Shelf, (g.up entries).new = g.new ∧ (g.up entries).copy = g.copy := by
    intro g
    unfold Shelf.up
    dsimp only
    constructor <;> (repeat' split) <;> rfl
  unfold Shelf.leaf
  split
  · rw [if_pos rfl, (hkeep _).1]; exact hfull
  · rw [if_pos rfl, (hkeep _).2]

/-- What `read_line` returns after them is a line that the rack shows. -/
example : ∃ r, Rack.Steps env.cc (texts (hist someEntries)) undoActs (Rack.fresh []) r ∧ r.hand.left ++ r.hand.right = [] := by
  have key : okAnd (viWalks someEntries "" (undoActs.flatMap Act.keys)) (fun txt _ => txt == []) = true := by decide +kernel
  obtain ⟨txt, t', h1, h2⟩ := of_okAnd key
  obtain ⟨r, h3, h4⟩ := (C78_end env ascii_apart _ _ _ rfl _ (.ofText []) rfl undoActs (undoActs_can _ _)
    ((undoActs.flatMap Act.keys).map fun k => (k, fun _ => [])) (by simp [List.map_map, Function.comp_def])).1 txt t'
    (by unfold viWalks at h1; rw [Spec.typed, List.map_map]; exact h1)
  exact ⟨r, h3, by rw [← h4]; simpa using h2⟩

/-- Enter after a backslash on an entry: Up then looks again for the new line among the entries. -/
example : okAnd (viWalks someEntries "" [.char 'm', .up, .up, .char '\\', .char '\n', .char 'x']) (fun txt _ => txt == "make\\\nx".toList) = true := by
  decide +kernel
example : okAnd (viWalks someEntries "" [.char 'm', .up, .up, .char '\\', .char '\n', .char 'x', .up]) (fun txt _ => txt == "make test".toList) = true := by
  decide +kernel

/-- A suggestion is taken during an insertion, with something typed after it; the other one in normal mode. -/
def takeActs : List Act := [.key (.char 'm'), .take true, .key (.char '!'), .leave]
def takeActs' : List Act := [.key (.char 'm'), .leave, .take false]

theorem typed_m {p : Pen} (h : Pen.Step (.char 'm') (.first []) p) : p.left = ['m'] ∧ p.right = [] ∧ p.more = 0 := by
  cases h with
  | type h hm => exact ⟨rfl, rfl, rfl⟩
  | restart h hm hp => cases hm
  | move h => simp [Moves] at h
  | inert h => simp [Inert] at h

theorem takeActs_can : Rack.CanAll env.cc (texts (hist someEntries)) takeActs (Rack.fresh []) := by
  have hw : ∀ c : Char, c ≠ '\n' → c ≠ '\t' → WritingKey (.char c) := fun c h1 h2 => .inl (.inl ⟨c, rfl, h2, h1⟩)
  refine ⟨⟨_, _, _, rfl, hw _ (by decide) (by decide), by simp⟩, fun r1 h1 => ?_⟩
  cases h1 with | key h1 => ?_
  obtain ⟨h2, h3, -⟩ := typed_m h1
  refine ⟨⟨rfl, ?_, fun _ => h3⟩, fun r2 h2 => ?_⟩
  · show hint _ (Pen.left _ ++ Pen.right _) ≠ none
    rw [h2, h3]
    decide +kernel
  cases h2 with | take _ => ?_
  refine ⟨⟨_, _, _, rfl, hw _ (by decide) (by decide), by simp⟩, fun r3 h3 => ?_⟩
  cases h3 with | key _ => ?_
  exact ⟨⟨_, _, _, rfl⟩, fun _ _ => trivial⟩

theorem takeActs'_can : Rack.CanAll env.cc (texts (hist someEntries)) takeActs' (Rack.fresh []) := by
  have hw : ∀ c : Char, c ≠ '\n' → c ≠ '\t' → WritingKey (.char c) := fun c h1 h2 => .inl (.inl ⟨c, rfl, h2, h1⟩)
  refine ⟨⟨_, _, _, rfl, hw _ (by decide) (by decide), by simp⟩, fun r1 h1 => ?_⟩
  cases h1 with | key h1 => ?_
  obtain ⟨h2, h3, h4⟩ := typed_m h1
  refine ⟨⟨_, _, _, rfl⟩, fun r2 h5 => ?_⟩
  cases h5 with | leave _ _ h => ?_
  refine ⟨⟨rfl, ?_, fun h => (by cases h)⟩, fun _ _ => trivial⟩
  obtain ⟨l, r, h6, h7, -⟩ := h.typed
  rw [h2, h3, h4] at h6
  obtain ⟨rfl, rfl⟩ : ['m'] = l ∧ [] = r := by simpa using h6
  show hint _ (List.take _ _ ++ List.drop _ _) ≠ none
  rw [List.take_append_drop, h7]
  decide +kernel

/-- What is shown in the end. -/
example : okAnd (viWalks someEntries "" (takeActs.flatMap Act.keys)) (fun txt _ => txt == "make test!".toList) = true := by decide +kernel
example : okAnd (viWalks someEntries "" (takeActs'.flatMap Act.keys)) (fun txt _ => txt == "make test".toList) = true := by decide +kernel
example : ∃ r, Rack.Steps env.cc (texts (hist someEntries)) takeActs (Rack.fresh []) r ∧
    r.hand.left ++ r.hand.right = ['m', 'a', 'k', 'e', ' ', 't', 'e', 's', 't', '!'] := by
  have key : okAnd (viWalks someEntries "" (takeActs.flatMap Act.keys)) (fun txt _ => txt == ['m', 'a', 'k', 'e', ' ', 't', 'e', 's', 't', '!']) = true := by
    decide +kernel
  obtain ⟨txt, t', h1, h2⟩ := of_okAnd key
  obtain ⟨r, h3, h4⟩ := (C78_end env ascii_apart _ _ _ rfl _ (.ofText []) rfl takeActs takeActs_can
    ((takeActs.flatMap Act.keys).map fun k => (k, fun _ => [])) (by simp [List.map_map, Function.comp_def])).1 txt t'
    (by unfold viWalks at h1; rw [Spec.typed, List.map_map]; exact h1)
  exact ⟨r, h3, by rw [← h4]; simpa using h2⟩

/-- In normal mode taking the suggestion is undone alone; during an insertion it is undone with what was typed. -/
example : okAnd (viWalks someEntries "" [.char 'm', .esc, .right, .char 'u']) (fun txt _ => txt == ['m']) = true := by decide +kernel
example : okAnd (viWalks someEntries "" [.char 'm', .right, .char '!', .esc, .char 'u']) (fun txt _ => txt == []) = true := by decide +kernel

/-- A count is kept.  `.` types what was typed, without the suggestion. -/
example : okAnd (viWalks someEntries "" [.char 'm', .char 'a', .esc, .char '0', .char '2', .ctrl 'f', .char 'h', .char 'x'])
    (fun txt _ => txt == "make tst".toList) = true := by decide +kernel
example : okAnd (viWalks someEntries "" [.char 'm', .char 'a', .ctrl 'f', .char 's', .esc, .char '.'])
    (fun txt _ => txt == "make testmass".toList) = true := by decide +kernel

/-- Right at the end of a line that no entry begins with does nothing. -/
example : okAnd (viWalks someEntries "" [.char 'z', .right, .char 's']) (fun txt _ => txt == "zs".toList) = true := by decide +kernel

/-- A search after something typed: the second entry found is taken, and something typed after it. -/
def searchActs : List Act := [.key (.char 's'), .search false [false] true, .key (.char '!')]

theorem typed_s {p : Pen} (h : Pen.Step (.char 's') (.first []) p) : p.left = ['s'] ∧ p.right = [] := by
  cases h with
  | type h hm => exact ⟨rfl, rfl⟩
  | restart h hm hp => cases hm
  | move h => simp [Moves] at h
  | inert h => simp [Inert] at h

theorem searchActs_can : Rack.CanAll env.cc (texts (hist someEntries)) searchActs (Rack.fresh []) := by
  have hw : ∀ c : Char, c ≠ '\n' → c ≠ '\t' → WritingKey (.char c) := fun c h1 h2 => .inl (.inl ⟨c, rfl, h2, h1⟩)
  refine ⟨⟨_, _, _, rfl, hw _ (by decide) (by decide), by simp⟩, fun r1 h1 => ?_⟩
  cases h1 with | key h1 => ?_
  obtain ⟨h2, h3⟩ := typed_s h1
  refine ⟨⟨rfl, ?_, fun _ => h3⟩, fun r2 h2 => ?_⟩
  · show Shelf.finds _ (Pen.left _ ++ Pen.right _) _ _ _ ≠ none
    rw [h2, h3]
    dsimp only
    decide +kernel
  cases h2 with | search _ => ?_
  exact ⟨⟨_, _, _, rfl, hw _ (by decide) (by decide), by simp⟩, fun _ _ => trivial⟩

example : ∃ r, Rack.Steps env.cc (texts (hist someEntries)) searchActs (Rack.fresh []) r ∧
    r.hand.left ++ r.hand.right = ['l', 's', ' ', '-', 'l', '!'] := by
  have key : okAnd (viWalks someEntries "" (searchActs.flatMap Act.keys)) (fun txt _ => txt == ['l', 's', ' ', '-', 'l', '!']) = true := by
    decide +kernel
  obtain ⟨txt, t', h1, h2⟩ := of_okAnd key
  obtain ⟨r, h3, h4⟩ := (C78_end env ascii_apart _ _ _ rfl _ (.ofText []) rfl searchActs searchActs_can
    ((searchActs.flatMap Act.keys).map fun k => (k, fun _ => [])) (by simp [List.map_map, Function.comp_def])).1 txt t'
    (by unfold viWalks at h1; rw [Spec.typed, List.map_map]; exact h1)
  exact ⟨r, h3, by rw [← h4]; simpa using h2⟩

/-- In normal mode what was found is undone in two steps. -/
example : okAnd (viWalks someEntries "" [.char 's', .esc, .ctrl 's', .ctrl 'f']) (fun txt _ => txt == "ls -l".toList) = true := by decide +kernel
example : okAnd (viWalks someEntries "" [.char 's', .esc, .ctrl 's', .ctrl 'f', .char 'u']) (fun txt _ => txt == []) = true := by decide +kernel
example : okAnd (viWalks someEntries "" [.char 's', .esc, .ctrl 's', .ctrl 'f', .char 'u', .char 'u']) (fun txt _ => txt == ['s']) = true := by
  decide +kernel

/-- Enter takes what was found. -/
example : okAnd (viWalks someEntries "" [.char 's', .ctrl 'r', .ctrl 'r', .ctrl 'r', .char '\n', .char 'z']) (fun txt _ => txt == "make test".toList) = true := by
  decide +kernel
example : okAnd (viWalks someEntries "" [.char 'q', .ctrl 'r', .char '\n']) (fun txt _ => txt == ['q']) = true := by decide +kernel

/-- Cases of the hypotheses of `C78_search`. -/
example : ∀ r, Rack.Steps env.cc (texts (hist someEntries)) [.key (.char 's')] (Rack.fresh []) r →
    r.shelf.shown = none ∧ (r.shelf.finds (texts (hist someEntries)) r.hand.text false [false]).getD r.hand.text = ['l', 's', ' ', '-', 'l'] ∧
    (r.hand.ending ['l', 's', ' ', '-', 'l']).getLast? ≠ some '\\' := by
  intro r hr
  cases hr with
  | cons h1 h2 =>
    cases h2
    cases h1 with
    | key h1 =>
      obtain ⟨h2, h3⟩ := typed_s h1
      refine ⟨rfl, ?_, by simp [Hand.ending]⟩
      show (Shelf.finds _ (Pen.left _ ++ Pen.right _) _ _ _).getD (Pen.left _ ++ Pen.right _) = _
      rw [h2, h3]
      dsimp only
      decide +kernel

end Liner.Props
