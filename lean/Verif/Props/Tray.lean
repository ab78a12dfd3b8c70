import Verif.Proof.Tray
import Verif.Props.Rack
import Verif.Props.Table
/-
What `read_line` returns in vi mode with Tab: C79.
-/

namespace Liner.Props
open Liner Liner.Spec Liner.Editor Liner.Wit Liner.Tests

section
variable (E : Env) (hC : ∀ c, E.cc.isWhitespace c = true → E.cc.isAlphanumeric c = false ∧ c ≠ '_')
  (hw : E.words = getBufferWords) (p p' : Prompt) (h : History) (hs : h.share = false) (fs : FS) (b : Buffer) (hb : b.actions = [])
  (ds : List Deed) (hc : Tray.CanAll E.cc (texts h) ds ⟨Rack.fresh b.data, none⟩)
  (kcs : List (Key × (Text → List Text))) (hks : Deed.AllGiven ds kcs)
include hC hw hs hb hc hks

/-- C79: Enter returns the line that the tray shows, unless there is a list or a backslash before the cursor; only a terminal
that does not work can make it fail. -/
theorem C79_enter (comp : Text → List Text) (rest : List KeyMap.Input)
    (hl : ∀ y, Tray.Steps E.cc (texts h) ds ⟨Rack.fresh b.data, none⟩ y → y.list = none ∧ y.rack.hand.left.getLast? ≠ some '\\') :
    (∀ txt t', Vi.keyMap.readLine E p (Spec.typed kcs ++ .key (.char '\n') comp :: rest) ({}, initial p' h fs b) = .ok txt t' →
      ∃ y, Tray.Steps E.cc (texts h) ds ⟨Rack.fresh b.data, none⟩ y ∧ txt = y.rack.hand.left ++ y.rack.hand.right) ∧
    (∀ e t', Vi.keyMap.readLine E p (Spec.typed kcs ++ .key (.char '\n') comp :: rest) ({}, initial p' h fs b) = .err e t' →
      e = .io ∧ ¬ Works E) ∧
    (Vi.keyMap.readLine E p (Spec.typed kcs ++ .key (.char '\n') comp :: rest) ({}, initial p' h fs b) = .panic .op →
      E.ttyWidth = some 0) := by
  have key := Vi.read_tray E (tail := .key (.char '\n') comp :: rest)
    (Q := fun txt _ => ∃ y, Tray.Steps E.cc (texts h) ds ⟨Rack.fresh b.data, none⟩ y ∧ txt = y.rack.hand.left ++ y.rack.hand.right)
    (R := fun e _ => Vi.Fails E e) (fun _ _ h => h) (apart_of hC) hw p p' hs fs b hb ds hc hks
    fun y nb hb t' h1 h2 => by
      obtain ⟨e, ho⟩ := h2.rack.here
      exact wp_mono (@Vi.loop_enter (Vi.onShelf h y.rack.shelf nb hb) E comp _ _ _ _ _ ho (h2.list.trans (hl y h1).1) (hl y h1).2)
        (fun _ _ h => ⟨y, h1, h⟩) (fun _ _ h => h) (fun _ h => h)
  exact ⟨fun txt t' hr => (wp_ok key hr :), fun e t' hr => (wp_err key hr :), fun hr => wp_panic' key hr rfl⟩

/-- C79: so does the end of the input, even with a list. -/
theorem C79_end :
    (∀ txt t', Vi.keyMap.readLine E p (Spec.typed kcs) ({}, initial p' h fs b) = .ok txt t' →
      ∃ y, Tray.Steps E.cc (texts h) ds ⟨Rack.fresh b.data, none⟩ y ∧ txt = y.rack.hand.left ++ y.rack.hand.right) ∧
    (∀ e t', Vi.keyMap.readLine E p (Spec.typed kcs) ({}, initial p' h fs b) = .err e t' → e = .io ∧ ¬ Works E) ∧
    (Vi.keyMap.readLine E p (Spec.typed kcs) ({}, initial p' h fs b) = .panic .op → E.ttyWidth = some 0) := by
  have key := Vi.read_tray E (tail := [])
    (Q := fun txt _ => ∃ y, Tray.Steps E.cc (texts h) ds ⟨Rack.fresh b.data, none⟩ y ∧ txt = y.rack.hand.left ++ y.rack.hand.right)
    (R := fun e _ => Vi.Fails E e) (fun _ _ h => h) (apart_of hC) hw p p' hs fs b hb ds hc hks
    fun y nb hb t' h1 h2 => by
      obtain ⟨e, ho⟩ := h2.rack.here
      exact wp_mono (@Vi.loop_end (Vi.onShelf h y.rack.shelf nb hb) E _ _ _ _ ho) (fun _ _ h => ⟨y, h1, h⟩)
        (fun _ _ h => h.elim) (fun _ h => h)
  rw [List.append_nil] at key
  exact ⟨fun txt t' hr => (wp_ok key hr :), fun e t' hr => (wp_err key hr :), fun hr => wp_panic' key hr rfl⟩

/-- C79: Ctrl-C makes it fail, and Ctrl-D does if the line shown is empty, with or without a list. -/
theorem C79_stop (comp : Text → List Text) (rest : List KeyMap.Input) (k : Key) (err : IoErr)
    (hk : (k = .ctrl 'c' ∧ err = .interrupted) ∨ (k = .ctrl 'd' ∧ err = .unexpectedEof ∧
      ∀ y, Tray.Steps E.cc (texts h) ds ⟨Rack.fresh b.data, none⟩ y → y.rack.hand.left ++ y.rack.hand.right = [])) :
    (∀ txt t', Vi.keyMap.readLine E p (Spec.typed kcs ++ .key k comp :: rest) ({}, initial p' h fs b) ≠ .ok txt t') ∧
    (∀ e t', Vi.keyMap.readLine E p (Spec.typed kcs ++ .key k comp :: rest) ({}, initial p' h fs b) = .err e t' →
      e = err ∨ (e = .io ∧ ¬ Works E)) ∧
    (Vi.keyMap.readLine E p (Spec.typed kcs ++ .key k comp :: rest) ({}, initial p' h fs b) = .panic .op →
      E.ttyWidth = some 0) := by
  have key := Vi.read_tray E (tail := .key k comp :: rest)
    (Q := fun _ _ => False) (R := fun e _ => e = err ∨ Vi.Fails E e)
    (fun _ _ h => .inr h) (apart_of hC) hw p p' hs fs b hb ds hc hks
    fun y nb hb t' h1 h2 => by
      obtain ⟨e, ho⟩ := h2.rack.here
      exact @Vi.stop_listed E (Vi.onShelf h y.rack.shelf nb hb) comp _ _ _ _ _ _ _ ho (hk.imp id fun h => ⟨h.1, h.2.2 y h1, h.2.1⟩)
  exact ⟨fun txt t' hr => (wp_ok key hr :), fun e t' hr => (wp_err key hr :), fun hr => wp_panic' key hr rfl⟩

/-- C79: on a terminal that works, without undo the line that the tray shows is returned exactly, if nothing panics. -/
theorem C79_exact (hE : Works E) (hu : Deed.act (.command .undo) ∉ ds) (y : Tray)
    (hl : Tray.Steps E.cc (texts h) ds ⟨Rack.fresh b.data, none⟩ y) (hn : y.rack.hand.left.getLast? ≠ some '\\') (hy : y.list = none)
    (comp : Text → List Text) (rest : List KeyMap.Input) :
    (∃ t', Vi.keyMap.readLine E p (Spec.typed kcs ++ .key (.char '\n') comp :: rest) ({}, initial p' h fs b) =
      .ok (y.rack.hand.left ++ y.rack.hand.right) t') ∨
    ∃ w, Vi.keyMap.readLine E p (Spec.typed kcs ++ .key (.char '\n') comp :: rest) ({}, initial p' h fs b) = .panic w := by
  have same : ∀ y', Tray.Steps E.cc (texts h) ds ⟨Rack.fresh b.data, none⟩ y' →
      (y'.rack.hand.left = y.rack.hand.left ∧ y'.rack.hand.right = y.rack.hand.right) ∧ y'.list = y.list := fun y' h' => by
    have := Vi.trays_unique hl (Vi.TraySame.refl _) hu h'
    exact ⟨Vi.sides_same this.1.1, this.2⟩
  have h1 := C79_enter E hC hw p p' h hs fs b hb ds hc kcs hks comp rest
    (fun y' h' => ⟨(same y' h').2.trans hy, by rw [(same y' h').1.1]; exact hn⟩)
  cases hm : Vi.keyMap.readLine E p (Spec.typed kcs ++ .key (.char '\n') comp :: rest) ({}, initial p' h fs b) with
  | ok txt t' =>
    obtain ⟨y', h2, rfl⟩ := h1.1 txt t' hm
    rw [(same y' h2).1.1, (same y' h2).1.2]
    exact .inl ⟨t', rfl⟩
  | err e t' => exact absurd hE (h1.2.1 e t' hm).2
  | panic w => exact .inr ⟨w, rfl⟩

end

/-- C79: without undo the line shown and the list are certain. -/
theorem C79_unique (C : CharClass) (entries : List Text) (ds : List Deed) (y q q' : Tray) (hu : Deed.act (.command .undo) ∉ ds)
    (h1 : Tray.Steps C entries ds y q) (h2 : Tray.Steps C entries ds y q') :
    q'.rack.hand.left = q.rack.hand.left ∧ q'.rack.hand.right = q.rack.hand.right ∧ q'.list = q.list := by
  have := Vi.trays_unique h1 (Vi.TraySame.refl _) hu h2
  exact ⟨(Vi.sides_same this.1.1).1, (Vi.sides_same this.1.1).2, this.2⟩

/-- C79: what Tab does is certain, and it always does something that the tray says: there is no line for which it says
nothing. -/
theorem C79_tab_unique (comp : Text → List Text) (l r : Text) (list : Option (List Text × Option Nat))
    (hl : ∀ cs i, list = some (cs, i) → cs ≠ [] ∧ ∀ n, i = some n → n < cs.length) :
    ∃! x : Option (List Text × Text × Text) × Option (List Text × Option Nat), Tabs comp l r list x.1 x.2 := by
  have ex : ∃ o list', Tabs comp l r list o list' := by
    obtain ⟨a, w1, w2, z, h1, h2, ht⟩ := parts_ex l r
    cases list with
    | none =>
      have hcs := sortDedup_spec (comp (w1 ++ w2))
      generalize sortDedup (comp (w1 ++ w2)) = cs at hcs
      match cs, hcs with
      | [], hcs => exact ⟨_, _, .nothing h1 h2 ht hcs⟩
      | [c], hcs => exact ⟨_, _, .single h1 h2 ht hcs⟩
      | c :: c' :: cs, hcs =>
        have h3 : 2 ≤ (c :: c' :: cs).length := by simp
        obtain ⟨q, hq⟩ := common_ex h3
        by_cases hx : w1 ++ w2 <+: q ∧ q ≠ w1 ++ w2
        · exact ⟨_, _, .longer h1 h2 ht hcs h3 hq hx.1 hx.2⟩
        · exact ⟨_, _, .choice h1 h2 ht hcs h3 hq hx⟩
    | some x =>
      obtain ⟨cs, i⟩ := x
      obtain ⟨hne, hi⟩ := hl cs i rfl
      have hj := following_lt hne hi
      have hc : cs[Table.following cs.length i]? = some cs[Table.following cs.length i] := List.getElem?_eq_getElem hj
      by_cases hx : ∃ n, i = some n ∧ cs[n]? = some (l ++ r)
      · obtain ⟨n, rfl, hx⟩ := hx
        exact ⟨_, _, .whole rfl hc hx⟩
      · exact ⟨_, _, .next rfl hc (fun n hn hx' => hx ⟨n, hn, hx'⟩) h1 h2 ht⟩
  obtain ⟨o, list', h1⟩ := ex
  refine ⟨(o, list'), h1, fun x h2 => ?_⟩
  obtain ⟨e1, e2⟩ := Vi.tabs_unique h1 h2
  exact Prod.ext e1 e2

/-! ### Cases -/

/-- What `read_line` makes of the keys with the completer of three commands. -/
def viTabs (entries : List String) (line : String) (keys : List Key) : Out (Vi × Ed) Text :=
  Vi.keyMap.readLine env { prompt := ['>', ' '] } (keys.map fun k => .key k commands) (({} : Vi), fresh entries line)

/-- A completer that always says the same. -/
def two (_ : Text) : List Text := [['a'], ['b']]

theorem two_list {l r : Text} {o : Option (List Text × Text × Text)} {list : Option (List Text × Option Nat)} (h : Tabs two l r none o list) :
    list ≠ none := by
  have nil : ∀ {cs : List Text} {q : Text}, SortedSet [['a'], ['b']] cs → CommonPrefix cs q → q = [] := by
    intro cs q h1 h2
    have ha := h2.1 ['a'] ((h1.2 _).mpr (by simp))
    have hb := h2.1 ['b'] ((h1.2 _).mpr (by simp))
    cases q with
    | nil => rfl
    | cons c q =>
      rw [List.cons_prefix_cons] at ha hb
      exact absurd (ha.1.symm.trans hb.1) (by decide)
  cases h with
  | nothing _ _ _ hc => exact absurd ((hc.2 ['a']).mpr (by simp [two])) (by simp)
  | single _ _ _ hc =>
    have ha := (hc.2 ['a']).mpr (by simp [two])
    have hb := (hc.2 ['b']).mpr (by simp [two])
    rw [List.mem_singleton] at ha hb
    exact absurd (ha.trans hb.symm) (by decide)
  | longer _ _ _ hc _ hp hw hne =>
    obtain rfl := nil hc hp
    exact absurd (List.prefix_nil.mp hw).symm hne
  | choice => simp

/-- Something typed, the list, a candidate, the list taken away, and something typed after it; then the last character is
deleted. -/
def tabDeeds : List Deed :=
  [.act (.key (.char 'x')), .tab two, .tab two, .shut, .act (.key (.char '!')), .act (.key (.char '?')), .act .leave,
   .act (.command (.make (.cut (.char 'x')) []))]

def deedKeys : List (Key × (Text → List Text)) :=
  [.char 'x', .char '\t', .char '\t', .char '\n', .char '!', .char '?', .esc, .char 'x'].map fun k => (k, two)

theorem tabDeeds_given : Deed.AllGiven tabDeeds deedKeys := by
  refine .cons (ks := [_]) (d := .act _) rfl <| .cons (ks := [_]) (d := .tab two) rfl <| .cons (ks := [_]) (d := .tab two) rfl <|
    .cons (ks := [_]) (d := .shut) rfl <| .cons (ks := [_]) (d := .act _) rfl <| .cons (ks := [_]) (d := .act _) rfl <|
    .cons (ks := [_]) (d := .act _) rfl <| .cons (ks := [_]) (ks' := []) (d := .act _) rfl .nil

theorem tabDeeds_can (entries : List Text) (d : Text) : Tray.CanAll env.cc entries tabDeeds ⟨Rack.fresh d, none⟩ := by
  have hw : ∀ c : Char, c ≠ '\n' → c ≠ '\t' → WritingKey (.char c) := fun c h1 h2 => .inl (.inl ⟨c, rfl, h2, h1⟩)
  refine ⟨⟨⟨_, _, _, rfl, hw _ (by decide) (by decide), by simp⟩, by simp⟩, fun y1 h1 => ?_⟩
  cases h1 with | act h1 => ?_
  cases h1 with | key h1 => ?_
  refine ⟨trivial, fun y2 h2 => ?_⟩
  have g2 : (∃ p full last, y2.rack.hand = .pen p full last) ∧ y2.list ≠ none := by
    cases h2 with
    | same h2 => exact ⟨⟨_, _, _, rfl⟩, two_list h2⟩
    | tab h2 => exact ⟨⟨_, _, _, rfl⟩, two_list h2⟩
  clear h2
  refine ⟨trivial, fun y3 h3 => ?_⟩
  have g3 : (∃ p full last, y3.rack.hand = .pen p full last) ∧ y3.list ≠ none := by
    obtain ⟨⟨hd, f⟩, list⟩ := y2
    obtain ⟨⟨p, full, last, e⟩, hne⟩ := g2
    dsimp only at e hne
    subst e
    cases h3 with
    | same h3 => generalize ho : (none : Option (List Text × Text × Text)) = o at h3; cases h3 <;> first | exact absurd rfl hne | cases ho
    | tab h3 =>
      refine ⟨⟨_, _, _, rfl⟩, ?_⟩
      generalize ho : some (_ : List Text × Text × Text) = o at h3
      dsimp only at h3
      cases h3 <;> first | exact absurd rfl hne | simp
  clear h3
  refine ⟨g3.2, fun y4 h4 => ?_⟩
  cases h4 with | shut => ?_
  obtain ⟨⟨p, full, last, e⟩, -⟩ := g3
  refine ⟨⟨⟨p, full, last, e, hw _ (by decide) (by decide), by simp⟩, by simp⟩, fun y5 h5 => ?_⟩
  cases h5 with | act h5 => ?_
  dsimp only at h5
  rw [e] at h5
  cases h5 with | key h5 => ?_
  refine ⟨⟨⟨_, _, _, rfl, hw _ (by decide) (by decide), by simp⟩, by simp⟩, fun y6 h6 => ?_⟩
  cases h6 with | act h6 => ?_
  cases h6 with | key h6 => ?_
  refine ⟨⟨⟨_, _, _, rfl⟩, by simp⟩, fun y7 h7 => ?_⟩
  cases h7 with | act h7 => ?_
  cases h7 with | leave _ _ _ => ?_
  refine ⟨⟨⟨_, rfl, ?_, by decide⟩, by simp⟩, fun _ _ => trivial⟩
  simp [Board.Can, Change.Can, Digits]

/-- What the tray shows is what is returned. -/
example : ∃ y, Tray.Steps env.cc (texts (hist someEntries)) tabDeeds ⟨Rack.fresh [], none⟩ y ∧
    y.rack.hand.left ++ y.rack.hand.right = ['a', '!'] := by
  have key : okAnd (Vi.keyMap.readLine env { prompt := ['>', ' '] } (Spec.typed deedKeys) (({} : Vi), fresh someEntries ""))
      (fun txt _ => txt == ['a', '!']) = true := by decide +kernel
  obtain ⟨txt, t', h1, h2⟩ := of_okAnd key
  obtain ⟨y, h3, h4⟩ := (C79_end env ascii_apart rfl _ _ _ rfl _ (.ofText []) rfl tabDeeds (tabDeeds_can _ _) deedKeys tabDeeds_given).1 txt t' h1
  exact ⟨y, h3, by rw [← h4]; simpa using h2⟩

example : Deed.act (.command .undo) ∉ tabDeeds := by simp [tabDeeds]

/-- The hypotheses of `C79_enter` and of `C79_exact`. -/
example : ∀ y, Tray.Steps env.cc (texts (hist someEntries)) tabDeeds ⟨Rack.fresh [], none⟩ y →
    y.list = none ∧ y.rack.hand.left.getLast? ≠ some '\\' := by
  have key : okAnd (Vi.keyMap.readLine env { prompt := ['>', ' '] } (Spec.typed deedKeys) (({} : Vi), fresh someEntries ""))
      (fun txt _ => txt == ['a', '!']) = true := by decide +kernel
  obtain ⟨txt, t', h1, h2⟩ := of_okAnd key
  obtain ⟨y0, h3, h4⟩ := (C79_end env ascii_apart rfl _ _ _ rfl _ (.ofText []) rfl tabDeeds (tabDeeds_can _ _) deedKeys tabDeeds_given).1 txt t' h1
  obtain rfl : txt = ['a', '!'] := by simpa using h2
  intro y h
  obtain ⟨e1, e2, e3⟩ := C79_unique _ _ _ _ _ _ (by simp [tabDeeds]) h3 h
  refine ⟨?_, fun hl => ?_⟩
  · cases h with | cons _ h => cases h with | cons _ h => cases h with | cons _ h => cases h with | cons _ h => cases h with | cons _ h =>
      cases h with | cons _ h => cases h with | cons _ h => cases h with | cons g h => cases h; cases g; rfl
  · rw [e1] at hl
    have := List.mem_append_left y0.rack.hand.right (List.mem_of_getLast? hl)
    rw [← h4] at this
    exact absurd this (by decide)

/-- In normal mode Tab completes the part of the word before the cursor, and the character under the cursor stays: with one
candidate, with a longer beginning, and with the list. -/
example : okAnd (viTabs [] "" (chars "git co" ++ [.esc, .char '\t'])) (fun txt _ => txt == "git commito".toList) = true := by decide +kernel
example : okAnd (viTabs [] "" (chars "git co" ++ [.char '\t'])) (fun txt _ => txt == "git commit".toList) = true := by decide +kernel
example : okAnd (viTabs [] "" (chars "git c " ++ [.esc, .char '\t', .char '\t', .char '\t', .char '\n', .char '\n']))
    (fun txt _ => txt == "git cherry ".toList) = true := by decide +kernel

/-- Undo brings back the text between: first without the word, then with it. -/
example : okAnd (viTabs [] "" (chars "git co " ++ [.esc, .char '\t', .char 'u'])) (fun txt _ => txt == "git  ".toList) = true := by decide +kernel
example : okAnd (viTabs [] "" (chars "git co " ++ [.esc, .char '\t', .char 'u', .char 'u'])) (fun txt _ => txt == "git co ".toList) = true := by
  decide +kernel

/-- During an insertion the completion is undone with it, and is not repeated by `.`. -/
example : okAnd (viTabs [] "" (chars "git co" ++ [.char '\t', .char '!', .esc, .char 'u'])) (fun txt _ => txt == []) = true := by decide +kernel
example : okAnd (viTabs [] "" (chars "co" ++ [.char '\t', .char '!', .esc, .char '.'])) (fun txt _ => txt == "commitco!!".toList) = true := by
  decide +kernel

/-- A count survives Tab and Enter that takes the list away. -/
example : okAnd (viTabs [] "" (chars "c abcd" ++ [.esc, .char '0', .char 'l', .char '2', .char '\t', .char '\n', .char 'x']))
    (fun txt _ => txt == "cbcd".toList) = true := by decide +kernel

end Liner.Props
