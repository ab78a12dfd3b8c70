import Verif.Proof.ViBoard
import Verif.Props.ViUndo
/-
Properties of the vi key map as a whole: C72.
-/

namespace Liner.Props
open Liner Liner.Spec Liner.Editor Liner.Wit Liner.Tests

section
variable (E : Env) (hC : ∀ c, E.cc.isWhitespace c = true → E.cc.isAlphanumeric c = false ∧ c ≠ '_')
  (p p' : Prompt) (h : History) (fs : FS) (b : Buffer)
include hC

/-- C72: from every state of the normal mode the keys of commands that can be given do to the line, the cursor and
the count what the commands do on the board. Enter is a command after a backslash, if there is no list of candidates. -/
theorem C72_commands_partial (keys : List (Key × (Text → List Text))) (v : Vi) (s : Ed) (d : Text)
    (hs : session Vi.keyMap E p keys (({} : Vi), initial p' h fs b) = .ok () (v, s))
    (hm : v.mode = .normal) (hq : s.isSearch = false) (hd : text? s = some d) (cs : List Command)
    (hn : s.showCompletionsHint = none ∨ .enter ∉ cs) (hc : Board.CanAll E.cc cs ⟨d, s.cursor, v.count, v.lastCharMovement, none, [], false⟩)
    (kcs : List (Key × (Text → List Text))) (hks : kcs.map Prod.fst = cs.flatMap Command.keys) :
    press Vi.keyMap E kcs (v, s) ≠ .panic .op ∧
    ∀ t', press Vi.keyMap E kcs (v, s) = .ok () t' → ∃ b',
      Board.Steps E.cc cs ⟨d, s.cursor, v.count, v.lastCharMovement, none, [], false⟩ b' ∧
      text? t'.2 = some b'.text ∧ t'.2.cursor = b'.cur ∧ t'.1.mode = .normal ∧ t'.1.count = b'.count := by
  have hv : Vi.VI (v, s) := wp_ok (Vi.vi_session E p p' h fs b keys) hs
  have := out_of (Vi.board_steps E (apart_of hC) cs _ _ kcs (.inl trivial) (Vi.any_shows (t := (v, s)) trivial hv (hv.nil hm) hq hd) hn hc hks)
  refine ⟨this.1, fun t' ht => ?_⟩
  obtain ⟨b', h1, h2⟩ := this.2 t' ht
  exact ⟨b', h1, by rw [h2.here.here.1, b'.sides], by rw [h2.here.here.2, Board.left_length h2.cur], Vi.mode_nil h2.stack,
    h2.count⟩

/-- C72: a line from its beginning: what is written before the first Esc, also with movements, and then commands that can be given. -/
theorem C72_line_partial (hb : b.actions = []) (ks : List Key)
    (hw : Pen.CanAll ks ((Board.fresh b.data).pen (.insert 'i') [] (b.data, []))) (cs : List Command)
    (hc : ∀ b0, Board.Begun b.data ks b0 → Board.CanAll E.cc cs b0)
    (kcs : List (Key × (Text → List Text))) (hks : kcs.map Prod.fst = ks ++ [.esc] ++ cs.flatMap Command.keys) :
    (session Vi.keyMap E p kcs (({} : Vi), initial p' h fs b) = .panic .op → E.ttyWidth = some 0) ∧
    ∀ t', session Vi.keyMap E p kcs (({} : Vi), initial p' h fs b) = .ok () t' → ∃ b0 b',
      Board.Begun b.data ks b0 ∧ Board.Steps E.cc cs b0 b' ∧
      text? t'.2 = some b'.text ∧ t'.2.cursor = b'.cur ∧ t'.1.mode = .normal ∧ t'.1.count = b'.count := by
  obtain ⟨k1, k2, rfl, h1, h2⟩ := List.map_eq_append_iff.1 hks
  have key : Wp (session Vi.keyMap E p (k1 ++ k2)) (({} : Vi), initial p' h fs b)
      (fun _ t' => ∃ b0 b', Board.Begun b.data ks b0 ∧ Board.Steps E.cc cs b0 b' ∧ Vi.Shows b' t') Vi.T2
      (fun w => w = .op → E.ttyWidth = some 0) := by
    refine (wp_congr (Vi.session_append E p k1 k2 _)).mpr ?_
    rw [wp_bind]
    refine wp_mono (Vi.first_shows E p p' h fs b trivial hb (.inl trivial) hw h1) (fun _ t1 ⟨b0, g1, g2, gn⟩ => ?_) (fun _ _ h => h) (fun _ h => h)
    exact wp_mono (Vi.board_steps E (apart_of hC) cs b0 t1 k2 (.inl trivial) g2 (.inl gn) (hc b0 g1) h2) (fun _ t' ⟨b', g3, g4⟩ => ⟨b0, b', g1, g3, g4⟩)
      (fun _ _ h => h) (fun w h h' => absurd h' h)
  unfold Wp at key
  constructor
  · intro hp; rw [hp] at key; exact key rfl
  · intro t' ht'
    rw [ht'] at key
    obtain ⟨b0, b', g1, g2, g3⟩ := key
    exact ⟨b0, b', g1, g2, by rw [g3.here.here.1, b'.sides], by rw [g3.here.here.2, Board.left_length g3.cur],
      Vi.mode_nil g3.stack, g3.count⟩

/-- C72: a line from its beginning, with any commands of those that need nothing. -/
theorem C72_always_partial (hb : b.actions = []) (ks : List Key) (hw : ∀ k ∈ ks, WritingKey k ∧ k ≠ .right) (cs : List Command)
    (hc : ∀ c ∈ cs, c.Always)
    (kcs : List (Key × (Text → List Text))) (hks : kcs.map Prod.fst = ks ++ [.esc] ++ cs.flatMap Command.keys) :
    (session Vi.keyMap E p kcs (({} : Vi), initial p' h fs b) = .panic .op → E.ttyWidth = some 0) ∧
    ∀ t', session Vi.keyMap E p kcs (({} : Vi), initial p' h fs b) = .ok () t' → ∃ b0 b',
      Board.Begun b.data ks b0 ∧ Board.Steps E.cc cs b0 b' ∧
      text? t'.2 = some b'.text ∧ t'.2.cursor = b'.cur ∧ t'.1.mode = .normal ∧ t'.1.count = b'.count :=
  C72_line_partial E hC p p' h fs b hb ks (Vi.pen_can _ _ hw) cs (fun b0 ⟨pen, h1, h2⟩ => Vi.canAll_always E.cc cs b0 hc h2.full
    (Vi.ends_always h2 (Vi.pens_always h1 ⟨show 'i' ∈ ['i', 'a', 'I', 'A'] by decide, fun k hk => (by cases hk)⟩))) kcs hks

end

/-- C72: without undo the board says exactly what the line, the cursor and the count are. -/
theorem C72_unique (C : CharClass) (cs : List Command) (hu : .undo ∉ cs) (b b1 b2 : Board) (h1 : Board.Steps C cs b b1)
    (h2 : Board.Steps C cs b b2) :
    b2.text = b1.text ∧ b2.cur = b1.cur ∧ b2.count = b1.count ∧ b2.last = b1.last ∧ b2.done = b1.done :=
  Vi.steps_same h1 ⟨rfl, rfl, rfl, rfl, rfl⟩ hu h2

/-- C72: what the first insertion leaves is certain, too. -/
theorem C72_begun_unique (d : Text) (ks : List Key) (b1 b2 : Board) (h1 : Board.Begun d ks b1) (h2 : Board.Begun d ks b2) :
    b2.text = b1.text ∧ b2.cur = b1.cur ∧ b2.count = b1.count ∧ b2.last = b1.last ∧ b2.done = b1.done := by
  obtain ⟨p1, g1, g2⟩ := h1
  obtain ⟨p2, q1, q2⟩ := h2
  exact Vi.ends_same (Vi.pens_same g1 ⟨rfl, rfl, rfl, rfl, rfl, rfl, rfl⟩ q1) rfl g2 q2

/-- C72: an insertion without movements is the change that `.` repeats. -/
theorem C72_write (C : CharClass) (b b' : Board) (op : Opening) (ds : List Char) (ts : List Key) (ch : Change)
    (hm : op.making ts = some ch) (ht : ∀ k ∈ ts, Types k) :
    b.Step C (.write op ds ts) b' ↔ b.Step C (.make ch ds) b' := Vi.write_make hm ht

example : (Opening.insert 'a').making [.char 'x', .backspace] = some (.insert 'a' [.char 'x', .backspace]) ∧
    ∀ k ∈ [Key.char 'x', .backspace], Types k := ⟨rfl, by simp [Types]⟩

/-! ### Cases -/

/-- Commands of every kind. -/
def someCommands : List Command :=
  [.digit '3', .make (.cut (.char 'x')) [], .digit '2', .move .left [.char 'h'], .make (.delete (.word false) [.char 'w']) ['2'],
    .undo, .again, .make (.change (.back false) [.char 'b'] [.char 'q']) [], .digit '0', .cancel]

example : ∀ c ∈ someCommands, c.Always := by
  simp [someCommands, Command.Always, Change.Always, Change.Can, Motion.keys, Motion.inclusive, digitChars, Digits, Types]

example : someCommands.flatMap Command.keys = chars "3x2hd2wu.cbq" ++ [.esc] ++ chars "0" ++ [.esc] := by decide

example : viLeaves "ab cd ef gh" (someCommands.flatMap Command.keys) .normal "ab cd q " 0 = true := by decide +kernel

/-- The other kinds. -/
def moreCommands : List Command :=
  [.edge false, .digit '2', .write (.insert 'a') [] [.char 'x', .left, .char 'y'], .inert (.alt 'q'), .again, .giveUp 'd' ['3'],
    .giveUp 'f' [], .write (.change (.word false) [.char 'w']) ['2'] [.char 'z', .home, .end, .backspace], .undo, .edge true,
    .clear ['2'], .undo]

example : ∀ c ∈ moreCommands, c.Always := by
  simp [moreCommands, Command.Always, Opening.Always, Motion.keys, Motion.inclusive, digitChars, Digits, Types, WritingKey, Moves, Inert]

example : viLeaves "ab cd ef gh" (moreCommands.flatMap Command.keys) .normal "azef gh" 6 = true := by decide +kernel

/-- The key Right, where no suggestion can be taken. -/
def rightCommands : List Command :=
  [.edge false, .move .right [.right], .write (.insert 'i') [] [.char 'x', .right, .char 'y']]

example : Board.CanAll Tests.env.cc rightCommands ⟨"abcd".toList, 3, 0, none, none, [], true⟩ := by
  refine ⟨trivial, ?_⟩
  rintro _ rfl
  refine ⟨.inr ⟨rfl, rfl, by decide⟩, ?_⟩
  rintro _ ⟨q, hq, rfl⟩
  obtain rfl : q = 1 := hq
  refine ⟨⟨⟨by simp, by simp⟩, (by decide : 'i' ∈ ['i', 'a', 'I', 'A']), fun p hp => ?_⟩, fun _ _ => trivial⟩
  obtain rfl : p = (['a'], ['b', 'c', 'd']) := by simpa [Opens, Board.left, Board.right] using hp
  refine ⟨.inl ⟨.inl (by simp [Types]), by simp⟩, fun p' h' => ?_⟩
  cases h' with
  | type _ _ =>
    refine ⟨.inl ⟨.inr (.inl (by simp [Moves])), (fun _ h => by exact absurd (show ['b', 'c', 'd'] = [] from h) (by simp))⟩, fun p' h' => ?_⟩
    exact ⟨.inl ⟨.inl (by simp [Types]), by simp⟩, fun _ _ => trivial⟩
  | restart _ hm _ => cases hm
  | move h => simp [Moves] at h
  | inert h => simp [Inert] at h

example : viLeaves "abcd" (rightCommands.flatMap Command.keys) .normal "axbycd" 3 = true := by decide +kernel

/-- Enter after a backslash, in an insertion and between the commands. -/
def enterCommands : List Command :=
  [.enter, .make (.cut (.char 'x')) [], .write (.insert 'i') [] [.char '\\', .char '\n', .char 'y'], .again]

example : Board.CanAll Tests.env.cc enterCommands ⟨['a', '\\', 'b', 'c'], 2, 0, none, none, [], true⟩ := by
  refine ⟨rfl, ?_⟩
  rintro ⟨_, _, _, _, _, _, _⟩ ⟨rfl, rfl, rfl, rfl, rfl, -⟩
  refine ⟨⟨⟨by simp, by simp⟩, by simp [Change.Can]⟩, ?_⟩
  intro b1 h1
  refine ⟨⟨⟨by simp, by simp⟩, (by decide : 'i' ∈ ['i', 'a', 'I', 'A']), fun p hp => ?_⟩, fun b2 h2 => ?_⟩
  · refine ⟨.inl ⟨.inl (by simp [Types]), by simp⟩, fun p' h' => ?_⟩
    cases h' with
    | type _ _ => exact ⟨.inr ⟨rfl, by simp [Board.pen, typeKey]⟩, fun p' h' => ⟨.inl ⟨.inl (by simp [Types]), by simp⟩, fun _ _ => trivial⟩⟩
    | restart _ hm _ => cases hm
    | move h => simp [Moves] at h
    | inert h => simp [Inert] at h
  · obtain ⟨p, pen, -, g1, g2⟩ := h2
    obtain ⟨ch, n, h3, h4⟩ := Vi.ends_always g2 (Vi.pens_always g1 ⟨show 'i' ∈ ['i', 'a', 'I', 'A'] by decide, fun k hk => (by cases hk)⟩)
    exact ⟨⟨ch, n, h3, Vi.always_can h4 _ _⟩, fun _ _ => trivial⟩

example : viLeaves "a\\bc" (chars "02l" ++ enterCommands.flatMap Command.keys) .normal "a\\\n\\\n\\yyc" 6 = true := by decide +kernel

/-- C72: the line break that Enter writes in an insertion is not part of what `.` and a count repeat. -/
theorem C72_enter_violation : viLeaves "cd" (chars "02ia\\" ++ [.char '\n', .char 'b', .esc]) .normal "a\\\nba\\bcd" 6 = true := by
  decide +kernel

/-- C72: what is typed after a movement is repeated as often as the `s` before it was to be done. -/
theorem C72_moved_violation : viLeaves "abcdef" (chars "03sx" ++ [.left] ++ chars "y" ++ [.esc] ++ chars ".") .normal "yyyyxdef" 2 = true := by
  decide +kernel

/-- C72: `~` leaves its count behind, so that after `~.` the count 1 of the repetition stands before the next. -/
theorem C72_tilde_violation : okAnd (vi [] ([.esc] ++ chars "0~.3l") "abcdefghijklmnopq")
    (fun _ x => x.1.mode == .normal && text? x.2 == some "ABcdefghijklmnopq".toList && x.2.cursor == 15) = true := by
  decide +kernel

end Liner.Props
