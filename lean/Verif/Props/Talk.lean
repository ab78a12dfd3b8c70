import Verif.Proof.Talk
import Verif.Props.Converse
import Verif.Props.Enter
/-
What a conversation of several lines leaves on the screen: C69.
-/

namespace Liner.Props
open Liner Liner.Spec Liner.Editor Liner.Screen

/-- The keys `keys` lead from the opening of the editor to `t`, on a terminal and with texts as C66 asks for. -/
structure Typing [Glyphs] {κ : Type} (km : KeyMap κ) (k0 : κ) (P : Char → Prop) (w : Nat) (c : Context) (r : Call) (hs : List Text)
    (keys : List (Key × (Text → List Text))) (t : κ × Ed) : Prop where
  plainly : Plainly r.env P w
  begins : Begins r.env P w r.prompt hs c.history r.buffer
  calm : ∀ k ∈ keys, Calm r.env P w k
  still : ∀ k ∈ keys, k.1 ≠ .ctrl 'l'
  search : Searches keys → SearchFits r.env P r.prompt
  goes : ∃ t0, session km r.env r.prompt [] (k0, initial r.prompt c.history c.fs (.ofText r.buffer)) = .ok () t0 ∧ Goes km r.env keys t0 t

/-- A further key ends the read: it finishes the line (`none`), or fails with an error other than an I/O error.  `b` says
what this leaves on the screen.  The hypotheses are those of C67. -/
structure Ending [Glyphs] {κ : Type} (km : KeyMap κ) (w : Nat) (r : Call) (scr : Screen) (t : κ × Ed) (last : Key × (Text → List Text))
    (e : Option IoErr) (b : Piece) (line : Text) (t' : κ × Ed) : Prop where
  key : match e with
    | none => km.handleKey r.env last.2 last.1 t = .ok true t'
    | some e => km.handleKey r.env last.2 last.1 t = .err e t' ∧ e ≠ .io ∧ text? t.2 = some line ∧ (¬ t.2.reverseSearch ∧ ¬ t.2.forwardSearch) ∧
      t.2.showCompletionsHint = none ∧ (line.take t.2.cursor).getLast? ≠ some '\\'
  sight : InSight scr w t'.2.out
  prompt : PromptFits r.env w t'.2.prompt b.prompt
  text : text? t'.2 = some line
  row : SameRow w t'.2 b.prompt line
  lines : LinesOf line b.lines
  rows : ∃ before, LinesOf (line.take t'.2.cursor) before ∧ b.rows = endOf w (shown b.prompt before) / w + 1

/-- A read in the context `c`, at the screen `scr`: it ends with `line` or with the error `e`, leaves the context `c'`
and writes `o`, which leaves `b` on the screen. -/
def Turn [Glyphs] {κ : Type} (km : KeyMap κ) (k0 : κ) (P : Char → Prop) (w : Nat) (c : Context) (r : Call) (scr : Screen) (e : Option IoErr) (b : Piece)
    (line : Text) (c' : Context) (o : List Tok) : Prop :=
  ∃ keys last rest t t', r.input = Spec.typed keys ++ .key last.1 last.2 :: rest ∧ Typing km k0 P w c r b.heads keys t ∧
    Ending km w r scr t last e b line t' ∧ c' = { c with history := t'.2.history, fs := t'.2.fs, buffer := c.buffer ++ t'.2.ctxBuf } ∧ o = t'.2.out

/-- The same for a round, with the keys that are set.  In vi mode the changes of case and the keys that are recorded
must be in `P`. -/
def Takes [Glyphs] (P : Char → Prop) (w : Nat) (c : Context) (r : Round) (scr : Screen) (e : Option IoErr) (b : Piece)
    (line : Text) (c' : Context) (o : List Tok) : Prop :=
  match r.keys with
  | .emacs => Turn Emacs.keyMap {} P w { c with keyBindings := .emacs } r.call scr e b line c' o
  | .vi => Turn Vi.keyMap {} P w { c with keyBindings := .vi } r.call scr e b line c' o ∧
    (∀ c, P c → (∀ d ∈ r.call.env.cc.toUppercase c, P d) ∧ ∀ d ∈ r.call.env.cc.toLowercase c, P d) ∧ ∀ c ∈ ['h', 'i', 'j', 'k', 'l', 'r'], P c

/-- A conversation of such rounds; `ls` are the lines returned, and `bs` the pieces on the screen. -/
inductive Talk [Glyphs] (P : Char → Prop) (w : Nat) : List Round → Context → Screen → List Text → List Piece → Context → Screen → Prop
  | nil (c : Context) (scr : Screen) : Talk P w [] c scr [] [] c scr
  | line {r : Round} {rs : List Round} {c c1 c' : Context} {scr scr' : Screen} {b : Piece} {t : Text} {ls : List Text} {bs : List Piece} {o : List Tok} :
      Takes P w c r scr none b t c1 o → b.answer = r.answer t → (∀ a ∈ r.answer t, Plain a) →
      (scr.toks w o).Fits w (printed (r.answer t)) →
      Talk P w rs (c1.push t) (scr.toks w (o ++ printed (r.answer t))) ls bs c' scr' →
      Talk P w (r :: rs) c scr (t :: ls) (b :: bs) c' scr'
  | stop {r : Round} {rs : List Round} {c c1 c' : Context} {scr scr' : Screen} {b : Piece} {t : Text} {ls : List Text} {bs : List Piece} {o : List Tok} :
      Takes P w c r scr (some .interrupted) b t c1 o → b.answer = [] → Talk P w rs c1 (scr.toks w o) ls bs c' scr' →
      Talk P w (r :: rs) c scr ls (b :: bs) c' scr'
  | leave {r : Round} {rs : List Round} {c c1 : Context} {scr : Screen} {b : Piece} {t : Text} {o : List Tok} :
      Takes P w c r scr (some .unexpectedEof) b t c1 o → b.answer = [] → Talk P w (r :: rs) c scr [] [b] c1 (scr.toks w o)

section
variable {P : Char → Prop} {w : Nat}

theorem session_start {κ : Type} {km : KeyMap κ} {E : Env} {pr : Prompt} {k0 : κ} {s : Ed} {t0 : κ × Ed} (h : session km E pr [] (k0, s) = .ok () t0) :
    ∃ s1, start E pr s = .ok () s1 ∧ km.init E (k0, s1) = .ok () t0 := by
  unfold session press at h
  obtain ⟨_, t1, h1, h⟩ := bind_ok_iff.mp h
  obtain ⟨_, t2, h2, h⟩ := bind_ok_iff.mp h
  cases h
  unfold KM.ed M.zoom at h1
  dsimp only at h1
  split at h1
  · rename_i a s1 hs
    cases h1
    exact ⟨s1, hs, h2⟩
  · cases h1
  · cases h1

/-- What a call gives that ends in this way. -/
def gives (e : Option IoErr) (line : Text) (x : Context × List Tok) : Out (Context × List Tok) Text :=
  match e with
  | none => .ok line x
  | some e => .err e x

/-- What `readLine` gives. -/
theorem turn_read [Glyphs] {κ : Type} {km : KeyMap κ} {k0 : κ} {c c' : Context} {r : Call} {scr : Screen} {e : Option IoErr} {b : Piece} {line : Text}
    {o : List Tok} (h : Turn km k0 P w c r scr e b line c' o) :
    c.ended (km.readLine r.env r.prompt r.input (k0, initial r.prompt c.history c.fs (.ofText r.buffer))) =
      gives e line (c', o) := by
  obtain ⟨keys, last, rest, t, t', hin, hT, hE, rfl, rfl⟩ := h
  obtain ⟨t0, h0, hg⟩ := hT.goes
  have hk := hE.key
  cases e with
  | none =>
    dsimp only [gives] at hk ⊢
    obtain ⟨hl, -⟩ := only_enter hk
    have : km.readLine r.env r.prompt r.input (k0, initial r.prompt c.history c.fs (.ofText r.buffer)) = .ok line t' := by
      rw [C45_returns]
      refine ⟨t0, h0, hE.text, keys, Or.inr ⟨last.2, rest, t, ?_, hg, ?_⟩⟩
      · rw [hin, hl]
      · rw [← hl]; exact hk
    rw [this]
    rfl
  | some e =>
    dsimp only [gives] at hk ⊢
    have : km.readLine r.env r.prompt r.input (k0, initial r.prompt c.history c.fs (.ofText r.buffer)) = .err e t' := by
      unfold session press at h0
      obtain ⟨_, t1, h1, h0⟩ := bind_ok_iff.mp h0
      obtain ⟨_, t2, h2, h0⟩ := bind_ok_iff.mp h0
      cases h0
      unfold KeyMap.readLine KeyMap.handleKeys
      rw [bind_ok h1, bind_ok h2, hin, loop_goes km keys _ _ _ hg, KeyMap.loop]
      show M.bind _ _ _ = _
      unfold M.bind
      rw [hk.1]
    rw [this]
    rfl

theorem takes_read [Glyphs] {c c' : Context} {r : Round} {scr : Screen} {e : Option IoErr} {b : Piece} {line : Text}
    {o : List Tok} (h : Takes P w c r scr e b line c' o) :
    { c with keyBindings := r.keys }.readLine r.call = gives e line (c', o) := by
  unfold Takes at h
  unfold Context.readLine
  dsimp only
  cases hk : r.keys with
  | emacs =>
    rw [hk] at h
    exact turn_read h
  | vi =>
    rw [hk] at h
    exact turn_read h.1

/-- A conversation of such rounds is one of the model. -/
theorem talk_converse [Glyphs] {rs : List Round} {c c' : Context} {scr scr' : Screen} {ls : List Text} {bs : List Piece}
    (h : Talk P w rs c scr ls bs c' scr') : ∃ o, converse rs c = some (ls, c', o) ∧ scr' = scr.toks w o := by
  induction h with
  | nil c scr => exact ⟨[], rfl, rfl⟩
  | line h1 _ _ _ _ ih =>
    rename_i r rs c c1 c' scr scr' b t ls bs o _ _ _ _
    obtain ⟨o2, h2, h3⟩ := ih
    have h4 := takes_read h1
    dsimp only [gives] at h4
    refine ⟨o ++ printed (r.answer t) ++ o2, ?_, ?_⟩
    · unfold converse
      rw [h4]
      dsimp only
      rw [h2]
      rfl
    · rw [h3, toks_append _ o2]
  | stop h1 _ _ ih =>
    rename_i r rs c c1 c' scr scr' b t ls bs o _ _
    obtain ⟨o2, h2, h3⟩ := ih
    have h4 := takes_read h1
    dsimp only [gives] at h4
    refine ⟨o ++ o2, ?_, ?_⟩
    · unfold converse
      rw [h4]
      dsimp only
      rw [h2]
      rfl
    · rw [h3, toks_append]
  | leave h1 _ =>
    rename_i r rs c c1 scr b t o _
    have h4 := takes_read h1
    dsimp only [gives] at h4
    refine ⟨o, ?_, rfl⟩
    unfold converse
    rw [h4]

/-- What a round leaves on the screen. -/
theorem takes_screen [Glyphs] {c c' : Context} {r : Round} {scr : Screen} {e : Option IoErr} {b : Piece} {line : Text}
    {o : List Tok} (h : Takes P w c r scr e b line c' o) (hc : scr.col < w) (hcl : Clear scr w) :
    0 < w ∧ ∃ n, b.rows = n / w + 1 ∧ Finished (scr.toks w o) w (editorRow w b.heads scr) b.prompt b.lines n ∧ Topped w b.heads scr (scr.toks w o) := by
  unfold Takes at h
  cases hk : r.keys with
  | emacs =>
    rw [hk] at h
    obtain ⟨keys, last, rest, t, t', hin, hT, hE, rfl, rfl⟩ := h
    obtain ⟨t0, h0, hg⟩ := hT.goes
    obtain ⟨s1, hs1, hi⟩ := session_start h0
    cases hi
    obtain ⟨before, hb, hn⟩ := hE.rows
    refine ⟨hT.plainly.width.1, _, hn, ?_⟩
    have hkey := hE.key
    cases e with
    | none =>
      obtain ⟨-, R, -, h2, h3, h4⟩ := C67_enter_emacs_partial r.call.env P w hT.plainly r.call.prompt b.heads c.history c.fs r.call.buffer hT.begins scr hc
        (fun _ => hcl) s1 {} hs1 keys hT.calm hT.search t hg last.1 last.2 t' hkey hE.sight b.prompt line hE.prompt hE.text hE.row b.lines before hE.lines hb
      rw [h2 hT.still] at h3
      exact ⟨h3, h4⟩
    | some e =>
      obtain ⟨k1, k2, k3, k4, k5, k6⟩ := hkey
      obtain ⟨R, -, h2, h3, h4⟩ := C67_stop_emacs_partial r.call.env P w hT.plainly r.call.prompt b.heads c.history c.fs r.call.buffer hT.begins scr hc
        (fun _ => hcl) s1 {} hs1 keys hT.calm hT.search t hg last.1 last.2 e t' k1 k2 line k3 k4 k5 k6 hE.sight b.prompt hE.prompt hE.text hE.row b.lines
        before hE.lines hb
      rw [h2 hT.still] at h3
      exact ⟨h3, h4⟩
  | vi =>
    rw [hk] at h
    obtain ⟨⟨keys, last, rest, t, t', hin, hT, hE, rfl, rfl⟩, hcase, hown⟩ := h
    obtain ⟨t0, h0, hg⟩ := hT.goes
    obtain ⟨s1, hs1, hi⟩ := session_start h0
    obtain ⟨before, hb, hn⟩ := hE.rows
    refine ⟨hT.plainly.width.1, _, hn, ?_⟩
    have hkey := hE.key
    cases e with
    | none =>
      obtain ⟨-, R, -, h2, h3, h4⟩ := C67_enter_vi_partial r.call.env P w hT.plainly hcase hown r.call.prompt b.heads c.history c.fs r.call.buffer hT.begins
        scr hc (fun _ => hcl) s1 t0 hs1 hi keys hT.calm hT.search t hg last.1 last.2 t' hkey hE.sight b.prompt line hE.prompt hE.text hE.row b.lines before
        hE.lines hb
      rw [h2 hT.still] at h3
      exact ⟨h3, h4⟩
    | some e =>
      obtain ⟨k1, k2, k3, k4, k5, k6⟩ := hkey
      obtain ⟨R, -, h2, h3, h4⟩ := C67_stop_vi_partial r.call.env P w hT.plainly hcase hown r.call.prompt b.heads c.history c.fs r.call.buffer hT.begins
        scr hc (fun _ => hcl) s1 t0 hs1 hi keys hT.calm hT.search t hg last.1 last.2 e t' k1 k2 line k3 k4 k5 k6 hE.sight b.prompt hE.prompt hE.text hE.row
        b.lines before hE.lines hb
      rw [h2 hT.still] at h3
      exact ⟨h3, h4⟩

/-- One round further down. -/
theorem takes_dry [Glyphs] {c c' : Context} {r : Round} {scr : Screen} {e : Option IoErr} {b : Piece} {line : Text}
    {o : List Tok} (h : Takes P w c r scr e b line c' o) (hw : 0 < w) {R : Nat} {T : Text} (hm : T.length % w = 0) (hd : Dry w R T scr)
    (ha : ∀ a ∈ b.answer, Plain a) (hfit : (scr.toks w o).Fits w (printed b.answer)) :
    Dry w R (T ++ b.text w) (scr.toks w (o ++ printed b.answer)) ∧ (T ++ b.text w).length % w = 0 ∧ Above R scr (scr.toks w (o ++ printed b.answer)) ∧
      b.Whole w := by
  obtain ⟨-, e2, -, -, e5⟩ := dry_clear hm hd
  obtain ⟨-, n, hn, hf, ht⟩ := takes_screen h (by rw [e2]; exact hw) e5
  obtain ⟨h1, h2, h3⟩ := turn_dry hw hm hd ht hf
  rw [← hn] at h1 h3
  have hm1 : (T ++ (headRows w b.heads ++ fit (b.rows * w) (rowsOf w (shown b.prompt b.lines)))).length % w = 0 := by
    rw [List.length_append, List.length_append, fit_length, Nat.add_mod, hm, Nat.add_mod (headRows w b.heads).length, headRows_mod hw, Nat.mul_mod_left]
    simp
  have h4 := heads_dry hw (b.answer.map onScreen) (fun a h => by
    obtain ⟨a', h', rfl⟩ := List.mem_map.mp h
    exact onScreen_plain fun c hc => ⟨(ha a' h' c hc).1, (ha a' h' c hc).2.1⟩) hm1 h1
  rw [← headRows_eq] at h4
  rw [toks_append, fits_eq _ _ hfit, printed_write b.answer ha]
  have e : T ++ b.text w = T ++ (headRows w b.heads ++ fit (b.rows * w) (rowsOf w (shown b.prompt b.lines))) ++ headRows w b.answer := by
    simp [Piece.text]
  rw [e]
  refine ⟨h4.1, ?_, h2.trans h4.2, h3⟩
  rw [List.length_append, Nat.add_mod, hm1, headRows_mod hw]
  simp

theorem talk_dry [Glyphs] {rs : List Round} {c c' : Context} {scr scr' : Screen} {ls : List Text} {bs : List Piece}
    (h : Talk P w rs c scr ls bs c' scr') (hw : 0 < w) (R : Nat) (T : Text) (hm : T.length % w = 0) (hd : Dry w R T scr) :
    Dry w R (T ++ piecesText w bs) scr' ∧ (T ++ piecesText w bs).length % w = 0 ∧ Above R scr scr' ∧ ∀ b ∈ bs, b.Whole w := by
  induction h generalizing T with
  | nil c scr => exact ⟨by simpa [piecesText] using hd, by simpa [piecesText] using hm, .refl, fun _ h => nomatch h⟩
  | line h1 h2 h3 h3' _ ih =>
    rename_i r rs c c1 c' scr scr' b t ls bs o _
    have h5 := takes_dry h1 hw hm hd (by rw [h2]; exact h3) (by rw [h2]; exact h3')
    rw [h2] at h5
    have h6 := ih _ h5.2.1 h5.1
    have e : T ++ piecesText w (b :: bs) = T ++ b.text w ++ piecesText w bs := by simp [piecesText]
    rw [e]
    refine ⟨h6.1, h6.2.1, h5.2.2.1.trans h6.2.2.1, fun b' hb => ?_⟩
    rcases List.mem_cons.mp hb with rfl | hb
    · exact h5.2.2.2
    · exact h6.2.2.2 b' hb
  | stop h1 h2 _ ih =>
    rename_i r rs c c1 c' scr scr' b t ls bs o _
    have h5 := takes_dry h1 hw hm hd (by rw [h2]; exact fun _ h => nomatch h) (by rw [h2]; exact trivial)
    rw [h2, show printed [] = [] from rfl, List.append_nil] at h5
    have h6 := ih _ h5.2.1 h5.1
    have e : T ++ piecesText w (b :: bs) = T ++ b.text w ++ piecesText w bs := by simp [piecesText]
    rw [e]
    refine ⟨h6.1, h6.2.1, h5.2.2.1.trans h6.2.2.1, fun b' hb => ?_⟩
    rcases List.mem_cons.mp hb with rfl | hb
    · exact h5.2.2.2
    · exact h6.2.2.2 b' hb
  | leave h1 h2 =>
    rename_i r rs c c1 scr b t o
    have h5 := takes_dry h1 hw hm hd (by rw [h2]; exact fun _ h => nomatch h) (by rw [h2]; exact trivial)
    rw [h2, show printed [] = [] from rfl, List.append_nil] at h5
    have e : T ++ piecesText w [b] = T ++ b.text w := by simp [piecesText]
    rw [e]
    exact ⟨h5.1, h5.2.1, h5.2.2.1, fun b' hb => by rw [List.mem_singleton.mp hb]; exact h5.2.2.2⟩

end

/-- C69: what a conversation leaves on the screen.  It begins at the left of an empty part of the screen.  In the end the
screen shows, from there on and one below the other, what the rounds left: the lines above the prompt, the prompt and the
line as it was when it was finished, in the rows it takes, and the application's answer; nothing else.  The cursor is at the left of the row below, and
what was above is still there.  The output is that of `converse`. -/
theorem C69_screen_partial [Glyphs] (P : Char → Prop) (w : Nat) (hw : 0 < w) (rs : List Round) (c c' : Context) (scr scr' : Screen) (ls : List Text)
    (bs : List Piece) (h : Talk P w rs c scr ls bs c' scr') (hc : scr.col = 0) (hwr : scr.wrap = false) (hcl : Clear scr w) :
    (∃ o, converse rs c = some (ls, c', o) ∧ scr' = scr.toks w o) ∧
    scr'.Shows w scr.row (piecesText w bs) ∧ scr'.row = scr.row + (piecesText w bs).length / w ∧ scr'.col = 0 ∧ scr'.wrap = false ∧
      (∀ i j, i < scr.row → scr'.cell i j = scr.cell i j) ∧ ∀ b ∈ bs, b.Whole w := by
  have hf : firstRow scr = scr.row := by
    unfold firstRow
    rw [if_pos ⟨hc, hwr⟩]
    rfl
  have hd : Dry w scr.row [] scr := by
    refine ⟨fun i j hj => ?_, hwr, by simp, by rw [hc]; simp⟩
    rw [hcl _ j (by rw [hf]; omega) hj]
    rfl
  obtain ⟨⟨h1, h2, h3, h4⟩, h5, h6, h7⟩ := talk_dry h hw scr.row [] (by simp) hd
  rw [List.nil_append] at h1 h3 h4 h5
  rw [h5] at h4
  exact ⟨talk_converse h, h1, h3, h4, h2, h6, h7⟩

/-! ### A conversation that meets the hypotheses -/

open Liner.Tests Liner.Wit

attribute [local instance] ideographs

/-- A call with the prompt `$ ` on a terminal of ten columns. -/
def call (x : String) (keys : List Key) : Call :=
  { env := columns 10, prompt := dollar, buffer := x.toList, input := Spec.typed (keys.map plain) }

/-- What it leaves. -/
def piece (ls : List String) (rows : Nat) (answer : List String) : Piece :=
  { heads := [], prompt := ['$', ' '], lines := ls.map String.toList, rows := rows, answer := answer.map String.toList }

/-- The hypotheses about the last key, checked. -/
def endB {κ : Type} (scr : Screen) (b : Piece) (line : Text) (t' : κ × Ed) : Bool :=
  decide (scr.Fits 10 t'.2.out ∧ lowest scr 10 t'.2.out ≤ 100) && t'.2.prompt.toText == ['$', ' '] && text? t'.2 == some line &&
    (let a := endOf 10 (shown ['$', ' '] (Buffer.splitOn (· == '\n') line))
     let d := endOf 10 (shown ['$', ' '] (Buffer.splitOn (· == '\n') (drawn t'.2 line)))
     decide (d = a ∨ (d / 10 = a / 10 ∧ a % 10 ≠ 0))) &&
    (line[t'.2.cursor]?).all (fun c => decide (Glyphs.width c < 2) ||
      decide (endOf 10 (shown ['$', ' '] (Buffer.splitOn (· == '\n') (line.take t'.2.cursor))) % 10 + 1 ≠ 10)) &&
    b.rows == endOf 10 (shown ['$', ' '] (Buffer.splitOn (· == '\n') (line.take t'.2.cursor))) / 10 + 1

def turnB {κ : Type} (km : KeyMap κ) (k0 : κ) (c : Context) (x : String) (keys : List Key) (last : Key) (scr : Screen) (e : Option IoErr) (b : Piece)
    (line : Text) : Bool :=
  !c.history.share && c.history.buffers.all (fun b => b.data.all fun c => c != '\r' && c != escChar) &&
  okAnd (session km (columns 10) dollar [] (k0, initial dollar c.history c.fs (.ofText x.toList))) fun _ t0 =>
    match trace km (columns 10) (keys.map plain) t0 with
    | none => false
    | some t =>
      match e with
      | none => okAnd (km.handleKey (columns 10) (fun _ => []) last t) fun r t' => r && endB scr b line t'
      | some e => e != .io && text? t.2 == some line && !t.2.reverseSearch && !t.2.forwardSearch && t.2.showCompletionsHint == none &&
        (line.take t.2.cursor).getLast? != some '\\' &&
        errAnd (km.handleKey (columns 10) (fun _ => []) last t) fun e' t' => e' == e && endB scr b line t'

theorem endB_ending {κ : Type} {km : KeyMap κ} {x : String} {keys : List Key} {last : Key} {scr : Screen} {e : Option IoErr} {ls : List String} {rows : Nat}
    {ans : List String} {line : Text} {t t' : κ × Ed} (hl : LinesOf line (ls.map String.toList))
    (hk : match e with
      | none => km.handleKey (columns 10) (fun _ => []) last t = .ok true t'
      | some e => km.handleKey (columns 10) (fun _ => []) last t = .err e t' ∧ e ≠ .io ∧ text? t.2 = some line ∧ (¬ t.2.reverseSearch ∧ ¬ t.2.forwardSearch) ∧
        t.2.showCompletionsHint = none ∧ (line.take t.2.cursor).getLast? ≠ some '\\') (h : endB scr (piece ls rows ans) line t' = true) :
    Ending km 10 (call x keys) scr t (plain last) e (piece ls rows ans) line t' := by
  simp only [endB, Bool.and_eq_true, beq_iff_eq, decide_eq_true_eq] at h
  obtain ⟨⟨⟨⟨⟨h1, h2⟩, h3⟩, h4⟩, h4'⟩, h5⟩ := h
  exact ⟨hk, inSight_of h1, fits_plain (p := ['$', ' ']) h2 (by unfold Plain; decide) (by decide), h3, sameRow_of h4 h4', hl, _,
    split_linesOf _, h5⟩

/-- Where a call leaves the context, and what it writes. -/
def left (c : Context) : Out (Context × List Tok) Text → Context × List Tok
  | .ok _ x => x
  | .err _ x => x
  | .panic _ => (c, [])

theorem turnB_turn {κ : Type} {km : KeyMap κ} {k0 : κ} {c : Context} {x : String} {keys : List Key} {last : Key} {scr : Screen} {e : Option IoErr}
    {ls : List String} {rows : Nat} {ans : List String} {line : Text} (hl : LinesOf line (ls.map String.toList))
    (hx : ∀ c ∈ x.toList, Visible c) (hkeys : (keys.all (fun k => match k with | .char c => decide (Visible c) | _ => true)) = true)
    (hn : ∀ k ∈ keys, k ≠ .ctrl 'l' ∧ k ≠ .ctrl 'r' ∧ k ≠ .ctrl 's') (h : turnB km k0 c x keys last scr e (piece ls rows ans) line = true) :
    ∃ c' o, Turn km k0 Visible 10 c (call x (keys ++ [last])) scr e (piece ls rows ans) line c' o := by
  simp only [turnB, Bool.and_eq_true, Bool.not_eq_true'] at h
  obtain ⟨⟨h1, h2⟩, h3⟩ := h
  obtain ⟨_, t0, h3, h4⟩ := of_okAnd h3
  split at h4
  · cases h4
  rename_i t ht
  have hB : Begins (columns 10) Visible 10 dollar [] c.history x.toList := by
    have := begins_dollar (w := 10) (P := Visible) (by decide) [] x.toList (fun _ h => nomatch h) hx
    refine ⟨this.prompt, this.heads, h1, fun b hb d hd => ?_, this.line⟩
    have := List.all_eq_true.mp (List.all_eq_true.mp h2 b hb) d hd
    simpa [Visible] using this
  have hT : Typing km k0 Visible 10 c (call x (keys ++ [last])) [] (keys.map plain) t := by
    refine ⟨plainly_columns (by decide) (fun _ h => h), hB, calm_all hkeys, fun k hk => ?_, fun hk => ?_, t0, h3, trace_goes ht⟩
    · obtain ⟨k, hk1, rfl⟩ := List.mem_map.mp hk
      exact (hn k hk1).1
    · obtain ⟨k, hk, hs⟩ := hk
      obtain ⟨k, hk1, rfl⟩ := List.mem_map.mp hk
      rcases hs with hs | hs
      · exact absurd hs (hn k hk1).2.1
      · exact absurd hs (hn k hk1).2.2
  have hin : (call x (keys ++ [last])).input = Spec.typed (keys.map plain) ++ .key (plain last).1 (plain last).2 :: [] := by
    simp [call, Spec.typed]
  cases e with
  | none =>
    obtain ⟨r, t', h5, h6⟩ := of_okAnd h4
    simp only [Bool.and_eq_true] at h6
    obtain ⟨rfl, h6⟩ := h6
    exact ⟨_, _, _, plain last, [], t, t', hin, hT, endB_ending hl h5 h6, rfl, rfl⟩
  | some e =>
    simp only [Bool.and_eq_true, Bool.not_eq_true', beq_iff_eq, bne_iff_ne] at h4
    obtain ⟨⟨⟨⟨⟨⟨a1, a2⟩, a3⟩, a4⟩, a5⟩, a6⟩, h4⟩ := h4
    obtain ⟨e', t', h5, h6⟩ := of_errAnd h4
    simp only [Bool.and_eq_true, beq_iff_eq] at h6
    obtain ⟨rfl, h6⟩ := h6
    exact ⟨_, _, _, plain last, [], t, t', hin, hT, endB_ending hl ⟨h5, a1, a2, by simp [a3, a4], a5, a6⟩ h6, rfl, rfl⟩

/-- A round with these keys. -/
def round (m : KeyBindings) (x : String) (keys : List Key) (ans : List String) : Round :=
  { keys := m, call := call x keys, answer := fun _ => ans.map String.toList }

/-- Where it leaves the context, and what it writes. -/
def after (r : Round) (c : Context) : Context × List Tok := left c ({ c with keyBindings := r.keys }.readLine r.call)

theorem takes_after {P : Char → Prop} {w : Nat} {c c' : Context} {r : Round} {scr : Screen} {e : Option IoErr} {b : Piece} {line : Text}
    {o : List Tok} (h : Takes P w c r scr e b line c' o) : Takes P w c r scr e b line (after r c).1 (after r c).2 := by
  have e1 : after r c = (c', o) := by
    unfold after
    rw [takes_read h]
    unfold gives
    split <;> rfl
  rw [e1]
  exact h

theorem takes_emacs {c : Context} {x : String} {keys : List Key} {last : Key} {scr : Screen} {e : Option IoErr}
    {ls : List String} {rows : Nat} {ans ans' : List String} {line : Text} (hl : LinesOf line (ls.map String.toList))
    (hx : ∀ c ∈ x.toList, Visible c) (hkeys : (keys.all (fun k => match k with | .char c => decide (Visible c) | _ => true)) = true)
    (hn : ∀ k ∈ keys, k ≠ .ctrl 'l' ∧ k ≠ .ctrl 'r' ∧ k ≠ .ctrl 's') (h : turnB Emacs.keyMap {} c x keys last scr e (piece ls rows ans) line = true) :
    Takes Visible 10 c (round .emacs x (keys ++ [last]) ans') scr e (piece ls rows ans) line (after (round .emacs x (keys ++ [last]) ans') c).1
      (after (round .emacs x (keys ++ [last]) ans') c).2 := by
  obtain ⟨c', o, ht⟩ := turnB_turn (c := { c with keyBindings := .emacs }) hl hx hkeys hn h
  exact takes_after (c' := c') (o := o) ht

theorem takes_vi {c : Context} {x : String} {keys : List Key} {last : Key} {scr : Screen} {e : Option IoErr}
    {ls : List String} {rows : Nat} {ans ans' : List String} {line : Text} (hl : LinesOf line (ls.map String.toList))
    (hx : ∀ c ∈ x.toList, Visible c) (hkeys : (keys.all (fun k => match k with | .char c => decide (Visible c) | _ => true)) = true)
    (hn : ∀ k ∈ keys, k ≠ .ctrl 'l' ∧ k ≠ .ctrl 'r' ∧ k ≠ .ctrl 's') (h : turnB Vi.keyMap {} c x keys last scr e (piece ls rows ans) line = true) :
    Takes Visible 10 c (round .vi x (keys ++ [last]) ans') scr e (piece ls rows ans) line (after (round .vi x (keys ++ [last]) ans') c).1
      (after (round .vi x (keys ++ [last]) ans') c).2 := by
  obtain ⟨c', o, ht⟩ := turnB_turn (c := { c with keyBindings := .vi }) hl hx hkeys hn h
  exact takes_after (c' := c') (o := o) ⟨ht, visible_case, by decide⟩

/-- A line, an answer; a line in vi mode that is given up; the first line once more, with more typed, so that it takes two
rows; and the end. -/
def rounds : List Round :=
  [round .emacs "" (chars "ls" ++ [.char '\n']) ["a b"], round .vi "" (chars "cd" ++ [.esc, .char 'x'] ++ [.ctrl 'c']) [],
    round .emacs "" ([.up] ++ chars " /usr/bin" ++ [.char '\n']) ["c漢", ""], round .emacs "" ([] ++ [.ctrl 'd']) []]

def pieces : List Piece := [piece ["ls"] 1 ["a b"], piece ["c"] 1 [], piece ["ls /usr/bin"] 2 ["c漢", ""], piece [""] 1 []]

/-- The contexts and screens between the rounds. -/
def ctx1 : Context := { history := hist [], fs := noFiles }
def scr1 : Screen := {}
def run1 : Context × List Tok := after (round .emacs "" (chars "ls" ++ [.char '\n']) ["a b"]) ctx1
def ctx2 : Context := run1.1.push "ls".toList
def scr2 : Screen := scr1.toks 10 (run1.2 ++ printed ["a b".toList])
def run2 : Context × List Tok := after (round .vi "" (chars "cd" ++ [.esc, .char 'x'] ++ [.ctrl 'c']) []) ctx2
def scr3 : Screen := scr2.toks 10 run2.2
def run3 : Context × List Tok := after (round .emacs "" ([.up] ++ chars " /usr/bin" ++ [.char '\n']) ["c漢", ""]) run2.1
def ctx4 : Context := run3.1.push "ls /usr/bin".toList
def scr4 : Screen := scr3.toks 10 (run3.2 ++ printed ["c漢".toList, "".toList])
def run4 : Context × List Tok := after (round .emacs "" ([] ++ [.ctrl 'd']) []) ctx4

theorem round1 : turnB Emacs.keyMap {} ctx1 "" (chars "ls") (.char '\n') scr1 none (piece ["ls"] 1 ["a b"]) "ls".toList = true := by decide +kernel
theorem round2 : turnB Vi.keyMap {} ctx2 "" (chars "cd" ++ [.esc, .char 'x']) (.ctrl 'c') scr2 (some .interrupted) (piece ["c"] 1 []) "c".toList = true := by
  decide +kernel
theorem round3 : turnB Emacs.keyMap {} run2.1 "" ([.up] ++ chars " /usr/bin") (.char '\n') scr3 none (piece ["ls /usr/bin"] 2 ["c漢", ""])
    "ls /usr/bin".toList = true := by
  decide +kernel
theorem round4 : turnB Emacs.keyMap {} ctx4 "" [] (.ctrl 'd') scr4 (some .unexpectedEof) (piece [""] 1 []) [] = true := by decide +kernel

/-- The hypotheses of `C69_screen_partial` are met by it. -/
example : Talk Visible 10 rounds ctx1 scr1 ["ls".toList, "ls /usr/bin".toList] pieces run4.1 (scr4.toks 10 run4.2) ∧
    scr1.col = 0 ∧ scr1.wrap = false ∧ Clear scr1 10 := by
  refine ⟨.line (takes_emacs (by unfold LinesOf; decide) (fun _ h => nomatch h) (by decide) (by decide) round1) rfl (by unfold Plain; decide) (by decide +kernel) ?_, rfl, rfl,
    fun _ _ _ _ => rfl⟩
  refine .stop (takes_vi (by unfold LinesOf; decide) (fun _ h => nomatch h) (by decide) (by decide) round2) rfl ?_
  refine .line (takes_emacs (by unfold LinesOf; decide) (fun _ h => nomatch h) (by decide) (by decide) round3) rfl (by unfold Plain; decide) (by decide +kernel) ?_
  exact .leave (takes_emacs (by unfold LinesOf; decide) (fun _ h => nomatch h) (by decide) (by decide) round4) rfl

/-- And this is what it leaves. -/
example : rowsOn 10 9 (scr4.toks 10 run4.2) = ["$ ls      ".toList, "a b       ".toList, "$ c       ".toList, "$ ls /usr/".toList, "bin       ".toList,
    ['c', '漢', half, ' ', ' ', ' ', ' ', ' ', ' ', ' '], "          ".toList, "$         ".toList, "          ".toList] := by decide +kernel

end Liner.Props
