import Verif.Proof.SheetNext
import Verif.Props.NoPanic
/-
C73: all Emacs keys on a new line follow a simple sheet, up to what `read_line` gives back.
-/

namespace Liner.Props
open Liner Liner.Spec Editor Wit Tests

section
variable (E : Env) (hw : E.words = getBufferWords) (pr pr' : Prompt) (H : History) (fs : FS) (t : Text)
include hw

/-- C73: keys that do not leave the line do what they do to the sheet.  Errors are those of the terminal and Ctrl-D on an
empty line; nothing panics but the redraw. -/
theorem C73_sheet (keys : List (Key × (Text → List Text))) (hk : ∀ x ∈ keys, Sheet.leaves x.1 = false) :
    (∀ t', session Emacs.keyMap E pr keys ({}, initial pr' H fs (.ofText t)) = .ok () t' →
      ∃ q, Sheet.Run (texts H) (keys.map (·.1)) ⟨t, [], [], none⟩ q ∧ At t'.2 q.left q.right ∧
        t'.2.autosuggestion.map (·.data) = hint (texts H) q.text ∧ t'.2.history = H) ∧
    (NeverEof (texts H) (keys.map (·.1)) ⟨t, [], [], none⟩ →
      (∀ e t', session Emacs.keyMap E pr keys ({}, initial pr' H fs (.ofText t)) = .err e t' → ¬ Works E) ∧
      (session Emacs.keyMap E pr keys ({}, initial pr' H fs (.ofText t)) = .panic .op → E.ttyWidth = some 0)) := by
  have key := session_sheet E hw pr pr' H fs t keys hk
  refine ⟨fun t' h => ?_, fun hn => ⟨fun e t' h => wp_err key h hn, fun h => wp_panic' key h hn rfl⟩⟩
  obtain ⟨q, h1, h2⟩ := wp_ok key h
  exact ⟨q, h1, h2.1.here.here, hint_of (h2.1.new h2.2).suggests, h2.1.hist⟩

/-- C73: what `read_line` returns, for any input without Tab, searches and other lines. -/
theorem C73_read (input : List KeyMap.Input)
    (hk : ∀ key, some key ∈ input.map Sheet.pressed → Sheet.leaves key = true → key = .char '\n' ∨ key = .ctrl 'c') :
    (∀ txt t', Emacs.keyMap.readLine E pr input ({}, initial pr' H fs (.ofText t)) = .ok txt t' →
      Sheet.Reads (texts H) (input.map Sheet.pressed) ⟨t, [], [], none⟩ (.line txt)) ∧
    (∀ e t', Emacs.keyMap.readLine E pr input ({}, initial pr' H fs (.ofText t)) = .err e t' →
      Sheet.Reads (texts H) (input.map Sheet.pressed) ⟨t, [], [], none⟩ (.stop e) ∨ (e = .io ∧ ¬ Works E)) ∧
    (Emacs.keyMap.readLine E pr input ({}, initial pr' H fs (.ofText t)) = .panic .op → E.ttyWidth = some 0) := by
  have key := read_sheet E hw pr pr' H fs t input hk
  refine ⟨fun txt t' h => ?_, fun e t' h => ?_, fun h => wp_panic' key h rfl⟩
  · exact (wp_ok key h :)
  · exact (wp_err key h :)

/-- C73: Alt-R brings back the text that the line began with. -/
theorem C73_revert (keys : List (Key × (Text → List Text))) (hk : ∀ x ∈ keys, Sheet.leaves x.1 = false)
    (comp : Text → List Text) (t' : Emacs × Ed)
    (h : session Emacs.keyMap E pr (keys ++ [(.alt 'r', comp)]) ({}, initial pr' H fs (.ofText t)) = .ok () t') :
    text? t'.2 = some t := by
  have hk' : ∀ x ∈ keys ++ [(Key.alt 'r', comp)], Sheet.leaves x.1 = false := by
    intro x hx
    rcases List.mem_append.mp hx with hx | hx
    · exact hk x hx
    · rw [List.mem_singleton.mp hx]; rfl
  obtain ⟨q, h1, h2, -⟩ := (C73_sheet E hw pr pr' H fs t _ hk').1 t' h
  have hb : Sheet.Bound (texts H) ⟨t, [], [], none⟩ := by intro i hi; cases hi
  rw [run_iff hb] at h1
  have e1 := h1
  rw [List.map_append, List.map_cons, List.map_nil, Sheet.steps, List.foldl_append] at e1
  have e2 := steps_origin (entries := texts H) (keys.map (·.1)) (p := ⟨t, [], [], none⟩)
  unfold Sheet.steps at e2
  generalize (keys.map (·.1)).foldl (fun p key => Sheet.step (texts H) key p) (⟨t, [], [], none⟩ : Sheet) = p at e1 e2
  have e3 : q = p.first := e1
  have e4 : q.text = t := by
    rw [e3, first_text, e2]
    simp [Sheet.origin, Sheet.text]
  rw [h2.1, ← e4, Sheet.text]

end

/-- C73: the sheet says exactly what is returned. -/
theorem C73_unique (entries : List Text) (input : List (Option Key)) (t : Text) :
    ∃! o, Sheet.Reads entries input ⟨t, [], [], none⟩ o := by
  have hb : Sheet.Bound entries ⟨t, [], [], none⟩ := by intro i hi; cases hi
  exact ⟨_, (reads_iff hb).mpr rfl, fun o h => (reads_iff hb).mp h⟩

/-- C73: and what the text and the cursor are. -/
theorem C73_run_unique (entries : List Text) (keys : List Key) (t : Text) :
    ∃! q, Sheet.Run entries keys ⟨t, [], [], none⟩ q := by
  have hb : Sheet.Bound entries ⟨t, [], [], none⟩ := by intro i hi; cases hi
  exact ⟨_, (run_iff hb).mpr rfl, fun o h => (run_iff hb).mp h⟩

/-- C73: on a terminal that works and has a width, with entries that are of one line or of ASCII characters only and a width
function for which no text is wider when cut, `read_line` gives exactly what the sheet says, unless the cursor comes to
stand more than 65535 rows below the prompt. -/
theorem C73_total (E : Env) (hw : E.words = getBufferWords) (pr pr' : Prompt) (H : History) (fs : FS) (t : Text)
    (input : List KeyMap.Input)
    (hk : ∀ key, some key ∈ input.map Sheet.pressed → Sheet.leaves key = true → key = .char '\n' ∨ key = .ctrl 'c')
    (hE : Works E) (hs : H.share = false) (h0 : E.ttyWidth ≠ some 0) (hsw : ∀ a b, E.sw a ≤ E.sw (a ++ b))
    (hh : ∀ e ∈ texts H, Ascii e ∨ '\n' ∉ e)
    (hr : Emacs.keyMap.readLine E pr input ({}, initial pr' H fs (.ofText t)) ≠ .panic .rows) :
    (∀ txt, (∃ t', Emacs.keyMap.readLine E pr input ({}, initial pr' H fs (.ofText t)) = .ok txt t') ↔
      Sheet.Reads (texts H) (input.map Sheet.pressed) ⟨t, [], [], none⟩ (.line txt)) ∧
    (∀ e, (∃ t', Emacs.keyMap.readLine E pr input ({}, initial pr' H fs (.ofText t)) = .err e t') ↔
      Sheet.Reads (texts H) (input.map Sheet.pressed) ⟨t, [], [], none⟩ (.stop e)) := by
  have h1 := C73_read E hw pr pr' H fs t input hk
  obtain ⟨o, ho, hu⟩ := C73_unique (texts H) (input.map Sheet.pressed) t
  cases hm : Emacs.keyMap.readLine E pr input ({}, initial pr' H fs (.ofText t)) with
  | ok txt t' =>
    have h2 := hu _ (h1.1 _ _ hm)
    refine ⟨fun x => ⟨?_, fun h => ?_⟩, fun e => ⟨?_, fun h => ?_⟩⟩
    · rintro ⟨_, ⟨⟩⟩; exact h1.1 _ _ hm
    · have := hu _ h
      rw [← h2] at this
      cases this; exact ⟨_, rfl⟩
    · rintro ⟨_, ⟨⟩⟩
    · have := hu _ h
      rw [← h2] at this
      cases this
  | err e t' =>
    rcases h1.2.1 _ _ hm with h3 | ⟨-, h3⟩
    · have h2 := hu _ h3
      refine ⟨fun x => ⟨?_, fun h => ?_⟩, fun e => ⟨?_, fun h => ?_⟩⟩
      · rintro ⟨_, ⟨⟩⟩
      · have := hu _ h
        rw [← h2] at this
        cases this
      · rintro ⟨_, ⟨⟩⟩; exact h3
      · have := hu _ h
        rw [← h2] at this
        cases this; exact ⟨_, rfl⟩
    · exact absurd hE h3
  | panic site =>
    have hks : ∀ k c, KeyMap.Input.key k c ∈ input → k ≠ .ctrl 'r' ∧ k ≠ .ctrl 's' := by
      intro k c hkc
      have := hk k (List.mem_map.mpr ⟨_, hkc, rfl⟩)
      constructor <;> rintro rfl <;> rcases this rfl with h | h <;> cases h
    have := C61_emacs_draws_partial E pr pr' H fs t (.ofText t) (.init t) hs h0
      (by rw [hw]; exact C61_default_words) hsw hh input hks site hm
    rw [hm, this] at hr
    exact absurd rfl hr

/-! ### Cases -/

/-- `read_line` on such keys. -/
def readsAs (entries : List String) (line : String) (keys : List (Option Key)) : Out (Emacs × Ed) Text :=
  Emacs.keyMap.readLine env { prompt := ['>', ' '] } (keys.map fun k => match k with
    | some k => .key k (fun _ => [])
    | none => .ioErr) ({}, fresh entries line)

/-- Keys of every kind: words, undo, a suggestion, last arguments, a continued line. -/
def sheetKeys : List Key :=
  chars "ab cd ef" ++ [.alt 'b', .ctrl 'w', .char 'x', .alt 'f', .ctrl 'x', .alt '.', .alt '.', .home, .ctrl 'k', .ctrl 'x'] ++
    chars " \\" ++ [.char '\n', .char 'q', .left, .ctrl 'd', .alt 'b', .alt '.', .char 'l', .right, .end, .ctrl 'l', .char '\n']

example : ∀ k ∈ sheetKeys, Sheet.leaves k = true → k = .char '\n' ∨ k = .ctrl 'c' := by decide

example : okAnd (readsAs ["ls one", "cp two three"] "" (sheetKeys.map some)) (fun txt _ =>
    txt == "ab one \\threel\n".toList) = true := by decide +kernel

example : Sheet.said ["ls one".toList, "cp two three".toList] (sheetKeys.map some) ⟨[], [], [], none⟩ =
    .line "ab one \\threel\n".toList := by decide +kernel

example : okAnd (emacs ["ls one"] (chars "ab" ++ [.alt '.', .left, .ctrl 'k', .alt 'r']) "x") (fun _ t =>
    text? t.2 == some ['x'] && t.2.cursor == 1) = true := by decide +kernel

/-- The conditions of `C73_total` are met in these cases. -/
example : Works env ∧ env.words = getBufferWords ∧ env.ttyWidth ≠ some 0 ∧ (∀ a b, env.sw a ≤ env.sw (a ++ b)) ∧
    (hist ["ls one", "cp two three"]).share = false ∧ (∀ e ∈ texts (hist ["ls one", "cp two three"]), Ascii e ∨ '\n' ∉ e) := by
  refine ⟨⟨fun _ => rfl, fun _ => by simp [env]⟩, rfl, by decide, fun a b => ?_, rfl, ?_⟩
  · show a.length ≤ (a ++ b).length
    simp
  · intro e he
    have h : e = "ls one".toList ∨ e = "cp two three".toList := by simpa [texts, hist, Buffer.ofText] using he
    rcases h with rfl | rfl <;> exact .inr (by decide)

/-- Ctrl-C, Ctrl-D on an empty line, and an error of reading. -/
example : errAnd (readsAs [] "ab" [some (.ctrl 'd'), some (.ctrl 'c')]) (fun e _ => e == .interrupted) = true ∧
    errAnd (readsAs [] "ab" [some (.ctrl 'u'), some (.ctrl 'd')]) (fun e _ => e == .unexpectedEof) = true ∧
    errAnd (readsAs [] "ab" [some .left, none]) (fun e _ => e == .io) = true := by decide +kernel

/-- Undo after Ctrl-K at the end of the line, where there is nothing to delete, changes nothing; only the next undo does. -/
example : okAnd (emacs [] (chars "ab" ++ [.ctrl 'k', .ctrl 'x'])) (fun _ t => text? t.2 == some ['a', 'b']) = true ∧
    okAnd (emacs [] (chars "ab" ++ [.ctrl 'k', .ctrl 'x', .ctrl 'x'])) (fun _ t => text? t.2 == some ['a']) = true := by
  decide +kernel

/-- Alt-`.` after a suggestion was taken still counts as a repetition: it deletes the last argument of the line just taken. -/
example : okAnd (emacs ["x one", "ls two", "two three four"] [.alt '.', .ctrl 'u', .alt '.', .alt '.']) (fun _ t =>
    text? t.2 == some "two".toList && t.1.lastArgFetchIndex == some 1) = true ∧
    okAnd (emacs ["x one", "ls two", "two three four"] [.alt '.', .ctrl 'u', .alt '.', .alt '.', .right, .alt '.']) (fun _ t =>
    text? t.2 == some "two three one".toList && t.1.lastArgFetchIndex == some 0) = true := by decide +kernel

end Liner.Props
