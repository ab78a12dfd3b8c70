import Verif.Proof.DeskRead
import Verif.Proof.DeskNext
import Verif.Props.Sheet
/-
C74: all Emacs keys, on the new line and on the entries of the history, follow a simple desk, up to what `read_line` gives
back.
-/

namespace Liner.Props
open Liner Liner.Spec Editor Wit Tests

section
variable (E : Env) (hw : E.words = getBufferWords) (pr pr' : Prompt) (H : History) (hs : H.share = false) (fs : FS) (t : Text)
include hw hs

/-- C74: keys that do not leave the desk do what they do to it.  Errors are those of the terminal and Ctrl-D on an empty
line; nothing panics but the redraw. -/
theorem C74_desk (keys : List (Key × (Text → List Text))) (hk : ∀ x ∈ keys, Desk.leaves x.1 = false) :
    (∀ t', session Emacs.keyMap E pr keys ({}, initial pr' H fs (.ofText t)) = .ok () t' →
      ∃ d, Desk.Run (texts H) (keys.map (·.1)) (.fresh t) d ∧ At t'.2 d.left d.right ∧
        t'.2.autosuggestion.map (·.data) = d.suggestion (texts H) ∧ t'.2.curHistoryLoc = d.shown ∧ t'.2.history = H) ∧
    (NeverEmpty (texts H) (keys.map (·.1)) (.fresh t) →
      (∀ e t', session Emacs.keyMap E pr keys ({}, initial pr' H fs (.ofText t)) = .err e t' → ¬ Works E) ∧
      (session Emacs.keyMap E pr keys ({}, initial pr' H fs (.ofText t)) = .panic .op → E.ttyWidth = some 0)) := by
  have key := session_desk E hw pr pr' H hs fs t keys hk
  refine ⟨fun t' h => ?_, fun hn => ⟨fun e t' h => wp_err key h hn, fun h => wp_panic' key h hn rfl⟩⟩
  obtain ⟨d, h1, h2⟩ := wp_ok key h
  exact ⟨d, h1, h2.1.here.here, h2.sug, h2.2.shown, h2.2.hist⟩

/-- C74: what `read_line` returns, for any input without Tab and searches. -/
theorem C74_read (input : List KeyMap.Input)
    (hk : ∀ key, some key ∈ input.map Sheet.pressed → Desk.leaves key = true → key = .char '\n' ∨ key = .ctrl 'c') :
    (∀ txt t', Emacs.keyMap.readLine E pr input ({}, initial pr' H fs (.ofText t)) = .ok txt t' →
      Desk.Reads (texts H) (input.map Sheet.pressed) (.fresh t) (.line txt)) ∧
    (∀ e t', Emacs.keyMap.readLine E pr input ({}, initial pr' H fs (.ofText t)) = .err e t' →
      Desk.Reads (texts H) (input.map Sheet.pressed) (.fresh t) (.stop e) ∨ (e = .io ∧ ¬ Works E)) ∧
    (Emacs.keyMap.readLine E pr input ({}, initial pr' H fs (.ofText t)) = .panic .op → E.ttyWidth = some 0) := by
  have key := read_desk E hw pr pr' H hs fs t input hk
  refine ⟨fun txt t' h => ?_, fun e t' h => ?_, fun h => wp_panic' key h rfl⟩
  · exact (wp_ok key h :)
  · exact (wp_err key h :)

/-- C74: whatever is done on the entries, the new line comes back as it was left. -/
theorem C74_aside (keys keys' : List (Key × (Text → List Text))) (hk : ∀ x ∈ keys, Desk.leaves x.1 = false)
    (hk' : ∀ x ∈ keys', Desk.leaves x.1 = false ∧ onward x.1 = false) (c c' : Text → List Text) (hh : texts H ≠ [])
    (t1 t2 : Emacs × Ed) (h1 : session Emacs.keyMap E pr keys ({}, initial pr' H fs (.ofText t)) = .ok () t1)
    (hn : t1.2.curHistoryLoc = none)
    (h2 : session Emacs.keyMap E pr (keys ++ (.alt '<', c) :: (keys' ++ [(.alt '>', c')])) ({}, initial pr' H fs (.ofText t)) =
      .ok () t2) : text? t2.2 = text? t1.2 ∧ t2.2.curHistoryLoc = none := by
  obtain ⟨d, g1, g2, -, g3, -⟩ := (C74_desk E hw pr pr' H hs fs t keys hk).1 t1 h1
  have hka : ∀ x ∈ keys ++ (Key.alt '<', c) :: (keys' ++ [(Key.alt '>', c')]), Desk.leaves x.1 = false := by
    intro x hx
    simp only [List.mem_append, List.mem_cons, List.not_mem_nil, or_false] at hx
    rcases hx with hx | rfl | hx | rfl
    · exact hk x hx
    · rfl
    · exact (hk' x hx).1
    · rfl
  obtain ⟨e, k1, k2, -, k3, -⟩ := (C74_desk E hw pr pr' H hs fs t _ hka).1 t2 h2
  have hf := sound_fresh (texts H) t
  rw [desk_run_iff hf] at g1 k1
  have e1 : e = Desk.step (texts H) (.alt '>') (Desk.steps (texts H) (keys'.map (·.1)) (d.step (texts H) (.alt '<'))) := by
    rw [k1, g1]
    simp [Desk.steps]
  have hd : d.shown = none := g3.symm.trans hn
  have hsd : d.Sound (texts H) := by rw [g1]; exact sound_steps hf
  have hsame : Desk.Same d := by
    rw [g1]
    exact same_steps (by simp [Desk.Same, Desk.fresh, Desk.text])
  have ho : d.step (texts H) (.alt '<') = d.turn (texts H) (some 0) := by
    simp [Desk.step, Desk.oldest, hh]
  obtain ⟨a1, a2⟩ := steps_aside (keys := keys'.map (·.1)) (sound_step (key := .alt '<') hsd)
    (fun x hx => by obtain ⟨y, hy, rfl⟩ := List.mem_map.mp hx; exact (hk' y hy).2) (by rw [ho]; simp [Desk.turn])
  generalize Desk.steps (texts H) (keys'.map (·.1)) (d.step (texts H) (.alt '<')) = m at e1 a1 a2
  have e2 : e = m.turn (texts H) none := by rw [e1]; simp [Desk.step, Desk.newest, a1]
  have e3 : m.new = d.new := by rw [a2, ho]; rfl
  refine ⟨?_, by rw [k3, e2]; rfl⟩
  rw [k2.1, g2.1, e2]
  have := hsame hd
  unfold Desk.text at this
  rw [this]
  simp [Desk.turn, e3]

end

/-- C74: the desk says exactly what is returned. -/
theorem C74_unique (entries : List Text) (input : List (Option Key)) (t : Text) :
    ∃! o, Desk.Reads entries input (.fresh t) o :=
  ⟨_, (desk_reads_iff (sound_fresh entries t)).mpr rfl, fun _ h => (desk_reads_iff (sound_fresh entries t)).mp h⟩

/-- C74: and what the desk is after keys. -/
theorem C74_run_unique (entries : List Text) (keys : List Key) (t : Text) : ∃! d, Desk.Run entries keys (.fresh t) d :=
  ⟨_, (desk_run_iff (sound_fresh entries t)).mpr rfl, fun _ h => (desk_run_iff (sound_fresh entries t)).mp h⟩

/-- C74: on a terminal that works and has a width, with entries that are of one line or of ASCII characters only and a width
function for which no text is wider when cut, `read_line` gives exactly what the desk says, unless the cursor comes to
stand more than 65535 rows below the prompt. -/
theorem C74_total (E : Env) (hw : E.words = getBufferWords) (pr pr' : Prompt) (H : History) (fs : FS) (t : Text)
    (input : List KeyMap.Input)
    (hk : ∀ key, some key ∈ input.map Sheet.pressed → Desk.leaves key = true → key = .char '\n' ∨ key = .ctrl 'c')
    (hE : Works E) (hs : H.share = false) (h0 : E.ttyWidth ≠ some 0) (hsw : ∀ a b, E.sw a ≤ E.sw (a ++ b))
    (hh : ∀ e ∈ texts H, Ascii e ∨ '\n' ∉ e)
    (hr : Emacs.keyMap.readLine E pr input ({}, initial pr' H fs (.ofText t)) ≠ .panic .rows) :
    (∀ txt, (∃ t', Emacs.keyMap.readLine E pr input ({}, initial pr' H fs (.ofText t)) = .ok txt t') ↔
      Desk.Reads (texts H) (input.map Sheet.pressed) (.fresh t) (.line txt)) ∧
    (∀ e, (∃ t', Emacs.keyMap.readLine E pr input ({}, initial pr' H fs (.ofText t)) = .err e t') ↔
      Desk.Reads (texts H) (input.map Sheet.pressed) (.fresh t) (.stop e)) := by
  have h1 := C74_read E hw pr pr' H hs fs t input hk
  obtain ⟨o, ho, hu⟩ := C74_unique (texts H) (input.map Sheet.pressed) t
  cases hm : Emacs.keyMap.readLine E pr input ({}, initial pr' H fs (.ofText t)) with
  | ok txt t' =>
    have h2 := hu _ (h1.1 _ _ hm)
    refine ⟨fun x => ⟨?_, fun h => ?_⟩, fun e => ⟨?_, fun h => ?_⟩⟩
    · rintro ⟨_, ⟨⟩⟩; exact h1.1 _ _ hm
    · have := hu _ h
      rw [← h2] at this
      cases this; exact ⟨_, rfl⟩
    · rintro ⟨_, ⟨⟩⟩
    · have := hu _ h
      rw [← h2] at this
      cases this
  | err e t' =>
    rcases h1.2.1 _ _ hm with h3 | ⟨-, h3⟩
    · have h2 := hu _ h3
      refine ⟨fun x => ⟨?_, fun h => ?_⟩, fun e => ⟨?_, fun h => ?_⟩⟩
      · rintro ⟨_, ⟨⟩⟩
      · have := hu _ h
        rw [← h2] at this
        cases this
      · rintro ⟨_, ⟨⟩⟩; exact h3
      · have := hu _ h
        rw [← h2] at this
        cases this; exact ⟨_, rfl⟩
    · exact absurd hE h3
  | panic site =>
    have hks : ∀ k c, KeyMap.Input.key k c ∈ input → k ≠ .ctrl 'r' ∧ k ≠ .ctrl 's' := by
      intro k c hkc
      have := hk k (List.mem_map.mpr ⟨_, hkc, rfl⟩)
      constructor <;> rintro rfl <;> rcases this rfl with h | h <;> cases h
    have := C61_emacs_draws_partial E pr pr' H fs t (.ofText t) (.init t) hs h0
      (by rw [hw]; exact C61_default_words) hsw hh input hks site hm
    rw [hm, this] at hr
    exact absurd rfl hr

/-! ### Cases -/

/-- Typed text, a walk through the entries met, a change of an entry, undo of it, and back. -/
def deskKeys : List Key :=
  chars "ab" ++ [.up, .ctrl 'p', .char '!', .left, .alt '.', .ctrl 'x', .down, .ctrl 'k', .up, .char 'z', .down, .down,
    .char 'c', .alt '<', .ctrl 'd', .end] ++ chars " \\" ++ [.char '\n', .alt '.', .left, .char '\n']

example : ∀ k ∈ deskKeys, Desk.leaves k = true → k = .char '\n' ∨ k = .ctrl 'c' := by decide

example : okAnd (readsAs ["ab one", "ls", "x ab", "ab two"] "" (deskKeys.map some)) (fun txt _ =>
    txt == "ab one \\\none".toList) = true := by decide +kernel

example : Desk.said ["ab one".toList, "ls".toList, "x ab".toList, "ab two".toList] (deskKeys.map some) (.fresh []) =
    .line "ab one \\\none".toList := by decide +kernel

/-- The conditions of `C74_total` are met in this case. -/
example : Works env ∧ env.words = getBufferWords ∧ env.ttyWidth ≠ some 0 ∧ (∀ a b, env.sw a ≤ env.sw (a ++ b)) ∧
    (hist ["ab one", "ls", "x ab", "ab two"]).share = false ∧
    (∀ e ∈ texts (hist ["ab one", "ls", "x ab", "ab two"]), Ascii e ∨ '\n' ∉ e) := by
  refine ⟨⟨fun _ => rfl, fun _ => by simp [env]⟩, rfl, by decide, fun a b => ?_, rfl, ?_⟩
  · show a.length ≤ (a ++ b).length
    simp
  · intro e he
    have h : e = "ab one".toList ∨ e = "ls".toList ∨ e = "x ab".toList ∨ e = "ab two".toList := by
      simpa [texts, hist, Buffer.ofText] using he
    rcases h with rfl | rfl | rfl | rfl <;> exact .inr (by decide)

/-- The new line comes back after work on the entries. -/
example : okAnd (emacs ["ab one", "ls"] (chars "cd" ++ [.left, .alt '<', .char '!', .up, .ctrl 'w', .alt '>'])) (fun _ t =>
    text? t.2 == some ['c', 'd'] && t.2.cursor == 2 && t.2.curHistoryLoc == none) = true := by decide +kernel

/-- Undo on an entry that was not changed empties the line; once more, it brings back what became of another entry. -/
example : okAnd (emacs ["ls one"] [.up, .ctrl 'x']) (fun _ t => text? t.2 == some []) = true ∧
    okAnd (emacs ["ls one", "cd"] [.up, .char '!', .up]) (fun _ t => text? t.2 == some "ls one".toList) = true ∧
    okAnd (emacs ["ls one", "cd"] [.up, .char '!', .up, .ctrl 'x', .ctrl 'x']) (fun _ t =>
      text? t.2 == some ['c', 'd', '!'] && t.2.curHistoryLoc == some 0) = true := by decide +kernel

/-- Delete with nothing to delete makes the copy, which ends the suggestion. -/
example : okAnd (emacs ["ls one"] [.up]) (fun _ t => t.2.autosuggestion.map (·.data) == some "ls one".toList) = true ∧
    okAnd (emacs ["ls one"] [.up, .delete]) (fun _ t =>
      text? t.2 == some "ls one".toList && t.2.autosuggestion.isNone && t.2.histBufValid) = true := by decide +kernel

/-- Alt-`>` does not give up the walk: Up goes on from where it was. -/
example : okAnd (emacs ["ab 1", "ab 2"] (chars "ab" ++ [.up])) (fun _ t => text? t.2 == some "ab 2".toList) = true ∧
    okAnd (emacs ["ab 1", "ab 2"] (chars "ab" ++ [.up, .alt '>', .up])) (fun _ t => text? t.2 == some "ab 1".toList) = true := by
  decide +kernel

/-- With something typed, Down does nothing on an entry reached by Alt-`<`. -/
example : okAnd (emacs ["ab 1", "cd", "ef"] [.char 'x', .alt '<', .down, .down]) (fun _ t =>
    text? t.2 == some "ab 1".toList) = true := by decide +kernel

end Liner.Props
