import Verif.Proof.Keys
import Verif.Proof.Event
import Verif.Props.Witness
/-
C81: which keys a key map gets to see.
-/

namespace Liner.Props
open Liner M KM Editor Liner.Wit

variable {κ η : Type}

/-- The keys that `handle_key` never hands to a key map: it has another use for them. -/
def reserved : List Key := [.ctrl 'c', .char '\t', .char '\n', .ctrl 'r', .ctrl 's', .ctrl 'h']

/-- The other keys that it may keep, and when: Ctrl-D on an empty line; Ctrl-F, and Right at the end of the line, while
there is a suggestion.  (In vi's normal mode the end is the last character; Right on an empty line then is no key for the
key map either.) -/
def Withheld (s : Ed) (line : Text) (key : Key) : Prop :=
  (key = .ctrl 'd' ∧ line = []) ∨
  (key = .ctrl 'f' ∧ s.autosuggestion ≠ none) ∨
  (key = .right ∧ s.autosuggestion ≠ none ∧
    if s.noEol then line = [] ∨ s.cursor + 1 = line.length else s.cursor = line.length)

theorem dispatch_agree {km km' : KeyMap κ} (E : Env) {key : Key} (hk : key ∉ reserved → km.core E key = km'.core E key)
    (hh : key ≠ .ctrl 'h') (comp : Text → List Text) (e : Bool) : km.dispatch E comp e key = km'.dispatch E comp e key := by
  by_cases h : key ∈ reserved
  · simp only [reserved, List.mem_cons, List.not_mem_nil, or_false] at h
    rcases h with rfl | rfl | rfl | rfl | rfl | rfl
    all_goals first | exact absurd rfl hh | (unfold KeyMap.dispatch; simp)
  · unfold KeyMap.dispatch
    rw [hk h]

theorem translate_not (key : Key) : KeyMap.translate key ≠ .ctrl 'h' := by
  unfold KeyMap.translate
  split
  · simp
  · assumption

theorem handleKey_agree {km km' : KeyMap κ} (E : Env) (hk : ∀ key, key ∉ reserved → km.core E key = km'.core E key)
    (comp : Text → List Text) (key : Key) : km.handleKey E comp key = km'.handleKey E comp key := by
  unfold KeyMap.handleKey
  simp only [fun e => dispatch_agree E (hk _) (translate_not key) comp e]

/-- C81: two key maps that do the same with all keys but Ctrl-C, Tab, Enter, Ctrl-R, Ctrl-S and Ctrl-H cannot be told
apart by reading lines. -/
theorem C81_agree {km km' : KeyMap κ} (E : Env) (hi : km.init E = km'.init E)
    (hk : ∀ key, key ∉ reserved → km.core E key = km'.core E key) (p : Prompt) (input : List KeyMap.Input) :
    km.readLine E p input = km'.readLine E p input := by
  have hl : km.loop E input = km'.loop E input := by
    induction input with
    | nil => rfl
    | cons i is ih =>
      cases i with
      | ioErr => rfl
      | key k comp =>
        show (do
          let done ← km.handleKey E comp k
          if done then do
            let s ← ed get
            ofOption (Editor.intoText s)
          else km.loop E is : KM κ Text) = (do
          let done ← km'.handleKey E comp k
          if done then do
            let s ← ed get
            ofOption (Editor.intoText s)
          else km'.loop E is : KM κ Text)
        rw [ih, handleKey_agree E hk]
  unfold KeyMap.readLine KeyMap.handleKeys
  rw [hi, hl]

theorem dispatchH_agree (H : Handler η) {km km' : KeyMap κ} (E : Env) {key : Key}
    (hk : key ∉ reserved → km.core E key = km'.core E key)
    (hh : key ≠ .ctrl 'h') (e : Bool) : Handled.dispatch H E km e key = Handled.dispatch H E km' e key := by
  by_cases h : key ∈ reserved
  · simp only [reserved, List.mem_cons, List.not_mem_nil, or_false] at h
    rcases h with rfl | rfl | rfl | rfl | rfl | rfl
    all_goals first | exact absurd rfl hh | (unfold Handled.dispatch; simp)
  · unfold Handled.dispatch
    rw [hk h]

/-- C81: the same with a completer that is told about the keys and works on the editor. -/
theorem C81_events (H : Handler η) {km km' : KeyMap κ} (E : Env) (hi : km.init E = km'.init E)
    (hk : ∀ key, key ∉ reserved → km.core E key = km'.core E key) (p : Prompt) (input : List (Option Key)) :
    Handled.readLine H E km p input = Handled.readLine H E km' p input := by
  have hl : Handled.loop H E km input = Handled.loop H E km' input := by
    induction input with
    | nil => rfl
    | cons i is ih =>
      cases i with
      | none => rfl
      | some k =>
        have hh : Handled.handleKey H E km k = Handled.handleKey H E km' k := by
          unfold Handled.handleKey
          simp only [fun e => dispatchH_agree H E (hk _) (translate_not k) e]
        show (do
          let done ← Handled.handleKey H E km k
          if done then do
            let s ← ed get
            ofOption (Editor.intoText s)
          else Handled.loop H E km is : KH κ η Text) = (do
          let done ← Handled.handleKey H E km' k
          if done then do
            let s ← ed get
            ofOption (Editor.intoText s)
          else Handled.loop H E km' is : KH κ η Text)
        rw [ih, hh]
  unfold Handled.readLine
  rw [hi, hl]

/-- C81: every other key gets to the key map, unless it is withheld because of the line or the suggestion; then the list
of candidates is taken away and the terminal flushed, and the line is not finished. -/
theorem C81_gets (km : KeyMap κ) (E : Env) (comp : Text → List Text) {key : Key} {t : κ × Ed} {b : Buffer}
    (hb : t.2.curBuf? = some b) (hk : key ∉ reserved) (hw : ¬ Withheld t.2 b.data key) :
    km.handleKey E comp key t = (do
      km.core E key
      ed skipCompletionsHint
      ed (flush E)
      pure false : KM κ Bool) t := by
  simp only [reserved, List.mem_cons, List.not_mem_nil, or_false, not_or] at hk
  obtain ⟨h1, h2, h3, h4, h5, h6⟩ := hk
  have ht : KeyMap.translate key = key := by simp [KeyMap.translate, h6]
  have hc : (ed Editor.curBuf : KM κ Buffer) t = .ok b t := by
    simp [ed, M.zoom, Editor.curBuf, hb]
  unfold KeyMap.handleKey
  rw [bind_ok hc, ht]
  have key1 : km.dispatch E comp b.isEmpty key t = toCore km E key t := by
    unfold Withheld at hw
    simp only [not_or] at hw
    obtain ⟨w1, w2, w3⟩ := hw
    have e1 : ¬ (key = .ctrl 'd' ∧ b.isEmpty = true) := fun h => w1 ⟨h.1, by simpa [Buffer.isEmpty] using h.2⟩
    have e2 : ¬ (key = .ctrl 'f' ∧ t.2.autosuggestion.isSome = true) := fun h => w2 ⟨h.1, by
      rw [Option.isSome_iff_ne_none] at h; exact h.2⟩
    by_cases hr : key = .right ∧ t.2.autosuggestion.isSome = true
    · obtain ⟨rfl, hr⟩ := hr
      rw [dispatch_right km E comp t hr]
      have hf : (ed cursorIsAtEndOfLine : KM κ Bool) t = .ok false t := by
        have hne : t.2.autosuggestion ≠ none := by rwa [← Option.isSome_iff_ne_none]
        have w3 : ¬ _ := fun h => w3 ⟨rfl, hne, h⟩
        have : cursorIsAtEndOfLine t.2 = .ok false t.2 := by
          unfold cursorIsAtEndOfLine
          have hc' : Editor.curBuf t.2 = .ok b t.2 := by simp [Editor.curBuf, hb]
          rw [bind_ok hc', bind_ok (m := M.get) (s' := t.2) (a := t.2) rfl]
          by_cases hn : t.2.noEol = true
          · rw [if_pos hn] at w3
            simp only [not_or] at w3
            have h0 : b.numChars ≠ 0 := by simpa [Buffer.numChars] using w3.1
            rw [if_pos hn, if_neg h0]
            have : ¬ t.2.cursor = b.numChars - 1 := fun h => w3.2 (by
              rw [h]; have : b.data.length ≠ 0 := h0; unfold Buffer.numChars; omega)
            show Out.ok _ _ = _
            simp [this]
          · rw [if_neg hn] at w3
            rw [if_neg hn]
            show Out.ok _ _ = _
            simp [Buffer.numChars, w3]
        simp [ed, M.zoom, this]
      rw [bind_ok hf]
      rfl
    · exact dispatch_core km E comp t h1 e1 h2 h3 e2 h4 h5 hr
  have key2 : ∀ f : Bool → KM κ Bool, (km.dispatch E comp b.isEmpty key >>= f) t = (toCore km E key >>= f) t := by
    intro f
    show M.bind _ _ _ = M.bind _ _ _
    unfold M.bind
    rw [key1]
  rw [key2]
  unfold toCore
  simp only [bind_assoc', pure_bind']

/-- C81: and a key that is reserved or withheld does not, and neither does Ctrl-H, which stands for Backspace: what happens
is the same for all key maps. -/
theorem C81_kept (km km' : KeyMap κ) (E : Env) (comp : Text → List Text) {key : Key} {t : κ × Ed} {b : Buffer}
    (hb : t.2.curBuf? = some b) (hk : (key ∈ reserved ∧ key ≠ .ctrl 'h') ∨ Withheld t.2 b.data key) :
    km.handleKey E comp key t = km'.handleKey E comp key t := by
  have hc : (ed Editor.curBuf : KM κ Buffer) t = .ok b t := by
    simp [ed, M.zoom, Editor.curBuf, hb]
  have key2 : KeyMap.translate key = key → km.dispatch E comp b.isEmpty key t = km'.dispatch E comp b.isEmpty key t →
      km.handleKey E comp key t = km'.handleKey E comp key t := by
    intro ht h
    unfold KeyMap.handleKey
    rw [bind_ok hc, bind_ok hc, ht]
    show M.bind _ _ _ = M.bind _ _ _
    unfold M.bind
    rw [h]
  rcases hk with ⟨hk, hh⟩ | ⟨rfl, h⟩ | ⟨rfl, h⟩ | ⟨rfl, h, hr⟩
  · exact key2 (by simp [KeyMap.translate, hh]) (by rw [dispatch_agree E (fun h => absurd hk h) hh])
  · refine key2 (by decide) ?_
    have : b.isEmpty = true := by simp [Buffer.isEmpty, h]
    rw [this]
    unfold KeyMap.dispatch
    simp
  · refine key2 (by decide) ?_
    have h : t.2.autosuggestion.isSome = true := by rwa [Option.isSome_iff_ne_none]
    rw [dispatch_ctrlF km E comp t h, dispatch_ctrlF km' E comp t h]
  · refine key2 (by decide) ?_
    have h : t.2.autosuggestion.isSome = true := by rwa [Option.isSome_iff_ne_none]
    rw [dispatch_right km E comp t h, dispatch_right km' E comp t h]
    have hf : (ed cursorIsAtEndOfLine : KM κ Bool) t = .ok true t ∨ (ed cursorIsAtEndOfLine : KM κ Bool) t = .panic .op := by
      have : cursorIsAtEndOfLine t.2 = .ok true t.2 ∨ cursorIsAtEndOfLine t.2 = .panic .op := by
        unfold cursorIsAtEndOfLine
        have hc' : Editor.curBuf t.2 = .ok b t.2 := by simp [Editor.curBuf, hb]
        rw [bind_ok hc', bind_ok (m := M.get) (s' := t.2) (a := t.2) rfl]
        by_cases hn : t.2.noEol = true
        · rw [if_pos hn] at hr
          rw [if_pos hn]
          by_cases h0 : b.numChars = 0
          · rw [if_pos h0]; exact .inr rfl
          · rw [if_neg h0]
            refine .inl ?_
            have hr := hr.resolve_left (by simpa [Buffer.numChars] using h0)
            show Out.ok _ _ = _
            simp only [Out.ok.injEq, and_true, decide_eq_true_eq]
            unfold Buffer.numChars
            omega
        · rw [if_neg hn] at hr
          rw [if_neg hn]
          refine .inl ?_
          show Out.ok _ _ = _
          simp [Buffer.numChars, hr]
      rcases this with h | h <;> simp [ed, M.zoom, h]
    rcases hf with hf | hf
    · rw [bind_ok hf, bind_ok hf]
      rfl
    · show M.bind _ _ _ = M.bind _ _ _
      unfold M.bind
      rw [hf]

/-- C81: Ctrl-H is Backspace. -/
theorem C81_ctrl_h (km : KeyMap κ) (E : Env) (comp : Text → List Text) :
    km.handleKey E comp (.ctrl 'h') = km.handleKey E comp .backspace := rfl

/-- The vi keys without the redo of Ctrl-R. -/
def viWithoutRedo : KeyMap Vi where
  core E key := if key = .ctrl 'r' then pure () else Vi.keyMap.core E key
  init := Vi.keyMap.init

/-- C81: the redo that the vi keys have on Ctrl-R is never reached: without it every line is read in the same way. -/
theorem C81_redo (E : Env) (p : Prompt) (input : List KeyMap.Input) :
    Vi.keyMap.readLine E p input = viWithoutRedo.readLine E p input := by
  refine C81_agree (km := Vi.keyMap) (km' := viWithoutRedo) E rfl (fun key h => ?_) p input
  have : key ≠ .ctrl 'r' := fun e => h (by simp [e, reserved])
  show _ = if key = .ctrl 'r' then _ else _
  rw [if_neg this]

/-- A line with the vi keys on which `x` was typed and undone; then the keys given are handed over by `handle_key`, or to
the key map directly. -/
def undoneLine (keys : List Key) (direct : List Key) : Out (Vi × Ed) Unit := (do
  ed (Editor.start Tests.env { prompt := ['>', ' '] })
  Vi.keyMap.init Tests.env
  forEach ([.char 'x', .esc, .char 'u'] ++ keys) fun k => do
    let _ ← Vi.keyMap.handleKey Tests.env (fun _ => []) k
  forEach direct fun k => Vi.keyMap.core Tests.env k : KM Vi Unit) ({}, fresh [])

/-- C81: so what was undone with `u` does not come back with Ctrl-R, which the key map would do: a search begins. -/
theorem C81_redo_violation :
    (∃ t, undoneLine [.ctrl 'r'] [] = .ok () t ∧ t.2.curBuf?.map (·.data) = some [] ∧ t.2.isSearch = true) ∧
    (∃ t, undoneLine [] [.ctrl 'r'] = .ok () t ∧ t.2.curBuf?.map (·.data) = some ['x'] ∧ t.2.isSearch = false) := by
  have h1 : okAnd (undoneLine [.ctrl 'r'] []) (fun _ t => t.2.curBuf?.map (·.data) == some [] && t.2.isSearch) = true := by
    decide +kernel
  have h2 : okAnd (undoneLine [] [.ctrl 'r']) (fun _ t => t.2.curBuf?.map (·.data) == some ['x'] && !t.2.isSearch) = true := by
    decide +kernel
  obtain ⟨_, t, h3, h4⟩ := of_okAnd h1
  obtain ⟨_, t', h5, h6⟩ := of_okAnd h2
  simp only [Bool.and_eq_true, beq_iff_eq, Bool.not_eq_true'] at h4 h6
  exact ⟨⟨t, h3, h4.1, h4.2⟩, ⟨t', h5, h6.1, h6.2⟩⟩

/-- A key map of one's own: it counts the keys it gets. -/
def counting : KeyMap Nat where
  core _ _ := modK (· + 1)
  init _ := pure ()

/-- Of these keys four get to it: `a`, Left, Ctrl-D (the line is not empty) and Ctrl-H, as Backspace. -/
example : okAnd (counting.readLine Tests.env { prompt := ['>', ' '] }
    ([.char 'a', .ctrl 'r', .left, .ctrl 's', .ctrl 'd', .char '\t', .ctrl 'h', .char '\n'].map fun k => .key k fun _ => [])
    (0, { fresh [] with newBuf := .ofText ['b'] })) (fun l t => l == ['b'] && t.1 == 4) = true := by decide +kernel

example : Withheld { fresh [] with autosuggestion := some (.ofText ['b']), cursor := 1 } ['b'] .right :=
  .inr (.inr ⟨rfl, by simp, rfl⟩)

end Liner.Props
