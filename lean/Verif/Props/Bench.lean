import Verif.Proof.BenchRead
import Verif.Proof.BenchFound
import Verif.Props.Desk
/-
C75: all Emacs keys except Tab, with the searches through the history, follow a simple bench, up to what `read_line` gives
back.
-/

namespace Liner.Props
open Liner Liner.Spec Editor Wit Tests

section
variable (E : Env) (hw : E.words = getBufferWords) (pr pr' : Prompt) (H : History) (hs : H.share = false) (fs : FS) (t : Text)
include hw hs

/-- C75: keys that do not leave the bench do what they do to it.  Errors are those of the terminal and Ctrl-D on an empty
line; nothing panics but the redraw. -/
theorem C75_bench (keys : List (Key × (Text → List Text))) (hk : ∀ x ∈ keys, Bench.leaves x.1 = false) :
    (∀ t', session Emacs.keyMap E pr keys ({}, initial pr' H fs (.ofText t)) = .ok () t' →
      ∃ b, Bench.Run (texts H) (keys.map (·.1)) ⟨.fresh t, none⟩ b ∧ At t'.2 b.desk.left b.desk.right ∧
        t'.2.autosuggestion.map (·.data) = b.suggestion (texts H) ∧ t'.2.curHistoryLoc = b.desk.shown ∧
        t'.2.newBuf.data = b.desk.new.text ∧ t'.2.history = H ∧
        t'.2.forwardSearch = decide (b.forward = some true) ∧ t'.2.reverseSearch = decide (b.forward = some false)) ∧
    (NeverBare (texts H) (keys.map (·.1)) ⟨.fresh t, none⟩ →
      (∀ e t', session Emacs.keyMap E pr keys ({}, initial pr' H fs (.ofText t)) = .err e t' → ¬ Works E) ∧
      (session Emacs.keyMap E pr keys ({}, initial pr' H fs (.ofText t)) = .panic .op → E.ttyWidth = some 0)) := by
  have key := session_bench E hw pr pr' H hs fs t keys hk
  refine ⟨fun t' h => ?_, fun hn => ⟨fun e t' h => wp_err key h hn, fun h => wp_panic' key h hn rfl⟩⟩
  obtain ⟨b, h1, h2⟩ := wp_ok key h
  exact ⟨b, h1, h2.at, h2.suggestion, h2.lies.shown, h2.lies.new, h2.lies.hist, h2.direction.1, h2.direction.2⟩

/-- C75: what `read_line` returns, for any input without Tab. -/
theorem C75_read (input : List KeyMap.Input) (hk : some (.char '\t') ∉ input.map Sheet.pressed) :
    (∀ txt t', Emacs.keyMap.readLine E pr input ({}, initial pr' H fs (.ofText t)) = .ok txt t' →
      Bench.Reads (texts H) (input.map Sheet.pressed) ⟨.fresh t, none⟩ (.line txt)) ∧
    (∀ e t', Emacs.keyMap.readLine E pr input ({}, initial pr' H fs (.ofText t)) = .err e t' →
      Bench.Reads (texts H) (input.map Sheet.pressed) ⟨.fresh t, none⟩ (.stop e) ∨ (e = .io ∧ ¬ Works E)) ∧
    (Emacs.keyMap.readLine E pr input ({}, initial pr' H fs (.ofText t)) = .panic .op → E.ttyWidth = some 0) := by
  have key := read_bench E hw pr pr' H hs fs t input hk
  refine ⟨fun txt t' h => ?_, fun e t' h => ?_, fun h => wp_panic' key h rfl⟩
  · exact (wp_ok key h :)
  · exact (wp_err key h :)

/-- C75: during a search, whatever keys it took to get there, the suggestion is an entry that contains the new line; and there
is a suggestion if any entry contains it, unless it is empty. -/
theorem C75_found (keys : List (Key × (Text → List Text))) (hk : ∀ x ∈ keys, Bench.leaves x.1 = false) (t' : Emacs × Ed)
    (h : session Emacs.keyMap E pr keys ({}, initial pr' H fs (.ofText t)) = .ok () t')
    (hse : t'.2.forwardSearch = true ∨ t'.2.reverseSearch = true) :
    (∀ x, t'.2.autosuggestion.map (·.data) = some x → x ∈ texts H ∧ t'.2.newBuf.data ≠ [] ∧ t'.2.newBuf.data <:+: x) ∧
    (t'.2.autosuggestion = none → t'.2.newBuf.data ≠ [] → ∀ x ∈ texts H, ¬ t'.2.newBuf.data <:+: x) := by
  obtain ⟨b, h1, -, h2, -, h3, -, h4, h5⟩ := (C75_bench E hw pr pr' H hs fs t keys hk).1 t' h
  have hf := sound_fresh (texts H) t
  rw [bench_run_iff (b := ⟨.fresh t, none⟩) hf] at h1
  obtain ⟨h6, h7⟩ := right_steps (keys := keys.map (·.1)) (b := ⟨.fresh t, none⟩) hf
    ⟨by simp [Desk.Same, Desk.fresh, Desk.text], fun h => absurd rfl h⟩
  rw [← h1] at h6 h7
  have hb : b.forward ≠ none := by
    rw [h4, h5] at hse
    rcases hse with hse | hse <;> rw [of_decide_eq_true hse] <;> simp
  have h8 := (h6.2 hb).found h7
  have h9 : b.suggestion (texts H) = b.desk.found (texts H) := if_neg hb
  rw [h9] at h2
  rw [h3]
  refine ⟨fun x hx => h8.1 x (h2.symm.trans hx), fun hn => h8.2 ?_⟩
  rw [← h2, hn]; rfl

end

/-- C75: the bench says exactly what is returned. -/
theorem C75_unique (entries : List Text) (input : List (Option Key)) (t : Text) :
    ∃! o, Bench.Reads entries input ⟨.fresh t, none⟩ o :=
  ⟨_, (bench_reads_iff (sound_fresh entries t)).mpr rfl, fun _ h => (bench_reads_iff (sound_fresh entries t)).mp h⟩

/-- C75: and what the bench is after keys. -/
theorem C75_run_unique (entries : List Text) (keys : List Key) (t : Text) :
    ∃! b, Bench.Run entries keys ⟨.fresh t, none⟩ b :=
  ⟨_, (bench_run_iff (sound_fresh entries t)).mpr rfl, fun _ h => (bench_run_iff (sound_fresh entries t)).mp h⟩

/-- C75: without searches it says what the desk of C74 says. -/
theorem C75_desk (entries : List Text) : ∀ (input : List (Option Key)) (d : Desk) (o : Sheet.Said),
    some (.ctrl 'r') ∉ input → some (.ctrl 's') ∉ input →
    (Bench.Reads entries input ⟨d, none⟩ o ↔ Desk.Reads entries input d o)
  | [], _, _, _, _ => Iff.rfl
  | none :: _, _, _, _, _ => Iff.rfl
  | some key :: rest, d, o, h1, h2 => by
    have ih := fun d => C75_desk entries rest d o (fun h => h1 (List.mem_cons_of_mem _ h)) (fun h => h2 (List.mem_cons_of_mem _ h))
    have k1 : key ≠ .ctrl 'r' := fun h => h1 (by rw [h]; exact List.mem_cons_self ..)
    have k2 : key ≠ .ctrl 's' := fun h => h2 (by rw [h]; exact List.mem_cons_self ..)
    unfold Bench.Reads Desk.Reads Bench.enter Bench.Next
    simp only [if_true, if_neg k1, if_neg k2, ih]
    repeat' split
    iterate 4 rfl
    constructor
    · rintro ⟨m, ⟨e, he, rfl⟩, h⟩; exact ⟨e, he, (ih e).mp h⟩
    · rintro ⟨e, he, h⟩; exact ⟨_, ⟨e, he, rfl⟩, (ih e).mpr h⟩

/-! ### Cases -/

/-- A search backward, a step, more typed, the entry taken and changed, another search forward with Alt-`.`, ended by Enter. -/
def benchKeys : List Key :=
  [.ctrl 'r'] ++ chars "ls" ++ [.ctrl 'r', .char ' ', .up, .ctrl 'f', .char '!', .ctrl 'u', .ctrl 's', .char 'o', .alt '.', .alt '.',
    .ctrl 'x', .ctrl 'x', .ctrl 'x', .ctrl 's', .char '\n']

example : some (.char '\t') ∉ benchKeys.map some := by decide

example : okAnd (readsAs ["ls one", "x ls two", "cd", "ls two"] "" (benchKeys.map some)) (fun txt _ =>
    txt == "x ls two".toList) = true := by decide +kernel

example : Bench.said ["ls one".toList, "x ls two".toList, "cd".toList, "ls two".toList] (benchKeys.map some) ⟨.fresh [], none⟩ =
    .line "x ls two".toList := by decide +kernel

/-- The hypotheses of `C75_found`: in the search the suggestion is found, steps around the end, and follows what is typed. -/
example : okAnd (emacs ["ls one", "x ls two", "cd", "ls two"] ([.ctrl 'r'] ++ chars "ls")) (fun _ t =>
      t.2.reverseSearch && t.2.autosuggestion.map (·.data) == some "ls two".toList) = true ∧
    okAnd (emacs ["ls one", "x ls two", "cd", "ls two"] ([.ctrl 'r'] ++ chars "ls" ++ [.ctrl 'r', .up, .ctrl 'r', .ctrl 's']))
      (fun _ t => t.2.reverseSearch && t.2.autosuggestion.map (·.data) == some "ls one".toList) = true ∧
    okAnd (emacs ["ls one", "x ls two", "cd", "ls two"] ([.ctrl 'r'] ++ chars "lsz")) (fun _ t =>
      t.2.reverseSearch && t.2.autosuggestion.isNone) = true := by decide +kernel

/-- Ctrl-L ends the search and keeps what was looked for; Right takes the entry found, and undo twice brings back what was
looked for. -/
example : okAnd (readsAs ["ls one"] "" ([.ctrl 'r', .char 'o', .ctrl 'l', .char '\n'].map some)) (fun txt _ =>
      txt == ['o']) = true ∧
    okAnd (emacs ["ls one"] [.ctrl 'r', .char 'o', .right]) (fun _ t =>
      text? t.2 == some "ls one".toList && !t.2.isSearch) = true ∧
    okAnd (emacs ["ls one"] [.ctrl 'r', .char 'o', .right, .ctrl 'x', .ctrl 'x']) (fun _ t =>
      text? t.2 == some ['o']) = true := by decide +kernel

/-- A key that edits an entry during a search shows the new line again; the edit goes to the copy of the entry. -/
example : okAnd (emacs ["ls one", "cd"] [.char 'o', .ctrl 'r', .alt '<', .char '!']) (fun _ t =>
    text? t.2 == some ['o'] && t.2.curHistoryLoc == none && t.2.histBuf.data == "ls one!".toList &&
      t.2.autosuggestion.map (·.data) == some "ls one".toList) = true := by decide +kernel

/-- If what is typed is found only in newer entries than the one reached, the search backward goes to the oldest of them. -/
example : okAnd (emacs ["a", "ax", "axx"] [.ctrl 'r', .char 'a', .ctrl 'r', .ctrl 'r', .char 'x']) (fun _ t =>
    t.2.autosuggestion.map (·.data) == some ['a', 'x']) = true := by decide +kernel

/-- The end of the input during a search gives back what is looked for, not what is found. -/
example : okAnd (readsAs ["ls one"] "" ([.ctrl 'r', .char 'o'].map some)) (fun txt _ => txt == ['o']) = true := by
  decide +kernel

end Liner.Props
