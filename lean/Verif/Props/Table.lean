import Verif.Proof.TableNext
import Verif.Props.Bench
/-
C76: all Emacs keys, with Tab, up to what `read_line` returns.
-/

namespace Liner.Props
open Liner Liner.Spec Editor Wit Tests

section
variable (E : Env) (hw : E.words = getBufferWords) (pr pr' : Prompt) (H : History) (hs : H.share = false) (fs : FS) (t : Text)
include hw hs

/-- C76: keys do what they do to the table, as long as it describes the editor.  Errors are those of the terminal and Ctrl-D on
an empty line; nothing panics but the redraw.  What is missing are the states after a Tab without candidates during a search or
on an unchanged entry. -/
theorem C76_table_partial (keys : List (Key × (Text → List Text))) (hk : ∀ x ∈ keys, x.1 ≠ .char '\n' ∧ x.1 ≠ .ctrl 'c') :
    (∀ t', session Emacs.keyMap E pr keys ({}, initial pr' H fs (.ofText t)) = .ok () t' →
      ∃ o, Table.Run (texts H) keys ⟨⟨.fresh t, none⟩, none⟩ o ∧ ∀ u, o = some u →
        At t'.2 u.bench.desk.left u.bench.desk.right ∧ t'.2.showCompletionsHint = u.list ∧
        t'.2.autosuggestion.map (·.data) = u.bench.suggestion (texts H) ∧ t'.2.curHistoryLoc = u.bench.desk.shown ∧
        t'.2.newBuf.data = u.bench.desk.new.text ∧ t'.2.history = H ∧
        t'.2.forwardSearch = decide (u.bench.forward = some true) ∧ t'.2.reverseSearch = decide (u.bench.forward = some false)) ∧
    (NeverLost (texts H) keys ⟨⟨.fresh t, none⟩, none⟩ →
      (∀ e t', session Emacs.keyMap E pr keys ({}, initial pr' H fs (.ofText t)) = .err e t' → ¬ Works E) ∧
      (session Emacs.keyMap E pr keys ({}, initial pr' H fs (.ofText t)) = .panic .op → E.ttyWidth = some 0)) := by
  have key := session_table E hw pr pr' H hs fs t keys hk
  refine ⟨fun t' h => ?_, fun hn => ⟨fun e t' h => wp_err key h hn, fun h => wp_panic' key h hn rfl⟩⟩
  obtain ⟨o, h1, h2⟩ := wp_ok key h
  refine ⟨o, h1, fun u hu => ?_⟩
  have h3 := h2 u hu
  have h4 := h3.stands
  exact ⟨h4.at, h3.list, h4.suggestion, h4.lies.shown, h4.lies.new, h4.lies.hist, h4.direction.1, h4.direction.2⟩

/-- C76: what `read_line` returns for any input, if the table describes it. -/
theorem C76_read_partial (input : List KeyMap.Input)
    (hn : ¬ Table.Reads (texts H) (input.map Table.heard) ⟨⟨.fresh t, none⟩, none⟩ none) :
    (∀ txt t', Emacs.keyMap.readLine E pr input ({}, initial pr' H fs (.ofText t)) = .ok txt t' →
      Table.Reads (texts H) (input.map Table.heard) ⟨⟨.fresh t, none⟩, none⟩ (some (.line txt))) ∧
    (∀ e t', Emacs.keyMap.readLine E pr input ({}, initial pr' H fs (.ofText t)) = .err e t' →
      Table.Reads (texts H) (input.map Table.heard) ⟨⟨.fresh t, none⟩, none⟩ (some (.stop e)) ∨ (e = .io ∧ ¬ Works E)) ∧
    (Emacs.keyMap.readLine E pr input ({}, initial pr' H fs (.ofText t)) = .panic .op → E.ttyWidth = some 0) := by
  have key := read_table E hw pr pr' H hs fs t input hn
  refine ⟨fun txt t' h => ?_, fun e t' h => ?_, fun h => wp_panic' key h rfl⟩
  · exact (wp_ok key h :)
  · exact (wp_err key h :)

end

/-- C76: the table says exactly what is returned. -/
theorem C76_unique (entries : List Text) (input : List (Option (Key × (Text → List Text)))) (t : Text) :
    ∃! o, Table.Reads entries input ⟨⟨.fresh t, none⟩, none⟩ o := table_reads_unique (whole_fresh entries t)

/-- C76: and what the table is after keys. -/
theorem C76_run_unique (entries : List Text) (keys : List (Key × (Text → List Text))) (t : Text) :
    ∃! o, Table.Run entries keys ⟨⟨.fresh t, none⟩, none⟩ o := table_run_unique (whole_fresh entries t)

/-- C76: without Tab it says what the bench of C75 says. -/
theorem C76_bench (entries : List Text) : ∀ (input : List (Option (Key × (Text → List Text)))) (b : Bench) (o : Option Sheet.Said),
    (∀ comp, some (.char '\t', comp) ∉ input) →
    (Table.Reads entries input ⟨b, none⟩ o ↔ ∃ x, o = some x ∧ Bench.Reads entries (input.map (·.map (·.1))) b x)
  | [], b, o, _ => ⟨fun h => ⟨_, h, rfl⟩, fun ⟨x, h, e⟩ => h.trans (congrArg some e)⟩
  | none :: _, b, o, _ => ⟨fun h => ⟨_, h, rfl⟩, fun ⟨x, h, e⟩ => h.trans (congrArg some e)⟩
  | some (key, comp) :: rest, b, o, h => by
    have ih := fun b => C76_bench entries rest b o (fun comp h' => h comp (List.mem_cons_of_mem _ h'))
    have hk : key ≠ .char '\t' := fun e => h comp (by rw [e]; exact List.mem_cons_self ..)
    simp only [List.map_cons, Option.map_some]
    unfold Table.Reads Bench.Reads
    dsimp only
    simp only [ne_eq, not_true_eq_false, if_false]
    repeat' split
    · exact ⟨fun h => ⟨_, h, rfl⟩, fun ⟨x, h, e⟩ => h.trans (congrArg some e)⟩
    · exact ⟨fun h => ⟨_, h, rfl⟩, fun ⟨x, h, e⟩ => h.trans (congrArg some e)⟩
    · exact ih _
    · exact ⟨fun h => ⟨_, h, rfl⟩, fun ⟨x, h, e⟩ => h.trans (congrArg some e)⟩
    · unfold Table.Next
      simp only [if_neg hk, ite_self]
      constructor
      · rintro ⟨m, ⟨c, hc, rfl⟩, h⟩
        obtain ⟨x, h1, h2⟩ := (ih c).mp h
        exact ⟨x, h1, c, hc, h2⟩
      · rintro ⟨x, h1, c, hc, h2⟩
        exact ⟨_, ⟨c, hc, rfl⟩, (ih c).mpr ⟨x, h1, h2⟩⟩

/-- C76: the table describes everything if the completer always has a candidate. -/
theorem C76_answered (entries : List Text) : ∀ (input : List (Option (Key × (Text → List Text)))) (t : Table),
    (∀ comp, some (.char '\t', comp) ∈ input → ∀ w, comp w ≠ []) → ¬ Table.Reads entries input t none
  | [], t, _, h => by cases h
  | none :: _, t, _, h => by cases h
  | some (key, comp) :: rest, t, hc, h => by
    have ih := fun t => C76_answered entries rest t (fun comp h' => hc comp (List.mem_cons_of_mem _ h'))
    unfold Table.Reads at h
    dsimp only at h
    split at h
    · cases h
    split at h
    · cases h
    split at h
    · split at h
      · exact ih _ h
      split at h
      · exact ih _ h
      · cases h
    · obtain ⟨m, h1, h2⟩ := h
      cases m with
      | some m => exact ih m h2
      | none =>
        unfold Table.Next at h1
        split at h1
        · rename_i hk
          subst hk
          split at h1
          · obtain ⟨l, w1, w2, r, cs, -, hcs, ⟨rfl, -⟩ | ⟨c, -, h3⟩ | ⟨p, -, -, h3⟩⟩ := h1
            · refine hc comp (List.mem_cons_self ..) (w1 ++ w2) (List.eq_nil_iff_forall_not_mem.mpr fun x hx => ?_)
              simpa using (hcs.2 x).mpr hx
            · cases h3
            · cases h3
          · obtain ⟨j, c, -, -, ⟨-, h3⟩ | ⟨-, l, w1, w2, r, -, h3⟩⟩ := h1 <;> cases h3
        · obtain ⟨c, -, h3⟩ := h1
          cases h3

/-- The keys that can show another line, and the searches. -/
def away : Key → Bool
  | .up | .down => true
  | .ctrl c => c ∈ ['p', 'n', 'r', 's']
  | .alt c => c ∈ ['<', '>']
  | _ => false

/-- A bench on the new line, without a search. -/
def OnNewLine (b : Bench) : Prop := b.forward = none ∧ b.desk.shown = none

theorem onNewLine_put {entries : List Text} {b : Bench} {q : Sheet} {touch : Bool} (h : OnNewLine b) :
    OnNewLine (b.put entries touch q) := by
  unfold Bench.put
  rw [h.1]
  exact ⟨rfl, h.2⟩

theorem onNewLine_drop {entries : List Text} {b : Bench} {l w : Text} {touch : Bool} (h : OnNewLine b) :
    OnNewLine (b.drop entries touch l w) := by
  unfold Bench.drop
  split <;> exact onNewLine_put h

theorem onNewLine_next {entries : List Text} {b c : Bench} {key : Key} (h : OnNewLine b) (hk : away key = false)
    (hn : b.Next entries key c) : OnNewLine c := by
  unfold Bench.Next at hn
  rw [h.1] at hn
  dsimp only at hn
  have k1 : key ≠ .ctrl 'r' := by rintro rfl; simp [away] at hk
  have k2 : key ≠ .ctrl 's' := by rintro rfl; simp [away] at hk
  rw [if_neg k1, if_neg k2] at hn
  obtain ⟨e, he, rfl⟩ := hn
  unfold Desk.Next at he
  rw [if_neg (by rintro (rfl | rfl) <;> simp [away] at hk), if_neg (by rintro (rfl | rfl) <;> simp [away] at hk),
    if_neg (by rintro rfl; simp [away] at hk), if_neg (by rintro rfl; simp [away] at hk)] at he
  obtain ⟨q, -, rfl⟩ := he
  exact ⟨rfl, h.2⟩

/-- C76: the table describes everything on the new line without searches. -/
theorem C76_new_line (entries : List Text) : ∀ (input : List (Option (Key × (Text → List Text)))) (t : Table),
    (∀ key comp, some (key, comp) ∈ input → away key = false) → OnNewLine t.bench → ¬ Table.Reads entries input t none
  | [], t, _, _, h => by cases h
  | none :: _, t, _, _, h => by cases h
  | some (key, comp) :: rest, t, hk, ho, h => by
    have ih := fun t => C76_new_line entries rest t (fun key comp h' => hk key comp (List.mem_cons_of_mem _ h'))
    unfold Table.Reads at h
    dsimp only at h
    have he : (t.bench.enter entries).shown = none := by
      unfold Bench.enter
      rw [if_pos ho.1]
      exact ho.2
    split at h
    · cases h
    split at h
    · cases h
    split at h
    · split at h
      · exact ih _ ⟨rfl, he⟩ h
      split at h
      · exact ih _ ⟨rfl, he⟩ h
      · cases h
    · obtain ⟨m, h1, h2⟩ := h
      unfold Table.Next at h1
      split at h1
      · split at h1
        · obtain ⟨l, w1, w2, r, cs, -, hcs, ⟨rfl, h3⟩ | ⟨c, -, h3⟩ | ⟨p, -, -, h3⟩⟩ := h1
          · rw [if_pos ⟨ho.1, .inl ho.2⟩] at h3
            subst h3
            exact ih ⟨t.bench, none⟩ ho h2
          · subst h3
            exact ih _ (onNewLine_put (onNewLine_drop ho)) h2
          · subst h3
            dsimp only at h2
            split at h2
            · exact ih _ (onNewLine_put (onNewLine_drop ho)) h2
            · exact ih _ (onNewLine_put ho) h2
        · obtain ⟨j, c, -, -, ⟨-, h3⟩ | ⟨-, l, w1, w2, r, -, h3⟩⟩ := h1 <;> subst h3
          · exact ih _ (onNewLine_put ho) h2
          · exact ih _ (onNewLine_put (onNewLine_drop ho)) h2
      · obtain ⟨c, hc, h3⟩ := h1
        subst h3
        exact ih _ (onNewLine_next ho (hk key comp (List.mem_cons_self ..)) hc) h2

/-! ### Cases -/

/-- A completer with three commands. -/
def commands (w : Text) : List Text :=
  ["commit".toList, "checkout".toList, "cherry".toList].filter fun x => w.isPrefixOf x

/-- The keys with this completer. -/
def withCommands (entries : List String) (line : String) (keys : List Key) : Out (Emacs × Ed) Text :=
  Emacs.keyMap.readLine env { prompt := ['>', ' '] } (keys.map fun k => .key k commands) ({}, fresh entries line)

/-- The hypotheses of `C76_new_line` and of `C76_answered`. -/
example : (∀ key ∈ ([.char 'c', .char '\t', .char '\t', .char '\n', .char '\n'] : List Key), away key = false) ∧
    OnNewLine ⟨.fresh [], none⟩ ∧ commands ['c'] ≠ [] := ⟨by decide, ⟨rfl, rfl⟩, by decide⟩

/-- One candidate; a longer beginning; the list and the candidates in turn; Enter takes the list away first. -/
example : okAnd (withCommands [] "" (chars "git co" ++ [.char '\t', .char '\n'])) (fun txt _ => txt == "git commit".toList) = true ∧
    okAnd (withCommands [] "" (chars "git ch" ++ [.char '\t', .char '\n'])) (fun txt _ => txt == "git che".toList) = true ∧
    okAnd (withCommands [] "" (chars "git c" ++ [.char '\t', .char '\t', .char '\t', .char '\n', .char '\n'])) (fun txt _ =>
      txt == "git cherry".toList) = true ∧
    okAnd (withCommands [] "" (chars "git c" ++ [.char '\t', .char '\t', .char '\t', .char '\n'] ++ chars "!" ++ [.char '\n']))
      (fun txt _ => txt == "git cherry!".toList) = true := by decide +kernel

/-- The list after three candidates begins again; another key takes it away, a search does not. -/
example : okAnd (withCommands [] "" (chars "c" ++ List.replicate 5 (.char '\t') ++ [.char '\n', .char '\n'])) (fun txt _ =>
      txt == "checkout".toList) = true ∧
    okAnd (session Emacs.keyMap env { prompt := ['>', ' '] } ((chars "c" ++ [Key.char '\t', .ctrl 'r']).map fun k => (k, commands))
      ({}, fresh ["cd"] "")) (fun _ t => t.2.showCompletionsHint.isSome && t.2.reverseSearch) = true ∧
    okAnd (session Emacs.keyMap env { prompt := ['>', ' '] } ((chars "c" ++ [Key.char '\t', .left]).map fun k => (k, commands))
      ({}, fresh ["cd"] "")) (fun _ t => t.2.showCompletionsHint.isNone) = true := by decide +kernel

/-- In the middle of a word only the part before the cursor is replaced. -/
example : okAnd (withCommands [] "" (chars "com" ++ [.left, .char '\t', .char '\n'])) (fun txt _ => txt == "commitm".toList) = true := by
  decide +kernel

/-- A case where the table does not describe the editor: Tab without candidates on an entry makes the copy of it, and the
suggestion stays as it was. -/
theorem C76_lost_violation : ∃ (keys : List (Key × (Text → List Text))) (t' : Emacs × Ed),
    session Emacs.keyMap env { prompt := ['>', ' '] } keys ({}, fresh ["ls"] "") = .ok () t' ∧
    Table.Run ["ls".toList] keys ⟨⟨.fresh [], none⟩, none⟩ none ∧ t'.2.histBufValid = true ∧
    t'.2.autosuggestion.map (·.data) = some "ls".toList := by
  have h : okAnd (session Emacs.keyMap env { prompt := ['>', ' '] } [plain .up, plain (.char '\t')] ({}, fresh ["ls"] ""))
    (fun _ t => t.2.histBufValid && t.2.autosuggestion.map (·.data) == some "ls".toList) = true := by decide +kernel
  obtain ⟨_, t', h1, h2⟩ := of_okAnd h
  simp only [Bool.and_eq_true, beq_iff_eq] at h2
  refine ⟨_, t', h1, ?_, h2.1, h2.2⟩
  refine ⟨some ⟨⟨Desk.up ["ls".toList] (.fresh []), none⟩, none⟩, ?_, none, ?_, rfl⟩
  · refine ⟨_, ⟨_, ?_, rfl⟩, rfl⟩
    unfold Desk.Next
    rw [if_pos (.inl rfl)]
  obtain ⟨l, w1, w2, r, hl, hr, ht⟩ := parts_ex ['l', 's'] []
  exact ⟨l, w1, w2, r, [], ⟨hl, hr, ht⟩, ⟨by simp, by simp⟩, .inl ⟨rfl, rfl⟩⟩

end Liner.Props
