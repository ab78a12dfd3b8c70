import Verif.Proof.AkinRead
/-
Two runs with the same text: drafts, which are typed, corrected and extended at their end.
-/

namespace Liner
open Liner.Editor M KM

/-- What a key makes of the line while the cursor is at its end; `g` is the entry suggested for it. -/
def redrafted (g : Option Text) (x : Text) : Key → Text
  | .char c => x ++ [c]
  | .backspace => x.dropLast
  | .right => g.getD x
  | .ctrl c => if c = 'h' then x.dropLast else if c = 'u' then [] else if c = 'f' then g.getD x else x
  | _ => x

/-- The keys that leave the cursor at the end of the line. -/
def drafting : Key → Bool
  | .char c => c ≠ '\t' ∧ c ≠ '\n'
  | .backspace | .delete | .right | .end | .null | .other _ => true
  | .ctrl c => c ∉ ['a', 'b', 'c', 'd', 'n', 'p', 'r', 's', 'w', 'x']
  | _ => false

section
variable {h : History} {fs : FS} {x : Text} {g : Option Buffer} {s t : Ed} {E : Env}

theorem begun_backspace (hs : Begun h fs x g s) :
    Ensues (deleteBeforeCursor E) s (Begun h fs x.dropLast (proposal h x.dropLast)) := by
  obtain ⟨p, l, c, o, n, b, ch, rfl, rfl⟩ := hs
  unfold Ensues
  by_cases hx : b.data = []
  · have e1 : deleteBeforeCursor E
        { prompt := p, cursor := b.data.length, newBuf := b, bufferChanged := ch, autosuggestion := g, history := h, fs := fs,
          termCursorLine := l, ctxBuf := c, out := o, tick := n } = display E
        { prompt := p, cursor := b.data.dropLast.length, newBuf := b, bufferChanged := ch, autosuggestion := g, history := h,
          fs := fs, termCursorLine := l, ctxBuf := c, out := o, tick := n } := by
      simp [deleteBeforeCursor, bind, M.bind, M.get, hx]
    rw [e1]
    exact begun_display ⟨_, _, _, _, _, _, _, by simp [hx], rfl⟩
  · have hl : 0 < b.data.length := List.length_pos_iff.mpr hx
    have hr : removeRaw b.data (b.data.length - 1) b.data.length =
        some (b.data.drop (b.data.length - 1), b.data.dropLast) := by
      have : b.data.length - (b.data.length - 1) = (b.data.drop (b.data.length - 1)).length := by simp
      simp only [removeRaw, this]
      simp [List.dropLast_eq_take]
      exact List.take_of_length_le (by simp)
    have e1 : deleteBeforeCursor E
        { prompt := p, cursor := b.data.length, newBuf := b, bufferChanged := ch, autosuggestion := g, history := h, fs := fs,
          termCursorLine := l, ctxBuf := c, out := o, tick := n } = display E
        { prompt := p, cursor := b.data.dropLast.length,
          newBuf := Buffer.pushAction { b with data := b.data.dropLast }
            (.remove (b.data.length - 1) (b.data.drop (b.data.length - 1))),
          bufferChanged := true, autosuggestion := g, history := h,
          fs := fs, termCursorLine := l, ctxBuf := c, out := o, tick := n } := by
      simp [deleteBeforeCursor, bind, M.bind, M.get, curBufMut, workBuf, Buffer.remove, hr, setCur, M.modify, hl]
    rw [e1]
    exact begun_display ⟨_, _, _, _, _, _, _, rfl, rfl⟩

theorem begun_delete (hs : Begun h fs x g s) : Ensues (deleteAfterCursor E) s (Begun h fs x (proposal h x)) := by
  obtain ⟨p, l, c, o, n, b, ch, rfl, rfl⟩ := hs
  unfold Ensues
  have e1 : deleteAfterCursor E
      { prompt := p, cursor := b.data.length, newBuf := b, bufferChanged := ch, autosuggestion := g, history := h, fs := fs,
        termCursorLine := l, ctxBuf := c, out := o, tick := n } = display E
      { prompt := p, cursor := b.data.length, newBuf := b, bufferChanged := true, autosuggestion := g, history := h,
        fs := fs, termCursorLine := l, ctxBuf := c, out := o, tick := n } := by
    simp [deleteAfterCursor, bind, M.bind, M.get, curBufMut, workBuf, setCur, Buffer.numChars]
  rw [e1]
  exact begun_display ⟨_, _, _, _, _, _, _, rfl, rfl⟩

theorem begun_killAfter (hs : Begun h fs x g s) : Ensues (deleteAllAfterCursor E) s (Begun h fs x (proposal h x)) := by
  obtain ⟨p, l, c, o, n, b, ch, rfl, rfl⟩ := hs
  unfold Ensues
  have hr : removeRaw b.data b.data.length b.data.length = some ([], b.data) := by simp [removeRaw]
  have e1 : deleteAllAfterCursor E
      { prompt := p, cursor := b.data.length, newBuf := b, bufferChanged := ch, autosuggestion := g, history := h, fs := fs,
        termCursorLine := l, ctxBuf := c, out := o, tick := n } = display E
      { prompt := p, cursor := b.data.length, newBuf := Buffer.pushAction { b with data := b.data } (.remove b.data.length []),
        bufferChanged := true, autosuggestion := g, history := h,
        fs := fs, termCursorLine := l, ctxBuf := c, out := o, tick := n } := by
    simp [deleteAllAfterCursor, bind, M.bind, M.get, curBufMut, workBuf, setCur, noRes, Buffer.truncate, Buffer.remove, hr]
  rw [e1]
  exact begun_display ⟨_, _, _, _, _, Buffer.pushAction { b with data := b.data } (.remove b.data.length []), _, rfl, rfl⟩

theorem begun_kill (hs : Begun h fs x g s) : Ensues (deleteAllBeforeCursor E) s (Begun h fs [] (proposal h [])) := by
  obtain ⟨p, l, c, o, n, b, ch, rfl, rfl⟩ := hs
  unfold Ensues
  have hr : removeRaw b.data 0 b.data.length = some (b.data, []) := by simp [removeRaw]
  have e1 : deleteAllBeforeCursor E
      { prompt := p, cursor := b.data.length, newBuf := b, bufferChanged := ch, autosuggestion := g, history := h, fs := fs,
        termCursorLine := l, ctxBuf := c, out := o, tick := n } = display E
      { prompt := p, cursor := 0, newBuf := Buffer.pushAction { b with data := [] } (.remove 0 b.data),
        bufferChanged := true, autosuggestion := g, history := h,
        fs := fs, termCursorLine := l, ctxBuf := c, out := o, tick := n } := by
    simp [deleteAllBeforeCursor, bind, M.bind, M.get, curBufMut, workBuf, setCur, Buffer.remove, hr, M.modify]
  rw [e1]
  exact begun_display ⟨_, _, _, _, _, _, _, rfl, rfl⟩

theorem begun_end (hs : Begun h fs x g s) : Ensues (moveCursorToEndOfLine E) s (Begun h fs x (proposal h x)) := by
  obtain ⟨p, l, c, o, n, b, ch, e, rfl⟩ := hs
  exact begun_eol e

theorem begun_right (hs : Begun h fs x g s) : Ensues (moveCursorRight E 1) s (Begun h fs x (proposal h x)) := by
  obtain ⟨p, l, c, o, n, b, ch, rfl, rfl⟩ := hs
  unfold Ensues
  have e1 : moveCursorRight E 1
      { prompt := p, cursor := b.data.length, newBuf := b, bufferChanged := ch, autosuggestion := g, history := h, fs := fs,
        termCursorLine := l, ctxBuf := c, out := o, tick := n } = display E
      { prompt := p, cursor := b.data.length, newBuf := b, bufferChanged := ch, autosuggestion := g, history := h,
        fs := fs, termCursorLine := l, ctxBuf := c, out := o, tick := n } := by
    simp [moveCursorRight, bind, M.bind, M.get, curBuf, Ed.curBuf?, Buffer.numChars, M.modify]
  rw [e1]
  exact begun_display ⟨_, _, _, _, _, _, _, rfl, rfl⟩

theorem begun_clear (hs : Begun h fs x g s) : Ensues (clear E) s (Begun h fs x (proposal h x)) := by
  obtain ⟨p, l, c, o, n, b, ch, rfl, rfl⟩ := hs
  unfold Ensues
  have e1 : clear E
      { prompt := p, cursor := b.data.length, newBuf := b, bufferChanged := ch, autosuggestion := g, history := h, fs := fs,
        termCursorLine := l, ctxBuf := c, out := o, tick := n } = display E
      { prompt := p, cursor := b.data.length, newBuf := b, bufferChanged := ch, autosuggestion := g, history := h,
        fs := fs, termCursorLine := 1, ctxBuf := c ++ [.clearAll, .gotoOrigin], out := o, tick := n } := by
    simp [clear, bind, M.bind, clearSearch, M.modify]
  rw [e1]
  exact begun_display ⟨_, _, _, _, _, _, _, rfl, rfl⟩

theorem proposal_prefix {b : Buffer} (hp : proposal h x = some b) : x <+: b.data := by
  unfold proposal at hp
  cases hn : h.getNewestMatch (some h.buffers.length) (.ofText x) with
  | none => rw [hn] at hp; cases hp
  | some i =>
    rw [hn, Option.bind_some] at hp
    obtain ⟨-, ⟨y, hy, -, hx⟩, -⟩ := (Props.C17_newest_match _ _ _ i).mp hn
    have : y = b.data := by
      unfold Spec.texts at hy
      rw [List.getElem?_map, hp] at hy
      simpa using hy.symm
    rw [← this]
    exact hx.1

theorem begun_accept {y : Buffer} (hs : Begun h fs x (some y) s) (hy : proposal h x = some y) :
    Ensues (acceptAutosuggestion E) s (Begun h fs y.data (proposal h y.data)) := by
  have hx := proposal_prefix hy
  obtain ⟨p, l, c, o, n, b, ch, rfl, rfl⟩ := hs
  obtain ⟨z, hz⟩ := hx
  have hl : b.data.length ≤ y.data.length := by rw [← hz]; simp
  have hd : y.data.drop b.data.length = z := by rw [← hz]; simp
  have hi : insertRaw b.data b.data.length z = some y.data := by
    rw [← hz]
    rw [insertRaw_eq _ _ _ (Nat.le_refl _)]
    simp
  have e1 : acceptAutosuggestion E
      { prompt := p, cursor := b.data.length, newBuf := b, bufferChanged := ch, autosuggestion := some y, history := h,
        fs := fs, termCursorLine := l, ctxBuf := c, out := o, tick := n } = moveCursorToEndOfLine E
      { prompt := p, cursor := b.data.length,
        newBuf := Buffer.pushAction { b with data := y.data } (.insert b.data.length z),
        bufferChanged := true, autosuggestion := some y, history := h, fs := fs,
        termCursorLine := l, ctxBuf := c, out := o, tick := n } := by
    simp [acceptAutosuggestion, bind, M.bind, M.get, curBufMut, workBuf, noRes, Buffer.insertFromBuffer, Buffer.insert,
      Action.doOn, setCur, M.modify, Ed.isSearch, clearSearch, hl, hd, hi]
  unfold Ensues
  rw [e1]
  exact begun_eol rfl

/-- One key, from what the dispatch makes of it. -/
theorem begun_step {comp : Text → List Text} {key : Key} {op : EdM Unit} {x' : Text} (hs : Begun h fs x g s)
    (hd : ∀ b, Emacs.keyMap.dispatch E comp b (KeyMap.translate key) (({} : Emacs), s) =
      (ed op >>= fun _ => pure false : KM Emacs Bool) (({} : Emacs), s))
    (ho : Ensues op s (Begun h fs x' (proposal h x'))) :
    Lost (Emacs.keyMap.handleKey E comp key ({}, s)) ∨
      ∃ s1, Emacs.keyMap.handleKey E comp key ({}, s) = .ok false ({}, s1) ∧ Begun h fs x' (proposal h x') s1 := by
  have hc : ∃ b, curBuf s = .ok b s := by
    obtain ⟨p, l, c, o, n, b, ch, e, rfl⟩ := hs
    exact ⟨b, rfl⟩
  obtain ⟨b, hb⟩ := hc
  have e : Emacs.keyMap.handleKey E comp key (({} : Emacs), s) =
      (ed (op >>= fun _ => flush E) >>= fun _ => pure false : KM Emacs Bool) (({} : Emacs), s) := by
    have e1 : Emacs.keyMap.handleKey E comp key (({} : Emacs), s) =
        (Emacs.keyMap.dispatch E comp b.isEmpty (KeyMap.translate key) >>= fun done =>
          (ed (flush E) >>= fun _ => pure done : KM Emacs Bool)) (({} : Emacs), s) := by
      unfold KeyMap.handleKey
      simp only [bind, M.bind, ed, M.zoom, hb]
    rw [e1]
    simp only [bind, M.bind, hd]
    simp only [ed, M.zoom, M.bind, pure, M.pure]
    cases op s with
    | ok a s => dsimp only
    | err => rfl
    | panic => rfl
  rw [e]
  have hr : Ensues (op >>= fun _ => flush E) s (Begun h fs x' (proposal h x')) := by
    refine ho.bind fun s2 b2 => ?_
    rcases outer_flush E s2 with h3 | ⟨s3, e3, a3⟩
    · exact .inl h3
    · exact .inr ⟨s3, e3, b2.outer a3⟩
  show Lost (M.bind (ed _) _ _) ∨ ∃ s1, M.bind (ed _) _ _ = _ ∧ _
  unfold M.bind ed M.zoom
  dsimp only
  rcases hr with h3 | ⟨s3, e3, a3⟩
  · left
    revert h3
    generalize (op >>= fun _ => flush E) s = r
    cases r <;> simp [Lost]
  · rw [e3]
    exact .inr ⟨s3, rfl, a3⟩

theorem begun_skip {op : EdM Unit} {x' : Text} (ho : Ensues op s (Begun h fs x' (proposal h x'))) :
    Ensues (op >>= fun _ => skipCompletionsHint) s (Begun h fs x' (proposal h x')) := by
  refine ho.bind fun s1 b1 => .inr ⟨_, rfl, ?_⟩
  obtain ⟨p, l, c, o, n, b, ch, e, rfl⟩ := b1
  exact ⟨_, _, _, _, _, _, _, e, rfl⟩

/-- A key the dispatch leaves to the key map. -/
theorem dispatch_body {comp : Text → List Text} {key : Key} {op : EdM Unit} (b : Bool)
    (h1 : key ∉ [.ctrl 'c', .ctrl 'd', .char '\t', .char '\n', .ctrl 'r', .ctrl 's', .alt '.'])
    (h2 : key = .ctrl 'f' ∨ key = .right → s.autosuggestion = none) (hk : Emacs.handleKeyBody E key = ed op) :
    Emacs.keyMap.dispatch E comp b key (({} : Emacs), s) =
      (ed (op >>= fun _ => skipCompletionsHint) >>= fun _ => pure false : KM Emacs Bool) (({} : Emacs), s) := by
  simp only [List.mem_cons, List.not_mem_nil, or_false, not_or] at h1
  obtain ⟨a1, a2, a3, a4, a5, a6, a7⟩ := h1
  have a8 : ¬ (key = .ctrl 'f' ∧ s.autosuggestion.isSome = true) := by
    rintro ⟨e, e'⟩; rw [h2 (.inl e)] at e'; cases e'
  have a9 : ¬ (key = .right ∧ s.autosuggestion.isSome = true) := by
    rintro ⟨e, e'⟩; rw [h2 (.inr e)] at e'; cases e'
  unfold KeyMap.dispatch
  simp only [bind, M.bind, ed, M.zoom, M.get, a1, a2, a3, a4, a5, a6, a8, a9, false_and, if_false, pure, M.pure,
    Emacs.keyMap, Emacs.handleKeyCore, a7, modK, hk, Bool.false_eq_true]
  cases op s <;> rfl

/-- The draft after one key. -/
theorem begun_redraft (hs : Begun h fs x (proposal h x) s) (comp : Text → List Text) {key : Key}
    (hk : drafting key = true) :
    Lost (Emacs.keyMap.handleKey E comp key ({}, s)) ∨
      ∃ s1, Emacs.keyMap.handleKey E comp key ({}, s) = .ok false ({}, s1) ∧
        Begun h fs (redrafted ((proposal h x).map (·.data)) x key)
          (proposal h (redrafted ((proposal h x).map (·.data)) x key)) s1 := by
  have hg : s.autosuggestion = proposal h x := by
    obtain ⟨p, l, c, o, n, b, ch, e, rfl⟩ := hs; rfl
  have hsc : ∀ {y}, proposal h x = some y → Begun h fs x (some y) s := fun e => e ▸ hs
  have hend : cursorIsAtEndOfLine s = .ok true s := by
    obtain ⟨p, l, c, o, n, b, ch, rfl, rfl⟩ := hs
    simp [cursorIsAtEndOfLine, bind, M.bind, M.get, curBuf, Ed.curBuf?, Buffer.numChars, pure, M.pure]
  have hnop : Ensues (pure ()) s (Begun h fs x (proposal h x)) := .inr ⟨s, rfl, hs⟩
  cases key with
  | char y =>
    simp only [drafting, decide_eq_true_eq] at hk
    exact begun_type hs comp hk.1 hk.2
  | backspace => exact begun_step hs (fun b => dispatch_body b (by decide) (fun h => absurd h (by decide)) rfl) (begun_skip (begun_backspace hs))
  | delete => exact begun_step hs (fun b => dispatch_body b (by decide) (fun h => absurd h (by decide)) rfl) (begun_skip (begun_delete hs))
  | «end» => exact begun_step hs (fun b => dispatch_body b (by decide) (fun h => absurd h (by decide)) rfl) (begun_skip (begun_end hs))
  | null => exact begun_step hs (fun b => dispatch_body b (by decide) (fun h => absurd h (by decide)) rfl) (begun_skip hnop)
  | other n =>
    refine begun_step hs (fun b => dispatch_body b ?_ ?_ rfl) (begun_skip hnop)
    · simp [KeyMap.translate]
    · simp [KeyMap.translate]
  | right =>
    cases hp : proposal h x with
    | none =>
      rw [hp] at hg
      exact begun_step hs (fun b => dispatch_body b (by decide) (fun _ => hg) rfl) (begun_skip (begun_right hs))
    | some y =>
      rw [hp] at hg
      refine begun_step hs (fun b => ?_) (begun_accept (E := E) (hsc hp) hp)
      have ht : KeyMap.translate .right = .right := by simp [KeyMap.translate]
      rw [ht]
      unfold KeyMap.dispatch
      simp [bind, M.bind, ed, M.zoom, M.get, hg, hend]
  | ctrl c =>
    simp only [drafting, decide_eq_true_eq, List.mem_cons, List.not_mem_nil, or_false, not_or] at hk
    obtain ⟨k1, k2, k3, k4, k5, k6, k7, k8, k9, k10⟩ := hk
    by_cases c1 : c = 'h'
    · subst c1
      exact begun_step hs (fun b => dispatch_body b (by decide) (fun h => absurd h (by decide)) rfl) (begun_skip (begun_backspace hs))
    have ht : KeyMap.translate (.ctrl c) = .ctrl c := by simp [KeyMap.translate, c1]
    have hm : (.ctrl c : Key) ∉ [.ctrl 'c', .ctrl 'd', .char '\t', .char '\n', .ctrl 'r', .ctrl 's', .alt '.'] := by
      simp [k3, k4, k7, k8]
    by_cases c2 : c = 'f'
    · subst c2
      cases hp : proposal h x with
      | none =>
        rw [hp] at hg
        exact begun_step hs (fun b => dispatch_body b (by decide) (fun _ => hg) rfl) (begun_skip (begun_right hs))
      | some y =>
        rw [hp] at hg
        refine begun_step hs (fun b => ?_) (begun_accept (E := E) (hsc hp) hp)
        rw [ht]
        unfold KeyMap.dispatch
        simp [bind, M.bind, ed, M.zoom, M.get, hg]
    have hf : (.ctrl c : Key) = .ctrl 'f' ∨ (.ctrl c : Key) = .right → s.autosuggestion = none := by simp [c2]
    have go : ∀ {op x'}, Emacs.handleKeyBody E (.ctrl c) = ed op → Ensues op s (Begun h fs x' (proposal h x')) → _ :=
      fun {op x'} e ho => begun_step (comp := comp) (key := .ctrl c) (x' := x') hs
        (fun b => by rw [ht]; exact dispatch_body b hm hf e) (begun_skip ho)
    by_cases c3 : c = 'u'
    · subst c3; exact go rfl (begun_kill hs)
    by_cases c4 : c = 'l'
    · subst c4; exact go rfl (begun_clear hs)
    by_cases c5 : c = 'e'
    · subst c5; exact go rfl (begun_end hs)
    by_cases c6 : c = 'k'
    · subst c6; exact go rfl (begun_killAfter hs)
    have hr : redrafted ((proposal h x).map (·.data)) x (.ctrl c) = x := by simp [redrafted, c1, c2, c3]
    rw [hr]
    refine go (op := pure ()) ?_ hnop
    simp [Emacs.handleKeyBody, Emacs.handleCtrlKey, *]
  | _ => cases hk

/-- The draft after some keys. -/
def drafted (g : Text → Option Text) (x : Text) (keys : List (Key × (Text → List Text))) : Text :=
  keys.foldl (fun x k => redrafted (g x) x k.1) x

theorem begun_drafted (input : List KeyMap.Input) :
    ∀ (keys : List (Key × (Text → List Text))) (x : Text) (s : Ed), Begun h fs x (proposal h x) s →
      (∀ k ∈ keys, drafting k.1 = true) →
      Lost (Emacs.keyMap.loop E (keys.map (fun k => .key k.1 k.2) ++ input) ({}, s)) ∨
      ∃ s1, Emacs.keyMap.loop E (keys.map (fun k => .key k.1 k.2) ++ input) ({}, s) = Emacs.keyMap.loop E input ({}, s1) ∧
        Begun h fs (drafted (fun x => (proposal h x).map (·.data)) x keys)
          (proposal h (drafted (fun x => (proposal h x).map (·.data)) x keys)) s1
  | [], x, s, hs, _ => .inr ⟨s, rfl, hs⟩
  | k :: keys, x, s, hs, hk => by
    have hcons : Emacs.keyMap.loop E ((k :: keys).map (fun k => .key k.1 k.2) ++ input) (({} : Emacs), s) =
        (Emacs.keyMap.handleKey E k.2 k.1 >>= fun done =>
          if done then ed M.get >>= fun s => ofOption (intoText s)
          else Emacs.keyMap.loop E (keys.map (fun k => .key k.1 k.2) ++ input)) (({} : Emacs), s) := rfl
    rw [hcons]
    show Lost (M.bind _ _ _) ∨ ∃ s1, M.bind _ _ _ = _ ∧ _
    unfold M.bind
    rcases begun_redraft (E := E) hs k.2 (hk k (by simp)) with h3 | ⟨s1, e1, b1⟩
    · left
      revert h3
      generalize Emacs.keyMap.handleKey E k.2 k.1 _ = r
      cases r <;> simp [Lost]
    · rw [e1]
      exact begun_drafted input keys _ s1 b1 fun k' hk' => hk k' (by simp [hk'])

end

end Liner
