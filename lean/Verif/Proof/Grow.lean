import Verif.Proof.Display
/-
What a redraw appends to the context's string buffer.
-/

namespace Liner
namespace Editor

/-- A redraw appends at least its first three pieces. -/
def Grown (s s' : Ed) : Prop := ∃ t, s'.ctxBuf = s.ctxBuf ++ t ∧ 3 ≤ t.length

theorem Grown.pre {s s' : Ed} (h : Grown s s') : s.ctxBuf <+: s'.ctxBuf := by
  obtain ⟨t, h, -⟩ := h
  exact ⟨t, h.symm⟩

theorem frame_pieces {E : Env} {sa : Bool} {s : Ed} {pr : Text × Nat} {tw : Nat} {b : Buffer} {tc : List Nat} {up : List Tok}
    {comp : Nat × List Tok} {f : Frame} (h : frame E sa s pr tw b tc up comp = some f) : 3 ≤ f.toks.length := by
  unfold frame at h
  dsimp only at h
  split at h
  · cases h
    simp only [List.length_append, List.length_cons, List.length_nil]
    omega
  · cases h

theorem displayImpl_grows (E : Env) (sa : Bool) (s : Ed) :
    Wp (displayImpl E sa) s (fun _ s' => Grown s s') (fun _ s' => s.ctxBuf <+: s'.ctxBuf) (fun _ => True) := by
  have key : ∀ pr, 
      Wp (do
        let tw ← terminalWidth E
        let buf ← curBuf
        M.modify fun s => { s with cursor := clampCursor s.noEol buf.numChars s.cursor }
        let s ← M.get
        let toCursor ← M.ofOptionRedraw (widthsToCursor E s.autosuggestion buf s.cursor)
        let up ← M.ofOptionRows (upToks s.termCursorLine)
        let comp ← completionPart E s.showCompletionsHint
        let f ← M.ofOptionRedraw (frame E sa s pr tw buf toCursor up comp)
        M.modify fun s => { s with termCursorLine := f.line, ctxBuf := s.ctxBuf ++ f.toks }
        writeTerm E f.toks
        flush E) s
      (fun _ s' => Grown s s') (fun _ s' => s.ctxBuf <+: s'.ctxBuf) (fun _ => True) := by
    intro pr
    simp only [wp_bind, wp_terminalWidth, wp_curBuf, wp_modify, wp_get, wp_ofOptionRedraw,
      wp_ofOptionRows]
    refine ⟨fun w hw => ⟨fun b hb => ?_, fun h => trivial⟩, fun _ => List.prefix_refl _⟩
    refine ⟨fun tc htc => ⟨fun up hup => ?_, fun h => trivial⟩, fun h => trivial⟩
    refine wp_completionPart (fun comp t hc => ?_) (fun t => ?_)
    · simp only [wp_writeTerm, wp_flush]
      refine ⟨fun f hf => ?_, fun h => trivial⟩
      refine ⟨fun _ => ⟨fun _ => ?_, fun _ => ?_⟩, fun _ => ?_⟩
      · exact ⟨f.toks, rfl, frame_pieces hf⟩
      · exact List.prefix_append _ _
      · exact List.prefix_append _ _
    · exact List.prefix_refl _
  unfold displayImpl
  rw [wp_bind, wp_searchPrompt]
  exact ⟨fun hs => ⟨fun b hb => key _, fun _ => trivial⟩, fun hs => key _⟩

theorem display_grows (E : Env) (s : Ed) :
    Wp (display E) s (fun _ s' => Grown s s') (fun _ s' => s.ctxBuf <+: s'.ctxBuf) (fun _ => True) := by
  rw [display_wp']
  refine ⟨fun sug _ => ?_, fun _ => trivial⟩
  have e : (pre s).ctxBuf = s.ctxBuf := by
    unfold pre
    split <;> rfl
  refine wp_mono (displayImpl_grows E true _) (fun _ s' h => ?_) (fun _ s' h => ?_) (fun _ h => h)
  · unfold Grown at h ⊢
    rw [← e]
    exact h
  · rw [← e]
    exact h

end Editor
end Liner
