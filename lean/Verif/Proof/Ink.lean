import Verif.Model.Buffer
/-
Which characters a buffer is made of: no operation brings in characters that were not in the line, in its log or in
what is inserted.
-/

namespace Liner

/-- All characters satisfy `P`. -/
def Ink (P : Char → Prop) (t : Text) : Prop := ∀ c ∈ t, P c

/-- The characters of an entry of the log. -/
def ActInk (P : Char → Prop) : Action → Prop
  | .insert _ t => Ink P t
  | .remove _ t => Ink P t
  | _ => True

/-- The characters of a buffer and its log. -/
structure BufInk (P : Char → Prop) (b : Buffer) : Prop where
  data : Ink P b.data
  acts : ∀ a ∈ b.actions, ActInk P a
  und : ∀ a ∈ b.undone, ActInk P a

section
variable {P : Char → Prop}

theorem Ink.nil : Ink P [] := fun _ h => by cases h
theorem Ink.append {a b : Text} (ha : Ink P a) (hb : Ink P b) : Ink P (a ++ b) :=
  fun c hc => (List.mem_append.1 hc).elim (ha c) (hb c)
theorem Ink.left {a b : Text} (h : Ink P (a ++ b)) : Ink P a := fun c hc => h c (List.mem_append_left _ hc)
theorem Ink.right {a b : Text} (h : Ink P (a ++ b)) : Ink P b := fun c hc => h c (List.mem_append_right _ hc)
theorem Ink.take {t : Text} (h : Ink P t) (n : Nat) : Ink P (t.take n) := fun c hc => h c (List.mem_of_mem_take hc)
theorem Ink.drop {t : Text} (h : Ink P t) (n : Nat) : Ink P (t.drop n) := fun c hc => h c (List.mem_of_mem_drop hc)

theorem BufInk.empty : BufInk P {} := ⟨.nil, (fun _ h => nomatch h), (fun _ h => nomatch h)⟩

theorem insertRaw_ink {d t : Text} {n : Nat} {d' : Text} (h : insertRaw d n t = some d') (hd : Ink P d) (ht : Ink P t) :
    Ink P d' := by
  induction t generalizing d n with
  | nil => unfold insertRaw at h; cases h; exact hd
  | cons c cs ih =>
    unfold insertRaw at h
    split at h
    · refine ih h ?_ (fun x hx => ht x (List.mem_cons_of_mem _ hx))
      refine (hd.take n).append fun x hx => ?_
      rcases List.mem_cons.1 hx with rfl | hx
      · exact ht _ (List.mem_cons_self ..)
      · exact hd.drop n x hx
    · cases h

theorem removeRaw_ink {d a d' : Text} {i j : Nat} (h : removeRaw d i j = some (a, d')) (hd : Ink P d) : Ink P a ∧ Ink P d' := by
  unfold removeRaw at h
  split at h
  · cases h
    exact ⟨(hd.drop i).take _, (hd.take i).append (hd.drop j)⟩
  · cases h

theorem doOn_ink {a : Action} {d d' : Text} (h : a.doOn d = some d') (hd : Ink P d) (ha : ActInk P a) : Ink P d' := by
  cases a with
  | insert n t => exact insertRaw_ink h hd ha
  | remove n t =>
    unfold Action.doOn at h
    rw [Option.map_eq_some_iff] at h
    obtain ⟨x, h1, rfl⟩ := h
    exact (removeRaw_ink (a := x.1) (d' := x.2) h1 hd).2
  | startGroup => cases h; exact hd
  | endGroup => cases h; exact hd

theorem undoOn_ink {a : Action} {d d' : Text} (h : a.undo d = some d') (hd : Ink P d) (ha : ActInk P a) : Ink P d' := by
  cases a with
  | remove n t => exact insertRaw_ink h hd ha
  | insert n t =>
    unfold Action.undo at h
    rw [Option.map_eq_some_iff] at h
    obtain ⟨x, h1, rfl⟩ := h
    exact (removeRaw_ink (a := x.1) (d' := x.2) h1 hd).2
  | startGroup => cases h; exact hd
  | endGroup => cases h; exact hd

theorem cons_ink {a : Action} {l : List Action} (ha : ActInk P a) (hl : ∀ a ∈ l, ActInk P a) : ∀ x ∈ a :: l, ActInk P x := by
  intro x hx
  rcases List.mem_cons.1 hx with rfl | hx
  · exact ha
  · exact hl x hx

variable {b b' : Buffer}

theorem undoLoop_ink {l : List Action} {d : Text} {u : List Action} {n : Int} {k : Nat}
    (h : Buffer.undoLoop l d u n k = some b') (hl : ∀ a ∈ l, ActInk P a) (hd : Ink P d) (hu : ∀ a ∈ u, ActInk P a) :
    BufInk P b' := by
  induction l generalizing d u n k with
  | nil => unfold Buffer.undoLoop at h; cases h; exact ⟨hd, (fun _ h => nomatch h), hu⟩
  | cons a l ih =>
    unfold Buffer.undoLoop at h
    have ha := hl a (List.mem_cons_self ..)
    have hl' : ∀ a ∈ l, ActInk P a := fun x hx => hl x (List.mem_cons_of_mem _ hx)
    split at h
    · cases h
    · rename_i d2 hd2
      dsimp only at h
      split at h
      · cases h
        exact ⟨undoOn_ink hd2 hd ha, hl', cons_ink ha hu⟩
      · exact ih h hl' (undoOn_ink hd2 hd ha) (cons_ink ha hu)

theorem redoLoop_ink {l : List Action} {d : Text} {u : List Action} {n : Int} {k : Nat}
    (h : Buffer.redoLoop l d u n k = some b') (hl : ∀ a ∈ l, ActInk P a) (hd : Ink P d) (hu : ∀ a ∈ u, ActInk P a) :
    BufInk P b' := by
  induction l generalizing d u n k with
  | nil => unfold Buffer.redoLoop at h; cases h; exact ⟨hd, hu, (fun _ h => nomatch h)⟩
  | cons a l ih =>
    unfold Buffer.redoLoop at h
    have ha := hl a (List.mem_cons_self ..)
    have hl' : ∀ a ∈ l, ActInk P a := fun x hx => hl x (List.mem_cons_of_mem _ hx)
    split at h
    · cases h
    · rename_i d2 hd2
      dsimp only at h
      split at h
      · cases h
        exact ⟨doOn_ink hd2 hd ha, cons_ink ha hu, hl'⟩
      · exact ih h hl' (doOn_ink hd2 hd ha) (cons_ink ha hu)

theorem undo_ink {d : Bool} (h : b.undo = some (d, b')) (hb : BufInk P b) : BufInk P b' := by
  unfold Buffer.undo at h
  rw [Option.map_eq_some_iff] at h
  obtain ⟨x, h1, h2⟩ := h
  cases h2
  exact undoLoop_ink h1 hb.acts hb.data hb.und

theorem redo_ink {d : Bool} (h : b.redo = some (d, b')) (hb : BufInk P b) : BufInk P b' := by
  unfold Buffer.redo at h
  rw [Option.map_eq_some_iff] at h
  obtain ⟨x, h1, h2⟩ := h
  cases h2
  exact redoLoop_ink h1 hb.und hb.data hb.acts

theorem revertLoop_ink {n : Nat} (h : Buffer.revertLoop n b = some b') (hb : BufInk P b) : BufInk P b' := by
  induction n generalizing b with
  | zero => cases h
  | succ n ih =>
    unfold Buffer.revertLoop at h
    split at h
    · cases h
    · rename_i h1; exact ih h (undo_ink h1 hb)
    · rename_i h1; cases h; exact undo_ink h1 hb

theorem revert_ink {d : Bool} (h : b.revert = some (d, b')) (hb : BufInk P b) : BufInk P b' := by
  unfold Buffer.revert at h
  split at h
  · cases h; exact hb
  · rw [Option.map_eq_some_iff] at h
    obtain ⟨x, h1, h2⟩ := h
    cases h2
    exact revertLoop_ink h1 hb

theorem insert_ink {n : Nat} {t : Text} (h : b.insert n t = some b') (hb : BufInk P b) (ht : Ink P t) : BufInk P b' := by
  unfold Buffer.insert at h
  dsimp only at h
  split at h
  · cases h
  · rename_i d hd
    cases h
    exact ⟨doOn_ink hd hb.data ht, cons_ink ht hb.acts, (fun _ h => nomatch h)⟩

theorem remove_ink {i j n : Nat} (h : b.remove i j = some (n, b')) (hb : BufInk P b) : BufInk P b' := by
  unfold Buffer.remove at h
  split at h
  · cases h
  · rename_i s d hd
    cases h
    have := removeRaw_ink hd hb.data
    exact ⟨this.2, cons_ink this.1 hb.acts, (fun _ h => nomatch h)⟩

theorem truncate_ink {n : Nat} (h : b.truncate n = some b') (hb : BufInk P b) : BufInk P b' := by
  unfold Buffer.truncate at h
  rw [Option.map_eq_some_iff] at h
  obtain ⟨x, h1, rfl⟩ := h
  exact remove_ink (n := x.1) (b' := x.2) h1 hb

theorem copyBuffer_ink {o : Buffer} (h : b.copyBuffer o = some b') (hb : BufInk P b) (ho : Ink P o.data) : BufInk P b' := by
  unfold Buffer.copyBuffer at h
  split at h
  · cases h
  · rename_i h1
    exact insert_ink h (remove_ink h1 hb) ho

theorem insertFrom_ink {o : Buffer} (h : b.insertFromBuffer o = some b') (hb : BufInk P b) (ho : Ink P o.data) : BufInk P b' := by
  unfold Buffer.insertFromBuffer at h
  dsimp only at h
  split at h
  · exact insert_ink h hb (ho.drop _)
  · cases h

theorem startGroup_ink (hb : BufInk P b) : BufInk P b.startUndoGroup := ⟨hb.data, cons_ink trivial hb.acts, hb.und⟩
theorem endGroup_ink (hb : BufInk P b) : BufInk P b.endUndoGroup := ⟨hb.data, cons_ink trivial hb.acts, hb.und⟩
theorem ofText_ink {t : Text} (h : Ink P t) : BufInk P (.ofText t) := ⟨h, (fun _ h => nomatch h), (fun _ h => nomatch h)⟩

theorem splitOn_ink {p : Char → Bool} {t : Text} (h : Ink P t) : ∀ l ∈ Buffer.splitOn p t, ∀ c ∈ l, P c ∧ p c = false := by
  induction t with
  | nil =>
    intro l hl c hc
    unfold Buffer.splitOn at hl
    rw [List.mem_singleton] at hl
    subst hl
    cases hc
  | cons x t ih =>
    intro l hl c hc
    have ih := ih (fun c hc => h c (List.mem_cons_of_mem _ hc))
    unfold Buffer.splitOn at hl
    split at hl
    · rcases List.mem_cons.1 hl with rfl | hl
      · cases hc
      · exact ih l hl c hc
    · rename_i hx
      have hx : P x ∧ p x = false := ⟨h x (List.mem_cons_self ..), by simpa using hx⟩
      split at hl
      · rw [List.mem_singleton] at hl
        subst hl
        rw [List.mem_singleton] at hc
        subst hc
        exact hx
      · rename_i h0 t0 he
        rw [he] at ih
        rcases List.mem_cons.1 hl with rfl | hl
        · rcases List.mem_cons.1 hc with rfl | hc
          · exact hx
          · exact ih h0 (List.mem_cons_self ..) c hc
        · exact ih l (List.mem_cons_of_mem _ hl) c hc

theorem lastArg_ink {t : Text} (h : b.lastArg = some t) (hb : Ink P b.data) : Ink P t := by
  unfold Buffer.lastArg at h
  have := List.mem_of_getLast? h
  rw [List.mem_filter] at this
  exact fun c hc => (splitOn_ink hb t this.1 c hc).1

theorem range_ink {i j : Nat} {t : Text} (h : b.range i j = some t) (hb : Ink P b.data) : Ink P t := by
  unfold Buffer.range at h
  split at h
  · cases h; exact (hb.drop i).take _
  · cases h

end
end Liner
