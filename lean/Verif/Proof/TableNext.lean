import Verif.Proof.Table
import Verif.Proof.BenchNext
/-
What the table becomes is determined.
-/

namespace Liner
namespace Props
open Editor Liner.Spec

section
variable {entries : List Text} {b c : Bench} {key : Key} {comp : Text → List Text} {t : Table} {o o' : Option Table}

/-- What is true of every table. -/
structure Whole (entries : List Text) (t : Table) : Prop where
  sound : t.bench.desk.Sound entries
  fine : ∀ cs i, t.list = some (cs, i) → cs ≠ [] ∧ ∀ x, i = some x → x < cs.length

theorem sound_put {q : Sheet} {touch : Bool} (h : b.desk.Sound entries) (hq : q.arg = b.desk.arg) :
    (b.put entries touch q).desk.Sound entries := by
  have hb : Sheet.Bound entries q := fun i hi => h.arg i (hq.symm.trans hi)
  unfold Bench.put
  split
  · exact sound_write h hb
  · exact sound_seek h hb

theorem sound_paste {x : Text} (h : b.desk.Sound entries) : (b.paste entries x).desk.Sound entries := sound_put h rfl

theorem sound_dropped {l w : Text} {touch : Bool} (h : b.desk.Sound entries) : (b.drop entries touch l w).desk.Sound entries := by
  unfold Bench.drop
  split <;> exact sound_put h rfl

theorem common_unique {cs : List Text} {p q : Text} (hp : CommonPrefix cs p) (hq : CommonPrefix cs q) : p = q :=
  (hq.2 p hp.1).eq_of_length_le (hp.2 q hq.1).length_le

theorem following_lt {cs : List Text} {i : Option Nat} (h : cs ≠ []) (hi : ∀ x, i = some x → x < cs.length) :
    Table.following cs.length i < cs.length := by
  have := List.length_pos_iff.mpr h
  cases i with
  | none => exact this
  | some i =>
    have := hi i rfl
    show (if i + 1 = cs.length then 0 else i + 1) < cs.length
    by_cases he : i + 1 = cs.length
    · rw [if_pos he]; omega
    · rw [if_neg he]; omega

theorem begins_ex (h : b.desk.Sound entries) : ∃ o, Table.Begins entries comp b o ∧ ∀ u, o = some u → Whole entries u := by
  obtain ⟨l, w1, w2, r, hl, hr, ht⟩ := parts_ex b.desk.left b.desk.right
  have hp : b.Parts l w1 w2 r := ⟨hl, hr, ht⟩
  have hcs := sortDedup_spec (comp (w1 ++ w2))
  generalize sortDedup (comp (w1 ++ w2)) = cs at hcs
  match cs, hcs with
  | [], hcs =>
    refine ⟨_, ⟨l, w1, w2, r, [], hp, hcs, .inl ⟨rfl, rfl⟩⟩, fun u hu => ?_⟩
    split at hu
    · cases hu
      exact ⟨h, by simp⟩
    · cases hu
  | [x], hcs =>
    refine ⟨_, ⟨l, w1, w2, r, [x], hp, hcs, .inr (.inl ⟨x, rfl, rfl⟩)⟩, fun u hu => ?_⟩
    cases hu
    exact ⟨sound_paste (sound_dropped h), by simp⟩
  | x :: y :: zs, hcs =>
    obtain ⟨p, hp'⟩ := common_ex (cs := x :: y :: zs) (by simp)
    refine ⟨_, ⟨l, w1, w2, r, _, hp, hcs, .inr (.inr ⟨p, by simp, hp', rfl⟩)⟩, fun u hu => ?_⟩
    cases hu
    split
    · exact ⟨sound_paste (sound_dropped h), by simp⟩
    · refine ⟨sound_put h rfl, fun cs i e => ?_⟩
      cases e
      exact ⟨by simp, by simp⟩

theorem begins_unique (h : Table.Begins entries comp b o) (h' : Table.Begins entries comp b o') : o = o' := by
  obtain ⟨l, w1, w2, r, cs, hp, hcs, h⟩ := h
  obtain ⟨l', w1', w2', r', cs', hp', hcs', h'⟩ := h'
  obtain ⟨rfl, rfl, rfl, rfl⟩ := parts_unique hp.left hp.right hp.touched hp'.left hp'.right hp'.touched
  obtain rfl := SortedSet.unique hcs hcs'
  rcases h with ⟨rfl, rfl⟩ | ⟨c, rfl, rfl⟩ | ⟨p, h2, h3, rfl⟩ <;> rcases h' with ⟨e, rfl⟩ | ⟨c', e, rfl⟩ | ⟨p', h2', h3', rfl⟩
  · rfl
  · cases e
  · simp at h2'
  · cases e
  · cases e; rfl
  · simp at h2'
  · subst e; simp at h2
  · subst e; simp at h2
  · rw [common_unique h3 h3']

theorem goes_ex {cs : List Text} {i : Option Nat} (h : b.desk.Sound entries) (hn : cs ≠ []) (hi : ∀ x, i = some x → x < cs.length) :
    ∃ u, Table.Goes entries cs i b (some u) ∧ Whole entries u := by
  have hj := following_lt hn hi
  have hc : cs[Table.following cs.length i]? = some cs[Table.following cs.length i] := List.getElem?_eq_getElem hj
  have fine : ∀ c : Bench, c.desk.Sound entries → Whole entries ⟨c, some (cs, some (Table.following cs.length i))⟩ :=
    fun c hs => ⟨hs, fun cs' i' e => by cases e; exact ⟨hn, fun x hx => by cases hx; exact hj⟩⟩
  by_cases hx : ∃ x, i = some x ∧ cs[x]? = some b.desk.text
  · exact ⟨_, ⟨_, _, rfl, hc, .inl ⟨hx, rfl⟩⟩, fine _ (sound_put h rfl)⟩
  · obtain ⟨l, w1, w2, r, hl, hr, ht⟩ := parts_ex b.desk.left b.desk.right
    exact ⟨_, ⟨_, _, rfl, hc, .inr ⟨fun x e e' => hx ⟨x, e, e'⟩, l, w1, w2, r, ⟨hl, hr, ht⟩, rfl⟩⟩,
      fine _ (sound_paste (sound_dropped h))⟩

theorem goes_unique {cs : List Text} {i : Option Nat} (h : Table.Goes entries cs i b o) (h' : Table.Goes entries cs i b o') : o = o' := by
  obtain ⟨j, c, rfl, hc, h⟩ := h
  obtain ⟨j', c', rfl, hc', h'⟩ := h'
  rw [hc] at hc'
  cases hc'
  rcases h with ⟨⟨x, e, hx⟩, rfl⟩ | ⟨hx, l, w1, w2, r, hp, rfl⟩ <;> rcases h' with ⟨⟨x', e', hx'⟩, rfl⟩ | ⟨hx', l', w1', w2', r', hp', rfl⟩
  · rfl
  · exact absurd hx (hx' x e)
  · exact absurd hx' (hx x' e')
  · obtain ⟨rfl, rfl, rfl, rfl⟩ := parts_unique hp.left hp.right hp.touched hp'.left hp'.right hp'.touched
    rfl

theorem table_next_ex (h : Whole entries t) (key : Key) (comp : Text → List Text) :
    ∃ o, t.Next entries key comp o ∧ ∀ u, o = some u → Whole entries u := by
  unfold Table.Next
  split
  · obtain ⟨b, l⟩ := t
    cases l with
    | none => exact begins_ex h.sound
    | some p =>
      obtain ⟨cs, i⟩ := p
      obtain ⟨u, h1, h2⟩ := goes_ex (i := i) h.sound (h.fine cs i rfl).1 (h.fine cs i rfl).2
      exact ⟨some u, h1, fun u' e => by cases e; exact h2⟩
  · refine ⟨_, ⟨t.bench.step entries key, (bench_next_iff h.sound).mpr rfl, rfl⟩, fun u hu => ?_⟩
    cases hu
    refine ⟨sound_bench h.sound, fun cs i e => ?_⟩
    dsimp only at e
    split at e
    · exact h.fine cs i e
    · cases e

theorem table_next_unique (h : Whole entries t) (h1 : t.Next entries key comp o) (h2 : t.Next entries key comp o') : o = o' := by
  unfold Table.Next at h1 h2
  split at h1
  · rename_i hk
    rw [if_pos hk] at h2
    obtain ⟨b, l⟩ := t
    cases l with
    | none => exact begins_unique h1 h2
    | some p => exact goes_unique h1 h2
  · rename_i hk
    rw [if_neg hk] at h2
    obtain ⟨c, g1, rfl⟩ := h1
    obtain ⟨c', g2, rfl⟩ := h2
    rw [bench_next_iff h.sound] at g1 g2
    rw [g1, g2]

theorem table_next_whole (h : Whole entries t) {u : Table} (h1 : t.Next entries key comp (some u)) : Whole entries u := by
  obtain ⟨o, g1, g2⟩ := table_next_ex h key comp
  exact g2 u (table_next_unique h g1 h1)

theorem table_run_unique : ∀ {keys : List (Key × (Text → List Text))} {t : Table}, Whole entries t → ∃! o, Table.Run entries keys t o
  | [], t, _ => ⟨some t, rfl, fun _ h => h⟩
  | (key, comp) :: keys, t, h => by
    obtain ⟨m, g1, g2⟩ := table_next_ex h key comp
    cases m with
    | none =>
      refine ⟨none, ⟨none, g1, rfl⟩, ?_⟩
      rintro o ⟨m, h1, h2⟩
      cases table_next_unique h g1 h1
      exact h2
    | some m =>
      obtain ⟨o, h1, h2⟩ := table_run_unique (keys := keys) (g2 m rfl)
      refine ⟨o, ⟨some m, g1, h1⟩, ?_⟩
      rintro o' ⟨m', h3, h4⟩
      cases table_next_unique h g1 h3
      exact h2 o' h4

theorem table_reads_unique : ∀ {input : List (Option (Key × (Text → List Text)))} {t : Table}, Whole entries t →
    ∃! o, Table.Reads entries input t o
  | [], t, _ => ⟨_, rfl, fun _ h => h⟩
  | none :: _, t, _ => ⟨_, rfl, fun _ h => h⟩
  | some (key, comp) :: rest, t, h => by
    unfold Table.Reads
    split
    · exact ⟨_, rfl, fun _ h => h⟩
    split
    · exact ⟨_, rfl, fun _ h => h⟩
    split
    · dsimp only
      have he : (t.bench.enter entries).Sound entries := sound_enter h.sound
      split
      · exact table_reads_unique ⟨sound_write he he.arg, by simp⟩
      split
      · exact table_reads_unique ⟨sound_write he he.arg, by simp⟩
      · exact ⟨_, rfl, fun _ h => h⟩
    · obtain ⟨m, g1, g2⟩ := table_next_ex h key comp
      cases m with
      | none =>
        refine ⟨none, ⟨none, g1, rfl⟩, ?_⟩
        rintro o ⟨m, h1, h2⟩
        cases table_next_unique h g1 h1
        exact h2
      | some m =>
        obtain ⟨o, h1, h2⟩ := table_reads_unique (input := rest) (g2 m rfl)
        refine ⟨o, ⟨some m, g1, h1⟩, ?_⟩
        rintro o' ⟨m', h3, h4⟩
        cases table_next_unique h g1 h3
        exact h2 o' h4

theorem whole_fresh (entries : List Text) (t : Text) : Whole entries ⟨⟨.fresh t, none⟩, none⟩ := ⟨sound_fresh entries t, by simp⟩

end
end Props
end Liner
