import Verif.Spec.Bench
import Verif.Proof.Acts
import Verif.Proof.Search
/-
The Emacs keys during a search.
-/

namespace Liner
namespace Props
open Editor KM Liner.Spec

theorem holding_index (h : History) (b : Buffer) : h.searchIndex b = Desk.holding (texts h) b.data := by
  unfold History.searchIndex Desk.holding
  have hlen : h.buffers.length = (texts h).length := by simp [texts]
  rw [hlen]
  apply List.filter_congr
  intro i _
  simp only [texts, List.getElem?_map, Option.any_map]
  cases ht : h.buffers[i]? with
  | none => rfl
  | some t =>
    have hc : (∃ pre post, t.data = pre ++ b.data ++ post) ↔ b.data <:+: t.data :=
      ⟨fun ⟨x, y, e⟩ => ⟨x, y, e.symm⟩, fun ⟨x, y, e⟩ => ⟨x, y, e.symm⟩⟩
    rw [Option.any_some, Option.any_some, Bool.eq_iff_iff]
    simp only [C09_contains, hc, decide_eq_true_eq]

theorem begins_eq (f : Bool) (t : Option Nat) {l : List Nat} (hl : l.Pairwise (· < ·)) :
    (if l.isEmpty then none
    else match t with
      | some t => some ((refreshLoc f t l 0).getD (if f then 0 else l.length - 1))
      | none => some (if f then 0 else l.length - 1)) = Desk.begins f t l := by
  unfold Desk.begins
  by_cases he : l = []
  · simp [he]
  rw [if_neg (by simpa using he), if_neg he]
  cases t with
  | none => rfl
  | some t =>
    dsimp only
    have hspec := refreshLoc_spec f t l 0 hl
    split at hspec
    · rename_i hn
      have h1 : l.filter (fun x => decide (x < t)) = l := List.filter_eq_self.mpr fun x hx => by simpa using hspec x hx
      have h2 : l.filter (fun x => decide (x ≤ t)) = l :=
        List.filter_eq_self.mpr fun x hx => by simpa using Nat.le_of_lt (hspec x hx)
      rw [hn, h1, h2]
      cases f <;> simp
    · rename_i p hp
      obtain ⟨a, b, g1, g2, g3, g4, g5⟩ := hspec
      have e1 : a.filter (fun x => decide (x < t)) = a := List.filter_eq_self.mpr fun x hx => by simpa using g1 x hx
      have e2 : b.filter (fun x => decide (x < t)) = [] :=
        List.filter_eq_nil_iff.mpr fun x hx => by simpa using g3 x hx
      have e3 : a.filter (fun x => decide (x ≤ t)) = a :=
        List.filter_eq_self.mpr fun x hx => by simpa using Nat.le_of_lt (g1 x hx)
      have hb := List.length_pos_iff.mpr g4
      rw [hp, Option.getD_some, g2, List.filter_append, List.filter_append, e1, e2, e3]
      cases f with
      | true =>
        rw [if_pos (.inl rfl)] at g5
        rw [if_pos rfl, if_pos (by simp; omega), g5]
        simp
      | false =>
        rw [if_neg (by simp)]
        obtain ⟨y, b', rfl⟩ := List.exists_cons_of_ne_nil g4
        rw [g2] at hl
        have hb' := (List.pairwise_cons.mp (List.pairwise_append.mp hl).2.1).1
        have hy := g3 y (by simp)
        have e4 : b'.filter (fun x => decide (x ≤ t)) = [] :=
          List.filter_eq_nil_iff.mpr fun x hx => by have := hb' x hx; simp; omega
        simp only [List.head?_cons, Option.some.injEq, Nat.zero_add, Bool.false_eq_true, false_or] at g5
        rw [List.filter_cons, e4, g5]
        by_cases hyt : y = t
        · subst hyt
          simp
        · have hlt : ¬ y ≤ t := by omega
          by_cases ha : a.length = 0
          · simp [ha, hlt]
          · simp [hlt, hyt]
            intro h; simp [h] at ha

theorem holding_sorted (h : History) (b : Buffer) : (Desk.holding (texts h) b.data).Pairwise (· < ·) := by
  rw [← holding_index]
  exact (C19_search_index h b).1

theorem holding_lt (h : History) {t : Text} {i : Nat} (hi : i ∈ Desk.holding (texts h) t) : i < h.buffers.length := by
  unfold Desk.holding at hi
  have := List.mem_range.mp (List.mem_filter.mp hi).1
  simpa [texts] using this

theorem begins_lt {f : Bool} {t : Option Nat} {l : List Nat} {i : Nat} (h : Desk.begins f t l = some i) : i < l.length := by
  unfold Desk.begins at h
  split at h
  · cases h
  · rename_i hl
    have hp := List.length_pos_iff.mpr hl
    cases t with
    | none =>
      dsimp only at h
      cases h
      split <;> omega
    | some t =>
      dsimp only at h
      cases h
      have := List.length_filter_le (fun x => decide (x ≤ t)) l
      split
      · split <;> omega
      · omega

section
variable (E : Env) (comp : Text → List Text) {H : History} {k k' : Emacs} {s s' : Ed} {d : Desk} {key : Key} {f : Bool} {q : Sheet}

theorem Lies.target (h : Lies H s d) : s.searchHistoryLoc = d.walk.bind (d.met[·]?) := by
  unfold Ed.searchHistoryLoc
  rw [h.walk, h.met]
  cases d.walk <;> rfl

/-- The search is made again. -/
theorem Lies.look (h : Lies H s d) (f : Bool) : Lies H (refreshed f s) (d.look (texts H) f) where
  hist := h.hist
  shown := rfl
  changed := rfl
  new := h.new
  newLog := h.newLog
  copy := h.copy
  copyLog := h.copyLog
  met := by
    show s.history.searchIndex s.newBuf = Desk.holding (texts H) d.new.text
    rw [holding_index, h.hist, h.new]
  walk := by
    have hs : (s.history.searchIndex s.newBuf).Pairwise (· < ·) := (C19_search_index _ _).1
    have e : s.history.searchIndex s.newBuf = Desk.holding (texts H) d.new.text := by rw [holding_index, h.hist, h.new]
    have := begins_eq f s.searchHistoryLoc hs
    rw [h.target, e] at this
    show (refreshed f s).historySubsetLoc = Desk.begins f (d.walk.bind (d.met[·]?)) (Desk.holding (texts H) d.new.text)
    rw [← this]
    unfold refreshed
    dsimp only
    rw [h.target, e]
    rfl
  clean _ := rfl
  loc i hi := by cases hi
  bound i hi := holding_lt H hi
  within i hi := begins_lt hi

/-- The line has been taken out and become `q`. -/
theorem Lies.set (h : Lies H s d) {b : Buffer} (hb : b.data = q.text) (hl : Each q.past q.text b.actions) (c : Nat) :
    Lies H { setCur s b with cursor := c } (d.write true false q) := by
  unfold setCur
  rw [h.shown]
  unfold Desk.write
  cases hd : d.shown with
  | none =>
    dsimp only
    rw [if_pos rfl, if_neg (by simp), if_neg (by simp), if_neg (by simp)]
    exact ⟨h.hist, rfl, h.changed.trans (h.clean hd), hb, hl, h.copy, h.copyLog, h.met, h.walk, fun _ => rfl, by simp,
      h.bound, h.within⟩
  | some i =>
    dsimp only
    rw [if_neg (by simp), if_pos (by simp), if_neg (by simp), if_neg (by simp)]
    exact ⟨h.hist, rfl, by simp, h.new, h.newLog, hb, hl, h.met, h.walk, by simp,
      fun j hj => h.loc j (by rw [hd]; exact hj), h.bound, h.within⟩

theorem Lies.text (h : Lies H s d) (ht : text? s = some d.text) : d.shown = none → d.new.text = d.text := by
  intro hd
  unfold text? Ed.curBuf? at ht
  rw [h.shown, hd] at ht
  rw [← h.new]
  exact Option.some.inj ht

theorem write_self (hn : d.shown = none → d.new.text = d.text) (hc : d.changed = false) (ht : q.text = d.text)
    (hp : q.past = d.past) : d.write false false q = { d with left := q.left, right := q.right, arg := q.arg } := by
  unfold Desk.write
  rw [hc]
  simp only [Bool.or_false, Bool.false_eq_true, and_false, if_false, Bool.and_false]
  cases hd : d.shown with
  | none =>
    rw [if_pos rfl]
    have : (⟨q.text, q.past⟩ : Paper) = d.new := by
      rw [ht, hp, Desk.past, if_pos hd, ← hn hd]
    rw [this]
  | some i => rw [if_neg (by simp)]

/-- A search that waits for its redraw. -/
structure Pend (H : History) (f : Bool) (s : Ed) (d : Desk) : Prop where
  lies : Lies H s d
  clean : d.changed = false
  rev : s.reverseSearch = !f
  fwd : s.forwardSearch = f
  ne : s.noEol = false
  show' : s.showAutosuggestions = true
  calm : s.bufferChanged = false

/-- A search. -/
structure Sought (H : History) (f : Bool) (k : Emacs) (s : Ed) (d : Desk) : Prop where
  pend : Pend H f s d
  here : At s d.left d.right
  arg : k.lastArgFetchIndex = d.arg
  bound : ∀ i, d.arg = some i → i < H.buffers.length
  sug : sugText s = d.found (texts H)

theorem Pend.search (h : Pend H f s d) : s.isSearch = true := by
  unfold Ed.isSearch
  rw [h.rev, h.fwd]
  cases f <;> rfl

theorem Pend.sugOf (h : Pend H f s d) : ∃ o, sugOf s = some o ∧ o.map (·.data) = d.found (texts H) := by
  unfold Editor.sugOf Desk.found
  rw [h.lies.changed, h.clean, h.search, h.lies.target, h.lies.hist]
  simp only [Bool.false_eq_true, if_false, if_true]
  cases hj : d.walk.bind (d.met[·]?) with
  | none => exact ⟨none, rfl, rfl⟩
  | some j =>
    obtain ⟨i, -, hi⟩ := Option.bind_eq_some_iff.mp hj
    have hb := h.lies.bound j (List.mem_of_getElem? hi)
    simp only [List.getElem?_eq_getElem hb]
    exact ⟨_, rfl, by simp [texts, List.getElem?_eq_getElem hb]⟩

theorem Pend.at (h : Pend H f s d) (c : Nat) {a : Option Nat} {l r : Text} : Pend H f { s with cursor := c } { d with left := l, right := r, arg := a } :=
  ⟨⟨h.lies.1, h.lies.2, h.lies.3, h.lies.4, h.lies.5, h.lies.6, h.lies.7, h.lies.8, h.lies.9, h.lies.10, h.lies.11, h.lies.12,
    h.lies.13⟩, h.clean, h.rev, h.fwd, h.ne, h.show', h.calm⟩

theorem Pend.pre (h : Pend H f s d) : Editor.pre s = s := by simp [Editor.pre, h.calm]

/-- The redraw during a search. -/
theorem display_sought (h : Pend H f (pre s) d) (ht : text? (pre s) = some d.text)
    (hc : min s.cursor d.text.length = d.left.length) (ha : k.lastArgFetchIndex = d.arg)
    (hb : ∀ i, d.arg = some i → i < H.buffers.length) :
    Wp (display E) s (fun _ s' => Sought H f k s' d) (fun _ _ => True) (· ≠ .op) := by
  obtain ⟨b, hb1, hb2⟩ := text?_eq.mp ht
  obtain ⟨o, ho, hod⟩ := h.sugOf
  refine wp_mono (display_wp E s) (fun _ s' hs => ?_) (fun _ _ _ => trivial) (fun w hw => ?_)
  · obtain ⟨b', sug, g1, g2, l, c, o', t, rfl⟩ := hs.ex
    rw [hb1] at g1; cases g1
    rw [ho] at g2; cases g2
    have hcl : clampCursor s.noEol b.numChars s.cursor = d.left.length := by
      have hne : s.noEol = false := by rw [← pre_noEol]; exact h.ne
      unfold clampCursor
      rw [hne, Buffer.numChars, hb2]
      simp only [Bool.false_eq_true, false_and, if_false]
      rw [← hc]
      split
      · rw [Nat.min_eq_right (by omega)]
      · rw [Nat.min_eq_left (by omega)]
    rw [hcl]
    exact ⟨⟨⟨h.lies.1, h.lies.2, h.lies.3, h.lies.4, h.lies.5, h.lies.6, h.lies.7, h.lies.8, h.lies.9, h.lies.10, h.lies.11,
      h.lies.12, h.lies.13⟩, h.clean, h.rev, h.fwd, h.ne, h.show', h.calm⟩, ⟨ht, rfl⟩, ha, hb, hod⟩
  · rintro rfl
    rcases hw with ⟨-, hw⟩ | ⟨sug, -, hw⟩
    · rw [ho] at hw; cases hw
    · rw [show (pre s).curBuf? = none from hw] at hb1; cases hb1

theorem Sought.ground (h : Sought H f k s d) : Ground s d.sheet := by
  refine ⟨h.here, ?_⟩
  obtain ⟨w, g1, g2, g3⟩ := h.pend.lies.work
  have : w.data = d.sheet.text := Option.some.inj (g2.symm.trans h.here.1)
  exact ⟨w, g1, this, this ▸ g3⟩

/-- An operation on the line during a search. -/
theorem Sought.acts {α : Type} {m : EdM α} {touch : Bool} (h : Sought H f k s d) (ha : Acts E m s d.sheet q touch) {a : Option Nat}
    (hk : k'.lastArgFetchIndex = a) (hb : ∀ i, a = some i → i < H.buffers.length) :
    Wp m s (fun _ s' => Sought H f k' s' (d.seek (texts H) f touch { q with arg := a })) (fun _ _ => True) (· ≠ .op) := by
  obtain ⟨o, rfl, hp, run⟩ := ha
  refine run _ _ _ ?_
  cases o with
  | none =>
    obtain ⟨h1, h2⟩ := hp.none rfl
    have e : d.seek (texts H) f false { q with arg := a } = { d with left := q.left, right := q.right, arg := a } :=
      write_self (h.pend.lies.text h.here.1) h.pend.clean h1 h2
    show Wp (display E) { s with cursor := q.left.length } _ _ _
    rw [show (none : Option Buffer).isSome = false from rfl, e]
    have hpd := h.pend.at (a := a) q.left.length (l := q.left) (r := q.right)
    refine display_sought E (by rw [hpd.pre]; exact hpd) ?_ ?_ hk hb
    · rw [hpd.pre]
      exact h.here.1.trans (congrArg some h1.symm)
    · show min q.left.length (q.left ++ q.right).length = q.left.length
      simp
  | some b =>
    obtain ⟨h1, h2⟩ := hp.some b rfl
    have e : d.seek (texts H) f true { q with arg := a } = (d.write true false { q with arg := a }).look (texts H) f := rfl
    rw [show (some b).isSome = true from rfl, e]
    have hl := h.pend.lies.set (q := { q with arg := a }) h1 h2 q.left.length
    have hs : ∀ {α : Type} (g : Ed → α), (g (setCur s b) = g { s with bufferChanged := true, histBuf := b, histBufValid := true } ∨
        g (setCur s b) = g { s with bufferChanged := true, newBuf := b }) := by
      intro α g
      unfold setCur
      cases s.curHistoryLoc
      · exact .inr rfl
      · exact .inl rfl
    have i1 : (setCur s b).forwardSearch = f := by rcases hs (·.forwardSearch) with e | e <;> exact e.trans h.pend.fwd
    have i2 : (setCur s b).isSearch = true := by rcases hs (·.isSearch) with e | e <;> exact e.trans h.pend.search
    have i3 : (setCur s b).bufferChanged = true := by rcases hs (·.bufferChanged) with e | e <;> exact e
    have i4 : (setCur s b).noEol = false := by rcases hs (·.noEol) with e | e <;> exact e.trans h.pend.ne
    have i5 : (setCur s b).showAutosuggestions = true := by rcases hs (·.showAutosuggestions) with e | e <;> exact e.trans h.pend.show'
    show Wp (display E) { setCur s b with cursor := q.left.length } _ _ _
    generalize hs1 : ({ setCur s b with cursor := q.left.length } : Ed) = s1 at hl
    have hpre : pre s1 = refreshed f s1 := by
      subst hs1
      unfold pre
      rw [show ({ setCur s b with cursor := q.left.length } : Ed).isSearch = true from i2]
      dsimp only
      rw [i3, i1]
      rfl
    refine display_sought E ?_ ?_ ?_ hk hb
    · rw [hpre]
      subst hs1
      exact ⟨hl.look f, rfl, rfl, rfl, i4, i5, rfl⟩
    · rw [hpre]
      show some s1.newBuf.data = some (List.take _ (d.write true false { q with arg := a }).new.text ++ List.drop _ _)
      rw [List.take_append_drop, hl.new]
    · subst hs1
      show min q.left.length (List.take q.left.length (d.write true false { q with arg := a }).new.text ++ List.drop q.left.length _).length =
        (List.take q.left.length _).length
      rw [List.take_append_drop, List.length_take]

end
end Props
end Liner
