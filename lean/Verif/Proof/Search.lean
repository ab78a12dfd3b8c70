import Verif.Proof.Nav
import Verif.Proof.Sug
import Verif.Spec.Search
/-
The incremental search.
-/

namespace Liner
namespace Editor
open Liner.Spec

/-- A search is running and `k` is the position of the selection among the matches. -/
structure Srch (fwd : Bool) (k : Option Nat) (s : Ed) : Prop where
  search : s.isSearch = true
  dir : s.forwardSearch = fwd
  loc : s.curHistoryLoc = none
  valid : s.histBufValid = false
  changed : s.bufferChanged = false
  index : s.historySubsetIndex = s.history.searchIndex s.newBuf
  subLoc : s.historySubsetLoc = k
  dom : (s.historySubsetIndex = [] ∧ k = none) ∨ ∃ i, k = some i ∧ i < s.historySubsetIndex.length

/-- The selected entry. -/
def selOf (s : Ed) (k : Option Nat) : Option Buffer :=
  (k.bind ((s.history.searchIndex s.newBuf)[·]?)).bind (s.history.buffers[·]?)

/-- What a search leaves alone. -/
structure SrchKeep (s s' : Ed) : Prop where
  newBuf : s'.newBuf = s.newBuf
  history : s'.history = s.history
  noEol : s'.noEol = s.noEol

theorem searchLoc_eq {fwd : Bool} {k : Option Nat} {s : Ed} (h : Srch fwd k s) :
    s.searchHistoryLoc = k.bind (s.historySubsetIndex[·]?) := by
  unfold Ed.searchHistoryLoc
  rw [h.subLoc]
  cases k <;> rfl

theorem searchLoc_getElem {fwd : Bool} {k : Option Nat} {s : Ed} (h : Srch fwd k s) {j : Nat}
    (hj : k.bind (s.historySubsetIndex[·]?) = some j) : ∃ b, s.history.buffers[j]? = some b := by
  cases k with
  | none => cases hj
  | some i =>
    have hm := List.mem_of_getElem? (show s.historySubsetIndex[i]? = some j from hj)
    rw [h.index] at hm
    have := (Props.C19_search_index s.history s.newBuf).2 j |>.mp hm
    exact ⟨_, List.getElem?_eq_getElem (Props.containsAt_lt this)⟩

theorem sugOf_srch {fwd : Bool} {k : Option Nat} {s : Ed} (h : Srch fwd k s) :
    sugOf s = some (selOf s k) := by
  unfold sugOf selOf
  simp only [h.valid, h.search, if_true, Bool.false_eq_true, if_false, searchLoc_eq h, ← h.index]
  cases hj : k.bind (s.historySubsetIndex[·]?) with
  | none => rfl
  | some j =>
    obtain ⟨b, hb⟩ := searchLoc_getElem h hj
    simp only [Option.bind_some, hb]

theorem display_srch (E : Env) {fwd : Bool} {k : Option Nat} {s : Ed} (h : Srch fwd k s) :
    Wp (display E) s (fun _ s' => Srch fwd k s' ∧ SrchKeep s s' ∧ s'.autosuggestion = selOf s k)
      (fun _ _ => True) (fun _ => True) := by
  refine wp_mono (display_wp E s) (fun _ s' hs => ?_) (fun _ _ _ => trivial) (fun _ _ => trivial)
  have hp : pre s = s := by simp [pre, h.changed]
  obtain ⟨b, sug, -, hsug, l, c, o, t, rfl⟩ := hs.ex
  rw [hp, sugOf_srch h] at hsug
  cases hsug
  rw [hp]
  exact ⟨⟨h.search, h.dir, h.loc, h.valid, h.changed, h.index, h.subLoc, h.dom⟩, ⟨rfl, rfl, rfl⟩, rfl⟩

theorem refreshed_srch (fwd : Bool) (s : Ed) :
    Srch fwd (refreshed fwd s).historySubsetLoc (refreshed fwd s) := by
  refine ⟨by simp [refreshed, Ed.isSearch], rfl, rfl, rfl, rfl, rfl, rfl, ?_⟩
  by_cases hi : (s.history.searchIndex s.newBuf) = []
  · left
    exact ⟨hi, by simp [refreshed, hi]⟩
  · right
    rcases (refreshed_idx fwd s).2.2 with h | h
    · exact absurd h hi
    · exact h

/-- The target of a refreshed search decides the selection. -/
theorem refreshLoc_spec (fwd : Bool) (t : Nat) : ∀ (l : List Nat) (i : Nat), l.Pairwise (· < ·) →
    match refreshLoc fwd t l i with
    | none => ∀ j ∈ l, j < t
    | some p => ∃ a b, (∀ j ∈ a, j < t) ∧ l = a ++ b ∧ (∀ j ∈ b, t ≤ j) ∧ b ≠ [] ∧
        p = if fwd = true ∨ b.head? = some t ∨ i + a.length = 0 then i + a.length
          else i + a.length - 1
  | [], _, _ => by simp [refreshLoc]
  | x :: l, i, hl => by
    unfold refreshLoc
    by_cases hx : t ≤ x
    · rw [if_pos hx]
      have hall : ∀ j ∈ x :: l, t ≤ j := by
        intro j hj
        rcases List.mem_cons.mp hj with rfl | hj
        · exact hx
        · have := (List.pairwise_cons.mp hl).1 j hj; omega
      by_cases hc : fwd = true ∨ x = t ∨ i = 0
      · rw [if_pos (by rcases hc with h | h | h <;> simp [h])]
        refine ⟨[], x :: l, by simp, rfl, hall, by simp, ?_⟩
        rw [if_pos (by simpa using hc)]
        rfl
      · rw [if_neg (by simpa [eq_comm (a := t), and_assoc] using hc)]
        refine ⟨[], x :: l, by simp, rfl, hall, by simp, ?_⟩
        rw [if_neg (by simpa using hc)]
        rfl
    · rw [if_neg hx]
      have ih := refreshLoc_spec fwd t l (i + 1) (List.pairwise_cons.mp hl).2
      split
      · rename_i hn
        rw [hn] at ih
        intro j hj
        rcases List.mem_cons.mp hj with rfl | hj
        · omega
        · exact ih j hj
      · rename_i p hp
        rw [hp] at ih
        obtain ⟨a, b, h1, h2, h3, h4, h5⟩ := ih
        refine ⟨x :: a, b, ?_, by rw [h2]; rfl, h3, h4, ?_⟩
        · intro j hj
          rcases List.mem_cons.mp hj with rfl | hj
          · omega
          · exact h1 j hj
        · rw [h5]
          have e : i + (x :: a).length = i + 1 + a.length := by simp; omega
          rw [e]

/-- Starting a search. -/
theorem search_start (E : Env) {s : Ed} (f : Bool) (hs : s.isSearch = false) (hu : UpToDate s) :
    Wp (search E f) s (fun _ s' => Srch f (refreshed f s).historySubsetLoc s' ∧ SrchKeep s s' ∧
        s'.autosuggestion = selOf s (refreshed f s).historySubsetLoc)
      (fun _ _ => True) (fun _ => True) := by
  unfold search
  rw [wp_bind, wp_get, if_pos (by simp [hs]), wp_bind]
  refine freshen_upTo hu (fun b => ?_)
  rw [wp_bind, refreshSearch, wp_modify]
  have h := refreshed_srch f { s with historyFresh := b }
  refine wp_mono (display_srch E h) (fun _ s' h' => ?_) (fun _ _ h => h) (fun _ h => h)
  exact ⟨h'.1, ⟨h'.2.1.newBuf, h'.2.1.history, h'.2.1.noEol⟩, h'.2.2⟩

/-- Continuing a search. -/
theorem search_next (E : Env) {d : Bool} {k : Option Nat} {s : Ed} (f : Bool) (h : Srch d k s) :
    Wp (search E f) s (fun _ s' =>
        Srch d (k.map (searchStep (s.history.searchIndex s.newBuf).length · f)) s' ∧ SrchKeep s s' ∧
        s'.autosuggestion = selOf s (k.map (searchStep (s.history.searchIndex s.newBuf).length · f)))
      (fun _ _ => True) (fun _ => True) := by
  unfold search
  rw [wp_bind, wp_get, if_neg (by simp [h.search])]
  rcases h.dom with ⟨he, rfl⟩ | ⟨i, rfl, hi⟩
  · rw [if_neg (by simp [he])]
    exact display_srch E h
  · have hne : s.historySubsetIndex ≠ [] := by
      intro he; rw [he] at hi; cases hi
    rw [if_pos (by simpa using hne), wp_bind, wp_modify]
    have hlen := congrArg List.length h.index
    have key : (match s.historySubsetLoc with
        | some p =>
          if f then (if p < s.historySubsetIndex.length - 1 then some (p + 1) else some 0)
          else if p > 0 then some (p - 1)
          else some (s.historySubsetIndex.length - 1)
        | none => none) =
        some (searchStep (s.history.searchIndex s.newBuf).length i f) := by
      rw [h.subLoc, ← hlen]
      dsimp only
      unfold searchStep
      cases f
      · simp only [Bool.false_eq_true, if_false]
        split
        · rw [show i + s.historySubsetIndex.length - 1 = (i - 1) + s.historySubsetIndex.length by omega,
            Nat.add_mod_right, Nat.mod_eq_of_lt (by omega)]
        · rw [Nat.mod_eq_of_lt (by omega)]
          congr 1; omega
      · simp only [if_true]
        split
        · rw [Nat.mod_eq_of_lt (by omega)]
        · rw [show i + 1 = s.historySubsetIndex.length by omega, Nat.mod_self]
    have hrun : ∀ X, X = some (searchStep (s.history.searchIndex s.newBuf).length i f) →
        Wp (display E) { s with historySubsetLoc := X } (fun _ s' =>
          Srch d (some (searchStep (s.history.searchIndex s.newBuf).length i f)) s' ∧ SrchKeep s s' ∧
          s'.autosuggestion = selOf s (some (searchStep (s.history.searchIndex s.newBuf).length i f)))
          (fun _ _ => True) (fun _ => True) := by
      rintro _ rfl
      refine wp_mono (display_srch E (fwd := d)
        (k := some (searchStep (s.history.searchIndex s.newBuf).length i f))
        ⟨h.search, h.dir, h.loc, h.valid, h.changed, h.index, rfl, .inr ⟨_, rfl, ?_⟩⟩)
        (fun _ s' h' => ⟨h'.1, ⟨h'.2.1.newBuf, h'.2.1.history, h'.2.1.noEol⟩, h'.2.2⟩)
        (fun _ _ h => h) (fun _ h => h)
      show _ < s.historySubsetIndex.length
      rw [hlen]
      have : 0 < (s.history.searchIndex s.newBuf).length := by omega
      unfold searchStep
      split <;> exact Nat.mod_lt _ this
    exact hrun _ key

theorem searchOps_srch (E : Env) : ∀ (dirs : List Bool) {d : Bool} {k : Option Nat} {s : Ed},
    Srch d k s → s.autosuggestion = selOf s k →
    Wp (runOps E (searchOps dirs)) s (fun _ s' =>
        Srch d (k.map (dirs.foldl (searchStep (s.history.searchIndex s.newBuf).length))) s' ∧
        SrchKeep s s' ∧ s'.autosuggestion =
          selOf s (k.map (dirs.foldl (searchStep (s.history.searchIndex s.newBuf).length))))
      (fun _ _ => True) (fun _ => True) := by
  intro dirs
  induction dirs with
  | nil =>
    intro d k s h hk
    have : k.map (fun x => x) = k := by cases k <;> rfl
    show _ ∧ _
    simp only [List.foldl_nil, this]
    exact ⟨h, ⟨rfl, rfl, rfl⟩, hk⟩
  | cons f dirs ih =>
    intro d k s h hk
    simp only [searchOps, List.map_cons, runOps]
    rw [wp_bind]
    refine wp_mono (search_next E f h) (fun _ s1 h1 => ?_) (fun _ _ h => h) (fun _ h => h)
    obtain ⟨h1, h2, h3⟩ := h1
    have hsel : ∀ k, selOf s1 k = selOf s k := by
      intro k; unfold selOf; rw [h2.history, h2.newBuf]
    refine wp_mono (ih h1 (by rw [hsel]; exact h3)) (fun _ s2 h4 => ?_) (fun _ _ h => h)
      (fun _ h => h)
    rw [hsel, h2.history, h2.newBuf, Option.map_map] at h4
    exact ⟨h4.1, ⟨h4.2.1.newBuf.trans h2.newBuf, h4.2.1.history.trans h2.history,
      h4.2.1.noEol.trans h2.noEol⟩, h4.2.2⟩

theorem getElem_filterMap {α β : Type} (f : α → Option β) : ∀ (l : List α) (k : Nat),
    (∀ a ∈ l, (f a).isSome) → (l.filterMap f)[k]? = l[k]?.bind f
  | [], k, _ => by simp
  | a :: l, k, h => by
    obtain ⟨b, hb⟩ := Option.isSome_iff_exists.mp (h a (by simp))
    rw [List.filterMap_cons, hb]
    cases k with
    | zero => simp [hb]
    | succ k => simpa using getElem_filterMap f l k fun a ha => h a (by simp [ha])

theorem found_index (h : History) (b : Buffer) :
    (h.searchIndex b).filterMap ((texts h)[·]?) = found h b.data := by
  unfold History.searchIndex found
  have hlen : h.buffers.length = (texts h).length := by simp [texts]
  rw [hlen]
  apply filterMap_range_filter
  intro i x hx
  have hx' := hx
  simp only [texts, List.getElem?_map, Option.map_eq_some_iff] at hx'
  obtain ⟨t, ht, rfl⟩ := hx'
  rw [Bool.eq_iff_iff, Props.contains_at, containsAt_iff ht, decide_eq_true_eq]

theorem found_length (h : History) (b : Buffer) :
    (found h b.data).length = (h.searchIndex b).length := by
  rw [← found_index]
  have : ∀ l : List Nat, (∀ i ∈ l, i < (texts h).length) →
      (l.filterMap ((texts h)[·]?)).length = l.length := by
    intro l
    induction l with
    | nil => simp
    | cons a l ih =>
      intro hl
      rw [List.filterMap_cons, List.getElem?_eq_getElem (hl a (by simp))]
      simp [ih fun i hi => hl i (by simp [hi])]
  refine this _ fun i hi => ?_
  have := Props.containsAt_lt (((Props.C19_search_index h b).2 i).mp hi)
  simpa [texts] using this

theorem selOf_found (s : Ed) (k : Option Nat) :
    (selOf s k).map (·.data) = k.bind ((found s.history s.newBuf.data)[·]?) := by
  unfold selOf
  rw [← found_index]
  cases k with
  | none => rfl
  | some k =>
    simp only [Option.bind_some]
    rw [getElem_filterMap]
    · cases (s.history.searchIndex s.newBuf)[k]? with
      | none => rfl
      | some i => simp [texts]
    · intro i hi
      have := Props.containsAt_lt (((Props.C19_search_index s.history s.newBuf).2 i).mp hi)
      have : i < (texts s.history).length := by simpa [texts] using this
      simp [this]

/-- Where a search starts when nothing is selected. -/
theorem refreshed_start (f : Bool) {s : Ed} (h : s.searchHistoryLoc = none) :
    (selOf s (refreshed f s).historySubsetLoc).map (·.data) =
      (found s.history s.newBuf.data)[searchStart (found s.history s.newBuf.data).length f]? ∧
    (refreshed f s).historySubsetLoc = if found s.history s.newBuf.data = [] then none else
      some (searchStart (found s.history s.newBuf.data).length f) := by
  have hk : (refreshed f s).historySubsetLoc = if found s.history s.newBuf.data = [] then none else
      some (searchStart (found s.history s.newBuf.data).length f) := by
    rw [found_length]
    have he : found s.history s.newBuf.data = [] ↔ s.history.searchIndex s.newBuf = [] := by
      rw [← List.length_eq_zero_iff, found_length, List.length_eq_zero_iff]
    simp only [refreshed, h, he, List.isEmpty_iff, searchStart]
  refine ⟨?_, hk⟩
  rw [selOf_found, hk]
  split
  · rename_i he; simp [he]
  · rfl

/-- Where it starts when the entry `t` was selected. -/
theorem refreshed_picks (f : Bool) {s : Ed} {t : Nat} (h : s.searchHistoryLoc = some t)
    {j : Nat} (hj : ContainsAt s.history s.newBuf.data j) :
    ∃ i, Picks s.history s.newBuf.data f t i ∧
      (refreshed f s).historySubsetLoc.bind ((s.history.searchIndex s.newBuf)[·]?) = some i := by
  obtain ⟨hp, hm⟩ := Props.C19_search_index s.history s.newBuf
  have hne : s.history.searchIndex s.newBuf ≠ [] := by
    intro he
    have := (hm j).mpr hj
    rw [he] at this; cases this
  have hloc : (refreshed f s).historySubsetLoc = some ((refreshLoc f t (s.history.searchIndex s.newBuf) 0).getD
      (if f then 0 else (s.history.searchIndex s.newBuf).length - 1)) := by
    simp [refreshed, h, hne]
  rw [hloc, Option.bind_some]
  have hspec := refreshLoc_spec f t _ 0 hp
  have hpos := List.length_pos_iff.mpr hne
  generalize s.history.searchIndex s.newBuf = l at *
  -- the first and the last match
  have first : ∀ x, l[0]? = some x → ∀ j, ContainsAt s.history s.newBuf.data j → x ≤ j := by
    intro x hx j hj
    obtain ⟨y, l', rfl⟩ := List.exists_cons_of_ne_nil hne
    simp only [List.getElem?_cons_zero, Option.some.injEq] at hx
    subst hx
    rcases List.mem_cons.mp ((hm j).mpr hj) with rfl | hj
    · exact Nat.le_refl _
    · exact Nat.le_of_lt ((List.pairwise_cons.mp hp).1 j hj)
  have has : ∀ {k x : Nat}, l[k]? = some x → ContainsAt s.history s.newBuf.data x :=
    fun hx => (hm _).mp (List.mem_of_getElem? hx)
  split at hspec
  · rename_i hn
    rw [hn, Option.getD_none]
    cases f
    · simp only [Bool.false_eq_true, if_false]
      have hx := List.getElem?_eq_getElem (show l.length - 1 < l.length by omega)
      refine ⟨_, ⟨has hx, ?_⟩, hx⟩
      rw [if_neg (by simp)]
      refine .inl ⟨Nat.le_of_lt (hspec _ (List.getElem_mem _)), fun j _ hj => ?_⟩
      obtain ⟨k, hk, rfl⟩ := List.mem_iff_getElem.mp ((hm j).mpr hj)
      rcases Nat.lt_or_ge k (l.length - 1) with hlt | hge
      · exact Nat.le_of_lt (List.pairwise_iff_getElem.mp hp k _ hk (by omega) hlt)
      · have : k = l.length - 1 := by omega
        subst this; exact Nat.le_refl _
    · simp only [if_true]
      have hx := List.getElem?_eq_getElem hpos
      refine ⟨_, ⟨has hx, ?_⟩, hx⟩
      rw [if_pos rfl]
      exact .inr ⟨fun j hj => hspec j ((hm j).mpr hj), first _ hx⟩
  · rename_i p hpp
    rw [hpp, Option.getD_some]
    obtain ⟨a, b, h1, h2, h3, h4, h5⟩ := hspec
    obtain ⟨y, b', rfl⟩ := List.exists_cons_of_ne_nil h4
    have hy : t ≤ y := h3 y (by simp)
    have hly : l[a.length]? = some y := by rw [h2]; simp
    have hge : ∀ j, t ≤ j → ContainsAt s.history s.newBuf.data j → y ≤ j := by
      intro j htj hj
      have := (hm j).mpr hj
      rw [h2, List.mem_append] at this
      rcases this with hj' | hj'
      · have := h1 j hj'; omega
      · rw [h2] at hp
        rcases List.mem_cons.mp hj' with rfl | hj'
        · exact Nat.le_refl _
        · exact Nat.le_of_lt ((List.pairwise_cons.mp (List.pairwise_append.mp hp).2.1).1 j hj')
    simp only [Nat.zero_add, List.head?_cons, Option.some.injEq] at h5
    cases f
    · by_cases hc : y = t ∨ a.length = 0
      · rw [if_pos (by simpa using hc)] at h5
        subst h5
        refine ⟨y, ⟨has hly, ?_⟩, hly⟩
        rw [if_neg (by simp)]
        by_cases hyt : y = t
        · exact .inl ⟨by omega, fun j hj _ => by omega⟩
        · have ha : a.length = 0 := by tauto
          refine .inr ⟨fun j hj => ?_, first y (by rw [← ha]; exact hly)⟩
          have := first y (by rw [← ha]; exact hly) j hj
          omega
      · rw [if_neg (by simpa using hc)] at h5
        subst h5
        have hlt : a.length - 1 < a.length := by omega
        have hx : l[a.length - 1]? = some a[a.length - 1] := by
          rw [h2, List.getElem?_append_left hlt, List.getElem?_eq_getElem hlt]
        refine ⟨_, ⟨has hx, ?_⟩, hx⟩
        rw [if_neg (by simp)]
        refine .inl ⟨Nat.le_of_lt (h1 _ (List.getElem_mem _)), fun j hjt hj => ?_⟩
        have hja : j ∈ a := by
          have := (hm j).mpr hj
          rw [h2, List.mem_append] at this
          rcases this with h | h
          · exact h
          · have := hge j (h3 j h) hj
            omega
        obtain ⟨k, hk, rfl⟩ := List.mem_iff_getElem.mp hja
        rw [h2] at hp
        rcases Nat.lt_or_ge k (a.length - 1) with hkl | hkg
        · exact Nat.le_of_lt (List.pairwise_iff_getElem.mp (List.pairwise_append.mp hp).1 k _ hk hlt hkl)
        · have : k = a.length - 1 := by omega
          subst this; exact Nat.le_refl _
    · rw [if_pos (by simp)] at h5
      subst h5
      refine ⟨y, ⟨has hly, ?_⟩, hly⟩
      rw [if_pos rfl]
      exact .inl ⟨hy, hge⟩

end Editor
end Liner
