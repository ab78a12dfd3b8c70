import Verif.Spec.Rack
import Verif.Proof.ViRead
import Verif.Proof.Bench
import Verif.Proof.Search
import Verif.Props.Accept
/-
Searches in vi mode that begin on the new line.
-/

namespace Liner
namespace Vi
open Liner.Spec Liner.Editor Liner.Props M KM

theorem wp_from' {α : Type} {m m' : ViM α} {t t' : Vi × Ed} {Q : α → Vi × Ed → Prop} {R : IoErr → Vi × Ed → Prop} {P : Site → Prop}
    (h : m t = m' t') (hw : Wp m' t' Q R P) : Wp m t Q R P := by
  unfold Wp; rw [h]; exact hw

theorem wp_from {m m' : ViM Unit} {t t' : Vi × Ed} {Q : Unit → Vi × Ed → Prop} {R : IoErr → Vi × Ed → Prop} {P : Site → Prop}
    (h : m t = m' t') (hw : Wp m' t' Q R P) : Wp m t Q R P := by
  unfold Wp; rw [h]; exact hw

/-- A search for the new line `w`, begun in the direction `d`, is under way; of the entries that contain it, the one at `k` is found. -/
structure Seeking (H : History) (d : Bool) (w hb : Buffer) (e : Bool) (c : Nat) (k : Option Nat) (s : Ed) : Prop where
  srch : Srch d k s
  hist : s.history = H
  new : s.newBuf = w
  copy : s.histBuf = hb
  ne : s.noEol = e
  cursor : s.cursor = c
  show' : s.showAutosuggestions = true
  sug : s.autosuggestion = selOf s k

section
variable (E : Env) {H : History} {w hb : Buffer} {d e : Bool} {c : Nat} {k : Option Nat} {s : Ed}

theorem display_seeking (h : Srch d k s) (h1 : s.history = H) (h2 : s.newBuf = w) (h3 : s.histBuf = hb) (h4 : s.noEol = e)
    (h5 : s.cursor = c) (h6 : s.showAutosuggestions = true) (hc : clampCursor e w.numChars c = c) :
    Wp (display E) s (fun _ s' => Seeking H d w hb e c k s') (fun _ _ => True) (· ≠ .op) := by
  have hp : pre s = s := by simp [pre, h.changed]
  have hb' : s.curBuf? = some w := by unfold Ed.curBuf?; rw [h.loc, ← h2]
  refine wp_mono (display_wp E s) (fun _ s' hs => ?_) (fun _ _ _ => trivial) (fun x hx => ?_)
  · obtain ⟨b, sug, hb1, hsug, l, c', o, t, rfl⟩ := hs.ex
    rw [hp, sugOf_srch h] at hsug
    rw [hp, hb'] at hb1
    cases hsug
    cases hb1
    rw [hp, show clampCursor s.noEol w.numChars s.cursor = c by rw [h4, h5, hc]]
    exact ⟨⟨h.search, h.dir, h.loc, h.valid, h.changed, h.index, h.subLoc, h.dom⟩, h1, h2, h3, h4, rfl, h6, rfl⟩
  · rintro rfl
    rcases hx with ⟨-, hx⟩ | ⟨sug, -, hx⟩
    · rw [hp, sugOf_srch h] at hx; cases hx
    · rw [hp] at hx
      rw [show s.curBuf? = none from hx] at hb'; cases hb'

/-- A search begins. -/
theorem seeking_begin (f : Bool) {met : List Nat} {walk : Option Nat} (hs : s.isSearch = false) (hu : H.share = false) (h1 : s.history = H)
    (h2 : s.newBuf = w) (h3 : s.histBuf = hb) (h4 : s.noEol = e) (h5 : s.cursor = c) (h6 : s.showAutosuggestions = true)
    (hc : clampCursor e w.numChars c = c) (hm : s.historySubsetIndex = met) (hw : s.historySubsetLoc = walk) :
    Wp (search E f) s (fun _ s' => Seeking H f w hb e c (Desk.begins f (walk.bind (met[·]?)) (Desk.holding (texts H) w.data)) s')
      (fun _ _ => True) (· ≠ .op) := by
  unfold search
  rw [wp_bind, wp_get, if_pos (by simp [hs]), wp_bind, freshenHistory, wp_modify, h1, hu]
  simp only [Bool.false_and, Bool.false_eq_true, if_false]
  rw [wp_bind, refreshSearch, wp_modify]
  have ht : s.searchHistoryLoc = walk.bind (met[·]?) := by
    unfold Ed.searchHistoryLoc
    rw [hw, hm]
    cases walk <;> rfl
  have hk : (refreshed f s).historySubsetLoc = Desk.begins f (walk.bind (met[·]?)) (Desk.holding (texts H) w.data) := by
    have hs : (s.history.searchIndex s.newBuf).Pairwise (· < ·) := (C19_search_index _ _).1
    have e : s.history.searchIndex s.newBuf = Desk.holding (texts H) w.data := by rw [holding_index, h1, h2]
    have := begins_eq f s.searchHistoryLoc hs
    rw [ht, e] at this
    rw [← this]
    unfold refreshed
    dsimp only
    rw [ht, e]
    rfl
  have h := refreshed_srch f s
  rw [hk] at h
  exact display_seeking E h h1 h2 h3 h4 h5 h6 hc

/-- It goes on. -/
theorem seeking_next (f : Bool) (h : Seeking H d w hb e c k s) (hc : clampCursor e w.numChars c = c) :
    Wp (search E f) s (fun _ s' => Seeking H d w hb e c (k.map (searchStep (Desk.holding (texts H) w.data).length · f)) s')
      (fun _ _ => True) (· ≠ .op) := by
  obtain ⟨hs, h1, h2, h3, h4, h5, h6, -⟩ := h
  have hlen : s.historySubsetIndex.length = (Desk.holding (texts H) w.data).length := by rw [hs.index, holding_index, h1, h2]
  unfold search
  rw [wp_bind, wp_get, if_neg (by simp [hs.search])]
  rcases hs.dom with ⟨he, rfl⟩ | ⟨i, rfl, hi⟩
  · rw [if_neg (by simp [he])]
    exact display_seeking E hs h1 h2 h3 h4 h5 h6 hc
  · have hne : s.historySubsetIndex ≠ [] := by
      intro he; rw [he] at hi; cases hi
    rw [if_pos (by simpa using hne), wp_bind, wp_modify]
    have key : (match s.historySubsetLoc with
        | some p =>
          if f then (if p < s.historySubsetIndex.length - 1 then some (p + 1) else some 0)
          else if p > 0 then some (p - 1)
          else some (s.historySubsetIndex.length - 1)
        | none => none) =
        some (searchStep (Desk.holding (texts H) w.data).length i f) := by
      rw [hs.subLoc, ← hlen]
      dsimp only
      unfold searchStep
      cases f
      · simp only [Bool.false_eq_true, if_false]
        split
        · rw [show i + s.historySubsetIndex.length - 1 = (i - 1) + s.historySubsetIndex.length by omega,
            Nat.add_mod_right, Nat.mod_eq_of_lt (by omega)]
        · rw [Nat.mod_eq_of_lt (by omega)]
          congr 1; omega
      · simp only [if_true]
        split
        · rw [Nat.mod_eq_of_lt (by omega)]
        · rw [show i + 1 = s.historySubsetIndex.length by omega, Nat.mod_self]
    have hrun : ∀ X, X = some (searchStep (Desk.holding (texts H) w.data).length i f) →
        Wp (display E) { s with historySubsetLoc := X } (fun _ s' =>
          Seeking H d w hb e c (some (searchStep (Desk.holding (texts H) w.data).length i f)) s') (fun _ _ => True) (· ≠ .op) := by
      rintro _ rfl
      refine display_seeking E (d := d) ⟨hs.search, hs.dir, hs.loc, hs.valid, hs.changed, hs.index, rfl, .inr ⟨_, rfl, ?_⟩⟩ h1 h2 h3 h4 h5 h6 hc
      show _ < s.historySubsetIndex.length
      rw [hlen]
      have : 0 < (Desk.holding (texts H) w.data).length := by omega
      unfold searchStep
      split <;> exact Nat.mod_lt _ this
    exact hrun _ key

/-- The entry found. -/
theorem Seeking.sel (h : Seeking H d w hb e c k s) :
    s.autosuggestion.map (·.data) = (k.bind ((Desk.holding (texts H) w.data)[·]?)).bind ((texts H)[·]?) := by
  rw [h.sug]
  unfold selOf
  rw [h.hist, h.new, ← holding_index]
  cases k.bind ((H.searchIndex w)[·]?) with
  | none => rfl
  | some j => simp [texts]

/-- The key for a search. -/
theorem search_press {v : Vi} (f : Bool) (comp : Text → List Text) {b : Buffer} (hb' : s.curBuf? = some b)
    (hm : Wp (search E f) s (fun _ s' => Seeking H d w hb e c k s') (fun _ _ => True) (· ≠ .op)) :
    Wp (Spec.press keyMap E [(seekKey f, comp)]) (v, s) (fun _ t' => t'.1 = v ∧ Seeking H d w hb e c k t'.2) T2 (· ≠ .op) := by
  unfold Spec.press
  rw [wp_bind, seekKey, wp_congr (handleKey_eq keyMap E comp (t := (v, s)) hb' _), wp_bind, Props.translate_ne (by cases f <;> simp),
    wp_congr (dispatch_search keyMap E comp (v, s) f), wp_bind, wp_ed]
  refine wp_mono hm (fun _ s' h' => ?_) (fun _ _ h => h) (fun _ h => h)
  rw [wp_pure, wp_bind, wp_ed, wp_flush]
  refine ⟨fun _ => ⟨rfl, ?_⟩, fun _ => trivial⟩
  obtain ⟨h0, h1, h2, h3, h4, h5, h6, h7⟩ := h'
  exact ⟨⟨h0.1, h0.2, h0.3, h0.4, h0.5, h0.6, h0.7, h0.8⟩, h1, h2, h3, h4, h5, h6, h7⟩

theorem Seeking.buf (h : Seeking H d w hb e c k s) : s.curBuf? = some w := by
  have h0 := h.srch
  unfold Ed.curBuf?; rw [h0.loc, ← h.new]

theorem seek_presses (hc : clampCursor e w.numChars c = c) : ∀ (more : List Bool) {k : Option Nat} {t : Vi × Ed}
    {kcs : List (Key × (Text → List Text))}, Seeking H d w hb e c k t.2 → kcs.map Prod.fst = more.map seekKey →
    Wp (Spec.press keyMap E kcs) t (fun _ t' => t'.1 = t.1 ∧
      Seeking H d w hb e c (k.map (more.foldl (searchStep (Desk.holding (texts H) w.data).length))) t'.2) T2 (· ≠ .op)
  | [], k, t, kcs, h, hk => by
    obtain rfl : kcs = [] := by simpa using hk
    show Wp (pure ()) t _ _ _
    rw [wp_pure]
    refine ⟨rfl, ?_⟩
    simpa using h
  | f :: more, k, (v, s), kcs, h, hk => by
    obtain ⟨⟨k', comp⟩, ks, rfl, h1, h2⟩ := List.map_eq_cons_iff.mp hk
    dsimp only at h1
    subst h1
    refine (wp_congr (presses_append E [(seekKey f, comp)] ks (v, s))).mpr ?_
    rw [wp_bind]
    refine wp_mono (search_press E f comp h.buf (seeking_next E f h hc)) (fun _ t1 ⟨g1, g2⟩ => ?_) (fun _ _ h => h) (fun _ h => h)
    refine wp_mono (seek_presses hc more g2 h2) (fun _ t' ⟨q1, q2⟩ => ⟨q1.trans g1, ?_⟩) (fun _ _ h => h) (fun _ h => h)
    rw [Option.map_map] at q2
    exact q2

/-- The copy of an entry as changes in the log. -/
theorem copy_log (a x : Buffer) : ∃ w es, a.copyBuffer x = some w ∧ w.data = x.data ∧ Plainly es ∧ w.actions = es ++ a.actions ∧
    Path es a.data w.data := by
  have h1 := Buffer.remove_eq a 0 a.data.length ⟨by omega, by omega⟩
  simp only [Buffer.copyBuffer, h1]
  simp only [List.take_zero, List.drop_length, List.append_nil]
  rw [Buffer.insert_eq _ 0 x.data (by simp)]
  refine ⟨_, [.insert 0 x.data, .remove 0 a.data], rfl, by simp, ?_, by simp, ?_⟩
  · intro y hy
    simp only [List.mem_cons, List.not_mem_nil, or_false] at hy
    rcases hy with rfl | rfl <;> rfl
  · have h2 := Effect.remove [] a.data []
    have h3 := Effect.insert [] x.data []
    simp only [List.nil_append, List.append_nil, List.length_nil] at h2 h3
    exact .cons (.cons (.nil _) h2) (by simpa using h3)

end
end Vi
end Liner
