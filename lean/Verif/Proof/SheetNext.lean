import Verif.Proof.SheetRead
/-
The sheet after a key can be computed.
-/

namespace Liner
namespace Props
open Editor KM Liner.Spec

theorem nextEnd_unique {ws : List (Nat × Nat)} {c a b : Nat} (h1 : NextEnd ws c a) (h2 : NextEnd ws c b) : a = b := by
  rcases h1 with ⟨w, hw, rfl, h3, h4⟩ | ⟨h3, rfl⟩ <;> rcases h2 with ⟨v, hv, rfl, h5, h6⟩ | ⟨h5, rfl⟩
  · exact Nat.le_antisymm (h4 v hv h5) (h6 w hw h3)
  · have := h5 w hw; omega
  · have := h3 v hv; omega
  · rfl

theorem prevStart_unique {ws : List (Nat × Nat)} {c a b : Nat} (h1 : PrevStart ws c a) (h2 : PrevStart ws c b) : a = b := by
  rcases h1 with ⟨w, hw, rfl, h3, h4⟩ | ⟨h3, rfl⟩ <;> rcases h2 with ⟨v, hv, rfl, h5, h6⟩ | ⟨h5, rfl⟩
  · exact Nat.le_antisymm (h6 w hw h3) (h4 v hv h5)
  · have := h5 w hw; omega
  · have := h3 v hv; omega
  · rfl

/-- Where Alt-F goes. -/
def endAfter (ws : List (Nat × Nat)) (c : Nat) : Nat :=
  match ws.find? fun w => c < w.2 with
  | some w => w.2
  | none => c

/-- Where Alt-B goes. -/
def startBefore (ws : List (Nat × Nat)) (c : Nat) : Nat :=
  match (ws.filter fun w => w.1 < c).getLast? with
  | some w => w.1
  | none => c

theorem endAfter_is {ws : List (Nat × Nat)} (hs : Separated ws) (c : Nat) : NextEnd ws c (endAfter ws c) := by
  have := wordIndex_right hs (C12_classifies c ws hs)
  have key : ∃ p, NextEnd ws c p := by
    split at this
    · exact ⟨_, this⟩
    · obtain ⟨w, -, h⟩ := this; exact ⟨_, h⟩
  obtain ⟨p, hp⟩ := key
  rcases hp with ⟨w, hw, rfl, h3, h4⟩ | ⟨h3, rfl⟩
  · unfold endAfter
    cases hf : ws.find? fun w => c < w.2 with
    | none => have := List.find?_eq_none.mp hf w hw; simp [h3] at this
    | some v =>
      have hv := List.mem_of_find?_eq_some hf
      have hv2 := List.find?_some hf
      simp only [decide_eq_true_eq] at hv2
      refine .inl ⟨v, hv, rfl, hv2, ?_⟩
      rw [List.find?_eq_some_iff_append] at hf
      obtain ⟨-, as, bs, rfl, has⟩ := hf
      intro u hu hcu
      rcases List.mem_append.mp hu with h | h
      · have := has u h; simp [hcu] at this
      · rcases List.mem_cons.mp h with rfl | h
        · exact Nat.le_refl _
        · have h7 := hs.2
          rw [List.pairwise_append, List.pairwise_cons] at h7
          have := h7.2.1.1 u h
          have := hs.1 u hu
          show v.2 ≤ u.2
          omega
  · unfold endAfter
    rw [List.find?_eq_none.mpr (fun w hw => by have := h3 w hw; simp; omega)]
    exact .inr ⟨h3, rfl⟩

theorem startBefore_is {ws : List (Nat × Nat)} (hs : Separated ws) (c : Nat) : PrevStart ws c (startBefore ws c) := by
  unfold startBefore
  cases hf : (ws.filter fun w => w.1 < c).getLast? with
  | none =>
    rw [List.getLast?_eq_none_iff, List.filter_eq_nil_iff] at hf
    refine .inr ⟨fun w hw => ?_, rfl⟩
    have := hf w hw
    simpa using this
  | some v =>
    have hm := List.mem_of_getLast? hf
    rw [List.mem_filter] at hm
    refine .inl ⟨v, hm.1, rfl, by simpa using hm.2, fun u hu huc => ?_⟩
    have hu' : u ∈ ws.filter fun w => w.1 < c := List.mem_filter.mpr ⟨hu, by simpa using huc⟩
    rw [List.getLast?_eq_some_iff] at hf
    obtain ⟨ys, hys⟩ := hf
    have hp : (ws.filter fun w => w.1 < c).Pairwise fun a b => a.2 < b.1 := hs.2.filter _
    rw [hys] at hp hu'
    rcases List.mem_append.mp hu' with h | h
    · rw [List.pairwise_append] at hp
      have := hp.2.2 u h v (by simp)
      have := hs.1 u hu
      show u.1 ≤ v.1
      omega
    · have := List.mem_singleton.mp h
      rw [this]

/-- The words of a text. -/
def wordsOf (t : Text) : List (Nat × Nat) := getBufferWords (.ofText t)

theorem wordsOf_is (t : Text) (ws : List (Nat × Nat)) : IsDivision t ws ↔ ws = wordsOf t :=
  C11_words_unique (.ofText t) ws

theorem wordsOf_separated (t : Text) : Separated (wordsOf t) := by
  have := (wordsOf_is t _).mpr rfl
  exact ⟨fun w hm => (this.words w hm).nonempty, this.ordered⟩

theorem wordsOf_le (t : Text) {w : Nat × Nat} (h : w ∈ wordsOf t) : w.2 ≤ t.length :=
  ((((wordsOf_is t _).mpr rfl).words w h)).inside

end Props

namespace Spec
namespace Sheet
open Props Editor

/-- The cursor at another place. -/
def goto (p : Sheet) (n : Nat) : Sheet := ⟨p.text.take n, p.text.drop n, p.past, none⟩

/-- Ctrl-W. -/
def rub (p : Sheet) : Sheet :=
  match wordBefore (wordsOf p.text) (CursorPosition.get p.left.length (wordsOf p.text)) true with
  | some w => { p.put (p.left.take w.1) p.right with arg := none }
  | none => { p with arg := none }

def dropArg (p : Sheet) : Sheet :=
  match (Buffer.ofText p.text).lastArg with
  | some w => p.put (p.text.take (min p.left.length (p.text.length - w.length)))
      (p.text.drop (max p.left.length (p.text.length - w.length)))
  | none => p

def addArg (x : Text) (p : Sheet) : Sheet :=
  match (Buffer.ofText x).lastArg with
  | some w => p.put (p.left ++ w) p.right
  | none => p

def fetch (entries : List Text) (shown : Option Nat) (p : Sheet) : Sheet :=
  match p.nextArg entries shown with
  | none => p
  | some i => { addArg ((entries[i]?).getD []) (if p.arg = none then p else p.dropArg) with arg := some i }

/-- The sheet after a key. -/
def does (entries : List Text) (o : Option Text) (shown : Option Nat) (key : Key) (p : Sheet) : Sheet :=
  if editing key then p.edited o key
  else if key = .ctrl 'w' ∨ key = .alt '\x7f' then p.rub
  else if key = .alt 'f' then p.goto (endAfter (wordsOf p.text) p.left.length)
  else if key = .alt 'b' then p.goto (startBefore (wordsOf p.text) p.left.length)
  else if key = .ctrl 'x' then p.back
  else if key = .alt 'r' then p.first
  else if key = .alt '.' then p.fetch entries shown
  else { p with arg := none }

/-- On a new line. -/
def step (entries : List Text) (key : Key) (p : Sheet) : Sheet := p.does entries (hint entries p.text) none key

/-- What is read. -/
def said (entries : List Text) : List (Option Key) → Sheet → Said
  | [], p => .line p.text
  | none :: _, _ => .stop .io
  | some key :: rest, p =>
    if key = .ctrl 'c' then .stop .interrupted
    else if key = .ctrl 'd' ∧ p.text = [] then .stop .unexpectedEof
    else if key = .char '\n' then
      if p.left.getLast? = some '\\' then said entries rest (p.put (p.left ++ ['\n']) p.right)
      else .line p.text
    else said entries rest (step entries key p)

end Sheet
end Spec

namespace Props
open Editor Liner.Spec

theorem rubs_iff {p q : Sheet} : p.Rubs q ↔ q = p.rub := by
  have hs := wordsOf_separated p.text
  have hw := wordBefore_iff hs p.left.length true
  unfold Sheet.Rubs Sheet.rub
  simp only [wordsOf_is]
  cases he : wordBefore (wordsOf p.text) (CursorPosition.get p.left.length (wordsOf p.text)) true with
  | some w =>
    have h1 := (hw w).mp he
    constructor
    · rintro ⟨ws, rfl, ⟨v, hv, rfl⟩ | ⟨hv, -⟩⟩
      · have := ((hw v).mpr hv).symm.trans he
        cases this; rfl
      · exact absurd h1 (hv w)
    · exact fun h => ⟨_, rfl, .inl ⟨w, h1, h⟩⟩
  | none =>
    constructor
    · rintro ⟨ws, rfl, ⟨v, hv, rfl⟩ | ⟨-, rfl⟩⟩
      · have := ((hw v).mpr hv).symm.trans he
        cases this
      · rfl
    · intro h
      refine ⟨_, rfl, .inr ⟨fun v hv => ?_, h⟩⟩
      have := ((hw v).mpr hv).symm.trans he
      cases this

theorem moves_iff {R : List (Nat × Nat) → Nat → Nat → Prop} {n : Nat} {p q : Sheet}
    (hR : R (wordsOf p.text) p.left.length n) (hu : ∀ a, R (wordsOf p.text) p.left.length a → a = n)
    (hn : n ≤ p.text.length) : p.Moves R q ↔ q = p.goto n := by
  unfold Sheet.Moves Sheet.goto
  simp only [wordsOf_is]
  constructor
  · rintro ⟨h1, h2, h3, ws, rfl, h4⟩
    have h5 := hu _ h4
    obtain ⟨l, r, ps, a⟩ := q
    simp only at h2 h3 h5
    subst h2 h3
    have : p.text = l ++ r := h1.symm
    rw [this, ← h5]
    simp
  · rintro rfl
    refine ⟨by simp [Sheet.text], rfl, rfl, _, rfl, ?_⟩
    rw [show (p.text.take n).length = n by simp [hn]]
    exact hR

theorem drops_iff {p q : Sheet} : p.Drops q ↔ q = p.dropArg := by
  obtain ⟨h1, h2⟩ := C10_last_arg (.ofText p.text)
  unfold Sheet.Drops Sheet.dropArg
  cases he : (Buffer.ofText p.text).lastArg with
  | some w =>
    have h3 := (h1 w).mp he
    constructor
    · rintro (⟨v, hv, rfl⟩ | ⟨hv, -⟩)
      · have := ((h1 v).mpr hv).symm.trans he
        cases this; rfl
      · have := (h2.mpr hv).symm.trans he; cases this
    · exact fun h => .inl ⟨w, h3, h⟩
  | none =>
    have h3 := h2.mp he
    constructor
    · rintro (⟨v, hv, rfl⟩ | ⟨-, rfl⟩)
      · have := ((h1 v).mpr hv).symm.trans he
        cases this
      · rfl
    · exact fun h => .inr ⟨h3, h⟩

theorem adds_iff {x : Text} {p q : Sheet} : p.Adds x q ↔ q = Sheet.addArg x p := by
  obtain ⟨h1, h2⟩ := C10_last_arg (.ofText x)
  unfold Sheet.Adds Sheet.addArg
  cases he : (Buffer.ofText x).lastArg with
  | some w =>
    have h3 := (h1 w).mp he
    constructor
    · rintro (⟨v, hv, rfl⟩ | ⟨hv, -⟩)
      · have := ((h1 v).mpr hv).symm.trans he
        cases this; rfl
      · have := (h2.mpr hv).symm.trans he; cases this
    · exact fun h => .inl ⟨w, h3, h⟩
  | none =>
    have h3 := h2.mp he
    constructor
    · rintro (⟨v, hv, rfl⟩ | ⟨-, rfl⟩)
      · have := ((h1 v).mpr hv).symm.trans he
        cases this
      · rfl
    · exact fun h => .inr ⟨h3, h⟩

/-- The entry looked at exists. -/
def Sheet.Bound (entries : List Text) (p : Sheet) : Prop := ∀ i, p.arg = some i → i < entries.length

theorem nextArg_lt {entries : List Text} {shown : Option Nat} {p : Sheet} (hb : Sheet.Bound entries p)
    (hs : ∀ i, shown = some i → i < entries.length) {i : Nat}
    (h : p.nextArg entries shown = some i) : i < entries.length := by
  unfold Sheet.nextArg at h
  split at h
  · cases h
  · rename_i hne
    have := List.length_pos_iff.mpr hne
    cases ha : p.arg with
    | none =>
      rw [ha] at h
      cases shown with
      | none => cases h; rw [Option.getD_none]; omega
      | some j => cases h; exact hs j rfl
    | some j =>
      rw [ha] at h
      cases j with
      | zero => cases h
      | succ j => cases h; have := hb _ ha; omega

theorem fetches_iff {entries : List Text} {shown : Option Nat} {p q : Sheet} (hb : Sheet.Bound entries p)
    (hs : ∀ i, shown = some i → i < entries.length) : p.Fetches entries shown q ↔ q = p.fetch entries shown := by
  unfold Sheet.Fetches Sheet.fetch
  cases hn : p.nextArg entries shown with
  | none => rfl
  | some i =>
    have hi := nextArg_lt hb hs hn
    have hx := List.getElem?_eq_getElem hi
    dsimp only
    simp only [adds_iff, drops_iff]
    rw [hx]
    simp only [Option.getD_some]
    constructor
    · rintro ⟨m, x, n, h1, h2, rfl, rfl⟩
      cases h2
      split at h1
      · rename_i ha; rw [if_pos ha, h1]
      · rename_i ha; rw [if_neg ha, h1]
    · intro h
      refine ⟨_, _, _, ?_, rfl, rfl, h⟩
      split <;> rfl

theorem does_iff {entries : List Text} {o : Option Text} {shown : Option Nat} {key : Key} {p q : Sheet}
    (hb : Sheet.Bound entries p) (hsh : ∀ i, shown = some i → i < entries.length) :
    p.Does entries o shown key q ↔ q = p.does entries o shown key := by
  have hs := wordsOf_separated p.text
  unfold Sheet.Does Sheet.does
  repeat' split
  · rfl
  · exact rubs_iff
  · have h1 := endAfter_is hs p.left.length
    refine moves_iff h1 (fun a ha => nextEnd_unique ha h1) ?_
    rcases h1 with ⟨w, hw, h, -⟩ | ⟨-, h⟩
    · rw [← h]; exact wordsOf_le _ hw
    · rw [h]; simp [Sheet.text]
  · have h1 := startBefore_is hs p.left.length
    refine moves_iff h1 (fun a ha => prevStart_unique ha h1) ?_
    have : startBefore (wordsOf p.text) p.left.length ≤ p.left.length := by
      rcases h1 with ⟨w, hw, h, h', -⟩ | ⟨-, h⟩ <;> omega
    rw [Sheet.text, List.length_append] at *
    exact Nat.le_trans this (Nat.le_add_right _ _)
  · rfl
  · rfl
  · exact fetches_iff hb hsh
  · rfl

theorem next_iff {entries : List Text} {key : Key} {p q : Sheet} (hb : Sheet.Bound entries p) :
    p.Next entries key q ↔ q = p.step entries key := does_iff hb (by simp)

theorem does_bound {entries : List Text} {o : Option Text} {shown : Option Nat} {key : Key} {p : Sheet}
    (hb : Sheet.Bound entries p) (hsh : ∀ i, shown = some i → i < entries.length) :
    Sheet.Bound entries (p.does entries o shown key) := by
  have hnone : ∀ q : Sheet, q.arg = none → Sheet.Bound entries q := fun q h i hi => by rw [h] at hi; cases hi
  unfold Sheet.does
  repeat' split
  · unfold Sheet.edited
    intro i hi
    dsimp only at hi
    split at hi
    · exact hb i hi
    · cases hi
  · refine hnone _ ?_; unfold Sheet.rub; split <;> rfl
  · exact hnone _ rfl
  · exact hnone _ rfl
  · refine hnone _ ?_; unfold Sheet.back; split <;> rfl
  · refine hnone _ ?_; unfold Sheet.first; split <;> rfl
  · unfold Sheet.fetch
    cases hn : p.nextArg entries shown with
    | none => exact hb
    | some i =>
      have hi := nextArg_lt hb hsh hn
      rintro j ⟨⟩
      exact hi
  · exact hnone _ rfl

theorem step_bound {entries : List Text} {key : Key} {p : Sheet} (hb : Sheet.Bound entries p) :
    Sheet.Bound entries (p.step entries key) := does_bound hb (by simp)

/-- The sheet after the keys. -/
def Sheet.steps (entries : List Text) (keys : List Key) (p : Sheet) : Sheet :=
  keys.foldl (fun p key => p.step entries key) p

theorem run_iff {entries : List Text} : ∀ {keys : List Key} {p q : Sheet}, Sheet.Bound entries p →
    (Sheet.Run entries keys p q ↔ q = Sheet.steps entries keys p)
  | [], p, q, _ => Iff.rfl
  | key :: keys, p, q, hb => by
    unfold Sheet.Run
    constructor
    · rintro ⟨m, h1, h2⟩
      rw [(next_iff hb).mp h1, run_iff (step_bound hb)] at h2
      exact h2
    · intro h
      exact ⟨_, (next_iff hb).mpr rfl, (run_iff (step_bound hb)).mpr h⟩

theorem reads_iff {entries : List Text} : ∀ {input : List (Option Key)} {p : Sheet} {o : Sheet.Said},
    Sheet.Bound entries p → (Sheet.Reads entries input p o ↔ o = Sheet.said entries input p)
  | [], p, o, _ => Iff.rfl
  | none :: _, p, o, _ => Iff.rfl
  | some key :: rest, p, o, hb => by
    unfold Sheet.Reads Sheet.said
    repeat' split
    · rfl
    · rfl
    · exact reads_iff hb
    · rfl
    · constructor
      · rintro ⟨m, h1, h2⟩
        rw [(next_iff hb).mp h1, reads_iff (step_bound hb)] at h2
        exact h2
      · intro h
        exact ⟨_, (next_iff hb).mpr rfl, (reads_iff (step_bound hb)).mpr h⟩

/-- The text the line began with. -/
def Sheet.origin (p : Sheet) : Text := p.past.getLast?.getD p.text

theorem first_text (p : Sheet) : p.first.text = Sheet.origin p := by
  unfold Sheet.first Sheet.origin
  cases p.past.getLast? with
  | none => rfl
  | some t => simp [Sheet.text]

theorem put_origin (p : Sheet) (l r : Text) (a : Option Nat) : Sheet.origin { p.put l r with arg := a } = Sheet.origin p := by
  unfold Sheet.origin Sheet.put
  cases p.past <;> simp [List.getLast?_cons]

theorem same_origin {p q : Sheet} (h1 : q.text = p.text) (h2 : q.past = p.past) : Sheet.origin q = Sheet.origin p := by
  unfold Sheet.origin; rw [h1, h2]

theorem edited_same {o : Option Text} {key : Key} {p : Sheet} (h : p.counts o key = false) :
    (p.edited o key).text = p.text := by
  have goL : ∀ t : Text × Text, (goLeft t).1 ++ (goLeft t).2 = t.1 ++ t.2 := by
    rintro ⟨l, r⟩
    rcases List.eq_nil_or_concat l with rfl | ⟨l, c, rfl⟩ <;> simp [goLeft]
  have goR : ∀ t : Text × Text, (goRight t).1 ++ (goRight t).2 = t.1 ++ t.2 := by
    rintro ⟨l, r⟩
    cases r <;> simp [goRight]
  unfold Sheet.edited Sheet.text
  dsimp only
  unfold edit
  split
  · simp [Sheet.counts] at h
  · exact goL _
  · exact goL _
  · cases o with
    | none => exact goR _
    | some x =>
      dsimp only
      split
      · rename_i h1
        have h1 : p.right = [] := h1
        simp [Sheet.counts, Sheet.takes, h1] at h
      · exact goR _
  · cases o with
    | none => exact goR _
    | some x => simp [Sheet.counts, Sheet.takes] at h
  · rfl
  · rfl
  · simp
  · simp
  · have h1 : p.left = [] := by simpa [Sheet.counts] using h
    simp [h1]
  · have h1 : p.left = [] := by simpa [Sheet.counts] using h
    simp [h1]
  · have h1 : p.right = [] := by simpa [Sheet.counts] using h
    simp [h1]
  · have h1 : p.right = [] := by simpa [Sheet.counts] using h
    simp [h1]
  · simp [Sheet.counts] at h
  · simp [Sheet.counts] at h
  · rfl

theorem step_origin (entries : List Text) (key : Key) (p : Sheet) : Sheet.origin (p.step entries key) = Sheet.origin p := by
  unfold Sheet.step Sheet.does
  repeat' split
  · cases hc : p.counts (hint entries p.text) key with
    | true =>
      have : (p.edited (hint entries p.text) key) = { p.put (p.edited (hint entries p.text) key).left
        (p.edited (hint entries p.text) key).right with arg := (p.edited (hint entries p.text) key).arg } := by
        simp only [Sheet.edited, Sheet.put, hc, if_true]
      rw [this]
      exact put_origin ..
    | false => exact same_origin (edited_same hc) (by simp [Sheet.edited, hc])
  · unfold Sheet.rub
    split
    · exact put_origin ..
    · rfl
  · exact same_origin (by simp [Sheet.goto, Sheet.text]) rfl
  · exact same_origin (by simp [Sheet.goto, Sheet.text]) rfl
  · unfold Sheet.back Sheet.origin
    cases hp : p.past with
    | nil => simp [Sheet.text]
    | cons t ts => cases ts <;> simp [Sheet.text, List.getLast?_cons]
  · unfold Sheet.first Sheet.origin
    cases hp : p.past.getLast? with
    | none => simp only [hp]; rfl
    | some t => simp [Sheet.text]
  · unfold Sheet.fetch
    split
    · rfl
    · have hd : Sheet.origin p.dropArg = Sheet.origin p := by
        unfold Sheet.dropArg
        split
        · exact put_origin p _ _ p.arg
        · rfl
      have ha : ∀ (x : Text) (q : Sheet) (a : Option Nat), Sheet.origin { Sheet.addArg x q with arg := a } = Sheet.origin q := by
        intro x q a
        unfold Sheet.addArg
        split
        · exact put_origin ..
        · rfl
      rw [ha]
      split
      · rfl
      · exact hd
  · rfl

theorem steps_origin {entries : List Text} : ∀ (keys : List Key) {p : Sheet},
    Sheet.origin (Sheet.steps entries keys p) = Sheet.origin p
  | [], _ => rfl
  | key :: keys, p => by
    show Sheet.origin (Sheet.steps entries keys (p.step entries key)) = _
    rw [steps_origin keys, step_origin]

end Props
end Liner
