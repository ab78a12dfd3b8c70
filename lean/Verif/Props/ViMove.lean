import Verif.Proof.ViPress
import Verif.Props.Vi
/-
Properties of the vi motions and operators: C50, C51, C52, C53.
-/

namespace Liner.Props
open Liner Liner.Spec Liner.Editor Liner.Wit

/-- In normal mode, outside a search, after any keys: what the theorems on motions start from. -/
theorem vi_ready {E : Env} {p p' : Prompt} {h : History} {fs : FS} {b : Buffer}
    {keys : List (Key × (Text → List Text))} {v : Vi} {s : Ed} {l r : Text}
    (hs : session Vi.keyMap E p keys (({} : Vi), initial p' h fs b) = .ok () (v, s))
    (hm : v.mode = .normal) (hq : s.isSearch = false) (hl : At s l r) :
    v.modeStack = [] ∧ Open true s l r ∧ (r ≠ [] ∨ l = []) := by
  have hv : Vi.VI (v, s) := wp_ok (Vi.vi_session E p p' h fs b keys) hs
  refine ⟨?_, ⟨hq, by rw [hv.eol]; simp [hm], trivial, hl⟩, ?_⟩
  · exact hv.nil hm
  · obtain ⟨t, ht, hc⟩ := C49_cursor E p p' h fs b keys v s hs hm
    have := hl.1.symm.trans ht
    injection this with this
    subst this
    rw [hl.2] at hc
    rcases hc with hc | ⟨hc, -⟩
    · exact .inl (by rintro rfl; simp at hc)
    · exact .inr (List.append_eq_nil_iff.1 hc).1

theorem apart_of {C : CharClass} (hC : ∀ c, C.isWhitespace c = true → C.isAlphanumeric c = false ∧ c ≠ '_') :
    Vi.Apart C := fun c hc => by
  obtain ⟨h1, h2⟩ := hC c hc
  simp [Vi.isKeyword, h1, h2]

theorem out_of {km : KeyMap Vi} {E : Env} {kcs : List (Key × (Text → List Text))} {t : Vi × Ed}
    {Q : Vi × Ed → Prop} (h : Wp (press km E kcs) t (fun _ t' => Q t') Vi.T2 (· ≠ .op)) :
    press km E kcs t ≠ .panic .op ∧ ∀ t', press km E kcs t = .ok () t' → Q t' := by
  unfold Wp at h
  constructor
  · intro hp; rw [hp] at h; exact h rfl
  · intro t' ht; rw [ht] at h; exact h

theorem at_rest {a b : Text} {s : Ed} (h : At s (rest true a b).1 (rest true a b).2) :
    text? s = some (a ++ b) ∧ s.cursor = min a.length ((a ++ b).length - 1) := by
  obtain ⟨h1, h2⟩ := h
  cases b with
  | nil =>
    rcases List.eq_nil_or_concat a with rfl | ⟨a', c, rfl⟩
    · simp [rest] at h1 h2 ⊢; exact ⟨h1, h2⟩
    · simp [rest] at h1 h2 ⊢; exact ⟨h1, h2⟩
  | cons c b =>
    simp [rest] at h1 h2 ⊢
    exact ⟨h1, by omega⟩

section
variable (E : Env) (hC : ∀ c, E.cc.isWhitespace c = true → E.cc.isAlphanumeric c = false ∧ c ≠ '_')
  (p p' : Prompt) (h : History) (fs : FS) (b : Buffer)
  (keys : List (Key × (Text → List Text))) (v : Vi) (s : Ed) (l r : Text)
  (hs : session Vi.keyMap E p keys (({} : Vi), initial p' h fs b) = .ok () (v, s))
  (hm : v.mode = .normal) (hq : s.isSearch = false) (hl : At s l r)
  (kcs : List (Key × (Text → List Text)))
include hC hs hm hq hl

/-- Any motion in normal mode. -/
theorem vi_motion (m : Motion) (ks : List Key) (hk : ks ∈ m.keys v.lastCharMovement)
    (hks : kcs.map Prod.fst = ks) (q : Nat)
    (hq' : Leads E.cc (l ++ r) l.length (if v.count = 0 then 1 else v.count) m q) :
    press Vi.keyMap E kcs (v, s) ≠ .panic .op ∧
    ∀ t', press Vi.keyMap E kcs (v, s) = .ok () t' →
      t'.1.mode = .normal ∧ t'.1.count = 0 ∧ t'.1.lastCharMovement = Vi.newLast v m ks ∧
      text? t'.2 = some (l ++ r) ∧ t'.2.cursor = min q ((l ++ r).length - 1) := by
  obtain ⟨hv, ho, hr⟩ := vi_ready hs hm hq hl
  obtain ⟨v', hmo, hg⟩ := Vi.normal_press E (apart_of hC) hks hk hv ho hr hq'
  have hle := Vi.leads_le (by simp) hq'
  refine out_of (wp_mono hg (fun _ t' h' => ?_) (fun _ _ h => h) (fun _ h => h))
  obtain ⟨h1, h2⟩ := h'
  have hst : t'.1.modeStack = [] := by
    rw [h1, hmo.stack]; simp [Vi.baseOf, hv]
  refine ⟨by simp [Vi.mode, hst], by rw [h1, hmo.count], by rw [h1, hmo.search], ?_⟩
  have h3 := at_rest h2.here
  rwa [List.take_append_drop, List.length_take, Nat.min_eq_left hle] at h3

/-! ### C50 -/

/-- C50: a character search goes to the count-th occurrence in its direction, or stays (`Leads`), and is
remembered. -/
theorem C50_search (m : CharMovement) (c : Char) (hc : c ≠ '\t' ∧ c ≠ '\n')
    (hks : kcs.map Prod.fst = [.char (searchKey m), .char c]) (q : Nat)
    (ht : Leads E.cc (l ++ r) l.length (if v.count = 0 then 1 else v.count) (.find m c) q) :
    press Vi.keyMap E kcs (v, s) ≠ .panic .op ∧
    ∀ t', press Vi.keyMap E kcs (v, s) = .ok () t' →
      t'.1.mode = .normal ∧ t'.1.count = 0 ∧ t'.1.lastCharMovement = some (c, m) ∧
      text? t'.2 = some (l ++ r) ∧ t'.2.cursor = q := by
  obtain ⟨hv, ho, hr⟩ := vi_ready hs hm hq hl
  have h1 := vi_motion E hC p p' h fs b keys v s l r hs hm hq hl kcs (.find m c) _
    (by simp [Motion.keys, hc]) hks q ht
  have hqq : min q ((l ++ r).length - 1) = q := Vi.find_inside hr ht
  rw [hqq] at h1
  exact h1

/-- C50: `;` repeats the search remembered, `,` repeats it in the other direction; what is remembered stays. -/
theorem C50_again (m : CharMovement) (c : Char) (k : Key) (m' : CharMovement)
    (hlast : v.lastCharMovement = some (c, m))
    (hk : k = .char ';' ∧ m' = m ∨ k = .char ',' ∧ m' = opposite m)
    (hks : kcs.map Prod.fst = [k]) (q : Nat)
    (ht : Leads E.cc (l ++ r) l.length (if v.count = 0 then 1 else v.count) (.find m' c) q) :
    press Vi.keyMap E kcs (v, s) ≠ .panic .op ∧
    ∀ t', press Vi.keyMap E kcs (v, s) = .ok () t' →
      t'.1.mode = .normal ∧ t'.1.count = 0 ∧ t'.1.lastCharMovement = some (c, m) ∧
      text? t'.2 = some (l ++ r) ∧ t'.2.cursor = q := by
  obtain ⟨hv, ho, hr⟩ := vi_ready hs hm hq hl
  have hmem : [k] ∈ (Motion.find m' c).keys v.lastCharMovement := by
    rcases hk with ⟨rfl, rfl⟩ | ⟨rfl, rfl⟩
    · simp [Motion.keys, hlast]
    · cases m <;> simp [Motion.keys, hlast, opposite]
  have h1 := vi_motion E hC p p' h fs b keys v s l r hs hm hq hl kcs (.find m' c) _ hmem hks q ht
  have hqq : min q ((l ++ r).length - 1) = q := Vi.find_inside hr ht
  rw [hqq] at h1
  rw [show Vi.newLast v (.find m' c) [k] = some (c, m) from hlast] at h1
  exact h1

/-! ### C51 -/

/-- C51: the word motions, with a count; the cursor does not leave the line, so a motion that leads to
the end of the line stops on its last character. -/
theorem C51_words (m : Motion) (ks : List Key)
    (hk : (m, ks) ∈ ([(.word false, ['w']), (.word true, ['W']), (.wordEnd false, ['e']), (.wordEnd true, ['E']), (.back false, ['b']), (.back true, ['B']), (.backEnd false, ['g', 'e']), (.backEnd true, ['g', 'E'])] : List (Motion × List Char)).map fun x => (x.1, x.2.map Key.char))
    (hks : kcs.map Prod.fst = ks) (q : Nat)
    (ht : Leads E.cc (l ++ r) l.length (if v.count = 0 then 1 else v.count) m q) :
    press Vi.keyMap E kcs (v, s) ≠ .panic .op ∧
    ∀ t', press Vi.keyMap E kcs (v, s) = .ok () t' →
      t'.1.mode = .normal ∧ t'.1.count = 0 ∧
      text? t'.2 = some (l ++ r) ∧ t'.2.cursor = min q ((l ++ r).length - 1) := by
  have hmem : ks ∈ m.keys v.lastCharMovement := by
    simp only [List.map_cons, List.map_nil, List.mem_cons, Prod.mk.injEq, List.not_mem_nil, or_false] at hk
    rcases hk with ⟨rfl, rfl⟩ | ⟨rfl, rfl⟩ | ⟨rfl, rfl⟩ | ⟨rfl, rfl⟩ | ⟨rfl, rfl⟩ | ⟨rfl, rfl⟩ | ⟨rfl, rfl⟩ | ⟨rfl, rfl⟩ <;>
      simp [Motion.keys]
  have h1 := vi_motion E hC p p' h fs b keys v s l r hs hm hq hl kcs m ks hmem hks q ht
  exact ⟨h1.1, fun t' h' => ⟨(h1.2 t' h').1, (h1.2 t' h').2.1, (h1.2 t' h').2.2.2⟩⟩

/-! ### C52 -/

/-- C52: `d` and a motion, each with a count or without, delete the text between the cursor and where
the motion leads, with the character there for `f`, `t`, `;`, `,` to the right and `ge`; the cursor is
where the text was, or on the last character. -/
theorem C52_delete_partial (hc : v.count = 0) (m : Motion) (ds ds' : List Char) (ks : List Key)
    (hd : Digits ds) (hd' : Digits ds') (hk : ks ∈ m.keys v.lastCharMovement)
    (hks : kcs.map Prod.fst = ds.map Key.char ++ .char 'd' :: (ds'.map Key.char ++ ks))
    (hi : m.inclusive = true → l ++ r ≠ []) (q : Nat)
    (ht : Leads E.cc (l ++ r) l.length (min (counted ds * counted ds') 4294967295) m q) :
    press Vi.keyMap E kcs (v, s) ≠ .panic .op ∧
    ∀ t', press Vi.keyMap E kcs (v, s) = .ok () t' →
      t'.1.mode = .normal ∧ t'.1.count = 0 ∧
      ∃ t, t = (l ++ r).take (min l.length q) ++ (l ++ r).drop (max l.length q + if m.inclusive then 1 else 0) ∧
        text? t'.2 = some t ∧ t'.2.cursor = min (min l.length q) (t.length - 1) := by
  obtain ⟨hv, ho, hr⟩ := vi_ready hs hm hq hl
  have hi' : m.inclusive = true → r ≠ [] := fun h' => by
    rcases hr with hr | rfl
    · exact hr
    · exact hi h'
  refine out_of (wp_mono (Vi.operator_press E (.inl ⟨rfl, rfl⟩) (apart_of hC) hd hd' hks hk hv hc ho hr hi' ht)
    (fun _ t' h' => ?_) (fun _ _ h => h) (fun _ h => h))
  obtain ⟨⟨h1, h2, -⟩, h3⟩ := h'
  refine ⟨by simp [Vi.mode, h1], h2, _, rfl, ?_⟩
  have h4 := at_rest h3.here
  refine ⟨h4.1, ?_⟩
  rw [h4.2]
  congr 1
  simp [Vi.cut]

/-- C52: `c` and a motion delete the same text and leave the cursor there, in insert mode. -/
theorem C52_change_partial (hc : v.count = 0) (m : Motion) (ds ds' : List Char) (ks : List Key)
    (hd : Digits ds) (hd' : Digits ds') (hk : ks ∈ m.keys v.lastCharMovement)
    (hks : kcs.map Prod.fst = ds.map Key.char ++ .char 'c' :: (ds'.map Key.char ++ ks))
    (hi : m.inclusive = true → l ++ r ≠ []) (q : Nat)
    (ht : Leads E.cc (l ++ r) l.length (min (counted ds * counted ds') 4294967295) m q) :
    press Vi.keyMap E kcs (v, s) ≠ .panic .op ∧
    ∀ t', press Vi.keyMap E kcs (v, s) = .ok () t' →
      t'.1.mode = .insert ∧ t'.1.count = 0 ∧
      At t'.2 ((l ++ r).take (min l.length q))
        ((l ++ r).drop (max l.length q + if m.inclusive then 1 else 0)) := by
  obtain ⟨hv, ho, hr⟩ := vi_ready hs hm hq hl
  have hi' : m.inclusive = true → r ≠ [] := fun h' => by
    rcases hr with hr | rfl
    · exact hr
    · exact hi h'
  refine out_of (wp_mono (Vi.operator_press E (.inr ⟨rfl, rfl⟩) (apart_of hC) hd hd' hks hk hv hc ho hr hi' ht)
    (fun _ t' h' => ?_) (fun _ _ h => h) (fun _ h => h))
  obtain ⟨⟨h1, h2, -⟩, h3⟩ := h'
  exact ⟨by simp [Vi.mode, h1], h2, h3.here⟩

omit hC in
/-- C52: the same for `0`, if no count was given. -/
theorem C52_zero (hc : v.count = 0) (op : Char) (ho' : op = 'd' ∨ op = 'c')
    (hks : kcs.map Prod.fst = [.char op, .char '0']) :
    press Vi.keyMap E kcs (v, s) ≠ .panic .op ∧
    ∀ t', press Vi.keyMap E kcs (v, s) = .ok () t' →
      t'.1.mode = (if op = 'd' then .normal else .insert) ∧ t'.1.count = 0 ∧ At t'.2 [] r := by
  obtain ⟨hv, ho, hr⟩ := vi_ready hs hm hq hl
  rcases ho' with rfl | rfl
  · refine out_of (wp_mono (Vi.operator_zero E (.inl ⟨rfl, rfl⟩) hks hv hc ho)
      (fun _ t' h' => ?_) (fun _ _ h => h) (fun _ h => h))
    exact ⟨by simp [Vi.mode, h'.1.1], h'.1.2, h'.2.here⟩
  · refine out_of (wp_mono (Vi.operator_zero E (.inr ⟨rfl, rfl⟩) hks hv hc ho)
      (fun _ t' h' => ?_) (fun _ _ h => h) (fun _ h => h))
    exact ⟨by simp [Vi.mode, h'.1.1], h'.1.2, h'.2.here⟩

/-! ### C53 -/

omit hC in
/-- C53: `0` that is not part of a count is a motion to the start of the line. -/
theorem C53_zero (hc : v.count = 0) (hks : kcs.map Prod.fst = [.char '0']) :
    press Vi.keyMap E kcs (v, s) ≠ .panic .op ∧
    ∀ t', press Vi.keyMap E kcs (v, s) = .ok () t' →
      t'.1.mode = .normal ∧ t'.1.count = 0 ∧ At t'.2 [] (l ++ r) := by
  obtain ⟨hv, ho, hr⟩ := vi_ready hs hm hq hl
  obtain ⟨⟨kz, cmp'⟩, rfl, hz⟩ := List.map_eq_singleton_iff.1 hks
  dsimp only at hz
  subst hz
  refine out_of (wp_mono (Vi.zero_press E hv hc ho) (fun _ t' h' => ?_) (fun _ _ h => h) (fun _ h => h))
  exact ⟨by simp [Vi.mode, h'.1.1], h'.1.2, h'.2.here⟩


omit hC in
/-- C53: digits, however many, make the count they denote in decimal, or the largest 32-bit number. -/
theorem C53_digits (hc : v.count = 0) (ds : List Char) (hd : Digits ds)
    (hks : kcs.map Prod.fst = ds.map Key.char) :
    press Vi.keyMap E kcs (v, s) ≠ .panic .op ∧
    ∀ t', press Vi.keyMap E kcs (v, s) = .ok () t' →
      t'.1.mode = .normal ∧ t'.1.count = min (decimal ds) 4294967295 ∧ At t'.2 l r := by
  obtain ⟨hv, ho, hr⟩ := vi_ready hs hm hq hl
  refine out_of (wp_mono (Vi.digits_press E hks hd hc (.inl hv) ho)
    (fun _ t' h' => ?_) (fun _ _ h => h) (fun _ h => h))
  obtain ⟨h1, h3⟩ := h'
  rw [h1]
  exact ⟨hm, rfl, h3.here⟩

/-- C53: a count and a motion: the motion is repeated as often as the count says. -/
theorem C53_counted (hc : v.count = 0) (m : Motion) (ds : List Char) (ks : List Key)
    (hd : Digits ds) (hk : ks ∈ m.keys v.lastCharMovement)
    (hks : kcs.map Prod.fst = ds.map Key.char ++ ks) (q : Nat)
    (ht : Leads E.cc (l ++ r) l.length (counted ds) m q) :
    press Vi.keyMap E kcs (v, s) ≠ .panic .op ∧
    ∀ t', press Vi.keyMap E kcs (v, s) = .ok () t' →
      t'.1.mode = .normal ∧ t'.1.count = 0 ∧
      text? t'.2 = some (l ++ r) ∧ t'.2.cursor = min q ((l ++ r).length - 1) := by
  obtain ⟨hv, ho, hr⟩ := vi_ready hs hm hq hl
  obtain ⟨k1, k2, rfl, h1, h2⟩ := List.map_eq_append_iff.1 hks
  have hle := Vi.leads_le (by simp) ht
  refine out_of (wp_mono (Vi.sat_append E (Q := fun v' => v'.modeStack = [] ∧ v'.count = 0) (e' := true)
    (p := rest true ((l ++ r).take q) ((l ++ r).drop q))
    (Vi.digits_press E h1 hd hc (.inl hv) ho) fun s1 hs1 => ?_)
    (fun _ t' h' => ?_) (fun _ _ h => h) (fun _ h => h))
  · obtain ⟨v', hmo, hg⟩ := Vi.normal_press E (v := { v with count := min (decimal ds) Vi.u32max })
      (apart_of hC) h2 hk hv hs1 hr (by rw [Vi.moveCount_counted hd]; exact ht)
    refine Vi.sat_of E ⟨?_, hmo.count⟩ hg
    rw [hmo.stack]; simp [Vi.baseOf, hv]
  · obtain ⟨⟨h1, h2⟩, h3⟩ := h'
    refine ⟨by simp [Vi.mode, h1], h2, ?_⟩
    have h3 := at_rest h3.here
    rwa [List.take_append_drop, List.length_take, Nat.min_eq_left hle] at h3

end

/-- C51: every motion leads somewhere, to one place only, and not out of the line. -/
theorem C51_leads (C : CharClass) (t : Text) (cur n : Nat) (m : Motion) (hc : cur ≤ t.length) :
    ∃ q, Leads C t cur n m q ∧ q ≤ t.length ∧ ∀ q', Leads C t cur n m q' → q' = q := by
  obtain ⟨q, hq⟩ := Vi.leads_exists C t cur n m
  exact ⟨q, hq, Vi.leads_le hc hq, fun q' hq' => Vi.leads_unique hq' hq⟩

/-! ### Cases

Keys are typed from normal mode on the line given; the cursor starts on its last character. -/

/-- What the keys lead to. -/
def viEnds (line ks : String) (mode : Mode) (t : String) (cur : Nat) : Bool :=
  okAnd (vi [] ([.esc] ++ chars ks) line)
    (fun _ x => x.1.mode == mode && x.1.count == 0 && text? x.2 == some t.toList && x.2.cursor == cur)

example : viEnds "a.b.c.d" "0f." .normal "a.b.c.d" 1 = true := by decide +kernel
example : viEnds "a.b.c.d" "02t." .normal "a.b.c.d" 2 = true := by decide +kernel
example : viEnds "a.b.c.d" "04f." .normal "a.b.c.d" 0 = true := by decide +kernel
example : viEnds "a.b.c.d" "2F." .normal "a.b.c.d" 3 = true := by decide +kernel
example : viEnds "a.b.c.d" "3T." .normal "a.b.c.d" 2 = true := by decide +kernel
example : viEnds "a.b.c.d" "0f.2;," .normal "a.b.c.d" 3 = true := by decide +kernel
example : NthAfter (isAt "a.b.c.d".toList '.') 0 3 5 := by unfold NthAfter; decide +kernel
example : ∀ i, ¬ NthAfter (isAt "a.b".toList '.') 0 2 i := by
  rintro i ⟨h1, h2, h3⟩
  have : i < 3 := by
    by_contra hn
    have : isAt "a.b".toList '.' i = false := by
      unfold isAt; rw [List.getElem?_eq_none (by simpa using hn)]; rfl
    rw [this] at h2; cases h2
  interval_cases i <;> revert h1 h2 h3 <;> decide +kernel

example : viEnds "ab, cd.e" "0w" .normal "ab, cd.e" 2 = true := by decide +kernel
example : viEnds "ab, cd.e" "0W" .normal "ab, cd.e" 4 = true := by decide +kernel
example : viEnds "ab, cd.e" "03w" .normal "ab, cd.e" 6 = true := by decide +kernel
example : viEnds "ab, cd.e" "09w" .normal "ab, cd.e" 7 = true := by decide +kernel
example : viEnds "ab, cd.e" "03e" .normal "ab, cd.e" 5 = true := by decide +kernel
example : viEnds "ab, cd.e" "0E" .normal "ab, cd.e" 2 = true := by decide +kernel
example : viEnds "ab, cd.e" "2b" .normal "ab, cd.e" 4 = true := by decide +kernel
example : viEnds "ab, cd.e" "2B" .normal "ab, cd.e" 0 = true := by decide +kernel
example : viEnds "ab, cd.e" "2ge" .normal "ab, cd.e" 5 = true := by decide +kernel
example : viEnds "ab, cd.e" "gE" .normal "ab, cd.e" 2 = true := by decide +kernel

example : viEnds "ab, cd.e" "02dw" .normal "cd.e" 0 = true := by decide +kernel
example : viEnds "ab cd ef gh ij" "02d2w" .normal "ij" 0 = true := by decide +kernel
example : viEnds "ab, cd.e" "0df," .normal " cd.e" 0 = true := by decide +kernel
example : viEnds "ab, cd.e" "0ct," .insert ", cd.e" 0 = true := by decide +kernel
example : viEnds "ab, cd.e" "bd$" .normal "ab, cd" 5 = true := by decide +kernel
example : viEnds "ab, cd.e" "dge" .normal "ab, cd" 5 = true := by decide +kernel
example : viEnds "ab, cd.e" "dF," .normal "abe" 2 = true := by decide +kernel
example : viEnds "ab, cd.e" "bd0" .normal ".e" 0 = true := by decide +kernel
example : viEnds "ab, cd.e" "c0" .insert "e" 0 = true := by decide +kernel
example : viEnds "ab cd" "099999999999l" .normal "ab cd" 4 = true := by decide +kernel
example : decimal ['1', '0', '7'] = 107 ∧ counted ['4', '2', '9', '4', '9', '6', '7', '2', '9', '6'] = 4294967295 := by
  decide
example : Digits ['1', '0'] := by unfold Digits; decide

/-- C52 on an empty line: a motion that includes its last character leaves no character to delete, and
the deletion panics. -/
theorem C52_empty_violation : (match vi [] [.esc, .char 'd', .char 'f', .char 'x'] with
    | .panic .op => true | _ => false) = true := by decide +kernel

/-- C53: a count before an operator is not kept apart from the key `0`: after `2d0` the operator still
waits, with the count 20. -/
theorem C53_zero_violation : okAnd (vi [] ([.esc] ++ chars "2d0") "ab cd")
    (fun _ x => x.1.mode == .delete 4 && x.1.count == 20 && text? x.2 == some "ab cd".toList) = true := by
  decide +kernel

/-- C52: a search that finds nothing still deletes the character under the cursor. -/
theorem C52_nothing_violation : viEnds "abc" "dfx" .normal "ab" 1 = true := by decide +kernel

/-- C52: Home and End move the cursor under a waiting operator, which goes on waiting: nothing is deleted, and a
further motion deletes from where the operator was given. -/
theorem C52_home_violation :
    okAnd (vi [] ([.esc] ++ chars "d" ++ [.home]) "abc") (fun _ x => text? x.2 == some "abc".toList &&
      x.2.cursor == 0 && x.1.mode == .delete 2) = true ∧
    okAnd (vi [] ([.esc] ++ chars "0d" ++ [.end]) "abc") (fun _ x => text? x.2 == some "abc".toList &&
      x.1.mode == .delete 0) = true ∧
    okAnd (vi [] ([.esc] ++ chars "0d" ++ [.end] ++ chars "h") "abc") (fun _ x => text? x.2 == some "c".toList &&
      x.1.mode == .normal) = true := by decide +kernel

end Liner.Props
