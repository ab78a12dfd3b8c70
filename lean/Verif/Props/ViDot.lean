import Verif.Proof.ViDot
import Verif.Props.ViEdit
/-
Properties of the repetition of changes: C56.
-/

namespace Liner.Vi
open Liner Liner.Spec Liner.Editor M KM

theorem press_split (E : Env) {k : Key} {c : Text → List Text} {ks : List (Key × (Text → List Text))} {t t' : Vi × Ed}
    (h : press keyMap E ((k, c) :: ks) t = .ok () t') :
    ∃ d t1, keyMap.handleKey E c k t = .ok d t1 ∧ press keyMap E ks t1 = .ok () t' := by
  have h' : M.bind (keyMap.handleKey E c k) (fun _ => press keyMap E ks) t = .ok () t' := h
  unfold M.bind at h'
  split at h'
  · rename_i d t1 h1
    exact ⟨d, t1, h1, h'⟩
  · cases h'
  · cases h'

theorem session_press (E : Env) (p : Prompt) : ∀ (ks pre : List (Key × (Text → List Text))) (t t1 t2 : Vi × Ed),
    session keyMap E p pre t = .ok () t1 → press keyMap E ks t1 = .ok () t2 → session keyMap E p (pre ++ ks) t = .ok () t2
  | [], pre, t, t1, t2, h1, h2 => by
    cases h2
    rw [List.append_nil]; exact h1
  | (k, c) :: ks, pre, t, t1, t2, h1, h2 => by
    obtain ⟨d, t3, h3, h4⟩ := press_split E h2
    have := session_press E p ks (pre ++ [(k, c)]) t t3 t2 (session_snoc E p h1 h3) h4
    rwa [List.append_assoc] at this

theorem motion_seen {last : Option (Char × CharMovement)} {m : Motion} {ks : List Key} (h : ks ∈ m.keys last) :
    ∀ k ∈ ks, ∀ s, Seen s k := by
  have hch : ∀ c : Char, c ≠ '\t' → c ≠ '\n' → ∀ s, Seen s (.char c) := fun c h1 h2 s => seen_char h1 h2
  cases m with
  | left =>
    simp only [Motion.keys, List.mem_cons, List.not_mem_nil, or_false] at h
    rcases h with rfl | rfl | rfl <;> simp only [List.mem_cons, List.not_mem_nil, or_false, forall_eq]
    · exact hch _ (by decide) (by decide)
    · intro s; constructor <;> simp
    · intro s; constructor <;> simp
  | right =>
    simp only [Motion.keys, List.mem_cons, List.not_mem_nil, or_false] at h
    rcases h with rfl | rfl <;> simp only [List.mem_cons, List.not_mem_nil, or_false, forall_eq] <;>
      exact hch _ (by decide) (by decide)
  | first | last =>
    simp only [Motion.keys, List.mem_cons, List.not_mem_nil, or_false] at h
    subst h
    simp only [List.mem_cons, List.not_mem_nil, or_false, forall_eq]
    exact hch _ (by decide) (by decide)
  | word b | wordEnd b | back b =>
    simp only [Motion.keys, List.mem_cons, List.not_mem_nil, or_false] at h
    subst h
    simp only [List.mem_cons, List.not_mem_nil, or_false, forall_eq]
    cases b <;> exact hch _ (by decide) (by decide)
  | backEnd b =>
    simp only [Motion.keys, List.mem_cons, List.not_mem_nil, or_false] at h
    subst h
    simp only [List.mem_cons, List.not_mem_nil, or_false, forall_eq_or_imp, forall_eq]
    exact ⟨hch _ (by decide) (by decide), by cases b <;> exact hch _ (by decide) (by decide)⟩
  | find m c =>
    simp only [Motion.keys, List.mem_append] at h
    rcases h with (h | h) | h
    · split at h
      · cases h
      · rename_i hc
        simp only [List.mem_cons, List.not_mem_nil, or_false] at h
        subst h
        simp only [List.mem_cons, List.not_mem_nil, or_false, forall_eq_or_imp, forall_eq]
        rw [not_or] at hc
        exact ⟨by cases m <;> exact hch _ (by decide) (by decide), hch _ hc.1 hc.2⟩
    · split at h
      · simp only [List.mem_cons, List.not_mem_nil, or_false] at h
        subst h
        simp only [List.mem_cons, List.not_mem_nil, or_false, forall_eq]
        exact hch _ (by decide) (by decide)
      · cases h
    · split at h
      · simp only [List.mem_cons, List.not_mem_nil, or_false] at h
        subst h
        simp only [List.mem_cons, List.not_mem_nil, or_false, forall_eq]
        exact hch _ (by decide) (by decide)
      · cases h

theorem change_seen {last : Option (Char × CharMovement)} {ch : Change} {ds : List Char} {t : Text} (hd : Digits ds)
    (h : ch.Can last t) : ∀ k ∈ ch.keys ds, ∀ s, Seen s k := by
  have hch : ∀ c : Char, c ≠ '\t' → c ≠ '\n' → ∀ s, Seen s (.char c) := fun c h1 h2 s => seen_char h1 h2
  have hdig : ∀ k ∈ ds.map Key.char, ∀ s, Seen s k := fun k hk s => by
    obtain ⟨d, h1, rfl⟩ := List.mem_map.1 hk
    exact seen_digit (hd.1 d h1)
  have hesc : ∀ s, Seen s .esc := fun s => seen_esc
  intro k hk
  cases ch with
  | cut k' =>
    obtain rfl : k = k' := by simpa [Change.keys] using hk
    rcases h with rfl | rfl
    · exact hch _ (by decide) (by decide)
    · intro s; constructor <;> simp
  | toggle => simp [Change.keys] at hk; subst hk; exact hch _ (by decide) (by decide)
  | cutEnd => simp [Change.keys] at hk; subst hk; exact hch _ (by decide) (by decide)
  | replace c =>
    simp only [Change.keys, List.mem_cons, List.not_mem_nil, or_false] at hk
    rcases hk with rfl | rfl
    · exact hch _ (by decide) (by decide)
    · exact hch _ h.1 h.2
  | delete m ks =>
    simp only [Change.keys, List.mem_cons, List.mem_append] at hk
    rcases hk with rfl | hk | hk
    · exact hch _ (by decide) (by decide)
    · exact hdig k hk
    · exact motion_seen h.1 k hk
  | insert c ts =>
    simp only [Change.keys, List.mem_cons, List.mem_append, List.not_mem_nil, or_false] at hk
    rcases hk with rfl | hk | rfl
    · have := h.1
      simp only [List.mem_cons, List.not_mem_nil, or_false] at this
      rcases this with rfl | rfl | rfl | rfl <;> exact hch _ (by decide) (by decide)
    · exact types_seen (h.2 k hk)
    · exact hesc
  | subst ts =>
    simp only [Change.keys, List.mem_cons, List.mem_append, List.not_mem_nil, or_false] at hk
    rcases hk with rfl | hk | rfl
    · exact hch _ (by decide) (by decide)
    · exact types_seen (h k hk)
    · exact hesc
  | change m ks ts =>
    simp only [Change.keys, List.mem_cons, List.mem_append, List.not_mem_nil, or_false] at hk
    rcases hk with rfl | ((hk | hk) | hk) | rfl
    · exact hch _ (by decide) (by decide)
    · exact hdig k hk
    · exact motion_seen h.1 k hk
    · exact types_seen (h.2.2 k hk)
    · exact hesc

/-- The keys of a change. -/
theorem change_press [Around] (E : Env) {ch : Change} {ds : List Char} {v : Vi} {s : Ed} {l r : Text}
    {kcs : List (Key × (Text → List Text))} (hC : Apart E.cc) (hd : Digits ds)
    (hc : ch.Can v.lastCharMovement (l ++ r)) (hr : r ≠ [] ∨ l = []) (hv : v.modeStack = [])
    (hks : kcs.map Prod.fst = ch.keys ds) (h : Open true s l r) :
    ∃ v' p', PressGives E kcs v s v' true p' ∧ Final E.cc ch (ch.total v.moveCount ds) v l r v' p' := by
  obtain ⟨v1, e1, p1, hch, h1, h2⟩ := change_done E (n := 6) (ds := ds) hC hd hc hr hv
  have hseen := change_seen hd hc
  rw [keys_body] at hks hseen
  cases hop : opener ch with
  | none =>
    obtain ⟨rfl, hf⟩ := h1 hop
    rw [hop] at hks hseen
    simp only [Option.isSome_none, Bool.false_eq_true, if_false, List.append_nil] at hks hseen
    exact ⟨v1, p1, (hch.chain E hv).press E kcs s hks hseen h, hf⟩
  | some k =>
    obtain ⟨-, v', p', hesc, hf⟩ := h2 (by rw [hop]; rfl)
    rw [hop] at hks hseen
    simp only [Option.isSome_some, if_true] at hks hseen
    exact ⟨v', p', ((hch.append E hesc).chain E hv).press E kcs s hks hseen h, hf⟩

theorem press_ok [Around] {E : Env} {kcs : List (Key × (Text → List Text))} {v v' : Vi} {s : Ed} {e' : Bool} {p' : Text × Text} {t : Vi × Ed}
    (h : PressGives E kcs v s v' e' p') (hp : press keyMap E kcs (v, s) = .ok () t) :
    t.1 = v' ∧ Open e' t.2 p'.1 p'.2 := by
  unfold PressGives GivesP Gives Wp at h
  rw [hp] at h
  exact h

/-- The insertion with which a line begins. -/
theorem first_rec (E : Env) (p p' : Prompt) (h : History) (fs : FS) (b : Buffer) {ts : List Key}
    {kcs : List (Key × (Text → List Text))} (ht : ∀ k ∈ ts, Types k) (hks : kcs.map Prod.fst = ts ++ [.esc]) :
    Wp (session keyMap E p kcs) (({} : Vi), initial p' h fs b)
      (fun _ t' => Rec (.insert 'i' ts) 1 t'.1 ∧ t'.1.modeStack = []) T2 T1 := by
  unfold session
  rw [wp_bind, wp_ed]
  refine wp_mono (start_sets E p p' h fs b trivial) (fun _ s1 h1 => ?_) (fun _ _ _ => trivial) (fun _ _ => trivial)
  have ho : Open false s1 b.data [] := by
    have := h1.here; rwa [rest_false] at this
  have hi : Gives (keyMap.init E) (({} : Vi), s1) {} false b.data [] := by
    show Gives (Vi.init E) _ _ _ _ _
    unfold Vi.init
    refine gives_bind (gives_onBuf (v := ({} : Vi)) (f := Buffer.startUndoGroup) (fun b => by rfl) ho) fun _ s2 h2 => ?_
    have := setEditorMode_gives E (v := ({} : Vi)) (.inr rfl) h2
    rwa [rest_false] at this
  rw [wp_bind]
  refine wp_mono hi (fun _ t2 h2 => ?_) (fun _ _ h => h) (fun _ _ => trivial)
  obtain ⟨v2, s2⟩ := t2
  obtain ⟨hv2, h2⟩ := h2
  dsimp only at hv2 h2
  subst hv2
  have hch := (type_chain E (n := 6) (b := true) ts ({} : Vi) (b.data, []) ht rfl rfl).append E
    (.one E (.typed rfl (.inr rfl)) fun s h => esc_gives E (fun h' => absurd rfl h') rfl rfl h)
  have hp := hch.press E kcs s2 hks (fun k hk s => by
    rcases List.mem_append.1 hk with hk | hk
    · exact types_seen (ht k hk) s
    · simp at hk; subst hk; exact seen_esc) h2
  refine wp_mono hp (fun _ t3 h3 => ?_) (fun _ _ h => h) (fun _ _ => trivial)
  rw [h3.1]
  exact ⟨⟨rfl, rfl, rfl⟩, rfl⟩

end Liner.Vi

namespace Liner.Props
open Liner Liner.Spec Liner.Editor Liner.Wit Liner.Tests

theorem leaves_zero {ch : Change} {n : Nat} (h : ch ≠ .toggle) : ch.leaves n = 0 := by
  cases ch <;> first | rfl | exact absurd rfl h

theorem changes_kept {C : CharClass} {n : Nat} {l r t : Text} {cur : Nat} {ch : Change} (hf : ch.forgets → n = 1)
    (hc : Changes C (Vi.kept n ch) l r t cur ch) : Changes C n l r t cur ch := by
  cases ch with
  | delete m ks =>
    cases m with
    | find m c => rw [hf trivial]; exact hc
    | _ => exact hc
  | change m ks ts =>
    cases m with
    | find m c => rw [hf trivial]; exact hc
    | _ => exact hc
  | _ => exact hc

section
variable (E : Env) (hC : ∀ c, E.cc.isWhitespace c = true → E.cc.isAlphanumeric c = false ∧ c ≠ '_')
  (p p' : Prompt) (h : History) (fs : FS) (b : Buffer)
include hC

/-- What is known of a state with a last change. -/
theorem made_keeps {t : Vi × Ed} {ch : Change} {n : Nat} (hM : Made E p (({} : Vi), initial p' h fs b) t ch n) :
    (∃ keys, session Vi.keyMap E p keys (({} : Vi), initial p' h fs b) = .ok () t) ∧ Vi.Keeps ch n t.1 := by
  induction hM with
  | @command keys kcs v s t l r ch n ds before normal quiet here digits can count enough keys' run =>
    refine ⟨⟨_, Vi.session_press E p kcs keys _ _ _ before run⟩, ?_⟩
    obtain ⟨hv, ho, hr⟩ := vi_ready before normal quiet here
    obtain ⟨v', p', hp, hf⟩ := Vi.change_press E (apart_of hC) digits can hr hv keys' ho
    have hn : n = ch.total v.moveCount ds := count
    rw [(Vi.press_ok hp run).1, hn]
    exact ⟨hf.record fun c hc => hn ▸ enough c hc, .inl hf.stack⟩
  | @first ts kcs t types keys run =>
    refine ⟨⟨_, run⟩, ?_⟩
    have := wp_ok (Vi.first_rec E p p' h fs b types keys) run
    exact ⟨this.1, .inl this.2⟩
  | @aside t t' ch n k comp d made other run ih =>
    obtain ⟨⟨keys, hs⟩, hk⟩ := ih
    refine ⟨⟨_, Vi.session_snoc E p hs run⟩, ?_⟩
    have := Vi.keeps_handleKey E comp hk other t.2
    exact wp_ok (s := (t.1, t.2)) this run
  | @again t t' ch n comp d l r made normal quiet here can run ih =>
    obtain ⟨⟨keys, hs⟩, hk⟩ := ih
    refine ⟨⟨_, Vi.session_snoc E p hs run⟩, ?_⟩
    obtain ⟨hv, ho, hr⟩ := vi_ready hs normal quiet here
    obtain ⟨v', p', hg, hst, -, -, hR, -⟩ := Vi.dot_gives E (n := 5) (apart_of hC) hk.1 can hr hv ho
    have := wp_ok (Vi.handleKey_gives E (Vi.seen_char (by decide) (by decide)) ho comp hg) run
    rw [this.2.1]
    refine ⟨?_, .inl hst⟩
    split at hR <;> rename_i h0
    · rw [if_pos h0]
      exact ⟨hR.opener, hR.record, by rw [hR.count, Vi.kept_kept]⟩
    · rw [if_neg h0]; exact hR

/-- C56: the keys of a change in normal mode, the count before it and the digits after its operator, make that
change of the line (`Changes`); the keys typed in an insertion with a count are typed as often as it says. -/
theorem C56_change (keys : List (Key × (Text → List Text))) (v : Vi) (s : Ed) (l r : Text)
    (hs : session Vi.keyMap E p keys (({} : Vi), initial p' h fs b) = .ok () (v, s))
    (hm : v.mode = .normal) (hq : s.isSearch = false) (hl : At s l r) (ch : Change) (ds : List Char) (hd : Digits ds)
    (hc : ch.Can v.lastCharMovement (l ++ r)) (kcs : List (Key × (Text → List Text)))
    (hks : kcs.map Prod.fst = ch.keys ds) :
    press Vi.keyMap E kcs (v, s) ≠ .panic .op ∧
    ∀ t', press Vi.keyMap E kcs (v, s) = .ok () t' →
      t'.1.mode = .normal ∧ (ch ≠ .toggle → t'.1.count = 0) ∧
      ∃ t, text? t'.2 = some t ∧
        Changes E.cc (ch.total (if v.count = 0 then 1 else v.count) ds) l r t t'.2.cursor ch := by
  obtain ⟨hv, ho, hr⟩ := vi_ready hs hm hq hl
  obtain ⟨v', p', hp, hf⟩ := Vi.change_press E (apart_of hC) hd hc hr hv hks ho
  refine out_of (wp_mono hp (fun _ t' h' => ?_) (fun _ _ h => h) (fun _ h => h))
  obtain ⟨h1, h2⟩ := h'
  refine ⟨by rw [h1]; simp [Vi.mode, hf.stack], fun h => by rw [h1, hf.count]; exact leaves_zero h, _, h2.here.1, ?_⟩
  rw [h2.here.2]
  exact hf.makes

/-- C56: after a change made in normal mode or with the first keys of the line, any keys that begin no other
change and any repetitions of it, `.` makes the change again where the cursor is, as often as before or as the
count before `.` says.  Missing: `dd`, `cc`, `C`, an operator with `0`, Home or End, insertions with cursor keys
in them (for all of these see the violations below), and the count of a change up to a character searched for,
which is forgotten. -/
theorem C56_dot_partial (v : Vi) (s : Ed) (l r : Text) (ch : Change) (n : Nat)
    (hM : Made E p (({} : Vi), initial p' h fs b) (v, s) ch n)
    (hm : v.mode = .normal) (hq : s.isSearch = false) (hl : At s l r)
    (hc : ch.Can v.lastCharMovement (l ++ r)) (hf : ch.forgets → n = 1 ∨ v.count ≠ 0) (comp : Text → List Text) :
    press Vi.keyMap E [(.char '.', comp)] (v, s) ≠ .panic .op ∧
    ∀ t', press Vi.keyMap E [(.char '.', comp)] (v, s) = .ok () t' →
      t'.1.mode = .normal ∧ (ch ≠ .toggle → t'.1.count = 0) ∧
      ∃ t, text? t'.2 = some t ∧ Changes E.cc (if v.count = 0 then n else v.count) l r t t'.2.cursor ch := by
  obtain ⟨⟨keys, hs⟩, hk⟩ := made_keeps E hC p p' h fs b hM
  obtain ⟨hv, ho, hr⟩ := vi_ready hs hm hq hl
  obtain ⟨v', q, hg, hst, h0, -, hR, hch⟩ := Vi.dot_gives E (n := 5) (apart_of hC) hk.1 hc hr hv ho
  refine out_of (wp_mono (Vi.press_one E (Vi.seen_char (by decide) (by decide)) ho hg)
    (fun _ t' h' => ?_) (fun _ _ h => h) (fun _ h => h))
  obtain ⟨h1, h2⟩ := h'
  refine ⟨by rw [h1]; simp [Vi.mode, hst], fun h => by rw [h1, h0]; exact leaves_zero h, _, h2.here.1, ?_⟩
  rw [h2.here.2]
  split at hch <;> rename_i hz
  · rw [if_pos hz]
    exact changes_kept (fun h => (hf h).resolve_right (fun h' => h' hz)) hch
  · rw [if_neg hz]; exact hch

end

/-! ### Cases -/

/-- Like `viEnds`, for any keys. -/
def viLeaves (line : String) (ks : List Key) (mode : Mode) (t : String) (cur : Nat) : Bool :=
  okAnd (vi [] ([.esc] ++ ks) line)
    (fun _ x => x.1.mode == mode && x.1.count == 0 && text? x.2 == some t.toList && x.2.cursor == cur)

/-- A state in which the last change was `2dw` can be reached; the cursor is on the line that it left. -/
example : ∃ t, Made env { prompt := ['>', ' '] } (({} : Vi), fresh [] "ab cd ef gh ij") t
      (.delete (.word false) [.char 'w']) 2 ∧
    t.1.mode = .normal ∧ t.2.isSearch = false ∧ At t.2 [] "ef gh ij".toList := by
  obtain ⟨_, ⟨v, s⟩, h1, h2⟩ := of_okAnd (o := vi [] ([.esc] ++ chars "02") "ab cd ef gh ij")
    (p := fun _ x => x.1.mode == .normal && x.1.count == 2 && x.2.isSearch == false &&
      text? x.2 == some "ab cd ef gh ij".toList && x.2.cursor == 0 &&
      okAnd (press Vi.keyMap env ((chars "dw").map plain) x) fun _ y =>
        y.1.mode == .normal && y.2.isSearch == false && text? y.2 == some "ef gh ij".toList && y.2.cursor == 0)
    (by decide +kernel)
  simp only [Bool.and_eq_true, beq_iff_eq] at h2
  obtain ⟨⟨⟨⟨⟨hm, hn⟩, hq⟩, ht⟩, hc⟩, h3⟩ := h2
  obtain ⟨_, t, h4, h5⟩ := of_okAnd h3
  simp only [Bool.and_eq_true, beq_iff_eq] at h5
  obtain ⟨⟨⟨hm', hq'⟩, ht'⟩, hc'⟩ := h5
  refine ⟨t, .command (ds := []) (l := []) (r := "ab cd ef gh ij".toList) h1 hm hq ⟨ht, hc⟩ ⟨by simp, by simp⟩
    ⟨by simp [Motion.keys], by simp [Motion.inclusive]⟩ ?_ (by simp) (by decide) h4, hm', hq', ht', hc'⟩
  rw [hn]; rfl

example : viLeaves "ab cd ef gh ij" (chars "02dw.") .normal "ij" 0 = true := by decide +kernel
example : viLeaves "ab cd ef gh ij" (chars "0dw2.") .normal "gh ij" 0 = true := by decide +kernel
example : viLeaves "ab cd ef gh ij" (chars "0cwxy" ++ [.esc] ++ chars "w.") .normal "xycd xygh ij" 6 = true := by
  decide +kernel
example : viLeaves "ab cd" (chars "03ixy" ++ [.esc] ++ chars "w.") .normal "xyxyxyab xyxyxycd" 14 = true := by
  decide +kernel
example : viLeaves "ab" (chars "2Ax" ++ [.backspace] ++ chars "y" ++ [.esc] ++ chars ".") .normal "abyyyy" 5 = true := by
  decide +kernel
example : viLeaves "ab cd ef" (chars "02rxw.") .normal "xx xx ef" 4 = true := by decide +kernel
example : viLeaves "a.b.c.d.e.f" (chars "0df.2.") .normal "d.e.f" 0 = true := by decide +kernel
example : Changes env.cc 2 [] "ab cd ef".toList "ef".toList 0 (.delete (.word false) [.char 'w']) :=
  ⟨6, .inl (by unfold NthAfter; decide +kernel), by decide, by decide⟩
example : Changes env.cc 2 "a".toList "b".toList "axyxyb".toList 4 (.insert 'i' (chars "xy")) :=
  ⟨['a'], ['b'], by decide, "axyxy".toList, ['b'], by decide, by decide, by decide⟩

/-! ### Where the repetition differs -/

/-- C56: the count of a change up to a character searched for is forgotten: `2df.` deletes two fields, `.`
after it deletes one. -/
theorem C56_find_violation : viEnds "a.b.c.d.e.f" "02df." .normal "c.d.e.f" 0 = true ∧
    viEnds "a.b.c.d.e.f" "02df.." .normal "d.e.f" 0 = true := ⟨by decide +kernel, by decide +kernel⟩

/-- C56: a repetition of `C` stays in insert mode. -/
theorem C56_changeEnd_violation : viLeaves "ab cd ef" (chars "0wCxy" ++ [.esc] ++ chars "0") .normal "ab xy" 0 = true ∧
    viLeaves "ab cd ef" (chars "0wCxy" ++ [.esc] ++ chars "0.") .insert "xy" 2 = true :=
  ⟨by decide +kernel, by decide +kernel⟩

/-- C56: `cc` is not recorded, only the text typed after it.  A repetition inserts it at the cursor if the change
before began an insertion, and takes its characters for commands if not. -/
theorem C56_changeLine_violation :
    viLeaves "ab cd ef" (chars "ccfoo" ++ [.esc] ++ chars ".") .normal "fofooo" 4 = true ∧
    viLeaves "ab cd ef" (chars "0xccxx" ++ [.esc]) .normal "xx" 1 = true ∧
    viLeaves "ab cd ef" (chars "0xccxx" ++ [.esc] ++ chars ".") .normal "" 0 = true :=
  ⟨by decide +kernel, by decide +kernel, by decide +kernel⟩

/-- C56: `dd` is not recorded: `.` after it repeats the change before it. -/
theorem C56_deleteLine_violation :
    viLeaves "ab" (chars "ixy" ++ [.esc] ++ chars "dd.") .normal "xy" 1 = true := by decide +kernel

/-- C56: a repetition of `d0` leaves the operator waiting, with a count of ten. -/
theorem C56_zero_violation : viEnds "ab cd ef" "bd0" .normal "ef" 0 = true ∧
    okAnd (vi [] ([.esc] ++ chars "bd0.") "ab cd ef")
      (fun _ x => x.1.mode == .delete 0 && x.1.count == 10 && text? x.2 == some "ef".toList) = true :=
  ⟨by decide +kernel, by decide +kernel⟩

/-- C56: `c` and Esc, which change nothing, make `.` do nothing: the change before them is forgotten. -/
theorem C56_cancel_violation : viEnds "ab cd ef" "0xw." .normal "b d ef" 2 = true ∧
    okAnd (vi [] ([.esc] ++ chars "0xc" ++ [.esc] ++ chars "w.") "ab cd ef")
      (fun _ x => x.1.mode == .normal && text? x.2 == some "b cd ef".toList) = true :=
  ⟨by decide +kernel, by decide +kernel⟩

/-- C56: after cursor keys in an insertion only the text typed after them is repeated, and as often as the count
of the change says. -/
theorem C56_cursor_violation :
    viLeaves "ab cd ef" (chars "03sfo" ++ [.left] ++ chars "b" ++ [.esc]) .normal "fbocd ef" 1 = true ∧
    viLeaves "ab cd ef" (chars "03sfo" ++ [.left] ++ chars "b" ++ [.esc] ++ chars ".") .normal "fbbbbocd ef" 3 = true :=
  ⟨by decide +kernel, by decide +kernel⟩

/-- C56: `~` does not reset its count, so that a count before `.` after it is appended to it. -/
theorem C56_tilde_violation : okAnd (vi [] ([.esc] ++ chars "03~") "abcdefgh")
      (fun _ x => x.1.count == 3 && text? x.2 == some "ABCdefgh".toList) = true ∧
    okAnd (vi [] ([.esc] ++ chars "03~1.") "abcdefgh")
      (fun _ x => x.1.count == 31 && text? x.2 == some "ABCDEFGH".toList) = true :=
  ⟨by decide +kernel, by decide +kernel⟩

end Liner.Props
