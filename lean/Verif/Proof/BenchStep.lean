import Verif.Proof.BenchKeys
/-
One key during a search, and one key on the bench.
-/

namespace Liner
namespace Props
open Editor KM Liner.Spec

section
variable (E : Env) (comp : Text → List Text) {H : History} {k k' : Emacs} {s s' : Ed} {d : Desk} {key : Key} {f : Bool} {q : Sheet}

theorem Acts.drop {α : Type} {m : EdM α} {p : Sheet} {touch : Bool} (h : Acts E m s p q touch) :
    Acts E (do let _ ← m; pure () : EdM Unit) s p q touch := by
  obtain ⟨o, h1, h2, h3⟩ := h
  refine ⟨o, h1, h2, fun Q R P hQ => ?_⟩
  rw [wp_bind]
  refine wp_mono (h3 Q R P hQ) (fun _ s' h => ?_) (fun _ _ h => h) (fun _ h => h)
  rw [wp_pure]; exact h

/-- What a key that does not end the search leads to. -/
def Leads (H : History) (f : Bool) (key : Key) (d : Desk) (k' : Emacs) (s' : Ed) : Prop :=
  ∃ q, d.sheet.Does (texts H) (d.found (texts H)) d.shown key q ∧
    Sought H f k' s' (d.seek (texts H) f (Desk.taken key d.sheet q) q)

theorem Leads.wrote (h : Leads H f key d k s) (n : Nat) : Leads H f key d k { s with showCompletionsHint := none, tick := n } := by
  obtain ⟨q, h1, h2⟩ := h
  exact ⟨q, h1, h2.wrote n⟩

/-- The key leads on, and does not panic except in the redraw. -/
abbrev Led (H : History) (f : Bool) (key : Key) (d : Desk) (k : Emacs) (s : Ed) : Prop :=
  Wp (Emacs.keyMap.handleKey E comp key) (k, s) (fun done t' => done = false ∧ Leads H f key d t'.1 t'.2) (fun _ _ => True) (· ≠ .op)

theorem leads_acts {α : Type} {m : EdM α} {touch : Bool} (h : Sought H f k s d) (ha : Acts E m s d.sheet q touch)
    (hk : k'.lastArgFetchIndex = none) (hq : d.sheet.Does (texts H) (d.found (texts H)) d.shown key { q with arg := none })
    (ht : touch = Desk.taken key d.sheet { q with arg := none }) :
    Wp m s (fun _ s' => Leads H f key d k' s') (fun _ _ => True) (· ≠ .op) := by
  subst ht
  exact wp_mono (h.acts E ha hk (by rintro i ⟨⟩)) (fun _ s' h' => ⟨_, hq, h'⟩) (fun _ _ h => h) (fun _ h => h)

/-- Nothing happens to the line. -/
theorem leads_idle (h : Sought H f k s d) (hk : k'.lastArgFetchIndex = none)
    (hq : d.sheet.Does (texts H) (d.found (texts H)) d.shown key { d.sheet with arg := none })
    (ht : Desk.taken key d.sheet { d.sheet with arg := none } = false) : Leads H f key d k' s := by
  refine ⟨_, hq, ?_⟩
  rw [ht]
  have : d.seek (texts H) f false { d.sheet with arg := none } = { d with arg := none } :=
    write_self (q := { d.sheet with arg := none }) (h.pend.lies.text h.here.1) h.pend.clean rfl rfl
  rw [this]
  exact h.args hk (by rintro i ⟨⟩)

theorem Sought.isSome (h : Sought H f k s d) : s.autosuggestion.isSome = (d.found (texts H)).isSome := by
  rw [← h.sug, sugText, Option.isSome_map]

theorem led_ed (h : Sought H f k s d) {m : EdM Unit} {touch : Bool}
    (h1 : KeyMap.translate key ∉ [.ctrl 'c', .char '\t', .char '\n', .ctrl 'r', .ctrl 's', .alt '.'])
    (h2 : ¬ (KeyMap.translate key = .ctrl 'd' ∧ d.text = []))
    (h3 : (d.found (texts H)).isSome = true → KeyMap.translate key ≠ .ctrl 'f' ∧ KeyMap.translate key ≠ .right)
    (hb : Emacs.handleKeyBody E (KeyMap.translate key) = ed m) (hm : Acts E m s d.sheet q touch)
    (hq : d.sheet.Does (texts H) (d.found (texts H)) d.shown key { q with arg := none })
    (ht : touch = Desk.taken key d.sheet { q with arg := none }) : Led E comp H f key d k s := by
  refine core_key E comp h.here (fun k s n h => h.wrote n) h1 h2 (by rw [h.isSome]; exact h3) fun k' hk' => ?_
  rw [hb, wp_ed]
  exact leads_acts E h hm hk' hq ht

/-- Right with an entry found, not at the end. -/
theorem led_right (h : Sought H f k s d) (hx : (d.found (texts H)).isSome = true) (hr : d.right ≠ [])
    (hq : d.sheet.Does (texts H) (d.found (texts H)) d.shown .right ⟨d.left ++ d.right.take 1, d.right.drop 1, d.past, none⟩) :
    Led E comp H f .right d k s := by
  obtain ⟨b, hb, hbd⟩ := text?_eq.mp h.here.1
  unfold Led
  rw [wp_congr (handleKey_eq Emacs.keyMap E comp (t := (k, s)) hb .right), wp_bind,
    translate_ne (by simp), wp_congr (dispatch_right Emacs.keyMap E comp (k, s) (by rw [h.isSome]; exact hx)), wp_bind, wp_ed]
  simp only [cursorIsAtEndOfLine, wp_bind, wp_curBuf, wp_get]
  refine ⟨fun b1 hb1 => ?_, fun hn => ?_⟩
  · rw [hb] at hb1; cases hb1
    rw [if_neg (by rw [h.pend.ne]; simp), wp_pure, if_neg]
    · unfold toCore
      rw [wp_bind]
      rw [show Emacs.keyMap.core = Emacs.handleKeyCore from rfl]
      unfold Emacs.handleKeyCore
      rw [if_neg (by simp), wp_bind, wp_modK]
      show Wp (ed (moveCursorRight E 1)) _ _ _ _
      rw [wp_ed]
      refine wp_mono (leads_acts E (k' := { lastArgFetchIndex := none }) (key := .right) h (right_acts E h.ground) rfl hq
        (by simp [Desk.taken, Sheet.touches])) (fun _ s' h' => ?_) (fun _ _ h => h) (fun _ h => h)
      rw [wp_bind, wp_ed, skipCompletionsHint, wp_modify, wp_pure, wp_ed, wp_flush]
      exact ⟨fun _ => ⟨rfl, h'.wrote _⟩, fun _ => trivial⟩
    · have : s.cursor ≠ b.numChars := by
        rw [h.here.2, Buffer.numChars, hbd, List.length_append]
        have := List.length_pos_iff.2 hr
        omega
      simpa using this
  · rw [show s.curBuf? = none from hn] at hb; cases hb

/-- The editing keys, unless they take the entry found. -/
theorem led_edit (h : Sought H f k s d) (hk : editing key = true) (hd : ¬ (key = .ctrl 'd' ∧ d.text = []))
    (htk : d.sheet.takes (d.found (texts H)) key = false) : Led E comp H f key d k s := by
  have hg := h.ground
  have move : ∀ {m : EdM Unit} {q : Sheet} {touch : Bool}, key ≠ .ctrl 'h' →
      key ∉ [Key.ctrl 'c', .char '\t', .char '\n', .ctrl 'r', .ctrl 's', .alt '.'] →
      ((d.found (texts H)).isSome = true → key ≠ .ctrl 'f' ∧ key ≠ .right) →
      Emacs.handleKeyBody E key = KM.ed m → Acts E m s d.sheet q touch →
      ({ q with arg := none } = d.sheet.edited (d.found (texts H)) key ∧ touch = Desk.taken key d.sheet { q with arg := none }) →
      Led E comp H f key d k s := by
    intro m q touch h0 h1 h3 h4 h5 h7
    have ht := translate_ne h0
    refine led_ed E comp h (by rwa [ht]) (by rwa [ht]) (by rwa [ht]) (by rwa [ht]) h5 ?_ h7.2
    unfold Sheet.Does
    rw [if_pos hk]; exact h7.1
  cases key with
  | char c =>
    simp only [editing, Bool.and_eq_true, bne_iff_ne, ne_eq] at hk
    exact move (by simp) (by simp [hk]) (by simp) rfl (insert_acts E hg (by simp))
      (by simp [Sheet.edited, edit, Sheet.counts, Sheet.takes, Sheet.put, Desk.taken, Sheet.touches])
  | left =>
    exact move (by simp) (by simp) (by simp) rfl (left_acts E hg)
      (by simp [Sheet.edited, edit, go_left, Sheet.counts, Sheet.takes, Desk.taken, Sheet.touches])
  | right =>
    cases ho : d.found (texts H) with
    | none =>
      refine move (by simp) (by simp) (by simp [ho]) rfl (right_acts E hg) ?_
      rw [ho]
      simp [Sheet.edited, edit, go_right, Sheet.counts, Sheet.takes, Desk.taken, Sheet.touches]
    | some x =>
      have hr : d.right ≠ [] := by
        intro hr
        rw [ho] at htk
        simp [Sheet.takes, Desk.sheet, hr] at htk
      refine led_right E comp h (by rw [ho]; rfl) hr ?_
      unfold Sheet.Does
      rw [if_pos hk, ho]
      simp [Sheet.edited, edit, Sheet.counts, Sheet.takes, go_right, Desk.sheet, hr]
  | home =>
    exact move (by simp) (by simp) (by simp) rfl (home_acts E)
      (by simp [Sheet.edited, edit, Sheet.counts, Sheet.takes, Desk.taken, Sheet.touches, Sheet.text])
  | «end» =>
    exact move (by simp) (by simp) (by simp) rfl (end_acts E hg)
      (by simp [Sheet.edited, edit, Sheet.counts, Sheet.takes, Desk.taken, Sheet.touches, Sheet.text])
  | backspace =>
    refine move (by simp) (by simp) (by simp) rfl (backspace_acts E hg) ?_
    by_cases hl : d.sheet.left = [] <;> simp [Sheet.edited, edit, Sheet.counts, Sheet.takes, hl, Desk.taken, Sheet.touches, Sheet.put]
  | delete =>
    refine move (by simp) (by simp) (by simp) rfl (delete_acts E hg) ?_
    by_cases hl : d.sheet.right = [] <;> simp [Sheet.edited, edit, Sheet.counts, Sheet.takes, hl, Desk.taken, Sheet.touches, Sheet.put]
  | ctrl c =>
    simp only [editing, List.mem_cons, List.not_mem_nil, or_false, decide_eq_true_eq] at hk
    rcases hk with rfl | rfl | rfl | rfl | rfl | rfl | rfl | rfl
    · exact move (by simp) (by simp) (by simp) rfl (home_acts E)
        (by simp [Sheet.edited, edit, Sheet.counts, Sheet.takes, Desk.taken, Sheet.touches, Sheet.text])
    · exact move (by simp) (by simp) (by simp) rfl (end_acts E hg)
        (by simp [Sheet.edited, edit, Sheet.counts, Sheet.takes, Desk.taken, Sheet.touches, Sheet.text])
    · exact move (by simp) (by simp) (by simp) rfl (left_acts E hg)
        (by simp [Sheet.edited, edit, go_left, Sheet.counts, Sheet.takes, Desk.taken, Sheet.touches])
    · cases ho : d.found (texts H) with
      | none =>
        refine move (by simp) (by simp) (by simp [ho]) rfl (right_acts E hg) ?_
        rw [ho]
        simp [Sheet.edited, edit, go_right, Sheet.counts, Sheet.takes, Desk.taken, Sheet.touches]
      | some x =>
        rw [ho] at htk
        simp [Sheet.takes] at htk
    · refine move (by simp) (by simp) (by simp) rfl (delete_acts E hg) ?_
      by_cases hl : d.sheet.right = [] <;> simp [Sheet.edited, edit, Sheet.counts, Sheet.takes, hl, Desk.taken, Sheet.touches, Sheet.put]
    · refine led_ed E comp h (by simp [KeyMap.translate]) (by simp [KeyMap.translate]) (by simp [KeyMap.translate]) rfl
        (backspace_acts E hg) ?_ ?_
      · unfold Sheet.Does
        rw [if_pos (by simp [editing])]
        by_cases hl : d.sheet.left = [] <;> simp [Sheet.edited, edit, Sheet.counts, Sheet.takes, hl, Sheet.put]
      · by_cases hl : d.sheet.left = [] <;> simp [hl, Desk.taken, Sheet.touches, Sheet.put]
    · exact move (by simp) (by simp) (by simp) rfl (deleteAllBefore_acts E hg)
        (by simp [Sheet.edited, edit, Sheet.counts, Sheet.takes, Sheet.put, Desk.taken, Sheet.touches])
    · exact move (by simp) (by simp) (by simp) rfl (deleteAllAfter_acts E hg)
        (by simp [Sheet.edited, edit, Sheet.counts, Sheet.takes, Sheet.put, Desk.taken, Sheet.touches])
  | _ => cases hk

/-- The argument of an entry is inserted. -/
theorem fetchArg_sought (h : Sought H f k s d) {i : Nat} {x : Text} (hx : (texts H)[i]? = some x) :
    Wp (fetchArg E i) (k, s) (fun _ t' => ∃ n, Sheet.Adds x d.sheet n ∧
      Sought H f t'.1 t'.2 { d.seek (texts H) f (n.past ≠ d.past) n with arg := some i }) (fun _ _ => True) (· ≠ .op) := by
  rw [texts, List.getElem?_map, Option.map_eq_some_iff] at hx
  obtain ⟨b, hb, rfl⟩ := hx
  have hi : i < H.buffers.length := (List.getElem?_eq_some_iff.mp hb).1
  have hbd : ∀ j, some i = some j → j < H.buffers.length := by rintro j ⟨⟩; exact hi
  unfold fetchArg
  rw [wp_bind, wp_ed, wp_get]
  dsimp only
  rw [h.pend.lies.hist, hb, wp_bind]
  show Wp (match b.lastArg with
    | some arg => KM.ed (insertCharsAfterCursor E arg) >>= fun _ => _
    | none => _) _ _ _ _
  cases hl : b.lastArg with
  | none =>
    dsimp only
    rw [wp_modK]
    refine ⟨d.sheet, .inr ⟨(C10_last_arg b).2.mp hl, rfl⟩, ?_⟩
    have : d.seek (texts H) f (decide (d.sheet.past ≠ d.past)) d.sheet = d := by
      rw [show decide (d.sheet.past ≠ d.past) = false from by simp [Desk.sheet]]
      exact write_self (q := d.sheet) (h.pend.lies.text h.here.1) h.pend.clean rfl rfl
    rw [this]
    exact h.args rfl hbd
  | some w =>
    have hw := ((C10_last_arg b).1 w).mp hl
    dsimp only
    rw [wp_bind, wp_ed]
    refine wp_mono (h.acts E (insert_acts E h.ground hw.1) (k' := { lastArgFetchIndex := some i }) rfl hbd) (fun _ s' h' => ?_)
      (fun _ _ h => h) (fun _ h => h)
    rw [wp_modK]
    refine ⟨_, .inl ⟨w, hw, rfl⟩, ?_⟩
    rw [show decide ((d.sheet.put (d.sheet.left ++ w) d.sheet.right).past ≠ d.past) = true from by simp [Sheet.put, Desk.sheet]]
    exact h'

theorem deleteLastArg_sought (h : Sought H f k s d) :
    Wp (Emacs.deleteLastArg E) s (fun _ s' => ∃ q, Sheet.Drops d.sheet q ∧
      Sought H f k s' (d.seek (texts H) f (q.past ≠ d.past) q)) (fun _ _ => True) (· ≠ .op) := by
  obtain ⟨b, hb, hbd⟩ := text?_eq.mp h.here.1
  unfold Emacs.deleteLastArg
  rw [wp_bind, wp_curBuf]
  refine ⟨fun b' hb' => ?_, fun hn => by rw [hb] at hn; cases hn⟩
  rw [hb] at hb'; cases hb'
  cases hl : b.lastArg with
  | none =>
    have := (C10_last_arg b).2.mp hl
    rw [hbd] at this
    refine ⟨d.sheet, .inr ⟨this, rfl⟩, ?_⟩
    have : d.seek (texts H) f (decide (d.sheet.past ≠ d.past)) d.sheet = d := by
      rw [show decide (d.sheet.past ≠ d.past) = false from by simp [Desk.sheet]]
      exact write_self (q := d.sheet) (h.pend.lies.text h.here.1) h.pend.clean rfl rfl
    rw [this]
    exact h
  | some w =>
    have hw := ((C10_last_arg b).1 w).mp hl
    rw [hbd] at hw
    dsimp only
    rw [Buffer.numChars, hbd]
    refine wp_mono (h.acts E (deleteUntil_acts E h.ground (Nat.sub_le _ _)) h.arg h.bound) (fun _ s' h' => ?_)
      (fun _ _ h => h) (fun _ h => h)
    refine ⟨_, .inl ⟨w, hw, rfl⟩, ?_⟩
    rw [show ∀ l r, decide ((d.sheet.put l r).past ≠ d.past) = true from fun l r => by simp [Sheet.put, Desk.sheet]]
    exact h'

theorem fetch_sought (h : Sought H f k s d) :
    Wp (Emacs.handleLastArgFetch E) (k, s) (fun _ t' => ∃ e, d.Fetch (texts H) f e ∧ Sought H f t'.1 t'.2 e)
      (fun _ _ => True) (· ≠ .op) := by
  have hlen : (texts H).length = H.buffers.length := by simp [texts]
  have hF : ∀ e, d.Fetch (texts H) f e ↔ match d.sheet.nextArg (texts H) d.shown with
    | none => e = d
    | some i => ∃ m x n, (if d.arg = none then m = d
        else ∃ q, Sheet.Drops d.sheet q ∧ m = d.seek (texts H) f (q.past ≠ d.past) q) ∧
      (texts H)[i]? = some x ∧ Sheet.Adds x m.sheet n ∧
      e = { m.seek (texts H) f (n.past ≠ m.past) n with arg := some i } := fun _ => Iff.rfl
  simp only [hF]
  by_cases he : H.buffers = []
  · have hn : d.sheet.nextArg (texts H) d.shown = none := by simp [Sheet.nextArg, texts, he]
    unfold Emacs.handleLastArgFetch
    rw [wp_bind, wp_ed, wp_get, wp_bind, wp_getK]
    dsimp only
    rw [if_pos (by simp [h.pend.lies.hist, he]), wp_pure]
    exact ⟨d, by rw [hn], h⟩
  have het : texts H ≠ [] := by simpa [texts] using he
  have hne : s.history.buffers ≠ [] := by rw [h.pend.lies.hist]; exact he
  cases ha : d.arg with
  | none =>
    have hk : k.lastArgFetchIndex = none := h.arg.trans ha
    refine (wp_congr (fetch_first E hk hne)).mpr ?_
    rw [h.pend.lies.hist, h.pend.lies.shown]
    have hlt : d.shown.getD (H.buffers.length - 1) < (texts H).length := by
      cases hl : d.shown with
      | none =>
        have := List.length_pos_iff.2 het
        rw [Option.getD_none]
        omega
      | some i => rw [hlen]; exact h.pend.lies.loc i hl
    refine wp_mono (fetchArg_sought E h (List.getElem?_eq_getElem hlt)) (fun _ t' h' => ?_) (fun _ _ h => h) (fun _ h => h)
    obtain ⟨n, h1, h2⟩ := h'
    refine ⟨_, ?_, h2⟩
    have hsa : d.sheet.arg = none := ha
    simp only [Sheet.nextArg, het, if_false, hsa]
    exact ⟨d, _, n, by simp, by rw [hlen]; exact List.getElem?_eq_getElem hlt, h1, by rw [hlen]⟩
  | some i =>
    have hk : k.lastArgFetchIndex = some i := h.arg.trans ha
    have hsa : d.sheet.arg = some i := ha
    have hb := h.bound i ha
    cases i with
    | zero =>
      refine wp_mono (fetch_oldest E hk) (fun _ t' h' => ?_) (fun _ _ h => h) (fun _ h => h)
      subst h'
      exact ⟨d, by simp [Sheet.nextArg, hsa], h⟩
    | succ i =>
      refine (wp_congr (fetch_again E hk hne)).mpr ?_
      rw [wp_bind, wp_ed]
      have hlt : i < (texts H).length := by omega
      refine wp_mono (deleteLastArg_sought E h) (fun _ s' h' => ?_) (fun _ _ h => h) (fun _ h => h)
      obtain ⟨q, h1, h2⟩ := h'
      refine wp_mono (fetchArg_sought E h2 (List.getElem?_eq_getElem hlt)) (fun _ t' h' => ?_) (fun _ _ h => h)
        (fun _ h => h)
      obtain ⟨n, h3, h4⟩ := h'
      refine ⟨_, ?_, h4⟩
      simp only [Sheet.nextArg, het, if_false, hsa]
      exact ⟨_, _, n, by simpa using ⟨q, h1, rfl⟩, List.getElem?_eq_getElem hlt, h3, rfl⟩

/-- The other keys. -/
theorem led_other (hw : E.words = getBufferWords) (h : Sought H f k s d) (hl : Sheet.leaves key = false)
    (he : editing key = false) (hcl : key ≠ .ctrl 'l') (hdot : key ≠ .alt '.') : Led E comp H f key d k s := by
  have hg := h.ground
  have hN : ∀ q, d.sheet.Does (texts H) (d.found (texts H)) d.shown key q ↔
      (if key = .ctrl 'w' ∨ key = .alt '\x7f' then d.sheet.Rubs q
      else if key = .alt 'f' then d.sheet.Moves NextEnd q
      else if key = .alt 'b' then d.sheet.Moves PrevStart q
      else if key = .ctrl 'x' then q = d.sheet.back
      else if key = .alt 'r' then q = d.sheet.first
      else q = { d.sheet with arg := none }) := by
    intro q
    unfold Sheet.Does
    rw [if_neg (by rw [he]; simp), if_neg hdot]
  have hne : ∀ {key'}, editing key' = true → key ≠ key' := by rintro key' h1 rfl; rw [h1] at he; cases he
  have ht := translate_ne (hne (key' := .ctrl 'h') (by decide))
  have hto : ∀ q : Sheet, Desk.taken key d.sheet q = (decide (q.past ≠ d.past) || decide (key = .ctrl 'x') || decide (key = .alt 'r')) := by
    intro q
    show (decide (q.past ≠ d.past) || decide (key = .delete) || decide (key = .ctrl 'd') || decide (key = .ctrl 'x') ||
      decide (key = .alt 'r')) = _
    rw [decide_eq_false (hne (key' := .delete) rfl), decide_eq_false (hne (key' := .ctrl 'd') rfl), Bool.or_false, Bool.or_false]
  have body : (∀ k' : Emacs, k'.lastArgFetchIndex = none → Wp (Emacs.handleKeyBody E key) (k', s)
      (fun _ t' => Leads H f key d t'.1 t'.2) (fun _ _ => True) (· ≠ .op)) → Led E comp H f key d k s := by
    intro hm
    refine core_key E comp h.here (fun k s n h => h.wrote n) ?_ ?_ ?_ (by rw [ht]; exact hm)
    · rw [ht]
      rintro hmem
      simp only [List.mem_cons, List.not_mem_nil, or_false] at hmem
      rcases hmem with rfl | rfl | rfl | rfl | rfl | rfl <;> first | exact hdot rfl | cases hl
    · rw [ht]
      exact fun h => hne rfl h.1
    · rw [ht]
      exact fun _ => ⟨hne rfl, hne rfl⟩
  have idle : ∀ k' : Emacs, k'.lastArgFetchIndex = none →
      d.sheet.Does (texts H) (d.found (texts H)) d.shown key { d.sheet with arg := none } → key ≠ .ctrl 'x' → key ≠ .alt 'r' →
      Wp (pure () : EdM Unit) s (fun _ s' => Leads H f key d k' s') (fun _ _ => True) (· ≠ .op) := by
    intro k' hk' hq h1 h2
    rw [wp_pure]
    exact leads_idle h hk' hq (by rw [hto]; simp [Desk.sheet, h1, h2])
  have rub : ∀ k' : Emacs, k'.lastArgFetchIndex = none → key = .ctrl 'w' ∨ key = .alt '\x7f' →
      Wp (deleteWordBeforeCursor E true) s (fun _ s' => Leads H f key d k' s') (fun _ _ => True) (· ≠ .op) := by
    intro k' hk' hkey
    obtain ⟨q, h1, -, h3⟩ := deleteWord_acts E hw hg
    refine leads_acts E h h3 hk' (by rw [hN, if_pos hkey]; exact h1) ?_
    rw [hto]
    show decide (q.past ≠ d.past) = _
    rcases hkey with rfl | rfl <;> simp
  have word : ∀ (k' : Emacs) (right : Bool), k'.lastArgFetchIndex = none → key = (if right then .alt 'f' else .alt 'b') →
      Wp (Emacs.moveWord E right) s (fun _ s' => Leads H f key d k' s') (fun _ _ => True) (· ≠ .op) := by
    intro k' right hk' hkey
    obtain ⟨q, h1, h2, h3⟩ := moveWord_acts E hw hg right
    have hq : d.sheet.Does (texts H) (d.found (texts H)) d.shown key { q with arg := none } := by
      rw [hN]
      cases right <;> subst hkey <;> simpa using h1
    have hpast : q.past = d.past := h1.2.1
    have htk : Desk.taken key d.sheet { q with arg := none } = false := by
      rw [hto]
      cases right <;> subst hkey <;> simp [hpast]
    rcases h3 with h3 | ⟨rfl, h3⟩
    · exact leads_acts E h h3 hk' hq htk.symm
    · unfold Wp
      rw [h3]
      exact leads_idle h hk' hq htk
  cases key with
  | char c =>
    exfalso
    simp only [Sheet.leaves, List.mem_cons, List.not_mem_nil, or_false, decide_eq_false_iff_not, not_or] at hl
    simp [editing, hl] at he
  | up => cases hl
  | down => cases hl
  | left => cases he
  | right => cases he
  | home => cases he
  | «end» => cases he
  | backspace => cases he
  | delete => cases he
  | null =>
    refine body fun k' hk' => ?_
    show Wp (ed (pure ())) _ _ _ _
    rw [wp_ed]
    exact idle k' hk' (by rw [hN]; simp) (by simp) (by simp)
  | esc =>
    refine body fun k' hk' => ?_
    show Wp (ed (pure ())) _ _ _ _
    rw [wp_ed]
    exact idle k' hk' (by rw [hN]; simp) (by simp) (by simp)
  | other n =>
    refine body fun k' hk' => ?_
    show Wp (ed (pure ())) _ _ _ _
    rw [wp_ed]
    exact idle k' hk' (by rw [hN]; simp) (by simp) (by simp)
  | ctrl c =>
    refine body fun k' hk' => ?_
    simp only [editing, List.mem_cons, List.not_mem_nil, or_false, decide_eq_false_iff_not, not_or] at he
    simp only [Sheet.leaves, List.mem_cons, List.not_mem_nil, or_false, decide_eq_false_iff_not, not_or] at hl
    simp only [ne_eq, Key.ctrl.injEq] at hcl
    obtain ⟨e1, e2, e3, e4, e5, e6, e7, e8⟩ := he
    obtain ⟨l1, l2, l3, l4, l5⟩ := hl
    show Wp (ed (Emacs.handleCtrlKey E c)) _ _ _ _
    rw [wp_ed]
    unfold Emacs.handleCtrlKey
    rw [if_neg hcl, if_neg e1, if_neg e2, if_neg e3, if_neg e4, if_neg e5, if_neg l2, if_neg l3, if_neg e7, if_neg e8]
    by_cases c2 : c = 'w'
    · rw [if_pos c2]
      exact rub k' hk' (.inl (by rw [c2]))
    rw [if_neg c2]
    by_cases c3 : c = 'x'
    · subst c3
      rw [if_pos rfl]
      refine leads_acts E h (undo_acts E hg).drop hk' (by rw [hN]; simp [Sheet.back]; split <;> rfl) (by rw [hto]; simp)
    rw [if_neg c3]
    exact idle k' hk' (by rw [hN]; simp [c2, c3]) (by simpa using c3) (by simp)
  | alt c =>
    have c0 : c ≠ '.' := by rintro rfl; exact hdot rfl
    refine body fun k' hk' => ?_
    simp only [Sheet.leaves, List.mem_cons, List.not_mem_nil, or_false, decide_eq_false_iff_not, not_or] at hl
    show Wp (Emacs.handleAltKey E c) _ _ _ _
    unfold Emacs.handleAltKey
    rw [if_neg hl.1, if_neg hl.2, show Emacs.delChar = '\x7f' from rfl]
    by_cases c1 : c = '\x7f'
    · rw [if_pos c1, wp_ed]
      exact rub k' hk' (.inr (by rw [c1]))
    rw [if_neg c1]
    by_cases c2 : c = 'f'
    · rw [if_pos c2, wp_ed]
      exact word k' true hk' (by rw [c2]; rfl)
    rw [if_neg c2]
    by_cases c3 : c = 'b'
    · rw [if_pos c3, wp_ed]
      exact word k' false hk' (by rw [c3]; rfl)
    rw [if_neg c3]
    by_cases c4 : c = 'r'
    · subst c4
      rw [if_pos rfl]
      show Wp (ed (Editor.revert E) >>= fun _ => pure ()) _ _ _ _
      rw [wp_bind, wp_ed]
      refine wp_mono (leads_acts E h (revert_acts E hg) hk' (by rw [hN]; simp [Sheet.first]; split <;> rfl) (by rw [hto]; simp))
        (fun _ s' h' => ?_) (fun _ _ h => h) (fun _ h => h)
      rw [wp_pure]; exact h'
    rw [if_neg c4, if_neg c0]
    show Wp (ed (pure ())) _ _ _ _
    rw [wp_ed]
    exact idle k' hk' (by rw [hN]; simp [c1, c2, c3, c4]) (by simp) (by simpa using c4)

/-- The key that takes the entry found. -/
theorem take_sought (h : Sought H f k s d) (hx : d.sheet.takes (d.found (texts H)) key = true) :
    Wp (Emacs.keyMap.handleKey E comp key) (k, s)
      (fun done t' => done = false ∧ OnDesk H t'.1 t'.2 (d.accept (texts H))) (fun _ _ => True) (· ≠ .op) := by
  obtain ⟨b, hb, hbd⟩ := text?_eq.mp h.here.1
  simp only [Sheet.takes, Bool.and_eq_true, Bool.or_eq_true, decide_eq_true_eq] at hx
  obtain ⟨hx, hk⟩ := hx
  have hsome : s.autosuggestion.isSome = true := by rw [h.isSome]; exact hx
  have go : Wp (do ed (acceptAutosuggestion E); pure false : KM Emacs Bool) (k, s)
      (fun done t' => Wp (do let _ ← ed (flush E); pure done : KM Emacs Bool) t'
        (fun done t' => done = false ∧ OnDesk H t'.1 t'.2 (d.accept (texts H))) (fun _ _ => True) (· ≠ .op)) (fun _ _ => True) (· ≠ .op) := by
    rw [wp_bind, wp_ed]
    refine wp_mono (accept_sought E h) (fun _ s' h' => ?_) (fun _ _ h => h) (fun _ h => h)
    rw [wp_pure, wp_bind, wp_ed, wp_flush]
    refine ⟨fun _ => ⟨rfl, ?_⟩, fun _ => trivial⟩
    exact h'.listed s'.showCompletionsHint (s'.tick + 1)
  rw [wp_congr (handleKey_eq Emacs.keyMap E comp (t := (k, s)) hb key), wp_bind]
  rcases hk with rfl | ⟨rfl, hr⟩
  · rw [translate_ne (by simp), wp_congr (dispatch_ctrlF Emacs.keyMap E comp (k, s) hsome)]
    exact go
  · rw [translate_ne (by simp), wp_congr (dispatch_right Emacs.keyMap E comp (k, s) hsome), wp_bind, wp_ed]
    simp only [cursorIsAtEndOfLine, wp_bind, wp_curBuf, wp_get]
    refine ⟨fun b1 hb1 => ?_, fun hn => ?_⟩
    · rw [hb] at hb1; cases hb1
      have hr : d.right = [] := hr
      rw [if_neg (by rw [h.pend.ne]; simp), wp_pure, if_pos]
      · exact wp_mono go (fun _ _ h => (by rwa [wp_bind] at h)) (fun _ _ h => h) (fun _ h => h)
      · have : s.cursor = b.numChars := by
          rw [h.here.2, Buffer.numChars, hbd, hr, List.append_nil]
        simpa using this
    · rw [show s.curBuf? = none from hn] at hb; cases hb

/-- The editor holds the bench. -/
def Stands (H : History) (k : Emacs) (s : Ed) (b : Bench) : Prop :=
  match b.forward with
  | none => OnDesk H k s b.desk
  | some f => Sought H f k s b.desk

/-- Ctrl-R and Ctrl-S. -/
theorem search_key (g : Bool) {l r : Text} (h : At s l r) {e : Desk}
    (hm : Wp (search E g) s (fun _ s' => Sought H f k s' e) (fun _ _ => True) (· ≠ .op)) :
    Wp (Emacs.keyMap.handleKey E comp (.ctrl (if g then 's' else 'r'))) (k, s)
      (fun done t' => done = false ∧ Sought H f t'.1 t'.2 e) (fun _ _ => True) (· ≠ .op) := by
  obtain ⟨b, hb, -⟩ := text?_eq.mp h.1
  rw [wp_congr (handleKey_eq Emacs.keyMap E comp (t := (k, s)) hb _), wp_bind, translate_ne (by cases g <;> simp),
    wp_congr (dispatch_search Emacs.keyMap E comp (k, s) g), wp_bind, wp_ed]
  refine wp_mono hm (fun _ s' h' => ?_) (fun _ _ h => h) (fun _ h => h)
  rw [wp_pure, wp_bind, wp_ed, wp_flush]
  refine ⟨fun _ => ⟨rfl, ?_⟩, fun _ => trivial⟩
  exact h'.listed s'.showCompletionsHint (s'.tick + 1)

/-- One key during a search. -/
theorem seek_step (hw : E.words = getBufferWords) (h : Sought H f k s d) (hl : Bench.leaves key = false)
    (hd : ¬ (key = .ctrl 'd' ∧ d.text = [])) :
    Wp (Emacs.keyMap.handleKey E comp key) (k, s)
      (fun done t' => done = false ∧ ∃ b, Bench.Seeks (texts H) f key d b ∧ Stands H t'.1 t'.2 b) (fun _ _ => True) (· ≠ .op) := by
  have hN : ∀ b, Bench.Seeks (texts H) f key d b ↔ if key = .ctrl 'r' then b = ⟨d.back, some f⟩
    else if key = .ctrl 's' then b = ⟨d.forth, some f⟩
    else if key = .up ∨ key = .ctrl 'p' then b = ⟨{ d.back with arg := none }, some f⟩
    else if key = .down ∨ key = .ctrl 'n' then b = ⟨{ d.forth with arg := none }, some f⟩
    else if key = .alt '<' then b = ⟨d.oldest (texts H), some f⟩
    else if key = .alt '>' then b = ⟨d.newest (texts H), some f⟩
    else if key = .ctrl 'l' then b = ⟨d.write false true { d.sheet with arg := none }, none⟩
    else if d.sheet.takes (d.found (texts H)) key then b = ⟨d.accept (texts H), none⟩
    else if key = .alt '.' then ∃ e, d.Fetch (texts H) f e ∧ b = ⟨e, some f⟩
    else ∃ q, d.sheet.Does (texts H) (d.found (texts H)) d.shown key q ∧
      b = ⟨d.seek (texts H) f (Desk.taken key d.sheet q) q, some f⟩ := fun _ => Iff.rfl
  simp only [hN]
  clear hN
  have nav : ∀ {m : EdM Unit} {e : Bench} {key' : Key}, key = key' →
      KeyMap.translate key' ∉ [.ctrl 'c', .char '\t', .char '\n', .ctrl 'r', .ctrl 's', .alt '.', .ctrl 'd', .ctrl 'f', .right] →
      Emacs.handleKeyBody E (KeyMap.translate key') = ed m →
      (∀ k' : Emacs, k'.lastArgFetchIndex = none → Wp m s (fun _ s' => Stands H k' s' e) (fun _ _ => True) (· ≠ .op)) →
      Wp (Emacs.keyMap.handleKey E comp key) (k, s)
        (fun done t' => done = false ∧ ∃ b, b = e ∧ Stands H t'.1 t'.2 b) (fun _ _ => True) (· ≠ .op) := by
    rintro m e key' rfl h1 h2 h3
    simp only [List.mem_cons, List.not_mem_nil, or_false, not_or] at h1
    refine core_key E comp h.here (Q := fun k s => ∃ b, b = e ∧ Stands H k s b) ?_ (by simp [h1]) (by simp [h1]) (by simp [h1])
      fun k' hk' => ?_
    · rintro k s n ⟨b, rfl, h6⟩
      refine ⟨b, rfl, ?_⟩
      unfold Stands at h6 ⊢
      cases hb : b.forward with
      | none => rw [hb] at h6; exact OnDesk.wrote h6 n
      | some f => rw [hb] at h6; exact Sought.wrote h6 n
    · rw [h2, wp_ed]
      exact wp_mono (h3 k' hk') (fun _ s' h' => ⟨e, rfl, h'⟩) (fun _ _ h => h) (fun _ h => h)
  by_cases c1 : key = .ctrl 'r'
  · simp only [if_pos c1]
    subst c1
    refine wp_mono (search_key E comp false h.here (step_sought E h false h.arg h.bound))
      (fun _ t' h' => ⟨h'.1, _, rfl, h'.2⟩) (fun _ _ h => h) (fun _ h => h)
  simp only [if_neg c1]
  by_cases c2 : key = .ctrl 's'
  · simp only [if_pos c2]
    subst c2
    refine wp_mono (search_key E comp true h.here (step_sought E h true h.arg h.bound))
      (fun _ t' h' => ⟨h'.1, _, rfl, h'.2⟩) (fun _ _ h => h) (fun _ h => h)
  simp only [if_neg c2]
  by_cases c3 : key = .up ∨ key = .ctrl 'p'
  · simp only [if_pos c3]
    refine nav rfl ?_ (m := moveUp E) ?_ (fun k' hk' => ?_)
    rotate_right
    · unfold moveUp
      rw [wp_bind, wp_get, h.pend.search, if_pos rfl]
      exact step_sought E h false hk' (by rintro i ⟨⟩)
    all_goals rcases c3 with rfl | rfl <;> first | rfl | decide
  simp only [if_neg c3]
  by_cases c4 : key = .down ∨ key = .ctrl 'n'
  · simp only [if_pos c4]
    refine nav rfl ?_ (m := moveDown E) ?_ (fun k' hk' => ?_)
    rotate_right
    · unfold moveDown
      rw [wp_bind, wp_get, h.pend.search, if_pos rfl]
      exact step_sought E h true hk' (by rintro i ⟨⟩)
    all_goals rcases c4 with rfl | rfl <;> first | rfl | decide
  simp only [if_neg c4]
  by_cases c5 : key = .alt '<'
  · simp only [if_pos c5]
    exact nav c5 (by decide) (m := moveToStartOfHistory E) rfl (fun k' hk' => oldest_sought E h hk')
  simp only [if_neg c5]
  by_cases c6 : key = .alt '>'
  · simp only [if_pos c6]
    exact nav c6 (by decide) (m := moveToEndOfHistory E) rfl (fun k' hk' => newest_sought E h hk')
  simp only [if_neg c6]
  by_cases c7 : key = .ctrl 'l'
  · simp only [if_pos c7]
    exact nav c7 (by decide) (m := clear E) rfl (fun k' hk' => clear_sought E h hk')
  simp only [if_neg c7]
  by_cases c8 : d.sheet.takes (d.found (texts H)) key = true
  · simp only [if_pos c8]
    exact wp_mono (take_sought E comp h c8) (fun _ t' h' => ⟨h'.1, _, rfl, h'.2⟩) (fun _ _ h => h) (fun _ h => h)
  simp only [if_neg c8]
  by_cases c9 : key = .alt '.'
  · simp only [if_pos c9]
    subst c9
    refine key_fetch E comp (Q := fun t' => ∃ b, (∃ e, d.Fetch (texts H) f e ∧ b = ⟨e, some f⟩) ∧ Stands H t'.1 t'.2 b) h.here ?_
    refine wp_mono (fetch_sought E h) (fun _ t' h' => ?_) (fun _ _ h => h) (fun _ h => h)
    obtain ⟨e, h1, h2⟩ := h'
    exact ⟨_, ⟨e, h1, rfl⟩, h2.wrote _⟩
  simp only [if_neg c9]
  have fin : Led E comp H f key d k s → Wp (Emacs.keyMap.handleKey E comp key) (k, s)
      (fun done t' => done = false ∧ ∃ b, (∃ q, d.sheet.Does (texts H) (d.found (texts H)) d.shown key q ∧
        b = ⟨d.seek (texts H) f (Desk.taken key d.sheet q) q, some f⟩) ∧ Stands H t'.1 t'.2 b) (fun _ _ => True) (· ≠ .op) := by
    intro hled
    refine wp_mono hled (fun _ t' h' => ?_) (fun _ _ h => h) (fun _ h => h)
    obtain ⟨rfl, q, h1, h2⟩ := h'
    exact ⟨rfl, _, ⟨q, h1, rfl⟩, h2⟩
  cases he : editing key with
  | true => exact fin (led_edit E comp h he hd (by simpa using c8))
  | false =>
    refine fin (led_other E comp hw h ?_ he c7 c9)
    cases key with
    | char c => exact hl
    | ctrl c =>
      simp only [Bench.leaves, Sheet.leaves, decide_eq_false_iff_not, List.mem_cons, List.not_mem_nil, or_false, not_or] at hl ⊢
      simp only [reduceCtorEq, Key.ctrl.injEq, false_or] at c1 c2 c3 c4
      exact ⟨hl, c3, c4, c1, c2⟩
    | alt c =>
      simp only [Key.alt.injEq] at c5 c6
      simp [Sheet.leaves, c5, c6]
    | up => simp at c3
    | down => simp at c4
    | _ => rfl

/-- One key on the bench. -/
theorem bench_step {b : Bench} (hw : E.words = getBufferWords) (hH : H.share = false) (h : Stands H k s b)
    (hl : Bench.leaves key = false) (hd : ¬ (key = .ctrl 'd' ∧ b.desk.text = [])) :
    Wp (Emacs.keyMap.handleKey E comp key) (k, s)
      (fun done t' => done = false ∧ ∃ c, Bench.Next (texts H) key b c ∧ Stands H t'.1 t'.2 c) (fun _ _ => True) (· ≠ .op) := by
  obtain ⟨d, o⟩ := b
  cases o with
  | some f => exact seek_step E comp hw h hl hd
  | none =>
    have h : OnDesk H k s d := h
    have hN : ∀ c, Bench.Next (texts H) key ⟨d, none⟩ c ↔ if key = .ctrl 'r' then c = ⟨d.look (texts H) false, some false⟩
      else if key = .ctrl 's' then c = ⟨d.look (texts H) true, some true⟩
      else ∃ e, d.Next (texts H) key e ∧ c = ⟨e, none⟩ := fun _ => Iff.rfl
    simp only [hN]
    by_cases c1 : key = .ctrl 'r'
    · simp only [if_pos c1]
      subst c1
      refine wp_mono (search_key E comp false h.1.here.here (start_sought E hH h false))
        (fun _ t' h' => ⟨h'.1, _, rfl, h'.2⟩) (fun _ _ h => h) (fun _ h => h)
    simp only [if_neg c1]
    by_cases c2 : key = .ctrl 's'
    · simp only [if_pos c2]
      subst c2
      refine wp_mono (search_key E comp true h.1.here.here (start_sought E hH h true))
        (fun _ t' h' => ⟨h'.1, _, rfl, h'.2⟩) (fun _ _ h => h) (fun _ h => h)
    simp only [if_neg c2]
    have hl' : Desk.leaves key = false := by
      cases key with
      | char c => exact hl
      | ctrl c =>
        simp only [Bench.leaves, Desk.leaves, decide_eq_false_iff_not, List.mem_cons, List.not_mem_nil, or_false, not_or] at hl ⊢
        simp only [Key.ctrl.injEq] at c1 c2
        exact ⟨hl, c1, c2⟩
      | _ => rfl
    refine wp_mono (desk_step E comp hw hH h hl' hd) (fun _ t' h' => ?_) (fun _ _ h => h) (fun _ h => h)
    obtain ⟨rfl, e, h1, h2⟩ := h'
    exact ⟨rfl, _, ⟨e, h1, rfl⟩, h2⟩

end
end Props
end Liner
