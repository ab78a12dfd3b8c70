import Verif.Model.History
import Mathlib.Data.List.Induction
/-
UTF-8 and line-splitting lemmas for the history file.
-/

namespace Liner

theorem decode_encode (t : Text) : decode (encode t) = some t := by
  have : (encode t).toByteArray = List.utf8Encode t := rfl
  simp [decode, this, List.utf8Decode?_utf8Encode]

theorem decode_eq_some {bs : Bytes} {t : Text} (h : decode bs = some t) : bs = encode t := by
  unfold decode at h
  rw [Option.map_eq_some_iff] at h
  obtain ⟨a, ha, rfl⟩ := h
  have hs : bs.toByteArray.utf8Decode?.isSome := by rw [ha]; rfl
  have h1 := ByteArray.utf8Encode_get_utf8Decode? (b := bs.toByteArray) (h := hs)
  have h2 : bs.toByteArray.utf8Decode?.get hs = a := by simp [ha]
  rw [h2] at h1
  have h3 : (encode a.toList).toByteArray = bs.toByteArray := h1
  have := congrArg (fun b : ByteArray => b.data.toList) h3
  simpa using this.symm

theorem decode_iff {bs : Bytes} {t : Text} : decode bs = some t ↔ bs = encode t :=
  ⟨decode_eq_some, fun h => h ▸ decode_encode t⟩

theorem encode_inj {s t : Text} (h : encode s = encode t) : s = t := by
  have := decode_encode s
  rw [h, decode_encode] at this
  exact (Option.some.inj this).symm

@[simp] theorem encode_nil : encode [] = [] := rfl

theorem encode_append (s t : Text) : encode (s ++ t) = encode s ++ encode t := by
  simp [encode]

theorem encode_cons (c : Char) (t : Text) : encode (c :: t) = String.utf8EncodeChar c ++ encode t := by
  simp [encode]

theorem encode_eq_nil {t : Text} : encode t = [] ↔ t = [] := by
  constructor
  · intro h; exact encode_inj (h.trans encode_nil.symm)
  · rintro rfl; rfl

theorem encode_length (t : Text) : (encode t).length = Buffer.byteLen t := by
  induction t with
  | nil => rfl
  | cons c cs ih => simp [encode_cons, ih, Buffer.byteLen]

theorem encode_prefix {u t : Text} (h : encode u <+: encode t) : u <+: t := by
  obtain ⟨r, hr⟩ := h
  refine List.isPrefix_of_utf8Encode_append_eq_utf8Encode r.toByteArray ?_
  show (encode u).toByteArray ++ r.toByteArray = (encode t).toByteArray
  rw [← List.toByteArray_append, hr]

/-- A byte below 128 in the encoding of a character is the whole encoding. -/
theorem utf8EncodeChar_ascii {c : Char} {b : UInt8} (hb : b ∈ String.utf8EncodeChar c)
    (hlt : b.toNat < 128) : c.val.toNat = b.toNat ∧ String.utf8EncodeChar c = [b] := by
  have hv : c.val.toNat < 1114112 := by
    have := c.valid
    rcases this with h | h
    · exact Nat.lt_trans h (by decide)
    · exact h.2
  have big : ∀ n : Nat, 128 ≤ n → n < 256 → b = UInt8.ofNat n → False := by
    intro n h1 h2 e
    rw [e, UInt8.toNat_ofNat'] at hlt
    omega
  unfold String.utf8EncodeChar at hb ⊢
  simp only [] at hb ⊢
  split at hb
  · rename_i h
    simp only [List.mem_singleton] at hb
    subst hb
    rw [if_pos h]
    simp only [UInt8.toNat_ofNat']
    exact ⟨by omega, trivial⟩
  · split at hb
    · simp only [List.mem_cons, List.not_mem_nil, or_false] at hb
      rcases hb with e | e <;> exact (big _ (by omega) (by omega) e).elim
    · split at hb
      · simp only [List.mem_cons, List.not_mem_nil, or_false] at hb
        rcases hb with e | e | e <;> exact (big _ (by omega) (by omega) e).elim
      · simp only [List.mem_cons, List.not_mem_nil, or_false] at hb
        rcases hb with e | e | e | e <;> exact (big _ (by omega) (by omega) e).elim

theorem char_eq_of_val {c d : Char} (h : c.val.toNat = d.val.toNat) : c = d := by
  apply Char.ext
  exact UInt32.toNat_inj.mp h

theorem newline_mem_encode {t : Text} : (10 : UInt8) ∈ encode t ↔ '\n' ∈ t := by
  induction t with
  | nil => simp
  | cons c cs ih =>
    rw [encode_cons, List.mem_append, ih, List.mem_cons]
    constructor
    · rintro (h | h)
      · left
        have := (utf8EncodeChar_ascii h (by decide)).1
        exact (char_eq_of_val (by rw [this]; rfl)).symm
      · exact .inr h
    · rintro (h | h)
      · left; subst h; decide
      · exact .inr h

theorem cr_last_encode {t : Text} : (encode t).getLast? = some 13 ↔ t.getLast? = some '\r' := by
  induction t using List.reverseRecOn with
  | nil => simp
  | append_singleton t c _ =>
    have hne : String.utf8EncodeChar c ≠ [] := String.utf8EncodeChar_ne_nil
    have e1 : encode [c] = String.utf8EncodeChar c := by simp [encode]
    rw [encode_append, e1, List.getLast?_append, List.getLast?_append,
      List.getLast?_eq_some_getLast hne]
    simp only [Option.some_or, List.getLast?_singleton]
    rw [← List.getLast?_eq_some_getLast hne]
    constructor
    · intro h
      have hm := List.mem_of_getLast? h
      have := (utf8EncodeChar_ascii hm (by decide)).1
      rw [char_eq_of_val (c := c) (d := '\r') (by rw [this]; rfl)]
    · intro h
      cases h
      rfl

namespace History

theorem rawLines_terminated (l rest acc : Bytes) (h : (10 : UInt8) ∉ l) :
    rawLines (l ++ 10 :: rest) acc = (acc.reverse ++ l, true) :: rawLines rest [] := by
  induction l generalizing acc with
  | nil => simp [rawLines]
  | cons b l ih =>
    simp only [List.mem_cons, not_or] at h
    rw [List.cons_append, rawLines, if_neg (Ne.symm h.1), ih _ h.2]
    simp

theorem rawLines_last (l acc : Bytes) (h : (10 : UInt8) ∉ l) :
    rawLines l acc = if acc.reverse ++ l = [] then [] else [(acc.reverse ++ l, false)] := by
  induction l generalizing acc with
  | nil => cases acc <;> simp [rawLines]
  | cons b l ih =>
    simp only [List.mem_cons, not_or] at h
    rw [rawLines, if_neg (Ne.symm h.1), ih _ h.2]
    simp

/-- A text that can be a line of the history file. -/
def GoodLine (t : Text) : Prop := '\n' ∉ t ∧ t.head? ≠ some '#' ∧ t.getLast? ≠ some '\r'

theorem rawLines_linesBytes (ls : List Text) (h : ∀ t ∈ ls, '\n' ∉ t) (rest : Bytes) :
    rawLines (linesBytes ls ++ rest) [] = ls.map (fun t => (encode t, true)) ++ rawLines rest [] := by
  induction ls with
  | nil => simp [linesBytes]
  | cons t ls ih =>
    have h1 : (10 : UInt8) ∉ encode t := by
      rw [newline_mem_encode]; exact h t (by simp)
    have : linesBytes (t :: ls) ++ rest = encode t ++ 10 :: (linesBytes ls ++ rest) := by
      simp [linesBytes]
    rw [this, rawLines_terminated _ _ _ h1, ih (fun x hx => h x (by simp [hx]))]
    simp

theorem decodeLine_good {t : Text} (h : t.getLast? ≠ some '\r') :
    decodeLine (encode t, true) = some t := by
  unfold decodeLine stripCR
  have : (encode t).getLast? ≠ some 13 := fun e => h (cr_last_encode.mp e)
  simp [this, decode_encode]

theorem takeOk_map_some (ls : List Text) (rest : List (Option Text)) :
    takeOk (ls.map some ++ rest) = ls ++ takeOk rest := by
  induction ls with
  | nil => rfl
  | cons t ls ih => simp [takeOk, ih]

theorem fileLines_linesBytes_append (ls : List Text) (h : ∀ t ∈ ls, GoodLine t) (rest : Bytes) :
    fileLines (linesBytes ls ++ rest) = ls ++ fileLines rest := by
  unfold fileLines
  rw [rawLines_linesBytes ls (fun t ht => (h t ht).1), List.map_append, List.map_map]
  have e : (ls.map (decodeLine ∘ fun t => (encode t, true))) = ls.map some := by
    apply List.map_congr_left
    intro t ht
    exact decodeLine_good (h t ht).2.2
  rw [e, takeOk_map_some, List.filter_append]
  congr 1
  rw [List.filter_eq_self]
  intro t ht
  have := (h t ht).2.1
  simpa [isComment] using this

theorem fileLines_linesBytes (ls : List Text) (h : ∀ t ∈ ls, GoodLine t) :
    fileLines (linesBytes ls) = ls := by
  have := fileLines_linesBytes_append ls h []
  simpa [fileLines, rawLines, takeOk] using this

end History
end Liner
