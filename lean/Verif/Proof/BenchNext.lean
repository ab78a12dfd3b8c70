import Verif.Proof.Bench
import Verif.Proof.DeskNext
/-
The bench after a key is determined: a computable step.
-/

namespace Liner
namespace Spec
open Props

/-- Alt-`.` during a search. -/
def Desk.fetch (entries : List Text) (forward : Bool) (d : Desk) : Desk :=
  match d.sheet.nextArg entries d.shown with
  | none => d
  | some i =>
    let m := if d.arg = none then d else d.seek entries forward (d.sheet.dropArg.past ≠ d.past) d.sheet.dropArg
    let n := Sheet.addArg (entries[i]?.getD []) m.sheet
    { m.seek entries forward (n.past ≠ m.past) n with arg := some i }

namespace Bench
open Desk

/-- One key during a search. -/
def seeks (entries : List Text) (f : Bool) (key : Key) (d : Desk) : Bench :=
  if key = .ctrl 'r' then ⟨d.back, some f⟩
  else if key = .ctrl 's' then ⟨d.forth, some f⟩
  else if key = .up ∨ key = .ctrl 'p' then ⟨{ d.back with arg := none }, some f⟩
  else if key = .down ∨ key = .ctrl 'n' then ⟨{ d.forth with arg := none }, some f⟩
  else if key = .alt '<' then ⟨d.oldest entries, some f⟩
  else if key = .alt '>' then ⟨d.newest entries, some f⟩
  else if key = .ctrl 'l' then ⟨d.write false true { d.sheet with arg := none }, none⟩
  else if d.sheet.takes (d.found entries) key then ⟨d.accept entries, none⟩
  else if key = .alt '.' then ⟨d.fetch entries f, some f⟩
  else
    let q := d.sheet.does entries (d.found entries) d.shown key
    ⟨d.seek entries f (taken key d.sheet q) q, some f⟩

/-- One key. -/
def step (entries : List Text) (key : Key) (b : Bench) : Bench :=
  match b.forward with
  | some f => seeks entries f key b.desk
  | none =>
    if key = .ctrl 'r' then ⟨b.desk.look entries false, some false⟩
    else if key = .ctrl 's' then ⟨b.desk.look entries true, some true⟩
    else ⟨b.desk.step entries key, none⟩

/-- What is read. -/
def said (entries : List Text) : List (Option Key) → Bench → Sheet.Said
  | [], b => .line b.desk.text
  | none :: _, _ => .stop .io
  | some key :: rest, b =>
    if key = .ctrl 'c' then .stop .interrupted
    else if key = .ctrl 'd' ∧ b.desk.text = [] then .stop .unexpectedEof
    else if key = .char '\n' then
      let d := b.enter entries
      if d.left.getLast? = some '\\' then
        said entries rest ⟨d.write true true (d.sheet.put (d.left ++ ['\n']) d.right), none⟩
      else .line d.text
    else said entries rest (step entries key b)

/-- The bench after the keys. -/
def steps (entries : List Text) (keys : List Key) (b : Bench) : Bench := keys.foldl (fun b key => b.step entries key) b

end Bench
end Spec

namespace Props
open Editor Liner.Spec

theorem sound_look {entries : List Text} {f : Bool} {d : Desk} (h : d.Sound entries) : (d.look entries f).Sound entries := by
  refine ⟨h.arg, fun i hi => (by cases hi), fun i hi => ?_, fun i hi => begins_lt hi⟩
  have hi : i ∈ Desk.holding entries d.new.text := hi
  exact List.mem_range.mp (List.mem_filter.mp hi).1

theorem sound_back {entries : List Text} {d : Desk} (h : d.Sound entries) : d.back.Sound entries := by
  refine ⟨h.arg, h.shown, h.met, fun i hi => ?_⟩
  obtain ⟨j, hj, rfl⟩ := Option.map_eq_some_iff.mp hi
  have := h.walk j hj
  show _ < d.met.length
  split <;> omega

theorem sound_forth {entries : List Text} {d : Desk} (h : d.Sound entries) : d.forth.Sound entries := by
  refine ⟨h.arg, h.shown, h.met, fun i hi => ?_⟩
  obtain ⟨j, hj, rfl⟩ := Option.map_eq_some_iff.mp hi
  have := h.walk j hj
  show _ < d.met.length
  split <;> omega

theorem sound_arg {entries : List Text} {d : Desk} {a : Option Nat} (h : d.Sound entries)
    (ha : ∀ i, a = some i → i < entries.length) : { d with arg := a }.Sound entries := ⟨ha, h.shown, h.met, h.walk⟩

theorem sound_seek {entries : List Text} {d : Desk} {q : Sheet} {f t : Bool} (h : d.Sound entries)
    (hq : Sheet.Bound entries q) : (d.seek entries f t q).Sound entries := by
  unfold Desk.seek
  split
  · exact sound_look (sound_write h hq)
  · exact sound_write h hq

theorem sound_accept {entries : List Text} {d : Desk} (h : d.Sound entries) : (d.accept entries).Sound entries := by
  unfold Desk.accept
  refine sound_write h ?_
  split <;> exact h.arg

theorem sound_old {entries : List Text} {d : Desk} (h : d.Sound entries) : (d.oldest entries).Sound entries :=
  sound_step (key := .alt '<') h

theorem sound_new {entries : List Text} {d : Desk} (h : d.Sound entries) : (d.newest entries).Sound entries :=
  sound_step (key := .alt '>') h

theorem dropArg_bound {entries : List Text} {p : Sheet} (h : Sheet.Bound entries p) : Sheet.Bound entries p.dropArg := by
  unfold Sheet.dropArg
  split <;> exact h

theorem addArg_bound {entries : List Text} {x : Text} {p : Sheet} (h : Sheet.Bound entries p) :
    Sheet.Bound entries (Sheet.addArg x p) := by
  unfold Sheet.addArg
  split <;> exact h

theorem sound_drop {entries : List Text} {f : Bool} {d : Desk} (h : d.Sound entries) :
    (if d.arg = none then d else d.seek entries f (d.sheet.dropArg.past ≠ d.past) d.sheet.dropArg).Sound entries := by
  split
  · exact h
  · exact sound_seek h (dropArg_bound h.arg)

theorem sound_fetch {entries : List Text} {f : Bool} {d : Desk} (h : d.Sound entries) : (d.fetch entries f).Sound entries := by
  unfold Desk.fetch
  split
  · exact h
  · rename_i i hn
    have hi := nextArg_lt (p := d.sheet) h.arg h.shown hn
    exact sound_arg (sound_seek (sound_drop h) (addArg_bound (sound_drop h).arg)) fun j hj => by cases hj; exact hi

theorem desk_fetch_iff {entries : List Text} {f : Bool} {d e : Desk} (h : d.Sound entries) :
    d.Fetch entries f e ↔ e = d.fetch entries f := by
  unfold Desk.Fetch Desk.fetch
  cases hn : d.sheet.nextArg entries d.shown with
  | none => rfl
  | some i =>
    have hi := nextArg_lt (p := d.sheet) h.arg h.shown hn
    have hx := List.getElem?_eq_getElem hi
    dsimp only
    simp only [adds_iff, drops_iff]
    rw [hx]
    simp only [Option.getD_some]
    constructor
    · rintro ⟨m, x, n, h1, h2, rfl, rfl⟩
      cases h2
      split at h1
      · rename_i ha; rw [if_pos ha, h1]
      · rename_i ha
        obtain ⟨q, rfl, h1⟩ := h1
        rw [if_neg ha, h1]
    · intro h
      refine ⟨_, _, _, ?_, rfl, rfl, h⟩
      split
      · rfl
      · exact ⟨_, rfl, rfl⟩

theorem sound_seeks {entries : List Text} {f : Bool} {key : Key} {d : Desk} (h : d.Sound entries) :
    (Bench.seeks entries f key d).desk.Sound entries := by
  unfold Bench.seeks
  repeat' split
  · exact sound_back h
  · exact sound_forth h
  · exact sound_arg (sound_back h) (by simp)
  · exact sound_arg (sound_forth h) (by simp)
  · exact sound_old h
  · exact sound_new h
  · exact sound_write h (fun i hi => by cases hi)
  · exact sound_accept h
  · exact sound_fetch h
  · exact sound_seek h (does_bound h.arg h.shown)

theorem sound_bench {entries : List Text} {key : Key} {b : Bench} (h : b.desk.Sound entries) :
    (b.step entries key).desk.Sound entries := by
  unfold Bench.step
  split
  · exact sound_seeks h
  · repeat' split
    · exact sound_look h
    · exact sound_look h
    · exact sound_step h

theorem bench_seeks_iff {entries : List Text} {f : Bool} {key : Key} {d : Desk} {c : Bench} (h : d.Sound entries) :
    Bench.Seeks entries f key d c ↔ c = Bench.seeks entries f key d := by
  unfold Bench.Seeks Bench.seeks
  repeat' split
  iterate 8 rfl
  · simp only [desk_fetch_iff h, exists_eq_left]
  · simp only [does_iff (p := d.sheet) h.arg h.shown, exists_eq_left]

theorem bench_next_iff {entries : List Text} {key : Key} {b c : Bench} (h : b.desk.Sound entries) :
    b.Next entries key c ↔ c = b.step entries key := by
  unfold Bench.Next Bench.step
  cases b.forward with
  | some f => exact bench_seeks_iff h
  | none =>
    dsimp only
    repeat' split
    · rfl
    · rfl
    · simp only [desk_next_iff h, exists_eq_left]

theorem bench_run_iff {entries : List Text} : ∀ {keys : List Key} {b c : Bench}, b.desk.Sound entries →
    (Bench.Run entries keys b c ↔ c = Bench.steps entries keys b)
  | [], _, _, _ => Iff.rfl
  | key :: keys, b, c, hb => by
    unfold Bench.Run
    simp only [bench_next_iff hb, exists_eq_left]
    exact bench_run_iff (sound_bench hb)

theorem sound_enter {entries : List Text} {b : Bench} (h : b.desk.Sound entries) : (b.enter entries).Sound entries := by
  unfold Bench.enter
  split
  · exact h
  · exact sound_accept h

theorem bench_reads_iff {entries : List Text} : ∀ {input : List (Option Key)} {b : Bench} {o : Sheet.Said},
    b.desk.Sound entries → (Bench.Reads entries input b o ↔ o = Bench.said entries input b)
  | [], _, _, _ => Iff.rfl
  | none :: _, _, _, _ => Iff.rfl
  | some key :: rest, b, o, hb => by
    unfold Bench.Reads Bench.said
    dsimp only
    repeat' split
    · rfl
    · rfl
    · exact bench_reads_iff (sound_write (sound_enter hb) (sound_enter hb).arg)
    · rfl
    · simp only [bench_next_iff hb, exists_eq_left]
      exact bench_reads_iff (sound_bench hb)

end Props
end Liner
