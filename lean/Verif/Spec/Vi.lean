import Verif.Model.Vi
import Verif.Spec.Editor
import Mathlib.Data.Nat.Count
/-
Specification vocabulary for the vi keys.
-/

namespace Liner.Spec
open Liner

/-- The keys that move, of which some wait for another key. -/
def motionKeys : List Key :=
  ['h', 'l', ' ', 'w', 'W', 'b', 'B', 'e', 'E', 'g', '^', '$', 'f', 'F', 't', 'T', ';', ','].map Key.char ++
    [.left, .right, .backspace, .home, .end]

def digitKeys : List Key :=
  ['0', '1', '2', '3', '4', '5', '6', '7', '8', '9'].map Key.char

/-- The mode is waiting for a key. -/
def Waiting : Mode → Prop
  | .insert => False
  | .normal => False
  | _ => True

/-- The keys a waiting mode takes: an operator takes motions, digits and itself. -/
def Takes (v : Vi) (key : Key) : Prop :=
  match v.mode with
  | .delete _ => key ∈ motionKeys ∨ key ∈ digitKeys ∨
      key = (if v.currentInsert = none then .char 'd' else .char 'c')
  | .moveToChar _ => ∃ c, key = .char c
  | .replace => ∃ c, key = .char c
  | .g => key = .char 'e' ∨ key = .char 'E'
  | _ => True

/-- The cursor is as far to the right as it may be. -/
def AtRight (s : Ed) : Prop := ∃ d, text? s = some d ∧ if s.noEol then d.length ≤ s.cursor + 1 else d.length ≤ s.cursor

/-- A key the key map gets to see: not one of those that `KeyMap::handle_key` handles itself. -/
structure Seen (s : Ed) (key : Key) : Prop where
  ctrlC : key ≠ .ctrl 'c'
  ctrlD : ¬ (key = .ctrl 'd' ∧ text? s = some [])
  ctrlH : key ≠ .ctrl 'h'
  tab : key ≠ .char '\t'
  enter : key ≠ .char '\n'
  accept : ¬ (key = .ctrl 'f' ∧ s.autosuggestion.isSome = true)
  searchR : key ≠ .ctrl 'r'
  searchS : key ≠ .ctrl 's'
  right : ¬ (key = .right ∧ s.autosuggestion.isSome = true ∧ AtRight s)

/-! ### Motions -/

/-- `i` is the `n`-th position after `cur` with the property.  (`Nat.count P k` is the number of
positions before `k` with the property.) -/
def NthAfter (P : Nat → Bool) (cur n i : Nat) : Prop :=
  cur < i ∧ P i = true ∧ Nat.count (P · = true) (i + 1) = Nat.count (P · = true) (cur + 1) + n

/-- `i` is the `n`-th position before `cur` with the property, counted backwards. -/
def NthBefore (P : Nat → Bool) (cur n i : Nat) : Prop :=
  i < cur ∧ P i = true ∧ Nat.count (P · = true) cur = Nat.count (P · = true) i + n

/-- The character at a position. -/
def isAt (t : Text) (c : Char) (i : Nat) : Bool := t[i]? == some c

/-- Blank, part of a keyword, or anything else; for the `big` motions there are only blanks and the
rest. -/
def kind (C : CharClass) (big : Bool) (c : Char) : Nat :=
  if C.isWhitespace c then 0 else if big || c == '_' || C.isAlphanumeric c then 1 else 2

/-- A word starts at the position: a character that is not blank, after the beginning of the line or a
character of another kind. -/
def startsWord (C : CharClass) (big : Bool) (t : Text) (i : Nat) : Bool :=
  match t[i]? with
  | none => false
  | some c => kind C big c != 0 && (i == 0 || t[i - 1]?.map (kind C big) != some (kind C big c))

/-- A word ends at the position: a character that is not blank, before the end of the line or a
character of another kind. -/
def endsWord (C : CharClass) (big : Bool) (t : Text) (i : Nat) : Bool :=
  match t[i]? with
  | none => false
  | some c => kind C big c != 0 && t[i + 1]?.map (kind C big) != some (kind C big c)

inductive Motion where
  /-- `h` -/
  | left
  /-- `l` -/
  | right
  /-- `^`, `0` -/
  | first
  /-- `$` -/
  | last
  /-- `w`, `W` -/
  | word (big : Bool)
  /-- `e`, `E` -/
  | wordEnd (big : Bool)
  /-- `b`, `B` -/
  | back (big : Bool)
  /-- `ge`, `gE` -/
  | backEnd (big : Bool)
  /-- `f`, `t`, `F`, `T` and a character -/
  | find (m : CharMovement) (c : Char)
deriving DecidableEq

/-- Where a motion with a count leads from `cur` on the line `t`, if the cursor may also be after the
line. -/
def Leads (C : CharClass) (t : Text) (cur n : Nat) (m : Motion) (q : Nat) : Prop :=
  match m with
  | .left => q = cur - n
  | .right => q = min (cur + n) t.length
  | .first => q = 0
  | .last => q = t.length
  | .word big =>
    NthAfter (startsWord C big t) cur n q ∨ ((∀ i, ¬ NthAfter (startsWord C big t) cur n i) ∧ q = t.length)
  | .wordEnd big =>
    (NthAfter (endsWord C big t) cur n q ∧ q + 1 < t.length) ∨
    ((∀ i, NthAfter (endsWord C big t) cur n i → i + 1 = t.length) ∧ q = t.length)
  | .back big =>
    NthBefore (startsWord C big t) cur n q ∨ ((∀ i, ¬ NthBefore (startsWord C big t) cur n i) ∧ q = 0)
  | .backEnd big =>
    NthBefore (endsWord C big t) cur n q ∨ ((∀ i, ¬ NthBefore (endsWord C big t) cur n i) ∧ q = 0)
  | .find .rightAt c => NthAfter (isAt t c) cur n q ∨ ((∀ i, ¬ NthAfter (isAt t c) cur n i) ∧ q = cur)
  | .find .rightUntil c =>
    NthAfter (isAt t c) cur n (q + 1) ∨ ((∀ i, ¬ NthAfter (isAt t c) cur n i) ∧ q = cur)
  | .find .leftAt c => NthBefore (isAt t c) cur n q ∨ ((∀ i, ¬ NthBefore (isAt t c) cur n i) ∧ q = cur)
  | .find .leftUntil c =>
    (0 < q ∧ NthBefore (isAt t c) cur n (q - 1)) ∨ ((∀ i, ¬ NthBefore (isAt t c) cur n i) ∧ q = cur)

/-- With an operator, does the motion include the character it leads to? -/
def Motion.inclusive : Motion → Bool
  | .backEnd _ => true
  | .find .rightAt _ => true
  | .find .rightUntil _ => true
  | _ => false

def searchKey : CharMovement → Char
  | .rightAt => 'f'
  | .rightUntil => 't'
  | .leftAt => 'F'
  | .leftUntil => 'T'

def opposite : CharMovement → CharMovement
  | .rightAt => .leftAt
  | .rightUntil => .leftUntil
  | .leftAt => .rightAt
  | .leftUntil => .rightUntil

/-- The keys for a motion; `last` is the last character search.  (A tab or a newline is not a character
to search for: it never reaches the key map.) -/
def Motion.keys (last : Option (Char × CharMovement)) : Motion → List (List Key)
  | .left => [[.char 'h'], [.left], [.backspace]]
  | .right => [[.char 'l'], [.char ' ']]
  | .first => [[.char '^']]
  | .last => [[.char '$']]
  | .word big => [[.char (if big then 'W' else 'w')]]
  | .wordEnd big => [[.char (if big then 'E' else 'e')]]
  | .back big => [[.char (if big then 'B' else 'b')]]
  | .backEnd big => [[.char 'g', .char (if big then 'E' else 'e')]]
  | .find m c =>
    (if c = '\t' ∨ c = '\n' then [] else [[.char (searchKey m), .char c]]) ++
    (if last = some (c, m) then [[.char ';']] else []) ++
    (if last = some (c, opposite m) then [[.char ',']] else [])

/-! ### Counts -/

def digitChars : List Char := ['0', '1', '2', '3', '4', '5', '6', '7', '8', '9']

def digitValue (c : Char) : Nat := c.toNat - 48

/-- The digits of a count: the first one is not `0`, which is a motion. -/
def Digits (ds : List Char) : Prop := (∀ d ∈ ds, d ∈ digitChars) ∧ ds.head? ≠ some '0'

/-- The number written. -/
def decimal (ds : List Char) : Nat := ds.foldl (fun n d => 10 * n + digitValue d) 0

/-- The count meant: one if none is given; counts stop at the largest 32-bit number. -/
def counted (ds : List Char) : Nat := if ds = [] then 1 else min (decimal ds) 4294967295

/-- The other case of a character; there may be none, or several characters. -/
def toggleCase (C : CharClass) (c : Char) : Text :=
  if C.isLowercase c then C.toUppercase c else if C.isUppercase c then C.toLowercase c else [c]

/-! ### Whole commands -/

/-- A key that types or deletes a character in insert mode. -/
def Typing (k : Key) : Prop := (∃ c, k = .char c) ∨ k = .backspace ∨ k = .delete

/-- The rest of a command after its first key, without an error: keys for the modes that wait, typed keys
and Esc in insert mode.  The operator `c` is not given up. -/
inductive Follows (E : Env) : List (Key × (Text → List Text)) → Vi × Ed → Vi × Ed → Prop
  | nil (t : Vi × Ed) : Follows E [] t t
  | cons {k : Key} {comp : Text → List Text} {ks : List (Key × (Text → List Text))} {t t1 t' : Vi × Ed}
      (seen : Seen t.2 k) (busy : t.1.mode ≠ .normal) (typing : t.1.mode = .insert → Typing k ∨ k = .esc)
      (change : t.1.mode ≠ .insert → .insert ∈ t.1.modeStack → t1.1.mode ≠ .normal)
      (run : Vi.keyMap.handleKey E comp k t = .ok false t1) (rest : Follows E ks t1 t') :
      Follows E ((k, comp) :: ks) t t'

/-- The keys in normal mode that are not commands on the line: undo, the repetition, and the walk
through the history. -/
def asideKeys : List Key := [.char 'u', .char '.', .char 'k', .char 'j', .up, .down]

/-- The keys that move in insert mode. -/
def insertMoves : List Key := [.left, .right, .home, .end, .up, .down]

/-! ### The recursion -/

/-- `handle_key_core` as far as its `n` outermost calls; `rest` is done in place of the calls inside them. -/
def nested (E : Env) (rest : Key → Vi.ViM Unit) : Nat → Key → Vi.ViM Unit
  | 0, key => rest key
  | n + 1, key => Vi.coreStep (nested E rest n) E key

/-! ### Keys that do not abort the program -/

/-- The keys that, after an operator, include the character they lead to. -/
def reaching : List Key := [.char 'f', .char 't', .char 'g', .char ';', .char ',']

/-- The key, given to the key map right after an operator, is not Home or End, and on an empty line it is
not one that reaches for a character. -/
structure Fit (t : Vi × Ed) (k : Key) : Prop where
  edge : ∀ p, t.1.mode = .delete p → k ≠ .home ∧ k ≠ .end
  empty : ∀ p, t.1.mode = .delete p → text? t.2 = some [] → k ∉ reaching

/-- So are the keys, given to the key map one after the other, and none of them is a repetition. -/
def AllFit (E : Env) : List Key → Vi × Ed → Prop
  | [], _ => True
  | k :: ks, t => Fit t k ∧ ¬ (t.1.mode = .normal ∧ k = .char '.') ∧
      ∀ t', Vi.handleKeyCore E k t = .ok () t' → AllFit E ks t'

/-- The keys that `.` repeats. -/
def recorded (v : Vi) : List Key := v.lastInsert.toList ++ v.lastCommand

/-- The state in which `.` repeats them. -/
def repeating (v : Vi) : Vi :=
  { v with count := Vi.dotCount v.count v.lastCount, lastCount := Vi.dotCount v.count v.lastCount, lastCommand := [] }

/-- The keys that complete, accept a suggestion, search or end the line. -/
def swapping : List Key := [.char '\t', .char '\n', .ctrl 'f', .ctrl 'r', .ctrl 's']

/-- A key that is not asked for too much: `k` is the key as the key map gets it. -/
structure Calm (E : Env) (t : Vi × Ed) (k : Key) : Prop where
  fit : Fit t k
  /-- while an operator waits, the key does not complete, search, accept a suggestion or end the line -/
  wait : ∀ p, Mode.delete p ∈ t.1.modeStack → k ∉ swapping ∧
    ¬ (k = .right ∧ t.2.autosuggestion.isSome = true ∧ (text? t.2).map List.length = some t.2.cursor)
  right : t.1.mode = .normal → k = .right → t.2.autosuggestion.isSome = true → text? t.2 ≠ some []
  repeats : t.1.mode = .normal → k = .char '.' → AllFit E (recorded t.1) (repeating t.1, t.2)

/-! ### Changes and their repetition -/

/-- The changes that `.` can repeat. -/
inductive Change where
  /-- `x`, Delete -/
  | cut (k : Key)
  /-- `~` -/
  | toggle
  /-- `D` -/
  | cutEnd
  /-- `r` and a character -/
  | replace (c : Char)
  /-- `d` and a motion, with the keys for it -/
  | delete (m : Motion) (ks : List Key)
  /-- `i`, `a`, `I` or `A`, the keys typed, and Esc -/
  | insert (c : Char) (ts : List Key)
  /-- `s`, the keys typed, and Esc -/
  | subst (ts : List Key)
  /-- `c` and a motion, with the keys for it, the keys typed, and Esc -/
  | change (m : Motion) (ks : List Key) (ts : List Key)

/-- A key that types or deletes a character.  (A tab or a newline never reaches the key map.) -/
def Types (k : Key) : Prop := (∃ c, k = .char c ∧ c ≠ '\t' ∧ c ≠ '\n') ∨ k = .backspace ∨ k = .delete

/-- The keys for a change, with digits between an operator and its motion. -/
def Change.keys (ds : List Char) : Change → List Key
  | .cut k => [k]
  | .toggle => [.char '~']
  | .cutEnd => [.char 'D']
  | .replace c => [.char 'r', .char c]
  | .delete _ ks => .char 'd' :: (ds.map Key.char ++ ks)
  | .insert c ts => .char c :: (ts ++ [.esc])
  | .subst ts => .char 's' :: (ts ++ [.esc])
  | .change _ ks ts => .char 'c' :: (ds.map Key.char ++ ks ++ ts ++ [.esc])

/-- The change is possible, `last` being the last character search. -/
def Change.Can (last : Option (Char × CharMovement)) (t : Text) : Change → Prop
  | .cut k => k = .char 'x' ∨ k = .delete
  | .toggle => True
  | .cutEnd => True
  | .replace c => c ≠ '\t' ∧ c ≠ '\n'
  | .delete m ks => ks ∈ m.keys last ∧ (m.inclusive = true → t ≠ [])
  | .insert c ts => c ∈ ['i', 'a', 'I', 'A'] ∧ ∀ k ∈ ts, Types k
  | .subst ts => ∀ k ∈ ts, Types k
  | .change m ks ts => ks ∈ m.keys last ∧ (m.inclusive = true → t ≠ []) ∧ ∀ k ∈ ts, Types k

/-- The count of a change, from the count before it and the digits after an operator. -/
def Change.total (n : Nat) (ds : List Char) : Change → Nat
  | .delete _ _ => if ds = [] then n else min (n * counted ds) 4294967295
  | .change _ _ _ => if ds = [] then n else min (n * counted ds) 4294967295
  | _ => n

/-- One key typed between `l` and `r`. -/
def typeKey : Text × Text → Key → Text × Text
  | (l, r), .char c => (l ++ [c], r)
  | (l, r), .backspace => (l.dropLast, r)
  | (l, r), .delete => (l, r.drop 1)
  | p, _ => p

/-- The keys typed `n` times over, between `l` and `r`, and Esc: the line `t` with the cursor on the
character before. -/
def Typed (n : Nat) (ts : List Key) (l r t : Text) (cur : Nat) : Prop :=
  ∃ l' r', (List.replicate n ts).flatten.foldl typeKey (l, r) = (l', r') ∧ t = l' ++ r' ∧ cur = l'.length - 1

/-- The change, `n` times, makes the line `t` with the cursor at `cur` out of the line `l ++ r` with the
cursor between. -/
def Changes (C : CharClass) (n : Nat) (l r t : Text) (cur : Nat) : Change → Prop
  | .cut _ => t = l ++ r.drop n ∧ cur = min l.length (t.length - 1)
  | .toggle => ∃ a, a = l ++ (r.take n).flatMap (toggleCase C) ∧ t = a ++ r.drop n ∧ cur = min a.length (t.length - 1)
  | .cutEnd => t = l ∧ cur = l.length - 1
  | .replace c =>
    if n ≤ r.length then t = l ++ List.replicate n c ++ r.drop n ∧ cur = l.length + n - 1
    else t = l ++ r ∧ cur = l.length
  | .delete m _ => ∃ q, Leads C (l ++ r) l.length n m q ∧
      t = (l ++ r).take (min l.length q) ++ (l ++ r).drop (max l.length q + if m.inclusive then 1 else 0) ∧
      cur = min (min l.length q) (t.length - 1)
  | .insert c ts => ∃ l' r',
      (c, l', r') ∈ [('i', l, r), ('a', l ++ r.take 1, r.drop 1), ('I', [], l ++ r), ('A', l ++ r, [])] ∧
      Typed n ts l' r' t cur
  | .subst ts => Typed 1 ts l (r.drop n) t cur
  | .change m _ ts => ∃ q, Leads C (l ++ r) l.length n m q ∧
      Typed 1 ts ((l ++ r).take (min l.length q)) ((l ++ r).drop (max l.length q + if m.inclusive then 1 else 0)) t cur

/-- The keys that begin a change in normal mode. -/
def changing : List Key :=
  ['i', 'a', 'A', 'I', 's', 'r', 'd', 'c', 'D', 'C', 'x', '~', '.'].map Key.char ++ [.delete]

/-- In this state the last change was `ch`, done `n` times. -/
inductive Made (E : Env) (p : Prompt) (t0 : Vi × Ed) : Vi × Ed → Change → Nat → Prop
  /-- the change was typed in normal mode, after any keys -/
  | command {keys kcs : List (Key × (Text → List Text))} {v : Vi} {s : Ed} {t : Vi × Ed} {l r : Text}
      {ch : Change} {n : Nat} {ds : List Char}
      (before : session Vi.keyMap E p keys t0 = .ok () (v, s)) (normal : v.mode = .normal)
      (quiet : s.isSearch = false) (here : At s l r) (digits : Digits ds)
      (can : ch.Can v.lastCharMovement (l ++ r)) (count : n = ch.total (if v.count = 0 then 1 else v.count) ds)
      (enough : ∀ c, ch = .replace c → n ≤ r.length)
      (keys' : kcs.map Prod.fst = ch.keys ds) (run : press Vi.keyMap E kcs (v, s) = .ok () t) : Made E p t0 t ch n
  /-- the line began with typed keys and Esc -/
  | first {ts : List Key} {kcs : List (Key × (Text → List Text))} {t : Vi × Ed} (types : ∀ k ∈ ts, Types k)
      (keys : kcs.map Prod.fst = ts ++ [.esc]) (run : session Vi.keyMap E p kcs t0 = .ok () t) :
      Made E p t0 t (.insert 'i' ts) 1
  /-- the key after that was not one that begins a change -/
  | aside {t t' : Vi × Ed} {ch : Change} {n : Nat} {k : Key} {comp : Text → List Text} {d : Bool}
      (made : Made E p t0 t ch n) (other : t.1.mode = .normal → k ∉ changing)
      (run : Vi.keyMap.handleKey E comp k t = .ok d t') : Made E p t0 t' ch n
  /-- the change was repeated -/
  | again {t t' : Vi × Ed} {ch : Change} {n : Nat} {comp : Text → List Text} {d : Bool} {l r : Text}
      (made : Made E p t0 t ch n) (normal : t.1.mode = .normal) (quiet : t.2.isSearch = false) (here : At t.2 l r)
      (can : ch.Can t.1.lastCharMovement (l ++ r))
      (run : Vi.keyMap.handleKey E comp (.char '.') t = .ok d t') :
      Made E p t0 t' ch (if t.1.count = 0 then n else t.1.count)

/-- The count of the change is not remembered: it is that of a character search. -/
def Change.forgets : Change → Prop
  | .delete (.find _ _) _ => True
  | .change (.find _ _) _ _ => True
  | _ => False

end Liner.Spec
