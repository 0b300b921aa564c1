import Verif.Spec.Utf8
/-!
# What reading from a port means

A port is the sequence of bytes still to come.  Reading takes them from the front, peeking does not.  `seen` of them have been peeked at and
not read yet, and `eof` says that the end has been peeked at; they matter for `read-block` alone, see `Step.block`.
Reading a character is specified where the bytes at the front are the UTF-8 encoding of one.
-/
namespace Gauche.Spec.InPort

open Gauche.Spec.Utf8

structure St where
  bytes : List Nat
  seen : Nat
  eof : Bool

/-- What a call is answered with: `none` is the eof object. -/
inductive Ans where
  | byte (b : Option Nat)
  | char (c : Option Nat)
  | line (l : Option (List Nat))
  | block (l : Option (List Nat))
  | string (l : List Nat)

inductive Call where
  | readByte
  | peekByte
  | readChar
  | peekChar
  | readLine
  | readBlock (n : Nat)
  | readString (n : Nat)

/-- `l` without its line end, and what ends it: a line feed, a carriage return or both; the last line may have none. -/
def IsLine (l stop rest : List Nat) : Prop :=
  (∀ b ∈ l, b ≠ 10 ∧ b ≠ 13) ∧
    (stop = [10] ∨ stop = [13, 10] ∨ (stop = [13] ∧ rest.head? ≠ some 10) ∨ (stop = [] ∧ rest = []))

inductive Step : St → Call → Ans → St → Prop
  | readByte (l : List Nat) (k : Nat) (e : Bool) : Step ⟨l, k, e⟩ .readByte (.byte l.head?) ⟨l.tail, k - 1, false⟩
  | peekByte (b : Nat) (l : List Nat) (k : Nat) (e : Bool) : Step ⟨b :: l, k, e⟩ .peekByte (.byte (some b)) ⟨b :: l, max k 1, false⟩
  | peekEof (k : Nat) (e : Bool) : Step ⟨[], k, e⟩ .peekByte (.byte none) ⟨[], 0, true⟩
  | readChar (c : Nat) (l : List Nat) (k : Nat) (e : Bool) (h : IsCode c) :
      Step ⟨encode c ++ l, k, e⟩ .readChar (.char (some c)) ⟨l, 0, false⟩
  | readCharEof (k : Nat) (e : Bool) : Step ⟨[], k, e⟩ .readChar (.char none) ⟨[], 0, false⟩
  | peekChar (c : Nat) (l : List Nat) (k : Nat) (e : Bool) (h : IsCode c) :
      Step ⟨encode c ++ l, k, e⟩ .peekChar (.char (some c)) ⟨encode c ++ l, (encode c).length, false⟩
  | peekCharEof (k : Nat) (e : Bool) : Step ⟨[], k, e⟩ .peekChar (.char none) ⟨[], 0, true⟩
  | readLine (l stop rest : List Nat) (k : Nat) (e : Bool) (hne : l ++ stop ++ rest ≠ []) (h : IsLine l stop rest) :
      Step ⟨l ++ stop ++ rest, k, e⟩ .readLine (.line (some l)) ⟨rest, if stop = [13] ∧ rest ≠ [] then 1 else 0, false⟩
  | readLineEof (k : Nat) (e : Bool) : Step ⟨[], k, e⟩ .readLine (.line none) ⟨[], 0, false⟩
  /-- A block is specified unless the end has been peeked at, or all that is left, and less than asked for, has been peeked at; the line
  feed that may follow a carriage return counts as peeked at. -/
  | block (l : List Nat) (k n : Nat) (hn : 1 ≤ n) (hk : k = 0 ∨ n ≤ k ∨ k < l.length) :
      Step ⟨l, k, false⟩ (.readBlock n) (.block (if l = [] then none else some (l.take n))) ⟨l.drop n, k - n, false⟩
  | readString (cs l : List Nat) (k n : Nat) (e : Bool) (hn : 1 ≤ n) (h : ∀ c ∈ cs, IsCode c)
      (hlen : cs.length = n ∨ (cs.length < n ∧ l = [])) :
      Step ⟨encodeAll cs ++ l, k, e⟩ (.readString n) (.string cs) ⟨l, 0, false⟩

inductive Runs : St → List Call → List Ans → St → Prop
  | nil (s : St) : Runs s [] [] s
  | cons {s s' s'' : St} {op : Call} {ops : List Call} {r : Ans} {rs : List Ans} (h : Step s op r s') (hs : Runs s' ops rs s'') :
      Runs s (op :: ops) (r :: rs) s''

end Gauche.Spec.InPort
