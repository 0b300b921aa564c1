import Verif.Spec.Hash
/-
Model of the hash functions that go with `equal?` and `eqv?`: src/hash.c:349-421 `equal_hash_common`, src/hash.c:443-446 `Scm_PortableHash`, src/hash.c:449-452 `Scm_DefaultHash`,
src/hash.c:213-222 `Scm_EqvHash`, and of the parts of `equal?` that concern the same data (src/boolean.c:44-80 `Scm_EqvP`, src/number.c:3061-3074 `Scm_NumEq`,
src/vector.c:777-850 `DEF_CMP`).

The parameter `W` is the width of `u_long` (32 or 64).  Siphash and the address of a symbol are parameters.  Data are finite trees: on circular lists the hash functions do
not return.  Not modelled: objects with their own hash function, identifiers, uniform vectors of complex numbers (portable-hash panics on them).
-/
namespace Gauche.Hash

/-- What is not defined in src/hash.c: siphash of the bytes with two keys (32-bit and native version), and the addresses of symbols. -/
structure Env where
  sip32 : List Nat → Nat → Nat → Nat
  sipNative : List Nat → Nat → Nat → Nat
  addr : List Nat → Nat

/-- src/hash.c:112-113, the macro `SMALL_INT_HASH`; the value is converted to `u_long` first. -/
def smallHash (W : Nat) (v : Int) : Nat := ((v * 2654435761) % (2 ^ W : Int)).toNat

/-- src/hash.c:126, the macro `COMBINE`. -/
def combine (W : Nat) (a b : Nat) : Nat := (a * 5 + b) % 2 ^ W

/-- The magnitude of a bignum is an array of words of type `u_long`; the sum over the words of what `f` gives. -/
def sumWords (W : Nat) (f : Nat → Nat) : Nat → Nat → Nat
  | 0, _ => 0
  | n + 1, u => if u = 0 then 0 else f (u % 2 ^ W) + sumWords W f n (u / 2 ^ W)

/-- Whether an integer is a fixnum: two bits of the word are the tag. -/
def isFix (W : Nat) (z : Int) : Bool := decide (-(2 ^ (W - 3) : Int) ≤ z ∧ z < 2 ^ (W - 3))

/-- The mask at the end of `number_hash`: src/hash.c:62-65. -/
def mask (W : Nat) (portable : Bool) (h : Nat) : Nat := if portable then h % 2 ^ 32 else h % 2 ^ (W - 3)

/-- src/hash.c:159-211 `number_hash` for exact integers. -/
def intHash (W : Nat) (portable : Bool) (z : Int) : Nat :=
  mask W portable
    (if isFix W z then
      (if portable then
        (if W = 64 then smallHash W ((z.natAbs % 2 ^ 32 + z.natAbs / 2 ^ 32) % 2 ^ 32 : Nat) else smallHash W (z.natAbs : Nat))
      else smallHash W z)
    else if portable then
      (if W = 64 then smallHash W (sumWords 64 (fun w => w % 2 ^ 32 + w / 2 ^ 32) z.natAbs z.natAbs % 2 ^ 64 : Nat)
       else smallHash W (sumWords W id z.natAbs z.natAbs % 2 ^ W : Nat))
    else smallHash W (sumWords W id z.natAbs z.natAbs % 2 ^ W : Nat))

/-- src/hash.c:145-157 `flonum_hash`. -/
def floHash (W : Nat) (portable : Bool) : Fl → Nat
  | .fin neg e m => combine W (intHash W portable m) (smallHash W (e * (if neg then -1 else 1)))
  | _ => 0

/-- The seeds in src/hash.c:236-341 `internal_uvector_hash`. -/
def uvecSeed : Kind → Nat
  | .s16 => 3499211612
  | .u16 => 3890346734
  | .s32 => 4161255391
  | .u32 => 3922919429
  | .s64 => 2715962298
  | .u64 => 1323567403
  | _ => 0

/-- The number of bytes of an element. -/
def kindBytes : Kind → Nat
  | .s8 | .u8 => 1
  | .s16 | .u16 => 2
  | .s32 | .u32 => 4
  | .s64 | .u64 => 8

/-- The number of the type in the enumeration `ScmUVectorType`. -/
def kindCode : Kind → Nat
  | .s8 => 0
  | .u8 => 1
  | .s16 => 2
  | .u16 => 3
  | .s32 => 4
  | .u32 => 5
  | .s64 => 6
  | .u64 => 7

/-- The bytes of an element in memory (little endian). -/
def elBytes : Nat → Nat → List Nat
  | 0, _ => []
  | n + 1, x => x % 256 :: elBytes n (x / 256)

/-- The bytes of a flonum in memory: the encoding is a parameter of the model, given by sign, biased exponent and mantissa. -/
def flBytes : Fl → List Nat
  | .nan => elBytes 8 0x7ff8000000000000
  | .inf neg => elBytes 8 ((if neg then 2 ^ 63 else 0) + 0x7ff0000000000000)
  | .fin neg e m => elBytes 8 ((if neg then 2 ^ 63 else 0) + (if m < 2 ^ 52 then m else (e + 1075).toNat * 2 ^ 52 + (m - 2 ^ 52)))

/-- src/hash.c:236-341 `internal_uvector_hash` for integer elements. -/
def uvecHash (E : Env) (W : Nat) (portable : Bool) (salt : Nat) (k : Kind) (l : List Nat) : Nat :=
  if portable then
    match k with
    | .s8 | .u8 => E.sip32 l (salt % 2 ^ 32) ((salt ^^^ kindCode k) % 2 ^ 32) % 2 ^ 32
    | .s64 | .u64 => l.foldl (fun r e => combine W r (smallHash W ((e / 2 ^ 32 ^^^ e) % 2 ^ W : Nat))) (smallHash W (uvecSeed k ^^^ salt : Nat))
    | _ => l.foldl (fun r e => combine W r (smallHash W (e : Nat))) (smallHash W (uvecSeed k ^^^ salt : Nat))
  else E.sipNative (l.flatMap (elBytes (kindBytes k))) salt salt % 2 ^ W

/-- The seed for `f64vector`s in src/hash.c:236-341 `internal_uvector_hash`. -/
def f64Seed : Nat := 2350294565

/-- src/hash.c:236-341 `internal_uvector_hash` for `f64vector`s. -/
def f64Hash (E : Env) (W : Nat) (portable : Bool) (salt : Nat) (l : List Fl) : Nat :=
  if portable then l.foldl (fun r e => combine W r (floHash W true e)) (smallHash W (f64Seed ^^^ salt : Nat))
  else E.sipNative (l.flatMap flBytes) salt salt % 2 ^ W

/-- src/hash.c:224-234 `internal_string_hash`. -/
def strHash (E : Env) (W : Nat) (portable : Bool) (salt : Nat) (b : List Nat) : Nat :=
  if portable then E.sip32 b (salt % 2 ^ 32) (salt % 2 ^ 32) % 2 ^ 32 else E.sipNative b salt salt % 2 ^ W

mutual
/-- src/hash.c:349-421 `equal_hash_common`.  The last argument is `none` for a call of the function, and the hash value so far in the loop over a list. -/
def hash (E : Env) (W : Nat) (portable : Bool) (salt : Nat) : D → Option Nat → Nat
  | .pair a d, acc => hash E W portable salt d (some (combine W (acc.getD 0) (hash E W portable salt a none)))
  | .int z, acc => fin W acc (intHash W portable z)
  | .rat n d, acc => fin W acc (mask W portable (combine W (intHash W portable n) (intHash W portable d)))
  | .flo f, acc => fin W acc (mask W portable (floHash W portable f))
  | .comp re im, acc => fin W acc (mask W portable (combine W (floHash W portable re) (floHash W portable im)))
  | .imm w, acc => fin W acc (smallHash W (w : Nat) % 2 ^ 32)
  | .str b, acc => fin W acc (strHash E W portable salt b)
  | .sym n, acc => fin W acc (if portable then strHash E W true salt n else smallHash W (E.addr n / 8 : Nat))
  | .vec l, acc => fin W acc (hashList E W portable salt l 0)
  | .uvec k l, acc => fin W acc (uvecHash E W portable salt k l)
  | .f64vec l, acc => fin W acc (f64Hash E W portable salt l)
where
  /-- The value of an object that is not a pair, or the end of the loop over a list. -/
  fin (W : Nat) : Option Nat → Nat → Nat
    | none, h => h
    | some acc, h => combine W acc h

/-- The loop over a vector. -/
def hashList (E : Env) (W : Nat) (portable : Bool) (salt : Nat) : List D → Nat → Nat
  | [], h => h
  | x :: l, h => hashList E W portable salt l (combine W h (hash E W portable salt x none))
end

/-- src/hash.c:443-446 `Scm_PortableHash`: `portable-hash`. -/
def portableHash (E : Env) (W : Nat) (salt : Nat) (x : D) : Nat := hash E W true salt x none % 2 ^ 32

/-- src/hash.c:449-452 `Scm_DefaultHash`: `default-hash`, the hash function of `equal?` hash tables. -/
def defaultHash (E : Env) (W : Nat) (salt : Nat) (x : D) : Nat := hash E W false salt x none % 2 ^ (W - 3)

/-- src/hash.c:213-222 `Scm_EqvHash` for numbers: the hash function of `eqv?` hash tables. -/
def eqvHash (E : Env) (W : Nat) (x : D) : Nat := hash E W false 0 x none % 2 ^ (W - 3)

/-- src/hash.c:494-509 `Scm_CombineHashValue`: `combine-hash-value`. -/
def combineHashValue (W : Nat) (a b : Nat) : Nat :=
  if W = 64 then
    if a ≥ 2 ^ 32 ∨ b ≥ 2 ^ 32 then combine W a b ^^^ (combine W a b / 2 ^ 32) else combine W a b % 2 ^ 32
  else combine W a b

/-! ### equality -/

/-- The C operator `==` on doubles; the decoded form of a number is unique except for the sign of zero. -/
def ceq : Fl → Fl → Bool
  | .inf a, .inf b => decide (a = b)
  | .fin a e m, .fin b e' m' => decide ((a = b ∧ e = e' ∧ m = m') ∨ (m = 0 ∧ m' = 0))
  | _, _ => false

/-- The sign bit. -/
def signbit : Fl → Bool
  | .nan => false
  | .inf a => a
  | .fin a _ _ => a

/-- Elementwise comparison of `f64vector`s: src/vector.c:777-800 `DEF_CMP` with `==`. -/
def ceqList : List Fl → List Fl → Bool
  | [], [] => true
  | a :: l, b :: l' => ceq a b && ceqList l l'
  | _, _ => false

mutual
/-- `equal?` on data (src/boolean.c:102-213 `Scm_EqualP`); numbers by `eqv?` (src/boolean.c:44-80 `Scm_EqvP`: flonums with the same sign bit, complex numbers with `=`). -/
def equal : D → D → Bool
  | .int z, .int z' => decide (z = z')
  | .rat n d, .rat n' d' => decide (n = n' ∧ d = d')
  | .flo f, .flo g => ceq f g && decide (signbit f = signbit g)
  | .comp a b, .comp a' b' => ceq a a' && ceq b b'
  | .imm w, .imm w' => decide (w = w')
  | .str s, .str s' => decide (s = s')
  | .sym s, .sym s' => decide (s = s')
  | .pair a d, .pair a' d' => equal a a' && equal d d'
  | .vec l, .vec l' => equalList l l'
  | .uvec k l, .uvec k' l' => decide (k = k' ∧ l = l')
  | .f64vec l, .f64vec l' => ceqList l l'
  | _, _ => false

/-- The loop over two vectors. -/
def equalList : List D → List D → Bool
  | [], [] => true
  | a :: l, b :: l' => equal a b && equalList l l'
  | _, _ => false
end

end Gauche.Hash
