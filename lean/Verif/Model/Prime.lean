import Verif.Model.NumUtil
/-
Model of lib/math/prime.scm: the segmented sieve, the Miller-Rabin test, the Jacobi symbol, naive factorization with its memo table,
the divisor found by the Monte Carlo method, and the totients.  Integers are `Nat` or `Int`.  The Lucas-Selfridge test is not modelled.
-/
namespace Gauche.Prime
open Gauche.NumUtil

/- ### The sieve -/

/-- lib/math/prime.scm:59-62 `take-first-term`: the first term of `a0, a0+d, ...` that is at least `lb`. -/
def takeFirstTerm (a0 d lb : Nat) : Nat := if lb ≤ a0 then a0 else a0 + d * ((lb - a0 + d - 1) / d)

/-- ext/uvector/uvlib.scm.tmpl:120-152 `u8vector-multi-copy!` with the one-element source of zeros: clear the elements `di`, `di + stride`, ...  (A stride of
zero, with which the C loop would not end, does not occur and is the identity here.) -/
def multiClear (v : List Bool) (di stride : Nat) : List Bool :=
  if di < v.length ∧ 0 < stride then multiClear (v.set di false) (di + stride) stride else v
termination_by v.length - di
decreasing_by simp; omega

/-- lib/math/prime.scm:77-86 `segment-sieve!`: `sieve!` with the list of primes after 2.  The sequence of primes is infinite in the program; the
model runs with the primes known so far and stops where they end.  `integer->index` is the halving. -/
def segmentSieve (v : List Bool) (start root : Nat) : List Nat → List Bool
  | [] => v
  | p :: qs =>
    if p ≤ root then segmentSieve (multiClear v (takeFirstTerm (p * p / 2) p (start / 2) - start / 2) p) start root qs
    else v

/-- lib/math/prime.scm:88-95 `bytevec->generator`: all the values it generates, from index `j`. -/
def sieveValues (start : Nat) : List Bool → Nat → List Nat
  | [], _ => []
  | b :: v, j => if b then (j * 2 + start) :: sieveValues start v (j + 1) else sieveValues start v (j + 1)

/-- `*segment-size*`, `(->even #e5e4)`. -/
def segmentSize : Nat := 50000

/-- `*first-segment-start*`, `(->odd (ceiling->exact (expt *segment-size* 0.6)))`: 50000 to the power 0.6 is 659.75... -/
def firstSegmentStart : Nat := 661

/-- lib/math/prime.scm:97-100 `segment-prime-generator`.  The floor of the square root is `Nat.sqrt` (C35). -/
def segmentPrimes (size start : Nat) (primes : List Nat) : List Nat :=
  sieveValues start (segmentSieve (List.replicate (size / 2) true) start (Nat.sqrt (start + size - 1)) primes.tail) 0

/-- lib/math/prime.scm:106-110 `*small-primes*`, below `bound`. -/
def smallPrimes (bound : Nat) : List Nat :=
  (List.range bound).filter fun n => 2 ≤ n && (List.range (Nat.sqrt n + 1)).all fun j => j < 2 || 0 < n % j

/-- lib/math/prime.scm:113-125 `primes`: the part of the sequence generated with the small primes below `first` and `k` segments. -/
def primesUpTo (size first : Nat) : Nat → List Nat
  | 0 => smallPrimes first
  | k + 1 => primesUpTo size first k ++ segmentPrimes size (first + size * k) (primesUpTo size first k)

/- ### Primality -/

/-- src/libnum.scm:866-875 `twos-exponent-factor` for a positive number: the exponent of 2. -/
def twosExponentFactor (n : Nat) : Nat := if h : n = 0 then 0 else if n % 2 = 1 then 0 else 1 + twosExponentFactor (n / 2)
termination_by n

/-- The loop of lib/math/prime.scm:142-151 `miller-rabin-test`; `s - i` rounds are left. -/
def mrLoop (n : Nat) : Nat → Nat → Bool
  | 0, _ => false
  | s + 1, x => if x = n - 1 then true else mrLoop n s (x ^ 2 % n)

/-- lib/math/prime.scm:142-151 `miller-rabin-test`.  `expt-mod` is the power modulo `n` (C51). -/
def millerRabinTest (a n : Nat) : Bool :=
  let s := twosExponentFactor (n - 1)
  let d := (n - 1) / 2 ^ s
  let x := a ^ d % n
  if x = 1 then true else mrLoop n s x

/-- lib/math/prime.scm:156-164 `*deterministic-witnesses*` -/
def deterministicWitnesses : List (Nat × List Nat) :=
  [(1373653, [2, 3]), (9080191, [31, 73]), (4759123141, [2, 7, 61]), (2152302898747, [2, 3, 5, 7, 11]),
   (3474749660383, [2, 3, 5, 7, 11, 13]), (341550071728321, [2, 3, 5, 7, 11, 13, 17])]

/-- lib/math/prime.scm:166-167 `*small-prime-bound*` -/
def smallPrimeBound : Nat := 341550071728321

/-- The first 25 elements of `*primes*`. -/
def first25 : List Nat := [2, 3, 5, 7, 11, 13, 17, 19, 23, 29, 31, 37, 41, 43, 47, 53, 59, 61, 67, 71, 73, 79, 83, 89, 97]

/-- lib/math/prime.scm:174-179 `small-prime?` -/
def smallPrime (n : Nat) : Bool :=
  if n ≤ 100 then first25.contains n
  else if n % 2 = 0 then false
  else
    match deterministicWitnesses.find? fun p => n < p.1 with
    | none => false
    | some p => p.2.all fun a => millerRabinTest a n

/-- lib/math/prime.scm:189-203 `miller-rabin-prime?`, `n > 1`; `bases` are the numbers answered by `rand`. -/
def millerRabinPrime (n : Nat) (bases : List Nat) : Bool :=
  if n % 2 = 0 then false
  else if n < smallPrimeBound then smallPrime n
  else bases.all fun a => millerRabinTest a n

/- ### The Jacobi symbol -/

theorem twosExponentFactor_pos (a : Nat) (h0 : a ≠ 0) (h : a % 2 = 0) : 0 < twosExponentFactor a := by
  unfold twosExponentFactor; rw [dif_neg h0, if_neg (by omega)]; omega

/-- `J` in lib/math/prime.scm:211-228 `jacobi`. -/
def jacobiLoop (a n : Nat) (s : Int) : Int :=
  if n = 1 then s
  else if h : a = 0 then 0
  else if h2 : a % 2 = 1 then
    if a % 4 = 3 ∧ n % 4 = 3 then jacobiLoop (n % a) a (-s) else jacobiLoop (n % a) a s
  else
    let k := twosExponentFactor a
    if (n % 8 = 3 ∨ n % 8 = 5) ∧ k % 2 = 1 then jacobiLoop (a / 2 ^ k) n (-s) else jacobiLoop (a / 2 ^ k) n s
termination_by a
decreasing_by
  all_goals first
  | exact Nat.mod_lt _ (by omega)
  | exact Nat.div_lt_self (by omega) (Nat.one_lt_two_pow (twosExponentFactor_pos a h (by omega)).ne')

/-- lib/math/prime.scm:211-228 `jacobi`; `none` is the error for an even `n`. -/
def jacobi (a : Int) (n : Nat) : Option Int :=
  if n % 2 = 0 then none
  else if a < 0 then some (jacobiLoop (-a).toNat n (if n % 4 = 1 then 1 else -1))
  else some (jacobiLoop a.toNat n 1)

/- ### Factorization -/

/-- The memo table: index to factors. -/
abbrev Memo := Nat → Option (List Nat)

/-- `*small-factorize-table-index-limit*` is `(50000-1)/2`: the comparison `i < 49999/2` of an integer is `2 i < 49999`. -/
def memoizable (i : Nat) : Bool := 2 * i < 49999

/-- `memo!` in lib/math/prime.scm:311-335 `naive-factorize-1`. -/
def memoSet (m : Memo) (i : Nat) (v : List Nat) : Memo := if memoizable i then fun j => if j = i then some v else m j else m

/-- `p` is above the divisor limit; `none` is the default, positive infinity. -/
def beyond (limit : Option Nat) (p : Nat) : Bool :=
  match limit with
  | none => false
  | some l => l < p

/-- `try` and `loop` in lib/math/prime.scm:311-335 `naive-factorize-1`.  `prime k` is the `k`-th element of `*primes*` and `sp` is `small-prime?`.  With `fresh` the
memo table and `small-prime?` are consulted (an iteration of `try`), without it this is an iteration of `loop`.  The result is
the factors and the new memo table, `none` if `fuel` is exhausted. -/
def factor1 (prime : Nat → Nat) (sp : Nat → Bool) (limit : Option Nat) : Nat → Bool → Nat → Nat → Memo → Option (List Nat × Memo)
  | 0, _, _, _, _ => none
  | fuel + 1, fresh, n, k, m =>
    let i := (n - 1) / 2
    let loop (_ : Unit) : Option (List Nat × Memo) :=
      let p := prime k
      if beyond limit p then some ([n], m)
      else if n < p * p then some ([n], memoSet m i [n])
      else if n = p * p then some ([p, p], memoSet m i [p, p])
      else if n % p = 0 then
        match factor1 prime sp limit fuel true (n / p) k m with
        | none => none
        | some (l, m') => some (p :: l, memoSet m' i (p :: l))
      else factor1 prime sp limit fuel false n (k + 1) m
    if fresh then
      match (if memoizable i then m i else none) with
      | some l => some (l, m)
      | none => if sp n then some ([n], memoSet m i [n]) else loop ()
    else loop ()

/-- lib/math/prime.scm:338-357 `naive-factorize`, `n ≥ 1`. -/
def naiveFactorize (prime : Nat → Nat) (sp : Nat → Bool) (limit : Option Nat) (fuel n : Nat) (m : Memo) : Option (List Nat × Memo) :=
  if n = 1 then some ([], m)
  else if n ≤ 3 then some ([n], m)
  else
    let k := twosExponentFactor n
    if k = 0 then factor1 prime sp limit fuel true n 0 m
    else
      let q := n / 2 ^ k
      if q = 1 then some (List.replicate k 2, m)
      else if q ≤ 3 then some (List.replicate k 2 ++ [q], m)
      else
        match factor1 prime sp limit fuel true q 0 m with
        | none => none
        | some (l, m') => some (List.replicate k 2 ++ l, m')

/-- libsrc/gauche/sequence.scm:464-482 `group-sequence` and the `map` of lib/math/prime.scm:456-458 `grouped-factorize`: runs of equal elements and their length. -/
def group : List Nat → List (Nat × Nat)
  | [] => []
  | p :: ps =>
    match group ps with
    | (q, k) :: r => if p = q then (q, k + 1) :: r else (p, 1) :: (q, k) :: r
    | [] => [(p, 1)]

/-- src/libnum.scm:877-879 `twos-exponent`: the exponent of a power of two. -/
def twosExponent (n : Nat) : Option Nat := if n = 2 ^ twosExponentFactor n then some (twosExponentFactor n) else none

/-- lib/math/prime.scm:465-472 `totient`; `factors` is the factorizer. -/
def totient (factors : Nat → List Nat) (n : Nat) : Nat :=
  if n ≤ 2 then 1
  else
    match twosExponent n with
    | some k => 2 ^ (k - 1)
    | none => (group (factors n)).foldl (fun phi pk => phi * pk.1 ^ (pk.2 - 1) * (pk.1 - 1)) 1

/-- lib/math/prime.scm:479-490 `reduced-totient` -/
def reducedTotient (factors : Nat → List Nat) (n : Nat) : Nat :=
  if n = 1 ∨ n = 2 then 1
  else if n = 4 then 2
  else
    let k := twosExponentFactor n
    let r := n / 2 ^ k
    if r = 1 ∧ k > 2 then 2 ^ (k - 2)
    else (group (factors r)).foldl (fun l pk => Nat.lcm l (pk.1 ^ (pk.2 - 1) * (pk.1 - 1))) (if k > 2 then 2 ^ (k - 2) else 1)

end Gauche.Prime
