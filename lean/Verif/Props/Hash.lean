import Verif.Proof.Hash
/-! C82: hash values of equal data, and hash values on different platforms. -/
namespace Gauche.Hash

/-- C82: `portable-hash` gives the same value on 32-bit and 64-bit platforms, for all data; only the low 32 bits of the salt count. -/
theorem C82_platform (E : Env) (salt : Nat) (x : D) : portableHash E 64 salt x = portableHash E 32 (salt % 2 ^ 32) x :=
  hash_congr E (.inr rfl) (.inl rfl) salt x none none rfl

/-- C82: the portable hash value of an exact integer is the sum of the 32-bit digits of its absolute value times 2654435761, modulo 2^32, on both platforms. -/
theorem C82_platform_integer (E : Env) {W : Nat} (hW : Width W) (salt : Nat) (z : Int) :
    portableHash E W salt (.int z) = (Nat.digits (2 ^ 32) z.natAbs).sum * 2654435761 % 2 ^ 32 := by
  unfold portableHash
  rw [hash]
  show intHash W true z % 2 ^ 32 = _
  rw [intHash_portable hW, Nat.mod_mod, sumWords_digits]

/-- C82: `combine-hash-value` of two 32-bit values is the same on both platforms. -/
theorem C82_platform_combine {a b : Nat} (ha : a < 2 ^ 32) (hb : b < 2 ^ 32) :
    combineHashValue 64 a b = (a * 5 + b) % 2 ^ 32 ∧ combineHashValue 32 a b = (a * 5 + b) % 2 ^ 32 := by
  unfold combineHashValue combine
  constructor
  · rw [if_pos rfl, if_neg (by omega)]; omega
  · rw [if_neg (by decide)]

/-- C82: data that are `equal?` have the same `default-hash`, `portable-hash` and (for numbers) `eqv?` hash, on both platforms, if no complex number and no `f64vector` in
them has a part that is a negative zero.  (Full statement: without this hypothesis; it is false, see `C82_bug_compnum` and `C82_bug_f64vector`.) -/
theorem C82_equal_hash_partial (E : Env) (W salt : Nat) {x y : D} (h : equal x y = true) (hx : decoded x = true) (hy : decoded y = true)
    (hnx : noNegZero x = true) (hny : noNegZero y = true) :
    defaultHash E W salt x = defaultHash E W salt y ∧ portableHash E W salt x = portableHash E W salt y ∧ eqvHash E W x = eqvHash E W y := by
  rw [equal_eq x y h hx hy hnx hny]
  exact ⟨rfl, rfl, rfl⟩

/-- `0.0`, `-0.0` and `1.0`. -/
def zero : Fl := .fin false (-1074) 0
/-- `-0.0`. -/
def negZero : Fl := .fin true (-1074) 0
/-- `1.0`. -/
def one : Fl := .fin false (-52) (2 ^ 52)

/-- C82 is false for complex numbers: `0.0+1.0i` and `-0.0+1.0i` are `eqv?` and `equal?`, but all their hash values differ: a hash table with the key `0.0+1.0i` does not
find `-0.0+1.0i` (unless the buckets happen to be the same). -/
theorem C82_bug_compnum (E : Env) (salt : Nat) : equal (.comp zero one) (.comp negZero one) = true ∧
    eqvHash E 64 (.comp zero one) ≠ eqvHash E 64 (.comp negZero one) ∧
    defaultHash E 64 salt (.comp zero one) ≠ defaultHash E 64 salt (.comp negZero one) ∧
    portableHash E 64 salt (.comp zero one) ≠ portableHash E 64 salt (.comp negZero one) := by
  have h1 : ∀ s, hash E 64 false s (.comp zero one) none % 2 ^ (64 - 3) ≠ hash E 64 false s (.comp negZero one) none % 2 ^ (64 - 3) := by
    intro s
    rw [hash, hash]
    show mask 64 false (combine 64 (floHash 64 false zero) (floHash 64 false one)) % 2 ^ 61 ≠ mask 64 false (combine 64 (floHash 64 false negZero) (floHash 64 false one)) % 2 ^ 61
    decide +kernel
  refine ⟨by decide +kernel, h1 0, h1 salt, ?_⟩
  unfold portableHash
  rw [hash, hash]
  show mask 64 true (combine 64 (floHash 64 true zero) (floHash 64 true one)) % 2 ^ 32 ≠ mask 64 true (combine 64 (floHash 64 true negZero) (floHash 64 true one)) % 2 ^ 32
  decide +kernel

/-- C82 is false for uniform vectors of flonums: `#f64(0.0)` and `#f64(-0.0)` are `equal?`, but their portable hash values differ, and the default hash is computed from
different bytes. -/
theorem C82_bug_f64vector (E : Env) (salt : Nat) : equal (.f64vec [zero]) (.f64vec [negZero]) = true ∧
    portableHash E 64 salt (.f64vec [zero]) ≠ portableHash E 64 salt (.f64vec [negZero]) ∧
    defaultHash E 64 salt (.f64vec [zero]) = E.sipNative [0, 0, 0, 0, 0, 0, 0, 0] salt salt % 2 ^ 64 % 2 ^ 61 ∧
    defaultHash E 64 salt (.f64vec [negZero]) = E.sipNative [0, 0, 0, 0, 0, 0, 0, 128] salt salt % 2 ^ 64 % 2 ^ 61 := by
  have b1 : [zero].flatMap flBytes = [0, 0, 0, 0, 0, 0, 0, 0] := by decide +kernel
  have b2 : [negZero].flatMap flBytes = [0, 0, 0, 0, 0, 0, 0, 128] := by decide +kernel
  have hd : ∀ l, defaultHash E 64 salt (.f64vec l) = E.sipNative (l.flatMap flBytes) salt salt % 2 ^ 64 % 2 ^ 61 := by
    intro l
    unfold defaultHash
    rw [hash]
    simp only [hash.fin, f64Hash, Bool.false_eq_true, if_false]
  have e1 : floHash 64 true zero % 2 ^ 32 = 994277230 % 2 ^ 32 := by decide +kernel
  have e2 : floHash 64 true negZero % 2 ^ 32 = 3300690066 % 2 ^ 32 := by decide +kernel
  refine ⟨by decide +kernel, ?_, by rw [hd, b1], by rw [hd, b2]⟩
  rw [portableHash_f64, portableHash_f64, f64Hash_one, f64Hash_one]
  exact combine_ne (.inr rfl) _ _ _ _ _ e1 e2 (by decide)

/-! ### the hypotheses are met -/

/-- `(1/2 "ab" #(2.5 x) . #u16(1 65535))`. -/
def exD : D := .pair (.rat 1 2) (.pair (.str [97, 98]) (.pair (.vec [.flo (.fin false (-51) (5 * 2 ^ 50)), .sym [120]]) (.uvec .u16 [1, 65535])))

example : equal exD exD = true ∧ decoded exD = true ∧ noNegZero exD = true := by decide +kernel
/-- `-0.0` alone is not `equal?` to `0.0`. -/
example : equal (.flo zero) (.flo negZero) = false := by decide +kernel
/-- The hash value of 2^40 + 3 on a 32-bit platform, where it is a bignum, and on a 64-bit platform. -/
example : intHash 32 true (2 ^ 33 + 3) = intHash 64 true (2 ^ 33 + 3) ∧ isFix 32 (2 ^ 33 + 3) = false ∧ isFix 64 (2 ^ 33 + 3) = true :=
  ⟨by rw [intHash_portable (.inl rfl), intHash_portable (.inr rfl)], by decide +kernel, by decide +kernel⟩

end Gauche.Hash
