import Verif.Spec.Radix
import Mathlib.Data.List.Induction
import Mathlib.Tactic.Ring
import Mathlib.Tactic.NormNum
import Mathlib.Tactic.Linarith
namespace Gauche.Radix

theorem ofBE_append (B : Nat) (a b : List Nat) : ofBE B (a ++ b) = ofBE B a * B ^ b.length + ofBE B b := by
  have key : ∀ (b : List Nat) (x : Nat), b.foldl (fun a d => a * B + d) x = x * B ^ b.length + b.foldl (fun a d => a * B + d) 0 := by
    intro b
    induction b with
    | nil => intro x; simp
    | cons d b ih =>
      intro x
      rw [List.foldl_cons, List.foldl_cons, ih, ih (0 * B + d), List.length_cons, Nat.pow_succ]
      ring
  unfold ofBE
  rw [List.foldl_append, key]

theorem ofBE_lt {B : Nat} : ∀ {ds : List Nat}, (∀ d ∈ ds, d < B) → ofBE B ds < B ^ ds.length := by
  intro ds
  induction ds using List.reverseRecOn with
  | nil => intro _; simp [ofBE]
  | append_singleton ds d ih =>
    intro h
    rw [ofBE_append]
    have h1 := ih (fun x hx => h x (by simp [hx]))
    have h2 : d < B := h d (by simp)
    have h3 : ofBE B [d] = d := by simp [ofBE]
    rw [h3, List.length_append, List.length_singleton, Nat.pow_one, Nat.pow_succ]
    calc ofBE B ds * B + d < ofBE B ds * B + B := by omega
      _ = (ofBE B ds + 1) * B := by ring
      _ ≤ B ^ ds.length * B := Nat.mul_le_mul_right _ h1

theorem length_toBE (B : Nat) : ∀ n x, (toBE B n x).length = n := by
  intro n
  induction n with
  | zero => intro x; rfl
  | succ n ih => intro x; rw [toBE, List.length_cons, ih]

theorem toBE_lt {B : Nat} (hB : 0 < B) : ∀ n x, ∀ d ∈ toBE B n x, d < B := by
  intro n
  induction n with
  | zero => intro x d h; simp [toBE] at h
  | succ n ih =>
    intro x d h
    rw [toBE] at h
    rcases List.mem_cons.1 h with rfl | h
    · exact Nat.mod_lt _ hB
    · exact ih _ _ h

theorem toBE_add {B : Nat} (n m x : Nat) : toBE B (n + m) x = toBE B n (x / B ^ m) ++ toBE B m x := by
  induction n with
  | zero => rw [Nat.zero_add]; rfl
  | succ n ih =>
    rw [Nat.succ_add, toBE, toBE, ih, List.cons_append, Nat.div_div_eq_div_mul, ← Nat.pow_add, Nat.add_comm m n]

/-- Only the low part matters. -/
theorem toBE_mod {B : Nat} (n x : Nat) : toBE B n (x % B ^ n) = toBE B n x := by
  have key : ∀ n m, n ≤ m → ∀ x, toBE B n (x % B ^ m) = toBE B n x := by
    intro n
    induction n with
    | zero => intro m _ x; rfl
    | succ n ih =>
      intro m h x
      rw [toBE, toBE, ih m (by omega)]
      congr 1
      obtain ⟨j, rfl⟩ : ∃ j, m = n + (j + 1) := ⟨m - n - 1, by omega⟩
      rw [Nat.pow_add, Nat.mod_mul_right_div_self, Nat.pow_succ, Nat.mod_mul_left_mod]
  exact key n n (Nat.le_refl _) x

theorem toBE_block {B : Nat} (n m x y : Nat) (hy : y < B ^ m) :
    toBE B (n + m) (x * B ^ m + y) = toBE B n x ++ toBE B m y := by
  have hp : 0 < B ^ m := by omega
  rw [toBE_add]
  congr 1
  · rw [Nat.mul_comm x, Nat.mul_add_div hp, Nat.div_eq_of_lt hy, Nat.add_zero]
  · rw [← toBE_mod m (x * B ^ m + y), Nat.mul_comm x, Nat.mul_add_mod, Nat.mod_eq_of_lt hy]

theorem toBE_ofBE {B : Nat} : ∀ {ds : List Nat}, (∀ d ∈ ds, d < B) → toBE B ds.length (ofBE B ds) = ds := by
  intro ds
  induction ds using List.reverseRecOn with
  | nil => intro _; rfl
  | append_singleton ds d ih =>
    intro h
    have h2 : d < B := h d (by simp)
    have h3 : ofBE B [d] = d := by simp [ofBE]
    rw [ofBE_append, h3, List.length_append, List.length_singleton, toBE_block _ _ _ _ (by rw [Nat.pow_one]; exact h2),
      ih (fun x hx => h x (by simp [hx])), toBE, toBE, Nat.pow_zero, Nat.div_one, Nat.mod_eq_of_lt h2]

theorem ofBE_toBE {B : Nat} (hB : 0 < B) (n x : Nat) : ofBE B (toBE B n x) = x % B ^ n := by
  induction n generalizing x with
  | zero => simp [toBE, ofBE, Nat.mod_one]
  | succ n ih =>
    have : toBE B (n + 1) x = [x / B ^ n % B] ++ toBE B n x := rfl
    rw [this, ofBE_append, ih, length_toBE]
    have h3 : ofBE B [x / B ^ n % B] = x / B ^ n % B := by simp [ofBE]
    rw [h3, Nat.pow_succ, Nat.mod_mul, Nat.mul_comm, Nat.add_comm]

theorem pow256 (n : Nat) : 256 ^ n = 2 ^ (8 * n) := by rw [Nat.pow_mul]

theorem decBytes_block {k : Nat} (blk r : List Nat) (n : Nat) (hn : k * blk.length = 8 * n) (hr : ∀ d ∈ r, d < 2 ^ k) :
    decBytes k (blk ++ r) = toBE 256 n (ofBE (2 ^ k) blk) ++ decBytes k r := by
  unfold decBytes
  rw [ofBE_append, List.length_append, Nat.mul_add, hn]
  have hlt := ofBE_lt hr
  generalize ofBE (2 ^ k) r = y at *
  generalize ofBE (2 ^ k) blk = x at *
  rw [← Nat.pow_mul] at *
  generalize k * r.length = m at *
  have h1 : (8 * n + m) / 8 = n + m / 8 := by omega
  have h2 : (8 * n + m) % 8 = m % 8 := by omega
  rw [h1, h2]
  have h3 : m = 8 * (m / 8) + m % 8 := by omega
  generalize m / 8 = q at *
  generalize m % 8 = p at *
  subst h3
  have h4 : (x * 2 ^ (8 * q + p) + y) / 2 ^ p = x * 256 ^ q + y / 2 ^ p := by
    rw [Nat.pow_add, ← Nat.mul_assoc, Nat.mul_comm _ (2 ^ p), Nat.mul_add_div (Nat.two_pow_pos p), pow256]
  rw [h4]
  apply toBE_block
  rw [pow256]
  apply Nat.div_lt_of_lt_mul
  rw [← Nat.pow_add, Nat.add_comm]; exact hlt

theorem encLen_add {k : Nat} (hk : 0 < k) (a b n : Nat) (h : 8 * a = k * n) : encLen k (a + b) = n + encLen k b := by
  unfold encLen
  have : 8 * (a + b) + k - 1 = (8 * b + k - 1) + k * n := by omega
  rw [this, Nat.add_mul_div_left _ _ hk, Nat.add_comm]

theorem encLen_spec {k : Nat} (hk : 0 < k) (n : Nat) : 8 * n ≤ k * encLen k n ∧ k * encLen k n < 8 * n + k := by
  unfold encLen
  have h1 := Nat.div_add_mod (8 * n + k - 1) k
  have h2 := Nat.mod_lt (8 * n + k - 1) hk
  generalize (8 * n + k - 1) / k = q at *
  generalize (8 * n + k - 1) % k = r at *
  omega

theorem encDigits_block {k : Nat} (hk : 0 < k) (blk r : List Nat) (n : Nat) (hn : 8 * blk.length = k * n)
    (hr : ∀ d ∈ r, d < 256) :
    encDigits k (blk ++ r) = toBE (2 ^ k) n (ofBE 256 blk) ++ encDigits k r := by
  unfold encDigits
  rw [ofBE_append, List.length_append, encLen_add hk _ _ _ hn]
  have hlt := ofBE_lt hr
  have hs := encLen_spec hk r.length
  rw [pow256] at *
  generalize ofBE 256 r = y at *
  generalize ofBE 256 blk = x at *
  generalize encLen k r.length = q at *
  rw [Nat.mul_add, Nat.mul_add, hn]
  have h1 : k * n + k * q - (k * n + 8 * r.length) = k * q - 8 * r.length := by omega
  rw [h1]
  have h2 : (x * 2 ^ (8 * r.length) + y) * 2 ^ (k * q - 8 * r.length) = x * (2 ^ k) ^ q + y * 2 ^ (k * q - 8 * r.length) := by
    rw [Nat.add_mul, Nat.mul_assoc, ← Nat.pow_add, ← Nat.pow_mul]
    congr 3; omega
  rw [h2]
  apply toBE_block
  rw [← Nat.pow_mul]
  calc y * 2 ^ (k * q - 8 * r.length) < 2 ^ (8 * r.length) * 2 ^ (k * q - 8 * r.length) :=
        Nat.mul_lt_mul_of_pos_right hlt (Nat.two_pow_pos _)
    _ = 2 ^ (k * q) := by rw [← Nat.pow_add]; congr 1; omega

/-- Decoding the digits of a byte sequence gives the byte sequence. -/
theorem dec_enc {k : Nat} (hk : 0 < k) (hk8 : k ≤ 8) {bs : List Nat} (hb : ∀ b ∈ bs, b < 256) :
    decBytes k (encDigits k bs) = bs := by
  unfold decBytes encDigits
  rw [length_toBE]
  have hs := encLen_spec hk bs.length
  have hlt := ofBE_lt hb
  rw [pow256] at hlt
  have hpos : 0 < 2 ^ k := Nat.two_pow_pos k
  rw [ofBE_toBE hpos, ← Nat.pow_mul]
  have h1 := toBE_ofBE hb
  generalize ofBE 256 bs = x at *
  generalize k * encLen k bs.length = m at *
  have h2 : m / 8 = bs.length := by omega
  have h3 : m - 8 * bs.length = m % 8 := by omega
  rw [h2, h3]
  have h4 : x * 2 ^ (m % 8) < 2 ^ m := by
    calc x * 2 ^ (m % 8) < 2 ^ (8 * bs.length) * 2 ^ (m % 8) := Nat.mul_lt_mul_of_pos_right hlt (Nat.two_pow_pos _)
      _ = 2 ^ m := by rw [← Nat.pow_add]; congr 1; omega
  rw [Nat.mod_eq_of_lt h4, Nat.mul_div_cancel _ (Nat.two_pow_pos _), h1]

theorem encDigits_lt (k : Nat) (bs : List Nat) : ∀ d ∈ encDigits k bs, d < 2 ^ k :=
  toBE_lt (Nat.two_pow_pos k) _ _

theorem length_encDigits (k : Nat) (bs : List Nat) : (encDigits k bs).length = encLen k bs.length := length_toBE _ _ _

end Gauche.Radix
