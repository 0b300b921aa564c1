import Verif.Model.Hash
import Mathlib.Data.Int.ModEq
import Mathlib.Tactic.Ring
import Mathlib.Data.Nat.Digits.Defs
/-! Hash values on 32-bit and 64-bit platforms, and hash values of equal data. -/
namespace Gauche.Hash

theorem sumWords_fuel (W : Nat) (f : Nat → Nat) (hW : 0 < W) : ∀ (n m u : Nat), u ≤ n → u ≤ m → sumWords W f n u = sumWords W f m u
  | 0, m, u, h, _ => by
    obtain rfl : u = 0 := by omega
    cases m <;> simp [sumWords]
  | n + 1, 0, u, _, h => by
    obtain rfl : u = 0 := by omega
    simp [sumWords]
  | n + 1, m + 1, u, h1, h2 => by
    rw [sumWords, sumWords]
    by_cases e : u = 0
    · rw [if_pos e, if_pos e]
    · have : u / 2 ^ W < u := Nat.div_lt_self (by omega) (Nat.one_lt_two_pow (by omega))
      rw [if_neg e, if_neg e, sumWords_fuel W f hW n m (u / 2 ^ W) (by omega) (by omega)]

/-- The sum of the words. -/
theorem sumWords_step (W : Nat) (f : Nat → Nat) (hW : 0 < W) (h0 : f 0 = 0) (u : Nat) : sumWords W f u u = f (u % 2 ^ W) + sumWords W f (u / 2 ^ W) (u / 2 ^ W) := by
  cases u with
  | zero => simp [sumWords, h0]
  | succ u =>
    rw [sumWords, if_neg (by omega)]
    have : (u + 1) / 2 ^ W < u + 1 := Nat.div_lt_self (by omega) (Nat.one_lt_two_pow (by omega))
    rw [sumWords_fuel W f hW u _ _ (by omega) (Nat.le_refl _)]

theorem sum64_eq (u : Nat) : sumWords 64 (fun w => w % 2 ^ 32 + w / 2 ^ 32) u u = sumWords 32 id u u := by
  induction u using Nat.strongRecOn with
  | _ u ih =>
    by_cases h : u = 0
    · subst h; rfl
    · rw [sumWords_step 64 _ (by omega) (by decide) u, sumWords_step 32 _ (by omega) rfl u, sumWords_step 32 _ (by omega) rfl (u / 2 ^ 32),
        ih (u / 2 ^ 64) (Nat.div_lt_self (by omega) (by decide))]
      simp only [id]
      rw [Nat.div_div_eq_div_mul, show 2 ^ 32 * 2 ^ 32 = 2 ^ 64 by decide]
      omega

theorem sum32_small {u : Nat} (h : u < 2 ^ 32) : sumWords 32 id u u = u := by
  rw [sumWords_step 32 _ (by omega) rfl u, Nat.mod_eq_of_lt h, Nat.div_eq_of_lt h]
  rfl

theorem sum32_two {u : Nat} (h : u < 2 ^ 64) : sumWords 32 id u u = u % 2 ^ 32 + u / 2 ^ 32 := by
  rw [sumWords_step 32 _ (by omega) rfl u, sum32_small (by omega : u / 2 ^ 32 < 2 ^ 32)]
  rfl

theorem smallHash_mod {W : Nat} (hW : Width W) (v : Int) : smallHash W v % 2 ^ 32 = ((v * 2654435761) % 2 ^ 32).toNat := by
  unfold smallHash
  generalize v * 2654435761 = t
  rcases hW with h | h <;> subst h
  · omega
  · omega

theorem smallHash_congr {W W' : Nat} (hW : Width W) (hW' : Width W') {v v' : Int} (h : v % 2 ^ 32 = v' % 2 ^ 32) : smallHash W v % 2 ^ 32 = smallHash W' v' % 2 ^ 32 := by
  rw [smallHash_mod hW, smallHash_mod hW', Int.mul_emod, h, ← Int.mul_emod]

theorem combine_mod {W : Nat} (hW : Width W) (a b : Nat) : combine W a b % 2 ^ 32 = (a % 2 ^ 32 * 5 + b % 2 ^ 32) % 2 ^ 32 := by
  unfold combine
  rcases hW with h | h <;> subst h
  · omega
  · omega

theorem combine_congr {W W' : Nat} (hW : Width W) (hW' : Width W') {a a' b b' : Nat} (ha : a % 2 ^ 32 = a' % 2 ^ 32) (hb : b % 2 ^ 32 = b' % 2 ^ 32) :
    combine W a b % 2 ^ 32 = combine W' a' b' % 2 ^ 32 := by
  rw [combine_mod hW, combine_mod hW', ha, hb]

/-- The portable hash value of an exact integer. -/
theorem intHash_portable {W : Nat} (hW : Width W) (z : Int) : intHash W true z = sumWords 32 id z.natAbs z.natAbs * 2654435761 % 2 ^ 32 := by
  have key : ∀ n m : Nat, n % 2 ^ 32 = m % 2 ^ 32 → smallHash W (n : Int) % 2 ^ 32 = m * 2654435761 % 2 ^ 32 := by
    intro n m h
    rw [smallHash_mod hW]
    have e : ((n : Int) * 2654435761) % 2 ^ 32 = ((n * 2654435761 % 2 ^ 32 : Nat) : Int) := by push_cast; rfl
    rw [e, Int.toNat_natCast, Nat.mul_mod, h, ← Nat.mul_mod]
  unfold intHash mask
  rw [if_pos rfl]
  simp only [if_true]
  by_cases hf : isFix W z = true
  · rw [if_pos hf]
    have hf' := of_decide_eq_true hf
    rcases hW with h | h
    · subst h
      rw [if_neg (by decide)]
      refine key _ _ ?_
      rw [sum32_small (by norm_num at hf'; omega)]
    · subst h
      rw [if_pos rfl]
      refine key _ _ ?_
      rw [sum32_two (by norm_num at hf'; omega)]
      omega
  · rw [if_neg hf]
    rcases hW with h | h
    · subst h
      rw [if_neg (by decide)]
      exact key _ _ (by omega)
    · subst h
      rw [if_pos rfl, sum64_eq]
      exact key _ _ (by omega)

theorem mask_portable (W h : Nat) : mask W true h % 2 ^ 32 = h % 2 ^ 32 := by
  simp [mask]

theorem floHash_congr {W W' : Nat} (hW : Width W) (hW' : Width W') (f : Fl) : floHash W true f % 2 ^ 32 = floHash W' true f % 2 ^ 32 := by
  cases f with
  | nan => rfl
  | inf a => rfl
  | fin a e m =>
    unfold floHash
    exact combine_congr hW hW' (by rw [intHash_portable hW, intHash_portable hW']) (smallHash_congr hW hW' rfl)

theorem strHash_congr (E : Env) (W W' : Nat) (salt : Nat) (b : List Nat) : strHash E W true salt b = strHash E W' true (salt % 2 ^ 32) b := by
  simp [strHash]

theorem xor_mod32 (a b : Nat) : (a ^^^ b) % 2 ^ 32 = (a ^^^ b % 2 ^ 32) % 2 ^ 32 := by
  rw [Nat.xor_mod_two_pow, Nat.xor_mod_two_pow (a := a) (b := b % 2 ^ 32), Nat.mod_mod]

theorem xor_mod32' (a b : Nat) : (a ^^^ b) % 2 ^ 32 = (a % 2 ^ 32 ^^^ b) % 2 ^ 32 := by
  rw [Nat.xor_mod_two_pow, Nat.xor_mod_two_pow (a := a % 2 ^ 32) (b := b), Nat.mod_mod]

theorem smallHash_seed {W W' : Nat} (hW : Width W) (hW' : Width W') (seed salt : Nat) :
    smallHash W ((seed ^^^ salt : Nat) : Int) % 2 ^ 32 = smallHash W' ((seed ^^^ salt % 2 ^ 32 : Nat) : Int) % 2 ^ 32 := by
  refine smallHash_congr hW hW' ?_
  have := xor_mod32 seed salt
  omega

theorem foldl_congr {α : Type} {W W' : Nat} (hW : Width W) (hW' : Width W') (f g : α → Nat) (hfg : ∀ e, f e % 2 ^ 32 = g e % 2 ^ 32) : ∀ (l : List α) (a b : Nat),
    a % 2 ^ 32 = b % 2 ^ 32 → l.foldl (fun r e => combine W r (f e)) a % 2 ^ 32 = l.foldl (fun r e => combine W' r (g e)) b % 2 ^ 32
  | [], _, _, h => h
  | e :: l, a, b, h => foldl_congr hW hW' f g hfg l _ _ (combine_congr hW hW' h (hfg e))

theorem uvecHash_congr (E : Env) {W W' : Nat} (hW : Width W) (hW' : Width W') (salt : Nat) (k : Kind) (l : List Nat) :
    uvecHash E W true salt k l % 2 ^ 32 = uvecHash E W' true (salt % 2 ^ 32) k l % 2 ^ 32 := by
  have s8 : ∀ k, E.sip32 l (salt % 2 ^ 32) ((salt ^^^ kindCode k) % 2 ^ 32) % 2 ^ 32 =
      E.sip32 l (salt % 2 ^ 32 % 2 ^ 32) ((salt % 2 ^ 32 ^^^ kindCode k) % 2 ^ 32) % 2 ^ 32 := by
    intro k
    rw [xor_mod32' salt, Nat.mod_mod]
  have mid : ∀ k, l.foldl (fun r e => combine W r (smallHash W (e : Nat))) (smallHash W (uvecSeed k ^^^ salt : Nat)) % 2 ^ 32 =
      l.foldl (fun r e => combine W' r (smallHash W' (e : Nat))) (smallHash W' (uvecSeed k ^^^ salt % 2 ^ 32 : Nat)) % 2 ^ 32 := fun k =>
    foldl_congr hW hW' (fun e => smallHash W (e : Nat)) (fun e => smallHash W' (e : Nat)) (fun e => smallHash_congr hW hW' rfl) l _ _ (smallHash_seed hW hW' _ _)
  have big : ∀ k, l.foldl (fun r e => combine W r (smallHash W ((e / 2 ^ 32 ^^^ e) % 2 ^ W : Nat))) (smallHash W (uvecSeed k ^^^ salt : Nat)) % 2 ^ 32 =
      l.foldl (fun r e => combine W' r (smallHash W' ((e / 2 ^ 32 ^^^ e) % 2 ^ W' : Nat))) (smallHash W' (uvecSeed k ^^^ salt % 2 ^ 32 : Nat)) % 2 ^ 32 := fun k =>
    foldl_congr hW hW' (fun e => smallHash W ((e / 2 ^ 32 ^^^ e) % 2 ^ W : Nat)) (fun e => smallHash W' ((e / 2 ^ 32 ^^^ e) % 2 ^ W' : Nat))
      (fun e => smallHash_congr hW hW' (by
        rcases hW with h | h <;> rcases hW' with h' | h' <;> subst h <;> subst h' <;> omega)) l _ _ (smallHash_seed hW hW' _ _)
  unfold uvecHash
  rw [if_pos rfl, if_pos rfl]
  cases k
  · exact congrArg (· % 2 ^ 32) (s8 .s8)
  · exact congrArg (· % 2 ^ 32) (s8 .u8)
  · exact mid .s16
  · exact mid .u16
  · exact mid .s32
  · exact mid .u32
  · exact big .s64
  · exact big .u64

theorem f64Hash_congr (E : Env) {W W' : Nat} (hW : Width W) (hW' : Width W') (salt : Nat) (l : List Fl) :
    f64Hash E W true salt l % 2 ^ 32 = f64Hash E W' true (salt % 2 ^ 32) l % 2 ^ 32 := by
  unfold f64Hash
  rw [if_pos rfl, if_pos rfl]
  exact foldl_congr hW hW' _ _ (fun e => floHash_congr hW hW' e) l _ _ (smallHash_seed hW hW' _ _)

theorem fin_congr {W W' : Nat} (hW : Width W) (hW' : Width W') {acc acc' : Option Nat} {h h' : Nat} (ha : acc.map (· % 2 ^ 32) = acc'.map (· % 2 ^ 32))
    (hh : h % 2 ^ 32 = h' % 2 ^ 32) : hash.fin W acc h % 2 ^ 32 = hash.fin W' acc' h' % 2 ^ 32 := by
  cases acc with
  | none =>
    cases acc' with
    | none => exact hh
    | some b => cases ha
  | some a =>
    cases acc' with
    | none => cases ha
    | some b => exact combine_congr hW hW' (Option.some.inj ha) hh

mutual
theorem hash_congr (E : Env) {W W' : Nat} (hW : Width W) (hW' : Width W') (salt : Nat) : ∀ (x : D) (acc acc' : Option Nat),
    acc.map (· % 2 ^ 32) = acc'.map (· % 2 ^ 32) → hash E W true salt x acc % 2 ^ 32 = hash E W' true (salt % 2 ^ 32) x acc' % 2 ^ 32
  | .pair a d, acc, acc', h => by
    rw [hash, hash]
    refine hash_congr E hW hW' salt d _ _ ?_
    simp only [Option.map_some, Option.some.injEq]
    refine combine_congr hW hW' ?_ (hash_congr E hW hW' salt a none none rfl)
    cases acc with
    | none =>
      cases acc' with
      | none => rfl
      | some b => cases h
    | some a =>
      cases acc' with
      | none => cases h
      | some b => exact Option.some.inj h
  | .int z, acc, acc', h => by
    rw [hash, hash]; exact fin_congr hW hW' h (by rw [intHash_portable hW, intHash_portable hW'])
  | .rat n d, acc, acc', h => by
    rw [hash, hash]
    refine fin_congr hW hW' h ?_
    rw [mask_portable, mask_portable]
    exact combine_congr hW hW' (by rw [intHash_portable hW, intHash_portable hW']) (by rw [intHash_portable hW, intHash_portable hW'])
  | .flo f, acc, acc', h => by
    rw [hash, hash]
    refine fin_congr hW hW' h ?_
    rw [mask_portable, mask_portable]
    exact floHash_congr hW hW' f
  | .comp a b, acc, acc', h => by
    rw [hash, hash]
    refine fin_congr hW hW' h ?_
    rw [mask_portable, mask_portable]
    exact combine_congr hW hW' (floHash_congr hW hW' a) (floHash_congr hW hW' b)
  | .imm w, acc, acc', h => by
    rw [hash, hash]
    refine fin_congr hW hW' h ?_
    rw [Nat.mod_mod, Nat.mod_mod]
    exact smallHash_congr hW hW' rfl
  | .str b, acc, acc', h => by
    rw [hash, hash]; exact fin_congr hW hW' h (by rw [strHash_congr E W W'])
  | .sym n, acc, acc', h => by
    rw [hash, hash, if_pos rfl, if_pos rfl]; exact fin_congr hW hW' h (by rw [strHash_congr E W W'])
  | .vec l, acc, acc', h => by
    rw [hash, hash]; exact fin_congr hW hW' h (hashList_congr E hW hW' salt l 0 0 rfl)
  | .uvec k l, acc, acc', h => by
    rw [hash, hash]; exact fin_congr hW hW' h (uvecHash_congr E hW hW' salt k l)
  | .f64vec l, acc, acc', h => by
    rw [hash, hash]; exact fin_congr hW hW' h (f64Hash_congr E hW hW' salt l)

theorem hashList_congr (E : Env) {W W' : Nat} (hW : Width W) (hW' : Width W') (salt : Nat) : ∀ (l : List D) (a b : Nat),
    a % 2 ^ 32 = b % 2 ^ 32 → hashList E W true salt l a % 2 ^ 32 = hashList E W' true (salt % 2 ^ 32) l b % 2 ^ 32
  | [], _, _, h => h
  | x :: l, a, b, h => by
    rw [hashList, hashList]
    exact hashList_congr E hW hW' salt l _ _ (combine_congr hW hW' h (hash_congr E hW hW' salt x none none rfl))
end

/-! ### equal data -/

theorem ceq_eq {a b : Fl} (h : ceq a b = true) (h1 : a.ok = true) (h2 : b.ok = true) (hs : signbit a = signbit b ∨ (a.plain = true ∧ b.plain = true)) : a = b := by
  cases a with
  | nan => cases b <;> cases h
  | inf n => cases b <;> simp [ceq] at h; rw [h]
  | fin n e m =>
    cases b with
    | nan => cases h
    | inf n => cases h
    | fin n' e' m' =>
      simp only [ceq, decide_eq_true_eq] at h
      rcases h with ⟨h1, h2, h3⟩ | ⟨h3, h4⟩
      · rw [h1, h2, h3]
      · subst h3; subst h4
        simp [Fl.ok] at h1 h2
        subst h1; subst h2
        rcases hs with hs | ⟨hs, hs'⟩
        · simp [signbit] at hs; rw [hs]
        · simp [Fl.plain] at hs hs'; rw [hs, hs']

theorem ceqList_eq : ∀ (l l' : List Fl), ceqList l l' = true → l.all Fl.ok = true → l'.all Fl.ok = true → l.all Fl.plain = true → l'.all Fl.plain = true → l = l'
  | [], [], _, _, _, _, _ => rfl
  | [], _ :: _, h, _, _, _, _ => by cases h
  | _ :: _, [], h, _, _, _, _ => by cases h
  | a :: l, b :: l', h, h1, h2, h3, h4 => by
    simp only [ceqList, Bool.and_eq_true] at h
    simp only [List.all_cons, Bool.and_eq_true] at h1 h2 h3 h4
    rw [ceq_eq h.1 h1.1 h2.1 (.inr ⟨h3.1, h4.1⟩), ceqList_eq l l' h.2 h1.2 h2.2 h3.2 h4.2]

mutual
theorem equal_eq : ∀ (x y : D), equal x y = true → decoded x = true → decoded y = true → noNegZero x = true → noNegZero y = true → x = y
  | .pair a d, y, h, h1, h2, h3, h4 => by
    cases y <;> simp [equal] at h
    simp only [decoded, noNegZero, Bool.and_eq_true] at h1 h2 h3 h4
    rw [equal_eq a _ h.1 h1.1 h2.1 h3.1 h4.1, equal_eq d _ h.2 h1.2 h2.2 h3.2 h4.2]
  | .vec l, y, h, h1, h2, h3, h4 => by
    cases y <;> simp [equal] at h
    simp only [decoded, noNegZero] at h1 h2 h3 h4
    rw [equalList_eq l _ h h1 h2 h3 h4]
  | .int z, y, h, _, _, _, _ => by cases y <;> simp [equal] at h; rw [h]
  | .rat n d, y, h, _, _, _, _ => by cases y <;> simp [equal] at h; rw [h.1, h.2]
  | .flo f, y, h, h1, h2, _, _ => by
    cases y <;> simp [equal] at h
    rw [ceq_eq h.1 h1 h2 (.inl h.2)]
  | .comp a b, y, h, h1, h2, h3, h4 => by
    cases y <;> simp [equal] at h
    simp only [decoded, noNegZero, Bool.and_eq_true] at h1 h2 h3 h4
    rw [ceq_eq h.1 h1.1 h2.1 (.inr ⟨h3.1, h4.1⟩), ceq_eq h.2 h1.2 h2.2 (.inr ⟨h3.2, h4.2⟩)]
  | .imm w, y, h, _, _, _, _ => by cases y <;> simp [equal] at h; rw [h]
  | .str w, y, h, _, _, _, _ => by cases y <;> simp [equal] at h; rw [h]
  | .sym w, y, h, _, _, _, _ => by cases y <;> simp [equal] at h; rw [h]
  | .uvec k l, y, h, _, _, _, _ => by cases y <;> simp [equal] at h; rw [h.1, h.2]
  | .f64vec l, y, h, h1, h2, h3, h4 => by
    cases y <;> simp [equal] at h
    rw [ceqList_eq l _ h h1 h2 h3 h4]

theorem equalList_eq : ∀ (l l' : List D), equalList l l' = true → decodedList l = true → decodedList l' = true → noNegZeroList l = true → noNegZeroList l' = true → l = l'
  | [], l', h, _, _, _, _ => by cases l' <;> simp [equalList] at h; rfl
  | x :: l, l', h, h1, h2, h3, h4 => by
    cases l' <;> simp [equalList] at h
    simp only [decodedList, noNegZeroList, Bool.and_eq_true] at h1 h2 h3 h4
    rw [equal_eq x _ h.1 h1.1 h2.1 h3.1 h4.1, equalList_eq l _ h.2 h1.2 h2.2 h3.2 h4.2]
end

theorem f64Hash_one (E : Env) (W salt : Nat) (f : Fl) : f64Hash E W true salt [f] = combine W (smallHash W ((f64Seed ^^^ salt : Nat) : Int)) (floHash W true f) := by
  unfold f64Hash
  rw [if_pos rfl, List.foldl_cons, List.foldl_nil]

theorem portableHash_f64 (E : Env) (W salt : Nat) (f : Fl) : portableHash E W salt (.f64vec [f]) = f64Hash E W true salt [f] % 2 ^ 32 := by
  unfold portableHash
  rw [hash]
  simp only [hash.fin]

theorem combine_ne {W : Nat} (hW : Width W) (t a b x y : Nat) (ha : a % 2 ^ 32 = x % 2 ^ 32) (hb : b % 2 ^ 32 = y % 2 ^ 32) (h : x % 2 ^ 32 ≠ y % 2 ^ 32) :
    combine W t a % 2 ^ 32 ≠ combine W t b % 2 ^ 32 := by
  rw [combine_mod hW, combine_mod hW, ha, hb]
  omega

theorem sumWords_digits (u : Nat) : sumWords 32 id u u = (Nat.digits (2 ^ 32) u).sum := by
  induction u using Nat.strongRecOn with
  | _ u ih =>
    by_cases h : u = 0
    · subst h; rfl
    · rw [sumWords_step 32 _ (by omega) rfl u, ih (u / 2 ^ 32) (Nat.div_lt_self (by omega) (by decide)), Nat.digits_def' (b := 2 ^ 32) (by decide) (Nat.pos_of_ne_zero h), List.sum_cons]
      rfl

end Gauche.Hash
