import Verif.Proof.BignumDiv
/-
Short division, remainder by a word, and the division entry points.
-/
namespace Gauche.Bignum

/-! ### `bignum_sdiv` -/

/-- Value of a digit vector given most significant word first, with `w` in front. -/
theorem val_reverse_cons (w : Nat) (ws : List Nat) : val (w :: ws).reverse = val ws.reverse + W64 ^ ws.length * w := by
  rw [List.reverse_cons, val_append]; simp [val]

theorem half_step {a d x : Nat} (ha : a < d) (hd : d < H32) (hx : x < H32) :
    (a * H32 % W64 + x) % W64 = a * H32 + x ∧ a * H32 + x < d * H32 := by
  constructor <;> omega

theorem sdivGo_spec {d : Nat} (hd0 : 0 < d) (hd : d < H32) (ws : List Nat) : ∀ (q0 w : Nat), Words ws → w / d + q0 < W64 →
    (sdivGo d q0 w ws).1.length = ws.length + 1 ∧ Words (sdivGo d q0 w ws).1 ∧
    (sdivGo d q0 w ws).2 = (w * W64 ^ ws.length + val ws.reverse) % d ∧
    val (sdivGo d q0 w ws).1.reverse = (w * W64 ^ ws.length + val ws.reverse) / d + q0 * W64 ^ ws.length := by
  induction ws with
  | nil =>
    intro q0 w _ h
    refine ⟨rfl, ?_, ?_, ?_⟩
    · intro z hz; simp [sdivGo] at hz; omega
    · simp [sdivGo, val]
    · simp [sdivGo, val]; omega
  | cons w' ws ih =>
    intro q0 w hws h
    rw [words_cons] at hws
    obtain ⟨hw', hws⟩ := hws
    obtain ⟨e1, hr1⟩ := half_step (x := w' / H32) (Nat.mod_lt w hd0) hd (by omega)
    obtain ⟨r1, hr1e⟩ : ∃ r1, r1 = (w % d) * H32 + w' / H32 := ⟨_, rfl⟩
    rw [← hr1e] at hr1 e1
    obtain ⟨e2, hr2⟩ := half_step (x := w' % H32) (Nat.mod_lt r1 hd0) hd (by omega)
    have hq1 : r1 / d < H32 := by rw [Nat.div_lt_iff_lt_mul hd0, Nat.mul_comm]; exact hr1
    have e3 : r1 / d * H32 % W64 = r1 / d * H32 := by
      clear e1 e2 ih; generalize r1 / d = z at *; omega
    have e4 : hi w' = w' / H32 := by unfold hi; clear e1 e2; omega
    rw [sdivGo]
    dsimp only
    rw [e4, e1, show lo w' = w' % H32 from rfl, e2, e3]
    clear e1 e2 e3 e4
    have hw2 : ((r1 % d) * H32 + w' % H32) / d < H32 := by
      rw [Nat.div_lt_iff_lt_mul hd0, Nat.mul_comm H32 d]; exact hr2
    obtain ⟨i1, i2, i3, i4⟩ := ih (r1 / d * H32) ((r1 % d) * H32 + w' % H32) hws (by omega)
    -- the number so far
    have key : w * W64 + w' = d * (w / d * W64 + r1 / d * H32) + ((r1 % d) * H32 + w' % H32) := by
      have a1 := Nat.div_add_mod w d
      have a2 := Nat.div_add_mod r1 d
      have a3 : w' = w' / H32 * H32 + w' % H32 := by omega
      have a4 : r1 % d = r1 - d * (r1 / d) := by omega
      calc w * W64 + w' = (d * (w / d) + w % d) * W64 + (w' / H32 * H32 + w' % H32) := by rw [a1, ← a3]
        _ = d * (w / d) * W64 + ((w % d) * H32 + w' / H32) * H32 + w' % H32 := by ring
        _ = d * (w / d) * W64 + (d * (r1 / d) + r1 % d) * H32 + w' % H32 := by rw [← hr1e, a2]
        _ = _ := by ring
    have hN : w * W64 ^ (w' :: ws).length + val (w' :: ws).reverse =
        d * ((w / d * W64 + r1 / d * H32) * W64 ^ ws.length) + (((r1 % d) * H32 + w' % H32) * W64 ^ ws.length + val ws.reverse) := by
      rw [val_reverse_cons, List.length_cons, pow_succ]
      calc w * (W64 ^ ws.length * W64) + (val ws.reverse + W64 ^ ws.length * w')
          = (w * W64 + w') * W64 ^ ws.length + val ws.reverse := by ring
        _ = _ := by rw [key]; ring
    refine ⟨by simp [i1], ?_, ?_, ?_⟩
    · exact words_cons.mpr ⟨Nat.mod_lt _ (by norm_num), i2⟩
    · rw [i3, hN, Nat.mul_add_mod]
    · rw [val_reverse_cons, i1, i4, hN, Nat.mul_add_div hd0, Nat.mod_eq_of_lt h, List.length_cons, pow_succ]
      ring

theorem sdiv_spec {x : List Nat} {d : Nat} (hx : Words x) (hne : x ≠ []) (hd0 : 0 < d) (hd : d < H32) :
    (sdiv x d).1.length = x.length ∧ Words (sdiv x d).1 ∧ (sdiv x d).2 = val x % d ∧ val (sdiv x d).1 = val x / d := by
  have hr := hx.reverse
  unfold sdiv
  cases hxr : x.reverse with
  | nil => simp at hxr; exact absurd hxr hne
  | cons w ws =>
    rw [hxr, words_cons] at hr
    have hxe : val x = w * W64 ^ ws.length + val ws.reverse := by
      rw [← List.reverse_reverse x, hxr, val_reverse_cons]; ring
    have hwd : w / d + 0 < W64 := by have := Nat.div_le_self w d; omega
    obtain ⟨i1, i2, i3, i4⟩ := sdivGo_spec hd0 hd ws 0 w hr.2 hwd
    dsimp only
    refine ⟨?_, i2.reverse, by rw [i3, hxe], by rw [i4, hxe]; simp⟩
    rw [List.length_reverse, i1]
    have := congrArg List.length hxr
    simp at this; omega

/-! ### highest bit -/

/-- The state of `Scm__HighestBitNumber` before the step for `k`: every set bit agrees with the top bit `L` above `2k`. -/
structure HbInv (L k : Nat) (p : Nat × Nat) : Prop where
  num : p.1 = L / (2 * k) * (2 * k)
  top : p.2.testBit L = true
  bits : ∀ q, p.2.testBit q = true → q ≤ L ∧ q / (2 * k) = L / (2 * k)

theorem hb_step {L k m : Nat} (hk : 0 < k) (hL : L < 64) (hm : ∀ p, m.testBit p = decide (p < 64 ∧ p / k % 2 = 1)) {p : Nat × Nat}
    (h : HbInv L k p) : (hbStep k m p).1 = L / k * k ∧ (hbStep k m p).2.testBit L = true ∧
      (∀ q, (hbStep k m p).2.testBit q = true → q ≤ L ∧ q / k = L / k) := by
  unfold hbStep
  have hdd : ∀ a, a / (2 * k) = a / k / 2 := fun a => by rw [Nat.mul_comm, Nat.div_div_eq_div_mul]
  obtain ⟨h1, h2, h3⟩ := h
  have e : L / k * k = L / k / 2 * (2 * k) + L / k % 2 * k := by
    conv_lhs => rw [show L / k = L / k / 2 * 2 + L / k % 2 by omega, Nat.add_mul]
    ring
  by_cases ho : L / k % 2 = 1
  · have hne : p.2 &&& m ≠ 0 := by
      intro hz
      have : (p.2 &&& m).testBit L = true := by rw [Nat.testBit_and, h2, hm]; simp [hL, ho]
      rw [hz] at this; simp at this
    rw [if_pos hne]
    refine ⟨?_, ?_, ?_⟩
    · show p.1 + k = _
      rw [e, h1, hdd, ho]; omega
    · show (p.2 &&& m).testBit L = true
      rw [Nat.testBit_and, h2, hm]; simp [hL, ho]
    · intro q hq
      change (p.2 &&& m).testBit q = true at hq
      rw [Nat.testBit_and, hm] at hq
      simp at hq
      obtain ⟨hq1, hq2, hq3⟩ := hq
      obtain ⟨b1, b2⟩ := h3 q hq1
      rw [hdd, hdd] at b2
      exact ⟨b1, by omega⟩
  · have key : ∀ q, p.2.testBit q = true → q ≤ L ∧ q / k = L / k := by
      intro q hq
      obtain ⟨b1, b2⟩ := h3 q hq
      rw [hdd, hdd] at b2
      have : q / k ≤ L / k := Nat.div_le_div_right b1
      exact ⟨b1, by omega⟩
    have hz : p.2 &&& m = 0 := by
      apply Nat.eq_of_testBit_eq
      intro q
      rw [Nat.testBit_and, hm, Nat.zero_testBit]
      cases hq : p.2.testBit q with
      | false => rfl
      | true => have := (key q hq).2; simp; omega
    rw [if_neg (by simp [hz])]
    refine ⟨?_, h2, key⟩
    rw [e, h1, hdd, show L / k % 2 = 0 by omega]; omega

theorem mask_of_dec {m k : Nat} (hb : m < W64) (h : ∀ p, p < 64 → m.testBit p = decide (p / k % 2 = 1)) (p : Nat) :
    m.testBit p = decide (p < 64 ∧ p / k % 2 = 1) := by
  by_cases hp : p < 64
  · rw [h p hp]; simp [hp]
  · rw [testBit_of_lt hb (by omega)]; simp [hp]

theorem highestBit_spec {w : Nat} (h0 : w ≠ 0) (hw : w < W64) :
    highestBit w < 64 ∧ 2 ^ highestBit w ≤ w ∧ w < 2 ^ (highestBit w + 1) := by
  have hL1 : 2 ^ w.log2 ≤ w := Nat.log2_self_le h0
  have hL2 : w < 2 ^ (w.log2 + 1) := Nat.lt_log2_self
  have hL : w.log2 < 64 := (Nat.log2_lt h0).mpr (by norm_num; exact hw)
  have i0 : HbInv w.log2 32 (0, w) := by
    refine ⟨?_, testBit_top hL1 hL2, ?_⟩
    · show 0 = _; omega
    · intro q hq
      have : q ≤ w.log2 := by
        by_contra hc
        have : 2 ^ (w.log2 + 1) ≤ 2 ^ q := Nat.pow_le_pow_right (by norm_num) (by omega)
        rw [Nat.testBit_lt_two_pow (by omega)] at hq; simp at hq
      exact ⟨this, by omega⟩
  have conv : ∀ {k p}, p.1 = w.log2 / (2 * k) * (2 * k) ∧ p.2.testBit w.log2 = true ∧
      (∀ q, p.2.testBit q = true → q ≤ w.log2 ∧ q / (2 * k) = w.log2 / (2 * k)) → HbInv w.log2 k p :=
    fun h => ⟨h.1, h.2.1, h.2.2⟩
  have i1 := conv (k := 16) (hb_step (by norm_num) hL (mask_of_dec (m := 0xffffffff00000000) (by norm_num) (by decide +kernel)) i0)
  have i2 := conv (k := 8) (hb_step (by norm_num) hL (mask_of_dec (m := 0xffff0000ffff0000) (by norm_num) (by decide +kernel)) i1)
  have i3 := conv (k := 4) (hb_step (by norm_num) hL (mask_of_dec (m := 0xff00ff00ff00ff00) (by norm_num) (by decide +kernel)) i2)
  have i4 := conv (k := 2) (hb_step (by norm_num) hL (mask_of_dec (m := 0xf0f0f0f0f0f0f0f0) (by norm_num) (by decide +kernel)) i3)
  have i5 := conv (k := 1) (hb_step (by norm_num) hL (mask_of_dec (m := 0xcccccccccccccccc) (by norm_num) (by decide +kernel)) i4)
  have i6 := hb_step (by norm_num) hL (mask_of_dec (m := 0xaaaaaaaaaaaaaaaa) (by norm_num) (by decide +kernel)) i5
  have : highestBit w = w.log2 := by
    have h := i6.1
    have e : w.log2 / 1 * 1 = w.log2 := by rw [Nat.div_one, Nat.mul_one]
    rw [e] at h
    refine Eq.trans ?_ h
    unfold highestBit
    generalize hbStep 2 0xcccccccccccccccc _ = p
    unfold hbStep
    by_cases hc : p.2 &&& 0xaaaaaaaaaaaaaaaa ≠ 0
    · rw [if_pos hc, if_pos hc]
    · rw [if_neg hc, if_neg hc]
  rw [this]
  exact ⟨hL, hL1, hL2⟩

/-! ### `Scm_BignumRemSI` -/

theorem or_add_pow {a b s : Nat} (hb : b < 2 ^ s) : (a * 2 ^ s) ||| b = a * 2 ^ s + b := by
  have := Nat.two_pow_add_eq_or_of_lt (i := s) (b := b) hb a
  rw [Nat.mul_comm, ← this]

theorem remShift_spec {dd s : Nat} (hs : 0 < s) (hs64 : s ≤ 64) (hd0 : 0 < dd) (hd : dd ≤ 2 ^ (64 - s)) (t m X : Nat) :
    ∀ y, t ≤ 64 → m < dd → X = y * 2 ^ t → y < 2 ^ (64 - t) → remShift dd s t m X = (m * 2 ^ (64 - t) + y) % dd := by
  fun_induction remShift dd s t m X with
  | case1 t m X h1 h2 h3 ih =>
    intro y ht hm hX hy
    obtain ⟨r, hr⟩ : ∃ r, 64 = t + s + r := ⟨64 - t - s, by omega⟩
    have e64 : W64 = 2 ^ t * 2 ^ s * 2 ^ r := by rw [← pow_add, ← pow_add, ← hr]; norm_num
    have hyr : y < 2 ^ s * 2 ^ r := by rw [← pow_add, show s + r = 64 - t by omega]; exact hy
    have hms : m <<< s % W64 = m * 2 ^ s := by
      rw [Nat.shiftLeft_eq, Nat.mod_eq_of_lt]
      have : m * 2 ^ s < 2 ^ (64 - s) * 2 ^ s := Nat.mul_lt_mul_of_pos_right (by omega) (by positivity)
      rw [← pow_add, show 64 - s + s = 64 by omega] at this
      calc m * 2 ^ s < 2 ^ 64 := this
        _ = W64 := by norm_num
    have hxs : X >>> (64 - s) = y / 2 ^ r := by
      rw [Nat.shiftRight_eq_div_pow, hX, show 64 - s = t + r by omega, pow_add, Nat.mul_comm (2 ^ t),
        Nat.mul_div_mul_right _ _ (by positivity)]
    have hz : y / 2 ^ r < 2 ^ s := by rw [Nat.div_lt_iff_lt_mul (by positivity)]; exact hyr
    have hxl : X <<< s % W64 = (y % 2 ^ r) * 2 ^ (t + s) := by
      rw [Nat.shiftLeft_eq, hX, e64, Nat.mul_assoc, ← pow_add, Nat.mul_comm (2 ^ (t + s)), Nat.mul_mod_mul_right]
    rw [hms, hxs, or_add_pow hz] at ih ⊢
    rw [ih (y % 2 ^ r) (by omega) (Nat.mod_lt _ hd0) hxl (by rw [show 64 - (t + s) = r by omega]; exact Nat.mod_lt _ (by positivity))]
    rw [show 64 - (t + s) = r by omega, show 64 - t = s + r by omega, Nat.add_mod, Nat.mul_mod, Nat.mod_mod, ← Nat.mul_mod, ← Nat.add_mod,
      pow_add]
    congr 1
    have := Nat.div_add_mod' y (2 ^ r)
    calc (m * 2 ^ s + y / 2 ^ r) * 2 ^ r + y % 2 ^ r = m * (2 ^ s * 2 ^ r) + (y / 2 ^ r * 2 ^ r + y % 2 ^ r) := by ring
      _ = _ := by rw [this]
  | case2 t m X h1 h2 h3 => exact absurd hs h3
  | case3 t m X h1 h2 ih =>
    intro y ht hm hX hy
    have hms : m <<< (64 - t) % W64 = m * 2 ^ (64 - t) := by
      rw [Nat.shiftLeft_eq, Nat.mod_eq_of_lt]
      have h4 : 2 ^ (64 - s) ≤ 2 ^ t := Nat.pow_le_pow_right (by norm_num) (by omega)
      have : m * 2 ^ (64 - t) < 2 ^ t * 2 ^ (64 - t) := Nat.mul_lt_mul_of_pos_right (by omega) (by positivity)
      rw [← pow_add, show t + (64 - t) = 64 by omega] at this
      calc m * 2 ^ (64 - t) < 2 ^ 64 := this
        _ = W64 := by norm_num
    have hxs : X >>> t = y := by
      rw [Nat.shiftRight_eq_div_pow, hX, Nat.mul_div_cancel _ (by positivity)]
    have hxl : X <<< (64 - t) % W64 = 0 * 2 ^ 64 := by
      rw [Nat.shiftLeft_eq, hX, Nat.mul_assoc, ← pow_add, show t + (64 - t) = 64 by omega, Nat.zero_mul,
        show W64 = 2 ^ 64 by norm_num, Nat.mul_mod_left]
    rw [hms, hxs, or_add_pow hy] at ih ⊢
    rw [ih 0 (le_refl _) (Nat.mod_lt _ hd0) hxl (by norm_num)]
    simp
  | case4 t m X h =>
    intro y ht hm hX hy
    have : t = 64 := by omega
    subst this
    simp at hy
    subst hy
    simp [Nat.mod_eq_of_lt hm]

theorem remGo_spec {dd s : Nat} (hs : 0 < s) (hs64 : s ≤ 64) (hd0 : 0 < dd) (hd : dd ≤ 2 ^ (64 - s)) (l : List Nat) (hl : Words l) :
    ∀ m, m < dd → remGo dd s l m = (m * W64 ^ l.length + val l.reverse) % dd := by
  induction l with
  | nil => intro m hm; simp [remGo, val, Nat.mod_eq_of_lt hm]
  | cons x xs ih =>
    intro m hm
    rw [words_cons] at hl
    have hx : x < 2 ^ (64 - 0) := by rw [Nat.sub_zero, ← W64_eq]; exact hl.1
    have h1 := remShift_spec hs hs64 hd0 hd 0 m x x (by norm_num) hm (by rw [pow_zero, Nat.mul_one]) hx
    rw [remGo, h1, ih hl.2 _ (Nat.mod_lt _ hd0), val_reverse_cons, Nat.sub_zero, ← W64_eq, Nat.add_mod, Nat.mul_mod, Nat.mod_mod,
      ← Nat.mul_mod, ← Nat.add_mod, List.length_cons, pow_succ]
    congr 1
    ring

theorem WF_val_pos {b : Big} (h : (Num.big b).Canonical) : 2305843009213693952 ≤ val b.vals := by
  obtain ⟨hs, hw, hl, hr⟩ := h
  unfold Big.toInt at hr
  rcases hs with hs | hs <;> rw [hs] at hr <;> omega

theorem canon_wf {b : Big} (h : (Num.big b).Canonical) : b.WF := ⟨h.1, h.2.1, h.2.2.1.1⟩

theorem sign_mul_tdiv {s d : Int} {n : Nat} (hs : s = 1 ∨ s = -1) :
    Int.tdiv (s * n) d = s * (if d < 0 then -1 else 1) * (n / d.natAbs : Nat) ∧ Int.tmod (s * n) d = s * (n % d.natAbs : Nat) := by
  have h1 : Int.tdiv (n : Int) d.natAbs = (n / d.natAbs : Nat) := by rw [← Int.ofNat_tdiv]
  have h2 : Int.tmod (n : Int) d.natAbs = (n % d.natAbs : Nat) := by rw [← Int.ofNat_tmod]
  by_cases hd : d < 0
  · have e : d = -(d.natAbs : Int) := by omega
    rw [if_pos hd]
    rcases hs with hs | hs <;> subst hs
    · constructor
      · conv_lhs => rw [e]
        rw [Int.tdiv_neg, Int.one_mul, h1]; ring
      · conv_lhs => rw [e]
        rw [Int.tmod_neg, Int.one_mul, h2]; ring
    · constructor
      · conv_lhs => rw [e]
        rw [Int.tdiv_neg, show (-1 : Int) * n = -n by ring, Int.neg_tdiv, h1]; ring
      · conv_lhs => rw [e]
        rw [Int.tmod_neg, show (-1 : Int) * n = -n by ring, Int.neg_tmod, h2]; ring
  · have e : d = (d.natAbs : Int) := by omega
    rw [if_neg hd]
    rcases hs with hs | hs <;> subst hs
    · constructor
      · conv_lhs => rw [e]
        rw [Int.one_mul, h1]; ring
      · conv_lhs => rw [e]
        rw [Int.one_mul, h2]; ring
    · constructor
      · conv_lhs => rw [e]
        rw [show (-1 : Int) * n = -n by ring, Int.neg_tdiv, h1]; ring
      · conv_lhs => rw [e]
        rw [show (-1 : Int) * n = -n by ring, Int.neg_tmod, h2]; ring

/-- `Scm_BignumDivSI` by a nonzero divisor computes truncating quotient and remainder. -/
theorem divSI_spec {x : Big} {d : Int} (hx : x.WF) (hd0 : d ≠ 0) (hd : -9223372036854775808 ≤ d ∧ d ≤ 9223372036854775807) :
    ∃ q, divSI x d = .ok (q, Int.tmod x.toInt d) ∧ q.IsInt (Int.tdiv x.toInt d) := by
  have hda := ulabs_eq hd
  have hdp : 0 < d.natAbs := by omega
  have hdl : d.natAbs < W64 := by omega
  obtain ⟨t1, t2⟩ := sign_mul_tdiv (d := d) (n := val x.vals) hx.sign
  have hsd : (x.sign * (if d < 0 then (-1 : Int) else 1)) = 1 ∨ (x.sign * (if d < 0 then (-1 : Int) else 1)) = -1 := by
    rcases hx.sign with h | h <;> rw [h] <;> split <;> simp
  have hrem : ∀ r : Nat, (if x.sign < 0 then -(r : Int) else r) = x.sign * r := by
    intro r
    rcases hx.sign with h | h <;> rw [h] <;> simp
  unfold divSI
  dsimp only
  rw [hda, if_neg (by omega)]
  unfold Big.toInt
  rw [t1, t2]
  by_cases hh : d.natAbs < H32
  · rw [if_pos hh]
    obtain ⟨s1, s2, s3, s4⟩ := sdiv_spec hx.words hx.ne hdp hh
    refine ⟨_, by rw [hrem, s3], ?_⟩
    have := normalize_spec hsd (l := (sdiv x.vals d.natAbs).1) (by
      have := List.length_pos_iff.mpr hx.ne
      exact List.length_pos_iff.mp (by omega)) s2
    rw [s4] at this
    exact this
  · rw [if_neg hh]
    have hlen := List.length_pos_iff.mpr hx.ne
    have hv1 : val [d.natAbs] = d.natAbs := by simp [val]
    obtain ⟨g1, g2, g3, g4, g5, g6⟩ := gdiv_spec (x := x.vals) (y := [d.natAbs]) (q := zeros (x.vals.length + 1)) hx.words
      (by intro w hw; simp at hw; omega) hx.ne (by simp) (by simpa using hd0) (by rw [hv1]; omega) (by simp; omega)
      (words_zeros _) (val_zeros _) (by simp [zeros])
    rw [hv1] at g5 g6
    have hr0 : (gdiv x.vals [d.natAbs] (zeros (x.vals.length + 1))).2.getD 0 0 = val x.vals % d.natAbs := by
      have := val_div_mod g3 0
      rw [pow_zero, Nat.div_one, g6] at this
      rw [← this]
      have h5 := Nat.mod_lt (val x.vals) hdp
      exact Nat.mod_eq_of_lt (by omega)
    refine ⟨_, by rw [hrem, hr0], ?_⟩
    have := normalize_spec hsd (l := (gdiv x.vals [d.natAbs] (zeros (x.vals.length + 1))).1) (by
      exact List.length_pos_iff.mp (by rw [g1]; simp [zeros])) g2
    rw [g5] at this
    exact this

/-- `Scm_BignumRemSI` by a nonzero fixnum computes the truncating remainder. -/
theorem remSI_spec {x : Big} {d : Int} (hx : x.WF) (hd0 : d ≠ 0) (hd : -9223372036854775808 < d ∧ d ≤ 9223372036854775807) :
    remSI x d = .ok (Int.tmod x.toInt d) := by
  have hda := ulabs_eq (y := d) (by omega)
  obtain ⟨b1, b2, b3⟩ := highestBit_spec (w := d.natAbs) (by omega) (by omega)
  obtain ⟨t1, t2⟩ := sign_mul_tdiv (d := d) (n := val x.vals) hx.sign
  have hb : highestBit d.natAbs < 63 := by
    by_contra hc
    have h63 : highestBit d.natAbs = 63 := by omega
    rw [h63] at b2
    omega
  unfold remSI
  dsimp only
  rw [hda, if_neg (by omega)]
  generalize highestBit d.natAbs = hb0 at *
  rw [remGo_spec (dd := d.natAbs) (s := 64 - hb0 - 1) (by omega) (by omega) (by omega)
    (by rw [show 64 - (64 - hb0 - 1) = hb0 + 1 by omega]; omega) _ hx.words.reverse 0 (by omega)]
  unfold Big.toInt
  rw [t2, Nat.zero_mul, Nat.zero_add, List.reverse_reverse, Int.mul_comm]

/-! ### comparison -/

theorem cmpWords_spec {x y : List Nat} (hx : Words x) (hy : Words y) (i : Nat) :
    (cmpWords x y i = -1 ∧ val (x.take i) < val (y.take i)) ∨ (cmpWords x y i = 0 ∧ val (x.take i) = val (y.take i)) ∨
      (cmpWords x y i = 1 ∧ val (y.take i) < val (x.take i)) := by
  have tk : ∀ l : List Nat, ∀ i, val (l.take (i + 1)) = val (l.take i) + W64 ^ i * l.getD i 0 := by
    intro l i
    induction l generalizing i with
    | nil => simp [val]
    | cons a l ih =>
      cases i with
      | zero => simp [val]
      | succ i =>
        have e := ih i
        rw [List.take_succ_cons, List.take_succ_cons, val, val, e, pow_succ, List.getD_cons_succ]
        ring
  have tl : ∀ l : List Nat, Words l → ∀ i, val (l.take i) < W64 ^ i := by
    intro l hl i
    have h1 := val_lt (hl.take i)
    exact lt_of_lt_of_le h1 (pow_lt_of_len (by simp))
  have gap : ∀ {a b a' b' P : Nat}, a' < P → b' < P → a < b → a' + P * a < b' + P * b := by
    intro a b a' b' P h1 h2 h3
    have : P * (a + 1) ≤ P * b := Nat.mul_le_mul_left _ h3
    rw [Nat.mul_add] at this
    omega
  induction i with
  | zero => right; left; simp [cmpWords]
  | succ i ih =>
    rw [cmpWords, tk x, tk y]
    by_cases h1 : x.getD i 0 < y.getD i 0
    · rw [if_pos h1]; left; exact ⟨rfl, gap (tl x hx i) (tl y hy i) h1⟩
    · rw [if_neg h1]
      by_cases h2 : x.getD i 0 > y.getD i 0
      · rw [if_pos h2]; right; right; exact ⟨rfl, gap (tl y hy i) (tl x hx i) h2⟩
      · rw [if_neg h2, show x.getD i 0 = y.getD i 0 by omega]
        rcases ih with ⟨h, h'⟩ | ⟨h, h'⟩ | ⟨h, h'⟩
        · left; exact ⟨h, by omega⟩
        · right; left; exact ⟨h, by omega⟩
        · right; right; exact ⟨h, by omega⟩

theorem absCmp_spec {x y : List Nat} (hx : Words x) (hy : Words y) (h1 : ∃ h : x ≠ [], x.getLast h ≠ 0)
    (h2 : ∃ h : y ≠ [], y.getLast h ≠ 0) :
    (bignumAbsCmp x y = -1 ∧ val x < val y) ∨ (bignumAbsCmp x y = 0 ∧ val x = val y) ∨
      (bignumAbsCmp x y = 1 ∧ val y < val x) := by
  obtain ⟨n1, g1⟩ := h1
  obtain ⟨n2, g2⟩ := h2
  have l1 := List.length_pos_iff.mpr n1
  have l2 := List.length_pos_iff.mpr n2
  have b1 := val_ge_of_getLast n1 g1
  have b2 := val_ge_of_getLast n2 g2
  have c1 := val_lt hx
  have c2 := val_lt hy
  unfold bignumAbsCmp
  by_cases h1 : x.length < y.length
  · rw [if_pos h1]; left
    have := pow_lt_of_len (show x.length ≤ y.length - 1 by omega)
    exact ⟨rfl, by omega⟩
  · rw [if_neg h1]
    by_cases h2 : x.length > y.length
    · rw [if_pos h2]; right; right
      have := pow_lt_of_len (show y.length ≤ x.length - 1 by omega)
      exact ⟨rfl, by omega⟩
    · rw [if_neg h2]
      have := cmpWords_spec hx hy x.length
      rw [List.take_length, List.take_of_length_le (show y.length ≤ x.length by omega)] at this
      exact this

/-- `Scm_BignumCmp` on canonical bignums is the order of the integers. -/
theorem bignumCmp_spec {x y : Big} (hx : (Num.big x).Canonical) (hy : (Num.big y).Canonical) :
    (bignumCmp x y = -1 ∧ x.toInt < y.toInt) ∨ (bignumCmp x y = 0 ∧ x.toInt = y.toInt) ∨ (bignumCmp x y = 1 ∧ y.toInt < x.toInt) := by
  have px := WF_val_pos hx
  have py := WF_val_pos hy
  have ha := absCmp_spec hx.2.1 hy.2.1 hx.2.2.1 hy.2.2.1
  obtain ⟨sx, vx⟩ := x
  obtain ⟨sy, vy⟩ := y
  simp only at *
  unfold bignumAbsCmp at ha
  unfold bignumCmp Big.toInt
  rcases hx.1 with h1 | h1 <;> rcases hy.1 with h2 | h2 <;> simp only at h1 h2 <;> subst h1 <;> subst h2 <;> simp only
  · rw [if_neg (by omega), if_neg (by omega)]
    split at ha
    · next h => rw [if_pos h]; simp at ha ⊢; omega
    · next h =>
      rw [if_neg h]
      split at ha
      · next h => rw [if_pos h]; simp at ha ⊢; omega
      · next h => rw [if_neg h]; simp at ha ⊢; omega
  · rw [if_neg (by omega), if_pos (by omega)]; right; right; exact ⟨rfl, by omega⟩
  · rw [if_pos (by omega)]; left; exact ⟨rfl, by omega⟩
  · rw [if_neg (by omega), if_neg (by omega)]
    split at ha
    · next h => rw [if_pos h]; simp at ha ⊢; omega
    · next h =>
      rw [if_neg h]
      split at ha
      · next h => rw [if_pos h]; simp at ha ⊢; omega
      · next h => rw [if_neg h]; simp at ha ⊢; omega

theorem getLast_getD {l : List Nat} (h : ∃ h : l ≠ [], l.getLast h ≠ 0) : l.getD (l.length - 1) 0 ≠ 0 := by
  obtain ⟨h1, h2⟩ := h
  rw [getD_pred_getLast h1]; exact h2

/-- `Scm_BignumDivRem` on canonical bignums computes truncating quotient and remainder. -/
theorem divRem_spec {x y : Big} (hx : (Num.big x).Canonical) (hy : (Num.big y).Canonical) :
    (divRem x y).1.IsInt (Int.tdiv x.toInt y.toInt) ∧ (divRem x y).2.IsInt (Int.tmod x.toInt y.toInt) := by
  have px := WF_val_pos hx
  have py := WF_val_pos hy
  have ha := absCmp_spec hx.2.1 hy.2.1 hx.2.2.1 hy.2.2.1
  have hx' := canon_wf hx
  have hy' := canon_wf hy
  have hyn : y.toInt.natAbs = val y.vals := by
    unfold Big.toInt; rcases hy.1 with h | h <;> rw [h] <;> omega
  have hys : (if y.toInt < 0 then (-1 : Int) else 1) = y.sign := by
    unfold Big.toInt; rcases hy.1 with h | h <;> rw [h] <;> split <;> omega
  obtain ⟨t1, t2⟩ := sign_mul_tdiv (d := y.toInt) (n := val x.vals) hx.1
  rw [hyn] at t1 t2
  rw [hys] at t1
  change Int.tdiv x.toInt y.toInt = _ at t1
  change Int.tmod x.toInt y.toInt = _ at t2
  unfold divRem
  by_cases hc : bignumAbsCmp x.vals y.vals < 0
  · rw [if_pos hc]
    have hlt : val x.vals < val y.vals := by omega
    rw [t1, t2, Nat.div_eq_of_lt hlt, Nat.mod_eq_of_lt hlt]
    refine ⟨?_, hx, rfl⟩
    rw [Nat.cast_zero, Int.mul_zero]
    exact makeInt_isInt (by omega) (by omega)
  · rw [if_neg hc]
    have hle : y.vals.length ≤ x.vals.length := by
      by_contra h
      apply hc
      unfold bignumAbsCmp
      rw [if_pos (by omega)]; omega
    obtain ⟨g1, g2, g3, g4, g5, g6⟩ := gdiv_spec (x := x.vals) (y := y.vals) (q := zeros (x.vals.length - y.vals.length + 1)) hx.2.1 hy.2.1
      hx'.ne hy'.ne (getLast_getD hy.2.2.1) (by omega) hle (words_zeros _) (val_zeros _) (by simp [zeros])
    dsimp only
    have hs : x.sign * y.sign = 1 ∨ x.sign * y.sign = -1 := by
      rcases hx.1 with h | h <;> rcases hy.1 with h' | h' <;> rw [h, h'] <;> simp
    constructor
    · have := normalize_spec hs (List.length_pos_iff.mp (by rw [g1]; simp [zeros])) g2
      rw [g5, ← t1] at this
      exact this
    · have := normalize_spec hx.1 (List.length_pos_iff.mp (by rw [g4]; omega)) g3
      rw [g6, ← t2] at this
      exact this

end Gauche.Bignum
