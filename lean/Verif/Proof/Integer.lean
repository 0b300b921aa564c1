import Verif.Proof.BignumDiv2
import Verif.Model.Integer
/-
Exact integers: arithmetic, division, comparison, gcd, powers.
-/
namespace Gauche.Integer
open Gauche.Bignum

/-! ### canonical objects -/

theorem canon_fix {n : Int} (h : (Num.fix n).Canonical) : FIXMIN ≤ n ∧ n ≤ FIXMAX := h

theorem IsInt.canon {r : Num} {z : Int} (h : r.IsInt z) : r.Canonical := h.1
theorem IsInt.val {r : Num} {z : Int} (h : r.IsInt z) : r.toInt = z := h.2

theorem fromSI_wf (v : Int) : (fromSI v).WF := by
  unfold fromSI ulabs
  split <;> refine ⟨by simp, ?_, by simp⟩ <;> intro w hw <;> simp at hw <;> omega

theorem fromSI_toInt {v : Int} (h : -9223372036854775808 ≤ v ∧ v ≤ 9223372036854775807) : (fromSI v).toInt = v := by
  have := ulabs_eq h
  unfold fromSI Big.toInt
  rw [this]
  split <;> simp only [val] <;> omega

theorem big_isInt {b : Big} (h : b.WF) (hl : b.vals.length = 1) (h0 : ¬ (FIXMIN ≤ b.toInt ∧ b.toInt ≤ FIXMAX)) : (Num.big b).IsInt b.toInt := by
  refine ⟨⟨h.sign, h.words, ⟨h.ne, ?_⟩, h0⟩, rfl⟩
  obtain ⟨s, l⟩ := b
  match l, hl with
  | [a], _ =>
    simp
    rintro rfl
    apply h0
    simp [Big.toInt, val]

theorem fromSI_length (v : Int) : (fromSI v).vals.length = 1 := by unfold fromSI; split <;> rfl

theorem fromSI_isInt {v : Int} (h : -9223372036854775808 ≤ v ∧ v ≤ 9223372036854775807) (h0 : ¬ (FIXMIN ≤ v ∧ v ≤ FIXMAX)) :
    (Num.big (fromSI v)).IsInt v := by
  have := big_isInt (fromSI_wf v) (fromSI_length v) (by rw [fromSI_toInt h]; exact h0)
  rw [fromSI_toInt h] at this; exact this

theorem makeInteger_isInt {v : Int} (h : -9223372036854775808 ≤ v ∧ v ≤ 9223372036854775807) : (makeInteger v).IsInt v := by
  unfold makeInteger
  split
  · next h1 => exact makeInt_isInt h1.1 h1.2
  · next h1 => exact fromSI_isInt h h1

theorem makeIntegerU_isInt {v : Nat} (h : v < W64) : (makeIntegerU v).IsInt v := by
  unfold makeIntegerU
  split
  · next h1 => exact makeInt_isInt (by omega) (by omega)
  · next h1 =>
    have e : (fromUI v).toInt = v := by simp [fromUI, Big.toInt, val]
    have := big_isInt (b := fromUI v) ⟨Or.inl rfl, by intro w hw; simp [fromUI] at hw; omega, by simp [fromUI]⟩ rfl (by rw [e]; omega)
    rw [e] at this; exact this

theorem big_self {b : Big} (h : (Num.big b).Canonical) : (Num.big b).IsInt b.toInt := ⟨h, rfl⟩

theorem big_out {b : Big} (h : (Num.big b).Canonical) : ¬ (FIXMIN ≤ b.toInt ∧ b.toInt ≤ FIXMAX) := h.2.2.2

/-- Canonical objects denoting the same integer are equal: the representation is unique. -/
theorem canon_unique {x y : Num} (hx : x.Canonical) (hy : y.Canonical) (h : x.toInt = y.toInt) : x = y := by
  cases x with
  | fix a =>
    cases y with
    | fix b => simp [Num.toInt] at h; rw [h]
    | big b => exact absurd (show FIXMIN ≤ b.toInt ∧ b.toInt ≤ FIXMAX by
        have h' : a = b.toInt := h
        rw [← h']; exact canon_fix hx) (big_out hy)
  | big a =>
    cases y with
    | fix b => exact absurd (show FIXMIN ≤ a.toInt ∧ a.toInt ≤ FIXMAX by
        have h' : a.toInt = b := h
        rw [h']; exact canon_fix hy) (big_out hx)
    | big b =>
      have px := WF_val_pos hx
      have py := WF_val_pos hy
      have h' : a.toInt = b.toInt := h
      have hs : a.sign = b.sign ∧ val a.vals = val b.vals := by
        unfold Big.toInt at h'
        rcases hx.1 with h1 | h1 <;> rcases hy.1 with h2 | h2 <;> rw [h1, h2] at h' ⊢ <;> constructor <;> omega
      have hl : a.vals = b.vals := by
        have key : ∀ (l m : List Nat), Words l → Words m → l.length = m.length → val l = val m → l = m := by
          intro l
          induction l with
          | nil => intro m _ _ hlen _; simp at hlen; exact (List.eq_nil_of_length_eq_zero hlen.symm).symm
          | cons w ws ih =>
            intro m hl hm hlen hv
            cases m with
            | nil => simp at hlen
            | cons w' ws' =>
              rw [words_cons] at hl hm
              simp only [val] at hv
              have e1 : w = w' := by omega
              have e2 : val ws = val ws' := by omega
              rw [e1, ih ws' hl.2 hm.2 (by simpa using hlen) e2]
        apply key _ _ hx.2.1 hy.2.1 _ hs.2
        obtain ⟨n1, g1⟩ := hx.2.2.1
        obtain ⟨n2, g2⟩ := hy.2.2.1
        have b1 := val_ge_of_getLast n1 g1
        have b2 := val_ge_of_getLast n2 g2
        have c1 := val_lt hx.2.1
        have c2 := val_lt hy.2.1
        have l1 := List.length_pos_iff.mpr n1
        have l2 := List.length_pos_iff.mpr n2
        by_contra hne
        rcases Nat.lt_or_gt_of_ne hne with h3 | h3
        · have := pow_lt_of_len (show a.vals.length ≤ b.vals.length - 1 by omega); omega
        · have := pow_lt_of_len (show b.vals.length ≤ a.vals.length - 1 by omega); omega
      obtain ⟨sa, va⟩ := a
      obtain ⟨sb, vb⟩ := b
      simp only at hs hl
      rw [hs.1, hl]

/-! ### addition, subtraction, negation -/

theorem bignumAddSI_isInt {b : Big} {a : Int} (hb : (Num.big b).Canonical) (ha : FIXMIN ≤ a ∧ a ≤ FIXMAX + 1) :
    (bignumAddSI b a).IsInt (b.toInt + a) := by
  unfold bignumAddSI
  split
  · next h => subst h; rw [Int.add_zero]; exact big_self hb
  · have := addSi_spec (canon_wf hb) (y := a) (by omega) (by have := WF_val_pos hb; omega)
    rw [← this.2]; exact normalize_wf this.1

theorem bignumSubSI_isInt {b : Big} {a : Int} (hb : (Num.big b).Canonical) (ha : FIXMIN ≤ a ∧ a ≤ FIXMAX) :
    (bignumSubSI b a).IsInt (b.toInt - a) := by
  unfold bignumSubSI
  split
  · next h => subst h; rw [Int.sub_zero]; exact big_self hb
  · have := addSi_spec (canon_wf hb) (y := -a) (by omega) (by have := WF_val_pos hb; omega)
    rw [Int.sub_eq_add_neg, ← this.2]; exact normalize_wf this.1

theorem scmAdd_isInt {x y : Num} (hx : x.Canonical) (hy : y.Canonical) : (scmAdd x y).IsInt (x.toInt + y.toInt) := by
  cases x with
  | fix a =>
    have ha := canon_fix hx
    cases y with
    | fix b =>
      have hb := canon_fix hy
      exact makeInteger_isInt (by omega)
    | big b =>
      show (if a = 0 then Num.big b else bignumAddSI b a).IsInt (a + b.toInt)
      split
      · next h => subst h; rw [Int.zero_add]; exact big_self hy
      · rw [Int.add_comm]; exact bignumAddSI_isInt hy (by omega)
  | big a =>
    cases y with
    | fix b =>
      have hb := canon_fix hy
      show (if b = 0 then Num.big a else bignumAddSI a b).IsInt (a.toInt + b)
      split
      · next h => subst h; rw [Int.add_zero]; exact big_self hx
      · exact bignumAddSI_isInt hx (by omega)
    | big b =>
      have := bigAdd_spec (canon_wf hx) (canon_wf hy)
      show (bignumAdd a b).IsInt (a.toInt + b.toInt)
      rw [← this.2]; exact normalize_wf this.1

theorem scmSub_isInt {x y : Num} (hx : x.Canonical) (hy : y.Canonical) : (scmSub x y).IsInt (x.toInt - y.toInt) := by
  cases x with
  | fix a =>
    have ha := canon_fix hx
    cases y with
    | fix b =>
      have hb := canon_fix hy
      exact makeInteger_isInt (by omega)
    | big b =>
      show (bignumSub (fromSI a) b).IsInt (a - b.toInt)
      have := bigSub_spec (fromSI_wf a) (canon_wf hy)
      rw [fromSI_toInt (by omega)] at this
      rw [← this.2]; exact normalize_wf this.1
  | big a =>
    cases y with
    | fix b =>
      have hb := canon_fix hy
      show (if b = 0 then Num.big a else bignumSubSI a b).IsInt (a.toInt - b)
      split
      · next h => subst h; rw [Int.sub_zero]; exact big_self hx
      · exact bignumSubSI_isInt hx (by omega)
    | big b =>
      have := bigSub_spec (canon_wf hx) (canon_wf hy)
      show (bignumSub a b).IsInt (a.toInt - b.toInt)
      rw [← this.2]; exact normalize_wf this.1

theorem scmNegate_isInt {x : Num} (hx : x.Canonical) : (scmNegate x).IsInt (-x.toInt) := by
  cases x with
  | fix a =>
    have ha := canon_fix hx
    show (if a = FIXMIN then Num.big (fromSI (-a)) else makeInt (-a)).IsInt (-a)
    split
    · next h => exact fromSI_isInt (by omega) (by omega)
    · exact makeInt_isInt (by omega) (by omega)
  | big b =>
    have hb := canon_wf hx
    have : (normalize ⟨-b.sign, b.vals⟩).IsInt (-b.sign * val b.vals) :=
      normalize_spec (by rcases hb.sign with h | h <;> rw [h] <;> simp) hb.ne hb.words
    rw [Int.neg_mul] at this
    exact this

theorem scmAbs_isInt {x : Num} (hx : x.Canonical) : (scmAbs x).IsInt x.toInt.natAbs := by
  cases x with
  | fix a =>
    have ha := canon_fix hx
    show (if a < 0 then (if a = FIXMIN then Num.big (fromSI (-a)) else makeInt (-a)) else .fix a).IsInt (a.natAbs : Int)
    split
    · rw [show (a.natAbs : Int) = -a by omega]
      split
      · next h => exact fromSI_isInt (by omega) (by omega)
      · exact makeInt_isInt (by omega) (by omega)
    · rw [show (a.natAbs : Int) = a by omega]
      exact ⟨hx, rfl⟩
  | big b =>
    have hp := WF_val_pos hx
    have ho := big_out hx
    show (if b.sign < 0 then Num.big ⟨1, b.vals⟩ else .big b).IsInt (b.toInt.natAbs : Int)
    have e : ∀ s : Int, s = 1 → (b.toInt.natAbs : Int) = s * val b.vals := by
      intro s hs; unfold Big.toInt; rcases hx.1 with h | h <;> rw [h, hs] <;> omega
    split
    · next h =>
      have hs : b.sign = -1 := by rcases hx.1 with h' | h' <;> omega
      rw [e 1 rfl]
      refine ⟨⟨Or.inl rfl, hx.2.1, hx.2.2.1, ?_⟩, rfl⟩
      unfold Big.toInt at ho ⊢
      simp only
      omega
    · next h =>
      have hs : b.sign = 1 := by rcases hx.1 with h' | h' <;> omega
      rw [e b.sign hs]
      exact ⟨hx, rfl⟩

theorem scmSign_eq {x : Num} (hx : x.Canonical) : scmSign x = x.toInt.sign := by
  cases x with
  | fix a =>
    show (if a = 0 then (0 : Int) else if a > 0 then 1 else -1) = a.sign
    rcases Int.lt_trichotomy a 0 with h | h | h
    · rw [if_neg (by omega), if_neg (by omega), Int.sign_eq_neg_one_of_neg h]
    · subst h; rfl
    · rw [if_neg (by omega), if_pos h, Int.sign_eq_one_of_pos h]
  | big b =>
    have hp := WF_val_pos hx
    show b.sign = (b.sign * (val b.vals : Int)).sign
    rcases hx.1 with h | h <;> rw [h]
    · rw [Int.sign_eq_one_of_pos (by omega)]
    · rw [Int.sign_eq_neg_one_of_neg (by omega)]

/-! ### multiplication -/

theorem smulov_spec {a b : Int} (ha : FIXMIN ≤ a ∧ a ≤ FIXMAX) (hb : FIXMIN ≤ b ∧ b ≤ FIXMAX) :
    ((smulov a b).2 = false → (smulov a b).1 = a * b) := by
  have ea := ulabs_eq (y := a) (by omega)
  have eb := ulabs_eq (y := b) (by omega)
  have hu : (umulov a.natAbs b.natAbs).2 = false → (umulov a.natAbs b.natAbs).1 = a.natAbs * b.natAbs := by
    unfold umulov
    split
    · next h => intro _; rcases h with h | h <;> simp [h]
    · intro h
      have := umul_spec (x := a.natAbs) (y := b.natAbs) (by omega) (by omega)
      simp at h
      obtain ⟨h3, _, _⟩ := this
      rw [h] at h3
      show (umul a.natAbs b.natAbs).2 = _
      omega
  unfold smulov
  dsimp only
  rw [ea, eb]
  have hab : a * b = if (a ≥ 0) = (b ≥ 0) then ((a.natAbs * b.natAbs : Nat) : Int) else -((a.natAbs * b.natAbs : Nat) : Int) := by
    have e1 : ∀ c : Int, 0 ≤ c → (c.natAbs : Int) = c := fun c h => by omega
    have e2 : ∀ c : Int, ¬ 0 ≤ c → (c.natAbs : Int) = -c := fun c h => by omega
    rw [Nat.cast_mul]
    by_cases h1 : a ≥ 0 <;> by_cases h2 : b ≥ 0
    · rw [if_pos (by simp [h1, h2]), e1 a h1, e1 b h2]
    · rw [if_neg (by simp [h1, h2]), e1 a h1, e2 b h2]; ring
    · rw [if_neg (by simp [h1, h2]), e2 a h1, e1 b h2]; ring
    · rw [if_pos (by simp [h1, h2]), e2 a h1, e2 b h2]; ring
  rw [hab]
  split
  · split
    · intro h; simp at h
    · next h =>
      intro _
      simp at h
      rw [hu h.1]
  · split
    · intro h; simp at h
    · next h =>
      intro _
      simp at h
      rw [hu h.1]

theorem bignumMulSI_isInt {b : Big} {a : Int} (hb : b.WF) (ha : FIXMIN ≤ a ∧ a ≤ FIXMAX) (hs : a = 1 → (Num.big b).Canonical) :
    (bignumMulSI b a).IsInt (b.toInt * a) := by
  unfold bignumMulSI
  split
  · next h => rw [h, Int.mul_one]; exact big_self (hs h)
  · split
    · next h => rw [h, Int.mul_zero]; exact makeInt_isInt (by omega) (by omega)
    · next h =>
      have := mulSi_spec hb (y := a) (by omega) (by omega) h
      rw [← this.2]; exact normalize_wf this.1

theorem scmMul_isInt {x y : Num} (hx : x.Canonical) (hy : y.Canonical) : (scmMul x y).IsInt (x.toInt * y.toInt) := by
  cases x with
  | fix a =>
    have ha := canon_fix hx
    cases y with
    | fix b =>
      have hb := canon_fix hy
      have hsm := smulov_spec ha hb
      show (if (smulov a b).2 = true ∨ ¬ ((smulov a b).1 ≤ FIXMAX ∧ FIXMIN ≤ (smulov a b).1) then bignumMulSI (fromSI a) b
        else makeInteger (smulov a b).1).IsInt (a * b)
      by_cases hc : (smulov a b).2 = true ∨ ¬ ((smulov a b).1 ≤ FIXMAX ∧ FIXMIN ≤ (smulov a b).1)
      · rw [if_pos hc]
        have hb1 : b ≠ 1 := by
          rintro rfl
          have : (smulov a 1).2 = false := by
            have e1 := ulabs_eq (y := a) (by omega)
            unfold smulov umulov
            dsimp only
            rw [e1, show ulabs 1 = 1 by rfl]
            by_cases h0 : a.natAbs = 0
            · simp [h0]
            · obtain ⟨q1, q2, q3⟩ := umul_spec (x := a.natAbs) (y := 1) (by omega) (by omega)
              have hz : (umul a.natAbs 1).1 = 0 := by omega
              have hl : (umul a.natAbs 1).2 = a.natAbs := by omega
              simp [h0, hz, hl]
              split <;> split <;> simp <;> omega
          rcases hc with hc | hc
          · rw [this] at hc; simp at hc
          · rw [hsm this] at hc; omega
        have := bignumMulSI_isInt (fromSI_wf a) hb (fun h => absurd h hb1)
        rw [fromSI_toInt (by omega)] at this
        exact this
      · rw [if_neg hc]
        have h2 : (smulov a b).2 = false := by
          cases h : (smulov a b).2 with
          | false => rfl
          | true => exact absurd (Or.inl h) hc
        have h3 : ((smulov a b).1 ≤ FIXMAX ∧ FIXMIN ≤ (smulov a b).1) := by
          by_contra h; exact hc (Or.inr h)
        rw [← hsm h2]
        exact makeInteger_isInt (by omega)
    | big b =>
      show (if a = 0 then Num.fix a else if a = 1 then Num.big b else bignumMulSI b a).IsInt (a * b.toInt)
      split
      · next h => subst h; rw [Int.zero_mul]; exact ⟨hx, rfl⟩
      · split
        · next h => subst h; rw [Int.one_mul]; exact big_self hy
        · rw [Int.mul_comm]; exact bignumMulSI_isInt (canon_wf hy) ha (fun _ => hy)
  | big a =>
    cases y with
    | fix b =>
      have hb := canon_fix hy
      show (if b = 0 then Num.fix b else if b = 1 then Num.big a else bignumMulSI a b).IsInt (a.toInt * b)
      split
      · next h => subst h; rw [Int.mul_zero]; exact ⟨hy, rfl⟩
      · split
        · next h => subst h; rw [Int.mul_one]; exact big_self hx
        · exact bignumMulSI_isInt (canon_wf hx) hb (fun _ => hx)
    | big b =>
      have := bigMul_spec (canon_wf hx) (canon_wf hy)
      show (bignumMul a b).IsInt (a.toInt * b.toInt)
      rw [← this.2]; exact normalize_wf this.1

end Gauche.Integer
