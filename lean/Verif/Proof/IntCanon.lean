import Verif.Proof.Bits
/-
Results of integer operations are canonical, whatever their value.
-/
namespace Gauche.Integer
open Gauche.Bignum

theorem makeInt_canonical (n : Int) : (makeInt n).Canonical := by
  unfold makeInt
  show FIXMIN ≤ Int.bmod n 4611686018427387904 ∧ Int.bmod n 4611686018427387904 ≤ FIXMAX
  rw [Int.bmod_def]
  split <;> omega

theorem quotient_canonical {x y q r : Num} (hx : x.Canonical) (hy : y.Canonical) (e : scmQuotient x y = .ok (q, r)) :
    q.Canonical ∧ r.Canonical := by
  by_cases h0 : y.toInt = 0
  · have : y = .fix 0 := canon_unique hy (show FIXMIN ≤ (0 : Int) ∧ (0 : Int) ≤ FIXMAX by omega) h0
    subst this
    cases x with
    | fix a => exact absurd e (by unfold scmQuotient; simp)
    | big b => exact absurd (show Res.ub = Res.ok (q, r) from e) (by simp)
  · by_cases hc : x.toInt = FIXMIN ∧ (y.toInt = -1 ∨ y.toInt = FIXMAX + 1)
    · obtain ⟨h1, h2⟩ := hc
      have : x = .fix FIXMIN := canon_unique hx (show FIXMIN ≤ FIXMIN ∧ FIXMIN ≤ FIXMAX by omega) h1
      subst this
      unfold scmQuotient at e
      rw [if_neg (by rintro rfl; simp [Num.toInt] at h2)] at e
      cases y with
      | fix b =>
        dsimp only at e
        split at e
        · exact absurd e (by simp)
        · cases e; exact ⟨makeInt_canonical _, makeInt_canonical _⟩
      | big b => cases e; exact ⟨makeInt_canonical _, hx⟩
    · obtain ⟨q', r', q1, q2, q3⟩ := quotient_isInt hx hy h0 hc
      rw [q1] at e; cases e; exact ⟨q2.1, q3.1⟩

theorem modulo_canonical {x y r : Num} {remp : Bool} (hx : x.Canonical) (hy : y.Canonical) (e : scmModulo x y remp = .ok r) :
    r.Canonical := by
  by_cases h0 : y.toInt = 0
  · have : y = .fix 0 := canon_unique hy (show FIXMIN ≤ (0 : Int) ∧ (0 : Int) ≤ FIXMAX by omega) h0
    subst this
    cases x with
    | fix a => exact absurd (show Res.err = Res.ok r from e) (by simp)
    | big b => exact absurd (show Res.ub = Res.ok r from e) (by simp)
  cases remp with
  | false =>
    obtain ⟨m, m1, m2⟩ := modulo_isInt hx hy h0
    rw [m1] at e; cases e; exact m2.1
  | true =>
    by_cases hc : x.toInt = FIXMIN ∧ y.toInt = FIXMAX + 1
    · have e1 : x = .fix FIXMIN := canon_unique hx (show FIXMIN ≤ FIXMIN ∧ FIXMIN ≤ FIXMAX by omega) hc.1
      subst e1
      cases y with
      | fix b => exfalso; have := canon_fix hy; have h : (Num.fix b).toInt = b := rfl; omega
      | big b => cases e; exact hx
    · obtain ⟨m, m1, m2⟩ := remainder_isInt hx hy h0 hc
      rw [m1] at e; cases e; exact m2.1

theorem ash_canonical {x r : Num} {n : Int} (hx : x.Canonical)
    (hc : ¬ (n = 0 ∧ (x.toInt = FIXMAX ∨ x.toInt = -FIXMAX ∨ x.toInt = FIXMIN))) (e : scmAsh x n = .ok r) : r.Canonical := by
  by_cases hbig : n ≥ 268435456
  · unfold scmAsh at e; rw [if_pos hbig] at e; exact absurd e (by simp)
  cases x with
  | fix a =>
    by_cases h : 0 ≤ n
    · obtain ⟨r', r1, r2⟩ := scmAsh_left hx (n := n.toNat) (by omega) (by omega)
      rw [show ((n.toNat : Nat) : Int) = n by omega, e] at r1
      cases r1; exact r2.1
    · obtain ⟨r', r1, r2⟩ := scmAsh_right hx (n := (-n).toNat) (by omega) (by intro b hb; cases hb)
      rw [show -(((-n).toNat : Nat) : Int) = n by omega, e] at r1
      cases r1; exact r2.1
  | big b =>
    unfold scmAsh at e
    rw [if_neg hbig] at e
    dsimp only [bigAsh] at e
    generalize Int.bmod n 4294967296 = c at e
    by_cases h1 : c = 0
    · rw [if_pos h1] at e; cases e; exact hx
    rw [if_neg h1] at e
    by_cases h2 : c > 0
    · rw [if_pos h2] at e; cases e; exact (bigAshLeft_spec (canon_wf hx) (by omega)).1
    rw [if_neg h2] at e
    by_cases h3 : b.vals.length ≤ (-c).toNat / 64
    · rw [if_pos h3] at e; cases e; split <;> exact makeInt_canonical _
    rw [if_neg h3] at e
    by_cases h4 : b.sign < 0
    · rw [if_pos h4] at e
      by_cases h5 : (-c).toNat < 268435456
      · obtain ⟨d, d1, d2⟩ := fixAshLeft_spec (a := 1) (by omega) h5 (by omega)
        rw [d1] at e
        simp only [Res.bind] at e
        cases hq : scmQuotient (scmAdd (.big b) (.fix 1)) d with
        | ok p =>
          rw [hq] at e
          cases e
          have hadd := scmAdd_isInt hx (y := .fix 1) ⟨by omega, by omega⟩
          have := (quotient_canonical hadd.1 d2.1 (q := p.1) (r := p.2) hq).1
          exact (scmAdd_isInt this (y := .fix (-1)) ⟨by omega, by omega⟩).1
        | err => rw [hq] at e; exact absurd e (by simp)
        | ub => rw [hq] at e; exact absurd e (by simp)
      · unfold fixAshLeft at e; rw [if_pos (by omega)] at e; exact absurd e (by simp [Res.bind])
    · rw [if_neg h4] at e
      cases e
      refine (normalize_spec (Or.inl rfl) ?_ (rshift_words (canon_wf hx).words _)).1
      apply List.length_pos_iff.mp; rw [rshift_length]; omega

theorem fix0_canonical : (Num.fix 0).Canonical := ⟨by omega, by omega⟩

theorem logAnd_canonical {x y : Num} (hx : x.Canonical) (hy : y.Canonical) : (scmLogAnd x y).Canonical := by
  by_cases h : AndHole x.toInt y.toInt
  · rw [scmLogAnd_hole hx hy h]; exact fix0_canonical
  · exact (scmLogAnd_spec hx hy h).1

theorem logXor_canonical {x y : Num} (hx : x.Canonical) (hy : y.Canonical) : (scmLogXor x y).Canonical := by
  have main : (bignumLogXor (toBig x) (toBig y)).Canonical := by
    obtain ⟨ox, ex⟩ := toBig_ok hx
    obtain ⟨oy, ey⟩ := toBig_ok hy
    have i1 := (bignumLogIor_spec ox oy).1
    have a1 : (bignumLogAnd (toBig x) (toBig y)).Canonical := by
      by_cases h : AndHole x.toInt y.toInt
      · have h' := h
        obtain ⟨k, -, a2, -, a4, -⟩ := h'
        rw [bignumLogAnd_hole ox oy (toBig_top hx a2) (toBig_top hy a4) (by rw [ex, ey]; exact h)]; exact fix0_canonical
      · exact (bignumLogAnd_spec ox oy (by rw [ex, ey]; exact h)).1
    unfold bignumLogXor
    exact logAnd_canonical i1 (scmLogNot_spec a1).1
  cases x with
  | fix a =>
    cases y with
    | fix b => exact makeInt_canonical _
    | big b => exact main
  | big a => exact main

theorem expt_canonical {x y r : Num} (hx : x.Canonical) (hy : y.Canonical) (h0 : 0 ≤ y.toInt) (e : exactExpt x y = .ok r) : r.Canonical := by
  unfold exactExpt at e
  by_cases h1 : scmSign y = 0
  · rw [if_pos h1] at e; cases e; exact makeInt_canonical _
  rw [if_neg h1] at e
  by_cases h2 : x = .fix 1
  · rw [if_pos h2] at e; cases e; exact makeInt_canonical _
  rw [if_neg h2] at e
  by_cases h3 : x = .fix (-1)
  · rw [if_pos h3] at e; cases e; split <;> exact makeInt_canonical _
  rw [if_neg h3] at e
  cases y with
  | big b => exact absurd e (by simp)
  | fix iy =>
    dsimp only at e
    by_cases h4 : x = .fix 10 ∧ iy > 0 ∧ iy < 341
    · rw [if_pos h4] at e; cases e; exact (iexpt10_spec _).1
    rw [if_neg h4] at e
    by_cases h5 : x = .fix 2 ∧ iy > 0
    · rw [if_pos h5] at e
      refine ash_canonical (makeInt_canonical 1) ?_ e
      rintro ⟨h, -⟩; omega
    rw [if_neg h5] at e
    cases e
    exact (exptLoop_spec _ _ _ (makeInt_canonical 1) hx).1

end Gauche.Integer
