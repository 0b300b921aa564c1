import Verif.Proof.BitsWord
/-! Scanning a range of bits: any, every, count, lowest, highest. -/
namespace Gauche.Bits
open Spec

theorem bitAt_word {a : Arr} {w : Nat} {x : Word} (h : a[w]? = some x) (j : Nat) (hj : j < 64) :
    bitAt a (64 * w + j) = x.getLsbD j := by
  unfold bitAt
  rw [show (64 * w + j) / 64 = w by omega, show (64 * w + j) % 64 = j by omega, List.getD_eq_getElem?_getD, h]
  rfl

theorem rdw_some {a : Arr} {w : Nat} (v : Bool) (h : w < a.length) :
    ∃ x, rdw v a w = some x ∧ ∀ j, j < 64 → x.getLsbD j = (bitAt a (64 * w + j) == v) := by
  have h1 : a[w]? = some a[w] := List.getElem?_eq_getElem h
  refine ⟨if v then a[w] else ~~~ a[w], ?_, ?_⟩
  · unfold rdw; rw [h1]; rfl
  · intro j hj
    rw [bitAt_word h1 j hj]
    rcases v with _ | _
    · simp [hj]
    · simp

/-- `x` shows exactly the bits of `p` in `[lo, hi)`, a range inside word `w`. -/
structure Seg (p : Nat → Bool) (w lo hi : Nat) (x : Word) : Prop where
  lo_ge : 64 * w ≤ lo
  le : lo ≤ hi
  hi_le : hi ≤ 64 * w + 64
  bits : ∀ j, j < 64 → x.getLsbD j = (decide (lo ≤ 64 * w + j ∧ 64 * w + j < hi) && p (64 * w + j))

theorem Seg.test {p : Nat → Bool} {w lo hi : Nat} {x : Word} (g : Seg p w lo hi x) :
    (x != 0#64) = true ↔ ∃ i, lo ≤ i ∧ i < hi ∧ p i = true := by
  rw [ne_zero_iff]
  constructor
  · rintro ⟨j, hj, e⟩
    rw [g.bits j hj, Bool.and_eq_true, decide_eq_true_eq] at e
    exact ⟨_, e.1.1, e.1.2, e.2⟩
  · rintro ⟨i, h1, h2, h3⟩
    have l := g.lo_ge; have u := g.hi_le
    refine ⟨i - 64 * w, by omega, ?_⟩
    rw [g.bits _ (by omega), show 64 * w + (i - 64 * w) = i by omega, h3]
    simp [h1, h2]

theorem Seg.test_false {p : Nat → Bool} {w lo hi : Nat} {x : Word} (g : Seg p w lo hi x)
    (h : ¬ (x != 0#64) = true) (i : Nat) (h1 : lo ≤ i) (h2 : i < hi) : p i = false := by
  rcases e : p i with _ | _
  · rfl
  · exact absurd (g.test.2 ⟨i, h1, h2, e⟩) h

theorem Seg.low {p : Nat → Bool} {w lo hi : Nat} {x : Word} (g : Seg p w lo hi x)
    (h : (x != 0#64) = true) : lo ≤ lowest x + w * 64 ∧ lowest x + w * 64 < hi ∧
      p (lowest x + w * 64) = true ∧ ∀ i, lo ≤ i → i < lowest x + w * 64 → p i = false := by
  obtain ⟨a, b, c⟩ := lowest_spec x (by simpa using h)
  generalize lowest x = k at *
  have l := g.lo_ge; have u := g.hi_le
  rw [g.bits k a, Bool.and_eq_true, decide_eq_true_eq] at b
  refine ⟨by omega, by omega, by rw [show k + w * 64 = 64 * w + k by omega]; exact b.2, ?_⟩
  intro i h1 h2
  have := c (i - 64 * w) (by omega)
  rw [g.bits _ (by omega), show 64 * w + (i - 64 * w) = i by omega] at this
  have t : (lo ≤ i ∧ i < hi) := by omega
  simpa [t] using this

theorem Seg.high {p : Nat → Bool} {w lo hi : Nat} {x : Word} (g : Seg p w lo hi x)
    (h : (x != 0#64) = true) : lo ≤ highest x + w * 64 ∧ highest x + w * 64 < hi ∧
      p (highest x + w * 64) = true ∧ ∀ i, highest x + w * 64 < i → i < hi → p i = false := by
  obtain ⟨a, b, c⟩ := highest_spec x (by simpa using h)
  generalize highest x = k at *
  have l := g.lo_ge; have u := g.hi_le
  rw [g.bits k a, Bool.and_eq_true, decide_eq_true_eq] at b
  refine ⟨by omega, by omega, by rw [show k + w * 64 = 64 * w + k by omega]; exact b.2, ?_⟩
  intro i h1 h2
  have := c (i - 64 * w) (by omega)
  rw [g.bits _ (by omega), show 64 * w + (i - 64 * w) = i by omega] at this
  have t : (lo ≤ i ∧ i < hi) := by omega
  simpa [t] using this

/-- the number of `i` in `[lo, lo+n)` with `p i` -/
def cnt (p : Nat → Bool) (lo n : Nat) : Nat := ((List.range' lo n).filter p).length

theorem cnt_add (p : Nat → Bool) (lo m n : Nat) : cnt p lo (m + n) = cnt p lo m + cnt p (lo + m) n := by
  unfold cnt
  rw [← List.length_append, ← List.filter_append]
  have := List.range'_append (s := lo) (m := m) (n := n) (step := 1)
  rw [Nat.one_mul] at this
  rw [this]

theorem cnt_congr {p q : Nat → Bool} {lo n : Nat} (h : ∀ i, lo ≤ i → i < lo + n → p i = q i) :
    cnt p lo n = cnt q lo n := by
  unfold cnt
  congr 1
  apply List.filter_congr
  intro i hi
  rw [List.mem_range'_1] at hi
  exact h i hi.1 hi.2

theorem cnt_false {p : Nat → Bool} {lo n : Nat} (h : ∀ i, lo ≤ i → i < lo + n → p i = false) :
    cnt p lo n = 0 := by
  unfold cnt
  rw [List.length_eq_zero_iff, List.filter_eq_nil_iff]
  intro i hi
  rw [List.mem_range'_1] at hi
  simp [h i hi.1 hi.2]

theorem cnt_shift (p : Nat → Bool) (a lo n : Nat) : cnt p (a + lo) n = cnt (fun i => p (a + i)) lo n := by
  unfold cnt
  rw [← List.map_add_range', List.filter_map, List.length_map]
  rfl

theorem Seg.count {p : Nat → Bool} {w lo hi : Nat} {x : Word} (g : Seg p w lo hi x) :
    countWord x = cnt p lo (hi - lo) := by
  have l := g.lo_ge; have u := g.hi_le; have m := g.le
  rw [countWord_pop]
  have e0 : pop x.toNat 64 = cnt (fun i => x.getLsbD i) 0 64 := by
    unfold pop cnt
    rw [List.range_eq_range']
    rfl
  have e1 : ∀ q : Nat → Bool, cnt q 0 64 = cnt q 0 ((lo - 64 * w) + ((hi - lo) + (64 * w + 64 - hi))) := by
    intro q; congr 1; omega
  rw [e0, e1, cnt_add, cnt_add]
  rw [cnt_false (lo := 0), cnt_false (lo := _ + (hi - lo))]
  · rw [Nat.zero_add, Nat.zero_add, Nat.add_zero]
    rw [show cnt p lo (hi - lo) = cnt p (64 * w + (lo - 64 * w)) (hi - lo) by congr 1; omega, cnt_shift]
    apply cnt_congr
    intro i h1 h2
    rw [g.bits i (by omega)]
    have t : lo ≤ 64 * w + i ∧ 64 * w + i < hi := by omega
    simp [t]
  · intro i h1 h2
    rw [g.bits i (by omega)]
    have t : ¬ (lo ≤ 64 * w + i ∧ 64 * w + i < hi) := by omega
    simp [t]
  · intro i h1 h2
    rw [g.bits i (by omega)]
    have t : ¬ (lo ≤ 64 * w + i ∧ 64 * w + i < hi) := by omega
    simp [t]

/-! ### The words of a range are segments -/

def Shows (p : Nat → Bool) (w : Nat) (x : Word) : Prop := ∀ j, j < 64 → x.getLsbD j = p (64 * w + j)

theorem Seg.full {p : Nat → Bool} {w : Nat} {x : Word} (h : Shows p w x) : Seg p w (64 * w) (64 * w + 64) x :=
  ⟨Nat.le_refl _, by omega, Nat.le_refl _, fun j hj => by
    rw [h j hj]
    have : 64 * w ≤ 64 * w + j ∧ 64 * w + j < 64 * w + 64 := by omega
    rw [decide_eq_true this]; rfl⟩

theorem Seg.one {p : Nat → Bool} {x : Word} {s e : Nat} (h : Shows p (s / 64) x) (hse : s < e)
    (hw : s / 64 = (e - 1) / 64) : Seg p (s / 64) s e (x &&& maskSE (s % 64) (e % 64)) := by
  refine ⟨by omega, by omega, by omega, fun j hj => ?_⟩
  rw [BitVec.getLsbD_and, h j hj, maskSE_get _ _ _ (by omega) (by omega) hj, Bool.and_comm]
  congr 1
  rw [← Bool.decide_or, ← Bool.decide_and, decide_eq_decide]
  omega

theorem Seg.first {p : Nat → Bool} {x : Word} {s : Nat} (h : Shows p (s / 64) x) :
    Seg p (s / 64) s (64 * (s / 64) + 64) (x &&& maskSE (s % 64) 0) := by
  refine ⟨by omega, by omega, by omega, fun j hj => ?_⟩
  rw [BitVec.getLsbD_and, h j hj, maskSE_get _ _ _ (by omega) (by omega) hj, Bool.and_comm]
  congr 1
  rw [← Bool.decide_or, ← Bool.decide_and, decide_eq_decide]
  omega

theorem Seg.last {p : Nat → Bool} {x : Word} {e : Nat} (h : Shows p ((e - 1) / 64) x) (he : 0 < e) :
    Seg p ((e - 1) / 64) (64 * ((e - 1) / 64)) e (x &&& maskSE 0 (e % 64)) := by
  refine ⟨by omega, by omega, by omega, fun j hj => ?_⟩
  rw [BitVec.getLsbD_and, h j hj, maskSE_get _ _ _ (by omega) (by omega) hj, Bool.and_comm]
  congr 1
  rw [← Bool.decide_or, ← Bool.decide_and, decide_eq_decide]
  omega

/-! ### any, every -/

/-- the predicate scanned by the `v` variants -/
def pv (v : Bool) (a : Arr) (i : Nat) : Bool := bitAt a i == v

theorem rdw_shows (v : Bool) {a : Arr} {w : Nat} (h : w < a.length) : ∃ x, rdw v a w = some x ∧ Shows (pv v a) w x :=
  rdw_some v h

theorem rd_of_true {a : Arr} {w : Nat} {x : Word} (h : rdw true a w = some x) : a[w]? = some x := by
  unfold rdw at h
  rcases e : a[w]? with _ | y
  · rw [e] at h; cases h
  · rw [e] at h; exact h

theorem rd_of_false {a : Arr} {w : Nat} {x : Word} (h : rdw false a w = some x) : a[w]? = some (~~~ x) := by
  unfold rdw at h
  rcases e : a[w]? with _ | y
  · rw [e] at h; cases h
  · rw [e] at h
    have h : ~~~ y = x := Option.some.inj h
    rw [← h, BitVec.not_not]

theorem anyWords_spec (a : Arr) (k : Option Bool) (n w : Nat) (h : w + n ≤ a.length) :
    ((∃ i, 64 * w ≤ i ∧ i < 64 * (w + n) ∧ pv true a i = true) ∧ anyWords a k n w = some true) ∨
    ((∀ i, 64 * w ≤ i → i < 64 * (w + n) → pv true a i = false) ∧ anyWords a k n w = k) := by
  induction n generalizing w with
  | zero => exact .inr ⟨fun i h1 h2 => by omega, rfl⟩
  | succ n ih =>
    obtain ⟨x, e, g⟩ := rdw_shows true (a := a) (w := w) (by omega)
    have g := Seg.full g
    have e := rd_of_true e
    simp only [anyWords, e, Option.bind_some]
    by_cases hx : (x != 0#64) = true
    · rw [if_pos hx]
      obtain ⟨i, h1, h2, h3⟩ := g.test.1 hx
      exact .inl ⟨⟨i, h1, by omega, h3⟩, rfl⟩
    · rw [if_neg hx]
      rcases ih (w + 1) (by omega) with ⟨⟨i, h1, h2, h3⟩, e2⟩ | ⟨h1, e2⟩
      · exact .inl ⟨⟨i, by omega, by omega, h3⟩, e2⟩
      · refine .inr ⟨fun i h2 h3 => ?_, e2⟩
        by_cases hi : i < 64 * w + 64
        · exact g.test_false hx i h2 hi
        · exact h1 i (by omega) (by omega)

theorem any_spec (a : Arr) (s e : Nat) (hse : s ≤ e) (he : e ≤ 64 * a.length) :
    ∃ r, any a s e = some r ∧ (r = true ↔ ∃ i, s ≤ i ∧ i < e ∧ bitAt a i = true) := by
  have P : ∀ i, (pv true a i = true ↔ bitAt a i = true) := fun i => by simp [pv]
  simp only [any]
  by_cases h0 : s = e
  · rw [if_pos h0]
    exact ⟨false, rfl, by constructor; · intro h; cases h
                          · rintro ⟨i, h1, h2, _⟩; omega⟩
  rw [if_neg h0]
  obtain ⟨x, ex, gx⟩ := rdw_shows true (a := a) (w := s / 64) (by omega)
  by_cases hw : s / 64 = (e - 1) / 64
  · rw [if_pos hw, rd_of_true ex]
    refine ⟨_, rfl, ?_⟩
    rw [(Seg.one gx (by omega) hw).test]
    simp only [P]
  · rw [if_neg hw, rd_of_true ex, Option.bind_some]
    have g := Seg.first gx
    obtain ⟨y, ey, gy⟩ := rdw_shows true (a := a) (w := (e - 1) / 64) (by omega)
    have gl := Seg.last gy (by omega)
    by_cases hx : ((x &&& maskSE (s % 64) 0) != 0#64) = true
    · rw [if_pos hx]
      obtain ⟨i, h1, h2, h3⟩ := g.test.1 hx
      exact ⟨true, rfl, fun _ => ⟨i, h1, by omega, (P i).1 h3⟩, fun _ => rfl⟩
    · rw [if_neg hx, rd_of_true ey]
      rcases anyWords_spec a ((some y).map fun y => (y &&& maskSE 0 (e % 64)) != 0#64)
        ((e - 1) / 64 - (s / 64 + 1)) (s / 64 + 1) (by omega) with ⟨⟨i, h1, h2, h3⟩, e2⟩ | ⟨h1, e2⟩
      · rw [e2]
        exact ⟨true, rfl, fun _ => ⟨i, by omega, by omega, (P i).1 h3⟩, fun _ => rfl⟩
      · rw [e2]
        refine ⟨_, rfl, ?_⟩
        rw [gl.test]
        constructor
        · rintro ⟨i, h2, h3, h4⟩
          exact ⟨i, by omega, h3, (P i).1 h4⟩
        · rintro ⟨i, h2, h3, h4⟩
          refine ⟨i, ?_, h3, (P i).2 h4⟩
          apply Classical.byContradiction
          intro hn
          have : pv true a i = false := by
            by_cases hi : i < 64 * (s / 64) + 64
            · exact g.test_false hx i h2 hi
            · exact h1 i (by omega) (by omega)
          rw [(P i).2 h4] at this
          cases this

theorem everyWords_any (a : Arr) (k : Option Bool) (n w : Nat) :
    everyWords a k n w = (anyWords (a.map fun x => ~~~ x) (k.map not) n w).map not := by
  induction n generalizing w with
  | zero => simp [everyWords, anyWords, Function.comp_def]
  | succ n ih =>
    simp only [everyWords, anyWords, List.getElem?_map]
    rcases a[w]? with _ | x
    · rfl
    · simp only [Option.bind_some, Option.map_some]
      by_cases hx : (~~~ x != 0#64) = true
      · rw [if_pos hx, if_pos hx]; rfl
      · rw [if_neg hx, if_neg hx, ih]

theorem every_any (a : Arr) (s e : Nat) : every a s e = (any (a.map fun x => ~~~ x) s e).map not := by
  simp only [every, any, List.getElem?_map]
  by_cases h0 : s = e
  · rw [if_pos h0, if_pos h0]; rfl
  rw [if_neg h0, if_neg h0]
  by_cases hw : s / 64 = (e - 1) / 64
  · rw [if_pos hw, if_pos hw]
    rcases a[s / 64]? with _ | x <;> rfl
  · rw [if_neg hw, if_neg hw]
    rcases a[s / 64]? with _ | x
    · rfl
    · simp only [Option.bind_some, Option.map_some]
      by_cases hx : ((~~~ x &&& maskSE (s % 64) 0) != 0#64) = true
      · rw [if_pos hx, if_pos hx]; rfl
      · rw [if_neg hx, if_neg hx, everyWords_any]
        rcases a[(e - 1) / 64]? with _ | y
        · rfl
        · simp

theorem bitAt_compl (a : Arr) (i : Nat) (hi : i < 64 * a.length) :
    bitAt (a.map fun x => ~~~ x) i = !bitAt a i := by
  have h : i / 64 < a.length := by omega
  have h1 : a[i / 64]? = some a[i / 64] := List.getElem?_eq_getElem h
  have h2 : (a.map fun x => ~~~ x)[i / 64]? = some (~~~ a[i / 64]) := by rw [List.getElem?_map, h1]; rfl
  have := bitAt_word h1 (i % 64) (by omega)
  have t := bitAt_word h2 (i % 64) (by omega)
  rw [show 64 * (i / 64) + i % 64 = i by omega] at this t
  rw [t, this, BitVec.getLsbD_not]
  have : i % 64 < 64 := by omega
  simp [this]

theorem every_spec (a : Arr) (s e : Nat) (hse : s ≤ e) (he : e ≤ 64 * a.length) :
    ∃ r, every a s e = some r ∧ (r = true ↔ ∀ i, s ≤ i → i < e → bitAt a i = true) := by
  obtain ⟨r, h1, h2⟩ := any_spec (a.map fun x => ~~~ x) s e hse (by simpa using he)
  refine ⟨!r, by rw [every_any, h1]; rfl, ?_⟩
  rw [Bool.not_eq_true', ← Bool.not_eq_true, h2]
  constructor
  · intro h i h3 h4
    rcases e2 : bitAt a i with _ | _
    · exact absurd ⟨i, h3, h4, by rw [bitAt_compl a i (by omega), e2]; rfl⟩ h
    · rfl
  · rintro h ⟨i, h3, h4, h5⟩
    rw [bitAt_compl a i (by omega), h i h3 h4] at h5
    cases h5

/-! ### count -/

theorem countWords_spec (v : Bool) (a : Arr) (n w num : Nat) (h : w + n ≤ a.length) :
    countWords v a n w num = some (num + cnt (pv v a) (64 * w) (64 * n)) := by
  induction n generalizing w num with
  | zero => rfl
  | succ n ih =>
    obtain ⟨x, e, g⟩ := rdw_shows v (a := a) (w := w) (by omega)
    simp only [countWords, e, Option.bind_some]
    rw [ih (w + 1) _ (by omega), (Seg.full g).count, show 64 * (n + 1) = 64 + 64 * n by omega, cnt_add,
      show 64 * w + 64 - 64 * w = 64 by omega, show 64 * (w + 1) = 64 * w + 64 by omega, Nat.add_assoc]

theorem count_spec (v : Bool) (a : Arr) (s e : Nat) (hse : s ≤ e) (he : e ≤ 64 * a.length) :
    count v a s e = some (cnt (pv v a) s (e - s)) := by
  simp only [count]
  by_cases h0 : s = e
  · rw [if_pos h0, h0, Nat.sub_self]; rfl
  rw [if_neg h0]
  obtain ⟨x, ex, gx⟩ := rdw_shows v (a := a) (w := s / 64) (by omega)
  by_cases hw : s / 64 = (e - 1) / 64
  · rw [if_pos hw, ex, Option.map_some, (Seg.one gx (by omega) hw).count]
  · rw [if_neg hw, ex, Option.bind_some]
    obtain ⟨y, ey, gy⟩ := rdw_shows v (a := a) (w := (e - 1) / 64) (by omega)
    rw [countWords_spec v a _ _ _ (by omega), Option.bind_some, ey, Option.map_some,
      (Seg.first gx).count, (Seg.last gy (by omega)).count]
    congr 1
    generalize hA : s / 64 = A at *
    generalize hB : (e - 1) / 64 = B at *
    rw [show e - s = (64 * A + 64 - s) + (64 * (B - (A + 1)) + (e - 64 * B)) by omega, cnt_add, cnt_add,
      show s + (64 * A + 64 - s) = 64 * (A + 1) by omega,
      show 64 * (A + 1) + 64 * (B - (A + 1)) = 64 * B by omega, Nat.add_assoc]

/-! ### lowest, highest -/

/-- Outcome of a search over `[lo, hi)` that goes on with `k` when nothing is found. -/
def Low (p : Nat → Bool) (lo hi : Nat) (k r : Option Int) : Prop :=
  (r = k ∧ ∀ i, lo ≤ i → i < hi → p i = false) ∨
  ∃ m : Nat, r = some (m : Int) ∧ lo ≤ m ∧ m < hi ∧ p m = true ∧ ∀ i, lo ≤ i → i < m → p i = false

def High (p : Nat → Bool) (lo hi : Nat) (k r : Option Int) : Prop :=
  (r = k ∧ ∀ i, lo ≤ i → i < hi → p i = false) ∨
  ∃ m : Nat, r = some (m : Int) ∧ lo ≤ m ∧ m < hi ∧ p m = true ∧ ∀ i, m < i → i < hi → p i = false

theorem Seg.orLow {p : Nat → Bool} {w lo hi : Nat} {x : Word} (g : Seg p w lo hi x) (k : Option Int) :
    Low p lo hi k (orLow x w k) := by
  unfold Bits.orLow
  by_cases hx : (x != 0#64) = true
  · rw [if_pos hx]
    obtain ⟨a, b, c, d⟩ := g.low hx
    exact .inr ⟨_, rfl, a, b, c, d⟩
  · rw [if_neg hx]
    exact .inl ⟨rfl, g.test_false hx⟩

theorem Seg.orHigh {p : Nat → Bool} {w lo hi : Nat} {x : Word} (g : Seg p w lo hi x) (k : Option Int) :
    High p lo hi k (orHigh x w k) := by
  unfold Bits.orHigh
  by_cases hx : (x != 0#64) = true
  · rw [if_pos hx]
    obtain ⟨a, b, c, d⟩ := g.high hx
    exact .inr ⟨_, rfl, a, b, c, d⟩
  · rw [if_neg hx]
    exact .inl ⟨rfl, g.test_false hx⟩

/-- Two adjacent low searches. -/
theorem Low.seq {p : Nat → Bool} {lo mid hi : Nat} {k k1 r : Option Int} (h : lo ≤ mid) (h' : mid ≤ hi)
    (h1 : Low p lo mid k1 r) (h2 : Low p mid hi k k1) : Low p lo hi k r := by
  rcases h1 with ⟨rfl, a⟩ | ⟨m, e, b1, b2, b3, b4⟩
  · rcases h2 with ⟨rfl, c⟩ | ⟨m, e, b1, b2, b3, b4⟩
    · refine .inl ⟨rfl, fun i x y => ?_⟩
      by_cases hi : i < mid
      · exact a i x hi
      · exact c i (by omega) y
    · refine .inr ⟨m, e, by omega, b2, b3, fun i x y => ?_⟩
      by_cases hi : i < mid
      · exact a i x hi
      · exact b4 i (by omega) y
  · exact .inr ⟨m, e, b1, by omega, b3, b4⟩

theorem High.seq {p : Nat → Bool} {lo mid hi : Nat} {k k1 r : Option Int} (h : lo ≤ mid) (h' : mid ≤ hi)
    (h1 : High p mid hi k1 r) (h2 : High p lo mid k k1) : High p lo hi k r := by
  rcases h1 with ⟨rfl, a⟩ | ⟨m, e, b1, b2, b3, b4⟩
  · rcases h2 with ⟨rfl, c⟩ | ⟨m, e, b1, b2, b3, b4⟩
    · refine .inl ⟨rfl, fun i x y => ?_⟩
      by_cases hi : i < mid
      · exact c i x hi
      · exact a i (by omega) y
    · refine .inr ⟨m, e, b1, by omega, b3, fun i x y => ?_⟩
      by_cases hi : i < mid
      · exact b4 i x hi
      · exact a i (by omega) y
  · exact .inr ⟨m, e, by omega, b2, b3, b4⟩

theorem lowWords_spec (v : Bool) (a : Arr) (k : Option Int) (n w : Nat) (h : w + n ≤ a.length) :
    Low (pv v a) (64 * w) (64 * (w + n)) k (lowWords v a k n w) := by
  induction n generalizing w with
  | zero => exact .inl ⟨rfl, fun i h1 h2 => by omega⟩
  | succ n ih =>
    obtain ⟨x, e, g⟩ := rdw_shows v (a := a) (w := w) (by omega)
    simp only [lowWords, e, Option.bind_some]
    have := ih (w + 1) (by omega)
    rw [show 64 * (w + 1) = 64 * w + 64 by omega, show w + 1 + n = w + (n + 1) by omega] at this
    exact Low.seq (by omega) (by omega) ((Seg.full g).orLow _) this

theorem highWords_spec (v : Bool) (a : Arr) (k : Option Int) (n w : Nat) (h : w < a.length) (hn : n ≤ w + 1) :
    High (pv v a) (64 * (w + 1 - n)) (64 * (w + 1)) k (highWords v a k n w) := by
  induction n generalizing w with
  | zero => exact .inl ⟨rfl, fun i h1 h2 => by omega⟩
  | succ n ih =>
    obtain ⟨x, e, g⟩ := rdw_shows v (a := a) (w := w) (by omega)
    simp only [highWords, e, Option.bind_some]
    have g := (Seg.full g).orHigh (highWords v a k n (w - 1))
    rw [show 64 * w + 64 = 64 * (w + 1) by omega] at g
    rcases Nat.eq_zero_or_pos w with rfl | hw
    · obtain rfl : n = 0 := by omega
      exact g
    · have := ih (w - 1) (by omega) (by omega)
      rw [show w - 1 + 1 = w by omega] at this
      rw [show w + 1 - (n + 1) = w - n by omega]
      exact High.seq (by omega) (by omega) g this

theorem lowest_ok (v : Bool) (a : Arr) (s e : Nat) (hse : s ≤ e) (he : e ≤ 64 * a.length)
    (hal : s % 64 = 0 ∨ s / 64 = (e - 1) / 64) : Low (pv v a) s e (some (-1)) (lowestBit v a s e) := by
  simp only [lowestBit]
  by_cases h0 : s = e
  · rw [if_pos h0]; exact .inl ⟨rfl, fun i h1 h2 => by omega⟩
  rw [if_neg h0]
  obtain ⟨x, ex, gx⟩ := rdw_shows v (a := a) (w := s / 64) (by omega)
  by_cases hw : (e - 1) / 64 = s / 64
  · rw [if_pos hw, ex, Option.bind_some]
    exact (Seg.one gx (by omega) hw.symm).orLow _
  · rw [if_neg hw, ex, Option.bind_some]
    obtain ⟨y, ey, gy⟩ := rdw_shows v (a := a) (w := (e - 1) / 64) (by omega)
    have g1 := (Seg.first gx).orLow (lowWords v a ((rdw v a ((e - 1) / 64)).bind fun y =>
      orLow (y &&& maskSE 0 (e % 64)) ((e - 1) / 64) (some (-1))) ((e - 1) / 64 - s / 64) (s / 64))
    have hs : s % 64 = 0 := by omega
    have g2 := lowWords_spec v a ((rdw v a ((e - 1) / 64)).bind fun y =>
      orLow (y &&& maskSE 0 (e % 64)) ((e - 1) / 64) (some (-1))) ((e - 1) / 64 - s / 64) (s / 64) (by omega)
    have g3 := (Seg.last gy (by omega)).orLow (some (-1))
    rw [ey, Option.bind_some] at g1 g2 ⊢
    generalize lowWords v a _ _ _ = q at *
    -- the loop rescans the first word from its beginning, which is where the range begins
    have es : 64 * (s / 64) = s := by omega
    rw [es, show 64 * (s / 64 + ((e - 1) / 64 - s / 64)) = 64 * ((e - 1) / 64) by omega] at g2
    have g4 := Low.seq (by omega) (by omega) g2 g3
    rcases g1 with ⟨e1, _⟩ | ⟨m, e1, m1, m2, m3, m4⟩
    · rw [e1]; exact g4
    · exact .inr ⟨m, e1, m1, by omega, m3, m4⟩

theorem highest_ok (v : Bool) (a : Arr) (s e : Nat) (hse : s ≤ e) (he : e ≤ 64 * a.length) :
    High (pv v a) s e (some (-1)) (highestBit v a s e) := by
  simp only [highestBit]
  by_cases h0 : s = e
  · rw [if_pos h0]; exact .inl ⟨rfl, fun i h1 h2 => by omega⟩
  rw [if_neg h0]
  obtain ⟨x, ex, gx⟩ := rdw_shows v (a := a) (w := s / 64) (by omega)
  by_cases hw : (e - 1) / 64 = s / 64
  · rw [if_pos hw, ex, Option.bind_some]
    exact (Seg.one gx (by omega) hw.symm).orHigh _
  · rw [if_neg hw]
    obtain ⟨y, ey, gy⟩ := rdw_shows v (a := a) (w := (e - 1) / 64) (by omega)
    rw [ey, Option.bind_some, ex, Option.bind_some]
    have g1 := (Seg.first gx).orHigh (some (-1))
    have g2 := highWords_spec v a (orHigh (x &&& maskSE (s % 64) 0) (s / 64) (some (-1)))
      ((e - 1) / 64 - 1 - s / 64) ((e - 1) / 64 - 1) (by omega) (by omega)
    have g3 := (Seg.last gy (by omega)).orHigh (highWords v a (orHigh (x &&& maskSE (s % 64) 0) (s / 64) (some (-1)))
      ((e - 1) / 64 - 1 - s / 64) ((e - 1) / 64 - 1))
    rw [show 64 * ((e - 1) / 64 - 1 + 1 - ((e - 1) / 64 - 1 - s / 64)) = 64 * (s / 64) + 64 by omega,
      show 64 * ((e - 1) / 64 - 1 + 1) = 64 * ((e - 1) / 64) by omega] at g2
    exact High.seq (by omega) (by omega) g3 (High.seq (by omega) (by omega) g2 g1)

end Gauche.Bits
