import Verif.Proof.NumText
namespace Gauche.NumText
open Gauche.Bignum Gauche.Integer Gauche.Rational Gauche.Radix Spec

/-! ### printing -/

theorem digitChar_table : ∀ r, r < 37 → ∀ c, c < r → ∀ u : Bool, digitOf r (digitChar u c) = some c := by decide +kernel
theorem digitChar_table2 : ∀ c, c < 36 → ∀ u : Bool, digitChar u c ≠ '_' ∧ (c ≠ 0 → digitChar u c ≠ '0') ∧
    (u = true → ¬ (97 ≤ (digitChar u c).toNat)) ∧ (u = false → ¬ (65 ≤ (digitChar u c).toNat ∧ (digitChar u c).toNat ≤ 90)) := by decide +kernel

/-- The digits of a positive number without leading zeros. -/
def Digs (r v : Nat) (ds : List Nat) : Prop := (∀ d ∈ ds, d < r) ∧ ofBE r ds = v ∧ ∃ d t, ds = d :: t ∧ d ≠ 0

theorem fixDigits_spec {r : Nat} (hr : 2 ≤ r) (u : Bool) (fuel : Nat) : ∀ (v : Nat) (acc : List Char), 0 < v → v < r ^ fuel →
    ∃ ds, Digs r v ds ∧ fixDigits r u fuel v acc = ds.map (digitChar u) ++ acc := by
  induction fuel with
  | zero => intro v acc h1 h2; simp at h2; omega
  | succ f ih =>
    intro v acc h1 h2
    rw [fixDigits, if_pos h1]
    by_cases h0 : v / r = 0
    · have hlt : v < r := by
        rcases Nat.div_eq_zero_iff.1 h0 with h | h <;> omega
      refine ⟨[v], ⟨by simpa using hlt, by simp [ofBE], v, [], rfl, by omega⟩, ?_⟩
      rw [h0, Nat.mod_eq_of_lt hlt]
      cases f with
      | zero => rfl
      | succ f => rw [fixDigits, if_neg (by omega)]; rfl
    · have hp : v / r < r ^ f := by
        rw [Nat.div_lt_iff_lt_mul (by omega)]; rwa [pow_succ] at h2
      obtain ⟨ds, ⟨d1, d2, d, t, d3, d4⟩, e⟩ := ih (v / r) (digitChar u (v % r) :: acc) (Nat.pos_of_ne_zero h0) hp
      refine ⟨ds ++ [v % r], ⟨?_, ?_, d, t ++ [v % r], by rw [d3]; rfl, d4⟩, ?_⟩
      · intro x hx
        rcases List.mem_append.1 hx with hx | hx
        · exact d1 x hx
        · simp at hx; rw [hx]; exact Nat.mod_lt _ (by omega)
      · rw [ofBE_append, d2]
        simp [ofBE]
        have := Nat.div_add_mod v r
        rw [Nat.mul_comm]; omega
      · rw [e]; simp

theorem digs_text {r : Nat} (hr : r ≤ 36) {v : Nat} {ds : List Nat} (h : Digs r v ds) (u strict : Bool) : UIntText r strict (ds.map (digitChar u)) v := by
  obtain ⟨h1, h2, d, t, h3, h4⟩ := h
  rw [uint_iff]
  refine ⟨ds, ?_, h2⟩
  rw [tokOk_iff]
  have hus : '_' ∉ ds.map (digitChar u) := by
    intro hm
    obtain ⟨c, hc, he⟩ := List.mem_map.1 hm
    exact (digitChar_table2 c (by have := h1 c hc; omega) u).1 he
  refine ⟨?_, fun _ => hus, ?_, ?_, ?_, ?_⟩
  · rw [List.filter_eq_self.2 (by
      intro c hc
      have : c ≠ '_' := by rintro rfl; exact hus hc
      simpa using this), List.map_map]
    apply List.map_congr_left
    intro c hc
    exact digitChar_table r (by omega) c (h1 c hc) u
  · intro hi
    exact hus (hi.subset (by simp))
  · intro hn; rw [h3] at hn; simp at hn
  · intro hl; exact hus (List.mem_of_getLast? hl)
  · intro hl; exact absurd (List.mem_of_head? hl) hus

theorem dropZeros_spec (l : List Nat) : val (dropZeros l).reverse = val l.reverse ∧ (Words l → Words (dropZeros l)) ∧
    (dropZeros l = [] ∨ ∃ w t, dropZeros l = w :: t ∧ w ≠ 0) ∧ (dropZeros l).length ≤ l.length := by
  induction l with
  | nil => exact ⟨rfl, fun h => h, Or.inl rfl, Nat.le_refl _⟩
  | cons w ws ih =>
    by_cases h : w = 0
    · rw [dropZeros, if_pos h]
      refine ⟨?_, fun hw => ih.2.1 (fun x hx => hw x (by simp [hx])), ih.2.2.1, by have := ih.2.2.2; simp; omega⟩
      rw [ih.1, List.reverse_cons, val_append, h]; simp [val]
    · rw [dropZeros, if_neg h]
      exact ⟨rfl, fun h => h, Or.inr ⟨w, ws, rfl, h⟩, Nat.le_refl _⟩

theorem val_pos_of_last {l : List Nat} (h : l ≠ []) (h0 : l.getLast h ≠ 0) : 0 < val l :=
  Nat.lt_of_lt_of_le (Nat.pow_pos (by norm_num)) (val_ge_of_getLast h h0)

/-- The digits of a bignum, least significant first. -/
theorem toDigits_spec {r : Nat} (hr : 2 ≤ r) (hr' : r ≤ 36) (fuel : Nat) : ∀ (q : List Nat), Words q → (∃ h : q ≠ [], q.getLast h ≠ 0) → val q < r ^ fuel →
    Digs r (val q) (toDigits r fuel q).reverse := by
  induction fuel with
  | zero =>
    rintro q hq ⟨h, hl⟩ hv
    have : 0 < val q := by
      have := val_pos_of_last h hl
      omega
    simp at hv; omega
  | succ f ih =>
    rintro q hq ⟨h, hl⟩ hv
    have hpos : 0 < val q := val_pos_of_last h hl
    obtain ⟨s1, s2, s3, s4⟩ := sdiv_spec (d := r) hq h (by omega) (by omega)
    obtain ⟨z1, z2, z3, z4⟩ := dropZeros_spec (sdiv q r).1.reverse
    rw [List.reverse_reverse, s4] at z1
    rw [toDigits, if_neg h]
    show Digs r (val q) ((sdiv q r).2 :: toDigits r f (dropZeros (sdiv q r).1.reverse).reverse).reverse
    rw [List.reverse_cons, s3]
    by_cases h0 : val q / r = 0
    · have hlt : val q < r := by
        rcases Nat.div_eq_zero_iff.1 h0 with h | h <;> omega
      have hz : dropZeros (sdiv q r).1.reverse = [] := by
        rcases z3 with h' | ⟨w, t, h', hw⟩
        · exact h'
        · exfalso
          rw [h', h0] at z1
          have := val_pos_of_last (l := (w :: t).reverse) (by simp) (by simpa using hw)
          omega
      rw [hz]
      have he : toDigits r f ([] : List Nat).reverse = [] := by cases f <;> simp [toDigits]
      rw [he, Nat.mod_eq_of_lt hlt]
      exact ⟨by simpa using hlt, by simp [ofBE], val q, [], rfl, by omega⟩
    · have hp : val q / r < r ^ f := by
        rw [Nat.div_lt_iff_lt_mul (by omega)]; rwa [pow_succ] at hv
      have hne : dropZeros (sdiv q r).1.reverse ≠ [] := by
        intro h'; rw [h'] at z1; simp [val] at z1; omega
      have hw2 : Words (dropZeros (sdiv q r).1.reverse).reverse := by
        intro x hx
        exact z2 (fun y hy => s2 y (by simpa using hy)) x (by simpa using hx)
      obtain ⟨d1, d2, d, t, d3, d4⟩ := ih (dropZeros (sdiv q r).1.reverse).reverse hw2 ⟨by simpa using hne, by
        rcases z3 with h' | ⟨w, t, h', hw⟩
        · exact absurd h' hne
        · simpa [h'] using hw⟩ (by rw [z1]; exact hp)
      refine ⟨?_, ?_, d, t ++ [val q % r], by rw [d3]; rfl, d4⟩
      · intro x hx
        rcases List.mem_append.1 hx with hx | hx
        · exact d1 x hx
        · simp at hx; rw [hx]; exact Nat.mod_lt _ (by omega)
      · rw [ofBE_append, d2, z1]
        simp [ofBE]
        have := Nat.div_add_mod (val q) r
        rw [Nat.mul_comm]; omega

theorem tab_eq : ∀ c, c < 36 → ∀ u : Bool, (if u then "0123456789ABCDEFGHIJKLMNOPQRSTUVWXYZ" else "0123456789abcdefghijklmnopqrstuvwxyz").toList.getD c '?' = digitChar u c := by
  decide +kernel

/-- The texts of the digits: what is printed for `|z|`. -/
def DigText (r : Nat) (u : Bool) (z : Int) (t : List Char) : Prop :=
  (z = 0 ∧ t = ['0']) ∨ (∃ ds, Digs r z.natAbs ds ∧ t = ds.map (digitChar u))

theorem printInt_spec {r : Nat} (hr : 2 ≤ r) (hr' : r ≤ 36) (u plus : Bool) {n : Num} (hn : n.Canonical) :
    ∃ t, DigText r u n.toInt t ∧
      printInt r u plus n = some ((if n.toInt < 0 then ['-'] else if plus then ['+'] else []) ++ t) := by
  cases n with
  | fix a =>
    obtain ⟨h1, h2⟩ : FIXMIN ≤ a ∧ a ≤ FIXMAX := hn
    by_cases h0 : a = 0
    · subst h0; exact ⟨['0'], Or.inl ⟨rfl, rfl⟩, rfl⟩
    · have hv : a.natAbs < r ^ 65 := by
        have h3 : (2 : Nat) ^ 65 ≤ r ^ 65 := Nat.pow_le_pow_left hr 65
        have : a.natAbs < 2 ^ 65 := by norm_num; omega
        omega
      obtain ⟨ds, d1, d2⟩ := fixDigits_spec hr u 65 a.natAbs [] (by omega) hv
      refine ⟨_, Or.inr ⟨ds, d1, rfl⟩, ?_⟩
      show (if a = 0 then _ else some (_ ++ fixDigits r u 65 a.natAbs [])) = _
      rw [if_neg h0, d2, List.append_nil]; rfl
  | big b =>
    have hpos := WF_val_pos hn
    obtain ⟨h1, h2, h3, h4⟩ := hn
    have hv : val b.vals < r ^ (64 * b.vals.length + 1) := by
      have := val_lt h2
      calc val b.vals < W64 ^ b.vals.length := this
        _ = 2 ^ (64 * b.vals.length) := by rw [pow_mul]; norm_num
        _ ≤ r ^ (64 * b.vals.length) := Nat.pow_le_pow_left hr _
        _ ≤ _ := Nat.pow_le_pow_right (by omega) (by omega)
    have hd := toDigits_spec hr hr' _ b.vals h2 h3 hv
    have habs : b.toInt.natAbs = val b.vals := by
      unfold Big.toInt
      rcases h1 with h | h <;> rw [h] <;> omega
    refine ⟨_, Or.inr ⟨_, by rw [show (Num.big b).toInt = b.toInt from rfl, habs]; exact hd, rfl⟩, ?_⟩
    have hm : (toDigits r (64 * b.vals.length + 1) b.vals).map (fun d => (if u then "0123456789ABCDEFGHIJKLMNOPQRSTUVWXYZ" else "0123456789abcdefghijklmnopqrstuvwxyz").toList.getD d '?')
        = (toDigits r (64 * b.vals.length + 1) b.vals).map (digitChar u) := by
      apply List.map_congr_left
      intro d hdd
      have := hd.1 d (by simpa using hdd)
      exact tab_eq d (by omega) u
    show (bignumToString b r u).map _ = _
    unfold bignumToString
    rw [if_neg (show ¬ (r < 2 ∨ r > 36) by omega)]
    simp only [hm]
    rw [show scmSign (.big b) = b.sign from rfl]
    have hs : (b.sign < 0 ↔ b.toInt < 0) ∧ (0 ≤ b.sign ↔ ¬ b.toInt < 0) := by
      unfold Big.toInt
      rcases h1 with h | h <;> rw [h] <;> omega
    simp only [Option.map_some, hs.1, hs.2, Option.some.injEq]
    show _ = (if b.toInt < 0 then ['-'] else if plus then ['+'] else []) ++ _
    by_cases hneg : b.toInt < 0
    · rw [if_pos hneg, if_pos hneg]; simp [hneg]
    · rw [if_neg hneg, if_neg hneg]; cases plus <;> simp [hneg]

theorem uint_weaken {r : Nat} {strict : Bool} {t : List Char} {n : Nat} (h : UIntText r true t n) : UIntText r strict t n :=
  ⟨h.1, h.2.1, h.2.2.1, h.2.2.2.1, fun _ => h.2.2.2.2 rfl⟩

theorem uint_unique {r : Nat} {strict : Bool} {t : List Char} {n m : Nat} (h1 : UIntText r strict t n) (h2 : UIntText r strict t m) : n = m := by
  obtain ⟨⟨ds, a1, _, a3⟩, _⟩ := h1
  obtain ⟨⟨es, b1, _, b3⟩, _⟩ := h2
  rw [a1] at b1
  have : ds = es := List.map_injective_iff.2 (Option.some_injective _) b1
  rw [← a3, ← b3, this]

theorem digText_printed {r : Nat} (hr : 2 ≤ r) (hr' : r ≤ 36) {u : Bool} {z : Int} {t : List Char} (h : DigText r u z t) : Printed r u t z.natAbs := by
  rcases h with ⟨rfl, rfl⟩ | ⟨ds, hd, rfl⟩
  · refine ⟨?_, Or.inl rfl, ?_⟩
    · refine ⟨⟨[0], ?_, by simp, by simp [ofBE]⟩, by simp, by simp, ?_, by simp⟩
      · simp [digitOf_zero hr]
      · intro h
        have := h.length_le
        simp at this
    · cases u <;> simp
  · refine ⟨digs_text hr' hd u true, Or.inr ?_, ?_⟩
    · obtain ⟨h1, _, d, t, rfl, h4⟩ := hd
      simp only [List.map_cons, List.head?_cons, ne_eq, Option.some.injEq]
      exact (digitChar_table2 d (by have := h1 d (by simp); omega) u).2.1 h4
    · intro c hc
      obtain ⟨d, hdm, rfl⟩ := List.mem_map.1 hc
      have := digitChar_table2 d (by have := hd.1 d hdm; omega) u
      cases u with
      | true => simpa using fun h => absurd h (this.2.2.1 rfl)
      | false => simpa using this.2.2.2 rfl

theorem radixPrefix_spec {r : Nat} (hr : 2 ≤ r) (hr' : r ≤ 36) : RadixPrefix false (radixPrefix r) r ∧
    (r = 2 ∨ r = 8 ∨ r = 10 ∨ r = 16 → RadixPrefix true (radixPrefix r) r) := by
  unfold radixPrefix
  by_cases h1 : r = 2
  · subst h1; simp [RadixPrefix]
  by_cases h2 : r = 8
  · subst h2; simp [RadixPrefix]
  by_cases h3 : r = 10
  · subst h3; simp [RadixPrefix]
  by_cases h4 : r = 16
  · subst h4; simp [RadixPrefix]
  rw [if_neg h1, if_neg h2, if_neg h3, if_neg h4]
  refine ⟨Or.inr (Or.inr (Or.inr (Or.inr ⟨rfl, hr, hr', ?_⟩))), by omega⟩
  obtain ⟨ds, ⟨d1, d2, d, t, d3, d4⟩, e⟩ := fixDigits_spec (r := 10) (by omega) false 65 r [] (by omega)
    (Nat.lt_of_le_of_lt hr' (by norm_num))
  refine ⟨ds.map (digitChar false), ds, 'r', by rw [e]; simp, Or.inl rfl, ?_, by rw [d3]; simp, d2⟩
  rw [List.map_map]
  apply List.map_congr_left
  intro c hc
  exact digitChar_table 10 (by omega) c (d1 c hc) false

/-- What `number->string` prints. -/
theorem numberToString_spec {x : Q} (hx : x.Canonical) {r : Nat} (hr : 2 ≤ r) (hr' : r ≤ 36) (f : Flags) :
    ∃ sg tn td, Printed r f.upper tn x.val.num.natAbs ∧ Printed r f.upper td x.val.den ∧
      sg = (if x.val < 0 then ['-'] else if f.plus then ['+'] else []) ∧
      numberToString x r f = some ((if f.radix then radixPrefix r else []) ++ (sg ++ if x.val.den = 1 then tn else tn ++ '/' :: td)) := by
  have hnot : ¬ (r < 2 ∨ r > 36) := by omega
  unfold numberToString
  simp only [if_neg hnot]
  obtain ⟨⟨n1, n2⟩, ⟨m1, m2⟩, -⟩ := num_den hx
  obtain ⟨tn, p1, p2⟩ := printInt_spec hr hr' f.upper f.plus n1
  obtain ⟨td, q1, q2⟩ := printInt_spec hr hr' f.upper false m1
  have pn := digText_printed hr hr' p1
  have pd := digText_printed hr hr' q1
  rw [n2] at pn p2
  rw [m2] at pd q2
  have hneg : x.val.num < 0 ↔ x.val < 0 := Rat.num_neg
  refine ⟨_, tn, td, pn, by simpa using pd, rfl, ?_⟩
  simp only [hneg] at p2
  rw [if_neg (by have := x.val.den_pos; omega)] at q2
  cases x with
  | int n =>
    have hd : (Q.int n).val.den = 1 := by show ((n.toInt : ℚ)).den = 1; simp
    rw [if_pos hd]
    show (printInt r f.upper f.plus n).map _ = _
    rw [show numerator (.int n) = n from rfl] at p2
    rw [p2]; rfl
  | rat n d =>
    have hd : (Q.rat n d).val.den ≠ 1 := by
      have h1 := m2
      have := hx.2.2.1
      rw [show denominator (.rat n d) = d from rfl] at h1
      omega
    rw [if_neg hd]
    show ((printInt r f.upper f.plus n).bind fun sn => (printInt r f.upper false d).map fun sd => _) = _
    rw [show numerator (.rat n d) = n from rfl] at p2
    rw [show denominator (.rat n d) = d from rfl] at q2
    rw [p2, q2]
    simp

end Gauche.NumText
