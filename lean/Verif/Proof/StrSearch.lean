import Verif.Proof.StrOps

namespace Gauche.Str
open Gauche.Utf8 Gauche.Spec.Utf8

/-- The bytes of `s2` are at `i` in `s1`. -/
def MatchAt (s1 s2 : Mem) (siz2 i : Nat) : Prop := ∀ j < siz2, s1 (i + j) = s2 j

theorem eqBytes_iff (p q : Mem) (n : Nat) : eqBytes p q n = true ↔ ∀ i < n, p i = q i := by
  simp [eqBytes]

theorem eqBytes_adv (s1 s2 : Mem) (n i : Nat) : eqBytes s2 (adv s1 i) n = true ↔ MatchAt s1 s2 n i := by
  rw [eqBytes_iff]
  exact ⟨fun h j hj => (h j hj).symm, fun h j hj => (h j hj).symm⟩

theorem memchr_spec (p : Mem) (c off n : Nat) :
    match memchr p c off n with
    | some r => off ≤ r ∧ r < off + n ∧ p r = c ∧ ∀ i, off ≤ i → i < r → p i ≠ c
    | none => ∀ i, off ≤ i → i < off + n → p i ≠ c := by
  induction n generalizing off with
  | zero => intro i; omega
  | succ n ih =>
    rw [memchr]
    by_cases h : p off = c
    · rw [if_pos h]; exact ⟨by omega, by omega, h, by omega⟩
    · rw [if_neg h]
      have := ih (off + 1)
      split at this
      · rename_i r e
        obtain ⟨h1, h2, h3, h4⟩ := this
        refine ⟨by omega, by omega, h3, fun i hi hr => ?_⟩
        by_cases e : i = off
        · subst e; exact h
        · exact h4 i (by omega) hr
      · intro i hi hn
        by_cases e : i = off
        · subst e; exact h
        · exact this i (by omega) (by omega)

theorem memrchr_spec (p : Mem) (c n : Nat) :
    match memrchr p c n with
    | some r => r < n ∧ p r = c ∧ ∀ i, r < i → i < n → p i ≠ c
    | none => ∀ i, i < n → p i ≠ c := by
  induction n with
  | zero => intro i; omega
  | succ n ih =>
    rw [memrchr]
    by_cases h : p n = c
    · rw [if_pos h]; exact ⟨by omega, h, by omega⟩
    · rw [if_neg h]
      split at ih
      · rename_i r e
        obtain ⟨h1, h2, h3⟩ := ih
        refine ⟨by omega, h2, fun i hi hr => ?_⟩
        by_cases e : i = n
        · subst e; exact h
        · exact h3 i (by omega) (by omega)
      · intro i hi
        by_cases e : i = n
        · subst e; exact h
        · exact ih i (by omega)

theorem bruteFwd_spec (s1 s2 : Mem) (siz2 off n : Nat) :
    match bruteFwd s1 s2 siz2 off n with
    | some r => off ≤ r ∧ r < off + n ∧ MatchAt s1 s2 siz2 r ∧ ∀ i, off ≤ i → i < r → ¬ MatchAt s1 s2 siz2 i
    | none => ∀ i, off ≤ i → i < off + n → ¬ MatchAt s1 s2 siz2 i := by
  induction n generalizing off with
  | zero => intro i; omega
  | succ n ih =>
    rw [bruteFwd]
    by_cases h : MatchAt s1 s2 siz2 off
    · rw [if_pos ((eqBytes_adv _ _ _ _).2 h)]; exact ⟨by omega, by omega, h, by omega⟩
    · rw [if_neg (by rw [eqBytes_adv]; exact h)]
      have := ih (off + 1)
      split at this
      · rename_i r e
        obtain ⟨h1, h2, h3, h4⟩ := this
        refine ⟨by omega, by omega, h3, fun i hi hr => ?_⟩
        by_cases e : i = off
        · subst e; exact h
        · exact h4 i (by omega) hr
      · intro i hi hn
        by_cases e : i = off
        · subst e; exact h
        · exact this i (by omega) (by omega)

theorem bruteRev_spec (s1 s2 : Mem) (siz2 n : Nat) :
    match bruteRev s1 s2 siz2 n with
    | some r => r < n ∧ MatchAt s1 s2 siz2 r ∧ ∀ i, r < i → i < n → ¬ MatchAt s1 s2 siz2 i
    | none => ∀ i, i < n → ¬ MatchAt s1 s2 siz2 i := by
  induction n with
  | zero => intro i; omega
  | succ n ih =>
    rw [bruteRev]
    by_cases h : MatchAt s1 s2 siz2 n
    · rw [if_pos ((eqBytes_adv _ _ _ _).2 h)]; exact ⟨by omega, h, by omega⟩
    · rw [if_neg (by rw [eqBytes_adv]; exact h)]
      split at ih
      · rename_i r e
        obtain ⟨h1, h2, h3⟩ := ih
        refine ⟨by omega, h2, fun i hi hr => ?_⟩
        by_cases e : i = n
        · subst e; exact h
        · exact h3 i (by omega) (by omega)
      · intro i hi
        by_cases e : i = n
        · subst e; exact h
        · exact ih i (by omega)

/-! ## Boyer-Moore -/

theorem bmShift_aux (s2 : Mem) (siz2 : Nat) (h1 : 1 ≤ siz2) (h2 : siz2 < 256) (c n : Nat) (hn : n ≤ siz2 - 1) :
    let t := (List.range n).foldl (fun t j => fun c => if c = s2 j then (siz2 - j - 1) % 256 else t c)
      (fun _ => siz2 % 256)
    1 ≤ t c ∧ t c ≤ siz2 ∧ ∀ j < n, s2 j = c → t c ≤ siz2 - 1 - j := by
  induction n with
  | zero => simp [Nat.mod_eq_of_lt h2]; omega
  | succ n ih =>
    obtain ⟨i1, i2, i3⟩ := ih (by omega)
    rw [List.range_succ, List.foldl_append]
    simp only [List.foldl_cons, List.foldl_nil]
    split
    · rename_i e
      rw [Nat.mod_eq_of_lt (by omega)]
      exact ⟨by omega, by omega, fun j hj _ => by omega⟩
    · rename_i e
      refine ⟨i1, i2, fun j hj hjc => ?_⟩
      by_cases ej : j = n
      · subst ej; exact absurd hjc.symm e
      · exact i3 j (by omega) hjc

theorem bmShift_spec (s2 : Mem) (siz2 : Nat) (h1 : 1 ≤ siz2) (h2 : siz2 < 256) (c : Nat) :
    1 ≤ bmShift s2 siz2 c ∧ bmShift s2 siz2 c ≤ siz2 ∧
      ∀ j < siz2 - 1, s2 j = c → bmShift s2 siz2 c ≤ siz2 - 1 - j :=
  bmShift_aux s2 siz2 h1 h2 c (siz2 - 1) (by omega)

theorem bmInner_spec (s1 s2 : Mem) (n k : Nat) :
    (MatchAt s1 s2 n k → bmInner s1 s2 n (k + n) = some k) ∧
    (¬ MatchAt s1 s2 n k → bmInner s1 s2 n (k + n) = none) := by
  induction n with
  | zero => exact ⟨fun _ => rfl, fun h => absurd (fun j hj => absurd hj (by omega)) h⟩
  | succ n ih =>
    rw [bmInner, show k + (n + 1) - 1 = k + n from by omega]
    have hM : MatchAt s1 s2 (n + 1) k ↔ s1 (k + n) = s2 n ∧ MatchAt s1 s2 n k := by
      constructor
      · intro h; exact ⟨h n (by omega), fun j hj => h j (by omega)⟩
      · rintro ⟨h, h'⟩ j hj
        by_cases e : j = n
        · subst e; exact h
        · exact h' j (by omega)
    rw [hM]
    by_cases h : s1 (k + n) = s2 n
    · rw [if_pos h]
      exact ⟨fun h' => ih.1 h'.2, fun h' => ih.2 (fun hh => h' ⟨h, hh⟩)⟩
    · rw [if_neg h]
      exact ⟨fun h' => absurd h'.1 h, fun _ => rfl⟩

theorem bmLoop_spec (s1 : Mem) (siz1 : Nat) (s2 : Mem) (siz2 : Nat) (h1 : 1 ≤ siz2) (h2 : siz2 < 256) (fuel w : Nat)
    (hf : siz1 < fuel + (w + siz2 - 1)) (hno : ∀ i < w, ¬ MatchAt s1 s2 siz2 i) :
    match bmLoop s1 siz1 s2 siz2 (bmShift s2 siz2) fuel (w + siz2 - 1) with
    | some r => r + siz2 ≤ siz1 ∧ MatchAt s1 s2 siz2 r ∧ ∀ i < r, ¬ MatchAt s1 s2 siz2 i
    | none => ∀ i, i + siz2 ≤ siz1 → ¬ MatchAt s1 s2 siz2 i := by
  induction fuel generalizing w with
  | zero =>
    rw [bmLoop]
    intro i hi
    exact hno i (by omega)
  | succ fuel ih =>
    rw [bmLoop]
    by_cases hlt : w + siz2 - 1 < siz1
    · rw [if_pos hlt, show w + siz2 - 1 + 1 = w + siz2 from by omega]
      by_cases hm : MatchAt s1 s2 siz2 w
      · rw [(bmInner_spec s1 s2 siz2 w).1 hm]
        exact ⟨by omega, hm, hno⟩
      · rw [(bmInner_spec s1 s2 siz2 w).2 hm]
        simp only
        obtain ⟨b1, b2, b3⟩ := bmShift_spec s2 siz2 h1 h2 (s1 (w + siz2 - 1))
        rw [show w + siz2 - 1 + bmShift s2 siz2 (s1 (w + siz2 - 1)) =
          (w + bmShift s2 siz2 (s1 (w + siz2 - 1))) + siz2 - 1 from by omega]
        apply ih
        · omega
        · intro i hi hmi
          rcases Nat.lt_trichotomy i w with h | h | h
          · exact hno i h hmi
          · subst h; exact hm hmi
          · have e := hmi (w + siz2 - 1 - i) (by omega)
            rw [show i + (w + siz2 - 1 - i) = w + siz2 - 1 from by omega] at e
            have := b3 (w + siz2 - 1 - i) (by omega) e.symm
            omega
    · rw [if_neg hlt]
      intro i hi
      exact hno i (by omega)

theorem boyerMoore_spec (s1 : Mem) (siz1 : Nat) (s2 : Mem) (siz2 : Nat) (h1 : 1 ≤ siz2) (h2 : siz2 < 256) :
    match boyerMoore s1 siz1 s2 siz2 with
    | some r => r + siz2 ≤ siz1 ∧ MatchAt s1 s2 siz2 r ∧ ∀ i < r, ¬ MatchAt s1 s2 siz2 i
    | none => ∀ i, i + siz2 ≤ siz1 → ¬ MatchAt s1 s2 siz2 i := by
  have := bmLoop_spec s1 siz1 s2 siz2 h1 h2 (siz1 + 1) 0 (by omega) (by omega)
  rw [Nat.zero_add] at this
  exact this

theorem bmrShift_aux (s2 : Mem) (siz2 : Nat) (h1 : 1 ≤ siz2) (h2 : siz2 < 256) (c s n : Nat) (hn : s + n ≤ siz2 - 1) :
    let t := (List.range' s n).foldr (fun j t => fun c => if c = s2 (j + 1) then (j + 1) % 256 else t c)
      (fun _ => siz2 % 256)
    1 ≤ t c ∧ t c ≤ siz2 ∧ ∀ j, s ≤ j → j < s + n → s2 (j + 1) = c → t c ≤ j + 1 := by
  induction n generalizing s with
  | zero =>
    simp only [List.range'_zero, List.foldr_nil, Nat.mod_eq_of_lt h2]
    exact ⟨h1, Nat.le_refl _, by omega⟩
  | succ n ih =>
    obtain ⟨i1, i2, i3⟩ := ih (s + 1) (by omega)
    rw [List.range'_succ, List.foldr_cons]
    simp only
    split
    · rw [Nat.mod_eq_of_lt (by omega)]
      exact ⟨by omega, by omega, fun j hj _ _ => by omega⟩
    · rename_i e
      refine ⟨i1, i2, fun j hs hj hjc => ?_⟩
      by_cases ej : j = s
      · subst ej; exact absurd hjc.symm e
      · exact i3 j (by omega) (by omega) hjc

theorem bmrShift_spec (s2 : Mem) (siz2 : Nat) (h1 : 1 ≤ siz2) (h2 : siz2 < 256) (c : Nat) :
    1 ≤ bmrShift s2 siz2 c ∧ bmrShift s2 siz2 c ≤ siz2 ∧
      ∀ j, 1 ≤ j → j < siz2 → s2 j = c → bmrShift s2 siz2 c ≤ j := by
  have := bmrShift_aux s2 siz2 h1 h2 c 0 (siz2 - 1) (by omega)
  rw [← List.range_eq_range'] at this
  obtain ⟨i1, i2, i3⟩ := this
  refine ⟨i1, i2, fun j hj hjs e => ?_⟩
  have := i3 (j - 1) (by omega) (by omega) (by rw [show j - 1 + 1 = j from by omega]; exact e)
  rw [show j - 1 + 1 = j from by omega] at this
  exact this

theorem bmrInner_spec (s1 s2 : Mem) (n j k : Nat) :
    bmrInner s1 s2 n j k = true ↔ ∀ x < n, s1 (k + x) = s2 (j + x) := by
  induction n generalizing j k with
  | zero => simp [bmrInner]
  | succ n ih =>
    rw [bmrInner]
    by_cases h : s1 k = s2 j
    · rw [if_pos h, ih]
      constructor
      · intro g x hx
        cases x with
        | zero => exact h
        | succ x =>
          have := g x (by omega)
          rw [show k + (x + 1) = k + 1 + x from by omega, show j + (x + 1) = j + 1 + x from by omega]
          exact this
      · intro g x hx
        have := g (x + 1) (by omega)
        rw [show k + 1 + x = k + (x + 1) from by omega, show j + 1 + x = j + (x + 1) from by omega]
        exact this
    · rw [if_neg h]
      simp only [Bool.false_eq_true, false_iff]
      intro g
      exact h (g 0 (by omega))

theorem bmrInner_match (s1 s2 : Mem) (n k : Nat) : bmrInner s1 s2 n 0 k = true ↔ MatchAt s1 s2 n k := by
  rw [bmrInner_spec]
  simp [MatchAt]

theorem bmrLoop_spec (s1 s2 : Mem) (siz2 : Nat) (h1 : 1 ≤ siz2) (h2 : siz2 < 256) (top fuel i : Nat)
    (hf : i < fuel) (hno : ∀ x, i < x → x ≤ top → ¬ MatchAt s1 s2 siz2 x) (hi : i ≤ top) :
    match bmrLoop s1 s2 siz2 (bmrShift s2 siz2) fuel i with
    | some r => r ≤ top ∧ MatchAt s1 s2 siz2 r ∧ ∀ x, r < x → x ≤ top → ¬ MatchAt s1 s2 siz2 x
    | none => ∀ x, x ≤ top → ¬ MatchAt s1 s2 siz2 x := by
  induction fuel generalizing i with
  | zero => omega
  | succ fuel ih =>
    rw [bmrLoop]
    by_cases hm : MatchAt s1 s2 siz2 i
    · rw [if_pos ((bmrInner_match _ _ _ _).2 hm)]
      exact ⟨hi, hm, hno⟩
    · rw [if_neg (by rw [bmrInner_match]; exact hm)]
      obtain ⟨b1, b2, b3⟩ := bmrShift_spec s2 siz2 h1 h2 (s1 i)
      have key : ∀ x, i < x + bmrShift s2 siz2 (s1 i) → x ≤ top → ¬ MatchAt s1 s2 siz2 x := by
        intro x hx hxt hmx
        rcases Nat.lt_trichotomy x i with h | h | h
        · have e := hmx (i - x) (by omega)
          rw [show x + (i - x) = i from by omega] at e
          have := b3 (i - x) (by omega) (by omega) e.symm
          omega
        · subst h; exact hm hmx
        · exact hno x h hxt hmx
      by_cases hsh : bmrShift s2 siz2 (s1 i) ≤ i
      · rw [if_pos hsh]
        apply ih
        · omega
        · intro x hx hxt; exact key x (by omega) hxt
        · omega
      · rw [if_neg hsh]
        intro x hxt; exact key x (by omega) hxt

/-- What the reverse search really computes: it also considers the position one past the last one. -/
theorem boyerMooreReverse_spec (s1 : Mem) (siz1 : Nat) (s2 : Mem) (siz2 : Nat) (h1 : 1 ≤ siz2) (h2 : siz2 < 256) :
    match boyerMooreReverse s1 siz1 s2 siz2 with
    | some r => r ≤ siz1 - siz2 + 1 ∧ MatchAt s1 s2 siz2 r ∧
        ∀ x, r < x → x ≤ siz1 - siz2 + 1 → ¬ MatchAt s1 s2 siz2 x
    | none => ∀ x, x ≤ siz1 - siz2 + 1 → ¬ MatchAt s1 s2 siz2 x :=
  bmrLoop_spec s1 s2 siz2 h1 h2 (siz1 - siz2 + 1) (siz1 + 2) (siz1 - siz2 + 1) (by omega) (by omega) (by omega)

/-- The forward searcher, on bytes. -/
theorem stringSearch_spec (s1 : Mem) (siz1 len1 : Nat) (s2 : Mem) (siz2 len2 : Nat) (h : 1 ≤ siz2) :
    match stringSearch s1 siz1 len1 s2 siz2 len2 with
    | some f => f.both = false ∧ f.ci = f.bi ∧ f.bi + siz2 ≤ siz1 ∧ MatchAt s1 s2 siz2 f.bi ∧
        ∀ i < f.bi, ¬ MatchAt s1 s2 siz2 i
    | none => ∀ i, i + siz2 ≤ siz1 → ¬ MatchAt s1 s2 siz2 i := by
  unfold stringSearch
  rw [if_neg (by omega)]
  by_cases e : siz2 = 1
  · rw [if_pos e]
    subst e
    have hM : ∀ i, MatchAt s1 s2 1 i ↔ s1 i = s2 0 := by
      intro i
      refine ⟨fun g => g 0 (by omega), fun g j hj => ?_⟩
      have : j = 0 := by omega
      subst this; exact g
    have := memchr_spec s1 (s2 0) 0 siz1
    cases e : memchr s1 (s2 0) 0 siz1 with
    | none =>
      rw [e] at this
      simp only [Option.map_none]
      intro i hi
      rw [hM]; exact this i (by omega) (by omega)
    | some r =>
      rw [e] at this
      simp only [Option.map_some]
      obtain ⟨_, t2, t3, t4⟩ := this
      refine ⟨trivial, trivial, by omega, (hM _).2 t3, fun i hi => ?_⟩
      rw [hM]; exact t4 i (by omega) hi
  · rw [if_neg e]
    by_cases g1 : siz1 < siz2
    · rw [if_pos g1]
      intro i hi; omega
    · rw [if_neg g1]
      by_cases g2 : siz1 < 256 ∨ siz2 ≥ 256
      · rw [if_pos g2]
        have := bruteFwd_spec s1 s2 siz2 0 (siz1 - siz2 + 1)
        cases e : bruteFwd s1 s2 siz2 0 (siz1 - siz2 + 1) with
        | none =>
          rw [e] at this
          simp only [Option.map_none]
          intro i hi
          exact this i (by omega) (by omega)
        | some r =>
          rw [e] at this
          simp only [Option.map_some]
          obtain ⟨_, t2, t3, t4⟩ := this
          exact ⟨trivial, trivial, by omega, t3, fun i hi => t4 i (by omega) hi⟩
      · rw [if_neg g2]
        have := boyerMoore_spec s1 siz1 s2 siz2 (by omega) (by omega)
        cases e : boyerMoore s1 siz1 s2 siz2 with
        | none =>
          rw [e] at this
          exact this
        | some r =>
          rw [e] at this
          simp only [Option.map_some]
          exact ⟨trivial, trivial, this⟩

/-- The memory after `s1` does not complete an occurrence of `s2` that sticks out by one byte. -/
def NoOverrun (s1 : Mem) (siz1 : Nat) (s2 : Mem) (siz2 : Nat) : Prop :=
  256 ≤ siz1 → siz2 < 256 → 2 ≤ siz2 → siz2 ≤ siz1 → ¬ MatchAt s1 s2 siz2 (siz1 - siz2 + 1)

/-- The backward searcher, on bytes. -/
theorem stringSearchReverse_spec (s1 : Mem) (siz1 len1 : Nat) (s2 : Mem) (siz2 len2 : Nat) (h : 1 ≤ siz2)
    (hov : NoOverrun s1 siz1 s2 siz2) :
    match stringSearchReverse s1 siz1 len1 s2 siz2 len2 with
    | some f => f.both = false ∧ f.ci = f.bi ∧ f.bi + siz2 ≤ siz1 ∧ MatchAt s1 s2 siz2 f.bi ∧
        ∀ i, f.bi < i → i + siz2 ≤ siz1 → ¬ MatchAt s1 s2 siz2 i
    | none => ∀ i, i + siz2 ≤ siz1 → ¬ MatchAt s1 s2 siz2 i := by
  unfold stringSearchReverse
  rw [if_neg (by omega)]
  by_cases e : siz2 = 1
  · rw [if_pos e]
    subst e
    have hM : ∀ i, MatchAt s1 s2 1 i ↔ s1 i = s2 0 := by
      intro i
      refine ⟨fun g => g 0 (by omega), fun g j hj => ?_⟩
      have : j = 0 := by omega
      subst this; exact g
    have := memrchr_spec s1 (s2 0) siz1
    cases e : memrchr s1 (s2 0) siz1 with
    | none =>
      rw [e] at this
      simp only [Option.map_none]
      intro i hi
      rw [hM]; exact this i (by omega)
    | some r =>
      rw [e] at this
      simp only [Option.map_some]
      obtain ⟨t2, t3, t4⟩ := this
      refine ⟨trivial, trivial, by omega, (hM _).2 t3, fun i hi hs => ?_⟩
      rw [hM]; exact t4 i (by omega) (by omega)
  · rw [if_neg e]
    by_cases g1 : siz1 < siz2
    · rw [if_pos g1]
      intro i hi; omega
    · rw [if_neg g1]
      by_cases g2 : siz1 < 256 ∨ siz2 ≥ 256
      · rw [if_pos g2]
        have := bruteRev_spec s1 s2 siz2 (siz1 - siz2 + 1)
        cases e : bruteRev s1 s2 siz2 (siz1 - siz2 + 1) with
        | none =>
          rw [e] at this
          simp only [Option.map_none]
          intro i hi
          exact this i (by omega)
        | some r =>
          rw [e] at this
          simp only [Option.map_some]
          obtain ⟨t2, t3, t4⟩ := this
          exact ⟨trivial, trivial, by omega, t3, fun i hi hs => t4 i hi (by omega)⟩
      · rw [if_neg g2]
        have hov := hov (by omega) (by omega) (by omega) (by omega)
        have := boyerMooreReverse_spec s1 siz1 s2 siz2 (by omega) (by omega)
        cases e : boyerMooreReverse s1 siz1 s2 siz2 with
        | none =>
          rw [e] at this
          simp only [Option.map_none]
          intro i hi
          exact this i (by omega)
        | some r =>
          rw [e] at this
          simp only [Option.map_some]
          obtain ⟨t2, t3, t4⟩ := this
          have hr : r ≠ siz1 - siz2 + 1 := by rintro rfl; exact hov t3
          exact ⟨trivial, trivial, by omega, t3, fun i hi hs => t4 i hi (by omega)⟩

/-! ## Byte matches are character matches -/

theorem boundary {m : Mem} {cs : List Nat} (hc : ∀ c ∈ cs, IsCode c) (h : Holds m (encodeAll cs)) (k : Nat)
    (hk : k < blen cs) (hb : m k < 0x80 ∨ 0xc0 ≤ m k) : ∃ i < cs.length, k = pos cs i := by
  induction cs generalizing m k with
  | nil => simp at hk
  | cons c cs ih =>
    have hh := holds_cons_code h
    obtain ⟨b, t, e, hn, _, _, ht⟩ := encode_cons c (hc c (by simp))
    have hl : nbytes c = t.length + 1 := by rw [← encode_length, e, List.length_cons]
    by_cases hkc : k < nbytes c
    · refine ⟨0, by simp, ?_⟩
      rw [pos_zero]
      cases k with
      | zero => rfl
      | succ k =>
        exfalso
        have h1 := hh.1
        rw [e, holds_cons] at h1
        have h2 := h1.2 k (by omega)
        simp only at h2
        have := ht _ (List.getElem_mem (l := t) (n := k) (by omega))
        omega
    · rw [blen_cons] at hk
      obtain ⟨i, hi, e⟩ := ih (fun x hx => hc x (by simp [hx])) hh.2 (k - nbytes c) (by omega)
        (by simp only [adv]; rw [show nbytes c + (k - nbytes c) = k from by omega]; exact hb)
      refine ⟨i + 1, by simp; omega, ?_⟩
      rw [pos, List.take_succ_cons, blen_cons]
      rw [pos] at e
      omega

theorem prefix_of_encodeAll {cs ds : List Nat} (hc : ∀ c ∈ cs, IsCode c) (hd : ∀ c ∈ ds, IsCode c)
    (h : encodeAll ds <+: encodeAll cs) : ds <+: cs := by
  induction ds generalizing cs with
  | nil => exact List.nil_prefix
  | cons d ds ih =>
    obtain ⟨t, ht⟩ := h
    rw [encodeAll_cons, List.append_assoc] at ht
    cases cs with
    | nil =>
      have := encode_ne_nil d
      simp at ht
      exact absurd ht.1 this
    | cons c cs =>
      rw [encodeAll_cons] at ht
      have e : d = c := encode_prefix (hd d (by simp)) (hc c (by simp)) ht
      subst e
      have ht := List.append_cancel_left ht
      have := ih (fun x hx => hc x (by simp [hx])) (fun x hx => hd x (by simp [hx])) ⟨t, ht⟩
      exact List.cons_prefix_cons.2 ⟨rfl, this⟩

theorem holds_prefix {m : Mem} {l k : List Nat} (h1 : Holds m l) (h2 : Holds m k) (hl : l.length ≤ k.length) :
    l <+: k := by
  refine ⟨k.drop l.length, ?_⟩
  have : l = k.take l.length := by
    apply List.ext_getElem
    · simp; omega
    · intro i hi1 hi2
      rw [List.getElem_take, ← h1 i hi1, ← h2 i (by omega)]
  calc l ++ k.drop l.length = k.take l.length ++ k.drop l.length := by rw [← this]
    _ = k := List.take_append_drop _ _

theorem match_occurs {m1 m2 : Mem} {cs ds : List Nat} (hc : ∀ c ∈ cs, IsCode c) (hd : ∀ c ∈ ds, IsCode c)
    (h1 : Holds m1 (encodeAll cs)) (h2 : Holds m2 (encodeAll ds)) (hne : ds ≠ []) (k : Nat)
    (hk : k + blen ds ≤ blen cs) (hm : MatchAt m1 m2 (blen ds) k) : ∃ i, k = pos cs i ∧ OccursAt cs ds i := by
  have hpos := blen_pos hne
  obtain ⟨d, ds', rfl⟩ := List.exists_cons_of_ne_nil hne
  obtain ⟨b, t, e, hn, hb, _⟩ := encode_cons d (hd d (by simp))
  have hlead : m1 k = b := by
    have := hm 0 hpos
    rw [Nat.add_zero] at this
    rw [this]
    have h2' := h2
    rw [encodeAll_cons, e, List.cons_append, holds_cons] at h2'
    exact h2'.1
  obtain ⟨i, hi, rfl⟩ := boundary hc h1 k (by omega) (by rw [hlead]; exact hb)
  refine ⟨i, rfl, by omega, ?_⟩
  apply prefix_of_encodeAll (codes_drop hc i) hd
  apply holds_prefix (m := adv m1 (pos cs i)) ?_ (holds_adv h1 i)
  · have := pos_add cs i cs.length
    rw [pos_len cs (i + cs.length) (by omega)] at this
    rw [pos_len (cs.drop i) cs.length (by simp)] at this
    simp only [blen] at *
    omega
  · intro j hj
    have := hm j hj
    simp only [adv]
    rw [this, h2 j hj]

theorem occurs_match {m1 m2 : Mem} {cs ds : List Nat}
    (h1 : Holds m1 (encodeAll cs)) (h2 : Holds m2 (encodeAll ds)) (i : Nat) (ho : OccursAt cs ds i) :
    pos cs i + blen ds ≤ blen cs ∧ MatchAt m1 m2 (blen ds) (pos cs i) := by
  obtain ⟨hi, t, ht⟩ := ho
  have hA := holds_adv h1 i
  rw [← ht, encodeAll_append, holds_append] at hA
  refine ⟨?_, fun j hj => ?_⟩
  · have := pos_add cs i cs.length
    rw [pos_len cs (i + cs.length) (by omega), pos_len (cs.drop i) cs.length (by simp), ← ht, blen_append] at this
    omega
  · have := hA.1 j hj
    simp only [adv] at this
    rw [this, h2 j hj]

theorem occurs_len {cs ds : List Nat} {i : Nat} (h : OccursAt cs ds i) : i + ds.length ≤ cs.length := by
  obtain ⟨h1, h2⟩ := h
  have := h2.length_le
  simp at this; omega

theorem pos_inj {cs : List Nat} {i j : Nat} (hi : i ≤ cs.length) (hj : j ≤ cs.length) (h : pos cs i = pos cs j) : i = j := by
  rcases Nat.lt_trichotomy i j with g | g | g
  · have := pos_lt cs g (by omega); omega
  · exact g
  · have := pos_lt cs g (by omega); omega

theorem countLength_pos {m : Mem} {cs : List Nat} (hc : ∀ c ∈ cs, IsCode c) (h : Holds m (encodeAll cs)) (i : Nat)
    (hi : i ≤ cs.length) : countLength m (pos cs i) = some i := by
  have := countLength_holds (cs.take i) (codes_take hc i) m (holds_take h i)
  rw [show blen (cs.take i) = pos cs i from rfl] at this
  rw [this, List.length_take]
  congr 1; omega

/-- The prefilter is right. -/
theorem prefilter {cs ds : List Nat} (h1 : blen cs = cs.length) (h2 : blen ds ≠ ds.length) (i : Nat) :
    ¬ OccursAt cs ds i := by
  rintro ⟨_, h⟩
  apply h2
  apply blen_ascii
  intro c hc
  exact single h1 c (List.mem_of_mem_drop (h.subset hc))

theorem scanFind_fwd {b : Body} {cs ds : List Nat} (h : Is b cs) {s2 : Mem} (hd : ∀ c ∈ ds, IsCode c)
    (h2 : Holds s2 (encodeAll ds)) :
    match scanFind b s2 (blen ds) ds.length false stringSearch with
    | some (bi, ci) => ∃ i : Nat, FirstAt cs ds i ∧ bi = pos cs i ∧ ci = i
    | none => ∀ i, ¬ OccursAt cs ds i := by
  unfold scanFind
  split
  · rename_i bi ci hsf
    split at hsf
    · cases hsf
    · rw [h.size, h.len] at hsf
      simp only [Option.map_eq_some_iff] at hsf
      obtain ⟨f, hf, e⟩ := hsf
      cases e
      by_cases hne : ds = []
      · subst hne
        rw [stringSearch, if_pos blen_nil] at hf
        cases hf
        exact ⟨0, ⟨⟨by omega, List.nil_prefix⟩, by omega⟩, by simp [pos_zero], by simp⟩
      · have := stringSearch_spec b.mem (blen cs) cs.length s2 (blen ds) ds.length (blen_pos hne)
        rw [hf] at this
        obtain ⟨t1, t2, t3, t4, t5⟩ := this
        obtain ⟨i, ei, ho⟩ := match_occurs h.codes hd h.holds h2 hne f.bi t3 t4
        refine ⟨i, ⟨ho, fun j hj hoj => ?_⟩, ei, ?_⟩
        · have hl := occurs_len ho
          have := pos_lt cs hj (by omega)
          exact t5 (pos cs j) (by omega) (occurs_match h.holds h2 j hoj).2
        · rw [t1, ei, countLength_pos h.codes h.holds i ho.1]
          simp
  · rename_i hsf
    split at hsf
    · rename_i hp
      rw [h.size, h.len] at hp
      simp at hp
      intro i
      exact prefilter hp.1 hp.2 i
    · rw [Option.map_eq_none_iff, h.size, h.len] at hsf
      intro i hoi
      by_cases hne : ds = []
      · subst hne
        rw [stringSearch, if_pos blen_nil] at hsf
        cases hsf
      · have := stringSearch_spec b.mem (blen cs) cs.length s2 (blen ds) ds.length (blen_pos hne)
        rw [hsf] at this
        have hm := occurs_match h.holds h2 i hoi
        exact this (pos cs i) hm.1 hm.2

theorem scanFind_rev {b : Body} {cs ds : List Nat} (h : Is b cs) {s2 : Mem} (hd : ∀ c ∈ ds, IsCode c)
    (h2 : Holds s2 (encodeAll ds)) (hov : NoOverrun b.mem b.size s2 (blen ds)) :
    match scanFind b s2 (blen ds) ds.length false stringSearchReverse with
    | some (bi, ci) => ∃ i : Nat, LastAt cs ds i ∧ bi = pos cs i ∧ ci = i
    | none => ∀ i, ¬ OccursAt cs ds i := by
  rw [h.size] at hov
  unfold scanFind
  split
  · rename_i bi ci hsf
    split at hsf
    · cases hsf
    · rw [h.size, h.len] at hsf
      simp only [Option.map_eq_some_iff] at hsf
      obtain ⟨f, hf, e⟩ := hsf
      cases e
      by_cases hne : ds = []
      · subst hne
        rw [stringSearchReverse, if_pos blen_nil] at hf
        cases hf
        refine ⟨cs.length, ⟨⟨by omega, List.nil_prefix⟩, fun j hj ho => ?_⟩, by simp [pos_len], by simp⟩
        have := ho.1; omega
      · have := stringSearchReverse_spec b.mem (blen cs) cs.length s2 (blen ds) ds.length (blen_pos hne) hov
        rw [hf] at this
        obtain ⟨t1, t2, t3, t4, t5⟩ := this
        obtain ⟨i, ei, ho⟩ := match_occurs h.codes hd h.holds h2 hne f.bi t3 t4
        refine ⟨i, ⟨ho, fun j hj hoj => ?_⟩, ei, ?_⟩
        · have hl := occurs_len hoj
          have := List.length_pos_iff.2 hne
          have := pos_lt cs hj (by omega)
          have hm := occurs_match h.holds h2 j hoj
          exact t5 (pos cs j) (by omega) hm.1 hm.2
        · rw [t1, ei, countLength_pos h.codes h.holds i ho.1]
          simp
  · rename_i hsf
    split at hsf
    · rename_i hp
      rw [h.size, h.len] at hp
      simp at hp
      intro i
      exact prefilter hp.1 hp.2 i
    · rw [Option.map_eq_none_iff, h.size, h.len] at hsf
      intro i hoi
      by_cases hne : ds = []
      · subst hne
        rw [stringSearchReverse, if_pos blen_nil] at hsf
        cases hsf
      · have := stringSearchReverse_spec b.mem (blen cs) cs.length s2 (blen ds) ds.length (blen_pos hne) hov
        rw [hsf] at this
        have hm := occurs_match h.holds h2 i hoi
        exact this (pos cs i) hm.1 hm.2

end Gauche.Str
