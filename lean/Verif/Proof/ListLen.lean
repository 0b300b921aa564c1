import Verif.Proof.ListPath
/-
Proofs about list primitives: num-pairs and the comparisons of lengths.
-/
namespace Gauche.ListPrim

open Gauche.Spec.ConsGraph

/-- The pairs one can reach by cdrs. -/
def Reach (h : Heap) (v : Val) (a : Nat) : Prop := ∃ cs, Path h v cs (.pair a)

theorem reach_tl {h : Heap} (hc : Closed h) {v : Val} (hv : Exists h v) (a : Nat) : Reach h v a ↔ ∃ n, tl h n v = .pair a := by
  constructor
  · rintro ⟨cs, p⟩; exact ⟨cs.length, path_tl p⟩
  · rintro ⟨n, e⟩
    have hp : ∀ i < n, ∃ b, tl h i v = .pair b := by
      intro i hi
      rcases atomic_or (tl h i v) with ha | ha
      · exfalso
        have : ∀ m, tl h (i + m) v = tl h i v := by
          intro m
          induction m with
          | zero => rfl
          | succ m ih => rw [← Nat.add_assoc, tl_succ, ih, cdrV_atomic ha]
        have := this (n - i)
        rw [show i + (n - i) = n by omega, e] at this
        exact ha a this.symm
      · exact ha
    obtain ⟨as, _, p⟩ := path_of_tl hc n hv hp
    rw [e] at p
    exact ⟨as, p⟩

theorem numPairsLoop_finite {h : Heap} {v t w : Val} {as : List Nat} (ht : Val.Atomic t) (p : Path h v as t) (fuel : Nat) :
    ∀ k, 2 * k ≤ as.length → as.length < 2 * k + 2 * fuel → numPairsLoop h w fuel (2 * k) (tl h k v) (tl h (2 * k) v) = .ok as.length := by
  induction fuel with
  | zero => intro k h1 h2; omega
  | succ fuel ih =>
    intro k h1 h2
    unfold numPairsLoop
    have hend : ∀ n, n = as.length → tl h n v = t := fun n hn => by rw [hn]; exact path_tl p
    by_cases hk : 2 * k = as.length
    · rw [hend _ hk, hk]
      cases t with
      | nil => rfl
      | atom x => rfl
      | pair a => exact absurd rfl (ht a)
    · rw [tl_pair p (2 * k) (by omega)]
      dsimp only
      have e1 : h.cdr as[2 * k] = tl h (2 * k + 1) v := by rw [tl_succ, tl_pair p (2 * k) (by omega)]; rfl
      rw [e1]
      by_cases hk1 : 2 * k + 1 = as.length
      · rw [hend _ hk1, ← hk1]
        cases t with
        | nil => rfl
        | atom x => rfl
        | pair a => exact absurd rfl (ht a)
      · have e0 := tl_pair p (2 * k + 1) (by omega)
        rw [e0]
        dsimp only
        have e2 : h.cdr as[2 * k + 1] = tl h (2 * (k + 1)) v := by
          rw [show 2 * (k + 1) = 2 * k + 1 + 1 by omega, tl_succ, tl_pair p (2 * k + 1) (by omega)]; rfl
        rw [← e0, if_neg (fun e => path_tl_ne ht p k (2 * k + 1) (by omega) (by omega) e), e2, ← tl_succ]
        exact ih (k + 1) (by omega) (by omega)

theorem numPairsLoop_circular {h : Heap} {v w : Val} (c : Circular h v) (K : Nat) (hK : tl h (2 * K + 1) v = tl h K v) (fuel : Nat) :
    ∀ k, k ≤ K → K < k + fuel → numPairsLoop h w fuel (2 * k) (tl h k v) (tl h (2 * k) v) = countLoop h (h.size + 1) [] w := by
  induction fuel with
  | zero => intro k h1 h2; omega
  | succ fuel ih =>
    intro k h1 h2
    unfold numPairsLoop
    obtain ⟨a, ha⟩ := circular_pairs c (2 * k)
    obtain ⟨b, hb⟩ := circular_pairs c (2 * k + 1)
    rw [ha]
    dsimp only
    have e1 : h.cdr a = .pair b := by rw [← hb, tl_succ, ha]; rfl
    rw [e1]
    dsimp only
    have e2 : h.cdr b = tl h (2 * (k + 1)) v := by
      rw [show 2 * (k + 1) = 2 * k + 1 + 1 by omega, tl_succ, hb]; rfl
    rw [← hb, e2, ← tl_succ]
    by_cases he : tl h k v = tl h (2 * k + 1) v
    · rw [if_pos he]
    · rw [if_neg he]
      have : k ≠ K := fun e => he (by rw [e]; exact hK.symm)
      exact ih (k + 1) (by omega) (by omega)

theorem numPairs_spec {h : Heap} (hc : Closed h) {v : Val} (hv : Exists h v) (fuel : Nat) (hf : h.size < fuel) :
    ∃ as : List Nat, as.Nodup ∧ (∀ a, a ∈ as ↔ Reach h v a) ∧ numPairs h fuel v = .ok as.length := by
  rcases classify hc hv with ⟨as, t, ht, p⟩ | c
  · refine ⟨as, path_nodup ht p, ?_, numPairsLoop_finite ht p fuel 0 (by omega) (by have := path_len ht p; omega)⟩
    intro a
    rw [reach_tl hc hv]
    constructor
    · intro ha
      obtain ⟨i, hi, e⟩ := List.mem_iff_getElem.1 ha
      exact ⟨i, by rw [tl_pair p i hi, e]⟩
    · rintro ⟨n, e⟩
      by_cases hn : n < as.length
      · rw [tl_pair p n hn] at e
        injection e with e
        rw [← e]; exact List.getElem_mem hn
      · exfalso
        have : ∀ m, tl h (as.length + m) v = t := by
          intro m
          induction m with
          | zero => exact path_tl p
          | succ m ih => rw [← Nat.add_assoc, tl_succ, ih, cdrV_atomic ht]
        have := this (n - as.length)
        rw [show as.length + (n - as.length) = n by omega, e] at this
        exact ht a this.symm
  · obtain ⟨K, hK1, hK2⟩ := circular_meet1 hc hv c
    have hex : ∃ j, ∃ i < j, tl h i v = tl h j v := by
      obtain ⟨i, j, hij, _, e⟩ := circular_repeat hc hv c
      exact ⟨j, i, hij, e⟩
    classical
    obtain ⟨i0, hi0, e0⟩ := Nat.find_spec hex
    have hmin : ∀ i i', i < i' → i' < Nat.find hex → tl h i v ≠ tl h i' v := by
      intro i i' h1 h2 e
      exact Nat.find_min hex h2 ⟨i, h1, e⟩
    have hle : Nat.find hex ≤ h.size := by
      obtain ⟨i, j, hij, hj, e⟩ := circular_repeat hc hv c
      exact le_trans (Nat.find_min' hex ⟨i, hij, e⟩) hj
    generalize Nat.find hex = j at *
    have hcnt := countLoop_spec hc hv c j hmin i0 hi0 e0.symm (h.size + 1) 0 [] (by omega) (by omega) rfl (by simp)
    have hnp : numPairs h fuel v = .ok j := by
      have := numPairsLoop_circular (w := v) c K hK2 fuel 0 (by omega) (by omega)
      unfold numPairs
      rw [← hcnt]
      exact this
    have haddr : ∀ n, tl h n v = .pair (addr (tl h n v)) := by
      intro n
      obtain ⟨a, ha⟩ := circular_pairs c n
      rw [ha]; rfl
    refine ⟨(List.range j).map fun i => addr (tl h i v), ?_, ?_, by rw [List.length_map, List.length_range]; exact hnp⟩
    · rw [List.nodup_map_iff_inj_on List.nodup_range]
      intro x hx y hy e
      rw [List.mem_range] at hx hy
      have e' : tl h x v = tl h y v := by rw [haddr x, haddr y, e]
      rcases Nat.lt_trichotomy x y with hl | hl | hl
      · exact absurd e' (hmin x y hl hy)
      · exact hl
      · exact absurd e'.symm (hmin y x hl hx)
    · intro a
      rw [reach_tl hc hv, List.mem_map]
      constructor
      · rintro ⟨i, _, e⟩
        exact ⟨i, by rw [haddr i, e]⟩
      · rintro ⟨n, e⟩
        have : ∀ n, ∃ i < j, tl h i v = tl h n v := by
          intro n
          induction n using Nat.strongRecOn with
          | _ n ih =>
            by_cases hn : n < j
            · exact ⟨n, hn, rfl⟩
            · obtain ⟨i, hi, e1⟩ := ih (i0 + (n - j)) (by omega)
              refine ⟨i, hi, ?_⟩
              rw [e1, tl_add, e0, ← tl_add]
              congr 1
              omega
        obtain ⟨i, hi, e1⟩ := this n
        exact ⟨i, List.mem_range.2 hi, by rw [e1, e]; rfl⟩

/-! ### Comparisons of lengths: the number of pairs, for a circular list infinitely many. -/

theorem atomic_match {h : Heap} {v t : Val} {as : List Nat} (p : Path h v as t) : ∀ n, n = as.length → tl h n v = t :=
  fun n hn => by rw [hn]; exact path_tl p

theorem cmpLen_some (m n : Nat) : cmpLen (some m) (some n) = if m < n then -1 else if m = n then 0 else 1 := rfl

theorem cmpK_finite {h : Heap} {v t : Val} {as : List Nat} (ht : Val.Atomic t) (p : Path h v as t) (n : Nat) (fuel : Nat) :
    ∀ k, 2 * k ≤ as.length → 2 * k ≤ n → as.length < 2 * k + 2 * fuel →
      cmpK h fuel (tl h (2 * k) v) (tl h k v) ((n : Int) - 2 * k) = .ok (cmpLen (some as.length) (some n)) := by
  induction fuel with
  | zero => intro k h1 h2 h3; omega
  | succ fuel ih =>
    intro k h1 h2 h3
    unfold cmpK
    by_cases hk : 2 * k = as.length
    · rw [atomic_match p _ hk]
      have fin : (if (n : Int) - 2 * k = 0 then (0 : Int) else -1) = cmpLen (some as.length) (some n) := by
        rw [cmpLen_some]
        by_cases hn : n = as.length
        · rw [if_pos (by omega), if_neg (by omega), if_pos (by omega)]
        · rw [if_neg (by omega), if_pos (by omega)]
      cases t with
      | nil => show Out.ok _ = _; rw [fin]
      | atom x => show Out.ok _ = _; rw [fin]
      | pair a => exact absurd rfl (ht a)
    · rw [tl_pair p (2 * k) (by omega)]
      dsimp only
      have e1 : h.cdr as[2 * k] = tl h (2 * k + 1) v := by rw [tl_succ, tl_pair p (2 * k) (by omega)]; rfl
      rw [e1]
      by_cases hn : n = 2 * k
      · rw [if_pos (by omega)]
        rw [cmpLen_some]
        rw [if_neg (by omega), if_neg (by omega)]
      · rw [if_neg (by omega)]
        by_cases hk1 : 2 * k + 1 = as.length
        · rw [atomic_match p _ hk1]
          have fin : (if (n : Int) - 2 * k - 1 = 0 then (0 : Int) else -1) = cmpLen (some as.length) (some n) := by
            rw [cmpLen_some]
            by_cases hn : n = as.length
            · rw [if_pos (by omega), if_neg (by omega), if_pos (by omega)]
            · rw [if_neg (by omega), if_pos (by omega)]
          cases t with
          | nil => show Out.ok _ = _; rw [fin]
          | atom x => show Out.ok _ = _; rw [fin]
          | pair a => exact absurd rfl (ht a)
        · rw [tl_pair p (2 * k + 1) (by omega)]
          dsimp only
          have e2 : h.cdr as[2 * k + 1] = tl h (2 * (k + 1)) v := by
            rw [show 2 * (k + 1) = 2 * k + 1 + 1 by omega, tl_succ, tl_pair p (2 * k + 1) (by omega)]; rfl
          rw [e2, ← tl_succ]
          by_cases hn1 : n = 2 * k + 1
          · rw [if_pos (by omega)]
            rw [cmpLen_some]
            rw [if_neg (by omega), if_neg (by omega)]
          · rw [if_neg (by omega), if_neg (fun e => path_tl_ne ht p (k + 1) (2 * (k + 1)) (by omega) (by omega) e.symm)]
            have := ih (k + 1) (by omega) (by omega) (by omega)
            rw [← this]
            congr 1
            omega

theorem cmpK_circular {h : Heap} {v : Val} (c : Circular h v) (K : Nat) (hK : tl h (2 * K) v = tl h K v) (fuel : Nat) :
    ∀ (k : Nat) (n : Int), k < K → K ≤ k + fuel → cmpK h fuel (tl h (2 * k) v) (tl h k v) n = .ok 1 := by
  induction fuel with
  | zero => intro k n h1 h2; omega
  | succ fuel ih =>
    intro k n h1 h2
    unfold cmpK
    obtain ⟨a, ha⟩ := circular_pairs c (2 * k)
    obtain ⟨b, hb⟩ := circular_pairs c (2 * k + 1)
    rw [ha]
    dsimp only
    have e1 : h.cdr a = .pair b := by rw [← hb, tl_succ, ha]; rfl
    rw [e1]
    dsimp only
    have e2 : h.cdr b = tl h (2 * (k + 1)) v := by
      rw [show 2 * (k + 1) = 2 * k + 1 + 1 by omega, tl_succ, hb]; rfl
    rw [e2, ← tl_succ]
    by_cases hn : n ≤ 0
    · rw [if_pos hn]
    · rw [if_neg hn]
      by_cases hn : n - 1 = 0
      · rw [if_pos hn]
      · rw [if_neg hn]
        by_cases he : tl h (2 * (k + 1)) v = tl h (k + 1) v
        · rw [if_pos he]
        · rw [if_neg he]
          have : k + 1 ≠ K := fun e => he (by rw [e]; exact hK)
          exact ih (k + 1) _ (by omega) (by omega)

theorem cmpK_spec {h : Heap} (hc : Closed h) {v : Val} (hv : Exists h v) {l : Option Nat} (hl : Pairs h v l) (n fuel : Nat) (hf : h.size < fuel) :
    cmpK h fuel v v n = .ok (cmpLen l (some n)) := by
  cases l with
  | some m =>
    obtain ⟨as, t, ht, p, rfl⟩ := hl
    have := path_len ht p
    have := cmpK_finite ht p n fuel 0 (by omega) (by omega) (by omega)
    simpa [tl] using this
  | none =>
    have c : Circular h v := hl
    obtain ⟨K, h1, h2, h3⟩ := circular_meet hc hv c
    exact cmpK_circular c K h3 fuel 0 n (by omega) (by omega)

/-! Two lists. -/

/-- What the list gives: a length and where the hare meets the tortoise. -/
def Meets (h : Heap) (v : Val) (l : Option Nat) (K : Nat) : Prop :=
  match l with
  | some n => ∃ as t, Val.Atomic t ∧ Path h v as t ∧ as.length = n ∧ n < 2 * K
  | none => Circular h v ∧ tl h (2 * K) v = tl h K v

theorem meets_of {h : Heap} (hc : Closed h) {v : Val} (hv : Exists h v) {l : Option Nat} (hl : Pairs h v l) : ∃ K, 1 ≤ K ∧ K ≤ h.size + 1 ∧ Meets h v l K := by
  cases l with
  | some m =>
    obtain ⟨as, t, ht, p, rfl⟩ := hl
    have := path_len ht p
    exact ⟨h.size + 1, by omega, by omega, as, t, ht, p, rfl, by omega⟩
  | none =>
    have c : Circular h v := hl
    obtain ⟨K, h1, h2, h3⟩ := circular_meet hc hv c
    exact ⟨K, h1, by omega, c, h3⟩

/-- The object after `n` cdrs: a pair while there are pairs. -/
theorem meets_pair {h : Heap} {v : Val} {l : Option Nat} {K : Nat} (m : Meets h v l K) (n : Nat) (hn : ∀ x, l = some x → n < x) : ∃ a, tl h n v = .pair a := by
  cases l with
  | some x =>
    obtain ⟨as, t, ht, p, rfl, _⟩ := m
    exact ⟨_, tl_pair p n (hn _ rfl)⟩
  | none => exact circular_pairs m.1 n

theorem meets_atomic {h : Heap} {v : Val} {x : Nat} {K : Nat} (m : Meets h v (some x) K) : Val.Atomic (tl h x v) := by
  obtain ⟨as, t, ht, p, rfl, _⟩ := m
  rw [path_tl p]; exact ht

theorem cmpLis_spec {h : Heap} {v w : Val} {l m : Option Nat} {K L : Nat} (hl : Meets h v l K) (hm : Meets h w m L) (fuel : Nat) :
    ∀ (k : Nat) (c1 c2 : Bool), (∀ x, l = some x → 2 * k ≤ x) → (∀ x, m = some x → 2 * k ≤ x) → (k < K ∨ k < L) → K ≤ k + fuel → L ≤ k + fuel →
      (c1 = true → l = none) → (c2 = true → m = none) → (l = none → K ≤ k → c1 = true) → (m = none → L ≤ k → c2 = true) → ¬ (c1 = true ∧ c2 = true) →
      cmpLis h fuel (tl h (2 * k) v) (tl h k v) (tl h (2 * k) w) (tl h k w) c1 c2 = .ok (cmpLen l m) := by
  induction fuel with
  | zero => intro k c1 c2 h1 h2 h3 h4 h5; omega
  | succ fuel ih =>
    intro k c1 c2 h1 h2 h3 h4 h5 hc1 hc2 hd1 hd2 hnb
    unfold cmpLis
    have lt_or : ∀ (l : Option Nat) (n : Nat), (∀ x, l = some x → n ≤ x) → l = some n ∨ ∀ x, l = some x → n < x := by
      intro l n hl
      cases l with
      | none => right; intro x hx; simp at hx
      | some y =>
        by_cases hy : y = n
        · left; rw [hy]
        · right; intro x hx; have := hl x hx; injection hx with hx; omega
    have atomic_ne : ∀ {t : Val} {α : Type} (_ : Val.Atomic t) (f : Nat → α) (d : α), (match t with | .pair a => f a | _ => d) = d := by
      intro t α ht f d
      cases t with
      | pair a => exact absurd rfl (ht a)
      | nil => rfl
      | atom x => rfl
    have cmpGt : ∀ (n : Nat), m = some n → (∀ x, l = some x → n < x) → cmpLen l m = 1 := by
      intro n e hx
      rw [e]
      cases l with
      | none => rfl
      | some x => have := hx x rfl; rw [cmpLen_some]; rw [if_neg (by omega), if_neg (by omega)]
    have cmpLt : ∀ (n : Nat), l = some n → (∀ x, m = some x → n < x) → cmpLen l m = -1 := by
      intro n e hx
      rw [e]
      cases m with
      | none => rfl
      | some x => have := hx x rfl; rw [cmpLen_some]; rw [if_pos (by omega)]
    have cmpEq : ∀ (n : Nat), l = some n → m = some n → cmpLen l m = 0 := by
      intro n e e'
      rw [e, e']; rw [cmpLen_some]; rw [if_neg (by omega), if_pos rfl]
    rcases lt_or l _ h1 with e | h1'
    · have a1 := meets_atomic (x := 2 * k) (K := K) (by rw [← e]; exact hl)
      rcases lt_or m _ h2 with e' | h2'
      · have a2 := meets_atomic (x := 2 * k) (K := L) (by rw [← e']; exact hm)
        rw [cmpEq _ e e']
        generalize tl h (2 * k) v = x at *
        generalize tl h (2 * k) w = y at *
        cases x with
        | pair a => exact absurd rfl (a1 a)
        | nil => cases y with
          | pair a => exact absurd rfl (a2 a)
          | nil => rfl
          | atom x => rfl
        | atom x => cases y with
          | pair a => exact absurd rfl (a2 a)
          | nil => rfl
          | atom x => rfl
      · obtain ⟨b, hb⟩ := meets_pair hm _ h2'
        rw [hb, cmpLt _ e h2']
        generalize tl h (2 * k) v = x at *
        cases x with
        | pair a => exact absurd rfl (a1 a)
        | nil => rfl
        | atom x => rfl
    · obtain ⟨a, ha⟩ := meets_pair hl _ h1'
      rcases lt_or m _ h2 with e' | h2'
      · have a2 := meets_atomic (x := 2 * k) (K := L) (by rw [← e']; exact hm)
        rw [ha, cmpGt _ e' h1']
        generalize tl h (2 * k) w = y at *
        cases y with
        | pair a => exact absurd rfl (a2 a)
        | nil => rfl
        | atom x => rfl
      · obtain ⟨b, hb⟩ := meets_pair hm _ h2'
        rw [ha, hb]
        dsimp only
        have e1 : h.cdr a = tl h (2 * k + 1) v := by rw [tl_succ, ha]; rfl
        have e2 : h.cdr b = tl h (2 * k + 1) w := by rw [tl_succ, hb]; rfl
        rw [e1, e2]
        rcases lt_or l (2 * k + 1) (fun x hx => h1' x hx) with e | h1''
        · have a1 := meets_atomic (x := 2 * k + 1) (K := K) (by rw [← e]; exact hl)
          rcases lt_or m (2 * k + 1) (fun x hx => h2' x hx) with e' | h2''
          · have a2 := meets_atomic (x := 2 * k + 1) (K := L) (by rw [← e']; exact hm)
            rw [cmpEq _ e e']
            generalize tl h (2 * k + 1) v = x at *
            generalize tl h (2 * k + 1) w = y at *
            cases x with
            | pair a => exact absurd rfl (a1 a)
            | nil => cases y with
              | pair a => exact absurd rfl (a2 a)
              | nil => rfl
              | atom x => rfl
            | atom x => cases y with
              | pair a => exact absurd rfl (a2 a)
              | nil => rfl
              | atom x => rfl
          · obtain ⟨b, hb⟩ := meets_pair hm _ h2''
            rw [hb, cmpLt _ e h2'']
            generalize tl h (2 * k + 1) v = x at *
            cases x with
            | pair a => exact absurd rfl (a1 a)
            | nil => rfl
            | atom x => rfl
        · obtain ⟨a', ha'⟩ := meets_pair hl _ h1''
          rcases lt_or m (2 * k + 1) (fun x hx => h2' x hx) with e' | h2''
          · have a2 := meets_atomic (x := 2 * k + 1) (K := L) (by rw [← e']; exact hm)
            rw [ha', cmpGt _ e' h1'']
            generalize tl h (2 * k + 1) w = y at *
            cases y with
            | pair a => exact absurd rfl (a2 a)
            | nil => rfl
            | atom x => rfl
          · obtain ⟨b', hb'⟩ := meets_pair hm _ h2''
            rw [ha', hb']
            dsimp only
            have f1 : h.cdr a' = tl h (2 * (k + 1)) v := by rw [show 2 * (k + 1) = 2 * k + 1 + 1 by omega, tl_succ, ha']; rfl
            have f2 : h.cdr b' = tl h (2 * (k + 1)) w := by rw [show 2 * (k + 1) = 2 * k + 1 + 1 by omega, tl_succ, hb']; rfl
            rw [f1, f2, ← tl_succ, ← tl_succ]
            have g1 : (c1 || decide (tl h (2 * (k + 1)) v = tl h (k + 1) v)) = true → l = none := by
              intro hx
              rcases Bool.or_eq_true_iff.1 hx with hx | hx
              · exact hc1 hx
              · cases l with
                | none => rfl
                | some x =>
                  exfalso
                  obtain ⟨as, t, ht, p, e, _⟩ := hl
                  have := h1'' x rfl
                  exact path_tl_ne ht p (k + 1) (2 * (k + 1)) (by omega) (by omega) (of_decide_eq_true hx).symm
            have g2 : (c2 || decide (tl h (2 * (k + 1)) w = tl h (k + 1) w)) = true → m = none := by
              intro hx
              rcases Bool.or_eq_true_iff.1 hx with hx | hx
              · exact hc2 hx
              · cases m with
                | none => rfl
                | some x =>
                  exfalso
                  obtain ⟨as, t, ht, p, e, _⟩ := hm
                  have := h2'' x rfl
                  exact path_tl_ne ht p (k + 1) (2 * (k + 1)) (by omega) (by omega) (of_decide_eq_true hx).symm
            have i1 : l = none → K ≤ k + 1 → (c1 || decide (tl h (2 * (k + 1)) v = tl h (k + 1) v)) = true := by
              intro e hk
              rw [Bool.or_eq_true_iff]
              by_cases hk' : K ≤ k
              · left; exact hd1 e hk'
              · right
                rw [e] at hl
                have : k + 1 = K := by omega
                rw [this]
                exact decide_eq_true hl.2
            have i2 : m = none → L ≤ k + 1 → (c2 || decide (tl h (2 * (k + 1)) w = tl h (k + 1) w)) = true := by
              intro e hk
              rw [Bool.or_eq_true_iff]
              by_cases hk' : L ≤ k
              · left; exact hd2 e hk'
              · right
                rw [e] at hm
                have : k + 1 = L := by omega
                rw [this]
                exact decide_eq_true hm.2
            generalize (c1 || decide (tl h (2 * (k + 1)) v = tl h (k + 1) v)) = d1 at *
            generalize (c2 || decide (tl h (2 * (k + 1)) w = tl h (k + 1) w)) = d2 at *
            by_cases hd : d1 = true ∧ d2 = true
            · rw [hd.1, hd.2, g1 hd.1, g2 hd.2]; rfl
            · rw [if_neg (by simpa using hd)]
              refine ih (k + 1) d1 d2 ?_ ?_ ?_ (by omega) (by omega) g1 g2 i1 i2 hd
              · intro x hx; have := h1'' x hx; omega
              · intro x hx; have := h2'' x hx; omega
              · by_contra hno
                push_neg at hno
                apply hd
                constructor
                · apply i1 _ hno.1
                  cases l with
                  | none => rfl
                  | some x =>
                    exfalso
                    have := h1'' x rfl
                    obtain ⟨as, t, ht, p, e, hx⟩ := hl
                    omega
                · apply i2 _ hno.2
                  cases m with
                  | none => rfl
                  | some x =>
                    exfalso
                    have := h2'' x rfl
                    obtain ⟨as, t, ht, p, e, hx⟩ := hm
                    omega

theorem cmpLis_ok {h : Heap} (hc : Closed h) {v w : Val} (hv : Exists h v) (hw : Exists h w) {l m : Option Nat} (hl : Pairs h v l) (hm : Pairs h w m)
    (fuel : Nat) (hf : h.size < fuel) : cmpLis h fuel v v w w false false = .ok (cmpLen l m) := by
  obtain ⟨K, k1, k2, k3⟩ := meets_of hc hv hl
  obtain ⟨L, l1, l2, l3⟩ := meets_of hc hw hm
  exact cmpLis_spec k3 l3 fuel 0 false false (by omega) (by omega) (by omega) (by omega) (by omega) (by simp) (by simp) (by omega) (by omega) (by simp)

end Gauche.ListPrim
