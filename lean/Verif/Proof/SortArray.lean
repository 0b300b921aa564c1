import Verif.Model.SortArray
import Verif.Spec.Sorting
/-
Proofs about the array sorter.
-/
namespace Gauche.SortArray
open Gauche.Spec

variable {α : Type}

theorem get_some (e : List α) (i : Int) (h0 : 0 ≤ i) (h1 : i < e.length) : ∃ x, get e i = some x := by
  unfold get
  rw [if_pos h0, List.getElem?_eq_getElem (by omega)]
  exact ⟨_, rfl⟩

theorem get_lt {e : List α} {i : Int} {x : α} (h : get e i = some x) : 0 ≤ i ∧ i < e.length := by
  unfold get at h
  by_cases h0 : 0 ≤ i
  · rw [if_pos h0] at h
    have := (List.getElem?_eq_some_iff.1 h).1
    omega
  · rw [if_neg h0] at h; cases h

/-- What a rearrangement inside positions `lo` … `hi` guarantees. -/
structure Within (lo hi : Int) (e e' : List α) : Prop where
  len : e'.length = e.length
  perm : e'.Perm e
  out : ∀ k, k < lo ∨ hi < k → get e' k = get e k
  all : ∀ P : α → Prop, (∀ k x, lo ≤ k → k ≤ hi → get e k = some x → P x) →
    ∀ k x, lo ≤ k → k ≤ hi → get e' k = some x → P x

theorem Within.refl (lo hi : Int) (e : List α) : Within lo hi e e := ⟨rfl, .refl _, fun _ _ => rfl, fun _ h => h⟩

theorem Within.trans {lo hi : Int} {a b c : List α} (h1 : Within lo hi a b) (h2 : Within lo hi b c) : Within lo hi a c :=
  ⟨h2.len.trans h1.len, h2.perm.trans h1.perm, fun k hk => (h2.out k hk).trans (h1.out k hk),
   fun P h => h2.all P (h1.all P h)⟩

theorem Within.mono {lo hi lo' hi' : Int} {a b : List α} (h : Within lo hi a b) (h1 : lo' ≤ lo) (h2 : hi ≤ hi') :
    Within lo' hi' a b := by
  refine ⟨h.len, h.perm, fun k hk => h.out k (by omega), fun P hP k x hk1 hk2 hx => ?_⟩
  by_cases hin : lo ≤ k ∧ k ≤ hi
  · exact h.all P (fun k x a b => hP k x (by omega) (by omega)) k x hin.1 hin.2 hx
  · rw [h.out k (by omega)] at hx
    exact hP k x hk1 hk2 hx

theorem swap_spec (e : List α) (i j : Int) (hi0 : 0 ≤ i) (hi : i < e.length) (hj0 : 0 ≤ j) (hj : j < e.length) :
    ∃ e', swap e i j = some e' ∧ e'.length = e.length ∧ e'.Perm e ∧
      ∀ k, get e' k = if k = j then get e i else if k = i then get e j else get e k := by
  obtain ⟨i, rfl⟩ := Int.eq_ofNat_of_zero_le hi0
  obtain ⟨j, rfl⟩ := Int.eq_ofNat_of_zero_le hj0
  have hi' : i < e.length := by omega
  have hj' : j < e.length := by omega
  have gi : get e (i : Int) = some e[i] := by
    unfold get; rw [if_pos hi0, Int.toNat_natCast, List.getElem?_eq_getElem hi']
  have gj : get e (j : Int) = some e[j] := by
    unfold get; rw [if_pos hj0, Int.toNat_natCast, List.getElem?_eq_getElem hj']
  refine ⟨(e.set i e[j]).set j e[i], ?_, by simp, List.set_set_perm hi' hj', fun k => ?_⟩
  · unfold swap
    rw [gi, gj]
    simp only [Option.bind_some, Int.toNat_natCast]
  · rw [gi, gj]
    by_cases hk : 0 ≤ k
    · obtain ⟨k, rfl⟩ := Int.eq_ofNat_of_zero_le hk
      unfold get
      rw [if_pos hk, if_pos hk, Int.toNat_natCast, List.getElem?_set, List.length_set]
      by_cases h1 : k = j
      · subst h1; rw [if_pos rfl, if_pos hj', if_pos rfl]
      · rw [if_neg (by omega : ¬ j = k), if_neg (by omega : ¬ (k : Int) = j), List.getElem?_set]
        by_cases h2 : k = i
        · subst h2; rw [if_pos rfl, if_pos hi', if_pos rfl]
        · rw [if_neg (by omega : ¬ i = k), if_neg (by omega : ¬ (k : Int) = i)]
    · rw [if_neg (by omega : ¬ k = (j : Int)), if_neg (by omega : ¬ k = (i : Int))]
      unfold get
      rw [if_neg hk, if_neg hk]

theorem swap_within {e e' : List α} {i j lo hi : Int} (hlen : e'.length = e.length) (hp : e'.Perm e)
    (hg : ∀ k, get e' k = if k = j then get e i else if k = i then get e j else get e k)
    (h1 : lo ≤ i) (h2 : i ≤ hi) (h3 : lo ≤ j) (h4 : j ≤ hi) : Within lo hi e e' := by
  refine ⟨hlen, hp, fun k hk => ?_, fun P hP k x hk1 hk2 hx => ?_⟩
  · rw [hg, if_neg (by omega), if_neg (by omega)]
  · rw [hg] at hx
    by_cases e1 : k = j
    · rw [if_pos e1] at hx; exact hP i x h1 h2 hx
    · rw [if_neg e1] at hx
      by_cases e2 : k = i
      · rw [if_pos e2] at hx; exact hP j x h3 h4 hx
      · rw [if_neg e2] at hx; exact hP k x hk1 hk2 hx

/-- `cmp` orders the elements. -/
def Ordered (cmp : α → α → Int) : Prop := StrictWeak fun x y => decide (cmp x y < 0)

theorem Ordered.asymm {cmp : α → α → Int} (h : Ordered cmp) {x y : α} (h1 : cmp x y < 0) : ¬ cmp y x < 0 := by
  have := StrictWeak.asymm h x y (by simpa using h1)
  simpa using this

theorem Ordered.trans {cmp : α → α → Int} (h : Ordered cmp) {x y z : α} (h1 : ¬ cmp x y < 0) (h2 : ¬ cmp y z < 0) :
    ¬ cmp x z < 0 := by
  have := StrictWeak.negTrans h x y z (by simpa using h1) (by simpa using h2)
  simpa using this

theorem Ordered.refl {cmp : α → α → Int} (h : Ordered cmp) (x : α) : ¬ cmp x x < 0 := fun hx => h.asymm hx hx

/-! ### Heap sort -/

/-- The element at `i` is not less than its children among the first `n`. -/
def HeapAt (cmp : α → α → Int) (base n : Int) (e : List α) (i : Int) : Prop :=
  ∀ c x y, (c = 2 * i + 1 ∨ c = 2 * i + 2) → c < n → get e (base + i) = some x → get e (base + c) = some y → ¬ cmp x y < 0

/-- Positions from `root` on are in heap order, but for `p`, whose children are below its parent. -/
def HeapBut (cmp : α → α → Int) (base n root p : Int) (e : List α) : Prop :=
  (∀ i, root ≤ i → i ≠ p → HeapAt cmp base n e i) ∧
  ∀ i, root ≤ i → (p = 2 * i + 1 ∨ p = 2 * i + 2) → ∀ c x y, (c = 2 * p + 1 ∨ c = 2 * p + 2) → c < n →
    get e (base + i) = some x → get e (base + c) = some y → ¬ cmp x y < 0

theorem shiftUp_spec (cmp : α → α → Int) (base n : Int) (fuel : Nat) (e : List α) (l : Int) (hb : 0 ≤ base) (hl : 1 ≤ l)
    (hn : base + n ≤ e.length) (hf : n - l < fuel) (hf0 : 0 < fuel) :
    ∃ e', shiftUp cmp base n fuel e l = some e' ∧ Within base (base + n - 1) e e' ∧
      (Ordered cmp → ∀ root, 0 ≤ root → root ≤ l - 1 → HeapBut cmp base n root (l - 1) e →
        ∀ i, root ≤ i → HeapAt cmp base n e' i) := by
  induction fuel generalizing e l with
  | zero => omega
  | succ fuel ih =>
    rw [shiftUp]
    by_cases h2 : l * 2 ≤ n
    · rw [if_pos h2]
      obtain ⟨p, hp⟩ := get_some e (base + (l - 1)) (by omega) (by omega)
      have key : ∃ m y, (if l * 2 = n then some (n - 1)
          else (get e (base + (l * 2 - 1))).bind fun x => (get e (base + l * 2)).bind fun y =>
            some (if cmp x y < 0 then l * 2 else l * 2 - 1)) = some m ∧ (m = 2 * (l - 1) + 1 ∨ m = 2 * (l - 1) + 2) ∧ m < n ∧
          get e (base + m) = some y ∧
          (Ordered cmp → ∀ c z, (c = 2 * (l - 1) + 1 ∨ c = 2 * (l - 1) + 2) → c < n → get e (base + c) = some z → ¬ cmp y z < 0) := by
        by_cases h3 : l * 2 = n
        · rw [if_pos h3]
          obtain ⟨y, hy⟩ := get_some e (base + (n - 1)) (by omega) (by omega)
          refine ⟨n - 1, y, rfl, by omega, by omega, hy, fun ho c z hc hcn hz => ?_⟩
          have : c = n - 1 := by omega
          subst this
          rw [hy] at hz; cases hz
          exact ho.refl _
        · rw [if_neg h3]
          obtain ⟨x, hx⟩ := get_some e (base + (l * 2 - 1)) (by omega) (by omega)
          obtain ⟨y, hy⟩ := get_some e (base + l * 2) (by omega) (by omega)
          rw [hx, hy]
          simp only [Option.bind_some]
          by_cases hc : cmp x y < 0
          · rw [if_pos hc]
            refine ⟨l * 2, y, rfl, by omega, by omega, hy, fun ho c z hc' hcn hz => ?_⟩
            rcases hc' with e1 | e1
            · have : c = l * 2 - 1 := by omega
              subst this
              rw [hx] at hz; cases hz; exact ho.asymm hc
            · have : c = l * 2 := by omega
              subst this
              rw [hy] at hz; cases hz; exact ho.refl _
          · rw [if_neg hc]
            refine ⟨l * 2 - 1, x, rfl, by omega, by omega, hx, fun ho c z hc' hcn hz => ?_⟩
            rcases hc' with e1 | e1
            · have : c = l * 2 - 1 := by omega
              subst this
              rw [hx] at hz; cases hz; exact ho.refl _
            · have : c = l * 2 := by omega
              subst this
              rw [hy] at hz; cases hz; exact hc
      obtain ⟨m, y, hm, hmc, hmn, hy, hmax⟩ := key
      rw [hm]
      simp only [Option.bind_some]
      rw [hp, hy]
      simp only [Option.bind_some]
      by_cases hlt : cmp p y < 0
      · rw [if_pos hlt]
        obtain ⟨e1, s1, s2, s3, s4⟩ := swap_spec e (base + m) (base + (l - 1)) (by omega) (by omega) (by omega) (by omega)
        rw [s1, Option.bind_some]
        obtain ⟨e2, r1, r2, r3⟩ := ih e1 (m + 1) (by omega) (by omega) (by omega) (by omega)
        refine ⟨e2, r1, (swap_within s2 s3 s4 (by omega) (by omega) (by omega) (by omega)).trans r2, ?_⟩
        intro ho root hr0 hr ⟨hA, hB⟩
        refine r3 ho root hr0 (by omega) ?_
        have gP : get e1 (base + (l - 1)) = some y := by rw [s4, if_pos rfl, hy]
        have gM : get e1 (base + m) = some p := by rw [s4, if_neg (by omega), if_pos rfl, hp]
        have gO : ∀ k, k ≠ l - 1 → k ≠ m → get e1 (base + k) = get e (base + k) := fun k h1 h2 => by
          rw [s4, if_neg (by omega), if_neg (by omega)]
        constructor
        · intro i hi hne c u v hc hcn hu hv
          have hne' : i ≠ m := by omega
          by_cases hip : i = l - 1
          · subst hip
            rw [gP] at hu; cases hu
            by_cases hcm : c = m
            · subst hcm
              rw [gM] at hv; cases hv
              exact ho.asymm hlt
            · rw [gO c (by omega) hcm] at hv
              exact hmax ho c v hc hcn hv
          · rw [gO i hip hne'] at hu
            by_cases hcp : c = l - 1
            · subst hcp
              rw [gP] at hv; cases hv
              exact hB i hi hc m u y hmc hmn hu hy
            · rw [gO c hcp (by omega)] at hv
              exact hA i hi hip c u v hc hcn hu hv
        · intro i hi hmi c u v hc hcn hu hv
          have : i = l - 1 := by omega
          subst this
          rw [gP] at hu; cases hu
          have e0 : m + 1 - 1 = m := by omega
          rw [e0] at hc
          rw [gO c (by omega) (by omega)] at hv
          exact hA m (by omega) (by omega) c y v hc hcn hy hv
      · rw [if_neg hlt]
        refine ⟨e, rfl, .refl _ _ _, fun ho root hr0 hr ⟨hA, _⟩ i hi => ?_⟩
        by_cases hip : i = l - 1
        · subst hip
          intro c u v hc hcn hu hv
          rw [hp] at hu; cases hu
          exact ho.trans hlt (hmax ho c v hc hcn hv)
        · exact hA i hi hip
    · rw [if_neg h2]
      refine ⟨e, rfl, .refl _ _ _, fun ho root hr0 hr ⟨hA, _⟩ i hi => ?_⟩
      by_cases hip : i = l - 1
      · subst hip
        intro c u v hc hcn hu hv
        omega
      · exact hA i hi hip

theorem buildLoop_spec (cmp : α → α → Int) (base n : Int) (fuel : Nat) (e : List α) (l : Int) (hb : 0 ≤ base) (hl : -1 ≤ l)
    (hn : base + n ≤ e.length) (hf : l + 1 < fuel) :
    ∃ e', buildLoop cmp base n fuel e l = some e' ∧ Within base (base + n - 1) e e' ∧
      (Ordered cmp → (∀ i, l < i → HeapAt cmp base n e i) → ∀ i, 0 ≤ i → HeapAt cmp base n e' i) := by
  induction fuel generalizing e l with
  | zero => omega
  | succ fuel ih =>
    rw [buildLoop]
    by_cases h0 : 0 ≤ l
    · rw [if_pos h0]
      obtain ⟨e1, r1, r2, r3⟩ := shiftUp_spec cmp base n (n.toNat + 1) e (l + 1) hb (by omega) hn (by omega) (by omega)
      rw [r1, Option.bind_some]
      obtain ⟨e2, q1, q2, q3⟩ := ih e1 (l - 1) (by omega) (by rw [r2.len]; exact hn) (by omega)
      refine ⟨e2, q1, r2.trans q2, fun ho hA => q3 ho fun i hi => ?_⟩
      refine r3 ho l h0 (by omega) ⟨fun i hi hne => hA i (by omega), fun i hi hp => by omega⟩ i (by omega)
    · rw [if_neg h0]
      exact ⟨e, rfl, .refl _ _ _, fun _ hA i hi => hA i (by omega)⟩

/-- The root of a heap is a maximum. -/
theorem heap_max {cmp : α → α → Int} (ho : Ordered cmp) {base n : Int} {e : List α} (hb : 0 ≤ base) (hn : base + n ≤ e.length)
    (hh : ∀ i, 0 ≤ i → HeapAt cmp base n e i) : ∀ (k : Nat) x y, (k : Int) < n → get e base = some x → get e (base + k) = some y →
      ¬ cmp x y < 0 := by
  intro k
  induction k using Nat.strongRecOn with
  | _ k ih =>
    intro x y hk hx hy
    by_cases h0 : k = 0
    · subst h0
      have : base + ((0 : Nat) : Int) = base := by omega
      rw [this, hx] at hy; cases hy
      exact ho.refl _
    · obtain ⟨z, hz⟩ := get_some e (base + ((k - 1) / 2 : Nat)) (by omega) (by omega)
      have a := ih ((k - 1) / 2) (by omega) x z (by omega) hx hz
      have b := hh ((k - 1) / 2 : Nat) (by omega) k z y (by omega) hk hz hy
      exact ho.trans a b

/-- Positions `lo` … `hi` are in order. -/
def SortedIn (cmp : α → α → Int) (lo hi : Int) (e : List α) : Prop :=
  ∀ i j x y, lo ≤ i → i < j → j ≤ hi → get e i = some x → get e j = some y → ¬ cmp y x < 0

theorem popLoop_spec (cmp : α → α → Int) (base hi : Int) (fuel : Nat) (e : List α) (r : Int) (hb : 0 ≤ base)
    (hr : base + r ≤ hi) (hr0 : -1 ≤ r) (hn : hi < e.length) (hf : r + 1 < fuel) :
    ∃ e', popLoop cmp base fuel e r = some e' ∧ Within base (base + r) e e' ∧
      (Ordered cmp → (∀ i, 0 ≤ i → HeapAt cmp base (r + 1) e i) → SortedIn cmp (base + r + 1) hi e →
        (∀ i j x y, base ≤ i → i ≤ base + r → base + r < j → j ≤ hi → get e i = some x → get e j = some y → ¬ cmp y x < 0) →
        SortedIn cmp base hi e') := by
  induction fuel generalizing e r with
  | zero => omega
  | succ fuel ih =>
    rw [popLoop]
    by_cases h0 : 1 ≤ r
    · rw [if_pos h0]
      obtain ⟨e1, s1, s2, s3, s4⟩ := swap_spec e (base + r) base (by omega) (by omega) (by omega) (by omega)
      rw [s1, Option.bind_some]
      obtain ⟨e2, r1, r2, r3⟩ := shiftUp_spec cmp base r (r.toNat + 1) e1 1 hb (by omega) (by omega) (by omega) (by omega)
      rw [r1, Option.bind_some]
      have w1 : Within base (base + r) e e1 := swap_within s2 s3 s4 (by omega) (by omega) (by omega) (by omega)
      obtain ⟨e3, q1, q2, q3⟩ := ih e2 (r - 1) (by omega) (by omega) (by rw [r2.len]; omega) (by omega)
      refine ⟨e3, q1, (w1.trans (r2.mono (by omega) (by omega))).trans (q2.mono (by omega) (by omega)), ?_⟩
      intro ho hh hs hle
      obtain ⟨mx, hmx⟩ := get_some e base (by omega) (by omega)
      have hmax := heap_max ho hb (by omega) hh
      -- after the exchange position r holds the maximum
      have gR : get e1 (base + r) = some mx := by rw [s4, if_neg (by omega), if_pos rfl, hmx]
      have gO : ∀ k, k ≠ base → k ≠ base + r → get e1 k = get e k := fun k h1 h2 => by rw [s4, if_neg h1, if_neg h2]
      have hall : ∀ k x, base ≤ k → k ≤ base + r → get e k = some x → ¬ cmp mx x < 0 := by
        intro k x h1 h2 hx
        obtain ⟨d, hd⟩ := Int.eq_ofNat_of_zero_le (by omega : 0 ≤ k - base)
        exact hmax d mx x (by omega) hmx (by rw [show base + (d : Int) = k by omega]; exact hx)
      have hall1 := w1.all _ hall
      have hall2 := (r2.mono (by omega : base ≤ base) (by omega : base + r - 1 ≤ base + r)).all _ hall1
      have e2out : ∀ k, base + r ≤ k → get e2 k = get e1 k := fun k hk => r2.out k (by omega)
      have heap2 : ∀ i, 0 ≤ i → HeapAt cmp base (r - 1 + 1) e2 i := by
        rw [show r - 1 + 1 = r by omega]
        refine r3 ho 0 (by omega) (by omega) ⟨fun i hi hne c x y hc hcn hx hy => ?_, fun i hi hp => by omega⟩
        rw [gO (base + i) (by omega) (by omega)] at hx
        rw [gO (base + c) (by omega) (by omega)] at hy
        exact hh i hi c x y hc (by omega) hx hy
      refine q3 ho heap2 ?_ ?_
      · rw [show base + (r - 1) + 1 = base + r by omega]
        intro i j x y hi1 hij hj hx hy
        rw [e2out i (by omega)] at hx
        rw [e2out j (by omega), gO j (by omega) (by omega)] at hy
        by_cases hir : i = base + r
        · subst hir
          rw [gR] at hx; cases hx
          exact hle base j mx y (by omega) (by omega) (by omega) hj hmx hy
        · rw [gO i (by omega) (by omega)] at hx
          exact hs i j x y (by omega) hij hj hx hy
      · intro i j x y h1 h2 h3 h4 hx hy
        have := hall2 i x h1 (by omega) hx
        rw [e2out j (by omega)] at hy
        by_cases hjr : j = base + r
        · subst hjr
          rw [gR] at hy; cases hy
          exact this
        · rw [gO j (by omega) (by omega)] at hy
          have a := hle base j mx y (by omega) (by omega) (by omega) h4 hmx hy
          exact ho.trans a this
    · rw [if_neg h0]
      refine ⟨e, rfl, .refl _ _ _, fun ho hh hs hle i j x y h1 h2 h3 hx hy => ?_⟩
      by_cases hi0 : base + r < i
      · exact hs i j x y (by omega) h2 h3 hx hy
      · exact hle i j x y h1 (by omega) (by omega) h3 hx hy

theorem sortH_spec (cmp : α → α → Int) (e : List α) (base n : Int) (hb : 0 ≤ base) (hn0 : 0 ≤ n) (hn : base + n ≤ e.length) :
    ∃ e', sortH cmp e base n = some e' ∧ Within base (base + n - 1) e e' ∧
      (Ordered cmp → SortedIn cmp base (base + n - 1) e') := by
  unfold sortH
  obtain ⟨e1, r1, r2, r3⟩ := buildLoop_spec cmp base n (n.toNat + 1) e (n / 2 - 1) hb (by omega) hn (by omega)
  rw [r1, Option.bind_some]
  obtain ⟨e2, q1, q2, q3⟩ := popLoop_spec cmp base (base + n - 1) (n.toNat + 1) e1 (n - 1) hb (by omega) (by omega)
    (by rw [r2.len]; omega) (by omega)
  refine ⟨e2, q1, r2.trans (q2.mono (by omega) (by omega)), fun ho => q3 ho ?_ ?_ ?_⟩
  · rw [show n - 1 + 1 = n by omega]
    exact r3 ho fun i hi c x y hc hcn => by omega
  · intro i j x y h1 h2 h3; omega
  · intro i j x y h1 h2 h3 h4; omega

/-! ### Quick sort -/

theorem scanUp_spec (cmp : α → α → Int) (pivot : α) (e : List α) (r : Int) (fuel : Nat) (l : Int) (h0 : 0 ≤ l)
    (hr : r < e.length) (hf : r - l + 1 < fuel) (hf0 : 0 < fuel) (hlr : l ≤ r + 1) :
    ∃ l', scanUp cmp pivot e r fuel l = some l' ∧ l ≤ l' ∧ l' ≤ r + 1 ∧
      (∀ k x, l ≤ k → k < l' → get e k = some x → cmp x pivot < 0) ∧
      (l' ≤ r → ∀ x, get e l' = some x → ¬ cmp x pivot < 0) := by
  induction fuel generalizing l with
  | zero => omega
  | succ fuel ih =>
    rw [scanUp]
    by_cases h : l ≤ r
    · rw [if_pos h]
      obtain ⟨x, hx⟩ := get_some e l h0 (by omega)
      rw [hx, Option.bind_some]
      by_cases hc : cmp x pivot < 0
      · rw [if_pos hc]
        obtain ⟨l', a1, a2, a3, a4, a5⟩ := ih (l + 1) (by omega) (by omega) (by omega) (by omega)
        refine ⟨l', a1, by omega, a3, fun k y hk1 hk2 hy => ?_, a5⟩
        by_cases hkl : k = l
        · subst hkl; rw [hx] at hy; cases hy; exact hc
        · exact a4 k y (by omega) hk2 hy
      · rw [if_neg hc]
        exact ⟨l, rfl, by omega, by omega, fun k y _ _ => by omega, fun _ y hy => by rw [hx] at hy; cases hy; exact hc⟩
    · rw [if_neg h]
      exact ⟨l, rfl, by omega, by omega, fun k y _ _ => by omega, fun h' => by omega⟩

theorem scanDown_spec (cmp : α → α → Int) (pivot : α) (e : List α) (l : Int) (fuel : Nat) (r : Int) (h0 : 0 ≤ l)
    (hr : r < e.length) (hf : r - l + 1 < fuel) (hf0 : 0 < fuel) (hlr : l ≤ r + 1) :
    ∃ r', scanDown cmp pivot e l fuel r = some r' ∧ r' ≤ r ∧ l ≤ r' + 1 ∧
      (∀ k x, r' < k → k ≤ r → get e k = some x → cmp pivot x < 0) ∧
      (l ≤ r' → ∀ x, get e r' = some x → ¬ cmp pivot x < 0) := by
  induction fuel generalizing r with
  | zero => omega
  | succ fuel ih =>
    rw [scanDown]
    by_cases h : l ≤ r
    · rw [if_pos h]
      obtain ⟨x, hx⟩ := get_some e r (by omega) (by omega)
      rw [hx, Option.bind_some]
      by_cases hc : cmp pivot x < 0
      · rw [if_pos hc]
        obtain ⟨r', a1, a2, a3, a4, a5⟩ := ih (r - 1) (by omega) (by omega) (by omega) (by omega)
        refine ⟨r', a1, by omega, a3, fun k y hk1 hk2 hy => ?_, a5⟩
        by_cases hkl : k = r
        · subst hkl; rw [hx] at hy; cases hy; exact hc
        · exact a4 k y hk1 (by omega) hy
      · rw [if_neg hc]
        exact ⟨r, rfl, by omega, by omega, fun k y _ _ => by omega, fun _ y hy => by rw [hx] at hy; cases hy; exact hc⟩
    · rw [if_neg h]
      exact ⟨r, rfl, by omega, by omega, fun k y _ _ => by omega, fun h' => by omega⟩

theorem partLoop_spec (cmp : α → α → Int) (pivot : α) (lo hi : Int) (h0 : 0 ≤ lo) (fuel : Nat) (e : List α) (l r : Int)
    (hlo : lo ≤ l) (hhi : r ≤ hi) (hlr : l ≤ r + 2) (hlen : hi < e.length) (hf : r - l + 1 < fuel) (hf0 : 0 < fuel) :
    ∃ e' l' r', partLoop cmp pivot fuel e l r = some (e', l', r') ∧ Within lo hi e e' ∧ l ≤ l' ∧ r' ≤ r ∧ r' < l' ∧ l' ≤ r' + 2 ∧
      (Ordered cmp → (∀ k x, lo ≤ k → k < l → get e k = some x → ¬ cmp pivot x < 0) →
        (∀ k x, r < k → k ≤ hi → get e k = some x → ¬ cmp x pivot < 0) →
        (∀ k x, lo ≤ k → k < l' → get e' k = some x → ¬ cmp pivot x < 0) ∧
        (∀ k x, r' < k → k ≤ hi → get e' k = some x → ¬ cmp x pivot < 0)) := by
  induction fuel generalizing e l r with
  | zero => omega
  | succ fuel ih =>
    rw [partLoop]
    by_cases h : l ≤ r
    · rw [if_pos h]
      obtain ⟨l1, a1, a2, a3, a4, a5⟩ := scanUp_spec cmp pivot e r (e.length + 1) l (by omega) (by omega) (by omega) (by omega) (by omega)
      rw [a1, Option.bind_some]
      obtain ⟨r1, b1, b2, b3, b4, b5⟩ := scanDown_spec cmp pivot e l1 (e.length + 1) r (by omega) (by omega) (by omega) (by omega) (by omega)
      rw [b1, Option.bind_some]
      have hL : Ordered cmp → (∀ k x, lo ≤ k → k < l → get e k = some x → ¬ cmp pivot x < 0) →
          ∀ k x, lo ≤ k → k < l1 → get e k = some x → ¬ cmp pivot x < 0 := by
        intro ho hA k x hk1 hk2 hx
        by_cases hkl : k < l
        · exact hA k x hk1 hkl hx
        · exact ho.asymm (a4 k x (by omega) hk2 hx)
      have hR : Ordered cmp → (∀ k x, r < k → k ≤ hi → get e k = some x → ¬ cmp x pivot < 0) →
          ∀ k x, r1 < k → k ≤ hi → get e k = some x → ¬ cmp x pivot < 0 := by
        intro ho hA k x hk1 hk2 hx
        by_cases hkl : r < k
        · exact hA k x hkl hk2 hx
        · exact ho.asymm (b4 k x hk1 (by omega) hx)
      by_cases hc : r1 < l1
      · rw [if_pos hc]
        exact ⟨e, l1, r1, rfl, .refl _ _ _, a2, b2, hc, by omega, fun ho hA hB => ⟨hL ho hA, hR ho hB⟩⟩
      · rw [if_neg hc]
        obtain ⟨e1, s1, s2, s3, s4⟩ := swap_spec e l1 r1 (by omega) (by omega) (by omega) (by omega)
        rw [s1, Option.bind_some]
        obtain ⟨e', l', r', q1, q2, q3, q4, q5, q6, q7⟩ := ih e1 (l1 + 1) (r1 - 1) (by omega) (by omega) (by omega)
          (by omega) (by omega) (by omega)
        refine ⟨e', l', r', q1, (swap_within s2 s3 s4 (by omega) (by omega) (by omega) (by omega)).trans q2, by omega, by omega,
          q5, q6, fun ho hA hB => q7 ho ?_ ?_⟩
        · intro k x hk1 hk2 hx
          rw [s4] at hx
          by_cases e1 : k = r1
          · rw [if_pos e1] at hx
            subst e1
            have : k = l1 := by omega
            subst this
            exact b5 (by omega) x hx
          · rw [if_neg e1] at hx
            by_cases e2 : k = l1
            · rw [if_pos e2] at hx
              exact b5 (by omega) x hx
            · rw [if_neg e2] at hx
              exact hL ho hA k x hk1 (by omega) hx
        · intro k x hk1 hk2 hx
          rw [s4] at hx
          by_cases e1 : k = r1
          · rw [if_pos e1] at hx
            exact a5 (by omega) x hx
          · rw [if_neg e1] at hx
            by_cases e2 : k = l1
            · omega
            · rw [if_neg e2] at hx
              exact hR ho hB k x (by omega) hk2 hx
    · rw [if_neg h]
      exact ⟨e, l, r, rfl, .refl _ _ _, by omega, by omega, by omega, by omega, fun _ hA hB => ⟨hA, hB⟩⟩

theorem sortQ_spec (cmp : α → α → Int) (limit : Nat) (fuel : Nat) (e : List α) (lo hi : Int) (depth : Nat) (h0 : 0 ≤ lo)
    (hlen : hi < e.length) (hd : depth ≤ limit) (hf : limit < depth + fuel) :
    ∃ e', sortQ cmp limit fuel e lo hi depth = some e' ∧ Within lo hi e e' ∧ (Ordered cmp → SortedIn cmp lo hi e') := by
  induction fuel generalizing e lo hi depth with
  | zero => omega
  | succ fuel ih =>
    rw [sortQ]
    by_cases h : lo < hi
    · rw [if_pos h]
      by_cases hlim : limit ≤ depth
      · rw [if_pos hlim]
        obtain ⟨e', r1, r2, r3⟩ := sortH_spec cmp e lo (hi - lo + 1) h0 (by omega) (by omega)
        rw [show lo + (hi - lo + 1) - 1 = hi by omega] at r2 r3
        exact ⟨e', r1, r2, r3⟩
      · rw [if_neg hlim]
        obtain ⟨p, hp⟩ := get_some e lo h0 (by omega)
        rw [hp, Option.bind_some]
        obtain ⟨e1, l, r, a1, a2, a3, a4, a5, a6, a7⟩ := partLoop_spec cmp p lo hi h0 (e.length + 1) e lo hi (by omega)
          (by omega) (by omega) hlen (by omega) (by omega)
        rw [a1, Option.bind_some]
        have key : ∃ e2, (if lo < r then sortQ cmp limit fuel e1 lo r (depth + 1) else some e1) = some e2 ∧
            Within lo r e1 e2 ∧ (Ordered cmp → SortedIn cmp lo r e2) := by
          by_cases hlr : lo < r
          · rw [if_pos hlr]
            exact ih e1 lo r (depth + 1) h0 (by rw [a2.len]; omega) (by omega) (by omega)
          · rw [if_neg hlr]
            exact ⟨e1, rfl, .refl _ _ _, fun _ i j x y h1 h2 h3 => by omega⟩
        obtain ⟨e2, b1, b2, b3⟩ := key
        dsimp only
        rw [b1, Option.bind_some]
        obtain ⟨e3, c1, c2, c3⟩ := ih e2 l hi (depth + 1) (by omega) (by rw [b2.len, a2.len]; exact hlen) (by omega) (by omega)
        refine ⟨e3, c1, (a2.trans (b2.mono (by omega) (by omega))).trans (c2.mono (by omega) (by omega)), fun ho => ?_⟩
        obtain ⟨hL, hR⟩ := a7 ho (fun k x _ _ => by omega) (fun k x _ _ => by omega)
        -- the bounds survive both recursive calls
        have hL2 : ∀ k x, lo ≤ k → k ≤ l - 1 → get e2 k = some x → ¬ cmp p x < 0 :=
          (b2.mono (by omega : lo ≤ lo) (by omega : r ≤ l - 1)).all _ fun k x h1 h2 => hL k x h1 (by omega)
        have hL3 : ∀ k x, lo ≤ k → k < l → get e3 k = some x → ¬ cmp p x < 0 := fun k x h1 h2 hx => by
          rw [c2.out k (by omega)] at hx; exact hL2 k x h1 (by omega) hx
        have hR2 : ∀ k x, r + 1 ≤ k → k ≤ hi → get e2 k = some x → ¬ cmp x p < 0 := fun k x h1 h2 hx => by
          rw [b2.out k (by omega)] at hx; exact hR k x (by omega) h2 hx
        have hR3 : ∀ k x, r + 1 ≤ k → k ≤ hi → get e3 k = some x → ¬ cmp x p < 0 :=
          (c2.mono (by omega : r + 1 ≤ l) (by omega : hi ≤ hi)).all _ hR2
        intro i j x y h1 h2 h3 hx hy
        by_cases hj : j ≤ r
        · rw [c2.out j (by omega)] at hy
          rw [c2.out i (by omega)] at hx
          exact b3 ho i j x y h1 h2 hj hx hy
        · by_cases hi' : l ≤ i
          · exact c3 ho i j x y hi' h2 h3 hx hy
          · have u := hL3 i x h1 (by omega) hx
            have v := hR3 j y (by omega) h3 hy
            exact ho.trans v u
    · rw [if_neg h]
      exact ⟨e, rfl, .refl _ _ _, fun _ i j x y h1 h2 h3 => by omega⟩

theorem sortArray_spec (cmp : α → α → Int) (e : List α) :
    ∃ e', sortArray cmp e = some e' ∧ e'.Perm e ∧ (Ordered cmp → IsSorted (fun x y => decide (cmp x y < 0)) e') := by
  unfold sortArray
  by_cases h1 : e.length ≤ 1
  · rw [if_pos h1]
    refine ⟨e, rfl, .refl _, fun _ => ?_⟩
    unfold IsSorted
    rw [List.pairwise_iff_getElem]
    intro i j hi hj hij; omega
  · rw [if_neg h1]
    obtain ⟨e', r1, r2, r3⟩ := sortQ_spec cmp (limitLoop (e.length + 1) e.length 1) (limitLoop (e.length + 1) e.length 1 + 1) e 0
      ((e.length : Int) - 1) 0 (by omega) (by omega) (by omega) (by omega)
    refine ⟨e', r1, r2.perm, fun ho => ?_⟩
    have hs := r3 ho
    unfold IsSorted
    rw [List.pairwise_iff_getElem]
    intro i j hi hj hij
    have gi : get e' (i : Int) = some e'[i] := by
      unfold get; rw [if_pos (by omega), Int.toNat_natCast, List.getElem?_eq_getElem hi]
    have gj : get e' (j : Int) = some e'[j] := by
      unfold get; rw [if_pos (by omega), Int.toNat_natCast, List.getElem?_eq_getElem hj]
    have := r2.len
    have := hs i j _ _ (by omega) (by omega) (by omega) gi gj
    simpa using this

end Gauche.SortArray
