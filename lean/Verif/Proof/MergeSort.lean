import Verif.Model.MergeSort
import Verif.Spec.Sorting
import Mathlib.Data.List.Perm.Subperm
/-
Proofs about the merge sort.
-/
namespace Gauche.MergeSort
open Gauche.Spec

variable {α β κ : Type}

/-! ### Merging, as a function on lists -/

/-- Stable merge: the second sequence's head goes first only if it is less. -/
def mg (lt : α → α → Bool) (xs ys : List α) : List α := List.merge xs ys fun x y => !lt y x

theorem mg_nil (lt : α → α → Bool) (xs : List α) : mg lt xs [] = xs := by simp [mg]
theorem nil_mg (lt : α → α → Bool) (xs : List α) : mg lt [] xs = xs := by simp [mg]
theorem mg_lt {lt : α → α → Bool} {x y : α} (h : lt y x = true) (xs ys : List α) :
    mg lt (x :: xs) (y :: ys) = y :: mg lt (x :: xs) ys := by
  unfold mg; rw [List.cons_merge_cons_neg]; simp [h]
theorem mg_ge {lt : α → α → Bool} {x y : α} (h : lt y x = false) (xs ys : List α) :
    mg lt (x :: xs) (y :: ys) = x :: mg lt xs (y :: ys) := by
  unfold mg; rw [List.cons_merge_cons_pos]; simp [h]
theorem mg_perm (lt : α → α → Bool) (xs ys : List α) : (mg lt xs ys).Perm (xs ++ ys) := List.merge_perm_append _
theorem mg_map (lt : β → β → Bool) (f : α → β) (xs ys : List α) :
    (mg (fun a b => lt (f a) (f b)) xs ys).map f = mg lt (xs.map f) (ys.map f) := by
  induction xs generalizing ys with
  | nil => simp [nil_mg]
  | cons x xs ihx =>
    induction ys with
    | nil => simp [mg_nil]
    | cons y ys ihy =>
      by_cases h : lt (f y) (f x) = true
      · rw [mg_lt (lt := fun a b => lt (f a) (f b)) h, List.map_cons, ihy, List.map_cons, List.map_cons, mg_lt h]
      · rw [Bool.not_eq_true] at h
        rw [mg_ge (lt := fun a b => lt (f a) (f b)) h, List.map_cons, ihx, List.map_cons, List.map_cons, mg_ge h]

theorem mg_congr {lt lt' : α → α → Bool} {xs ys : List α} (h : ∀ x ∈ xs, ∀ y ∈ ys, lt y x = lt' y x) :
    mg lt xs ys = mg lt' xs ys := by
  induction xs generalizing ys with
  | nil => simp [nil_mg]
  | cons x xs ihx =>
    induction ys with
    | nil => simp [mg_nil]
    | cons y ys ihy =>
      have e := h x (by simp) y (by simp)
      by_cases hl : lt y x = true
      · rw [mg_lt hl, mg_lt (by rw [← e]; exact hl), ihy fun a ha b hb => h a ha b (by simp [hb])]
      · rw [Bool.not_eq_true] at hl
        rw [mg_ge hl, mg_ge (by rw [← e]; exact hl), ihx fun a ha b hb => h a (by simp [ha]) b hb]

/-- What sorting guarantees for an arbitrary comparison, and for an order. -/
def Stable (lt : α → α → Bool) (xs ys : List α) : Prop :=
  ys.Perm xs ∧ (StrictWeak lt → IsStableSort lt xs ys)

theorem le_of_mem_sorted {lt : α → α → Bool} (ho : StrictWeak lt) {x w : α} {xs : List α} (hs : IsSorted lt (x :: xs))
    (hw : w ∈ x :: xs) : lt w x = false := by
  rcases List.mem_cons.1 hw with rfl | hw
  · cases h : lt w w with
    | false => rfl
    | true => rw [ho.asymm w w h] at h; cases h
  · exact (List.pairwise_cons.1 hs).1 w hw

theorem mg_sorted {lt : α → α → Bool} (ho : StrictWeak lt) : ∀ {xs ys : List α}, IsSorted lt xs → IsSorted lt ys →
    IsSorted lt (mg lt xs ys) := by
  intro xs ys hx hy
  induction xs generalizing ys with
  | nil => rwa [nil_mg]
  | cons x xs ihx =>
    induction ys with
    | nil => rwa [mg_nil]
    | cons y ys ihy =>
      by_cases h : lt y x = true
      · rw [mg_lt h]
        refine List.pairwise_cons.2 ⟨fun w hw => ?_, ihy (List.pairwise_cons.1 hy).2⟩
        rcases List.mem_append.1 ((mg_perm lt _ _).mem_iff.1 hw) with hw | hw
        · exact ho.negTrans w x y (le_of_mem_sorted ho hx hw) (ho.asymm _ _ h)
        · exact (List.pairwise_cons.1 hy).1 w hw
      · rw [Bool.not_eq_true] at h
        rw [mg_ge h]
        refine List.pairwise_cons.2 ⟨fun w hw => ?_, ihx (List.pairwise_cons.1 hx).2 hy⟩
        rcases List.mem_append.1 ((mg_perm lt _ _).mem_iff.1 hw) with hw | hw
        · exact (List.pairwise_cons.1 hx).1 w hw
        · exact ho.negTrans w y x (le_of_mem_sorted ho hy hw) h

theorem mg_filter {lt : α → α → Bool} (ho : StrictWeak lt) (z : α) : ∀ {xs ys : List α}, IsSorted lt xs → IsSorted lt ys →
    (mg lt xs ys).filter (fun x => !lt x z && !lt z x) =
      xs.filter (fun x => !lt x z && !lt z x) ++ ys.filter (fun x => !lt x z && !lt z x) := by
  intro xs ys hx hy
  induction xs generalizing ys with
  | nil => simp [nil_mg]
  | cons x xs ihx =>
    induction ys with
    | nil => simp [mg_nil]
    | cons y ys ihy =>
      by_cases h : lt y x = true
      · rw [mg_lt h, List.filter_cons, ihy (List.pairwise_cons.1 hy).2]
        by_cases hz : (!lt y z && !lt z y) = true
        · rw [if_pos hz]
          have hnil : (x :: xs).filter (fun x => !lt x z && !lt z x) = [] := by
            rw [List.filter_eq_nil_iff]
            intro w hw hwz
            simp only [Bool.and_eq_true, Bool.not_eq_true'] at hz hwz
            have a := ho.negTrans y z w hz.1 hwz.2
            have b := ho.negTrans y w x a (le_of_mem_sorted ho hx hw)
            rw [h] at b; cases b
          rw [hnil, List.nil_append, List.nil_append, List.filter_cons, if_pos hz]
        · rw [if_neg hz]
          conv_rhs => rw [List.filter_cons (x := y), if_neg hz]
      · rw [Bool.not_eq_true] at h
        rw [mg_ge h, List.filter_cons, ihx (List.pairwise_cons.1 hx).2 hy]
        conv_rhs => rw [List.filter_cons]
        by_cases hz : (!lt x z && !lt z x) = true
        · rw [if_pos hz, if_pos hz]; rfl
        · rw [if_neg hz, if_neg hz]

theorem Stable.merge {lt : α → α → Bool} {xs xs' ys ys' : List α} (h1 : Stable lt xs xs') (h2 : Stable lt ys ys') :
    Stable lt (xs ++ ys) (mg lt xs' ys') := by
  have hp : (mg lt xs' ys').Perm (xs ++ ys) := (mg_perm lt _ _).trans (h1.1.append h2.1)
  refine ⟨hp, fun ho => ⟨hp, mg_sorted ho (h1.2 ho).2.1 (h2.2 ho).2.1, fun z => ?_⟩⟩
  rw [mg_filter ho z (h1.2 ho).2.1 (h2.2 ho).2.1, (h1.2 ho).2.2, (h2.2 ho).2.2, List.filter_append]

theorem Stable.refl_of_length {lt : α → α → Bool} {xs : List α} (h : xs.length ≤ 1) : Stable lt xs xs := by
  refine ⟨.refl _, fun _ => ⟨.refl _, ?_, fun _ => rfl⟩⟩
  match xs with
  | [] => exact List.Pairwise.nil
  | [x] => exact List.pairwise_singleton _ _

theorem Stable.two (lt : α → α → Bool) (x y : α) : Stable lt [x, y] (if lt y x then [y, x] else [x, y]) := by
  have := Stable.merge (lt := lt) (xs := [x]) (ys := [y]) (Stable.refl_of_length (by simp)) (Stable.refl_of_length (by simp))
  by_cases h : lt y x = true
  · rw [if_pos h]; rw [mg_lt h, mg_nil] at this; exact this
  · rw [if_neg h]; rw [Bool.not_eq_true] at h; rw [mg_ge h, nil_mg] at this; exact this

/-! ### Lists in the heap -/

theorem cdr_self (h : Heap β) (i : Nat) (r : Option Nat) : (h.setCdr i r).cdr i = r := by simp [Heap.setCdr]
theorem cdr_ne {h : Heap β} {i j : Nat} {r : Option Nat} (hne : j ≠ i) : (h.setCdr i r).cdr j = h.cdr j := by
  simp [Heap.setCdr, hne]
theorem car_self (h : Heap β) (i : Nat) (x : β) : (h.setCar i x).car i = x := by simp [Heap.setCar]
theorem car_ne {h : Heap β} {i j : Nat} {x : β} (hne : j ≠ i) : (h.setCar i x).car j = h.car j := by
  simp [Heap.setCar, hne]

/-- The cells `cs`, in order, make up the list that starts at `p`. -/
abbrev Chain (h : Heap β) (p : Option Nat) (cs : List Nat) : Prop := Linked h.cdr p cs

theorem Chain.congr {h h' : Heap β} {p : Option Nat} {cs : List Nat} (hc : Chain h p cs) (he : ∀ c ∈ cs, h'.cdr c = h.cdr c) :
    Chain h' p cs := by
  induction cs generalizing p with
  | nil => exact hc
  | cons c cs ih =>
    refine ⟨hc.1, ?_⟩
    rw [he c (by simp)]
    exact ih hc.2 fun d hd => he d (by simp [hd])

theorem Chain.unique {h : Heap β} {p : Option Nat} {cs ds : List Nat} (h1 : Chain h p cs) (h2 : Chain h p ds) : cs = ds := by
  induction cs generalizing p ds with
  | nil =>
    cases ds with
    | nil => rfl
    | cons d ds => have a : p = none := h1; have b := h2.1; rw [a] at b; cases b
  | cons c cs ih =>
    cases ds with
    | nil => have a : p = none := h2; have b := h1.1; rw [a] at b; cases b
    | cons d ds =>
      have a := h1.1; have b := h2.1
      rw [a] at b; cases b
      rw [ih h1.2 h2.2]

theorem Chain.suffix {h : Heap β} {p : Option Nat} {as : List Nat} {c : Nat} {bs : List Nat} (hc : Chain h p (as ++ c :: bs)) :
    Chain h (some c) (c :: bs) := by
  induction as generalizing p with
  | nil => have := hc.1; subst this; exact hc
  | cons a as ih => exact ih hc.2

theorem Chain.nodup {h : Heap β} {p : Option Nat} {cs : List Nat} (hc : Chain h p cs) : cs.Nodup := by
  induction cs generalizing p with
  | nil => exact List.nodup_nil
  | cons c cs ih =>
    refine List.nodup_cons.2 ⟨fun hm => ?_, ih hc.2⟩
    obtain ⟨as, bs, rfl⟩ := List.append_of_mem hm
    have h1 : Chain h (some c) (c :: (as ++ c :: bs)) := ⟨rfl, hc.2⟩
    have h2 : Chain h (some c) (c :: bs) := Chain.suffix (as := as) hc.2
    have := congrArg List.length (h1.unique h2)
    simp at this
    omega

theorem Chain.length_le {cs : List Nat} {n : Nat} (hn : cs.Nodup) (hlt : ∀ c ∈ cs, c < n) : cs.length ≤ n := by
  have := (List.subperm_of_subset hn (l₂ := List.range n) fun c hc => List.mem_range.2 (hlt c hc)).length_le
  simpa using this

theorem mergeXLoop_spec {less : κ → κ → Option Bool} {key : β → κ} {lt : β → β → Bool} {S : β → Prop}
    (hless : ∀ x y, S x → S y → less (key x) (key y) = some (lt x y)) (fuel : Nat) (h : Heap β) (r a b : Nat) (as bs : List Nat)
    (ha : Chain h (h.cdr a) as) (hb : Chain h (h.cdr b) bs) (hnd : (r :: (a :: as ++ b :: bs)).Nodup)
    (hS : ∀ c ∈ a :: as ++ b :: bs, S (h.car c)) (hf : as.length + bs.length < fuel) :
    ∃ h', mergeXLoop less key fuel h r a (key (h.car a)) b (key (h.car b)) = some h' ∧ h'.size = h.size ∧ h'.car = h.car ∧
      (∀ c, c ∉ r :: (a :: as ++ b :: bs) → h'.cdr c = h.cdr c) ∧
      Chain h' (h'.cdr r) (mg (fun c d => lt (h.car c) (h.car d)) (a :: as) (b :: bs)) := by
  induction fuel generalizing h r a b as bs with
  | zero => omega
  | succ fuel ih =>
    rw [mergeXLoop, hless _ _ (hS b (by simp)) (hS a (by simp)), Option.bind_some]
    have hnr : r ≠ a ∧ r ≠ b ∧ r ∉ as ∧ r ∉ bs := by
      have := (List.nodup_cons.1 hnd).1
      simp only [List.cons_append, List.mem_cons, List.mem_append, not_or] at this
      exact ⟨this.1, this.2.2.1, this.2.1, this.2.2.2⟩
    have hnd2 := (List.nodup_cons.1 hnd).2
    have hna : a ≠ b ∧ a ∉ as ∧ a ∉ bs := by
      have := (List.nodup_cons.1 (List.cons_append ▸ hnd2)).1
      simp only [List.mem_append, List.mem_cons, not_or] at this
      exact ⟨this.2.1, this.1, this.2.2⟩
    have hnb : b ∉ as ∧ b ∉ bs := by
      have h1 := List.nodup_append.1 hnd2
      exact ⟨fun hm => h1.2.2 b (by simp [hm]) b (by simp) rfl, (List.nodup_cons.1 h1.2.1).1⟩
    by_cases hl : lt (h.car b) (h.car a) = true
    · rw [if_pos hl]
      have e1 : (h.setCdr r (some b)).cdr b = h.cdr b := by
        rw [cdr_ne (by omega)]
      dsimp only
      rw [e1, mg_lt (lt := fun c d => lt (h.car c) (h.car d)) hl]
      cases bs with
      | nil =>
        have : h.cdr b = none := hb
        rw [this]
        refine ⟨_, rfl, rfl, rfl, fun c hc => ?_, ?_⟩
        · simp only [List.mem_cons, List.mem_append, List.cons_append, not_or] at hc
          rw [cdr_ne (by omega), cdr_ne (by omega)]
        · rw [mg_nil]
          refine ⟨?_, ?_, ?_⟩
          · rw [cdr_ne (by omega), cdr_self]
          · rw [cdr_self]
          · have : ((h.setCdr r (some b)).setCdr b (some a)).cdr a = h.cdr a := by
              rw [cdr_ne (by omega), cdr_ne (by omega)]
            rw [this]
            refine ha.congr fun c hc => ?_
            have n1 : c ≠ b := fun e => hnb.1 (e ▸ hc)
            have n2 : c ≠ r := fun e => hnr.2.2.1 (e ▸ hc)
            rw [cdr_ne n1, cdr_ne n2]
      | cons b' bs' =>
        rw [hb.1]
        dsimp only
        have hca : Chain (h.setCdr r (some b)) ((h.setCdr r (some b)).cdr a) as := by
          have : (h.setCdr r (some b)).cdr a = h.cdr a := by rw [cdr_ne (by omega)]
          rw [this]
          refine ha.congr fun c hc => ?_
          have n2 : c ≠ r := fun e => hnr.2.2.1 (e ▸ hc)
          rw [cdr_ne n2]
        have hcb : Chain (h.setCdr r (some b)) ((h.setCdr r (some b)).cdr b') bs' := by
          have : (h.setCdr r (some b)).cdr b' = h.cdr b' := by
            have n2 : b' ≠ r := fun e => hnr.2.2.2 (by simp [e])
            rw [cdr_ne n2]
          rw [this]
          refine Chain.congr hb.2 fun c hc => ?_
          have n2 : c ≠ r := fun e => hnr.2.2.2 (by simp [← e, hc])
          rw [cdr_ne n2]
        have hperm : (b :: (a :: as ++ b' :: bs')).Perm (a :: as ++ b :: b' :: bs') := List.perm_middle.symm
        obtain ⟨h', i1, i2, i3, i4, i5⟩ := ih (h.setCdr r (some b)) b a b' as bs' hca hcb (hperm.nodup_iff.2 hnd2)
          (fun c hc => hS c (hperm.mem_iff.1 (by simp only [List.mem_cons]; exact Or.inr hc))) (by simp at hf; omega)
        refine ⟨h', i1, i2, i3, fun c hc => ?_, ?_⟩
        · rw [i4 c fun hm => hc (List.mem_cons.2 (Or.inr (hperm.mem_iff.1 hm)))]
          have : c ≠ r := fun e => hc (by simp [e])
          rw [cdr_ne this]
        · refine ⟨?_, i5⟩
          rw [i4 r fun hm => (List.nodup_cons.1 hnd).1 (hperm.mem_iff.1 hm)]
          rw [cdr_self]
    · rw [if_neg hl]
      rw [Bool.not_eq_true] at hl
      have e1 : (h.setCdr r (some a)).cdr a = h.cdr a := by
        rw [cdr_ne (by omega)]
      dsimp only
      rw [e1, mg_ge (lt := fun c d => lt (h.car c) (h.car d)) hl]
      cases as with
      | nil =>
        have : h.cdr a = none := ha
        rw [this]
        refine ⟨_, rfl, rfl, rfl, fun c hc => ?_, ?_⟩
        · simp only [List.mem_cons, List.mem_append, List.cons_append, not_or] at hc
          rw [cdr_ne (by omega), cdr_ne (by omega)]
        · rw [nil_mg]
          refine ⟨?_, ?_, ?_⟩
          · rw [cdr_ne (by omega), cdr_self]
          · rw [cdr_self]
          · have : ((h.setCdr r (some a)).setCdr a (some b)).cdr b = h.cdr b := by
              rw [cdr_ne (by omega), cdr_ne (by omega)]
            rw [this]
            refine hb.congr fun c hc => ?_
            have n1 : c ≠ a := fun e => hna.2.2 (e ▸ hc)
            have n2 : c ≠ r := fun e => hnr.2.2.2 (e ▸ hc)
            rw [cdr_ne n1, cdr_ne n2]
      | cons a' as' =>
        rw [ha.1]
        dsimp only
        have hcb : Chain (h.setCdr r (some a)) ((h.setCdr r (some a)).cdr b) bs := by
          have : (h.setCdr r (some a)).cdr b = h.cdr b := by rw [cdr_ne (by omega)]
          rw [this]
          refine hb.congr fun c hc => ?_
          have n2 : c ≠ r := fun e => hnr.2.2.2 (e ▸ hc)
          rw [cdr_ne n2]
        have hca : Chain (h.setCdr r (some a)) ((h.setCdr r (some a)).cdr a') as' := by
          have : (h.setCdr r (some a)).cdr a' = h.cdr a' := by
            have n2 : a' ≠ r := fun e => hnr.2.2.1 (by simp [e])
            rw [cdr_ne n2]
          rw [this]
          refine Chain.congr ha.2 fun c hc => ?_
          have n2 : c ≠ r := fun e => hnr.2.2.1 (by simp [← e, hc])
          rw [cdr_ne n2]
        obtain ⟨h', i1, i2, i3, i4, i5⟩ := ih (h.setCdr r (some a)) a a' b as' bs hca hcb hnd2
          (fun c hc => hS c (by rw [List.cons_append, List.mem_cons]; exact Or.inr hc)) (by simp at hf; omega)
        refine ⟨h', i1, i2, i3, fun c hc => ?_, ?_⟩
        · rw [i4 c fun hm => hc (List.mem_cons.2 (Or.inr hm))]
          have : c ≠ r := fun e => hc (by simp [e])
          rw [cdr_ne this]
        · refine ⟨?_, i5⟩
          rw [i4 r fun hm => (List.nodup_cons.1 hnd).1 hm]
          rw [cdr_self]

theorem mergeX_spec {less : κ → κ → Option Bool} {key : β → κ} {lt : β → β → Bool} {S : β → Prop}
    (hless : ∀ x y, S x → S y → less (key x) (key y) = some (lt x y)) (h : Heap β) (p q : Option Nat) (as bs : List Nat)
    (ha : Chain h p as) (hb : Chain h q bs) (hnd : (as ++ bs).Nodup) (hsz : ∀ c ∈ as ++ bs, c < h.size)
    (hS : ∀ c ∈ as ++ bs, S (h.car c)) :
    ∃ h' s, mergeX less key h p q = some (h', s) ∧ h'.size = h.size ∧ h'.car = h.car ∧
      (∀ c, c ∉ as ++ bs → h'.cdr c = h.cdr c) ∧ Chain h' s (mg (fun c d => lt (h.car c) (h.car d)) as bs) := by
  have hlen := Chain.length_le hnd hsz
  cases as with
  | nil =>
    have : p = none := ha
    subst this
    refine ⟨h, q, by unfold mergeX; rfl, rfl, rfl, fun _ _ => rfl, by rw [nil_mg]; exact hb⟩
  | cons a as =>
    cases bs with
    | nil =>
      have : q = none := hb
      subst this
      refine ⟨h, p, ?_, rfl, rfl, fun _ _ => rfl, by rw [mg_nil]; exact ha⟩
      rw [ha.1]; rfl
    | cons b bs =>
      rw [ha.1, hb.1]
      unfold mergeX
      dsimp only
      rw [hless _ _ (hS b (by simp)) (hS a (by simp)), Option.bind_some]
      have hna : a ≠ b ∧ a ∉ as ∧ a ∉ bs := by
        have := (List.nodup_cons.1 (List.cons_append ▸ hnd)).1
        simp only [List.mem_append, List.mem_cons, not_or] at this
        exact ⟨this.2.1, this.1, this.2.2⟩
      have hnb : b ∉ as ∧ b ∉ bs := by
        have h1 := List.nodup_append.1 hnd
        exact ⟨fun hm => h1.2.2 b (by simp [hm]) b (by simp) rfl, (List.nodup_cons.1 h1.2.1).1⟩
      simp only [List.length_append, List.length_cons] at hlen
      by_cases hl : lt (h.car b) (h.car a) = true
      · rw [if_pos hl, mg_lt (lt := fun c d => lt (h.car c) (h.car d)) hl]
        cases bs with
        | nil =>
          have : h.cdr b = none := hb.2
          rw [this]
          refine ⟨_, _, rfl, rfl, rfl, fun c hc => ?_, ?_⟩
          · have n : c ≠ b := fun e => hc (by simp [e])
            rw [cdr_ne n]
          · rw [mg_nil]
            refine ⟨rfl, ?_, ?_⟩
            · rw [cdr_self]
            · have : (h.setCdr b (some a)).cdr a = h.cdr a := by rw [cdr_ne hna.1]
              rw [this]
              refine Chain.congr ha.2 fun c hc => ?_
              have n1 : c ≠ b := fun e => hnb.1 (e ▸ hc)
              rw [cdr_ne n1]
        | cons b' bs' =>
          rw [hb.2.1]
          dsimp only
          have hperm : (b :: (a :: as ++ b' :: bs')).Perm (a :: as ++ b :: b' :: bs') := List.perm_middle.symm
          obtain ⟨h', i1, i2, i3, i4, i5⟩ := mergeXLoop_spec hless (h.size + 1) h b a b' as bs' ha.2 hb.2.2 (hperm.nodup_iff.2 hnd)
            (fun c hc => hS c (hperm.mem_iff.1 (List.mem_cons.2 (Or.inr hc)))) (by simp at hlen; omega)
          refine ⟨h', some b, by rw [i1]; rfl, i2, i3, fun c hc => i4 c fun hm => hc (hperm.mem_iff.1 hm), rfl, i5⟩
      · rw [if_neg hl]
        rw [Bool.not_eq_true] at hl
        rw [mg_ge (lt := fun c d => lt (h.car c) (h.car d)) hl]
        cases as with
        | nil =>
          have : h.cdr a = none := ha.2
          rw [this]
          refine ⟨_, _, rfl, rfl, rfl, fun c hc => ?_, ?_⟩
          · have n : c ≠ a := fun e => hc (by simp [e])
            rw [cdr_ne n]
          · rw [nil_mg]
            refine ⟨rfl, ?_, ?_⟩
            · rw [cdr_self]
            · have : (h.setCdr a (some b)).cdr b = h.cdr b := by rw [cdr_ne (Ne.symm hna.1)]
              rw [this]
              refine Chain.congr hb.2 fun c hc => ?_
              have n1 : c ≠ a := fun e => hna.2.2 (e ▸ hc)
              rw [cdr_ne n1]
        | cons a' as' =>
          rw [ha.2.1]
          dsimp only
          obtain ⟨h', i1, i2, i3, i4, i5⟩ := mergeXLoop_spec hless (h.size + 1) h a a' b as' bs ha.2.2 hb.2 hnd
            (fun c hc => hS c (List.mem_cons.2 (Or.inr hc))) (by simp at hlen; omega)
          exact ⟨h', some a, by rw [i1]; rfl, i2, i3, i4, rfl, i5⟩

theorem step_spec {less : β → β → Option Bool} {lt : β → β → Bool} {S : β → Prop}
    (hless : ∀ x y, S x → S y → less x y = some (lt x y)) (fuel n : Nat) (h : Heap β) (seq : Option Nat) (cells : List Nat)
    (hf : n < fuel) (hc : Chain h seq cells) (hn : n ≤ cells.length) (hsz : ∀ c ∈ cells, c < h.size)
    (hS : ∀ c ∈ cells, S (h.car c)) :
    ∃ h' seq' p cs, step less fuel n h seq = some (h', seq', p) ∧ h'.size = h.size ∧ Chain h' seq' (cells.drop n) ∧
      Chain h' p cs ∧ cs.Perm (cells.take n) ∧ Stable lt ((cells.take n).map h.car) (cs.map h'.car) ∧
      ∀ c, c ∉ cells.take n → h'.car c = h.car c ∧ h'.cdr c = h.cdr c := by
  induction fuel generalizing n h seq cells with
  | zero => omega
  | succ fuel ih =>
    have hnd := hc.nodup
    rw [step]
    by_cases h2 : 2 < n
    · rw [if_pos h2]
      dsimp only
      obtain ⟨h1, seq1, p1, cs1, a1, a2, a3, a4, a5, a6, a7⟩ := ih (n / 2) h seq cells (by omega) hc (by omega) hsz hS
      rw [a1, Option.bind_some]
      dsimp only
      have hdisj : ∀ c ∈ cells.drop (n / 2), c ∉ cells.take (n / 2) := by
        intro c hc1 hc2
        rw [← List.take_append_drop (n / 2) cells] at hnd
        exact (List.nodup_append.1 hnd).2.2 c hc2 c hc1 rfl
      obtain ⟨h3, seq2, p2, cs2, b1, b2, b3, b4, b5, b6, b7⟩ := ih (n - n / 2) h1 seq1 (cells.drop (n / 2)) (by omega) a3
        (by rw [List.length_drop]; omega) (fun c hc => by rw [a2]; exact hsz c (List.mem_of_mem_drop hc))
        (fun c hc => by rw [(a7 c (hdisj c hc)).1]; exact hS c (List.mem_of_mem_drop hc))
      rw [b1, Option.bind_some]
      dsimp only
      have etake : cells.take n = cells.take (n / 2) ++ (cells.drop (n / 2)).take (n - n / 2) := by
        rw [← List.take_add]; congr 1; omega
      have hnd' : (cells.take (n / 2) ++ (cells.drop (n / 2)).take (n - n / 2)).Nodup := by
        rw [← etake]; exact (List.take_sublist _ _).nodup hnd
      have hp : (cs1 ++ cs2).Perm (cells.take n) := by rw [etake]; exact a5.append b5
      have c1nd : ∀ c ∈ cs1, c ∉ (cells.drop (n / 2)).take (n - n / 2) := fun c h1 h2 =>
        (List.nodup_append.1 hnd').2.2 c (a5.mem_iff.1 h1) c h2 rfl
      have hch1 : Chain h3 p1 cs1 := Chain.congr a4 fun c hc => (b7 c (c1nd c hc)).2
      have hmap1 : cs1.map h3.car = cs1.map h1.car := List.map_congr_left fun c hc => (b7 c (c1nd c hc)).1
      have hmap2 : ((cells.drop (n / 2)).take (n - n / 2)).map h1.car = ((cells.drop (n / 2)).take (n - n / 2)).map h.car :=
        List.map_congr_left fun c hc => (a7 c (hdisj c (List.mem_of_mem_take hc))).1
      have hSS : ∀ c ∈ cs1 ++ cs2, S (h3.car c) := by
        intro c hc
        rcases List.mem_append.1 hc with hc | hc
        · have : h3.car c ∈ cs1.map h1.car := by rw [← hmap1]; exact List.mem_map_of_mem hc
          obtain ⟨d, hd, he⟩ := List.mem_map.1 (a6.1.mem_iff.1 this)
          rw [← he]; exact hS d (List.mem_of_mem_take hd)
        · obtain ⟨d, hd, he⟩ := List.mem_map.1 (b6.1.mem_iff.1 (List.mem_map_of_mem hc))
          rw [← he, (a7 d (hdisj d (List.mem_of_mem_take hd))).1]
          exact hS d (List.mem_of_mem_drop (List.mem_of_mem_take hd))
      obtain ⟨h4, s, m1, m2, m3, m4, m5⟩ := mergeX_spec (key := id) hless h3 p1 p2 cs1 cs2 hch1 b4
        (hp.nodup_iff.2 ((List.take_sublist _ _).nodup hnd))
        (fun c hc => by rw [b2, a2]; exact hsz c (List.mem_of_mem_take (hp.mem_iff.1 hc))) hSS
      rw [m1]
      refine ⟨h4, seq2, s, _, rfl, by rw [m2, b2, a2], ?_, m5, (mg_perm _ _ _).trans hp, ?_, ?_⟩
      · have e : (cells.drop (n / 2)).drop (n - n / 2) = cells.drop n := by rw [List.drop_drop]; congr 1; omega
        rw [e] at b3
        refine Chain.congr b3 fun c hc => m4 c fun hm => ?_
        rw [← List.take_append_drop n cells] at hnd
        exact (List.nodup_append.1 hnd).2.2 c (hp.mem_iff.1 hm) c hc rfl
      · rw [m3, mg_map lt h3.car, hmap1, etake, List.map_append]
        refine Stable.merge a6 ?_
        rw [← hmap2]; exact b6
      · intro c hc
        rw [etake, List.mem_append, not_or] at hc
        have x1 := a7 c hc.1
        have x2 := b7 c hc.2
        refine ⟨by rw [m3, x2.1, x1.1], ?_⟩
        rw [m4 c fun hm => ?_, x2.2, x1.2]
        have := hp.mem_iff.1 hm
        rw [etake, List.mem_append] at this
        exact this.elim hc.1 hc.2
    · rw [if_neg h2]
      by_cases h2' : n = 2
      · subst h2'
        rw [if_pos rfl]
        match cells, hn with
        | c :: d :: rest, _ =>
          have hcd : c ≠ d ∧ c ∉ rest := by
            have := (List.nodup_cons.1 hnd).1
            simp only [List.mem_cons, not_or] at this; exact this
          have hdr : d ∉ rest := (List.nodup_cons.1 (List.nodup_cons.1 hnd).2).1
          rw [hc.1, Option.bind_some, hc.2.1, Option.bind_some]
          dsimp only
          rw [hless _ _ (hS d (by simp)) (hS c (by simp)), Option.map_some]
          have hst := Stable.two lt (h.car c) (h.car d)
          refine ⟨_, _, _, [c, d], rfl, ?_, ?_, ⟨rfl, ?_, ?_⟩, .refl _, ?_, ?_⟩
          · by_cases hl : lt (h.car d) (h.car c) = true
            · rw [if_pos hl]; rfl
            · rw [if_neg hl]; rfl
          · refine Chain.congr hc.2.2 fun e he => ?_
            have n1 : e ≠ d := fun x => hdr (x ▸ he)
            rw [cdr_ne n1]
            by_cases hl : lt (h.car d) (h.car c) = true
            · rw [if_pos hl]; rfl
            · rw [if_neg hl]
          · rw [cdr_ne hcd.1]
            by_cases hl : lt (h.car d) (h.car c) = true
            · rw [if_pos hl]; exact hc.2.1
            · rw [if_neg hl]; exact hc.2.1
          · exact cdr_self _ _ _
          · by_cases hl : lt (h.car d) (h.car c) = true
            · rw [if_pos hl] at hst ⊢
              have e1 : (((h.setCar c (h.car d)).setCar d (h.car c)).setCdr d none).car c = h.car d := by
                simp [Heap.setCar, Heap.setCdr, hcd.1]
              have e2 : (((h.setCar c (h.car d)).setCar d (h.car c)).setCdr d none).car d = h.car c := by
                simp [Heap.setCar, Heap.setCdr]
              simp only [List.map_cons, List.map_nil, e1, e2, List.take_succ_cons, List.take_zero]
              exact hst
            · rw [if_neg hl] at hst ⊢
              exact hst
          · intro e he
            simp only [List.take_succ_cons, List.take_zero, List.mem_cons, List.not_mem_nil, or_false, not_or] at he
            rw [cdr_ne he.2]
            by_cases hl : lt (h.car d) (h.car c) = true
            · rw [if_pos hl]
              refine ⟨?_, rfl⟩
              simp [Heap.setCar, Heap.setCdr, he.1, he.2]
            · rw [if_neg hl]; exact ⟨rfl, rfl⟩
      · rw [if_neg h2']
        by_cases h1 : n = 1
        · subst h1
          rw [if_pos rfl]
          match cells, hn with
          | c :: rest, _ =>
            have hcr : c ∉ rest := (List.nodup_cons.1 hnd).1
            rw [hc.1, Option.map_some]
            refine ⟨_, _, _, [c], rfl, rfl, ?_, ⟨rfl, cdr_self _ _ _⟩, .refl _, Stable.refl_of_length (by simp), ?_⟩
            · refine Chain.congr hc.2 fun e he => ?_
              have n1 : e ≠ c := fun x => hcr (x ▸ he)
              rw [cdr_ne n1]
            · intro e he
              simp only [List.take_succ_cons, List.take_zero, List.mem_cons, List.not_mem_nil, or_false] at he
              exact ⟨rfl, cdr_ne he⟩
        · rw [if_neg h1]
          have : n = 0 := by omega
          subst this
          exact ⟨h, seq, none, [], rfl, rfl, hc, rfl, .refl _, Stable.refl_of_length (by simp), fun _ _ => ⟨rfl, rfl⟩⟩

theorem lengthOf_spec (h : Heap β) (fuel : Nat) (p : Option Nat) (cs : List Nat) (hc : Chain h p cs) (hf : cs.length ≤ fuel) :
    lengthOf h fuel p = some cs.length := by
  induction cs generalizing p fuel with
  | nil => have : p = none := hc; subst this; cases fuel <;> rfl
  | cons c cs ih =>
    rw [hc.1]
    cases fuel with
    | zero => simp at hf
    | succ fuel => rw [lengthOf, ih fuel _ hc.2 (by simpa using hf)]; simp

theorem toList_spec (h : Heap β) (fuel : Nat) (p : Option Nat) (cs : List Nat) (hc : Chain h p cs) (hf : cs.length ≤ fuel) :
    toList h fuel p = some (cs.map h.car) := by
  induction cs generalizing p fuel with
  | nil => have : p = none := hc; subst this; cases fuel <;> rfl
  | cons c cs ih =>
    rw [hc.1]
    cases fuel with
    | zero => simp at hf
    | succ fuel => rw [toList, ih fuel _ hc.2 (by simpa using hf)]; simp

/-- What `%stable-sort!` guarantees for a list. -/
def SortedList (lt : β → β → Bool) (h : Heap β) (cells : List Nat) (h' : Heap β) (p' : Option Nat) : Prop :=
  ∃ cs, h'.size = h.size ∧ Chain h' p' cs ∧ cs.Perm cells ∧ Stable lt (cells.map h.car) (cs.map h'.car) ∧
    ∀ c, c ∉ cells → h'.car c = h.car c ∧ h'.cdr c = h.cdr c

theorem stableSortX0_spec {less : β → β → Option Bool} {lt : β → β → Bool} {S : β → Prop}
    (hless : ∀ x y, S x → S y → less x y = some (lt x y)) (h : Heap β) (seq : Option Nat) (cells : List Nat)
    (hc : Chain h seq cells) (hsz : ∀ c ∈ cells, c < h.size) (hS : ∀ c ∈ cells, S (h.car c)) :
    ∃ h' p, stableSortX0 less h seq = some (h', p) ∧ SortedList lt h cells h' p := by
  have hlen := Chain.length_le hc.nodup hsz
  cases cells with
  | nil =>
    have : seq = none := hc
    subst this
    exact ⟨h, none, rfl, [], rfl, rfl, .refl _, Stable.refl_of_length (by simp), fun _ _ => ⟨rfl, rfl⟩⟩
  | cons c cs =>
    obtain ⟨h', seq', p, ds, a1, a2, a3, a4, a5, a6, a7⟩ := step_spec hless ((c :: cs).length + 1) (c :: cs).length h seq (c :: cs)
      (by omega) hc (by omega) hsz hS
    have he := hc.1
    rw [List.take_length] at a5 a6 a7
    refine ⟨h', p, ?_, ds, a2, a4, a5, a6, a7⟩
    subst he
    unfold stableSortX0
    dsimp only
    rw [lengthOf_spec h _ _ _ hc (by omega), Option.bind_some, a1, Option.map_some]

/-! ### Keeping the head cell -/

theorem findPrev_spec (h : Heap β) (s : Nat) (post : List Nat) : ∀ (m : List Nat) (c fuel : Nat),
    Chain h (some c) (c :: m ++ s :: post) → m.length < fuel →
    findPrev h s fuel c = some ((c :: m).getLast (by simp)) := by
  intro m
  induction m with
  | nil =>
    intro c fuel hc hf
    cases fuel with
    | zero => omega
    | succ fuel =>
      have := hc.2.1
      rw [findPrev, this]; simp
  | cons d m ih =>
    intro c fuel hc hf
    cases fuel with
    | zero => omega
    | succ fuel =>
      have e := hc.2.1
      have hne : d ≠ s := by
        have := (List.nodup_cons.1 (hc.nodup)).2
        intro e'
        subst e'
        have := (List.nodup_cons.1 this).1
        simp at this
      rw [findPrev, e]
      dsimp only
      rw [if_neg hne, ih d fuel ⟨rfl, hc.2.2⟩ (by simpa using hf)]
      simp

theorem relink {h h' : Heap β} {p s t : Nat} {post : List Nat} : ∀ {m : List Nat} {q : Option Nat},
    Chain h q (m ++ p :: s :: post) → (∀ d ∈ m, h'.cdr d = h.cdr d) → h'.cdr p = some t → Chain h' (h'.cdr t) post →
    Chain h' q (m ++ p :: t :: post) := by
  intro m
  induction m with
  | nil => intro q hc _ h1 h2; exact ⟨hc.1, h1, h2⟩
  | cons d m ih =>
    intro q hc hd h1 h2
    refine ⟨hc.1, ?_⟩
    rw [hd d (by simp)]
    exact ih hc.2 (fun e he => hd e (by simp [he])) h1 h2

theorem exchange_car (h : Heap β) (a s p : Nat) (c : Nat) :
    (exchange h a s p).car c = if c = s then h.car a else if c = a then h.car s else h.car c := by
  unfold exchange
  by_cases hp : p = a
  · simp [hp, Heap.setCar, Heap.setCdr]
  · simp [hp, Heap.setCar, Heap.setCdr]

theorem exchange_cdr_eq (h : Heap β) (a s : Nat) (c : Nat) :
    (exchange h a s a).cdr c = if c = s then some a else if c = a then h.cdr s else h.cdr c := by
  simp [exchange, Heap.setCar, Heap.setCdr]

theorem exchange_cdr_ne (h : Heap β) {a s p : Nat} (hp : p ≠ a) (c : Nat) :
    (exchange h a s p).cdr c = if c = p then some a else if c = s then h.cdr a else if c = a then h.cdr s else h.cdr c := by
  simp [exchange, hp, Heap.setCar, Heap.setCdr]

theorem exchange_size (h : Heap β) (a s p : Nat) : (exchange h a s p).size = h.size := by
  unfold exchange
  by_cases hp : p = a
  · rw [if_pos hp]; rfl
  · rw [if_neg hp]; rfl

theorem keepHead_spec {lt : β → β → Bool} {h h' : Heap β} {p : Option Nat} {seq : Option Nat} {cells : List Nat}
    (hc : Chain h seq cells) (hsz : ∀ c ∈ cells, c < h.size) (hs : SortedList lt h cells h' p) :
    ∃ h'', keepHead (h', p) seq = some (h'', seq) ∧ SortedList lt h cells h'' seq := by
  obtain ⟨cs, h1, h2, h3, h4, h5⟩ := hs
  cases cells with
  | nil =>
    have hseq : seq = none := hc
    have : cs = [] := by simpa using h3.length_eq
    subst this
    have : p = none := h2
    subst this; subst hseq
    exact ⟨h', rfl, [], h1, h2, h3, h4, h5⟩
  | cons s rest =>
    have hseq := hc.1
    subst hseq
    cases cs with
    | nil => have := h3.length_eq; simp at this
    | cons a tl =>
      have hp := h2.1
      subst hp
      unfold keepHead
      dsimp only
      by_cases hE : a = s
      · subst hE
        rw [if_pos rfl]
        exact ⟨h', rfl, a :: tl, h1, h2, h3, h4, h5⟩
      · rw [if_neg hE]
        have hm : s ∈ tl := by
          have : s ∈ a :: tl := h3.mem_iff.2 (by simp)
          rcases List.mem_cons.1 this with e | e
          · exact absurd e.symm hE
          · exact e
        obtain ⟨m, post, rfl⟩ := List.append_of_mem hm
        have hnd := h2.nodup
        have hanot : a ∉ m ∧ a ∉ post := by
          have := (List.nodup_cons.1 hnd).1
          simp only [List.mem_append, List.mem_cons, not_or] at this; exact ⟨this.1, this.2.2⟩
        have hsnot : s ∉ m ∧ s ∉ post := by
          have := List.nodup_append.1 (List.nodup_cons.1 hnd).2
          exact ⟨fun x => this.2.2 s x s (by simp) rfl, (List.nodup_cons.1 this.2.1).1⟩
        have hlen : (a :: (m ++ s :: post)).length ≤ h'.size := by
          refine Chain.length_le hnd fun c hc => ?_
          rw [h1]; exact hsz c (h3.mem_iff.1 hc)
        rw [findPrev_spec h' s post m a _ h2 (by simp at hlen; omega), Option.map_some]
        have hsuf : Chain h' (h'.cdr s) post := (Chain.suffix (as := a :: m) h2).2
        have hperm : (s :: (m ++ a :: post)).Perm (a :: (m ++ s :: post)) := by
          have e1 : (s :: (m ++ a :: post)).Perm (s :: a :: (m ++ post)) := List.Perm.cons _ List.perm_middle
          have e2 : (a :: (m ++ s :: post)).Perm (a :: s :: (m ++ post)) := List.Perm.cons _ List.perm_middle
          exact e1.trans ((List.Perm.swap _ _ _).trans e2.symm)
        have hcar : (s :: (m ++ a :: post)).map (exchange h' a s ((a :: m).getLast (by simp))).car =
            (a :: (m ++ s :: post)).map h'.car := by
          have em : m.map (exchange h' a s ((a :: m).getLast (by simp))).car = m.map h'.car := by
            refine List.map_congr_left fun c hc => ?_
            have n1 : c ≠ s := fun x => hsnot.1 (x ▸ hc)
            have n2 : c ≠ a := fun x => hanot.1 (x ▸ hc)
            rw [exchange_car, if_neg n1, if_neg n2]
          have ep : post.map (exchange h' a s ((a :: m).getLast (by simp))).car = post.map h'.car := by
            refine List.map_congr_left fun c hc => ?_
            have n1 : c ≠ s := fun x => hsnot.2 (x ▸ hc)
            have n2 : c ≠ a := fun x => hanot.2 (x ▸ hc)
            rw [exchange_car, if_neg n1, if_neg n2]
          rw [List.map_cons, List.map_append, List.map_cons, em, ep, List.map_cons, List.map_append, List.map_cons,
            exchange_car, if_pos rfl, exchange_car, if_neg hE, if_pos rfl]
        have hpost : ∀ pv, pv ∉ post → ∀ c ∈ post, (exchange h' a s pv).cdr c = h'.cdr c := by
          intro pv hpv c hc
          have n1 : c ≠ s := fun x => hsnot.2 (x ▸ hc)
          have n2 : c ≠ a := fun x => hanot.2 (x ▸ hc)
          have n3 : c ≠ pv := fun x => hpv (x ▸ hc)
          by_cases hpa : pv = a
          · subst hpa; rw [exchange_cdr_eq, if_neg n1, if_neg n2]
          · rw [exchange_cdr_ne h' hpa, if_neg n3, if_neg n1, if_neg n2]
        refine ⟨_, rfl, s :: (m ++ a :: post), by rw [exchange_size, h1], ?_, hperm.trans h3, ?_, ?_⟩
        · rcases List.eq_nil_or_concat m with rfl | ⟨m', pv, hmm⟩
          · simp only [List.getLast_singleton, List.nil_append]
            refine ⟨rfl, ?_, ?_⟩
            · rw [exchange_cdr_eq, if_pos rfl]
            · rw [exchange_cdr_eq, if_neg hE, if_pos rfl]
              exact Chain.congr hsuf (hpost a hanot.2)
          · rw [List.concat_eq_append] at hmm
            subst hmm
            have hl : (a :: (m' ++ [pv])).getLast (by simp) = pv := by simp
            rw [hl]
            have hpa : pv ≠ a := fun x => hanot.1 (by simp [x])
            have hps : pv ≠ s := fun x => hsnot.1 (by simp [x])
            have hpp : pv ∉ post := by
              have := List.nodup_append.1 (List.nodup_cons.1 hnd).2
              exact fun x => this.2.2 pv (by simp) pv (by simp [x]) rfl
            have hpm : pv ∉ m' := by
              have := List.nodup_append.1 (List.nodup_append.1 (List.nodup_cons.1 hnd).2).1
              exact fun x => this.2.2 pv x pv (by simp) rfl
            refine ⟨rfl, ?_⟩
            rw [exchange_cdr_ne h' hpa, if_neg (Ne.symm hps), if_pos rfl]
            have h2' : Chain h' (h'.cdr a) (m' ++ pv :: s :: post) := by
              have := h2.2
              rwa [List.append_assoc] at this
            rw [List.append_assoc]
            refine relink (h := h') h2' ?_ ?_ ?_
            · intro d hd
              have n1 : d ≠ pv := fun x => hpm (x ▸ hd)
              have n2 : d ≠ s := fun x => hsnot.1 (by simp [← x, hd])
              have n3 : d ≠ a := fun x => hanot.1 (by simp [← x, hd])
              rw [exchange_cdr_ne h' hpa, if_neg n1, if_neg n2, if_neg n3]
            · rw [exchange_cdr_ne h' hpa, if_pos rfl]
            · rw [exchange_cdr_ne h' hpa, if_neg (Ne.symm hpa), if_neg hE, if_pos rfl]
              exact Chain.congr hsuf (hpost pv hpp)
        · rw [hcar]; exact h4
        · intro c hc
          have hc' : c ∉ a :: (m ++ s :: post) := fun x => hc (h3.mem_iff.1 x)
          simp only [List.mem_cons, List.mem_append, not_or] at hc'
          obtain ⟨n1, n2, n3, n4⟩ := hc'
          have n5 : c ≠ (a :: m).getLast (by simp) := by
            intro x
            have : c ∈ a :: m := by rw [x]; exact List.getLast_mem _
            rcases List.mem_cons.1 this with e | e
            · exact n1 e
            · exact n2 e
          refine ⟨by rw [exchange_car, if_neg n3, if_neg n1]; exact (h5 c hc).1, ?_⟩
          by_cases hpa : (a :: m).getLast (by simp) = a
          · rw [hpa, exchange_cdr_eq, if_neg n3, if_neg n1]; exact (h5 c hc).2
          · rw [exchange_cdr_ne h' hpa, if_neg n5, if_neg n3, if_neg n1]; exact (h5 c hc).2

/-! ### Keys -/

theorem Stable.map {lt : α → α → Bool} {f : β → α} (hf : ∀ z, ∃ w, f w = z) {xs ys : List β}
    (h : Stable (fun a b => lt (f a) (f b)) xs ys) : Stable lt (xs.map f) (ys.map f) := by
  refine ⟨h.1.map f, fun ho => ?_⟩
  obtain ⟨h1, h2, h3⟩ := h.2 ⟨fun x y => ho.asymm _ _, fun x y z => ho.negTrans _ _ _⟩
  refine ⟨h1.map f, ?_, fun z => ?_⟩
  · unfold IsSorted at h2 ⊢
    rw [List.pairwise_map]; exact h2
  · obtain ⟨w, rfl⟩ := hf z
    have := congrArg (List.map f) (h3 w)
    rw [List.filter_map, List.filter_map]
    exact this

/-- The element in a box. -/
def Box.elt : Box α κ → α
  | .plain x => x
  | .keyed x _ => x

theorem decorate_spec (key : α → κ) (fuel : Nat) (h : Heap (Box α κ)) (p : Option Nat) (cs : List Nat) (hc : Chain h p cs)
    (hf : cs.length ≤ fuel) (hp : ∀ c ∈ cs, ∃ x, h.car c = .plain x) :
    ∃ h', decorate key fuel h p = some h' ∧ h'.size = h.size ∧ h'.cdr = h.cdr ∧
      (∀ c ∈ cs, h'.car c = .keyed (h.car c).elt (key (h.car c).elt)) ∧ ∀ c, c ∉ cs → h'.car c = h.car c := by
  induction cs generalizing p fuel h with
  | nil =>
    have : p = none := hc
    subst this
    refine ⟨h, ?_, rfl, rfl, by simp, fun _ _ => rfl⟩
    cases fuel <;> rfl
  | cons c cs ih =>
    have hcn : c ∉ cs := (List.nodup_cons.1 hc.nodup).1
    have e := hc.1
    subst e
    obtain ⟨x, hx⟩ := hp c (by simp)
    cases fuel with
    | zero => simp at hf
    | succ fuel =>
      obtain ⟨h', a1, a2, a3, a4, a5⟩ := ih fuel (h.setCar c (.keyed x (key x))) (h.cdr c) hc.2 (by simpa using hf)
        (fun d hd => by
          have n : d ≠ c := fun e => hcn (e ▸ hd)
          rw [car_ne n]; exact hp d (by simp [hd]))
      refine ⟨h', by rw [decorate, hx]; exact a1, a2, a3, fun d hd => ?_, fun d hd => ?_⟩
      · by_cases hdc : d = c
        · subst hdc
          rw [a5 d hcn, car_self, hx]; rfl
        · have hd' : d ∈ cs := (List.mem_cons.1 hd).resolve_left hdc
          rw [a4 d hd', car_ne hdc]
      · simp only [List.mem_cons, not_or] at hd
        rw [a5 d hd.2, car_ne hd.1]

theorem undecorate_spec (fuel : Nat) (h : Heap (Box α κ)) (p : Option Nat) (cs : List Nat) (hc : Chain h p cs)
    (hf : cs.length ≤ fuel) (hp : ∀ c ∈ cs, ∃ x k, h.car c = .keyed x k) :
    ∃ h', undecorate fuel h p = some h' ∧ h'.size = h.size ∧ h'.cdr = h.cdr ∧
      (∀ c ∈ cs, h'.car c = .plain (h.car c).elt) ∧ ∀ c, c ∉ cs → h'.car c = h.car c := by
  induction cs generalizing p fuel h with
  | nil =>
    have : p = none := hc
    subst this
    refine ⟨h, ?_, rfl, rfl, by simp, fun _ _ => rfl⟩
    cases fuel <;> rfl
  | cons c cs ih =>
    have hcn : c ∉ cs := (List.nodup_cons.1 hc.nodup).1
    have e := hc.1
    subst e
    obtain ⟨x, k, hx⟩ := hp c (by simp)
    cases fuel with
    | zero => simp at hf
    | succ fuel =>
      obtain ⟨h', a1, a2, a3, a4, a5⟩ := ih fuel (h.setCar c (.plain x)) (h.cdr c) hc.2 (by simpa using hf)
        (fun d hd => by
          have n : d ≠ c := fun e => hcn (e ▸ hd)
          rw [car_ne n]; exact hp d (by simp [hd]))
      refine ⟨h', by rw [undecorate, hx]; exact a1, a2, a3, fun d hd => ?_, fun d hd => ?_⟩
      · by_cases hdc : d = c
        · subst hdc
          rw [a5 d hcn, car_self, hx]; rfl
        · have hd' : d ∈ cs := (List.mem_cons.1 hd).resolve_left hdc
          rw [a4 d hd', car_ne hdc]
      · simp only [List.mem_cons, not_or] at hd
        rw [a5 d hd.2, car_ne hd.1]

theorem stableSortX1_spec (less : κ → κ → Bool) (key : α → κ) (h : Heap (Box α κ)) (seq : Option Nat) (cells : List Nat)
    (hc : Chain h seq cells) (hsz : ∀ c ∈ cells, c < h.size) (hp : ∀ c ∈ cells, ∃ x, h.car c = .plain x) :
    ∃ h' p, stableSortX1 less key h seq = some (h', p) ∧
      SortedList (fun a b => less (key a.elt) (key b.elt)) h cells h' p ∧ ∀ c ∈ cells, ∃ x, h'.car c = .plain x := by
  have hlen := Chain.length_le hc.nodup hsz
  cases cells with
  | nil =>
    have : seq = none := hc
    subst this
    exact ⟨h, none, rfl, ⟨[], rfl, rfl, .refl _, Stable.refl_of_length (by simp), fun _ _ => ⟨rfl, rfl⟩⟩, by simp⟩
  | cons c0 cells0 =>
    have hseq := hc.1
    subst hseq
    generalize hcells : c0 :: cells0 = cells at *
    obtain ⟨h1, a1, a2, a3, a4, a5⟩ := decorate_spec key (h.size + 1) h (some c0) cells hc (by omega) hp
    have hc1 : Chain h1 (some c0) cells := by unfold Chain; rw [a3]; exact hc
    obtain ⟨h2, p, b1, cs, b2, b3, b4, b5, b6⟩ := stableSortX0_spec (less := kless less)
      (lt := fun a b : Box α κ => less (key a.elt) (key b.elt)) (S := fun b => ∃ x, b = .keyed x (key x))
      (by rintro _ _ ⟨x, rfl⟩ ⟨y, rfl⟩; rfl) h1 (some c0) cells hc1 (by rw [a2]; exact hsz)
      (fun c hc => ⟨_, a4 c hc⟩)
    have hcsl : cs.length ≤ h1.size + 1 := by
      have := b4.length_eq; omega
    have hkeyed : ∀ c ∈ cs, ∃ x k, h2.car c = .keyed x k := by
      intro c hc
      obtain ⟨d, hd, he⟩ := List.mem_map.1 (b5.1.mem_iff.1 (List.mem_map_of_mem hc))
      rw [← he, a4 d hd]; exact ⟨_, _, rfl⟩
    obtain ⟨h3, c1, c2, c3, c4, c5⟩ := undecorate_spec (h1.size + 1) h2 p cs b3 hcsl hkeyed
    refine ⟨h3, p, ?_, ⟨cs, by rw [c2, b2, a2], by unfold Chain; rw [c3]; exact b3, b4, ?_, ?_⟩, ?_⟩
    · unfold stableSortX1
      dsimp only
      rw [a1, Option.bind_some, b1, Option.bind_some, c1, Option.map_some]
    · -- through the elements
      have e1 : cells.map h.car = (cells.map h1.car).map fun b => Box.plain b.elt := by
        rw [List.map_map]
        refine List.map_congr_left fun c hc => ?_
        obtain ⟨x, hx⟩ := hp c hc
        simp only [Function.comp_apply]
        rw [a4 c hc, hx]; rfl
      have e2 : cs.map h3.car = (cs.map h2.car).map fun b => Box.plain b.elt := by
        rw [List.map_map]
        exact List.map_congr_left fun c hc => c4 c hc
      rw [e1, e2]
      clear e1 e2
      generalize cs.map h2.car = L2 at *
      generalize cells.map h1.car = L1 at *
      -- sorting by the element is the same for both kinds of boxes
      refine ⟨b5.1.map _, fun ho => ?_⟩
      obtain ⟨q1, q2, q3⟩ := b5.2 ⟨fun x y => ho.asymm x y, fun x y z => ho.negTrans x y z⟩
      refine ⟨q1.map _, ?_, fun z => ?_⟩
      · unfold IsSorted at q2 ⊢
        rw [List.pairwise_map]; exact q2
      · have := congrArg (List.map fun b : Box α κ => (Box.plain b.elt : Box α κ)) (q3 z)
        rw [List.filter_map, List.filter_map]
        exact this
    · intro c hc
      have hcs : c ∉ cs := fun x => hc (b4.mem_iff.1 x)
      exact ⟨by rw [c5 c hcs, (b6 c hc).1, a5 c hc], by rw [c3, (b6 c hc).2, a3]⟩
    · intro c hc
      exact ⟨_, c4 c (b4.mem_iff.2 hc)⟩

/-! ### Vectors and fresh lists -/

theorem ofList_chain_from (x : β) (l : List β) (k i : Nat) (h : i + k = (x :: l).length) (hk : 0 < k) :
    Chain (ofList x l) (some i) (List.range' i k) := by
  induction k generalizing i with
  | zero => omega
  | succ k ih =>
    rw [List.range'_succ]
    refine ⟨rfl, ?_⟩
    by_cases hk0 : k = 0
    · subst hk0
      have : ¬ i + 1 < (x :: l).length := by omega
      unfold ofList
      simp only
      rw [if_neg this]; rfl
    · have : i + 1 < (x :: l).length := by omega
      have e : (ofList x l).cdr i = some (i + 1) := by unfold ofList; simp only; rw [if_pos this]
      rw [e]
      exact ih (i + 1) (by omega) (by omega)

theorem ofList_chain (x : β) (l : List β) : Chain (ofList x l) (some 0) (List.range (x :: l).length) := by
  rw [List.range_eq_range']
  exact ofList_chain_from x l _ 0 (by simp) (by simp)

theorem ofList_cars (x : β) (l : List β) : (List.range (x :: l).length).map (ofList x l).car = x :: l := by
  refine List.ext_getElem (by simp) fun i h1 h2 => ?_
  rw [List.getElem_map, List.getElem_range]
  unfold ofList
  simp only
  rw [List.getElem?_eq_getElem h2]; rfl

theorem writeBack_spec (h : Heap β) (fuel : Nat) (p : Option Nat) (cs : List Nat) (i : Nat) (v : List β) (hc : Chain h p cs)
    (hf : cs.length ≤ fuel) (hv : i + cs.length ≤ v.length) :
    writeBack h fuel p i v = some (v.take i ++ cs.map h.car ++ v.drop (i + cs.length)) := by
  induction cs generalizing p fuel i v with
  | nil =>
    have : p = none := hc
    subst this
    have : writeBack h fuel none i v = some v := by cases fuel <;> rfl
    rw [this]; simp
  | cons c cs ih =>
    have e := hc.1
    subst e
    cases fuel with
    | zero => simp at hf
    | succ fuel =>
      simp only [List.length_cons] at hv hf
      rw [writeBack, if_pos (by omega), ih fuel _ (i + 1) _ hc.2 (by omega) (by rw [List.length_set]; omega)]
      congr 1
      have hi : i < v.length := by omega
      rw [List.take_set, List.take_add_one, List.getElem?_eq_getElem hi, List.drop_set_of_lt (by omega)]
      have : (v.take i ++ (some v[i]).toList).set i (h.car c) = v.take i ++ [h.car c] := by
        have hl : (v.take i).length = i := by rw [List.length_take]; omega
        conv_lhs => rw [List.set_append_right (h := by omega)]
        simp [hl]
      rw [this]
      simp [List.append_assoc, Nat.add_assoc, Nat.add_comm 1]

theorem stableSortVectorX0_spec {less : β → β → Option Bool} {lt : β → β → Bool} {S : β → Prop}
    (hless : ∀ x y, S x → S y → less x y = some (lt x y)) (v : List β) (hS : ∀ x ∈ v, S x) :
    ∃ w, stableSortVectorX0 less v = some w ∧ Stable lt v w := by
  cases v with
  | nil => exact ⟨[], rfl, Stable.refl_of_length (by simp)⟩
  | cons x l =>
    obtain ⟨h', seq', p, cs, a1, a2, a3, a4, a5, a6, a7⟩ := step_spec hless ((x :: l).length + 1) (x :: l).length (ofList x l)
      (some 0) (List.range (x :: l).length) (by omega) (ofList_chain x l) (by simp)
      (fun c hc => List.mem_range.1 hc) (fun c hc => by
        have : (ofList x l).car c ∈ x :: l := by
          rw [← ofList_cars x l]; exact List.mem_map_of_mem hc
        exact hS _ this)
    have hlr : (List.range (x :: l).length).take (x :: l).length = List.range (x :: l).length := by
      rw [List.take_of_length_le (by simp)]
    rw [hlr] at a5 a6
    rw [ofList_cars] at a6
    have hl : cs.length = (x :: l).length := by have := a5.length_eq; rw [this]; simp
    refine ⟨cs.map h'.car, ?_, a6⟩
    unfold stableSortVectorX0
    dsimp only
    rw [a1, Option.bind_some, writeBack_spec h' _ p cs 0 (x :: l) a4 (by rw [a2]; unfold ofList; simp only; omega) (by omega)]
    have : (x :: l).drop (0 + cs.length) = [] := by rw [hl]; simp
    rw [this]
    simp

theorem setCars_spec (h : Heap β) (p : Option Nat) (cs : List Nat) (xs : List β) (hc : Chain h p cs) (hl : xs.length = cs.length) :
    ∃ h', setCars h p xs = some h' ∧ h'.size = h.size ∧ h'.cdr = h.cdr ∧ cs.map h'.car = xs ∧ ∀ c, c ∉ cs → h'.car c = h.car c := by
  induction cs generalizing p h xs with
  | nil =>
    have : xs = [] := by simpa using hl
    subst this
    exact ⟨h, by cases p <;> rfl, rfl, rfl, rfl, fun _ _ => rfl⟩
  | cons c cs ih =>
    cases xs with
    | nil => simp at hl
    | cons x xs =>
      have e := hc.1
      subst e
      have hcn : c ∉ cs := (List.nodup_cons.1 hc.nodup).1
      obtain ⟨h', a1, a2, a3, a4, a5⟩ := ih (h.setCar c x) (h.cdr c) xs hc.2 (by simpa using hl)
      refine ⟨h', a1, a2, a3, ?_, fun d hd => ?_⟩
      · rw [List.map_cons, a4, a5 c hcn, car_self]
      · simp only [List.mem_cons, not_or] at hd
        rw [a5 d hd.2, car_ne hd.1]

end Gauche.MergeSort
