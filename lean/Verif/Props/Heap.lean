import Verif.Proof.Heap
import Init.Data.Order.Ord

/-
C04: a binary heap is a double-ended priority queue.  C05: copies.  C42: binary-heap-check.

Specification: the abstract state of a heap is the bag (list up to permutation) of the elements
`elems h`, i.e. the storage slots 1 .. num-entries.
-/
namespace Gauche.Heap
open Std
variable {α κ : Type} {cmp : κ → κ → Ordering} {key : α → κ}

/-- The bag of elements. -/
def elems (h : BH α) : List α := contents h.storage (h.next - 1)

/-- `a` is not greater than `b`. -/
def Le (cmp : κ → κ → Ordering) (key : α → κ) (a b : α) : Prop := cmp (key a) (key b) ≠ .gt

/-- Heaps obtained by the API from some initial storage. -/
inductive Reach (cmp : κ → κ → Ordering) (key : α → κ) : BH α → Prop
  | make (s : Store α) (cap : Cap) : cap ≠ .unbound → Reach cmp key (make s cap)
  | build (s : Store α) (xlen : Nat) (cap : Cap) (n : Option Nat) : cap = .fin xlen ∨ cap = .inf →
      Reach cmp key (build (less cmp key) s xlen cap n)
  | push {h h'} (typeOk : α → Bool) (x : α) : Reach cmp key h → push (less cmp key) typeOk h x = some h' → Reach cmp key h'
  | popMin {h h'} (filler r : α) : Reach cmp key h → popMin (less cmp key) filler h = some (r, h') → Reach cmp key h'
  | popMax {h h'} (filler r : α) : Reach cmp key h → popMax (less cmp key) filler h = some (r, h') → Reach cmp key h'
  | swapMin {h h'} (x r : α) : Reach cmp key h → swapMin (less cmp key) h x = some (r, h') → Reach cmp key h'
  | swapMax {h h'} (x r : α) : Reach cmp key h → swapMax (less cmp key) h x = some (r, h') → Reach cmp key h'
  | remove {h} (filler : α) (pred : α → Bool) : Reach cmp key h → Reach cmp key (remove (less cmp key) filler pred h)
  | clear {h} (fill : Store α) : Reach cmp key h → Reach cmp key (clear h fill)
  | copy {h} : Reach cmp key h → Reach cmp key (copy h)

/-- Invariant. -/
def Inv (lt : α → α → Bool) (h : BH α) : Prop :=
  1 ≤ h.next ∧ HP lt minNode (h.next - 1) h.storage ∧ ∀ c, h.capacity = .fin c → h.next - 1 ≤ c

theorem weak_less [TransCmp cmp] : Weak (less cmp key) := by
  constructor
  · intro a b h
    simp only [less, decide_eq_true_eq, decide_eq_false_iff_not] at *
    intro h2
    rw [OrientedCmp.eq_swap (cmp := cmp), h] at h2; cases h2
  · intro a b c h1 h2
    simp only [less, decide_eq_false_iff_not] at *
    have g1 : (cmp (key a) (key b)).isLE := by
      rw [OrientedCmp.eq_swap (cmp := cmp)]; cases hc : cmp (key b) (key a) <;> simp_all [Ordering.swap]
    have g2 : (cmp (key b) (key c)).isLE := by
      rw [OrientedCmp.eq_swap (cmp := cmp)]; cases hc : cmp (key c) (key b) <;> simp_all [Ordering.swap]
    have g3 := TransCmp.isLE_trans g1 g2
    rw [OrientedCmp.eq_swap (cmp := cmp)] at g3
    intro h3; rw [h3] at g3; cases g3

theorem le_iff [OrientedCmp cmp] {a b : α} : Le cmp key a b ↔ less cmp key b a = false := by
  unfold Le less
  rw [OrientedCmp.eq_swap (cmp := cmp)]
  cases cmp (key b) (key a) <;> simp [Ordering.swap]

/-! ### storage updates -/

theorem contents_replace (s : Store α) (filler : α) {n idx : Nat} (h1 : 1 ≤ idx) (hn : idx ≤ n) :
    (s idx :: contents ((s.set idx (s n)).set n filler) (n - 1)).Perm (contents s n) := by
  have e : contents ((s.set idx (s n)).set n filler) (n - 1) = contents (s.swap idx n) (n - 1) := by
    apply contents_congr
    intro i hi hin
    rw [set_other _ _ (by omega)]
    by_cases c : i = idx
    · subst c; rw [set_same, swap_left]
    · rw [set_other _ _ c, swap_other _ c (by omega)]
  have p := contents_swap s (n := n) (i := idx) (j := n) (by omega) hn (by omega) (Nat.le_refl n)
  have e2 : contents (s.swap idx n) n = contents (s.swap idx n) (n - 1) ++ [s idx] := by
    have := contents_succ (s.swap idx n) (n - 1)
    rw [show n - 1 + 1 = n by omega, swap_right] at this
    exact this
  rw [e2] at p
  rw [e]
  exact (List.perm_append_comm (l₁ := [s idx])).trans p

/-- Storing `x` at slot `idx` replaces `s idx` by `x` in the bag. -/
theorem contents_set (s : Store α) (x : α) {n idx : Nat} (h1 : 1 ≤ idx) (hn : idx ≤ n) :
    (s idx :: contents (s.set idx x) n).Perm (x :: contents s n) := by
  induction n with
  | zero => omega
  | succ n ih =>
    rw [contents_succ, contents_succ]
    by_cases c : idx = n + 1
    · subst c
      rw [set_same, contents_congr (t := s) (fun i a b => set_other _ _ (by omega))]
      refine (List.perm_append_comm (l₁ := s (n + 1) :: contents s n) (l₂ := [x])).trans ?_
      exact List.Perm.cons x (List.perm_append_comm (l₁ := [s (n + 1)]))
    · rw [set_other _ _ (by omega), ← List.cons_append, ← List.cons_append]
      exact (ih (by omega)).append_right _

theorem pop_min_rel {lt : α → α → Bool} {n n' : Nat} {s s' : Store α} (hn : n' ≤ n) (h : HP lt minNode n s)
    (e : ∀ k, k ≤ n' → 2 ≤ k → s' k = s k) :
    ∀ j, j ≤ n' → (2 ≤ j → j / 2 ≠ 1 → R lt minNode s' (j / 2) j) ∧
      (4 ≤ j → j / 4 ≠ 1 → R lt minNode s' (j / 4) j) := by
  intro j hj
  refine ⟨fun h2 c => ?_, fun h4 c => ?_⟩
  · unfold R; rw [e j hj h2, e (j / 2) (by omega) (by omega)]; exact (h j (by omega)).1 h2
  · unfold R; rw [e j hj (by omega), e (j / 4) (by omega) (by omega)]; exact (h j (by omega)).2 h4

/-- Relations that survive when slots 1 and idx ∈ {2,3} are changed to smaller root / any value above it. -/
theorem max_rel {lt : α → α → Bool} {n n' idx : Nat} {s s' : Store α} (hn : n' ≤ n)
    (h : HP lt minNode n s) (hidx : idx = 2 ∨ idx = 3)
    (e : ∀ k, k ≤ n' → 2 ≤ k → k ≠ idx → s' k = s k)
    (hroot : ∀ j, 2 ≤ j → j ≤ n' → lt (s' j) (s' 1) = false) :
    ∀ j, j ≤ n' → (2 ≤ j → j / 2 ≠ idx → R lt minNode s' (j / 2) j) ∧
      (4 ≤ j → j / 4 ≠ idx → R lt minNode s' (j / 4) j) := by
  have m1 : minNode 1 = true := by decide
  intro j hj
  refine ⟨fun h2 c => ?_, fun h4 c => ?_⟩
  · by_cases c1 : j / 2 = 1
    · unfold R; rw [c1, m1]; simpa using hroot j h2 hj
    · unfold R; rw [e j hj h2 (by omega), e (j / 2) (by omega) (by omega) c]; exact (h j (by omega)).1 h2
  · by_cases c1 : j / 4 = 1
    · unfold R; rw [c1, m1]; simpa using hroot j (by omega) hj
    · unfold R; rw [e j hj (by omega) (by omega), e (j / 4) (by omega) (by omega) c]; exact (h j (by omega)).2 h4

/-! ### operations preserve the invariant -/

section ops
variable {lt : α → α → Bool} (W : Weak lt)
include W

theorem push_inv {h h' : BH α} {typeOk : α → Bool} {x : α} (hi : Inv lt h) (he : push lt typeOk h x = some h') :
    Inv lt h' ∧ (elems h').Perm (x :: elems h) ∧ h'.capacity = h.capacity := by
  obtain ⟨h1, h2, h3⟩ := hi
  unfold push at he
  cases hf : fullP h with
  | none => simp [hf] at he
  | some b =>
    cases b with
    | true => simp [hf] at he
    | false =>
      simp only [hf, Option.bind_some, Bool.false_eq_true, if_false] at he
      split at he
      · cases he
      · have he := Option.some.inj he
        subst he
        have hcap : ∀ c, h.capacity = .fin c → h.next ≤ c := by
          intro c hc
          simp only [fullP, hc, Option.some.injEq, decide_eq_false_iff_not] at hf; omega
        have hp : HP lt minNode (h.next - 1) (h.storage.set h.next x) := by
          intro j hj
          have := h2 j hj
          unfold R at *
          refine ⟨fun a => ?_, fun a => ?_⟩
          · rw [set_other _ _ (by omega), set_other _ _ (by omega)]; exact this.1 a
          · rw [set_other _ _ (by omega), set_other _ _ (by omega)]; exact this.2 a
        have hc : contents (h.storage.set h.next x) h.next = elems h ++ [x] := by
          have := contents_succ (h.storage.set h.next x) (h.next - 1)
          rw [show h.next - 1 + 1 = h.next by omega, set_same] at this
          rw [this, elems]
          congr 1
          exact contents_congr fun i _ _ => set_other _ _ (by omega)
        by_cases c : 1 < h.next
        · obtain ⟨r1, r2⟩ := bubbleUp_heap W (n := h.next) (by omega) hp
          simp only [c, if_true, Inv, elems, Nat.add_sub_cancel]
          refine ⟨⟨by omega, r1, hcap⟩, ?_, trivial⟩
          refine r2.trans ?_
          rw [hc]; exact List.perm_append_comm
        · have c1 : h.next = 1 := by omega
          simp only [c, if_false, Inv, elems, Nat.add_sub_cancel]
          refine ⟨⟨by omega, HP_one _ _ _ (by omega), hcap⟩, ?_, trivial⟩
          rw [hc]; exact List.perm_append_comm

theorem popMin_inv {h h' : BH α} {filler r : α} (hi : Inv lt h) (he : popMin lt filler h = some (r, h')) :
    Inv lt h' ∧ (r :: elems h').Perm (elems h) ∧ (∀ y ∈ elems h, lt y r = false) ∧ h'.capacity = h.capacity := by
  obtain ⟨h1, h2, h3⟩ := hi
  unfold popMin at he
  simp only at he
  split at he
  · cases he
  · rename_i hn
    have he := Option.some.inj he
    simp only [Prod.mk.injEq] at he
    obtain ⟨rfl, rfl⟩ := he
    have cr := contents_replace h.storage filler (n := h.next - 1) (idx := 1) (by omega) (by omega)
    have hmin : ∀ y ∈ elems h, lt y (h.storage 1) = false := by
      intro y hy
      obtain ⟨i, a, b, rfl⟩ := mem_contents.1 hy
      exact HP_min W h2 i a b
    by_cases c : h.next - 1 = 1
    · rw [c] at cr ⊢
      rw [trickleDown_out _ _ (by omega) (by omega)]
      refine ⟨⟨by simp, HP_one _ _ _ (by simp), fun c' hc => by have := h3 c' hc; simp⟩, ?_, hmin, rfl⟩
      simp only [elems, c]; exact cr
    · obtain ⟨r1, r2⟩ := trickleDown_heap W (n := h.next - 1 - 1) (i := 1) (by omega) (by omega) (by omega)
        (pop_min_rel (n := h.next - 1) (s' := (h.storage.set 1 (h.storage (h.next - 1))).set (h.next - 1) filler) (by omega) h2
          (fun k hk h2 => by rw [set_other _ _ (by omega), set_other _ _ (by omega)]))
      rw [show h.next - 1 - 1 + 1 = h.next - 1 by omega] at r1 r2
      refine ⟨⟨by simp; omega, r1, fun c' hc => by have := h3 c' hc; simp only; omega⟩, ?_, hmin, rfl⟩
      exact (List.Perm.cons _ r2).trans cr

theorem swapAndAdjust_inv {h : BH α} {filler : α} {idx : Nat} (hi : Inv lt h) (hn : 3 ≤ h.next - 1)
    (hidx : idx = 2 ∨ idx = 3) :
    Inv lt (swapAndAdjust lt filler h (h.next - 1) idx) ∧
      (h.storage idx :: elems (swapAndAdjust lt filler h (h.next - 1) idx)).Perm (elems h) := by
  obtain ⟨h1, h2, h3⟩ := hi
  have cr := contents_replace h.storage filler (n := h.next - 1) (idx := idx) (by omega) (by omega)
  by_cases c : h.next - 1 ≤ idx
  · have c3 : idx = h.next - 1 := by omega
    unfold swapAndAdjust
    simp only
    rw [trickleDown_out _ _ (by omega) c]
    refine ⟨⟨by simp; omega, ?_, fun c' hc => by have := h3 c' hc; simp only; omega⟩, ?_⟩
    · intro j hj
      simp only at hj
      have := h2 j (by omega)
      unfold R at *
      refine ⟨fun a => ?_, fun a => by omega⟩
      simp only
      rw [set_other _ _ (by omega), set_other _ _ (by omega), set_other _ _ (by omega), set_other _ _ (by omega)]
      exact this.1 a
    · exact cr
  · have hmr := max_rel (lt := lt) (n := h.next - 1) (n' := h.next - 1 - 1) (idx := idx) (s := h.storage)
      (s' := (h.storage.set idx (h.storage (h.next - 1))).set (h.next - 1) filler) (by omega) h2 hidx
      (fun k hk k2 kne => by rw [set_other _ _ (by omega), set_other _ _ kne])
      (fun j hj hj' => by
        rw [set_other _ _ (by omega : (1 : Nat) ≠ h.next - 1), set_other _ _ (by omega : (1 : Nat) ≠ idx),
          set_other _ _ (by omega : j ≠ h.next - 1)]
        by_cases cj : j = idx
        · rw [cj, set_same]; exact HP_min W h2 _ (by omega) (by omega)
        · rw [set_other _ _ cj]; exact HP_min W h2 _ (by omega) (by omega))
    obtain ⟨r1, r2⟩ := trickleDown_heap W (by omega) (by omega) (by omega) hmr
    rw [show h.next - 1 - 1 + 1 = h.next - 1 by omega] at r1 r2
    refine ⟨⟨by simp [swapAndAdjust]; omega, r1, fun c' hc => ?_⟩, ?_⟩
    · have := h3 c' hc; simp only [swapAndAdjust]; omega
    · exact (List.Perm.cons _ r2).trans cr

theorem maxSpec {h : BH α} (hi : Inv lt h) (hn : 3 ≤ h.next - 1) (y : α) (hy : y ∈ elems h) :
    lt (if lt (h.storage 3) (h.storage 2) then h.storage 2 else h.storage 3) y = false := by
  obtain ⟨i, a, b, rfl⟩ := mem_contents.1 hy
  have key : lt (h.storage 2) (h.storage i) = false ∨ lt (h.storage 3) (h.storage i) = false := by
    by_cases c : i = 1
    · subst c; exact .inl (HP_min W hi.2.1 2 (by omega) (by omega))
    · rcases HP_max W hi.2.1 i (by omega) b with h | ⟨_, h⟩
      · exact .inl h
      · exact .inr h
  split
  · rename_i hl
    rcases key with k | k
    · exact k
    · exact W.trans _ _ _ k (W.asymm _ _ hl)
  · rename_i hl
    rcases key with k | k
    · exact W.trans _ _ _ k (by simpa using hl)
    · exact k

theorem popMax_inv {h h' : BH α} {filler r : α} (hi : Inv lt h) (he : popMax lt filler h = some (r, h')) :
    Inv lt h' ∧ (r :: elems h').Perm (elems h) ∧ (∀ y ∈ elems h, lt r y = false) ∧ h'.capacity = h.capacity := by
  have hi' := hi
  obtain ⟨h1, h2, h3⟩ := hi
  unfold popMax at he
  simp only at he
  split at he
  · cases he
  · rename_i hn
    split at he
    · rename_i c
      have he := Option.some.inj he
      simp only [Prod.mk.injEq] at he
      obtain ⟨rfl, rfl⟩ := he
      refine ⟨⟨by simp; omega, HP_one _ _ _ (by simp; omega), fun c' hc => by have := h3 c' hc; simp only; omega⟩, ?_, ?_, rfl⟩
      · simp only [elems]
        have := contents_succ h.storage (h.next - 1 - 1)
        rw [show h.next - 1 - 1 + 1 = h.next - 1 by omega] at this
        rw [this]; exact List.perm_append_comm (l₁ := [h.storage (h.next - 1)])
      · intro y hy
        obtain ⟨i, a, b, rfl⟩ := mem_contents.1 hy
        rcases c with c | c
        · rw [c, show i = 1 by omega]; exact W.refl _
        · rw [c]
          have : i = 1 ∨ i = 2 := by omega
          rcases this with rfl | rfl
          · exact HP_min W h2 2 (by omega) (by omega)
          · exact W.refl _
    · rename_i c
      have hm := maxSpec W hi' (by omega)
      split at he
      · rename_i hl
        have he := Option.some.inj he
        simp only [Prod.mk.injEq] at he
        obtain ⟨rfl, rfl⟩ := he
        obtain ⟨r1, r2⟩ := swapAndAdjust_inv W (filler := filler) hi' (by omega) (.inl rfl)
        exact ⟨r1, r2, fun y hy => by simpa [hl] using hm y hy, rfl⟩
      · rename_i hl
        have he := Option.some.inj he
        simp only [Prod.mk.injEq] at he
        obtain ⟨rfl, rfl⟩ := he
        obtain ⟨r1, r2⟩ := swapAndAdjust_inv W (filler := filler) hi' (by omega) (.inr rfl)
        exact ⟨r1, r2, fun y hy => by simpa [hl] using hm y hy, rfl⟩

theorem swapMin_inv {h h' : BH α} {x r : α} (hi : Inv lt h) (he : swapMin lt h x = some (r, h')) :
    Inv lt h' ∧ (r :: elems h').Perm (x :: elems h) ∧ r ∈ elems h ∧ (∀ y ∈ elems h, lt y r = false) ∧
      h'.capacity = h.capacity := by
  obtain ⟨h1, h2, h3⟩ := hi
  unfold swapMin at he
  simp only [isEmpty, decide_eq_true_eq, numEntries] at he
  split at he
  · cases he
  · rename_i hne
    have he := Option.some.inj he
    simp only [Prod.mk.injEq] at he
    obtain ⟨rfl, rfl⟩ := he
    have hmin : ∀ y ∈ elems h, lt y (h.storage 1) = false := by
      intro y hy
      obtain ⟨i, a, b, rfl⟩ := mem_contents.1 hy
      exact HP_min W h2 i a b
    have hmem : h.storage 1 ∈ elems h := mem_contents.2 ⟨1, by omega, by omega, rfl⟩
    have cs := contents_set h.storage x (n := h.next - 1) (idx := 1) (by omega) (by omega)
    by_cases c : 1 < h.next - 1
    · simp only [c, if_true]
      obtain ⟨r1, r2⟩ := trickleDown_heap W (n := h.next - 1) (i := 1) (by omega) (by omega) (by omega)
        (pop_min_rel (n := h.next - 1) (s' := h.storage.set 1 x) (by omega) h2
          (fun k hk h2 => by rw [set_other _ _ (by omega)]))
      exact ⟨⟨h1, r1, h3⟩, (List.Perm.cons _ r2).trans cs, hmem, hmin, trivial⟩
    · simp only [c, if_false]
      exact ⟨⟨h1, HP_one _ _ _ (by simp only; omega), h3⟩, cs, hmem, hmin, trivial⟩

theorem storeAndAdjust_inv {h : BH α} {x : α} {idx : Nat} (hi : Inv lt h) (hn : 3 ≤ h.next - 1)
    (hidx : idx = 2 ∨ idx = 3) :
    Inv lt (storeAndAdjust lt h x (h.next - 1) idx) ∧
      (h.storage idx :: elems (storeAndAdjust lt h x (h.next - 1) idx)).Perm (x :: elems h) := by
  obtain ⟨h1, h2, h3⟩ := hi
  have cs := contents_set h.storage x (n := h.next - 1) (idx := idx) (by omega) (by omega)
  obtain ⟨s', hs'⟩ : ∃ s', s' = if lt x (h.storage 1) then (h.storage.set idx x).swap 1 idx else h.storage.set idx x := ⟨_, rfl⟩
  have hperm : (contents s' (h.next - 1)).Perm (contents (h.storage.set idx x) (h.next - 1)) := by
    rw [hs']; split
    · exact contents_swap _ (by omega) (by omega) (by omega) (by omega)
    · exact .refl _
  have e : ∀ k, k ≤ h.next - 1 → 2 ≤ k → k ≠ idx → s' k = h.storage k := by
    intro k _ k2 kne
    rw [hs']; split
    · rw [swap_other _ (by omega) kne, set_other _ _ kne]
    · rw [set_other _ _ kne]
  have h1idx : (1 : Nat) ≠ idx := by omega
  have hroot : lt (h.storage 1) (s' 1) = false ∧ lt (s' idx) (s' 1) = false := by
    rw [hs']; split
    · rename_i hl
      rw [swap_left, swap_right, set_same, set_other _ _ h1idx]
      exact ⟨W.asymm _ _ hl, W.asymm _ _ hl⟩
    · rename_i hl
      rw [set_other _ _ h1idx, set_same]
      exact ⟨W.refl _, by simpa using hl⟩
  have hmr := max_rel (lt := lt) (n := h.next - 1) (n' := h.next - 1) (idx := idx) (s := h.storage)
    (s' := s') (Nat.le_refl _) h2 hidx e
    (fun j hj hj' => by
      by_cases cj : j = idx
      · rw [cj]; exact hroot.2
      · rw [e j hj' hj cj]; exact W.trans _ _ _ hroot.1 (HP_min W h2 _ (by omega) (by omega)))
  obtain ⟨r1, r2⟩ := trickleDown_heap W (n := h.next - 1) (i := idx) (by omega) (by omega) (by omega) hmr
  unfold storeAndAdjust
  simp only [← hs']
  exact ⟨⟨h1, r1, h3⟩, (List.Perm.cons _ (r2.trans hperm)).trans cs⟩

theorem swapMax_inv {h h' : BH α} {x r : α} (hi : Inv lt h) (he : swapMax lt h x = some (r, h')) :
    Inv lt h' ∧ (r :: elems h').Perm (x :: elems h) ∧ r ∈ elems h ∧ (∀ y ∈ elems h, lt r y = false) ∧
      h'.capacity = h.capacity := by
  have hi' := hi
  obtain ⟨h1, h2, h3⟩ := hi
  unfold swapMax numEntries at he
  dsimp only at he
  by_cases c0 : h.next - 1 = 0
  · rw [if_pos c0] at he; cases he
  rw [if_neg c0] at he
  have hmem : ∀ i, 1 ≤ i → i ≤ h.next - 1 → h.storage i ∈ elems h := fun i a b => mem_contents.2 ⟨i, a, b, rfl⟩
  by_cases c1 : h.next - 1 = 1
  · rw [if_pos c1] at he
    have he := Option.some.inj he
    simp only [Prod.mk.injEq] at he
    obtain ⟨rfl, rfl⟩ := he
    refine ⟨⟨h1, HP_one _ _ _ (by simp only; omega), h3⟩, contents_set (n := h.next - 1) _ _ (by omega) (by omega), hmem 1 (by omega) (by omega), ?_, rfl⟩
    intro y hy
    obtain ⟨i, a, b, rfl⟩ := mem_contents.1 hy
    rw [show i = 1 by omega]; exact W.refl _
  rw [if_neg c1] at he
  by_cases c2 : h.next - 1 = 2
  · rw [if_pos c2] at he
    have he := Option.some.inj he
    simp only [Prod.mk.injEq] at he
    obtain ⟨rfl, rfl⟩ := he
    have cs := contents_set h.storage x (n := h.next - 1) (idx := 2) (by omega) (by omega)
    have m1 : minNode 1 = true := by decide
    have hmax : ∀ y ∈ elems h, lt (h.storage 2) y = false := by
      intro y hy
      obtain ⟨i, a, b, rfl⟩ := mem_contents.1 hy
      have : i = 1 ∨ i = 2 := by omega
      rcases this with rfl | rfl
      · exact HP_min W h2 2 (by omega) (by omega)
      · exact W.refl _
    have hhp : ∀ s' : Store α, lt (s' 2) (s' 1) = false → HP lt minNode (h.next - 1) s' := by
      intro s' hs j hj
      refine ⟨fun a => ?_, fun a => by omega⟩
      have : j = 2 := by omega
      subst this; unfold R; rw [m1]; simpa using hs
    split
    · rename_i hl
      refine ⟨⟨h1, hhp _ ?_, h3⟩, ?_, hmem 2 (by omega) (by omega), hmax, rfl⟩
      · dsimp only; rw [swap_left, swap_right, set_same, set_other _ _ (by omega)]; exact W.asymm _ _ hl
      · exact (List.Perm.cons _ (contents_swap _ (by omega) (by simp only; omega) (by omega) (by simp only; omega))).trans cs
    · rename_i hl
      refine ⟨⟨h1, hhp _ ?_, h3⟩, cs, hmem 2 (by omega) (by omega), hmax, rfl⟩
      dsimp only; rw [set_same, set_other _ _ (by omega)]; simpa using hl
  · rw [if_neg c2] at he
    have hm := maxSpec W hi' (by omega)
    split at he
    · rename_i hl
      have he := Option.some.inj he
      simp only [Prod.mk.injEq] at he
      obtain ⟨rfl, rfl⟩ := he
      obtain ⟨r1, r2⟩ := storeAndAdjust_inv W (x := x) hi' (by omega) (.inl rfl)
      exact ⟨r1, r2, hmem 2 (by omega) (by omega), fun y hy => by simpa [hl] using hm y hy, rfl⟩
    · rename_i hl
      have he := Option.some.inj he
      simp only [Prod.mk.injEq] at he
      obtain ⟨rfl, rfl⟩ := he
      obtain ⟨r1, r2⟩ := storeAndAdjust_inv W (x := x) hi' (by omega) (.inr rfl)
      exact ⟨r1, r2, hmem 3 (by omega) (by omega), fun y hy => by simpa [hl] using hm y hy, rfl⟩

omit W in
theorem removeLoop_spec (pred : α → Bool) (s : Store α) (i next : Nat) (h1 : 1 ≤ i) (hin : i ≤ next)
    (hpre : ∀ j, 1 ≤ j → j < i → pred (s j) = false) :
    let r := removeLoop pred s i next
    1 ≤ r.2 ∧ r.2 ≤ next ∧ (contents r.1 (r.2 - 1)).Perm ((contents s (next - 1)).filter fun x => !pred x) ∧
      (r.2 = next → r.1 = s) := by
  fun_induction removeLoop pred s i next with
  | case1 s i next hle =>
    refine ⟨by omega, Nat.le_refl _, ?_, fun _ => rfl⟩
    rw [List.filter_eq_self.2]
    intro x hx
    obtain ⟨j, a, b, rfl⟩ := mem_contents.1 hx
    simp [hpre j a (by omega)]
  | case2 s i hle hp =>
    refine ⟨h1, by omega, ?_, by omega⟩
    simp only [Nat.add_sub_cancel]
    have := contents_succ s (i - 1)
    rw [show i - 1 + 1 = i by omega] at this
    have f1 : (contents s (i - 1)).filter (fun x => !pred x) = contents s (i - 1) := by
      rw [List.filter_eq_self]
      intro x hx
      obtain ⟨j, a, b, rfl⟩ := mem_contents.1 hx
      simp [hpre j a (by omega)]
    rw [this, List.filter_append, f1]
    simp [hle]
  | case3 s i next hle hp hne ih =>
    obtain ⟨a1, a2, a3, a4⟩ := ih h1 (by omega) (fun j a b => by rw [swap_other _ (by omega) (by omega)]; exact hpre j a b)
    refine ⟨a1, by omega, ?_, fun h => by omega⟩
    refine a3.trans ?_
    have p := (contents_swap s (n := next - 1) (i := i) (j := next - 1) (by omega) (by omega) (by omega) (by omega)).filter (fun x => !pred x)
    refine List.Perm.trans ?_ p
    have := contents_succ (s.swap i (next - 1)) (next - 1 - 1)
    rw [show next - 1 - 1 + 1 = next - 1 by omega, swap_right] at this
    rw [this, List.filter_append]
    simp [hp]
  | case4 s i next hle hp ih =>
    exact ih (by omega) (by omega) (fun j a b => by
      by_cases c : j = i
      · subst c; simpa using hp
      · exact hpre j a (by omega))

theorem remove_inv {h : BH α} {filler : α} {pred : α → Bool} (hi : Inv lt h) :
    Inv lt (remove lt filler pred h) ∧ (elems (remove lt filler pred h)).Perm ((elems h).filter fun x => !pred x) ∧
      (remove lt filler pred h).capacity = h.capacity := by
  have hi' := hi
  obtain ⟨h1, h2, h3⟩ := hi
  obtain ⟨a1, a2, a3, a4⟩ := removeLoop_spec pred h.storage 1 h.next (by omega) h1 (by omega)
  unfold remove
  simp only
  generalize removeLoop pred h.storage 1 h.next = r at *
  obtain ⟨s, next⟩ := r
  simp only at *
  unfold finishUp
  split
  · rename_i c
    have := a4 c
    subst c; subst this
    exact ⟨hi', a3, rfl⟩
  · rename_i c
    obtain ⟨r1, r2⟩ := heapify_heap W s (next - 1)
    have e : ∀ j, j ≤ next - 1 → 1 ≤ j → fillFrom filler (heapify lt s (next - 1)) next h.next j = heapify lt s (next - 1) j := by
      intro j hj h1j; simp only [fillFrom]; rw [if_neg (by omega)]
    refine ⟨⟨a1, ?_, fun c' hc => by have := h3 c' hc; simp only; omega⟩, ?_, rfl⟩
    · intro j hj
      have := r1 j hj
      unfold R at *
      refine ⟨fun a => ?_, fun a => ?_⟩
      · simp only; rw [e _ hj (by omega), e _ (by simp only at hj; omega) (by omega)]; exact this.1 a
      · simp only; rw [e _ hj (by omega), e _ (by simp only at hj; omega) (by omega)]; exact this.2 a
    · simp only [elems]
      rw [contents_congr (fun i a b => e i b a)]
      exact r2.trans a3

end ops

theorem reach_inv [TransCmp cmp] {h : BH α} (hr : Reach cmp key h) : Inv (less cmp key) h := by
  have W : Weak (less cmp key) := weak_less
  induction hr with
  | make s cap hc => exact ⟨Nat.le_refl _, HP_one _ _ _ (by simp [make]), fun c _ => by simp [make]⟩
  | build s xlen cap n hc =>
    obtain ⟨size, hs, hle⟩ : ∃ size, build (less cmp key) s xlen cap n = ⟨heapify (less cmp key) s size, size + 1, cap⟩ ∧ size ≤ xlen := by
      cases n with
      | none => exact ⟨xlen, rfl, Nat.le_refl _⟩
      | some n => exact ⟨min n xlen, rfl, by omega⟩
    rw [hs]
    refine ⟨by simp, by simpa using (heapify_heap W s size).1, fun c hcc => ?_⟩
    rcases hc with hc | hc
    · simp only [hc, Cap.fin.injEq] at hcc; simp only; omega
    · simp [hc] at hcc
  | push t x _ he ih => exact (push_inv W ih he).1
  | popMin f r _ he ih => exact (popMin_inv W ih he).1
  | popMax f r _ he ih => exact (popMax_inv W ih he).1
  | swapMin f r _ he ih => exact (swapMin_inv W ih he).1
  | swapMax f r _ he ih => exact (swapMax_inv W ih he).1
  | remove f p _ ih => exact (remove_inv W ih).1
  | clear f _ ih => exact ⟨Nat.le_refl _, HP_one _ _ _ (by simp [clear]), fun c _ => by simp [clear]⟩
  | copy _ ih => exact ⟨ih.1, ih.2.1, fun c hc => by simp [copy] at hc⟩

/-! ## C04 -/

theorem heap_make (s : Store α) (cap : Cap) : elems (make s cap) = [] := rfl

/-- `build-binary-heap` keeps the first `num-entries` (default: all) elements of the storage. -/
theorem heap_build [TransCmp cmp] (s : Store α) (xlen : Nat) (cap : Cap) (n : Option Nat) :
    (elems (build (less cmp key) s xlen cap n)).Perm ((List.range (min (n.getD xlen) xlen)).map fun i => s (i + 1)) := by
  have W : Weak (less cmp key) := weak_less
  cases n with
  | none => simpa [build, elems, contents] using (heapify_heap W s xlen).2
  | some n => simpa [build, elems, contents] using (heapify_heap W s (min n xlen)).2

/-- `binary-heap-num-entries`, `binary-heap-empty?`, and a heap never exceeds its capacity. -/
theorem heap_num [TransCmp cmp] {h : BH α} (hr : Reach cmp key h) :
    numEntries h = (elems h).length ∧ (isEmpty h = true ↔ elems h = []) ∧
    (∀ c, h.capacity = .fin c → (elems h).length ≤ c) := by
  obtain ⟨h1, _, h3⟩ := reach_inv hr
  refine ⟨by simp [numEntries, elems, contents_length], ?_, fun c hc => by simpa [elems, contents_length] using h3 c hc⟩
  rw [← List.length_eq_zero_iff, elems, contents_length]
  simp only [isEmpty, decide_eq_true_eq]; omega

/-- `binary-heap-push!` on a heap with its capacity slot bound: an error (with no effect) exactly when the heap
is full or the item fails the comparator's type test; otherwise the item is added to the bag. -/
theorem heap_push [TransCmp cmp] {h : BH α} (hr : Reach cmp key h) (hc : h.capacity ≠ .unbound)
    (typeOk : α → Bool) (x : α) :
    (push (less cmp key) typeOk h x = none ↔ h.capacity = .fin (elems h).length ∨ typeOk x = false) ∧
    ∀ h', push (less cmp key) typeOk h x = some h' → (elems h').Perm (x :: elems h) ∧ h'.capacity = h.capacity := by
  have W : Weak (less cmp key) := weak_less
  have hi := reach_inv hr
  refine ⟨?_, fun h' he => (push_inv W hi he).2⟩
  simp only [elems, contents_length]
  unfold push fullP
  cases hcap : h.capacity with
  | unbound => exact absurd hcap hc
  | inf =>
    simp only [Option.bind_some, Bool.false_eq_true, if_false]
    cases typeOk x <;> simp
  | fin c =>
    have := hi.2.2 c hcap
    simp only [Option.bind_some, Cap.fin.injEq, decide_eq_true_eq]
    by_cases c1 : c ≤ h.next - 1
    · rw [if_pos c1]; simp; left; omega
    · rw [if_neg c1]; cases typeOk x <;> simp; omega

/-- `binary-heap-find-min`: the fallback (or error) iff empty, else a least element. -/
theorem heap_findMin [TransCmp cmp] {h : BH α} (hr : Reach cmp key h) (fb : Option α) :
    (elems h = [] → findMin h fb = fb) ∧
    (elems h ≠ [] → ∃ r ∈ elems h, findMin h fb = some r ∧ ∀ y ∈ elems h, Le cmp key r y) := by
  have W : Weak (less cmp key) := weak_less
  obtain ⟨h1, h2, _⟩ := reach_inv hr
  have he := (heap_num hr).2.1
  simp only [isEmpty, decide_eq_true_eq] at he
  unfold findMin
  refine ⟨fun h0 => by rw [if_pos (he.2 h0)], fun h0 => ?_⟩
  have : ¬ h.next = 1 := fun c => h0 (he.1 c)
  rw [if_neg this]
  refine ⟨h.storage 1, mem_contents.2 ⟨1, by omega, by omega, rfl⟩, rfl, fun y hy => ?_⟩
  obtain ⟨i, a, b, rfl⟩ := mem_contents.1 hy
  rw [le_iff]; exact HP_min W h2 i a b

/-- `binary-heap-find-max`: the fallback (or error) iff empty, else a greatest element. -/
theorem heap_findMax [TransCmp cmp] {h : BH α} (hr : Reach cmp key h) (fb : Option α) :
    (elems h = [] → findMax (less cmp key) h fb = fb) ∧
    (elems h ≠ [] → ∃ r ∈ elems h, findMax (less cmp key) h fb = some r ∧ ∀ y ∈ elems h, Le cmp key y r) := by
  have W : Weak (less cmp key) := weak_less
  have hi := reach_inv hr
  obtain ⟨h1, h2, _⟩ := hi
  have he := (heap_num hr).2.1
  simp only [isEmpty, decide_eq_true_eq] at he
  unfold findMax
  refine ⟨fun h0 => by rw [if_pos (he.2 h0)], fun h0 => ?_⟩
  have : ¬ h.next = 1 := fun c => h0 (he.1 c)
  rw [if_neg this]
  by_cases c2 : h.next = 2
  · rw [if_pos c2]
    refine ⟨h.storage 1, mem_contents.2 ⟨1, by omega, by omega, rfl⟩, rfl, fun y hy => ?_⟩
    obtain ⟨i, a, b, rfl⟩ := mem_contents.1 hy
    rw [le_iff, show i = 1 by omega]; exact W.refl _
  rw [if_neg c2]
  by_cases c3 : h.next = 3
  · rw [if_pos c3]
    refine ⟨h.storage 2, mem_contents.2 ⟨2, by omega, by omega, rfl⟩, rfl, fun y hy => ?_⟩
    obtain ⟨i, a, b, rfl⟩ := mem_contents.1 hy
    rw [le_iff]
    have : i = 1 ∨ i = 2 := by omega
    rcases this with rfl | rfl
    · exact HP_min W h2 2 (by omega) (by omega)
    · exact W.refl _
  rw [if_neg c3]
  refine ⟨_, ?_, rfl, fun y hy => ?_⟩
  · split
    · exact mem_contents.2 ⟨2, by omega, by omega, rfl⟩
    · exact mem_contents.2 ⟨3, by omega, by omega, rfl⟩
  · rw [le_iff]; exact maxSpec W (reach_inv hr) (by omega) y hy

/-- `binary-heap-pop-min!`: error iff empty, else removes and returns a least element. -/
theorem heap_popMin [TransCmp cmp] {h : BH α} (hr : Reach cmp key h) (filler : α) :
    (elems h = [] → popMin (less cmp key) filler h = none) ∧
    (elems h ≠ [] → ∃ r h', popMin (less cmp key) filler h = some (r, h') ∧ (elems h).Perm (r :: elems h') ∧
      (∀ y ∈ elems h, Le cmp key r y) ∧ h'.capacity = h.capacity) := by
  have W : Weak (less cmp key) := weak_less
  have hi := reach_inv hr
  have he := (heap_num hr).2.1
  simp only [isEmpty, decide_eq_true_eq] at he
  refine ⟨fun h0 => by unfold popMin; simp [he.2 h0], fun h0 => ?_⟩
  have : ¬ h.next - 1 = 0 := fun c => h0 (he.1 (by have := hi.1; omega))
  have hs : ∃ r h', popMin (less cmp key) filler h = some (r, h') := by
    unfold popMin; simp only [this, if_false]; exact ⟨_, _, rfl⟩
  obtain ⟨r, h', hs⟩ := hs
  obtain ⟨_, a, b, c⟩ := popMin_inv W hi hs
  exact ⟨r, h', hs, a.symm, fun y hy => le_iff.2 (b y hy), c⟩

/-- `binary-heap-pop-max!`: error iff empty, else removes and returns a greatest element. -/
theorem heap_popMax [TransCmp cmp] {h : BH α} (hr : Reach cmp key h) (filler : α) :
    (elems h = [] → popMax (less cmp key) filler h = none) ∧
    (elems h ≠ [] → ∃ r h', popMax (less cmp key) filler h = some (r, h') ∧ (elems h).Perm (r :: elems h') ∧
      (∀ y ∈ elems h, Le cmp key y r) ∧ h'.capacity = h.capacity) := by
  have W : Weak (less cmp key) := weak_less
  have hi := reach_inv hr
  have he := (heap_num hr).2.1
  simp only [isEmpty, decide_eq_true_eq] at he
  refine ⟨fun h0 => by unfold popMax; simp [he.2 h0], fun h0 => ?_⟩
  have : ¬ h.next - 1 = 0 := fun c => h0 (he.1 (by have := hi.1; omega))
  have hs : ∃ r h', popMax (less cmp key) filler h = some (r, h') := by
    unfold popMax; simp only [this, if_false]
    split
    · exact ⟨_, _, rfl⟩
    · split <;> exact ⟨_, _, rfl⟩
  obtain ⟨r, h', hs⟩ := hs
  obtain ⟨_, a, b, c⟩ := popMax_inv W hi hs
  exact ⟨r, h', hs, a.symm, fun y hy => le_iff.2 (b y hy), c⟩

/-- `binary-heap-swap-min!`: error iff empty, else returns a least element `r` of the heap and replaces it by
the item. -/
theorem heap_swapMin [TransCmp cmp] {h : BH α} (hr : Reach cmp key h) (x : α) :
    (elems h = [] → swapMin (less cmp key) h x = none) ∧
    (elems h ≠ [] → ∃ r h', swapMin (less cmp key) h x = some (r, h') ∧ r ∈ elems h ∧
      (r :: elems h').Perm (x :: elems h) ∧ (∀ y ∈ elems h, Le cmp key r y) ∧ h'.capacity = h.capacity) := by
  have W : Weak (less cmp key) := weak_less
  have hi := reach_inv hr
  have he := (heap_num hr).2.1
  refine ⟨fun h0 => by unfold swapMin; simp [he.2 h0], fun h0 => ?_⟩
  have : isEmpty h = false := by cases hc : isEmpty h <;> simp_all
  have hs : ∃ r h', swapMin (less cmp key) h x = some (r, h') := by
    unfold swapMin; simp only [this, Bool.false_eq_true, if_false]; exact ⟨_, _, rfl⟩
  obtain ⟨r, h', hs⟩ := hs
  obtain ⟨_, a, b, c, d⟩ := swapMin_inv W hi hs
  exact ⟨r, h', hs, b, a, fun y hy => le_iff.2 (c y hy), d⟩

/-- `binary-heap-swap-max!`: likewise with a greatest element. -/
theorem heap_swapMax [TransCmp cmp] {h : BH α} (hr : Reach cmp key h) (x : α) :
    (elems h = [] → swapMax (less cmp key) h x = none) ∧
    (elems h ≠ [] → ∃ r h', swapMax (less cmp key) h x = some (r, h') ∧ r ∈ elems h ∧
      (r :: elems h').Perm (x :: elems h) ∧ (∀ y ∈ elems h, Le cmp key y r) ∧ h'.capacity = h.capacity) := by
  have W : Weak (less cmp key) := weak_less
  have hi := reach_inv hr
  have he := (heap_num hr).2.1
  simp only [isEmpty, decide_eq_true_eq] at he
  refine ⟨fun h0 => by unfold swapMax; simp [numEntries, he.2 h0], fun h0 => ?_⟩
  have : ¬ numEntries h = 0 := fun c => h0 (he.1 (by have := hi.1; unfold numEntries at c; omega))
  have hs : ∃ r h', swapMax (less cmp key) h x = some (r, h') := by
    unfold swapMax; simp only [this, if_false]
    split
    · exact ⟨_, _, rfl⟩
    split
    · exact ⟨_, _, rfl⟩
    split <;> exact ⟨_, _, rfl⟩
  obtain ⟨r, h', hs⟩ := hs
  obtain ⟨_, a, b, c, d⟩ := swapMax_inv W hi hs
  exact ⟨r, h', hs, b, a, fun y hy => le_iff.2 (c y hy), d⟩

/-- `binary-heap-remove!` removes exactly the elements satisfying `pred`. -/
theorem heap_remove [TransCmp cmp] {h : BH α} (hr : Reach cmp key h) (filler : α) (pred : α → Bool) :
    (elems (remove (less cmp key) filler pred h)).Perm ((elems h).filter fun x => !pred x) ∧
    (remove (less cmp key) filler pred h).capacity = h.capacity :=
  (remove_inv weak_less (reach_inv hr)).2

/-- `binary-heap-delete!` removes exactly the elements whose key equals the item's key. -/
theorem heap_delete [TransCmp cmp] {h : BH α} (hr : Reach cmp key h) (filler x : α) :
    (elems (delete cmp key filler h x)).Perm ((elems h).filter fun y => cmp (key x) (key y) ≠ .eq) := by
  have := (heap_remove hr filler (fun e => decide (cmp (key x) (key e) = .eq))).1
  simpa [delete] using this

theorem heap_clear (h : BH α) (fill : Store α) : elems (clear h fill) = [] ∧ (clear h fill).capacity = h.capacity :=
  ⟨rfl, rfl⟩

theorem findIndex_spec (pred : α → Bool) (s : Store α) (i n : Nat) :
    (∀ k, findIndex pred s i n = some k → i ≤ k ∧ k < i + n ∧ pred (s k) = true) ∧
    (findIndex pred s i n = none → ∀ k, i ≤ k → k < i + n → pred (s k) = false) := by
  induction n generalizing i with
  | zero => exact ⟨fun k h => by simp [findIndex] at h, fun _ k a b => by omega⟩
  | succ n ih =>
    unfold findIndex
    split
    · rename_i hp
      exact ⟨fun k h => by simp only [Option.some.injEq] at h; subst h; exact ⟨by omega, by omega, hp⟩, fun h => by cases h⟩
    · rename_i hp
      obtain ⟨a, b⟩ := ih (i + 1)
      refine ⟨fun k h => by obtain ⟨x, y, z⟩ := a k h; exact ⟨by omega, by omega, z⟩, fun h k x y => ?_⟩
      by_cases c : k = i
      · subst c; simpa using hp
      · exact b h k (by omega) (by omega)

/-- `binary-heap-find`: what it returns is an element satisfying `pred`; and when no element is `#f` it
finds one whenever there is one. -/
theorem heap_find {h : BH α} (isFalse pred : α → Bool) :
    (∀ x, find isFalse pred h = some x → x ∈ elems h ∧ pred x = true) ∧
    ((∀ x ∈ elems h, isFalse x = false) → find isFalse pred h = none → ∀ x ∈ elems h, pred x = false) := by
  obtain ⟨a, b⟩ := findIndex_spec pred h.storage 1 (numEntries h)
  unfold find
  cases hf : findIndex pred h.storage 1 (numEntries h) with
  | none =>
    refine ⟨fun x hx => by simp at hx, fun _ _ x hx => ?_⟩
    obtain ⟨i, p, q, rfl⟩ := mem_contents.1 hx
    exact b hf i p (by unfold numEntries; omega)
  | some k =>
    obtain ⟨x1, x2, x3⟩ := a k hf
    have hm : h.storage k ∈ elems h := mem_contents.2 ⟨k, x1, by unfold numEntries at x2; omega, rfl⟩
    refine ⟨fun x hx => ?_, fun hall hn => ?_⟩
    · simp only at hx
      split at hx
      · cases hx
      · simp only [Option.some.injEq] at hx; subst hx; exact ⟨hm, x3⟩
    · simp [hall _ hm] at hn

/-! ## C05 -/

/-- A copy has the same elements, and every operation other than push and the capacity accessor gives the same
result on it. -/
theorem heap_copy_partial (lt : α → α → Bool) (h : BH α) (filler x : α) (fb : Option α) (pred isF : α → Bool) :
    elems (copy h) = elems h ∧ numEntries (copy h) = numEntries h ∧
    findMin (copy h) fb = findMin h fb ∧ findMax lt (copy h) fb = findMax lt h fb ∧
    (popMin lt filler (copy h)) = (popMin lt filler h).map (fun p => (p.1, copy p.2)) ∧
    (popMax lt filler (copy h)) = (popMax lt filler h).map (fun p => (p.1, copy p.2)) ∧
    (swapMin lt (copy h) x) = (swapMin lt h x).map (fun p => (p.1, copy p.2)) ∧
    (swapMax lt (copy h) x) = (swapMax lt h x).map (fun p => (p.1, copy p.2)) ∧
    remove lt filler pred (copy h) = copy (remove lt filler pred h) ∧ find isF pred (copy h) = find isF pred h := by
  refine ⟨rfl, rfl, rfl, rfl, ?_, ?_, ?_, ?_, ?_, rfl⟩
  · unfold popMin copy; dsimp only; split <;> rfl
  · unfold popMax copy swapAndAdjust; dsimp only
    split
    · rfl
    split
    · rfl
    split <;> rfl
  · unfold swapMin copy isEmpty numEntries; dsimp only; split <;> rfl
  · unfold swapMax copy storeAndAdjust numEntries; dsimp only
    split
    · rfl
    split
    · rfl
    split
    · rfl
    split <;> rfl
  · unfold remove copy finishUp; dsimp only; split <;> rfl

/-- The claim C05 is false of the code: every push on a copied heap raises, and so does its capacity accessor. -/
theorem heap_copy_push_raises (lt : α → α → Bool) (typeOk : α → Bool) (h : BH α) (x : α) :
    push lt typeOk (copy h) x = none ∧ capacity (copy h) = none := ⟨rfl, rfl⟩

/-! ## C42: binary-heap-check -/

/-- The checker's strict relation between an ancestor and a descendant. -/
def Strict (lt : α → α → Bool) (s : Store α) (i j : Nat) : Prop :=
  if minNode i then lt (s i) (s j) = true else lt (s j) (s i) = true

theorem mem_takeWhile' {β : Type} {p : β → Bool} {l : List β} {x : β} (h : x ∈ l.takeWhile p) : p x = true ∧ x ∈ l := by
  induction l with
  | nil => simp at h
  | cons a l ih =>
    rw [List.takeWhile_cons] at h
    split at h
    · rcases List.mem_cons.1 h with rfl | h
      · simp_all
      · have := ih h; simp [this]
    · simp at h

theorem checkRec_iff (lt : α → α → Bool) (s : Store α) (next i : Nat) (hi : 1 ≤ i) :
    checkRec lt s next i = true ↔
      (∀ j, j < next → j / 2 = i ∨ j / 4 = i → Strict lt s i j) ∧
      (∀ j, j < next → j / 2 = i → checkRec lt s next j = true) := by
  have hk : ∀ (f : Nat → Bool), ([i * 2, i * 2 + 1].takeWhile (fun x => decide (x < next))).all f = true ↔ ∀ j, j < next → j / 2 = i → f j = true := by
    intro f
    constructor
    · intro h j hj hd
      have : j = i * 2 ∨ j = i * 2 + 1 := by omega
      by_cases c0 : i * 2 < next <;> by_cases c1 : i * 2 + 1 < next <;> simp [List.takeWhile, c0, c1] at h <;>
        rcases this with rfl | rfl <;> first | omega | simp_all
    · intro h
      rw [List.all_eq_true]
      intro x hx
      obtain ⟨hx1, hx2⟩ := mem_takeWhile' hx
      simp at hx1 hx2
      exact h x hx1 (by omega)
  have hg : ∀ (f : Nat → Bool), ([i * 4, i * 4 + 1, i * 4 + 2, i * 4 + 3].takeWhile (fun x => decide (x < next))).all f = true ↔
      ∀ j, j < next → j / 4 = i → f j = true := by
    intro f
    constructor
    · intro h j hj hd
      have : j = i * 4 ∨ j = i * 4 + 1 ∨ j = i * 4 + 2 ∨ j = i * 4 + 3 := by omega
      have c0 : i * 4 < next := by omega
      by_cases c1 : i * 4 + 1 < next <;> by_cases c2 : i * 4 + 2 < next <;> by_cases c3 : i * 4 + 3 < next <;>
        simp [List.takeWhile, c0, c1, c2, c3] at h <;>
        rcases this with rfl | rfl | rfl | rfl <;> first | omega | simp_all
    · intro h
      rw [List.all_eq_true]
      intro x hx
      obtain ⟨hx1, hx2⟩ := mem_takeWhile' hx
      simp at hx1 hx2
      exact h x hx1 (by omega)
  have hst : ∀ j, ((if minNode i then lt else fun a b => lt b a) (s i) (s j) = true ↔ Strict lt s i j) := by
    intro j; unfold Strict; cases minNode i <;> simp
  rw [checkRec]
  simp only [Bool.and_eq_true, hk, hg, hst, show ¬ i = 0 by omega, if_false]
  constructor
  · rintro ⟨⟨h1, h2⟩, h3, h4⟩
    refine ⟨fun j hj hd => hd.elim (h1 j hj) (h2 j hj), fun j hj hd => ?_⟩
    have : j = i * 2 ∨ j = i * 2 + 1 := by omega
    rcases this with rfl | rfl
    · simpa [hj] using h3
    · simpa [hj] using h4
  · rintro ⟨h1, h2⟩
    refine ⟨⟨fun j hj hd => h1 j hj (.inl hd), fun j hj hd => h1 j hj (.inr hd)⟩, ?_, ?_⟩
    · split
      · rename_i hl; exact h2 _ hl (by omega)
      · rfl
    · split
      · rename_i hl; exact h2 _ hl (by omega)
      · rfl

/-- What `binary-heap-check` accepts: every node is *strictly* below (min levels) or above (max levels) its
children and grandchildren. -/
theorem heap_check_iff (lt : α → α → Bool) (h : BH α) :
    check lt h = true ↔ 1 ≤ h.next ∧
      ∀ j, 2 ≤ j → j < h.next → Strict lt h.storage (j / 2) j ∧ (4 ≤ j → Strict lt h.storage (j / 4) j) := by
  unfold check
  simp only [Bool.and_eq_true, decide_eq_true_eq, and_congr_right_iff]
  intro _
  constructor
  · intro h1
    have all : ∀ j, 1 ≤ j → (j = 1 ∨ j < h.next) → checkRec lt h.storage h.next j = true := by
      intro j
      induction j using Nat.strongRecOn with
      | _ j ih =>
        intro hj hl
        by_cases c : j = 1
        · subst c; exact h1
        · have := ih (j / 2) (by omega) (by omega) (by omega)
          exact ((checkRec_iff lt _ _ _ (by omega)).1 this).2 j (by omega) rfl
    intro j h2 hl
    refine ⟨((checkRec_iff lt _ _ _ (by omega)).1 (all (j / 2) (by omega) (by omega))).1 j hl (.inl rfl), fun h4 => ?_⟩
    exact ((checkRec_iff lt _ _ _ (by omega)).1 (all (j / 4) (by omega) (by omega))).1 j hl (.inr rfl)
  · intro hall
    have : ∀ d i, 1 ≤ i → h.next - i ≤ d → checkRec lt h.storage h.next i = true := by
      intro d
      induction d with
      | zero =>
        intro i hi hd
        rw [checkRec_iff lt _ _ _ hi]
        exact ⟨fun j hj h => by omega, fun j hj h => by omega⟩
      | succ d ih =>
        intro i hi hd
        rw [checkRec_iff lt _ _ _ hi]
        refine ⟨fun j hj hd => ?_, fun j hj hd => ih j (by omega) (by omega)⟩
        rcases hd with hd | hd
        · rw [← hd]; exact (hall j (by omega) hj).1
        · rw [← hd]; exact (hall j (by omega) hj).2 (by omega)
    exact this _ 1 (Nat.le_refl 1) (Nat.le_refl _)

/-- `binary-heap-check` accepts every reachable heap whose elements have pairwise different keys. -/
theorem heap_check_partial [TransCmp cmp] {h : BH α} (hr : Reach cmp key h)
    (hd : (elems h).Pairwise fun a b => cmp (key a) (key b) ≠ .eq) : check (less cmp key) h = true := by
  obtain ⟨h1, h2, _⟩ := reach_inv hr
  rw [heap_check_iff]
  refine ⟨h1, ?_⟩
  have hne : ∀ i j, 1 ≤ i → i < j → j ≤ h.next - 1 → cmp (key (h.storage i)) (key (h.storage j)) ≠ .eq := by
    intro i j hi hij hj
    have := List.pairwise_iff_getElem.1 hd (i - 1) (j - 1) (by simp [elems, contents_length]; omega)
      (by simp [elems, contents_length]; omega) (by omega)
    simpa [elems, contents, show i - 1 + 1 = i by omega, show j - 1 + 1 = j by omega] using this
  have st : ∀ i j, 1 ≤ i → i < j → j ≤ h.next - 1 → R (less cmp key) minNode h.storage i j →
      Strict (less cmp key) h.storage i j := by
    intro i j hi hij hj hR
    have hn := hne i j hi hij hj
    have hsw := OrientedCmp.eq_swap (cmp := cmp) (a := key (h.storage i)) (b := key (h.storage j))
    unfold R Strict less at *
    cases hmm : minNode i <;> cases h1 : cmp (key (h.storage i)) (key (h.storage j)) <;>
      cases h2 : cmp (key (h.storage j)) (key (h.storage i)) <;> simp_all [Ordering.swap]
  intro j h2j hj
  refine ⟨st _ _ (by omega) (by omega) (by omega) ((h2 j (by omega)).1 h2j), fun h4 => ?_⟩
  exact st _ _ (by omega) (by omega) (by omega) ((h2 j (by omega)).2 h4)

/-! ### Non-vacuity and witnesses -/

/-- A concrete heap: 5, 3, 8, 1 pushed in turn. -/
def ex : Option (BH Nat) :=
  (push (less compare id) (fun _ => true) (make (fun _ => 0) (.fin 4)) 5).bind fun h =>
  (push (less compare id) (fun _ => true) h 3).bind fun h =>
  (push (less compare id) (fun _ => true) h 8).bind fun h =>
  push (less compare id) (fun _ => true) h 1

example : ∃ h : BH Nat, ex = some h ∧ Reach (compare : Nat → Nat → Ordering) id h ∧ elems h = [1, 5, 8, 3] ∧
    findMin h none = some 1 ∧ findMax (less compare id) h none = some 8 ∧
    push (less compare id) (fun _ => true) h 7 = none := by
  refine ⟨_, rfl, ?_, by decide +kernel, by decide +kernel, by decide +kernel, rfl⟩
  exact .push (fun _ => true) 1 (.push (fun _ => true) 8 (.push (fun _ => true) 3
    (.push (fun _ => true) 5 (.make (fun _ => 0) (.fin 4) (by decide)) rfl) rfl) rfl) rfl

/-- The claim C42 is false of the code: a heap holding two equal elements is rejected by `binary-heap-check`. -/
theorem heap_check_rejects_valid : ∃ h : BH Nat, Reach (compare : Nat → Nat → Ordering) id h ∧ elems h = [1, 1] ∧
    check (less compare id) h = false := by
  refine ⟨_, .push (fun _ => true) 1 (.push (fun _ => true) 1 (.make (fun _ => 0) .inf (by decide)) rfl) rfl, ?_, ?_⟩
  · decide +kernel
  · decide +kernel

/-- `binary-heap-find` misses a `#f` element (elements: `none` stands for `#f`). -/
example : find (fun x : Option Nat => x.isNone) (fun x => x.isNone)
    ⟨fun _ => none, 2, .inf⟩ = none ∧ (none : Option Nat) ∈ elems (⟨fun _ => none, 2, .inf⟩ : BH (Option Nat)) := by
  constructor
  · rfl
  · decide

end Gauche.Heap
