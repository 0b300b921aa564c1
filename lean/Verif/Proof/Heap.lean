import Verif.Model.Heap

namespace Gauche.Heap
variable {α κ : Type}

/-- `lt` is a strict weak order (as a Bool function). -/
structure Weak (lt : α → α → Bool) : Prop where
  asymm : ∀ a b, lt a b = true → lt b a = false
  trans : ∀ a b c, lt b a = false → lt c b = false → lt c a = false

theorem Weak.flip {lt : α → α → Bool} (h : Weak lt) : Weak fun a b => lt b a :=
  ⟨fun a b hab => h.asymm b a hab, fun a b c h1 h2 => h.trans c b a h2 h1⟩

theorem Weak.refl {lt : α → α → Bool} (h : Weak lt) (a : α) : lt a a = false := by
  cases hc : lt a a with
  | false => rfl
  | true => rw [← hc]; exact h.asymm a a hc

/-- Relation required between an ancestor `i` and a descendant `j`. -/
def R (lt : α → α → Bool) (m : Nat → Bool) (s : Store α) (i j : Nat) : Prop :=
  if m i then lt (s j) (s i) = false else lt (s i) (s j) = false

/-- `m` alternates along the levels. -/
def Alt (m : Nat → Bool) : Prop := ∀ j, 2 ≤ j → m (j / 2) = !m j

theorem Alt.quarter {m : Nat → Bool} (h : Alt m) {j : Nat} (hj : 4 ≤ j) : m (j / 4) = m j := by
  have h1 := h j (by omega)
  have h2 := h (j / 2) (by omega)
  rw [Nat.div_div_eq_div_mul] at h2
  simp_all

theorem Alt.flip {m : Nat → Bool} (h : Alt m) : Alt fun i => !m i := by
  intro j hj; simp [h j hj]

theorem minNode_alt : Alt minNode := by
  intro j hj
  have : Nat.log2 j = Nat.log2 (j / 2) + 1 := by rw [Nat.log2_def]; simp [hj]
  simp only [minNode, this, ← decide_not, decide_eq_decide]; omega

/-- Local heap order for the entries `1 .. n`. -/
def HP (lt : α → α → Bool) (m : Nat → Bool) (n : Nat) (s : Store α) : Prop :=
  ∀ j, j ≤ n → (2 ≤ j → R lt m s (j / 2) j) ∧ (4 ≤ j → R lt m s (j / 4) j)

theorem R_flip {lt : α → α → Bool} {m : Nat → Bool} {s : Store α} {i j : Nat} :
    R (fun a b => lt b a) (fun i => !m i) s i j ↔ R lt m s i j := by
  unfold R; cases h : m i <;> simp [h]

theorem HP_flip {lt : α → α → Bool} {m : Nat → Bool} {n : Nat} {s : Store α} :
    HP (fun a b => lt b a) (fun i => !m i) n s ↔ HP lt m n s := by
  unfold HP; simp only [R_flip]

theorem swap_left (s : Store α) (i j : Nat) : (s.swap i j) i = s j := by
  simp only [Store.swap, Store.set]; split <;> simp_all
theorem swap_right (s : Store α) (i j : Nat) : (s.swap i j) j = s i := by
  simp [Store.swap, Store.set]
theorem swap_other (s : Store α) {i j k : Nat} (h1 : k ≠ i) (h2 : k ≠ j) : (s.swap i j) k = s k := by
  simp [Store.swap, Store.set, h1, h2]
theorem set_same (s : Store α) (i : Nat) (v : α) : (s.set i v) i = v := by simp [Store.set]
theorem set_other (s : Store α) {i k : Nat} (v : α) (h : k ≠ i) : (s.set i v) k = s k := by simp [Store.set, h]

/-! ### contents -/

/-- The live elements in storage order. -/
def contents (s : Store α) (n : Nat) : List α := (List.range n).map fun i => s (i + 1)

theorem contents_succ (s : Store α) (n : Nat) : contents s (n + 1) = contents s n ++ [s (n + 1)] := by
  simp [contents, List.range_succ]

theorem contents_length (s : Store α) (n : Nat) : (contents s n).length = n := by simp [contents]

theorem mem_contents {s : Store α} {n : Nat} {x : α} : x ∈ contents s n ↔ ∃ i, 1 ≤ i ∧ i ≤ n ∧ s i = x := by
  simp only [contents, List.mem_map, List.mem_range]
  constructor
  · rintro ⟨i, h, rfl⟩; exact ⟨i + 1, by omega, by omega, rfl⟩
  · rintro ⟨i, h1, h2, rfl⟩; exact ⟨i - 1, by omega, by congr 1; omega⟩

theorem contents_congr {s t : Store α} {n : Nat} (h : ∀ i, 1 ≤ i → i ≤ n → s i = t i) :
    contents s n = contents t n := by
  simp only [contents, List.map_inj_left, List.mem_range]
  intro i hi; exact h _ (by omega) (by omega)

theorem contents_swap (s : Store α) {n i j : Nat} (hi : 1 ≤ i) (hi' : i ≤ n) (hj : 1 ≤ j) (hj' : j ≤ n) :
    (contents (s.swap i j) n).Perm (contents s n) := by
  let σ : Nat → Nat := fun k => if k + 1 = j then i - 1 else if k + 1 = i then j - 1 else k
  have h1 : contents (s.swap i j) n = ((List.range n).map σ).map fun k => s (k + 1) := by
    simp only [contents, List.map_map, List.map_inj_left, List.mem_range, Function.comp]
    intro k hk
    simp only [Store.swap, Store.set, σ]
    split
    · congr 1; omega
    · split
      · congr 1; omega
      · rfl
  rw [h1]
  refine List.Perm.map _ ?_
  rw [List.perm_ext_iff_of_nodup]
  · intro a
    simp only [List.mem_map, List.mem_range, σ]
    constructor
    · rintro ⟨k, hk, rfl⟩; split <;> (try split) <;> omega
    · intro ha
      refine ⟨if a + 1 = j then i - 1 else if a + 1 = i then j - 1 else a, ?_, ?_⟩
      · split <;> (try split) <;> omega
      · grind
  · unfold List.Nodup
    rw [List.pairwise_map]
    refine List.Pairwise.imp ?_ (List.nodup_range (n := n))
    intro x y hne hxy; simp only [σ] at hxy; grind
  · exact List.nodup_range

/-! ### bubble-up -/

/-- All relations hold except possibly the one of `i` with its grandparent; the grandparent is on the right
side of the children and grandchildren of `i`. -/
def BU (lt : α → α → Bool) (m : Nat → Bool) (n : Nat) (s : Store α) (i : Nat) : Prop :=
  (∀ j, j ≤ n → (2 ≤ j → R lt m s (j / 2) j) ∧ (4 ≤ j → j ≠ i → R lt m s (j / 4) j)) ∧
  (4 ≤ i → ∀ j, j ≤ n → (j / 2 = i ∨ j / 4 = i) → lt (s j) (s (i / 4)) = false)

theorem bubbleUpRec_heap {lt : α → α → Bool} (W : Weak lt) {m : Nat → Bool} (A : Alt m) {n : Nat}
    {s : Store α} {i : Nat} (hi : i ≤ n) (h1 : 1 ≤ i) (hm : m i = true) (h : BU lt m n s i) :
    HP lt m n (bubbleUpRec lt s i) ∧ (contents (bubbleUpRec lt s i) n).Perm (contents s n) := by
  induction i using Nat.strongRecOn generalizing s with
  | _ i ih =>
  unfold bubbleUpRec
  split
  · rename_i h3
    simp only
    have hg : m (i / 4) = true := by rw [A.quarter (by omega)]; exact hm
    split
    · rename_i hlt
      refine ⟨fun j hj => ⟨(h.1 j hj).1, fun h4 => ?_⟩, .refl _⟩
      by_cases hji : j = i
      · subst hji; unfold R; rw [hg]; simpa using W.asymm _ _ hlt
      · exact (h.1 j hj).2 h4 hji
    · rename_i hlt
      have hlt : lt (s (i / 4)) (s i) = false := by simpa using hlt
      have hp : m (i / 2) = false := by rw [A _ (by omega)]; simp [hm]
      have key : BU lt m n (s.swap (i / 4) i) (i / 4) := by
        obtain ⟨g, hgd⟩ : ∃ g, g = i / 4 := ⟨_, rfl⟩
        rw [← hgd] at hg hlt ⊢
        have e1 := swap_left s g i
        have e2 := swap_right s g i
        have e3 : ∀ k, k ≠ g → k ≠ i → s.swap g i k = s k := fun k a b => swap_other s a b
        have hgi : g ≠ i := by omega
        refine ⟨fun j hj => ⟨fun h2 => ?_, fun h4 hjg => ?_⟩, fun h4 j hj hd => ?_⟩
        · have old := (h.1 j hj).1 h2
          unfold R at old ⊢
          by_cases c1 : j = i
          · subst c1
            have := (h.1 (j / 2) (by omega)).1 (by omega)
            rw [Nat.div_div_eq_div_mul] at this
            unfold R at this
            rw [e2, e3 (j / 2) (by omega) (by omega), hp]
            rw [← hgd, hg] at this; simpa using this
          by_cases c2 : j = g
          · subst c2
            have hm2 : m (j / 2) = false := by rw [A _ h2]; simp [hg]
            rw [hm2] at old ⊢
            rw [e1, e3 (j / 2) (by omega) (by omega)]
            simp only [Bool.false_eq_true, if_false] at old ⊢
            exact W.trans _ _ _ hlt old
          by_cases c3 : j / 2 = i
          · rw [c3, hm, e2, e3 j c2 c1]
            simpa [hgd] using h.2 (by omega) j hj (.inl c3)
          by_cases c4 : j / 2 = g
          · rw [c4, hg] at old ⊢; rw [e1, e3 j c2 c1]
            simp only [if_true] at old ⊢
            exact W.trans _ _ _ hlt old
          · rw [e3 j c2 c1, e3 _ c4 c3]; exact old
        · by_cases c1 : j = i
          · subst c1; rw [← hgd]; unfold R; rw [hg, e1, e2]; simpa using hlt
          have old := (h.1 j hj).2 h4 c1
          unfold R at old ⊢
          by_cases c3 : j / 4 = i
          · rw [c3, hm, e2, e3 j hjg c1]
            simpa [hgd] using h.2 (by omega) j hj (.inr c3)
          by_cases c4 : j / 4 = g
          · rw [c4, hg] at old ⊢; rw [e1, e3 j hjg c1]
            simp only [if_true] at old ⊢
            exact W.trans _ _ _ hlt old
          · rw [e3 j hjg c1, e3 _ c4 c3]; exact old
        · have hgg := (h.1 g (by omega)).2 h4 hgi
          have hg4 : m (g / 4) = true := by rw [A.quarter h4]; exact hg
          unfold R at hgg
          rw [hg4] at hgg; simp only [if_true] at hgg
          rw [e3 (g / 4) (by omega) (by omega)]
          by_cases c1 : j = i
          · rw [c1, e2]; exact hgg
          · rw [e3 j (by omega) c1]
            refine W.trans _ _ _ hgg ?_
            rcases hd with hd | hd
            · have := (h.1 j hj).1 (by omega)
              unfold R at this; rw [hd, hg] at this; simpa using this
            · have := (h.1 j hj).2 (by omega) c1
              unfold R at this; rw [hd, hg] at this; simpa using this
      obtain ⟨r1, r2⟩ := ih (i / 4) (by omega) (by omega) (by omega) hg key
      exact ⟨r1, r2.trans (contents_swap s (by omega) (by omega) (by omega) (by omega))⟩
  · refine ⟨fun j hj => ⟨(h.1 j hj).1, fun h4 => (h.1 j hj).2 h4 (by omega)⟩, .refl _⟩

/-- Same statement for `><` = `>:` (dual). -/
theorem bubbleUpRec_heap' {lt : α → α → Bool} (W : Weak lt) {m : Nat → Bool} (A : Alt m) {n : Nat}
    {s : Store α} {i : Nat} (hi : i ≤ n) (h1 : 1 ≤ i) (hm : m i = false)
    (h : BU (fun a b => lt b a) (fun i => !m i) n s i) :
    HP lt m n (bubbleUpRec (fun a b => lt b a) s i) ∧
      (contents (bubbleUpRec (fun a b => lt b a) s i) n).Perm (contents s n) := by
  have := bubbleUpRec_heap W.flip A.flip hi h1 (by simp [hm]) h
  rwa [HP_flip] at this

/-- One direction of bh-bubble-up: parent on a `true` level. -/
theorem bubbleUp_half {lt : α → α → Bool} (W : Weak lt) {m : Nat → Bool} (A : Alt m) {n : Nat}
    {s : Store α} (hn : 2 ≤ n) (h : HP lt m (n - 1) s) (hp : m (n / 2) = true) :
    (lt (s (n / 2)) (s n) = true → BU (fun a b => lt b a) (fun i => !m i) n s n) ∧
    (lt (s (n / 2)) (s n) = false → BU lt m n (s.swap (n / 2) n) (n / 2)) := by
  have hmn : m n = false := by have := A n hn; simp_all
  constructor
  · intro hlt
    refine ⟨fun j hj => ⟨fun h2 => ?_, fun h4 hjn => ?_⟩, fun h4 j hj hd => by omega⟩
    · rw [R_flip]
      by_cases c : j = n
      · subst c; unfold R; rw [hp]; simpa using W.asymm _ _ hlt
      · exact (h j (by omega)).1 h2
    · rw [R_flip]; exact (h j (by omega)).2 h4
  · intro hlt
    obtain ⟨p, hpd⟩ : ∃ p, p = n / 2 := ⟨_, rfl⟩
    rw [← hpd] at hp hlt ⊢
    have e1 := swap_left s p n
    have e2 := swap_right s p n
    have e3 : ∀ k, k ≠ p → k ≠ n → s.swap p n k = s k := fun k a b => swap_other s a b
    refine ⟨fun j hj => ⟨fun h2 => ?_, fun h4 hjp => ?_⟩, fun h4 j hj hd => ?_⟩
    · unfold R
      by_cases c1 : j = n
      · subst c1; rw [← hpd, hp, e1, e2]; simpa using hlt
      have old := (h j (by omega)).1 h2
      unfold R at old
      by_cases c2 : j = p
      · subst c2
        have hm2 : m (j / 2) = false := by rw [A _ h2]; simp [hp]
        rw [hm2] at old ⊢
        rw [e1, e3 (j / 2) (by omega) (by omega)]
        simp only [Bool.false_eq_true, if_false] at old ⊢
        exact W.trans _ _ _ hlt old
      by_cases c3 : j / 2 = p
      · rw [c3, hp] at old ⊢; rw [e1, e3 j c2 c1]
        simp only [if_true] at old ⊢
        exact W.trans _ _ _ hlt old
      · rw [e3 j c2 c1, e3 _ c3 (by omega)]; exact old
    · unfold R
      by_cases c1 : j = n
      · subst c1
        have hm2 : m (j / 4) = false := by rw [A.quarter h4]; exact hmn
        have old := (h p (by omega)).1 (by omega)
        have e : p / 2 = j / 4 := by omega
        unfold R at old
        rw [e, hm2] at old
        rw [hm2, e2, e3 (j / 4) (by omega) (by omega)]
        simpa using old
      · have old := (h j (by omega)).2 h4
        unfold R at old
        rw [e3 j hjp c1, e3 _ (by omega) (by omega)]; exact old
    · have hpg := (h p (by omega)).2 h4
      have hg4 : m (p / 4) = true := by rw [A.quarter h4]; exact hp
      unfold R at hpg
      rw [hg4] at hpg; simp only [if_true] at hpg
      rw [e3 (p / 4) (by omega) (by omega)]
      by_cases c1 : j = n
      · rw [c1, e2]; exact hpg
      · rw [e3 j (by omega) c1]
        refine W.trans _ _ _ hpg ?_
        have := (h j (by omega)).1 (by omega)
        rcases hd with hd | hd
        · unfold R at this; rw [hd, hp] at this; simpa using this
        · omega

theorem bubbleUp_heap {lt : α → α → Bool} (W : Weak lt) {n : Nat}
    {s : Store α} (hn : 2 ≤ n) (h : HP lt minNode (n - 1) s) :
    HP lt minNode n (bubbleUp lt s n) ∧ (contents (bubbleUp lt s n) n).Perm (contents s n) := by
  have A := minNode_alt
  unfold bubbleUp
  simp only
  have hA := A n hn
  cases hp : minNode (n / 2) with
  | true =>
    have hmn : minNode n = false := by simp_all
    obtain ⟨b1, b2⟩ := bubbleUp_half W A hn h hp
    simp only [if_true]
    split
    · rename_i hlt
      exact bubbleUpRec_heap' W A (Nat.le_refl n) (by omega) hmn (b1 hlt)
    · rename_i hlt
      obtain ⟨r1, r2⟩ := bubbleUpRec_heap W A (n := n) (i := n / 2) (by omega) (by omega) hp (b2 (by simpa using hlt))
      exact ⟨r1, r2.trans (contents_swap s (by omega) (by omega) (by omega) (by omega))⟩
  | false =>
    have hmn : minNode n = true := by simp_all
    obtain ⟨b1, b2⟩ := bubbleUp_half W.flip A.flip hn (HP_flip.2 h) (by simp [hp])
    simp only [Bool.false_eq_true, if_false]
    split
    · rename_i hlt
      have := b1 hlt
      simp only [Bool.not_not] at this
      exact bubbleUpRec_heap W A (Nat.le_refl n) (by omega) hmn this
    · rename_i hlt
      obtain ⟨r1, r2⟩ := bubbleUpRec_heap' W A (n := n) (i := n / 2) (by omega) (by omega) hp (b2 (by simpa using hlt))
      exact ⟨r1, r2.trans (contents_swap s (by omega) (by omega) (by omega) (by omega))⟩

theorem bubbleUpRec_perm (lt : α → α → Bool) {n : Nat} (s : Store α) {i : Nat} (hi : i ≤ n) :
    (contents (bubbleUpRec lt s i) n).Perm (contents s n) := by
  induction i using Nat.strongRecOn generalizing s with
  | _ i ih =>
  unfold bubbleUpRec
  split
  · simp only
    split
    · exact .refl _
    · exact (ih (i / 4) (by omega) _ (by omega)).trans (contents_swap s (by omega) (by omega) (by omega) (by omega))
  · exact .refl _

theorem bubbleUp_perm (lt : α → α → Bool) {n : Nat} (s : Store α) {i : Nat} (h2 : 2 ≤ i) (hi : i ≤ n) :
    (contents (bubbleUp lt s i) n).Perm (contents s n) := by
  have sw := contents_swap s (n := n) (i := i / 2) (j := i) (by omega) (by omega) (by omega) (by omega)
  unfold bubbleUp
  simp only
  split <;> split
  · exact bubbleUpRec_perm _ s hi
  · exact (bubbleUpRec_perm _ _ (by omega)).trans sw
  · exact bubbleUpRec_perm _ s hi
  · exact (bubbleUpRec_perm _ _ (by omega)).trans sw

theorem heapifyFrom_heap {lt : α → α → Bool} (W : Weak lt) (k : Nat) {s : Store α} {i : Nat} (hi : 2 ≤ i)
    (h : HP lt minNode (i - 1) s) :
    HP lt minNode (i + k - 1) (heapifyFrom lt s i k) ∧
      ∀ n, i + k - 1 ≤ n → (contents (heapifyFrom lt s i k) n).Perm (contents s n) := by
  induction k generalizing s i with
  | zero => exact ⟨h, fun n _ => .refl _⟩
  | succ k ih =>
    obtain ⟨r1, r2⟩ := ih (s := bubbleUp lt s i) (i := i + 1) (by omega) (bubbleUp_heap W hi h).1
    unfold heapifyFrom
    rw [show i + 1 + k - 1 = i + (k + 1) - 1 by omega] at r1 r2
    exact ⟨r1, fun n hn => (r2 n hn).trans (bubbleUp_perm lt s hi (by omega))⟩

theorem HP_one (lt : α → α → Bool) (m : Nat → Bool) (s : Store α) {n : Nat} (h : n ≤ 1) : HP lt m n s :=
  fun j hj => ⟨fun h2 => by omega, fun h4 => by omega⟩

theorem heapify_heap {lt : α → α → Bool} (W : Weak lt) (s : Store α) (n : Nat) :
    HP lt minNode n (heapify lt s n) ∧ (contents (heapify lt s n) n).Perm (contents s n) := by
  unfold heapify
  by_cases hn : n ≤ 1
  · rw [show n - 1 = 0 by omega]; exact ⟨HP_one _ _ _ hn, .refl _⟩
  · obtain ⟨r1, r2⟩ := heapifyFrom_heap W (n - 1) (s := s) (i := 2) (by omega) (HP_one _ _ _ (by omega))
    rw [show 2 + (n - 1) - 1 = n by omega] at r1 r2
    exact ⟨r1, r2 n (Nat.le_refl n)⟩

/-! ### trickle-down -/

theorem findExtremeLoop_spec {lt : α → α → Bool} (W : Weak lt) (s : Store α) (size index : Nat) (h0 : 0 < index) (mi k : Nat)
    (hk : k ≤ 6) (hin : ∀ n, n < 6 - k → descendant n index < size)
    (hmin : ∀ n, n < 6 - k → lt (s (descendant n index)) (s mi) = false) (hself : lt (s index) (s mi) = false) :
    let r := findExtremeLoop lt s size index (s mi) mi k
    (∀ n, n < 6 → descendant n index < size → lt (s (descendant n index)) (s r) = false) ∧
    lt (s index) (s r) = false := by
  induction k generalizing mi with
  | zero => exact ⟨fun n hn _ => hmin n (by omega), hself⟩
  | succ k ih =>
    unfold findExtremeLoop
    simp only
    have e : ∀ n, n < 6 - k → n ≠ 6 - (k + 1) → n < 6 - (k + 1) := by intro n; omega
    split
    · rename_i hlt
      split
      · rename_i hl
        have hl' := W.asymm _ _ hl
        refine ih _ (by omega) (fun n hn => ?_) (fun n hn => ?_) (W.trans _ _ _ hl' hself)
        · by_cases c : n = 6 - (k + 1)
          · subst c; exact hlt
          · exact hin n (e n hn c)
        · by_cases c : n = 6 - (k + 1)
          · subst c; exact W.refl _
          · exact W.trans _ _ _ hl' (hmin n (e n hn c))
      · rename_i hl
        refine ih _ (by omega) (fun n hn => ?_) (fun n hn => ?_) hself
        · by_cases c : n = 6 - (k + 1)
          · subst c; exact hlt
          · exact hin n (e n hn c)
        · by_cases c : n = 6 - (k + 1)
          · subst c; simpa using hl
          · exact hmin n (e n hn c)
    · rename_i hlt
      refine ⟨fun n hn hs => ?_, hself⟩
      by_cases c : n < 6 - (k + 1)
      · exact hmin n c
      · exfalso; apply hlt
        simp only [descendant] at hs ⊢
        grind

theorem findExtreme_spec {lt : α → α → Bool} (W : Weak lt) (s : Store α) (size index : Nat) (h0 : 0 < index)
    (hs : index < size) :
    let r := findExtreme lt s size index
    (∀ j, j < size → (j / 2 = index ∨ j / 4 = index) → lt (s j) (s r) = false) ∧
    lt (s index) (s r) = false ∧ r < size ∧ (r = index ∨ r / 2 = index ∨ r / 4 = index) := by
  obtain ⟨h1, h2⟩ := findExtremeLoop_spec W s size index h0 index 6 (by omega) (by omega) (by omega) (W.refl _)
  have h3 := findExtremeLoop_bound lt s size index (s index) index 6
    (fun r => r < size ∧ (r = index ∨ r / 2 = index ∨ r / 4 = index)) ⟨hs, .inl rfl⟩
    (fun n hn h => ⟨h, by simp only [descendant]; split <;> omega⟩) (by omega)
  refine ⟨fun j hj hd => ?_, h2, h3⟩
  rcases hd with hd | hd
  · have := h1 (j - 2 * index) (by omega)
    simp only [descendant] at this
    rw [if_pos (by omega)] at this
    rw [show index * 2 + (j - 2 * index) = j by omega] at this
    exact this hj
  · have := h1 (j - 4 * index + 2) (by omega)
    simp only [descendant] at this
    rw [if_neg (by omega)] at this
    rw [show index * 4 + (j - 4 * index + 2 - 2) = j by omega] at this
    exact this hj

/-- All relations hold except possibly those of `i` with its children and grandchildren; the grandparent
of `i` is on the right side of them. -/
def TD (lt : α → α → Bool) (m : Nat → Bool) (n : Nat) (s : Store α) (i : Nat) : Prop :=
  (∀ j, j ≤ n → (2 ≤ j → j / 2 ≠ i → R lt m s (j / 2) j) ∧ (4 ≤ j → j / 4 ≠ i → R lt m s (j / 4) j)) ∧
  (4 ≤ i → ∀ j, j ≤ n → (j / 2 = i ∨ j / 4 = i) → lt (s j) (s (i / 4)) = false)

theorem trickle_child {lt : α → α → Bool} (W : Weak lt) {m : Nat → Bool} (A : Alt m) {n : Nat}
    {s : Store α} {i k : Nat} (h1 : 1 ≤ i) (hm : m i = true) (h : TD lt m n s i)
    (hk : k ≤ n) (hki : k / 2 = i) (hmin : ∀ j, j ≤ n → (j / 2 = i ∨ j / 4 = i) → lt (s j) (s k) = false)
    (hself : lt (s i) (s k) = false) : HP lt m n (s.swap k i) := by
  have e1 := swap_left s k i
  have e2 := swap_right s k i
  have e3 : ∀ j, j ≠ k → j ≠ i → s.swap k i j = s j := fun k a b => swap_other s a b
  have hmk : m k = false := by have := A k (by omega); simp_all
  intro j hj
  constructor
  · intro h2
    unfold R
    by_cases c1 : j = k
    · rw [c1, hki, hm, e1, e2]; simpa using hself
    by_cases c2 : j / 2 = i
    · rw [c2, hm, e2, e3 j c1 (by omega)]; simpa using hmin j hj (.inl c2)
    have old := (h.1 j hj).1 h2 c2
    unfold R at old
    by_cases c3 : j = i
    · -- parent of i (max level) against s k
      subst c3
      have hm2 : m (j / 2) = false := by rw [A _ h2]; simp [hm]
      have := (h.1 k hk).2 (by omega) (by omega)
      unfold R at this
      rw [show k / 4 = j / 2 by omega, hm2] at this
      rw [hm2, e2, e3 (j / 2) (by omega) (by omega)]; simpa using this
    by_cases c4 : j / 2 = k
    · rw [c4, hmk] at old ⊢; rw [e1, e3 j c1 c3]
      simp only [Bool.false_eq_true, if_false] at old ⊢
      exact W.trans _ _ _ old hself
    · rw [e3 j c1 c3, e3 _ c4 c2]; exact old
  · intro h4
    unfold R
    by_cases c1 : j / 4 = i
    · rw [c1, hm, e2, e3 j (by omega) (by omega)]; simpa using hmin j hj (.inr c1)
    have old := (h.1 j hj).2 h4 c1
    unfold R at old
    by_cases c2 : j = k
    · -- parent of i against s i
      subst c2
      have hp := (h.1 i (by omega)).1 (by omega) (by omega)
      unfold R at hp
      have hm2 : m (i / 2) = false := by rw [A _ (by omega)]; simp [hm]
      rw [show j / 4 = i / 2 by omega, hm2, e1, e3 (i / 2) (by omega) (by omega)]
      rw [hm2] at hp; simpa using hp
    by_cases c3 : j = i
    · subst c3
      have := h.2 h4 k hk (.inl hki)
      rw [A.quarter h4, hm, e2, e3 (j / 4) (by omega) (by omega)]; simpa using this
    by_cases c4 : j / 4 = k
    · rw [c4, hmk] at old ⊢; rw [e1, e3 j c2 c3]
      simp only [Bool.false_eq_true, if_false] at old ⊢
      exact W.trans _ _ _ old hself
    · rw [e3 j c2 c3, e3 _ c4 c1]; exact old

theorem trickle_grand {lt : α → α → Bool} (W : Weak lt) {m : Nat → Bool} (A : Alt m) {n : Nat}
    {s s2 : Store α} {i k q : Nat} (h1 : 1 ≤ i) (hm : m i = true) (h : TD lt m n s i)
    (hk : k ≤ n) (hki : k / 4 = i) (hq : q = k / 2)
    (hmin : ∀ j, j ≤ n → (j / 2 = i ∨ j / 4 = i) → lt (s j) (s k) = false)
    (ei : s2 i = s k) (e3 : ∀ j, j ≠ k → j ≠ i → j ≠ q → s2 j = s j)
    (huw : lt (s2 q) (s2 k) = false) (hw : lt (s2 k) (s k) = false)
    (huq : lt (s2 q) (s q) = false) (hpu : 2 ≤ i → lt (s (i / 2)) (s2 q) = false) : TD lt m n s2 k := by
  have hmk : m k = true := by have := A.quarter (j := k) (by omega); simp_all
  have hmq : m q = false := by rw [hq, A _ (by omega)]; simp [hmk]
  have hqi : q / 2 = i := by omega
  refine ⟨fun j hj => ⟨fun h2 c0 => ?_, fun h4 c0 => ?_⟩, fun h4 j hj hd => ?_⟩
  · unfold R
    by_cases c1 : j = k
    · subst c1; rw [← hq, hmq]; simpa using huw
    by_cases c2 : j / 2 = i
    · rw [c2, hm, ei]
      by_cases c3 : j = q
      · rw [c3]; simpa using W.trans _ _ _ (hmin q (by omega) (.inl hqi)) huq
      · rw [e3 j c1 (by omega) c3]; simpa using hmin j hj (.inl c2)
    have old := (h.1 j hj).1 h2 c2
    unfold R at old
    by_cases c3 : j = i
    · subst c3
      have hm2 : m (j / 2) = false := by rw [A _ h2]; simp [hm]
      have o1 := (h.1 q (by omega)).2 (by omega) (by omega)
      unfold R at o1
      rw [show q / 4 = j / 2 by omega, hm2] at o1
      rw [hm2, ei, e3 (j / 2) (by omega) (by omega) (by omega)]
      simp only [Bool.false_eq_true, if_false] at o1 ⊢
      exact W.trans _ _ _ (hmin q (by omega) (.inl hqi)) o1
    by_cases c4 : j / 2 = q
    · rw [c4, hmq] at old ⊢; rw [e3 j c1 c3 (by omega)]
      simp only [Bool.false_eq_true, if_false] at old ⊢
      exact W.trans _ _ _ old huq
    · rw [e3 j c1 c3 (by omega), e3 _ c0 c2 c4]; exact old
  · unfold R
    by_cases c1 : j = k
    · subst c1; rw [hki, hm, ei]; simpa using hw
    by_cases c2 : j / 4 = i
    · rw [c2, hm, ei, e3 j c1 (by omega) (by omega)]; simpa using hmin j hj (.inr c2)
    have old := (h.1 j hj).2 h4 c2
    unfold R at old
    by_cases c3 : j = q
    · have hm2 : m (i / 2) = false := by rw [A _ (by omega)]; simp [hm]
      rw [c3, show q / 4 = i / 2 by omega, hm2, e3 (i / 2) (by omega) (by omega) (by omega)]
      simpa using hpu (by omega)
    by_cases c4 : j = i
    · subst c4
      have := h.2 h4 k hk (.inr hki)
      rw [A.quarter h4, hm, ei, e3 (j / 4) (by omega) (by omega) (by omega)]; simpa using this
    by_cases c5 : j / 4 = q
    · rw [c5, hmq] at old ⊢; rw [e3 j c1 c4 c3]
      simp only [Bool.false_eq_true, if_false] at old ⊢
      exact W.trans _ _ _ old huq
    · rw [e3 j c1 c4 c3, e3 _ c0 c2 c5]; exact old
  · rw [hki, ei, e3 j (by omega) (by omega) (by omega)]
    rcases hd with hd | hd
    · have := (h.1 j hj).1 (by omega) (by omega)
      unfold R at this; rw [hd, hmk] at this; simpa using this
    · have := (h.1 j hj).2 (by omega) (by omega)
      unfold R at this; rw [hd, hmk] at this; simpa using this

theorem trickleDownRec_heap {lt : α → α → Bool} (W : Weak lt) {m : Nat → Bool} (A : Alt m) {n : Nat}
    {s : Store α} {i : Nat} (h1 : 1 ≤ i) (hi : i ≤ n) (hm : m i = true) (h : TD lt m n s i) :
    HP lt m n (trickleDownRec lt s (n + 1) i) ∧ (contents (trickleDownRec lt s (n + 1) i) n).Perm (contents s n) := by
  induction hd : n + 1 - i using Nat.strongRecOn generalizing s i with
  | _ d ih =>
  obtain ⟨f1, f2, f3, f4⟩ := findExtreme_spec W s (n + 1) i (by omega) (by omega)
  unfold trickleDownRec
  simp only
  generalize findExtreme lt s (n + 1) i = k at *
  have hmin : ∀ j, j ≤ n → (j / 2 = i ∨ j / 4 = i) → lt (s j) (s k) = false := fun j hj => f1 j (by omega)
  split
  · rename_i c; subst c
    refine ⟨fun j hj => ⟨fun h2 => ?_, fun h4 => ?_⟩, .refl _⟩
    · by_cases c2 : j / 2 = k
      · unfold R; rw [c2, hm]; simpa using hmin j hj (.inl c2)
      · exact (h.1 j hj).1 h2 c2
    · by_cases c2 : j / 4 = k
      · unfold R; rw [c2, hm]; simpa using hmin j hj (.inr c2)
      · exact (h.1 j hj).2 h4 c2
  · rename_i hne
    have sw := contents_swap s (n := n) (i := k) (j := i) (by omega) (by omega) (by omega) (by omega)
    split
    · rename_i hk4
      have hki : k / 4 = i := by omega
      have hmk : m k = true := by have := A.quarter (j := k) (by omega); simp_all
      have e1 := swap_left s k i
      have e2 := swap_right s k i
      have e3 : ∀ j, j ≠ k → j ≠ i → s.swap k i j = s j := fun k a b => swap_other s a b
      have hmq : m (k / 2) = false := by rw [A _ (by omega)]; simp [hmk]
      have hkq : lt (s (k / 2)) (s k) = false := hmin _ (by omega) (.inl (by omega))
      split
      · rename_i hlt
        rw [e1, e3 (k / 2) (by omega) (by omega)] at hlt
        have := trickle_grand W A (s2 := s.swap k i) h1 hm h (by omega) hki rfl hmin e2
          (fun j a b _ => e3 j a b)
          (by rw [e3 _ (by omega) (by omega), e1]; exact W.asymm _ _ hlt) (by rw [e1]; exact f2)
          (by rw [e3 _ (by omega) (by omega)]; exact W.refl _)
          (by intro hi2
              have o := (h.1 (k / 2) (by omega)).2 (by omega) (by omega)
              unfold R at o
              have hm2 : m (i / 2) = false := by rw [A _ hi2]; simp [hm]
              rw [show k / 2 / 4 = i / 2 by omega, hm2] at o
              rw [e3 _ (by omega) (by omega)]; simpa using o)
        obtain ⟨r1, r2⟩ := ih (n + 1 - k) (by omega) (by omega) (by omega) hmk this rfl
        exact ⟨r1, r2.trans sw⟩
      · rename_i hlt
        have hlt : lt (s i) (s (k / 2)) = false := by
          rw [e1, e3 (k / 2) (by omega) (by omega)] at hlt; simpa using hlt
        have g1 := swap_left (s.swap k i) (k / 2) k
        have g2 := swap_right (s.swap k i) (k / 2) k
        have g3 : ∀ j, j ≠ k → j ≠ k / 2 → (s.swap k i).swap (k / 2) k j = s.swap k i j :=
          fun k a b => swap_other _ b a
        rw [e1] at g1
        rw [e3 _ (by omega) (by omega)] at g2
        have := trickle_grand W A (s2 := (s.swap k i).swap (k / 2) k) h1 hm h (by omega) hki rfl hmin
          (by rw [g3 _ (by omega) (by omega), e2])
          (fun j a b c => by rw [g3 _ a c, e3 _ a b])
          (by rw [g1, g2]; exact hlt) (by rw [g2]; exact hkq) (by rw [g1]; exact hlt)
          (by intro hi2
              have o := (h.1 i (by omega)).1 hi2 (by omega)
              unfold R at o
              have hm2 : m (i / 2) = false := by rw [A _ hi2]; simp [hm]
              rw [hm2] at o
              rw [g1]; simpa using o)
        obtain ⟨r1, r2⟩ := ih (n + 1 - k) (by omega) (by omega) (by omega) hmk this rfl
        exact ⟨r1, r2.trans ((contents_swap _ (by omega) (by omega) (by omega) (by omega)).trans sw)⟩
    · exact ⟨trickle_child W A h1 hm h (by omega) (by omega) hmin f2, sw⟩

theorem TD_flip {lt : α → α → Bool} {m : Nat → Bool} {n i : Nat} {s : Store α} (hi : i < 4)
    (h : ∀ j, j ≤ n → (2 ≤ j → j / 2 ≠ i → R lt m s (j / 2) j) ∧ (4 ≤ j → j / 4 ≠ i → R lt m s (j / 4) j)) :
    TD lt m n s i ∧ TD (fun a b => lt b a) (fun i => !m i) n s i := by
  refine ⟨⟨h, fun h4 => by omega⟩, ⟨?_, fun h4 => by omega⟩⟩
  simp only [R_flip]; exact h

/-- bh-trickle-down called on index 1, 2 or 3. -/
theorem trickleDown_heap {lt : α → α → Bool} (W : Weak lt) {n : Nat}
    {s : Store α} {i : Nat} (h1 : 1 ≤ i) (hi4 : i < 4) (hi : i ≤ n)
    (h : ∀ j, j ≤ n → (2 ≤ j → j / 2 ≠ i → R lt minNode s (j / 2) j) ∧ (4 ≤ j → j / 4 ≠ i → R lt minNode s (j / 4) j)) :
    HP lt minNode n (trickleDown lt s i (n + 1)) ∧ (contents (trickleDown lt s i (n + 1)) n).Perm (contents s n) := by
  obtain ⟨t1, t2⟩ := TD_flip hi4 h
  unfold trickleDown
  cases hm : minNode i with
  | true => exact trickleDownRec_heap W minNode_alt h1 hi hm t1
  | false =>
    have := trickleDownRec_heap W.flip minNode_alt.flip h1 hi (by simp [hm]) t2
    rw [HP_flip] at this
    exact this

/-- bh-trickle-down with nothing in bounds leaves the storage alone. -/
theorem trickleDown_out (lt : α → α → Bool) (s : Store α) {i n : Nat} (h1 : 1 ≤ i) (h : n ≤ i) : trickleDown lt s i n = s := by
  unfold trickleDown trickleDownRec
  have : ∀ lt' : α → α → Bool, findExtreme lt' s n i = i := by
    intro lt'
    unfold findExtreme findExtremeLoop
    simp only [descendant]
    rw [if_neg (by simp; omega)]
  simp [this]

/-! ### extremes -/

theorem HP_min {lt : α → α → Bool} (W : Weak lt) {n : Nat} {s : Store α} (h : HP lt minNode n s) (j : Nat)
    (h1 : 1 ≤ j) (hj : j ≤ n) : lt (s j) (s 1) = false := by
  induction j using Nat.strongRecOn with
  | _ j ih =>
  by_cases c1 : j = 1
  · subst c1; exact W.refl _
  cases hm : minNode j with
  | false =>
    have := (h j hj).1 (by omega)
    unfold R at this
    rw [minNode_alt j (by omega), hm] at this
    exact W.trans _ _ _ (ih (j / 2) (by omega) (by omega) (by omega)) (by simpa using this)
  | true =>
    have h4 : 4 ≤ j := by
      rcases Nat.lt_or_ge j 4 with h | h
      · have : j = 2 ∨ j = 3 := by omega
        rcases this with rfl | rfl <;> revert hm <;> decide
      · exact h
    have := (h j hj).2 h4
    unfold R at this
    rw [minNode_alt.quarter h4, hm] at this
    exact W.trans _ _ _ (ih (j / 4) (by omega) (by omega) (by omega)) (by simpa using this)

theorem HP_max {lt : α → α → Bool} (W : Weak lt) {n : Nat} {s : Store α} (h : HP lt minNode n s) (j : Nat)
    (h1 : 2 ≤ j) (hj : j ≤ n) : lt (s 2) (s j) = false ∨ (3 ≤ n ∧ lt (s 3) (s j) = false) := by
  induction j using Nat.strongRecOn with
  | _ j ih =>
  by_cases c1 : j = 2
  · subst c1; exact .inl (W.refl _)
  by_cases c2 : j = 3
  · subst c2; exact .inr ⟨hj, W.refl _⟩
  have up : ∀ p, 2 ≤ p → p < j → p ≤ n → lt (s p) (s j) = false →
      lt (s 2) (s j) = false ∨ (3 ≤ n ∧ lt (s 3) (s j) = false) := by
    intro p hp hpj hpn hl
    rcases ih p hpj hp hpn with h | ⟨h3, h⟩
    · exact .inl (W.trans _ _ _ hl h)
    · exact .inr ⟨h3, W.trans _ _ _ hl h⟩
  cases hm : minNode j with
  | true =>
    have := (h j hj).1 (by omega)
    unfold R at this
    rw [minNode_alt j (by omega), hm] at this
    exact up (j / 2) (by omega) (by omega) (by omega) (by simpa using this)
  | false =>
    have := (h j hj).2 (by omega)
    unfold R at this
    rw [minNode_alt.quarter (by omega), hm] at this
    have h8 : 8 ≤ j := by
      rcases Nat.lt_or_ge j 8 with h | h
      · have : j = 4 ∨ j = 5 ∨ j = 6 ∨ j = 7 := by omega
        rcases this with rfl | rfl | rfl | rfl <;> revert hm <;> decide
      · exact h
    exact up (j / 4) (by omega) (by omega) (by omega) (by simpa using this)

end Gauche.Heap
