import Verif.Model.SkewList
/- Helper lemmas for data.skew-list. -/
namespace Gauche.SkewList

/-- Preorder list of the elements of a tree. -/
def Tree.elems : Tree α → List α
  | .leaf x => [x]
  | .node x t1 t2 => x :: (t1.elems ++ t2.elems)

/-- The elements of a skew-list. -/
def elems (s : SL α) : List α := s.flatMap fun p => p.2.elems

/-- `t` is a perfect tree of weight `w`. -/
inductive Perf : Nat → Tree α → Prop
  | leaf (x : α) : Perf 1 (.leaf x)
  | node {m x t1 t2} : Perf m t1 → Perf m t2 → Perf (2 * m + 1) (.node x t1 t2)

/-- Every (weight . tree) pair is a perfect tree of that weight. -/
def WF (s : SL α) : Prop := ∀ p ∈ s, Perf p.1 p.2

@[simp] theorem elems_nil : elems ([] : SL α) = [] := rfl
@[simp] theorem elems_cons (w : Nat) (t : Tree α) (s : SL α) :
    elems ((w, t) :: s) = t.elems ++ elems s := rfl
@[simp] theorem elems_append (a b : SL α) : elems (a ++ b) = elems a ++ elems b := by
  simp [elems]
@[simp] theorem wf_nil : WF ([] : SL α) := by simp [WF]
@[simp] theorem wf_cons {w : Nat} {t : Tree α} {s : SL α} : WF ((w, t) :: s) ↔ Perf w t ∧ WF s := by
  simp [WF]
theorem wf_append {a b : SL α} : WF (a ++ b) ↔ WF a ∧ WF b := by
  simp [WF, or_imp, forall_and]

theorem Perf.length {w : Nat} {t : Tree α} (h : Perf w t) : t.elems.length = w := by
  induction h with
  | leaf => rfl
  | node _ _ i1 i2 => simp [Tree.elems, i1, i2]; omega

theorem Perf.pos {w : Nat} {t : Tree α} (h : Perf w t) : 0 < w := by
  cases h <;> omega

theorem Perf.pow {w : Nat} {t : Tree α} (h : Perf w t) : ∃ j, 1 ≤ j ∧ w + 1 = 2 ^ j := by
  induction h with
  | leaf => exact ⟨1, by omega, rfl⟩
  | node _ _ i1 _ =>
    obtain ⟨j, h1, h2⟩ := i1
    exact ⟨j + 1, by omega, by rw [Nat.pow_succ]; omega⟩

theorem half_odd (m : Nat) : half (2 * m + 1) = m := by simp [half]; omega
theorem quarter_odd (m : Nat) : quarter (2 * (2 * m + 1) + 1) = m := by simp [quarter]; omega

theorem treeFold_eq (g : α → β → β) (t : Tree α) (s : β) :
    treeFold g t s = t.elems.foldl (fun a x => g x a) s := by
  induction t generalizing s with
  | leaf x => rfl
  | node x t1 t2 i1 i2 => simp [treeFold, Tree.elems, i1, i2]

theorem fold_eq (s : SL α) (g : α → β → β) (z : β) :
    fold s g z = (elems s).foldl (fun a x => g x a) z := by
  unfold fold
  induction s generalizing z with
  | nil => rfl
  | cons p s ih =>
    rw [List.foldl_cons, ih, treeFold_eq]; simp [elems]

theorem toList_eq (s : SL α) : toList s = elems s := by
  have : ∀ (l a : List α), List.foldl (fun a x => x :: a) a l = l.reverse ++ a := by
    intro l; induction l with
    | nil => intro a; rfl
    | cons x l ih => intro a; simp [ih]
  simp [toList, fold_eq, this]

theorem length_eq {s : SL α} (h : WF s) : length s = (elems s).length := by
  have : ∀ (s : SL α) (a : Nat), WF s → s.foldl (fun acc p => p.1 + acc) a = (elems s).length + a := by
    intro s; induction s with
    | nil => intro a _; simp
    | cons p s ih =>
      intro a h
      obtain ⟨w, t⟩ := p
      rw [wf_cons] at h
      simp [ih _ h.2, h.1.length]; omega
  simpa [length] using this s 0 h

theorem treeRef_eq {w : Nat} {t : Tree α} (h : Perf w t) (i : Int) :
    treeRef w i t = if i < 0 then none else t.elems[i.toNat]? := by
  induction h generalizing i with
  | leaf x =>
    simp only [treeRef, Tree.elems]
    by_cases h0 : i = 0
    · subst h0; simp
    · by_cases h1 : i < 0
      · simp [h0, h1]
      · simp only [h0, h1, if_false]
        rw [List.getElem?_eq_none]; simp; omega
  | @node m x t1 t2 h1 h2 i1 i2 =>
    have hm := h1.pos
    simp only [treeRef, half_odd, Tree.elems, i1, i2]
    by_cases h0 : i = 0
    · subst h0; simp
    · by_cases hn : i < 0
      · have : i ≤ (m : Int) := by omega
        have : i - 1 < 0 := by omega
        simp [*]
      · have hw : ¬ (2 * m + 1 = 1) := by omega
        obtain ⟨k, hk⟩ := Int.eq_ofNat_of_zero_le (show 0 ≤ i - 1 by omega)
        have hi : i.toNat = k + 1 := by omega
        simp only [h0, hn, hw, if_false, hi, List.getElem?_cons_succ]
        by_cases hle : i ≤ (m : Int)
        · have : ¬ (i - 1 < 0) := by omega
          simp only [hle, this, if_true, if_false]
          rw [List.getElem?_append_left (by rw [h1.length]; omega)]
          congr 1; omega
        · have : ¬ (i - 1 - (m : Int) < 0) := by omega
          simp only [hle, this, if_false]
          rw [List.getElem?_append_right (by rw [h1.length]; omega), h1.length]
          congr 1; omega

theorem ref_eq {s : SL α} (h : WF s) (i : Int) :
    ref s i = if i < 0 then none else (elems s)[i.toNat]? := by
  induction s generalizing i with
  | nil => simp [ref]
  | cons p s ih =>
    obtain ⟨w, t⟩ := p
    rw [wf_cons] at h
    simp only [ref, elems_cons]
    split
    · next hlt =>
      rw [treeRef_eq h.1]
      split
      · rfl
      · rw [List.getElem?_append_left (by rw [h.1.length]; omega)]
    · next hlt =>
      rw [ih h.2]
      rw [if_neg (by omega), if_neg (by omega), List.getElem?_append_right (by rw [h.1.length]; omega),
        h.1.length]
      congr 1; omega

theorem treeSet_eq {w : Nat} {t : Tree α} (h : Perf w t) (v : α) (i : Int) :
    (i < 0 ∨ w ≤ i → treeSet v w i t = none) ∧
    (0 ≤ i → i < w → ∃ t', treeSet v w i t = some t' ∧ Perf w t' ∧ t'.elems = t.elems.set i.toNat v) := by
  induction h generalizing i with
  | leaf x =>
    constructor
    · intro hi; have : ¬ i = 0 := by omega
      simp [treeSet, this]
    · intro h0 h1; have : i = 0 := by omega
      subst this; exact ⟨_, by simp [treeSet], .leaf v, by simp [Tree.elems]⟩
  | @node m x t1 t2 h1 h2 i1 i2 =>
    have hm := h1.pos
    have hw : ¬ (2 * m + 1 = 1) := by omega
    simp only [treeSet, half_odd]
    constructor
    · intro hi
      have h0 : ¬ i = 0 := by omega
      simp only [h0, hw, if_false]
      split
      · rw [(i1 (i - 1)).1 (by omega)]; rfl
      · rw [(i2 _).1 (by omega)]; rfl
    · intro h0 hlt
      by_cases hz : i = 0
      · subst hz; exact ⟨_, by simp; rfl, .node h1 h2, by simp [Tree.elems]⟩
      · simp only [hz, hw, if_false]
        split
        · obtain ⟨t', e1, e2, e3⟩ := (i1 (i - 1)).2 (by omega) (by omega)
          refine ⟨_, by rw [e1]; rfl, .node e2 h2, ?_⟩
          have : i.toNat = (i - 1).toNat + 1 := by omega
          simp only [Tree.elems, e3, this, List.set_cons_succ]
          rw [List.set_append_left _ _ (by rw [h1.length]; omega)]
        · obtain ⟨t', e1, e2, e3⟩ := (i2 (i - 1 - m)).2 (by omega) (by omega)
          refine ⟨_, by rw [e1]; rfl, .node h1 e2, ?_⟩
          have : i.toNat = (i - 1).toNat + 1 := by omega
          simp only [Tree.elems, e3, this, List.set_cons_succ]
          rw [List.set_append_right _ _ (by rw [h1.length]; omega), h1.length]
          congr 4; omega

theorem set_eq {s : SL α} (h : WF s) (v : α) (i : Int) :
    (i < 0 ∨ (elems s).length ≤ i → set s i v = none) ∧
    (0 ≤ i → i < (elems s).length → ∃ s', set s i v = some s' ∧ WF s' ∧
      s'.map Prod.fst = s.map Prod.fst ∧ elems s' = (elems s).set i.toNat v) := by
  induction s generalizing i with
  | nil => simp [set]
  | cons p s ih =>
    obtain ⟨w, t⟩ := p
    rw [wf_cons] at h
    have hl := h.1.length
    have hp := h.1.pos
    simp only [set, elems_cons, List.length_append, hl]
    constructor
    · intro hi
      split
      · rw [(treeSet_eq h.1 v i).1 (by omega)]; rfl
      · rw [(ih h.2 _).1 (by omega)]; rfl
    · intro h0 h1
      split
      · obtain ⟨t', e1, e2, e3⟩ := (treeSet_eq h.1 v i).2 h0 (by omega)
        refine ⟨(w, t') :: s, by rw [e1]; rfl, by rw [wf_cons]; exact ⟨e2, h.2⟩, rfl, ?_⟩
        simp only [elems_cons, e3]
        rw [List.set_append_left _ _ (by omega)]
      · obtain ⟨s', e1, e2, e3, e4⟩ := (ih h.2 (i - w)).2 (by omega) (by omega)
        refine ⟨_, by rw [e1]; rfl, by rw [wf_cons]; exact ⟨h.1, e2⟩, by simp [e3], ?_⟩
        simp only [elems_cons, e4]
        rw [List.set_append_right _ _ (by omega), hl]
        congr 2; omega

theorem cons_wf {s : SL α} (h : WF s) (x : α) : WF (cons x s) := by
  unfold cons
  split
  · next w1 t1 w2 t2 ts =>
    simp only [wf_cons] at h
    split
    · next he =>
      subst he
      have : 1 + w1 + w1 = 2 * w1 + 1 := by omega
      simp only [wf_cons, this]; exact ⟨.node h.1 h.2.1, h.2.2⟩
    · simp only [wf_cons]; exact ⟨.leaf x, h⟩
  · simp only [wf_cons]; exact ⟨.leaf x, h⟩

theorem cons_elems (s : SL α) (x : α) : elems (cons x s) = x :: elems s := by
  unfold cons
  split
  · split <;> simp [Tree.elems]
  · simp [Tree.elems]

theorem car_eq {s : SL α} : car s = (elems s).head? := by
  match s with
  | [] => rfl
  | (_, .leaf x) :: _ => rfl
  | (_, .node x _ _) :: _ => rfl

theorem cdr_spec {s : SL α} (h : WF s) :
    (s = [] ∧ elems s = [] ∧ cdr s = none) ∨
    (∃ s', cdr s = some s' ∧ WF s' ∧ elems s ≠ [] ∧ elems s' = (elems s).tail) := by
  match s with
  | [] => exact .inl ⟨rfl, rfl, rfl⟩
  | (w, .leaf x) :: ts =>
    right; rw [wf_cons] at h
    exact ⟨ts, rfl, h.2, by simp [Tree.elems], by simp [Tree.elems]⟩
  | (w, .node x t1 t2) :: ts =>
    right; rw [wf_cons] at h
    obtain ⟨hp, hs⟩ := h
    cases hp with
    | node h1 h2 =>
      refine ⟨_, rfl, ?_, by simp [Tree.elems], by simp [Tree.elems]⟩
      simp only [wf_cons, half_odd]; exact ⟨h1, h2, hs⟩

theorem elems_eq_nil {s : SL α} : elems s = [] ↔ s = [] := by
  cases s with
  | nil => simp
  | cons p s => obtain ⟨w, t⟩ := p; cases t <;> simp [Tree.elems]

theorem treeMap_perf {w : Nat} {t : Tree α} (h : Perf w t) (g : α → β) : Perf w (treeMap g t) := by
  induction h with
  | leaf x => exact .leaf _
  | node _ _ i1 i2 => exact .node i1 i2

theorem treeMap_elems (t : Tree α) (g : α → β) : (treeMap g t).elems = t.elems.map g := by
  induction t with
  | leaf x => rfl
  | node x t1 t2 i1 i2 => simp [treeMap, Tree.elems, i1, i2]

theorem map_wf {s : SL α} (h : WF s) (g : α → β) : WF (map s g) := by
  intro p hp
  simp only [map, List.mem_map] at hp
  obtain ⟨q, hq, rfl⟩ := hp
  exact treeMap_perf (h q hq) g

theorem map_elems (s : SL α) (g : α → β) : elems (map s g) = (elems s).map g := by
  induction s with
  | nil => rfl
  | cons p s ih =>
    obtain ⟨w, t⟩ := p
    simp only [map, List.map_cons, elems_cons, List.map_append, treeMap_elems] at ih ⊢
    rw [ih]

theorem lengthLe_eq {s : SL α} (h : WF s) (k : Int) (a : Nat) :
    lengthLe k a s = true ↔ ((elems s).length + a : Nat) ≤ k := by
  induction s generalizing a with
  | nil => simp [lengthLe]
  | cons p s ih =>
    obtain ⟨w, t⟩ := p
    rw [wf_cons] at h
    simp only [lengthLe, elems_cons, List.length_append, h.1.length]
    split
    · simp; omega
    · rw [ih h.2]; omega

/-! #### Building from lists -/

theorem makeTree_spec (j : Nat) : ∀ (l : List α), 2 ^ (j + 1) - 1 ≤ l.length →
    ∃ t, makeTree (2 ^ (j + 1) - 1) l = some (t, l.drop (2 ^ (j + 1) - 1)) ∧
      Perf (2 ^ (j + 1) - 1) t ∧ t.elems = l.take (2 ^ (j + 1) - 1) := by
  induction j with
  | zero =>
    intro l hl
    cases l with
    | nil => simp at hl
    | cons x l => exact ⟨.leaf x, by simp [makeTree], .leaf x, by simp [Tree.elems]⟩
  | succ j ih =>
    intro l hl
    have hpow : 2 ^ (j + 1 + 1) - 1 = 2 * (2 ^ (j + 1) - 1) + 1 := by
      have := Nat.pow_succ 2 (j + 1)
      have := Nat.one_le_two_pow (n := j + 1); omega
    have hpos : 1 ≤ 2 ^ (j + 1) - 1 := by
      have : 2 ^ 1 ≤ 2 ^ (j + 1) := Nat.pow_le_pow_right (by omega) (by omega); omega
    rw [hpow] at hl ⊢
    generalize 2 ^ (j + 1) - 1 = m at *
    cases l with
    | nil => simp at hl
    | cons x l =>
      simp only [List.length_cons] at hl
      obtain ⟨t1, a1, a2, a3⟩ := ih l (by omega)
      obtain ⟨t2, b1, b2, b3⟩ := ih (l.drop m) (by simp; omega)
      have hm : (2 * m + 1 - 1) / 2 = m := by omega
      refine ⟨.node x t1 t2, ?_, .node a2 b2, ?_⟩
      · rw [makeTree, if_neg (by omega)]
        simp only [hm, a1, b1, bind, Option.bind]
        simp [List.drop_drop]; omega
      · simp only [Tree.elems, a3, b3, List.take_succ_cons]
        rw [show 2 * m = m + m by omega, List.take_add]

/-- weights of the form 2^(j+1)-1 -/
def IsW (n : Nat) : Prop := ∃ j, n = 2 ^ (j + 1) - 1

theorem makeForest_spec (ns : List Nat) : ∀ (l : List α), (∀ n ∈ ns, IsW n) → ns.sum ≤ l.length →
    ∃ f, makeForest ns l = some (f, l.drop ns.sum) ∧ WF f ∧ f.map Prod.fst = ns ∧
      elems f = l.take ns.sum := by
  induction ns with
  | nil => intro l _ _; exact ⟨[], by simp [makeForest], by simp, rfl, by simp⟩
  | cons n ns ih =>
    intro l hw hl
    simp only [List.sum_cons] at hl
    obtain ⟨j, hj⟩ := hw n (by simp)
    obtain ⟨t, a1, a2, a3⟩ := makeTree_spec j l (by omega)
    rw [← hj] at a1 a2 a3
    obtain ⟨f, b1, b2, b3, b4⟩ := ih (l.drop n) (fun m hm => hw m (by simp [hm])) (by simp; omega)
    refine ⟨(n, t) :: f, ?_, by rw [wf_cons]; exact ⟨a2, b2⟩, by simp [b3], ?_⟩
    · simp [makeForest, a1, b1, List.drop_drop]
    · simp [a3, b4, List.take_add]

theorem log2_le (n : Nat) : 2 ^ Nat.log2 (n + 1) ≤ n + 1 := by
  exact (Nat.le_log2 (by omega)).1 (Nat.le_refl _)

theorem lt_log2 (n : Nat) : n + 1 < 2 ^ (Nat.log2 (n + 1) + 1) := by
  exact (Nat.log2_lt (by omega)).1 (Nat.lt_succ_self _)

theorem one_le_log2 {n : Nat} (h : 1 ≤ n) : 1 ≤ Nat.log2 (n + 1) := by
  rw [Nat.le_log2 (by omega)]; omega

theorem series_spec (n : Nat) : (series n).sum = n ∧ ∀ m ∈ series n, IsW m := by
  induction n using Nat.strongRecOn with
  | ind n ih =>
    unfold series
    split
    · next h => subst h; simp
    · split
      · next h => subst h; exact ⟨rfl, fun m hm => ⟨0, by simpa using hm⟩⟩
      · next h0 h1 =>
        have a := log2_le n
        have b := one_le_log2 (n := n) (by omega)
        have c : 2 ^ 1 ≤ 2 ^ Nat.log2 (n + 1) := Nat.pow_le_pow_right (by omega) b
        obtain ⟨i1, i2⟩ := ih (n - (2 ^ Nat.log2 (n + 1) - 1)) (by omega)
        constructor
        · simp only [List.sum_cons, i1]; omega
        · intro m hm
          rcases List.mem_cons.1 hm with rfl | hm
          · exact ⟨Nat.log2 (n + 1) - 1, by rw [Nat.sub_add_cancel b]⟩
          · exact i2 m hm

theorem ofList_spec (l : List α) : ∃ s, ofList l = some s ∧ WF s ∧ elems s = l ∧
    s.map Prod.fst = (series l.length).reverse := by
  obtain ⟨h1, h2⟩ := series_spec l.length
  obtain ⟨f, a1, a2, a3, a4⟩ := makeForest_spec (series l.length).reverse l
    (fun n hn => h2 n (by simpa using hn)) (by simp [List.sum_reverse, h1])
  simp only [List.sum_reverse, h1, List.drop_length, List.take_length] at a1 a4
  cases l with
  | nil => exact ⟨[], rfl, by simp, rfl, by simp [series]⟩
  | cons x l => exact ⟨f, by simp [ofList] at a1 ⊢; simp [a1], a2, a4, a3⟩

/-! #### Iteration -/

theorem iterNext_spec (c : Nat) (seq : SL α) (stack : List (Tree α)) :
    iterNext c seq stack =
      (let l := stack.flatMap Tree.elems ++ elems seq
       if c ≤ l.length then some (l.take c) else none) := by
  fun_induction iterNext c seq stack with
  | case1 => simp
  | case2 => simp
  | case3 c _ t seq ih => rw [ih]; simp
  | case4 c seq x xs ih =>
    rw [ih]; simp only [List.flatMap_cons, Tree.elems, List.cons_append, List.nil_append,
      List.length_cons]
    split
    · rw [if_pos (by omega)]; simp
    · rw [if_neg (by omega)]; rfl
  | case5 c seq x t1 t2 xs ih =>
    rw [ih]; simp only [List.flatMap_cons, Tree.elems, List.cons_append,
      List.length_cons, List.append_assoc]
    split
    · rw [if_pos (by omega)]; simp
    · rw [if_neg (by omega)]; rfl

theorem treeKth_spec {w : Nat} {t : Tree α} (h : Perf w t) (k : Nat) (tail : List (Tree α)) (hk : k < w) :
    ∃ st, treeKth w k tail t = some st ∧ st.flatMap Tree.elems = t.elems.drop k ++ tail.flatMap Tree.elems := by
  induction h generalizing k tail with
  | leaf x =>
    have : k = 0 := by omega
    subst this; exact ⟨_, by simp [treeKth]; rfl, by simp⟩
  | @node m x t1 t2 h1 h2 i1 i2 =>
    simp only [treeKth, half_odd]
    by_cases h0 : k = 0
    · subst h0; exact ⟨_, by simp; rfl, by simp⟩
    · simp only [h0, if_false]
      obtain ⟨k', rfl⟩ : ∃ k', k = k' + 1 := ⟨k - 1, by omega⟩
      simp only [Tree.elems, List.drop_succ_cons]
      split
      · obtain ⟨st, e1, e2⟩ := i1 (k' + 1 - 1) (t2 :: tail) (by omega)
        refine ⟨st, e1, ?_⟩
        rw [e2, List.drop_append_of_le_length (by rw [h1.length]; omega)]
        simp
      · obtain ⟨st, e1, e2⟩ := i2 (k' + 1 - m - 1) tail (by omega)
        refine ⟨st, e1, ?_⟩
        rw [e2, List.drop_append, List.drop_of_length_le (l := t1.elems) (by rw [h1.length]; omega), h1.length]
        simp only [List.nil_append]
        congr 2; omega

theorem skipSeq_spec {s : SL α} (h : WF s) (k : Nat) :
    ((elems s).length ≤ k → skipSeq k s = none) ∧
    (k < (elems s).length → ∃ w t r k', skipSeq k s = some ((w, t) :: r, k') ∧ Perf w t ∧ WF r ∧ k' < w ∧
      (elems s).drop k = t.elems.drop k' ++ elems r) := by
  induction s generalizing k with
  | nil => simp [skipSeq]
  | cons p s ih =>
    obtain ⟨w, t⟩ := p
    rw [wf_cons] at h
    simp only [skipSeq, elems_cons, List.length_append, h.1.length]
    constructor
    · intro hk
      rw [if_neg (by omega)]; exact (ih h.2 _).1 (by omega)
    · intro hk
      split
      · exact ⟨w, t, s, k, rfl, h.1, h.2, by assumption,
          by rw [List.drop_append_of_le_length (by rw [h.1.length]; omega)]⟩
      · obtain ⟨w', t', r, k', e1, e2, e3, e4, e5⟩ := (ih h.2 (k - w)).2 (by omega)
        refine ⟨w', t', r, k', e1, e2, e3, e4, ?_⟩
        rw [List.drop_append, List.drop_of_length_le (l := t.elems) (by rw [h.1.length]; omega), h.1.length]
        simpa using e5

theorem lseq_spec {s : SL α} (h : WF s) {a e : Nat} (hae : a ≤ e) (he : e ≤ (elems s).length)
    (ha : a = 0 ∨ a < (elems s).length) :
    lseq s a (some e) = some (((elems s).drop a).take (e - a)) := by
  unfold lseq
  simp only [Option.getD_some, hae, if_true]
  split
  · next h0 =>
    obtain ⟨w, t, r, k', e1, e2, e3, e4, e5⟩ := (skipSeq_spec h a).2 (by omega)
    obtain ⟨st, f1, f2⟩ := treeKth_spec e2 k' [] e4
    simp only [e1, f1, bind, Option.bind, iterNext_spec, f2, List.flatMap_nil, List.append_nil, ← e5]
    rw [if_pos (by simp; omega)]
  · next h0 =>
    have : a = 0 := by omega
    subst this
    simp [iterNext_spec, he]

theorem lseq_none_eq {s : SL α} (h : WF s) (a : Nat) :
    lseq s a none = lseq s a (some (elems s).length) := by
  simp [lseq, length_eq h]

/-! #### take / drop / append -/

/-- `k` is the number of elements of some prefix of the forest. -/
def IsPrefixSum (s : SL α) (k : Nat) : Prop := ∃ a b, s = a ++ b ∧ (elems a).length = k

theorem trivialPrefix_spec (elts : SL α) (h : WF elts) (k : Nat) : ∀ (seq pre : SL α) (sum i : Nat),
    elts = pre ++ seq → (elems pre).length = sum → i = pre.length →
    (∀ a b, a ++ b = pre → b ≠ [] → (elems a).length ≠ k) →
    (∃ a b, trivialPrefix elts k seq sum i = some (some (a, b)) ∧ elts = a ++ b ∧ (elems a).length = k) ∨
    (trivialPrefix elts k seq sum i = none ∧ (elems elts).length < k) ∨
    (trivialPrefix elts k seq sum i = some none ∧ (sum ≤ k → k < (elems elts).length ∧ ¬ IsPrefixSum elts k)) := by
  intro seq
  induction seq with
  | nil =>
    intro pre sum i he hs hi hp
    unfold trivialPrefix
    split
    · next hk =>
      left
      refine ⟨pre, [], ?_, he, by omega⟩
      subst hi; simp [he]
    · split
      · right; left; exact ⟨rfl, by simp [he] at *; omega⟩
      · right; right; exact ⟨rfl, fun hle => absurd hle (by omega)⟩
  | cons p seq ih =>
    intro pre sum i he hs hi hp
    obtain ⟨w, t⟩ := p
    unfold trivialPrefix
    split
    · next hk =>
      left
      refine ⟨pre, (w, t) :: seq, ?_, he, by omega⟩
      subst hi; simp [he]
    · next hne =>
      have hw : Perf w t := h (w, t) (by simp [he])
      split
      · next hgt =>
        have hlen : (elems (pre ++ [(w, t)])).length = sum + w := by simp [hw.length, hs]
        have hpre : ∀ a b, a ++ b = pre ++ [(w, t)] → b ≠ [] → (elems a).length ≠ k := by
          intro a b hab hb
          rcases List.eq_nil_or_concat b with rfl | ⟨b', q, rfl⟩
          · exact absurd rfl hb
          · rw [List.concat_eq_append, ← List.append_assoc] at hab
            obtain ⟨e1, e2⟩ := List.append_inj' hab rfl
            by_cases hb' : b' = []
            · subst hb'; simp at e1; subst e1; omega
            · exact hp a b' e1 hb'
        rcases ih (pre ++ [(w, t)]) (sum + w) (i + 1) (by simp [he]) hlen (by simp [hi]) hpre with
          h1 | h1 | h1
        · exact .inl h1
        · exact .inr (.inl h1)
        · refine .inr (.inr ⟨h1.1, fun _ => ?_⟩)
          by_cases hle : sum + w ≤ k
          · exact h1.2 hle
          · refine ⟨?_, ?_⟩
            · rw [he]; simp [hs, hw.length]; omega
            · rintro ⟨a, b, hab, hl⟩
              -- a is a prefix of pre or contains pre ++ [(w,t)]
              rw [he] at hab
              rcases List.append_eq_append_iff.1 hab with ⟨c, hc1, hc2⟩ | ⟨c, hc1, hc2⟩
              · cases c with
                | nil => simp at hc1; subst hc1; omega
                | cons q c =>
                  simp at hc2; obtain ⟨rfl, rfl⟩ := hc2
                  subst hc1
                  simp [hw.length, hs] at hl; omega
              · cases c with
                | nil => simp at hc1; subst hc1; omega
                | cons q c => exact hp a (q :: c) hc1.symm (by simp) hl
      · right; right; exact ⟨rfl, fun hle => absurd hle (by omega)⟩

theorem take_drop_of_append {l a b : List α} (h : l = a ++ b) {k : Nat} (hk : a.length = k) :
    a = l.take k ∧ b = l.drop k := by
  subst h; subst hk; simp

theorem specialPrefix_spec {s : SL α} (h : WF s) {k : Nat} {a b : SL α}
    (he : specialPrefix k s = some (some (a, b))) :
    WF a ∧ WF b ∧ elems s = elems a ++ elems b ∧ (elems a).length = k := by
  unfold specialPrefix at he
  split at he
  · next x n y t1 t2 zs =>
    simp only [wf_cons] at h
    obtain ⟨hx, hn, hz⟩ := h
    cases hn with
    | @node m _ _ _ h1 h2 =>
    simp only [half_odd] at he
    split at he
    · next hk =>
      cases he
      simp only [wf_cons, wf_nil, and_true]
      exact ⟨⟨hx, .leaf y⟩, ⟨h1, h2, hz⟩, by simp [Tree.elems], by simp [Tree.elems, hx.length, hk]⟩
    · split at he
      · next hk =>
        cases he
        simp only [wf_cons, wf_nil, and_true]
        exact ⟨⟨hx, .leaf y, h1⟩, ⟨h2, hz⟩, by simp [Tree.elems],
          by simp [Tree.elems, hx.length, h1.length]; omega⟩
      · cases he
  · next n x y t11 t12 t2 zs _ =>
    simp only [wf_cons] at h
    obtain ⟨hn, hz⟩ := h
    cases hn with
    | @node m' _ _ _ h1 h2 =>
    have h1' := h1
    cases h1 with
    | @node m _ _ _ h3 h4 =>
    simp only [half_odd, quarter_odd] at he
    split at he
    · next hk =>
      cases he
      simp only [wf_cons, wf_nil, and_true]
      exact ⟨.leaf x, ⟨h1', h2, hz⟩, by simp [Tree.elems], by simp [Tree.elems, hk]⟩
    · split at he
      · next hk =>
        cases he
        simp only [wf_cons, wf_nil, and_true]
        exact ⟨⟨.leaf x, .leaf y⟩, ⟨h3, h4, h2, hz⟩, by simp [Tree.elems], by simp [Tree.elems, hk]⟩
      · split at he
        · next hk =>
          cases he
          simp only [wf_cons, wf_nil, and_true]
          refine ⟨⟨.leaf x, h1'⟩, ⟨h2, hz⟩, by simp [Tree.elems], ?_⟩
          have := h1'.length
          simp only [elems_cons, elems_nil, List.append_nil, List.length_append, this]
          simp [Tree.elems]; omega
        · split at he
          · next hk =>
            cases he
            simp only [wf_cons, wf_nil, and_true]
            exact ⟨⟨.leaf x, .leaf y, h3⟩, ⟨h4, h2, hz⟩, by simp [Tree.elems],
              by simp [Tree.elems, h3.length]; omega⟩
          · cases he
  · next n x y t2 zs _ =>
    simp only [wf_cons] at h
    obtain ⟨hn, hz⟩ := h
    cases hn with
    | @node m' _ _ _ h1 h2 =>
    cases h1 with
    | leaf =>
    simp only [half_odd] at he
    split at he
    · next hk =>
      cases he
      simp only [wf_cons, wf_nil, and_true]
      exact ⟨.leaf x, ⟨.leaf y, h2, hz⟩, by simp [Tree.elems], by simp [Tree.elems, hk]⟩
    · split at he
      · next hk =>
        cases he
        simp only [wf_cons, wf_nil, and_true]
        exact ⟨⟨.leaf x, .leaf y⟩, ⟨h2, hz⟩, by simp [Tree.elems], by simp [Tree.elems, hk]⟩
      · cases he
  · cases he

/-- The forest starts with two singleton trees. -/
def StartsOneOne (s : SL α) : Prop := ∃ x y r, s = (1, .leaf x) :: (1, .leaf y) :: r

theorem specialPrefix_none {s : SL α} (h : WF s) (h2 : 2 ≤ s.length ∨ 2 ≤ (elems s).length) (k : Nat) :
    specialPrefix k s = none ↔ StartsOneOne s := by
  match s with
  | [] => simp at h2
  | (w, .leaf x) :: [] =>
    simp [Tree.elems] at h2
  | (w, .leaf x) :: (w', .leaf y) :: zs =>
    simp only [wf_cons] at h
    obtain ⟨hw, hw', hz⟩ := h
    cases hw; cases hw'
    simp only [specialPrefix, true_iff]
    exact ⟨x, y, zs, rfl⟩
  | (w, .leaf x) :: (w', .node y t1 t2) :: zs =>
    simp only [wf_cons] at h
    obtain ⟨hw, hw', hz⟩ := h
    cases hw
    have : ¬ StartsOneOne ((1, .leaf x) :: (w', .node y t1 t2) :: zs) := by
      rintro ⟨_, _, _, h⟩; simp at h
    simp only [this, iff_false]
    unfold specialPrefix; simp only
    split
    · simp
    · split <;> simp
  | (w, .node x (.node y t11 t12) t2) :: zs =>
    have : ¬ StartsOneOne ((w, .node x (.node y t11 t12) t2) :: zs) := by
      rintro ⟨_, _, _, h⟩; simp at h
    simp only [this, iff_false]
    have hw : w ≠ 1 := by
      simp only [wf_cons] at h
      obtain ⟨hw, hz⟩ := h
      cases hw with | node h1 h2 => have := h1.pos; omega
    unfold specialPrefix
    split
    · next heq => simp at heq; exact absurd heq.1.1 hw
    · simp only; repeat (split; · simp)
      simp
    · next heq => simp at heq
    · next _ hno _ => exact absurd rfl (hno _ _ _ _ _ _ _)
  | (w, .node x (.leaf y) t2) :: zs =>
    have : ¬ StartsOneOne ((w, .node x (.leaf y) t2) :: zs) := by
      rintro ⟨_, _, _, h⟩; simp at h
    simp only [this, iff_false]
    have hw : w ≠ 1 := by
      simp only [wf_cons] at h
      obtain ⟨hw, hz⟩ := h
      cases hw with | node h1 h2 => have := h1.pos; omega
    unfold specialPrefix
    split
    · next heq => simp at heq; exact absurd heq.1.1 hw
    · next heq => simp at heq
    · split
      · simp
      · split <;> simp
    · next _ _ hno => exact absurd rfl (hno _ _ _ _ _)

/-- Result of the shared splitting part. -/
theorem splitShared_spec {s : SL α} (h : WF s) (k : Nat) :
    (splitShared s k = none ↔ (elems s).length < k ∨ (StartsOneOne s ∧ ¬ IsPrefixSum s k)) ∧
    (∀ a b, splitShared s k = some (some (a, b)) → WF a ∧ WF b ∧ elems s = elems a ++ elems b ∧
      (elems a).length = k) ∧
    (splitShared s k = some none → k < (elems s).length) := by
  have hd : splitShared s k = match trivialPrefix s k s 0 0 with
      | none => none | some (some r) => some (some r) | some none => specialPrefix k s := by
    unfold splitShared; cases trivialPrefix s k s 0 0 with
    | none => rfl
    | some r => cases r <;> rfl
  rcases trivialPrefix_spec s h k s [] 0 0 rfl rfl rfl (by simp) with ⟨a, b, e, e1, e2⟩ | ⟨e, e1⟩ | ⟨e, e1⟩
  · rw [hd, e]
    have hk : ¬ (elems s).length < k := by rw [e1]; simp; omega
    refine ⟨?_, ?_, by simp⟩
    · simp only [reduceCtorEq, false_iff, not_or, not_and, Classical.not_not]
      exact ⟨hk, fun _ => ⟨a, b, e1, e2⟩⟩
    · intro a' b' he; cases he
      rw [e1] at h ⊢
      rw [wf_append] at h
      exact ⟨h.1, h.2, by simp, e2⟩
  · rw [hd, e]; simp [e1]
  · rw [hd, e]
    obtain ⟨h1, h2⟩ := e1 (Nat.zero_le _)
    have hge : 2 ≤ (elems s).length := by
      have : k ≠ 0 := by
        rintro rfl; exact h2 ⟨[], s, rfl, rfl⟩
      omega
    refine ⟨?_, ?_, fun _ => h1⟩
    · simp only [specialPrefix_none h (.inr hge)]
      constructor
      · exact fun hs => .inr ⟨hs, h2⟩
      · rintro (hl | hl)
        · omega
        · exact hl.1
    · intro a b he
      exact specialPrefix_spec h he

/-! #### canonical form -/

/-- Weights strictly increase, except that the first two may be equal. -/
def Canon (s : SL α) : Prop :=
  (s.map Prod.fst).Pairwise (· < ·) ∨
  ∃ a r, s.map Prod.fst = a :: a :: r ∧ (a :: r).Pairwise (· < ·)

theorem canon_of_weights {s : SL α} {s' : SL β} (h : s.map Prod.fst = s'.map Prod.fst) (hc : Canon s') : Canon s := by
  unfold Canon at *; rw [h]; exact hc

theorem cons_canon {s : SL α} (hw : WF s) (h : Canon s) (x : α) : Canon (cons x s) := by
  match s with
  | [] => left; simp [cons]
  | [(w, t)] =>
    have hp := hw (w, t) (by simp)
    have := hp.pos
    by_cases h1 : w = 1
    · right; subst h1; exact ⟨1, [], by simp [cons], by simp⟩
    · left; simp [cons]; omega
  | (w1, t1) :: (w2, t2) :: ts =>
    have hp := (hw (w1, t1) (by simp)).pos
    by_cases he : w1 = w2
    · subst he
      rcases h with h | ⟨a, r, h1, h2⟩
      · simp at h
      · simp only [List.map_cons, List.cons.injEq] at h1
        obtain ⟨rfl, -, rfl⟩ := h1
        have hge : ∀ q ∈ ts, 1 + w1 + w1 ≤ q.1 := by
          intro q hq
          have h3 := (List.pairwise_cons.1 h2).1 q.1 (List.mem_map.2 ⟨q, hq, rfl⟩)
          obtain ⟨j, hj1, hj2⟩ := (hw q (by simp [hq])).pow
          obtain ⟨i, hi1, hi2⟩ := (hw (w1, t1) (by simp)).pow
          have : i < j := by
            apply Decidable.byContradiction; intro hc
            have : 2 ^ j ≤ 2 ^ i := Nat.pow_le_pow_right (by omega) (by omega)
            simp at hi2; omega
          have : 2 ^ (i + 1) ≤ 2 ^ j := Nat.pow_le_pow_right (by omega) (by omega)
          rw [Nat.pow_succ] at this
          simp at hi2; omega
        have h2' := (List.pairwise_cons.1 h2).2
        cases ts with
        | nil => left; simp [cons]
        | cons q ts =>
          have hq := hge q (by simp)
          rw [List.map_cons] at h2'
          by_cases he : q.1 = 1 + w1 + w1
          · right
            exact ⟨q.1, ts.map Prod.fst, by simp [cons, he], h2'⟩
          · left
            simp only [cons, if_true, List.map_cons]
            rw [List.pairwise_cons]
            refine ⟨fun b hb => ?_, h2'⟩
            rcases List.mem_cons.1 hb with rfl | hb
            · omega
            · have := (List.pairwise_cons.1 h2').1 b hb; omega
    · have hc : (w1 :: w2 :: ts.map Prod.fst).Pairwise (· < ·) := by
        rcases h with h | ⟨a, r, h1, h2⟩
        · simpa using h
        · simp only [List.map_cons, List.cons.injEq] at h1
          omega
      by_cases h1 : w1 = 1
      · right; subst h1; exact ⟨1, w2 :: ts.map Prod.fst, by simp [cons, he], hc⟩
      · left
        simp only [cons, he, if_false, List.map_cons]
        rw [List.pairwise_cons]
        refine ⟨fun b hb => ?_, hc⟩
        rcases List.mem_cons.1 hb with rfl | hb
        · omega
        · have := (List.pairwise_cons.1 hc).1 b hb; omega

theorem canon_of_pairwise {w : Nat} {t : Tree α} {s : SL α} (h : Canon ((w, t) :: s)) :
    (s.map Prod.fst).Pairwise (· < ·) ∧ ∀ q ∈ s, w ≤ q.1 := by
  rcases h with h | ⟨a, r, h1, h2⟩
  · simp only [List.map_cons, List.pairwise_cons] at h
    exact ⟨h.2, fun q hq => Nat.le_of_lt (h.1 q.1 (List.mem_map.2 ⟨q, hq, rfl⟩))⟩
  · simp only [List.map_cons, List.cons.injEq] at h1
    obtain ⟨rfl, h1⟩ := h1
    rw [h1]
    refine ⟨h2, fun q hq => ?_⟩
    have : q.1 ∈ s.map Prod.fst := List.mem_map.2 ⟨q, hq, rfl⟩
    rw [h1] at this
    rcases List.mem_cons.1 this with h | h
    · omega
    · exact Nat.le_of_lt ((List.pairwise_cons.1 h2).1 _ h)

theorem canon_mm {m : Nat} {t1 t2 : Tree α} {s : SL α} (h : (s.map Prod.fst).Pairwise (· < ·))
    (h2 : ∀ q ∈ s, m < q.1) : Canon ((m, t1) :: (m, t2) :: s) := by
  right
  refine ⟨m, s.map Prod.fst, by simp, ?_⟩
  rw [List.pairwise_cons]
  refine ⟨fun b hb => ?_, h⟩
  obtain ⟨q, hq, rfl⟩ := List.mem_map.1 hb
  exact h2 q hq

theorem canon_m {m : Nat} {t1 : Tree α} {s : SL α} (h : (s.map Prod.fst).Pairwise (· < ·))
    (h2 : ∀ q ∈ s, m < q.1) : Canon ((m, t1) :: s) := by
  left
  rw [List.map_cons, List.pairwise_cons]
  refine ⟨fun b hb => ?_, h⟩
  obtain ⟨q, hq, rfl⟩ := List.mem_map.1 hb
  exact h2 q hq

theorem cdr_canon {s s' : SL α} (hw : WF s) (h : Canon s) (he : cdr s = some s') : Canon s' := by
  match s with
  | [] => simp [cdr] at he
  | (w, .leaf x) :: ts =>
    simp only [cdr, Option.some.injEq] at he; subst he
    exact .inl (canon_of_pairwise h).1
  | (w, .node x t1 t2) :: ts =>
    simp only [cdr, Option.some.injEq] at he; subst he
    obtain ⟨h1, h2⟩ := canon_of_pairwise h
    rw [wf_cons] at hw
    cases hw.1 with
    | node p1 p2 =>
      rw [half_odd]
      exact canon_mm h1 (fun q hq => by have := h2 q hq; have := p1.pos; omega)

/-- In canonical form, `cons` inverts `car`/`cdr`. -/
theorem cons_car_cdr {s : SL α} (hw : WF s) (h : Canon s) {x : α} {s' : SL α}
    (h1 : car s = some x) (h2 : cdr s = some s') : cons x s' = s := by
  match s with
  | [] => simp [cdr] at h2
  | (w, .leaf y) :: ts =>
    simp only [cdr, car, Option.some.injEq] at h1 h2; subst h1 h2
    rw [wf_cons] at hw
    cases hw.1
    have hp := (canon_of_pairwise h).1
    match ts with
    | [] => rfl
    | [_] => rfl
    | (a, _) :: (b, _) :: r =>
      simp only [List.map_cons, List.pairwise_cons] at hp
      have := hp.1 b (by simp)
      simp only [cons]; rw [if_neg (by omega)]
  | (w, .node y t1 t2) :: ts =>
    simp only [cdr, car, Option.some.injEq] at h1 h2; subst h1 h2
    rw [wf_cons] at hw
    cases hw.1 with
    | @node m _ _ _ p1 p2 =>
      simp only [half_odd, cons, if_true, List.cons.injEq, Prod.mk.injEq, and_true]
      omega

theorem canon_unique (l : List α) : ∀ (s s' : SL α), WF s → WF s' → Canon s → Canon s' →
    elems s = l → elems s' = l → s = s' := by
  induction l with
  | nil =>
    intro s s' _ _ _ _ h h'
    rw [elems_eq_nil.1 h, elems_eq_nil.1 h']
  | cons x l ih =>
    intro s s' hw hw' hc hc' h h'
    rcases cdr_spec hw with ⟨_, h2, _⟩ | ⟨t, d1, d2, d3, d4⟩
    · rw [h2] at h; cases h
    rcases cdr_spec hw' with ⟨_, h2, _⟩ | ⟨t', d1', d2', d3', d4'⟩
    · rw [h2] at h'; cases h'
    have e1 : car s = some x := by rw [car_eq, h]; rfl
    have e2 : car s' = some x := by rw [car_eq, h']; rfl
    have : t = t' := ih t t' d2 d2' (cdr_canon hw hc d1) (cdr_canon hw' hc' d1')
      (by rw [d4, h]; rfl) (by rw [d4', h']; rfl)
    subst this
    rw [← cons_car_cdr hw hc e1 d1, cons_car_cdr hw' hc' e2 d1']

theorem series_le (n : Nat) : ∀ m ∈ series n, m ≤ n := by
  intro m hm
  have h := (series_spec n).1
  have h2 := (series_spec n).2 m hm
  have hs : ∀ (l : List Nat), m ∈ l → m ≤ l.sum := by
    intro l; induction l with
    | nil => intro h; cases h
    | cons a l ih =>
      intro h; rw [List.sum_cons]
      rcases List.mem_cons.1 h with rfl | h
      · omega
      · have := ih h; omega
  have := hs _ hm
  omega

theorem series_canon (n : Nat) : (series n).Pairwise (· > ·) ∨
    ∃ a r, series n = r ++ [a, a] ∧ (r ++ [a]).Pairwise (· > ·) := by
  induction n using Nat.strongRecOn with
  | ind n ih =>
    unfold series
    split
    · left; simp
    · split
      · left; simp
      · next h0 h1 =>
        have a := log2_le n
        have a' := lt_log2 n
        have b := one_le_log2 (n := n) (by omega)
        have c : 2 ^ 1 ≤ 2 ^ Nat.log2 (n + 1) := Nat.pow_le_pow_right (by omega) b
        rw [Nat.pow_succ] at a'
        dsimp only
        generalize hk : 2 ^ Nat.log2 (n + 1) - 1 = k at *
        have hle := series_le (n - k)
        by_cases he : n - k = k
        · right
          refine ⟨k, [], ?_, by simp⟩
          rw [he]
          have hlog : Nat.log2 (k + 1) = Nat.log2 (n + 1) := by
            rw [show k + 1 = 2 ^ Nat.log2 (n + 1) by omega, Nat.log2_two_pow]
          have : series k = [k] := by
            unfold series
            rw [if_neg (by omega)]
            split
            · next h => simp [h]
            · simp only [hlog, hk]
              rw [Nat.sub_self]; simp [series]
          rw [this]; rfl
        · rcases ih (n - k) (by omega) with h | ⟨x, r, h, hp⟩
          · left
            rw [List.pairwise_cons]
            exact ⟨fun m hm => by have := hle m hm; omega, h⟩
          · right
            refine ⟨x, k :: r, by simp [h], ?_⟩
            rw [List.cons_append, List.pairwise_cons]
            refine ⟨fun m hm => ?_, hp⟩
            have := hle m (by rw [h]; simp at hm ⊢; rcases hm with hm | hm <;> simp [hm])
            omega

theorem ofList_canon {l : List α} {s : SL α} (h : ofList l = some s) : Canon s := by
  obtain ⟨s', h1, _, _, h4⟩ := ofList_spec l
  rw [h] at h1; cases h1
  unfold Canon
  rw [h4]
  rcases series_canon l.length with hp | ⟨a, r, he, hp⟩
  · left; rw [List.pairwise_reverse]; exact hp
  · right
    refine ⟨a, r.reverse, by simp [he], ?_⟩
    have := List.pairwise_reverse.2 hp
    simpa using this

theorem canon_take {s : SL α} (h : Canon s) (i : Nat) : Canon (List.take i s) := by
  rcases h with h | ⟨a, r, h1, h2⟩
  · left; rw [List.map_take]; exact h.take
  · unfold Canon
    rw [List.map_take, h1]
    match i with
    | 0 => left; simp
    | 1 => left; simp
    | i + 2 =>
      right
      refine ⟨a, r.take i, by simp, ?_⟩
      have := h2.take (i := i + 1)
      simpa using this

theorem canon_drop {s : SL α} (h : Canon s) (i : Nat) : Canon (List.drop i s) := by
  rcases h with h | ⟨a, r, h1, h2⟩
  · left; rw [List.map_drop]; exact h.drop
  · match i with
    | 0 => right; exact ⟨a, r, by simpa using h1, h2⟩
    | i + 1 =>
      left
      rw [List.map_drop, h1]
      simpa using h2.drop (i := i)

theorem trivialPrefix_canon {elts : SL α} (hc : Canon elts) (k : Nat) : ∀ (seq : SL α) (sum i : Nat) (a b : SL α),
    trivialPrefix elts k seq sum i = some (some (a, b)) → Canon a ∧ Canon b := by
  intro seq
  induction seq with
  | nil =>
    intro sum i a b h
    unfold trivialPrefix at h
    split at h
    · cases h; exact ⟨canon_take hc _, canon_drop hc _⟩
    · split at h <;> cases h
  | cons p seq ih =>
    intro sum i a b h
    obtain ⟨w, t⟩ := p
    unfold trivialPrefix at h
    split at h
    · cases h; exact ⟨canon_take hc _, canon_drop hc _⟩
    · split at h
      · exact ih _ _ _ _ h
      · cases h

theorem canon_nil : Canon ([] : SL α) := .inl (by simp)
theorem canon_one (p : Nat × Tree α) : Canon [p] := .inl (by simp)

theorem specialPrefix_canon {s : SL α} (h : WF s) (hc : Canon s) {k : Nat} {a b : SL α}
    (he : specialPrefix k s = some (some (a, b))) : Canon a ∧ Canon b := by
  unfold specialPrefix at he
  split at he
  · next x n y t1 t2 zs =>
    simp only [wf_cons] at h
    obtain ⟨hx, hn, hz⟩ := h
    cases hn with
    | @node m _ _ _ h1 h2 =>
    have hp := (canon_of_pairwise hc).1
    simp only [List.map_cons, List.pairwise_cons] at hp
    have hlt : ∀ q ∈ zs, m < q.1 := fun q hq => by
      have := hp.1 q.1 (List.mem_map.2 ⟨q, hq, rfl⟩); omega
    simp only [half_odd] at he
    split at he
    · cases he
      exact ⟨canon_mm (by simp) (by simp), canon_mm hp.2 hlt⟩
    · split at he
      · next hk =>
        cases he
        exact ⟨canon_mm (by simp) (by simp; omega), canon_m hp.2 hlt⟩
      · cases he
  · next n x y t11 t12 t2 zs _ =>
    simp only [wf_cons] at h
    obtain ⟨hn, hz⟩ := h
    cases hn with
    | @node m' _ _ _ h1 h2 =>
    cases h1 with
    | @node m _ _ _ h3 h4 =>
    obtain ⟨hp, hle⟩ := canon_of_pairwise hc
    have hlt : ∀ q ∈ zs, 2 * m + 1 < q.1 := fun q hq => by have := hle q hq; omega
    have hm := h3.pos
    simp only [half_odd, quarter_odd] at he
    have hp2 : (((2 * m + 1, t2) :: zs).map Prod.fst).Pairwise (· < ·) := by
      rw [List.map_cons, List.pairwise_cons]
      refine ⟨fun b hb => ?_, hp⟩
      obtain ⟨q, hq, rfl⟩ := List.mem_map.1 hb
      exact hlt q hq
    have hlt2 : ∀ q ∈ ((2 * m + 1, t2) :: zs), m < q.1 := by
      intro q hq
      rcases List.mem_cons.1 hq with rfl | hq
      · simp; omega
      · have := hlt q hq; omega
    split at he
    · cases he
      exact ⟨canon_one _, canon_mm hp hlt⟩
    · split at he
      · cases he
        exact ⟨canon_mm (by simp) (by simp), canon_mm hp2 hlt2⟩
      · split at he
        · cases he
          exact ⟨canon_m (by simp) (by simp; omega), canon_m hp hlt⟩
        · split at he
          · next hk =>
            cases he
            exact ⟨canon_mm (by simp) (by simp; omega), canon_m hp2 hlt2⟩
          · cases he
  · next n x y t2 zs _ =>
    simp only [wf_cons] at h
    obtain ⟨hn, hz⟩ := h
    cases hn with
    | @node m' _ _ _ h1 h2 =>
    cases h1 with
    | leaf =>
    obtain ⟨hp, hle⟩ := canon_of_pairwise hc
    have hlt : ∀ q ∈ zs, 1 < q.1 := fun q hq => by have := hle q hq; omega
    simp only [half_odd] at he
    split at he
    · cases he
      exact ⟨canon_one _, canon_mm hp hlt⟩
    · split at he
      · cases he
        exact ⟨canon_mm (by simp) (by simp), canon_m hp hlt⟩
      · cases he
  · cases he

theorem splitShared_canon {s : SL α} (h : WF s) (hc : Canon s) {k : Nat} {a b : SL α}
    (he : splitShared s k = some (some (a, b))) : Canon a ∧ Canon b := by
  unfold splitShared at he
  cases ht : trivialPrefix s k s 0 0 with
  | none => rw [ht] at he; cases he
  | some r =>
    rw [ht] at he
    cases r with
    | none => exact specialPrefix_canon h hc he
    | some r => cases he; exact trivialPrefix_canon hc k _ _ _ _ _ ht

end Gauche.SkewList
