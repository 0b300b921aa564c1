import Verif.Proof.IDeque
/-
Properties C06 (refinement to lists) and C07 (balance) for data.ideque.

Specification: a deque denotes the list `toList d` (= what `ideque->list` returns).
`Reach d` says that `d` can be obtained by the public constructors and operations.
-/
namespace Gauche.IDeque

/-- All deques obtainable through the public API (any history). -/
inductive Reach : {α : Type} → DQ α → Prop
  | empty : Reach (empty : DQ α)
  | make (n : Nat) (x : α) : Reach (make n x)
  | ofList {l : List α} {d} : ofList l = some d → Reach d
  | tabulate (n : Nat) (g : Nat → α) : Reach (tabulate n g)
  | addFront {d d' : DQ α} {x} : Reach d → addFront d x = some d' → Reach d'
  | addBack {d d' : DQ α} {x} : Reach d → addBack d x = some d' → Reach d'
  | removeFront {d d' : DQ α} : Reach d → removeFront d = some d' → Reach d'
  | removeBack {d d' : DQ α} : Reach d → removeBack d = some d' → Reach d'
  | reverse {d : DQ α} : Reach d → Reach (reverse d)
  | take {d d' : DQ α} {n} : Reach d → take d n = some d' → Reach d'
  | takeRight {d d' : DQ α} {n} : Reach d → takeRight d n = some d' → Reach d'
  | drop {d d' : DQ α} {n} : Reach d → drop d n = some d' → Reach d'
  | dropRight {d d' : DQ α} {n} : Reach d → dropRight d n = some d' → Reach d'
  | splitAt {d : DQ α} {n p} : Reach d → splitAt d n = some p → Reach p.1
  | splitAt' {d : DQ α} {n p} : Reach d → splitAt d n = some p → Reach p.2
  | append {ds : List (DQ α)} {d} : (∀ d ∈ ds, Reach d) → append ds = some d → Reach d
  | map {α β : Type} {d : DQ α} (g : α → β) : Reach d → Reach (map g d)
  | map2 {α β γ : Type} {d : DQ α} {e : DQ β} {c} (g : α → β → γ) :
      Reach d → Reach e → map2 g d e = some c → Reach c
  | filterMap {α β : Type} {d : DQ α} {d' : DQ β} (g : α → Option β) :
      Reach d → filterMap g d = some d' → Reach d'
  | filter {d d' : DQ α} {p} : Reach d → filter p d = some d' → Reach d'
  | remove {d d' : DQ α} {p} : Reach d → remove p d = some d' → Reach d'
  | partition {d : DQ α} {p q} : Reach d → partition p d = some q → Reach q.1
  | partition' {d : DQ α} {p q} : Reach d → partition p d = some q → Reach q.2
  | takeWhile {d d' : DQ α} {p} : Reach d → takeWhile p d = some d' → Reach d'
  | takeWhileRight {d d' : DQ α} {p} : Reach d → takeWhileRight p d = some d' → Reach d'
  | dropWhile {d d' : DQ α} {p} : Reach d → dropWhile p d = some d' → Reach d'
  | dropWhileRight {d d' : DQ α} {p} : Reach d → dropWhileRight p d = some d' → Reach d'
  | span {d : DQ α} {p q} : Reach d → span p d = some q → Reach q.1
  | span' {d : DQ α} {p q} : Reach d → span p d = some q → Reach q.2

private theorem of_yields {o : Option (DQ α)} {l d} (h : Yields o l) (he : o = some d) : Inv d := by
  obtain ⟨d', h1, h2, _⟩ := h
  rw [he] at h1; cases h1; exact h2

private theorem check_inv {n m : Nat} {f r : List α} {d} (hn : n = f.length) (hm : m = r.length)
    (h : check n f m r = some d) : Inv d := of_yields (check_yields hn hm rfl) h

/-- Every deque obtainable through the API satisfies the representation invariant. -/
theorem reach_inv {α : Type} {d : DQ α} (h : Reach d) : Inv d := by
  induction h with
  | empty => exact inv_empty
  | make n x => exact inv_make n x
  | ofList h => exact of_yields (ofList_yields _) h
  | tabulate n g => exact inv_tabulate n g
  | addFront _ h ih => exact of_yields (addFront_yields ih _) h
  | addBack _ h ih => exact of_yields (addBack_yields ih _) h
  | @removeFront _ d d' _ h ih =>
    by_cases he : toList d = []
    · rw [removeFront_nil ih he] at h; cases h
    · exact of_yields (removeFront_yields ih he) h
  | @removeBack _ d d' _ h ih =>
    by_cases he : toList d = []
    · rw [removeBack_nil ih he] at h; cases h
    · exact of_yields (removeBack_yields ih he) h
  | reverse _ ih => exact inv_reverse ih
  | take _ h ih =>
    unfold take at h; split at h
    · next hl => simp [lengthOk] at hl; exact of_yields (take'_yields ih (by omega)) h
    · cases h
  | takeRight _ h ih =>
    unfold takeRight at h; split at h
    · exact of_yields (drop'_yields ih (by omega)) h
    · cases h
  | drop _ h ih =>
    unfold drop at h; split at h
    · next hl => simp [lengthOk] at hl; exact of_yields (drop'_yields ih (by omega)) h
    · cases h
  | dropRight _ h ih =>
    unfold dropRight at h; split at h
    · exact of_yields (take'_yields ih (by omega)) h
    · cases h
  | @splitAt _ d n p _ h ih =>
    unfold splitAt at h; split at h
    · next hl =>
      simp [lengthOk] at hl
      obtain ⟨a, ha, ia, _⟩ := take'_yields ih (n := n.toNat) (by omega)
      obtain ⟨b, hb, ib, _⟩ := drop'_yields ih (n := n.toNat) (by omega)
      rw [ha, hb] at h; cases h; exact ia
    · cases h
  | @splitAt' _ d n p _ h ih =>
    unfold splitAt at h; split at h
    · next hl =>
      simp [lengthOk] at hl
      obtain ⟨a, ha, ia, _⟩ := take'_yields ih (n := n.toNat) (by omega)
      obtain ⟨b, hb, ib, _⟩ := drop'_yields ih (n := n.toNat) (by omega)
      rw [ha, hb] at h; cases h; exact ib
    · cases h
  | append _ h _ => exact of_yields (ofList_yields _) h
  | map g _ ih => exact inv_map ih g
  | map2 g _ _ h _ _ => exact of_yields (ofList_yields _) h
  | filterMap g _ h _ => exact check_inv rfl rfl h
  | filter _ h _ => exact check_inv rfl rfl h
  | remove _ h _ => exact check_inv rfl rfl h
  | @partition _ d p q _ h _ =>
    obtain ⟨a, ha, ia, _⟩ := check_spec (d.f.filter p) (d.r.filter p)
    obtain ⟨b, hb, ib, _⟩ := check_spec (d.f.filter (not ∘ p)) (d.r.filter (not ∘ p))
    simp only [partition, List.partition_eq_filter_filter, ha, hb] at h
    cases h; exact ia
  | @partition' _ d p q _ h _ =>
    obtain ⟨a, ha, ia, _⟩ := check_spec (d.f.filter p) (d.r.filter p)
    obtain ⟨b, hb, ib, _⟩ := check_spec (d.f.filter (not ∘ p)) (d.r.filter (not ∘ p))
    simp only [partition, List.partition_eq_filter_filter, ha, hb] at h
    cases h; exact ib
  | takeWhile _ h ih => exact of_yields (takeWhile_yields ih _) h
  | @takeWhileRight _ d d' p _ h ih =>
    obtain ⟨a, ha, ia, _⟩ := takeWhile_yields (inv_reverse ih) p
    simp only [takeWhileRight, ha] at h; cases h; exact inv_reverse ia
  | dropWhile _ h ih => exact of_yields (dropWhile_yields ih _) h
  | @dropWhileRight _ d d' p _ h ih =>
    obtain ⟨a, ha, ia, _⟩ := dropWhile_yields (inv_reverse ih) p
    simp only [dropWhileRight, ha] at h; cases h; exact inv_reverse ia
  | span _ h ih =>
    obtain ⟨a, b, hs, ia, ib, _⟩ := span_yields ih _
    rw [hs] at h; cases h; exact ia
  | span' _ h ih =>
    obtain ⟨a, b, hs, ia, ib, _⟩ := span_yields ih _
    rw [hs] at h; cases h; exact ib

/-! ### C07: balance -/

/-- C07: in every deque reachable by any history, neither chain is longer than three times the
other plus one, and the recorded chain lengths are exact. -/
theorem ideque_balanced {α : Type} {d : DQ α} (h : Reach d) :
    d.lenf = d.f.length ∧ d.lenr = d.r.length ∧
    d.f.length ≤ 3 * d.r.length + 1 ∧ d.r.length ≤ 3 * d.f.length + 1 := by
  obtain ⟨h1, h2, h3, h4⟩ := reach_inv h
  exact ⟨h1, h2, by omega, by omega⟩

/-! ### C06: refinement to lists.  Each theorem says the operation succeeds exactly when it
should and denotes the corresponding list operation. -/

/-- An operation result `o` denotes list `l`: it did not raise, and the deque's list is `l`. -/
def Denotes (o : Option (DQ α)) (l : List α) : Prop := ∃ d, o = some d ∧ toList d = l

private theorem den {o : Option (DQ α)} {l} (h : Yields o l) : Denotes o l :=
  let ⟨d, h1, _, h3⟩ := h; ⟨d, h1, h3⟩

section
variable {α β γ : Type}

theorem ideque_make (n : Nat) (x : α) : toList (make n x) = List.replicate n x := toList_make n x
theorem ideque_ofList (l : List α) : Denotes (ofList l) l := den (ofList_yields l)
theorem ideque_tabulate (n : Nat) (g : Nat → α) : toList (tabulate n g) = (List.range n).map g :=
  toList_tabulate n g
theorem ideque_empty (d : DQ α) (h : Reach d) : isEmpty d = true ↔ toList d = [] :=
  isEmpty_iff (reach_inv h)
theorem ideque_addFront (d : DQ α) (h : Reach d) (x : α) : Denotes (addFront d x) (x :: toList d) :=
  den (addFront_yields (reach_inv h) x)
theorem ideque_addBack (d : DQ α) (h : Reach d) (x : α) : Denotes (addBack d x) (toList d ++ [x]) :=
  den (addBack_yields (reach_inv h) x)
/-- `ideque-front` errors (`none`) iff empty, else is the first element. -/
theorem ideque_front (d : DQ α) (h : Reach d) : front d = (toList d).head? := front_eq (reach_inv h)
theorem ideque_back (d : DQ α) (h : Reach d) : back d = (toList d).getLast? := back_eq (reach_inv h)
theorem ideque_removeFront (d : DQ α) (h : Reach d) :
    (toList d = [] → removeFront d = none) ∧
    (∀ x l, toList d = x :: l → Denotes (removeFront d) l) := by
  refine ⟨removeFront_nil (reach_inv h), fun x l hl => ?_⟩
  have := den (removeFront_yields (reach_inv h) (by simp [hl]))
  simpa [hl] using this
theorem ideque_removeBack (d : DQ α) (h : Reach d) :
    (toList d = [] → removeBack d = none) ∧
    (∀ x l, toList d = l ++ [x] → Denotes (removeBack d) l) := by
  refine ⟨removeBack_nil (reach_inv h), fun x l hl => ?_⟩
  have := den (removeBack_yields (reach_inv h) (by simp [hl]))
  simpa [hl] using this
theorem ideque_reverse (d : DQ α) (h : Reach d) : toList (reverse d) = (toList d).reverse :=
  toList_reverse (reach_inv h)
theorem ideque_length (d : DQ α) (h : Reach d) : length d = (toList d).length :=
  length_eq (reach_inv h)
/-- `ideque-ref` errors iff the index is negative or past the end. -/
theorem ideque_ref (d : DQ α) (h : Reach d) (n : Int) :
    ref d n = if n < 0 then none else (toList d)[n.toNat]? := ref_eq (reach_inv h) n

private theorem lengthOk_iff (d : DQ α) (h : Reach d) (n : Int) :
    lengthOk d n = true ↔ 0 ≤ n ∧ n ≤ (toList d).length := by
  simp [lengthOk, length_eq (reach_inv h)]

/-- in-range `ideque-take`/`drop`/`take-right`/`drop-right`/`split-at`. -/
theorem ideque_take_drop (d : DQ α) (h : Reach d) (n : Nat) (hn : n ≤ (toList d).length) :
    Denotes (take d n) ((toList d).take n) ∧
    Denotes (drop d n) ((toList d).drop n) ∧
    Denotes (takeRight d n) ((toList d).drop ((toList d).length - n)) ∧
    Denotes (dropRight d n) ((toList d).take ((toList d).length - n)) ∧
    (∃ a b, splitAt d n = some (a, b) ∧ toList a = (toList d).take n ∧ toList b = (toList d).drop n) := by
  have hi := reach_inv h
  have hl := (lengthOk_iff d h n).2 ⟨by omega, by omega⟩
  have hle := length_eq hi
  have e1 := take'_yields hi (n := n) (by omega)
  have e2 := drop'_yields hi (n := n) (by omega)
  refine ⟨?_, ?_, ?_, ?_, ?_⟩
  · rw [take, if_pos hl]; exact den e1
  · rw [drop, if_pos hl]; exact den e2
  · rw [takeRight, if_pos hl, ← hle]; exact den (drop'_yields hi (by omega))
  · rw [dropRight, if_pos hl, ← hle]; exact den (take'_yields hi (by omega))
  · obtain ⟨a, ha, _, la⟩ := e1
    obtain ⟨b, hb, _, lb⟩ := e2
    exact ⟨a, b, by rw [splitAt, if_pos hl]; simp [ha, hb], la, lb⟩

/-- out-of-range arguments raise an error. -/
theorem ideque_take_drop_error (d : DQ α) (h : Reach d) (n : Int)
    (hn : n < 0 ∨ (toList d).length < n) :
    take d n = none ∧ drop d n = none ∧ takeRight d n = none ∧ dropRight d n = none ∧
    splitAt d n = none := by
  have : ¬ lengthOk d n = true := by rw [lengthOk_iff d h]; omega
  simp [take, drop, takeRight, dropRight, splitAt, this]

theorem ideque_append (ds : List (DQ α)) : Denotes (append ds) (ds.map toList).flatten :=
  den (ofList_yields _)
theorem ideque_count (d : DQ α) (p : α → Bool) : count p d = (toList d).countP p := by
  simp [count, toList]
theorem ideque_map (d : DQ α) (g : α → β) : toList (map g d) = (toList d).map g := toList_map d g
theorem ideque_map2 (d : DQ α) (e : DQ β) (g : α → β → γ) :
    Denotes (map2 g d e) (List.zipWith g (toList d) (toList e)) := den (ofList_yields _)
theorem ideque_filterMap (d : DQ α) (g : α → Option β) :
    Denotes (filterMap g d) ((toList d).filterMap g) :=
  den (check_yields rfl rfl (by simp [toList]))
theorem ideque_filter (d : DQ α) (p : α → Bool) :
    Denotes (filter p d) ((toList d).filter p) ∧
    Denotes (remove p d) ((toList d).filter (fun x => !p x)) :=
  ⟨den (check_yields rfl rfl (by simp [toList])), den (check_yields rfl rfl (by simp [toList]))⟩
theorem ideque_partition (d : DQ α) (p : α → Bool) :
    ∃ a b, partition p d = some (a, b) ∧ toList a = (toList d).filter p ∧
      toList b = (toList d).filter (fun x => !p x) := by
  obtain ⟨a, ha, _, la⟩ := check_spec (d.f.filter p) (d.r.filter p)
  obtain ⟨b, hb, _, lb⟩ := check_spec (d.f.filter (not ∘ p)) (d.r.filter (not ∘ p))
  refine ⟨a, b, by simp [partition, List.partition_eq_filter_filter, ha, hb], ?_, ?_⟩
  · rw [la]; simp [toList]
  · rw [lb]; simp only [toList, List.filter_append, List.filter_reverse]; rfl
theorem ideque_forEach (d : DQ α) :
    forEachTrace d = toList d ∧ forEachRightTrace d = (toList d).reverse := by
  simp [forEachTrace, forEachRightTrace, toList]
theorem ideque_fold (d : DQ α) (k : α → β → β) (z : β) :
    fold k z d = (toList d).foldl (fun a x => k x a) z ∧
    foldRight k z d = (toList d).foldr k z := by
  constructor
  · simp only [fold, foldS_eq, toList, List.foldl_append]
  · simp only [foldRight, toList, List.foldr_append]
/-- `ideque-find` finds the first, `ideque-find-right` the last satisfying element. -/
theorem ideque_find (d : DQ α) (p : α → Bool) :
    find p d = (toList d).find? p ∧ findRight p d = (toList d).reverse.find? p := by
  constructor
  · simp only [find, search, seek_eq, toList, List.find?_append]
    cases d.f.find? p <;> simp
  · simp only [findRight, search, seek_eq, toList, List.reverse_append, List.reverse_reverse,
      List.find?_append]
    cases d.r.find? p <;> simp
theorem ideque_takeWhile (d : DQ α) (h : Reach d) (p : α → Bool) :
    Denotes (takeWhile p d) ((toList d).takeWhile p) ∧
    Denotes (takeWhileRight p d) ((toList d).reverse.takeWhile p).reverse ∧
    Denotes (dropWhile p d) ((toList d).dropWhile p) ∧
    Denotes (dropWhileRight p d) ((toList d).reverse.dropWhile p).reverse := by
  have hi := reach_inv h
  refine ⟨den (takeWhile_yields hi p), ?_, den (dropWhile_yields hi p), ?_⟩
  · obtain ⟨a, ha, ia, la⟩ := takeWhile_yields (inv_reverse hi) p
    exact ⟨reverse a, by simp [takeWhileRight, ha], by rw [toList_reverse ia, la, toList_reverse hi]⟩
  · obtain ⟨a, ha, ia, la⟩ := dropWhile_yields (inv_reverse hi) p
    exact ⟨reverse a, by simp [dropWhileRight, ha], by rw [toList_reverse ia, la, toList_reverse hi]⟩
theorem ideque_span (d : DQ α) (h : Reach d) (p : α → Bool) :
    ∃ a b, span p d = some (a, b) ∧ toList a = (toList d).takeWhile p ∧
      toList b = (toList d).dropWhile p := by
  obtain ⟨a, b, h1, _, _, h2, h3⟩ := span_yields (reach_inv h) p
  exact ⟨a, b, h1, h2, h3⟩
theorem ideque_any_every (d : DQ α) (p : α → Option β) (q : α → Bool) :
    any p d = (toList d).findSome? p ∧ every q d = (toList d).all q := by
  constructor
  · simp only [any, toList, List.findSome?_append]
    split
    · next h => simp only [List.isEmpty_iff] at h; simp [h]
    · cases d.f.findSome? p <;> simp
  · simp only [every, toList, List.all_append]
    split
    · next h => simp only [List.isEmpty_iff] at h; simp [h]
    · rfl

/-- Elementwise equality of two lists of the same length, the specification of `ideque=`. -/
def AllEq (eq : α → α → Bool) (a b : List α) : Prop :=
  a.length = b.length ∧ ∀ i (h : i < a.length) (h' : i < b.length), eq a[i] b[i] = true

theorem listEq_iff (eq : α → α → Bool) : ∀ a b : List α, listEq eq a b = true ↔ AllEq eq a b := by
  intro a
  induction a with
  | nil => intro b; cases b <;> simp [listEq, AllEq]
  | cons x a ih =>
    intro b
    cases b with
    | nil => simp [listEq, AllEq]
    | cons y b =>
      simp only [listEq, Bool.and_eq_true, ih, AllEq, List.length_cons, Nat.add_right_cancel_iff]
      constructor
      · rintro ⟨h0, hl, h⟩
        refine ⟨hl, fun i h1 h2 => ?_⟩
        cases i with
        | zero => exact h0
        | succ i => exact h i (by omega) (by omega)
      · rintro ⟨hl, h⟩
        exact ⟨h 0 (by omega) (by omega), hl, fun i h1 h2 => h (i+1) (by omega) (by omega)⟩

/-- `ideque=` on two deques with a symmetric element predicate: true iff the lists have equal length and
are elementwise equal (the code compares part of the elements with the arguments swapped, hence
symmetry). -/
theorem ideque_eq (d1 d2 : DQ α) (h1 : Reach d1) (h2 : Reach d2) (eq : α → α → Bool)
    (hs : ∀ x y, eq x y = eq y x) : eq2 eq d1 d2 = true ↔ AllEq eq (toList d1) (toList d2) := by
  obtain ⟨lf, f, lr, r⟩ := d1
  obtain ⟨lf', f', lr', r'⟩ := d2
  obtain ⟨hf, hr, -, -⟩ := reach_inv h1
  obtain ⟨hf', hr', -, -⟩ := reach_inv h2
  simp only at hf hr hf' hr'
  subst hf hr hf' hr'
  rw [← listEq_iff]
  simp only [eq2, toList]
  by_cases hlen : f.length + r.length = f'.length + r'.length
  · simp only [hlen, if_true]
    rcases @listPrefixEq_spec _ eq f f' with ⟨p, q, e1, e2⟩ | ⟨k, hk, e1, e2⟩
    · simp [e1, e2]
    · simp only [e1, if_true]
      rcases @listPrefixEq_spec _ eq r r' with ⟨p, q, e3, e4⟩ | ⟨m, hm, e3, e4⟩
      · have : listEq eq (f ++ r.reverse) (f' ++ r'.reverse) = false := by
          rw [← listEq_reverse]; simpa using e4 f.reverse f'.reverse
        simp [e3, this]
      · simp only [e3, if_true]
        rw [Bool.eq_iff_iff.1]
        by_cases hle : f.length ≤ f'.length
        · have hk' : k = f.length := by omega
          have hm' : m = r'.length := by omega
          subst hk'; subst hm'
          simp only [List.drop_length, List.isEmpty_nil, if_true]
          simp only [List.take_length] at e2 e4
          have hA : listEq eq (f ++ r.reverse) (f' ++ r'.reverse)
              = listEq eq (r.drop r'.length).reverse (f'.drop f.length) := by
            conv_lhs => rw [← List.take_append_drop f.length f', ← List.take_append_drop r'.length r]
            rw [List.append_assoc, listEq_append _ _ _ _ _ (by simp; omega), e2, List.reverse_append,
              listEq_append _ _ _ _ _ (by simp; omega), listEq_reverse (a := r.take r'.length), e4]
            simp
          rw [hA, listEq_comm eq hs]
        · have hk' : k = f'.length := by omega
          have hm' : m = r.length := by omega
          subst hk'; subst hm'
          have : (f.drop f'.length).isEmpty = false := by
            rw [Bool.eq_false_iff]; intro hc
            have := congrArg List.length (List.isEmpty_iff.1 hc); simp at this; omega
          simp only [this, Bool.false_eq_true, if_false]
          simp only [List.take_length] at e2 e4
          have hA : listEq eq (f ++ r.reverse) (f' ++ r'.reverse)
              = listEq eq (f.drop f'.length) (r'.drop r.length).reverse := by
            conv_lhs => rw [← List.take_append_drop f'.length f, ← List.take_append_drop r.length r']
            rw [List.append_assoc, listEq_append _ _ _ _ _ (by simp; omega), e2, List.reverse_append,
              listEq_append _ _ _ _ _ (by simp; omega), listEq_reverse (b := r'.take r.length), e4]
            simp
          rw [hA]
  · simp only [hlen, if_false, Bool.false_eq_true, false_iff]
    intro hc
    have := listEq_length hc
    simp at this; exact hlen this

/-- Running `ideque->generator` yields exactly the elements in order, then eof forever. -/
theorem ideque_generator (d : DQ α) (h : Reach d) :
    (toList d = [] → genStep d = some (none, d)) ∧
    (∀ x l, toList d = x :: l → ∃ d', genStep d = some (some x, d') ∧ Reach d' ∧ toList d' = l) := by
  have hi := reach_inv h
  constructor
  · intro he; simp [genStep, (isEmpty_iff hi).2 he]
  · intro x l hl
    have hne : ¬ isEmpty d = true := by rw [isEmpty_iff hi]; simp [hl]
    obtain ⟨d', h1, h2⟩ := (ideque_removeFront d h).2 x l hl
    refine ⟨d', ?_, .removeFront h h1, h2⟩
    have hf : front d = some x := by rw [front_eq hi, hl]; rfl
    simp [genStep, hne, h1, hf]
end

/-! ### Non-vacuity -/
/-- A reachable deque with a non-trivial rebalanced shape. -/
example : ∃ d : DQ Nat, Reach d ∧ toList d = [0, 1, 2, 3, 4, 5] ∧ d.f = [0, 1, 2] := by
  obtain ⟨d, h⟩ : ∃ d, ofList [1, 2, 3, 4, 5] = some d := ⟨_, rfl⟩
  obtain ⟨d', h'⟩ : ∃ d', addFront d 0 = some d' := by cases h; exact ⟨_, rfl⟩
  exact ⟨d', .addFront (.ofList h) h', by cases h; cases h'; exact ⟨rfl, rfl⟩⟩
example : ∃ d : DQ Nat, Reach d ∧ toList d = [7] ∧ d.f = [] := ⟨make 1 7, .make 1 7, rfl, rfl⟩
-- Without the balance invariant `ideque-remove-front` would lose elements:
example : removeFront (⟨0, [], 2, [1, 2]⟩ : DQ Nat) = some empty := rfl

end Gauche.IDeque
