import Verif.Proof.SortArray
import Verif.Proof.MergeSort
/-
C26: sorting.
-/
namespace Gauche.MergeSort
open Gauche.Spec

variable {α β κ : Type}

/-- **C26.**  `(sort v)` and `(sort! v)` on a vector without a comparison procedure: for every comparison function the
array accesses stay inside, the result is a rearrangement, and if the function orders the elements it is sorted. -/
theorem C26_sort_array (cmp : α → α → Int) (v : List α) : ∃ w, SortArray.sortArray cmp v = some w ∧ w.Perm v ∧
    (StrictWeak (fun x y => decide (cmp x y < 0)) → IsSorted (fun x y => decide (cmp x y < 0)) w) :=
  SortArray.sortArray_spec cmp v

/-- **C26.**  `(sort! l)` on a list without a comparison procedure: the same cells, in the same order, hold the sorted
elements, and no other pair changes. -/
theorem C26_sort_list_x (cmp : β → β → Int) (h : Heap β) (p : Option Nat) (cells : List Nat) (hl : Linked h.cdr p cells)
    (hsz : ∀ c ∈ cells, c < h.size) : ∃ h', sortListX cmp h p = some (h', p) ∧ h'.cdr = h.cdr ∧
      (cells.map h'.car).Perm (cells.map h.car) ∧
      (StrictWeak (fun x y => decide (cmp x y < 0)) → IsSorted (fun x y => decide (cmp x y < 0)) (cells.map h'.car)) ∧
      ∀ c, c ∉ cells → h'.car c = h.car c := by
  obtain ⟨w, a1, a2, a3⟩ := SortArray.sortArray_spec cmp (cells.map h.car)
  have hlen := Chain.length_le (Chain.nodup hl) hsz
  obtain ⟨h', b1, b2, b3, b4, b5⟩ := setCars_spec h p cells w hl (by simpa using a2.length_eq)
  refine ⟨h', ?_, b3, by rw [b4]; exact a2, by rw [b4]; exact a3, b5⟩
  unfold sortListX
  rw [toList_spec h _ p cells hl (by omega), Option.bind_some, a1, Option.bind_some, b1, Option.map_some]

/-- **C26.**  `stable-sort!` (and `sort!` with a comparison procedure) on a list: for every comparison procedure it
returns the pair it was given, which now heads a list of the same pairs holding a rearrangement of the elements; if the
procedure is an order this is the stable sort; no other pair changes. -/
theorem C26_stable_sort_x (less : β → β → Bool) (h : Heap β) (p : Option Nat) (cells : List Nat) (hl : Linked h.cdr p cells)
    (hsz : ∀ c ∈ cells, c < h.size) : ∃ h' cells', stableSortX less h p = some (h', p) ∧ Linked h'.cdr p cells' ∧
      cells'.Perm cells ∧ (cells'.map h'.car).Perm (cells.map h.car) ∧
      (StrictWeak less → IsStableSort less (cells.map h.car) (cells'.map h'.car)) ∧
      ∀ c, c ∉ cells → h'.car c = h.car c ∧ h'.cdr c = h.cdr c := by
  obtain ⟨h1, q, a1, a2⟩ := stableSortX0_spec (less := fun x y => some (less x y)) (lt := less) (S := fun _ => True)
    (fun _ _ _ _ => rfl) h p cells hl hsz (fun _ _ => trivial)
  obtain ⟨h2, b1, cs, b2, b3, b4, b5, b6⟩ := keepHead_spec hl hsz a2
  exact ⟨h2, cs, by unfold stableSortX; rw [a1]; exact b1, b3, b4, b5.1, b5.2, b6⟩

/-- **C26.**  The same with a key procedure: the elements are ordered by their keys, and the pairs hold the elements
themselves again. -/
theorem C26_stable_sort_by_x (less : κ → κ → Bool) (key : α → κ) (h : Heap (Box α κ)) (p : Option Nat) (cells : List Nat)
    (xs : List α) (hl : Linked h.cdr p cells) (hsz : ∀ c ∈ cells, c < h.size) (hx : cells.map h.car = xs.map .plain) :
    ∃ h' cells' ys, stableSortByX less key h p = some (h', p) ∧ Linked h'.cdr p cells' ∧ cells'.Perm cells ∧
      cells'.map h'.car = ys.map .plain ∧ ys.Perm xs ∧
      (StrictWeak (fun a b => less (key a) (key b)) → IsStableSort (fun a b => less (key a) (key b)) xs ys) ∧
      ∀ c, c ∉ cells → h'.car c = h.car c ∧ h'.cdr c = h.cdr c := by
  have hp : ∀ c ∈ cells, ∃ x, h.car c = .plain x := by
    intro c hc
    have : h.car c ∈ xs.map Box.plain := by rw [← hx]; exact List.mem_map_of_mem hc
    obtain ⟨x, _, e⟩ := List.mem_map.1 this
    exact ⟨x, e.symm⟩
  obtain ⟨h1, q, a1, a2, a3⟩ := stableSortX1_spec less key h p cells hl hsz hp
  obtain ⟨h2, b1, cs, b2, b3, b4, b5, b6⟩ := keepHead_spec hl hsz a2
  have hst := Stable.map (lt := fun a b => less (key a) (key b)) (f := (Box.elt : Box α κ → α))
    (fun z => ⟨.plain z, rfl⟩) b5
  have e1 : (cells.map h.car).map Box.elt = xs := by
    rw [hx, List.map_map]
    exact List.map_id _
  rw [e1] at hst
  refine ⟨h2, cs, (cs.map h2.car).map Box.elt, by unfold stableSortByX; rw [a1]; exact b1, b3, b4, ?_, hst.1, hst.2, b6⟩
  rw [List.map_map, List.map_map]
  refine List.map_congr_left fun c hc => ?_
  have : h2.car c ∈ xs.map Box.plain := by
    rw [← hx]; exact b5.1.mem_iff.1 (List.mem_map_of_mem hc)
  obtain ⟨x, _, e⟩ := List.mem_map.1 this
  simp only [Function.comp_apply]
  rw [← e]; rfl

/-- **C26.**  `stable-sort` (and `sort` with a comparison procedure) on a list. -/
theorem C26_stable_sort (less : β → β → Bool) (xs : List β) : ∃ ys, stableSort less xs = some ys ∧ ys.Perm xs ∧
    (StrictWeak less → IsStableSort less xs ys) := by
  cases xs with
  | nil => exact ⟨[], rfl, .refl _, (Stable.refl_of_length (by simp)).2⟩
  | cons x l =>
    obtain ⟨h1, q, a1, cs, a2, a3, a4, a5, a6⟩ := stableSortX0_spec (less := fun x y => some (less x y)) (lt := less)
      (S := fun _ => True) (fun _ _ _ _ => rfl) (ofList x l) (some 0) _ (ofList_chain x l) (fun c hc => List.mem_range.1 hc)
      (fun _ _ => trivial)
    rw [ofList_cars] at a5
    refine ⟨cs.map h1.car, ?_, a5.1, a5.2⟩
    have := a4.length_eq
    rw [List.length_range] at this
    unfold stableSort
    dsimp only
    rw [a1, Option.bind_some, toList_spec h1 _ q cs a3 (by rw [a2]; unfold ofList; simp only; omega)]

/-- **C26.**  `stable-sort` on a list, with a key procedure. -/
theorem C26_stable_sort_by (less : κ → κ → Bool) (key : α → κ) (xs : List α) : ∃ ys : List α,
    stableSortBy less key xs = some (ys.map .plain) ∧ ys.Perm xs ∧
    (StrictWeak (fun a b => less (key a) (key b)) → IsStableSort (fun a b => less (key a) (key b)) xs ys) := by
  cases xs with
  | nil => exact ⟨[], rfl, .refl _, (Stable.refl_of_length (by simp)).2⟩
  | cons x l =>
    have hcars : (List.range (x :: l).length).map (ofList (Box.plain x : Box α κ) (l.map .plain)).car = (x :: l).map .plain := by
      have := ofList_cars (Box.plain x : Box α κ) (l.map .plain)
      rw [List.length_cons, List.length_map] at this
      exact this
    have hch : Linked (ofList (Box.plain x : Box α κ) (l.map .plain)).cdr (some 0) (List.range (x :: l).length) := by
      have := ofList_chain (Box.plain x : Box α κ) (l.map .plain)
      rw [List.length_cons, List.length_map] at this
      exact this
    have hp : ∀ c ∈ List.range (x :: l).length, ∃ y, (ofList (Box.plain x : Box α κ) (l.map .plain)).car c = .plain y := by
      intro c hc
      have : (ofList (Box.plain x : Box α κ) (l.map .plain)).car c ∈ (x :: l).map Box.plain := by
        rw [← hcars]; exact List.mem_map_of_mem hc
      obtain ⟨y, _, e⟩ := List.mem_map.1 this
      exact ⟨y, e.symm⟩
    obtain ⟨h1, q, a1, ⟨cs, a2, a3, a4, a5, a6⟩, a7⟩ := stableSortX1_spec less key _ (some 0) _ hch
      (fun c hc => by unfold ofList; simpa using List.mem_range.1 hc) hp
    have hst := Stable.map (lt := fun a b => less (key a) (key b)) (f := (Box.elt : Box α κ → α))
      (fun z => ⟨.plain z, rfl⟩) a5
    rw [hcars] at hst a5
    have e1 : ((x :: l).map (Box.plain : α → Box α κ)).map Box.elt = x :: l := by
      rw [List.map_map]; exact List.map_id _
    rw [e1] at hst
    refine ⟨(cs.map h1.car).map Box.elt, ?_, hst.1, hst.2⟩
    have hl := a4.length_eq
    rw [List.length_range] at hl
    have e2 : ((cs.map h1.car).map Box.elt).map (Box.plain : α → Box α κ) = cs.map h1.car := by
      rw [List.map_map]
      conv_rhs => rw [← List.map_id (cs.map h1.car)]
      refine List.map_congr_left fun b hb => ?_
      obtain ⟨y, _, e⟩ := List.mem_map.1 (a5.1.mem_iff.1 hb)
      simp only [Function.comp_apply, id_eq]
      rw [← e]; rfl
    rw [e2]
    unfold stableSortBy
    dsimp only
    rw [a1, Option.bind_some, toList_spec h1 _ q cs a3 (by rw [a2, hl]; unfold ofList; simp)]

/-- **C26.**  `stable-sort!` on a vector (the vector afterwards). -/
theorem C26_stable_sort_vector_x (less : β → β → Bool) (v : List β) : ∃ w,
    stableSortVectorX0 (fun x y => some (less x y)) v = some w ∧ w.Perm v ∧ (StrictWeak less → IsStableSort less v w) := by
  obtain ⟨w, h1, h2⟩ := stableSortVectorX0_spec (less := fun x y => some (less x y)) (lt := less) (S := fun _ => True)
    (fun _ _ _ _ => rfl) v (fun _ _ => trivial)
  exact ⟨w, h1, h2.1, h2.2⟩

/-- **C26.**  `stable-sort!` and `stable-sort` on a vector, with a key procedure. -/
theorem C26_stable_sort_vector_by (less : κ → κ → Bool) (key : α → κ) (v : List α) : ∃ w,
    stableSortVectorX1 less key v = some w ∧ w.Perm v ∧
    (StrictWeak (fun a b => less (key a) (key b)) → IsStableSort (fun a b => less (key a) (key b)) v w) := by
  obtain ⟨w, h1, h2⟩ := stableSortVectorX0_spec (less := fun (a b : α × κ) => some (less a.2 b.2))
    (lt := fun a b => less (key a.1) (key b.1)) (S := fun a => a.2 = key a.1) (fun x y hx hy => by rw [hx, hy])
    (v.map fun x => (x, key x)) (by simp)
  have := Stable.map (lt := fun a b => less (key a) (key b)) (f := (Prod.fst : α × κ → α)) (fun z => ⟨(z, key z), rfl⟩) h2
  rw [List.map_map] at this
  have e : v.map (Prod.fst ∘ fun x => (x, key x)) = v := List.map_id _
  rw [e] at this
  refine ⟨w.map (·.1), ?_, this.1, this.2⟩
  unfold stableSortVectorX1
  rw [h1]; rfl

/-- **C26.**  `stable-sort` on a vector. -/
theorem C26_stable_sort_vector (less : β → β → Bool) (v : List β) : ∃ w, stableSortVector less v = some w ∧ w.Perm v ∧
    (StrictWeak less → IsStableSort less v w) := by
  cases v with
  | nil => exact ⟨[], rfl, .refl _, (Stable.refl_of_length (by simp)).2⟩
  | cons x l =>
    obtain ⟨h1, cs, a1, a2, a3, a4, a5, a6⟩ := C26_stable_sort_x less (ofList x l) (some 0) _ (ofList_chain x l)
      (fun c hc => List.mem_range.1 hc)
    rw [ofList_cars] at a4 a5
    refine ⟨cs.map h1.car, ?_, a4, a5⟩
    have := a3.length_eq
    rw [List.length_range] at this
    have hsz : h1.size = (ofList x l).size := by
      obtain ⟨h1', q', c1, c2⟩ := stableSortX0_spec (less := fun x y => some (less x y)) (lt := less)
        (S := fun _ => True) (fun _ _ _ _ => rfl) (ofList x l) (some 0) _ (ofList_chain x l) (fun c hc => List.mem_range.1 hc)
        (fun _ _ => trivial)
      obtain ⟨h2', d1, _, d2, _⟩ := keepHead_spec (ofList_chain x l) (fun c hc => List.mem_range.1 hc) c2
      unfold stableSortX at a1
      rw [c1, Option.bind_some, d1] at a1
      cases a1
      exact d2
    unfold stableSortVector
    dsimp only
    rw [a1, Option.bind_some, toList_spec h1 _ (some 0) cs a2 (by rw [hsz]; unfold ofList; simp only; omega)]

/-! ### merge, merge! and sorted? -/

theorem mergeLoop_spec (less : κ → κ → Bool) (key : α → κ) (fuel : Nat) (x y : α) (a b : List α) (hf : a.length + b.length < fuel) :
    mergeLoop less key fuel x (key x) a y (key y) b = some (mg (fun u v => less (key u) (key v)) (x :: a) (y :: b)) := by
  induction fuel generalizing x y a b with
  | zero => omega
  | succ fuel ih =>
    rw [mergeLoop.eq_def]
    dsimp only
    by_cases hl : less (key y) (key x) = true
    · rw [if_pos hl, mg_lt (lt := fun u v => less (key u) (key v)) hl]
      cases b with
      | nil => rw [mg_nil]
      | cons y' b' => dsimp only; rw [ih x y' a b' (by simp at hf; omega)]; rfl
    · rw [if_neg hl]
      rw [Bool.not_eq_true] at hl
      rw [mg_ge (lt := fun u v => less (key u) (key v)) hl]
      cases a with
      | nil => rw [nil_mg]
      | cons x' a' => dsimp only; rw [ih x' y a' b (by simp at hf; omega)]; rfl

/-- **C26.**  `merge` of two lists: a rearrangement of both, for every comparison procedure; if it is an order and both are
sorted, the result is the stable sort of their concatenation. -/
theorem C26_merge (less : κ → κ → Bool) (key : α → κ) (a b : List α) : ∃ c, merge less key a b = some c ∧ c.Perm (a ++ b) ∧
    (StrictWeak (fun u v => less (key u) (key v)) → IsSorted (fun u v => less (key u) (key v)) a →
      IsSorted (fun u v => less (key u) (key v)) b → IsStableSort (fun u v => less (key u) (key v)) (a ++ b) c) := by
  refine ⟨mg (fun u v => less (key u) (key v)) a b, ?_, mg_perm _ _ _, fun ho ha hb => ?_⟩
  · cases a with
    | nil => rw [nil_mg]; cases b <;> rfl
    | cons x a =>
      cases b with
      | nil => rw [mg_nil]; rfl
      | cons y b => exact mergeLoop_spec less key _ x y a b (by omega)
  · exact (Stable.merge (lt := fun u v => less (key u) (key v)) ⟨.refl _, fun _ => ⟨.refl _, ha, fun _ => rfl⟩⟩
      ⟨.refl _, fun _ => ⟨.refl _, hb, fun _ => rfl⟩⟩).2 ho

/-- **C26.**  `merge!` links the pairs of both lists into one list in the same way, and changes no other pair. -/
theorem C26_merge_x (less : κ → κ → Bool) (key : β → κ) (h : Heap β) (p q : Option Nat) (as bs : List Nat)
    (ha : Linked h.cdr p as) (hb : Linked h.cdr q bs) (hd : ∀ c ∈ as, c ∉ bs) (hsz : ∀ c ∈ as ++ bs, c < h.size) :
    ∃ h' s cs, mergeX (fun x y => some (less x y)) key h p q = some (h', s) ∧ Linked h'.cdr s cs ∧ cs.Perm (as ++ bs) ∧
      h'.car = h.car ∧ (∀ c, c ∉ as ++ bs → h'.cdr c = h.cdr c) ∧
      (StrictWeak (fun u v => less (key u) (key v)) → IsSorted (fun u v => less (key u) (key v)) (as.map h.car) →
        IsSorted (fun u v => less (key u) (key v)) (bs.map h.car) →
        IsStableSort (fun u v => less (key u) (key v)) (as.map h.car ++ bs.map h.car) (cs.map h.car)) := by
  have hnd : (as ++ bs).Nodup := by
    refine List.nodup_append.2 ⟨Chain.nodup ha, Chain.nodup hb, fun x hx y hy e => hd x hx (e ▸ hy)⟩
  obtain ⟨h', s, m1, m2, m3, m4, m5⟩ := mergeX_spec (less := fun x y => some (less x y)) (key := key)
    (lt := fun u v => less (key u) (key v)) (S := fun _ => True) (fun _ _ _ _ => rfl) h p q as bs ha hb hnd hsz
    (fun _ _ => trivial)
  refine ⟨h', s, _, m1, m5, mg_perm _ _ _, m3, m4, fun ho sa sb => ?_⟩
  rw [mg_map (fun u v => less (key u) (key v)) h.car]
  exact (Stable.merge (lt := fun u v => less (key u) (key v)) ⟨.refl _, fun _ => ⟨.refl _, sa, fun _ => rfl⟩⟩
      ⟨.refl _, fun _ => ⟨.refl _, sb, fun _ => rfl⟩⟩).2 ho

theorem sortedLoop_spec (less : κ → κ → Bool) (key : α → κ) (ho : StrictWeak fun u v => less (key u) (key v)) (x : α) (l : List α) :
    sortedLoop less key (key x) l = true ↔ IsSorted (fun u v => less (key u) (key v)) (x :: l) := by
  induction l generalizing x with
  | nil => simp [sortedLoop, IsSorted]
  | cons y l ih =>
    rw [sortedLoop, Bool.and_eq_true, ih y, Bool.not_eq_true']
    constructor
    · rintro ⟨h1, h2⟩
      refine List.pairwise_cons.2 ⟨fun w hw => ?_, h2⟩
      exact ho.negTrans w y x (le_of_mem_sorted ho h2 hw) h1
    · intro h
      exact ⟨(List.pairwise_cons.1 h).1 y (by simp), (List.pairwise_cons.1 h).2⟩

/-- **C26.**  `sorted?` holds of exactly the sorted sequences. -/
theorem C26_sorted (less : κ → κ → Bool) (key : α → κ) (ho : StrictWeak fun u v => less (key u) (key v)) (l : List α) :
    isSorted less key l = true ↔ IsSorted (fun u v => less (key u) (key v)) l := by
  cases l with
  | nil => simp [isSorted, IsSorted]
  | cons x l => exact sortedLoop_spec less key ho x l

/-! ### Examples -/

/-- `<` on numbers is an order. -/
example : StrictWeak fun (x y : Nat) => decide (x < y) := ⟨by intro x y; simp; omega, by intro x y z; simp; omega⟩
example : SortArray.sortArray (fun (x y : Int) => x - y) [3, 1, 2, 5, 4, 1] = some [1, 1, 2, 3, 4, 5] := by decide +kernel
example : stableSort (fun (x y : Nat × Nat) => decide (x.1 < y.1)) [(3, 0), (1, 1), (3, 2), (1, 3), (0, 4)] =
    some [(0, 4), (1, 1), (1, 3), (3, 0), (3, 2)] := by decide +kernel
/-- A list in a heap whose pairs are not in address order. -/
def exHeap : Heap Nat := ⟨5, fun i => [30, 10, 20, 40, 5].getD i 0, fun i => [some 2, none, some 1, some 0, none].getD i none⟩
example : Linked exHeap.cdr (some 3) [3, 0, 2, 1] := ⟨rfl, rfl, rfl, rfl, rfl⟩
example : (stableSortX (fun x y => decide (x < y)) exHeap (some 3)).map (fun q => (q.2, toList q.1 9 q.2)) =
    some (some 3, some [10, 20, 30, 40]) := by decide +kernel
example : merge (fun x y => decide (x < y)) id [1, 3, 5] [2, 3, 9] = some [1, 2, 3, 3, 5, 9] := by decide +kernel

end Gauche.MergeSort
