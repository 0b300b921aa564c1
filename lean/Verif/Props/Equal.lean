import Verif.Proof.EqualTerm
/-! C81: `equal?` on data with sharing and cycles. -/
namespace Gauche.Equal

/-- C81: `equal?` returns on every finite heap, for every pair of values and for everything that the random number generator may return; the depth of the recursion and
the number of rounds are linear in the number of objects. -/
theorem C81_terminates {H : Heap} (hH : HeapOK H) (rnd : Nat → Nat) {x y : Val} (hx : VOK H x) (hy : VOK H y) {n : Nat} (hn : 805 * H.length + 402 ≤ n) :
    ∃ b, equalP H rnd n x y = some b := equalP_total hH rnd hx hy hn

/-- C81: when `equal?` says that two data differ, their unfoldings differ. -/
theorem C81_false {H : Heap} {rnd : Nat → Nat} {n : Nat} {x y : Val} (h : equalP H rnd n x y = some false) : ¬ SameTree H x y := (equalP_ok h).1 rfl

/-- C81: `equal?` decides whether two data unfold to the same tree, unless both are circular lists.  (Full statement: without this hypothesis; it is false, see
`C81_bug_circular`.  Circular lists with a pair or a vector among the elements that the C routine looks at are handed to the Scheme routine, which is right for all data:
`C81_interleave`.) -/
theorem C81_decides_partial {H : Heap} {rnd : Nat → Nat} {n : Nat} {x y : Val} {b : Bool} (h : equalP H rnd n x y = some b)
    (hc : ¬ (CircularList H x ∧ CircularList H y)) : b = true ↔ SameTree H x y := by
  obtain ⟨h1, h2⟩ := equalP_ok h
  constructor
  · intro hb
    rcases h2 hb with h | ⟨K, k1, k2, hk1, hk2, hm1, hm2, ha⟩
    · exact h
    · exfalso
      exact hc ⟨circular_of_meet hm1 (fun i hi => (ha i (by omega)).1), circular_of_meet hm2 (fun i hi => (ha i (by omega)).2.1)⟩
  · intro hs
    cases b with
    | true => rfl
    | false => exact absurd hs (h1 rfl)

/-- C81: circular lists that come back to their first pair are compared right. -/
theorem C81_circular_pure {H : Heap} {rnd : Nat → Nat} {n : Nat} {x y : Val} {b : Bool} (h : equalP H rnd n x y = some b)
    (hx : CircularList H x) (hy : CircularList H y) {p q : Nat} (hp : 0 < p) (hq : 0 < q) (hpx : follow H (List.replicate p 1) x = some x)
    (hqy : follow H (List.replicate q 1) y = some y) : b = true ↔ SameTree H x y := by
  obtain ⟨h1, h2⟩ := equalP_ok h
  have ex : nth H p x = x := by
    have := (nth_of_follow hx p).1
    rw [hpx] at this; exact (Option.some.inj this).symm
  have ey : nth H q y = y := by
    have := (nth_of_follow hy q).1
    rw [hqy] at this; exact (Option.some.inj this).symm
  constructor
  · intro hb
    rcases h2 hb with h | ⟨K, k1, k2, hk1, hk2, hm1, hm2, ha⟩
    · exact h
    · exact same_of_periods (Nat.succ_pos k1) (Nat.succ_pos k2) (meet_pure hp ex hm1) (meet_pure hq ey hm2) (fun i hi => ha i (by omega))
  · intro hs
    cases b with
    | true => rfl
    | false => exact absurd hs (h1 rfl)

/-- C81: the Scheme routine `%interleave-equal?` decides whether two data unfold to the same tree, for all data. -/
theorem C81_interleave {H : Heap} {rnd : Nat → Nat} {n : Nat} {x y : Val} {b : Bool} (h : interleave H rnd n x y = some b) : b = true ↔ SameTree H x y :=
  interleave_ok h

/-- The list of pairs for `(a a b . #0=(a a b a . #0#))` at 0 to 6 and `#1=(a a b . #1#)` at 7 to 9. -/
def bugHeap : Heap :=
  [.pair (.leaf (.imm 0)) (.ptr 1), .pair (.leaf (.imm 0)) (.ptr 2), .pair (.leaf (.imm 1)) (.ptr 3),
   .pair (.leaf (.imm 0)) (.ptr 4), .pair (.leaf (.imm 0)) (.ptr 5), .pair (.leaf (.imm 1)) (.ptr 6), .pair (.leaf (.imm 0)) (.ptr 3),
   .pair (.leaf (.imm 0)) (.ptr 8), .pair (.leaf (.imm 0)) (.ptr 9), .pair (.leaf (.imm 1)) (.ptr 7)]

/-- C81 is false for circular lists in general: `(equal? '(a a b . #0=(a a b a . #0#)) '#1=(a a b . #1#))` is `#t`, but the ninth elements of the lists are `a` and `b`. -/
theorem C81_bug_circular (rnd : Nat → Nat) (n : Nat) : equalP bugHeap rnd (n + 4) (.ptr 0) (.ptr 7) = some true ∧
    follow bugHeap (List.replicate 8 1 ++ [0]) (.ptr 0) = some (.leaf (.imm 0)) ∧ follow bugHeap (List.replicate 8 1 ++ [0]) (.ptr 7) = some (.leaf (.imm 1)) ∧
    ¬ SameTree bugHeap (.ptr 0) (.ptr 7) := by
  refine ⟨rfl, by decide +kernel, by decide +kernel, fun h => ?_⟩
  have := h (List.replicate 8 1 ++ [0])
  revert this
  decide +kernel

/-! ### the hypotheses are met -/

/-- A heap with shared and circular structure: `#0=(1 . #(#0# "x"))` at 0, 1 and `#1=(1 . #((1 . #(#1# "x")) "x"))` at 2 to 5. -/
def exHeap : Heap :=
  [.pair (.leaf (.int 1)) (.ptr 1), .vec [.ptr 0, .leaf (.str 0 ['x'])],
   .pair (.leaf (.int 1)) (.ptr 3), .vec [.ptr 4, .leaf (.str 1 ['x'])], .pair (.leaf (.int 1)) (.ptr 5), .vec [.ptr 2, .leaf (.str 2 ['x'])]]

theorem exHeap_ok : HeapOK exHeap := by
  intro v w hv hw
  cases v with
  | leaf a => simp [kids] at hw
  | ptr p =>
    have hp : p < 6 := hv
    have : ∀ p, p < 6 → ∀ w ∈ kids exHeap (.ptr p), (match w with | .leaf _ => true | .ptr q => decide (q < 6)) = true := by decide +kernel
    have := this p hp w hw
    cases w with
    | leaf a => trivial
    | ptr q => exact (of_decide_eq_true this : q < 6)

example (rnd : Nat → Nat) : ∃ b, equalP exHeap rnd 6000 (.ptr 0) (.ptr 2) = some b :=
  C81_terminates exHeap_ok rnd (x := .ptr 0) (y := .ptr 2) (show 0 < 6 by decide) (show 2 < 6 by decide) (by decide +kernel)

/-- The two circular data are the same. -/
example : SameTree exHeap (.ptr 0) (.ptr 2) := by
  have hb' : equalP exHeap (fun _ => 5) 6000 (.ptr 0) (.ptr 2) = some true := by decide +kernel
  refine (C81_decides_partial hb' ?_).1 rfl
  rintro ⟨h, _⟩
  obtain ⟨v, h1, h2⟩ := h 1
  have : follow exHeap (List.replicate 1 1) (.ptr 0) = some (.ptr 1) := by decide +kernel
  rw [this] at h1; cases h1
  revert h2
  decide +kernel

example : equalP exHeap (fun _ => 5) 6000 (.ptr 0) (.ptr 4) = some true := by decide +kernel
example : equalP exHeap (fun _ => 5) 6000 (.ptr 1) (.leaf (.imm 0)) = some false := by decide +kernel
/-- Strings are compared by content. -/
example : equalP exHeap (fun _ => 5) 6000 (.leaf (.str 0 ['x'])) (.leaf (.str 1 ['x'])) = some true := by decide +kernel

/-- `#0=(a . #0#)` and `#1=(a a . #1#)`. -/
def circHeap : Heap := [.pair (.leaf (.imm 0)) (.ptr 0), .pair (.leaf (.imm 0)) (.ptr 2), .pair (.leaf (.imm 0)) (.ptr 1)]

example : equalP circHeap (fun _ => 0) 5 (.ptr 0) (.ptr 1) = some true ∧ follow circHeap (List.replicate 1 1) (.ptr 0) = some (.ptr 0) ∧
    follow circHeap (List.replicate 2 1) (.ptr 1) = some (.ptr 1) := by decide +kernel

end Gauche.Equal
