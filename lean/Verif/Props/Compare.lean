import Verif.Proof.Compare
/-! C93: `compare` is a total order. -/
namespace Gauche.Compare

/-- Everything is equal to itself. -/
theorem C93_refl (rnd : Rat → Rat) (hr : Monotone rnd) (x : D) : cmp rnd x x = .eq := by
  rw [cmp_key rnd hr, lex_refl]

/-- The opposite comparison gives the opposite answer. -/
theorem C93_swap (rnd : Rat → Rat) (hr : Monotone rnd) (x y : D) : cmp rnd y x = (cmp rnd x y).swap := by
  rw [cmp_key rnd hr, cmp_key rnd hr, lex_swap]

/-- Only the same data are equal. -/
theorem C93_eq (rnd : Rat → Rat) (hr : Monotone rnd) (x y : D) : cmp rnd x y = .eq ↔ x = y :=
  ⟨cmp_eq rnd x y, fun h => by rw [h]; exact C93_refl rnd hr y⟩

/-- The order is transitive. -/
theorem C93_trans (rnd : Rat → Rat) (hr : Monotone rnd) (x y z : D) (h1 : cmp rnd x y = .lt) (h2 : cmp rnd y z = .lt) : cmp rnd x z = .lt := by
  rw [cmp_key rnd hr] at h1 h2 ⊢
  exact lex_trans _ _ _ h1 h2

/-- Data of different types are in the order of the types. -/
theorem C93_types (rnd : Rat → Rat) (x y : D) (h : x.tag < y.tag) : cmp rnd x y = .lt := by
  rw [cmp_tag rnd x y (Nat.ne_of_lt h), if_pos h]

/-- Lists are in lexicographic order. -/
theorem C93_lists (rnd : Rat → Rat) : ∀ xs ys : List D, cmp rnd (list xs) (list ys) = lexOrd (cmp rnd) xs ys
  | [], [] => by rw [list, cmp.eq_def]; rfl
  | [], _ :: _ => by rw [list, list, cmp.eq_def]; rfl
  | _ :: _, [] => by rw [list, list, cmp]; rfl
  | x :: xs, y :: ys => by
    rw [list, list, cmp, lexOrd, C93_lists rnd xs ys]
    cases cmp rnd x y <;> rfl

/-- A shorter vector is smaller; vectors of the same length are in lexicographic order. -/
theorem C93_vectors (rnd : Rat → Rat) (xs ys : List D) : cmp rnd (.vec xs) (.vec ys) =
    match cmpN xs.length ys.length with
    | .eq => lexOrd (cmp rnd) xs ys
    | o => o := by
  have elems : ∀ xs ys : List D, xs.length = ys.length → cmpElems rnd xs ys = lexOrd (cmp rnd) xs ys := by
    intro xs
    induction xs with
    | nil =>
      intro ys h
      cases ys with
      | nil => rw [cmpElems]; rfl
      | cons _ _ => cases h
    | cons x xs ih =>
      intro ys h
      cases ys with
      | nil => cases h
      | cons y ys =>
        rw [cmpElems, lexOrd, ih ys (by simpa using h)]
        cases cmp rnd x y <;> rfl
  rw [cmp, cmpN]
  by_cases h1 : xs.length < ys.length
  · rw [if_pos h1, if_pos h1]
  · rw [if_neg h1, if_neg h1]
    by_cases h2 : xs.length > ys.length
    · rw [if_pos h2, if_pos h2]
    · rw [if_neg h2, if_neg h2, elems xs ys (by omega)]

/-- Strings are in the lexicographic order of their bytes, which for complete strings is that of their characters (C43). -/
theorem C93_strings (rnd : Rat → Rat) (s t : List Nat) : cmp rnd (.str s false) (.str t false) = lexOrd cmpN s t := by
  have bytes : ∀ s t : List Nat, bytesCmp s t = lexOrd cmpN s t := by
    intro s
    induction s with
    | nil => intro t; cases t <;> rfl
    | cons a s ih =>
      intro t
      cases t with
      | nil => rfl
      | cons b t => rw [bytesCmp_cons, lexOrd, ih t]; cases cmpN a b <;> rfl
  rw [cmp, strCmp_bytes, bytes]
  cases lexOrd cmpN s t <;> rfl

/-- Real numbers are in their order, whatever the conversion to doubles does. -/
theorem C93_reals (rnd : Rat → Rat) (p q : Rat) : cmp rnd (.num (.real p)) (.num (.real q)) = .lt ↔ p < q := by
  rw [cmp]
  exact ⟨cmpR_isLt, cmpR_lt⟩

/-! ## Lists without end -/

/-- If two circular lists are found to be different, then the answer is given by the first elements in which they differ. -/
theorem C93_circular_partial (carx cdrx cary cdry : Nat → Nat) (n px py : Nat) (o : Ordering) (ho : o ≠ .eq)
    (h : circular carx cdrx cary cdry n px px py py false false = some o) :
    ∃ i, (∀ j, j < i → nthElem carx cdrx px j = nthElem cary cdry py j) ∧ cmpN (nthElem carx cdrx px i) (nthElem cary cdry py i) = o :=
  circular_sound carx cdrx cary cdry o ho n px px py py false false h

/-- For two lists that come back to their first pairs, the answer that they are equal is right. -/
theorem C93_circular_equal_partial (carx cdrx cary cdry : Nat → Nat) (n px py m m' : Nat) (hm : 0 < m) (hx : cdrx^[m] px = px) (hm' : 0 < m')
    (hy : cdry^[m'] py = py) (h : circular carx cdrx cary cdry n px px py py false false = some .eq) :
    ∀ i, nthElem carx cdrx px i = nthElem cary cdry py i := by
  obtain ⟨k, a, b, c, d, hR⟩ := circular_eq carx cdrx cary cdry px py n 0 px px py py false false
    ⟨rfl, rfl, rfl, rfl, fun h => (by cases h), fun h => (by cases h), fun i hi => absurd hi (by omega)⟩ h
  obtain ⟨i, i1, i2, i3⟩ := hR.cx rfl
  obtain ⟨j, j1, j2, j3⟩ := hR.cy rfl
  have hi := period_of_pure hm hx i3
  have hj := period_of_pure hm' hy j3
  intro l
  rw [nthElem_iterate, nthElem_iterate]
  exact same_of_periods (x := fun l => carx (cdrx^[l] px)) (y := fun l => cary (cdry^[l] py)) i1 j1
    (fun l => by rw [Function.iterate_add_apply, hi]) (fun l => by rw [Function.iterate_add_apply, hj])
    (fun l hl => hR.same l (by omega)) l

/-- The loop comes to an end for all circular lists (those whose pairs come again after some pair). -/
theorem C93_circular_ends (carx cdrx cary cdry : Nat → Nat) (px py i j : Nat) (hi : 0 < i) (hx : cdrx^[2 * i] px = cdrx^[i] px) (hj : 0 < j)
    (hy : cdry^[2 * j] py = cdry^[j] py) : circular carx cdrx cary cdry (max i j) px px py py false false ≠ none := by
  intro h
  exact circular_none carx cdrx cary cdry px py (max i j) 0 px px py py false false rfl rfl rfl rfl (by omega) h
    ⟨Or.inr ⟨i, hi, by omega, hx⟩, Or.inr ⟨j, hj, by omega, hy⟩⟩

/-- `#0=(0 1 . #0#)` and `(0 1 0 . #1=(1 0 1 . #1#))` are found to be equal, but differ in the element with number 6. -/
theorem C93_bug_circular :
    circular (fun i => [0, 1].getD i 0) (fun i => [1, 0].getD i 0) (fun i => [0, 1, 0, 1, 0, 1].getD i 0) (fun i => [1, 2, 3, 4, 5, 3].getD i 0)
      5 0 0 0 0 false false = some .eq ∧
    nthElem (fun i => [0, 1].getD i 0) (fun i => [1, 0].getD i 0) 0 6 = 0 ∧
    nthElem (fun i => [0, 1, 0, 1, 0, 1].getD i 0) (fun i => [1, 2, 3, 4, 5, 3].getD i 0) 0 6 = 1 := by decide

/-! ## Concrete cases -/

-- a conversion that is not the identity
example : Monotone (fun q => (q.floor : Rat)) := by
  intro p q h
  show ((p.floor : Int) : Rat) ≤ (q.floor : Int)
  exact_mod_cast Rat.floor_monotone h
example : cmp id (list [.char 97, .bool false]) (list [.char 97, .bool true, .null]) = .lt := by
  rw [C93_lists]; simp [lexOrd, cmp]
example : cmp id (.vec [.str [97] false, .sym [98]]) (.vec [.str [97] false, .usym [98] 5]) = .lt := by decide +kernel
example : cmp id (.num (.comp ⟨1, -2, by decide⟩)) (.num (.real 1)) = .lt := by decide +kernel
example : cmp id (.uvec .u8 [5, 6]) (.uvec .s8 [1]) = .lt := by decide +kernel
example : cmp id (.obj ⟨[97], [[98], [99]], 1⟩ 0) (.obj ⟨[97], [[98]], 2⟩ 0) = .lt := by decide +kernel
example : circular (fun i => [0, 1].getD i 0) (fun i => [1, 0].getD i 0) (fun i => [0, 1, 2].getD i 0) (fun i => [1, 2, 0].getD i 0)
    5 0 0 0 0 false false = some .lt := by decide

-- the hypotheses hold for `#0=(0 1 . #0#)` and `#0=(0 1 0 1 . #0#)`
example : ∀ i, nthElem (fun i => [0, 1].getD i 0) (fun i => [1, 0].getD i 0) 0 i =
    nthElem (fun i => [0, 1, 0, 1].getD i 0) (fun i => [1, 2, 3, 0].getD i 0) 0 i :=
  C93_circular_equal_partial _ _ _ _ 5 0 0 2 4 (by omega) (by decide) (by omega) (by decide) (by decide)

end Gauche.Compare
