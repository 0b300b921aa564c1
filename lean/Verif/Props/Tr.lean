import Verif.Proof.Tr
/-! C97: transliteration. -/
namespace Gauche.Tr

/-- The table gives, for every character, the image: the character at the place of its first occurrence, #f if there is none at that place, and
#t if it does not occur; whatever the size of the table is. -/
theorem C97_table (size : Nat) (fs ts : List Seg) (hf : ValidFrom size fs) (i : Nat) :
    tableRef (fillTable (newTable size) fs ts) i = image (expand fs) (expand ts) i := by
  have h := fillTable_eq i fs ts (newTable size) hf
  have h0 : tableRef (newTable size) i = .notIn := by
    rw [tableRef, newTable]
    by_cases h : i < size
    · exact if_pos h
    · exact if_neg h
  rw [h, if_pos h0]

/-- Without `:squeeze` every character is replaced by its image, or dropped with `:delete` if it has none. -/
theorem C97_tr_partial (size : Nat) (fs ts : List Seg) (hf : ValidFrom size fs) (d : Bool) (xs : List Nat) :
    tr size fs ts d false xs = xs.flatMap (written (expand fs) (expand ts) d) := by
  have h : ∀ (xs : List Nat) (prev : Option Nat), trLoop (fillTable (newTable size) fs ts) d false xs prev =
      xs.flatMap (written (expand fs) (expand ts) d) := by
    intro xs
    induction xs with
    | nil => exact fun _ => rfl
    | cons x xs ih =>
      intro prev
      rw [trLoop, C97_table size fs ts hf, List.flatMap_cons, written]
      cases image (expand fs) (expand ts) x with
      | notIn => dsimp only; rw [ih]; rfl
      | char c => dsimp only; rw [if_neg (fun h => by simp at h), ih]; rfl
      | noImage =>
        dsimp only
        cases d with
        | true => rw [if_pos rfl, ih]; rfl
        | false => rw [if_neg (by simp), if_neg (fun h => by simp at h), ih]; rfl
  exact h xs none

/-- With `:squeeze` a replaced character that follows the same replaced character is left out, and those not to be replaced are all kept. -/
theorem C97_squeeze (size : Nat) (fs ts : List Seg) (hf : ValidFrom size fs) (d : Bool) (xs : List Nat) :
    tr size fs ts d true xs = squeezed (xs.flatMap (marked (expand fs) (expand ts) d)) := by
  have h : ∀ (xs : List Nat) (p : Option (Nat × Bool)),
      trLoop (fillTable (newTable size) fs ts) d true xs (p.bind fun q => if q.2 then some q.1 else none) =
      ((p :: (xs.flatMap (marked (expand fs) (expand ts) d)).map some).zip (xs.flatMap (marked (expand fs) (expand ts) d))).filterMap
        (fun p => if p.2.2 = true ∧ p.1 = some p.2 then none else some p.2.1) := by
    intro xs
    induction xs with
    | nil => exact fun _ => rfl
    | cons x xs ih =>
      intro p
      have hp : ∀ c : Nat, ((p.bind fun q => if q.2 then some q.1 else none) = some c) ↔ p = some (c, true) := by
        intro c
        cases p with
        | none => simp
        | some q => obtain ⟨a, b⟩ := q; cases b <;> simp
      rw [trLoop, C97_table size fs ts hf, List.flatMap_cons, marked]
      cases image (expand fs) (expand ts) x with
      | notIn =>
        dsimp only
        have e := ih (some (x, false))
        simp only [Option.bind_some, Bool.false_eq_true, if_false] at e
        rw [e]
        simp
      | char c =>
        dsimp only
        have e := ih (some (c, true))
        simp only [Option.bind_some, if_true] at e
        rw [e]
        by_cases hc : p = some (c, true)
        · rw [if_pos ⟨rfl, (hp c).2 hc⟩]; simp [hc]
        · rw [if_neg (fun h => hc ((hp c).1 h.2))]; simp [hc]
      | noImage =>
        dsimp only
        cases d with
        | true => rw [if_pos rfl, ih]; rfl
        | false =>
          have e := ih (some (x, true))
          simp only [Option.bind_some, if_true] at e
          rw [if_neg (by simp), e]
          by_cases hc : p = some (x, true)
          · rw [if_pos ⟨rfl, (hp x).2 hc⟩]; simp [hc]
          · rw [if_neg (fun h => hc ((hp x).1 h.2))]; simp [hc]
  exact h xs none

/-- The image of the `n`th character, if it has not occurred before, is the `n`th character. -/
theorem C97_image (fs ts : List Nat) (n : Nat) (hn : n < fs.length) (hfirst : fs[n] ∉ fs.take n) : image fs ts fs[n] = entryOf ts[n]? := by
  induction fs generalizing ts n with
  | nil => exact absurd hn (by simp)
  | cons f fs ih =>
    cases n with
    | zero => rw [List.getElem_cons_zero, image, if_pos rfl]; cases ts <;> rfl
    | succ n =>
      rw [List.getElem_cons_succ] at hfirst ⊢
      rw [List.take_succ_cons, List.mem_cons] at hfirst
      rw [image, if_neg (fun e => hfirst (Or.inl e.symm)), ih ts.tail n (by simpa using hn) (fun h => hfirst (Or.inr h)), List.getElem?_tail]

/-- A range of characters stands for all its characters, if it does not cross the size of the table. -/
theorem C97_range_partial (fromi toi size : Nat) (h : fromi ≤ toi) (hs : toi < size ∨ size ≤ fromi) :
    expand (rangeSegs fromi toi size) = (List.range (toi + 1 - fromi)).map (fromi + ·) ∧ ValidFrom size (rangeSegs fromi toi size) := by
  rw [rangeSegs, if_neg (by omega)]
  refine ⟨by rw [expand_cons]; simp [chars, expand], fun s hm => ?_⟩
  rw [List.mem_singleton] at hm
  subst hm
  exact ⟨fun e => (by cases e), fun e => by dsimp only at e ⊢; omega⟩

/-- A range that crosses the size of the table, which is 256 unless another one is given, lacks its last character. -/
theorem C97_bug_range (fromi toi size : Nat) (h1 : fromi < size) (h2 : size ≤ toi) :
    expand (rangeSegs fromi toi size) = (List.range (toi - fromi)).map (fromi + ·) ∧ toi ∉ expand (rangeSegs fromi toi size) := by
  have e : expand (rangeSegs fromi toi size) = (List.range (toi - fromi)).map (fromi + ·) := by
    rw [rangeSegs, if_pos ⟨h1, h2⟩, expand_cons, expand_cons]
    simp only [chars, expand, List.flatMap_nil, List.append_nil, if_true]
    rw [show toi - fromi = (size - fromi) + (toi - size) by omega, List.range_add, List.map_append, List.map_map]
    congr 1
    refine List.map_congr_left (fun x _ => ?_)
    show size + x = fromi + (size - fromi + x)
    omega
  refine ⟨e, ?_⟩
  rw [e, List.mem_map]
  intro ⟨x, hx, hx2⟩
  rw [List.mem_range] at hx
  omega

/-- The complement of an array that is in ascending order, without common characters, is the list of all other characters up to the largest one, in
ascending order, and is a valid array itself. -/
theorem C97_complement_partial (size max : Nat) (a : List Seg) (ha : Ascending max 0 a) (hv : ValidFrom size a) :
    expand (complement size max a 0) = (List.range (max + 1)).filter (fun x => x ∉ expand a) ∧ ValidFrom size (complement size max a 0) := by
  refine ⟨?_, complement_valid size max a 0⟩
  rw [complement_eq size max a 0 (Nat.zero_le _) ha (fun s hs => (hv s hs).1), Nat.sub_zero, List.range_eq_range']

/-- When a character is in a range and also given by itself, the complement contains the characters of the range behind it: `a-z` and `c`. -/
theorem C97_bug_complement : 100 ∈ expand (complement 256 300 [⟨26, 97, true⟩, ⟨1, 99, false⟩] 0) ∧
    100 ∈ expand [⟨26, 97, true⟩, ⟨1, 99, false⟩] := by decide +kernel

/-- So `(string-tr str "\xf0;-\x110;" "A")` leaves U+0110 as it is, and with `"\xf0;-\x110;z"` all images from there on are shifted by one. -/
theorem C97_bug_range_tr : tr 256 (rangeSegs 0xf0 0x110 256 ++ [⟨1, 122, false⟩]) (rangeSegs 0x3b0 0x3d0 256 ++ [⟨1, 90, false⟩]) false false [0x110, 122] =
    [0x110, 0x3d0] := by decide +kernel

/-! ## Examples -/

/-- "a-cx" to "A*2-", with a table that ends at `b`. -/
def fromA : List Seg := [⟨1, 97, true⟩, ⟨2, 98, true⟩, ⟨1, 120, false⟩]
def toA : List Seg := [⟨2, 65, false⟩, ⟨1, 45, false⟩]

example : ValidFrom 98 fromA := by
  intro s hs
  have : ∀ s ∈ fromA, (s.isRange = false → s.size = 1) ∧ (s.char < 98 → s.char + s.size ≤ 98) := by decide +kernel
  exact this s hs
example : expand fromA = [97, 98, 99, 120] ∧ expand toA = [65, 65, 45] := by decide +kernel
example : tr 98 fromA toA false false [97, 98, 99, 120, 122] = [65, 65, 45, 120, 122] ∧ tr 98 fromA toA true false [97, 120, 122] = [65, 122] := by
  decide +kernel
example : tr 98 fromA toA false true [97, 98, 97, 122, 122, 120, 120, 65, 97] = [65, 122, 122, 120, 65, 65] := by decide +kernel
example : (98 : Nat) ∉ ([97, 98, 99] : List Nat).take 1 := by decide +kernel
example : (0xf0 : Nat) < 256 ∧ 256 ≤ 0x110 := by decide +kernel
example : Ascending 300 0 fromA := by simp [Ascending, fromA]

end Gauche.Tr
