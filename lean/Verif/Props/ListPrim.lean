import Verif.Proof.ListLen
import Verif.Proof.ListDel
/-
C36: the list primitives on every cons graph.  `Path h v as w` (Spec/ConsGraph.lean): from `v` one passes the pairs `as` and arrives at `w`.
The fuel is more than the number of pairs that exist: so that many steps are enough.
-/
namespace Gauche.ListPrim

open Gauche.Spec.ConsGraph

/-- The only shapes: a path to an atom, or a circle; never both. -/
theorem C36_shapes {h : Heap} (hc : Closed h) {v : Val} (hv : Exists h v) :
    ((∃ as, Proper h v as) ∧ (¬ ∃ as, Dotted h v as) ∧ ¬ Circular h v) ∨ ((¬ ∃ as, Proper h v as) ∧ (∃ as, Dotted h v as) ∧ ¬ Circular h v) ∨
      ((¬ ∃ as, Proper h v as) ∧ (¬ ∃ as, Dotted h v as) ∧ Circular h v) := by
  rcases classify hc hv with ⟨as, t, ht, p⟩ | c
  · by_cases htn : t = .nil
    · subst htn
      refine Or.inl ⟨⟨as, p⟩, ?_, not_both atomic_nil p⟩
      rintro ⟨bs, u, h1, h2, q⟩
      exact h1 (path_det atomic_nil h2 p q).2.symm
    · refine Or.inr (Or.inl ⟨?_, ⟨as, t, htn, ht, p⟩, not_both ht p⟩)
      rintro ⟨bs, q⟩
      exact htn (path_det ht atomic_nil p q).2
  · refine Or.inr (Or.inr ⟨?_, ?_, c⟩)
    · rintro ⟨bs, q⟩; exact not_both atomic_nil q c
    · rintro ⟨bs, u, _, h2, q⟩; exact not_both h2 q c

/-- `list?`, `dotted-list?` and `circular-list?` terminate and tell which it is. -/
theorem C36_classify {h : Heap} (hc : Closed h) {v : Val} (hv : Exists h v) (fuel : Nat) (hf : h.size < fuel) :
    ∃ p d c, isProper h fuel v = .ok p ∧ isDotted h fuel v = .ok d ∧ isCircular h fuel v = .ok c ∧
      (p = true ↔ ∃ as, Proper h v as) ∧ (d = true ↔ ∃ as, Dotted h v as) ∧ (c = true ↔ Circular h v) := by
  unfold isProper isDotted isCircular lengthIs
  rcases classify hc hv with ⟨as, t, ht, p⟩ | c
  · rw [length2_finite false ht p fuel hf]
    by_cases htn : t = .nil
    · subst htn
      rw [if_pos (Or.inl rfl)]
      refine ⟨_, _, _, rfl, rfl, rfl, ?_, ?_, ?_⟩
      · exact ⟨fun _ => ⟨as, p⟩, fun _ => by simp⟩
      · constructor
        · intro e; have := of_decide_eq_true e; omega
        · rintro ⟨bs, u, h1, h2, q⟩; exact absurd (path_det atomic_nil h2 p q).2.symm h1
      · constructor
        · intro e; have := of_decide_eq_true e; omega
        · intro c; exact absurd c (not_both atomic_nil p)
    · rw [if_neg (by simp [htn])]
      refine ⟨_, _, _, rfl, rfl, rfl, ?_, ?_, ?_⟩
      · constructor
        · intro e; simp at e
        · rintro ⟨bs, q⟩; exact absurd (path_det ht atomic_nil p q).2 htn
      · exact ⟨fun _ => ⟨as, t, htn, ht, p⟩, fun _ => rfl⟩
      · constructor
        · intro e; simp at e
        · intro c; exact absurd c (not_both ht p)
  · rw [length2_circular hc false hv c fuel hf]
    refine ⟨_, _, _, rfl, rfl, rfl, ?_, ?_, ?_⟩
    · constructor
      · intro e; simp at e
      · rintro ⟨bs, q⟩; exact absurd c (not_both atomic_nil q)
    · constructor
      · intro e; simp at e
      · rintro ⟨bs, u, _, h2, q⟩; exact absurd c (not_both h2 q)
    · exact ⟨fun _ => c, fun _ => rfl⟩

/-- `length` is the number of pairs of a proper list and an error for anything else. -/
theorem C36_length {h : Heap} (hc : Closed h) {v : Val} (hv : Exists h v) (fuel : Nat) (hf : h.size < fuel) :
    (∀ as, Proper h v as → length h fuel v = .ok as.length) ∧ ((¬ ∃ as, Proper h v as) → length h fuel v = .error) := by
  constructor
  · intro as p
    unfold length
    rw [length2_finite false atomic_nil p fuel hf, if_pos (Or.inl rfl)]
    dsimp only
    rw [if_neg (by omega)]; rfl
  · intro hn
    unfold length
    rcases classify hc hv with ⟨as, t, ht, p⟩ | c
    · have htn : t ≠ .nil := fun e => hn ⟨as, by rw [e] at p; exact p⟩
      rw [length2_finite false ht p fuel hf, if_neg (by simp [htn])]; rfl
    · rw [length2_circular hc false hv c fuel hf]; rfl

/-- `length+` is the number of pairs of a proper or a dotted list, and #f for a circular one. -/
theorem C36_length_plus {h : Heap} (hc : Closed h) {v : Val} (hv : Exists h v) {l : Option Nat} (hl : Pairs h v l) (fuel : Nat) (hf : h.size < fuel) :
    lengthPlus h fuel v = .ok l := by
  unfold lengthPlus
  cases l with
  | none =>
    have c : Circular h v := hl
    rw [length2_circular hc true hv c fuel hf]; rfl
  | some n =>
    obtain ⟨as, t, ht, p, rfl⟩ := hl
    rw [length2_finite true ht p fuel hf, if_pos (Or.inr rfl)]
    dsimp only
    rw [if_neg (by omega)]; rfl

/-- Every object has a number of pairs, finite or not, and only one. -/
theorem C36_pairs {h : Heap} (hc : Closed h) {v : Val} (hv : Exists h v) : ∃ l, Pairs h v l ∧ ∀ l', Pairs h v l' → l' = l := by
  rcases classify hc hv with ⟨as, t, ht, p⟩ | c
  · refine ⟨some as.length, ⟨as, t, ht, p, rfl⟩, ?_⟩
    intro l' hl'
    cases l' with
    | none => exact absurd hl' (not_both ht p)
    | some n =>
      obtain ⟨bs, u, hu, q, rfl⟩ := hl'
      rw [(path_det ht hu p q).1]
  · refine ⟨none, c, ?_⟩
    intro l' hl'
    cases l' with
    | none => rfl
    | some n =>
      obtain ⟨bs, u, hu, q, rfl⟩ := hl'
      exact absurd c (not_both hu q)

/-- `num-pairs` is the number of different pairs reached by cdrs, in a circle too. -/
theorem C36_num_pairs {h : Heap} (hc : Closed h) {v : Val} (hv : Exists h v) (fuel : Nat) (hf : h.size < fuel) :
    ∃ as : List Nat, as.Nodup ∧ (∀ a, a ∈ as ↔ ∃ cs, Path h v cs (.pair a)) ∧ numPairs h fuel v = .ok as.length := numPairs_spec hc hv fuel hf

/-- `length=?`, `length<?` and so on of two lists compare the numbers of pairs, a circular list having infinitely many. -/
theorem C36_compare_lists {h : Heap} (hc : Closed h) {v w : Val} (hv : Exists h v) (hw : Exists h w) {l m : Option Nat} (hl : Pairs h v l) (hm : Pairs h w m)
    (fuel : Nat) (hf : h.size < fuel) : cmpLis h fuel v v w w false false = .ok (cmpLen l m) := cmpLis_ok hc hv hw hl hm fuel hf

/-- With a number that is not a bignum. -/
theorem C36_compare_number {h : Heap} (hc : Closed h) {v : Val} (hv : Exists h v) {l : Option Nat} (hl : Pairs h v l) (n : Nat) (hn : n < 2 ^ 61) (fuel : Nat) (hf : h.size < fuel) :
    cmpInt h fuel v n = .ok (cmpLen l (some n)) ∧ ∀ k : Int, k < 0 → cmpInt h fuel v k = .ok 1 := by
  constructor
  · unfold cmpInt
    rw [if_neg (by omega), if_pos (by exact_mod_cast hn)]
    exact cmpK_spec hc hv hl n fuel hf
  · intro k hk
    unfold cmpInt
    rw [if_pos hk]

/-- With a bignum it is right for proper and circular lists. -/
theorem C36_compare_bignum_partial {h : Heap} (hc : Closed h) {v : Val} (hv : Exists h v) (hd : ¬ ∃ as, Dotted h v as) {l : Option Nat} (hl : Pairs h v l) (n : Nat) (hn : 2 ^ 61 ≤ n)
    (hmem : h.size < 2 ^ 61) (fuel : Nat) (hf : h.size < fuel) : cmpInt h fuel v n = .ok (cmpLen l (some n)) := by
  unfold cmpInt cmpBig
  rw [if_neg (by omega), if_neg (by have : (2 : Int) ^ 61 ≤ n := by exact_mod_cast hn
                                    omega)]
  cases l with
  | none =>
    have c : Circular h v := hl
    rw [length2_circular hc false hv c fuel hf]; rfl
  | some m =>
    obtain ⟨as, t, ht, p, rfl⟩ := hl
    have htn : t = .nil := by
      by_contra htn
      exact hd ⟨as, t, htn, ht, p⟩
    subst htn
    have := path_len atomic_nil p
    rw [length2_finite false ht p fuel hf, if_pos (Or.inl rfl), cmpLen_some, if_pos (by omega)]
    dsimp only
    rw [if_neg (by omega)]

/-- A dotted list compared with a bignum is found longer. -/
theorem C36_bug_compare_bignum {h : Heap} {v : Val} {as : List Nat} (hd : Dotted h v as) (n : Nat) (hn : 2 ^ 61 ≤ n) (fuel : Nat) (hf : h.size < fuel) :
    cmpInt h fuel v n = .ok 1 := by
  obtain ⟨t, htn, ht, p⟩ := hd
  unfold cmpInt cmpBig
  rw [if_neg (by omega), if_neg (by have : (2 : Int) ^ 61 ≤ n := by exact_mod_cast hn
                                    omega), length2_finite false ht p fuel hf, if_neg (by simp [htn])]
  rfl

/-! ### Copies -/

/-- `list-copy`: new pairs with the same elements and the same tail; an error for a circular list. -/
theorem C36_list_copy {h : Heap} (hc : Closed h) {v : Val} (hv : Exists h v) (fuel : Nat) (hf : h.size < fuel) :
    (∀ as t, Val.Atomic t → Path h v as t →
      ∃ h' v' fs, copyList fuel h v = .ok (h', v') ∧ Keeps h h' ∧ New h fs ∧ Path h' v' fs t ∧ elems h' fs = elems h as) ∧
    (Circular h v → copyList fuel h v = .error) :=
  ⟨fun _ _ ht p => copyList_finite hc ht p fuel hf, fun c => copyList_circular hc hv c fuel hf⟩

/-- `alist-copy`: the entries that are pairs are copied, too; an error for a list that is not proper. -/
theorem C36_alist_copy {h : Heap} (hc : Closed h) {v : Val} (hv : Exists h v) (fuel : Nat) (hf : h.size < fuel) :
    (∀ as, Proper h v as → ∃ h' v' fs, alistCopy fuel h v = .ok (h', v') ∧ Keeps h h' ∧ Path h' v' fs .nil ∧ New h (fs ++ pairs (elems h' fs)) ∧
      List.Forall₂ (CopyOf h h') (elems h as) (elems h' fs)) ∧
    ((∃ a, v = .pair a) → (¬ ∃ as, Proper h v as) → alistCopy fuel h v = .error) :=
  ⟨fun _ p => alistCopy_proper hc p fuel hf, fun hp hn => alistCopy_error hc hv hp hn fuel hf⟩

/-- `last-pair`. -/
theorem C36_last_pair {h : Heap} (hc : Closed h) {v : Val} (hv : Exists h v) (fuel : Nat) (hf : h.size < fuel) :
    (∀ as a t, Val.Atomic t → Path h v (as ++ [a]) t → lastPair fuel h v = .ok a) ∧ (Circular h v → lastPair fuel h v = .error) ∧
      (Val.Atomic v → lastPair fuel h v = .error) := by
  refine ⟨fun as a t ht p => lastPair_finite ht p fuel hf, fun c => lastPair_circular hc hv c fuel hf, fun ha => ?_⟩
  cases v with
  | pair a => exact absurd rfl (ha a)
  | nil => rfl
  | atom n => rfl

/-- `append`: new pairs with the elements of all lists but the last argument, which is the tail. -/
theorem C36_append {h : Heap} (hc : Closed h) (xs : List Val) (z : Val) (ass : List (List Nat)) (hx : List.Forall₂ (Proper h) xs ass) (fuel : Nat) (hf : h.size < fuel) :
    ∃ h' v' fs, append fuel h (xs ++ [z]) = .ok (h', v') ∧ Keeps h h' ∧ New h fs ∧ Path h' v' fs z ∧ elems h' fs = elems h ass.flatten := by
  obtain ⟨h', v', fs', r1, r2, r3, r4, r5⟩ := appendLoop_spec hc z fuel hf xs ass h .nil .nil [] (Built.init h) hx
  exact ⟨h', v', fs', r1, r2, r3, r4, r5⟩

/-- An error if one of them is not a proper list: dotted, circular, or no list. -/
theorem C36_append_error {h : Heap} (hc : Closed h) (xs : List Val) (z : Val) (hex : ∀ x ∈ xs, Exists h x) (hbad : ∃ x ∈ xs, ¬ ∃ as, Proper h x as) (fuel : Nat) (hf : h.size < fuel) :
    append fuel h (xs ++ [z]) = .error := appendLoop_error hc z fuel hf xs h .nil .nil [] (Built.init h) hex hbad

/-- Of no arguments. -/
theorem C36_append_none (h : Heap) (fuel : Nat) : append fuel h [] = .ok (h, .nil) := rfl

/-- The `append` of two lists used by quasiquotation. -/
theorem C36_append2 {h : Heap} {v obj : Val} (fuel : Nat) (hf : h.size < fuel) :
    (∀ as, Proper h v as → ∃ h' v' fs, append2 fuel h v obj = .ok (h', v') ∧ Keeps h h' ∧ New h fs ∧ Path h' v' fs obj ∧ elems h' fs = elems h as) ∧
    (∀ as, Dotted h v as → append2 fuel h v obj = .error) :=
  ⟨fun _ p => append2_proper p fuel hf, fun _ ⟨_, htn, ht, p⟩ => append2_dotted ht htn p fuel hf⟩

/-- `reverse` with a tail; of a dotted list the end is left out. -/
theorem C36_reverse {h : Heap} {v t tail : Val} {as : List Nat} (ht : Val.Atomic t) (p : Path h v as t) (fuel : Nat) (hf : h.size < fuel) :
    ∃ h' v' fs, reverse2 fuel h v tail = .ok (h', v') ∧ Keeps h h' ∧ New h fs ∧ Path h' v' fs tail ∧ elems h' fs = (elems h as).reverse :=
  reverse2_spec ht p fuel hf

/-! ### Destructive operations -/

/-- `append!`: the pairs of the lists, which must be disjoint, in this order; only cdrs of theirs change. -/
theorem C36_append_x {h : Heap} (xs : List Val) (z : Val) (ass : List (List Nat)) (hx : List.Forall₂ (Proper h) xs ass) (hd : ass.flatten.Nodup) (fuel : Nat) (hf : h.size < fuel) :
    ∃ h' v', appendX fuel h (xs ++ [z]) = .ok (h', v') ∧ ChangesCdrs ass.flatten h h' ∧ Path h' v' ass.flatten z :=
  appendXLoop_spec z fuel hf xs ass h .nil .nil [] ⟨ChangesCdrs.refl h, rfl, rfl, List.nodup_nil⟩ hx hd

/-- The `append!` of two lists in C: of a proper list the last cdr changes; a dotted list is lost without an error. -/
theorem C36_append2_x {h : Heap} {v obj : Val} (fuel : Nat) (hf : h.size < fuel) :
    (∀ as a, Proper h v (as ++ [a]) → append2X v obj fuel h v = .ok (h.setCdr a obj, v) ∧ Path (h.setCdr a obj) v (as ++ [a]) obj) ∧
    (v = .nil → append2X v obj fuel h v = .ok (h, obj)) ∧ (∀ as, Dotted h v as → append2X v obj fuel h v = .ok (h, obj)) := by
  refine ⟨fun as a p => ?_, fun e => ?_, fun as ⟨t, htn, ht, p⟩ => ?_⟩
  · have := path_len atomic_nil p
    simp at this
    exact ⟨append2X_loop as a v fuel p (by omega), path_setLast (path_nodup atomic_nil p) p⟩
  · cases fuel with
    | zero => omega
    | succ fuel => rw [e]; rfl
  · have := path_len ht p
    exact append2X_dotted ht htn as v fuel p (by omega)

/-- `reverse!`: the same pairs in the other order. -/
theorem C36_reverse_x {h : Heap} {v t tail : Val} {as : List Nat} (ht : Val.Atomic t) (p : Path h v as t) (fuel : Nat) (hf : h.size < fuel) :
    ∃ h' v', reverse2X fuel h v tail = .ok (h', v') ∧ Path h' v' as.reverse tail ∧ ChangesCdrs as h h' := reverse2X_spec ht p fuel hf

/-! ### Access -/

/-- `list-tail` is what one arrives at after that many pairs; otherwise it is the fallback, or an error. -/
theorem C36_list_tail {h : Heap} (hc : Closed h) {v : Val} (hv : Exists h v) (i : Int) :
    (∀ f w, (0 ≤ i ∧ ∃ as : List Nat, (as.length : Int) = i ∧ Path h v as w) → listTail h v i f = .ok w) ∧
    ((¬ (0 ≤ i ∧ ∃ (as : List Nat) (w : Val), (as.length : Int) = i ∧ Path h v as w)) → listTail h v i none = .error ∧ ∀ f, listTail h v i (some f) = .ok f) := by
  constructor
  · rintro f w ⟨hi, as, hl, p⟩
    have e : listTailLoop h i.toNat v = some w := (listTailLoop_spec hc _ hv w).2 ⟨as, by omega, p⟩
    unfold listTail
    rw [if_neg (by omega), e]
  · intro hn
    have e : (if i < 0 then none else listTailLoop h i.toNat v) = none := by
      by_cases hi : i < 0
      · rw [if_pos hi]
      · rw [if_neg hi]
        cases e : listTailLoop h i.toNat v with
        | none => rfl
        | some w =>
          obtain ⟨as, hl, p⟩ := (listTailLoop_spec hc _ hv w).1 e
          exact absurd ⟨by omega, as, w, by omega, p⟩ hn
    unfold listTail
    rw [e]
    exact ⟨rfl, fun _ => rfl⟩

/-- `list-ref` is the element of the pair one arrives at. -/
theorem C36_list_ref {h : Heap} (hc : Closed h) {v : Val} (hv : Exists h v) (i : Int) :
    (∀ f a, (0 ≤ i ∧ ∃ as : List Nat, (as.length : Int) = i ∧ Path h v as (.pair a)) → listRef h v i f = .ok (h.car a)) ∧
    ((¬ (0 ≤ i ∧ ∃ (as : List Nat) (a : Nat), (as.length : Int) = i ∧ Path h v as (.pair a))) → listRef h v i none = .error ∧ ∀ f, listRef h v i (some f) = .ok f) := by
  constructor
  · rintro f a ⟨hi, as, hl, p⟩
    have e : listTailLoop h i.toNat v = some (.pair a) := (listTailLoop_spec hc _ hv _).2 ⟨as, by omega, p⟩
    unfold listRef
    rw [if_neg (by omega), e]
  · intro hn
    have e : ∀ a, (if i < 0 then none else listTailLoop h i.toNat v) ≠ some (.pair a) := by
      intro a
      by_cases hi : i < 0
      · rw [if_pos hi]; simp
      · rw [if_neg hi]
        intro e
        obtain ⟨as, hl, p⟩ := (listTailLoop_spec hc _ hv _).1 e
        exact hn ⟨by omega, as, a, by omega, p⟩
    unfold listRef
    generalize (if i < 0 then none else listTailLoop h i.toNat v) = r at *
    cases r with
    | none => exact ⟨rfl, fun _ => rfl⟩
    | some w =>
      cases w with
      | pair a => exact absurd rfl (e a)
      | nil => exact ⟨rfl, fun _ => rfl⟩
      | atom n => exact ⟨rfl, fun _ => rfl⟩

/-- `member` is the first pair with an equal element, in a circular list too; `none` (#f) if a finite list has none.
In a circular list without one it does not end. -/
theorem C36_member {h : Heap} (hc : Closed h) {v : Val} (hv : Exists h v) (eq : Val → Bool) :
    (∀ cs a, Path h v cs (.pair a) → a < h.size → eq (h.car a) = true → ∃ cs' a', Path h v cs' (.pair a') ∧ eq (h.car a') = true ∧ (∀ c ∈ cs', eq (h.car c) = false) ∧
      ∀ fuel, h.size < fuel → member h eq fuel v = .ok (some a')) ∧
    (∀ as t, Val.Atomic t → Path h v as t → (∀ a ∈ as, eq (h.car a) = false) → ∀ fuel, h.size < fuel → member h eq fuel v = .ok none) ∧
    (Circular h v → (∀ cs a, Path h v cs (.pair a) → eq (h.car a) = false) → ∀ fuel, member h eq fuel v = .diverge) := by
  refine ⟨?_, ?_, ?_⟩
  · intro cs a p ha he
    obtain ⟨cs', a', p', he', hno, hl⟩ := first_reach hc hv (fun a => eq (h.car a)) ⟨cs, a, p, he⟩
    exact ⟨cs', a', p', he', hno, fun fuel hf => member_found cs' v a' fuel p' hno he' (by omega)⟩
  · intro as t ht p hno fuel hf
    have := path_len ht p
    exact member_none ht as v fuel p hno (by omega)
  · intro c hno fuel
    have key : ∀ fuel n, member h eq fuel (tl h n v) = .diverge := by
      intro fuel
      induction fuel with
      | zero => intro n; rfl
      | succ fuel ih =>
        intro n
        obtain ⟨a, ha⟩ := circular_pairs c n
        unfold member
        rw [ha]
        dsimp only
        obtain ⟨cs, p⟩ := (reach_tl hc hv a).2 ⟨n, ha⟩
        rw [if_neg (by rw [hno cs a p]; simp)]
        have e : h.cdr a = tl h (n + 1) v := by rw [tl_succ, ha]; rfl
        rw [e]
        exact ih (n + 1)
    exact key fuel 0

/-- `assoc` is the first entry that is a pair with an equal key. -/
theorem C36_assoc {h : Heap} (hc : Closed h) {v : Val} (hv : Exists h v) (eq : Val → Bool) :
    (∀ cs a e, Path h v cs (.pair a) → h.car a = .pair e → eq (h.car e) = true → ∃ cs' a' e', Path h v cs' (.pair a') ∧ h.car a' = .pair e' ∧ eq (h.car e') = true ∧
      (∀ c ∈ cs', ∀ d, h.car c = .pair d → eq (h.car d) = false) ∧ ∀ fuel, h.size < fuel → assoc h eq fuel v = .ok (some e')) ∧
    (∀ as t, Val.Atomic t → Path h v as t → (∀ a ∈ as, ∀ d, h.car a = .pair d → eq (h.car d) = false) → ∀ fuel, h.size < fuel → assoc h eq fuel v = .ok none) := by
  have hent : ∀ x, entryTest eq h x = true ↔ ∃ e, x = .pair e ∧ eq (h.car e) = true := by
    intro x
    cases x with
    | pair e => exact ⟨fun hx => ⟨e, rfl, hx⟩, fun ⟨e', h1, h2⟩ => by injection h1 with h1; rw [← h1] at h2; exact h2⟩
    | nil => simp [entryTest]
    | atom n => simp [entryTest]
  constructor
  · intro cs a e p ha he
    obtain ⟨cs', a', p', he', hno, hl⟩ := first_reach hc hv (fun a => entryTest eq h (h.car a)) ⟨cs, a, p, (hent _).2 ⟨e, ha, he⟩⟩
    obtain ⟨e', h1, h2⟩ := (hent _).1 he'
    refine ⟨cs', a', e', p', h1, h2, ?_, ?_⟩
    · intro c hcm d hd
      have := hno c hcm
      by_contra hb
      rw [(hent _).2 ⟨d, hd, by simpa using hb⟩] at this
      simp at this
    · intro fuel hf
      rw [assoc_member, member_found cs' v a' fuel p' hno he' (by omega)]
      dsimp only
      rw [h1]
  · intro as t ht p hno fuel hf
    have := path_len ht p
    rw [assoc_member, member_none ht as v fuel p ?_ (by omega)]
    intro c hcm
    by_contra hb
    obtain ⟨d, hd, he⟩ := (hent _).1 (by simpa using hb)
    rw [hno c hcm d hd] at he
    simp at he

/-! ### Deletion -/

/-- `delete`: the elements that are not equal, in order.  The pairs `ss` after the last one deleted are shared, those before are new, and if none is
deleted it is the list itself. -/
theorem C36_delete {h : Heap} (hc : Closed h) (eq : Val → Bool) {v : Val} {as : List Nat} (p : Proper h v as) (fuel : Nat) (hf : h.size < fuel) :
    ∃ h' v' fs ds ss, deleteBy (eltTest eq) fuel h v = .ok (h', v') ∧ Keeps h h' ∧ New h fs ∧ as = ds ++ ss ∧ (∀ a ∈ ss, eq (h.car a) = false) ∧
      (∀ es a, ds = es ++ [a] → eq (h.car a) = true) ∧ Proper h' v' (fs ++ ss) ∧ elems h' (fs ++ ss) = (elems h as).filter (fun x => !eq x) ∧ (ds = [] → v' = v ∧ h' = h) :=
  deleteBy_spec hc (steady_elt eq h) p fuel hf

/-- Whether the object is an entry with an equal key. -/
def keyed (h : Heap) (eq : Val → Bool) (x : Val) : Bool :=
  match x with
  | .pair e => eq (h.car e)
  | _ => false

/-- `alist-delete`. -/
theorem C36_alist_delete {h : Heap} (hc : Closed h) (eq : Val → Bool) {v : Val} {as : List Nat} (p : Proper h v as) (fuel : Nat) (hf : h.size < fuel) :
    ∃ h' v' fs ds ss, deleteBy (entryTest eq) fuel h v = .ok (h', v') ∧ Keeps h h' ∧ New h fs ∧ as = ds ++ ss ∧ (∀ a ∈ ss, keyed h eq (h.car a) = false) ∧
      (∀ es a, ds = es ++ [a] → keyed h eq (h.car a) = true) ∧ Proper h' v' (fs ++ ss) ∧ elems h' (fs ++ ss) = (elems h as).filter (fun x => !keyed h eq x) ∧
      (ds = [] → v' = v ∧ h' = h) := deleteBy_spec hc (steady_entry eq h) p fuel hf

/-- `delete!`: the pairs whose elements are not equal, in order; only cdrs of theirs change. -/
theorem C36_delete_x {h : Heap} (eq : Val → Bool) {v t : Val} {as : List Nat} (ht : Val.Atomic t) (p : Path h v as t) (fuel : Nat) (hf : h.size < fuel) :
    ∃ h' v', deleteX eq fuel h v none v = .ok (h', v') ∧ Path h' v' (as.filter fun a => !eq (h.car a)) t ∧ ChangesCdrs (as.filter fun a => !eq (h.car a)) h h' :=
  deleteX_spec ht p fuel hf

/-- `alist-delete!` where, after the first entry kept, no two entries in a row are to go.  The full statement is without this condition. -/
theorem C36_alist_delete_x_partial {h : Heap} (eq : Val → Bool) {v t : Val} {as : List Nat} (ht : Val.Atomic t) (p : Path h v as t)
    (hno : NoTwo (fun a => keyed h eq (h.car a)) (as.dropWhile fun a => keyed h eq (h.car a))) (fuel : Nat) (hf : h.size < fuel) :
    ∃ h' v', assocDeleteX eq fuel h v none v = .ok (h', v') ∧ Path h' v' (as.filter fun a => !keyed h eq (h.car a)) t ∧
      ChangesCdrs (as.filter fun a => !keyed h eq (h.car a)) h h' := by
  have := path_len ht p
  exact assocDeleteX_loop ht as fuel h v none v [] p (by omega) (path_nodup ht p) rfl ⟨rfl, hno⟩ (ChangesCdrs.refl h)

/-- Without it an entry that is to go stays: ((a . 1) (b . 2) (b . 3)) without b is ((a . 1) (b . 3)). -/
theorem C36_bug_alist_delete_x : ∃ (h : Heap) (as : List Nat), Closed h ∧ Proper h (.pair 0) as ∧
    ∃ h' v', (∀ fuel, h.size < fuel → assocDeleteX (fun k => decide (k = .atom 1)) fuel h (.pair 0) none (.pair 0) = .ok (h', v')) ∧
      ∃ ks, Proper h' v' ks ∧ ∃ a ∈ ks, keyed h' (fun k => decide (k = .atom 1)) (h'.car a) = true := by
  refine ⟨⟨6, fun i => if i < 3 then .pair (i + 3) else if i = 3 then .atom 0 else .atom 1, fun i => if i < 2 then .pair (i + 1) else .nil⟩, [0, 1, 2], ?_, ?_, ?_⟩
  · intro i hi
    constructor
    · intro a e
      dsimp only at e hi ⊢
      by_cases h3 : i < 3
      · rw [if_pos h3] at e; injection e with e; omega
      · rw [if_neg h3] at e
        by_cases h4 : i = 3
        · rw [if_pos h4] at e; simp at e
        · rw [if_neg h4] at e; simp at e
    · intro a e
      dsimp only at e hi ⊢
      by_cases h3 : i < 2
      · rw [if_pos h3] at e; injection e with e; omega
      · rw [if_neg h3] at e; simp at e
  · exact ⟨rfl, by decide, rfl, by decide, rfl, by decide, rfl⟩
  · refine ⟨((⟨6, fun i => if i < 3 then .pair (i + 3) else if i = 3 then .atom 0 else .atom 1, fun i => if i < 2 then .pair (i + 1) else .nil⟩ : Heap).setCdr 0 (.pair 2)).setCdr 1 .nil,
      .pair 0, ?_, ?_⟩
    · intro fuel hf
      obtain ⟨n, rfl⟩ : ∃ n, fuel = n + 7 := ⟨fuel - 7, by dsimp only at hf; omega⟩
      rfl
    · exact ⟨[0, 2], ⟨rfl, by decide, rfl, by decide, rfl⟩, 2, by simp, rfl⟩

/-- `delete-duplicates`: new pairs with the elements not equal to an earlier one. -/
theorem C36_delete_duplicates {h : Heap} (eq : Val → Val → Bool) (hsym : ∀ x y, eq x y = true → eq y x = true) (htr : ∀ x y z, eq x y = true → eq y z = true → eq x z = true)
    {v : Val} {as : List Nat} (p : Proper h v as) (fuel : Nat) (hf : h.size < fuel) :
    ∃ h' v' fs, dedup eq fuel h v = .ok (h', v') ∧ Keeps h h' ∧ New h fs ∧ Proper h' v' fs ∧ elems h' fs = firsts eq [] (elems h as) :=
  dedup_spec hsym htr atomic_nil (Or.inl rfl) p fuel hf

/-- The same pairs in `delete-duplicates!`. -/
theorem C36_delete_duplicates_x {h : Heap} (eq : Val → Val → Bool) (htr : ∀ x y z, eq x y = true → eq y z = true → eq x z = true)
    {v : Val} {as : List Nat} (p : Proper h v as) (fuel : Nat) (hf : h.size < fuel) :
    ∃ h' ks, dedupX eq v fuel h v = .ok (h', v) ∧ ks.Sublist as ∧ Proper h' v ks ∧ elems h ks = firsts eq [] (elems h as) ∧ ChangesCdrs as h h' := by
  have := path_len atomic_nil p
  exact dedupX_loop htr atomic_nil fuel h v as p (by omega)

/-! ### Cases that meet the hypotheses -/

/-- (1 2 1 3), then #0=(5 6 . #0#) after 4, and (7 . 8). -/
def ex : Heap :=
  { size := 8
    car := fun i => .atom ([1, 2, 1, 3, 4, 5, 6, 7].getD i 0)
    cdr := fun i => [.pair 1, .pair 2, .pair 3, .nil, .pair 5, .pair 6, .pair 5, .atom 8].getD i .nil }

theorem ex_closed : Closed ex := by
  have key : ∀ i < 8, (∀ a, (ex.cdr i) = .pair a → a < 8) := by
    intro i hi
    have : i = 0 ∨ i = 1 ∨ i = 2 ∨ i = 3 ∨ i = 4 ∨ i = 5 ∨ i = 6 ∨ i = 7 := by omega
    rcases this with rfl | rfl | rfl | rfl | rfl | rfl | rfl | rfl <;> intro a e <;> simp [ex] at e <;> omega
  intro i hi
  exact ⟨fun a e => by simp [ex] at e, key i hi⟩

theorem ex_exists (a : Nat) (ha : a < 8) : Exists ex (.pair a) := by intro b e; injection e with e; rw [← e]; exact ha

theorem ex_proper : Proper ex (.pair 0) [0, 1, 2, 3] := ⟨rfl, by decide, rfl, by decide, rfl, by decide, rfl, by decide, rfl⟩
theorem ex_circular : Circular ex (.pair 4) := ⟨[4], [5, 6], 5, by simp, ⟨rfl, by decide, rfl⟩, ⟨rfl, by decide, rfl, by decide, rfl⟩⟩
theorem ex_dotted : Dotted ex (.pair 7) [7] := ⟨.atom 8, by simp, atomic_atom 8, ⟨rfl, by decide, rfl⟩⟩

example : length ex 9 (.pair 0) = .ok 4 := (C36_length ex_closed (ex_exists 0 (by omega)) 9 (by decide)).1 _ ex_proper
example : lengthPlus ex 9 (.pair 4) = .ok none := C36_length_plus ex_closed (ex_exists 4 (by omega)) (l := none) ex_circular 9 (by decide)
example : numPairs ex 9 (.pair 4) = .ok 3 := by decide +kernel
example : cmpLis ex 9 (.pair 4) (.pair 4) (.pair 0) (.pair 0) false false = .ok 1 :=
  C36_compare_lists ex_closed (ex_exists 4 (by omega)) (ex_exists 0 (by omega)) (l := none) (m := some 4) ex_circular ⟨_, _, atomic_nil, ex_proper, rfl⟩ 9 (by decide)
example : cmpInt ex 9 (.pair 7) (2 ^ 70) = .ok 1 := C36_bug_compare_bignum ex_dotted (2 ^ 70) (by decide) 9 (by decide)
example : copyList 9 ex (.pair 4) = .error := (C36_list_copy ex_closed (ex_exists 4 (by omega)) 9 (by decide)).2 ex_circular
example : append 9 ex [.pair 0, .pair 7, .pair 0] = .error :=
  C36_append_error ex_closed [.pair 0, .pair 7] (.pair 0) (by intro x hx; simp at hx; rcases hx with rfl | rfl; exacts [ex_exists 0 (by omega), ex_exists 7 (by omega)])
    ⟨.pair 7, by simp, by rintro ⟨as, p⟩; obtain ⟨t, h1, h2, q⟩ := ex_dotted; exact h1 (path_det atomic_nil h2 p q).2.symm⟩ 9 (by decide)
example := C36_append ex_closed [.pair 0, .pair 1] (.pair 4) [[0, 1, 2, 3], [1, 2, 3]] (.cons ex_proper (.cons ⟨rfl, by decide, rfl, by decide, rfl, by decide, rfl⟩ .nil)) 9 (by decide)
example := C36_delete ex_closed (fun x => decide (x = .atom 1)) ex_proper 9 (by decide)
example := C36_delete_x (fun x => decide (x = .atom 1)) atomic_nil ex_proper 9 (by decide)
example := C36_delete_duplicates (fun x y => decide (x = y)) (fun x y e => by simp at e ⊢; exact e.symm) (fun x y z e f => by simp at e f ⊢; rw [e, f]) ex_proper 9 (by decide)
example : firsts (fun x y => decide (x = y)) [] (elems ex [0, 1, 2, 3]) = [.atom 1, .atom 2, .atom 3] := by decide +kernel
example : member ex (fun x => decide (x = .atom 6)) 9 (.pair 4) = .ok (some 6) := by decide +kernel

end Gauche.ListPrim
