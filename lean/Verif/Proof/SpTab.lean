import Verif.Proof.SpVecRun
import Verif.Model.SpTab

/-! # Sparse tables -/

namespace Gauche.SparseTab

variable {K V : Type} {hash : K → Nat} {eq : K → K → Bool}

theorem Comparator.false_of (c : Comparator hash eq) {a b x : K} (h : eq a b = true)
    (hx : eq a x = false) : eq b x = false := by
  cases hb : eq b x with
  | false => rfl
  | true => rw [c.trans a b x h hb] at hx; cases hx

theorem Comparator.symm_false (c : Comparator hash eq) {a b : K} (h : eq a b = false) :
    eq b a = false := by
  cases hb : eq b a with
  | false => rfl
  | true => rw [c.symm b a hb] at h; cases h

theorem Comparator.eq_comm (c : Comparator hash eq) (a b : K) : eq a b = eq b a := by
  cases h : eq a b with
  | true => rw [c.symm a b h]
  | false => rw [c.symm_false h]

theorem Comparator.congr (c : Comparator hash eq) {a b : K} (h : eq a b = true) (x : K) :
    eq a x = eq b x := by
  cases hx : eq a x with
  | false => rw [c.false_of h hx]
  | true => rw [c.trans b a x (c.symm a b h) hx]

theorem len_le (c : Comparator hash eq) : ∀ (A B : List K),
    A.Pairwise (fun a b => eq a b = false) → (∀ a ∈ A, ∃ b ∈ B, eq a b = true) →
    A.length ≤ B.length
  | [], _, _, _ => Nat.zero_le _
  | a :: A, B, hA, hc => by
    rw [List.pairwise_cons] at hA
    obtain ⟨b, hb, hab⟩ := hc a (List.mem_cons_self ..)
    obtain ⟨s, t, rfl⟩ := List.append_of_mem hb
    have ih := len_le c A (s ++ t) hA.2 (fun x hx => by
      obtain ⟨y, hy, hxy⟩ := hc x (List.mem_cons_of_mem _ hx)
      rw [List.mem_append, List.mem_cons] at hy
      rcases hy with hy | rfl | hy
      · exact ⟨y, List.mem_append_left _ hy, hxy⟩
      · have := hA.1 x hx
        rw [c.trans a y x hab (c.symm x y hxy)] at this
        cases this
      · exact ⟨y, List.mem_append_right _ hy, hxy⟩)
    rw [List.length_append] at ih
    rw [List.length_cons, List.length_append, List.length_cons]
    omega

theorem Lists.keys {E : List (K × V)} {M : K → Option V} (h : Lists eq E M) :
    (E.map Prod.fst).Pairwise (fun a b => eq a b = false) := by
  rw [List.pairwise_map]; exact h.distinct

theorem Lists.key_some {E : List (K × V)} {M : K → Option V} (h : Lists eq E M) {a : K}
    (ha : a ∈ E.map Prod.fst) : (M a).isSome = true := by
  obtain ⟨⟨k, v⟩, hm, rfl⟩ := List.mem_map.mp ha
  rw [h.sound k v hm]; rfl

theorem Lists.some_key {E : List (K × V)} {M : K → Option V} (h : Lists eq E M) {a : K}
    (ha : (M a).isSome = true) : ∃ b ∈ E.map Prod.fst, eq a b = true := by
  obtain ⟨v, hv⟩ := Option.isSome_iff_exists.mp ha
  obtain ⟨k', h1, h2⟩ := h.complete a v hv
  exact ⟨k', List.mem_map.mpr ⟨(k', v), h2, rfl⟩, h1⟩

theorem Lists.length_put (c : Comparator hash eq) {E E' : List (K × V)} {M M' : K → Option V}
    (h : Lists eq E M) (h' : Lists eq E' M') (hresp : ∀ a b, eq a b = true → M a = M b)
    {k : K} {x : Option V} (hM : ∀ j, M' j = put eq M k x j) :
    E'.length + (if (M k).isSome then 1 else 0) = E.length + (if x.isSome then 1 else 0) := by
  have hk : ∀ j, eq j k = true → M' j = x := fun j hj => by rw [hM, put, if_pos hj]
  have hne : ∀ j, eq j k = false → M' j = M j := fun j hj => by
    rw [hM, put, if_neg (by rw [hj]; decide)]
  have lE : E.length = (E.map Prod.fst).length := (List.length_map _).symm
  have lE' : E'.length = (E'.map Prod.fst).length := (List.length_map _).symm
  rw [lE, lE']
  cases h1 : (M k).isSome with
  | true =>
    cases h2 : x.isSome with
    | true =>
      rw [if_pos rfl]
      have a := len_le c _ _ h.keys (fun a ha => h'.some_key (by
        cases hak : eq a k with
        | true => rw [hk a hak]; exact h2
        | false => rw [hne a hak]; exact h.key_some ha))
      have b := len_le c _ _ h'.keys (fun a ha => h.some_key (by
        have hs := h'.key_some ha
        cases hak : eq a k with
        | true => rw [hresp a k hak]; exact h1
        | false => rw [← hne a hak]; exact hs))
      omega
    | false =>
      rw [if_pos rfl, if_neg (by decide)]
      have hnone : x = none := by cases x with
        | none => rfl
        | some _ => cases h2
      have hpw : (k :: E'.map Prod.fst).Pairwise (fun a b => eq a b = false) := by
        rw [List.pairwise_cons]
        refine ⟨fun b hb => ?_, h'.keys⟩
        have hs := h'.key_some hb
        cases hbk : eq b k with
        | true => rw [hk b hbk, hnone] at hs; cases hs
        | false => exact c.symm_false hbk
      have a := len_le c _ _ hpw (fun a ha => h.some_key (by
        rw [List.mem_cons] at ha
        rcases ha with rfl | ha
        · exact h1
        · have hs := h'.key_some ha
          cases hak : eq a k with
          | true => rw [hresp a k hak]; exact h1
          | false => rw [← hne a hak]; exact hs))
      have b := len_le c _ (k :: E'.map Prod.fst) h.keys (fun a ha => by
        cases hak : eq a k with
        | true => exact ⟨k, List.mem_cons_self .., hak⟩
        | false =>
          obtain ⟨b, hb, hab⟩ := h'.some_key (a := a) (by rw [hne a hak]; exact h.key_some ha)
          exact ⟨b, List.mem_cons_of_mem _ hb, hab⟩)
      rw [List.length_cons] at a b
      omega
  | false =>
    have hMk : ∀ b ∈ E.map Prod.fst, eq b k = false := fun b hb => by
      have hs := h.key_some hb
      cases hbk : eq b k with
      | true => rw [hresp b k hbk, h1] at hs; cases hs
      | false => rfl
    cases h2 : x.isSome with
    | true =>
      rw [if_pos rfl, if_neg (by decide)]
      have hpw : (k :: E.map Prod.fst).Pairwise (fun a b => eq a b = false) := by
        rw [List.pairwise_cons]
        exact ⟨fun b hb => c.symm_false (hMk b hb), h.keys⟩
      have a := len_le c _ _ hpw (fun a ha => h'.some_key (by
        rw [List.mem_cons] at ha
        rcases ha with rfl | ha
        · rw [hk a (c.refl a)]; exact h2
        · rw [hne a (hMk a ha)]; exact h.key_some ha))
      have b := len_le c _ (k :: E.map Prod.fst) h'.keys (fun a ha => by
        have hs := h'.key_some ha
        cases hak : eq a k with
        | true => exact ⟨k, List.mem_cons_self .., hak⟩
        | false =>
          obtain ⟨b, hb, hab⟩ := h.some_key (a := a) (by rw [← hne a hak]; exact hs)
          exact ⟨b, List.mem_cons_of_mem _ hb, hab⟩)
      rw [List.length_cons] at a b
      omega
    | false =>
      rw [if_neg (by decide)]
      have hnone : x = none := by cases x with
        | none => rfl
        | some _ => cases h2
      have a := len_le c _ _ h.keys (fun a ha => h'.some_key (by
        rw [hne a (hMk a ha)]; exact h.key_some ha))
      have b := len_le c _ _ h'.keys (fun a ha => h.some_key (by
        have hs := h'.key_some ha
        cases hak : eq a k with
        | true => rw [hk a hak, hnone] at hs; cases hs
        | false => rw [← hne a hak]; exact hs))
      omega

end Gauche.SparseTab

namespace Gauche.SpTab

open Gauche.CTrie Gauche.SparseTab

variable {K V : Type} {c : Cmp K}

/-! ## Lists of entries with one hash value -/

/-- The entries of a leaf. -/
def entries : TBody K V → List (K × V)
  | .entry none => []
  | .entry (some e) => [e]
  | .chain next pair => pair :: next

/-- Entries that may share a leaf. -/
structure LOK (c : Cmp K) (k : Nat) (es : List (K × V)) : Prop where
  distinct : es.Pairwise (fun a b => c.eq a.1 b.1 = false)
  hash : ∀ p ∈ es, c.hash p.1 = k

/-- Look a key up. -/
def assoc (c : Cmp K) (es : List (K × V)) (key : K) : Option V := chainRef c key none es

theorem chainRef_eq (key : K) (fb : Option V) : ∀ es : List (K × V),
    chainRef c key fb es = (assoc c es key).orElse (fun _ => fb)
  | [] => rfl
  | p :: ps => by
    rw [assoc, chainRef, chainRef]
    by_cases h : c.eq key p.1 = true
    · rw [if_pos h, if_pos h]; rfl
    · rw [if_neg h, if_neg h, chainRef_eq key fb ps]; rfl

theorem assoc_cons (p : K × V) (ps : List (K × V)) (key : K) :
    assoc c (p :: ps) key = if c.eq key p.1 then some p.2 else assoc c ps key := rfl

theorem assoc_mem : ∀ {es : List (K × V)} {key : K} {v : V}, assoc c es key = some v →
    ∃ k', c.eq key k' = true ∧ (k', v) ∈ es
  | [], _, _, h => by cases h
  | p :: ps, key, v, h => by
    rw [assoc_cons] at h
    by_cases hp : c.eq key p.1 = true
    · rw [if_pos hp] at h; cases h
      exact ⟨p.1, hp, List.mem_cons_self ..⟩
    · rw [if_neg hp] at h
      obtain ⟨k', h1, h2⟩ := assoc_mem h
      exact ⟨k', h1, List.mem_cons_of_mem _ h2⟩

variable (cc : Comparator c.hash c.eq)
include cc

theorem assoc_congr {a b : K} (h : c.eq a b = true) : ∀ es : List (K × V),
    assoc c es a = assoc c es b
  | [] => rfl
  | p :: ps => by rw [assoc_cons, assoc_cons, cc.congr h p.1, assoc_congr h ps]

theorem mem_assoc : ∀ {es : List (K × V)}, es.Pairwise (fun a b => c.eq a.1 b.1 = false) →
    ∀ {k : K} {v : V}, (k, v) ∈ es → assoc c es k = some v
  | [], _, _, _, h => by cases h
  | p :: ps, hd, k, v, h => by
    rw [List.pairwise_cons] at hd
    rw [assoc_cons]
    rw [List.mem_cons] at h
    rcases h with rfl | h
    · rw [if_pos (cc.refl k)]
    · rw [if_neg (by rw [cc.symm_false (hd.1 _ h)]; decide), mem_assoc hd.2 h]

theorem assoc_none_of_hash {k : Nat} {es : List (K × V)} (ok : LOK c k es) {key : K}
    (h : c.hash key ≠ k) : assoc c es key = none := by
  cases ha : assoc c es key with
  | none => rfl
  | some v =>
    obtain ⟨k', h1, h2⟩ := assoc_mem ha
    exact absurd ((cc.compat _ _ h1).trans (ok.hash _ h2)) h

theorem chainSet_ok {k : Nat} (key : K) (value : V) : ∀ {es : List (K × V)}, LOK c k es →
    (chainSet c key value es = none ∧ ∀ p ∈ es, c.eq key p.1 = false) ∨
    ∃ es', chainSet c key value es = some es' ∧ (assoc c es key).isSome = true ∧ LOK c k es' ∧
      es' ≠ [] ∧ es'.map Prod.fst = es.map Prod.fst ∧
      ∀ j, assoc c es' j = if c.eq j key then some value else assoc c es j
  | [], _ => Or.inl ⟨rfl, fun _ h => by cases h⟩
  | p :: ps, ok => by
    have hd := List.pairwise_cons.mp ok.distinct
    rw [chainSet]
    by_cases h : c.eq p.1 key = true
    · refine Or.inr ⟨(p.1, value) :: ps, if_pos h, ?_, ⟨?_, ?_⟩, by simp, rfl, ?_⟩
      · rw [assoc_cons, if_pos (cc.symm _ _ h)]; rfl
      · rw [List.pairwise_cons]; exact hd
      · intro q hq
        rw [List.mem_cons] at hq
        rcases hq with rfl | hq
        · exact ok.hash p (List.mem_cons_self ..)
        · exact ok.hash q (List.mem_cons_of_mem _ hq)
      · intro j
        rw [assoc_cons, assoc_cons]
        show (if c.eq j p.1 = true then some value else assoc c ps j) = _
        have hjj : c.eq j key = c.eq j p.1 := by
          rw [cc.eq_comm j key, cc.eq_comm j p.1, cc.congr h j]
        rw [hjj]
        by_cases hj : c.eq j p.1 = true
        · rw [if_pos hj, if_pos hj]
        · rw [if_neg hj, if_neg hj, if_neg hj]
    · rw [if_neg h]
      have hf : c.eq key p.1 = false := by
        rw [cc.eq_comm]; exact Bool.not_eq_true _ |>.mp h
      have okps : LOK c k ps := ⟨hd.2, fun q hq => ok.hash q (List.mem_cons_of_mem _ hq)⟩
      rcases chainSet_ok key value okps with ⟨h1, h2⟩ | ⟨es', h1, h2, h3, h4, h5, h6⟩
      · refine Or.inl ⟨by rw [h1], fun q hq => ?_⟩
        rw [List.mem_cons] at hq
        rcases hq with rfl | hq
        · exact hf
        · exact h2 q hq
      · refine Or.inr ⟨p :: es', by rw [h1], ?_, ⟨?_, ?_⟩, by simp, ?_, ?_⟩
        · rw [assoc_cons, hf]; exact h2
        · rw [List.pairwise_cons]
          refine ⟨fun q hq => ?_, h3.distinct⟩
          have : q.1 ∈ ps.map Prod.fst := by rw [← h5]; exact List.mem_map.mpr ⟨q, hq, rfl⟩
          obtain ⟨q', hq', he⟩ := List.mem_map.mp this
          rw [← he]; exact hd.1 q' hq'
        · intro q hq
          rw [List.mem_cons] at hq
          rcases hq with rfl | hq
          · exact ok.hash q (List.mem_cons_self ..)
          · exact h3.hash q hq
        · rw [List.map_cons, List.map_cons, h5]
        · intro j
          rw [assoc_cons, assoc_cons, h6]
          by_cases hj : c.eq j p.1 = true
          · rw [if_pos hj, if_pos hj]
            have : c.eq j key = false := by
              cases hjk : c.eq j key with
              | false => rfl
              | true =>
                rw [cc.trans key j p.1 (cc.symm _ _ hjk) hj] at hf; cases hf
            rw [this, if_neg (by decide)]
          · rw [if_neg hj, if_neg hj]

omit cc in
theorem LOK.cons {k : Nat} {es : List (K × V)} (ok : LOK c k es) {key : K} (value : V)
    (hk : c.hash key = k) (hne : ∀ p ∈ es, c.eq key p.1 = false) :
    LOK c k ((key, value) :: es) ∧
    ∀ j, assoc c ((key, value) :: es) j = if c.eq j key then some value else assoc c es j := by
  refine ⟨⟨?_, ?_⟩, fun j => rfl⟩
  · rw [List.pairwise_cons]; exact ⟨fun p hp => hne p hp, ok.distinct⟩
  · intro p hp
    rw [List.mem_cons] at hp
    rcases hp with rfl | hp
    · exact hk
    · exact ok.hash p hp

omit cc in
theorem assoc_none {es : List (K × V)} {key : K} (h : ∀ p ∈ es, c.eq key p.1 = false) :
    assoc c es key = none := by
  cases ha : assoc c es key with
  | none => rfl
  | some v =>
    obtain ⟨k', h1, h2⟩ := assoc_mem ha
    rw [h _ h2] at h1; cases h1

omit cc in
theorem LOK.tail {k : Nat} {p : K × V} {ps : List (K × V)} (ok : LOK c k (p :: ps)) :
    LOK c k ps ∧ (∀ q ∈ ps, c.eq p.1 q.1 = false) ∧ c.hash p.1 = k :=
  have hd := List.pairwise_cons.mp ok.distinct
  ⟨⟨hd.2, fun q hq => ok.hash q (List.mem_cons_of_mem _ hq)⟩, hd.1, ok.hash p (List.mem_cons_self ..)⟩

theorem chainDel_ok {k : Nat} (key : K) : ∀ {es : List (K × V)}, LOK c k es →
    (chainDel c key es).2 = assoc c es key ∧ LOK c k (chainDel c key es).1 ∧
    (∀ p ∈ (chainDel c key es).1, p ∈ es) ∧
    ∀ j, assoc c (chainDel c key es).1 j = if c.eq j key then none else assoc c es j
  | [], ok => ⟨rfl, ok, fun _ h => h, fun j => by
      show (none : Option V) = _
      by_cases h : c.eq j key = true
      · rw [if_pos h]
      · rw [if_neg h]; rfl⟩
  | p :: ps, ok => by
    obtain ⟨ok', hd, hh⟩ := LOK.tail ok
    rw [chainDel]
    by_cases h : c.eq key p.1 = true
    · rw [if_pos h]
      refine ⟨by rw [assoc_cons, if_pos h], ok', fun q hq => List.mem_cons_of_mem _ hq, ?_⟩
      intro j
      show assoc c ps j = _
      rw [assoc_cons]
      by_cases hj : c.eq j key = true
      · rw [if_pos hj]
        apply assoc_none
        intro q hq
        rw [cc.congr hj, cc.congr h]
        exact hd q hq
      · have : ¬ c.eq j p.1 = true := fun hjp => hj (cc.trans _ _ _ hjp (cc.symm _ _ h))
        rw [if_neg hj, if_neg this]
    · rw [if_neg h]
      obtain ⟨h1, h2, h3, h4⟩ := chainDel_ok key ok'
      refine ⟨by rw [assoc_cons, if_neg h]; exact h1, ⟨?_, ?_⟩, ?_, ?_⟩
      · rw [List.pairwise_cons]; exact ⟨fun q hq => hd q (h3 q hq), h2.distinct⟩
      · intro q hq
        rw [List.mem_cons] at hq
        rcases hq with rfl | hq
        · exact hh
        · exact h2.hash q hq
      · intro q hq
        rw [List.mem_cons] at hq ⊢
        rcases hq with rfl | hq
        · exact Or.inl rfl
        · exact Or.inr (h3 q hq)
      · intro j
        show assoc c (p :: (chainDel c key ps).1) j = _
        rw [assoc_cons, assoc_cons, h4]
        by_cases hj : c.eq j p.1 = true
        · have : ¬ c.eq j key = true := fun hjk => h (cc.trans _ _ _ (cc.symm _ _ hjk) hj)
          rw [if_pos hj, if_neg this, if_pos hj]
        · rw [if_neg hj, if_neg hj]

/-! ## Leaves -/

omit cc in
theorem chained_eq (z : TLeaf K V) : isChained z = z.key0.testBit 32 := by
  unfold isChained leafData
  rw [Nat.and_one_is_mod, show z.key0.testBit 32 = (z.key0 >>> 32).testBit 0 by
    rw [Nat.testBit_shiftRight], Nat.testBit_zero]
  rcases Nat.mod_two_eq_zero_or_one (z.key0 >>> 32) with h | h <;> rw [h] <;> rfl

omit cc in
theorem chained_mark (z : TLeaf K V) : isChained (markChained z) = true := by
  rw [chained_eq]
  show (bitSet z.key0 (0 + 32)).testBit 32 = true
  rw [testBit_bitSet]; simp

omit cc in
theorem chained_unmark (z : TLeaf K V) : isChained (markUnchained z) = false := by
  rw [chained_eq]
  show (bitReset z.key0 (0 + 32)).testBit 32 = false
  rw [testBit_bitReset]; simp

omit cc in
theorem chained_body (z : TLeaf K V) (b : TBody K V) : isChained { z with body := b } = isChained z := rfl

omit cc in
theorem chained_new (k : Nat) (z : TLeaf K V) : isChained (newLeaf k z) = false := by
  have := SpVec.dataBit_new k z 0
  rw [SpVec.dataBit_eq] at this
  rw [chained_eq]; exact this

/-- A leaf as the operations leave it. -/
inductive GoodLeaf (c : Cmp K) (k : Nat) (z : TLeaf K V) : Prop
  | entry (e : K × V) (hb : z.body = .entry (some e)) (hc : isChained z = false)
      (ok : LOK c k [e]) : GoodLeaf c k z
  | chain (pair : K × V) (p : K × V) (ps : List (K × V)) (hb : z.body = .chain (p :: ps) pair)
      (hc : isChained z = true) (ok : LOK c k (pair :: p :: ps)) : GoodLeaf c k z

omit cc in
theorem GoodLeaf.lok {k : Nat} {z : TLeaf K V} (h : GoodLeaf c k z) : LOK c k (entries z.body) := by
  cases h with
  | entry e hb hc ok => rw [hb]; exact ok
  | chain pair p ps hb hc ok => rw [hb]; exact ok

omit cc in
theorem leafRef_ok {k : Nat} {z : TLeaf K V} (h : GoodLeaf c k z) (key : K) (fb : Option V) :
    leafRef c z key fb = some ((assoc c (entries z.body) key).orElse (fun _ => fb)) := by
  unfold leafRef
  cases h with
  | entry e hb hc ok =>
    rw [if_pos hc, hb]
    show (if c.eq key e.1 then some (some e.2) else some fb) =
      some ((if c.eq key e.1 then some e.2 else none).orElse (fun _ => fb))
    by_cases h : c.eq key e.1 = true
    · rw [if_pos h, if_pos h]; rfl
    · rw [if_neg h, if_neg h]; rfl
  | chain pair p ps hb hc ok =>
    rw [if_neg (by rw [hc]; decide), hb]
    show (if c.eq key pair.1 then some (some pair.2) else some (chainRef c key fb (p :: ps))) =
      some ((assoc c (pair :: p :: ps) key).orElse (fun _ => fb))
    rw [assoc_cons]
    by_cases h : c.eq key pair.1 = true
    · rw [if_pos h, if_pos h]; rfl
    · rw [if_neg h, if_neg h, chainRef_eq]

theorem leafSetChained_ok {k : Nat} {z : TLeaf K V} {next : List (K × V)} {pair : K × V}
    (hb : z.body = .chain next pair) (hc : isChained z = true) (ok : LOK c k (pair :: next))
    {key : K} (hk : c.hash key = k) (value : V)
    (hnext : next ≠ [] ∨ c.eq pair.1 key = false) :
    ∃ z', leafSetChained c z key value = some (z', (assoc c (pair :: next) key).isNone) ∧
      GoodLeaf c k z' ∧ leafKey z' = leafKey z ∧
      ∀ j, assoc c (entries z'.body) j = if c.eq j key then some value else assoc c (pair :: next) j := by
  unfold leafSetChained
  rw [hb]
  by_cases hp : c.eq pair.1 key = true
  · have hne : next ≠ [] := by
      rcases hnext with h | h
      · exact h
      · rw [hp] at h; cases h
    rcases chainSet_ok cc key value ok with ⟨h1, h2⟩ | ⟨es', h1, h2, h3, h4, h5, h6⟩
    · have hx := h2 pair (List.mem_cons_self ..)
      rw [cc.symm _ _ hp] at hx; cases hx
    · rw [chainSet, if_pos hp] at h1
      cases h1
      cases next with
      | nil => exact absurd rfl hne
      | cons p ps =>
        refine ⟨{ z with body := .chain (p :: ps) (pair.1, value) }, ?_,
          .chain (pair.1, value) p ps rfl hc h3, rfl, h6⟩
        show (if c.eq pair.1 key = true then _ else _) = _
        rw [if_pos hp]
        have : (assoc c (pair :: p :: ps) key).isNone = false := by
          cases hx : assoc c (pair :: p :: ps) key with
          | none => rw [hx] at h2; cases h2
          | some _ => rfl
        rw [this]
  · have hpf : c.eq key pair.1 = false := by
      rw [cc.eq_comm]; exact Bool.not_eq_true _ |>.mp hp
    obtain ⟨okn, hd, hh⟩ := LOK.tail ok
    show ∃ z', (if c.eq pair.1 key = true then _ else _) = _ ∧ _
    rw [if_neg hp, assoc_cons, hpf]
    rcases chainSet_ok cc key value okn with ⟨h1, h2⟩ | ⟨es', h1, h2, h3, h4, h5, h6⟩
    · have hall : ∀ p ∈ pair :: next, c.eq key p.1 = false := by
        intro p hm
        rw [List.mem_cons] at hm
        rcases hm with rfl | hm
        · exact hpf
        · exact h2 p hm
      obtain ⟨ok', ha⟩ := LOK.cons ok value hk hall
      refine ⟨{ z with body := .chain (pair :: next) (key, value) }, ?_,
        .chain (key, value) pair next rfl hc ok', rfl, ha⟩
      rw [h1]
      show some (_, true) = some (_, (assoc c next key).isNone)
      rw [assoc_none h2]; rfl
    · have hset : chainSet c key value (pair :: next) = some (pair :: es') := by
        rw [chainSet, if_neg hp, h1]
      rcases chainSet_ok cc key value ok with ⟨g1, _⟩ | ⟨es2, g1, g2, g3, g4, g5, g6⟩
      · rw [hset] at g1; cases g1
      · rw [hset] at g1
        cases g1
        cases es' with
        | nil => exact absurd rfl h4
        | cons p ps =>
          refine ⟨{ z with body := .chain (p :: ps) pair }, ?_, .chain pair p ps rfl hc g3, rfl, g6⟩
          rw [h1]
          show some (_, false) = some (_, (assoc c next key).isNone)
          cases hx : assoc c next key with
          | none => rw [hx] at h2; cases h2
          | some _ => rfl

theorem leafSet_ok {k : Nat} {z : TLeaf K V} (h : GoodLeaf c k z) {key : K} (hk : c.hash key = k)
    (value : V) :
    ∃ z', leafSet c z key value = some (z', (assoc c (entries z.body) key).isNone) ∧
      GoodLeaf c k z' ∧ leafKey z' = leafKey z ∧
      ∀ j, assoc c (entries z'.body) j =
        if c.eq j key then some value else assoc c (entries z.body) j := by
  unfold leafSet
  cases h with
  | entry e hb hc ok =>
    rw [if_pos hc, hb]
    show ∃ z' : TLeaf K V, (if c.eq e.1 key = true then _ else _) = some (z', (assoc c [e] key).isNone) ∧ _ ∧ _ ∧
      ∀ j, assoc c (entries z'.body) j = if c.eq j key then some value else assoc c [e] j
    by_cases he : c.eq e.1 key = true
    · rcases chainSet_ok cc key value ok with ⟨h1, h2⟩ | ⟨es', h1, h2, h3, h4, h5, h6⟩
      · have := h2 e (List.mem_cons_self ..)
        rw [cc.symm _ _ he] at this; cases this
      · rw [chainSet, if_pos he] at h1
        cases h1
        refine ⟨{ z with body := .entry (some (e.1, value)) }, ?_, .entry _ rfl hc h3, rfl, h6⟩
        rw [if_pos he, assoc_cons, if_pos (cc.symm _ _ he)]; rfl
    · rw [if_neg he]
      obtain ⟨z', h1, h2, h3, h4⟩ := leafSetChained_ok cc
        (z := { markChained z with body := .chain [] e }) rfl (chained_mark z) ok hk value
        (Or.inr (Bool.not_eq_true _ |>.mp he))
      refine ⟨z', h1, h2, h3.trans ?_, h4⟩
      exact SpVec.key_bitSet z 0
  | chain pair p ps hb hc ok =>
    rw [if_neg (by rw [hc]; decide), hb]
    exact leafSetChained_ok cc hb hc ok hk value (Or.inl (by simp))

theorem leafSet_fresh {k : Nat} (z : TLeaf K V) (hb : z.body = .entry none)
    (hc : isChained z = false) {key : K} (hk : c.hash key = k) (value : V) :
    ∃ z', leafSet c z key value = some (z', true) ∧ GoodLeaf c k z' ∧ leafKey z' = leafKey z ∧
      ∀ j, assoc c (entries z'.body) j = if c.eq j key then some value else none := by
  obtain ⟨ok, ha⟩ := LOK.cons (k := k) (es := []) ⟨List.Pairwise.nil, fun _ h => by cases h⟩ value hk
    (fun _ h => by cases h)
  refine ⟨{ z with body := .entry (some (key, value)) }, ?_, .entry _ rfl hc ok, rfl, ha⟩
  unfold leafSet
  rw [if_pos hc, hb]

omit cc in
theorem unchain_ok {k : Nat} {z : TLeaf K V} (hc : isChained z = true) {next : List (K × V)}
    {pair : K × V} (ok : LOK c k (pair :: next)) :
    GoodLeaf c k (unchain z next pair) ∧ leafKey (unchain z next pair) = leafKey z ∧
      entries (unchain z next pair).body = pair :: next := by
  cases next with
  | nil => exact ⟨.entry pair rfl (chained_unmark z) ok, SpVec.key_bitReset z 0, rfl⟩
  | cons p ps => exact ⟨.chain pair p ps rfl hc ok, rfl, rfl⟩

theorem leafDelete_ok {k : Nat} {z : TLeaf K V} {pair p : K × V} {ps : List (K × V)}
    (hb : z.body = .chain (p :: ps) pair) (hc : isChained z = true)
    (ok : LOK c k (pair :: p :: ps)) (key : K) :
    ∃ z', leafDelete c z key = some (z', assoc c (pair :: p :: ps) key) ∧ GoodLeaf c k z' ∧
      leafKey z' = leafKey z ∧
      ∀ j, assoc c (entries z'.body) j =
        if c.eq j key then none else assoc c (pair :: p :: ps) j := by
  obtain ⟨d1, d2, d3, d4⟩ := chainDel_ok cc key ok
  unfold leafDelete
  rw [hb]
  show ∃ z', (if c.eq key pair.1 = true then some (unchain z ps p, some pair.2) else
    some (unchain z (chainDel c key (p :: ps)).1 pair, (chainDel c key (p :: ps)).2)) = _ ∧ _
  by_cases hp : c.eq key pair.1 = true
  · rw [chainDel, if_pos hp] at d1 d2 d4
    obtain ⟨g1, g2, g3⟩ := unchain_ok hc d2
    refine ⟨unchain z ps p, ?_, g1, g2, by rw [g3]; exact d4⟩
    rw [if_pos hp, ← d1]
  · rw [chainDel, if_neg hp] at d1 d2 d4
    obtain ⟨g1, g2, g3⟩ := unchain_ok hc d2
    refine ⟨unchain z (chainDel c key (p :: ps)).1 pair, ?_, g1, g2, by rw [g3]; exact d4⟩
    rw [if_neg hp, ← d1]

/-! ## Tables -/

/-- The table is in order. -/
structure TabInv (c : Cmp K) (st : Tab K V) : Prop where
  trie : TrieInv st.trie
  leaf : ∀ k z, look st.trie k = some z → GoodLeaf c k z

/-- The value at a key. -/
def content (c : Cmp K) (t : Trie (TBody K V)) (key : K) : Option V :=
  match look t (c.hash key) with
  | none => none
  | some z => assoc c (entries z.body) key

theorem content_congr (t : Trie (TBody K V)) {a b : K} (h : c.eq a b = true) :
    content c t a = content c t b := by
  unfold content
  rw [cc.compat a b h]
  cases look t (c.hash b) with
  | none => rfl
  | some z => exact assoc_congr cc h _

theorem content_write {t t' : Trie (TBody K V)} {key : K} {z' : TLeaf K V} {x : Option V}
    (hl : ∀ k', look t' k' = if k' = c.hash key then some z' else look t k')
    (hs : ∀ j, assoc c (entries z'.body) j = if c.eq j key then x else
      (match look t (c.hash key) with | none => none | some z => assoc c (entries z.body) j)) :
    content c t' = put c.eq (content c t) key x := by
  funext j
  show (match look t' (c.hash j) with | none => none | some z => assoc c (entries z.body) j) =
    if c.eq j key then x else
      (match look t (c.hash j) with | none => none | some z => assoc c (entries z.body) j)
  rw [hl]
  by_cases hj : c.hash j = c.hash key
  · rw [if_pos hj, hj]; exact hs j
  · rw [if_neg hj]
    have : ¬ c.eq j key = true := fun h => hj (cc.compat _ _ h)
    rw [if_neg this]

omit cc in
theorem tabRef_ok {st : Tab K V} (hi : TabInv c st) (key : K) (fb : Option V) :
    tabRef c st key fb = some ((content c st.trie key).orElse (fun _ => fb)) := by
  unfold tabRef content
  rw [trieGet_ok hi.trie]
  cases h : look st.trie (c.hash key) with
  | none => rfl
  | some z => exact leafRef_ok (hi.leaf _ _ h) key fb

theorem tabSet_ok (g0 g1 : Nat) {st : Tab K V} (hi : TabInv c st) (key : K) (value : V) :
    ∃ st', tabSet c g0 g1 st key value false = some (st', some value) ∧ TabInv c st' ∧
      content c st'.trie = put c.eq (content c st.trie) key (some value) ∧
      st'.numEntries = (if (content c st.trie key).isNone then SpVec.inc64 st.numEntries
        else st.numEntries) := by
  unfold tabSet
  cases h : look st.trie (c.hash key) with
  | some z =>
    have hc : content c st.trie key = assoc c (entries z.body) key := by unfold content; rw [h]
    have hf : findLeaf g0 g1 st.trie (c.hash key) false = some (st.trie, some z) := by
      rw [findLeaf, if_neg (by decide), trieAdd_found hi.trie _ h]
    obtain ⟨z', s1, s2, s3, s4⟩ := leafSet_ok cc (hi.leaf _ _ h) (rfl : c.hash key = c.hash key) value
    obtain ⟨t', w1, w2, w3, _⟩ := trieWrite_ok hi.trie h (s3.trans (hi.trie.key h).1)
    refine ⟨⟨t', if (assoc c (entries z.body) key).isNone then SpVec.inc64 st.numEntries
      else st.numEntries⟩, ?_, ⟨w2, ?_⟩, ?_, by rw [hc]⟩
    · rw [hf]
      simp only [s1, w1]
    · intro k a hk
      have hk : look t' k = some a := hk
      rw [w3] at hk
      by_cases hkk : k = c.hash key
      · rw [if_pos hkk] at hk; cases hk; rw [hkk]; exact s2
      · rw [if_neg hkk] at hk; exact hi.leaf k a hk
    · exact content_write cc w3 (by rw [h]; exact s4)
  | none =>
    have hc : content c st.trie key = none := by unfold content; rw [h]
    obtain ⟨t1, a1, a2, _, a3⟩ := trieAdd_new hi.trie (cc.word key) (leafAllocate K V g0 g1) h
    have hf : findLeaf g0 g1 st.trie (c.hash key) false =
        some (t1, some (newLeaf (c.hash key) (leafAllocate K V g0 g1))) := by
      rw [findLeaf, if_neg (by decide), a1]
    obtain ⟨z', s1, s2, s3, s4⟩ := leafSet_fresh cc (newLeaf (c.hash key) (leafAllocate K V g0 g1)) rfl
      (chained_new _ _) (rfl : c.hash key = c.hash key) value
    have hl1 : look t1 (c.hash key) = some (newLeaf (c.hash key) (leafAllocate K V g0 g1)) := by
      rw [a3, if_pos rfl]
    obtain ⟨t', w1, w2, w3, _⟩ := trieWrite_ok a2 hl1 (s3.trans (leafKey_newLeaf _ (cc.word key)))
    have hw : ∀ k', look t' k' = if k' = c.hash key then some z' else look st.trie k' := by
      intro k'
      rw [w3, a3]
      by_cases hk : k' = c.hash key
      · rw [if_pos hk, if_pos hk]
      · rw [if_neg hk, if_neg hk, if_neg hk]
    refine ⟨⟨t', SpVec.inc64 st.numEntries⟩, ?_, ⟨w2, ?_⟩, ?_,
      by rw [hc, if_pos (show (none : Option V).isNone = true from rfl)]⟩
    · rw [hf]
      simp only [s1, w1]
      rfl
    · intro k a hk
      have hk : look t' k = some a := hk
      rw [hw] at hk
      by_cases hkk : k = c.hash key
      · rw [if_pos hkk] at hk; cases hk; rw [hkk]; exact s2
      · rw [if_neg hkk] at hk; exact hi.leaf k a hk
    · exact content_write cc hw (by rw [h]; exact s4)

theorem tabDelete_ok {st : Tab K V} (hi : TabInv c st) (key : K) :
    ∃ st', tabDelete c st key = some (st', content c st.trie key) ∧ TabInv c st' ∧
      content c st'.trie = put c.eq (content c st.trie) key none ∧
      st'.numEntries = (if (content c st.trie key).isSome then SpVec.dec64 st.numEntries
        else st.numEntries) := by
  have hsame : content c st.trie key = none →
      content c st.trie = put c.eq (content c st.trie) key none := by
    intro hc
    funext j
    show _ = if c.eq j key then none else content c st.trie j
    by_cases hj : c.eq j key = true
    · rw [if_pos hj, content_congr cc _ hj, hc]
    · rw [if_neg hj]
  unfold tabDelete
  rw [trieGet_ok hi.trie]
  cases h : look st.trie (c.hash key) with
  | none =>
    have hc : content c st.trie key = none := by unfold content; rw [h]
    exact ⟨st, by rw [hc], hi, hsame hc, by rw [hc, if_neg (by simp)]⟩
  | some z =>
    have hc : content c st.trie key = assoc c (entries z.body) key := by unfold content; rw [h]
    cases hi.leaf _ _ h with
    | entry e hb hch ok =>
      rw [hb] at hc
      have hc : content c st.trie key = if c.eq key e.1 then some e.2 else none := hc
      simp only [if_pos hch, hb]
      by_cases he : c.eq key e.1 = true
      · rw [if_pos he] at hc ⊢
        obtain ⟨t', w1, w2, _, w3⟩ := trieDelete_found hi.trie h
        refine ⟨⟨t', SpVec.dec64 st.numEntries⟩, by simp only [w1, hc], ⟨w2, ?_⟩, ?_,
          by rw [hc, if_pos (show (some e.2).isSome = true from rfl)]⟩
        · intro k a hk
          have hk : look t' k = some a := hk
          rw [w3] at hk
          by_cases hkk : k = c.hash key
          · rw [if_pos hkk] at hk; cases hk
          · rw [if_neg hkk] at hk; exact hi.leaf k a hk
        · funext j
          show (match look t' (c.hash j) with | none => none | some z => assoc c (entries z.body) j) =
            if c.eq j key then none else
              (match look st.trie (c.hash j) with | none => none | some z => assoc c (entries z.body) j)
          rw [w3]
          by_cases hj : c.hash j = c.hash key
          · rw [if_pos hj, hj, h]
            show none = if c.eq j key then none else assoc c (entries z.body) j
            by_cases hjk : c.eq j key = true
            · rw [if_pos hjk]
            · rw [if_neg hjk, hb]
              have : ¬ c.eq j e.1 = true := fun hje => hjk (cc.trans _ _ _ hje (cc.symm _ _ he))
              show none = if c.eq j e.1 then some e.2 else none
              rw [if_neg this]
          · rw [if_neg hj]
            have : ¬ c.eq j key = true := fun h => hj (cc.compat _ _ h)
            rw [if_neg this]
      · rw [if_neg he] at hc ⊢
        exact ⟨st, by rw [hc], hi, hsame hc, by rw [hc, if_neg (by simp)]⟩
    | chain pair p ps hb hch ok =>
      obtain ⟨z', s1, s2, s3, s4⟩ := leafDelete_ok cc hb hch ok key
      obtain ⟨t', w1, w2, w3, _⟩ := trieWrite_ok hi.trie h (s3.trans (hi.trie.key h).1)
      have hc' : content c st.trie key = assoc c (pair :: p :: ps) key := by rw [hc, hb]; rfl
      rw [← hc'] at s1
      refine ⟨⟨t', if (content c st.trie key).isSome then SpVec.dec64 st.numEntries
        else st.numEntries⟩, ?_, ⟨w2, ?_⟩, ?_, rfl⟩
      · simp only [hch, Bool.true_eq_false, if_false, s1, w1]
      · intro k a hk
        have hk : look t' k = some a := hk
        rw [w3] at hk
        by_cases hkk : k = c.hash key
        · rw [if_pos hkk] at hk; cases hk; rw [hkk]; exact s2
        · rw [if_neg hkk] at hk; exact hi.leaf k a hk
      · exact content_write cc w3 (by rw [h]; show ∀ j, _ = if c.eq j key then none else assoc c (entries z.body) j; rw [hb]; exact s4)

omit cc in
theorem tabClear_ok {st : Tab K V} (hi : TabInv c st) : tabClear st = some (tabMake K V) := by
  unfold tabClear
  rw [trieClear_ok hi.trie]; rfl

omit cc in
theorem init_inv : TabInv c (tabMake K V) :=
  ⟨CTrie.init_inv _, fun k z h => by
    rw [show (tabMake K V).trie = trieInit (TBody K V) from rfl, look_null rfl] at h; cases h⟩

omit cc in
theorem content_init : content c (tabMake K V).trie = fun _ => none := by
  funext k
  unfold content
  rw [show (tabMake K V).trie = trieInit (TBody K V) from rfl, look_null rfl]

omit cc in
theorem tabCopy_ok {st : Tab K V} (hi : TabInv c st) :
    ∃ st', tabCopy st = some st' ∧ TabInv c st' ∧ content c st'.trie = content c st.trie ∧
      st'.numEntries = st.numEntries := by
  obtain ⟨t, h1, h2, _, h4⟩ := trieCopy_ok hi.trie (copyLeaf (K := K) (V := V)) (fun _ => rfl)
  have hl : ∀ k, look t k = look st.trie k := by
    intro k
    rw [h4]
    cases look st.trie k <;> rfl
  refine ⟨⟨t, st.numEntries⟩, by unfold tabCopy; rw [h1], ⟨h2, ?_⟩, ?_, rfl⟩
  · intro k z hk
    have hk : look t k = some z := hk
    rw [hl] at hk; exact hi.leaf k z hk
  · funext k
    show (match look t (c.hash k) with | none => none | some z => assoc c (entries z.body) k) = _
    rw [hl]; rfl

/-! ## Enumeration -/

/-- The entries of a list of leaves. -/
def allEntries (ls : List (TLeaf K V)) : List (K × V) := ls.flatMap (fun z => entries z.body)

theorem lists_content {st : Tab K V} (hi : TabInv c st) :
    Lists c.eq (allEntries (allLeaves st.trie)) (content c st.trie) := by
  have hg : ∀ z ∈ allLeaves st.trie, GoodLeaf c (leafKey z) z := fun z hz =>
    hi.leaf _ _ ((hi.trie.mem z).mp hz)
  constructor
  · unfold allEntries
    rw [List.pairwise_flatMap]
    refine ⟨fun z hz => (hg z hz).lok.distinct, ?_⟩
    have hnd : (allLeaves st.trie).Pairwise (fun a b => leafKey a ≠ leafKey b) := by
      have := hi.trie.nodupKeys
      rw [List.Nodup, List.pairwise_map] at this
      exact this
    refine List.Pairwise.imp_of_mem ?_ hnd
    intro a b ha hb hab x hx y hy
    cases hxy : c.eq x.1 y.1 with
    | false => rfl
    | true =>
      exact absurd (((hg a ha).lok.hash x hx).symm.trans
        ((cc.compat _ _ hxy).trans ((hg b hb).lok.hash y hy))) hab
  · intro k v hm
    unfold allEntries at hm
    rw [List.mem_flatMap] at hm
    obtain ⟨z, hz, hkv⟩ := hm
    have hk : c.hash k = leafKey z := (hg z hz).lok.hash _ hkv
    unfold content
    rw [hk, (hi.trie.mem z).mp hz]
    exact mem_assoc cc (hg z hz).lok.distinct hkv
  · intro k v hc
    unfold content at hc
    cases hl : look st.trie (c.hash k) with
    | none => rw [hl] at hc; cases hc
    | some z =>
      rw [hl] at hc
      obtain ⟨k', h1, h2⟩ := assoc_mem hc
      exact ⟨k', h1, List.mem_flatMap.mpr ⟨z, hi.trie.mem_of_look hl, h2⟩⟩

/-- What an iterator still has to deliver. -/
def TIterAt (st : Tab K V) (it : TIter K V) (E : List (K × V)) : Prop :=
  (it.fin = true ∧ E = []) ∨
  (it.fin = false ∧ ∃ rest, IterAt st.trie it.ctit rest ∧ E = it.chain ++ allEntries rest)

omit cc in
theorem tIterNext_ok {st : Tab K V} (hi : TabInv c st) {it : TIter K V} {E : List (K × V)}
    (h : TIterAt st it E) :
    ∃ it', tIterNext st it = some (it', E.head?) ∧ TIterAt st it' E.tail := by
  unfold tIterNext
  rcases h with ⟨h1, rfl⟩ | ⟨h1, rest, h2, rfl⟩
  · exact ⟨it, by rw [if_pos h1]; rfl, Or.inl ⟨h1, rfl⟩⟩
  · rw [if_neg (by rw [h1]; decide)]
    cases hch : it.chain with
    | cons p ps =>
      exact ⟨{ it with chain := ps }, rfl, Or.inr ⟨h1, rest, h2, rfl⟩⟩
    | nil =>
      obtain ⟨ci, hc1, hc2⟩ := iterNext_step hi.trie h2
      rw [hc1]
      cases rest with
      | nil => exact ⟨{ it with ctit := ci, fin := true }, by rw [hch]; rfl, Or.inl ⟨rfl, rfl⟩⟩
      | cons z t =>
        have hlm : z ∈ allLeaves st.trie := by
          rcases h2 with ⟨_, h⟩ | ⟨_, _, h⟩ | ⟨_, _, pre, l0, h, _⟩
          · cases h
          · rw [← h]; exact List.mem_cons_self ..
          · rw [h]; exact List.mem_append_right _ (List.mem_cons_of_mem _ (List.mem_cons_self ..))
        show ∃ it', (if isChained z = false then _ else _) = some (it', (allEntries (z :: t)).head?) ∧
          TIterAt st it' (allEntries (z :: t)).tail
        have he : allEntries (z :: t) = entries z.body ++ allEntries t := rfl
        rw [he]
        cases hi.leaf _ _ ((hi.trie.mem z).mp hlm) with
        | entry e hb hcz ok =>
          rw [if_pos hcz, hb]
          exact ⟨{ it with ctit := ci }, by rw [hch]; rfl, Or.inr ⟨h1, t, hc2, by rw [hch]; rfl⟩⟩
        | chain pair p ps hb hcz ok =>
          rw [if_neg (by rw [hcz]; decide), hb]
          exact ⟨{ it with ctit := ci, chain := p :: ps }, rfl, Or.inr ⟨h1, t, hc2, rfl⟩⟩

omit cc in
theorem tabCollect_ok {st : Tab K V} (hi : TabInv c st) : ∀ (fuel : Nat) (it : TIter K V)
    (E seed : List (K × V)), TIterAt st it E → E.length < fuel →
    tabCollect st fuel it seed = some (E.reverse ++ seed)
  | 0, _, _, _, _, h => by omega
  | fuel + 1, it, E, seed, hat, hlen => by
    obtain ⟨it', h1, h2⟩ := tIterNext_ok hi hat
    rw [tabCollect, h1]
    cases E with
    | nil => rfl
    | cons kv E =>
      show tabCollect st fuel it' (kv :: seed) = _
      rw [tabCollect_ok hi fuel it' E (kv :: seed) h2 (by rw [List.length_cons] at hlen; omega),
        List.reverse_cons, List.append_assoc]
      rfl

/-! ## Histories -/

/-- The counter agrees with the number of entries. -/
def CountOK (st : Tab K V) : Prop :=
  st.numEntries = (allEntries (allLeaves st.trie)).length % 2 ^ 64

theorem tabStep_ok (g0 g1 : Nat) {st : Tab K V} (hi : TabInv c st) (hn : CountOK st) (op : Op K V) :
    ∃ st', tabStep c g0 g1 st op = some (st', (stepMap c.eq (content c st.trie) op).2) ∧
      TabInv c st' ∧ content c st'.trie = (stepMap c.eq (content c st.trie) op).1 ∧ CountOK st' := by
  have hL := lists_content cc hi
  have hresp : ∀ a b, c.eq a b = true → content c st.trie a = content c st.trie b :=
    fun a b h => content_congr cc _ h
  unfold CountOK at hn
  cases op with
  | set k v =>
    obtain ⟨st', h1, h2, h3, h4⟩ := tabSet_ok cc g0 g1 hi k v
    refine ⟨st', by rw [tabStep, h1]; rfl, h2, h3, ?_⟩
    have hL' := lists_content cc h2
    have hlen := hL.length_put cc hL' hresp (k := k) (x := some v) (fun j => by rw [h3])
    unfold CountOK
    rw [h4, hn]
    cases hm : content c st.trie k with
    | none =>
      rw [hm] at hlen
      rw [if_pos (show (none : Option V).isNone = true from rfl), SpVec.inc64]
      simp at hlen
      omega
    | some y =>
      rw [hm] at hlen
      rw [if_neg (by simp)]
      simp at hlen
      rw [hlen]
  | delete k =>
    obtain ⟨st', h1, h2, h3, h4⟩ := tabDelete_ok cc hi k
    refine ⟨st', by rw [tabStep, h1]; rfl, h2, h3, ?_⟩
    have hL' := lists_content cc h2
    have hlen := hL.length_put cc hL' hresp (k := k) (x := none) (fun j => by rw [h3])
    unfold CountOK
    rw [h4, hn]
    cases hm : content c st.trie k with
    | none =>
      rw [hm] at hlen
      rw [if_neg (by simp)]
      simp at hlen
      rw [hlen]
    | some y =>
      rw [hm] at hlen
      rw [if_pos (show (some y).isSome = true from rfl), SpVec.dec64]
      simp at hlen
      omega
  | clear =>
    exact ⟨tabMake K V, by rw [tabStep, tabClear_ok hi]; rfl, init_inv, content_init, rfl⟩
  | copy =>
    obtain ⟨st', h1, h2, h3, h4⟩ := tabCopy_ok hi
    refine ⟨st', by rw [tabStep, h1]; rfl, h2, h3, ?_⟩
    have hL' := lists_content cc h2
    rw [h3] at hL'
    have a := len_le cc _ _ hL.keys (fun a ha => hL'.some_key (hL.key_some ha))
    have b := len_le cc _ _ hL'.keys (fun a ha => hL.some_key (hL'.key_some ha))
    rw [List.length_map, List.length_map] at a b
    unfold CountOK
    rw [h4, hn]
    congr 1
    omega

theorem tabRun_ok (g0 g1 : Nat) : ∀ (ops : List (Op K V)) (st : Tab K V), TabInv c st → CountOK st →
    ∃ st', tabRun c g0 g1 st ops = some (st', (runMap c.eq (content c st.trie) ops).2) ∧
      TabInv c st' ∧ content c st'.trie = (runMap c.eq (content c st.trie) ops).1 ∧ CountOK st'
  | [], st, hi, hn => ⟨st, rfl, hi, rfl, hn⟩
  | op :: ops, st, hi, hn => by
    obtain ⟨st1, h1, h2, h3, h4⟩ := tabStep_ok cc g0 g1 hi hn op
    obtain ⟨st2, r1, r2, r3, r4⟩ := tabRun_ok g0 g1 ops st1 h2 h4
    rw [h3] at r1 r3
    refine ⟨st2, ?_, r2, r3, r4⟩
    rw [tabRun, h1]
    simp only [r1]
    rfl

theorem tab_history (g0 g1 : Nat) (ops : List (Op K V)) :
    ∃ st, tabRun c g0 g1 (tabMake K V) ops = some (st, (runMap c.eq (fun _ => none) ops).2) ∧
      (∀ key fb, tabRef c st key fb =
        some (((runMap c.eq (fun _ => none) ops).1 key).orElse (fun _ => fb))) ∧
      (∃ E, Lists c.eq E (runMap c.eq (fun _ => none) ops).1 ∧
        (∀ fuel, E.length < fuel → tabCollect st fuel (tIterInit K V) [] = some E.reverse) ∧
        st.numEntries = E.length % 2 ^ 64) ∧
      trieCheck st.trie = some true := by
  obtain ⟨st, h1, h2, h3, h4⟩ := tabRun_ok cc g0 g1 ops (tabMake K V) init_inv rfl
  rw [content_init] at h1 h3
  have hL := lists_content cc h2
  rw [h3] at hL
  refine ⟨st, h1, fun key fb => by rw [tabRef_ok h2, h3], ⟨_, hL, fun fuel hf => ?_, h4⟩,
    trieCheck_ok h2.trie⟩
  rw [tabCollect_ok h2 fuel (tIterInit K V) (allEntries (allLeaves st.trie)) []
    (Or.inr ⟨rfl, _, iterInit_ok st.trie, rfl⟩) hf, List.append_nil]

end Gauche.SpTab
