import Verif.Proof.CTrieTop
import Verif.Model.SpVec
import Verif.Spec.SparseMap

/-! # Sparse vectors: the vector is a finite map -/

namespace Gauche.SparseMap

theorem Lists.length_put {K V : Type} [DecidableEq K] {E E' : List (K × V)} {M M' : K → Option V}
    (h : Lists E M) (h' : Lists E' M') {i : K} {x : Option V}
    (hM : ∀ j, M' j = if j = i then x else M j) :
    E'.length + (if (M i).isSome then 1 else 0) = E.length + (if x.isSome then 1 else 0) := by
  -- compare the key lists
  have keyE : ∀ j, j ∈ E.map Prod.fst ↔ (M j).isSome = true := by
    intro j
    rw [List.mem_map]
    constructor
    · rintro ⟨⟨a, v⟩, hm, rfl⟩; rw [(h.mem a v).mp hm]; rfl
    · intro hs
      obtain ⟨v, hv⟩ := Option.isSome_iff_exists.mp hs
      exact ⟨(j, v), (h.mem j v).mpr hv, rfl⟩
  have keyE' : ∀ j, j ∈ E'.map Prod.fst ↔ (M' j).isSome = true := by
    intro j
    rw [List.mem_map]
    constructor
    · rintro ⟨⟨a, v⟩, hm, rfl⟩; rw [(h'.mem a v).mp hm]; rfl
    · intro hs
      obtain ⟨v, hv⟩ := Option.isSome_iff_exists.mp hs
      exact ⟨(j, v), (h'.mem j v).mpr hv, rfl⟩
  have hi : M' i = x := by rw [hM, if_pos rfl]
  have hne : ∀ j, j ≠ i → M' j = M j := fun j hj => by rw [hM, if_neg hj]
  have hlen : ∀ {A B : List K}, A.Nodup → B.Nodup → (∀ j, j ∈ A ↔ j ∈ B) → A.length = B.length :=
    fun ha hb hab => ((List.perm_ext_iff_of_nodup ha hb).mpr hab).length_eq
  have lE : E.length = (E.map Prod.fst).length := (List.length_map _).symm
  have lE' : E'.length = (E'.map Prod.fst).length := (List.length_map _).symm
  rw [lE, lE']
  cases h1 : (M i).isSome with
  | true =>
    cases h2 : x.isSome with
    | true =>
      simp only [if_true]
      rw [hlen h'.nodup h.nodup]
      intro j
      rw [keyE, keyE']
      by_cases hj : j = i
      · subst hj; rw [hi, h1, h2]
      · rw [hne j hj]
    | false =>
      have := hlen (A := i :: E'.map Prod.fst) (B := E.map Prod.fst)
        (List.nodup_cons.mpr ⟨by rw [keyE', hi, h2]; decide, h'.nodup⟩) h.nodup (fun j => by
          rw [List.mem_cons, keyE, keyE']
          by_cases hj : j = i
          · subst hj; rw [h1]; simp
          · rw [hne j hj]; simp [hj])
      rw [List.length_cons] at this
      simpa using this
  | false =>
    cases h2 : x.isSome with
    | true =>
      have := hlen (A := E'.map Prod.fst) (B := i :: E.map Prod.fst) h'.nodup
        (List.nodup_cons.mpr ⟨by rw [keyE, h1]; decide, h.nodup⟩) (fun j => by
          rw [List.mem_cons, keyE, keyE']
          by_cases hj : j = i
          · subst hj; rw [hi, h2]; simp
          · rw [hne j hj]; simp [hj])
      rw [List.length_cons] at this
      simpa using this
    | false =>
      simp only [if_neg (show ¬ false = true by decide), Nat.add_zero]
      rw [hlen h'.nodup h.nodup]
      intro j
      rw [keyE, keyE']
      by_cases hj : j = i
      · subst hj; rw [hi, h1, h2]
      · rw [hne j hj]

end Gauche.SparseMap

namespace Gauche.SpVec

open Gauche.CTrie Gauche.SparseMap

/-- What the generic code relies on in a descriptor: `slot l j` is the element at
position `j` of a leaf, `good` says the leaf has its full array, and `norm` is
what storing makes of a value. -/
structure DescOK {β V : Type} (d : Desc β V) (good : Leaf β → Prop)
    (slot : Leaf β → Nat → Option V) (norm : V → Option V) : Prop where
  fresh_good : ∀ k, good (newLeaf k d.allocate)
  fresh_slot : ∀ k j, slot (newLeaf k d.allocate) j = none
  ref : ∀ l i, good l → d.ref l i = some (slot l (i % 2 ^ d.shift))
  set_err : ∀ l i v, good l → norm v = none → d.set l i v = some none
  set_ok : ∀ l i v w, good l → norm v = some w → ∃ l',
    d.set l i v = some (some (l', (slot l (i % 2 ^ d.shift)).isNone)) ∧ good l' ∧
    leafKey l' = leafKey l ∧ ∀ j, j < 2 ^ d.shift →
      slot l' j = if j = i % 2 ^ d.shift then some w else slot l j
  del : ∀ l i, good l → ∃ l',
    d.delete l i = some (l', slot l (i % 2 ^ d.shift)) ∧ good l' ∧ leafKey l' = leafKey l ∧
    ∀ j, j < 2 ^ d.shift → slot l' j = if j = i % 2 ^ d.shift then none else slot l j
  copy : ∀ l, leafKey (d.copy l) = leafKey l ∧ (good l → good (d.copy l)) ∧
    ∀ j, slot (d.copy l) j = slot l j
  iter : ∀ l j, good l → j ≤ 2 ^ d.shift → ∃ i r, d.iter l j = some (i, r) ∧
    (∀ v, r = some v → j ≤ i ∧ i < 2 ^ d.shift ∧ slot l i = some v ∧
      ∀ x, j ≤ x → x < i → slot l x = none) ∧
    (r = none → ∀ x, j ≤ x → x < 2 ^ d.shift → slot l x = none)

/-- The vector's trie is in order and its leaves are complete. -/
structure SVInv {β V : Type} (d : Desc β V) (good : Leaf β → Prop) (sv : SV β V) : Prop where
  trie : TrieInv sv.trie
  leaf : ∀ k l, look sv.trie k = some l → good l ∧ k < 2 ^ (64 - d.shift)

/-- The entry at an index. -/
def content {β V : Type} (d : Desc β V) (slot : Leaf β → Nat → Option V) (t : Trie β) (i : Nat) :
    Option V :=
  match look t (i >>> d.shift) with
  | none => none
  | some l => slot l (i % 2 ^ d.shift)

theorem idx_split (s i : Nat) : i >>> s * 2 ^ s + i % 2 ^ s = i := by
  rw [Nat.shiftRight_eq_div_pow, Nat.mul_comm]; exact Nat.div_add_mod i (2 ^ s)

theorem key_bound {s i : Nat} (hs : s ≤ 64) (hi : i < 2 ^ 64) : i >>> s < 2 ^ (64 - s) := by
  rw [Nat.shiftRight_eq_div_pow]
  apply Nat.div_lt_of_lt_mul
  rw [← Nat.pow_add, show s + (64 - s) = 64 by omega]; exact hi

theorem key_bound64 {s i : Nat} (hi : i < 2 ^ 64) : i >>> s < 2 ^ 64 :=
  lt_of_le_of_lt (by rw [Nat.shiftRight_eq_div_pow]; exact Nat.div_le_self _ _) hi

theorem mod_lt_shift (s i : Nat) : i % 2 ^ s < 2 ^ s := Nat.mod_lt _ (Nat.pow_pos (by decide))

variable {β V : Type} {d : Desc β V} {good : Leaf β → Prop}
    {slot : Leaf β → Nat → Option V} {norm : V → Option V}

/-- Replacing one leaf changes the entries of that leaf only. -/
theorem content_write {t t' : Trie β} {k : Nat} {l l' : Leaf β} {i : Nat} {x : Option V}
    (hk : i >>> d.shift = k)
    (hl : ∀ k', look t' k' = if k' = k then some l' else look t k')
    (hold : ∀ j, j < 2 ^ d.shift → slot l j = (match look t k with | none => none | some l => slot l j))
    (hs : ∀ j, j < 2 ^ d.shift → slot l' j = if j = i % 2 ^ d.shift then x else slot l j) :
    content d slot t' = put (content d slot t) i x := by
  funext j
  show (match look t' (j >>> d.shift) with | none => none | some l => slot l (j % 2 ^ d.shift)) =
    if j = i then x else
      (match look t (j >>> d.shift) with | none => none | some l => slot l (j % 2 ^ d.shift))
  rw [hl]
  by_cases hj : j >>> d.shift = k
  · rw [if_pos hj, hj]
    show slot l' (j % 2 ^ d.shift) = _
    rw [hs _ (mod_lt_shift _ _)]
    by_cases hm : j % 2 ^ d.shift = i % 2 ^ d.shift
    · have : j = i := by rw [← idx_split d.shift j, ← idx_split d.shift i, hj, hk, hm]
      rw [if_pos hm, if_pos this]
    · have : j ≠ i := fun h => hm (by rw [h])
      rw [if_neg hm, if_neg this, hold _ (mod_lt_shift _ _)]
  · have : j ≠ i := fun h => hj (by rw [h, hk])
    rw [if_neg hj, if_neg this]

theorem svRef_ok (ok : DescOK d good slot norm) {sv : SV β V} (hi : SVInv d good sv) (i : Nat)
    (fb : Option V) :
    svRef d sv i fb = some ((content d slot sv.trie i).orElse (fun _ => fb)) := by
  unfold svRef content
  rw [trieGet_ok hi.trie]
  cases h : look sv.trie (i >>> d.shift) with
  | none => rfl
  | some l =>
    simp only [ok.ref l i (hi.leaf _ _ h).1]
    cases slot l (i % 2 ^ d.shift) <;> rfl

theorem svSet_ok (ok : DescOK d good slot norm) (hsh : d.shift ≤ 64) {sv : SV β V}
    (hi : SVInv d good sv) {i : Nat} (hi64 : i < 2 ^ 64) (v : V) :
    ∃ sv', svSet d sv i v = some (sv', (norm v).isSome) ∧ SVInv d good sv' ∧ sv'.dflt = sv.dflt ∧
      content d slot sv'.trie = (match norm v with
        | some w => put (content d slot sv.trie) i (some w)
        | none => content d slot sv.trie) ∧
      sv'.numEntries = (if (norm v).isSome ∧ (content d slot sv.trie i).isNone
        then inc64 sv.numEntries else sv.numEntries) := by
  have hkb := key_bound hsh hi64
  -- the trie after `CompactTrieAdd`
  have hadd : ∃ t1 l, trieAdd sv.trie (i >>> d.shift) d.allocate = some (t1, l) ∧ TrieInv t1 ∧
      look t1 (i >>> d.shift) = some l ∧ good l ∧ leafKey l = i >>> d.shift ∧
      content d slot t1 = content d slot sv.trie ∧
      (∀ k l, look t1 k = some l → good l ∧ k < 2 ^ (64 - d.shift)) ∧
      (∀ j, slot l j = (match look sv.trie (i >>> d.shift) with | none => none | some l => slot l j)) := by
    cases h : look sv.trie (i >>> d.shift) with
    | some l =>
      exact ⟨sv.trie, l, trieAdd_found hi.trie _ h, hi.trie, h, (hi.leaf _ _ h).1, (hi.trie.key h).1,
        rfl, hi.leaf, fun j => rfl⟩
    | none =>
      obtain ⟨t1, h1, h2, _, h3⟩ := trieAdd_new hi.trie (key_bound64 (s := d.shift) hi64) d.allocate h
      refine ⟨t1, newLeaf (i >>> d.shift) d.allocate, h1, h2, by rw [h3, if_pos rfl],
        ok.fresh_good _, leafKey_newLeaf _ (key_bound64 hi64), ?_, ?_, fun j => ok.fresh_slot _ j⟩
      · funext j
        unfold content
        rw [h3]
        by_cases hj : j >>> d.shift = i >>> d.shift
        · rw [if_pos hj, hj, h]; exact ok.fresh_slot _ _
        · rw [if_neg hj]
      · intro k l hk
        rw [h3] at hk
        by_cases hkk : k = i >>> d.shift
        · rw [if_pos hkk] at hk; cases hk; exact ⟨ok.fresh_good _, by rw [hkk]; exact hkb⟩
        · rw [if_neg hkk] at hk; exact hi.leaf k l hk
  obtain ⟨t1, l, h1, h2, h3, h4, h5, h6, h7, h8⟩ := hadd
  have hcont : content d slot sv.trie i = slot l (i % 2 ^ d.shift) := by
    rw [h8]; rfl
  cases hn : norm v with
  | none =>
    refine ⟨{ sv with trie := t1 }, ?_, ⟨h2, h7⟩, rfl, h6, by simp⟩
    unfold svSet
    rw [h1]
    simp only [ok.set_err l i v h4 hn]
    rfl
  | some w =>
    obtain ⟨l', g1, g2, g3, g4⟩ := ok.set_ok l i v w h4 hn
    obtain ⟨t2, w1, w2, w3, _⟩ := trieWrite_ok h2 h3 (g3.trans h5)
    refine ⟨{ sv with trie := t2, numEntries :=
      if (slot l (i % 2 ^ d.shift)).isNone then inc64 sv.numEntries else sv.numEntries },
      ?_, ⟨w2, ?_⟩, rfl, ?_, ?_⟩
    · unfold svSet
      rw [h1]
      simp only [g1, w1]
      rfl
    · intro k a hk
      rw [w3] at hk
      by_cases hkk : k = i >>> d.shift
      · rw [if_pos hkk] at hk; cases hk; exact ⟨g2, by rw [hkk]; exact hkb⟩
      · rw [if_neg hkk] at hk; exact h7 k a hk
    · show content d slot t2 = put (content d slot sv.trie) i (some w)
      rw [← h6]
      exact content_write rfl w3 (fun j _ => by rw [h3]) g4
    · show (if (slot l (i % 2 ^ d.shift)).isNone then inc64 sv.numEntries else sv.numEntries) = _
      rw [hcont]
      simp

theorem svDelete_ok (ok : DescOK d good slot norm) {sv : SV β V} (hi : SVInv d good sv) (i : Nat) :
    ∃ sv', svDelete d sv i = some (sv', content d slot sv.trie i) ∧ SVInv d good sv' ∧
      sv'.dflt = sv.dflt ∧ content d slot sv'.trie = put (content d slot sv.trie) i none ∧
      sv'.numEntries = (if (content d slot sv.trie i).isSome then dec64 sv.numEntries
        else sv.numEntries) := by
  unfold svDelete
  rw [trieGet_ok hi.trie]
  cases h : look sv.trie (i >>> d.shift) with
  | none =>
    have hc : content d slot sv.trie i = none := by unfold content; rw [h]
    refine ⟨sv, by rw [hc], hi, rfl, ?_, by rw [hc]; rfl⟩
    funext j
    unfold put
    by_cases hj : j = i
    · rw [if_pos hj, hj, hc]
    · rw [if_neg hj]
  | some l =>
    have hc : content d slot sv.trie i = slot l (i % 2 ^ d.shift) := by unfold content; rw [h]
    obtain ⟨l', g1, g2, g3, g4⟩ := ok.del l i (hi.leaf _ _ h).1
    obtain ⟨t2, w1, w2, w3, _⟩ := trieWrite_ok hi.trie h (g3.trans (hi.trie.key h).1)
    refine ⟨{ sv with trie := t2, numEntries :=
      if (slot l (i % 2 ^ d.shift)).isSome then dec64 sv.numEntries else sv.numEntries },
      ?_, ⟨w2, ?_⟩, rfl, ?_, by rw [hc]⟩
    · simp only [g1, w1, hc]
    · intro k a hk
      rw [w3] at hk
      by_cases hkk : k = i >>> d.shift
      · rw [if_pos hkk] at hk; cases hk; exact ⟨g2, (hi.leaf k l (by rw [hkk]; exact h)).2⟩
      · rw [if_neg hkk] at hk; exact hi.leaf k a hk
    · exact content_write rfl w3 (fun j _ => by rw [h]) g4

theorem svClear_ok {sv : SV β V} (hi : SVInv d good sv) :
    svClear sv = some ⟨trieInit β, 0, sv.dflt⟩ := by
  unfold svClear
  rw [trieClear_ok hi.trie]

theorem init_svinv (dflt : Option V) : SVInv d good (svMake β dflt) :=
  ⟨init_inv β, fun k l h => by rw [show (svMake β dflt).trie = trieInit β from rfl, look_null rfl] at h; cases h⟩

theorem content_init (i : Nat) : content d slot (trieInit β) i = none := by
  unfold content; rw [look_null rfl]

theorem svCopy_ok (ok : DescOK d good slot norm) {sv : SV β V} (hi : SVInv d good sv) :
    ∃ sv', svCopy d sv = some sv' ∧ SVInv d good sv' ∧ sv'.dflt = sv.dflt ∧
      sv'.numEntries = sv.numEntries ∧ content d slot sv'.trie = content d slot sv.trie := by
  obtain ⟨t, h1, h2, _, h4⟩ := trieCopy_ok hi.trie d.copy (fun l => (ok.copy l).1)
  refine ⟨⟨t, sv.numEntries, sv.dflt⟩, by unfold svCopy; rw [h1], ⟨h2, ?_⟩, rfl, rfl, ?_⟩
  · intro k l h
    have h := (h4 k).symm.trans h
    cases h0 : look sv.trie k with
    | none => rw [h0] at h; cases h
    | some l0 =>
      rw [h0] at h; cases h
      exact ⟨(ok.copy l0).2.1 (hi.leaf k l0 h0).1, (hi.leaf k l0 h0).2⟩
  · funext i
    unfold content
    show (match look t (i >>> d.shift) with | none => none | some l => _) = _
    rw [h4]
    cases look sv.trie (i >>> d.shift) with
    | none => rfl
    | some l => exact (ok.copy l).2.2 _

theorem svInc_ok (ok : DescOK d good slot norm) (hsh : d.shift ≤ 64) (ar : Arith V) {sv : SV β V}
    (hi : SVInv d good sv) {i : Nat} (hi64 : i < 2 ^ 64) (delta : V) (fb : Option V) :
    ∃ sv', svInc d ar sv i delta fb = some (sv',
        (norm (ar.add ((content d slot sv.trie i).getD (incBase ar sv.dflt fb)) delta)).map
          (fun _ => ar.add ((content d slot sv.trie i).getD (incBase ar sv.dflt fb)) delta)) ∧
      SVInv d good sv' ∧ sv'.dflt = sv.dflt ∧
      content d slot sv'.trie =
        (match norm (ar.add ((content d slot sv.trie i).getD (incBase ar sv.dflt fb)) delta) with
        | some w => put (content d slot sv.trie) i (some w)
        | none => content d slot sv.trie) := by
  cases h : look sv.trie (i >>> d.shift) with
  | none =>
    have hc : content d slot sv.trie i = none := by unfold content; rw [h]
    obtain ⟨sv', h1, h2, h3, h4, _⟩ := svSet_ok ok hsh hi hi64 (ar.add (incBase ar sv.dflt fb) delta)
    refine ⟨sv', ?_, h2, h3, ?_⟩
    · unfold svInc
      rw [trieGet_ok hi.trie, h, hc]
      simp only [h1]
      show _ = some (sv', (norm (ar.add (incBase ar sv.dflt fb) delta)).map
        (fun _ => ar.add (incBase ar sv.dflt fb) delta))
      cases norm (ar.add (incBase ar sv.dflt fb) delta) <;> rfl
    · rw [hc]; exact h4
  | some l =>
    have hc : content d slot sv.trie i = slot l (i % 2 ^ d.shift) := by unfold content; rw [h]
    unfold svInc
    rw [trieGet_ok hi.trie, h]
    simp only [ok.ref l i (hi.leaf _ _ h).1, ← hc]
    generalize ar.add ((content d slot sv.trie i).getD (incBase ar sv.dflt fb)) delta = v
    cases hn : norm v with
    | none =>
      exact ⟨sv, by simp only [ok.set_err l i v (hi.leaf _ _ h).1 hn]; rfl, hi, rfl, rfl⟩
    | some w =>
      obtain ⟨l', g1, g2, g3, g4⟩ := ok.set_ok l i v w (hi.leaf _ _ h).1 hn
      obtain ⟨t2, w1, w2, w3, _⟩ := trieWrite_ok hi.trie h (g3.trans (hi.trie.key h).1)
      refine ⟨{ sv with trie := t2 }, by simp only [g1, w1]; rfl, ⟨w2, ?_⟩, rfl, ?_⟩
      · intro k a hk
        rw [w3] at hk
        by_cases hkk : k = i >>> d.shift
        · rw [if_pos hkk] at hk; cases hk; exact ⟨g2, (hi.leaf k l (by rw [hkk]; exact h)).2⟩
        · rw [if_neg hkk] at hk; exact hi.leaf k a hk
      · exact content_write rfl w3 (fun j _ => by rw [h]) g4

/-! ## Enumerating the entries -/

/-- The entries of a leaf at positions `j, …, j+n-1`. -/
def slotsFrom (d : Desc β V) (slot : Leaf β → Nat → Option V) (l : Leaf β) : Nat → Nat → List (Nat × V)
  | _, 0 => []
  | j, n + 1 =>
    match slot l j with
    | some v => (leafKey l * 2 ^ d.shift + j, v) :: slotsFrom d slot l (j + 1) n
    | none => slotsFrom d slot l (j + 1) n

theorem mem_slotsFrom (l : Leaf β) (p : Nat × V) : ∀ n j,
    p ∈ slotsFrom d slot l j n ↔
      ∃ x, j ≤ x ∧ x < j + n ∧ slot l x = some p.2 ∧ p.1 = leafKey l * 2 ^ d.shift + x
  | 0, j => by
    constructor
    · intro h; cases h
    · rintro ⟨x, h1, h2, _⟩; omega
  | n + 1, j => by
    have ih := mem_slotsFrom l p n (j + 1)
    have hrest : (∃ x, j ≤ x ∧ x < j + (n + 1) ∧ slot l x = some p.2 ∧ p.1 = leafKey l * 2 ^ d.shift + x) ↔
        ((slot l j = some p.2 ∧ p.1 = leafKey l * 2 ^ d.shift + j) ∨ p ∈ slotsFrom d slot l (j + 1) n) := by
      rw [ih]
      constructor
      · rintro ⟨x, h1, h2, h3, h4⟩
        by_cases hx : x = j
        · subst hx; exact Or.inl ⟨h3, h4⟩
        · exact Or.inr ⟨x, by omega, by omega, h3, h4⟩
      · rintro (⟨h3, h4⟩ | ⟨x, h1, h2, h3, h4⟩)
        · exact ⟨j, le_refl _, by omega, h3, h4⟩
        · exact ⟨x, by omega, by omega, h3, h4⟩
    rw [hrest, slotsFrom]
    cases hs : slot l j with
    | none => simp
    | some v =>
      rw [List.mem_cons]
      refine or_congr ?_ Iff.rfl
      constructor
      · rintro rfl; exact ⟨rfl, rfl⟩
      · rintro ⟨h1, h2⟩; cases h1; exact Prod.ext h2 rfl

theorem nodup_slotsFrom (l : Leaf β) : ∀ n j, ((slotsFrom d slot l j n).map Prod.fst).Nodup
  | 0, j => List.nodup_nil
  | n + 1, j => by
    have ih := nodup_slotsFrom l n (j + 1)
    rw [slotsFrom]
    cases hs : slot l j with
    | none => exact ih
    | some v =>
      rw [List.map_cons, List.nodup_cons]
      refine ⟨?_, ih⟩
      intro h
      rw [List.mem_map] at h
      obtain ⟨p, hp, he⟩ := h
      obtain ⟨x, h1, h2, h3, h4⟩ := (mem_slotsFrom l p n (j + 1)).mp hp
      have : p.1 = leafKey l * 2 ^ d.shift + j := he
      omega

/-- The entries of a list of leaves. -/
def entriesOf (d : Desc β V) (slot : Leaf β → Nat → Option V) (ls : List (Leaf β)) : List (Nat × V) :=
  ls.flatMap (fun l => slotsFrom d slot l 0 (2 ^ d.shift))

theorem split_unique {s a b x y : Nat} (hx : x < 2 ^ s) (hy : y < 2 ^ s)
    (h : a * 2 ^ s + x = b * 2 ^ s + y) : a = b ∧ x = y := by
  have hpos : 0 < 2 ^ s := Nat.pow_pos (by decide)
  have h1 : (a * 2 ^ s + x) / 2 ^ s = a := by
    rw [Nat.mul_comm, Nat.mul_add_div hpos, Nat.div_eq_of_lt hx, Nat.add_zero]
  have h2 : (b * 2 ^ s + y) / 2 ^ s = b := by
    rw [Nat.mul_comm, Nat.mul_add_div hpos, Nat.div_eq_of_lt hy, Nat.add_zero]
  have hab : a = b := by rw [← h1, h, h2]
  subst hab
  exact ⟨rfl, by omega⟩

theorem lists_content {t : Trie β} (hi : TrieInv t) :
    Lists (entriesOf d slot (allLeaves t)) (content d slot t) := by
  constructor
  · unfold entriesOf
    rw [List.map_flatMap, List.nodup_flatMap]
    refine ⟨fun l _ => nodup_slotsFrom l _ _, ?_⟩
    have hnd : (allLeaves t).Pairwise (fun a b => leafKey a ≠ leafKey b) := by
      have := hi.nodupKeys
      rw [List.Nodup, List.pairwise_map] at this
      exact this
    refine hnd.imp ?_
    intro a b hab i h1 h2
    rw [List.mem_map] at h1 h2
    obtain ⟨p, hp, rfl⟩ := h1
    obtain ⟨q, hq, he⟩ := h2
    obtain ⟨x, _, hx2, _, hx4⟩ := (mem_slotsFrom a p _ 0).mp hp
    obtain ⟨y, _, hy2, _, hy4⟩ := (mem_slotsFrom b q _ 0).mp hq
    rw [hx4, hy4] at he
    exact hab (split_unique (by omega) (by omega) he).1.symm
  · intro i v
    unfold entriesOf
    rw [List.mem_flatMap]
    constructor
    · rintro ⟨l, hl, hm⟩
      obtain ⟨x, _, hx2, hx3, hx4⟩ := (mem_slotsFrom l (i, v) _ 0).mp hm
      have hspl := split_unique (a := i >>> d.shift) (b := leafKey l) (mod_lt_shift d.shift i)
        (show x < 2 ^ d.shift by omega) (by rw [idx_split]; exact hx4)
      unfold content
      rw [hspl.1, (hi.mem l).mp hl, hspl.2]
      exact hx3
    · intro hc
      unfold content at hc
      cases hl : look t (i >>> d.shift) with
      | none => rw [hl] at hc; cases hc
      | some l =>
        rw [hl] at hc
        refine ⟨l, hi.mem_of_look hl, (mem_slotsFrom l (i, v) _ 0).mpr ⟨i % 2 ^ d.shift, Nat.zero_le _,
          by rw [Nat.zero_add]; exact mod_lt_shift _ _, hc, ?_⟩⟩
        rw [(hi.key hl).1, idx_split]

/-! ## Iteration delivers the enumeration -/

/-- What an iterator still has to deliver. -/
def SVIterAt (d : Desc β V) (slot : Leaf β → Nat → Option V) (good : Leaf β → Prop) (sv : SV β V)
    (it : SVIter β) (n : Nat) (E : List (Nat × V)) : Prop :=
  ∃ rest, IterAt sv.trie it.citer rest ∧ rest.length ≤ n ∧
    match it.leaf with
    | none => E = entriesOf d slot rest
    | some l => good l ∧ leafKey l < 2 ^ (64 - d.shift) ∧ it.leafIndex1 ≤ 2 ^ d.shift ∧
        E = slotsFrom d slot l it.leafIndex1 (2 ^ d.shift - it.leafIndex1) ++ entriesOf d slot rest

theorem slotsFrom_skip (l : Leaf β) : ∀ n j m, (∀ x, j ≤ x → x < j + n → slot l x = none) →
    slotsFrom d slot l j (n + m) = slotsFrom d slot l (j + n) m
  | 0, j, m, _ => by rw [Nat.zero_add, Nat.add_zero]
  | n + 1, j, m, h => by
    rw [show n + 1 + m = (n + m) + 1 by omega, slotsFrom, h j (le_refl _) (by omega)]
    show slotsFrom d slot l (j + 1) (n + m) = _
    rw [slotsFrom_skip l n (j + 1) m (fun x h1 h2 => h x (by omega) (by omega)),
      show j + 1 + n = j + (n + 1) by omega]

theorem slotsFrom_nil (l : Leaf β) (n j : Nat) (h : ∀ x, j ≤ x → x < j + n → slot l x = none) :
    slotsFrom d slot l j n = [] := by
  have := slotsFrom_skip (d := d) l n j 0 h
  rw [Nat.add_zero] at this
  rw [this]; rfl

/-- The rest of a round of `SparseVectorIterNext`: on to the next leaf. -/
def svAdvance (d : Desc β V) (sv : SV β V) (fuel : Nat) (it1 : SVIter β) :
    Option (SVIter β × Option (Nat × V)) :=
  match iterNext sv.trie it1.citer with
  | none => none
  | some (c, none) => some ({ it1 with leaf := none, citer := c }, none)
  | some (c, some l) => svIterNext d sv fuel ⟨some l, 0, c⟩

theorem svIterNext_eq (sv : SV β V) (fuel : Nat) (it : SVIter β) :
    svIterNext d sv (fuel + 1) it =
      match it.leaf with
      | none => svAdvance d sv fuel it
      | some leaf =>
        match d.iter leaf it.leafIndex1 with
        | none => none
        | some (i, some r) =>
          some ({ it with leafIndex1 := i + 1 }, some (((leafKey leaf <<< d.shift) + i) % 2 ^ 64, r))
        | some (i, none) => svAdvance d sv fuel { it with leafIndex1 := i + 1 } := rfl

theorem svAdvance_ok {sv : SV β V}
    (hi : SVInv d good sv) {n fuel : Nat} (hf : n ≤ fuel)
    (ih : ∀ n it E, SVIterAt d slot good sv it n E → n < fuel →
      ∃ it', svIterNext d sv fuel it = some (it', E.head?) ∧ SVIterAt d slot good sv it' n E.tail)
    {it : SVIter β} {rest : List (Leaf β)} (hrest : IterAt sv.trie it.citer rest)
    (hlen : rest.length ≤ n) :
    ∃ it', svAdvance d sv fuel it = some (it', (entriesOf d slot rest).head?) ∧
      SVIterAt d slot good sv it' n (entriesOf d slot rest).tail := by
  obtain ⟨c, hc1, hc2⟩ := iterNext_step hi.trie hrest
  unfold svAdvance
  rw [hc1]
  cases rest with
  | nil =>
    exact ⟨{ it with leaf := none, citer := c }, rfl, ⟨[], hc2, Nat.zero_le _, rfl⟩⟩
  | cons l t =>
    have hlm : l ∈ allLeaves sv.trie := by
      rcases hrest with ⟨_, h⟩ | ⟨_, _, h⟩ | ⟨_, _, pre, l0, h, _⟩
      · cases h
      · rw [← h]; exact List.mem_cons_self ..
      · rw [h]; exact List.mem_append_right _ (List.mem_cons_of_mem _ (List.mem_cons_self ..))
    have hl := hi.leaf _ _ ((hi.trie.mem l).mp hlm)
    rw [List.length_cons] at hlen
    have hat : SVIterAt d slot good sv ⟨some l, 0, c⟩ (n - 1) (entriesOf d slot (l :: t)) :=
      ⟨t, hc2, by omega, hl.1, hl.2, Nat.zero_le _, rfl⟩
    obtain ⟨it', h1, h2⟩ := ih (n - 1) ⟨some l, 0, c⟩ _ hat (by omega)
    obtain ⟨r, a, b, e⟩ := h2
    exact ⟨it', h1, ⟨r, a, by omega, e⟩⟩

theorem svIterNext_ok (ok : DescOK d good slot norm) (hsh : d.shift ≤ 64) {sv : SV β V}
    (hi : SVInv d good sv) : ∀ (fuel n : Nat) (it : SVIter β) (E : List (Nat × V)),
    SVIterAt d slot good sv it n E → n < fuel →
    ∃ it', svIterNext d sv fuel it = some (it', E.head?) ∧ SVIterAt d slot good sv it' n E.tail
  | 0, n, _, _, _, h => by omega
  | fuel + 1, n, it, E, hat, hfuel => by
    have ih := svIterNext_ok ok hsh hi fuel
    obtain ⟨rest, hrest, hlen, hE⟩ := hat
    rw [svIterNext_eq]
    cases hlf : it.leaf with
    | none =>
      rw [hlf] at hE
      subst hE
      exact svAdvance_ok (n := n) hi (by omega) ih hrest hlen
    | some l =>
      rw [hlf] at hE
      obtain ⟨hg, hkb, hidx, hE⟩ := hE
      obtain ⟨i, r, hit, hsome, hnone⟩ := ok.iter l it.leafIndex1 hg hidx
      cases r with
      | some v =>
        obtain ⟨h1, h2, h3, h4⟩ := hsome v rfl
        have hidxeq : (leafKey l <<< d.shift + i) % 2 ^ 64 = leafKey l * 2 ^ d.shift + i := by
          rw [Nat.shiftLeft_eq]
          apply Nat.mod_eq_of_lt
          have hm : (leafKey l + 1) * 2 ^ d.shift ≤ 2 ^ (64 - d.shift) * 2 ^ d.shift :=
            Nat.mul_le_mul_right _ hkb
          rw [← Nat.pow_add, show 64 - d.shift + d.shift = 64 by omega, Nat.add_mul] at hm
          omega
        have hsl : slotsFrom d slot l it.leafIndex1 (2 ^ d.shift - it.leafIndex1) =
            (leafKey l * 2 ^ d.shift + i, v) :: slotsFrom d slot l (i + 1) (2 ^ d.shift - (i + 1)) := by
          have := slotsFrom_skip (d := d) l (i - it.leafIndex1) it.leafIndex1 (2 ^ d.shift - i)
            (fun x a b => h4 x a (by omega))
          rw [show i - it.leafIndex1 + (2 ^ d.shift - i) = 2 ^ d.shift - it.leafIndex1 by omega,
            show it.leafIndex1 + (i - it.leafIndex1) = i by omega] at this
          rw [this, show 2 ^ d.shift - i = (2 ^ d.shift - (i + 1)) + 1 by omega, slotsFrom, h3]
        refine ⟨{ it with leafIndex1 := i + 1 }, ?_, ⟨rest, hrest, hlen, ?_⟩⟩
        · simp only [hit]
          rw [hidxeq, hE, hsl, hlf]; rfl
        · show (match it.leaf with | none => _ | some l => _)
          rw [hlf]
          refine ⟨hg, hkb, h2, ?_⟩
          rw [hE, hsl]; rfl
      | none =>
        have hn := hnone rfl
        have hnil : slotsFrom d slot l it.leafIndex1 (2 ^ d.shift - it.leafIndex1) = [] :=
          slotsFrom_nil l _ _ (fun x a b => hn x a (by omega))
        rw [hnil, List.nil_append] at hE
        subst hE
        simp only [hit]
        exact svAdvance_ok (n := n) hi (by omega) ih (it := { leaf := some l, leafIndex1 := i + 1, citer := it.citer })
          hrest hlen

theorem svCollect_ok (ok : DescOK d good slot norm) (hsh : d.shift ≤ 64) {sv : SV β V}
    (hi : SVInv d good sv) (rounds n : Nat) (hr : n < rounds) :
    ∀ (fuel : Nat) (it : SVIter β) (E seed : List (Nat × V)), SVIterAt d slot good sv it n E →
      E.length < fuel → svCollect d sv rounds fuel it seed = some (E.reverse ++ seed)
  | 0, _, _, _, _, h => by omega
  | fuel + 1, it, E, seed, hat, hlen => by
    obtain ⟨it', h1, h2⟩ := svIterNext_ok ok hsh hi rounds n it E hat hr
    rw [svCollect, h1]
    cases E with
    | nil => rfl
    | cons kv E =>
      show svCollect d sv rounds fuel it' (kv :: seed) = _
      rw [svCollect_ok ok hsh hi rounds n hr fuel it' E (kv :: seed) h2
        (by rw [List.length_cons] at hlen; omega), List.reverse_cons, List.append_assoc]
      rfl

theorem svIterInit_at {sv : SV β V} :
    SVIterAt d slot good sv (svIterInit β) (allLeaves sv.trie).length
      (entriesOf d slot (allLeaves sv.trie)) :=
  ⟨allLeaves sv.trie, iterInit_ok sv.trie, le_refl _, rfl⟩

/-- Iterating delivers the enumeration; the bound on the rounds exists. -/
theorem svCollect_all (ok : DescOK d good slot norm) (hsh : d.shift ≤ 64) {sv : SV β V}
    (hi : SVInv d good sv) : ∃ N, ∀ rounds fuel, N ≤ rounds → N ≤ fuel →
      svCollect d sv rounds fuel (svIterInit β) [] =
        some (entriesOf d slot (allLeaves sv.trie)).reverse := by
  refine ⟨(allLeaves sv.trie).length + (entriesOf d slot (allLeaves sv.trie)).length + 1,
    fun rounds fuel h1 h2 => ?_⟩
  rw [svCollect_ok ok hsh hi rounds _ (by omega) fuel _ _ [] svIterInit_at (by omega), List.append_nil]

end Gauche.SpVec
