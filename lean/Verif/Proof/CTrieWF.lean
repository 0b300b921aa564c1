import Verif.Proof.CTrieBits
import Mathlib.Data.List.Nodup

/-! # Compact trie: the invariant, and search -/

namespace Gauche.CTrie

/-! ## Digits of a key -/

theorem keyIndex_eq (k lv : Nat) : keyIndex k lv = k / 32 ^ lv % 32 := by
  unfold keyIndex
  have h := Nat.and_two_pow_sub_one_eq_mod (k >>> (lv * 5)) 5
  have h31 : (2 : Nat) ^ 5 - 1 = 31 := by decide
  rw [h31] at h
  rw [h, Nat.shiftRight_eq_div_pow, Nat.mul_comm, Nat.pow_mul]

theorem keyIndex_lt (k lv : Nat) : keyIndex k lv < 32 := by
  rw [keyIndex_eq]; exact Nat.mod_lt _ (by decide)

theorem mod_succ (k lv : Nat) : k % 32 ^ (lv + 1) = k % 32 ^ lv + keyIndex k lv * 32 ^ lv := by
  rw [keyIndex_eq, Nat.pow_succ, Nat.mod_mul, Nat.mul_comm (32 ^ lv)]

theorem prefix_succ {k lv p i : Nat} (hp : p < 32 ^ lv) (h : k % 32 ^ (lv + 1) = p + i * 32 ^ lv)
    (hi : i < 32) :
    k % 32 ^ lv = p ∧ keyIndex k lv = i := by
  rw [mod_succ] at h
  have hpos : 0 < 32 ^ lv := Nat.pow_pos (by decide)
  have h1 : k % 32 ^ lv < 32 ^ lv := Nat.mod_lt _ hpos
  have h2 : (k % 32 ^ lv + keyIndex k lv * 32 ^ lv) % 32 ^ lv = (p + i * 32 ^ lv) % 32 ^ lv := by
    rw [h]
  rw [Nat.add_mul_mod_self_right, Nat.add_mul_mod_self_right, Nat.mod_eq_of_lt h1,
    Nat.mod_eq_of_lt hp] at h2
  refine ⟨h2, ?_⟩
  rw [h2] at h
  exact Nat.eq_of_mul_eq_mul_right hpos (by omega)

theorem prefix_lt {p lv i : Nat} (hp : p < 32 ^ lv) (hi : i < 32) :
    p + i * 32 ^ lv < 32 ^ (lv + 1) := by
  rw [Nat.pow_succ]
  have : i * 32 ^ lv ≤ 31 * 32 ^ lv := Nat.mul_le_mul_right _ (by omega)
  omega

theorem key_full {k : Nat} (h : k < 2 ^ 64) : k % 32 ^ 13 = k :=
  Nat.mod_eq_of_lt (lt_of_lt_of_le h (by decide))

/-! ## The invariant -/

/-- A node below the root is neither empty nor just a leaf in disguise. -/
def Big {β : Type} : Obj β → Prop
  | .node e m _ => e ≠ 0 ∧ ¬ (countBits e = 1 ∧ m ≠ 0)
  | _ => False

/-- A well-formed node at level `lv`, all of whose keys are `p` modulo `32^lv`;
`r` levels are left. -/
def WF {β : Type} : Nat → Nat → Nat → Obj β → Prop
  | r + 1, lv, p, .node e m es =>
    NodeOK e m es ∧ ∀ i, e.testBit i = true → ∃ c, child e es i = some c ∧
      match c with
      | .null => False
      | .leaf l => m.testBit i = true ∧ leafKey l < 2 ^ 64 ∧ leafKey l % 32 ^ lv = p ∧
          keyIndex (leafKey l) lv = i
      | .node e' m' es' => m.testBit i = false ∧ WF r (lv + 1) (p + i * 32 ^ lv) (.node e' m' es') ∧
          Big (.node e' m' es')
  | _, _, _, _ => False

theorem WF_succ {β : Type} {r lv p e m : Nat} {es : List (Obj β)} :
    WF (r + 1) lv p (.node e m es) ↔
    (NodeOK e m es ∧ ∀ i, e.testBit i = true → ∃ c, child e es i = some c ∧
      match c with
      | .null => False
      | .leaf l => m.testBit i = true ∧ leafKey l < 2 ^ 64 ∧ leafKey l % 32 ^ lv = p ∧
          keyIndex (leafKey l) lv = i
      | .node e' m' es' => m.testBit i = false ∧ WF r (lv + 1) (p + i * 32 ^ lv) (.node e' m' es') ∧
          Big (.node e' m' es')) := Iff.rfl

/-- The three ways an index of a well-formed node can look. -/
inductive ChildCase {β : Type} (r lv p e m : Nat) (es : List (Obj β)) (i : Nat) : Prop
  | empty (hb : e.testBit i = false) (hc : child e es i = none)
  | leaf (l : Leaf β) (hb : e.testBit i = true) (hc : child e es i = some (.leaf l))
      (hm : m.testBit i = true) (hk : leafKey l < 2 ^ 64) (hp : leafKey l % 32 ^ lv = p)
      (hi : keyIndex (leafKey l) lv = i)
  | node (e' m' : Nat) (es' : List (Obj β)) (hb : e.testBit i = true)
      (hc : child e es i = some (.node e' m' es')) (hm : m.testBit i = false)
      (hw : WF r (lv + 1) (p + i * 32 ^ lv) (.node e' m' es')) (hbig : Big (.node e' m' es'))

theorem WF.ok {β : Type} {r lv p e m : Nat} {es : List (Obj β)}
    (h : WF (r + 1) lv p (.node e m es)) : NodeOK e m es := (WF_succ.mp h).1

theorem WF.cases {β : Type} {r lv p e m : Nat} {es : List (Obj β)}
    (h : WF (r + 1) lv p (.node e m es)) (i : Nat) : ChildCase r lv p e m es i := by
  cases hb : e.testBit i with
  | false => exact .empty hb (child_none hb)
  | true =>
    obtain ⟨c, hc, hx⟩ := (WF_succ.mp h).2 i hb
    cases c with
    | null => exact hx.elim
    | leaf l => exact .leaf l hb hc hx.1 hx.2.1 hx.2.2.1 hx.2.2.2
    | node e' m' es' => exact .node e' m' es' hb hc hx.1 hx.2.1 hx.2.2

theorem WF.intro {β : Type} {r lv p e m : Nat} {es : List (Obj β)} (ok : NodeOK e m es)
    (h : ∀ i, ChildCase r lv p e m es i) : WF (r + 1) lv p (.node e m es) := by
  refine WF_succ.mpr ⟨ok, fun i hb => ?_⟩
  cases h i with
  | empty hb' _ => rw [hb] at hb'; cases hb'
  | leaf l _ hc hm hk hp hi => exact ⟨_, hc, hm, hk, hp, hi⟩
  | node e' m' es' _ hc hm hw hbig => exact ⟨_, hc, hm, hw, hbig⟩

/-- A case of one node carries over to another node with the same child there. -/
theorem ChildCase.congr {β : Type} {r lv p e m e2 m2 i : Nat} {es es2 : List (Obj β)}
    (h : ChildCase r lv p e m es i) (he : e2.testBit i = e.testBit i)
    (hm2 : m2.testBit i = m.testBit i) (hc2 : child e2 es2 i = child e es i) :
    ChildCase r lv p e2 m2 es2 i := by
  cases h with
  | empty hb hc => exact .empty (he.trans hb) (hc2.trans hc)
  | leaf l hb hc hm hk hp hi => exact .leaf l (he.trans hb) (hc2.trans hc) (hm2.trans hm) hk hp hi
  | node e' m' es' hb hc hm hw hbig =>
    exact .node e' m' es' (he.trans hb) (hc2.trans hc) (hm2.trans hm) hw hbig

theorem WF.isNode {β : Type} {r lv p : Nat} {o : Obj β} (h : WF r lv p o) :
    ∃ e m es, o = .node e m es := by
  cases r with
  | zero => exact h.elim
  | succ r =>
    cases o with
    | null => exact h.elim
    | leaf l => exact h.elim
    | node e m es => exact ⟨e, m, es, rfl⟩

/-! ## Contents -/

/-- The leaf for a key. -/
def find {β : Type} : Nat → Nat → Obj β → Nat → Option (Leaf β)
  | r + 1, lv, .node e _ es, k =>
    match child e es (keyIndex k lv) with
    | some (.leaf l) => if leafKey l = k then some l else none
    | some (.node e' m' es') => find r (lv + 1) (.node e' m' es') k
    | _ => none
  | _, _, _, _ => none

theorem find_empty {β : Type} {r lv e m k : Nat} {es : List (Obj β)}
    (h : child e es (keyIndex k lv) = none) : find (r + 1) lv (.node e m es) k = none := by
  simp only [find, h]

theorem find_leaf {β : Type} {r lv e m k : Nat} {es : List (Obj β)} {l : Leaf β}
    (h : child e es (keyIndex k lv) = some (.leaf l)) :
    find (r + 1) lv (.node e m es) k = if leafKey l = k then some l else none := by
  simp only [find, h]

theorem find_node {β : Type} {r lv e m k : Nat} {es : List (Obj β)} {e' m' : Nat}
    {es' : List (Obj β)} (h : child e es (keyIndex k lv) = some (.node e' m' es')) :
    find (r + 1) lv (.node e m es) k = find r (lv + 1) (.node e' m' es') k := by
  simp only [find, h]

theorem find_congr {β : Type} {r lv e m k : Nat} {es : List (Obj β)} {e2 m2 : Nat}
    {es2 : List (Obj β)} (h : child e es (keyIndex k lv) = child e2 es2 (keyIndex k lv)) :
    find (r + 1) lv (.node e m es) k = find (r + 1) lv (.node e2 m2 es2) k := by
  simp only [find, h]

/-- What is found has the key, and the key has the node's prefix. -/
theorem find_some {β : Type} : ∀ {r lv p : Nat} {o : Obj β} {k : Nat} {l : Leaf β},
    WF r lv p o → p < 32 ^ lv → find r lv o k = some l →
    leafKey l = k ∧ k < 2 ^ 64 ∧ k % 32 ^ lv = p
  | 0, _, _, _, _, _, hw, _, _ => hw.elim
  | r + 1, lv, p, o, k, l, hw, hp, hf => by
    obtain ⟨e, m, es, rfl⟩ := hw.isNode
    cases hw.cases (keyIndex k lv) with
    | empty hb hc => rw [find_empty hc] at hf; cases hf
    | leaf l0 hb hc hm hk hp' hi =>
      rw [find_leaf hc] at hf
      by_cases h : leafKey l0 = k
      · rw [if_pos h] at hf; cases hf; exact ⟨h, h ▸ hk, h ▸ hp'⟩
      · rw [if_neg h] at hf; cases hf
    | node e' m' es' hb hc hm hw' hbig =>
      rw [find_node hc] at hf
      have h := find_some hw' (prefix_lt hp (keyIndex_lt k lv)) hf
      exact ⟨h.1, h.2.1, (prefix_succ hp h.2.2 (keyIndex_lt k lv)).1⟩

/-- The leaves, in the order the iterator visits them. -/
def leaves {β : Type} : Nat → Obj β → List (Leaf β)
  | r + 1, .node e _ es =>
    (List.range 32).flatMap (fun i =>
      match child e es i with
      | some (.leaf l) => [l]
      | some (.node e' m' es') => leaves r (.node e' m' es')
      | _ => [])
  | _, _ => []

/-- The leaves below index `i`. -/
def leavesAt {β : Type} (r e : Nat) (es : List (Obj β)) (i : Nat) : List (Leaf β) :=
  match child e es i with
  | some (.leaf l) => [l]
  | some (.node e' m' es') => leaves r (.node e' m' es')
  | _ => []

theorem leaves_succ {β : Type} (r e m : Nat) (es : List (Obj β)) :
    leaves (r + 1) (.node e m es) = (List.range 32).flatMap (leavesAt r e es) := rfl

theorem leavesAt_leaf {β : Type} {r e i : Nat} {es : List (Obj β)} {l : Leaf β}
    (h : child e es i = some (.leaf l)) : leavesAt r e es i = [l] := by
  simp only [leavesAt, h]

theorem leavesAt_node {β : Type} {r e i : Nat} {es : List (Obj β)} {e' m' : Nat}
    {es' : List (Obj β)} (h : child e es i = some (.node e' m' es')) :
    leavesAt r e es i = leaves r (.node e' m' es') := by
  simp only [leavesAt, h]

theorem leavesAt_empty {β : Type} {r e i : Nat} {es : List (Obj β)}
    (h : child e es i = none) : leavesAt r e es i = [] := by
  simp only [leavesAt, h]

theorem mem_leaves {β : Type} : ∀ {r lv p : Nat} {o : Obj β} (l : Leaf β),
    WF r lv p o → p < 32 ^ lv → (l ∈ leaves r o ↔ find r lv o (leafKey l) = some l)
  | 0, _, _, _, _, hw, _ => hw.elim
  | r + 1, lv, p, o, l, hw, hp => by
    obtain ⟨e, m, es, rfl⟩ := hw.isNode
    rw [leaves_succ, List.mem_flatMap]
    constructor
    · rintro ⟨i, hi, hl⟩
      rw [List.mem_range] at hi
      cases hw.cases i with
      | empty hb hc => rw [leavesAt_empty hc] at hl; cases hl
      | leaf l0 hb hc hm hk hp' hii =>
        rw [leavesAt_leaf hc, List.mem_singleton] at hl
        subst hl
        rw [find_leaf (by rw [hii]; exact hc), if_pos rfl]
      | node e' m' es' hb hc hm hw' hbig =>
        rw [leavesAt_node hc] at hl
        have hf := (mem_leaves l hw' (prefix_lt hp hi)).mp hl
        have hs := find_some hw' (prefix_lt hp hi) hf
        have hi2 := (prefix_succ hp hs.2.2 hi).2
        rw [find_node (by rw [hi2]; exact hc)]
        exact hf
    · intro hf
      refine ⟨keyIndex (leafKey l) lv, List.mem_range.mpr (keyIndex_lt _ _), ?_⟩
      cases hw.cases (keyIndex (leafKey l) lv) with
      | empty hb hc => rw [find_empty hc] at hf; cases hf
      | leaf l0 hb hc hm hk hp' hi =>
        rw [find_leaf hc] at hf
        by_cases h : leafKey l0 = leafKey l
        · rw [if_pos h] at hf; cases hf
          rw [leavesAt_leaf hc]; exact List.mem_singleton.mpr rfl
        · rw [if_neg h] at hf; cases hf
      | node e' m' es' hb hc hm hw' hbig =>
        rw [find_node hc] at hf
        rw [leavesAt_node hc]
        exact (mem_leaves l hw' (prefix_lt hp (keyIndex_lt _ _))).mpr hf

/-- No key occurs twice. -/
theorem nodup_leaves {β : Type} : ∀ {r lv p : Nat} {o : Obj β},
    WF r lv p o → p < 32 ^ lv → ((leaves r o).map leafKey).Nodup
  | 0, _, _, _, hw, _ => hw.elim
  | r + 1, lv, p, o, hw, hp => by
    obtain ⟨e, m, es, rfl⟩ := hw.isNode
    have hidx : ∀ i, i < 32 → ∀ l ∈ leavesAt r e es i, keyIndex (leafKey l) lv = i := by
      intro i hi l hl
      cases hw.cases i with
      | empty hb hc => rw [leavesAt_empty hc] at hl; cases hl
      | leaf l0 hb hc hm hk hp' hii =>
        rw [leavesAt_leaf hc, List.mem_singleton] at hl
        subst hl; exact hii
      | node e' m' es' hb hc hm hw' hbig =>
        rw [leavesAt_node hc] at hl
        have hf := (mem_leaves l hw' (prefix_lt hp hi)).mp hl
        have hs := find_some hw' (prefix_lt hp hi) hf
        exact (prefix_succ hp hs.2.2 hi).2
    rw [leaves_succ, List.map_flatMap, List.nodup_flatMap]
    constructor
    · intro i hi
      rw [List.mem_range] at hi
      cases hw.cases i with
      | empty hb hc => rw [leavesAt_empty hc]; exact List.nodup_nil
      | leaf l0 hb hc hm hk hp' hii => rw [leavesAt_leaf hc]; exact List.nodup_singleton _
      | node e' m' es' hb hc hm hw' hbig =>
        rw [leavesAt_node hc]
        exact nodup_leaves hw' (prefix_lt hp hi)
    · have hn : (List.range 32).Nodup := List.nodup_range
      refine List.Pairwise.imp_of_mem ?_ hn
      intro i j hi hj hne
      rw [List.mem_range] at hi hj
      intro k h1 h2
      rw [List.mem_map] at h1 h2
      obtain ⟨l1, hl1, rfl⟩ := h1
      obtain ⟨l2, hl2, he2⟩ := h2
      have a1 := hidx i hi l1 hl1
      have a2 := hidx j hj l2 hl2
      rw [he2] at a2
      exact hne (a1.symm.trans a2)

/-! ## Search -/

theorem getRec_ok {β : Type} : ∀ {r lv p : Nat} {o : Obj β} (k : Nat),
    WF r lv p o → getRec r o k lv = some (find r lv o k)
  | 0, _, _, _, _, hw => hw.elim
  | r + 1, lv, p, o, k, hw => by
    obtain ⟨e, m, es, rfl⟩ := hw.isNode
    cases hw.cases (keyIndex k lv) with
    | empty hb hc =>
      rw [find_empty hc]
      simp only [getRec, hb]; rfl
    | leaf l0 hb hc hm hk hp' hi =>
      rw [find_leaf hc]
      rw [child_of_bit hb] at hc
      simp only [getRec, hb, hc, hm]
      by_cases h : leafKey l0 = k
      · simp [h]
      · simp [h]
    | node e' m' es' hb hc hm hw' hbig =>
      rw [find_node hc]
      rw [child_of_bit hb] at hc
      simp only [getRec, hb, hc, hm]
      exact getRec_ok k hw'

/-! ## Writing through a leaf pointer -/

theorem writeRec_ok {β : Type} (l' : Leaf β) : ∀ {r lv p : Nat} {o : Obj β} {k : Nat} {l : Leaf β},
    WF r lv p o → p < 32 ^ lv → find r lv o k = some l → leafKey l' = k →
    ∃ o', writeRec l' r o k lv = some o' ∧ WF r lv p o' ∧ (Big o → Big o') ∧
      ((∃ e m es es', o = .node e m es ∧ o' = .node e m es')) ∧
      ∀ k', find r lv o' k' = if k' = k then some l' else find r lv o k'
  | 0, _, _, _, _, _, hw, _, _, _ => hw.elim
  | r + 1, lv, p, o, k, l, hw, hp, hf, hl' => by
    obtain ⟨e, m, es, rfl⟩ := hw.isNode
    cases hw.cases (keyIndex k lv) with
    | empty hb hc => rw [find_empty hc] at hf; cases hf
    | leaf l0 hb hc hm hk hp' hi =>
      rw [find_leaf hc] at hf
      by_cases h : leafKey l0 = k
      · have hset := child_set hw.ok hb (.leaf l')
        refine ⟨.node e m (es.set (countBelow e (keyIndex k lv)) (.leaf l')), ?_, ?_, id,
          ⟨e, m, es, _, rfl, rfl⟩, ?_⟩
        · rw [child_of_bit hb] at hc
          simp only [writeRec, hb, hc, hm]
          simp [h]
        · refine WF.intro (hw.ok.set _ _) (fun i => ?_)
          by_cases hii : i = keyIndex k lv
          · subst hii
            exact .leaf l' hb (by rw [hset, if_pos rfl]) hm (by rw [hl', ← h]; exact hk)
              (by rw [hl', ← h]; exact hp') (by rw [hl'])
          · exact (hw.cases i).congr rfl rfl (by rw [hset, if_neg hii])
        · intro k'
          by_cases hii : keyIndex k' lv = keyIndex k lv
          · rw [find_leaf (l := l') (by rw [hset, if_pos hii]), find_leaf (l := l0) (by rw [hii]; exact hc), hl', h]
            by_cases hk' : k' = k
            · rw [if_pos hk'.symm, if_pos hk']
            · rw [if_neg (fun h => hk' h.symm), if_neg hk', if_neg (fun h => hk' h.symm)]
          · rw [if_neg (fun h => hii (by rw [h]))]
            exact find_congr (by rw [hset, if_neg hii])
      · rw [if_neg h] at hf; cases hf
    | node e' m' es' hb hc hm hw' hbig =>
      rw [find_node hc] at hf
      obtain ⟨o1, h1, h2, h3, ⟨e1, m1, es1, es2, h4, h5⟩, h6⟩ :=
        writeRec_ok l' hw' (prefix_lt hp (keyIndex_lt k lv)) hf hl'
      cases h4
      subst h5
      have hset := child_set hw.ok hb (.node e' m' es2)
      refine ⟨.node e m (es.set (countBelow e (keyIndex k lv)) (.node e' m' es2)), ?_, ?_, id,
          ⟨e, m, es, _, rfl, rfl⟩, ?_⟩
      · rw [child_of_bit hb] at hc
        simp only [writeRec, hb, hc]
        simp [h1]
      · refine WF.intro (hw.ok.set _ _) (fun i => ?_)
        by_cases hii : i = keyIndex k lv
        · subst hii
          exact .node e' m' es2 hb (by rw [hset, if_pos rfl]) hm h2 (h3 hbig)
        · exact (hw.cases i).congr rfl rfl (by rw [hset, if_neg hii])
      · intro k'
        by_cases hii : keyIndex k' lv = keyIndex k lv
        · rw [find_node (e' := e') (m' := m') (es' := es2) (by rw [hset, if_pos hii]),
            find_node (e' := e') (m' := m') (es' := es') (by rw [hii]; exact hc), h6 k']
        · rw [if_neg (fun h => hii (by rw [h]))]
          exact find_congr (by rw [hset, if_neg hii])

end Gauche.CTrie
