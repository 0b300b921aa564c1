import Verif.Proof.CTrieWF

/-! # Compact trie: insertion and deletion -/

namespace Gauche.CTrie

/-! ## Keys in leaves -/

theorem and_mask (x : Nat) : x &&& LEAF_KEY_MASK = x % 2 ^ 32 :=
  Nat.and_two_pow_sub_one_eq_mod x 32

theorem leafKey_eq {β : Type} (l : Leaf β) :
    leafKey l = l.key1 % 2 ^ 32 * 2 ^ 32 + l.key0 % 2 ^ 32 := by
  rw [leafKey, and_mask, and_mask, Nat.shiftLeft_eq]

theorem leafKey_lt {β : Type} (l : Leaf β) : leafKey l < 2 ^ 64 := by
  rw [leafKey_eq]; omega

theorem leafKey_leafKeySet {β : Type} (l : Leaf β) {k : Nat} (h : k < 2 ^ 64) :
    leafKey (leafKeySet l k) = k := by
  rw [leafKey_eq]
  simp only [leafKeySet, and_mask, Nat.shiftRight_eq_div_pow]
  omega

theorem leafKey_newLeaf {β : Type} (l : Leaf β) {k : Nat} (h : k < 2 ^ 64) :
    leafKey (newLeaf k l) = k := leafKey_leafKeySet l h

/-! ## A node with one leaf -/

/-- The entries of a new node holding one object. -/
def oneEnt {β : Type} (o : Obj β) : List (Obj β) := [o, .null]

theorem putAt_makeEntries {β : Type} (o : Obj β) :
    putAt (makeEntries β 2) 0 o = some (oneEnt o) := rfl

theorem testBit_one (i j : Nat) : (bitSet 0 i).testBit j = decide (i = j) := by
  rw [testBit_bitSet, Nat.zero_testBit, Bool.false_or]

theorem countBits_one {i : Nat} (h : i < 32) : countBits (bitSet 0 i) = 1 := by
  rw [countBits_bitSet (by decide) h (Nat.zero_testBit i)]; decide

theorem child_one {β : Type} (i j : Nat) (o : Obj β) :
    child (bitSet 0 i) (oneEnt o) j = if j = i then some o else none := by
  by_cases h : j = i
  · subst h
    rw [if_pos rfl, child_of_bit (by rw [testBit_one]; simp),
      countBelow_bitSet 0 j (Nat.zero_testBit j), if_neg (by omega), countBelow_zero_word]
    rfl
  · rw [if_neg h, child_none]
    rw [testBit_one]; exact decide_eq_false (fun e => h e.symm)

theorem bitSet_zero_ne (i : Nat) : bitSet 0 i ≠ 0 := by
  intro h
  have := testBit_one i i
  rw [h, Nat.zero_testBit] at this
  simp at this

theorem NodeOK_one {β : Type} {i : Nat} (h : i < 32) (o : Obj β) :
    NodeOK (bitSet 0 i) (bitSet 0 i) (oneEnt o) :=
  ⟨bitSet_lt (by decide) h, fun _ h => h, by rw [countBits_one h]; exact le_refl 2⟩

theorem WF_one {β : Type} (r lv p : Nat) (l : Leaf β) (hp : leafKey l % 32 ^ lv = p) :
    WF (r + 1) lv p (.node (bitSet 0 (keyIndex (leafKey l) lv))
      (bitSet 0 (keyIndex (leafKey l) lv)) (oneEnt (.leaf l))) := by
  refine WF.intro (NodeOK_one (keyIndex_lt _ _) _) (fun i => ?_)
  have hc := child_one (keyIndex (leafKey l) lv) i (.leaf l)
  by_cases h : i = keyIndex (leafKey l) lv
  · subst h
    rw [if_pos rfl] at hc
    exact .leaf l (by rw [testBit_one]; simp) hc (by rw [testBit_one]; simp) (leafKey_lt l) hp rfl
  · rw [if_neg h] at hc
    exact .empty (by rw [testBit_one]; exact decide_eq_false (fun e => h e.symm)) hc

theorem find_one {β : Type} (r lv : Nat) (l : Leaf β) (k : Nat) :
    find (r + 1) lv (.node (bitSet 0 (keyIndex (leafKey l) lv))
      (bitSet 0 (keyIndex (leafKey l) lv)) (oneEnt (.leaf l))) k =
    if k = leafKey l then some l else none := by
  have hc := child_one (keyIndex (leafKey l) lv) (keyIndex k lv) (.leaf l)
  by_cases h : keyIndex k lv = keyIndex (leafKey l) lv
  · rw [if_pos h] at hc
    rw [find_leaf hc]
    by_cases hk : k = leafKey l
    · rw [if_pos hk, if_pos hk.symm]
    · rw [if_neg hk, if_neg (fun e => hk e.symm)]
  · rw [if_neg h] at hc
    rw [find_empty hc, if_neg (fun e => h (by rw [e]))]

/-! ## Insertion -/

theorem addRec_found {β : Type} (fresh : Leaf β) : ∀ {r lv p : Nat} {o : Obj β} {k : Nat}
    {l : Leaf β} (cnt : Nat), WF r lv p o → find r lv o k = some l →
    addRec fresh r o k lv cnt = some (o, l, cnt)
  | 0, _, _, _, _, _, _, hw, _ => hw.elim
  | r + 1, lv, p, o, k, l, cnt, hw, hf => by
    obtain ⟨e, m, es, rfl⟩ := hw.isNode
    cases hw.cases (keyIndex k lv) with
    | empty hb hc => rw [find_empty hc] at hf; cases hf
    | leaf l0 hb hc hm hk hp' hi =>
      rw [find_leaf hc] at hf
      by_cases h : leafKey l0 = k
      · rw [if_pos h] at hf; cases hf
        rw [child_of_bit hb] at hc
        simp only [addRec, hb, hc, hm]
        simp [h]
      · rw [if_neg h] at hf; cases hf
    | node e' m' es' hb hc hm hw' hbig =>
      rw [find_node hc] at hf
      have ih := addRec_found fresh cnt hw' hf
      rw [child_of_bit hb] at hc
      simp only [addRec, hb, hc, hm]
      simp only [ih, putAt_ok es (off_lt hw.ok hb)]
      have : es.set (countBelow e (keyIndex k lv)) (.node e' m' es') = es :=
        List.ext_getElem? (fun j => by
          rw [List.getElem?_set]
          by_cases hj : countBelow e (keyIndex k lv) = j
          · subst hj; rw [if_pos rfl, if_pos (off_lt hw.ok hb), hc]
          · rw [if_neg hj])
      simp [this]

theorem Big_of_two {β : Type} {e m : Nat} {es : List (Obj β)} (h : 2 ≤ countBits e) :
    Big (Obj.node e m es) :=
  ⟨fun h0 => by subst h0; exact absurd h (by decide), fun h1 => by omega⟩

theorem eq_zero_of_testBit {m : Nat} (h : ∀ i, m.testBit i = false) : m = 0 :=
  Nat.eq_of_testBit_eq (fun i => by rw [h i, Nat.zero_testBit])

theorem addRec_new {β : Type} (fresh : Leaf β) : ∀ {r lv p : Nat} {o : Obj β} {k : Nat}
    (cnt : Nat), WF r lv p o → p < 32 ^ lv → r + lv = 13 → k < 2 ^ 64 → k % 32 ^ lv = p →
    find r lv o k = none →
    ∃ e' m' es', addRec fresh r o k lv cnt =
        some (.node e' m' es', newLeaf k fresh, incEntries cnt) ∧
      WF r lv p (.node e' m' es') ∧
      ((∃ e m es, o = .node e m es ∧ e ≠ 0) → Big (Obj.node e' m' es')) ∧
      (∀ k', find r lv (.node e' m' es') k' =
        if k' = k then some (newLeaf k fresh) else find r lv o k') ∧ e' ≠ 0
  | 0, _, _, _, _, _, hw, _, _, _, _, _ => hw.elim
  | r + 1, lv, p, o, k, cnt, hw, hp, hr, hk64, hkp, hf => by
    obtain ⟨e, m, es, rfl⟩ := hw.isNode
    have hkl := leafKey_newLeaf fresh hk64
    cases hw.cases (keyIndex k lv) with
    | empty hb hc =>
      obtain ⟨es', h1, h2, h3⟩ := nodeInsert_ok hw.ok (keyIndex_lt k lv) hb
        (.leaf (newLeaf k fresh)) true
      have hcnt := countBits_bitSet hw.ok.bound (keyIndex_lt k lv) hb
      rw [if_pos rfl] at h1 h2
      refine ⟨bitSet e (keyIndex k lv), bitSet m (keyIndex k lv), es', ?_, ?_, ?_, ?_, ?_⟩
      · simp only [addRec, hb]
        simp only [h1]
        rfl
      · refine WF.intro h2 (fun i => ?_)
        by_cases hii : i = keyIndex k lv
        · subst hii
          exact .leaf (newLeaf k fresh) (by rw [testBit_bitSet]; simp) (by rw [h3, if_pos rfl])
            (by rw [testBit_bitSet]; simp) (by rw [hkl]; exact hk64) (by rw [hkl]; exact hkp)
            (by rw [hkl])
        · have hne : ¬ keyIndex k lv = i := fun h => hii h.symm
          exact (hw.cases i).congr (by rw [testBit_bitSet]; simp [hne])
            (by rw [testBit_bitSet]; simp [hne]) (by rw [h3, if_neg hii])
      · rintro ⟨e1, m1, es1, h, hne⟩
        cases h
        refine Big_of_two ?_
        rw [hcnt]
        have : countBits e ≠ 0 := fun h => hne ((countBits_zero_iff hw.ok.bound).mp h)
        omega
      · intro k'
        by_cases hii : keyIndex k' lv = keyIndex k lv
        · rw [find_leaf (l := newLeaf k fresh) (by rw [h3, if_pos hii]), hkl,
            find_empty (by rw [hii]; exact hc)]
          by_cases hk' : k' = k
          · rw [if_pos hk'.symm, if_pos hk']
          · rw [if_neg (fun h => hk' h.symm), if_neg hk']
        · rw [if_neg (fun h => hii (by rw [h]))]
          exact find_congr (by rw [h3, if_neg hii])
      · intro h0
        have : countBits (bitSet e (keyIndex k lv)) = 0 := by rw [h0]; decide
        omega
    | leaf l0 hb hc hm hk hp' hi =>
      have hne : ¬ leafKey l0 = k := by
        intro h
        rw [find_leaf hc, if_pos h] at hf; cases hf
      have hi' : keyIndex (leafKey l0) lv = keyIndex k lv := hi
      -- one more level is there: otherwise the keys agree on all digits
      obtain ⟨r', rfl⟩ : ∃ r', r = r' + 1 := by
        cases r with
        | succ r' => exact ⟨r', rfl⟩
        | zero =>
          exfalso; apply hne
          have h12 : lv = 12 := by omega
          subst h12
          have a := mod_succ (leafKey l0) 12
          have b := mod_succ k 12
          rw [hp', hi'] at a
          rw [hkp] at b
          rw [key_full (leafKey_lt l0)] at a
          rw [key_full hk64] at b
          omega
      have hpre0 : leafKey l0 % 32 ^ (lv + 1) = p + keyIndex k lv * 32 ^ lv := by
        rw [mod_succ, hp', hi']
      have hprek : k % 32 ^ (lv + 1) = p + keyIndex k lv * 32 ^ lv := by rw [mod_succ, hkp]
      have hone := WF_one r' (lv + 1) _ l0 hpre0
      obtain ⟨e1, m1, es1, h1, h2, h3, h4, h5⟩ := addRec_new fresh (k := k) cnt hone
        (prefix_lt hp (keyIndex_lt k lv)) (by omega) hk64 hprek
        (by rw [find_one, if_neg (fun h => hne h.symm)])
      have hbig1 := h3 ⟨_, _, _, rfl, bitSet_zero_ne _⟩
      have hset := child_set hw.ok hb (.node e1 m1 es1)
      refine ⟨e, bitReset m (keyIndex k lv), es.set (countBelow e (keyIndex k lv)) (.node e1 m1 es1),
        ?_, ?_, ?_, ?_, ?_⟩
      · rw [child_of_bit hb] at hc
        rw [addRec]
        simp only [hb, hc, hm]
        rw [if_pos trivial, if_pos trivial, if_neg (fun h => hne h.symm)]
        simp only [putAt_makeEntries, h1, putAt_ok es (off_lt hw.ok hb)]
      · have ok1 := hw.ok.set (countBelow e (keyIndex k lv)) (.node e1 m1 es1)
        refine WF.intro ⟨ok1.bound, ?_, ok1.cap⟩ (fun i => ?_)
        · intro i h
          rw [testBit_bitReset, Bool.and_eq_true] at h
          exact ok1.sub i h.1
        · by_cases hii : i = keyIndex k lv
          · subst hii
            exact .node e1 m1 es1 hb (by rw [hset, if_pos rfl]) (by rw [testBit_bitReset]; simp)
              h2 hbig1
          · have hne : ¬ keyIndex k lv = i := fun h => hii h.symm
            exact (hw.cases i).congr rfl (by rw [testBit_bitReset]; simp [hne])
              (by rw [hset, if_neg hii])
      · intro _
        refine ⟨fun h0 => ?_, ?_⟩
        · rw [h0, Nat.zero_testBit] at hb; cases hb
        · rintro ⟨hcb, hm0⟩
          apply hm0
          apply eq_zero_of_testBit
          intro i
          rw [testBit_bitReset]
          by_cases hii : keyIndex k lv = i
          · simp [hii]
          · cases hmi : m.testBit i with
            | false => rfl
            | true =>
              exact absurd (eq_of_countBits_one hw.ok.bound hcb hb (hw.ok.sub i hmi)) hii
      · intro k'
        by_cases hii : keyIndex k' lv = keyIndex k lv
        · rw [find_node (e' := e1) (m' := m1) (es' := es1) (by rw [hset, if_pos hii]), h4 k',
            find_one, find_leaf (l := l0) (by rw [hii]; exact hc)]
          by_cases hk' : k' = k
          · rw [if_pos hk', if_pos hk']
          · rw [if_neg hk', if_neg hk']
            by_cases h6 : k' = leafKey l0
            · rw [if_pos h6, if_pos h6.symm]
            · rw [if_neg h6, if_neg (fun h => h6 h.symm)]
        · rw [if_neg (fun h => hii (by rw [h]))]
          exact find_congr (by rw [hset, if_neg hii])
      · intro h0
        rw [h0, Nat.zero_testBit] at hb; cases hb
    | node e0 m0 es0 hb hc hm hw' hbig =>
      have hprek : k % 32 ^ (lv + 1) = p + keyIndex k lv * 32 ^ lv := by rw [mod_succ, hkp]
      obtain ⟨e1, m1, es1, h1, h2, h3, h4, h5⟩ := addRec_new fresh (k := k) cnt hw'
        (prefix_lt hp (keyIndex_lt k lv)) (by omega) hk64 hprek (by rw [← find_node hc]; exact hf)
      have hbig1 := h3 ⟨_, _, _, rfl, hbig.1⟩
      have hset := child_set hw.ok hb (.node e1 m1 es1)
      refine ⟨e, m, es.set (countBelow e (keyIndex k lv)) (.node e1 m1 es1), ?_, ?_, ?_, ?_, ?_⟩
      · rw [child_of_bit hb] at hc
        simp only [addRec, hb, hc, hm]
        rw [if_pos trivial, if_neg (by decide)]
        simp only [h1, putAt_ok es (off_lt hw.ok hb)]
      · refine WF.intro (hw.ok.set _ _) (fun i => ?_)
        by_cases hii : i = keyIndex k lv
        · subst hii
          exact .node e1 m1 es1 hb (by rw [hset, if_pos rfl]) hm h2 hbig1
        · exact (hw.cases i).congr rfl rfl (by rw [hset, if_neg hii])
      · intro _
        refine ⟨fun h0 => ?_, ?_⟩
        · rw [h0, Nat.zero_testBit] at hb; cases hb
        · rintro ⟨hcb, hm0⟩
          obtain ⟨i, hmi⟩ := exists_testBit hm0
          have := eq_of_countBits_one hw.ok.bound hcb hb (hw.ok.sub i hmi)
          rw [← this, hm] at hmi; cases hmi
      · intro k'
        by_cases hii : keyIndex k' lv = keyIndex k lv
        · rw [find_node (e' := e1) (m' := m1) (es' := es1) (by rw [hset, if_pos hii]), h4 k',
            find_node (e' := e0) (m' := m0) (es' := es0) (by rw [hii]; exact hc)]
        · rw [if_neg (fun h => hii (by rw [h]))]
          exact find_congr (by rw [hset, if_neg hii])
      · intro h0
        rw [h0, Nat.zero_testBit] at hb; cases hb

/-! ## Deletion -/

theorem delRec_missing {β : Type} : ∀ {r lv p : Nat} {o : Obj β} {k : Nat} (cnt : Nat),
    WF r lv p o → find r lv o k = none → delRec r o k lv cnt = some (o, true, none, cnt)
  | 0, _, _, _, _, _, hw, _ => hw.elim
  | r + 1, lv, p, o, k, cnt, hw, hf => by
    obtain ⟨e, m, es, rfl⟩ := hw.isNode
    cases hw.cases (keyIndex k lv) with
    | empty hb hc => simp only [delRec, hb]; rfl
    | leaf l0 hb hc hm hk hp' hi =>
      have hne : ¬ leafKey l0 = k := by
        intro h
        rw [find_leaf hc, if_pos h] at hf; cases hf
      rw [child_of_bit hb] at hc
      simp only [delRec, hb, hc, hm]
      rw [if_pos trivial, if_pos trivial, if_neg (fun h => hne h.symm)]
    | node e' m' es' hb hc hm hw' hbig =>
      rw [find_node hc] at hf
      have ih := delRec_missing cnt hw' hf
      rw [child_of_bit hb] at hc
      simp only [delRec, hb, hc, hm]
      rw [if_pos trivial, if_neg (by decide)]
      simp only [ih]
      have : es.set (countBelow e (keyIndex k lv)) (.node e' m' es') = es :=
        List.ext_getElem? (fun j => by
          rw [List.getElem?_set]
          by_cases hj : countBelow e (keyIndex k lv) = j
          · subst hj; rw [if_pos rfl, if_pos (off_lt hw.ok hb), hc]
          · rw [if_neg hj])
      rw [this]

/-- What `del_rec` leaves behind: the node updated, the one leaf that is left, or
nothing. -/
inductive DelOut {β : Type} (r lv p : Nat) (o : Obj β) (k : Nat) : Obj β → Bool → Prop
  | node (e m : Nat) (es : List (Obj β)) (hw : WF r lv p (.node e m es)) (hne : e ≠ 0)
      (hbig : Big o → lv > 0 → Big (Obj.node e m es))
      (hf : ∀ k', find r lv (.node e m es) k' = if k' = k then none else find r lv o k') :
      DelOut r lv p o k (.node e m es) true
  | leaf (l : Leaf β) (hlv : lv > 0) (hp : leafKey l % 32 ^ lv = p) (hne : leafKey l ≠ k)
      (hf : ∀ k', (if k' = leafKey l then some l else none) = if k' = k then none else find r lv o k') :
      DelOut r lv p o k (.leaf l) false
  | null (hlv : lv = 0) (hf : ∀ k', k' ≠ k → find r lv o k' = none) : DelOut r lv p o k .null false

theorem delRec_found {β : Type} : ∀ {r lv p : Nat} {o : Obj β} {k : Nat} {l : Leaf β}
    (cnt : Nat), WF r lv p o → p < 32 ^ lv → (lv > 0 → Big o) → find r lv o k = some l →
    ∃ o' b, delRec r o k lv cnt = some (o', b, some l, decEntries cnt) ∧ DelOut r lv p o k o' b
  | 0, _, _, _, _, _, _, hw, _, _, _ => hw.elim
  | r + 1, lv, p, o, k, l, cnt, hw, hp, hbg, hf => by
    obtain ⟨e, m, es, rfl⟩ := hw.isNode
    cases hw.cases (keyIndex k lv) with
    | empty hb hc => rw [find_empty hc] at hf; cases hf
    | leaf l0 hb hc hm hk hp' hi =>
      have hc' := hc
      rw [find_leaf hc] at hf
      by_cases h : leafKey l0 = k
      swap
      · rw [if_neg h] at hf; cases hf
      rw [if_pos h] at hf; cases hf
      obtain ⟨es1, h1, h2, h3⟩ := nodeDelete_ok hw.ok hb
      have hcnt := countBits_bitReset hw.ok.bound hb
      have hfind : ∀ k', find (r + 1) lv (.node (bitReset e (keyIndex k lv))
          (bitReset m (keyIndex k lv)) es1) k' =
          if k' = k then none else find (r + 1) lv (.node e m es) k' := by
        intro k'
        by_cases hii : keyIndex k' lv = keyIndex k lv
        · rw [find_empty (by rw [h3, if_pos hii]), find_leaf (l := l) (by rw [hii]; exact hc'), h]
          by_cases hk' : k' = k
          · rw [if_pos hk']
          · rw [if_neg hk', if_neg (fun h => hk' h.symm)]
        · rw [if_neg (fun h => hii (by rw [h]))]
          exact find_congr (by rw [h3, if_neg hii])
      have hwf : WF (r + 1) lv p (.node (bitReset e (keyIndex k lv))
          (bitReset m (keyIndex k lv)) es1) := by
        refine WF.intro h2 (fun i => ?_)
        by_cases hii : i = keyIndex k lv
        · subst hii
          exact .empty (by rw [testBit_bitReset]; simp) (by rw [h3, if_pos rfl])
        · have hne : ¬ keyIndex k lv = i := fun h => hii h.symm
          exact (hw.cases i).congr (by rw [testBit_bitReset]; simp [hne])
            (by rw [testBit_bitReset]; simp [hne]) (by rw [h3, if_neg hii])
      rw [child_of_bit hb] at hc
      by_cases hcol : countBits e - 1 = 1 ∧ bitReset m (keyIndex k lv) ≠ 0 ∧ lv > 0
      · -- one leaf left: it replaces the node
        obtain ⟨i, hmi⟩ := exists_testBit hcol.2.1
        have hcb1 : countBits (bitReset e (keyIndex k lv)) = 1 := by omega
        have hei := h2.sub i hmi
        have hoff : countBelow (bitReset e (keyIndex k lv)) i = 0 := by
          have := countBelow_lt_countBits h2.bound hei
          omega
        cases hwf.cases i with
        | empty hb1 hc1 => rw [hei] at hb1; cases hb1
        | node e1 m1 es2 hb1 hc1 hm1 hw1 hbig1 => rw [hmi] at hm1; cases hm1
        | leaf l1 hb1 hc1 hm1 hk1 hp1 hi1 =>
          have hc1' := hc1
          rw [child_of_bit hei, hoff] at hc1
          have hf1 : ∀ k', find (r + 1) lv (.node (bitReset e (keyIndex k lv))
              (bitReset m (keyIndex k lv)) es1) k' = if k' = leafKey l1 then some l1 else none := by
            intro k'
            by_cases hk1 : keyIndex k' lv = i
            · rw [find_leaf (l := l1) (by rw [hk1]; exact hc1')]
              by_cases hk' : k' = leafKey l1
              · rw [if_pos hk', if_pos hk'.symm]
              · rw [if_neg hk', if_neg (fun h => hk' h.symm)]
            · rw [if_neg (fun h => hk1 (by rw [h]; exact hi1)), find_empty]
              cases hbk : (bitReset e (keyIndex k lv)).testBit (keyIndex k' lv) with
              | false => exact child_none hbk
              | true => exact absurd (eq_of_countBits_one h2.bound hcb1 hbk hei) hk1
          refine ⟨.leaf l1, false, ?_, .leaf l1 hcol.2.2 hp1 ?_ ?_⟩
          · simp only [delRec, hb, hc, hm]
            rw [if_pos trivial, if_pos trivial, if_pos h.symm]
            simp only [h1]
            rw [if_pos hcol]
            simp only [hc1]
          · intro hx
            have := hf1 k
            rw [hfind k, if_pos rfl, if_pos hx.symm] at this; cases this
          · intro k'
            rw [← hf1 k', hfind k']
      · by_cases hnc : countBits e - 1 = 0
        · -- nothing left: this is the root
          have hcb : countBits e = 1 := by omega
          have hlv : lv = 0 := by
            by_contra hlv
            have hb2 := hbg (by omega)
            exact hb2.2 ⟨hcb, fun h0 => by rw [h0, Nat.zero_testBit] at hm; cases hm⟩
          refine ⟨.null, false, ?_, .null hlv ?_⟩
          · simp only [delRec, hb, hc, hm]
            rw [if_pos trivial, if_pos trivial, if_pos h.symm]
            simp only [h1]
            rw [if_neg hcol, if_pos hnc, if_pos hlv]
          · intro k' hk'
            have h0 : bitReset e (keyIndex k lv) = 0 := (countBits_zero_iff h2.bound).mp (by omega)
            have := hfind k'
            rw [if_neg hk'] at this
            rw [← this, find_empty]
            exact child_none (by rw [h0, Nat.zero_testBit])
        · refine ⟨.node (bitReset e (keyIndex k lv)) (bitReset m (keyIndex k lv)) es1, true, ?_,
            .node _ _ _ hwf ?_ ?_ hfind⟩
          · simp only [delRec, hb, hc, hm]
            rw [if_pos trivial, if_pos trivial, if_pos h.symm]
            simp only [h1]
            rw [if_neg hcol, if_neg hnc]
          · intro h0
            have : countBits (bitReset e (keyIndex k lv)) = 0 := by rw [h0]; decide
            omega
          · intro _ hlv
            refine ⟨fun h0 => ?_, ?_⟩
            · have : countBits (bitReset e (keyIndex k lv)) = 0 := by rw [h0]; decide
              omega
            · rintro ⟨a, b⟩
              exact hcol ⟨by omega, b, hlv⟩
    | node e0 m0 es0 hb hc hm hw' hbig =>
      have hc' := hc
      rw [find_node hc] at hf
      obtain ⟨o1, b, h1, hout⟩ := delRec_found cnt hw' (prefix_lt hp (keyIndex_lt k lv))
        (fun _ => hbig) hf
      have he0 : e ≠ 0 := fun h0 => by rw [h0, Nat.zero_testBit] at hb; cases hb
      rw [child_of_bit hb] at hc
      cases hout with
      | node e1 m1 es1 hw1 hne1 hbig1 hf1 =>
        have hset := child_set hw.ok hb (.node e1 m1 es1)
        refine ⟨.node e m (es.set (countBelow e (keyIndex k lv)) (.node e1 m1 es1)), true, ?_,
          .node _ _ _ ?_ he0 (fun h _ => h) ?_⟩
        · simp only [delRec, hb, hc, hm]
          rw [if_pos trivial, if_neg (by decide)]
          simp only [h1]
        · refine WF.intro (hw.ok.set _ _) (fun i => ?_)
          by_cases hii : i = keyIndex k lv
          · subst hii
            exact .node e1 m1 es1 hb (by rw [hset, if_pos rfl]) hm hw1 (hbig1 hbig (by omega))
          · exact (hw.cases i).congr rfl rfl (by rw [hset, if_neg hii])
        · intro k'
          by_cases hii : keyIndex k' lv = keyIndex k lv
          · rw [find_node (e' := e1) (m' := m1) (es' := es1) (by rw [hset, if_pos hii]), hf1 k',
              find_node (e' := e0) (m' := m0) (es' := es0) (by rw [hii]; exact hc')]
          · rw [if_neg (fun h => hii (by rw [h]))]
            exact find_congr (by rw [hset, if_neg hii])
      | null hlv _ => omega
      | leaf l1 hlv1 hp1 hne1 hf1 =>
        have hpi := prefix_succ hp hp1 (keyIndex_lt k lv)
        by_cases hup : countBits e = 1 ∧ lv > 0
        · refine ⟨.leaf l1, false, ?_, .leaf l1 hup.2 hpi.1 hne1 ?_⟩
          · simp only [delRec, hb, hc, hm]
            rw [if_pos trivial, if_neg (by decide)]
            simp only [h1]
            rw [if_pos hup]
          · intro k'
            by_cases hii : keyIndex k' lv = keyIndex k lv
            · rw [hf1 k', find_node (e' := e0) (m' := m0) (es' := es0) (by rw [hii]; exact hc')]
            · rw [if_neg (fun h => hii (by rw [h]; exact hpi.2)), if_neg (fun h => hii (by rw [h])),
                find_empty]
              cases hbk : e.testBit (keyIndex k' lv) with
              | false => exact child_none hbk
              | true => exact absurd (eq_of_countBits_one hw.ok.bound hup.1 hbk hb) hii
        · have hset := child_set hw.ok hb (.leaf l1)
          refine ⟨.node e (bitSet m (keyIndex k lv))
            (es.set (countBelow e (keyIndex k lv)) (.leaf l1)), true, ?_,
            .node _ _ _ ?_ he0 ?_ ?_⟩
          · simp only [delRec, hb, hc, hm]
            rw [if_pos trivial, if_neg (by decide)]
            simp only [h1]
            rw [if_neg hup]
          · have ok1 := hw.ok.set (countBelow e (keyIndex k lv)) (.leaf l1)
            refine WF.intro ⟨ok1.bound, ?_, ok1.cap⟩ (fun i => ?_)
            · intro i h
              rw [testBit_bitSet, Bool.or_eq_true] at h
              rcases h with h | h
              · exact ok1.sub i h
              · rw [← of_decide_eq_true h]; exact hb
            · by_cases hii : i = keyIndex k lv
              · subst hii
                exact .leaf l1 hb (by rw [hset, if_pos rfl]) (by rw [testBit_bitSet]; simp)
                  (leafKey_lt l1) hpi.1 hpi.2
              · have hne : ¬ keyIndex k lv = i := fun h => hii h.symm
                exact (hw.cases i).congr rfl (by rw [testBit_bitSet]; simp [hne])
                  (by rw [hset, if_neg hii])
          · intro _ hlv
            refine ⟨he0, ?_⟩
            rintro ⟨a, _⟩
            exact hup ⟨a, hlv⟩
          · intro k'
            by_cases hii : keyIndex k' lv = keyIndex k lv
            · rw [find_leaf (l := l1) (by rw [hset, if_pos hii]),
                find_node (e' := e0) (m' := m0) (es' := es0) (by rw [hii]; exact hc'), ← hf1 k']
              by_cases hk' : k' = leafKey l1
              · rw [if_pos hk', if_pos hk'.symm]
              · rw [if_neg hk', if_neg (fun h => hk' h.symm)]
            · rw [if_neg (fun h => hii (by rw [h]))]
              exact find_congr (by rw [hset, if_neg hii])

end Gauche.CTrie
