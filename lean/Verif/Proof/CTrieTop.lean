import Verif.Proof.CTrieIter

/-! # Compact trie: the operations on the whole trie -/

namespace Gauche.CTrie

/-- The leaf the trie holds for a key. -/
def look {β : Type} (ct : Trie β) (k : Nat) : Option (Leaf β) := find 13 0 ct.root k

/-- All leaves. -/
def allLeaves {β : Type} (ct : Trie β) : List (Leaf β) := leaves 13 ct.root

/-- A trie as the operations build it. -/
structure TrieInv {β : Type} (ct : Trie β) : Prop where
  shape : ct.root = .null ∨ ∃ e m es, ct.root = .node e m es ∧ e ≠ 0 ∧ WF 13 0 0 ct.root
  count : ct.numEntries = (allLeaves ct).length % 2 ^ 32

theorem look_null {β : Type} {ct : Trie β} (h : ct.root = .null) (k : Nat) : look ct k = none := by
  rw [look, h]; rfl

theorem leaves_null {β : Type} {ct : Trie β} (h : ct.root = .null) : allLeaves ct = [] := by
  rw [allLeaves, h]; rfl

theorem TrieInv.mem {β : Type} {ct : Trie β} (hi : TrieInv ct) (l : Leaf β) :
    l ∈ allLeaves ct ↔ look ct (leafKey l) = some l := by
  rcases hi.shape with h | ⟨e, m, es, h, hne, hw⟩
  · rw [leaves_null h, look_null h]; simp
  · exact mem_leaves l hw (by decide)

theorem TrieInv.nodupKeys {β : Type} {ct : Trie β} (hi : TrieInv ct) :
    ((allLeaves ct).map leafKey).Nodup := by
  rcases hi.shape with h | ⟨e, m, es, h, hne, hw⟩
  · rw [leaves_null h]; exact List.nodup_nil
  · exact nodup_leaves hw (by decide)

theorem TrieInv.nodup {β : Type} {ct : Trie β} (hi : TrieInv ct) : (allLeaves ct).Nodup :=
  List.Nodup.of_map _ hi.nodupKeys

theorem TrieInv.key {β : Type} {ct : Trie β} (hi : TrieInv ct) {k : Nat} {l : Leaf β}
    (h : look ct k = some l) : leafKey l = k ∧ k < 2 ^ 64 := by
  rcases hi.shape with h0 | ⟨e, m, es, h0, hne, hw⟩
  · rw [look_null h0] at h; cases h
  · have := find_some hw (by decide) h
    exact ⟨this.1, this.2.1⟩

theorem TrieInv.mem_of_look {β : Type} {ct : Trie β} (hi : TrieInv ct) {k : Nat} {l : Leaf β}
    (h : look ct k = some l) : l ∈ allLeaves ct := by
  rw [hi.mem, (hi.key h).1]; exact h

theorem init_inv (β : Type) : TrieInv (trieInit β) := ⟨Or.inl rfl, rfl⟩

theorem trieGet_ok {β : Type} {ct : Trie β} (hi : TrieInv ct) (k : Nat) :
    trieGet ct k = some (look ct k) := by
  rcases hi.shape with h | ⟨e, m, es, h, hne, hw⟩
  · rw [look_null h, trieGet, h]
  · rw [look]
    have := getRec_ok k hw
    rw [h] at this ⊢
    rw [trieGet, h]; exact this

/-- Lists without repetition and with the same members are permutations. -/
theorem perm_of_mem {α : Type} {a b : List α} (ha : a.Nodup) (hb : b.Nodup)
    (h : ∀ x, x ∈ a ↔ x ∈ b) : a.Perm b := (List.perm_ext_iff_of_nodup ha hb).mpr h

theorem trieAdd_found {β : Type} {ct : Trie β} (hi : TrieInv ct) {k : Nat} {l : Leaf β}
    (fresh : Leaf β) (h : look ct k = some l) : trieAdd ct k fresh = some (ct, l) := by
  rcases hi.shape with h0 | ⟨e, m, es, h0, hne, hw⟩
  · rw [look_null h0] at h; cases h
  · have := addRec_found fresh ct.numEntries hw h
    rw [h0] at this
    obtain ⟨n, root⟩ := ct
    cases h0
    rw [trieAdd]
    simp only [this]

theorem trieAdd_new {β : Type} {ct : Trie β} (hi : TrieInv ct) {k : Nat} (hk : k < 2 ^ 64)
    (fresh : Leaf β) (h : look ct k = none) :
    ∃ ct', trieAdd ct k fresh = some (ct', newLeaf k fresh) ∧ TrieInv ct' ∧
      (allLeaves ct').Perm (newLeaf k fresh :: allLeaves ct) ∧
      ∀ k', look ct' k' = if k' = k then some (newLeaf k fresh) else look ct k' := by
  have hkl := leafKey_newLeaf fresh hk
  rcases hi.shape with h0 | ⟨e, m, es, h0, hne, hw⟩
  · have hidx : k &&& 31 = keyIndex (leafKey (newLeaf k fresh)) 0 := by
      rw [hkl]; rfl
    have hw := WF_one 12 0 0 (newLeaf k fresh) (by rw [Nat.pow_zero, Nat.mod_one])
    have hf := find_one 12 0 (newLeaf k fresh)
    have hone : (leaves 13 (.node (bitSet 0 (keyIndex (leafKey (newLeaf k fresh)) 0))
        (bitSet 0 (keyIndex (leafKey (newLeaf k fresh)) 0)) (oneEnt (.leaf (newLeaf k fresh))))).Perm
        [newLeaf k fresh] :=
      perm_of_mem (List.Nodup.of_map _ (nodup_leaves hw (by decide)))
          (List.nodup_singleton _) (fun l => by
            rw [mem_leaves l hw (by decide), hf, List.mem_singleton, hkl]
            constructor
            · intro h
              by_cases h1 : leafKey l = k
              · rw [if_pos h1] at h; cases h; rfl
              · rw [if_neg h1] at h; cases h
            · rintro rfl; rw [if_pos hkl])
    refine ⟨⟨1, .node (bitSet 0 (k &&& 31)) (bitSet 0 (k &&& 31)) (oneEnt (.leaf (newLeaf k fresh)))⟩,
      ?_, ?_, ?_, ?_⟩
    · rw [trieAdd, h0]
      simp only [putAt_makeEntries]
    · rw [hidx]
      refine ⟨Or.inr ⟨_, _, _, rfl, bitSet_zero_ne _, hw⟩, ?_⟩
      show 1 = (leaves 13 _).length % 2 ^ 32
      rw [List.perm_singleton.mp hone]; rfl
    · rw [leaves_null h0, hidx]
      exact hone
    · intro k'
      rw [look_null h0, hidx]
      have := hf k'
      rw [hkl] at this ⊢
      exact this
  · obtain ⟨e', m', es', h1, h2, h3, h4, h5⟩ := addRec_new fresh (k := k) ct.numEntries hw
      (by decide) rfl hk (by rw [Nat.pow_zero, Nat.mod_one]) h
    have hperm : (leaves 13 (.node e' m' es')).Perm (newLeaf k fresh :: allLeaves ct) := by
      refine perm_of_mem (List.Nodup.of_map _ (nodup_leaves h2 (by decide)))
        (List.nodup_cons.mpr ⟨?_, hi.nodup⟩) (fun l => ?_)
      · rw [hi.mem, hkl, h]; simp
      · rw [mem_leaves l h2 (by decide), h4, List.mem_cons, hi.mem]
        by_cases hl : leafKey l = k
        · rw [if_pos hl, hl, h]
          constructor
          · intro h; cases h; exact Or.inl rfl
          · rintro (h | h)
            · rw [h]
            · cases h
        · rw [if_neg hl]
          constructor
          · exact Or.inr
          · rintro (h | h)
            · exact absurd (by rw [h]; exact hkl) hl
            · exact h
    refine ⟨⟨incEntries ct.numEntries, .node e' m' es'⟩, ?_, ?_, hperm, h4⟩
    · obtain ⟨n, root⟩ := ct
      cases h0
      rw [trieAdd]
      simp only [h1]
    · refine ⟨Or.inr ⟨e', m', es', rfl, h5, h2⟩, ?_⟩
      have hlen := hperm.length_eq
      show incEntries ct.numEntries = (leaves 13 (.node e' m' es')).length % 2 ^ 32
      rw [hlen, hi.count, incEntries, List.length_cons]
      omega

theorem trieWrite_ok {β : Type} {ct : Trie β} (hi : TrieInv ct) {k : Nat} {l l' : Leaf β}
    (h : look ct k = some l) (hl' : leafKey l' = k) :
    ∃ ct', trieWrite ct k l' = some ct' ∧ TrieInv ct' ∧
      (∀ k', look ct' k' = if k' = k then some l' else look ct k') ∧
      (allLeaves ct').length = (allLeaves ct).length := by
  rcases hi.shape with h0 | ⟨e, m, es, h0, hne, hw⟩
  · rw [look_null h0] at h; cases h
  · obtain ⟨o', h1, h2, _, ⟨e1, m1, es1, es2, h3, h4⟩, h5⟩ := writeRec_ok l' hw (by decide) h hl'
    have hmem : ∀ x, x ∈ (leaves 13 o').map leafKey ↔ x ∈ (allLeaves ct).map leafKey := by
      intro x
      rw [List.mem_map, List.mem_map]
      have hx := h5 x
      constructor
      · rintro ⟨a, ha, rfl⟩
        rw [mem_leaves a h2 (by decide)] at ha
        rw [ha] at hx
        by_cases hk : leafKey a = k
        · exact ⟨l, hi.mem_of_look h, by rw [(hi.key h).1, hk]⟩
        · rw [if_neg hk] at hx
          exact ⟨a, (hi.mem a).mpr hx.symm, rfl⟩
      · rintro ⟨a, ha, rfl⟩
        rw [hi.mem] at ha
        by_cases hk : leafKey a = k
        · refine ⟨l', ?_, by rw [hl', hk]⟩
          rw [mem_leaves l' h2 (by decide), h5, hl', if_pos rfl]
        · refine ⟨a, ?_, rfl⟩
          rw [mem_leaves a h2 (by decide), h5, if_neg hk]
          exact ha
    have hlen : (leaves 13 o').length = (allLeaves ct).length := by
      have := (perm_of_mem (nodup_leaves h2 (by decide)) hi.nodupKeys hmem).length_eq
      rwa [List.length_map, List.length_map] at this
    refine ⟨⟨ct.numEntries, o'⟩, by rw [trieWrite, h1], ?_, h5, hlen⟩
    rw [h0] at h3
    cases h3
    refine ⟨Or.inr ⟨_, _, _, h4, hne, h2⟩, ?_⟩
    show ct.numEntries = (leaves 13 o').length % 2 ^ 32
    rw [hlen]; exact hi.count

theorem trieDelete_missing {β : Type} {ct : Trie β} (hi : TrieInv ct) {k : Nat}
    (h : look ct k = none) : trieDelete ct k = some (ct, none) := by
  rcases hi.shape with h0 | ⟨e, m, es, h0, hne, hw⟩
  · rw [trieDelete, h0]
  · have := delRec_missing ct.numEntries hw h
    obtain ⟨n, root⟩ := ct
    cases h0
    rw [trieDelete]
    simp only [this]

theorem trieDelete_found {β : Type} {ct : Trie β} (hi : TrieInv ct) {k : Nat} {l : Leaf β}
    (h : look ct k = some l) :
    ∃ ct', trieDelete ct k = some (ct', some l) ∧ TrieInv ct' ∧
      (allLeaves ct).Perm (l :: allLeaves ct') ∧
      ∀ k', look ct' k' = if k' = k then none else look ct k' := by
  rcases hi.shape with h0 | ⟨e, m, es, h0, hne, hw⟩
  · rw [look_null h0] at h; cases h
  · obtain ⟨o', b, h1, hout⟩ := delRec_found ct.numEntries hw (by decide) (fun h => by omega) h
    have hkey := (hi.key h).1
    have hlook : ∀ k', find 13 0 o' k' = if k' = k then none else look ct k' := by
      cases hout with
      | node e1 m1 es1 hw1 hne1 hbig1 hf1 => exact hf1
      | leaf l1 hlv _ _ _ => omega
      | null hlv hf1 =>
        intro k'
        by_cases hk : k' = k
        · rw [if_pos hk]; rfl
        · rw [if_neg hk]; exact (hf1 k' hk).symm
    have hshape : o' = .null ∨ ∃ e m es, o' = .node e m es ∧ e ≠ 0 ∧ WF 13 0 0 o' := by
      cases hout with
      | node e1 m1 es1 hw1 hne1 hbig1 hf1 => exact Or.inr ⟨_, _, _, rfl, hne1, hw1⟩
      | leaf l1 hlv _ _ _ => omega
      | null hlv hf1 => exact Or.inl rfl
    have hmem : ∀ x, x ∈ leaves 13 o' ↔ find 13 0 o' (leafKey x) = some x := by
      intro x
      rcases hshape with rfl | ⟨_, _, _, _, _, hw1⟩
      · simp [leaves, find]
      · exact mem_leaves x hw1 (by decide)
    have hnd : (leaves 13 o').Nodup := by
      rcases hshape with rfl | ⟨_, _, _, _, _, hw1⟩
      · exact List.nodup_nil
      · exact List.Nodup.of_map _ (nodup_leaves hw1 (by decide))
    have hperm : (allLeaves ct).Perm (l :: leaves 13 o') := by
      refine perm_of_mem hi.nodup (List.nodup_cons.mpr ⟨?_, hnd⟩) (fun x => ?_)
      · rw [hmem, hlook, hkey, if_pos rfl]; simp
      · rw [hi.mem, List.mem_cons, hmem, hlook]
        by_cases hk : leafKey x = k
        · rw [if_pos hk, hk, h]
          constructor
          · intro h; cases h; exact Or.inl rfl
          · rintro (h | h)
            · rw [h]
            · cases h
        · rw [if_neg hk]
          constructor
          · exact Or.inr
          · rintro (h | h)
            · exact absurd (by rw [h]; exact hkey) hk
            · exact h
    refine ⟨⟨decEntries ct.numEntries, o'⟩, ?_, ⟨hshape, ?_⟩, hperm, hlook⟩
    · obtain ⟨n, root⟩ := ct
      cases h0
      rw [trieDelete]
      simp only [h1]
    · have hlen := hperm.length_eq
      rw [List.length_cons] at hlen
      show decEntries ct.numEntries = (leaves 13 o').length % 2 ^ 32
      rw [hi.count, hlen, decEntries]
      omega

theorem trieClear_ok {β : Type} {ct : Trie β} (hi : TrieInv ct) :
    trieClear ct = some (trieInit β, allLeaves ct) := by
  rcases hi.shape with h0 | ⟨e, m, es, h0, hne, hw⟩
  · rw [trieClear, leaves_null h0, h0]; rfl
  · have := clearRec_ok hw
    obtain ⟨n, root⟩ := ct
    cases h0
    rw [trieClear]
    simp only [this]; rfl

theorem trieCopy_ok {β : Type} {ct : Trie β} (hi : TrieInv ct) (copy : Leaf β → Leaf β)
    (hcopy : ∀ l, leafKey (copy l) = leafKey l) :
    ∃ ct', trieCopy copy ct = some ct' ∧ TrieInv ct' ∧
      allLeaves ct' = (allLeaves ct).map copy ∧ ∀ k, look ct' k = (look ct k).map copy := by
  rcases hi.shape with h0 | ⟨e, m, es, h0, hne, hw⟩
  · refine ⟨⟨ct.numEntries, .null⟩, by rw [trieCopy, h0], ⟨Or.inl rfl, ?_⟩, ?_, ?_⟩
    · rw [hi.count, leaves_null h0]; rfl
    · rw [leaves_null h0]; rfl
    · intro k; rw [look_null h0]; rfl
  · obtain ⟨o', h1, h2, _, h3, h4, e1, m1, es1, es2, h5, h6⟩ := copyRec_ok copy hcopy hw
    refine ⟨⟨ct.numEntries, o'⟩, ?_, ⟨Or.inr ?_, ?_⟩, h3, h4⟩
    · obtain ⟨n, root⟩ := ct
      cases h0
      rw [trieCopy]
      simp only [h1]
    · rw [h0] at h5; cases h5
      exact ⟨_, _, _, h6, hne, h2⟩
    · show ct.numEntries = (leaves 13 o').length % 2 ^ 32
      rw [h3, List.length_map]; exact hi.count

theorem trieFirst_ok {β : Type} {ct : Trie β} (hi : TrieInv ct) :
    trieFirstLeaf ct = some (allLeaves ct).head? := by
  rcases hi.shape with h0 | ⟨e, m, es, h0, hne, hw⟩
  · rw [trieFirstLeaf, leaves_null h0, h0]; rfl
  · have := firstRec_ok hw
    obtain ⟨n, root⟩ := ct
    cases h0
    rw [trieFirstLeaf]
    simp only [this]; rfl

theorem trieLast_ok {β : Type} {ct : Trie β} (hi : TrieInv ct) :
    trieLastLeaf ct = some (allLeaves ct).getLast? := by
  rcases hi.shape with h0 | ⟨e, m, es, h0, hne, hw⟩
  · rw [trieLastLeaf, leaves_null h0, h0]; rfl
  · have := lastRec_ok hw
    obtain ⟨n, root⟩ := ct
    cases h0
    rw [trieLastLeaf]
    simp only [this]; rfl

theorem trieNext_ok {β : Type} {ct : Trie β} (hi : TrieInv ct) {pre post : List (Leaf β)}
    {l : Leaf β} (h : allLeaves ct = pre ++ l :: post) :
    trieNextLeaf ct (leafKey l) = some post.head? := by
  rcases hi.shape with h0 | ⟨e, m, es, h0, hne, hw⟩
  · rw [leaves_null h0] at h
    exact absurd h (by simp)
  · have := nextRec_ok hw (by decide) h
    obtain ⟨n, root⟩ := ct
    cases h0
    rw [trieNextLeaf]
    simp only [this]

theorem trieCheck_ok {β : Type} {ct : Trie β} (hi : TrieInv ct) : trieCheck ct = some true := by
  rcases hi.shape with h0 | ⟨e, m, es, h0, hne, hw⟩
  · have hc := hi.count
    rw [leaves_null h0] at hc
    rw [trieCheck, h0]
    show some (decide (ct.numEntries = 0)) = some true
    rw [hc]; rfl
  · have hc := hi.count
    obtain ⟨n, root⟩ := ct
    cases h0
    have := checkRec_ok hw hne (fun h => by omega)
    rw [trieCheck]
    simp only [this]
    show some (decide (n = (leaves 13 (.node e m es)).length % 2 ^ 32)) = some true
    rw [decide_eq_true (show n = (leaves 13 (.node e m es)).length % 2 ^ 32 from hc)]

/-! ## Iterators -/

/-- The iterator still has `rest` to deliver. -/
def IterAt {β : Type} (ct : Trie β) (it : Iter) (rest : List (Leaf β)) : Prop :=
  (it.fin = true ∧ rest = []) ∨
  (it.fin = false ∧ it.begin = true ∧ rest = allLeaves ct) ∨
  (it.fin = false ∧ it.begin = false ∧ ∃ pre l, allLeaves ct = pre ++ l :: rest ∧ it.key = leafKey l)

theorem iterInit_ok {β : Type} (ct : Trie β) : IterAt ct iterInit (allLeaves ct) :=
  Or.inr (Or.inl ⟨rfl, rfl, rfl⟩)

/-- The second half of `CompactTrieIterNext`. -/
def iterFinish {β : Type} (it : Iter) : Option (Option (Leaf β)) → Option (Iter × Option (Leaf β))
  | none => none
  | some (some l) => some (⟨leafKey l, false, it.fin⟩, some l)
  | some none => some (⟨it.key, false, true⟩, none)

theorem iterNext_eq {β : Type} (ct : Trie β) (it : Iter) : iterNext ct it =
    if it.fin then some (it, none) else
      iterFinish it (if it.begin then trieFirstLeaf ct else trieNextLeaf ct it.key) := rfl

theorem iterFinish_ok {β : Type} {ct : Trie β} {it : Iter} {rest : List (Leaf β)}
    (hf : it.fin = false)
    (hpre : ∀ l t, rest = l :: t → ∃ pre, allLeaves ct = pre ++ l :: t) :
    ∃ it', iterFinish it (some rest.head?) = some (it', rest.head?) ∧ IterAt ct it' rest.tail := by
  cases hr : rest with
  | nil => exact ⟨⟨it.key, false, true⟩, rfl, Or.inl ⟨rfl, rfl⟩⟩
  | cons l t =>
    obtain ⟨pre, hp⟩ := hpre l t hr
    exact ⟨⟨leafKey l, false, it.fin⟩, rfl, Or.inr (Or.inr ⟨hf, rfl, pre, l, hp, rfl⟩)⟩

theorem iterNext_step {β : Type} {ct : Trie β} (hi : TrieInv ct) {it : Iter} {rest : List (Leaf β)}
    (h : IterAt ct it rest) :
    ∃ it', iterNext ct it = some (it', rest.head?) ∧ IterAt ct it' rest.tail := by
  rw [iterNext_eq]
  rcases h with ⟨h1, h2⟩ | ⟨h1, h2, h3⟩ | ⟨h1, h2, pre, l, h3, h4⟩
  · subst h2
    exact ⟨it, by rw [if_pos h1]; rfl, Or.inl ⟨h1, rfl⟩⟩
  · rw [if_neg (by rw [h1]; decide), if_pos h2, trieFirst_ok hi, ← h3]
    refine iterFinish_ok h1 (fun l t hr => ⟨[], ?_⟩)
    rw [← h3, hr]; rfl
  · rw [if_neg (by rw [h1]; decide), if_neg (by rw [h2]; decide), h4, trieNext_ok hi h3]
    refine iterFinish_ok h1 (fun a t hr => ⟨pre ++ [l], ?_⟩)
    rw [h3, hr]; simp

end Gauche.CTrie
