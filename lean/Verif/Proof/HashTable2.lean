import Verif.Proof.HashTable
/-! Effects of the API operations, frame properties, copying. -/
namespace Gauche.HashTable

variable {K V σ : Type}

/-- `(m', t')` comes from `(m, t)` by an operation that touches only `t`'s entries and fresh memory. -/
structure Ext (m : Mem K V) (t : Table) (m' : Mem K V) (t' : Table) : Prop where
  fresh : m.fresh ≤ m'.fresh
  old : ∀ a, a < m.fresh → a ∉ all t → m'.ent a = m.ent a
  new : ∀ a ∈ all t', a ∈ all t ∨ m.fresh ≤ a

theorem Ext.refl (m : Mem K V) (t : Table) : Ext m t m t := ⟨le_refl _, fun _ _ _ => rfl, fun _ h => .inl h⟩

theorem Ext.trans {m m' m'' : Mem K V} {t t' t'' : Table} (h : Ext m t m' t') (h' : Ext m' t' m'' t'') :
    Ext m t m'' t'' := by
  refine ⟨le_trans h.fresh h'.fresh, ?_, ?_⟩
  · intro a ha hn
    have h1 : a < m'.fresh := lt_of_lt_of_le ha h.fresh
    rw [h'.old a h1, h.old a ha hn]
    intro hm
    rcases h.new a hm with h2 | h2
    · exact hn h2
    · omega
  · intro a ha
    rcases h'.new a ha with h2 | h2
    · exact h.new a h2
    · exact .inr (le_trans h.fresh h2)

/-- An operation with effect: invariant kept, the map becomes `l'`, frame. -/
structure Eff (c : Cfg K) (m : Mem K V) (t : Table) (m' : Mem K V) (t' : Table) (l' : List (K × V)) : Prop where
  wf : WF c m' t'
  perm : (abs m' t').Perm l'
  ext : Ext m t m' t'

theorem Eff.id {c : Cfg K} {m : Mem K V} {t : Table} (hw : WF c m t) : Eff c m t m t (abs m t) :=
  ⟨hw, List.Perm.refl _, Ext.refl _ _⟩

theorem eff_set {c : Cfg K} (hc : c.Ok) {m : Mem K V} {t : Table} (hw : WF c m t) {key : K} {a : Nat}
    (h : findKey c m t key = some a) (v : V) :
    Eff c m t (m.setValue a v) t (FinMap.insert c.eq (abs m t) key v) := by
  obtain ⟨ha, he, _⟩ := findKey_some h
  refine ⟨hw.setValue a v, ?_, ?_⟩
  · rw [abs_setValue hc hw ha he]
  · refine ⟨le_refl _, ?_, fun _ h => .inl h⟩
    intro b _ hb
    unfold Mem.setValue
    dsimp only
    rw [if_neg]
    rintro rfl
    exact hb (live_sub_all ha)

theorem eff_create {c : Cfg K} (hc : c.Ok) {m : Mem K V} {t : Table} (hw : WF c m t) {key : K}
    (hnone : findKey c m t key = none) (hn : t.numEntries < intMax) :
    ∃ m' t' a, access c m t key .create = (.entry a, m', t') ∧ (m'.ent a).value = none ∧
      ∀ v, Eff c m t (m'.setValue a v) t' (FinMap.insert c.eq (abs m t) key v) := by
  obtain ⟨t', h1, h2, h3, h4⟩ := access_create_none hc hw hnone hn
  refine ⟨_, t', _, h1, ?_, ?_⟩
  · rw [alloc_ent_new]
  · intro v
    refine ⟨h2 v, abs_create hc hw hnone v h3, ?_⟩
    rw [alloc_setValue]
    refine ⟨by unfold Mem.alloc; dsimp only; omega, ?_, ?_⟩
    · intro a ha _; exact alloc_ent_old _ _ ha
    · intro a ha
      rw [all_eq, List.mem_append] at ha
      rcases ha with ha | ha
      · rcases List.mem_cons.1 (h3.mem_iff.1 ha) with rfl | h
        · exact .inr (le_refl _)
        · exact .inl (live_sub_all h)
      · rw [h4] at ha
        left; rw [all_eq, List.mem_append]; exact .inr ha

theorem eff_delete {c : Cfg K} (hc : c.Ok) {m : Mem K V} {t : Table} (hw : WF c m t) {key : K} {a : Nat}
    (h : findKey c m t key = some a) :
    Eff c m t m (deleteEntry t a (hash2index t.numBuckets t.numBucketsLog2 (c.hash key)))
      (FinMap.erase c.eq (abs m t) key) := by
  obtain ⟨h1, h2⟩ := WF_delete hc hw h
  refine ⟨h1, abs_delete hc hw h h2, le_refl _, fun _ _ _ => rfl, ?_⟩
  intro b hb
  left
  rw [all_eq, List.mem_append] at hb
  rcases hb with hb | hb
  · exact live_sub_all (h2.mem_iff.2 (List.mem_cons_of_mem _ hb))
  · have : (deleteEntry t a (hash2index t.numBuckets t.numBucketsLog2 (c.hash key))).loose.flatten
        = a :: t.loose.flatten := by unfold deleteEntry; simp
    rw [this] at hb
    rcases List.mem_cons.1 hb with rfl | hb
    · exact live_sub_all (findKey_some h).1
    · rw [all_eq, List.mem_append]; exact .inr hb

theorem lookup_of_find {c : Cfg K} (hc : c.Ok) {m : Mem K V} {t : Table} (hw : WF c m t) {key : K} {a : Nat}
    (h : findKey c m t key = some a) :
    ∃ v, (m.ent a).value = some v ∧ FinMap.lookup c.eq (abs m t) key = some v := by
  obtain ⟨ha, he, _⟩ := findKey_some h
  obtain ⟨v, hv⟩ := Option.isSome_iff_exists.1 (hw.value a ha)
  refine ⟨v, hv, ?_⟩
  rw [← ref_eq hc hw]
  unfold ref
  rw [access_get_some h]; exact hv

theorem lookup_of_find_none {c : Cfg K} (hc : c.Ok) {m : Mem K V} {t : Table} (hw : WF c m t) {key : K}
    (h : findKey c m t key = none) : FinMap.lookup c.eq (abs m t) key = none := by
  rw [← ref_eq hc hw]
  unfold ref
  rw [access_get_none h]

theorem erase_absent {eq : K → K → Bool} {l : List (K × V)} {k : K} (h : FinMap.lookup eq l k = none) :
    FinMap.erase eq l k = l := by
  unfold FinMap.erase
  rw [List.filter_eq_self]
  intro p hp
  unfold FinMap.lookup at h
  rw [Option.map_eq_none_iff, List.find?_eq_none] at h
  simpa using h p hp

theorem delete_eff {c : Cfg K} (hc : c.Ok) {m : Mem K V} {t : Table} (hw : WF c m t) (key : K) :
    (delete c m t key).1 = (FinMap.lookup c.eq (abs m t) key).isSome ∧
    Eff c m t m (delete c m t key).2 (FinMap.erase c.eq (abs m t) key) := by
  cases hf : findKey c m t key with
  | some a =>
    have hf' := hf
    unfold findKey at hf'
    have : delete c m t key = ((m.ent a).value.isSome,
        deleteEntry t a (hash2index t.numBuckets t.numBucketsLog2 (c.hash key))) := by
      unfold delete access; dsimp only; rw [hf']
    rw [this]
    obtain ⟨v, hv, hl⟩ := lookup_of_find hc hw hf
    refine ⟨by rw [hv, hl], eff_delete hc hw hf⟩
  | none =>
    have hf' := hf
    unfold findKey at hf'
    have : delete c m t key = (false, t) := by
      unfold delete access; dsimp only; rw [hf']
    rw [this]
    have hl := lookup_of_find_none hc hw hf
    refine ⟨by rw [hl]; rfl, ?_⟩
    dsimp only
    rw [erase_absent hl]
    exact Eff.id hw

theorem tset_eff {c : Cfg K} (hc : c.Ok) {m : Mem K V} {t : Table} (hw : WF c m t) (key : K) (v : V)
    (noOverwrite noCreate : Bool) (hn : t.numEntries < intMax) :
    (tset c m t key v noOverwrite noCreate).1 = .ok () ∧
    Eff c m t (tset c m t key v noOverwrite noCreate).2.1 (tset c m t key v noOverwrite noCreate).2.2
      (match FinMap.lookup c.eq (abs m t) key with
       | some _ => if noOverwrite then abs m t else FinMap.insert c.eq (abs m t) key v
       | none => if noCreate then abs m t else FinMap.insert c.eq (abs m t) key v) := by
  cases hf : findKey c m t key with
  | some a =>
    obtain ⟨w, hv, hl⟩ := lookup_of_find hc hw hf
    have hacc : access c m t key (if noCreate then .get else .create) = (.entry a, m, t) := by
      cases noCreate
      · exact access_create_some hf
      · exact access_get_some hf
    unfold tset
    rw [hacc]
    dsimp only
    rw [hl, hv]
    cases noOverwrite
    · simpa using eff_set hc hw hf v
    · simpa using Eff.id hw
  | none =>
    have hl := lookup_of_find_none hc hw hf
    rw [hl]
    cases noCreate
    · obtain ⟨m', t', a, h1, h2, h3⟩ := eff_create hc hw hf hn
      unfold tset
      rw [if_neg (by simp), h1]
      dsimp only
      rw [h2]
      simpa using h3 v
    · unfold tset
      rw [if_pos rfl, access_get_none hf]
      simpa using Eff.id hw

theorem updateStart_eff {c : Cfg K} (hc : c.Ok) {m : Mem K V} {t : Table} (hw : WF c m t) (key : K)
    (fallback : Option V) (hn : t.numEntries < intMax) :
    match (FinMap.lookup c.eq (abs m t) key).or fallback with
    | none => updateStart c m t key fallback = (.error .noEntry, m, t)
    | some v => ∃ a m' t', updateStart c m t key fallback = (.ok (a, v), m', t') ∧
        findKey c m' t' key = some a ∧
        Eff c m t m' t' (match FinMap.lookup c.eq (abs m t) key with
          | some _ => abs m t
          | none => FinMap.insert c.eq (abs m t) key v) ∧
        ∀ r, Eff c m t (updateFinish m' a r) t' (FinMap.insert c.eq (abs m t) key r) := by
  cases hf : findKey c m t key with
  | some a =>
    obtain ⟨w, hv, hl⟩ := lookup_of_find hc hw hf
    rw [hl]
    dsimp only [Option.or]
    refine ⟨a, m, t, ?_, hf, Eff.id hw, fun r => eff_set hc hw hf r⟩
    unfold updateStart
    cases fallback with
    | none => dsimp only; rw [access_get_some hf]; dsimp only; rw [hv]
    | some fb => dsimp only; rw [access_create_some hf]; dsimp only; rw [hv]
  | none =>
    have hl := lookup_of_find_none hc hw hf
    rw [hl]
    dsimp only [Option.or]
    cases fallback with
    | none =>
      dsimp only
      unfold updateStart
      dsimp only; rw [access_get_none hf]
    | some fb =>
      dsimp only
      obtain ⟨m', t', a, h1, h2, h3⟩ := eff_create hc hw hf hn
      have hstart : updateStart c m t key (some fb) = (.ok (a, fb), m'.setValue a fb, t') := by
        unfold updateStart; dsimp only; rw [h1]; dsimp only; rw [h2]
      -- the new entry is found again
      have hsome : FinMap.lookup c.eq (abs (m'.setValue a fb) t') key = some fb := by
        have := (h3 fb)
        rw [FinMap.lookup_perm hc.equiv this.perm (distinct_abs this.wf), FinMap.lookup_insert hc.equiv,
          if_pos (hc.equiv.refl _)]
      refine ⟨a, _, t', hstart, ?_, h3 fb, ?_⟩
      · -- uniqueness of the entry with this key
        obtain ⟨t2, g1, g2, g3, g4⟩ := access_create_none hc hw hf hn
        rw [h1] at g1
        injection g1 with g1 g5
        injection g5 with g5 g6
        injection g1 with g1
        subst g1 g5 g6
        cases hf2 : findKey c ((m.alloc { key := key, value := none, hashval := c.hash key }).2.setValue m.fresh fb)
            t' key with
        | none => rw [lookup_of_find_none hc (h3 fb).wf hf2] at hsome; cases hsome
        | some b =>
          obtain ⟨q1, q2, _⟩ := findKey_some hf2
          congr 1
          apply keys_unique hc (h3 fb).wf q1 (g3.mem_iff.2 (by simp))
          rw [← hc.equiv.congr_left q2, setValue_key, alloc_ent_new]
          exact hc.equiv.refl _
      · intro r
        have : (m'.setValue a fb).setValue a r = m'.setValue a r := by
          unfold Mem.setValue
          dsimp only
          congr 1
          funext i
          by_cases hi : i = a
          · simp [hi]
          · simp [hi]
        unfold updateFinish
        rw [this]
        exact h3 r

theorem push_eff (p : Pairs V) {c : Cfg K} (hc : c.Ok) {m : Mem K V} {t : Table} (hw : WF c m t) (key : K) (v : V)
    (hn : t.numEntries < intMax) :
    (push p c m t key v).1 = .ok () ∧ Eff c m t (push p c m t key v).2.1 (push p c m t key v).2.2
      (FinMap.insert c.eq (abs m t) key (p.cons v ((FinMap.lookup c.eq (abs m t) key).getD p.nil))) := by
  cases hf : findKey c m t key with
  | some a =>
    obtain ⟨w, hv, hl⟩ := lookup_of_find hc hw hf
    unfold push
    rw [access_create_some hf]
    dsimp only
    rw [hv, hl]
    exact ⟨rfl, eff_set hc hw hf _⟩
  | none =>
    have hl := lookup_of_find_none hc hw hf
    obtain ⟨m', t', a, h1, h2, h3⟩ := eff_create hc hw hf hn
    unfold push
    rw [h1]
    dsimp only
    rw [h2, hl]
    exact ⟨rfl, h3 _⟩

theorem pop_eff (p : Pairs V) {c : Cfg K} (hc : c.Ok) {m : Mem K V} {t : Table} (hw : WF c m t) (key : K)
    (fallback : Option V) :
    match FinMap.lookup c.eq (abs m t) key with
    | none => pop p c m t key fallback = (match fallback with
        | some fb => .ok fb
        | none => .error .noEntry, m)
    | some w => match p.uncons w with
      | none => pop p c m t key fallback = (match fallback with
        | some fb => .ok fb
        | none => .error .notPair, m)
      | some (x, rest) => (pop p c m t key fallback).1 = .ok x ∧
          Eff c m t (pop p c m t key fallback).2 t (FinMap.insert c.eq (abs m t) key rest) := by
  cases hf : findKey c m t key with
  | some a =>
    obtain ⟨w, hv, hl⟩ := lookup_of_find hc hw hf
    unfold pop
    rw [access_get_some hf, hl]
    dsimp only
    rw [hv]
    dsimp only [Option.bind]
    cases hu : p.uncons w with
    | none => dsimp only; cases fallback <;> rfl
    | some xr =>
      obtain ⟨x, rest⟩ := xr
      exact ⟨rfl, eff_set hc hw hf _⟩
  | none =>
    have hl := lookup_of_find_none hc hw hf
    unfold pop
    rw [access_get_none hf, hl]
    dsimp only
    cases fallback <;> rfl

theorem clear_eff {c : Cfg K} {m : Mem K V} {t : Table} (hw : WF c m t) : Eff c m t m (clear t) [] := by
  have hl : ∀ l : List (List Nat), (l.map (fun _ => ([] : List Nat))).flatten = [] := by
    intro l; simp
  have hlive : live (clear t) = [] := by unfold live clear; exact hl _
  have hall : all (clear t) = all t := by
    rw [all_eq, hlive, all_eq]
    unfold clear live
    simp
  refine ⟨?_, ?_, le_refl _, fun _ _ _ => rfl, fun a ha => .inl (hall ▸ ha)⟩
  · constructor
    · exact hw.size
    · exact hw.bits
    · unfold clear; dsimp only; rw [List.length_map]; exact hw.len
    · rw [hall]; exact hw.nodup
    · rw [hall]; exact hw.fresh
    · unfold clear; dsimp only
      intro i l h a ha
      rw [List.getElem?_map, Option.map_eq_some_iff] at h
      obtain ⟨_, _, rfl⟩ := h
      simp at ha
    · rw [hlive]; simp
    · rw [hlive]; simp
    · rw [hlive]; simp
    · rw [hlive]; rfl
  · unfold abs; rw [hlive]; exact List.Perm.refl _

/-! ### New tables -/

theorem round2upLoop_pow (val : Nat) : ∀ f k, k + f ≤ 64 → val ≤ 2 ^ (k + f) →
    ∃ j, round2upLoop val f (2 ^ k) = 2 ^ j ∧ k ≤ j ∧ val ≤ 2 ^ j ∧ (j = k ∨ 2 ^ (j - 1) < val) := by
  intro f
  induction f with
  | zero => intro k _ h; exact ⟨k, rfl, le_refl _, h, .inl rfl⟩
  | succ f ih =>
    intro k hk h
    unfold round2upLoop
    by_cases hlt : 2 ^ k < val
    · rw [if_pos hlt]
      obtain ⟨j, h1, h2, h3, h4⟩ := ih (k + 1) (by omega) (by rw [show k + 1 + f = k + (f + 1) by omega]; exact h)
      refine ⟨j, by rw [← h1, Nat.pow_succ], by omega, h3, ?_⟩
      right
      rcases h4 with h4 | h4
      · rw [h4]; simpa using hlt
      · exact h4
    · rw [if_neg hlt]
      exact ⟨k, rfl, le_refl _, by omega, .inl rfl⟩

theorem log2Loop_pow : ∀ f k l, k ≤ f → log2Loop f (2 ^ k) l = l + k := by
  intro f
  induction f with
  | zero => intro k l h; have : k = 0 := by omega
            subst this; rfl
  | succ f ih =>
    intro k l h
    unfold log2Loop
    cases k with
    | zero => rw [if_neg (by simp)]; rfl
    | succ k =>
      rw [if_pos (by rw [Nat.pow_succ]; have : 0 < 2 ^ k := by positivity
                     omega), Nat.pow_succ, Nat.mul_div_cancel _ (by norm_num), ih k _ (by omega)]
      omega

theorem make_size (n : Nat) (h : n ≤ 2 ^ 30) : ∃ k, (make n).numBuckets = 2 ^ k ∧ (make n).numBucketsLog2 = k ∧
    k ≤ 30 ∧ n ≤ 2 ^ k ∧ (make n).buckets = List.replicate (2 ^ k) [] := by
  unfold make
  by_cases h0 : n ≠ 0
  · rw [if_pos h0]
    dsimp only
    unfold round2up
    obtain ⟨j, h1, _, h3, h4⟩ := round2upLoop_pow n 32 0 (by omega) (le_trans h (by norm_num))
    rw [Nat.pow_zero] at h1
    have hj : j ≤ 30 := by
      by_contra hj
      rcases h4 with h4 | h4
      · omega
      · have : 2 ^ 30 ≤ 2 ^ (j - 1) := Nat.pow_le_pow_right (by norm_num) (by omega)
        omega
    refine ⟨j, h1, ?_, hj, h3, by rw [h1]⟩
    rw [h1, log2Loop_pow _ _ _ (by omega), Nat.zero_add]
  · have : n = 0 := by omega
    subst this
    exact ⟨2, by decide, by decide, by omega, by omega, by decide⟩

theorem make_wf {c : Cfg K} (m : Mem K V) (n : Nat) (h : n ≤ 2 ^ 30) :
    WF c m (make n) ∧ live (make n) = [] ∧ all (make n) = [] := by
  obtain ⟨k, h1, h2, h3, _, h5⟩ := make_size n h
  have hl : live (make n) = [] := by unfold live; rw [h5]; simp
  have ha : all (make n) = [] := by rw [all_eq, hl]; unfold make; simp
  refine ⟨?_, hl, ha⟩
  constructor
  · rw [h1, h2]
  · rw [h2]; exact h3
  · rw [h5, h1, List.length_replicate]
  · rw [ha]; simp
  · rw [ha]; simp
  · intro i l h a hal
    rw [h5, List.getElem?_replicate] at h
    split at h
    · injection h with h; subst h; simp at hal
    · cases h
  · rw [hl]; simp
  · rw [hl]; simp
  · rw [hl]; simp
  · rw [hl]; rfl

/-! ### Frame -/

/-- Two tables share no entry. -/
def Disj (t1 t2 : Table) : Prop := ∀ a ∈ all t1, a ∉ all t2

theorem frame {c : Cfg K} {m m' : Mem K V} {t2 : Table} (hw : WF c m t2) (hf : m.fresh ≤ m'.fresh)
    (hold : ∀ a ∈ all t2, m'.ent a = m.ent a) : WF c m' t2 ∧ abs m' t2 = abs m t2 := by
  have hl : ∀ a ∈ live t2, m'.ent a = m.ent a := fun a ha => hold a (live_sub_all ha)
  refine ⟨?_, filterMap_pairOf_congr hl⟩
  constructor
  · exact hw.size
  · exact hw.bits
  · exact hw.len
  · exact hw.nodup
  · intro a ha; exact lt_of_lt_of_le (hw.fresh a ha) hf
  · intro i l h a ha
    rw [hl a (List.mem_flatten.2 ⟨l, List.mem_iff_getElem?.2 ⟨i, h⟩, ha⟩)]
    exact hw.place i l h a ha
  · intro a ha; rw [hl a ha]; exact hw.hashv a ha
  · intro a ha; rw [hl a ha]; exact hw.value a ha
  · refine List.Pairwise.imp_of_mem ?_ hw.keys
    intro x y hx hy h; rw [hl x hx, hl y hy]; exact h
  · exact hw.count

theorem frame_ext {c : Cfg K} {m m' : Mem K V} {t t' t2 : Table} (hx : Ext m t m' t') (hw : WF c m t2)
    (hd : Disj t t2) : WF c m' t2 ∧ abs m' t2 = abs m t2 ∧ Disj t' t2 := by
  obtain ⟨h1, h2⟩ := frame hw hx.fresh (fun a ha => hx.old a (hw.fresh a ha) (fun h => hd a h ha))
  refine ⟨h1, h2, ?_⟩
  intro a ha h3
  rcases hx.new a ha with h | h
  · exact hd a h h3
  · have := hw.fresh a h3; omega

/-! ### Copying -/

/-- A copied chain: fresh addresses in increasing order with the same contents. -/
theorem copyChain_spec (m : Mem K V) (l : List Nat) : (∀ a ∈ l, a < m.fresh) →
    (copyChain m l).1.length = l.length ∧
    (copyChain m l).2.fresh = m.fresh + l.length ∧
    (copyChain m l).1 = List.range' m.fresh l.length ∧
    (∀ a < m.fresh, (copyChain m l).2.ent a = m.ent a) ∧
    (∀ i (h : i < l.length), (copyChain m l).2.ent (m.fresh + i) = m.ent l[i]) := by
  induction l generalizing m with
  | nil => intro _; simp [copyChain]
  | cons s ss ih =>
    intro h
    unfold copyChain
    have hfr : (m.alloc { key := (m.ent s).key, value := (m.ent s).value, hashval := (m.ent s).hashval }).2.fresh
        = m.fresh + 1 := rfl
    have hs : ({ key := (m.ent s).key, value := (m.ent s).value, hashval := (m.ent s).hashval } : Ent K V)
        = m.ent s := rfl
    rw [hs] at *
    have hval : m.alloc (m.ent s) = (m.fresh, (m.alloc (m.ent s)).2) := rfl
    rw [hval]
    dsimp only
    have ih' := ih (m.alloc (m.ent s)).2 (by
      intro a ha; rw [hfr]; have := h a (by simp [ha]); omega)
    rw [hfr] at ih'
    obtain ⟨i1, i2, i3, i4, i5⟩ := ih'
    refine ⟨by simp [i1], by simp [i2]; omega, ?_, ?_, ?_⟩
    · rw [i3, List.length_cons, List.range'_succ]
    · intro a ha; rw [i4 a (by omega), alloc_ent_old _ _ ha]
    · intro i hi
      cases i with
      | zero => simp only [Nat.add_zero, List.getElem_cons_zero]
                rw [i4 _ (by omega), alloc_ent_new]
      | succ i =>
        have hi' : i < ss.length := by simpa using hi
        have := i5 i hi'
        rw [show m.fresh + (i + 1) = m.fresh + 1 + i by omega, this]
        rw [alloc_ent_old _ _ (h _ (by simp))]
        simp

theorem copyBuckets_spec (m : Mem K V) (bs : List (List Nat)) : (∀ a ∈ bs.flatten, a < m.fresh) →
    (copyBuckets m bs).1.length = bs.length ∧
    (copyBuckets m bs).2.fresh = m.fresh + bs.flatten.length ∧
    (copyBuckets m bs).1.flatten = List.range' m.fresh bs.flatten.length ∧
    (∀ a < m.fresh, (copyBuckets m bs).2.ent a = m.ent a) ∧
    (∀ i (h : i < bs.flatten.length), (copyBuckets m bs).2.ent (m.fresh + i) = m.ent (bs.flatten[i])) ∧
    (∀ (i : Nat) (l : List Nat), (copyBuckets m bs).1[i]? = some l → ∃ l', bs[i]? = some l' ∧
      ∀ a ∈ l, ∃ b ∈ l', (copyBuckets m bs).2.ent a = m.ent b) := by
  induction bs generalizing m with
  | nil => intro _; simp [copyBuckets]
  | cons b bs ih =>
    intro h
    have hb : ∀ a ∈ b, a < m.fresh := fun a ha => h a (by simp [ha])
    obtain ⟨c1, c2, c3, c4, c5⟩ := copyChain_spec m b hb
    have hbs : ∀ a ∈ bs.flatten, a < (copyChain m b).2.fresh := by
      intro a ha; rw [c2]; have := h a (by rw [List.flatten_cons]; exact List.mem_append_right _ ha); omega
    obtain ⟨i1, i2, i3, i4, i5, i6⟩ := ih (copyChain m b).2 hbs
    rw [c2] at i2 i3 i4 i5
    have hold : ∀ a < m.fresh, (copyBuckets (copyChain m b).2 bs).2.ent a = m.ent a := by
      intro a ha; rw [i4 a (by omega), c4 a ha]
    have hchain : ∀ i (h : i < b.length),
        (copyBuckets (copyChain m b).2 bs).2.ent (m.fresh + i) = m.ent b[i] := by
      intro i hi; rw [i4 _ (by omega), c5 i hi]
    unfold copyBuckets
    dsimp only
    refine ⟨by simp [i1], ?_, ?_, hold, ?_, ?_⟩
    · rw [i2, List.flatten_cons, List.length_append]; omega
    · rw [List.flatten_cons, i3, c3, List.flatten_cons, List.length_append, List.range'_append_1]
    · intro i hi
      by_cases hlt : i < b.length
      · rw [hchain i hlt]
        congr 1
        simp only [List.flatten_cons]
        rw [List.getElem_append_left]
      · have hi2 : i - b.length < bs.flatten.length := by
          rw [List.flatten_cons, List.length_append] at hi; omega
        have := i5 (i - b.length) hi2
        rw [show m.fresh + b.length + (i - b.length) = m.fresh + i by omega] at this
        rw [this, c4 _ (h _ (by rw [List.flatten_cons]; exact List.mem_append_right _ (List.getElem_mem _)))]
        congr 1
        simp only [List.flatten_cons]
        rw [List.getElem_append_right (by omega)]
    · intro i l hl
      cases i with
      | zero =>
        simp only [List.getElem?_cons_zero, Option.some.injEq] at hl
        subst hl
        refine ⟨b, by simp, ?_⟩
        intro a ha
        rw [c3, List.mem_range'_1] at ha
        refine ⟨b[a - m.fresh]'(by omega), List.getElem_mem _, ?_⟩
        rw [← hchain _ (by omega)]
        congr 1; omega
      | succ i =>
        simp only [List.getElem?_cons_succ] at hl
        obtain ⟨l', h1, h2⟩ := i6 i l hl
        refine ⟨l', by simpa using h1, ?_⟩
        intro a ha
        obtain ⟨q, hq, he⟩ := h2 a ha
        refine ⟨q, hq, ?_⟩
        rw [he, c4 q (h q ?_)]
        rw [List.flatten_cons]
        apply List.mem_append_right
        exact List.mem_flatten.2 ⟨l', List.mem_iff_getElem?.2 ⟨i, h1⟩, hq⟩

theorem copy_spec {c : Cfg K} {m : Mem K V} {t : Table} (hw : WF c m t) :
    WF c (copy m t).2 (copy m t).1 ∧ abs (copy m t).2 (copy m t).1 = abs m t ∧
    m.fresh ≤ (copy m t).2.fresh ∧ (∀ a < m.fresh, (copy m t).2.ent a = m.ent a) ∧
    (∀ a ∈ all (copy m t).1, m.fresh ≤ a) := by
  obtain ⟨b1, b2, b3, b4, b5, b6⟩ := copyBuckets_spec m t.buckets (fun a ha => hw.fresh a (live_sub_all ha))
  have e1 : (copy m t).2 = (copyBuckets m t.buckets).2 := rfl
  have e2 : (copy m t).1 = { buckets := (copyBuckets m t.buckets).1, loose := [], numBuckets := t.numBuckets, numBucketsLog2 := t.numBucketsLog2, numEntries := t.numEntries } := rfl
  have hlive : live (copy m t).1 = List.range' m.fresh (live t).length := by
    rw [e2]; exact b3
  have hall : all (copy m t).1 = live (copy m t).1 := by
    rw [all_eq, e2]; simp
  have hent : ∀ i (h : i < (live t).length), (copy m t).2.ent (m.fresh + i) = m.ent ((live t)[i]) := b5
  have hmem : ∀ a ∈ live (copy m t).1, ∃ b ∈ live t, (copy m t).2.ent a = m.ent b := by
    intro a ha
    rw [hlive, List.mem_range'_1] at ha
    refine ⟨(live t)[a - m.fresh]'(by omega), List.getElem_mem _, ?_⟩
    rw [← hent _ (by omega)]
    congr 1; omega
  have hmap : ∀ {β : Type} (f : Ent K V → β), (live (copy m t).1).map (fun a => f ((copy m t).2.ent a))
      = (live t).map (fun a => f (m.ent a)) := by
    intro β f
    apply List.ext_getElem
    · rw [List.length_map, List.length_map, hlive, List.length_range']
    · intro i h1 h2
      simp only [List.getElem_map]
      have hi : i < (live t).length := by simpa using h2
      rw [← hent i hi]
      congr 2
      simp only [hlive, List.getElem_range']
      omega
  refine ⟨?_, ?_, ?_, ?_, ?_⟩
  · constructor
    · rw [e2]; exact hw.size
    · rw [e2]; exact hw.bits
    · rw [e2]; dsimp only; rw [b1]; exact hw.len
    · rw [hall, hlive]; exact List.nodup_range'
    · intro a ha
      rw [hall, hlive, List.mem_range'_1] at ha
      rw [e1, b2]
      have : (live t).length = t.buckets.flatten.length := rfl
      omega
    · intro i l hl a ha
      rw [e2] at hl ⊢
      dsimp only at hl ⊢
      obtain ⟨l', h1, h2⟩ := b6 i l hl
      obtain ⟨b, hb, he⟩ := h2 a ha
      rw [e1, he]
      exact hw.place i l' h1 b hb
    · intro a ha
      obtain ⟨b, hb, he⟩ := hmem a ha
      rw [he]; exact hw.hashv b hb
    · intro a ha
      obtain ⟨b, hb, he⟩ := hmem a ha
      rw [he]; exact hw.value b hb
    · have h1 := hmap (fun e => e.key)
      have h2 : ((live t).map (fun a => (m.ent a).key)).Pairwise (fun a b => c.eq a b = false) := by
        rw [List.pairwise_map]; exact hw.keys
      rw [← h1, List.pairwise_map] at h2
      exact h2
    · have h3 : (copy m t).1.numEntries = t.numEntries := rfl
      rw [h3, hw.count, hlive, List.length_range']
  · have h1 := hmap (fun e => e.value.map (fun v => (e.key, v)))
    unfold abs
    have : ∀ (m : Mem K V) (l : List Nat), l.filterMap (pairOf m)
        = (l.map (fun a => (m.ent a).value.map (fun v => ((m.ent a).key, v)))).filterMap id := by
      intro m l; rw [List.filterMap_map]; rfl
    rw [this, this, h1]
  · rw [e1, b2]; omega
  · intro a ha; rw [e1]; exact b4 a ha
  · intro a ha
    rw [hall, hlive, List.mem_range'_1] at ha
    exact ha.1

end Gauche.HashTable
