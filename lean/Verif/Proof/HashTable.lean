import Verif.Model.HashTable
import Verif.Spec.FinMap
import Mathlib.Data.List.Basic
import Mathlib.Data.List.Perm.Basic
import Mathlib.Data.List.Nodup
import Mathlib.Tactic.Linarith
/-! Invariant of the hash table model and the effect of each operation on the finite map it holds. -/
namespace Gauche.HashTable

variable {K V σ : Type}

/-- The entries reachable from the buckets. -/
def live (t : Table) : List Nat := t.buckets.flatten
/-- All entries the table has ever linked. -/
def all (t : Table) : List Nat := (t.buckets ++ t.loose).flatten

/-- What a comparator must satisfy. -/
structure Cfg.Ok (c : Cfg K) : Prop where
  equiv : FinMap.Equiv c.eq
  hash : ∀ a b, c.eq a b = true → c.hash a = c.hash b

/-- Invariant of a table. -/
structure WF (c : Cfg K) (m : Mem K V) (t : Table) : Prop where
  size : t.numBuckets = 2 ^ t.numBucketsLog2
  bits : t.numBucketsLog2 ≤ 30
  len : t.buckets.length = t.numBuckets
  nodup : (all t).Nodup
  fresh : ∀ a ∈ all t, a < m.fresh
  place : ∀ (i : Nat) (l : List Nat), t.buckets[i]? = some l → ∀ a ∈ l,
    hash2index t.numBuckets t.numBucketsLog2 (m.ent a).hashval = i
  hashv : ∀ a ∈ live t, (m.ent a).hashval = c.hash (m.ent a).key
  value : ∀ a ∈ live t, (m.ent a).value.isSome
  keys : (live t).Pairwise (fun a b => c.eq (m.ent a).key (m.ent b).key = false)
  count : t.numEntries = (live t).length

/-- The pair held by an entry. -/
def pairOf (m : Mem K V) (a : Nat) : Option (K × V) := (m.ent a).value.map (fun v => ((m.ent a).key, v))

/-- The finite map held by a table. -/
def abs (m : Mem K V) (t : Table) : List (K × V) := (live t).filterMap (pairOf m)

theorem live_sub_all {t : Table} {a : Nat} (h : a ∈ live t) : a ∈ all t := by
  unfold live at h; unfold all
  rw [List.flatten_append]
  exact List.mem_append_left _ h

theorem all_eq (t : Table) : all t = live t ++ t.loose.flatten := by
  unfold all live; rw [List.flatten_append]

theorem WF.liveNodup {c : Cfg K} {m : Mem K V} {t : Table} (h : WF c m t) : (live t).Nodup := by
  have := h.nodup
  rw [all_eq] at this
  exact (List.nodup_append.1 this).1

/-! ### Bucket index -/

theorem hash2index_eq (k bits h : Nat) (hk : k ≤ 64) :
    hash2index (2 ^ k) bits h = (h + (h >>> (32 - bits))) % 2 ^ k := by
  unfold hash2index
  rw [Nat.and_two_pow_sub_one_eq_mod, Nat.mod_mod_of_dvd]
  exact Nat.pow_dvd_pow 2 hk

theorem hash2index_lt (k bits h : Nat) (hk : k ≤ 64) : hash2index (2 ^ k) bits h < 2 ^ k := by
  rw [hash2index_eq _ _ _ hk]
  exact Nat.mod_lt _ (Nat.pos_of_ne_zero (by positivity))

/-! ### Replacing one chain -/

theorem flatten_set_perm : ∀ (bs : List (List Nat)) (i : Nat) (l : List Nat), i < bs.length →
    ((bs.set i l).flatten).Perm (l ++ (bs.eraseIdx i).flatten) := by
  intro bs
  induction bs with
  | nil => intro i l h; simp at h
  | cons b bs ih =>
    intro i l h
    cases i with
    | zero => simp
    | succ i =>
      rw [List.set_cons_succ, List.eraseIdx_cons_succ, List.flatten_cons, List.flatten_cons]
      have := ih i l (by simpa using h)
      refine (this.append_left b).trans ?_
      rw [← List.append_assoc, ← List.append_assoc]
      exact List.perm_append_comm.append_right _

theorem flatten_split_perm (bs : List (List Nat)) (i : Nat) (h : i < bs.length) :
    (bs.flatten).Perm (bs.getD i [] ++ (bs.eraseIdx i).flatten) := by
  have := flatten_set_perm bs i (bs.getD i []) h
  have hg : bs.getD i [] = bs[i] := by rw [List.getD_eq_getElem?_getD, List.getElem?_eq_getElem h]; rfl
  rw [hg] at this ⊢
  rwa [List.set_getElem_self] at this

/-- Adding an entry to a chain. -/
theorem flatten_push_perm (bs : List (List Nat)) (i a : Nat) (h : i < bs.length) :
    ((bs.set i (a :: bs.getD i [])).flatten).Perm (a :: bs.flatten) := by
  refine (flatten_set_perm bs i _ h).trans ?_
  rw [List.cons_append]
  exact ((flatten_split_perm bs i h).symm).cons a

theorem getElem?_set_push (bs : List (List Nat)) (i j : Nat) (l l' : List Nat)
    (h : (bs.set i l)[j]? = some l') : (i = j ∧ l' = l) ∨ (i ≠ j ∧ bs[j]? = some l') := by
  by_cases hij : i = j
  · subst hij
    left
    rw [List.getElem?_set_self'] at h
    cases hb : bs[i]? with
    | none => rw [hb] at h; simp at h
    | some x => rw [hb] at h; simp at h; exact ⟨rfl, h.symm⟩
  · right
    rw [List.getElem?_set_ne hij] at h
    exact ⟨hij, h⟩

/-! ### Finding -/

theorem mem_live_bucket {c : Cfg K} {m : Mem K V} {t : Table} (h : WF c m t) {a : Nat} (ha : a ∈ live t) :
    a ∈ t.buckets.getD (hash2index t.numBuckets t.numBucketsLog2 (m.ent a).hashval) [] := by
  unfold live at ha
  obtain ⟨l, hl, hal⟩ := List.mem_flatten.1 ha
  obtain ⟨i, hi⟩ := List.mem_iff_getElem?.1 hl
  have := h.place i l hi a hal
  rw [this, List.getD_eq_getElem?_getD, hi]
  exact hal

theorem bucket_sub_live {t : Table} {i a : Nat} (h : a ∈ t.buckets.getD i []) : a ∈ live t := by
  rw [List.getD_eq_getElem?_getD] at h
  unfold live
  cases hb : t.buckets[i]? with
  | none => rw [hb] at h; simp at h
  | some l =>
    rw [hb] at h
    exact List.mem_flatten.2 ⟨l, List.mem_iff_getElem?.2 ⟨i, hb⟩, h⟩

/-- The entry the chain search finds. -/
def findKey (c : Cfg K) (m : Mem K V) (t : Table) (key : K) : Option Nat :=
  (t.buckets.getD (hash2index t.numBuckets t.numBucketsLog2 (c.hash key)) []).find?
    (fun a => c.eq key (m.ent a).key)

theorem findKey_some {c : Cfg K} {m : Mem K V} {t : Table} {key : K} {a : Nat}
    (h : findKey c m t key = some a) : a ∈ live t ∧ c.eq key (m.ent a).key = true ∧
      a ∈ t.buckets.getD (hash2index t.numBuckets t.numBucketsLog2 (c.hash key)) [] := by
  unfold findKey at h
  exact ⟨bucket_sub_live (List.mem_of_find?_eq_some h),
    List.find?_some (p := fun a => c.eq key (m.ent a).key) h, List.mem_of_find?_eq_some h⟩

theorem findKey_none {c : Cfg K} (hc : c.Ok) {m : Mem K V} {t : Table} (hw : WF c m t) {key : K}
    (h : findKey c m t key = none) : ∀ a ∈ live t, c.eq key (m.ent a).key = false := by
  intro a ha
  unfold findKey at h
  by_contra hne
  have he : c.eq key (m.ent a).key = true := by simpa using hne
  have hb := mem_live_bucket hw ha
  rw [hw.hashv a ha, ← hc.hash _ _ he] at hb
  have := List.find?_eq_none.1 h a hb
  exact this he

theorem keys_unique {c : Cfg K} (hc : c.Ok) {m : Mem K V} {t : Table} (hw : WF c m t) {a b : Nat}
    (ha : a ∈ live t) (hb : b ∈ live t) (h : c.eq (m.ent a).key (m.ent b).key = true) : a = b := by
  by_contra hne
  have hs : ∀ (l : List Nat), l.Pairwise (fun a b => c.eq (m.ent a).key (m.ent b).key = false) → a ∈ l → b ∈ l →
      c.eq (m.ent a).key (m.ent b).key = false := by
    intro l
    induction l with
    | nil => intro _ h; simp at h
    | cons x l ih =>
      intro hp ha hb
      have hp' := List.pairwise_cons.1 hp
      rcases List.mem_cons.1 ha with rfl | ha
      · rcases List.mem_cons.1 hb with rfl | hb
        · exact absurd rfl hne
        · exact hp'.1 b hb
      · rcases List.mem_cons.1 hb with h1 | hb
        · rw [hc.equiv.symm_eq, h1]; exact hp'.1 a ha
        · exact ih hp'.2 ha hb
  have := hs _ hw.keys ha hb
  rw [h] at this; cases this

theorem distinct_abs {c : Cfg K} {m : Mem K V} {t : Table} (hw : WF c m t) :
    FinMap.DistinctKeys c.eq (abs m t) := by
  unfold abs FinMap.DistinctKeys
  rw [List.pairwise_filterMap]
  refine hw.keys.imp ?_
  intro a b hab p hp q hq
  unfold pairOf at hp hq
  simp only [Option.map_eq_some_iff] at hp hq
  obtain ⟨v, _, rfl⟩ := hp
  obtain ⟨w, _, rfl⟩ := hq
  exact hab

theorem mem_abs {c : Cfg K} {m : Mem K V} {t : Table} {p : K × V} :
    p ∈ abs m t ↔ ∃ a ∈ live t, (m.ent a).key = p.1 ∧ (m.ent a).value = some p.2 := by
  unfold abs pairOf
  simp only [List.mem_filterMap, Option.map_eq_some_iff]
  constructor
  · rintro ⟨a, ha, v, hv, rfl⟩; exact ⟨a, ha, rfl, hv⟩
  · rintro ⟨a, ha, hk, hv⟩; exact ⟨a, ha, p.2, hv, by rw [hk]⟩

theorem length_abs {c : Cfg K} {m : Mem K V} {t : Table} (hw : WF c m t) : (abs m t).length = t.numEntries := by
  rw [hw.count]
  unfold abs
  have : ∀ l : List Nat, (∀ a ∈ l, (m.ent a).value.isSome) → (l.filterMap (pairOf m)).length = l.length := by
    intro l
    induction l with
    | nil => intro _; rfl
    | cons a l ih =>
      intro h
      have ha := h a (by simp)
      obtain ⟨v, hv⟩ := Option.isSome_iff_exists.1 ha
      rw [List.filterMap_cons_some (b := ((m.ent a).key, v)) (by simp [pairOf, hv])]
      simp [ih (fun b hb => h b (by simp [hb]))]
  exact this _ hw.value

/-- Looking up a key in the table. -/
theorem ref_eq {c : Cfg K} (hc : c.Ok) {m : Mem K V} {t : Table} (hw : WF c m t) (key : K) :
    ref c m t key = FinMap.lookup c.eq (abs m t) key := by
  have hacc : access c m t key .get = (match findKey c m t key with
      | some a => (.entry a, m, t)
      | none => (.null, m, t)) := by
    unfold access findKey; dsimp only
    split <;> rename_i h <;> rw [h]
  unfold ref
  rw [hacc]
  cases hf : findKey c m t key with
  | some a =>
    obtain ⟨ha, he, _⟩ := findKey_some hf
    obtain ⟨v, hv⟩ := Option.isSome_iff_exists.1 (hw.value a ha)
    dsimp only
    rw [hv]
    symm
    rw [FinMap.lookup_eq_some hc.equiv (distinct_abs hw)]
    exact ⟨((m.ent a).key, v), (mem_abs (c := c)).2 ⟨a, ha, rfl, hv⟩, he, rfl⟩
  | none =>
    dsimp only
    symm
    rw [Option.eq_none_iff_forall_ne_some]
    intro v hv
    rw [FinMap.lookup_eq_some hc.equiv (distinct_abs hw)] at hv
    obtain ⟨p, hp, he, _⟩ := hv
    obtain ⟨a, ha, hk, _⟩ := (mem_abs (c := c)).1 hp
    have := findKey_none hc hw hf a ha
    rw [hk, he] at this; cases this

/-! ### Setting a value -/

theorem live_eq_of_buckets {t t' : Table} (h : t'.buckets = t.buckets) : live t' = live t := by
  unfold live; rw [h]

theorem setValue_key (m : Mem K V) (a b : Nat) (v : V) : ((m.setValue a v).ent b).key = (m.ent b).key := by
  unfold Mem.setValue; dsimp only
  by_cases h : b = a
  · subst h; rw [if_pos rfl]
  · rw [if_neg h]
theorem setValue_hashval (m : Mem K V) (a b : Nat) (v : V) :
    ((m.setValue a v).ent b).hashval = (m.ent b).hashval := by
  unfold Mem.setValue; dsimp only
  by_cases h : b = a
  · subst h; rw [if_pos rfl]
  · rw [if_neg h]
theorem setValue_value (m : Mem K V) (a b : Nat) (v : V) :
    ((m.setValue a v).ent b).value = if b = a then some v else (m.ent b).value := by
  unfold Mem.setValue; dsimp only
  by_cases h : b = a
  · subst h; rw [if_pos rfl, if_pos rfl]
  · rw [if_neg h, if_neg h]

theorem WF.setValue {c : Cfg K} {m : Mem K V} {t : Table} (hw : WF c m t) (a : Nat) (v : V) :
    WF c (m.setValue a v) t := by
  constructor
  · exact hw.size
  · exact hw.bits
  · exact hw.len
  · exact hw.nodup
  · exact hw.fresh
  · intro i l hl b hb; rw [setValue_hashval]; exact hw.place i l hl b hb
  · intro b hb; rw [setValue_hashval, setValue_key]; exact hw.hashv b hb
  · intro b hb; rw [setValue_value]; split
    · rfl
    · exact hw.value b hb
  · refine hw.keys.imp ?_; intro x y h; rw [setValue_key, setValue_key]; exact h
  · exact hw.count

/-- Setting the value of a live entry is the finite map's `insert` of its key. -/
theorem abs_setValue {c : Cfg K} (hc : c.Ok) {m : Mem K V} {t : Table} (hw : WF c m t) {a : Nat}
    (ha : a ∈ live t) {key : K} (he : c.eq key (m.ent a).key = true) (v : V) :
    abs (m.setValue a v) t = FinMap.insert c.eq (abs m t) key v := by
  unfold FinMap.insert
  have hany : (abs m t).any (fun p => c.eq key p.1) = true := by
    obtain ⟨w, hv⟩ := Option.isSome_iff_exists.1 (hw.value a ha)
    rw [List.any_eq_true]
    exact ⟨((m.ent a).key, w), (mem_abs (c := c)).2 ⟨a, ha, rfl, hv⟩, he⟩
  rw [if_pos hany]
  unfold abs
  rw [List.map_filterMap]
  apply List.filterMap_congr
  intro b hb
  unfold pairOf
  rw [setValue_key, setValue_value]
  obtain ⟨w, hv⟩ := Option.isSome_iff_exists.1 (hw.value b hb)
  by_cases hba : b = a
  · subst hba
    rw [if_pos rfl, hv]
    simp [he]
  · rw [if_neg hba, hv]
    have : ¬ c.eq key (m.ent b).key = true := by
      intro h2
      apply hba
      apply keys_unique hc hw hb ha
      rw [← hc.equiv.congr_left h2]; exact he
    simp [this]

/-! ### Extension -/

theorem relink_length (m : Mem K V) (n b : Nat) (newb : List (List Nat)) (f : Nat) :
    (relink m n b newb f).length = newb.length := by
  unfold relink; rw [List.length_set]

theorem foldl_relink_length (m : Mem K V) (n b : Nat) (l : List Nat) : ∀ newb : List (List Nat),
    (l.foldl (relink m n b) newb).length = newb.length := by
  induction l with
  | nil => intro _; rfl
  | cons x l ih => intro newb; rw [List.foldl_cons, ih, relink_length]

theorem foldl_relink_perm (m : Mem K V) (k b : Nat) (hk : k ≤ 64) (l : List Nat) : ∀ newb : List (List Nat),
    newb.length = 2 ^ k → ((l.foldl (relink m (2 ^ k) b) newb).flatten).Perm (l ++ newb.flatten) := by
  induction l with
  | nil => intro newb _; simp
  | cons x l ih =>
    intro newb hlen
    rw [List.foldl_cons]
    refine (ih _ (by rw [relink_length]; exact hlen)).trans ?_
    have : ((relink m (2 ^ k) b newb x).flatten).Perm (x :: newb.flatten) := by
      unfold relink
      exact flatten_push_perm _ _ _ (by rw [hlen]; exact hash2index_lt _ _ _ hk)
    refine (this.append_left l).trans ?_
    rw [List.cons_append]
    exact List.perm_middle

theorem foldl_relink_place (m : Mem K V) (n b : Nat) (l : List Nat) : ∀ newb : List (List Nat),
    (∀ (i : Nat) (c : List Nat), newb[i]? = some c → ∀ a ∈ c, hash2index n b (m.ent a).hashval = i) →
    ∀ (i : Nat) (c : List Nat), (l.foldl (relink m n b) newb)[i]? = some c → ∀ a ∈ c,
      hash2index n b (m.ent a).hashval = i := by
  induction l with
  | nil => intro newb h; exact h
  | cons x l ih =>
    intro newb h
    rw [List.foldl_cons]
    apply ih
    intro i c hc a ha
    unfold relink at hc
    rcases getElem?_set_push _ _ _ _ _ hc with ⟨h1, rfl⟩ | ⟨_, h2⟩
    · rcases List.mem_cons.1 ha with rfl | ha
      · exact h1
      · rw [List.getD_eq_getElem?_getD] at ha
        rw [h1] at ha
        cases hb : newb[i]? with
        | none => rw [hb] at ha; simp at ha
        | some y => rw [hb] at ha; exact h i y hb a ha
    · exact h i c h2 a ha

theorem live_extend_perm (m : Mem K V) (t : Table) (hs : t.numBuckets = 2 ^ t.numBucketsLog2)
    (hb : t.numBucketsLog2 ≤ 62) : (live (extend m t)).Perm (live t) := by
  unfold extend live
  dsimp only
  rw [hs, Nat.shiftLeft_eq, ← Nat.pow_add]
  refine (foldl_relink_perm m _ _ (by unfold extendBits; omega) _ _ (by simp)).trans ?_
  have : ∀ n : Nat, (List.replicate n ([] : List Nat)).flatten = [] := by
    intro n; simp
  rw [this, List.append_nil]

theorem WF_extend {c : Cfg K} {m : Mem K V} {t : Table} (hw : WF c m t) (hb : t.numBuckets ≤ maxNumBuckets)
    (hc : c.Ok) : WF c m (extend m t) := by
  have hlog : t.numBucketsLog2 ≤ 28 := by
    by_contra hlt
    have : 2 ^ 29 ≤ 2 ^ t.numBucketsLog2 := Nat.pow_le_pow_right (by norm_num) (by omega)
    rw [hw.size] at hb
    have h2 : maxNumBuckets < 2 ^ 29 := by decide
    omega
  have hp := live_extend_perm m t hw.size (by omega)
  have hpall : (all (extend m t)).Perm (all t) := by
    rw [all_eq, all_eq]; exact hp.append_right _
  have hsz : (extend m t).numBuckets = 2 ^ (extend m t).numBucketsLog2 := by
    unfold extend; dsimp only; rw [hw.size, Nat.shiftLeft_eq, ← Nat.pow_add]
  constructor
  · exact hsz
  · unfold extend extendBits; dsimp only; omega
  · unfold extend; dsimp only; rw [foldl_relink_length, List.length_replicate]
  · exact hpall.nodup_iff.2 hw.nodup
  · intro a ha; exact hw.fresh a (hpall.mem_iff.1 ha)
  · unfold extend; dsimp only
    apply foldl_relink_place
    intro i l hl a ha
    rw [List.getElem?_replicate] at hl
    split at hl
    · injection hl with hl; subst hl; simp at ha
    · cases hl
  · intro a ha; exact hw.hashv a (hp.mem_iff.1 ha)
  · intro a ha; exact hw.value a (hp.mem_iff.1 ha)
  · refine hw.keys.perm hp.symm ?_
    intro x y h; rw [hc.equiv.symm_eq]; exact h
  · have : (extend m t).numEntries = t.numEntries := rfl
    rw [this, hw.count, hp.length_eq]

/-! ### Insertion -/

theorem alloc_ent_old (m : Mem K V) (e : Ent K V) {a : Nat} (h : a < m.fresh) : (m.alloc e).2.ent a = m.ent a := by
  unfold Mem.alloc; dsimp only; rw [if_neg (by omega)]
theorem alloc_ent_new (m : Mem K V) (e : Ent K V) : (m.alloc e).2.ent m.fresh = e := by
  unfold Mem.alloc; dsimp only; rw [if_pos rfl]

theorem filterMap_pairOf_congr {m m' : Mem K V} {l : List Nat} (h : ∀ a ∈ l, m'.ent a = m.ent a) :
    l.filterMap (pairOf m') = l.filterMap (pairOf m) := by
  apply List.filterMap_congr
  intro a ha
  unfold pairOf; rw [h a ha]

/-- A table after linking a fresh entry whose value is then set. -/
theorem WF_link {c : Cfg K} (hc : c.Ok) {m : Mem K V} {t : Table} (hw : WF c m t) (key : K)
    (hnone : findKey c m t key = none) (v : V) (e : Ent K V) (he : e = { key := key, value := some v, hashval := c.hash key })
    (t1 : Table) (ht1 : t1 = { t with
      buckets := t.buckets.set (hash2index t.numBuckets t.numBucketsLog2 (c.hash key))
        (m.fresh :: t.buckets.getD (hash2index t.numBuckets t.numBucketsLog2 (c.hash key)) [])
      numEntries := t.numEntries + 1 }) :
    WF c (m.alloc e).2 t1 ∧ (live t1).Perm (m.fresh :: live t) := by
  have hidx : hash2index t.numBuckets t.numBucketsLog2 (c.hash key) < t.buckets.length := by
    rw [hw.len, hw.size]; exact hash2index_lt _ _ _ (by have := hw.bits; omega)
  have hlive : (live t1).Perm (m.fresh :: live t) := by
    subst ht1; unfold live; exact flatten_push_perm _ _ _ hidx
  have hall : (all t1).Perm (m.fresh :: all t) := by
    rw [all_eq, all_eq, ← List.cons_append]
    subst ht1
    exact hlive.append_right _
  have hold : ∀ a ∈ all t, (m.alloc e).2.ent a = m.ent a := fun a ha => alloc_ent_old m e (hw.fresh a ha)
  have hoidl : ∀ a ∈ live t, (m.alloc e).2.ent a = m.ent a := fun a ha => hold a (live_sub_all ha)
  have hnew : (m.alloc e).2.ent m.fresh = e := alloc_ent_new m e
  have hfr : m.fresh ∉ all t := fun h => absurd (hw.fresh _ h) (by omega)
  refine ⟨?_, hlive⟩
  constructor
  · subst ht1; exact hw.size
  · subst ht1; exact hw.bits
  · subst ht1; dsimp only; rw [List.length_set]; exact hw.len
  · rw [hall.nodup_iff, List.nodup_cons]; exact ⟨hfr, hw.nodup⟩
  · intro a ha
    have hf : (m.alloc e).2.fresh = m.fresh + 1 := rfl
    rw [hf]
    rcases List.mem_cons.1 (hall.mem_iff.1 ha) with rfl | h
    · omega
    · have := hw.fresh a h; omega
  · subst ht1; dsimp only
    intro i l hl a ha
    rcases getElem?_set_push _ _ _ _ _ hl with ⟨h1, rfl⟩ | ⟨_, h2⟩
    · rcases List.mem_cons.1 ha with rfl | ha
      · rw [hnew, he]; exact h1
      · rw [hoidl a (bucket_sub_live ha)]
        rw [List.getD_eq_getElem?_getD] at ha
        cases hb : t.buckets[hash2index t.numBuckets t.numBucketsLog2 (c.hash key)]? with
        | none => rw [hb] at ha; simp at ha
        | some y => rw [hb] at ha; rw [← h1]; exact hw.place _ y hb a ha
    · rw [hoidl a (List.mem_flatten.2 ⟨l, List.mem_iff_getElem?.2 ⟨i, h2⟩, ha⟩)]
      exact hw.place i l h2 a ha
  · intro a ha
    rcases List.mem_cons.1 (hlive.mem_iff.1 ha) with rfl | h
    · rw [hnew, he]
    · rw [hoidl a h]; exact hw.hashv a h
  · intro a ha
    rcases List.mem_cons.1 (hlive.mem_iff.1 ha) with rfl | h
    · rw [hnew, he]; rfl
    · rw [hoidl a h]; exact hw.value a h
  · refine List.Pairwise.perm (l := m.fresh :: live t) ?_ hlive.symm (by intro x y h; rw [hc.equiv.symm_eq]; exact h)
    refine List.pairwise_cons.2 ⟨?_, ?_⟩
    · intro b hb
      rw [hnew, hoidl b hb, he]
      exact findKey_none hc hw hnone b hb
    · refine List.Pairwise.imp_of_mem ?_ hw.keys
      intro x y hx hy h
      rw [hoidl x hx, hoidl y hy]; exact h
  · rw [hlive.length_eq, List.length_cons, ← hw.count]; subst ht1; rfl

theorem extend_congr {m m' : Mem K V} (h : ∀ a, (m.ent a).hashval = (m'.ent a).hashval) (t : Table) :
    extend m t = extend m' t := by
  have : ∀ n b, relink m n b = relink m' n b := by
    intro n b; funext newb f; unfold relink; rw [h]
  unfold extend; simp only [this]

theorem alloc_setValue (m : Mem K V) (key : K) (h : Nat) (v : V) :
    (m.alloc { key := key, value := none, hashval := h }).2.setValue m.fresh v
      = (m.alloc { key := key, value := some v, hashval := h }).2 := by
  unfold Mem.alloc Mem.setValue
  dsimp only
  congr 1
  funext i
  by_cases hi : i = m.fresh
  · simp [hi]
  · simp [hi]

/-- Effect of creating an entry for an absent key, once the value is set. -/
theorem access_create_none {c : Cfg K} (hc : c.Ok) {m : Mem K V} {t : Table} (hw : WF c m t) {key : K}
    (hnone : findKey c m t key = none) (hn : t.numEntries < intMax) :
    ∃ t', access c m t key .create
        = (.entry m.fresh, (m.alloc { key := key, value := none, hashval := c.hash key }).2, t') ∧
      (∀ v, WF c ((m.alloc { key := key, value := none, hashval := c.hash key }).2.setValue m.fresh v) t') ∧
      (live t').Perm (m.fresh :: live t) ∧ t'.loose = t.loose := by
  have hnone' := hnone
  unfold findKey at hnone'
  have hne : ¬ t.numEntries = intMax := by omega
  generalize ht1 : ({ t with
      buckets := t.buckets.set (hash2index t.numBuckets t.numBucketsLog2 (c.hash key))
        (m.fresh :: t.buckets.getD (hash2index t.numBuckets t.numBucketsLog2 (c.hash key)) [])
      numEntries := t.numEntries + 1 } : Table) = t1
  have hwf := fun v : V => WF_link hc hw key hnone v _ rfl t1 ht1.symm
  have hall : ∀ v a, ((m.alloc { key := key, value := none, hashval := c.hash key }).2.ent a).hashval
      = ((m.alloc { key := key, value := some v, hashval := c.hash key }).2.ent a).hashval := by
    intro v a; unfold Mem.alloc; dsimp only; split <;> rfl
  have hl1 : t1.loose = t.loose := by subst ht1; rfl
  have hlive : (live t1).Perm (m.fresh :: live t) := by
    subst ht1; unfold live
    exact flatten_push_perm _ _ _ (by
      rw [hw.len, hw.size]; exact hash2index_lt _ _ _ (by have := hw.bits; omega))
  have hb1 : t1.numBuckets = t.numBuckets := by subst ht1; rfl
  by_cases hx : t1.numBuckets ≤ maxNumBuckets ∧ t1.numEntries > t1.numBuckets * maxAvgChain
  · refine ⟨extend (m.alloc { key := key, value := none, hashval := c.hash key }).2 t1, ?_, ?_, ?_, ?_⟩
    · unfold access insertEntry
      dsimp only
      rw [hnone']
      dsimp only
      rw [if_neg hne]
      unfold Mem.alloc
      dsimp only
      subst ht1
      dsimp only at hx
      rw [if_pos hx]
    · intro v
      rw [alloc_setValue, extend_congr (hall v)]
      exact WF_extend (hwf v).1 hx.1 hc
    · refine (live_extend_perm _ _ ?_ ?_).trans hlive
      · subst ht1; exact hw.size
      · subst ht1; have := hw.bits; dsimp only; omega
    · rw [← hl1]; rfl
  · refine ⟨t1, ?_, ?_, hlive, hl1⟩
    · unfold access insertEntry
      dsimp only
      rw [hnone']
      dsimp only
      rw [if_neg hne]
      unfold Mem.alloc
      dsimp only
      subst ht1
      dsimp only at hx
      rw [if_neg hx]
    · intro v
      rw [alloc_setValue]
      exact (hwf v).1

theorem access_create_some {c : Cfg K} {m : Mem K V} {t : Table} {key : K} {a : Nat}
    (h : findKey c m t key = some a) : access c m t key .create = (.entry a, m, t) := by
  unfold findKey at h
  unfold access; dsimp only; rw [h]
theorem access_get_some {c : Cfg K} {m : Mem K V} {t : Table} {key : K} {a : Nat}
    (h : findKey c m t key = some a) : access c m t key .get = (.entry a, m, t) := by
  unfold findKey at h
  unfold access; dsimp only; rw [h]
theorem access_get_none {c : Cfg K} {m : Mem K V} {t : Table} {key : K}
    (h : findKey c m t key = none) : access c m t key .get = (.null, m, t) := by
  unfold findKey at h
  unfold access; dsimp only; rw [h]

/-- The map after creating an entry. -/
theorem abs_create {c : Cfg K} (hc : c.Ok) {m : Mem K V} {t t' : Table} (hw : WF c m t) {key : K}
    (hnone : findKey c m t key = none) (v : V) (hp : (live t').Perm (m.fresh :: live t)) :
    (abs ((m.alloc { key := key, value := none, hashval := c.hash key }).2.setValue m.fresh v) t').Perm
      (FinMap.insert c.eq (abs m t) key v) := by
  unfold FinMap.insert
  have hany : ¬ (abs m t).any (fun p => c.eq key p.1) = true := by
    intro h
    rw [List.any_eq_true] at h
    obtain ⟨p, hp, he⟩ := h
    obtain ⟨a, ha, hk, _⟩ := (mem_abs (c := c)).1 hp
    have := findKey_none hc hw hnone a ha
    rw [hk, he] at this; cases this
  rw [if_neg hany, alloc_setValue]
  unfold abs
  refine (hp.filterMap _).trans ?_
  rw [List.filterMap_cons_some (b := (key, v)) (by unfold pairOf; rw [alloc_ent_new]; rfl)]
  rw [filterMap_pairOf_congr (m := m)]
  intro a ha
  exact alloc_ent_old _ _ (hw.fresh a (live_sub_all ha))

/-! ### Deletion -/

theorem flatten_erase_perm (bs : List (List Nat)) (i a : Nat) (h : i < bs.length) (ha : a ∈ bs.getD i []) :
    (bs.flatten).Perm (a :: (bs.set i ((bs.getD i []).erase a)).flatten) := by
  refine (flatten_split_perm bs i h).trans ?_
  refine ((List.perm_cons_erase ha).append_right _).trans ?_
  rw [List.cons_append]
  exact (flatten_set_perm bs i _ h).symm.cons a

theorem WF_delete {c : Cfg K} (hc : c.Ok) {m : Mem K V} {t : Table} (hw : WF c m t) {key : K} {a : Nat}
    (h : findKey c m t key = some a) :
    WF c m (deleteEntry t a (hash2index t.numBuckets t.numBucketsLog2 (c.hash key))) ∧
    (live t).Perm (a :: live (deleteEntry t a (hash2index t.numBuckets t.numBucketsLog2 (c.hash key)))) := by
  obtain ⟨ha, he, hab⟩ := findKey_some h
  have hidx : hash2index t.numBuckets t.numBucketsLog2 (c.hash key) < t.buckets.length := by
    rw [hw.len, hw.size]; exact hash2index_lt _ _ _ (by have := hw.bits; omega)
  generalize hi : hash2index t.numBuckets t.numBucketsLog2 (c.hash key) = i at *
  have hlive : (live t).Perm (a :: live (deleteEntry t a i)) := by
    unfold live deleteEntry; exact flatten_erase_perm _ _ _ hidx hab
  have hall : (all t).Perm (all (deleteEntry t a i)) := by
    rw [all_eq, all_eq]
    refine (hlive.append_right _).trans ?_
    have : (deleteEntry t a i).loose.flatten = a :: t.loose.flatten := by
      unfold deleteEntry; simp
    rw [this, List.cons_append]
    exact List.perm_middle.symm
  have hsub : ∀ b ∈ live (deleteEntry t a i), b ∈ live t := fun b hb =>
    hlive.mem_iff.2 (List.mem_cons_of_mem _ hb)
  refine ⟨?_, hlive⟩
  constructor
  · exact hw.size
  · exact hw.bits
  · unfold deleteEntry; dsimp only; rw [List.length_set]; exact hw.len
  · exact hall.nodup_iff.1 hw.nodup
  · intro b hb; exact hw.fresh b (hall.mem_iff.2 hb)
  · intro j l hl b hb
    unfold deleteEntry at hl ⊢
    dsimp only at hl ⊢
    rcases getElem?_set_push _ _ _ _ _ hl with ⟨h1, rfl⟩ | ⟨_, h2⟩
    · have hb' := List.mem_of_mem_erase hb
      rw [List.getD_eq_getElem?_getD] at hb'
      rw [h1] at hb'
      cases hbk : t.buckets[j]? with
      | none => rw [hbk] at hb'; simp at hb'
      | some y => rw [hbk] at hb'; exact hw.place j y hbk b hb'
    · exact hw.place j l h2 b hb
  · intro b hb; exact hw.hashv b (hsub b hb)
  · intro b hb; exact hw.value b (hsub b hb)
  · have := hw.keys.perm hlive (by intro x y h; rw [hc.equiv.symm_eq]; exact h)
    exact (List.pairwise_cons.1 this).2
  · have h1 := hlive.length_eq
    rw [List.length_cons] at h1
    have h2 := hw.count
    have h3 : (deleteEntry t a i).numEntries = t.numEntries - 1 := rfl
    omega

theorem abs_delete {c : Cfg K} (hc : c.Ok) {m : Mem K V} {t t' : Table} (hw : WF c m t) {key : K} {a : Nat}
    (h : findKey c m t key = some a) (hp : (live t).Perm (a :: live t')) :
    (abs m t').Perm (FinMap.erase c.eq (abs m t) key) := by
  obtain ⟨ha, he, _⟩ := findKey_some h
  have h1 : (abs m t).Perm ((a :: live t').filterMap (pairOf m)) := hp.filterMap _
  refine List.Perm.trans ?_ (FinMap.erase_perm h1.symm key)
  obtain ⟨v, hv⟩ := Option.isSome_iff_exists.1 (hw.value a ha)
  rw [List.filterMap_cons_some (b := ((m.ent a).key, v)) (by unfold pairOf; rw [hv]; rfl)]
  unfold FinMap.erase
  rw [List.filter_cons_of_neg (by simp [he])]
  unfold abs
  rw [List.filter_eq_self.2]
  intro p hpm
  obtain ⟨b, hb, hpb⟩ := List.mem_filterMap.1 hpm
  unfold pairOf at hpb
  rw [Option.map_eq_some_iff] at hpb
  obtain ⟨w, _, rfl⟩ := hpb
  dsimp only
  by_contra hne
  have h2 : c.eq key (m.ent b).key = true := by simpa using hne
  have hbl : b ∈ live t := hp.mem_iff.2 (List.mem_cons_of_mem _ hb)
  have hab : a = b := by
    apply keys_unique hc hw ha hbl
    rw [← hc.equiv.congr_left he]; exact h2
  subst hab
  have := hp.nodup_iff.1 hw.liveNodup
  exact (List.nodup_cons.1 this).1 hb

end Gauche.HashTable
