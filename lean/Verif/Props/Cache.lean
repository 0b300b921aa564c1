import Verif.Proof.Cache
/-
C33: caches.

`make cap storage` is `make-fifo-cache` or `make-lru-cache` on a dictionary that may already hold entries `(key n . value)`; `a`
lists these entries from the oldest to the newest.  Specification: `Spec/Cache.lean`.
-/
namespace Gauche.Cache
open Gauche.Spec.Cache

variable {κ ν : Type} [DecidableEq κ]

/-- C33: every history of operations on a FIFO (`refresh = false`) or LRU (`refresh = true`) cache runs without an error, delivers
the values of the specification (a list of entries, oldest first; inserting into a full cache discards the first one), and at the
end the dictionary holds exactly the entries of the specification.  Either the numbers do not reach the greatest fixnum, or
`cache-evict!` is not used: then they may wrap any number of times. -/
theorem C33_refines (fixmax : Int) (cap : Nat) (refresh : Bool) (storage a : List (κ × Int × ν)) (ops : List (Op κ ν))
    (hcap : 1 ≤ cap) (hkeys : (a.map (·.1)).Nodup) (hasc : a.Pairwise fun x y => x.2.1 < y.2.1) (hperm : storage.Perm a)
    (hroom : (∀ k, Op.evict k ∉ ops) ∨ ((∀ e ∈ a, e.2.1 + 1 + ops.length ≤ fixmax) ∧ 1 + (ops.length : Int) ≤ fixmax)) :
    ∃ c, run fixmax refresh (make cap storage) ops =
        some (c, (Spec.Cache.run (insertEager cap) refresh (a.map fun e => (e.1, e.2.2)) ops).2) ∧
      (c.storage.map fun e => (e.1, e.2.2)).Perm (Spec.Cache.run (insertEager cap) refresh (a.map fun e => (e.1, e.2.2)) ops).1 := by
  obtain ⟨m1, m2, m3, m4⟩ := make_spec cap storage a hkeys hasc hperm
  have hr : (Clean (make cap storage).storage (make cap storage).queue ∧ ∀ k, Op.evict k ∉ ops) ∨
      (make cap storage).counter + ops.length ≤ fixmax := by
    refine hroom.imp (fun h => ⟨m3, h⟩) ?_
    intro ⟨h1, h2⟩
    have := m4 (fixmax - 1 - ops.length) (by omega) (fun e he => by have := h1 e he; omega)
    omega
  obtain ⟨c, r1, r2, _⟩ := run_spec (refresh := refresh) cap hcap ops _ _ m1 m2 hr
  refine ⟨c, r1, ?_⟩
  rw [← r2.2]
  exact perm_abs r2.1

/-! ### The documented policy -/

theorem find_none_length {a : List (κ × ν)} {k : κ} (h : find a k = none) (b : List (κ × ν)) (hb : b.Sublist a) : without b k = b := by
  unfold without
  rw [List.filter_eq_self]
  intro p hp
  have h1 : a.find? (fun p => decide (p.1 = k)) = none := by
    unfold find at h
    cases hf : a.find? (fun p => decide (p.1 = k)) with
    | none => rfl
    | some q => rw [hf] at h; exact absurd h (by simp)
  have := List.find?_eq_none.1 h1 p (hb.subset hp)
  simpa using this

theorem insert_eq_eager {cap : Nat} {a : List (κ × ν)} {k : κ} (v : ν) (h : find a k = none ∨ a.length < cap) :
    insertEager cap a k v = Spec.Cache.insert cap a k v := by
  unfold insertEager Spec.Cache.insert
  congr 1
  by_cases hf : cap ≤ a.length
  · have hn : find a k = none := h.resolve_right (by omega)
    rw [if_pos hf, if_pos ⟨by rw [hn]; rfl, hf⟩, find_none_length hn _ (List.Sublist.refl _), find_none_length hn _ (List.tail_sublist _)]
  · rw [if_neg hf, if_neg (fun h => hf h.2)]

theorem run_insert_eq {cap : Nat} {refresh : Bool} (ops : List (Op κ ν)) (hw : ∀ k v, Op.write k v ∉ ops) : ∀ a : List (κ × ν),
    Spec.Cache.run (insertEager cap) refresh a ops = Spec.Cache.run (Spec.Cache.insert cap) refresh a ops := by
  induction ops with
  | nil => intro a; rfl
  | cons o ops ih =>
    intro a
    have hs : Spec.Cache.step (insertEager cap) refresh a o = Spec.Cache.step (Spec.Cache.insert cap) refresh a o := by
      cases o with
      | through k v =>
        unfold Spec.Cache.step
        dsimp only
        cases hf : find a k with
        | none => dsimp only; rw [insert_eq_eager v (Or.inl hf)]
        | some w => rfl
      | write k v => exact absurd List.mem_cons_self (hw k v)
      | _ => rfl
    unfold Spec.Cache.run
    rw [hs, ih (fun k v h => hw k v (List.mem_cons_of_mem _ h))]

/-- C33: as long as `cache-write!` is not used, a cache follows the documented policy: an entry is discarded only to make room for
a key that is not in the cache, and then it is the one inserted (FIFO) or used (LRU) the longest time ago. -/
theorem C33_policy (fixmax : Int) (cap : Nat) (refresh : Bool) (storage a : List (κ × Int × ν)) (ops : List (Op κ ν))
    (hcap : 1 ≤ cap) (hkeys : (a.map (·.1)).Nodup) (hasc : a.Pairwise fun x y => x.2.1 < y.2.1) (hperm : storage.Perm a)
    (hroom : (∀ k, Op.evict k ∉ ops) ∨ ((∀ e ∈ a, e.2.1 + 1 + ops.length ≤ fixmax) ∧ 1 + (ops.length : Int) ≤ fixmax))
    (hw : ∀ k v, Op.write k v ∉ ops) :
    ∃ c, run fixmax refresh (make cap storage) ops =
        some (c, (Spec.Cache.run (Spec.Cache.insert cap) refresh (a.map fun e => (e.1, e.2.2)) ops).2) ∧
      (c.storage.map fun e => (e.1, e.2.2)).Perm (Spec.Cache.run (Spec.Cache.insert cap) refresh (a.map fun e => (e.1, e.2.2)) ops).1 := by
  rw [← run_insert_eq ops hw]
  exact C33_refines fixmax cap refresh storage a ops hcap hkeys hasc hperm hroom

/-! ### Capacity -/

theorem length_without_lt {a : List (κ × ν)} {k : κ} {v : ν} (h : find a k = some v) : (without a k).length < a.length := by
  unfold find at h
  cases hf : a.find? (fun p => decide (p.1 = k)) with
  | none => rw [hf] at h; exact absurd h (by simp)
  | some q =>
    unfold without
    apply List.length_filter_lt_length_iff_exists.2
    refine ⟨q, List.mem_of_find?_eq_some hf, ?_⟩
    have := List.find?_some hf
    simpa using this

theorem length_insertEager {cap : Nat} (hcap : 1 ≤ cap) {a : List (κ × ν)} (k : κ) (v : ν) (h : a.length ≤ cap) :
    (insertEager cap a k v).length ≤ cap := by
  unfold insertEager
  rw [List.length_append, List.length_singleton]
  by_cases hf : cap ≤ a.length
  · rw [if_pos hf]
    have h1 : (without a.tail k).length ≤ a.tail.length := List.length_filter_le _ _
    rw [List.length_tail] at h1
    omega
  · rw [if_neg hf]
    have h1 : (without a k).length ≤ a.length := List.length_filter_le _ _
    omega

theorem length_step {cap : Nat} (hcap : 1 ≤ cap) {refresh : Bool} {a : List (κ × ν)} (o : Op κ ν) (h : a.length ≤ cap) :
    (Spec.Cache.step (insertEager cap) refresh a o).1.length ≤ cap := by
  have hread : ∀ k, (readEntry refresh a k).length ≤ cap := by
    intro k
    unfold readEntry
    cases hf : find a k with
    | none => exact h
    | some v =>
      dsimp only
      cases refresh with
      | false => rw [if_neg (by simp)]; exact h
      | true =>
        rw [if_pos rfl, List.length_append, List.length_singleton]
        have := length_without_lt hf
        omega
  cases o with
  | lookup k => exact hread k
  | through k v =>
    unfold Spec.Cache.step
    dsimp only
    cases hf : find a k with
    | none => exact length_insertEager hcap k v h
    | some w => exact hread k
  | write k v => exact length_insertEager hcap k v h
  | evict k => exact le_trans (List.length_filter_le _ _) h
  | clear => exact Nat.zero_le _

theorem length_run {cap : Nat} (hcap : 1 ≤ cap) {refresh : Bool} (ops : List (Op κ ν)) : ∀ a : List (κ × ν), a.length ≤ cap →
    (Spec.Cache.run (insertEager cap) refresh a ops).1.length ≤ cap := by
  induction ops with
  | nil => intro a h; exact h
  | cons o ops ih => intro a h; exact ih _ (length_step hcap o h)

/-- C33: the dictionary of a cache never holds more entries than its capacity (the history is arbitrary, so this is after each of its
steps). -/
theorem C33_capacity (fixmax : Int) (cap : Nat) (refresh : Bool) (storage a : List (κ × Int × ν)) (ops : List (Op κ ν))
    (hcap : 1 ≤ cap) (hkeys : (a.map (·.1)).Nodup) (hasc : a.Pairwise fun x y => x.2.1 < y.2.1) (hperm : storage.Perm a)
    (hroom : (∀ k, Op.evict k ∉ ops) ∨ ((∀ e ∈ a, e.2.1 + 1 + ops.length ≤ fixmax) ∧ 1 + (ops.length : Int) ≤ fixmax))
    (hlen : storage.length ≤ cap) (c : Fifo κ ν) (out : List (Option ν))
    (h : run fixmax refresh (make cap storage) ops = some (c, out)) : c.storage.length ≤ cap := by
  obtain ⟨c', r1, r2⟩ := C33_refines fixmax cap refresh storage a ops hcap hkeys hasc hperm hroom
  rw [h] at r1
  have hc : c = c' := congrArg Prod.fst (Option.some.inj r1)
  rw [← hc] at r2
  have := r2.length_eq
  rw [List.length_map] at this
  rw [this]
  apply length_run hcap
  rw [List.length_map, ← hperm.length_eq]; exact hlen

/-! ### Values -/

/-- The operation may give the key a value. -/
def Gives (k : κ) : Op κ ν → Prop
  | .through j _ => j = k
  | .write j _ => j = k
  | _ => False

theorem find_append_ne {b : List (κ × ν)} {j k : κ} {w : ν} (h : j ≠ k) : find (without b j ++ [(j, w)]) k = find b k := by
  have h1 : find (without b j ++ [(j, w)]) k = find (without b j) k := by
    unfold find
    rw [List.find?_append]
    have : [(j, w)].find? (fun p => decide (p.1 = k)) = none := by simp [h]
    rw [this, Option.or_none]
  rw [h1, spec_find_eq, spec_without_eq, dictGet_delete, if_neg (fun e => h e.symm), spec_find_eq]

theorem nodup_step (ins : List (κ × ν) → κ → ν → List (κ × ν)) (hins : ∀ a : List (κ × ν), (a.map (·.1)).Nodup → ∀ k v, ((ins a k v).map (·.1)).Nodup)
    {refresh : Bool} {a : List (κ × ν)} (o : Op κ ν) (h : (a.map (·.1)).Nodup) : ((Spec.Cache.step ins refresh a o).1.map (·.1)).Nodup := by
  have hread : ∀ k, ((readEntry refresh a k).map (·.1)).Nodup := by
    intro k
    unfold readEntry
    cases find a k with
    | none => exact h
    | some v =>
      dsimp only
      cases refresh with
      | false => rw [if_neg (by simp)]; exact h
      | true =>
        rw [if_pos rfl, List.map_append]
        have := nodup_put h k v
        unfold dictPut at this
        rw [List.map_cons] at this
        exact (List.perm_append_singleton k _).nodup_iff.2 this
  cases o with
  | lookup k => exact hread k
  | through k v =>
    unfold Spec.Cache.step
    dsimp only
    cases hf : find a k with
    | none => exact hins a h k v
    | some w => exact hread k
  | write k v => exact hins a h k v
  | evict k => exact nodup_delete h k
  | clear => exact List.nodup_nil

theorem nodup_insertEager (cap : Nat) (a : List (κ × ν)) (h : (a.map (·.1)).Nodup) (k : κ) (v : ν) :
    ((insertEager cap a k v).map (·.1)).Nodup := by
  unfold insertEager
  rw [List.map_append]
  have hb : ((if cap ≤ a.length then a.tail else a).map (·.1)).Nodup := by
    by_cases hf : cap ≤ a.length
    · rw [if_pos hf]; exact h.sublist ((List.tail_sublist a).map _)
    · rw [if_neg hf]; exact h
  have := nodup_put hb k v
  unfold dictPut at this
  rw [List.map_cons] at this
  exact (List.perm_append_singleton k _).nodup_iff.2 this

theorem find_step {cap : Nat} {refresh : Bool} {a : List (κ × ν)} (o : Op κ ν) (h : (a.map (·.1)).Nodup) (k : κ) (ho : ¬ Gives k o) :
    find (Spec.Cache.step (insertEager cap) refresh a o).1 k = find a k ∨
      find (Spec.Cache.step (insertEager cap) refresh a o).1 k = none := by
  have hread : ∀ j, find (readEntry refresh a j) k = find a k := by
    intro j
    unfold readEntry
    cases hf : find a j with
    | none => rfl
    | some w =>
      dsimp only
      cases refresh with
      | false => rfl
      | true =>
        rw [if_pos rfl]
        by_cases hj : j = k
        · rw [← hj]
          have hn : find (without a j) j = none := by rw [spec_find_eq, spec_without_eq, dictGet_delete, if_pos rfl]
          unfold find at hn ⊢
          rw [List.find?_append]
          have hn' : (without a j).find? (fun p => decide (p.1 = j)) = none := by
            cases hq : (without a j).find? (fun p => decide (p.1 = j)) with
            | none => rfl
            | some q => rw [hq] at hn; exact absurd hn (by simp)
          rw [hn', Option.none_or]
          unfold find at hf
          rw [hf]
          simp
        · exact find_append_ne hj
  have htail : find (if cap ≤ a.length then a.tail else a) k = find a k ∨ find (if cap ≤ a.length then a.tail else a) k = none := by
    by_cases hf : cap ≤ a.length
    · rw [if_pos hf]
      cases a with
      | nil => exact Or.inl rfl
      | cons p a =>
        rw [List.tail_cons, spec_find_eq, spec_find_eq, dictGet_cons]
        rw [List.map_cons, List.nodup_cons] at h
        by_cases hp : p.1 = k
        · right
          cases hg : dictGet a k with
          | none => rfl
          | some b =>
            exact absurd (List.mem_map.2 ⟨(k, b), (dictGet_eq_some h.2 _ _).1 hg, rfl⟩) (by rw [← hp]; exact h.1)
        · rw [if_neg hp]; exact Or.inl rfl
    · rw [if_neg hf]; exact Or.inl rfl
  cases o with
  | lookup j => exact Or.inl (hread j)
  | through j v =>
    have hj : j ≠ k := ho
    unfold Spec.Cache.step
    dsimp only
    cases hf : find a j with
    | some w => exact Or.inl (hread j)
    | none => dsimp only; unfold insertEager; rw [find_append_ne hj]; exact htail
  | write j v =>
    have hj : j ≠ k := ho
    show find (insertEager cap a j v) k = _ ∨ find (insertEager cap a j v) k = _
    unfold insertEager
    rw [find_append_ne hj]; exact htail
  | evict j =>
    show find (without a j) k = _ ∨ find (without a j) k = _
    rw [spec_find_eq, spec_without_eq, dictGet_delete]
    by_cases hj : k = j
    · rw [if_pos hj]; exact Or.inr rfl
    · rw [if_neg hj]; exact Or.inl rfl
  | clear => exact Or.inr rfl

theorem find_run {cap : Nat} {refresh : Bool} (k : κ) (v : ν) (ops : List (Op κ ν)) (ho : ∀ o ∈ ops, ¬ Gives k o) :
    ∀ a : List (κ × ν), (a.map (·.1)).Nodup → (find a k = some v ∨ find a k = none) →
    find (Spec.Cache.run (insertEager cap) refresh a ops).1 k = some v ∨
      find (Spec.Cache.run (insertEager cap) refresh a ops).1 k = none := by
  induction ops with
  | nil => intro a _ h; exact h
  | cons o ops ih =>
    intro a hn h
    refine ih (fun o h => ho o (List.mem_cons_of_mem _ h)) _ (nodup_step _ (nodup_insertEager cap) o hn) ?_
    rcases find_step (cap := cap) (refresh := refresh) o hn k (ho o List.mem_cons_self) with h1 | h1
    · rw [h1]; exact h
    · exact Or.inr h1

theorem run_append_fst (ins : List (κ × ν) → κ → ν → List (κ × ν)) (refresh : Bool) (os os' : List (Op κ ν)) : ∀ a,
    (Spec.Cache.run ins refresh a (os ++ os')).1 = (Spec.Cache.run ins refresh (Spec.Cache.run ins refresh a os).1 os').1 ∧
    (Spec.Cache.run ins refresh a (os ++ os')).2 =
      (Spec.Cache.run ins refresh a os).2 ++ (Spec.Cache.run ins refresh (Spec.Cache.run ins refresh a os).1 os').2 := by
  induction os with
  | nil => intro a; exact ⟨rfl, rfl⟩
  | cons o os ih =>
    intro a
    obtain ⟨h1, h2⟩ := ih (Spec.Cache.step ins refresh a o).1
    constructor
    · exact h1
    · exact congrArg ((Spec.Cache.step ins refresh a o).2 :: ·) h2

theorem nodup_run {cap : Nat} {refresh : Bool} (ops : List (Op κ ν)) : ∀ a : List (κ × ν), (a.map (·.1)).Nodup →
    ((Spec.Cache.run (insertEager cap) refresh a ops).1.map (·.1)).Nodup := by
  induction ops with
  | nil => intro a h; exact h
  | cons o ops ih => intro a h; exact ih _ (nodup_step _ (nodup_insertEager cap) o h)

/-- C33: after a `cache-write!` of a key, whatever is done with other keys and however often this key is read, a `cache-lookup!` of the
key delivers the value written or finds nothing. -/
theorem C33_latest (fixmax : Int) (cap : Nat) (refresh : Bool) (storage a : List (κ × Int × ν)) (before between : List (Op κ ν)) (k : κ) (v : ν)
    (hcap : 1 ≤ cap) (hkeys : (a.map (·.1)).Nodup) (hasc : a.Pairwise fun x y => x.2.1 < y.2.1) (hperm : storage.Perm a)
    (hroom : (∀ j, Op.evict j ∉ before ++ Op.write k v :: between) ∨
      ((∀ e ∈ a, e.2.1 + 3 + (before.length + between.length) ≤ fixmax) ∧ 3 + ((before.length : Int) + between.length) ≤ fixmax))
    (hbetween : ∀ o ∈ between, ¬ Gives k o) :
    ∃ c out r, run fixmax refresh (make cap storage) (before ++ Op.write k v :: (between ++ [Op.lookup k])) = some (c, out ++ [r]) ∧
      (r = some v ∨ r = none) := by
  have hroom' : (∀ j, Op.evict j ∉ before ++ Op.write k v :: (between ++ [Op.lookup k])) ∨
      ((∀ e ∈ a, e.2.1 + 1 + ((before ++ Op.write k v :: (between ++ [Op.lookup k])).length : Int) ≤ fixmax) ∧
       1 + ((before ++ Op.write k v :: (between ++ [Op.lookup k])).length : Int) ≤ fixmax) := by
    refine hroom.imp ?_ ?_
    · intro h j hj
      rcases List.mem_append.1 hj with hj | hj
      · exact h j (List.mem_append_left _ hj)
      · rcases List.mem_cons.1 hj with hj | hj
        · exact absurd hj (by simp)
        · rcases List.mem_append.1 hj with hj | hj
          · exact h j (List.mem_append_right _ (List.mem_cons_of_mem _ hj))
          · exact absurd (List.mem_singleton.1 hj) (by simp)
    · intro ⟨h1, h2⟩
      simp only [List.length_append, List.length_cons, List.length_nil]
      refine ⟨fun e he => ?_, by push_cast; omega⟩
      have := h1 e he
      push_cast; omega
  obtain ⟨c, r1, _⟩ := C33_refines fixmax cap refresh storage a _ hcap hkeys hasc hperm hroom'
  have e1 := (run_append_fst (insertEager cap) refresh before (Op.write k v :: (between ++ [Op.lookup k])) (a.map fun e => (e.1, e.2.2))).2
  have hn0 : ((a.map fun e => (e.1, e.2.2)).map (·.1)).Nodup := by rw [List.map_map]; exact hkeys
  have hn1 := nodup_run (cap := cap) (refresh := refresh) before _ hn0
  generalize hb : (Spec.Cache.run (insertEager cap) refresh (a.map fun e => (e.1, e.2.2)) before).1 = b at e1 hn1
  have e2 := (run_append_fst (insertEager cap) refresh between [Op.lookup k] (insertEager cap b k v)).2
  have e3 : (Spec.Cache.run (insertEager cap) refresh b (Op.write k v :: (between ++ [Op.lookup k]))).2 =
      none :: (Spec.Cache.run (insertEager cap) refresh (insertEager cap b k v) (between ++ [Op.lookup k])).2 := rfl
  have hfind : find (insertEager cap b k v) k = some v := by
    unfold insertEager
    have hn : ∀ d : List (κ × ν), (without d k).find? (fun p => decide (p.1 = k)) = none := by
      intro d
      rw [List.find?_eq_none]
      intro p hp
      have := (List.mem_filter.1 hp).2
      simpa using this
    unfold find
    rw [List.find?_append, hn, Option.none_or]
    simp
  have hfin := find_run (cap := cap) (refresh := refresh) k v between hbetween _ (nodup_insertEager cap b hn1 k v) (Or.inl hfind)
  rw [e1, e3, e2] at r1
  refine ⟨c, (Spec.Cache.run (insertEager cap) refresh (a.map fun e => (e.1, e.2.2)) before).2 ++
    none :: (Spec.Cache.run (insertEager cap) refresh (insertEager cap b k v) between).2, _, ?_, hfin⟩
  rw [r1, List.append_assoc]
  rfl

/-! ### What the code does not do -/

/-- C33 does not hold for `cache-write!` as documented ("the same effect as `cache-evict!` followed by `cache-through!`"): writing
a key that is in a full cache also discards the oldest entry, whichever key that is. -/
theorem C33_bug_write_existing :
    ∃ c out, run 1000 false (make 2 ([] : List (Nat × Int × Nat))) [.through 1 10, .through 2 20, .write 2 21, .lookup 1, .lookup 2] = some (c, out) ∧
      out = [some 10, some 20, none, none, some 21] ∧
      (Spec.Cache.run (Spec.Cache.insert 2) false ([] : List (Nat × Nat)) [.through 1 10, .through 2 20, .write 2 21, .lookup 1, .lookup 2]).2 =
        [some 10, some 20, none, some 10, some 21] ∧
      (Spec.Cache.run (Spec.Cache.insert 2) false ([] : List (Nat × Nat)) [.through 1 10, .through 2 20, .evict 2, .through 2 21, .lookup 1, .lookup 2]).2 =
        [some 10, some 20, none, some 21, some 10, some 21] := by
  exact ⟨_, _, rfl, by decide +kernel, by decide +kernel, by decide +kernel⟩

/-- Inserting into a cache of capacity 0 is an error. -/
theorem C33_capacity_zero (fixmax : Int) (refresh : Bool) (k : κ) (v : ν) :
    run fixmax refresh (make 0 ([] : List (κ × Int × ν))) [.write k v] = none := rfl

/-- When the number of an insertion is the greatest fixnum and the queue still has a key that was removed by `cache-evict!`, the
insertion is an error: this is why `C33_refines` has `hroom`. -/
theorem C33_bug_evict_renumber :
    run 3 false (make 5 ([] : List (Nat × Int × Nat))) [.write 1 10, .write 2 20, .evict 1] ≠ none ∧
    run 3 false (make 5 ([] : List (Nat × Int × Nat))) [.write 1 10, .write 2 20, .evict 1, .write 3 30] = none := by
  exact ⟨by simp [run, step, add, touch, make, populateQueue, sortBy, dictPut, dictDelete],
    by simp [run, step, add, touch, make, populateQueue, sortBy, dictPut, dictDelete, renumberEntries, renumberLoop, insertBy, dictGet]⟩

/-! ### Time-out -/

/-- C33: a cache with time-out delivers, for every history and every clock that does not go back, the value last given to the key
if not more than `ttl` has passed since it was given (with `refresh`: since it was given or read), and nothing otherwise. -/
theorem C33_ttl (ttl : Int) (refresh : Bool) (storage : List (κ × Int × ν)) (hkeys : (storage.map (·.1)).Nodup) (now : Int)
    (hnow : ∀ e ∈ storage, e.2.1 ≤ now) (ops : List (Int × Int × Op κ ν)) (hclock : Monotone now ops) :
    runTtl refresh (makeTtl ttl storage) ops = Spec.Cache.runTtl ttl refresh (find storage) ops :=
  runTtl_spec ops _ _ now (makeTtl_spec ttl storage hkeys now hnow) hclock

/-! ### Instances -/

-- An LRU cache of capacity 2 whose numbers wrap at 3: key 1 is read, so key 2 goes first.
example : ∃ c, run 3 true (make 2 ([] : List (Nat × Int × Nat)))
    [.through 1 10, .through 2 20, .lookup 1, .through 3 30, .lookup 2, .lookup 1, .lookup 3, .through 2 21, .lookup 1] =
    some (c, [some 10, some 20, some 10, some 30, none, some 10, some 30, some 21, none]) := by
  obtain ⟨c, h, _⟩ := C33_policy (κ := Nat) (ν := Nat) 3 2 true [] []
    [.through 1 10, .through 2 20, .lookup 1, .through 3 30, .lookup 2, .lookup 1, .lookup 3, .through 2 21, .lookup 1]
    (by decide) List.nodup_nil List.Pairwise.nil (List.Perm.refl _) (Or.inl (by simp)) (by simp)
  exact ⟨c, by rw [h]; rfl⟩

-- A FIFO cache on a dictionary with entries.
example : ∃ c, run 1000 false (make 3 [(7, 5, 70), (8, 2, 80)])
    [.through 9 90, .evict 9, .through 1 10, .lookup 8, .through 2 20, .lookup 8, .lookup 7] =
    some (c, [some 90, none, some 10, some 80, some 20, none, some 70]) := by
  obtain ⟨c, h, _⟩ := C33_policy (κ := Nat) (ν := Nat) 1000 3 false [(7, 5, 70), (8, 2, 80)] [(8, 2, 80), (7, 5, 70)]
    [.through 9 90, .evict 9, .through 1 10, .lookup 8, .through 2 20, .lookup 8, .lookup 7]
    (by decide) (by decide) (by simp) (List.Perm.swap _ _ _) (Or.inr (by simp)) (by simp)
  exact ⟨c, by rw [h]; rfl⟩

-- Time-out 10, with and without refreshing.
example : runTtl true (makeTtl 10 ([] : List (Nat × Int × Nat)))
    [(0, 0, .through 1 10), (8, 9, .lookup 1), (15, 15, .lookup 1), (26, 26, .lookup 1)] = [some 10, some 10, some 10, none] := by
  rw [C33_ttl 10 true [] List.nodup_nil 0 (by simp) _ (by simp [Spec.Cache.Monotone])]; decide +kernel
example : runTtl false (makeTtl 10 ([] : List (Nat × Int × Nat)))
    [(0, 0, .through 1 10), (8, 9, .lookup 1), (15, 15, .lookup 1)] = [some 10, some 10, none] := by
  rw [C33_ttl 10 false [] List.nodup_nil 0 (by simp) _ (by simp [Spec.Cache.Monotone])]; decide +kernel

end Gauche.Cache
