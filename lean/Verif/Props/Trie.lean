import Verif.Proof.Trie
/-! C94: a trie is a map from keys, and its prefix operations agree with the map. -/
namespace Gauche.Trie

/-- After any history of `trie-put!`, `trie-update!` and `trie-delete!` a key has the value that a map has after the same history. -/
theorem C94_map (ops : List Op) (k : Key) : lookup (after ops) k = mapAfter ops k := lookup_after ops k

/-- `trie-exists?` is #t for the keys of the map. -/
theorem C94_exists (ops : List Op) (k : Key) : existsP (after ops) k = (mapAfter ops k).isSome := by
  rw [← lookup_after, existsP, lookup]
  cases find (after ops).root k.elems with
  | none => rfl
  | some n =>
    rw [Option.bind_some, Option.isSome_map]

/-- `trie-get` gives the value of a key with a value other than #f, and the fallback, or an error, for a key that is not there. -/
theorem C94_get (ops : List Op) (k : Key) (fallback : Option Val) :
    (∀ v, mapAfter ops k = some (some v) → get (after ops) k fallback = some (some v)) ∧
    (mapAfter ops k = none → get (after ops) k fallback = fallback) := by
  rw [← lookup_after, lookup, get]
  cases find (after ops).root k.elems with
  | none => exact ⟨fun v h => (by cases h), fun _ => rfl⟩
  | some n =>
    rw [Option.bind_some, Option.bind_some]
    cases terminal n.terms k.cls with
    | none => exact ⟨fun v h => (by cases h), fun _ => rfl⟩
    | some p =>
      obtain ⟨x, w⟩ := p
      refine ⟨fun v h => ?_, fun h => (by cases h)⟩
      have hw : w = some v := Option.some.inj h
      rw [hw]

/-- For a key with the value #f, `trie-get` gives the fallback, or an error, as if the key were not there. -/
theorem C94_bug_false_value (ops : List Op) (k : Key) (fallback : Option Val) (h : mapAfter ops k = some none) :
    existsP (after ops) k = true ∧ get (after ops) k fallback = fallback := by
  refine ⟨by rw [C94_exists, h]; rfl, ?_⟩
  rw [← lookup_after, lookup] at h
  rw [get]
  cases hf : find (after ops).root k.elems with
  | none => rfl
  | some n =>
    rw [hf, Option.bind_some] at h
    rw [Option.bind_some]
    cases ht : terminal n.terms k.cls with
    | none => rfl
    | some p =>
      obtain ⟨x, w⟩ := p
      rw [ht] at h
      have hw : w = none := Option.some.inj h
      rw [hw]

/-- `trie-num-entries` is the number of the keys of the map. -/
theorem C94_size (ops : List Op) : ∃ ks : List Key, ks.Nodup ∧ (∀ k, k ∈ ks ↔ (mapAfter ops k).isSome) ∧ (after ops).size = ks.length := by
  have hi := inv_after ops
  refine ⟨(entries (after ops) []).map (·.1), entries_nodup hi [], fun k => ?_, ?_⟩
  · rw [← lookup_after]
    constructor
    · intro h
      obtain ⟨⟨x, v⟩, hp, rfl⟩ := List.mem_map.1 h
      rw [((mem_entries hi [] x v).1 hp).2]; rfl
    · intro h
      obtain ⟨v, hv⟩ := Option.isSome_iff_exists.1 h
      exact List.mem_map.2 ⟨(k, v), (mem_entries hi [] k v).2 ⟨⟨k.elems, rfl⟩, hv⟩, rfl⟩
  · rw [List.length_map]; exact hi.size

/-- The folds over the keys with a common prefix go once over each key of the map that begins with the prefix, of any class, with its value.  This
is for procedures that do not give #f. -/
theorem C94_fold_partial (ops : List Op) (l : List Nat) : ∃ es : List (Key × Val), (es.map (·.1)).Nodup ∧
    (∀ k v, (k, v) ∈ es ↔ l <+: k.elems ∧ mapAfter ops k = some v) ∧
    ∀ (S : Type) (isF : S → Bool) (proc : Key × Val → S → S) (seed : S), (∀ p s, isF (proc p s) = false) →
      prefixFold isF (after ops) l proc seed = es.foldl (fun s p => proc p s) seed :=
  ⟨entries (after ops) l, entries_nodup (inv_after ops) l, fun k v => by rw [mem_entries (inv_after ops), lookup_after],
    fun _ isF proc seed hp => prefixFold_eq isF proc hp (after ops) l seed⟩

/-- `trie-common-prefix`. -/
theorem C94_prefix (ops : List Op) (l : List Nat) : ((commonPrefix (after ops) l).map (·.1)).Nodup ∧
    ∀ k v, (k, v) ∈ commonPrefix (after ops) l ↔ l <+: k.elems ∧ mapAfter ops k = some v := by
  have h : commonPrefix (after ops) l = (entries (after ops) l).reverse := by
    rw [commonPrefix, prefixFold_eq (fun _ => false) (fun p s => p :: s) (fun _ _ => rfl)]
    rw [List.foldl_flip_cons_eq_append, List.append_nil, List.map_id']
  rw [h]
  refine ⟨?_, fun k v => ?_⟩
  · rw [List.map_reverse]; exact List.pairwise_reverse.2 ((entries_nodup (inv_after ops) l).imp Ne.symm)
  · rw [List.mem_reverse, mem_entries (inv_after ops), lookup_after]

/-- `trie-longest-match` gives a key of the class with its value, and no longer one matches; or no key matches. -/
theorem C94_longest (ops : List Op) (k : Key) :
    match longest (after ops) k with
    | some (x, v) => x.cls = k.cls ∧ x.elems <+: k.elems ∧ mapAfter ops x = some v ∧
        ∀ y, y.cls = k.cls → y.elems <+: k.elems → (mapAfter ops y).isSome → y.elems.length ≤ x.elems.length
    | none => ∀ y, y.cls = k.cls → y.elems <+: k.elems → mapAfter ops y = none := by
  have hi := inv_after ops
  -- a key of the class that is a prefix
  have hy : ∀ y : Key, y.cls = k.cls → y.elems <+: k.elems → y.elems.length ≤ k.elems.length ∧ 
      mapAfter ops y = (terminal (termsAt (after ops).root (k.elems.take y.elems.length)) k.cls).map (·.2) := by
    intro y hc hp
    refine ⟨hp.length_le, ?_⟩
    rw [← lookup_after, lookup_eq, hc, ← List.prefix_iff_eq_take.1 hp]
  rcases longest_spec (t := after ops) k with ⟨j, hj, h1, h2, h3⟩ | ⟨h1, h2⟩
  · obtain ⟨⟨x, v⟩, hx⟩ := Option.isSome_iff_exists.1 h2
    rw [hx] at h1
    rw [hx]
    obtain ⟨hm, hc⟩ := terminal_mem h1.symm
    obtain ⟨he, hl⟩ := (mem_termsAt hi x v _).1 hm
    refine ⟨hc, by rw [he]; exact List.take_prefix _ _, by rw [← lookup_after]; exact hl, fun y hyc hyp hys => ?_⟩
    obtain ⟨hlen, hv⟩ := hy y hyc hyp
    rw [he, List.length_take, Nat.min_eq_left hj]
    by_cases hlt : j < y.elems.length
    · rw [hv, h3 _ hlt hlen] at hys; cases hys
    · omega
  · rw [h1]
    intro y hyc hyp
    obtain ⟨hlen, hv⟩ := hy y hyc hyp
    rw [hv, h2 _ hlen]; rfl

/-- `trie-partial-key?` is #t for a proper prefix of a key, after any history. -/
theorem C94_partial_key_complete (ops : List Op) (l : List Nat) (k : Key) (hl : l <+: k.elems) (hne : k.elems ≠ l)
    (hk : (mapAfter ops k).isSome) : partialKey (after ops) l = true := by
  obtain ⟨v, hv⟩ := Option.isSome_iff_exists.1 hk
  exact partial_complete hl hne ((lookup_after ops k).trans hv)

/-- It is #t for nothing else, if the history has no `trie-delete!` and no `trie-update!` without a fallback. -/
theorem C94_partial_key_partial (ops : List Op)
    (ho : ∀ o ∈ ops, (∃ k v, o = .put k v) ∨ ∃ k proc v, o = .update k proc (some v)) (l : List Nat) :
    partialKey (after ops) l = true ↔ ∃ k, l <+: k.elems ∧ k.elems ≠ l ∧ (mapAfter ops k).isSome := by
  refine ⟨fun h => ?_, fun ⟨k, h1, h2, h3⟩ => C94_partial_key_complete ops l k h1 h2 h3⟩
  have hf : ∀ (ops : List Op) (t : Trie), fullN t.root → (∀ o ∈ ops, (∃ k v, o = .put k v) ∨ ∃ k proc v, o = .update k proc (some v)) →
      fullN (ops.foldl run t).root := by
    intro ops
    induction ops with
    | nil => exact fun t h _ => h
    | cons o ops ih =>
      intro t h ho
      refine ih _ ?_ (fun o h => ho o (List.mem_cons_of_mem _ h))
      rcases ho o List.mem_cons_self with ⟨k, v, rfl⟩ | ⟨k, proc, v, rfl⟩
      · exact full_put_op h k v
      · exact full_update_op h k proc v
  obtain ⟨k, v, h1, h2, h3⟩ := partial_sound (inv_after ops) (hf ops empty (by rw [empty, emptyNode, fullN, fullT]; trivial) ho) h
  exact ⟨k, h1, h2, by rw [← lookup_after, h3]; rfl⟩

/-! ## Disagreements -/

/-- After the only key is deleted its proper prefixes are still partial keys. -/
theorem C94_bug_partial_deleted : (∀ k, mapAfter [.put ⟨0, [1, 2]⟩ (some 5), .delete ⟨0, [1, 2]⟩] k = none) ∧
    partialKey (after [.put ⟨0, [1, 2]⟩ (some 5), .delete ⟨0, [1, 2]⟩]) [1] = true := by
  refine ⟨fun k => ?_, by decide +kernel⟩
  show (if k = ⟨0, [1, 2]⟩ then none else if k = ⟨0, [1, 2]⟩ then some (some 5) else none) = none
  by_cases h : k = ⟨0, [1, 2]⟩
  · rw [if_pos h]
  · rw [if_neg h, if_neg h]

/-- A `trie-update!` that ends in an error makes the proper prefixes of the key partial keys. -/
theorem C94_bug_update_error (proc : Val → Val) : (update empty ⟨0, [1, 2]⟩ proc none).2 = false ∧
    (∀ k, lookup (update empty ⟨0, [1, 2]⟩ proc none).1 k = none) ∧ partialKey (update empty ⟨0, [1, 2]⟩ proc none).1 [1] = true := by
  refine ⟨rfl, fun k => ?_, rfl⟩
  have := C94_map [.update ⟨0, [1, 2]⟩ proc none] k
  refine this.trans ?_
  show (if k = ⟨0, [1, 2]⟩ then _ else none) = none
  by_cases h : k = ⟨0, [1, 2]⟩
  · rw [if_pos h]; rfl
  · rw [if_neg h]

/-- A fold that asks whether all values are even: #f for a key is forgotten at the next node above. -/
theorem C94_bug_fold_false :
    prefixFold (fun s : Bool => !s) (after [.put ⟨0, [1, 2]⟩ (some 5)]) [] (fun p s => s && (p.2.getD 0) % 2 == 0) true = true ∧
    mapAfter [.put ⟨0, [1, 2]⟩ (some 5)] ⟨0, [1, 2]⟩ = some (some 5) := by
  exact ⟨by decide +kernel, by decide +kernel⟩

/-! ## Examples -/

/-- "ab", "abc" as strings (class 0), "ab" as a list (class 1), "b" deleted. -/
def sample : List Op := [.put ⟨0, [1, 2]⟩ (some 10), .put ⟨0, [1, 2, 3]⟩ (some 20), .put ⟨1, [1, 2]⟩ (some 30), .put ⟨0, [2]⟩ (some 40),
  .delete ⟨0, [2]⟩, .update ⟨0, [1, 2]⟩ (fun v => v.map (· + 1)) none, .update ⟨0, [4]⟩ id (some none)]

example : mapAfter sample ⟨0, [1, 2]⟩ = some (some 11) ∧ mapAfter sample ⟨1, [1, 2]⟩ = some (some 30) ∧ mapAfter sample ⟨0, [2]⟩ = none ∧
    mapAfter sample ⟨0, [4]⟩ = some none := by decide +kernel
example : lookup (after sample) ⟨0, [1, 2]⟩ = some (some 11) ∧ (after sample).size = 4 := by decide +kernel
example : longest (after sample) ⟨0, [1, 2, 9]⟩ = some (⟨0, [1, 2]⟩, some 11) ∧ longest (after sample) ⟨0, [1]⟩ = none := by decide +kernel
example : commonPrefix (after sample) [1, 2, 3] = [(⟨0, [1, 2, 3]⟩, some 20)] ∧ (commonPrefix (after sample) [1]).length = 3 := by decide +kernel
example : partialKey (after sample) [1, 2] = true ∧ partialKey (after sample) [1, 2, 3] = false ∧ partialKey (after sample) [7] = false := by
  decide +kernel
example : get (after sample) ⟨0, [1, 2, 3]⟩ none = some (some 20) ∧ get (after sample) ⟨0, [2]⟩ (some (some 0)) = some (some 0) := by decide +kernel
/-- A history of the kind of `C94_partial_key_partial`. -/
example : ∀ o ∈ [Op.put ⟨0, [1, 2]⟩ (some 1), Op.update ⟨0, [3]⟩ id (some none)],
    (∃ k v, o = .put k v) ∨ ∃ k proc v, o = .update k proc (some v) := by
  intro o ho
  rcases List.mem_cons.1 ho with rfl | ho
  · exact Or.inl ⟨_, _, rfl⟩
  · rcases List.mem_cons.1 ho with rfl | ho
    · exact Or.inr ⟨_, _, _, rfl⟩
    · cases ho
/-- A procedure that never gives #f, as in `C94_fold_partial`. -/
example : ∀ (p : Key × Val) (s : List Key), (fun _ : List Key => false) ((fun p s => p.1 :: s) p s) = false := fun _ _ => rfl

end Gauche.Trie
