import Verif.Proof.Toposort
/-
C39: `topological-sort`.
-/
namespace Gauche.Toposort
open Gauche.Spec

section
variable {α : Type}

/-- **C39.**  The sort terminates for every graph and every equality procedure. -/
theorem C39_terminates (eq : α → α → Bool) (g : Graph α) : ∃ a, topologicalSort eq g = some a := by
  obtain ⟨a, ha⟩ := sortDetails_total eq g
  unfold topologicalSort sortImpl
  rw [ha]
  exact ⟨_, rfl⟩

variable [DecidableEq α]

/-- **C39.**  `topological-sort/details` on a graph with one entry per node: either the sorted nodes, and then the
graph has no cycle, or the nodes that are reached from a cycle, each once. -/
theorem C39_details (g : Graph α) (hn : (g.map (·.1)).Nodup) :
    (∃ l, sortDetails (fun a b => decide (a = b)) g = some (.sorted l) ∧ IsTopologicalOrder g l ∧
      ∀ v, ¬ OnCycle g v) ∨
    (∃ rest, sortDetails (fun a b => decide (a = b)) g = some (.circular rest) ∧ rest ≠ [] ∧ rest.Nodup ∧
      ∀ v, v ∈ rest ↔ ∃ w, OnCycle g w ∧ Relation.ReflTransGen (Edge g) w v) := by
  obtain ⟨a, ha⟩ := sortDetails_total deq g
  have ha' : sortDetails (fun a b => decide (a = b)) g = some a := ha
  rw [ha']
  unfold sortDetails at ha
  dsimp only at ha
  rw [Option.map_eq_some_iff] at ha
  obtain ⟨s, hs, rfl⟩ := ha
  obtain ⟨P, hI, hq⟩ := traverse_inv hn _ (init_inv hn rfl) hs
  have hP : ∀ v, v ∈ P ↔ v ∈ s.result := by
    intro v
    have := hI.perm.mem_iff (a := v)
    rw [hq, List.nil_append] at this
    exact this.symm
  have hrest : ∀ v, v ∈ (s.table.filter fun e => decide ¬ (e.2 = 0)).map (·.1) ↔
      IsNode g v ∧ v ∉ s.result := by
    intro v
    rw [hI.mem]
    have h1 : v ∈ (s.table.filter fun e => decide ¬ (e.2 = 0)).map (·.1) ↔
        ∃ c : Int, (v, c) ∈ s.table ∧ c ≠ 0 := by
      simp
    rw [h1]
    have h2 := hI.cnt v
    constructor
    · rintro ⟨c, hc, hc0⟩
      rw [mem_iff_look _ hI.keys, h2] at hc
      by_cases hN : IsNode g v
      · rw [if_pos hN] at hc
        refine ⟨hN, fun h => hc0 ?_⟩
        rw [List.count_eq_zero_of_not_mem h.2.1] at hc
        simp at hc
        exact hc.symm
      · rw [if_neg hN] at hc; cases hc
    · rintro ⟨hN, h⟩
      rw [if_pos hN] at h2
      refine ⟨_, (mem_iff_look _ hI.keys _ _).2 h2, fun h0 => h ⟨hN, ?_, by simp⟩⟩
      rw [← List.count_eq_zero]
      simpa using h0
  have hreach : ∀ w v, Relation.ReflTransGen (Edge g) w v → v ∈ s.result → w ∈ s.result := by
    intro w v h hv
    induction h with
    | refl => exact hv
    | tail _ h ih => exact ih (hI.closed _ hv _ h)
  have hcyc : ∀ w, OnCycle g w → w ∉ s.result := fun w hw hm =>
    no_cycle hI.order hI.closed hI.noself hm hw
  have hnode : ∀ w v, Relation.TransGen (Edge g) w v → IsNode g v := by
    intro w v h
    obtain ⟨u, _, hu⟩ := Relation.TransGen.tail'_iff.1 h
    exact .inr ⟨u, hu⟩
  have hchar : ∀ v, (IsNode g v ∧ v ∉ s.result) ↔
      ∃ w, OnCycle g w ∧ Relation.ReflTransGen (Edge g) w v := by
    intro v
    constructor
    · intro hv
      rw [← hrest] at hv
      refine reached_from_cycle (fun x hx => ?_) hv
      obtain ⟨hN, hx⟩ := (hrest x).1 hx
      rw [hI.mem] at hx
      have hx1 : x ∈ rem g P := by
        by_contra hc
        exact hx ⟨hN, hc, by simp⟩
      obtain ⟨u, hu, huP⟩ := (mem_rem g P x).1 hx1
      refine ⟨u, (hrest u).2 ⟨?_, fun h => huP ((hP u).2 h)⟩, hu⟩
      obtain ⟨tos, h1, _⟩ := hu
      exact .inl ⟨tos, h1⟩
    · rintro ⟨w, hw, hr⟩
      refine ⟨?_, fun h => hcyc w hw (hreach w v hr h)⟩
      exact hnode w v (Relation.TransGen.trans_left hw hr)
  by_cases hE : (s.table.filter fun e => decide ¬ (e.2 = 0)).isEmpty = true
  · rw [if_pos hE]
    have hall : ∀ v, IsNode g v → v ∈ s.result := by
      intro v hv
      by_contra hc
      have := (hrest v).2 ⟨hv, hc⟩
      rw [List.isEmpty_iff.1 hE] at this
      simp at this
    refine .inl ⟨_, rfl, ⟨List.nodup_reverse.2 hI.nodup, ?_, ?_⟩, ?_⟩
    · intro v
      rw [List.mem_reverse]
      exact ⟨fun h => ((hI.mem v).1 h).1, hall v⟩
    · intro i j u v hi hj he
      have hpw : s.result.reverse.Pairwise fun x y => ¬ Edge g y x := List.pairwise_reverse.2 hI.order
      obtain ⟨hi1, hi2⟩ := List.getElem?_eq_some_iff.1 hi
      obtain ⟨hj1, hj2⟩ := List.getElem?_eq_some_iff.1 hj
      by_contra hc
      rcases Nat.lt_or_ge j i with h | h
      · have := List.pairwise_iff_getElem.1 hpw j i hj1 hi1 h
        rw [hi2, hj2] at this
        exact this he
      · have : i = j := by omega
        subst this
        rw [hi2] at hj2
        subst hj2
        refine hI.noself u ?_ he
        rw [← List.mem_reverse, ← hi2]
        exact List.getElem_mem _
    · intro v hv
      exact hcyc v hv (hall v (hnode v v hv))
  · rw [if_neg hE]
    refine .inr ⟨_, rfl, ?_, ?_, fun v => (hrest v).trans (hchar v)⟩
    · intro h
      rw [List.map_eq_nil_iff] at h
      rw [h] at hE
      simp at hE
    · exact hI.keys.sublist (List.filter_sublist.map _)

/-- **C39.**  On a graph with one entry per node, `topological-sort` returns every node exactly once, each before its
successors, if the graph has no cycle, and is an error if it has one. -/
theorem C39_topological_sort (g : Graph α) (hn : (g.map (·.1)).Nodup) :
    ((∀ v, ¬ OnCycle g v) → ∃ l, topologicalSort (fun a b => decide (a = b)) g = some (some l) ∧
      IsTopologicalOrder g l) ∧
    ((∃ v, OnCycle g v) → topologicalSort (fun a b => decide (a = b)) g = some none) := by
  unfold topologicalSort sortImpl
  rcases C39_details g hn with ⟨l, h1, h2, h3⟩ | ⟨rest, h1, h2, h3, h4⟩
  · rw [h1]
    exact ⟨fun _ => ⟨l, rfl, h2⟩, fun ⟨v, hv⟩ => absurd hv (h3 v)⟩
  · rw [h1]
    refine ⟨fun h => ?_, fun _ => rfl⟩
    obtain ⟨x, hx⟩ := List.exists_mem_of_ne_nil rest h2
    obtain ⟨w, hw, _⟩ := (h4 x).1 hx
    exact absurd hw (h w)

end

/-- **C39, negative.**  If the graph lists a node in two entries, as in `((0 1) (0 2))`, the sort reports a cycle
although there is none. -/
theorem C39_bug_repeated_entry :
    topologicalSort (fun a b => decide (a = b)) [(0, [1]), (0, [2])] = some (none : Option (List Nat)) ∧
    ∀ v, ¬ OnCycle [((0 : Nat), [1]), (0, [2])] v := by
  refine ⟨by decide +kernel, ?_⟩
  have he : ∀ u v, Edge [((0 : Nat), [1]), (0, [2])] u v → u = 0 ∧ v ≠ 0 := by
    rintro u v ⟨tos, h1, h2⟩
    simp at h1
    rcases h1 with ⟨rfl, rfl⟩ | ⟨rfl, rfl⟩ <;> simp at h2 <;> simp [h2]
  intro v hv
  obtain ⟨w, h1, _⟩ := Relation.TransGen.head'_iff.1 hv
  obtain ⟨w', _, h2⟩ := Relation.TransGen.tail'_iff.1 hv
  exact (he _ _ h2).2 (he _ _ h1).1

/-! ### Examples: the hypotheses are met -/

example : topologicalSort (fun a b => decide (a = b))
    [(1, [2, 3]), (2, [4]), (3, [4]), (5, [3, 3])] = some (some [5, 1, 2, 3, 4]) := by decide +kernel
example : topologicalSort (fun a b => decide (a = b)) [(1, [2]), (2, [3]), (3, [2])] = some none := by decide +kernel
example : (([(1, [2, 3]), (2, [4]), (3, [4]), (5, [3, 3])] : Graph Nat).map (·.1)).Nodup := by decide

end Gauche.Toposort
