import Verif.Model.Toposort
import Verif.Spec.Graph
import Mathlib.Order.WellFounded
import Mathlib.Data.Fintype.Card
import Mathlib.Data.List.Nodup
import Mathlib.Data.Set.Finite.List
import Mathlib.Order.Preorder.Finite
/-
Proofs about the topological sort.
-/
namespace Gauche.Toposort
open Gauche.Spec

variable {α : Type}

/-! ### Totality, for any equality procedure -/

/-- Number of entries with a positive count. -/
def positives (t : List (α × Int)) : Nat := t.countP fun p => decide (0 < p.2)

theorem positives_setFirst (eq : α → α → Bool) (x : α) (t : List (α × Int)) (p : α × Int)
    (h : assoc eq x t = some p) :
    positives (setFirst eq x (p.2 - 1) t) + (if p.2 - 1 = 0 then 1 else 0) = positives t := by
  induction t with
  | nil => simp [assoc] at h
  | cons a r ih =>
    rw [assoc] at h
    rw [setFirst]
    by_cases hx : eq x a.1 = true
    · rw [if_pos hx] at h ⊢
      simp only [Option.some.injEq] at h
      subst h
      simp only [positives, List.countP_cons, decide_eq_true_eq]
      split <;> split <;> split <;> omega
    · rw [if_neg hx] at h ⊢
      have := ih h
      simp only [positives, List.countP_cons] at this ⊢
      omega

theorem visitEdge_measure (eq : α → α → Bool) (s : State α) (x : α) :
    positives (visitEdge eq s x).table + (visitEdge eq s x).queue.length =
      positives s.table + s.queue.length := by
  unfold visitEdge
  cases h : assoc eq x s.table with
  | none => rfl
  | some p =>
    dsimp only
    have := positives_setFirst eq x s.table p h
    by_cases h1 : p.2 - 1 = 0
    · rw [if_pos h1]; rw [if_pos h1] at this
      dsimp only [List.length_cons]; omega
    · rw [if_neg h1]; rw [if_neg h1] at this
      omega

theorem visitEdges_measure (eq : α → α → Bool) (l : List α) (s : State α) :
    positives (l.foldl (visitEdge eq) s).table + (l.foldl (visitEdge eq) s).queue.length =
      positives s.table + s.queue.length := by
  induction l generalizing s with
  | nil => rfl
  | cons a r ih => rw [List.foldl_cons, ih, visitEdge_measure]

theorem traverse_total (eq : α → α → Bool) (g : Graph α) (fuel : Nat) (s : State α)
    (h : positives s.table + s.queue.length < fuel) : ∃ s', traverse eq g fuel s = some s' := by
  induction fuel generalizing s with
  | zero => omega
  | succ n ih =>
    rw [traverse]
    cases hq : s.queue with
    | nil => exact ⟨s, rfl⟩
    | cons q rest =>
      dsimp only
      rw [hq, List.length_cons] at h
      cases assoc eq q g with
      | none => exact ih _ (by dsimp only; omega)
      | some n0 =>
        refine ih _ ?_
        rw [visitEdges_measure]
        dsimp only; omega

theorem positives_le (t : List (α × Int)) : positives t ≤ t.length := List.countP_le_length

theorem queue0_le (t : List (α × Int)) :
    ((t.map fun p => if p.2 = 0 then [p.1] else []).flatten).length + positives t ≤ t.length := by
  induction t with
  | nil => simp [positives]
  | cons a r ih =>
    simp only [positives, List.map_cons, List.flatten_cons, List.length_append, List.countP_cons,
      List.length_cons] at ih ⊢
    by_cases h : a.2 = 0
    · rw [if_pos h, List.length_singleton, if_neg (by simp [h])]; omega
    · rw [if_neg h, List.length_nil]; split <;> omega

theorem sortDetails_total (eq : α → α → Bool) (g : Graph α) : ∃ a, sortDetails eq g = some a := by
  unfold sortDetails
  dsimp only
  generalize setUp eq g (g.map fun n => (n.1, 0)) = t
  obtain ⟨s, hs⟩ := traverse_total eq g (2 * t.length + 1)
    ⟨t, (t.map fun (p : α × Int) => if p.2 = 0 then [p.1] else []).flatten,
      (t.map fun (p : α × Int) => if p.2 = 0 then [p.1] else []).flatten⟩ (by
        have := queue0_le t
        dsimp only
        omega)
  rw [hs]
  exact ⟨_, rfl⟩

/-! ### Correctness, for equality -/

section
variable [DecidableEq α]

/-- The equality used below. -/
def deq (a b : α) : Bool := decide (a = b)

theorem assoc_deq {β : Type} (x : α) (t : List (α × β)) (p : α × β) (h : assoc deq x t = some p) :
    p.1 = x ∧ p ∈ t := by
  induction t with
  | nil => simp [assoc] at h
  | cons a r ih =>
    rw [assoc] at h
    by_cases hx : deq x a.1 = true
    · rw [if_pos hx] at h; cases h
      simp [deq] at hx
      exact ⟨hx.symm, by simp⟩
    · rw [if_neg hx] at h
      have := ih h
      exact ⟨this.1, by simp [this.2]⟩

theorem assoc_none {β : Type} (x : α) (t : List (α × β)) : assoc deq x t = none ↔ x ∉ t.map (·.1) := by
  induction t with
  | nil => simp [assoc]
  | cons a r ih =>
    rw [assoc]
    by_cases hx : deq x a.1 = true
    · rw [if_pos hx]; simp [deq] at hx; simp [hx]
    · rw [if_neg hx, ih]; simp [deq] at hx; simp [hx]

theorem assoc_of_mem {β : Type} (t : List (α × β)) (p : α × β) (hn : (t.map (·.1)).Nodup) (hp : p ∈ t) :
    assoc deq p.1 t = some p := by
  induction t with
  | nil => simp at hp
  | cons a r ih =>
    rw [assoc]
    simp only [List.map_cons, List.nodup_cons] at hn
    rcases List.mem_cons.1 hp with rfl | hp
    · rw [if_pos (by simp [deq])]
    · rw [if_neg, ih hn.2 hp]
      simp [deq]
      intro e
      exact hn.1 (e ▸ List.mem_map_of_mem hp)

theorem assoc_setFirst {β : Type} (x y : α) (v : β) (t : List (α × β)) :
    assoc deq x (setFirst deq y v t) =
      if x = y then (assoc deq y t).map (fun p => (p.1, v)) else assoc deq x t := by
  induction t with
  | nil => simp [assoc, setFirst]
  | cons a r ih =>
    rw [setFirst]
    by_cases hy : deq y a.1 = true
    · rw [if_pos hy, assoc, assoc, assoc, if_pos hy]
      simp [deq] at hy
      subst hy
      by_cases hx : x = a.1
      · simp [hx, deq]
      · simp [hx, deq]
    · rw [if_neg hy, assoc, assoc, assoc, if_neg hy, ih]
      simp [deq] at hy
      by_cases hx : x = a.1
      · simp [hx, deq]; intro e; exact absurd e.symm hy
      · simp [hx, deq]

theorem keys_setFirst {β : Type} (eq : α → α → Bool) (y : α) (v : β) (t : List (α × β)) :
    (setFirst eq y v t).map (·.1) = t.map (·.1) := by
  induction t with
  | nil => rfl
  | cons a r ih => rw [setFirst]; split <;> simp [ih]

/-- The count of `x`. -/
def look (t : List (α × Int)) (x : α) : Option Int := (assoc deq x t).map (·.2)

theorem look_setFirst (x y : α) (v : Int) (t : List (α × Int)) :
    look (setFirst deq y v t) x = if x = y then (look t y).map (fun _ => v) else look t x := by
  unfold look
  rw [assoc_setFirst]
  by_cases h : x = y
  · rw [if_pos h, if_pos h]; cases assoc deq y t <;> rfl
  · rw [if_neg h, if_neg h]

theorem look_isSome (t : List (α × Int)) (x : α) : (look t x).isSome ↔ x ∈ t.map (·.1) := by
  unfold look
  rw [Option.isSome_map]
  cases h : assoc deq x t with
  | none => simpa using (assoc_none x t).1 h
  | some p =>
    have := assoc_deq x t p h
    simp only [Option.isSome_some, true_iff]
    exact this.1 ▸ List.mem_map_of_mem this.2

theorem mem_iff_look (t : List (α × Int)) (hn : (t.map (·.1)).Nodup) (x : α) (c : Int) :
    (x, c) ∈ t ↔ look t x = some c := by
  constructor
  · intro h; unfold look; rw [assoc_of_mem t (x, c) hn h]; rfl
  · intro h
    unfold look at h
    cases ha : assoc deq x t with
    | none => rw [ha] at h; cases h
    | some p =>
      rw [ha] at h
      have := assoc_deq x t p ha
      obtain ⟨p1, p2⟩ := p
      simp at h this
      rw [← h, ← this.1]; exact this.2

/-! #### Set up -/

theorem countEdge_spec (t : List (α × Int)) (x : α) (hn : (t.map (·.1)).Nodup) :
    ((countEdge deq t x).map (·.1)).Nodup ∧
    ∀ v, look (countEdge deq t x) v = if v = x then some (1 + (look t x).getD 0) else look t v := by
  unfold countEdge
  cases h : assoc deq x t with
  | none =>
    dsimp only
    refine ⟨?_, fun v => ?_⟩
    · simp only [List.map_cons, List.nodup_cons]
      exact ⟨(assoc_none x t).1 h, hn⟩
    · by_cases hv : v = x
      · rw [if_pos hv, hv]; simp [look, assoc, deq, h]
      · rw [if_neg hv]; simp [look, assoc, deq, hv]
  | some p =>
    dsimp only
    refine ⟨by rw [keys_setFirst]; exact hn, fun v => ?_⟩
    rw [look_setFirst]
    by_cases hv : v = x
    · rw [if_pos hv, if_pos hv]; simp [look, h]
    · rw [if_neg hv, if_neg hv]

theorem countEdges_spec (l : List α) (t : List (α × Int)) (hn : (t.map (·.1)).Nodup) :
    ((l.foldl (countEdge deq) t).map (·.1)).Nodup ∧
    ∀ v, look (l.foldl (countEdge deq) t) v =
      if v ∈ l then some (l.count v + (look t v).getD 0) else look t v := by
  induction l generalizing t with
  | nil => exact ⟨hn, fun v => by simp⟩
  | cons a r ih =>
    obtain ⟨h1, h2⟩ := countEdge_spec t a hn
    obtain ⟨h3, h4⟩ := ih _ h1
    refine ⟨h3, fun v => ?_⟩
    rw [List.foldl_cons, h4, h2]
    by_cases hv : v = a
    · subst hv
      by_cases hr : v ∈ r
      · simp [hr]; omega
      · simp [hr, List.count_eq_zero_of_not_mem hr]
    · by_cases hr : v ∈ r
      · simp [hv, hr, List.count_cons, Ne.symm hv]
      · simp [hv, hr]

/-- All edge targets, with multiplicity. -/
def targets (g : Graph α) : List α := g.flatMap (·.2)

theorem mem_targets (g : Graph α) (v : α) : v ∈ targets g ↔ ∃ u, Edge g u v := by
  simp [targets, Edge]

theorem setUp_eq (g : Graph α) (t : List (α × Int)) :
    setUp deq g t = (targets g).foldl (countEdge deq) t := by
  unfold setUp targets
  induction g generalizing t with
  | nil => rfl
  | cons a r ih => rw [List.foldl_cons, ih, List.flatMap_cons, List.foldl_append]

theorem look_init (g : Graph α) (v : α) :
    look (g.map fun n => (n.1, (0 : Int))) v = if v ∈ g.map (·.1) then some 0 else none := by
  induction g with
  | nil => simp [look, assoc]
  | cons a r ih =>
    simp only [look, List.map_cons, assoc] at ih ⊢
    by_cases h : v = a.1
    · simp [h, deq]
    · simp only [deq, h, decide_false, Bool.false_eq_true, if_false, List.mem_cons, false_or]
      exact ih

theorem isNode_iff (g : Graph α) (v : α) : IsNode g v ↔ v ∈ g.map (·.1) ∨ v ∈ targets g := by
  rw [mem_targets]
  unfold IsNode
  simp

open Classical in
theorem setUp_spec (g : Graph α) (hn : (g.map (·.1)).Nodup) :
    ((setUp deq g (g.map fun n => (n.1, 0))).map (·.1)).Nodup ∧
    ∀ v, look (setUp deq g (g.map fun n => (n.1, 0))) v =
      if IsNode g v then some ((targets g).count v : Int) else none := by
  rw [setUp_eq]
  obtain ⟨h1, h2⟩ := countEdges_spec (targets g) (g.map fun n => (n.1, (0 : Int))) (by
    rw [List.map_map]; exact hn)
  refine ⟨h1, fun v => ?_⟩
  rw [h2, look_init]
  by_cases ht : v ∈ targets g
  · rw [if_pos ht, if_pos ((isNode_iff g v).2 (.inr ht))]
    split <;> simp
  · rw [if_neg ht, List.count_eq_zero_of_not_mem ht]
    by_cases hf : v ∈ g.map (·.1)
    · rw [if_pos hf, if_pos ((isNode_iff g v).2 (.inl hf))]; rfl
    · rw [if_neg hf, if_neg]
      rw [isNode_iff]; tauto

/-! #### Traversal -/

/-- The targets of edges whose source has not been handled. -/
def rem (g : Graph α) (P : List α) : List α := targets (g.filter fun n => n.1 ∉ P)

theorem mem_rem (g : Graph α) (P : List α) (v : α) : v ∈ rem g P ↔ ∃ u, Edge g u v ∧ u ∉ P := by
  simp only [rem, mem_targets, Edge, List.mem_filter, decide_eq_true_eq]
  constructor
  · rintro ⟨u, tos, ⟨h1, h2⟩, h3⟩; exact ⟨u, ⟨tos, h1, h3⟩, h2⟩
  · rintro ⟨u, ⟨tos, h1, h3⟩, h2⟩; exact ⟨u, tos, ⟨h1, h2⟩, h3⟩

theorem rem_cons_absent (g : Graph α) (P : List α) (q : α) (h : q ∉ g.map (·.1)) :
    rem g (q :: P) = rem g P := by
  unfold rem
  congr 1
  apply List.filter_congr
  intro n hn
  have : n.1 ≠ q := fun e => h (e ▸ List.mem_map_of_mem hn)
  simp [this]

theorem count_rem_cons (g : Graph α) (P : List α) (q : α) (tos : List α) (hn : (g.map (·.1)).Nodup)
    (hq : (q, tos) ∈ g) (hP : q ∉ P) (v : α) :
    (rem g P).count v = (rem g (q :: P)).count v + tos.count v := by
  induction g with
  | nil => simp at hq
  | cons a r ih =>
    simp only [List.map_cons, List.nodup_cons] at hn
    rcases List.mem_cons.1 hq with rfl | hq
    · have h1 : rem ((q, tos) :: r) P = tos ++ rem r P := by
        simp [rem, targets, hP]
      have h2 : rem ((q, tos) :: r) (q :: P) = rem r (q :: P) := by
        simp [rem, targets]
      rw [h1, h2, rem_cons_absent r P q hn.1, List.count_append]; omega
    · have hne : a.1 ≠ q := fun e => hn.1 (e ▸ List.mem_map_of_mem (f := (·.1)) hq)
      have := ih hn.2 hq
      by_cases ha : a.1 ∈ P
      · have h1 : rem (a :: r) P = rem r P := by simp [rem, targets, ha]
        have h2 : rem (a :: r) (q :: P) = rem r (q :: P) := by simp [rem, targets, ha]
        rw [h1, h2]; exact this
      · have h1 : rem (a :: r) P = a.2 ++ rem r P := by simp [rem, targets, ha]
        have h2 : rem (a :: r) (q :: P) = a.2 ++ rem r (q :: P) := by simp [rem, targets, ha, hne]
        rw [h1, h2, List.count_append, List.count_append, this]; omega

open Classical in
/-- The state of the traversal: `P` are the nodes taken from the queue, `pend` the targets still to be visited of
the last of them. -/
structure Inv (g : Graph α) (P pend : List α) (s : State α) : Prop where
  keys : (s.table.map (·.1)).Nodup
  cnt : ∀ v, look s.table v =
    if IsNode g v then some (((rem g P).count v : Int) + pend.count v) else none
  pendN : ∀ v ∈ pend, ∃ u ∈ P, Edge g u v
  nodup : s.result.Nodup
  mem : ∀ v, v ∈ s.result ↔ IsNode g v ∧ v ∉ rem g P ∧ v ∉ pend
  perm : s.result.Perm (s.queue ++ P)
  order : s.result.Pairwise fun x y => ¬ Edge g x y
  closed : ∀ v ∈ s.result, ∀ u, Edge g u v → u ∈ s.result
  noself : ∀ v ∈ s.result, ¬ Edge g v v

theorem visitEdge_inv {g : Graph α} {P pend : List α} {x : α} {s : State α} (h : Inv g P (x :: pend) s) :
    Inv g P pend (visitEdge deq s x) := by
  have hxN : IsNode g x := by
    obtain ⟨u, _, hu⟩ := h.pendN x (by simp)
    exact .inr ⟨u, hu⟩
  have hcx := h.cnt x
  rw [if_pos hxN, List.count_cons_self] at hcx
  unfold visitEdge
  have hlook : look s.table x = (assoc deq x s.table).map (·.2) := rfl
  cases ha : assoc deq x s.table with
  | none => rw [hlook, ha] at hcx; cases hcx
  | some p =>
    rw [hlook, ha] at hcx
    simp only [Option.map_some, Option.some.injEq] at hcx
    dsimp only
    have hxR : x ∉ s.result := by rw [h.mem]; simp
    have hcnt : ∀ v, look (setFirst deq x (p.2 - 1) s.table) v =
        (open Classical in if IsNode g v then some (((rem g P).count v : Int) + pend.count v) else none) := by
      intro v
      rw [look_setFirst]
      by_cases hv : v = x
      · subst hv
        rw [if_pos rfl, hlook, ha, if_pos hxN]
        simp only [Option.map_some, Option.some.injEq]
        omega
      · rw [if_neg hv, h.cnt v]
        simp [List.count_cons, Ne.symm hv]
    have hpend : ∀ v ∈ pend, ∃ u ∈ P, Edge g u v := fun v hv => h.pendN v (by simp [hv])
    by_cases h0 : p.2 - 1 = 0
    · rw [if_pos h0]
      have hz : (rem g P).count x = 0 ∧ pend.count x = 0 := by omega
      rw [List.count_eq_zero, List.count_eq_zero] at hz
      have hpreds : ∀ u, Edge g u x → u ∈ s.result := by
        intro u hu
        have : u ∈ P := by
          by_contra hc
          exact hz.1 ((mem_rem g P x).2 ⟨u, hu, hc⟩)
        exact h.perm.mem_iff.2 (by simp [this])
      refine ⟨?_, hcnt, hpend, ?_, ?_, ?_, ?_, ?_, ?_⟩
      · dsimp only; rw [keys_setFirst]; exact h.keys
      · exact List.nodup_cons.2 ⟨hxR, h.nodup⟩
      · intro v
        dsimp only
        rw [List.mem_cons, h.mem]
        by_cases hv : v = x
        · subst hv; simp [hxN, hz]
        · simp [hv]
      · exact (h.perm.cons x)
      · refine List.pairwise_cons.2 ⟨fun y hy he => hxR (h.closed y hy x he), h.order⟩
      · intro v hv u hu
        dsimp only at hv ⊢
        rcases List.mem_cons.1 hv with rfl | hv
        · exact List.mem_cons_of_mem _ (hpreds u hu)
        · exact List.mem_cons_of_mem _ (h.closed v hv u hu)
      · intro v hv he
        dsimp only at hv
        rcases List.mem_cons.1 hv with rfl | hv
        · exact hxR (hpreds v he)
        · exact h.noself v hv he
    · rw [if_neg h0]
      refine ⟨?_, hcnt, hpend, h.nodup, ?_, h.perm, h.order, h.closed, h.noself⟩
      · dsimp only; rw [keys_setFirst]; exact h.keys
      · intro v
        dsimp only
        rw [h.mem]
        by_cases hv : v = x
        · subst hv
          constructor
          · intro hx; simp at hx
          · rintro ⟨_, h1, h2⟩
            rw [List.count_eq_zero_of_not_mem h1, List.count_eq_zero_of_not_mem h2] at hcx
            simp at hcx; omega
        · simp [hv]

theorem visitEdges_inv {g : Graph α} {P : List α} (pend : List α) {s : State α} (h : Inv g P pend s) :
    Inv g P [] (pend.foldl (visitEdge deq) s) := by
  induction pend generalizing s with
  | nil => exact h
  | cons a r ih => exact ih (visitEdge_inv h)

theorem traverse_inv {g : Graph α} (hn : (g.map (·.1)).Nodup) (fuel : Nat) {P : List α} {s s' : State α}
    (h : Inv g P [] s) (e : traverse deq g fuel s = some s') : ∃ P', Inv g P' [] s' ∧ s'.queue = [] := by
  induction fuel generalizing P s with
  | zero => cases e
  | succ n ih =>
    rw [traverse] at e
    cases hq : s.queue with
    | nil => rw [hq] at e; cases e; exact ⟨P, h, hq⟩
    | cons q rest =>
      rw [hq] at e
      dsimp only at e
      have hperm : s.result.Perm (q :: rest ++ P) := by rw [← hq]; exact h.perm
      have hqP : q ∉ P := by
        have := hperm.nodup_iff.1 h.nodup
        simp at this
        exact this.1.2
      cases ha : assoc deq q g with
      | none =>
        rw [ha] at e
        have hr := rem_cons_absent g P q ((assoc_none q g).1 ha)
        refine ih (P := q :: P) ?_ e
        refine ⟨h.keys, ?_, by simp, h.nodup, ?_, ?_, h.order, h.closed, h.noself⟩
        · rw [hr]; exact h.cnt
        · rw [hr]; exact h.mem
        · exact hperm.trans (by dsimp only; exact List.perm_middle.symm)
      | some n0 =>
        rw [ha] at e
        dsimp only at e
        obtain ⟨h1, h2⟩ := assoc_deq q g n0 ha
        obtain ⟨n1, tos⟩ := n0
        simp only at h1 h2 e
        subst h1
        refine ih (P := n1 :: P) (visitEdges_inv (P := n1 :: P) tos ?_) e
        have hc := count_rem_cons g P n1 tos hn h2 hqP
        refine ⟨h.keys, ?_, ?_, h.nodup, ?_, ?_, h.order, h.closed, h.noself⟩
        · intro v
          rw [h.cnt v, hc v]
          simp
        · intro v hv; exact ⟨n1, by simp, tos, h2, hv⟩
        · intro v
          rw [h.mem]
          have := hc v
          rw [← List.count_eq_zero (a := v) (l := rem g P), this, Nat.add_eq_zero_iff,
            List.count_eq_zero, List.count_eq_zero]
          simp
        · exact hperm.trans (by dsimp only; exact List.perm_middle.symm)

theorem init_inv {g : Graph α} (hn : (g.map (·.1)).Nodup) {t : List (α × Int)}
    (ht : setUp deq g (g.map fun n => (n.1, 0)) = t) :
    Inv g [] [] ⟨t, (t.map fun p => if p.2 = 0 then [p.1] else []).flatten,
      (t.map fun p => if p.2 = 0 then [p.1] else []).flatten⟩ := by
  obtain ⟨h1, h2⟩ := setUp_spec g hn
  rw [ht] at h1 h2
  have hrem : rem g [] = targets g := by simp [rem]
  have hm : ∀ v, v ∈ (t.map fun p => if p.2 = 0 then [p.1] else []).flatten ↔
      IsNode g v ∧ v ∉ targets g := by
    intro v
    rw [List.mem_flatten]
    have : (∃ l ∈ t.map (fun p => if p.2 = 0 then [p.1] else []), v ∈ l) ↔ (v, (0 : Int)) ∈ t := by
      constructor
      · rintro ⟨l, hl, hv⟩
        obtain ⟨p, hp, rfl⟩ := List.mem_map.1 hl
        by_cases h0 : p.2 = 0
        · rw [if_pos h0] at hv
          simp at hv
          rw [hv, ← h0]; exact hp
        · rw [if_neg h0] at hv; simp at hv
      · intro h
        exact ⟨[v], List.mem_map.2 ⟨(v, 0), h, by simp⟩, by simp⟩
    rw [this, mem_iff_look t h1, h2 v]
    by_cases hN : IsNode g v
    · simp [hN, List.count_eq_zero]
    · simp [hN]
  have hnoedge : ∀ v ∈ (t.map fun p => if p.2 = 0 then [p.1] else []).flatten, ∀ u, ¬ Edge g u v := by
    intro v hv u hu
    exact ((hm v).1 hv).2 ((mem_targets g v).2 ⟨u, hu⟩)
  refine ⟨h1, ?_, by simp, ?_, ?_, by simp, ?_, ?_, ?_⟩
  · intro v; rw [hrem, h2 v]; simp
  · dsimp only
    clear hm hnoedge h2 ht
    induction t with
    | nil => simp
    | cons a r ih =>
      simp only [List.map_cons, List.nodup_cons] at h1
      simp only [List.map_cons, List.flatten_cons]
      refine List.Nodup.append (by split <;> simp) (ih h1.2) ?_
      intro x hx hx2
      by_cases h0 : a.2 = 0
      · rw [if_pos h0] at hx
        simp at hx
        subst hx
        obtain ⟨l, hl, hxl⟩ := List.mem_flatten.1 hx2
        obtain ⟨p, hp, rfl⟩ := List.mem_map.1 hl
        by_cases hp0 : p.2 = 0
        · rw [if_pos hp0] at hxl
          simp at hxl
          exact h1.1 (hxl ▸ List.mem_map_of_mem hp)
        · rw [if_neg hp0] at hxl; simp at hxl
      · rw [if_neg h0] at hx; simp at hx
  · intro v; dsimp only; rw [hm, hrem]; simp
  · exact List.Pairwise.imp_of_mem (R := fun _ _ => True)
      (fun _ hb _ => hnoedge _ hb _) (List.pairwise_of_forall (by simp))
  · intro v hv u hu; exact absurd hu (hnoedge v hv u)
  · intro v hv; exact hnoedge v hv v

/-! #### Cycles -/

/-- Along a list without backward edges whose members have their predecessors in it, there is no cycle. -/
theorem no_cycle {g : Graph α} {l : List α} (ho : l.Pairwise fun x y => ¬ Edge g x y)
    (hc : ∀ v ∈ l, ∀ u, Edge g u v → u ∈ l) (hs : ∀ v ∈ l, ¬ Edge g v v) {v : α} (hv : v ∈ l) :
    ¬ Relation.TransGen (Edge g) v v := by
  induction l with
  | nil => cases hv
  | cons a r ih =>
    obtain ⟨h1, h2⟩ := List.pairwise_cons.1 ho
    have hr : ∀ v ∈ r, ∀ u, Edge g u v → u ∈ r := by
      intro v hvr u hu
      rcases List.mem_cons.1 (hc v (by simp [hvr]) u hu) with rfl | h
      · exact absurd hu (h1 v hvr)
      · exact h
    have hback : ∀ {x y}, Relation.ReflTransGen (Edge g) x y → y ∈ r → x ∈ r := by
      intro x y hxy hy
      induction hxy with
      | refl => exact hy
      | tail _ h ih => exact ih (hr _ hy _ h)
    by_cases hvr : v ∈ r
    · exact ih h2 hr (fun w hw => hs w (by simp [hw])) hvr
    · have hva : v = a := by simpa [hvr] using hv
      subst hva
      intro ht
      obtain ⟨w, hw1, hw2⟩ := Relation.TransGen.tail'_iff.1 ht
      rcases List.mem_cons.1 (hc v (by simp) w hw2) with rfl | hw
      · exact hs w (by simp) hw2
      · exact hvr (hback hw1 hw)

/-- In a finite set where everything has a predecessor, everything is reached from a cycle. -/
theorem reached_from_cycle {g : Graph α} {S : List α} (hS : ∀ v ∈ S, ∃ u ∈ S, Edge g u v) {v : α} (hv : v ∈ S) :
    ∃ w, OnCycle g w ∧ Relation.ReflTransGen (Edge g) w v := by
  by_contra hno
  push_neg at hno
  let T : Set α := {x | x ∈ S ∧ Relation.ReflTransGen (Edge g) x v}
  have hfin : T.Finite := (List.finite_toSet S).subset fun x hx => hx.1
  haveI : Finite T := hfin
  haveI : IsTrans T (fun x y => Relation.TransGen (Edge g) x.1 y.1) := ⟨fun _ _ _ h1 h2 => h1.trans h2⟩
  haveI : Std.Irrefl (fun (x y : T) => Relation.TransGen (Edge g) x.1 y.1) :=
    ⟨fun x hx => hno x.1 hx x.2.2⟩
  have hwf := Finite.wellFounded_of_trans_of_irrefl (fun (x y : T) => Relation.TransGen (Edge g) x.1 y.1)
  obtain ⟨m, _, hm⟩ := hwf.has_min Set.univ ⟨⟨v, hv, .refl⟩, trivial⟩
  obtain ⟨u, hu, he⟩ := hS m.1 m.2.1
  exact hm ⟨u, hu, Relation.ReflTransGen.head he m.2.2⟩ trivial (.single he)

end
end Gauche.Toposort
