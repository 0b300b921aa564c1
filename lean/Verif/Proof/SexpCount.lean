import Verif.Proof.SexpShare
import Mathlib.Algebra.BigOperators.Ring.Finset
/-
The walk of `write-shared` counts the references to each object.
-/
namespace Gauche.Sexp

/-- The number in the table. -/
def num (t : Tab) (p : Nat) : Int := (t p).getD 0

/-- The references to `p` from the objects that are new in `t'`. -/
def newEdges (H : List Cell) (t t' : Tab) (p : Nat) : Int :=
  ∑ q ∈ Finset.range H.length, if t q = none ∧ t' q ≠ none then ((cellAt H q).parts.count (V.ptr p) : Int) else 0

/-- What the walk over `vs` does. -/
structure Counts (H : List Cell) (t t' : Tab) (vs : List V) : Prop where
  mono : ∀ q, t q ≠ none → t' q ≠ none
  cnt : ∀ p, (cellAt H p).plain = false → num t' p = num t p + (vs.count (.ptr p) : Int) + newEdges H t t' p
  here : ∀ r, V.ptr r ∈ vs → (cellAt H r).plain = false → t' r ≠ none
  closed : ∀ q, t q = none → t' q ≠ none → ∀ r, V.ptr r ∈ (cellAt H q).parts → (cellAt H r).plain = false → t' r ≠ none

theorem newEdges_same {H : List Cell} {t t' : Tab} {p : Nat} (h : ∀ q, t q = none → t' q = none) : newEdges H t t' p = 0 := by
  unfold newEdges
  refine Finset.sum_eq_zero fun q _ => ?_
  rw [if_neg]
  rintro ⟨h1, h2⟩
  exact h2 (h q h1)

theorem newEdges_trans {H : List Cell} {t u w : Tab} {p : Nat} (h1 : ∀ q, t q ≠ none → u q ≠ none) (h2 : ∀ q, u q ≠ none → w q ≠ none) :
    newEdges H t w p = newEdges H t u p + newEdges H u w p := by
  unfold newEdges
  rw [← Finset.sum_add_distrib]
  refine Finset.sum_congr rfl fun q _ => ?_
  by_cases a : t q = none
  · by_cases b : u q = none
    · simp [a, b]
    · simp [a, b, h2 q b]
  · have b := h1 q a
    simp [a, b]

theorem newEdges_set {H : List Cell} {t : Tab} {p r : Nat} {k : Int} (hp : p < H.length) (h : t p = none) :
    newEdges H t (t.set p (some k)) r = (cellAt H p).parts.count (V.ptr r) := by
  unfold newEdges
  rw [← Finset.sum_ite_eq_of_mem' (Finset.range H.length) p (fun q => ((cellAt H q).parts.count (V.ptr r) : Int)) (Finset.mem_range.2 hp)]
  refine Finset.sum_congr rfl fun q _ => ?_
  unfold Tab.set
  by_cases hq : q = p
  · subst hq; simp [h]
  · simp only [hq, if_false]
    rw [if_neg]
    rintro ⟨a, b⟩; exact b a

theorem Counts.nil {H : List Cell} (t : Tab) : Counts H t t [] :=
  ⟨fun _ h => h, fun p _ => by rw [newEdges_same fun _ h => h]; simp, (fun r hr => by cases hr), fun q h1 h2 => absurd h1 h2⟩

theorem Counts.cons {H : List Cell} {t u w : Tab} {v : V} {vs : List V} (h1 : Counts H t u [v]) (h2 : Counts H u w vs) : Counts H t w (v :: vs) := by
  refine ⟨fun q h => h2.mono q (h1.mono q h), fun p hp => ?_, fun r hr hp => ?_, fun q hq hq' r hr hp => ?_⟩
  · have hcc : (v :: vs).count (V.ptr p) = [v].count (V.ptr p) + vs.count (V.ptr p) := by
      rw [← List.count_append]; rfl
    rw [h2.cnt p hp, h1.cnt p hp, newEdges_trans h1.mono h2.mono, hcc]
    omega
  · rw [List.mem_cons] at hr
    rcases hr with rfl | hr
    · exact h2.mono r (h1.here r (by simp) hp)
    · exact h2.here r hr hp
  · by_cases hu : u q = none
    · exact h2.closed q hu hq' r hr hp
    · exact h2.mono r (h1.closed q hq hu r hr hp)

theorem walkL_counts {H : List Cell} {f : Tab → V → Option Tab} (hf : ∀ t v t', f t v = some t' → InHeap H v → Counts H t t' [v]) :
    ∀ (vs : List V) t t', walkL f t vs = some t' → (∀ v ∈ vs, InHeap H v) → Counts H t t' vs := by
  intro vs
  induction vs with
  | nil => intro t t' h _; rw [walkL] at h; injection h with h; subst h; exact Counts.nil t
  | cons v vs ih =>
    intro t t' h hv
    rw [walkL] at h
    cases h1 : f t v with
    | none => rw [h1] at h; cases h
    | some u =>
      rw [h1] at h
      exact (hf t v u h1 (hv v (by simp))).cons (ih u t' h fun w hw => hv w (List.mem_cons_of_mem _ hw))

theorem walk_counts {H : List Cell} (hH : Closed H) (n : Nat) : ∀ t v t', walk H true n t v = some t' → InHeap H v → Counts H t t' [v] := by
  induction n with
  | zero => intro t v t' h; cases h
  | succ n ih =>
    intro t v t' h hv
    have other : (∀ r, v = .ptr r → (cellAt H r).plain = true) → t' = t → Counts H t t' [v] := by
      intro hp he
      subst he
      refine ⟨fun _ h => h, fun p hp' => ?_, fun r hr hp' => ?_, fun q h1 h2 => absurd h1 h2⟩
      · rw [newEdges_same fun _ h => h, List.count_cons_of_ne]
        · simp
        · intro hc; rw [hp p hc] at hp'; cases hp'
      · rw [List.mem_singleton] at hr; rw [hp r hr.symm] at hp'; cases hp'
    cases v with
    | imm a =>
      rw [walk] at h
      · injection h with h; exact other (fun r hr => by cases hr) h.symm
      · intro p hp; cases hp
    | ref k =>
      rw [walk] at h
      · injection h with h; exact other (fun r hr => by cases hr) h.symm
      · intro p hp; cases hp
    | ptr p =>
      rw [walk] at h
      cases hpl : (cellAt H p).plain with
      | true =>
        simp only [hpl, if_true] at h
        injection h with h
        exact other (fun r hr => by injection hr with hr; rw [← hr]; exact hpl) h.symm
      | false =>
        simp only [hpl] at h
        rw [if_neg (by decide)] at h
        cases htp : t p with
        | some k =>
          rw [htp] at h
          injection h with h
          subst h
          have hset : ∀ q, (t.set p (some (k + 1))) q = if q = p then some (k + 1) else t q := fun q => rfl
          have hsame : ∀ q, t q = none → (t.set p (some (k + 1))) q = none := by
            intro q hq; rw [hset, if_neg]; exact hq
            intro hqp; rw [hqp, htp] at hq; cases hq
          refine ⟨fun q hq => ?_, fun r hr => ?_, fun r hr _ => ?_, fun q h1 h2 => absurd (hsame q h1) h2⟩
          · rw [hset]; by_cases hqp : q = p
            · simp [hqp]
            · rw [if_neg hqp]; exact hq
          · rw [newEdges_same hsame]
            unfold num
            rw [hset]
            by_cases hrp : r = p
            · subst hrp; simp [htp]
            · rw [if_neg hrp, List.count_cons_of_ne (by intro hc; injection hc with hc; exact hrp hc.symm)]; simp
          · rw [List.mem_singleton] at hr; injection hr with hr; subst hr
            rw [hset, if_pos rfl]; simp
        | none =>
          rw [htp] at h
          simp only [] at h
          cases hw : walkL (walk H true n) (t.set p (some 1)) (cellAt H p).parts with
          | none => rw [hw] at h; cases h
          | some u =>
            rw [hw] at h
            simp at h
            subst h
            have hc := walkL_counts ih _ _ _ hw (hH p)
            have hset : ∀ q, (t.set p (some 1)) q = if q = p then some 1 else t q := fun q => rfl
            have hm : ∀ q, t q ≠ none → (t.set p (some 1)) q ≠ none := by
              intro q hq; rw [hset]; by_cases hqp : q = p
              · simp [hqp]
              · rw [if_neg hqp]; exact hq
            have hup : u p ≠ none := hc.mono p (by rw [hset, if_pos rfl]; simp)
            refine ⟨fun q hq => hc.mono q (hm q hq), fun r hr => ?_, fun r hr _ => ?_, fun q h1 h2 r hr hpr => ?_⟩
            · rw [hc.cnt r hr, newEdges_trans hm hc.mono, newEdges_set (hv p rfl) htp]
              have : num (t.set p (some 1)) r = num t r + (([V.ptr p] : List V).count (.ptr r) : Int) := by
                unfold num
                rw [hset]
                by_cases hrp : r = p
                · subst hrp; simp [htp]
                · rw [if_neg hrp, List.count_cons_of_ne (by intro hc; injection hc with hc; exact hrp hc.symm)]; simp
              rw [this]
              omega
            · rw [List.mem_singleton] at hr; injection hr with hr; subst hr; exact hup
            · by_cases hq : q = p
              · subst hq; exact hc.here r hr hpr
              · exact hc.closed q (by rw [hset, if_neg hq]; exact h1) h2 r hr hpr

/-- Before writing. -/
theorem tinv_start {H : List Cell} (hH : Closed H) {n : Nat} {v : V} {t0 : Tab} (h : walk H true n (fun _ => none) v = some t0) (hv : InHeap H v) :
    TInv H t0 ⟨t0, 0⟩ [v] [] := by
  have hc := walk_counts hH n _ _ _ h hv
  refine ⟨fun q hq => hc.closed q rfl hq, fun q r hr => hH q _ hr r rfl, by simp, fun p hp => ?_, fun p hp h1 => ?_, fun p _ hx => by cases hx⟩
  · rw [List.mem_singleton] at hp
    exact ⟨hv p hp.symm, fun hpl => hc.here p (by rw [hp]; simp) hpl⟩
  · have h2 := hc.cnt p hp
    have h3 : newEdges H (fun _ => none) t0 p = (edges H t0 [] p : Int) := by
      unfold newEdges edges
      rw [Nat.cast_sum]
      refine Finset.sum_congr rfl fun q _ => ?_
      cases t0 q <;> simp
    rw [h3] at h2
    unfold num at h2
    rw [h1] at h2
    simp only [Option.getD] at h2
    rw [if_neg (by simp)]
    omega

end Gauche.Sexp
