import Verif.Spec.Unify
namespace Gauche.Unify

/-! ## Soundness -/

theorem sat_put {s : Nat → Tree} {d : Dict} {v : Nat} {t : Tree} (h : d v = none) : Sat s (put d v t) ↔ Sat s d ∧ s v = eval s t := by
  constructor
  · intro hs
    refine ⟨?_, hs v t (by simp [put])⟩
    intro x u hx
    refine hs x u ?_
    rw [put]
    by_cases hxv : x = v
    · rw [hxv, h] at hx; cases hx
    · rw [if_neg hxv]; exact hx
  · rintro ⟨hs, hv⟩ x u hx
    rw [put] at hx
    by_cases hxv : x = v
    · rw [if_pos hxv] at hx; cases hx; rw [hxv]; exact hv
    · rw [if_neg hxv] at hx; exact hs x u hx

/-- What a result means: a dictionary satisfied by the assignments that satisfy the old one and unify, or that there is no such assignment. -/
def Means (d : Dict) (a b : Tree) (r : Option Dict) : Prop :=
  match r with
  | some d' => ∀ s, Sat s d' ↔ Sat s d ∧ eval s a = eval s b
  | none => ∀ s, Sat s d → eval s a ≠ eval s b

theorem Means.symm {d : Dict} {a b : Tree} {r : Option Dict} (h : Means d a b r) : Means d b a r := by
  cases r with
  | none => exact fun s hs e => h s hs e.symm
  | some d' => intro s; rw [h s]; exact ⟨fun h => ⟨h.1, h.2.symm⟩, fun h => ⟨h.1, h.2.symm⟩⟩

theorem Means.of_eq {d : Dict} {a b a' b' : Tree} {r : Option Dict} (h : Means d a' b' r)
    (ha : ∀ s, Sat s d → eval s a = eval s a') (hb : ∀ s, Sat s d → eval s b = eval s b') : Means d a b r := by
  cases r with
  | none => intro s hs e; rw [ha s hs, hb s hs] at e; exact h s hs e
  | some d' =>
    intro s; rw [h s]
    constructor
    · rintro ⟨hs, e⟩; exact ⟨hs, by rw [ha s hs, hb s hs, e]⟩
    · rintro ⟨hs, e⟩; exact ⟨hs, by rw [← ha s hs, ← hb s hs, e]⟩

mutual
/-- The number of nodes of a tree. -/
def size : Tree → Nat
  | .var _ => 1
  | .val _ => 1
  | .tup l => 1 + sizeL l
def sizeL : List Tree → Nat
  | [] => 0
  | a :: l => size a + sizeL l
end

theorem occursL_true {rec : Tree → Option Bool} : ∀ (l : List Tree), occursL rec l = some true → ∃ a ∈ l, rec a = some true := by
  intro l
  induction l with
  | nil => intro h; cases h
  | cons a l ih =>
    intro h
    rw [occursL] at h
    cases hr : rec a with
    | none => rw [hr] at h; cases h
    | some f =>
      cases f with
      | true => exact ⟨a, List.mem_cons_self, hr⟩
      | false =>
        rw [hr] at h
        obtain ⟨b, hb, h'⟩ := ih h
        exact ⟨b, List.mem_cons_of_mem _ hb, h'⟩

theorem occursL_false {rec : Tree → Option Bool} : ∀ (l : List Tree), occursL rec l = some false → ∀ a ∈ l, rec a = some false := by
  intro l
  induction l with
  | nil => intro _ a ha; cases ha
  | cons a l ih =>
    intro h b hb
    rw [occursL] at h
    cases hr : rec a with
    | none => rw [hr] at h; cases h
    | some f =>
      cases f with
      | true => rw [hr] at h; cases h
      | false =>
        rw [hr] at h
        rcases List.mem_cons.1 hb with rfl | hb
        · exact hr
        · exact ih h b hb

theorem size_mem (s : Nat → Tree) {a : Tree} : ∀ {l : List Tree}, a ∈ l → size (eval s a) ≤ sizeL (evalL s l) := by
  intro l
  induction l with
  | nil => intro h; cases h
  | cons b l ih =>
    intro h
    rw [evalL, sizeL]
    rcases List.mem_cons.1 h with rfl | h
    · omega
    · have := ih h; omega

theorem occurs_size {s : Nat → Tree} {d : Dict} (hs : Sat s d) {v : Nat} : ∀ (k : Nat) (x : Tree), occurs k v x d = some true →
    size (s v) ≤ size (eval s x) ∧ (∀ l, x = .tup l → size (s v) < size (eval s x)) := by
  intro k
  induction k with
  | zero => intro x h; cases h
  | succ k ih =>
    intro x h
    rw [occurs.eq_def] at h
    cases x with
    | val c => cases h
    | var y =>
      dsimp only at h
      refine ⟨?_, fun l e => by cases e⟩
      rw [eval]
      by_cases hv : v = y
      · rw [hv]; exact Nat.le_refl _
      · rw [if_neg hv] at h
        cases hd : d y with
        | none => rw [hd] at h; cases h
        | some t => rw [hd] at h; rw [hs y t hd]; exact (ih t h).1
    | tup l =>
      dsimp only at h
      obtain ⟨a, ha, h'⟩ := occursL_true l h
      have h1 := (ih a h').1
      have h2 := size_mem s ha
      have : size (s v) < size (eval s (.tup l)) := by rw [eval, size]; omega
      exact ⟨by omega, fun l' _ => this⟩

theorem bind_means {d : Dict} {v k : Nat} {x : Tree} (hv : d v = none) (hx : ∀ y, x = .var y → v ≠ y ∧ d y = none) {r : Option Dict}
    (h : (occurs k v x d).map (fun o => if o then none else some (put d v x)) = some r) : Means d (.var v) x r := by
  obtain ⟨o, ho, rfl⟩ := Option.map_eq_some_iff.1 h
  cases o with
  | false =>
    intro s
    rw [if_neg (by simp)] at *
    rw [sat_put hv, eval]
  | true =>
    rw [if_pos rfl]
    intro s hs e
    rw [eval] at e
    cases x with
    | val c => cases k <;> simp [occurs] at ho
    | var y =>
      obtain ⟨h1, h2⟩ := hx y rfl
      cases k <;> simp [occurs, h1, h2] at ho
    | tup l =>
      have := (occurs_size hs k _ ho).2 l rfl
      rw [e] at this
      omega

theorem unifyVar_means {k : Nat} {rec : Tree → Tree → Dict → Option (Option Dict)} {d : Dict}
    (ih : ∀ a b r, rec a b d = some r → Means d a b r) {v : Nat} {x : Tree} {r : Option Dict}
    (h : unifyVar k rec v x d = some r) : Means d (.var v) x r := by
  have deref : ∀ t, d v = some t → rec t x d = some r → Means d (.var v) x r := fun t hd h' =>
    (ih t x r h').of_eq (fun s hs => by rw [eval]; exact hs v t hd) (fun _ _ => rfl)
  have gen : (∀ y, x ≠ .var y) → (match d v with
      | some t => rec t x d
      | none => (occurs k v x d).map (fun o => if o then none else some (put d v x))) = some r → Means d (.var v) x r := by
    intro hx h
    cases hd : d v with
    | some t => rw [hd] at h; exact deref t hd h
    | none => rw [hd] at h; exact bind_means hd (fun y e => absurd e (hx y)) h
  cases x with
  | val c => exact gen (fun y e => by cases e) h
  | tup l => exact gen (fun y e => by cases e) h
  | var y =>
    rw [unifyVar] at h
    by_cases hv : v = y
    · rw [if_pos hv] at h; cases h
      intro s; rw [hv]; exact ⟨fun h => ⟨h, rfl⟩, fun h => h.1⟩
    · rw [if_neg hv] at h
      cases hd : d v with
      | some t => rw [hd] at h; exact deref t hd h
      | none =>
        rw [hd] at h
        dsimp only at h
        cases hy : d y with
        | some t =>
          rw [hy] at h
          exact (ih _ _ r h).of_eq (fun _ _ => rfl) (fun s hs => by rw [eval]; exact hs y t hy)
        | none =>
          rw [hy] at h
          exact bind_means hd (fun y' e => by cases e; exact ⟨hv, hy⟩) h

theorem unifyL_means {rec : Tree → Tree → Dict → Option (Option Dict)} (ih : ∀ a b d r, rec a b d = some r → Means d a b r) :
    ∀ (l l' : List Tree) (d : Dict) (r : Option Dict), unifyL rec l l' d = some r → Means d (.tup l) (.tup l') r := by
  intro l
  induction l with
  | nil =>
    intro l' d r h
    cases l' with
    | nil => cases h; intro s; exact ⟨fun h => ⟨h, rfl⟩, fun h => h.1⟩
    | cons b l' => cases h; intro s _ e; simp [eval, evalL] at e
  | cons a l ihl =>
    intro l' d r h
    cases l' with
    | nil => cases h; intro s _ e; simp [eval, evalL] at e
    | cons b l' =>
      rw [unifyL] at h
      have cons_eq : ∀ s, eval s (.tup (a :: l)) = eval s (.tup (b :: l')) ↔ eval s a = eval s b ∧ eval s (.tup l) = eval s (.tup l') := by
        intro s
        simp only [eval, evalL, Tree.tup.injEq, List.cons.injEq]
      cases hr : rec a b d with
      | none => rw [hr] at h; cases h
      | some r1 =>
        rw [hr] at h
        have h1 := ih a b d r1 hr
        cases r1 with
        | none =>
          cases h
          intro s hs e
          exact h1 s hs ((cons_eq s).1 e).1
        | some d' =>
          have h2 := ihl l' d' r h
          cases r with
          | none =>
            intro s hs e
            have e := (cons_eq s).1 e
            exact h2 s ((h1 s).2 ⟨hs, e.1⟩) e.2
          | some d'' =>
            intro s
            rw [h2 s, h1 s, cons_eq s, and_assoc]

theorem unifyRec_means : ∀ (k : Nat) (a b : Tree) (d : Dict) (r : Option Dict), unifyRec k a b d = some r → Means d a b r := by
  intro k
  induction k with
  | zero => intro a b d r h; cases h
  | succ k ih =>
    intro a b d r h
    cases a with
    | var v =>
      have h' : unifyVar k (unifyRec k) v b d = some r := by simpa only [unifyRec] using h
      exact unifyVar_means (fun a b r => ih a b d r) h'
    | val c =>
      cases b with
      | var v =>
        have h' : unifyVar k (unifyRec k) v (.val c) d = some r := by simpa only [unifyRec] using h
        exact (unifyVar_means (fun a b r => ih a b d r) h').symm
      | val c' =>
        have h' : some (if c = c' then some d else none) = some r := h
        cases h'
        by_cases hc : c = c'
        · rw [if_pos hc, hc]; intro s; exact ⟨fun h => ⟨h, rfl⟩, fun h => h.1⟩
        · rw [if_neg hc]; intro s _ e; simp [eval] at e; exact hc e
      | tup l => cases h; intro s _ e; simp [eval] at e
    | tup l =>
      cases b with
      | var v =>
        have h' : unifyVar k (unifyRec k) v (.tup l) d = some r := by simpa only [unifyRec] using h
        exact (unifyVar_means (fun a b r => ih a b d r) h').symm
      | val c' => cases h; intro s _ e; simp [eval] at e
      | tup l' => exact unifyL_means ih l l' d r h

/-! ## Acyclic dictionaries -/

mutual
/-- `y` occurs in the tree. -/
def In (y : Nat) : Tree → Prop
  | .var v => y = v
  | .val _ => False
  | .tup l => InL y l
def InL (y : Nat) : List Tree → Prop
  | [] => False
  | a :: l => In y a ∨ InL y l
end

theorem inL_iff {y : Nat} {l : List Tree} : InL y l ↔ ∃ a ∈ l, In y a := by
  induction l with
  | nil => simp [InL]
  | cons a l ih => simp [InL, ih]

mutual
theorem eval_congr {s s' : Nat → Tree} : ∀ (t : Tree), (∀ y, In y t → s y = s' y) → eval s t = eval s' t
  | .var v, h => h v rfl
  | .val _, _ => rfl
  | .tup l, h => by rw [eval, eval, evalL_congr l h]
theorem evalL_congr {s s' : Nat → Tree} : ∀ (l : List Tree), (∀ y, InL y l → s y = s' y) → evalL s l = evalL s' l
  | [], _ => rfl
  | a :: l, h => by rw [evalL, evalL, eval_congr a (fun y hy => h y (Or.inl hy)), evalL_congr l (fun y hy => h y (Or.inr hy))]
end

/-- Every variable has a larger rank than those in its tree. -/
def Ranked (rank : Nat → Nat) (d : Dict) : Prop := ∀ v t, d v = some t → ∀ y, In y t → rank y < rank v

/-- `v` is reached from `x` through the dictionary. -/
inductive Reach (d : Dict) (v : Nat) : Tree → Prop
  | here {x : Tree} : In v x → Reach d v x
  | step {x t : Tree} {y : Nat} : In y x → d y = some t → Reach d v t → Reach d v x

theorem occurs_reach {d : Dict} {v : Nat} : ∀ (k : Nat) (x : Tree), occurs k v x d = some false → ¬ Reach d v x := by
  intro k
  induction k with
  | zero => intro x h; cases h
  | succ k ih =>
    intro x h hr
    rw [occurs.eq_def] at h
    cases x with
    | val c => cases hr with
      | here h => exact h
      | step h => exact h
    | var y =>
      dsimp only at h
      by_cases hv : v = y
      · rw [if_pos hv] at h; cases h
      · rw [if_neg hv] at h
        cases hr with
        | here h => exact hv h
        | step hy hd hr =>
          have hy' : _ = y := hy
          subst hy'
          rw [hd] at h
          exact ih _ h hr
    | tup l =>
      dsimp only at h
      have h := occursL_false l h
      cases hr with
      | here hi =>
        obtain ⟨a, ha, hi⟩ := inL_iff.1 hi
        exact ih a (h a ha) (.here hi)
      | step hy hd hr =>
        obtain ⟨a, ha, hi⟩ := inL_iff.1 hy
        exact ih a (h a ha) (.step hi hd hr)

mutual
/-- A number larger than the ranks of the variables of a tree. -/
def top (rank : Nat → Nat) : Tree → Nat
  | .var v => rank v + 1
  | .val _ => 0
  | .tup l => topL rank l
def topL (rank : Nat → Nat) : List Tree → Nat
  | [] => 0
  | a :: l => max (top rank a) (topL rank l)
end

mutual
theorem lt_top {rank : Nat → Nat} {y : Nat} : ∀ (t : Tree), In y t → rank y < top rank t
  | .var v, h => by have h : y = v := h; rw [top, h]; omega
  | .val _, h => False.elim h
  | .tup l, h => by rw [top]; exact lt_topL l h
theorem lt_topL {rank : Nat → Nat} {y : Nat} : ∀ (l : List Tree), InL y l → rank y < topL rank l
  | [], h => False.elim h
  | a :: l, h => by
    rw [topL]
    rcases h with h | h
    · have := lt_top (rank := rank) a h; omega
    · have := lt_topL (rank := rank) l h; omega
end

open Classical in
theorem ranked_put {rank : Nat → Nat} {d : Dict} (hr : Ranked rank d) {v : Nat} {x : Tree} (hv : d v = none) (hx : ¬ Reach d v x) :
    ∃ rank', Ranked rank' (put d v x) := by
  refine ⟨fun u => rank u + if Reach d v (.var u) then top rank x else 0, ?_⟩
  intro u t hu y hy
  dsimp only
  rw [put] at hu
  by_cases huv : u = v
  · rw [if_pos huv] at hu; cases hu
    have h1 : Reach d v (.var u) := .here (by rw [huv]; exact rfl)
    have h2 : ¬ Reach d v (.var y) := by
      intro h
      apply hx
      cases h with
      | here h => have h : v = y := h; rw [h]; exact .here hy
      | step h1 h2 h3 => have h1 : _ = y := h1; subst h1; exact .step hy h2 h3
    rw [if_pos h1, if_neg h2]
    have := lt_top (rank := rank) x hy
    omega
  · rw [if_neg huv] at hu
    have := hr u t hu y hy
    by_cases h : Reach d v (.var y)
    · have h1 : Reach d v (.var u) := by
        refine .step rfl hu ?_
        cases h with
        | here h => have h : v = y := h; rw [h]; exact .here hy
        | step h1 h2 h3 => have h1 : _ = y := h1; subst h1; exact .step hy h2 h3
      rw [if_pos h, if_pos h1]; omega
    · rw [if_neg h]; omega

theorem unifyVar_ranked {k : Nat} {rec : Tree → Tree → Dict → Option (Option Dict)} {d : Dict} (hr : ∃ rank, Ranked rank d)
    (ih : ∀ a b d', rec a b d = some (some d') → ∃ rank, Ranked rank d') {v : Nat} {x : Tree} {d' : Dict}
    (h : unifyVar k rec v x d = some (some d')) : ∃ rank, Ranked rank d' := by
  have bnd : d v = none → (occurs k v x d).map (fun o => if o then none else some (put d v x)) = some (some d') → ∃ rank, Ranked rank d' := by
    intro hv h
    obtain ⟨o, ho, e⟩ := Option.map_eq_some_iff.1 h
    cases o with
    | true => cases e
    | false =>
      rw [if_neg (by simp)] at e
      cases e
      obtain ⟨rank, hr⟩ := hr
      exact ranked_put hr hv (occurs_reach k x ho)
  have gen : (match d v with
      | some t => rec t x d
      | none => (occurs k v x d).map (fun o => if o then none else some (put d v x))) = some (some d') → ∃ rank, Ranked rank d' := by
    intro h
    cases hd : d v with
    | some t => rw [hd] at h; exact ih _ _ _ h
    | none => rw [hd] at h; exact bnd hd h
  cases x with
  | val c => exact gen h
  | tup l => exact gen h
  | var y =>
    rw [unifyVar] at h
    by_cases hv : v = y
    · rw [if_pos hv] at h; cases h; exact hr
    · rw [if_neg hv] at h
      cases hd : d v with
      | some t => rw [hd] at h; exact ih _ _ _ h
      | none =>
        rw [hd] at h
        dsimp only at h
        cases hy : d y with
        | some t => rw [hy] at h; exact ih _ _ _ h
        | none => rw [hy] at h; exact bnd hd h

theorem unifyL_ranked {rec : Tree → Tree → Dict → Option (Option Dict)}
    (ih : ∀ a b d d', (∃ rank, Ranked rank d) → rec a b d = some (some d') → ∃ rank, Ranked rank d') :
    ∀ (l l' : List Tree) (d d' : Dict), (∃ rank, Ranked rank d) → unifyL rec l l' d = some (some d') → ∃ rank, Ranked rank d' := by
  intro l
  induction l with
  | nil =>
    intro l' d d' hr h
    cases l' with
    | nil => cases h; exact hr
    | cons b l' => cases h
  | cons a l ihl =>
    intro l' d d' hr h
    cases l' with
    | nil => cases h
    | cons b l' =>
      rw [unifyL] at h
      cases h1 : rec a b d with
      | none => rw [h1] at h; cases h
      | some r =>
        rw [h1] at h
        cases r with
        | none => cases h
        | some d1 => exact ihl l' d1 d' (ih a b d d1 hr h1) h

theorem unifyRec_ranked : ∀ (k : Nat) (a b : Tree) (d d' : Dict), (∃ rank, Ranked rank d) → unifyRec k a b d = some (some d') →
    ∃ rank, Ranked rank d' := by
  intro k
  induction k with
  | zero => intro a b d d' _ h; cases h
  | succ k ih =>
    intro a b d d' hr h
    cases a with
    | var v =>
      have h' : unifyVar k (unifyRec k) v b d = some (some d') := by simpa only [unifyRec] using h
      exact unifyVar_ranked hr (fun a b d' => ih a b d d' hr) h'
    | val c =>
      cases b with
      | var v =>
        have h' : unifyVar k (unifyRec k) v (.val c) d = some (some d') := by simpa only [unifyRec] using h
        exact unifyVar_ranked hr (fun a b d' => ih a b d d' hr) h'
      | val c' =>
        have h' : some (if c = c' then some d else none) = some (some d') := h
        by_cases hc : c = c'
        · rw [if_pos hc] at h'; cases h'; exact hr
        · rw [if_neg hc] at h'; cases h'
      | tup l => cases h
    | tup l =>
      cases b with
      | var v =>
        have h' : unifyVar k (unifyRec k) v (.tup l) d = some (some d') := by simpa only [unifyRec] using h
        exact unifyVar_ranked hr (fun a b d' => ih a b d d' hr) h'
      | val c' => cases h
      | tup l' => exact unifyL_ranked ih l l' d d' hr h

/-! ## The assignment given by a dictionary -/

/-- The variables replaced `n` times. -/
def solve (d : Dict) : Nat → Nat → Tree
  | 0, v => .var v
  | n + 1, v =>
    match d v with
    | none => .var v
    | some t => eval (solve d n) t

theorem solve_stable {rank : Nat → Nat} {d : Dict} (hr : Ranked rank d) : ∀ (n v : Nat), rank v < n → solve d (n + 1) v = solve d n v := by
  intro n
  induction n with
  | zero => intro v h; omega
  | succ n ih =>
    intro v hv
    rw [solve, solve]
    cases hd : d v with
    | none => rfl
    | some t =>
      dsimp only
      refine eval_congr t (fun y hy => ih y ?_)
      have := hr v t hd y hy
      omega

theorem solve_eq {rank : Nat → Nat} {d : Dict} (hr : Ranked rank d) (v n : Nat) (h : rank v < n) : solve d n v = solve d (rank v + 1) v := by
  have go : ∀ m, solve d (rank v + 1 + m) v = solve d (rank v + 1) v := by
    intro m
    induction m with
    | zero => rfl
    | succ m ih => rw [← ih]; exact solve_stable hr (rank v + 1 + m) v (by omega)
  have e : n = rank v + 1 + (n - (rank v + 1)) := by omega
  rw [e]
  exact go _

/-- The assignment given by a dictionary with ranks. -/
def solution (d : Dict) (rank : Nat → Nat) (v : Nat) : Tree := solve d (rank v + 1) v

theorem solution_none {d : Dict} {rank : Nat → Nat} {v : Nat} (h : d v = none) : solution d rank v = .var v := by
  rw [solution, solve, h]

theorem solution_sat {rank : Nat → Nat} {d : Dict} (hr : Ranked rank d) : Sat (solution d rank) d := by
  intro v t hd
  rw [solution, solve, hd]
  dsimp only
  refine eval_congr t (fun y hy => ?_)
  rw [solution]
  exact solve_eq hr y (rank v) (hr v t hd y hy)

theorem sat_solution {rank : Nat → Nat} {d : Dict} (hr : Ranked rank d) {s : Nat → Tree} (hs : Sat s d) :
    ∀ (n v : Nat), rank v < n → eval s (solution d rank v) = s v := by
  intro n
  induction n with
  | zero => intro v h; omega
  | succ n ih =>
    intro v hv
    cases hd : d v with
    | none => rw [solution_none hd, eval]
    | some t =>
      rw [solution_sat hr v t hd, hs v t hd]
      have : ∀ t, (∀ y, In y t → rank y < n) → eval s (eval (solution d rank) t) = eval s t := by
        clear hd t
        intro t ht
        have e := (evalComp s (solution d rank)) t
        rw [e]
        exact eval_congr t (fun y hy => ih y (ht y hy))
      exact this t (fun y hy => by have := hr v t hd y hy; omega)
where
  evalComp (s s' : Nat → Tree) : ∀ t : Tree, eval s (eval s' t) = eval (fun v => eval s (s' v)) t
    | .var v => rfl
    | .val _ => rfl
    | .tup l => by rw [eval, eval, eval, evalCompL s s' l]
  evalCompL (s s' : Nat → Tree) : ∀ l : List Tree, evalL s (evalL s' l) = evalL (fun v => eval s (s' v)) l
    | [] => rfl
    | a :: l => by rw [evalL, evalL, evalL, evalComp s s' a, evalCompL s s' l]

end Gauche.Unify
