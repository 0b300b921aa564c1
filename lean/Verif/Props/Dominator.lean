import Verif.Proof.Dominator
/-! C87: `calculate-dominators` gives dominators, but not always the immediate ones. -/
namespace Gauche.Dominator

/-- A path from the start `s` to a node, last node first. -/
inductive Path (s : Nat) (ups : Nat → List Nat) : Nat → List Nat → Prop
  | start : Path s ups s [s]
  | step {n x : Nat} {p : List Nat} : Path s ups n p → n ∈ ups x → Path s ups x (x :: p)

/-- `d` is on every path from the start to `x`. -/
def Dominates (s : Nat) (ups : Nat → List Nat) (d x : Nat) : Prop := ∀ p, Path s ups x p → d ∈ p

/-- `d` is the immediate dominator of `x`: a dominator other than `x` that every dominator other than `x` dominates. -/
def Immediate (s : Nat) (ups : Nat → List Nat) (d x : Nat) : Prop :=
  d ≠ x ∧ Dominates s ups d x ∧ ∀ e, e ≠ x → Dominates s ups e x → Dominates s ups e d

theorem anc_top {s : Nat} {doms : Doms} (h : doms s = some s) {r : Nat} (ha : Anc doms s r) : r = s := by
  have key : ∀ {x r : Nat}, Anc doms x r → x = s → r = s := by
    intro x r ha
    induction ha with
    | refl => exact fun e => e
    | step e _ ih =>
      intro hx
      rw [hx, h] at e; cases e
      exact ih rfl
  exact key ha rfl

theorem anc_path {s : Nat} {ups : Nat → List Nat} (hg : Graph s ups) {d : Doms} (g : Good s 0 d)
    (hf : ∀ nid, nid < s → newDom s ups d nid = d nid) {x : Nat} {p : List Nat} (hp : Path s ups x p) :
    s ∈ p ∧ (x ≤ s → ∀ r, Anc d x r → r ∈ p) := by
  induction hp with
  | start => exact ⟨by simp, fun _ r h => by rw [anc_top g.top h]; simp⟩
  | @step n x p _ hn ih =>
    refine ⟨List.mem_cons_of_mem _ ih.1, ?_⟩
    intro hx r hr
    by_cases hxs : x = s
    · subst hxs
      rw [anc_top g.top hr]; simp
    · obtain ⟨r', h1, _, _, h4⟩ := newDom_spec hg g (Nat.zero_le _) (by omega : x < s)
      cases hr with
      | refl => simp
      | step e hr =>
        rw [hf x (by omega), e] at h1
        cases h1
        have hns := hg.range _ _ hn
        obtain ⟨dn, hdn, _⟩ := g.set n (Nat.zero_le _) hns
        exact List.mem_cons_of_mem _ (ih.2 hns _ ((h4 n hn (by rw [hdn]; rfl)).trans hr))

/-- C87 (soundness): if `calculate-dominators` returns, it gives for every node but the start a node other than it that is on every path
from the start to it.  What is missing of the full statement is that it is the immediate dominator, which is false (C87_bug_not_immediate),
and that it returns. -/
theorem C87_dominators_partial (s : Nat) (ups : Nat → List Nat) (hg : Graph s ups) (k : Nat) (res : List (Nat × Option Nat))
    (h : calculate s ups k = some res) : res.length = s ∧
    ∀ x, x < s → ∃ d, res[x]? = some (x, some d) ∧ d ≠ x ∧ d ≤ s ∧ Dominates s ups d x := by
  rw [calculate] at h
  cases hi : iterate s ups k (doms0 s) with
  | none => rw [hi] at h; cases h
  | some d =>
    rw [hi] at h
    cases h
    obtain ⟨g, hf⟩ := iterate_spec hg k s _ d (good0 s) hi
    refine ⟨by simp, fun x hx => ?_⟩
    obtain ⟨e, he, he', hes⟩ := g.set x (Nat.zero_le _) (by omega)
    refine ⟨e, by simp [hx, he], by omega, hes, ?_⟩
    intro p hp
    exact (anc_path hg g hf hp).2 (by omega) e (.step he (.refl _))

/-- C87: no iteration raises an error, and `intersect` always comes to an end. -/
theorem C87_no_error (s : Nat) (ups : Nat → List Nat) (hg : Graph s ups) (k : Nat) : ∃ d, passes s ups k = some d ∧
    ∀ c, ∃ p, pass s ups s d c = some p := by
  have : ∀ k, ∃ d, passes s ups k = some d ∧ ∃ j, Good s j d := by
    intro k
    induction k with
    | zero => exact ⟨_, rfl, s, good0 s⟩
    | succ k ih =>
      obtain ⟨d, hd, j, g⟩ := ih
      obtain ⟨p, hp, g'⟩ := pass_spec hg s j d false g g.le (Nat.le_refl _)
      exact ⟨p.1, by rw [passes, hd, Option.bind_some, hp]; rfl, 0, g'⟩
  obtain ⟨d, hd, j, g⟩ := this k
  refine ⟨d, hd, fun c => ?_⟩
  obtain ⟨p, hp, _⟩ := pass_spec hg s j d c g g.le (Nat.le_refl _)
  exact ⟨p, hp⟩

/-- The graph 3 → 2, 2 → 1, 2 → 0, 1 → 0, where node 0 has its upstreams in the order 1, 2. -/
def bad : Nat → List Nat
  | 0 => [1, 2]
  | 1 => [2]
  | 2 => [3]
  | _ => []

/-- The same graph with the upstreams of 0 in the other order. -/
def fine : Nat → List Nat
  | 0 => [2, 1]
  | 1 => [2]
  | 2 => [3]
  | _ => []

theorem graph_bad : Graph 3 bad := by
  constructor
  · intro x n h
    match x with
    | 0 => simp [bad] at h; omega
    | 1 => simp [bad] at h; omega
    | 2 => simp [bad] at h; omega
    | x + 3 => simp [bad] at h
  · intro x hx
    match x with
    | 0 => exact ⟨1, by simp [bad], by omega⟩
    | 1 => exact ⟨2, by simp [bad], by omega⟩
    | 2 => exact ⟨3, by simp [bad], by omega⟩
    | x + 3 => omega

theorem path_bad {ups : Nat → List Nat} (h0 : ∀ n, n ∈ ups 0 ↔ n = 1 ∨ n = 2) (h1 : ups 1 = [2]) {x : Nat} {p : List Nat}
    (hp : Path 3 ups x p) : x ≤ 2 → 2 ∈ p := by
  induction hp with
  | start => intro h; omega
  | @step n x p _ hn ih =>
    intro hx
    match x with
    | 0 => rcases (h0 n).1 hn with rfl | rfl
           · exact List.mem_cons_of_mem _ (ih (by omega))
           · exact List.mem_cons_of_mem _ (ih (by omega))
    | 1 => rw [h1] at hn; simp at hn; subst hn; exact List.mem_cons_of_mem _ (ih (by omega))
    | 2 => simp

/-- What C87 does not give: for the graph `bad`, the dominator given for node 0 is the start 3, but its immediate dominator is 2; with the
upstreams of node 0 in the other order the result is 2. -/
theorem C87_bug_not_immediate :
    calculate 3 bad 4 = some [(0, some 3), (1, some 2), (2, some 3)] ∧ Immediate 3 bad 2 0 ∧ ¬ Immediate 3 bad 3 0 ∧
    calculate 3 fine 4 = some [(0, some 2), (1, some 2), (2, some 3)] := by
  have hd : Dominates 3 bad 2 0 := fun p hp => path_bad (fun n => by simp [bad]) rfl hp (by omega)
  have p2 : Path 3 bad 2 [2, 3] := .step .start (by simp [bad])
  have p0 : Path 3 bad 0 [0, 2, 3] := .step p2 (by simp [bad])
  refine ⟨by decide +kernel, ⟨by decide, hd, ?_⟩, ?_, by decide +kernel⟩
  · intro e he h p hp
    have h1 := h _ p0
    have : e = 2 ∨ e = 3 := by simp at h1; omega
    rcases this with rfl | rfl
    · exact path_bad (fun n => by simp [bad]) rfl hp (by omega)
    · clear h h1
      have : ∀ {x p}, Path 3 bad x p → 3 ∈ p := by
        intro x p hp
        induction hp with
        | start => simp
        | step _ _ ih => exact List.mem_cons_of_mem _ ih
      exact this hp
  · rintro ⟨_, _, h⟩
    have := h 2 (by decide) hd [3] .start
    simp at this

/-! Non-vacuity. -/
example : Graph 3 bad := graph_bad
example : ∃ res, calculate 3 bad 4 = some res := ⟨_, C87_bug_not_immediate.1⟩

end Gauche.Dominator
