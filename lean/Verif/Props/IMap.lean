import Verif.Proof.IMap
/-
Properties C10 and C41 for data.imap.

Specification: an imap is described by the history of operations that produced it
(`Hist`, newest operation first); `specGet` says which entry a key must yield: the newest
operation on an equivalent key decides.  `cmp` is any total preorder.
-/
set_option linter.unusedSectionVars false
namespace Gauche.IMap
open Std OrdList

section
variable {κ ν : Type}

inductive Op (κ ν : Type) where
  | put (k : κ) (v : ν)
  | delete (k : κ)

variable (cmp : κ → κ → Ordering)

/-- `imap-put` / `imap-delete` applied to an empty imap in the order of history (newest first). -/
def run : List (Op κ ν) → Tree κ ν
  | [] => imapMake
  | .put k v :: h => imapPut cmp (run h) k v
  | .delete k :: h => imapDelete cmp (run h) k

/-- The entry that a key must have: decided by the newest operation on an equivalent key. -/
def specGet : List (Op κ ν) → κ → Option (κ × ν)
  | [], _ => none
  | .put k v :: h, k' => if cmp k k' = .eq then some (k, v) else specGet h k'
  | .delete k :: h, k' => if cmp k k' = .eq then none else specGet h k'

/-- The association list that folding `cons` right to left delivers. -/
def alist (t : Tree κ ν) : List (κ × ν) := foldRight List.cons t []

variable [TransCmp cmp]
variable {cmp}

theorem alist_eq (t : Tree κ ν) : alist t = elems t := by simp [alist, foldRight_eq]

theorem run_sorted (h : List (Op κ ν)) : Sorted cmp (elems (run cmp h)) := by
  induction h with
  | nil => exact sorted_nil
  | cons op h ih =>
    cases op with
    | put k v => simp only [run, imapPut, insert_eq ih]; exact putL_sorted ih _
    | delete k => simp only [run, imapDelete, delete_eq ih]; exact delL_sorted ih _

theorem run_get (h : List (Op κ ν)) (k : κ) : get cmp k (run cmp h) = specGet cmp h k := by
  rw [get_eq (run_sorted h)]
  induction h with
  | nil => rfl
  | cons op h ih =>
    cases op with
    | put k v =>
      simp only [run, imapPut, insert_eq (run_sorted h), getL_putL (run_sorted h), specGet, ih]
    | delete k =>
      simp only [run, imapDelete, delete_eq (run_sorted h), getL_delL (run_sorted h), specGet, ih]

/-! ### C10 -/

/-- `imap-get` returns the value of the newest put not followed by a delete, else the default;
without default it raises exactly when there is no such entry. -/
theorem imap_get (h : List (Op κ ν)) (k : κ) (dflt : Option ν) :
    imapGet cmp (run cmp h) k dflt =
      match specGet cmp h k with
      | some p => some p.2
      | none => dflt := by
  unfold imapGet; rw [run_get]; cases specGet cmp h k <;> rfl

theorem imap_exists (h : List (Op κ ν)) (k : κ) :
    imapExists cmp (run cmp h) k = (specGet cmp h k).isSome := by
  unfold imapExists; rw [run_get]

theorem imap_empty (h : List (Op κ ν)) :
    imapEmpty (run cmp h) = true ↔ ∀ k, specGet cmp h k = none := by
  constructor
  · intro he k
    rw [← run_get]
    cases hr : run cmp h with
    | E => rfl
    | T => rw [hr] at he; cases he
  · intro hn
    cases hr : run cmp h with
    | E => rfl
    | T c a p b =>
      have := hn p.1
      rw [← run_get, get_eq (run_sorted h), getL_eq_none, hr] at this
      exact absurd ReflCmp.compare_self (this p (by simp))

/-- Folding lists every live entry exactly once, in strictly ascending key order. -/
theorem imap_alist (h : List (Op κ ν)) :
    (alist (run cmp h)).Pairwise (fun a b => cmp a.1 b.1 = .lt) ∧
    ∀ e, e ∈ alist (run cmp h) ↔ specGet cmp h e.1 = some e := by
  rw [alist_eq]
  refine ⟨run_sorted h, fun e => ?_⟩
  rw [← run_get, get_eq (run_sorted h), getL_eq_some (run_sorted h)]
  simp [ReflCmp.compare_self]

/-- Left fold, right fold and the iterator all visit the same sequence. -/
theorem imap_folds (t : Tree κ ν) {σ : Type} (proc : κ × ν → σ → σ) (s : σ) :
    fold proc t s = (alist t).foldl (fun s p => proc p s) s ∧
    foldRight proc t s = (alist t).foldr proc s ∧
    ∀ n, (alist t).length ≤ n → iterAll n (iterInit t) = some (alist t) := by
  rw [alist_eq]
  refine ⟨fold_eq _ _ _, foldRight_eq _ _ _, fun n hn => ?_⟩
  cases t with
  | E => simp [iterInit, iterAll]
  | T c a p b =>
    have := iterAll_spec n [Tree.T c a p b] (by simp) (by simpa using hn)
    simpa [iterInit] using this

theorem imap_min_max (t : Tree κ ν) :
    imapMin t = (alist t).head? ∧ imapMax t = (alist t).getLast? := by
  rw [alist_eq]; exact ⟨min_eq t, max_eq t⟩

/-- `alist->imap` (and `tree-map->imap`): later pairs override earlier ones, as the same
sequence of puts does. -/
theorem imap_ofAlist (al : List (κ × ν)) :
    ofAlist cmp al = run cmp (al.reverse.map fun p => Op.put p.1 p.2) := by
  suffices hh : ∀ (al : List (κ × ν)) (h : List (Op κ ν)), populate cmp (run cmp h) al =
      run cmp ((al.reverse.map fun p => Op.put p.1 p.2) ++ h) by
    have := hh al []
    simpa [run, imapMake, ofAlist] using this
  intro al
  induction al with
  | nil => intro h; simp [populate]
  | cons e al ih =>
    intro h
    obtain ⟨k, v⟩ := e
    have := ih (.put k v :: h)
    simp only [run, imapPut] at this
    simp [populate, this]

/-! ### C41: lookup depth -/

def PutOnly (h : List (Op κ ν)) : Prop := ∀ op ∈ h, ∃ k v, op = .put k v

theorem run_rb (h : List (Op κ ν)) (hp : PutOnly h) :
    NoRR (run cmp h) ∧ ∃ n, bh (run cmp h) = some n := by
  induction h with
  | nil => exact ⟨trivial, 0, rfl⟩
  | cons op h ih =>
    obtain ⟨k, v, rfl⟩ := hp op (by simp)
    obtain ⟨h1, n, h2⟩ := ih (fun o ho => hp o (by simp [ho]))
    have h3 := ins_bh cmp k v _ n h2
    have h4 := (ins_noRR cmp k v _ h1).1
    simp only [run, imapPut, insert]
    cases hi : ins cmp k v (run cmp h) with
    | E => exact ⟨trivial, 0, rfl⟩
    | T c a p b =>
      rw [hi] at h3 h4
      obtain ⟨m, e1, e2, e3⟩ := bh_T.1 h3
      exact ⟨⟨by simp, h4.1, h4.2⟩, m + 1, bh_T.2 ⟨m, e1, e2, by simp⟩⟩

/- Full statement of C41 (false of the code): for every history the longest search path of the
imap has at most 2*log2(n+1) nodes, n the number of entries. -/

/-- For histories without deletion the search depth is at most 2*log2(n+1). -/
theorem imap_depth_partial (h : List (Op κ ν)) (hp : PutOnly h) :
    depth (run cmp h) ≤ 2 * Nat.log2 ((alist (run cmp h)).length + 1) := by
  obtain ⟨h1, n, h2⟩ := run_rb (cmp := cmp) h hp
  have h3 := size_ge_bh _ n h2
  have h4 := depth_le_bh _ n h2 h1
  rw [size_elems, ← alist_eq] at h3
  have h5 : n ≤ Nat.log2 ((alist (run cmp h)).length + 1) := (Nat.le_log2 (by omega)).2 h3
  have h6 : isRed (run cmp h) = false := by
    cases h with
    | nil => rfl
    | cons op h =>
      obtain ⟨k, v, rfl⟩ := hp op (by simp)
      simp only [run, imapPut, insert]; split <;> rfl
  simp [h6] at h4; omega
end

/-- Counterexample to C41: `imap-delete` does not rebalance. After putting 0..9 and deleting
0,1,2,4,6 the five remaining entries form a single path of five nodes. -/
theorem imap_delete_unbalanced :
    let h : List (Op Nat Nat) := [.delete 6, .delete 4, .delete 2, .delete 1, .delete 0] ++
      (List.range 10).reverse.map (fun k => .put k 0)
    (alist (run compare h)).length = 5 ∧ depth (run compare h) = 5 ∧ 2 * Nat.log2 (5 + 1) = 4 := by
  decide +kernel

/-! ### Non-vacuity -/
example : TransCmp (compare : Nat → Nat → Ordering) := inferInstance
example : imapGet compare (run compare [.put 2 'b', .delete 1, .put 1 'a', .put 2 'z']) 2 none = some 'b'
    ∧ imapGet compare (run compare [.put 2 'b', .delete 1, .put 1 'a', .put 2 'z']) 1 none = none := by
  decide
example : PutOnly [Op.put 1 'a', .put 2 'b', .put 3 'c', .put 1 'd'] := by
  intro op h; simp at h; rcases h with rfl | rfl | rfl | rfl <;> exact ⟨_, _, rfl⟩

end Gauche.IMap
