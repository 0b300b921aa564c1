import Verif.Proof.DispatchOrd
import Mathlib.Data.List.Nodup
/-! The sort of the applicable methods. -/
namespace Gauche.Dispatch
open Spec

variable {w : World} {targv : List Nat} {R : Method → Method → Prop}

/-- The comparison decides `R` on the elements of a list. -/
def Decides (w : World) (targv : List Nat) (R : Method → Method → Prop) (l : List Method) : Prop :=
  ∀ x ∈ l, ∀ y ∈ l, x ≠ y →
    (methodMoreSpecific w targv x y = some true ∧ R x y) ∨ (methodMoreSpecific w targv x y = some false ∧ R y x)

theorem Decides.perm {l l' : List Method} (h : Decides w targv R l) (p : l'.Perm l) : Decides w targv R l' :=
  fun x hx y hy hxy => h x (p.mem_iff.1 hx) y (p.mem_iff.1 hy) hxy

theorem getElem_ne {l : List Method} (hn : l.Nodup) {i j : Nat} (hi : i < l.length) (hj : j < l.length) (h : i ≠ j) :
    l[i] ≠ l[j] := fun e => h ((List.Nodup.getElem_inj_iff hn).1 e)

theorem swap_perm {l : List Method} {i j : Nat} (hi : i < l.length) (hj : j < l.length) :
    ((l.set j l[i]).set i l[j]).Perm l := List.set_set_perm hj hi

theorem sortInner_perm (step : Nat) (hs : 0 < step) : ∀ (fuel j : Nat) (arr : List Method), arr.Nodup →
    Decides w targv R arr → j < fuel → j + step < arr.length →
    ∃ arr', sortInner w targv step fuel j arr = some arr' ∧ arr'.Perm arr := by
  intro fuel
  induction fuel with
  | zero => intro j arr _ _ h; omega
  | succ fuel ih =>
    intro j arr hn hd hj hl
    unfold sortInner
    rw [List.getElem?_eq_getElem (by omega : j < arr.length), List.getElem?_eq_getElem hl]
    simp only []
    rcases hd arr[j] (List.getElem_mem _) arr[j + step] (List.getElem_mem _)
      (getElem_ne hn (by omega) hl (by omega)) with ⟨h1, _⟩ | ⟨h1, _⟩
    · rw [h1]
      exact ⟨arr, rfl, List.Perm.refl _⟩
    · rw [h1]
      simp only []
      have p := swap_perm (l := arr) (i := j) (j := j + step) (by omega) hl
      by_cases h2 : step ≤ j
      · rw [if_pos h2]
        obtain ⟨arr', e, p'⟩ := ih (j - step) _ (p.nodup_iff.2 hn) (hd.perm p) (by omega) (by simp; omega)
        exact ⟨arr', e, p'.trans p⟩
      · rw [if_neg h2]
        exact ⟨_, rfl, p⟩

theorem sortPass_perm (step : Nat) (hs : 0 < step) : ∀ (k i : Nat) (arr : List Method), arr.Nodup →
    Decides w targv R arr → step ≤ i → i + k ≤ arr.length →
    ∃ arr', sortPass w targv step k i arr = some arr' ∧ arr'.Perm arr := by
  intro k
  induction k with
  | zero => intro i arr _ _ _ _; exact ⟨arr, rfl, List.Perm.refl _⟩
  | succ k ih =>
    intro i arr hn hd hi hl
    unfold sortPass
    obtain ⟨a1, e1, p1⟩ := sortInner_perm (w := w) (targv := targv) (R := R) step hs (i + 1) (i - step) arr hn hd (by omega) (by omega)
    rw [e1]
    obtain ⟨a2, e2, p2⟩ := ih (i + 1) a1 (p1.nodup_iff.2 hn) (hd.perm p1) (by omega) (by rw [p1.length_eq]; omega)
    exact ⟨a2, e2, p2.trans p1⟩

/-- The first `n` elements are in order. -/
def SortedTo (R : Method → Method → Prop) (n : Nat) (l : List Method) : Prop :=
  ∀ (p q : Nat) (hp : p < l.length) (hq : q < l.length), p < q → q < n → R l[p] l[q]

theorem getElem_swap (l : List Method) (i j k : Nat) (hi : i < l.length) (hj : j < l.length)
    (hk : k < ((l.set j l[i]).set i l[j]).length) :
    ((l.set j l[i]).set i l[j])[k] = if k = i then l[j] else if k = j then l[i] else l[k]'(by simpa using hk) := by
  rw [List.getElem_set, List.getElem_set]
  by_cases h1 : k = i
  · rw [if_pos h1.symm, if_pos h1]
  · rw [if_neg (Ne.symm h1), if_neg h1]
    by_cases h2 : k = j
    · rw [if_pos h2.symm, if_pos h2]
    · rw [if_neg (Ne.symm h2), if_neg h2]

theorem sortInner_sorted (htr : ∀ x y z, R x y → R y z → R x z) : ∀ (fuel j n : Nat) (arr : List Method), arr.Nodup →
    Decides w targv R arr → j < fuel → j + 1 < n → n ≤ arr.length →
    (∀ (p q : Nat) (hp : p < arr.length) (hq : q < arr.length), p < q → q < n → q ≠ j + 1 → R arr[p] arr[q]) →
    ∀ arr', sortInner w targv 1 fuel j arr = some arr' → SortedTo R n arr' := by
  intro fuel
  induction fuel with
  | zero => intro j n arr _ _ h; omega
  | succ fuel ih =>
    intro j n arr hn hd hj hjn hl hinv arr' he
    unfold sortInner at he
    rw [List.getElem?_eq_getElem (by omega : j < arr.length), List.getElem?_eq_getElem (by omega : j + 1 < arr.length)] at he
    simp only [] at he
    rcases hd arr[j] (List.getElem_mem _) arr[j + 1] (List.getElem_mem _)
      (getElem_ne hn (by omega) (by omega) (by omega)) with ⟨h1, h2⟩ | ⟨h1, h2⟩
    · rw [h1] at he
      cases he
      intro p q hp hq hpq hqn
      by_cases hq1 : q = j + 1
      · subst hq1
        by_cases hp1 : p = j
        · subst hp1; exact h2
        · exact htr _ _ _ (hinv p j hp (by omega) (by omega) (by omega) (by omega)) h2
      · exact hinv p q hp hq hpq hqn hq1
    · rw [h1] at he
      simp only [] at he
      have p := swap_perm (l := arr) (i := j) (j := j + 1) (by omega) (by omega)
      have hinv' : ∀ (p q : Nat) (hp : p < ((arr.set (j + 1) arr[j]).set j arr[j + 1]).length)
          (hq : q < ((arr.set (j + 1) arr[j]).set j arr[j + 1]).length), p < q → q < n → q ≠ j →
          R ((arr.set (j + 1) arr[j]).set j arr[j + 1])[p] ((arr.set (j + 1) arr[j]).set j arr[j + 1])[q] := by
        intro p q hp hq hpq hqn hqj
        have hp' : p < arr.length := by simpa using hp
        have hq' : q < arr.length := by simpa using hq
        rw [getElem_swap arr j (j + 1) p (by omega) (by omega), getElem_swap arr j (j + 1) q (by omega) (by omega)]
        rw [if_neg hqj]
        by_cases e1 : p = j
        · rw [if_pos e1]
          by_cases e2 : q = j + 1
          · rw [if_pos e2]; exact h2
          · rw [if_neg e2]; exact hinv (j + 1) q _ _ (by omega) hqn e2
        · rw [if_neg e1]
          by_cases e3 : p = j + 1
          · rw [if_pos e3, if_neg (by omega)]
            exact hinv j q _ _ (by omega) hqn (by omega)
          · rw [if_neg e3]
            by_cases e2 : q = j + 1
            · rw [if_pos e2]; exact hinv p j _ _ (by omega) (by omega) (by omega)
            · rw [if_neg e2]; exact hinv p q _ _ hpq hqn e2
      by_cases h3 : 1 ≤ j
      · rw [if_pos h3] at he
        refine ih (j - 1) n _ (p.nodup_iff.2 hn) (hd.perm p) (by omega) (by omega) (by simpa using hl) ?_ arr' he
        intro p q hp hq hpq hqn hqj
        exact hinv' p q hp hq hpq hqn (by omega)
      · rw [if_neg h3] at he
        cases he
        intro p q hp hq hpq hqn
        exact hinv' p q hp hq hpq hqn (by omega)

theorem sortPass_sorted (htr : ∀ x y z, R x y → R y z → R x z) : ∀ (k i : Nat) (arr : List Method), arr.Nodup →
    Decides w targv R arr → 1 ≤ i → i + k = arr.length → SortedTo R i arr →
    ∀ arr', sortPass w targv 1 k i arr = some arr' → SortedTo R arr'.length arr' := by
  intro k
  induction k with
  | zero =>
    intro i arr _ _ _ hl hso arr' he
    cases he
    have : i = arr.length := by omega
    subst this
    exact hso
  | succ k ih =>
    intro i arr hn hd hi hl hso arr' he
    unfold sortPass at he
    obtain ⟨a1, e1, p1⟩ := sortInner_perm (w := w) (targv := targv) (R := R) 1 (by omega) (i + 1) (i - 1) arr hn hd (by omega) (by omega)
    rw [e1] at he
    have s1 := sortInner_sorted htr (i + 1) (i - 1) (i + 1) arr hn hd (by omega) (by omega) (by omega)
      (fun p q hp hq hpq hqn hqj => hso p q hp hq hpq (by omega)) a1 e1
    exact ih (i + 1) a1 (p1.nodup_iff.2 hn) (hd.perm p1) (by omega) (by rw [p1.length_eq]; omega) s1 arr' he

theorem sortSteps_spec (htr : ∀ x y z, R x y → R y z → R x z) : ∀ (fuel step : Nat) (arr : List Method), arr.Nodup →
    Decides w targv R arr → step < fuel → step < arr.length ∨ step = 0 → (0 < step ∨ SortedTo R arr.length arr) →
    ∃ arr', sortSteps w targv fuel step arr = some arr' ∧ arr'.Perm arr ∧ SortedTo R arr'.length arr' := by
  intro fuel
  induction fuel with
  | zero => intro step arr _ _ h; omega
  | succ fuel ih =>
    intro step arr hn hd hf hl hso
    unfold sortSteps
    by_cases h0 : 0 < step
    · rw [if_pos h0]
      obtain ⟨a1, e1, p1⟩ := sortPass_perm (w := w) (targv := targv) (R := R) step h0 (arr.length - step) step arr hn hd
        (Nat.le_refl _) (by omega)
      rw [e1]
      have hs1 : 0 < step / 2 ∨ SortedTo R a1.length a1 := by
        by_cases h1 : step = 1
        · subst h1
          right
          exact sortPass_sorted htr (arr.length - 1) 1 arr hn hd (by omega) (by omega)
            (fun p q hp hq hpq hq1 => by omega) a1 e1
        · left; omega
      obtain ⟨a2, e2, p2, s2⟩ := ih (step / 2) a1 (p1.nodup_iff.2 hn) (hd.perm p1) (by omega)
        (by rw [p1.length_eq]; omega) hs1
      exact ⟨a2, e2, p2.trans p1, s2⟩
    · rw [if_neg h0]
      rcases hso with h | h
      · exact absurd h h0
      · exact ⟨arr, rfl, List.Perm.refl _, h⟩

theorem pairwise_of_sortedTo {l : List Method} (h : SortedTo R l.length l) : l.Pairwise R := by
  rw [List.pairwise_iff_getElem]
  intro i j hi hj hij
  exact h i j hi hj hij hj

/-- The sort gives the methods in order. -/
theorem sortMethods_spec (htr : ∀ x y z, R x y → R y z → R x z) (l : List Method) (hn : l.Nodup)
    (hd : Decides w targv R l) : ∃ l', sortMethods w l targv = some l' ∧ l'.Perm l ∧ l'.Pairwise R := by
  obtain ⟨l', e, p, s⟩ := sortSteps_spec (w := w) (targv := targv) htr (l.length + 1) (l.length / 2) l hn hd (by omega)
    (by omega) (by
      by_cases h : 0 < l.length / 2
      · exact Or.inl h
      · exact Or.inr fun p q hp hq hpq hqn => by omega)
  exact ⟨l', e, p, pairwise_of_sortedTo s⟩

end Gauche.Dispatch
