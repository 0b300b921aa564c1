import Verif.Model.BinSearch
import Mathlib.Tactic.Ring
/-! Proofs about the binary search. -/
namespace Gauche.BinSearch
variable {α : Type} [LinearOrder α]

/-- The key of record `j`. -/
def keyAt (vec : List α) (esize j : Nat) : Option α := vec[j * esize]?

/-- Strictly ascending record keys, all inside the vector. -/
def Ascending (vec : List α) (esize nume : Nat) : Prop :=
  ∃ f : Nat → α, (∀ j < nume, vec[j * esize]? = some (f j)) ∧ ∀ i j, i < j → j < nume → f i < f j

theorem loop_spec {vec : List α} {key : α} {esize nume : Nat} {f : Nat → α}
    (hv : ∀ j < nume, vec[j * esize]? = some (f j)) (hm : ∀ i j, i < j → j < nume → f i < f j) :
    ∀ fuel k lo hi, hi ≤ nume → lo ≤ hi → hi - lo < fuel → k = lo + (hi - lo) / 2 →
      (lo = 0 ∨ (f lo < key ∧ lo + 1 < hi)) → (∀ j, hi ≤ j → j < nume → key < f j) →
      (∃ j, j < nume ∧ f j = key ∧ loop vec key esize nume fuel k lo hi = some (.found (j * esize))) ∨
      (∃ m, m ≤ nume ∧ (∀ j < m, f j < key) ∧ (∀ j, m ≤ j → j < nume → key < f j) ∧
        loop vec key esize nume fuel k lo hi =
          some (.miss (if m = 0 then none else some ((m - 1) * esize))
            (if m = nume then none else some (m * esize)))) := by
  intro fuel
  induction fuel with
  | zero => intro k lo hi _ _ h; omega
  | succ fuel ih =>
    intro k lo hi hn hl hf hk hlo hhi
    unfold loop
    by_cases hlt : lo < hi
    · rw [if_pos hlt]
      have hkn : k < nume := by omega
      rw [hv k hkn]
      dsimp only
      by_cases he : f k = key
      · rw [if_pos he]; exact .inl ⟨k, hkn, he, rfl⟩
      · rw [if_neg he]
        by_cases hc : f k < key
        · rw [if_pos hc]
          by_cases hb : k = k + (hi - k) / 2
          · rw [if_pos hb]
            have hki : hi = k + 1 := by omega
            refine .inr ⟨hi, hn, ?_, hhi, ?_⟩
            · intro j hj
              by_cases hjk : j = k
              · rw [hjk]; exact hc
              · exact lt_trans (hm j k (by omega) hkn) hc
            · unfold finish
              rw [if_neg (by omega), if_neg (by omega : ¬ hi = 0), show hi - 1 = k by omega]
          · rw [if_neg hb]
            exact ih _ k hi hn (by omega) (by omega) rfl (.inr ⟨hc, by omega⟩) hhi
        · rw [if_neg hc]
          have hgt : key < f k := lt_of_le_of_ne (not_lt.1 hc) (Ne.symm he)
          have hk' : ∀ j, k ≤ j → j < nume → key < f j := by
            intro j hj hjn
            by_cases hjk : j = k
            · rw [hjk]; exact hgt
            · exact lt_trans hgt (hm k j (by omega) hjn)
          rcases hlo with h0 | ⟨h1, h2⟩
          · exact ih _ lo k (by omega) (by omega) (by omega) rfl (.inl h0) hk'
          · by_cases h3 : lo + 1 < k
            · exact ih _ lo k (by omega) (by omega) (by omega) rfl (.inr ⟨h1, h3⟩) hk'
            · -- `k = lo + 1`: the next iteration looks at `lo` again and leaves
              have hk1 : k = lo + 1 := by omega
              right
              refine ⟨k, by omega, ?_, hk', ?_⟩
              · intro j hj
                by_cases hjl : j = lo
                · rw [hjl]; exact h1
                · exact lt_trans (hm j lo (by omega) (by omega)) h1
              · cases fuel with
                | zero => omega
                | succ fuel =>
                  unfold loop
                  rw [if_pos (by omega), show lo + (k - lo) / 2 = lo by omega, hv lo (by omega)]
                  dsimp only
                  rw [if_neg (ne_of_lt h1), if_pos h1, if_pos (by omega)]
                  unfold finish
                  rw [if_neg (by omega), if_neg (by omega : ¬ k = 0), show k - 1 = lo by omega]
    · rw [if_neg hlt]
      have : lo = 0 := by rcases hlo with h | h <;> omega
      refine .inr ⟨0, by omega, by omega, fun j hj hjn => hhi j (by omega) hjn, ?_⟩
      unfold finish
      rw [if_pos (by omega), if_pos rfl, show hi = 0 by omega]

theorem search_spec {vec : List α} {len : Nat} {key : α} {skip nume : Nat} {f : Nat → α}
    (hnum : nume = len / (skip + 1))
    (hv : ∀ j < nume, vec[j * (skip + 1)]? = some (f j)) (hm : ∀ i j, i < j → j < nume → f i < f j) :
    (∃ j, j < nume ∧ f j = key ∧ search vec len key skip = some (.found (j * (skip + 1)))) ∨
    (∃ m, m ≤ nume ∧ (∀ j < m, f j < key) ∧ (∀ j, m ≤ j → j < nume → key < f j) ∧
      search vec len key skip =
        some (.miss (if m = 0 then none else some ((m - 1) * (skip + 1)))
          (if m = nume then none else some (m * (skip + 1))))) := by
  unfold search
  rw [← hnum]
  have hle : nume ≤ len := by rw [hnum]; exact Nat.div_le_self _ _
  exact loop_spec hv hm _ _ _ _ (le_refl _) (Nat.zero_le _) (by omega) (by simp) (.inl rfl)
    (fun j hj hjn => by omega)
end Gauche.BinSearch
