import Verif.Model.Dominator
namespace Gauche.Dominator

variable {s : Nat} {ups : Nat → List Nat}

/-- Following the vector from `a` leads to `r`. -/
inductive Anc (doms : Doms) : Nat → Nat → Prop
  | refl (a : Nat) : Anc doms a a
  | step {a b r : Nat} : doms a = some b → Anc doms b r → Anc doms a r

theorem Anc.trans {doms : Doms} {a b c : Nat} (h : Anc doms a b) (h' : Anc doms b c) : Anc doms a c := by
  induction h with
  | refl => exact h'
  | step e _ ih => exact .step e (ih h')

/-- The entries from `k` on are there and point upwards, those below are not. -/
structure Good (s k : Nat) (doms : Doms) : Prop where
  le : k ≤ s
  set : ∀ i, k ≤ i → i ≤ s → ∃ d, doms i = some d ∧ (i < d ∨ (i = s ∧ d = s)) ∧ d ≤ s
  top : doms s = some s
  unset : ∀ i, i < k → doms i = none

theorem intersect_spec {k : Nat} {doms : Doms} (g : Good s k doms) : ∀ (fuel f1 f2 : Nat), k ≤ f1 → f1 ≤ s → k ≤ f2 → f2 ≤ s →
    (s - f1) + (s - f2) < fuel →
    ∃ r, intersect fuel doms f1 f2 = some r ∧ f1 ≤ r ∧ f2 ≤ r ∧ r ≤ s ∧ Anc doms f1 r ∧ Anc doms f2 r := by
  intro fuel
  induction fuel with
  | zero => intro f1 f2 _ _ _ _ h; omega
  | succ fuel ih =>
    intro f1 f2 h1 h1' h2 h2' hf
    rw [intersect]
    by_cases he : f1 = f2
    · rw [if_pos he]; subst he
      exact ⟨f1, rfl, Nat.le_refl _, Nat.le_refl _, h1', .refl _, .refl _⟩
    · rw [if_neg he]
      by_cases hlt : f1 < f2
      · rw [if_pos hlt]
        obtain ⟨d, hd, hd', hds⟩ := g.set f1 h1 h1'
        rw [hd]
        obtain ⟨r, hr, r1, r2, r3, r4, r5⟩ := ih d f2 (by omega) hds h2 h2' (by omega)
        exact ⟨r, hr, by omega, r2, r3, .step hd r4, r5⟩
      · rw [if_neg hlt]
        obtain ⟨d, hd, hd', hds⟩ := g.set f2 h2 h2'
        rw [hd]
        obtain ⟨r, hr, r1, r2, r3, r4, r5⟩ := ih f1 d h1 h1' (by omega) hds (by omega)
        exact ⟨r, hr, r1, by omega, r3, r4, .step hd r5⟩

theorem fold_spec {k b0 : Nat} {doms : Doms} (g : Good s k doms) : ∀ (l : List Nat) (acc : Nat), (∀ n ∈ l, n ≤ s) → k ≤ acc → acc ≤ s →
    ∃ r, fold s doms b0 l acc = some r ∧ acc ≤ r ∧ r ≤ s ∧ Anc doms acc r ∧
      ∀ n ∈ l, n ≠ b0 → ∀ m, doms n = some m → Anc doms m r ∧ m ≤ r := by
  intro l
  induction l with
  | nil => intro acc _ _ h; exact ⟨acc, rfl, Nat.le_refl _, h, .refl _, fun n h => by cases h⟩
  | cons n l ih =>
    intro acc hl hk hs
    have hl' : ∀ n ∈ l, n ≤ s := fun n h => hl n (List.mem_cons_of_mem _ h)
    rw [fold]
    by_cases hn : n ≠ b0
    · rw [if_pos hn]
      cases hm : doms n with
      | none =>
        obtain ⟨r, hr, h1, h2, h3, h4⟩ := ih acc hl' hk hs
        refine ⟨r, hr, h1, h2, h3, ?_⟩
        intro n' h' hne m hm'
        rcases List.mem_cons.1 h' with rfl | h'
        · rw [hm] at hm'; cases hm'
        · exact h4 n' h' hne m hm'
      | some m =>
        have hkn : k ≤ n := by
          by_cases h : n < k
          · rw [g.unset n h] at hm; cases hm
          · omega
        obtain ⟨d, hd, hd', hds⟩ := g.set n hkn (hl n List.mem_cons_self)
        rw [hm] at hd; cases hd
        obtain ⟨r0, hr0, a1, a2, a3, a4, a5⟩ := intersect_spec g (2 * s + 1) m acc (by omega) hds hk hs (by omega)
        obtain ⟨r, hr, h1, h2, h3, h4⟩ := ih r0 hl' (by omega) a3
        refine ⟨r, ?_, by omega, h2, a5.trans h3, ?_⟩
        · dsimp only; rw [hr0]; exact hr
        · intro n' h' hne m' hm'
          rcases List.mem_cons.1 h' with rfl | h'
          · rw [hm] at hm'; cases hm'
            exact ⟨a4.trans h3, by omega⟩
          · exact h4 n' h' hne m' hm'
    · rw [if_neg hn]
      obtain ⟨r, hr, h1, h2, h3, h4⟩ := ih acc hl' hk hs
      refine ⟨r, hr, h1, h2, h3, ?_⟩
      intro n' h' hne m hm'
      rcases List.mem_cons.1 h' with rfl | h'
      · exact absurd hne hn
      · exact h4 n' h' hne m hm'

/-- The numbered graph: numbers are in range and every node but the start has an upstream with a larger number. -/
structure Graph (s : Nat) (ups : Nat → List Nat) : Prop where
  range : ∀ x n, n ∈ ups x → n ≤ s
  parent : ∀ x, x < s → ∃ n ∈ ups x, x < n

theorem newDom_spec (hg : Graph s ups) {k : Nat} {doms : Doms} (g : Good s k doms) {nid : Nat} (hk : k ≤ nid + 1) (hn : nid < s) :
    ∃ r, newDom s ups doms nid = some r ∧ nid < r ∧ r ≤ s ∧ ∀ n ∈ ups nid, (doms n).isSome → Anc doms n r := by
  obtain ⟨p, hp, hpn⟩ := hg.parent nid hn
  obtain ⟨dp, hdp, hdp', _⟩ := g.set p (by omega) (hg.range _ _ hp)
  rw [newDom]
  cases hf : (ups nid).find? (fun n => (doms n).isSome) with
  | none =>
    have := List.find?_eq_none.1 hf p hp
    rw [hdp] at this; exact absurd rfl this
  | some b0 =>
    have hb := List.find?_some hf
    have hbm := List.mem_of_find?_eq_some hf
    have hkb : k ≤ b0 := by
      by_cases h : b0 < k
      · rw [g.unset b0 h] at hb; cases hb
      · omega
    obtain ⟨r, hr, h1, h2, h3, h4⟩ := fold_spec (b0 := b0) g (ups nid) b0 (hg.range nid) hkb (hg.range _ _ hbm)
    refine ⟨r, hr, ?_, h2, ?_⟩
    · by_cases hpb : p = b0
      · omega
      · have := (h4 p hp hpb dp hdp).2
        omega
    · intro n hnm hs
      by_cases hnb : n = b0
      · rw [hnb]; exact h3
      · cases hm : doms n with
        | none => rw [hm] at hs; cases hs
        | some m => exact .step hm (h4 n hnm hnb m hm).1

theorem update_spec (hg : Graph s ups) {k : Nat} {doms : Doms} (g : Good s k doms) {nid : Nat} (hk : k ≤ nid + 1) (hn : nid < s) (c : Bool) :
    ∃ p, update s ups doms nid c = some p ∧ Good s (min k nid) p.1 := by
  obtain ⟨r, hr, h1, h2, _⟩ := newDom_spec hg g hk hn
  rw [update, hr, Option.map_some]
  refine ⟨_, rfl, ?_⟩
  by_cases he : doms nid = some r
  · rw [if_pos he]
    have hkn : k ≤ nid := by
      by_cases h : nid < k
      · rw [g.unset nid h] at he; cases he
      · omega
    rw [Nat.min_eq_left hkn]; exact g
  · rw [if_neg he]
    refine ⟨by omega, ?_, ?_, ?_⟩
    · intro i hi hs
      dsimp only
      by_cases hin : i = nid
      · rw [if_pos hin]; exact ⟨r, rfl, Or.inl (by omega), h2⟩
      · rw [if_neg hin]; exact g.set i (by omega) hs
    · dsimp only; rw [if_neg (by omega)]; exact g.top
    · intro i hi
      dsimp only
      rw [if_neg (by omega)]
      exact g.unset i (by omega)

theorem pass_spec (hg : Graph s ups) : ∀ (n k : Nat) (doms : Doms) (c : Bool), Good s k doms → k ≤ n → n ≤ s →
    ∃ p, pass s ups n doms c = some p ∧ Good s 0 p.1 := by
  intro n
  induction n with
  | zero => intro k doms c g hk _; have : k = 0 := by omega
            subst this; exact ⟨_, rfl, g⟩
  | succ n ih =>
    intro k doms c g hk hn
    obtain ⟨p, hp, g'⟩ := update_spec hg g hk (by omega) c
    rw [pass, hp]
    exact ih _ p.1 p.2 g' (by omega) (by omega)

theorem good0 (s : Nat) : Good s s (doms0 s) := by
  refine ⟨Nat.le_refl _, ?_, by simp [doms0], ?_⟩
  · intro i h1 h2
    have : i = s := by omega
    subst this
    exact ⟨i, by simp [doms0], Or.inr ⟨rfl, rfl⟩, Nat.le_refl _⟩
  · intro i hi; simp only [doms0]; rw [if_neg (by omega)]

/-- In a pass that changes nothing, every entry is what is computed from the vector. -/
theorem pass_same : ∀ (n : Nat) (doms d : Doms) (c : Bool), pass s ups n doms c = some (d, false) →
    c = false ∧ d = doms ∧ ∀ nid, nid < n → newDom s ups doms nid = doms nid ∧ (doms nid).isSome := by
  intro n
  induction n with
  | zero => intro doms d c h; cases h; exact ⟨rfl, rfl, fun _ h => by omega⟩
  | succ n ih =>
    intro doms d c h
    rw [pass, update] at h
    cases hr : newDom s ups doms n with
    | none => rw [hr] at h; cases h
    | some r =>
      rw [hr, Option.map_some, Option.bind_some] at h
      by_cases he : doms n = some r
      · rw [if_pos he] at h
        obtain ⟨h1, h2, h3⟩ := ih _ _ _ h
        refine ⟨h1, h2, ?_⟩
        intro nid hn
        by_cases hnn : nid = n
        · subst hnn; rw [hr, he]; exact ⟨rfl, rfl⟩
        · exact h3 nid (by omega)
      · rw [if_neg he] at h
        exact absurd (ih _ _ _ h).1 (by simp)

/-- The result of `iterate!` is all set and computed from itself. -/
theorem iterate_spec (hg : Graph s ups) : ∀ (k j : Nat) (doms d : Doms), Good s j doms → iterate s ups k doms = some d →
    Good s 0 d ∧ ∀ nid, nid < s → newDom s ups d nid = d nid := by
  intro k
  induction k with
  | zero => intro j doms d _ h; cases h
  | succ k ih =>
    intro j doms d g h
    rw [iterate] at h
    obtain ⟨p, hp, g'⟩ := pass_spec hg s j doms false g g.le (Nat.le_refl _)
    rw [hp] at h
    obtain ⟨d', c⟩ := p
    cases c with
    | true => exact ih 0 d' d g' (by simpa using h)
    | false =>
      have e : d' = d := by simpa using h
      subst e
      obtain ⟨_, e2, h3⟩ := pass_same _ _ _ _ hp
      rw [e2] at g' ⊢
      exact ⟨g', fun nid hn => (h3 nid hn).1⟩

end Gauche.Dominator
