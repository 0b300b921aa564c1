/-
A finite map, as an association list whose keys are pairwise different under a given key equality `eq`.
Independent of the hash table model.
-/
namespace Gauche.FinMap

variable {K V : Type}

/-- The value bound to a key. -/
def lookup (eq : K → K → Bool) (l : List (K × V)) (k : K) : Option V :=
  (l.find? (fun p => eq k p.1)).map (·.2)

/-- Bind `k` to `v`: an existing binding keeps its key object and gets the new value. -/
def insert (eq : K → K → Bool) (l : List (K × V)) (k : K) (v : V) : List (K × V) :=
  if l.any (fun p => eq k p.1) then l.map (fun p => if eq k p.1 then (p.1, v) else p) else (k, v) :: l

/-- Remove the binding of `k`. -/
def erase (eq : K → K → Bool) (l : List (K × V)) (k : K) : List (K × V) :=
  l.filter (fun p => !eq k p.1)

/-- The keys are pairwise different. -/
def DistinctKeys (eq : K → K → Bool) (l : List (K × V)) : Prop :=
  l.Pairwise (fun p q => eq p.1 q.1 = false)

/-- `eq` is an equivalence relation. -/
structure Equiv (eq : K → K → Bool) : Prop where
  refl : ∀ a, eq a a = true
  symm : ∀ a b, eq a b = true → eq b a = true
  trans : ∀ a b c, eq a b = true → eq b c = true → eq a c = true

theorem Equiv.symm_eq {eq : K → K → Bool} (h : Equiv eq) (a b : K) : eq a b = eq b a := by
  cases h1 : eq a b <;> cases h2 : eq b a <;> try rfl
  · rw [h.symm _ _ h2] at h1; cases h1
  · rw [h.symm _ _ h1] at h2; cases h2

theorem Equiv.congr_left {eq : K → K → Bool} (h : Equiv eq) {a b : K} (hab : eq a b = true) (c : K) :
    eq a c = eq b c := by
  cases h1 : eq a c <;> cases h2 : eq b c <;> try rfl
  · rw [h.trans _ _ _ hab h2] at h1; cases h1
  · rw [h.trans _ _ _ (h.symm _ _ hab) h1] at h2; cases h2

theorem distinct_perm {eq : K → K → Bool} (h : Equiv eq) {l l' : List (K × V)} (p : l.Perm l')
    (hd : DistinctKeys eq l) : DistinctKeys eq l' := by
  unfold DistinctKeys at *
  refine hd.perm p ?_
  intro a b hab
  rw [h.symm_eq]; exact hab

theorem lookup_cons (eq : K → K → Bool) (k : K) (p : K × V) (l : List (K × V)) :
    lookup eq (p :: l) k = if eq k p.1 then some p.2 else lookup eq l k := by
  unfold lookup
  rw [List.find?_cons]
  cases eq k p.1 <;> simp

theorem lookup_eq_some {eq : K → K → Bool} (h : Equiv eq) {l : List (K × V)} (hd : DistinctKeys eq l) {k : K}
    {v : V} : lookup eq l k = some v ↔ ∃ p ∈ l, eq k p.1 = true ∧ p.2 = v := by
  induction l with
  | nil => simp [lookup]
  | cons q l ih =>
    have hd' : DistinctKeys eq l := (List.pairwise_cons.1 hd).2
    have hq := (List.pairwise_cons.1 hd).1
    rw [lookup_cons]
    by_cases hk : eq k q.1 = true
    · rw [if_pos hk]
      constructor
      · intro hv; injection hv with hv; exact ⟨q, by simp, hk, hv⟩
      · rintro ⟨p, hp, hkp, rfl⟩
        rcases List.mem_cons.1 hp with rfl | hp
        · rfl
        · have := hq p hp
          rw [← h.congr_left hk] at this
          rw [hkp] at this; cases this
    · rw [if_neg hk, ih hd']
      constructor
      · rintro ⟨p, hp, h1⟩; exact ⟨p, List.mem_cons_of_mem _ hp, h1⟩
      · rintro ⟨p, hp, h1, h2⟩
        rcases List.mem_cons.1 hp with rfl | hp
        · exact absurd h1 hk
        · exact ⟨p, hp, h1, h2⟩

theorem lookup_perm {eq : K → K → Bool} (h : Equiv eq) {l l' : List (K × V)} (p : l.Perm l')
    (hd : DistinctKeys eq l) (k : K) : lookup eq l k = lookup eq l' k := by
  apply Option.ext
  intro v
  rw [lookup_eq_some h hd, lookup_eq_some h (distinct_perm h p hd)]
  simp [p.mem_iff]

theorem insert_perm {eq : K → K → Bool} {l l' : List (K × V)} (p : l.Perm l') (k : K) (v : V) :
    (insert eq l k v).Perm (insert eq l' k v) := by
  unfold insert
  have : l.any (fun p => eq k p.1) = l'.any (fun p => eq k p.1) := by
    rw [Bool.eq_iff_iff]; simp [p.mem_iff]
  rw [this]
  split
  · exact p.map _
  · exact p.cons _

theorem erase_perm {eq : K → K → Bool} {l l' : List (K × V)} (p : l.Perm l') (k : K) :
    (erase eq l k).Perm (erase eq l' k) := p.filter _

theorem distinct_erase {eq : K → K → Bool} {l : List (K × V)} (hd : DistinctKeys eq l) (k : K) :
    DistinctKeys eq (erase eq l k) := List.Pairwise.filter _ hd

theorem any_eq_isSome (eq : K → K → Bool) (l : List (K × V)) (k : K) :
    l.any (fun p => eq k p.1) = (lookup eq l k).isSome := by
  induction l with
  | nil => rfl
  | cons p l ih =>
    rw [lookup_cons, List.any_cons, ih]
    cases eq k p.1 <;> simp

theorem distinct_insert {eq : K → K → Bool} (h : Equiv eq) {l : List (K × V)} (hd : DistinctKeys eq l) (k : K)
    (v : V) : DistinctKeys eq (insert eq l k v) := by
  unfold insert
  split
  · unfold DistinctKeys
    rw [List.pairwise_map]
    refine List.Pairwise.imp ?_ hd
    intro a b hab
    split <;> split <;> exact hab
  · rename_i hn
    refine List.pairwise_cons.2 ⟨?_, hd⟩
    intro p hp
    simp only [List.any_eq_true, not_exists, not_and, Bool.not_eq_true] at hn
    exact hn p hp

theorem lookup_insert {eq : K → K → Bool} (h : Equiv eq) {l : List (K × V)} (k k' : K) (v : V) :
    lookup eq (insert eq l k v) k' = if eq k k' then some v else lookup eq l k' := by
  unfold insert
  split
  · rename_i ha
    induction l with
    | nil => simp at ha
    | cons p l ih =>
      rw [List.map_cons, lookup_cons, lookup_cons]
      rw [List.any_cons] at ha
      by_cases hp : eq k p.1 = true
      · rw [if_pos hp]
        dsimp only
        by_cases hk : eq k k' = true
        · rw [if_pos hk, if_pos]
          rw [← h.congr_left hk]; exact hp
        · rw [if_neg hk]
          have h1 : ¬ eq k' p.1 = true := by
            intro h1; exact hk (h.trans _ _ _ hp (h.symm _ _ h1))
          rw [if_neg h1, if_neg h1]
          clear ih ha
          induction l with
          | nil => rfl
          | cons q l ih =>
            rw [List.map_cons, lookup_cons, lookup_cons, ih]
            by_cases hq : eq k q.1 = true
            · rw [if_pos hq]
              have h2 : ¬ eq k' q.1 = true := by
                intro h2; exact hk (h.trans _ _ _ hq (h.symm _ _ h2))
              rw [if_neg h2, if_neg h2]
            · rw [if_neg hq]
      · rw [if_neg hp]
        have ha' : l.any (fun p => eq k p.1) = true := by simpa [hp] using ha
        rw [ih ha']
        by_cases hk : eq k k' = true
        · rw [if_pos hk, if_pos hk, if_neg]
          rw [← h.congr_left hk]; exact hp
        · rw [if_neg hk, if_neg hk]
  · rw [lookup_cons, h.symm_eq]

theorem lookup_erase {eq : K → K → Bool} (h : Equiv eq) {l : List (K × V)} (k k' : K) :
    lookup eq (erase eq l k) k' = if eq k k' then none else lookup eq l k' := by
  unfold erase
  induction l with
  | nil => simp [lookup]
  | cons p l ih =>
    rw [List.filter_cons, lookup_cons]
    by_cases hp : eq k p.1 = true
    · rw [if_neg (by simp [hp]), ih]
      by_cases hk : eq k k' = true
      · rw [if_pos hk, if_pos hk]
      · rw [if_neg hk, if_neg hk, if_neg]
        intro h1; exact hk (h.trans _ _ _ hp (h.symm _ _ h1))
    · rw [if_pos (by simp [hp]), lookup_cons, ih]
      by_cases hk : eq k k' = true
      · rw [if_pos hk, if_pos hk, if_neg]
        rw [← h.congr_left hk]; exact hp
      · rw [if_neg hk, if_neg hk]

end Gauche.FinMap
