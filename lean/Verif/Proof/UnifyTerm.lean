import Verif.Proof.Unify
/-! Unification comes to an end. -/
namespace Gauche.Unify

/-! ## A larger bound gives the same result -/

theorem occursL_mono {f g : Tree → Option Bool} (hfg : ∀ a o, f a = some o → g a = some o) :
    ∀ (l : List Tree) (o : Bool), occursL f l = some o → occursL g l = some o := by
  intro l
  induction l with
  | nil => intro o h; exact h
  | cons a l ih =>
    intro o h
    rw [occursL] at h ⊢
    cases hr : f a with
    | none => rw [hr] at h; cases h
    | some x =>
      rw [hr] at h
      rw [hfg a x hr]
      cases x with
      | true => exact h
      | false => exact ih o h

theorem occurs_mono {d : Dict} {v : Nat} : ∀ (k : Nat) (x : Tree) (o : Bool), occurs k v x d = some o → occurs (k + 1) v x d = some o := by
  intro k
  induction k with
  | zero => intro x o h; cases h
  | succ k ih =>
    intro x o h
    rw [occurs.eq_def] at h
    rw [occurs.eq_def]
    cases x with
    | val c => exact h
    | var y =>
      dsimp only at h ⊢
      by_cases hv : v = y
      · rw [if_pos hv] at h ⊢; exact h
      · rw [if_neg hv] at h ⊢
        cases hd : d y with
        | none => rw [hd] at h; exact h
        | some t => rw [hd] at h; exact ih t o h
    | tup l => exact occursL_mono (fun a o => ih a o) l o h

theorem occurs_le {d : Dict} {v : Nat} {k k' : Nat} (hk : k ≤ k') {x : Tree} {o : Bool} (h : occurs k v x d = some o) :
    occurs k' v x d = some o := by
  induction hk with
  | refl => exact h
  | step _ ih => exact occurs_mono _ x o ih

theorem unifyL_mono {f g : Tree → Tree → Dict → Option (Option Dict)} (hfg : ∀ a b d r, f a b d = some r → g a b d = some r) :
    ∀ (l l' : List Tree) (d : Dict) (r : Option Dict), unifyL f l l' d = some r → unifyL g l l' d = some r := by
  intro l
  induction l with
  | nil => intro l' d r h; cases l' <;> exact h
  | cons a l ih =>
    intro l' d r h
    cases l' with
    | nil => exact h
    | cons b l' =>
      rw [unifyL] at h ⊢
      cases hr : f a b d with
      | none => rw [hr] at h; cases h
      | some x =>
        rw [hr] at h
        rw [hfg a b d x hr]
        cases x with
        | none => exact h
        | some d' => exact ih l' d' r h

theorem unifyVar_mono {k : Nat} {f g : Tree → Tree → Dict → Option (Option Dict)} (hfg : ∀ a b d r, f a b d = some r → g a b d = some r)
    {v : Nat} {x : Tree} {d : Dict} {r : Option Dict} (h : unifyVar k f v x d = some r) : unifyVar (k + 1) g v x d = some r := by
  have bnd : (occurs k v x d).map (fun o => if o then none else some (put d v x)) = some r →
      (occurs (k + 1) v x d).map (fun o => if o then none else some (put d v x)) = some r := by
    intro h
    obtain ⟨o, ho, e⟩ := Option.map_eq_some_iff.1 h
    rw [occurs_mono k x o ho, Option.map_some, e]
  have gen : (match d v with
      | some t => f t x d
      | none => (occurs k v x d).map (fun o => if o then none else some (put d v x))) = some r → (match d v with
      | some t => g t x d
      | none => (occurs (k + 1) v x d).map (fun o => if o then none else some (put d v x))) = some r := by
    intro h
    cases hd : d v with
    | some t => rw [hd] at h; exact hfg _ _ _ _ h
    | none => rw [hd] at h; exact bnd h
  cases x with
  | val c => exact gen h
  | tup l => exact gen h
  | var y =>
    rw [unifyVar] at h ⊢
    by_cases hv : v = y
    · rw [if_pos hv] at h ⊢; exact h
    · rw [if_neg hv] at h ⊢
      cases hd : d v with
      | some t => rw [hd] at h; exact hfg _ _ _ _ h
      | none =>
        rw [hd] at h
        dsimp only at h ⊢
        cases hy : d y with
        | some t => rw [hy] at h; exact hfg _ _ _ _ h
        | none => rw [hy] at h; exact bnd h

theorem unifyRec_var (k v : Nat) (b : Tree) (d : Dict) : unifyRec (k + 1) (.var v) b d = unifyVar k (unifyRec k) v b d := by
  simp only [unifyRec]

theorem unifyRec_var' (k v : Nat) (a : Tree) (d : Dict) (h : ∀ y, a ≠ .var y) :
    unifyRec (k + 1) a (.var v) d = unifyVar k (unifyRec k) v a d := by
  cases a with
  | var y => exact absurd rfl (h y)
  | val c => simp only [unifyRec]
  | tup l => simp only [unifyRec]

theorem unifyRec_mono : ∀ (k : Nat) (a b : Tree) (d : Dict) (r : Option Dict), unifyRec k a b d = some r → unifyRec (k + 1) a b d = some r := by
  intro k
  induction k with
  | zero => intro a b d r h; cases h
  | succ k ih =>
    intro a b d r h
    cases a with
    | var v => rw [unifyRec_var] at h ⊢; exact unifyVar_mono ih h
    | val c =>
      cases b with
      | var v => rw [unifyRec_var' _ _ _ _ (by simp)] at h ⊢; exact unifyVar_mono ih h
      | val c' => exact h
      | tup l => exact h
    | tup l =>
      cases b with
      | var v => rw [unifyRec_var' _ _ _ _ (by simp)] at h ⊢; exact unifyVar_mono ih h
      | val c' => exact h
      | tup l' => exact unifyL_mono ih l l' d r h

theorem unifyRec_le {k k' : Nat} (hk : k ≤ k') {a b : Tree} {d : Dict} {r : Option Dict} (h : unifyRec k a b d = some r) :
    unifyRec k' a b d = some r := by
  induction hk with
  | refl => exact h
  | step _ ih => exact unifyRec_mono _ a b d r ih

theorem mapO_mono {f g : Tree → Option Tree} (hfg : ∀ a o, f a = some o → g a = some o) :
    ∀ (l : List Tree) (o : List Tree), mapO f l = some o → mapO g l = some o := by
  intro l
  induction l with
  | nil => intro o h; exact h
  | cons a l ih =>
    intro o h
    rw [mapO] at h ⊢
    cases hr : f a with
    | none => rw [hr] at h; cases h
    | some x =>
      rw [hr] at h
      rw [hfg a x hr]
      obtain ⟨ys, h1, h2⟩ := Option.map_eq_some_iff.1 h
      rw [Option.bind_some, ih ys h1, Option.map_some, h2]

theorem subst_mono {d : Dict} : ∀ (k : Nat) (x t : Tree), subst d k x = some t → subst d (k + 1) x = some t := by
  intro k
  induction k with
  | zero => intro x t h; cases h
  | succ k ih =>
    intro x t h
    rw [subst.eq_def] at h
    rw [subst.eq_def]
    cases x with
    | val c => exact h
    | var y =>
      dsimp only at h ⊢
      cases hd : d y with
      | none => rw [hd] at h; exact h
      | some u => rw [hd] at h; exact ih u t h
    | tup l =>
      obtain ⟨ys, h1, h2⟩ := Option.map_eq_some_iff.1 h
      dsimp only
      rw [mapO_mono ih l ys h1, Option.map_some, h2]

theorem subst_le {d : Dict} {k k' : Nat} (hk : k ≤ k') {x t : Tree} (h : subst d k x = some t) : subst d k' x = some t := by
  induction hk with
  | refl => exact h
  | step _ ih => exact subst_mono _ x t ih

/-! ## Measures -/

mutual
theorem top_le {rank : Nat → Nat} {n : Nat} : ∀ (t : Tree), (∀ y, In y t → rank y < n) → top rank t ≤ n
  | .var v, h => by rw [top]; exact h v rfl
  | .val _, _ => by rw [top]; omega
  | .tup l, h => by rw [top]; exact topL_le l h
theorem topL_le {rank : Nat → Nat} {n : Nat} : ∀ (l : List Tree), (∀ y, InL y l → rank y < n) → topL rank l ≤ n
  | [], _ => by rw [topL]; omega
  | a :: l, h => by
    rw [topL]
    exact Nat.max_le.2 ⟨top_le a (fun y hy => h y (Or.inl hy)), topL_le l (fun y hy => h y (Or.inr hy))⟩
end

theorem top_mem {rank : Nat → Nat} {a : Tree} : ∀ {l : List Tree}, a ∈ l → top rank a ≤ topL rank l := by
  intro l
  induction l with
  | nil => intro h; cases h
  | cons b l ih =>
    intro h
    rw [topL]
    rcases List.mem_cons.1 h with rfl | h
    · omega
    · have := ih h; omega

theorem size_mem' {a : Tree} : ∀ {l : List Tree}, a ∈ l → size a ≤ sizeL l := by
  intro l
  induction l with
  | nil => intro h; cases h
  | cons b l ih =>
    intro h
    rw [sizeL]
    rcases List.mem_cons.1 h with rfl | h
    · omega
    · have := ih h; omega

theorem top_deref {rank : Nat → Nat} {d : Dict} (hr : Ranked rank d) {v : Nat} {t : Tree} (h : d v = some t) : top rank t ≤ rank v :=
  top_le t (hr v t h)

theorem occursL_term {d : Dict} {v : Nat} : ∀ (l : List Tree), (∀ a ∈ l, ∃ k o, occurs k v a d = some o) →
    ∃ k o, occursL (fun a => occurs k v a d) l = some o := by
  intro l
  induction l with
  | nil => intro _; exact ⟨0, false, rfl⟩
  | cons a l ih =>
    intro h
    obtain ⟨k1, o1, h1⟩ := h a List.mem_cons_self
    obtain ⟨k2, o2, h2⟩ := ih (fun b hb => h b (List.mem_cons_of_mem _ hb))
    have h1' : occurs (max k1 k2) v a d = some o1 := occurs_le (Nat.le_max_left _ _) h1
    have h2' := occursL_mono (fun a o => occurs_le (d := d) (v := v) (Nat.le_max_right k1 k2) (x := a) (o := o)) l o2 h2
    refine ⟨max k1 k2, if o1 then true else o2, ?_⟩
    rw [occursL, h1', Option.bind_some]
    cases o1 with
    | true => rfl
    | false => exact h2'

theorem occurs_term {rank : Nat → Nat} {d : Dict} (hr : Ranked rank d) (v : Nat) : ∀ (n m : Nat) (x : Tree), top rank x ≤ n → size x ≤ m →
    ∃ k o, occurs k v x d = some o := by
  intro n
  induction n with
  | zero =>
    intro m
    induction m with
    | zero =>
      intro x _ hm
      cases x <;> rw [size] at hm <;> omega
    | succ m ihm =>
      intro x hn hm
      cases x with
      | var y => rw [top] at hn; omega
      | val c => exact ⟨1, false, rfl⟩
      | tup l =>
        rw [size] at hm
        rw [top] at hn
        obtain ⟨k, o, h⟩ := occursL_term (d := d) (v := v) l (fun a ha => ihm a (by have := top_mem (rank := rank) ha; omega)
          (by have := size_mem' ha; omega))
        exact ⟨k + 1, o, by rw [occurs]; exact h⟩
  | succ n ihn =>
    intro m
    induction m with
    | zero =>
      intro x _ hm
      cases x <;> rw [size] at hm <;> omega
    | succ m ihm =>
      intro x hn hm
      cases x with
      | val c => exact ⟨1, false, rfl⟩
      | var y =>
        by_cases hv : v = y
        · exact ⟨1, true, by rw [occurs, if_pos hv]⟩
        · cases hd : d y with
          | none => exact ⟨1, false, by rw [occurs, if_neg hv, hd]⟩
          | some t =>
            rw [top] at hn
            obtain ⟨k, o, h⟩ := ihn (size t) t (by have := top_deref hr hd; omega) (Nat.le_refl _)
            exact ⟨k + 1, o, by rw [occurs, if_neg hv, hd]; exact h⟩
      | tup l =>
        rw [size] at hm
        rw [top] at hn
        obtain ⟨k, o, h⟩ := occursL_term (d := d) (v := v) l (fun a ha => ihm a (by have := top_mem (rank := rank) ha; omega)
          (by have := size_mem' ha; omega))
        exact ⟨k + 1, o, by rw [occurs]; exact h⟩

theorem mapO_term {d : Dict} : ∀ (l : List Tree), (∀ a ∈ l, ∃ k t, subst d k a = some t) → ∃ k o, mapO (subst d k) l = some o := by
  intro l
  induction l with
  | nil => intro _; exact ⟨0, [], rfl⟩
  | cons a l ih =>
    intro h
    obtain ⟨k1, o1, h1⟩ := h a List.mem_cons_self
    obtain ⟨k2, o2, h2⟩ := ih (fun b hb => h b (List.mem_cons_of_mem _ hb))
    have h1' : subst d (max k1 k2) a = some o1 := subst_le (Nat.le_max_left _ _) h1
    have h2' := mapO_mono (fun a o => subst_le (d := d) (Nat.le_max_right k1 k2) (x := a) (t := o)) l o2 h2
    exact ⟨max k1 k2, o1 :: o2, by rw [mapO, h1', Option.bind_some, h2', Option.map_some]⟩

theorem subst_term {rank : Nat → Nat} {d : Dict} (hr : Ranked rank d) : ∀ (n m : Nat) (x : Tree), top rank x ≤ n → size x ≤ m →
    ∃ k t, subst d k x = some t := by
  intro n
  induction n with
  | zero =>
    intro m
    induction m with
    | zero =>
      intro x _ hm
      cases x <;> rw [size] at hm <;> omega
    | succ m ihm =>
      intro x hn hm
      cases x with
      | var y => rw [top] at hn; omega
      | val c => exact ⟨1, .val c, rfl⟩
      | tup l =>
        rw [size] at hm
        rw [top] at hn
        obtain ⟨k, o, h⟩ := mapO_term (d := d) l (fun a ha => ihm a (by have := top_mem (rank := rank) ha; omega)
          (by have := size_mem' ha; omega))
        exact ⟨k + 1, .tup o, by rw [subst]; rw [h, Option.map_some]⟩
  | succ n ihn =>
    intro m
    induction m with
    | zero =>
      intro x _ hm
      cases x <;> rw [size] at hm <;> omega
    | succ m ihm =>
      intro x hn hm
      cases x with
      | val c => exact ⟨1, .val c, rfl⟩
      | var y =>
        cases hd : d y with
        | none => exact ⟨1, .var y, by rw [subst]; rw [hd]⟩
        | some t =>
          rw [top] at hn
          obtain ⟨k, o, h⟩ := ihn (size t) t (by have := top_deref hr hd; omega) (Nat.le_refl _)
          exact ⟨k + 1, o, by rw [subst]; rw [hd]; exact h⟩
      | tup l =>
        rw [size] at hm
        rw [top] at hn
        obtain ⟨k, o, h⟩ := mapO_term (d := d) l (fun a ha => ihm a (by have := top_mem (rank := rank) ha; omega)
          (by have := size_mem' ha; omega))
        exact ⟨k + 1, .tup o, by rw [subst]; rw [h, Option.map_some]⟩

/-! ## Unbound variables -/

/-- The number of variables in `V` that are not in the dictionary. -/
def unbound (V : List Nat) (d : Dict) : Nat := V.countP (fun v => (d v).isNone)

theorem unbound_put {d : Dict} {v : Nat} (x : Tree) (hd : d v = none) : ∀ (V : List Nat), v ∈ V → unbound V (put d v x) < unbound V d := by
  have le : ∀ V : List Nat, unbound V (put d v x) ≤ unbound V d := by
    intro V
    refine List.countP_mono_left (fun u _ h => ?_)
    rw [put] at h
    by_cases hu : u = v
    · rw [if_pos hu] at h; cases h
    · rw [if_neg hu] at h; exact h
  intro V
  induction V with
  | nil => intro h; cases h
  | cons u V ih =>
    intro h
    rw [unbound, unbound, List.countP_cons, List.countP_cons]
    have l := le V
    rw [unbound, unbound] at l
    by_cases hu : u = v
    · have e1 : (put d v x u).isNone = false := by rw [put, if_pos hu]; rfl
      have e2 : (d u).isNone = true := by rw [hu, hd]; rfl
      rw [e1, e2, if_neg (by simp), if_pos rfl]
      omega
    · have e1 : (put d v x u).isNone = (d u).isNone := by rw [put, if_neg hu]
      have hm : v ∈ V := by
        rcases List.mem_cons.1 h with h | h
        · exact absurd h.symm hu
        · exact h
      have := ih hm
      rw [unbound, unbound] at this
      rw [e1]
      omega

/-- The variables of `t` are in `V`. -/
def Within (V : List Nat) (t : Tree) : Prop := ∀ y, In y t → y ∈ V

/-- The variables of the trees in the dictionary are in `V`. -/
def Good (V : List Nat) (d : Dict) : Prop := ∀ v t, d v = some t → Within V t

/-- What is known of a result. -/
def Ext (V : List Nat) (d d' : Dict) : Prop := Good V d' ∧ (d' = d ∨ unbound V d' < unbound V d)

theorem within_mem {V : List Nat} {l : List Tree} (h : Within V (.tup l)) {a : Tree} (ha : a ∈ l) : Within V a :=
  fun y hy => h y (show InL y l from inL_iff.2 ⟨a, ha, hy⟩)

theorem unifyVar_ext {V : List Nat} {k : Nat} {rec : Tree → Tree → Dict → Option (Option Dict)} {d : Dict} (hg : Good V d)
    (ih : ∀ a b d', Within V a → Within V b → rec a b d = some (some d') → Ext V d d') {v : Nat} {x : Tree} {d' : Dict}
    (hv : Within V (.var v)) (hx : Within V x) (h : unifyVar k rec v x d = some (some d')) : Ext V d d' := by
  have bnd : d v = none → (occurs k v x d).map (fun o => if o then none else some (put d v x)) = some (some d') → Ext V d d' := by
    intro hn h
    obtain ⟨o, ho, e⟩ := Option.map_eq_some_iff.1 h
    cases o with
    | true => cases e
    | false =>
      rw [if_neg (by simp)] at e
      cases e
      refine ⟨?_, Or.inr (unbound_put x hn V (hv v rfl))⟩
      intro u t hu
      rw [put] at hu
      by_cases huv : u = v
      · rw [if_pos huv] at hu; cases hu; exact hx
      · rw [if_neg huv] at hu; exact hg u t hu
  have gen : (match d v with
      | some t => rec t x d
      | none => (occurs k v x d).map (fun o => if o then none else some (put d v x))) = some (some d') → Ext V d d' := by
    intro h
    cases hd : d v with
    | some t => rw [hd] at h; exact ih _ _ _ (hg v t hd) hx h
    | none => rw [hd] at h; exact bnd hd h
  cases x with
  | val c => exact gen h
  | tup l => exact gen h
  | var y =>
    rw [unifyVar] at h
    by_cases hvy : v = y
    · rw [if_pos hvy] at h; cases h; exact ⟨hg, Or.inl rfl⟩
    · rw [if_neg hvy] at h
      cases hd : d v with
      | some t => rw [hd] at h; exact ih _ _ _ (hg v t hd) hx h
      | none =>
        rw [hd] at h
        dsimp only at h
        cases hy : d y with
        | some t => rw [hy] at h; exact ih _ _ _ hv (hg y t hy) h
        | none => rw [hy] at h; exact bnd hd h

theorem Ext.trans {V : List Nat} {d d1 d2 : Dict} (h1 : Ext V d d1) (h2 : Ext V d1 d2) : Ext V d d2 := by
  refine ⟨h2.1, ?_⟩
  rcases h2.2 with rfl | h
  · exact h1.2
  · rcases h1.2 with rfl | h'
    · exact Or.inr h
    · exact Or.inr (by omega)

theorem unifyL_ext {V : List Nat} {rec : Tree → Tree → Dict → Option (Option Dict)}
    (ih : ∀ a b d d', Good V d → Within V a → Within V b → rec a b d = some (some d') → Ext V d d') :
    ∀ (l l' : List Tree) (d d' : Dict), Good V d → Within V (.tup l) → Within V (.tup l') → unifyL rec l l' d = some (some d') → Ext V d d' := by
  intro l
  induction l with
  | nil =>
    intro l' d d' hg _ _ h
    cases l' with
    | nil => cases h; exact ⟨hg, Or.inl rfl⟩
    | cons b l' => cases h
  | cons a l ihl =>
    intro l' d d' hg hl hl' h
    cases l' with
    | nil => cases h
    | cons b l' =>
      rw [unifyL] at h
      cases h1 : rec a b d with
      | none => rw [h1] at h; cases h
      | some r =>
        rw [h1] at h
        cases r with
        | none => cases h
        | some d1 =>
          have e1 := ih a b d d1 hg (within_mem hl List.mem_cons_self) (within_mem hl' List.mem_cons_self) h1
          exact e1.trans (ihl l' d1 d' e1.1 (fun y hy => hl y (Or.inr hy)) (fun y hy => hl' y (Or.inr hy)) h)

theorem unifyRec_ext {V : List Nat} : ∀ (k : Nat) (a b : Tree) (d d' : Dict), Good V d → Within V a → Within V b →
    unifyRec k a b d = some (some d') → Ext V d d' := by
  intro k
  induction k with
  | zero => intro a b d d' _ _ _ h; cases h
  | succ k ih =>
    intro a b d d' hg ha hb h
    have ih' := fun a b d' => ih a b d d' hg
    cases a with
    | var v => rw [unifyRec_var] at h; exact unifyVar_ext hg ih' ha hb h
    | val c =>
      cases b with
      | var v => rw [unifyRec_var' _ _ _ _ (by simp)] at h; exact unifyVar_ext hg ih' hb ha h
      | val c' =>
        have h' : some (if c = c' then some d else none) = some (some d') := h
        by_cases hc : c = c'
        · rw [if_pos hc] at h'; cases h'; exact ⟨hg, Or.inl rfl⟩
        · rw [if_neg hc] at h'; cases h'
      | tup l => cases h
    | tup l =>
      cases b with
      | var v => rw [unifyRec_var' _ _ _ _ (by simp)] at h; exact unifyVar_ext hg ih' hb ha h
      | val c' => cases h
      | tup l' => exact unifyL_ext ih l l' d d' hg ha hb h

/-! ## Termination -/

theorem unifyL_term {V : List Nat} {d : Dict}
    (less : ∀ d', (∃ rank, Ranked rank d') → Good V d' → unbound V d' < unbound V d → ∀ a b, Within V a → Within V b → ∃ k r, unifyRec k a b d' = some r) :
    ∀ (l l' : List Tree) (d' : Dict), (∃ rank, Ranked rank d') → Ext V d d' → Within V (.tup l) → Within V (.tup l') →
      (d' = d → ∀ a ∈ l, ∀ b ∈ l', ∃ k r, unifyRec k a b d = some r) → ∃ k r, unifyL (unifyRec k) l l' d' = some r := by
  intro l
  induction l with
  | nil =>
    intro l' d' _ _ _ _ _
    cases l' with
    | nil => exact ⟨0, _, rfl⟩
    | cons b l' => exact ⟨0, _, rfl⟩
  | cons a l ihl =>
    intro l' d' hr he hl hl' hd
    cases l' with
    | nil => exact ⟨0, _, rfl⟩
    | cons b l' =>
      have ha := within_mem hl List.mem_cons_self
      have hb := within_mem hl' List.mem_cons_self
      have h1 : ∃ k r, unifyRec k a b d' = some r := by
        rcases he.2 with e | e
        · rw [e]; exact hd e a List.mem_cons_self b List.mem_cons_self
        · exact less d' hr he.1 e a b ha hb
      obtain ⟨k1, r1, h1⟩ := h1
      cases r1 with
      | none => exact ⟨k1, none, by rw [unifyL, h1]⟩
      | some d1 =>
        have e1 := unifyRec_ext k1 a b d' d1 he.1 ha hb h1
        obtain ⟨k2, r2, h2⟩ := ihl l' d1 (unifyRec_ranked k1 a b d' d1 hr h1) (he.trans e1) (fun y hy => hl y (Or.inr hy))
          (fun y hy => hl' y (Or.inr hy)) (by
            intro e
            have : d' = d := by
              rcases he.2 with h | h
              · exact h
              · rcases e1.2 with h' | h'
                · rw [← h']; exact e
                · rw [e] at h'; omega
            exact fun a ha b hb => hd this a (List.mem_cons_of_mem _ ha) b (List.mem_cons_of_mem _ hb))
        refine ⟨max k1 k2, r2, ?_⟩
        rw [unifyL, unifyRec_le (Nat.le_max_left k1 k2) h1]
        exact unifyL_mono (fun a b d r => unifyRec_le (Nat.le_max_right k1 k2)) l l' d1 r2 h2

theorem unifyVar_term {V : List Nat} {rank : Nat → Nat} {d : Dict} (hr : Ranked rank d) (hg : Good V d) {v : Nat} {x : Tree}
    (hv : Within V (.var v)) (hx : Within V x)
    (ih : ∀ a b, top rank a + top rank b < top rank (.var v) + top rank x → size (eval (solution d rank) a) + size (eval (solution d rank) b)
      = size (eval (solution d rank) (.var v)) + size (eval (solution d rank) x) → Within V a → Within V b → ∃ k r, unifyRec k a b d = some r) :
    ∃ k r, unifyVar k (unifyRec k) v x d = some r := by
  have hs := solution_sat hr
  have bnd : ∃ k r, (occurs k v x d).map (fun o => if o then none else some (put d v x)) = some r := by
    obtain ⟨k, o, h⟩ := occurs_term hr v (top rank x) (size x) x (Nat.le_refl _) (Nat.le_refl _)
    exact ⟨k, _, by rw [h]; rfl⟩
  have deref : ∀ t, d v = some t → ∃ k r, unifyRec k t x d = some r := by
    intro t hd
    refine ih t x ?_ ?_ (hg v t hd) hx
    · have := top_deref hr hd; rw [top]; omega
    · rw [eval, hs v t hd]
  have gen : ∃ k r, (match d v with
      | some t => unifyRec k t x d
      | none => (occurs k v x d).map (fun o => if o then none else some (put d v x))) = some r := by
    cases hd : d v with
    | some t => exact deref t hd
    | none => exact bnd
  cases x with
  | val c => exact gen
  | tup l => exact gen
  | var y =>
    by_cases hvy : v = y
    · exact ⟨0, _, by rw [unifyVar, if_pos hvy]⟩
    · cases hd : d v with
      | some t =>
        obtain ⟨k, r, h⟩ := deref t hd
        exact ⟨k, r, by rw [unifyVar, if_neg hvy, hd]; exact h⟩
      | none =>
        cases hy : d y with
        | some t =>
          obtain ⟨k, r, h⟩ := ih (.var v) t (by have := top_deref hr hy; rw [top, top]; omega) (by rw [eval, eval, hs y t hy]) hv (hg y t hy)
          exact ⟨k, r, by rw [unifyVar, if_neg hvy, hd]; dsimp only; rw [hy]; exact h⟩
        | none =>
          obtain ⟨k, r, h⟩ := bnd
          exact ⟨k, r, by rw [unifyVar, if_neg hvy, hd]; dsimp only; rw [hy]; exact h⟩

/-- The recursion at one dictionary, when it is known for dictionaries with more variables. -/
theorem unifyRec_term_at {V : List Nat} {rank : Nat → Nat} {d : Dict} (hr : Ranked rank d) (hg : Good V d)
    (less : ∀ d', (∃ rank, Ranked rank d') → Good V d' → unbound V d' < unbound V d → ∀ a b, Within V a → Within V b → ∃ k r, unifyRec k a b d' = some r) :
    ∀ (n m : Nat) (a b : Tree), size (eval (solution d rank) a) + size (eval (solution d rank) b) < n → top rank a + top rank b < m →
      Within V a → Within V b → ∃ k r, unifyRec k a b d = some r := by
  intro n
  induction n with
  | zero => intro m a b h; omega
  | succ n ihn =>
    intro m
    induction m with
    | zero => intro a b _ h; omega
    | succ m ihm =>
      intro a b hn hm ha hb
      have tupc : ∀ l l', a = .tup l → b = .tup l' → ∃ k r, unifyRec k a b d = some r := by
        rintro l l' rfl rfl
        obtain ⟨k, r, h⟩ := unifyL_term less l l' d ⟨rank, hr⟩ ⟨hg, Or.inl rfl⟩ ha hb (by
          intro _ a' ha' b' hb'
          refine ihn _ a' b' ?_ (Nat.lt_succ_self _) (within_mem ha ha') (within_mem hb hb')
          have h1 := size_mem (solution d rank) ha'
          have h2 := size_mem (solution d rank) hb'
          rw [eval, eval, size, size] at hn
          omega)
        exact ⟨k + 1, r, by rw [unifyRec]; exact h⟩
      have varl : ∀ v, a = .var v → ∃ k r, unifyRec k a b d = some r := by
        rintro v rfl
        obtain ⟨k, r, h⟩ := unifyVar_term hr hg ha hb (fun a' b' h1 h2 => ihm a' b' (by omega) (by omega))
        exact ⟨k + 1, r, by rw [unifyRec_var]; exact h⟩
      have varr : ∀ v, b = .var v → (∀ y, a ≠ .var y) → ∃ k r, unifyRec k a b d = some r := by
        rintro v rfl hna
        obtain ⟨k, r, h⟩ := unifyVar_term hr hg hb ha (fun a' b' h1 h2 => ihm a' b' (by omega) (by omega))
        exact ⟨k + 1, r, by rw [unifyRec_var' _ _ _ _ hna]; exact h⟩
      cases a with
      | var v => exact varl v rfl
      | val c =>
        cases b with
        | var v => exact varr v rfl (by simp)
        | val c' => exact ⟨1, _, rfl⟩
        | tup l => exact ⟨1, _, rfl⟩
      | tup l =>
        cases b with
        | var v => exact varr v rfl (by simp)
        | val c' => exact ⟨1, _, rfl⟩
        | tup l' => exact tupc l l' rfl rfl

theorem unifyRec_term {V : List Nat} : ∀ (c : Nat) (d : Dict), unbound V d < c → (∃ rank, Ranked rank d) → Good V d → ∀ a b, Within V a →
    Within V b → ∃ k r, unifyRec k a b d = some r := by
  intro c
  induction c with
  | zero => intro d h; omega
  | succ c ih =>
    intro d hc hr hg a b ha hb
    obtain ⟨rank, hr⟩ := hr
    exact unifyRec_term_at hr hg (fun d' h1 h2 h3 => ih d' (by omega) h1 h2) _ _ a b (Nat.lt_succ_self _) (Nat.lt_succ_self _) ha hb

mutual
/-- The variables of a tree. -/
def vars : Tree → List Nat
  | .var v => [v]
  | .val _ => []
  | .tup l => varsL l
def varsL : List Tree → List Nat
  | [] => []
  | a :: l => vars a ++ varsL l
end

mutual
theorem mem_vars {y : Nat} : ∀ t : Tree, In y t → y ∈ vars t
  | .var v, h => by have h : y = v := h; rw [vars, h]; exact List.mem_cons_self
  | .val _, h => False.elim h
  | .tup l, h => by rw [vars]; exact mem_varsL l h
theorem mem_varsL {y : Nat} : ∀ l : List Tree, InL y l → y ∈ varsL l
  | [], h => False.elim h
  | a :: l, h => by
    rw [varsL]
    rcases h with h | h
    · exact List.mem_append_left _ (mem_vars a h)
    · exact List.mem_append_right _ (mem_varsL l h)
end

theorem ranked_empty : ∃ rank, Ranked rank (fun _ => none) := ⟨fun _ => 0, fun _ _ h => by cases h⟩

theorem unify_term (a b : Tree) : ∃ k r, unify k a b = some r :=
  unifyRec_term (V := vars a ++ vars b) _ _ (Nat.lt_succ_self _) ranked_empty (fun _ _ h => by cases h) a b
    (fun y hy => List.mem_append_left _ (mem_vars a hy)) (fun y hy => List.mem_append_right _ (mem_vars b hy))

/-! ## `unify-merge` -/

theorem mapO_eval {d : Dict} {s : Nat → Tree} {f : Tree → Option Tree} (ih : ∀ x t, f x = some t → t = eval s x) : ∀ (l l' : List Tree),
    mapO f l = some l' → l' = evalL s l := by
  intro l
  induction l with
  | nil => intro l' h; cases h; rfl
  | cons a l ihl =>
    intro l' h
    rw [mapO] at h
    cases hr : f a with
    | none => rw [hr] at h; cases h
    | some x =>
      rw [hr, Option.bind_some] at h
      obtain ⟨ys, h1, h2⟩ := Option.map_eq_some_iff.1 h
      rw [← h2, evalL, ih a x hr, ihl ys h1]

theorem subst_eval {rank : Nat → Nat} {d : Dict} (hr : Ranked rank d) : ∀ (k : Nat) (x t : Tree), subst d k x = some t →
    t = eval (solution d rank) x := by
  intro k
  induction k with
  | zero => intro x t h; cases h
  | succ k ih =>
    intro x t h
    rw [subst.eq_def] at h
    cases x with
    | val c => cases h; rfl
    | var y =>
      dsimp only at h
      rw [eval]
      cases hd : d y with
      | none => rw [hd] at h; cases h; rw [solution_none hd]
      | some u => rw [hd] at h; rw [ih u t h, solution_sat hr y u hd]
    | tup l =>
      obtain ⟨ys, h1, h2⟩ := Option.map_eq_some_iff.1 h
      rw [← h2, eval, mapO_eval (d := d) ih l ys h1]

end Gauche.Unify
