import Verif.Proof.EqualUF
/-! The interleaved comparison is right: bisimulation up to the union-find classes. -/
namespace Gauche.Equal

/-- The components are related one by one. -/
def KidsRel (H : Heap) (E : Val → Val → Prop) (x y : Val) : Prop :=
  shape H x = shape H y ∧ (kids H x).length = (kids H y).length ∧ ∀ (i : Nat) (v w : Val), (kids H x)[i]? = some v → (kids H y)[i]? = some w → E v w

/-- An equivalence that contains everything that follows from the components. -/
structure Cong (H : Heap) (E : Val → Val → Prop) : Prop where
  refl : ∀ x, E x x
  symm : ∀ x y, E x y → E y x
  trans : ∀ x y z, E x y → E y z → E x z
  up : ∀ x y, KidsRel H E x y → E x y

theorem KidsRel.refl {H : Heap} {E : Val → Val → Prop} (hE : Cong H E) (x : Val) : KidsRel H E x x :=
  ⟨rfl, rfl, fun i v w h h' => by rw [h] at h'; cases h'; exact hE.refl v⟩

theorem KidsRel.symm {H : Heap} {E : Val → Val → Prop} (hE : Cong H E) {x y : Val} (h : KidsRel H E x y) : KidsRel H E y x :=
  ⟨h.1.symm, h.2.1.symm, fun i v w h1 h2 => hE.symm _ _ (h.2.2 i w v h2 h1)⟩

theorem KidsRel.trans {H : Heap} {E : Val → Val → Prop} (hE : Cong H E) {x y z : Val} (h : KidsRel H E x y) (h' : KidsRel H E y z) : KidsRel H E x z := by
  refine ⟨h.1.trans h'.1, h.2.1.trans h'.2.1, fun i v w h1 h2 => ?_⟩
  have hi : i < (kids H y).length := by
    rw [← h.2.1]; exact (List.getElem?_eq_some_iff.1 h1).1
  exact hE.trans _ _ _ (h.2.2 i v _ h1 (List.getElem?_eq_getElem hi)) (h'.2.2 i _ w (List.getElem?_eq_getElem hi) h2)

/-- A relation that respects components makes the trees the same. -/
theorem sameTree_of_bisim {H : Heap} {E : Val → Val → Prop} (hE : ∀ x y, E x y → KidsRel H E x y) {x y : Val} (h : E x y) : SameTree H x y := by
  intro path
  induction path generalizing x y with
  | nil => simp only [follow, Option.map_some, (hE x y h).1]
  | cons i path ih =>
    obtain ⟨h1, h2, h3⟩ := hE x y h
    rw [follow, follow]
    cases hx : (kids H x)[i]? with
    | none =>
      have : (kids H y)[i]? = none := by
        rw [List.getElem?_eq_none_iff] at hx ⊢; omega
      rw [this]
    | some v =>
      have hi : i < (kids H y).length := by
        rw [← h2]; exact (List.getElem?_eq_some_iff.1 hx).1
      rw [List.getElem?_eq_getElem hi]
      exact ih (h3 i _ _ hx (List.getElem?_eq_getElem hi))

theorem SameTree.shape {H : Heap} {x y : Val} (h : SameTree H x y) : shape H x = shape H y := by
  have := h []
  simpa only [follow, Option.map_some, Option.some.injEq] using this

theorem SameTree.kid {H : Heap} {x y : Val} (h : SameTree H x y) {i : Nat} {v w : Val} (hv : (kids H x)[i]? = some v) (hw : (kids H y)[i]? = some w) :
    SameTree H v w := by
  intro path
  have := h (i :: path)
  simpa only [follow, hv, hw] using this

theorem SameTree.refl (H : Heap) (x : Val) : SameTree H x x := fun _ => rfl
theorem SameTree.symm {H : Heap} {x y : Val} (h : SameTree H x y) : SameTree H y x := fun p => (h p).symm
theorem SameTree.trans {H : Heap} {x y z : Val} (h : SameTree H x y) (h' : SameTree H y z) : SameTree H x z := fun p => (h p).trans (h' p)

/-- Leaves: `equal?` compares the shapes. -/
theorem equalAtom_iff {H : Heap} {a : Leaf} {y : Val} : equalAtom (.leaf a) y = true ↔ shape H (.leaf a) = shape H y := by
  cases y with
  | ptr q =>
    simp only [equalAtom]
    cases hc : cellAt H q <;> cases a <;> simp [shape, hc]
  | leaf b => cases a <;> cases b <;> simp [equalAtom, equalLeaf, eqv, shape] <;> (intro h1 h2; exact h2)

theorem kidsRel_leaf {H : Heap} {E : Val → Val → Prop} {a : Leaf} {y : Val} (h : equalAtom (.leaf a) y = true) : KidsRel H E (.leaf a) y := by
  refine ⟨equalAtom_iff.1 h, ?_, ?_⟩
  · cases y with
    | leaf b => rfl
    | ptr q => simp [equalAtom] at h
  · intro i v w hv; simp [kids] at hv

theorem kids_pair {H : Heap} {p : Nat} {a d : Val} (h : cellAt H p = .pair a d) : kids H (.ptr p) = [a, d] ∧ shape H (.ptr p) = .pair := by
  simp [kids, Equal.shape, h]

theorem kids_vec {H : Heap} {p : Nat} {l : List Val} (h : cellAt H p = .vec l) : kids H (.ptr p) = l ∧ shape H (.ptr p) = .vec l.length := by
  simp [kids, Equal.shape, h]

/-- What an answer of the comparison means. -/
def Good (H : Heap) (P : (Val → Val → Prop) → Prop) (s s' : St) : Prop :=
  s'.uf.Inv ∧ (∀ a c, s.uf.Eq a c → s'.uf.Eq a c) ∧
  ∀ E, Cong H E → (∀ a c, s'.uf.Eq a c → E (.ptr a) (.ptr c)) →
    P E ∧ ((∀ a c, s.uf.Eq a c → KidsRel H E (.ptr a) (.ptr c)) → ∀ a c, s'.uf.Eq a c → KidsRel H E (.ptr a) (.ptr c))

/-- The specification of a comparison routine: on success and on failure. -/
def RecOK (H : Heap) (rec : Val → Val → Int → St → Ans) : Prop :=
  ∀ x y k s r s', s.uf.Inv → rec x y k s = some (r, s') →
    (r.isSome → Good H (fun E => E x y) s s') ∧ (r = none → ¬ SameTree H x y)

theorem Good.refl {H : Heap} {P : (Val → Val → Prop) → Prop} {s : St} (hs : s.uf.Inv) (hP : ∀ E, Cong H E → P E) : Good H P s s :=
  ⟨hs, fun _ _ h => h, fun E hE _ => ⟨hP E hE, fun h => h⟩⟩

theorem seqE_ok {H : Heap} {rec : Val → Val → Int → St → Ans} (hr : RecOK H rec) : ∀ (xs ys : List Val) (k : Int) (s : St) (r : Option Int) (s' : St),
    xs.length = ys.length → s.uf.Inv → seqE rec xs ys k s = some (r, s') →
    (r.isSome → Good H (fun E => ∀ (i : Nat) (v w : Val), xs[i]? = some v → ys[i]? = some w → E v w) s s') ∧
    (r = none → ∃ (i : Nat) (v w : Val), xs[i]? = some v ∧ ys[i]? = some w ∧ ¬ SameTree H v w)
  | [], [], k, s, r, s', _, hs, h => by
    simp only [seqE, Option.some.injEq, Prod.mk.injEq] at h
    obtain ⟨rfl, rfl⟩ := h
    exact ⟨fun _ => Good.refl hs (fun E _ i v w h => by simp at h), fun h => (by cases h)⟩
  | [], _ :: _, _, _, _, _, h, _, _ => by simp at h
  | _ :: _, [], _, _, _, _, h, _, _ => by simp at h
  | x :: xs, y :: ys, k, s, r, s', hl, hs, h => by
    rw [seqE] at h
    cases h1 : rec x y k s with
    | none => rw [h1] at h; cases h
    | some w =>
      obtain ⟨r1, s1⟩ := w
      have h2 := hr x y k s r1 s1 hs h1
      rw [h1] at h
      cases r1 with
      | none =>
        cases h
        refine ⟨fun h => (by cases h), fun _ => ⟨0, x, y, rfl, rfl, h2.2 rfl⟩⟩
      | some k1 =>
        simp only at h
        obtain ⟨g1, g2, g3⟩ := h2.1 rfl
        obtain ⟨h3, h4⟩ := seqE_ok hr xs ys k1 s1 r s' (by simpa using hl) g1 h
        constructor
        · intro hsome
          obtain ⟨f1, f2, f3⟩ := h3 hsome
          refine ⟨f1, fun a c h => f2 _ _ (g2 _ _ h), fun E hE hU => ?_⟩
          have a1 := g3 E hE (fun a c h => hU _ _ (f2 _ _ h))
          have a2 := f3 E hE hU
          refine ⟨?_, fun h => a2.2 (a1.2 h)⟩
          intro i v w hv hw
          cases i with
          | zero => simp at hv hw; subst hv; subst hw; exact a1.1
          | succ i => exact a2.1 i v w (by simpa using hv) (by simpa using hw)
        · intro hn
          obtain ⟨i, v, w, hv, hw, hd⟩ := h4 hn
          exact ⟨i + 1, v, w, by simpa using hv, by simpa using hw, hd⟩

/-- The components of two objects of the same shape, without a table. -/
theorem seqE_kids {H : Heap} {rec : Val → Val → Int → St → Ans} (hr : RecOK H rec) {x y : Val} {k : Int} {s : St} {r : Option Int} {s' : St}
    (hshape : shape H x = shape H y) (hl : (kids H x).length = (kids H y).length) (hs : s.uf.Inv) (h : seqE rec (kids H x) (kids H y) k s = some (r, s')) :
    (r.isSome → Good H (fun E => KidsRel H E x y) s s') ∧ (r = none → ¬ SameTree H x y) := by
  obtain ⟨h1, h2⟩ := seqE_ok hr _ _ k s r s' hl hs h
  constructor
  · intro hsome
    obtain ⟨f1, f2, f3⟩ := h1 hsome
    exact ⟨f1, f2, fun E hE hU => ⟨⟨hshape, hl, (f3 E hE hU).1⟩, (f3 E hE hU).2⟩⟩
  · intro hn hsame
    obtain ⟨i, v, w, hv, hw, hd⟩ := h2 hn
    exact hd (hsame.kid hv hw)

theorem Good.up {H : Heap} {x y : Val} {s s' : St} (h : Good H (fun E => KidsRel H E x y) s s') : Good H (fun E => E x y) s s' :=
  ⟨h.1, h.2.1, fun E hE hU => ⟨hE.up _ _ (h.2.2 E hE hU).1, (h.2.2 E hE hU).2⟩⟩

/-- Comparison after the objects were entered into the table. -/
theorem Good.after {H : Heap} {p q : Nat} {s s' : St} {u : UF} (hu : UFStep s.uf p q false u)
    (h : Good H (fun E => KidsRel H E (.ptr p) (.ptr q)) { s with uf := u } s') : Good H (fun E => E (.ptr p) (.ptr q)) s s' := by
  obtain ⟨f1, f2, f3⟩ := h
  refine ⟨f1, fun a c h => f2 _ _ (hu.mono _ _ h), fun E hE hU => ?_⟩
  obtain ⟨a1, a2⟩ := f3 E hE hU
  refine ⟨hE.up _ _ a1, fun h0 => a2 ?_⟩
  exact hu.gen (fun a c => KidsRel H E (.ptr a) (.ptr c)) (fun a => KidsRel.refl hE _) (fun a c => KidsRel.symm hE) (fun a c d => KidsRel.trans hE) h0 a1

/-- Objects that are in the same class already. -/
theorem Good.found {H : Heap} {p q : Nat} {s : St} {u : UF} (hu : UFStep s.uf p q true u) : Good H (fun E => E (.ptr p) (.ptr q)) s { s with uf := u } :=
  ⟨hu.inv, hu.mono, fun E hE hU => ⟨hU _ _ hu.eq, fun h a c hac => h _ _ ((hu.same rfl).2 _ _ hac)⟩⟩

theorem shape_ne {H : Heap} {x y : Val} (h : shape H x ≠ shape H y) : ¬ SameTree H x y := fun hs => h hs.shape

theorem leaf_case {H : Heap} {a : Leaf} {y : Val} {k : Int} {s s' : St} {r : Option Int} (hs : s.uf.Inv)
    (h : some (if equalAtom (.leaf a) y then some k else none, s) = some (r, s')) :
    (r.isSome → Good H (fun E => E (.leaf a) y) s s') ∧ (r = none → ¬ SameTree H (.leaf a) y) := by
  cases hq : equalAtom (.leaf a) y with
  | true =>
    simp only [hq, if_true] at h
    cases h
    exact ⟨fun _ => Good.refl hs (fun E hE => hE.up _ _ (kidsRel_leaf hq)), fun h => (by cases h)⟩
  | false =>
    simp only [hq] at h
    cases h
    refine ⟨fun h => (by cases h), fun _ => shape_ne (fun e => ?_)⟩
    rw [← equalAtom_iff, hq] at e
    cases e

theorem leaf_shape_ne {H : Heap} {p : Nat} {b : Leaf} : shape H (.ptr p) ≠ shape H (.leaf b) := by
  cases hc : cellAt H p <;> cases b <;> simp [shape, hc]

theorem slow_ok {H : Heap} {rec : Val → Val → Int → St → Ans} (hr : RecOK H rec) : RecOK H (slow H rec) := by
  intro x y k s r s' hs h
  unfold slow at h
  by_cases he : eqv x y = true
  · rw [if_pos he] at h
    cases h
    have : x = y := of_decide_eq_true he
    subst this
    exact ⟨fun _ => Good.refl hs (fun E hE => hE.refl x), fun h => (by cases h)⟩
  · rw [if_neg he] at h
    cases x with
    | leaf a => exact leaf_case hs h
    | ptr p =>
      cases y with
      | leaf b =>
        cases h
        exact ⟨fun h => (by cases h), fun _ => shape_ne leaf_shape_ne⟩
      | ptr q =>
        simp only at h
        cases hp : cellAt H p with
        | pair a d =>
          cases hq : cellAt H q with
          | vec l =>
            simp only [hp, hq] at h
            cases h
            exact ⟨fun h => (by cases h), fun _ => shape_ne (by rw [(kids_pair hp).2, (kids_vec hq).2]; exact fun h => (by cases h))⟩
          | pair a' d' =>
            simp only [hp, hq] at h
            cases hu : unionFind s.uf p q with
            | none => rw [hu] at h; cases h
            | some w =>
              obtain ⟨b, u⟩ := w
              have hst := unionFind_spec hs hu
              rw [hu] at h
              cases b with
              | true =>
                cases h
                exact ⟨fun _ => Good.found hst, fun h => (by cases h)⟩
              | false =>
                simp only at h
                rw [← (kids_pair hp).1, ← (kids_pair hq).1] at h
                have := seqE_kids hr (by rw [(kids_pair hp).2, (kids_pair hq).2]) (by rw [(kids_pair hp).1, (kids_pair hq).1]; rfl) hst.inv h
                exact ⟨fun h => Good.after hst (this.1 h), this.2⟩
        | vec l =>
          cases hq : cellAt H q with
          | pair a' d' =>
            simp only [hp, hq] at h
            cases h
            exact ⟨fun h => (by cases h), fun _ => shape_ne (by rw [(kids_pair hq).2, (kids_vec hp).2]; exact fun h => (by cases h))⟩
          | vec l' =>
            simp only [hp, hq] at h
            by_cases hl : l'.length = l.length
            · rw [if_pos hl] at h
              cases hu : unionFind s.uf p q with
              | none => rw [hu] at h; cases h
              | some w =>
                obtain ⟨b, u⟩ := w
                have hst := unionFind_spec hs hu
                rw [hu] at h
                cases b with
                | true =>
                  cases h
                  exact ⟨fun _ => Good.found hst, fun h => (by cases h)⟩
                | false =>
                  simp only at h
                  rw [← (kids_vec hp).1, ← (kids_vec hq).1] at h
                  have := seqE_kids hr (by rw [(kids_vec hp).2, (kids_vec hq).2, hl]) (by rw [(kids_vec hp).1, (kids_vec hq).1, hl]) hst.inv h
                  exact ⟨fun h => Good.after hst (this.1 h), this.2⟩
            · rw [if_neg hl] at h
              cases h
              refine ⟨fun h => (by cases h), fun _ => shape_ne ?_⟩
              rw [(kids_vec hp).2, (kids_vec hq).2]
              intro h; injection h with h; exact hl h.symm

theorem fast_ok {H : Heap} {rec : Val → Val → Int → St → Ans} (hr : RecOK H rec) : RecOK H (fast H rec) := by
  intro x y k s r s' hs h
  unfold fast at h
  by_cases he : eqv x y = true
  · rw [if_pos he] at h
    cases h
    have : x = y := of_decide_eq_true he
    subst this
    exact ⟨fun _ => Good.refl hs (fun E hE => hE.refl x), fun h => (by cases h)⟩
  · rw [if_neg he] at h
    cases x with
    | leaf a => exact leaf_case hs h
    | ptr p =>
      cases y with
      | leaf b =>
        cases h
        exact ⟨fun h => (by cases h), fun _ => shape_ne leaf_shape_ne⟩
      | ptr q =>
        simp only at h
        cases hp : cellAt H p with
        | pair a d =>
          cases hq : cellAt H q with
          | vec l =>
            simp only [hp, hq] at h
            cases h
            exact ⟨fun h => (by cases h), fun _ => shape_ne (by rw [(kids_pair hp).2, (kids_vec hq).2]; exact fun h => (by cases h))⟩
          | pair a' d' =>
            simp only [hp, hq] at h
            rw [← (kids_pair hp).1, ← (kids_pair hq).1] at h
            have := seqE_kids hr (by rw [(kids_pair hp).2, (kids_pair hq).2]) (by rw [(kids_pair hp).1, (kids_pair hq).1]; rfl) hs h
            exact ⟨fun h => Good.up (this.1 h), this.2⟩
        | vec l =>
          cases hq : cellAt H q with
          | pair a' d' =>
            simp only [hp, hq] at h
            cases h
            exact ⟨fun h => (by cases h), fun _ => shape_ne (by rw [(kids_pair hq).2, (kids_vec hp).2]; exact fun h => (by cases h))⟩
          | vec l' =>
            simp only [hp, hq] at h
            by_cases hl : l'.length = l.length
            · rw [if_pos hl] at h
              rw [← (kids_vec hp).1, ← (kids_vec hq).1] at h
              have := seqE_kids hr (by rw [(kids_vec hp).2, (kids_vec hq).2, hl]) (by rw [(kids_vec hp).1, (kids_vec hq).1, hl]) hs h
              exact ⟨fun h => Good.up (this.1 h), this.2⟩
            · rw [if_neg hl] at h
              cases h
              refine ⟨fun h => (by cases h), fun _ => shape_ne ?_⟩
              rw [(kids_vec hp).2, (kids_vec hq).2]
              intro h; injection h with h; exact hl h.symm

theorem e_ok (H : Heap) (rnd : Nat → Nat) : ∀ n, RecOK H (e H rnd n)
  | 0 => fun _ _ _ _ _ _ _ h => by cases h
  | n + 1 => by
    intro x y k s r s' hs h
    rw [e] at h
    by_cases h1 : k ≤ 0
    · rw [if_pos h1] at h
      by_cases h2 : k = Kb
      · rw [if_pos h2] at h
        exact fast_ok (e_ok H rnd n) x y _ { s with pos := s.pos + 1 } r s' hs h
      · rw [if_neg h2] at h
        exact slow_ok (e_ok H rnd n) x y _ s r s' hs h
    · rw [if_neg h1] at h
      exact fast_ok (e_ok H rnd n) x y _ s r s' hs h

/-- The least relation that `Good` is applied to. -/
inductive Gen (H : Heap) (u : UF) : Val → Val → Prop
  | base {a c} : u.Eq a c → Gen H u (.ptr a) (.ptr c)
  | refl x : Gen H u x x
  | symm {x y} : Gen H u x y → Gen H u y x
  | trans {x y z} : Gen H u x y → Gen H u y z → Gen H u x z
  | up {x y} : shape H x = shape H y → (kids H x).length = (kids H y).length →
      (∀ (i : Nat) (v w : Val), (kids H x)[i]? = some v → (kids H y)[i]? = some w → Gen H u v w) → Gen H u x y

theorem Gen.cong (H : Heap) (u : UF) : Cong H (Gen H u) :=
  ⟨.refl, fun _ _ => .symm, fun _ _ _ => .trans, fun _ _ h => .up h.1 h.2.1 h.2.2⟩

/-- The interleaved comparison is right. -/
theorem interleave_ok {H : Heap} {rnd : Nat → Nat} {n : Nat} {x y : Val} {b : Bool} (h : interleave H rnd n x y = some b) : b = true ↔ SameTree H x y := by
  unfold interleave at h
  cases h1 : e H rnd n x y K0 ⟨UF.empty, 0⟩ with
  | none => rw [h1] at h; cases h
  | some w =>
    obtain ⟨r, s'⟩ := w
    rw [h1] at h
    simp only [Option.map_some, Option.some.injEq] at h
    subst h
    obtain ⟨h2, h3⟩ := e_ok H rnd n x y K0 ⟨UF.empty, 0⟩ r s' UF.empty_inv h1
    constructor
    · intro hsome
      obtain ⟨_, _, g3⟩ := h2 hsome
      have hc := Gen.cong H s'.uf
      obtain ⟨a1, a2⟩ := g3 (Gen H s'.uf) hc (fun a c => .base)
      have a3 := a2 (fun a c h => by
        have := UF.empty_eq h
        subst this
        exact KidsRel.refl hc _)
      refine sameTree_of_bisim (E := Gen H s'.uf) (fun v w hvw => ?_) a1
      induction hvw with
      | base h => exact a3 _ _ h
      | refl x => exact KidsRel.refl hc x
      | symm _ ih => exact KidsRel.symm hc ih
      | trans _ _ ih1 ih2 => exact KidsRel.trans hc ih1 ih2
      | up h1 h2 h3 => exact ⟨h1, h2, h3⟩
    · intro hsame
      cases r with
      | none => exact absurd hsame (h3 rfl)
      | some k => rfl

end Gauche.Equal
