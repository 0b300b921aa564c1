import Verif.Proof.CharSet3
import Verif.Model.CharFold
/-
Internal lemmas for C60: the case-folding loop, which modifies the tree it walks over.
-/
namespace Gauche.CharSet
open Gauche.TreeMap Gauche.OrdList Std

/-! ### Ranges and their keys -/

theorem key_unique {rs : List (Nat × Nat)} : ∀ {b : Nat}, Canon b rs → ∀ {k v v'}, (k, v) ∈ rs → (k, v') ∈ rs → v = v' := by
  induction rs with
  | nil => intro b _ k v v' h; cases h
  | cons x r ih =>
    intro b hc k v v' h1 h2
    have hr : ∀ y ∈ r, x.2 + 2 ≤ y.1 := fun y hy => (canon_mem hc.2.2.2 y hy).1
    have hx := hc.2.1
    rcases List.mem_cons.1 h1 with h1 | h1 <;> rcases List.mem_cons.1 h2 with h2 | h2
    · rw [← h2] at h1; cases h1; rfl
    · have := hr _ h2; rw [← h1] at hx this; simp only at hx this; omega
    · have := hr _ h1; rw [← h2] at hx this; simp only at hx this; omega
    · exact ih hc.2.2.2 h1 h2

/-- Just after a range comes a gap. -/
theorem end_gap {rs : List (Nat × Nat)} : ∀ {b : Nat}, Canon b rs → ∀ {e}, e ∈ rs → ¬ MemR (e.2 + 1) rs := by
  induction rs with
  | nil => intro b _ e h; cases h
  | cons x r ih =>
    intro b hc e he
    have hr : ∀ y ∈ r, x.2 + 2 ≤ y.1 ∧ y.1 ≤ y.2 := fun y hy => ⟨(canon_mem hc.2.2.2 y hy).1, (canon_mem hc.2.2.2 y hy).2.1⟩
    have hx := hc.2.1
    rw [memR_cons]
    rcases List.mem_cons.1 he with rfl | he
    · rintro (h | ⟨y, hy, h⟩)
      · omega
      · have := hr y hy; omega
    · rintro (h | h)
      · have := hr e he; omega
      · exact ih hc.2.2.2 he h

/-- A code is the first of a range iff it is a member and the code before is not. -/
theorem key_iff {rs : List (Nat × Nat)} : ∀ {b : Nat}, Canon b rs → ∀ k, (∃ v, (k, v) ∈ rs) ↔
    MemR k rs ∧ ∀ j, j + 1 = k → ¬ MemR j rs := by
  induction rs with
  | nil => intro b _ k; simp
  | cons x r ih =>
    intro b hc k
    have hr : ∀ y ∈ r, x.2 + 2 ≤ y.1 ∧ y.1 ≤ y.2 := fun y hy => ⟨(canon_mem hc.2.2.2 y hy).1, (canon_mem hc.2.2.2 y hy).2.1⟩
    have hx := hc.2.1
    have hm : ∀ c, MemR c r → x.2 + 2 ≤ c := fun c ⟨y, hy, h⟩ => by have := hr y hy; omega
    constructor
    · rintro ⟨v, hv⟩
      rcases List.mem_cons.1 hv with rfl | hv
      · simp only at hx hr hm
        refine ⟨by rw [memR_cons]; exact .inl ⟨Nat.le_refl _, hx⟩, fun j hj => ?_⟩
        rw [memR_cons]
        rintro (h | h)
        · simp only at h; omega
        · have := hm j h; omega
      · obtain ⟨h1, h2⟩ := (ih hc.2.2.2 k).1 ⟨v, hv⟩
        refine ⟨by rw [memR_cons]; exact .inr h1, fun j hj => ?_⟩
        rw [memR_cons]
        rintro (h | h)
        · have := hm k h1; omega
        · exact h2 j hj h
    · rintro ⟨h1, h2⟩
      rw [memR_cons] at h1
      rcases h1 with h1 | h1
      · have hk : k = x.1 := by
          by_contra hne
          exact h2 (k - 1) (by omega) (by rw [memR_cons]; exact .inl (by omega))
        exact ⟨x.2, by rw [hk]; simp⟩
      · obtain ⟨v, hv⟩ := (ih hc.2.2.2 k).2 ⟨h1, fun j hj hm' => h2 j hj (by rw [memR_cons]; exact .inr hm')⟩
        exact ⟨v, by simp [hv]⟩

theorem get_iff {t : T} (hi : TInv t) {b : Nat} (hc : Canon b (elems t.root)) (k v : Nat) :
    t.get compare k = some v ↔ (k, v) ∈ elems t.root := by
  unfold Core.get
  rw [coreGet_eq hi.2.1]
  unfold getL
  constructor
  · intro h
    obtain ⟨p, hp, rfl⟩ := Option.map_eq_some_iff.1 h
    have h1 := List.mem_of_find?_eq_some hp
    have h2 := List.find?_some hp
    simp only [beq_iff_eq, _root_.compare_eq_iff_eq] at h2
    rw [← h2]; exact h1
  · intro h
    cases hf : (elems t.root).find? (fun p => compare p.1 k == .eq) with
    | none =>
      have := List.find?_eq_none.1 hf _ h
      simp at this
    | some p =>
      have h1 := List.mem_of_find?_eq_some hf
      have h2 := List.find?_some hf
      simp only [beq_iff_eq, _root_.compare_eq_iff_eq] at h2
      have : (k, p.2) ∈ elems t.root := by rw [← h2]; exact h1
      rw [Option.map_some, key_unique hc this h]

theorem exists_iff {t : T} (hi : TInv t) {b : Nat} (hc : Canon b (elems t.root)) (k : Nat) :
    t.exists_ compare k = true ↔ ∃ v, (k, v) ∈ elems t.root := by
  unfold Core.exists_
  have := get_iff hi hc k
  unfold Core.get at this
  constructor
  · intro h
    obtain ⟨p, hp⟩ := Option.isSome_iff_exists.1 h
    exact ⟨p.2, (this _).1 (by rw [hp]; rfl)⟩
  · rintro ⟨v, hv⟩
    have := (this v).2 hv
    cases hg : coreGet compare k t.root with
    | none => rw [hg] at this; cases this
    | some _ => rfl

theorem succ_spec {t : T} (hi : TInv t) {b : Nat} (hc : Canon b (elems t.root)) (k : Nat) :
    match t.successor compare k with
    | none => ∀ e ∈ elems t.root, e.1 ≤ k
    | some n => n ∈ elems t.root ∧ k < n.1 ∧ ∀ e ∈ elems t.root, k < e.1 → n.1 ≤ e.1 := by
  unfold Core.successor
  rw [(near_eq t hi k).2.2]
  unfold above
  cases hh : ((elems t.root).filter fun p => compare p.1 k == .gt) with
  | nil =>
    simp only [List.head?_nil]
    intro e he
    have := List.filter_eq_nil_iff.1 hh e he
    simp only [beq_iff_eq, compare_gt_iff_gt] at this
    omega
  | cons n l =>
    simp only [List.head?_cons]
    have hn : n ∈ (elems t.root).filter fun p => compare p.1 k == .gt := by rw [hh]; simp
    rw [List.mem_filter] at hn
    have hk := hn.2
    simp only [beq_iff_eq, compare_gt_iff_gt] at hk
    refine ⟨hn.1, hk, fun e he hke => ?_⟩
    have he' : e ∈ (elems t.root).filter fun p => compare p.1 k == .gt := by
      rw [List.mem_filter]; exact ⟨he, by simpa [beq_iff_eq, compare_gt_iff_gt] using hke⟩
    rw [hh] at he'
    have hs : ((elems t.root).filter fun p => compare p.1 k == .gt).Pairwise fun a b => a.2 + 2 ≤ b.1 :=
      (canon_gap hc).sublist List.filter_sublist
    rw [hh] at hs
    rcases List.mem_cons.1 he' with rfl | he'
    · exact Nat.le_refl _
    · have := (List.pairwise_cons.1 hs).1 e he'
      have := (canon_mem hc n hn.1).2.1
      omega

/-- A key absorbed by a lower range never becomes a key again, because sets only grow: nodes can be identified
by their keys. -/
theorem key_gone {rs rs' : List (Nat × Nat)} {b b' : Nat} (hc : Canon b rs) (hc' : Canon b' rs')
    (hm : ∀ c, MemR c rs → MemR c rs') {k : Nat} (hk : MemR k rs) (hn : ¬ ∃ v, (k, v) ∈ rs) :
    ¬ ∃ v, (k, v) ∈ rs' := by
  rw [key_iff hc] at hn
  rw [key_iff hc']
  rintro ⟨h1, h2⟩
  exact hn ⟨hk, fun j hj hjm => h2 j hj (hm j hjm)⟩

/-! ### The state of the iteration -/

/-- What the model knows about a node of the iteration. -/
structure NodeOK (rs : List (Nat × Nat)) (p : Nat × Nat) : Prop where
  lo : 128 ≤ p.1
  le : p.1 ≤ p.2
  hi : p.2 ≤ charMax
  mem : ∀ c, p.1 ≤ c → c ≤ p.2 → MemR c rs
  live : ∀ v, (p.1, v) ∈ rs → v = p.2

theorem nodeOK_of_mem {rs : List (Nat × Nat)} (hc : Canon 128 rs) {p} (h : p ∈ rs) : NodeOK rs p := by
  obtain ⟨h1, h2, h3⟩ := canon_mem hc p h
  exact ⟨h1, h2, h3, fun c a b => ⟨p, h, a, b⟩, fun v hv => key_unique hc hv h⟩

theorem refresh_spec {cs' : CharSet} {rs rs' : List (Nat × Nat)} {p : Nat × Nat} (hp : NodeOK rs p) (hr : Rep cs' rs')
    (hm : cs'.immutable = false) (hmono : ∀ c, MemR c rs → MemR c rs') :
    NodeOK rs' (refresh cs' p) ∧ (refresh cs' p).1 = p.1 ∧ p.2 ≤ (refresh cs' p).2 := by
  obtain ⟨sm, lp, l⟩ := cs'
  cases l with
  | frozen => cases hm
  | tree t =>
    have hd := hr.data
    simp only at hd
    obtain ⟨hi, he⟩ := hd
    have hc := hr.canon
    rw [← he] at hc
    have hg := get_iff hi hc p.1
    have key : ∀ o, t.get compare p.1 = o → NodeOK rs' (p.1, o.getD p.2) ∧ p.2 ≤ o.getD p.2 := by
      intro o ho
      cases o with
      | none =>
        refine ⟨⟨hp.lo, hp.le, hp.hi, fun c a b => hmono c (hp.mem c a b), fun v hv => ?_⟩, Nat.le_refl _⟩
        rw [← he] at hv
        rw [(hg v).2 hv] at ho
        cases ho
      | some v =>
        have hv : (p.1, v) ∈ rs' := by rw [← he]; exact (hg v).1 ho
        refine ⟨nodeOK_of_mem hr.canon hv, ?_⟩
        by_contra hlt
        have h1 := end_gap hr.canon hv
        have h2 := (canon_mem hr.canon _ hv).2.1
        simp only [Option.getD_some, _root_.not_le] at hlt h1 h2
        exact h1 (hmono _ (hp.mem _ (by omega) (by omega)))
    obtain ⟨k1, k2⟩ := key _ rfl
    exact ⟨k1, rfl, k2⟩

/-- Consistency of a state with the ranges `rs`. -/
structure FI (s : FState) (rs : List (Nat × Nat)) : Prop where
  rep : Rep s.cs rs
  mutbl : s.cs.immutable = false
  e : NodeOK rs s.e
  n : ∀ p, s.n = some p → NodeOK rs p

/-- The next node is in the tree, after the current one. -/
def Alive (s : FState) (rs : List (Nat × Nat)) : Prop :=
  ∀ p, s.n = some p → (∃ v, (p.1, v) ∈ rs) ∧ s.e.2 < p.1

/-- How a state evolves: the nodes stay the same, their values do not decrease. -/
structure Grows (s s' : FState) : Prop where
  ek : s'.e.1 = s.e.1
  ev : s.e.2 ≤ s'.e.2
  nk : match s.n, s'.n with
    | none, none => True
    | some p, some q => q.1 = p.1 ∧ p.2 ≤ q.2
    | _, _ => False

theorem Grows.rfl' (s : FState) : Grows s s := by
  refine ⟨rfl, Nat.le_refl _, ?_⟩
  cases s.n with
  | none => trivial
  | some p => exact ⟨rfl, Nat.le_refl _⟩

theorem Grows.trans {a b c : FState} (h : Grows a b) (g : Grows b c) : Grows a c := by
  obtain ⟨h1, h2, h3⟩ := h
  obtain ⟨g1, g2, g3⟩ := g
  refine ⟨g1.trans h1, Nat.le_trans h2 g2, ?_⟩
  cases ha : a.n with
  | none =>
    cases hb : b.n with
    | none => cases hc : c.n with
      | none => trivial
      | some _ => rw [hb, hc] at g3; exact g3
    | some _ => rw [ha, hb] at h3; exact h3.elim
  | some p =>
    cases hb : b.n with
    | none => rw [ha, hb] at h3; exact h3.elim
    | some q => cases hc : c.n with
      | none => rw [hb, hc] at g3; exact g3
      | some r =>
        rw [ha, hb] at h3; rw [hb, hc] at g3
        exact ⟨g3.1.trans h3.1, Nat.le_trans h3.2 g3.2⟩

theorem has_memR {cs rs} (h : Rep cs rs) (c : Nat) : MemR c rs ↔ Has cs rs c ∧ 128 ≤ c := by
  unfold Has
  constructor
  · rintro ⟨e, he, h1⟩
    have := (canon_mem h.canon e he).1
    rw [if_neg (by omega)]
    exact ⟨⟨e, he, h1⟩, by omega⟩
  · rintro ⟨h1, h2⟩
    rwa [if_neg (by omega)] at h1

theorem foldAdd_spec {s : FState} {rs} (h : FI s rs) {x : Nat} (hx : x ≤ charMax) :
    ∃ s' rs', foldAdd s x = some s' ∧ FI s' rs' ∧ (∀ c, Has s'.cs rs' c ↔ c = x ∨ Has s.cs rs c) ∧ Grows s s' ∧
      (Alive s rs → (∀ p, s.n = some p → x + 1 = p.1 → Has s.cs rs x) → Alive s' rs') := by
  obtain ⟨cs', rs', a1, a2, a3, a4⟩ := addRange_spec h.rep h.mutbl (f := x) (u := x) hx
  have hhas : ∀ c, Has cs' rs' c ↔ c = x ∨ Has s.cs rs c := fun c => by
    rw [a4]
    constructor <;> rintro (h | h) <;> first | exact .inr h | exact .inl (by omega)
  have hmono : ∀ c, MemR c rs → MemR c rs' := fun c hc => by
    rw [has_memR a2, hhas]
    rw [has_memR h.rep] at hc
    exact ⟨.inr hc.1, hc.2⟩
  obtain ⟨e1, e2, e3⟩ := refresh_spec h.e a2 a3 hmono
  refine ⟨⟨cs', refresh cs' s.e, s.n.map (refresh cs')⟩, rs', by simp [foldAdd, a1], ⟨a2, a3, e1, ?_⟩, hhas,
    ⟨e2, e3, ?_⟩, ?_⟩
  · intro p hp
    obtain ⟨q, hq, rfl⟩ := Option.map_eq_some_iff.1 hp
    exact (refresh_spec (h.n q hq) a2 a3 hmono).1
  · cases hn : s.n with
    | none => trivial
    | some p => exact (refresh_spec (h.n p hn) a2 a3 hmono).2
  · intro hal hj q hq
    obtain ⟨p, hp, rfl⟩ := Option.map_eq_some_iff.1 hq
    obtain ⟨p1, p2, p3⟩ := refresh_spec (h.n p hp) a2 a3 hmono
    obtain ⟨hv, hlt⟩ := hal p hp
    have helo := h.e.lo
    have hele := h.e.le
    have hkey : ∃ v, (p.1, v) ∈ rs' := by
      rw [key_iff h.rep.canon] at hv
      rw [key_iff a2.canon]
      refine ⟨hmono _ hv.1, fun j hj' hjm => ?_⟩
      rw [has_memR a2, hhas] at hjm
      rcases hjm with ⟨rfl | hjm, h128⟩
      · have := hj p hp hj'
        exact hv.2 j hj' ((has_memR h.rep j).2 ⟨this, h128⟩)
      · exact hv.2 j hj' ((has_memR h.rep j).2 ⟨hjm, h128⟩)
    rw [p2]
    refine ⟨hkey, ?_⟩
    show (refresh cs' s.e).2 < p.1
    rw [key_iff a2.canon] at hkey
    by_contra hge
    exact hkey.2 (p.1 - 1) (by omega) (e1.mem _ (by omega) (by omega))

/-! ### The loops -/

section
variable {up down : Nat → Nat}

/-- `Q` is closed under the case mappings of large characters. -/
def CloseLarge (up down : Nat → Nat) (Q : Nat → Prop) : Prop := ∀ c, 128 ≤ c → Q c → Q (up c) ∧ Q (down c)

/-- No case mapping of a character of `Q` yields a new character just below a higher character of `Q`. -/
def NoJump (up down : Nat → Nat) (S Q : Nat → Prop) : Prop :=
  ∀ c x, 128 ≤ c → Q c → (x = up c ∨ x = down c) → Q (x + 1) → c < x + 1 → S x

theorem foldInner_spec (hu : ∀ c, up c ≤ charMax) (hd : ∀ c, down c ≤ charMax) (S Q : Nat → Prop) (hQ : CloseLarge up down Q) :
    ∀ (fuel c : Nat) (s : FState) (rs), FI s rs → s.e.1 ≤ c → c ≤ charMax + 1 → charMax + 1 < fuel + c →
    (∀ x, S x → Has s.cs rs x) → (∀ x, Has s.cs rs x → Q x) →
    ∃ s' rs', foldInner up down fuel c s = some s' ∧ FI s' rs' ∧ (∀ x, Has s.cs rs x → Has s'.cs rs' x) ∧
      (∀ x, Has s'.cs rs' x → Q x) ∧ Grows s s' ∧
      (∀ d, c ≤ d → d ≤ s.e.2 → Has s'.cs rs' (up d) ∧ Has s'.cs rs' (down d)) ∧
      (NoJump up down S Q → Alive s rs → Alive s' rs') := by
  intro fuel
  induction fuel with
  | zero =>
    intro c s rs h hc hc2 hf
    omega
  | succ fuel ih =>
    intro c s rs h hc hc2 hf hS hQs
    rw [foldInner]
    by_cases hce : c ≤ s.e.2
    · rw [if_pos hce]
      have hQc : Q c := hQs c ((has_memR h.rep c).1 (h.e.mem c hc hce)).1
      have h128 : 128 ≤ c := Nat.le_trans h.e.lo hc
      obtain ⟨s1, r1, f1, i1, m1, g1, al1⟩ := foldAdd_spec h (hu c)
      obtain ⟨s2, r2, f2, i2, m2, g2, al2⟩ := foldAdd_spec i1 (hd c)
      have g12 := g1.trans g2
      have hm12 : ∀ x, Has s.cs rs x → Has s2.cs r2 x := fun x hx => (m2 x).2 (.inr ((m1 x).2 (.inr hx)))
      have hQ2 : ∀ x, Has s2.cs r2 x → Q x := by
        intro x hx
        rcases (m2 x).1 hx with rfl | hx
        · exact (hQ c h128 hQc).2
        · rcases (m1 x).1 hx with rfl | hx
          · exact (hQ c h128 hQc).1
          · exact hQs x hx
      obtain ⟨s3, r3, f3, i3, m3, q3, g3, p3, al3⟩ := ih (c + 1) s2 r2 i2 (by rw [g12.ek]; omega)
        (by have := h.e.hi; omega) (by omega)
        (fun x hx => hm12 x (hS x hx)) hQ2
      refine ⟨s3, r3, by rw [f1, Option.bind_some, f2, Option.bind_some, f3], i3, fun x hx => m3 x (hm12 x hx), q3,
        g12.trans g3, ?_, ?_⟩
      · intro d hd1 hd2
        rcases Nat.lt_or_ge c d with hlt | hge
        · exact p3 d hlt (Nat.le_trans hd2 g12.ev)
        · have : d = c := by omega
          subst this
          exact ⟨m3 _ ((m2 _).2 (.inr ((m1 _).2 (.inl rfl)))), m3 _ ((m2 _).2 (.inl rfl))⟩
      · intro hnj hal
        have hal1 : Alive s1 r1 := al1 hal (fun p hp hx => by
          obtain ⟨⟨v, hv⟩, hlt⟩ := hal p hp
          have hQp : Q (up c + 1) := by
            rw [hx]
            have hmem : MemR p.1 rs := ⟨_, hv, Nat.le_refl _, (canon_mem h.rep.canon _ hv).2.1⟩
            exact hQs _ ((has_memR h.rep _).1 hmem).1
          exact hS _ (hnj c (up c) h128 hQc (.inl rfl) hQp (by omega)))
        have hal2 : Alive s2 r2 := al2 hal1 (fun p hp hx => by
          obtain ⟨⟨v, hv⟩, hlt⟩ := hal1 p hp
          have hev := g1.ev
          have hQp : Q (down c + 1) := by
            rw [hx]
            have hmem : MemR p.1 r1 := ⟨_, hv, Nat.le_refl _, (canon_mem i1.rep.canon _ hv).2.1⟩
            exact hQ2 _ ((m2 _).2 (.inr ((has_memR i1.rep _).1 hmem).1))
          exact (m1 _).2 (.inr (hS _ (hnj c (down c) h128 hQc (.inr rfl) hQp (by omega)))))
        exact al3 hnj hal2
    · rw [if_neg hce]
      exact ⟨s, rs, rfl, h, fun _ h => h, hQs, Grows.rfl' s, fun d h1 h2 => by omega, fun _ h => h⟩

theorem advance_spec {cs rs} (h : Rep cs rs) (hm : cs.immutable = false) (p : Nat × Nat) :
    match advance cs p with
    | none => (¬ ∃ v, (p.1, v) ∈ rs) ∨ ∀ e ∈ rs, e.1 ≤ p.1
    | some n => (∃ v, (p.1, v) ∈ rs) ∧ n ∈ rs ∧ p.1 < n.1 ∧ ∀ e ∈ rs, p.1 < e.1 → n.1 ≤ e.1 := by
  obtain ⟨sm, lp, l⟩ := cs
  cases l with
  | frozen => cases hm
  | tree t =>
    have hd := h.data
    simp only at hd
    obtain ⟨hi, he⟩ := hd
    subst he
    have hs := succ_spec hi h.canon p.1
    unfold advance
    dsimp only
    by_cases hx : t.exists_ compare p.1 = true
    · rw [if_pos hx]
      rw [exists_iff hi h.canon] at hx
      generalize t.successor compare p.1 = o at hs
      cases o with
      | none => exact .inr hs
      | some n => exact ⟨hx, hs⟩
    · rw [if_neg hx]
      rw [exists_iff hi h.canon] at hx
      exact .inl hx

/-- Everything that holds of one round of the outer loop. -/
theorem round_spec (hu : ∀ c, up c ≤ charMax) (hd : ∀ c, down c ≤ charMax) (S Q : Nat → Prop) (hQ : CloseLarge up down Q)
    {cs : CharSet} {rs} (h : Rep cs rs) (hm : cs.immutable = false) {e : Nat × Nat} (he : NodeOK rs e)
    (hS : ∀ x, S x → Has cs rs x) (hQs : ∀ x, Has cs rs x → Q x) :
    ∃ s' rs', foldInner up down (charMax + 2) e.1 ⟨cs, e, advance cs e⟩ = some s' ∧ Rep s'.cs rs' ∧
      s'.cs.immutable = false ∧ (∀ p, s'.n = some p → NodeOK rs' p) ∧
      (∀ x, Has cs rs x → Has s'.cs rs' x) ∧ (∀ x, Has s'.cs rs' x → Q x) ∧
      (∀ d, e.1 ≤ d → d ≤ e.2 → Has s'.cs rs' (up d) ∧ Has s'.cs rs' (down d)) ∧
      (match advance cs e, s'.n with
        | none, none => True
        | some p, some q => q.1 = p.1 ∧ p.2 ≤ q.2
        | _, _ => False) ∧
      (NoJump up down S Q → (∃ v, (e.1, v) ∈ rs) → ∀ p, s'.n = some p → ∃ v, (p.1, v) ∈ rs') := by
  have hadv := advance_spec h hm e
  have hfi : FI ⟨cs, e, advance cs e⟩ rs := by
    refine ⟨h, hm, he, fun p hp => ?_⟩
    simp only at hp
    rw [hp] at hadv
    exact nodeOK_of_mem h.canon hadv.2.1
  obtain ⟨s', rs', f1, f2, f3, f4, f5, f6, f7⟩ := foldInner_spec hu hd S Q hQ (charMax + 2) e.1 _ rs hfi (Nat.le_refl _)
    (by have := he.le; have := he.hi; omega) (by omega) hS hQs
  refine ⟨s', rs', f1, f2.rep, f2.mutbl, f2.n, f3, f4, f6, f5.nk, fun hnj hev => ?_⟩
  have hal : Alive ⟨cs, e, advance cs e⟩ rs := by
    intro p hp
    simp only at hp
    rw [hp] at hadv
    refine ⟨⟨p.2, hadv.2.1⟩, ?_⟩
    obtain ⟨v, hv⟩ := hev
    have hve := he.live v hv
    have hk := (key_iff h.canon p.1).1 ⟨p.2, hadv.2.1⟩
    have := hadv.2.2.1
    have := he.lo
    show e.2 < p.1
    by_contra hge
    exact hk.2 (p.1 - 1) (by omega) (he.mem _ (by omega) (by omega))
  exact fun p hp => (f7 hnj hal p hp).1

/-- Original large members that are not yet folded start at the iterator's next node. -/
theorem foldOuter_spec (hu : ∀ c, up c ≤ charMax) (hd : ∀ c, down c ≤ charMax) (S Q : Nat → Prop) (hQ : CloseLarge up down Q) :
    ∀ (fuel : Nat) (cs : CharSet) (rs) (n : Option (Nat × Nat)), Rep cs rs → cs.immutable = false →
    (∀ p, n = some p → NodeOK rs p) → (∀ p, n = some p → charMax + 1 < fuel + p.1) → 0 < fuel →
    (∀ x, S x → Has cs rs x) → (∀ x, Has cs rs x → Q x) →
    ∃ cs' rs', foldOuter up down fuel cs n = some cs' ∧ Rep cs' rs' ∧ cs'.immutable = false ∧
      (∀ x, Has cs rs x → Has cs' rs' x) ∧ (∀ x, Has cs' rs' x → Q x) ∧
      (∀ p, n = some p → ∀ d, p.1 ≤ d → d ≤ p.2 → Has cs' rs' (up d) ∧ Has cs' rs' (down d)) ∧
      (∀ p, n = some p → (∃ v, (p.1, v) ∈ rs) → ∀ q, advance cs p = some q → ∀ d, q.1 ≤ d → d ≤ q.2 →
        Has cs' rs' (up d) ∧ Has cs' rs' (down d)) ∧
      (NoJump up down S Q → (∀ p, n = some p → ∃ v, (p.1, v) ∈ rs) → ∀ p, n = some p → ∀ d, p.1 ≤ d → MemR d rs →
        S d → Has cs' rs' (up d) ∧ Has cs' rs' (down d)) := by
  intro fuel
  induction fuel with
  | zero => intro cs rs n _ _ _ _ h; omega
  | succ fuel ih =>
    intro cs rs n h hm hn hf _ hS hQs
    cases n with
    | none =>
      exact ⟨cs, rs, rfl, h, hm, fun _ h => h, hQs, fun p hp => (by cases hp), fun p hp => (by cases hp),
        fun _ _ p hp => (by cases hp)⟩
    | some e =>
      have he := hn e rfl
      obtain ⟨s', r1, f1, a1, a2, a3, a4, a5, a6, a7, a8⟩ := round_spec hu hd S Q hQ h hm he hS hQs
      have hadv := advance_spec h hm e
      have hlo := he.lo
      have hfe := hf e rfl
      have hhi := he.hi
      have hle := he.le
      obtain ⟨cs', r2, g1, g2, g3, g4, g5, g6, g7, g8⟩ := ih s'.cs r1 s'.n a1 a2 a3 (by
        intro p hp
        rw [hp] at a7
        cases ha : advance cs e with
        | none => rw [ha] at a7; exact a7.elim
        | some q =>
          rw [ha] at a7 hadv
          have := hadv.2.2.1
          omega) (by omega) (fun x hx => a4 x (hS x hx)) a5
      refine ⟨cs', r2, by rw [foldOuter, f1]; exact g1, g2, g3, fun x hx => g4 x (a4 x hx), g5, ?_, ?_, ?_⟩
      · intro p hp d h1 h2
        cases hp
        exact ⟨g4 _ (a6 d h1 h2).1, g4 _ (a6 d h1 h2).2⟩
      · intro p hp hv q hq d h1 h2
        cases hp
        rw [hq] at a7
        cases hs : s'.n with
        | none => rw [hs] at a7; exact a7.elim
        | some q' =>
          rw [hs] at a7
          exact g6 q' hs d (by omega) (by omega)
      · intro hnj hlive p hp d h1 h2 hSd
        cases hp
        have hlive' := a8 hnj (hlive e rfl)
        by_cases hde : d ≤ e.2
        · exact ⟨g4 _ (a6 d h1 hde).1, g4 _ (a6 d h1 hde).2⟩
        · obtain ⟨x, hx, hx1, hx2⟩ := h2
          obtain ⟨v, hv⟩ := hlive e rfl
          have hve := he.live v hv
          have hxe : e.1 < x.1 := by
            by_contra hnl
            have := end_gap h.canon hv
            apply this
            simp only
            exact ⟨x, hx, by omega, by omega⟩
          cases ha : advance cs e with
          | none =>
            rw [ha] at hadv
            rcases hadv with hadv | hadv
            · exact absurd ⟨v, hv⟩ hadv
            · have := hadv x hx; omega
          | some q =>
            rw [ha] at hadv a7
            cases hs : s'.n with
            | none => rw [hs] at a7; exact a7.elim
            | some q' =>
              rw [hs] at a7
              have := hadv.2.2.2 x hx hxe
              have hmd : MemR d r1 := by
                rw [has_memR a1]
                exact ⟨a4 d ((has_memR h d).1 ⟨x, hx, hx1, hx2⟩).1, by omega⟩
              exact g8 hnj hlive' q' hs d (by omega) hmd hSd
end

/-! ### ASCII letters -/

theorem or_rot {A B C P : Prop} : (A ∨ B ∨ C) ∨ P ↔ C ∨ (A ∨ B) ∨ P := by tauto

theorem foldSmall_spec : ∀ (n ch : Nat) (b : Nat → Bool), 97 ≤ ch → ch + n ≤ 123 → ∀ i,
    foldSmall n ch b i = true ↔ b i = true ∨ ∃ j, ch ≤ j ∧ j < ch + n ∧ (i = j ∨ i + 32 = j) ∧ (b j = true ∨ b (j - 32) = true) := by
  intro n
  induction n with
  | zero =>
    intro ch b _ _ i
    simp only [foldSmall]
    constructor
    · exact .inl
    · rintro (h | ⟨j, h1, h2, _⟩)
      · exact h
      · omega
  | succ n ih =>
    intro ch b h1 h2 i
    rw [foldSmall]
    have hsplit : (∃ j, ch ≤ j ∧ j < ch + (n + 1) ∧ (i = j ∨ i + 32 = j) ∧ (b j = true ∨ b (j - 32) = true)) ↔
        ((i = ch ∨ i + 32 = ch) ∧ (b ch = true ∨ b (ch - 32) = true)) ∨
        ∃ j, ch + 1 ≤ j ∧ j < ch + 1 + n ∧ (i = j ∨ i + 32 = j) ∧ (b j = true ∨ b (j - 32) = true) := by
      constructor
      · rintro ⟨j, a, b', c, d⟩
        by_cases hj : j = ch
        · subst hj; exact .inl ⟨c, d⟩
        · exact .inr ⟨j, by omega, by omega, c, d⟩
      · rintro (⟨c, d⟩ | ⟨j, a, b', c, d⟩)
        · exact ⟨ch, by omega, by omega, c, d⟩
        · exact ⟨j, by omega, by omega, c, d⟩
    rw [hsplit]
    by_cases hb : (b ch || b (ch - 32)) = true
    · rw [if_pos hb, ih (ch + 1) _ (by omega) (by omega)]
      rw [Bool.or_eq_true] at hb
      have hset : ∀ k, setBit (setBit b ch) (ch - 32) k = true ↔ k = ch ∨ k + 32 = ch ∨ b k = true := by
        intro k
        unfold setBit
        by_cases e1 : k = ch - 32
        · rw [if_pos e1]; simp only [true_iff]; right; left; omega
        · rw [if_neg e1]
          by_cases e2 : k = ch
          · rw [if_pos e2]; simp [e2]
          · rw [if_neg e2]
            constructor
            · exact fun h => .inr (.inr h)
            · rintro (h | h | h)
              · exact absurd h e2
              · omega
              · exact h
      rw [hset]
      have hex : (∃ j, ch + 1 ≤ j ∧ j < ch + 1 + n ∧ (i = j ∨ i + 32 = j) ∧
          (setBit (setBit b ch) (ch - 32) j = true ∨ setBit (setBit b ch) (ch - 32) (j - 32) = true)) ↔
          ∃ j, ch + 1 ≤ j ∧ j < ch + 1 + n ∧ (i = j ∨ i + 32 = j) ∧ (b j = true ∨ b (j - 32) = true) := by
        constructor
        · rintro ⟨j, a, b', c, d⟩
          refine ⟨j, a, b', c, ?_⟩
          rw [hset, hset] at d
          rcases d with (d | d | d) | (d | d | d)
          · omega
          · omega
          · exact .inl d
          · omega
          · omega
          · exact .inr d
        · rintro ⟨j, a, b', c, d⟩
          refine ⟨j, a, b', c, ?_⟩
          rw [hset, hset]
          exact d.imp (fun x => .inr (.inr x)) (fun x => .inr (.inr x))
      rw [hex]
      generalize (∃ j, ch + 1 ≤ j ∧ j < ch + 1 + n ∧ (i = j ∨ i + 32 = j) ∧ (b j = true ∨ b (j - 32) = true)) = P
      simp only [hb, and_true]
      exact or_rot
    · rw [if_neg hb, ih (ch + 1) _ (by omega) (by omega)]
      rw [Bool.or_eq_true] at hb
      generalize (∃ j, ch + 1 ≤ j ∧ j < ch + 1 + n ∧ (i = j ∨ i + 32 = j) ∧ (b j = true ∨ b (j - 32) = true)) = P
      simp only [hb, and_false, false_or]
end Gauche.CharSet
