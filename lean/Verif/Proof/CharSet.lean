import Verif.Model.CharSet
import Verif.Proof.BinSearch
import Verif.Props.TreeMap
/-! Range lists and the tree operations of character sets. -/
namespace Gauche.CharSet
open Gauche.TreeMap Gauche.OrdList Std

/-- Ascending, non-empty, non-adjacent ranges inside `[b, charMax]`. -/
def Canon : Nat → List (Nat × Nat) → Prop
  | _, [] => True
  | b, e :: r => b ≤ e.1 ∧ e.1 ≤ e.2 ∧ e.2 ≤ charMax ∧ Canon (e.2 + 2) r

/-- Membership in a list of ranges. -/
def MemR (c : Nat) (l : List (Nat × Nat)) : Prop := ∃ e ∈ l, e.1 ≤ c ∧ c ≤ e.2

@[simp] theorem memR_nil (c : Nat) : ¬ MemR c [] := by simp [MemR]
@[simp] theorem memR_cons (c : Nat) (e) (l) : MemR c (e :: l) ↔ (e.1 ≤ c ∧ c ≤ e.2) ∨ MemR c l := by
  simp [MemR]
@[simp] theorem memR_append (c : Nat) (a b) : MemR c (a ++ b) ↔ MemR c a ∨ MemR c b := by
  simp only [MemR, List.mem_append]
  constructor
  · rintro ⟨e, h | h, h'⟩
    · exact .inl ⟨e, h, h'⟩
    · exact .inr ⟨e, h, h'⟩
  · rintro (⟨e, h, h'⟩ | ⟨e, h, h'⟩)
    · exact ⟨e, .inl h, h'⟩
    · exact ⟨e, .inr h, h'⟩

theorem canon_mono {l : List (Nat × Nat)} {b b' : Nat} (h : Canon b l) (hb : b' ≤ b) : Canon b' l := by
  cases l with
  | nil => trivial
  | cons e l => exact ⟨by have := h.1; omega, h.2⟩

theorem canon_mem {l : List (Nat × Nat)} : ∀ {b : Nat}, Canon b l → ∀ e ∈ l, b ≤ e.1 ∧ e.1 ≤ e.2 ∧ e.2 ≤ charMax := by
  induction l with
  | nil => intro b _ e he; cases he
  | cons x l ih =>
    intro b h e he
    obtain ⟨h1, h2, h3, h4⟩ := h
    rcases List.mem_cons.1 he with rfl | he
    · exact ⟨h1, h2, h3⟩
    · have := ih h4 e he; omega

theorem canon_sorted {l : List (Nat × Nat)} : ∀ {b : Nat}, Canon b l → Sorted compare l := by
  induction l with
  | nil => intro b _; exact .nil
  | cons x l ih =>
    intro b h
    refine List.Pairwise.cons (fun e he => ?_) (ih h.2.2.2)
    have := canon_mem h.2.2.2 e he
    have := h.2.1
    rw [Nat.compare_eq_lt]; omega

/-- The upper end of the last range bounds the rest. -/
theorem canon_append {a r : List (Nat × Nat)} {e : Nat × Nat} : ∀ {b : Nat}, Canon b (a ++ e :: r) ↔
    Canon b a ∧ b ≤ e.1 ∧ (∀ x ∈ a, x.2 + 2 ≤ e.1) ∧ e.1 ≤ e.2 ∧ e.2 ≤ charMax ∧ Canon (e.2 + 2) r := by
  induction a with
  | nil => intro b; simp [Canon]
  | cons x a ih =>
    intro b
    simp only [List.cons_append, Canon, ih, List.mem_cons, forall_eq_or_imp]
    constructor
    · rintro ⟨h1, h2, h3, h4, h5, h6, h7⟩; exact ⟨⟨h1, h2, h3, h4⟩, by omega, ⟨by omega, h6⟩, h7⟩
    · rintro ⟨⟨h1, h2, h3, h4⟩, h5, ⟨h6, h7⟩, h8⟩; exact ⟨h1, h2, h3, h4, by omega, h7, h8⟩

theorem canon_length {l : List (Nat × Nat)} : ∀ {b : Nat}, Canon b l → l.length ≤ charMax + 1 - b := by
  induction l with
  | nil => intro b _; simp
  | cons x l ih =>
    intro b h
    obtain ⟨h1, h2, h3, h4⟩ := h
    have := ih h4
    simp only [List.length_cons]; omega

/-- Two canonical lists with the same members are equal. -/
theorem canon_ext {l m : List (Nat × Nat)} : ∀ {b b' : Nat}, Canon b l → Canon b' m →
    (∀ c, MemR c l ↔ MemR c m) → l = m := by
  induction l generalizing m with
  | nil =>
    intro b b' _ hm h
    cases m with
    | nil => rfl
    | cons e m => exact absurd ((h e.1).2 (by simp [hm.2.1])) (by simp)
  | cons x l ih =>
    intro b b' hl hm h
    cases m with
    | nil => exact absurd ((h x.1).1 (by simp [hl.2.1])) (by simp)
    | cons e m =>
      obtain ⟨a1, a2, a3, a4⟩ := hl
      obtain ⟨b1, b2, b3, b4⟩ := hm
      have tl : ∀ c, MemR c l → x.2 + 2 ≤ c := by
        rintro c ⟨y, hy, hc⟩; have := canon_mem a4 y hy; omega
      have tm : ∀ c, MemR c m → e.2 + 2 ≤ c := by
        rintro c ⟨y, hy, hc⟩; have := canon_mem b4 y hy; omega
      have e1 : x.1 = e.1 := by
        have h1 := (h x.1).1 (by simp [a2])
        have h2 := (h e.1).2 (by simp [b2])
        simp only [memR_cons] at h1 h2
        rcases h1 with h1 | h1 <;> rcases h2 with h2 | h2
        · omega
        · have := tl _ h2; omega
        · have := tm _ h1; omega
        · have := tl _ h2; have := tm _ h1; omega
      have e2 : x.2 = e.2 := by
        rcases Nat.lt_trichotomy x.2 e.2 with hlt | heq | hgt
        · have h1 := (h (x.2 + 1)).2 (by simp; omega)
          simp only [memR_cons] at h1
          rcases h1 with h1 | h1
          · omega
          · have := tl _ h1; omega
        · exact heq
        · have h1 := (h (e.2 + 1)).1 (by simp; omega)
          simp only [memR_cons] at h1
          rcases h1 with h1 | h1
          · omega
          · have := tm _ h1; omega
      obtain rfl : x = e := Prod.ext e1 e2
      congr 1
      refine ih a4 b4 fun c => ?_
      have hc := h c
      simp only [memR_cons] at hc
      constructor
      · intro hm
        have := tl _ hm
        rcases hc.1 (.inr hm) with h1 | h1
        · omega
        · exact h1
      · intro hm
        have := tm _ hm
        rcases hc.2 (.inr hm) with h1 | h1
        · omega
        · exact h1

/-! ### Splitting at a key -/

theorem split_at {l : List (Nat × Nat)} (h : Sorted compare l) (k : Nat) :
    ∃ a b, l = a ++ b ∧ (∀ x ∈ a, x.1 < k) ∧ (∀ x ∈ b, k ≤ x.1) := by
  induction l with
  | nil => exact ⟨[], [], rfl, by simp, by simp⟩
  | cons x l ih =>
    have hs := List.pairwise_cons.1 h
    obtain ⟨a, b, e, ha, hb⟩ := ih hs.2
    by_cases hk : x.1 < k
    · refine ⟨x :: a, b, by rw [e]; rfl, ?_, hb⟩
      intro y hy
      rcases List.mem_cons.1 hy with rfl | hy
      · exact hk
      · exact ha y hy
    · refine ⟨[], x :: l, rfl, by simp, ?_⟩
      intro y hy
      rcases List.mem_cons.1 hy with rfl | hy
      · omega
      · have := hs.1 y hy; rw [Nat.compare_eq_lt] at this; omega

section lists
variable {a b : List (Nat × Nat)} {k : Nat}

theorem below_split (ha : ∀ x ∈ a, x.1 < k) (hb : ∀ x ∈ b, k ≤ x.1) : below compare k (a ++ b) = a := by
  unfold below
  rw [List.filter_append, List.filter_eq_self.2, List.filter_eq_nil_iff.2, List.append_nil]
  · intro x hx; have := hb x hx; simp only [beq_iff_eq, Nat.compare_eq_lt]; omega
  · intro x hx; have := ha x hx; simp only [beq_iff_eq, Nat.compare_eq_lt]; omega

theorem above_split (ha : ∀ x ∈ a, x.1 ≤ k) (hb : ∀ x ∈ b, k < x.1) : above compare k (a ++ b) = b := by
  unfold above
  rw [List.filter_append, List.filter_eq_nil_iff.2, List.filter_eq_self.2, List.nil_append]
  · intro x hx; have := hb x hx; simp only [beq_iff_eq, Nat.compare_eq_gt]; omega
  · intro x hx; have := ha x hx; simp only [beq_iff_eq, Nat.compare_eq_gt]; omega

theorem getL_split_none (ha : ∀ x ∈ a, x.1 < k) (hb : ∀ x ∈ b, k < x.1) : getL compare k (a ++ b) = none := by
  rw [getL_eq_none]
  intro x hx
  rw [Ne, Nat.compare_eq_eq]
  rcases List.mem_append.1 hx with hx | hx
  · have := ha x hx; omega
  · have := hb x hx; omega

theorem getL_split_some {v : Nat} (ha : ∀ x ∈ a, x.1 < k) : getL compare k (a ++ (k, v) :: b) = some (k, v) := by
  unfold getL
  rw [List.find?_append, List.find?_eq_none.2, Option.none_or, List.find?_cons_of_pos]
  · simp
  · intro x hx; have := ha x hx; simp only [beq_iff_eq, Nat.compare_eq_eq]; omega

theorem delL_split {v : Nat} (ha : ∀ x ∈ a, x.1 < k) (hb : ∀ x ∈ b, k < x.1) :
    delL compare k (a ++ (k, v) :: b) = a ++ b := by
  unfold delL
  rw [List.filter_append, List.filter_eq_self.2, List.filter_cons, if_neg (by simp), List.filter_eq_self.2]
  · intro x hx; have := hb x hx; simp only [bne_iff_ne, ne_eq, Nat.compare_eq_eq]; omega
  · intro x hx; have := ha x hx; simp only [bne_iff_ne, ne_eq, Nat.compare_eq_eq]; omega

theorem putL_split {v : Nat} (ha : ∀ x ∈ a, x.1 < k) (hb : ∀ x ∈ b, k < x.1) :
    putL compare (k, v) (a ++ b) = a ++ (k, v) :: b := by
  have h1 : List.filter (fun p : Nat × Nat => compare p.1 k == .lt) (a ++ b) = a :=
    below_split (k := k) ha (fun x hx => (hb x hx).le)
  have h2 : List.filter (fun p : Nat × Nat => compare p.1 k == .gt) (a ++ b) = b :=
    above_split (k := k) (fun x hx => (ha x hx).le) hb
  unfold putL
  rw [h1, h2]

theorem putL_over {v w : Nat} (ha : ∀ x ∈ a, x.1 < k) (hb : ∀ x ∈ b, k < x.1) :
    putL compare (k, v) (a ++ (k, w) :: b) = a ++ (k, v) :: b := by
  have h1 : List.filter (fun p : Nat × Nat => compare p.1 k == .lt) (a ++ (k, w) :: b) = a :=
    below_split (k := k) ha (fun x hx => by
      rcases List.mem_cons.1 hx with rfl | hx
      · exact Nat.le_refl _
      · exact (hb x hx).le)
  have h2 : List.filter (fun p : Nat × Nat => compare p.1 k == .gt) (a ++ (k, w) :: b) = b := by
    rw [show a ++ (k, w) :: b = (a ++ [(k, w)]) ++ b by simp]
    refine above_split (k := k) (fun x hx => ?_) hb
    rcases List.mem_append.1 hx with hx | hx
    · exact (ha x hx).le
    · simp at hx; simp [hx]
  unfold putL
  rw [h1, h2]
end lists

/-! ### Tree operations in terms of the entry list -/

abbrev T := Core Nat Nat
abbrev TInv (t : T) : Prop := Inv (compare : Nat → Nat → Ordering) t

theorem near_eq (t : T) (hi : TInv t) (k : Nat) :
    (coreNear compare k t.root []).1.map Loc.entry = getL compare k (elems t.root) ∧
    (coreNear compare k t.root []).2.1.map Loc.entry = (below compare k (elems t.root)).getLast? ∧
    (coreNear compare k t.root []).2.2.map Loc.entry = (above compare k (elems t.root)).head? := by
  cases hr : t.root with
  | nil => exact ⟨rfl, rfl, rfl⟩
  | node c l k0 v0 r =>
    have hs := hi.2.1
    rw [hr] at hs
    have := near_spec (cmp := compare) k (.node c l k0 v0 r) [] (by simp) hs (by simp) (by simp)
    simpa using this

theorem succ_eq (t : T) (hi : TInv t) {a b : List (Nat × Nat)} {k : Nat} (he : elems t.root = a ++ b)
    (ha : ∀ x ∈ a, x.1 ≤ k) (hb : ∀ x ∈ b, k < x.1) : t.successor compare k = b.head? := by
  unfold Core.successor
  rw [(near_eq t hi k).2.2, he, above_split ha hb]

theorem treeEntries_eq (t : T) (hi : TInv t) : treeEntries t = some (elems t.root) := by
  unfold treeEntries Core.fold
  have hl := hi.2.2
  rw [foldLoop_fwd _ _ _ _ (by rw [init_fwd]; omega), init_fwd]
  congr 1
  have : ∀ (l acc : List (Nat × Nat)), l.foldl (fun s e => s ++ [(e.1, e.2)]) acc = acc ++ l := by
    intro l
    induction l with
    | nil => simp
    | cons x l ih => intro acc; simp [ih]
  simpa using this (elems t.root) []

theorem replace_eq (t : T) (hi : TInv t) {a b : List (Nat × Nat)} {k v w : Nat}
    (he : elems t.root = a ++ (k, v) :: b) (ha : ∀ x ∈ a, x.1 < k) (hb : ∀ x ∈ b, k < x.1) :
    TInv (t.replace compare k w) ∧ elems (t.replace compare k w).root = a ++ (k, w) :: b := by
  refine ⟨setValue_inv hi k w, ?_⟩
  show elems (setValue compare k w t.root) = _
  rw [setValue_eq hi.2.1, he, getL_split_some ha]
  exact putL_over ha hb

theorem delete_eq (t : T) (hi : TInv t) {a b : List (Nat × Nat)} {k v : Nat}
    (he : elems t.root = a ++ (k, v) :: b) (ha : ∀ x ∈ a, x.1 < k) (hb : ∀ x ∈ b, k < x.1) :
    ∃ t', t.delete compare k = some (some (k, v), t') ∧ TInv t' ∧ elems t'.root = a ++ b ∧ t'.num + 1 = t.num := by
  obtain ⟨t', h1, h2, h3⟩ := delete_inv hi k
  rw [he, getL_split_some ha] at h1
  rw [he, delL_split ha hb] at h3
  refine ⟨t', h1, h2, h3, ?_⟩
  rw [h2.2.2, hi.2.2, h3, he]; simp; omega

theorem create_new (t : T) (hi : TInv t) {a b : List (Nat × Nat)} {k : Nat} (f : Option Nat → Nat)
    (he : elems t.root = a ++ b) (ha : ∀ x ∈ a, x.1 < k) (hb : ∀ x ∈ b, k < x.1) (hn : t.num < intMax) :
    ∃ t', t.create compare k f = some t' ∧ TInv t' ∧ elems t'.root = a ++ (k, f none) :: b ∧
      t'.num = t.num + 1 := by
  obtain ⟨h1, h2⟩ := create_inv hi k f
  cases hc : t.create compare k f with
  | none => exact absurd (h1.1 hc).2 (by omega)
  | some t' =>
    obtain ⟨h3, h4⟩ := h2 t' hc
    rw [he, updL, getL_split_none ha hb] at h4
    dsimp only at h4
    rw [putL_split ha hb] at h4
    refine ⟨t', rfl, h3, h4, ?_⟩
    rw [h3.2.2, hi.2.2, h4, he]; simp; omega

/-! ### Adding a range -/

/-- What the loop of `Scm_CharSetAddRange` does to the entries after `e`. -/
def mergeL (to_ : Nat) : List (Nat × Nat) → Nat × List (Nat × Nat)
  | [] => (to_, [])
  | h :: r => if h.1 > to_ + 1 then (to_, h :: r) else if h.2 > to_ then (h.2, r) else mergeL to_ r

theorem mergeLoop_eq {ek to_ ev : Nat} : ∀ (fuel hk : Nat) (t : T) (a b : List (Nat × Nat)), TInv t →
    elems t.root = a ++ (ek, ev) :: b → (∀ x ∈ a, x.1 < ek) → ek ≤ hk → (∀ x ∈ b, hk < x.1) →
    b.length < fuel →
    ∃ t', mergeLoop ek to_ fuel hk t = some t' ∧ TInv t' ∧
      elems t'.root = a ++ (ek, (mergeL to_ b).1) :: (mergeL to_ b).2 := by
  intro fuel
  induction fuel with
  | zero => intro hk t a b _ _ _ _ _ h; omega
  | succ fuel ih =>
    intro hk t a b hi he ha hek hb hf
    have hb' : ∀ x ∈ b, ek < x.1 := fun x hx => by have := hb x hx; omega
    have hsucc := succ_eq (k := hk) t hi (a := a ++ [(ek, ev)]) (b := b) (by rw [he]; simp)
      (by intro x hx
          rcases List.mem_append.1 hx with hx | hx
          · have := ha x hx; omega
          · simp at hx; simp [hx, hek]) hb
    unfold mergeLoop
    rw [hsucc]
    cases b with
    | nil =>
      dsimp only [List.head?]
      obtain ⟨h1, h2⟩ := replace_eq (w := to_) t hi he ha hb'
      exact ⟨_, rfl, h1, by simpa [mergeL] using h2⟩
    | cons h b =>
      dsimp only [List.head?]
      unfold mergeL
      by_cases hc : h.1 > to_ + 1
      · rw [if_pos hc, if_pos hc]
        obtain ⟨h1, h2⟩ := replace_eq (w := to_) t hi he ha hb'
        exact ⟨_, rfl, h1, by simpa using h2⟩
      · rw [if_neg hc, if_neg hc]
        have hs : Sorted compare (a ++ (ek, ev) :: h :: b) := by rw [← he]; exact hi.2.1
        have hhb : ∀ x ∈ b, h.1 < x.1 := by
          intro x hx
          have h1 : Sorted compare ((a ++ [(ek, ev)]) ++ h :: b) := by simpa using hs
          have := (sorted_mid.1 h1).2.2.2 x hx
          rwa [Nat.compare_eq_lt] at this
        have hhh := hb h (by simp)
        obtain ⟨t', d1, d2, d3, d4⟩ := delete_eq t hi (a := a ++ [(ek, ev)]) (b := b) (k := h.1) (v := h.2)
          (by rw [he]; simp)
          (by intro x hx
              rcases List.mem_append.1 hx with hx | hx
              · have := ha x hx; omega
              · simp at hx; simp [hx]; omega) hhb
        rw [d1]
        dsimp only
        have d3' : elems t'.root = a ++ (ek, ev) :: b := by rw [d3]; simp
        have hb2 : ∀ x ∈ b, ek < x.1 := fun x hx => hb' x (by simp [hx])
        by_cases hg : h.2 > to_
        · rw [if_pos hg, if_pos hg]
          obtain ⟨h1, h2⟩ := replace_eq (w := h.2) t' d2 d3' ha hb2
          exact ⟨_, rfl, h1, h2⟩
        · rw [if_neg hg, if_neg hg]
          exact ih h.1 t' a b d2 d3' ha (by omega) hhb (by simp at hf; omega)

theorem mergeL_canon {to_ : Nat} {b : List (Nat × Nat)} : ∀ {B : Nat}, Canon B b → to_ ≤ charMax →
    to_ ≤ (mergeL to_ b).1 ∧ (mergeL to_ b).1 ≤ charMax ∧ Canon ((mergeL to_ b).1 + 2) (mergeL to_ b).2 := by
  induction b with
  | nil => intro B _ h; exact ⟨Nat.le_refl _, h, trivial⟩
  | cons h b ih =>
    intro B hc ht
    obtain ⟨h1, h2, h3, h4⟩ := hc
    unfold mergeL
    split
    · exact ⟨Nat.le_refl _, ht, by omega, h2, h3, h4⟩
    · split
      · exact ⟨by omega, h3, h4⟩
      · exact ih h4 ht

theorem mergeL_mem {to_ ek : Nat} {b : List (Nat × Nat)} : ∀ {B : Nat}, Canon B b → ek ≤ to_ → ek ≤ B → ∀ c,
    ((ek ≤ c ∧ c ≤ (mergeL to_ b).1) ∨ MemR c (mergeL to_ b).2) ↔ (ek ≤ c ∧ c ≤ to_) ∨ MemR c b := by
  induction b with
  | nil => intro B _ _ _ c; simp [mergeL]
  | cons h b ih =>
    intro B hc ht hB c
    obtain ⟨h1, h2, h3, h4⟩ := hc
    unfold mergeL
    split
    · simp
    · next hn =>
      split
      · simp only [memR_cons]
        constructor
        · rintro (hh | hh)
          · by_cases c ≤ to_
            · left; omega
            · right; left; omega
          · exact .inr (.inr hh)
        · rintro (hh | hh | hh)
          · left; omega
          · left; omega
          · exact .inr hh
      · rw [ih h4 ht (by omega) c, memR_cons]
        constructor
        · rintro (hh | hh)
          · exact .inl hh
          · exact .inr (.inr hh)
        · rintro (hh | hh | hh)
          · exact .inl hh
          · left; omega
          · exact .inr hh

/-- `addLarge` yields a canonical set of ranges with the range added. -/
theorem addLarge_spec (t : T) (hi : TInv t) {from_ to_ : Nat} (hc : Canon 128 (elems t.root))
    (hf : 128 ≤ from_) (hft : from_ ≤ to_) (ht : to_ ≤ charMax) :
    ∃ t', addLarge t from_ to_ = some t' ∧ TInv t' ∧ Canon 128 (elems t'.root) ∧
      ∀ c, MemR c (elems t'.root) ↔ (from_ ≤ c ∧ c ≤ to_) ∨ MemR c (elems t.root) := by
  have hnum : t.num < intMax := by
    rw [hi.2.2]
    have h1 := canon_length hc
    have h2 : charMax + 1 - 128 < intMax := by decide
    omega
  -- merging into an existing entry that touches the range
  have key : ∀ (t : T) (a b : List (Nat × Nat)) (ek ev : Nat), TInv t → elems t.root = a ++ (ek, ev) :: b →
      (∀ x ∈ a, x.2 + 2 ≤ ek) → Canon 128 a → 128 ≤ ek → (ev = 0 ∨ (ek ≤ ev ∧ ev ≤ charMax)) →
      Canon (max ev ek + 2) b ∨ (ev = 0 ∧ ∃ B, Canon B b ∧ ek < B) → ek ≤ from_ → (ev = 0 → ek = from_) →
      (ev ≠ 0 → from_ ≤ ev + 1) → (∀ x ∈ a, x.1 < ek) → (∀ x ∈ b, ek < x.1) →
      ∃ t', merge t (ek, ev) to_ = some t' ∧ TInv t' ∧ Canon 128 (elems t'.root) ∧
        ∀ c, MemR c (elems t'.root) ↔ (from_ ≤ c ∧ c ≤ to_) ∨ (ev ≠ 0 ∧ ek ≤ c ∧ c ≤ ev) ∨ MemR c a ∨ MemR c b := by
    intro t a b ek ev hi he ha hca hek hev hcb hekf hnew hadj hak hbk
    unfold merge
    dsimp only
    by_cases hge : ev ≥ to_
    · rw [if_pos hge]
      have hev' : ek ≤ ev ∧ ev ≤ charMax := by rcases hev with h | h <;> omega
      have hcb' : Canon (ev + 2) b := by
        rcases hcb with h | ⟨h, _⟩
        · rwa [Nat.max_eq_left (by omega)] at h
        · omega
      refine ⟨t, rfl, hi, ?_, ?_⟩
      · rw [he]; exact canon_append.2 ⟨hca, hek, ha, hev'.1, hev'.2, hcb'⟩
      · intro c
        rw [he]
        simp only [memR_append, memR_cons]
        constructor
        · rintro (h | h | h)
          · exact .inr (.inr (.inl h))
          · exact .inr (.inl ⟨by omega, h⟩)
          · exact .inr (.inr (.inr h))
        · rintro (h | h | h | h)
          · right; left; omega
          · right; left; exact h.2
          · exact .inl h
          · exact .inr (.inr h)
    · rw [if_neg hge]
      have hlen : b.length < t.num + 1 := by rw [hi.2.2, he]; simp; omega
      obtain ⟨t', h1, h2, h3⟩ := mergeLoop_eq (to_ := to_) (t.num + 1) ek t a b hi he hak (Nat.le_refl _) hbk hlen
      have hB : ∃ B, Canon B b ∧ ek ≤ B := by
        rcases hcb with h | ⟨_, B, h, h'⟩
        · exact ⟨_, h, by omega⟩
        · exact ⟨B, h, by omega⟩
      obtain ⟨B, hB1, hB2⟩ := hB
      obtain ⟨m1, m2, m3⟩ := mergeL_canon (to_ := to_) hB1 ht
      refine ⟨t', h1, h2, ?_, ?_⟩
      · rw [h3]
        exact canon_append.2 ⟨hca, hek, ha, by dsimp only; omega, m2, m3⟩
      · intro c
        rw [h3]
        simp only [memR_append, memR_cons]
        rw [mergeL_mem hB1 (by omega) hB2 c]
        constructor
        · rintro (h | h | h)
          · exact .inr (.inr (.inl h))
          · by_cases hcf : from_ ≤ c
            · left; omega
            · right; left
              have : ev ≠ 0 := by intro h0; have := hnew h0; omega
              have := hadj this
              omega
          · exact .inr (.inr (.inr h))
        · rintro (h | h | h | h)
          · right; left; omega
          · right; left; omega
          · exact .inl h
          · exact .inr (.inr h)
  have hnewkey : ∀ (a b : List (Nat × Nat)), elems t.root = a ++ b → (∀ x ∈ a, x.1 < from_) →
      (∀ x ∈ b, from_ < x.1) → (∀ x ∈ a, x.2 + 2 ≤ from_) →
      ∃ t', mergeNew t from_ to_ = some t' ∧ TInv t' ∧ Canon 128 (elems t'.root) ∧
      ∀ c, MemR c (elems t'.root) ↔ (from_ ≤ c ∧ c ≤ to_) ∨ MemR c (elems t.root) := by
    intro a b he ha hb ha2
    obtain ⟨t1, c1, c2, c3, c4⟩ := create_new t hi (fun o => o.getD 0) he ha hb hnum
    have hca : Canon 128 a ∧ ∃ B, Canon B b ∧ from_ < B := by
      rw [he] at hc
      cases b with
      | nil => exact ⟨by simpa using hc, from_ + 1, trivial, by omega⟩
      | cons e b =>
        obtain ⟨q1, q2, q3, q4, q5, q6⟩ := canon_append.1 hc
        exact ⟨q1, e.1, ⟨Nat.le_refl _, q4, q5, q6⟩, hb e (by simp)⟩
    obtain ⟨t', k1, k2, k3, k4⟩ := key t1 a b from_ 0 c2 c3 ha2 hca.1 hf (.inl rfl) (.inr ⟨rfl, hca.2⟩)
      (Nat.le_refl _) (fun _ => rfl) (fun h => absurd rfl h) ha hb
    refine ⟨t', ?_, k2, k3, fun c => ?_⟩
    · unfold mergeNew; rw [c1]; exact k1
    · rw [k4 c, he]; simp
  obtain ⟨a, b, he, ha, hb⟩ := split_at hi.2.1 from_
  obtain ⟨n1, n2, _⟩ := near_eq t hi from_
  rw [he, below_split ha hb] at n2
  unfold addLarge
  -- exact match?
  by_cases hex : ∃ v b', b = (from_, v) :: b'
  · obtain ⟨v, b', rfl⟩ := hex
    rw [he, getL_split_some ha] at n1
    have hs : Sorted compare (a ++ (from_, v) :: b') := by rw [← he]; exact hi.2.1
    have hbk : ∀ x ∈ b', from_ < x.1 := by
      intro x hx; have := (sorted_mid.1 hs).2.2.2 x hx; rwa [Nat.compare_eq_lt] at this
    generalize coreNear compare from_ t.root [] = r at *
    obtain ⟨e, lo, hi'⟩ := r
    cases e with
    | none => cases n1
    | some e =>
      simp only [Option.map_some, Option.some.injEq] at n1
      rw [he] at hc
      obtain ⟨q1, q2, q3, q4, q5, q6⟩ := canon_append.1 hc
      dsimp only at q2 q3 q4 q5 q6 ⊢
      rw [n1]
      obtain ⟨t', k1, k2, k3, k4⟩ := key t a b' from_ v hi he q3 q1 hf (.inr ⟨q4, q5⟩)
        (.inl (by rwa [Nat.max_eq_left q4])) (Nat.le_refl _) (fun _ => rfl) (fun _ => by omega) ha hbk
      refine ⟨t', k1, k2, k3, fun c => ?_⟩
      rw [k4 c, he]
      simp only [memR_append, memR_cons]
      have : v ≠ 0 := by omega
      tauto
  · have hb' : ∀ x ∈ b, from_ < x.1 := by
      have hs : Sorted compare b := by
        have := hi.2.1; rw [he] at this; exact (sorted_append.1 this).2.1
      intro x hx
      have h1 := hb x hx
      by_cases h2 : from_ = x.1
      · exfalso
        cases b with
        | nil => cases hx
        | cons y b =>
          rcases List.mem_cons.1 hx with rfl | hx
          · exact hex ⟨x.2, b, by rw [h2]⟩
          · have h3 := (List.pairwise_cons.1 hs).1 x hx
            rw [Nat.compare_eq_lt] at h3
            have := hb y (by simp)
            omega
      · omega
    rw [he, getL_split_none ha hb'] at n1
    generalize coreNear compare from_ t.root [] = r at *
    obtain ⟨e, lo, hi'⟩ := r
    cases e with
    | some e => cases n1
    | none =>
      cases lo with
      | none =>
        dsimp only at n2 ⊢
        have : a = [] := by simpa using n2.symm
        subst this
        exact hnewkey [] b he ha hb' (by simp)
      | some lo =>
        dsimp only [Option.map_some] at n2 ⊢
        obtain ⟨a', rfl⟩ := List.getLast?_eq_some_iff.1 n2.symm
        have he' : elems t.root = a' ++ lo.entry :: b := by rw [he]; simp
        have hc' := hc
        rw [he'] at hc'
        obtain ⟨q1, q2, q3, q4, q5, q6⟩ := canon_append.1 hc'
        have hlo : lo.entry = (lo.k, lo.v) := rfl
        rw [hlo] at q2 q3 q4 q5 q6 he'
        have hlok := ha lo.entry (by simp)
        rw [hlo] at hlok
        dsimp only at q2 q3 q4 q5 q6 hlok
        by_cases hv : lo.v < from_ - 1
        · rw [if_pos hv]
          refine hnewkey (a' ++ [lo.entry]) b he ha hb' ?_
          intro x hx
          rcases List.mem_append.1 hx with hx | hx
          · have := q3 x hx; omega
          · simp at hx; rw [hx, hlo]; dsimp only; omega
        · rw [if_neg hv]
          obtain ⟨t', k1, k2, k3, k4⟩ := key t a' b lo.k lo.v hi he' q3 q1 q2 (.inr ⟨q4, q5⟩)
            (.inl (by rwa [Nat.max_eq_left q4])) (by omega) (by omega) (fun _ => by omega)
            (fun x hx => by have h1 := q3 x hx; have h2 := canon_mem q1 x hx; omega)
            (fun x hx => by have := hb' x hx; omega)
          refine ⟨t', k1, k2, k3, fun c => ?_⟩
          rw [k4 c, he']
          simp only [memR_append, memR_cons]
          have : lo.v ≠ 0 := by omega
          tauto
end Gauche.CharSet
