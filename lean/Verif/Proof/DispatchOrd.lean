import Verif.Model.Dispatch
import Mathlib.Data.List.Basic
import Mathlib.Tactic.Linarith
/-! The order of methods is a strict order, total on the applicable methods of distinct signatures. -/
namespace Gauche.Dispatch
open Spec

def rank (w : World) (c s : Nat) : Nat := (c :: w.cpl c).idxOf s

theorem before_iff (w : World) (c s t : Nat) : Before w c s t ↔ rank w c s < rank w c t := by
  unfold Before rank
  generalize c :: w.cpl c = l
  induction l with
  | nil => simp
  | cons a l ih =>
    rw [List.idxOf_cons, List.idxOf_cons]
    by_cases h1 : a = s
    · subst h1
      simp only [beq_self_eq_true, cond_true]
      by_cases h2 : a = t
      · subst h2
        simp
      · simp only [beq_eq_false_iff_ne.mpr h2, cond_false, Nat.zero_lt_succ, iff_true]
        exact ⟨[], l, rfl, by simp, fun h => h2 h.symm⟩
    · simp only [beq_eq_false_iff_ne.mpr h1, cond_false]
      by_cases h2 : a = t
      · subst h2
        simp only [beq_self_eq_true, cond_true, Nat.not_lt_zero, iff_false]
        rintro ⟨pre, post, e1, e2, e3⟩
        cases pre with
        | nil => simp at e1; exact h1 e1.1
        | cons b pre => simp at e1 e2; exact e2.1 e1.1
      · simp only [beq_eq_false_iff_ne.mpr h2, cond_false, Nat.succ_lt_succ_iff]
        rw [← ih]
        constructor
        · rintro ⟨pre, post, e1, e2, e3⟩
          cases pre with
          | nil => simp at e1; exact absurd e1.1 h1
          | cons b pre =>
            simp at e1 e2
            exact ⟨pre, post, e1.2, e2.2, e3⟩
        · rintro ⟨pre, post, e1, e2, e3⟩
          exact ⟨a :: pre, post, by simp [e1], by simp [e2, Ne.symm h2], e3⟩

theorem take_getElem? {α} {x y : List α} {i j : Nat} (h : x.take i = y.take i) (hj : j < i) : x[j]? = y[j]? := by
  have := congrArg (·[j]?) h
  simpa [List.getElem?_take, hj] using this

theorem take_mono {α} {x y : List α} {i j : Nat} (h : x.take i = y.take i) (hj : j ≤ i) : x.take j = y.take j := by
  have := congrArg (List.take j) h
  simpa [List.take_take, Nat.min_eq_left hj] using this

theorem moreSpecific_irrefl (w : World) (args : List Nat) (x : Method) : ¬ MoreSpecific w args x x := by
  rintro (⟨i, s, t, c, _, h1, h2, _, h3⟩ | ⟨r, h1, h2⟩ | ⟨_, h1, h2⟩)
  · rw [before_iff] at h3
    rw [h1] at h2; cases h2
    omega
  · have := congrArg List.length h2
    simp at this
    exact h1 this
  · rw [h1] at h2; exact absurd h2 (by decide)

theorem moreSpecific_trans (w : World) (args : List Nat) (x y z : Method)
    (h1 : MoreSpecific w args x y) (h2 : MoreSpecific w args y z) : MoreSpecific w args x z := by
  rcases h1 with ⟨i, s, t, c, a1, a2, a3, a4, a5⟩ | ⟨r, a1, a2⟩ | ⟨a1, a2, a3⟩
  · rcases h2 with ⟨j, s', t', c', b1, b2, b3, b4, b5⟩ | ⟨r', b1, b2⟩ | ⟨b1, b2, b3⟩
    · left
      rw [before_iff] at a5 b5
      rcases Nat.lt_trichotomy i j with h | h | h
      · refine ⟨i, s, t, c, a1.trans (take_mono b1 (by omega)), a2, ?_, a4, (before_iff ..).2 a5⟩
        rw [← take_getElem? b1 h, a3]
      · subst h
        rw [a3] at b2; cases b2
        rw [a4] at b4; cases b4
        exact ⟨i, s, t', c, a1.trans b1, a2, b3, a4, (before_iff ..).2 (by omega)⟩
      · refine ⟨j, s', t', c', (take_mono a1 (by omega)).trans b1, ?_, b3, b4, (before_iff ..).2 b5⟩
        rw [take_getElem? a1 h, b2]
    · by_cases h : i < z.specs.length
      · left
        refine ⟨i, s, t, c, ?_, a2, ?_, a4, a5⟩
        · rw [a1, b2, List.take_append_of_le_length (by omega)]
        · rw [b2, List.getElem?_append_left h] at a3
          exact a3
      · right; left
        have hz : z.specs = x.specs.take z.specs.length := by
          have := take_mono a1 (j := z.specs.length) (by omega)
          rw [this, b2]; simp
        have hx : i < x.specs.length := (List.getElem?_eq_some_iff.1 a2).1
        refine ⟨x.specs.drop z.specs.length, ?_, ?_⟩
        · intro h0
          have := congrArg List.length h0
          simp at this
          omega
        · conv_lhs => rw [← List.take_append_drop z.specs.length x.specs]
          rw [← hz]
    · left
      exact ⟨i, s, t, c, by rw [a1, b1], a2, by rw [← b1, a3], a4, a5⟩
  · rcases h2 with ⟨j, s', t', c', b1, b2, b3, b4, b5⟩ | ⟨r', b1, b2⟩ | ⟨b1, b2, b3⟩
    · left
      have hj : j < y.specs.length := (List.getElem?_eq_some_iff.1 b2).1
      refine ⟨j, s', t', c', ?_, ?_, b3, b4, b5⟩
      · rw [a2, List.take_append_of_le_length (by omega), b1]
      · rw [a2, List.getElem?_append_left hj, b2]
    · right; left
      exact ⟨r' ++ r, by simp [b1], by rw [a2, b2, List.append_assoc]⟩
    · right; left
      exact ⟨r, a1, by rw [a2, b1]⟩
  · rcases h2 with ⟨j, s', t', c', b1, b2, b3, b4, b5⟩ | ⟨r', b1, b2⟩ | ⟨b1, b2, b3⟩
    · left
      exact ⟨j, s', t', c', by rw [a1, b1], by rw [a1, b2], b3, b4, b5⟩
    · right; left
      exact ⟨r', b1, by rw [a1, b2]⟩
    · rw [a3] at b2; exact absurd b2 (by decide)

theorem cplFirst_spec (x y : Nat) (hxy : x ≠ y) : ∀ l : List Nat, x ∈ l ∨ y ∈ l →
    cplFirst x y l = some (decide (l.idxOf x < l.idxOf y)) := by
  intro l
  induction l with
  | nil => simp
  | cons a l ih =>
    intro h
    unfold cplFirst
    rw [List.idxOf_cons, List.idxOf_cons]
    by_cases h1 : x = a
    · subst h1
      rw [if_pos rfl]
      simp [beq_eq_false_iff_ne.mpr hxy]
    · rw [if_neg h1]
      by_cases h2 : y = a
      · subst h2
        rw [if_pos rfl]
        simp
      · rw [if_neg h2, ih (by simpa [h1, h2] using h)]
        simp [beq_eq_false_iff_ne.mpr (Ne.symm h1), beq_eq_false_iff_ne.mpr (Ne.symm h2)]

/-- The comparison of two specializers that both admit the class of the argument. -/
theorem rank_ne (w : World) (c s t : Nat) (hst : s ≠ t) (hs : IsA w c s) (ht : IsA w c t) :
    rank w c s ≠ rank w c t := by
  intro h
  unfold rank at h
  have hin : s ∈ c :: w.cpl c ∨ t ∈ c :: w.cpl c := by
    rcases hs with h1 | h1 | h1
    · rcases ht with h2 | h2 | h2
      · exact absurd (h1.trans h2.symm) hst
      · right; simp [h2]
      · right; simp [h2]
    · left; simp [h1]
    · left; simp [h1]
  rcases hin with h1 | h1
  · have h2 := List.idxOf_lt_length_of_mem h1
    have h3 : (c :: w.cpl c)[List.idxOf s (c :: w.cpl c)] = s := List.getElem_idxOf h2
    have h4 : (c :: w.cpl c)[List.idxOf t (c :: w.cpl c)]'(by omega) = t := List.getElem_idxOf (by omega)
    simp only [← h] at h4
    exact hst (h3.symm.trans h4)
  · have h2 := List.idxOf_lt_length_of_mem h1
    have h3 : (c :: w.cpl c)[List.idxOf t (c :: w.cpl c)] = t := List.getElem_idxOf h2
    have h4 : (c :: w.cpl c)[List.idxOf s (c :: w.cpl c)]'(by omega) = s := List.getElem_idxOf (by omega)
    simp only [h] at h4
    exact hst (h4.symm.trans h3)

theorem cmp_step (w : World) (c s t : Nat) (hst : s ≠ t) (hs : IsA w c s) (ht : IsA w c t) :
    (if s = c then some (some true) else if t = c then some (some false) else (cplFirst s t (w.cpl c)).map some) =
      some (some (decide (rank w c s < rank w c t))) := by
  have e : rank w c s = (if s = c then 0 else (w.cpl c).idxOf s + 1) ∧
      rank w c t = (if t = c then 0 else (w.cpl c).idxOf t + 1) := by
    unfold rank
    rw [List.idxOf_cons, List.idxOf_cons]
    constructor
    · by_cases h : s = c
      · simp [h]
      · simp [h, beq_eq_false_iff_ne.mpr (Ne.symm h)]
    · by_cases h : t = c
      · simp [h]
      · simp [h, beq_eq_false_iff_ne.mpr (Ne.symm h)]
  rw [e.1, e.2]
  by_cases h1 : s = c
  · rw [if_pos h1, if_pos h1, if_neg (fun h => hst (h1.trans h.symm))]
    simp
  · rw [if_neg h1, if_neg h1]
    by_cases h2 : t = c
    · rw [if_pos h2, if_pos h2]
      simp
    · rw [if_neg h2, if_neg h2, cplFirst_spec s t hst]
      · simp
      · rcases hs with h | h | h
        · rcases ht with h' | h' | h'
          · exact absurd (h.trans h'.symm) hst
          · exact absurd h'.symm h2
          · exact Or.inr h'
        · exact absurd h.symm h1
        · exact Or.inl h

/-- The loop over the specializers. -/
theorem specsCmp_spec (w : World) (args : List Nat) : ∀ (xs ys pre : List Nat) (i : Nat), i = pre.length →
    (∀ (k s c : Nat), xs[k]? = some s → args[i + k]? = some c → IsA w c s) →
    (∀ (k s c : Nat), ys[k]? = some s → args[i + k]? = some c → IsA w c s) →
    i + xs.length ≤ args.length → i + ys.length ≤ args.length →
    (∃ (j s t c : Nat), xs.take j = ys.take j ∧ xs[j]? = some s ∧ ys[j]? = some t ∧ args[i + j]? = some c ∧
        rank w c s ≠ rank w c t ∧ specsCmp w args i xs ys = some (some (decide (rank w c s < rank w c t)))) ∨
    (specsCmp w args i xs ys = some none ∧ ((∃ r, xs = ys ++ r) ∨ (∃ r, ys = xs ++ r))) := by
  intro xs
  induction xs with
  | nil =>
    intro ys pre i _ _ _ _ _
    right
    exact ⟨by unfold specsCmp; rfl, Or.inr ⟨ys, rfl⟩⟩
  | cons x xs ih =>
    intro ys pre i hi hx hy hlx hly
    cases ys with
    | nil => right; exact ⟨by unfold specsCmp; rfl, Or.inl ⟨x :: xs, rfl⟩⟩
    | cons y ys =>
      simp only [List.length_cons] at hlx hly
      by_cases hxy : x = y
      · subst hxy
        have e : specsCmp w args i (x :: xs) (x :: ys) = specsCmp w args (i + 1) xs ys := by
          rw [specsCmp, if_pos rfl]
        rcases ih ys (pre ++ [x]) (i + 1) (by simp [hi])
          (fun k s c h1 h2 => hx (k + 1) s c (by simpa using h1) (by rw [← h2]; congr 1; omega))
          (fun k s c h1 h2 => hy (k + 1) s c (by simpa using h1) (by rw [← h2]; congr 1; omega))
          (by omega) (by omega) with ⟨j, s, t, c, a1, a2, a3, a4, a5, a6⟩ | ⟨a1, a2⟩
        · left
          exact ⟨j + 1, s, t, c, by simp [a1], by simpa using a2, by simpa using a3,
            by rw [← a4]; congr 1; omega, a5, by rw [e, a6]⟩
        · right
          refine ⟨by rw [e, a1], ?_⟩
          rcases a2 with ⟨r, a2⟩ | ⟨r, a2⟩
          · exact Or.inl ⟨r, by rw [a2]; rfl⟩
          · exact Or.inr ⟨r, by rw [a2]; rfl⟩
      · left
        have hlt : i < args.length := by omega
        refine ⟨0, x, y, args[i], rfl, rfl, rfl, by simp [hlt], ?_, ?_⟩
        · exact rank_ne w _ x y hxy (hx 0 x _ rfl (by simp [hlt])) (hy 0 y _ rfl (by simp [hlt]))
        · rw [specsCmp, if_neg hxy, List.getElem?_eq_getElem hlt]
          exact cmp_step w _ x y hxy (hx 0 x _ rfl (by simp [hlt])) (hy 0 y _ rfl (by simp [hlt]))

theorem applicable_len {w : World} {m : Method} {args : List Nat} (h : Applicable w m args) :
    m.specs.length ≤ args.length := by
  have := h.1
  unfold Accepts at this
  split at this <;> omega

/-- The comparison of two applicable methods of different signatures gives an answer, and the right one. -/
theorem methodMoreSpecific_spec (w : World) (args : List Nat) (x y : Method) (hx : Applicable w x args)
    (hy : Applicable w y args) (hne : ¬ SameSig x y) :
    (methodMoreSpecific w args x y = some true ∧ MoreSpecific w args x y) ∨
    (methodMoreSpecific w args x y = some false ∧ MoreSpecific w args y x) := by
  have := specsCmp_spec w args x.specs y.specs [] 0 rfl
    (fun k s c h1 h2 => hx.2 k s c h1 (by simpa using h2)) (fun k s c h1 h2 => hy.2 k s c h1 (by simpa using h2))
    (by have := applicable_len hx; omega) (by have := applicable_len hy; omega)
  unfold methodMoreSpecific
  rcases this with ⟨j, s, t, c, a1, a2, a3, a4, a5, a6⟩ | ⟨a1, a2⟩
  · rw [a6]
    rw [Nat.zero_add] at a4
    by_cases hlt : rank w c s < rank w c t
    · left
      exact ⟨by simp [hlt], Or.inl ⟨j, s, t, c, a1, a2, a3, a4, (before_iff ..).2 hlt⟩⟩
    · right
      exact ⟨by simp [hlt], Or.inl ⟨j, t, s, c, a1.symm, a3, a2, a4, (before_iff ..).2 (by omega)⟩⟩
  · rw [a1]
    simp only []
    by_cases h1 : x.specs.length > y.specs.length
    · left
      rw [if_pos h1]
      refine ⟨rfl, Or.inr (Or.inl ?_)⟩
      rcases a2 with ⟨r, a2⟩ | ⟨r, a2⟩
      · exact ⟨r, fun h0 => by rw [a2, h0] at h1; simp at h1, a2⟩
      · rw [a2] at h1; simp at h1
    · rw [if_neg h1]
      by_cases h2 : x.specs.length < y.specs.length
      · right
        rw [if_pos h2]
        refine ⟨rfl, Or.inr (Or.inl ?_)⟩
        rcases a2 with ⟨r, a2⟩ | ⟨r, a2⟩
        · rw [a2] at h2; simp at h2
        · exact ⟨r, fun h0 => by rw [a2, h0] at h2; simp at h2, a2⟩
      · rw [if_neg h2]
        have e : x.specs = y.specs := by
          rcases a2 with ⟨r, a2⟩ | ⟨r, a2⟩
          · have := congrArg List.length a2
            rw [List.length_append] at this
            have : r = [] := List.length_eq_zero_iff.1 (by omega)
            rw [a2, this, List.append_nil]
          · have := congrArg List.length a2
            rw [List.length_append] at this
            have : r = [] := List.length_eq_zero_iff.1 (by omega)
            rw [a2, this, List.append_nil]
        have ho : x.opt ≠ y.opt := fun h => hne ⟨e, h⟩
        cases hyo : y.opt
        · right
          refine ⟨rfl, Or.inr (Or.inr ⟨e.symm, hyo, ?_⟩)⟩
          cases hxo : x.opt
          · exact absurd (hxo.trans hyo.symm) ho
          · rfl
        · left
          refine ⟨rfl, Or.inr (Or.inr ⟨e, ?_, hyo⟩)⟩
          cases hxo : x.opt
          · rfl
          · exact absurd (hxo.trans hyo.symm) ho

end Gauche.Dispatch
