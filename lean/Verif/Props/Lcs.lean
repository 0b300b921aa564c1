import Verif.Proof.Lcs
import Mathlib.Data.List.Forall2
/-
C40: longest common subsequences and edit lists.
-/
namespace Gauche.Lcs
open Gauche.Spec

variable {α : Type}

/-- **C40.**  For every equality procedure, `lcs-with-positions` returns the length and the elements (of the first
sequence) with their positions of a matching, and no matching is longer. -/
theorem C40_with_positions (eq : α → α → Bool) (a b : List α) : ∃ l r, lcsWithPositions eq a b = some (l, r) ∧
    (r.length : Int) = l ∧ (∀ p ∈ r, ∃ i j : Nat, p.2 = ((i : Int), (j : Int)) ∧ a[i]? = some p.1) ∧
    IsMatching eq a b (r.map fun p => (p.2.1.toNat, p.2.2.toNat)) ∧
    ∀ ps, IsMatching eq a b ps → ps.length ≤ r.length := by
  obtain ⟨l, r, h1, h2, h3, h4, h5⟩ := lcsWithPositions_spec eq a b
  refine ⟨l, r, h1, h2, ?_, ⟨?_, ?_⟩, fun ps hps => by have := h5 ps hps; omega⟩
  · intro p hp
    obtain ⟨q1, q2, q3, _⟩ := h4 p hp
    exact ⟨p.2.1.toNat, p.2.2.toNat, by rw [Int.toNat_of_nonneg q1, Int.toNat_of_nonneg q2], q3⟩
  · rw [List.pairwise_map]
    refine h3.imp_of_mem ?_
    intro p q hp hq hpq
    have := h4 p hp; have := h4 q hq
    simp only; omega
  · intro p hp
    obtain ⟨q, hq, rfl⟩ := List.mem_map.1 hp
    exact (h4 q hq).2.2.2

/-! ### Subsequences -/

theorem sublist_of_positions : ∀ (a : List α) (r : List (α × Nat)) (i : Nat),
    r.Pairwise (fun p q => p.2 < q.2) → (∀ p ∈ r, i ≤ p.2 ∧ a[p.2 - i]? = some p.1) →
    (r.map (·.1)).Sublist a := by
  intro a
  induction a with
  | nil =>
    intro r i _ h
    cases r with
    | nil => simp
    | cons p r => have := (h p (by simp)).2; simp at this
  | cons x a ih =>
    intro r i hp h
    cases r with
    | nil => simp
    | cons p r =>
      obtain ⟨h1, h2⟩ := List.pairwise_cons.1 hp
      obtain ⟨g1, g2⟩ := h p (by simp)
      by_cases he : p.2 = i
      · rw [he, Nat.sub_self] at g2
        simp only [List.getElem?_cons_zero, Option.some.injEq] at g2
        rw [List.map_cons, ← g2]
        refine (ih r (i + 1) h2 fun q hq => ?_).cons_cons x
        have := h1 q hq
        obtain ⟨k1, k2⟩ := h q (by simp [hq])
        have e : q.2 - i = (q.2 - (i + 1)) + 1 := by omega
        rw [e, List.getElem?_cons_succ] at k2
        exact ⟨by omega, k2⟩
      · refine (ih (p :: r) (i + 1) hp fun q hq => ?_).cons x
        have hlt : i < q.2 := by
          rcases List.mem_cons.1 hq with rfl | hq
          · omega
          · have := h1 q hq; omega
        obtain ⟨k1, k2⟩ := h q hq
        have e : q.2 - i = (q.2 - (i + 1)) + 1 := by omega
        rw [e, List.getElem?_cons_succ] at k2
        exact ⟨by omega, k2⟩

theorem positions_of_sublist {c a : List α} (h : c.Sublist a) :
    ∃ f : List Nat, f.length = c.length ∧ f.Pairwise (· < ·) ∧
      ∀ (k i : Nat), f[k]? = some i → a[i]? = c[k]? := by
  induction h with
  | slnil => exact ⟨[], rfl, by simp, by simp⟩
  | @cons c a x _ ih =>
    obtain ⟨f, h1, h2, h3⟩ := ih
    refine ⟨f.map (· + 1), by simpa using h1, ?_, ?_⟩
    · rw [List.pairwise_map]; exact h2.imp (by intro _ _ h; omega)
    · intro k i hk
      rw [List.getElem?_map, Option.map_eq_some_iff] at hk
      obtain ⟨j, hj, rfl⟩ := hk
      rw [List.getElem?_cons_succ]; exact h3 k j hj
  | @cons_cons c a x _ ih =>
    obtain ⟨f, h1, h2, h3⟩ := ih
    refine ⟨0 :: f.map (· + 1), by simpa using h1, ?_, ?_⟩
    · refine List.pairwise_cons.2 ⟨?_, ?_⟩
      · intro y hy; obtain ⟨z, _, rfl⟩ := List.mem_map.1 hy; omega
      · rw [List.pairwise_map]; exact h2.imp (by intro _ _ h; omega)
    · intro k i hk
      cases k with
      | zero => simp at hk; subst hk; simp
      | succ k =>
        rw [List.getElem?_cons_succ, List.getElem?_map, Option.map_eq_some_iff] at hk
        obtain ⟨j, hj, rfl⟩ := hk
        rw [List.getElem?_cons_succ, List.getElem?_cons_succ]; exact h3 k j hj

theorem matching_of_sublists [DecidableEq α] {c a b : List α} (ha : c.Sublist a) (hb : c.Sublist b) :
    ∃ ps, IsMatching (fun x y => decide (x = y)) a b ps ∧ ps.length = c.length := by
  obtain ⟨f, f1, f2, f3⟩ := positions_of_sublist ha
  obtain ⟨g, g1, g2, g3⟩ := positions_of_sublist hb
  refine ⟨f.zip g, ⟨?_, ?_⟩, by simp [f1, g1]⟩
  · rw [List.pairwise_iff_getElem] at f2 g2 ⊢
    intro i j hi hj hij
    simp only [List.length_zip] at hi hj
    rw [List.getElem_zip, List.getElem_zip]
    exact ⟨f2 i j (by omega) (by omega) hij, g2 i j (by omega) (by omega) hij⟩
  · intro p hp
    obtain ⟨k, hk, rfl⟩ := List.getElem_of_mem hp
    simp only [List.length_zip] at hk
    rw [List.getElem_zip]
    have hkc : k < c.length := by omega
    refine ⟨c[k], c[k], ?_, ?_, by simp⟩
    · rw [f3 k f[k] (List.getElem?_eq_getElem (by omega)), List.getElem?_eq_getElem hkc]
    · rw [g3 k g[k] (List.getElem?_eq_getElem (by omega)), List.getElem?_eq_getElem hkc]

/-- **C40.**  `lcs` returns a common subsequence of maximal length. -/
theorem C40_lcs [DecidableEq α] (a b : List α) : ∃ c, lcs (fun x y => decide (x = y)) a b = some c ∧
    c.Sublist a ∧ c.Sublist b ∧ ∀ c' : List α, c'.Sublist a → c'.Sublist b → c'.length ≤ c.length := by
  obtain ⟨l, r, h1, h2, h3, h4, h5⟩ := lcsWithPositions_spec (fun x y => decide (x = y)) a b
  refine ⟨r.map (·.1), by unfold lcs; rw [h1]; rfl, ?_, ?_, ?_⟩
  · have := sublist_of_positions a (r.map fun p => (p.1, p.2.1.toNat)) 0 (by
      rw [List.pairwise_map]
      refine h3.imp_of_mem ?_
      intro p q hp hq hpq
      have := h4 p hp; have := h4 q hq
      simp only; omega) (by
      intro p hp
      obtain ⟨q, hq, rfl⟩ := List.mem_map.1 hp
      exact ⟨by omega, (h4 q hq).2.2.1⟩)
    rwa [List.map_map] at this
  · have := sublist_of_positions b (r.map fun p => (p.1, p.2.2.toNat)) 0 (by
      rw [List.pairwise_map]
      refine h3.imp_of_mem ?_
      intro p q hp hq hpq
      have := h4 p hp; have := h4 q hq
      simp only; omega) (by
      intro p hp
      obtain ⟨q, hq, rfl⟩ := List.mem_map.1 hp
      obtain ⟨_, _, k1, x, y, k2, k3, k4⟩ := h4 q hq
      simp only [decide_eq_true_eq] at k4
      rw [k1] at k2
      cases k2
      simp only [Nat.sub_zero]
      exact ⟨by omega, by rw [k3, k4]⟩)
    rwa [List.map_map] at this
  · intro c' hc1 hc2
    obtain ⟨ps, hps, hl⟩ := matching_of_sublists hc1 hc2
    have := h5 ps hps
    rw [List.length_map]; omega

/-! ### Folding over an edit script -/

/-- What `lcs-fold` does at a step of an edit script. -/
def evStep {σ : Type} (aOnly bOnly both : α → σ → σ) (s : σ) : Ev α → σ
  | .del x => aOnly x s
  | .ins y => bOnly y s
  | .keep x _ => both x s

theorem ev_dels {σ : Type} (ao bo bt : α → σ → σ) (l : List α) (s : σ) :
    (l.map Ev.del).foldl (evStep ao bo bt) s = l.foldl (fun s x => ao x s) s := by
  rw [List.foldl_map]; rfl

theorem ev_inss {σ : Type} (ao bo bt : α → σ → σ) (l : List α) (s : σ) :
    (l.map Ev.ins).foldl (evStep ao bo bt) s = l.foldl (fun s x => bo x s) s := by
  rw [List.foldl_map]; rfl

theorem source_append (u v : List (Ev α)) : Ev.source (u ++ v) = Ev.source u ++ Ev.source v := by
  induction u with
  | nil => rfl
  | cons e u ih => cases e <;> simp [Ev.source, ih]

theorem target_append (u v : List (Ev α)) : Ev.target (u ++ v) = Ev.target u ++ Ev.target v := by
  induction u with
  | nil => rfl
  | cons e u ih => cases e <;> simp [Ev.target, ih]

theorem kept_append (u v : List (Ev α)) : Ev.kept (u ++ v) = Ev.kept u ++ Ev.kept v := by
  induction u with
  | nil => rfl
  | cons e u ih => cases e <;> simp [Ev.kept, ih]

theorem dels_proj (l : List α) : Ev.source (l.map Ev.del) = l ∧ Ev.target (l.map Ev.del) = [] ∧ Ev.kept (l.map Ev.del) = [] := by
  induction l with
  | nil => exact ⟨rfl, rfl, rfl⟩
  | cons a l ih => simp [Ev.source, Ev.target, Ev.kept, ih]

theorem inss_proj (l : List α) : Ev.source (l.map Ev.ins) = [] ∧ Ev.target (l.map Ev.ins) = l ∧ Ev.kept (l.map Ev.ins) = [] := by
  induction l with
  | nil => exact ⟨rfl, rfl, rfl⟩
  | cons a l ih => simp [Ev.source, Ev.target, Ev.kept, ih]

theorem foldLoop_events (eq : α → α → Bool) (a b : List α) (r : List (α × Int × Int)) (i j : Nat)
    (hord : r.Pairwise (fun p q => p.2.1 < q.2.1 ∧ p.2.2 < q.2.2))
    (hlo : ∀ p ∈ r, (i : Int) ≤ p.2.1 ∧ (j : Int) ≤ p.2.2)
    (hok : ∀ p ∈ r, a[p.2.1.toNat]? = some p.1 ∧ Eqv eq a b p.2.1.toNat p.2.2.toNat) :
    ∃ evs : List (Ev α), Ev.source evs = a.drop i ∧ Ev.target evs = b.drop j ∧ (Ev.kept evs).length = r.length ∧
      (∀ p ∈ Ev.kept evs, eq p.1 p.2 = true) ∧
      ∀ {σ : Type} (ao bo bt : α → σ → σ) (seed : σ),
        foldLoop ao bo bt r seed (a.drop i) i (b.drop j) j = some (evs.foldl (evStep ao bo bt) seed) := by
  induction r generalizing i j with
  | nil =>
    refine ⟨(a.drop i).map Ev.del ++ (b.drop j).map Ev.ins, ?_, ?_, ?_, ?_, ?_⟩
    · rw [source_append, (dels_proj _).1, (inss_proj _).1, List.append_nil]
    · rw [target_append, (dels_proj _).2.1, (inss_proj _).2.1, List.nil_append]
    · rw [kept_append, (dels_proj _).2.2, (inss_proj _).2.2]; rfl
    · rw [kept_append, (dels_proj _).2.2, (inss_proj _).2.2]; simp
    · intro σ ao bo bt seed
      rw [foldLoop, List.foldl_append, ev_dels, ev_inss]
  | cons p r ih =>
    obtain ⟨elt, ai, bj⟩ := p
    obtain ⟨h1, h2⟩ := List.pairwise_cons.1 hord
    obtain ⟨hl1, hl2⟩ := hlo (elt, ai, bj) (by simp)
    obtain ⟨hk1, x, y, hk2, hk3, hk4⟩ := hok (elt, ai, bj) (by simp)
    simp only at hl1 hl2 hk1 hk2 hk3
    obtain ⟨A, rfl⟩ := Int.eq_ofNat_of_zero_le (by omega : 0 ≤ ai)
    obtain ⟨B, rfl⟩ := Int.eq_ofNat_of_zero_le (by omega : 0 ≤ bj)
    simp only [Int.toNat_natCast] at hk1 hk2 hk3
    rw [hk1] at hk2
    cases hk2
    have hA := (List.getElem?_eq_some_iff.1 hk1)
    have hB := (List.getElem?_eq_some_iff.1 hk3)
    obtain ⟨hA1, hA2⟩ := hA
    obtain ⟨hB1, hB2⟩ := hB
    obtain ⟨evs, e1, e2, e3, e4, e5⟩ := ih (A + 1) (B + 1) h2
      (fun q hq => by have := h1 q hq; simp only at this; omega) (fun q hq => hok q (by simp [hq]))
    have da : a.drop i = (a.drop i).take (A - i) ++ elt :: a.drop (A + 1) := by
      conv_lhs => rw [← List.take_append_drop (A - i) (a.drop i)]
      rw [List.drop_drop, Nat.add_sub_cancel' (by omega), List.drop_eq_getElem_cons hA1, hA2]
    have db : b.drop j = (b.drop j).take (B - j) ++ y :: b.drop (B + 1) := by
      conv_lhs => rw [← List.take_append_drop (B - j) (b.drop j)]
      rw [List.drop_drop, Nat.add_sub_cancel' (by omega), List.drop_eq_getElem_cons hB1, hB2]
    refine ⟨((a.drop i).take (A - i)).map Ev.del ++ ((b.drop j).take (B - j)).map Ev.ins ++ Ev.keep elt y :: evs, ?_, ?_, ?_, ?_, ?_⟩
    · rw [source_append, source_append, (dels_proj _).1, (inss_proj _).1, List.append_nil, Ev.source, e1]
      exact da.symm
    · rw [target_append, target_append, (dels_proj _).2.1, (inss_proj _).2.1, List.nil_append, Ev.target, e2]
      exact db.symm
    · rw [kept_append, kept_append, (dels_proj _).2.2, (inss_proj _).2.2, Ev.kept]; simp [e3]
    · rw [kept_append, kept_append, (dels_proj _).2.2, (inss_proj _).2.2, Ev.kept]
      intro p hp
      simp only [List.nil_append, List.mem_cons] at hp
      rcases hp with rfl | hp
      · exact hk4
      · exact e4 p hp
    · intro σ ao bo bt seed
      rw [foldLoop]
      have s1 : ((A : Int) - (i : Int)).toNat = A - i := by omega
      have s2 : ((B : Int) - (j : Int)).toNat = B - j := by omega
      have t1 : (a.drop i).drop (A - i) = elt :: a.drop (A + 1) := by
        rw [List.drop_drop, Nat.add_sub_cancel' (by omega), List.drop_eq_getElem_cons hA1, hA2]
      have t2 : (b.drop j).drop (B - j) = y :: b.drop (B + 1) := by
        rw [List.drop_drop, Nat.add_sub_cancel' (by omega), List.drop_eq_getElem_cons hB1, hB2]
      rw [if_pos (by simp only [List.length_drop]; omega), s1, s2, t1, t2]
      dsimp only
      have := e5 ao bo bt (bt elt (List.foldl (fun s x => bo x s) (List.foldl (fun s x => ao x s) seed
        ((a.drop i).take (A - i))) ((b.drop j).take (B - j))))
      rw [Int.natCast_add, Int.natCast_add, Int.natCast_one] at this
      rw [this, List.foldl_append, List.foldl_append, ev_dels, ev_inss, List.foldl_cons]
      rfl

/-- **C40.**  `lcs-fold` walks along an edit script from the first sequence to the second, keeping as many elements as a
longest matching has. -/
theorem C40_fold (eq : α → α → Bool) (a b : List α) : ∃ evs : List (Ev α), Ev.source evs = a ∧ Ev.target evs = b ∧
    (∀ p ∈ Ev.kept evs, eq p.1 p.2 = true) ∧ (∀ ps, IsMatching eq a b ps → ps.length ≤ (Ev.kept evs).length) ∧
    ∀ {σ : Type} (aOnly bOnly both : α → σ → σ) (seed : σ),
      lcsFold aOnly bOnly both seed eq a b = some (evs.foldl (evStep aOnly bOnly both) seed) := by
  obtain ⟨l, r, h1, h2, h3, h4, h5⟩ := lcsWithPositions_spec eq a b
  obtain ⟨evs, e1, e2, e3, e4, e5⟩ := foldLoop_events eq a b r 0 0 h3 (fun p hp => by have := h4 p hp; omega)
    (fun p hp => (h4 p hp).2.2)
  refine ⟨evs, by simpa using e1, by simpa using e2, e4, fun ps hps => by have := h5 ps hps; omega, ?_⟩
  intro σ ao bo bt seed
  unfold lcsFold
  rw [h1]
  have := e5 ao bo bt seed
  simpa using this

/-! ### Edit lists -/

/-- The edit commands of a script; `i` and `j` are the positions of the next elements. -/
def editsOf : List (Ev α) → Int → Int → List (Edit α)
  | [], _, _ => []
  | .del x :: r, i, j => .del i x :: editsOf r (i + 1) j
  | .ins y :: r, i, j => .ins j y :: editsOf r i (j + 1)
  | .keep _ _ :: r, i, j => editsOf r (i + 1) (j + 1)

/-- The deletions among edit commands: position in the first sequence, and element. -/
def dels : List (Edit α) → List (Int × α)
  | [] => []
  | .del p x :: r => (p, x) :: dels r
  | .ins _ _ :: r => dels r

/-- The insertions among edit commands: position in the second sequence, and element. -/
def inss : List (Edit α) → List (Int × α)
  | [] => []
  | .del _ _ :: r => inss r
  | .ins p x :: r => (p, x) :: inss r

/-- The hunks collected so far, with the open one. -/
def closed (s : EditState α) : List (List (Edit α)) := (if s.hunk.isEmpty then s.hunks else s.hunk.reverse :: s.hunks).reverse

theorem closed_flatten (s : EditState α) : (closed s).flatten = s.hunks.reverse.flatten ++ s.hunk.reverse := by
  unfold closed
  cases h : s.hunk with
  | nil => simp
  | cons a l => simp

def editStep : EditState α → Ev α → EditState α := evStep
    (fun elt s => { s with aPos := s.aPos + 1, hunk := .del (s.aPos + 1) elt :: s.hunk })
    (fun elt s => { s with bPos := s.bPos + 1, hunk := .ins (s.bPos + 1) elt :: s.hunk })
    (fun _ s => { aPos := s.aPos + 1, bPos := s.bPos + 1,
                  hunks := if s.hunk.isEmpty then s.hunks else s.hunk.reverse :: s.hunks, hunk := [] })

theorem editStep_spec (evs : List (Ev α)) (s : EditState α) (hne : ∀ h ∈ s.hunks, h ≠ []) :
    (closed (evs.foldl editStep s)).flatten = (closed s).flatten ++ editsOf evs (s.aPos + 1) (s.bPos + 1) ∧
    ∀ h ∈ closed (evs.foldl editStep s), h ≠ [] := by
  induction evs generalizing s with
  | nil =>
    refine ⟨by simp [editsOf], fun h hh => ?_⟩
    unfold closed at hh
    rw [List.mem_reverse] at hh
    simp only [List.foldl_nil] at hh
    cases hs : s.hunk with
    | nil => simp only [hs] at hh; exact hne h hh
    | cons a l =>
      simp only [hs, List.isEmpty_cons, Bool.false_eq_true, if_false] at hh
      rcases List.mem_cons.1 hh with rfl | hh
      · simp
      · exact hne h hh
  | cons e evs ih =>
    rw [List.foldl_cons]
    cases e with
    | del x =>
      obtain ⟨i1, i2⟩ := ih (editStep s (.del x)) hne
      refine ⟨?_, i2⟩
      rw [i1, closed_flatten, closed_flatten]
      simp [editStep, evStep, editsOf]
    | ins y =>
      obtain ⟨i1, i2⟩ := ih (editStep s (.ins y)) hne
      refine ⟨?_, i2⟩
      rw [i1, closed_flatten, closed_flatten]
      simp [editStep, evStep, editsOf]
    | keep x y =>
      obtain ⟨i1, i2⟩ := ih (editStep s (.keep x y)) (by
        simp only [editStep, evStep]
        intro h hh
        cases hs : s.hunk with
        | nil => simp only [hs] at hh; exact hne h hh
        | cons a l =>
          rw [hs, if_neg (by simp)] at hh
          rcases List.mem_cons.1 hh with rfl | hh
          · simp
          · exact hne h hh)
      refine ⟨?_, i2⟩
      rw [i1, closed_flatten, closed_flatten]
      simp only [editStep, evStep, editsOf]
      cases hs : s.hunk with
      | nil => simp
      | cons a l => simp

theorem editsOf_pos (evs : List (Ev α)) (i j : Int) :
    (∀ p ∈ dels (editsOf evs i j), i ≤ p.1) ∧ (∀ p ∈ inss (editsOf evs i j), j ≤ p.1) := by
  induction evs generalizing i j with
  | nil => simp [editsOf, dels, inss]
  | cons e evs ih =>
    cases e with
    | del x =>
      obtain ⟨h1, h2⟩ := ih (i + 1) j
      refine ⟨?_, h2⟩
      intro p hp
      rcases List.mem_cons.1 hp with rfl | hp
      · simp
      · have := h1 p hp; omega
    | ins x =>
      obtain ⟨h1, h2⟩ := ih i (j + 1)
      refine ⟨h1, ?_⟩
      intro p hp
      rcases List.mem_cons.1 hp with rfl | hp
      · simp
      · have := h2 p hp; omega
    | keep x y =>
      obtain ⟨h1, h2⟩ := ih (i + 1) (j + 1)
      exact ⟨fun p hp => by have := h1 p hp; omega, fun p hp => by have := h2 p hp; omega⟩

theorem removeFrom_cons_lt (l : List α) (k m : Int) (ps : List Int) (h : m < k) :
    removeFrom k l (m :: ps) = removeFrom k l ps := by
  induction l generalizing k with
  | nil => rfl
  | cons a l ih =>
    rw [removeFrom, removeFrom, ih _ (by omega)]
    have : (k ∈ m :: ps) ↔ k ∈ ps := by
      rw [List.mem_cons]; constructor
      · rintro (rfl | h')
        · omega
        · exact h'
      · exact .inr
    simp only [this]

theorem editsOf_remove (evs : List (Ev α)) (i j : Int) :
    removeFrom i (Ev.source evs) ((dels (editsOf evs i j)).map (·.1)) = (Ev.kept evs).map (·.1) ∧
    removeFrom j (Ev.target evs) ((inss (editsOf evs i j)).map (·.1)) = (Ev.kept evs).map (·.2) := by
  induction evs generalizing i j with
  | nil => exact ⟨rfl, rfl⟩
  | cons e evs ih =>
    cases e with
    | del x =>
      obtain ⟨h1, h2⟩ := ih (i + 1) j
      refine ⟨?_, h2⟩
      simp only [editsOf, dels, Ev.source, Ev.kept, List.map_cons]
      rw [removeFrom, if_pos (by simp), removeFrom_cons_lt _ _ _ _ (by omega), h1]
    | ins x =>
      obtain ⟨h1, h2⟩ := ih i (j + 1)
      refine ⟨h1, ?_⟩
      simp only [editsOf, inss, Ev.target, Ev.kept, List.map_cons]
      rw [removeFrom, if_pos (by simp), removeFrom_cons_lt _ _ _ _ (by omega), h2]
    | keep x y =>
      obtain ⟨h1, h2⟩ := ih (i + 1) (j + 1)
      obtain ⟨g1, g2⟩ := editsOf_pos evs (i + 1) (j + 1)
      constructor
      · simp only [editsOf, Ev.source, Ev.kept, List.map_cons]
        rw [removeFrom, if_neg, h1]
        intro hc
        obtain ⟨p, hp, rfl⟩ := List.mem_map.1 hc
        have := g1 p hp; omega
      · simp only [editsOf, Ev.target, Ev.kept, List.map_cons]
        rw [removeFrom, if_neg, h2]
        intro hc
        obtain ⟨p, hp, rfl⟩ := List.mem_map.1 hc
        have := g2 p hp; omega

theorem editsOf_elts (evs : List (Ev α)) (i j : Int) :
    (∀ p ∈ dels (editsOf evs i j), (Ev.source evs)[(p.1 - i).toNat]? = some p.2) ∧
    (∀ p ∈ inss (editsOf evs i j), (Ev.target evs)[(p.1 - j).toNat]? = some p.2) := by
  induction evs generalizing i j with
  | nil => simp [editsOf, dels, inss]
  | cons e evs ih =>
    have shift : ∀ (z : α) (l : List α) (q k : Int), k + 1 ≤ q → (z :: l)[(q - k).toNat]? = l[(q - (k + 1)).toNat]? := by
      intro z l q k h
      have : (q - k).toNat = (q - (k + 1)).toNat + 1 := by omega
      rw [this, List.getElem?_cons_succ]
    cases e with
    | del x =>
      obtain ⟨h1, h2⟩ := ih (i + 1) j
      obtain ⟨g1, g2⟩ := editsOf_pos evs (i + 1) j
      refine ⟨?_, h2⟩
      intro p hp
      rcases List.mem_cons.1 hp with rfl | hp
      · simp [Ev.source]
      · rw [Ev.source, shift _ _ _ _ (g1 p hp), h1 p hp]
    | ins x =>
      obtain ⟨h1, h2⟩ := ih i (j + 1)
      obtain ⟨g1, g2⟩ := editsOf_pos evs i (j + 1)
      refine ⟨h1, ?_⟩
      intro p hp
      rcases List.mem_cons.1 hp with rfl | hp
      · simp [Ev.target]
      · rw [Ev.target, shift _ _ _ _ (g2 p hp), h2 p hp]
    | keep x y =>
      obtain ⟨h1, h2⟩ := ih (i + 1) (j + 1)
      obtain ⟨g1, g2⟩ := editsOf_pos evs (i + 1) (j + 1)
      refine ⟨fun p hp => ?_, fun p hp => ?_⟩
      · rw [Ev.source, shift _ _ _ _ (g1 p hp), h1 p hp]
      · rw [Ev.target, shift _ _ _ _ (g2 p hp), h2 p hp]

theorem editsOf_incr (evs : List (Ev α)) (i j : Int) :
    (dels (editsOf evs i j)).Pairwise (fun p q => p.1 < q.1) ∧ (inss (editsOf evs i j)).Pairwise (fun p q => p.1 < q.1) := by
  induction evs generalizing i j with
  | nil => simp [editsOf, dels, inss]
  | cons e evs ih =>
    cases e with
    | del x =>
      obtain ⟨h1, h2⟩ := ih (i + 1) j
      exact ⟨List.pairwise_cons.2 ⟨fun p hp => by have := (editsOf_pos evs (i + 1) j).1 p hp; simp only; omega, h1⟩, h2⟩
    | ins x =>
      obtain ⟨h1, h2⟩ := ih i (j + 1)
      exact ⟨h1, List.pairwise_cons.2 ⟨fun p hp => by have := (editsOf_pos evs i (j + 1)).2 p hp; simp only; omega, h2⟩⟩
    | keep x y => exact ih (i + 1) (j + 1)

theorem editsOf_count (evs : List (Ev α)) (i j : Int) :
    (dels (editsOf evs i j)).length + (Ev.kept evs).length = (Ev.source evs).length ∧
    (inss (editsOf evs i j)).length + (Ev.kept evs).length = (Ev.target evs).length := by
  induction evs generalizing i j with
  | nil => simp [editsOf, dels, inss, Ev.kept, Ev.source, Ev.target]
  | cons e evs ih =>
    cases e with
    | del x => have := ih (i + 1) j; simp [editsOf, dels, inss, Ev.kept, Ev.source, Ev.target]; omega
    | ins x => have := ih i (j + 1); simp [editsOf, dels, inss, Ev.kept, Ev.source, Ev.target]; omega
    | keep x y => have := ih (i + 1) (j + 1); simp [editsOf, dels, inss, Ev.kept, Ev.source, Ev.target]; omega

/-- **C40.**  `lcs-edit-list` returns non-empty hunks whose deletions name elements of the first sequence and whose
insertions name elements of the second, in increasing order of position.  Without the deleted elements the first
sequence has, element by element, the same elements as the second without the inserted ones; and no edit list can
do with fewer commands. -/
theorem C40_edit_list (eq : α → α → Bool) (a b : List α) : ∃ hunks, editList eq a b = some hunks ∧ (∀ h ∈ hunks, h ≠ []) ∧
    (∀ p ∈ dels hunks.flatten, 0 ≤ p.1 ∧ a[p.1.toNat]? = some p.2) ∧
    (∀ p ∈ inss hunks.flatten, 0 ≤ p.1 ∧ b[p.1.toNat]? = some p.2) ∧
    (dels hunks.flatten).Pairwise (fun p q => p.1 < q.1) ∧ (inss hunks.flatten).Pairwise (fun p q => p.1 < q.1) ∧
    List.Forall₂ (fun x y => eq x y = true) (removeFrom 0 a ((dels hunks.flatten).map (·.1)))
      (removeFrom 0 b ((inss hunks.flatten).map (·.1))) ∧
    ∀ ps, IsMatching eq a b ps →
      (dels hunks.flatten).length + (inss hunks.flatten).length + 2 * ps.length ≤ a.length + b.length := by
  obtain ⟨evs, e1, e2, e3, e4, e5⟩ := C40_fold eq a b
  obtain ⟨s1, s2⟩ := editStep_spec evs (⟨-1, -1, [], []⟩ : EditState α) (by simp)
  refine ⟨closed (evs.foldl editStep ⟨-1, -1, [], []⟩), ?_, s2, ?_⟩
  · unfold editList
    rw [e5]
    rfl
  · have hf : (closed (evs.foldl editStep (⟨-1, -1, [], []⟩ : EditState α))).flatten = editsOf evs 0 0 := by
      rw [s1]; simp [closed]
    rw [hf]
    obtain ⟨p1, p2⟩ := editsOf_pos evs 0 0
    obtain ⟨q1, q2⟩ := editsOf_elts evs 0 0
    obtain ⟨i1, i2⟩ := editsOf_incr evs 0 0
    obtain ⟨r1, r2⟩ := editsOf_remove evs 0 0
    obtain ⟨c1, c2⟩ := editsOf_count evs 0 0
    rw [e1] at q1 r1 c1
    rw [e2] at q2 r2 c2
    refine ⟨fun p hp => ⟨p1 p hp, ?_⟩, fun p hp => ⟨p2 p hp, ?_⟩, i1, i2, ?_, fun ps hps => ?_⟩
    · have := q1 p hp; rwa [Int.sub_zero] at this
    · have := q2 p hp; rwa [Int.sub_zero] at this
    · rw [r1, r2]
      rw [List.forall₂_map_left_iff, List.forall₂_map_right_iff]
      exact List.forall₂_same.2 e3
    · have := e4 ps hps; omega

/-! ### Examples -/

example : lcs (fun x y => decide (x = y)) [1, 2, 3, 1, 2, 2, 1] [3, 2, 1, 2, 1, 3] = some [3, 1, 2, 1] := by decide +kernel
example : editList (fun x y => decide (x = y)) [1, 2, 3] [2, 4, 3] = some [[.del 0 1], [.ins 1 4]] := by decide +kernel
example : IsMatching (fun x y => decide (x = y)) [1, 2, 3] [2, 4, 3] [(1, 0), (2, 2)] :=
  ⟨by decide, by
    intro p hp
    simp only [List.mem_cons, List.not_mem_nil, or_false] at hp
    rcases hp with rfl | rfl
    · exact ⟨2, 2, rfl, rfl, rfl⟩
    · exact ⟨3, 3, rfl, rfl, rfl⟩⟩

end Gauche.Lcs
