import Verif.Proof.CharSet
/-! Complement, immutable sets, queries. -/
namespace Gauche.CharSet
open Gauche.TreeMap Gauche.OrdList Std

/-! ### Complement -/

/-- What the loop of `Scm_CharSetComplement` leaves: the gaps, and the last code covered. -/
def gaps : Nat → List (Nat × Nat) → List (Nat × Nat)
  | _, [] => []
  | last, e :: r => if last < e.1 - 1 then (last + 1, e.1 - 1) :: gaps e.2 r else gaps e.2 r
def lastOf : Nat → List (Nat × Nat) → Nat
  | last, [] => last
  | _, e :: r => lastOf e.2 r

theorem complLoop_eq : ∀ (fuel last : Nat) (lp : Bool) (t : T) (a b : List (Nat × Nat)), TInv t →
    elems t.root = a ++ b → (∀ x ∈ a, x.1 ≤ last) → (∃ B, last < B ∧ Canon B b) → b.length < fuel → t.num < intMax →
    ∃ t', complLoop fuel last lp t = some (t', lastOf last b, lp || !(gaps last b).isEmpty) ∧ TInv t' ∧
      elems t'.root = a ++ gaps last b := by
  intro fuel
  induction fuel with
  | zero => intro last lp t a b _ _ _ _ h; omega
  | succ fuel ih =>
    intro last lp t a b hi he ha hb hf hn
    obtain ⟨B, hB, hc⟩ := hb
    have hbk : ∀ x ∈ b, last < x.1 := fun x hx => by have := canon_mem hc x hx; omega
    unfold complLoop
    rw [succ_eq t hi he ha hbk]
    cases b with
    | nil => dsimp only [List.head?]; exact ⟨t, by simp [lastOf, gaps], hi, by simpa [gaps] using he⟩
    | cons e b =>
      dsimp only [List.head?]
      have hc0 := hc
      obtain ⟨q1, q2, q3, q4⟩ := hc
      have hak : ∀ x ∈ a, x.1 < e.1 := fun x hx => by have := ha x hx; omega
      have hbk2 : ∀ x ∈ b, e.1 < x.1 := fun x hx => by have := canon_mem q4 x hx; omega
      obtain ⟨t1, d1, d2, d3, d4⟩ := delete_eq t hi (k := e.1) (v := e.2) he hak hbk2
      rw [d1]
      dsimp only
      unfold gaps lastOf
      by_cases hg : last < e.1 - 1
      · rw [if_pos hg, if_pos hg]
        obtain ⟨t2, c1, c2, c3, c4⟩ := create_new t1 d2 (k := last + 1) (fun _ => e.1 - 1) d3
          (fun x hx => by have := ha x hx; omega) (fun x hx => by have := hbk2 x hx; omega) (by omega)
        rw [c1]
        obtain ⟨t', h1, h2, h3⟩ := ih e.2 true t2 (a ++ [(last + 1, e.1 - 1)]) b c2 (by rw [c3]; simp)
          (by intro x hx
              rcases List.mem_append.1 hx with hx | hx
              · have := ha x hx; omega
              · simp at hx; rw [hx]; dsimp only; omega)
          ⟨_, by omega, q4⟩ (by simp at hf; omega) (by omega)
        exact ⟨t', by rw [Option.bind_some, h1]; simp, h2, by rw [h3]; simp⟩
      · rw [if_neg hg, if_neg hg]
        obtain ⟨t', h1, h2, h3⟩ := ih e.2 lp t1 a b d2 d3
          (by intro x hx; have := ha x hx; omega) ⟨_, by omega, q4⟩ (by simp at hf; omega) (by omega)
        exact ⟨t', h1, h2, h3⟩

/-- The complement of a list of ranges. -/
def compl (last : Nat) (l : List (Nat × Nat)) : List (Nat × Nat) :=
  gaps last l ++ (if lastOf last l < charMax then [(lastOf last l + 1, charMax)] else [])

theorem compl_cons (last : Nat) (e) (l) : compl last (e :: l) =
    (if last < e.1 - 1 then [(last + 1, e.1 - 1)] else []) ++ compl e.2 l := by
  unfold compl
  rw [show gaps last (e :: l) = (if last < e.1 - 1 then (last + 1, e.1 - 1) :: gaps e.2 l else gaps e.2 l) from rfl,
    show lastOf last (e :: l) = lastOf e.2 l from rfl]
  split <;> simp

theorem compl_canon {l : List (Nat × Nat)} : ∀ {last : Nat}, Canon (last + 1) l → last ≤ charMax →
    Canon (last + 1) (compl last l) := by
  induction l with
  | nil =>
    intro last _ h
    unfold compl gaps lastOf
    split
    · exact ⟨Nat.le_refl _, by dsimp only; omega, Nat.le_refl _, trivial⟩
    · trivial
  | cons e l ih =>
    intro last hc h
    obtain ⟨q1, q2, q3, q4⟩ := hc
    have := ih (canon_mono q4 (by omega)) q3
    rw [compl_cons]
    split
    · exact ⟨Nat.le_refl _, by dsimp only; omega, by dsimp only; omega,
        canon_mono this (by dsimp only; omega)⟩
    · exact canon_mono this (by omega)

theorem compl_mem {l : List (Nat × Nat)} : ∀ {last : Nat}, Canon (last + 1) l → last ≤ charMax → ∀ c,
    last < c → c ≤ charMax → (MemR c (compl last l) ↔ ¬ MemR c l) := by
  induction l with
  | nil =>
    intro last _ h c h1 h2
    unfold compl gaps lastOf
    rw [if_pos (by omega)]
    simp; omega
  | cons e l ih =>
    intro last hc h c h1 h2
    obtain ⟨q1, q2, q3, q4⟩ := hc
    rw [compl_cons, memR_append, memR_cons]
    have hcan := compl_canon (last := e.2) (canon_mono q4 (by omega)) q3
    by_cases hce : e.2 < c
    · rw [ih (canon_mono q4 (by omega)) q3 c hce h2]
      split
      · have h5 : ¬ (last + 1 ≤ c ∧ c ≤ e.1 - 1) := by omega
        have h6 : ¬ (e.1 ≤ c ∧ c ≤ e.2) := by omega
        simp only [memR_cons, memR_nil, or_false]; tauto
      · have h6 : ¬ (e.1 ≤ c ∧ c ≤ e.2) := by omega
        simp only [memR_nil, false_or]; tauto
    · have hno : ¬ MemR c (compl e.2 l) := by
        rintro ⟨x, hx, h⟩; have := canon_mem hcan x hx; omega
      have hno2 : ¬ MemR c l := by
        rintro ⟨x, hx, h⟩; have := canon_mem q4 x hx; omega
      split
      · simp only [hno, hno2, memR_cons, memR_nil, or_false]; omega
      · have h6 : e.1 ≤ c ∧ c ≤ e.2 := by omega
        simp [hno, h6]

/-! ### Flat vectors -/

theorem flat_length (l : List (Nat × Nat)) : (flat l).length = l.length * 2 := by
  induction l with
  | nil => rfl
  | cons e l ih => simp [flat, ih]; omega

theorem flat_get (l : List (Nat × Nat)) : ∀ j : Nat, (flat l)[j * 2]? = l[j]?.map (·.1) ∧
    (flat l)[j * 2 + 1]? = l[j]?.map (·.2) := by
  induction l with
  | nil => intro j; simp [flat]
  | cons e l ih =>
    intro j
    cases j with
    | zero => simp [flat]
    | succ j =>
      have := ih j
      rw [show (j + 1) * 2 = j * 2 + 1 + 1 by omega]
      simp only [flat, List.getElem?_cons_succ]
      exact this

theorem pairs_flat (l : List (Nat × Nat)) : ∀ (fuel i : Nat), l.length - i < fuel →
    pairs (flat l) (l.length * 2) fuel (i * 2) = some (l.drop i) := by
  intro fuel
  induction fuel with
  | zero => intro i h; omega
  | succ fuel ih =>
    intro i h
    unfold pairs
    by_cases hi : l.length * 2 ≤ i * 2
    · rw [if_pos hi, List.drop_eq_nil_of_le (by omega)]
    · rw [if_neg hi, (flat_get l i).1, (flat_get l i).2]
      have hil : i < l.length := by omega
      rw [List.getElem?_eq_getElem hil]
      dsimp only [Option.map_some]
      rw [show i * 2 + 2 = (i + 1) * 2 by omega, ih (i + 1) (by omega)]
      rw [List.drop_eq_getElem_cons hil]; rfl

theorem pairs_flat' (l : List (Nat × Nat)) :
    pairs (flat l) (l.length * 2) (l.length * 2 + 1) 0 = some l := by
  have := pairs_flat l (l.length * 2 + 1) 0 (by omega)
  simpa using this

/-! ### Representation -/

/-- `cs` holds the ranges `rs`. -/
structure Rep (cs : CharSet) (rs : List (Nat × Nat)) : Prop where
  canon : Canon 128 rs
  flag : cs.largep = false → rs = []
  data : match cs.large with
    | .tree t => TInv t ∧ elems t.root = rs
    | .frozen size vec => vec = flat rs ∧ size = rs.length * 2

/-- The set of codes `cs` stands for, when it holds `rs`. -/
def Has (cs : CharSet) (rs : List (Nat × Nat)) (c : Nat) : Prop :=
  if c < 128 then cs.small c = true else MemR c rs

theorem raw_eq {cs rs} (h : Rep cs rs) : cs.rawRanges = some rs := by
  obtain ⟨s, lp, l⟩ := cs
  cases l with
  | tree t =>
    obtain ⟨h1, h2⟩ := h.data
    show treeEntries t = _
    rw [treeEntries_eq t h1, h2]
  | frozen size vec =>
    obtain ⟨rfl, rfl⟩ := h.data
    exact pairs_flat' rs

theorem iter_eq {cs rs} (h : Rep cs rs) : cs.iter = some rs := by
  have hr := raw_eq h
  obtain ⟨s, lp, l⟩ := cs
  cases lp with
  | false => rw [h.flag rfl]; rfl
  | true => cases l <;> exact hr

/-- The record keys of a frozen vector. -/
theorem search_flat {rs : List (Nat × Nat)} {b} (hc : Canon b rs) (key : Nat) :
    (∃ a v r, rs = a ++ (key, v) :: r ∧
      BinSearch.search (flat rs) (rs.length * 2) key 1 = some (.found (a.length * 2))) ∨
    (∃ a r, rs = a ++ r ∧ (∀ x ∈ a, x.1 < key) ∧ (∀ x ∈ r, key < x.1) ∧ ∃ ceil,
      BinSearch.search (flat rs) (rs.length * 2) key 1 =
        some (.miss (if a = [] then none else some ((a.length - 1) * 2)) ceil)) := by
  have hv : ∀ j < rs.length, (flat rs)[j * (1 + 1)]? = some ((rs.getD j (0, 0)).1) := by
    intro j hj
    rw [(flat_get rs j).1, List.getElem?_eq_getElem hj, List.getD_eq_getElem?_getD,
      List.getElem?_eq_getElem hj]
    rfl
  have hm : ∀ i j, i < j → j < rs.length → (rs.getD i (0, 0)).1 < (rs.getD j (0, 0)).1 := by
    intro i j hij hj
    have hs := canon_sorted hc
    have := List.pairwise_iff_getElem.1 hs i j (by omega) hj hij
    rw [Nat.compare_eq_lt] at this
    rw [List.getD_eq_getElem?_getD, List.getD_eq_getElem?_getD, List.getElem?_eq_getElem hj,
      List.getElem?_eq_getElem (by omega)]
    exact this
  have hgd : ∀ j (hj : j < rs.length), rs.getD j (0, 0) = rs[j] := by
    intro j hj
    rw [List.getD_eq_getElem?_getD, List.getElem?_eq_getElem hj]; rfl
  rcases BinSearch.search_spec (vec := flat rs) (len := rs.length * 2) (key := key) (skip := 1)
      (nume := rs.length) (by omega) hv hm with ⟨j, h1, h2, h3⟩ | ⟨m, h1, h2, h3, h4⟩
  · left
    refine ⟨rs.take j, rs[j].2, rs.drop (j + 1), ?_, ?_⟩
    · rw [hgd j h1] at h2
      have : (key, rs[j].2) = rs[j] := by rw [← h2]
      rw [this, ← List.drop_eq_getElem_cons h1, List.take_append_drop]
    · rw [h3, List.length_take, Nat.min_eq_left (by omega)]
  · right
    refine ⟨rs.take m, rs.drop m, (List.take_append_drop _ _).symm, ?_, ?_,
      (if m = rs.length then none else some (m * (1 + 1))), ?_⟩
    · intro x hx
      obtain ⟨i, hi, rfl⟩ := List.getElem_of_mem hx
      rw [List.length_take] at hi
      have := h2 i (by omega)
      rw [hgd i (by omega)] at this
      simpa using this
    · intro x hx
      obtain ⟨i, hi, rfl⟩ := List.getElem_of_mem hx
      rw [List.length_drop] at hi
      have := h3 (m + i) (by omega) (by omega)
      rw [hgd (m + i) (by omega)] at this
      simpa using this
    · rw [h4]
      have hiff : rs.take m = [] ↔ m = 0 := by
        rw [List.take_eq_nil_iff]
        constructor
        · rintro (h | h)
          · exact h
          · subst h; simpa using h1
        · exact Or.inl
      by_cases hm0 : m = 0
      · subst hm0; rfl
      · have := mt hiff.1 hm0
        simp only [this, if_false, hm0, List.length_take, Nat.min_eq_left h1]

/-- Membership by the greatest range that starts at or before `c`. -/
theorem memR_floor {a r : List (Nat × Nat)} {b c : Nat} (hc : Canon b (a ++ r)) (ha : ∀ x ∈ a, x.1 ≤ c)
    (hr : ∀ x ∈ r, c < x.1) : MemR c (a ++ r) ↔ ∃ e, a.getLast? = some e ∧ c ≤ e.2 := by
  rw [memR_append]
  have h1 : ¬ MemR c r := by rintro ⟨x, hx, h⟩; have := hr x hx; omega
  simp only [h1, or_false]
  constructor
  · rintro ⟨e, he, h⟩
    obtain ⟨p, q, rfl⟩ := List.append_of_mem he
    cases q with
    | nil => exact ⟨e, by simp, h.2⟩
    | cons y q =>
      exfalso
      have := ha y (by simp)
      rw [show (p ++ e :: y :: q) ++ r = (p ++ [e]) ++ y :: (q ++ r) by simp] at hc
      have := (canon_append.1 hc).2.2.1 e (by simp)
      omega
  · rintro ⟨e, he, h⟩
    exact ⟨e, List.mem_of_getLast? he, ha e (List.mem_of_getLast? he), h⟩

/-- A range is contained iff it is contained in the range at or before its start. -/
theorem range_floor {a r : List (Nat × Nat)} {b lo hi : Nat} (hc : Canon b (a ++ r)) (ha : ∀ x ∈ a, x.1 ≤ lo)
    (hr : ∀ x ∈ r, lo < x.1) (hlh : lo ≤ hi) :
    (∀ c, lo ≤ c → c ≤ hi → MemR c (a ++ r)) ↔ ∃ e, a.getLast? = some e ∧ hi ≤ e.2 := by
  constructor
  · intro h
    obtain ⟨e, h1, h2⟩ := (memR_floor hc ha hr).1 (h lo (Nat.le_refl _) hlh)
    refine ⟨e, h1, ?_⟩
    by_contra hcon
    obtain ⟨x, hx, h3⟩ := h (e.2 + 1) (by omega) (by omega)
    obtain ⟨p, rfl⟩ := List.getLast?_eq_some_iff.1 h1
    rw [List.append_assoc, List.singleton_append] at hc hx
    obtain ⟨q1, q2, q3, q4, q5, q6⟩ := canon_append.1 hc
    rcases List.mem_append.1 hx with hx | hx
    · have := q3 x hx; omega
    · rcases List.mem_cons.1 hx with rfl | hx
      · omega
      · have := canon_mem q6 x hx; omega
  · rintro ⟨e, h1, h2⟩ c hc1 hc2
    have hm := List.mem_of_getLast? h1
    exact ⟨e, by simp [hm], by have := ha e hm; omega, by omega⟩

/-! ### Queries -/

theorem last_getElem {a r : List (Nat × Nat)} (ha : a ≠ []) :
    (flat (a ++ r))[(a.length - 1) * 2 + 1]? = a.getLast?.map (·.2) := by
  have hl : 0 < a.length := List.length_pos_iff.2 ha
  rw [(flat_get (a ++ r) (a.length - 1)).2, List.getElem?_append_left (by omega),
    List.getLast?_eq_getElem?]

theorem contains_spec {cs rs} (h : Rep cs rs) (c : Nat) : ∃ b, cs.contains c = some b ∧ (b = true ↔ Has cs rs c) := by
  unfold CharSet.contains Has
  by_cases hs : c < 128
  · rw [if_pos (show c < smallChars from hs), if_pos hs]; exact ⟨_, rfl, Iff.rfl⟩
  · rw [if_neg (show ¬ c < smallChars from hs), if_neg hs]
    obtain ⟨s, lp, l⟩ := cs
    cases l with
    | tree t =>
      obtain ⟨h1, h2⟩ := h.data
      dsimp only
      obtain ⟨n1, n2, _⟩ := near_eq t h1 c
      have hcan := h.canon
      obtain ⟨a, b, he, ha, hb⟩ := split_at h1.2.1 c
      rw [he, below_split ha hb] at n2
      rw [h2] at he
      by_cases hex : ∃ v, getL compare c rs = some (c, v)
      · obtain ⟨v, hv⟩ := hex
        rw [h2, hv] at n1
        generalize coreNear compare c t.root [] = r at *
        obtain ⟨e, lo, hi'⟩ := r
        cases e with
        | none => cases n1
        | some e =>
          refine ⟨true, rfl, fun _ => ?_, fun _ => rfl⟩
          have hm := ((getL_eq_some (canon_sorted hcan)).1 hv).1
          exact ⟨_, hm, Nat.le_refl _, (canon_mem hcan _ hm).2.1⟩
      · have hnone : getL compare c rs = none := by
          cases hg : getL compare c rs with
          | none => rfl
          | some e =>
            have h3 := ((getL_eq_some (canon_sorted hcan)).1 hg).2
            rw [Nat.compare_eq_eq] at h3
            exact absurd ⟨e.2, by rw [hg, ← h3]⟩ hex
        have hb' : ∀ x ∈ b, c < x.1 := by
          intro x hx
          have h3 := hb x hx
          have h4 := getL_eq_none.1 hnone x (by rw [he]; simp [hx])
          rw [Ne, Nat.compare_eq_eq] at h4
          omega
        have hmf := memR_floor (a := a) (r := b) (c := c) (by rw [← he]; exact hcan)
          (fun x hx => (ha x hx).le) hb'
        rw [h2, hnone] at n1
        rw [← he] at hmf
        rw [hmf]
        generalize coreNear compare c t.root [] = r at *
        obtain ⟨e, lo, hi'⟩ := r
        cases e with
        | some e => cases n1
        | none =>
          cases lo with
          | none => dsimp only at n2 ⊢; exact ⟨_, rfl, by rw [← n2]; simp⟩
          | some lo =>
            dsimp only [Option.map_some] at n2 ⊢
            refine ⟨_, rfl, ?_⟩
            rw [← n2]; simp [Loc.entry]
    | frozen size vec =>
      obtain ⟨rfl, rfl⟩ := h.data
      dsimp only
      have hcan := h.canon
      by_cases h2 : rs.length * 2 = 2
      · rw [if_pos h2]
        obtain ⟨e, rfl⟩ := List.length_eq_one_iff.1 (show rs.length = 1 by omega)
        refine ⟨_, rfl, ?_⟩
        simp [MemR]
      · rw [if_neg h2]
        rcases search_flat hcan c with ⟨a, v, r, e1, e2⟩ | ⟨a, r, e1, ha, hr, ceil, e2⟩
        · rw [e2]
          refine ⟨true, rfl, fun _ => ?_, fun _ => rfl⟩
          have hm : (c, v) ∈ rs := by rw [e1]; simp
          exact ⟨_, hm, Nat.le_refl _, (canon_mem hcan _ hm).2.1⟩
        · rw [e2]
          have hmf := memR_floor (a := a) (r := r) (c := c) (by rw [← e1]; exact hcan)
            (fun x hx => (ha x hx).le) hr
          rw [← e1] at hmf
          rw [hmf]
          by_cases ha0 : a = []
          · rw [if_pos ha0]
            exact ⟨false, rfl, by simp [ha0]⟩
          · rw [if_neg ha0]
            dsimp only
            rw [e1, last_getElem ha0]
            obtain ⟨e, he⟩ : ∃ e, a.getLast? = some e := by
              cases hl : a.getLast? with
              | none => simp at hl; exact absurd hl ha0
              | some e => exact ⟨e, rfl⟩
            rw [he]
            exact ⟨_, rfl, by simp⟩

theorem containsRange_spec {cs rs} (h : Rep cs rs) {lo hi : Nat} (hlh : lo ≤ hi) :
    ∃ b, cs.containsRange lo hi = some b ∧ (b = true ↔ ∀ c, lo ≤ c → c ≤ hi → MemR c rs) := by
  unfold CharSet.containsRange
  have hcan := h.canon
  by_cases hlp : cs.largep = true
  · rw [if_pos hlp]
    obtain ⟨s, lp, l⟩ := cs
    cases l with
    | tree t =>
      obtain ⟨h1, h2⟩ := h.data
      dsimp only
      obtain ⟨n1, n2, _⟩ := near_eq t h1 lo
      obtain ⟨a, b, he, ha, hb⟩ := split_at h1.2.1 lo
      rw [he, below_split ha hb] at n2
      rw [h2] at he n1
      by_cases hex : ∃ v b', b = (lo, v) :: b'
      · obtain ⟨v, b', rfl⟩ := hex
        rw [he, getL_split_some ha] at n1
        have hcan' := hcan
        rw [he] at hcan'
        have hcan2 : Canon 128 ((a ++ [(lo, v)]) ++ b') := by rw [List.append_assoc]; exact hcan'
        obtain ⟨q1, q2, q3, q4, q5, q6⟩ := canon_append.1 hcan'
        have := range_floor hcan2
          (by intro x hx
              rcases List.mem_append.1 hx with hx | hx
              · exact (ha x hx).le
              · simp at hx; simp [hx])
          (by intro x hx; have := canon_mem q6 x hx; dsimp only at q4; omega) hlh
        rw [List.append_assoc, List.singleton_append, ← he] at this
        rw [this]
        generalize coreNear compare lo t.root [] = r at *
        obtain ⟨e, lo', hi'⟩ := r
        cases e with
        | none => cases n1
        | some e =>
          simp only [Option.map_some, Option.some.injEq] at n1
          refine ⟨_, rfl, ?_⟩
          have : e.v = v := congrArg Prod.snd n1
          rw [this]; simp
      · have hb' : ∀ x ∈ b, lo < x.1 := by
          have hs : Sorted compare b := by
            have := h1.2.1; rw [h2, he] at this; exact (sorted_append.1 this).2.1
          intro x hx
          have h1 := hb x hx
          by_cases h2 : lo = x.1
          · exfalso
            cases b with
            | nil => cases hx
            | cons y b =>
              rcases List.mem_cons.1 hx with rfl | hx
              · exact hex ⟨x.2, b, by rw [h2]⟩
              · have h3 := (List.pairwise_cons.1 hs).1 x hx
                rw [Nat.compare_eq_lt] at h3
                have := hb y (by simp)
                omega
          · omega
        rw [he, getL_split_none ha hb'] at n1
        have := range_floor (a := a) (r := b) (by rw [← he]; exact hcan) (fun x hx => (ha x hx).le) hb' hlh
        rw [← he] at this
        rw [this]
        generalize coreNear compare lo t.root [] = r at *
        obtain ⟨e, lo', hi'⟩ := r
        cases e with
        | some e => cases n1
        | none =>
          cases lo' with
          | none => dsimp only at n2 ⊢; exact ⟨_, rfl, by rw [← n2]; simp⟩
          | some lo' =>
            dsimp only [Option.map_some] at n2 ⊢
            refine ⟨_, rfl, ?_⟩
            rw [← n2]; simp [Loc.entry]
    | frozen size vec =>
      obtain ⟨rfl, rfl⟩ := h.data
      dsimp only
      rcases search_flat hcan lo with ⟨a, v, r, e1, e2⟩ | ⟨a, r, e1, ha, hr, ceil, e2⟩
      · rw [e2]
        dsimp only
        have hcan' := hcan
        rw [e1] at hcan'
        have hcan2 : Canon 128 ((a ++ [(lo, v)]) ++ r) := by rw [List.append_assoc]; exact hcan'
        obtain ⟨q1, q2, q3, q4, q5, q6⟩ := canon_append.1 hcan'
        have := range_floor hcan2
          (by intro x hx
              rcases List.mem_append.1 hx with hx | hx
              · have := q3 x hx; have := canon_mem q1 x hx; dsimp only at *; omega
              · simp at hx; simp [hx])
          (by intro x hx; have := canon_mem q6 x hx; dsimp only at q4; omega) hlh
        rw [List.append_assoc, List.singleton_append, ← e1] at this
        rw [this, (flat_get rs a.length).2, e1, List.getElem?_append_right (Nat.le_refl _),
          Nat.sub_self]
        exact ⟨_, rfl, by simp⟩
      · rw [e2]
        have := range_floor (a := a) (r := r) (by rw [← e1]; exact hcan) (fun x hx => (ha x hx).le) hr hlh
        rw [← e1] at this
        rw [this]
        by_cases ha0 : a = []
        · rw [if_pos ha0]
          exact ⟨false, rfl, by simp [ha0]⟩
        · rw [if_neg ha0]
          dsimp only
          rw [e1, last_getElem ha0]
          obtain ⟨e, he⟩ : ∃ e, a.getLast? = some e := by
            cases hl : a.getLast? with
            | none => simp at hl; exact absurd hl ha0
            | some e => exact ⟨e, rfl⟩
          rw [he]
          exact ⟨_, rfl, by simp⟩
  · rw [if_neg hlp]
    refine ⟨false, rfl, ?_⟩
    rw [h.flag (by simpa using hlp)]
    simp only [Bool.false_eq_true, memR_nil, false_iff]
    intro hh
    exact hh lo (Nat.le_refl _) hlh
end Gauche.CharSet
