import Verif.Proof.SkewList
/-
Properties C08 and C09 for data.skew-list.

Specification: a skew-list denotes the list `toList s` (= what `skew-list->list` returns).
`Reach app s`: `s` is obtainable through the public operations; `app = false` restricts to
histories that do not use `skew-list-append`.
-/
namespace Gauche.SkewList

/-- Skew-lists obtainable by any history of public operations. -/
inductive Reach (app : Bool) : {α : Type} → SL α → Prop
  | null : Reach app ([] : SL α)
  | ofList {l : List α} {s} : ofList l = some s → Reach app s
  | cons {s : SL α} (x : α) : Reach app s → Reach app (cons x s)
  | cdr {s s' : SL α} : Reach app s → cdr s = some s' → Reach app s'
  | set {s s' : SL α} {i v} : Reach app s → set s i v = some s' → Reach app s'
  | map {α β : Type} {s : SL α} (g : α → β) : Reach app s → Reach app (map s g)
  | take {s s' : SL α} {k} : Reach app s → take s k = some s' → Reach app s'
  | drop {s s' : SL α} {k} : Reach app s → drop s k = some s' → Reach app s'
  | splitAt {s : SL α} {k p} : Reach app s → splitAt s k = some p → Reach app p.1
  | splitAt' {s : SL α} {k p} : Reach app s → splitAt s k = some p → Reach app p.2
  | append {s : SL α} {ss r} : app = true → Reach app s → (∀ t ∈ ss, Reach app t) →
      append s ss = some r → Reach app r

private theorem take_spec {s : SL α} (h : WF s) (k : Nat) :
    (take s k = none ↔ (elems s).length < k ∨ (StartsOneOne s ∧ ¬ IsPrefixSum s k)) ∧
    (∀ s', take s k = some s' → WF s' ∧ elems s' = (elems s).take k ∧ (Canon s → Canon s')) := by
  obtain ⟨h1, h2, h3⟩ := splitShared_spec h k
  unfold take
  cases hs : splitShared s k with
  | none => rw [hs] at h1; simpa using h1.1 rfl
  | some r =>
    rw [hs] at h1
    simp only [reduceCtorEq, false_iff] at h1
    cases r with
    | some p =>
      obtain ⟨a, b⟩ := p
      obtain ⟨e1, e2, e3, e4⟩ := h2 a b hs
      refine ⟨by simpa using h1, fun s' he => ?_⟩
      cases he
      exact ⟨e1, (take_drop_of_append e3 e4).1, fun hc => (splitShared_canon h hc hs).1⟩
    | none =>
      have hk := h3 hs
      have hl := lseq_spec h (a := 0) (e := k) (by omega) (by omega) (.inl rfl)
      obtain ⟨t, o1, o2, o3, _⟩ := ofList_spec (((elems s).drop 0).take (k - 0))
      simp only [bind, Option.bind, hl, o1]
      refine ⟨by simpa using h1, fun s' he => ?_⟩
      cases he
      exact ⟨o2, by simpa using o3, fun _ => ofList_canon o1⟩

private theorem drop_spec {s : SL α} (h : WF s) (k : Nat) :
    (drop s k = none ↔ (elems s).length < k ∨ (StartsOneOne s ∧ ¬ IsPrefixSum s k)) ∧
    (∀ s', drop s k = some s' → WF s' ∧ elems s' = (elems s).drop k ∧ (Canon s → Canon s')) := by
  obtain ⟨h1, h2, h3⟩ := splitShared_spec h k
  unfold drop
  cases hs : splitShared s k with
  | none => rw [hs] at h1; simpa using h1.1 rfl
  | some r =>
    rw [hs] at h1
    simp only [reduceCtorEq, false_iff] at h1
    cases r with
    | some p =>
      obtain ⟨a, b⟩ := p
      obtain ⟨e1, e2, e3, e4⟩ := h2 a b hs
      refine ⟨by simpa using h1, fun s' he => ?_⟩
      cases he
      exact ⟨e2, (take_drop_of_append e3 e4).2, fun hc => (splitShared_canon h hc hs).2⟩
    | none =>
      have hk := h3 hs
      have hl := lseq_spec h (a := k) (e := (elems s).length) (by omega) (by omega) (.inr hk)
      rw [← lseq_none_eq h, List.take_of_length_le (by simp)] at hl
      obtain ⟨t, o1, o2, o3, _⟩ := ofList_spec ((elems s).drop k)
      simp only [bind, Option.bind, hl, o1]
      refine ⟨by simpa using h1, fun s' he => ?_⟩
      cases he
      exact ⟨o2, o3, fun _ => ofList_canon o1⟩

private theorem splitAt_spec {s : SL α} (h : WF s) (k : Nat) :
    (splitAt s k = none ↔ (elems s).length < k ∨ (StartsOneOne s ∧ ¬ IsPrefixSum s k)) ∧
    (∀ a b, splitAt s k = some (a, b) → WF a ∧ WF b ∧ elems a = (elems s).take k ∧
      elems b = (elems s).drop k ∧ (Canon s → Canon a ∧ Canon b)) := by
  obtain ⟨h1, h2, h3⟩ := splitShared_spec h k
  unfold splitAt
  cases hs : splitShared s k with
  | none => rw [hs] at h1; simpa using h1.1 rfl
  | some r =>
    rw [hs] at h1
    simp only [reduceCtorEq, false_iff] at h1
    cases r with
    | some p =>
      obtain ⟨a, b⟩ := p
      obtain ⟨e1, e2, e3, e4⟩ := h2 a b hs
      refine ⟨by simpa using h1, fun a' b' he => ?_⟩
      cases he
      obtain ⟨f1, f2⟩ := take_drop_of_append e3 e4
      exact ⟨e1, e2, f1, f2, fun hc => splitShared_canon h hc hs⟩
    | none =>
      have hk := h3 hs
      obtain ⟨t, o1, o2, o3, _⟩ := ofList_spec ((elems s).take k)
      obtain ⟨u, p1, p2, p3, _⟩ := ofList_spec ((elems s).drop k)
      simp only [toList_eq, bind, Option.bind, o1, p1, if_pos (Nat.le_of_lt hk)]
      refine ⟨by simpa using h1, fun a b he => ?_⟩
      cases he
      exact ⟨o2, p2, o3, p3, fun _ => ⟨ofList_canon o1, ofList_canon p1⟩⟩

private theorem append2_spec {s1 s2 : SL α} (h1 : WF s1) (h2 : WF s2) (hne : s1 ≠ []) :
    (append2 s1 s2 = none ↔ s2 = [] ∧ 1 < (elems s1).length) ∧
    (∀ r, append2 s1 s2 = some r → WF r ∧ elems r = elems s1 ++ elems s2) := by
  have slow : ∃ t, slowAppend s1 s2 = some t ∧ WF t ∧ elems t = elems s1 ++ elems s2 := by
    obtain ⟨t, o1, o2, o3, _⟩ := ofList_spec (elems s1 ++ elems s2)
    exact ⟨t, by simp only [slowAppend, toList_eq]; exact o1, o2, o3⟩
  obtain ⟨t, o1, o2, o3⟩ := slow
  unfold append2
  split
  · next x =>
    refine ⟨by simp [Tree.elems], fun r he => ?_⟩
    cases he
    exact ⟨cons_wf h2 x, by rw [cons_elems]; simp [Tree.elems]⟩
  · next w0 t0 hno =>
    have hlen : 1 < (elems [(w0, t0)]).length := by
      simp only [wf_cons] at h1
      cases h1.1 with
      | leaf x => exact (hno x rfl rfl).elim
      | node a b => have := a.pos; simp [Tree.elems, a.length]; omega
    cases s2 with
    | nil => simp only [true_and]; exact ⟨by simpa using hlen, by simp⟩
    | cons p s2 =>
      obtain ⟨w1, t1⟩ := p
      simp only
      split
      · refine ⟨by simp, fun r he => ?_⟩
        cases he
        simp only [wf_cons] at h1 h2 ⊢
        exact ⟨⟨h1.1, h2⟩, by simp⟩
      · rw [o1]
        refine ⟨by simp, fun r he => ?_⟩
        cases he; exact ⟨o2, o3⟩
  · next hno1 hno2 =>
    have hlen : 1 < (elems s1).length := by
      match s1, hne with
      | [(w, t)], _ => exact absurd rfl (hno2 w t)
      | (w, t) :: (w', t') :: r, _ =>
        simp only [wf_cons] at h1
        have := h1.1.length; have := h1.2.1.length
        have := h1.1.pos; have := h1.2.1.pos
        simp; omega
    cases hl : s1.getLast? with
    | none => simp at hl; exact absurd hl hne
    | some q =>
      obtain ⟨wz, tz⟩ := q
      cases s2 with
      | nil => simp [hlen]
      | cons p s2 =>
        obtain ⟨w1, t1⟩ := p
        simp only
        split
        · refine ⟨by simp, fun r he => ?_⟩
          cases he
          exact ⟨wf_append.2 ⟨h1, h2⟩, by simp⟩
        · rw [o1]
          refine ⟨by simp, fun r he => ?_⟩
          cases he; exact ⟨o2, o3⟩

private theorem append_spec : ∀ (ss : List (SL α)) (s : SL α), WF s → (∀ t ∈ ss, WF t) →
    ∀ r, append s ss = some r → WF r ∧ elems r = elems s ++ (ss.map elems).flatten := by
  intro ss
  induction ss with
  | nil => intro s hs _ r h; simp [append] at h; subst h; exact ⟨hs, by simp⟩
  | cons s2 ss ih =>
    intro s hs hss r h
    unfold append at h
    split at h
    · next he =>
      simp [isEmpty] at he; subst he
      simpa using ih s2 (hss s2 (by simp)) (fun t ht => hss t (by simp [ht])) r h
    · next he =>
      cases ha : append s2 ss with
      | none => rw [ha] at h; cases h
      | some q =>
        rw [ha] at h
        obtain ⟨e1, e2⟩ := ih s2 (hss s2 (by simp)) (fun t ht => hss t (by simp [ht])) q ha
        obtain ⟨f1, f2⟩ := (append2_spec hs e1 (by intro hc; subst hc; simp [isEmpty] at he)).2 r h
        exact ⟨f1, by rw [f2, e2]; simp⟩

/-- Representation invariant of every reachable skew-list; canonical without append. -/
theorem reach_wf {app : Bool} {α : Type} {s : SL α} (h : Reach app s) :
    WF s ∧ (app = false → Canon s) := by
  induction h with
  | null => exact ⟨wf_nil, fun _ => canon_nil⟩
  | ofList h =>
    obtain ⟨t, o1, o2, o3, _⟩ := ofList_spec _
    rw [h] at o1; cases o1; exact ⟨o2, fun _ => ofList_canon h⟩
  | cons x _ ih => exact ⟨cons_wf ih.1 x, fun ha => cons_canon ih.1 (ih.2 ha) x⟩
  | cdr _ h ih =>
    rcases cdr_spec ih.1 with ⟨_, _, h3⟩ | ⟨t, d1, d2, _, _⟩
    · rw [h] at h3; cases h3
    · rw [h] at d1; cases d1; exact ⟨d2, fun ha => cdr_canon ih.1 (ih.2 ha) h⟩
  | @set _ s s' i v _ h ih =>
    by_cases hi : i < 0 ∨ (elems s).length ≤ i
    · rw [(set_eq ih.1 v i).1 hi] at h; cases h
    · obtain ⟨t, e1, e2, e3, _⟩ := (set_eq ih.1 v i).2 (by omega) (by omega)
      rw [h] at e1; cases e1
      exact ⟨e2, fun ha => canon_of_weights e3 (ih.2 ha)⟩
  | map g _ ih => exact ⟨map_wf ih.1 g, fun ha => canon_of_weights (by simp [map]) (ih.2 ha)⟩
  | @take _ s s' k _ h ih =>
    obtain ⟨a, _, c⟩ := (take_spec ih.1 k).2 _ h
    exact ⟨a, fun ha => c (ih.2 ha)⟩
  | @drop _ s s' k _ h ih =>
    obtain ⟨a, _, c⟩ := (drop_spec ih.1 k).2 _ h
    exact ⟨a, fun ha => c (ih.2 ha)⟩
  | @splitAt _ s k p _ h ih =>
    obtain ⟨a, b, _, _, c⟩ := (splitAt_spec ih.1 k).2 p.1 p.2 h
    exact ⟨a, fun ha => (c (ih.2 ha)).1⟩
  | @splitAt' _ s k p _ h ih =>
    obtain ⟨a, b, _, _, c⟩ := (splitAt_spec ih.1 k).2 p.1 p.2 h
    exact ⟨b, fun ha => (c (ih.2 ha)).2⟩
  | append happ _ _ h ih1 ih2 =>
    exact ⟨(append_spec _ _ ih1.1 (fun t ht => (ih2 t ht).1) _ h).1,
      fun ha => by rw [ha] at happ; cases happ⟩

section
variable {α β : Type} {app : Bool}

/-! ### C08 -/

/-- `list->skew-list` never fails and round-trips. -/
theorem skew_ofList (l : List α) : ∃ s, ofList l = some s ∧ toList s = l := by
  obtain ⟨s, h1, _, h3, _⟩ := ofList_spec l
  exact ⟨s, h1, by rw [toList_eq, h3]⟩
theorem skew_cons (s : SL α) (x : α) : toList (cons x s) = x :: toList s := by
  simp [toList_eq, cons_elems]
theorem skew_empty (s : SL α) : isEmpty s = true ↔ toList s = [] := by
  rw [toList_eq, elems_eq_nil]; simp [isEmpty]
/-- `skew-list-car` errors iff empty, else is the first element. -/
theorem skew_car (s : SL α) : car s = (toList s).head? := by rw [toList_eq, car_eq]
/-- `skew-list-cdr` errors iff empty, else denotes the tail. -/
theorem skew_cdr (s : SL α) (h : Reach app s) :
    (toList s = [] → cdr s = none) ∧
    (∀ x l, toList s = x :: l → ∃ s', cdr s = some s' ∧ toList s' = l) := by
  simp only [toList_eq]
  rcases cdr_spec (reach_wf h).1 with ⟨h1, h2, h3⟩ | ⟨t, d1, _, d3, d4⟩
  · exact ⟨fun _ => h3, fun x l he => by rw [h2] at he; cases he⟩
  · exact ⟨fun he => absurd he d3, fun x l he => ⟨t, d1, by rw [d4, he]; rfl⟩⟩
/-- `skew-list-ref`: the i-th element; `none` (error or fallback) exactly when i is negative or
past the end. -/
theorem skew_ref (s : SL α) (h : Reach app s) (i : Int) :
    ref s i = if i < 0 then none else (toList s)[i.toNat]? := by
  rw [toList_eq]; exact ref_eq (reach_wf h).1 i
/-- `skew-list-set`: functional update at i, error exactly when out of range. -/
theorem skew_set (s : SL α) (h : Reach app s) (i : Int) (v : α) :
    (i < 0 ∨ (toList s).length ≤ i → set s i v = none) ∧
    (0 ≤ i → i < (toList s).length → ∃ s', set s i v = some s' ∧
      toList s' = (toList s).set i.toNat v) := by
  simp only [toList_eq]
  obtain ⟨h1, h2⟩ := set_eq (reach_wf h).1 v i
  refine ⟨h1, fun a b => ?_⟩
  obtain ⟨s', e1, _, _, e4⟩ := h2 a b
  exact ⟨s', e1, e4⟩
theorem skew_length (s : SL α) (h : Reach app s) : length s = (toList s).length := by
  rw [toList_eq]; exact length_eq (reach_wf h).1
theorem skew_lengthLe (s : SL α) (h : Reach app s) (k : Int) :
    lengthLe k 0 s = true ↔ ((toList s).length : Int) ≤ k := by
  rw [toList_eq, lengthLe_eq (reach_wf h).1]; simp
theorem skew_fold (s : SL α) (g : α → β → β) (z : β) :
    fold s g z = (toList s).foldl (fun a x => g x a) z := by rw [toList_eq, fold_eq]
theorem skew_map (s : SL α) (g : α → β) : toList (map s g) = (toList s).map g := by
  rw [toList_eq, toList_eq, map_elems]
/-- The iterator over `[start, end)` delivers exactly the elements at those positions. -/
theorem skew_iterate (s : SL α) (h : Reach app s) (a e : Nat) (h1 : a ≤ e)
    (h2 : e ≤ (toList s).length) (h3 : a = 0 ∨ a < (toList s).length) :
    lseq s a (some e) = some (((toList s).drop a).take (e - a)) := by
  rw [toList_eq] at *; exact lseq_spec (reach_wf h).1 h1 h2 h3

/-! ### C09 -/

/- Full statement of C09 (false of the code, see the counterexamples below):
   for all k ≤ length, `take s k`, `drop s k`, `splitAt s k` succeed and denote the list
   operations; `append s ss` always succeeds and denotes concatenation; skew-lists with the same
   elements are structurally equal (`equal?`). -/

/-- Whenever `skew-list-take`, `-drop` or `-split-at` return a value it is the right one, and they raise
exactly when k exceeds the length, or when the forest begins with two singleton trees and k
falls inside a tree. -/
theorem skew_take_drop_partial (s : SL α) (h : Reach app s) (k : Nat) :
    (∀ s', take s k = some s' → toList s' = (toList s).take k) ∧
    (∀ s', drop s k = some s' → toList s' = (toList s).drop k) ∧
    (∀ a b, splitAt s k = some (a, b) → toList a = (toList s).take k ∧ toList b = (toList s).drop k) ∧
    (take s k = none ↔ (toList s).length < k ∨ (StartsOneOne s ∧ ¬ IsPrefixSum s k)) ∧
    (drop s k = none ↔ (toList s).length < k ∨ (StartsOneOne s ∧ ¬ IsPrefixSum s k)) ∧
    (splitAt s k = none ↔ (toList s).length < k ∨ (StartsOneOne s ∧ ¬ IsPrefixSum s k)) := by
  simp only [toList_eq]
  have hw := (reach_wf h).1
  obtain ⟨t1, t2⟩ := take_spec hw k
  obtain ⟨d1, d2⟩ := drop_spec hw k
  obtain ⟨p1, p2⟩ := splitAt_spec hw k
  refine ⟨fun s' he => (t2 s' he).2.1, fun s' he => (d2 s' he).2.1, fun a b he => ?_, t1, d1, p1⟩
  obtain ⟨_, _, e1, e2, _⟩ := p2 a b he
  exact ⟨e1, e2⟩

/-- Counterexample to C09 in the code: taking 3 of the 5-element list (a b c d e) raises
("no matching clause"), although 3 ≤ 5. -/
theorem skew_take_raises_in_range :
    ∃ s, ofList [1, 2, 3, 4, 5] = some s ∧ take s 3 = none ∧ drop s 3 = none ∧ splitAt s 3 = none := by
  refine ⟨[(1, .leaf 1), (1, .leaf 2), (3, .node 3 (.leaf 4) (.leaf 5))], by decide +kernel, by decide +kernel, by decide +kernel, by decide +kernel⟩

/-- Whenever `skew-list-append` returns, it denotes the concatenation. -/
theorem skew_append_partial (s : SL α) (ss : List (SL α)) (hs : Reach app s)
    (hss : ∀ t ∈ ss, Reach app t) (r : SL α) (h : append s ss = some r) :
    toList r = toList s ++ (ss.map toList).flatten := by
  have := (append_spec ss s (reach_wf hs).1 (fun t ht => (reach_wf (hss t ht)).1) r h).2
  have e : (toList : SL α → List α) = elems := funext toList_eq
  rw [e]; exact this

/-- Two-argument append raises exactly when the first list has at least two elements and the
second is empty. -/
theorem skew_append_raises_iff (s t : SL α) (hs : Reach app s) (ht : Reach app t) :
    append s [t] = none ↔ t = [] ∧ 1 < (toList s).length := by
  rw [toList_eq]
  unfold append
  split
  · next he => simp [isEmpty] at he; subst he; simp [append]
  · next he =>
    have := (append2_spec (reach_wf hs).1 (reach_wf ht).1
      (by intro hc; subst hc; simp [isEmpty] at he)).1
    simpa [append] using this

/-- Counterexample to C09 in the code: appending the empty skew-list to a 2-element one raises. -/
theorem skew_append_empty_raises :
    ∃ s : SL Nat, ofList [1, 2] = some s ∧ append s [[]] = none :=
  ⟨[(1, .leaf 1), (1, .leaf 2)], by decide +kernel, by decide +kernel⟩

/-- Without `skew-list-append` in the history, two skew-lists are structurally equal (`equal?`) iff
they have the same elements. -/
theorem skew_equal_partial (s t : SL α) (hs : Reach false s) (ht : Reach false t) :
    s = t ↔ toList s = toList t := by
  refine ⟨fun h => by rw [h], fun h => ?_⟩
  simp only [toList_eq] at h
  obtain ⟨w1, c1⟩ := reach_wf hs
  obtain ⟨w2, c2⟩ := reach_wf ht
  exact canon_unique _ s t w1 w2 (c1 rfl) (c2 rfl) h rfl

/-- Counterexample: after `skew-list-append`, equal contents need not be `equal?`. -/
theorem skew_append_breaks_equal :
    ∃ a b c d : SL Nat, ofList [1, 2, 3] = some a ∧ ofList [4, 5, 6, 7, 8, 9] = some b ∧
      append a [b] = some c ∧ ofList [1, 2, 3, 4, 5, 6, 7, 8, 9] = some d ∧
      toList c = toList d ∧ c ≠ d := by
  refine ⟨[(3, .node 1 (.leaf 2) (.leaf 3))],
    [(3, .node 4 (.leaf 5) (.leaf 6)), (3, .node 7 (.leaf 8) (.leaf 9))],
    [(3, .node 1 (.leaf 2) (.leaf 3)), (3, .node 4 (.leaf 5) (.leaf 6)),
      (3, .node 7 (.leaf 8) (.leaf 9))],
    [(1, .leaf 1), (1, .leaf 2),
      (7, .node 3 (.node 4 (.leaf 5) (.leaf 6)) (.node 7 (.leaf 8) (.leaf 9)))], ?_⟩
  decide +kernel
end

/-! ### Non-vacuity -/
example : ∃ s : SL Nat, Reach false s ∧ toList s = [10, 1, 2, 3, 4, 5] := by
  obtain ⟨s, h1, h2⟩ := skew_ofList [1, 2, 3, 4, 5]
  exact ⟨cons 10 s, .cons 10 (.ofList h1), by rw [skew_cons, h2]⟩
-- a non-trivial take that goes through the fallback path
example : ∃ s : SL Nat, ofList (List.range 9) = some s ∧ ∃ t, take s 4 = none ∧ take s 2 = some t := by
  obtain ⟨s, h, _⟩ := skew_ofList (List.range 9)
  have hs : s = [(1, .leaf 0), (1, .leaf 1),
      (7, .node 2 (.node 3 (.leaf 4) (.leaf 5)) (.node 6 (.leaf 7) (.leaf 8)))] := by
    have : ofList (List.range 9) = some [(1, .leaf 0), (1, .leaf 1),
      (7, .node 2 (.node 3 (.leaf 4) (.leaf 5)) (.node 6 (.leaf 7) (.leaf 8)))] := by decide +kernel
    rw [this] at h; cases h; rfl
  subst hs
  exact ⟨_, h, [(1, .leaf 0), (1, .leaf 1)], by decide +kernel, by decide +kernel⟩

end Gauche.SkewList
