import Verif.Model.IDeque
import Mathlib.Data.List.TakeDrop
/- Helper lemmas for data.ideque. -/
namespace Gauche.IDeque

/-- The representation invariant (internal): recorded lengths are right and chains balanced. -/
structure Inv (d : DQ α) : Prop where
  hf : d.lenf = d.f.length
  hr : d.lenr = d.r.length
  bf : d.lenf ≤ 3 * d.lenr + 1
  br : d.lenr ≤ 3 * d.lenf + 1

theorem check_spec (f r : List α) :
    ∃ d, check f.length f r.length r = some d ∧ Inv d ∧ toList d = f ++ r.reverse := by
  unfold check
  split
  · next h =>
    have h1 : (f.length + r.length) / 2 ≤ f.length := by simp only [C] at h; omega
    refine ⟨_, by simp [takeE, dropE, h1]; rfl, ⟨?_, ?_, ?_, ?_⟩, ?_⟩
    · simp; omega
    · simp; simp only [C] at h; omega
    · simp only [C] at h; dsimp; omega
    · simp only [C] at h; dsimp; omega
    · simp only [toList, List.reverse_append, List.reverse_reverse]
      rw [← List.append_assoc, List.take_append_drop]
  · split
    · next h =>
      have h1 : (f.length + r.length) / 2 ≤ r.length := by simp only [C] at h; omega
      refine ⟨_, by simp [takeE, dropE, h1]; rfl, ⟨?_, ?_, ?_, ?_⟩, ?_⟩
      · simp; simp only [C] at h; omega
      · simp; omega
      · simp only [C] at h; dsimp; omega
      · simp only [C] at h; dsimp; omega
      · simp only [toList, List.append_assoc]
        rw [← List.reverse_append, List.take_append_drop]
    · next h1 h2 =>
      refine ⟨_, rfl, ⟨rfl, rfl, ?_, ?_⟩, rfl⟩ <;> simp only [C] at h1 h2 <;> dsimp <;> omega

theorem check_spec' {n m : Nat} (f r : List α) (hn : n = f.length) (hm : m = r.length) :
    ∃ d, check n f m r = some d ∧ Inv d ∧ toList d = f ++ r.reverse := by
  subst hn hm; exact check_spec f r

theorem inv_empty : Inv (empty : DQ α) := ⟨rfl, rfl, by simp [empty], by simp [empty]⟩

/-- `o` succeeds with a deque satisfying the invariant and denoting `l`. -/
def Yields (o : Option (DQ α)) (l : List α) : Prop := ∃ d, o = some d ∧ Inv d ∧ toList d = l

theorem check_yields {n m : Nat} {f r : List α} {l} (hn : n = f.length) (hm : m = r.length)
    (hl : f ++ r.reverse = l) : Yields (check n f m r) l := by
  obtain ⟨d, h1, h2, h3⟩ := check_spec' f r hn hm
  exact ⟨d, h1, h2, h3.trans hl⟩

theorem inv_make (n : Nat) (x : α) : Inv (make n x) := by
  constructor <;> simp [make] <;> omega

theorem toList_make (n : Nat) (x : α) : toList (make n x) = List.replicate n x := by
  simp only [toList, make, List.reverse_replicate, List.replicate_append_replicate]
  congr 1; omega

theorem ofList_yields (l : List α) : Yields (ofList l) l :=
  check_yields rfl rfl (by simp)

theorem inv_tabulate (n : Nat) (g : Nat → α) : Inv (tabulate n g) := by
  constructor <;> simp [tabulate] <;> omega

theorem toList_tabulate (n : Nat) (g : Nat → α) : toList (tabulate n g) = (List.range n).map g := by
  apply List.ext_getElem
  · simp [toList, tabulate]; omega
  · intro i h1 h2
    simp only [toList, tabulate, List.length_append, List.length_map, List.length_range,
      List.length_reverse] at h1
    simp only [toList, tabulate, List.getElem_map, List.getElem_range]
    by_cases h : i < n / 2
    · rw [List.getElem_append_left (by simpa using h)]; simp
    · rw [List.getElem_append_right (by simpa using h)]
      simp only [List.length_map, List.length_range, List.getElem_reverse, List.getElem_map,
        List.getElem_range]
      congr 1; omega

theorem isEmpty_iff {d : DQ α} (h : Inv d) : isEmpty d = true ↔ toList d = [] := by
  obtain ⟨hf, hr, _, _⟩ := h
  simp [isEmpty, toList, hf, hr]

theorem addFront_yields {d : DQ α} (h : Inv d) (x : α) : Yields (addFront d x) (x :: toList d) :=
  check_yields (by simp [h.hf]) h.hr (by simp [toList])

theorem addBack_yields {d : DQ α} (h : Inv d) (x : α) : Yields (addBack d x) (toList d ++ [x]) :=
  check_yields h.hf (by simp [h.hr]) (by simp [toList])

theorem front_eq {d : DQ α} (h : Inv d) : front d = (toList d).head? := by
  obtain ⟨lf, f, lr, r⟩ := d
  obtain ⟨hf, hr, bf, br⟩ := h
  simp only at hf hr bf br
  unfold front toList
  rcases f with _ | ⟨x, f⟩
  · simp at hf; subst hf
    rcases r with _ | ⟨y, r⟩
    · simp at hr; simp [hr]
    · rcases r with _ | ⟨z, r⟩
      · simp at hr; simp [hr, carE]
      · simp at hr; omega
  · simp at hf; simp [hf, carE]

theorem back_eq {d : DQ α} (h : Inv d) : back d = (toList d).getLast? := by
  obtain ⟨lf, f, lr, r⟩ := d
  obtain ⟨hf, hr, bf, br⟩ := h
  simp only at hf hr bf br
  unfold back toList
  rcases r with _ | ⟨x, r⟩
  · simp at hr; subst hr
    rcases f with _ | ⟨y, f⟩
    · simp at hf; simp [hf]
    · rcases f with _ | ⟨z, f⟩
      · simp at hf; simp [hf, carE]
      · simp at hf; omega
  · simp at hr; simp [hr, carE]

theorem removeFront_nil {d : DQ α} (h : Inv d) (he : toList d = []) : removeFront d = none := by
  obtain ⟨hf, hr, bf, br⟩ := h
  simp [toList] at he
  simp [removeFront, hf, hr, he]

theorem removeFront_yields {d : DQ α} (h : Inv d) (he : toList d ≠ []) :
    Yields (removeFront d) (toList d).tail := by
  obtain ⟨lf, f, lr, r⟩ := d
  obtain ⟨hf, hr, bf, br⟩ := h
  simp only at hf hr bf br
  unfold removeFront
  rcases f with _ | ⟨x, f⟩
  · simp at hf; subst hf
    rcases r with _ | ⟨y, r⟩
    · simp [toList] at he
    · rcases r with _ | ⟨z, r⟩
      · simp at hr; subst hr; exact ⟨_, rfl, inv_empty, rfl⟩
      · simp at hr; omega
  · simp at hf; subst hf
    simp only [Nat.add_eq_zero_iff, Nat.succ_ne_self, and_false, if_false, cdrE]
    exact check_yields (by simp) hr (by simp [toList])

theorem removeBack_nil {d : DQ α} (h : Inv d) (he : toList d = []) : removeBack d = none := by
  obtain ⟨hf, hr, bf, br⟩ := h
  simp [toList] at he
  simp [removeBack, hf, hr, he]

theorem removeBack_yields {d : DQ α} (h : Inv d) (he : toList d ≠ []) :
    Yields (removeBack d) (toList d).dropLast := by
  obtain ⟨lf, f, lr, r⟩ := d
  obtain ⟨hf, hr, bf, br⟩ := h
  simp only at hf hr bf br
  unfold removeBack
  rcases r with _ | ⟨x, r⟩
  · simp at hr; subst hr
    rcases f with _ | ⟨y, f⟩
    · simp [toList] at he
    · rcases f with _ | ⟨z, f⟩
      · simp at hf; subst hf; exact ⟨_, rfl, inv_empty, rfl⟩
      · simp at hf; omega
  · simp at hr; subst hr
    simp only [Nat.add_eq_zero_iff, Nat.succ_ne_self, and_false, if_false, cdrE]
    exact check_yields hf (by simp) (by simp [toList])

theorem inv_reverse {d : DQ α} (h : Inv d) : Inv (reverse d) := by
  unfold reverse; split
  · exact inv_empty
  · exact ⟨h.hr, h.hf, h.br, h.bf⟩

theorem toList_reverse {d : DQ α} (h : Inv d) : toList (reverse d) = (toList d).reverse := by
  unfold reverse; split
  · next he => rw [(isEmpty_iff h).1 he]; rfl
  · simp [toList]

theorem length_eq {d : DQ α} (h : Inv d) : length d = (toList d).length := by
  simp [length, toList, h.hf, h.hr]

theorem ref_eq {d : DQ α} (h : Inv d) (n : Int) :
    ref d n = if n < 0 then none else (toList d)[n.toNat]? := by
  obtain ⟨lf, f, lr, r⟩ := d
  obtain ⟨hf, hr, -, -⟩ := h
  simp only at hf hr; subst hf hr
  simp only [ref, listRefE, toList]
  by_cases h0 : n < 0
  · simp [h0]
  · obtain ⟨k, rfl⟩ := Int.eq_ofNat_of_zero_le (Int.not_lt.1 h0)
    simp only [h0, false_or, if_false, Int.toNat_natCast]
    split
    · rw [List.getElem?_eq_none]; simp; omega
    · split
      · rw [List.getElem?_append_left (by omega)]
      · next h1 h2 =>
        rw [List.getElem?_append_right (by omega), List.getElem?_reverse (by omega)]
        congr 1; omega

theorem take'_yields {d : DQ α} (h : Inv d) {n : Nat} (hn : n ≤ length d) :
    Yields (take' d n) ((toList d).take n) := by
  obtain ⟨lf, f, lr, r⟩ := d
  obtain ⟨hf, hr, -, -⟩ := h
  simp only at hf hr; subst hf hr
  simp only [length] at hn
  unfold take'
  dsimp only
  split
  · next h1 =>
    simp only [takeE, h1, if_true]
    exact check_yields (by simp; omega) rfl (by simp [toList, List.take_append_of_le_length h1])
  · next h1 =>
    have h2 : n - f.length ≤ r.length := by omega
    simp only [takeRightE, h2, if_true]
    refine check_yields rfl (by simp; omega) ?_
    simp only [toList]
    rw [List.take_append, List.take_of_length_le (by omega), List.reverse_drop]
    congr 2; omega

theorem drop'_yields {d : DQ α} (h : Inv d) {n : Nat} (hn : n ≤ length d) :
    Yields (drop' d n) ((toList d).drop n) := by
  obtain ⟨lf, f, lr, r⟩ := d
  obtain ⟨hf, hr, -, -⟩ := h
  simp only at hf hr; subst hf hr
  simp only [length] at hn
  unfold drop'
  dsimp only
  split
  · next h1 =>
    simp only [dropE, h1, if_true]
    exact check_yields (by simp) rfl (by simp [toList, List.drop_append_of_le_length h1])
  · next h1 =>
    have h2 : r.length - (n - f.length) ≤ r.length := by omega
    simp only [takeE, h2, if_true]
    refine check_yields (n := 0) (f := []) (m := r.length - (n - f.length))
      (r := r.take (r.length - (n - f.length))) rfl (by rw [List.length_take]; omega) ?_
    simp only [toList]
    rw [List.drop_append, List.drop_of_length_le (by omega), List.reverse_take]
    congr 2; omega

theorem inv_map {d : DQ α} (h : Inv d) (g : α → β) : Inv (map g d) :=
  ⟨by simp [map, h.hf], by simp [map, h.hr], by simpa [map] using h.bf, by simpa [map] using h.br⟩

theorem toList_map (d : DQ α) (g : α → β) : toList (map g d) = (toList d).map g := by
  simp [toList, map]

theorem span_eq (p : α → Bool) (l : List α) : l.span p = (l.takeWhile p, l.dropWhile p) :=
  List.span_eq_takeWhile_dropWhile ..

theorem takeWhile_yields {d : DQ α} (h : Inv d) (p : α → Bool) :
    Yields (takeWhile p d) ((toList d).takeWhile p) := by
  unfold takeWhile
  simp only [span_eq]
  split
  · next he =>
    simp only [List.isEmpty_iff] at he
    have ha : d.f.takeWhile p = d.f := by
      have := List.takeWhile_append_dropWhile (p := p) (l := d.f); rw [he] at this; simpa using this
    refine check_yields h.hf (by simp) ?_
    simp only [toList, List.takeWhile_append, ha, List.reverse_reverse, if_true]
  · next he =>
    refine check_yields rfl rfl ?_
    simp only [List.isEmpty_iff] at he
    have ha : (d.f.takeWhile p).length ≠ d.f.length := by
      intro hc
      apply he
      have h1 := List.takeWhile_append_dropWhile (p := p) (l := d.f)
      have h2 := congrArg List.length h1
      simp only [List.length_append] at h2
      exact List.length_eq_zero_iff.1 (by omega)
    simp [toList, List.takeWhile_append, ha]

theorem dropWhile_yields {d : DQ α} (h : Inv d) (p : α → Bool) :
    Yields (dropWhile p d) ((toList d).dropWhile p) := by
  unfold dropWhile
  simp only [span_eq]
  split
  · next he =>
    refine check_yields rfl rfl ?_
    simp only [List.isEmpty_iff] at he
    simp [toList, List.dropWhile_append, he]
  · next he =>
    refine check_yields rfl h.hr ?_
    simp only [toList, List.dropWhile_append]
    rw [if_neg he]

theorem span_yields {d : DQ α} (h : Inv d) (p : α → Bool) :
    ∃ a b, span p d = some (a, b) ∧ Inv a ∧ Inv b ∧ toList a = (toList d).takeWhile p
      ∧ toList b = (toList d).dropWhile p := by
  have h1 := takeWhile_yields h p
  have h2 := dropWhile_yields h p
  unfold span
  unfold takeWhile at h1
  unfold dropWhile at h2
  simp only [span_eq] at h1 h2 ⊢
  split
  · next he =>
    have ha : d.f.takeWhile p = d.f := by
      simp only [List.isEmpty_iff] at he
      have := List.takeWhile_append_dropWhile (p := p) (l := d.f); rw [he] at this; simpa using this
    simp only [he, if_true] at h1 h2
    obtain ⟨a, ha1, ha2, ha3⟩ := h1
    obtain ⟨b, hb1, hb2, hb3⟩ := h2
    refine ⟨a, b, ?_, ha2, hb2, ha3, hb3⟩
    rw [ha, ← h.hf, ha1, hb1]; rfl
  · next he =>
    simp only [he, if_false, Bool.false_eq_true] at h1 h2
    obtain ⟨a, ha1, ha2, ha3⟩ := h1
    obtain ⟨b, hb1, hb2, hb3⟩ := h2
    refine ⟨a, b, ?_, ha2, hb2, ha3, hb3⟩
    rw [ha1, hb1]; rfl

theorem seek_eq (p : α → Bool) (l : List α) : seek p l = l.find? p := by
  induction l with
  | nil => rfl
  | cons x l ih => by_cases h : p x <;> simp [seek, ih, h]

theorem foldS_eq (k : α → β → β) (z : β) (l : List α) : foldS k z l = l.foldl (fun a x => k x a) z := by
  induction l generalizing z with
  | nil => rfl
  | cons x l ih => simp [foldS, ih]

theorem listPrefixEq_spec {eq : α → α → Bool} : ∀ {a b : List α},
    (∃ p q, listPrefixEq eq a b = (false, p, q) ∧ ∀ c d, listEq eq (a ++ c) (b ++ d) = false) ∨
    (∃ k, k = min a.length b.length ∧ listPrefixEq eq a b = (true, a.drop k, b.drop k) ∧
      listEq eq (a.take k) (b.take k) = true) := by
  intro a
  induction a with
  | nil => intro b; right; exact ⟨0, by simp, by simp [listPrefixEq], by simp [listEq]⟩
  | cons x a ih =>
    intro b
    cases b with
    | nil => right; exact ⟨0, by simp, by simp [listPrefixEq], by simp [listEq]⟩
    | cons y b =>
      simp only [listPrefixEq]
      by_cases h : eq x y
      · rcases @ih b with ⟨p, q, h1, h2⟩ | ⟨k, h0, h1, h2⟩
        · left; exact ⟨p, q, by simp [h, h1], fun c d => by simp [listEq, h2]⟩
        · right; exact ⟨k + 1, by simp; omega, by simp [h, h1], by simp [listEq, h, h2]⟩
      · left; exact ⟨x :: a, y :: b, by simp [h], fun c d => by simp [listEq, h]⟩

theorem listEq_append (eq : α → α → Bool) : ∀ (a b c d : List α), a.length = b.length →
    listEq eq (a ++ c) (b ++ d) = (listEq eq a b && listEq eq c d) := by
  intro a
  induction a with
  | nil => intro b c d h; cases b <;> simp_all [listEq]
  | cons x a ih =>
    intro b c d h
    cases b with
    | nil => simp at h
    | cons y b => simp at h; simp [listEq, ih _ _ _ h, Bool.and_assoc]

theorem listEq_length {eq : α → α → Bool} : ∀ {a b : List α}, listEq eq a b = true → a.length = b.length := by
  intro a
  induction a with
  | nil => intro b h; cases b <;> simp_all [listEq]
  | cons x a ih =>
    intro b h
    cases b with
    | nil => simp [listEq] at h
    | cons y b => simp [listEq] at h; simp [ih h.2]

theorem listEq_reverse (eq : α → α → Bool) : ∀ (a b : List α), listEq eq a.reverse b.reverse = listEq eq a b := by
  intro a
  induction a with
  | nil => intro b; cases b <;> simp [listEq]
  | cons x a ih =>
    intro b
    cases b with
    | nil =>
      simp only [List.reverse_cons, List.reverse_nil]
      rcases hb : (a.reverse ++ [x]) with _ | ⟨z, c⟩
      · simp at hb
      · simp [listEq]
    | cons y b =>
      simp only [List.reverse_cons]
      by_cases hl : a.length = b.length
      · rw [listEq_append _ _ _ _ _ (by simpa using hl), ih]
        simp [listEq, Bool.and_comm]
      · have h1 : listEq eq (a.reverse ++ [x]) (b.reverse ++ [y]) = false := by
          rw [Bool.eq_false_iff]; intro h; have := listEq_length h; simp at this; exact hl this
        have h2 : listEq eq (x :: a) (y :: b) = false := by
          rw [Bool.eq_false_iff]; intro h; have := listEq_length h; simp at this; exact hl this
        rw [h1, h2]

theorem listEq_comm (eq : α → α → Bool) (hs : ∀ x y, eq x y = eq y x) :
    ∀ (a b : List α), listEq eq a b = listEq eq b a := by
  intro a
  induction a with
  | nil => intro b; cases b <;> simp [listEq]
  | cons x a ih => intro b; cases b with
    | nil => simp [listEq]
    | cons y b => simp [listEq, ih b, hs x y]

end Gauche.IDeque
