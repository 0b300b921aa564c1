import Verif.Proof.CharSet3
/-
C22, C58, C59: character sets, and the binary search they use.

Specification: `Verif.Spec.CharProg`.  A character set is a set of code points; every program of calls of
the API (make, add a range, union, complement, copy, freeze) must make `char-set-contains?` answer
membership in the set computed by the corresponding set operations, and must fail exactly when a call
names no set, has a code above the maximum, or modifies an immutable set.
-/
namespace Gauche.CharSet
open Gauche.CharProg

/-- A model set shows the members and the mutability of `s`. -/
def Shows (cs : CharSet) (s : S) : Prop :=
  cs.immutable = s.immutable ∧ ∀ c ≤ charMax, ∃ b, cs.contains c = some b ∧ (b = true ↔ s.mem c)

/-- The internal relation: well-formed, and holding `s`. -/
def Good (cs : CharSet) (s : S) : Prop :=
  ∃ rs, Rep cs rs ∧ cs.immutable = s.immutable ∧ ∀ c, Has cs rs c ↔ s.mem c

theorem good_shows {cs s} (h : Good cs s) : Shows cs s := by
  obtain ⟨rs, h1, h2, h3⟩ := h
  refine ⟨h2, fun c _ => ?_⟩
  obtain ⟨b, e1, e2⟩ := contains_spec h1 c
  exact ⟨b, e1, e2.trans (h3 c)⟩

abbrev GoodAll : List CharSet → List S → Prop := List.Forall₂ Good

theorem good_get {h : List CharSet} {g : List S} (hg : GoodAll h g) (i : Nat) :
    (h[i]? = none ∧ g[i]? = none) ∨ ∃ cs s, h[i]? = some cs ∧ g[i]? = some s ∧ Good cs s := by
  induction hg generalizing i with
  | nil => left; simp
  | cons hd tl ih =>
    cases i with
    | zero => right; exact ⟨_, _, by simp, by simp, hd⟩
    | succ i => simpa using ih i

theorem good_set {h : List CharSet} {g : List S} (hg : GoodAll h g) (i : Nat) {cs s} (hs : Good cs s) :
    GoodAll (h.set i cs) (g.set i s) := by
  induction hg generalizing i with
  | nil => exact .nil
  | cons hd tl ih =>
    cases i with
    | zero => exact .cons hs tl
    | succ i => exact .cons hd (ih i)

theorem good_snoc {h : List CharSet} {g : List S} (hg : GoodAll h g) {cs s} (hs : Good cs s) :
    GoodAll (h ++ [cs]) (g ++ [s]) := by
  induction hg with
  | nil => exact .cons hs .nil
  | cons hd tl ih => exact .cons hd ih

theorem good_modify {h : List CharSet} {g : List S} (hg : GoodAll h g) (i : Nat)
    {f : CharSet → Option CharSet} {m : S → Nat → Prop}
    (herr : ∀ cs, cs.immutable = true → f cs = none)
    (hok : ∀ cs s, Good cs s → cs.immutable = false → ∃ cs', f cs = some cs' ∧ Good cs' ⟨m s, false⟩) :
    Option.Rel GoodAll (onSet h i f) (CharProg.modify g i m) := by
  unfold onSet CharProg.modify
  rcases good_get hg i with ⟨h1, h2⟩ | ⟨cs, s, h1, h2, h3⟩
  · rw [h1, h2]; exact .none
  · rw [h1, h2]
    have hi : cs.immutable = s.immutable := h3.choose_spec.2.1
    cases hm : s.immutable with
    | true => simp only [Option.bind_some, herr cs (by rw [hi, hm]), Option.map_none, if_true, hm]; exact .none
    | false =>
      obtain ⟨cs', e1, e2⟩ := hok cs s h3 (by rw [hi, hm])
      simp only [Option.bind_some, e1, Option.map_some, hm, Bool.false_eq_true, if_false]
      exact .some (good_set hg i e2)

theorem step_good {h : List CharSet} {g : List S} (hg : GoodAll h g) (c : Cmd) :
    Option.Rel GoodAll (step c h) (CharProg.step charMax c g) := by
  cases c with
  | new =>
    refine .some (good_snoc hg ⟨[], rep_make, rfl, fun c => ?_⟩)
    unfold Has make; simp
  | addRange i f u =>
    simp only [step, CharProg.step]
    by_cases hc : f > charMax ∨ u > charMax
    · rw [if_pos hc, if_pos hc]; exact .none
    · rw [if_neg hc, if_neg hc]
      refine good_modify hg i ?_ ?_
      · rintro ⟨s, lp, l⟩ hi
        cases l with
        | tree => cases hi
        | frozen => rfl
      · rintro cs s ⟨rs, r1, r2, r3⟩ hm
        obtain ⟨cs', rs', a1, a2, a3, a4⟩ := addRange_spec r1 hm (f := f) (u := u) (by omega)
        refine ⟨cs', a1, rs', a2, a3, fun c => ?_⟩
        rw [a4, r3]; exact Or.comm
  | union i j =>
    simp only [step, CharProg.step]
    by_cases hij : i = j
    · rw [if_pos hij]
      subst hij
      rcases good_get hg i with ⟨h1, h2⟩ | ⟨cs, s, h1, h2, h3⟩
      · rw [onSet, h1, h2]; exact .none
      · have hi : cs.immutable = s.immutable := h3.choose_spec.2.1
        rw [h2]
        dsimp only
        rw [onSet, CharProg.modify, h1, h2]
        dsimp only [Option.bind_some]
        rw [hi]
        cases hm : s.immutable with
        | true => exact .none
        | false =>
          refine .some (good_set hg i ?_)
          obtain ⟨rs, r1, r2, r3⟩ := h3
          exact ⟨rs, r1, by rw [hi, hm], fun c => by rw [r3]; simp⟩
    · rw [if_neg hij]
      rcases good_get hg j with ⟨h1, h2⟩ | ⟨src, t, h1, h2, h3⟩
      · rw [h1, h2]; exact .none
      · rw [h1, h2]
        dsimp only [Option.bind_some]
        obtain ⟨rt, t1, t2, t3⟩ := h3
        refine good_modify hg i ?_ ?_
        · rintro ⟨s, lp, l⟩ hi
          cases l with
          | tree => cases hi
          | frozen => rfl
        · rintro cs s ⟨rs, r1, r2, r3⟩ hm
          obtain ⟨cs', rs', a1, a2, a3, a4⟩ := add_spec r1 hm t1
          exact ⟨cs', a1, rs', a2, a3, fun c => by rw [a4, r3, t3]⟩
  | complement i =>
    refine good_modify hg i ?_ ?_
    · rintro ⟨s, lp, l⟩ hi
      cases l with
      | tree => cases hi
      | frozen => rfl
    · rintro cs s ⟨rs, r1, r2, r3⟩ hm
      obtain ⟨cs', rs', a1, a2, a3, a4⟩ := complement_spec r1 hm
      refine ⟨cs', a1, rs', a2, a3, fun c => ?_⟩
      constructor
      · intro hc
        have := has_le a2 hc
        exact ⟨this, by rw [← r3]; exact (a4 c this).1 hc⟩
      · rintro ⟨h1, h2⟩
        exact (a4 c h1).2 (by rw [r3]; exact h2)
  | copy i =>
    simp only [step, CharProg.step]
    rcases good_get hg i with ⟨h1, h2⟩ | ⟨cs, s, h1, h2, h3⟩
    · rw [h1, h2]; exact .none
    · rw [h1, h2]
      obtain ⟨rs, r1, r2, r3⟩ := h3
      obtain ⟨cs', a1, a2, a3, a4⟩ := copy_spec r1
      simp only [Option.bind_some, a1, Option.map_some]
      exact .some (good_snoc hg ⟨rs, a2, a3, fun c => by rw [a4, r3]⟩)
  | freeze i =>
    simp only [step, CharProg.step]
    rcases good_get hg i with ⟨h1, h2⟩ | ⟨cs, s, h1, h2, h3⟩
    · rw [h1, h2]; exact .none
    · rw [h1, h2]
      obtain ⟨rs, r1, r2, r3⟩ := h3
      obtain ⟨cs', a1, a2, a3, a4⟩ := freeze_spec r1
      simp only [Option.bind_some, a1, Option.map_some]
      exact .some (good_snoc hg ⟨rs, a2, a3, fun c => by rw [a4, r3]⟩)
  | freezeX i =>
    simp only [step, CharProg.step, onSet]
    rcases good_get hg i with ⟨h1, h2⟩ | ⟨cs, s, h1, h2, h3⟩
    · rw [h1, h2]; exact .none
    · rw [h1, h2]
      obtain ⟨rs, r1, r2, r3⟩ := h3
      obtain ⟨cs', a1, a2, a3, a4⟩ := freezeX_spec r1
      simp only [Option.bind_some, a1, Option.map_some]
      exact .some (good_set hg i ⟨rs, a2, a3, fun c => by rw [a4, r3]⟩)

theorem run_good (p : List Cmd) : ∀ {h : List CharSet} {g : List S}, GoodAll h g →
    Option.Rel GoodAll (run step p h) (run (CharProg.step charMax) p g) := by
  induction p with
  | nil => intro h g hg; exact .some hg
  | cons c p ih =>
    intro h g hg
    unfold run
    generalize hm : step c h = m
    generalize hs : CharProg.step charMax c g = s
    have := step_good hg c
    rw [hm, hs] at this
    cases this with
    | none => exact .none
    | some hr => exact ih hr

/-- **C22.**  After any program, every set answers `char-set-contains?` for every character exactly as the
set computed by set operations does, and is mutable exactly when it should be; and the program fails exactly
when the specification says it fails. -/
theorem C22_sets (p : List Cmd) :
    Option.Rel (List.Forall₂ Shows) (run step p []) (run (CharProg.step charMax) p []) := by
  have := run_good p (h := []) (g := []) .nil
  revert this
  generalize run step p [] = a
  generalize run (CharProg.step charMax) p [] = b
  intro this
  cases this with
  | none => exact .none
  | some hr => exact .some (hr.imp fun _ _ => good_shows)

/-- A set made by some program. -/
def Made (cs : CharSet) : Prop := ∃ p h, run step p [] = some h ∧ cs ∈ h

theorem forall2_mem {h : List CharSet} {g : List S} (hg : GoodAll h g) {cs} (hm : cs ∈ h) : ∃ s, Good cs s := by
  induction hg with
  | nil => cases hm
  | cons hd _ ih =>
    rcases List.mem_cons.1 hm with rfl | hm
    · exact ⟨_, hd⟩
    · exact ih hm

theorem made_rep {cs} (h : Made cs) : ∃ rs, Rep cs rs := by
  obtain ⟨p, l, h1, h2⟩ := h
  have := run_good p (h := []) (g := []) .nil
  rw [h1] at this
  generalize run (CharProg.step charMax) p [] = m at this
  cases this with
  | some hr =>
    obtain ⟨s, rs, h3, _⟩ := forall2_mem hr h2
    exact ⟨rs, h3⟩

/-- The characters `char-set-contains?` accepts. -/
def members (cs : CharSet) : Set Nat := {c | c ≤ charMax ∧ cs.contains c = some true}

theorem mem_members {cs rs} (h : Rep cs rs) (c : Nat) : c ∈ members cs ↔ Has cs rs c := by
  obtain ⟨b, e1, e2⟩ := contains_spec h c
  unfold members
  simp only [Set.mem_setOf_eq, e1, Option.some.injEq]
  rw [e2]
  exact ⟨fun h => h.2, fun hc => ⟨has_le h hc, hc⟩⟩

/-- **C58.**  `char-set=` (`%char-set-equal?`) answers whether the two sets have the same members. -/
theorem C58_equal (x y : CharSet) (hx : Made x) (hy : Made y) :
    ∃ b, x.eq y = some b ∧ (b = true ↔ members x = members y) := by
  obtain ⟨rx, h1⟩ := made_rep hx
  obtain ⟨ry, h2⟩ := made_rep hy
  obtain ⟨b, e1, e2⟩ := eq_spec h1 h2
  refine ⟨b, e1, e2.trans ?_⟩
  rw [Set.ext_iff]
  simp only [mem_members h1, mem_members h2]

/-- **C58.**  `char-set<=` (`%char-set<=?`) answers whether every member of the first set is in the second. -/
theorem C58_subset (x y : CharSet) (hx : Made x) (hy : Made y) :
    ∃ b, x.le y = some b ∧ (b = true ↔ members x ⊆ members y) := by
  obtain ⟨rx, h1⟩ := made_rep hx
  obtain ⟨ry, h2⟩ := made_rep hy
  obtain ⟨b, e1, e2⟩ := le_spec h1 h2
  refine ⟨b, e1, e2.trans ?_⟩
  rw [Set.subset_def]
  simp only [mem_members h1, mem_members h2]

/-- **C58.**  The ranges reported for a set are non-empty, ascending, disjoint, cover exactly the members,
and are maximal except for the split between codes 127 and 128. -/
theorem C58_ranges (cs : CharSet) (h : Made cs) : ∃ l, cs.ranges = some l ∧ (∀ e ∈ l, e.1 ≤ e.2) ∧
    (l.Pairwise fun a b => a.2 < b.1) ∧ (∀ c, c ∈ members cs ↔ ∃ e ∈ l, e.1 ≤ c ∧ c ≤ e.2) ∧
    l.Pairwise (fun a b => a.2 + 1 < b.1 ∨ (a.2 = 127 ∧ b.1 = 128)) := by
  obtain ⟨rs, h1⟩ := made_rep h
  obtain ⟨l, e1, e2, e3, e4⟩ := ranges_spec h1
  exact ⟨l, e1, e2.1, e2.2, fun c => by rw [mem_members h1, ← e3 c]; rfl, e4⟩

/-- **C58.**  `char-set-size` is the number of members. -/
theorem C58_size (cs : CharSet) (h : Made cs) : cs.size = some ((members cs).ncard : Int) := by
  obtain ⟨rs, h1⟩ := made_rep h
  rw [size_spec h1]
  have : members cs = {c | Has cs rs c} := by ext c; exact mem_members h1 c
  rw [this]

/-- **C59.**  The binary search over a vector of records with strictly ascending keys: it finds the key
iff some record has it; otherwise it reports the records with the greatest smaller and the least greater
key, if there are any.  (`f j` is the key of record `j`.) -/
theorem C59_binary_search {α : Type} [LinearOrder α] (vec : List α) (len skip : Nat) (key : α) (f : Nat → α)
    (hv : ∀ j < len / (skip + 1), vec[j * (skip + 1)]? = some (f j))
    (hm : ∀ i j, i < j → j < len / (skip + 1) → f i < f j) :
    ∃ r, BinSearch.search vec len key skip = some r ∧
      match r with
      | .found i => ∃ j < len / (skip + 1), i = j * (skip + 1) ∧ f j = key
      | .miss fl ce =>
        (∀ j < len / (skip + 1), f j ≠ key) ∧
        (match fl with
          | none => ∀ j < len / (skip + 1), key < f j
          | some i => ∃ j < len / (skip + 1), i = j * (skip + 1) ∧ f j < key ∧
              ∀ j' < len / (skip + 1), f j' < key → f j' ≤ f j) ∧
        (match ce with
          | none => ∀ j < len / (skip + 1), f j < key
          | some i => ∃ j < len / (skip + 1), i = j * (skip + 1) ∧ key < f j ∧
              ∀ j' < len / (skip + 1), key < f j' → f j ≤ f j') := by
  have mono : ∀ i j, i ≤ j → j < len / (skip + 1) → f i ≤ f j := by
    intro i j hij hj
    rcases Nat.lt_or_eq_of_le hij with h | h
    · exact (hm i j h hj).le
    · rw [h]
  rcases BinSearch.search_spec (key := key) rfl hv hm with ⟨j, h1, h2, h3⟩ | ⟨m, h1, h2, h3, h4⟩
  · exact ⟨_, h3, j, h1, rfl, h2⟩
  · refine ⟨_, h4, ?_, ?_, ?_⟩
    · intro j hj he
      rcases Nat.lt_or_ge j m with h | h
      · exact absurd (h2 j h) (by rw [he]; exact lt_irrefl _)
      · exact absurd (h3 j h hj) (by rw [he]; exact lt_irrefl _)
    · by_cases hm0 : m = 0
      · rw [if_pos hm0]; exact fun j hj => h3 j (by omega) hj
      · rw [if_neg hm0]
        refine ⟨m - 1, by omega, rfl, h2 _ (by omega), fun j' hj' hl => ?_⟩
        rcases Nat.lt_or_ge j' m with h | h
        · exact mono j' (m - 1) (by omega) (by omega)
        · exact absurd (h3 j' h hj') (not_lt.2 hl.le)
    · by_cases hmn : m = len / (skip + 1)
      · rw [if_pos hmn]; exact fun j hj => h2 j (by omega)
      · rw [if_neg hmn]
        refine ⟨m, by omega, rfl, h3 m (Nat.le_refl _) (by omega), fun j' hj' hl => ?_⟩
        rcases Nat.lt_or_ge j' m with h | h
        · exact absurd (h2 j' h) (not_lt.2 hl.le)
        · exact mono m j' h hj'

/-! ### The hypotheses are met -/

/-- A program whose ranges touch, overlap, cross the bitmap boundary, and get complemented and frozen. -/
def exProg : List Cmd :=
  [.new, .addRange 0 0x300 0x310, .addRange 0 0x320 0x330, .addRange 0 0x311 0x31f, .addRange 0 0x61 0x90,
   .copy 0, .complement 1, .freeze 1, .new, .addRange 3 0x41 0x41, .union 3 2, .freezeX 3]

example : ((run step exProg []).map fun h => h.map fun cs => cs.ranges) =
    some [some [(0x61, 0x7f), (0x80, 0x90), (0x300, 0x330)], some [(0, 0x60), (0x91, 0x2ff), (0x331, 0x10ffff)],
      some [(0, 0x60), (0x91, 0x2ff), (0x331, 0x10ffff)], some [(0, 0x60), (0x91, 0x2ff), (0x331, 0x10ffff)]] := by
  decide +kernel
example : ((run step exProg []).map fun h => h.map fun cs => [0x41, 0x61, 0x95, 0x318].map cs.contains) =
    some [[some false, some true, some false, some true], [some true, some false, some true, some false],
      [some true, some false, some true, some false], [some true, some false, some true, some false]] := by
  decide +kernel
example : ((run step exProg []).map fun h => h.map fun cs => cs.immutable) = some [false, false, true, true] := by
  decide +kernel
example : (run step exProg []).isSome = true := by decide +kernel
/-- Modifying an immutable set fails. -/
example : (run step (exProg ++ [.addRange 3 0x42 0x42]) []).isNone = true := by decide +kernel
/-- Equality and inclusion give both answers. -/
example : ((run step exProg []).bind fun h => h[1]?.bind fun a => h[3]?.bind fun b => h[0]?.map fun c =>
    (a.eq b, a.eq c, a.le b, c.le a, a.size)) =
    some (some true, some false, some true, some false, some 1114015) := by decide +kernel
/-- The search on records of two elements: present, between, before, after. -/
example : [10, 25, 5, 40, 31].map (fun k => BinSearch.search [10, 0, 20, 0, 30, 0] 6 k 1) =
    [some (.found 0), some (.miss (some 2) (some 4)), some (.miss none (some 0)), some (.miss (some 4) none),
     some (.miss (some 4) none)] := by decide +kernel
end Gauche.CharSet
