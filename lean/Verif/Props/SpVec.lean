import Verif.Proof.SpVecDesc
import Verif.Proof.SpMat

/-!
# C21: sparse vectors and matrices are finite maps

`Verif/Spec/SparseMap.lean` says what a history of operations does to a finite
map (`runMap`) and what it is for a list to enumerate one (`Lists`).  Every
outermost `some` says in addition that the trie code stays inside its arrays,
follows no null entry and takes no leaf for a node.
-/

namespace Gauche.SpVec

open Gauche.CTrie Gauche.SparseMap

/-- The value `inc!` starts from is the one the specification names. -/
theorem incBase_eq {V : Type} (ar : Arith V) (dflt : Option V) :
    incBase ar dflt = missing ar.isNumber ar.zero dflt := by
  funext fb
  unfold incBase missing
  cases fb with
  | none =>
    cases dflt with
    | none => rfl
    | some x => by_cases h : ar.isNumber x = true <;> simp [h, Option.filter]
  | some f =>
    by_cases hf : ar.isNumber f = true
    · simp [hf, Option.filter]
    · cases dflt with
      | none => simp [hf, Option.filter]
      | some x => by_cases h : ar.isNumber x = true <;> simp [hf, h, Option.filter]

/-- `sparse-vector-ref` from what `SparseVectorRef` finds: the entry, the
fallback, the default value, or an error, in this order. -/
theorem refAnswer {V : Type} (x fb dflt : Option V) :
    orDefault dflt (some (x.orElse (fun _ => fb))) =
      some (match x.orElse (fun _ => fb.orElse (fun _ => dflt)) with
        | some v => Ans.val v
        | none => Ans.error) := by
  cases x with
  | some v => rfl
  | none =>
    cases fb with
    | some v => rfl
    | none => cases dflt with
      | some v => rfl
      | none => rfl

theorem refWord {β V : Type} (d : Desc β V) (sv : SV β V) (i : Nat) (hi : Word i) (fb : Option V) :
    refAt d sv (getULong i) fb = svRef d sv i fb := by
  have h : getULong (i : Int) = some i := by
    unfold getULong
    have h1 : i < 2 ^ 64 := hi
    have h2 : (i : Int) < 2 ^ 64 := by exact_mod_cast h1
    rw [if_pos ⟨Int.natCast_nonneg i, h2⟩, Int.toNat_natCast]
  rw [h]; rfl

/-- What is promised of a vector that was made with the default value `dflt` and
then went through `ops`. `M` is the map it should be. -/
structure Agrees {β V : Type} (d : Desc β V) (sv : SV β V) (dflt : Option V)
    (M : Nat → Option V) : Prop where
  /-- `sparse-vector-ref`: the entry, else the fallback, else the default, else an error. -/
  ref : ∀ i fb, Word i → scmRef d sv i fb =
    some (match (M i).orElse (fun _ => fb.orElse (fun _ => dflt)) with
      | some v => Ans.val v
      | none => Ans.error)
  /-- `sparse-vector-exists?` -/
  mem : ∀ i, Word i → scmExists d sv i = some (Ans.bool (M i).isSome)
  /-- the iteration ends and visits every entry exactly once -/
  all : ∃ E N, Lists E M ∧ ∀ rounds fuel, N ≤ rounds → N ≤ fuel →
    svCollect d sv rounds fuel (svIterInit β) [] = some E
  /-- `%sparse-vector-check` finds nothing wrong with the trie. -/
  check : trieCheck sv.trie = some true

theorem listsRev {K V : Type} {E : List (K × V)} {M : K → Option V} (h : Lists E M) :
    Lists E.reverse M :=
  ⟨by rw [List.map_reverse, List.nodup_reverse]; exact h.nodup,
   fun i v => by rw [List.mem_reverse]; exact h.mem i v⟩

theorem agrees_of_history {β V : Type} {d : Desc β V} {good : Leaf β → Prop}
    {slot : Leaf β → Nat → Option V} {norm : V → Option V} (ok : DescOK d good slot norm)
    (hsh : d.shift ≤ 64) (ar : Arith V)
    (dflt : Option V) (ops : List (Op Nat V)) (hv : ∀ op ∈ ops, op.valid Word) :
    ∃ sv, svRun d ar (svMake β dflt) ops =
        some (sv, (runMap norm (missing ar.isNumber ar.zero dflt) ar.add (fun _ => none) ops).2) ∧
      Agrees d sv dflt (runMap norm (missing ar.isNumber ar.zero dflt) ar.add (fun _ => none) ops).1 ∧
      ((∀ op ∈ ops, op.noInc) → ∃ E : List (Nat × V),
        Lists E (runMap norm (missing ar.isNumber ar.zero dflt) ar.add (fun _ => none) ops).1 ∧
        sv.numEntries = E.length % 2 ^ 64) := by
  rw [← incBase_eq]
  obtain ⟨sv, h1, h2, h3, ⟨E, N, hE, hc, hn⟩, h5⟩ := sv_history ok hsh ar dflt ops hv
  refine ⟨sv, h1, ⟨fun i fb hi => ?_, fun i hi => ?_, ⟨E.reverse, N, listsRev hE, hc⟩, h5⟩,
    fun h => ⟨E, hE, hn h⟩⟩
  · unfold scmRef
    rw [refWord d sv i hi, h3, h2, refAnswer]
  · unfold scmExists
    rw [refWord d sv i hi, h3]
    show some (Ans.bool _) = _
    congr 2
    cases (runMap norm (incBase ar dflt) ar.add (fun _ => none) ops).1 i <;> rfl

/-- A general sparse vector (`<sparse-vector>`): after every history of `set!`,
`delete!`, `clear!`, `copy` and `inc!` on 64-bit indices it answered each call as
a finite map would, and it agrees with that map; the number of entries is exact
if the history has no `inc!`. -/
theorem C21_general_vector {V : Type} (g0 g1 : Nat) (ar : Arith V) (dflt : Option V)
    (ops : List (Op Nat V)) (hv : ∀ op ∈ ops, op.valid Word) :
    ∃ sv, svRun (gDesc V g0 g1) ar (svMake (GBody V) dflt) ops =
        some (sv, (runMap some (missing ar.isNumber ar.zero dflt) ar.add (fun _ => none) ops).2) ∧
      Agrees (gDesc V g0 g1) sv dflt (runMap some (missing ar.isNumber ar.zero dflt) ar.add (fun _ => none) ops).1 ∧
      ((∀ op ∈ ops, op.noInc) → ∃ E : List (Nat × V),
        Lists E (runMap some (missing ar.isNumber ar.zero dflt) ar.add (fun _ => none) ops).1 ∧
        sv.numEntries = E.length % 2 ^ 64) :=
  agrees_of_history (gDesc_ok V g0 g1) (by decide : 1 ≤ 64) ar dflt ops hv

/-- A uniform sparse vector (`<sparse-s8vector>` … `<sparse-c128vector>`), whatever
the conversions between Scheme numbers and elements do: the same, where a stored
value becomes what the element type makes of it, and one that does not fit is
refused with the vector unchanged.  `shift` is 4, 3, 2, 1 or 0. -/
theorem C21_uniform_vector {E V : Type} (shift : Nat) (hs : shift ≤ 4) (zero : E)
    (conv : V → Option E) (box : E → V) (g0 g1 : Nat) (ar : Arith V) (dflt : Option V)
    (ops : List (Op Nat V)) (hv : ∀ op ∈ ops, op.valid Word) :
    ∃ sv, svRun (uDesc shift zero conv box g0 g1) ar (svMake (List E) dflt) ops =
        some (sv, (runMap (fun v => (conv v).map box) (missing ar.isNumber ar.zero dflt) ar.add
          (fun _ => none) ops).2) ∧
      Agrees (uDesc shift zero conv box g0 g1) sv dflt
        (runMap (fun v => (conv v).map box) (missing ar.isNumber ar.zero dflt) ar.add (fun _ => none) ops).1 ∧
      ((∀ op ∈ ops, op.noInc) → ∃ L : List (Nat × V),
        Lists L (runMap (fun v => (conv v).map box) (missing ar.isNumber ar.zero dflt) ar.add
          (fun _ => none) ops).1 ∧
        sv.numEntries = L.length % 2 ^ 64) :=
  agrees_of_history (uDesc_ok shift zero conv box g0 g1)
    (show shift ≤ 64 from Nat.le_trans hs (by decide)) ar dflt ops hv

/-! ## Matrices -/

/-- Every pair of 32-bit indices has its own combined index, a 64-bit word, from
which `sparse-matrix-fold` gets the pair back; all other pairs are refused. -/
theorem C21_matrix_index (x y : Int) :
    (0 ≤ x ∧ x < 2 ^ 32 ∧ 0 ≤ y ∧ y < 2 ^ 32 →
      ∃ i, indexCombine x y = some i ∧ i < 2 ^ 64 ∧ indexSplit i = (x.toNat, y.toNat)) ∧
    (¬ (0 ≤ x ∧ x < 2 ^ 32 ∧ 0 ≤ y ∧ y < 2 ^ 32) → indexCombine x y = none) := by
  constructor
  · rintro ⟨h1, h2, h3, h4⟩
    obtain ⟨a, rfl⟩ := Int.eq_ofNat_of_zero_le h1
    obtain ⟨b, rfl⟩ := Int.eq_ofNat_of_zero_le h3
    rw [Int.toNat_natCast, Int.toNat_natCast]
    exact split_combine (by exact_mod_cast h2) (by exact_mod_cast h4)
  · exact combine_none

/-- Two pairs of indices have the same combined index only if they are the same. -/
theorem C21_matrix_index_injective (x y x' y' : Int) (i : Nat)
    (h : indexCombine x y = some i) (h' : indexCombine x' y' = some i) : x = x' ∧ y = y' := by
  have key : ∀ x y : Int, indexCombine x y = some i →
      indexSplit i = (x.toNat, y.toNat) ∧ 0 ≤ x ∧ 0 ≤ y := by
    intro x y h
    by_cases hr : 0 ≤ x ∧ x < 2 ^ 32 ∧ 0 ≤ y ∧ y < 2 ^ 32
    · obtain ⟨j, hj, _, hs⟩ := (C21_matrix_index x y).1 hr
      rw [h] at hj; cases hj
      exact ⟨hs, hr.1, hr.2.2.1⟩
    · rw [(C21_matrix_index x y).2 hr] at h; cases h
  obtain ⟨a1, a2, a3⟩ := key x y h
  obtain ⟨b1, b2, b3⟩ := key x' y' h'
  rw [a1] at b1
  have h1 : x.toNat = x'.toNat := congrArg Prod.fst b1
  have h2 : y.toNat = y'.toNat := congrArg Prod.snd b1
  omega

/-- What is promised of a matrix. -/
structure MatAgrees {β V : Type} (d : Desc β V) (sv : SV β V) (dflt : Option V)
    (M : Nat × Nat → Option V) : Prop where
  /-- `sparse-matrix-ref` -/
  ref : ∀ p : Nat × Nat, ∀ fb, Words2 p → matRef d sv p.1 p.2 fb =
    some (match (M p).orElse (fun _ => fb.orElse (fun _ => dflt)) with
      | some v => Ans.val v
      | none => Ans.error)
  /-- `sparse-matrix-exists?`, for any indices -/
  mem : ∀ x y : Int, matExists d sv x y =
    some (Ans.bool (decide (0 ≤ x ∧ x < 2 ^ 32 ∧ 0 ≤ y ∧ y < 2 ^ 32) && (M (x.toNat, y.toNat)).isSome))
  /-- the iteration ends and visits every entry exactly once -/
  all : ∃ E N, Lists E M ∧ ∀ rounds fuel, N ≤ rounds → N ≤ fuel →
    matCollect d sv rounds fuel (svIterInit β) [] = some E

theorem matAgrees_of_history {β V : Type} {d : Desc β V} {good : Leaf β → Prop}
    {slot : Leaf β → Nat → Option V} {norm : V → Option V} (ok : DescOK d good slot norm)
    (hsh : d.shift ≤ 64) (ar : Arith V)
    (dflt : Option V) (ops : List (Op (Nat × Nat) V)) (hv : ∀ op ∈ ops, op.valid Words2) :
    ∃ sv, matRun d ar (svMake β dflt) ops =
        some (sv, (runMap norm (missing ar.isNumber ar.zero dflt) ar.add (fun _ => none) ops).2) ∧
      MatAgrees d sv dflt (runMap norm (missing ar.isNumber ar.zero dflt) ar.add (fun _ => none) ops).1 ∧
      ((∀ op ∈ ops, op.noInc) → ∃ E : List ((Nat × Nat) × V),
        Lists E (runMap norm (missing ar.isNumber ar.zero dflt) ar.add (fun _ => none) ops).1 ∧
        sv.numEntries = E.length % 2 ^ 64) := by
  rw [← incBase_eq]
  obtain ⟨sv, h1, h2, h3, E, N, hE, hc, hn⟩ := mat_history ok hsh ar dflt ops hv
  refine ⟨sv, h1, ⟨fun p fb hp => ?_, fun x y => ?_, ⟨E.reverse, N, listsRev hE, hc⟩⟩,
    fun h => ⟨E, hE, hn h⟩⟩
  · have hx : (p.1 : Int) < 2 ^ 32 := by have := hp.1; exact_mod_cast this
    have hy : (p.2 : Int) < 2 ^ 32 := by have := hp.2; exact_mod_cast this
    rw [matRef, h3, h2, if_pos ⟨Int.natCast_nonneg _, hx, Int.natCast_nonneg _, hy⟩,
      Int.toNat_natCast, Int.toNat_natCast, refAnswer]
  · rw [matExists, h3]
    by_cases hr : 0 ≤ x ∧ x < 2 ^ 32 ∧ 0 ≤ y ∧ y < 2 ^ 32
    · rw [if_pos hr, decide_eq_true hr, Bool.true_and]
      show some (Ans.bool _) = _
      congr 2
      cases (runMap norm (incBase ar dflt) ar.add (fun _ => none) ops).1 (x.toNat, y.toNat) <;> rfl
    · rw [if_neg hr, decide_eq_false hr, Bool.false_and]; rfl

/-- A general sparse matrix. -/
theorem C21_general_matrix {V : Type} (g0 g1 : Nat) (ar : Arith V) (dflt : Option V)
    (ops : List (Op (Nat × Nat) V)) (hv : ∀ op ∈ ops, op.valid Words2) :
    ∃ sv, matRun (gDesc V g0 g1) ar (svMake (GBody V) dflt) ops =
        some (sv, (runMap some (missing ar.isNumber ar.zero dflt) ar.add (fun _ => none) ops).2) ∧
      MatAgrees (gDesc V g0 g1) sv dflt
        (runMap some (missing ar.isNumber ar.zero dflt) ar.add (fun _ => none) ops).1 ∧
      ((∀ op ∈ ops, op.noInc) → ∃ E : List ((Nat × Nat) × V),
        Lists E (runMap some (missing ar.isNumber ar.zero dflt) ar.add (fun _ => none) ops).1 ∧
        sv.numEntries = E.length % 2 ^ 64) :=
  matAgrees_of_history (gDesc_ok V g0 g1) (by decide : 1 ≤ 64) ar dflt ops hv

/-- A uniform sparse matrix. -/
theorem C21_uniform_matrix {E V : Type} (shift : Nat) (hs : shift ≤ 4) (zero : E)
    (conv : V → Option E) (box : E → V) (g0 g1 : Nat) (ar : Arith V) (dflt : Option V)
    (ops : List (Op (Nat × Nat) V)) (hv : ∀ op ∈ ops, op.valid Words2) :
    ∃ sv, matRun (uDesc shift zero conv box g0 g1) ar (svMake (List E) dflt) ops =
        some (sv, (runMap (fun v => (conv v).map box) (missing ar.isNumber ar.zero dflt) ar.add
          (fun _ => none) ops).2) ∧
      MatAgrees (uDesc shift zero conv box g0 g1) sv dflt
        (runMap (fun v => (conv v).map box) (missing ar.isNumber ar.zero dflt) ar.add (fun _ => none) ops).1 ∧
      ((∀ op ∈ ops, op.noInc) → ∃ L : List ((Nat × Nat) × V),
        Lists L (runMap (fun v => (conv v).map box) (missing ar.isNumber ar.zero dflt) ar.add
          (fun _ => none) ops).1 ∧
        sv.numEntries = L.length % 2 ^ 64) :=
  matAgrees_of_history (uDesc_ok shift zero conv box g0 g1)
    (show shift ≤ 64 from Nat.le_trans hs (by decide)) ar dflt ops hv

/-! ## Where the code departs from the map -/

/-- Integers. -/
def intArith : Arith Int := ⟨fun _ => true, 0, (· + ·)⟩

/-- Small signed integers: `conv` of `<sparse-s8vector>`. -/
def s8conv (v : Int) : Option Int := if -128 ≤ v ∧ v ≤ 127 then some v else none

def entriesAfter {β : Type} (d : Desc β Int) (ops : List (Op Nat Int)) : Option Nat :=
  (svRun d intArith (svMake β none) ops).map (fun r => r.1.numEntries)

/-- An increment that makes an entry in a leaf that is already there does not
count it: two entries, and `sparse-vector-num-entries` says one; when both are
deleted it says `2^64 - 1`. -/
theorem C21_bug_inc :
    entriesAfter (gDesc Int 0 0) [.set 0 5, .inc 1 7 none] = some 1 ∧
    (runMap some (missing intArith.isNumber intArith.zero none) intArith.add (fun _ => none)
      ([.set 0 5, .inc 1 7 none] : List (Op Nat Int))).1 0 = some 5 ∧
    (runMap some (missing intArith.isNumber intArith.zero none) intArith.add (fun _ => none)
      ([.set 0 5, .inc 1 7 none] : List (Op Nat Int))).1 1 = some 7 ∧
    entriesAfter (gDesc Int 0 0) [.set 0 5, .inc 1 7 none, .delete 0, .delete 1] =
      some (2 ^ 64 - 1) := by decide +kernel

/-- `sparse-vector-ref` with an index out of range does not return the fallback it
was given, but the default, or signals an error. -/
theorem C21_bug_ref_out_of_range {β V : Type} (d : Desc β V) (sv : SV β V) (i : Int)
    (h : i < 0 ∨ 2 ^ 64 ≤ i) (fb : V) :
    scmRef d sv i (some fb) = some (match sv.dflt with
      | some v => Ans.val v
      | none => Ans.error) := by
  have h0 : getULong i = none := by unfold getULong; rw [if_neg (by omega)]
  unfold scmRef
  rw [h0]
  show orDefault sv.dflt (some none) = _
  unfold orDefault
  cases sv.dflt <;> rfl

/-- The same for `sparse-matrix-ref`. -/
theorem C21_bug_matrix_ref_out_of_range {β V : Type} (d : Desc β V) (sv : SV β V) (x y : Int)
    (h : ¬ (0 ≤ x ∧ x < 2 ^ 32 ∧ 0 ≤ y ∧ y < 2 ^ 32)) (fb : V) :
    matRef d sv x y (some fb) = some (match sv.dflt with
      | some v => Ans.val v
      | none => Ans.error) := by
  unfold matRef
  rw [combine_none h]
  show orDefault sv.dflt (some none) = _
  unfold orDefault
  cases sv.dflt <;> rfl

/-- An index out of range is not an entry. -/
theorem C21_exists_out_of_range {β V : Type} (d : Desc β V) (sv : SV β V) (i : Int)
    (h : i < 0 ∨ 2 ^ 64 ≤ i) : scmExists d sv i = some (Ans.bool false) := by
  have h0 : getULong i = none := by unfold getULong; rw [if_neg (by omega)]
  unfold scmExists
  rw [h0]; rfl

/-! ## A history -/

/-- Neighbours in a leaf, keys that share all but the last trie digit, the largest
index, a refused value, a copy. -/
def sample : List (Op Nat Int) :=
  [.set 0 1, .set 1 2, .set (2 ^ 64 - 1) 3, .set (2 ^ 63) 4, .set (2 ^ 59) 5, .delete 1,
   .set 7 300, .copy, .inc 0 10 none, .delete 1, .set (2 ^ 64 - 2) 6]

example : ∀ op ∈ sample, op.valid Word := by
  intro op h
  simp only [sample, List.mem_cons, List.not_mem_nil, or_false] at h
  rcases h with rfl | rfl | rfl | rfl | rfl | rfl | rfl | rfl | rfl | rfl | rfl <;>
    first | trivial | (show _ < _; decide)

example : (svRun (gDesc Int 0 0) intArith (svMake _ none) sample).bind
      (fun r => svCollect (gDesc Int 0 0) r.1 20 20 (svIterInit _) []) =
    some [(2 ^ 64 - 1, 3), (2 ^ 64 - 2, 6), (7, 300), (2 ^ 59, 5), (2 ^ 63, 4), (0, 11)] := by
  decide +kernel

example : (svRun (uDesc 4 0 s8conv id 0 0) intArith (svMake _ none) sample).bind
      (fun r => svCollect (uDesc 4 0 s8conv id 0 0) r.1 20 20 (svIterInit _) []) =
    some [(2 ^ 64 - 1, 3), (2 ^ 64 - 2, 6), (2 ^ 63, 4), (2 ^ 59, 5), (0, 11)] := by
  decide +kernel

example : indexCombine 0xdeadbeef 0x01234567 = some 0x0d1e2a3d4b5e6e7f := by decide +kernel

example : (matRun (gDesc Int 0 0) intArith (svMake _ none)
      ([.set (3, 2 ^ 32 - 1) 1, .set (2 ^ 32 - 1, 3) 2, .set (3, 3) 4, .delete (3, 3)] :
        List (Op (Nat × Nat) Int))).bind
      (fun r => matCollect (gDesc Int 0 0) r.1 20 20 (svIterInit _) []) =
    some [((2 ^ 32 - 1, 3), 2), ((3, 2 ^ 32 - 1), 1)] := by decide +kernel

end Gauche.SpVec
