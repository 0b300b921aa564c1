import Verif.Proof.SpVecDesc

/-! # Sparse vectors: histories -/

namespace Gauche.SpVec

open Gauche.CTrie Gauche.SparseMap

variable {β V : Type} {d : Desc β V} {good : Leaf β → Prop}
    {slot : Leaf β → Nat → Option V} {norm : V → Option V}

/-- The counter agrees with the number of entries. -/
def CountOK (d : Desc β V) (slot : Leaf β → Nat → Option V) (sv : SV β V) : Prop :=
  sv.numEntries = (entriesOf d slot (allLeaves sv.trie)).length % 2 ^ 64

theorem svStep_ok (ok : DescOK d good slot norm) (hsh : d.shift ≤ 64) (ar : Arith V) {sv : SV β V}
    (hi : SVInv d good sv) (op : Op Nat V) (hv : op.valid Word) :
    ∃ sv', svStep d ar sv op = some (sv',
        (stepMap norm (incBase ar sv.dflt) ar.add (content d slot sv.trie) op).2) ∧
      SVInv d good sv' ∧ sv'.dflt = sv.dflt ∧
      content d slot sv'.trie =
        (stepMap norm (incBase ar sv.dflt) ar.add (content d slot sv.trie) op).1 ∧
      (op.noInc → CountOK d slot sv → CountOK d slot sv') := by
  cases op with
  | set i v =>
    obtain ⟨sv', h1, h2, h3, h4, h5⟩ := svSet_ok ok hsh hi (show i < 2 ^ 64 from hv) v
    have hL := lists_content (d := d) (slot := slot) hi.trie
    have hL' := lists_content (d := d) (slot := slot) h2.trie
    refine ⟨sv', ?_, h2, h3, ?_, ?_⟩
    · rw [svStep, h1, stepMap]
      cases norm v <;> rfl
    · rw [h4, stepMap]
      cases norm v <;> rfl
    · intro _ hc
      unfold CountOK at hc ⊢
      cases hn : norm v with
      | none =>
        rw [hn] at h4 h5
        simp only [Option.isSome_none] at h5
        rw [if_neg (by simp)] at h5
        have hlen := hL.length_put (M' := content d slot sv'.trie) hL' (i := i)
          (x := content d slot sv.trie i) (fun j => by
            rw [h4]
            by_cases hj : j = i
            · rw [if_pos hj, hj]
            · rw [if_neg hj])
        rw [h5, hc]
        congr 1
        omega
      | some w =>
        rw [hn] at h4 h5
        have hlen := hL.length_put (M' := content d slot sv'.trie) hL' (i := i) (x := some w)
          (fun j => by rw [h4]; rfl)
        rw [h5]
        cases hm : content d slot sv.trie i with
        | none =>
          rw [hm] at hlen
          rw [if_pos ⟨rfl, rfl⟩, inc64, hc]
          simp at hlen
          rw [hlen]
          omega
        | some y =>
          rw [hm] at hlen
          rw [if_neg (by simp), hc]
          simp at hlen
          rw [hlen]
  | delete i =>
    obtain ⟨sv', h1, h2, h3, h4, h5⟩ := svDelete_ok ok hi i
    have hL := lists_content (d := d) (slot := slot) hi.trie
    have hL' := lists_content (d := d) (slot := slot) h2.trie
    refine ⟨sv', by rw [svStep, h1]; rfl, h2, h3, h4, ?_⟩
    intro _ hc
    unfold CountOK at hc ⊢
    have hlen := hL.length_put (M' := content d slot sv'.trie) hL' (i := i) (x := none)
      (fun j => by rw [h4]; rfl)
    rw [h5]
    cases hm : content d slot sv.trie i with
    | none =>
      rw [hm] at hlen
      rw [if_neg (by simp), hc]
      simp at hlen
      rw [hlen]
    | some y =>
      rw [hm] at hlen
      rw [if_pos (show (some y).isSome = true from rfl), dec64, hc]
      simp at hlen
      omega
  | clear =>
    refine ⟨⟨trieInit β, 0, sv.dflt⟩, by rw [svStep, svClear_ok hi]; rfl, init_svinv sv.dflt, rfl, ?_, ?_⟩
    · funext i; rw [content_init]; rfl
    · intro _ _; rfl
  | copy =>
    obtain ⟨sv', h1, h2, h3, h4, h5⟩ := svCopy_ok ok hi
    refine ⟨sv', by rw [svStep, h1]; rfl, h2, h3, h5, ?_⟩
    intro _ hc
    unfold CountOK at hc ⊢
    have hL := lists_content (d := d) (slot := slot) hi.trie
    have hL' := lists_content (d := d) (slot := slot) h2.trie
    have hlen := hL.length_put (M' := content d slot sv'.trie) hL' (i := 0)
      (x := content d slot sv.trie 0) (fun j => by
        rw [h5]
        by_cases hj : j = 0
        · rw [if_pos hj, hj]
        · rw [if_neg hj])
    rw [h4, hc]
    congr 1
    omega
  | inc i delta fb =>
    obtain ⟨sv', h1, h2, h3, h4⟩ := svInc_ok ok hsh ar hi (show i < 2 ^ 64 from hv) delta fb
    refine ⟨sv', ?_, h2, h3, ?_, fun h => h.elim⟩
    · rw [svStep, h1, stepMap]
      cases norm (ar.add ((content d slot sv.trie i).getD (incBase ar sv.dflt fb)) delta) <;> rfl
    · rw [h4, stepMap]
      cases norm (ar.add ((content d slot sv.trie i).getD (incBase ar sv.dflt fb)) delta) <;> rfl

theorem svRun_ok (ok : DescOK d good slot norm) (hsh : d.shift ≤ 64) (ar : Arith V) :
    ∀ (ops : List (Op Nat V)) (sv : SV β V), SVInv d good sv → (∀ op ∈ ops, op.valid Word) →
    ∃ sv', svRun d ar sv ops = some (sv',
        (runMap norm (incBase ar sv.dflt) ar.add (content d slot sv.trie) ops).2) ∧
      SVInv d good sv' ∧ sv'.dflt = sv.dflt ∧
      content d slot sv'.trie =
        (runMap norm (incBase ar sv.dflt) ar.add (content d slot sv.trie) ops).1 ∧
      ((∀ op ∈ ops, op.noInc) → CountOK d slot sv → CountOK d slot sv')
  | [], sv, hi, _ => ⟨sv, rfl, hi, rfl, rfl, fun _ h => h⟩
  | op :: ops, sv, hi, hv => by
    obtain ⟨sv1, h1, h2, h3, h4, h5⟩ := svStep_ok ok hsh ar hi op (hv op (List.mem_cons_self ..))
    obtain ⟨sv2, g1, g2, g3, g4, g5⟩ := svRun_ok ok hsh ar ops sv1 h2
      (fun o ho => hv o (List.mem_cons_of_mem _ ho))
    rw [h3, h4] at g1 g4
    refine ⟨sv2, ?_, g2, g3.trans h3, g4, fun hn hc => g5 (fun o ho => hn o (List.mem_cons_of_mem _ ho))
      (h5 (hn op (List.mem_cons_self ..)) hc)⟩
    rw [svRun, h1]
    simp only [g1]
    rfl

/-- What a user of a vector with this descriptor may rely on; the two instances
in `Verif.Props.SpVec` spell it out. -/
theorem sv_history (ok : DescOK d good slot norm) (hsh : d.shift ≤ 64) (ar : Arith V)
    (dflt : Option V) (ops : List (Op Nat V)) (hv : ∀ op ∈ ops, op.valid Word) :
    ∃ sv, svRun d ar (svMake β dflt) ops =
        some (sv, (runMap norm (incBase ar dflt) ar.add (fun _ => none) ops).2) ∧
      sv.dflt = dflt ∧
      (∀ i fb, svRef d sv i fb = some
        (((runMap norm (incBase ar dflt) ar.add (fun _ => none) ops).1 i).orElse (fun _ => fb))) ∧
      (∃ E N, Lists E (runMap norm (incBase ar dflt) ar.add (fun _ => none) ops).1 ∧
        (∀ rounds fuel, N ≤ rounds → N ≤ fuel →
          svCollect d sv rounds fuel (svIterInit β) [] = some E.reverse) ∧
        ((∀ op ∈ ops, op.noInc) → sv.numEntries = E.length % 2 ^ 64)) ∧
      trieCheck sv.trie = some true := by
  have hM : content d slot (svMake β dflt : SV β V).trie = fun _ => none := by
    funext i; exact content_init i
  obtain ⟨sv, h1, h2, h3, h4, h5⟩ := svRun_ok ok hsh ar ops (svMake β dflt) (init_svinv dflt) hv
  rw [hM] at h1 h4
  have h4' : content d slot sv.trie = (runMap norm (incBase ar dflt) ar.add (fun _ => none) ops).1 := h4
  have hL := lists_content (d := d) (slot := slot) h2.trie
  rw [h4'] at hL
  obtain ⟨N, hN⟩ := svCollect_all ok hsh h2
  refine ⟨sv, h1, h3, ?_, ⟨entriesOf d slot (allLeaves sv.trie), N, hL, hN, fun hn => h5 hn rfl⟩,
    trieCheck_ok h2.trie⟩
  intro i fb
  rw [svRef_ok ok h2, h4']

end Gauche.SpVec
