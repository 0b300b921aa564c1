import Verif.Proof.StrSearch

namespace Gauche.Str
open Gauche.Utf8 Gauche.Spec.Utf8

theorem pos_occurs {cs ds : List Nat} {i : Nat} (ho : OccursAt cs ds i) :
    pos cs (i + ds.length) = pos cs i + blen ds := by
  obtain ⟨_, t, ht⟩ := ho
  rw [pos_add, ← ht]
  congr 1
  simp [pos]

theorem blen_drop (cs : List Nat) (k : Nat) : blen (cs.drop k) = blen cs - pos cs k := by
  have := pos_add cs k cs.length
  rw [pos_len cs (k + cs.length) (by omega), pos_len (cs.drop k) cs.length (by simp)] at this
  omega

theorem stringScan_ok {b : Body} {cs ds : List Nat} (h : Is b cs) {s2 : Mem} (searcher : Searcher) (mode : Mode) (i : Nat)
    (ho : OccursAt cs ds i) (hf : scanFind b s2 (blen ds) ds.length false searcher = some (pos cs i, (i : Int))) :
    ∃ r, stringScan b s2 (blen ds) ds.length false mode searcher = some (some r) ∧ ScanOK cs ds i mode r := by
  have hl := occurs_len ho
  have hp := pos_occurs ho
  have hple := pos_le cs i
  have hple2 := pos_le cs (i + ds.length)
  unfold stringScan
  rw [h.complete]
  simp only [Bool.or_false, hf]
  have hbefore : ∃ r, makeString b.mem (pos cs i) i false = some r ∧ Is r (cs.take i) ∧ r.index = none :=
    makeString_is (codes_take h.codes i) rfl (by simp; omega) (holds_take h.holds i)
  have hupto : ∃ r, makeString b.mem ((pos cs i : Int) + blen ds) ((i : Int) + ds.length) false = some r ∧
      Is r (cs.take (i + ds.length)) ∧ r.index = none :=
    makeString_is (codes_take h.codes _) (by rw [← pos, hp]; simp) (by simp; omega) (holds_take h.holds _)
  have hfrom : ∃ r, makeString (adv b.mem (pos cs i)) ((b.size : Int) - pos cs i) (b.len - i) false = some r ∧
      Is r (cs.drop i) ∧ r.index = none :=
    makeString_is (codes_drop h.codes i) (by rw [blen_drop, h.size]; omega) (by rw [h.len]; simp; omega)
      (holds_adv h.holds i)
  have hafter : ∃ r, makeString (adv b.mem (pos cs i + blen ds)) ((b.size : Int) - pos cs i - blen ds)
      (b.len - i - ds.length) false = some r ∧ Is r (cs.drop (i + ds.length)) ∧ r.index = none := by
    rw [← hp]
    exact makeString_is (codes_drop h.codes _) (by rw [blen_drop, h.size, hp]; omega) (by rw [h.len]; simp; omega)
      (holds_adv h.holds _)
  obtain ⟨rb, eb, ib, _⟩ := hbefore
  obtain ⟨ru, eu, iu, _⟩ := hupto
  obtain ⟨rf, ef, if_, _⟩ := hfrom
  obtain ⟨ra, ea, ia, _⟩ := hafter
  cases mode
  · exact ⟨_, rfl, rfl⟩
  · exact ⟨.one rb, by rw [eb]; rfl, ib⟩
  · exact ⟨.one ra, by rw [ea]; rfl, ia⟩
  · exact ⟨.two rb rf, by rw [eb, ef]; rfl, ib, if_⟩
  · exact ⟨.two ru ra, by rw [eu, ea]; rfl, iu, ia⟩
  · exact ⟨.two rb ra, by rw [eb, ea]; rfl, ib, ia⟩
  · refine ⟨.cursor (pos cs i), ?_, rfl⟩
    rw [makeCursor, h.size, if_neg (by omega)]
    simp

theorem stringScan_none {b : Body} {s2 : Mem} {siz2 len2 : Nat} (h : b.incomplete = false) (searcher : Searcher) (mode : Mode)
    (hf : scanFind b s2 siz2 len2 false searcher = none) :
    stringScan b s2 siz2 len2 false mode searcher = some none := by
  unfold stringScan
  rw [h]
  simp [hf]

theorem stringScan_fwd {b : Body} {cs ds : List Nat} (h : Is b cs) {s2 : Mem} (hd : ∀ c ∈ ds, IsCode c)
    (h2 : Holds s2 (encodeAll ds)) (mode : Mode) :
    (∃ i r, FirstAt cs ds i ∧ stringScan b s2 (blen ds) ds.length false mode stringSearch = some (some r) ∧
      ScanOK cs ds i mode r) ∨
    ((∀ i, ¬ OccursAt cs ds i) ∧ stringScan b s2 (blen ds) ds.length false mode stringSearch = some none) := by
  have := scanFind_fwd h hd h2
  split at this
  · rename_i bi ci hf
    obtain ⟨i, hi, rfl, rfl⟩ := this
    obtain ⟨r, e, ok⟩ := stringScan_ok h stringSearch mode i hi.1 hf
    exact Or.inl ⟨i, r, hi, e, ok⟩
  · rename_i hf
    exact Or.inr ⟨this, stringScan_none h.complete _ _ hf⟩

theorem stringScan_rev {b : Body} {cs ds : List Nat} (h : Is b cs) {s2 : Mem} (hd : ∀ c ∈ ds, IsCode c)
    (h2 : Holds s2 (encodeAll ds)) (hov : NoOverrun b.mem b.size s2 (blen ds)) (mode : Mode) :
    (∃ i r, LastAt cs ds i ∧ stringScan b s2 (blen ds) ds.length false mode stringSearchReverse = some (some r) ∧
      ScanOK cs ds i mode r) ∨
    ((∀ i, ¬ OccursAt cs ds i) ∧ stringScan b s2 (blen ds) ds.length false mode stringSearchReverse = some none) := by
  have := scanFind_rev h hd h2 hov
  split at this
  · rename_i bi ci hf
    obtain ⟨i, hi, rfl, rfl⟩ := this
    obtain ⟨r, e, ok⟩ := stringScan_ok h stringSearchReverse mode i hi.1 hf
    exact Or.inl ⟨i, r, hi, e, ok⟩
  · rename_i hf
    exact Or.inr ⟨this, stringScan_none h.complete _ _ hf⟩

theorem occurs_single {cs : List Nat} {c i : Nat} : OccursAt cs [c] i ↔ cs[i]? = some c := by
  constructor
  · rintro ⟨_, t, ht⟩
    have : (cs.drop i)[0]? = some c := by rw [← ht]; rfl
    simpa using this
  · intro h
    obtain ⟨hi, e⟩ := List.getElem?_eq_some_iff.1 h
    exact ⟨by omega, ⟨cs.drop (i + 1), by rw [List.drop_eq_getElem_cons hi, e]; rfl⟩⟩

theorem scanChar_both {b : Body} {cs : List Nat} (h : Is b cs) (ch : Nat) (hc : IsCode ch) :
    (∃ i v1 v2, cs[i]? = some ch ∧ ch ∉ cs.take i ∧ scanChar b ch .both = some (some (.two v1 v2)) ∧
      Is v1 (cs.take i) ∧ Is v2 (cs.drop (i + 1))) ∨ (ch ∉ cs ∧ scanChar b ch .both = some none) := by
  unfold scanChar
  have h2 : Holds (ofBytes (charPut ch)) (encodeAll [ch]) := by
    rw [charPut_eq ch hc, show encodeAll [ch] = encode ch from by simp [encodeAll]]
    exact holds_ofBytes _
  have hb : nbytes ch = blen [ch] := by simp [blen_cons]
  rw [hb]
  rcases stringScan_fwd h (by simpa using hc) h2 .both with ⟨i, r, hi, e, ok⟩ | ⟨hno, e⟩
  · left
    cases r with
    | two a c =>
      obtain ⟨o1, o2⟩ := ok
      refine ⟨i, a, c, occurs_single.1 hi.1, ?_, e, o1, o2⟩
      intro hmem
      obtain ⟨j, hj, ej⟩ := List.mem_iff_getElem.1 hmem
      have hji : j < i := by simp at hj; omega
      apply hi.2 j hji
      rw [occurs_single]
      rw [List.getElem_take] at ej
      rw [List.getElem?_eq_getElem (by simp at hj; omega), ej]
    | _ => exact absurd ok (by simp [ScanOK])
  · right
    refine ⟨fun hmem => ?_, e⟩
    obtain ⟨j, hj, ej⟩ := List.mem_iff_getElem.1 hmem
    exact hno j (occurs_single.2 (by rw [List.getElem?_eq_getElem hj, ej]))

theorem splitLoop_ok (ch : Nat) (hc : IsCode ch) (fuel : Nat) (b : Body) (cs : List Nat) (limit : Int) (h : Is b cs)
    (hl : limit ≠ 0) (hf : cs.length < fuel) :
    ∃ bs css, splitLoop ch fuel b limit = some bs ∧ AllIs bs css ∧ SplitOK cs ch limit css := by
  induction fuel generalizing b cs limit with
  | zero => omega
  | succ fuel ih =>
    rw [splitLoop]
    rcases scanChar_both h ch hc with ⟨i, v1, v2, hi, hnot, e, o1, o2⟩ | ⟨hnot, e⟩
    · rw [e]
      obtain ⟨hil, hie⟩ := List.getElem?_eq_some_iff.1 hi
      have hcs : cs = cs.take i ++ ch :: cs.drop (i + 1) := by
        rw [← hie, ← List.drop_eq_getElem_cons hil, List.take_append_drop]
      have hcnt : cs.count ch = (cs.drop (i + 1)).count ch + 1 := by
        conv_lhs => rw [hcs]
        rw [List.count_append, List.count_eq_zero.2 hnot, List.count_cons_self]; omega
      simp only
      by_cases h1 : limit - 1 = 0
      · rw [if_pos h1]
        refine ⟨_, [cs.take i, cs.drop (i + 1)], rfl, .cons o1 (.cons o2 .nil), ?_, ?_, ?_⟩
        · conv_rhs => rw [hcs]
          simp [List.intercalate]
        · simpa using hnot
        · rw [if_neg (by omega), hcnt]
          simp only [List.length_cons, List.length_nil]
          omega
      · rw [if_neg h1]
        obtain ⟨bs, css, e2, a2, s2⟩ := ih v2 (cs.drop (i + 1)) (limit - 1) o2 h1 (by simp; omega)
        have hne : css ≠ [] := by
          intro hcon
          have := s2.count
          rw [hcon] at this
          simp only [List.length_nil] at this
          split at this <;> omega
        refine ⟨v1 :: bs, cs.take i :: css, by rw [e2]; rfl, .cons o1 a2, ?_, ?_, ?_⟩
        · obtain ⟨x, xs, rfl⟩ := List.exists_cons_of_ne_nil hne
          have e3 : List.intercalate [ch] (cs.take i :: x :: xs) = cs.take i ++ [ch] ++ List.intercalate [ch] (x :: xs) := by
            simp [List.intercalate]
          rw [e3, s2.join]
          conv_rhs => rw [hcs]
          simp
        · obtain ⟨x, xs, rfl⟩ := List.exists_cons_of_ne_nil hne
          intro p hp
          rw [List.dropLast_cons_of_ne_nil (by simp)] at hp
          rcases List.mem_cons.1 hp with rfl | hp
          · exact hnot
          · exact s2.free p hp
        · have := s2.count
          rw [List.length_cons]
          split at this <;> split <;> omega
    · rw [e]
      refine ⟨[b], [cs], rfl, .cons h .nil, by simp [List.intercalate], by simp, ?_⟩
      rw [List.count_eq_zero.2 hnot]
      simp

theorem splitByChar_ok {b : Body} {cs : List Nat} (h : Is b cs) (ch : Nat) (hc : IsCode ch) (limit : Int) :
    ∃ bs css, splitByChar b ch limit = some bs ∧ AllIs bs css ∧ SplitOK cs ch limit css := by
  unfold splitByChar
  by_cases hl : limit = 0
  · rw [if_pos hl]
    refine ⟨[b], [cs], rfl, .cons h .nil, by simp [List.intercalate], by simp, ?_⟩
    subst hl; simp
  · rw [if_neg hl]
    refine splitLoop_ok ch hc _ b cs limit h hl ?_
    rw [h.size]
    have := len_le_blen cs
    omega

end Gauche.Str
