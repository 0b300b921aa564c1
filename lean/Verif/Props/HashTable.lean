import Verif.Proof.HashTable4
/-!
Properties C20, C55 and C56: hash tables are finite maps (src/hash.c, src/libhash.scm).

Specification: Verif/Spec/FinMap.lean (finite maps as association lists) and Verif/Spec/TableProg.lean (what each
call returns and does, in terms of finite maps).
-/
namespace Gauche.HashTable

variable {K V : Type}

/-- A world represents a list of finite maps: the invariant holds, and table `i` holds the bindings of map `i`. -/
structure Rep (c : Cfg K) (w : World K V) (S : List (List (K × V))) : Prop where
  wwf : WWF c w
  len : w.tabs.length = S.length
  rep : ∀ (i : Nat) (t : Table) (l : List (K × V)), w.tabs[i]? = some t → S[i]? = some l → (abs w.mem t).Perm l

theorem Rep.get {c : Cfg K} {w : World K V} {S : List (List (K × V))} (h : Rep c w S) {i : Nat} {l : List (K × V)}
    (hl : S[i]? = some l) : ∃ t, w.tabs[i]? = some t ∧ WF c w.mem t ∧ (abs w.mem t).Perm l := by
  have hi : i < w.tabs.length := by
    rw [h.len]; by_contra hn; rw [List.getElem?_eq_none (by omega)] at hl; cases hl
  exact ⟨_, List.getElem?_eq_getElem hi, h.wwf.wf i _ (List.getElem?_eq_getElem hi),
    h.rep i _ l (List.getElem?_eq_getElem hi) hl⟩

theorem Rep.get_none {c : Cfg K} {w : World K V} {S : List (List (K × V))} (h : Rep c w S) {i : Nat}
    (hl : S[i]? = none) : w.tabs[i]? = none := by
  rw [List.getElem?_eq_none_iff] at *; rw [h.len]; exact hl

theorem Rep.set {c : Cfg K} {w : World K V} {S : List (List (K × V))} (h : Rep c w S) {i : Nat} {t : Table}
    {l : List (K × V)} (ht : w.tabs[i]? = some t) (hl : S[i]? = some l)
    {m' : Mem K V} {t' : Table} {l' l'' : List (K × V)} (he : Eff c w.mem t m' t' l') (hp : l'.Perm l'') :
    Rep c (w.upd i m' t') (S.set i l'') := by
  obtain ⟨h1, h2⟩ := h.wwf.upd ht he
  refine ⟨h1, ?_, ?_⟩
  · unfold World.upd; simp [h.len]
  · intro j tj lj hj hlj
    by_cases hij : i = j
    · subst hij
      rw [upd_get_self ht] at hj
      have : i < S.length := by
        by_contra hn; rw [List.getElem?_eq_none (by omega)] at hl; cases hl
      rw [List.getElem?_set_self this] at hlj
      injection hj with hj; injection hlj with hlj
      subst hj hlj
      rw [upd_mem]
      exact he.perm.trans hp
    · rw [upd_get_ne hij] at hj
      rw [List.getElem?_set_ne hij] at hlj
      rw [upd_mem, h2 j tj (Ne.symm hij) hj]
      exact h.rep j tj lj hj hlj

theorem Rep.add {c : Cfg K} {w : World K V} {S : List (List (K × V))} (h : Rep c w S) {m' : Mem K V} {t' : Table}
    {l' : List (K × V)} (hf : w.mem.fresh ≤ m'.fresh) (hold : ∀ a < w.mem.fresh, m'.ent a = w.mem.ent a)
    (hnew : ∀ a ∈ all t', w.mem.fresh ≤ a) (hw : WF c m' t') (hp : (abs m' t').Perm l') :
    Rep c { mem := m', tabs := w.tabs ++ [t'] } (S ++ [l']) := by
  have hfr : ∀ (i : Nat) (t : Table), w.tabs[i]? = some t → WF c m' t ∧ abs m' t = abs w.mem t ∧ Disj t' t := by
    intro i t ht
    have hwt := h.wwf.wf i t ht
    obtain ⟨k1, k2⟩ := frame hwt hf (fun a ha => hold a (hwt.fresh a ha))
    refine ⟨k1, k2, ?_⟩
    intro a ha ha'
    have := hnew a ha
    have := hwt.fresh a ha'
    omega
  have hcase : ∀ (i : Nat) (t : Table), (w.tabs ++ [t'])[i]? = some t →
      (w.tabs[i]? = some t ∧ i < w.tabs.length) ∨ (t = t' ∧ i = w.tabs.length) := by
    intro i t ht
    by_cases hi : i < w.tabs.length
    · left; rw [List.getElem?_append_left hi] at ht; exact ⟨ht, hi⟩
    · right
      rw [List.getElem?_append_right (by omega)] at ht
      have : i - w.tabs.length = 0 := by
        by_contra hne
        rw [List.getElem?_eq_none (by simp; omega)] at ht; cases ht
      rw [this] at ht
      injection ht with ht
      exact ⟨ht.symm, by omega⟩
  refine ⟨⟨?_, ?_⟩, ?_, ?_⟩
  · intro i t ht
    rcases hcase i t ht with ⟨h1, _⟩ | ⟨rfl, _⟩
    · exact (hfr i t h1).1
    · exact hw
  · intro i j t u hij hi hj
    rcases hcase i t hi with ⟨h1, g1⟩ | ⟨rfl, g1⟩
    · rcases hcase j u hj with ⟨h2, _⟩ | ⟨rfl, _⟩
      · exact h.wwf.disj i j t u hij h1 h2
      · intro a ha ha'; exact (hfr i t h1).2.2 a ha' ha
    · rcases hcase j u hj with ⟨h2, _⟩ | ⟨rfl, g2⟩
      · exact (hfr j u h2).2.2
      · omega
  · simp [h.len]
  · intro i t l hi hl
    dsimp only at hi ⊢
    rcases hcase i t hi with ⟨h1, g1⟩ | ⟨rfl, g1⟩
    · rw [List.getElem?_append_left (by rw [← h.len]; exact g1)] at hl
      rw [(hfr i t h1).2.1]
      exact h.rep i t l h1 hl
    · rw [List.getElem?_append_right (by rw [← h.len]; omega), ← h.len, g1, Nat.sub_self] at hl
      injection hl with hl
      subst hl
      exact hp

theorem total_ge {S : List (List (K × V))} {i : Nat} {l : List (K × V)} (h : S[i]? = some l) :
    l.length ≤ TableProg.total S := by
  unfold TableProg.total
  have : l ∈ S := List.mem_iff_getElem?.2 ⟨i, h⟩
  clear h
  induction S with
  | nil => simp at this
  | cons x S ih =>
    rw [List.map_cons, List.sum_cons]
    rcases List.mem_cons.1 this with rfl | h
    · omega
    · have := ih h; omega

theorem total_ge2 {S : List (List (K × V))} {i j : Nat} {l l' : List (K × V)} (hij : i ≠ j) (h : S[i]? = some l)
    (h' : S[j]? = some l') : l.length + l'.length ≤ TableProg.total S := by
  induction S generalizing i j with
  | nil => simp at h
  | cons x S ih =>
    have hx : TableProg.total (x :: S) = x.length + TableProg.total S := rfl
    rw [hx]
    cases i with
    | zero =>
      cases j with
      | zero => exact absurd rfl hij
      | succ j =>
        simp at h h'
        subst h
        have := total_ge h'
        omega
    | succ i =>
      cases j with
      | zero =>
        simp at h h'
        subst h'
        have := total_ge h
        omega
      | succ j =>
        simp at h h'
        have := ih (by omega) h h'
        omega

/-- One call. -/
theorem step_refines (p : Pairs V) {c : Cfg K} (hc : c.Ok) {w : World K V} {S : List (List (K × V))} (hR : Rep c w S)
    (op : Op K V) (hop : TableProg.OkOp op) (hfit : TableProg.total S < intMax) :
    (step p c w op).1 = (TableProg.step p c.eq S op).1 ∧ Rep c (step p c w op).2 (TableProg.step p c.eq S op).2 := by
  have hlen : ∀ {i : Nat} {t : Table} {l : List (K × V)}, S[i]? = some l → WF c w.mem t → (abs w.mem t).Perm l →
      t.numEntries = l.length ∧ t.numEntries < intMax := by
    intro i t l hl hw hp
    have h1 := length_abs hw
    rw [hp.length_eq] at h1
    have := total_ge hl
    omega
  have hlook : ∀ {t : Table} {l : List (K × V)}, WF c w.mem t → (abs w.mem t).Perm l → ∀ k,
      FinMap.lookup c.eq (abs w.mem t) k = FinMap.lookup c.eq l k := by
    intro t l hw hp k
    exact FinMap.lookup_perm hc.equiv hp (distinct_abs hw) k
  cases op with
  | make n =>
    unfold step TableProg.step
    dsimp only
    obtain ⟨h1, h2, h3⟩ := make_wf (c := c) w.mem n hop
    refine ⟨by rw [hR.len], hR.add (le_refl _) (fun _ _ => rfl) (by rw [h3]; simp) h1 ?_⟩
    unfold abs; rw [h2]; exact List.Perm.refl _
  | copy i =>
    unfold step TableProg.step
    dsimp only
    cases hS : S[i]? with
    | none => rw [hR.get_none hS]; exact ⟨rfl, hR⟩
    | some l =>
      obtain ⟨t, ht, hw, hp⟩ := hR.get hS
      rw [ht]
      dsimp only
      obtain ⟨h1, h2, h3, h4, h5⟩ := copy_spec hw
      exact ⟨by rw [hR.len], hR.add h3 h4 h5 h1 (by rw [h2]; exact hp)⟩
  | get i k fb =>
    unfold step TableProg.step
    dsimp only
    cases hS : S[i]? with
    | none => rw [hR.get_none hS]; exact ⟨rfl, hR⟩
    | some l =>
      obtain ⟨t, ht, hw, hp⟩ := hR.get hS
      rw [ht]
      dsimp only
      refine ⟨?_, hR⟩
      unfold tget
      rw [ref_eq hc hw, hlook hw hp]
      cases FinMap.lookup c.eq l k with
      | some v => rfl
      | none => cases fb <;> rfl
  | exists? i k =>
    unfold step TableProg.step
    dsimp only
    cases hS : S[i]? with
    | none => rw [hR.get_none hS]; exact ⟨rfl, hR⟩
    | some l =>
      obtain ⟨t, ht, hw, hp⟩ := hR.get hS
      rw [ht]
      dsimp only
      rw [exists_eq hc hw, hlook hw hp]
      exact ⟨rfl, hR⟩
  | count i =>
    unfold step TableProg.step
    dsimp only
    cases hS : S[i]? with
    | none => rw [hR.get_none hS]; exact ⟨rfl, hR⟩
    | some l =>
      obtain ⟨t, ht, hw, hp⟩ := hR.get hS
      rw [ht]
      dsimp only
      rw [(hlen hS hw hp).1]
      exact ⟨rfl, hR⟩
  | put i k v =>
    unfold step TableProg.step
    dsimp only
    cases hS : S[i]? with
    | none => rw [hR.get_none hS]; exact ⟨rfl, hR⟩
    | some l =>
      obtain ⟨t, ht, hw, hp⟩ := hR.get hS
      rw [ht]
      dsimp only
      obtain ⟨h1, h2⟩ := tset_eff hc hw k v false false (hlen hS hw hp).2
      unfold put
      refine ⟨by rw [h1]; rfl, hR.set ht hS h2 ?_⟩
      have : (FinMap.insert c.eq (abs w.mem t) k v).Perm (FinMap.insert c.eq l k v) := FinMap.insert_perm hp k v
      cases FinMap.lookup c.eq (abs w.mem t) k <;> simpa using this
  | adjoin i k v =>
    unfold step TableProg.step
    dsimp only
    cases hS : S[i]? with
    | none => rw [hR.get_none hS]; exact ⟨rfl, hR⟩
    | some l =>
      obtain ⟨t, ht, hw, hp⟩ := hR.get hS
      rw [ht]
      dsimp only
      obtain ⟨h1, h2⟩ := tset_eff hc hw k v true false (hlen hS hw hp).2
      unfold adjoin
      refine ⟨by rw [h1]; rfl, hR.set ht hS h2 ?_⟩
      have : (FinMap.insert c.eq (abs w.mem t) k v).Perm (FinMap.insert c.eq l k v) := FinMap.insert_perm hp k v
      rw [hlook hw hp]
      cases FinMap.lookup c.eq l k
      · simpa using this
      · simpa using hp
  | replace i k v =>
    unfold step TableProg.step
    dsimp only
    cases hS : S[i]? with
    | none => rw [hR.get_none hS]; exact ⟨rfl, hR⟩
    | some l =>
      obtain ⟨t, ht, hw, hp⟩ := hR.get hS
      rw [ht]
      dsimp only
      obtain ⟨h1, h2⟩ := tset_eff hc hw k v false true (hlen hS hw hp).2
      unfold replace
      refine ⟨by rw [h1]; rfl, hR.set ht hS h2 ?_⟩
      have : (FinMap.insert c.eq (abs w.mem t) k v).Perm (FinMap.insert c.eq l k v) := FinMap.insert_perm hp k v
      rw [hlook hw hp]
      cases FinMap.lookup c.eq l k
      · simpa using hp
      · simpa using this
  | delete i k =>
    unfold step TableProg.step
    dsimp only
    cases hS : S[i]? with
    | none => rw [hR.get_none hS]; exact ⟨rfl, hR⟩
    | some l =>
      obtain ⟨t, ht, hw, hp⟩ := hR.get hS
      rw [ht]
      dsimp only
      obtain ⟨h1, h2⟩ := delete_eff hc hw k
      refine ⟨by rw [h1, hlook hw hp], hR.set ht hS h2 (FinMap.erase_perm hp k)⟩
  | update i k f fb =>
    unfold step TableProg.step
    dsimp only
    cases hS : S[i]? with
    | none => rw [hR.get_none hS]; exact ⟨rfl, hR⟩
    | some l =>
      obtain ⟨t, ht, hw, hp⟩ := hR.get hS
      rw [ht]
      dsimp only
      have h1 := updateStart_eff hc hw k fb (hlen hS hw hp).2
      rw [hlook hw hp] at h1
      cases ho : (FinMap.lookup c.eq l k).or fb with
      | none =>
        rw [ho] at h1
        dsimp only at h1 ⊢
        unfold update
        rw [h1]
        dsimp only
        refine ⟨rfl, ?_⟩
        have := hR.set ht hS (Eff.id hw) hp
        have hset : S.set i l = S := by
          apply List.ext_getElem?
          intro j
          by_cases hij : i = j
          · subst hij
            have : i < S.length := by
              by_contra hn; rw [List.getElem?_eq_none (by omega)] at hS; cases hS
            rw [List.getElem?_set_self this, hS]
          · rw [List.getElem?_set_ne hij]
        rw [hset] at this
        exact this
      | some v =>
        rw [ho] at h1
        dsimp only at h1 ⊢
        obtain ⟨a, m', t', h2, _, _, h3⟩ := h1
        unfold update
        rw [h2]
        dsimp only
        exact ⟨rfl, hR.set ht hS (h3 (f v)) (FinMap.insert_perm hp k _)⟩
  | push i k v =>
    unfold step TableProg.step
    dsimp only
    cases hS : S[i]? with
    | none => rw [hR.get_none hS]; exact ⟨rfl, hR⟩
    | some l =>
      obtain ⟨t, ht, hw, hp⟩ := hR.get hS
      rw [ht]
      dsimp only
      obtain ⟨h1, h2⟩ := push_eff p hc hw k v (hlen hS hw hp).2
      refine ⟨by rw [h1]; rfl, hR.set ht hS h2 ?_⟩
      rw [hlook hw hp]
      exact FinMap.insert_perm hp k _
  | pop i k fb =>
    unfold step TableProg.step
    dsimp only
    cases hS : S[i]? with
    | none => rw [hR.get_none hS]; exact ⟨rfl, hR⟩
    | some l =>
      obtain ⟨t, ht, hw, hp⟩ := hR.get hS
      rw [ht]
      dsimp only
      have h1 := pop_eff p hc hw k fb
      rw [hlook hw hp] at h1
      cases hl : FinMap.lookup c.eq l k with
      | none =>
        rw [hl] at h1
        dsimp only at h1
        rw [h1]
        dsimp only [Option.bind]
        refine ⟨by cases fb <;> rfl, ?_⟩
        rw [upd_id ht]; exact hR
      | some x =>
        rw [hl] at h1
        dsimp only [Option.bind] at h1 ⊢
        cases hu : p.uncons x with
        | none =>
          rw [hu] at h1
          dsimp only at h1 ⊢
          rw [h1]
          refine ⟨by cases fb <;> rfl, ?_⟩
          dsimp only
          rw [upd_id ht]; exact hR
        | some xr =>
          obtain ⟨y, rest⟩ := xr
          rw [hu] at h1
          dsimp only at h1 ⊢
          exact ⟨by rw [h1.1]; rfl, hR.set ht hS h1.2 (FinMap.insert_perm hp k _)⟩
  | clear i =>
    unfold step TableProg.step
    dsimp only
    cases hS : S[i]? with
    | none => rw [hR.get_none hS]; exact ⟨rfl, hR⟩
    | some l =>
      obtain ⟨t, ht, hw, hp⟩ := hR.get hS
      rw [ht]
      dsimp only
      exact ⟨rfl, hR.set ht hS (clear_eff hw) (List.Perm.refl _)⟩
  | prune i pred =>
    unfold step TableProg.step
    dsimp only
    cases hS : S[i]? with
    | none => rw [hR.get_none hS]; exact ⟨rfl, hR⟩
    | some l =>
      obtain ⟨t, ht, hw, hp⟩ := hR.get hS
      rw [ht]
      dsimp only
      obtain ⟨t', h1, h2⟩ := prune_eff hc hw (onValue pred) (fuel := t.numEntries + 1) (by omega)
      rw [h1]
      exact ⟨rfl, hR.set ht hS h2 (hp.filter _)⟩
  | mapBang i f =>
    unfold step TableProg.step
    dsimp only
    cases hS : S[i]? with
    | none => rw [hR.get_none hS]; exact ⟨rfl, hR⟩
    | some l =>
      obtain ⟨t, ht, hw, hp⟩ := hR.get hS
      rw [ht]
      dsimp only
      obtain ⟨m', t', h1, h2⟩ := mapBang_eff hc hw f (fuel := t.numEntries + 1) (by omega)
      rw [h1]
      exact ⟨rfl, hR.set ht hS h2 (hp.map _)⟩
  | union i j =>
    unfold step TableProg.step
    dsimp only
    cases hS : S[i]? with
    | none => rw [hR.get_none hS]; exact ⟨rfl, hR⟩
    | some l1 =>
      obtain ⟨t1, ht1, hw1, hp1⟩ := hR.get hS
      rw [ht1]
      cases hS2 : S[j]? with
      | none => rw [hR.get_none hS2]; exact ⟨rfl, hR⟩
      | some l2 =>
        obtain ⟨t2, ht2, hw2, hp2⟩ := hR.get hS2
        rw [ht2]
        dsimp only
        obtain ⟨m', t', h1, h2⟩ := union_eff hc hR.wwf ht1 ht2 (fuel := t2.numEntries + 1) (by omega) (by
          intro hij
          have := total_ge2 hij hS hS2
          rw [(hlen hS hw1 hp1).1, (hlen hS2 hw2 hp2).1]; omega)
        rw [h1]
        refine ⟨rfl, hR.set ht1 hS h2 (hp1.append ?_)⟩
        unfold TableProg.diff
        refine (hp2.filter _).trans (List.Perm.of_eq ?_)
        apply List.filter_congr
        intro q _
        rw [hlook hw1 hp1]
  | intersection i j =>
    unfold step TableProg.step
    dsimp only
    cases hS : S[i]? with
    | none => rw [hR.get_none hS]; exact ⟨rfl, hR⟩
    | some l1 =>
      obtain ⟨t1, ht1, hw1, hp1⟩ := hR.get hS
      rw [ht1]
      cases hS2 : S[j]? with
      | none => rw [hR.get_none hS2]; exact ⟨rfl, hR⟩
      | some l2 =>
        obtain ⟨t2, ht2, hw2, hp2⟩ := hR.get hS2
        rw [ht2]
        dsimp only
        obtain ⟨t', h1, h2⟩ := intersection_eff hc hR.wwf ht1 ht2 (fuel := t1.numEntries + 1) (by omega)
        rw [h1]
        refine ⟨rfl, hR.set ht1 hS h2 ?_⟩
        unfold TableProg.inter
        refine (hp1.filter _).trans (List.Perm.of_eq ?_)
        apply List.filter_congr
        intro q _
        rw [hlook hw2 hp2]
  | difference i j =>
    unfold step TableProg.step
    dsimp only
    cases hS : S[i]? with
    | none => rw [hR.get_none hS]; exact ⟨rfl, hR⟩
    | some l1 =>
      obtain ⟨t1, ht1, hw1, hp1⟩ := hR.get hS
      rw [ht1]
      cases hS2 : S[j]? with
      | none => rw [hR.get_none hS2]; exact ⟨rfl, hR⟩
      | some l2 =>
        obtain ⟨t2, ht2, hw2, hp2⟩ := hR.get hS2
        rw [ht2]
        dsimp only
        obtain ⟨t', h1, h2⟩ := difference_eff hc hR.wwf ht1 ht2 (fuel := t1.numEntries + 1) (by omega)
        rw [h1]
        refine ⟨rfl, hR.set ht1 hS h2 ?_⟩
        unfold TableProg.diff
        refine (hp1.filter _).trans (List.Perm.of_eq ?_)
        apply List.filter_congr
        intro q _
        rw [hlook hw2 hp2]
  | xor i j =>
    unfold step TableProg.step
    dsimp only
    cases hS : S[i]? with
    | none => rw [hR.get_none hS]; exact ⟨rfl, hR⟩
    | some l1 =>
      obtain ⟨t1, ht1, hw1, hp1⟩ := hR.get hS
      rw [ht1]
      cases hS2 : S[j]? with
      | none => rw [hR.get_none hS2]; exact ⟨rfl, hR⟩
      | some l2 =>
        obtain ⟨t2, ht2, hw2, hp2⟩ := hR.get hS2
        rw [ht2]
        dsimp only
        obtain ⟨m', t', h1, h2⟩ := xor_eff hc hR.wwf ht1 ht2 (fuel := t2.numEntries + 1) (by omega) (by
          intro hij
          have := total_ge2 hij hS hS2
          rw [(hlen hS hw1 hp1).1, (hlen hS2 hw2 hp2).1]; omega)
        rw [h1]
        refine ⟨rfl, hR.set ht1 hS h2 (List.Perm.append ?_ ?_)⟩
        · unfold TableProg.diff
          refine (hp1.filter _).trans (List.Perm.of_eq ?_)
          apply List.filter_congr
          intro q _
          rw [hlook hw2 hp2]
        · unfold TableProg.diff
          refine (hp2.filter _).trans (List.Perm.of_eq ?_)
          apply List.filter_congr
          intro q _
          rw [hlook hw1 hp1]
  | compare i j veq =>
    unfold step TableProg.step
    dsimp only
    cases hS : S[i]? with
    | none => rw [hR.get_none hS]; exact ⟨rfl, hR⟩
    | some l1 =>
      obtain ⟨t1, ht1, hw1, hp1⟩ := hR.get hS
      rw [ht1]
      cases hS2 : S[j]? with
      | none => rw [hR.get_none hS2]; exact ⟨rfl, hR⟩
      | some l2 =>
        obtain ⟨t2, ht2, hw2, hp2⟩ := hR.get hS2
        rw [ht2]
        dsimp only
        by_cases hij : i = j
        · rw [if_pos hij, if_pos hij]; exact ⟨rfl, hR⟩
        · rw [if_neg hij, if_neg hij]
          rw [compare_eq hc veq hop hw1 hw2 (fuel := t1.numEntries + t2.numEntries + 1) (by omega)]
          dsimp only
          rw [incl_perm hc.equiv veq hp1 hp2 (distinct_abs hw2), incl_perm hc.equiv veq hp2 hp1 (distinct_abs hw1)]
          exact ⟨rfl, hR⟩

theorem run_refines (p : Pairs V) {c : Cfg K} (hc : c.Ok) : ∀ (ops : List (Op K V)) (w : World K V)
    (S : List (List (K × V))), Rep c w S → (∀ op ∈ ops, TableProg.OkOp op) →
    (∀ pre, pre <+: ops → TableProg.total (TableProg.run p c.eq S pre).2 < intMax) →
    (run p c w ops).1 = (TableProg.run p c.eq S ops).1 ∧ Rep c (run p c w ops).2 (TableProg.run p c.eq S ops).2 := by
  intro ops
  induction ops with
  | nil => intro w S hR _ _; exact ⟨rfl, hR⟩
  | cons op ops ih =>
    intro w S hR hok hfit
    obtain ⟨h1, h2⟩ := step_refines p hc hR op (hok op (by simp)) (hfit [] (by simp))
    obtain ⟨h3, h4⟩ := ih _ _ h2 (fun o ho => hok o (by simp [ho])) (by
      intro pre hpre
      have := hfit (op :: pre) (by simpa using hpre)
      exact this)
    unfold run TableProg.run
    dsimp only
    exact ⟨by rw [h1, h3], h4⟩

/-- **C20.** Any program that creates, copies, queries and modifies any number of hash tables gets from each call the
result it would get from finite maps, and at the end each table holds exactly the bindings of the corresponding
map (so a copy is independent of its original, an entry is found whatever extensions of the bucket array
happened, and counts are exact) - provided the number of bindings stays below INT_MAX. -/
theorem C20_programs_refine_finite_maps (p : Pairs V) (c : Cfg K) (hc : c.Ok) (k0 : K) (ops : List (Op K V))
    (hok : ∀ op ∈ ops, TableProg.OkOp op)
    (hfit : ∀ pre, pre <+: ops → TableProg.total (TableProg.run p c.eq [] pre).2 < intMax) :
    (run p c (World.init k0) ops).1 = (TableProg.run p c.eq [] ops).1 ∧
    Rep c (run p c (World.init k0) ops).2 (TableProg.run p c.eq [] ops).2 := by
  refine run_refines p hc ops _ [] ?_ hok hfit
  refine ⟨⟨?_, ?_⟩, rfl, ?_⟩
  · intro i t h; simp [World.init] at h
  · intro i j t t' _ h; simp [World.init] at h
  · intro i t l h; simp [World.init] at h

/-- **C55.** Iterating over any table of a program: `hash-table->alist` lists each binding exactly once,
`hash-table-keys` and `hash-table-values` list the keys and values of the bindings in one common order, and
`hash-table-fold` folds over the bindings in that order. -/
theorem C55_iteration (p : Pairs V) (c : Cfg K) (hc : c.Ok) (k0 : K) (ops : List (Op K V))
    (hok : ∀ op ∈ ops, TableProg.OkOp op)
    (hfit : ∀ pre, pre <+: ops → TableProg.total (TableProg.run p c.eq [] pre).2 < intMax)
    (i : Nat) (l : List (K × V)) (hl : (TableProg.run p c.eq [] ops).2[i]? = some l) (fuel : Nat)
    (hf : l.length < fuel) :
    ∃ t, (run p c (World.init k0) ops).2.tabs[i]? = some t ∧ ∃ l' : List (K × V), l'.Perm l ∧
      toAlist (run p c (World.init k0) ops).2.mem t fuel = some (l'.map (fun q => (q.1, some q.2))).reverse ∧
      keys (run p c (World.init k0) ops).2.mem t fuel = some (l'.map (fun q => q.1)) ∧
      values (run p c (World.init k0) ops).2.mem t fuel = some (l'.map (fun q => some q.2)) ∧
      ∀ {ρ : Type} (kons : K → Option V → ρ → ρ) (knil : ρ),
        tfold (run p c (World.init k0) ops).2.mem t kons knil fuel
          = some (l'.foldl (fun r q => kons q.1 (some q.2) r) knil) := by
  have hR := (C20_programs_refine_finite_maps p c hc k0 ops hok hfit).2
  obtain ⟨t, ht, hw, hp⟩ := hR.get hl
  refine ⟨t, ht, abs _ t, hp, ?_⟩
  have hn : t.numEntries < fuel := by rw [← length_abs hw, hp.length_eq]; exact hf
  have key : ∀ {ρ : Type} (kons : K → Option V → ρ → ρ) (knil : ρ),
        tfold (run p c (World.init k0) ops).2.mem t kons knil fuel
          = some ((abs (run p c (World.init k0) ops).2.mem t).foldl (fun r q => kons q.1 (some q.2) r) knil) := by
    intro ρ kons knil
    rw [iterate_const hw kons knil hn, foldl_live hw]
  have fcons : ∀ {β γ : Type} (g : β → γ) (xs : List β) (acc : List γ),
      xs.foldl (fun r q => g q :: r) acc = (xs.map g).reverse ++ acc := by
    intro β γ g xs
    induction xs with
    | nil => intro acc; rfl
    | cons x xs ih => intro acc; rw [List.foldl_cons, ih]; simp
  have fapp : ∀ {β γ : Type} (g : β → γ) (xs : List β) (acc : List γ),
      xs.foldl (fun r q => r ++ [g q]) acc = acc ++ xs.map g := by
    intro β γ g xs
    induction xs with
    | nil => intro acc; simp
    | cons x xs ih => intro acc; rw [List.foldl_cons, ih]; simp
  refine ⟨?_, ?_, ?_, key⟩
  · unfold toAlist; rw [key, fcons (fun q : K × V => (q.1, some q.2))]; simp
  · unfold keys; rw [key, fapp (fun q : K × V => q.1)]; simp
  · unfold values; rw [key, fapp (fun q : K × V => some q.2)]; simp

/-- **C55.** `hash-table-seek` / `hash-table-find` (predicate without side effects) stops at a binding satisfying
the predicate if there is one, and reports failure only if there is none. -/
theorem C55_seek (p : Pairs V) (c : Cfg K) (hc : c.Ok) (k0 : K) (ops : List (Op K V))
    (hok : ∀ op ∈ ops, TableProg.OkOp op)
    (hfit : ∀ pre, pre <+: ops → TableProg.total (TableProg.run p c.eq [] pre).2 < intMax)
    (i : Nat) (l : List (K × V)) (hl : (TableProg.run p c.eq [] ops).2[i]? = some l) (fuel : Nat)
    (hf : l.length < fuel) (pred : K → Option V → Bool) :
    ∃ t, (run p c (World.init k0) ops).2.tabs[i]? = some t ∧
      ((seek (run p c (World.init k0) ops).2.mem t pred fuel = some none ∧ ∀ q ∈ l, pred q.1 (some q.2) = false) ∨
       ∃ q ∈ l, seek (run p c (World.init k0) ops).2.mem t pred fuel = some (some (q.1, some q.2)) ∧
         pred q.1 (some q.2) = true) := by
  have hR := (C20_programs_refine_finite_maps p c hc k0 ops hok hfit).2
  obtain ⟨t, ht, hw, hp⟩ := hR.get hl
  refine ⟨t, ht, ?_⟩
  have hn : t.numEntries < fuel := by rw [← length_abs hw, hp.length_eq]; exact hf
  rw [seek_eq hw pred hn]
  cases hfd : (abs (run p c (World.init k0) ops).2.mem t).find? (fun q => pred q.1 (some q.2)) with
  | none =>
    left
    refine ⟨rfl, ?_⟩
    intro q hq
    have := List.find?_eq_none.1 hfd q (hp.mem_iff.2 hq)
    simpa using this
  | some q =>
    right
    refine ⟨q, hp.mem_iff.1 (List.mem_of_find?_eq_some hfd), rfl, ?_⟩
    exact List.find?_some (p := fun q : K × V => pred q.1 (some q.2)) hfd

/-- **C55.** R7RS `hash-table-pop!` removes one binding and returns it, or raises on an empty table. -/
theorem C55_pop_r7 (p : Pairs V) (c : Cfg K) (hc : c.Ok) (k0 : K) (ops : List (Op K V))
    (hok : ∀ op ∈ ops, TableProg.OkOp op)
    (hfit : ∀ pre, pre <+: ops → TableProg.total (TableProg.run p c.eq [] pre).2 < intMax)
    (i : Nat) (l : List (K × V)) (hl : (TableProg.run p c.eq [] ops).2[i]? = some l) :
    ∃ t, (run p c (World.init k0) ops).2.tabs[i]? = some t ∧
      ((l = [] ∧ popR7 c (run p c (World.init k0) ops).2.mem t = (.error .empty, t)) ∨
       ∃ q ∈ l, ∃ t', popR7 c (run p c (World.init k0) ops).2.mem t = (.ok (q.1, some q.2), t') ∧
         Rep c ((run p c (World.init k0) ops).2.upd i (run p c (World.init k0) ops).2.mem t')
           ((TableProg.run p c.eq [] ops).2.set i (FinMap.erase c.eq l q.1))) := by
  have hR := (C20_programs_refine_finite_maps p c hc k0 ops hok hfit).2
  obtain ⟨t, ht, hw, hp⟩ := hR.get hl
  refine ⟨t, ht, ?_⟩
  obtain ⟨h1, h2⟩ := iterInit_rest t
  have h3 := iterNext_rest hw.nodup h2
  rw [h1] at h3
  unfold popR7
  cases hlive : live t with
  | nil =>
    left
    rw [hlive] at h3
    dsimp only at h3
    rw [h3]
    refine ⟨?_, rfl⟩
    have : abs (run p c (World.init k0) ops).2.mem t = [] := by unfold abs; rw [hlive]; rfl
    rw [this] at hp
    exact hp.nil_eq.symm
  | cons e r =>
    right
    rw [hlive] at h3
    obtain ⟨it', h4, _, _⟩ := h3
    rw [h4]
    have he : e ∈ live t := by rw [hlive]; simp
    obtain ⟨v, hv⟩ := Option.isSome_iff_exists.1 (hw.value e he)
    dsimp only
    rw [hv]
    refine ⟨(_, v), hp.mem_iff.1 ((mem_abs (c := c)).2 ⟨e, he, rfl, hv⟩), _, rfl, ?_⟩
    exact hR.set ht hl (delete_eff hc hw _).2 (FinMap.erase_perm hp _)

/-! ### What does not hold -/

/-- **C56.** When the procedure given to `hash-table-update!` raises and the key was absent, the fallback value
stays in the table (for every table, key and fallback). -/
theorem C56_update_raise_leaves_fallback (c : Cfg K) (hc : c.Ok) (m : Mem K V) (t : Table) (hw : WF c m t) (key : K)
    (fb : V) (hn : t.numEntries < intMax) (habs : FinMap.lookup c.eq (abs m t) key = none) :
    ∃ m' t', update c m t key (fun _ => none) (some fb) = (.error .user, m', t') ∧
      ref c m' t' key = some fb ∧ t'.numEntries = t.numEntries + 1 := by
  have h1 := updateStart_eff hc hw key (some fb) hn
  rw [habs] at h1
  dsimp only [Option.or] at h1
  obtain ⟨a, m', t', h2, _, h3, _⟩ := h1
  refine ⟨m', t', ?_, ?_, ?_⟩
  · unfold update; rw [h2]
  · rw [ref_eq hc h3.wf, FinMap.lookup_perm hc.equiv h3.perm (distinct_abs h3.wf), FinMap.lookup_insert hc.equiv,
      if_pos (hc.equiv.refl _)]
  · rw [← length_abs h3.wf, h3.perm.length_eq, insert_absent habs, List.length_cons, length_abs hw]

/-- **C56.** The procedure given to `hash-table-update!` may call the table: if the entry is still there when it
returns, its result becomes the value of the key.  `(m1, t1)` is the state when the procedure is called, `(m2, t2)`
when it returns. -/
theorem C56_update_reentrant (c : Cfg K) (hc : c.Ok) (m2 : Mem K V) (t2 : Table) (hw : WF c m2 t2) (key : K) (a : Nat)
    (r : V) (ha : findKey c m2 t2 key = some a) :
    WF c (updateFinish m2 a r) t2 ∧
    (abs (updateFinish m2 a r) t2).Perm (FinMap.insert c.eq (abs m2 t2) key r) :=
  ⟨(eff_set hc hw ha r).wf, (eff_set hc hw ha r).perm⟩

/-- **C56.** If the procedure deletes the key, the result is lost: the table stays without the key. -/
theorem C56_update_reentrant_delete (c : Cfg K) (hc : c.Ok) (m : Mem K V) (t : Table) (hw : WF c m t) (key : K)
    (a : Nat) (v r : V) (m1 : Mem K V) (t1 : Table) (hn : t.numEntries < intMax)
    (h : updateStart c m t key none = (.ok (a, v), m1, t1)) :
    ref c (updateFinish m1 a r) (delete c m1 t1 key).2 key = none := by
  have h1 := updateStart_eff hc hw key none hn
  cases hl : FinMap.lookup c.eq (abs m t) key with
  | none =>
    rw [hl] at h1
    dsimp only [Option.or] at h1
    rw [h1] at h; cases h
  | some x =>
    rw [hl] at h1
    dsimp only [Option.or] at h1
    obtain ⟨a', m', t', h2, h3, h4, _⟩ := h1
    rw [h2] at h
    injection h with g1 g2
    injection g2 with g2 g3
    subst g2 g3
    have hd := (delete_eff hc h4.wf key).2
    have hs := hd.wf.setValue a r
    unfold updateFinish
    rw [ref_eq hc hs]
    have hfa : a = a' := by injection g1 with g1; injection g1 with g1 _; exact g1.symm
    subst hfa
    have hna : a ∉ live (delete c m' t' key).2 := by
      have hf' := h3
      unfold findKey at hf'
      have hdel : (delete c m' t' key).2
          = deleteEntry t' a (hash2index t'.numBuckets t'.numBucketsLog2 (c.hash key)) := by
        unfold delete access; dsimp only; rw [hf']
      rw [hdel]
      have := (WF_delete hc h4.wf h3).2
      have := this.nodup_iff.1 h4.wf.liveNodup
      exact (List.nodup_cons.1 this).1
    have habs : abs (m'.setValue a r) (delete c m' t' key).2 = abs m' (delete c m' t' key).2 := by
      apply filterMap_pairOf_congr
      intro b hb
      unfold Mem.setValue
      dsimp only
      rw [if_neg]
      rintro rfl; exact hna hb
    rw [habs, FinMap.lookup_perm hc.equiv hd.perm (distinct_abs hd.wf), FinMap.lookup_erase hc.equiv,
      if_pos (hc.equiv.refl _)]

/-- **C56.** A table holding INT_MAX entries: the insertion of a new key raises, but the entry has been linked, so the
key is now found, with no value in it (a null pointer), and the count is wrong. -/
theorem C56_too_many_entries (c : Cfg K) (hc : c.Ok) (m : Mem K V) (t : Table) (hw : WF c m t) (key : K) (v : V)
    (hn : t.numEntries = intMax) (habs : findKey c m t key = none) :
    ∃ m' t', put c m t key v = (.error .tooMany, m', t') ∧ findKey c m' t' key = some m.fresh ∧
      (m'.ent m.fresh).value = none ∧ t'.numEntries = (live t').length - 1 ∧ (live t').length ≠ 0 := by
  have hf := habs
  unfold findKey at hf
  have hidx : hash2index t.numBuckets t.numBucketsLog2 (c.hash key) < t.buckets.length := by
    rw [hw.len, hw.size]; exact hash2index_lt _ _ _ (by have := hw.bits; omega)
  refine ⟨(m.alloc { key := key, value := none, hashval := c.hash key }).2,
    { t with
      buckets := (t.buckets.set (hash2index t.numBuckets t.numBucketsLog2 (c.hash key))
        (m.fresh :: t.buckets.getD (hash2index t.numBuckets t.numBucketsLog2 (c.hash key)) [])) }, ?_, ?_, ?_, ?_⟩
  · unfold put tset access insertEntry
    dsimp only
    rw [if_neg (by simp), hf]
    dsimp only
    rw [if_pos hn]
    rfl
  · unfold findKey
    dsimp only
    have : (t.buckets.set (hash2index t.numBuckets t.numBucketsLog2 (c.hash key))
        (m.fresh :: t.buckets.getD (hash2index t.numBuckets t.numBucketsLog2 (c.hash key)) [])).getD
          (hash2index t.numBuckets t.numBucketsLog2 (c.hash key)) []
        = m.fresh :: t.buckets.getD (hash2index t.numBuckets t.numBucketsLog2 (c.hash key)) [] := by
      rw [List.getD_eq_getElem?_getD, List.getElem?_set_self hidx]; rfl
    rw [this, List.find?_cons, alloc_ent_new, hc.equiv.refl]
  · rw [alloc_ent_new]
  · have hl : (live { t with
          buckets := (t.buckets.set (hash2index t.numBuckets t.numBucketsLog2 (c.hash key))
            (m.fresh :: t.buckets.getD (hash2index t.numBuckets t.numBucketsLog2 (c.hash key)) [])) }).length
        = (live t).length + 1 := by
      have := (flatten_push_perm t.buckets _ m.fresh hidx).length_eq
      rw [List.length_cons] at this
      exact this
    rw [hl]
    refine ⟨?_, by omega⟩
    rw [← hw.count]; rfl

/-- A table over natural number keys (for the examples). -/
def natCfg : Cfg Nat := { hash := fun k => k * 2654435761, eq := fun a b => a == b }

theorem natCfg_ok : natCfg.Ok := by
  refine ⟨⟨?_, ?_, ?_⟩, ?_⟩
  · intro a; simp [natCfg]
  · intro a b h; simp [natCfg] at *; exact h.symm
  · intro a b c h1 h2; simp [natCfg] at *; exact h1.trans h2
  · intro a b h; simp [natCfg] at *; exact h

/-- Tables with any number of entries up to INT_MAX are reached by insertions. -/
theorem reachable_size (n : Nat) (h : n ≤ intMax) :
    ∃ (m : Mem Nat Nat) (t : Table), WF natCfg m t ∧ t.numEntries = n ∧ ∀ q ∈ abs m t, q.1 < n := by
  induction n with
  | zero =>
    have := make_wf (c := natCfg) (World.init (V := Nat) 0).mem 0 (by norm_num)
    refine ⟨_, _, this.1, rfl, ?_⟩
    intro q hq
    unfold abs at hq
    rw [this.2.1] at hq
    simp at hq
  | succ n ih =>
    obtain ⟨m, t, hw, hn, hk⟩ := ih (by omega)
    have hlk : FinMap.lookup natCfg.eq (abs m t) n = none := by
      cases hl : FinMap.lookup natCfg.eq (abs m t) n with
      | none => rfl
      | some v =>
        obtain ⟨q, hq, h1, _⟩ := (FinMap.lookup_eq_some natCfg_ok.equiv (distinct_abs hw)).1 hl
        have := hk q hq
        have h2 : n = q.1 := by simpa [natCfg] using h1
        omega
    have he := (tset_eff natCfg_ok hw n 7 false false (by omega)).2
    rw [hlk] at he
    dsimp only at he
    rw [if_neg (by simp), insert_absent hlk] at he
    refine ⟨_, _, he.wf, ?_, ?_⟩
    · rw [← length_abs he.wf, he.perm.length_eq, List.length_cons, length_abs hw, hn]
    · intro q hq
      rcases List.mem_cons.1 (he.perm.mem_iff.1 hq) with rfl | h2
      · exact Nat.lt_succ_self _
      · have := hk q h2; omega

/-- The hypotheses of `C56_too_many_entries` are met by a table reached by insertions. -/
theorem C56_too_many_entries_reached :
    ∃ (m : Mem Nat Nat) (t : Table), WF natCfg m t ∧ t.numEntries = intMax ∧ findKey natCfg m t intMax = none := by
  obtain ⟨m, t, hw, hn, hk⟩ := reachable_size intMax (Nat.le_refl _)
  refine ⟨m, t, hw, hn, ?_⟩
  cases hf : findKey natCfg m t intMax with
  | none => rfl
  | some a =>
    exfalso
    have h1 := ref_eq natCfg_ok hw intMax
    have hl : FinMap.lookup natCfg.eq (abs m t) intMax = none := by
      cases hl : FinMap.lookup natCfg.eq (abs m t) intMax with
      | none => rfl
      | some v =>
        obtain ⟨q, hq, h1, _⟩ := (FinMap.lookup_eq_some natCfg_ok.equiv (distinct_abs hw)).1 hl
        have := hk q hq
        have h2 : intMax = q.1 := by simpa [natCfg] using h1
        omega
    obtain ⟨ha1, ha2, _⟩ := findKey_some hf
    obtain ⟨v, hv⟩ := Option.isSome_iff_exists.1 (hw.value a ha1)
    have := (FinMap.lookup_eq_some natCfg_ok.equiv (distinct_abs hw) (v := v)).2
      ⟨((m.ent a).key, v), (mem_abs (c := natCfg)).2 ⟨a, ha1, rfl, hv⟩, ha2, rfl⟩
    rw [hl] at this; cases this

/-- A value type with lists, for the examples: numbers coding nothing but themselves, no pairs. -/
def natPairs : Pairs Nat := { nil := 0, cons := fun a b => a + 1000 * b, uncons := fun v => if v = 0 then none else some (v % 1000, v / 1000) }

/-- A program over three tables that extends one of them twice, deletes, copies and takes a union. -/
def exProg : List (Op Nat Nat) :=
  [.make 0, .make 5] ++ (List.range 20).map (fun k => .put 0 k (k * k)) ++
  [.delete 0 3, .copy 0, .put 2 4 99, .get 0 4 none, .get 2 4 none, .get 0 3 (some 1), .get 0 3 none,
   .push 1 7 5, .push 1 7 6, .pop 1 7 none, .get 1 7 none, .union 1 0, .count 1, .compare 0 2 (fun a b => a == b),
   .prune 0 (fun k _ => k % 2 == 0), .count 0, .compare 0 2 (fun a b => a == b), .xor 2 2, .count 2]

example : ∀ op ∈ exProg, TableProg.OkOp op := by
  have hsym : ∀ a b : Nat, (a == b) = (b == a) := fun a b => Bool.eq_iff_iff.2 (by rw [beq_iff_eq, beq_iff_eq]; exact eq_comm)
  unfold exProg
  refine List.forall_mem_append.2 ⟨List.forall_mem_append.2 ⟨?_, ?_⟩, ?_⟩
  · intro op h
    rcases List.mem_cons.1 h with rfl | h
    · exact Nat.zero_le _
    · rw [List.mem_singleton.1 h]; show 5 ≤ 2 ^ 30; norm_num
  · intro op h
    obtain ⟨k, _, rfl⟩ := List.mem_map.1 h
    trivial
  · simp only [List.forall_mem_cons, TableProg.OkOp, true_and]
    exact ⟨hsym, hsym, fun _ h => absurd h (List.not_mem_nil)⟩

example : ∀ pre, pre <+: exProg → TableProg.total (TableProg.run natPairs natCfg.eq [] pre).2 < intMax := by
  intro pre h
  rw [List.prefix_iff_eq_take.1 h]
  have hl : pre.length < 42 := by have := h.length_le; have : exProg.length = 41 := by decide +kernel
                                  omega
  have h2 : ∀ n < 42, TableProg.total (TableProg.run natPairs natCfg.eq [] (exProg.take n)).2 < intMax := by
    decide +kernel
  exact h2 _ hl

example : (run natPairs natCfg (World.init 0) exProg).1.drop 22 =
    [.bool true, .num 2, .unit, .val 16, .val 99, .val 1, .err .noEntry,
     .unit, .unit, .val 6, .val 5, .unit, .num 19, .cmp none,
     .unit, .num 9, .cmp (some (-1)), .unit, .num 0] := by decide +kernel

/-- The table the examples below iterate over: twelve keys, four buckets, so the next insertion extends it. -/
def twelve : Mem Nat Nat × Table :=
  (List.range 12).foldl (fun s k => (put natCfg s.1 s.2 k k).2) ((World.init 0).mem, make 0)

/-- **C55 does not extend to callbacks that insert.**  Iterating over twelve keys with a callback that inserts one new
key (the table is then extended) at its first call: 6 and 7 are visited twice, 0 and 3 not at all. -/
theorem C55_insertion_breaks_iteration :
    (iterateAll (fun s : (Mem Nat Nat × Table) × List Nat => s.1)
      (fun k _ s => ((if s.2.isEmpty then (put natCfg s.1.1 s.1.2 100 0).2 else s.1, s.2 ++ [k]), false))
      30 (twelve, [])).map (fun s => (s.2, (List.range 12).filter (fun k => !s.2.contains k)))
    = some ([7, 6, 9, 6, 2, 5, 8, 11, 1, 4, 10, 7], [0, 3]) := by decide +kernel

end Gauche.HashTable
