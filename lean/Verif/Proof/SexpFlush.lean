import Verif.Proof.SexpBuild
/-
Filling in the read references.
-/
namespace Gauche.Sexp

/-- The objects while the references are filled in; `L` is the table of references. -/
structure FInv (H : List Cell) (lam : Nat → Nat) (h : List Nat) (L : Nat → Option (Option V)) (G : List Cell) : Prop where
  len : h.length = G.length
  cells : ∀ i p, h[i]? = some p → CellRel lam h (cellAt H p) (cellAt G i)
  labs : ∀ k v, L k = some (some v) → ∃ i, v = .ptr i ∧ h[i]? = some (lam k)
  refs : ∀ i k, V.ref k ∈ (cellAt G i).parts → ∃ v, L k = some (some v)

theorem cellAt_set {G : List Cell} {i j : Nat} {c : Cell} (hi : i < G.length) : cellAt (G.set i c) j = if j = i then c else cellAt G j := by
  unfold cellAt
  rw [List.getD_eq_getElem?_getD, List.getD_eq_getElem?_getD, List.getElem?_set]
  by_cases h : j = i
  · subst h; rw [if_pos rfl, if_pos hi, if_pos rfl]; rfl
  · rw [if_neg (fun h' => h h'.symm), if_neg h]

theorem resolve_ok {H : List Cell} {lam : Nat → Nat} {h : List Nat} {L : Nat → Option (Option V)} {G : List Cell} (hi : FInv H lam h L G) {x v : V} (hr : VRel lam h x v)
    (hk : ∀ k, v = .ref k → ∃ w, L k = some (some w)) : ∃ v', resolve L v = some v' ∧ VRel lam h x v' ∧ v'.isRef = false := by
  cases hr with
  | imm a => exact ⟨.imm a, rfl, .imm a, rfl⟩
  | ptr p i hp => exact ⟨.ptr i, rfl, .ptr p i hp, rfl⟩
  | ref k =>
    obtain ⟨w, hw⟩ := hk k rfl
    obtain ⟨i, hi1, hi2⟩ := hi.labs k w hw
    subst hi1
    refine ⟨.ptr i, ?_, .ptr _ i hi2, rfl⟩
    rw [resolve, hw]

theorem resolveL_ok {H : List Cell} {lam : Nat → Nat} {h : List Nat} {L : Nat → Option (Option V)} {G : List Cell} (hi : FInv H lam h L G) {xs vs : List V}
    (hr : List.Forall₂ (VRel lam h) xs vs) :
    (∀ k, V.ref k ∈ vs → ∃ w, L k = some (some w)) → ∃ vs', resolveL L vs = some vs' ∧ List.Forall₂ (VRel lam h) xs vs' ∧ ∀ v ∈ vs', v.isRef = false := by
  induction hr with
  | nil => exact fun _ => ⟨[], rfl, .nil, fun v hv => by cases hv⟩
  | @cons x v xs vs h1 _ ih =>
    intro hk
    obtain ⟨v', e1, r1, n1⟩ := resolve_ok hi h1 (fun k hv => hk k (by rw [hv]; simp))
    obtain ⟨vs', e2, r2, n2⟩ := ih fun k hv => hk k (List.mem_cons_of_mem _ hv)
    refine ⟨v' :: vs', by rw [resolveL, e1, e2], .cons r1 r2, fun w hw => ?_⟩
    rw [List.mem_cons] at hw
    rcases hw with rfl | hw
    · exact n1
    · exact n2 w hw

/-- From one heap to a later one. -/
structure After (G G' : List Cell) : Prop where
  refs : ∀ i, HasRef (cellAt G' i) → HasRef (cellAt G i)
  path : ∀ j i, Path G j i → Path G' j i
  pend : ∀ i s, cellAt G' i = .str s → cellAt G i = .str s

theorem After.refl (G : List Cell) : After G G := ⟨fun _ h => h, fun _ _ h => h, fun _ _ h => h⟩
theorem After.trans {A B C : List Cell} (h : After A B) (h' : After B C) : After A C :=
  ⟨fun i hi => h.refs i (h'.refs i hi), fun j i hp => h'.path j i (h.path j i hp), fun i s hs => h.pend i s (h'.pend i s hs)⟩

theorem noref_cell {c : Cell} (h : ¬ HasRef c) {v : V} (hv : v ∈ c.parts) : v.isRef = false := by
  cases hr : v.isRef with
  | false => rfl
  | true => exact absurd ⟨v, hv, hr⟩ h

theorem set_inv {H : List Cell} {lam : Nat → Nat} {h : List Nat} {L : Nat → Option (Option V)} {G : List Cell} (hi : FInv H lam h L G) {i p : Nat} (hp : h[i]? = some p) {c : Cell}
    (hc : CellRel lam h (cellAt H p) c) (hk : ∀ k, V.ref k ∈ c.parts → V.ref k ∈ (cellAt G i).parts) : FInv H lam h L (G.set i c) := by
  have hlt : i < G.length := by rw [← hi.len]; exact (List.getElem?_eq_some_iff.1 hp).1
  refine ⟨by simp [hi.len], fun j q hq => ?_, hi.labs, fun j k hj => ?_⟩
  · rw [cellAt_set hlt]
    by_cases hji : j = i
    · rw [if_pos hji]; rw [hji, hp] at hq; injection hq with hq; rw [← hq]; exact hc
    · rw [if_neg hji]; exact hi.cells j q hq
  · rw [cellAt_set hlt] at hj
    by_cases hji : j = i
    · rw [if_pos hji] at hj; exact hi.refs i k (hk k hj)
    · rw [if_neg hji] at hj; exact hi.refs j k hj

theorem set_pair {G : List Cell} {i : Nat} {a d a' d' : V} (hlt : i < G.length) (hc : cellAt G i = .pair a d) (ha : a'.isRef = false) (hd : d'.isRef = true → d.isRef = true) (he : d = d' ∨ d.isRef = true) :
    After G (G.set i (.pair a' d')) := by
  refine ⟨fun j hj => ?_, fun j m hp => ?_, fun j s hs => ?_⟩
  · rw [cellAt_set hlt] at hj
    by_cases hji : j = i
    · rw [if_pos hji] at hj
      rw [hji, hc]
      obtain ⟨v, hv, hr⟩ := hj
      simp only [Cell.parts, List.mem_cons, List.not_mem_nil, or_false] at hv
      rcases hv with rfl | rfl
      · rw [ha] at hr; cases hr
      · exact ⟨d, by simp [Cell.parts], hd hr⟩
    · rw [if_neg hji] at hj; exact hj
  · induction hp with
    | refl j => exact .refl j
    | @step j m l b b' e' h1 h2 _ ih =>
      have h2' : ∃ x y, cellAt (G.set i (.pair a' d')) m = .pair x y := by
        rw [cellAt_set hlt]
        by_cases hm : m = i
        · exact ⟨a', d', by rw [if_pos hm]⟩
        · exact ⟨b', e', by rw [if_neg hm]; exact h2⟩
      obtain ⟨x, y, hxy⟩ := h2'
      by_cases hji : j = i
      · subst hji
        rw [hc] at h1
        injection h1 with h1 h1'
        refine .step (a := a') (m := m) ?_ hxy ih
        rw [cellAt_set hlt, if_pos rfl]
        rcases he with he | he
        · rw [← he, h1']
        · rw [h1'] at he; cases he
      · refine .step (a := b) (m := m) ?_ hxy ih
        rw [cellAt_set hlt, if_neg hji]; exact h1
  · rw [cellAt_set hlt] at hs
    by_cases hji : j = i
    · rw [if_pos hji] at hs; cases hs
    · rw [if_neg hji] at hs; exact hs

theorem flushList_ok {H : List Cell} {lam : Nat → Nat} {h : List Nat} {L : Nat → Option (Option V)} (n : Nat) :
    ∀ G ep G', FInv H lam h L G → (∀ i, ep = .ptr i → ∃ p, h[i]? = some p) → flushList L n G ep = some G' →
      FInv H lam h L G' ∧ After G G' ∧ ∀ j i a d, ep = .ptr j → cellAt G j = .pair a d → Path G j i → ¬ HasRef (cellAt G' i) := by
  induction n with
  | zero => intro G ep G' _ _ h; cases h
  | succ n ih =>
    intro G ep G' hi hep hf
    cases ep with
    | imm a => injection hf with hf; subst hf; exact ⟨hi, After.refl _, fun j i a d hj => by cases hj⟩
    | ref k => injection hf with hf; subst hf; exact ⟨hi, After.refl _, fun j i a d hj => by cases hj⟩
    | ptr i =>
      rw [flushList] at hf
      obtain ⟨p, hp⟩ := hep i rfl
      have hlt : i < G.length := by rw [← hi.len]; exact (List.getElem?_eq_some_iff.1 hp).1
      have hcell := hi.cells i p hp
      cases hc : cellAt G i with
      | str s =>
        rw [hc] at hf; injection hf with hf; subst hf
        exact ⟨hi, After.refl _, fun j m a d hj hcj => by injection hj with hj; rw [← hj, hc] at hcj; cases hcj⟩
      | vec l =>
        rw [hc] at hf; injection hf with hf; subst hf
        exact ⟨hi, After.refl _, fun j m a d hj hcj => by injection hj with hj; rw [← hj, hc] at hcj; cases hcj⟩
      | pair a d =>
        rw [hc] at hf hcell
        simp only [] at hf
        obtain ⟨xa, xd, hcx, ra, rd⟩ : ∃ xa xd, cellAt H p = .pair xa xd ∧ VRel lam h xa a ∧ VRel lam h xd d := by
          generalize cellAt H p = c at hcell
          cases hcell with | pair h1 h2 => exact ⟨_, _, rfl, h1, h2⟩
        obtain ⟨a', ea, ra', na⟩ := resolve_ok hi ra (fun k hk => hi.refs i k (by rw [hc, hk]; simp [Cell.parts]))
        rw [ea] at hf
        simp only [] at hf
        by_cases hd : d.isRef = true
        · rw [if_pos hd] at hf
          obtain ⟨d', ed, rd', nd⟩ := resolve_ok hi rd (fun k hk => hi.refs i k (by rw [hc, hk]; simp [Cell.parts]))
          rw [ed] at hf
          injection hf with hf; subst hf
          refine ⟨set_inv hi hp (by rw [hcx]; exact .pair ra' rd') ?_, set_pair hlt hc na (fun h => by rw [nd] at h; cases h) (Or.inr hd), ?_⟩
          · intro k hk
            simp only [Cell.parts, List.mem_cons, List.not_mem_nil, or_false] at hk
            rcases hk with hk | hk
            · rw [← hk] at na; cases na
            · rw [← hk] at nd; cases nd
          · intro j m b e hj hcj hpath
            injection hj with hj; subst hj
            have hmi : m = i := by
              cases hpath with
              | refl => rfl
              | step h1 _ _ => rw [hc] at h1; injection h1 with _ h1; rw [h1] at hd; cases hd
            subst hmi
            rw [cellAt_set hlt, if_pos rfl]
            rintro ⟨v, hv, hr⟩
            simp only [Cell.parts, List.mem_cons, List.not_mem_nil, or_false] at hv
            rcases hv with rfl | rfl
            · rw [na] at hr; cases hr
            · rw [nd] at hr; cases hr
        · rw [if_neg hd] at hf
          have hdf : d.isRef = false := by cases hh : d.isRef with | true => exact absurd hh hd | false => rfl
          have hi1 : FInv H lam h L (G.set i (.pair a' d)) := by
            refine set_inv hi hp (by rw [hcx]; exact .pair ra' rd) ?_
            intro k hk
            simp only [Cell.parts, List.mem_cons, List.not_mem_nil, or_false] at hk
            rcases hk with hk | hk
            · rw [← hk] at na; cases na
            · rw [← hk] at hdf; cases hdf
          have hA : After G (G.set i (.pair a' d)) := set_pair hlt hc na (fun h => h) (Or.inl rfl)
          obtain ⟨i2, A2, P2⟩ := ih _ d G' hi1 (fun m hm => by rw [hm] at rd; cases rd with | ptr q _ hq => exact ⟨q, hq⟩) hf
          refine ⟨i2, hA.trans A2, ?_⟩
          intro j m b e hj hcj hpath
          injection hj with hj; subst hj
          cases hpath with
          | refl =>
            intro hr
            have := A2.refs i hr
            rw [cellAt_set hlt, if_pos rfl] at this
            obtain ⟨v, hv, hr⟩ := this
            simp only [Cell.parts, List.mem_cons, List.not_mem_nil, or_false] at hv
            rcases hv with rfl | rfl
            · rw [na] at hr; cases hr
            · rw [hdf] at hr; cases hr
          | @step _ l _ b b' e' h1 h2 h3 =>
            rw [hc] at h1
            injection h1 with _ h1
            have hpl : ∃ x y, cellAt (G.set i (.pair a' d)) l = .pair x y := by
              rw [cellAt_set hlt]
              by_cases hm : l = i
              · exact ⟨a', d, by rw [if_pos hm]⟩
              · exact ⟨b', e', by rw [if_neg hm]; exact h2⟩
            obtain ⟨x, y, hxy⟩ := hpl
            exact P2 l m x y h1 hxy (hA.path l m h3)

/-- After all pending objects no references are left. -/
theorem flush_ok {H : List Cell} {lam : Nat → Nat} {h : List Nat} {L : Nat → Option (Option V)} (n : Nat) :
    ∀ (pend : List Nat) G G', FInv H lam h L G → (∀ j ∈ pend, ∀ s, cellAt G j ≠ .str s) →
      (∀ i, HasRef (cellAt G i) → ∃ j ∈ pend, Path G j i) → flush L n G pend = some G' →
      FInv H lam h L G' ∧ ∀ i, ¬ HasRef (cellAt G' i) := by
  intro pend
  induction pend with
  | nil =>
    intro G G' hi _ hcov hf
    rw [flush] at hf
    injection hf with hf; subst hf
    refine ⟨hi, fun i hr => ?_⟩
    obtain ⟨j, hj, _⟩ := hcov i hr
    cases hj
  | cons i is ih =>
    intro G G' hi hp hcov hf
    rw [flush] at hf
    have hlt : i < G.length := by
      refine lt_of_not_ge fun hge => ?_
      exact hp i (by simp) [] (cellAt_big hge)
    obtain ⟨p, hpi⟩ : ∃ p, h[i]? = some p := ⟨h[i]'(by rw [hi.len]; exact hlt), List.getElem?_eq_getElem _⟩
    cases hc : cellAt G i with
    | str s => exact absurd hc (hp i (by simp) s)
    | pair a d =>
      rw [hc] at hf
      simp only [] at hf
      cases h1 : flushList L n G (.ptr i) with
      | none => rw [h1] at hf; cases hf
      | some G1 =>
        rw [h1] at hf
        simp only [] at hf
        obtain ⟨i1, A, P⟩ := flushList_ok n G (.ptr i) G1 hi (fun j hj => by injection hj with hj; rw [← hj]; exact ⟨p, hpi⟩) h1
        refine ih G1 G' i1 (fun j hj s hs => hp j (List.mem_cons_of_mem _ hj) s (A.pend j s hs)) (fun m hm => ?_) hf
        obtain ⟨j, hj, hpath⟩ := hcov m (A.refs m hm)
        rw [List.mem_cons] at hj
        rcases hj with rfl | hj
        · exact absurd hm (P j m a d rfl hc hpath)
        · exact ⟨j, hj, A.path j m hpath⟩
    | vec l =>
      rw [hc] at hf
      simp only [] at hf
      have hcell := hi.cells i p hpi
      rw [hc] at hcell
      obtain ⟨xs, hcx, hrel⟩ : ∃ xs, cellAt H p = .vec xs ∧ List.Forall₂ (VRel lam h) xs l := by
        generalize cellAt H p = c at hcell
        cases hcell with | vec h1 => exact ⟨_, rfl, h1⟩
      obtain ⟨l', e1, r1, n1⟩ := resolveL_ok hi hrel (fun k hk => hi.refs i k (by rw [hc]; exact hk))
      rw [e1] at hf
      simp only [] at hf
      have hno : ¬ HasRef (.vec l') := by
        rintro ⟨v, hv, hr⟩
        rw [n1 v hv] at hr; cases hr
      refine ih (G.set i (.vec l')) G' (set_inv hi hpi (by rw [hcx]; exact .vec r1) ?_) ?_ ?_ hf
      · intro k hk
        have := n1 _ hk
        cases this
      · intro j hj s hs
        rw [cellAt_set hlt] at hs
        by_cases hji : j = i
        · rw [if_pos hji] at hs; cases hs
        · rw [if_neg hji] at hs; exact hp j (List.mem_cons_of_mem _ hj) s hs
      · intro m hm
        rw [cellAt_set hlt] at hm
        by_cases hmi : m = i
        · rw [if_pos hmi] at hm; exact absurd hm hno
        · rw [if_neg hmi] at hm
          obtain ⟨j, hj, hpath⟩ := hcov m hm
          have hpath' : Path (G.set i (.vec l')) j m ∧ (j = i → m = i) := by
            clear hj hm hmi
            have hvi : ∀ x y, cellAt G i ≠ .pair x y := by rw [hc]; intro x y hxy; cases hxy
            constructor
            · induction hpath with
              | refl j => exact .refl j
              | @step j q r b b' e' g1 g2 _ ih' =>
                refine .step (a := b) (m := q) (a' := b') (d' := e') ?_ ?_ ih'
                · rw [cellAt_set hlt, if_neg]; exact g1
                  intro hji; rw [hji] at g1; exact hvi _ _ g1
                · rw [cellAt_set hlt, if_neg]; exact g2
                  intro hji; rw [hji] at g2; exact hvi _ _ g2
            · intro hji
              cases hpath with
              | refl => exact hji
              | step g1 _ _ => rw [hji] at g1; exact absurd g1 (hvi _ _)
          rw [List.mem_cons] at hj
          rcases hj with hj | hj
          · exact absurd (hpath'.2 hj) hmi
          · exact ⟨j, hj, hpath'.1⟩

/-! ### the lists end -/

/-- The next pair. -/
def CdrOf (H : List Cell) (q p : Nat) : Prop := ∃ a, cellAt H p = .pair a (.ptr q)

theorem flushList_ends {H : List Cell} {lam : Nat → Nat} {h : List Nat} {L : Nat → Option (Option V)} {p : Nat} (hacc : Acc (CdrOf H) p) :
    ∃ N, ∀ n, N ≤ n → ∀ G i, FInv H lam h L G → h[i]? = some p → ∃ G', flushList L n G (.ptr i) = some G' := by
  induction hacc with
  | intro p _ ih =>
    obtain ⟨M, hM⟩ : ∃ M, ∀ q, CdrOf H q p → ∀ n, M ≤ n → ∀ G i, FInv H lam h L G → h[i]? = some q → ∃ G', flushList L n G (.ptr i) = some G' := by
      cases hc : cellAt H p with
      | str s => exact ⟨0, fun q hq => by obtain ⟨a, ha⟩ := hq; rw [hc] at ha; cases ha⟩
      | vec l => exact ⟨0, fun q hq => by obtain ⟨a, ha⟩ := hq; rw [hc] at ha; cases ha⟩
      | pair x y =>
        cases y with
        | imm b => exact ⟨0, fun q hq => by obtain ⟨a, ha⟩ := hq; rw [hc] at ha; cases ha⟩
        | ref b => exact ⟨0, fun q hq => by obtain ⟨a, ha⟩ := hq; rw [hc] at ha; cases ha⟩
        | ptr r =>
          obtain ⟨M, hM⟩ := ih r ⟨x, hc⟩
          refine ⟨M, fun q hq => ?_⟩
          obtain ⟨a, ha⟩ := hq
          rw [hc] at ha
          injection ha with _ ha; injection ha with ha
          rw [← ha]; exact hM
    refine ⟨M + 2, fun n hn G i hi hp => ?_⟩
    obtain ⟨m, rfl⟩ : ∃ m, n = m + 2 := ⟨n - 2, by omega⟩
    have hcell := hi.cells i p hp
    rw [flushList]
    cases hc : cellAt G i with
    | str s => exact ⟨G, rfl⟩
    | vec l => exact ⟨G, rfl⟩
    | pair a d =>
      rw [hc] at hcell
      simp only []
      obtain ⟨xa, xd, hcx, ra, rd⟩ : ∃ xa xd, cellAt H p = .pair xa xd ∧ VRel lam h xa a ∧ VRel lam h xd d := by
        generalize cellAt H p = c at hcell
        cases hcell with | pair h1 h2 => exact ⟨_, _, rfl, h1, h2⟩
      obtain ⟨a', ea, ra', na⟩ := resolve_ok hi ra (fun k hk => hi.refs i k (by rw [hc, hk]; simp [Cell.parts]))
      rw [ea]
      simp only []
      by_cases hd : d.isRef = true
      · rw [if_pos hd]
        obtain ⟨d', ed, _, _⟩ := resolve_ok hi rd (fun k hk => hi.refs i k (by rw [hc, hk]; simp [Cell.parts]))
        rw [ed]
        exact ⟨_, rfl⟩
      · rw [if_neg hd]
        have hdf : d.isRef = false := by cases hh : d.isRef with | true => exact absurd hh hd | false => rfl
        have hi1 : FInv H lam h L (G.set i (.pair a' d)) := by
          refine set_inv hi hp (by rw [hcx]; exact .pair ra' rd) ?_
          intro k hk
          simp only [Cell.parts, List.mem_cons, List.not_mem_nil, or_false] at hk
          rcases hk with hk | hk
          · rw [← hk] at na; cases na
          · rw [← hk] at hdf; cases hdf
        cases d with
        | imm b => exact ⟨_, rfl⟩
        | ref k => cases hdf
        | ptr m' =>
          cases rd with
          | ptr q _ hq => exact hM q ⟨xa, hcx⟩ (m + 1) (by omega) _ m' hi1 hq

theorem flush_ends {H : List Cell} {lam : Nat → Nat} {h : List Nat} {L : Nat → Option (Option V)} (hwf : WellFounded (CdrOf H)) :
    ∃ N, ∀ n, N ≤ n → ∀ (pend : List Nat) G, FInv H lam h L G → (∀ j ∈ pend, ∀ s, cellAt G j ≠ .str s) → ∃ G', flush L n G pend = some G' := by
  obtain ⟨N, hN⟩ : ∃ N, ∀ n, N ≤ n → ∀ p ∈ h, ∀ G i, FInv H lam h L G → h[i]? = some p → ∃ G', flushList L n G (.ptr i) = some G' := by
    have : ∀ l : List Nat, ∃ N, ∀ n, N ≤ n → ∀ p ∈ l, ∀ G i, FInv H lam h L G → h[i]? = some p → ∃ G', flushList L n G (.ptr i) = some G' := by
      intro l
      induction l with
      | nil => exact ⟨0, fun n _ p hp => by cases hp⟩
      | cons q qs ih =>
        obtain ⟨N, hN⟩ := ih
        obtain ⟨M, hM⟩ := flushList_ends (lam := lam) (h := h) (L := L) (hwf.apply q)
        refine ⟨max N M, fun n hn p hp => ?_⟩
        rw [List.mem_cons] at hp
        rcases hp with rfl | hp
        · exact hM n (le_trans (le_max_right _ _) hn)
        · exact hN n (le_trans (le_max_left _ _) hn) p hp
    exact this h
  refine ⟨N, fun n hn pend => ?_⟩
  induction pend with
  | nil => exact fun G _ _ => ⟨G, rfl⟩
  | cons i is ih =>
    intro G hi hp
    rw [flush]
    have hlt : i < G.length := by
      refine lt_of_not_ge fun hge => ?_
      exact hp i (by simp) [] (cellAt_big hge)
    have hpi : h[i]? = some (h[i]'(by rw [hi.len]; exact hlt)) := List.getElem?_eq_getElem _
    cases hc : cellAt G i with
    | str s => exact absurd hc (hp i (by simp) s)
    | pair a d =>
      obtain ⟨G1, h1⟩ := hN n hn _ (List.getElem_mem _) G i hi hpi
      simp only [h1]
      obtain ⟨i1, A, _⟩ := flushList_ok n G (.ptr i) G1 hi (fun j hj => by injection hj with hj; rw [← hj]; exact ⟨_, hpi⟩) h1
      exact ih G1 i1 (fun j hj s hs => hp j (List.mem_cons_of_mem _ hj) s (A.pend j s hs))
    | vec l =>
      simp only []
      have hcell := hi.cells i _ hpi
      rw [hc] at hcell
      obtain ⟨xs, hcx, hrel⟩ : ∃ xs, cellAt H (h[i]'(by rw [hi.len]; exact hlt)) = .vec xs ∧ List.Forall₂ (VRel lam h) xs l := by
        generalize cellAt H (h[i]'(by rw [hi.len]; exact hlt)) = c at hcell
        cases hcell with | vec h1 => exact ⟨_, rfl, h1⟩
      obtain ⟨l', e1, r1, n1⟩ := resolveL_ok hi hrel (fun k hk => hi.refs i k (by rw [hc]; exact hk))
      simp only [e1]
      refine ih (G.set i (.vec l')) (set_inv hi hpi (by rw [hcx]; exact .vec r1) ?_) ?_
      · intro k hk
        have := n1 _ hk
        cases this
      · intro j hj s hs
        rw [cellAt_set hlt] at hs
        by_cases hji : j = i
        · rw [if_pos hji] at hs; cases hs
        · rw [if_neg hji] at hs; exact hp j (List.mem_cons_of_mem _ hj) s hs

end Gauche.Sexp
