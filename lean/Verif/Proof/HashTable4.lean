import Verif.Proof.HashTable3
import Verif.Spec.TableProg
/-! Iterations that modify tables; set operations. -/
namespace Gauche.HashTable

variable {K V σ : Type}

theorem findKey_live {c : Cfg K} (hc : c.Ok) {m : Mem K V} {t : Table} (hw : WF c m t) {a : Nat}
    (ha : a ∈ live t) : findKey c m t (m.ent a).key = some a := by
  cases hf : findKey c m t (m.ent a).key with
  | none =>
    have := findKey_none hc hw hf a ha
    rw [hc.equiv.refl] at this; cases this
  | some b =>
    obtain ⟨h1, h2, _⟩ := findKey_some hf
    rw [keys_unique hc hw ha h1 h2]

theorem delete_live {c : Cfg K} (hc : c.Ok) {m : Mem K V} {t : Table} (hw : WF c m t) {a : Nat}
    (ha : a ∈ live t) : (delete c m t (m.ent a).key).2
      = deleteEntry t a (hash2index t.numBuckets t.numBucketsLog2 (c.hash (m.ent a).key)) := by
  have hf := findKey_live hc hw ha
  unfold findKey at hf
  unfold delete access; dsimp only; rw [hf]

/-- One step of a loop deleting the current entry conditionally. -/
def delStep (c : Cfg K) (m : Mem K V) (P : Nat → Bool) (s : Table) (e : Nat) : Table :=
  if P e then (delete c m s (m.ent e).key).2 else s

theorem delStep_inv {c : Cfg K} (hc : c.Ok) {m : Mem K V} {P : Nat → Bool} {s : Table} {e : Nat} {r : List Nat}
    (hw : WF c m s) (hs : ∀ a ∈ e :: r, a ∈ live s) (hn : (e :: r).Nodup) :
    WF c m (delStep c m P s e) ∧ (∀ a ∈ r, a ∈ live (delStep c m P s e)) ∧
    (live (delStep c m P s e)).Perm ((live s).filter (fun a => !(decide (a = e) && P a))) ∧
    Ext m s m (delStep c m P s e) ∧
    (∀ it', ValidIt s it' → rest s it' = r → ValidIt (delStep c m P s e) it' ∧ rest (delStep c m P s e) it' = r) := by
  unfold delStep
  have he := hs e (by simp)
  by_cases hp : P e = true
  · rw [if_pos hp, delete_live hc hw he]
    have hf := findKey_live hc hw he
    obtain ⟨h1, h2⟩ := WF_delete hc hw hf
    have h3 := (eff_delete hc hw hf).ext
    refine ⟨h1, ?_, ?_, h3, ?_⟩
    · intro a ha
      rcases List.mem_cons.1 (h2.mem_iff.1 (hs a (List.mem_cons_of_mem _ ha))) with rfl | h
      · exact absurd ha (List.nodup_cons.1 hn).1
      · exact h
    · have h4 := h2.filter (fun a => !(decide (a = e) && P a))
      refine List.Perm.trans ?_ h4.symm
      rw [List.filter_cons_of_neg (by simp [hp]), List.filter_eq_self.2]
      intro a ha
      have hne : a ≠ e := by
        rintro rfl
        have := h2.nodup_iff.1 hw.liveNodup
        exact (List.nodup_cons.1 this).1 ha
      simp [hne]
    · intro it' hv hr
      have := rest_delete (i := hash2index s.numBuckets s.numBucketsLog2 (c.hash (m.ent e).key)) hv
        (a := e) (by rw [hr]; exact (List.nodup_cons.1 hn).1)
      rw [hr] at this
      exact this
  · rw [if_neg hp]
    refine ⟨hw, fun a ha => hs a (by simp [ha]), ?_, Ext.refl _ _, fun it' hv hr => ⟨hv, hr⟩⟩
    rw [List.filter_eq_self.2]
    intro a _
    by_cases hae : a = e
    · subst hae; simp [hp]
    · simp [hae]

theorem delFold {c : Cfg K} (hc : c.Ok) {m : Mem K V} (P : Nat → Bool) : ∀ (r : List Nat) (s : Table),
    WF c m s → (∀ a ∈ r, a ∈ live s) → r.Nodup →
    WF c m (r.foldl (delStep c m P) s) ∧
    (live (r.foldl (delStep c m P) s)).Perm ((live s).filter (fun a => !(decide (a ∈ r) && P a))) ∧
    Ext m s m (r.foldl (delStep c m P) s) := by
  intro r
  induction r with
  | nil =>
    intro s hw _ _
    refine ⟨hw, ?_, Ext.refl _ _⟩
    rw [List.filter_eq_self.2]
    · exact List.Perm.refl _
    · intro a _; simp
  | cons e r ih =>
    intro s hw hs hn
    obtain ⟨h1, h2, h3, h4, _⟩ := delStep_inv (P := P) hc hw hs hn
    obtain ⟨g1, g2, g3⟩ := ih _ h1 h2 (List.nodup_cons.1 hn).2
    refine ⟨g1, ?_, h4.trans g3⟩
    refine g2.trans ?_
    refine (h3.filter _).trans ?_
    rw [List.filter_filter]
    apply List.Perm.of_eq
    apply List.filter_congr
    intro a _
    simp only [List.mem_cons]
    by_cases h5 : a = e <;> by_cases h6 : a ∈ r <;> simp [h5, h6] <;> cases P e <;> simp_all

theorem filterMap_filter_abs {c : Cfg K} {m : Mem K V} {t : Table} (hw : WF c m t) (Q : K → V → Bool) (P : Nat → Bool)
    (h : ∀ a ∈ live t, ∀ v, (m.ent a).value = some v → P a = Q (m.ent a).key v) :
    ((live t).filter P).filterMap (pairOf m) = (abs m t).filter (fun p => Q p.1 p.2) := by
  unfold abs
  have : ∀ l : List Nat, (∀ a ∈ l, a ∈ live t) →
      (l.filter P).filterMap (pairOf m) = (l.filterMap (pairOf m)).filter (fun p => Q p.1 p.2) := by
    intro l
    induction l with
    | nil => intro _; rfl
    | cons a l ih =>
      intro hl
      obtain ⟨v, hv⟩ := Option.isSome_iff_exists.1 (hw.value a (hl a (by simp)))
      have hp := h a (hl a (by simp)) v hv
      rw [List.filterMap_cons_some (b := ((m.ent a).key, v)) (by simp [pairOf, hv])]
      have ih' := ih (fun b hb => hl b (by simp [hb]))
      by_cases hq : Q (m.ent a).key v = true
      · rw [List.filter_cons_of_pos (by rw [hp]; exact hq), List.filter_cons_of_pos (p := fun p : K × V => Q p.1 p.2) hq,
          List.filterMap_cons_some (b := ((m.ent a).key, v)) (by simp [pairOf, hv]), ih']
      · rw [List.filter_cons_of_neg (by rw [hp]; exact hq), List.filter_cons_of_neg (p := fun p : K × V => Q p.1 p.2) hq, ih']
  exact this _ (fun _ h => h)

/-- A whole loop deleting the entries satisfying `Q`. -/
theorem delAll_eff {c : Cfg K} (hc : c.Ok) {m : Mem K V} {t : Table} (hw : WF c m t) (Q : K → V → Bool)
    (P : Nat → Bool) (h : ∀ a ∈ live t, ∀ v, (m.ent a).value = some v → P a = Q (m.ent a).key v) :
    Eff c m t m ((live t).foldl (delStep c m P) t) ((abs m t).filter (fun p => !Q p.1 p.2)) := by
  obtain ⟨h1, h2, h3⟩ := delFold hc P (live t) t hw (fun _ h => h) hw.liveNodup
  refine ⟨h1, ?_, h3⟩
  have : (live t).filter (fun a => !(decide (a ∈ live t) && P a)) = (live t).filter (fun a => !P a) := by
    apply List.filter_congr
    intro a ha; simp [ha]
  rw [this] at h2
  refine (h2.filterMap _).trans ?_
  rw [filterMap_filter_abs hw (fun k v => !Q k v)]
  intro a ha v hv
  rw [h a ha v hv]

theorem prune_eff {c : Cfg K} (hc : c.Ok) {m : Mem K V} {t : Table} (hw : WF c m t) (pred : K → Option V → Bool)
    {fuel : Nat} (hf : t.numEntries < fuel) :
    ∃ t', prune c pred m t fuel = some t' ∧
      Eff c m t m t' ((abs m t).filter (fun p => !pred p.1 (some p.2))) := by
  obtain ⟨h1, h2⟩ := iterInit_rest t
  have := iterate_foldl (fun s => (m, s))
    (fun k v s => (if pred k v then (delete c m s k).2 else s, false))
    (fun s r => WF c m s ∧ (∀ a ∈ r, a ∈ live s) ∧ r.Nodup)
    (fun s r h => h.1.nodup) (fun _ _ _ _ => rfl)
    (by
      rintro s e r ⟨g1, g2, g3⟩
      obtain ⟨k1, k2, _⟩ := delStep_inv (P := fun a => pred (m.ent a).key (m.ent a).value) hc g1 g2 g3
      exact ⟨k1, k2, (List.nodup_cons.1 g3).2⟩)
    (by
      rintro s e r it' ⟨g1, g2, g3⟩ g4 g5
      obtain ⟨_, _, _, _, k5⟩ := delStep_inv (P := fun a => pred (m.ent a).key (m.ent a).value) hc g1 g2 g3
      exact k5 it' g4 g5)
    (live t) fuel (iterInit t) t (by rw [← hw.count]; exact hf) ⟨hw, fun _ h => h, hw.liveNodup⟩ h2 h1
  refine ⟨_, this, ?_⟩
  refine delAll_eff hc hw (fun k v => pred k (some v)) (fun a => pred (m.ent a).key (m.ent a).value) ?_
  intro a _ v hv
  rw [hv]

/-! ### `hash-table-map!-r7` -/

theorem put_live {c : Cfg K} (hc : c.Ok) {m : Mem K V} {t : Table} (hw : WF c m t) {a : Nat}
    (ha : a ∈ live t) (v : V) : (put c m t (m.ent a).key v).2 = (m.setValue a v, t) := by
  have hf := findKey_live hc hw ha
  unfold put tset
  rw [if_neg (by simp), access_create_some hf]
  simp

theorem mapBang_fold {c : Cfg K} (hc : c.Ok) (f : K → V → V) (t : Table) : ∀ (r : List Nat) (m : Mem K V),
    WF c m t → (∀ a ∈ r, a ∈ live t) → r.Nodup →
    ∃ m', r.foldl (fun (s : Mem K V × Table) e => (match (s.1.ent e).value with
        | some w => (put c s.1 s.2 (s.1.ent e).key (f (s.1.ent e).key w)).2
        | none => s)) (m, t) = (m', t) ∧ WF c m' t ∧ m'.fresh = m.fresh ∧
      (∀ a, a ∉ r → m'.ent a = m.ent a) ∧
      (∀ a ∈ r, m'.ent a = { m.ent a with value := (m.ent a).value.map (f (m.ent a).key) }) := by
  intro r
  induction r with
  | nil => intro m hw _ _; exact ⟨m, rfl, hw, rfl, fun _ _ => rfl, by simp⟩
  | cons e r ih =>
    intro m hw hs hn
    obtain ⟨v, hv⟩ := Option.isSome_iff_exists.1 (hw.value e (hs e (by simp)))
    obtain ⟨hne, hn'⟩ := List.nodup_cons.1 hn
    obtain ⟨m', h1, h2, h3, h4, h5⟩ := ih (m.setValue e (f (m.ent e).key v)) (hw.setValue _ _)
      (fun a ha => hs a (by simp [ha])) hn'
    refine ⟨m', ?_, h2, h3, ?_, ?_⟩
    · rw [List.foldl_cons, hv]
      dsimp only
      rw [put_live hc hw (hs e (by simp))]
      exact h1
    · intro a ha
      rw [List.mem_cons, not_or] at ha
      rw [h4 a ha.2]
      unfold Mem.setValue; dsimp only; rw [if_neg ha.1]
    · intro a ha
      rcases List.mem_cons.1 ha with rfl | har
      · rw [h4 a hne, hv]
        unfold Mem.setValue; dsimp only; rw [if_pos rfl]; rfl
      · have : (m.setValue e (f (m.ent e).key v)).ent a = m.ent a := by
          unfold Mem.setValue; dsimp only; rw [if_neg (by rintro rfl; exact hne har)]
        rw [h5 a har, this]

theorem mapBang_eff {c : Cfg K} (hc : c.Ok) {m : Mem K V} {t : Table} (hw : WF c m t) (f : K → V → V)
    {fuel : Nat} (hf : t.numEntries < fuel) :
    ∃ m' t', mapBang c f m t fuel = some (m', t') ∧
      Eff c m t m' t' ((abs m t).map (fun p => (p.1, f p.1 p.2))) := by
  obtain ⟨h1, h2⟩ := iterInit_rest t
  have hput : ∀ (s : Mem K V × Table) (e : Nat), WF c s.1 s.2 → e ∈ live s.2 → ∃ m', WF c m' s.2 ∧
      (match (s.1.ent e).value with
        | some w => (put c s.1 s.2 (s.1.ent e).key (f (s.1.ent e).key w)).2
        | none => s) = (m', s.2) := by
    intro s e hws hes
    obtain ⟨v, hv⟩ := Option.isSome_iff_exists.1 (hws.value e hes)
    rw [hv]
    dsimp only
    rw [put_live hc hws hes]
    exact ⟨_, hws.setValue _ _, rfl⟩
  have := iterate_foldl (fun s : Mem K V × Table => s)
    (fun k v s => (match v with
      | some w => (put c s.1 s.2 k (f k w)).2
      | none => s, false))
    (fun s r => s.2 = t ∧ WF c s.1 s.2 ∧ (∀ a ∈ r, a ∈ live s.2) ∧ r.Nodup)
    (fun s r h => h.2.1.nodup) (fun _ _ _ _ => rfl)
    (by
      rintro s e r ⟨g0, g1, g2, g3⟩
      obtain ⟨m', k1, k2⟩ := hput s e g1 (g2 e (by simp))
      dsimp only
      rw [k2]
      exact ⟨g0, k1, fun a ha => g2 a (by simp [ha]), (List.nodup_cons.1 g3).2⟩)
    (by
      rintro s e r it' ⟨g0, g1, g2, g3⟩ g4 g5
      obtain ⟨m', k1, k2⟩ := hput s e g1 (g2 e (by simp))
      dsimp only
      rw [k2]
      exact ⟨g4, g5⟩)
    (live t) fuel (iterInit t) (m, t) (by rw [← hw.count]; exact hf) ⟨rfl, hw, fun _ h => h, hw.liveNodup⟩ h2 h1
  obtain ⟨m', g1, g2, g3, g4, g5⟩ := mapBang_fold hc f t (live t) m hw (fun _ h => h) hw.liveNodup
  refine ⟨m', t, ?_, g2, ?_, ?_⟩
  · unfold mapBang iterateAll
    exact this.trans (congrArg some g1)
  · unfold abs
    rw [List.map_filterMap]
    apply List.Perm.of_eq
    apply List.filterMap_congr
    intro a ha
    unfold pairOf
    rw [g5 a ha]
    dsimp only
    cases (m.ent a).value <;> rfl
  · refine ⟨by rw [g3], ?_, fun _ h => .inl h⟩
    intro a _ hn
    exact g4 a (fun h => hn (live_sub_all h))

/-! ### Set operations in a world of several tables -/

/-- Invariant of a world. -/
structure WWF (c : Cfg K) (w : World K V) : Prop where
  wf : ∀ (i : Nat) (t : Table), w.tabs[i]? = some t → WF c w.mem t
  disj : ∀ (i j : Nat) (t t' : Table), i ≠ j → w.tabs[i]? = some t → w.tabs[j]? = some t' → Disj t t'

theorem tab_eq {w : World K V} {i : Nat} {t : Table} (h : w.tabs[i]? = some t) : w.tab i = t := by
  unfold World.tab; rw [List.getD_eq_getElem?_getD, h]; rfl

theorem upd_get_self {w : World K V} {i : Nat} {t : Table} (h : w.tabs[i]? = some t) (m' : Mem K V) (t' : Table) :
    (w.upd i m' t').tabs[i]? = some t' := by
  unfold World.upd
  dsimp only
  have : i < w.tabs.length := by
    by_contra hn; rw [List.getElem?_eq_none (by omega)] at h; cases h
  rw [List.getElem?_set_self this]

theorem upd_get_ne {w : World K V} {i j : Nat} (h : i ≠ j) (m' : Mem K V) (t' : Table) :
    (w.upd i m' t').tabs[j]? = w.tabs[j]? := by
  unfold World.upd
  dsimp only
  rw [List.getElem?_set_ne h]

theorem upd_mem (w : World K V) (i : Nat) (m' : Mem K V) (t' : Table) : (w.upd i m' t').mem = m' := rfl

theorem upd_upd (w : World K V) (i : Nat) (m' m'' : Mem K V) (t' t'' : Table) :
    (w.upd i m' t').upd i m'' t'' = w.upd i m'' t'' := by
  unfold World.upd
  dsimp only
  rw [List.set_set]

theorem upd_id {w : World K V} {i : Nat} {t : Table} (h : w.tabs[i]? = some t) : w.upd i w.mem t = w := by
  unfold World.upd
  have : w.tabs.set i t = w.tabs := by
    apply List.ext_getElem?
    intro j
    by_cases hij : i = j
    · subst hij
      have : i < w.tabs.length := by
        by_contra hn; rw [List.getElem?_eq_none (by omega)] at h; cases h
      rw [List.getElem?_set_self this, h]
    · rw [List.getElem?_set_ne hij]
  rw [this]

theorem WWF.upd {c : Cfg K} {w : World K V} (hW : WWF c w) {i : Nat} {t : Table} (h : w.tabs[i]? = some t)
    {m' : Mem K V} {t' : Table} {l' : List (K × V)} (he : Eff c w.mem t m' t' l') :
    WWF c (w.upd i m' t') ∧ ∀ (j : Nat) (t2 : Table), j ≠ i → w.tabs[j]? = some t2 → abs m' t2 = abs w.mem t2 := by
  refine ⟨⟨?_, ?_⟩, ?_⟩
  · intro j t2 hj
    by_cases hij : i = j
    · subst hij
      rw [upd_get_self h] at hj
      injection hj with hj; subst hj
      exact he.wf
    · rw [upd_get_ne hij] at hj
      exact (frame_ext he.ext (hW.wf j t2 hj) (hW.disj i j t t2 hij h hj)).1
  · intro a b ta tb hab ha hb
    by_cases hia : i = a
    · subst hia
      rw [upd_get_self h] at ha
      rw [upd_get_ne hab] at hb
      injection ha with ha; subst ha
      exact (frame_ext he.ext (hW.wf b tb hb) (hW.disj i b t tb hab h hb)).2.2
    · rw [upd_get_ne hia] at ha
      by_cases hib : i = b
      · subst hib
        rw [upd_get_self h] at hb
        injection hb with hb; subst hb
        have := (frame_ext he.ext (hW.wf a ta ha) (hW.disj i a t ta hia h ha)).2.2
        intro x hx hx'
        exact this x hx' hx
      · rw [upd_get_ne hib] at hb
        exact hW.disj a b ta tb hab ha hb
  · intro j t2 hj h2
    exact (frame_ext he.ext (hW.wf j t2 h2) (hW.disj i j t t2 (Ne.symm hj) h h2)).2.1

/-- A loop over table `i` that deletes the current entry when `P` holds of it. -/
theorem delLoop_gen {c : Cfg K} (hc : c.Ok) {w : World K V} (hW : WWF c w) {i : Nat} {t1 : Table}
    (h1 : w.tabs[i]? = some t1) (proc : K → Option V → World K V → World K V × Bool) (P : Nat → Bool)
    (hproc : ∀ t e, WF c w.mem t → e ∈ live t → proc (w.mem.ent e).key (w.mem.ent e).value (w.upd i w.mem t)
      = (w.upd i w.mem (delStep c w.mem P t e), false))
    {fuel : Nat} (hf : t1.numEntries < fuel) :
    iterateAll (fun w => (w.mem, w.tab i)) proc fuel w
      = some (w.upd i w.mem ((live t1).foldl (delStep c w.mem P) t1)) := by
  have hw1 := hW.wf i t1 h1
  obtain ⟨g1, g2⟩ := iterInit_rest t1
  have hstep : ∀ (s : World K V) (t : Table) (e : Nat), s = w.upd i w.mem t → WF c w.mem t → e ∈ live t →
      proc (s.mem.ent e).key (s.mem.ent e).value s = (w.upd i w.mem (delStep c w.mem P t e), false) := by
    intro s t e hs hwt he
    subst hs
    exact hproc t e hwt he
  have := iterate_foldl (fun w : World K V => (w.mem, w.tab i)) proc
    (fun s r => ∃ t, s = w.upd i w.mem t ∧ WF c w.mem t ∧ (∀ a ∈ r, a ∈ live t) ∧ r.Nodup)
    (by
      rintro s r ⟨t, rfl, k1, _⟩
      rw [tab_eq (upd_get_self h1 _ _)]; exact k1.nodup)
    (by
      rintro s e r ⟨t, hs, k1, k2, k3⟩
      dsimp only
      rw [hstep s t e hs k1 (k2 e (by simp))])
    (by
      rintro s e r ⟨t, hs, k1, k2, k3⟩
      obtain ⟨q1, q2, _⟩ := delStep_inv (P := P) hc k1 k2 k3
      dsimp only
      rw [hstep s t e hs k1 (k2 e (by simp))]
      exact ⟨_, rfl, q1, q2, (List.nodup_cons.1 k3).2⟩)
    (by
      rintro s e r it' ⟨t, hs, k1, k2, k3⟩ k4 k5
      obtain ⟨_, _, _, _, q5⟩ := delStep_inv (P := P) hc k1 k2 k3
      have e0 : s.tab i = t := by rw [hs]; exact tab_eq (upd_get_self h1 _ _)
      dsimp only at k4 k5 ⊢
      rw [e0] at k4 k5
      rw [hstep s t e hs k1 (k2 e (by simp)), tab_eq (upd_get_self h1 _ _)]
      exact q5 it' k4 k5)
    (live t1) fuel (iterInit t1) w (by rw [← hw1.count]; exact hf)
    ⟨t1, (upd_id h1).symm, hw1, fun _ h => h, hw1.liveNodup⟩
    (by rw [tab_eq h1]; exact g2) (by rw [tab_eq h1]; exact g1)
  have hfold : ∀ (r : List Nat) (t : Table), WF c w.mem t → (∀ a ∈ r, a ∈ live t) → r.Nodup →
      r.foldl (fun (s : World K V) e => (proc (s.mem.ent e).key (s.mem.ent e).value s).1) (w.upd i w.mem t)
      = w.upd i w.mem (r.foldl (delStep c w.mem P) t) := by
    intro r
    induction r with
    | nil => intro t _ _ _; rfl
    | cons e r ih =>
      intro t k1 k2 k3
      obtain ⟨q1, q2, _⟩ := delStep_inv (P := P) hc k1 k2 k3
      rw [List.foldl_cons, List.foldl_cons, hstep _ t e rfl k1 (k2 e (by simp)),
        ih _ q1 q2 (List.nodup_cons.1 k3).2]
  unfold iterateAll
  dsimp only
  rw [tab_eq h1, this]
  have := hfold (live t1) t1 hw1 (fun _ h => h) hw1.liveNodup
  rw [upd_id h1] at this
  rw [← this]

theorem exists_eq {c : Cfg K} (hc : c.Ok) {m : Mem K V} {t : Table} (hw : WF c m t) (k : K) :
    exists? c m t k = (FinMap.lookup c.eq (abs m t) k).isSome := by
  unfold exists?; rw [ref_eq hc hw]

theorem exists_live {c : Cfg K} (hc : c.Ok) {m : Mem K V} {t : Table} (hw : WF c m t) {e : Nat} (he : e ∈ live t) :
    exists? c m t (m.ent e).key = true := by
  unfold exists? ref
  rw [access_get_some (findKey_live hc hw he)]
  exact hw.value e he

theorem difference_eff {c : Cfg K} (hc : c.Ok) {w : World K V} (hW : WWF c w) {i j : Nat} {t1 t2 : Table}
    (h1 : w.tabs[i]? = some t1) (h2 : w.tabs[j]? = some t2) {fuel : Nat} (hf : t1.numEntries < fuel) :
    ∃ t', difference c i j fuel w = some (w.upd i w.mem t') ∧
      Eff c w.mem t1 w.mem t' (TableProg.diff c.eq (abs w.mem t1) (abs w.mem t2)) := by
  have hw1 := hW.wf i t1 h1
  have hw2 := hW.wf j t2 h2
  by_cases hij : i = j
  · subst hij
    rw [h1] at h2; injection h2 with h2; subst h2
    refine ⟨_, delLoop_gen hc hW h1 _ (fun _ => true) ?_ hf, ?_⟩
    · intro t e hwt het
      try dsimp only
      rw [tab_eq (upd_get_self h1 _ _), upd_mem, exists_live hc hwt het, upd_upd]
      rfl
    · have := delAll_eff hc hw1 (fun _ _ => true) (fun _ => true) (fun _ _ _ _ => rfl)
      have he : TableProg.diff c.eq (abs w.mem t1) (abs w.mem t1) = (abs w.mem t1).filter (fun _ => !true) := by
        unfold TableProg.diff
        apply List.filter_congr
        intro p hp
        have : FinMap.lookup c.eq (abs w.mem t1) p.1 = some p.2 :=
          (FinMap.lookup_eq_some hc.equiv (distinct_abs hw1)).2 ⟨p, hp, hc.equiv.refl _, rfl⟩
        rw [this]; rfl
      rw [he]; exact this
  · refine ⟨_, delLoop_gen hc hW h1 _ (fun a => exists? c w.mem t2 (w.mem.ent a).key) ?_ hf, ?_⟩
    · intro t e hwt het
      try dsimp only
      rw [tab_eq (upd_get_self h1 _ _), tab_eq (by rw [upd_get_ne hij]; exact h2), upd_mem, upd_upd]
      unfold delStep
      split <;> rfl
    · have := delAll_eff hc hw1 (fun k _ => (FinMap.lookup c.eq (abs w.mem t2) k).isSome)
        (fun a => exists? c w.mem t2 (w.mem.ent a).key) (fun a _ v _ => exists_eq hc hw2 _)
      have he : TableProg.diff c.eq (abs w.mem t1) (abs w.mem t2)
          = (abs w.mem t1).filter (fun p => !(FinMap.lookup c.eq (abs w.mem t2) p.1).isSome) := by
        unfold TableProg.diff
        apply List.filter_congr
        intro p _
        cases FinMap.lookup c.eq (abs w.mem t2) p.1 <;> rfl
      rw [he]; exact this

theorem intersection_eff {c : Cfg K} (hc : c.Ok) {w : World K V} (hW : WWF c w) {i j : Nat} {t1 t2 : Table}
    (h1 : w.tabs[i]? = some t1) (h2 : w.tabs[j]? = some t2) {fuel : Nat} (hf : t1.numEntries < fuel) :
    ∃ t', intersection c i j fuel w = some (w.upd i w.mem t') ∧
      Eff c w.mem t1 w.mem t' (TableProg.inter c.eq (abs w.mem t1) (abs w.mem t2)) := by
  have hw1 := hW.wf i t1 h1
  have hw2 := hW.wf j t2 h2
  by_cases hij : i = j
  · subst hij
    rw [h1] at h2; injection h2 with h2; subst h2
    refine ⟨_, delLoop_gen hc hW h1 _ (fun _ => false) ?_ hf, ?_⟩
    · intro t e hwt het
      try dsimp only
      rw [tab_eq (upd_get_self h1 _ _), upd_mem, exists_live hc hwt het]
      rfl
    · have := delAll_eff hc hw1 (fun _ _ => false) (fun _ => false) (fun _ _ _ _ => rfl)
      have he : TableProg.inter c.eq (abs w.mem t1) (abs w.mem t1) = (abs w.mem t1).filter (fun _ => !false) := by
        unfold TableProg.inter
        apply List.filter_congr
        intro p hp
        have : FinMap.lookup c.eq (abs w.mem t1) p.1 = some p.2 :=
          (FinMap.lookup_eq_some hc.equiv (distinct_abs hw1)).2 ⟨p, hp, hc.equiv.refl _, rfl⟩
        rw [this]; rfl
      rw [he]; exact this
  · refine ⟨_, delLoop_gen hc hW h1 _ (fun a => !exists? c w.mem t2 (w.mem.ent a).key) ?_ hf, ?_⟩
    · intro t e hwt het
      try dsimp only
      rw [tab_eq (upd_get_self h1 _ _), tab_eq (by rw [upd_get_ne hij]; exact h2), upd_mem, upd_upd]
      unfold delStep
      dsimp only
      by_cases hx : exists? c w.mem t2 (w.mem.ent e).key = true
      · rw [if_pos hx, if_neg (by simp [hx])]
      · rw [if_neg hx, if_pos (by simp [hx])]
    · have := delAll_eff hc hw1 (fun k _ => !(FinMap.lookup c.eq (abs w.mem t2) k).isSome)
        (fun a => !exists? c w.mem t2 (w.mem.ent a).key) (fun a _ v _ => by rw [exists_eq hc hw2])
      have he : TableProg.inter c.eq (abs w.mem t1) (abs w.mem t2)
          = (abs w.mem t1).filter (fun p => !!(FinMap.lookup c.eq (abs w.mem t2) p.1).isSome) := by
        unfold TableProg.inter
        apply List.filter_congr
        intro p _
        rw [Bool.not_not]
      rw [he]; exact this

/-! `union!` and `xor!`: fold over the other table's bindings. -/

/-- One step of `union!` (`tog = false`) or `xor!` (`tog = true`) on a table. -/
def setStep (c : Cfg K) (tog : Bool) (s : Mem K V × Table) (k : K) (x : V) : Mem K V × Table :=
  if exists? c s.1 s.2 k then (if tog then (s.1, (delete c s.1 s.2 k).2) else s) else (put c s.1 s.2 k x).2

/-- The same on a finite map. -/
def specSet (eq : K → K → Bool) (tog : Bool) (l : List (K × V)) (p : K × V) : List (K × V) :=
  if (FinMap.lookup eq l p.1).isSome then (if tog then FinMap.erase eq l p.1 else l) else FinMap.insert eq l p.1 p.2

theorem setStep_eff {c : Cfg K} (hc : c.Ok) {m : Mem K V} {t : Table} (hw : WF c m t) (tog : Bool) (k : K) (x : V)
    (hn : t.numEntries < intMax) :
    Eff c m t (setStep c tog (m, t) k x).1 (setStep c tog (m, t) k x).2 (specSet c.eq tog (abs m t) (k, x)) := by
  unfold setStep specSet
  dsimp only
  rw [exists_eq hc hw]
  by_cases h : (FinMap.lookup c.eq (abs m t) k).isSome = true
  · rw [if_pos h, if_pos h]
    cases tog
    · rw [if_neg (by simp), if_neg (by simp)]; exact Eff.id hw
    · rw [if_pos rfl, if_pos rfl]; exact (delete_eff hc hw k).2
  · rw [if_neg h, if_neg h]
    have := (tset_eff hc hw k x false false hn).2
    have hl : FinMap.lookup c.eq (abs m t) k = none := by
      cases hl : FinMap.lookup c.eq (abs m t) k with
      | none => rfl
      | some v => rw [hl] at h; simp at h
    rw [hl] at this
    unfold put
    simpa using this

theorem specSet_perm {eq : K → K → Bool} (he : FinMap.Equiv eq) (tog : Bool) {l l' : List (K × V)} (h : l.Perm l')
    (hd : FinMap.DistinctKeys eq l) (p : K × V) : (specSet eq tog l p).Perm (specSet eq tog l' p) := by
  unfold specSet
  rw [FinMap.lookup_perm he h hd]
  split
  · split
    · exact FinMap.erase_perm h _
    · exact h
  · exact FinMap.insert_perm h _ _

theorem specSet_distinct {eq : K → K → Bool} (he : FinMap.Equiv eq) (tog : Bool) {l : List (K × V)}
    (hd : FinMap.DistinctKeys eq l) (p : K × V) : FinMap.DistinctKeys eq (specSet eq tog l p) := by
  unfold specSet
  split
  · split
    · exact FinMap.distinct_erase hd _
    · exact hd
  · exact FinMap.distinct_insert he hd _ _

theorem specSet_length {eq : K → K → Bool} (tog : Bool) (l : List (K × V)) (p : K × V) :
    (specSet eq tog l p).length ≤ l.length + 1 := by
  unfold specSet FinMap.erase FinMap.insert
  split
  · split
    · exact le_trans (List.length_filter_le _ _) (by omega)
    · omega
  · split
    · rw [List.length_map]; omega
    · rw [List.length_cons]

theorem foldl_specSet_perm {eq : K → K → Bool} (he : FinMap.Equiv eq) (tog : Bool) (r : List (K × V)) :
    ∀ {l l' : List (K × V)}, l.Perm l' → FinMap.DistinctKeys eq l →
      (r.foldl (specSet eq tog) l).Perm (r.foldl (specSet eq tog) l') := by
  induction r with
  | nil => intro l l' h _; exact h
  | cons p r ih => intro l l' h hd; exact ih (specSet_perm he tog h hd p) (specSet_distinct he tog hd p)

theorem lookup_none_iff {eq : K → K → Bool} {l : List (K × V)} {k : K} :
    FinMap.lookup eq l k = none ↔ ∀ p ∈ l, eq k p.1 = false := by
  unfold FinMap.lookup
  rw [Option.map_eq_none_iff, List.find?_eq_none]
  simp

theorem insert_absent {eq : K → K → Bool} {l : List (K × V)} {k : K} (h : FinMap.lookup eq l k = none) (v : V) :
    FinMap.insert eq l k v = (k, v) :: l := by
  unfold FinMap.insert
  rw [if_neg]
  rw [FinMap.any_eq_isSome, h]; simp

/-- `union!` on finite maps. -/
theorem specUnion {eq : K → K → Bool} (he : FinMap.Equiv eq) : ∀ (l2 l1 : List (K × V)), FinMap.DistinctKeys eq l2 →
    (l2.foldl (specSet eq false) l1).Perm (l1 ++ TableProg.diff eq l2 l1) := by
  intro l2
  induction l2 with
  | nil => intro l1 _; unfold TableProg.diff; simp
  | cons p l2 ih =>
    intro l1 hd
    obtain ⟨hp, hd'⟩ := List.pairwise_cons.1 hd
    rw [List.foldl_cons]
    cases hl : FinMap.lookup eq l1 p.1 with
    | some v =>
      have : specSet eq false l1 p = l1 := by unfold specSet; rw [hl]; simp
      rw [this]
      refine (ih l1 hd').trans ?_
      unfold TableProg.diff
      rw [List.filter_cons_of_neg (by rw [hl]; simp)]
    | none =>
      have : specSet eq false l1 p = p :: l1 := by
        unfold specSet; rw [hl, insert_absent hl]; simp
      rw [this]
      refine (ih _ hd').trans ?_
      unfold TableProg.diff
      rw [List.filter_cons_of_pos (by rw [hl]; rfl), List.cons_append]
      have hcongr : l2.filter (fun q => (FinMap.lookup eq (p :: l1) q.1).isNone)
          = l2.filter (fun q => (FinMap.lookup eq l1 q.1).isNone) := by
        apply List.filter_congr
        intro q hq
        rw [FinMap.lookup_cons, if_neg]
        rw [he.symm_eq, hp q hq]; simp
      rw [hcongr]
      exact List.perm_middle.symm

/-- `xor!` on finite maps. -/
theorem specXor {eq : K → K → Bool} (he : FinMap.Equiv eq) : ∀ (l2 l1 : List (K × V)), FinMap.DistinctKeys eq l2 →
    (l2.foldl (specSet eq true) l1).Perm (TableProg.diff eq l1 l2 ++ TableProg.diff eq l2 l1) := by
  intro l2
  induction l2 with
  | nil =>
    intro l1 _
    unfold TableProg.diff FinMap.lookup
    simp
  | cons p l2 ih =>
    intro l1 hd
    obtain ⟨hp, hd'⟩ := List.pairwise_cons.1 hd
    rw [List.foldl_cons]
    cases hl : FinMap.lookup eq l1 p.1 with
    | some v =>
      have : specSet eq true l1 p = FinMap.erase eq l1 p.1 := by unfold specSet; rw [hl]; simp
      rw [this]
      refine (ih _ hd').trans ?_
      unfold TableProg.diff
      rw [List.filter_cons_of_neg (by rw [hl]; simp)]
      have e1 : (FinMap.erase eq l1 p.1).filter (fun q => (FinMap.lookup eq l2 q.1).isNone)
          = l1.filter (fun q => (FinMap.lookup eq (p :: l2) q.1).isNone) := by
        unfold FinMap.erase
        rw [List.filter_filter]
        apply List.filter_congr
        intro q _
        rw [FinMap.lookup_cons, he.symm_eq]
        cases eq q.1 p.1 <;> simp
      have e2 : l2.filter (fun q => (FinMap.lookup eq (FinMap.erase eq l1 p.1) q.1).isNone)
          = l2.filter (fun q => (FinMap.lookup eq l1 q.1).isNone) := by
        apply List.filter_congr
        intro q hq
        rw [FinMap.lookup_erase he, if_neg]
        rw [hp q hq]; simp
      rw [e1, e2]
    | none =>
      have : specSet eq true l1 p = p :: l1 := by
        unfold specSet; rw [hl, insert_absent hl]; simp
      rw [this]
      refine (ih _ hd').trans ?_
      unfold TableProg.diff
      have hpl2 : FinMap.lookup eq l2 p.1 = none := lookup_none_iff.2 hp
      rw [List.filter_cons_of_pos (by rw [hpl2]; rfl)]
      rw [List.filter_cons_of_pos (by rw [hl]; rfl)]
      have e1 : l1.filter (fun q => (FinMap.lookup eq l2 q.1).isNone)
          = l1.filter (fun q => (FinMap.lookup eq (p :: l2) q.1).isNone) := by
        apply List.filter_congr
        intro q hq
        rw [FinMap.lookup_cons, if_neg]
        have := lookup_none_iff.1 hl q hq
        rw [he.symm_eq, this]; simp
      have e2 : l2.filter (fun q => (FinMap.lookup eq (p :: l1) q.1).isNone)
          = l2.filter (fun q => (FinMap.lookup eq l1 q.1).isNone) := by
        apply List.filter_congr
        intro q hq
        rw [FinMap.lookup_cons, if_neg]
        rw [he.symm_eq, hp q hq]; simp
      rw [e1, e2, List.cons_append]
      exact List.perm_middle.symm

/-- The loop of `union!` and `xor!` on two different tables. -/
theorem setLoop {c : Cfg K} (hc : c.Ok) {w : World K V} (hW : WWF c w) {i j : Nat} {t1 t2 : Table}
    (h1 : w.tabs[i]? = some t1) (h2 : w.tabs[j]? = some t2) (hij : i ≠ j) (tog : Bool)
    (proc : K → Option V → World K V → World K V × Bool)
    (hproc : ∀ (s : World K V) (t : Table) k x, s.tab i = t →
      proc k (some x) s = (s.upd i (setStep c tog (s.mem, t) k x).1 (setStep c tog (s.mem, t) k x).2, false))
    {fuel : Nat} (hf : t2.numEntries < fuel) (hfit : t1.numEntries + t2.numEntries < intMax) :
    ∃ m' t', iterateAll (fun w => (w.mem, w.tab j)) proc fuel w = some (w.upd i m' t') ∧
      Eff c w.mem t1 m' t' ((abs w.mem t2).foldl (specSet c.eq tog) (abs w.mem t1)) := by
  have hw1 := hW.wf i t1 h1
  have hw2 := hW.wf j t2 h2
  obtain ⟨g1, g2⟩ := iterInit_rest t2
  -- the state before entry `e` is handled
  have hstep : ∀ (m' : Mem K V) (t' : Table) (e : Nat), WF c m' t' → Ext w.mem t1 m' t' → e ∈ live t2 →
      t'.numEntries < intMax → ∃ m'' t'' v, (w.mem.ent e).value = some v ∧
        proc ((w.upd i m' t').mem.ent e).key ((w.upd i m' t').mem.ent e).value (w.upd i m' t')
          = (w.upd i m'' t'', false) ∧
        Eff c m' t' m'' t'' (specSet c.eq tog (abs m' t') ((w.mem.ent e).key, v)) := by
    intro m' t' e hwt hx he hn
    obtain ⟨v, hv⟩ := Option.isSome_iff_exists.1 (hw2.value e he)
    have hent : m'.ent e = w.mem.ent e :=
      hx.old e (hw2.fresh e (live_sub_all he)) (fun h => hW.disj i j t1 t2 hij h1 h2 e h (live_sub_all he))
    refine ⟨_, _, v, hv, ?_, setStep_eff hc hwt tog _ _ hn⟩
    rw [upd_mem, hent, hv, hproc _ t' _ _ (tab_eq (upd_get_self h1 _ _)), upd_upd, upd_mem]
  have := iterate_foldl (fun w : World K V => (w.mem, w.tab j)) proc
    (fun s r => (∀ a ∈ r, a ∈ live t2) ∧ ∃ m' t', s = w.upd i m' t' ∧ WF c m' t' ∧ Ext w.mem t1 m' t' ∧
      t'.numEntries + r.length < intMax)
    (by
      rintro s r ⟨_, m', t', rfl, k1, _⟩
      rw [tab_eq (by rw [upd_get_ne hij]; exact h2)]; exact hw2.nodup)
    (by
      rintro s e r ⟨k0, m', t', rfl, k1, k2, k3⟩
      obtain ⟨m'', t'', v, _, q1, _⟩ := hstep m' t' e k1 k2 (k0 e (by simp)) (by omega)
      dsimp only
      rw [q1])
    (by
      rintro s e r ⟨k0, m', t', rfl, k1, k2, k3⟩
      obtain ⟨m'', t'', v, _, q1, q2⟩ := hstep m' t' e k1 k2 (k0 e (by simp)) (by omega)
      dsimp only
      rw [q1]
      refine ⟨fun a ha => k0 a (by simp [ha]), m'', t'', rfl, q2.wf, k2.trans q2.ext, ?_⟩
      rw [← length_abs q2.wf, q2.perm.length_eq]
      have := specSet_length (eq := c.eq) tog (abs m' t') ((w.mem.ent e).key, v)
      rw [length_abs k1] at this
      rw [List.length_cons] at k3
      omega)
    (by
      rintro s e r it' ⟨k0, m', t', rfl, k1, k2, k3⟩ k4 k5
      obtain ⟨m'', t'', v, _, q1, q2⟩ := hstep m' t' e k1 k2 (k0 e (by simp)) (by omega)
      dsimp only at k4 k5 ⊢
      rw [tab_eq (by rw [upd_get_ne hij]; exact h2)] at k4 k5
      rw [q1, tab_eq (by rw [upd_get_ne hij]; exact h2)]
      exact ⟨k4, k5⟩)
    (live t2) fuel (iterInit t2) w (by rw [← hw2.count]; exact hf)
    ⟨fun _ h => h, w.mem, t1, (upd_id h1).symm, hw1, Ext.refl _ _, by rw [← hw2.count]; exact hfit⟩
    (by rw [tab_eq h2]; exact g2) (by rw [tab_eq h2]; exact g1)
  have hfold : ∀ (r : List Nat) (m' : Mem K V) (t' : Table), (∀ a ∈ r, a ∈ live t2) → WF c m' t' →
      Ext w.mem t1 m' t' → t'.numEntries + r.length < intMax →
      ∃ m'' t'', r.foldl (fun (s : World K V) e => (proc (s.mem.ent e).key (s.mem.ent e).value s).1) (w.upd i m' t')
        = w.upd i m'' t'' ∧ Eff c m' t' m'' t'' ((r.filterMap (pairOf w.mem)).foldl (specSet c.eq tog) (abs m' t')) := by
    intro r
    induction r with
    | nil => intro m' t' _ hw' _ _; exact ⟨m', t', rfl, Eff.id hw'⟩
    | cons e r ih =>
      intro m' t' k0 k1 k2 k3
      obtain ⟨m'', t'', v, hv, q1, q2⟩ := hstep m' t' e k1 k2 (k0 e (by simp)) (by simp at k3; omega)
      obtain ⟨m3, t3, p1, p2⟩ := ih m'' t'' (fun a ha => k0 a (by simp [ha])) q2.wf (k2.trans q2.ext) (by
        rw [← length_abs q2.wf, q2.perm.length_eq]
        have := specSet_length (eq := c.eq) tog (abs m' t') ((w.mem.ent e).key, v)
        rw [length_abs k1] at this
        rw [List.length_cons] at k3
        omega)
      refine ⟨m3, t3, ?_, p2.wf, ?_, q2.ext.trans p2.ext⟩
      · rw [List.foldl_cons, q1]; exact p1
      · rw [List.filterMap_cons_some (b := ((w.mem.ent e).key, v)) (by unfold pairOf; rw [hv]; rfl), List.foldl_cons]
        exact p2.perm.trans (foldl_specSet_perm hc.equiv tog _ q2.perm (distinct_abs q2.wf))
  obtain ⟨m'', t'', p1, p2⟩ := hfold (live t2) w.mem t1 (fun _ h => h) hw1 (Ext.refl _ _)
    (by rw [← hw2.count]; exact hfit)
  rw [upd_id h1] at p1
  refine ⟨m'', t'', ?_, p2⟩
  unfold iterateAll
  dsimp only
  rw [tab_eq h2, this]
  exact congrArg some p1

theorem union_eff {c : Cfg K} (hc : c.Ok) {w : World K V} (hW : WWF c w) {i j : Nat} {t1 t2 : Table}
    (h1 : w.tabs[i]? = some t1) (h2 : w.tabs[j]? = some t2) {fuel : Nat} (hf : t2.numEntries < fuel)
    (hfit : i ≠ j → t1.numEntries + t2.numEntries < intMax) :
    ∃ m' t', union c i j fuel w = some (w.upd i m' t') ∧
      Eff c w.mem t1 m' t' (abs w.mem t1 ++ TableProg.diff c.eq (abs w.mem t2) (abs w.mem t1)) := by
  have hw1 := hW.wf i t1 h1
  have hw2 := hW.wf j t2 h2
  by_cases hij : i = j
  · subst hij
    rw [h1] at h2; injection h2 with h2; subst h2
    refine ⟨_, _, delLoop_gen hc hW h1 _ (fun _ => false) ?_ hf, ?_⟩
    · intro t e hwt het
      obtain ⟨v, hv⟩ := Option.isSome_iff_exists.1 (hwt.value e het)
      dsimp only
      rw [hv]
      dsimp only
      rw [tab_eq (upd_get_self h1 _ _), upd_mem, exists_live hc hwt het]
      rfl
    · have := delAll_eff hc hw1 (fun _ _ => false) (fun _ => false) (fun _ _ _ _ => rfl)
      have he : abs w.mem t1 ++ TableProg.diff c.eq (abs w.mem t1) (abs w.mem t1)
          = (abs w.mem t1).filter (fun _ => !false) := by
        have e1 : TableProg.diff c.eq (abs w.mem t1) (abs w.mem t1) = [] := by
          unfold TableProg.diff
          rw [List.filter_eq_nil_iff]
          intro p hp
          have : FinMap.lookup c.eq (abs w.mem t1) p.1 = some p.2 :=
            (FinMap.lookup_eq_some hc.equiv (distinct_abs hw1)).2 ⟨p, hp, hc.equiv.refl _, rfl⟩
          rw [this]; simp
        rw [e1, List.append_nil]; simp
      rw [he]; exact this
  · obtain ⟨m', t', p1, p2⟩ := setLoop hc hW h1 h2 hij false
      (fun k v w => (match v with
        | some x => if exists? c w.mem (w.tab i) k then w else
            let r := put c w.mem (w.tab i) k x
            w.upd i r.2.1 r.2.2
        | none => w, false))
      (by
        intro s t k x ht
        dsimp only
        rw [ht]
        unfold setStep
        dsimp only
        by_cases he : exists? c s.mem t k = true
        · rw [if_pos he, if_pos he, if_neg (by simp)]
          dsimp only
          by_cases hi : i < s.tabs.length
          · rw [upd_id]
            unfold World.tab at ht
            rw [List.getD_eq_getElem?_getD, List.getElem?_eq_getElem hi] at ht
            rw [List.getElem?_eq_getElem hi]; rw [← ht]; rfl
          · unfold World.upd
            rw [List.set_eq_of_length_le (by omega)]
        · rw [if_neg he, if_neg he])
      hf (hfit hij)
    refine ⟨m', t', p1, p2.wf, p2.perm.trans (specUnion hc.equiv _ _ (distinct_abs hw2)), p2.ext⟩

theorem xor_eff {c : Cfg K} (hc : c.Ok) {w : World K V} (hW : WWF c w) {i j : Nat} {t1 t2 : Table}
    (h1 : w.tabs[i]? = some t1) (h2 : w.tabs[j]? = some t2) {fuel : Nat} (hf : t2.numEntries < fuel)
    (hfit : i ≠ j → t1.numEntries + t2.numEntries < intMax) :
    ∃ m' t', xor c i j fuel w = some (w.upd i m' t') ∧
      Eff c w.mem t1 m' t' (TableProg.diff c.eq (abs w.mem t1) (abs w.mem t2)
        ++ TableProg.diff c.eq (abs w.mem t2) (abs w.mem t1)) := by
  have hw1 := hW.wf i t1 h1
  have hw2 := hW.wf j t2 h2
  by_cases hij : i = j
  · subst hij
    rw [h1] at h2; injection h2 with h2; subst h2
    refine ⟨_, _, delLoop_gen hc hW h1 _ (fun _ => true) ?_ hf, ?_⟩
    · intro t e hwt het
      obtain ⟨v, hv⟩ := Option.isSome_iff_exists.1 (hwt.value e het)
      dsimp only
      rw [hv]
      dsimp only
      rw [tab_eq (upd_get_self h1 _ _), upd_mem, exists_live hc hwt het, upd_upd]
      rfl
    · have := delAll_eff hc hw1 (fun _ _ => true) (fun _ => true) (fun _ _ _ _ => rfl)
      have he : TableProg.diff c.eq (abs w.mem t1) (abs w.mem t1)
          ++ TableProg.diff c.eq (abs w.mem t1) (abs w.mem t1) = (abs w.mem t1).filter (fun _ => !true) := by
        have e1 : TableProg.diff c.eq (abs w.mem t1) (abs w.mem t1) = [] := by
          unfold TableProg.diff
          rw [List.filter_eq_nil_iff]
          intro p hp
          have : FinMap.lookup c.eq (abs w.mem t1) p.1 = some p.2 :=
            (FinMap.lookup_eq_some hc.equiv (distinct_abs hw1)).2 ⟨p, hp, hc.equiv.refl _, rfl⟩
          rw [this]; simp
        rw [e1]; simp
      rw [he]; exact this
  · obtain ⟨m', t', p1, p2⟩ := setLoop hc hW h1 h2 hij true
      (fun k v w => (match v with
        | some x => if exists? c w.mem (w.tab i) k then w.upd i w.mem (delete c w.mem (w.tab i) k).2 else
            let r := put c w.mem (w.tab i) k x
            w.upd i r.2.1 r.2.2
        | none => w, false))
      (by
        intro s t k x ht
        dsimp only
        rw [ht]
        unfold setStep
        dsimp only
        by_cases he : exists? c s.mem t k = true
        · rw [if_pos he, if_pos he, if_pos rfl]
        · rw [if_neg he, if_neg he])
      hf (hfit hij)
    refine ⟨m', t', p1, p2.wf, p2.perm.trans (specXor hc.equiv _ _ (distinct_abs hw2)), p2.ext⟩

/-! ### Comparison -/

theorem incl_length {eq : K → K → Bool} (he : FinMap.Equiv eq) (veq : V → V → Bool) : ∀ (l1 l2 : List (K × V)),
    FinMap.DistinctKeys eq l1 → FinMap.DistinctKeys eq l2 → TableProg.Incl eq veq l1 l2 = true →
    l1.length ≤ l2.length ∧ (l1.length = l2.length → ∀ q ∈ l2, ∃ p ∈ l1, eq p.1 q.1 = true ∧ veq p.2 q.2 = true) := by
  intro l1
  induction l1 with
  | nil =>
    intro l2 _ _ _
    refine ⟨by simp, ?_⟩
    intro h q hq
    have : l2 = [] := List.length_eq_zero_iff.1 h.symm
    subst this; simp at hq
  | cons p l1 ih =>
    intro l2 hd1 hd2 hi
    obtain ⟨hp, hd1'⟩ := List.pairwise_cons.1 hd1
    unfold TableProg.Incl at hi
    rw [List.all_cons, Bool.and_eq_true] at hi
    obtain ⟨hi1, hi2⟩ := hi
    cases hl : FinMap.lookup eq l2 p.1 with
    | none => rw [hl] at hi1; simp at hi1
    | some x =>
      rw [hl] at hi1
      dsimp only at hi1
      obtain ⟨q, hq, hpq, hqx⟩ := (FinMap.lookup_eq_some he hd2).1 hl
      obtain ⟨s, t, hst⟩ := List.append_of_mem hq
      have hperm : l2.Perm (q :: (s ++ t)) := by rw [hst]; exact List.perm_middle
      have hd2' : FinMap.DistinctKeys eq (q :: (s ++ t)) := FinMap.distinct_perm he hperm hd2
      obtain ⟨hq', hd2''⟩ := List.pairwise_cons.1 hd2'
      have hi' : TableProg.Incl eq veq l1 (s ++ t) = true := by
        unfold TableProg.Incl
        rw [List.all_eq_true] at hi2 ⊢
        intro p' hp'
        have h3 := hi2 p' hp'
        rw [FinMap.lookup_perm he hperm hd2, FinMap.lookup_cons, if_neg] at h3
        · exact h3
        · intro h4
          have : eq p.1 p'.1 = true := he.trans _ _ _ hpq (he.symm _ _ h4)
          rw [hp p' hp'] at this; cases this
      obtain ⟨k1, k2⟩ := ih (s ++ t) hd1' hd2'' hi'
      have hlen := hperm.length_eq
      rw [List.length_cons] at hlen
      refine ⟨by rw [List.length_cons, hlen]; omega, ?_⟩
      intro heq q' hq2
      rw [List.length_cons, hlen] at heq
      rcases List.mem_cons.1 (hperm.mem_iff.1 hq2) with rfl | h5
      · exact ⟨p, by simp, hpq, by rw [hqx]; exact hi1⟩
      · obtain ⟨p', hp', h6⟩ := k2 (by omega) q' h5
        exact ⟨p', by simp [hp'], h6⟩

theorem incl_perm {eq : K → K → Bool} (he : FinMap.Equiv eq) (veq : V → V → Bool) {l1 l1' l2 l2' : List (K × V)}
    (h1 : l1.Perm l1') (h2 : l2.Perm l2') (hd : FinMap.DistinctKeys eq l2) :
    TableProg.Incl eq veq l1 l2 = TableProg.Incl eq veq l1' l2' := by
  unfold TableProg.Incl
  rw [Bool.eq_iff_iff, List.all_eq_true, List.all_eq_true]
  constructor
  · intro h p hp
    have := h p (h1.mem_iff.2 hp)
    rwa [FinMap.lookup_perm he h2 hd] at this
  · intro h p hp
    have := h p (h1.mem_iff.1 hp)
    rwa [← FinMap.lookup_perm he h2 hd] at this

theorem subset_eq {c : Cfg K} (hc : c.Ok) (veq : V → V → Bool) {m : Mem K V} {t1 t2 : Table} (hw1 : WF c m t1)
    (hw2 : WF c m t2) {fuel : Nat} (hf : t1.numEntries < fuel) :
    subset c veq m t1 t2 fuel = some (TableProg.Incl c.eq veq (abs m t1) (abs m t2)) := by
  unfold subset
  rw [seek_eq hw1 _ hf]
  rw [Option.map_some]
  congr 1
  unfold TableProg.Incl
  rw [Option.isNone_map]
  generalize abs m t1 = l
  induction l with
  | nil => rfl
  | cons p l ih =>
    rw [List.find?_cons, List.all_cons, ref_eq hc hw2]
    cases FinMap.lookup c.eq (abs m t2) p.1 with
    | none => simp
    | some w =>
      dsimp only
      cases veq p.2 w with
      | true => simpa using ih
      | false => simp

theorem compare_eq {c : Cfg K} (hc : c.Ok) (veq : V → V → Bool) (hsym : ∀ a b, veq a b = veq b a) {m : Mem K V}
    {t1 t2 : Table} (hw1 : WF c m t1) (hw2 : WF c m t2) {fuel : Nat}
    (hf : t1.numEntries + t2.numEntries < fuel) :
    compareAsSets c veq m t1 t2 fuel = some (
      if TableProg.Incl c.eq veq (abs m t1) (abs m t2) && TableProg.Incl c.eq veq (abs m t2) (abs m t1) then some 0
        else if TableProg.Incl c.eq veq (abs m t1) (abs m t2) then some (-1)
        else if TableProg.Incl c.eq veq (abs m t2) (abs m t1) then some 1
        else none) := by
  unfold compareAsSets
  rw [subset_eq hc veq hw1 hw2 (by omega), subset_eq hc veq hw2 hw1 (by omega)]
  rw [← length_abs hw1, ← length_abs hw2]
  have i12 := incl_length hc.equiv veq (abs m t1) (abs m t2) (distinct_abs hw1) (distinct_abs hw2)
  have i21 := incl_length hc.equiv veq (abs m t2) (abs m t1) (distinct_abs hw2) (distinct_abs hw1)
  have back : ∀ l1 l2 : List (K × V), FinMap.DistinctKeys c.eq l1 → FinMap.DistinctKeys c.eq l2 →
      l1.length = l2.length → TableProg.Incl c.eq veq l1 l2 = true → TableProg.Incl c.eq veq l2 l1 = true := by
    intro l1 l2 d1 d2 hl hi
    have h3 := (incl_length hc.equiv veq l1 l2 d1 d2 hi).2 hl
    unfold TableProg.Incl
    rw [List.all_eq_true]
    intro q hq
    obtain ⟨p, hp, h4, h5⟩ := h3 q hq
    have : FinMap.lookup c.eq l1 q.1 = some p.2 :=
      (FinMap.lookup_eq_some hc.equiv d1).2 ⟨p, hp, hc.equiv.symm _ _ h4, rfl⟩
    rw [this]
    dsimp only
    rw [hsym]; exact h5
  have b12 := back (abs m t1) (abs m t2) (distinct_abs hw1) (distinct_abs hw2)
  have b21 := back (abs m t2) (abs m t1) (distinct_abs hw2) (distinct_abs hw1)
  generalize hA : TableProg.Incl c.eq veq (abs m t1) (abs m t2) = A at *
  generalize hB : TableProg.Incl c.eq veq (abs m t2) (abs m t1) = B at *
  by_cases heq : (abs m t1).length = (abs m t2).length
  · rw [if_pos heq]
    cases A <;> cases B <;> simp_all
  · rw [if_neg heq]
    by_cases hlt : (abs m t1).length < (abs m t2).length
    · rw [if_pos hlt]
      have hBf : B = false := by
        cases B with
        | false => rfl
        | true => exact absurd (i21 rfl).1 (by omega)
      subst hBf
      cases A <;> simp
    · rw [if_neg hlt]
      have hAf : A = false := by
        cases A with
        | false => rfl
        | true => exact absurd (i12 rfl).1 (by omega)
      subst hAf
      cases B <;> simp

end Gauche.HashTable
