import Verif.Proof.EqualList
import Mathlib.Data.Fintype.Card
import Mathlib.Data.Finset.Card
/-! `equal?` terminates on every finite heap. -/
namespace Gauche.Equal

/-- The box `b` is `d` links away from its root. -/
inductive Dep (B : List Box) : Nat → Nat → Prop
  | zero {b n} : B[b]? = some (.cnt n) → Dep B b 0
  | succ {b c d} : B[b]? = some (.link c) → Dep B c d → Dep B b (d + 1)

theorem Root.dep {B : List Box} {b r : Nat} (h : Root B b r) : ∃ d, Dep B b d := by
  induction h with
  | here h => exact ⟨0, .zero h⟩
  | step h _ ih => obtain ⟨d, hd⟩ := ih; exact ⟨d + 1, .succ h hd⟩

theorem Dep.uniq {B : List Box} {b d d' : Nat} (h : Dep B b d) (h' : Dep B b d') : d = d' := by
  induction h generalizing d' with
  | zero h1 =>
    cases h' with
    | zero _ => rfl
    | succ h2 _ => rw [h1] at h2; cases h2
  | succ h1 _ ih =>
    cases h' with
    | zero h2 => rw [h1] at h2; cases h2
    | succ h2 h3 => rw [h1] at h2; cases h2; rw [ih h3]

theorem Dep.lower {B : List Box} {b d : Nat} (h : Dep B b d) : ∀ i, i ≤ d → ∃ c, c < B.length ∧ Dep B c i := by
  induction h with
  | @zero b n h1 =>
    intro i hi
    obtain rfl : i = 0 := by omega
    exact ⟨b, (List.getElem?_eq_some_iff.1 h1).1, .zero h1⟩
  | @succ b c d h1 h2 ih =>
    intro i hi
    by_cases e : i = d + 1
    · subst e; exact ⟨b, (List.getElem?_eq_some_iff.1 h1).1, .succ h1 h2⟩
    · exact ih i (by omega)

theorem Dep.lt {B : List Box} {b d : Nat} (h : Dep B b d) : d < B.length := by
  have hc := h.lower
  let f : Fin (d + 1) → Fin B.length := fun i => ⟨(hc i.1 (by omega)).choose, (hc i.1 (by omega)).choose_spec.1⟩
  have hf : Function.Injective f := by
    intro i j hij
    have h1 := (hc i.1 (by omega)).choose_spec.2
    have h2 := (hc j.1 (by omega)).choose_spec.2
    have : (hc i.1 (by omega)).choose = (hc j.1 (by omega)).choose := congrArg Fin.val hij
    rw [this] at h1
    exact Fin.ext (h1.uniq h2)
  have := Fintype.card_le_of_injective f hf
  simp only [Fintype.card_fin] at this
  omega

theorem Dep.set {B : List Box} {b c j i : Nat} {v : Box} (h : Dep B c i) (hb : Dep B b j) (hij : i < j) : Dep (B.set b v) c i := by
  induction h with
  | @zero c n h1 =>
    have : b ≠ c := by
      intro e; subst e
      have := hb.uniq (.zero h1); omega
    exact .zero (by rw [getElem?_set_ne' this]; exact h1)
  | @succ c c' d h1 h2 ih =>
    have : b ≠ c := by
      intro e; subst e
      have := hb.uniq (.succ h1 h2); omega
    exact .succ (by rw [getElem?_set_ne' this]; exact h1) (ih (by omega))

/-- A box that holds a size. -/
def isCnt : Box → Bool
  | .cnt _ => true
  | .link _ => false

/-- The number of classes in the table. -/
def roots (B : List Box) : Nat := B.countP isCnt

theorem roots_set {B : List Box} {b : Nat} {w v : Box} (h : B[b]? = some w) :
    roots (B.set b v) + (if isCnt w then 1 else 0) = roots B + (if isCnt v then 1 else 0) := by
  obtain ⟨hl, hw⟩ := List.getElem?_eq_some_iff.1 h
  unfold roots
  rw [List.countP_set hl, hw]
  have : (if isCnt w = true then 1 else 0) ≤ B.countP isCnt := by
    by_cases e : isCnt w = true
    · rw [if_pos e]
      exact List.countP_pos_iff.2 ⟨w, List.mem_of_getElem? h, e⟩
    · rw [if_neg e]; omega
  omega

theorem findLoop_total : ∀ (m : Nat) (B : List Box) (b n d : Nat), B[b]? = some (.link n) → Dep B n d → d < m →
    ∃ B' r, findLoop m B b n = some (B', r) ∧ roots B' = roots B
  | 0, _, _, _, _, _, _, h => by omega
  | m + 1, B, b, n, d, hb, hd, hm => by
    rw [findLoop]
    cases hd with
    | zero h1 => rw [h1]; exact ⟨B, n, rfl, rfl⟩
    | @succ _ nn d h1 h2 =>
      rw [h1]
      have hdb : Dep B b (d + 1 + 1) := .succ hb (.succ h1 h2)
      have hne : b ≠ n := by
        intro e; subst e
        have := hdb.uniq (.succ h1 h2); omega
      obtain ⟨B', r, e1, e2⟩ := findLoop_total m (B.set b (.link nn)) n nn d (by rw [getElem?_set_ne' hne]; exact h1) (h2.set hdb (by omega)) (by omega)
      refine ⟨B', r, e1, ?_⟩
      have := roots_set (v := .link nn) hb
      simp only [isCnt, Bool.false_eq_true, if_false] at this
      rw [e2]; omega

theorem find_total {B : List Box} {b : Nat} (h : ∃ r, Root B b r) : ∃ B' r, find B b = some (B', r) ∧ roots B' = roots B := by
  obtain ⟨r, h⟩ := h
  obtain ⟨d, hd⟩ := h.dep
  unfold find
  cases hd with
  | zero h1 => rw [h1]; exact ⟨B, b, rfl, rfl⟩
  | @succ _ c d h1 h2 =>
    rw [h1]
    exact findLoop_total _ B b c d h1 h2 h2.lt

/-- The objects of the heap that are not in the table. -/
def absent (N : Nat) (t : Nat → Option Nat) : Finset Nat := (Finset.range N).filter (fun p => t p = none)

theorem absent_set {N : Nat} {t : Nat → Option Nat} {p b : Nat} (hp : p < N) (h : t p = none) : (absent N (tabSet t p b)).card + 1 = (absent N t).card := by
  have e : absent N (tabSet t p b) = (absent N t).erase p := by
    ext q
    unfold absent
    rw [Finset.mem_erase, Finset.mem_filter, Finset.mem_filter]
    by_cases e : q = p
    · subst e; simp [tabSet]
    · simp [e, tabSet]
  have hm : p ∈ absent N t := by simp [absent, hp, h]
  rw [e, Finset.card_erase_of_mem hm]
  have := Finset.card_pos.2 ⟨p, hm⟩
  omega

/-- The number of classes of objects, with a class for every object that is not in the table. -/
def pot (N : Nat) (u : UF) : Nat := (absent N u.tab).card + roots u.boxes

theorem roots_append (B : List Box) : roots (B ++ [.cnt 1]) = roots B + 1 := by
  simp [roots, isCnt]

theorem link_roots {B : List Box} {x y : Nat} (hxy : x ≠ y) (hx : ∃ k, B[x]? = some (.cnt k)) (hy : ∃ k, B[y]? = some (.cnt k)) :
    roots (link B x y) + 1 = roots B := by
  obtain ⟨k, hk⟩ := hx
  obtain ⟨j, hj⟩ := hy
  have key : ∀ {a b m k j : Nat}, a ≠ b → B[a]? = some (.cnt k) → B[b]? = some (.cnt j) → roots ((B.set a (.link b)).set b (.cnt m)) + 1 = roots B := by
    intro a b m k j hab ha hb
    have h1 := roots_set (v := .link b) ha
    have h2 := roots_set (B := B.set a (.link b)) (b := b) (v := .cnt m) (by rw [getElem?_set_ne' hab]; exact hb)
    simp only [isCnt, if_true, Bool.false_eq_true, if_false] at h1 h2
    omega
  unfold link
  by_cases h : boxCnt B x > boxCnt B y
  · rw [if_pos h]; exact key (Ne.symm hxy) hj hk
  · rw [if_neg h]; exact key hxy hk hj

theorem unionFind_total {N : Nat} {u : UF} (hu : u.Inv) {p q : Nat} (hp : p < N) (hq : q < N) (hpq : p ≠ q) :
    ∃ b u', unionFind u p q = some (b, u') ∧ pot N u' + (if b then 0 else 1) = pot N u := by
  unfold unionFind
  cases h1 : u.tab p with
  | none =>
    cases h2 : u.tab q with
    | none =>
      refine ⟨_, _, rfl, ?_⟩
      have hq' : tabSet u.tab p u.boxes.length q = none := by simp [tabSet, Ne.symm hpq, h2]
      have a1 := absent_set (b := u.boxes.length) hq hq'
      have a2 := absent_set (b := u.boxes.length) hp h1
      have a3 := roots_append u.boxes
      simp only [pot]
      rw [if_neg (by decide)]
      omega
    | some bq =>
      obtain ⟨B, r, hf, hr⟩ := find_total (hu _ _ h2)
      simp only [hf]
      refine ⟨_, _, rfl, ?_⟩
      have a2 := absent_set (b := r) hp h1
      simp only [pot]
      rw [if_neg (by decide)]
      omega
  | some bp =>
    cases h2 : u.tab q with
    | none =>
      obtain ⟨B, r, hf, hr⟩ := find_total (hu _ _ h1)
      simp only [hf]
      refine ⟨_, _, rfl, ?_⟩
      have a2 := absent_set (b := r) hq h2
      simp only [pot]
      rw [if_neg (by decide)]
      omega
    | some bq =>
      obtain ⟨B, r, hf, hr⟩ := find_total (hu _ _ h1)
      obtain ⟨s1, s2, _⟩ := find_spec (hu _ _ h1) hf
      obtain ⟨t, ht⟩ := hu _ _ h2
      obtain ⟨B', r', hf', hr'⟩ := find_total ⟨t, s1 _ _ ht⟩
      obtain ⟨s3, s4, _⟩ := find_spec ⟨t, s1 _ _ ht⟩ hf'
      simp only [hf, hf']
      by_cases e : r = r'
      · rw [if_pos e]
        refine ⟨_, _, rfl, ?_⟩
        simp only [pot, if_true]
        omega
      · rw [if_neg e]
        refine ⟨_, _, rfl, ?_⟩
        have := link_roots e (s3 _ _ (s1 _ _ s2)).isRoot (s3 _ _ s4).isRoot
        simp only [pot]
        rw [if_neg (by decide)]
        omega

/-- The part of the measure that depends on `k`. -/
def gk (k : Int) : Nat := if k = Kb then 804 else k.toNat

/-- The measure. -/
def mu (H : Heap) (k : Int) (s : St) : Nat := 805 * pot H.length s.uf + gk k

/-- The routine answers when the measure is small enough, and the measure does not increase. -/
def Tot (H : Heap) (rec : Val → Val → Int → St → Ans) (n : Nat) : Prop :=
  ∀ x y k s, VOK H x → VOK H y → Kb ≤ k → s.uf.Inv → mu H k s < n →
    ∃ r s', rec x y k s = some (r, s') ∧ ∀ k', r = some k' → Kb ≤ k' ∧ mu H k' s' ≤ mu H k s

theorem seqE_tot {H : Heap} {rec : Val → Val → Int → St → Ans} {n : Nat} (hr : RecOK H rec) (ht : Tot H rec n) : ∀ (xs ys : List Val) (k : Int) (s : St),
    (∀ v ∈ xs, VOK H v) → (∀ v ∈ ys, VOK H v) → Kb ≤ k → s.uf.Inv → mu H k s < n →
    ∃ r s', seqE rec xs ys k s = some (r, s') ∧ ∀ k', r = some k' → Kb ≤ k' ∧ mu H k' s' ≤ mu H k s
  | [], ys, k, s, _, _, hk, _, _ => ⟨some k, s, by cases ys <;> rfl, fun k' h => by cases h; exact ⟨hk, Nat.le_refl _⟩⟩
  | _ :: _, [], k, s, _, _, hk, _, _ => ⟨some k, s, rfl, fun k' h => by cases h; exact ⟨hk, Nat.le_refl _⟩⟩
  | x :: xs, y :: ys, k, s, hx, hy, hk, hs, hm => by
    obtain ⟨r, s', h1, h2⟩ := ht x y k s (hx x (.head _)) (hy y (.head _)) hk hs hm
    rw [seqE, h1]
    cases r with
    | none => exact ⟨none, s', rfl, fun k' h => by cases h⟩
    | some k1 =>
      obtain ⟨h3, h4⟩ := h2 k1 rfl
      have hs' := ((hr x y k s _ s' hs h1).1 rfl).1
      obtain ⟨r, s2, h5, h6⟩ := seqE_tot hr ht xs ys k1 s' (fun v hv => hx v (.tail _ hv)) (fun v hv => hy v (.tail _ hv)) h3 hs' (by omega)
      exact ⟨r, s2, h5, fun k' h => ⟨(h6 k' h).1, Nat.le_trans (h6 k' h).2 h4⟩⟩

theorem gk_pred {k : Int} (h : 0 < k) : gk (k - 1) < gk k := by
  unfold gk Kb
  rw [if_neg (by omega), if_neg (by omega)]
  omega

theorem gk_le (k : Int) (h : k ≤ 0) : gk k ≤ 804 := by
  unfold gk
  split
  · omega
  · omega

theorem fast_tot {H : Heap} {rec : Val → Val → Int → St → Ans} {n : Nat} (hH : HeapOK H) (hr : RecOK H rec) (ht : Tot H rec n) {x y : Val} {k : Int} {s : St}
    (hx : VOK H x) (hy : VOK H y) (hk : 0 ≤ k) (hs : s.uf.Inv) (hm : mu H (k - 1) s < n) :
    ∃ r s', fast H rec x y k s = some (r, s') ∧ ∀ k', r = some k' → Kb ≤ k' ∧ mu H k' s' ≤ mu H (k - 1) s := by
  have hk1 : Kb ≤ k - 1 := by unfold Kb; omega
  unfold fast
  by_cases he : eqv x y = true
  · rw [if_pos he]
    exact ⟨_, _, rfl, fun k' h => by cases h; exact ⟨hk1, Nat.le_refl _⟩⟩
  · rw [if_neg he]
    cases x with
    | leaf a =>
      refine ⟨_, _, rfl, fun k' h => ?_⟩
      by_cases hq : equalAtom (.leaf a) y = true
      · rw [if_pos hq] at h; cases h; exact ⟨hk1, Nat.le_refl _⟩
      · rw [if_neg hq] at h; cases h
    | ptr p =>
      cases y with
      | leaf b => exact ⟨_, _, rfl, fun k' h => by cases h⟩
      | ptr q =>
        simp only
        cases hp : cellAt H p with
        | pair a d =>
          cases hq : cellAt H q with
          | vec l => exact ⟨_, _, rfl, fun k' h => by cases h⟩
          | pair a' d' =>
            simp only
            rw [← (kids_pair hp).1, ← (kids_pair hq).1]
            exact seqE_tot hr ht _ _ _ s (fun v hv => hH _ v hx hv) (fun v hv => hH _ v hy hv) hk1 hs hm
        | vec l =>
          cases hq : cellAt H q with
          | pair a' d' => exact ⟨_, _, rfl, fun k' h => by cases h⟩
          | vec l' =>
            simp only
            by_cases hl : l'.length = l.length
            · rw [if_pos hl, ← (kids_vec hp).1, ← (kids_vec hq).1]
              exact seqE_tot hr ht _ _ _ s (fun v hv => hH _ v hx hv) (fun v hv => hH _ v hy hv) hk1 hs hm
            · rw [if_neg hl]
              exact ⟨_, _, rfl, fun k' h => by cases h⟩

theorem slow_kids {H : Heap} {rec : Val → Val → Int → St → Ans} {n : Nat} (hr : RecOK H rec) (ht : Tot H rec n) {p q : Nat} {k : Int} {s : St}
    (hx : p < H.length) (hy : q < H.length) (hpq : p ≠ q) (hk : Kb < k) (hk0 : k ≤ 0) (hs : s.uf.Inv) (hm : mu H k s < n + 1) (xs ys : List Val)
    (hxs : ∀ v ∈ xs, VOK H v) (hys : ∀ v ∈ ys, VOK H v) :
    ∃ r s', (match unionFind s.uf p q with
          | none => none
          | some (true, u) => some (some 0, { s with uf := u })
          | some (false, u) => seqE rec xs ys (k - 1) { s with uf := u }) = some (r, s') ∧ ∀ k', r = some k' → Kb ≤ k' ∧ mu H k' s' ≤ mu H k s := by
  obtain ⟨b, u, hu, hpot⟩ := unionFind_total hs hx hy hpq
  have hst := unionFind_spec hs hu
  rw [hu]
  cases b with
  | true =>
    refine ⟨_, _, rfl, fun k' h => ?_⟩
    cases h
    refine ⟨by decide, ?_⟩
    simp only [if_true] at hpot
    unfold mu
    simp only
    have : gk 0 = 0 := by decide
    omega
  | false =>
    simp only
    rw [if_neg (by decide)] at hpot
    have hg := gk_le (k - 1) (by omega)
    have hlt : mu H (k - 1) { s with uf := u } < mu H k s := by
      unfold mu
      simp only
      omega
    obtain ⟨r, s', h1, h2⟩ := seqE_tot hr ht xs ys (k - 1) { s with uf := u } hxs hys (by omega) hst.inv (by omega)
    exact ⟨r, s', h1, fun k' h => ⟨(h2 k' h).1, Nat.le_trans (h2 k' h).2 (by omega)⟩⟩

theorem slow_tot {H : Heap} {rec : Val → Val → Int → St → Ans} {n : Nat} (hH : HeapOK H) (hr : RecOK H rec) (ht : Tot H rec n) {x y : Val} {k : Int} {s : St}
    (hx : VOK H x) (hy : VOK H y) (hk : Kb < k) (hk0 : k ≤ 0) (hs : s.uf.Inv) (hm : mu H k s < n + 1) :
    ∃ r s', slow H rec x y k s = some (r, s') ∧ ∀ k', r = some k' → Kb ≤ k' ∧ mu H k' s' ≤ mu H k s := by
  unfold slow
  by_cases he : eqv x y = true
  · rw [if_pos he]
    exact ⟨_, _, rfl, fun k' h => by cases h; exact ⟨by omega, Nat.le_refl _⟩⟩
  · rw [if_neg he]
    cases x with
    | leaf a =>
      refine ⟨_, _, rfl, fun k' h => ?_⟩
      by_cases hq : equalAtom (.leaf a) y = true
      · rw [if_pos hq] at h; cases h; exact ⟨by omega, Nat.le_refl _⟩
      · rw [if_neg hq] at h; cases h
    | ptr p =>
      cases y with
      | leaf b => exact ⟨_, _, rfl, fun k' h => by cases h⟩
      | ptr q =>
        have hpq : p ≠ q := by
          intro e; subst e; exact he (decide_eq_true rfl)
        simp only
        cases hp : cellAt H p with
        | pair a d =>
          cases hq : cellAt H q with
          | vec l => exact ⟨_, _, rfl, fun k' h => by cases h⟩
          | pair a' d' =>
            simp only
            rw [← (kids_pair hp).1, ← (kids_pair hq).1]
            exact slow_kids hr ht hx hy hpq hk hk0 hs hm _ _ (fun v hv => hH _ v hx hv) (fun v hv => hH _ v hy hv)
        | vec l =>
          cases hq : cellAt H q with
          | pair a' d' => exact ⟨_, _, rfl, fun k' h => by cases h⟩
          | vec l' =>
            simp only
            by_cases hl : l'.length = l.length
            · rw [if_pos hl, ← (kids_vec hp).1, ← (kids_vec hq).1]
              exact slow_kids hr ht hx hy hpq hk hk0 hs hm _ _ (fun v hv => hH _ v hx hv) (fun v hv => hH _ v hy hv)
            · rw [if_neg hl]
              exact ⟨_, _, rfl, fun k' h => by cases h⟩

theorem e_tot {H : Heap} (hH : HeapOK H) (rnd : Nat → Nat) : ∀ n, Tot H (e H rnd n) n
  | 0 => fun _ _ _ _ _ _ _ _ h => by omega
  | n + 1 => by
    intro x y k s hx hy hk hs hm
    rw [e]
    by_cases h1 : k ≤ 0
    · rw [if_pos h1]
      by_cases h2 : k = Kb
      · rw [if_pos h2]
        have hr0 : 0 ≤ ((rnd s.pos : Int)) % (2 * K0) := Int.emod_nonneg _ (by decide)
        have hr1 : ((rnd s.pos : Int)) % (2 * K0) < 802 := Int.emod_lt_of_pos _ (by decide)
        have hg : gk (((rnd s.pos : Int)) % (2 * K0) - 1) < gk k := by
          subst h2
          rw [show gk Kb = 804 by decide]
          unfold gk
          rw [if_neg (by unfold Kb; omega)]
          omega
        have hlt : mu H (((rnd s.pos : Int)) % (2 * K0) - 1) { s with pos := s.pos + 1 } < mu H k s := by
          unfold mu
          simp only
          omega
        obtain ⟨r, s', h3, h4⟩ := fast_tot hH (e_ok H rnd n) (e_tot hH rnd n) (s := { s with pos := s.pos + 1 }) hx hy hr0 hs (by omega)
        exact ⟨r, s', h3, fun k' h => ⟨(h4 k' h).1, Nat.le_trans (h4 k' h).2 (by omega)⟩⟩
      · rw [if_neg h2]
        exact slow_tot hH (e_ok H rnd n) (e_tot hH rnd n) hx hy (by omega) h1 hs hm
    · rw [if_neg h1]
      have hg := gk_pred (k := k) (by omega)
      have hlt : mu H (k - 1) s < mu H k s := by
        unfold mu; omega
      obtain ⟨r, s', h3, h4⟩ := fast_tot hH (e_ok H rnd n) (e_tot hH rnd n) hx hy (by omega) hs (by omega : mu H (k - 1) s < n)
      exact ⟨r, s', h3, fun k' h => ⟨(h4 k' h).1, Nat.le_trans (h4 k' h).2 (by omega)⟩⟩

theorem interleave_total {H : Heap} (hH : HeapOK H) (rnd : Nat → Nat) {x y : Val} (hx : VOK H x) (hy : VOK H y) {n : Nat} (hn : 805 * H.length + 402 ≤ n) :
    ∃ b, interleave H rnd n x y = some b := by
  have hm : mu H K0 ⟨UF.empty, 0⟩ < n := by
    have h0 : absent H.length UF.empty.tab = Finset.range H.length := Finset.filter_true_of_mem (fun _ _ => rfl)
    have h1 : pot H.length UF.empty = H.length := by
      unfold pot
      rw [h0, Finset.card_range]
      rfl
    unfold mu
    simp only [h1]
    have : gk K0 = 401 := by decide
    omega
  obtain ⟨r, s', h, _⟩ := e_tot hH rnd n x y K0 ⟨UF.empty, 0⟩ hx hy (by decide) UF.empty_inv hm
  exact ⟨r.isSome, by unfold interleave; rw [h]; rfl⟩

/-! ### the loop over the lists -/

theorem listLoop_none {H : Heap} {x y : Val} : ∀ (m k : Nat) (xc yc : Bool), (∀ i, i ≤ 2 * k → IsPair H (nth H i x) ∧ IsPair H (nth H i y)) →
    (∀ k1, k1 < k → Meet H x k1 → xc = true) → (∀ k2, k2 < k → Meet H y k2 → yc = true) → ¬ (xc = true ∧ yc = true) →
    listLoop H m (nth H (2 * k) x) (nth H (2 * k) y) (nth H k x) (nth H k y) xc yc = none →
    (∀ i, i ≤ 2 * (k + m) → IsPair H (nth H i x) ∧ IsPair H (nth H i y)) ∧ ¬ ∃ k1 k2, k1 < k + m ∧ k2 < k + m ∧ Meet H x k1 ∧ Meet H y k2
  | 0, k, xc, yc, hp, hx, hy, hxy, _ =>
    ⟨hp, fun ⟨k1, k2, h1, h2, h3, h4⟩ => hxy ⟨hx k1 h1 h3, hy k2 h2 h4⟩⟩
  | m + 1, k, xc, yc, hp, hxc, hyc, hxy, h => by
    obtain ⟨⟨a, x1⟩, hx⟩ := Option.isSome_iff_exists.1 (hp (2 * k) (by omega)).1
    obtain ⟨⟨b, y1⟩, hy⟩ := Option.isSome_iff_exists.1 (hp (2 * k) (by omega)).2
    have ex1 : nth H (2 * k + 1) x = x1 := by rw [nth, (asPair_eq hx).2]
    have ey1 : nth H (2 * k + 1) y = y1 := by rw [nth, (asPair_eq hy).2]
    rw [listLoop] at h
    simp only [hx, hy] at h
    cases hc : checkAgg H a b with
    | no => rw [hc] at h; cases h
    | fallback => rw [hc] at h; cases h
    | ok =>
      rw [hc] at h
      simp only at h
      cases hx1 : asPair H x1 with
      | none => simp only [hx1] at h; cases h
      | some w =>
        obtain ⟨a', x2⟩ := w
        cases hy1 : asPair H y1 with
        | none => simp only [hx1, hy1] at h; cases h
        | some w =>
          obtain ⟨b', y2⟩ := w
          simp only [hx1, hy1] at h
          have hx1' : asPair H (nth H (2 * k + 1) x) = some (a', x2) := by rw [ex1]; exact hx1
          have hy1' : asPair H (nth H (2 * k + 1) y) = some (b', y2) := by rw [ey1]; exact hy1
          have ex2 : nth H (2 * k + 2) x = x2 := by rw [nth, (asPair_eq hx1').2]
          have ey2 : nth H (2 * k + 2) y = y2 := by rw [nth, (asPair_eq hy1').2]
          cases hc1 : checkAgg H a' b' with
          | no => rw [hc1] at h; cases h
          | fallback => rw [hc1] at h; cases h
          | ok =>
            rw [hc1] at h
            simp only at h
            by_cases c1 : nth H k x = x1 ∧ yc = true
            · rw [if_pos c1] at h; cases h
            · rw [if_neg c1] at h
              by_cases c2 : nth H k y = y1 ∧ (xc = true ∨ nth H k x = x1)
              · rw [if_pos c2] at h; cases h
              · rw [if_neg c2] at h
                by_cases c3 : (asPair H x2).isSome = true ∧ (asPair H y2).isSome = true
                · rw [if_pos c3] at h
                  have e2 : 2 * (k + 1) = 2 * k + 2 := by omega
                  have e3 : k + 1 + m = k + (m + 1) := by omega
                  rw [← e3]
                  refine listLoop_none m (k + 1) (xc || decide (nth H k x = x1)) (yc || decide (nth H k y = y1)) ?_ ?_ ?_ ?_ ?_
                  · intro i hi
                    by_cases i1 : i ≤ 2 * k
                    · exact hp i i1
                    · by_cases i2 : i = 2 * k + 1
                      · subst i2; exact ⟨by rw [IsPair, hx1']; rfl, by rw [IsPair, hy1']; rfl⟩
                      · obtain rfl : i = 2 * k + 2 := by omega
                        rw [ex2, ey2]; exact c3
                  · intro k1 hk1 hm
                    rw [Bool.or_eq_true, decide_eq_true_eq]
                    by_cases e : k1 = k
                    · subst e; exact .inr (hm.trans ex1)
                    · exact .inl (hxc k1 (by omega) hm)
                  · intro k1 hk1 hm
                    rw [Bool.or_eq_true, decide_eq_true_eq]
                    by_cases e : k1 = k
                    · subst e; exact .inr (hm.trans ey1)
                    · exact .inl (hyc k1 (by omega) hm)
                  · rw [Bool.or_eq_true, Bool.or_eq_true, decide_eq_true_eq, decide_eq_true_eq]
                    rintro ⟨h1, h2⟩
                    rcases h2 with h2 | h2
                    · rcases h1 with h1 | h1
                      · exact hxy ⟨h1, h2⟩
                      · exact c1 ⟨h1, h2⟩
                    · exact c2 ⟨h2, h1⟩
                  · rw [e2, ex2, ey2]; exact h
                · rw [if_neg c3] at h; cases h

theorem nth_vok {H : Heap} (hH : HeapOK H) {x : Val} (hx : VOK H x) : ∀ n, VOK H (nth H n x)
  | 0 => hx
  | n + 1 => by
    rw [nth]
    have ih := nth_vok hH hx n
    unfold cdr
    cases h : asPair H (nth H n x) with
    | none => exact ih
    | some w =>
      obtain ⟨a, d⟩ := w
      exact hH _ d ih (by rw [(asPair_some h).1]; exact .tail _ (.head _))

/-- A list of pairs that is longer than the heap comes back to an earlier pair. -/
theorem exists_meet {H : Heap} (hH : HeapOK H) {x : Val} (hx : VOK H x) (hp : ∀ i, i ≤ H.length → IsPair H (nth H i x)) : ∃ k, k < H.length ∧ Meet H x k := by
  have hptr : ∀ i : Fin (H.length + 1), ∃ p, p < H.length ∧ nth H i x = .ptr p := by
    intro i
    have h1 := hp i (by omega)
    have h2 := nth_vok hH hx i
    cases h : nth H i x with
    | leaf a => rw [h] at h1; cases h1
    | ptr p => rw [h] at h2; exact ⟨p, h2, rfl⟩
  let f : Fin (H.length + 1) → Fin H.length := fun i => ⟨(hptr i).choose, (hptr i).choose_spec.1⟩
  have : ∃ i j, i ≠ j ∧ f i = f j := by
    by_contra hno
    have hinj : Function.Injective f := fun i j h => Classical.byContradiction (fun hne => hno ⟨i, j, hne, h⟩)
    have := Fintype.card_le_of_injective f hinj
    simp only [Fintype.card_fin] at this
    omega
  obtain ⟨i, j, hij, hf⟩ := this
  have he : nth H i x = nth H j x := by
    rw [(hptr i).choose_spec.2, (hptr j).choose_spec.2]
    have : (hptr i).choose = (hptr j).choose := congrArg Fin.val hf
    rw [this]
  have key : ∀ m p : Nat, 0 < p → m + p ≤ H.length → nth H m x = nth H (m + p) x → ∃ k, k < H.length ∧ Meet H x k := by
    intro m p hp0 hle h
    have step : ∀ n, nth H (m + n) x = nth H (m + n + p) x := by
      intro n
      have := nth_shift h n
      rw [this]; congr 1; omega
    have mult : ∀ t n, nth H (m + n) x = nth H (m + n + p * t) x := by
      intro t
      induction t with
      | zero => intro n; rfl
      | succ t ih =>
        intro n
        rw [ih n, show m + n + p * t = m + (n + p * t) by omega, step, Nat.mul_succ]
        congr 1; omega
    have hd := Nat.div_add_mod (m + p) p
    have hm := Nat.mod_lt (m + p) hp0
    refine ⟨p * ((m + p) / p) - 1, by omega, ?_⟩
    have hk : m < p * ((m + p) / p) := by omega
    unfold Meet
    have := mult ((m + p) / p) (p * ((m + p) / p) - 1 - m)
    rw [show m + (p * ((m + p) / p) - 1 - m) = p * ((m + p) / p) - 1 by omega] at this
    rw [this]
    congr 1
    omega
  have hi := i.2
  have hj := j.2
  have hne : i.1 ≠ j.1 := fun h => hij (Fin.ext h)
  by_cases h : i.1 < j.1
  · exact key i (j - i) (by omega) (by omega) (by rw [show i.1 + (j.1 - i.1) = j.1 by omega]; exact he)
  · exact key j (i - j) (by omega) (by omega) (by rw [show j.1 + (i.1 - j.1) = i.1 by omega]; exact he.symm)

theorem listLoop_total {H : Heap} (hH : HeapOK H) {x y : Val} (hx : VOK H x) (hy : VOK H y) (hp : IsPair H x ∧ IsPair H y) {n : Nat} (hn : H.length ≤ n) :
    ∃ out, listLoop H n x y x y false false = some out := by
  cases h : listLoop H n x y x y false false with
  | some out => exact ⟨out, rfl⟩
  | none =>
    exfalso
    obtain ⟨h1, h2⟩ := listLoop_none (x := x) (y := y) n 0 false false (fun i hi => by
      obtain rfl : i = 0 := by omega
      exact hp) (fun k1 h => by omega) (fun k1 h => by omega) (fun h => by cases h.1) h
    obtain ⟨k1, hk1, hm1⟩ := exists_meet hH hx (fun i hi => (h1 i (by omega)).1)
    obtain ⟨k2, hk2, hm2⟩ := exists_meet hH hy (fun i hi => (h1 i (by omega)).2)
    exact h2 ⟨k1, k2, by omega, by omega, hm1, hm2⟩

/-- The places where the loop ends are in the lists. -/
theorem listLoop_vok {H : Heap} (hH : HeapOK H) : ∀ (m : Nat) (x y xs ys : Val) (xc yc : Bool) (out : Out), VOK H x → VOK H y →
    listLoop H m x y xs ys xc yc = some out → ∀ x' y', out = .fallback x' y' ∨ out = .tail x' y' → VOK H x' ∧ VOK H y'
  | 0, _, _, _, _, _, _, _, _, _, h => by cases h
  | m + 1, x, y, xs, ys, xc, yc, out, hx, hy, h => by
    have kid : ∀ {v a d : Val}, VOK H v → asPair H v = some (a, d) → VOK H d := by
      intro v a d hv he
      exact hH _ d hv (by rw [(asPair_some he).1]; exact .tail _ (.head _))
    have fin : ∀ {x y : Val} {o : Out}, VOK H x → VOK H y → o = .fallback x y ∨ o = .tail x y ∨ o = .ret false ∨ o = .ret true →
        ∀ x' y', o = .fallback x' y' ∨ o = .tail x' y' → VOK H x' ∧ VOK H y' := by
      intro x y o hx hy ho x' y' h
      rcases ho with rfl | rfl | rfl | rfl <;> rcases h with h | h <;> cases h <;> exact ⟨hx, hy⟩
    rw [listLoop] at h
    cases h1 : asPair H x with
    | none => simp only [h1] at h; cases h; exact fin hx hy (.inr (.inl rfl))
    | some w =>
      obtain ⟨a, x1⟩ := w
      cases h2 : asPair H y with
      | none => simp only [h1, h2] at h; cases h; exact fin hx hy (.inr (.inl rfl))
      | some w =>
        obtain ⟨b, y1⟩ := w
        simp only [h1, h2] at h
        have hx1 := kid hx h1
        have hy1 := kid hy h2
        cases hc : checkAgg H a b with
        | no => rw [hc] at h; cases h; exact fin hx hy (.inr (.inr (.inl rfl)))
        | fallback => rw [hc] at h; cases h; exact fin hx hy (.inl rfl)
        | ok =>
          rw [hc] at h
          simp only at h
          cases h3 : asPair H x1 with
          | none => simp only [h3] at h; cases h; exact fin hx1 hy1 (.inr (.inl rfl))
          | some w =>
            obtain ⟨a', x2⟩ := w
            cases h4 : asPair H y1 with
            | none => simp only [h3, h4] at h; cases h; exact fin hx1 hy1 (.inr (.inl rfl))
            | some w =>
              obtain ⟨b', y2⟩ := w
              simp only [h3, h4] at h
              have hx2 := kid hx1 h3
              have hy2 := kid hy1 h4
              cases hc1 : checkAgg H a' b' with
              | no => rw [hc1] at h; cases h; exact fin hx hy (.inr (.inr (.inl rfl)))
              | fallback => rw [hc1] at h; cases h; exact fin hx1 hy1 (.inl rfl)
              | ok =>
                rw [hc1] at h
                simp only at h
                by_cases c1 : xs = x1 ∧ yc = true
                · rw [if_pos c1] at h; cases h; exact fin hx hy (.inr (.inr (.inr rfl)))
                · rw [if_neg c1] at h
                  by_cases c2 : ys = y1 ∧ (xc = true ∨ xs = x1)
                  · rw [if_pos c2] at h; cases h; exact fin hx hy (.inr (.inr (.inr rfl)))
                  · rw [if_neg c2] at h
                    by_cases c3 : (asPair H x2).isSome = true ∧ (asPair H y2).isSome = true
                    · rw [if_pos c3] at h
                      exact listLoop_vok hH m _ _ _ _ _ _ out hx2 hy2 h
                    · rw [if_neg c3] at h; cases h; exact fin hx2 hy2 (.inr (.inl rfl))

theorem equalNonPair_total {H : Heap} (hH : HeapOK H) (rnd : Nat → Nat) {x y : Val} (hx : VOK H x) (hy : VOK H y) {n : Nat} (hn : 805 * H.length + 402 ≤ n) :
    ∃ b, equalNonPair H rnd n x y = some b := by
  unfold equalNonPair
  by_cases he : eqv x y = true
  · rw [if_pos he]; exact ⟨_, rfl⟩
  · rw [if_neg he]
    by_cases h1 : (asPair H x).isSome = true
    · rw [if_pos h1]; exact ⟨_, rfl⟩
    · rw [if_neg h1]
      cases asVec H x with
      | none => exact ⟨_, rfl⟩
      | some l =>
        cases asVec H y with
        | none => exact ⟨_, rfl⟩
        | some l' =>
          simp only
          by_cases hl : l'.length = l.length
          · rw [if_pos hl]
            cases vecLoop H l l' with
            | some b => exact ⟨b, rfl⟩
            | none => exact interleave_total hH rnd hx hy hn
          · rw [if_neg hl]; exact ⟨_, rfl⟩

theorem equalP_total {H : Heap} (hH : HeapOK H) (rnd : Nat → Nat) {x y : Val} (hx : VOK H x) (hy : VOK H y) {n : Nat} (hn : 805 * H.length + 402 ≤ n) :
    ∃ b, equalP H rnd n x y = some b := by
  unfold equalP
  by_cases he : eqv x y = true
  · rw [if_pos he]; exact ⟨_, rfl⟩
  · rw [if_neg he]
    by_cases hp : (asPair H x).isSome = true ∧ (asPair H y).isSome = true
    · rw [if_pos hp]
      obtain ⟨out, hout⟩ := listLoop_total hH hx hy hp (n := n) (by omega)
      have hv := listLoop_vok hH n x y x y false false out hx hy hout
      rw [hout]
      cases out with
      | ret b => exact ⟨b, rfl⟩
      | fallback x' y' =>
        obtain ⟨h1, h2⟩ := hv x' y' (.inl rfl)
        exact interleave_total hH rnd h1 h2 hn
      | tail x' y' =>
        obtain ⟨h1, h2⟩ := hv x' y' (.inr rfl)
        exact equalNonPair_total hH rnd h1 h2 hn
    · rw [if_neg hp]
      exact equalNonPair_total hH rnd hx hy hn

end Gauche.Equal
