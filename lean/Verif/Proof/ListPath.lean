import Verif.Spec.ConsGraph
import Mathlib.Tactic.Linarith
import Mathlib.Data.Fintype.Pigeonhole
import Mathlib.Data.Fintype.Card
/-
Proofs about list primitives: paths and the hare and the tortoise.
-/
namespace Gauche.ListPrim

open Gauche.Spec.ConsGraph

/-- `n` cdrs. -/
def tl (h : Heap) : Nat → Val → Val
  | 0, v => v
  | n + 1, v => tl h n (h.cdrV v)

theorem tl_add (h : Heap) (m n : Nat) (v : Val) : tl h (m + n) v = tl h n (tl h m v) := by
  induction m generalizing v with
  | zero => rw [Nat.zero_add]; rfl
  | succ m ih => rw [Nat.succ_add]; exact ih _

theorem tl_succ (h : Heap) (n : Nat) (v : Val) : tl h (n + 1) v = h.cdrV (tl h n v) := tl_add h n 1 v

theorem cdrV_atomic {h : Heap} {v : Val} (ha : Val.Atomic v) : h.cdrV v = v := by
  cases v with
  | pair a => exact absurd rfl (ha a)
  | nil => rfl
  | atom n => rfl

theorem atomic_nil : Val.Atomic .nil := fun _ h => by simp at h
theorem atomic_atom (n : Nat) : Val.Atomic (.atom n) := fun _ h => by simp at h

theorem atomic_or (v : Val) : Val.Atomic v ∨ ∃ a, v = .pair a := by
  cases v with
  | pair a => right; exact ⟨a, rfl⟩
  | nil => left; exact atomic_nil
  | atom n => left; exact atomic_atom n

theorem path_append (h : Heap) (as bs : List Nat) : ∀ v w, Path h v (as ++ bs) w ↔ ∃ u, Path h v as u ∧ Path h u bs w := by
  induction as with
  | nil => intro v w; constructor
           · intro p; exact ⟨v, rfl, p⟩
           · rintro ⟨u, rfl, p⟩; exact p
  | cons a as ih =>
    intro v w
    constructor
    · rintro ⟨h1, h2, h3⟩
      obtain ⟨u, p, q⟩ := (ih _ _).1 h3
      exact ⟨u, ⟨h1, h2, p⟩, q⟩
    · rintro ⟨u, ⟨h1, h2, p⟩, q⟩
      exact ⟨h1, h2, (ih _ _).2 ⟨u, p, q⟩⟩

theorem path_tl {h : Heap} {as : List Nat} : ∀ {v w : Val}, Path h v as w → tl h as.length v = w := by
  induction as with
  | nil => intro v w p; exact p
  | cons a as ih => rintro v w ⟨rfl, _, p⟩; exact ih p

theorem path_mem {h : Heap} {as : List Nat} : ∀ {v w : Val}, Path h v as w → ∀ a ∈ as, a < h.size := by
  induction as with
  | nil => intro v w _ a ha; simp at ha
  | cons x as ih =>
    rintro v w ⟨_, h2, p⟩ a ha
    rcases List.mem_cons.1 ha with ha | ha
    · rw [ha]; exact h2
    · exact ih p a ha

theorem path_det {h : Heap} {as : List Nat} : ∀ {bs : List Nat} {v t u : Val}, Val.Atomic t → Val.Atomic u → Path h v as t → Path h v bs u → as = bs ∧ t = u := by
  induction as with
  | nil =>
    intro bs v t u ht hu p q
    have p : v = t := p
    subst p
    cases bs with
    | nil => exact ⟨rfl, q⟩
    | cons b bs => exact absurd q.1 (ht b)
  | cons a as ih =>
    intro bs v t u ht hu p q
    cases bs with
    | nil =>
      have q : v = u := q
      subst q
      exact absurd p.1 (hu a)
    | cons b bs =>
      obtain ⟨rfl, _, p⟩ := p
      obtain ⟨e, _, q⟩ := q
      injection e with e
      subst e
      obtain ⟨e1, e2⟩ := ih ht hu p q
      exact ⟨by rw [e1], e2⟩

theorem path_split {h : Heap} {as : List Nat} {v w : Val} (p : Path h v as w) (i : Nat) :
    Path h v (as.take i) (tl h (min i as.length) v) ∧ Path h (tl h (min i as.length) v) (as.drop i) w := by
  have := p
  rw [← List.take_append_drop i as] at this
  obtain ⟨u, p1, p2⟩ := (path_append h _ _ _ _).1 this
  have := path_tl p1
  rw [List.length_take] at this
  rw [this]
  exact ⟨p1, p2⟩

/-- On a path to an atom no object comes twice. -/
theorem path_tl_ne {h : Heap} {as : List Nat} {v t : Val} (ht : Val.Atomic t) (p : Path h v as t) (i j : Nat) (hij : i < j) (hj : j ≤ as.length) :
    tl h i v ≠ tl h j v := by
  intro e
  have p1 := (path_split p i).2
  have p2 := (path_split p j).2
  rw [Nat.min_eq_left (by omega)] at p1 p2
  rw [e] at p1
  have := congrArg List.length (path_det ht ht p1 p2).1
  rw [List.length_drop, List.length_drop] at this
  omega

theorem path_nodup {h : Heap} {as : List Nat} : ∀ {v t : Val}, Val.Atomic t → Path h v as t → as.Nodup := by
  induction as with
  | nil => intro v t _ _; exact List.nodup_nil
  | cons a as ih =>
    intro v t ht p
    rw [List.nodup_cons]
    refine ⟨?_, ih ht p.2.2⟩
    intro hm
    obtain ⟨l1, l2, e⟩ := List.append_of_mem hm
    have p' : Path h (h.cdr a) as t := p.2.2
    rw [e] at p'
    obtain ⟨u, q1, q2⟩ := (path_append h _ _ _ _).1 p'
    have q3 : Path h v (a :: l2) t := by
      obtain ⟨e1, e2, e3⟩ := q2
      exact ⟨p.1, e2, e3⟩
    have := congrArg List.length (path_det ht ht p q3).1
    rw [e] at this
    simp at this
    omega

theorem tl_pair {h : Heap} {as : List Nat} {v w : Val} (p : Path h v as w) (i : Nat) (hi : i < as.length) : tl h i v = .pair as[i] := by
  have p1 := (path_split p i).2
  rw [Nat.min_eq_left (by omega), List.drop_eq_getElem_cons hi] at p1
  exact p1.1

theorem path_keeps {h h' : Heap} (k : Keeps h h') {as : List Nat} : ∀ {v w : Val}, Path h v as w → Path h' v as w := by
  induction as with
  | nil => intro v w p; exact p
  | cons a as ih =>
    rintro v w ⟨e, hlt, p⟩
    refine ⟨e, lt_of_lt_of_le hlt k.1, ?_⟩
    rw [(k.2 a hlt).2]
    exact ih p

theorem Keeps.refl (h : Heap) : Keeps h h := ⟨le_refl _, fun _ _ => ⟨rfl, rfl⟩⟩
theorem Keeps.trans {a b c : Heap} (h : Keeps a b) (h' : Keeps b c) : Keeps a c :=
  ⟨le_trans h.1 h'.1, fun i hi => by
    obtain ⟨e1, e2⟩ := h.2 i hi
    obtain ⟨e3, e4⟩ := h'.2 i (lt_of_lt_of_le hi h.1)
    exact ⟨e3.trans e1, e4.trans e2⟩⟩

theorem elems_keeps {h h' : Heap} (k : Keeps h h') {as : List Nat} (ha : ∀ a ∈ as, a < h.size) : elems h' as = elems h as :=
  List.map_congr_left fun a h => (k.2 a (ha a h)).1

/-! ### Circles -/

theorem exists_cdrV {h : Heap} (hc : Closed h) {v : Val} (hv : Exists h v) : Exists h (h.cdrV v) := by
  cases v with
  | pair a => exact (hc a (hv a rfl)).2
  | nil => exact hv
  | atom n => exact hv

theorem exists_tl {h : Heap} (hc : Closed h) (n : Nat) : ∀ {v : Val}, Exists h v → Exists h (tl h n v) := by
  induction n with
  | zero => intro v hv; exact hv
  | succ n ih => intro v hv; exact ih (exists_cdrV hc hv)

/-- Where the first `n` objects are pairs there is a path. -/
theorem path_of_tl {h : Heap} (hc : Closed h) (n : Nat) : ∀ {v : Val}, Exists h v → (∀ i < n, ∃ a, tl h i v = .pair a) →
    ∃ as, as.length = n ∧ Path h v as (tl h n v) := by
  induction n with
  | zero => intro v _ _; exact ⟨[], rfl, rfl⟩
  | succ n ih =>
    intro v hv hp
    obtain ⟨a, ha⟩ := hp 0 (by omega)
    have ha : v = .pair a := ha
    subst ha
    obtain ⟨as, hl, p⟩ := ih (v := h.cdr a) (hc a (hv a rfl)).2 (fun i hi => hp (i + 1) (by omega))
    exact ⟨a :: as, by rw [List.length_cons, hl], rfl, hv a rfl, p⟩

theorem circular_of_repeat {h : Heap} (hc : Closed h) {v : Val} (hv : Exists h v) {i j : Nat} (hij : i < j)
    (hp : ∀ k < j, ∃ a, tl h k v = .pair a) (e : tl h i v = tl h j v) : Circular h v := by
  obtain ⟨as, hl, p⟩ := path_of_tl hc j hv hp
  obtain ⟨p1, p2⟩ := path_split p i
  rw [Nat.min_eq_left (by omega)] at p1 p2
  obtain ⟨a, ha⟩ := hp i hij
  rw [← e, ha] at p2
  rw [ha] at p1
  exact ⟨as.take i, as.drop i, a, by intro h0; have := congrArg List.length h0; simp at this; omega, p1, p2⟩

theorem circular_pairs {h : Heap} {v : Val} (c : Circular h v) (n : Nat) : ∃ a, tl h n v = .pair a := by
  obtain ⟨as, bs, a, hne, p1, p2⟩ := c
  have hb : 1 ≤ bs.length := List.length_pos_iff.2 hne
  have loop : ∀ n, ∃ x, tl h n (.pair a) = .pair x := by
    intro n
    induction n using Nat.strongRecOn with
    | _ n ih =>
      by_cases hn : n < bs.length
      · exact ⟨_, tl_pair p2 n hn⟩
      · obtain ⟨x, hx⟩ := ih (n - bs.length) (by omega)
        refine ⟨x, ?_⟩
        rw [show n = bs.length + (n - bs.length) by omega, tl_add, path_tl p2]
        exact hx
  by_cases hn : n < as.length
  · exact ⟨_, tl_pair p1 n hn⟩
  · obtain ⟨x, hx⟩ := loop (n - as.length)
    refine ⟨x, ?_⟩
    rw [show n = as.length + (n - as.length) by omega, tl_add, path_tl p1]
    exact hx

/-- The addresses on the way. -/
def addr : Val → Nat
  | .pair a => a
  | _ => 0

theorem circular_repeat {h : Heap} (hc : Closed h) {v : Val} (hv : Exists h v) (c : Circular h v) :
    ∃ i j, i < j ∧ j ≤ h.size ∧ tl h i v = tl h j v := by
  have hpos : ∀ n, addr (tl h n v) < h.size := by
    intro n
    obtain ⟨a, ha⟩ := circular_pairs c n
    rw [ha]
    exact exists_tl hc n hv a ha
  obtain ⟨x, y, hne, e⟩ := Fintype.exists_ne_map_eq_of_card_lt (fun n : Fin (h.size + 1) => (⟨addr (tl h n v), hpos n⟩ : Fin h.size)) (by simp)
  have e' : tl h x v = tl h y v := by
    obtain ⟨a, ha⟩ := circular_pairs c x
    obtain ⟨b, hb⟩ := circular_pairs c y
    simp only [Fin.mk.injEq] at e
    rw [ha, hb] at e ⊢
    simp only [addr] at e
    rw [e]
  rcases Nat.lt_trichotomy x.1 y.1 with hlt | heq | hgt
  · exact ⟨x, y, hlt, by omega, e'⟩
  · exact absurd (Fin.ext heq) hne
  · exact ⟨y, x, hgt, by omega, e'.symm⟩

theorem repeat_mul {h : Heap} {v : Val} {i p : Nat} (e : tl h i v = tl h (i + p) v) (m q : Nat) : tl h (i + m) v = tl h (i + m + p * q) v := by
  induction q with
  | zero => rfl
  | succ q ih =>
    rw [ih, Nat.mul_succ, ← Nat.add_assoc]
    have : tl h (i + (m + p * q)) v = tl h (i + p + (m + p * q)) v := by
      rw [tl_add h i, tl_add h (i + p), e]
    rw [show i + m + p * q = i + (m + p * q) by omega, this]
    congr 1
    omega

/-- Where the hare meets the tortoise. -/
theorem circular_meet {h : Heap} (hc : Closed h) {v : Val} (hv : Exists h v) (c : Circular h v) :
    ∃ k, 1 ≤ k ∧ k ≤ h.size ∧ tl h (2 * k) v = tl h k v := by
  obtain ⟨i, j, hij, hj, e⟩ := circular_repeat hc hv c
  obtain ⟨p, rfl⟩ : ∃ p, j = i + p := ⟨j - i, by omega⟩
  have hp : 1 ≤ p := by omega
  -- the first multiple of the period not before i
  by_cases hi : i = 0
  · subst hi
    refine ⟨p, hp, by omega, ?_⟩
    have := repeat_mul e p 1
    rw [show 0 + p = p by omega, show p + p * 1 = 2 * p by omega] at this
    exact this.symm
  · have hd := Nat.div_add_mod (i + p - 1) p
    have hm := Nat.mod_lt (i + p - 1) (show p > 0 by omega)
    generalize (i + p - 1) / p = q at *
    generalize (i + p - 1) % p = r at *
    have hk : i ≤ p * q := by omega
    refine ⟨p * q, by omega, by omega, ?_⟩
    have := repeat_mul e (p * q - i) q
    rw [show i + (p * q - i) = p * q by omega, show p * q + p * q = 2 * (p * q) by omega] at this
    exact this.symm

/-- Where the list is one ahead of twice the tortoise. -/
theorem circular_meet1 {h : Heap} (hc : Closed h) {v : Val} (hv : Exists h v) (c : Circular h v) :
    ∃ k, k < h.size ∧ tl h (2 * k + 1) v = tl h k v := by
  obtain ⟨i, j, hij, hj, e⟩ := circular_repeat hc hv c
  obtain ⟨p, rfl⟩ : ∃ p, j = i + p := ⟨j - i, by omega⟩
  have hp : 1 ≤ p := by omega
  have hd := Nat.div_add_mod i p
  have hm := Nat.mod_lt i (show p > 0 by omega)
  generalize i / p = q at *
  generalize i % p = r at *
  have hk : i ≤ p * (q + 1) - 1 := by rw [Nat.mul_succ]; omega
  have hk1 : 1 ≤ p * (q + 1) := by rw [Nat.mul_succ]; omega
  refine ⟨p * (q + 1) - 1, by rw [Nat.mul_succ]; omega, ?_⟩
  have := repeat_mul e (p * (q + 1) - 1 - i) (q + 1)
  rw [show i + (p * (q + 1) - 1 - i) = p * (q + 1) - 1 by omega,
    show p * (q + 1) - 1 + p * (q + 1) = 2 * (p * (q + 1) - 1) + 1 by omega] at this
  exact this.symm

/-- An object is a proper list, a dotted one or a circular one. -/
theorem classify {h : Heap} (hc : Closed h) {v : Val} (hv : Exists h v) : (∃ as t, Val.Atomic t ∧ Path h v as t) ∨ Circular h v := by
  by_cases hf : ∃ n, Val.Atomic (tl h n v)
  · left
    classical
    have hmin := Nat.find_spec hf
    obtain ⟨as, _, p⟩ := path_of_tl hc (Nat.find hf) hv (fun i hi => (atomic_or _).resolve_left (Nat.find_min hf hi))
    exact ⟨as, _, hmin, p⟩
  · right
    have hp : ∀ n, ∃ a, tl h n v = .pair a := fun n => (atomic_or _).resolve_left (fun ha => hf ⟨n, ha⟩)
    have hpos : ∀ n, addr (tl h n v) < h.size := by
      intro n
      obtain ⟨a, ha⟩ := hp n
      rw [ha]
      exact exists_tl hc n hv a ha
    obtain ⟨x, y, hne, e⟩ := Fintype.exists_ne_map_eq_of_card_lt (fun n : Fin (h.size + 1) => (⟨addr (tl h n v), hpos n⟩ : Fin h.size)) (by simp)
    have e' : tl h x v = tl h y v := by
      obtain ⟨a, ha⟩ := hp x
      obtain ⟨b, hb⟩ := hp y
      simp only [Fin.mk.injEq] at e
      rw [ha, hb] at e ⊢
      simp only [addr] at e
      rw [e]
    rcases Nat.lt_trichotomy x.1 y.1 with hlt | heq | hgt
    · exact circular_of_repeat hc hv hlt (fun k _ => hp k) e'
    · exact absurd (Fin.ext heq) hne
    · exact circular_of_repeat hc hv hgt (fun k _ => hp k) e'.symm

theorem not_both {h : Heap} {v : Val} {as : List Nat} {t : Val} (ht : Val.Atomic t) (p : Path h v as t) : ¬ Circular h v := by
  intro c
  obtain ⟨a, ha⟩ := circular_pairs c as.length
  rw [path_tl p] at ha
  exact ht a ha

theorem path_len {h : Heap} {as : List Nat} {v t : Val} (ht : Val.Atomic t) (p : Path h v as t) : as.length ≤ h.size := by
  have hn := path_nodup ht p
  have hm := path_mem p
  have : as ⊆ List.range h.size := fun a ha => List.mem_range.2 (hm a ha)
  have := (List.subperm_of_subset hn this).length_le
  rwa [List.length_range] at this

/-! ### Length -/

theorem lengthLoop_finite {h : Heap} (ad : Bool) {v t : Val} {as : List Nat} (ht : Val.Atomic t) (p : Path h v as t) (fuel : Nat) :
    ∀ k, 2 * k ≤ as.length → as.length < 2 * k + 2 * fuel → lengthLoop h ad fuel (tl h (2 * k) v) (tl h k v) (2 * k) =
      .ok (if t = .nil ∨ ad = true then (as.length : Int) else -1) := by
  induction fuel with
  | zero => intro k h1 h2; omega
  | succ fuel ih =>
    intro k h1 h2
    unfold lengthLoop
    have hend : ∀ n, n = as.length → tl h n v = t := fun n hn => by rw [hn]; exact path_tl p
    have fin : ∀ n : Nat, n = as.length → (match tl h n v with
        | .nil => Out.ok (n : Int)
        | .atom _ => .ok (if ad then (n : Int) else -1)
        | .pair _ => .error) = .ok (if t = .nil ∨ ad = true then (as.length : Int) else -1) := by
      intro n hn
      rw [hend n hn, hn]
      cases t with
      | nil => simp
      | atom x => simp
      | pair a => exact absurd rfl (ht a)
    by_cases hk : 2 * k = as.length
    · have := fin _ hk
      rw [hend _ hk] at this ⊢
      cases t with
      | nil => simpa using this
      | atom x => simpa using this
      | pair a => exact absurd rfl (ht a)
    · rw [tl_pair p (2 * k) (by omega)]
      dsimp only
      have e1 : h.cdr as[2 * k] = tl h (2 * k + 1) v := by rw [tl_succ, tl_pair p (2 * k) (by omega)]; rfl
      rw [e1]
      by_cases hk1 : 2 * k + 1 = as.length
      · have := fin _ hk1
        rw [hend _ hk1] at this ⊢
        cases t with
        | nil => simpa using this
        | atom x => simpa using this
        | pair a => exact absurd rfl (ht a)
      · rw [tl_pair p (2 * k + 1) (by omega)]
        dsimp only
        have e2 : h.cdr as[2 * k + 1] = tl h (2 * (k + 1)) v := by
          rw [show 2 * (k + 1) = 2 * k + 1 + 1 by omega, tl_succ, tl_pair p (2 * k + 1) (by omega)]; rfl
        rw [e2, ← tl_succ]
        rw [if_neg (fun e => path_tl_ne ht p (k + 1) (2 * (k + 1)) (by omega) (by omega) e.symm)]
        exact ih (k + 1) (by omega) (by omega)

theorem lengthLoop_circular {h : Heap} (ad : Bool) {v : Val} (c : Circular h v) (K : Nat) (hK : tl h (2 * K) v = tl h K v) (fuel : Nat) :
    ∀ k, k < K → K ≤ k + fuel → lengthLoop h ad fuel (tl h (2 * k) v) (tl h k v) (2 * k) = .ok (-2) := by
  induction fuel with
  | zero => intro k h1 h2; omega
  | succ fuel ih =>
    intro k h1 h2
    unfold lengthLoop
    obtain ⟨a, ha⟩ := circular_pairs c (2 * k)
    obtain ⟨b, hb⟩ := circular_pairs c (2 * k + 1)
    rw [ha]
    dsimp only
    have e1 : h.cdr a = .pair b := by rw [← hb, tl_succ, ha]; rfl
    rw [e1]
    dsimp only
    have e2 : h.cdr b = tl h (2 * (k + 1)) v := by
      rw [show 2 * (k + 1) = 2 * k + 1 + 1 by omega, tl_succ, hb]; rfl
    rw [e2, ← tl_succ]
    by_cases he : tl h (2 * (k + 1)) v = tl h (k + 1) v
    · rw [if_pos he]
    · rw [if_neg he]
      have : k + 1 ≠ K := fun e => he (by rw [e]; exact hK)
      exact ih (k + 1) (by omega) (by omega)

theorem length2_finite {h : Heap} (ad : Bool) {v t : Val} {as : List Nat} (ht : Val.Atomic t) (p : Path h v as t) (fuel : Nat) (hf : h.size < fuel) :
    length2 h ad fuel v = .ok (if t = .nil ∨ ad = true then (as.length : Int) else -1) := by
  have := path_len ht p
  exact lengthLoop_finite ad ht p fuel 0 (by omega) (by omega)

theorem length2_circular {h : Heap} (hc : Closed h) (ad : Bool) {v : Val} (hv : Exists h v) (c : Circular h v) (fuel : Nat) (hf : h.size < fuel) :
    length2 h ad fuel v = .ok (-2) := by
  obtain ⟨K, h1, h2, h3⟩ := circular_meet hc hv c
  exact lengthLoop_circular ad c K h3 fuel 0 (by omega) (by omega)

/-! ### num-pairs -/

theorem countLoop_spec {h : Heap} (hc : Closed h) {v : Val} (hv : Exists h v) (c : Circular h v) (j : Nat) (hjn : ∀ i i', i < i' → i' < j → tl h i v ≠ tl h i' v)
    (i0 : Nat) (hi0 : i0 < j) (hj : tl h j v = tl h i0 v) (fuel : Nat) : ∀ (k : Nat) (tab : List Nat), k ≤ j → j < k + fuel → tab.length = k →
    (∀ a, a ∈ tab ↔ ∃ i < k, tl h i v = .pair a) → countLoop h fuel tab (tl h k v) = .ok j := by
  induction fuel with
  | zero => intro k tab h1 h2; omega
  | succ fuel ih =>
    intro k tab h1 h2 hl ht
    unfold countLoop
    obtain ⟨a, ha⟩ := circular_pairs c k
    rw [ha]
    dsimp only
    by_cases hm : a ∈ tab
    · rw [if_pos hm]
      obtain ⟨i, hi, e⟩ := (ht a).1 hm
      have : k = j := by
        by_contra hne
        exact hjn i k hi (by omega) (by rw [e, ha])
      rw [hl, this]
    · rw [if_neg hm]
      have hkj : k ≠ j := by
        intro e
        apply hm
        rw [ht]
        exact ⟨i0, by omega, by rw [← hj, ← e, ha]⟩
      have e1 : h.cdr a = tl h (k + 1) v := by rw [tl_succ, ha]; rfl
      rw [e1]
      refine ih (k + 1) (a :: tab) (by omega) (by omega) (by rw [List.length_cons, hl]) ?_
      intro b
      rw [List.mem_cons, ht]
      constructor
      · rintro (e | ⟨i, hi, e⟩)
        · exact ⟨k, by omega, by rw [e]; exact ha⟩
        · exact ⟨i, by omega, e⟩
      · rintro ⟨i, hi, e⟩
        by_cases hik : i = k
        · left
          rw [hik, ha] at e
          injection e with e
          exact e.symm
        · right; exact ⟨i, by omega, e⟩

end Gauche.ListPrim
