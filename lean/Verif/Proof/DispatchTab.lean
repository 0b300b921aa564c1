import Verif.Model.Dispatch
import Mathlib.Data.Fintype.EquivFin
import Mathlib.Data.Nat.Prime.Basic
import Mathlib.Data.Nat.ModEq
import Mathlib.Algebra.Order.Ring.Nat
import Mathlib.Tactic.Ring
import Mathlib.Tactic.Linarith
/-! The hash table of the dispatcher, as long as nothing is deleted from it. -/
namespace Gauche.Dispatch

abbrev Key := Option Nat × Nat

def Entry.key (e : Entry) : Key := (e.klass, e.nargs)

theorem key_eq_iff {e : Entry} {κ : Key} : e.klass = κ.1 ∧ e.nargs = κ.2 ↔ e.key = κ := by
  unfold Entry.key
  rw [Prod.ext_iff]

/-- The probe sequence. -/
def pos (hf : HashFn) (n : Nat) (κ : Key) : Nat → Nat
  | 0 => hf κ.1 κ.2 % n
  | i + 1 => (pos hf n κ i + i + 1) % n

def tri (i : Nat) : Nat := i * (i + 1) / 2

theorem tri_succ (i : Nat) : tri (i + 1) = tri i + (i + 1) := by
  unfold tri
  have : (i + 1) * (i + 1 + 1) = i * (i + 1) + 2 * (i + 1) := by ring
  rw [this, Nat.add_mul_div_left _ _ (by decide)]

theorem two_tri (i : Nat) : 2 * tri i = i * (i + 1) := by
  induction i with
  | zero => rfl
  | succ i ih => rw [tri_succ, Nat.mul_add, ih]; ring

theorem pos_eq (hf : HashFn) (n : Nat) (κ : Key) (i : Nat) : pos hf n κ i = (hf κ.1 κ.2 + tri i) % n := by
  induction i with
  | zero => simp [pos, tri]
  | succ i ih =>
    unfold pos
    rw [ih, tri_succ, Nat.add_assoc, Nat.mod_add_mod, Nat.add_assoc]

theorem pos_lt (hf : HashFn) (n : Nat) (κ : Key) (i : Nat) (hn : 0 < n) : pos hf n κ i < n := by
  rw [pos_eq]; exact Nat.mod_lt _ hn

/-- The first `2^e` triangular numbers differ modulo `2^e`. -/
theorem tri_inj (e a b : Nat) (hab : a < b) (hb : b < 2 ^ e) : ¬ 2 ^ e ∣ tri b - tri a := by
  intro h
  have h2 : 2 ^ (e + 1) ∣ (b - a) * (a + b + 1) := by
    have e1 : 2 * (tri b - tri a) = (b - a) * (a + b + 1) := by
      rw [Nat.mul_sub, two_tri, two_tri]
      obtain ⟨d, rfl⟩ := Nat.exists_eq_add_of_lt hab
      rw [show a + d + 1 - a = d + 1 by omega]
      have : (a + d + 1) * (a + d + 1 + 1) = (d + 1) * (a + (a + d + 1) + 1) + a * (a + 1) := by ring
      rw [this, Nat.add_sub_cancel]
    rw [← e1, pow_succ, Nat.mul_comm]
    exact Nat.mul_dvd_mul_left 2 h
  have pw : (2 : Nat) ^ (e + 1) = 2 * 2 ^ e := by rw [pow_succ, Nat.mul_comm]
  by_cases hodd : (b - a) % 2 = 1
  · have c : Nat.Coprime (2 ^ (e + 1)) (b - a) :=
      Nat.Coprime.pow_left _ (by rw [Nat.coprime_two_left]; exact Nat.odd_iff.2 hodd)
    have := Nat.le_of_dvd (by omega) (c.dvd_of_dvd_mul_left h2)
    omega
  · have c : Nat.Coprime (2 ^ (e + 1)) (a + b + 1) :=
      Nat.Coprime.pow_left _ (by rw [Nat.coprime_two_left]; exact Nat.odd_iff.2 (by omega))
    have := Nat.le_of_dvd (by omega) (c.dvd_of_dvd_mul_right h2)
    omega

theorem pos_inj (hf : HashFn) (e : Nat) (κ : Key) (a b : Nat) (ha : a < 2 ^ e) (hb : b < 2 ^ e)
    (h : pos hf (2 ^ e) κ a = pos hf (2 ^ e) κ b) : a = b := by
  have mono : ∀ a b, a ≤ b → tri a ≤ tri b := by
    intro a b hab
    induction hab with
    | refl => exact Nat.le_refl _
    | step _ ih => rw [tri_succ]; omega
  have key : ∀ a b, a < b → b < 2 ^ e → pos hf (2 ^ e) κ a ≠ pos hf (2 ^ e) κ b := by
    intro a b hab hb h
    rw [pos_eq, pos_eq] at h
    have := (Nat.modEq_iff_dvd' (by have := mono a b (by omega); omega)).1 h
    rw [Nat.add_sub_add_left] at this
    exact tri_inj e a b hab hb this
  rcases Nat.lt_trichotomy a b with h1 | h1 | h1
  · exact absurd h (key a b h1 hb)
  · exact h1
  · exact absurd h.symm (key b a h1 ha)

/-- The probe sequence visits every slot. -/
theorem pos_surj (hf : HashFn) (e : Nat) (κ : Key) (s : Nat) (hs : s < 2 ^ e) : ∃ i, i < 2 ^ e ∧ pos hf (2 ^ e) κ i = s := by
  have hinj : Function.Injective (fun i : Fin (2 ^ e) => (⟨pos hf (2 ^ e) κ i, pos_lt hf _ κ i (by positivity)⟩ : Fin (2 ^ e))) := by
    intro a b h
    simp only [Fin.mk.injEq] at h
    exact Fin.ext (pos_inj hf e κ a b a.2 b.2 h)
  obtain ⟨i, hi⟩ := (Finite.injective_iff_surjective.1 hinj) ⟨s, hs⟩
  exact ⟨i, i.2, by simpa using congrArg Fin.val hi⟩

/-- The slots before the `i`-th of the sequence hold entries of other keys. -/
def Passed (hf : HashFn) (bins : List Bin) (κ : Key) (i : Nat) : Prop :=
  ∀ i', i' < i → ∃ e', bins[pos hf bins.length κ i']? = some (.entry e') ∧ e'.key ≠ κ

/-- A table nothing has been deleted from. -/
structure TabOk (hf : HashFn) (bins : List Bin) : Prop where
  size : ∃ e, bins.length = 2 ^ e
  nodel : Bin.deleted ∉ bins
  chain : ∀ (s : Nat) (e : Entry), bins[s]? = some (.entry e) → ∃ i, i < bins.length ∧ pos hf bins.length e.key i = s ∧
    Passed hf bins e.key i

theorem TabOk.pos {hf : HashFn} {bins : List Bin} (h : TabOk hf bins) : 0 < bins.length := by
  obtain ⟨e, he⟩ := h.size
  rw [he]; positivity

theorem TabOk.uniq {hf : HashFn} {bins : List Bin} (h : TabOk hf bins) {s s' : Nat} {e e' : Entry}
    (h1 : bins[s]? = some (.entry e)) (h2 : bins[s']? = some (.entry e')) (hk : e.key = e'.key) : s = s' ∧ e = e' := by
  obtain ⟨i, a1, a2, a3⟩ := h.chain s e h1
  obtain ⟨i', b1, b2, b3⟩ := h.chain s' e' h2
  have hi : i = i' := by
    rcases Nat.lt_trichotomy i i' with hl | hl | hl
    · obtain ⟨x, c1, c2⟩ := b3 i hl
      rw [← hk, a2, h1] at c1
      simp only [Option.some.injEq, Bin.entry.injEq] at c1
      exact absurd (c1 ▸ hk) c2
    · exact hl
    · obtain ⟨x, c1, c2⟩ := a3 i' hl
      rw [hk, b2, h2] at c1
      simp only [Option.some.injEq, Bin.entry.injEq] at c1
      exact absurd (c1 ▸ hk.symm) c2
  have hs : s = s' := by rw [← a2, ← b2, hi, hk]
  subst hs
  rw [h1] at h2
  simp only [Option.some.injEq, Bin.entry.injEq] at h2
  exact ⟨rfl, h2⟩

def isEntry : Bin → Bool
  | .entry _ => true
  | _ => false

/-- There is a free slot. -/
theorem exists_free {hf : HashFn} {bins : List Bin} (h : TabOk hf bins) (hc : bins.countP isEntry < bins.length) :
    ∃ s : Nat, bins[s]? = some Bin.free := by
  have : ∃ x ∈ bins, isEntry x = false := by
    by_contra hno
    push_neg at hno
    have := List.countP_eq_length.2 (fun x hx => by simpa using hno x hx : ∀ a ∈ bins, isEntry a = true)
    omega
  obtain ⟨x, hx, hx'⟩ := this
  obtain ⟨s, hs⟩ := List.mem_iff_getElem?.1 hx
  cases x with
  | free => exact ⟨s, hs⟩
  | deleted => exact absurd hx h.nodel
  | entry e => exact absurd hx' (by simp [isEntry])

theorem least {P : Nat → Prop} {n : Nat} (h : P n) : ∃ i, i ≤ n ∧ P i ∧ ∀ j, j < i → ¬ P j := by
  induction n using Nat.strong_induction_on with
  | _ n ih =>
    by_cases hex : ∃ j, j < n ∧ P j
    · obtain ⟨j, hj, hp⟩ := hex
      obtain ⟨i, h1, h2, h3⟩ := ih j hj hp
      exact ⟨i, by omega, h2, h3⟩
    · exact ⟨n, Nat.le_refl _, h, fun j hj hp => hex ⟨j, hj, hp⟩⟩

/-- Where the search for a key ends: at its entry, or at a free slot if there is no entry. -/
theorem search_end {hf : HashFn} {bins : List Bin} (h : TabOk hf bins) (hc : bins.countP isEntry < bins.length) (κ : Key) :
    (∃ i e, i < bins.length ∧ Passed hf bins κ i ∧ bins[pos hf bins.length κ i]? = some (.entry e) ∧ e.key = κ) ∨
    (∃ i, i < bins.length ∧ Passed hf bins κ i ∧ bins[pos hf bins.length κ i]? = some .free ∧
      ∀ e, Bin.entry e ∈ bins → e.key ≠ κ) := by
  by_cases hin : ∃ e, Bin.entry e ∈ bins ∧ e.key = κ
  · obtain ⟨e, h1, h2⟩ := hin
    obtain ⟨s, hs⟩ := List.mem_iff_getElem?.1 h1
    obtain ⟨i, a1, a2, a3⟩ := h.chain s e hs
    subst h2
    exact Or.inl ⟨i, e, a1, a3, by rw [a2, hs], rfl⟩
  · right
    obtain ⟨s, hs⟩ := exists_free h hc
    obtain ⟨x, hx⟩ := h.size
    have hslt : s < bins.length := (List.getElem?_eq_some_iff.1 hs).1
    obtain ⟨i0, hi0, hp0⟩ := pos_surj hf x κ s (by omega)
    rw [← hx] at hi0 hp0
    obtain ⟨i, h1, h2, h3⟩ := least (P := fun i => bins[pos hf bins.length κ i]? = some .free) (n := i0) (by show bins[pos hf bins.length κ i0]? = some .free; rw [hp0, hs])
    refine ⟨i, by omega, fun i' hi' => ?_, h2, fun e he hk => hin ⟨e, he, hk⟩⟩
    have hlt := pos_lt hf bins.length κ i' h.pos
    have hne := h3 i' hi'
    cases hb : bins[pos hf bins.length κ i']? with
    | none => rw [List.getElem?_eq_none_iff] at hb; omega
    | some b =>
      cases b with
      | free => exact absurd hb hne
      | deleted => exact absurd (List.mem_iff_getElem?.2 ⟨_, hb⟩) h.nodel
      | entry e => exact ⟨e, rfl, fun hk => hin ⟨e, List.mem_iff_getElem?.2 ⟨_, hb⟩, hk⟩⟩

/-! The loops go to the end of the search. -/

theorem probeLoop_run {hf : HashFn} {h : MHash} {κ : Key} : ∀ (i r : Nat), Passed hf h.bins κ i →
    probeLoop h κ.1 κ.2 (i + r) 0 (pos hf h.bins.length κ 0) = probeLoop h κ.1 κ.2 r i (pos hf h.bins.length κ i) := by
  intro i
  induction i with
  | zero => intro r _; simp
  | succ i ih =>
    intro r hp
    have := ih (r + 1) (fun i' hi' => hp i' (by omega))
    rw [show i + 1 + r = i + (r + 1) by omega, this]
    obtain ⟨e, h1, h2⟩ := hp i (by omega)
    conv_lhs => unfold probeLoop
    rw [h1]
    simp only []
    rw [if_neg (fun hk => h2 (key_eq_iff.1 hk))]
    rfl

theorem insertLoop_run {hf : HashFn} {h : MHash} {κ : Key} : ∀ (i r : Nat), Passed hf h.bins κ i →
    insertLoop h κ.1 κ.2 (i + r) 0 (pos hf h.bins.length κ 0) none =
      insertLoop h κ.1 κ.2 r i (pos hf h.bins.length κ i) none := by
  intro i
  induction i with
  | zero => intro r _; simp
  | succ i ih =>
    intro r hp
    have := ih (r + 1) (fun i' hi' => hp i' (by omega))
    rw [show i + 1 + r = i + (r + 1) by omega, this]
    obtain ⟨e, h1, h2⟩ := hp i (by omega)
    conv_lhs => unfold insertLoop
    rw [h1]
    simp only []
    rw [if_neg (fun hk => h2 (key_eq_iff.1 hk))]
    rfl

theorem rehashLoop_run {hf : HashFn} {bins : List Bin} {e : Entry} : ∀ (i r : Nat), Passed hf bins e.key i →
    rehashLoop bins e (i + r) 0 (pos hf bins.length e.key 0) = rehashLoop bins e r i (pos hf bins.length e.key i) := by
  intro i
  induction i with
  | zero => intro r _; simp
  | succ i ih =>
    intro r hp
    have := ih (r + 1) (fun i' hi' => hp i' (by omega))
    rw [show i + 1 + r = i + (r + 1) by omega, this]
    obtain ⟨e', h1, h2⟩ := hp i (by omega)
    conv_lhs => unfold rehashLoop
    rw [h1]
    rfl

/-! Writing a slot. -/

theorem mem_set_iff {bins : List Bin} {s : Nat} {b x : Bin} (hs : s < bins.length) :
    x ∈ bins.set s b ↔ x = b ∨ ∃ s', s' ≠ s ∧ bins[s']? = some x := by
  rw [List.mem_iff_getElem?]
  constructor
  · rintro ⟨s', h⟩
    rw [List.getElem?_set] at h
    by_cases he : s = s'
    · rw [if_pos he, if_pos hs] at h
      left; simpa using h.symm
    · rw [if_neg he] at h
      exact Or.inr ⟨s', Ne.symm he, h⟩
  · rintro (h | ⟨s', h1, h2⟩)
    · exact ⟨s, by rw [List.getElem?_set, if_pos rfl, if_pos hs, h]⟩
    · exact ⟨s', by rw [List.getElem?_set, if_neg (Ne.symm h1), h2]⟩

theorem getElem?_set_entry {bins : List Bin} {s s' : Nat} {b x : Bin} (hs : s < bins.length)
    (h : (bins.set s b)[s']? = some x) : (s' = s ∧ x = b) ∨ (s' ≠ s ∧ bins[s']? = some x) := by
  rw [List.getElem?_set] at h
  by_cases he : s = s'
  · rw [if_pos he, if_pos hs] at h
    exact Or.inl ⟨he.symm, by simpa using h.symm⟩
  · rw [if_neg he] at h
    exact Or.inr ⟨Ne.symm he, h⟩

/-- Writing an entry to the slot where the search for its key ends. -/
theorem tabOk_set {hf : HashFn} {bins : List Bin} (h : TabOk hf bins) {e : Entry} {i : Nat} (hi : i < bins.length)
    (hp : Passed hf bins e.key i)
    (hb : bins[pos hf bins.length e.key i]? = some .free ∧ (∀ x, Bin.entry x ∈ bins → x.key ≠ e.key) ∨
      ∃ e0, bins[pos hf bins.length e.key i]? = some (.entry e0) ∧ e0.key = e.key) :
    TabOk hf (bins.set (pos hf bins.length e.key i) (.entry e)) ∧
    (∀ x, Bin.entry x ∈ bins.set (pos hf bins.length e.key i) (.entry e) ↔ x = e ∨ (Bin.entry x ∈ bins ∧ x.key ≠ e.key)) ∧
    (bins.set (pos hf bins.length e.key i) (.entry e)).countP isEntry =
      bins.countP isEntry + (if bins[pos hf bins.length e.key i]? = some .free then 1 else 0) := by
  have hs := pos_lt hf bins.length e.key i h.pos
  generalize hsdef : pos hf bins.length e.key i = s at *
  -- a slot that held an entry still holds one of the same key
  have keep : ∀ (s' : Nat) (x : Entry), bins[s']? = some (.entry x) →
      ∃ y, (bins.set s (.entry e))[s']? = some (.entry y) ∧ y.key = x.key := by
    intro s' x hx
    by_cases he : s = s'
    · subst he
      refine ⟨e, by rw [List.getElem?_set, if_pos rfl, if_pos hs], ?_⟩
      rcases hb with ⟨hb, _⟩ | ⟨e0, hb, hk⟩
      · rw [hb] at hx; simp at hx
      · rw [hb] at hx
        simp only [Option.some.injEq, Bin.entry.injEq] at hx
        rw [← hx, hk]
    · exact ⟨x, by rw [List.getElem?_set, if_neg he, hx], rfl⟩
  have keepP : ∀ (κ : Key) (i : Nat), Passed hf bins κ i → Passed hf (bins.set s (.entry e)) κ i := by
    intro κ i hp i' hi'
    obtain ⟨x, h1, h2⟩ := hp i' hi'
    obtain ⟨y, h3, h4⟩ := keep _ x h1
    exact ⟨y, by rw [List.length_set]; exact h3, by rw [h4]; exact h2⟩
  refine ⟨⟨?_, ?_, ?_⟩, ?_, ?_⟩
  · rw [List.length_set]; exact h.size
  · rw [mem_set_iff hs]
    rintro (h1 | ⟨s', _, h2⟩)
    · cases h1
    · exact h.nodel (List.mem_iff_getElem?.2 ⟨s', h2⟩)
  · intro s' x hx
    rw [List.length_set]
    rcases getElem?_set_entry hs hx with ⟨h1, h2⟩ | ⟨h1, h2⟩
    · simp only [Bin.entry.injEq] at h2
      subst h2
      exact ⟨i, hi, by rw [hsdef, h1], keepP _ _ hp⟩
    · obtain ⟨i', a1, a2, a3⟩ := h.chain s' x h2
      exact ⟨i', a1, a2, keepP _ _ a3⟩
  · intro x
    rw [mem_set_iff hs]
    simp only [Bin.entry.injEq]
    constructor
    · rintro (h1 | ⟨s', h1, h2⟩)
      · exact Or.inl h1
      · refine Or.inr ⟨List.mem_iff_getElem?.2 ⟨s', h2⟩, fun hk => ?_⟩
        rcases hb with ⟨_, hb⟩ | ⟨e0, hb, hk0⟩
        · exact hb x (List.mem_iff_getElem?.2 ⟨s', h2⟩) hk
        · exact h1 (h.uniq h2 hb (hk.trans hk0.symm)).1
    · rintro (h1 | ⟨h1, h2⟩)
      · exact Or.inl h1
      · obtain ⟨s', hs'⟩ := List.mem_iff_getElem?.1 h1
        refine Or.inr ⟨s', fun he => ?_, hs'⟩
        subst he
        rcases hb with ⟨hb, _⟩ | ⟨e0, hb, hk0⟩
        · rw [hb] at hs'; simp at hs'
        · rw [hb] at hs'
          simp only [Option.some.injEq, Bin.entry.injEq] at hs'
          exact h2 (hs' ▸ hk0)
  · have hsget : bins[s]? = some bins[s] := List.getElem?_eq_getElem hs
    have hset : bins.set s (.entry e) = bins.take s ++ .entry e :: bins.drop (s + 1) := List.set_eq_take_append_cons_drop ▸ (by rw [if_pos hs])
    have hold : bins = bins.take s ++ bins[s] :: bins.drop (s + 1) := by
      rw [← List.drop_eq_getElem_cons hs, List.take_append_drop]
    rw [hset, List.countP_append, List.countP_cons]
    have hc : bins.countP isEntry = (bins.take s).countP isEntry + ((bins.drop (s + 1)).countP isEntry + if isEntry bins[s] = true then 1 else 0) := by
      conv_lhs => rw [hold]
      rw [List.countP_append, List.countP_cons]
    rw [hc]
    rcases hb with ⟨hb, _⟩ | ⟨e0, hb, _⟩
    · have : bins[s] = .free := by rw [hsget] at hb; simpa using hb
      rw [if_pos hb, this]
      simp [isEntry]
      omega
    · have : bins[s] = .entry e0 := by rw [hsget] at hb; simpa using hb
      rw [hb, this]
      simp [isEntry]

/-! ### The table as a map -/

/-- What the table holds for every key: leaf methods and other methods. -/
abbrev TabMap := Key → List Method × List Method

/-- The map with a method added for a key. -/
def TabMap.ins (F : TabMap) (κ : Key) (m : Method) : TabMap := fun κ' =>
  if κ' = κ then (if m.leaf then (m :: (F κ).1, (F κ).2) else ((F κ).1, m :: (F κ).2)) else F κ'

/-- The table represents the map. -/
structure TabRep (hf : HashFn) (h : MHash) (F : TabMap) : Prop extends TabOk hf h.bins where
  count : h.bins.countP isEntry = h.numEntries
  load : h.numEntries < h.bins.length
  val : ∀ e, Bin.entry e ∈ h.bins → (e.leaves, e.nonleaves) = F e.key
  dom : ∀ κ, F κ ≠ ([], []) → ∃ e, Bin.entry e ∈ h.bins ∧ e.key = κ

/-- The search gives the leaf methods if there are no others. -/
theorem mhashProbe_spec {hf : HashFn} {h : MHash} {F : TabMap} (hr : TabRep hf h F) (κ : Key) :
    ∃ r, mhashProbe hf h κ.1 κ.2 = some r ∧
      (∀ m ms, r = some (m :: ms) → F κ = (m :: ms, [])) ∧
      (∀ m ms, F κ = (m :: ms, []) → r = some (m :: ms)) := by
  unfold mhashProbe
  rcases search_end hr.toTabOk (by rw [hr.count]; exact hr.load) κ with ⟨i, e, h1, h2, h3, h4⟩ | ⟨i, h1, h2, h3, h4⟩
  · have hrun := probeLoop_run (h := h) i (h.bins.length - i - 1 + 1) h2
    rw [show i + (h.bins.length - i - 1 + 1) = h.bins.length by omega] at hrun
    have hv := hr.val e (List.mem_iff_getElem?.2 ⟨_, h3⟩)
    rw [h4] at hv
    refine ⟨if e.nonleaves = [] then some e.leaves else none, ?_, ?_, ?_⟩
    · change probeLoop h κ.1 κ.2 h.bins.length 0 (pos hf h.bins.length κ 0) = _
      rw [hrun]
      unfold probeLoop
      rw [h3]
      simp only []
      rw [if_pos (key_eq_iff.2 h4)]
      split <;> rfl
    · intro m ms hm
      by_cases hn : e.nonleaves = []
      · rw [if_pos hn] at hm
        rw [← hv, hn]
        simp at hm
        rw [hm]
      · rw [if_neg hn] at hm; cases hm
    · intro m ms hm
      rw [hm] at hv
      simp only [Prod.mk.injEq] at hv
      rw [if_pos hv.2, hv.1]
  · have hrun := probeLoop_run (h := h) i (h.bins.length - i - 1 + 1) h2
    rw [show i + (h.bins.length - i - 1 + 1) = h.bins.length by omega] at hrun
    refine ⟨none, ?_, (fun m ms hm => nomatch hm), fun m ms hm => ?_⟩
    · change probeLoop h κ.1 κ.2 h.bins.length 0 (pos hf h.bins.length κ 0) = _
      rw [hrun]
      unfold probeLoop
      rw [h3]
    · obtain ⟨e, he, hk⟩ := hr.dom κ (by rw [hm]; simp)
      exact absurd hk (h4 e he)

theorem mhashInsert1_spec {hf : HashFn} {h : MHash} {F : TabMap} (hr : TabRep hf h F) (κ : Key) (m : Method)
    (hl : h.numEntries + 1 < h.bins.length) :
    ∃ h', mhashInsert1 hf h κ.1 κ.2 m = some h' ∧ TabRep hf h' (F.ins κ m) ∧ h'.bins.length = h.bins.length ∧
      h'.numEntries ≤ h.numEntries + 1 := by
  unfold mhashInsert1
  change ∃ h', (match insertLoop h κ.1 κ.2 h.bins.length 0 (pos hf h.bins.length κ 0) none with
    | none => none | some (none, _) => none | some (some slot, found) => _) = some h' ∧ _
  have insF : ∀ κ', κ' ≠ κ → (F.ins κ m) κ' = F κ' := fun κ' hne => by unfold TabMap.ins; rw [if_neg hne]
  rcases search_end hr.toTabOk (by rw [hr.count]; exact hr.load) κ with ⟨i, e, h1, h2, h3, h4⟩ | ⟨i, h1, h2, h3, h4⟩
  · have hrun := insertLoop_run (h := h) i (h.bins.length - i - 1 + 1) h2
    rw [show i + (h.bins.length - i - 1 + 1) = h.bins.length by omega] at hrun
    have hend : insertLoop h κ.1 κ.2 (h.bins.length - i - 1 + 1) i (pos hf h.bins.length κ i) none =
        some (some (pos hf h.bins.length κ i), some e) := by
      unfold insertLoop
      rw [h3]
      simp only []
      rw [if_pos (key_eq_iff.2 h4)]
    rw [hrun, hend]
    simp only []
    have hv := hr.val e (List.mem_iff_getElem?.2 ⟨_, h3⟩)
    rw [h4] at hv
    have hnum : 0 < h.numEntries := by
      rw [← hr.count, List.countP_pos_iff]
      exact ⟨_, List.mem_iff_getElem?.2 ⟨_, h3⟩, rfl⟩
    refine ⟨_, rfl, ?_, by simp, by simp only []; omega⟩
    generalize he' : (({ klass := κ.1
                         nargs := κ.2
                         leaves := if m.leaf = true then m :: e.leaves else e.leaves
                         nonleaves := if m.leaf = true then e.nonleaves else m :: e.nonleaves } : Entry)) = e'
    have hk' : e'.key = κ := by subst he'; rfl
    have hval' : (e'.leaves, e'.nonleaves) = F.ins κ m κ := by
      subst he'
      unfold TabMap.ins
      rw [if_pos rfl, ← hv]
      cases m.leaf <;> simp
    subst hk'
    obtain ⟨t1, t2, t3⟩ := tabOk_set hr.toTabOk h1 h2 (Or.inr ⟨e, h3, h4⟩)
    refine { t1 with count := ?_, load := ?_, val := ?_, dom := ?_ }
    · rw [t3, h3]; simp [hr.count]; omega
    · simp; omega
    · intro x hx
      rcases (t2 x).1 hx with rfl | ⟨hx, hne⟩
      · exact hval'
      · rw [insF _ hne]; exact hr.val x hx
    · intro κ' hne
      by_cases hk : κ' = e'.key
      · exact ⟨e', (t2 e').2 (Or.inl rfl), hk.symm⟩
      · rw [insF _ hk] at hne
        obtain ⟨x, hx, hxk⟩ := hr.dom κ' hne
        exact ⟨x, (t2 x).2 (Or.inr ⟨hx, by rw [hxk]; exact hk⟩), hxk⟩
  · have hrun := insertLoop_run (h := h) i (h.bins.length - i - 1 + 1) h2
    rw [show i + (h.bins.length - i - 1 + 1) = h.bins.length by omega] at hrun
    have hend : insertLoop h κ.1 κ.2 (h.bins.length - i - 1 + 1) i (pos hf h.bins.length κ i) none =
        some (some (pos hf h.bins.length κ i), none) := by
      unfold insertLoop
      rw [h3]
      rfl
    rw [hrun, hend]
    simp only []
    have hv : F κ = ([], []) := by
      by_contra hne
      obtain ⟨x, hx, hxk⟩ := hr.dom κ hne
      exact h4 x hx hxk
    refine ⟨_, rfl, ?_, by simp, by simp⟩
    generalize he' : (({ klass := κ.1
                         nargs := κ.2
                         leaves := if m.leaf = true then [m] else []
                         nonleaves := if m.leaf = true then [] else [m] } : Entry)) = e'
    have hk' : e'.key = κ := by subst he'; rfl
    have hval' : (e'.leaves, e'.nonleaves) = F.ins κ m κ := by
      subst he'
      unfold TabMap.ins
      rw [if_pos rfl, hv]
      cases m.leaf <;> simp
    subst hk'
    obtain ⟨t1, t2, t3⟩ := tabOk_set hr.toTabOk h1 h2 (Or.inl ⟨h3, h4⟩)
    refine { t1 with count := ?_, load := ?_, val := ?_, dom := ?_ }
    · rw [t3, h3]; simp [hr.count]
    · simp; omega
    · intro x hx
      rcases (t2 x).1 hx with rfl | ⟨hx, hne⟩
      · exact hval'
      · rw [insF _ hne]; exact hr.val x hx
    · intro κ' hne
      by_cases hk : κ' = e'.key
      · exact ⟨e', (t2 e').2 (Or.inl rfl), hk.symm⟩
      · rw [insF _ hk] at hne
        obtain ⟨x, hx, hxk⟩ := hr.dom κ' hne
        exact ⟨x, (t2 x).2 (Or.inr ⟨hx, by rw [hxk]; exact hk⟩), hxk⟩

theorem rehash_spec {hf : HashFn} {nb : List Bin} (h : TabOk hf nb) (e : Entry) (hc : nb.countP isEntry < nb.length)
    (hnew : ∀ x, Bin.entry x ∈ nb → x.key ≠ e.key) :
    ∃ nb', rehashLoop nb e nb.length 0 (hf e.klass e.nargs % nb.length) = some nb' ∧ TabOk hf nb' ∧
      nb'.length = nb.length ∧ nb'.countP isEntry = nb.countP isEntry + 1 ∧
      ∀ x, Bin.entry x ∈ nb' ↔ x = e ∨ Bin.entry x ∈ nb := by
  change ∃ nb', rehashLoop nb e nb.length 0 (pos hf nb.length e.key 0) = some nb' ∧ _
  rcases search_end h hc e.key with ⟨i, e0, h1, h2, h3, h4⟩ | ⟨i, h1, h2, h3, h4⟩
  · exact absurd h4 (hnew e0 (List.mem_iff_getElem?.2 ⟨_, h3⟩))
  · have hrun := rehashLoop_run i (nb.length - i - 1 + 1) h2
    rw [show i + (nb.length - i - 1 + 1) = nb.length by omega] at hrun
    have hend : rehashLoop nb e (nb.length - i - 1 + 1) i (pos hf nb.length e.key i) =
        some (nb.set (pos hf nb.length e.key i) (.entry e)) := by
      unfold rehashLoop
      rw [h3]
    obtain ⟨t1, t2, t3⟩ := tabOk_set h h1 h2 (Or.inl ⟨h3, h4⟩)
    refine ⟨_, by rw [hrun, hend], t1, by simp, by rw [t3, if_pos h3], fun x => ?_⟩
    rw [t2]
    constructor
    · rintro (h | h)
      · exact Or.inl h
      · exact Or.inr h.1
    · rintro (h | h)
      · exact Or.inl h
      · exact Or.inr ⟨h, hnew x h⟩

theorem extendLoop_spec {hf : HashFn} : ∀ (bs nb : List Bin), TabOk hf nb →
    nb.countP isEntry + bs.countP isEntry < nb.length →
    (∀ x y, Bin.entry x ∈ bs → Bin.entry y ∈ nb → y.key ≠ x.key) →
    bs.Pairwise (fun a b => ∀ x y, a = .entry x → b = .entry y → x.key ≠ y.key) →
    ∃ nb', extendLoop hf bs nb = some nb' ∧ TabOk hf nb' ∧ nb'.length = nb.length ∧
      nb'.countP isEntry = nb.countP isEntry + bs.countP isEntry ∧
      ∀ x, Bin.entry x ∈ nb' ↔ Bin.entry x ∈ bs ∨ Bin.entry x ∈ nb := by
  intro bs
  induction bs with
  | nil => intro nb h _ _ _; exact ⟨nb, rfl, h, rfl, by simp, by simp⟩
  | cons b bs ih =>
    intro nb h hc hnew hd
    rw [List.pairwise_cons] at hd
    cases b with
    | free =>
      obtain ⟨nb', a1, a2, a3, a4, a5⟩ := ih nb h (by simpa [isEntry] using hc) (fun x y hx hy => hnew x y (by simp [hx]) hy) hd.2
      exact ⟨nb', by simpa only [extendLoop] using a1, a2, a3, by simpa [isEntry] using a4, fun x => by rw [a5]; simp⟩
    | deleted =>
      obtain ⟨nb', a1, a2, a3, a4, a5⟩ := ih nb h (by simpa [isEntry] using hc) (fun x y hx hy => hnew x y (by simp [hx]) hy) hd.2
      exact ⟨nb', by simpa only [extendLoop] using a1, a2, a3, by simpa [isEntry] using a4, fun x => by rw [a5]; simp⟩
    | entry e =>
      rw [List.countP_cons, if_pos (show isEntry (.entry e) = true from rfl)] at hc
      obtain ⟨n1, b1, b2, b3, b4, b5⟩ := rehash_spec h e (by omega) (fun x hx => hnew e x (by simp) hx)
      obtain ⟨nb', a1, a2, a3, a4, a5⟩ := ih n1 b2 (by omega) (by
        intro x y hx hy
        rcases (b5 y).1 hy with rfl | hy
        · exact hd.1 _ hx y x rfl rfl
        · exact hnew x y (by simp [hx]) hy) hd.2
      refine ⟨nb', by rw [extendLoop, b1]; exact a1, a2, by omega, by rw [List.countP_cons, if_pos (show isEntry (.entry e) = true from rfl)]; omega, fun x => ?_⟩
      rw [a5, b5, List.mem_cons, Bin.entry.injEq]
      tauto

theorem tabOk_empty (hf : HashFn) (e : Nat) : TabOk hf (makeMHash (2 ^ e)).bins := by
  refine ⟨⟨e, by simp [makeMHash]⟩, ?_, ?_⟩
  · simp [makeMHash]
  · intro s x hx
    have := List.mem_iff_getElem?.2 ⟨s, hx⟩
    simp [makeMHash] at this

theorem bins_distinct {hf : HashFn} {bins : List Bin} (h : TabOk hf bins) :
    bins.Pairwise (fun a b => ∀ x y, a = .entry x → b = .entry y → x.key ≠ y.key) := by
  rw [List.pairwise_iff_getElem]
  intro i j hi hj hij x y hx hy hk
  have h1 : bins[i]? = some (.entry x) := by rw [List.getElem?_eq_getElem hi, hx]
  have h2 : bins[j]? = some (.entry y) := by rw [List.getElem?_eq_getElem hj, hy]
  have := (h.uniq h1 h2 hk).1
  omega

theorem mhashInsert_spec {hf : HashFn} {h : MHash} {F : TabMap} (hr : TabRep hf h F) (hsz : 4 ≤ h.bins.length) (κ : Key) (m : Method) :
    ∃ h', mhashInsert hf h κ.1 κ.2 m = some h' ∧ TabRep hf h' (F.ins κ m) ∧ 4 ≤ h'.bins.length := by
  unfold mhashInsert
  by_cases hl : h.bins.length ≤ h.numEntries * 2
  · rw [if_pos hl]
    obtain ⟨e, he⟩ := hr.size
    have hlen : (makeMHash (h.bins.length * 2)).bins.length = h.bins.length * 2 := by simp [makeMHash]
    have hempty : ∀ x, ¬ Bin.entry x ∈ (makeMHash (h.bins.length * 2)).bins := by simp [makeMHash]
    have hcnt : (makeMHash (h.bins.length * 2)).bins.countP isEntry = 0 := by
      rw [List.countP_eq_zero]
      intro b hb
      simp only [makeMHash, List.mem_replicate] at hb
      simp [hb.2, isEntry]
    have hok : TabOk hf (makeMHash (h.bins.length * 2)).bins := by
      rw [he, ← pow_succ]; exact tabOk_empty hf (e + 1)
    obtain ⟨nb, a1, a2, a3, a4, a5⟩ := extendLoop_spec h.bins _ hok
      (by rw [hcnt, hlen, hr.count]; have := hr.load; omega) (fun x y _ hy => absurd hy (hempty y)) (bins_distinct hr.toTabOk)
    rw [a1]
    rw [hlen] at a3
    rw [hcnt, hr.count, Nat.zero_add] at a4
    have hr' : TabRep hf { bins := nb, numEntries := h.numEntries } F := by
      refine { a2 with count := a4, load := ?_, val := ?_, dom := ?_ }
      · have := hr.load; simp only []; omega
      · intro x hx
        exact hr.val x (((a5 x).1 hx).resolve_right (hempty x))
      · intro κ hne
        obtain ⟨x, hx, hk⟩ := hr.dom κ hne
        exact ⟨x, (a5 x).2 (Or.inl hx), hk⟩
    obtain ⟨h', b1, b2, b3, b4⟩ := mhashInsert1_spec hr' κ m (by have := hr.load; simp only []; omega)
    exact ⟨h', b1, b2, by rw [b3]; simp only []; omega⟩
  · rw [if_neg hl]
    obtain ⟨h', b1, b2, b3, b4⟩ := mhashInsert1_spec hr κ m (by omega)
    exact ⟨h', b1, b2, by rw [b3]; exact hsz⟩

end Gauche.Dispatch
