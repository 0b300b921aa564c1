import Verif.Model.RingBuffer
import Verif.Spec.BoundedDeque
import Mathlib.Tactic.Ring
/-
The ring buffer refines a bounded deque.
-/
namespace Gauche.RingBuffer
open Gauche.Spec

variable {α : Type}

/-- The buffer holds the list. -/
structure Rep (rb : RB α) (l : List α) : Prop where
  len : rb.storage.length = rb.cap
  pos : 0 < rb.cap
  hd : rb.head < rb.cap
  le : rb.num ≤ rb.cap
  num : l.length = rb.num
  tl : rb.tail = (rb.head + rb.num) % rb.cap
  cell : ∀ i, i < rb.num → rb.storage[(rb.head + i) % rb.cap]? = l[i]?

theorem wrap {h i c : Nat} (hh : h < c) (hi : i ≤ c) :
    (h + i) % c = if h + i < c then h + i else h + i - c := by
  by_cases hc : h + i < c
  · rw [if_pos hc, Nat.mod_eq_of_lt hc]
  · rw [if_neg hc, Nat.mod_eq_sub_mod (by omega), Nat.mod_eq_of_lt (by omega)]

theorem modIndex_nat (s : List α) (i : Nat) : modIndex s (i : Int) = i % s.length := by
  unfold modIndex; rw [← Int.natCast_emod]; rfl

theorem modIndex_pred (s : List α) (i : Nat) (hi : i < s.length) :
    modIndex s ((i : Int) - 1) = (i + (s.length - 1)) % s.length := by
  unfold modIndex
  have : ((i : Int) - 1) % (s.length : Int) = (((i + (s.length - 1) : Nat) : Int)) % (s.length : Int) := by
    have h : (((i + (s.length - 1) : Nat) : Int)) = (i : Int) - 1 + s.length := by omega
    rw [h, Int.add_emod_right]
  rw [this, ← Int.natCast_emod]; rfl

theorem pred_wrap {h c : Nat} (hh : h < c) : (h + (c - 1)) % c = if h = 0 then c - 1 else h - 1 := by
  rw [wrap hh (by omega)]
  split <;> split <;> omega

theorem rep_make {s : List α} {h t : Int} {rb : RB α} (e : make s h t = some rb) :
    Rep rb ((s.take t.toNat).drop h.toNat) ∧ rb.cap = s.length := by
  unfold make at e
  by_cases hc : 0 ≤ h ∧ h ≤ (s.length : Int) - 1 ∧ h ≤ t ∧ t ≤ s.length
  · rw [if_pos hc] at e
    simp only [Option.some.injEq] at e
    obtain ⟨h1, h2, h3, h4⟩ := hc
    obtain ⟨h, rfl⟩ := Int.eq_ofNat_of_zero_le h1
    obtain ⟨t, rfl⟩ := Int.eq_ofNat_of_zero_le (by omega : 0 ≤ t)
    subst e
    simp only [Int.toNat_natCast] at *
    have hht : h ≤ t := by omega
    have hs : ((t : Int) - h).toNat = t - h := by omega
    refine ⟨⟨rfl, by dsimp only; omega, by dsimp only; omega, by dsimp only; omega, ?_, ?_, ?_⟩, by simp⟩
    · simp; omega
    · dsimp only
      rw [modIndex_nat, hs]
      congr 1; omega
    · dsimp only
      intro i hi
      rw [hs] at hi
      rw [Nat.mod_eq_of_lt (by omega), List.getElem?_drop, List.getElem?_take, if_pos (by omega)]
  · rw [if_neg hc] at e; cases e

theorem rep_front {rb : RB α} {l : List α} (h : Rep rb l) : front rb = optOut l.head? := by
  unfold front isEmpty
  cases l with
  | nil => rw [if_pos (by simp; have := h.num; simp at this; omega)]; rfl
  | cons a r =>
    have hn := h.num
    simp at hn
    rw [if_neg (by simp; omega)]
    have := h.cell 0 (by omega)
    rw [Nat.add_zero, Nat.mod_eq_of_lt h.hd] at this
    unfold outRef
    rw [this]; rfl

theorem rep_last {rb : RB α} {l : List α} (h : Rep rb l) (hn : rb.num ≠ 0) :
    rb.storage[(rb.tail + (rb.cap - 1)) % rb.cap]? = l.getLast? := by
  have := h.cell (rb.num - 1) (by omega)
  rw [List.getLast?_eq_getElem?, h.num, ← this]
  congr 1
  have := h.hd; have := h.le
  rw [h.tl, wrap h.hd h.le, wrap h.hd (by omega)]
  split <;> split <;> rw [pred_wrap (by omega)] <;> split <;> omega

theorem rep_back {rb : RB α} {l : List α} (h : Rep rb l) : back rb = optOut l.getLast? := by
  unfold back isEmpty
  have htl : rb.tail < rb.cap := by rw [h.tl]; exact Nat.mod_lt _ h.pos
  by_cases hn : rb.num = 0
  · rw [if_pos (by simpa using hn)]
    have := h.num
    rw [hn, List.length_eq_zero_iff] at this
    rw [this]; rfl
  · rw [if_neg (by simpa using hn)]
    unfold outRef
    rw [modIndex_pred _ _ (by rw [h.len]; exact htl), h.len, rep_last h hn]
    cases l.getLast? <;> rfl

theorem rep_removeFront {rb : RB α} {l : List α} (h : Rep rb l) :
    Rep (removeFront rb).1 l.tail ∧ (removeFront rb).2 = optOut l.head? ∧ (removeFront rb).1.cap = rb.cap := by
  have hf := rep_front h
  unfold front at hf
  unfold removeFront
  by_cases hn : isEmpty rb = true
  · rw [if_pos hn] at hf ⊢
    unfold isEmpty at hn
    have h0 := h.num
    simp only [decide_eq_true_eq] at hn
    rw [hn, List.length_eq_zero_iff] at h0
    subst h0
    exact ⟨h, hf, rfl⟩
  · rw [if_neg hn] at hf ⊢
    refine ⟨?_, hf, rfl⟩
    unfold isEmpty at hn
    simp only [decide_eq_true_eq] at hn
    have hh : modIndex rb.storage ((rb.head : Int) + 1) = (rb.head + 1) % rb.cap := by
      have : ((rb.head : Int) + 1) = ((rb.head + 1 : Nat) : Int) := by omega
      rw [this, modIndex_nat, h.len]
    have hpos := h.pos; have hhd := h.hd; have hle := h.le
    refine ⟨h.len, h.pos, ?_, ?_, ?_, ?_, ?_⟩ <;> dsimp only [headInc] <;> (try rw [hh])
    · exact Nat.mod_lt _ h.pos
    · omega
    · rw [List.length_tail, h.num]
    · rw [h.tl, Nat.mod_add_mod]; congr 1; omega
    · intro i hi
      have := h.cell (i + 1) (by omega)
      rw [List.getElem?_tail, ← this, Nat.mod_add_mod]
      congr 2; omega

theorem rep_removeBack {rb : RB α} {l : List α} (h : Rep rb l) :
    Rep (removeBack rb).1 l.dropLast ∧ (removeBack rb).2 = optOut l.getLast? ∧ (removeBack rb).1.cap = rb.cap := by
  unfold removeBack isEmpty
  have htl : rb.tail < rb.cap := by rw [h.tl]; exact Nat.mod_lt _ h.pos
  by_cases hn : rb.num = 0
  · rw [if_pos (by simpa using hn)]
    have h0 := h.num
    rw [hn, List.length_eq_zero_iff] at h0
    subst h0
    exact ⟨h, rfl, rfl⟩
  · rw [if_neg (by simpa using hn)]
    have hm : modIndex rb.storage ((rb.tail : Int) + -1) = (rb.tail + (rb.cap - 1)) % rb.cap := by
      have : ((rb.tail : Int) + -1) = (rb.tail : Int) - 1 := by omega
      rw [this, modIndex_pred _ _ (by rw [h.len]; exact htl), h.len]
    have hpos := h.pos; have hhd := h.hd; have hle := h.le
    refine ⟨⟨h.len, h.pos, h.hd, ?_, ?_, ?_, ?_⟩, ?_, rfl⟩
    · dsimp only [tailInc]; omega
    · dsimp only [tailInc]; rw [List.length_dropLast, h.num]
    · dsimp only [tailInc]
      rw [hm, h.tl, Nat.mod_add_mod]
      have : rb.head + rb.num + (rb.cap - 1) = rb.head + (rb.num - 1) + rb.cap := by omega
      rw [this, Nat.add_mod_right]
    · dsimp only [tailInc]
      intro i hi
      rw [h.cell i (by omega), List.getElem?_dropLast, if_pos (by rw [h.num]; exact hi)]
    · dsimp only [tailInc]
      rw [hm]
      unfold outRef
      rw [rep_last h hn]
      cases l.getLast? <;> rfl

theorem rep_ref {rb : RB α} {l : List α} (h : Rep rb l) (n : Int) (f : Option α) :
    ref rb n f = optOut ((nth l n).or f) := by
  unfold ref nth
  by_cases hn : 0 ≤ n ∧ n ≤ (rb.num : Int) - 1
  · rw [if_pos hn, if_pos hn.1]
    obtain ⟨i, rfl⟩ := Int.eq_ofNat_of_zero_le hn.1
    have hi : i < rb.num := by omega
    have e : ((rb.head : Int) + (i : Int)) = ((rb.head + i : Nat) : Int) := by omega
    rw [e, modIndex_nat, h.len, Int.toNat_natCast]
    unfold outRef
    rw [h.cell i hi]
    have : i < l.length := by rw [h.num]; exact hi
    rw [List.getElem?_eq_getElem this]; rfl
  · rw [if_neg hn]
    have : (if 0 ≤ n then l[n.toNat]? else none) = none := by
      by_cases h0 : 0 ≤ n
      · rw [if_pos h0, List.getElem?_eq_none]
        have := h.num; omega
      · rw [if_neg h0]
    rw [this, Option.none_or]
    cases f <;> rfl

theorem inj_wrap {h i j c : Nat} (hh : h < c) (hi : i < c) (hj : j < c) (e : (h + i) % c = (h + j) % c) : i = j := by
  rw [wrap hh (by omega), wrap hh (by omega)] at e
  split at e <;> split at e <;> omega

theorem rep_set {rb : RB α} {l : List α} (h : Rep rb l) (n : Int) (x : α) :
    (if (nth l n).isSome then (Rep (setAt rb n x).1 (l.set n.toNat x) ∧ (setAt rb n x).2 = .unit)
     else setAt rb n x = (rb, .err)) ∧ (setAt rb n x).1.cap = rb.cap := by
  have hpos := h.pos; have hhd := h.hd; have hle := h.le; have hnum := h.num
  unfold setAt
  by_cases hn : 0 ≤ n ∧ n ≤ (rb.num : Int) - 1
  · rw [if_pos hn]
    obtain ⟨i, rfl⟩ := Int.eq_ofNat_of_zero_le hn.1
    have hi : i < rb.num := by omega
    have e : ((rb.head : Int) + (i : Int)) = ((rb.head + i : Nat) : Int) := by omega
    rw [e, modIndex_nat, h.len]
    dsimp only
    have hlt := Nat.mod_lt (rb.head + i) h.pos
    rw [if_pos hlt]
    refine ⟨?_, rfl⟩
    rw [if_pos]
    · refine ⟨⟨by simpa using h.len, h.pos, h.hd, h.le, by simpa using h.num, h.tl, ?_⟩, rfl⟩
      dsimp only
      intro j hj
      rw [List.getElem?_set, List.getElem?_set, Int.toNat_natCast]
      by_cases hij : i = j
      · subst hij
        rw [if_pos rfl, if_pos rfl, if_pos (by rw [h.len]; exact hlt), if_pos (by omega)]
      · rw [if_neg hij, if_neg, h.cell j hj]
        intro hc; exact hij (inj_wrap h.hd (by omega) (by omega) hc)
    · unfold nth; rw [if_pos (by omega), Int.toNat_natCast, List.getElem?_eq_getElem (by omega)]; rfl
  · rw [if_neg hn]
    refine ⟨?_, rfl⟩
    rw [if_neg]
    unfold nth
    by_cases h0 : 0 ≤ n
    · rw [if_pos h0, List.getElem?_eq_none (by omega)]; simp
    · rw [if_neg h0]; simp

theorem rep_clear {rb : RB α} {l : List α} (h : Rep rb l) : Rep (clear rb) [] :=
  ⟨h.len, h.pos, h.pos, Nat.zero_le _, rfl, by simp [clear], by intro i hi; simp [clear] at hi⟩

/-! ### Copying out -/

theorem copyInto_some (dest : List α) (d : Nat) (src : List α) (s e : Nat) (h : s ≤ e ∧ e ≤ src.length ∧ d + (e - s) ≤ dest.length) :
    ∃ r, copyInto dest d src s e = some r ∧ r.length = dest.length ∧
      ∀ i, r[i]? = if d ≤ i ∧ i < d + (e - s) then src[s + (i - d)]? else dest[i]? := by
  refine ⟨_, if_pos h, ?_, ?_⟩
  · simp; omega
  · intro i
    by_cases h1 : i < d
    · rw [if_neg (by omega), List.append_assoc, List.getElem?_append_left (by simp; omega), List.getElem?_take, if_pos h1]
    · by_cases h2 : i < d + (e - s)
      · rw [if_pos ⟨by omega, h2⟩, List.append_assoc, List.getElem?_append_right (by simp; omega),
          List.getElem?_append_left (by simp; omega), List.getElem?_take, List.getElem?_drop]
        have : (dest.take d).length = d := by simp; omega
        rw [this, if_pos (by omega)]
      · rw [if_neg (by omega), List.getElem?_append_right (by simp; omega), List.getElem?_drop]
        congr 1
        simp; omega

theorem rep_copyContents {rb : RB α} {l : List α} (h : Rep rb l) (hfull : rb.num = rb.cap) (v : List α)
    (hv : rb.cap ≤ v.length) : ∃ w, copyContents rb v rb.storage = some w ∧ w.length = v.length ∧
      ∀ i, i < rb.num → w[i]? = l[i]? := by
  have hpos := h.pos; have hhd := h.hd; have hlen := h.len
  have ht : rb.tail = rb.head := by rw [h.tl, hfull, Nat.add_mod_right, Nat.mod_eq_of_lt h.hd]
  unfold copyContents
  rw [if_pos (by omega)]
  obtain ⟨n, h1, h2, h3⟩ := copyInto_some v 0 rb.storage rb.head rb.cap (by omega)
  obtain ⟨w, h4, h5, h6⟩ := copyInto_some n (rb.cap - rb.head) rb.storage 0 rb.tail (by omega)
  rw [h1]
  refine ⟨w, h4, by omega, fun i hi => ?_⟩
  rw [h6, h3, ← h.cell i hi, wrap h.hd (by omega)]
  by_cases hc : rb.head + i < rb.cap
  · rw [if_neg (by omega), if_pos (by omega), if_pos hc]
    congr 1
  · rw [if_pos (by omega), if_neg hc]
    congr 1; omega

theorem rep_subvectors {rb : RB α} {l : List α} (h : Rep rb l) (s e : Int) :
    toVector rb s e = if 0 ≤ s ∧ s ≤ e ∧ e ≤ l.length then .elts ((l.take e.toNat).drop s.toNat) else .err := by
  have hpos := h.pos; have hhd := h.hd; have hle := h.le; have hnum := h.num; have hlen := h.len
  unfold toVector subvectors
  rw [hnum]
  by_cases hc : 0 ≤ s ∧ s ≤ e ∧ e ≤ rb.num
  · rw [if_pos hc, if_pos hc]
    obtain ⟨s, rfl⟩ := Int.eq_ofNat_of_zero_le hc.1
    obtain ⟨e, rfl⟩ := Int.eq_ofNat_of_zero_le (by omega : 0 ≤ e)
    by_cases hse : (s : Int) = e
    · rw [if_pos hse]
      simp only [List.map_nil, List.flatten_nil, Int.toNat_natCast]
      have : s = e := by omega
      subst this
      rw [List.drop_eq_nil_of_le (by simp)]
    · rw [if_neg hse]
      have e1 : (((rb.head : Int) + (s : Int)) % (rb.cap : Int)).toNat = (rb.head + s) % rb.cap := by
        rw [← Int.natCast_add, ← Int.natCast_emod]; rfl
      have e2 : (((rb.head : Int) + (e : Int)) % (rb.cap : Int)).toNat = (rb.head + e) % rb.cap := by
        rw [← Int.natCast_add, ← Int.natCast_emod]; rfl
      rw [e1, e2]
      dsimp only
      rw [wrap h.hd (by omega), wrap h.hd (by omega)]
      have key : ∀ i, i < e - s → ((l.take e).drop s)[i]? = rb.storage[if rb.head + (s + i) < rb.cap then rb.head + (s + i) else rb.head + (s + i) - rb.cap]? := by
        intro i hi
        rw [List.getElem?_drop, List.getElem?_take, if_pos (by omega), ← h.cell (s + i) (by omega), wrap h.hd (by omega)]
      have hl : ((l.take e).drop s).length = e - s := by simp; omega
      have fin : ∀ (r : List α), r.length = e - s → (∀ i, i < e - s → r[i]? = rb.storage[if rb.head + (s + i) < rb.cap then rb.head + (s + i) else rb.head + (s + i) - rb.cap]?) →
          r = (l.take e).drop s := by
        intro r h1 h2
        apply List.ext_getElem?
        intro i
        by_cases hi : i < e - s
        · rw [h2 i hi, key i hi]
        · rw [List.getElem?_eq_none (by omega), List.getElem?_eq_none (by omega)]
      simp only [Int.toNat_natCast]
      by_cases hs : rb.head + s < rb.cap
      · by_cases he : rb.head + e < rb.cap
        · simp only [if_pos hs, if_pos he]
          rw [if_pos (by omega)]
          simp only [List.map_cons, List.map_nil, List.flatten_cons, List.flatten_nil, List.append_nil]
          refine congrArg Out.elts (fin _ (by simp; omega) ?_)
          intro i hi
          rw [List.getElem?_take, if_pos (by omega), List.getElem?_drop, if_pos (by omega)]
          congr 1; omega
        · simp only [if_pos hs, if_neg he]
          rw [if_neg (by omega)]
          by_cases h0 : rb.head + e - rb.cap = 0
          · rw [if_pos h0]
            simp only [List.map_cons, List.map_nil, List.flatten_cons, List.flatten_nil, List.append_nil]
            refine congrArg Out.elts (fin _ (by simp; omega) ?_)
            intro i hi
            rw [List.getElem?_take, if_pos (by omega), List.getElem?_drop, if_pos (by omega)]
            congr 1; omega
          · rw [if_neg h0]
            simp only [List.map_cons, List.map_nil, List.flatten_cons, List.flatten_nil, List.append_nil]
            refine congrArg Out.elts (fin _ (by simp; omega) ?_)
            intro i hi
            by_cases hi2 : rb.head + (s + i) < rb.cap
            · rw [List.getElem?_append_left (by simp; omega), List.getElem?_take, if_pos (by omega), List.getElem?_drop, if_pos (by omega)]
              congr 1; omega
            · rw [List.getElem?_append_right (by simp; omega), List.getElem?_take, List.getElem?_drop, if_neg hi2, if_pos (by simp; omega)]
              congr 1; simp; omega
      · have he : ¬ rb.head + e < rb.cap := by omega
        simp only [if_neg hs, if_neg he]
        rw [if_pos (by omega)]
        simp only [List.map_cons, List.map_nil, List.flatten_cons, List.flatten_nil, List.append_nil]
        refine congrArg Out.elts (fin _ (by simp; omega) ?_)
        intro i hi
        rw [List.getElem?_take, if_pos (by omega), List.getElem?_drop, if_neg (by omega)]
        congr 1; omega
  · rw [if_neg hc, if_neg hc]

/-! ### Adding -/

theorem rep_put_back {rb : RB α} {l : List α} (h : Rep rb l) (x : α) (hroom : rb.num < rb.cap) :
    rb.tail < rb.storage.length ∧
    Rep { tailInc { rb with storage := rb.storage.set rb.tail x } 1 with num := rb.num + 1 } (l ++ [x]) := by
  have hpos := h.pos; have hhd := h.hd; have hle := h.le; have hnum := h.num; have hlen := h.len
  have htl : rb.tail < rb.cap := by rw [h.tl]; exact Nat.mod_lt _ h.pos
  refine ⟨by omega, ?_⟩
  have hm : modIndex (rb.storage.set rb.tail x) ((rb.tail : Int) + 1) = (rb.tail + 1) % rb.cap := by
    have : ((rb.tail : Int) + 1) = ((rb.tail + 1 : Nat) : Int) := by omega
    rw [this, modIndex_nat, List.length_set, h.len]
  refine ⟨?_, h.pos, h.hd, ?_, ?_, ?_, ?_⟩ <;> dsimp only [tailInc]
  · rw [List.length_set, h.len]
  · omega
  · simp; omega
  · rw [hm, h.tl, Nat.mod_add_mod]; congr 1
  · intro i hi
    rw [List.getElem?_set]
    by_cases hi2 : i = rb.num
    · subst hi2
      rw [if_pos h.tl, if_pos (by omega), List.getElem?_append_right (by omega)]
      simp [hnum]
    · rw [if_neg, h.cell i (by omega), List.getElem?_append_left (by omega)]
      rw [h.tl]; intro hc
      exact hi2 (inj_wrap h.hd (by omega) hroom hc.symm)

theorem rep_put_front {rb : RB α} {l : List α} (h : Rep rb l) (x : α) (hroom : rb.num < rb.cap) :
    (headInc rb (-1)).head < rb.storage.length ∧
    Rep { headInc rb (-1) with storage := rb.storage.set (headInc rb (-1)).head x, num := rb.num + 1 } (x :: l) := by
  have hpos := h.pos; have hhd := h.hd; have hle := h.le; have hnum := h.num; have hlen := h.len
  have hm : (headInc rb (-1)).head = (rb.head + (rb.cap - 1)) % rb.cap := by
    unfold headInc
    dsimp only
    have : ((rb.head : Int) + -1) = (rb.head : Int) - 1 := by omega
    rw [this, modIndex_pred _ _ (by omega), h.len]
  rw [hm]
  have hlt := Nat.mod_lt (rb.head + (rb.cap - 1)) h.pos
  refine ⟨by omega, ?_⟩
  have hmv : ∀ j, ((rb.head + (rb.cap - 1)) % rb.cap + (j + 1)) % rb.cap = (rb.head + j) % rb.cap := by
    intro j
    rw [Nat.mod_add_mod]
    have : rb.head + (rb.cap - 1) + (j + 1) = rb.head + j + rb.cap := by omega
    rw [this, Nat.add_mod_right]
  refine ⟨?_, h.pos, ?_, ?_, ?_, ?_, ?_⟩ <;> dsimp only
  · rw [List.length_set]; unfold headInc; exact h.len
  · rw [hm]; unfold headInc; exact hlt
  · unfold headInc; dsimp only; omega
  · simp; omega
  · rw [hm]; unfold headInc; dsimp only; rw [hmv, h.tl]
  · rw [hm]; unfold headInc; dsimp only
    intro i hi
    rw [List.getElem?_set]
    cases i with
    | zero =>
      rw [Nat.add_zero, Nat.mod_mod, if_pos rfl, if_pos (by omega)]; rfl
    | succ j =>
      rw [if_neg, hmv, h.cell j (by omega), List.getElem?_cons_succ]
      intro hc
      have := inj_wrap (h := (rb.head + (rb.cap - 1)) % rb.cap) (i := 0) (j := j + 1) hlt h.pos (by omega)
        (by rw [Nat.add_zero, Nat.mod_mod]; exact hc)
      omega

end Gauche.RingBuffer
