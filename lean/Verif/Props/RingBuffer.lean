import Verif.Proof.RingBuffer
/-
C38: ring buffers.
-/
namespace Gauche.RingBuffer
open Gauche.Spec

section
variable {α : Type}

theorem rep_ensure {rb : RB α} {l : List α} (h : Rep rb l) (fw : Bool) (ans : Ans α)
    (hans : ∀ v, ans = .storage v → rb.num = rb.cap → rb.cap < v.length) :
    (rb.num < rb.cap ∧ ensureRoom rb fw ans = some rb) ∨
    (rb.num = rb.cap ∧ (ans = .error ∨ ans = .invalid) ∧ ensureRoom rb fw ans = none) ∨
    (rb.num = rb.cap ∧ ans = .overwrite ∧ ∃ rb', ensureRoom rb fw ans = some rb' ∧ rb'.num < rb'.cap ∧
      rb'.cap = rb.cap ∧ Rep rb' (if fw then l.tail else l.dropLast)) ∨
    (rb.num = rb.cap ∧ ∃ v, ans = .storage v ∧ ∃ rb', ensureRoom rb fw ans = some rb' ∧ rb'.num < rb'.cap ∧
      rb'.cap = v.length ∧ Rep rb' l) := by
  have hpos := h.pos; have hle := h.le
  unfold ensureRoom
  by_cases hf : rb.num = rb.cap
  · rw [if_pos hf]
    have hne : isEmpty rb = false := by unfold isEmpty; simp; omega
    cases ans with
    | error => exact .inr (.inl ⟨hf, .inl rfl, rfl⟩)
    | invalid => exact .inr (.inl ⟨hf, .inr rfl, rfl⟩)
    | overwrite =>
      refine .inr (.inr (.inl ⟨hf, rfl, ?_⟩))
      cases fw with
      | true =>
        have hr := (rep_removeFront h).1
        unfold removeFront at hr
        rw [hne] at hr
        refine ⟨_, rfl, ?_, ?_, hr⟩
        · simp [headInc]; omega
        · rfl
      | false =>
        have hr := (rep_removeBack h).1
        unfold removeBack at hr
        rw [hne] at hr
        refine ⟨_, rfl, ?_, ?_, hr⟩
        · dsimp only [tailInc, if_false]; simp; omega
        · rfl
    | storage v =>
      have hv := hans v rfl hf
      obtain ⟨w, h1, h2, h3⟩ := rep_copyContents h hf v (by omega)
      refine .inr (.inr (.inr ⟨hf, v, rfl, _, by dsimp only; rw [h1]; rfl, ?_, h2, ?_⟩))
      · dsimp only; omega
      · refine ⟨rfl, ?_, ?_, ?_, ?_, ?_, ?_⟩ <;> dsimp only
        · omega
        · omega
        · omega
        · exact h.num
        · rw [Nat.zero_add, Nat.mod_eq_of_lt (by omega)]
        · intro i hi
          rw [Nat.zero_add, Nat.mod_eq_of_lt (by omega), h3 i hi]
  · rw [if_neg hf]
    exact .inl ⟨by omega, rfl⟩

theorem rep_addBack {rb : RB α} {l : List α} (h : Rep rb l) (x : α) (ans : Ans α)
    {r : BDeque α × Out α} (e : (BDeque.mk l rb.cap).step (.addBack x ans) = some r) :
    Rep (addBack rb x ans).1 r.1.items ∧ (addBack rb x ans).1.cap = r.1.cap ∧ (addBack rb x ans).2 = r.2 := by
  simp only [BDeque.step, h.num] at e
  have hle := h.le
  unfold addBack
  rcases rep_ensure h true ans (by
    intro v hv hf
    subst hv
    rw [if_neg (by omega)] at e
    dsimp only at e
    by_contra hc
    rw [if_neg hc] at e; cases e) with ⟨h1, h2⟩ | ⟨h1, h2, h3⟩ | ⟨h1, h2, rb', h3, h4, h5, h6⟩ |
      ⟨h1, v, h2, rb', h3, h4, h5, h6⟩
  · rw [h2]
    rw [if_pos h1] at e
    cases e
    obtain ⟨a, b⟩ := rep_put_back h x h1
    dsimp only
    rw [if_pos a]
    exact ⟨b, rfl, rfl⟩
  · rw [h3]
    rw [if_neg (by omega)] at e
    rcases h2 with rfl | rfl <;> (cases e; exact ⟨h, rfl, rfl⟩)
  · rw [h3]
    subst h2
    rw [if_neg (by omega)] at e
    cases e
    obtain ⟨a, b⟩ := rep_put_back h6 x h4
    dsimp only
    rw [if_pos a]
    exact ⟨b, h5, rfl⟩
  · rw [h3]
    subst h2
    rw [if_neg (by omega)] at e
    dsimp only at e
    by_cases hc : rb.cap < v.length
    · rw [if_pos hc] at e
      cases e
      obtain ⟨a, b⟩ := rep_put_back h6 x h4
      dsimp only
      rw [if_pos a]
      exact ⟨b, h5, rfl⟩
    · rw [if_neg hc] at e; cases e

theorem rep_addFront {rb : RB α} {l : List α} (h : Rep rb l) (x : α) (ans : Ans α)
    {r : BDeque α × Out α} (e : (BDeque.mk l rb.cap).step (.addFront x ans) = some r) :
    Rep (addFront rb x ans).1 r.1.items ∧ (addFront rb x ans).1.cap = r.1.cap ∧ (addFront rb x ans).2 = r.2 := by
  simp only [BDeque.step, h.num] at e
  have hle := h.le
  unfold addFront
  rcases rep_ensure h false ans (by
    intro v hv hf
    subst hv
    rw [if_neg (by omega)] at e
    dsimp only at e
    by_contra hc
    rw [if_neg hc] at e; cases e) with ⟨h1, h2⟩ | ⟨h1, h2, h3⟩ | ⟨h1, h2, rb', h3, h4, h5, h6⟩ |
      ⟨h1, v, h2, rb', h3, h4, h5, h6⟩
  · rw [h2]
    rw [if_pos h1] at e
    cases e
    obtain ⟨a, b⟩ := rep_put_front h x h1
    dsimp only
    rw [if_pos (by exact a)]
    exact ⟨b, rfl, rfl⟩
  · rw [h3]
    rw [if_neg (by omega)] at e
    rcases h2 with rfl | rfl <;> (cases e; exact ⟨h, rfl, rfl⟩)
  · rw [h3]
    subst h2
    rw [if_neg (by omega)] at e
    cases e
    obtain ⟨a, b⟩ := rep_put_front h6 x h4
    dsimp only
    rw [if_pos (by exact a)]
    exact ⟨b, h5, rfl⟩
  · rw [h3]
    subst h2
    rw [if_neg (by omega)] at e
    dsimp only at e
    by_cases hc : rb.cap < v.length
    · rw [if_pos hc] at e
      cases e
      obtain ⟨a, b⟩ := rep_put_front h6 x h4
      dsimp only
      rw [if_pos (by exact a)]
      exact ⟨b, h5, rfl⟩
    · rw [if_neg hc] at e; cases e

theorem rep_step {rb : RB α} {l : List α} (h : Rep rb l) (o : Op α)
    {r : BDeque α × Out α} (e : (BDeque.mk l rb.cap).step o = some r) :
    Rep (step rb o).1 r.1.items ∧ (step rb o).1.cap = r.1.cap ∧ (step rb o).2 = r.2 := by
  cases o with
  | addFront x ans => exact rep_addFront h x ans e
  | addBack x ans => exact rep_addBack h x ans e
  | removeFront =>
    cases e; obtain ⟨a, b, c⟩ := rep_removeFront h; exact ⟨a, c, b⟩
  | removeBack =>
    cases e; obtain ⟨a, b, c⟩ := rep_removeBack h; exact ⟨a, c, b⟩
  | front => cases e; exact ⟨h, rfl, rep_front h⟩
  | back => cases e; exact ⟨h, rfl, rep_back h⟩
  | ref n f => cases e; exact ⟨h, rfl, rep_ref h n f⟩
  | set n x =>
    obtain ⟨a, b⟩ := rep_set h n x
    simp only [BDeque.step] at e
    by_cases hc : (nth l n).isSome = true
    · rw [if_pos hc] at e a
      cases e
      exact ⟨a.1, b, a.2⟩
    · rw [if_neg hc] at e a
      cases e
      show Rep (setAt rb n x).1 l ∧ _ ∧ (setAt rb n x).2 = _
      rw [a]; exact ⟨h, by rw [← b]; rfl, rfl⟩
  | clear => cases e; exact ⟨rep_clear h, rfl, rfl⟩
  | toVector s t =>
    have := rep_subvectors h s t
    simp only [BDeque.step] at e
    by_cases hc : 0 ≤ s ∧ s ≤ t ∧ t ≤ l.length
    · rw [if_pos hc] at e this
      cases e; exact ⟨h, rfl, this⟩
    · rw [if_neg hc] at e this
      cases e; exact ⟨h, rfl, this⟩
  | num => cases e; exact ⟨h, rfl, by simp [step, h.num]⟩
  | capacity => cases e; exact ⟨h, rfl, rfl⟩
  | room =>
    cases e
    refine ⟨h, rfl, ?_⟩
    have h1 := h.le; have h2 := h.num
    simp only [step, room, Out.int.injEq]; omega
  | empty =>
    cases e
    refine ⟨h, rfl, ?_⟩
    have h2 := h.num
    simp only [step, isEmpty, Out.bool.injEq]
    cases l with
    | nil => simp at h2; simp [← h2]
    | cons a t => simp at h2; simp; omega
  | full => cases e; exact ⟨h, rfl, by simp [step, isFull, h.num]⟩

theorem rep_run {rb : RB α} {l : List α} (h : Rep rb l) (os : List (Op α)) {r : List (Out α)}
    (e : (BDeque.mk l rb.cap).run os = some r) : run rb os = r := by
  induction os generalizing rb l r with
  | nil => cases e; rfl
  | cons o os ih =>
    rw [BDeque.run, Option.bind_eq_some_iff] at e
    obtain ⟨r1, e1, e2⟩ := e
    rw [Option.map_eq_some_iff] at e2
    obtain ⟨r2, e2, rfl⟩ := e2
    obtain ⟨a, b, c⟩ := rep_step h o e1
    rw [run, c]
    congr 1
    refine ih a ?_
    rw [b]; exact e2

theorem rep_exec {rb : RB α} {l : List α} (h : Rep rb l) (os : List (Op α)) {d : BDeque α}
    (e : (BDeque.mk l rb.cap).exec os = some d) : Rep (exec rb os) d.items ∧ (exec rb os).cap = d.cap := by
  induction os generalizing rb l with
  | nil => cases e; exact ⟨h, rfl⟩
  | cons o os ih =>
    rw [BDeque.exec, Option.bind_eq_some_iff] at e
    obtain ⟨r1, e1, e2⟩ := e
    obtain ⟨a, b, _⟩ := rep_step h o e1
    exact ih a (by rw [b]; exact e2)

/-- **C38.**  A ring buffer behaves, for every history of calls, as a deque with a capacity: elements come out in deque
order, and on overflow the handler's answer decides between an error (nothing changes), dropping the element at
the other end, and growing.  The only condition is the handler's documented contract, that a storage it returns
is larger. -/
theorem C38_refines_deque (s : List α) (h t : Int) (rb : RB α) (e : make s h t = some rb) (os : List (Op α))
    (r : List (Out α)) (hr : (BDeque.mk ((s.take t.toNat).drop h.toNat) s.length).run os = some r) :
    run rb os = r := by
  obtain ⟨a, b⟩ := rep_make e
  rw [← b] at hr
  exact rep_run a os hr

/-- **C38.**  A history whose handler answers are never a storage that is not larger always meets the contract. -/
theorem C38_contract (d : BDeque α) (os : List (Op α))
    (h : ∀ o ∈ os, ∀ x v, o ≠ .addFront x (.storage v) ∧ o ≠ .addBack x (.storage v)) :
    ∃ r, d.run os = some r := by
  induction os generalizing d with
  | nil => exact ⟨_, rfl⟩
  | cons o os ih =>
    have hs : ∃ r, d.step o = some r := by
      have h0 := h o (by simp)
      cases o with
      | addFront x ans =>
        simp only [BDeque.step]
        split
        · exact ⟨_, rfl⟩
        · cases ans with
          | storage v => exact absurd rfl (h0 x v).1
          | _ => exact ⟨_, rfl⟩
      | addBack x ans =>
        simp only [BDeque.step]
        split
        · exact ⟨_, rfl⟩
        · cases ans with
          | storage v => exact absurd rfl (h0 x v).2
          | _ => exact ⟨_, rfl⟩
      | set n x => simp only [BDeque.step]; split <;> exact ⟨_, rfl⟩
      | toVector s t => simp only [BDeque.step]; split <;> exact ⟨_, rfl⟩
      | _ => exact ⟨_, rfl⟩
    obtain ⟨r, hr⟩ := hs
    obtain ⟨r', hr'⟩ := ih r.1 (fun o ho => h o (by simp [ho]))
    exact ⟨_, by rw [BDeque.run, hr]; show ((r.1.run os).map _) = _; rw [hr']; rfl⟩

/-- **C38.**  `make-overflow-doubler` meets the contract: unless it answers `error` (exactly when the capacity has
reached `max-capacity`), the storage is larger, provided `max-increase` is positive. -/
theorem C38_doubler (mi mc : Option Nat) (fresh : α) (rb : RB α) (hpos : 0 < rb.cap) (hmi : mi ≠ some 0) :
    (doubler mi mc fresh rb = .error ∧ ∃ m, mc = some m ∧ m ≤ rb.cap) ∨
    (∃ v, doubler mi mc fresh rb = .storage v ∧ rb.cap < v.length ∧ ∀ m, mc = some m → rb.cap < m) := by
  unfold doubler
  by_cases h : (mc.map fun m => decide (m ≤ rb.cap)).getD false = true
  · rw [if_pos h]
    cases mc with
    | none => simp at h
    | some m => exact .inl ⟨rfl, m, rfl, by simpa using h⟩
  · rw [if_neg h]
    have hm : ∀ m, mc = some m → rb.cap < m := by
      rintro m rfl; simpa using h
    cases mi with
    | none => exact .inr ⟨_, rfl, by simp; omega, hm⟩
    | some m =>
      dsimp only
      have : 0 < m := Nat.pos_of_ne_zero (fun e => hmi (by rw [e]))
      by_cases hc : m ≤ rb.cap
      · rw [if_pos hc]; exact .inr ⟨_, rfl, by simp; omega, hm⟩
      · rw [if_neg hc]; exact .inr ⟨_, rfl, by simp; omega, hm⟩

/-! ### Iteration -/

theorem iterate_rep {rb : RB α} {l : List α} (h : Rep rb l) (fuel k : Nat) (hf : l.length < fuel + k) (hk : k ≤ l.length) :
    iterate rb fuel (k : Int) = some (l.drop k) := by
  induction fuel generalizing k with
  | zero => omega
  | succ n ih =>
    rw [iterate]
    have hn := h.num
    by_cases hc : (rb.num : Int) ≤ (k : Int)
    · rw [if_pos hc, List.drop_eq_nil_of_le (by omega)]
    · rw [if_neg hc, rep_ref h]
      have hlt : k < l.length := by omega
      unfold nth
      rw [if_pos (by omega), Int.toNat_natCast, List.getElem?_eq_getElem hlt]
      have := ih (k + 1) (by omega) (by omega)
      rw [Int.natCast_add, Int.natCast_one] at this
      simp only [Option.or_none, optOut, this, Option.map_some]
      rw [List.drop_eq_getElem_cons hlt]

/-- **C38.**  After every history, iterating over a ring buffer delivers its elements from front to back. -/
theorem C38_iterate (s : List α) (h t : Int) (rb : RB α) (e : make s h t = some rb) (os : List (Op α)) (d : BDeque α)
    (hd : (BDeque.mk ((s.take t.toNat).drop h.toNat) s.length).exec os = some d) :
    ∃ fuel, iterate (exec rb os) fuel 0 = some d.items := by
  obtain ⟨a, b⟩ := rep_make e
  rw [← b] at hd
  have h := (rep_exec a os hd).1
  exact ⟨d.items.length + 1, by have := iterate_rep h (d.items.length + 1) 0 (by omega) (by omega); simpa using this⟩

theorem reverse_iterator_rep {rb : RB α} {l : List α} (h : Rep rb l) (fuel : Nat) :
    (l ≠ [] → reverseIterate rb 0 (fuel + 1) ((rb.num : Int) - 1) = some []) ∧
    (l = [] → reverseIterate rb 0 (fuel + 1) ((rb.num : Int) - 1) = none) := by
  have hn := h.num
  constructor
  · intro hl
    have : 0 < l.length := List.length_pos_iff.2 hl
    rw [reverseIterate, if_pos (by omega)]
  · rintro rfl
    simp only [List.length_nil] at hn
    rw [reverseIterate, if_neg (by omega), rep_ref h]
    unfold nth
    rw [if_neg (by omega)]
    rfl

/-- **C38, negative.**  The reverse iterator's end test is inverted: over every non-empty ring buffer it delivers nothing
(so `fold-right` answers the seed), and over an empty one it is an error. -/
theorem C38_bug_reverse_iterator (s : List α) (h t : Int) (rb : RB α) (e : make s h t = some rb) (os : List (Op α))
    (d : BDeque α) (hd : (BDeque.mk ((s.take t.toNat).drop h.toNat) s.length).exec os = some d) (fuel : Nat) :
    reverseIterate (exec rb os) 0 (fuel + 1) (((exec rb os).num : Int) - 1) =
      if d.items.isEmpty then none else some [] := by
  obtain ⟨a, b⟩ := rep_make e
  rw [← b] at hd
  obtain ⟨h1, h2⟩ := reverse_iterator_rep (rep_exec a os hd).1 fuel
  by_cases hc : d.items = []
  · rw [if_pos (by rw [hc]; rfl), h2 hc]
  · rw [if_neg (by simpa using hc), h1 hc]

/-! ### Insertion in the middle -/

/-- **C38, negative.**  When there is room, `ring-buffer-insert-all!` never increases the number of entries, so inserting
at least one item always loses at least one. -/
theorem C38_bug_insert_all_room (rb : RB α) (n : Int) (items : List α) (nb : Option (List α))
    (hn : 0 ≤ n ∧ n ≤ rb.num) (hroom : rb.num + items.length < rb.cap) :
    (insertAll rb n items nb).2 = .unit ∧ (insertAll rb n items nb).1.num = rb.num := by
  unfold insertAll
  rw [if_pos hn]
  dsimp only
  rw [if_neg (by omega)]
  exact ⟨rfl, rfl⟩

theorem length_putItems (s : List α) (ix : Nat → Nat) (i : Nat) (items : List α) :
    (putItems s ix i items).length = s.length := by
  induction items generalizing s i with
  | nil => rfl
  | cons a r ih => rw [putItems, ih, List.length_set]

theorem getElem_putItems (s : List α) (n i : Nat) (items : List α) (h : n + i + items.length ≤ s.length) (j : Nat) :
    (putItems s (fun i => n + i) i items)[j]? =
      if n + i ≤ j ∧ j < n + i + items.length then items[j - (n + i)]? else s[j]? := by
  induction items generalizing s i with
  | nil => rw [putItems, if_neg (by simp)]
  | cons a r ih =>
    simp only [List.length_cons] at h
    rw [putItems, ih _ _ (by rw [List.length_set]; omega), List.getElem?_set]
    by_cases h1 : n + i = j
    · rw [if_neg (by omega), if_pos h1, if_pos (by omega), if_pos (by simp; omega)]
      subst h1; simp
    · rw [if_neg h1]
      by_cases h2 : n + (i + 1) ≤ j ∧ j < n + (i + 1) + r.length
      · rw [if_pos h2, if_pos (by simp; omega)]
        have : j - (n + i) = (j - (n + (i + 1))) + 1 := by omega
        rw [this, List.getElem?_cons_succ]
      · rw [if_neg h2, if_neg (by simp; omega)]

theorem toVectorLoop_spec (src : List α) (ps : List (Nat × Nat)) (target : List α) (k : Nat)
    (hps : ∀ p ∈ ps, p.1 ≤ p.2 ∧ p.2 ≤ src.length)
    (hk : k + ((ps.map fun p => (src.drop p.1).take (p.2 - p.1)).flatten).length ≤ target.length) :
    ∃ r, toVectorLoop target k src ps = some r ∧ r.length = target.length ∧
      ∀ i, r[i]? = if k ≤ i ∧ i < k + ((ps.map fun p => (src.drop p.1).take (p.2 - p.1)).flatten).length then
        ((ps.map fun p => (src.drop p.1).take (p.2 - p.1)).flatten)[i - k]? else target[i]? := by
  induction ps generalizing target k with
  | nil => exact ⟨target, rfl, rfl, fun i => by rw [if_neg (by simp)]⟩
  | cons p ps ih =>
    obtain ⟨s, e⟩ := p
    have hse := hps (s, e) (by simp)
    simp only at hse
    have hl : ((src.drop s).take (e - s)).length = e - s := by simp; omega
    simp only [List.map_cons, List.flatten_cons, List.length_append, hl] at hk ⊢
    obtain ⟨t, h1, h2, h3⟩ := copyInto_some target k src s e (by omega)
    obtain ⟨r, h4, h5, h6⟩ := ih t (k + (e - s)) (fun p hp => hps p (by simp [hp])) (by omega)
    refine ⟨r, ?_, by omega, fun i => ?_⟩
    · rw [toVectorLoop, h1]; exact h4
    · rw [h6, h3]
      generalize hX : (List.map (fun p => List.take (p.2 - p.1) (List.drop p.1 src)) ps).flatten = X at *
      by_cases c1 : k ≤ i ∧ i < k + (e - s)
      · rw [if_neg (by omega), if_pos c1, if_pos (by omega), List.getElem?_append_left (by omega),
          List.getElem?_take, if_pos (by omega), List.getElem?_drop]
      · rw [if_neg c1]
        by_cases c2 : k + (e - s) ≤ i ∧ i < k + (e - s) + X.length
        · rw [if_pos c2, if_pos (by omega), List.getElem?_append_right (by omega), hl]
          congr 1; omega
        · rw [if_neg c2, if_neg (by omega)]

theorem subvectors_ok {rb : RB α} {l : List α} (h : Rep rb l) (s e : Nat) (hse : s ≤ e) (he : e ≤ l.length) :
    ∃ ps, subvectors rb s e = some ps ∧ (∀ p ∈ ps, p.1 ≤ p.2 ∧ p.2 ≤ rb.storage.length) ∧
      (ps.map fun p => (rb.storage.drop p.1).take (p.2 - p.1)).flatten = (l.take e).drop s := by
  have ht := rep_subvectors h s e
  rw [if_pos (by omega)] at ht
  unfold toVector at ht
  have hn := h.num; have hlen := h.len; have hpos := h.pos
  cases hsv : subvectors rb s e with
  | none => rw [hsv] at ht; cases ht
  | some ps =>
    rw [hsv] at ht
    simp only [Out.elts.injEq, Int.toNat_natCast] at ht
    refine ⟨ps, rfl, ?_, ht⟩
    unfold subvectors at hsv
    rw [if_pos (by omega)] at hsv
    by_cases h1 : (s : Int) = e
    · rw [if_pos h1] at hsv; cases hsv; simp
    · rw [if_neg h1] at hsv
      dsimp only at hsv
      have b1 : (((rb.head : Int) + (s : Int)) % (rb.cap : Int)).toNat < rb.cap := by
        rw [← Int.natCast_add, ← Int.natCast_emod]; exact Nat.mod_lt _ h.pos
      have b2 : (((rb.head : Int) + (e : Int)) % (rb.cap : Int)).toNat < rb.cap := by
        rw [← Int.natCast_add, ← Int.natCast_emod]; exact Nat.mod_lt _ h.pos
      split at hsv
      · cases hsv; simp; omega
      · split at hsv <;> cases hsv <;> simp <;> omega

theorem toVectorAt_spec {rb : RB α} {l : List α} (h : Rep rb l) (target : List α) (k s e : Nat) (hse : s ≤ e)
    (he : e ≤ l.length) (hk : k + (e - s) ≤ target.length) :
    ∃ r, toVectorAt target k rb s e = some r ∧ r.length = target.length ∧
      ∀ i, r[i]? = if k ≤ i ∧ i < k + (e - s) then l[s + (i - k)]? else target[i]? := by
  obtain ⟨ps, h1, h2, h3⟩ := subvectors_ok h s e hse he
  have hl : ((l.take e).drop s).length = e - s := by simp; omega
  obtain ⟨r, h4, h5, h6⟩ := toVectorLoop_spec rb.storage ps target k h2 (by rw [h3, hl]; exact hk)
  have hn := h.num
  refine ⟨r, ?_, h5, fun i => ?_⟩
  · unfold toVectorAt
    rw [if_pos (by omega), if_pos (by omega), h1]
    exact h4
  · rw [h6, h3, hl]
    by_cases c : k ≤ i ∧ i < k + (e - s)
    · rw [if_pos c, if_pos c, List.getElem?_drop, List.getElem?_take, if_pos (by omega)]
    · rw [if_neg c, if_neg c]

theorem insert_all_rep {rb : RB α} {l : List α} (h : Rep rb l) (n : Nat) (items nb : List α) (hn : n ≤ l.length)
    (hfull : rb.cap ≤ l.length + items.length) (hnb : l.length + items.length < nb.length) :
    (insertAll rb n items (some nb)).2 = .unit ∧
    Rep (insertAll rb n items (some nb)).1 (l.take n ++ items ++ l.drop n) ∧
    (insertAll rb n items (some nb)).1.cap = nb.length := by
  have hnum := h.num
  obtain ⟨t1, a1, a2, a3⟩ := toVectorAt_spec h nb 0 0 n (by omega) hn (by omega)
  obtain ⟨t2, b1, b2, b3⟩ := toVectorAt_spec h t1 (n + items.length) n l.length hn (by omega) (by omega)
  rw [Int.natCast_zero] at a1
  rw [Int.natCast_add, hnum] at b1
  unfold insertAll
  rw [if_pos (by omega)]
  dsimp only
  rw [if_pos (by omega), a1]
  dsimp only [Option.bind_some]
  rw [b1]
  dsimp only
  refine ⟨rfl, ⟨rfl, ?_, ?_, ?_, ?_, ?_, ?_⟩, by rw [length_putItems]; omega⟩ <;> dsimp only
  · rw [length_putItems]; omega
  · rw [length_putItems]; omega
  · rw [length_putItems]; omega
  · simp; omega
  · rw [length_putItems, Nat.zero_add, Nat.mod_eq_of_lt (by omega)]
  · intro i hi
    rw [length_putItems, Nat.zero_add, Nat.mod_eq_of_lt (by omega), Int.toNat_natCast,
      getElem_putItems _ _ _ _ (by omega), b3, a3]
    by_cases c1 : i < n
    · rw [if_neg (by omega), if_neg (by omega), if_pos (by omega), List.append_assoc,
        List.getElem?_append_left (by simp; omega), List.getElem?_take, if_pos c1]
      congr 1; omega
    · by_cases c2 : i < n + items.length
      · rw [if_pos (by omega), List.append_assoc, List.getElem?_append_right (by simp; omega),
          List.getElem?_append_left (by simp; omega)]
        congr 1; simp; omega
      · rw [if_neg (by omega), if_pos (by omega), List.getElem?_append_right (by simp; omega), List.getElem?_drop]
        congr 1; simp; omega

/-- **C38.**  When the capacity would be reached, `ring-buffer-insert-all!` inserts the items at the position, shifting the
rest, provided the room maker's storage has more cells than needed: whatever happened before and whatever is
done afterwards. -/
theorem C38_insert_all_grow (s : List α) (h t : Int) (rb : RB α) (e : make s h t = some rb) (os : List (Op α))
    (d : BDeque α) (hd : (BDeque.mk ((s.take t.toNat).drop h.toNat) s.length).exec os = some d)
    (n : Nat) (items nb : List α) (hn : n ≤ d.items.length) (hfull : d.cap ≤ d.items.length + items.length)
    (hnb : d.items.length + items.length < nb.length) :
    (insertAll (exec rb os) n items (some nb)).2 = .unit ∧
    ∀ os' r, (BDeque.mk (d.items.take n ++ items ++ d.items.drop n) nb.length).run os' = some r →
      run (insertAll (exec rb os) n items (some nb)).1 os' = r := by
  obtain ⟨a, b⟩ := rep_make e
  rw [← b] at hd
  obtain ⟨c1, c2⟩ := rep_exec a os hd
  obtain ⟨h1, h2, h3⟩ := insert_all_rep c1 n items nb hn (by omega) hnb
  refine ⟨h1, fun os' r hr => rep_run h2 os' ?_⟩
  rw [h3]; exact hr

end

/-! ### Negative findings on witnesses -/

/-- **C38, negative.**  Inserting 9 at index 1 of the buffer 1 2 3 with room for it gives 1 9 3. -/
theorem C38_bug_insert_all_loses : (make [1, 2, 3, 0, 0, 0] 0 3).map (fun rb =>
    run (insertAll rb 1 [9] none).1 [.toVector 0 3, .num]) = some [.elts [1, 9, 3], .int 3] := by decide +kernel

/-- **C38, negative.**  If the room maker returns a storage of exactly the needed size, then after removing the front
element there is room for one element, but adding it at the back is an error. -/
theorem C38_bug_insert_all_exact : (make [1, 2] 0 2).map (fun rb =>
    run (insertAll rb 2 [3] (some [0, 0, 0])).1 [.removeFront, .room, .addBack 4 .error]) =
      some [.elt 1, .int 1, .err] := by decide +kernel

/-! ### Examples: the hypotheses are met -/

/-- A buffer that wraps, overwrites and grows. -/
example : (make [1, 2, 3] 1 3).map (fun rb => run rb
    [.addBack 4 .error, .addBack 5 .overwrite, .toVector 0 3, .addFront 6 (.storage [0, 0, 0, 0]), .toVector 0 4, .removeBack,
      .removeFront, .ref 1 none, .addFront 7 .error, .full]) =
    some [.unit, .unit, .elts [3, 4, 5], .unit, .elts [6, 3, 4, 5], .elt 5, .elt 6, .elt 4, .unit, .bool false] := by
  decide +kernel
example : (BDeque.mk [2, 3] 3).run
    [.addBack 4 .error, .addBack 5 .overwrite, .toVector 0 3, .addFront 6 (.storage [0, 0, 0, 0]), .toVector 0 4, .removeBack,
      .removeFront, .ref 1 none, .addFront 7 .error, .full] =
    some [.unit, .unit, .elts [3, 4, 5], .unit, .elts [6, 3, 4, 5], .elt 5, .elt 6, .elt 4, .unit, .bool false] := by
  decide +kernel
/-- The representation predicate holds of a wrapped buffer. -/
example : Rep ⟨[3, 1, 2], 1, 1, 3, 3⟩ [1, 2, 3] :=
  ⟨rfl, by decide, by decide, by decide, rfl, rfl, by decide⟩

end Gauche.RingBuffer
