import Verif.Proof.CTrieOps

/-! # Compact trie: iteration, copying, clearing, checking -/

namespace Gauche.CTrie

/-- The leaves at indices `i, i+1, …, i+n-1`. -/
def leavesFrom {β : Type} (r e : Nat) (es : List (Obj β)) : Nat → Nat → List (Leaf β)
  | _, 0 => []
  | i, n + 1 => leavesAt r e es i ++ leavesFrom r e es (i + 1) n

theorem leavesFrom_eq {β : Type} (r e : Nat) (es : List (Obj β)) : ∀ n i,
    leavesFrom r e es i n = (List.range' i n).flatMap (leavesAt r e es)
  | 0, i => rfl
  | n + 1, i => by
    rw [leavesFrom, leavesFrom_eq r e es n (i + 1), List.range'_succ, List.flatMap_cons]

theorem leaves_eq_from {β : Type} (r e m : Nat) (es : List (Obj β)) :
    leaves (r + 1) (.node e m es) = leavesFrom r e es 0 32 := by
  rw [leaves_succ, leavesFrom_eq, List.range_eq_range']

theorem leavesFrom_add {β : Type} (r e : Nat) (es : List (Obj β)) : ∀ a b i,
    leavesFrom r e es i (a + b) = leavesFrom r e es i a ++ leavesFrom r e es (i + a) b
  | 0, b, i => by simp [leavesFrom]
  | a + 1, b, i => by
    rw [show a + 1 + b = (a + b) + 1 by omega, leavesFrom, leavesFrom, leavesFrom_add r e es a b,
      List.append_assoc, show i + 1 + a = i + (a + 1) by omega]

theorem leaves_ne_nil {β : Type} : ∀ {r lv p : Nat} {e m : Nat} {es : List (Obj β)},
    WF r lv p (.node e m es) → e ≠ 0 → leaves r (.node e m es) ≠ []
  | 0, _, _, _, _, _, hw, _ => hw.elim
  | r + 1, lv, p, e, m, es, hw, hne => by
    obtain ⟨i, hi⟩ := exists_testBit hne
    have h32 := testBit_lt32 hw.ok.bound hi
    intro h
    rw [leaves_succ, List.flatMap_eq_nil_iff] at h
    have h1 := h i (List.mem_range.mpr h32)
    cases hw.cases i with
    | empty hb hc => rw [hi] at hb; cases hb
    | leaf l hb hc hm hk hp hii => rw [leavesAt_leaf hc] at h1; cases h1
    | node e' m' es' hb hc hm hw' hbig =>
      rw [leavesAt_node hc] at h1
      exact leaves_ne_nil hw' hbig.1 h1

/-! ## First, last, next -/

theorem nextLoop_over {β : Type} {r lv p e m : Nat} {es : List (Obj β)} {ind : Nat} {over : Bool}
    (sub : Obj β → Bool → Option (Option (Leaf β)))
    (hw : WF (r + 1) lv p (.node e m es))
    (hsub : ∀ i e' m' es', child e es i = some (.node e' m' es') →
      WF r (lv + 1) (p + i * 32 ^ lv) (.node e' m' es') →
      sub (.node e' m' es') true = some (leaves r (.node e' m' es')).head?) :
    ∀ n i, (over = true ∨ ind < i) →
      nextLoop sub e m es over ind i n = some (leavesFrom r e es i n).head?
  | 0, i, _ => rfl
  | n + 1, i, hov => by
    have ih := nextLoop_over sub hw hsub n (i + 1) (over := over) (ind := ind)
      (hov.imp id (fun h => by omega))
    rw [nextLoop, leavesFrom]
    cases hw.cases i with
    | empty hb hc => simp only [hb, ih, leavesAt_empty hc]; rfl
    | leaf l hb hc hm hk hp hii =>
      rw [leavesAt_leaf hc]
      rw [child_of_bit hb] at hc
      simp only [hb, hc, hm]
      rw [if_pos trivial, if_pos trivial, if_neg]
      · rfl
      · rcases hov with h | h
        · rw [h]; simp
        · have : (i == ind) = false := by rw [beq_eq_false_iff_ne]; omega
          rw [this, Bool.and_false]; decide
    | node e' m' es' hb hc hm hw' hbig =>
      have hs := hsub i e' m' es' hc hw'
      rw [leavesAt_node hc]
      rw [child_of_bit hb] at hc
      have hov' : (over || decide (i > ind)) = true := by
        rcases hov with h | h
        · rw [h]; rfl
        · rw [decide_eq_true (by omega), Bool.or_true]
      simp only [hb, hc, hm, hov', hs]
      rw [if_pos trivial, if_neg (by decide)]
      cases hl : leaves r (.node e' m' es') with
      | nil => exact absurd hl (leaves_ne_nil hw' hbig.1)
      | cons a t => rfl

theorem nextRec_over {β : Type} : ∀ {r lv p : Nat} {o : Obj β} (k : Nat), WF r lv p o →
    nextRec r o k lv true = some (leaves r o).head?
  | 0, _, _, _, _, hw => hw.elim
  | r + 1, lv, p, o, k, hw => by
    obtain ⟨e, m, es, rfl⟩ := hw.isNode
    rw [nextRec, leaves_eq_from]
    exact nextLoop_over _ hw (fun i e' m' es' _ hw' => nextRec_over k hw') 32 0 (Or.inl rfl)

theorem after_unique {α : Type} {l : α} : ∀ {post post2 : List α} (pre pre2 : List α),
    (pre ++ l :: post).Nodup → pre ++ l :: post = pre2 ++ l :: post2 → post = post2
  | _, _, [], [], _, h => (List.cons.inj h).2
  | post, post2, [], b :: pre2, hn, h => by
    obtain ⟨rfl, h2⟩ := List.cons.inj h
    rw [List.nil_append, List.nodup_cons] at hn
    exact absurd (h2 ▸ List.mem_append_right _ (List.mem_cons_self ..)) hn.1
  | post, post2, a :: pre, [], hn, h => by
    obtain ⟨rfl, h2⟩ := List.cons.inj h
    rw [List.cons_append, List.nodup_cons] at hn
    exact absurd (List.mem_append_right _ (List.mem_cons_self ..)) hn.1
  | post, post2, a :: pre, b :: pre2, hn, h =>
    after_unique pre pre2 (List.nodup_cons.mp hn).2 (List.cons.inj h).2

theorem nextRec_ok {β : Type} : ∀ {r lv p : Nat} {o : Obj β} {l : Leaf β}
    {pre post : List (Leaf β)}, WF r lv p o → p < 32 ^ lv → leaves r o = pre ++ l :: post →
    nextRec r o (leafKey l) lv false = some post.head?
  | 0, _, _, _, _, _, _, hw, _, _ => hw.elim
  | r + 1, lv, p, o, l, pre, post, hw, hp, hl => by
    obtain ⟨e, m, es, rfl⟩ := hw.isNode
    have hmem : l ∈ leaves (r + 1) (.node e m es) := by
      rw [hl]; exact List.mem_append_right _ (List.mem_cons_self ..)
    have hfind := (mem_leaves l hw hp).mp hmem
    have hnd : (leaves (r + 1) (.node e m es)).Nodup :=
      List.Nodup.of_map _ (nodup_leaves hw hp)
    have h32 := keyIndex_lt (leafKey l) lv
    have hsplit : leaves (r + 1) (.node e m es) =
        leavesFrom r e es 0 (keyIndex (leafKey l) lv) ++
        (leavesAt r e es (keyIndex (leafKey l) lv) ++
          leavesFrom r e es (keyIndex (leafKey l) lv + 1) (31 - keyIndex (leafKey l) lv)) := by
      rw [leaves_eq_from, show 32 = keyIndex (leafKey l) lv + (1 + (31 - keyIndex (leafKey l) lv)) by omega,
        leavesFrom_add, Nat.zero_add]
      congr 1
      rw [show 1 + (31 - keyIndex (leafKey l) lv) = (31 - keyIndex (leafKey l) lv) + 1 by omega, leavesFrom]
    -- in a list without repetitions, what follows `l` is determined
    have huniq : ∀ pre2 post2, leaves (r + 1) (.node e m es) = pre2 ++ l :: post2 → post2 = post := by
      intro pre2 post2 h
      rw [hl] at h hnd
      exact (after_unique pre pre2 hnd h).symm
    have hnext := fun sub h => nextLoop_over (ind := keyIndex (leafKey l) lv) (over := false) sub hw h
      (31 - keyIndex (leafKey l) lv) (keyIndex (leafKey l) lv + 1) (Or.inr (by omega))
    rw [nextRec]
    simp only [if_neg (show ¬ false = true by decide)]
    rw [show 32 - keyIndex (leafKey l) lv = (31 - keyIndex (leafKey l) lv) + 1 by omega, nextLoop]
    cases hw.cases (keyIndex (leafKey l) lv) with
    | empty hb hc => rw [find_empty hc] at hfind; cases hfind
    | leaf l0 hb hc hm hk hp' hi =>
      rw [find_leaf hc] at hfind
      by_cases h : leafKey l0 = leafKey l
      swap
      · rw [if_neg h] at hfind; cases hfind
      rw [if_pos h] at hfind; cases hfind
      rw [leavesAt_leaf hc] at hsplit
      have hu := huniq _ _ hsplit
      rw [child_of_bit hb] at hc
      simp only [hb, hc, hm]
      rw [if_pos trivial, if_pos trivial, if_pos (by simp)]
      rw [hnext _ (fun i e' m' es' _ hw' => nextRec_over _ hw')]
      rw [← hu]; rfl
    | node e' m' es' hb hc hm hw' hbig =>
      rw [find_node hc] at hfind
      have hmem' := (mem_leaves l hw' (prefix_lt hp h32)).mpr hfind
      obtain ⟨pre1, post1, h1⟩ := List.append_of_mem hmem'
      rw [leavesAt_node hc, h1] at hsplit
      have hu := huniq (leavesFrom r e es 0 (keyIndex (leafKey l) lv) ++ pre1) _
        (by rw [hsplit, List.append_assoc, List.append_assoc]; rfl)
      have ih := nextRec_ok hw' (prefix_lt hp h32) h1
      rw [child_of_bit hb] at hc
      simp only [hb, hc, hm]
      rw [if_pos trivial, if_neg (by decide)]
      have hov : (false || decide (keyIndex (leafKey l) lv > keyIndex (leafKey l) lv)) = false := by
        simp
      rw [hov, ih]
      rw [← hu]
      cases post1 with
      | cons a t => rfl
      | nil => exact hnext _ (fun i e' m' es' _ hw' => nextRec_over _ hw')

theorem lowestFrom_ok (w : Nat) : ∀ n i j, w.testBit j = true → i ≤ j → j < i + n →
    w.testBit (lowestFrom w i n) = true ∧ i ≤ lowestFrom w i n ∧
    ∀ x, i ≤ x → x < lowestFrom w i n → w.testBit x = false
  | 0, i, j, _, h1, h2 => by omega
  | n + 1, i, j, hj, h1, h2 => by
    rw [lowestFrom]
    cases hb : w.testBit i with
    | true => exact ⟨hb, le_refl _, fun x a b => by simp at b; omega⟩
    | false =>
      have hne : i ≠ j := fun h => by rw [h, hj] at hb; cases hb
      have ih := lowestFrom_ok w n (i + 1) j hj (by omega) (by omega)
      refine ⟨ih.1, by have := ih.2.1; simp; omega, fun x a b => ?_⟩
      by_cases hx : x = i
      · rw [hx]; exact hb
      · exact ih.2.2 x (by omega) b

theorem highestBelow_ok (w : Nat) : ∀ n j, w.testBit j = true → j < n →
    w.testBit (highestBelow w n) = true ∧ highestBelow w n < n ∧
    ∀ x, highestBelow w n < x → x < n → w.testBit x = false
  | 0, j, _, h => by omega
  | n + 1, j, hj, h => by
    rw [highestBelow]
    cases hb : w.testBit n with
    | true => exact ⟨hb, by simp, fun x a b => by simp at a; omega⟩
    | false =>
      have hne : n ≠ j := fun h => by rw [h, hj] at hb; cases hb
      have ih := highestBelow_ok w n j hj (by omega)
      refine ⟨ih.1, by have := ih.2.1; simp; omega, fun x a b => ?_⟩
      by_cases hx : x = n
      · rw [hx]; exact hb
      · exact ih.2.2 x a (by omega)

theorem leavesFrom_nil {β : Type} (r e : Nat) (es : List (Obj β)) : ∀ n i,
    (∀ x, i ≤ x → x < i + n → e.testBit x = false) → leavesFrom r e es i n = []
  | 0, _, _ => rfl
  | n + 1, i, h => by
    rw [leavesFrom, leavesAt_empty (child_none (h i (le_refl _) (by omega))),
      leavesFrom_nil r e es n (i + 1) (fun x a b => h x (by omega) (by omega))]
    rfl

theorem firstRec_ok {β : Type} : ∀ {r lv p : Nat} {o : Obj β}, WF r lv p o →
    firstRec r o = some (leaves r o).head?
  | 0, _, _, _, hw => hw.elim
  | r + 1, lv, p, o, hw => by
    obtain ⟨e, m, es, rfl⟩ := hw.isNode
    rw [firstRec, leaves_eq_from]
    by_cases h0 : e = 0
    · rw [if_pos h0, leavesFrom_nil]
      · rfl
      · intro x _ _; rw [h0, Nat.zero_testBit]
    · rw [if_neg h0]
      obtain ⟨j, hj⟩ := exists_testBit h0
      have hj32 := testBit_lt32 hw.ok.bound hj
      have hlow := lowestFrom_ok e 64 0 j hj (Nat.zero_le _) (by omega)
      generalize lowestFrom e 0 64 = i at hlow
      have hi32 := testBit_lt32 hw.ok.bound hlow.1
      have hsplit : leavesFrom r e es 0 32 =
          leavesAt r e es i ++ leavesFrom r e es (i + 1) (31 - i) := by
        rw [show 32 = i + ((31 - i) + 1) by omega, leavesFrom_add,
          leavesFrom_nil r e es i 0 (fun x a b => hlow.2.2 x a (by omega)), leavesFrom, Nat.zero_add]
        rw [List.nil_append]
      rw [hsplit]
      cases hw.cases i with
      | empty hb hc => rw [hlow.1] at hb; cases hb
      | leaf l hb hc hm hk hp hii =>
        rw [leavesAt_leaf hc]
        rw [child_of_bit hb] at hc
        simp only [hc, hm]; rfl
      | node e' m' es' hb hc hm hw' hbig =>
        have ih := firstRec_ok hw'
        rw [leavesAt_node hc]
        rw [child_of_bit hb] at hc
        simp only [hc, hm, ih]
        cases hl : leaves r (.node e' m' es') with
        | nil => exact absurd hl (leaves_ne_nil hw' hbig.1)
        | cons a t => rfl

theorem lastRec_ok {β : Type} : ∀ {r lv p : Nat} {o : Obj β}, WF r lv p o →
    lastRec r o = some (leaves r o).getLast?
  | 0, _, _, _, hw => hw.elim
  | r + 1, lv, p, o, hw => by
    obtain ⟨e, m, es, rfl⟩ := hw.isNode
    rw [lastRec, leaves_eq_from]
    by_cases h0 : e = 0
    · rw [if_pos h0, leavesFrom_nil]
      · rfl
      · intro x _ _; rw [h0, Nat.zero_testBit]
    · rw [if_neg h0]
      obtain ⟨j, hj⟩ := exists_testBit h0
      have hj32 := testBit_lt32 hw.ok.bound hj
      have hhi := highestBelow_ok e 64 j hj (by omega)
      generalize highestBelow e 64 = i at hhi
      have hi32 := testBit_lt32 hw.ok.bound hhi.1
      have hsplit : leavesFrom r e es 0 32 = leavesFrom r e es 0 i ++ leavesAt r e es i := by
        rw [show 32 = i + ((31 - i) + 1) by omega, leavesFrom_add, leavesFrom,
          leavesFrom_nil r e es _ (0 + i + 1) (fun x a b => hhi.2.2 x (by omega) (by omega)),
          Nat.zero_add, List.append_nil]
      rw [hsplit]
      cases hw.cases i with
      | empty hb hc => rw [hhi.1] at hb; cases hb
      | leaf l hb hc hm hk hp hii =>
        rw [leavesAt_leaf hc]
        rw [child_of_bit hb] at hc
        simp only [hc, hm]
        rw [if_pos trivial, List.getLast?_append]; rfl
      | node e' m' es' hb hc hm hw' hbig =>
        have ih := lastRec_ok hw'
        rw [leavesAt_node hc]
        rw [child_of_bit hb] at hc
        simp only [hc, hm, ih]
        rw [if_neg (by decide), List.getLast?_append]
        cases hl : (leaves r (.node e' m' es')).getLast? with
        | none => exact absurd (List.getLast?_eq_none_iff.mp hl) (leaves_ne_nil hw' hbig.1)
        | some a => rfl

/-! ## Clearing -/

theorem clearLoop_ok {β : Type} {r lv p e m : Nat} {es : List (Obj β)}
    (sub : Obj β → Option (List (Leaf β)))
    (hw : WF (r + 1) lv p (.node e m es))
    (hsub : ∀ i e' m' es', child e es i = some (.node e' m' es') →
      WF r (lv + 1) (p + i * 32 ^ lv) (.node e' m' es') →
      sub (.node e' m' es') = some (leaves r (.node e' m' es'))) :
    ∀ n i, clearLoop sub es (countBelow e i)
        (((List.range' i n).filter (fun i => e.testBit i)).map (fun i => m.testBit i)) =
      some (leavesFrom r e es i n)
  | 0, i => rfl
  | n + 1, i => by
    have ih := clearLoop_ok sub hw hsub n (i + 1)
    rw [List.range'_succ, leavesFrom]
    cases hw.cases i with
    | empty hb hc =>
      rw [List.filter_cons_of_neg (by simp [hb]), leavesAt_empty hc]
      have : countBelow e (i + 1) = countBelow e i := by simp [countBelow, hb]
      rw [this] at ih
      exact ih
    | leaf l hb hc hm hk hp hii =>
      rw [List.filter_cons_of_pos hb, leavesAt_leaf hc, List.map_cons, clearLoop]
      rw [child_of_bit hb] at hc
      have : countBelow e (i + 1) = countBelow e i + 1 := by simp [countBelow, hb]
      rw [this] at ih
      simp only [hc, hm, ih]; rfl
    | node e' m' es' hb hc hm hw' hbig =>
      have hs := hsub i e' m' es' hc hw'
      rw [List.filter_cons_of_pos hb, leavesAt_node hc, List.map_cons, clearLoop]
      rw [child_of_bit hb] at hc
      have : countBelow e (i + 1) = countBelow e i + 1 := by simp [countBelow, hb]
      rw [this] at ih
      simp only [hc, hm, hs, ih]; rfl

theorem clearRec_ok {β : Type} : ∀ {r lv p : Nat} {o : Obj β}, WF r lv p o →
    clearRec r o = some (leaves r o)
  | 0, _, _, _, hw => hw.elim
  | r + 1, lv, p, o, hw => by
    obtain ⟨e, m, es, rfl⟩ := hw.isNode
    rw [clearRec, leaves_eq_from, isLeafArray, List.range_eq_range']
    exact clearLoop_ok _ hw (fun i e' m' es' _ hw' => clearRec_ok hw') 32 0

/-! ## The consistency check -/

/-- The number of leaves that hang directly off a node, from index `i` on. -/
def directFrom (e m : Nat) : Nat → Nat → Nat
  | _, 0 => 0
  | i, n + 1 => (if e.testBit i && m.testBit i then 1 else 0) + directFrom e m (i + 1) n

theorem directFrom_pos (e m : Nat) : ∀ n i, 0 < directFrom e m i n → m ≠ 0
  | 0, i, h => by simp [directFrom] at h
  | n + 1, i, h => by
    rw [directFrom] at h
    cases hb : m.testBit i with
    | true => intro h0; rw [h0, Nat.zero_testBit] at hb; cases hb
    | false => rw [hb, Bool.and_false] at h; exact directFrom_pos e m n (i + 1) (by simpa using h)

theorem checkLoop_ok {β : Type} {r lv p e m : Nat} {es : List (Obj β)}
    (sub : Obj β → Option (Option Nat))
    (hw : WF (r + 1) lv p (.node e m es))
    (hsub : ∀ i e' m' es', child e es i = some (.node e' m' es') →
      WF r (lv + 1) (p + i * 32 ^ lv) (.node e' m' es') → Big (.node e' m' es') →
      sub (.node e' m' es') = some (some (leaves r (.node e' m' es')).length)) :
    ∀ n i dl tl, checkLoop sub e m es i n dl tl (countBelow e i) =
      some (some (dl + directFrom e m i n, tl + (leavesFrom r e es i n).length,
        countBelow e (i + n)))
  | 0, i, dl, tl => rfl
  | n + 1, i, dl, tl => by
    rw [checkLoop, leavesFrom, directFrom, show i + (n + 1) = i + 1 + n by omega]
    cases hw.cases i with
    | empty hb hc =>
      have ih := checkLoop_ok sub hw hsub n (i + 1) dl tl
      have : countBelow e (i + 1) = countBelow e i := by simp [countBelow, hb]
      rw [this] at ih
      simp [hb, ih, leavesAt_empty hc]
    | leaf l hb hc hm hk hp hii =>
      have ih := checkLoop_ok sub hw hsub n (i + 1) (dl + 1) (tl + 1)
      rw [leavesAt_leaf hc]
      rw [child_of_bit hb] at hc
      have : countBelow e (i + 1) = countBelow e i + 1 := by simp [countBelow, hb]
      rw [this] at ih
      simp only [hb, hc, hm, ih]
      simp; omega
    | node e' m' es' hb hc hm hw' hbig =>
      have hs := hsub i e' m' es' hc hw' hbig
      have ih := checkLoop_ok sub hw hsub n (i + 1) dl (tl + (leaves r (.node e' m' es')).length)
      rw [leavesAt_node hc]
      rw [child_of_bit hb] at hc
      have : countBelow e (i + 1) = countBelow e i + 1 := by simp [countBelow, hb]
      rw [this] at ih
      simp only [hb, hc, hm, hs, ih]
      simp; omega

theorem checkRec_ok {β : Type} : ∀ {r lv p : Nat} {e m : Nat} {es : List (Obj β)},
    WF r lv p (.node e m es) → e ≠ 0 → (lv > 0 → Big (.node e m es)) →
    checkRec r (.node e m es) lv = some (some (leaves r (.node e m es)).length)
  | 0, _, _, _, _, _, hw, _, _ => hw.elim
  | r + 1, lv, p, e, m, es, hw, hne, hbig => by
    have hl := checkLoop_ok (fun o => checkRec r o (lv + 1)) hw
      (fun i e' m' es' _ hw' hb' => checkRec_ok hw' hb'.1 (fun _ => hb')) 32 0 0 0
    rw [checkRec]
    rw [show countBelow e 0 = 0 from rfl] at hl
    rw [hl]
    have hc0 : countBelow e 32 ≠ 0 := by
      rw [← countBits_eq hw.ok.bound]
      exact fun h => hne ((countBits_zero_iff hw.ok.bound).mp h)
    simp only [Nat.zero_add]
    rw [if_neg hc0, if_neg, leaves_eq_from]
    rintro ⟨h1, h2, h3⟩
    have hb := hbig h3
    exact hb.2 ⟨by rw [countBits_eq hw.ok.bound]; exact h1, directFrom_pos e m 32 0 (by omega)⟩

/-! ## Copying -/

/-- The copy of an object. -/
def CopyOf {β : Type} (copy : Leaf β → Leaf β) (r lv p : Nat) (o o' : Obj β) : Prop :=
  WF r lv p o' ∧ (Big o → Big o') ∧ leaves r o' = (leaves r o).map copy ∧
  (∀ k, find r lv o' k = (find r lv o k).map copy) ∧
  ∃ e m es es', o = .node e m es ∧ o' = .node e m es'

theorem copyLoop_ok {β : Type} (copy : Leaf β → Leaf β) {r lv p e m : Nat} {es : List (Obj β)}
    (sub : Obj β → Option (Obj β))
    (hw : WF (r + 1) lv p (.node e m es))
    (hsub : ∀ i e' m' es', child e es i = some (.node e' m' es') →
      WF r (lv + 1) (p + i * 32 ^ lv) (.node e' m' es') →
      ∃ o, sub (.node e' m' es') = some o ∧
        CopyOf copy r (lv + 1) (p + i * 32 ^ lv) (.node e' m' es') o) :
    ∀ n i d, i + n = 32 → countBits e ≤ d.length →
      ∃ d', copyLoop copy sub e m es (countBits e) i (countBelow e i) n d = some d' ∧
        d'.length = d.length ∧ (∀ j, j < countBelow e i → d'[j]? = d[j]?) ∧
        ∀ j, i ≤ j → e.testBit j = true →
          (∃ l, child e es j = some (.leaf l) ∧ d'[countBelow e j]? = some (.leaf (copy l))) ∨
          (∃ e' m' es' o, child e es j = some (.node e' m' es') ∧ d'[countBelow e j]? = some o ∧
            CopyOf copy r (lv + 1) (p + j * 32 ^ lv) (.node e' m' es') o)
  | 0, i, d, hi, _ => by
    refine ⟨d, rfl, rfl, fun _ _ => rfl, fun j hj hb => ?_⟩
    have := testBit_lt32 hw.ok.bound hb
    omega
  | n + 1, i, d, hi, hd => by
    have hstep : countBelow e (i + 1) = countBelow e i + (if e.testBit i then 1 else 0) := rfl
    by_cases hlt : countBelow e i < countBits e
    swap
    · refine ⟨d, ?_, rfl, fun _ _ => rfl, fun j hj hb => ?_⟩
      · rw [copyLoop, if_neg hlt]
      · have h1 := countBelow_lt_countBits hw.ok.bound hb
        have h2 := countBelow_mono e hj
        omega
    · rw [copyLoop, if_pos hlt]
      cases hw.cases i with
      | empty hb hc =>
        obtain ⟨d', h1, h2, h3, h4⟩ := copyLoop_ok copy sub hw hsub n (i + 1) d (by omega) hd
        rw [hb, if_neg (by decide), Nat.add_zero] at hstep
        rw [hstep] at h1 h3
        refine ⟨d', ?_, h2, h3, fun j hj hbj => ?_⟩
        · simp only [hb]; exact h1
        · have : i ≠ j := fun h => by rw [h, hbj] at hb; cases hb
          exact h4 j (by omega) hbj
      | leaf l hb hc hm hk hp hii =>
        have hc' := hc
        rw [child_of_bit hb] at hc
        obtain ⟨d', h1, h2, h3, h4⟩ := copyLoop_ok copy sub hw hsub n (i + 1)
          (d.set (countBelow e i) (.leaf (copy l))) (by omega) (by rw [List.length_set]; exact hd)
        rw [hb, if_pos rfl] at hstep
        rw [hstep] at h1 h3
        rw [List.length_set] at h2
        refine ⟨d', ?_, h2, ?_, fun j hj hbj => ?_⟩
        · simp only [hb, hc, hm]
          rw [if_pos trivial, if_pos trivial]
          simp only [putAt_ok d (show countBelow e i < d.length by omega)]
          exact h1
        · intro j hj
          rw [h3 j (by omega), List.getElem?_set_ne (by omega)]
        · by_cases hij : j = i
          · subst hij
            left
            exact ⟨l, hc', by rw [h3 _ (by omega), List.getElem?_set_self (by omega)]⟩
          · exact h4 j (by omega) hbj
      | node e' m' es' hb hc hm hw' hbig =>
        have hc' := hc
        obtain ⟨o, hs, hcp⟩ := hsub i e' m' es' hc hw'
        rw [child_of_bit hb] at hc
        obtain ⟨d', h1, h2, h3, h4⟩ := copyLoop_ok copy sub hw hsub n (i + 1)
          (d.set (countBelow e i) o) (by omega) (by rw [List.length_set]; exact hd)
        rw [hb, if_pos rfl] at hstep
        rw [hstep] at h1 h3
        rw [List.length_set] at h2
        refine ⟨d', ?_, h2, ?_, fun j hj hbj => ?_⟩
        · simp only [hb, hc, hm]
          rw [if_pos trivial, if_neg (by decide)]
          simp only [hs, putAt_ok d (show countBelow e i < d.length by omega)]
          exact h1
        · intro j hj
          rw [h3 j (by omega), List.getElem?_set_ne (by omega)]
        · by_cases hij : j = i
          · subst hij
            right
            exact ⟨e', m', es', o, hc', by rw [h3 _ (by omega), List.getElem?_set_self (by omega)], hcp⟩
          · exact h4 j (by omega) hbj

theorem copyRec_ok {β : Type} (copy : Leaf β → Leaf β) (hcopy : ∀ l, leafKey (copy l) = leafKey l) :
    ∀ {r lv p : Nat} {o : Obj β}, WF r lv p o →
      ∃ o', copyRec copy r o = some o' ∧ CopyOf copy r lv p o o'
  | 0, _, _, _, hw => hw.elim
  | r + 1, lv, p, o, hw => by
    obtain ⟨e, m, es, rfl⟩ := hw.isNode
    have hml := length_makeEntries β (countBits e)
    obtain ⟨d, h1, h2, _, h4⟩ := copyLoop_ok copy (copyRec copy r) hw
      (fun i e' m' es' _ hw' => copyRec_ok copy hcopy hw') 32 0 (makeEntries β (countBits e))
      (by omega) (by omega)
    have hok : NodeOK e m d := ⟨hw.ok.bound, hw.ok.sub, by omega⟩
    -- the three cases of an index, side by side
    have hch : ∀ i, (child e es i = none ∧ child e d i = none) ∨
        (∃ l, child e es i = some (.leaf l) ∧ child e d i = some (.leaf (copy l))) ∨
        (∃ e' m' es' es2, child e es i = some (.node e' m' es') ∧
          child e d i = some (.node e' m' es2) ∧
          CopyOf copy r (lv + 1) (p + i * 32 ^ lv) (.node e' m' es') (.node e' m' es2)) := by
      intro i
      cases hb : e.testBit i with
      | false => exact Or.inl ⟨child_none hb, child_none hb⟩
      | true =>
        rcases h4 i (Nat.zero_le _) hb with ⟨l, ha, hbb⟩ | ⟨e', m', es', o, ha, hbb, hc⟩
        · exact Or.inr (Or.inl ⟨l, ha, by rw [child_of_bit hb]; exact hbb⟩)
        · obtain ⟨e1, m1, es1, es2, h5, h6⟩ := hc.2.2.2.2
          cases h5; subst h6
          exact Or.inr (Or.inr ⟨_, _, es', es2, ha, by rw [child_of_bit hb]; exact hbb, hc⟩)
    refine ⟨.node e m d, ?_, ?_, fun h => h, ?_, ?_, ⟨e, m, es, d, rfl, rfl⟩⟩
    · rw [copyRec]
      rw [show countBelow e 0 = 0 from rfl] at h1
      simp only [h1]
    · refine WF.intro hok (fun i => ?_)
      cases hw.cases i with
      | empty hb hc => exact .empty hb (child_none hb)
      | leaf l hb hc hm hk hp hii =>
        rcases hch i with ⟨a, _⟩ | ⟨l', a, b⟩ | ⟨e', m', es', es2, a, b, c⟩
        · rw [hc] at a; cases a
        · rw [hc] at a; cases a
          exact .leaf (copy l) hb b hm (by rw [hcopy]; exact hk) (by rw [hcopy]; exact hp)
            (by rw [hcopy]; exact hii)
        · rw [hc] at a; cases a
      | node e' m' es' hb hc hm hw' hbig =>
        rcases hch i with ⟨a, _⟩ | ⟨l', a, b⟩ | ⟨e1, m1, es1, es2, a, b, c⟩
        · rw [hc] at a; cases a
        · rw [hc] at a; cases a
        · rw [hc] at a; cases a
          exact .node _ _ es2 hb b hm c.1 (c.2.1 hbig)
    · rw [leaves_succ, leaves_succ, List.map_flatMap]
      congr 1
      funext i
      rcases hch i with ⟨a, b⟩ | ⟨l', a, b⟩ | ⟨e1, m1, es1, es2, a, b, c⟩
      · rw [leavesAt_empty a, leavesAt_empty b]; rfl
      · rw [leavesAt_leaf a, leavesAt_leaf b]; rfl
      · rw [leavesAt_node a, leavesAt_node b]; exact c.2.2.1
    · intro k
      rcases hch (keyIndex k lv) with ⟨a, b⟩ | ⟨l', a, b⟩ | ⟨e1, m1, es1, es2, a, b, c⟩
      · rw [find_empty a, find_empty b]; rfl
      · rw [find_leaf a, find_leaf b, hcopy]
        by_cases h : leafKey l' = k
        · rw [if_pos h, if_pos h]; rfl
        · rw [if_neg h, if_neg h]; rfl
      · rw [find_node a, find_node b]; exact c.2.2.2.1 k

end Gauche.CTrie
