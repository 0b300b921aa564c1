import Verif.Proof.Str

namespace Gauche.Str
open Gauche.Utf8 Gauche.Spec.Utf8

theorem holds_ofBytes (l : List Nat) : Holds (ofBytes l) l := by
  intro i h
  simp [ofBytes, List.getElem?_eq_getElem h]

theorem codes_append {xs ys : List Nat} (hx : ∀ c ∈ xs, IsCode c) (hy : ∀ c ∈ ys, IsCode c) :
    ∀ c ∈ xs ++ ys, IsCode c := by
  intro c hc
  rcases List.mem_append.1 hc with h | h
  · exact hx c h
  · exact hy c h

theorem append2_eq {x y : Body} {xs ys : List Nat} (hx : Is x xs) (hy : Is y ys) :
    ∃ r, append2 x y = some r ∧ Is r (xs ++ ys) ∧ r.index = none := by
  unfold append2
  rw [hx.complete, hy.complete]
  refine makeStr_is (codes_append hx.codes hy.codes) ?_ ?_ ?_
  · rw [hx.size, hy.size, blen_append]
  · rw [hx.len, hy.len]; simp
  · rw [encodeAll_append, holds_append]
    refine ⟨fun i hi => ?_, fun i hi => ?_⟩
    · have := hx.size
      dsimp only
      rw [if_pos (by unfold blen at this; omega)]
      exact hx.holds i hi
    · have h1 := hx.size
      have h2 := hy.size
      unfold blen at h1 h2
      dsimp only
      rw [if_neg (by omega), if_pos (by omega), h1, show (encodeAll xs).length + i - (encodeAll xs).length = i from by omega]
      exact hy.holds i hi

theorem map_mem_eq {b : Body} {cs : List Nat} (h : Is b cs) : (List.range b.size).map b.mem = encodeAll cs := by
  apply List.ext_getElem
  · rw [List.length_map, List.length_range, h.size]; rfl
  · intro i h1 h2
    rw [List.getElem_map, List.getElem_range]
    exact h.holds i h2

theorem AllIs.facts {bs : List Body} {css : List (List Nat)} (h : AllIs bs css) :
    (bs.map (·.size)).sum = blen css.flatten ∧ (bs.map (·.len)).sum = css.flatten.length ∧
      bs.any (·.incomplete) = false ∧ appendBytes bs = encodeAll css.flatten ∧
      (∀ c ∈ css.flatten, IsCode c) ∧ bs.length = css.length := by
  induction h with
  | nil => simp [appendBytes]
  | cons h t ih =>
    obtain ⟨i1, i2, i3, i4, i5, i6⟩ := ih
    refine ⟨?_, ?_, ?_, ?_, ?_, ?_⟩
    · simp only [List.map_cons, List.sum_cons, List.flatten_cons, blen_append, i1, h.size]
    · simp only [List.map_cons, List.sum_cons, List.flatten_cons, List.length_append, i2, h.len]
    · simp [h.complete]; simpa using i3
    · simp only [appendBytes, List.flatten_cons, encodeAll_append, i4, map_mem_eq h]
    · rw [List.flatten_cons]; exact codes_append h.codes i5
    · simp [i6]

theorem append_eq {bs : List Body} {css : List (List Nat)} (h : AllIs bs css) :
    ∃ r, append bs = some r ∧ Is r css.flatten ∧ r.index = none := by
  obtain ⟨i1, i2, i3, i4, i5, _⟩ := h.facts
  unfold append
  simp only [i1, i2, i3, i4]
  exact makeStr_is i5 rfl rfl (holds_ofBytes _)

theorem joinBytes_eq {bs : List Body} {css : List (List Nat)} (h : AllIs bs css) (d : List Nat) :
    joinBytes (encodeAll d) bs = encodeAll (List.intercalate d css) := by
  induction h with
  | nil => simp [joinBytes, List.intercalate]
  | cons h t ih =>
    cases t with
    | nil => simp [joinBytes, List.intercalate, map_mem_eq h]
    | cons h2 t2 =>
      rw [joinBytes, ih, map_mem_eq h]
      · simp [List.intercalate, encodeAll_append]
      · simp

theorem intercalate_length (d : List Nat) (css : List (List Nat)) :
    (List.intercalate d css).length = css.flatten.length + d.length * (css.length - 1) := by
  induction css with
  | nil => simp [List.intercalate]
  | cons a t ih =>
    cases t with
    | nil => simp [List.intercalate]
    | cons b t =>
      have e : List.intercalate d (a :: b :: t) = a ++ d ++ List.intercalate d (b :: t) := by
        simp [List.intercalate]
      rw [e]
      simp only [List.length_append, ih, List.flatten_cons, List.length_cons]
      have : d.length * (t.length + 1 + 1 - 1) = d.length * (t.length + 1 - 1) + d.length := by
        rw [show t.length + 1 + 1 - 1 = (t.length + 1 - 1) + 1 from by omega]; ring
      omega

theorem intercalate_blen (d : List Nat) (css : List (List Nat)) :
    blen (List.intercalate d css) = blen css.flatten + blen d * (css.length - 1) := by
  induction css with
  | nil => simp [List.intercalate]
  | cons a t ih =>
    cases t with
    | nil => simp [List.intercalate]
    | cons b t =>
      have e : List.intercalate d (a :: b :: t) = a ++ d ++ List.intercalate d (b :: t) := by
        simp [List.intercalate]
      rw [e]
      simp only [blen_append, ih, List.flatten_cons, List.length_cons]
      have : blen d * (t.length + 1 + 1 - 1) = blen d * (t.length + 1 - 1) + blen d := by
        rw [show t.length + 1 + 1 - 1 = (t.length + 1 - 1) + 1 from by omega]; ring
      omega

theorem codes_intercalate {d : List Nat} {css : List (List Nat)} (hd : ∀ c ∈ d, IsCode c)
    (h : ∀ c ∈ css.flatten, IsCode c) : ∀ c ∈ List.intercalate d css, IsCode c := by
  induction css with
  | nil => simp [List.intercalate]
  | cons a t ih =>
    cases t with
    | nil => simpa [List.intercalate] using h
    | cons b t =>
      have e : List.intercalate d (a :: b :: t) = a ++ d ++ List.intercalate d (b :: t) := by
        simp [List.intercalate]
      rw [e]
      refine codes_append (codes_append ?_ hd) (ih ?_)
      · intro c hc; exact h c (by simp [hc])
      · intro c hc; exact h c (by rw [List.flatten_cons]; exact List.mem_append_right _ hc)

theorem prefix_inter (d : List Nat) (a : List Nat) (t : List (List Nat)) :
    ((a :: t).map (d ++ ·)).flatten = d ++ List.intercalate d (a :: t) := by
  induction t generalizing a with
  | nil => simp [List.intercalate]
  | cons b t ih =>
    rw [List.map_cons, List.flatten_cons, ih]
    simp [List.intercalate]

theorem suffix_inter (d : List Nat) (a : List Nat) (t : List (List Nat)) :
    ((a :: t).map (· ++ d)).flatten = List.intercalate d (a :: t) ++ d := by
  induction t generalizing a with
  | nil => simp [List.intercalate]
  | cons b t ih =>
    rw [List.map_cons, List.flatten_cons, ih]
    simp [List.intercalate]

theorem join_eq {bs : List Body} {css : List (List Nat)} (h : AllIs bs css) {d : Body} {ds : List Nat} (hd : Is d ds)
    (g : Grammar) (hg : g = .strictInfix → css ≠ []) :
    ∃ r, join bs d g = some r ∧ Is r (joinSpec ds css g) ∧ r.index = none := by
  obtain ⟨i1, i2, i3, i4, i5, i6⟩ := h.facts
  unfold join
  cases css with
  | nil =>
    have : bs.length = 0 := by simpa using i6
    rw [if_pos this, if_neg (by intro e; exact hg e rfl)]
    have hs : joinSpec ds [] g = [] := by cases g <;> simp [joinSpec, List.intercalate]
    rw [hs]
    exact makeStr_is (by simp) rfl rfl (by simp)
  | cons a t =>
    rw [if_neg (by rw [i6]; simp)]
    simp only [map_mem_eq hd]
    simp only [i1, i2, i3, i6, joinBytes_eq h, hd.complete, hd.size, hd.len]
    have hib := intercalate_blen ds (a :: t)
    have hil := intercalate_length ds (a :: t)
    have hic := codes_intercalate hd.codes i5
    simp only [List.length_cons, Nat.add_sub_cancel] at hib hil ⊢
    cases g
    · simp only [joinSpec, true_or, if_true, Bool.or_false, reduceCtorEq, if_false, List.nil_append, List.append_nil]
      exact makeStr_is hic (by omega) (by rw [hil]) (holds_ofBytes _)
    · simp only [joinSpec, or_true, if_true, Bool.or_false, reduceCtorEq, if_false, List.nil_append, List.append_nil]
      exact makeStr_is hic (by omega) (by rw [hil]) (holds_ofBytes _)
    · rw [joinSpec, suffix_inter]
      simp only [or_self, if_true, Bool.or_false, reduceCtorEq, if_false, List.nil_append, ← encodeAll_append]
      refine makeStr_is (codes_append hic hd.codes) ?_ ?_ (holds_ofBytes _)
      · rw [blen_append, hib, Nat.mul_add, Nat.mul_one]; omega
      · rw [List.length_append, hil, Nat.mul_add, Nat.mul_one]; push_cast; omega
    · rw [joinSpec, prefix_inter]
      simp only [or_self, if_true, Bool.or_false, reduceCtorEq, if_false, List.append_nil, ← encodeAll_append]
      refine makeStr_is (codes_append hd.codes hic) ?_ ?_ (holds_ofBytes _)
      · rw [blen_append, hib, Nat.mul_add, Nat.mul_one]; omega
      · rw [List.length_append, hil, Nat.mul_add, Nat.mul_one]; push_cast; omega

theorem encodeAll_replicate (n c : Nat) (hc : IsCode c) :
    (List.replicate n (charPut c)).flatten = encodeAll (List.replicate n c) := by
  induction n with
  | zero => rfl
  | succ n ih => rw [List.replicate_succ, List.flatten_cons, ih, List.replicate_succ, encodeAll_cons, charPut_eq c hc]

theorem blen_replicate (n c : Nat) : blen (List.replicate n c) = nbytes c * n := by
  induction n with
  | zero => rfl
  | succ n ih => rw [List.replicate_succ, blen_cons, ih]; ring

theorem makeFill_eq (n c : Nat) (hc : IsCode c) :
    ∃ r, makeFillString n c = some r ∧ Is r (List.replicate n c) ∧ r.index = none := by
  unfold makeFillString
  rw [encodeAll_replicate n c hc]
  refine makeStr_is ?_ (blen_replicate n c).symm (by simp) (holds_ofBytes _)
  intro x hx
  rw [List.eq_of_mem_replicate hx]; exact hc

/-- `Scm_MakeString` with known size and length. -/
theorem makeString_is {cs : List Nat} {m : Mem} {siz len : Int} (hc : ∀ c ∈ cs, IsCode c)
    (hs : siz = blen cs) (hl : len = cs.length) (hm : Holds m (encodeAll cs)) :
    ∃ b, makeString m siz len false = some b ∧ Is b cs ∧ b.index = none := by
  unfold makeString
  subst hs hl
  rw [if_neg (by omega), if_neg (by omega)]
  exact makeStr_is hc (by simp) rfl hm

/-- `Scm_MakeString` with the length computed from the bytes. -/
theorem makeString_count {m : Mem} {siz : Nat} :
    (∃ cs, (∀ c ∈ cs, IsCode c) ∧ siz = blen cs ∧ Holds m (encodeAll cs) ∧
      ∃ b, makeString m siz (-1) false = some b ∧ Is b cs ∧ b.index = none) ∨
    ((¬ ∃ cs : List Nat, (∀ c ∈ cs, IsCode c) ∧ siz = blen cs ∧ Holds m (encodeAll cs)) ∧
      makeString m siz (-1) false = some ⟨m, siz, siz, true, none⟩) := by
  cases h : countLength m siz with
  | some n =>
    obtain ⟨cs, h1, h2, h3, h4⟩ := countLength_some m siz n h
    refine Or.inl ⟨cs, h1, h3.symm, h4, ?_⟩
    unfold makeString
    rw [if_neg (by omega), if_pos (by omega), Int.toNat_natCast, h]
    exact makeStr_is h1 h3.symm (by simp [h2]) h4
  | none =>
    refine Or.inr ⟨?_, ?_⟩
    · rintro ⟨cs, h1, h2, h3⟩
      rw [h2, countLength_holds cs h1 m h3] at h
      cases h
    · unfold makeString
      rw [if_neg (by omega), if_pos (by omega), Int.toNat_natCast, h]
      simp [makeStr]

theorem ltsCount_all (cs : List Nat) (size len : Nat) (mx : Int) (hmx : mx < 0) :
    ltsCount mx cs size len = (size + blen cs, len + cs.length) := by
  induction cs generalizing size len with
  | nil => simp [ltsCount]
  | cons c cs ih =>
    rw [ltsCount]
    rw [if_neg (by omega), ih, blen_cons, List.length_cons]
    congr 1 <;> omega

theorem ltsStore_all (cs : List Nat) (hc : ∀ c ∈ cs, IsCode c) (len : Nat) (mx : Int) (hmx : mx < 0) :
    ltsStore mx cs len = (encodeAll cs, len + cs.length) := by
  induction cs generalizing len with
  | nil => simp [ltsStore]
  | cons c cs ih =>
    rw [ltsStore]
    rw [if_neg (by omega), ih (fun x hx => hc x (by simp [hx])), encodeAll_cons, charPut_eq c (hc c (by simp)),
      List.length_cons]
    simp; omega

theorem ltsCount_lim (cs : List Nat) (size len : Nat) (mx : Nat) (hmx : len < mx) :
    ltsCount mx cs size len = (size + pos cs (mx - len), len + min cs.length (mx - len)) := by
  induction cs generalizing size len with
  | nil => simp [ltsCount, pos]
  | cons c cs ih =>
    rw [ltsCount]
    obtain ⟨k, hk⟩ : ∃ k, mx - len = k + 1 := ⟨mx - len - 1, by omega⟩
    simp only [hk, pos, List.take_succ_cons, blen_cons, List.length_cons]
    split
    · have : k = 0 := by omega
      subst this
      simp
    · rw [ih _ _ (by omega), show mx - (len + 1) = k from by omega]
      simp only [pos]
      congr 1 <;> omega

theorem ltsStore_lim (cs : List Nat) (hc : ∀ c ∈ cs, IsCode c) (len : Nat) (mx : Nat) (hmx : len < mx) :
    ltsStore mx cs len = (encodeAll (cs.take (mx - len)), len + min cs.length (mx - len)) := by
  induction cs generalizing len with
  | nil => simp [ltsStore]
  | cons c cs ih =>
    rw [ltsStore]
    obtain ⟨k, hk⟩ : ∃ k, mx - len = k + 1 := ⟨mx - len - 1, by omega⟩
    simp only [hk, List.take_succ_cons, encodeAll_cons, List.length_cons]
    split
    · have : k = 0 := by omega
      subst this
      simp [charPut_eq c (hc c (by simp))]
    · rw [ih (fun x hx => hc x (by simp [hx])) _ (by omega), show mx - (len + 1) = k from by omega,
        charPut_eq c (hc c (by simp))]
      simp; omega

theorem listToString_all (cs : List Nat) (hc : ∀ c ∈ cs, IsCode c) :
    ∃ r, listToStringFull cs 0 (-1) = some r ∧ Is r cs ∧ r.index = none := by
  unfold listToStringFull
  rw [if_neg (by omega), if_neg (by omega)]
  simp only [ne_eq, not_true, if_false]
  rw [ltsCount_all _ _ _ _ (by omega), ltsStore_all _ hc _ _ (by omega)]
  exact makeString_is hc (by simp) (by simp) (holds_ofBytes _)

/-- `list->string` with both limits, where it works. -/
theorem listToString_range (cs : List Nat) (hc : ∀ c ∈ cs, IsCode c) (s e : Nat) (hs : 0 < s) (hse : s < e)
    (he : e ≤ cs.length) :
    ∃ r, listToStringFull cs s e = some r ∧ Is r ((cs.drop s).take (e - s)) ∧ r.index = none := by
  unfold listToStringFull
  rw [if_neg (by omega), if_neg (by simp; omega)]
  have h0 : (s : Int) ≠ 0 := by omega
  simp only [ne_eq, h0, not_false_eq_true, if_true, Int.toNat_natCast]
  rw [show (e : Int) - s = ((e - s : Nat) : Int) from by omega, ltsCount_lim _ _ _ _ (by omega),
    ltsStore_lim _ (codes_drop hc s) _ _ (by omega)]
  refine makeString_is (codes_take (codes_drop hc s) _) ?_ ?_ (holds_ofBytes _)
  · simp [pos]
  · simp [Nat.min_comm]

theorem listToString_from (cs : List Nat) (hc : ∀ c ∈ cs, IsCode c) (s : Nat) (hs : s ≤ cs.length) :
    ∃ r, listToStringFull cs s (-1) = some r ∧ Is r (cs.drop s) ∧ r.index = none := by
  by_cases h0 : s = 0
  · subst h0; simpa using listToString_all cs hc
  unfold listToStringFull
  rw [if_neg (by omega), if_neg (by simp; omega)]
  have h0 : (s : Int) ≠ 0 := by omega
  simp only [ne_eq, h0, not_false_eq_true, if_true, Int.toNat_natCast]
  rw [ltsCount_all _ _ _ _ (by omega), ltsStore_all _ (codes_drop hc s) _ _ (by omega)]
  exact makeString_is (codes_drop hc s) (by simp) (by simp) (holds_ofBytes _)

/-! ## Comparison -/

theorem memcmp_eq_iff (p q : Mem) (n : Nat) : memcmp p q n = .eq ↔ ∀ i < n, p i = q i := by
  induction n generalizing p q with
  | zero => simp [memcmp]
  | succ n ih =>
    rw [memcmp]
    cases h : compare (p 0) (q 0) with
    | lt =>
      rw [Nat.compare_eq_lt] at h
      simp only [reduceCtorEq, false_iff]
      intro hcon; have := hcon 0 (by omega); omega
    | gt =>
      rw [Nat.compare_eq_gt] at h
      simp only [reduceCtorEq, false_iff]
      intro hcon; have := hcon 0 (by omega); omega
    | eq =>
      rw [Nat.compare_eq_eq] at h
      simp only [ih]
      constructor
      · intro h2 i hi
        cases i with
        | zero => exact h
        | succ i => have := h2 i (by omega); simpa [adv, Nat.add_comm] using this
      · intro h2 i hi
        have := h2 (1 + i) (by omega)
        simpa [adv] using this

theorem memcmp_holds (p q : Mem) (l k : List Nat) (h1 : Holds p l) (h2 : Holds q k) :
    (SLt l k → ∀ n, l.length ≤ n ∨ k.length ≤ n → (min l.length k.length = n) → memcmp p q n = .lt) ∧
    (SLt k l → ∀ n, (min l.length k.length = n) → memcmp p q n = .gt) := by
  induction l generalizing p q k with
  | nil => cases k <;> simp [SLt]
  | cons a l ih =>
    cases k with
    | nil => simp [SLt]
    | cons b k =>
      rw [holds_cons] at h1 h2
      have e1 : (fun i => p (i + 1)) = adv p 1 := by funext i; simp [adv, Nat.add_comm]
      have e2 : (fun i => q (i + 1)) = adv q 1 := by funext i; simp [adv, Nat.add_comm]
      rw [e1] at h1
      rw [e2] at h2
      obtain ⟨i1, i2⟩ := ih _ _ _ h1.2 h2.2
      refine ⟨?_, ?_⟩
      · intro hs n _ hn
        obtain ⟨n, rfl⟩ : ∃ m, n = m + 1 := ⟨n - 1, by simp at hn; omega⟩
        rw [memcmp, h1.1, h2.1]
        rcases hs with hs | ⟨rfl, hs⟩
        · rw [Nat.compare_eq_lt.2 hs]
        · rw [Nat.compare_eq_eq.2 rfl]
          exact i1 hs n (by simp at hn; omega) (by simp at hn; omega)
      · intro hs n hn
        obtain ⟨n, rfl⟩ : ∃ m, n = m + 1 := ⟨n - 1, by simp at hn; omega⟩
        rw [memcmp, h1.1, h2.1]
        rcases hs with hs | ⟨rfl, hs⟩
        · rw [Nat.compare_eq_gt.2 hs]
        · rw [Nat.compare_eq_eq.2 rfl]
          exact i2 hs n (by simp at hn; omega)

theorem stringEqual_eq {x y : Body} {xs ys : List Nat} (hx : Is x xs) (hy : Is y ys) :
    stringEqual x y = true ↔ xs = ys := by
  unfold stringEqual
  rw [hx.complete, hy.complete]
  simp only [bne_self_eq_false, Bool.false_eq_true, if_false]
  constructor
  · intro h
    split at h
    · cases h
    · rename_i hs
      rw [beq_iff_eq, memcmp_eq_iff] at h
      apply encodeAll_inj hx.codes hy.codes
      have h1 := map_mem_eq hx
      have h2 := map_mem_eq hy
      rw [← h1, ← h2, ← not_not.1 hs]
      apply List.map_congr_left
      intro i hi
      exact h i (List.mem_range.1 hi)
  · rintro rfl
    rw [if_neg (by rw [hx.size, hy.size]; simp), beq_iff_eq, memcmp_eq_iff]
    intro i hi
    have := hx.size
    unfold blen at this
    rw [hx.holds i (by omega), hy.holds i (by omega)]

theorem lexCmp_cases (xs ys : List Nat) (hx : ∀ c ∈ xs, IsCode c) (hy : ∀ c ∈ ys, IsCode c) :
    (lexCmp xs ys = .eq ∧ xs = ys) ∨
    (lexCmp xs ys = .lt ∧ (SLt (encodeAll xs) (encodeAll ys) ∨ ∃ t, t ≠ [] ∧ ys = xs ++ t)) ∨
    (lexCmp xs ys = .gt ∧ (SLt (encodeAll ys) (encodeAll xs) ∨ ∃ t, t ≠ [] ∧ xs = ys ++ t)) := by
  induction xs generalizing ys with
  | nil =>
    cases ys with
    | nil => simp [lexCmp]
    | cons b m => exact Or.inr (Or.inl ⟨rfl, Or.inr ⟨b :: m, by simp, by simp⟩⟩)
  | cons a l ih =>
    cases ys with
    | nil => exact Or.inr (Or.inr ⟨rfl, Or.inr ⟨a :: l, by simp, by simp⟩⟩)
    | cons b m =>
      rw [lexCmp]
      split
      · rename_i h
        refine Or.inr (Or.inl ⟨rfl, Or.inl ?_⟩)
        rw [encodeAll_cons, encodeAll_cons]
        exact (encode_slt (hy b (by simp)) h).append _ _
      · split
        · rename_i h
          refine Or.inr (Or.inr ⟨rfl, Or.inl ?_⟩)
          rw [encodeAll_cons, encodeAll_cons]
          exact (encode_slt (hx a (by simp)) h).append _ _
        · have e : a = b := by omega
          subst e
          rcases ih m (fun x h => hx x (by simp [h])) (fun x h => hy x (by simp [h])) with h | ⟨h1, h2⟩ | ⟨h1, h2⟩
          · left; exact ⟨h.1, by rw [h.2]⟩
          · right; left
            refine ⟨h1, ?_⟩
            rcases h2 with h2 | ⟨t, h2, rfl⟩
            · left; rw [encodeAll_cons, encodeAll_cons]; exact h2.app_left _
            · right; exact ⟨t, h2, by simp⟩
          · right; right
            refine ⟨h1, ?_⟩
            rcases h2 with h2 | ⟨t, h2, rfl⟩
            · left; rw [encodeAll_cons, encodeAll_cons]; exact h2.app_left _
            · right; exact ⟨t, h2, by simp⟩

theorem blen_pos {t : List Nat} (h : t ≠ []) : 0 < blen t := by
  have := len_le_blen t
  have := List.length_pos_iff.2 h
  omega

theorem stringCmp_eq {x y : Body} {xs ys : List Nat} (hx : Is x xs) (hy : Is y ys) :
    stringCmp x y = lexCmp xs ys := by
  have hsiz : (if x.size < y.size then x.size else y.size) = min (encodeAll xs).length (encodeAll ys).length := by
    rw [hx.size, hy.size]; unfold blen; split <;> omega
  unfold stringCmp
  rw [hsiz, hx.complete, hy.complete]
  dsimp only
  obtain ⟨m1, m2⟩ := memcmp_holds x.mem y.mem _ _ hx.holds hy.holds
  rcases lexCmp_cases xs ys hx.codes hy.codes with ⟨h1, rfl⟩ | ⟨h1, h2⟩ | ⟨h1, h2⟩ <;> rw [h1]
  · have : memcmp x.mem y.mem (min (encodeAll xs).length (encodeAll xs).length) = .eq := by
      rw [memcmp_eq_iff]
      intro i hi
      rw [hx.holds i (by omega), hy.holds i (by omega)]
    rw [this]
    simp [hx.size, hy.size]
  · rcases h2 with h2 | ⟨t, ht, rfl⟩
    · rw [m1 h2 _ (by omega) rfl]
    · have : memcmp x.mem y.mem (min (encodeAll xs).length (encodeAll (xs ++ t)).length) = .eq := by
        rw [memcmp_eq_iff]
        intro i hi
        rw [hx.holds i (by omega), hy.holds i (by omega)]
        simp only [encodeAll_append]
        rw [List.getElem_append_left]
      rw [this]
      have := blen_pos ht
      have e1 := hx.size
      have e2 := hy.size
      rw [blen_append] at e2
      simp only
      rw [if_neg (by omega), if_pos (by omega)]
  · rcases h2 with h2 | ⟨t, ht, rfl⟩
    · rw [m2 h2 _ rfl]
    · have : memcmp x.mem y.mem (min (encodeAll (ys ++ t)).length (encodeAll ys).length) = .eq := by
        rw [memcmp_eq_iff]
        intro i hi
        rw [hx.holds i (by omega), hy.holds i (by omega)]
        simp only [encodeAll_append]
        rw [List.getElem_append_left]
      rw [this]
      have := blen_pos ht
      have e1 := hx.size
      have e2 := hy.size
      rw [blen_append] at e1
      simp only
      rw [if_neg (by omega), if_neg (by omega)]

/-! ## Conversion to list, cursors -/

theorem toListLoop_eq {m : Mem} {cs : List Nat} (hc : ∀ c ∈ cs, IsCode c) (off : Nat)
    (h : Holds (adv m off) (encodeAll cs)) : toListLoop m off cs.length = some cs := by
  induction cs generalizing off with
  | nil => rfl
  | cons c cs ih =>
    have hh := holds_cons_code h
    rw [List.length_cons, toListLoop, charGet_encode c _ (hc c (by simp)) hh.1, Option.bind_some,
      ih (fun x hx => hc x (by simp [hx])) _ (by rw [← adv_adv]; exact hh.2)]
    rfl

theorem stringToList_eq {b : Body} {cs : List Nat} (h : Is b cs) : stringToList b = some cs := by
  unfold stringToList
  rw [h.complete, h.len]
  simp only [Bool.false_eq_true, if_false]
  exact toListLoop_eq h.codes 0 (by rw [adv_zero]; exact h.holds)

theorem cursorIndexLoop_eq {b : Body} {cs : List Nat} (h : Is b cs) (n k fuel : Nat) (hk : k ≤ n)
    (hn : n ≤ cs.length) (hf : n ≤ k + fuel) :
    cursorIndexLoop b.mem cs.length (pos cs n) fuel k (pos cs k) = (n, pos cs n) := by
  induction fuel generalizing k with
  | zero =>
    have : k = n := by omega
    subst this; rfl
  | succ fuel ih =>
    rw [cursorIndexLoop]
    by_cases hlt : k < n
    · rw [if_pos ⟨by omega, pos_lt cs hlt (by omega)⟩]
      have := fwd_pos b.mem cs h.codes h.holds k 1 (by omega)
      simp only [fwd] at this
      rw [this]
      exact ih (k + 1) (by omega) (by omega)
    · have : k = n := by omega
      subst this
      rw [if_neg (by omega)]

/-- Cursor to index, on the position of a character. -/
theorem cursorIndex_pos {b : Body} {cs : List Nat} (h : Is b cs) (n : Nat) (hn : n ≤ cs.length) :
    cursorIndex b (pos cs n) = some n := by
  unfold cursorIndex
  rw [if_neg (by rw [h.size]; have := pos_le cs n; omega)]
  split
  · rename_i hs
    rw [h.complete, Bool.or_false, singleByteP, beq_iff_eq, h.size, h.len] at hs
    rw [pos_single hs n hn]
  · have := cursorIndexLoop_eq h n 0 cs.length (by omega) hn (by omega)
    rw [pos_zero] at this
    rw [h.len, this]
    simp

theorem cursorFromIndex_eq {b : Body} {cs : List Nat} (h : Is b cs) (hix : IndexOK b) (hsz : b.size < 2 ^ 64) (n : Nat)
    (hn : n ≤ cs.length) :
    cursorFromIndex b n = if n = cs.length ∧ EndPanics b then none else some (pos cs n) := by
  unfold cursorFromIndex
  rw [h.len, if_neg (by omega), Int.toNat_natCast, index2ptr_eq h hix hsz n hn]
  split
  · rfl
  · rw [Option.bind_some, makeCursor, if_neg, Int.toNat_natCast]
    rw [h.size]; have := pos_le cs n; omega

theorem cursorForward_eq {b : Body} {cs : List Nat} (h : Is b cs) (k n : Nat) (hn : k + n ≤ cs.length) :
    cursorForward b (pos cs k) n = some (pos cs (k + n)) := by
  unfold cursorForward
  have h1 := pos_le cs k
  have h2 := pos_le cs (k + n)
  rw [h.size, if_neg (by omega), forwardPos_eq h k n hn, makeCursor, h.size, if_neg (by omega), Int.toNat_natCast]

theorem backLoop_eq {b : Body} {cs : List Nat} (h : Is b cs) (k n : Nat) (hk : k ≤ cs.length) (hn : n ≤ k) :
    backLoop b.mem (pos cs k) n = some (pos cs (k - n)) := by
  induction n generalizing k with
  | zero => simp [backLoop]
  | succ n ih =>
    obtain ⟨j, rfl⟩ : ∃ j, k = j + 1 := ⟨k - 1, by omega⟩
    have hj : j < cs.length := by omega
    have e : cs.take (j + 1) = cs.take j ++ [cs[j]] := by simp
    have hh := holds_take h.holds (j + 1)
    rw [e] at hh
    have := backward_encodeAll (cs.take j) cs[j] (codes_take h.codes j) (h.codes _ (List.getElem_mem hj)) b.mem hh
    rw [← e] at this
    rw [backLoop, show pos cs (j + 1) = (encodeAll (cs.take (j + 1))).length from rfl, this, Option.bind_some]
    have i := ih j (by omega) (by omega)
    rw [show (encodeAll (cs.take j)).length = pos cs j from rfl, i]
    congr 2; omega

theorem cursorBack_eq {b : Body} {cs : List Nat} (h : Is b cs) (k n : Nat) (hk : k ≤ cs.length) (hn : n ≤ k) :
    cursorBack b (pos cs k) n = some (pos cs (k - n)) := by
  unfold cursorBack
  have h1 := pos_le cs k
  have h2 := pos_le cs (k - n)
  rw [h.size, if_neg (by omega)]
  split
  · rename_i hs
    rw [h.complete, Bool.or_false, singleByteP, beq_iff_eq, h.size, h.len] at hs
    rw [pos_single hs k hk] at *
    rw [pos_single hs (k - n) (by omega)] at *
    rw [makeCursor, h.size, if_neg (by omega)]
    congr 1; omega
  · rw [backLoop_eq h k n hk hn, Option.bind_some, makeCursor, h.size, if_neg (by omega), Int.toNat_natCast]

theorem refCursor_eq {b : Body} {cs : List Nat} (h : Is b cs) (n : Nat) (hn : n < cs.length) :
    refCursor b (pos cs n) = some cs[n] := by
  unfold refCursor
  have := pos_lt cs (n := cs.length) hn hn
  rw [pos_len cs cs.length (by omega)] at this
  rw [h.complete, h.size]
  simp only [Bool.false_eq_true, if_false]
  rw [if_neg (by omega), if_neg (by omega), charGet_pos h.codes h.holds n hn]

theorem substringCursor_eq {b : Body} {cs : List Nat} (h : Is b cs) (s e : Nat) (hse : s ≤ e) (he : e ≤ cs.length) :
    ∃ r, substringCursor b (pos cs s) (pos cs e) = some r ∧ Is r ((cs.drop s).take (e - s)) ∧ r.index = none := by
  unfold substringCursor
  have h1 := pos_le cs s
  have h2 := pos_le cs e
  have h3 := pos_mono cs hse
  rw [h.size, if_neg (by omega), if_neg (by omega), if_neg (by omega)]
  rw [h.complete]
  have hc := codes_take (codes_drop h.codes s) (e - s)
  refine makeStr_is hc (blen_sub cs s e hse).symm ?_ (holds_sub h.holds s e)
  split
  · rename_i hs
    rw [singleByteP, beq_iff_eq, h.size, h.len] at hs
    rw [pos_single hs s (by omega), pos_single hs e (by omega)]
    simp; omega
  · have := countLength_holds _ hc _ (holds_sub h.holds s e)
    rw [blen_sub cs s e hse] at this
    rw [this]

end Gauche.Str
