import Verif.Spec.Tr
namespace Gauche.Tr

theorem chars_length (s : Seg) : (chars s).length = s.size := by
  rw [chars]
  cases s.isRange <;> simp

theorem expand_cons (s : Seg) (r : List Seg) : expand (s :: r) = chars s ++ expand r := by rw [expand, List.flatMap_cons]; rfl

theorem chars_get (s : Seg) (i : Nat) (h : i < s.size) : (chars s)[i]? = if s.isRange then some (s.char + i) else some s.char := by
  rw [chars]
  cases s.isRange with
  | true => simp [h]
  | false => simp [List.getElem?_replicate, h]

theorem arrayRef_eq : ∀ (a : List Seg) (i : Nat), arrayRef a i = (expand a)[i]?
  | [], _ => rfl
  | s :: r, i => by
    rw [arrayRef, expand_cons]
    by_cases h : s.size ≤ i
    · rw [if_pos h, List.getElem?_append_right (by rw [chars_length]; exact h), chars_length]; exact arrayRef_eq r _
    · rw [if_neg h, List.getElem?_append_left (by rw [chars_length]; omega), chars_get s i (by omega)]

theorem splitSeg_eq (s : Seg) (i : Nat) (h : i < s.size) : chars (splitSeg s i).1 = (chars s).take i ∧ chars (splitSeg s i).2 = (chars s).drop i := by
  obtain ⟨n, c, r⟩ := s
  cases r with
  | false =>
    refine ⟨?_, ?_⟩
    · show List.replicate i c = (List.replicate n c).take i
      rw [List.take_replicate, Nat.min_eq_left (Nat.le_of_lt h)]
    · show List.replicate (n - i) c = (List.replicate n c).drop i
      rw [List.drop_replicate]
  | true =>
    dsimp only at h
    refine ⟨?_, ?_⟩
    · show (List.range i).map (c + ·) = ((List.range n).map (c + ·)).take i
      rw [← List.map_take, List.take_range, Nat.min_eq_left (Nat.le_of_lt h)]
    · show (List.range (n - i)).map (i + c + ·) = ((List.range n).map (c + ·)).drop i
      apply List.ext_getElem
      · simp
      · intro j h1 h2
        simp
        omega

theorem splitLoop_eq : ∀ (a : List Seg) (i : Nat), expand (splitLoop a i).1 = (expand a).take i ∧ expand (splitLoop a i).2 = (expand a).drop i
  | [], i => by simp [splitLoop, expand]
  | s :: r, i => by
    have hl := chars_length s
    rw [splitLoop, expand_cons]
    by_cases h : i < s.size
    · rw [if_pos h]
      obtain ⟨h1, h2⟩ := splitSeg_eq s i h
      refine ⟨?_, ?_⟩
      · rw [expand_cons, h1, List.take_append_of_le_length (by omega)]; simp [expand]
      · rw [expand_cons, h2, List.drop_append_of_le_length (by omega)]
    · rw [if_neg h]
      by_cases h1 : i = s.size
      · rw [if_pos h1]
        refine ⟨?_, ?_⟩
        · rw [expand_cons, h1, ← hl, List.take_left]; simp [expand]
        · rw [h1, ← hl, List.drop_left]
      · rw [if_neg h1]
        obtain ⟨h2, h3⟩ := splitLoop_eq r (i - s.size)
        refine ⟨?_, ?_⟩
        · rw [expand_cons, h2, List.take_append, hl, List.take_of_length_le (l := chars s) (by omega)]
        · rw [h3, List.drop_append, hl, List.drop_of_length_le (l := chars s) (by omega), List.nil_append]

theorem split_eq (a : List Seg) (i : Nat) : expand (split a i).1 = (expand a).take i ∧ expand (split a i).2 = (expand a).drop i := by
  rw [split]
  by_cases h : i = 0
  · rw [if_pos h, h, List.take_zero, List.drop_zero]; exact ⟨rfl, rfl⟩
  · rw [if_neg h]; exact splitLoop_eq a i

theorem entry_ne (o : Option Nat) : entryOf o ≠ .notIn := by cases o <;> simp [entryOf]

theorem image_append : ∀ (a b ts : List Nat) (i : Nat), image (a ++ b) ts i =
    if image a (ts.take a.length) i = .notIn then image b (ts.drop a.length) i else image a (ts.take a.length) i
  | [], b, ts, i => by simp [image]
  | f :: a, b, ts, i => by
    rw [List.cons_append, image, image]
    by_cases h : f = i
    · rw [if_pos h, if_pos h]
      have : (ts.take (f :: a).length).head? = ts.head? := by cases ts <;> simp
      rw [this, if_neg (entry_ne _)]
    · rw [if_neg h, if_neg h, image_append a b ts.tail i]
      have e1 : (ts.take (f :: a).length).tail = ts.tail.take a.length := by cases ts <;> simp
      have e2 : ts.drop (f :: a).length = ts.tail.drop a.length := by cases ts <;> simp
      rw [e1, e2]

theorem image_range (i : Nat) : ∀ (n c : Nat) (ts : List Nat), image (List.range' c n) ts i =
    if c ≤ i ∧ i < c + n then entryOf ts[i - c]? else .notIn
  | 0, c, ts => by rw [if_neg (by omega)]; rfl
  | n + 1, c, ts => by
    rw [List.range'_succ, image]
    by_cases h : c = i
    · rw [if_pos h, if_pos (by omega), h, Nat.sub_self]; cases ts <;> rfl
    · rw [if_neg h, image_range i n (c + 1) ts.tail]
      by_cases h1 : c ≤ i ∧ i < c + (n + 1)
      · rw [if_pos h1, if_pos (by omega), List.getElem?_tail, show i - (c + 1) + 1 = i - c by omega]
      · rw [if_neg h1, if_neg (by omega)]

theorem chars_range {s : Seg} (h : s.isRange = false → s.size = 1) : chars s = List.range' s.char s.size := by
  rw [chars]
  cases hr : s.isRange with
  | true => rw [if_pos rfl, List.range'_eq_map_range]
  | false => rw [h hr]; rfl

theorem fillVector_eq (to : List Seg) (i : Nat) : ∀ (n c cnt : Nat) (v : Nat → Entry), fillVector to n c cnt v i =
    if v i = .notIn then (if c ≤ i ∧ i < c + n then entryOf (expand to)[cnt + (i - c)]? else .notIn) else v i
  | 0, c, cnt, v => by
    rw [fillVector]
    by_cases h : v i = .notIn
    · rw [if_pos h, h, if_neg (by omega)]
    · rw [if_neg h]
  | n + 1, c, cnt, v => by
    rw [fillVector, fillVector_eq to i n]
    by_cases hi : i = c
    · rw [hi]
      by_cases hv : v c = .notIn
      · rw [if_pos hv, if_pos hv]
        rw [if_pos rfl, if_neg (entry_ne _), if_pos (by omega), arrayRef_eq, Nat.sub_self, Nat.add_zero]
      · rw [if_neg hv, if_neg hv, if_neg hv]
    · have hvi : (if v c = .notIn then fun i => if i = c then entryOf (arrayRef to cnt) else v i else v) i = v i := by
        by_cases hv : v c = .notIn
        · rw [if_pos hv]; exact if_neg hi
        · rw [if_neg hv]
      rw [hvi]
      by_cases hv : v i = .notIn
      · rw [if_pos hv, if_pos hv]
        by_cases h1 : c ≤ i ∧ i < c + (n + 1)
        · rw [if_pos h1, if_pos (by omega), show cnt + 1 + (i - (c + 1)) = cnt + (i - c) by omega]
        · rw [if_neg h1, if_neg (by omega)]
      · rw [if_neg hv, if_neg hv]

theorem sparse_cons (x y : Nat) (v : SVal) (r : List (Nat × Nat × SVal)) (i : Nat) : sparseRef ((x, y, v) :: r) i =
    if x ≤ i ∧ i < y then (match v with | .int n => .char (n + (i - x)) | .char c => .char c | .no => .noImage) else sparseRef r i := rfl

theorem sparse_nil (i : Nat) : sparseRef [] i = .notIn := rfl

theorem sparse_append (b : List (Nat × Nat × SVal)) (i : Nat) : ∀ a : List (Nat × Nat × SVal),
    sparseRef (a ++ b) i = if sparseRef a i = .notIn then sparseRef b i else sparseRef a i
  | [] => by rw [List.nil_append, sparse_nil, if_pos rfl]
  | (x, y, v) :: a => by
    rw [List.cons_append, sparse_cons, sparse_cons]
    by_cases h : x ≤ i ∧ i < y
    · rw [if_pos h, if_pos h]; cases v <;> simp
    · rw [if_neg h, if_neg h]; exact sparse_append b i a

theorem sparseElems_eq (i : Nat) : ∀ (to : List Seg) (c e : Nat), c + (expand to).length ≤ e →
    sparseRef (sparseElems to c e) i = if c ≤ i ∧ i < e then entryOf (expand to)[i - c]? else .notIn
  | [], c, e, h => by
    rw [sparseElems]
    by_cases hc : c < e
    · rw [if_pos hc, sparse_cons, sparse_nil]; simp [expand, entryOf]
    · rw [if_neg hc, sparse_nil, if_neg (by omega)]
  | s :: r, c, e, h => by
    have hl := chars_length s
    rw [expand_cons, List.length_append] at h
    rw [sparseElems, sparse_cons, expand_cons]
    by_cases h1 : c ≤ i ∧ i < c + s.size
    · rw [if_pos h1, if_pos (c := c ≤ i ∧ i < e) (by omega), List.getElem?_append_left (by omega), chars_get s _ (by omega)]
      cases s.isRange <;> rfl
    · rw [if_neg h1, sparseElems_eq i r (c + s.size) e (by omega)]
      by_cases h2 : c + s.size ≤ i ∧ i < e
      · rw [if_pos h2, if_pos (by omega), List.getElem?_append_right (by omega), hl, show i - (c + s.size) = i - c - s.size by omega]
      · rw [if_neg h2, if_neg (by omega)]

theorem fillTable_eq (i : Nat) : ∀ (fs to : List Seg) (t : Table), ValidFrom t.size fs →
    tableRef (fillTable t fs to) i = if tableRef t i = .notIn then image (expand fs) (expand to) i else tableRef t i
  | [], to, t, _ => by
    rw [fillTable]
    by_cases h : tableRef t i = .notIn
    · rw [if_pos h, h]; rfl
    · rw [if_neg h]
  | f :: fs, to, t, hv => by
    obtain ⟨hf1, hf2⟩ := hv f List.mem_cons_self
    obtain ⟨hs1, hs2⟩ := split_eq to f.size
    have hr : ValidFrom t.size fs := fun s hs => hv s (List.mem_cons_of_mem _ hs)
    have himg : image (chars f) ((expand to).take f.size) i =
        if f.char ≤ i ∧ i < f.char + f.size then entryOf ((expand to).take f.size)[i - f.char]? else .notIn := by
      rw [chars_range hf1, image_range]
    rw [fillTable, expand_cons, image_append, chars_length, ← hs2]
    -- the table after the first element
    have step : ∀ t' : Table, t'.size = t.size →
        (tableRef t' i = if tableRef t i = .notIn then image (chars f) ((expand to).take f.size) i else tableRef t i) →
        tableRef (fillTable t' fs (split to f.size).2) i = if tableRef t i = .notIn then
          (if image (chars f) ((expand to).take f.size) i = .notIn then image (expand fs) (expand (split to f.size).2) i
            else image (chars f) ((expand to).take f.size) i) else tableRef t i := by
      intro t' hsz ht'
      rw [fillTable_eq i fs _ t' (by rw [hsz]; exact hr), ht']
      by_cases h : tableRef t i = .notIn
      · rw [if_pos h, if_pos h]
      · rw [if_neg h, if_neg h, if_neg h]
    by_cases hc : f.char < t.size
    · rw [if_pos hc]
      refine step _ rfl ?_
      rw [himg, tableRef, tableRef]
      dsimp only
      by_cases hi : i < t.size
      · rw [if_pos hi, if_pos hi, fillVector_eq, hs1, Nat.zero_add]
      · rw [if_neg hi, if_neg hi, if_neg (c := _ ∧ _) (by have := hf2 hc; omega)]
        by_cases h : sparseRef t.sparse i = .notIn
        · rw [if_pos h, h]
        · rw [if_neg h]
    · rw [if_neg hc]
      refine step _ rfl ?_
      rw [himg, tableRef, tableRef]
      dsimp only
      by_cases hi : i < t.size
      · rw [if_pos hi, if_pos hi, if_neg (c := _ ∧ _) (by omega)]
        by_cases h : t.vector i = .notIn
        · rw [if_pos h, h]
        · rw [if_neg h]
      · rw [if_neg hi, if_neg hi, sparse_append, sparseElems_eq i _ _ _ (by rw [hs1, List.length_take]; omega), hs1, Nat.add_comm f.size]

/-! ## Complement -/

theorem addRange_eq (size a b : Nat) (h : a ≤ b + 1) : expand (addRange size a b) = List.range' a (b + 1 - a) := by
  rw [addRange]
  by_cases hc : a < size ∧ size ≤ b
  · rw [if_pos hc, expand_cons, expand_cons, chars_range (fun e => (by cases e)), chars_range (fun e => (by cases e))]
    have := List.range'_append_1 (s := a) (m := size - a) (n := b + 1 - size)
    rw [show a + (size - a) = size by omega, show size - a + (b + 1 - size) = b + 1 - a by omega] at this
    rw [← this]; simp [expand]
  · rw [if_neg hc, expand_cons, chars_range (fun e => (by cases e))]; simp [expand]

theorem addRange_valid (size a b : Nat) : ValidFrom size (addRange size a b) := by
  intro s hs
  rw [addRange] at hs
  by_cases hc : a < size ∧ size ≤ b
  · rw [if_pos hc] at hs
    rcases List.mem_cons.1 hs with rfl | hs
    · exact ⟨fun e => (by cases e), fun e => by dsimp only at e ⊢; omega⟩
    · rw [List.mem_singleton] at hs
      subst hs
      exact ⟨fun e => (by cases e), fun e => by dsimp only at e ⊢; omega⟩
  · rw [if_neg hc, List.mem_singleton] at hs
    subst hs
    exact ⟨fun e => (by cases e), fun e => by dsimp only at e ⊢; omega⟩

theorem complement_valid (size max : Nat) : ∀ (a : List Seg) (index : Nat), ValidFrom size (complement size max a index)
  | [], index => by
    rw [complement]
    by_cases h : index ≤ max
    · rw [if_pos h]; exact addRange_valid _ _ _
    · rw [if_neg h]; exact fun s hs => (by cases hs)
  | s :: r, index => by
    rw [complement]
    by_cases h : index < s.char
    · rw [if_pos h]
      intro x hx
      rcases List.mem_append.1 hx with hx | hx
      · exact addRange_valid _ _ _ x hx
      · exact complement_valid size max r _ x hx
    · rw [if_neg h]; exact complement_valid size max r _

theorem ascending_mem {max : Nat} : ∀ {a : List Seg} {index : Nat}, Ascending max index a → (∀ s ∈ a, s.isRange = false → s.size = 1) →
    ∀ x ∈ expand a, index ≤ x
  | [], _, _, _, _, hx => by cases hx
  | s :: r, index, h, hv, x, hx => by
    rw [expand_cons, chars_range (hv s List.mem_cons_self), List.mem_append, List.mem_range'_1] at hx
    rcases hx with hx | hx
    · exact Nat.le_trans h.1 hx.1
    · have := ascending_mem h.2.2.2 (fun s hs => hv s (List.mem_cons_of_mem _ hs)) x hx
      have := h.1
      omega

theorem complement_eq (size max : Nat) : ∀ (a : List Seg) (index : Nat), index ≤ max + 1 → Ascending max index a →
    (∀ s ∈ a, s.isRange = false → s.size = 1) →
    expand (complement size max a index) = (List.range' index (max + 1 - index)).filter (fun x => x ∉ expand a)
  | [], index, hi, _, _ => by
    rw [complement, List.filter_eq_self.2 (fun x _ => by simp [expand])]
    by_cases h : index ≤ max
    · rw [if_pos h, addRange_eq _ _ _ hi]
    · rw [if_neg h, show max + 1 - index = 0 by omega]; rfl
  | s :: r, index, hi, ha, hv => by
    obtain ⟨h1, h2, h3, h4⟩ := ha
    have hv' : ∀ s ∈ r, s.isRange = false → s.size = 1 := fun s hs => hv s (List.mem_cons_of_mem _ hs)
    have hc := chars_range (hv s List.mem_cons_self)
    have ih := complement_eq size max r (s.char + s.size) h3 h4 hv'
    have hr := ascending_mem h4 hv'
    -- the three parts
    have hsplit : List.range' index (max + 1 - index) = List.range' index (s.char - index) ++ (List.range' s.char s.size ++
        List.range' (s.char + s.size) (max + 1 - (s.char + s.size))) := by
      rw [List.range'_append_1, show s.size + (max + 1 - (s.char + s.size)) = max + 1 - s.char by omega]
      have := List.range'_append_1 (s := index) (m := s.char - index) (n := max + 1 - s.char)
      rw [show index + (s.char - index) = s.char by omega, show s.char - index + (max + 1 - s.char) = max + 1 - index by omega] at this
      exact this.symm
    have f1 : (List.range' index (s.char - index)).filter (fun x => x ∉ expand (s :: r)) = List.range' index (s.char - index) := by
      refine List.filter_eq_self.2 (fun x hx => ?_)
      rw [List.mem_range'_1] at hx
      rw [expand_cons, hc]
      refine decide_eq_true (fun hm => ?_)
      rcases List.mem_append.1 hm with hm | hm
      · rw [List.mem_range'_1] at hm; omega
      · have := hr x hm; omega
    have f2 : (List.range' s.char s.size).filter (fun x => x ∉ expand (s :: r)) = [] := by
      refine List.filter_eq_nil_iff.2 (fun x hx => ?_)
      have hm : x ∈ expand (s :: r) := by rw [expand_cons, hc]; exact List.mem_append_left _ hx
      simpa using hm
    have f3 : (List.range' (s.char + s.size) (max + 1 - (s.char + s.size))).filter (fun x => x ∉ expand (s :: r)) =
        (List.range' (s.char + s.size) (max + 1 - (s.char + s.size))).filter (fun x => x ∉ expand r) := by
      refine List.filter_congr (fun x hx => ?_)
      rw [List.mem_range'_1] at hx
      rw [expand_cons, hc]
      have : x ∉ List.range' s.char s.size := fun h => by rw [List.mem_range'_1] at h; omega
      simp only [List.mem_append, this, false_or]
    rw [hsplit, List.filter_append, List.filter_append, f1, f2, f3, List.nil_append, ← ih, complement]
    by_cases h : index < s.char
    · rw [if_pos h, expand, List.flatMap_append]
      show expand _ ++ expand _ = _
      rw [addRange_eq _ _ _ (by omega), show s.char - 1 + 1 - index = s.char - index by omega]
    · rw [if_neg h, show s.char - index = 0 by omega]; rfl

end Gauche.Tr
