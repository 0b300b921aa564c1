import Verif.Spec.GapBuffer
namespace Gauche.GapBuffer

/-- The buffer is `A`, the gap, `B`. -/
structure Rep (g : GB) (A B : List Nat) : Prop where
  pos : 0 < g.buf.length
  rep : ∃ G, g.buf = A ++ G ++ B ∧ g.gapStart = A.length ∧ g.gapEnd = A.length + G.length

theorem Rep.mk' (A G B : List Nat) (h : 0 < (A ++ G ++ B).length) : Rep ⟨A ++ G ++ B, A.length, A.length + G.length⟩ A B :=
  ⟨h, G, rfl, rfl, rfl⟩

/-- A buffer given by its three parts. -/
theorem Rep.cases {g : GB} {A B : List Nat} (h : Rep g A B) : ∃ G, g = ⟨A ++ G ++ B, A.length, A.length + G.length⟩ ∧ 0 < (A ++ G ++ B).length := by
  obtain ⟨hp, G, h1, h2, h3⟩ := h
  refine ⟨G, ?_, h1 ▸ hp⟩
  cases g; cases h1; cases h2; cases h3; rfl

theorem text_rep {g : GB} {A B : List Nat} (h : Rep g A B) : text g = ⟨A ++ B, A.length⟩ := by
  obtain ⟨G, rfl, _⟩ := h.cases
  rw [text]
  have h1 : (A ++ G ++ B).take A.length = A := by rw [List.append_assoc, List.take_left]
  have h2 : (A ++ G ++ B).drop (A.length + G.length) = B := by rw [← List.length_append, List.drop_left]
  dsimp only
  rw [h1, h2]

theorem len_rep {g : GB} {A B : List Nat} (h : Rep g A B) : contentLength g = A.length + B.length := by
  obtain ⟨G, rfl, _⟩ := h.cases
  rw [contentLength, size]
  simp only [List.length_append]
  omega

/-- A copy into the middle of a vector. -/
theorem vcopy_mid (X Y Z seg : List Nat) (h : Y.length = seg.length) : vcopy (X ++ Y ++ Z) X.length seg = X ++ seg ++ Z := by
  rw [vcopy, List.append_assoc X Y Z, List.take_left, ← h, ← List.append_assoc X Y Z, ← List.length_append, List.drop_left]

theorem slice_mid (X Y Z : List Nat) : slice (X ++ Y ++ Z) X.length (X.length + Y.length) = Y := by
  rw [slice, List.append_assoc, List.drop_left, Nat.add_sub_cancel_left, List.take_left]

/-- A list is two parts of given lengths. -/
theorem split_at (l : List Nat) (n : Nat) (h : n ≤ l.length) : ∃ a b, l = a ++ b ∧ a.length = n :=
  ⟨l.take n, l.drop n, (List.take_append_drop n l).symm, by rw [List.length_take]; omega⟩

/-! ## Moving -/

theorem move_left {A1 A2 G B : List Nat} (h : 0 < ((A1 ++ A2) ++ G ++ B).length) :
    Rep ⟨vcopy ((A1 ++ A2) ++ G ++ B) (A1.length + G.length) A2, A1.length, A1.length + G.length⟩ A1 (A2 ++ B) := by
  obtain ⟨G1, R, hG, hl⟩ := split_at (A2 ++ G) G.length (by rw [List.length_append]; omega)
  have hR : R.length = A2.length := by
    have := congrArg List.length hG
    simp only [List.length_append] at this
    omega
  have e : (A1 ++ A2) ++ G ++ B = (A1 ++ G1) ++ R ++ B := by
    rw [List.append_assoc A1, hG]; simp only [List.append_assoc]
  rw [e, show A1.length + G.length = (A1 ++ G1).length by rw [List.length_append, hl], vcopy_mid _ _ _ _ hR]
  refine ⟨?_, G1, by simp only [List.append_assoc], rfl, by rw [List.length_append]⟩
  simp only [List.length_append] at h ⊢
  omega

theorem move_right {A G B1 B2 : List Nat} (h : 0 < (A ++ G ++ (B1 ++ B2)).length) :
    Rep ⟨vcopy (A ++ G ++ (B1 ++ B2)) A.length B1, (A ++ B1).length, A.length + G.length + B1.length⟩ (A ++ B1) B2 := by
  obtain ⟨L, G1, hG, hl⟩ := split_at (G ++ B1) B1.length (by rw [List.length_append]; omega)
  have hG1 : G1.length = G.length := by
    have := congrArg List.length hG
    simp only [List.length_append] at this
    omega
  have e : A ++ G ++ (B1 ++ B2) = A ++ L ++ (G1 ++ B2) := by
    rw [show A ++ G ++ (B1 ++ B2) = A ++ ((G ++ B1) ++ B2) by simp only [List.append_assoc], hG]; simp only [List.append_assoc]
  rw [e, vcopy_mid _ _ _ _ hl]
  refine ⟨?_, G1, by simp only [List.append_assoc], rfl, by simp only [List.length_append, hG1]; omega⟩
  simp only [List.length_append] at h ⊢
  omega

theorem move_rep {g : GB} {A B : List Nat} (h : Rep g A B) (pos : Int) (w : Whence) :
    ∃ A' B', Rep (move g pos w).1 A' B' ∧ (⟨A' ++ B', A'.length⟩, (move g pos w).2) = textMove ⟨A ++ B, A.length⟩ pos w := by
  have hlen := len_rep h
  obtain ⟨G, rfl, hp⟩ := h.cases
  have e : absPos ⟨A ++ G ++ B, A.length, A.length + G.length⟩ pos w = textPos ⟨A ++ B, A.length⟩ pos w := by
    cases w with
    | beginning => rfl
    | current => rfl
    | fromEnd => rw [absPos, textPos, hlen, List.length_append]
  rw [move, textMove, e]
  dsimp only
  rw [show (((A ++ B).length : Nat) : Int) = ((A.length + B.length : Nat) : Int) by rw [List.length_append]]
  generalize textPos ⟨A ++ B, A.length⟩ pos w = p
  by_cases h1 : p < A.length
  · rw [if_pos h1]
    by_cases h2 : p < 0
    · rw [if_pos h2, if_neg (by omega)]
      exact ⟨A, B, h, rfl⟩
    · rw [if_neg h2, if_pos (by omega)]
      obtain ⟨A1, A2, rfl, hl⟩ := split_at A p.toNat (by omega)
      refine ⟨A1, A2 ++ B, ?_, by rw [hl, ← List.append_assoc A1 A2 B]⟩
      have e1 : (A1 ++ A2).length + G.length - ((A1 ++ A2).length - p.toNat) = A1.length + G.length := by rw [← hl, List.length_append]; omega
      have e2 : slice ((A1 ++ A2) ++ G ++ B) p.toNat (A1 ++ A2).length = A2 := by
        rw [← hl, List.length_append, show (A1 ++ A2) ++ G ++ B = A1 ++ A2 ++ (G ++ B) by simp only [List.append_assoc], slice_mid]
      rw [e1, e2, ← hl]
      exact move_left hp
  · rw [if_neg h1]
    by_cases h2 : p > A.length
    · rw [if_pos h2]
      have hsz : size ⟨A ++ G ++ B, A.length, A.length + G.length⟩ = A.length + G.length + B.length := by
        rw [size]; simp only [List.length_append]
      rw [hsz]
      by_cases h3 : A.length + G.length + (p.toNat - A.length) > A.length + G.length + B.length
      · rw [if_pos h3, if_neg (by omega)]
        exact ⟨A, B, h, rfl⟩
      · rw [if_neg h3, if_pos (by omega)]
        obtain ⟨B1, B2, rfl, hl⟩ := split_at B (p.toNat - A.length) (by omega)
        have e0 : p.toNat = (A ++ B1).length := by rw [List.length_append]; omega
        refine ⟨A ++ B1, B2, ?_, by rw [← e0, List.append_assoc]⟩
        have e2 : slice (A ++ G ++ (B1 ++ B2)) (A.length + G.length) (A.length + G.length + B1.length) = B1 := by
          rw [← List.append_assoc (A ++ G), ← List.length_append, slice_mid]
        rw [← hl, e2, e0]
        exact move_right hp
    · rw [if_neg h2, if_pos (by omega)]
      exact ⟨A, B, h, by rw [show p.toNat = A.length by omega]⟩

/-! ## Changes -/

theorem extend_rep {A G B : List Nat} (hp : 0 < (A ++ G ++ B).length) :
    ∃ G', extend ⟨A ++ G ++ B, A.length, A.length + G.length⟩ = ⟨A ++ G' ++ B, A.length, A.length + G'.length⟩ ∧ G.length < G'.length := by
  refine ⟨List.replicate (G.length + (A ++ G ++ B).length) 0, ?_, by rw [List.length_replicate]; omega⟩
  rw [extend]
  dsimp only
  have e1 : slice (A ++ G ++ B) 0 A.length = A := by
    rw [slice, List.drop_zero, Nat.sub_zero, List.append_assoc, List.take_left]
  have e2 : (A ++ G ++ B).drop (A.length + G.length) = B := by rw [← List.length_append, List.drop_left]
  have e3 : vcopy (List.replicate (2 * (A ++ G ++ B).length) 0) 0 A =
      (A ++ List.replicate (G.length + (A ++ G ++ B).length) 0) ++ List.replicate B.length 0 ++ [] := by
    have : List.replicate (2 * (A ++ G ++ B).length) 0 = [] ++ List.replicate A.length 0 ++
        (List.replicate (G.length + (A ++ G ++ B).length) 0 ++ List.replicate B.length 0) := by
      rw [List.nil_append, List.replicate_append_replicate, List.replicate_append_replicate]
      congr 1
      simp only [List.length_append]
      omega
    rw [this]
    refine (vcopy_mid [] _ _ A (by rw [List.length_replicate])).trans ?_
    simp only [List.append_assoc, List.nil_append, List.append_nil]
  have e4 : A.length + G.length + (A ++ G ++ B).length = (A ++ List.replicate (G.length + (A ++ G ++ B).length) 0).length := by
    simp only [List.length_append, List.length_replicate]; omega
  rw [e1, e2, e3, e4, vcopy_mid _ _ _ _ (by rw [List.length_replicate]), List.append_nil]
  congr 1
  rw [List.length_append]

theorem insertLoop_rep {B str : List Nat} (A : List Nat) : ∀ (fuel : Nat) (G : List Nat), 0 < (A ++ G ++ B).length → str.length ≤ G.length + fuel →
    Rep (insertLoop fuel ⟨A ++ G ++ B, A.length, A.length + G.length⟩ str) (A ++ str) B := by
  have fits : ∀ G : List Nat, 0 < (A ++ G ++ B).length → str.length ≤ G.length →
      Rep ⟨vcopy (A ++ G ++ B) A.length str, A.length + str.length, A.length + G.length⟩ (A ++ str) B := by
    intro G hp hle
    obtain ⟨G1, G2, rfl, hl⟩ := split_at G str.length hle
    rw [show A ++ (G1 ++ G2) ++ B = A ++ G1 ++ (G2 ++ B) by simp only [List.append_assoc], vcopy_mid _ _ _ _ hl]
    refine ⟨?_, G2, by simp only [List.append_assoc], by simp only [List.length_append], by simp only [List.length_append]; omega⟩
    simp only [List.length_append] at hp ⊢
    omega
  intro fuel
  induction fuel with
  | zero => exact fun G hp hle => fits G hp hle
  | succ fuel ih =>
    intro G hp hle
    rw [insertLoop]
    dsimp only
    rw [Nat.add_sub_cancel_left]
    by_cases h : G.length < str.length
    · rw [if_pos h]
      obtain ⟨G', he, hlt⟩ := extend_rep hp
      rw [he]
      refine ih G' ?_ (by omega)
      simp only [List.length_append] at hp ⊢
      omega
    · rw [if_neg h]
      exact fits G hp (by omega)

theorem insert_rep {g : GB} {A B : List Nat} (h : Rep g A B) (str : List Nat) : Rep (insert g str) (A ++ str) B := by
  obtain ⟨G, rfl, hp⟩ := h.cases
  exact insertLoop_rep A str.length G hp (by omega)

theorem delete_rep {g : GB} {A B : List Nat} (h : Rep g A B) (n : Nat) :
    (n ≤ B.length → (delete g n).2 = true ∧ Rep (delete g n).1 A (B.drop n)) ∧ (¬ n ≤ B.length → delete g n = (g, false)) := by
  obtain ⟨G, rfl, hp⟩ := h.cases
  have hsz : size ⟨A ++ G ++ B, A.length, A.length + G.length⟩ = A.length + G.length + B.length := by
    rw [size]; simp only [List.length_append]
  rw [delete, hsz]
  dsimp only
  refine ⟨fun hn => ?_, fun hn => ?_⟩
  · rw [if_neg (by omega)]
    obtain ⟨B1, B2, rfl, hl⟩ := split_at B n hn
    refine ⟨rfl, ?_⟩
    rw [← hl, List.drop_left]
    exact ⟨hp, G ++ B1, by simp only [List.append_assoc], rfl, by simp only [List.length_append]; omega⟩
  · rw [if_pos (by omega)]

theorem text_replace (A B : List Nat) (n : Nat) (str : List Nat) : textReplace ⟨A ++ B, A.length⟩ n str =
    if n ≤ B.length then (⟨(A ++ str) ++ B.drop n, (A ++ str).length⟩, true) else (⟨A ++ B, A.length⟩, false) := by
  rw [textReplace]
  dsimp only
  by_cases h : n ≤ B.length
  · rw [if_pos h, if_pos (by rw [List.length_append]; omega), List.take_left, List.drop_append, List.drop_of_length_le (by omega),
      List.nil_append, Nat.add_sub_cancel_left, List.length_append]
  · rw [if_neg h, if_neg (by rw [List.length_append]; omega)]

theorem replace_rep {g : GB} {A B : List Nat} (h : Rep g A B) (n : Nat) (str : List Nat) :
    (n ≤ B.length → (replace g n str).2 = true ∧ Rep (replace g n str).1 (A ++ str) (B.drop n)) ∧
    (¬ n ≤ B.length → replace g n str = (g, false)) := by
  have hd := delete_rep h n
  rw [replace]
  refine ⟨fun hn => ?_, fun hn => ?_⟩
  · rw [if_pos (hd.1 hn).1]
    exact ⟨rfl, insert_rep (hd.1 hn).2 str⟩
  · rw [hd.2 hn]; rfl

/-! ## Reading -/

theorem get_rep {A G B : List Nat} (i : Nat) (hi : i < A.length + B.length) :
    (A ++ G ++ B)[if i < A.length then i else i + G.length]? = (A ++ B)[i]? := by
  by_cases h : i < A.length
  · rw [if_pos h, List.append_assoc, List.getElem?_append_left h, List.getElem?_append_left h]
  · rw [if_neg h, List.getElem?_append_right (by rw [List.length_append]; omega), List.getElem?_append_right (by omega), List.length_append]
    congr 1
    omega

theorem index_rep {A G B : List Nat} (i : Nat) : index ⟨A ++ G ++ B, A.length, A.length + G.length⟩ i = if i < A.length then i else i + G.length := by
  rw [index]; dsimp only; rw [Nat.add_sub_cancel_left]

theorem ref_rep {g : GB} {A B : List Nat} (h : Rep g A B) (i : Int) : ref g i = if i < 0 then none else (A ++ B)[i.toNat]? := by
  have hlen := len_rep h
  obtain ⟨G, rfl, hp⟩ := h.cases
  rw [ref, hlen]
  dsimp only
  by_cases h0 : i < 0
  · rw [if_pos h0, if_pos h0]
  · rw [if_neg h0, if_neg h0]
    by_cases h1 : i < A.length
    · rw [if_pos h1, ← get_rep (A := A) (B := B) (G := G) i.toNat (by omega), if_pos (by omega)]
    · rw [if_neg h1]
      by_cases h2 : i < ((A.length + B.length : Nat) : Int)
      · rw [if_pos h2, ← get_rep (A := A) (B := B) (G := G) i.toNat (by omega), if_neg (by omega), Nat.add_sub_cancel_left]
      · rw [if_neg h2, List.getElem?_eq_none (by rw [List.length_append]; omega)]

theorem gen_rep {A G B : List Nat} : ∀ (count i : Nat), i + count ≤ A.length + B.length →
    genLoop ⟨A ++ G ++ B, A.length, A.length + G.length⟩ count i = ((A ++ B).drop i).take count
  | 0, _, _ => by rw [genLoop, List.take_zero]
  | count + 1, i, h => by
    have ih := gen_rep (A := A) (G := G) (B := B) count (i + 1) (by omega)
    have hlt : i < (A ++ B).length := by rw [List.length_append]; omega
    have hg := get_rep (A := A) (G := G) (B := B) i (by omega)
    rw [List.drop_eq_getElem_cons hlt, List.take_succ_cons, ← ih, genLoop]
    rw [List.getElem?_eq_getElem hlt] at hg
    dsimp only
    rw [Nat.add_sub_cancel_left]
    by_cases h1 : i < A.length
    · rw [if_pos h1] at hg
      rw [if_pos h1, List.getD_eq_getElem?_getD, hg]; rfl
    · rw [if_neg h1] at hg
      rw [if_neg h1, if_pos (by rw [size]; simp only [List.length_append]; omega), List.getD_eq_getElem?_getD, hg]; rfl

theorem toString_rep {g : GB} {A B : List Nat} (h : Rep g A B) (start : Nat) (stop : Option Nat) :
    toString g start stop = if min (A ++ B).length (stop.getD (A ++ B).length) < start then none
      else some (((A ++ B).drop start).take (min (A ++ B).length (stop.getD (A ++ B).length) - start)) := by
  have hlen := len_rep h
  obtain ⟨G, rfl, hp⟩ := h.cases
  rw [toString.eq_def, hlen, List.length_append]
  cases stop with
  | none =>
    dsimp only
    rw [Option.getD_none, Nat.min_self]
    by_cases hc : A.length + B.length < start
    · rw [if_pos hc, if_pos hc]
    · rw [if_neg hc, if_neg hc, gen_rep _ _ (by omega)]
  | some e =>
    dsimp only
    rw [Option.getD_some]
    by_cases hc : min (A.length + B.length) e < start
    · rw [if_pos hc, if_pos hc]
    · rw [if_neg hc, if_neg hc, gen_rep _ _ (by omega)]

theorem match_rep {A G B : List Nat} : ∀ (needle : List Nat) (i : Nat), i + needle.length ≤ A.length + B.length →
    (matchFrom ⟨A ++ G ++ B, A.length, A.length + G.length⟩ needle (if i < A.length then i else i + G.length) = true ↔
      ((A ++ B).drop i).take needle.length = needle)
  | [], i, _ => by rw [matchFrom, List.length_nil, List.take_zero]; exact ⟨fun _ => rfl, fun _ => rfl⟩
  | c :: cs, i, h => by
    rw [List.length_cons] at h
    have hlt : i < (A ++ B).length := by rw [List.length_append]; omega
    have ih := match_rep (A := A) (G := G) (B := B) cs (i + 1) (by omega)
    rw [List.drop_eq_getElem_cons hlt, List.length_cons, List.take_succ_cons, matchFrom]
    dsimp only
    rw [get_rep i (by omega), List.getElem?_eq_getElem hlt]
    have e : (if (if i < A.length then i else i + G.length) + 1 = A.length then A.length + G.length
        else (if i < A.length then i else i + G.length) + 1) = if i + 1 < A.length then i + 1 else i + 1 + G.length := by
      by_cases h1 : i < A.length
      · rw [if_pos h1]
        by_cases h2 : i + 1 = A.length
        · rw [if_pos h2, if_neg (by omega)]; omega
        · rw [if_neg h2, if_pos (by omega)]
      · rw [if_neg h1, if_neg (by omega), if_neg (by omega)]; omega
    rw [e]
    by_cases hc : (A ++ B)[i] = c
    · rw [if_pos (congrArg some hc), ih, hc]
      exact ⟨fun h => by rw [h], fun h => (List.cons.inj h).2⟩
    · rw [if_neg (fun h => hc (Option.some.inj h))]
      exact ⟨fun h => (by cases h), fun h => absurd (List.cons.inj h).1 hc⟩

theorem search_spec (g : GB) (needle : List Nat) : ∀ (n i : Nat),
    (∀ r, searchLoop g needle n i = some r ↔ i ≤ r ∧ r < i + n ∧ matchFrom g needle (index g r) = true ∧
      ∀ j, i ≤ j → j < r → ¬ matchFrom g needle (index g j) = true)
  | 0, i => by
    intro r
    rw [searchLoop]
    exact ⟨fun h => (by cases h), fun h => by omega⟩
  | n + 1, i => by
    intro r
    rw [searchLoop]
    by_cases h : matchFrom g needle (index g i) = true
    · rw [if_pos h]
      refine ⟨fun e => ?_, fun ⟨h1, h2, h3, h4⟩ => ?_⟩
      · cases e; exact ⟨Nat.le_refl _, by omega, h, fun j h1 h2 => by omega⟩
      · by_cases hr : i < r
        · exact absurd h (h4 i (Nat.le_refl _) hr)
        · rw [show i = r by omega]
    · rw [if_neg h, search_spec g needle n (i + 1) r]
      refine ⟨fun ⟨h1, h2, h3, h4⟩ => ⟨by omega, by omega, h3, fun j hj1 hj2 => ?_⟩, fun ⟨h1, h2, h3, h4⟩ => ?_⟩
      · by_cases hj : j = i
        · rw [hj]; exact h
        · exact h4 j (by omega) hj2
      · have : i ≠ r := fun e => h (e ▸ h3)
        exact ⟨by omega, by omega, h3, fun j hj1 hj2 => h4 j (by omega) hj2⟩

/-! ## Editing -/

theorem mov_rep {g : GB} {A B : List Nat} (h : Rep g A B) (pos : Option Int) :
    ∃ A' B', Rep (mov g pos).1 A' B' ∧ A' ++ B' = A ++ B ∧ (⟨A' ++ B', A'.length⟩, (mov g pos).2) = textAt ⟨A ++ B, A.length⟩ pos := by
  cases pos with
  | none => exact ⟨A, B, h, rfl, rfl⟩
  | some p =>
    rw [mov, textAt]
    have hs : g.gapStart = A.length := h.rep.elim fun _ h => h.2.1
    by_cases hp : p = g.gapStart
    · rw [if_pos hp]
      refine ⟨A, B, h, rfl, ?_⟩
      rw [textMove, show textPos ⟨A ++ B, A.length⟩ p .beginning = p from rfl]
      dsimp only
      rw [if_pos (by rw [List.length_append]; omega), show p.toNat = A.length by omega]
    · rw [if_neg hp]
      obtain ⟨A', B', h1, h2⟩ := move_rep h p .beginning
      refine ⟨A', B', h1, ?_, h2⟩
      rw [textMove] at h2
      dsimp only at h2
      split at h2 <;> exact congrArg (fun x => x.1.chars) h2

/-- What an edit gives, in terms of the parts at its position. -/
theorem edit_rep {g : GB} {A B : List Nat} (h : Rep g A B) (pos : Option Int) (n : Nat) (str : List Nat) :
    ∃ A' B', A' ++ B' = A ++ B ∧ (⟨A' ++ B', A'.length⟩, (mov g pos).2) = textAt ⟨A ++ B, A.length⟩ pos ∧
      ((mov g pos).2 = false → edit g (.i pos str) = ((mov g pos).1, none) ∧ edit g (.d pos n) = ((mov g pos).1, none) ∧
        edit g (.c pos n str) = ((mov g pos).1, none) ∧ Rep (mov g pos).1 A' B') ∧
      ((mov g pos).2 = true →
        ((edit g (.i pos str)).2 = some (.d (some A'.length) str.length) ∧ Rep (edit g (.i pos str)).1 (A' ++ str) B') ∧
        (n ≤ B'.length → (edit g (.d pos n)).2 = some (.i (some A'.length) (B'.take n)) ∧ Rep (edit g (.d pos n)).1 A' (B'.drop n)) ∧
        (¬ n ≤ B'.length → (edit g (.d pos n)).2 = none ∧ Rep (edit g (.d pos n)).1 A' B') ∧
        (n ≤ B'.length → (edit g (.c pos n str)).2 = some (.c (some A'.length) str.length (B'.take n)) ∧
          Rep (edit g (.c pos n str)).1 (A' ++ str) (B'.drop n)) ∧
        (¬ n ≤ B'.length → (edit g (.c pos n str)).2 = none ∧ Rep (edit g (.c pos n str)).1 A' B')) := by
  obtain ⟨A', B', h1, h2, h3⟩ := mov_rep h pos
  refine ⟨A', B', h2, h3, fun hf => ?_, fun ht => ?_⟩
  · have hn : ¬ (mov g pos).2 = true := by rw [hf]; simp
    exact ⟨by rw [edit]; exact if_neg hn, by rw [edit]; exact if_neg hn, by rw [edit]; exact if_neg hn, h1⟩
  · have hs : (mov g pos).1.gapStart = A'.length := h1.rep.elim fun _ h => h.2.1
    have hstr : ∃ s, toString (mov g pos).1 (mov g pos).1.gapStart (some ((mov g pos).1.gapStart + n)) = some s ∧
        (n ≤ B'.length → s = B'.take n) := by
      rw [toString_rep h1, hs, Option.getD_some, List.length_append, if_neg (by omega)]
      refine ⟨_, rfl, fun hn => ?_⟩
      rw [List.drop_left]
      congr 1
      omega
    obtain ⟨s, hs1, hs2⟩ := hstr
    have ed : edit g (.d pos n) = ((delete (mov g pos).1 n).1,
        if (delete (mov g pos).1 n).2 then some (.i (some A'.length) s) else none) := by
      rw [edit]; dsimp only; rw [if_pos ht, hs1, hs]
    have ec : edit g (.c pos n str) = ((replace (mov g pos).1 n str).1,
        if (replace (mov g pos).1 n str).2 then some (.c (some A'.length) str.length s) else none) := by
      rw [edit]; dsimp only; rw [if_pos ht, hs1, hs]
    have ei : edit g (.i pos str) = (insert (mov g pos).1 str, some (.d (some A'.length) str.length)) := by
      rw [edit, if_pos ht, hs]
    have hd := delete_rep h1 n
    have hc := replace_rep h1 n str
    refine ⟨⟨by rw [ei], by rw [ei]; exact insert_rep h1 str⟩, fun hn => ?_, fun hn => ?_, fun hn => ?_, fun hn => ?_⟩
    · rw [ed]; exact ⟨by rw [if_pos (hd.1 hn).1, hs2 hn], (hd.1 hn).2⟩
    · rw [ed, hd.2 hn]; exact ⟨rfl, h1⟩
    · rw [ec]; exact ⟨by rw [if_pos (hc.1 hn).1, hs2 hn], (hc.1 hn).2⟩
    · rw [ec, hc.2 hn]; exact ⟨rfl, h1⟩

theorem run_rep {g : GB} {A B : List Nat} (h : Rep g A B) (op : Op) :
    ∃ A' B', Rep (run g op).1 A' B' ∧ (⟨A' ++ B', A'.length⟩, (run g op).2) = textRun ⟨A ++ B, A.length⟩ op := by
  cases op with
  | move pos w => exact move_rep h pos w
  | insert str =>
    refine ⟨A ++ str, B, insert_rep h str, ?_⟩
    rw [textRun, text_replace, if_pos (Nat.zero_le _)]; rfl
  | delete n =>
    rw [textRun, text_replace]
    by_cases hn : n ≤ B.length
    · refine ⟨A, B.drop n, ((delete_rep h n).1 hn).2, ?_⟩
      rw [if_pos hn, List.append_nil, run, ((delete_rep h n).1 hn).1]
    · refine ⟨A, B, ?_, ?_⟩
      · rw [run, (delete_rep h n).2 hn]; exact h
      · rw [if_neg hn, run, (delete_rep h n).2 hn]
  | replace n str =>
    rw [textRun, text_replace]
    by_cases hn : n ≤ B.length
    · refine ⟨A ++ str, B.drop n, ((replace_rep h n str).1 hn).2, ?_⟩
      rw [if_pos hn, run, ((replace_rep h n str).1 hn).1]
    · refine ⟨A, B, ?_, ?_⟩
      · rw [run, (replace_rep h n str).2 hn]; exact h
      · rw [if_neg hn, run, (replace_rep h n str).2 hn]
  | clear =>
    obtain ⟨G, rfl, hp⟩ := h.cases
    exact ⟨[], [], ⟨hp, A ++ G ++ B, by rw [List.append_nil]; rfl, rfl, by rw [List.length_nil, Nat.zero_add]; rfl⟩, rfl⟩
  | edit cmd =>
    rw [textRun]
    cases cmd with
    | i pos str =>
      obtain ⟨A', B', _, h2, h3, h4⟩ := edit_rep h pos 0 str
      rw [textEdit, ← h2, run]
      dsimp only
      cases hm : (mov g pos).2 with
      | false =>
        obtain ⟨e, _, _, hr⟩ := h3 hm
        rw [e]
        exact ⟨A', B', hr, rfl⟩
      | true =>
        obtain ⟨e, hr⟩ := (h4 hm).1
        refine ⟨_, _, hr, ?_⟩
        rw [e, if_pos rfl, text_replace, if_pos (Nat.zero_le _)]; rfl
    | d pos n =>
      obtain ⟨A', B', _, h2, h3, h4⟩ := edit_rep h pos n []
      rw [textEdit, ← h2, run]
      dsimp only
      cases hm : (mov g pos).2 with
      | false =>
        obtain ⟨_, e, _, hr⟩ := h3 hm
        rw [e]
        exact ⟨A', B', hr, rfl⟩
      | true =>
        rw [if_pos rfl, text_replace]
        by_cases hn : n ≤ B'.length
        · obtain ⟨e, hr⟩ := (h4 hm).2.1 hn
          refine ⟨_, _, hr, ?_⟩
          rw [e, if_pos hn, List.append_nil]; rfl
        · obtain ⟨e, hr⟩ := (h4 hm).2.2.1 hn
          refine ⟨_, _, hr, ?_⟩
          rw [e, if_neg hn]; rfl
    | c pos n str =>
      obtain ⟨A', B', _, h2, h3, h4⟩ := edit_rep h pos n str
      rw [textEdit, ← h2, run]
      dsimp only
      cases hm : (mov g pos).2 with
      | false =>
        obtain ⟨_, _, e, hr⟩ := h3 hm
        rw [e]
        exact ⟨A', B', hr, rfl⟩
      | true =>
        rw [if_pos rfl, text_replace]
        by_cases hn : n ≤ B'.length
        · obtain ⟨e, hr⟩ := (h4 hm).2.2.2.1 hn
          refine ⟨_, _, hr, ?_⟩
          rw [e, if_pos hn]; rfl
        · obtain ⟨e, hr⟩ := (h4 hm).2.2.2.2 hn
          refine ⟨_, _, hr, ?_⟩
          rw [e, if_neg hn]; rfl

/-! ## Making -/

theorem make_rep (capacity : Nat) : Rep (make capacity) [] [] := by
  rw [make]
  have hp : 0 < 2 ^ integerLength (capacity - 1) := Nat.pow_pos (by omega)
  exact ⟨by dsimp only; rw [List.length_replicate]; exact hp, List.replicate _ 0, by rw [List.append_nil]; rfl, rfl,
    by dsimp only; rw [List.length_replicate, List.length_nil, Nat.zero_add]⟩

theorem lt_integerLength (n : Nat) : n < 2 ^ integerLength n := by
  rw [integerLength]
  by_cases h : n = 0
  · rw [if_pos h, h]; decide
  · rw [if_neg h]; exact Nat.lt_log2_self

theorem from_rep (A B : List Nat) (size : Nat) (h : (A ++ B).length < size) :
    Rep ⟨vcopy (vcopy (List.replicate size 0) 0 A) (size - B.length) B, A.length, size - B.length⟩ A B := by
  rw [List.length_append] at h
  have e1 : vcopy (List.replicate size 0) 0 A = (A ++ List.replicate (size - A.length - B.length) 0) ++ List.replicate B.length 0 ++ [] := by
    have : List.replicate size 0 = [] ++ List.replicate A.length 0 ++
        (List.replicate (size - A.length - B.length) 0 ++ List.replicate B.length 0) := by
      rw [List.nil_append, List.replicate_append_replicate, List.replicate_append_replicate]
      congr 1
      omega
    rw [this]
    refine (vcopy_mid [] _ _ A (by rw [List.length_replicate])).trans ?_
    simp only [List.append_assoc, List.nil_append, List.append_nil]
  have e2 : size - B.length = (A ++ List.replicate (size - A.length - B.length) 0).length := by
    simp only [List.length_append, List.length_replicate]; omega
  rw [e1]
  conv => arg 1; rw [e2]
  rw [vcopy_mid _ _ _ _ (by rw [List.length_replicate]), List.append_nil]
  refine ⟨?_, _, rfl, rfl, ?_⟩
  · simp only [List.length_append, List.length_replicate]; omega
  · simp only [List.length_append]

theorem fromString_rep (str : List Nat) (pos : Int) (w : Whence) (p : Int) (hp : p = match w with | .fromEnd => (str.length : Int) - pos | _ => pos) :
    (0 ≤ p ∧ p ≤ str.length → ∃ g, fromString str pos w = some g ∧ Rep g (str.take p.toNat) (str.drop p.toNat)) ∧
    (¬ (0 ≤ p ∧ p ≤ str.length) → fromString str pos w = none) := by
  have e : fromString str pos w = if 0 ≤ p ∧ p ≤ str.length then
      some ⟨vcopy (vcopy (List.replicate (2 ^ integerLength str.length) 0) 0 (slice str 0 p.toNat))
        (2 ^ integerLength str.length - (str.length - p.toNat)) (str.drop p.toNat), p.toNat,
        2 ^ integerLength str.length - (str.length - p.toNat)⟩ else none := by
    rw [hp, fromString.eq_def]
    cases w <;> rfl
  rw [e]
  refine ⟨fun h => ⟨_, if_pos h, ?_⟩, fun h => if_neg h⟩
  have h1 := from_rep (str.take p.toNat) (str.drop p.toNat) (2 ^ integerLength str.length)
    (by rw [List.take_append_drop]; exact lt_integerLength _)
  rw [List.length_drop, List.length_take, Nat.min_eq_left (by omega)] at h1
  rw [slice, List.drop_zero, Nat.sub_zero]
  exact h1

theorem made_rep {g : GB} (h : Made g) : ∃ A B, Rep g A B := by
  induction h with
  | make c => exact ⟨_, _, make_rep c⟩
  | fromString str pos w g h =>
    obtain ⟨p, hf⟩ : ∃ p : Int, (0 ≤ p ∧ p ≤ str.length → ∃ g, fromString str pos w = some g ∧ Rep g (str.take p.toNat) (str.drop p.toNat)) ∧
        (¬ (0 ≤ p ∧ p ≤ str.length) → fromString str pos w = none) := ⟨_, fromString_rep str pos w _ rfl⟩
    by_cases hc : 0 ≤ p ∧ p ≤ str.length
    · obtain ⟨g', e, hr⟩ := hf.1 hc
      rw [e] at h
      cases h
      exact ⟨_, _, hr⟩
    · rw [hf.2 hc] at h; cases h
  | step g op _ ih =>
    obtain ⟨A, B, hr⟩ := ih
    obtain ⟨A', B', h1, _⟩ := run_rep hr op
    exact ⟨A', B', h1⟩

end Gauche.GapBuffer
