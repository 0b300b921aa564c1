import Verif.Proof.Base64
namespace Gauche.Base64
open Radix

/-- The bytes a base32 decoder writes for a digit sequence. -/
def D32 : List Nat → List Nat
  | [] => []
  | [_] => []
  | [a, b] => [(a <<< 3) + (b >>> 2)]
  | [a, b, _] => [(a <<< 3) + (b >>> 2)]
  | [a, b, c, e] => [(a <<< 3) + (b >>> 2), ((b &&& 0x03) <<< 6) + (c <<< 1) + (e >>> 4)]
  | [a, b, c, e, g] => [(a <<< 3) + (b >>> 2), ((b &&& 0x03) <<< 6) + (c <<< 1) + (e >>> 4), ((e &&& 0x0f) <<< 4) + (g >>> 1)]
  | [a, b, c, e, g, _] => [(a <<< 3) + (b >>> 2), ((b &&& 0x03) <<< 6) + (c <<< 1) + (e >>> 4), ((e &&& 0x0f) <<< 4) + (g >>> 1)]
  | [a, b, c, e, g, h, i] => [(a <<< 3) + (b >>> 2), ((b &&& 0x03) <<< 6) + (c <<< 1) + (e >>> 4), ((e &&& 0x0f) <<< 4) + (g >>> 1), ((g &&& 0x01) <<< 7) + (h <<< 2) + (i >>> 3)]
  | a :: b :: c :: e :: g :: h :: i :: j :: r =>
    [(a <<< 3) + (b >>> 2), ((b &&& 0x03) <<< 6) + (c <<< 1) + (e >>> 4), ((e &&& 0x0f) <<< 4) + (g >>> 1), ((g &&& 0x01) <<< 7) + (h <<< 2) + (i >>> 3), ((i &&& 0x07) <<< 5) + j] ++ D32 r

/-- The state `d7` is reached with a character to be skipped, `n` digits having been read before. -/
def stuck (d : Dec) (n : Nat) : List Nat → Bool
  | [] => false
  | c :: cs => if d.stop c then false else match lookup d.table c with
    | some _ => stuck d (n + 1) cs
    | none => n % 8 == 7 || stuck d n cs

/-- What is claimed of a decoder state. -/
def Claim (d : Dec) (n : Nat) (pre cs : List Nat) (r : List Nat × Res) : Prop :=
  (stuck d n cs = false → r = (D32 (pre ++ d.digits cs), d.final 8 ((d.digits cs).length + n) (cs.find? d.stop))) ∧
  (stuck d n cs = true → r.2 = .diverges)

theorem stuck_add (d : Dec) : ∀ (cs : List Nat) (n : Nat), stuck d (n + 8) cs = stuck d n cs := by
  intro cs
  induction cs with
  | nil => intro n; rfl
  | cons c cs ih =>
    intro n
    rw [stuck, stuck]
    cases lookup d.table c with
    | some x => dsimp only; rw [show n + 8 + 1 = (n + 1) + 8 by omega, ih]
    | none => dsimp only; rw [ih, Nat.add_mod_right]

theorem claim_nil (d : Dec) (n : Nat) (pre : List Nat) (r : List Nat × Res) (h : n % 8 ≠ 0)
    (hr : r = (D32 pre, d.eof)) : Claim d n pre [] r := by
  refine ⟨fun _ => ?_, fun h => by simp [stuck] at h⟩
  have hd : d.digits [] = [] := rfl
  rw [hd, List.find?_nil, List.length_nil, Nat.zero_add, final_nil _ _ _ h, List.append_nil, hr]

theorem claim_eqSign (d : Dec) (n : Nat) (pre cs : List Nat) (r : List Nat × Res)
    (hr : r = (D32 pre, .done)) : Claim d n pre (eqSign :: cs) r := by
  have hs : d.stop eqSign = true := by unfold Dec.stop; simp
  refine ⟨fun _ => ?_, fun h => absurd h (by rw [stuck, if_pos hs]; exact Bool.false_ne_true)⟩
  unfold Dec.digits
  rw [digits_stop hs, List.find?_cons_of_pos hs, final_eqSign, List.append_nil, hr]

theorem claim_invalid (d : Dec) (n c : Nat) (pre cs : List Nat) (r : List Nat × Res) (h1 : c ≠ eqSign)
    (h2 : lookup d.table c = none) (h3 : d.rejects c = true)
    (hr : r = (D32 pre, .invalid c)) : Claim d n pre (c :: cs) r := by
  have hs : d.stop c = true := by unfold Dec.stop; simp [h2, h3]
  refine ⟨fun _ => ?_, fun h => absurd h (by rw [stuck, if_pos hs]; exact Bool.false_ne_true)⟩
  unfold Dec.digits
  rw [digits_stop hs, List.find?_cons_of_pos hs, final_invalid _ _ _ h1, List.append_nil, hr]

theorem claim_skip (d : Dec) (n c : Nat) (pre cs : List Nat) (r : List Nat × Res) (h1 : c ≠ eqSign)
    (h2 : lookup d.table c = none) (h3 : d.rejects c = false) (hn : n % 8 ≠ 7)
    (hr : Claim d n pre cs r) : Claim d n pre (c :: cs) r := by
  have hs : d.stop c = false := by unfold Dec.stop; simp [h1, h3]
  have hst : stuck d n (c :: cs) = stuck d n cs := by
    rw [stuck, if_neg (by simp [hs]), h2]; simp [hn]
  unfold Claim Dec.digits at *
  rw [hst, digits_none hs h2, List.find?_cons_of_neg (by simp [hs])]
  exact hr

theorem claim_digit (d : Dec) (n c x : Nat) (pre cs : List Nat) (r : List Nat × Res) (h1 : c ≠ eqSign)
    (h2 : lookup d.table c = some x) (hr : Claim d (n + 1) (pre ++ [x]) cs r) : Claim d n pre (c :: cs) r := by
  have hs : d.stop c = false := by unfold Dec.stop; simp [h1, h2]
  have hst : stuck d n (c :: cs) = stuck d (n + 1) cs := by
    rw [stuck, if_neg (by simp [hs]), h2]
  unfold Claim Dec.digits at *
  rw [hst, digits_some hs h2, List.find?_cons_of_neg (by simp [hs]), List.length_cons]
  rw [List.append_assoc, List.singleton_append] at hr
  rw [show (digitsOf (lookup d.table) d.stop cs).length + 1 + n = (digitsOf (lookup d.table) d.stop cs).length + (n + 1) by omega]
  exact hr

theorem claim_stuck (d : Dec) (n c : Nat) (pre cs : List Nat) (r : List Nat × Res) (h1 : c ≠ eqSign)
    (h2 : lookup d.table c = none) (h3 : d.rejects c = false) (hn : n % 8 = 7)
    (hr : r.2 = .diverges) : Claim d n pre (c :: cs) r := by
  have hs : d.stop c = false := by unfold Dec.stop; simp [h1, h3]
  have hst : stuck d n (c :: cs) = true := by
    rw [stuck, if_neg (by simp [hs]), h2]; simp [hn]
  exact ⟨fun h => absurd (hst.symm.trans h) (by simp), fun _ => hr⟩

theorem decode32 (d : Dec) : ∀ cs : List Nat,
    (Claim d 0 [] cs (f0 d cs)) ∧
    (∀ a, Claim d 1 [a] cs (f1 d a cs)) ∧
    (∀ a b, Claim d 2 [a, b] cs (emit ((a <<< 3) + (b >>> 2)) (f2 d (b &&& 0x03) cs))) ∧
    (∀ a b c, Claim d 3 [a, b, c] cs (emit ((a <<< 3) + (b >>> 2)) (f3 d (b &&& 0x03) c cs))) ∧
    (∀ a b c e, Claim d 4 [a, b, c, e] cs (emit ((a <<< 3) + (b >>> 2)) (emit (((b &&& 0x03) <<< 6) + (c <<< 1) + (e >>> 4)) (f4 d (e &&& 0x0f) cs)))) ∧
    (∀ a b c e g, Claim d 5 [a, b, c, e, g] cs (emit ((a <<< 3) + (b >>> 2)) (emit (((b &&& 0x03) <<< 6) + (c <<< 1) + (e >>> 4)) (emit (((e &&& 0x0f) <<< 4) + (g >>> 1)) (f5 d (g &&& 0x01) cs))))) ∧
    (∀ a b c e g h, Claim d 6 [a, b, c, e, g, h] cs (emit ((a <<< 3) + (b >>> 2)) (emit (((b &&& 0x03) <<< 6) + (c <<< 1) + (e >>> 4)) (emit (((e &&& 0x0f) <<< 4) + (g >>> 1)) (f6 d (g &&& 0x01) h cs))))) ∧
    (∀ a b c e g h i, Claim d 7 [a, b, c, e, g, h, i] cs (emit ((a <<< 3) + (b >>> 2)) (emit (((b &&& 0x03) <<< 6) + (c <<< 1) + (e >>> 4)) (emit (((e &&& 0x0f) <<< 4) + (g >>> 1)) (emit (((g &&& 0x01) <<< 7) + (h <<< 2) + (i >>> 3)) (f7 d (i &&& 0x07) cs)))))) := by
  intro cs
  induction cs with
  | nil =>
    refine ⟨?_, ?_, ?_, ?_, ?_, ?_, ?_, ?_⟩
    · refine ⟨fun _ => ?_, fun h => by simp [stuck] at h⟩
      rw [List.find?_nil, final_zero _ _ _ rfl]; rfl
    · intro a; exact claim_nil _ _ _ _ (by decide) rfl
    · intro a b; exact claim_nil _ _ _ _ (by decide) rfl
    · intro a b c; exact claim_nil _ _ _ _ (by decide) rfl
    · intro a b c e; exact claim_nil _ _ _ _ (by decide) rfl
    · intro a b c e g; exact claim_nil _ _ _ _ (by decide) rfl
    · intro a b c e g h; exact claim_nil _ _ _ _ (by decide) rfl
    · intro a b c e g h i; exact claim_nil _ _ _ _ (by decide) rfl
  | cons k cs ih =>
    obtain ⟨i0, i1, i2, i3, i4, i5, i6, i7⟩ := ih
    rcases state_cases d k cs with ⟨h1, _⟩ | ⟨h1, x, h2, _⟩ | ⟨h1, h2, h3, _⟩ | ⟨h1, h2, h3, _⟩
    · subst h1
      refine ⟨?_, ?_, ?_, ?_, ?_, ?_, ?_, ?_⟩
      · exact claim_eqSign _ _ _ _ _ (by simp only [f0, if_true, emit, D32])
      · intro a; exact claim_eqSign _ _ _ _ _ (by simp only [f1, if_true, emit, D32])
      · intro a b; exact claim_eqSign _ _ _ _ _ (by simp only [f2, if_true, emit, D32])
      · intro a b c; exact claim_eqSign _ _ _ _ _ (by simp only [f3, if_true, emit, D32])
      · intro a b c e; exact claim_eqSign _ _ _ _ _ (by simp only [f4, if_true, emit, D32])
      · intro a b c e g; exact claim_eqSign _ _ _ _ _ (by simp only [f5, if_true, emit, D32])
      · intro a b c e g h; exact claim_eqSign _ _ _ _ _ (by simp only [f6, if_true, emit, D32])
      · intro a b c e g h i; exact claim_eqSign _ _ _ _ _ (by simp only [f7, if_true, emit, D32])
    · refine ⟨?_, ?_, ?_, ?_, ?_, ?_, ?_, ?_⟩
      · rw [f0, if_neg h1, h2]; exact claim_digit _ _ _ x _ _ _ h1 h2 (i1  x)
      · intro a; rw [f1, if_neg h1, h2]; exact claim_digit _ _ _ x _ _ _ h1 h2 (i2 a x)
      · intro a b; rw [f2, if_neg h1, h2]; exact claim_digit _ _ _ x _ _ _ h1 h2 (i3 a b x)
      · intro a b c; rw [f3, if_neg h1, h2]; exact claim_digit _ _ _ x _ _ _ h1 h2 (i4 a b c x)
      · intro a b c e; rw [f4, if_neg h1, h2]; exact claim_digit _ _ _ x _ _ _ h1 h2 (i5 a b c e x)
      · intro a b c e g; rw [f5, if_neg h1, h2]; exact claim_digit _ _ _ x _ _ _ h1 h2 (i6 a b c e g x)
      · intro a b c e g h; rw [f6, if_neg h1, h2]; exact claim_digit _ _ _ x _ _ _ h1 h2 (i7 a b c e g h x)
      · intro a b c e g h i; rw [f7, if_neg h1, h2]
        apply claim_digit _ _ _ x _ _ _ h1 h2
        obtain ⟨j1, j2⟩ := i0
        rw [← stuck_add] at j1 j2
        refine ⟨fun h => ?_, fun h => ?_⟩
        · dsimp only
          rw [j1 h]
          rw [Nat.add_zero, List.nil_append, final_add]
          simp only [emit, D32, List.cons_append, List.nil_append]
        · exact j2 h
    · refine ⟨?_, ?_, ?_, ?_, ?_, ?_, ?_, ?_⟩
      · exact claim_invalid _ _ _ _ _ _ h1 h2 h3 (by simp only [f0, if_neg h1, h2, h3, if_true, emit, D32])
      · intro a; exact claim_invalid _ _ _ _ _ _ h1 h2 h3 (by simp only [f1, if_neg h1, h2, h3, if_true, emit, D32])
      · intro a b; exact claim_invalid _ _ _ _ _ _ h1 h2 h3 (by simp only [f2, if_neg h1, h2, h3, if_true, emit, D32])
      · intro a b c; exact claim_invalid _ _ _ _ _ _ h1 h2 h3 (by simp only [f3, if_neg h1, h2, h3, if_true, emit, D32])
      · intro a b c e; exact claim_invalid _ _ _ _ _ _ h1 h2 h3 (by simp only [f4, if_neg h1, h2, h3, if_true, emit, D32])
      · intro a b c e g; exact claim_invalid _ _ _ _ _ _ h1 h2 h3 (by simp only [f5, if_neg h1, h2, h3, if_true, emit, D32])
      · intro a b c e g h; exact claim_invalid _ _ _ _ _ _ h1 h2 h3 (by simp only [f6, if_neg h1, h2, h3, if_true, emit, D32])
      · intro a b c e g h i; exact claim_invalid _ _ _ _ _ _ h1 h2 h3 (by simp only [f7, if_neg h1, h2, h3, if_true, emit, D32])
    · refine ⟨?_, ?_, ?_, ?_, ?_, ?_, ?_, ?_⟩
      · rw [f0, if_neg h1, h2, h3]; exact claim_skip _ _ _ _ _ _ h1 h2 h3 (by decide) (i0 )
      · intro a; rw [f1, if_neg h1, h2, h3]; exact claim_skip _ _ _ _ _ _ h1 h2 h3 (by decide) (i1 a)
      · intro a b; rw [f2, if_neg h1, h2, h3]; exact claim_skip _ _ _ _ _ _ h1 h2 h3 (by decide) (i2 a b)
      · intro a b c; rw [f3, if_neg h1, h2, h3]; exact claim_skip _ _ _ _ _ _ h1 h2 h3 (by decide) (i3 a b c)
      · intro a b c e; rw [f4, if_neg h1, h2, h3]; exact claim_skip _ _ _ _ _ _ h1 h2 h3 (by decide) (i4 a b c e)
      · intro a b c e g; rw [f5, if_neg h1, h2, h3]; exact claim_skip _ _ _ _ _ _ h1 h2 h3 (by decide) (i5 a b c e g)
      · intro a b c e g h; rw [f6, if_neg h1, h2, h3]; exact claim_skip _ _ _ _ _ _ h1 h2 h3 (by decide) (i6 a b c e g h)
      · intro a b c e g h i; rw [f7, if_neg h1, h2, h3]; exact claim_stuck _ _ _ _ _ _ h1 h2 h3 (by decide) rfl

theorem D32_eq : ∀ ds : List Nat, (∀ x ∈ ds, x < 32) → D32 ds = decBytes 5 ds := by
  intro ds
  fun_induction D32 ds with
  | case1 => intro _; rfl
  | case2 a =>
    intro hyp
    simp [decBytes, toBE]
  | case3 a b =>
    intro hyp
    have ha := hyp a (by simp)
    have hb := hyp b (by simp)
    simp only [decBytes, List.length_cons, List.length_nil, ofBE, List.foldl, toBE, and15, and3, and1, and7]
    simp only [Nat.shiftLeft_eq, Nat.shiftRight_eq_div_pow]
    norm_num [toBE]
    try omega
  | case4 a b c =>
    intro hyp
    have ha := hyp a (by simp)
    have hb := hyp b (by simp)
    have hc := hyp c (by simp)
    simp only [decBytes, List.length_cons, List.length_nil, ofBE, List.foldl, toBE, and15, and3, and1, and7]
    simp only [Nat.shiftLeft_eq, Nat.shiftRight_eq_div_pow]
    norm_num [toBE]
    try omega
  | case5 a b c e =>
    intro hyp
    have ha := hyp a (by simp)
    have hb := hyp b (by simp)
    have hc := hyp c (by simp)
    have he := hyp e (by simp)
    simp only [decBytes, List.length_cons, List.length_nil, ofBE, List.foldl, toBE, and15, and3, and1, and7]
    simp only [Nat.shiftLeft_eq, Nat.shiftRight_eq_div_pow]
    norm_num [toBE]
    try omega
  | case6 a b c e g =>
    intro hyp
    have ha := hyp a (by simp)
    have hb := hyp b (by simp)
    have hc := hyp c (by simp)
    have he := hyp e (by simp)
    have hg := hyp g (by simp)
    simp only [decBytes, List.length_cons, List.length_nil, ofBE, List.foldl, toBE, and15, and3, and1, and7]
    simp only [Nat.shiftLeft_eq, Nat.shiftRight_eq_div_pow]
    norm_num [toBE]
    try omega
  | case7 a b c e g h =>
    intro hyp
    have ha := hyp a (by simp)
    have hb := hyp b (by simp)
    have hc := hyp c (by simp)
    have he := hyp e (by simp)
    have hg := hyp g (by simp)
    have hh := hyp h (by simp)
    simp only [decBytes, List.length_cons, List.length_nil, ofBE, List.foldl, toBE, and15, and3, and1, and7]
    simp only [Nat.shiftLeft_eq, Nat.shiftRight_eq_div_pow]
    norm_num [toBE]
    try omega
  | case8 a b c e g h i =>
    intro hyp
    have ha := hyp a (by simp)
    have hb := hyp b (by simp)
    have hc := hyp c (by simp)
    have he := hyp e (by simp)
    have hg := hyp g (by simp)
    have hh := hyp h (by simp)
    have hi := hyp i (by simp)
    simp only [decBytes, List.length_cons, List.length_nil, ofBE, List.foldl, toBE, and15, and3, and1, and7]
    simp only [Nat.shiftLeft_eq, Nat.shiftRight_eq_div_pow]
    norm_num [toBE]
    try omega
  | case9 a b c e g h i j r ih =>
    intro hyp
    have ha := hyp a (by simp)
    have hb := hyp b (by simp)
    have hc := hyp c (by simp)
    have he := hyp e (by simp)
    have hg := hyp g (by simp)
    have hh := hyp h (by simp)
    have hi := hyp i (by simp)
    have hj := hyp j (by simp)
    have hr : ∀ x ∈ r, x < 32 := fun x hx => hyp x (by simp [hx])
    have := decBytes_block (k := 5) [a, b, c, e, g, h, i, j] r 5 rfl hr
    rw [show [a, b, c, e, g, h, i, j] ++ r = a :: b :: c :: e :: g :: h :: i :: j :: r from rfl] at this
    rw [this, ih hr]
    congr 1
    simp only [ofBE, List.foldl, toBE, and15, and3, and1, and7]
    simp only [Nat.shiftLeft_eq, Nat.shiftRight_eq_div_pow]
    norm_num
    omega

/-- The indices a base32 encoder emits. -/
def E32 (np : Bool) : List Nat → List Nat
  | [] => []
  | [a] => [a >>> 3, (a &&& 0x07) <<< 2] ++ if np then [] else [32, 32, 32, 32, 32, 32]
  | [a, b] => [a >>> 3, ((a &&& 0x07) <<< 2) + (b >>> 6), (b >>> 1) &&& 0x1f, (b &&& 0x01) <<< 4] ++ if np then [] else [32, 32, 32, 32]
  | [a, b, c] => [a >>> 3, ((a &&& 0x07) <<< 2) + (b >>> 6), (b >>> 1) &&& 0x1f, ((b &&& 0x01) <<< 4) + (c >>> 4), (c &&& 0x0f) <<< 1] ++ if np then [] else [32, 32, 32]
  | [a, b, c, e] => [a >>> 3, ((a &&& 0x07) <<< 2) + (b >>> 6), (b >>> 1) &&& 0x1f, ((b &&& 0x01) <<< 4) + (c >>> 4), ((c &&& 0x0f) <<< 1) + (e >>> 7), (e >>> 2) &&& 0x1f, (e &&& 0x03) <<< 3] ++ if np then [] else [32]
  | a :: b :: c :: e :: g :: r => [a >>> 3, ((a &&& 0x07) <<< 2) + (b >>> 6), (b >>> 1) &&& 0x1f, ((b &&& 0x01) <<< 4) + (c >>> 4), ((c &&& 0x0f) <<< 1) + (e >>> 7), (e >>> 2) &&& 0x1f, ((e &&& 0x03) <<< 3) + (g >>> 5), g &&& 0x1f] ++ E32 np r

theorem encode32 (en : Enc) : ∀ (bs : List Nat) (col : Nat), g0 en col bs = (emits en col (E32 en.omitPadding bs)).1 := by
  intro bs
  fun_induction E32 en.omitPadding bs with
  | case1 => intro col; rfl
  | case2 a =>
    intro col
    rw [g0, g1]
    cases en.omitPadding <;> simp [emits]
  | case3 a b =>
    intro col
    rw [g0, g1, g2]
    cases en.omitPadding <;> simp [emits]
  | case4 a b c =>
    intro col
    rw [g0, g1, g2, g3]
    cases en.omitPadding <;> simp [emits]
  | case5 a b c e =>
    intro col
    rw [g0, g1, g2, g3, g4]
    cases en.omitPadding <;> simp [emits]
  | case6 a b c e g r ih =>
    intro col
    rw [g0, g1, g2, g3, g4, emits_append]
    dsimp only
    rw [ih]
    simp [emits]

theorem E32_eq (np : Bool) : ∀ bs : List Nat, (∀ b ∈ bs, b < 256) →
    E32 np bs = encDigits 5 bs ++ if np then [] else List.replicate (padLen 8 (encDigits 5 bs).length) 32 := by
  intro bs
  fun_induction E32 np bs with
  | case1 => intro _; cases np <;> rfl
  | case2 a =>
    intro h
    have ha := h a (by simp)
    have : encDigits 5 [a] = [a >>> 3, (a &&& 0x07) <<< 2] := by
      simp only [encDigits, encLen, List.length_cons, List.length_nil, ofBE, List.foldl, and7, and1, and15, and3, and31]
      simp only [Nat.shiftLeft_eq, Nat.shiftRight_eq_div_pow]
      norm_num [toBE]
      omega
    rw [this]; rfl
  | case3 a b =>
    intro h
    have ha := h a (by simp)
    have hb := h b (by simp)
    have : encDigits 5 [a, b] = [a >>> 3, ((a &&& 0x07) <<< 2) + (b >>> 6), (b >>> 1) &&& 0x1f, (b &&& 0x01) <<< 4] := by
      simp only [encDigits, encLen, List.length_cons, List.length_nil, ofBE, List.foldl, and7, and1, and15, and3, and31]
      simp only [Nat.shiftLeft_eq, Nat.shiftRight_eq_div_pow]
      norm_num [toBE]
      omega
    rw [this]; rfl
  | case4 a b c =>
    intro h
    have ha := h a (by simp)
    have hb := h b (by simp)
    have hc := h c (by simp)
    have : encDigits 5 [a, b, c] = [a >>> 3, ((a &&& 0x07) <<< 2) + (b >>> 6), (b >>> 1) &&& 0x1f, ((b &&& 0x01) <<< 4) + (c >>> 4), (c &&& 0x0f) <<< 1] := by
      simp only [encDigits, encLen, List.length_cons, List.length_nil, ofBE, List.foldl, and7, and1, and15, and3, and31]
      simp only [Nat.shiftLeft_eq, Nat.shiftRight_eq_div_pow]
      norm_num [toBE]
      omega
    rw [this]; rfl
  | case5 a b c e =>
    intro h
    have ha := h a (by simp)
    have hb := h b (by simp)
    have hc := h c (by simp)
    have he := h e (by simp)
    have : encDigits 5 [a, b, c, e] = [a >>> 3, ((a &&& 0x07) <<< 2) + (b >>> 6), (b >>> 1) &&& 0x1f, ((b &&& 0x01) <<< 4) + (c >>> 4), ((c &&& 0x0f) <<< 1) + (e >>> 7), (e >>> 2) &&& 0x1f, (e &&& 0x03) <<< 3] := by
      simp only [encDigits, encLen, List.length_cons, List.length_nil, ofBE, List.foldl, and7, and1, and15, and3, and31]
      simp only [Nat.shiftLeft_eq, Nat.shiftRight_eq_div_pow]
      norm_num [toBE]
      omega
    rw [this]; rfl
  | case6 a b c e g r ih =>
    intro h
    have ha := h a (by simp)
    have hb := h b (by simp)
    have hc := h c (by simp)
    have he := h e (by simp)
    have hg := h g (by simp)
    have hr : ∀ x ∈ r, x < 256 := fun x hx => h x (by simp [hx])
    have := encDigits_block (k := 5) (by norm_num) [a, b, c, e, g] r 8 rfl hr
    rw [show [a, b, c, e, g] ++ r = a :: b :: c :: e :: g :: r from rfl] at this
    rw [ih hr, this, List.append_assoc, List.length_append, length_toBE]
    have hp : padLen 8 (8 + (encDigits 5 r).length) = padLen 8 (encDigits 5 r).length := by
      unfold padLen; rw [Nat.add_mod_left]
    rw [hp]
    congr 1
    simp only [ofBE, List.foldl, toBE, and7, and1, and15, and3, and31]
    simp only [Nat.shiftLeft_eq, Nat.shiftRight_eq_div_pow]
    norm_num
    omega

/-! ### base16 -/

/-- The bytes a base16 decoder writes. -/
def D16 : List Nat → List Nat
  | [] => []
  | [_] => []
  | a :: b :: r => ((a <<< 4) + b) :: D16 r

/-- Does the base16 decoder stop at this character? -/
def Dec.stop16 (d : Dec) (c : Nat) : Bool := (lookup d.table c).isNone && d.rejects c

/-- How the base16 decoder ends. -/
def Dec.final16 (d : Dec) (n : Nat) : Option Nat → Res
  | none => if d.strict && n % 2 != 0 then .premature else .done
  | some c => .invalid c

theorem decode16 (d : Dec) : ∀ cs : List Nat,
    (h0 d cs = (D16 (digitsOf (lookup d.table) d.stop16 cs),
      d.final16 (digitsOf (lookup d.table) d.stop16 cs).length (cs.find? d.stop16))) ∧
    (∀ a, h1 d a cs = (D16 (a :: digitsOf (lookup d.table) d.stop16 cs),
      d.final16 ((digitsOf (lookup d.table) d.stop16 cs).length + 1) (cs.find? d.stop16))) := by
  intro cs
  induction cs with
  | nil =>
    refine ⟨?_, fun a => ?_⟩
    · simp [h0, digitsOf, D16, Dec.final16]
    · simp only [h1, digitsOf, D16, Dec.final16, Dec.eof, List.takeWhile_nil, List.filterMap_nil, List.length_nil, List.find?_nil]
      cases d.strict <;> simp
  | cons c cs ih =>
    obtain ⟨i0, i1⟩ := ih
    cases hl : lookup d.table c with
    | some x =>
      have hs : d.stop16 c = false := by unfold Dec.stop16; simp [hl]
      rw [digits_some hs hl, List.find?_cons_of_neg (by simp [hs])]
      refine ⟨?_, fun a => ?_⟩
      · rw [h0, hl]; exact i1 x
      · rw [h1, hl]
        dsimp only
        rw [i0, List.length_cons]
        have : ∀ n o, d.final16 (n + 1 + 1) o = d.final16 n o := by
          intro n o; unfold Dec.final16; rw [show (n + 1 + 1) % 2 = n % 2 by omega]
        rw [this]
        simp only [emit, D16]
    | none =>
      cases hr : d.rejects c with
      | true =>
        have hs : d.stop16 c = true := by unfold Dec.stop16; simp [hl, hr]
        rw [digits_stop hs, List.find?_cons_of_pos hs]
        refine ⟨?_, fun a => ?_⟩
        · simp only [h0, hl, hr, if_true, D16, Dec.final16]
        · simp only [h1, hl, hr, if_true, D16, Dec.final16]
      | false =>
        have hs : d.stop16 c = false := by unfold Dec.stop16; simp [hr]
        rw [digits_none hs hl, List.find?_cons_of_neg (by simp [hs])]
        refine ⟨?_, fun a => ?_⟩
        · rw [h0, hl, hr]; exact i0
        · rw [h1, hl, hr]; exact i1 a

theorem D16_eq : ∀ ds : List Nat, (∀ x ∈ ds, x < 16) → D16 ds = decBytes 4 ds := by
  intro ds
  fun_induction D16 ds with
  | case1 => intro _; rfl
  | case2 a => intro _; simp [decBytes, toBE]
  | case3 a b r ih =>
    intro hyp
    have ha := hyp a (by simp)
    have hb := hyp b (by simp)
    have hr : ∀ x ∈ r, x < 16 := fun x hx => hyp x (by simp [hx])
    have := decBytes_block (k := 4) [a, b] r 1 rfl hr
    rw [show [a, b] ++ r = a :: b :: r from rfl] at this
    rw [this, ih hr]
    rw [show ∀ p : Nat, p :: decBytes 4 r = [p] ++ decBytes 4 r from fun _ => rfl]
    congr 1
    simp only [ofBE, List.foldl, toBE]
    simp only [Nat.shiftLeft_eq]
    norm_num
    omega

theorem E16_eq : ∀ bs : List Nat, (∀ b ∈ bs, b < 256) → bs.flatMap (fun b => [b >>> 4, b &&& 0x0f]) = encDigits 4 bs := by
  intro bs
  induction bs with
  | nil => intro _; rfl
  | cons b bs ih =>
    intro hyp
    have hb := hyp b (by simp)
    have hr : ∀ x ∈ bs, x < 256 := fun x hx => hyp x (by simp [hx])
    have := encDigits_block (k := 4) (by norm_num) [b] bs 2 rfl hr
    rw [show [b] ++ bs = b :: bs from rfl] at this
    rw [this, List.flatMap_cons, ih hr]
    congr 1
    simp only [ofBE, List.foldl, toBE, and15]
    simp only [Nat.shiftRight_eq_div_pow]
    norm_num
    omega

end Gauche.Base64
