import Verif.Model.Base64
import Verif.Proof.Radix
namespace Gauche.Base64
open Radix

theorem and15 (x : Nat) : x &&& 0x0f = x % 16 := Nat.and_two_pow_sub_one_eq_mod x 4
theorem and3 (x : Nat) : x &&& 0x03 = x % 4 := Nat.and_two_pow_sub_one_eq_mod x 2
theorem and7 (x : Nat) : x &&& 0x07 = x % 8 := Nat.and_two_pow_sub_one_eq_mod x 3
theorem and1 (x : Nat) : x &&& 0x01 = x % 2 := Nat.and_two_pow_sub_one_eq_mod x 1
theorem and31 (x : Nat) : x &&& 0x1f = x % 32 := Nat.and_two_pow_sub_one_eq_mod x 5
theorem and63 (x : Nat) : x &&& 0x3f = x % 64 := Nat.and_two_pow_sub_one_eq_mod x 6

/-- Does the decoder stop at this character? -/
def Dec.stop (d : Dec) (c : Nat) : Bool := c == eqSign || ((lookup d.table c).isNone && d.rejects c)

/-- How the decoder ends after `n` digits, given the character it stopped at. -/
def Dec.final (d : Dec) (per n : Nat) : Option Nat → Res
  | none => if d.strict && n % per != 0 then .premature else .done
  | some c => if c = eqSign then .done else .invalid c

theorem digits_stop {dg : Nat → Option Nat} {stop : Nat → Bool} {c : Nat} {cs : List Nat} (h : stop c = true) :
    digitsOf dg stop (c :: cs) = [] := by
  unfold digitsOf; rw [List.takeWhile_cons_of_neg (by rw [h]; simp)]; rfl

theorem digits_some {dg : Nat → Option Nat} {stop : Nat → Bool} {c x : Nat} {cs : List Nat} (h : stop c = false)
    (hx : dg c = some x) : digitsOf dg stop (c :: cs) = x :: digitsOf dg stop cs := by
  unfold digitsOf; rw [List.takeWhile_cons_of_pos (by rw [h]; simp), List.filterMap_cons_some hx]

theorem digits_none {dg : Nat → Option Nat} {stop : Nat → Bool} {c : Nat} {cs : List Nat} (h : stop c = false)
    (hx : dg c = none) : digitsOf dg stop (c :: cs) = digitsOf dg stop cs := by
  unfold digitsOf; rw [List.takeWhile_cons_of_pos (by rw [h]; simp), List.filterMap_cons_none hx]

/-- The digits of an input. -/
def Dec.digits (d : Dec) (cs : List Nat) : List Nat := digitsOf (lookup d.table) d.stop cs

/-- The case analysis of the macro `state`. -/
theorem state_cases (d : Dec) (c : Nat) (cs : List Nat) :
    (c = eqSign ∧ d.digits (c :: cs) = [] ∧ (c :: cs).find? d.stop = some c) ∨
    (c ≠ eqSign ∧ ∃ x, lookup d.table c = some x ∧ d.digits (c :: cs) = x :: d.digits cs ∧
      (c :: cs).find? d.stop = cs.find? d.stop ∧ d.stop c = false) ∨
    (c ≠ eqSign ∧ lookup d.table c = none ∧ d.rejects c = true ∧ d.digits (c :: cs) = [] ∧ (c :: cs).find? d.stop = some c) ∨
    (c ≠ eqSign ∧ lookup d.table c = none ∧ d.rejects c = false ∧ d.digits (c :: cs) = d.digits cs ∧
      (c :: cs).find? d.stop = cs.find? d.stop ∧ d.stop c = false) := by
  by_cases h1 : c = eqSign
  · left
    have hs : d.stop c = true := by unfold Dec.stop; simp [h1]
    exact ⟨h1, digits_stop hs, List.find?_cons_of_pos hs⟩
  · right
    cases hl : lookup d.table c with
    | some x =>
      left
      have hs : d.stop c = false := by unfold Dec.stop; simp [h1, hl]
      exact ⟨h1, x, rfl, digits_some hs hl, List.find?_cons_of_neg (by simp [hs]), hs⟩
    | none =>
      right
      cases hr : d.rejects c with
      | true =>
        left
        have hs : d.stop c = true := by unfold Dec.stop; simp [hl, hr]
        exact ⟨h1, rfl, rfl, digits_stop hs, List.find?_cons_of_pos hs⟩
      | false =>
        right
        have hs : d.stop c = false := by unfold Dec.stop; simp [h1, hr]
        exact ⟨h1, rfl, rfl, digits_none hs hl, List.find?_cons_of_neg (by simp [hs]), hs⟩

/-- The bytes a base64 decoder writes for a digit sequence. -/
def D64 : List Nat → List Nat
  | [] => []
  | [_] => []
  | [a, b] => [(a <<< 2) + (b >>> 4)]
  | [a, b, c] => [(a <<< 2) + (b >>> 4), ((b &&& 0x0f) <<< 4) + (c >>> 2)]
  | a :: b :: c :: e :: r =>
    ((a <<< 2) + (b >>> 4)) :: (((b &&& 0x0f) <<< 4) + (c >>> 2)) :: (((c &&& 0x03) <<< 6) + e) :: D64 r

theorem final_nil (d : Dec) (per n : Nat) (h : n % per ≠ 0) : d.final per n none = d.eof := by
  unfold Dec.final Dec.eof
  cases d.strict <;> simp [h]

theorem final_zero (d : Dec) (per n : Nat) (h : n % per = 0) : d.final per n none = .done := by
  unfold Dec.final; simp [h]

theorem final_add (d : Dec) (per n : Nat) (o : Option Nat) : d.final per (n + per) o = d.final per n o := by
  unfold Dec.final; rw [Nat.add_mod_right]

theorem final_invalid (d : Dec) (per n : Nat) {c : Nat} (h : c ≠ eqSign) : d.final per n (some c) = .invalid c := by
  unfold Dec.final; dsimp only; rw [if_neg h]
theorem final_eqSign (d : Dec) (per n : Nat) : d.final per n (some eqSign) = .done := by
  unfold Dec.final; dsimp only; rw [if_pos rfl]

theorem decode64 (d : Dec) : ∀ cs : List Nat,
    (d0 d cs = (D64 (d.digits cs), d.final 4 (d.digits cs).length (cs.find? d.stop))) ∧
    (∀ a, d1 d a cs = (D64 (a :: d.digits cs), d.final 4 ((d.digits cs).length + 1) (cs.find? d.stop))) ∧
    (∀ a b, emit ((a <<< 2) + (b >>> 4)) (d2 d (b &&& 0x0f) cs)
      = (D64 (a :: b :: d.digits cs), d.final 4 ((d.digits cs).length + 2) (cs.find? d.stop))) ∧
    (∀ a b c, emit ((a <<< 2) + (b >>> 4)) (emit (((b &&& 0x0f) <<< 4) + (c >>> 2)) (d3 d (c &&& 0x03) cs))
      = (D64 (a :: b :: c :: d.digits cs), d.final 4 ((d.digits cs).length + 3) (cs.find? d.stop))) := by
  intro cs
  induction cs with
  | nil =>
    have hd : d.digits [] = [] := rfl
    rw [hd, List.find?_nil]
    refine ⟨?_, fun a => ?_, fun a b => ?_, fun a b c => ?_⟩
    · rw [final_zero _ _ _ rfl]; rfl
    · rw [final_nil _ _ _ (by decide)]; rfl
    · rw [final_nil _ _ _ (by decide)]; rfl
    · rw [final_nil _ _ _ (by decide)]; rfl
  | cons c cs ih =>
    obtain ⟨i0, i1, i2, i3⟩ := ih
    rcases state_cases d c cs with ⟨h1, h2, h3⟩ | ⟨h1, x, h2, h3, h4, _⟩ | ⟨h1, h2, h3, h4, h5⟩ | ⟨h1, h2, h3, h4, h5, _⟩
    · rw [h2, h3]
      subst h1
      simp only [final_eqSign]
      refine ⟨?_, fun a => ?_, fun a b => ?_, fun a b c => ?_⟩ <;>
        simp only [d0, d1, d2, d3, if_true, emit, D64]
    · rw [h3, h4]
      refine ⟨?_, fun a => ?_, fun a b => ?_, fun a b c' => ?_⟩
      · rw [d0, if_neg h1, h2]; exact i1 x
      · rw [d1, if_neg h1, h2]; exact i2 a x
      · rw [d2, if_neg h1, h2]; exact i3 a b x
      · rw [d3, if_neg h1, h2]
        dsimp only
        rw [i0, List.length_cons, show (d.digits cs).length + 1 + 3 = (d.digits cs).length + 4 by rfl, final_add]
        simp only [emit, D64]
    · rw [h4, h5, final_invalid _ _ _ h1, final_invalid _ _ _ h1, final_invalid _ _ _ h1, final_invalid _ _ _ h1]
      refine ⟨?_, fun a => ?_, fun a b => ?_, fun a b c' => ?_⟩ <;>
        simp only [d0, d1, d2, d3, if_neg h1, h2, h3, if_true, emit, D64]
    · rw [h4, h5]
      refine ⟨?_, fun a => ?_, fun a b => ?_, fun a b c' => ?_⟩
      · rw [d0, if_neg h1, h2, h3]; exact i0
      · rw [d1, if_neg h1, h2, h3]; exact i1 a
      · rw [d2, if_neg h1, h2, h3]; exact i2 a b
      · rw [d3, if_neg h1, h2, h3]; exact i3 a b c'

theorem D64_eq : ∀ ds : List Nat, (∀ x ∈ ds, x < 64) → D64 ds = decBytes 6 ds := by
  intro ds
  fun_induction D64 ds with
  | case1 => intro _; rfl
  | case2 a => intro _; simp [decBytes, toBE]
  | case3 a b =>
    intro h
    have ha := h a (by simp); have hb := h b (by simp)
    simp only [decBytes, List.length_cons, List.length_nil, ofBE, List.foldl, toBE]
    simp only [Nat.shiftLeft_eq, Nat.shiftRight_eq_div_pow]
    norm_num
    omega
  | case4 a b c =>
    intro h
    have ha := h a (by simp); have hb := h b (by simp); have hc := h c (by simp)
    simp only [decBytes, List.length_cons, List.length_nil, ofBE, List.foldl, toBE, and15]
    simp only [Nat.shiftLeft_eq, Nat.shiftRight_eq_div_pow]
    norm_num
    omega
  | case5 a b c e r ih =>
    intro h
    have ha := h a (by simp); have hb := h b (by simp); have hc := h c (by simp); have he := h e (by simp)
    have hr : ∀ x ∈ r, x < 64 := fun x hx => h x (by simp [hx])
    have := decBytes_block (k := 6) [a, b, c, e] r 3 rfl hr
    rw [show [a, b, c, e] ++ r = a :: b :: c :: e :: r from rfl] at this
    rw [this, ih hr]
    rw [show ∀ p q s : Nat, p :: q :: s :: decBytes 6 r = [p, q, s] ++ decBytes 6 r from fun _ _ _ => rfl]
    congr 1
    simp only [ofBE, List.foldl, toBE, and15, and3]
    simp only [Nat.shiftLeft_eq, Nat.shiftRight_eq_div_pow]
    norm_num
    omega

/-! ### encoder -/

theorem emits_append (e : Enc) (a b : List Nat) : ∀ col, emits e col (a ++ b) =
    ((emits e col a).1 ++ (emits e (emits e col a).2 b).1, (emits e (emits e col a).2 b).2) := by
  induction a with
  | nil => intro col; rfl
  | cons x a ih => intro col; simp only [List.cons_append, emits, ih, List.append_assoc]

/-- The indices a base64 encoder emits. -/
def E64 (np : Bool) : List Nat → List Nat
  | [] => []
  | [a] => [a >>> 2, (a &&& 0x03) <<< 4] ++ if np then [] else [64, 64]
  | [a, b] => [a >>> 2, ((a &&& 0x03) <<< 4) + (b >>> 4), (b &&& 0x0f) <<< 2] ++ if np then [] else [64]
  | a :: b :: c :: r => [a >>> 2, ((a &&& 0x03) <<< 4) + (b >>> 4), ((b &&& 0x0f) <<< 2) + (c >>> 6), c &&& 0x3f] ++ E64 np r

theorem encode64 (e : Enc) : ∀ (bs : List Nat) (col : Nat), e0 e col bs = (emits e col (E64 e.omitPadding bs)).1 := by
  intro bs
  fun_induction E64 e.omitPadding bs with
  | case1 => intro col; rfl
  | case2 a =>
    intro col
    rw [e0, e1]
    cases e.omitPadding <;> simp [emits]
  | case3 a b =>
    intro col
    rw [e0, e1, e2]
    cases e.omitPadding <;> simp [emits]
  | case4 a b c r ih =>
    intro col
    rw [e0, e1, e2, emits_append]
    dsimp only
    rw [ih]
    simp [emits]

theorem E64_eq (np : Bool) : ∀ bs : List Nat, (∀ b ∈ bs, b < 256) →
    E64 np bs = encDigits 6 bs ++ if np then [] else List.replicate (padLen 4 (encDigits 6 bs).length) 64 := by
  intro bs
  fun_induction E64 np bs with
  | case1 => intro _; cases np <;> rfl
  | case2 a =>
    intro h
    have ha := h a (by simp)
    have : encDigits 6 [a] = [a >>> 2, (a &&& 0x03) <<< 4] := by
      simp only [encDigits, encLen, List.length_cons, List.length_nil, ofBE, List.foldl, and3]
      simp only [Nat.shiftLeft_eq, Nat.shiftRight_eq_div_pow]
      norm_num [toBE]
      omega
    rw [this]; rfl
  | case3 a b =>
    intro h
    have ha := h a (by simp); have hb := h b (by simp)
    have : encDigits 6 [a, b] = [a >>> 2, ((a &&& 0x03) <<< 4) + (b >>> 4), (b &&& 0x0f) <<< 2] := by
      simp only [encDigits, encLen, List.length_cons, List.length_nil, ofBE, List.foldl, and3, and15]
      simp only [Nat.shiftLeft_eq, Nat.shiftRight_eq_div_pow]
      norm_num [toBE]
      omega
    rw [this]; rfl
  | case4 a b c r ih =>
    intro h
    have ha := h a (by simp); have hb := h b (by simp); have hc := h c (by simp)
    have hr : ∀ x ∈ r, x < 256 := fun x hx => h x (by simp [hx])
    have := encDigits_block (k := 6) (by norm_num) [a, b, c] r 4 rfl hr
    rw [show [a, b, c] ++ r = a :: b :: c :: r from rfl] at this
    rw [ih hr, this, List.append_assoc, List.length_append, length_toBE]
    have hp : padLen 4 (4 + (encDigits 6 r).length) = padLen 4 (encDigits 6 r).length := by
      unfold padLen; rw [Nat.add_mod_left]
    rw [hp]
    congr 1
    simp only [ofBE, List.foldl, toBE, and15, and3, and63]
    simp only [Nat.shiftLeft_eq, Nat.shiftRight_eq_div_pow]
    norm_num
    omega

/-! ### line folding -/

theorem emits_eq (e : Enc) (lw : Option Int) (hm : e.maxcol = maxcolOf lw) : ∀ (is : List Nat) (col i : Nat),
    (∀ w : Int, lw = some w → 0 < w → (col : Int) = (i : Int) % w) →
    (emits e col is).1 = foldLines lw i (is.map (fun x => e.table.getD x 0)) := by
  intro is
  induction is with
  | nil => intro col i _; rfl
  | cons x is ih =>
    intro col i hc
    rw [List.map_cons, foldLines, emits, emit1, hm]
    cases lw with
    | none =>
      have h1 : ¬ some col = maxcolOf none := by simp [maxcolOf]
      rw [if_neg h1]
      have h2 : breakAfter none i = false := rfl
      rw [h2, if_neg (by simp), List.singleton_append, ih _ (i + 1) (by intro w hw; cases hw)]
    | some w =>
      by_cases hw : 0 < w
      · have hcol := hc w rfl hw
        have hmx : maxcolOf (some w) = some (w - 1).toNat := by unfold maxcolOf; dsimp only; rw [if_pos hw]
        have hlt := Int.emod_lt_of_pos (i : Int) hw
        have hnn := Int.emod_nonneg (i : Int) (by omega : w ≠ 0)
        have hadd : ((i : Int) + 1) % w = ((i : Int) % w + 1) % w := by rw [Int.emod_add_emod]
        rw [hmx]
        by_cases hend : (i : Int) % w = w - 1
        · have h0 : ((i : Int) + 1) % w = 0 := by rw [hadd, hend]; simp
          have h1 : some col = some (w - 1).toNat := by congr 1; omega
          rw [if_pos h1]
          have h2 : breakAfter (some w) i = true := by unfold breakAfter; simp [hw, h0]
          rw [h2, if_pos rfl, List.cons_append, List.singleton_append]
          rw [ih 0 (i + 1)]
          · rfl
          · intro w' hw' _
            injection hw' with hw'
            subst hw'
            push_cast
            rw [h0]
        · have h0 : ((i : Int) + 1) % w = (i : Int) % w + 1 := by
            rw [hadd]; exact Int.emod_eq_of_lt (by omega) (by omega)
          have h1 : ¬ some col = some (w - 1).toNat := by
            intro h; injection h with h; omega
          rw [if_neg h1]
          have h2 : breakAfter (some w) i = false := by
            unfold breakAfter
            simp only [decide_eq_false_iff_not]
            rintro ⟨_, h3⟩; omega
          rw [h2, if_neg (by simp), List.singleton_append, ih _ (i + 1)]
          intro w' hw' _
          injection hw' with hw'
          subst hw'
          push_cast
          rw [h0]; omega
      · have hmx : maxcolOf (some w) = none := by
          unfold maxcolOf; dsimp only; rw [if_neg]; exact hw
        rw [hmx, if_neg (by simp)]
        have h2 : breakAfter (some w) i = false := by
          unfold breakAfter
          simp only [decide_eq_false_iff_not]
          rintro ⟨h3, _⟩; exact hw h3
        rw [h2, if_neg (by simp), List.singleton_append, ih _ (i + 1)]
        intro w' hw' h3
        injection hw' with hw'
        subst hw'; exact absurd h3 hw

/-! ### what the decoder reads in folded text -/

theorem digits_foldLines (d : Dec) (lw : Option Int) (hws : d.ws 10 = true) (hnl : lookup d.table 10 = none) :
    ∀ (s : List Nat) (i : Nat), d.digits (foldLines lw i s) = d.digits s := by
  have h10 : ∀ cs, d.digits (10 :: cs) = d.digits cs := by
    intro cs
    have hs : d.stop 10 = false := by
      unfold Dec.stop Dec.rejects; simp [hws, eqSign]
    exact digits_none hs hnl
  intro s
  induction s with
  | nil => intro i; rfl
  | cons c s ih =>
    intro i
    rw [foldLines]
    have hc : ∀ t u, d.digits t = d.digits u → d.digits (c :: t) = d.digits (c :: u) := by
      intro t u h
      rcases state_cases d c t with ⟨_, h2, _⟩ | ⟨_, x, _, h3, _⟩ | ⟨_, _, _, h4, _⟩ | ⟨_, _, _, h4, _⟩ <;>
      rcases state_cases d c u with ⟨_, g2, _⟩ | ⟨_, y, _, g3, _⟩ | ⟨_, _, _, g4, _⟩ | ⟨_, _, _, g4, _⟩ <;> simp_all
    by_cases hb : breakAfter lw i = true
    · rw [if_pos hb]
      exact hc _ _ (by rw [h10, ih])
    · rw [if_neg hb]
      exact hc _ _ (ih _)

theorem find_foldLines (stop : Nat → Bool) (lw : Option Int) (hnl : stop 10 = false) :
    ∀ (s : List Nat) (i : Nat), (foldLines lw i s).find? stop = s.find? stop := by
  intro s
  induction s with
  | nil => intro i; rfl
  | cons c s ih =>
    intro i
    rw [foldLines]
    by_cases hb : breakAfter lw i = true
    · rw [if_pos hb, List.find?_cons, List.find?_cons, List.find?_cons, hnl]
      dsimp only
      rw [ih]
    · rw [if_neg hb, List.find?_cons, List.find?_cons, ih]

/-- The digits of an encoded text: characters of the table, then perhaps padding. -/
theorem digits_encoded (d : Dec) (enc : List Nat) (B : Nat) (hinv : ∀ x < B, lookup d.table (enc.getD x 0) = some x)
    (hne : ∀ x < B, enc.getD x 0 ≠ eqSign) (hpad : enc.getD B 0 = eqSign) :
    ∀ (ds : List Nat) (n : Nat), (∀ x ∈ ds, x < B) →
    d.digits ((ds ++ List.replicate n B).map (fun x => enc.getD x 0)) = ds ∧
    ((ds ++ List.replicate n B).map (fun x => enc.getD x 0)).find? d.stop = if n = 0 then none else some eqSign := by
  intro ds n
  induction ds with
  | nil =>
    intro _
    cases n with
    | zero => exact ⟨rfl, rfl⟩
    | succ n =>
      rw [List.nil_append, List.replicate_succ, List.map_cons, hpad]
      have hs : d.stop eqSign = true := by unfold Dec.stop; simp
      exact ⟨digits_stop hs, by rw [List.find?_cons_of_pos hs]; rfl⟩
  | cons x ds ih =>
    intro h
    obtain ⟨i1, i2⟩ := ih (fun y hy => h y (by simp [hy]))
    have hx := h x (by simp)
    rw [List.cons_append, List.map_cons]
    have hs : d.stop (enc.getD x 0) = false := by
      unfold Dec.stop
      rw [hinv x hx, beq_false_of_ne (hne x hx)]
      rfl
    refine ⟨?_, ?_⟩
    · exact (digits_some hs (hinv x hx)).trans (congrArg (List.cons x) i1)
    · rw [List.find?_cons_of_neg (p := d.stop) (a := enc.getD x 0) (by rw [hs]; exact Bool.false_ne_true), i2]

end Gauche.Base64
