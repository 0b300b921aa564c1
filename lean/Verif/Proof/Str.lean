import Verif.Spec.Str
import Verif.Proof.Utf8
import Mathlib.Tactic.Ring

namespace Gauche.Str
open Gauche.Utf8 Gauche.Spec.Utf8

@[simp] theorem blen_nil : blen [] = 0 := rfl

theorem blen_cons (c : Nat) (cs : List Nat) : blen (c :: cs) = nbytes c + blen cs := by
  simp [blen, encodeAll_cons, encode_length]

theorem blen_append (cs ds : List Nat) : blen (cs ++ ds) = blen cs + blen ds := by
  simp [blen, encodeAll_append]

theorem len_le_blen (cs : List Nat) : cs.length ≤ blen cs := by
  induction cs with
  | nil => simp
  | cons c cs ih => rw [blen_cons, List.length_cons]; have := nbytes_pos c; omega

theorem pos_zero (cs : List Nat) : pos cs 0 = 0 := by simp [pos]

theorem pos_len (cs : List Nat) (n : Nat) (h : cs.length ≤ n) : pos cs n = blen cs := by
  simp [pos, List.take_of_length_le h]

theorem pos_add (cs : List Nat) (k n : Nat) : pos cs (k + n) = pos cs k + pos (cs.drop k) n := by
  simp only [pos, List.take_add, blen_append]

theorem pos_le (cs : List Nat) (n : Nat) : pos cs n ≤ blen cs := by
  have := pos_add cs n (cs.length)
  rw [pos_len cs (n + cs.length) (by omega)] at this
  omega

theorem pos_mono (cs : List Nat) {k n : Nat} (h : k ≤ n) : pos cs k ≤ pos cs n := by
  obtain ⟨d, rfl⟩ := Nat.exists_eq_add_of_le h
  rw [pos_add]; omega

theorem pos_lt (cs : List Nat) {k n : Nat} (h : k < n) (hk : k < cs.length) : pos cs k < pos cs n := by
  have h1 := pos_mono cs (Nat.succ_le_of_lt h)
  have h2 : pos cs (k + 1) = pos cs k + pos (cs.drop k) 1 := pos_add _ _ _
  have h3 : 1 ≤ pos (cs.drop k) 1 := by
    rw [List.drop_eq_getElem_cons hk, pos]
    simp only [List.take_succ_cons, List.take_zero, blen_cons, blen_nil]
    have := nbytes_pos cs[k]; omega
  simp only [Nat.succ_eq_add_one] at h1
  omega

theorem holds_adv {m : Mem} {cs : List Nat} (h : Holds m (encodeAll cs)) (k : Nat) :
    Holds (adv m (pos cs k)) (encodeAll (cs.drop k)) := by
  have e : cs = cs.take k ++ cs.drop k := (List.take_append_drop k cs).symm
  rw [e, encodeAll_append, holds_append] at h
  exact h.2

theorem holds_take {m : Mem} {cs : List Nat} (h : Holds m (encodeAll cs)) (k : Nat) :
    Holds m (encodeAll (cs.take k)) := by
  have e : cs = cs.take k ++ cs.drop k := (List.take_append_drop k cs).symm
  rw [e, encodeAll_append, holds_append] at h
  exact h.1

theorem codes_drop {cs : List Nat} (h : ∀ c ∈ cs, IsCode c) (k : Nat) : ∀ c ∈ cs.drop k, IsCode c :=
  fun c hc => h c (List.mem_of_mem_drop hc)

theorem codes_take {cs : List Nat} (h : ∀ c ∈ cs, IsCode c) (k : Nat) : ∀ c ∈ cs.take k, IsCode c :=
  fun c hc => h c (List.mem_of_mem_take hc)

theorem adv_adv (m : Mem) (a b : Nat) : adv (adv m a) b = adv m (a + b) := by
  funext i; simp [adv, Nat.add_assoc]

@[simp] theorem adv_zero (m : Mem) : adv m 0 = m := by funext i; simp [adv]

theorem holds_cons_code {m : Mem} {c : Nat} {cs : List Nat} (h : Holds m (encodeAll (c :: cs))) :
    Holds m (encode c) ∧ Holds (adv m (nbytes c)) (encodeAll cs) := by
  rw [encodeAll_cons, holds_append, encode_length] at h
  exact h

theorem countLength_holds (cs : List Nat) (hc : ∀ c ∈ cs, IsCode c) (m : Mem) (h : Holds m (encodeAll cs)) :
    countLength m (blen cs) = some cs.length := by
  induction cs generalizing m with
  | nil => simp [countLength]
  | cons c cs ih =>
    have hh := holds_cons_code h
    have hcc := hc c (by simp)
    have hl := lead_len c hcc m hh.1
    have hg := charGet_encode c m hcc hh.1
    rw [blen_cons]
    have e : nbytes c + blen cs = (nfollows (m 0) + blen cs) + 1 := by omega
    rw [e, countLength]
    simp only [hg]
    rw [if_neg (by omega)]
    have e2 : nfollows (m 0) + blen cs - nfollows (m 0) = blen cs := by omega
    rw [e2, hl, ih (fun x hx => hc x (by simp [hx])) _ hh.2]
    simp

theorem countLength_some (m : Mem) (size n : Nat) (h : countLength m size = some n) :
    ∃ cs : List Nat, (∀ c ∈ cs, IsCode c) ∧ cs.length = n ∧ blen cs = size ∧ Holds m (encodeAll cs) := by
  induction size using Nat.strongRecOn generalizing m n with
  | ind size ih =>
    cases size with
    | zero => exact ⟨[], by simp_all [countLength]⟩
    | succ size =>
      rw [countLength] at h
      split at h
      · cases h
      · cases hg : charGet m with
        | none => simp [hg] at h
        | some c =>
          simp only [hg, Option.map_eq_some_iff] at h
          obtain ⟨k, hk, rfl⟩ := h
          obtain ⟨hcc, hh⟩ := encode_of_charGet c m hg
          have hl := lead_len c hcc m hh
          obtain ⟨cs, h1, h2, h3, h4⟩ := ih (size - nfollows (m 0)) (by omega) _ _ hk
          refine ⟨c :: cs, ?_, by simp [h2], by rw [blen_cons]; omega, ?_⟩
          · intro x hx
            rcases List.mem_cons.1 hx with rfl | hx
            · exact hcc
            · exact h1 x hx
          · rw [encodeAll_cons, holds_append, encode_length, ← hl]
            exact ⟨hh, h4⟩

theorem fwd_pos (m : Mem) (cs : List Nat) (hc : ∀ c ∈ cs, IsCode c) (h : Holds m (encodeAll cs)) (k n : Nat)
    (hn : k + n ≤ cs.length) : fwd m (pos cs k) n = pos cs (k + n) := by
  induction n generalizing k with
  | zero => simp [fwd]
  | succ n ih =>
    rw [fwd]
    have hk : k < cs.length := by omega
    have hd := holds_adv h k
    rw [List.drop_eq_getElem_cons hk] at hd
    have hh := holds_cons_code hd
    have hl := lead_len _ (hc _ (List.getElem_mem hk)) _ hh.1
    have e : nfollows (m (pos cs k)) + 1 = nbytes cs[k] := by simpa [adv] using hl
    have e2 : pos cs (k + 1) = pos cs k + nbytes cs[k] := by
      rw [pos_add, List.drop_eq_getElem_cons hk]
      simp only [pos, List.take_succ_cons, List.take_zero, blen_cons, blen_nil, Nat.add_zero]
    rw [e, ← e2, ih (k + 1) (by omega)]
    congr 1; omega

/-- All characters are single bytes. -/
theorem single {cs : List Nat} (h : blen cs = cs.length) : ∀ c ∈ cs, c < 0x80 := by
  induction cs with
  | nil => simp
  | cons c cs ih =>
    rw [blen_cons, List.length_cons] at h
    have h1 := len_le_blen cs
    have h2 := nbytes_pos c
    have h3 : nbytes c = 1 := by omega
    intro x hx
    rcases List.mem_cons.1 hx with rfl | hx
    · unfold nbytes at h3
      by_contra hcon
      rw [if_neg hcon] at h3
      split_ifs at h3 <;> omega
    · exact ih (by omega) x hx

theorem blen_ascii {cs : List Nat} (h : ∀ c ∈ cs, c < 0x80) : blen cs = cs.length := by
  induction cs with
  | nil => rfl
  | cons c cs ih =>
    rw [blen_cons, ih (fun x hx => h x (by simp [hx])), List.length_cons, nbytes, if_pos (h c (by simp))]
    omega

theorem pos_single {cs : List Nat} (h : blen cs = cs.length) (n : Nat) (hn : n ≤ cs.length) : pos cs n = n := by
  rw [pos, blen_ascii (fun c hc => single h c (List.mem_of_mem_take hc))]
  simp; omega

theorem forwardPos_eq {b : Body} {cs : List Nat} (h : Is b cs) (k n : Nat) (hn : k + n ≤ cs.length) :
    forwardPos b (pos cs k) n = pos cs (k + n) := by
  unfold forwardPos
  split
  · rename_i hs
    rw [h.complete, Bool.or_false, singleByteP, beq_iff_eq, h.size, h.len] at hs
    rw [pos_single hs _ (by omega), pos_single hs _ (by omega)]
  · exact fwd_pos b.mem cs h.codes h.holds k n hn

theorem buildLoop_getD {b : Body} {cs : List Nat} (h : Is b cs) (width interval : Nat) (hw : blen cs < 2 ^ width)
    (k n j : Nat) (hj : j < n) (hn : k + n * interval ≤ cs.length) :
    (buildLoop b width interval (pos cs k) n).getD j 0 = pos cs (k + (j + 1) * interval) := by
  induction n generalizing k j with
  | zero => omega
  | succ n ih =>
    have e : k + (n + 1) * interval = (k + interval) + n * interval := by ring
    rw [buildLoop]
    rw [forwardPos_eq h k interval (by omega)]
    cases j with
    | zero =>
      rw [List.getD_cons_zero, Nat.mod_eq_of_lt]
      · congr 1; omega
      · exact Nat.lt_of_le_of_lt (pos_le _ _) hw
    | succ j =>
      rw [List.getD_cons_succ, ih (k + interval) j (by omega) (by omega)]
      congr 1; ring

theorem buildLoop_length (b : Body) (width interval p n : Nat) : (buildLoop b width interval p n).length = n := by
  induction n generalizing p with
  | zero => rfl
  | succ n ih => simp [buildLoop, ih]

theorem index2ptr_none {b : Body} {cs : List Nat} (h : Is b cs) (hi : b.index = none) (n : Nat)
    (hn : n ≤ cs.length) : index2ptr b n = some (pos cs n) := by
  have := forwardPos_eq h 0 n (by omega)
  rw [pos_zero, Nat.zero_add] at this
  simp [index2ptr, hi, this]

/-- Lookup through an array of the shape `BUILD_ARRAY` makes. -/
theorem index2ptr_array {b b0 : Body} {cs : List Nat} (h : Is b cs) (h0 : Is b0 cs) (width shift : Nat)
    (hw : blen cs < 2 ^ width) (hw1 : cs.length / 2 ^ shift + 2 < 2 ^ width)
    (hi : b.index = some (buildArray b0 width shift)) (n : Nat) (hn : n ≤ cs.length) :
    index2ptr b n =
      if n = cs.length ∧ 2 ^ shift ≤ n ∧ n % 2 ^ shift = 0 then none else some (pos cs n) := by
  have hp : 0 < 2 ^ shift := Nat.two_pow_pos _
  have hdm := Nat.div_add_mod n (2 ^ shift)
  have hdl := Nat.div_add_mod cs.length (2 ^ shift)
  have hml := Nat.mod_lt cs.length hp
  have hmn := Nat.mod_lt n hp
  have hdle : n / 2 ^ shift ≤ cs.length / 2 ^ shift := Nat.div_le_div_right hn
  -- the size of the array
  obtain ⟨S, hcis, hS⟩ : ∃ S, computeIndexSize b0 (2 ^ shift) = S ∧
      ((cs.length % 2 ^ shift = 0 ∧ S = cs.length / 2 ^ shift + 1) ∨
        (cs.length % 2 ^ shift ≠ 0 ∧ S = cs.length / 2 ^ shift + 2)) := by
    refine ⟨_, rfl, ?_⟩
    rw [computeIndexSize, h0.len]
    generalize 2 ^ shift = I at *
    generalize hq : cs.length / I = q at *
    generalize hr : cs.length % I = r at *
    by_cases hr0 : r = 0
    · left
      have e : cs.length + I - 1 = I * q + (I - 1) := by omega
      rw [e, Nat.mul_add_div hp, Nat.div_eq_of_lt (by omega)]
      exact ⟨hr0, by omega⟩
    · right
      have e : cs.length + I - 1 = I * q + (I + (r - 1)) := by omega
      rw [e, Nat.mul_add_div hp, Nat.add_div_left _ hp, Nat.div_eq_of_lt (by omega)]
      exact ⟨hr0, by omega⟩
  unfold index2ptr
  rw [hi]
  simp only [buildArray, Nat.one_shiftLeft, Nat.shiftRight_eq_div_pow, Nat.and_two_pow_sub_one_eq_mod, hcis]
  have hI := rfl (a := 2 ^ shift)
  generalize 2 ^ shift = I at *
  have hb : n / I * I + n % I = n := by rw [Nat.mul_comm]; exact hdm
  have hqle : cs.length / I * I ≤ cs.length := Nat.div_mul_le_self _ _
  generalize hqn : n / I = q at *
  generalize hrn : n % I = r at *
  generalize hqN : cs.length / I = Q at *
  generalize hrN : cs.length % I = R at *
  by_cases hz : q = 0
  · subst hz
    rw [if_neg (by omega), if_neg (by omega)]
    have := forwardPos_eq h 0 n (by omega)
    rw [pos_zero, Nat.zero_add] at this
    rw [show r = n from by omega, this]
  · obtain ⟨k, rfl⟩ : ∃ k, q = k + 1 := ⟨q - 1, by omega⟩
    have hge : I ≤ n := by
      have : I * (k + 1) = I * k + I := by ring
      omega
    rw [if_pos (by omega), List.getD_cons_succ, List.getD_cons_zero, Nat.mod_eq_of_lt (by omega)]
    by_cases hend : n = cs.length ∧ r = 0
    · rw [if_neg, if_pos ⟨hend.1, hge, hend.2⟩]
      obtain ⟨e1, e2⟩ := hend
      subst e1
      omega
    · have hlt : k + 1 + 1 < S := by
        rcases hS with ⟨hR, hS⟩ | ⟨hR, hS⟩
        · by_contra hcon
          have e : k + 1 = Q := by omega
          subst e
          exact hend ⟨by omega, by omega⟩
        · omega
      rw [if_pos hlt, if_neg (by tauto), List.getD_cons_succ, List.getD_cons_succ]
      have hg := buildLoop_getD h0 width I hw 0 (S - 2) k (by omega) (by
        have h3 : (S - 2) * I ≤ Q * I := Nat.mul_le_mul_right I (by omega)
        omega)
      rw [pos_zero, Nat.zero_add] at hg
      rw [hg, forwardPos_eq h _ _ (by omega), hb]


/-- The shift of the index of a body of `size` bytes. -/
def ixShift (size : Nat) : Nat :=
  if size < 256 then 4 else if size < 8192 then 5 else if size < 65536 then 6
  else if size < 2 ^ 32 then 7 else 8

theorem buildIndexArray_eq (b : Body) : ∃ width, buildIndexArray b = buildArray b width (ixShift b.size) ∧
    (b.size < 2 ^ 64 → b.size < 2 ^ width ∧ ∀ n ≤ b.size, n / 2 ^ ixShift b.size + 2 < 2 ^ width) := by
  unfold buildIndexArray ixShift
  split_ifs
  · exact ⟨_, rfl, fun _ => ⟨by omega, fun n hn => by omega⟩⟩
  · exact ⟨_, rfl, fun _ => ⟨by omega, fun n hn => by omega⟩⟩
  · exact ⟨_, rfl, fun _ => ⟨by omega, fun n hn => by omega⟩⟩
  · exact ⟨_, rfl, fun _ => ⟨by omega, fun n hn => by omega⟩⟩
  · exact ⟨_, rfl, fun _ => ⟨by omega, fun n hn => by omega⟩⟩

/-- The index, if there is one, is the one `string-build-index!` builds. -/
def IndexOK (b : Body) : Prop := b.index = none ∨ b.index = some (buildIndexArray { b with index := none })

/-- A lookup of the position past the end fails its assertion. -/
def EndPanics (b : Body) : Prop :=
  b.index.isSome ∧ 2 ^ ixShift b.size ≤ b.len ∧ b.len % 2 ^ ixShift b.size = 0

instance (b : Body) : Decidable (EndPanics b) := by unfold EndPanics; infer_instance

theorem index2ptr_eq {b : Body} {cs : List Nat} (h : Is b cs) (hix : IndexOK b) (hsz : b.size < 2 ^ 64) (n : Nat)
    (hn : n ≤ cs.length) :
    index2ptr b n = if n = cs.length ∧ EndPanics b then none else some (pos cs n) := by
  rcases hix with hi | hi
  · rw [index2ptr_none h hi n hn, if_neg]
    simp [EndPanics, hi]
  · have h0 : Is { b with index := none } cs := ⟨h.1, h.2, h.3, h.4, h.5⟩
    obtain ⟨w, e, hw⟩ := buildIndexArray_eq { b with index := none }
    rw [e] at hi
    obtain ⟨w1, w2⟩ := hw hsz
    simp only at w1 w2 hi
    have hle := len_le_blen cs
    have hs := h.size
    rw [index2ptr_array h h0 w _ (by omega) (w2 _ (by omega)) hi n hn]
    have : (n = cs.length ∧ EndPanics b) ↔
        (n = cs.length ∧ 2 ^ ixShift b.size ≤ n ∧ n % 2 ^ ixShift b.size = 0) := by
      unfold EndPanics
      rw [h.len, hi]
      constructor
      · rintro ⟨rfl, -, h1, h2⟩; exact ⟨rfl, h1, h2⟩
      · rintro ⟨rfl, h1, h2⟩; exact ⟨rfl, rfl, h1, h2⟩
    simp only [this]

theorem buildIndex_is {b : Body} {cs : List Nat} (h : Is b cs) (hix : IndexOK b) :
    Is (buildIndex b) cs ∧ IndexOK (buildIndex b) := by
  unfold buildIndex
  split
  · exact ⟨h, hix⟩
  · rename_i hc
    refine ⟨⟨h.1, h.2, h.3, h.4, h.5⟩, Or.inr ?_⟩
    have : b.index = none := by simpa using (by simp at hc; exact hc.2)
    simp only
    congr 1
    congr 1
    cases b; simp_all

/-- Reading the `n`th character at its byte position. -/
theorem charGet_pos {m : Mem} {cs : List Nat} (hc : ∀ c ∈ cs, IsCode c) (h : Holds m (encodeAll cs)) (n : Nat)
    (hn : n < cs.length) : charGet (adv m (pos cs n)) = some cs[n] := by
  have hd := holds_adv h n
  rw [List.drop_eq_getElem_cons hn] at hd
  exact charGet_encode _ _ (hc _ (List.getElem_mem hn)) (holds_cons_code hd).1

theorem stringRef_eq {b : Body} {cs : List Nat} (h : Is b cs) (hix : IndexOK b) (hsz : b.size < 2 ^ 64) (n : Nat) :
    stringRef b n = cs[n]? := by
  unfold stringRef
  rw [h.complete, h.len]
  by_cases hn : n < cs.length
  · rw [if_neg (by simp), if_neg (by omega)]
    rw [List.getElem?_eq_getElem hn]
    split
    · rename_i hs
      rw [singleByteP, beq_iff_eq, h.size, h.len] at hs
      have h1 := single hs
      have h2 := charGet_pos h.codes h.holds n hn
      rw [pos_single hs n (by omega)] at h2
      have h3 := encode_of_charGet _ _ h2
      have h4 := h1 _ (List.getElem_mem hn)
      have h5 : encode cs[n] = [cs[n]] := by rw [encode, if_pos h4]
      rw [h5, holds_cons] at h3
      have := h3.2.1
      simpa [adv] using this
    · rw [Int.toNat_natCast, index2ptr_eq h hix hsz n (by omega), if_neg (by omega)]
      simp [charGet_pos h.codes h.holds n hn]
  · rw [if_neg (by simp), if_pos (by omega), List.getElem?_eq_none (by omega)]

theorem makeStr_is {cs : List Nat} {m : Mem} {siz : Nat} {len : Int} (hc : ∀ c ∈ cs, IsCode c)
    (hs : siz = blen cs) (hl : len = cs.length) (hm : Holds m (encodeAll cs)) :
    ∃ b, makeStr len siz m false none = some b ∧ Is b cs ∧ b.index = none := by
  have hle := len_le_blen cs
  subst hs hl
  unfold makeStr
  have e : (false || decide ((cs.length : Int) < 0)) = false := by simp
  simp only [e]
  rw [if_neg (by simp; omega)]
  refine ⟨_, rfl, ⟨rfl, hc, rfl, ?_, hm⟩, rfl⟩
  simp

theorem holds_sub {m : Mem} {cs : List Nat} (h : Holds m (encodeAll cs)) (s e : Nat) :
    Holds (adv m (pos cs s)) (encodeAll ((cs.drop s).take (e - s))) :=
  holds_take (holds_adv h s) _

theorem blen_sub (cs : List Nat) (s e : Nat) (hse : s ≤ e) :
    blen ((cs.drop s).take (e - s)) = pos cs e - pos cs s := by
  have h1 := pos_add cs s (e - s)
  rw [show s + (e - s) = e from by omega] at h1
  rw [pos] at h1
  have : pos (cs.drop s) (e - s) = blen ((cs.drop s).take (e - s)) := rfl
  simp only [pos] at *
  omega

theorem substring_eq {b : Body} {cs : List Nat} (h : Is b cs) (hix : IndexOK b) (hsz : b.size < 2 ^ 64) (s e : Nat)
    (hse : s ≤ e) (he : e ≤ cs.length) (hend : s = cs.length → ¬ EndPanics b) :
    ∃ r, substring b s e false = some r ∧ Is r ((cs.drop s).take (e - s)) ∧ r.index = none := by
  unfold substring checkStartEnd
  rw [h.len]
  simp only [Bool.false_eq_true, if_false]
  rw [if_neg (by omega), if_neg (by omega), if_neg (by omega), if_neg (by omega)]
  simp only [Option.bind_some, Int.toNat_natCast]
  rw [index2ptr_eq h hix hsz s (by omega), if_neg (by tauto), Option.bind_some]
  have hE : (if cs.length = e then some b.size
      else if s > 0 ∧ b.index.isNone then some (forwardPos b (pos cs s) (e - s))
      else index2ptr b e) = some (pos cs e) := by
    split
    · rename_i e1
      rw [h.size, pos_len _ _ (by omega)]
    · split
      · rw [forwardPos_eq h _ _ (by omega), show s + (e - s) = e from by omega]
      · rw [index2ptr_eq h hix hsz e (by omega), if_neg (by omega)]
  rw [hE, Option.bind_some, h.complete]
  refine makeStr_is (fun c hc => h.codes c (List.mem_of_mem_drop (List.mem_of_mem_take hc))) ?_ ?_ (holds_sub h.holds s e)
  · rw [blen_sub _ _ _ hse]
  · simp; omega

end Gauche.Str
