import Verif.Proof.RegexOps2

/-!
# Sequences and repetitions
-/

namespace Gauche.Regex

open Gauche.Utf8 Gauche.Spec.Utf8 Spec

section
variable {cx : Ctx} {cfg : Cfg} {op : List Nat} {ci br : Bool}

/-! ## runs -/

theorem runBytes_eq {l : List Nat} (h : ∀ c ∈ l, IsCode c) : runBytes l = encodeAll l := by
  unfold runBytes encodeAll
  exact flatMap_ext fun c hc => charPut_eq c (h c hc)

theorem impl_flush (S : Shows cx cfg ci br) {fold : Bool} (hf : fold = true → ci = true)
    {l : List Nat} (hl : ∀ c ∈ l, IsCode c) (hlen : (runBytes l).length ≤ 255) {p : Nat}
    (hat : At cx p (flush fold l)) :
    Impl cx cfg op p (p + (flush fold l).length) (runW cfg fold l) := by
  unfold flush at hat ⊢
  by_cases he : l.isEmpty = true
  · rw [if_pos he]
    have : l = [] := List.isEmpty_iff.1 he
    subst this
    exact impl_nil p
  · rw [if_neg he] at hat ⊢
    have hne : l ≠ [] := fun h => he (by rw [h]; rfl)
    dsimp only at hat ⊢
    rw [runBytes_eq hl] at hat hlen ⊢
    by_cases h1 : (encodeAll l).length = 1
    · rw [if_pos h1] at hat ⊢
      -- one ASCII character
      obtain ⟨c, rfl, hc⟩ : ∃ c, l = [c] ∧ c < 128 := by
        cases l with
        | nil => exact absurd rfl hne
        | cons c l =>
          rw [encodeAll_cons, List.length_append, encode_length] at h1
          have := nbytes_pos c
          cases l with
          | cons d l =>
            rw [encodeAll_cons, List.length_append, encode_length] at h1
            have := nbytes_pos d; omega
          | nil =>
            refine ⟨c, rfl, ?_⟩
            rcases Nat.lt_or_ge c 128 with h | h
            · exact h
            · have := nbytes_large h; simp at h1; omega
      have hat2 : cx.at (p + 1) = c := by
        rw [(at_cons.1 (at_cons.1 hat).2).1]
        simp [List.headD]; omega
      cases fold with
      | true =>
        have := impl_match1CI (op := op) S (hf rfl) hc (op_at hat) hat2
        apply this.congr
        intro st _
        rw [runW_cons]
        have e : runW cfg true ([] : List Nat) = fun st => [st] := rfl
        rw [e]; simp
      | false =>
        have := impl_match1 (op := op) S hc (op_at hat) hat2
        apply this.congr
        intro st _
        rw [runW_cons]
        have e : runW cfg false ([] : List Nat) = fun st => [st] := rfl
        rw [e]; simp
    · rw [if_neg h1] at hat ⊢
      rw [at_append] at hat
      obtain ⟨ha, hb⟩ := hat
      have hn : cx.at (p + 1) = (encodeAll l).length := by
        rw [(at_cons.1 (at_cons.1 ha).2).1]; omega
      simp only [List.length_append, List.length_cons, List.length_nil]
      rw [show p + (0 + 1 + 1 + (encodeAll l).length) = p + 2 + (encodeAll l).length by omega]
      cases fold with
      | true => exact impl_matchCI S (hf rfl) hl hne (op_at ha) hn hb
      | false => exact impl_match S hl (op_at ha) hn hb

/-! ## items -/

/-- The code of an item, and what it stands for. -/
def ItemOK (cx : Ctx) (cfg : Cfg) (op : List Nat) (fold : Bool) : Item →
    (Bool → St → List St) → Prop
  | .char c, W => IsCode c ∧ ∀ last, W last = one cfg fun x => (if fold then cfg.down x else x) == c
  | .code f, W => ∀ last, Pres cfg (W last) ∧ ∀ p, At cx p (f fold last p) →
      Impl cx cfg op p (p + (f fold last p).length) (W last)

/-- One after the other. -/
def seqW : List (Bool → St → List St) → Bool → St → List St
  | [], _, st => [st]
  | w :: l, last, st => (w (last && l.isEmpty) st).flatMap (seqW l last)

/-- The items and what they stand for. -/
inductive ItemsOK (cx : Ctx) (cfg : Cfg) (op : List Nat) (fold : Bool) :
    List Item → List (Bool → St → List St) → Prop
  | nil : ItemsOK cx cfg op fold [] []
  | cons {i w is ws} : ItemOK cx cfg op fold i w → ItemsOK cx cfg op fold is ws →
      ItemsOK cx cfg op fold (i :: is) (w :: ws)

theorem ItemsOK.append {fold : Bool} {is js ws vs}
    (h : ItemsOK cx cfg op fold is ws) (h' : ItemsOK cx cfg op fold js vs) :
    ItemsOK cx cfg op fold (is ++ js) (ws ++ vs) := by
  induction h with
  | nil => exact h'
  | cons a _ ih => exact .cons a ih

theorem ItemsOK.replicate {fold : Bool} {is ws} (h : ItemsOK cx cfg op fold is ws) (m : Nat) :
    ItemsOK cx cfg op fold (List.replicate m is).flatten (List.replicate m ws).flatten := by
  induction m with
  | zero => exact .nil
  | succ m ih =>
    rw [List.replicate_succ, List.replicate_succ, List.flatten_cons, List.flatten_cons]
    exact h.append ih

theorem ItemsOK.isEmpty {fold : Bool} {is ws} (h : ItemsOK cx cfg op fold is ws) :
    is.isEmpty = ws.isEmpty := by cases h <;> rfl

theorem ItemOK.pres {fold : Bool} {i w} (h : ItemOK cx cfg op fold i w) (last : Bool) :
    Pres cfg (w last) := by
  cases i with
  | char c => rw [h.2 last]; exact pres_one _
  | code f => exact (h last).1

theorem ItemsOK.pres {fold : Bool} {is ws} (h : ItemsOK cx cfg op fold is ws) (last : Bool) :
    Pres cfg (seqW ws last) := by
  induction h with
  | nil => exact pres_nil
  | cons a _ ih => exact pres_comp (a.pres _) ih

theorem impl_asm (S : Shows cx cfg ci br) {e : GEnv} (he : e.charMax ≤ 250) {fold : Bool}
    (hf : fold = true → ci = true) (last : Bool) {is : List Item}
    {ws : List (Bool → St → List St)} (h : ItemsOK cx cfg op fold is ws) :
    ∀ (p : Nat) (pend : List Nat), (∀ c ∈ pend, IsCode c) → (runBytes pend).length ≤ 255 →
      At cx p (asmItems e fold last p pend is) →
      Impl cx cfg op p (p + (asmItems e fold last p pend is).length)
        (fun st => (runW cfg fold pend st).flatMap (seqW ws last)) := by
  have runLen : ∀ (pend : List Nat) (c : Nat), (∀ c ∈ pend, IsCode c) → IsCode c →
      (runBytes (pend ++ [c])).length ≤ (runBytes pend).length + 6 := by
    intro pend c hp hc
    have : ∀ x ∈ pend ++ [c], IsCode x := by
      intro x hx
      rcases List.mem_append.1 hx with h | h
      · exact hp x h
      · rw [List.mem_singleton.1 h]; exact hc
    rw [runBytes_eq this, runBytes_eq hp, encodeAll_append, List.length_append]
    have := nbytes_pos c
    simp [encodeAll, encode_length]; omega
  induction h with
  | nil =>
    intro p pend hp hlen hat
    simp only [asmItems] at hat ⊢
    apply (impl_flush (op := op) S hf hp hlen hat).congr
    intro st _
    have : seqW [] last = fun st => [st] := rfl
    rw [this]; simp
  | @cons i w is ws hi hs ih =>
    intro p pend hp hlen hat
    cases i with
    | char c =>
      obtain ⟨hc, hw⟩ := hi
      simp only [asmItems] at hat ⊢
      have one1 : ∀ st, runW cfg fold [c] st =
          one cfg (fun x => (if fold then cfg.down x else x) == c) st := by
        intro st
        rw [runW_cons]
        have e : runW cfg fold ([] : List Nat) = fun st => [st] := rfl
        rw [e]; simp
      by_cases hcond : (pend.isEmpty || decide ((runBytes pend).length < e.charMax)) = true
      · rw [if_pos hcond] at hat ⊢
        have hp' : ∀ x ∈ pend ++ [c], IsCode x := by
          intro x hx
          rcases List.mem_append.1 hx with h | h
          · exact hp x h
          · rw [List.mem_singleton.1 h]; exact hc
        have hlen' : (runBytes (pend ++ [c])).length ≤ 255 := by
          have := runLen pend c hp hc
          rw [Bool.or_eq_true, decide_eq_true_eq] at hcond
          rcases hcond with h | h
          · have : pend = [] := List.isEmpty_iff.1 h
            subst this
            have : (runBytes ([] : List Nat)).length = 0 := rfl
            omega
          · omega
        apply (ih p (pend ++ [c]) hp' hlen' hat).congr
        intro st _
        rw [runW_append, List.flatMap_assoc]
        apply flatMap_ext
        intro t _
        rw [one1]
        show _ = seqW (w :: ws) last t
        simp only [seqW, hw]
      · rw [if_neg hcond] at hat ⊢
        rw [at_append] at hat
        have h1 := impl_flush (op := op) S hf hp hlen hat.1
        have h2 := ih _ [c] (by simpa using hc) (by
          have := runLen [] c (by simp) hc
          have e0 : (runBytes ([] : List Nat)).length = 0 := rfl
          rw [List.nil_append] at this
          omega) hat.2
        have := impl_comp h1 h2 (pres_runW fold pend)
        rw [List.length_append, ← Nat.add_assoc]
        apply this.congr
        intro st _
        apply flatMap_ext
        intro t _
        rw [one1]
        show _ = seqW (w :: ws) last t
        simp only [seqW, hw]
    | code f =>
      simp only [asmItems] at hat ⊢
      rw [at_append, at_append] at hat
      obtain ⟨⟨h1, h2⟩, h3⟩ := hat
      have g1 := impl_flush (op := op) S hf hp hlen h1
      have hi2 := (hi (last && is.isEmpty)).2 _ h2
      have g3 := ih _ [] (by simp) (by simp [runBytes]) (by
        rw [List.length_append, ← Nat.add_assoc] at h3; exact h3)
      have := impl_comp g1 (impl_comp hi2 g3 (hi (last && is.isEmpty)).1) (pres_runW fold pend)
      simp only [List.length_append, ← Nat.add_assoc]
      apply this.congr
      intro st _
      apply flatMap_ext
      intro t _
      show _ = seqW (w :: ws) last t
      simp only [seqW, hs.isEmpty]
      apply flatMap_ext
      intro u _
      rw [runW_nil]; simp

/-- A sequence. -/
theorem impl_seq (S : Shows cx cfg ci br) {e : GEnv} (he : e.charMax ≤ 250) {fold : Bool}
    (hf : fold = true → ci = true) (last : Bool) {is : List Item}
    {ws : List (Bool → St → List St)} (h : ItemsOK cx cfg op fold is ws) {p : Nat}
    (hat : At cx p (asmItems e fold last p [] is)) :
    Impl cx cfg op p (p + (asmItems e fold last p [] is).length) (seqW ws last) := by
  apply (impl_asm S he hf last h p [] (by simp) (by simp [runBytes]) hat).congr
  intro st _
  rw [runW_nil]; simp

/-- Repeating a sequence that does not depend on what follows. -/
theorem seqW_replicate {ws : List (Bool → St → List St)} (hw : ∀ w ∈ ws, ∀ b, w b = w false)
    (m : Nat) (last : Bool) (st : St) :
    seqW (List.replicate m ws).flatten last st = iter (seqW ws false) m st := by
  have indep : ∀ (l : List (Bool → St → List St)), (∀ w ∈ l, ∀ b, w b = w false) → ∀ b st,
      seqW l b st = seqW l false st := by
    intro l
    induction l with
    | nil => intro _ b st; rfl
    | cons w l ih =>
      intro h b st
      simp only [seqW]
      rw [h w (by simp) (b && l.isEmpty), h w (by simp) (false && l.isEmpty)]
      exact flatMap_ext fun t _ => ih (fun v hv => h v (by simp [hv])) b t
  have app : ∀ (l k : List (Bool → St → List St)), (∀ w ∈ l, ∀ b, w b = w false) → ∀ b st,
      seqW (l ++ k) b st = (seqW l false st).flatMap (seqW k b) := by
    intro l k
    induction l with
    | nil => intro _ b st; simp [seqW]
    | cons w l ih =>
      intro h b st
      simp only [seqW, List.cons_append]
      rw [h w (by simp) (b && (l ++ k).isEmpty), h w (by simp) (false && l.isEmpty), List.flatMap_assoc]
      exact flatMap_ext fun t _ => ih (fun v hv => h v (by simp [hv])) b t
  induction m generalizing st with
  | zero => rfl
  | succ m ih =>
    rw [List.replicate_succ, List.flatten_cons, app ws _ hw]
    simp only [iter]
    exact flatMap_ext fun t _ => ih t

theorem impl_seqRep (S : Shows cx cfg ci br) {e : GEnv} (he : e.charMax ≤ 250) {fold : Bool}
    (hf : fold = true → ci = true) (last : Bool) {is : List Item}
    {ws : List (Bool → St → List St)} (h : ItemsOK cx cfg op fold is ws)
    (hw : ∀ w ∈ ws, ∀ b, w b = w false) (m : Nat) {p : Nat}
    (hat : At cx p (seqRep e fold last p is m)) :
    Impl cx cfg op p (p + (seqRep e fold last p is m).length) (iter (seqW ws false) m) := by
  unfold seqRep at hat ⊢
  apply (impl_seq S he hf last (h.replicate m) hat).congr
  intro st _
  exact seqW_replicate hw m last st

/-! ## bounded repetitions -/

theorem impl_copies (S : Shows cx cfg ci br) {e : GEnv} (he : e.charMax ≤ 250) {fold : Bool}
    (hf : fold = true → ci = true) {is : List Item}
    {ws : List (Bool → St → List St)} (h : ItemsOK cx cfg op fold is ws) (n : Nat) :
    ∀ p, At cx p (copies e fold is n p).flatten → ∀ k ≤ n,
      Impl cx cfg op (copyAddr p (copies e fold is n p) k)
        (p + (copies e fold is n p).flatten.length) (iter (seqW ws false) (n - k)) := by
  induction n with
  | zero =>
    intro p _ k hk
    obtain rfl : k = 0 := by omega
    simp only [copies, copyAddr]
    exact impl_nil p
  | succ n ih =>
    intro p hat k hk
    simp only [copies] at hat ⊢
    rw [List.flatten_cons] at hat
    rw [at_append] at hat
    obtain ⟨h1, h2⟩ := hat
    have hlen : ∀ (b : List Nat) (cs : List (List Nat)),
        p + (b :: cs).flatten.length = p + b.length + cs.flatten.length := by
      intro b cs; rw [List.flatten_cons, List.length_append]; omega
    rw [hlen]
    cases k with
    | succ k =>
      have := ih _ h2 k (by omega)
      rw [show n + 1 - (k + 1) = n - k by omega]
      have ea : ∀ (b : List Nat) (cs : List (List Nat)),
          copyAddr p (b :: cs) (k + 1) = copyAddr (p + b.length) cs k := by
        intro b cs
        unfold copyAddr
        rw [List.take_succ_cons, List.flatten_cons, List.length_append]; omega
      rw [ea]
      exact this
    | zero =>
      have g1 := impl_seq S he hf false h h1
      have g2 := ih _ h2 0 (Nat.zero_le _)
      have ea : ∀ (q : Nat) (cs : List (List Nat)), copyAddr q cs 0 = q := by
        intro q cs; simp [copyAddr]
      rw [ea] at g2 ⊢
      rw [Nat.sub_zero] at g2 ⊢
      exact impl_comp g1 g2 (h.pres false)

theorem tryTable_length (nexts dest : Nat → Nat) (n : Nat) :
    (tryTable nexts dest n).length = 6 * n := by
  unfold tryTable
  induction n with
  | zero => rfl
  | succ n ih =>
    rw [List.range_succ, List.flatMap_append, List.length_append, ih]
    simp [off_length]; omega

theorem tryTable_at (hB : Bytes cx) {nexts dest : Nat → Nat} {n p : Nat}
    (h : At cx p (tryTable nexts dest n)) : ∀ i < n,
    opTable[cx.at (p + 6 * i)]? = some .try_ ∧ cx.target (p + 6 * i + 1) = nexts i ∧
    opTable[cx.at (p + 6 * i + 3)]? = some .jump ∧ cx.target (p + 6 * i + 4) = dest i := by
  induction n with
  | zero => intro i hi; omega
  | succ n ih =>
    have e : tryTable nexts dest (n + 1) = tryTable nexts dest n ++
        ([Op.try_.byte] ++ off (nexts n) ++ [Op.jump.byte] ++ off (dest n)) := by
      unfold tryTable
      rw [List.range_succ, List.flatMap_append]
      simp
    rw [e, at_append, tryTable_length] at h
    obtain ⟨h1, h2⟩ := h
    intro i hi
    by_cases hin : i < n
    · exact ih h1 i hin
    · obtain rfl : i = n := by omega
      rw [at_append, at_append, at_append] at h2
      obtain ⟨⟨⟨a, b⟩, c⟩, d⟩ := h2
      simp only [List.length_append, List.length_cons, List.length_nil, off_length] at b c d
      exact ⟨op_at a, at_off hB b, op_at c, at_off hB d⟩

/-- A table of choices. -/
theorem impl_table (hB : Bytes cx) {dest : Nat → Nat} {n p q : Nat}
    (h : At cx p (tryTable (fun i => p + 6 * (i + 1)) dest n))
    {W : Nat → St → List St} {V : St → List St}
    (hd : ∀ i < n, Impl cx cfg op (dest i) q (W i))
    (hV : Impl cx cfg op (p + 6 * n) q V) :
    Impl cx cfg op p q (fun st => (List.range n).flatMap (fun i => W i st) ++ V st) := by
  have hat := tryTable_at hB h
  have main : ∀ d j, j + d = n →
      Impl cx cfg op (p + 6 * j) q
        (fun st => (List.range' j d).flatMap (fun i => W i st) ++ V st) := by
    intro d
    induction d with
    | zero => intro j hj; obtain rfl : j = n := by omega
              simpa using hV
    | succ d ih =>
      intro j hj
      obtain ⟨a, b, c, e⟩ := hat j (by omega)
      have ih := ih (j + 1) (by omega)
      intro F G κ st hv hG hk
      dsimp only at hk ⊢
      rw [List.range'_succ, List.flatMap_cons, List.append_assoc] at hk ⊢
      rw [List.findSome?_append]
      apply ends_try a (q := p + 6 * (j + 1)) b
      · apply ends_jump c e
        exact hd j (by omega) F G κ st hv hG fun t ht => hk t (List.mem_append_left _ ht)
      · exact ih F G κ st hv hG fun t ht => hk t (List.mem_append_right _ ht)
  have := main n 0 (by omega)
  rw [Nat.mul_zero, Nat.add_zero] at this
  apply this.congr
  intro st _
  rw [List.range_eq_range']

theorem findSome?_append_dup {α β : Type} {l k : List α} (h : ∀ x ∈ k, x ∈ l) (κ : α → Option β) :
    (l ++ k).findSome? κ = l.findSome? κ := by
  rw [List.findSome?_append]
  cases hl : l.findSome? κ with
  | some y => rfl
  | none =>
    have : k.findSome? κ = none := by
      rw [List.findSome?_eq_none_iff] at hl ⊢
      exact fun x hx => hl x (h x hx)
    rw [this]; rfl

theorem reverse_range_flatMap {α : Type} (g : Nat → List α) (n : Nat) :
    (List.range n).flatMap (fun i => g (n - i)) ++ g 0 =
      (List.range (n + 1)).reverse.flatMap g := by
  induction n with
  | zero => simp
  | succ n ih =>
    rw [List.range_succ_eq_map, List.flatMap_cons, List.flatMap_map, List.append_assoc]
    simp only [Nat.sub_zero]
    have : (fun i => g (n + 1 - (i + 1))) = fun i => g (n - i) := by funext i; congr 1; omega
    rw [this, ih, List.range_succ (n := n + 1), List.reverse_append]
    simp

theorem impl_minmax (S : Shows cx cfg ci br) (hB : Bytes cx) {e : GEnv} (he : e.charMax ≤ 250)
    {fold : Bool} (hf : fold = true → ci = true) {is : List Item}
    {ws : List (Bool → St → List St)} (h : ItemsOK cx cfg op fold is ws) (greedy : Bool) (n : Nat)
    {p : Nat} (hat : At cx p (minmax e fold greedy p is n)) :
    Impl cx cfg op p (p + (minmax e fold greedy p is n).length)
      (if greedy then upTo (seqW ws false) n else upToLazy (seqW ws false) n) := by
  cases greedy with
  | true =>
    simp only [minmax, if_true] at hat ⊢
    generalize hcs : copies e fold is n (p + 6 * n + 3) = cs at hat ⊢
    rw [at_append, at_append, at_append] at hat
    obtain ⟨⟨⟨h1, h2⟩, h3⟩, h4⟩ := hat
    simp only [List.length_append, tryTable_length, List.length_cons, List.length_nil,
      off_length] at h2 h3 h4 ⊢
    have hcop := impl_copies S he hf h n (p + 6 * n + 3) (by
      rw [hcs]; rw [show p + 6 * n + 3 = p + (6 * n + (0 + 1) + 2) by omega]; exact h4)
    rw [hcs] at hcop
    have hend : copyAddr (p + 6 * n + 3) cs n = p + 6 * n + 3 + cs.flatten.length := by
      unfold copyAddr
      have hl : ∀ n p, (copies e fold is n p).length = n := by
        intro n
        induction n with
        | zero => intro p; rfl
        | succ n ih => intro p; simp [copies, ih]
      have : cs.length = n := by rw [← hcs]; exact hl _ _
      rw [List.take_of_length_le (by omega)]
    have hlast : Impl cx cfg op (p + 6 * n) (p + 6 * n + 3 + cs.flatten.length)
        (fun st => [st]) := by
      intro F G κ st hv hG hk
      apply ends_jump (op_at h2) (at_off hB h3)
      rw [hend]
      exact impl_nil _ F G κ st hv hG hk
    have := impl_table (q := p + 6 * n + 3 + cs.flatten.length) hB h1
      (W := fun i => iter (seqW ws false) (n - i)) (fun i hi => hcop i (by omega)) hlast
    rw [show p + (6 * n + (0 + 1) + 2 + cs.flatten.length) =
      p + 6 * n + 3 + cs.flatten.length by omega]
    apply this.congr
    intro st _
    exact reverse_range_flatMap (fun k => iter (seqW ws false) k st) n
  | false =>
    simp only [minmax, Bool.false_eq_true, if_false] at hat ⊢
    generalize hcs : copies e fold is n (p + 6 * (n + 1)) = cs at hat ⊢
    rw [at_append] at hat
    obtain ⟨h1, h4⟩ := hat
    simp only [List.length_append, tryTable_length] at h4 ⊢
    have hcop := impl_copies S he hf h n (p + 6 * (n + 1)) (by rw [hcs]; exact h4)
    rw [hcs] at hcop
    have h0 := hcop 0 (Nat.zero_le _)
    have ea : copyAddr (p + 6 * (n + 1)) cs 0 = p + 6 * (n + 1) := by simp [copyAddr]
    rw [ea, Nat.sub_zero] at h0
    have := impl_table (q := p + 6 * (n + 1) + cs.flatten.length) hB h1
      (W := fun i => iter (seqW ws false) i) (fun i hi => by
        have := hcop (n - i) (by omega)
        rw [show n - (n - i) = i by omega] at this
        exact this) h0
    rw [← Nat.add_assoc]
    intro F G κ st hv hG hk
    have hdup : ∀ x ∈ iter (seqW ws false) n st,
        x ∈ (List.range (n + 1)).flatMap fun i => iter (seqW ws false) i st :=
      fun x hx => List.mem_flatMap.2 ⟨n, by simp, hx⟩
    have := this F G κ st hv hG (by
      intro t ht
      rcases List.mem_append.1 ht with ht | ht
      · exact hk t ht
      · exact hk t (hdup t ht))
    dsimp only at this
    rw [findSome?_append_dup hdup] at this
    exact this

/-! ## the repetition -/

/-- What a repetition means. -/
def repW (cfg : Cfg) (lazy : Bool) (f : St → List St) (m : Nat) (n : Option Nat) (st : St) :
    List St :=
  (iter f m st).flatMap fun t =>
    match n with
    | some n => if lazy then upToLazy f (n - m) t else upTo f (n - m) t
    | none =>
      if lazy then starLazy f (cfg.text.length - t.pos) t
      else star f (cfg.text.length - t.pos) t

theorem impl_genRep (S : Shows cx cfg ci br) (hB : Bytes cx) {e : GEnv} (he : e.charMax ≤ 250)
    {fold : Bool} (hf : fold = true → ci = true) {is : List Item}
    {ws : List (Bool → St → List St)} (h : ItemsOK cx cfg op fold is ws)
    (hw : ∀ w ∈ ws, ∀ b, w b = w false) (lazy : Bool) (m : Nat) (n : Option Nat)
    (hprog : n = none → Prog cfg (seqW ws false)) {p : Nat}
    (hat : At cx p (genRep e lazy m n is fold p)) :
    Impl cx cfg op p (p + (genRep e lazy m n is fold p).length)
      (repW cfg lazy (seqW ws false) m n) := by
  have hpres := h.pres false
  unfold genRep at hat ⊢
  dsimp only at hat ⊢
  cases n with
  | some n =>
    dsimp only at hat ⊢
    by_cases hmn : m = n
    · rw [if_pos hmn] at hat ⊢
      apply (impl_seqRep S he hf _ h hw m hat).congr
      intro st _
      subst hmn
      have h0 : ∀ t, upTo (seqW ws false) 0 t = [t] := fun t => by simp [upTo, iter]
      have h1 : ∀ t, upToLazy (seqW ws false) 0 t = [t] := fun t => by simp [upToLazy, iter]
      unfold repW
      simp only [Nat.sub_self, h0, h1, ite_self]
      simp
    · rw [if_neg hmn, at_append] at hat
      rw [if_neg hmn]
      have g1 := impl_seqRep S he hf _ h hw m hat.1
      have g2 := impl_minmax S hB he hf h (!lazy) (n - m) hat.2
      have := impl_comp g1 g2 (pres_iter hpres m)
      rw [List.length_append, ← Nat.add_assoc]
      apply this.congr
      intro st _
      unfold repW
      cases lazy <;> rfl
  | none =>
    dsimp only at hat ⊢
    have hprog := hprog rfl
    cases lazy with
    | true =>
      simp only [if_true] at hat ⊢
      simp only [at_append] at hat
      obtain ⟨⟨⟨⟨⟨⟨⟨h1, h2⟩, h3⟩, h4⟩, h5⟩, h6⟩, h7⟩, h8⟩ := hat
      simp only [List.length_append, List.length_cons, List.length_nil, off_length,
        ← Nat.add_assoc] at h2 h3 h4 h5 h6 h7 h8 ⊢
      have g1 := impl_seqRep S he hf _ h hw m h1
      generalize hP : p + (seqRep e fold true p is m).length = P at *
      have g2 := impl_seq S he hf false h (p := P + 6) (by
        simpa [Nat.add_assoc] using h6)
      generalize hb : asmItems e fold false (P + 6) [] is = b at *
      have g3 := impl_starLazy (q := P + 6 + b.length + 3) hpres hprog (op_at h2)
        (at_off hB h3) (op_at h4) (at_off hB h5) g2 (by
          have := op_at h7
          simpa [Nat.add_assoc, Nat.add_comm, Nat.add_left_comm] using this) (by
          have := at_off hB h8
          simpa [Nat.add_assoc, Nat.add_comm, Nat.add_left_comm] using this)
      have := impl_comp g1 g3 (pres_iter hpres m)
      rw [show P + 0 + 1 + 2 + 0 + 1 + 2 + b.length + 0 + 1 + 2 = P + 6 + b.length + 3 by omega]
      exact this
    | false =>
      simp only [Bool.false_eq_true, if_false] at hat ⊢
      simp only [at_append] at hat
      obtain ⟨⟨⟨⟨⟨h1, h2⟩, h3⟩, h6⟩, h7⟩, h8⟩ := hat
      simp only [List.length_append, List.length_cons, List.length_nil, off_length,
        ← Nat.add_assoc] at h2 h3 h6 h7 h8 ⊢
      have g1 := impl_seqRep S he hf _ h hw m h1
      generalize hP : p + (seqRep e fold true p is m).length = P at *
      have g2 := impl_seq S he hf false h (p := P + 3) (by
        simpa [Nat.add_assoc] using h6)
      generalize hb : asmItems e fold false (P + 3) [] is = b at *
      have g3 := impl_star (q := P + 3 + b.length + 3) hpres hprog (op_at h2)
        (at_off hB h3) g2 (by
          have := op_at h7
          simpa [Nat.add_assoc, Nat.add_comm, Nat.add_left_comm] using this) (by
          have := at_off hB h8
          simpa [Nat.add_assoc, Nat.add_comm, Nat.add_left_comm] using this)
      have := impl_comp g1 g3 (pres_iter hpres m)
      rw [show P + 0 + 1 + 2 + b.length + 0 + 1 + 2 = P + 3 + b.length + 3 by omega]
      exact this
end

end Gauche.Regex
