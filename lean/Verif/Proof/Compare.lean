import Verif.Spec.Compare
import Mathlib.Tactic.NormNum
import Mathlib.Tactic.Linarith
namespace Gauche.Compare

/-! ## A lexicographic order -/

def lex : List Rat → List Rat → Ordering
  | [], [] => .eq
  | [], _ :: _ => .lt
  | _ :: _, [] => .gt
  | a :: as, b :: bs => (cmpR a b).then (lex as bs)

theorem cmpR_lt {a b : Rat} (h : a < b) : cmpR a b = .lt := by rw [cmpR, if_pos h]
theorem cmpR_gt {a b : Rat} (h : b < a) : cmpR a b = .gt := by rw [cmpR, if_neg (not_lt_of_gt h), if_pos h]
theorem cmpR_refl (a : Rat) : cmpR a a = .eq := by rw [cmpR, if_neg (lt_irrefl a), if_neg (lt_irrefl a)]

theorem cmpR_eq {a b : Rat} (h : cmpR a b = .eq) : a = b := by
  rw [cmpR] at h
  by_cases h1 : a < b
  · rw [if_pos h1] at h; cases h
  · rw [if_neg h1] at h
    by_cases h2 : b < a
    · rw [if_pos h2] at h; cases h
    · exact le_antisymm (not_lt.1 h2) (not_lt.1 h1)

theorem cmpR_swap (a b : Rat) : (cmpR a b).swap = cmpR b a := by
  rcases lt_trichotomy a b with h | h | h
  · rw [cmpR_lt h, cmpR_gt h]; rfl
  · rw [h, cmpR_refl]; rfl
  · rw [cmpR_lt h, cmpR_gt h]; rfl

theorem cmpR_isLt {a b : Rat} (h : cmpR a b = .lt) : a < b := by
  rcases lt_trichotomy a b with h1 | h1 | h1
  · exact h1
  · rw [h1, cmpR_refl] at h; cases h
  · rw [cmpR_gt h1] at h; cases h

theorem lex_refl : ∀ a, lex a a = .eq
  | [] => rfl
  | a :: as => by rw [lex, cmpR_refl, lex_refl as]; rfl

theorem lex_swap : ∀ a b, (lex a b).swap = lex b a
  | [], [] => rfl
  | [], _ :: _ => rfl
  | _ :: _, [] => rfl
  | a :: as, b :: bs => by
    rw [lex, lex, ← cmpR_swap a b, ← lex_swap as bs]
    cases cmpR a b <;> rfl

theorem lex_eq : ∀ a b, lex a b = .eq → a = b
  | [], [], _ => rfl
  | [], _ :: _, h => by cases h
  | _ :: _, [], h => by cases h
  | a :: as, b :: bs, h => by
    rw [lex] at h
    cases hc : cmpR a b with
    | lt => rw [hc] at h; cases h
    | gt => rw [hc] at h; cases h
    | eq => rw [hc] at h; rw [cmpR_eq hc, lex_eq as bs h]

theorem lex_trans : ∀ a b c, lex a b = .lt → lex b c = .lt → lex a c = .lt
  | [], [], _, h, _ => by cases h
  | [], _ :: _, [], _, h => by cases h
  | [], _ :: _, _ :: _, _, _ => rfl
  | _ :: _, [], _, h, _ => by cases h
  | _ :: _, _ :: _, [], _, h => by cases h
  | a :: as, b :: bs, c :: cs, h1, h2 => by
    rw [lex] at h1 h2 ⊢
    cases hab : cmpR a b with
    | gt => rw [hab] at h1; cases h1
    | lt =>
      have hab := cmpR_isLt hab
      cases hbc : cmpR b c with
      | gt => rw [hbc] at h2; cases h2
      | lt => rw [cmpR_lt (hab.trans (cmpR_isLt hbc))]; rfl
      | eq => rw [← cmpR_eq hbc, cmpR_lt hab]; rfl
    | eq =>
      rw [hab] at h1
      cases hbc : cmpR b c with
      | gt => rw [hbc] at h2; cases h2
      | lt => rw [cmpR_eq hab, hbc]; rfl
      | eq =>
        rw [hbc] at h2
        rw [cmpR_eq hab, hbc]
        exact lex_trans as bs cs h1 h2

theorem lex_cons_eq (a : Rat) (u v : List Rat) : lex (a :: u) (a :: v) = lex u v := by rw [lex, cmpR_refl]; rfl
theorem lex_cons_lt {a b : Rat} (h : a < b) (u v : List Rat) : lex (a :: u) (b :: v) = .lt := by rw [lex, cmpR_lt h]; rfl
theorem lex_cons_gt {a b : Rat} (h : b < a) (u v : List Rat) : lex (a :: u) (b :: v) = .gt := by rw [lex, cmpR_gt h]; rfl

theorem then_assoc (a b c : Ordering) : (a.then b).then c = a.then (b.then c) := by cases a <;> rfl

/-! ## Keys of atoms -/

def strKey (s : List Nat) : List Rat := s.map (fun c : Nat => (c : Rat) + 1) ++ [0]

/-- The order of byte strings. -/
def bytesCmp (s t : List Nat) : Ordering :=
  match memcmp s t with
  | .eq => cmpN s.length t.length
  | o => o

theorem cmpN_eq {a b : Nat} (h : cmpN a b = .eq) : a = b := by
  rw [cmpN] at h
  by_cases h1 : a < b
  · rw [if_pos h1] at h; cases h
  · rw [if_neg h1] at h
    by_cases h2 : b < a
    · rw [if_pos h2] at h; cases h
    · omega

theorem cmpN_cast (a b : Nat) : cmpR (a : Rat) b = cmpN a b := by
  rw [cmpR, cmpN]
  simp only [Nat.cast_lt]

theorem cmpN_succ (a b : Nat) : cmpN (a + 1) (b + 1) = cmpN a b := by
  rw [cmpN, cmpN]
  simp only [Nat.add_lt_add_iff_right]

theorem bytesCmp_cons (a b : Nat) (s t : List Nat) : bytesCmp (a :: s) (b :: t) = (cmpN a b).then (bytesCmp s t) := by
  rw [bytesCmp, memcmp]
  cases h : cmpN a b with
  | lt => rfl
  | gt => rfl
  | eq =>
    dsimp only
    rw [List.length_cons, List.length_cons, cmpN_succ]
    rfl

theorem lex_strKey : ∀ (s t : List Nat) (u v : List Rat), lex (strKey s ++ u) (strKey t ++ v) = (bytesCmp s t).then (lex u v)
  | [], [], u, v => lex_cons_eq 0 u v
  | [], b :: t, u, v => lex_cons_lt (by positivity) _ _
  | a :: s, [], u, v => lex_cons_gt (by positivity) _ _
  | a :: s, b :: t, u, v => by
    have h := lex_strKey s t u v
    rw [bytesCmp_cons, then_assoc, ← h]
    show (cmpR ((a : Rat) + 1) ((b : Rat) + 1)).then _ = _
    rw [show cmpR ((a : Rat) + 1) ((b : Rat) + 1) = cmpN a b from by rw [← cmpN_succ, ← cmpN_cast]; push_cast; rfl]
    rfl

theorem memcmp_self : ∀ s : List Nat, memcmp s s = .eq
  | [] => rfl
  | a :: s => by rw [memcmp, show cmpN a a = .eq from by rw [cmpN, if_neg (lt_irrefl a), if_neg (lt_irrefl a)]]; exact memcmp_self s

theorem memcmp_eq : ∀ s t : List Nat, s.length = t.length → memcmp s t = .eq → s = t
  | [], [], _, _ => rfl
  | a :: s, b :: t, hl, h => by
    rw [memcmp] at h
    cases hc : cmpN a b with
    | lt => rw [hc] at h; cases h
    | gt => rw [hc] at h; cases h
    | eq => rw [hc] at h; rw [cmpN_eq hc, memcmp_eq s t (by simpa using hl) h]

def flag (b : Bool) : Rat := if b then 1 else 0

theorem lex_flag (a b : Bool) (u v : List Rat) :
    lex (flag a :: u) (flag b :: v) = (if a then (if b then Ordering.eq else .gt) else (if b then .lt else .eq)).then (lex u v) := by
  cases a <;> cases b
  · exact lex_cons_eq 0 u v
  · exact lex_cons_lt (by norm_num [flag]) _ _
  · exact lex_cons_gt (by norm_num [flag]) _ _
  · exact lex_cons_eq 1 u v

theorem strCmp_bytes (s : List Nat) (i : Bool) (t : List Nat) (j : Bool) :
    strCmp s i t j = (bytesCmp s t).then (if i then (if j then Ordering.eq else .gt) else (if j then .lt else .eq)) := by
  rw [strCmp, bytesCmp]
  cases memcmp s t with
  | lt => rfl
  | gt => rfl
  | eq =>
    dsimp only
    rw [cmpN]
    by_cases h1 : s.length = t.length
    · rw [if_pos h1, h1]; simp only [lt_irrefl, if_false]; rfl
    · rw [if_neg h1]
      by_cases h2 : s.length < t.length
      · rw [if_pos h2, if_pos h2]; rfl
      · rw [if_neg h2, if_neg h2, if_pos (by omega)]; rfl

theorem bytesCmp_self (s : List Nat) : bytesCmp s s = .eq := by
  rw [bytesCmp, memcmp_self]
  dsimp only
  rw [cmpN, if_neg (lt_irrefl _), if_neg (lt_irrefl _)]

theorem bytesCmp_eq {s t : List Nat} (h : bytesCmp s t = .eq) : s = t := by
  rw [bytesCmp] at h
  cases hm : memcmp s t with
  | lt => rw [hm] at h; cases h
  | gt => rw [hm] at h; cases h
  | eq => rw [hm] at h; exact memcmp_eq s t (cmpN_eq h) hm

/-- The key of the rest of a symbol. -/
def symRest : Option Nat → List Rat
  | none => [0, 0]
  | some a => [1, a]

theorem lex_symRest (a b : Option Nat) (u v : List Rat) : lex (symRest a ++ u) (symRest b ++ v) =
    (match a, b with
      | none, none => Ordering.eq
      | none, some _ => .lt
      | some _, none => .gt
      | some a, some b => cmpN a b).then (lex u v) := by
  cases a <;> cases b
  · show lex (0 :: 0 :: u) (0 :: 0 :: v) = _
    rw [lex_cons_eq, lex_cons_eq]; rfl
  · exact lex_cons_lt (by norm_num) _ _
  · exact lex_cons_gt (by norm_num) _ _
  · rename_i a b
    show lex (1 :: (a : Rat) :: u) (1 :: (b : Rat) :: v) = _
    rw [lex_cons_eq, lex, cmpN_cast]

theorem lex_sym (x : List Nat) (xa : Option Nat) (y : List Nat) (ya : Option Nat) (u v : List Rat) :
    lex (strKey x ++ (symRest xa ++ u)) (strKey y ++ (symRest ya ++ v)) = (symCmp x xa y ya).then (lex u v) := by
  rw [lex_strKey, lex_symRest, symCmp.eq_def]
  by_cases h : x = y ∧ xa = ya
  · rw [if_pos h, h.1, h.2, bytesCmp_self]
    cases ya with
    | none => rfl
    | some a => show ((cmpN a a).then _) = _; rw [cmpN, if_neg (lt_irrefl a), if_neg (lt_irrefl a)]
  · rw [if_neg h, strCmp_bytes]
    cases hb : bytesCmp x y with
    | lt => rfl
    | gt => rfl
    | eq =>
      have hx := bytesCmp_eq hb
      cases xa with
      | none =>
        cases ya with
        | none => exact absurd ⟨hx, rfl⟩ h
        | some b => rfl
      | some a =>
        cases ya with
        | none => rfl
        | some b =>
          have hne : a ≠ b := fun e => h ⟨hx, by rw [e]⟩
          show ((cmpN a b).then _) = Ordering.then (if a < b then .lt else .gt) _
          rw [cmpN]
          by_cases h1 : a < b
          · rw [if_pos h1, if_pos h1]
          · rw [if_neg h1, if_neg h1, if_pos (by omega)]

def numKey (rnd : Rat → Rat) : Num → List Rat
  | .real q => [rnd q, 0, q]
  | .comp c => [c.re, c.im, 0]

theorem lex_num (rnd : Rat → Rat) (hr : ∀ p q, p ≤ q → rnd p ≤ rnd q) (a b : Num) (u v : List Rat) :
    lex (numKey rnd a ++ u) (numKey rnd b ++ v) = (numCmp rnd a b).then (lex u v) := by
  have mixed : ∀ r i c r' i' c' : Rat, (i = i' → c = c') → lex ([r, i, c] ++ u) ([r', i', c'] ++ v) =
      (match cmpR r r' with | .eq => cmpR i i' | o => o).then (lex u v) := by
    intro r i c r' i' c' h
    show (cmpR r r').then ((cmpR i i').then ((cmpR c c').then (lex u v))) = _
    cases cmpR r r' with
    | lt => rfl
    | gt => rfl
    | eq =>
      cases hi : cmpR i i' with
      | lt => rfl
      | gt => rfl
      | eq => rw [h (cmpR_eq hi), cmpR_refl]; rfl
  cases a with
  | real p =>
    cases b with
    | real q =>
      show (cmpR (rnd p) (rnd q)).then ((cmpR 0 0).then ((cmpR p q).then (lex u v))) = (cmpR p q).then _
      rw [cmpR_refl]
      rcases lt_trichotomy p q with h | h | h
      · rw [cmpR_lt h]
        rcases lt_or_eq_of_le (hr p q h.le) with h1 | h1
        · rw [cmpR_lt h1]; rfl
        · rw [h1, cmpR_refl]; rfl
      · rw [h, cmpR_refl]; rfl
      · rw [cmpR_gt h]
        rcases lt_or_eq_of_le (hr q p h.le) with h1 | h1
        · rw [cmpR_gt h1]; rfl
        · rw [h1, cmpR_refl]; rfl
    | comp c => exact mixed _ _ _ _ _ _ (fun h => absurd h.symm c.ne)
  | comp c =>
    cases b with
    | real q => exact mixed _ _ _ _ _ _ (fun h => absurd h c.ne)
    | comp c' => exact mixed _ _ _ _ _ _ (fun _ => rfl)

theorem lex_elems : ∀ (s t u v : List Rat), s.length = t.length → lex (s ++ u) (t ++ v) = (elemsCmp s t).then (lex u v)
  | [], [], u, v, _ => rfl
  | a :: s, b :: t, u, v, h => by
    have ih := lex_elems s t u v (by simpa using h)
    show (cmpR a b).then (lex (s ++ u) (t ++ v)) = _
    rw [ih, elemsCmp]
    rcases lt_trichotomy a b with h | h | h
    · rw [cmpR_lt h, if_pos h]; rfl
    · rw [h, cmpR_refl, if_neg (lt_irrefl b), if_neg (not_not.2 rfl)]; rfl
    · rw [cmpR_gt h, if_neg (not_lt_of_gt h), if_pos h.ne']; rfl

theorem lex_len (a b : Nat) (u v : List Rat) : lex ((a : Rat) :: u) ((b : Rat) :: v) = (cmpN a b).then (lex u v) := by rw [lex, cmpN_cast]

theorem lex_uvec (s t u v : List Rat) : lex ((s.length : Rat) :: (s ++ u)) ((t.length : Rat) :: (t ++ v)) = (uvecCmp s t).then (lex u v) := by
  rw [lex_len, uvecCmp, cmpN]
  by_cases h : s.length = t.length
  · rw [if_neg (by omega), if_neg (by omega), if_neg (not_not.2 h), lex_elems s t u v h]; rfl
  · rw [if_pos h]
    by_cases h1 : s.length < t.length
    · rw [if_pos h1, if_pos h1]; rfl
    · rw [if_neg h1, if_neg h1, if_pos (by omega)]; rfl

/-- The rank of a type of uniform vectors. -/
def UType.rank : UType → Nat
  | u8 => 0 | s8 => 1 | u16 => 2 | s16 => 3 | u32 => 4 | s32 => 5 | u64 => 6 | s64 => 7 | f16 => 8 | f32 => 9 | f64 => 10

theorem utype_rank (s t : UType) (h : s ≠ t) : utypeCmp s t = cmpN s.rank t.rank := by
  revert h; cases s <;> cases t <;> decide

theorem rank_inj (s t : UType) (h : s.rank = t.rank) : s = t := by revert h; cases s <;> cases t <;> decide

def modsKey : List (List Nat) → List Rat
  | [] => [1]
  | m :: ms => 0 :: (strKey m ++ ([0, 0] ++ modsKey ms))

theorem lex_mods : ∀ (x y : List (List Nat)) (u v : List Rat), lex (modsKey x ++ u) (modsKey y ++ v) = (modsCmp x y).then (lex u v)
  | [], [], u, v => lex_cons_eq 1 u v
  | [], _ :: _, u, v => lex_cons_gt (by norm_num) _ _
  | _ :: _, [], u, v => lex_cons_lt (by norm_num) _ _
  | a :: x, b :: y, u, v => by
    show lex (0 :: ((strKey a ++ ([0, 0] ++ modsKey x)) ++ u)) (0 :: ((strKey b ++ ([0, 0] ++ modsKey y)) ++ v)) = _
    rw [lex_cons_eq]
    have h := lex_sym a none b none (modsKey x ++ u) (modsKey y ++ v)
    rw [symRest] at h
    rw [List.append_assoc, List.append_assoc, List.append_assoc, List.append_assoc, h, lex_mods x y u v, modsCmp]
    cases symCmp a none b none <;> rfl

def classKey (c : Class) : List Rat := strKey c.name ++ ([0, 0] ++ (modsKey c.modules ++ [(c.addr : Rat)]))

/-- The order of classes. -/
def classOrd (c c' : Class) : Ordering := if c = c' then .eq else classCmp c c'

theorem symCmp_eq {x y : List Nat} (h : symCmp x none y none = .eq) : x = y := by
  rw [symCmp] at h
  by_cases he : x = y ∧ (none : Option Nat) = none
  · exact he.1
  · rw [if_neg he] at h
    cases hs : strCmp x false y false <;> rw [hs] at h <;> cases h

theorem modsCmp_eq : ∀ {x y : List (List Nat)}, modsCmp x y = .eq → x = y
  | [], [], _ => rfl
  | [], _ :: _, h => by cases h
  | _ :: _, [], h => by cases h
  | a :: x, b :: y, h => by
    rw [modsCmp] at h
    cases hs : symCmp a none b none with
    | lt => rw [hs] at h; cases h
    | gt => rw [hs] at h; cases h
    | eq => rw [hs] at h; rw [symCmp_eq hs, modsCmp_eq h]

theorem symCmp_self (x : List Nat) (a : Option Nat) : symCmp x a x a = .eq := by rw [symCmp.eq_def, if_pos ⟨rfl, rfl⟩]

theorem modsCmp_self : ∀ x : List (List Nat), modsCmp x x = .eq
  | [] => rfl
  | a :: x => by rw [modsCmp, symCmp_self]; exact modsCmp_self x

theorem lex_class (c c' : Class) (u v : List Rat) : lex (classKey c ++ u) (classKey c' ++ v) = (classOrd c c').then (lex u v) := by
  have h := lex_sym c.name none c'.name none (modsKey c.modules ++ ((c.addr : Rat) :: u)) (modsKey c'.modules ++ ((c'.addr : Rat) :: v))
  rw [symRest, lex_mods, lex_len] at h
  rw [classKey, classKey]
  simp only [List.append_assoc, List.cons_append, List.nil_append] at h ⊢
  rw [h, classOrd]
  by_cases he : c = c'
  · rw [if_pos he, he, symCmp_self, modsCmp_self, cmpN, if_neg (lt_irrefl _), if_neg (lt_irrefl _)]; rfl
  · rw [if_neg he, classCmp]
    cases h1 : symCmp c.name none c'.name none with
    | lt => rfl
    | gt => rfl
    | eq =>
      cases h2 : modsCmp c.modules c'.modules with
      | lt => rfl
      | gt => rfl
      | eq =>
        have hne : c.addr ≠ c'.addr := by
          intro e
          apply he
          obtain ⟨n, m, a⟩ := c
          obtain ⟨n', m', a'⟩ := c'
          rw [show n = n' from symCmp_eq h1, show m = m' from modsCmp_eq h2, show a = a' from e]
        show (cmpN c.addr c'.addr).then _ = Ordering.then (if c.addr < c'.addr then .lt else .gt) _
        rw [cmpN]
        by_cases h3 : c.addr < c'.addr
        · rw [if_pos h3, if_pos h3]
        · rw [if_neg h3, if_neg h3, if_pos (by omega)]

theorem lex_int (a b : Int) (u v : List Rat) : lex ((a : Rat) :: u) ((b : Rat) :: v) =
    (if a < b then Ordering.lt else if b < a then .gt else .eq).then (lex u v) := by
  rw [lex, cmpR]
  simp only [Int.cast_lt]

/-! ## Keys of data -/

mutual
def key (rnd : Rat → Rat) : D → List Rat
  | .null => [0]
  | .pair a d => 1 :: (key rnd a ++ key rnd d)
  | .bool b => [2, flag b]
  | .char c => [3, (c : Rat)]
  | .str s i => 4 :: (strKey s ++ [flag i])
  | .sym n => 5 :: (strKey n ++ symRest none)
  | .usym n a => 5 :: (strKey n ++ symRest (some a))
  | .num n => 6 :: numKey rnd n
  | .vec l => 7 :: (l.length : Rat) :: keys rnd l
  | .uvec t l => 8 :: (t.rank : Rat) :: (l.length : Rat) :: l
  | .obj c v => 9 :: (classKey c ++ [(v : Rat)])
def keys (rnd : Rat → Rat) : List D → List Rat
  | [] => []
  | x :: xs => key rnd x ++ keys rnd xs
end

theorem key_tag (rnd : Rat → Rat) (x : D) : key rnd x = (x.tag : Rat) :: (key rnd x).tail := by
  cases x <;> simp [key, D.tag]

theorem cmp_tag (rnd : Rat → Rat) (x y : D) (h : x.tag ≠ y.tag) : cmp rnd x y = if x.tag < y.tag then .lt else .gt := by
  cases x <;> cases y <;> first | exact absurd rfl h | (rw [cmp.eq_def]; rfl) | (rename_i b _; cases b <;> (rw [cmp.eq_def]; rfl)) | (rename_i b; cases b <;> (rw [cmp.eq_def]; rfl)) | (rename_i b _ _; cases b <;> (rw [cmp.eq_def]; rfl))

section
variable (rnd : Rat → Rat) (hr : ∀ p q, p ≤ q → rnd p ≤ rnd q)
include hr

mutual
theorem main : ∀ (x y : D) (u v : List Rat), lex (key rnd x ++ u) (key rnd y ++ v) = (cmp rnd x y).then (lex u v)
  | x, y, u, v => by
    by_cases ht : x.tag = y.tag
    · cases x with
      | null => cases y <;> first | (exfalso; simp [D.tag] at ht; done) | skip
                rw [key, cmp.eq_def]; exact lex_cons_eq 0 u v
      | pair a d =>
        cases y <;> first | (exfalso; simp [D.tag] at ht; done) | skip
        rename_i a' d'
        rw [cmp, key, key, List.cons_append, List.cons_append, lex_cons_eq, List.append_assoc, List.append_assoc, main a a', main d d']
        cases cmp rnd a a' <;> rfl
      | bool b =>
        cases y <;> first | (exfalso; simp [D.tag] at ht; done) | skip
        rename_i b'
        rw [key, key]
        refine (lex_cons_eq 2 (flag b :: u) (flag b' :: v)).trans ((lex_flag b b' u v).trans ?_)
        cases b <;> cases b' <;> (rw [cmp.eq_def]; rfl)
      | char c =>
        cases y <;> first | (exfalso; simp [D.tag] at ht; done) | skip
        rename_i c'
        rw [key, key, cmp]
        refine (lex_cons_eq 3 ((c : Rat) :: u) ((c' : Rat) :: v)).trans ((lex_len c c' u v).trans ?_)
        rw [cmpN]
        by_cases h : c = c'
        · rw [if_pos h, h]; simp only [lt_irrefl, if_false]
        · rw [if_neg h]
          by_cases h1 : c < c'
          · rw [if_pos h1, if_pos h1]
          · rw [if_neg h1, if_neg h1, if_pos (by omega)]
      | str s i =>
        cases y <;> first | (exfalso; simp [D.tag] at ht; done) | skip
        rename_i t j
        rw [key, key, cmp, List.cons_append, List.cons_append, lex_cons_eq, List.append_assoc, List.append_assoc, lex_strKey, strCmp_bytes, then_assoc]
        exact congrArg _ (lex_flag i j u v)
      | sym n =>
        cases y <;> first | (exfalso; simp [D.tag] at ht; done) | skip
        all_goals
          rw [key, key, cmp, List.cons_append, List.cons_append, lex_cons_eq, List.append_assoc, List.append_assoc, lex_sym]
      | usym n a =>
        cases y <;> first | (exfalso; simp [D.tag] at ht; done) | skip
        all_goals
          rw [key, key, cmp, List.cons_append, List.cons_append, lex_cons_eq, List.append_assoc, List.append_assoc, lex_sym]
      | num n =>
        cases y <;> first | (exfalso; simp [D.tag] at ht; done) | skip
        rename_i m
        rw [key, key, cmp, List.cons_append, List.cons_append, lex_cons_eq, lex_num rnd hr]
      | vec l =>
        cases y <;> first | (exfalso; simp [D.tag] at ht; done) | skip
        rename_i l'
        rw [key, key, cmp]
        refine (lex_cons_eq 7 ((l.length : Rat) :: (keys rnd l ++ u)) ((l'.length : Rat) :: (keys rnd l' ++ v))).trans ((lex_len _ _ _ _).trans ?_)
        rw [cmpN]
        by_cases h : l.length = l'.length
        · rw [if_neg (by omega), if_neg (by omega), if_neg (by omega), if_neg (by omega), mainElems l l' u v h]; rfl
        · by_cases h1 : l.length < l'.length
          · rw [if_pos h1, if_pos h1]; rfl
          · rw [if_neg h1, if_neg h1, if_pos (by omega), if_pos (by omega)]; rfl
      | uvec t l =>
        cases y <;> first | (exfalso; simp [D.tag] at ht; done) | skip
        rename_i t' l'
        rw [key, key, cmp]
        refine (lex_cons_eq 8 ((t.rank : Rat) :: (l.length : Rat) :: (l ++ u)) ((t'.rank : Rat) :: (l'.length : Rat) :: (l' ++ v))).trans
          ((lex_len _ _ _ _).trans ?_)
        rw [lex_uvec]
        by_cases h : t = t'
        · rw [if_pos h, h, cmpN, if_neg (lt_irrefl _), if_neg (lt_irrefl _)]; rfl
        · rw [if_neg h, ← utype_rank t t' h]
          have hne : utypeCmp t t' ≠ .eq := by
            rw [utype_rank t t' h]
            intro e
            exact h (rank_inj t t' (cmpN_eq e))
          show _ = (utypeCmp t t').then _
          cases hu : utypeCmp t t' with
          | lt => rfl
          | gt => rfl
          | eq => exact absurd hu hne
      | obj c w =>
        cases y <;> first | (exfalso; simp [D.tag] at ht; done) | skip
        rename_i c' w'
        rw [key, key, cmp, List.cons_append, List.cons_append, lex_cons_eq, List.append_assoc, List.append_assoc, lex_class]
        refine (congrArg _ (lex_int w w' u v)).trans ?_
        rw [classOrd]
        by_cases h : c = c'
        · rw [if_pos h, if_pos h]; rfl
        · rw [if_neg h, if_neg h]
          show _ = (classCmp c c').then _
          have hne : classCmp c c' ≠ .eq := by
            rw [classCmp]
            cases symCmp c.name none c'.name none with
            | lt => exact fun h => by cases h
            | gt => exact fun h => by cases h
            | eq =>
              cases modsCmp c.modules c'.modules with
              | lt => exact fun h => by cases h
              | gt => exact fun h => by cases h
              | eq => dsimp only; split <;> exact fun h => by cases h
          cases hu : classCmp c c' with
          | lt => rfl
          | gt => rfl
          | eq => exact absurd hu hne
    · rw [cmp_tag rnd x y ht, key_tag rnd x, key_tag rnd y, List.cons_append, List.cons_append]
      by_cases h : x.tag < y.tag
      · rw [if_pos h, lex_cons_lt (by exact_mod_cast h)]; rfl
      · rw [if_neg h, lex_cons_gt (by exact_mod_cast (by omega : y.tag < x.tag))]; rfl
theorem mainElems : ∀ (l l' : List D) (u v : List Rat), l.length = l'.length →
    lex (keys rnd l ++ u) (keys rnd l' ++ v) = (cmpElems rnd l l').then (lex u v)
  | [], l', u, v, h => by
    cases l' with
    | nil => rw [keys, cmpElems]; rfl
    | cons _ _ => cases h
  | x :: l, l', u, v, h => by
    cases l' with
    | nil => cases h
    | cons y l' =>
      rw [keys, keys, cmpElems, List.append_assoc, List.append_assoc, main x y, mainElems l l' u v (by simpa using h)]
      cases cmp rnd x y <;> rfl
end

theorem cmp_key (x y : D) : cmp rnd x y = lex (key rnd x) (key rnd y) := by
  have h := main rnd hr x y [] []
  rw [List.append_nil, List.append_nil] at h
  rw [h]
  cases cmp rnd x y <;> rfl

end

/-! ## Equal data -/

theorem elemsCmp_eq : ∀ s t : List Rat, s.length = t.length → elemsCmp s t = .eq → s = t
  | [], [], _, _ => rfl
  | a :: s, b :: t, hl, h => by
    rw [elemsCmp] at h
    by_cases h1 : a < b
    · rw [if_pos h1] at h; cases h
    · rw [if_neg h1] at h
      by_cases h2 : a ≠ b
      · rw [if_pos h2] at h; cases h
      · rw [if_neg h2] at h
        rw [not_not.1 h2, elemsCmp_eq s t (by simpa using hl) h]

theorem symCmp_eq' {x y : List Nat} {a b : Option Nat} (h : symCmp x a y b = .eq) : x = y ∧ a = b := by
  rw [symCmp.eq_def] at h
  by_cases he : x = y ∧ a = b
  · exact he
  · rw [if_neg he] at h
    cases hs : strCmp x false y false with
    | lt => rw [hs] at h; cases h
    | gt => rw [hs] at h; cases h
    | eq =>
      rw [hs] at h
      cases a <;> cases b <;> first | (cases h; done) | skip
      dsimp only at h
      split at h <;> cases h

theorem numCmp_eq {rnd : Rat → Rat} {a b : Num} (h : numCmp rnd a b = .eq) : a = b := by
  have mixed : ∀ r r' i i' : Rat, (match cmpR r r' with | .eq => cmpR i i' | o => o) = .eq → r = r' ∧ i = i' := by
    intro r r' i i' h
    cases hc : cmpR r r' with
    | lt => rw [hc] at h; cases h
    | gt => rw [hc] at h; cases h
    | eq => rw [hc] at h; exact ⟨cmpR_eq hc, cmpR_eq h⟩
  cases a with
  | real p =>
    cases b with
    | real q => rw [cmpR_eq h]
    | comp c => exact absurd (mixed _ _ _ _ h).2.symm c.ne
  | comp c =>
    cases b with
    | real q => exact absurd (mixed _ _ _ _ h).2 c.ne
    | comp c' =>
      obtain ⟨h1, h2⟩ := mixed _ _ _ _ h
      obtain ⟨r, i, _⟩ := c
      obtain ⟨r', i', _⟩ := c'
      have h1 : r = r' := h1
      have h2 : i = i' := h2
      subst h1; subst h2; rfl

mutual
theorem cmp_eq (rnd : Rat → Rat) : ∀ (x y : D), cmp rnd x y = .eq → x = y
  | x, y, h => by
    by_cases ht : x.tag = y.tag
    · cases x with
      | null => cases y <;> first | (exfalso; simp [D.tag] at ht; done) | rfl
      | pair a d =>
        cases y <;> first | (exfalso; simp [D.tag] at ht; done) | skip
        rename_i a' d'
        rw [cmp] at h
        cases hc : cmp rnd a a' with
        | lt => rw [hc] at h; cases h
        | gt => rw [hc] at h; cases h
        | eq => rw [hc] at h; rw [cmp_eq rnd a a' hc, cmp_eq rnd d d' h]
      | bool b =>
        cases y <;> first | (exfalso; simp [D.tag] at ht; done) | skip
        rename_i b'
        cases b <;> cases b' <;> first | rfl | (rw [cmp.eq_def] at h; cases h)
      | char c =>
        cases y <;> first | (exfalso; simp [D.tag] at ht; done) | skip
        rename_i c'
        rw [cmp] at h
        by_cases hc : c = c'
        · rw [hc]
        · rw [if_neg hc] at h
          split at h <;> cases h
      | str s i =>
        cases y <;> first | (exfalso; simp [D.tag] at ht; done) | skip
        rename_i t j
        rw [cmp, strCmp_bytes] at h
        cases hb : bytesCmp s t with
        | lt => rw [hb] at h; cases h
        | gt => rw [hb] at h; cases h
        | eq =>
          rw [hb] at h
          rw [bytesCmp_eq hb]
          cases i <;> cases j <;> first | rfl | cases h
      | sym n =>
        cases y <;> first | (exfalso; simp [D.tag] at ht; done) | skip
        · rw [cmp] at h; rw [(symCmp_eq' h).1]
        · rw [cmp] at h; cases (symCmp_eq' h).2
      | usym n a =>
        cases y <;> first | (exfalso; simp [D.tag] at ht; done) | skip
        · rw [cmp] at h; cases (symCmp_eq' h).2
        · rw [cmp] at h; obtain ⟨h1, h2⟩ := symCmp_eq' h; rw [h1, Option.some.inj h2]
      | num n =>
        cases y <;> first | (exfalso; simp [D.tag] at ht; done) | skip
        rw [cmp] at h; rw [numCmp_eq h]
      | vec l =>
        cases y <;> first | (exfalso; simp [D.tag] at ht; done) | skip
        rename_i l'
        rw [cmp] at h
        by_cases h1 : l.length < l'.length
        · rw [if_pos h1] at h; cases h
        · rw [if_neg h1] at h
          by_cases h2 : l.length > l'.length
          · rw [if_pos h2] at h; cases h
          · rw [if_neg h2] at h
            rw [cmpElems_eq rnd l l' (by omega) h]
      | uvec t l =>
        cases y <;> first | (exfalso; simp [D.tag] at ht; done) | skip
        rename_i t' l'
        rw [cmp] at h
        by_cases h1 : t = t'
        · rw [if_pos h1, uvecCmp] at h
          by_cases h2 : l.length ≠ l'.length
          · rw [if_pos h2] at h; split at h <;> cases h
          · rw [if_neg h2] at h
            rw [h1, elemsCmp_eq l l' (not_not.1 h2) h]
        · rw [if_neg h1] at h
          have h : utypeCmp t t' = .eq := h
          rw [utype_rank t t' h1] at h
          exact absurd (rank_inj t t' (cmpN_eq h)) h1
      | obj c v =>
        cases y <;> first | (exfalso; simp [D.tag] at ht; done) | skip
        rename_i c' v'
        rw [cmp] at h
        by_cases h1 : c = c'
        · rw [if_pos h1] at h
          by_cases h2 : v < v'
          · rw [if_pos h2] at h; cases h
          · rw [if_neg h2] at h
            by_cases h3 : v' < v
            · rw [if_pos h3] at h; cases h
            · rw [h1, show v = v' from by omega]
        · rw [if_neg h1] at h
          have h : classCmp c c' = .eq := h
          rw [classCmp] at h
          exfalso
          cases hs : symCmp c.name none c'.name none with
          | lt => rw [hs] at h; cases h
          | gt => rw [hs] at h; cases h
          | eq =>
            rw [hs] at h
            cases hm : modsCmp c.modules c'.modules with
            | lt => rw [hm] at h; cases h
            | gt => rw [hm] at h; cases h
            | eq => rw [hm] at h; dsimp only at h; split at h <;> cases h
    · rw [cmp_tag rnd x y ht] at h
      split at h <;> cases h
theorem cmpElems_eq (rnd : Rat → Rat) : ∀ (l l' : List D), l.length = l'.length → cmpElems rnd l l' = .eq → l = l'
  | [], l', hl, _ => by
    cases l' with
    | nil => rfl
    | cons _ _ => cases hl
  | x :: l, l', hl, h => by
    cases l' with
    | nil => cases hl
    | cons y l' =>
      rw [cmpElems] at h
      cases hc : cmp rnd x y with
      | lt => rw [hc] at h; cases h
      | gt => rw [hc] at h; cases h
      | eq => rw [hc] at h; rw [cmp_eq rnd x y hc, cmpElems_eq rnd l l' (by simpa using hl) h]
end

/-! ## Lists without end -/

theorem cmpN_swap (a b : Nat) (h : cmpN a b = .gt) : b < a := by
  rw [cmpN] at h
  by_cases h1 : a < b
  · rw [if_pos h1] at h; cases h
  · rw [if_neg h1] at h
    by_cases h2 : b < a
    · exact h2
    · rw [if_neg h2] at h; cases h

/-- The first place where the lists differ decides. -/
def Decided (carx cdrx cary cdry : Nat → Nat) (px py : Nat) (o : Ordering) : Prop :=
  ∃ i, (∀ j, j < i → nthElem carx cdrx px j = nthElem cary cdry py j) ∧ cmpN (nthElem carx cdrx px i) (nthElem cary cdry py i) = o

theorem decided_step {carx cdrx cary cdry : Nat → Nat} {px py : Nat} {o : Ordering} (h : cmpN (carx px) (cary py) = .eq)
    (hd : Decided carx cdrx cary cdry (cdrx px) (cdry py) o) : Decided carx cdrx cary cdry px py o := by
  obtain ⟨i, h1, h2⟩ := hd
  refine ⟨i + 1, fun j hj => ?_, h2⟩
  cases j with
  | zero => exact cmpN_eq h
  | succ j => exact h1 j (by omega)

theorem circular_sound (carx cdrx cary cdry : Nat → Nat) (o : Ordering) (ho : o ≠ .eq) : ∀ (n px sx py sy : Nat) (cx cy : Bool),
    circular carx cdrx cary cdry n px sx py sy cx cy = some o → Decided carx cdrx cary cdry px py o := by
  intro n
  induction n with
  | zero => intro px sx py sy cx cy h; cases h
  | succ n ih =>
    intro px sx py sy cx cy h
    rw [circular] at h
    cases h1 : cmpN (carx px) (cary py) with
    | lt => rw [h1] at h; cases h; exact ⟨0, fun j hj => absurd hj (Nat.not_lt_zero j), h1⟩
    | gt => rw [h1] at h; cases h; exact ⟨0, fun j hj => absurd hj (Nat.not_lt_zero j), h1⟩
    | eq =>
      rw [h1] at h
      refine decided_step h1 ?_
      dsimp only at h
      cases h2 : cmpN (carx (cdrx px)) (cary (cdry py)) with
      | lt => rw [h2] at h; cases h; exact ⟨0, fun j hj => absurd hj (Nat.not_lt_zero j), h2⟩
      | gt => rw [h2] at h; cases h; exact ⟨0, fun j hj => absurd hj (Nat.not_lt_zero j), h2⟩
      | eq =>
        rw [h2] at h
        refine decided_step h2 ?_
        dsimp only at h
        by_cases hc : ((if cdrx sx = cdrx (cdrx px) then true else cx) && (if cdry sy = cdry (cdry py) then true else cy)) = true
        · rw [if_pos hc] at h; cases h; exact absurd rfl ho
        · rw [if_neg hc] at h
          exact ih _ _ _ _ _ _ h

/-- What holds after `k` rounds. -/
structure Rounds (carx cdrx cary cdry : Nat → Nat) (p q k px sx py sy : Nat) (cx cy : Bool) : Prop where
  px : px = cdrx^[2 * k] p
  sx : sx = cdrx^[k] p
  py : py = cdry^[2 * k] q
  sy : sy = cdry^[k] q
  cx : cx = true → ∃ i, 0 < i ∧ i ≤ k ∧ cdrx^[2 * i] p = cdrx^[i] p
  cy : cy = true → ∃ i, 0 < i ∧ i ≤ k ∧ cdry^[2 * i] q = cdry^[i] q
  same : ∀ i, i < 2 * k → carx (cdrx^[i] p) = cary (cdry^[i] q)

theorem circular_eq (carx cdrx cary cdry : Nat → Nat) (p q : Nat) : ∀ (n k px sx py sy : Nat) (cx cy : Bool),
    Rounds carx cdrx cary cdry p q k px sx py sy cx cy → circular carx cdrx cary cdry n px sx py sy cx cy = some .eq →
    ∃ k px sx py sy, Rounds carx cdrx cary cdry p q k px sx py sy true true := by
  intro n
  induction n with
  | zero => intro k px sx py sy cx cy _ h; cases h
  | succ n ih =>
    intro k px sx py sy cx cy hR h
    rw [circular] at h
    cases h1 : cmpN (carx px) (cary py) with
    | lt => rw [h1] at h; cases h
    | gt => rw [h1] at h; cases h
    | eq =>
      rw [h1] at h
      dsimp only at h
      cases h2 : cmpN (carx (cdrx px)) (cary (cdry py)) with
      | lt => rw [h2] at h; cases h
      | gt => rw [h2] at h; cases h
      | eq =>
        rw [h2] at h
        dsimp only at h
        have hpx : cdrx (cdrx px) = cdrx^[2 * (k + 1)] p := by
          rw [hR.px, show 2 * (k + 1) = 2 * k + 1 + 1 from by omega, Function.iterate_succ_apply', Function.iterate_succ_apply']
        have hpy : cdry (cdry py) = cdry^[2 * (k + 1)] q := by
          rw [hR.py, show 2 * (k + 1) = 2 * k + 1 + 1 from by omega, Function.iterate_succ_apply', Function.iterate_succ_apply']
        have hsx : cdrx sx = cdrx^[k + 1] p := by rw [hR.sx, Function.iterate_succ_apply']
        have hsy : cdry sy = cdry^[k + 1] q := by rw [hR.sy, Function.iterate_succ_apply']
        have hR' : Rounds carx cdrx cary cdry p q (k + 1) (cdrx (cdrx px)) (cdrx sx) (cdry (cdry py)) (cdry sy)
            (if cdrx sx = cdrx (cdrx px) then true else cx) (if cdry sy = cdry (cdry py) then true else cy) := by
          refine ⟨hpx, hsx, hpy, hsy, fun hc => ?_, fun hc => ?_, fun i hi => ?_⟩
          · by_cases he : cdrx sx = cdrx (cdrx px)
            · exact ⟨k + 1, by omega, le_refl _, by rw [← hpx, ← hsx, he]⟩
            · rw [if_neg he] at hc
              obtain ⟨i, a, b, c⟩ := hR.cx hc
              exact ⟨i, a, by omega, c⟩
          · by_cases he : cdry sy = cdry (cdry py)
            · exact ⟨k + 1, by omega, le_refl _, by rw [← hpy, ← hsy, he]⟩
            · rw [if_neg he] at hc
              obtain ⟨i, a, b, c⟩ := hR.cy hc
              exact ⟨i, a, by omega, c⟩
          · by_cases hi1 : i < 2 * k
            · exact hR.same i hi1
            · by_cases hi2 : i = 2 * k
              · rw [hi2, ← hR.px, ← hR.py]; exact cmpN_eq h1
              · rw [show i = 2 * k + 1 from by omega, Function.iterate_succ_apply', Function.iterate_succ_apply', ← hR.px, ← hR.py]
                exact cmpN_eq h2
        by_cases hc : ((if cdrx sx = cdrx (cdrx px) then true else cx) && (if cdry sy = cdry (cdry py) then true else cy)) = true
        · rw [Bool.and_eq_true] at hc
          rw [hc.1, hc.2] at hR'
          exact ⟨_, _, _, _, _, hR'⟩
        · rw [if_neg hc] at h
          exact ih (k + 1) _ _ _ _ _ _ hR' h

theorem circular_none (carx cdrx cary cdry : Nat → Nat) (p q : Nat) : ∀ (n k px sx py sy : Nat) (cx cy : Bool),
    px = cdrx^[2 * k] p → sx = cdrx^[k] p → py = cdry^[2 * k] q → sy = cdry^[k] q → 0 < n →
    circular carx cdrx cary cdry n px sx py sy cx cy = none →
    ¬ ((cx = true ∨ ∃ i, k < i ∧ i ≤ k + n ∧ cdrx^[2 * i] p = cdrx^[i] p) ∧ (cy = true ∨ ∃ i, k < i ∧ i ≤ k + n ∧ cdry^[2 * i] q = cdry^[i] q)) := by
  intro n
  induction n with
  | zero => intro k px sx py sy cx cy _ _ _ _ h; exact absurd h (lt_irrefl 0)
  | succ n ih =>
    intro k px sx py sy cx cy e1 e2 e3 e4 _ h
    rw [circular] at h
    cases h1 : cmpN (carx px) (cary py) with
    | lt => rw [h1] at h; cases h
    | gt => rw [h1] at h; cases h
    | eq =>
      rw [h1] at h
      dsimp only at h
      cases h2 : cmpN (carx (cdrx px)) (cary (cdry py)) with
      | lt => rw [h2] at h; cases h
      | gt => rw [h2] at h; cases h
      | eq =>
        rw [h2] at h
        dsimp only at h
        have hpx : cdrx (cdrx px) = cdrx^[2 * (k + 1)] p := by
          rw [e1, show 2 * (k + 1) = 2 * k + 1 + 1 from by omega, Function.iterate_succ_apply', Function.iterate_succ_apply']
        have hpy : cdry (cdry py) = cdry^[2 * (k + 1)] q := by
          rw [e3, show 2 * (k + 1) = 2 * k + 1 + 1 from by omega, Function.iterate_succ_apply', Function.iterate_succ_apply']
        have hsx : cdrx sx = cdrx^[k + 1] p := by rw [e2, Function.iterate_succ_apply']
        have hsy : cdry sy = cdry^[k + 1] q := by rw [e4, Function.iterate_succ_apply']
        by_cases hc : ((if cdrx sx = cdrx (cdrx px) then true else cx) && (if cdry sy = cdry (cdry py) then true else cy)) = true
        · rw [if_pos hc] at h; cases h
        · rw [if_neg hc] at h
          have stepx : (cx = true ∨ ∃ i, k < i ∧ i ≤ k + (n + 1) ∧ cdrx^[2 * i] p = cdrx^[i] p) →
              ((if cdrx sx = cdrx (cdrx px) then true else cx) = true ∨ ∃ i, k + 1 < i ∧ i ≤ k + 1 + n ∧ cdrx^[2 * i] p = cdrx^[i] p) := by
            rintro (h | ⟨i, a, b, c⟩)
            · left; rw [h]; split <;> rfl
            · by_cases hi : i = k + 1
              · left; rw [if_pos]; rw [hpx, hsx, ← hi, c]
              · right; exact ⟨i, by omega, by omega, c⟩
          have stepy : (cy = true ∨ ∃ i, k < i ∧ i ≤ k + (n + 1) ∧ cdry^[2 * i] q = cdry^[i] q) →
              ((if cdry sy = cdry (cdry py) then true else cy) = true ∨ ∃ i, k + 1 < i ∧ i ≤ k + 1 + n ∧ cdry^[2 * i] q = cdry^[i] q) := by
            rintro (h | ⟨i, a, b, c⟩)
            · left; rw [h]; split <;> rfl
            · by_cases hi : i = k + 1
              · left; rw [if_pos]; rw [hpy, hsy, ← hi, c]
              · right; exact ⟨i, by omega, by omega, c⟩
          rintro ⟨hx, hy⟩
          cases n with
          | zero =>
            apply hc
            rw [Bool.and_eq_true]
            constructor
            · rcases stepx hx with h | ⟨i, a, b, _⟩
              · exact h
              · omega
            · rcases stepy hy with h | ⟨i, a, b, _⟩
              · exact h
              · omega
          | succ n => exact ih (k + 1) _ _ _ _ _ _ hpx hsx hpy hsy (by omega) h ⟨stepx hx, stepy hy⟩

theorem nthElem_iterate (car cdr : Nat → Nat) : ∀ (i p : Nat), nthElem car cdr p i = car (cdr^[i] p)
  | 0, _ => rfl
  | i + 1, p => by rw [nthElem, nthElem_iterate car cdr i, Function.iterate_succ_apply]

theorem iterate_mul_period {f : Nat → Nat} {p m : Nat} (h : f^[m] p = p) : ∀ i, f^[i * m] p = p
  | 0 => by rw [Nat.zero_mul]; rfl
  | i + 1 => by rw [Nat.add_one_mul, Function.iterate_add_apply, h, iterate_mul_period h i]

/-- In a list that comes back to its first pair, all periods are periods from the beginning. -/
theorem period_of_pure {f : Nat → Nat} {p m i : Nat} (hm : 0 < m) (h : f^[m] p = p) (hi : f^[2 * i] p = f^[i] p) : f^[i] p = p := by
  have hle : i ≤ i * m := Nat.le_mul_of_pos_right i hm
  have h1 : f^[(i * m - i) + 2 * i] p = f^[(i * m - i) + i] p := by rw [Function.iterate_add_apply, hi, ← Function.iterate_add_apply]
  rw [show (i * m - i) + 2 * i = i + i * m from by omega, show (i * m - i) + i = i * m from by omega, Function.iterate_add_apply,
    iterate_mul_period h i] at h1
  exact h1

/-- Sequences with periods that agree on as many elements as both periods together are the same. -/
theorem same_of_periods {x y : Nat → Nat} {p q : Nat} (hp : 0 < p) (hq : 0 < q) (hx : ∀ i, x (i + p) = x i) (hy : ∀ i, y (i + q) = y i)
    (h : ∀ i, i < p + q → x i = y i) : ∀ i, x i = y i := by
  intro i
  induction i using Nat.strong_induction_on with
  | _ i ih =>
    by_cases hi : i < p + q
    · exact h i hi
    · have e1 : x i = x (i - p) := by rw [← hx (i - p)]; congr 1; omega
      have e2 : y i = y (i - q) := by rw [← hy (i - q)]; congr 1; omega
      have e3 : y (i - p) = y (i - p - q) := by rw [← hy (i - p - q)]; congr 1; omega
      have e4 : x (i - q) = x (i - p - q) := by rw [← hx (i - p - q)]; congr 1; omega
      rw [e1, ih (i - p) (by omega), e3, ← ih (i - p - q) (by omega), ← e4, ih (i - q) (by omega), e2]

end Gauche.Compare
