import Verif.Model.TreeMap
import Verif.Spec.OrdList
set_option linter.unusedSectionVars false
set_option linter.unusedSimpArgs false
namespace Gauche.TreeMap
open Std OrdList Color Tree
variable {κ ν : Type}

/-- In-order contents. -/
def elems : Tree κ ν → List (κ × ν)
  | nil => []
  | node _ l k v r => elems l ++ (k, v) :: elems r

@[simp] theorem elems_nil : elems (nil : Tree κ ν) = [] := rfl
@[simp] theorem elems_node (c l k v r) :
    elems (node c l k v r : Tree κ ν) = elems l ++ (k, v) :: elems r := rfl

def ctxL : Path κ ν → List (κ × ν)
  | [] => []
  | f :: p => match f.side with
    | .R => ctxL p ++ elems f.sib ++ [(f.k, f.v)]
    | .L => ctxL p
def ctxR : Path κ ν → List (κ × ν)
  | [] => []
  | f :: p => match f.side with
    | .L => (f.k, f.v) :: elems f.sib ++ ctxR p
    | .R => ctxR p

@[simp] theorem ctxL_nil : ctxL ([] : Path κ ν) = [] := rfl
@[simp] theorem ctxR_nil : ctxR ([] : Path κ ν) = [] := rfl

theorem elems_fill (f : Frame κ ν) (c t) : elems (f.fill c t) =
    (match f.side with
      | .L => elems t ++ (f.k, f.v) :: elems f.sib
      | .R => elems f.sib ++ (f.k, f.v) :: elems t) := by
  unfold Frame.fill; split <;> simp_all

theorem elems_plug (path : Path κ ν) : ∀ t, elems (plug t path) = ctxL path ++ elems t ++ ctxR path := by
  induction path with
  | nil => intro t; simp [plug]
  | cons f path ih =>
    intro t
    obtain ⟨side, c, k, v, sib⟩ := f
    cases side <;> simp [plug, ih, elems_fill, ctxL, ctxR]

theorem elems_paint {c : Color} {t t' : Tree κ ν} (h : paint c t = some t') : elems t' = elems t := by
  cases t with
  | nil => simp [paint] at h
  | node => simp [paint] at h; subst h; rfl

theorem elems_rotR {t t' : Tree κ ν} (h : rotateRight t = some t') : elems t' = elems t := by
  unfold rotateRight at h
  split at h
  · cases h; simp
  · cases h
theorem elems_rotL {t t' : Tree κ ν} (h : rotateLeft t = some t') : elems t' = elems t := by
  unfold rotateLeft at h
  split at h
  · cases h; simp
  · cases h

theorem elems_fill_congr {f g : Frame κ ν} {c c'} {t t'} (hs : f.side = g.side) (hk : f.k = g.k)
    (hv : f.v = g.v) (h1 : elems f.sib = elems g.sib) (h2 : elems t = elems t') :
    elems (f.fill c t) = elems (g.fill c' t') := by
  rw [elems_fill, elems_fill, hs, hk, hv, h1, h2]

theorem elems_balance (n : Tree κ ν) (path : Path κ ν) : ∀ res, balanceTree n path = some res →
    elems res = elems (plug n path) := by
  fun_induction balanceTree n path with
  | case1 n => intro res h; simpa [plug] using elems_paint h
  | case2 n p path' hp => intro res h; cases h; rfl
  | case3 => intro res h; cases h
  | case4 n p hp g path'' hr ih =>
    intro res h
    simp only [Option.bind_eq_some_iff] at h
    obtain ⟨u, hu, h⟩ := h
    rw [ih u res h]
    rw [elems_plug]
    show _ = elems (plug _ _)
    rw [show plug n (p :: g :: path'') = plug (g.fill g.c (p.fill p.c n)) path'' from rfl, elems_plug]
    rw [elems_fill_congr (f := { g with sib := u }) (g := g) (c := red) (c' := g.c) (t := p.fill black n)
      (t' := p.fill p.c n) rfl rfl rfl (elems_paint hu) (elems_fill_congr rfl rfl rfl rfl rfl)]
  | case5 n p hp g path'' hr =>
    intro res h
    simp only [Option.bind_eq_some_iff, Option.map_eq_some_iff] at h
    obtain ⟨pt, h1, pt', h2, r, h3, h4⟩ := h
    have e1 : elems pt = elems (p.fill p.c n) := by
      unfold balanceOuter at h1
      split at h1
      · exact elems_rotL h1
      · split at h1
        · exact elems_rotR h1
        · cases h1; rfl
    have e2 := elems_paint h2
    have e3 : elems r = elems (g.fill red pt') := by
      unfold balanceRotate at h3
      split at h3
      · exact elems_rotR h3
      · exact elems_rotL h3
    cases h4
    rw [elems_plug, e3, elems_fill_congr (f := g) (g := g) (c := red) (c' := g.c) (t := pt')
      (t' := p.fill p.c n) rfl rfl rfl rfl (by rw [e2, e1]), ← elems_plug]
    rfl

theorem elems_deleteTail {child : Tree κ ν} {f : Frame κ ν} {path : Path κ ν} {res}
    (h : deleteTail child f path = some res) : elems res = elems (plug (f.fill f.c child) path) := by
  obtain ⟨side, c, k, v, sib⟩ := f
  unfold deleteTail at h
  cases sib with
  | nil => cases h
  | node sc sl sk sv sr =>
    simp only at h
    split at h
    · cases h
      rw [elems_plug, elems_plug]
      rw [elems_fill_congr (g := ⟨side, c, k, v, node sc sl sk sv sr⟩) (c' := c)] <;> first | rfl | simp
    · cases side with
      | L =>
        simp only [Option.bind_eq_some_iff, Option.map_eq_some_iff] at h
        obtain ⟨s, h1, r, h, h4⟩ := h
        have e1 : elems s = elems (node sc sl sk sv sr) := by
          unfold case7a at h1
          split at h1
          · simp only [Option.bind_eq_some_iff] at h1
            obtain ⟨sl', h2, h3⟩ := h1
            have := elems_paint h2; have := elems_rotR h3
            simp_all
          · cases h1; rfl
        cases s with
        | nil => cases h
        | node sc' sl' sk' sv' sr' =>
          simp only [case8a, Option.bind_eq_some_iff] at h
          obtain ⟨sr2, h2, h3⟩ := h
          cases h4
          have a1 := elems_paint h2; have a2 := elems_rotL h3
          rw [elems_plug, elems_plug, a2]
          simp [elems_fill, a1] at e1 ⊢
          have := congrArg (· ++ ctxR path) e1
          simpa using this
      | R =>
        simp only [Option.bind_eq_some_iff, Option.map_eq_some_iff] at h
        obtain ⟨s, h1, r, h, h4⟩ := h
        have e1 : elems s = elems (node sc sl sk sv sr) := by
          unfold case7b at h1
          split at h1
          · simp only [Option.bind_eq_some_iff] at h1
            obtain ⟨sl', h2, h3⟩ := h1
            have := elems_paint h2; have := elems_rotL h3
            simp_all
          · cases h1; rfl
        cases s with
        | nil => cases h
        | node sc' sl' sk' sv' sr' =>
          simp only [case8b, Option.bind_eq_some_iff] at h
          obtain ⟨sr2, h2, h3⟩ := h
          cases h4
          have a1 := elems_paint h2; have a2 := elems_rotR h3
          rw [elems_plug, elems_plug, a2]
          simp [elems_fill, a1] at e1 ⊢
          have := congrArg (· ++ (k, v) :: (elems child ++ ctxR path)) e1
          simpa using this

theorem elems_deleteRecur (path : Path κ ν) : ∀ child res, deleteRecur child path = some res →
    elems res = elems (plug child path) := by
  induction path with
  | nil => intro child res h; simp [deleteRecur] at h; subst h; rfl
  | cons f path ih =>
    intro child res h
    obtain ⟨side, c, k, v, sib⟩ := f
    unfold deleteRecur at h
    cases sib with
    | nil => cases h
    | node sc sl sk sv sr =>
      simp only at h
      split at h
      · cases side with
        | L =>
          simp only at h
          rw [elems_deleteTail h]
          simp [plug, elems_plug, elems_fill]
        | R =>
          simp only at h
          rw [elems_deleteTail h]
          simp [plug, elems_plug, elems_fill]
      · split at h
        · rw [ih _ _ h]
          cases side <;> simp [plug, elems_plug, elems_fill]
        · rw [elems_deleteTail h]; rfl

theorem elems_deleteNode1 {c : Color} {child : Tree κ ν} {path : Path κ ν} {res}
    (h : deleteNode1 c child path = some res) : elems res = ctxL path ++ elems child ++ ctxR path := by
  rw [← elems_plug]
  unfold deleteNode1 at h
  split at h
  · cases h; rfl
  · split at h
    · simp only [Option.map_eq_some_iff] at h
      obtain ⟨t, h1, h2⟩ := h
      subst h2
      rw [elems_plug, elems_plug, elems_paint h1]
    · exact elems_deleteRecur _ _ _ h

theorem rightmost_spec (r : Tree κ ν) : ∀ (c : Color) (l : Tree κ ν) (k : κ) (v : ν) (path : Path κ ν)
    c' l' k' v' path', rightmost c l k v r path = ((c', l', k', v'), path') →
    plug (node c' l' k' v' nil) path' = plug (node c l k v r) path ∧
    ctxL path ++ elems (node c l k v r) = ctxL path' ++ elems l' ++ [(k', v')] ∧
    ctxR path' = ctxR path ∧
    ∃ sub, path' = sub ++ path ∧ rightmost c l k v r [] = ((c', l', k', v'), sub) := by
  induction r with
  | nil =>
    intro c l k v path c' l' k' v' path' h
    simp only [rightmost, Prod.mk.injEq] at h
    obtain ⟨⟨rfl, rfl, rfl, rfl⟩, rfl⟩ := h
    exact ⟨rfl, by simp, rfl, [], rfl, rfl⟩
  | node rc rl rk rv rr ihl ihr =>
    intro c l k v path c' l' k' v' path' h
    simp only [rightmost] at h ⊢
    obtain ⟨h1, h2, h3, sub, h4, h5⟩ := ihr _ _ _ _ _ _ _ _ _ _ h
    refine ⟨by rw [h1]; rfl, by rw [← h2]; simp [ctxL], by rw [h3]; rfl,
      sub ++ [⟨.R, c, k, v, l⟩], by simp [h4], ?_⟩
    obtain ⟨q, hq⟩ : ∃ q, rightmost rc rl rk rv rr [⟨.R, c, k, v, l⟩] = q := ⟨_, rfl⟩
    obtain ⟨⟨a1, a2, a3, a4⟩, a5⟩ := q
    obtain ⟨_, _, _, sub', h6, h7⟩ := ihr _ _ _ _ _ _ _ _ _ _ hq
    rw [h5] at h7
    simp only [Prod.mk.injEq] at h7
    obtain ⟨⟨rfl, rfl, rfl, rfl⟩, rfl⟩ := h7
    rw [hq, h6]

theorem leftmost_spec (l : Tree κ ν) : ∀ (c : Color) (k : κ) (v : ν) (r : Tree κ ν) (path : Path κ ν)
    c' k' v' r' path', leftmost c l k v r path = ((c', k', v', r'), path') →
    plug (node c' nil k' v' r') path' = plug (node c l k v r) path ∧
    elems (node c l k v r) ++ ctxR path = (k', v') :: elems r' ++ ctxR path' ∧
    ctxL path' = ctxL path := by
  induction l with
  | nil =>
    intro c k v r path c' k' v' r' path' h
    simp only [leftmost, Prod.mk.injEq] at h
    obtain ⟨⟨rfl, rfl, rfl, rfl⟩, rfl⟩ := h
    exact ⟨rfl, by simp, rfl⟩
  | node rc rl rk rv rr ihl ihr =>
    intro c k v r path c' k' v' r' path' h
    simp only [leftmost] at h ⊢
    obtain ⟨h1, h2, h3⟩ := ihl _ _ _ _ _ _ _ _ _ _ h
    exact ⟨by rw [h1]; rfl, by rw [← h2]; simp [ctxR], by rw [h3]; rfl⟩

theorem ctx_append (a b : Path κ ν) : ctxL (a ++ b) = ctxL b ++ ctxL a ∧ ctxR (a ++ b) = ctxR a ++ ctxR b := by
  induction a with
  | nil => simp
  | cons f a ih =>
    obtain ⟨side, c, k, v, sib⟩ := f
    cases side <;> simp [ctxL, ctxR, ih.1, ih.2]

theorem elems_deleteNode {c : Color} {l r : Tree κ ν} {path : Path κ ν} {res}
    (h : deleteNode c l r path = some res) :
    elems res = ctxL path ++ elems l ++ elems r ++ ctxR path := by
  unfold deleteNode at h
  split at h
  · next lc ll lk lv lr _ _ _ _ _ =>
    obtain ⟨q, hq⟩ : ∃ q, rightmost lc ll lk lv lr [] = q := ⟨_, rfl⟩
    obtain ⟨⟨a1, a2, a3, a4⟩, a5⟩ := q
    rw [hq] at h
    obtain ⟨_, h2, h3, _⟩ := rightmost_spec _ _ _ _ _ _ _ _ _ _ _ hq
    rw [elems_deleteNode1 h, (ctx_append _ _).1, (ctx_append _ _).2, h3]
    simp only [ctxL_nil, List.nil_append] at h2
    rw [h2]
    simp [ctxL, ctxR]
  · rw [elems_deleteNode1 h]; simp
  · rw [elems_deleteNode1 h]; simp

@[simp] theorem isRed_red (l k v r) : isRed (node red l k v r : Tree κ ν) = true := rfl
@[simp] theorem isRed_black (l k v r) : isRed (node black l k v r : Tree κ ν) = false := rfl
@[simp] theorem isRed_nil : isRed (nil : Tree κ ν) = false := rfl

/-! ### Red-black invariants -/

/-- `Valid t n`: every path has `n` black nodes, no red node has a red child. -/
inductive Valid : Tree κ ν → Nat → Prop
  | nil : Valid nil 0
  | red {l k v r n} : Valid l n → Valid r n → isRed l = false → isRed r = false →
      Valid (node red l k v r) n
  | black {l k v r n} : Valid l n → Valid r n → Valid (node black l k v r) (n + 1)

def headBlack : Path κ ν → Prop
  | [] => False
  | f :: _ => f.c = black

/-- `PathOK path n`: putting a black-rooted valid subtree of black height `n` in the hole gives
a valid black-rooted tree. -/
def PathOK : Path κ ν → Nat → Prop
  | [], _ => True
  | f :: path, n => Valid f.sib n ∧
      (f.c = red → isRed f.sib = false ∧ headBlack path) ∧
      PathOK path (if f.c = black then n + 1 else n)

/-- A valid tree with black root (or empty). -/
def RB (t : Tree κ ν) : Prop := (∃ n, Valid t n) ∧ isRed t = false

theorem fill_valid {f : Frame κ ν} {t : Tree κ ν} {n} (ht : Valid t n) (hs : Valid f.sib n) :
    Valid (f.fill black t) (n + 1) ∧
    (isRed t = false → isRed f.sib = false → Valid (f.fill red t) n) := by
  obtain ⟨side, c, k, v, sib⟩ := f
  cases side
  · exact ⟨.black ht hs, fun a b => .red ht hs a b⟩
  · exact ⟨.black hs ht, fun a b => .red hs ht b a⟩

theorem isRed_fill (f : Frame κ ν) (c t) : isRed (f.fill c t) = (c == red) := by
  obtain ⟨side, c', k, v, sib⟩ := f
  cases side <;> cases c <;> rfl

theorem plug_valid (path : Path κ ν) : ∀ (t : Tree κ ν) (n), Valid t n → PathOK path n →
    (isRed t = true → headBlack path) → RB (plug t path) := by
  induction path with
  | nil =>
    intro t n h _ hb
    refine ⟨⟨n, h⟩, ?_⟩
    cases hr : isRed t with
    | false => simpa [plug] using hr
    | true => exact (hb hr).elim
  | cons f path ih =>
    intro t n h hp hb
    obtain ⟨h1, h2, h3⟩ := hp
    simp only [plug]
    cases hc : f.c with
    | black =>
      rw [hc] at h3
      exact ih _ (n + 1) (fill_valid h h1).1 h3 (by simp [isRed_fill])
    | red =>
      rw [hc] at h3
      have ht : isRed t = false := by
        cases hr : isRed t with
        | false => rfl
        | true => have := hb hr; simp [headBlack, hc] at this
      obtain ⟨a, b⟩ := h2 hc
      exact ih _ n ((fill_valid h h1).2 ht a) h3 (fun _ => b)

theorem paint_valid {t : Tree κ ν} {n} (h : Valid t n) (hr : isRed t = true) :
    ∃ t', paint black t = some t' ∧ Valid t' (n + 1) ∧ isRed t' = false := by
  cases h with
  | nil => simp [isRed] at hr
  | red a b _ _ => exact ⟨_, rfl, .black a b, rfl⟩
  | black => simp [isRed] at hr

theorem valid_red {l : Tree κ ν} {k v r n} : Valid (node red l k v r) n ↔
    Valid l n ∧ Valid r n ∧ isRed l = false ∧ isRed r = false :=
  ⟨fun h => by cases h; exact ⟨by assumption, by assumption, by assumption, by assumption⟩,
   fun ⟨a, b, c, d⟩ => .red a b c d⟩
theorem valid_black {l : Tree κ ν} {k v r n} : Valid (node black l k v r) n ↔
    ∃ m, n = m + 1 ∧ Valid l m ∧ Valid r m :=
  ⟨fun h => by cases h; exact ⟨_, rfl, by assumption, by assumption⟩,
   fun ⟨m, e, a, b⟩ => e ▸ .black a b⟩

theorem balance_valid (n : Tree κ ν) (path : Path κ ν) : ∀ m, Valid n m → isRed n = true →
    PathOK path m → ∃ res, balanceTree n path = some res ∧ RB res := by
  fun_induction balanceTree n path with
  | case1 n =>
    intro m h hr _
    obtain ⟨t', h1, h2, h3⟩ := paint_valid h hr
    exact ⟨t', h1, ⟨_, h2⟩, h3⟩
  | case2 n p path' hp =>
    intro m h hr hk
    exact ⟨_, rfl, plug_valid _ _ m h hk (fun _ => hp)⟩
  | case3 n p hp =>
    intro m h hr hk
    have hp' : p.c = red := by cases hc : p.c <;> simp_all
    exact ((hk.2.1 hp').2).elim
  | case4 n p hp g path'' hr ih =>
    intro m h hrn hk
    have hp' : p.c = red := by cases hc : p.c <;> simp_all
    obtain ⟨k1, k2, k3⟩ := hk
    obtain ⟨k4, k5⟩ := k2 hp'
    have hg : g.c = black := k5
    rw [hp'] at k3
    obtain ⟨g1, _, g3⟩ := k3
    obtain ⟨u, u1, u2, u3⟩ := paint_valid g1 hr
    rw [hg] at g3
    have v1 : Valid (p.fill black n) (m + 1) := (fill_valid h k1).1
    have v2 : Valid ({ g with sib := u }.fill red (p.fill black n)) (m + 1) :=
      (fill_valid (f := { g with sib := u }) v1 u2).2 (by simp [isRed_fill]) u3
    obtain ⟨res, r1, r2⟩ := ih u (m + 1) v2 (by simp [isRed_fill]) g3
    exact ⟨res, by simp [u1, r1], r2⟩
  | case5 n p hp g path'' hr =>
    intro m h hrn hk
    have hp' : p.c = red := by cases hc : p.c <;> simp_all
    obtain ⟨k1, k2, k3⟩ := hk
    obtain ⟨k4, k5⟩ := k2 hp'
    have hg : g.c = black := k5
    rw [hp'] at k3
    obtain ⟨g1, _, g3⟩ := k3
    rw [hg] at g3
    cases n with
    | nil => simp [isRed] at hrn
    | node nc nl nk nv nr =>
      cases nc with
      | black => simp [isRed] at hrn
      | red =>
        obtain ⟨n1, n2, n3, n4⟩ := valid_red.1 h
        obtain ⟨pside, pc, pk, pv, psib⟩ := p
        obtain ⟨gside, gc, gk, gv, gsib⟩ := g
        simp only at *
        subst hp' hg
        have hu : isRed gsib = false := by simpa using hr
        have fin : ∀ t : Tree κ ν, Valid t (m + 1) → isRed t = false → RB (plug t path'') :=
          fun t ht hb => plug_valid _ _ (m + 1) ht g3 (by simp [hb])
        cases pside <;> cases gside <;>
          simp only [balanceOuter, balanceRotate, Frame.fill, rotateLeft, rotateRight, paint, Option.map_some, Option.bind_some,
            reduceCtorEq, and_true, and_false, and_self, if_true, if_false] <;>
          refine ⟨_, rfl, fin _ ?_ (by simp [isRed])⟩ <;>
          simp_all [valid_black, valid_red]

theorem deleteTail_valid {child : Tree κ ν} {f : Frame κ ν} {path : Path κ ν} {n}
    (hc : Valid child n) (hcb : isRed child = false) (hs : Valid f.sib (n + 1))
    (hsb : isRed f.sib = false)
    (hk : ∀ m, (f.c = black → m = n + 2) → (f.c = red → m = n + 1) → PathOK path m)
    (hh : f.c = red → headBlack path)
    (h5 : ¬ (f.c = black ∧ ∀ sc sl sk sv sr, f.sib = node sc sl sk sv sr → isRed sl = false ∧ isRed sr = false)) :
    ∃ res, deleteTail child f path = some res ∧ RB res := by
  obtain ⟨side, c, k, v, sib⟩ := f
  simp only at *
  cases sib with
  | nil => cases hs
  | node sc sl sk sv sr =>
    cases sc with
    | red => simp [isRed] at hsb
    | black =>
      obtain ⟨n', e, s1, s2⟩ := valid_black.1 hs
      obtain rfl : n = n' := by omega
      unfold deleteTail
      simp only
      split
      · next h6 =>
        obtain ⟨h6, h7, h8⟩ := h6
        subst h6
        refine ⟨_, rfl, plug_valid _ _ (n + 1) ?_ (hk _ (by simp) (by simp)) ?_⟩
        · have h7' : isRed sl = false := by simpa [isBlack] using h7
          have h8' : isRed sr = false := by simpa [isBlack] using h8
          cases side <;> simp_all [Frame.fill, valid_black, valid_red]
        · cases side <;> simp [Frame.fill, isRed]
      · next h6 =>
        have hred : isRed sl = true ∨ isRed sr = true := by
          cases h1 : isRed sl <;> cases h2 : isRed sr <;> simp [h1, h2, isBlack] at h5 h6 ⊢
          cases c
          · exact absurd (h5 rfl) (by simp)
          · exact absurd rfl h6
        have fin : ∀ a b k' v', Valid a (n + 1) → Valid b (n + 1) → isRed a = false → isRed b = false →
            RB (plug (node c a k' v' b : Tree κ ν) path) := by
          intro a b k' v' ha hb ra rb
          cases c with
          | black => exact plug_valid _ _ (n + 2) (.black ha hb) (hk _ (by simp) (by simp)) (by simp [isRed])
          | red => exact plug_valid _ _ (n + 1) (.red ha hb ra rb) (hk _ (by simp) (by simp)) (fun _ => hh rfl)
        cases side with
        | L =>
          simp only
          cases hr : isRed sr with
          | true =>
            simp only [case7a, isBlack, hr, Bool.not_true, Bool.false_eq_true, and_false, if_false, Option.bind_some]
            obtain ⟨sr', p1, p2, p3⟩ := paint_valid s2 hr
            simp only [case8a, p1, Option.bind_some, rotateLeft, Option.map_some]
            exact ⟨_, rfl, fin _ _ _ _ (.black hc s1) p2 rfl p3⟩
          | false =>
            have hl : isRed sl = true := by simpa [hr] using hred
            simp only [case7a, isBlack, hr, hl, Bool.not_false, and_self, if_true]
            cases s1 with
            | nil => simp [isRed] at hl
            | black => simp [isRed] at hl
            | red a b a' b' =>
              simp only [paint, rotateRight, Option.bind_some, case8a, rotateLeft, Option.map_some]
              exact ⟨_, rfl, fin _ _ _ _ (.black hc a) (.black b s2) rfl rfl⟩
        | R =>
          simp only
          cases hr : isRed sl with
          | true =>
            simp only [case7b, isBlack, hr, Bool.not_true, Bool.false_eq_true, false_and, if_false, Option.bind_some]
            obtain ⟨sr', p1, p2, p3⟩ := paint_valid s1 hr
            simp only [case8b, p1, Option.bind_some, rotateRight, Option.map_some]
            exact ⟨_, rfl, fin _ _ _ _ p2 (.black s2 hc) p3 rfl⟩
          | false =>
            have hl : isRed sr = true := by simpa [hr] using hred
            simp only [case7b, isBlack, hr, hl, Bool.not_false, and_self, if_true]
            cases s2 with
            | nil => simp [isRed] at hl
            | black => simp [isRed] at hl
            | red a b a' b' =>
              simp only [paint, rotateLeft, Option.bind_some, case8b, rotateRight, Option.map_some]
              exact ⟨_, rfl, fin _ _ _ _ (.black s1 a) (.black b hc) rfl rfl⟩

theorem deleteRecur_valid (path : Path κ ν) : ∀ (child : Tree κ ν) n, Valid child n →
    isRed child = false → PathOK path (n + 1) → ∃ res, deleteRecur child path = some res ∧ RB res := by
  induction path with
  | nil => intro child n h hb _; exact ⟨_, rfl, ⟨n, h⟩, hb⟩
  | cons f path ih =>
    intro child n h hb hk
    obtain ⟨side, c, k, v, sib⟩ := f
    obtain ⟨k1, k2, k3⟩ := hk
    simp only at k1 k2 k3
    unfold deleteRecur
    cases sib with
    | nil => cases k1
    | node sc sl sk sv sr =>
      simp only
      split
      · next hsc =>
        subst hsc
        obtain ⟨a1, a2, a3, a4⟩ := valid_red.1 k1
        have hcb : c = black := by
          cases c with
          | black => rfl
          | red => have := (k2 rfl).1; simp [isRed] at this
        subst hcb
        simp only [if_true] at k3
        cases side with
        | L =>
          refine deleteTail_valid h hb a1 a3 ?_ ?_ ?_
          · intro m _ hm
            have := hm rfl
            subst this
            exact ⟨a2, by simp, by simpa using k3⟩
          · intro _; rfl
          · simp
        | R =>
          refine deleteTail_valid h hb a2 a4 ?_ ?_ ?_
          · intro m _ hm
            have := hm rfl
            subst this
            exact ⟨a1, by simp, by simpa using k3⟩
          · intro _; rfl
          · simp
      · next hsc =>
        have hsc' : sc = black := by cases sc <;> simp_all
        subst hsc'
        obtain ⟨n', e, a1, a2⟩ := valid_black.1 k1
        obtain rfl : n = n' := by omega
        split
        · next h5 =>
          obtain ⟨h5, h6, h7⟩ := h5
          subst h5
          simp only [if_true] at k3
          have h6' : isRed sl = false := by simpa [isBlack] using h6
          have h7' : isRed sr = false := by simpa [isBlack] using h7
          refine ih _ (n + 1) ?_ (by simp [isRed_fill]) k3
          exact (fill_valid (f := ⟨side, black, k, v, node red sl sk sv sr⟩) h (.red a1 a2 h6' h7')).1
        · next h5 =>
          refine deleteTail_valid (f := ⟨side, c, k, v, node black sl sk sv sr⟩) h hb k1 rfl ?_ ?_ ?_
          · intro m h1 h2
            cases c with
            | black => rw [h1 rfl]; simpa using k3
            | red => rw [h2 rfl]; simpa using k3
          · intro hc; exact (k2 hc).2
          · rintro ⟨hc, hx⟩
            obtain ⟨x1, x2⟩ := hx _ _ _ _ _ rfl
            exact h5 ⟨hc, by simp [isBlack, x1], by simp [isBlack, x2]⟩

theorem deleteNode1_valid {c : Color} {child : Tree κ ν} {path : Path κ ν} {n}
    (hc : Valid child n) (hred : c = red → isRed child = false)
    (hk : PathOK path (if c = black then n + 1 else n)) :
    ∃ res, deleteNode1 c child path = some res ∧ RB res := by
  unfold deleteNode1
  split
  · next h =>
    subst h
    exact ⟨_, rfl, plug_valid _ _ n hc (by simpa using hk) (by simp [hred])⟩
  · next h =>
    have h' : c = black := by cases c <;> simp_all
    subst h'
    simp only [if_true] at hk
    split
    · next hr =>
      obtain ⟨t', p1, p2, p3⟩ := paint_valid hc hr
      exact ⟨_, by rw [p1]; rfl, plug_valid _ _ _ p2 hk (by simp [p3])⟩
    · next hr => exact deleteRecur_valid _ _ n hc (by simpa using hr) hk

theorem rightmost_valid (r : Tree κ ν) : ∀ (c : Color) (l : Tree κ ν) (k : κ) (v : ν) (path : Path κ ν)
    n c' l' k' v' path', rightmost c l k v r path = ((c', l', k', v'), path') →
    Valid (node c l k v r) n → (c = red → headBlack path) → PathOK path n →
    ∃ m, Valid l' m ∧ (c' = red → isRed l' = false) ∧ PathOK path' (if c' = black then m + 1 else m) := by
  induction r with
  | nil =>
    intro c l k v path n c' l' k' v' path' h hv hc hk
    simp only [rightmost, Prod.mk.injEq] at h
    obtain ⟨⟨rfl, rfl, rfl, rfl⟩, rfl⟩ := h
    cases c with
    | black =>
      obtain ⟨m, rfl, a, b⟩ := valid_black.1 hv
      exact ⟨m, a, by simp, by simpa using hk⟩
    | red =>
      obtain ⟨a, b, a', b'⟩ := valid_red.1 hv
      exact ⟨n, a, fun _ => a', by simpa using hk⟩
  | node rc rl rk rv rr ihl ihr =>
    intro c l k v path n c' l' k' v' path' h hv hc hk
    simp only [rightmost] at h
    cases c with
    | black =>
      obtain ⟨m, rfl, a, b⟩ := valid_black.1 hv
      exact ihr _ _ _ _ _ m _ _ _ _ _ h b (fun _ => rfl) ⟨a, by simp, by simpa using hk⟩
    | red =>
      obtain ⟨a, b, a', b'⟩ := valid_red.1 hv
      refine ihr _ _ _ _ _ n _ _ _ _ _ h b ?_ ⟨a, fun _ => ⟨a', hc rfl⟩, by simpa using hk⟩
      intro hrc; subst hrc; simp [isRed] at b'

theorem leftmost_valid (l : Tree κ ν) : ∀ (c : Color) (k : κ) (v : ν) (r : Tree κ ν) (path : Path κ ν)
    n c' k' v' r' path', leftmost c l k v r path = ((c', k', v', r'), path') →
    Valid (node c l k v r) n → (c = red → headBlack path) → PathOK path n →
    ∃ m, Valid r' m ∧ (c' = red → isRed r' = false) ∧ PathOK path' (if c' = black then m + 1 else m) := by
  induction l with
  | nil =>
    intro c k v r path n c' k' v' r' path' h hv hc hk
    simp only [leftmost, Prod.mk.injEq] at h
    obtain ⟨⟨rfl, rfl, rfl, rfl⟩, rfl⟩ := h
    cases c with
    | black =>
      obtain ⟨m, rfl, a, b⟩ := valid_black.1 hv
      exact ⟨m, b, by simp, by simpa using hk⟩
    | red =>
      obtain ⟨a, b, a', b'⟩ := valid_red.1 hv
      exact ⟨n, b, fun _ => b', by simpa using hk⟩
  | node rc rl rk rv rr ihl ihr =>
    intro c k v r path n c' k' v' r' path' h hv hc hk
    simp only [leftmost] at h
    cases c with
    | black =>
      obtain ⟨m, rfl, a, b⟩ := valid_black.1 hv
      exact ihl _ _ _ _ _ m _ _ _ _ _ h a (fun _ => rfl) ⟨b, by simp, by simpa using hk⟩
    | red =>
      obtain ⟨a, b, a', b'⟩ := valid_red.1 hv
      refine ihl _ _ _ _ _ n _ _ _ _ _ h a ?_ ⟨b, fun _ => ⟨b', hc rfl⟩, by simpa using hk⟩
      intro hrc; subst hrc; simp [isRed] at a'

theorem pathOK_append (sub : Path κ ν) : ∀ (f f' : Frame κ ν) (path : Path κ ν) n,
    f.side = f'.side → f.c = f'.c → f.sib = f'.sib →
    PathOK (sub ++ f :: path) n → PathOK (sub ++ f' :: path) n := by
  induction sub with
  | nil =>
    intro f f' path n h1 h2 h3 h
    simpa [PathOK, h1, h2, h3] using h
  | cons g sub ih =>
    intro f f' path n h1 h2 h3 h
    obtain ⟨a, b, c⟩ := h
    refine ⟨a, fun hc => ⟨(b hc).1, ?_⟩, ih f f' path _ h1 h2 h3 c⟩
    have := (b hc).2
    cases sub with
    | nil => simpa [headBlack, h2] using this
    | cons => exact this

theorem deleteNode_valid {c : Color} {l r : Tree κ ν} {k : κ} {v : ν} {path : Path κ ν} {n}
    (hv : Valid (node c l k v r) n) (hc : c = red → headBlack path) (hk : PathOK path n) :
    ∃ res, deleteNode c l r path = some res ∧ RB res := by
  have one : ∀ ch : Tree κ ν, (∃ m, Valid ch m ∧ n = (if c = black then m + 1 else m)) →
      (c = red → isRed ch = false) → ∃ res, deleteNode1 c ch path = some res ∧ RB res := by
    rintro ch ⟨m, h1, h2⟩ h3
    exact deleteNode1_valid h1 h3 (by rw [← h2]; exact hk)
  have kids : ∃ m, Valid l m ∧ Valid r m ∧ n = (if c = black then m + 1 else m) ∧
      (c = red → isRed l = false ∧ isRed r = false) := by
    cases c with
    | black => obtain ⟨m, rfl, a, b⟩ := valid_black.1 hv; exact ⟨m, a, b, by simp, by simp⟩
    | red => obtain ⟨a, b, a', b'⟩ := valid_red.1 hv; exact ⟨n, a, b, by simp, fun _ => ⟨a', b'⟩⟩
  obtain ⟨m, k1, k2, k3, k4⟩ := kids
  unfold deleteNode
  split
  · next lc ll lk lv lr rc rl rk rv rr =>
    obtain ⟨q, hq⟩ : ∃ q, rightmost lc ll lk lv lr
      (⟨.L, c, k, v, node rc rl rk rv rr⟩ :: path) = q := ⟨_, rfl⟩
    obtain ⟨⟨a1, a2, a3, a4⟩, a5⟩ := q
    obtain ⟨_, _, _, sub, s1, s2⟩ := rightmost_spec _ _ _ _ _ _ _ _ _ _ _ hq
    rw [s2]
    obtain ⟨m', r1, r2, r3⟩ := rightmost_valid _ _ _ _ _ _ m _ _ _ _ _ hq k1
      (by intro hlc; subst hlc
          cases c with
          | black => rfl
          | red => have := (k4 rfl).1; simp [isRed] at this)
      ⟨k2, fun hcr => ⟨(k4 hcr).2, hc hcr⟩, by rw [← k3]; exact hk⟩
    rw [s1] at r3
    exact deleteNode1_valid r1 r2 (pathOK_append sub ⟨.L, c, k, v, node rc rl rk rv rr⟩ _ _ _ rfl rfl rfl r3)
  · exact one _ ⟨m, k1, k3⟩ (fun h => (k4 h).1)
  · exact one _ ⟨m, k2, k3⟩ (fun h => (k4 h).2)

end Gauche.TreeMap
