import Verif.Proof.TreeMap
set_option linter.unusedSectionVars false
set_option linter.unusedSimpArgs false
namespace Gauche.TreeMap
open Std OrdList Color Tree
variable {κ ν : Type}

section
variable {cmp : κ → κ → Ordering} [TransCmp cmp]

/-- Abstract "create or update": the existing entry keeps its key. -/
def updL (cmp : κ → κ → Ordering) (key : κ) (f : Option ν → ν) (l : List (κ × ν)) : List (κ × ν) :=
  match getL cmp key l with
  | some (k0, v0) => putL cmp (k0, f (some v0)) l
  | none => putL cmp (key, f none) l

theorem getL_some_eq {l : List (κ × ν)} {k : κ} {e} (h : getL cmp k l = some e) : cmp e.1 k = .eq := by
  have := List.find?_some h
  simpa using this

theorem updL_sorted {l : List (κ × ν)} (h : Sorted cmp l) (k : κ) (f) : Sorted cmp (updL cmp k f l) := by
  unfold updL; split <;> exact putL_sorted h _

section mid
variable {a b : List (κ × ν)} {p : κ × ν} {k : κ}
theorem updL_lt (hs : Sorted cmp (a ++ p :: b)) (h : cmp k p.1 = .lt) (f) :
    updL cmp k f (a ++ p :: b) = updL cmp k f a ++ p :: b := by
  unfold updL
  rw [(mid_lt hs h p.2).2.2]
  cases hg : getL cmp k a with
  | none => exact (mid_lt hs h _).1
  | some e => exact (mid_lt hs (lt_of_eq_lt (getL_some_eq hg) h) _).1
theorem updL_gt (hs : Sorted cmp (a ++ p :: b)) (h : cmp k p.1 = .gt) (f) :
    updL cmp k f (a ++ p :: b) = a ++ p :: updL cmp k f b := by
  unfold updL
  rw [(mid_gt hs h p.2).2.2]
  cases hg : getL cmp k b with
  | none => exact (mid_gt hs h _).1
  | some e =>
    exact (mid_gt hs (gt_iff.2 (lt_of_lt_eq (gt_iff.1 h) (eq_symm (getL_some_eq hg)))) _).1
theorem updL_eq (hs : Sorted cmp (a ++ p :: b)) (h : cmp k p.1 = .eq) (f) :
    updL cmp k f (a ++ p :: b) = a ++ (p.1, f (some p.2)) :: b := by
  unfold updL
  rw [(mid_eq hs h p.2).2.2]
  exact (mid_eq (v := f (some p.2)) hs (ReflCmp.compare_self (cmp := cmp)) ).1
end mid

theorem cmp_flip_lt {a b : κ} (h : cmp a b = .lt) : cmp b a = .gt := gt_iff.2 h
theorem cmp_flip_gt {a b : κ} (h : cmp a b = .gt) : cmp b a = .lt := gt_iff.1 h

theorem coreGet_eq {t : Tree κ ν} (h : Sorted cmp (elems t)) (k : κ) :
    coreGet cmp k t = getL cmp k (elems t) := by
  induction t with
  | nil => rfl
  | node c l k0 v0 r ihl ihr =>
    obtain ⟨ha, hb, _, _⟩ := sorted_mid.1 h
    unfold coreGet
    simp only [elems_node]
    cases hc : cmp k0 k <;> simp only
    · rw [(mid_gt h (cmp_flip_lt hc) v0).2.2]; exact ihr hb
    · rw [(mid_eq h (eq_symm hc) v0).2.2]
    · rw [(mid_lt h (cmp_flip_gt hc) v0).2.2]; exact ihl ha

theorem setValue_eq {t : Tree κ ν} (h : Sorted cmp (elems t)) (k : κ) (v : ν) :
    elems (setValue cmp k v t) =
      (match getL cmp k (elems t) with
        | some e => putL cmp (e.1, v) (elems t)
        | none => elems t) := by
  induction t with
  | nil => rfl
  | node c l k0 v0 r ihl ihr =>
    obtain ⟨ha, hb, _, _⟩ := sorted_mid.1 h
    unfold setValue
    simp only [elems_node]
    cases hc : cmp k0 k <;> simp only
    · rw [(mid_gt h (cmp_flip_lt hc) v0).2.2]
      simp only [elems_node]
      rw [ihr hb]
      cases hg : getL cmp k (elems r) with
      | none => rfl
      | some e =>
        exact ((mid_gt h (gt_iff.2 (lt_of_lt_eq hc (eq_symm (getL_some_eq hg)))) _).1).symm
    · rw [(mid_eq h (eq_symm hc) v0).2.2]
      exact ((mid_eq h (ReflCmp.compare_self (cmp := cmp)) v).1).symm
    · rw [(mid_lt h (cmp_flip_gt hc) v0).2.2]
      simp only [elems_node]
      rw [ihl ha]
      cases hg : getL cmp k (elems l) with
      | none => rfl
      | some e =>
        exact ((mid_lt h (lt_of_eq_lt (getL_some_eq hg) (cmp_flip_gt hc)) _).1).symm

theorem setValue_valid (k : κ) (v : ν) {t : Tree κ ν} {n} (h : Valid t n) :
    Valid (setValue cmp k v t) n ∧ isRed (setValue cmp k v t) = isRed t := by
  induction h with
  | nil => exact ⟨.nil, rfl⟩
  | red a b a' b' iha ihb =>
    unfold setValue
    split
    · exact ⟨.red a b a' b', rfl⟩
    · exact ⟨.red a ihb.1 a' (by rw [ihb.2, b']), rfl⟩
    · exact ⟨.red iha.1 b (by rw [iha.2, a']) b', rfl⟩
  | black a b iha ihb =>
    unfold setValue
    split
    · exact ⟨.black a b, rfl⟩
    · exact ⟨.black a ihb.1, rfl⟩
    · exact ⟨.black iha.1 b, rfl⟩

/-- Descending one step keeps the hole invariant. -/
theorem descend_ok {c : Color} {l : Tree κ ν} {k v r} {path : Path κ ν} {n}
    (hv : Valid (node c l k v r) n) (hc : c = red → headBlack path) (hk : PathOK path n) :
    ∃ m, Valid l m ∧ Valid r m ∧
      (isRed l = true → headBlack (⟨.L, c, k, v, r⟩ :: path)) ∧
      (isRed r = true → headBlack (⟨.R, c, k, v, l⟩ :: path)) ∧
      PathOK (⟨.L, c, k, v, r⟩ :: path) m ∧ PathOK (⟨.R, c, k, v, l⟩ :: path) m := by
  cases c with
  | black =>
    obtain ⟨m, rfl, a, b⟩ := valid_black.1 hv
    exact ⟨m, a, b, fun _ => rfl, fun _ => rfl, ⟨b, by simp, by simpa using hk⟩, ⟨a, by simp, by simpa using hk⟩⟩
  | red =>
    obtain ⟨a, b, a', b'⟩ := valid_red.1 hv
    exact ⟨n, a, b, by simp [a'], by simp [b'], ⟨b, fun _ => ⟨b', hc rfl⟩, by simpa using hk⟩,
      ⟨a, fun _ => ⟨a', hc rfl⟩, by simpa using hk⟩⟩

theorem create_spec (key : κ) (f : Option ν → ν) (t : Tree κ ν) : ∀ (path : Path κ ν) n,
    Valid t n → (isRed t = true → headBlack path) → PathOK path n → Sorted cmp (elems t) →
    ∃ root' , coreCreateGo cmp key f t path = some (root', (getL cmp key (elems t)).isNone) ∧ RB root' ∧
      elems root' = ctxL path ++ updL cmp key f (elems t) ++ ctxR path := by
  induction t with
  | nil =>
    intro path n hv _ hk _
    cases hv
    obtain ⟨res, h1, h2⟩ := balance_valid (node red nil key (f none) nil) path 0
      (.red .nil .nil rfl rfl) rfl hk
    refine ⟨res, by simp [coreCreateGo, h1, getL], h2, ?_⟩
    rw [elems_balance _ _ _ h1, elems_plug]
    simp [updL, getL, putL]
  | node c l k v r ihl ihr =>
    intro path n hv hc hk hs
    obtain ⟨ha, hb, _, _⟩ := sorted_mid.1 hs
    obtain ⟨m, v1, v2, c1, c2, p1, p2⟩ := descend_ok hv (fun h => hc (by subst h; rfl)) hk
    unfold coreCreateGo
    simp only [elems_node]
    cases hcmp : cmp k key <;> simp only
    · obtain ⟨root', e1, e2, e3⟩ := ihr (⟨.R, c, k, v, l⟩ :: path) m v2 c2 p2 hb
      have hg := cmp_flip_lt hcmp
      refine ⟨root', ?_, e2, ?_⟩
      · rw [e1, (mid_gt hs hg v).2.2]
      · rw [e3, updL_gt hs hg]; simp [ctxL, ctxR]
    · have hg := eq_symm hcmp
      refine ⟨_, by rw [(mid_eq hs hg v).2.2]; rfl, plug_valid path _ n ?_ hk ?_, ?_⟩
      · cases c with
        | black => obtain ⟨m, rfl, a, b⟩ := valid_black.1 hv; exact .black a b
        | red => obtain ⟨a, b, a', b'⟩ := valid_red.1 hv; exact .red a b a' b'
      · intro h; apply hc; cases c <;> simp_all
      · rw [elems_plug, updL_eq hs hg]; rfl
    · obtain ⟨root', e1, e2, e3⟩ := ihl (⟨.L, c, k, v, r⟩ :: path) m v1 c1 p1 ha
      have hg := cmp_flip_gt hcmp
      refine ⟨root', ?_, e2, ?_⟩
      · rw [e1, (mid_lt hs hg v).2.2]
      · rw [e3, updL_lt hs hg]; simp [ctxL, ctxR]

theorem delete_spec (key : κ) (t : Tree κ ν) : ∀ (path : Path κ ν) n,
    Valid t n → (isRed t = true → headBlack path) → PathOK path n → Sorted cmp (elems t) →
    (getL cmp key (elems t) = none ∧ coreDeleteGo cmp key t path = some none) ∨
    (∃ e root', getL cmp key (elems t) = some e ∧ coreDeleteGo cmp key t path = some (some (e, root')) ∧
      RB root' ∧ elems root' = ctxL path ++ delL cmp key (elems t) ++ ctxR path) := by
  induction t with
  | nil => intro path n _ _ _ _; exact .inl ⟨rfl, rfl⟩
  | node c l k v r ihl ihr =>
    intro path n hv hc hk hs
    obtain ⟨ha, hb, _, _⟩ := sorted_mid.1 hs
    obtain ⟨m, v1, v2, c1, c2, p1, p2⟩ := descend_ok hv (fun h => hc (by subst h; rfl)) hk
    unfold coreDeleteGo
    simp only [elems_node]
    cases hcmp : cmp k key <;> simp only
    · have hg := cmp_flip_lt hcmp
      rw [(mid_gt hs hg v).2.2, (mid_gt hs hg v).2.1]
      rcases ihr (⟨.R, c, k, v, l⟩ :: path) m v2 c2 p2 hb with h | ⟨e, root', e1, e2, e3, e4⟩
      · exact .inl h
      · exact .inr ⟨e, root', e1, e2, e3, by rw [e4]; simp [ctxL, ctxR]⟩
    · have hg := eq_symm hcmp
      rw [(mid_eq hs hg v).2.2, (mid_eq hs hg v).2.1]
      obtain ⟨res, r1, r2⟩ := deleteNode_valid hv (fun h => hc (by subst h; rfl)) hk
      refine .inr ⟨_, res, rfl, by rw [r1]; rfl, r2, ?_⟩
      rw [elems_deleteNode r1]; simp
    · have hg := cmp_flip_gt hcmp
      rw [(mid_lt hs hg v).2.2, (mid_lt hs hg v).2.1]
      rcases ihl (⟨.L, c, k, v, r⟩ :: path) m v1 c1 p1 ha with h | ⟨e, root', e1, e2, e3, e4⟩
      · exact .inl h
      · exact .inr ⟨e, root', e1, e2, e3, by rw [e4]; simp [ctxL, ctxR]⟩

/-! ### Locations -/
def Loc.before (n : Loc κ ν) : List (κ × ν) := ctxL n.path ++ elems n.l
def Loc.after (n : Loc κ ν) : List (κ × ν) := elems n.r ++ ctxR n.path

theorem climbNext_spec (path : Path κ ν) : ∀ t : Tree κ ν,
    match climbNext t path with
    | none => ctxR path = []
    | some m => m.before = ctxL path ++ elems t ∧ ctxR path = m.entry :: m.after := by
  induction path with
  | nil => intro t; simp [climbNext]
  | cons f path ih =>
    intro t
    obtain ⟨side, c, k, v, sib⟩ := f
    cases side with
    | L => simp [climbNext, Loc.before, Loc.after, Loc.entry, ctxL, ctxR]
    | R =>
      have := ih (node c sib k v t)
      simp only [climbNext, Frame.fill]
      cases hc : climbNext (node c sib k v t) path with
      | none => rw [hc] at this; simpa [ctxR] using this
      | some m => rw [hc] at this; simpa [ctxL, ctxR] using this

theorem climbPrev_spec (path : Path κ ν) : ∀ t : Tree κ ν,
    match climbPrev t path with
    | none => ctxL path = []
    | some m => m.after = elems t ++ ctxR path ∧ ctxL path = m.before ++ [m.entry] := by
  induction path with
  | nil => intro t; simp [climbPrev]
  | cons f path ih =>
    intro t
    obtain ⟨side, c, k, v, sib⟩ := f
    cases side with
    | R => simp [climbPrev, Loc.before, Loc.after, Loc.entry, ctxL, ctxR]
    | L =>
      have := ih (node c t k v sib)
      simp only [climbPrev, Frame.fill]
      cases hc : climbPrev (node c t k v sib) path with
      | none => rw [hc] at this; simpa [ctxL] using this
      | some m => rw [hc] at this; simpa [ctxL, ctxR] using this

theorem nextNode_spec (n : Loc κ ν) :
    match nextNode n with
    | none => n.after = []
    | some m => m.before = n.before ++ [n.entry] ∧ n.after = m.entry :: m.after := by
  obtain ⟨c, l, k, v, r, path⟩ := n
  unfold nextNode
  cases r with
  | nil =>
    simp only
    have := climbNext_spec path (node c l k v nil)
    cases hc : climbNext (node c l k v nil) path with
    | none => rw [hc] at this; simpa [Loc.after] using this
    | some m => rw [hc] at this; simpa [Loc.after, Loc.before, Loc.entry] using this
  | node rc rl rk rv rr =>
    simp only
    obtain ⟨q, hq⟩ : ∃ q, leftmost rc rl rk rv rr (⟨.R, c, k, v, l⟩ :: path) = q := ⟨_, rfl⟩
    obtain ⟨⟨a1, a2, a3, a4⟩, a5⟩ := q
    obtain ⟨_, h2, h3⟩ := leftmost_spec _ _ _ _ _ _ _ _ _ _ _ hq
    rw [hq]
    simp only [Loc.after, Loc.before, Loc.entry]
    refine ⟨by simp [h3, ctxL], ?_⟩
    have : ctxR (⟨.R, c, k, v, l⟩ :: path : Path κ ν) = ctxR path := rfl
    rw [← this, h2]; simp

theorem prevNode_spec (n : Loc κ ν) :
    match prevNode n with
    | none => n.before = []
    | some m => m.after = n.entry :: n.after ∧ n.before = m.before ++ [m.entry] := by
  obtain ⟨c, l, k, v, r, path⟩ := n
  unfold prevNode
  cases l with
  | nil =>
    simp only
    have := climbPrev_spec path (node c nil k v r)
    cases hc : climbPrev (node c nil k v r) path with
    | none => rw [hc] at this; simpa [Loc.before] using this
    | some m => rw [hc] at this; simpa [Loc.after, Loc.before, Loc.entry] using this
  | node rc rl rk rv rr =>
    simp only
    obtain ⟨q, hq⟩ : ∃ q, rightmost rc rl rk rv rr (⟨.L, c, k, v, r⟩ :: path) = q := ⟨_, rfl⟩
    obtain ⟨⟨a1, a2, a3, a4⟩, a5⟩ := q
    obtain ⟨_, h2, h3, _⟩ := rightmost_spec _ _ _ _ _ _ _ _ _ _ _ hq
    rw [hq]
    simp only [Loc.after, Loc.before, Loc.entry]
    refine ⟨by simp [h3, ctxR], ?_⟩
    have : ctxL (⟨.L, c, k, v, r⟩ :: path : Path κ ν) = ctxL path := rfl
    rw [← this, h2]

theorem minLoc_spec (t : Tree κ ν) :
    match minLoc t with
    | none => elems t = []
    | some m => m.before = [] ∧ elems t = m.entry :: m.after := by
  cases t with
  | nil => rfl
  | node c l k v r =>
    simp only [minLoc]
    obtain ⟨q, hq⟩ : ∃ q, leftmost c l k v r [] = q := ⟨_, rfl⟩
    obtain ⟨⟨a1, a2, a3, a4⟩, a5⟩ := q
    obtain ⟨_, h2, h3⟩ := leftmost_spec _ _ _ _ _ _ _ _ _ _ _ hq
    rw [hq]
    simp only [Loc.after, Loc.before, Loc.entry]
    exact ⟨by simp [h3], by simpa using h2⟩

theorem maxLoc_spec (t : Tree κ ν) :
    match maxLoc t with
    | none => elems t = []
    | some m => m.after = [] ∧ elems t = m.before ++ [m.entry] := by
  cases t with
  | nil => rfl
  | node c l k v r =>
    simp only [maxLoc]
    obtain ⟨q, hq⟩ : ∃ q, rightmost c l k v r [] = q := ⟨_, rfl⟩
    obtain ⟨⟨a1, a2, a3, a4⟩, a5⟩ := q
    obtain ⟨_, h2, h3, _⟩ := rightmost_spec _ _ _ _ _ _ _ _ _ _ _ hq
    rw [hq]
    simp only [Loc.after, Loc.before, Loc.entry]
    exact ⟨by simp [h3], by simpa using h2⟩

/-! ### Iteration -/
def Iter.fwd (i : Iter κ ν) : List (κ × ν) :=
  match i.n with
  | none => []
  | some m => m.entry :: m.after
def Iter.bwd (i : Iter κ ν) : List (κ × ν) :=
  match i.p with
  | none => []
  | some m => m.before ++ [m.entry]

theorem next_c (i : Iter κ ν) : i.next.c = i.n ∧ i.next.n = i.n.bind nextNode := by
  unfold Iter.next; split <;> exact ⟨rfl, rfl⟩
theorem prev_c (i : Iter κ ν) : i.prev.c = i.p ∧ i.prev.p = i.p.bind prevNode := by
  unfold Iter.prev; split <;> exact ⟨rfl, rfl⟩

theorem foldLoop_fwd {σ : Type} (kons : κ → ν → σ → σ) : ∀ (fuel : Nat) (i : Iter κ ν) (s : σ),
    i.fwd.length < fuel →
    foldLoop kons false fuel i s = some (i.fwd.foldl (fun s e => kons e.1 e.2 s) s) := by
  intro fuel
  induction fuel with
  | zero => intro i s h; omega
  | succ fuel ih =>
    intro i s h
    obtain ⟨c1, c2⟩ := next_c i
    simp only [foldLoop, Bool.false_eq_true, if_false, c1]
    cases hn : i.n with
    | none => simp [Iter.fwd, hn]
    | some m =>
      rw [hn] at c2
      have hm := nextNode_spec m
      have hf : i.next.fwd = m.after := by
        unfold Iter.fwd
        rw [c2]
        simp only [Option.bind_some]
        cases hq : nextNode m with
        | none => rw [hq] at hm; simp [hm]
        | some q => rw [hq] at hm; simp [hm.2]
      simp only [Iter.fwd, hn, List.length_cons] at h
      show foldLoop kons false fuel i.next (kons m.k m.v s) = _
      rw [ih _ _ (by rw [hf]; omega), hf]
      simp [Iter.fwd, hn, Loc.entry]

theorem foldLoop_bwd {σ : Type} (kons : κ → ν → σ → σ) : ∀ (fuel : Nat) (i : Iter κ ν) (s : σ),
    i.bwd.length < fuel →
    foldLoop kons true fuel i s = some (i.bwd.foldr (fun e s => kons e.1 e.2 s) s) := by
  intro fuel
  induction fuel with
  | zero => intro i s h; omega
  | succ fuel ih =>
    intro i s h
    obtain ⟨c1, c2⟩ := prev_c i
    simp only [foldLoop, if_true, c1]
    cases hn : i.p with
    | none => simp [Iter.bwd, hn]
    | some m =>
      rw [hn] at c2
      have hm := prevNode_spec m
      have hf : i.prev.bwd = m.before := by
        unfold Iter.bwd
        rw [c2]
        simp only [Option.bind_some]
        cases hq : prevNode m with
        | none => rw [hq] at hm; simp [hm]
        | some q => rw [hq] at hm; simp [hm.2]
      simp only [Iter.bwd, hn, List.length_append, List.length_cons, List.length_nil] at h
      show foldLoop kons true fuel i.prev (kons m.k m.v s) = _
      rw [ih _ _ (by rw [hf]; omega), hf]
      simp [Iter.bwd, hn, Loc.entry]

theorem init_fwd (t : Tree κ ν) : (Iter.init t).fwd = elems t := by
  have := minLoc_spec t
  simp only [Iter.fwd, Iter.init]
  cases h : minLoc t with
  | none => rw [h] at this; simp [this]
  | some m => rw [h] at this; simp [this.2]
theorem init_bwd (t : Tree κ ν) : (Iter.init t).bwd = elems t := by
  have := maxLoc_spec t
  simp only [Iter.bwd, Iter.init]
  cases h : maxLoc t with
  | none => rw [h] at this; simp [this]
  | some m => rw [h] at this; simp [this.2]

/-! ### Nearest entries -/
def below (cmp : κ → κ → Ordering) (key : κ) (l : List (κ × ν)) := l.filter fun p => cmp p.1 key == .lt
def above (cmp : κ → κ → Ordering) (key : κ) (l : List (κ × ν)) := l.filter fun p => cmp p.1 key == .gt

theorem loc_last {m : Option (Loc κ ν)} {l : List (κ × ν)}
    (h : match m with | none => l = [] | some q => l = q.before ++ [q.entry]) :
    m.map Loc.entry = l.getLast? := by
  cases m with
  | none => simp only at h; simp [h]
  | some q => simp only at h; simp [h]
theorem loc_head {m : Option (Loc κ ν)} {l : List (κ × ν)}
    (h : match m with | none => l = [] | some q => l = q.entry :: q.after) :
    m.map Loc.entry = l.head? := by
  cases m with
  | none => simp only at h; simp [h]
  | some q => simp only at h; simp [h]

theorem prev_last (n : Loc κ ν) : (prevNode n).map Loc.entry = n.before.getLast? := by
  apply loc_last
  have := prevNode_spec n
  cases h : prevNode n with
  | none => rw [h] at this; exact this
  | some m => rw [h] at this; exact this.2
theorem next_head (n : Loc κ ν) : (nextNode n).map Loc.entry = n.after.head? := by
  apply loc_head
  have := nextNode_spec n
  cases h : nextNode n with
  | none => rw [h] at this; exact this
  | some m => rw [h] at this; exact this.2

theorem filter_parts {a b : List (κ × ν)} {key : κ} (ha : ∀ x ∈ a, cmp x.1 key = .lt)
    (hb : ∀ x ∈ b, cmp key x.1 = .lt) :
    below cmp key a = a ∧ above cmp key a = [] ∧ below cmp key b = [] ∧ above cmp key b = b ∧
    getL cmp key a = none ∧ getL cmp key b = none := by
  have hb' : ∀ x ∈ b, cmp x.1 key = .gt := fun x hx => gt_iff.2 (hb x hx)
  refine ⟨?_, ?_, ?_, ?_, ?_, ?_⟩
  · exact List.filter_eq_self.2 (fun x hx => by simp [ha x hx])
  · exact List.filter_eq_nil_iff.2 (fun x hx => by simp [ha x hx])
  · exact List.filter_eq_nil_iff.2 (fun x hx => by simp [hb' x hx])
  · exact List.filter_eq_self.2 (fun x hx => by simp [hb' x hx])
  · exact getL_eq_none.2 (fun x hx => by simp [ha x hx])
  · exact getL_eq_none.2 (fun x hx => by simp [hb' x hx])

theorem near_spec (key : κ) (t : Tree κ ν) : ∀ (path : Path κ ν), t ≠ nil →
    Sorted cmp (elems t) → (∀ x ∈ ctxL path, cmp x.1 key = .lt) → (∀ x ∈ ctxR path, cmp key x.1 = .lt) →
    (coreNear cmp key t path).1.map Loc.entry = getL cmp key (elems t) ∧
    (coreNear cmp key t path).2.1.map Loc.entry = (ctxL path ++ below cmp key (elems t)).getLast? ∧
    (coreNear cmp key t path).2.2.map Loc.entry = (above cmp key (elems t) ++ ctxR path).head? := by
  induction t with
  | nil => intro path h; exact absurd rfl h
  | node c l k v r ihl ihr =>
    intro path _ hs hL hR
    obtain ⟨ha, hb, h3, h4⟩ := sorted_mid.1 hs
    unfold coreNear
    simp only [elems_node]
    cases hcmp : cmp k key <;> simp only
    · have hg := cmp_flip_lt hcmp
      rw [(mid_gt hs hg v).2.2]
      have hl : ∀ x ∈ elems l, cmp x.1 key = .lt := fun x hx => lt_trans (h3 x hx) hcmp
      obtain ⟨f1, f2, _, _, _, _⟩ := filter_parts (cmp := cmp) (b := []) hl (by simp)
      have eB : below cmp key (elems l ++ (k, v) :: elems r) = elems l ++ (k, v) :: below cmp key (elems r) := by
        unfold below at *; simp [f1, hcmp]
      have eA : above cmp key (elems l ++ (k, v) :: elems r) = above cmp key (elems r) := by
        unfold above at *; simp [f2, hcmp]
      rw [eA, eB]
      cases r with
      | nil =>
        simp only
        refine ⟨by simp [getL], ?_, ?_⟩
        · simp [below, Loc.entry]
        · rw [next_head]; simp [Loc.after, above]
      | node c' l' k' v' r' =>
        simp only
        have := ihr (⟨.R, c, k, v, l⟩ :: path) (by simp) hb
          (by intro x hx; simp only [ctxL, List.mem_append, List.mem_singleton] at hx
              rcases hx with (hx | hx) | rfl
              · exact hL x hx
              · exact hl x hx
              · exact hcmp)
          (by simpa [ctxR] using hR)
        simpa [ctxL, ctxR] using this
    · have hg := eq_symm hcmp
      rw [(mid_eq hs hg v).2.2]
      have hl : ∀ x ∈ elems l, cmp x.1 key = .lt := fun x hx => lt_of_lt_eq (h3 x hx) hcmp
      have hr : ∀ x ∈ elems r, cmp key x.1 = .lt := fun x hx => lt_of_eq_lt hg (h4 x hx)
      obtain ⟨f1, f2, f3, f4, _, _⟩ := filter_parts (cmp := cmp) hl hr
      have eB : below cmp key (elems l ++ (k, v) :: elems r) = elems l := by
        unfold below at *; simp [f1, hcmp]; simpa using f3
      have eA : above cmp key (elems l ++ (k, v) :: elems r) = elems r := by
        unfold above at *; simp [f2, hcmp, f4]
      rw [eA, eB]
      exact ⟨rfl, prev_last _, next_head _⟩
    · have hg := cmp_flip_gt hcmp
      rw [(mid_lt hs hg v).2.2]
      have hr : ∀ x ∈ elems r, cmp key x.1 = .lt := fun x hx => lt_trans hg (h4 x hx)
      obtain ⟨_, _, f3, f4, _, _⟩ := filter_parts (cmp := cmp) (a := []) (by simp) hr
      have eB : below cmp key (elems l ++ (k, v) :: elems r) = below cmp key (elems l) := by
        unfold below at *; simp [hcmp]; simpa using f3
      have eA : above cmp key (elems l ++ (k, v) :: elems r) = above cmp key (elems l) ++ (k, v) :: elems r := by
        unfold above at *; simp [f4, hcmp]
      rw [eA, eB]
      cases l with
      | nil =>
        simp only
        refine ⟨by simp [getL], ?_, ?_⟩
        · rw [prev_last]; simp [Loc.before, below]
        · simp [above, Loc.entry]
      | node c' l' k' v' r' =>
        simp only
        have := ihl (⟨.L, c, k, v, r⟩ :: path) (by simp) ha (by simpa [ctxL] using hL)
          (by intro x hx; simp only [ctxR, List.cons_append, List.mem_cons, List.mem_append] at hx
              rcases hx with rfl | hx | hx
              · exact hg
              · exact hr x hx
              · exact hR x hx)
        simpa [ctxL, ctxR] using this

end

/-! ### Depth -/
def depth : Tree κ ν → Nat
  | nil => 0
  | node _ l _ _ r => max (depth l) (depth r) + 1

theorem valid_depth {t : Tree κ ν} {n} (h : Valid t n) :
    depth t ≤ 2 * n + (if isRed t then 1 else 0) ∧ 2 ^ n ≤ (elems t).length + 1 := by
  induction h with
  | nil => simp [depth]
  | red a b a' b' iha ihb => simp [depth, a', b'] at *; omega
  | @black l k v r n a b iha ihb =>
    have h01 : ∀ t : Tree κ ν, (if isRed t then 1 else 0) ≤ 1 := by intro t; split <;> simp
    have := h01 l; have := h01 r
    refine ⟨by simp [depth] at *; omega, ?_⟩
    rw [Nat.pow_succ]; simp at *; omega

theorem check_valid {t : Tree κ ν} {n} (h : Valid t n) : ∀ d,
    checkTraverse t d = some (d + n, (elems t).length) := by
  induction h with
  | nil => intro d; simp [checkTraverse]
  | red a b a' b' iha ihb => intro d; simp [checkTraverse, a', b', iha, ihb]; omega
  | black a b iha ihb => intro d; simp [checkTraverse, iha, ihb]; omega

theorem valid_of_check (t : Tree κ ν) : ∀ d m cnt, checkTraverse t d = some (m, cnt) →
    ∃ n, m = d + n ∧ Valid t n ∧ cnt = (elems t).length := by
  induction t with
  | nil => intro d m cnt h; simp [checkTraverse] at h; exact ⟨0, by omega, .nil, by simp; omega⟩
  | node c l k v r ihl ihr =>
    intro d m cnt h
    unfold checkTraverse at h
    cases c with
    | black =>
      simp [Option.bind_eq_some_iff] at h
      obtain ⟨a, b, h1, a', b', h2, h3⟩ := h
      obtain ⟨n1, e1, v1, l1⟩ := ihl _ _ _ h1
      obtain ⟨n2, e2, v2, l2⟩ := ihr _ _ _ h2
      have : n1 = n2 := by omega
      subst this
      exact ⟨n1 + 1, by omega, .black v1 v2, by simp; omega⟩
    | red =>
      simp [Option.bind_eq_some_iff] at h
      obtain ⟨hl, a, b, h1, hr, a', b', h2, h3⟩ := h
      obtain ⟨n1, e1, v1, l1⟩ := ihl _ _ _ h1
      obtain ⟨n2, e2, v2, l2⟩ := ihr _ _ _ h2
      have : n1 = n2 := by omega
      subst this
      exact ⟨n1, by omega, .red v1 v2 hl hr, by simp; omega⟩

theorem copyTree_eq (t : Tree κ ν) : copyTree t = t := by
  induction t with
  | nil => rfl
  | node c l k v r ihl ihr => simp [copyTree, ihl, ihr]

end Gauche.TreeMap
