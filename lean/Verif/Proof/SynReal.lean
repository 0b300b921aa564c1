import Verif.Proof.SynTmpl

/-! # Realizing a compiled template gives what the specification says (2) -/
namespace Gauche.SynRules
open Form

/-! ## Trees -/

/-- All leaves of the tree are at the given depth. -/
def HasDepth : Nat → Tree → Prop
  | 0, .leaf _ => True
  | n + 1, .node ts => ∀ t ∈ ts, HasDepth n t
  | _, _ => False

def fsize : Form → Nat
  | .cons a d => fsize a + fsize d + 1
  | .vec l => fsize l + 1
  | _ => 0

theorem pairs_le_fsize (f : Form) : f.pairs ≤ fsize f := by
  induction f with
  | cons a d _ ih => rw [pairs, fsize]; omega
  | _ => exact Nat.zero_le _

theorem nth_fsize : ∀ (i : Nat) (f g : Form), nth i f = some g → fsize g ≤ fsize f := by
  intro i
  induction i with
  | zero =>
    intro f g h
    cases f with
    | cons a d => rw [nth] at h; injection h with h; subst h; rw [fsize]; omega
    | _ => cases h
  | succ i ih =>
    intro f g h
    cases f with
    | cons a d => rw [nth] at h; have := ih d g h; rw [fsize]; omega
    | _ => cases h

theorem getPv_fsize {idx : Nat → Nat} : ∀ (n i : Nat) (f g : Form),
    getPv idx i n f = .ok g → fsize g ≤ fsize f := by
  intro n
  induction n with
  | zero => intro i f g h; rw [getPv] at h; injection h with h; subst h; exact Nat.le_refl _
  | succ n ih =>
    intro i f g h
    rw [getPv] at h
    cases h1 : nth (idx i) f with
    | none => rw [h1] at h; cases h
    | some f' => rw [h1] at h; exact Nat.le_trans (ih _ _ _ h) (nth_fsize _ _ _ h1)

theorem getPv_add {idx : Nat → Nat} {k : Nat} : ∀ (n i : Nat) (f g : Form),
    getPv idx i n f = .ok g → getPv idx i (n + k) f = getPv idx (i + n) k g := by
  intro n
  induction n with
  | zero => intro i f g h; rw [getPv] at h; injection h with h; subst h; simp
  | succ n ih =>
    intro i f g h
    rw [getPv] at h
    have : n + 1 + k = (n + k) + 1 := by omega
    rw [this, getPv]
    cases h1 : nth (idx i) f with
    | none => rw [h1] at h; cases h
    | some f' =>
      rw [h1] at h
      show getPv idx (i + 1) (n + k) f' = _
      rw [ih _ _ _ h]
      congr 1; omega

theorem getPv_congr {idx idx' : Nat → Nat} : ∀ (n i : Nat) (f : Form),
    (∀ j, i ≤ j → j < i + n → idx j = idx' j) →
    getPv idx i n f = getPv idx' i n f := by
  intro n
  induction n with
  | zero => intro i f _; rfl
  | succ n ih =>
    intro i f h
    rw [getPv, getPv, h i (Nat.le_refl _) (by omega)]
    cases nth (idx' i) f with
    | none => rfl
    | some f' => exact ih _ _ (fun j h1 h2 => h j (by omega) (by omega))

theorem nth_ofList : ∀ (i : Nat) (l : List Form), nth i (ofList l) = l[i]? := by
  intro i
  induction i with
  | zero => intro l; cases l <;> rfl
  | succ i ih =>
    intro l
    cases l with
    | nil => rfl
    | cons a l => exact ih l

theorem nth_enc (i : Nat) (ts : List Tree) :
    nth i (enc (.node ts)) = (ts[i]?).map enc := by
  rw [enc, nth_ofList, encs_eq, List.getElem?_map]

theorem pairs_ofList (l : List Form) : (ofList l).pairs = l.length := by
  induction l with
  | nil => rfl
  | cons a l ih => show (ofList l).pairs + 1 = _; rw [ih]; rfl

theorem elems_ofList (l : List Form) : elems (ofList l) = l := by
  induction l with
  | nil => rfl
  | cons a l ih => show a :: elems (ofList l) = _; rw [ih]

/-! ## Inserted identifiers -/

/-- The second table knows at least as much. -/
def Ids.le (s s' : Ids) : Prop := ∀ x y, s.find x = some y → s'.find x = some y

theorem Ids.le_refl (s : Ids) : s.le s := fun _ _ h => h
theorem Ids.le_trans {s s1 s2 : Ids} (h1 : s.le s1) (h2 : s1.le s2) : s.le s2 :=
  fun x y h => h2 x y (h1 x y h)

/-- The renaming is what the table says. -/
def agrees (ρ : Nat → Nat) (s : Ids) : Prop := ∀ x y, s.find x = some y → ρ x = y

theorem agrees_le {ρ : Nat → Nat} {s s' : Ids} (h : agrees ρ s') (hl : s.le s') :
    agrees ρ s := fun x y hx => h x y (hl x y hx)

theorem find_cons {b x y z : Nat} {t : List (Nat × Nat)} :
    (Ids.mk b ((x, y) :: t)).find z = if x = z then some y else (Ids.mk b t).find z := by
  rw [Ids.find, Ids.find]
  by_cases h : x = z
  · simp [h]
  · simp [h]

theorem rename_le (s : Ids) (x : Nat) : s.le (rename s x).2 := by
  rw [rename]
  cases h : s.find x with
  | some y => exact Ids.le_refl s
  | none =>
    intro z w hz
    show (Ids.mk s.base ((x, _) :: s.tab)).find z = some w
    rw [find_cons]
    by_cases hx : x = z
    · subst hx; rw [h] at hz; cases hz
    · rw [if_neg hx]; exact hz

theorem rename_find (s : Ids) (x : Nat) : (rename s x).2.find x = some (rename s x).1 := by
  rw [rename]
  cases h : s.find x with
  | some y => exact h
  | none =>
    show (Ids.mk s.base ((x, _) :: s.tab)).find x = some _
    rw [find_cons, if_pos rfl]

theorem realLoop_le {B : Nat → Ids → Res × Ids} (hB : ∀ (i : Nat) (s : Ids), s.le (B i s).2)
    {level : Nat} {splice : Bool} : ∀ (n i : Nat) (h : List Form) (s : Ids),
    s.le (realLoop B level splice n i h s).2 := by
  intro n
  induction n with
  | zero => intro i h s; exact Ids.le_refl s
  | succ n ih =>
    intro i h s
    have h1 := hB i s
    rw [realLoop]
    rcases hb : B i s with ⟨r, s1⟩
    rw [hb] at h1
    cases r with
    | more => exact h1
    | unbound e => exact h1
    | ok r => exact Ids.le_trans h1 (ih _ _ _)

theorem realize_le (fuel : Nat) (m : MVec) (p : Pat) :
    ∀ (lev : Nat) (idx : Nat → Nat) (s : Ids), s.le (realize fuel m p lev idx s).2 := by
  induction p with
  | pv l n => intro lev idx s; exact Ids.le_refl s
  | under => intro lev idx s; exact Ids.le_refl s
  | nil => intro lev idx s; exact Ids.le_refl s
  | atom k => intro lev idx s; exact Ids.le_refl s
  | ident x => intro lev idx s; exact rename_le s x
  | ell l nf vs p ih =>
    intro lev idx s
    rw [realize]
    exact realLoop_le (fun i s' => ih _ _ _) _ _ _ _
  | vec l ih =>
    intro lev idx s
    have h1 := ih lev idx s
    rw [realize]
    rcases h : realize fuel m l lev idx s with ⟨r, s1⟩
    rw [h] at h1
    cases r <;> exact h1
  | cons a d iha ihd =>
    intro lev idx s
    have h1 := iha lev idx s
    rw [realize]
    rcases h : realize fuel m a lev idx s with ⟨r, s1⟩
    rw [h] at h1
    cases r with
    | more => exact h1
    | unbound e => exact h1
    | ok r =>
      have h2 := ihd lev idx s1
      dsimp only
      rcases h' : realize fuel m d lev idx s1 with ⟨r2, s2⟩
      rw [h'] at h2
      cases r2 <;> exact Ids.le_trans h1 h2

/-! ## The last round of a repetition -/

/-- Reading the variables of the template: those of level `e` at least are
exhausted at level `e`, the others are there. -/
def Exhausted (e : Nat) (m : MVec) (idx : Nat → Nat) (w : PVRef) : Prop :=
  ∀ idx', (∀ j, j ≤ e → idx' j = idx j) →
    if e ≤ w.1 then getPv idx' 1 w.1 (m w.2).root = .unbound e
    else ∃ f, getPv idx' 1 w.1 (m w.2).root = .ok f

theorem exhaust {fuel : Nat} {m : MVec} {e : Nat} (hf : 0 < fuel) (p : Pat) :
    ∀ (lev : Nat) (idx : Nat → Nat) (s : Ids), e ≤ lev → EllOK e p →
    (∀ w, pvIn w p → Exhausted e m idx w) →
    (HasPv e p → (realize fuel m p lev idx s).1 = .unbound e) ∧
    (¬ HasPv e p → ∃ f, (realize fuel m p lev idx s).1 = .ok f) := by
  induction p with
  | pv l n =>
    intro lev idx s he hk hw
    have h := hw (l, n) rfl idx (fun _ _ => rfl)
    dsimp only at h
    rw [realize]
    constructor
    · rintro ⟨w, hw1, hw2⟩
      have hw1 : (l, n) = w := hw1
      subst hw1
      dsimp only at hw2
      rw [if_pos hw2] at h
      exact h
    · intro hn
      by_cases hl : e ≤ l
      · exact absurd ⟨(l, n), rfl, hl⟩ hn
      · rw [if_neg hl] at h; exact h
  | under => intro lev idx s _ _ _; exact ⟨fun ⟨w, h, _⟩ => h.elim, fun _ => ⟨_, rfl⟩⟩
  | nil => intro lev idx s _ _ _; exact ⟨fun ⟨w, h, _⟩ => h.elim, fun _ => ⟨_, rfl⟩⟩
  | atom k => intro lev idx s _ _ _; exact ⟨fun ⟨w, h, _⟩ => h.elim, fun _ => ⟨_, rfl⟩⟩
  | ident x => intro lev idx s _ _ _; exact ⟨fun ⟨w, h, _⟩ => h.elim, fun _ => ⟨_, rfl⟩⟩
  | vec l ih =>
    intro lev idx s he hk hw
    have h := ih lev idx s he hk hw
    rw [realize]
    rcases h1 : realize fuel m l lev idx s with ⟨r, s1⟩
    rw [h1] at h
    constructor
    · intro hp
      have : r = .unbound e := h.1 hp
      subst this; rfl
    · intro hp
      obtain ⟨f, hf⟩ := h.2 hp
      have hf : r = .ok f := hf
      subst hf; exact ⟨_, rfl⟩
  | ell l nf vs p ih =>
    intro lev idx s he hk hw
    obtain ⟨hk1, hk2, hk3⟩ := hk
    refine ⟨fun _ => ?_, fun hn => absurd hk2 hn⟩
    obtain ⟨f, rfl⟩ : ∃ f, fuel = f + 1 := ⟨fuel - 1, by omega⟩
    rw [realize, realLoop]
    have h := (ih (lev + 1) (setIdx idx (lev + 1) 0) s (by omega) hk3 (by
      intro w hw' idx' hi
      refine hw w hw' idx' (fun j hj => ?_)
      rw [hi j hj, setIdx, if_neg (by omega)])).1 hk2
    rcases h1 : realize (f + 1) m p (lev + 1) (setIdx idx (lev + 1) 0) s with ⟨r, s1⟩
    rw [h1] at h
    have h : r = .unbound e := h
    subst h
    dsimp only
    rw [if_pos hk1]
  | cons a d iha ihd =>
    intro lev idx s he hk hw
    have h := iha lev idx s he hk.1 (fun w h => hw w (.inl h))
    rw [realize]
    rcases h1 : realize fuel m a lev idx s with ⟨r, s1⟩
    rw [h1] at h
    by_cases hpa : HasPv e a
    · have : r = .unbound e := h.1 hpa
      subst this
      refine ⟨fun _ => rfl, fun hn => ?_⟩
      obtain ⟨w, hw1, hw2⟩ := hpa
      exact absurd ⟨w, .inl hw1, hw2⟩ hn
    · obtain ⟨f, hf⟩ := h.2 hpa
      have hf : r = .ok f := hf
      subst hf
      dsimp only
      have h' := ihd lev idx s1 he hk.2 (fun w h => hw w (.inr h))
      rcases h2 : realize fuel m d lev idx s1 with ⟨r2, s2⟩
      rw [h2] at h'
      constructor
      · rintro ⟨w, hw1, hw2⟩
        rcases hw1 with hw1 | hw1
        · exact absurd ⟨w, hw1, hw2⟩ hpa
        · have : r2 = .unbound e := h'.1 ⟨w, hw1, hw2⟩
          subst this; rfl
      · intro hn
        obtain ⟨f2, hf2⟩ := h'.2 (fun ⟨w, h1, h2⟩ => hn ⟨w, .inr h1, h2⟩)
        have hf2 : r2 = .ok f2 := hf2
        subst hf2; exact ⟨_, rfl⟩

/-! ## Rounds -/

theorem loop_ok {B : Nat → Ids → Res × Ids} {level k : Nat} {splice : Bool}
    {rss : List (List Form)} (hk : rss.length = k)
    (hend : ∀ s, ∃ s1, B k s = (.unbound level, s1)) {ρ : Nat → Nat}
    (hB : ∀ (i : Nat) (s : Ids), s.le (B i s).2)
    (hround : ∀ i rs s, rss[i]? = some rs → agrees ρ (B i s).2 →
      ∃ r, (B i s).1 = .ok r ∧ (if splice then elems r else [r]) = rs) :
    ∀ (j n i : Nat) (h : List Form) (s : Ids), i + j = k → j < n →
      agrees ρ (realLoop B level splice n i h s).2 →
      (realLoop B level splice n i h s).1 = .ok (ofList (h ++ (rss.drop i).flatten)) := by
  intro j
  induction j with
  | zero =>
    intro n i h s hi hn ha
    obtain ⟨n, rfl⟩ : ∃ n', n = n' + 1 := ⟨n - 1, by omega⟩
    have : i = k := by omega
    subst this
    obtain ⟨s1, hs⟩ := hend s
    rw [realLoop, hs]
    dsimp only
    rw [if_neg (by omega), List.drop_eq_nil_of_le (by omega)]
    simp
  | succ j ih =>
    intro n i h s hi hn ha
    obtain ⟨n, rfl⟩ : ∃ n', n = n' + 1 := ⟨n - 1, by omega⟩
    have hlt : i < rss.length := by omega
    rw [realLoop] at ha ⊢
    have hle := hB i s
    have hr := hround i rss[i] s (List.getElem?_eq_getElem hlt)
    rcases hb : B i s with ⟨r, s1⟩
    rw [hb] at ha hr
    cases r with
    | more =>
      obtain ⟨r, h1, _⟩ := hr ha
      cases h1
    | unbound e =>
      obtain ⟨r, h1, _⟩ := hr ha
      cases h1
    | ok r =>
      dsimp only at ha ⊢
      obtain ⟨r', h1, h2⟩ := hr (agrees_le ha (realLoop_le hB _ _ _ _))
      injection h1 with h1
      subst h1
      rw [ih n (i + 1) _ s1 (by omega) (by omega) ha]
      rw [List.drop_eq_getElem_cons hlt, List.flatten_cons, ← h2]
      congr 2
      by_cases hs : splice = true
      · rw [if_pos hs, if_pos hs, List.append_assoc]
      · rw [if_neg hs, if_neg hs, List.append_assoc]

/-! ## Values of the variables while the template is walked -/

/-- The loop indices select from each match variable what the environment of the
specification has. -/
def Inv (pv : List (Nat × PVRef)) (m : MVec) (lev : Nat) (idx : Nat → Nat) (env : Env)
    (x : Nat) : Prop :=
  (lookupPv x pv = none → env x = none) ∧
  ∀ l n, lookupPv x pv = some (l, n) → ∃ t, env x = some t ∧ HasDepth (l - lev) t ∧
    getPv idx 1 (min l lev) (m n).root = .ok (enc t)

theorem depth_zero {t : Tree} (h : HasDepth 0 t) : ∃ f, t = .leaf f := by
  cases t with
  | leaf f => exact ⟨f, rfl⟩
  | node ts => exact h.elim

theorem depth_succ {t : Tree} {n : Nat} (h : HasDepth (n + 1) t) :
    ∃ ts, t = .node ts ∧ ∀ t ∈ ts, HasDepth n t := by
  cases t with
  | leaf f => exact h.elim
  | node ts => exact ⟨ts, rfl, h⟩

theorem Inv_round {pv : List (Nat × PVRef)} {m : MVec} {lev : Nat} {idx : Nat → Nat}
    {env : Env} {x i : Nat} (h : Inv pv m lev idx env x)
    (hi : ∀ ts, env x = some (.node ts) → i < ts.length) :
    Inv pv m (lev + 1) (setIdx idx (lev + 1) i) (env.round i) x := by
  refine ⟨fun hn => by rw [Env.round, h.1 hn], ?_⟩
  intro l n hl
  obtain ⟨t, h1, h2, h3⟩ := h.2 l n hl
  have hidx : ∀ j, 1 ≤ j → j < 1 + min l lev → idx j = setIdx idx (lev + 1) i j := by
    intro j _ hj
    rw [setIdx, if_neg (by omega)]
  rw [getPv_congr _ _ _ hidx] at h3
  by_cases hle : l ≤ lev
  · rw [show l - lev = 0 by omega] at h2
    obtain ⟨f, rfl⟩ := depth_zero h2
    refine ⟨.leaf f, by rw [Env.round, h1], ?_, ?_⟩
    · rw [show l - (lev + 1) = 0 by omega]; trivial
    · rw [show min l (lev + 1) = min l lev by omega]; exact h3
  · obtain ⟨d, hd⟩ : ∃ d, l - lev = d + 1 := ⟨l - lev - 1, by omega⟩
    rw [hd] at h2
    obtain ⟨ts, rfl, h2⟩ := depth_succ h2
    have hlt := hi ts h1
    refine ⟨ts[i], ?_, ?_, ?_⟩
    · rw [Env.round, h1]
      exact List.getElem?_eq_getElem hlt
    · rw [show l - (lev + 1) = d by omega]
      exact h2 _ (List.getElem_mem hlt)
    · rw [show min l (lev + 1) = min l lev + 1 by omega, getPv_add _ _ _ _ h3, getPv,
        show 1 + min l lev = lev + 1 by omega, setIdx, if_pos rfl, nth_enc,
        List.getElem?_eq_getElem hlt]
      rfl

theorem Inv_exhausted {pv : List (Nat × PVRef)} {m : MVec} {lev : Nat} {idx : Nat → Nat}
    {env : Env} {x k : Nat} {w : PVRef} (h : Inv pv m lev idx env x)
    (hw : lookupPv x pv = some w)
    (hk : ∀ ts, env x = some (.node ts) → ts.length = k) :
    Exhausted (lev + 1) m (setIdx idx (lev + 1) k) w := by
  obtain ⟨l, n⟩ := w
  intro idx' hidx'
  obtain ⟨t, h1, h2, h3⟩ := h.2 l n hw
  have hidx : ∀ j, 1 ≤ j → j < 1 + min l lev → idx j = idx' j := by
    intro j _ hj
    rw [hidx' j (by omega), setIdx, if_neg (by omega)]
  rw [getPv_congr _ _ _ hidx] at h3
  by_cases hle : lev + 1 ≤ l
  · rw [if_pos hle]
    obtain ⟨d, hd⟩ : ∃ d, l - lev = d + 1 := ⟨l - lev - 1, by omega⟩
    rw [hd] at h2
    obtain ⟨ts, rfl, h2⟩ := depth_succ h2
    show getPv idx' 1 l (m n).root = _
    have hl : l = min l lev + (d + 1) := by omega
    rw [hl, getPv_add _ _ _ _ h3, getPv, show 1 + min l lev = lev + 1 by omega,
      hidx' (lev + 1) (Nat.le_refl _), setIdx, if_pos rfl, nth_enc,
      List.getElem?_eq_none (by rw [hk ts h1]; exact Nat.le_refl _)]
    rfl
  · rw [if_neg hle]
    refine ⟨enc t, ?_⟩
    rw [show min l lev = l by omega] at h3
    exact h3

/-! ## A subtemplate followed by ellipses -/

theorem nest_ok {fuel : Nat} {m : MVec} {pv : List (Nat × PVRef)} {p : Pat}
    {xs : List Nat} {I : Env → Form → Prop} {ρ : Nat → Nat} {L : Nat}
    (hfuel : ∀ n, fsize (m n).root < fuel)
    (hpv : ∀ w, pvIn w p → ∃ x ∈ xs, lookupPv x pv = some w)
    (hxs : ∀ x ∈ xs, ∀ w, lookupPv x pv = some w → pvIn w p)
    (hne : p.isEll = false) (hell : ∀ e, e ≤ L → EllOK e p)
    (hbody : ∀ idx env s R, (∀ x ∈ xs, Inv pv m L idx env x) → I env R →
      agrees ρ (realize fuel m p L idx s).2 → (realize fuel m p L idx s).1 = .ok R) :
    ∀ (n lev : Nat) (vs : List PVRef) (idx : Nat → Nat) (env : Env) (s : Ids)
      (rs : List Form), lev + n = L → (∀ x ∈ xs, Inv pv m lev idx env x) →
      Repeat I xs n env rs →
      agrees ρ (realize fuel m (nestEll vs p lev n) lev idx s).2 →
      ∃ r, (realize fuel m (nestEll vs p lev n) lev idx s).1 = .ok r ∧
        if n = 0 then rs = [r] else r = ofList rs := by
  intro n
  induction n with
  | zero =>
    intro lev vs idx env s rs hL hI hR ha
    have hL : lev = L := by omega
    subst hL
    obtain ⟨r, h1, h2⟩ := hR
    exact ⟨r, hbody idx env s r hI h1 ha, by rw [if_pos rfl]; exact h2⟩
  | succ n ih =>
    intro lev vs idx env s rs hL hI hR ha
    obtain ⟨k, ⟨x0, hx0, ts0, hts0⟩, hlen, rss, hrss, hrounds, hrs⟩ := hR
    rw [nestEll, realize] at ha ⊢
    -- the variable the loop iterates over
    obtain ⟨w0, hw0⟩ : ∃ w, lookupPv x0 pv = some w := by
      cases h : lookupPv x0 pv with
      | none => rw [(hI x0 hx0).1 h] at hts0; cases hts0
      | some w => exact ⟨w, rfl⟩
    have hx0t : lev + 1 ≤ w0.1 ∧ k < fuel := by
      obtain ⟨l, n0⟩ := w0
      obtain ⟨t, h1, h2, h3⟩ := (hI x0 hx0).2 l n0 hw0
      rw [hts0] at h1
      injection h1 with h1
      subst h1
      constructor
      · show lev + 1 ≤ l
        by_cases hl : l ≤ lev
        · rw [show l - lev = 0 by omega] at h2
          exact h2.elim
        · omega
      · have h4 := getPv_fsize _ _ _ _ h3
        have h5 := pairs_le_fsize (enc (.node ts0))
        rw [enc, pairs_ofList, encs_eq, List.length_map, hlen x0 hx0 ts0 hts0] at h5
        have := hfuel n0
        rw [enc, encs_eq] at h4
        omega
    have hhas : HasPv (lev + 1) p := ⟨w0, hxs x0 hx0 w0 hw0, hx0t.1⟩
    have hend : ∀ s, ∃ s1, realize fuel m (nestEll [] p (lev + 1) n) (lev + 1)
        (setIdx idx (lev + 1) k) s = (.unbound (lev + 1), s1) := by
      intro s
      have := (exhaust (e := lev + 1) (m := m) (by omega : 0 < fuel)
        (nestEll [] p (lev + 1) n) (lev + 1) (setIdx idx (lev + 1) k) s (Nat.le_refl _)
        (EllOK_nest hhas (hell _ (by omega)) n (lev + 1) [] (Nat.le_refl _)) (by
          intro w hw
          obtain ⟨x, hx, hl⟩ := hpv w ((pvIn_nest w p _ _ _).1 hw)
          exact Inv_exhausted (hI x hx) hl (hlen x hx))).1 (by
            obtain ⟨w, h1, h2⟩ := hhas
            exact ⟨w, (pvIn_nest w p _ _ _).2 h1, h2⟩)
      exact ⟨_, Prod.ext this rfl⟩
    have hsp : (nestEll [] p (lev + 1) n).isEll = decide (n ≠ 0) := by
      cases n with
      | zero => exact hne
      | succ n => rfl
    refine ⟨ofList rs, ?_, by rw [if_neg (by omega)]⟩
    have := loop_ok (ρ := ρ) (level := lev + 1) (splice := (nestEll [] p (lev + 1) n).isEll)
      (B := fun i s' => realize fuel m (nestEll [] p (lev + 1) n) (lev + 1)
        (setIdx idx (lev + 1) i) s') hrss hend (fun i s => realize_le _ _ _ _ _ _) (by
        intro i rs' s hi hag
        have hik : i < k := by
          rw [← hrss]
          exact (List.getElem?_eq_some_iff.1 hi).1
        obtain ⟨r, h1, h2⟩ := ih (lev + 1) [] (setIdx idx (lev + 1) i) (env.round i) s rs'
          (by omega) (fun x hx => Inv_round (hI x hx) (fun ts hts => by
            rw [hlen x hx ts hts]; exact hik)) (hrounds i rs' hi) hag
        refine ⟨r, h1, ?_⟩
        rw [hsp]
        by_cases hn : n = 0
        · rw [if_pos hn] at h2
          rw [if_neg (by simp [hn])]
          exact h2.symm
        · rw [if_neg hn] at h2
          rw [if_pos (by simp [hn]), h2, elems_ofList])
      k fuel 0 [] s (by omega) hx0t.2 ha
    rw [this, hrs]
    rfl

/-! ## Templates -/

theorem Inst_plain {S : Syn} {ρ : Nat → Nat} {on : Bool} {a d : Form} {p : Pos}
    {env : Env} {R : Form} (hp : ∀ k, p ≠ .rest (k + 1)) (h : escape S on p a d = false) :
    Inst S ρ on (.cons a d) p env R ↔
      ∃ rs R2,
        Repeat (Inst S ρ on a .start) (tmplIds S on a .start) (ells S on d) env rs ∧
        Inst S ρ on d (.rest (ells S on d)) env R2 ∧ R = prepend rs R2 := by
  cases p with
  | start => cases d <;> simp only [Inst, h, Bool.false_eq_true, if_false]
  | rest k =>
    cases k with
    | zero => cases d <;> simp only [Inst, h, Bool.false_eq_true, if_false]
    | succ k => exact absurd rfl (hp k)

theorem Inst_escape {S : Syn} {ρ : Nat → Nat} {on : Bool} {a t u : Form} {p : Pos}
    {env : Env} {R : Form} (h : escape S on p a (.cons t u) = true) :
    Inst S ρ on (.cons a (.cons t u)) p env R ↔ Inst S ρ false t .start env R := by
  cases p with
  | start => simp only [Inst, h, if_true]
  | rest k => rw [escape_rest] at h; cases h

theorem Inst_skip {S : Syn} {ρ : Nat → Nat} {on : Bool} {a d : Form} {k : Nat}
    {env : Env} {R : Form} :
    Inst S ρ on (.cons a d) (.rest (k + 1)) env R ↔ Inst S ρ on d (.rest k) env R := by
  simp only [Inst]

theorem real_ok {C : Cfg} {pv : List (Nat × PVRef)} {fuel : Nat} {m : MVec} {ρ : Nat → Nat}
    (hfuel : ∀ n, fsize (m n).root < fuel)
    (hC : ∀ x, (C.lits.contains x = true ∨ C.ell x = true) → lookupPv x pv = none)
    (T : Form) :
    ∀ {on : Bool} {lev : Nat} {md : Mode} {ml : Nat} {vs : List PVRef}
    {r : Pat × Nat × List PVRef} {idx : Nat → Nat} {env : Env} {s : Ids} {R : Form},
    compTmpl C pv on lev T md ml vs = some r →
    (∀ x ∈ tmplIds C.syn on T md.pos, Inv pv m lev idx env x) →
    Inst C.syn ρ on T md.pos env R →
    agrees ρ (realize fuel m r.1 lev idx s).2 →
    (realize fuel m r.1 lev idx s).1 = .ok R := by
  induction T using Form.ind2 with
  | hnil =>
    intro on lev md ml vs r idx env s R h hI hR ha
    rw [compTmpl_nil] at h; injection h with h; subst h
    rw [Inst] at hR; rw [hR]; rfl
  | hatom k =>
    intro on lev md ml vs r idx env s R h hI hR ha
    rw [compTmpl_atom] at h; injection h with h; subst h
    rw [Inst] at hR; rw [hR]; rfl
  | hsym x =>
    intro on lev md ml vs r idx env s R h hI hR ha
    have hI := hI x (by rw [tmplIds]; exact List.mem_singleton.2 rfl)
    rw [Inst] at hR
    have ident : lookupPv x pv = none → r = (.ident x, ml, vs) →
        (realize fuel m r.1 lev idx s).1 = .ok R := by
      intro hn hr
      subst hr
      rw [hI.1 hn] at hR
      have ha := ha x _ (rename_find s x)
      rw [hR.2, ha]
      rfl
    rcases (compTmpl_sym_some h).2 with ⟨h1, h2⟩ | ⟨_, h1, h2⟩ | ⟨_, l, n, h1, h2, h3⟩
    · exact ident (hC x (.inl h1)) h2
    · exact ident h1 h2
    · obtain ⟨t, h4, h5, h6⟩ := hI.2 l n h1
      rw [show l - lev = 0 by omega] at h5
      obtain ⟨f, rfl⟩ := depth_zero h5
      rw [h4] at hR
      rw [show min l lev = l by omega] at h6
      rw [h3]
      show getPv idx 1 l (m n).root = _
      rw [h6, hR.2]
      rfl
  | hvec l ih =>
    intro on lev md ml vs r idx env s R h hI hR ha
    obtain ⟨p, h1, _, h2⟩ := compTmpl_vec_some h
    rw [Inst] at hR
    obtain ⟨R', hR', rfl⟩ := hR
    rw [h2, realize] at ha ⊢
    have := ih h1 (idx := idx) (env := env) (s := s) (R := R') (by
      intro x hx; exact hI x (by rw [tmplIds]; exact hx)) hR' (by
      refine agrees_le ha ?_
      rcases hh : realize fuel m p lev idx s with ⟨q, s1⟩
      cases q <;> exact Ids.le_refl _)
    rcases hh : realize fuel m p lev idx s with ⟨q, s1⟩
    dsimp only at this
    rw [hh] at this
    have this : q = .ok R' := this
    subst this
    rfl
  | hcons a d iha ihd iht =>
    intro on lev md ml vs r idx env s R h hI hR ha
    have step : ∀ (p q : Pat) (rs : List Form) (R2 : Form) (b : Pat × Nat × List PVRef)
        (md' : Mode),
        (∀ x ∈ tmplIds C.syn on d md'.pos, Inv pv m lev idx env x) →
        compTmpl C pv on lev d md' b.2.1 b.2.2 = some (q, r.2) →
        Inst C.syn ρ on d md'.pos env R2 →
        r.1 = .cons p q →
        (agrees ρ (realize fuel m p lev idx s).2 →
          ∃ f, (realize fuel m p lev idx s).1 = .ok f ∧
            prepend (if p.isEll then elems f else [f]) R2 = R) →
        (realize fuel m r.1 lev idx s).1 = .ok R := by
      intro p q rs R2 b md' hI2 hq hR2 hr hp
      rw [hr, realize] at ha ⊢
      have hle := realize_le fuel m p lev idx s
      rcases h1 : realize fuel m p lev idx s with ⟨f, s1⟩
      rw [h1] at ha hp
      cases f with
      | more => obtain ⟨f, hf, _⟩ := hp ha; cases hf
      | unbound e => obtain ⟨f, hf, _⟩ := hp ha; cases hf
      | ok f =>
        dsimp only at ha ⊢
        have ha2 : agrees ρ (realize fuel m q lev idx s1).2 := by
          rcases h2 : realize fuel m q lev idx s1 with ⟨f2, s2⟩
          rw [h2] at ha
          cases f2 <;> exact ha
        obtain ⟨f', hf, hRR⟩ := hp (agrees_le ha2 (realize_le _ _ _ _ _ _))
        injection hf with hf
        subst hf
        have h2 := ihd hq (idx := idx) (env := env) (s := s1) (R := R2) hI2 hR2 ha2
        dsimp only at h2
        rcases h3 : realize fuel m q lev idx s1 with ⟨f2, s2⟩
        rw [h3] at h2
        have h2 : f2 = .ok R2 := h2
        subst h2
        dsimp only
        rw [← hRR]
        by_cases he : p.isEll = true
        · rw [if_pos he, if_pos he]
        · rw [if_neg he, if_neg he]; rfl
    by_cases hm : md.skip = 0
    · have hp : ∀ k, md.pos ≠ .rest (k + 1) := by
        intro k hk
        cases md with
        | head => cases hk
        | tail s k' => injection hk with hk; rw [Mode.skip] at hm; omega
      rcases compTmpl_cons_some hm h with
        ⟨t, u, h1, h2, h3⟩ | ⟨p, ml1, v1, q, h1, h2, h3, h4, h5⟩ |
        ⟨n, p, ml1, v1, q, h1, h2, h3, h4, h5, h6⟩
      · subst h2
        rw [Inst_escape h1] at hR
        rw [tmplIds_escape h1] at hI
        exact iht t u rfl h3 hI hR ha
      · rw [Inst_plain hp h1, h2] at hR
        rw [tmplIds_plain h1] at hI
        obtain ⟨rs, R2, ⟨R1, hR1, rfl⟩, hR2, rfl⟩ := hR
        refine step p q [R1] R2 (p, ml1, v1) (.tail false 0)
          (fun x hx => hI x (List.mem_append_right _ hx)) h4 hR2 h5 ?_
        intro hap
        refine ⟨R1, iha h3 (fun x hx => hI x (List.mem_append_left _ hx)) hR1 hap, ?_⟩
        have := compTmpl_notEll a h3
        dsimp only at this
        rw [this]; rfl
      · rw [Inst_plain hp h1, h2] at hR
        rw [tmplIds_plain h1] at hI
        obtain ⟨rs, R2, hrep, hR2, rfl⟩ := hR
        refine step _ q rs R2 (p, ml1, vs ++ v1) (.tail false (n + 1)) ?_ h5 hR2 h6 ?_
        · intro x hx
          refine hI x (List.mem_append_right _ ?_)
          rw [tmplIds_rest d 0 (n + 1)]; exact hx
        intro hap
        obtain ⟨f, hf1, hf2⟩ := nest_ok (ρ := ρ) (m := m) (pv := pv) (p := p) (L := lev + (n + 1))
          hfuel (fun w hw => pvIn_ids a h3 hw)
          (fun x hx w hw => ids_pvIn hC a h3 (by
            simpa only [Mode.skip, skipF_zero, if_true, Mode.pos] using hx) hw)
          (compTmpl_notEll a h3) (fun e he => compTmpl_ellOK a h3 e he)
          (fun idx env s R hI hR ha => iha h3 hI hR ha)
          (n + 1) lev v1 idx env s rs rfl
          (fun x hx => hI x (List.mem_append_left _ hx)) hrep hap
        refine ⟨f, hf1, ?_⟩
        rw [if_neg (by omega)] at hf2
        rw [isEll_nest, if_pos rfl, hf2, elems_ofList]
    · cases md with
      | head => exact absurd rfl hm
      | tail sn k =>
        cases k with
        | zero => exact absurd rfl hm
        | succ k =>
          rw [compTmpl_skip] at h
          rw [Mode.pos, Inst_skip] at hR
          refine ihd h ?_ hR ha
          intro x hx
          refine hI x ?_
          rw [Mode.pos, tmplIds_plain (escape_rest _ _ _ _ _)]
          refine List.mem_append_right _ ?_
          rw [tmplIds_rest d 0 k]; exact hx

end Gauche.SynRules
