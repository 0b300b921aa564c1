import Verif.Model.Prog

/-!
# Locations of the semantics and places of the machine

`W` lists the place of each location: a box, for variables that are `set!`, or a
slot of a frame.
-/
namespace Gauche.Prog

inductive Place where
  | slot (a i : Nat)
  | box (b : Nat)
deriving DecidableEq

/-- Everything that was there is still there, at the same index. -/
def Keep {α : Type} (l l' : List α) : Prop := ∀ (i : Nat) (x : α), l[i]? = some x → l'[i]? = some x

theorem Keep.refl {α : Type} (l : List α) : Keep l l := fun _ _ h => h
theorem Keep.trans {α : Type} {l l' l'' : List α} (h : Keep l l') (h' : Keep l' l'') :
    Keep l l'' := fun i x hx => h' i x (h i x hx)
theorem Keep.append {α : Type} (l m : List α) : Keep l (l ++ m) := by
  intro i x h
  obtain ⟨hi, _⟩ := List.getElem?_eq_some_iff.1 h
  rw [List.getElem?_append_left hi, h]

/-- Frames keep their link, their size and their boxes. -/
def Ext (fs fs' : List Frame) : Prop :=
  ∀ (a : Nat) (f : Frame), fs[a]? = some f → ∃ f' : Frame, fs'[a]? = some f' ∧ f'.up = f.up ∧
    f'.slots.length = f.slots.length ∧
    ∀ (i b : Nat), f.slots[i]? = some (.box b) → f'.slots[i]? = some (.box b)

theorem Ext.refl (fs : List Frame) : Ext fs fs := fun _ f h => ⟨f, h, rfl, rfl, fun _ _ h => h⟩
theorem Keep.ext {fs fs' : List Frame} (h : Keep fs fs') : Ext fs fs' :=
  fun a f hf => ⟨f, h a f hf, rfl, rfl, fun _ _ h => h⟩
theorem Ext.trans {a b c : List Frame} (h : Ext a b) (h' : Ext b c) : Ext a c := by
  intro i f hf
  obtain ⟨f1, h1, h2, h3, h4⟩ := h i f hf
  obtain ⟨f2, g1, g2, g3, g4⟩ := h' i f1 h1
  exact ⟨f2, g1, g2.trans h2, g3.trans h3, fun j b hb => g4 j b (h4 j b hb)⟩

theorem walk_ext {fs fs' : List Frame} (h : Ext fs fs') : ∀ (d : Nat) (env : Option Nat) (a : Nat),
    walk fs env d = some a → walk fs' env d = some a := by
  intro d
  induction d with
  | zero => intro env a hw; cases env with
    | none => cases hw
    | some e => exact hw
  | succ d ih =>
    intro env a hw
    cases env with
    | none => cases hw
    | some e =>
      rw [walk] at hw
      cases he : fs[e]? with
      | none => rw [he] at hw; cases hw
      | some f =>
        rw [he] at hw
        obtain ⟨f', h1, h2, _⟩ := h e f he
        rw [walk, h1]
        dsimp only
        rw [h2]
        exact ih _ _ hw

/-- Where the variables are. -/
def EnvRel (M : Nat → Bool) (W : List Place) (fs : List Frame) (ρ : Env) (renv : Renv)
    (env : Option Nat) : Prop :=
  ∀ (x l : Nat), ρ.find x = some l → ∃ (a : Nat) (f : Frame), walk fs env (renvLookup x renv).1 = some a ∧
    fs[a]? = some f ∧ (renvLookup x renv).2 < f.slots.length ∧
    (M x = true → ∃ b, f.slots[slotIx f (renvLookup x renv).2]? = some (.box b) ∧
      W[l]? = some (.box b)) ∧
    (M x = false → W[l]? = some (.slot a (slotIx f (renvLookup x renv).2)))

theorem EnvRel.mono {M : Nat → Bool} {W W' : List Place} {fs fs' : List Frame} {ρ : Env}
    {renv : Renv} {env : Option Nat} (h : EnvRel M W fs ρ renv env) (hW : Keep W W')
    (hf : Ext fs fs') : EnvRel M W' fs' ρ renv env := by
  intro x l hx
  obtain ⟨a, f, h1, h2, h3, h4, h5⟩ := h x l hx
  obtain ⟨f', g1, g2, g3, g4⟩ := hf a f h2
  have hi : slotIx f' (renvLookup x renv).2 = slotIx f (renvLookup x renv).2 := by
    rw [slotIx, slotIx, g3]
  refine ⟨a, f', walk_ext hf _ _ _ h1, g1, by rw [g3]; exact h3, fun hm => ?_, fun hm => ?_⟩
  · obtain ⟨b, b1, b2⟩ := h4 hm
    exact ⟨b, by rw [hi]; exact g4 _ _ b1, hW _ _ b2⟩
  · rw [hi]; exact hW _ _ (h5 hm)

/-! ## Conditions on terms -/

/-- No mutable variable among the arguments of a head-heavy call. -/
def noMutable (M : Nat → Bool) : List Term → Bool
  | [] => true
  | .lref x :: es => !M x && noMutable M es
  | _ :: es => noMutable M es

mutual
/-- `M` is true of all variables that are `set!`; frames have one initial value for
each variable; the variables of a `letrec` are distinct; and the arguments of calls
that can be compiled as head-heavy calls are not mutable. -/
def ok (M : Nat → Bool) : Term → Prop
  | .const _ => True
  | .lref _ => True
  | .lset x e => M x = true ∧ ok M e
  | .gref _ => True
  | .gset _ e => ok M e
  | .it => True
  | .ite a b c => ok M a ∧ ok M b ∧ ok M c
  | .letv xs es b => xs.length = es.length ∧ okL M es ∧ ok M b
  | .letrec xs es b => xs.length = es.length ∧ xs.Nodup ∧ okL M es ∧ ok M b
  | .lam xs opt b => (opt = true → xs ≠ []) ∧ ok M b
  | .seq es => okL M es
  | .call f es => (isLet f = true → allSimple es = true → noMutable M es = true) ∧
      ok M f ∧ okL M es
  | .prim _ es => es ≠ [] ∧ okL M es

def okL (M : Nat → Bool) : List Term → Prop
  | [] => True
  | e :: es => ok M e ∧ okL M es
end

/-- The closure of the machine is the compiled closure of the semantics. -/
def ClosRel (M : Nat → Bool) (W : List Place) (fs : List Frame) (c : SClos) (k : VClos) : Prop :=
  ∃ renv, ok M (.lam c.params c.opt c.body) ∧ EnvRel M W fs c.env renv k.env ∧
    .closure k.req k.opt k.maxstack k.code =
      lamInstr M c.params c.opt (depth .tail c.body)
        (comp M (extRenv c.params renv) .tail (boxers M c.params).length c.body)

structure Rel (M : Nat → Bool) (W : List Place) (σ : Store) (fs : List Frame) (bs : List Val)
    (cs : List VClos) (G : Nat → Option Val) : Prop where
  len : W.length = σ.vars.length
  inj : ∀ (l l' : Nat) p, W[l]? = some p → W[l']? = some p → l = l'
  box : ∀ (l b : Nat), W[l]? = some (.box b) → bs[b]? = σ.vars[l]?
  slot : ∀ (l a i : Nat), W[l]? = some (.slot a i) → ∃ (f : Frame) (v : Val), fs[a]? = some f ∧ σ.vars[l]? = some v ∧
    f.slots[i]? = some (.val v)
  glob : G = σ.globals
  clen : cs.length = σ.clos.length
  clos : ∀ (n : Nat) c, σ.clos[n]? = some c → ∃ k, cs[n]? = some k ∧ ClosRel M W fs c k

theorem Rel.var {M W σ fs bs cs G} (h : Rel M W σ fs bs cs G) {l : Nat} {p : Place}
    (hl : W[l]? = some p) : ∃ v, σ.vars[l]? = some v := by
  obtain ⟨hi, _⟩ := List.getElem?_eq_some_iff.1 hl
  rw [h.len] at hi
  exact ⟨_, List.getElem?_eq_getElem hi⟩

theorem ClosRel.mono {M W W' fs fs' c k} (h : ClosRel M W fs c k) (hW : Keep W W')
    (hf : Ext fs fs') : ClosRel M W' fs' c k := by
  obtain ⟨renv, h1, h2, h3⟩ := h
  exact ⟨renv, h1, h2.mono hW hf, h3⟩

/-! ## Assignment -/

theorem Rel.setBox {M W σ fs bs cs G} (h : Rel M W σ fs bs cs G) {l b : Nat} {v : Val}
    (hl : W[l]? = some (.box b)) :
    Rel M W { σ with vars := σ.vars.set l v } fs (bs.set b v) cs G := by
  obtain ⟨v0, hv0⟩ := h.var hl
  have hll := (List.getElem?_eq_some_iff.1 hv0).1
  have hbl : b < bs.length := by
    have := h.box l b hl
    rw [hv0] at this
    exact (List.getElem?_eq_some_iff.1 this).1
  refine ⟨?_, h.inj, ?_, ?_, h.glob, h.clen, h.clos⟩
  · dsimp only; rw [List.length_set]; exact h.len
  · intro l' b' hl'
    dsimp only
    by_cases hb : b' = b
    · subst hb
      have := h.inj _ _ _ hl hl'
      subst this
      rw [List.getElem?_set_self hbl, List.getElem?_set_self hll]
    · rw [List.getElem?_set_ne (Ne.symm hb), h.box l' b' hl']
      have : l ≠ l' := by
        intro e; subst e
        rw [hl] at hl'; injection hl' with hl'; injection hl' with hl'
        exact hb hl'.symm
      rw [List.getElem?_set_ne this]
  · intro l' a i hl'
    obtain ⟨f, w, h1, h2, h3⟩ := h.slot l' a i hl'
    have : l ≠ l' := by
      intro e; subst e
      rw [hl] at hl'; cases hl'
    exact ⟨f, w, h1, by dsimp only; rw [List.getElem?_set_ne this]; exact h2, h3⟩

/-- Initialising an immutable variable of a `letrec`. -/
theorem Rel.setSlot {M W σ fs bs cs G} (h : Rel M W σ fs bs cs G) {l a i : Nat} {v : Val}
    {f : Frame} (hl : W[l]? = some (.slot a i)) (hf : fs[a]? = some f) :
    Rel M W { σ with vars := σ.vars.set l v }
      (fs.set a ⟨f.slots.set i (.val v), f.up⟩) bs cs G ∧
    Ext fs (fs.set a ⟨f.slots.set i (.val v), f.up⟩) := by
  have hal := (List.getElem?_eq_some_iff.1 hf).1
  obtain ⟨f0, v0, q1, q2, q3⟩ := h.slot l a i hl
  rw [hf] at q1
  injection q1 with q1
  subst q1
  have hll := (List.getElem?_eq_some_iff.1 q2).1
  have hil := (List.getElem?_eq_some_iff.1 q3).1
  have hext : Ext fs (fs.set a ⟨f.slots.set i (.val v), f.up⟩) := by
    intro a' f' hf'
    by_cases ha : a' = a
    · subst ha
      rw [hf] at hf'
      injection hf' with hf'
      subst hf'
      refine ⟨_, List.getElem?_set_self hal, rfl, List.length_set, ?_⟩
      intro j b hj
      have : i ≠ j := by
        intro e; subst e; rw [q3] at hj; cases hj
      dsimp only
      rw [List.getElem?_set_ne this]
      exact hj
    · exact ⟨f', by rw [List.getElem?_set_ne (Ne.symm ha)]; exact hf', rfl, rfl, fun _ _ h => h⟩
  refine ⟨⟨?_, h.inj, ?_, ?_, h.glob, h.clen, ?_⟩, hext⟩
  · dsimp only; rw [List.length_set]; exact h.len
  · intro l' b' hl'
    have : l ≠ l' := by
      intro e; subst e; rw [hl] at hl'; cases hl'
    dsimp only
    rw [List.getElem?_set_ne this]
    exact h.box l' b' hl'
  · intro l' a' i' hl'
    by_cases hla : l' = l
    · subst hla
      rw [hl] at hl'
      injection hl' with hl'
      injection hl' with e1 e2
      subst e1 e2
      exact ⟨_, v, List.getElem?_set_self hal, List.getElem?_set_self hll,
        List.getElem?_set_self hil⟩
    · obtain ⟨f', w, g1, g2, g3⟩ := h.slot l' a' i' hl'
      by_cases ha : a' = a
      · subst ha
        rw [hf] at g1
        injection g1 with g1
        subst g1
        have hne : i ≠ i' := by
          intro e; subst e
          exact hla (h.inj _ _ _ hl' hl)
        refine ⟨_, w, List.getElem?_set_self hal, ?_, ?_⟩
        · dsimp only; rw [List.getElem?_set_ne (Ne.symm hla)]; exact g2
        · dsimp only; rw [List.getElem?_set_ne hne]; exact g3
      · refine ⟨f', w, ?_, ?_, g3⟩
        · rw [List.getElem?_set_ne (Ne.symm ha)]; exact g1
        · dsimp only; rw [List.getElem?_set_ne (Ne.symm hla)]; exact g2
  · intro n c hc
    obtain ⟨k, k1, k2⟩ := h.clos n c hc
    exact ⟨k, k1, k2.mono (Keep.refl _) hext⟩

theorem Rel.setGlob {M W σ fs bs cs G} (h : Rel M W σ fs bs cs G) (g : Nat) (v : Val) :
    Rel M W { σ with globals := setGlobal σ.globals g v } fs bs cs (setGlobal G g v) :=
  ⟨h.len, h.inj, h.box, h.slot, by rw [h.glob], h.clen, h.clos⟩

/-! ## New closures -/

theorem Rel.addClos {M W σ fs bs cs G} (h : Rel M W σ fs bs cs G) {c : SClos} {k : VClos}
    (hk : ClosRel M W fs c k) :
    Rel M W { σ with clos := σ.clos ++ [c] } fs bs (cs ++ [k]) G := by
  refine ⟨h.len, h.inj, h.box, h.slot, h.glob, ?_, ?_⟩
  · dsimp only; rw [List.length_append, List.length_append, h.clen]; rfl
  · intro n c' hc
    dsimp only at hc
    by_cases hn : n < σ.clos.length
    · rw [List.getElem?_append_left hn] at hc
      obtain ⟨k', k1, k2⟩ := h.clos n c' hc
      exact ⟨k', Keep.append _ _ _ _ k1, k2⟩
    · rw [List.getElem?_append_right (by omega)] at hc
      have : n - σ.clos.length = 0 := by
        rcases Nat.eq_zero_or_pos (n - σ.clos.length) with e | e
        · exact e
        · rw [List.getElem?_eq_none (by simp; omega)] at hc; cases hc
      rw [this] at hc
      injection hc with hc
      subst hc
      refine ⟨k, ?_, hk⟩
      rw [List.getElem?_append_right (by rw [h.clen]; omega), h.clen, this]
      rfl

/-! ## New frames -/

def boxSlots (M : Nat → Bool) : List Nat → List Val → Nat → List Slot
  | x :: xs, w :: ws, nb =>
    if M x then .box nb :: boxSlots M xs ws (nb + 1) else .val w :: boxSlots M xs ws nb
  | _, _, _ => []

def boxVals (M : Nat → Bool) : List Nat → List Val → List Val
  | x :: xs, w :: ws => if M x then w :: boxVals M xs ws else boxVals M xs ws
  | _, _ => []

def places (M : Nat → Bool) (a : Nat) : List Nat → Nat → Nat → List Place
  | x :: xs, i, nb =>
    if M x then .box nb :: places M a xs (i + 1) (nb + 1)
    else .slot a i :: places M a xs (i + 1) nb
  | [], _, _ => []

theorem boxSlots_length (M : Nat → Bool) : ∀ (xs : List Nat) (ws : List Val) (nb : Nat),
    xs.length = ws.length → (boxSlots M xs ws nb).length = xs.length := by
  intro xs
  induction xs with
  | nil => intro ws nb _; rfl
  | cons x xs ih =>
    intro ws nb h
    cases ws with
    | nil => cases h
    | cons w ws =>
      have h : xs.length + 1 = ws.length + 1 := h
      rw [boxSlots]
      by_cases hm : M x = true
      · rw [if_pos hm, List.length_cons, ih _ _ (by omega)]; rfl
      · rw [if_neg hm, List.length_cons, ih _ _ (by omega)]; rfl

theorem places_length (M : Nat → Bool) (a : Nat) : ∀ (xs : List Nat) (i nb : Nat),
    (places M a xs i nb).length = xs.length := by
  intro xs
  induction xs with
  | nil => intro i nb; rfl
  | cons x xs ih =>
    intro i nb
    rw [places]
    by_cases hm : M x = true
    · rw [if_pos hm, List.length_cons, ih]; rfl
    · rw [if_neg hm, List.length_cons, ih]; rfl

theorem places_box (M : Nat → Bool) (a : Nat) : ∀ (xs : List Nat) (ws : List Val) (i nb j b : Nat),
    xs.length = ws.length → (places M a xs i nb)[j]? = some (.box b) →
    nb ≤ b ∧ (boxVals M xs ws)[b - nb]? = ws[j]? ∧
      (boxSlots M xs ws nb)[j]? = some (.box b) := by
  intro xs
  induction xs with
  | nil => intro ws i nb j b _ h; rw [places] at h; cases h
  | cons x xs ih =>
    intro ws i nb j b hl h
    cases ws with
    | nil => cases hl
    | cons w ws =>
      have hl : xs.length + 1 = ws.length + 1 := hl
      rw [places] at h
      rw [boxVals, boxSlots]
      by_cases hm : M x = true
      · rw [if_pos hm] at h ⊢
        rw [if_pos hm]
        cases j with
        | zero =>
          injection h with h
          injection h with h
          subst h
          exact ⟨Nat.le_refl _, by rw [Nat.sub_self]; rfl, rfl⟩
        | succ j =>
          rw [List.getElem?_cons_succ] at h
          obtain ⟨h1, h2, h3⟩ := ih ws _ _ _ _ (by omega) h
          refine ⟨by omega, ?_, ?_⟩
          · have : b - nb = b - (nb + 1) + 1 := by omega
            rw [this, List.getElem?_cons_succ, List.getElem?_cons_succ, h2]
          · rw [List.getElem?_cons_succ]; exact h3
      · rw [if_neg hm] at h ⊢
        rw [if_neg hm]
        cases j with
        | zero => cases h
        | succ j =>
          rw [List.getElem?_cons_succ] at h
          obtain ⟨h1, h2, h3⟩ := ih ws _ _ _ _ (by omega) h
          exact ⟨h1, by rw [List.getElem?_cons_succ]; exact h2,
            by rw [List.getElem?_cons_succ]; exact h3⟩

theorem places_slot (M : Nat → Bool) (a : Nat) : ∀ (xs : List Nat) (ws : List Val)
    (i nb j a' i' : Nat),
    xs.length = ws.length → (places M a xs i nb)[j]? = some (.slot a' i') →
    a' = a ∧ i' = i + j ∧ ∃ w, ws[j]? = some w ∧ (boxSlots M xs ws nb)[j]? = some (.val w) := by
  intro xs
  induction xs with
  | nil => intro ws i nb j a' i' _ h; rw [places] at h; cases h
  | cons x xs ih =>
    intro ws i nb j a' i' hl h
    cases ws with
    | nil => cases hl
    | cons w ws =>
      have hl : xs.length + 1 = ws.length + 1 := hl
      rw [places] at h
      rw [boxSlots]
      by_cases hm : M x = true
      · rw [if_pos hm] at h ⊢
        cases j with
        | zero => cases h
        | succ j =>
          rw [List.getElem?_cons_succ] at h
          obtain ⟨h1, h2, w', h3, h4⟩ := ih ws _ _ _ _ _ (by omega) h
          exact ⟨h1, by omega, w', h3, h4⟩
      · rw [if_neg hm] at h ⊢
        cases j with
        | zero =>
          injection h with h
          injection h with h1 h2
          subst h1 h2
          exact ⟨rfl, rfl, w, rfl, rfl⟩
        | succ j =>
          rw [List.getElem?_cons_succ] at h
          obtain ⟨h1, h2, w', h3, h4⟩ := ih ws _ _ _ _ _ (by omega) h
          exact ⟨h1, by omega, w', h3, h4⟩

theorem places_inj (M : Nat → Bool) (a : Nat) : ∀ (xs : List Nat) (i nb j j' : Nat) (p : Place),
    (places M a xs i nb)[j]? = some p → (places M a xs i nb)[j']? = some p → j = j' := by
  intro xs
  induction xs with
  | nil => intro i nb j j' p h; rw [places] at h; cases h
  | cons x xs ih =>
    intro i nb j j' p h h'
    have hdummy : xs.length = (xs.map fun _ => Val.undef).length := by simp
    rw [places] at h h'
    by_cases hm : M x = true
    · rw [if_pos hm] at h h'
      cases j with
      | zero =>
        cases j' with
        | zero => rfl
        | succ j' =>
          injection h with h
          subst h
          rw [List.getElem?_cons_succ] at h'
          have := (places_box M a xs _ _ _ _ _ hdummy h').1
          omega
      | succ j =>
        cases j' with
        | zero =>
          injection h' with h'
          subst h'
          rw [List.getElem?_cons_succ] at h
          have := (places_box M a xs _ _ _ _ _ hdummy h).1
          omega
        | succ j' => rw [ih _ _ _ _ _ h h']
    · rw [if_neg hm] at h h'
      cases j with
      | zero =>
        cases j' with
        | zero => rfl
        | succ j' =>
          injection h with h
          subst h
          rw [List.getElem?_cons_succ] at h'
          have := (places_slot M a xs _ _ _ _ _ _ hdummy h').2.1
          omega
      | succ j =>
        cases j' with
        | zero =>
          injection h' with h'
          subst h'
          rw [List.getElem?_cons_succ] at h
          have := (places_slot M a xs _ _ _ _ _ _ hdummy h).2.1
          omega
        | succ j' => rw [ih _ _ _ _ _ h h']

/-- Allocating a frame. -/
theorem Rel.alloc {M W σ fs bs cs G} (h : Rel M W σ fs bs cs G) {xs : List Nat} {ws : List Val}
    (hl : xs.length = ws.length) (up : Option Nat) :
    Rel M (W ++ places M fs.length xs 0 bs.length) { σ with vars := σ.vars ++ ws }
      (fs ++ [⟨boxSlots M xs ws bs.length, up⟩]) (bs ++ boxVals M xs ws) cs G := by
  have split : ∀ (l : Nat) p, (W ++ places M fs.length xs 0 bs.length)[l]? = some p →
      (l < W.length ∧ W[l]? = some p) ∨
      (W.length ≤ l ∧ (places M fs.length xs 0 bs.length)[l - W.length]? = some p) := by
    intro l p hp
    by_cases hw : l < W.length
    · rw [List.getElem?_append_left hw] at hp
      exact .inl ⟨hw, hp⟩
    · rw [List.getElem?_append_right (by omega)] at hp
      exact .inr ⟨by omega, hp⟩
  have oldbox : ∀ (l b : Nat), W[l]? = some (.box b) → b < bs.length := by
    intro l b hb
    obtain ⟨v, hv⟩ := h.var hb
    have := h.box l b hb
    rw [hv] at this
    exact (List.getElem?_eq_some_iff.1 this).1
  have oldslot : ∀ (l a i : Nat), W[l]? = some (.slot a i) → a < fs.length := by
    intro l a i hb
    obtain ⟨f, v, h1, _⟩ := h.slot l a i hb
    exact (List.getElem?_eq_some_iff.1 h1).1
  refine ⟨?_, ?_, ?_, ?_, h.glob, h.clen, ?_⟩
  · dsimp only
    rw [List.length_append, List.length_append, places_length, h.len, hl]
  · intro l l' p hp hp'
    rcases split l p hp with ⟨a1, a2⟩ | ⟨a1, a2⟩ <;> rcases split l' p hp' with ⟨b1, b2⟩ | ⟨b1, b2⟩
    · exact h.inj _ _ _ a2 b2
    · exfalso
      cases p with
      | box b =>
        have := oldbox _ _ a2
        have := (places_box M _ xs ws _ _ _ _ hl b2).1
        omega
      | slot a i =>
        have := oldslot _ _ _ a2
        have := (places_slot M _ xs ws _ _ _ _ _ hl b2).1
        omega
    · exfalso
      cases p with
      | box b =>
        have := oldbox _ _ b2
        have := (places_box M _ xs ws _ _ _ _ hl a2).1
        omega
      | slot a i =>
        have := oldslot _ _ _ b2
        have := (places_slot M _ xs ws _ _ _ _ _ hl a2).1
        omega
    · have := places_inj M _ xs _ _ _ _ p a2 b2
      omega
  · intro l b hp
    dsimp only
    rcases split l _ hp with ⟨a1, a2⟩ | ⟨a1, a2⟩
    · rw [List.getElem?_append_left (oldbox _ _ a2), h.box l b a2,
        List.getElem?_append_left (by rw [← h.len]; exact a1)]
    · obtain ⟨h1, h2, _⟩ := places_box M _ xs ws _ _ _ _ hl a2
      rw [List.getElem?_append_right h1, h2, List.getElem?_append_right (by rw [← h.len]; exact a1),
        h.len]
  · intro l a i hp
    dsimp only
    rcases split l _ hp with ⟨a1, a2⟩ | ⟨a1, a2⟩
    · obtain ⟨f, v, h1, h2, h3⟩ := h.slot l a i a2
      exact ⟨f, v, Keep.append _ _ _ _ h1, Keep.append _ _ _ _ h2, h3⟩
    · obtain ⟨h1, h2, w, h3, h4⟩ := places_slot M _ xs ws _ _ _ _ _ hl a2
      refine ⟨_, w, by rw [h1, List.getElem?_append_right (Nat.le_refl _), Nat.sub_self]; rfl, ?_, ?_⟩
      · rw [List.getElem?_append_right (by rw [← h.len]; exact a1), ← h.len]; exact h3
      · rw [h2, Nat.zero_add]; exact h4
  · intro n c hc
    obtain ⟨k, k1, k2⟩ := h.clos n c hc
    exact ⟨k, k1, k2.mono (Keep.append _ _) (Keep.append _ _).ext⟩

/-! ## Looking up variables -/

theorem posIn_find (x : Nat) : ∀ (xs : List Nat) (n : Nat) (ρ : Env),
    Env.find x (fresh xs n ++ ρ) = match posIn x xs with
      | some j => some (n + j)
      | none => Env.find x ρ := by
  intro xs
  induction xs with
  | nil => intro n ρ; rfl
  | cons y ys ih =>
    intro n ρ
    rw [fresh, List.cons_append, Env.find, posIn]
    by_cases hx : x = y
    · rw [if_pos hx, if_pos hx]; rfl
    · rw [if_neg hx, if_neg hx, ih]
      cases posIn x ys with
      | none => rfl
      | some j =>
        show some (n + 1 + j) = some (n + (j + 1))
        congr 1; omega

theorem posIn_get (x : Nat) : ∀ (xs : List Nat) (j : Nat), posIn x xs = some j →
    xs[j]? = some x := by
  intro xs
  induction xs with
  | nil => intro j h; cases h
  | cons y ys ih =>
    intro j h
    rw [posIn] at h
    by_cases hx : x = y
    · rw [if_pos hx] at h
      injection h with h
      subst h hx
      rfl
    · rw [if_neg hx] at h
      cases hp : posIn x ys with
      | none => rw [hp] at h; cases h
      | some k =>
        rw [hp] at h
        injection h with h
        subst h
        exact ih k hp

theorem posIn_nodup : ∀ (xs : List Nat), xs.Nodup → ∀ (j x : Nat), xs[j]? = some x →
    posIn x xs = some j := by
  intro xs
  induction xs with
  | nil => intro _ j x h; cases h
  | cons y ys ih =>
    intro hn j x h
    rw [posIn]
    rw [List.nodup_cons] at hn
    cases j with
    | zero =>
      injection h with h
      rw [if_pos h.symm]
    | succ j =>
      rw [List.getElem?_cons_succ] at h
      have : x ≠ y := by
        intro e; subst e; exact hn.1 (List.mem_of_getElem? h)
      rw [if_neg this, ih hn.2 j x h]
      rfl

theorem places_kind (M : Nat → Bool) (a : Nat) : ∀ (xs : List Nat) (ws : List Val) (i nb j x : Nat),
    xs.length = ws.length → xs[j]? = some x →
    (M x = true → ∃ b, (boxSlots M xs ws nb)[j]? = some (.box b) ∧
      (places M a xs i nb)[j]? = some (.box b)) ∧
    (M x = false → (places M a xs i nb)[j]? = some (.slot a (i + j))) := by
  intro xs
  induction xs with
  | nil => intro ws i nb j x _ h; cases h
  | cons y ys ih =>
    intro ws i nb j x hl h
    cases ws with
    | nil => cases hl
    | cons w ws =>
      have hl : ys.length + 1 = ws.length + 1 := hl
      rw [boxSlots, places]
      cases j with
      | zero =>
        injection h with h
        subst h
        constructor
        · intro hm; rw [if_pos hm, if_pos hm]; exact ⟨nb, rfl, rfl⟩
        · intro hm; rw [if_neg (by rw [hm]; decide)]; rfl
      | succ j =>
        rw [List.getElem?_cons_succ] at h
        by_cases hm : M y = true
        · rw [if_pos hm, if_pos hm]
          obtain ⟨h1, h2⟩ := ih ws (i + 1) (nb + 1) j x (by omega) h
          refine ⟨h1, fun hx => ?_⟩
          have := h2 hx
          rw [List.getElem?_cons_succ, this]
          congr 2; omega
        · rw [if_neg hm, if_neg hm]
          obtain ⟨h1, h2⟩ := ih ws (i + 1) nb j x (by omega) h
          refine ⟨h1, fun hx => ?_⟩
          have := h2 hx
          rw [List.getElem?_cons_succ, this]
          congr 2; omega

/-- The environment in a new frame. -/
theorem EnvRel.frame {M W fs ρ renv up} (h : EnvRel M W fs ρ renv up) {xs : List Nat}
    {ws : List Val} (hl : xs.length = ws.length) (nb : Nat) :
    EnvRel M (W ++ places M fs.length xs 0 nb) (fs ++ [⟨boxSlots M xs ws nb, up⟩])
      (fresh xs W.length ++ ρ) (xs :: renv) (some fs.length) := by
  intro x l hx
  rw [posIn_find] at hx
  rw [renvLookup]
  have ha : (fs ++ [⟨boxSlots M xs ws nb, up⟩])[fs.length]? = some ⟨boxSlots M xs ws nb, up⟩ := by
    rw [List.getElem?_append_right (Nat.le_refl _), Nat.sub_self]; rfl
  cases hp : posIn x xs with
  | none =>
    rw [hp] at hx
    have := (h.mono (Keep.append W (places M fs.length xs 0 nb))
      (Keep.append fs [⟨boxSlots M xs ws nb, up⟩]).ext) x l hx
    obtain ⟨a, f, h1, h2⟩ := this
    refine ⟨a, f, ?_, h2⟩
    dsimp only
    rw [walk, ha]
    exact h1
  | some j =>
    rw [hp] at hx
    injection hx with hx
    have hg := posIn_get x xs j hp
    have hj := (List.getElem?_eq_some_iff.1 hg).1
    have hlen : (boxSlots M xs ws nb).length = xs.length := boxSlots_length M xs ws nb hl
    have hix : slotIx ⟨boxSlots M xs ws nb, up⟩ (xs.length - (j + 1)) = j := by
      rw [slotIx]; dsimp only; rw [hlen]; omega
    refine ⟨fs.length, _, rfl, ha, by dsimp only; rw [hlen]; omega, fun hm => ?_, fun hm => ?_⟩
    · obtain ⟨b, b1, b2⟩ := (places_kind M fs.length xs ws 0 nb j x hl hg).1 hm
      refine ⟨b, by dsimp only; rw [hix]; exact b1, ?_⟩
      rw [← hx, List.getElem?_append_right (by omega)]
      rw [Nat.add_sub_cancel_left]; exact b2
    · have b1 := (places_kind M fs.length xs ws 0 nb j x hl hg).2 hm
      dsimp only
      rw [hix, ← hx, List.getElem?_append_right (by omega), Nat.add_sub_cancel_left, b1,
        Nat.zero_add]

end Gauche.Prog
