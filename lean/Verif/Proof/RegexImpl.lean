import Verif.Proof.RegexRun

/-!
# Code that implements a list of ways
-/

namespace Gauche.Regex

open Gauche.Utf8 Gauche.Spec.Utf8 Spec

/-- Positions and captures lie in the text. -/
def Valid (cfg : Cfg) (st : St) : Prop :=
  st.pos ≤ cfg.text.length ∧ ∀ g i j, st.caps g = some (i, j) → i ≤ j ∧ j ≤ cfg.text.length

/-- The submatches of the matcher stand for the captures.  `G` gives the start of the groups that are
open; their `endp` is not looked at. -/
def Rel (cfg : Cfg) (G : Nat → Option Nat) (c : Caps) (k : Nat → Option (Nat × Nat)) : Prop :=
  ∀ g, match G g with
    | some i => c.st g = some (boff cfg i)
    | none => c.st g = (k g).map (fun x => boff cfg x.1) ∧ c.en g = (k g).map (fun x => boff cfg x.2)

/-- Started at address `p` in state `st`, the matcher succeeds with `f`, or fails. -/
def Ends (cx : Ctx) (cfg : Cfg) (F : Nat → Option Nat) (p : Nat) (G : Nat → Option Nat) (st : St)
    (o : Option St) : Prop :=
  ∀ c, Rel cfg G c st.caps →
    match o with
    | some f => ∃ c', Runs cx p (boff cfg st.pos) c (.done (boff cfg f.pos) c') ∧ Rel cfg F c' f.caps
    | none => ∃ c', Runs cx p (boff cfg st.pos) c (.fail c') ∧ Rel cfg G c' st.caps

/-- The code from `p` to `q` implements `W`: the rest of the code is tried with each way in turn. -/
def Impl (cx : Ctx) (cfg : Cfg) (op : List Nat) (p q : Nat) (W : St → List St) : Prop :=
  ∀ (F G : Nat → Option Nat) (κ : St → Option St) (st : St), Valid cfg st →
    (∀ g, g ∉ op → G g = none) →
    (∀ t ∈ W st, Ends cx cfg F q G t (κ t)) →
    Ends cx cfg F p G st ((W st).findSome? κ)

/-- Ways stay in the text and do not go back. -/
def Pres (cfg : Cfg) (W : St → List St) : Prop :=
  ∀ st, Valid cfg st → ∀ t ∈ W st, Valid cfg t ∧ st.pos ≤ t.pos

section
variable {cx : Ctx} {cfg : Cfg} {op : List Nat}

theorem Impl.congr {p q : Nat} {W W' : St → List St} (h : Impl cx cfg op p q W)
    (e : ∀ st, Valid cfg st → W st = W' st) : Impl cx cfg op p q W' := by
  intro F G κ st hv hG hk
  rw [← e st hv] at hk ⊢
  exact h F G κ st hv hG hk

theorem impl_nil (p : Nat) : Impl cx cfg op p p (fun st => [st]) := by
  intro F G κ st _ _ hk
  have := hk st (by simp)
  have e : ([st].findSome? κ) = κ st := by simp [List.findSome?]; cases κ st <;> rfl
  rw [e]; exact this

theorem findSome?_flatMap' {α β γ : Type} (l : List α) (f : α → List β) (κ : β → Option γ) :
    (l.flatMap f).findSome? κ = l.findSome? (fun a => (f a).findSome? κ) := by
  induction l with
  | nil => rfl
  | cons a l ih =>
    rw [List.flatMap_cons, List.findSome?_append, List.findSome?_cons, ih]
    cases (f a).findSome? κ <;> rfl

theorem impl_comp {p q r : Nat} {W V : St → List St} (h1 : Impl cx cfg op p q W)
    (h2 : Impl cx cfg op q r V) (hp : Pres cfg W) :
    Impl cx cfg op p r (fun st => (W st).flatMap V) := by
  intro F G κ st hv hG hk
  rw [findSome?_flatMap']
  apply h1 F G _ st hv hG
  intro t ht
  apply h2 F G κ t (hp st hv t ht).1 hG
  intro u hu
  exact hk u (List.mem_flatMap.2 ⟨t, ht, hu⟩)

theorem pres_nil : Pres cfg (fun st => [st]) := by
  intro st hv t ht
  rw [List.mem_singleton] at ht; subst ht; exact ⟨hv, Nat.le_refl _⟩

theorem pres_comp {W V : St → List St} (h1 : Pres cfg W) (h2 : Pres cfg V) :
    Pres cfg (fun st => (W st).flatMap V) := by
  intro st hv t ht
  obtain ⟨u, hu, ht⟩ := List.mem_flatMap.1 ht
  obtain ⟨a, b⟩ := h1 st hv u hu
  obtain ⟨c, d⟩ := h2 u a t ht
  exact ⟨c, by omega⟩

/-- One instruction that goes on somewhere. -/
theorem ends_step {F G : Nat → Option Nat} {p q : Nat} {o : Op} {st t : St} {r : Option St}
    (ho : opTable[cx.at p]? = some o) (hc : t.caps = st.caps)
    (h : ∀ (rec : Nat → Nat → Caps → Res) (c : Caps), Rel cfg G c st.caps →
      exec rec cx o (p + 1) (boff cfg st.pos) c = rec q (boff cfg t.pos) c)
    (hk : Ends cx cfg F q G t r) : Ends cx cfg F p G st r := by
  intro c hr
  have hk := hk c (by rw [hc]; exact hr)
  cases r with
  | none =>
    obtain ⟨c', h1, h2⟩ := hk
    obtain ⟨f, hf⟩ := h1.eventually
    rw [hc] at h2
    refine ⟨c', Runs.step ho h1.1 ⟨f, fun f' hf' => ?_⟩, h2⟩
    rw [h _ c hr]; exact hf f' hf'
  | some x =>
    obtain ⟨c', h1, h2⟩ := hk
    obtain ⟨f, hf⟩ := h1.eventually
    refine ⟨c', Runs.step ho h1.1 ⟨f, fun f' hf' => ?_⟩, h2⟩
    rw [h _ c hr]; exact hf f' hf'

/-- One instruction that fails. -/
theorem ends_fail {F G : Nat → Option Nat} {p : Nat} {o : Op} {st : St}
    (ho : opTable[cx.at p]? = some o)
    (h : ∀ (rec : Nat → Nat → Caps → Res) (c : Caps), Rel cfg G c st.caps →
      exec rec cx o (p + 1) (boff cfg st.pos) c = .fail c) :
    Ends cx cfg F p G st none := by
  intro c hr
  refine ⟨c, Runs.step ho (by intro h'; cases h') ⟨0, fun f' _ => ?_⟩, hr⟩
  rw [h _ c hr]

/-- One instruction that moves on or fails. -/
theorem impl_det {p q : Nat} {o : Op} {nx : St → Option Nat}
    (ho : opTable[cx.at p]? = some o)
    (h : ∀ (rec : Nat → Nat → Caps → Res) (st : St) (c : Caps) (G : Nat → Option Nat),
      Valid cfg st → Rel cfg G c st.caps → (∀ g, g ∉ op → G g = none) →
      exec rec cx o (p + 1) (boff cfg st.pos) c =
        match nx st with
        | some j => rec q (boff cfg j) c
        | none => .fail c) :
    Impl cx cfg op p q (fun st => match nx st with
      | some j => [{ st with pos := j }]
      | none => []) := by
  intro F G κ st hv hG hk
  cases hn : nx st with
  | none =>
    simp only [hn, List.findSome?_nil]
    apply ends_fail ho
    intro rec c hr
    rw [h rec st c G hv hr hG, hn]
  | some j =>
    simp only [hn] at hk
    have hk := hk { st with pos := j } (by simp)
    have e : ([{ st with pos := j }].findSome? κ) = κ { st with pos := j } := by
      rw [List.findSome?_cons]; cases κ { st with pos := j } <;> rfl
    simp only [hn, e]
    refine ends_step (t := { st with pos := j }) ho rfl ?_ hk
    intro rec c hr
    rw [h rec st c G hv hr hG, hn]

/-- A condition. -/
theorem impl_test {p q : Nat} {o : Op} {b : St → Bool}
    (ho : opTable[cx.at p]? = some o)
    (h : ∀ (rec : Nat → Nat → Caps → Res) (st : St) (c : Caps), Valid cfg st →
      exec rec cx o (p + 1) (boff cfg st.pos) c =
        if b st then rec q (boff cfg st.pos) c else .fail c) :
    Impl cx cfg op p q (fun st => test (b st) st) := by
  have := impl_det (cx := cx) (cfg := cfg) (op := op) (p := p) (q := q)
    (nx := fun st => if b st then some st.pos else none) ho (by
      intro rec st c _ hv _ _
      rw [h rec st c hv]
      cases b st <;> rfl)
  apply this.congr
  intro st _
  unfold test
  cases b st <;> rfl

/-- One character. -/
theorem impl_one {p q : Nat} {o : Op} {P : Nat → Bool}
    (ho : opTable[cx.at p]? = some o)
    (h : ∀ (rec : Nat → Nat → Caps → Res) (i : Nat) (c : Caps), i ≤ cfg.text.length →
      exec rec cx o (p + 1) (boff cfg i) c =
        match cfg.text[i]? with
        | some x => if P x then rec q (boff cfg (i + 1)) c else .fail c
        | none => .fail c) :
    Impl cx cfg op p q (one cfg P) := by
  have := impl_det (cx := cx) (cfg := cfg) (op := op) (p := p) (q := q)
    (nx := fun st => match cfg.text[st.pos]? with
      | some x => if P x then some (st.pos + 1) else none
      | none => none) ho (by
      intro rec st c _ hv _ _
      rw [h rec st.pos c hv.1]
      cases cfg.text[st.pos]? with
      | none => rfl
      | some x => dsimp only; cases P x <;> rfl)
  apply this.congr
  intro st _
  unfold one
  cases cfg.text[st.pos]? with
  | none => rfl
  | some x => dsimp only; cases P x <;> rfl

theorem pres_one (P : Nat → Bool) : Pres cfg (one cfg P) := by
  intro st hv t ht
  unfold one at ht
  cases h : cfg.text[st.pos]? with
  | none => rw [h] at ht; simp at ht
  | some x =>
    rw [h] at ht
    dsimp only at ht
    have hl : st.pos < cfg.text.length := by
      rcases Nat.lt_or_ge st.pos cfg.text.length with h' | h'
      · exact h'
      · rw [List.getElem?_eq_none h'] at h; cases h
    cases hp : P x with
    | false => rw [hp] at ht; simp at ht
    | true =>
      rw [hp] at ht
      simp at ht
      subst ht
      exact ⟨⟨hl, hv.2⟩, Nat.le_succ _⟩

theorem pres_test (b : St → Bool) : Pres cfg (fun st => test (b st) st) := by
  intro st hv t ht
  unfold test at ht
  cases hb : b st with
  | false => simp [hb] at ht
  | true => simp [hb] at ht; subst ht; exact ⟨hv, Nat.le_refl _⟩

theorem pres_iter {f : St → List St} (h : Pres cfg f) (k : Nat) : Pres cfg (iter f k) := by
  induction k with
  | zero => exact pres_nil
  | succ k ih => exact pres_comp h ih

theorem pres_star {f : St → List St} (h : Pres cfg f) (n : Nat) : Pres cfg (star f n) := by
  induction n with
  | zero => exact pres_nil
  | succ n ih =>
    intro st hv t ht
    simp only [star, List.mem_append, List.mem_flatMap, List.mem_filter, List.mem_singleton] at ht
    rcases ht with ⟨u, ⟨hu, _⟩, ht⟩ | rfl
    · obtain ⟨a, b⟩ := h st hv u hu
      obtain ⟨c, d⟩ := ih u a t ht
      exact ⟨c, by omega⟩
    · exact ⟨hv, Nat.le_refl _⟩

theorem pres_starLazy {f : St → List St} (h : Pres cfg f) (n : Nat) :
    Pres cfg (starLazy f n) := by
  induction n with
  | zero => exact pres_nil
  | succ n ih =>
    intro st hv t ht
    simp only [starLazy, List.mem_cons, List.mem_flatMap, List.mem_filter] at ht
    rcases ht with rfl | ⟨u, ⟨hu, _⟩, ht⟩
    · exact ⟨hv, Nat.le_refl _⟩
    · obtain ⟨a, b⟩ := h st hv u hu
      obtain ⟨c, d⟩ := ih u a t ht
      exact ⟨c, by omega⟩

theorem pres_upTo {f : St → List St} (h : Pres cfg f) (n : Nat) : Pres cfg (upTo f n) := by
  intro st hv t ht
  obtain ⟨k, _, ht⟩ := List.mem_flatMap.1 ht
  exact pres_iter h k st hv t ht

theorem pres_upToLazy {f : St → List St} (h : Pres cfg f) (n : Nat) :
    Pres cfg (upToLazy f n) := by
  intro st hv t ht
  obtain ⟨k, _, ht⟩ := List.mem_flatMap.1 ht
  exact pres_iter h k st hv t ht

/-! ## jumps and choices -/

theorem ends_jump {F G : Nat → Option Nat} {p q : Nat} {st : St} {o : Option St}
    (ho : opTable[cx.at p]? = some .jump) (ht : cx.target (p + 1) = q)
    (h : Ends cx cfg F q G st o) : Ends cx cfg F p G st o := by
  intro c hc
  have h := h c hc
  cases o with
  | none =>
    obtain ⟨c', h1, h2⟩ := h
    obtain ⟨f, hf⟩ := h1.eventually
    refine ⟨c', Runs.step ho h1.1 ⟨f, fun f' hf' => ?_⟩, h2⟩
    simp only [exec, ht]; exact hf f' hf'
  | some x =>
    obtain ⟨c', h1, h2⟩ := h
    obtain ⟨f, hf⟩ := h1.eventually
    refine ⟨c', Runs.step ho h1.1 ⟨f, fun f' hf' => ?_⟩, h2⟩
    simp only [exec, ht]; exact hf f' hf'

theorem ends_try {F G : Nat → Option Nat} {p q : Nat} {st : St} {o1 o2 : Option St}
    (ho : opTable[cx.at p]? = some .try_) (ht : cx.target (p + 1) = q)
    (h1 : Ends cx cfg F (p + 3) G st o1) (h2 : Ends cx cfg F q G st o2) :
    Ends cx cfg F p G st (o1.or o2) := by
  intro c hc
  have h1 := h1 c hc
  cases o1 with
  | some x =>
    obtain ⟨c', g1, g2⟩ := h1
    obtain ⟨f, hf⟩ := g1.eventually
    refine ⟨c', Runs.step ho g1.1 ⟨f, fun f' hf' => ?_⟩, g2⟩
    simp only [exec]
    rw [show p + 1 + 2 = p + 3 from rfl, hf f' hf']
  | none =>
    obtain ⟨c', g1, g2⟩ := h1
    obtain ⟨f, hf⟩ := g1.eventually
    have h2 := h2 c' g2
    cases o2 with
    | some x =>
      obtain ⟨c2, k1, k2⟩ := h2
      obtain ⟨f2, hf2⟩ := k1.eventually
      refine ⟨c2, Runs.step ho k1.1 ⟨max f f2, fun f' hf' => ?_⟩, k2⟩
      simp only [exec]
      rw [show p + 1 + 2 = p + 3 from rfl, hf f' (by omega)]
      simp only [ht]; exact hf2 f' (by omega)
    | none =>
      obtain ⟨c2, k1, k2⟩ := h2
      obtain ⟨f2, hf2⟩ := k1.eventually
      refine ⟨c2, Runs.step ho k1.1 ⟨max f f2, fun f' hf' => ?_⟩, k2⟩
      simp only [exec]
      rw [show p + 1 + 2 = p + 3 from rfl, hf f' (by omega)]
      simp only [ht]; exact hf2 f' (by omega)

/-- `TRY q; W; JUMP r` at `p`, and `V` at `q`. -/
theorem impl_alt {p q r m : Nat} {W V : St → List St}
    (ho : opTable[cx.at p]? = some .try_) (ht : cx.target (p + 1) = q)
    (h1 : Impl cx cfg op (p + 3) m W)
    (hj : opTable[cx.at m]? = some .jump) (hjt : cx.target (m + 1) = r)
    (h2 : Impl cx cfg op q r V) :
    Impl cx cfg op p r (fun st => W st ++ V st) := by
  intro F G κ st hv hG hk
  rw [List.findSome?_append]
  apply ends_try ho ht
  · apply h1 F G κ st hv hG
    intro t ht'
    exact ends_jump hj hjt (hk t (List.mem_append_left _ ht'))
  · exact h2 F G κ st hv hG (fun t ht' => hk t (List.mem_append_right _ ht'))

/-- Progress. -/
def Prog (cfg : Cfg) (W : St → List St) : Prop :=
  ∀ st, Valid cfg st → ∀ t ∈ W st, st.pos < t.pos

theorem flatMap_ext {α β : Type} {l : List α} {f g : α → List β} (h : ∀ a ∈ l, f a = g a) :
    l.flatMap f = l.flatMap g := by
  induction l with
  | nil => rfl
  | cons a l ih =>
    rw [List.flatMap_cons, List.flatMap_cons, h a (by simp), ih fun b hb => h b (by simp [hb])]

theorem filter_prog {f : St → List St} (hg : Prog cfg f) {st : St} (hv : Valid cfg st) :
    (f st).filter (fun t => decide (st.pos < t.pos)) = f st :=
  List.filter_eq_self.2 fun t ht => by simpa using hg st hv t ht

theorem prog_end {f : St → List St} (hp : Pres cfg f) (hg : Prog cfg f) {st : St}
    (hv : Valid cfg st) (h : cfg.text.length - st.pos = 0) : f st = [] := by
  apply List.eq_nil_iff_forall_not_mem.2
  intro u hu
  have := hg st hv u hu
  have := (hp st hv u hu).1.1
  omega

theorem star_enough {f : St → List St} (hp : Pres cfg f) (hg : Prog cfg f) (n : Nat) :
    ∀ (m : Nat) (t : St), Valid cfg t → cfg.text.length - t.pos ≤ n →
      cfg.text.length - t.pos ≤ m → star f n t = star f m t := by
  induction n with
  | zero =>
    intro m t ht h _
    cases m with
    | zero => rfl
    | succ m => simp [star, prog_end hp hg ht (by omega)]
  | succ n ih =>
    intro m t ht h h'
    cases m with
    | zero => simp [star, prog_end hp hg ht (by omega)]
    | succ m =>
      simp only [star, filter_prog hg ht]
      congr 1
      apply flatMap_ext
      intro u hu
      have hl := hg t ht u hu
      have hu := (hp t ht u hu).1
      have := hu.1
      exact ih m u hu (by omega) (by omega)

theorem star_unfold {f : St → List St} (hp : Pres cfg f) (hg : Prog cfg f) {st : St}
    (hv : Valid cfg st) :
    star f (cfg.text.length - st.pos) st =
      (f st).flatMap (fun t => star f (cfg.text.length - t.pos) t) ++ [st] := by
  cases hr : cfg.text.length - st.pos with
  | zero => simp [star, prog_end hp hg hv hr]
  | succ n =>
    simp only [star, filter_prog hg hv]
    congr 1
    apply flatMap_ext
    intro u hu
    have hl := hg st hv u hu
    have hu := (hp st hv u hu).1
    exact star_enough hp hg _ _ u hu (by omega) (by omega)

theorem starLazy_enough {f : St → List St} (hp : Pres cfg f) (hg : Prog cfg f) (n : Nat) :
    ∀ (m : Nat) (t : St), Valid cfg t → cfg.text.length - t.pos ≤ n →
      cfg.text.length - t.pos ≤ m → starLazy f n t = starLazy f m t := by
  induction n with
  | zero =>
    intro m t ht h _
    cases m with
    | zero => rfl
    | succ m => simp [starLazy, prog_end hp hg ht (by omega)]
  | succ n ih =>
    intro m t ht h h'
    cases m with
    | zero => simp [starLazy, prog_end hp hg ht (by omega)]
    | succ m =>
      simp only [starLazy, filter_prog hg ht]
      congr 1
      apply flatMap_ext
      intro u hu
      have hl := hg t ht u hu
      have hu := (hp t ht u hu).1
      have := hu.1
      exact ih m u hu (by omega) (by omega)

theorem starLazy_unfold {f : St → List St} (hp : Pres cfg f) (hg : Prog cfg f) {st : St}
    (hv : Valid cfg st) :
    starLazy f (cfg.text.length - st.pos) st =
      st :: (f st).flatMap (fun t => starLazy f (cfg.text.length - t.pos) t) := by
  cases hr : cfg.text.length - st.pos with
  | zero => simp [starLazy, prog_end hp hg hv hr]
  | succ n =>
    simp only [starLazy, filter_prog hg hv]
    congr 1
    apply flatMap_ext
    intro u hu
    have hl := hg st hv u hu
    have hu := (hp st hv u hu).1
    exact starLazy_enough hp hg _ _ u hu (by omega) (by omega)

/-- `p: TRY q; W; JUMP p; q:` -/
theorem impl_star {p q m : Nat} {f : St → List St} (hp : Pres cfg f) (hg : Prog cfg f)
    (ho : opTable[cx.at p]? = some .try_) (ht : cx.target (p + 1) = q)
    (h1 : Impl cx cfg op (p + 3) m f)
    (hj : opTable[cx.at m]? = some .jump) (hjt : cx.target (m + 1) = p) :
    Impl cx cfg op p q (fun st => star f (cfg.text.length - st.pos) st) := by
  intro F G κ st hv hG hk
  dsimp only at hk ⊢
  obtain ⟨n, hn⟩ : ∃ n, cfg.text.length - st.pos ≤ n := ⟨_, Nat.le_refl _⟩
  revert hk
  induction n generalizing st with
  | zero =>
    intro hk
    rw [star_unfold hp hg hv] at hk ⊢
    rw [prog_end hp hg hv (by omega)] at hk ⊢
    simp only [List.flatMap_nil, List.nil_append] at hk ⊢
    have e : ([st].findSome? κ) = (none : Option St).or (κ st) := by
      rw [List.findSome?_cons]; cases κ st <;> rfl
    rw [e]
    apply ends_try ho ht
    · have := h1 F G κ st hv hG
      rw [prog_end hp hg hv (by omega)] at this
      exact this (by simp)
    · exact hk st (by simp)
  | succ n ih =>
    intro hk
    rw [star_unfold hp hg hv] at hk ⊢
    rw [List.findSome?_append, findSome?_flatMap']
    have e : ([st].findSome? κ) = κ st := by
      rw [List.findSome?_cons]; cases κ st <;> rfl
    rw [e]
    apply ends_try ho ht
    · apply h1 F G _ st hv hG
      intro t ht'
      apply ends_jump hj hjt
      have hl := hg st hv t ht'
      have hvt := (hp st hv t ht').1
      have := hvt.1
      apply ih t hvt (by omega)
      intro u hu
      exact hk u (List.mem_append_left _ (List.mem_flatMap.2 ⟨t, ht', hu⟩))
    · exact hk st (by simp)

/-- `p: TRY p+6; JUMP q; p+6: W; JUMP p; q:` -/
theorem impl_starLazy {p q m : Nat} {f : St → List St} (hp : Pres cfg f) (hg : Prog cfg f)
    (ho : opTable[cx.at p]? = some .try_) (ht : cx.target (p + 1) = p + 6)
    (ho' : opTable[cx.at (p + 3)]? = some .jump) (ht' : cx.target (p + 4) = q)
    (h1 : Impl cx cfg op (p + 6) m f)
    (hj : opTable[cx.at m]? = some .jump) (hjt : cx.target (m + 1) = p) :
    Impl cx cfg op p q (fun st => starLazy f (cfg.text.length - st.pos) st) := by
  intro F G κ st hv hG hk
  dsimp only at hk ⊢
  obtain ⟨n, hn⟩ : ∃ n, cfg.text.length - st.pos ≤ n := ⟨_, Nat.le_refl _⟩
  revert hk
  induction n generalizing st with
  | zero =>
    intro hk
    rw [starLazy_unfold hp hg hv] at hk ⊢
    rw [prog_end hp hg hv (by omega)] at hk ⊢
    simp only [List.flatMap_nil] at hk ⊢
    have e : ([st].findSome? κ) = (κ st).or none := by
      rw [List.findSome?_cons]; cases κ st <;> rfl
    rw [e]
    apply ends_try ho ht
    · exact ends_jump ho' ht' (hk st (by simp))
    · have := h1 F G κ st hv hG
      rw [prog_end hp hg hv (by omega)] at this
      exact this (by simp)
  | succ n ih =>
    intro hk
    rw [starLazy_unfold hp hg hv] at hk ⊢
    have e : ∀ l, ((st :: l).findSome? κ) = (κ st).or (l.findSome? κ) := by
      intro l
      rw [List.findSome?_cons]; cases κ st <;> rfl
    rw [e, findSome?_flatMap']
    apply ends_try ho ht
    · exact ends_jump ho' ht' (hk st (by simp))
    · apply h1 F G _ st hv hG
      intro t ht''
      apply ends_jump hj hjt
      have hl := hg st hv t ht''
      have hvt := (hp st hv t ht'').1
      have := hvt.1
      apply ih t hvt (by omega)
      intro u hu
      exact hk u (List.mem_cons_of_mem _ (List.mem_flatMap.2 ⟨t, ht'', hu⟩))
end

end Gauche.Regex
