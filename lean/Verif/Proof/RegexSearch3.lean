import Verif.Proof.RegexSearch2

/-!
# The search
-/

namespace Gauche.Regex

open Gauche.Utf8 Gauche.Spec.Utf8 Spec

section
variable {cx : Ctx} {cfg : Cfg} {ci br : Bool}

/-- The first of `h i`, `h (i + 1)`, ..., `h n`. -/
def IsFirst (h : Nat → Option St) (n i : Nat) (o : Option St) : Prop :=
  (o = none ∧ ∀ k, i ≤ k → k ≤ n → h k = none) ∨
    ∃ j t, i ≤ j ∧ j ≤ n ∧ h j = some t ∧ o = some t ∧ ∀ k, i ≤ k → k < j → h k = none

theorem IsFirst.extend {h : Nat → Option St} {n i i' : Nat} {o : Option St} (hf : IsFirst h n i' o)
    (hi : i ≤ i') (hn : ∀ k, i ≤ k → k < i' → h k = none) : IsFirst h n i o := by
  rcases hf with ⟨h1, h2⟩ | ⟨j, t, h1, h2, h3, h4, h5⟩
  · refine Or.inl ⟨h1, fun k hk hk' => ?_⟩
    rcases Nat.lt_or_ge k i' with hl | hl
    · exact hn k hk hl
    · exact h2 k hl hk'
  · refine Or.inr ⟨j, t, by omega, h2, h3, h4, fun k hk hk' => ?_⟩
    rcases Nat.lt_or_ge k i' with hl | hl
    · exact hn k hk hl
    · exact h5 k hl hk'

theorem findSome?_range_none {h : Nat → Option St} : ∀ n, (∀ k, k < n → h k = none) →
    (List.range n).findSome? h = none
  | 0, _ => rfl
  | n + 1, hk => by
    rw [List.range_succ, List.findSome?_append,
      findSome?_range_none n (fun k h' => hk k (by omega))]
    simp [hk n (by omega)]

theorem IsFirst.eq {h : Nat → Option St} {n : Nat} {o : Option St} (hf : IsFirst h n 0 o) :
    (List.range (n + 1)).findSome? h = o := by
  rcases hf with ⟨h1, h2⟩ | ⟨j, t, _, h2, h3, h4, h5⟩
  · rw [h1]
    exact findSome?_range_none _ fun k hk => h2 k (by omega) (by omega)
  · have : n + 1 = j + (1 + (n - j)) := by omega
    rw [this, List.range_add, List.findSome?_append,
      findSome?_range_none j (fun k hk => h5 k (by omega) hk), Option.none_or,
      List.range_add, List.map_append, List.findSome?_append]
    simp [h3, h4]

/-- An answer that is right from `i` on, if `O` does not hold. -/
def Loop (O : Prop) (cfg : Cfg) (h : Nat → Option St) (i : Nat) (ans : Answer) : Prop :=
  (O ∧ ans = .out) ∨ ∃ o, IsFirst h cfg.text.length i o ∧ Right cfg o ans

theorem Loop.extend {O : Prop} {h : Nat → Option St} {i i' : Nat} {ans : Answer}
    (hl : Loop O cfg h i' ans) (hi : i ≤ i') (hn : ∀ k, i ≤ k → k < i' → h k = none) :
    Loop O cfg h i ans :=
  hl.imp_right fun ⟨o, h1, h2⟩ => ⟨o, h1.extend hi hn, h2⟩

theorem loop_end {O : Prop} {h : Nat → Option St} {i : Nat} (hi : cfg.text.length < i) :
    Loop O cfg h i .notFound :=
  Or.inr ⟨none, Or.inl ⟨rfl, fun k h1 h2 => by omega⟩, rfl⟩

theorem loop_try {O : Prop} {h : Nat → Option St} {i : Nat} {r : Res} {k : Answer}
    (hi : i ≤ cfg.text.length)
    (hr : (O ∧ r = .out) ∨ Res.Fine cfg (h i) r) (hk : h i = none → Loop O cfg h i k) :
    Loop O cfg h i (orElse r k) := by
  rcases hr with ⟨ho, rfl⟩ | hr
  · exact Or.inl ⟨ho, rfl⟩
  · cases hh : h i with
    | none =>
      rw [hh] at hr
      obtain ⟨c, rfl⟩ := hr
      exact hk hh
    | some t =>
      rw [hh] at hr
      obtain ⟨c, rfl, hc⟩ := hr
      refine Or.inr ⟨some t, Or.inr ⟨i, t, Nat.le_refl _, hi, hh, rfl, fun k h1 h2 => by omega⟩,
        c, rfl, hc⟩

theorem next_start (S : Shows cx cfg ci br) {i c : Nat} (h : cfg.text[i]? = some c) :
    boff cfg i + nfollows (cx.mem (boff cfg i)) + 1 = boff cfg (i + 1) := by
  rw [boff_succ h, ← S.nfollows h]; omega

theorem text_at {i : Nat} (hi : i ≤ cfg.text.length) :
    i = cfg.text.length ∨ ∃ c, cfg.text[i]? = some c ∧ i < cfg.text.length := by
  rcases Nat.lt_or_ge i cfg.text.length with h | h
  · exact Or.inr ⟨cfg.text[i], List.getElem?_eq_getElem h, h⟩
  · exact Or.inl (by omega)

variable {fuel : Nat} {O : Prop} {h : Nat → Option St}

theorem searchAll_loop (S : Shows cx cfg ci br)
    (H : ∀ i, i ≤ cfg.text.length →
      (O ∧ rex cx fuel (boff cfg i) = .out) ∨ Res.Fine cfg (h i) (rex cx fuel (boff cfg i))) :
    ∀ (n i : Nat), i ≤ cfg.text.length → cx.stop < n + boff cfg i →
      Loop O cfg h i (searchAll cx fuel n (boff cfg i))
  | 0, i, hi, hn => by have := S.boff_le i; omega
  | n + 1, i, hi, hn => by
    simp only [searchAll]
    rw [if_pos (S.boff_le i)]
    apply loop_try hi (H i hi)
    intro hh
    rcases text_at hi with rfl | ⟨c, hc, hl⟩
    · have hs := (S.boff_stop (Nat.le_refl _)).2 rfl
      refine Loop.extend (i' := cfg.text.length + 1) ?_ (by omega) (fun k h1 h2 => by
        rw [show k = cfg.text.length by omega]; exact hh)
      have : searchAll cx fuel n (boff cfg cfg.text.length +
          nfollows (cx.mem (boff cfg cfg.text.length)) + 1) = .notFound := by
        cases n with
        | zero => rfl
        | succ n => simp only [searchAll]; rw [if_neg (by omega)]
      rw [this]
      exact loop_end (by omega)
    · rw [next_start S hc]
      refine Loop.extend (i' := i + 1) ?_ (by omega) (fun k h1 h2 => by
        rw [show k = i by omega]; exact hh)
      exact searchAll_loop S H n (i + 1) hl (by have := boff_lt (show i < i + 1 by omega) hl; omega)

/-- Skipping characters. -/
theorem skipInput_spec (S : Shows cx cfg ci br) (la : Nat → Bool) (skip : Bool) :
    ∀ (n i : Nat), i ≤ cfg.text.length → cx.stop < n + boff cfg i →
      ∃ j, skipInput cx la skip cx.stop n (boff cfg i) = boff cfg j ∧ i ≤ j ∧ j ≤ cfg.text.length ∧
        ∀ k, i ≤ k → k < j → ∃ c, cfg.text[k]? = some c ∧ la c = skip
  | 0, i, hi, hn => by have := S.boff_le i; omega
  | n + 1, i, hi, hn => by
    simp only [skipInput]
    rw [if_pos (S.boff_le i)]
    rcases text_at hi with rfl | ⟨c, hc, hl⟩
    · refine ⟨cfg.text.length, ?_, Nat.le_refl _, Nat.le_refl _, fun k h1 h2 => by omega⟩
      have hs := (S.boff_stop (Nat.le_refl _)).2 rfl
      have : skipInput cx la skip cx.stop n (boff cfg cfg.text.length +
          Utf8.nfollows (cx.mem (boff cfg cfg.text.length)) + 1) = cx.stop := by
        cases n with
        | zero => rfl
        | succ n => simp only [skipInput]; rw [if_neg (by omega)]
      rw [this, hs]
      exact ite_self _
    · rw [S.getc hc, next_start S hc]
      dsimp only
      by_cases hb : (la c != skip) = true
      · rw [if_pos hb]
        exact ⟨i, rfl, Nat.le_refl _, hi, fun k h1 h2 => by omega⟩
      · rw [if_neg hb]
        obtain ⟨j, h1, h2, h3, h4⟩ := skipInput_spec S la skip n (i + 1) hl
          (by have := boff_lt (show i < i + 1 by omega) hl; omega)
        refine ⟨j, h1, by omega, h3, fun k hk hk' => ?_⟩
        rcases Nat.lt_or_ge i k with hik | hik
        · exact h4 k hik hk'
        · rw [show k = i by omega]
          exact ⟨c, hc, by simpa using hb⟩

theorem searchLa_loop (S : Shows cx cfg ci br)
    (H : ∀ i, i ≤ cfg.text.length →
      (O ∧ rex cx fuel (boff cfg i) = .out) ∨ Res.Fine cfg (h i) (rex cx fuel (boff cfg i)))
    {la : Nat → Bool} (hla : ∀ i c, cfg.text[i]? = some c → la c = false → h i = none) :
    ∀ (n i : Nat), i ≤ cfg.text.length → cx.stop < n + boff cfg i →
      Loop O cfg h i (searchLa cx fuel la n (boff cfg i))
  | 0, i, hi, hn => by have := S.boff_le i; omega
  | n + 1, i, hi, hn => by
    simp only [searchLa]
    rw [if_pos (S.boff_le i)]
    obtain ⟨j, h1, h2, h3, h4⟩ := skipInput_spec S la false (cx.stop + 1) i hi
      (by have := S.boff_le i; omega)
    rw [h1]
    refine Loop.extend (i' := j) ?_ h2 (fun k hk hk' => by
      obtain ⟨c, hc, hf⟩ := h4 k hk hk'
      exact hla k c hc hf)
    apply loop_try h3 (H j h3)
    intro hh
    have hmono := boff_mono (cfg := cfg) h2
    rcases text_at h3 with rfl | ⟨c, hc, hl⟩
    · have hs := (S.boff_stop (Nat.le_refl _)).2 rfl
      refine Loop.extend (i' := cfg.text.length + 1) ?_ (by omega) (fun k h1 h2 => by
        rw [show k = cfg.text.length by omega]; exact hh)
      have : searchLa cx fuel la n (boff cfg cfg.text.length +
          nfollows (cx.mem (boff cfg cfg.text.length)) + 1) = .notFound := by
        cases n with
        | zero => rfl
        | succ n => simp only [searchLa]; rw [if_neg (by omega)]
      rw [this]
      exact loop_end (by omega)
    · rw [next_start S hc]
      refine Loop.extend (i' := j + 1) ?_ (by omega) (fun k h1 h2 => by
        rw [show k = j by omega]; exact hh)
      exact searchLa_loop S H hla n (j + 1) hl (by have := boff_lt (show j < j + 1 by omega) hl; omega)

theorem searchSimple_loop (S : Shows cx cfg ci br)
    (H : ∀ i, i ≤ cfg.text.length →
      (O ∧ rex cx fuel (boff cfg i) = .out) ∨ Res.Fine cfg (h i) (rex cx fuel (boff cfg i)))
    {la : Nat → Bool}
    (hrun : ∀ i c d, cfg.text[i]? = some c → la c = true → cfg.text[i + 1]? = some d →
      la d = true → h i = none → h (i + 1) = none) :
    ∀ (n i : Nat), i ≤ cfg.text.length → cx.stop < n + boff cfg i →
      Loop O cfg h i (searchSimple cx fuel la n (boff cfg i))
  | 0, i, hi, hn => by have := S.boff_le i; omega
  | n + 1, i, hi, hn => by
    simp only [searchSimple]
    rw [if_pos (S.boff_le i)]
    apply loop_try hi (H i hi)
    intro hh
    obtain ⟨j, h1, h2, h3, h4⟩ := skipInput_spec S la true (cx.stop + 1) i hi
      (by have := S.boff_le i; omega)
    rw [h1]
    by_cases hij : i = j
    · subst hij
      rw [if_neg (by simp)]
      rcases text_at hi with rfl | ⟨c, hc, hl⟩
      · have hs := (S.boff_stop (Nat.le_refl _)).2 rfl
        refine Loop.extend (i' := cfg.text.length + 1) ?_ (by omega) (fun k h1 h2 => by
          rw [show k = cfg.text.length by omega]; exact hh)
        have : searchSimple cx fuel la n (boff cfg cfg.text.length +
            nfollows (cx.mem (boff cfg cfg.text.length)) + 1) = .notFound := by
          cases n with
          | zero => rfl
          | succ n => simp only [searchSimple]; rw [if_neg (by omega)]
        rw [this]
        exact loop_end (by omega)
      · rw [next_start S hc]
        refine Loop.extend (i' := i + 1) ?_ (by omega) (fun k h1 h2 => by
          rw [show k = i by omega]; exact hh)
        exact searchSimple_loop S H hrun n (i + 1) hl
          (by have := boff_lt (show i < i + 1 by omega) hl; omega)
    · have hlt : i < j := by omega
      have hb := boff_lt (cfg := cfg) hlt h3
      rw [if_pos (by omega)]
      refine Loop.extend (i' := j) ?_ h2 ?_
      · exact searchSimple_loop S H hrun n j h3 (by omega)
      · intro k hk
        induction hk with
        | refl => intro _; exact hh
        | @step k hk ih =>
          intro hk'
          obtain ⟨c, hc, hlc⟩ := h4 k hk (by omega)
          obtain ⟨d, hd, hld⟩ := h4 (k + 1) (Nat.le_succ_of_le hk) hk'
          exact hrun k c d hc hlc hd hld (ih (by omega))

end

section
variable {cfg : Cfg} {mem : Mem} {stop : Nat} {e : GEnv} {L : Lim} {up : Nat → Nat}

/-- The search with a compiled pattern `a`. -/
theorem regExec_loop {rx : Rx} {a : Ast} (hrx : rc3 e a = some rx)
    (hin : InMemory cfg mem stop L.ci L.br) (hok : ok L a false [] = true)
    (hmu : e.multi = cfg.multi) (hbr : L.br = true → simplePrefixed a = false)
    {h : Nat → Option St} (hh : ∀ i, h i = (ways cfg a false true (St.start i)).head?)
    {O : Prop} {fuel : Nat}
    (H : ∀ i, i ≤ cfg.text.length →
      (O ∧ rex (rx.ctx mem stop cfg.down up) fuel (boff cfg i) = .out) ∨
        Res.Fine cfg (h i) (rex (rx.ctx mem stop cfg.down up) fuel (boff cfg i))) :
    Loop O cfg h 0 (regExec rx mem stop cfg.down up fuel) := by
  unfold rc3 at hrx
  dsimp only at hrx
  rw [Option.map_eq_some_iff] at hrx
  obtain ⟨code, _, hrx⟩ := hrx
  have hmul : rx.multi = e.multi := by rw [← hrx]
  have hS := inMemory_shows hin (up := up) (rx := rx) (hmul.trans hmu)
  have hnone : ∀ i, h i = none ↔ ways cfg a false true (St.start i) = [] := by
    intro i; rw [hh i]; exact List.head?_eq_none_iff
  unfold regExec
  dsimp only
  have hz := boff_zero (cfg := cfg)
  by_cases hanc : rx.bolAnchored = true
  · rw [if_pos hanc]
    have h0 := H 0 (Nat.zero_le _)
    rw [hz] at h0
    refine loop_try (Nat.zero_le _) h0 fun hn => ?_
    refine Or.inr ⟨none, Or.inl ⟨rfl, fun k _ _ => ?_⟩, rfl⟩
    rw [hnone]
    refine Classical.byContradiction fun hne => ?_
    obtain ⟨t, ht⟩ := List.exists_mem_of_ne_nil _ hne
    have hk0 : (St.start k).pos = 0 := by
      rw [← hrx] at hanc
      simp only [Bool.or_eq_true, Bool.and_eq_true] at hanc
      rcases hanc with hb | ⟨hm, hb⟩
      · exact anchored_zero bos_zero a _ _ _ t hb ht
      · refine anchored_zero (bol_zero ?_) a _ _ _ t hb ht
        rw [← hmu]; simpa using hm
    have : k = 0 := hk0
    subst this
    exact hne ((hnone 0).1 hn)
  · rw [if_neg hanc]
    have hla : rx.laset = laset none a := by rw [← hrx]
    have hfirst : ∀ la, laset none a = some la → ∀ i c, cfg.text[i]? = some c → la c = false →
        h i = none := by
      intro la hl i c hc hf
      rw [hnone]
      refine Classical.byContradiction fun hne => ?_
      obtain ⟨t, ht⟩ := List.exists_mem_of_ne_nil _ hne
      rcases laset_first a none la true _ t hl ht with ⟨c', hc', hp⟩ | ⟨_, _, h', _⟩
      · have : cfg.text[i]? = some c' := hc'
        rw [hc] at this
        injection this with this
        rw [← this, hf] at hp
        cases hp
      · cases h'
    cases hl : rx.laset with
    | none =>
      dsimp only
      have := searchAll_loop hS H (stop + 1) 0 (Nat.zero_le _) (by show stop < _; omega)
      rw [hz] at this
      exact this
    | some la =>
      dsimp only
      rw [hla] at hl
      by_cases hsim : rx.simple = true
      · rw [if_pos hsim]
        have hsp : simplePrefixed a = true := by
          rw [← hrx] at hsim
          simp only [Bool.and_eq_true] at hsim
          exact hsim.2
        have hbr' : L.br = false := by
          cases hb : L.br with
          | false => rfl
          | true => rw [hbr hb] at hsp; cases hsp
        have := searchSimple_loop hS H (la := la) (by
          intro i c d hc hlc hd hld hn
          rw [hnone] at hn ⊢
          have := simple_next hbr' a none [] la true (St.start i) c d hsp hok hl hc hlc hd hld
          have e : ({ St.start i with pos := (St.start i).pos + 1 } : St) = St.start (i + 1) := rfl
          rw [e, hn] at this
          simpa [spots] using this) (stop + 1) 0 (Nat.zero_le _) (by show stop < _; omega)
        rw [hz] at this
        exact this
      · rw [if_neg hsim]
        have := searchLa_loop hS H (la := la) (hfirst la hl) (stop + 1) 0 (Nat.zero_le _)
          (by show stop < _; omega)
        rw [hz] at this
        exact this

theorem rc3_made {a : Ast} {rx : Rx} (h : rc3 e a = some rx) : Made e a rx := by
  unfold rc3 at h
  dsimp only at h
  rw [Option.map_eq_some_iff] at h
  obtain ⟨code, hc, rfl⟩ := h
  exact ⟨hc, rfl, rfl⟩

/-- A bound for finitely many bounds. -/
theorem exists_bound {P : Nat → Nat → Prop} (h : ∀ i, ∃ f, ∀ f', f ≤ f' → P i f') :
    ∀ n, ∃ f, ∀ f', f ≤ f' → ∀ i, i ≤ n → P i f'
  | 0 => by
    obtain ⟨f, hf⟩ := h 0
    exact ⟨f, fun f' hl i hi => by rw [Nat.le_zero.1 hi]; exact hf f' hl⟩
  | n + 1 => by
    obtain ⟨f, hf⟩ := exists_bound h n
    obtain ⟨g, hg⟩ := h (n + 1)
    refine ⟨max f g, fun f' hl i hi => ?_⟩
    rcases Nat.lt_or_ge n i with h' | h'
    · rw [show i = n + 1 by omega]; exact hg f' (by omega)
    · exact hf f' (by omega) i h'

/-- The answer of the whole search. -/
theorem regExec_right {rx : Rx} {a : Ast} (hrx : rc3 e a = some rx)
    (hin : InMemory cfg mem stop L.ci L.br) (hok : ok L a false [] = true)
    (hc : e.charMax ≤ 250) (hs : L.sets = e.sets) (hf : e.sets.length ≤ 256)
    (hmu : e.multi = cfg.multi) (hlm : L.multi = cfg.multi)
    (hbr : L.br = true → simplePrefixed a = false) :
    (∀ fuel, regExec rx mem stop cfg.down up fuel = .out ∨
      Right cfg (leftmost cfg a) (regExec rx mem stop cfg.down up fuel)) ∧
    ∃ f, ∀ fuel, f ≤ fuel → Right cfg (leftmost cfg a) (regExec rx mem stop cfg.down up fuel) := by
  have hm := rc3_made hrx
  have hfine := fun i (hi : i ≤ cfg.text.length) =>
    rex_fine (up := up) hm hin hok hc hs hf hmu hlm hi
  have conv : ∀ {O : Prop} {fuel : Nat}, Loop O cfg
        (fun i => (ways cfg a false true (St.start i)).head?) 0
        (regExec rx mem stop cfg.down up fuel) →
      (O ∧ regExec rx mem stop cfg.down up fuel = .out) ∨
        Right cfg (leftmost cfg a) (regExec rx mem stop cfg.down up fuel) := by
    intro O fuel hl
    refine hl.imp_right ?_
    rintro ⟨o, h1, h2⟩
    unfold leftmost
    rw [h1.eq]; exact h2
  constructor
  · intro fuel
    have := conv (O := True) (regExec_loop (up := up) (fuel := fuel) hrx hin hok hmu hbr
      (fun i => rfl) (by
        intro i hi
        obtain ⟨r, h1, _, h3⟩ := hfine i hi
        rcases h1 fuel with h1 | h1
        · exact Or.inl ⟨trivial, h1⟩
        · exact Or.inr (by rw [h1]; exact h3)))
    exact this.imp_left And.right
  · have : ∀ i, ∃ f, ∀ f', f ≤ f' → i ≤ cfg.text.length →
        Res.Fine cfg (ways cfg a false true (St.start i)).head?
          (rex (rx.ctx mem stop cfg.down up) f' (boff cfg i)) := by
      intro i
      by_cases hi : i ≤ cfg.text.length
      · obtain ⟨r, _, ⟨f, h2⟩, h3⟩ := hfine i hi
        exact ⟨f, fun f' hl _ => by rw [h2 f' hl]; exact h3⟩
      · exact ⟨0, fun f' _ h => absurd h hi⟩
    obtain ⟨f, hb⟩ := exists_bound this cfg.text.length
    refine ⟨f, fun fuel hl => ?_⟩
    have := conv (O := False) (regExec_loop (up := up) (fuel := fuel) hrx hin hok hmu hbr
      (fun i => rfl) (fun i hi => Or.inr (hb fuel hl i hi hi)))
    exact this.resolve_left fun h => h.1

end
end Gauche.Regex
