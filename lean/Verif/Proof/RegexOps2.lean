import Verif.Proof.RegexOps

/-!
# Scanning loops, backreferences, groups and lookahead
-/

namespace Gauche.Regex

open Gauche.Utf8 Gauche.Spec.Utf8 Spec

section
variable {cx : Ctx} {cfg : Cfg} {op : List Nat} {ci br : Bool}

/-! ## scans -/

/-- Where the characters that satisfy `P` end. -/
def scanTo (cfg : Cfg) (P : Nat → Bool) : Nat → Nat → Nat
  | 0, i => i
  | n + 1, i =>
    match cfg.text[i]? with
    | some x => if P x then scanTo cfg P n (i + 1) else i
    | none => i

theorem star_one_take (P : Nat → Bool) (n : Nat) (st : St) :
    (star (one cfg P) n st).take 1 = [{ st with pos := scanTo cfg P n st.pos }] := by
  induction n generalizing st with
  | zero => rfl
  | succ n ih =>
    simp only [star, scanTo, one]
    cases h : cfg.text[st.pos]? with
    | none => rfl
    | some x =>
      dsimp only
      by_cases hp : P x = true
      · rw [if_pos hp, if_pos hp]
        have : ([{ st with pos := st.pos + 1 }].filter fun t => decide (st.pos < t.pos)) =
            [{ st with pos := st.pos + 1 }] := by simp
        rw [this]
        simp only [List.flatMap_cons, List.flatMap_nil, List.append_nil]
        have ih := ih { st with pos := st.pos + 1 }
        cases hs : star (one cfg P) n { st with pos := st.pos + 1 } with
        | nil => rw [hs] at ih; simp at ih
        | cons a l =>
          rw [hs] at ih
          simpa using ih
      · rw [if_neg hp, if_neg hp]; rfl

theorem scanTo_enough (P : Nat → Bool) (n : Nat) : ∀ (m i : Nat),
    cfg.text.length - i ≤ n → cfg.text.length - i ≤ m → scanTo cfg P n i = scanTo cfg P m i := by
  induction n with
  | zero =>
    intro m i h _
    cases m with
    | zero => rfl
    | succ m =>
      simp only [scanTo]
      rw [List.getElem?_eq_none (by omega)]
  | succ n ih =>
    intro m i h h'
    cases m with
    | zero =>
      simp only [scanTo]
      rw [List.getElem?_eq_none (by omega)]
    | succ m =>
      simp only [scanTo]
      rw [ih m (i + 1) (by omega) (by omega)]

theorem scanTo_le (P : Nat → Bool) (n : Nat) : ∀ i, i ≤ cfg.text.length →
    i ≤ scanTo cfg P n i ∧ scanTo cfg P n i ≤ cfg.text.length := by
  induction n with
  | zero => intro i hi; exact ⟨Nat.le_refl _, hi⟩
  | succ n ih =>
    intro i hi
    simp only [scanTo]
    cases h : cfg.text[i]? with
    | none => exact ⟨Nat.le_refl _, hi⟩
    | some x =>
      dsimp only
      have := getElem?_lt h
      by_cases hp : P x = true
      · rw [if_pos hp]; have := ih (i + 1) (by omega); omega
      · rw [if_neg hp]; exact ⟨Nat.le_refl _, hi⟩

theorem scan_eq {adv : Nat → Option Nat} {P : Nat → Bool}
    (h : ∀ i, i ≤ cfg.text.length → adv (boff cfg i) =
      match cfg.text[i]? with
      | some x => if P x then some (boff cfg (i + 1)) else none
      | none => none) (n : Nat) : ∀ i, i ≤ cfg.text.length →
    scan adv n (boff cfg i) = boff cfg (scanTo cfg P n i) := by
  induction n with
  | zero => intro i _; rfl
  | succ n ih =>
    intro i hi
    simp only [scan, scanTo, h i hi]
    cases ht : cfg.text[i]? with
    | none => rfl
    | some x =>
      dsimp only
      have := getElem?_lt ht
      by_cases hp : P x = true
      · rw [if_pos hp, if_pos hp]; exact ih (i + 1) (by omega)
      · rw [if_neg hp, if_neg hp]

theorem chars_le_bytes (S : Shows cx cfg ci br) {i : Nat} (hi : i ≤ cfg.text.length) :
    cfg.text.length - i ≤ cx.stop - boff cfg i := by
  rw [← length_from S]
  have : ∀ l : List Nat, l.length ≤ (encodeAll l).length := by
    intro l
    induction l with
    | nil => simp
    | cons d l ih =>
      rw [encodeAll_cons, List.length_append, encode_length, List.length_cons]
      have := nbytes_pos d; omega
  have := this (cfg.text.drop i)
  rw [List.length_drop] at this
  exact this

/-- A scanning instruction. -/
theorem impl_scan (S : Shows cx cfg ci br) {p q : Nat} {o : Op} {P : Nat → Bool}
    {adv : Nat → Option Nat} (ho : opTable[cx.at p]? = some o)
    (he : ∀ (rec : Nat → Nat → Caps → Res) (pos : Nat) (c : Caps),
      exec rec cx o (p + 1) pos c = rec q (scan adv (cx.stop - pos) pos) c)
    (h : ∀ i, i ≤ cfg.text.length → adv (boff cfg i) =
      match cfg.text[i]? with
      | some x => if P x then some (boff cfg (i + 1)) else none
      | none => none) :
    Impl cx cfg op p q (fun st => (star (one cfg P) (cfg.text.length - st.pos) st).take 1) := by
  have := impl_det (cx := cx) (cfg := cfg) (op := op) (p := p) (q := q)
    (nx := fun st => some (scanTo cfg P (cfg.text.length - st.pos) st.pos)) ho (by
      intro rec st c _ hv _ _
      rw [he, scan_eq h _ _ hv.1]
      dsimp only
      rw [scanTo_enough P _ (cfg.text.length - st.pos) st.pos (chars_le_bytes S hv.1)
        (Nat.le_refl _)])
  apply this.congr
  intro st _
  rw [star_one_take]

theorem le_stop_iff (S : Shows cx cfg ci br) {i : Nat} (hi : i ≤ cfg.text.length) :
    cx.stop ≤ boff cfg i ↔ cfg.text[i]? = none := by
  have := S.boff_le i
  rw [List.getElem?_eq_none_iff]
  have h2 := S.boff_stop hi
  constructor
  · intro h; have := h2.1 (by omega); omega
  · intro h; have := h2.2 (by omega); omega

theorem impl_anyr (S : Shows cx cfg ci br) {p : Nat} (ho : opTable[cx.at p]? = some .anyr) :
    Impl cx cfg op p (p + 1)
      (fun st => (star (one cfg fun _ => true) (cfg.text.length - st.pos) st).take 1) := by
  refine impl_scan S ho (fun rec pos c => rfl) ?_
  intro i hi
  have hs := le_stop_iff S hi
  cases h : cfg.text[i]? with
  | none => dsimp only; rw [if_pos (hs.2 h)]
  | some x =>
    dsimp only
    rw [if_neg (fun h' => by rw [hs.1 h'] at h; cases h), if_pos rfl, boff_succ h, ← S.nfollows h,
      Nat.add_assoc]

theorem impl_set1r (S : Shows cx cfg ci br) {p : Nat} {s : CSet}
    (ho : opTable[cx.at p]? = some .set1r) (hset : cx.setAt (p + 1) = s) (hl : s.large = false) :
    Impl cx cfg op p (p + 2)
      (fun st => (star (one cfg (inSet s)) (cfg.text.length - st.pos) st).take 1) := by
  refine impl_scan S ho (fun rec pos c => rfl) ?_
  intro i hi
  have hs := le_stop_iff S hi
  simp only [hset]
  cases h : cfg.text[i]? with
  | none => dsimp only; rw [if_pos (hs.2 h)]
  | some x =>
    dsimp only
    rw [if_neg (fun h' => by rw [hs.1 h'] at h; cases h)]
    have hb := S.byte h
    by_cases hx : x < 128
    · rw [hb.1 hx, if_neg (by omega), boff_succ h, nbytes_small hx, inSet_eq]
    · rw [if_pos (by have := hb.2 (by omega); omega), inSet_eq, has_small hl (by omega)]; rfl

theorem impl_setr (S : Shows cx cfg ci br) {p : Nat} {s : CSet}
    (ho : opTable[cx.at p]? = some .setr) (hset : cx.setAt (p + 1) = s) :
    Impl cx cfg op p (p + 2)
      (fun st => (star (one cfg (inSet s)) (cfg.text.length - st.pos) st).take 1) := by
  refine impl_scan S ho (fun rec pos c => rfl) ?_
  intro i hi
  have hs := le_stop_iff S hi
  simp only [hset]
  cases h : cfg.text[i]? with
  | none => dsimp only; rw [if_pos (hs.2 h)]
  | some x =>
    dsimp only
    rw [if_neg (fun h' => by rw [hs.1 h'] at h; cases h), S.getc h]
    by_cases hh : s.has x = true
    · simp [hasOpt, nbytesOpt, boff_succ h, inSet_eq, hh]
    · simp [hasOpt, nbytesOpt, boff_succ h, inSet_eq, hh]

theorem impl_nsetr (S : Shows cx cfg ci br) {p : Nat} {s : CSet}
    (ho : opTable[cx.at p]? = some .nsetr) (hset : cx.setAt (p + 1) = s) :
    Impl cx cfg op p (p + 2)
      (fun st => (star (one cfg fun x => !inSet s x) (cfg.text.length - st.pos) st).take 1) := by
  refine impl_scan S ho (fun rec pos c => rfl) ?_
  intro i hi
  have hs := le_stop_iff S hi
  simp only [hset]
  cases h : cfg.text[i]? with
  | none => dsimp only; rw [if_pos (hs.2 h)]
  | some x =>
    dsimp only
    rw [if_neg (fun h' => by rw [hs.1 h'] at h; cases h), S.getc h]
    by_cases hh : s.has x = true
    · simp [hasOpt, nbytesOpt, boff_succ h, inSet_eq, hh]
    · simp [hasOpt, nbytesOpt, boff_succ h, inSet_eq, hh]

theorem impl_match1r (S : Shows cx cfg ci br) {p k : Nat} (hk : k < 128)
    (ho : opTable[cx.at p]? = some .match1r) (hn : cx.at (p + 1) = k) :
    Impl cx cfg op p (p + 2)
      (fun st => (star (one cfg fun x => x == k) (cfg.text.length - st.pos) st).take 1) := by
  refine impl_scan S ho (fun rec pos c => rfl) ?_
  intro i hi
  have hs := le_stop_iff S hi
  simp only [hn]
  cases h : cfg.text[i]? with
  | none => dsimp only; rw [if_pos (hs.2 h)]
  | some x =>
    dsimp only
    rw [if_neg (fun h' => by rw [hs.1 h'] at h; cases h)]
    have hb := S.byte h
    by_cases hx : x < 128
    · rw [hb.1 hx, if_neg (by omega), boff_succ h, nbytes_small hx]
      by_cases e : k = x
      · subst e; simp
      · rw [if_neg e, if_neg (by simp [Ne.symm e])]
    · rw [if_pos (by have := hb.2 (by omega); omega), if_neg (by simp; omega)]

theorem impl_matchr (S : Shows cx cfg ci br) {p k : Nat} (hk : IsCode k)
    (ho : opTable[cx.at p]? = some .matchr) (hn : cx.at (p + 1) = nbytes k)
    (hat : At cx (p + 2) (encode k)) :
    Impl cx cfg op p (p + 2 + nbytes k)
      (fun st => (star (one cfg fun x => x == k) (cfg.text.length - st.pos) st).take 1) := by
  refine impl_scan (adv := fun i => if cx.stop < i + nbytes k then none
      else if cx.same (p + 2) i (nbytes k) then some (i + nbytes k) else none)
    S ho (fun rec pos c => by simp only [exec, hn]) ?_
  intro i hi
  have he : encodeAll [k] = encode k := by simp [encodeAll]
  have hlen : (encodeAll [k]).length = nbytes k := by rw [he, encode_length]
  have hrun := runTo_prefix (cfg := cfg) [k] i
  have key : runTo cfg false [k] i = match cfg.text[i]? with
      | some x => if (x == k) = true then some (i + 1) else none
      | none => none := rfl
  rw [key] at hrun
  by_cases hb : cx.stop < boff cfg i + nbytes k
  · rw [if_pos hb]
    have : ¬ [k] <+: cfg.text.drop i := fun h => by
      have := prefix_fits S hi h
      omega
    rw [if_neg this] at hrun
    cases h : cfg.text[i]? with
    | none => rfl
    | some x =>
      rw [h] at hrun
      dsimp only at hrun ⊢
      by_cases e : (x == k) = true
      · rw [if_pos e] at hrun; cases hrun
      · rw [if_neg e]
  · rw [if_neg hb]
    have hsame := same_run S (l := [k]) (by simpa using hk) (pc := p + 2) (i := i)
      (by rw [he]; exact hat) (by omega)
    rw [hlen] at hsame
    by_cases hp : [k] <+: cfg.text.drop i
    · rw [if_pos (hsame.2 hp)]
      rw [if_pos hp] at hrun
      have hadd := boff_add (cfg := cfg) hp
      rw [hlen] at hadd
      cases h : cfg.text[i]? with
      | none => rw [h] at hrun; cases hrun
      | some x =>
        rw [h] at hrun
        dsimp only at hrun ⊢
        by_cases e : (x == k) = true
        · rw [if_pos e, ← hadd]; rfl
        · rw [if_neg e] at hrun; cases hrun
    · rw [if_neg (fun h => hp (hsame.1 h))]
      rw [if_neg hp] at hrun
      cases h : cfg.text[i]? with
      | none => rfl
      | some x =>
        rw [h] at hrun
        dsimp only at hrun ⊢
        by_cases e : (x == k) = true
        · rw [if_pos e] at hrun; cases hrun
        · rw [if_neg e]

/-! ## backreferences -/

theorem impl_backref (S : Shows cx cfg ci br) (hbr : br = true) {p g : Nat} (hg : g ∉ op)
    (ho : opTable[cx.at p]? = some .backref) (hn : cx.at (p + 1) = g) :
    Impl cx cfg op p (p + 2) (fun st =>
      match st.caps g with
      | some (i, j) =>
        if (cfg.text.drop st.pos).take (j - i) == (cfg.text.drop i).take (j - i) then
          [{ st with pos := st.pos + (j - i) }]
        else []
      | none => []) := by
  have := impl_det (cx := cx) (cfg := cfg) (op := op) (p := p) (q := p + 2)
    (nx := fun st => match st.caps g with
      | some (i, j) =>
        if (cfg.text.drop st.pos).take (j - i) == (cfg.text.drop i).take (j - i) then
          some (st.pos + (j - i))
        else none
      | none => none) ho (by
      intro rec st c G hv hr hG
      have hrg := hr g
      rw [hG g hg] at hrg
      simp only [exec, hn, hrg.1, hrg.2]
      cases hc : st.caps g with
      | none => rfl
      | some x =>
        obtain ⟨i, j⟩ := x
        obtain ⟨hij, hj⟩ := hv.2 g i j hc
        simp only [Option.map_some]
        generalize hw : (cfg.text.drop i).take (j - i) = w
        have hwl : w.length = j - i := by rw [← hw]; simp; omega
        have hwp : w <+: cfg.text.drop i := by rw [← hw]; exact List.take_prefix _ _
        have hlen : boff cfg j - boff cfg i = (encodeAll w).length := by
          have := boff_add hwp
          rw [hwl, show i + (j - i) = j by omega] at this
          omega
        have hcode : ∀ c ∈ w, IsCode c := fun c hc =>
          S.codes c (List.mem_of_mem_drop (hwp.subset hc))
        -- the bytes of the group
        have hold : ∀ k (hk : k < (encodeAll w).length), cx.mem (boff cfg i + k) = (encodeAll w)[k] :=
          ((holds_prefix (S.holdsFrom i)).1
            ((encodeAll_prefix hcode (fun c hc => S.codes c (List.mem_of_mem_drop hc))).2 hwp)).2
        have hmem : ∀ b ∈ encodeAll w, b ∈ encodeAll cfg.text := by
          intro b hb
          obtain ⟨c, hc, hb⟩ := List.mem_flatMap.1 hb
          exact List.mem_flatMap.2 ⟨c, List.mem_of_mem_drop (hwp.subset hc), hb⟩
        have hiff : ((List.range (boff cfg j - boff cfg i)).all fun k =>
            cx.mem (boff cfg st.pos + k) == cx.mem (boff cfg i + k)) = true ↔
            w <+: cfg.text.drop st.pos := by
          rw [hlen, List.all_eq_true,
            ← encodeAll_prefix hcode (fun c hc => S.codes c (List.mem_of_mem_drop hc)),
            holds_prefix (S.holdsFrom st.pos), length_from S]
          constructor
          · intro h
            have h : ∀ k (hk : k < (encodeAll w).length),
                cx.mem (boff cfg st.pos + k) = (encodeAll w)[k] := by
              intro k hk
              rw [beq_iff_eq.1 (h k (by simpa using hk)), hold k hk]
            refine ⟨?_, h⟩
            rcases Nat.lt_or_ge (cx.stop - boff cfg st.pos) (encodeAll w).length with hlt | hge
            · have := h _ hlt
              have hs := S.boff_le st.pos
              rw [show boff cfg st.pos + (cx.stop - boff cfg st.pos) = cx.stop by omega] at this
              exact absurd this.symm (S.br hbr _ (hmem _ (List.getElem_mem hlt)))
            · exact hge
          · rintro ⟨_, h⟩ k hk
            have hk : k < (encodeAll w).length := by simpa using hk
            rw [h k hk, hold k hk]; simp
        have hpre : ((cfg.text.drop st.pos).take (j - i) == w) = true ↔
            w <+: cfg.text.drop st.pos := by
          rw [beq_iff_eq, List.prefix_iff_eq_take, hwl]
          exact eq_comm
        by_cases h : w <+: cfg.text.drop st.pos
        · have hadd := boff_add h
          rw [if_pos (hiff.2 h), if_pos (hpre.2 h), hlen, ← hadd, hwl]
        · rw [if_neg (fun h' => h (hiff.1 h')), if_neg (fun h' => h (hpre.1 h'))])
  apply this.congr
  intro st _
  cases st.caps g with
  | none => rfl
  | some x =>
    obtain ⟨i, j⟩ := x
    dsimp only
    by_cases h : ((cfg.text.drop st.pos).take (j - i) == (cfg.text.drop i).take (j - i)) = true
    · rw [if_pos h, if_pos h]
    · rw [if_neg h, if_neg h]

/-! ## groups -/

theorem impl_group {p m g : Nat} {W : St → List St} (hg : g ∉ op)
    (hp : Pres cfg W)
    (ho : opTable[cx.at p]? = some .begin_) (hn : cx.at (p + 1) = g)
    (h : Impl cx cfg (g :: op) (p + 2) m W)
    (ho' : opTable[cx.at m]? = some .end_) (hn' : cx.at (m + 1) = g) :
    Impl cx cfg op p (m + 2) (fun st => (W st).map fun t =>
      { t with caps := fun x => if x = g then some (st.pos, t.pos) else t.caps x }) := by
  intro F G κ st hv hG hk
  let upd : St → St := fun t =>
    { t with caps := fun x => if x = g then some (st.pos, t.pos) else t.caps x }
  let G' : Nat → Option Nat := fun x => if x = g then some st.pos else G x
  have body : Ends cx cfg F (p + 2) G' st ((W st).findSome? fun t => κ (upd t)) := by
    apply h F G' _ st hv
    · intro x hx
      have h1 : x ≠ g := fun e => hx (by simp [e])
      have h2 : x ∉ op := fun e => hx (by simp [e])
      show (if x = g then some st.pos else G x) = none
      rw [if_neg h1]; exact hG x h2
    · intro t ht c hr
      have hk := hk (upd t) (List.mem_map.2 ⟨t, ht, rfl⟩) (c.setEn g (some (boff cfg t.pos))) (by
        intro x
        have hrx := hr x
        by_cases hx : x = g
        · subst hx
          rw [hG x hg]
          have e1 : G' x = some st.pos := if_pos rfl
          rw [e1] at hrx
          have e2 : (upd t).caps x = some (st.pos, t.pos) := if_pos rfl
          rw [e2]
          exact ⟨hrx, by simp [Caps.setEn]⟩
        · have e1 : G' x = G x := if_neg hx
          rw [e1] at hrx
          have e2 : (upd t).caps x = t.caps x := if_neg hx
          rw [e2]
          simpa [Caps.setEn, hx] using hrx)
      have back : ∀ c', Rel cfg G c' (upd t).caps → Rel cfg G' c' t.caps := by
        intro c' hr' x
        have hrx := hr' x
        by_cases hx : x = g
        · subst hx
          have e1 : G' x = some st.pos := if_pos rfl
          have e2 : (upd t).caps x = some (st.pos, t.pos) := if_pos rfl
          rw [hG x hg, e2] at hrx
          rw [e1]; exact hrx.1
        · have e1 : G' x = G x := if_neg hx
          have e2 : (upd t).caps x = t.caps x := if_neg hx
          rw [e2] at hrx; rw [e1]; exact hrx
      cases hκ : κ (upd t) with
      | none =>
        rw [hκ] at hk
        obtain ⟨c', k1, k2⟩ := hk
        obtain ⟨f, hf⟩ := k1.eventually
        refine ⟨c', Runs.step ho' k1.1 ⟨f, fun f' hf' => ?_⟩, back c' k2⟩
        simp only [exec, hn']; exact hf f' hf'
      | some y =>
        rw [hκ] at hk
        obtain ⟨c', k1, k2⟩ := hk
        obtain ⟨f, hf⟩ := k1.eventually
        refine ⟨c', Runs.step ho' k1.1 ⟨f, fun f' hf' => ?_⟩, k2⟩
        simp only [exec, hn']; exact hf f' hf'
  have e : ((W st).map upd).findSome? κ = (W st).findSome? fun t => κ (upd t) := by
    rw [List.findSome?_map]; rfl
  show Ends cx cfg F p G st (((W st).map upd).findSome? κ)
  rw [e]
  intro c hr
  have body := body (c.setSt g (some (boff cfg st.pos))) (by
    intro x
    have hrx := hr x
    by_cases hx : x = g
    · subst hx
      have e1 : G' x = some st.pos := if_pos rfl
      rw [e1]; simp [Caps.setSt]
    · have e1 : G' x = G x := if_neg hx
      rw [e1]; simpa [Caps.setSt, hx] using hrx)
  cases hκ : (W st).findSome? fun t => κ (upd t) with
  | some y =>
    rw [hκ] at body
    obtain ⟨c', k1, k2⟩ := body
    obtain ⟨f, hf⟩ := k1.eventually
    refine ⟨c', Runs.step ho k1.1 ⟨f, fun f' hf' => ?_⟩, k2⟩
    simp only [exec, hn]
    rw [show p + 1 + 1 = p + 2 from rfl, hf f' hf']
  | none =>
    rw [hκ] at body
    obtain ⟨c', k1, k2⟩ := body
    obtain ⟨f, hf⟩ := k1.eventually
    refine ⟨(c'.setSt g (c.st g)).setEn g (c.en g), Runs.step ho (by intro h'; cases h')
      ⟨f, fun f' hf' => ?_⟩, ?_⟩
    · simp only [exec, hn]
      rw [show p + 1 + 1 = p + 2 from rfl, hf f' hf']
    · intro x
      by_cases hx : x = g
      · subst hx
        have hrx := hr x
        rw [hG x hg] at hrx ⊢
        simpa [Caps.setSt, Caps.setEn] using hrx
      · have hrx := k2 x
        have e1 : G' x = G x := if_neg hx
        rw [e1] at hrx
        simpa [Caps.setSt, Caps.setEn, hx] using hrx

/-! ## standalone patterns and lookahead -/

/-- The body of these ends with `SUCCESS`. -/
theorem ends_body {p m : Nat} {W : St → List St} (h : Impl cx cfg op p m W)
    (ho : opTable[cx.at m]? = some .success) {G : Nat → Option Nat} {st : St}
    (hv : Valid cfg st) (hG : ∀ g, g ∉ op → G g = none) :
    Ends cx cfg G p G st (W st).head? := by
  have e : (W st).head? = (W st).findSome? some := by
    cases W st <;> rfl
  rw [e]
  apply h G G some st hv hG
  intro t _ c hr
  exact ⟨c, Runs.step ho (by intro h'; cases h') ⟨0, fun _ _ => rfl⟩, hr⟩

/-- Ways keep the captures. -/
def Keeps (cfg : Cfg) (W : St → List St) : Prop :=
  ∀ st, Valid cfg st → ∀ t ∈ W st, t.caps = st.caps

theorem impl_once {p m q : Nat} {W : St → List St} (hkeep : Keeps cfg W)
    (ho : opTable[cx.at p]? = some .once) (ht : cx.target (p + 1) = q)
    (h : Impl cx cfg op (p + 3) m W) (ho' : opTable[cx.at m]? = some .success) :
    Impl cx cfg op p q (fun st => (W st).take 1) := by
  intro F G κ st hv hG hk
  have body := ends_body h ho' hv hG
  dsimp only at hk ⊢
  cases hw : W st with
  | nil =>
    rw [hw] at body
    intro c hr
    obtain ⟨c', k1, k2⟩ := body c hr
    obtain ⟨f, hf⟩ := k1.eventually
    refine ⟨c', Runs.step ho k1.1 ⟨f, fun f' hf' => ?_⟩, k2⟩
    simp only [exec]
    rw [show p + 1 + 2 = p + 3 from rfl, hf f' hf']
  | cons t l =>
    rw [hw] at body hk
    have hk := hk t (by simp)
    have e : ((t :: l).take 1).findSome? κ = κ t := by
      simp only [List.take_succ_cons, List.take_zero, List.findSome?_cons]
      cases κ t <;> rfl
    rw [e]
    intro c hr
    obtain ⟨c1, k1, k2⟩ := body c hr
    obtain ⟨f, hf⟩ := k1.eventually
    have hk := hk c1 k2
    have hkt : t.caps = st.caps := hkeep st hv t (by rw [hw]; simp)
    cases hκ : κ t with
    | none =>
      rw [hκ] at hk
      obtain ⟨c2, k3, k4⟩ := hk
      obtain ⟨f2, hf2⟩ := k3.eventually
      refine ⟨c2, Runs.step ho k3.1 ⟨max f f2, fun f' hf' => ?_⟩, by rw [← hkt]; exact k4⟩
      simp only [exec]
      rw [show p + 1 + 2 = p + 3 from rfl, hf f' (by omega)]
      simp only [ht]; exact hf2 f' (by omega)
    | some y =>
      rw [hκ] at hk
      obtain ⟨c2, k3, k4⟩ := hk
      obtain ⟨f2, hf2⟩ := k3.eventually
      refine ⟨c2, Runs.step ho k3.1 ⟨max f f2, fun f' hf' => ?_⟩, k4⟩
      simp only [exec]
      rw [show p + 1 + 2 = p + 3 from rfl, hf f' (by omega)]
      simp only [ht]; exact hf2 f' (by omega)

theorem impl_assert {p m q : Nat} {W : St → List St} (hkeep : Keeps cfg W)
    (ho : opTable[cx.at p]? = some .assert) (ht : cx.target (p + 1) = q)
    (h : Impl cx cfg op (p + 3) m W) (ho' : opTable[cx.at m]? = some .success) :
    Impl cx cfg op p q (fun st => ((W st).take 1).map fun t => { st with caps := t.caps }) := by
  intro F G κ st hv hG hk
  have body := ends_body h ho' hv hG
  dsimp only at hk ⊢
  cases hw : W st with
  | nil =>
    rw [hw] at body
    intro c hr
    obtain ⟨c', k1, k2⟩ := body c hr
    obtain ⟨f, hf⟩ := k1.eventually
    refine ⟨c', Runs.step ho k1.1 ⟨f, fun f' hf' => ?_⟩, k2⟩
    simp only [exec]
    rw [show p + 1 + 2 = p + 3 from rfl, hf f' hf']
  | cons t l =>
    rw [hw] at body hk
    have hkt : t.caps = st.caps := hkeep st hv t (by rw [hw]; simp)
    have hs : { st with caps := t.caps } = st := by rw [hkt]
    have hk := hk st (by simp [hs])
    have e : (((t :: l).take 1).map fun t => { st with caps := t.caps }).findSome? κ = κ st := by
      simp only [List.take_succ_cons, List.take_zero, List.map_cons, List.map_nil,
        List.findSome?_cons, hs]
      cases κ st <;> rfl
    rw [e]
    intro c hr
    obtain ⟨c1, k1, k2⟩ := body c hr
    obtain ⟨f, hf⟩ := k1.eventually
    rw [hkt] at k2
    have hk := hk c1 k2
    cases hκ : κ st with
    | none =>
      rw [hκ] at hk
      obtain ⟨c2, k3, k4⟩ := hk
      obtain ⟨f2, hf2⟩ := k3.eventually
      refine ⟨c2, Runs.step ho k3.1 ⟨max f f2, fun f' hf' => ?_⟩, k4⟩
      simp only [exec]
      rw [show p + 1 + 2 = p + 3 from rfl, hf f' (by omega)]
      simp only [ht]; exact hf2 f' (by omega)
    | some y =>
      rw [hκ] at hk
      obtain ⟨c2, k3, k4⟩ := hk
      obtain ⟨f2, hf2⟩ := k3.eventually
      refine ⟨c2, Runs.step ho k3.1 ⟨max f f2, fun f' hf' => ?_⟩, k4⟩
      simp only [exec]
      rw [show p + 1 + 2 = p + 3 from rfl, hf f' (by omega)]
      simp only [ht]; exact hf2 f' (by omega)

theorem impl_nassert {p m q : Nat} {W : St → List St} (hkeep : Keeps cfg W)
    (ho : opTable[cx.at p]? = some .nassert) (ht : cx.target (p + 1) = q)
    (h : Impl cx cfg op (p + 3) m W) (ho' : opTable[cx.at m]? = some .success) :
    Impl cx cfg op p q (fun st => test (W st).isEmpty st) := by
  intro F G κ st hv hG hk
  have body := ends_body h ho' hv hG
  dsimp only at hk ⊢
  cases hw : W st with
  | cons t l =>
    rw [hw] at body
    have hkt : t.caps = st.caps := hkeep st hv t (by rw [hw]; simp)
    intro c hr
    obtain ⟨c', k1, k2⟩ := body c hr
    obtain ⟨f, hf⟩ := k1.eventually
    rw [hkt] at k2
    refine ⟨c', Runs.step ho (by intro h'; cases h') ⟨f, fun f' hf' => ?_⟩, k2⟩
    simp only [exec]
    rw [show p + 1 + 2 = p + 3 from rfl, hf f' hf']
  | nil =>
    rw [hw] at body hk
    have hk := hk st (by simp [test])
    have e : (test ([] : List St).isEmpty st).findSome? κ = κ st := by
      simp only [test, List.isEmpty_nil, if_true, List.findSome?_cons]
      cases κ st <;> rfl
    rw [e]
    intro c hr
    obtain ⟨c1, k1, k2⟩ := body c hr
    obtain ⟨f, hf⟩ := k1.eventually
    have hk := hk c1 k2
    cases hκ : κ st with
    | none =>
      rw [hκ] at hk
      obtain ⟨c2, k3, k4⟩ := hk
      obtain ⟨f2, hf2⟩ := k3.eventually
      refine ⟨c2, Runs.step ho k3.1 ⟨max f f2, fun f' hf' => ?_⟩, k4⟩
      simp only [exec]
      rw [show p + 1 + 2 = p + 3 from rfl, hf f' (by omega)]
      simp only [ht]; exact hf2 f' (by omega)
    | some y =>
      rw [hκ] at hk
      obtain ⟨c2, k3, k4⟩ := hk
      obtain ⟨f2, hf2⟩ := k3.eventually
      refine ⟨c2, Runs.step ho k3.1 ⟨max f f2, fun f' hf' => ?_⟩, k4⟩
      simp only [exec]
      rw [show p + 1 + 2 = p + 3 from rfl, hf f' (by omega)]
      simp only [ht]; exact hf2 f' (by omega)

theorem impl_fail {p q : Nat} (ho : opTable[cx.at p]? = some .fail) :
    Impl cx cfg op p q (fun _ => []) := by
  intro F G κ st _ _ _
  exact ends_fail ho fun _ _ _ => rfl
end

end Gauche.Regex
