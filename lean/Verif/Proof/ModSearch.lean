import Verif.Spec.ModSearch
namespace Gauche.ModSearch

/-! ## The visited modules make no difference -/

/-- The search for `x` in the module goes on with the next one. -/
def Dead (H : Heap) (rec : Nat → Sym → Option (Option Gloc)) (x : Sym) (m : Nat) : Prop :=
  (H m).pre = none ∧ ((H m).external x = none ∨ ∃ g, (H m).external x = some g ∧ g.hidden = false ∧ g.value = none ∧ rec m g.name = some none)

/-- What a walk says: the same as the specification, and the new visited modules are dead. -/
def Walks (H : Heap) (rec : Nat → Sym → Option (Option Gloc)) (x : Sym) (vs : List Nat) (o : Option (Option Gloc))
    (r : Option (Option Gloc × List Nat)) : Prop :=
  match o with
  | none => r = none
  | some o => ∃ vs', r = some (o, vs') ∧ ∀ m ∈ vs', m ∈ vs ∨ Dead H rec x m

theorem dead_exported {H : Heap} {rec : Nat → Sym → Option (Option Gloc)} {x : Sym} {m : Nat} (h : Dead H rec x m) (ms : List Nat) :
    exported H rec (m :: ms) x = exported H rec ms x := by
  obtain ⟨h1, h2⟩ := h
  rw [exported, h1, strip]
  dsimp only
  rcases h2 with h2 | ⟨g, h2, h3, h4, h5⟩
  · rw [h2]
  · rw [h2]
    dsimp only
    rw [h3, h4, if_neg (by simp), h5]

theorem walk_spec (H : Heap) (rec : Nat → Sym → Option (Option Gloc)) (x : Sym) : ∀ (ms : List Nat) (sym : Sym) (prefixed : Bool) (vs : List Nat),
    (prefixed = false → sym = x) → (∀ m ∈ vs, m ∈ ms → Dead H rec x m) → Walks H rec x vs (exported H rec ms sym) (walk H rec ms sym prefixed vs) := by
  intro ms
  induction ms with
  | nil => intro sym prefixed vs _ _; exact ⟨vs, rfl, fun m hm => Or.inl hm⟩
  | cons m ms ih =>
    intro sym prefixed vs hsym hd
    have hd' : ∀ a ∈ vs, a ∈ ms → Dead H rec x a := fun a h1 h2 => hd a h1 (List.mem_cons_of_mem _ h2)
    rw [walk]
    by_cases hv : (!prefixed && vs.contains m) = true
    · rw [if_pos hv]
      rw [Bool.and_eq_true, Bool.not_eq_true', List.contains_iff_mem] at hv
      have e := hsym hv.1
      rw [e]
      rw [dead_exported (hd m hv.2 List.mem_cons_self)]
      exact ih x prefixed vs (fun _ => rfl) hd'
    · rw [if_neg hv]
      have key : ∀ (y : Sym) (pf : Bool), (pf = false → y = x ∧ (H m).pre = none) →
          Walks H rec x vs (match (H m).external y with
            | none => exported H rec ms y
            | some g =>
              if g.hidden then some none
              else match g.value with
                | some _ => some (some g)
                | none =>
                  match rec m g.name with
                  | none => none
                  | some (some g') => some (some g')
                  | some none => exported H rec ms y)
            (match (H m).external y with
            | none => walk H rec ms y pf (if pf then vs else m :: vs)
            | some g =>
              if g.hidden then some (none, vs)
              else match g.value with
                | some _ => some (some g, vs)
                | none =>
                  match rec m g.name with
                  | none => none
                  | some (some g') => some (some g', vs)
                  | some none => walk H rec ms y pf (if pf then vs else m :: vs)) := by
        intro y pf hpf
        have cont : (pf = false → Dead H rec x m) → Walks H rec x vs (exported H rec ms y) (walk H rec ms y pf (if pf then vs else m :: vs)) := by
          intro hdead
          cases pf with
          | true => rw [if_pos rfl]; exact ih y true vs (fun h => by cases h) hd'
          | false =>
            rw [if_neg (by simp)]
            have hm := hdead rfl
            have := ih y false (m :: vs) (fun _ => (hpf rfl).1) (fun a h1 h2 => by
              rcases List.mem_cons.1 h1 with rfl | h1
              · exact hm
              · exact hd' a h1 h2)
            cases ho : exported H rec ms y with
            | none => rw [ho] at this; exact this
            | some o =>
              rw [ho] at this
              obtain ⟨vs', h1, h2⟩ := this
              refine ⟨vs', h1, fun a ha => ?_⟩
              rcases h2 a ha with h | h
              · rcases List.mem_cons.1 h with rfl | h
                · exact Or.inr hm
                · exact Or.inl h
              · exact Or.inr h
        have same : ∀ o : Option Gloc, Walks H rec x vs (some o) (some (o, vs)) := fun o => ⟨vs, rfl, fun m hm => Or.inl hm⟩
        cases he : (H m).external y with
        | none =>
          refine cont (fun h => ⟨(hpf h).2, Or.inl ?_⟩)
          rw [← (hpf h).1]; exact he
        | some g =>
          dsimp only
          by_cases hh : g.hidden = true
          · rw [if_pos hh, if_pos hh]; exact same none
          · rw [if_neg hh, if_neg hh]
            cases hval : g.value with
            | some v => exact same (some g)
            | none =>
              dsimp only
              cases hr : rec m g.name with
              | none => exact rfl
              | some o =>
                cases o with
                | some g' => exact same (some g')
                | none =>
                  refine cont (fun h => ⟨(hpf h).2, Or.inr ⟨g, ?_, by simpa using hh, hval, hr⟩⟩)
                  rw [← (hpf h).1]; exact he
      rw [exported]
      cases hp : (H m).pre with
      | none =>
        dsimp only
        exact key sym prefixed (fun h => ⟨hsym h, hp⟩)
      | some p =>
        rw [strip]
        dsimp only
        cases hs : sans sym p with
        | none => exact ⟨vs, rfl, fun m hm => Or.inl hm⟩
        | some y =>
          dsimp only
          exact key y true (fun h => by cases h)

theorem imports_spec (H : Heap) (rec : Nat → Sym → Option (Option Gloc)) (x : Sym) : ∀ (es vs : List Nat),
    (∀ m ∈ vs, ∀ e ∈ es, m ∈ (H e).mpl → Dead H rec x m) → imports H rec es x vs = firstImport H rec es x := by
  intro es
  induction es with
  | nil => intro vs _; rfl
  | cons e es ih =>
    intro vs hd
    have h := walk_spec H rec x (H e).mpl x false vs (fun _ => rfl) (fun m hm => hd m hm e List.mem_cons_self)
    rw [imports, firstImport]
    cases ho : exported H rec (H e).mpl x with
    | none => rw [ho] at h; rw [h]
    | some o =>
      rw [ho] at h
      obtain ⟨vs', h1, h2⟩ := h
      rw [h1]
      cases o with
      | some g => rfl
      | none =>
        dsimp only
        refine ih vs' (fun m hm e' he' hme => ?_)
        rcases h2 m hm with h | h
        · exact hd m h e' (List.mem_cons_of_mem _ he') hme
        · exact h

/-! ## Without bindings that have no value -/

theorem exported_bound {H : Heap} (rec : Nat → Sym → Option (Option Gloc)) : ∀ (ms : List Nat) (x : Sym), Bound H ms →
    exported H rec ms x = some (chain H ms x) := by
  intro ms
  induction ms with
  | nil => intro x _; rfl
  | cons m ms ih =>
    intro x hb
    rw [exported, chain]
    cases strip x (H m).pre with
    | none => rfl
    | some y =>
      dsimp only
      cases he : (H m).external y with
      | none => exact ih y (fun a ha => hb a (List.mem_cons_of_mem _ ha))
      | some g =>
        dsimp only
        by_cases hh : g.hidden = true
        · rw [if_pos hh, if_pos hh]
        · rw [if_neg hh, if_neg hh]
          rcases hb m List.mem_cons_self y g he with h | h
          · exact absurd h hh
          · obtain ⟨v, hv⟩ := Option.isSome_iff_exists.1 h
            rw [hv]

theorem chain_some {H : Heap} : ∀ (ms : List Nat) (x : Sym) (g : Gloc), Bound H ms → chain H ms x = some g → g.hidden = false ∧ g.value.isSome := by
  intro ms
  induction ms with
  | nil => intro x g _ h; cases h
  | cons m ms ih =>
    intro x g hb h
    rw [chain] at h
    cases hy : strip x (H m).pre with
    | none => rw [hy] at h; cases h
    | some y =>
      rw [hy] at h
      dsimp only at h
      cases he : (H m).external y with
      | none => rw [he] at h; exact ih y g (fun a ha => hb a (List.mem_cons_of_mem _ ha)) h
      | some g' =>
        rw [he] at h
        dsimp only at h
        by_cases hh : g'.hidden = true
        · rw [if_pos hh] at h; cases h
        · rw [if_neg hh] at h
          cases h
          rcases hb m List.mem_cons_self y g he with h | h
          · exact absurd h hh
          · exact ⟨by simpa using hh, h⟩

theorem parents_chain {H : Heap} (rec : Nat → Sym → Option (Option Gloc)) : ∀ (ms : List Nat) (x : Sym) (g : Gloc), Bound H ms →
    chain H ms x = some g → parents H rec ms x true = some (some g) := by
  intro ms
  induction ms with
  | nil => intro x g _ h; cases h
  | cons m ms ih =>
    intro x g hb h
    have hb' : Bound H ms := fun a ha => hb a (List.mem_cons_of_mem _ ha)
    have key : ∀ y, (match (H m).external y with
        | none => chain H ms y
        | some g => if g.hidden then none else some g) = some g → (match (if true = true then (H m).external y else (H m).internal y) with
        | none => parents H rec ms y true
        | some g =>
          match g.value with
          | some _ => some (some g)
          | none =>
            match rec m g.name with
            | none => none
            | some (some g') => some (some g')
            | some none => parents H rec ms g.name false) = some (some g) := by
      intro y h
      rw [if_pos rfl]
      cases he : (H m).external y with
      | none => rw [he] at h; exact ih y g hb' h
      | some g' =>
        rw [he] at h
        dsimp only at h ⊢
        by_cases hh : g'.hidden = true
        · rw [if_pos hh] at h; cases h
        · rw [if_neg hh] at h
          cases h
          rcases hb m List.mem_cons_self y g he with h | h
          · exact absurd h hh
          · obtain ⟨v, hv⟩ := Option.isSome_iff_exists.1 h
            rw [hv]
    rw [chain] at h
    rw [parents]
    cases hp : (H m).pre with
    | none => rw [hp] at h; exact key x h
    | some p =>
      rw [hp, strip] at h
      dsimp only at h ⊢
      cases hs : sans x p with
      | none => rw [hs] at h; cases h
      | some y => rw [hs] at h; exact key y h

/-! ## Names with prefixes -/

theorem sans_some {s p y : Sym} (h : sans s p = some y) : s = p ++ y := by
  rw [sans] at h
  by_cases hp : p.isPrefixOf s = true
  · rw [if_pos hp] at h
    cases h
    obtain ⟨t, ht⟩ := List.isPrefixOf_iff_prefix.1 hp
    rw [← ht, List.drop_left]
  · rw [if_neg hp] at h; cases h

theorem sans_append (p y : Sym) : sans (p ++ y) p = some y := by
  rw [sans, if_pos (List.isPrefixOf_iff_prefix.2 ⟨y, rfl⟩), List.drop_left]

theorem strip_inj {s x y : Sym} {P : Option Sym} (h1 : strip s P = some y) (h2 : strip x P = some y) : s = x := by
  cases P with
  | none => rw [strip] at h1 h2; rw [Option.some.inj h1, Option.some.inj h2]
  | some p => rw [sans_some h1, sans_some h2]

theorem strip_cons (x p : Sym) (P : Option Sym) : strip x (some (p ++ P.getD [])) = (sans x p).bind (fun y => strip y P) := by
  rw [strip]
  cases hs : sans x p with
  | none =>
    rw [Option.bind_none]
    cases h : sans x (p ++ P.getD []) with
    | none => rfl
    | some y =>
      have := sans_some h
      rw [List.append_assoc] at this
      rw [this, sans_append] at hs
      cases hs
  | some y =>
    rw [Option.bind_some, sans_some hs]
    cases P with
    | none => rw [Option.getD_none, List.append_nil, sans_append]; rfl
    | some q =>
      rw [Option.getD_some, strip]
      cases h : sans y q with
      | some z => rw [sans_some h, ← List.append_assoc, sans_append]
      | none =>
        cases h' : sans (p ++ y) (p ++ q) with
        | none => rfl
        | some z =>
          have := sans_some h'
          rw [List.append_assoc] at this
          rw [List.append_cancel_left this, sans_append] at h
          cases h

theorem pre_apply (S : Sym → Option Gloc) (p x : Sym) : (Opt.pre p).apply S x = (sans x p).bind S := by
  rw [Opt.apply, sans]
  by_cases h : p.isPrefixOf x = true
  · rw [if_pos h, if_pos h]; rfl
  · rw [if_neg h, if_neg h]; rfl

/-! ## The tables of the new modules -/

theorem findExt {H : Heap} {n I : Nat} {tl : List Nat} (hm : (H I).mpl = I :: tl) (hp : (H I).pre = none) (hb : Bound H (H I).mpl)
    {x : Sym} {g : Gloc} (hx : visible H I x = some g)
    (hi : (H I).external x = none → ∀ rec, imports H rec (H I).imported x [I] = some none) :
    findBinding H (n + 1) I x false true = some (some g) := by
  rw [findBinding, search]
  rw [visible, hm, chain, hp, strip] at hx
  dsimp only at hx ⊢
  rw [if_neg (by simp), if_pos rfl]
  rw [hm] at hb
  cases he : (H I).external x with
  | some g' =>
    rw [he] at hx
    dsimp only at hx ⊢
    by_cases hh : g'.hidden = true
    · rw [if_pos hh] at hx; cases hx
    · rw [if_neg hh] at hx
      cases hx
      rcases hb I List.mem_cons_self x g he with h | h
      · exact absurd h hh
      · obtain ⟨v, hv⟩ := Option.isSome_iff_exists.1 h
        rw [hv]
  | none =>
    rw [he] at hx
    dsimp only at hx ⊢
    rw [if_neg (by simp), hi he, hm, List.tail_cons]
    exact parents_chain _ tl x g (fun a ha => hb a (List.mem_cons_of_mem _ ha)) hx

theorem aliases_keep {H : Heap} {n I : Nat} {P : Option Sym} {T : Sym → Option Gloc}
    (hf : ∀ x g, T x = some g → findBinding H (n + 1) I x false true = some (some g)) : ∀ (ss : List Sym) (t0 : Tab),
    (∀ s ∈ ss, ∃ y g, strip s P = some y ∧ T y = some g) →
    ∃ t, aliases H (n + 1) I P true (ss.map (fun s => (s, s))) t0 = some t ∧
      ∀ y, ((∃ s ∈ ss, strip s P = some y) → t y = T y) ∧ ((¬ ∃ s ∈ ss, strip s P = some y) → t y = t0 y) := by
  intro ss
  induction ss with
  | nil => intro t0 _; exact ⟨t0, rfl, fun y => ⟨fun ⟨s, hs, _⟩ => (by cases hs), fun _ => rfl⟩⟩
  | cons s ss ih =>
    intro t0 h
    obtain ⟨o, g, h1, h2⟩ := h s List.mem_cons_self
    obtain ⟨t, ht, hty⟩ := ih (put t0 o g) (fun a ha => h a (List.mem_cons_of_mem _ ha))
    refine ⟨t, ?_, fun y => ⟨?_, ?_⟩⟩
    · rw [List.map_cons, aliases, h1]
      dsimp only
      rw [hf o g h2]
      exact ht
    · rintro ⟨a, ha, hay⟩
      by_cases hin : ∃ s ∈ ss, strip s P = some y
      · exact (hty y).1 hin
      · rcases List.mem_cons.1 ha with rfl | ha
        · rw [(hty y).2 hin]
          rw [h1] at hay
          cases hay
          rw [put, if_pos rfl, h2]
        · exact absurd ⟨a, ha, hay⟩ hin
    · intro hn
      rw [(hty y).2 (fun ⟨a, ha, hay⟩ => hn ⟨a, List.mem_cons_of_mem _ ha, hay⟩), put, if_neg]
      rintro rfl
      exact hn ⟨s, List.mem_cons_self, h1⟩

theorem aliases_rename {H : Heap} {n I : Nat} {P : Option Sym} {T : Sym → Option Gloc}
    (hf : ∀ x g, T x = some g → findBinding H (n + 1) I x false true = some (some g)) : ∀ (l : List (Sym × Sym)) (t0 : Tab),
    (∀ q ∈ l, ∃ y g, strip q.1 P = some y ∧ T y = some g) → (l.map (·.2)).Nodup →
    ∃ t, aliases H (n + 1) I P false l t0 = some t ∧
      ∀ x, t x = match l.find? (fun q => q.2 = x) with
        | some q => (strip q.1 P).bind T
        | none => t0 x := by
  intro l
  induction l with
  | nil => intro t0 _ _; exact ⟨t0, rfl, fun x => rfl⟩
  | cons q l ih =>
    intro t0 h hd
    obtain ⟨s, d⟩ := q
    obtain ⟨o, g, h1, h2⟩ := h (s, d) List.mem_cons_self
    rw [List.map_cons, List.nodup_cons] at hd
    obtain ⟨t, ht, htx⟩ := ih (put t0 d g) (fun a ha => h a (List.mem_cons_of_mem _ ha)) hd.2
    refine ⟨t, ?_, fun x => ?_⟩
    · rw [aliases]
      dsimp only at h1
      rw [h1]
      dsimp only
      rw [hf o g h2]
      exact ht
    · rw [htx x, List.find?_cons]
      by_cases hx : d = x
      · subst hx
        have : l.find? (fun q => q.2 = d) = none := by
          rw [List.find?_eq_none]
          intro a ha e
          exact hd.1 (List.mem_map.2 ⟨a, ha, by simpa using e⟩)
        rw [this]
        dsimp only at h1 ⊢
        rw [put, if_pos rfl, decide_eq_true rfl]
        dsimp only
        rw [h1, Option.bind_some, h2]
      · rw [decide_eq_false hx]
        dsimp only
        cases l.find? (fun q => q.2 = x) with
        | some q => rfl
        | none => dsimp only; rw [put, if_neg (fun e => hx e.symm)]

theorem hides_spec {P : Option Sym} : ∀ (ss : List Sym) (t0 : Tab), (∀ s ∈ ss, ∃ y, strip s P = some y) →
    (∀ y g, t0 y = some g → g = hiddenGloc y) →
    ∃ t, hides P ss t0 = some t ∧ ∀ y, ((∃ s ∈ ss, strip s P = some y) → t y = some (hiddenGloc y)) ∧
      ((¬ ∃ s ∈ ss, strip s P = some y) → t y = t0 y) := by
  intro ss
  induction ss with
  | nil => intro t0 _ _; exact ⟨t0, rfl, fun y => ⟨fun ⟨s, hs, _⟩ => (by cases hs), fun _ => rfl⟩⟩
  | cons s ss ih =>
    intro t0 h hh
    obtain ⟨o, h1⟩ := h s List.mem_cons_self
    have hput : ∀ y g, (match t0 o with | some _ => t0 | none => put t0 o (hiddenGloc o)) y = some g → g = hiddenGloc y := by
      intro y g hg
      cases ho : t0 o with
      | some _ => rw [ho] at hg; exact hh y g hg
      | none =>
        rw [ho] at hg
        dsimp only at hg
        rw [put] at hg
        by_cases hy : y = o
        · rw [if_pos hy] at hg; cases hg; rw [hy]
        · rw [if_neg hy] at hg; exact hh y g hg
    have hval : ∀ y, (match t0 o with | some _ => t0 | none => put t0 o (hiddenGloc o)) y = if y = o then some (hiddenGloc o) else t0 y := by
      intro y
      cases ho : t0 o with
      | some g =>
        dsimp only
        by_cases hy : y = o
        · rw [if_pos hy, hy, ho, hh o g ho]
        · rw [if_neg hy]
      | none => rfl
    obtain ⟨t, ht, hty⟩ := ih _ (fun a ha => h a (List.mem_cons_of_mem _ ha)) hput
    refine ⟨t, ?_, fun y => ⟨?_, ?_⟩⟩
    · rw [hides, h1]; exact ht
    · rintro ⟨a, ha, hay⟩
      by_cases hin : ∃ s ∈ ss, strip s P = some y
      · exact (hty y).1 hin
      · rcases List.mem_cons.1 ha with rfl | ha
        · rw [(hty y).2 hin, hval]
          rw [h1] at hay
          cases hay
          rw [if_pos rfl]
        · exact absurd ⟨a, ha, hay⟩ hin
    · intro hn
      rw [(hty y).2 (fun ⟨a, ha, hay⟩ => hn ⟨a, List.mem_cons_of_mem _ ha, hay⟩), hval, if_neg]
      rintro rfl
      exact hn ⟨s, List.mem_cons_self, h1⟩

theorem hideOld_spec (int : Tab) : ∀ (ss : List Sym) (t : Tab), (∀ x, int x ≠ none → t x = int x) →
    (∀ x g, int x = none → t x = some g → g = hiddenGloc x) → ∀ x, hideOld int ss t x =
      match int x with
      | some g => some g
      | none => if x ∈ ss then some (hiddenGloc x) else t x := by
  intro ss
  induction ss with
  | nil =>
    intro t h1 _ x
    rw [hideOld]
    cases hi : int x with
    | some g => rw [h1 x (by rw [hi]; simp), hi]
    | none => dsimp only; rw [if_neg (by simp)]
  | cons s ss ih =>
    intro t h1 h2 x
    rw [hideOld]
    cases his : int s with
    | some g0 =>
      dsimp only
      rw [ih t h1 h2 x]
      cases hi : int x with
      | some g => rfl
      | none =>
        dsimp only
        have : x ≠ s := by rintro rfl; rw [his] at hi; cases hi
        by_cases hx : x ∈ ss
        · rw [if_pos hx, if_pos (List.mem_cons_of_mem _ hx)]
        · rw [if_neg hx, if_neg (by rw [List.mem_cons]; rintro (h | h); exact this h; exact hx h)]
    | none =>
      dsimp only
      have hval : ∀ y, (match t s with | some _ => t | none => put t s (hiddenGloc s)) y = if y = s then some (hiddenGloc s) else t y := by
        intro y
        cases hts : t s with
        | some g =>
          dsimp only
          by_cases hy : y = s
          · rw [if_pos hy, hy, hts, h2 s g his hts]
          · rw [if_neg hy]
        | none => rfl
      refine (ih (match t s with | some _ => t | none => put t s (hiddenGloc s)) ?_ ?_ x).trans ?_
      rotate_left 2
      · cases hi : int x with
        | some g => rfl
        | none =>
          dsimp only
          rw [hval]
          by_cases hxs : x = s
          · rw [if_pos hxs, if_pos (List.mem_cons.2 (Or.inl hxs)), hxs]; split <;> rfl
          · rw [if_neg hxs]
            by_cases hx : x ∈ ss
            · rw [if_pos hx, if_pos (List.mem_cons_of_mem _ hx)]
            · rw [if_neg hx, if_neg (by rw [List.mem_cons]; rintro (h | h); exact hxs h; exact hx h)]
      · intro y hy
        rw [hval, if_neg (by rintro rfl; exact hy his)]
        exact h1 y hy
      · intro y g hy hg
        rw [hval] at hg
        by_cases hys : y = s
        · rw [if_pos hys] at hg; cases hg; rw [hys]
        · rw [if_neg hys] at hg; exact h2 y g hy hg

/-! ## New modules -/

theorem chain_agree {H H' : Heap} : ∀ (ms : List Nat) (x : Sym), (∀ m ∈ ms, (H' m).pre = (H m).pre ∧ (H' m).external = (H m).external) →
    chain H' ms x = chain H ms x := by
  intro ms
  induction ms with
  | nil => intro x _; rfl
  | cons m ms ih =>
    intro x h
    obtain ⟨h1, h2⟩ := h m List.mem_cons_self
    have ih := fun y => ih y (fun a ha => h a (List.mem_cons_of_mem _ ha))
    rw [chain, chain, h1, h2]
    simp only [ih]

theorem set_eq (H : Heap) (i : Nat) (m : Module) : set H i m i = m := by rw [set, if_pos rfl]

theorem set_ne (H : Heap) {i j : Nat} (m : Module) (h : j ≠ i) : set H i m j = H j := by rw [set, if_neg h]

/-- The new module comes before the modules of another list. -/
theorem chain_new {H : Heap} {next : Nat} {m : Module} {ms : List Nat} (hlt : ∀ a ∈ ms, a < next) (x : Sym) :
    chain (set H next m) (next :: ms) x = match strip x m.pre with
      | none => none
      | some y => match m.external y with
        | none => chain H ms y
        | some g => if g.hidden then none else some g := by
  have hag : ∀ y, chain (set H next m) ms y = chain H ms y := fun y => chain_agree ms y (fun a ha => by
    rw [set_ne H m (Nat.ne_of_lt (hlt a ha))]; exact ⟨rfl, rfl⟩)
  rw [chain, set_eq]
  simp only [hag]
  cases strip x m.pre with
  | none => rfl
  | some y => dsimp only; cases m.external y <;> rfl

theorem bound_new {H : Heap} {next : Nat} {m : Module} {ms : List Nat} (hlt : ∀ a ∈ ms, a < next) (hb : Bound H ms)
    (hm : ∀ x g, m.external x = some g → g.hidden = true ∨ g.value.isSome) : Bound (set H next m) (next :: ms) := by
  intro a ha x g hg
  rcases List.mem_cons.1 ha with rfl | ha
  · rw [set_eq] at hg; exact hm x g hg
  · rw [set_ne H m (Nat.ne_of_lt (hlt a ha))] at hg; exact hb a ha x g hg

/-- What holds at every iteration: `T` is what the module exports. -/
structure State (H : Heap) (next I : Nat) (P : Option Sym) (blocked : Bool) (S : Sym → Option Gloc) : Prop where
  mpl : ∃ tl, (H I).mpl = I :: tl
  lt : ∀ m ∈ (H I).mpl, m < next
  bound : Bound H (H I).mpl
  sem : ∀ x, S x = (strip x P).bind (visible H I)
  pre : blocked = false → (H I).pre = none
  silent : blocked = false → ∀ x, visible H I x ≠ none → (H I).external x = none → ∀ rec, imports H rec (H I).imported x [I] = some none

theorem State.find {H : Heap} {next I : Nat} {P : Option Sym} {S : Sym → Option Gloc} (h : State H next I P false S) (n : Nat) (x : Sym)
    (g : Gloc) (hx : visible H I x = some g) : findBinding H (n + 1) I x false true = some (some g) := by
  obtain ⟨tl, hm⟩ := h.mpl
  exact findExt hm (h.pre rfl) h.bound hx (h.silent rfl x (by rw [hx]; simp))

/-- A state after a new module. -/
theorem State.new {H : Heap} {next : Nat} {m : Module} {ms : List Nat} {S : Sym → Option Gloc} {blocked : Bool} (hlt : ∀ a ∈ ms, a < next)
    (hb : Bound H ms) (hm : ∀ x g, m.external x = some g → g.hidden = true ∨ g.value.isSome) (hmpl : m.mpl = next :: ms)
    (himp : m.imported = []) (hpre : blocked = false → m.pre = none)
    (hsem : ∀ x, S x = match strip x m.pre with
      | none => none
      | some y => match m.external y with
        | none => chain H ms y
        | some g => if g.hidden then none else some g) : State (set H next m) (next + 1) next none blocked S where
  mpl := ⟨ms, by rw [set_eq]; exact hmpl⟩
  lt := by
    rw [set_eq, hmpl]
    intro a ha
    rcases List.mem_cons.1 ha with rfl | ha
    · omega
    · have := hlt a ha; omega
  bound := by rw [set_eq, hmpl]; exact bound_new hlt hb hm
  sem := by
    intro x
    rw [strip, Option.bind_some, visible, set_eq, hmpl, chain_new hlt]
    exact hsem x
  pre := by rw [set_eq]; exact hpre
  silent := by
    intro _ x _ _ rec
    rw [set_eq, himp]
    rfl

theorem process_spec (n : Nat) : ∀ (opts : List Opt) (H : Heap) (next I : Nat) (P : Option Sym) (blocked : Bool) (S : Sym → Option Gloc),
    State H next I P blocked S → Fine P.isSome blocked opts → OkAll S opts →
    ∃ H' next' I', process (n + 1) H next I P opts = some (H', next', I') ∧ (∀ i, i < next → H' i = H i) ∧ (I' = I ∨ next ≤ I') ∧
      (∀ m ∈ (H' I').mpl, m ∈ (H I).mpl ∨ next ≤ m) ∧ Bound H' (H' I').mpl ∧ ∀ x, visible H' I' x = applyAll S opts x := by
  intro opts
  induction opts with
  | nil =>
    intro H next I P blocked S st _ _
    cases P with
    | none => exact ⟨H, next, I, rfl, fun _ _ => rfl, Or.inl rfl, fun m hm => Or.inl hm, st.bound, fun x => (st.sem x).symm⟩
    | some p =>
      refine ⟨_, _, _, rfl, fun i hi => set_ne H _ (Nat.ne_of_lt hi), Or.inr (Nat.le_refl _), ?_, ?_, ?_⟩
      · rw [set_eq]
        intro m hm
        rcases List.mem_cons.1 hm with rfl | hm
        · exact Or.inr (Nat.le_refl _)
        · exact Or.inl hm
      · rw [set_eq]
        exact bound_new st.lt st.bound (fun x g h => by cases h)
      · intro x
        rw [visible, set_eq, applyAll, st.sem x]
        refine (chain_new st.lt x).trans ?_
        rw [wrapper]
        dsimp only
        cases strip x (some p) <;> rfl
  | cons o r ih =>
    intro H next I P blocked S st hf hok
    obtain ⟨ho, hok⟩ := hok
    have strip_ok : ∀ s, (S s).isSome → ∃ y g, strip s P = some y ∧ visible H I y = some g := by
      intro s hs
      rw [st.sem s] at hs
      cases h : strip s P with
      | none => rw [h] at hs; cases hs
      | some y =>
        rw [h, Option.bind_some] at hs
        obtain ⟨g, hg⟩ := Option.isSome_iff_exists.1 hs
        exact ⟨y, g, rfl, hg⟩
    have real : ∀ y g, visible H I y = some g → g.hidden = false ∧ g.value.isSome := fun y g h => chain_some _ y g st.bound h
    -- the result of the rest, for a new module
    have wrap : ∀ (m : Module) (bl : Bool) (ms : List Nat), (∀ a ∈ ms, a ∈ (H I).mpl) →
        (∀ x g, m.external x = some g → g.hidden = true ∨ g.value.isSome) → m.mpl = next :: ms → m.imported = [] → (bl = false → m.pre = none) →
        (∀ x, o.apply S x = match strip x m.pre with
          | none => none
          | some y => match m.external y with
            | none => chain H ms y
            | some g => if g.hidden then none else some g) → Fine false bl r →
        ∃ H' next' I', process (n + 1) (set H next m) (next + 1) next none r = some (H', next', I') ∧ (∀ i, i < next → H' i = H i) ∧
          (I' = I ∨ next ≤ I') ∧ (∀ m ∈ (H' I').mpl, m ∈ (H I).mpl ∨ next ≤ m) ∧ Bound H' (H' I').mpl ∧
          ∀ x, visible H' I' x = applyAll S (o :: r) x := by
      intro m bl ms hms hm hmpl himp hpre hsem hfine
      have st' : State (set H next m) (next + 1) next none bl (o.apply S) :=
        State.new (fun a ha => st.lt a (hms a ha)) (fun a ha => st.bound a (hms a ha)) hm hmpl himp hpre hsem
      obtain ⟨H', next', I', h1, h2, h3, h4, h5, h6⟩ := ih (set H next m) (next + 1) next none bl (o.apply S) st' hfine hok
      refine ⟨H', next', I', h1, fun i hi => ?_, ?_, ?_, h5, h6⟩
      · rw [h2 i (by omega), set_ne H m (Nat.ne_of_lt hi)]
      · rcases h3 with h | h
        · exact Or.inr (by omega)
        · exact Or.inr (by omega)
      · intro a ha
        rcases h4 a ha with h | h
        · rw [set_eq, hmpl] at h
          rcases List.mem_cons.1 h with rfl | h
          · exact Or.inr (Nat.le_refl _)
          · exact Or.inl (hms a h)
        · exact Or.inr (by omega)
    cases o with
    | pre p =>
      have st' : State H next I (some (p ++ P.getD [])) blocked ((Opt.pre p).apply S) :=
        { st with
          sem := by
            intro x
            rw [pre_apply, strip_cons]
            cases sans x p with
            | none => rfl
            | some y => rw [Option.bind_some, Option.bind_some, st.sem y] }
      exact ih H next I _ blocked _ st' hf hok
    | only ss =>
      obtain ⟨rfl, hf⟩ := hf
      obtain ⟨t, ht, hty⟩ := aliases_keep (fun x g => st.find n x g) ss (fun _ => none) (fun s hs => strip_ok s (ho s hs))
      have htr : ∀ y g, t y = some g → g.hidden = false ∧ g.value.isSome := by
        intro y g h
        by_cases hin : ∃ s ∈ ss, strip s P = some y
        · rw [(hty y).1 hin] at h; exact real y g h
        · rw [(hty y).2 hin] at h; cases h
      obtain ⟨H', next', I', h⟩ := wrap { wrapper H next I P t t with mpl := [next] } P.isSome [] (fun a ha => by cases ha)
        (fun x g h => Or.inr (htr x g h).2) rfl rfl (fun h => by
          show P = none
          cases P with
          | none => rfl
          | some p => cases h) (by
          intro x
          show (if x ∈ ss then S x else none) = match strip x P with
            | none => none
            | some y => match t y with
              | none => none
              | some g => if g.hidden then none else some g
          rw [st.sem x]
          cases hx : strip x P with
          | none => rw [Option.bind_none]; split <;> rfl
          | some y =>
            dsimp only
            rw [Option.bind_some]
            by_cases hin : x ∈ ss
            · rw [if_pos hin, (hty y).1 ⟨x, hin, hx⟩]
              cases hv : visible H I y with
              | none => rfl
              | some g => dsimp only; rw [(real y g hv).1]; rfl
            · rw [if_neg hin, (hty y).2 (fun ⟨s, hs, h⟩ => hin (by rw [← strip_inj h hx]; exact hs))]) hf
      refine ⟨H', next', I', ?_, h.2⟩
      rw [process, ht]
      exact h.1
    | except ss =>
      obtain ⟨t, ht, hty⟩ := hides_spec (P := P) ss (fun _ => none) (fun s hs => by
        obtain ⟨y, _, h, _⟩ := strip_ok s (ho s hs); exact ⟨y, h⟩) (fun y g h => by cases h)
      obtain ⟨H', next', I', h⟩ := wrap (wrapper H next I P (fun _ => none) t) P.isSome (H I).mpl (fun a ha => ha)
        (fun x g h => by
          have h : t x = some g := h
          by_cases hin : ∃ s ∈ ss, strip s P = some x
          · rw [(hty x).1 hin] at h; cases h; exact Or.inl rfl
          · rw [(hty x).2 hin] at h; cases h) rfl rfl (fun h => by
          show P = none
          cases P with
          | none => rfl
          | some p => cases h) (by
          intro x
          show (if x ∈ ss then none else S x) = match strip x P with
            | none => none
            | some y => match t y with
              | none => chain H (H I).mpl y
              | some g => if g.hidden then none else some g
          rw [st.sem x]
          cases hx : strip x P with
          | none => rw [Option.bind_none]; split <;> rfl
          | some y =>
            dsimp only
            rw [Option.bind_some]
            by_cases hin : x ∈ ss
            · rw [if_pos hin, (hty y).1 ⟨x, hin, hx⟩]; rfl
            · rw [if_neg hin, (hty y).2 (fun ⟨s, hs, h⟩ => hin (by rw [← strip_inj h hx]; exact hs))]
              rfl) hf
      refine ⟨H', next', I', ?_, h.2⟩
      rw [process, ht]
      exact h.1
    | rename l =>
      obtain ⟨rfl, hf⟩ := hf
      obtain ⟨t, ht, htx⟩ := aliases_rename (fun x g => st.find n x g) l (fun _ => none) (fun q hq => strip_ok q.1 (ho.1 q hq)) ho.2
      have htr : ∀ y g, t y = some g → g.hidden = false ∧ g.value.isSome := by
        intro y g h
        rw [htx y] at h
        cases hq : l.find? (fun q => q.2 = y) with
        | none => rw [hq] at h; cases h
        | some q =>
          rw [hq] at h
          dsimp only at h
          cases hs : strip q.1 P with
          | none => rw [hs] at h; cases h
          | some z => rw [hs, Option.bind_some] at h; exact real z g h
      have hext := hideOld_spec t (l.map (·.1)) t (fun x _ => rfl) (fun x g h1 h2 => by rw [h1] at h2; cases h2)
      have hext' : ∀ x g, hideOld t (l.map (·.1)) t x = some g → g.hidden = true ∨ g.value.isSome := by
        intro x g h
        rw [hext x] at h
        cases hx : t x with
        | some g' => rw [hx] at h; cases h; exact Or.inr (htr x g hx).2
        | none =>
          rw [hx] at h
          dsimp only at h
          by_cases hin : x ∈ l.map (·.1)
          · rw [if_pos hin] at h; cases h; exact Or.inl rfl
          · rw [if_neg hin] at h; cases h
      -- what the new module exports, if `R` is what the one below exports
      have sem : ∀ (R : Sym → Option Gloc), (∀ x, R x = S x) → ∀ x, (Opt.rename l).apply S x =
          match hideOld t (l.map (·.1)) t x with
            | none => R x
            | some g => if g.hidden then none else some g := by
        intro R hR x
        rw [hext x, Opt.apply]
        cases hq : l.find? (fun q => q.2 = x) with
        | some q =>
          have hql := List.mem_of_find?_eq_some hq
          obtain ⟨y, g, h1, h2⟩ := strip_ok q.1 (ho.1 q hql)
          have : t x = some g := by rw [htx x, hq]; dsimp only; rw [h1, Option.bind_some, h2]
          rw [this]
          dsimp only
          rw [(real y g h2).1, st.sem, h1, Option.bind_some, h2]
          rfl
        | none =>
          have : t x = none := by rw [htx x, hq]
          rw [this]
          dsimp only
          by_cases hin : x ∈ l.map (·.1)
          · rw [if_pos hin, if_pos hin]; rfl
          · rw [if_neg hin, if_neg hin, hR]
      cases P with
      | none =>
        obtain ⟨H', next', I', h⟩ := wrap (wrapper H next I none t (hideOld t (l.map (fun q : Sym × Sym => q.1)) t)) false (H I).mpl (fun a ha => ha) hext' rfl rfl
          (fun _ => rfl) (by
            intro x
            rw [sem (chain H (H I).mpl) (fun x => by rw [st.sem x]; rfl) x]
            rfl) hf
        refine ⟨H', next', I', ?_, h.2⟩
        rw [process, ht]
        exact h.1
      | some p =>
        let m0 := wrapper H next I (some p) (fun _ => none) (fun _ => none)
        let H0 := set H next m0
        let m := wrapper H0 (next + 1) next none t (hideOld t (l.map (·.1)) t)
        have hlt0 : ∀ a ∈ next :: (H I).mpl, a < next + 1 := by
          intro a ha
          rcases List.mem_cons.1 ha with rfl | ha
          · omega
          · have := st.lt a ha; omega
        have hb0 : Bound H0 (next :: (H I).mpl) := bound_new st.lt st.bound (fun x g h => by cases h)
        have hR : ∀ x, chain H0 (next :: (H I).mpl) x = S x := by
          intro x
          refine (chain_new st.lt x).trans ?_
          rw [st.sem x]
          show (match strip x (some p) with
            | none => none
            | some y => chain H (H I).mpl y) = _
          cases strip x (some p) <;> rfl
        have hm0 : m.mpl = (next + 1) :: next :: (H I).mpl := by
          show (next + 1) :: (H0 next).mpl = _
          rw [show H0 next = m0 from set_eq H next m0]
          rfl
        have st' : State (set H0 (next + 1) m) (next + 2) (next + 1) none false ((Opt.rename l).apply S) :=
          State.new hlt0 hb0 hext' hm0 rfl (fun _ => rfl) (fun x => by rw [sem _ hR x]; rfl)
        obtain ⟨H', next', I', h1, h2, h3, h4, h5, h6⟩ := ih _ _ _ none false _ st' hf hok
        refine ⟨H', next', I', ?_, ?_, ?_, ?_, h5, h6⟩
        · rw [process, ht]; exact h1
        · intro i hi
          rw [h2 i (by omega), set_ne H0 m (by omega), show H0 i = H i from set_ne H m0 (by omega)]
        · rcases h3 with h | h
          · exact Or.inr (by omega)
          · exact Or.inr (by omega)
        · intro a ha
          rcases h4 a ha with h | h
          · rw [set_eq, hm0] at h
            rcases List.mem_cons.1 h with rfl | h
            · exact Or.inr (by omega)
            · rcases List.mem_cons.1 h with rfl | h
              · exact Or.inr (Nat.le_refl _)
              · exact Or.inl h
          · exact Or.inr (by omega)

end Gauche.ModSearch
