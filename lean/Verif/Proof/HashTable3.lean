import Verif.Proof.HashTable2
/-! Iteration. -/
namespace Gauche.HashTable

variable {K V σ : Type}

/-- The part of a chain from the entry `x` on. -/
def fromIn (l : List Nat) (x : Nat) : List Nat := l.dropWhile (fun y => decide (y ≠ x))

/-- The entries an iterator has still to deliver. -/
def rest (t : Table) (it : Iter) : List Nat :=
  match it.next with
  | none => []
  | some x => fromIn (t.buckets.getD it.bucket []) x ++ (t.buckets.drop (it.bucket + 1)).flatten

/-- The iterator points to an entry of its bucket. -/
def ValidIt (t : Table) (it : Iter) : Prop := ∀ x, it.next = some x → x ∈ t.buckets.getD it.bucket []

theorem fromIn_mem {l : List Nat} {x : Nat} (h : x ∈ l) : ∃ r, fromIn l x = x :: r ∧ ∃ p, l = p ++ x :: r ∧ x ∉ p := by
  induction l with
  | nil => simp at h
  | cons y l ih =>
    by_cases hyx : y = x
    · subst hyx
      exact ⟨l, by unfold fromIn; simp, [], by simp, by simp⟩
    · have hx : x ∈ l := by
        rcases List.mem_cons.1 h with h | h
        · exact absurd h.symm hyx
        · exact h
      obtain ⟨r, h1, p, h2, h3⟩ := ih hx
      refine ⟨r, ?_, y :: p, ?_, ?_⟩
      · unfold fromIn at h1 ⊢
        rw [List.dropWhile_cons_of_pos (by simp [hyx])]; exact h1
      · rw [h2]; simp
      · simp [h3, Ne.symm hyx]

theorem succIn_of {l : List Nat} {x : Nat} (h : x ∈ l) {r : List Nat} (hr : fromIn l x = x :: r) :
    succIn l x = r.head? := by
  induction l with
  | nil => simp at h
  | cons y l ih =>
    unfold succIn
    by_cases hyx : y = x
    · subst hyx
      rw [if_pos rfl]
      unfold fromIn at hr
      simp at hr
      rw [hr]
    · rw [if_neg hyx]
      have hx : x ∈ l := by
        rcases List.mem_cons.1 h with h | h
        · exact absurd h.symm hyx
        · exact h
      apply ih hx
      unfold fromIn at hr ⊢
      rwa [List.dropWhile_cons_of_pos (by simp [hyx])] at hr

theorem fromIn_succ {l : List Nat} (hn : l.Nodup) {x y : Nat} {r : List Nat} (h : fromIn l x = x :: y :: r) :
    fromIn l y = y :: r := by
  induction l with
  | nil => simp [fromIn] at h
  | cons z l ih =>
    have hn' := List.nodup_cons.1 hn
    by_cases hzx : z = x
    · subst hzx
      unfold fromIn at h
      simp at h
      subst h
      unfold fromIn
      have : z ≠ y := fun h => hn'.1 (by simp [h])
      rw [List.dropWhile_cons_of_pos (by simp [this])]
      simp
    · unfold fromIn at h
      rw [List.dropWhile_cons_of_pos (by simp [hzx])] at h
      have ih' := ih hn'.2 h
      have hy : y ∈ l := by
        have : y ∈ fromIn l y := by rw [ih']; simp
        exact List.dropWhile_sublist _ |>.subset this
      have : z ≠ y := fun h => hn'.1 (h ▸ hy)
      unfold fromIn
      rw [List.dropWhile_cons_of_pos (by simp [this])]
      exact ih'

theorem scan_spec : ∀ (bs : List (List Nat)) (i : Nat),
    match scan bs i with
    | none => bs.flatten = []
    | some (j, a) => i ≤ j ∧ ∃ r, bs.getD (j - i) [] = a :: r ∧ bs.flatten = a :: r ++ (bs.drop (j - i + 1)).flatten := by
  intro bs
  induction bs with
  | nil => intro i; simp [scan]
  | cons b bs ih =>
    intro i
    cases b with
    | nil =>
      have := ih (i + 1)
      unfold scan
      cases hs : scan bs (i + 1) with
      | none => rw [hs] at this; simpa using this
      | some ja =>
        obtain ⟨j, a⟩ := ja
        rw [hs] at this
        obtain ⟨h1, r, h2, h3⟩ := this
        have hj : j - i = j - (i + 1) + 1 := by omega
        refine ⟨by omega, r, ?_, ?_⟩
        · rw [hj]; simpa using h2
        · rw [hj]; simpa using h3
    | cons a r =>
      unfold scan
      exact ⟨le_refl _, r, by simp, by simp⟩

theorem fromIn_head {a : Nat} {r : List Nat} : fromIn (a :: r) a = a :: r := by
  unfold fromIn; simp

/-- A new iterator delivers all live entries. -/
theorem iterInit_rest (t : Table) : rest t (iterInit t) = live t ∧ ValidIt t (iterInit t) := by
  have := scan_spec t.buckets 0
  unfold iterInit
  cases hs : scan t.buckets 0 with
  | none =>
    rw [hs] at this
    exact ⟨by unfold rest live; exact this.symm, by intro x hx; cases hx⟩
  | some ja =>
    obtain ⟨j, a⟩ := ja
    rw [hs] at this
    obtain ⟨_, r, h2, h3⟩ := this
    simp only [Nat.sub_zero] at h2 h3
    constructor
    · unfold rest live
      dsimp only
      rw [h2, h3, fromIn_head]
    · intro x hx
      dsimp only at hx ⊢
      injection hx with hx
      rw [h2, hx]; simp

theorem chain_nodup {t : Table} (h : (all t).Nodup) (i : Nat) : (t.buckets.getD i []).Nodup := by
  rw [all_eq] at h
  have hl := (List.nodup_append.1 h).1
  rw [List.getD_eq_getElem?_getD]
  cases hb : t.buckets[i]? with
  | none => simp
  | some l =>
    have : l ∈ t.buckets := List.mem_iff_getElem?.2 ⟨i, hb⟩
    exact (List.nodup_flatten.1 hl).1 l this

theorem nextField_live {t : Table} (h : (all t).Nodup) {i a : Nat} (ha : a ∈ t.buckets.getD i []) :
    nextField t a = succIn (t.buckets.getD i []) a := by
  have hi : ∃ l, t.buckets[i]? = some l ∧ t.buckets.getD i [] = l := by
    rw [List.getD_eq_getElem?_getD] at *
    cases hb : t.buckets[i]? with
    | none => rw [hb] at ha; simp at ha
    | some l => exact ⟨l, rfl, rfl⟩
  obtain ⟨l, hl, he⟩ := hi
  rw [he] at ha ⊢
  unfold nextField
  have hmem : l ∈ t.buckets ++ t.loose := List.mem_append_left _ (List.mem_iff_getElem?.2 ⟨i, hl⟩)
  have huniq : ∀ (L : List (List Nat)), L.flatten.Nodup → l ∈ L → L.find? (fun l => l.contains a) = some l := by
    intro L
    induction L with
    | nil => intro _ h; simp at h
    | cons x L ih =>
      intro hn hm
      rw [List.find?_cons]
      by_cases hx : x.contains a = true
      · rw [hx]
        rcases List.mem_cons.1 hm with rfl | hm
        · rfl
        · exfalso
          rw [List.flatten_cons, List.nodup_append] at hn
          exact hn.2.2 a (by simpa using hx) a (List.mem_flatten.2 ⟨l, hm, ha⟩) rfl
      · have hx' : x.contains a = false := by simpa using hx
        rw [hx']
        rcases List.mem_cons.1 hm with rfl | hm
        · exact absurd (by simpa using ha) hx
        · rw [List.flatten_cons, List.nodup_append] at hn
          exact ih hn.2.1 hm
  rw [huniq _ h hmem]

/-- One step of an iterator. -/
theorem iterNext_rest {t : Table} (h : (all t).Nodup) {it : Iter} (hv : ValidIt t it) :
    match rest t it with
    | [] => iterNext t it = (none, it)
    | e :: r => ∃ it', iterNext t it = (some e, it') ∧ rest t it' = r ∧ ValidIt t it' := by
  obtain ⟨b, next⟩ := it
  cases next with
  | none =>
    unfold rest iterNext
    rfl
  | some x =>
    have hx := hv x rfl
    dsimp only at hx
    obtain ⟨r0, hr0, _⟩ := fromIn_mem hx
    have hrest : rest t { bucket := b, next := some x } = x :: (r0 ++ (t.buckets.drop (b + 1)).flatten) := by
      unfold rest; dsimp only; rw [hr0]; rfl
    rw [hrest]
    dsimp only
    unfold iterNext
    dsimp only
    rw [nextField_live h hx, succIn_of hx hr0]
    cases r0 with
    | cons y r1 =>
      refine ⟨_, rfl, ?_, ?_⟩
      · unfold rest
        dsimp only
        rw [fromIn_succ (chain_nodup h b) hr0]
      · intro z hz
        dsimp only at hz ⊢
        injection hz with hz
        subst hz
        have : y ∈ fromIn (t.buckets.getD b []) x := by rw [hr0]; simp
        exact (List.dropWhile_sublist _).subset this
    | nil =>
      dsimp only [List.head?_nil]
      have := scan_spec (t.buckets.drop (b + 1)) (b + 1)
      cases hs : scan (t.buckets.drop (b + 1)) (b + 1) with
      | none =>
        rw [hs] at this
        refine ⟨_, rfl, ?_, ?_⟩
        · rw [this]; rfl
        · intro z hz; cases hz
      | some ja =>
        obtain ⟨j, a⟩ := ja
        rw [hs] at this
        obtain ⟨h1, r, h2, h3⟩ := this
        have hget : t.buckets.getD j [] = a :: r := by
          rw [← h2, List.getD_eq_getElem?_getD, List.getD_eq_getElem?_getD, List.getElem?_drop]
          congr 2; omega
        refine ⟨_, rfl, ?_, ?_⟩
        · unfold rest
          dsimp only
          rw [hget, fromIn_head, h3, List.drop_drop, List.nil_append]
          congr 3; omega
        · intro z hz
          dsimp only at hz ⊢
          injection hz with hz
          subst hz
          rw [hget]; simp

/-- The general iteration principle: if each callback keeps the entries the iterator has still to deliver, the
iteration applies the callback to each entry in turn. -/
theorem iterate_foldl (tab : σ → Mem K V × Table) (proc : K → Option V → σ → σ × Bool)
    (Inv : σ → List Nat → Prop)
    (hnd : ∀ s r, Inv s r → (all (tab s).2).Nodup)
    (hns : ∀ s e r, Inv s (e :: r) → (proc ((tab s).1.ent e).key ((tab s).1.ent e).value s).2 = false)
    (hstep : ∀ s e r, Inv s (e :: r) →
      Inv (proc ((tab s).1.ent e).key ((tab s).1.ent e).value s).1 r)
    (hstab : ∀ s e r it', Inv s (e :: r) → ValidIt (tab s).2 it' → rest (tab s).2 it' = r →
      ValidIt (tab (proc ((tab s).1.ent e).key ((tab s).1.ent e).value s).1).2 it' ∧
      rest (tab (proc ((tab s).1.ent e).key ((tab s).1.ent e).value s).1).2 it' = r) :
    ∀ (r : List Nat) (fuel : Nat) (it : Iter) (s : σ), r.length < fuel → Inv s r → ValidIt (tab s).2 it →
      rest (tab s).2 it = r →
      iterate tab proc fuel it s
        = some (r.foldl (fun s e => (proc ((tab s).1.ent e).key ((tab s).1.ent e).value s).1) s) := by
  intro r
  induction r with
  | nil =>
    intro fuel it s hf hI hv hr
    obtain ⟨f, rfl⟩ : ∃ f, fuel = f + 1 := ⟨fuel - 1, by simp at hf; omega⟩
    have := iterNext_rest (hnd _ _ hI) hv
    rw [hr] at this
    dsimp only at this
    unfold iterate
    rw [this]
    rfl
  | cons e r ih =>
    intro fuel it s hf hI hv hr
    obtain ⟨f, rfl⟩ : ∃ f, fuel = f + 1 := ⟨fuel - 1, by omega⟩
    have := iterNext_rest (hnd _ _ hI) hv
    rw [hr] at this
    obtain ⟨it', h1, h2, h3⟩ := this
    unfold iterate
    rw [h1]
    dsimp only
    have hs2 := hns s e r hI
    obtain ⟨g1, g2⟩ := hstab s e r it' hI h3 h2
    generalize hp : proc ((tab s).1.ent e).key ((tab s).1.ent e).value s = ps at *
    obtain ⟨s', b⟩ := ps
    dsimp only at hs2 g1 g2 ⊢
    subst hs2
    dsimp only
    have hst := hstep s e r hI
    rw [hp] at hst
    rw [ih f it' s' (by simp at hf; omega) hst g1 g2]
    rw [List.foldl_cons, hp]

/-- Deleting an entry the iterator has already delivered does not disturb it. -/
theorem rest_delete {t : Table} {a i : Nat} {it : Iter} (hv : ValidIt t it) (hna : a ∉ rest t it) :
    ValidIt (deleteEntry t a i) it ∧ rest (deleteEntry t a i) it = rest t it := by
  obtain ⟨b, next⟩ := it
  cases next with
  | none => exact ⟨fun x hx => (by cases hx), rfl⟩
  | some x =>
    have hx := hv x rfl
    dsimp only at hx
    unfold rest at hna ⊢
    dsimp only at hna ⊢
    rw [List.mem_append, not_or] at hna
    obtain ⟨r0, hr0, p, hl, hp⟩ := fromIn_mem hx
    rw [hr0] at hna
    have hax : x ≠ a := fun h => hna.1 (by simp [h])
    have hget : ∀ j, (deleteEntry t a i).buckets.getD j [] =
        if i = j then (t.buckets.getD j []).erase a else t.buckets.getD j [] := by
      intro j
      unfold deleteEntry
      dsimp only
      rw [List.getD_eq_getElem?_getD, List.getElem?_set]
      by_cases hij : i = j
      · subst hij
        rw [if_pos rfl, if_pos rfl]
        split
        · rfl
        · rename_i hlt
          rw [List.getD_eq_getElem?_getD, List.getElem?_eq_none (by omega)]; simp
      · rw [if_neg hij, if_neg hij, List.getD_eq_getElem?_getD]
    have hdrop : (deleteEntry t a i).buckets.drop (b + 1) = t.buckets.drop (b + 1) := by
      apply List.ext_getElem?
      intro j
      rw [List.getElem?_drop, List.getElem?_drop]
      unfold deleteEntry
      dsimp only
      rw [List.getElem?_set]
      by_cases hij : i = b + 1 + j
      · subst hij
        rw [if_pos rfl]
        have : a ∉ t.buckets.getD (b + 1 + j) [] := by
          intro h
          apply hna.2
          rw [List.getD_eq_getElem?_getD] at h
          cases hb : t.buckets[b + 1 + j]? with
          | none => rw [hb] at h; simp at h
          | some l =>
            rw [hb] at h
            refine List.mem_flatten.2 ⟨l, ?_, h⟩
            rw [List.mem_iff_getElem?]
            exact ⟨j, by rw [List.getElem?_drop]; exact hb⟩
        rw [List.erase_of_not_mem this]
        split
        · rename_i hlt
          rw [List.getD_eq_getElem?_getD, List.getElem?_eq_getElem hlt]; rfl
        · rename_i hlt
          rw [List.getElem?_eq_none (by omega)]
      · rw [if_neg hij]
    have herase : fromIn ((t.buckets.getD b []).erase a) x = fromIn (t.buckets.getD b []) x := by
      rw [hr0, hl]
      by_cases hap : a ∈ p
      · rw [List.erase_append_left _ hap]
        have hp' : x ∉ p.erase a := fun h => hp (List.mem_of_mem_erase h)
        unfold fromIn
        rw [List.dropWhile_append_of_pos]
        · simp
        · intro y hy
          have : y ≠ x := fun h => hp' (h ▸ hy)
          simp [this]
      · rw [List.erase_append_right _ hap]
        rw [List.erase_of_not_mem hna.1]
        unfold fromIn
        rw [List.dropWhile_append_of_pos]
        · simp
        · intro y hy
          have : y ≠ x := fun h => hp (h ▸ hy)
          simp [this]
    constructor
    · intro z hz
      dsimp only at hz ⊢
      injection hz with hz
      subst hz
      rw [hget]
      split
      · exact (List.mem_erase_of_ne hax).2 hx
      · exact hx
    · rw [hdrop, hget]
      split
      · rw [herase]
      · rfl

/-- Iteration with a callback that does not touch the table. -/
theorem iterate_const {ρ : Type} {c : Cfg K} {m : Mem K V} {t : Table} (hw : WF c m t) (f : K → Option V → ρ → ρ)
    (s : ρ) {fuel : Nat} (hf : t.numEntries < fuel) :
    tfold m t f s fuel = some ((live t).foldl (fun r e => f (m.ent e).key (m.ent e).value r) s) := by
  obtain ⟨h1, h2⟩ := iterInit_rest t
  unfold tfold iterateAll
  exact iterate_foldl (fun _ => (m, t)) (fun k v r => (f k v r, false)) (fun _ _ => True)
    (fun _ _ _ => hw.nodup) (fun _ _ _ _ => rfl) (fun _ _ _ _ => trivial) (fun _ _ _ _ _ h3 h4 => ⟨h3, h4⟩)
    (live t) fuel _ s (by rw [← hw.count]; exact hf) trivial h2 h1

/-- Values of live entries. -/
theorem live_map_value {c : Cfg K} {m : Mem K V} {t : Table} (hw : WF c m t) :
    (live t).map (fun a => ((m.ent a).key, (m.ent a).value)) = (abs m t).map (fun p => (p.1, some p.2)) := by
  unfold abs
  have : ∀ l : List Nat, (∀ a ∈ l, (m.ent a).value.isSome) →
      l.map (fun a => ((m.ent a).key, (m.ent a).value)) = (l.filterMap (pairOf m)).map (fun p => (p.1, some p.2)) := by
    intro l
    induction l with
    | nil => intro _; rfl
    | cons a l ih =>
      intro h
      obtain ⟨v, hv⟩ := Option.isSome_iff_exists.1 (h a (by simp))
      rw [List.filterMap_cons_some (b := ((m.ent a).key, v)) (by simp [pairOf, hv]), List.map_cons, List.map_cons,
        ih (fun b hb => h b (by simp [hb])), hv]
  exact this _ hw.value

theorem foldl_live {ρ : Type} {c : Cfg K} {m : Mem K V} {t : Table} (hw : WF c m t) (f : K → Option V → ρ → ρ)
    (s : ρ) : (live t).foldl (fun r e => f (m.ent e).key (m.ent e).value r) s
      = (abs m t).foldl (fun r p => f p.1 (some p.2) r) s := by
  have h1 := live_map_value hw
  have : (live t).foldl (fun r e => f (m.ent e).key (m.ent e).value r) s
      = ((live t).map (fun a => ((m.ent a).key, (m.ent a).value))).foldl (fun r p => f p.1 p.2 r) s := by
    rw [List.foldl_map]
  rw [this, h1, List.foldl_map]

/-- `hash-table-seek`. -/
theorem seek_eq {c : Cfg K} {m : Mem K V} {t : Table} (hw : WF c m t) (pred : K → Option V → Bool) {fuel : Nat}
    (hf : t.numEntries < fuel) :
    seek m t pred fuel = some (((abs m t).find? (fun p => pred p.1 (some p.2))).map (fun p => (p.1, some p.2))) := by
  have key : ∀ (r : List Nat) (fuel : Nat) (it : Iter), r.length < fuel → ValidIt t it → rest t it = r →
      iterate (fun _ => (m, t)) (fun k v (s : Option (K × Option V)) => if pred k v then (some (k, v), true) else (s, false)) fuel it none
        = some ((r.map (fun a => ((m.ent a).key, (m.ent a).value))).find? (fun p => pred p.1 p.2)) := by
    intro r
    induction r with
    | nil =>
      intro fuel it hf hv hr
      obtain ⟨f, rfl⟩ : ∃ f, fuel = f + 1 := ⟨fuel - 1, by simp at hf; omega⟩
      have := iterNext_rest hw.nodup hv
      rw [hr] at this
      dsimp only at this
      unfold iterate
      dsimp only
      rw [this]
      rfl
    | cons e r ih =>
      intro fuel it hf hv hr
      obtain ⟨f, rfl⟩ : ∃ f, fuel = f + 1 := ⟨fuel - 1, by omega⟩
      have := iterNext_rest hw.nodup hv
      rw [hr] at this
      obtain ⟨it', h1, h2, h3⟩ := this
      unfold iterate
      dsimp only
      rw [h1]
      dsimp only
      by_cases hp : pred (m.ent e).key (m.ent e).value = true
      · rw [if_pos hp]
        simp [hp]
      · rw [if_neg hp]
        dsimp only
        rw [ih f it' (by simp at hf; omega) h3 h2]
        rw [List.map_cons, List.find?_cons_of_neg (by simpa using hp)]
  obtain ⟨h1, h2⟩ := iterInit_rest t
  unfold seek iterateAll
  rw [key (live t) fuel _ (by rw [← hw.count]; exact hf) h2 h1, live_map_value hw, List.find?_map]
  rfl

end Gauche.HashTable
