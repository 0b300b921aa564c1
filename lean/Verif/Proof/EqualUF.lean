import Verif.Model.Equal
/-! The union-find table of `equal?`. -/
namespace Gauche.Equal

/-- The box `b` leads to the root `r`. -/
inductive Root (B : List Box) : Nat → Nat → Prop
  | here {b n} : B[b]? = some (.cnt n) → Root B b b
  | step {b c r} : B[b]? = some (.link c) → Root B c r → Root B b r

theorem Root.uniq {B : List Box} {b r s : Nat} (h : Root B b r) (h' : Root B b s) : r = s := by
  induction h with
  | here h1 =>
    cases h' with
    | here h2 => rfl
    | step h2 _ => rw [h1] at h2; cases h2
  | step h1 _ ih =>
    cases h' with
    | here h2 => rw [h1] at h2; cases h2
    | step h2 h3 =>
      rw [h1] at h2; cases h2
      exact ih h3

theorem Root.isRoot {B : List Box} {b r : Nat} (h : Root B b r) : ∃ n, B[r]? = some (.cnt n) := by
  induction h with
  | here h1 => exact ⟨_, h1⟩
  | step _ _ ih => exact ih

theorem getElem?_set_ne' {B : List Box} {b c : Nat} {v : Box} (h : b ≠ c) : (B.set b v)[c]? = B[c]? := by
  rw [List.getElem?_set, if_neg h]

theorem getElem?_set_eq' {B : List Box} {b : Nat} {v w : Box} (h : B[b]? = some w) : (B.set b v)[b]? = some v := by
  obtain ⟨hl, _⟩ := List.getElem?_eq_some_iff.1 h
  rw [List.getElem?_set, if_pos rfl, if_pos hl]

/-- Path halving. -/
theorem Root.halve {B : List Box} {b n nn : Nat} (hb : B[b]? = some (.link n)) (hn : B[n]? = some (.link nn)) {c r : Nat}
    (h : Root B c r) : Root (B.set b (.link nn)) c r := by
  induction h with
  | @here c m h1 =>
    have : b ≠ c := by
      intro e; subst e; rw [hb] at h1; cases h1
    exact .here (by rw [getElem?_set_ne' this]; exact h1)
  | @step c d r h1 _ ih =>
    by_cases e : b = c
    · subst e
      rw [hb] at h1; cases h1
      by_cases e2 : b = n
      · subst e2; exact ih
      · cases ih with
        | here h3 => rw [getElem?_set_ne' e2, hn] at h3; cases h3
        | step h3 h4 =>
          rw [getElem?_set_ne' e2, hn] at h3; cases h3
          exact .step (getElem?_set_eq' hb) h4
    · exact .step (by rw [getElem?_set_ne' e]; exact h1) ih

theorem findLoop_spec : ∀ (m : Nat) (B : List Box) (b n : Nat) (B' : List Box) (r : Nat), B[b]? = some (.link n) → (∃ s, Root B b s) →
    findLoop m B b n = some (B', r) → (∀ c s, Root B c s → Root B' c s) ∧ Root B b r ∧ B'.length = B.length
  | 0, _, _, _, _, _, _, _, h => by cases h
  | m + 1, B, b, n, B', r, hb, ⟨s, hs⟩, h => by
    have hn : Root B n s := by
      cases hs with
      | here h1 => rw [hb] at h1; cases h1
      | step h1 h2 => rw [hb] at h1; cases h1; exact h2
    rw [findLoop] at h
    cases hv : B[n]? with
    | none =>
      exfalso
      cases hn with
      | here h1 => rw [hv] at h1; cases h1
      | step h1 _ => rw [hv] at h1; cases h1
    | some v =>
      rw [hv] at h
      cases v with
      | cnt k =>
        cases h
        exact ⟨fun _ _ h => h, .step hb (.here hv), rfl⟩
      | link nn =>
        have hne : b ≠ n ∨ b = n := by by_cases e : b = n; exact .inr e; exact .inl e
        have hsub : ∀ c s, Root B c s → Root (B.set b (.link nn)) c s := fun c s h => h.halve hb hv
        have hn' : (B.set b (.link nn))[n]? = some (.link nn) := by
          rcases hne with e | e
          · rw [getElem?_set_ne' e]; exact hv
          · subst e; exact getElem?_set_eq' hb
        obtain ⟨h1, h2, h3⟩ := findLoop_spec m _ n nn B' r hn' ⟨s, hsub _ _ hn⟩ h
        refine ⟨fun c t ht => h1 c t (hsub c t ht), ?_, by rw [h3, List.length_set]⟩
        have : r = s := h2.uniq (hsub _ _ hn)
        rw [this]
        exact hs

theorem find_spec {B : List Box} {b : Nat} {B' : List Box} {r : Nat} (hs : ∃ s, Root B b s) (h : find B b = some (B', r)) :
    (∀ c s, Root B c s → Root B' c s) ∧ Root B b r ∧ B'.length = B.length := by
  unfold find at h
  cases hv : B[b]? with
  | none =>
    obtain ⟨s, hs⟩ := hs
    exfalso
    cases hs with
    | here h1 => rw [hv] at h1; cases h1
    | step h1 _ => rw [hv] at h1; cases h1
  | some v =>
    rw [hv] at h
    cases v with
    | cnt k => cases h; exact ⟨fun _ _ h => h, .here hv, rfl⟩
    | link n => exact findLoop_spec _ B b n B' r hv hs h

theorem Root.append {B : List Box} {v : Box} {c s : Nat} (h : Root B c s) : Root (B ++ [v]) c s := by
  have key : ∀ {c : Nat} {w : Box}, B[c]? = some w → (B ++ [v])[c]? = some w := by
    intro c w h
    obtain ⟨hl, _⟩ := List.getElem?_eq_some_iff.1 h
    rw [List.getElem?_append_left hl]; exact h
  induction h with
  | here h1 => exact .here (key h1)
  | step h1 _ ih => exact .step (key h1) ih

/-- Linking the root `a` to the root `b`. -/
theorem Root.setLink {B : List Box} {a b m k j : Nat} (hab : a ≠ b) (ha : B[a]? = some (.cnt k)) (hb : B[b]? = some (.cnt j)) {c s : Nat}
    (h : Root B c s) : Root ((B.set a (.link b)).set b (.cnt m)) c (if s = a then b else s) := by
  have hb' : ((B.set a (.link b)).set b (.cnt m))[b]? = some (.cnt m) :=
    getElem?_set_eq' (w := .cnt j) (by rw [getElem?_set_ne' hab]; exact hb)
  have ha' : ((B.set a (.link b)).set b (.cnt m))[a]? = some (.link b) := by
    rw [getElem?_set_ne' (Ne.symm hab)]; exact getElem?_set_eq' ha
  have ho : ∀ c, c ≠ a → c ≠ b → ((B.set a (.link b)).set b (.cnt m))[c]? = B[c]? := by
    intro c h1 h2
    rw [getElem?_set_ne' (Ne.symm h2), getElem?_set_ne' (Ne.symm h1)]
  induction h with
  | @here c n h1 =>
    by_cases e : c = a
    · subst e; rw [if_pos rfl]; exact .step ha' (.here hb')
    · rw [if_neg e]
      by_cases e2 : c = b
      · subst e2; exact .here hb'
      · exact .here (by rw [ho c e e2]; exact h1)
  | @step c d s h1 _ ih =>
    have e : c ≠ a := by intro e; subst e; rw [ha] at h1; cases h1
    have e2 : c ≠ b := by intro e; subst e; rw [hb] at h1; cases h1
    exact .step (by rw [ho c e e2]; exact h1) ih

/-- Every object in the table has a root. -/
def UF.Inv (u : UF) : Prop := ∀ p b, u.tab p = some b → ∃ r, Root u.boxes b r

/-- Two objects are the same or in the same class. -/
def UF.Eq (u : UF) (p q : Nat) : Prop := p = q ∨ ∃ b c r, u.tab p = some b ∧ u.tab q = some c ∧ Root u.boxes b r ∧ Root u.boxes c r

theorem UF.empty_inv : UF.empty.Inv := fun _ _ h => by cases h

theorem UF.empty_eq {p q : Nat} (h : UF.empty.Eq p q) : p = q := by
  rcases h with h | ⟨_, _, _, h, _⟩
  · exact h
  · cases h

/-- What `%union-find` does. -/
structure UFStep (u : UF) (p q : Nat) (b : Bool) (u' : UF) : Prop where
  inv : u'.Inv
  mono : ∀ a c, u.Eq a c → u'.Eq a c
  eq : u'.Eq p q
  same : b = true → u.Eq p q ∧ ∀ a c, u'.Eq a c → u.Eq a c
  gen : ∀ R : Nat → Nat → Prop, (∀ a, R a a) → (∀ a c, R a c → R c a) → (∀ a c d, R a c → R c d → R a d) → (∀ a c, u.Eq a c → R a c) → R p q →
    ∀ a c, u'.Eq a c → R a c

theorem UF.eq_of_map {u u' : UF} (hu : u.Inv) (ht : u'.tab = u.tab) (hb : ∀ c s, Root u.boxes c s → Root u'.boxes c s) {p q : Nat} :
    u'.Eq p q ↔ u.Eq p q := by
  constructor
  · rintro (h | ⟨b, c, r, h1, h2, h3, h4⟩)
    · exact .inl h
    · rw [ht] at h1 h2
      obtain ⟨s, hs⟩ := hu _ _ h1
      obtain ⟨t, ht'⟩ := hu _ _ h2
      have e1 := (hb _ _ hs).uniq h3
      have e2 := (hb _ _ ht').uniq h4
      subst e1; subst e2
      exact .inr ⟨b, c, _, h1, h2, hs, ht'⟩
  · rintro (h | ⟨b, c, r, h1, h2, h3, h4⟩)
    · exact .inl h
    · exact .inr ⟨b, c, r, by rw [ht]; exact h1, by rw [ht]; exact h2, hb _ _ h3, hb _ _ h4⟩

theorem UF.inv_of_map {u u' : UF} (hu : u.Inv) (ht : u'.tab = u.tab) (hb : ∀ c s, Root u.boxes c s → Root u'.boxes c s) : u'.Inv := by
  intro p b h
  rw [ht] at h
  obtain ⟨r, hr⟩ := hu _ _ h
  exact ⟨r, hb _ _ hr⟩

theorem UF.symm {u : UF} {p q : Nat} (h : u.Eq p q) : u.Eq q p := by
  rcases h with h | ⟨b, c, r, h1, h2, h3, h4⟩
  · exact .inl h.symm
  · exact .inr ⟨c, b, r, h2, h1, h4, h3⟩

/-- Entering the object `p` in the class of `q`. -/
theorem enter_step {u : UF} (hu : u.Inv) {p q bq r : Nat} {B : List Box} (hp : u.tab p = none) (hq : u.tab q = some bq)
    (hB : ∀ c s, Root u.boxes c s → Root B c s) (hr : Root u.boxes bq r) : UFStep u p q false ⟨tabSet u.tab p r, B⟩ ∧ UFStep u q p false ⟨tabSet u.tab p r, B⟩ := by
  have hpq : q ≠ p := by intro e; subst e; rw [hp] at hq; cases hq
  have hrr : Root B r r := by
    obtain ⟨n, hn⟩ := (hB _ _ hr).isRoot
    exact .here hn
  have hinv : UF.Inv ⟨tabSet u.tab p r, B⟩ := by
    intro a b h
    show ∃ r, Root B b r
    by_cases e : a = p
    · simp only [tabSet, if_pos e, Option.some.injEq] at h
      subst h; exact ⟨_, hrr⟩
    · simp only [tabSet, if_neg e] at h
      obtain ⟨s, hs⟩ := hu _ _ h
      exact ⟨s, hB _ _ hs⟩
  have hmono : ∀ a c, u.Eq a c → UF.Eq ⟨tabSet u.tab p r, B⟩ a c := by
    rintro a c (h | ⟨b, b', s, h1, h2, h3, h4⟩)
    · exact .inl h
    · have ea : a ≠ p := by intro e; subst e; rw [hp] at h1; cases h1
      have ec : c ≠ p := by intro e; subst e; rw [hp] at h2; cases h2
      exact .inr ⟨b, b', s, by simp only [tabSet, if_neg ea]; exact h1, by simp only [tabSet, if_neg ec]; exact h2, hB _ _ h3, hB _ _ h4⟩
  have heq : UF.Eq ⟨tabSet u.tab p r, B⟩ p q :=
    .inr ⟨r, bq, r, by simp only [tabSet, if_pos], by simp only [tabSet, if_neg hpq]; exact hq, hrr, hB _ _ hr⟩
  have hgen : ∀ R : Nat → Nat → Prop, (∀ a, R a a) → (∀ a c, R a c → R c a) → (∀ a c d, R a c → R c d → R a d) → (∀ a c, u.Eq a c → R a c) → R p q →
      ∀ a c, UF.Eq ⟨tabSet u.tab p r, B⟩ a c → R a c := by
    intro R rr rs rt ru rpq a c h
    have old : ∀ a b s, a ≠ p → tabSet u.tab p r a = some b → Root B b s → ∃ b', u.tab a = some b' ∧ Root u.boxes b' s := by
      intro a b s ea hb hs
      simp only [tabSet, if_neg ea] at hb
      obtain ⟨t, ht⟩ := hu _ _ hb
      have := (hB _ _ ht).uniq hs
      subst this
      exact ⟨b, hb, ht⟩
    have new : ∀ b s, tabSet u.tab p r p = some b → Root B b s → s = r := by
      intro b s hb hs
      simp only [tabSet, if_pos, Option.some.injEq] at hb
      subst hb
      exact hs.uniq hrr
    rcases h with h | ⟨b, b', s, h1, h2, h3, h4⟩
    · subst h; exact rr _
    · by_cases ea : a = p
      · by_cases ec : c = p
        · subst ea; subst ec; exact rr _
        · subst ea
          have := new _ _ h1 h3
          subst this
          obtain ⟨b2, hb2, hs2⟩ := old c b' s ec h2 h4
          exact rt _ _ _ rpq (ru _ _ (.inr ⟨bq, b2, s, hq, hb2, hr, hs2⟩))
      · by_cases ec : c = p
        · subst ec
          have := new _ _ h2 h4
          subst this
          obtain ⟨b2, hb2, hs2⟩ := old a b s ea h1 h3
          exact rt _ _ _ (ru _ _ (.inr ⟨b2, bq, s, hb2, hq, hs2, hr⟩)) (rs _ _ rpq)
        · obtain ⟨b2, hb2, hs2⟩ := old a b s ea h1 h3
          obtain ⟨b3, hb3, hs3⟩ := old c b' s ec h2 h4
          exact ru _ _ (.inr ⟨b2, b3, s, hb2, hb3, hs2, hs3⟩)
  exact ⟨⟨hinv, hmono, heq, fun h => (by cases h), hgen⟩,
    ⟨hinv, hmono, UF.symm heq, fun h => (by cases h), fun R rr rs rt ru rqp => hgen R rr rs rt ru (rs _ _ rqp)⟩⟩

/-- Two new objects. -/
theorem fresh_step {u : UF} (hu : u.Inv) {p q : Nat} (hp : u.tab p = none) (hq : u.tab q = none) :
    UFStep u p q false ⟨tabSet (tabSet u.tab p u.boxes.length) q u.boxes.length, u.boxes ++ [.cnt 1]⟩ := by
  have hB : ∀ c s, Root u.boxes c s → Root (u.boxes ++ [.cnt 1]) c s := fun c s h => h.append
  have hroot : Root (u.boxes ++ [.cnt 1]) u.boxes.length u.boxes.length := .here (by simp : _ = some (Box.cnt 1))
  have tnew : ∀ a, (a = p ∨ a = q) → tabSet (tabSet u.tab p u.boxes.length) q u.boxes.length a = some u.boxes.length := by
    rintro a (e | e)
    · subst e
      by_cases e : a = q
      · simp [tabSet]
      · simp [tabSet]
    · subst e; simp [tabSet]
  have told : ∀ a, ¬ (a = p ∨ a = q) → tabSet (tabSet u.tab p u.boxes.length) q u.boxes.length a = u.tab a := by
    intro a h
    simp only [tabSet, if_neg (fun e => h (.inr e)), if_neg (fun e => h (.inl e))]
  refine ⟨?_, ?_, ?_, fun h => (by cases h), ?_⟩
  · intro a b h
    by_cases e : a = p ∨ a = q
    · have := (tnew a e).symm.trans h
      cases this
      exact ⟨_, hroot⟩
    · have := (told a e).symm.trans h
      obtain ⟨s, hs⟩ := hu _ _ this
      exact ⟨s, hB _ _ hs⟩
  · rintro a c (h | ⟨b, b', s, h1, h2, h3, h4⟩)
    · exact .inl h
    · have ea : ¬ (a = p ∨ a = q) := by
        rintro (e | e)
        · subst e; rw [hp] at h1; cases h1
        · subst e; rw [hq] at h1; cases h1
      have ec : ¬ (c = p ∨ c = q) := by
        rintro (e | e)
        · subst e; rw [hp] at h2; cases h2
        · subst e; rw [hq] at h2; cases h2
      exact .inr ⟨b, b', s, (told a ea).trans h1, (told c ec).trans h2, hB _ _ h3, hB _ _ h4⟩
  · exact .inr ⟨_, _, _, tnew p (.inl rfl), tnew q (.inr rfl), hroot, hroot⟩
  · intro R rr rs rt ru rpq a c h
    have old : ∀ a b s, ¬ (a = p ∨ a = q) → tabSet (tabSet u.tab p u.boxes.length) q u.boxes.length a = some b → Root (u.boxes ++ [.cnt 1]) b s →
        u.tab a = some b ∧ Root u.boxes b s := by
      intro a b s ea hb hs
      have hb := (told a ea).symm.trans hb
      obtain ⟨t, ht⟩ := hu _ _ hb
      have := (hB _ _ ht).uniq hs
      subst this
      exact ⟨hb, ht⟩
    have hlt : ∀ b s, Root u.boxes b s → s < u.boxes.length := by
      intro b s h
      obtain ⟨n, hn⟩ := h.isRoot
      exact (List.getElem?_eq_some_iff.1 hn).1
    have new : ∀ a b s, (a = p ∨ a = q) → tabSet (tabSet u.tab p u.boxes.length) q u.boxes.length a = some b → Root (u.boxes ++ [.cnt 1]) b s →
        s = u.boxes.length := by
      intro a b s ea hb hs
      have := (tnew a ea).symm.trans hb
      cases this
      exact hs.uniq hroot
    rcases h with h | ⟨b, b', s, h1, h2, h3, h4⟩
    · subst h; exact rr _
    · by_cases ea : a = p ∨ a = q
      · have e1 := new _ _ _ ea h1 h3
        by_cases ec : c = p ∨ c = q
        · rcases ea with e | e <;> rcases ec with e' | e' <;> subst e <;> subst e'
          · exact rr _
          · exact rpq
          · exact rs _ _ rpq
          · exact rr _
        · obtain ⟨h5, h6⟩ := old _ _ _ ec h2 h4
          have := hlt _ _ h6
          omega
      · obtain ⟨h5, h6⟩ := old _ _ _ ea h1 h3
        by_cases ec : c = p ∨ c = q
        · have e1 := new _ _ _ ec h2 h4
          have := hlt _ _ h6
          omega
        · obtain ⟨h7, h8⟩ := old _ _ _ ec h2 h4
          exact ru _ _ (.inr ⟨b, b', s, h5, h7, h6, h8⟩)

/-- Linking two roots. -/
theorem link_root {B : List Box} {x y : Nat} (hxy : x ≠ y) (hx : ∃ k, B[x]? = some (.cnt k)) (hy : ∃ k, B[y]? = some (.cnt k)) :
    ∃ z w, ((z = x ∧ w = y) ∨ (z = y ∧ w = x)) ∧ ∀ c s, Root B c s → Root (link B x y) c (if s = w then z else s) := by
  obtain ⟨k, hk⟩ := hx
  obtain ⟨j, hj⟩ := hy
  unfold link
  by_cases h : boxCnt B x > boxCnt B y
  · rw [if_pos h]
    exact ⟨x, y, .inl ⟨rfl, rfl⟩, fun c s hr => hr.setLink (Ne.symm hxy) hj hk⟩
  · rw [if_neg h]
    exact ⟨y, x, .inr ⟨rfl, rfl⟩, fun c s hr => hr.setLink hxy hk hj⟩

theorem merge_step {u : UF} (hu : u.Inv) {p q bp bq rp rq : Nat} {B : List Box} (hp : u.tab p = some bp) (hq : u.tab q = some bq)
    (hB : ∀ c s, Root u.boxes c s → Root B c s) (hrp : Root u.boxes bp rp) (hrq : Root u.boxes bq rq) (hne : rp ≠ rq) :
    UFStep u p q false ⟨u.tab, link B rp rq⟩ := by
  obtain ⟨z, w, hzw, hl⟩ := link_root hne (hB _ _ hrp).isRoot (hB _ _ hrq).isRoot
  have hL : ∀ c s, Root u.boxes c s → Root (link B rp rq) c (if s = w then z else s) := fun c s h => hl c s (hB c s h)
  have hpz : (if rp = w then z else rp) = z := by
    rcases hzw with ⟨h1, h2⟩ | ⟨h1, h2⟩
    · subst h1; subst h2; rw [if_neg hne]
    · subst h1; subst h2; rw [if_pos rfl]
  have hqz : (if rq = w then z else rq) = z := by
    rcases hzw with ⟨h1, h2⟩ | ⟨h1, h2⟩
    · subst h1; subst h2; rw [if_pos rfl]
    · subst h1; subst h2; rw [if_neg (Ne.symm hne)]
  refine ⟨?_, ?_, ?_, fun h => (by cases h), ?_⟩
  · intro a b h
    obtain ⟨s, hs⟩ := hu _ _ h
    exact ⟨_, hL _ _ hs⟩
  · rintro a c (h | ⟨b, b', s, h1, h2, h3, h4⟩)
    · exact .inl h
    · exact .inr ⟨b, b', _, h1, h2, hL _ _ h3, hL _ _ h4⟩
  · refine .inr ⟨bp, bq, z, hp, hq, ?_, ?_⟩
    · have := hL _ _ hrp; rw [hpz] at this; exact this
    · have := hL _ _ hrq; rw [hqz] at this; exact this
  · intro R rr rs rt ru rpq a c h
    rcases h with h | ⟨b, b', s, h1, h2, h3, h4⟩
    · subst h; exact rr _
    · obtain ⟨s1, hs1⟩ := hu _ _ h1
      obtain ⟨s2, hs2⟩ := hu _ _ h2
      have e1 := (hL _ _ hs1).uniq h3
      have e2 := (hL _ _ hs2).uniq h4
      have toz : ∀ a b t, u.tab a = some b → Root u.boxes b t → (if t = w then z else t) = z → R a p := by
        intro a b t hb ht e
        have : t = rp ∨ t = rq := by
          by_cases e2 : t = w
          · rcases hzw with ⟨h1, h2⟩ | ⟨h1, h2⟩
            · exact .inr (e2.trans h2)
            · exact .inl (e2.trans h2)
          · rw [if_neg e2] at e
            rcases hzw with ⟨h1, h2⟩ | ⟨h1, h2⟩
            · exact .inl (e.trans h1)
            · exact .inr (e.trans h1)
        rcases this with e | e
        · subst e; exact ru _ _ (.inr ⟨b, bp, _, hb, hp, ht, hrp⟩)
        · subst e; exact rt _ _ _ (ru _ _ (.inr ⟨b, bq, _, hb, hq, ht, hrq⟩)) (rs _ _ rpq)
      by_cases ez : s = z
      · subst ez
        exact rt _ _ _ (toz a b s1 h1 hs1 e1) (rs _ _ (toz c b' s2 h2 hs2 e2))
      · have f1 : s1 = s := by
          by_cases e : s1 = w
          · rw [if_pos e] at e1; exact absurd e1.symm ez
          · rw [if_neg e] at e1; exact e1
        have f2 : s2 = s := by
          by_cases e : s2 = w
          · rw [if_pos e] at e2; exact absurd e2.symm ez
          · rw [if_neg e] at e2; exact e2
        subst f1; subst f2
        exact ru _ _ (.inr ⟨b, b', _, h1, h2, hs1, hs2⟩)

/-- `%union-find` answers whether the objects are in the same class, and puts them into one class. -/
theorem unionFind_spec {u : UF} (hu : u.Inv) {p q : Nat} {b : Bool} {u' : UF} (h : unionFind u p q = some (b, u')) : UFStep u p q b u' := by
  unfold unionFind at h
  cases hp : u.tab p with
  | none =>
    cases hq : u.tab q with
    | none =>
      rw [hp, hq] at h
      cases h
      exact fresh_step hu hp hq
    | some bq =>
      rw [hp, hq] at h
      cases hf : find u.boxes bq with
      | none => simp only [hf] at h; cases h
      | some w =>
        obtain ⟨B, r⟩ := w
        simp only [hf] at h
        cases h
        obtain ⟨h1, h2, _⟩ := find_spec (hu _ _ hq) hf
        exact (enter_step hu hp hq h1 h2).1
  | some bp =>
    cases hq : u.tab q with
    | none =>
      rw [hp, hq] at h
      cases hf : find u.boxes bp with
      | none => simp only [hf] at h; cases h
      | some w =>
        obtain ⟨B, r⟩ := w
        simp only [hf] at h
        cases h
        obtain ⟨h1, h2, _⟩ := find_spec (hu _ _ hp) hf
        exact (enter_step hu hq hp h1 h2).2
    | some bq =>
      rw [hp, hq] at h
      cases hf : find u.boxes bp with
      | none => simp only [hf] at h; cases h
      | some w =>
        obtain ⟨B, r⟩ := w
        simp only [hf] at h
        obtain ⟨h1, h2, _⟩ := find_spec (hu _ _ hp) hf
        obtain ⟨t, ht⟩ := hu _ _ hq
        cases hg : find B bq with
        | none => simp only [hg] at h; cases h
        | some w =>
          obtain ⟨B', r'⟩ := w
          simp only [hg] at h
          obtain ⟨h3, h4, _⟩ := find_spec ⟨t, h1 _ _ ht⟩ hg
          have hB : ∀ c s, Root u.boxes c s → Root B' c s := fun c s hh => h3 _ _ (h1 _ _ hh)
          have : r' = t := h4.uniq (h1 _ _ ht)
          subst this
          by_cases e : r = r'
          · subst e
            rw [if_pos rfl] at h
            cases h
            have hE : u.Eq p q := .inr ⟨bp, bq, r, hp, hq, h2, ht⟩
            have hiff : ∀ a c, UF.Eq ⟨u.tab, B'⟩ a c ↔ u.Eq a c := fun a c => UF.eq_of_map (u' := ⟨u.tab, B'⟩) hu rfl hB
            exact ⟨UF.inv_of_map hu rfl hB, fun a c h => (hiff a c).2 h, (hiff _ _).2 hE, fun _ => ⟨hE, fun a c h => (hiff a c).1 h⟩,
              fun R _ _ _ ru _ a c h => ru _ _ ((hiff a c).1 h)⟩
          · rw [if_neg e] at h
            cases h
            exact merge_step hu hp hq hB h2 ht e

end Gauche.Equal
