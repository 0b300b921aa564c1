import Mathlib.Data.List.Perm.Subperm
import Verif.Model.Queue
/-! Lemmas about the cons-cell chain of a `<queue>`. -/
namespace Gauche.Queue
variable {β : Type}

/-- The cells `as` form the chain that starts at `p` and whose last cdr is `e`. -/
def Seg (m : Mem β) : Option Nat → List Nat → Option Nat → Prop
  | p, [], e => p = e
  | p, a :: as, e => p = some a ∧ Seg m (m.cdr a) as e

theorem Seg.congr {m m' : Mem β} : ∀ {as : List Nat} {p e}, (∀ a ∈ as, m'.cdr a = m.cdr a) →
    Seg m p as e → Seg m' p as e
  | [], _, _, _, h => h
  | a :: as, _, _, hc, h => by
    refine ⟨h.1, ?_⟩
    rw [hc a (by simp)]
    exact Seg.congr (fun x hx => hc x (by simp [hx])) h.2

theorem Seg.append {m : Mem β} : ∀ {as bs : List Nat} {p e f}, Seg m p as e → Seg m e bs f → Seg m p (as ++ bs) f
  | [], _, _, _, _, h, h' => by cases h; exact h'
  | _ :: _, _, _, _, _, h, h' => ⟨h.1, Seg.append h.2 h'⟩

/-- Redirecting the last cdr of a nodup chain. -/
theorem Seg.setLast {m : Mem β} {e : Option Nat} : ∀ {as : List Nat} {p t f}, Seg m p as f → as.Nodup →
    as.getLast? = some t → Seg (m.setCdr t e) p as e
  | [], _, _, _, _, _, hl => by simp at hl
  | [a], _, _, _, h, _, hl => by
    simp at hl; subst hl; simp [Seg, Mem.setCdr, h.1]
  | a :: b :: as, _, t, _, h, hn, hl => by
    have hl' : (b :: as).getLast? = some t := by simpa [List.getLast?_cons_cons] using hl
    refine ⟨h.1, ?_⟩
    have : a ≠ t := by
      rintro rfl
      have := List.mem_of_getLast? hl'
      grind
    have := Seg.setLast (e := e) h.2 (List.nodup_cons.1 hn).2 hl'
    simpa [Mem.setCdr, *] using this

theorem Seg.list {m : Mem β} : ∀ {as : List Nat} {p f}, Seg m p as none → as.length ≤ f →
    m.list f p = some (as.map m.car)
  | [], _, _, h, _ => by cases h; simp [Mem.list]
  | a :: as, _, f, h, hf => by
    obtain ⟨rfl, h2⟩ := h
    cases f with
    | zero => simp at hf
    | succ f => simp [Mem.list, Seg.list h2 (Nat.le_of_succ_le_succ hf)]

theorem Seg.lastPair {m : Mem β} : ∀ {as : List Nat} {p f}, Seg m (some p) as none → as.length ≤ f →
    m.lastPair f p = as.getLast?
  | [], _, _, h, _ => by cases h
  | [a], _, f, h, hf => by
    obtain ⟨h1, h2⟩ := h
    cases h1
    cases f with
    | zero => simp at hf
    | succ f => simp [Mem.lastPair, Seg] at *; simp [h2]
  | a :: b :: as, _, f, h, hf => by
    obtain ⟨h1, h2⟩ := h
    cases h1
    cases f with
    | zero => simp at hf
    | succ f =>
      have h3 := h2.1
      rw [h3] at h2
      simp [Mem.lastPair, h3, Seg.lastPair h2 (Nat.le_of_succ_le_succ hf), List.getLast?_cons_cons]

theorem newList_spec (m : Mem β) : ∀ l : List β, ∃ as, Seg (m.newList l).2 (m.newList l).1 as none ∧
    as.map (m.newList l).2.car = l ∧ as.Nodup ∧ (∀ a ∈ as, m.fresh ≤ a ∧ a < (m.newList l).2.fresh) ∧
    m.fresh ≤ (m.newList l).2.fresh ∧
    (∀ i, i < m.fresh → (m.newList l).2.car i = m.car i ∧ (m.newList l).2.cdr i = m.cdr i)
  | [] => ⟨[], by simp [Mem.newList, Seg]⟩
  | x :: xs => by
    obtain ⟨as, h1, h2, h3, h4, h5, h6⟩ := newList_spec m xs
    refine ⟨(m.newList xs).2.fresh :: as, ?_⟩
    simp only [Mem.newList, Mem.cons]
    have hne : ∀ a ∈ as, a ≠ (m.newList xs).2.fresh := fun a ha => Nat.ne_of_lt (h4 a ha).2
    refine ⟨⟨rfl, ?_⟩, ?_, ?_, ?_, ?_, ?_⟩
    · dsimp only
      rw [if_pos rfl]
      exact Seg.congr (m := (m.newList xs).2) (by intro a ha; simp [hne a ha]) h1
    · conv => rhs; rw [← h2]
      simp only [List.map_cons, if_true]
      rw [h2]; congr 1
      conv => rhs; rw [← h2]
      exact List.map_congr_left fun a ha => by simp [hne a ha]
    · exact List.nodup_cons.2 ⟨fun h => hne _ h rfl, h3⟩
    · simp; constructor
      · omega
      · intro a ha; have := h4 a ha; omega
    · exact Nat.le_succ_of_le h5
    · intro i hi
      have : i ≠ (m.newList xs).2.fresh := by omega
      simp [this]; exact h6 i hi

theorem newList_ne (m : Mem β) (x : β) (xs : List β) : ∃ p, (m.newList (x :: xs)).1 = some p := ⟨_, rfl⟩

theorem len_le_of_nodup {as : List Nat} {n : Nat} (h : as.Nodup) (hb : ∀ a ∈ as, a < n) : as.length ≤ n := by
  have : as.Subperm (List.range n) := List.subperm_of_subset h (by intro a ha; simpa using hb a ha)
  simpa using this.length_le

/-- The representation invariant: the chain cells are `as`. -/
structure WF (q : Q β) (as : List Nat) : Prop where
  seg : Seg q.mem q.head as none
  nodup : as.Nodup
  lt : ∀ a ∈ as, a < q.mem.fresh
  tail : as ≠ [] → q.tail = as.getLast?
  len : q.len = none ∨ q.len = some (as.length : Int)

/-- The queue object holds the elements `l`, front first. -/
def Rep (q : Q β) (l : List β) : Prop := ∃ as, WF q as ∧ as.map q.mem.car = l

theorem Rep.items {q : Q β} {l} (h : Rep q l) : q.items = some l := by
  obtain ⟨as, w, rfl⟩ := h
  exact w.seg.list (len_le_of_nodup w.nodup w.lt)

theorem rep_makeq (m : Mem β) : Rep (makeq m) [] := ⟨[], ⟨rfl, by simp, by simp, by simp, by simp [makeq]⟩, rfl⟩

theorem setContent_rep (q : Q β) (l : List β) : ∃ q', q.setContent l = some q' ∧ Rep q' l := by
  obtain ⟨as, h1, h2, h3, h4, h5, h6⟩ := newList_spec q.mem l
  cases l with
  | nil => exact ⟨_, rfl, [], ⟨rfl, by simp, by simp, by simp, by simp⟩, rfl⟩
  | cons x xs =>
    obtain ⟨p, hp⟩ := newList_ne q.mem x xs
    have hr : q.mem.newList (x :: xs) = (some p, (q.mem.newList (x :: xs)).2) := by rw [← hp]
    unfold Q.setContent
    rw [hr]
    generalize (q.mem.newList (x :: xs)).2 = m at *
    rw [hp] at h1
    have hlt : ∀ a ∈ as, a < m.fresh := fun a ha => (h4 a ha).2
    have := h1.lastPair (len_le_of_nodup h3 hlt)
    have hne : as ≠ [] := by rintro rfl; simp at h2
    obtain ⟨t, ht⟩ : ∃ t, as.getLast? = some t := by cases h : as.getLast? <;> simp_all
    rw [ht] at this
    refine ⟨_, by simp [this]; rfl, as, ⟨h1, h3, hlt, fun _ => by simp [ht], Or.inl rfl⟩, h2⟩

theorem length_rep {q : Q β} {l} (h : Rep q l) : ∃ q', q.length = some ((l.length : Int), q') ∧ Rep q' l := by
  unfold Q.length
  obtain ⟨as, w, hl⟩ := h
  have hlen : as.length = l.length := by simp [← hl]
  cases hq : q.len with
  | some n =>
    have := w.len; rw [hq] at this; simp at this
    exact ⟨q, by simp [this, hlen], as, w, hl⟩
  | none =>
    rw [Rep.items ⟨as, w, hl⟩]
    exact ⟨_, rfl, as, ⟨w.seg, w.nodup, w.lt, w.tail, Or.inr (by simp [hlen])⟩, hl⟩

theorem empty_rep {q : Q β} {l} (h : Rep q l) : q.empty = l.isEmpty := by
  obtain ⟨as, w, rfl⟩ := h
  have := w.seg
  cases as with
  | nil => simp [Seg] at this; simp [Q.empty, this]
  | cons a as => simp [Q.empty, this.1]

theorem peek_rep {q : Q β} {l} (h : Rep q l) :
    q.peek = l.head?.map fun x => (x, l.getLast?) := by
  obtain ⟨as, w, rfl⟩ := h
  have hs := w.seg
  cases as with
  | nil => simp [Seg] at hs; simp [Q.peek, hs]
  | cons a as =>
    have ht := w.tail (by simp)
    unfold Q.peek
    rw [hs.1]
    simp only [ht, List.head?_map, List.head?_cons, Option.map_some, List.getLast?_map]

/-- Appending a ready-made fresh segment. -/
theorem enqueueInt_rep {q : Q β} {as bs : List Nat} {h t : Nat} (w : WF q as) (hb : Seg q.mem (some h) bs none)
    (hbn : bs.Nodup) (hblt : ∀ b ∈ bs, b < q.mem.fresh) (hd : ∀ b ∈ bs, b ∉ as) (hbt : bs.getLast? = some t) :
    ∃ q', q.enqueueInt bs.length (some h) (some t) = some q' ∧
      Rep q' (as.map q.mem.car ++ bs.map q.mem.car) := by
  have hlen : (q.len.map (· + (bs.length : Int))) = none ∨
      (q.len.map (· + (bs.length : Int))) = some (((as ++ bs).length : Nat) : Int) := by
    rcases w.len with h | h <;> simp [h]
  have hbne : bs ≠ [] := by rintro rfl; simp at hbt
  unfold Q.enqueueInt
  have hs := w.seg
  cases as with
  | nil =>
    simp [Seg] at hs
    simp only [hs]
    exact ⟨_, rfl, bs, ⟨hb, hbn, hblt, fun _ => by simp [hbt], by simpa using hlen⟩, by simp⟩
  | cons a as =>
    have ht := w.tail (by simp)
    obtain ⟨u, hu⟩ : ∃ u, (a :: as).getLast? = some u := by cases h : (a :: as).getLast? <;> simp_all
    rw [hu] at ht
    simp only [hs.1, ht]
    have hua : u ∈ a :: as := List.mem_of_getLast? hu
    refine ⟨_, rfl, (a :: as) ++ bs, ⟨?_, ?_, ?_, ?_, hlen⟩, ?_⟩
    · refine Seg.append (Seg.setLast (e := some h) (f := none) ?_ w.nodup hu) (Seg.congr ?_ hb)
      · have := w.seg; rw [hs.1] at this; exact this
      · intro b hbb
        have : b ≠ u := by rintro rfl; exact hd _ hbb hua
        simp [Mem.setCdr, this]
    · rw [List.nodup_append]
      refine ⟨w.nodup, hbn, fun x hx y hy => ?_⟩
      rintro rfl; exact hd _ hy hx
    · intro x hx
      rcases List.mem_append.1 hx with h | h
      · exact w.lt x h
      · exact hblt x h
    · intro _; rw [List.getLast?_append, hbt]; rfl
    · simp [Mem.setCdr]

theorem WF.mono {q : Q β} {as} (w : WF q as) {m : Mem β} (h1 : q.mem.fresh ≤ m.fresh)
    (h2 : ∀ i, i < q.mem.fresh → m.car i = q.mem.car i ∧ m.cdr i = q.mem.cdr i) :
    WF { q with mem := m } as ∧ as.map m.car = as.map q.mem.car :=
  ⟨⟨Seg.congr (fun a ha => (h2 a (w.lt a ha)).2) w.seg, w.nodup,
    fun a ha => Nat.lt_of_lt_of_le (w.lt a ha) h1, w.tail, w.len⟩,
   List.map_congr_left fun a ha => (h2 a (w.lt a ha)).1⟩

/-- Allocating the new cells and appending them. -/
theorem enqueueNew_rep {q : Q β} {l : List β} (h : Rep q l) (x : β) (xs : List β) :
    ∃ p m t, q.mem.newList (x :: xs) = (some p, m) ∧ m.lastPair m.fresh p = some t ∧
     (∃ q', Q.enqueueInt { q with mem := m } (xs.length + 1) (some p) (some t) = some q' ∧ Rep q' (l ++ x :: xs)) ∧
     (∃ q', Q.pushInt { q with mem := m } (xs.length + 1) p t = some q' ∧ Rep q' (x :: xs ++ l)) := by
  obtain ⟨as, w, rfl⟩ := h
  obtain ⟨bs, h1, h2, h3, h4, h5, h6⟩ := newList_spec q.mem (x :: xs)
  obtain ⟨p, hp⟩ := newList_ne q.mem x xs
  have hr : q.mem.newList (x :: xs) = (some p, (q.mem.newList (x :: xs)).2) := by rw [← hp]
  generalize (q.mem.newList (x :: xs)).2 = m at *
  rw [hp] at h1
  have hlt : ∀ a ∈ bs, a < m.fresh := fun a ha => (h4 a ha).2
  have hl := h1.lastPair (len_le_of_nodup h3 hlt)
  have hne : bs ≠ [] := by rintro rfl; simp at h2
  obtain ⟨t, ht⟩ : ∃ t, bs.getLast? = some t := by cases h : bs.getLast? <;> simp_all
  rw [ht] at hl
  obtain ⟨w', hm⟩ := w.mono h5 h6
  have hbl : bs.length = xs.length + 1 := by have := congrArg List.length h2; simpa using this
  have hd : ∀ b ∈ bs, b ∉ as := fun b hb ha => by have := (h4 b hb).1; have := w.lt b ha; omega
  refine ⟨p, m, t, hr, hl, ?_, ?_⟩
  · have := enqueueInt_rep w' h1 h3 hlt hd ht
    rw [hbl] at this
    simpa [hm, h2] using this
  · have hs : Seg (m.setCdr t q.head) (some p) (bs ++ as) none := by
      refine Seg.append (Seg.setLast (e := q.head) h1 h3 ht) (Seg.congr ?_ w'.seg)
      intro b hbb
      have : b ≠ t := by rintro rfl; exact hd _ (List.mem_of_getLast? ht) hbb
      simp [Mem.setCdr, this]
    have hnd : (bs ++ as).Nodup := by
      rw [List.nodup_append]
      exact ⟨h3, w.nodup, fun x hx y hy e => hd x hx (e ▸ hy)⟩
    have hlt2 : ∀ a ∈ bs ++ as, a < (m.setCdr t q.head).fresh := by
      intro a ha
      rcases List.mem_append.1 ha with h | h
      · exact hlt a h
      · exact w'.lt a h
    have hts : Seg (m.setCdr t q.head) (some t) (t :: as) none := by
      refine ⟨rfl, ?_⟩
      refine Seg.congr (m := m) ?_ ?_
      · intro b hbb
        have : b ≠ t := by rintro rfl; exact hd _ (List.mem_of_getLast? ht) hbb
        simp [Mem.setCdr, this]
      · simpa [Mem.setCdr] using w'.seg
    have htl := hts.lastPair (f := (m.setCdr t q.head).fresh) (by
      have hh := len_le_of_nodup hnd hlt2
      have : 0 < bs.length := List.length_pos_iff.2 hne
      simp at hh ⊢; omega)
    obtain ⟨u, hu⟩ : ∃ u, (t :: as).getLast? = some u := by cases h : (t :: as).getLast? <;> simp_all
    unfold Q.pushInt
    rw [hu] at htl
    refine ⟨_, by simp only [htl]; rfl, bs ++ as, ⟨hs, hnd, hlt2, ?_, ?_⟩, ?_⟩
    · intro _
      simp only [List.getLast?_append, ht]
      cases has : as.getLast? with
      | none => simp_all
      | some v => simp_all [List.getLast?_cons]
    · rcases w.len with h | h
      · simp [h]
      · right; simp [h, hbl]; omega
    · simp [Mem.setCdr, h2, hm]

theorem enqueue_rep {q : Q β} {l : List β} (h : Rep q l) (x : β) (xs : List β) :
    ∃ q', q.enqueue x xs = some q' ∧ Rep q' (l ++ x :: xs) := by
  obtain ⟨p, m, t, e1, e2, ⟨q', e3, r⟩, -⟩ := enqueueNew_rep h x xs
  refine ⟨q', ?_, r⟩
  cases xs with
  | nil =>
    simp only [Mem.newList] at e1
    cases e1
    have : t = q.mem.fresh := by
      simp [Mem.cons, Mem.lastPair] at e2; exact e2.symm
    subst this
    simpa [Q.enqueue, Mem.cons] using e3
  | cons y ys =>
    obtain ⟨d, hd⟩ := newList_ne q.mem y ys
    have hr : q.mem.newList (y :: ys) = (some d, (q.mem.newList (y :: ys)).2) := by rw [← hd]
    rw [Mem.newList, hr] at e1
    unfold Q.enqueue
    simp only
    rw [hr]
    generalize hm1 : (q.mem.newList (y :: ys)).2 = m1 at *
    simp only [Mem.cons] at e1
    cases e1
    simp only [Mem.cons, Option.bind_some]
    have e2' := e2
    simp only [Mem.lastPair] at e2
    simp only [if_true] at e2
    -- the walk from the second cell with one more unit of fuel
    have mono : ∀ (mm : Mem β) f p t, mm.lastPair f p = some t → mm.lastPair (f + 1) p = some t := by
      intro mm f
      induction f with
      | zero => intro p t h; simp [Mem.lastPair] at h
      | succ f ih =>
        intro p t h
        rw [Mem.lastPair] at h ⊢
        cases hc : mm.cdr p with
        | none => rw [hc] at h; exact h
        | some c => rw [hc] at h; exact ih c t h
    rw [mono _ _ _ _ e2]
    simpa using e3

theorem push_rep {q : Q β} {l : List β} (h : Rep q l) (x : β) (xs : List β) :
    ∃ q', q.push x xs = some q' ∧ Rep q' ((x :: xs).reverse ++ l) := by
  obtain ⟨y, ys, hy⟩ : ∃ y ys, (x :: xs).reverse = y :: ys := by
    cases hh : (x :: xs).reverse with
    | nil => simp at hh
    | cons y ys => exact ⟨y, ys, rfl⟩
  obtain ⟨p, m, t, e1, e2, -, q', e3, r⟩ := enqueueNew_rep h y ys
  have hlen : ys.length = xs.length := by have := congrArg List.length hy; simpa using this.symm
  rw [hy]
  refine ⟨q', ?_, r⟩
  cases xs with
  | nil =>
    simp at hy; obtain ⟨rfl, rfl⟩ := hy
    simp only [Mem.newList] at e1
    cases e1
    have : t = q.mem.fresh := by
      simp [Mem.cons, Mem.lastPair] at e2; exact e2.symm
    subst this
    simpa [Q.push, Mem.cons] using e3
  | cons z zs =>
    unfold Q.push
    simp only [hy, e1, Option.bind_some, e2]
    rw [hlen] at e3
    exact e3

theorem dequeueInt_rep (isM : β → Bool) (nil : β) : ∀ (f : Nat) (q : Q β) (l : List β), Rep q l → l.length < f →
    ∃ q', q.dequeueInt isM nil f = some ((l.dropWhile isM).head?, q') ∧ Rep q' (l.dropWhile isM).tail
  | 0, _, _, _, h => absurd h (by simp)
  | f + 1, q, l, hr, hf => by
    obtain ⟨as, w, rfl⟩ := hr
    have hs := w.seg
    cases as with
    | nil =>
      simp [Seg] at hs
      exact ⟨q, by simp [Q.dequeueInt, hs], [], w, rfl⟩
    | cons a as =>
      have hna : ∀ b ∈ as, b ≠ a := by
        intro b hb e; subst e; exact (List.nodup_cons.1 w.nodup).1 hb
      have hr' : Rep (⟨q.len.map (· - 1), q.mem.cdr a, q.tail, Mem.setCdr (Mem.setCar q.mem a nil) a none⟩ : Q β) (as.map q.mem.car) := by
        refine ⟨as, ⟨Seg.congr ?_ hs.2, (List.nodup_cons.1 w.nodup).2, fun b hb => w.lt b (by simp [hb]), ?_, ?_⟩, ?_⟩
        · intro b hb; simp [Mem.setCdr, Mem.setCar, hna b hb]
        · intro hne
          have := w.tail (by simp)
          cases as with
          | nil => exact absurd rfl hne
          | cons b bs => simpa [List.getLast?_cons_cons] using this
        · rcases w.len with h | h
          · simp [h]
          · right; simp [h]; 
        · exact List.map_congr_left fun b hb => by simp [Mem.setCdr, Mem.setCar, hna b hb]
      unfold Q.dequeueInt
      simp only [hs.1, List.map_cons, List.dropWhile_cons]
      by_cases hm : isM (q.mem.car a) = true
      · simp only [hm, if_true]
        exact dequeueInt_rep isM nil f _ _ hr' (by simpa using hf)
      · simp only [hm]
        exact ⟨_, rfl, hr'⟩

theorem dequeue_rep (isM : β → Bool) (nil : β) {q : Q β} {l : List β} (h : Rep q l) :
    ∃ q', q.dequeue isM nil = some ((l.dropWhile isM).head?, q') ∧ Rep q' (l.dropWhile isM).tail := by
  apply dequeueInt_rep _ _ _ _ _ h
  obtain ⟨as, w, rfl⟩ := h
  have := len_le_of_nodup w.nodup w.lt
  simp; omega

theorem dequeueAll_rep (isM : β → Bool) {q : Q β} {l : List β} (h : Rep q l) :
    ∃ q', q.dequeueAll isM = some (if l.getLast?.any isM then l.filter (fun y => !isM y) else l, q') ∧ Rep q' [] := by
  unfold Q.dequeueAll
  rw [h.items]
  have hr : Rep ({ q with len := some 0, head := none, tail := none } : Q β) [] :=
    ⟨[], ⟨rfl, by simp, by simp, by simp, by simp⟩, rfl⟩
  cases hl : l.getLast? with
  | none => exact ⟨_, by simp [hl], hr⟩
  | some x =>
    by_cases hx : isM x = true
    · exact ⟨_, by simp [hl, hx], hr⟩
    · exact ⟨_, by simp [hl, hx], hr⟩


/-- What `pick` of `enqueue-unique!` keeps, in queue order. -/
theorem pickEnq_append (cmp : β → β → Bool) (lis : List β) : ∀ (ins xs : List β),
    lis ++ (pickEnq cmp lis xs ins).reverse =
      ins.foldl (fun acc x => if acc.any (cmp x) then acc else acc ++ [x]) (lis ++ xs.reverse)
  | [], xs => by simp [pickEnq]
  | x :: ins, xs => by
    rw [pickEnq, List.foldl_cons]
    have : (lis ++ xs.reverse).any (cmp x) = (lis.any (cmp x) || xs.any (cmp x)) := by simp
    rw [this]
    by_cases h : (lis.any (cmp x) || xs.any (cmp x)) = true
    · rw [if_pos h, if_pos h]; exact pickEnq_append cmp lis ins xs
    · rw [if_neg h, if_neg h]
      have := pickEnq_append cmp lis ins (x :: xs)
      rw [this]; simp

theorem enqueueUnique_rep (cmp : β → β → Bool) {q : Q β} {l : List β} (h : Rep q l) (objs : List β) :
    ∃ q', q.enqueueUnique cmp objs = some q' ∧
      Rep q' (objs.foldl (fun acc x => if acc.any (cmp x) then acc else acc ++ [x]) l) := by
  have hp := pickEnq_append cmp l objs []
  simp only [List.reverse_nil, List.append_nil] at hp
  rw [← hp]
  unfold Q.enqueueUnique
  rw [h.items]
  simp only [Option.bind_some]
  by_cases hx : (pickEnq cmp l [] objs).isEmpty = true
  · rw [if_pos hx]
    refine ⟨q, rfl, ?_⟩
    simp at hx; simpa [hx] using h
  · rw [if_neg hx]
    obtain ⟨y, ys, hy⟩ : ∃ y ys, (pickEnq cmp l [] objs).reverse = y :: ys := by
      cases hh : (pickEnq cmp l [] objs).reverse with
      | nil => simp at hh; simp [hh] at hx
      | cons y ys => exact ⟨y, ys, rfl⟩
    have hlen : (pickEnq cmp l [] objs).length = ys.length + 1 := by
      have := congrArg List.length hy; simpa using this
    obtain ⟨p, m, t, e1, e2, ⟨q', e3, r⟩, -⟩ := enqueueNew_rep h y ys
    rw [hy, hlen]
    refine ⟨q', ?_, r⟩
    simp only [e1, Option.bind_some, e2]
    exact e3

theorem pickPush_eq (cmp : β → β → Bool) : ∀ (ins lis : List β),
    pickPush cmp lis ins = ins.foldl (fun acc x => if acc.any (cmp x) then acc else x :: acc) lis
  | [], _ => rfl
  | x :: ins, lis => by
    rw [pickPush, List.foldl_cons]
    by_cases h : lis.any (cmp x) = true
    · rw [if_pos h, if_pos h]; exact pickPush_eq cmp ins lis
    · rw [if_neg h, if_neg h]; exact pickPush_eq cmp ins _

theorem pickPush_suffix (cmp : β → β → Bool) : ∀ (ins lis : List β), lis <:+ pickPush cmp lis ins
  | [], _ => List.suffix_refl _
  | x :: ins, lis => by
    rw [pickPush]
    split
    · exact pickPush_suffix cmp ins lis
    · exact (List.suffix_cons x lis).trans (pickPush_suffix cmp ins _)

theorem pushUnique_rep (cmp : β → β → Bool) {q : Q β} {l : List β} (h : Rep q l) (objs : List β) :
    ∃ q', q.pushUnique cmp objs = some q' ∧
      Rep q' (objs.foldl (fun acc x => if acc.any (cmp x) then acc else x :: acc) l) := by
  rw [← pickPush_eq]
  unfold Q.pushUnique
  rw [h.items]
  simp only [Option.bind_some]
  by_cases hx : (pickPush cmp l objs).length = l.length
  · rw [if_pos hx, ← (pickPush_suffix cmp objs l).eq_of_length hx.symm]
    exact ⟨q, rfl, h⟩
  · rw [if_neg hx]; exact setContent_rep q _

theorem removeLoop_eq (pred : β → Bool) : ∀ (xs rs : List β) (hit : Bool),
    removeLoop pred rs xs hit = (rs.reverse ++ xs.filter (fun x => !pred x), hit || xs.any pred)
  | [], rs, hit => by simp [removeLoop]
  | x :: xs, rs, hit => by
    rw [removeLoop]
    by_cases h : pred x = true
    · rw [if_pos h, removeLoop_eq pred xs rs true]; simp [h]
    · rw [if_neg h, removeLoop_eq pred xs (x :: rs) hit]; simp [h]

theorem remove_rep (pred : β → Bool) {q : Q β} {l : List β} (h : Rep q l) :
    ∃ q', q.remove pred = some (l.any pred, q') ∧ Rep q' (l.filter fun x => !pred x) := by
  unfold Q.remove
  rw [h.items]
  simp only [Option.bind_some]
  rw [removeLoop_eq]
  simp only [List.reverse_nil, List.nil_append, Bool.false_or]
  cases hp : l.any pred with
  | true =>
    obtain ⟨q', e, r⟩ := setContent_rep q (l.filter fun x => !pred x)
    exact ⟨q', by simp [e], r⟩
  | false =>
    refine ⟨q, rfl, ?_⟩
    rw [List.filter_eq_self.2 (by simpa using hp)]; exact h

end Gauche.Queue
