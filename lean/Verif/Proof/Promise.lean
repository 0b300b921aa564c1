import Verif.Spec.Promise
import Mathlib.Tactic.Linarith
/-
Proofs about src/lazy.c, promises.
-/
namespace Gauche.Promise

variable {T V E : Type}

/-- The kind of `code` agrees with the state. -/
def Agrees : Content T V E → Prop
  | { state := .unforced, code := x, .. } => ∃ t, x = .thunk t
  | { state := .forced, code := x, .. } => ∃ v, x = .vals v
  | { state := .exception, code := x, .. } => ∃ e, x = .cond e

theorem Agrees.iff (c : Content T V E) : Agrees c ↔ (c.state = .unforced → ∃ t, c.code = .thunk t) ∧
    (c.state = .forced → ∃ v, c.code = .vals v) ∧ (c.state = .exception → ∃ e, c.code = .cond e) := by
  obtain ⟨s, x, l⟩ := c
  cases s <;> simp [Agrees]

@[simp] theorem setCode_content (h : Heap T V E) (c d : Nat) (x : Code T V E) :
    (h.setCode c x).content d = if d = c then { h.content c with code := x } else h.content d := by
  by_cases hd : d = c
  · subst hd; simp [Heap.setCode]
  · simp [Heap.setCode, hd]
@[simp] theorem setState_content (h : Heap T V E) (c d : Nat) (x : St) :
    (h.setState c x).content d = if d = c then { h.content c with state := x } else h.content d := by
  by_cases hd : d = c
  · subst hd; simp [Heap.setState]
  · simp [Heap.setState, hd]
@[simp] theorem setLock_content (h : Heap T V E) (c d : Nat) (x : Option Nat) :
    (h.setLock c x).content d = if d = c then { h.content c with lock := x } else h.content d := by
  by_cases hd : d = c
  · subst hd; simp [Heap.setLock]
  · simp [Heap.setLock, hd]
@[simp] theorem setPtr_content (h : Heap T V E) (p c d : Nat) : (h.setPtr p c).content d = h.content d := rfl
@[simp] theorem setCode_ptr (h : Heap T V E) (c : Nat) (x : Code T V E) : (h.setCode c x).ptr = h.ptr := rfl
@[simp] theorem setState_ptr (h : Heap T V E) (c : Nat) (x : St) : (h.setState c x).ptr = h.ptr := rfl
@[simp] theorem setLock_ptr (h : Heap T V E) (c : Nat) (x : Option Nat) : (h.setLock c x).ptr = h.ptr := rfl
@[simp] theorem setPtr_ptr (h : Heap T V E) (p c q : Nat) : (h.setPtr p c).ptr q = if q = p then c else h.ptr q := by
  by_cases hq : q = p
  · subst hq; simp [Heap.setPtr]
  · simp [Heap.setPtr, hq]

/-- A change by thread `t`: only contents that no other thread has locked, and none that is fulfilled. -/
def Benign (t : Nat) (h h' : Heap T V E) : Prop :=
  h'.ptr = h.ptr ∧ ∀ c, h'.content c = h.content c ∨
    (((h.content c).lock = none ∨ (h.content c).lock = some t) ∧
     ((h.content c).state ≠ .unforced → (h'.content c).state = (h.content c).state ∧ (h'.content c).code = (h.content c).code))

theorem Benign.refl (t : Nat) (h : Heap T V E) : Benign t h h := ⟨rfl, fun _ => Or.inl rfl⟩

theorem Benign.stable {t : Nat} {h h' : Heap T V E} (hb : Benign t h h') (c : Nat) (hc : (h.content c).state ≠ .unforced) :
    (h'.content c).state = (h.content c).state ∧ (h'.content c).code = (h.content c).code := by
  rcases hb.2 c with h1 | ⟨_, h2⟩
  · rw [h1]; exact ⟨rfl, rfl⟩
  · exact h2 hc

def PcOk (h : Heap T V E) (t p : Nat) : Pc T V E → Prop
  | .start => True
  | .switch c => c = h.ptr p
  | .retVals c => c = h.ptr p ∧ (h.content c).state = .forced
  | .retExc c => c = h.ptr p ∧ (h.content c).state = .exception
  | .lockSnap c => c = h.ptr p
  | .snap c => c = h.ptr p ∧ (h.content c).lock = some t ∧ Agrees (h.content c)
  | .eval code => ∃ x, code = .thunk x
  | .ccVals _ => True
  | .ccValsLock c _ => c = h.ptr p
  | .ccValsCheck c _ => c = h.ptr p ∧ (h.content c).lock = some t ∧ Agrees (h.content c)
  | .ccValsState c => c = h.ptr p ∧ (h.content c).lock = some t ∧ (h.content c).state = .unforced ∧ ∃ v, (h.content c).code = .vals v
  | .ccUnlock c => c = h.ptr p ∧ (h.content c).lock = some t ∧ Agrees (h.content c)
  | .exc _ => True
  | .excLock c _ => c = h.ptr p
  | .excCheck c _ => c = h.ptr p ∧ (h.content c).lock = some t ∧ Agrees (h.content c)
  | .excState c => c = h.ptr p ∧ (h.content c).lock = some t ∧ (h.content c).state = .unforced ∧ ∃ e, (h.content c).code = .cond e
  | .excUnlock c => c = h.ptr p ∧ (h.content c).lock = some t ∧ Agrees (h.content c) ∧ (h.content c).state ≠ .unforced
  | .excRaise c => c = h.ptr p ∧ (h.content c).state ≠ .unforced
  | _ => False

theorem PcOk.benign {t t' p : Nat} {h h' : Heap T V E} (hne : t' ≠ t) (hb : Benign t h h') {pc : Pc T V E} (hp : PcOk h t' p pc) :
    PcOk h' t' p pc := by
  have hlock : ∀ c, (h.content c).lock = some t' → h'.content c = h.content c := by
    intro c hc
    rcases hb.2 c with h1 | ⟨h1, _⟩
    · exact h1
    · rw [hc] at h1
      rcases h1 with h1 | h1
      · exact absurd h1 (by simp)
      · exact absurd (Option.some.inj h1) hne
  have hst : ∀ c s, s ≠ St.unforced → (h.content c).state = s → (h'.content c).state = s := by
    intro c s hs hc
    rw [(hb.stable c (by rw [hc]; exact hs)).1, hc]
  have hst2 : ∀ c, (h.content c).state ≠ .unforced → (h'.content c).state ≠ .unforced := by
    intro c hc
    rw [(hb.stable c hc).1]; exact hc
  cases pc <;> simp only [PcOk] at hp ⊢ <;> try rw [hb.1]
  all_goals first
    | exact hp
    | exact ⟨hp.1, hst _ _ (by simp) hp.2⟩
    | (rw [hlock _ hp.2.1]; exact hp)
    | exact ⟨hp.1, hst2 _ hp.2⟩

/-- The heap between steps. -/
def HeapOk (h : Heap T V E) : Prop :=
  ∀ c, ((h.content c).lock = none → Agrees (h.content c)) ∧
    ((h.content c).state = .forced → ∃ v, (h.content c).code = .vals v) ∧
    ((h.content c).state = .exception → ∃ e, (h.content c).code = .cond e)

theorem agrees_lock {h : Heap T V E} {c : Nat} (l : Option Nat) (ha : Agrees (h.content c)) : Agrees { h.content c with lock := l } := by
  rw [Agrees.iff] at ha ⊢; exact ha

theorem HeapOk.setLock_some {h : Heap T V E} {t c : Nat} (hh : HeapOk h) : HeapOk (h.setLock c (some t)) := by
  intro d
  rw [setLock_content]
  by_cases hd : d = c
  · rw [if_pos hd]
    exact ⟨fun h => absurd h (by simp), (hh c).2⟩
  · rw [if_neg hd]; exact hh d

theorem HeapOk.setLock_none {h : Heap T V E} {c : Nat} (hh : HeapOk h) (ha : Agrees (h.content c)) : HeapOk (h.setLock c none) := by
  intro d
  rw [setLock_content]
  by_cases hd : d = c
  · rw [if_pos hd]
    exact ⟨fun _ => agrees_lock _ ha, (hh c).2⟩
  · rw [if_neg hd]; exact hh d

theorem benign_setLock {h : Heap T V E} {t c : Nat} (l : Option Nat) (hl : (h.content c).lock = none ∨ (h.content c).lock = some t) :
    Benign t h (h.setLock c l) := by
  refine ⟨rfl, fun d => ?_⟩
  rw [setLock_content]
  by_cases hd : d = c
  · right; subst hd; simp [hl]
  · left; rw [if_neg hd]

theorem act_ok {h : Heap T V E} {t p : Nat} {pc : Pc T V E} (hh : HeapOk h) (hp : PcOk h t p pc) :
    match act h t p pc with
    | .blocked => True
    | .goto h' pc' => Benign t h h' ∧ HeapOk h' ∧ PcOk h' t p pc'
    | .finish (.returned x) => (h.content (h.ptr p)).state = .forced ∧ x = (h.content (h.ptr p)).code
    | .finish (.raised x) => (h.content (h.ptr p)).state ≠ .unforced ∧ x = (h.content (h.ptr p)).code := by
  cases pc with
  | start => exact ⟨Benign.refl t h, hh, rfl⟩
  | switch c =>
    simp only [act]
    cases hs : (h.content c).state with
    | unforced => exact ⟨Benign.refl t h, hh, hp⟩
    | forced => exact ⟨Benign.refl t h, hh, hp, hs⟩
    | exception => exact ⟨Benign.refl t h, hh, hp, hs⟩
  | retVals c =>
    obtain ⟨rfl, h2⟩ := hp
    exact ⟨h2, rfl⟩
  | retExc c =>
    obtain ⟨rfl, h2⟩ := hp
    exact ⟨by rw [h2]; simp, rfl⟩
  | lockSnap c =>
    simp only [act]
    cases hl : (h.content c).lock with
    | some _ => trivial
    | none =>
      refine ⟨benign_setLock _ (Or.inl hl), hh.setLock_some, hp, ?_, ?_⟩
      · rw [setLock_content, if_pos rfl]
      · rw [setLock_content, if_pos rfl]; exact agrees_lock _ ((hh c).1 hl)
  | snap c =>
    obtain ⟨h1, h2, h3⟩ := hp
    simp only [act]
    cases hs : (h.content c).state with
    | unforced => exact ⟨benign_setLock _ (Or.inr h2), hh.setLock_none h3, ((Agrees.iff _).1 h3).1 hs⟩
    | forced => exact ⟨benign_setLock _ (Or.inr h2), hh.setLock_none h3, h1⟩
    | exception => exact ⟨benign_setLock _ (Or.inr h2), hh.setLock_none h3, h1⟩
  | eval code => trivial
  | ccVals v => exact ⟨Benign.refl t h, hh, rfl⟩
  | ccValsLock c v =>
    simp only [act]
    cases hl : (h.content c).lock with
    | some _ => trivial
    | none =>
      refine ⟨benign_setLock _ (Or.inl hl), hh.setLock_some, hp, ?_, ?_⟩
      · rw [setLock_content, if_pos rfl]
      · rw [setLock_content, if_pos rfl]; exact agrees_lock _ ((hh c).1 hl)
  | ccValsCheck c v =>
    obtain ⟨h1, h2, h3⟩ := hp
    simp only [act]
    cases hs : (h.content c).state with
    | unforced =>
      refine ⟨⟨rfl, fun d => ?_⟩, fun d => ?_, h1, ?_, ?_, ?_⟩
      · rw [setCode_content]
        by_cases hd : d = c
        · right; subst hd; exact ⟨Or.inr h2, fun h => absurd hs h⟩
        · left; rw [if_neg hd]
      · rw [setCode_content]
        by_cases hd : d = c
        · rw [if_pos hd]; subst hd
          refine ⟨?_, ?_, ?_⟩ <;> intro h0 <;> dsimp only at h0
          · rw [h2] at h0; exact absurd h0 (by simp)
          · rw [hs] at h0; exact absurd h0 (by simp)
          · rw [hs] at h0; exact absurd h0 (by simp)
        · rw [if_neg hd]; exact hh d
      · rw [setCode_content, if_pos rfl]; exact h2
      · rw [setCode_content, if_pos rfl]; exact hs
      · rw [setCode_content, if_pos rfl]; exact ⟨v, rfl⟩
    | forced => exact ⟨Benign.refl t h, hh, h1, h2, h3⟩
    | exception => exact ⟨Benign.refl t h, hh, h1, h2, h3⟩
  | ccValsState c =>
    obtain ⟨h1, h2, h3, h4⟩ := hp
    refine ⟨⟨rfl, fun d => ?_⟩, fun d => ?_, h1, ?_, ?_⟩
    · rw [setState_content]
      by_cases hd : d = c
      · right; subst hd; exact ⟨Or.inr h2, fun h => absurd h3 h⟩
      · left; rw [if_neg hd]
    · rw [setState_content]
      by_cases hd : d = c
      · rw [if_pos hd]; subst hd
        refine ⟨?_, fun _ => h4, ?_⟩ <;> intro h0 <;> dsimp only at h0
        · rw [h2] at h0; exact absurd h0 (by simp)
        · exact absurd h0 (by simp)
      · rw [if_neg hd]; exact hh d
    · rw [setState_content, if_pos rfl]; exact h2
    · rw [setState_content, if_pos rfl]; exact h4
  | ccProm r => exact hp.elim
  | ccPromLock c r => exact hp.elim
  | ccPromCheck c r => exact hp.elim
  | ccPromCode c r cc => exact hp.elim
  | ccPromState c r cc => exact hp.elim
  | ccPromLink c r => exact hp.elim
  | ccUnlock c =>
    obtain ⟨h1, h2, h3⟩ := hp
    exact ⟨benign_setLock _ (Or.inr h2), hh.setLock_none h3, trivial⟩
  | exc e => exact ⟨Benign.refl t h, hh, rfl⟩
  | excLock c e =>
    simp only [act]
    cases hl : (h.content c).lock with
    | some _ => trivial
    | none =>
      refine ⟨benign_setLock _ (Or.inl hl), hh.setLock_some, hp, ?_, ?_⟩
      · rw [setLock_content, if_pos rfl]
      · rw [setLock_content, if_pos rfl]; exact agrees_lock _ ((hh c).1 hl)
  | excCheck c e =>
    obtain ⟨h1, h2, h3⟩ := hp
    simp only [act]
    cases hs : (h.content c).state with
    | unforced =>
      refine ⟨⟨rfl, fun d => ?_⟩, fun d => ?_, h1, ?_, ?_, ?_⟩
      · rw [setCode_content]
        by_cases hd : d = c
        · right; subst hd; exact ⟨Or.inr h2, fun h => absurd hs h⟩
        · left; rw [if_neg hd]
      · rw [setCode_content]
        by_cases hd : d = c
        · rw [if_pos hd]; subst hd
          refine ⟨?_, ?_, ?_⟩ <;> intro h0 <;> dsimp only at h0
          · rw [h2] at h0; exact absurd h0 (by simp)
          · rw [hs] at h0; exact absurd h0 (by simp)
          · rw [hs] at h0; exact absurd h0 (by simp)
        · rw [if_neg hd]; exact hh d
      · rw [setCode_content, if_pos rfl]; exact h2
      · rw [setCode_content, if_pos rfl]; exact hs
      · rw [setCode_content, if_pos rfl]; exact ⟨e, rfl⟩
    | forced => exact ⟨Benign.refl t h, hh, h1, h2, h3, by rw [hs]; simp⟩
    | exception => exact ⟨Benign.refl t h, hh, h1, h2, h3, by rw [hs]; simp⟩
  | excState c =>
    obtain ⟨h1, h2, h3, h4⟩ := hp
    refine ⟨⟨rfl, fun d => ?_⟩, fun d => ?_, h1, ?_, ?_, ?_⟩
    · rw [setState_content]
      by_cases hd : d = c
      · right; subst hd; exact ⟨Or.inr h2, fun h => absurd h3 h⟩
      · left; rw [if_neg hd]
    · rw [setState_content]
      by_cases hd : d = c
      · rw [if_pos hd]; subst hd
        refine ⟨?_, ?_, fun _ => h4⟩ <;> intro h0 <;> dsimp only at h0
        · rw [h2] at h0; exact absurd h0 (by simp)
        · exact absurd h0 (by simp)
      · rw [if_neg hd]; exact hh d
    · rw [setState_content, if_pos rfl]; exact h2
    · rw [setState_content, if_pos rfl]; exact h4
    · rw [setState_content, if_pos rfl]; simp
  | excUnlock c =>
    obtain ⟨h1, h2, h3, h4⟩ := hp
    refine ⟨benign_setLock _ (Or.inr h2), hh.setLock_none h3, h1, ?_⟩
    rw [setLock_content, if_pos rfl]; exact h4
  | excRaise c =>
    obtain ⟨rfl, h2⟩ := hp
    exact ⟨h2, rfl⟩

structure SysOk (s : Sys T V E) : Prop where
  heap : HeapOk s.heap
  cur : ∀ t p pc, (s.thread t).cur = some (p, pc) → PcOk s.heap t p pc
  stack : ∀ t, ∀ e ∈ (s.thread t).stack, ∃ x, e.2 = Code.thunk x
  hist : ∀ p r, (p, r) ∈ s.hist →
    (s.heap.content (s.heap.ptr p)).state ≠ .unforced ∧
    (r = .returned (s.heap.content (s.heap.ptr p)).code ∧ (s.heap.content (s.heap.ptr p)).state = .forced ∨
     r = .raised (s.heap.content (s.heap.ptr p)).code)

/-- The choice is not the end of a thunk with a promise. -/
def NoPromise : Choice V E → Prop
  | .finish (.promise _) => False
  | _ => True

theorem setThread_thread (s : Sys T V E) (t t' : Nat) (x : Thread T V E) :
    (setThread s t x).thread t' = if t' = t then x else s.thread t' := by
  by_cases h : t' = t
  · subst h; simp [setThread]
  · simp [setThread, h]

/-- Only the thread changes. -/
theorem SysOk.setThread {s : Sys T V E} (hs : SysOk s) (t : Nat) (x : Thread T V E)
    (h1 : ∀ p pc, x.cur = some (p, pc) → PcOk s.heap t p pc) (h2 : ∀ e ∈ x.stack, ∃ y, e.2 = Code.thunk y) :
    SysOk (setThread s t x) := by
  refine ⟨hs.heap, ?_, ?_, hs.hist⟩
  · intro t' p pc h
    rw [setThread_thread] at h
    by_cases ht : t' = t
    · rw [if_pos ht] at h; rw [ht]; exact h1 p pc h
    · rw [if_neg ht] at h; exact hs.cur t' p pc h
  · intro t' e he
    rw [setThread_thread] at he
    by_cases ht : t' = t
    · rw [if_pos ht] at he; exact h2 e he
    · rw [if_neg ht] at he; exact hs.stack t' e he

theorem step_go (s : Sys T V E) (t p : Nat) (pc : Pc T V E) (hc : (s.thread t).cur = some (p, pc)) (hne : ∀ code, pc ≠ .eval code) :
    step s t .go = match act s.heap t p pc with
      | .blocked => s
      | .goto h pc' => { setThread s t { (s.thread t) with cur := some (p, pc') } with heap := h }
      | .finish r => { setThread s t (pop (s.thread t).stack) with hist := (p, r) :: s.hist } := by
  unfold step
  rw [hc]
  cases pc <;> first | rfl | exact absurd rfl (hne _)

theorem step_other (s : Sys T V E) (t p : Nat) (pc : Pc T V E) (hc : (s.thread t).cur = some (p, pc)) (hne : ∀ code, pc ≠ .eval code)
    (ch : Choice V E) (hch : ch ≠ .go) : step s t ch = s := by
  unfold step
  rw [hc]
  cases pc <;> first | exact absurd rfl (hne _) | (cases ch <;> first | rfl | exact absurd rfl hch)

theorem step_ok {s : Sys T V E} (hs : SysOk s) (t : Nat) (ch : Choice V E) (hch : NoPromise ch) :
    SysOk (step s t ch) ∧ Benign t s.heap (step s t ch).heap := by
  cases hc : (s.thread t).cur with
  | none =>
    cases ch with
    | call p =>
      have he : step s t (.call p) = setThread s t { cur := some (p, .start), stack := [] } := by unfold step; rw [hc]
      rw [he]
      refine ⟨hs.setThread t _ ?_ ?_, Benign.refl _ _⟩
      · intro p pc h
        cases Option.some.inj h; trivial
      · intro e he; exact absurd he List.not_mem_nil
    | go => have he : step s t .go = s := by { unfold step; rw [hc] }
            rw [he]; exact ⟨hs, Benign.refl _ _⟩
    | finish o => have he : step s t (.finish o) = s := by { unfold step; rw [hc] }
                  rw [he]; exact ⟨hs, Benign.refl _ _⟩
  | some pp =>
    obtain ⟨p, pc⟩ := pp
    by_cases hev : ∃ code, pc = .eval code
    · obtain ⟨code, rfl⟩ := hev
      have hcode := hs.cur t p _ hc
      cases ch with
      | go => have he : step s t .go = s := by { unfold step; rw [hc] }
              rw [he]; exact ⟨hs, Benign.refl _ _⟩
      | call q =>
        have he : step s t (.call q) = setThread s t { cur := some (q, .start), stack := (p, code) :: (s.thread t).stack } := by
          unfold step; rw [hc]
        rw [he]
        refine ⟨hs.setThread t _ ?_ ?_, Benign.refl _ _⟩
        · intro p pc h
          cases Option.some.inj h; trivial
        · intro e he
          rcases List.mem_cons.1 he with h | h
          · rw [h]; exact hcode
          · exact hs.stack t e h
      | finish o =>
        cases o with
        | promise r => exact absurd hch (by simp [NoPromise])
        | vals v =>
          have he : step s t (.finish (.vals v)) = setThread s t { (s.thread t) with cur := some (p, .ccVals v) } := by
            unfold step; rw [hc]
          rw [he]
          refine ⟨hs.setThread t _ ?_ (hs.stack t), Benign.refl _ _⟩
          intro p pc h
          cases Option.some.inj h; trivial
        | raise e =>
          have he : step s t (.finish (.raise e)) = setThread s t { (s.thread t) with cur := some (p, .exc e) } := by
            unfold step; rw [hc]
          rw [he]
          refine ⟨hs.setThread t _ ?_ (hs.stack t), Benign.refl _ _⟩
          intro p pc h
          cases Option.some.inj h; trivial
    · have hne : ∀ code, pc ≠ .eval code := fun code h => hev ⟨code, h⟩
      by_cases hgo : ch = .go
      · subst hgo
        rw [step_go s t p pc hc hne]
        have ha := act_ok hs.heap (hs.cur t p pc hc)
        cases hact : act s.heap t p pc with
        | blocked => exact ⟨hs, Benign.refl _ _⟩
        | goto h' pc' =>
          rw [hact] at ha
          dsimp only at ha ⊢
          obtain ⟨hb, hh, hp⟩ := ha
          refine ⟨⟨hh, ?_, ?_, ?_⟩, hb⟩
          · intro t' q qc h
            replace h : ((Promise.setThread s t { (s.thread t) with cur := some (p, pc') }).thread t').cur = some (q, qc) := h
            rw [setThread_thread] at h
            by_cases ht : t' = t
            · rw [if_pos ht] at h
              cases Option.some.inj h
              rw [ht]; exact hp
            · rw [if_neg ht] at h
              exact (hs.cur t' q qc h).benign ht hb
          · intro t' e he
            replace he : e ∈ ((Promise.setThread s t { (s.thread t) with cur := some (p, pc') }).thread t').stack := he
            rw [setThread_thread] at he
            by_cases ht : t' = t
            · rw [if_pos ht] at he; exact hs.stack t e he
            · rw [if_neg ht] at he; exact hs.stack t' e he
          · intro q r hr
            obtain ⟨r1, r2⟩ := hs.hist q r hr
            obtain ⟨e1, e2⟩ := hb.stable _ r1
            rw [hb.1, e1, e2]
            exact ⟨r1, r2⟩
        | finish r =>
          rw [hact] at ha
          dsimp only at ha ⊢
          refine ⟨⟨hs.heap, ?_, ?_, ?_⟩, Benign.refl _ _⟩
          · intro t' q qc h
            replace h : ((Promise.setThread s t (pop (s.thread t).stack)).thread t').cur = some (q, qc) := h
            rw [setThread_thread] at h
            by_cases ht : t' = t
            · rw [if_pos ht] at h
              cases hst : (s.thread t).stack with
              | nil => rw [hst] at h; exact absurd h (by simp [pop])
              | cons e st =>
                rw [hst] at h
                have := hs.stack t e (by rw [hst]; exact List.mem_cons_self)
                cases Option.some.inj h
                exact this
            · rw [if_neg ht] at h
              exact hs.cur t' q qc h
          · intro t' e he
            replace he : e ∈ ((Promise.setThread s t (pop (s.thread t).stack)).thread t').stack := he
            rw [setThread_thread] at he
            by_cases ht : t' = t
            · rw [if_pos ht] at he
              cases hst : (s.thread t).stack with
              | nil => rw [hst] at he; exact absurd he (by simp [pop])
              | cons x st =>
                rw [hst] at he
                exact hs.stack t e (by rw [hst]; exact List.mem_cons_of_mem _ he)
            · rw [if_neg ht] at he; exact hs.stack t' e he
          · intro q r' hr
            rcases List.mem_cons.1 hr with h | h
            · cases h
              cases r with
              | returned x =>
                have hne : (s.heap.content (s.heap.ptr p)).state ≠ .unforced := by rw [ha.1]; simp
                exact ⟨hne, Or.inl ⟨congrArg Result.returned ha.2, ha.1⟩⟩
              | raised x => exact ⟨ha.1, Or.inr (congrArg Result.raised ha.2)⟩
            · exact hs.hist q r' h
      · rw [step_other s t p pc hc hne ch hgo]
        exact ⟨hs, Benign.refl _ _⟩

theorem run_ok {s : Sys T V E} (hs : SysOk s) (sched : List (Nat × Choice V E)) (hn : ∀ x ∈ sched, NoPromise x.2) :
    SysOk (run s sched) ∧ (run s sched).heap.ptr = s.heap.ptr ∧
    ∀ c, (s.heap.content c).state ≠ .unforced → ((run s sched).heap.content c).state = (s.heap.content c).state ∧
      ((run s sched).heap.content c).code = (s.heap.content c).code := by
  induction sched generalizing s with
  | nil => exact ⟨hs, rfl, fun c _ => ⟨rfl, rfl⟩⟩
  | cons x sched ih =>
    obtain ⟨h1, h2⟩ := step_ok hs x.1 x.2 (hn x List.mem_cons_self)
    obtain ⟨r1, r2, r3⟩ := ih h1 (fun y hy => hn y (List.mem_cons_of_mem _ hy))
    refine ⟨r1, by rw [← h2.1]; exact r2, fun c hc => ?_⟩
    obtain ⟨e1, e2⟩ := h2.stable c hc
    obtain ⟨f1, f2⟩ := r3 c (by rw [e1]; exact hc)
    exact ⟨by rw [← e1]; exact f1, by rw [← e2]; exact f2⟩

/-! ### Undisturbed sections -/

theorem settle_stable (h : Heap T V E) (q : Nat) (o : Outcome V E) (p : Nat) (hp : (h.content (h.ptr p)).state ≠ .unforced) :
    ((settle h q o).content ((settle h q o).ptr p)).state = (h.content (h.ptr p)).state ∧
    ((settle h q o).content ((settle h q o).ptr p)).code = (h.content (h.ptr p)).code := by
  unfold settle
  dsimp only
  cases hs : (h.content (h.ptr q)).state with
  | forced => exact ⟨rfl, rfl⟩
  | exception => exact ⟨rfl, rfl⟩
  | unforced =>
    have hne : h.ptr p ≠ h.ptr q := by
      intro he; rw [he] at hp; exact hp hs
    cases o with
    | vals v => simp [hne]
    | raise e => simp [hne]
    | promise r =>
      by_cases hpr : p = r
      · subst hpr; simp [hne]
      · simp [hpr, hne]

/-! ### Chains -/

/-- What forcing `p` must deliver; `n` is the length of the chain. -/
inductive DenN (eval : T → Outcome V E) (h : Heap T V E) : Nat → Nat → Result T V E → Prop where
  | forced {p : Nat} {x : Code T V E} (hs : (h.content (h.ptr p)).state = .forced) (hc : (h.content (h.ptr p)).code = x) :
      DenN eval h 0 p (.returned x)
  | exception {p : Nat} {x : Code T V E} (hs : (h.content (h.ptr p)).state = .exception) (hc : (h.content (h.ptr p)).code = x) :
      DenN eval h 0 p (.raised x)
  | vals {p : Nat} {t : T} {v : V} (hs : (h.content (h.ptr p)).state = .unforced) (hc : (h.content (h.ptr p)).code = .thunk t)
      (he : eval t = .vals v) : DenN eval h 0 p (.returned (.vals v))
  | raise {p : Nat} {t : T} {e : E} (hs : (h.content (h.ptr p)).state = .unforced) (hc : (h.content (h.ptr p)).code = .thunk t)
      (he : eval t = .raise e) : DenN eval h 0 p (.raised (.cond e))
  | chain {n p : Nat} {t : T} {r : Nat} {x : Result T V E} (hs : (h.content (h.ptr p)).state = .unforced)
      (hc : (h.content (h.ptr p)).code = .thunk t) (he : eval t = .promise r) (hr : DenN eval h n r x) : DenN eval h (n + 1) p x

theorem den_iff {eval : T → Outcome V E} {h : Heap T V E} {p : Nat} {x : Result T V E} : Den eval h p x ↔ ∃ n, DenN eval h n p x := by
  constructor
  · intro hd
    induction hd with
    | forced hs hc => exact ⟨0, .forced hs hc⟩
    | exception hs hc => exact ⟨0, .exception hs hc⟩
    | vals hs hc he => exact ⟨0, .vals hs hc he⟩
    | raise hs hc he => exact ⟨0, .raise hs hc he⟩
    | chain hs hc he hr ih =>
      obtain ⟨n, hn⟩ := ih
      exact ⟨n + 1, .chain hs hc he hn⟩
  · rintro ⟨n, hd⟩
    induction hd with
    | forced hs hc => exact .forced hs hc
    | exception hs hc => exact .exception hs hc
    | vals hs hc he => exact .vals hs hc he
    | raise hs hc he => exact .raise hs hc he
    | chain hs hc he hr ih => exact .chain hs hc he ih

theorem DenN.of_eq {eval : T → Outcome V E} {h h' : Heap T V E} {n p q : Nat} {x : Result T V E} (hd : DenN eval h n p x)
    (h1 : (h'.content (h'.ptr q)).state = (h.content (h.ptr p)).state) (h2 : (h'.content (h'.ptr q)).code = (h.content (h.ptr p)).code)
    (hch : ∀ m r, n = m + 1 → DenN eval h m r x → ∃ m', m' ≤ m ∧ DenN eval h' m' r x) :
    ∃ m, m ≤ n ∧ DenN eval h' m q x := by
  cases hd with
  | forced hs hc => exact ⟨0, le_refl _, .forced (by rw [h1, hs]) (by rw [h2, hc])⟩
  | exception hs hc => exact ⟨0, le_refl _, .exception (by rw [h1, hs]) (by rw [h2, hc])⟩
  | vals hs hc he => exact ⟨0, le_refl _, .vals (by rw [h1, hs]) (by rw [h2, hc]) he⟩
  | raise hs hc he => exact ⟨0, le_refl _, .raise (by rw [h1, hs]) (by rw [h2, hc]) he⟩
  | chain hs hc he hr =>
    obtain ⟨m', hm, hd⟩ := hch _ _ rfl hr
    exact ⟨m' + 1, by omega, .chain (by rw [h1, hs]) (by rw [h2, hc]) he hd⟩

/-- What `settle` does with what a thunk delivers. -/
theorem settle_view {eval : T → Outcome V E} {h : Heap T V E} {p : Nat} {t : T} (hs : (h.content (h.ptr p)).state = .unforced) :
    (∀ v, eval t = .vals v → ∀ q, (settle h p (eval t)).ptr q = h.ptr q ∧
        (h.ptr q = h.ptr p → ((settle h p (eval t)).content (h.ptr q)).state = .forced ∧ ((settle h p (eval t)).content (h.ptr q)).code = .vals v) ∧
        (h.ptr q ≠ h.ptr p → (settle h p (eval t)).content (h.ptr q) = h.content (h.ptr q))) ∧
    (∀ e, eval t = .raise e → ∀ q, (settle h p (eval t)).ptr q = h.ptr q ∧
        (h.ptr q = h.ptr p → ((settle h p (eval t)).content (h.ptr q)).state = .exception ∧ ((settle h p (eval t)).content (h.ptr q)).code = .cond e) ∧
        (h.ptr q ≠ h.ptr p → (settle h p (eval t)).content (h.ptr q) = h.content (h.ptr q))) ∧
    (∀ r, eval t = .promise r → ∀ q,
        (h.ptr q = h.ptr p ∨ q = r → (settle h p (eval t)).ptr q = h.ptr p) ∧
        (¬ (h.ptr q = h.ptr p ∨ q = r) → (settle h p (eval t)).ptr q = h.ptr q ∧ (settle h p (eval t)).content (h.ptr q) = h.content (h.ptr q)) ∧
        ((settle h p (eval t)).content (h.ptr p)).state = (h.content (h.ptr r)).state ∧
        ((settle h p (eval t)).content (h.ptr p)).code = (h.content (h.ptr r)).code) := by
  refine ⟨?_, ?_, ?_⟩
  · intro v hv q
    unfold settle; dsimp only; rw [hs, hv]; dsimp only
    refine ⟨rfl, fun hq => ?_, fun hq => ?_⟩
    · simp [hq]
    · simp [hq]
  · intro v hv q
    unfold settle; dsimp only; rw [hs, hv]; dsimp only
    refine ⟨rfl, fun hq => ?_, fun hq => ?_⟩
    · simp [hq]
    · simp [hq]
  · intro r hr q
    unfold settle; dsimp only; rw [hs, hr]; dsimp only
    refine ⟨fun hq => ?_, fun hq => ?_, ?_, ?_⟩
    · rw [setPtr_ptr]
      by_cases hqr : q = r
      · rw [if_pos hqr]
      · rw [if_neg hqr]; exact hq.resolve_right hqr
    · rw [not_or] at hq
      simp [hq.1, hq.2]
    · by_cases hrp : h.ptr r = h.ptr p
      · simp [hrp]
      · simp [hrp]
    · by_cases hrp : h.ptr r = h.ptr p
      · simp [hrp]
      · simp

/-- Settling a promise with what its thunk delivers changes no result. -/
theorem denN_settle {eval : T → Outcome V E} {h : Heap T V E} {p : Nat} {t : T} (hs : (h.content (h.ptr p)).state = .unforced)
    (hc : (h.content (h.ptr p)).code = .thunk t) {n : Nat} : ∀ {q : Nat} {x : Result T V E}, DenN eval h n q x →
    ∃ m, m ≤ n ∧ DenN eval (settle h p (eval t)) m q x := by
  obtain ⟨w1, w2, w3⟩ := settle_view (eval := eval) (t := t) hs
  induction n with
  | zero =>
    intro q x hd
    have hnochain : ∀ m r, 0 = m + 1 → DenN eval h m r x → ∃ m', m' ≤ m ∧ DenN eval (settle h p (eval t)) m' r x :=
      fun m r hm => absurd hm (by omega)
    cases ho : eval t with
    | vals v =>
      rw [← ho]
      obtain ⟨p1, p2, p3⟩ := w1 v ho q
      by_cases hq : h.ptr q = h.ptr p
      · cases hd with
        | forced hqs hqc => rw [hq, hs] at hqs; exact absurd hqs (by simp)
        | exception hqs hqc => rw [hq, hs] at hqs; exact absurd hqs (by simp)
        | vals hqs hqc he =>
          rw [hq, hc] at hqc; cases hqc; rw [ho] at he; cases he
          exact ⟨0, le_refl _, .forced (by rw [p1]; exact (p2 hq).1) (by rw [p1]; exact (p2 hq).2)⟩
        | raise hqs hqc he => rw [hq, hc] at hqc; cases hqc; rw [ho] at he; cases he
      · exact hd.of_eq (by rw [p1, p3 hq]) (by rw [p1, p3 hq]) hnochain
    | raise e =>
      rw [← ho]
      obtain ⟨p1, p2, p3⟩ := w2 e ho q
      by_cases hq : h.ptr q = h.ptr p
      · cases hd with
        | forced hqs hqc => rw [hq, hs] at hqs; exact absurd hqs (by simp)
        | exception hqs hqc => rw [hq, hs] at hqs; exact absurd hqs (by simp)
        | raise hqs hqc he =>
          rw [hq, hc] at hqc; cases hqc; rw [ho] at he; cases he
          exact ⟨0, le_refl _, .exception (by rw [p1]; exact (p2 hq).1) (by rw [p1]; exact (p2 hq).2)⟩
        | vals hqs hqc he => rw [hq, hc] at hqc; cases hqc; rw [ho] at he; cases he
      · exact hd.of_eq (by rw [p1, p3 hq]) (by rw [p1, p3 hq]) hnochain
    | promise r =>
      rw [← ho]
      obtain ⟨p1, p2, p3, p4⟩ := w3 r ho q
      by_cases hq : h.ptr q = h.ptr p
      · cases hd with
        | forced hqs hqc => rw [hq, hs] at hqs; exact absurd hqs (by simp)
        | exception hqs hqc => rw [hq, hs] at hqs; exact absurd hqs (by simp)
        | vals hqs hqc he => rw [hq, hc] at hqc; cases hqc; rw [ho] at he; cases he
        | raise hqs hqc he => rw [hq, hc] at hqc; cases hqc; rw [ho] at he; cases he
      · by_cases hqr : q = r
        · exact hd.of_eq (by rw [p1 (Or.inr hqr), p3, hqr]) (by rw [p1 (Or.inr hqr), p4, hqr]) hnochain
        · obtain ⟨e1, e2⟩ := p2 (by simp [hq, hqr])
          exact hd.of_eq (by rw [e1, e2]) (by rw [e1, e2]) hnochain
  | succ n ih =>
    intro q x hd
    have hch : ∀ m r, n + 1 = m + 1 → DenN eval h m r x → ∃ m', m' ≤ m ∧ DenN eval (settle h p (eval t)) m' r x := by
      intro m r hm hd
      have : n = m := by omega
      subst this
      exact ih hd
    cases ho : eval t with
    | vals v =>
      rw [← ho]
      obtain ⟨p1, p2, p3⟩ := w1 v ho q
      by_cases hq : h.ptr q = h.ptr p
      · cases hd with
        | chain hqs hqc he hr => rw [hq, hc] at hqc; cases hqc; rw [ho] at he; cases he
      · exact hd.of_eq (by rw [p1, p3 hq]) (by rw [p1, p3 hq]) hch
    | raise e =>
      rw [← ho]
      obtain ⟨p1, p2, p3⟩ := w2 e ho q
      by_cases hq : h.ptr q = h.ptr p
      · cases hd with
        | chain hqs hqc he hr => rw [hq, hc] at hqc; cases hqc; rw [ho] at he; cases he
      · exact hd.of_eq (by rw [p1, p3 hq]) (by rw [p1, p3 hq]) hch
    | promise r =>
      rw [← ho]
      obtain ⟨p1, p2, p3, p4⟩ := w3 r ho q
      by_cases hq : h.ptr q = h.ptr p
      · cases hd with
        | chain hqs hqc he hr =>
          rw [hq, hc] at hqc; cases hqc; rw [ho] at he; cases he
          obtain ⟨m', hm, hd'⟩ := ih hr
          obtain ⟨r1, _, _, _⟩ := w3 r ho r
          have hsame : (settle h p (eval t)).ptr q = (settle h p (eval t)).ptr r := by
            rw [p1 (Or.inl hq), r1 (Or.inr rfl)]
          obtain ⟨m'', hm', hd''⟩ := hd'.of_eq (q := q) (by rw [hsame]) (by rw [hsame]) (fun m r _ hd => ⟨m, le_refl _, hd⟩)
          exact ⟨m'', by omega, hd''⟩
      · by_cases hqr : q = r
        · exact hd.of_eq (by rw [p1 (Or.inr hqr), p3, hqr]) (by rw [p1 (Or.inr hqr), p4, hqr]) hch
        · obtain ⟨e1, e2⟩ := p2 (by simp [hq, hqr])
          exact hd.of_eq (by rw [e1, e2]) (by rw [e1, e2]) hch

/-- The chain got shorter. -/
theorem denN_settle_self {eval : T → Outcome V E} {h : Heap T V E} {p r : Nat} {t : T} (hs : (h.content (h.ptr p)).state = .unforced)
    (hc : (h.content (h.ptr p)).code = .thunk t) (he : eval t = .promise r) {n : Nat} {x : Result T V E} (hr : DenN eval h n r x) :
    ∃ m, m ≤ n ∧ DenN eval (settle h p (eval t)) m p x := by
  obtain ⟨m', hm, hd'⟩ := denN_settle hs hc hr
  obtain ⟨_, _, w3⟩ := settle_view (eval := eval) (t := t) hs
  obtain ⟨p1, _, _, _⟩ := w3 r he p
  obtain ⟨r1, _, _, _⟩ := w3 r he r
  have hsame : (settle h p (eval t)).ptr p = (settle h p (eval t)).ptr r := by rw [p1 (Or.inl rfl), r1 (Or.inr rfl)]
  obtain ⟨m'', hm', hd''⟩ := hd'.of_eq (q := p) (by rw [hsame]) (by rw [hsame]) (fun m r _ hd => ⟨m, le_refl _, hd⟩)
  exact ⟨m'', by omega, hd''⟩

theorem onChain_settle {eval : T → Outcome V E} {h : Heap T V E} {p r : Nat} {t : T} (hs : (h.content (h.ptr p)).state = .unforced)
    (hc : (h.content (h.ptr p)).code = .thunk t) (he : eval t = .promise r) {a q : Nat} (hq : OnChain eval h a q) :
    OnChain eval (settle h p (eval t)) a q ∨ (settle h p (eval t)).ptr q = (settle h p (eval t)).ptr p := by
  obtain ⟨_, _, w3⟩ := settle_view (eval := eval) (t := t) hs
  have hpp : (settle h p (eval t)).ptr p = h.ptr p := (w3 r he p).1 (Or.inl rfl)
  have hrr : (settle h p (eval t)).ptr r = h.ptr p := (w3 r he r).1 (Or.inr rfl)
  induction hq with
  | refl a => exact Or.inl (.refl a)
  | @next a b q t' has hac hae hr ih =>
    obtain ⟨a1, a2, a3, a4⟩ := w3 r he a
    by_cases hap : h.ptr a = h.ptr p
    · rw [hap, hc] at hac; cases hac; rw [he] at hae; cases hae
      rcases ih with ih | ih
      · cases ih with
        | refl => right; rw [hrr, hpp]
        | next hs' hc' he' hr' =>
          left
          have hsame : (settle h p (eval t)).ptr a = (settle h p (eval t)).ptr r := by rw [a1 (Or.inl hap), hrr]
          exact .next (by rw [hsame]; exact hs') (by rw [hsame]; exact hc') he' hr'
      · exact Or.inr ih
    · rcases ih with ih | ih
      · left
        by_cases har : a = r
        · exact .next (by rw [a1 (Or.inr har), a3, ← har]; exact has) (by rw [a1 (Or.inr har), a4, ← har]; exact hac) hae ih
        · obtain ⟨e1, e2⟩ := a2 (by simp [hap, har])
          exact .next (by rw [e1, e2]; exact has) (by rw [e1, e2]; exact hac) hae ih
      · exact Or.inr ih

theorem force_spec {eval : T → Outcome V E} {p : Nat} {x : Result T V E} (n : Nat) : ∀ h : Heap T V E, DenN eval h n p x →
    ∃ fuel h', force eval fuel h p = some (h', x) ∧ (∀ m q y, DenN eval h m q y → ∃ m', DenN eval h' m' q y) ∧
      (∀ q, (OnChain eval h p q ∨ h.ptr q = h.ptr p) → h'.ptr q = h'.ptr p) ∧ Fulfilled h' p x := by
  induction n using Nat.strong_induction_on with
  | _ n ih =>
    intro h hd
    cases hd with
    | @forced _ x' hs hc =>
      refine ⟨1, h, ?_, fun m q y hd => ⟨m, hd⟩, ?_, hs, hc⟩
      · unfold force; dsimp only; rw [hs, hc]
      · rintro q (hq | hq)
        · cases hq with
          | refl => rfl
          | next hs' => rw [hs] at hs'; exact absurd hs' (by simp)
        · exact hq
    | @exception _ x' hs hc =>
      refine ⟨1, h, ?_, fun m q y hd => ⟨m, hd⟩, ?_, hs, hc⟩
      · unfold force; dsimp only; rw [hs, hc]
      · rintro q (hq | hq)
        · cases hq with
          | refl => rfl
          | next hs' => rw [hs] at hs'; exact absurd hs' (by simp)
        · exact hq
    | @vals _ t v hs hc he =>
      have w := (settle_view (eval := eval) (t := t) hs).1 v he
      obtain ⟨p1, p2, _⟩ := w p
      have hst := p2 rfl
      rw [he] at p1 hst
      refine ⟨2, settle h p (eval t), ?_, ?_, ?_, ?_⟩
      · unfold force; dsimp only; rw [hs, hc]; dsimp only; rw [he]; dsimp only
        unfold force; dsimp only; rw [p1, hst.1, hst.2]
      · intro m q y hd
        obtain ⟨m', _, hd'⟩ := denN_settle hs hc hd
        exact ⟨m', hd'⟩
      · intro q hq
        rw [(w q).1, (w p).1]
        rcases hq with hq | hq
        · cases hq with
          | refl => rfl
          | next hs' hc' he' => rw [hc] at hc'; cases hc'; rw [he] at he'; cases he'
        · exact hq
      · rw [he]
        exact ⟨by rw [p1]; exact hst.1, by rw [p1]; exact hst.2⟩
    | @raise _ t e hs hc he =>
      have w := (settle_view (eval := eval) (t := t) hs).2.1 e he
      obtain ⟨p1, p2, _⟩ := w p
      have hst := p2 rfl
      rw [he] at p1 hst
      refine ⟨1, settle h p (eval t), ?_, ?_, ?_, ?_⟩
      · unfold force; dsimp only; rw [hs, hc]; dsimp only; rw [he]; dsimp only
        rw [p1, hst.2]
      · intro m q y hd
        obtain ⟨m', _, hd'⟩ := denN_settle hs hc hd
        exact ⟨m', hd'⟩
      · intro q hq
        rw [(w q).1, (w p).1]
        rcases hq with hq | hq
        · cases hq with
          | refl => rfl
          | next hs' hc' he' => rw [hc] at hc'; cases hc'; rw [he] at he'; cases he'
        · exact hq
      · rw [he]
        exact ⟨by rw [p1]; exact hst.1, by rw [p1]; exact hst.2⟩
    | @chain n' _ t r _ hs hc he hr =>
      obtain ⟨m, hm, hd'⟩ := denN_settle_self hs hc he hr
      obtain ⟨fuel, h', f1, f2, f3, f4⟩ := ih m (by omega) _ hd'
      have w := (settle_view (eval := eval) (t := t) hs).2.2 r he
      refine ⟨fuel + 1, h', ?_, ?_, ?_, f4⟩
      · rw [force.eq_def]; dsimp only; rw [hs, hc]; dsimp only; rw [he] at f1 ⊢; exact f1
      · intro m q y hd
        obtain ⟨m', _, hd'⟩ := denN_settle hs hc hd
        exact f2 _ _ _ hd'
      · intro q hq
        apply f3
        rcases hq with hq | hq
        · exact onChain_settle hs hc he hq
        · right
          rw [(w q).1 (Or.inl hq), (w p).1 (Or.inl rfl)]

end Gauche.Promise
