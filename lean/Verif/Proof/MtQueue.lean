import Verif.Model.MtQueue
import Verif.Proof.Queue
/-! Invariants of the `<mtqueue>` transition system. -/
namespace Gauche.MtQueue
open Gauche.Queue (Item)
variable {α : Type}

def Th.isHold : Th α → Bool
  | .hold1 _ | .hold2 _ _ | .hold3 => true
  | _ => false

/-- The overflow test made when the body was read still holds. -/
def State.bodyOk (s : State α) : BOp α → Prop
  | .toList => True
  | .enqUnique cmp xs => s.overflows (Queue.pickEnq cmp s.content [] (xs.map .val)).length = false
  | .pushUnique cmp xs =>
    s.overflows ((Queue.pickPush cmp s.content (xs.map .val)).length - s.content.length) = false
  | .remove _ => True

/-- Big-lock discipline. -/
def Hold (s : State α) : Prop := ∀ t,
  ((s.th t).isHold → s.locker = some t) ∧ (∀ b seen, s.th t = .hold2 b seen → seen = s.content ∧ s.bodyOk b)

/-- Nobody holds or is about to take the big lock. -/
def NoBig (s : State α) : Prop := ∀ t, (s.th t).isHold = false ∧ ∀ b sig, s.th t ≠ .lockL (.grab b) sig

@[simp] theorem notifyLockers_hold (s : State α) (t) : ((s.notifyLockers).th t).isHold = (s.th t).isHold := by
  simp only [State.notifyLockers]; cases s.th t <;> rfl
@[simp] theorem notifyReaders_hold (s : State α) (t) : ((s.notifyReaders).th t).isHold = (s.th t).isHold := by
  simp only [State.notifyReaders]; rcases s.th t with _|_|_|⟨(_|_|_),_⟩|_|_|_|_ <;> rfl
@[simp] theorem notifyWriters_hold (s : State α) (t) : ((s.notifyWriters).th t).isHold = (s.th t).isHold := by
  simp only [State.notifyWriters]; rcases s.th t with _|_|_|⟨(_|_|_),_⟩|_|_|_|_ <;> rfl
@[simp] theorem notifyLockers_hold2 (s : State α) (t b seen) :
    (s.notifyLockers).th t = .hold2 b seen ↔ s.th t = .hold2 b seen := by
  simp only [State.notifyLockers]; cases s.th t <;> simp
@[simp] theorem notifyReaders_hold2 (s : State α) (t b seen) :
    (s.notifyReaders).th t = .hold2 b seen ↔ s.th t = .hold2 b seen := by
  simp only [State.notifyReaders]; rcases s.th t with _|_|_|⟨(_|_|_),_⟩|_|_|_|_ <;> simp
@[simp] theorem notifyWriters_hold2 (s : State α) (t b seen) :
    (s.notifyWriters).th t = .hold2 b seen ↔ s.th t = .hold2 b seen := by
  simp only [State.notifyWriters]; rcases s.th t with _|_|_|⟨(_|_|_),_⟩|_|_|_|_ <;> simp

section fields
variable (s : State α) (t : Nat) (h : Th α)
@[simp] theorem setTh_content : (s.setTh t h).content = s.content := rfl
@[simp] theorem setTh_locker : (s.setTh t h).locker = s.locker := rfl
@[simp] theorem setTh_maxlen : (s.setTh t h).maxlen = s.maxlen := rfl
@[simp] theorem setTh_ins : (s.setTh t h).ins = s.ins := rfl
@[simp] theorem setTh_fronts : (s.setTh t h).fronts = s.fronts := rfl
@[simp] theorem setTh_marked : (s.setTh t h).marked = s.marked := rfl
@[simp] theorem setTh_out : (s.setTh t h).out = s.out := rfl
@[simp] theorem setTh_removed : (s.setTh t h).removed = s.removed := rfl
@[simp] theorem setTh_sem : (s.setTh t h).readerSem = s.readerSem := rfl
@[simp] theorem nL_content : s.notifyLockers.content = s.content := rfl
@[simp] theorem nL_locker : s.notifyLockers.locker = s.locker := rfl
@[simp] theorem nL_maxlen : s.notifyLockers.maxlen = s.maxlen := rfl
@[simp] theorem nL_ins : s.notifyLockers.ins = s.ins := rfl
@[simp] theorem nL_fronts : s.notifyLockers.fronts = s.fronts := rfl
@[simp] theorem nL_marked : s.notifyLockers.marked = s.marked := rfl
@[simp] theorem nL_out : s.notifyLockers.out = s.out := rfl
@[simp] theorem nL_removed : s.notifyLockers.removed = s.removed := rfl
@[simp] theorem nL_sem : s.notifyLockers.readerSem = s.readerSem := rfl
@[simp] theorem nR_content : s.notifyReaders.content = s.content := rfl
@[simp] theorem nR_locker : s.notifyReaders.locker = s.locker := rfl
@[simp] theorem nR_maxlen : s.notifyReaders.maxlen = s.maxlen := rfl
@[simp] theorem nR_ins : s.notifyReaders.ins = s.ins := rfl
@[simp] theorem nR_fronts : s.notifyReaders.fronts = s.fronts := rfl
@[simp] theorem nR_marked : s.notifyReaders.marked = s.marked := rfl
@[simp] theorem nR_out : s.notifyReaders.out = s.out := rfl
@[simp] theorem nR_removed : s.notifyReaders.removed = s.removed := rfl
@[simp] theorem nR_sem : s.notifyReaders.readerSem = s.readerSem := rfl
@[simp] theorem nW_content : s.notifyWriters.content = s.content := rfl
@[simp] theorem nW_locker : s.notifyWriters.locker = s.locker := rfl
@[simp] theorem nW_maxlen : s.notifyWriters.maxlen = s.maxlen := rfl
@[simp] theorem nW_ins : s.notifyWriters.ins = s.ins := rfl
@[simp] theorem nW_fronts : s.notifyWriters.fronts = s.fronts := rfl
@[simp] theorem nW_marked : s.notifyWriters.marked = s.marked := rfl
@[simp] theorem nW_out : s.notifyWriters.out = s.out := rfl
@[simp] theorem nW_removed : s.notifyWriters.removed = s.removed := rfl
@[simp] theorem nW_sem : s.notifyWriters.readerSem = s.readerSem := rfl
end fields

/-- The part of the state that `Hold` reads, apart from threads. -/
theorem bodyOk_congr {s s' : State α} (hc : s'.content = s.content) (hm : s'.maxlen = s.maxlen) (b : BOp α) :
    s'.bodyOk b ↔ s.bodyOk b := by
  cases b <;> simp [State.bodyOk, State.overflows, hc, hm]

/-- `Hold` survives when threads keep their hold status and lock, contents stay. -/
theorem Hold.congr {s s' : State α} (h : Hold s) (hc : s'.content = s.content) (hm : s'.maxlen = s.maxlen)
    (hl : s'.locker = s.locker) (h1 : ∀ t, (s'.th t).isHold → (s.th t).isHold)
    (h2 : ∀ t b seen, s'.th t = .hold2 b seen → s.th t = .hold2 b seen) : Hold s' := by
  intro t
  refine ⟨fun hh => hl ▸ (h t).1 (h1 t hh), fun b seen hh => ?_⟩
  rw [hc, bodyOk_congr hc hm]
  exact (h t).2 b seen (h2 t b seen hh)

/-- `Hold` is trivial when nobody holds. -/
theorem Hold.of_none {s : State α} (h : ∀ t, (s.th t).isHold = false) : Hold s := by
  intro t
  refine ⟨fun hh => by simp [h t] at hh, fun b seen hh => ?_⟩
  have := h t; rw [hh] at this; simp [Th.isHold] at this

theorem Hold.none_of_free {s : State α} (h : Hold s) (hl : s.locker = none) : ∀ t, (s.th t).isHold = false := by
  intro t
  cases hh : (s.th t).isHold with
  | false => rfl
  | true => have := (h t).1 hh; simp [hl] at this

theorem setTh_noHold {s : State α} (h : ∀ t, (s.th t).isHold = false) (t : Nat) {x : Th α} (hx : x.isHold = false) :
    ∀ u, ((s.setTh t x).th u).isHold = false := by
  intro u; simp only [State.setTh]; split <;> simp_all

@[simp] theorem deqInt_th (s : State α) : s.dequeueInt.2.th = s.th := by unfold State.dequeueInt; split <;> rfl
@[simp] theorem deqInt_locker (s : State α) : s.dequeueInt.2.locker = s.locker := by unfold State.dequeueInt; split <;> rfl
@[simp] theorem deqInt_maxlen (s : State α) : s.dequeueInt.2.maxlen = s.maxlen := by unfold State.dequeueInt; split <;> rfl
@[simp] theorem deqInt_ins (s : State α) : s.dequeueInt.2.ins = s.ins := by unfold State.dequeueInt; split <;> rfl
@[simp] theorem deqInt_fronts (s : State α) : s.dequeueInt.2.fronts = s.fronts := by unfold State.dequeueInt; split <;> rfl
@[simp] theorem deqInt_marked (s : State α) : s.dequeueInt.2.marked = s.marked := by unfold State.dequeueInt; split <;> rfl
@[simp] theorem deqInt_sem (s : State α) : s.dequeueInt.2.readerSem = s.readerSem := by unfold State.dequeueInt; split <;> rfl
@[simp] theorem deqInt_removed (s : State α) : s.dequeueInt.2.removed = s.removed := by unfold State.dequeueInt; split <;> rfl

theorem doOk_noHold {s : State α} (o : WOp α) (h : ∀ t, (s.th t).isHold = false) :
    ∀ t, ((s.doOk o).th t).isHold = false := by
  intro t
  cases o with
  | enqW x c => cases c <;> simp [State.doOk, State.enqueueInt, h]
  | pushW x c => cases c <;> simp [State.doOk, State.pushInt, h]
  | deqW c => simp [State.doOk, h]

theorem Hold.setTh {s : State α} (h : Hold s) (t : Nat) {x : Th α} (hx : x.isHold = false) : Hold (s.setTh t x) := by
  refine h.congr rfl rfl rfl ?_ ?_
  · intro u; simp only [State.setTh]; split <;> simp_all
  · intro u b seen; simp only [State.setTh]; split
    · rintro rfl; simp [Th.isHold] at hx
    · exact id

theorem Hold.enterW {s : State α} (h : Hold s) (t : Nat) (o : WOp α) : Hold (s.enterW t o) := by
  unfold State.enterW
  split
  · exact h.setTh t rfl
  · rename_i hl
    split
    · exact h.setTh t rfl
    · have hn := h.none_of_free (by simpa using hl)
      apply Hold.of_none
      apply setTh_noHold _ _ rfl
      intro u; simp [doOk_noHold o hn u]

theorem Hold.nW {s : State α} (h : Hold s) : Hold s.notifyWriters :=
  h.congr rfl rfl rfl (by simp) (by simp)

theorem Hold.startW {s : State α} (h : Hold s) (t : Nat) (o : WOp α) : Hold (s.startW t o) := by
  cases o with
  | enqW x c => simp only [State.startW]; split; exact h; exact h.enterW _ _
  | pushW x c => simp only [State.startW]; split; exact h; exact h.enterW _ _
  | deqW c =>
    simp only [State.startW]
    apply Hold.enterW
    apply Hold.nW
    split
    · exact h.congr rfl rfl rfl (fun _ => id) (fun _ _ _ => id)
    · exact h.congr rfl rfl rfl (fun _ => id) (fun _ _ _ => id)

theorem Hold.enterL {s : State α} (h : Hold s) (t : Nat) (o : LOp α) : Hold (s.enterL t o) := by
  unfold State.enterL
  split
  · exact h.setTh t rfl
  · rename_i hl
    have hn := h.none_of_free (by simpa using hl)
    cases o with
    | enq xs =>
      dsimp only
      split
      · exact h.setTh t rfl
      · split
        · exact h.setTh t rfl
        · exact Hold.of_none (setTh_noHold (by intro u; simp [State.enqueueInt, hn u]) _ rfl)
    | push xs =>
      dsimp only
      split
      · exact h.setTh t rfl
      · split
        · exact h.setTh t rfl
        · exact Hold.of_none (setTh_noHold (by intro u; simp [State.pushInt, hn u]) _ rfl)
    | deq =>
      dsimp only
      have h2 : ∀ u, (s.dequeueInt.2.th u).isHold = false := by intro u; simp [hn u]
      split
      · rename_i s' he; rw [he] at h2; exact Hold.of_none (setTh_noHold h2 _ rfl)
      · rename_i s' he; rw [he] at h2; exact Hold.of_none (setTh_noHold h2 _ rfl)
    | deqAll => exact Hold.of_none (setTh_noHold hn _ rfl)
    | grab b =>
      intro u
      simp only [State.setTh]
      by_cases hu : u = t
      · subst hu; simp
      · simp only [if_neg hu]
        refine ⟨fun hh => by simp [hn u] at hh, fun b seen hh => ?_⟩
        have := hn u; rw [hh] at this; simp [Th.isHold] at this

/-- Only one thread holds. -/
theorem Hold.unique {s : State α} (h : Hold s) {t u} (ht : (s.th t).isHold) (hu : (s.th u).isHold) : t = u := by
  have a := (h t).1 ht; have b := (h u).1 hu; rw [a] at b; simpa using b

theorem Hold.release {s : State α} (h : Hold s) {t : Nat} (ht : (s.th t).isHold) :
    Hold (({ s with locker := none }.notifyLockers).setTh t .idle) := by
  apply Hold.of_none
  intro u
  simp only [State.setTh]
  split
  · rfl
  · rename_i hne
    simp only [notifyLockers_hold]
    cases hh : (s.th u).isHold with
    | false => rfl
    | true => exact absurd (h.unique hh ht) hne

/-- A holder whose next state is `hold3`, whatever it did to the contents. -/
theorem Hold.toHold3 {s s' : State α} (h : Hold s) {t : Nat} (ht : (s.th t).isHold) (hl : s'.locker = s.locker)
    (h1 : ∀ u, (s'.th u).isHold = (s.th u).isHold) : Hold (s'.setTh t .hold3) := by
  intro u
  simp only [State.setTh]
  by_cases hu : u = t
  · subst hu
    simp only [if_true]
    exact ⟨fun _ => hl ▸ (h u).1 ht, fun b seen hh => by simp at hh⟩
  · simp only [if_neg hu]
    have hf : (s'.th u).isHold = false := by
      rw [h1]
      cases hh : (s.th u).isHold with
      | false => rfl
      | true => exact absurd (h.unique hh ht) hu
    refine ⟨fun hh => by simp [hf] at hh, fun b seen hh => ?_⟩
    rw [hh] at hf; simp [Th.isHold] at hf

theorem Hold.toHold2 {s : State α} (h : Hold s) {t : Nat} {b : BOp α} (ht : (s.th t).isHold) (hb : s.bodyOk b) :
    Hold (s.setTh t (.hold2 b s.content)) := by
  intro u
  simp only [State.setTh]
  by_cases hu : u = t
  · subst hu
    simp only [if_true]
    refine ⟨fun _ => (h u).1 ht, ?_⟩
    intro b' seen hh
    cases hh
    exact ⟨rfl, (bodyOk_congr (s := s) rfl rfl _).2 hb⟩
  · simp only [if_neg hu]
    exact ⟨(h u).1, fun b' seen hh => by
      have := (h u).2 b' seen hh
      exact ⟨this.1, (bodyOk_congr (s := s) rfl rfl _).2 this.2⟩⟩

theorem Hold.bodyRead {s : State α} (h : Hold s) {t : Nat} (b : BOp α) (ht : (s.th t).isHold) :
    Hold (s.bodyRead t b) := by
  have h3 : Hold (s.setTh t .hold3) := h.toHold3 ht rfl (fun _ => rfl)
  cases b with
  | toList => exact h3
  | enqUnique cmp xs =>
    simp only [State.bodyRead]
    split
    · exact h3
    · rename_i hc; exact h.toHold2 ht (by simp at hc; simpa [State.bodyOk] using hc.2)
  | pushUnique cmp xs =>
    simp only [State.bodyRead]
    split
    · exact h3
    · rename_i hc; exact h.toHold2 ht (by simpa [State.bodyOk] using hc)
  | remove pred =>
    simp only [State.bodyRead]
    split
    · exact h.toHold2 ht trivial
    · exact h3

theorem Hold.bodyWrite {s : State α} (h : Hold s) {t : Nat} (b : BOp α) (seen) (ht : (s.th t).isHold) :
    Hold (s.bodyWrite t b seen) := by
  cases b with
  | toList => exact h.toHold3 ht rfl (fun _ => rfl)
  | enqUnique cmp xs => exact h.toHold3 ht rfl (by simp [State.enqueueInt])
  | pushUnique cmp xs => exact h.toHold3 ht rfl (by simp)
  | remove pred => exact h.toHold3 ht rfl (by simp)

def Label.isAbort : Label α → Bool
  | .timeout _ | .intr _ => true
  | _ => false
def Label.isGrab : Label α → Bool
  | .light _ (.grab _) => true
  | _ => false

theorem Hold.step {s s' : State α} {l : Label α} (h : Hold s) (hs : step s l = some s')
    (hl : l.isAbort = false ∨ ∀ t, (s.th t).isHold = false) : Hold s' := by
  cases l with
  | light t o =>
    simp only [MtQueue.step] at hs; split at hs <;> cases hs; exact h.enterL _ _
  | wait t o =>
    simp only [MtQueue.step] at hs; split at hs <;> cases hs; exact h.startW _ _
  | wake t =>
    simp only [MtQueue.step] at hs
    split at hs <;> cases hs
    · exact h.enterL _ _
    · exact h.enterW _ _
    · exact h.enterW _ _
  | timeout t =>
    simp [Label.isAbort] at hl
    simp only [MtQueue.step] at hs; split at hs <;> cases hs
    exact Hold.of_none (setTh_noHold (by intro u; simp [hl u]) _ rfl)
  | intr t =>
    simp [Label.isAbort] at hl
    simp only [MtQueue.step] at hs; split at hs <;> cases hs
    exact Hold.of_none (setTh_noHold (by intro u; simp [hl u]) _ rfl)
  | body t =>
    simp only [MtQueue.step] at hs
    split at hs <;> cases hs
    · rename_i b hb; exact h.bodyRead b (by simp [hb, Th.isHold])
    · rename_i b seen hb; exact h.bodyWrite b seen (by simp [hb, Th.isHold])
    · rename_i hb; exact h.release (by simp [hb, Th.isHold])
  | notify t =>
    simp only [MtQueue.step] at hs; split at hs <;> cases hs
    exact (h.nW).setTh _ rfl

/-! Without big-lock operations nobody ever holds the lock. -/

theorem NoBig.step {s s' : State α} {l : Label α} (h : NoBig s) (hs : step s l = some s')
    (hl : l.isGrab = false) : NoBig s' := by
  have keyS : ∀ {s : State α}, NoBig s → ∀ t x, x.isHold = false → (∀ b sig, x ≠ .lockL (.grab b) sig) → NoBig (s.setTh t x) := by
    intro s h t x hx hx' u
    simp only [State.setTh]; split
    · exact ⟨hx, hx'⟩
    · exact h u
  have keyT : ∀ {s s' : State α}, NoBig s → s'.th = s.th → NoBig s' := by
    intro s s' h he u; rw [he]; exact h u
  have keyL : ∀ {s : State α}, NoBig s → NoBig s.notifyLockers := by
    intro s h u
    refine ⟨by simp [(h u).1], ?_⟩
    have := (h u).2
    simp only [State.notifyLockers]; cases hh : s.th u <;> simp_all
  have keyR : ∀ {s : State α}, NoBig s → NoBig s.notifyReaders := by
    intro s h u
    refine ⟨by simp [(h u).1], ?_⟩
    have := (h u).2
    simp only [State.notifyReaders]; rcases hh : s.th u with _|_|_|⟨(_|_|_),_⟩|_|_|_|_ <;> simp_all
  have keyW : ∀ {s : State α}, NoBig s → NoBig s.notifyWriters := by
    intro s h u
    refine ⟨by simp [(h u).1], ?_⟩
    have := (h u).2
    simp only [State.notifyWriters]; rcases hh : s.th u with _|_|_|⟨(_|_|_),_⟩|_|_|_|_ <;> simp_all
  have keyEW : ∀ {s : State α}, NoBig s → ∀ t o, NoBig (s.enterW t o) := by
    intro s h t o
    unfold State.enterW
    split
    · exact keyS h _ _ rfl (by simp)
    · split
      · exact keyS h _ _ rfl (by simp)
      · refine keyS (keyL (keyT (s := s.doOk o) ?_ rfl)) _ _ rfl (by simp)
        cases o with
        | enqW x c => cases c <;> exact keyR (keyT h rfl)
        | pushW x c => cases c <;> exact keyR (keyT h rfl)
        | deqW c => exact keyW (keyT h (by simp))
  have keyEL : ∀ {s : State α}, NoBig s → ∀ t (o : LOp α), (∀ b, o ≠ .grab b) → NoBig (s.enterL t o) := by
    intro s h t o ho
    unfold State.enterL
    split
    · exact keyS h _ _ rfl (by intro b sig hh; cases hh; exact ho b rfl)
    · cases o with
      | enq xs =>
        dsimp only; split
        · exact keyS h _ _ rfl (by simp)
        · split
          · exact keyS h _ _ rfl (by simp)
          · exact keyS (keyR (keyT h rfl)) _ _ rfl (by simp)
      | push xs =>
        dsimp only; split
        · exact keyS h _ _ rfl (by simp)
        · split
          · exact keyS h _ _ rfl (by simp)
          · exact keyS (keyR (keyT h rfl)) _ _ rfl (by simp)
      | deq =>
        dsimp only
        have h2 : NoBig s.dequeueInt.2 := keyT h (by simp)
        split
        · rename_i s' he; rw [he] at h2; exact keyS h2 _ _ rfl (by simp)
        · rename_i s' he; rw [he] at h2; exact keyS h2 _ _ rfl (by simp)
      | deqAll => exact keyS (keyT h rfl) _ _ rfl (by simp)
      | grab b => exact absurd rfl (ho b)
  cases l with
  | light t o =>
    simp only [MtQueue.step] at hs; split at hs <;> cases hs
    exact keyEL h _ _ (by rintro b rfl; simp [Label.isGrab] at hl)
  | wait t o =>
    simp only [MtQueue.step] at hs; split at hs <;> cases hs
    cases o with
    | enqW x c => simp only [State.startW]; split; exact h; exact keyEW h _ _
    | pushW x c => simp only [State.startW]; split; exact h; exact keyEW h _ _
    | deqW c =>
      simp only [State.startW]
      refine keyEW (keyW ?_) _ _
      split <;> exact keyT h rfl
  | wake t =>
    simp only [MtQueue.step] at hs
    split at hs <;> cases hs
    · rename_i o sig ho; exact keyEL h _ _ (by rintro b rfl; exact (h t).2 b sig ho)
    · exact keyEW h _ _
    · exact keyEW h _ _
  | timeout t =>
    simp only [MtQueue.step] at hs; split at hs <;> cases hs
    exact keyS (keyL (keyT h rfl)) _ _ rfl (by simp)
  | intr t =>
    simp only [MtQueue.step] at hs; split at hs <;> cases hs
    exact keyS (keyL (keyT h rfl)) _ _ rfl (by simp)
  | body t =>
    have := (h t).1
    simp only [MtQueue.step] at hs
    split at hs <;> simp_all [Th.isHold]
  | notify t =>
    simp only [MtQueue.step] at hs; split at hs <;> cases hs
    exact keyS (keyW h) _ _ rfl (by simp)


/-! ## History invariants -/

@[simp] theorem vals_append (a b : List (Item α)) : vals (a ++ b) = vals a ++ vals b := by simp [vals]
@[simp] theorem vals_nil : vals ([] : List (Item α)) = [] := rfl
@[simp] theorem vals_val (a : α) (l) : vals (.val a :: l) = a :: vals l := rfl
@[simp] theorem vals_marker (l : List (Item α)) : vals (.marker :: l) = vals l := rfl

theorem vals_dropMarkers : ∀ l : List (Item α), vals (l.dropWhile isMarker) = vals l
  | [] => rfl
  | .marker :: l => by simpa [List.dropWhile_cons, isMarker] using vals_dropMarkers l
  | .val a :: l => by simp [List.dropWhile_cons, isMarker]

theorem deqInt_hist (s : State α) : s.dequeueInt.2.out ++ vals s.dequeueInt.2.content = s.out ++ vals s.content := by
  unfold State.dequeueInt
  have h := vals_dropMarkers s.content
  split
  · rename_i a r he; rw [he] at h; simp [← h]
  · rename_i hne
    cases he : s.content.dropWhile isMarker with
    | nil => rw [he] at h; simp [← h]
    | cons x r =>
      cases x with
      | val a => exact absurd he (hne a r)
      | marker =>
        have := List.head?_dropWhile_not isMarker s.content
        rw [he] at this; simp [isMarker] at this

/-- Accounting: everything put in is delivered, removed or still there, once. -/
def Acc (s : State α) : Prop := (s.ins ++ s.fronts).Perm (s.out ++ s.removed ++ vals s.content)
/-- Order: with no front insertion so far, deliveries then contents are the insertions in order (minus removed ones). -/
def Fifo (s : State α) : Prop := s.fronts = [] → (s.out ++ vals s.content).Sublist s.ins
/-- Bound. -/
def Bnd (s : State α) : Prop := ∀ m, s.maxlen = some m → m ≠ 0 → s.content.length ≤ m

structure Hist (s : State α) : Prop where
  acc : Acc s
  fifo : Fifo s
  bnd : Bnd s

theorem Hist.congr {s s' : State α} (h : Hist s) (hc : s'.content = s.content) (hm : s'.maxlen = s.maxlen)
    (hi : s'.ins = s.ins) (hf : s'.fronts = s.fronts) (ho : s'.out = s.out) (hr : s'.removed = s.removed) : Hist s' :=
  ⟨by unfold Acc; rw [hc, hi, hf, ho, hr]; exact h.acc,
   by unfold Fifo; rw [hc, hi, hf, ho]; exact h.fifo,
   by unfold Bnd; rw [hc, hm]; exact h.bnd⟩

theorem Hist.enq {s : State α} (h : Hist s) (xs : List (Item α))
    (hb : ∀ m, s.maxlen = some m → m ≠ 0 → xs.length + s.content.length ≤ m) : Hist (s.enqueueInt xs) := by
  refine ⟨?_, ?_, ?_⟩
  · have := h.acc
    unfold Acc at *
    simp only [State.enqueueInt, vals_append]
    refine List.Perm.trans ?_ (by simpa using (this.append_right (vals xs)))
    simp only [List.append_assoc]
    exact List.Perm.append_left _ List.perm_append_comm
  · intro hf
    have := h.fifo hf
    simp only [State.enqueueInt, vals_append]
    rw [← List.append_assoc]
    exact this.append (List.Sublist.refl _)
  · intro m hm h0
    have := hb m hm h0
    simp [State.enqueueInt]; omega

theorem Hist.push {s : State α} (h : Hist s) (xs : List (Item α)) (hx : xs = [] ∨ vals xs ≠ [])
    (hb : ∀ m, s.maxlen = some m → m ≠ 0 → xs.length + s.content.length ≤ m) : Hist (s.pushInt xs) := by
  refine ⟨?_, ?_, ?_⟩
  · have := h.acc
    unfold Acc at *
    simp only [State.pushInt, vals_append]
    rw [← List.append_assoc]
    refine (this.append_right (vals xs)).trans ?_
    simp only [List.append_assoc]
    exact List.Perm.append_left _ (List.Perm.append_left _ List.perm_append_comm)
  · intro hf
    simp [State.pushInt] at hf
    rcases hx with rfl | hx
    · have := h.fifo hf.1
      simpa [State.pushInt] using this
    · exact absurd hf.2 hx
  · intro m hm h0
    have := hb m hm h0
    simp [State.pushInt]; omega

theorem deqInt_len (s : State α) : s.dequeueInt.2.content.length ≤ s.content.length := by
  unfold State.dequeueInt
  have h := (List.dropWhile_suffix (l := s.content) isMarker).length_le
  split
  · rename_i a r he; rw [he] at h; simp at h ⊢; omega
  · simp

theorem Hist.deq {s : State α} (h : Hist s) : Hist s.dequeueInt.2 := by
  have e := deqInt_hist s
  refine ⟨?_, ?_, ?_⟩
  · have := h.acc
    unfold Acc at *
    rw [deqInt_ins, deqInt_fronts, deqInt_removed]
    refine this.trans ?_
    have p1 : (s.out ++ s.removed ++ vals s.content).Perm (s.removed ++ (s.out ++ vals s.content)) := by
      rw [← List.append_assoc]; exact List.perm_append_comm.append_right _
    have p2 : (s.dequeueInt.2.out ++ s.removed ++ vals s.dequeueInt.2.content).Perm
        (s.removed ++ (s.dequeueInt.2.out ++ vals s.dequeueInt.2.content)) := by
      rw [← List.append_assoc]; exact List.perm_append_comm.append_right _
    rw [e] at p2
    exact p1.trans p2.symm
  · unfold Fifo; rw [deqInt_fronts, deqInt_ins, e]; exact h.fifo
  · intro m hm h0
    rw [deqInt_maxlen] at hm
    exact Nat.le_trans (deqInt_len s) (h.bnd m hm h0)

theorem overflows_false {s : State α} {n m : Nat} (h : s.overflows n = false) (hm : s.maxlen = some m) :
    n + s.content.length ≤ m := by
  simp [State.overflows, hm] at h; exact h

theorem Hist.doOk {s : State α} (h : Hist s) (o : WOp α) (hw : s.waitCheck o = false) : Hist (s.doOk o) := by
  have hb : ∀ m, s.maxlen = some m → m ≠ 0 → s.overflows 1 = false → 1 + s.content.length ≤ m :=
    fun m hm _ ho => overflows_false ho hm
  cases o with
  | enqW x c =>
    simp only [State.waitCheck] at hw
    have h2 := h.enq [x] (fun m hm h0 => hb m hm h0 (by
      rw [if_pos (by rw [hm]; simpa using h0)] at hw; exact hw))
    cases c <;> exact h2.congr rfl rfl rfl rfl rfl rfl
  | pushW x c =>
    simp only [State.waitCheck] at hw
    have h2 := h.push [.val x] (by simp) (fun m hm h0 => hb m hm h0 (by
      rw [if_pos (by rw [hm]; simpa using h0)] at hw; exact hw))
    cases c <;> exact h2.congr rfl rfl rfl rfl rfl rfl
  | deqW c =>
    have : Hist ({ s with readerSem := s.readerSem - 1 } : State α).dequeueInt.2 :=
      Hist.deq (h.congr rfl rfl rfl rfl rfl rfl)
    exact this.congr rfl rfl rfl rfl rfl rfl

theorem Hist.enterW {s : State α} (h : Hist s) (t : Nat) (o : WOp α) : Hist (s.enterW t o) := by
  unfold State.enterW
  split
  · exact h.congr rfl rfl rfl rfl rfl rfl
  · split
    · exact h.congr rfl rfl rfl rfl rfl rfl
    · rename_i hw; exact (h.doOk o (by simpa using hw)).congr rfl rfl rfl rfl rfl rfl

theorem Hist.startW {s : State α} (h : Hist s) (t : Nat) (o : WOp α) : Hist (s.startW t o) := by
  cases o with
  | enqW x c => simp only [State.startW]; split; exact h; exact h.enterW _ _
  | pushW x c => simp only [State.startW]; split; exact h; exact h.enterW _ _
  | deqW c =>
    simp only [State.startW]
    apply Hist.enterW
    cases c <;> exact h.congr rfl rfl rfl rfl rfl rfl

theorem vals_map_val : ∀ xs : List α, vals (xs.map .val) = xs
  | [] => rfl
  | x :: xs => by simp [vals_map_val xs]

theorem vals_reverse (l : List (Item α)) : vals l.reverse = (vals l).reverse := by simp [vals, List.filterMap_reverse]

theorem Hist.enterL {s : State α} (h : Hist s) (t : Nat) (o : LOp α) : Hist (s.enterL t o) := by
  unfold State.enterL
  split
  · exact h.congr rfl rfl rfl rfl rfl rfl
  · cases o with
    | enq xs =>
      dsimp only
      split
      · exact h.congr rfl rfl rfl rfl rfl rfl
      · split
        · exact h.congr rfl rfl rfl rfl rfl rfl
        · rename_i ho
          exact (h.enq (xs.map .val) (fun m hm _ => by
            have := overflows_false (n := xs.length) (by simpa using ho) hm; simpa using this)).congr rfl rfl rfl rfl rfl rfl
    | push xs =>
      dsimp only
      split
      · exact h.congr rfl rfl rfl rfl rfl rfl
      · split
        · exact h.congr rfl rfl rfl rfl rfl rfl
        · rename_i ho
          refine (h.push (xs.map .val).reverse ?_ (fun m hm _ => by
            have := overflows_false (n := xs.length) (by simpa using ho) hm; simpa using this)).congr rfl rfl rfl rfl rfl rfl
          rw [vals_reverse, vals_map_val]
          cases xs <;> simp
    | deq =>
      dsimp only
      have h2 := h.deq
      split
      · rename_i s' he; rw [he] at h2; exact h2.congr rfl rfl rfl rfl rfl rfl
      · rename_i s' he; rw [he] at h2; exact h2.congr rfl rfl rfl rfl rfl rfl
    | deqAll =>
      refine ⟨?_, ?_, ?_⟩
      · have := h.acc
        unfold Acc at *
        simp only [State.setTh, vals_nil, List.append_nil]
        refine this.trans ?_
        simp only [List.append_assoc]
        exact List.Perm.append_left _ List.perm_append_comm
      · intro hf
        simpa [State.setTh] using h.fifo hf
      · intro m hm h0; simp [State.setTh]
    | grab b => exact h.congr rfl rfl rfl rfl rfl rfl

theorem Hist.bodyRead {s : State α} (h : Hist s) (t : Nat) (b : BOp α) : Hist (s.bodyRead t b) := by
  cases b <;> simp only [State.bodyRead] <;> (try split) <;> exact h.congr rfl rfl rfl rfl rfl rfl

theorem pickEnq_vals (cmp : Item α → Item α → Bool) (l : List (Item α)) : ∀ (xs : List α) (acc : List (Item α)),
    (∀ x ∈ acc, isMarker x = false) → ∀ x ∈ Queue.pickEnq cmp l acc (xs.map .val), isMarker x = false
  | [], acc, h => by simpa [Queue.pickEnq] using h
  | y :: xs, acc, h => by
    rw [List.map_cons, Queue.pickEnq]
    split
    · exact pickEnq_vals cmp l xs acc h
    · exact pickEnq_vals cmp l xs _ (by simpa [isMarker] using h)

theorem pickPush_split (cmp : Item α → Item α → Bool) : ∀ (xs : List α) (l : List (Item α)),
    ∃ ys : List α, Queue.pickPush cmp l (xs.map .val) = ys.map .val ++ l
  | [], l => ⟨[], rfl⟩
  | y :: xs, l => by
    rw [List.map_cons, Queue.pickPush]
    split
    · exact pickPush_split cmp xs l
    · obtain ⟨ys, h⟩ := pickPush_split cmp xs (.val y :: l)
      exact ⟨ys ++ [y], by simp [h]⟩

theorem vals_filter_perm (p : Item α → Bool) : ∀ l : List (Item α),
    (vals l).Perm (vals (l.filter p) ++ vals (l.filter (fun x => !p x)))
  | [] => by simp
  | x :: l => by
    have ih := vals_filter_perm p l
    by_cases hp : p x = true
    · cases x with
      | marker => simpa [List.filter_cons, hp] using ih
      | val a => simpa [List.filter_cons, hp] using ih
    · cases x with
      | marker => simpa [List.filter_cons, hp] using ih
      | val a =>
        simp only [List.filter_cons, hp, Bool.not_false, Bool.false_eq_true, if_false, if_true, vals_val]
        exact (ih.cons a).trans List.perm_middle.symm

theorem Hist.bodyWrite {s : State α} (h : Hist s) (t : Nat) (b : BOp α) (hb : s.bodyOk b) :
    Hist (s.bodyWrite t b s.content) := by
  cases b with
  | toList => exact h.congr rfl rfl rfl rfl rfl rfl
  | enqUnique cmp xs =>
    exact (h.enq _ (fun m hm _ => by
      have := overflows_false hb hm; simpa using this)).congr rfl rfl rfl rfl rfl rfl
  | pushUnique cmp xs =>
    obtain ⟨ys, hy⟩ := pickPush_split cmp xs s.content
    have h2 := h.push (ys.map .val) (by rw [vals_map_val]; cases ys <;> simp) (fun m hm _ => by
      have := overflows_false hb hm
      rw [hy] at this; simpa using this)
    simp only [State.bodyWrite, hy]
    refine h2.congr rfl rfl rfl ?_ rfl rfl
    simp [State.pushInt]
  | remove pred =>
    refine ⟨?_, ?_, ?_⟩
    · have := h.acc
      unfold Acc at *
      simp only [State.bodyWrite, setTh_ins, setTh_fronts, setTh_out, setTh_removed, setTh_content, nW_ins, nW_fronts,
        nW_out, nW_removed, nW_content]
      refine this.trans ?_
      refine ((vals_filter_perm pred s.content).append_left _).trans ?_
      simp [List.append_assoc]
    · intro hf
      have := h.fifo hf
      simp only [State.bodyWrite, setTh_ins, setTh_out, setTh_content, nW_ins, nW_out, nW_content]
      refine List.Sublist.trans ?_ this
      exact (List.Sublist.refl _).append (List.Sublist.filterMap _ List.filter_sublist)
    · intro m hm h0
      exact Nat.le_trans (List.length_filter_le _ _) (h.bnd m hm h0)

theorem Hist.step {s s' : State α} {l : Label α} (hh : Hold s) (h : Hist s) (hs : step s l = some s') : Hist s' := by
  cases l with
  | light t o => simp only [MtQueue.step] at hs; split at hs <;> cases hs; exact h.enterL _ _
  | wait t o => simp only [MtQueue.step] at hs; split at hs <;> cases hs; exact h.startW _ _
  | wake t =>
    simp only [MtQueue.step] at hs
    split at hs <;> cases hs
    · exact h.enterL _ _
    · exact h.enterW _ _
    · exact h.enterW _ _
  | timeout t => simp only [MtQueue.step] at hs; split at hs <;> cases hs; exact h.congr rfl rfl rfl rfl rfl rfl
  | intr t => simp only [MtQueue.step] at hs; split at hs <;> cases hs; exact h.congr rfl rfl rfl rfl rfl rfl
  | body t =>
    simp only [MtQueue.step] at hs
    split at hs <;> cases hs
    · exact h.bodyRead _ _
    · rename_i b seen hb
      obtain ⟨e, ok⟩ := (hh t).2 b seen hb
      subst e
      exact h.bodyWrite _ _ ok
    · exact h.congr rfl rfl rfl rfl rfl rfl
  | notify t => simp only [MtQueue.step] at hs; split at hs <;> cases hs; exact h.congr rfl rfl rfl rfl rfl rfl


/-! ## Wake-ups -/

def WOp.isWriter : WOp α → Bool
  | .deqW _ => false
  | _ => true

/-- The writers' wait condition. -/
def State.full (s : State α) : Bool := if s.maxlen ≠ some 0 then s.overflows 1 else s.readerSem == 0

theorem waitCheck_writer (s : State α) {o : WOp α} (h : o.isWriter = true) : s.waitCheck o = s.full := by
  cases o <;> first | rfl | simp [WOp.isWriter] at h

/-- Nobody sleeps unnotified without reason. -/
structure Wk (s : State α) : Prop where
  rd : ∀ t c, s.th t = .waitCv (.deqW c) false → s.content = []
  wr : ∀ t o, o.isWriter = true → s.th t = .waitCv o false → s.full = true ∨ ∃ u, s.th u = .notifyW
  lk : ∀ t, ((∃ o, s.th t = .lockL o false) ∨ ∃ o, s.th t = .lockW o false) → s.locker.isSome
  nm : ∀ x ∈ s.content, isMarker x = false

/-- No unnotified sleeper of some kinds. -/
def NoR (s : State α) : Prop := ∀ t c, s.th t ≠ .waitCv (.deqW c) false
def NoW (s : State α) : Prop := ∀ t o, o.isWriter = true → s.th t ≠ .waitCv o false
def NoL (s : State α) : Prop := ∀ t, (∀ o, s.th t ≠ .lockL o false) ∧ ∀ o, s.th t ≠ .lockW o false

theorem nR_NoR (s : State α) : NoR s.notifyReaders := by
  intro t c; simp only [State.notifyReaders]; rcases s.th t with _|_|_|⟨(_|_|_),_⟩|_|_|_|_ <;> simp
theorem nW_NoW (s : State α) : NoW s.notifyWriters := by
  intro t o ho; simp only [State.notifyWriters]
  rcases s.th t with _|_|_|⟨(_|_|_),_⟩|_|_|_|_ <;> simp
  rintro rfl; simp [WOp.isWriter] at ho
theorem nL_NoL (s : State α) : NoL s.notifyLockers := by
  intro t; simp only [State.notifyLockers]; rcases s.th t with _|_|_|⟨(_|_|_),_⟩|_|_|_|_ <;> simp

/-- `s'`'s unnotified sleepers were already such in `s`, and pending notifications persist. -/
structure Le (s s' : State α) : Prop where
  cv : ∀ t o, s'.th t = .waitCv o false → s.th t = .waitCv o false
  lL : ∀ t o, s'.th t = .lockL o false → s.th t = .lockL o false
  lW : ∀ t o, s'.th t = .lockW o false → s.th t = .lockW o false
  nt : ∀ t, s.th t = .notifyW → s'.th t = .notifyW

theorem Le.refl' {s s' : State α} (h : s'.th = s.th) : Le s s' :=
  ⟨fun t o => by rw [h]; exact id, fun t o => by rw [h]; exact id, fun t o => by rw [h]; exact id,
   fun t => by rw [h]; exact id⟩
theorem Le.trans {a b c : State α} (h : Le a b) (h' : Le b c) : Le a c :=
  ⟨fun t o x => h.cv t o (h'.cv t o x), fun t o x => h.lL t o (h'.lL t o x), fun t o x => h.lW t o (h'.lW t o x),
   fun t x => h'.nt t (h.nt t x)⟩
theorem Le.before {a b c : State α} (h' : Le b c) (h : Le a b) : Le a c := h.trans h'
theorem Le.nR (s : State α) : Le s s.notifyReaders := by
  constructor <;> intro t <;> simp only [State.notifyReaders] <;>
    rcases s.th t with _|_|_|⟨(_|_|_),_⟩|_|_|_|_ <;> simp
theorem Le.nW (s : State α) : Le s s.notifyWriters := by
  constructor <;> intro t <;> simp only [State.notifyWriters] <;>
    rcases s.th t with _|_|_|⟨(_|_|_),_⟩|_|_|_|_ <;> simp
theorem Le.nL (s : State α) : Le s s.notifyLockers := by
  constructor <;> intro t <;> simp only [State.notifyLockers] <;>
    rcases s.th t with _|_|_|⟨(_|_|_),_⟩|_|_|_|_ <;> simp

theorem Le.nR' {s s' : State α} (h : s'.th = s.th) : Le s s'.notifyReaders := (Le.refl' h).trans (Le.nR _)
theorem Le.nW' {s s' : State α} (h : s'.th = s.th) : Le s s'.notifyWriters := (Le.refl' h).trans (Le.nW _)
theorem Le.nL' {s s' : State α} (h : s'.th = s.th) : Le s s'.notifyLockers := (Le.refl' h).trans (Le.nL _)

/-- Thread `t`'s state is not an unnotified sleep, and `t` was not owing a notification. -/
def Th.plain : Th α → Bool
  | .lockL _ false | .lockW _ false | .waitCv _ false => false
  | _ => true

theorem Le.set (s : State α) (t : Nat) {x : Th α} (hx : x.plain = true) (ht : s.th t ≠ .notifyW) : Le s (s.setTh t x) := by
  constructor <;> intro u <;> simp only [State.setTh] <;> by_cases hu : u = t <;> simp only [hu, if_true, if_false]
    <;> (try exact fun _ => id) <;> (try exact id)
  · rintro o rfl; simp [Th.plain] at hx
  · rintro o rfl; simp [Th.plain] at hx
  · rintro o rfl; simp [Th.plain] at hx
  · intro h; exact absurd h ht

theorem NoR.le {s s' : State α} (h : NoR s) (l : Le s s') : NoR s' := fun t c hh => h t c (l.cv t _ hh)
theorem NoW.le {s s' : State α} (h : NoW s) (l : Le s s') : NoW s' := fun t c ho hh => h t c ho (l.cv t _ hh)
theorem NoL.le {s s' : State α} (h : NoL s) (l : Le s s') : NoL s' :=
  fun t => ⟨fun o hh => (h t).1 o (l.lL t o hh), fun o hh => (h t).2 o (l.lW t o hh)⟩

/-- Main transfer lemma. -/
theorem Wk.le {s s' : State α} (h : Wk s) (l : Le s s')
    (hr : NoR s' ∨ (s.content = [] → s'.content = []))
    (hw : NoW s' ∨ (s.full = true → s'.full = true) ∨ ∃ u, s'.th u = .notifyW)
    (hl : NoL s' ∨ s'.locker = s.locker)
    (hm : ∀ x ∈ s'.content, isMarker x = false) : Wk s' := by
  refine ⟨?_, ?_, ?_, hm⟩
  · intro t c hh
    rcases hr with hr | hr
    · exact absurd hh (hr t c)
    · exact hr (h.rd t c (l.cv t _ hh))
  · intro t o ho hh
    rcases hw with hw | hw | hw
    · exact absurd hh (hw t o ho)
    · rcases h.wr t o ho (l.cv t _ hh) with h1 | ⟨u, h1⟩
      · exact Or.inl (hw h1)
      · exact Or.inr ⟨u, l.nt u h1⟩
    · exact Or.inr hw
  · intro t hh
    rcases hl with hl | hl
    · rcases hh with ⟨o, hh⟩ | ⟨o, hh⟩
      · exact absurd hh ((hl t).1 o)
      · exact absurd hh ((hl t).2 o)
    · rw [hl]
      apply h.lk t
      rcases hh with ⟨o, hh⟩ | ⟨o, hh⟩
      · exact Or.inl ⟨o, l.lL t o hh⟩
      · exact Or.inr ⟨o, l.lW t o hh⟩

theorem Wk.set {s : State α} (h : Wk s) (t : Nat) {x : Th α} (hx : x.plain = true) (ht : s.th t ≠ .notifyW) :
    Wk (s.setTh t x) :=
  h.le (Le.set s t hx ht) (Or.inr id) (Or.inr (Or.inl id)) (Or.inr rfl) h.nm

theorem Wk.sleepL {s : State α} (h : Wk s) (t : Nat) (ht : s.th t ≠ .notifyW) (hl : s.locker.isSome) (o : LOp α) :
    Wk (s.setTh t (.lockL o false)) := by
  have key : ∀ u x, u ≠ t → (s.setTh t (.lockL o false)).th u = x → s.th u = x := by
    intro u x hu; simp [State.setTh, hu]
  refine ⟨?_, ?_, fun _ _ => hl, h.nm⟩
  · intro u c hh
    by_cases hu : u = t
    · simp [State.setTh, hu] at hh
    · exact h.rd u c (key u _ hu hh)
  · intro u c ho hh
    by_cases hu : u = t
    · simp [State.setTh, hu] at hh
    · rcases h.wr u c ho (key u _ hu hh) with h1 | ⟨v, h1⟩
      · exact Or.inl h1
      · refine Or.inr ⟨v, ?_⟩
        have : v ≠ t := by rintro rfl; exact ht h1
        simp [State.setTh, this, h1]

theorem Wk.sleepW {s : State α} (h : Wk s) (t : Nat) (ht : s.th t ≠ .notifyW) (hl : s.locker.isSome) (o : WOp α) :
    Wk (s.setTh t (.lockW o false)) := by
  have key : ∀ u x, u ≠ t → (s.setTh t (.lockW o false)).th u = x → s.th u = x := by
    intro u x hu; simp [State.setTh, hu]
  refine ⟨?_, ?_, fun _ _ => hl, h.nm⟩
  · intro u c hh
    by_cases hu : u = t
    · simp [State.setTh, hu] at hh
    · exact h.rd u c (key u _ hu hh)
  · intro u c ho hh
    by_cases hu : u = t
    · simp [State.setTh, hu] at hh
    · rcases h.wr u c ho (key u _ hu hh) with h1 | ⟨v, h1⟩
      · exact Or.inl h1
      · refine Or.inr ⟨v, ?_⟩
        have : v ≠ t := by rintro rfl; exact ht h1
        simp [State.setTh, this, h1]

theorem Wk.sleepCv {s : State α} (h : Wk s) (t : Nat) (ht : s.th t ≠ .notifyW) (o : WOp α) (hw : s.waitCheck o = true) :
    Wk (s.setTh t (.waitCv o false)) := by
  have key : ∀ u x, u ≠ t → (s.setTh t (.waitCv o false)).th u = x → s.th u = x := by
    intro u x hu; simp [State.setTh, hu]
  refine ⟨?_, ?_, ?_, h.nm⟩
  · intro u c hh
    by_cases hu : u = t
    · simp [State.setTh, hu] at hh; subst hh; simpa [State.waitCheck] using hw
    · exact h.rd u c (key u _ hu hh)
  · intro u c ho hh
    by_cases hu : u = t
    · simp [State.setTh, hu] at hh; subst hh
      rw [waitCheck_writer s ho] at hw; exact Or.inl hw
    · rcases h.wr u c ho (key u _ hu hh) with h1 | ⟨v, h1⟩
      · exact Or.inl h1
      · refine Or.inr ⟨v, ?_⟩
        have : v ≠ t := by rintro rfl; exact ht h1
        simp [State.setTh, this, h1]
  · intro u hh
    by_cases hu : u = t
    · simp [State.setTh, hu] at hh
    · apply h.lk u
      rcases hh with ⟨o, hh⟩ | ⟨o, hh⟩
      · exact Or.inl ⟨o, key u _ hu hh⟩
      · exact Or.inr ⟨o, key u _ hu hh⟩

theorem full_mono {s s' : State α} (hm : s'.maxlen = s.maxlen) (hr : s'.readerSem = s.readerSem)
    (hc : s.content.length ≤ s'.content.length) (h : s.full = true) : s'.full = true := by
  unfold State.full State.overflows at *
  rw [hm, hr]
  split
  · rename_i h0
    rw [if_pos h0] at h
    cases hh : s.maxlen with
    | none => simp [hh] at h
    | some m => simp [hh] at h ⊢; omega
  · rename_i h0
    rw [if_neg h0] at h; exact h

theorem deqInt_content_sub (s : State α) : ∀ x ∈ s.dequeueInt.2.content, x ∈ s.content := by
  unfold State.dequeueInt
  have h := (List.dropWhile_suffix (l := s.content) isMarker).subset
  split
  · rename_i a r he; rw [he] at h; intro x hx; exact h (by simp [hx])
  · simp

theorem any_marker_false {l : List (Item α)} (h : l.any isMarker = false) : ∀ x ∈ l, isMarker x = false := by
  simpa using h

theorem notifyReaders_notifyW (s : State α) (t) : s.notifyReaders.th t = .notifyW ↔ s.th t = .notifyW := by
  simp only [State.notifyReaders]; rcases s.th t with _|_|_|⟨(_|_|_),_⟩|_|_|_|_ <;> simp
theorem notifyWriters_notifyW (s : State α) (t) : s.notifyWriters.th t = .notifyW ↔ s.th t = .notifyW := by
  simp only [State.notifyWriters]; rcases s.th t with _|_|_|⟨(_|_|_),_⟩|_|_|_|_ <;> simp
theorem notifyLockers_notifyW (s : State α) (t) : s.notifyLockers.th t = .notifyW ↔ s.th t = .notifyW := by
  simp only [State.notifyLockers]; rcases s.th t with _|_|_|⟨(_|_|_),_⟩|_|_|_|_ <;> simp

theorem Wk.enterW {s : State α} (h : Wk s) (t : Nat) (ht : s.th t ≠ .notifyW) (o : WOp α)
    (hm : (s.enterW t o).marked = false) : Wk (s.enterW t o) := by
  unfold State.enterW at hm ⊢
  split
  · rename_i hl; exact h.sleepW t ht hl o
  · rename_i hl
    rw [if_neg hl] at hm
    split
    · rename_i hw; exact h.sleepCv t ht o hw
    · rename_i hw
      rw [if_neg hw] at hm
      have hNoL : ∀ x : State α, NoL (x.notifyLockers) := nL_NoL
      cases o with
      | enqW x c =>
        have hx : isMarker x = false := by
          cases c <;> simp [State.doOk, State.enqueueInt] at hm <;> exact hm.2
        have l1 : Le s (s.doOk (.enqW x c)) := by
          cases c <;> exact Le.nR' rfl
        have l2 : Le (s.doOk (.enqW x c)) (({ (s.doOk (.enqW x c)) with locker := none } : State α).notifyLockers) :=
          Le.nL' rfl
        have ht2 : ∀ u, (({ (s.doOk (.enqW x c)) with locker := none } : State α).notifyLockers).th u = .notifyW → s.th u = .notifyW := by
          intro u hu
          have := (notifyLockers_notifyW _ _).1 hu
          cases c <;> exact (notifyReaders_notifyW _ _).1 this
        have l3 := Le.set (({ (s.doOk (.enqW x c)) with locker := none } : State α).notifyLockers) t (x := .idle) rfl
          (fun hh => ht (ht2 t hh))
        refine h.le ((l1.trans l2).trans l3) (Or.inl ?_) (Or.inr (Or.inl ?_)) (Or.inl ((nL_NoL _).le l3)) ?_
        · refine NoR.le ?_ (l2.trans l3)
          cases c <;> exact nR_NoR _
        · intro hf
          exfalso; rw [waitCheck_writer s (by rfl)] at hw; exact hw hf
        · intro y hy
          have : y ∈ s.content ++ [x] := by cases c <;> exact hy
          rcases List.mem_append.1 this with h1 | h1
          · exact h.nm y h1
          · simp at h1; subst h1; exact hx
      | pushW x c =>
        have l1 : Le s (s.doOk (.pushW x c)) := by
          cases c <;> exact Le.nR' rfl
        have l2 : Le (s.doOk (.pushW x c)) (({ (s.doOk (.pushW x c)) with locker := none } : State α).notifyLockers) :=
          Le.nL' rfl
        have ht2 : ∀ u, (({ (s.doOk (.pushW x c)) with locker := none } : State α).notifyLockers).th u = .notifyW → s.th u = .notifyW := by
          intro u hu
          have := (notifyLockers_notifyW _ _).1 hu
          cases c <;> exact (notifyReaders_notifyW _ _).1 this
        have l3 := Le.set (({ (s.doOk (.pushW x c)) with locker := none } : State α).notifyLockers) t (x := .idle) rfl
          (fun hh => ht (ht2 t hh))
        refine h.le ((l1.trans l2).trans l3) (Or.inl ?_) (Or.inr (Or.inl ?_)) (Or.inl ((nL_NoL _).le l3)) ?_
        · refine NoR.le ?_ (l2.trans l3)
          cases c <;> exact nR_NoR _
        · intro hf
          exfalso; rw [waitCheck_writer s (by rfl)] at hw; exact hw hf
        · intro y hy
          have : y ∈ [.val x] ++ s.content := by cases c <;> exact hy
          rcases List.mem_append.1 this with h1 | h1
          · simp at h1; subst h1; rfl
          · exact h.nm y h1
      | deqW c =>
        have l1 : Le s (s.doOk (.deqW c)) := Le.nW' (by simp)
        have l2 : Le (s.doOk (.deqW c)) (({ (s.doOk (.deqW c)) with locker := none } : State α).notifyLockers) :=
          Le.nL' rfl
        have ht2 : ∀ u, (({ (s.doOk (.deqW c)) with locker := none } : State α).notifyLockers).th u = .notifyW → s.th u = .notifyW := by
          intro u
          simp only [State.notifyLockers, State.doOk, State.notifyWriters, deqInt_th] 
          rcases s.th u with _|_|_|⟨(_|_|_),_⟩|_|_|_|_ <;> simp
        have l3 := Le.set (({ (s.doOk (.deqW c)) with locker := none } : State α).notifyLockers) t (x := .idle) rfl
          (fun hh => ht (ht2 t hh))
        refine h.le ((l1.trans l2).trans l3) (Or.inr ?_) (Or.inl ?_) (Or.inl ((nL_NoL _).le l3)) ?_
        · intro he; simp [State.waitCheck, he] at hw
        · exact NoW.le (nW_NoW _) (l2.trans l3)
        · intro y hy
          exact h.nm y (deqInt_content_sub ({ s with readerSem := s.readerSem - 1 } : State α) y hy)

theorem startW_marked (s : State α) (t : Nat) (o : WOp α) (hm : (s.startW t o).marked = false) : s.marked = false := by
  cases hs : s.marked with
  | false => rfl
  | true =>
    exfalso
    have key : ∀ (s : State α) o, s.marked = true → (s.enterW t o).marked = true := by
      intro s o hs
      unfold State.enterW
      split
      · exact hs
      · split
        · exact hs
        · cases o with
          | enqW x c => cases c <;> simp [State.doOk, State.enqueueInt, hs]
          | pushW x c => cases c <;> simp [State.doOk, State.pushInt, hs]
          | deqW c => simp [State.doOk, hs]
    cases o with
    | enqW x c => simp only [State.startW] at hm; split at hm <;> simp_all
    | pushW x c => simp only [State.startW] at hm; split at hm <;> simp_all
    | deqW c =>
      simp only [State.startW] at hm
      rw [key _ _ (by cases c <;> exact hs)] at hm; cases hm

theorem Wk.startW {s : State α} (h : Wk s) (t : Nat) (ht : s.th t ≠ .notifyW) (o : WOp α)
    (hm : (s.startW t o).marked = false) : Wk (s.startW t o) := by
  cases o with
  | enqW x c =>
    simp only [State.startW] at hm ⊢; split
    · exact h
    · rename_i hc; rw [if_neg hc] at hm; exact h.enterW t ht _ hm
  | pushW x c =>
    simp only [State.startW] at hm ⊢; split
    · exact h
    · rename_i hc; rw [if_neg hc] at hm; exact h.enterW t ht _ hm
  | deqW c =>
    simp only [State.startW] at hm ⊢
    refine Wk.enterW ?_ t ?_ _ hm
    · cases c <;>
        exact h.le (Le.nW' rfl) (Or.inr id) (Or.inl (nW_NoW _)) (Or.inr rfl) h.nm
    · intro hh
      apply ht
      have := (notifyWriters_notifyW _ _).1 hh
      cases c <;> exact this

theorem map_val_nm (xs : List α) : ∀ x ∈ xs.map Item.val, isMarker x = false := by
  intro x hx; simp at hx; obtain ⟨a, _, rfl⟩ := hx; rfl

theorem Wk.enterL {s : State α} (h : Wk s) (t : Nat) (ht : s.th t ≠ .notifyW) (o : LOp α) : Wk (s.enterL t o) := by
  unfold State.enterL
  split
  · rename_i hl; exact h.sleepL t ht hl o
  · cases o with
    | enq xs =>
      dsimp only
      split
      · exact h.set t rfl ht
      · split
        · exact h.set t rfl ht
        · have l1 : Le s (s.enqueueInt (xs.map .val)).notifyReaders := Le.nR' rfl
          have l2 := Le.set (s.enqueueInt (xs.map .val)).notifyReaders t (x := .idle) rfl
            (fun hh => ht ((notifyReaders_notifyW _ _).1 hh))
          refine h.le (l1.trans l2) (Or.inl ((nR_NoR _).le l2)) (Or.inr (Or.inl (full_mono rfl rfl ?_))) (Or.inr rfl) ?_
          · simp [State.enqueueInt]
          · intro y hy
            have hy : y ∈ s.content ++ xs.map .val := hy
            rcases List.mem_append.1 hy with h1 | h1
            · exact h.nm y h1
            · exact map_val_nm xs y h1
    | push xs =>
      dsimp only
      split
      · exact h.set t rfl ht
      · split
        · exact h.set t rfl ht
        · have l1 : Le s (s.pushInt (xs.map .val).reverse).notifyReaders := Le.nR' rfl
          have l2 := Le.set (s.pushInt (xs.map .val).reverse).notifyReaders t (x := .idle) rfl
            (fun hh => ht ((notifyReaders_notifyW _ _).1 hh))
          refine h.le (l1.trans l2) (Or.inl ((nR_NoR _).le l2)) (Or.inr (Or.inl (full_mono rfl rfl ?_))) (Or.inr rfl) ?_
          · simp [State.pushInt]
          · intro y hy
            have hy : y ∈ (xs.map .val).reverse ++ s.content := hy
            rcases List.mem_append.1 hy with h1 | h1
            · exact map_val_nm xs y (List.mem_reverse.1 h1)
            · exact h.nm y h1
    | deq =>
      dsimp only
      have hc : s.content = [] → s.dequeueInt.2.content = [] := by
        intro he; simp [State.dequeueInt, he]
      have hn : s.dequeueInt.1 = none → s.content = [] := by
        intro he
        cases hl : s.content with
        | nil => rfl
        | cons x r =>
          have hx := h.nm x (by simp [hl])
          cases x with
          | marker => simp [isMarker] at hx
          | val a => simp [State.dequeueInt, hl, List.dropWhile_cons, isMarker] at he
      have l1 : Le s s.dequeueInt.2 := Le.refl' (by simp)
      have l2 : ∀ x : Th α, x.plain = true → Le s.dequeueInt.2 (s.dequeueInt.2.setTh t x) :=
        fun x hx => Le.set _ t hx (by simpa using ht)
      have hsub := deqInt_content_sub s
      have hthm := deqInt_maxlen s
      have hlock := deqInt_locker s
      have hsem := deqInt_sem s
      split
      · rename_i a s' he
        rw [he] at hc l1 l2 hsub hlock
        refine h.le (l1.trans (l2 .notifyW rfl)) (Or.inr hc) (Or.inr (Or.inr ⟨t, by simp [State.setTh]⟩)) (Or.inr hlock) ?_
        exact fun y hy => h.nm y (hsub y hy)
      · rename_i s' he
        rw [he] at hn hc l1 l2 hsub hlock hthm hsem
        refine h.le (l1.trans (l2 .idle rfl)) (Or.inr hc) (Or.inr (Or.inl (full_mono hthm hsem ?_))) (Or.inr hlock) ?_
        · simp [hn rfl]
        · exact fun y hy => h.nm y (hsub y hy)
    | deqAll =>
      refine h.le (Le.before (Le.set ({ s with content := [], out := s.out ++ vals s.content } : State α) t (x := _) (by rfl) ht) (Le.refl' rfl))
        (Or.inr fun _ => rfl) (Or.inr (Or.inr ⟨t, by simp [State.setTh]⟩)) (Or.inr rfl) (by simp)
    | grab b =>
      rename_i hl
      refine h.le (Le.before (Le.set ({ s with locker := some t } : State α) t (x := _) (by rfl) ht) (Le.refl' rfl))
        (Or.inr id) (Or.inr (Or.inl id)) (Or.inl ?_) h.nm
      intro u
      have := h.lk u
      refine ⟨fun o hh => ?_, fun o hh => ?_⟩
      · by_cases hu : u = t
        · simp [State.setTh, hu] at hh
        · simp [State.setTh, hu] at hh; exact hl (this (Or.inl ⟨o, hh⟩))
      · by_cases hu : u = t
        · simp [State.setTh, hu] at hh
        · simp [State.setTh, hu] at hh; exact hl (this (Or.inr ⟨o, hh⟩))

theorem Wk.release {s : State α} (h : Wk s) (t : Nat) (ht : s.th t ≠ .notifyW) {x : Th α} (hx : x.plain = true) :
    Wk (({ s with locker := none }.notifyLockers).setTh t x) := by
  have l2 := Le.set (({ s with locker := none } : State α).notifyLockers) t hx
    (fun hh => ht ((notifyLockers_notifyW _ _).1 hh))
  exact h.le (Le.before l2 (Le.nL' rfl)) (Or.inr id) (Or.inr (Or.inl id)) (Or.inl ((nL_NoL _).le l2)) h.nm

theorem Wk.bodyRead {s : State α} (h : Wk s) (t : Nat) (ht : s.th t ≠ .notifyW) (b : BOp α) : Wk (s.bodyRead t b) := by
  cases b <;> simp only [State.bodyRead] <;> (try split) <;> exact h.set t rfl ht

theorem Wk.bodyWrite {s : State α} (h : Wk s) (t : Nat) (ht : s.th t ≠ .notifyW) (b : BOp α) :
    Wk (s.bodyWrite t b s.content) := by
  cases b with
  | toList => exact h.set t rfl ht
  | enqUnique cmp xs =>
    have l1 : Le s (s.enqueueInt (Queue.pickEnq cmp s.content [] (xs.map .val)).reverse).notifyReaders :=
      Le.nR' rfl
    have l2 := Le.set (s.enqueueInt (Queue.pickEnq cmp s.content [] (xs.map .val)).reverse).notifyReaders t (x := .hold3) rfl
      (fun hh => ht ((notifyReaders_notifyW _ _).1 hh))
    refine h.le (l1.trans l2) (Or.inl ((nR_NoR _).le l2)) (Or.inr (Or.inl (full_mono rfl rfl ?_))) (Or.inr rfl) ?_
    · simp [State.bodyWrite, State.enqueueInt]
    · intro y hy
      have hy : y ∈ s.content ++ (Queue.pickEnq cmp s.content [] (xs.map .val)).reverse := hy
      rcases List.mem_append.1 hy with h1 | h1
      · exact h.nm y h1
      · exact pickEnq_vals cmp s.content xs [] (by simp) y (List.mem_reverse.1 h1)
  | pushUnique cmp xs =>
    obtain ⟨ys, hy⟩ := pickPush_split cmp xs s.content
    simp only [State.bodyWrite, hy]
    refine h.le (Le.before (Le.set _ t (by rfl) (fun hh => ht ((notifyReaders_notifyW _ _).1 hh))) (Le.nR' rfl))
      (Or.inl ((nR_NoR _).le (Le.set _ t (by rfl) (fun hh => ht ((notifyReaders_notifyW _ _).1 hh)))))
      (Or.inr (Or.inl (full_mono rfl rfl ?_))) (Or.inr rfl) ?_
    · simp
    · intro y hy
      have hy : y ∈ ys.map .val ++ s.content := hy
      rcases List.mem_append.1 hy with h1 | h1
      · exact map_val_nm ys y h1
      · exact h.nm y h1
  | remove pred =>
    simp only [State.bodyWrite]
    refine h.le (Le.before (Le.set _ t (by rfl) (fun hh => ht ((notifyWriters_notifyW _ _).1 hh))) (Le.nW' rfl))
      (Or.inr ?_)
      (Or.inl ((nW_NoW _).le (Le.set _ t (by rfl) (fun hh => ht ((notifyWriters_notifyW _ _).1 hh))))) (Or.inr rfl) ?_
    · intro he; simp [he]
    · intro y hy
      have hy : y ∈ s.content.filter (fun x => !pred x) := hy
      exact h.nm y (List.mem_filter.1 hy).1

theorem marked_mono {s s' : State α} {l : Label α} (hs : step s l = some s') (hm : s'.marked = false) : s.marked = false := by
  have keyW : ∀ (s : State α) t o, (s.enterW t o).marked = false → s.marked = false := by
    intro s t o h
    unfold State.enterW at h
    split at h
    · exact h
    · split at h
      · exact h
      · cases o with
        | enqW x c => cases c <;> simp [State.doOk, State.enqueueInt] at h <;> exact h.1
        | pushW x c => cases c <;> simpa [State.doOk, State.pushInt] using h
        | deqW c => simpa [State.doOk] using h
  have keyL : ∀ (s : State α) t o, (s.enterL t o).marked = false → s.marked = false := by
    intro s t o h
    unfold State.enterL at h
    split at h
    · exact h
    · cases o with
      | enq xs =>
        dsimp only at h
        split at h
        · exact h
        · split at h
          · exact h
          · simp [State.enqueueInt] at h; exact h.1
      | push xs =>
        dsimp only at h
        split at h
        · exact h
        · split at h
          · exact h
          · exact h
      | deq =>
        dsimp only at h
        have := deqInt_marked s
        split at h
        · rename_i he; rw [he] at this; rw [← this]; exact h
        · rename_i he; rw [he] at this; rw [← this]; exact h
      | deqAll => exact h
      | grab b => exact h
  cases l with
  | light t o => simp only [MtQueue.step] at hs; split at hs <;> cases hs; exact keyL _ _ _ hm
  | wait t o => simp only [MtQueue.step] at hs; split at hs <;> cases hs; exact startW_marked _ _ _ hm
  | wake t =>
    simp only [MtQueue.step] at hs
    split at hs <;> cases hs
    · exact keyL _ _ _ hm
    · exact keyW _ _ _ hm
    · exact keyW _ _ _ hm
  | timeout t => simp only [MtQueue.step] at hs; split at hs <;> cases hs; exact hm
  | intr t => simp only [MtQueue.step] at hs; split at hs <;> cases hs; exact hm
  | body t =>
    simp only [MtQueue.step] at hs
    split at hs <;> cases hs
    · rename_i b _; revert hm; cases b <;> simp only [State.bodyRead] <;> (try split) <;> exact id
    · rename_i b _ _
      revert hm
      cases b <;> simp [State.bodyWrite, State.enqueueInt]
      intro h _; exact h
    · exact hm
  | notify t => simp only [MtQueue.step] at hs; split at hs <;> cases hs; exact hm

theorem Wk.step {s s' : State α} {l : Label α} (hh : Hold s) (h : s.marked = false → Wk s) (hs : step s l = some s')
    (hm' : s'.marked = false) : Wk s' := by
  have h := h (marked_mono hs hm')
  cases l with
  | light t o =>
    simp only [MtQueue.step] at hs; split at hs <;> cases hs
    rename_i he; exact h.enterL _ (by simp [he]) _
  | wait t o =>
    simp only [MtQueue.step] at hs; split at hs <;> cases hs
    rename_i he; exact h.startW _ (by simp [he]) _ hm'
  | wake t =>
    simp only [MtQueue.step] at hs
    split at hs <;> cases hs
    · rename_i he; exact h.enterL _ (by simp [he]) _
    · rename_i he; exact h.enterW _ (by simp [he]) _ hm'
    · rename_i he; exact h.enterW _ (by simp [he]) _ hm'
  | timeout t =>
    simp only [MtQueue.step] at hs; split at hs <;> cases hs
    rename_i he; exact h.release t (by simp [he]) rfl
  | intr t =>
    simp only [MtQueue.step] at hs; split at hs <;> cases hs
    rename_i he; exact h.release t (by simp [he]) rfl
  | body t =>
    simp only [MtQueue.step] at hs
    split at hs <;> cases hs
    · rename_i he; exact h.bodyRead t (by simp [he]) _
    · rename_i b seen hb
      obtain ⟨e, ok⟩ := (hh t).2 b seen hb
      subst e
      exact h.bodyWrite t (by simp [hb]) _
    · rename_i he; exact h.release t (by simp [he]) rfl
  | notify t =>
    simp only [MtQueue.step] at hs; split at hs <;> cases hs
    -- the pending notification is performed: every writer is notified
    refine ⟨?_, ?_, ?_, h.nm⟩
    · intro u c hu
      by_cases hut : u = t
      · simp [State.setTh, hut] at hu
      · simp only [State.setTh, if_neg hut] at hu
        exact h.rd u c ((Le.nW s).cv u _ hu)
    · intro u o ho hu
      by_cases hut : u = t
      · simp [State.setTh, hut] at hu
      · simp only [State.setTh, if_neg hut] at hu
        exact absurd hu (nW_NoW s u o ho)
    · intro u hu
      apply h.lk u
      by_cases hut : u = t
      · simp [State.setTh, hut] at hu
      · simp only [State.setTh, if_neg hut] at hu
        rcases hu with ⟨o, hu⟩ | ⟨o, hu⟩
        · exact Or.inl ⟨o, (Le.nW s).lL u _ hu⟩
        · exact Or.inr ⟨o, (Le.nW s).lW u _ hu⟩

/-! ## Whole schedules -/

/-- Schedules in which either no wait is aborted (timeout, signal) or no big-lock operation is called. -/
def Safe (ls : List (Label α)) : Prop := (∀ l ∈ ls, l.isAbort = false) ∨ (∀ l ∈ ls, l.isGrab = false)

theorem run_inv : ∀ (ls : List (Label α)) (s s' : State α), run s ls = some s' → Safe ls → NoBig s ∨ (∀ l ∈ ls, l.isAbort = false) →
    Hold s → Hist s → (s.marked = false → Wk s) → Hold s' ∧ Hist s' ∧ (s'.marked = false → Wk s')
  | [], s, s', hr, _, _, h1, h2, h3 => by simp [run] at hr; subst hr; exact ⟨h1, h2, h3⟩
  | l :: ls, s, s', hr, hsafe, hb, h1, h2, h3 => by
    simp only [run, Option.bind_eq_some_iff] at hr
    obtain ⟨s1, hs, hr⟩ := hr
    have hl : l.isAbort = false ∨ ∀ t, (s.th t).isHold = false := by
      rcases hb with hb | hb
      · exact Or.inr fun t => (hb t).1
      · exact Or.inl (hb l (by simp))
    have hsafe' : Safe ls := by
      rcases hsafe with h | h
      · exact Or.inl fun x hx => h x (by simp [hx])
      · exact Or.inr fun x hx => h x (by simp [hx])
    have hb' : NoBig s1 ∨ (∀ l ∈ ls, l.isAbort = false) := by
      rcases hsafe with h | h
      · exact Or.inr fun x hx => h x (by simp [hx])
      · rcases hb with hb | hb
        · exact Or.inl (hb.step hs (h l (by simp)))
        · exact Or.inr fun x hx => hb x (by simp [hx])
    exact run_inv ls s1 s' hr hsafe' hb' (h1.step hs hl) (h2.step h1 hs) (fun hm => Wk.step h1 h3 hs hm)

theorem run_init {m : Option Nat} {ls : List (Label α)} {s : State α} (hs : Safe ls) (hr : run (init m) ls = some s) :
    Hold s ∧ Hist s ∧ (s.marked = false → Wk s) := by
  refine run_inv ls _ _ hr hs (Or.inl ?_) ?_ ?_ ?_
  · intro t; simp [init, Th.isHold]
  · intro t; simp [init, Th.isHold]
  · exact ⟨by simp [Acc, init], by simp [Fifo, init], by simp [Bnd, init]⟩
  · intro _
    exact ⟨by simp [init], by simp [init], by simp [init], by simp [init]⟩

end Gauche.MtQueue
