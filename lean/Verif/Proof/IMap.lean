import Verif.Model.IMap
import Verif.Spec.OrdList
set_option linter.unusedSectionVars false
namespace Gauche.IMap
open Std OrdList Color Tree
variable {κ ν : Type}

/-- In-order contents. -/
def elems : Tree κ ν → List (κ × ν)
  | E => []
  | T _ a p b => elems a ++ p :: elems b

@[simp] theorem elems_E : elems (E : Tree κ ν) = [] := rfl
@[simp] theorem elems_T (c) (a : Tree κ ν) (p b) : elems (T c a p b) = elems a ++ p :: elems b := rfl

theorem elems_balance (c) (a : Tree κ ν) (p b) :
    elems (balance c a p b) = elems a ++ p :: elems b := by
  unfold balance
  split <;> simp

section
variable {cmp : κ → κ → Ordering} [TransCmp cmp]

theorem get_eq {t : Tree κ ν} (h : Sorted cmp (elems t)) (k : κ) :
    get cmp k t = getL cmp k (elems t) := by
  induction t with
  | E => simp [get, getL]
  | T c a p b iha ihb =>
    obtain ⟨ha, hb, _, _⟩ := sorted_mid.1 h
    unfold get
    cases hc : cmp k p.1 <;> simp only [elems_T]
    · rw [(mid_lt h hc p.2).2.2]; exact iha ha
    · rw [(mid_eq h hc p.2).2.2]
    · rw [(mid_gt h hc p.2).2.2]; exact ihb hb

theorem ins_eq {t : Tree κ ν} (h : Sorted cmp (elems t)) (k : κ) (v : ν) :
    elems (ins cmp k v t) = putL cmp (k, v) (elems t) := by
  induction t with
  | E => simp [ins, putL]
  | T c a p b iha ihb =>
    obtain ⟨ha, hb, _, _⟩ := sorted_mid.1 h
    unfold ins
    cases hc : cmp k p.1 <;> simp only [elems_T, elems_balance]
    · rw [(mid_lt h hc v).1, iha ha]
    · rw [(mid_eq h hc v).1]
    · rw [(mid_gt h hc v).1, ihb hb]

theorem insert_eq {t : Tree κ ν} (h : Sorted cmp (elems t)) (k : κ) (v : ν) :
    elems (insert cmp k v t) = putL cmp (k, v) (elems t) := by
  rw [← ins_eq h]; unfold insert; split <;> simp_all

theorem populate_sorted (al : List (κ × ν)) : ∀ (t : Tree κ ν), Sorted cmp (elems t) →
    elems (populate cmp t al) = al.foldl (fun l e => putL cmp e l) (elems t) ∧
    Sorted cmp (elems (populate cmp t al)) := by
  induction al with
  | nil => intro t h; exact ⟨rfl, h⟩
  | cons e al ih =>
    intro t h
    obtain ⟨k, v⟩ := e
    have hs : Sorted cmp (elems (insert cmp k v t)) := by rw [insert_eq h]; exact putL_sorted h _
    obtain ⟨h1, h2⟩ := ih _ hs
    exact ⟨by rw [populate, h1, insert_eq h]; rfl, h2⟩

theorem delMin_elems : ∀ (t : Tree κ ν), t ≠ E → ∃ mp t', delMin t = some (mp, t') ∧
    elems t = mp :: elems t' := by
  intro t
  induction t with
  | E => intro h; exact absurd rfl h
  | T c a p b iha ihb =>
    intro _
    unfold delMin
    split
    · next h => cases h
    · next h => cases h; exact ⟨_, _, rfl, by simp⟩
    · next h => cases h; exact ⟨_, _, rfl, by simp⟩
    · next h =>
      cases h
      obtain ⟨mp, t', h1, h2⟩ := iha (by intro he; subst he; simp_all)
      refine ⟨mp, balance c t' p b, by simp [h1], by simp [elems_balance, h2]⟩

theorem del_eq {t : Tree κ ν} (h : Sorted cmp (elems t)) (k : κ) :
    elems (del cmp k t) = delL cmp k (elems t) := by
  induction t with
  | E => simp [del, delL]
  | T c a p b iha ihb =>
    obtain ⟨ha, hb, _, _⟩ := sorted_mid.1 h
    unfold del
    cases hc : cmp k p.1 <;> simp only [elems_T, elems_balance]
    · rw [(mid_lt h hc p.2).2.1, iha ha]
    · rw [(mid_eq h hc p.2).2.1]
      split
      · simp
      · simp
      · next hb' =>
        obtain ⟨mp, t', h1, h2⟩ := delMin_elems b (by intro he; subst he; exact hb' rfl)
        simp [h1, elems_balance, h2]
    · rw [(mid_gt h hc p.2).2.1, ihb hb]

theorem delete_eq {t : Tree κ ν} (h : Sorted cmp (elems t)) (k : κ) :
    elems (delete cmp k t) = delL cmp k (elems t) := by
  rw [← del_eq h]; unfold delete; split <;> simp_all
end

theorem min_eq (t : Tree κ ν) : imapMin t = (elems t).head? := by
  induction t with
  | E => rfl
  | T c a p b iha ihb =>
    unfold imapMin
    split
    · next h => cases h
    · next h => cases h; simp
    · next hne h =>
      cases h
      rw [iha]
      cases a with
      | E => exact (hne rfl).elim
      | T => simp

theorem max_eq (t : Tree κ ν) : imapMax t = (elems t).getLast? := by
  induction t with
  | E => rfl
  | T c a p b iha ihb =>
    unfold imapMax
    split
    · next h => cases h
    · next h => cases h; simp
    · next hne h =>
      cases h
      rw [ihb]
      cases b with
      | E => exact (hne rfl).elim
      | T => simp [List.getLast?_append, List.getLast?_cons]

theorem fold_eq {σ : Type} (proc : κ × ν → σ → σ) (t : Tree κ ν) :
    ∀ s, fold proc t s = (elems t).foldl (fun s p => proc p s) s := by
  induction t with
  | E => intro s; rfl
  | T c a p b iha ihb => intro s; simp [fold, iha, ihb]

theorem foldRight_eq {σ : Type} (proc : κ × ν → σ → σ) (t : Tree κ ν) :
    ∀ s, foldRight proc t s = (elems t).foldr proc s := by
  induction t with
  | E => intro s; rfl
  | T c a p b iha ihb => intro s; simp [foldRight, iha, ihb]

theorem iterStep_spec (q : List (Tree κ ν)) (hne : q ≠ []) (hq : ∀ t ∈ q, t ≠ E) :
    ∃ p q', iterStep q = some (p, q') ∧ (q.map elems).flatten = p :: (q'.map elems).flatten ∧
      ∀ t ∈ q', t ≠ E := by
  fun_induction iterStep q with
  | case1 => exact absurd rfl hne
  | case2 => simp at hq
  | case3 => exact ⟨_, _, rfl, by simp, fun t ht => hq t (by simp [ht])⟩
  | case4 c p b q hb =>
    refine ⟨_, _, rfl, by simp, fun t ht => ?_⟩
    rcases List.mem_cons.1 ht with rfl | ht
    · exact hb
    · exact hq t (by simp [ht])
  | case5 c a p b q _ h1 ih =>
    have ha : a ≠ E := h1
    obtain ⟨p', q', e1, e2, e3⟩ := ih (by simp) (by simp at hq ⊢; exact ⟨ha, hq⟩)
    exact ⟨p', q', e1, by rw [← e2]; simp, e3⟩

theorem iterAll_spec : ∀ (n : Nat) (q : List (Tree κ ν)), (∀ t ∈ q, t ≠ E) →
    (q.map elems).flatten.length ≤ n → iterAll n q = some (q.map elems).flatten := by
  intro n
  induction n with
  | zero =>
    intro q hq hn
    cases q with
    | nil => rfl
    | cons t q =>
      obtain ⟨p, q', e1, e2, e3⟩ := iterStep_spec (t :: q) (by simp) hq
      rw [e2] at hn; simp at hn
  | succ n ih =>
    intro q hq hn
    cases q with
    | nil => rfl
    | cons t q =>
      obtain ⟨p, q', e1, e2, e3⟩ := iterStep_spec (t :: q) (by simp) hq
      rw [e2] at hn ⊢
      simp only [iterAll, e1, Option.bind_some]
      rw [ih q' e3 (by simpa using hn)]; rfl

/-! ### Red-black invariants (for histories of puts) -/

/-- Black height, when uniform. -/
def bh : Tree κ ν → Option Nat
  | E => some 0
  | T c a _ b => match bh a, bh b with
    | some m, some n => if m = n then some (if c = B then m + 1 else m) else none
    | _, _ => none

def isRed : Tree κ ν → Bool
  | T R _ _ _ => true
  | _ => false

/-- No red node has a red child. -/
def NoRR : Tree κ ν → Prop
  | E => True
  | T c a _ b => (c = R → isRed a = false ∧ isRed b = false) ∧ NoRR a ∧ NoRR b

/-- Like NoRR except possibly at the root. -/
def NoRR' : Tree κ ν → Prop
  | E => True
  | T _ a _ b => NoRR a ∧ NoRR b

theorem bh_T {c} {a : Tree κ ν} {p b n} : bh (T c a p b) = some n ↔
    ∃ m, bh a = some m ∧ bh b = some m ∧ n = (if c = B then m + 1 else m) := by
  rw [bh]
  generalize bh a = x
  generalize bh b = y
  cases x <;> cases y <;> simp
  · rename_i m m'
    by_cases h : m = m'
    · subst h; simp; exact eq_comm
    · simp [h]; intro x h1; omega

theorem bh_balance (c) (a : Tree κ ν) (p b) (n) (h : bh (T c a p b) = some n) :
    bh (balance c a p b) = some n := by
  unfold balance
  split
  case h_5 => exact h
  all_goals
    simp only [bh_T] at h ⊢
    grind

theorem ins_bh (cmp : κ → κ → Ordering) (k : κ) (v : ν) (t : Tree κ ν) : ∀ n, bh t = some n →
    bh (ins cmp k v t) = some n := by
  induction t with
  | E => intro n h; simpa [ins, bh] using h
  | T c a p b iha ihb =>
    intro n h
    obtain ⟨m, h1, h2, h3⟩ := bh_T.1 h
    unfold ins
    split
    · exact bh_balance _ _ _ _ _ (bh_T.2 ⟨m, iha m h1, h2, h3⟩)
    · exact bh_T.2 ⟨m, h1, h2, h3⟩
    · exact bh_balance _ _ _ _ _ (bh_T.2 ⟨m, h1, ihb m h2, h3⟩)

theorem NoRR.weak {t : Tree κ ν} (h : NoRR t) : NoRR' t := by
  cases t with
  | E => trivial
  | T => exact h.2

theorem noRR_balance_B (a : Tree κ ν) (p b) (h : (NoRR' a ∧ NoRR b) ∨ (NoRR a ∧ NoRR' b)) :
    NoRR (balance B a p b) := by
  unfold balance
  split
  case h_5 a p b _ _ _ _ n1 n2 n3 n4 =>
    have key : ∀ t : Tree κ ν, NoRR' t → (∀ a x b y c, t ≠ T R (T R a x b) y c) →
        (∀ a x b y c, t ≠ T R a x (T R b y c)) → NoRR t := by
      intro t ht h1 h2
      cases t with
      | E => trivial
      | T c l q r =>
        refine ⟨fun hc => ?_, ht.1, ht.2⟩
        subst hc
        constructor
        · cases l with
          | E => rfl
          | T c' x y z => cases c' with
            | B => rfl
            | R => exact absurd rfl (h1 x y z q r)
        · cases r with
          | E => rfl
          | T c' x y z => cases c' with
            | B => rfl
            | R => exact absurd rfl (h2 l q x y z)
    have ha : NoRR' a := h.elim (·.1) (·.1.weak)
    have hb : NoRR' b := h.elim (·.2.weak) (·.2)
    exact ⟨by simp, key a ha (fun _ _ _ _ _ e => n1 _ _ _ _ _ rfl e) (fun _ _ _ _ _ e => n2 _ _ _ _ _ rfl e),
      key b hb (fun _ _ _ _ _ e => n3 _ _ _ _ _ rfl e) (fun _ _ _ _ _ e => n4 _ _ _ _ _ rfl e)⟩
  all_goals
    simp only [NoRR, NoRR', isRed] at h ⊢
    grind

theorem ins_noRR (cmp : κ → κ → Ordering) (k : κ) (v : ν) (t : Tree κ ν) (h : NoRR t) :
    NoRR' (ins cmp k v t) ∧ (isRed t = false → NoRR (ins cmp k v t)) := by
  induction t with
  | E => simp [ins, NoRR, NoRR', isRed]
  | T c a p b iha ihb =>
    obtain ⟨h1, h2, h3⟩ := h
    obtain ⟨ia, ia'⟩ := iha h2
    obtain ⟨ib, ib'⟩ := ihb h3
    unfold ins
    cases c with
    | B =>
      have : ∀ {t : Tree κ ν}, NoRR t → NoRR' t ∧ (isRed (T B a p b) = false → NoRR t) :=
        fun h => ⟨h.weak, fun _ => h⟩
      split
      · exact this (noRR_balance_B _ _ _ (.inl ⟨ia, h3⟩))
      · exact this ⟨by simp, h2, h3⟩
      · exact this (noRR_balance_B _ _ _ (.inr ⟨h2, ib⟩))
    | R =>
      obtain ⟨ra, rb⟩ := h1 rfl
      split
      · simp only [balance]; exact ⟨⟨ia' ra, h3⟩, by simp [isRed]⟩
      · exact ⟨⟨h2, h3⟩, by simp [isRed]⟩
      · simp only [balance]; exact ⟨⟨h2, ib' rb⟩, by simp [isRed]⟩

/-- Longest root-to-leaf path. -/
def depth : Tree κ ν → Nat
  | E => 0
  | T _ a _ b => max (depth a) (depth b) + 1

theorem size_ge_bh (t : Tree κ ν) : ∀ n, bh t = some n → 2 ^ n ≤ size t + 1 := by
  induction t with
  | E => intro n h; simp [bh] at h; subst h; simp [size]
  | T c a p b iha ihb =>
    intro n h
    obtain ⟨m, h1, h2, h3⟩ := bh_T.1 h
    have := iha m h1; have := ihb m h2
    simp only [size]
    subst h3
    split
    · rw [Nat.pow_succ]; omega
    · omega

theorem depth_le_bh (t : Tree κ ν) : ∀ n, bh t = some n → NoRR t →
    depth t ≤ 2 * n + (if isRed t then 1 else 0) := by
  induction t with
  | E => intro n h _; simp [depth]
  | T c a p b iha ihb =>
    intro n h hr
    obtain ⟨m, h1, h2, h3⟩ := bh_T.1 h
    obtain ⟨r1, r2, r3⟩ := hr
    have := iha m h1 r2; have := ihb m h2 r3
    simp only [depth]
    cases c with
    | R =>
      obtain ⟨ra, rb⟩ := r1 rfl
      simp only [ra, rb] at *
      simp [isRed] at *; omega
    | B =>
      have h01 : ∀ t : Tree κ ν, (if isRed t then 1 else 0) ≤ 1 := by intro t; split <;> simp
      have := h01 a; have := h01 b
      simp only [if_true] at h3
      omega

theorem size_elems (t : Tree κ ν) : size t = (elems t).length := by
  induction t with
  | E => rfl
  | T c a p b iha ihb => simp [size, iha, ihb]; omega

end Gauche.IMap
