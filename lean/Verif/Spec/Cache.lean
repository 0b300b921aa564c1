import Mathlib.Data.List.Basic
/-
Specification of caches.

A bounded cache is a list of entries, the one to be discarded first at the head.  A cache with time-out is a partial
map from keys to the time of the last use and the value.
-/
namespace Gauche.Spec.Cache

variable {κ ν : Type} [DecidableEq κ]

/-- What a program does with a cache; `through` carries the value its procedure would compute. -/
inductive Op (κ ν : Type) where
  | lookup (k : κ)
  | through (k : κ) (v : ν)
  | write (k : κ) (v : ν)
  | evict (k : κ)
  | clear

/-- The value of a key. -/
def find (a : List (κ × ν)) (k : κ) : Option ν := (a.find? fun p => p.1 = k).map (·.2)

/-- All entries but that of a key. -/
def without (a : List (κ × ν)) (k : κ) : List (κ × ν) := a.filter fun p => p.1 ≠ k

/-- The documented insertion: if there is no entry for the key and the cache is full, the first entry makes room. -/
def insert (cap : Nat) (a : List (κ × ν)) (k : κ) (v : ν) : List (κ × ν) :=
  (if (find a k).isNone ∧ cap ≤ a.length then (without a k).tail else without a k) ++ [(k, v)]

/-- An insertion that makes room whenever the cache is full. -/
def insertEager (cap : Nat) (a : List (κ × ν)) (k : κ) (v : ν) : List (κ × ν) :=
  without (if cap ≤ a.length then a.tail else a) k ++ [(k, v)]

/-- A read: in a cache with `refresh` (LRU) the entry read becomes the last to be discarded. -/
def readEntry (refresh : Bool) (a : List (κ × ν)) (k : κ) : List (κ × ν) :=
  match find a k with
  | some v => if refresh then without a k ++ [(k, v)] else a
  | none => a

/-- One step of a bounded cache with the insertion `ins`: the entries, and the value delivered. -/
def step (ins : List (κ × ν) → κ → ν → List (κ × ν)) (refresh : Bool) (a : List (κ × ν)) : Op κ ν → List (κ × ν) × Option ν
  | .lookup k => (readEntry refresh a k, find a k)
  | .through k v => match find a k with
    | some w => (readEntry refresh a k, some w)
    | none => (ins a k v, some v)
  | .write k v => (ins a k v, none)
  | .evict k => (without a k, none)
  | .clear => ([], none)

/-- A history: the entries at the end and the values delivered. -/
def run (ins : List (κ × ν) → κ → ν → List (κ × ν)) (refresh : Bool) : List (κ × ν) → List (Op κ ν) →
    List (κ × ν) × List (Option ν)
  | a, [] => (a, [])
  | a, o :: os => ((run ins refresh (step ins refresh a o).1 os).1, (step ins refresh a o).2 :: (run ins refresh (step ins refresh a o).1 os).2)

/-- A step of a cache with time-out; `t₁ ≤ t₂` are the readings of the clock during the step, an entry counts while it is
not older than `ttl`. -/
def stepTtl (ttl : Int) (refresh : Bool) (m : κ → Option (Int × ν)) (t₁ t₂ : Int) : Op κ ν → (κ → Option (Int × ν)) × Option ν
  | .lookup k => match m k with
    | some (t, v) => if t < t₁ - ttl then (m, none) else (if refresh then fun j => if j = k then some (t₂, v) else m j else m, some v)
    | none => (m, none)
  | .through k w => match m k with
    | some (t, v) =>
      if t < t₁ - ttl then (fun j => if j = k then some (t₂, w) else m j, some w)
      else (if refresh then fun j => if j = k then some (t₂, v) else m j else m, some v)
    | none => (fun j => if j = k then some (t₂, w) else m j, some w)
  | .write k w => (fun j => if j = k then some (t₂, w) else m j, none)
  | .evict k => (fun j => if j = k then none else m j, none)
  | .clear => (fun _ => none, none)

/-- A history of a cache with time-out; every step comes with its readings of the clock. -/
def runTtl (ttl : Int) (refresh : Bool) : (κ → Option (Int × ν)) → List (Int × Int × Op κ ν) → List (Option ν)
  | _, [] => []
  | m, (t₁, t₂, o) :: os => (stepTtl ttl refresh m t₁ t₂ o).2 :: runTtl ttl refresh (stepTtl ttl refresh m t₁ t₂ o).1 os

/-- The clock does not go back. -/
def Monotone : Int → List (Int × Int × Op κ ν) → Prop
  | _, [] => True
  | t, (t₁, t₂, _) :: os => t ≤ t₁ ∧ t₁ ≤ t₂ ∧ Monotone t₂ os

end Gauche.Spec.Cache
