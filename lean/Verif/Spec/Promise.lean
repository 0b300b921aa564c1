import Verif.Model.Promise
/-
Specification of promises.
-/
namespace Gauche.Promise

variable {T V E : Type}

/-- A heap nobody is working on: no mutex is held, and every promise holds a thunk, values or a condition according to its state. -/
def Quiet (h : Heap T V E) : Prop :=
  ∀ c, (h.content c).lock = none ∧
    ((h.content c).state = .unforced → ∃ t, (h.content c).code = .thunk t) ∧
    ((h.content c).state = .forced → ∃ v, (h.content c).code = .vals v) ∧
    ((h.content c).state = .exception → ∃ e, (h.content c).code = .cond e)

/-- The promise is fulfilled with this result. -/
def Fulfilled (h : Heap T V E) (p : Nat) : Result T V E → Prop
  | .returned x => (h.content (h.ptr p)).state = .forced ∧ (h.content (h.ptr p)).code = x
  | .raised x => (h.content (h.ptr p)).state = .exception ∧ (h.content (h.ptr p)).code = x

/-- What forcing a promise must deliver when the thunk `t` delivers `eval t`: the fulfilled result, what the thunk delivers, or, if
that is a promise, what forcing that promise must deliver. -/
inductive Den (eval : T → Outcome V E) (h : Heap T V E) : Nat → Result T V E → Prop where
  | forced {p : Nat} {x : Code T V E} (hs : (h.content (h.ptr p)).state = .forced) (hc : (h.content (h.ptr p)).code = x) :
      Den eval h p (.returned x)
  | exception {p : Nat} {x : Code T V E} (hs : (h.content (h.ptr p)).state = .exception) (hc : (h.content (h.ptr p)).code = x) :
      Den eval h p (.raised x)
  | vals {p : Nat} {t : T} {v : V} (hs : (h.content (h.ptr p)).state = .unforced) (hc : (h.content (h.ptr p)).code = .thunk t)
      (he : eval t = .vals v) : Den eval h p (.returned (.vals v))
  | raise {p : Nat} {t : T} {e : E} (hs : (h.content (h.ptr p)).state = .unforced) (hc : (h.content (h.ptr p)).code = .thunk t)
      (he : eval t = .raise e) : Den eval h p (.raised (.cond e))
  | chain {p : Nat} {t : T} {r : Nat} {x : Result T V E} (hs : (h.content (h.ptr p)).state = .unforced)
      (hc : (h.content (h.ptr p)).code = .thunk t) (he : eval t = .promise r) (hr : Den eval h r x) : Den eval h p x

/-- `q` is reached from `p` by following thunks that deliver promises. -/
inductive OnChain (eval : T → Outcome V E) (h : Heap T V E) : Nat → Nat → Prop where
  | refl (p : Nat) : OnChain eval h p p
  | next {p r q : Nat} {t : T} (hs : (h.content (h.ptr p)).state = .unforced) (hc : (h.content (h.ptr p)).code = .thunk t)
      (he : eval t = .promise r) (hr : OnChain eval h r q) : OnChain eval h p q

/-- The schedule has no thunk that delivers a promise: there is `delay`, but no `delay-force`. -/
def NoDelayForce (sched : List (Nat × Choice V E)) : Prop := ∀ t r, (t, Choice.finish (Outcome.promise r)) ∉ sched

end Gauche.Promise
