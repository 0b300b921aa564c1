import Verif.Spec.Utf8
import Verif.Model.OutPort
/-
What an output port is for: the bytes given to it, in order.
-/
namespace Gauche.Spec.OutPort

open Gauche.OutPort (Op Outcome)

/-- The bytes a request asks to write. -/
def bytesOf : Op → List Nat
  | .byte b => [b]
  | .char c => Utf8.encode c
  | .bytes s => s
  | .flush => []
  | .close => []
  | .flushAll => []

/-- The bytes of the requests that were accepted. -/
def accepted : List Op → List Outcome → List Nat
  | op :: ops, o :: os => (if o = .ok then bytesOf op else []) ++ accepted ops os
  | _, _ => []

/-- A request that asks for codes that exist. -/
def Proper : Op → Prop
  | .char c => Utf8.IsCode c
  | _ => True

end Gauche.Spec.OutPort
