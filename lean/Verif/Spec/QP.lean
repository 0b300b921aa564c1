/-! Specification for quoted-printable. -/
namespace Gauche.QP

/-- The text with every line break (CR LF, CR or LF) written as CR LF. -/
def norm : List Nat → List Nat
  | [] => []
  | c :: l =>
    if c = 13 then
      match l with
      | [] => [13, 10]
      | c1 :: l' => if c1 = 10 then 13 :: 10 :: norm l' else 13 :: 10 :: norm (c1 :: l')
    else if c = 10 then 13 :: 10 :: norm l
    else c :: norm l

end Gauche.QP
