import Verif.Dense.Ints

/-!
# The vector operators on integers

The functions of `/repo/include/core/vector_operators.hpp` for an integer `_type`.  Their results of type `Scalar` are floating point
numbers with the rounding `rnd`.  The norms and what uses them compile for types whose promotion is signed only: `std::abs` of line 50
has no overload for the others.  `cross_product` and the projections do not compile: the list of line 146 narrows, and the product of line
168 has operands of two types.
-/

namespace Disa.Dense.Ints

open Num

variable {rnd : ℚ → Fl}

/-- The conversion to `Scalar`. -/
def toScalar (x : Int) : Num rnd := rnd x

/-- The conversion from `Scalar`, which drops the fraction: undefined if the type does not have the value. -/
def fromScalar (t : IntTy) (a : Num rnd) : Out Int :=
  match a with
  | .fin q => if t.min ≤ q.num.tdiv q.den ∧ q.num.tdiv q.den ≤ t.max then .ok (q.num.tdiv q.den) else .ub
  | _ => .ub

/-- `dot_product`, `/repo/include/core/vector_operators.hpp` 90-96.  `std::inner_product` adds `*first1 * *first2` to a `Scalar`, where
the product has the promoted type of the elements.  The model forms all products first. -/
def dot (t : IntTy) (v w : List Int) : Out (Num rnd) := do
  assert (v.length == w.length)
  let p ← mapOut (fun a => t.promote.arith (a.1 * a.2)) (v.zip w)
  pure (p.foldl (fun s z => s + toScalar z) 0)

/-- `operator*(matrix, vector)`, `/repo/include/core/matrix_dense.hpp` 456-465.  The lambda returns a `Scalar`, which is converted to an
element. -/
def matVec (rnd : ℚ → Fl) (t : IntTy) (row s : Nat) (m : List (List Int)) (v : List Int) : Out (List Int) := do
  assert (sizeColumn m == v.length)
  vecOf (promote row s) (fun i => do
    let r ← rd m i
    let d ← dot (rnd := rnd) t r v
    fromScalar t d) (sizeColumn m)

/-- `mean`, `/repo/include/core/vector_operators.hpp` 76-80. -/
def mean (s : Nat) (v : List Int) : Out (Num rnd) := Rounded.mean s (v.map toScalar)

/-- `lp_norm<0>`, `/repo/include/core/vector_operators.hpp` 49-51: the comparison converts to `Scalar`, the absolute value is taken in the
promoted type. -/
def normMax (t : IntTy) (v : List Int) : Out (Num rnd) := do
  let m ← maxElement (fun a b => Fl.lt (Rounded.size (toScalar (rnd := rnd) a)) (Rounded.size (toScalar (rnd := rnd) b))) v
  let z ← t.promote.arith |m|
  pure (toScalar z)

/-- `lp_norm<1>`, `/repo/include/core/vector_operators.hpp` 52-53. -/
def norm1 (v : List Int) : Num rnd := Rounded.norm1 (v.map toScalar)

/-- `lp_norm<2>`, `/repo/include/core/vector_operators.hpp` 54-56. -/
def norm2 (sqrt : Num rnd → Num rnd) (v : List Int) : Num rnd := Rounded.norm2 sqrt (v.map toScalar)

/-- `unit`, `/repo/include/core/vector_operators.hpp` 104-109, for types of at least 32 bits: `operator*=` takes an element, to which the
`Scalar` is converted. -/
def unit (t : IntTy) (sqrt : Num rnd → Num rnd) (v : List Int) : Out (List Int) := do
  let inverse := fin 1 / norm2 sqrt v
  let c ← fromScalar t (if Rounded.isInf inverse then fin 0 else inverse)
  Elem.run (mulScalar (v.map fun x => (Elem.of x : Elem t)) (.val (.of c)))

/-- `angle`, `/repo/include/core/vector_operators.hpp` 120-128: the result is converted to an element. -/
def angle (t : IntTy) (sqrt acos : Num rnd → Num rnd) (radians : Bool) (v w : List Int) : Out Int := do
  assert (v.length == w.length)
  assert (v.length == 2 || v.length == 3)
  let a ← unit t sqrt v
  let b ← unit t sqrt w
  let d ← dot t a b
  fromScalar t (acos (Rounded.clamp d (fin (-1)) (fin 1)) / (if radians then fin 1 else fin Rounded.pi64 / fin 180))

end Disa.Dense.Ints
