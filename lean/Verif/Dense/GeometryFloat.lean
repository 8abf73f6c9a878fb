import Verif.Dense.Geometry
import Verif.Scalar.Root

/-!
# Model of the vector operators, with floating point numbers

The operators of `Verif.Dense.Geometry` again, where each operation is rounded.  The square root `sqrt` and the arc cosine `acos` of
the standard library are parameters.  The norms of order three and more are in `Verif.Dense.NormPower`.
-/

namespace Disa.Dense.Rounded

open Num

variable {rnd : ℚ → Fl}

/-- `std::abs`. -/
def size (a : Num rnd) : Num rnd := Fl.abs a

/-- The conversion of an integer. -/
def ofNat (n : Nat) : Num rnd := rnd n

/-- `lp_norm<0>`, `/repo/include/core/vector_operators.hpp` 49-51. -/
def normMax (v : List (Num rnd)) : Out (Num rnd) := do
  let m ← maxElement (fun a b => Fl.lt (size a) (size b)) v
  pure (size m)

/-- `lp_norm<1>`, `/repo/include/core/vector_operators.hpp` 52-53. -/
def norm1 (v : List (Num rnd)) : Num rnd := v.foldl (fun a b => a + size b) 0

/-- `lp_norm<2>`, `/repo/include/core/vector_operators.hpp` 54-56. -/
def norm2 (sqrt : Num rnd → Num rnd) (v : List (Num rnd)) : Num rnd := sqrt (v.foldl (fun a b => a + b * b) 0)

/-- `mean`, `/repo/include/core/vector_operators.hpp` 76-80.  The size is converted to a scalar, which rounds it. -/
def mean (s : Nat) (v : List (Num rnd)) : Out (Num rnd) := do
  assert (s != 0 || !v.isEmpty)
  pure (v.foldl (· + ·) 0 / ofNat v.length)

/-- `std::isinf`. -/
def isInf : Num rnd → Bool
  | .inf _ => true
  | _ => false

/-- `unit`, `/repo/include/core/vector_operators.hpp` 104-109. -/
def unit (sqrt : Num rnd → Num rnd) (v : List (Num rnd)) : Out (List (Num rnd)) :=
  let inverse := fin 1 / norm2 sqrt v
  mulScalar v (.val (if isInf inverse then 0 else inverse))

/-- `std::clamp`. -/
def clamp (x lo hi : Num rnd) : Num rnd := if Fl.lt x lo then lo else if Fl.lt hi x then hi else x

/-- `std::numbers::pi`. -/
def pi64 : ℚ := 884279719003555 / 2 ^ 48

/-- `angle`, `/repo/include/core/vector_operators.hpp` 120-128. -/
def angle (sqrt acos : Num rnd → Num rnd) (radians : Bool) (v w : List (Num rnd)) : Out (Num rnd) := do
  assert (v.length == w.length)
  assert (v.length == 2 || v.length == 3)
  let a ← unit sqrt v
  let b ← unit sqrt w
  let d ← dot a b
  pure (acos (clamp d (fin (-1)) (fin 1)) / (if radians then fin 1 else fin pi64 / fin 180))

/-- `projection_tangent`, `/repo/include/core/vector_operators.hpp` 161-170.  A norm that is NaN counts as true. -/
def projectionTangent (sqrt : Num rnd → Num rnd) (s t : Nat) (v w : List (Num rnd)) : Out (List (Num rnd)) := do
  assert (!Fl.eq (norm2 sqrt w) (.fin 0))
  assert (v.length == w.length)
  let d ← dot v w
  let r ← vecOf (promote s t) (fun i => rd w i) w.length
  smul d r

/-- `projection_orthogonal`, `/repo/include/core/vector_operators.hpp` 180-188. -/
def projectionOrthogonal (sqrt : Num rnd → Num rnd) (s t : Nat) (v w : List (Num rnd)) : Out (List (Num rnd)) := do
  assert (v.length == w.length)
  let x ← vecOf (promote s t) (fun i => rd v i) w.length
  let y ← projectionTangent sqrt s t v w
  sub (promote s t) (promote s t) x y

/-- A vector of length five. -/
example : norm2 root64 [fin 3, fin 4] = fin 5 ∧ unit root64 [fin 3, fin 4] =
    .ok [fin (1351079888211149 / 2 ^ 51), fin (3602879701896397 / 2 ^ 52)] := by
  constructor <;> decide +kernel

end Disa.Dense.Rounded
