import Verif.Dense.GeometryFloat
import Verif.Dense.Hom
import Verif.Scalar.Zero

/-!
# Model of the vector operators, with signed zeros

The operators of `Verif.Dense.GeometryFloat` again, with doubles whose zeros have signs.  The arc cosine of a zero does not depend on its
sign.
-/

namespace Disa.Signed

open Dense

/-- `lp_norm<0>`, `/repo/include/core/vector_operators.hpp` 49-51. -/
def normMax (v : List Signed) : Out Signed := do
  let m ← maxElement (fun a b => Fl.lt (abs a).val (abs b).val) v
  pure (abs m)

/-- `lp_norm<1>`, `/repo/include/core/vector_operators.hpp` 52-53. -/
def norm1 (v : List Signed) : Signed := v.foldl (fun a b => a + abs b) 0

/-- `lp_norm<2>`, `/repo/include/core/vector_operators.hpp` 54-56. -/
def norm2 (sqrt : Num binary64 → Num binary64) (v : List Signed) : Signed := root sqrt (v.foldl (fun a b => a + b * b) 0)

/-- `mean`, `/repo/include/core/vector_operators.hpp` 76-80. -/
def mean (s : Nat) (v : List Signed) : Out Signed := do
  assert (s != 0 || !v.isEmpty)
  pure (v.foldl (· + ·) 0 / of (binary64 v.length))

/-- `unit`, `/repo/include/core/vector_operators.hpp` 104-109. -/
def unit (sqrt : Num binary64 → Num binary64) (v : List Signed) : Out (List Signed) :=
  let inverse := of (Num.fin 1) / norm2 sqrt v
  mulScalar v (.val (if Rounded.isInf inverse.val then 0 else inverse))

/-- `std::clamp`. -/
def clamp (x lo hi : Signed) : Signed := if Fl.lt x.val lo.val then lo else if Fl.lt hi.val x.val then hi else x

/-- `angle`, `/repo/include/core/vector_operators.hpp` 120-128. -/
def angle (sqrt acos : Num binary64 → Num binary64) (radians : Bool) (v w : List Signed) : Out Signed := do
  assert (v.length == w.length)
  assert (v.length == 2 || v.length == 3)
  let a ← unit sqrt v
  let b ← unit sqrt w
  let d ← dot a b
  pure (of (acos (clamp d (of (Num.fin (-1))) (of (Num.fin 1))).val) /
    (if radians then of (Num.fin 1) else of (Num.fin Rounded.pi64) / of (Num.fin 180)))

/-- `projection_tangent`, `/repo/include/core/vector_operators.hpp` 161-170. -/
def projectionTangent (sqrt : Num binary64 → Num binary64) (s t : Nat) (v w : List Signed) : Out (List Signed) := do
  assert (!Fl.eq (norm2 sqrt w).val (.fin 0))
  assert (v.length == w.length)
  let d ← dot v w
  let r ← vecOf (promote s t) (fun i => rd w i) w.length
  smul d r

/-- `projection_orthogonal`, `/repo/include/core/vector_operators.hpp` 180-188. -/
def projectionOrthogonal (sqrt : Num binary64 → Num binary64) (s t : Nat) (v w : List Signed) : Out (List Signed) := do
  assert (v.length == w.length)
  let x ← vecOf (promote s t) (fun i => rd v i) w.length
  let y ← projectionTangent sqrt s t v w
  Dense.sub (promote s t) (promote s t) x y

/-- A negative zero stays one. -/
example : unit root64 [minusZero, of (Num.fin 4)] = .ok [minusZero, of (Num.fin 1)] := by decide +kernel

end Disa.Signed
