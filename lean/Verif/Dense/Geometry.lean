import Verif.Dense.Model
import Mathlib.Analysis.SpecialFunctions.Trigonometric.Inverse
import Mathlib.Analysis.SpecialFunctions.Pow.Real

/-!
# Model of the vector operators, over the real numbers

`Scalar` is a real number here: there is no rounding, no infinity and no NaN.
-/

namespace Disa.Dense

/-- `*std::max_element(first, last, less)`: the first largest element; the end cannot be read. -/
def maxElement {α : Type} (less : α → α → Bool) : List α → Out α
  | [] => .ub
  | a :: l => .ok (l.foldl (fun m x => if less m x then x else m) a)

/-- `lp_norm<p>`, `/repo/include/core/vector_operators.hpp` 46-68. -/
noncomputable def lpNorm (p : Nat) (v : List ℝ) : Out ℝ :=
  match p with
  | 0 => do
    let m ← maxElement (fun a b => |a| < |b|) v
    pure |m|
  | 1 => .ok (v.foldl (fun a b => a + |b|) 0)
  | 2 => .ok √(v.foldl (fun a b => a + b * b) 0)
  | 3 => .ok ((v.foldl (fun a b => a + |b| * |b| * |b|) 0) ^ (1 / 3 : ℝ))
  | p => .ok ((v.foldl (fun a b => a + (if p % 2 = 0 then b else |b|) ^ p) 0) ^ (1 / (p : ℝ)))

/-- `mean`, `/repo/include/core/vector_operators.hpp` 76-80. -/
noncomputable def mean (s : Nat) (v : List ℝ) : Out ℝ := do
  assert (s != 0 || !v.isEmpty)
  pure (v.foldl (· + ·) 0 / v.length)

/-- `unit`, `/repo/include/core/vector_operators.hpp` 104-109.  The inverse of the norm is infinite if the norm is zero. -/
noncomputable def unit (v : List ℝ) : Out (List ℝ) := do
  let n ← lpNorm 2 v
  mulScalar v (.val (if n = 0 then 0 else 1 / n))

/-- `std::clamp`. -/
noncomputable def clamp (x lo hi : ℝ) : ℝ := if x < lo then lo else if hi < x then hi else x

/-- `angle`, `/repo/include/core/vector_operators.hpp` 120-128. -/
noncomputable def angle (radians : Bool) (v w : List ℝ) : Out ℝ := do
  assert (v.length == w.length)
  assert (v.length == 2 || v.length == 3)
  let a ← unit v
  let b ← unit w
  let d ← dot a b
  pure (Real.arccos (clamp d (-1) 1) / (if radians then 1 else Real.pi / 180))

/-- `projection_tangent`, `/repo/include/core/vector_operators.hpp` 161-170.  The first assertion tests the norm for not
being zero. -/
noncomputable def projectionTangent (s t : Nat) (v w : List ℝ) : Out (List ℝ) := do
  let n ← lpNorm 2 w
  assert (n ≠ 0)
  assert (v.length == w.length)
  let d ← dot v w
  let r ← vecOf (promote s t) (fun i => rd w i) w.length
  smul d r

/-- `projection_orthogonal`, `/repo/include/core/vector_operators.hpp` 180-188. -/
noncomputable def projectionOrthogonal (s t : Nat) (v w : List ℝ) : Out (List ℝ) := do
  assert (v.length == w.length)
  let x ← vecOf (promote s t) (fun i => rd v i) w.length
  let y ← projectionTangent s t v w
  sub (promote s t) (promote s t) x y

end Disa.Dense
