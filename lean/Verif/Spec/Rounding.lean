import Mathlib.Algebra.Order.Ring.Rat
import Mathlib.Algebra.Field.Rat
import Mathlib.Algebra.Order.Group.Unbundled.Abs

/-!
# Specification vocabulary for rounding errors
-/

namespace Disa.Spec

/-- The unit lower triangular factor that is stored below the diagonal. -/
def lowerPart {n : Nat} (M : Fin n → Fin n → ℚ) (r k : Fin n) : ℚ := if k < r then M r k else if k = r then 1 else 0

/-- The upper triangular factor that is stored from the diagonal on. -/
def upperPart {n : Nat} (M : Fin n → Fin n → ℚ) (k c : Fin n) : ℚ := if k ≤ c then M k c else 0

/-- Relative error of `n` operations with relative error `u`. -/
def relError (u : ℚ) (n : Nat) : ℚ := (1 / (1 - u)) ^ n - 1

/-- Absolute error of `n` operations with absolute error `η`. -/
def absError (u η : ℚ) (n : Nat) : ℚ := n * (1 / (1 - u)) ^ n * ((1 + 1 / (1 - u)) * η)

/-- Bound of the error of a sum of `n` products with absolute values that add up to `s`. -/
def productError (u η : ℚ) (n : Nat) (s : ℚ) : ℚ := ((1 + u) ^ (n + 1) - 1) * s + n * (2 + u) * (1 + u) ^ n * η

/-- Bound of the error of the new value of an unknown in a sweep: `a` is the diagonal entry, `s` the sum of the absolute values
of the right hand side and of the products with the other entries, and `x` the old value. -/
def sweepError (u η : ℚ) (n : Nat) (omega a s x : ℚ) : ℚ :=
  ((1 + u) ^ (n + 5) - 1) * (|omega| * s / |a| + |1 - omega| * |x|) +
    (1 + u) ^ (n + 4) * η * ((|omega| * (n * (2 + u) + 1) + 1) / |a| + |x| + 3)

/-- No intermediate result of the new value without relaxation is larger than this. -/
def sweepRange (u η : ℚ) (n : Nat) (a s x : ℚ) : ℚ :=
  (1 + u) ^ (n + 5) * ((s + (n * (2 + u) + 3) * η) * (1 + 1 / |a|) + (|x| + 3) * η)

/-- Factor by which an iteration without relaxation reduces the error if the rows have the ratio `q`. -/
def sweepRatio (u η : ℚ) (n : Nat) (q : ℚ) : ℚ := q * (1 + u) ^ (n + 5) + (1 + u) ^ (n + 4) * η

/-- The error that an iteration adds: `1 / c` is the smallest diagonal entry and `X` the largest element of the solution. -/
def sweepOffset (u η : ℚ) (n : Nat) (q c X : ℚ) : ℚ :=
  ((1 + u) ^ (n + 5) - 1) * ((1 + 2 * q) * X) + (1 + u) ^ (n + 4) * η * ((n * (2 + u) + 2) * c + X + 3)

/-- Bound of the error of the mean of the squares of `n` residuals whose exact mean is `q`; `σ` and `τ` are the errors of the
square root. -/
def meanError (u η σ τ : ℚ) (n : Nat) (q : ℚ) : ℚ :=
  ((1 + σ) * (1 + u) ^ (n + 2) - 1) * q + (1 + σ) * ((2 + u) * (1 + u) ^ (n + 1) + 1) * η + τ

end Disa.Spec
