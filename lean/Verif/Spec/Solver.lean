import Verif.Spec.Sparse
import Verif.Spec.Dense
import Verif.Solver.Iterative
import Mathlib.Analysis.SpecialFunctions.Pow.Real

/-!
# Specification vocabulary for linear systems
-/

namespace Disa.Spec

open Disa

/-- `m` is a matrix that programs can obtain and represents the square matrix `A`. -/
def Square {K : Type} [Zero K] [Add K] [Neg K] [Mul K] [Div K] {n : Nat} (m : Sparse K) (A : Fin n → Fin n → K) : Prop :=
  Built false m ∧ m.sizeRow = n ∧ m.colSize = n ∧ ∀ i j : Fin n, val m i j = .ok (A i j)

/-- `x` solves the system. -/
def Solves {K : Type} [Field K] {n : Nat} (A : Fin n → Fin n → K) (x b : Fin n → K) : Prop := ∀ i, ∑ j, A i j * x j = b i

/-- `n` steps one after the other. -/
def times {σ : Type} (f : σ → Out σ) : Nat → σ → Out σ
  | 0, s => .ok s
  | n + 1, s => f s >>= times f n

/-- The iterations of a method return, and the iterates tend to `sol`. -/
def TendTo {N : Type} {n : Nat} (F : Scalars ℝ N) (k : Method) (s : FixedPoint ℝ) (m : Sparse ℝ) (b x : Fin n → ℝ)
    (w : List ℝ) (sol : Fin n → ℝ) : Prop :=
  ∃ xs : Nat → Fin n → ℝ, (∀ j, ∃ w', times (Iterative.step F k s m (vec b)) j (vec x, w) = .ok (vec (xs j), w')) ∧
    ∀ ε, 0 < ε → ∃ J, ∀ j, J ≤ j → ∀ i, |xs j i - sol i| < ε

/-- The constants of the scalars are the numbers that they should be. -/
def Exact {K N : Type} [Field K] (F : Scalars K N) : Prop := F.one = 1 ∧ F.threeHalves = 3 / 2

/-- The matrix is strictly diagonally dominant by rows. -/
def Dominant {K : Type} [Field K] [LinearOrder K] {n : Nat} (A : Fin n → Fin n → K) : Prop :=
  ∀ i, (∑ j, if j = i then 0 else |A i j|) < |A i i|

/-- The matrix is symmetric and positive definite. -/
def PositiveDefinite {K : Type} [Field K] [LinearOrder K] {n : Nat} (A : Fin n → Fin n → K) : Prop :=
  (∀ i j, A i j = A j i) ∧ ∀ v : Fin n → K, v ≠ 0 → 0 < ∑ i, ∑ j, v i * A i j * v j

/-- The residual of row `i`. -/
def defect {K : Type} [Field K] {n : Nat} (A : Fin n → Fin n → K) (x b : Fin n → K) (i : Fin n) : K :=
  (∑ j, A i j * x j) - b i

/-- The root mean square of the residuals. -/
noncomputable def norm2 {n : Nat} (A : Fin n → Fin n → ℝ) (x b : Fin n → ℝ) : ℝ := √((∑ i, defect A x b i ^ 2) / n)

/-- The largest residual. -/
noncomputable def normMax {n : Nat} (A : Fin n → Fin n → ℝ) (x b : Fin n → ℝ) : ℝ := ⨆ i, |defect A x b i|

/-- Quotients of residuals, which are not negative. -/
inductive Quot where
  | nan
  | inf
  | num (x : ℝ)

/-- Exact real numbers, with the quotients by zero of doubles. -/
noncomputable def reals : Scalars ℝ Quot where
  one := 1
  threeHalves := 3 / 2
  ten := 10
  big := (2 - 1 / 2 ^ 52) * 2 ^ 1023
  sqrt := Real.sqrt
  lt := fun x y => decide (x < y)
  count := fun n => n
  ratio := fun x y => if y = 0 then (if x = 0 then .nan else .inf) else .num (x / y)
  plain := .num
  above := fun q t => match q with
    | .nan => false
    | .inf => true
    | .num x => decide (t < x)

end Disa.Spec
