import Verif.Dense.Model
import Mathlib.Data.Matrix.Mul

/-!
# Specification vocabulary for dense vectors and matrices
-/

namespace Disa.Spec

variable {α : Type}

/-- The storage of a vector. -/
def vec {n : Nat} (x : Fin n → α) : List α := List.ofFn x

/-- The storage of a matrix. -/
def mat {r c : Nat} (M : Fin r → Fin c → α) : List (List α) := List.ofFn fun i => List.ofFn (M i)

/-- A vector of `n` elements can be of the template size `s`. -/
def Sized (s n : Nat) : Prop := s = 0 ∨ s = n

/-- A matrix of `r` rows and `c` columns can be of the template sizes `d`: fixed sizes are not zero, and a matrix without
rows has no columns. -/
def SizedMat (d : Dims) (r c : Nat) : Prop :=
  match d with
  | some (r', c') => r' = r ∧ c' = c ∧ r ≠ 0 ∧ c ≠ 0
  | none => r = 0 → c = 0

end Disa.Spec
