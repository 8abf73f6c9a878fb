import Verif.Basic
import Mathlib.Algebra.Order.Field.Basic
import Mathlib.Algebra.Order.Ring.Rat
import Mathlib.Algebra.Order.AbsoluteValue.Basic

/-!
# Model of the tolerant comparisons

`/repo/include/core/scalar.hpp`.  The functions are written over an arithmetic `Arith`, so that they can be used with exact
numbers and with floating point numbers.
-/

namespace Disa

/-- The operations on scalars that the comparisons use. -/
structure Arith (S : Type) where
  lt : S → S → Bool
  le : S → S → Bool
  eq : S → S → Bool
  add : S → S → S
  sub : S → S → S
  mul : S → S → S
  abs : S → S
  eps : S
  one : S
  max : S
  /-- `default_relative`, `/repo/include/core/scalar.hpp` 49-51. -/
  rel : S
  /-- `default_absolute`, `/repo/include/core/scalar.hpp` 46-48. -/
  tol : S

namespace Arith
variable {S : Type} (A : Arith S)

/-- `std::max(a, b)`. -/
def stdMax (a b : S) : S := if A.lt a b then b else a

/-- `std::min(a, b)`. -/
def stdMin (a b : S) : S := if A.lt b a then b else a

/-- `is_nearly_equal`, `/repo/include/core/scalar.hpp` 80-92. -/
def nearlyEqual (a b rel tol : S) : Out Bool := do
  assert (A.le A.eps rel)
  assert (A.le rel A.one)
  if A.eq a b then pure true
  else pure (A.lt (A.abs (A.sub a b)) (A.stdMax tol (A.mul rel (A.stdMin (A.add (A.abs a) (A.abs b)) A.max))))

/-- `is_nearly_greater_equal`, `/repo/include/core/scalar.hpp` 102-106. -/
def nearlyGreaterEqual (a b rel tol : S) : Out Bool :=
  if A.lt b a then pure true else A.nearlyEqual a b rel tol

/-- `is_nearly_less_equal`, `/repo/include/core/scalar.hpp` 116-120. -/
def nearlyLessEqual (a b rel tol : S) : Out Bool :=
  if A.lt a b then pure true else A.nearlyEqual a b rel tol

/-- `is_nearly_greater`, `/repo/include/core/scalar.hpp` 137-141. -/
def nearlyGreater (a b rel tol : S) : Out Bool := do
  let x ← A.nearlyLessEqual a b rel tol
  pure !x

/-- `is_nearly_less`, `/repo/include/core/scalar.hpp` 158-162. -/
def nearlyLess (a b rel tol : S) : Out Bool := do
  let x ← A.nearlyGreaterEqual a b rel tol
  pure !x

/-- Exact numbers, with the constants as parameters. -/
def exact (K : Type) [Field K] [LinearOrder K] (eps max : K) : Arith K where
  lt a b := decide (a < b)
  le a b := decide (a ≤ b)
  eq a b := decide (a = b)
  add a b := a + b
  sub a b := a - b
  mul a b := a * b
  abs a := |a|
  eps := eps
  one := 1
  max := max
  rel := 65536 * eps
  tol := 64 * eps

end Arith

/-- Floating point numbers.  Zero has no sign, as the comparisons do not tell zeros apart; the finite numbers are not limited
to those that can be represented. -/
inductive Fl where
  | nan
  | inf (neg : Bool)
  | fin (q : ℚ)
  deriving DecidableEq

namespace Fl

/-- Unary minus. -/
def neg : Fl → Fl
  | nan => nan
  | inf s => inf !s
  | fin q => fin (-q)

/-- `std::abs`. -/
def abs : Fl → Fl
  | nan => nan
  | inf _ => inf false
  | fin q => fin |q|

/-- `<`. -/
def lt : Fl → Fl → Bool
  | nan, _ => false
  | _, nan => false
  | inf s, inf t => s && !t
  | inf s, fin _ => s
  | fin _, inf t => !t
  | fin p, fin q => decide (p < q)

/-- `==`. -/
def eq : Fl → Fl → Bool
  | inf s, inf t => s == t
  | fin p, fin q => decide (p = q)
  | _, _ => false

/-- `<=`. -/
def le (a b : Fl) : Bool := lt a b || eq a b

/-- Addition with the rounding `rnd`. -/
def add (rnd : ℚ → Fl) : Fl → Fl → Fl
  | nan, _ => nan
  | _, nan => nan
  | inf s, inf t => if s = t then inf s else nan
  | inf s, fin _ => inf s
  | fin _, inf t => inf t
  | fin p, fin q => rnd (p + q)

/-- Subtraction. -/
def sub (rnd : ℚ → Fl) (a b : Fl) : Fl := add rnd a (neg b)

/-- Multiplication. -/
def mul (rnd : ℚ → Fl) : Fl → Fl → Fl
  | nan, _ => nan
  | _, nan => nan
  | inf s, inf t => inf (s != t)
  | inf s, fin q => if q = 0 then nan else inf (s != decide (q < 0))
  | fin p, inf t => if p = 0 then nan else inf (decide (p < 0) != t)
  | fin p, fin q => rnd (p * q)

/-- Division; a divisor zero counts as positive, which is `0.0` and not `-0.0`. -/
def div (rnd : ℚ → Fl) : Fl → Fl → Fl
  | nan, _ => nan
  | _, nan => nan
  | inf _, inf _ => nan
  | inf s, fin q => inf (s != decide (q < 0))
  | fin _, inf _ => fin 0
  | fin p, fin q => if q = 0 then (if p = 0 then nan else inf (decide (p < 0))) else rnd (p / q)

/-- The arithmetic of doubles with the rounding `rnd`. -/
def arith (rnd : ℚ → Fl) : Arith Fl where
  lt := lt
  le := le
  eq := eq
  add := add rnd
  sub := sub rnd
  mul := mul rnd
  abs := abs
  eps := fin (1 / 2 ^ 52)
  one := fin 1
  max := fin ((2 - 1 / 2 ^ 52) * 2 ^ 1023)
  rel := fin (65536 * (1 / 2 ^ 52))
  tol := fin (64 * (1 / 2 ^ 52))

end Fl
end Disa
