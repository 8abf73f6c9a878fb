import Verif.Dense.Model
import Verif.Scalar.Model

/-!
# Model of the direct solver

`/repo/include/solver/direct_lower_upper_factorisation.hpp`, over any numbers: their operations are instances, what the
comparisons use is in an `Arith`, so that the functions can be used with exact and with floating point numbers.  The systems are sized at run time:
`solve_system` resizes the solution, so it cannot be used with a fixed size.
-/

namespace Disa

/-- The members of `Direct_Lower_Upper_Factorisation`, `/repo/include/solver/direct_lower_upper_factorisation.hpp`
104-109. -/
structure Lu (K : Type) where
  factorised : Bool
  tol : K
  lu : List (List K)
  piv : List Nat
  deriving DecidableEq

namespace Lu

open Dense

section

variable (K : Type) [Field K]

/-- Exact numbers with the constants of doubles, `/repo/include/core/scalar.hpp` 40-44. -/
def scalars [LinearOrder K] : Arith K := Arith.exact K (1 / 2 ^ 52) ((2 - 1 / 2 ^ 52) * 2 ^ 1023)

/-- `default_relative`, `/repo/include/core/scalar.hpp` 49-51. -/
def defaultRelative : K := 65536 * (1 / 2 ^ 52)

/-- `default_absolute`, `/repo/include/core/scalar.hpp` 46-48. -/
def defaultAbsolute : K := 64 * (1 / 2 ^ 52)

end

variable {K : Type} [Zero K] [Sub K] [Mul K] [Div K] (F : Arith K)

/-- `std::swap` of two elements of a vector. -/
def swapAt {β : Type} (l : List β) (i j : Nat) : Out (List β) := do
  let a ← rd l i
  let b ← rd l j
  let l ← wr l i b
  wr l j a

/-- Body of the search for the pivot, `/repo/include/solver/direct_lower_upper_factorisation.hpp` 163-169, in row `i + k`.  The
state is `max` and `i_max`. -/
def searchBody (lu : List (List K)) (i k : Nat) (st : K × Nat) : Out (K × Nat) := do
  let a ← rd2 lu (i + k) i
  let g ← F.nearlyGreater (F.abs a) st.1 F.rel F.tol
  pure (if g then (F.abs a, i + k) else st)

/-- Pivoting, `/repo/include/solver/direct_lower_upper_factorisation.hpp` 158-176. -/
def pivotStep (i : Nat) (st : List (List K) × List Nat) : Out (List (List K) × List Nat) := do
  let (_, m) ← loop (sizeColumn st.1 - i) (searchBody F st.1 i) (0, i)
  if m != i then
    let piv ← swapAt st.2 i m
    let lu ← swapAt st.1 i m
    pure (lu, piv)
  else pure st

/-- Body of the decomposition, `/repo/include/solver/direct_lower_upper_factorisation.hpp` 182-188, for row `i + 1 + k`. -/
def eliminateRow (i k : Nat) (lu : List (List K)) : Out (List (List K)) := do
  let a ← rd2 lu (i + 1 + k) i
  let d ← rd2 lu i i
  let lu ← wr2 lu (i + 1 + k) i (a / d)
  loop (sizeColumn lu - (i + 1)) (fun c lu => do
    let x ← rd2 lu (i + 1 + k) (i + 1 + c)
    let l ← rd2 lu (i + 1 + k) i
    let u ← rd2 lu i (i + 1 + c)
    wr2 lu (i + 1 + k) (i + 1 + c) (x - l * u)) lu

/-- Body of the loop of `factorise`, `/repo/include/solver/direct_lower_upper_factorisation.hpp` 155-189.  The flag is false
after `return false`. -/
def factoriseBody (pivot : Bool) (tol : K) (i : Nat) (st : List (List K) × List Nat × Bool) :
    Out (List (List K) × List Nat × Bool) := do
  if st.2.2 then
    let (lu, piv) ← (if pivot then pivotStep F i (st.1, st.2.1) else pure (st.1, st.2.1))
    let d ← rd2 lu i i
    if F.lt (F.abs d) tol then pure (lu, piv, false)
    else
      let lu ← loop (lu.length - (i + 1)) (eliminateRow i) lu
      pure (lu, piv, true)
  else pure st

/-- `factorise`, `/repo/include/solver/direct_lower_upper_factorisation.hpp` 143-193. -/
def factorise (pivot : Bool) (s : Lu K) (a : List (List K)) : Out (Lu K × Bool) := do
  let (lu, piv, ok) ← loop a.length (factoriseBody F pivot s.tol)
    (a, if pivot then List.range (sizeColumn a) else s.piv, true)
  pure ({ s with factorised := ok, lu := lu, piv := piv }, ok)

/-- Body of the forward sweep, `/repo/include/solver/direct_lower_upper_factorisation.hpp` 214-219.  The constant vector is
`none` if it is the same object as the solution. -/
def forwardBody (pivot : Bool) (s : Lu K) (b : Option (List K)) (i : Nat) (x : List K) : Out (List K) := do
  let p ← (if pivot then rd s.piv i else pure i)
  let v ← rd (b.getD x) p
  let x ← wr x i v
  loop i (fun c x => do
    let y ← rd x i
    let l ← rd2 s.lu i c
    let z ← rd x c
    wr x i (y - l * z)) x

/-- Body of the backward sweep, `/repo/include/solver/direct_lower_upper_factorisation.hpp` 221-225, for row `i`. -/
def backwardBody (s : Lu K) (i : Nat) (x : List K) : Out (List K) := do
  let x ← loop (sizeColumn s.lu - (i + 1)) (fun c x => do
    let y ← rd x i
    let u ← rd2 s.lu i (i + 1 + c)
    let z ← rd x (i + 1 + c)
    wr x i (y - u * z)) x
  let y ← rd x i
  let d ← rd2 s.lu i i
  wr x i (y / d)

/-- `solve_system`, `/repo/include/solver/direct_lower_upper_factorisation.hpp` 204-229.  The result is the solution vector and
the members `converged` and `iteration` of the convergence data; the residuals keep their initial values. -/
def solve (pivot : Bool) (s : Lu K) (x : List K) (b : Option (List K)) : Out (List K × Bool × Nat) := do
  assert ((b.getD x).length == s.lu.length)
  if !s.factorised then pure (x, false, 0)
  else
    let x := resizeList x (b.getD x).length 0
    let x ← loop s.lu.length (forwardBody pivot s b) x
    let x ← loop s.lu.length (fun k x => backwardBody s (s.lu.length - 1 - k) x) x
    pure (x, true, 1)

end Lu
end Disa
