import Verif.Sparse.Model
import Verif.Solver.Lu

/-!
# Model of the iterative solvers and of the solver class

`/repo/src/solver/solver_fixed_point.cpp`, `/repo/include/solver/solver_utilities.hpp`, `/repo/include/solver/solver.hpp` and
`/repo/src/solver/solver.cpp`.

The model is generic in the scalars, so that what is proved about the loops holds for floating point numbers too.  The constant
vector is not the same object as the solution vector here; `Solver/Same.lean` has that case.  Times are not modelled.
-/

namespace Disa

/-- What the solvers use of scalars besides `+`, `-`, `*` and `/`.  Normalised residuals have a type of their own since they
may be quotients by zero. -/
structure Scalars (S N : Type) where
  /-- `1.0` -/
  one : S
  /-- `1.5` -/
  threeHalves : S
  /-- `10.0` -/
  ten : S
  /-- `scalar_max` -/
  big : S
  /-- `std::sqrt` -/
  sqrt : S → S
  /-- `<`, as used by `std::max` -/
  lt : S → S → Bool
  /-- `static_cast<Scalar>` of an index -/
  count : Nat → S
  /-- Quotient of two residuals. -/
  ratio : S → S → N
  /-- A residual that has not been divided. -/
  plain : S → N
  /-- `>` between a normalised residual and a tolerance. -/
  above : N → S → Bool

/-- `Solver_Type`, `/repo/include/solver/solver_utilities.hpp` 42-48. -/
inductive SolverType where
  | lowerUpperFactorisation
  | jacobi
  | gaussSeidel
  | successiveOverRelaxation
  | unknown
  deriving DecidableEq

/-- `Solver_Config`, `/repo/include/solver/solver_utilities.hpp` 54-77. -/
structure SolverConfig (S : Type) where
  type : SolverType
  pivot : Bool
  factorTolerance : S
  minimumIterations : Nat
  maximumIterations : Nat
  convergenceTolerance : S
  sorRelaxation : S
  deriving DecidableEq

/-- `Convergence_Data`, `/repo/include/solver/solver_utilities.hpp` 97-129, without the times. -/
structure Conv (S N : Type) where
  converged : Bool
  iteration : Nat
  residual : S
  residual0 : S
  residualNormalised : N
  residualMax : S
  residualMax0 : S
  residualMaxNormalised : N

/-- `Convergence_Criteria`, `/repo/include/solver/solver_utilities.hpp` 152-170. -/
structure Limits (S : Type) where
  minIterations : Nat
  maxIteration : Nat
  tolerance : S

namespace Iterative

variable {S N : Type}

/-- New convergence data. -/
def Conv.new (F : Scalars S N) : Conv S N :=
  ⟨false, 0, F.big, F.big, F.plain F.big, F.big, F.big, F.plain F.big⟩

/-- `Convergence_Criteria::is_converged`, `/repo/include/solver/solver_utilities.hpp` 163-169. -/
def isConverged [Mul S] (F : Scalars S N) (l : Limits S) (d : Conv S N) : Bool :=
  if d.iteration < l.minIterations then false
  else if d.iteration > l.maxIteration then true
  else if F.above d.residualNormalised l.tolerance then false
  else if F.above d.residualMaxNormalised (F.ten * l.tolerance) then false
  else true

/-- Largest value of the `int` that counts the rows in `compute_residual`. -/
def intMax : Nat := 2 ^ 31 - 1

/-- Body of the loop of `compute_residual`, `/repo/include/solver/solver_utilities.hpp` 245-254.  The state is `l2_norm` and
`linf_norm`.  The row index is an `int`; incrementing its largest value is undefined.  `std::pow` with the exponent 2 is the product. -/
def residualBody [Zero S] [Add S] [Sub S] [Mul S] (F : Scalars S N) (m : Sparse S) (x b : List S) (i : Nat) (st : S × S) :
    Out (S × S) := do
  assert (i < m.sizeRow)
  let v ← m.rowDot x i
  let c ← rd b i
  let r := (v - c) * (v - c)
  if i = intMax then .ub
  else pure (st.1 + r, if F.lt st.2 r then r else st.2)

/-- `compute_residual`, `/repo/include/solver/solver_utilities.hpp` 234-258. -/
def computeResidual [Zero S] [Add S] [Sub S] [Mul S] [Div S] (F : Scalars S N) (m : Sparse S) (x b : List S) : Out (S × S) := do
  assert (x.length != 0 && b.length != 0)
  assert (m.sizeRow == x.length)
  assert (m.colSize == b.length)
  let (l2, linf) ← loop m.sizeRow (residualBody F m x b) (0, 0)
  pure (F.sqrt (l2 / F.count x.length), F.sqrt linf)

/-- `Convergence_Data::update`, `/repo/include/solver/solver_utilities.hpp` 196-209. -/
def update [Zero S] [Add S] [Sub S] [Mul S] [Div S] (F : Scalars S N) (m : Sparse S) (x b : List S) (d : Conv S N) :
    Out (Conv S N) := do
  let (res, resMax) ← computeResidual F m x b
  let res0 := if d.iteration = 0 then res else d.residual0
  let resMax0 := if d.iteration = 0 then resMax else d.residualMax0
  pure ⟨d.converged, wrap (d.iteration + 1), res, res0, F.ratio res res0, resMax, resMax0, F.ratio resMax resMax0⟩

/-- The products with the entries of row `i` off the diagonal, `/repo/src/solver/solver_fixed_point.cpp` 34-36. -/
def offRowDot [Zero S] [Add S] [Mul S] (m : Sparse S) (x : List S) (i : Nat) : Out S := do
  let s ← m.rowBegin i
  let e ← m.rowEnd i
  loop (e.2 - s.2) (fun k value => do
    let c ← m.colAt (i, s.2 + k)
    if c != i then
      let a ← m.valAt (i, s.2 + k)
      let y ← rd x c
      pure (value + a * y)
    else pure value) 0

/-- Body of the sweeps, `/repo/src/solver/solver_fixed_point.cpp` 34-38.  `x` is the vector read, `none` if it is the same
object as the vector written. -/
def sweepRow [Zero S] [Add S] [Sub S] [Mul S] [Div S] (F : Scalars S N) (m : Sparse S) (b : List S) (omega : S)
    (x : Option (List S)) (i : Nat) (u : List S) : Out (List S) := do
  assert (i < m.sizeRow)
  let d ← offRowDot m (x.getD u) i
  let c ← rd b i
  let a ← m.get i i
  let y ← rd (x.getD u) i
  wr u i (omega * (c - d) / a + (F.one - omega) * y)

/-- `forward_sweep`, `/repo/src/solver/solver_fixed_point.cpp` 29-40. -/
def forwardSweep [Zero S] [Add S] [Sub S] [Mul S] [Div S] (F : Scalars S N) (m : Sparse S) (b : List S) (omega : S)
    (x : Option (List S)) (u : List S) : Out (List S) := loop m.sizeRow (sweepRow F m b omega x) u

/-- `backward_sweep`, `/repo/src/solver/solver_fixed_point.cpp` 42-53; no solver uses it. -/
def backwardSweep [Zero S] [Add S] [Sub S] [Mul S] [Div S] (F : Scalars S N) (m : Sparse S) (b : List S) (omega : S)
    (x : Option (List S)) (u : List S) : Out (List S) :=
  loop m.sizeRow (fun k => sweepRow F m b omega x (m.sizeRow - 1 - k)) u

end Iterative

/-- The fixed point solvers. -/
inductive Method where
  | jacobi
  | gaussSeidel
  | sor
  deriving DecidableEq

/-- The data of a fixed point solver, `/repo/include/solver/solver_fixed_point.hpp` 29-37.  Only Jacobi solvers have a working
vector and only SOR solvers a relaxation factor. -/
structure FixedPoint (S : Type) where
  limits : Limits S
  working : List S
  relaxation : S

namespace Iterative

variable {S N : Type}

/-- `initialise_solver`, `/repo/src/solver/solver_fixed_point.cpp` 56-61, 77-82 and 96-104, for a new solver. -/
def initialise (c : SolverConfig S) : FixedPoint S :=
  ⟨⟨c.minimumIterations, c.maximumIterations, c.convergenceTolerance⟩, [], c.sorRelaxation⟩

/-- One iteration of `solve_system` before the update of the convergence data, `/repo/src/solver/solver_fixed_point.cpp` 69-70,
89 and 111.  The state is the solution vector and the working vector. -/
def step [Zero S] [Add S] [Sub S] [Mul S] [Div S] (F : Scalars S N) (k : Method) (_ : FixedPoint S) (m : Sparse S) (b : List S)
    (st : List S × List S) : Out (List S × List S) :=
  match k with
  | .jacobi => do
    let w ← forwardSweep F m b F.one (some st.1) st.2
    pure (w, st.1)
  | .gaussSeidel => do
    let x ← forwardSweep F m b F.one none st.1
    pure (x, st.2)
  | .sor => do
    let x ← forwardSweep F m b F.threeHalves none st.1
    pure (x, st.2)

/-- The loops of `solve_system`, `/repo/src/solver/solver_fixed_point.cpp` 68-72, 88-91 and 110-113; `diverge` if they need more
than `fuel` iterations. -/
def iterate [Zero S] [Add S] [Sub S] [Mul S] [Div S] (F : Scalars S N) (k : Method) (s : FixedPoint S) (m : Sparse S)
    (b : List S) (fuel : Nat) (st : (List S × List S) × Conv S N) : Out ((List S × List S) × Conv S N) :=
  whileFuel (fun st => !isConverged F s.limits st.2) (fun st => do
    let v ← step F k s m b st.1
    let d ← update F m v.1 b st.2
    pure (v, d)) fuel st

/-- `solve_system`, `/repo/src/solver/solver_fixed_point.cpp` 64-74, 85-93 and 107-116: the solution vector, the convergence data
and the solver afterwards. -/
def solveSystem [Zero S] [Add S] [Sub S] [Mul S] [Div S] (F : Scalars S N) (k : Method) (s : FixedPoint S) (m : Sparse S)
    (x b : List S) (fuel : Nat) : Out (List S × Conv S N × FixedPoint S) := do
  let w := match k with
    | .jacobi => resizeList s.working m.sizeRow 0
    | _ => s.working
  let ((x, w), d) ← iterate F k s m b fuel ((x, w), Conv.new F)
  pure (x, d, { s with working := w })

end Iterative

/-- The variant in `Solver`, `/repo/include/solver/solver.hpp` 49-51. -/
inductive Solver (S : Type) where
  | lu (s : Lu S)
  | lup (s : Lu S)
  | fixedPoint (k : Method) (s : FixedPoint S)
  | none

namespace Solver

open Iterative

variable {S N : Type}

/-- The constructor of `Direct_Lower_Upper_Factorisation`, `/repo/include/solver/direct_lower_upper_factorisation.hpp` 58-71. -/
def newLu (pivot : Bool) (c : SolverConfig S) : Out (Lu S) := do
  assert (c.type == .lowerUpperFactorisation)
  assert (c.pivot == pivot)
  pure ⟨false, c.factorTolerance, [], []⟩

/-- `get_config` of the direct solvers, `/repo/include/solver/direct_lower_upper_factorisation.hpp` 95-101.  `d` is a new
configuration. -/
def luConfig (d : SolverConfig S) (pivot : Bool) (s : Lu S) : SolverConfig S :=
  { d with type := .lowerUpperFactorisation, pivot := pivot, factorTolerance := s.tol }

/-- `build_solver`, `/repo/src/solver/solver.cpp` 26-47. -/
def build (c : SolverConfig S) : Out (Solver S) :=
  match c.type with
  | .lowerUpperFactorisation =>
    if c.pivot then do
      let s ← newLu true c
      pure (.lup s)
    else do
      let s ← newLu false c
      pure (.lu s)
  | .jacobi => .ok (.fixedPoint .jacobi (initialise c))
  | .gaussSeidel => .ok (.fixedPoint .gaussSeidel (initialise c))
  | .successiveOverRelaxation => .ok (.fixedPoint .sor (initialise c))
  | .unknown => .exit 0

/-- `solve` for sparse matrices, `/repo/include/solver/solver.hpp` 53-71.  The cases of the direct solvers print an error and
fall through to `std::get` of the Jacobi solver, which throws. -/
def solveSparse [Zero S] [Add S] [Sub S] [Mul S] [Div S] (F : Scalars S N) (s : Solver S) (m : Sparse S) (x b : List S)
    (fuel : Nat) : Out (List S × Conv S N × Solver S) :=
  match s with
  | .lu _ => .throw
  | .lup _ => .throw
  | .fixedPoint k s => do
    let (x, d, s) ← solveSystem F k s m x b fuel
    pure (x, d, .fixedPoint k s)
  | .none => .exit 1

/-- `solve` for dense matrices, `/repo/include/solver/solver.hpp` 73-90, with the solution vector and the members `converged` and
`iteration` of the convergence data. -/
def solveDense [Zero S] [Sub S] [Mul S] [Div S] (s : Solver S) (x : List S) (b : Option (List S)) : Out (List S × Bool × Nat) :=
  match s with
  | .lu s => Lu.solve false s x b
  | .lup s => Lu.solve true s x b
  | .fixedPoint _ _ => .exit 1
  | .none => .exit 1

end Solver
end Disa
