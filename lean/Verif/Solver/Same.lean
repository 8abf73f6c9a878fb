import Verif.Solver.Iterative

/-!
# Model of the iterative solvers for one vector in both places

`/repo/src/solver/solver_fixed_point.cpp` and `/repo/include/solver/solver.hpp`, for calls in which the constant vector is the
same object as the solution vector.  `x_vector` is then also what `b_vector` refers to, and a swap of `x_vector` with the working
vector changes the constants too.
-/

namespace Disa.Iterative

variable {S N : Type} [Zero S] [Add S] [Sub S] [Mul S] [Div S]

/-- Body of the sweeps, `/repo/src/solver/solver_fixed_point.cpp` 34-38, where the constants are read from the vector from which
the unknowns are read. -/
def sweepRowSame (F : Scalars S N) (m : Sparse S) (omega : S) (x : Option (List S)) (i : Nat) (u : List S) : Out (List S) :=
  sweepRow F m (x.getD u) omega x i u

/-- `forward_sweep`, `/repo/src/solver/solver_fixed_point.cpp` 29-40. -/
def forwardSweepSame (F : Scalars S N) (m : Sparse S) (omega : S) (x : Option (List S)) (u : List S) : Out (List S) :=
  loop m.sizeRow (sweepRowSame F m omega x) u

/-- One iteration of `solve_system` before the update of the convergence data, `/repo/src/solver/solver_fixed_point.cpp` 69-70,
89 and 111. -/
def stepSame (F : Scalars S N) (k : Method) (m : Sparse S) (st : List S × List S) : Out (List S × List S) :=
  match k with
  | .jacobi => do
    let w ← forwardSweepSame F m F.one (some st.1) st.2
    pure (w, st.1)
  | .gaussSeidel => do
    let x ← forwardSweepSame F m F.one none st.1
    pure (x, st.2)
  | .sor => do
    let x ← forwardSweepSame F m F.threeHalves none st.1
    pure (x, st.2)

/-- The loops of `solve_system`, `/repo/src/solver/solver_fixed_point.cpp` 68-72, 88-91 and 110-113; `diverge` if they need more
than `fuel` iterations. -/
def iterateSame (F : Scalars S N) (k : Method) (s : FixedPoint S) (m : Sparse S) (fuel : Nat)
    (st : (List S × List S) × Conv S N) : Out ((List S × List S) × Conv S N) :=
  whileFuel (fun st => !isConverged F s.limits st.2) (fun st => do
    let v ← stepSame F k m st.1
    let d ← update F m v.1 v.1 st.2
    pure (v, d)) fuel st

/-- `solve_system`, `/repo/src/solver/solver_fixed_point.cpp` 64-74, 85-93 and 107-116, for `x` in both places. -/
def solveSystemSame (F : Scalars S N) (k : Method) (s : FixedPoint S) (m : Sparse S) (x : List S) (fuel : Nat) :
    Out (List S × Conv S N × FixedPoint S) := do
  let w := match k with
    | .jacobi => resizeList s.working m.sizeRow 0
    | _ => s.working
  let ((x, w), d) ← iterateSame F k s m fuel ((x, w), Conv.new F)
  pure (x, d, { s with working := w })

end Disa.Iterative

namespace Disa.Solver

open Iterative

/-- `solve` for sparse matrices, `/repo/include/solver/solver.hpp` 53-71, for `x` in both places. -/
def solveSparseSame {S N : Type} [Zero S] [Add S] [Sub S] [Mul S] [Div S] (F : Scalars S N) (s : Solver S) (m : Sparse S)
    (x : List S) (fuel : Nat) : Out (List S × Conv S N × Solver S) :=
  match s with
  | .lu _ => .throw
  | .lup _ => .throw
  | .fixedPoint k s => do
    let (x, d, s) ← solveSystemSame F k s m x fuel
    pure (x, d, .fixedPoint k s)
  | .none => .exit 1

end Disa.Solver
