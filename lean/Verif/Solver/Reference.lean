import Verif.Solver.Iterative

/-!
# Model of the `solve` functions of the base classes of the solvers

`/repo/include/solver/direct.hpp` and `/repo/include/solver/solver_iterative.hpp`.  `solve` is declared to return a reference, and
returns what the derived class returns by value: the reference is bound to a temporary, which is destroyed at the end of the
return statement.
-/

namespace Disa

/-- Objects by address, `none` after the end of their lifetime.  Addresses are not used again. -/
abbrev Store (α : Type) := List (Option α)

namespace Store

variable {α : Type}

/-- A new object and its address. -/
def make (st : Store α) (a : α) : Store α × Nat := (st ++ [some a], st.length)

/-- The end of the lifetime of the object at an address. -/
def destroy (st : Store α) (r : Nat) : Store α := st.set r none

/-- Reading through a reference; undefined if there is no object any more. -/
def read (st : Store α) (r : Nat) : Out α :=
  match st[r]? with
  | some (some a) => .ok a
  | _ => .ub

/-- Returning a value from a function that returns a reference. -/
def returnReference (st : Store α) (a : α) : Store α × Nat :=
  let t := st.make a
  (t.1.destroy t.2, t.2)

end Store

variable {S N : Type}

/-- `Direct::solve`, `/repo/include/solver/direct.hpp` 82-84: the solution vector, the reference and the objects afterwards.  Of
the convergence data the members `converged` and `iteration` are in the store. -/
def Direct.solve [Zero S] [Sub S] [Mul S] [Div S] (pivot : Bool) (s : Lu S) (x : List S) (b : Option (List S))
    (st : Store (Bool × Nat)) : Out (List S × Nat × Store (Bool × Nat)) := do
  let (x, d) ← Lu.solve pivot s x b
  let (st, r) := st.returnReference d
  pure (x, r, st)

/-- `Solver_Iterative::solve`, `/repo/include/solver/solver_iterative.hpp` 53-56: the solution vector, the solver, the reference
and the objects afterwards. -/
def Iterative.solve [Zero S] [Add S] [Sub S] [Mul S] [Div S] (F : Scalars S N) (k : Method) (s : FixedPoint S) (m : Sparse S)
    (x b : List S) (fuel : Nat) (st : Store (Conv S N)) : Out (List S × FixedPoint S × Nat × Store (Conv S N)) := do
  let (x, d, s) ← solveSystem F k s m x b fuel
  let (st, r) := st.returnReference d
  pure (x, s, r, st)

end Disa
