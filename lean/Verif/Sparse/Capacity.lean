import Verif.Alloc
import Verif.Spec.Sparse

/-!
# Model of the storage of sparse matrices

`reserve`, `capacity` and `shrink_to_fit` of `Matrix_Sparse`, and what the other functions do to the capacity of its three
vectors.
-/

namespace Disa

/-- A sparse matrix with the capacities of its vectors. -/
structure SparseRoom (α : Type) where
  matrix : Sparse α
  /-- `row_non_zero.capacity()` -/
  off : Nat
  /-- `column_index.capacity()` -/
  cols : Nat
  /-- `element_value.capacity()` -/
  vals : Nat

namespace SparseRoom
variable {α : Type}

/-- Default constructor, `/repo/include/core/matrix_sparse.hpp` 109. -/
def new : SparseRoom α := ⟨Sparse.new, 0, 0, 0⟩

/-- `Matrix_Sparse(row, column)`, `/repo/include/core/matrix_sparse.hpp` 116. -/
def sized (a : Alloc) (r c : Nat) : SparseRoom α := ⟨Sparse.sized r c, a.fit 0 0 (wrap (r + 1)), 0, 0⟩

/-- Constructor from initialiser lists, `/repo/src/core/matrix_sparse.cpp` 43-78. -/
def ofLists [Zero α] (a b : Alloc) (nonZero index : List Nat) (value : List α) (column : Nat) : Out (SparseRoom α) := do
  let m ← Sparse.ofLists nonZero index value column
  pure ⟨m, a.fit 0 0 nonZero.length, a.fit 0 0 index.length, b.fit 0 0 value.length⟩

/-- `capacity`, `/repo/include/core/matrix_sparse.hpp` 286-288. -/
def capacity (c : SparseRoom α) : Nat × Nat := (c.off, c.cols)

/-- `reserve`, `/repo/include/core/matrix_sparse.hpp` 274-278.  The first size is computed with `std::size_t` and wraps.  The
exception for a size above `max_size` ends the program, as the function is `noexcept`. -/
def reserve (a b : Alloc) (c : SparseRoom α) (r n : Nat) : Out (SparseRoom α) :=
  if wrap (r + 1) ≤ a.max ∧ n ≤ a.max ∧ n ≤ b.max then
    .ok { c with
      off := a.fit c.off c.matrix.off.length (wrap (r + 1))
      cols := a.fit c.cols c.matrix.cols.length n
      vals := b.fit c.vals c.matrix.vals.length n }
  else .throw

/-- `shrink_to_fit`, `/repo/include/core/matrix_sparse.hpp` 293-297. -/
def shrinkToFit (a b : Alloc) (c : SparseRoom α) : SparseRoom α :=
  { c with
    off := a.shrink c.off c.matrix.off.length
    cols := a.shrink c.cols c.matrix.cols.length
    vals := b.shrink c.vals c.matrix.vals.length }

/-- `clear`, `/repo/include/core/matrix_sparse.hpp` 306-311. -/
def clear (c : SparseRoom α) : SparseRoom α := { c with matrix := c.matrix.clear }

/-- `resize`, `/repo/src/core/matrix_sparse.cpp` 243-271. -/
def resize [Zero α] (a b : Alloc) (c : SparseRoom α) (r k : Nat) : Out (SparseRoom α) := do
  let (cols, vals) ← (if r < c.matrix.sizeRow then do
    let o ← rd c.matrix.off r
    pure (a.fit c.cols c.matrix.cols.length o, b.fit c.vals c.matrix.vals.length o)
    else pure (c.cols, c.vals))
  let m ← c.matrix.resize r k
  pure ⟨m, a.fit c.off c.matrix.off.length (wrap (r + 1)), cols, vals⟩

/-- The capacities after `insert` has returned `m` and its flag: `row_non_zero` grows in the first `resize`, and has the
size that the second one asks for; the others grow by the new element, `/repo/src/core/matrix_sparse.cpp` 187-203. -/
def grown (a b : Alloc) (c : SparseRoom α) (m : Sparse α) (i : Nat) (new : Bool) : SparseRoom α :=
  { matrix := m
    off := if i ≥ c.matrix.sizeRow then a.fit c.off c.matrix.off.length (wrap (wrap (i + 1) + 1)) else c.off
    cols := if new then a.fit c.cols c.matrix.cols.length (c.matrix.cols.length + 1) else c.cols
    vals := if new then b.fit c.vals c.matrix.vals.length (c.matrix.vals.length + 1) else c.vals }

/-- `insert`, `/repo/src/core/matrix_sparse.cpp` 187-203. -/
def insert [Zero α] (a b : Alloc) (c : SparseRoom α) (i j : Nat) (v : α) : Out (SparseRoom α × Iter × Bool) := do
  let (m, it, new) ← c.matrix.insert i j v
  pure (c.grown a b m i new, it, new)

/-- `insert_or_assign`, `/repo/src/core/matrix_sparse.cpp` 209-215. -/
def insertOrAssign [Zero α] (a b : Alloc) (c : SparseRoom α) (i j : Nat) (v : α) : Out (SparseRoom α × Iter × Bool) := do
  let (m, it, new) ← c.matrix.insertOrAssign i j v
  pure (c.grown a b m i new, it, new)

/-- `matrix[i][j]` of a non-constant matrix, `/repo/src/core/matrix_sparse.cpp` 116-119 and
`/repo/include/core/matrix_sparse.hpp` 575-580: an absent element is inserted. -/
def ref [Zero α] (a b : Alloc) (c : SparseRoom α) (i j : Nat) : Out (SparseRoom α × Iter) := do
  let (m, it) ← c.matrix.ref i j
  pure (c.grown a b m i (decide (c.matrix.cols.length < m.cols.length)), it)

/-- Assignment through an iterator or through a reference to an element. -/
def setAt (c : SparseRoom α) (it : Iter) (v : α) : Out (SparseRoom α) := do
  let m ← c.matrix.setAt it v
  pure { c with matrix := m }

/-- `erase`, `/repo/src/core/matrix_sparse.cpp` 222-233.  The read past the end in its assertion is ignored, see C65. -/
def erase (c : SparseRoom α) (it : Iter) : Out (SparseRoom α × Iter) := do
  let (m, it) ← c.matrix.erase false it
  pure ({ c with matrix := m }, it)

end SparseRoom

namespace Spec
variable {α : Type}

/-- A call on a sparse matrix that may concern its storage. -/
inductive SparseOp (α : Type) where
  | insert (i j : Nat) (v : α)
  | insertOrAssign (i j : Nat) (v : α)
  /-- `matrix[i][j] = v` -/
  | assign (i j : Nat) (v : α)
  /-- `erase(find(i, j))` -/
  | erase (i j : Nat)
  | resize (r c : Nat)
  | clear
  | reserve (r n : Nat)
  | shrinkToFit

/-- Perform one call. -/
def sparseStep [Zero α] (a b : Alloc) (c : SparseRoom α) : SparseOp α → Out (SparseRoom α)
  | .insert i j v => do let (c, _) ← c.insert a b i j v; pure c
  | .insertOrAssign i j v => do let (c, _) ← c.insertOrAssign a b i j v; pure c
  | .assign i j v => do let (c, it) ← c.ref a b i j; c.setAt it v
  | .erase i j => do let it ← c.matrix.find i j; let (c, _) ← c.erase it; pure c
  | .resize r k => c.resize a b r k
  | .clear => .ok c.clear
  | .reserve r n => c.reserve a b r n
  | .shrinkToFit => .ok (c.shrinkToFit a b)

/-- Perform a history of calls. -/
def sparseRun [Zero α] (a b : Alloc) (c : SparseRoom α) : List (SparseOp α) → Out (SparseRoom α)
  | [] => .ok c
  | op :: ops => do let c ← sparseStep a b c op; sparseRun a b c ops

/-- The indices of a call can be stored. -/
def SparseOp.Valid : SparseOp α → Prop
  | .insert i j _ => i + 1 < sizeMax ∧ j < sizeMax
  | .insertOrAssign i j _ => i + 1 < sizeMax ∧ j < sizeMax
  | .assign _ j _ => j < sizeMax
  | .resize r _ => r < sizeMax
  | _ => True

/-- The call stores an element or does nothing. -/
def SparseOp.Stores : SparseOp α → Prop
  | .insert .. => True
  | .insertOrAssign .. => True
  | .assign .. => True
  | _ => False

/-- A constructor call. -/
inductive SparseMake [Zero α] (a b : Alloc) : SparseRoom α → Prop
  | new : SparseMake a b SparseRoom.new
  | sized {r c : Nat} : r < sizeMax → SparseMake a b (SparseRoom.sized a r c)
  | ofLists {nz ix : List Nat} {vs : List α} {k : Nat} {c : SparseRoom α} : nz.length ≤ sizeMax → k ≤ sizeMax →
      SparseRoom.ofLists a b nz ix vs k = .ok c → SparseMake a b c

/-- Matrices with their storage that a program can obtain by a constructor and a history of calls. -/
def SparseHeld [Zero α] (a b : Alloc) (c : SparseRoom α) : Prop :=
  ∃ c0 ops, SparseMake a b c0 ∧ (∀ op ∈ ops, op.Valid) ∧ sparseRun a b c0 ops = .ok c

end Spec

end Disa
