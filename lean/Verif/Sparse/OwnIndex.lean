import Verif.Sparse.Model

/-!
# Index arguments that refer to the matrix itself

`i_column` of an iterator returns a reference to the column that the matrix stores, `/repo/include/core/matrix_sparse.hpp`
905, and `insert` and `resize` take their indices by reference.  Here is what these functions do when they are called with
such a reference.  `p` is the position of the element in `column_index`.  The reference is read again at each use; reading
it behind the end of the vector is undefined.
-/

namespace Disa
namespace Sparse
variable {α : Type}

/-- `insert(iter.i_column(), j, value)`, `/repo/src/core/matrix_sparse.cpp` 187-203.  The row of the returned iterator is
copied in its constructor, `/repo/include/core/matrix_sparse.hpp` 887-889, after both vectors have been changed.  `spare`
says whether `column_index` has room for one more element; without it the insertion moves the vector and the reference
dangles. -/
def insertOwn [Zero α] (spare : Bool) (m : Sparse α) (p j : Nat) (v : α) : Out (Sparse α × Iter × Bool) := do
  let i ← rd m.cols p
  let m ← (if i ≥ m.sizeRow then m.resize (wrap (i + 1)) m.colSize else pure m)
  let m ← (if j ≥ m.colSize then m.resize m.sizeRow (wrap (j + 1)) else pure m)
  let i ← rd m.cols p
  let (m, it, b) ← m.insertCore i j v
  if b then
    if spare then
      let i ← rd m.cols p
      pure (m, (i, it.2), b)
    else .ub
  else pure (m, it, b)

/-- `resize(iter.i_column(), c)`, `/repo/src/core/matrix_sparse.cpp` 243-271. -/
def resizeOwnRow [Zero α] (m : Sparse α) (p c : Nat) : Out (Sparse α) := do
  let r ← rd m.cols p
  let m ← (if r < m.sizeRow then do
    let o ← rd m.off r
    let m := { m with cols := resizeList m.cols o 0 }
    let r ← rd m.cols p
    let o ← rd m.off r
    pure { m with vals := resizeList m.vals o 0 }
    else pure m)
  let r ← rd m.cols p
  let m := { m with off := resizeList m.off (wrap (r + 1)) (if m.off.isEmpty then 0 else m.off.getLastD 0) }
  let m ← (if c < m.colSize then do
    let (m, _) ← loop m.sizeRow (resizeBody c) (m, 0)
    pure m
    else pure m)
  pure { m with colSize := c }

/-- `resize(r, iter.i_column())`, `/repo/src/core/matrix_sparse.cpp` 243-271. -/
def resizeOwnColumn [Zero α] (m : Sparse α) (r p : Nat) : Out (Sparse α) := do
  let m ← (if r < m.sizeRow then do
    let o ← rd m.off r
    pure { m with cols := resizeList m.cols o 0, vals := resizeList m.vals o 0 }
    else pure m)
  let m := { m with off := resizeList m.off (wrap (r + 1)) (if m.off.isEmpty then 0 else m.off.getLastD 0) }
  let c ← rd m.cols p
  let m ← (if c < m.colSize then do
    let (m, _) ← loop m.sizeRow (fun i st => do
      let c ← rd st.1.cols p
      resizeBody c i st) (m, 0)
    pure m
    else pure m)
  let c ← rd m.cols p
  pure { m with colSize := c }

end Sparse
end Disa
