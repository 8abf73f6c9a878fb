import Verif.Alloc
import Verif.Spec.CsrData

/-!
# Two rows of one matrix, side by side

A `Matrix_Sparse_Row` of the new sparse matrix holds spans of the columns and values.  The assignment through one row renews
the spans of this row only, `/repo/include/core/matrix_sparse_new.hpp` 357-362.
-/

namespace Disa

/-- Data with the capacities of `i_column` and `value`. -/
structure CsrRoom (α : Type) where
  data : CsrData α
  cols : Nat
  vals : Nat
  deriving DecidableEq

namespace CsrRoom
variable {α : Type}

/-- Assignment to an accessor, `/repo/include/core/matrix_sparse_new.hpp` 357-362, with the capacities afterwards: the vectors
grow by the new element, `/repo/include/core/matrix_sparse_data.hpp` 236-239. -/
def assign [Zero α] (a b : Alloc) (c : CsrRoom α) (v : RowView) (column : Nat) (value : α) : Out (CsrRoom α × RowView) := do
  let (m, _, new) ← CsrData.insertOrAssign c.data v.row column value
  let v ← RowView.make m v.row
  pure (⟨m, if new then a.fit c.cols c.data.cols.length (c.data.cols.length + 1) else c.cols,
    if new then b.fit c.vals c.data.vals.length (c.data.vals.length + 1) else c.vals⟩, v)

/-- Reading through a row that was made when the matrix was `old`: its spans dangle if a vector has moved, which changes its
capacity. -/
def read (old c : CsrRoom α) (w : RowView) (column : Nat) : Out α :=
  if c.cols = old.cols ∧ c.vals = old.vals then RowView.at' c.data w column else .ub

end CsrRoom
end Disa
