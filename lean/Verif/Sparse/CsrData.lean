import Verif.Sparse.Model

/-!
# Model of `CSR_Data` and of the rows of the new sparse matrix

`/repo/include/core/matrix_sparse_data.hpp` and `/repo/include/core/matrix_sparse_new.hpp`, with `std::size_t` for all index
types.  The members are those of `Matrix_Sparse`, so the same structure is used.  An iterator is the triple of its positions
in the three vectors.  The class `Matrix_Sparse` of the second file is commented out in the repository.
-/

namespace Disa

/-- The members of `CSR_Data`, `/repo/include/core/matrix_sparse_data.hpp` 57-60: `row_offset`, `i_column`, `value` and
`columns`. -/
abbrev CsrData (α : Type) := Sparse α

/-- `CSR_Data::iterator`, `/repo/include/core/matrix_sparse_data.hpp` 51-55. -/
abbrev CsrIter := Nat × Nat × Nat

namespace CsrData
variable {α : Type}

/-- A new `CSR_Data`. -/
def new : CsrData α := ⟨[], [], [], 0⟩

/-- `size_row`, `/repo/include/core/matrix_sparse_data.hpp` 110-112. -/
def sizeRow (m : CsrData α) : Nat := if !m.off.isEmpty then m.off.length - 1 else 0

/-- `size_column`, `/repo/include/core/matrix_sparse_data.hpp` 122-125. -/
def sizeColumn (m : CsrData α) : Nat := m.colSize

/-- `size_non_zero`, `/repo/include/core/matrix_sparse_data.hpp` 135-138. -/
def sizeNonZero (m : CsrData α) : Nat := m.cols.length

/-- Body of the loop of `resize`, `/repo/include/core/matrix_sparse_data.hpp` 177-189.  The state is the data and
`offset_loss`. -/
def resizeBody (column : Nat) (row : Nat) (st : CsrData α × Nat) : Out (CsrData α × Nat) := do
  let m := st.1
  let e0 ← rd m.off (row + 1)
  let e := usub e0 st.2
  let b ← rd m.off row
  let r ← slice m.cols b e
  let k ← upperBound r (usub column 1)
  if b + k == e then
    let off ← wr m.off (row + 1) (usub e0 st.2)
    pure ({ m with off := off }, st.2)
  else if e ≤ m.vals.length then
    let loss := st.2 + (e - (b + k))
    let off ← wr m.off (row + 1) (usub e0 loss)
    pure ({ m with off := off, cols := cut m.cols (b + k) e, vals := cut m.vals (b + k) e }, loss)
  else .ub

/-- `resize`, `/repo/include/core/matrix_sparse_data.hpp` 154-192. -/
def resize [Zero α] (m : CsrData α) (row column : Nat) : Out (CsrData α) := do
  let m ← (if row < sizeRow m then do
    let o ← rd m.off row
    pure { m with cols := resizeList m.cols o 0, vals := resizeList m.vals o 0 }
    else pure m)
  let m := { m with off := resizeList m.off (wrap (row + 1)) (if m.off.isEmpty then 0 else m.off.getLastD 0) }
  let m ← (if column < sizeColumn m then do
    let (m, _) ← loop (sizeRow m) (resizeBody column) (m, 0)
    pure m
    else pure m)
  pure { m with colSize := column }

/-- `lower_bound`, `/repo/include/core/matrix_sparse_data.hpp` 283-298 and 318-330.  The row of the result is the next one if
no column of the row is large enough. -/
def lowerBound (m : CsrData α) (row column : Nat) : Out CsrIter := do
  if row < sizeRow m then
    let b ← rd m.off row
    let e ← rd m.off (row + 1)
    let r ← slice m.cols b e
    let k ← Disa.lowerBound r column
    if b + k ≤ m.vals.length then pure (if b + k != e then row else row + 1, b + k, b + k)
    else .ub
  else pure (m.off.length, m.cols.length, m.vals.length)

/-- `insert`, `/repo/include/core/matrix_sparse_data.hpp` 212-238. -/
def insert [Zero α] (m : CsrData α) (row column : Nat) (value : α) : Out (CsrData α × CsrIter × Bool) := do
  let m ← (if row ≥ sizeRow m then resize m (wrap (row + 1)) (sizeColumn m) else pure m)
  let m ← (if column ≥ sizeColumn m then resize m (sizeRow m) (wrap (column + 1)) else pure m)
  let (ir, ic, iv) ← lowerBound m row column
  let found ← (if ir == row then do
    let c ← rd m.cols ic
    pure (c == column)
    else pure false)
  if found then pure (m, (ir, ic, iv), false)
  else
    let off := m.off.take (row + 1) ++ (m.off.drop (row + 1)).map (· + 1)
    pure ({ m with off := off, cols := insAt m.cols ic column, vals := insAt m.vals iv value }, (row, ic, iv), true)

/-- `insert_or_assign`, `/repo/include/core/matrix_sparse_data.hpp` 257-263. -/
def insertOrAssign [Zero α] (m : CsrData α) (row column : Nat) (value : α) : Out (CsrData α × CsrIter × Bool) := do
  let (m, it, b) ← insert m row column value
  if !b then
    let vals ← wr m.vals it.2.2 value
    pure ({ m with vals := vals }, it, b)
  else pure (m, it, b)

end CsrData

/-- `Matrix_Sparse_Row`, `/repo/include/core/matrix_sparse_new.hpp` 550-553: the row that `iter_row_offset` points to and the
bounds that the two spans got from it. -/
structure RowView where
  row : Nat
  first : Nat
  last : Nat
  deriving DecidableEq, Repr

namespace RowView
variable {α : Type}

/-- Constructor, `/repo/include/core/matrix_sparse_new.hpp` 384-388. -/
def make (m : CsrData α) (row : Nat) : Out RowView := do
  let b ← rd m.off row
  let e ← rd m.off (row + 1)
  if b ≤ e ∧ e ≤ m.cols.length ∧ e ≤ m.vals.length then pure ⟨row, b, e⟩ else .ub

/-- `size_non_zero`, `/repo/include/core/matrix_sparse_new.hpp` 437. -/
def sizeNonZero (m : CsrData α) (v : RowView) : Out Nat := do
  let e ← rd m.off (v.row + 1)
  let b ← rd m.off v.row
  pure (usub e b)

/-- `at` and `operator[] const`, `/repo/include/core/matrix_sparse_new.hpp` 491-496 and 515-522, and the reading of an
accessor, 342-348: the value in the column. -/
def at' (m : CsrData α) (v : RowView) (column : Nat) : Out α := do
  let c ← slice m.cols v.first v.last
  assert (c.idxOf column != c.length)
  rd m.vals (v.first + c.idxOf column)

/-- Assignment to an accessor, `/repo/include/core/matrix_sparse_new.hpp` 357-362: the new data and the row afterwards. -/
def assign [Zero α] (m : CsrData α) (v : RowView) (column : Nat) (value : α) : Out (CsrData α × RowView) := do
  let (m, _, _) ← CsrData.insertOrAssign m v.row column value
  let v ← make m v.row
  pure (m, v)

/-- `row_offset`, `/repo/include/core/matrix_sparse_new.hpp` 425. -/
def rowOffset (m : CsrData α) (v : RowView) : Out Nat := rd m.off (v.row + 1)

/-- `size`, `/repo/include/core/matrix_sparse_new.hpp` 431. -/
def size (m : CsrData α) (_ : RowView) : Nat := m.colSize

end RowView

/-- `Base_Iterator_Matrix_Sparse_Element`, `/repo/include/core/matrix_sparse_new.hpp` 249-252, and `Matrix_Sparse_Element`, 124-127:
the positions in `i_column` and `value` that the two pointers point to.  An element has the pointers of the iterator it was
dereferenced from, 175-178, so it is the same structure. -/
structure ElemIter where
  column : Nat
  entry : Nat
  deriving DecidableEq, Repr

namespace ElemIter
variable {α : Type}

/-- `operator++`, `/repo/include/core/matrix_sparse_new.hpp` 186-190. -/
def next (it : ElemIter) : ElemIter := ⟨it.column + 1, it.entry + 1⟩

/-- `operator--`, `/repo/include/core/matrix_sparse_new.hpp` 210-214. -/
def prev (it : ElemIter) : ElemIter := ⟨it.column - 1, it.entry - 1⟩

/-- `operator==` of iterators, `/repo/include/core/matrix_sparse_new.hpp` 237-239, and of elements, 104-106. -/
def eq (a b : ElemIter) : Bool := a.column == b.column && a.entry == b.entry

/-- `i_column` of an element, `/repo/include/core/matrix_sparse_new.hpp` 92. -/
def iColumn (m : CsrData α) (e : ElemIter) : Out Nat := rd m.cols e.column

/-- `value` of an element, `/repo/include/core/matrix_sparse_new.hpp` 86 and 98. -/
def value (m : CsrData α) (e : ElemIter) : Out α := rd m.vals e.entry

/-- Assignment to `value` of an element, `/repo/include/core/matrix_sparse_new.hpp` 86. -/
def setValue (m : CsrData α) (e : ElemIter) (x : α) : Out (CsrData α) := do
  let vals ← wr m.vals e.entry x
  pure { m with vals := vals }

end ElemIter

namespace RowView

/-- `begin`, `/repo/include/core/matrix_sparse_new.hpp` 449, 461-463 and 475-477. -/
def begin' (v : RowView) : ElemIter := ⟨v.first, v.first⟩

/-- `end`, `/repo/include/core/matrix_sparse_new.hpp` 455, 469 and 483. -/
def end' (v : RowView) : ElemIter := ⟨v.last, v.last⟩

end RowView
end Disa
