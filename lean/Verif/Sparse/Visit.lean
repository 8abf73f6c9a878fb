import Verif.Sparse.Model

/-!
# Going through a sparse matrix with its iterators

`/repo/include/core/matrix_sparse.hpp` 662-1067.  A row iterator is its row index, see `rowIterAdd`.  The loops are the
ones a caller writes: range based for loops over the matrix and over its rows, and the same backwards with `--`.
-/

namespace Disa.Sparse

variable {α : Type}

/-! ### Row iterators -/

/-- `Matrix_Sparse::begin`, `/repo/src/core/matrix_sparse.cpp` 136-152. -/
def rowsBegin (_ : Sparse α) : Nat := 0

/-- `Matrix_Sparse::end`, `/repo/src/core/matrix_sparse.cpp` 157-173. -/
def rowsEnd (m : Sparse α) : Nat := m.sizeRow

/-- `++it` of a row iterator, `/repo/include/core/matrix_sparse.hpp` 745-748. -/
def rowNext (it : Nat) : Nat := wrap (it + 1)

/-- `--it` of a row iterator, `/repo/include/core/matrix_sparse.hpp` 768-771. -/
def rowPrev (it : Nat) : Nat := usub it 1

/-- `it - n` of a row iterator, `/repo/include/core/matrix_sparse.hpp` 802-805: the result and `it` afterwards. -/
def rowIterSub (it n : Nat) : Nat × Nat := (usub it n, usub it n)

/-- `it += n` of a row iterator, `/repo/include/core/matrix_sparse.hpp` 812-815. -/
def rowIterAdvance (it n : Nat) : Nat := wrap (it + n)

/-- `it -= n` of a row iterator, `/repo/include/core/matrix_sparse.hpp` 822-825. -/
def rowIterRetreat (it n : Nat) : Nat := usub it n

/-- The row that `it[n]` is, `/repo/include/core/matrix_sparse.hpp` 833-846: `std::next` moves a copy of `it` by `+=`. -/
def rowIterAt (it n : Nat) : Nat := rowIterAdvance it n

/-! ### Element iterators -/

/-- `++it` of an element iterator, `/repo/include/core/matrix_sparse.hpp` 952-956. -/
def elemNext (it : Iter) : Iter := (it.1, it.2 + 1)

/-- `--it` of an element iterator, `/repo/include/core/matrix_sparse.hpp` 976-980.  There is no position in front of the
first one. -/
def elemPrev (it : Iter) : Out Iter := if it.2 = 0 then .ub else .ok (it.1, it.2 - 1)

/-- `a - b` of element iterators, `/repo/include/core/matrix_sparse.hpp` 1001-1003. -/
def elemDistance (a b : Iter) : Int := (a.2 : Int) - b.2

/-! ### Loops -/

/-- `for(auto it = row.begin(); it != row.end(); ++it)`, noting `it.i_row()`, `it.i_column()` and `*it`. -/
def visitRow (m : Sparse α) (i fuel : Nat) : Out (List (Nat × Nat × α)) := do
  let s ← m.rowBegin i
  let e ← m.rowEnd i
  let st ← whileFuel (fun st : Iter × List (Nat × Nat × α) => st.1 != e) (fun st => do
    let c ← m.colAt st.1
    let x ← m.valAt st.1
    pure (elemNext st.1, st.2 ++ [(st.1.1, c, x)])) fuel (s, [])
  pure st.2

/-- `for(auto it = row.end(); it != row.begin();)`, starting with `--it`. -/
def visitRowBack (m : Sparse α) (i fuel : Nat) : Out (List (Nat × Nat × α)) := do
  let s ← m.rowBegin i
  let e ← m.rowEnd i
  let st ← whileFuel (fun st : Iter × List (Nat × Nat × α) => st.1 != s) (fun st => do
    let it ← elemPrev st.1
    let c ← m.colAt it
    let x ← m.valAt it
    pure (it, st.2 ++ [(it.1, c, x)])) fuel (e, [])
  pure st.2

/-- Going through all rows from `begin` to `end`. -/
def visitAll (m : Sparse α) (fuel : Nat) : Out (List (Nat × Nat × α)) := do
  let st ← whileFuel (fun st : Nat × List (Nat × Nat × α) => st.1 != m.rowsEnd) (fun st => do
    let es ← visitRow m st.1 fuel
    pure (rowNext st.1, st.2 ++ es)) fuel (m.rowsBegin, [])
  pure st.2

/-- Going through all rows from `end` to `begin`. -/
def visitAllBack (m : Sparse α) (fuel : Nat) : Out (List (Nat × Nat × α)) := do
  let st ← whileFuel (fun st : Nat × List (Nat × Nat × α) => st.1 != m.rowsBegin) (fun st => do
    let es ← visitRowBack m (rowPrev st.1) fuel
    pure (rowPrev st.1, st.2 ++ es)) fuel (m.rowsEnd, [])
  pure st.2

/-- `*it = f(it.i_row(), it.i_column(), *it)` for the elements of a row. -/
def updateRow (f : Nat → Nat → α → α) (i fuel : Nat) (m : Sparse α) : Out (Sparse α) := do
  let s ← m.rowBegin i
  let e ← m.rowEnd i
  let st ← whileFuel (fun st : Iter × Sparse α => st.1 != e) (fun st => do
    let c ← st.2.colAt st.1
    let x ← st.2.valAt st.1
    let m ← st.2.setAt st.1 (f st.1.1 c x)
    pure (elemNext st.1, m)) fuel (s, m)
  pure st.2

/-- The same for all rows. -/
def updateAll (f : Nat → Nat → α → α) (fuel : Nat) (m : Sparse α) : Out (Sparse α) := do
  let st ← whileFuel (fun st : Nat × Sparse α => st.1 != m.rowsEnd) (fun st => do
    let m ← updateRow f st.1 fuel st.2
    pure (rowNext st.1, m)) fuel (m.rowsBegin, m)
  pure st.2

end Disa.Sparse
