import Verif.Basic
import Mathlib.Data.List.Sort

/-!
# Model of `Matrix_Sparse`

`/repo/include/core/matrix_sparse.hpp` and `/repo/src/core/matrix_sparse.cpp`.  The scalar type is a parameter.  An
iterator to an element is the pair of its row and of the position that its two pointers have in `column_index` and
`element_value`; the code always moves both pointers together.  Forming a pointer to a position up to the size of the
vectors is allowed, using one at the size or behind it is undefined.
-/

namespace Disa

/-- The members of `Matrix_Sparse`, `/repo/include/core/matrix_sparse.hpp` 465-469. -/
structure Sparse (α : Type) where
  /-- `row_non_zero` -/
  off : List Nat
  /-- `column_index` -/
  cols : List Nat
  /-- `element_value` -/
  vals : List α
  /-- `column_size` -/
  colSize : Nat
  deriving DecidableEq, Repr

/-- `Iterator_Matrix_Sparse_Element`: row and position, `/repo/include/core/matrix_sparse.hpp` 1059-1062. -/
abbrev Iter := Nat × Nat

namespace Sparse
variable {α : Type}

/-! ### Constructors and sizes -/

/-- Default constructor, `/repo/include/core/matrix_sparse.hpp` 109. -/
def new : Sparse α := ⟨[], [], [], 0⟩

/-- `Matrix_Sparse(row, column)`, `/repo/include/core/matrix_sparse.hpp` 116. -/
def sized (r c : Nat) : Sparse α := ⟨List.replicate (wrap (r + 1)) 0, [], [], c⟩

/-- `empty`, `/repo/include/core/matrix_sparse.hpp` 237. -/
def empty (m : Sparse α) : Bool := m.off.isEmpty || m.off.length < 2

/-- `size_row`, `/repo/include/core/matrix_sparse.hpp` 243-245. -/
def sizeRow (m : Sparse α) : Nat := if m.off.isEmpty then 0 else m.off.length - 1

/-- `size_non_zero`, `/repo/include/core/matrix_sparse.hpp` 257. -/
def sizeNonZero (m : Sparse α) : Nat := m.cols.length

/-- `clear`, `/repo/include/core/matrix_sparse.hpp` 306-311. -/
def clear (_ : Sparse α) : Sparse α := ⟨[], [], [], 0⟩

/-! ### Iterators -/

/-- A pointer to position `p` of the two element vectors. -/
def ptr (m : Sparse α) (p : Nat) : Out Nat := if p ≤ m.cols.length ∧ p ≤ m.vals.length then .ok p else .ub

/-- `Matrix_Sparse_Row::begin`, `/repo/src/core/matrix_sparse.cpp` 429-432 and 447-450. -/
def rowBegin (m : Sparse α) (i : Nat) : Out Iter := do
  let o ← rd m.off i
  let p ← m.ptr o
  pure (i, p)

/-- `Matrix_Sparse_Row::end`, `/repo/src/core/matrix_sparse.cpp` 438-441 and 456-459. -/
def rowEnd (m : Sparse α) (i : Nat) : Out Iter := do
  let o ← rd m.off (wrap (i + 1))
  let p ← m.ptr o
  pure (i, p)

/-- `i_column` of an iterator, `/repo/include/core/matrix_sparse.hpp` 905. -/
def colAt (m : Sparse α) (it : Iter) : Out Nat := rd m.cols it.2

/-- `operator*` of an iterator, `/repo/include/core/matrix_sparse.hpp` 934-941. -/
def valAt (m : Sparse α) (it : Iter) : Out α := rd m.vals it.2

/-- Assignment through an iterator or through a reference to an element. -/
def setAt (m : Sparse α) (it : Iter) (v : α) : Out (Sparse α) := do
  let vals ← wr m.vals it.2 v
  pure { m with vals := vals }

/-! ### Lookup -/

/-- `find`, `/repo/src/core/matrix_sparse.cpp` 282-303. -/
def find (m : Sparse α) (i j : Nat) : Out Iter := do
  if i < m.sizeRow then
    let b ← rd m.off i
    let e ← rd m.off (i + 1)
    let r ← slice m.cols b e
    let p ← m.ptr (b + r.idxOf j)
    pure (i, p)
  else m.rowEnd m.sizeRow

/-- `contains`, `/repo/src/core/matrix_sparse.cpp` 308-311. -/
def contains (m : Sparse α) (i j : Nat) : Out Bool := do
  let it ← m.find i j
  if it.1 == i then
    let e ← m.rowEnd i
    pure (it != e)
  else pure false

/-- `lower_bound`, `/repo/src/core/matrix_sparse.cpp` 318-340. -/
def lowerBound (m : Sparse α) (i j : Nat) : Out Iter := do
  if i < m.sizeRow then
    let b ← rd m.off i
    let e ← rd m.off (i + 1)
    let r ← slice m.cols b e
    let k ← Disa.lowerBound r j
    let p ← m.ptr (b + k)
    pure (i, p)
  else m.rowEnd m.sizeRow

/-- `at`, `/repo/src/core/matrix_sparse.cpp` 88-111.  The result is the referenced element. -/
def atRef (m : Sparse α) (i j : Nat) : Out Iter := do
  assert (i < m.sizeRow)
  assert (j < m.colSize)
  let it ← m.lowerBound i j
  let c ← m.colAt it
  assert (j == c)
  let _ ← m.valAt it
  pure it

/-- The value read through `at`. -/
def at' (m : Sparse α) (i j : Nat) : Out α := do
  let it ← m.atRef i j
  m.valAt it

/-- `operator[]` of a constant matrix followed by `operator[]` of the row, `/repo/src/core/matrix_sparse.cpp` 124-127 and
`/repo/include/core/matrix_sparse.hpp` 589-593. -/
def get (m : Sparse α) (i j : Nat) : Out α := do
  assert (i < m.sizeRow)
  let b ← m.contains i j
  assert b
  let it ← m.find i j
  m.valAt it

/-! ### Modifiers -/

/-- Loop body of `resize`, `/repo/src/core/matrix_sparse.cpp` 255-267.  The state is the matrix and `offset_loss`. -/
def resizeBody (c : Nat) (i : Nat) (st : Sparse α × Nat) : Out (Sparse α × Nat) := do
  let m := st.1
  let e0 ← rd m.off (i + 1)
  let e := usub e0 st.2
  let b ← rd m.off i
  let r ← slice m.cols b e
  let k ← upperBound r (usub c 1)
  if b + k == e then
    let off ← wr m.off (i + 1) (usub e0 st.2)
    pure ({ m with off := off }, st.2)
  else if e ≤ m.vals.length then
    let loss := st.2 + (e - (b + k))
    let off ← wr m.off (i + 1) (usub e0 loss)
    pure ({ m with off := off, cols := cut m.cols (b + k) e, vals := cut m.vals (b + k) e }, loss)
  else .ub

/-- `resize`, `/repo/src/core/matrix_sparse.cpp` 243-271. -/
def resize [Zero α] (m : Sparse α) (r c : Nat) : Out (Sparse α) := do
  let m ← (if r < m.sizeRow then do
    let o ← rd m.off r
    pure { m with cols := resizeList m.cols o 0, vals := resizeList m.vals o 0 }
    else pure m)
  let m := { m with off := resizeList m.off (wrap (r + 1)) (if m.off.isEmpty then 0 else m.off.getLastD 0) }
  let m ← (if c < m.colSize then do
    let (m, _) ← loop m.sizeRow (resizeBody c) (m, 0)
    pure m
    else pure m)
  pure { m with colSize := c }

/-- The part of `insert` behind the resizing, `/repo/src/core/matrix_sparse.cpp` 193-202. -/
def insertCore (m : Sparse α) (i j : Nat) (v : α) : Out (Sparse α × Iter × Bool) := do
  let it ← m.lowerBound i j
  assert (i < m.sizeRow)
  let e ← m.rowEnd i
  let new ← (if it == e then pure true else do
    let c ← m.colAt it
    pure (c != j))
  if new then
    let off := m.off.take (it.1 + 1) ++ (m.off.drop (it.1 + 1)).map (· + 1)
    pure ({ m with off := off, cols := insAt m.cols it.2 j, vals := insAt m.vals it.2 v }, (i, it.2), true)
  else pure (m, it, false)

/-- `insert`, `/repo/src/core/matrix_sparse.cpp` 187-203. -/
def insert [Zero α] (m : Sparse α) (i j : Nat) (v : α) : Out (Sparse α × Iter × Bool) := do
  let m ← (if i ≥ m.sizeRow then m.resize (wrap (i + 1)) m.colSize else pure m)
  let m ← (if j ≥ m.colSize then m.resize m.sizeRow (wrap (j + 1)) else pure m)
  m.insertCore i j v

/-- `insert_or_assign`, `/repo/src/core/matrix_sparse.cpp` 209-215. -/
def insertOrAssign [Zero α] (m : Sparse α) (i j : Nat) (v : α) : Out (Sparse α × Iter × Bool) := do
  let (m, it, b) ← m.insert i j v
  if b then pure (m, it, b)
  else
    let m ← m.setAt it v
    pure (m, it, b)

/-- `erase`, `/repo/src/core/matrix_sparse.cpp` 222-233.  The assertion starts with `end()->end()`, which reads
`row_non_zero[size_row() + 1]`, one past the end.  With `strict` this is undefined; otherwise the value read is
ignored, as the comparison that follows is decided by the rows of the iterators.  The column is read in both cases: by the
last part of the condition or for the message. -/
def erase (strict : Bool) (m : Sparse α) (it : Iter) : Out (Sparse α × Iter) := do
  let ne ← (if strict || it.1 == m.sizeRow then do
    let e ← m.rowEnd m.sizeRow
    pure (it != e)
    else pure true)
  let ne ← (if ne then do
    assert (it.1 < m.sizeRow)
    let e ← m.rowEnd it.1
    pure (it != e)
    else pure false)
  let c ← m.colAt it
  let has ← (if ne then m.contains it.1 c else pure false)
  assert has
  if it.2 < m.cols.length ∧ it.2 < m.vals.length then
    let off := m.off.take (it.1 + 1) ++ (m.off.drop (it.1 + 1)).map (usub · 1)
    pure ({ m with off := off, cols := cut m.cols it.2 (it.2 + 1), vals := cut m.vals it.2 (it.2 + 1) }, it)
  else .ub

/-- `matrix[i][j]` of a non-constant matrix, `/repo/src/core/matrix_sparse.cpp` 116-119 and
`/repo/include/core/matrix_sparse.hpp` 575-580: the referenced element, made if absent. -/
def ref [Zero α] (m : Sparse α) (i j : Nat) : Out (Sparse α × Iter) := do
  assert (i < m.sizeRow)
  let it ← m.lowerBound i j
  let e ← m.rowEnd i
  let absent ← (if it == e then pure true else do
    let c ← m.colAt it
    pure (j != c))
  let (m, it) ← (if absent then do
    let (m, it, _) ← m.insert i j 0
    pure (m, it)
    else pure (m, it))
  let _ ← m.valAt it
  pure (m, it)

/-- `matrix[i][j] = v`. -/
def assign [Zero α] (m : Sparse α) (i j : Nat) (v : α) : Out (Sparse α) := do
  let (m, it) ← m.ref i j
  m.setAt it v

/-- `matrix[i][j] += v`. -/
def addAt [Zero α] [Add α] (m : Sparse α) (i j : Nat) (v : α) : Out (Sparse α) := do
  let (m, it) ← m.ref i j
  let x ← m.valAt it
  m.setAt it (x + v)

/-- Loop body of the constructor from lists, `/repo/src/core/matrix_sparse.cpp` 55-77: sort the row and check it.
`std::sort` may order equal columns as it likes; rows with equal columns are rejected, so this is not observable. -/
def listBody [Zero α] (i : Nat) (m : Sparse α) : Out (Sparse α) := do
  let b ← rd m.off i
  let e ← rd m.off (i + 1)
  let c ← slice m.cols b e
  let v ← slice m.vals b e
  let s := (c.zip v).insertionSort (fun x y => x.1 ≤ y.1)
  assert (s.all fun x => x.1 < m.colSize)
  assert ((s.zip s.tail).all fun x => x.1.1 != x.2.1)
  let vals ← overwrite m.vals b (s.map (·.2))
  let cols ← overwrite m.cols b (s.map (·.1))
  pure { m with cols := cols, vals := vals }

/-- Constructor from initialiser lists, `/repo/src/core/matrix_sparse.cpp` 43-78. -/
def ofLists [Zero α] (nonZero index : List Nat) (value : List α) (column : Nat) : Out (Sparse α) := do
  let f ← rd nonZero 0
  assert (f == 0)
  assert (nonZero.getLastD 0 == index.length)
  assert ((nonZero.zip nonZero.tail).all fun x => x.1 ≤ x.2)
  assert (index.length == value.length)
  loop (nonZero.length - 1) listBody ⟨nonZero, index, value, column⟩

/-! ### Arithmetic -/

/-- `operator*=(scalar)`, `/repo/include/core/matrix_sparse.hpp` 422-425. -/
def scale [Mul α] (m : Sparse α) (a : α) : Sparse α := { m with vals := m.vals.map (· * a) }

/-- `operator/=(scalar)`, `/repo/include/core/matrix_sparse.hpp` 434-437. -/
def unscale [Div α] (m : Sparse α) (a : α) : Sparse α := { m with vals := m.vals.map (· / a) }

/-- `operator*=(scalar)` when the argument refers to the element at position `p` of the matrix itself: the reference is
read again for each element, `/repo/include/core/matrix_sparse.hpp` 422-425. -/
def scaleRef [Mul α] (m : Sparse α) (p : Nat) : Out (Sparse α) := do
  let vals ← loop m.vals.length (fun k vals => do
    let x ← rd vals k
    let a ← rd vals p
    wr vals k (x * a)) m.vals
  pure { m with vals := vals }

/-- `operator/=(scalar)` when the argument refers to the element at position `p` of the matrix itself,
`/repo/include/core/matrix_sparse.hpp` 434-437. -/
def unscaleRef [Div α] (m : Sparse α) (p : Nat) : Out (Sparse α) := do
  let vals ← loop m.vals.length (fun k vals => do
    let x ← rd vals k
    let a ← rd vals p
    wr vals k (x / a)) m.vals
  pure { m with vals := vals }

/-- `data`, `/repo/include/core/matrix_sparse.hpp` 183-187: for each of the three pointers whether it is the address of the
data of the vector (`true`) or null.  The first branch builds a tuple and drops it, so the function ends without a
return value. -/
def data (m : Sparse α) : Out (Bool × Bool × Bool) :=
  if !m.empty && m.sizeNonZero == 0 then .ub
  else if m.sizeNonZero == 0 then .ok (true, false, false)
  else .ok (false, false, false)

/-- `it + n` on a row iterator, `/repo/include/core/matrix_sparse.hpp` 792-795: the result and the iterator `it`
afterwards.  An iterator is its row. -/
def rowIterAdd (it n : Nat) : Nat × Nat := (wrap (it + n), wrap (it + n))

/-- `it + n` on an element iterator, `/repo/include/core/matrix_sparse.hpp` 1010-1014. -/
def elemIterAdd (it : Iter) (_n : Nat) : Iter := it

/-- `it += n` on an element iterator, `/repo/include/core/matrix_sparse.hpp` 1021-1024. -/
def elemIterAdvance (it : Iter) (_n : Nat) : Iter := it

/-- `it -= n` on an element iterator, `/repo/include/core/matrix_sparse.hpp` 1031-1034. -/
def elemIterRetreat (it : Iter) (_n : Nat) : Iter := it

/-- `it[n]` on an element iterator, `/repo/include/core/matrix_sparse.hpp` 1043-1054. -/
def elemIterAt (m : Sparse α) (it : Iter) (n : Nat) : Out α := rd m.vals (it.2 + n)

/-- The values added by `matrix_arithmetic<_is_add>`. -/
def signed [Neg α] (isAdd : Bool) (v : α) : α := if isAdd then v else -v

/-- The right operand as it is seen while the left one is being changed.  `none` stands for the same object. -/
def operand (other : Option (Sparse α)) (this : Sparse α) : Sparse α := other.getD this

/-- Body of the inner while loop of `matrix_arithmetic`, `/repo/src/core/matrix_sparse.cpp` 397-410.  The state is the
matrix, `iter_element_this`, and whether `iter_element_other` is at the end, followed by that iterator. -/
def mergeStep [Zero α] [Add α] [Neg α] (isAdd : Bool) (other : Option (Sparse α)) (i : Nat)
    (st : Sparse α × Iter × Iter) : Out (Sparse α × Iter × Iter) := do
  let (m, p, q) := st
  let o := operand other m
  let e ← m.rowEnd i
  let cq ← o.colAt q
  let atEnd := p == e
  let c ← (if atEnd then pure 0 else m.colAt p)
  if atEnd || decide (c > cq) then
    let v ← o.valAt q
    let (m, p, _) ← m.insert q.1 cq (signed isAdd v)
    pure (m, (p.1, p.2 + 1), (q.1, q.2 + 1))
  else if c < cq then pure (m, (p.1, p.2 + 1), q)
  else
    let x ← m.valAt p
    let v ← o.valAt q
    let m ← m.setAt p (x + signed isAdd v)
    pure (m, (p.1, p.2 + 1), (q.1, q.2 + 1))

/-- The inner while loop, `/repo/src/core/matrix_sparse.cpp` 396, with its condition. -/
def mergeLoop [Zero α] [Add α] [Neg α] (isAdd : Bool) (other : Option (Sparse α)) (i : Nat) :
    Nat → Sparse α × Iter × Iter → Out (Sparse α)
  | 0, _ => .diverge
  | fuel + 1, st => do
    let e ← (operand other st.1).rowEnd i
    if st.2.2 != e then
      let st ← mergeStep isAdd other i st
      mergeLoop isAdd other i fuel st
    else pure st.1

/-- Body of the outer loop, `/repo/src/core/matrix_sparse.cpp` 394-412.  There are at most as many steps as elements in
both matrices. -/
def mergeRow [Zero α] [Add α] [Neg α] (isAdd : Bool) (other : Option (Sparse α)) (i : Nat) (m : Sparse α) :
    Out (Sparse α) := do
  let p ← m.rowBegin i
  let q ← (operand other m).rowBegin i
  mergeLoop isAdd other i (m.cols.length + (operand other m).cols.length + 1) (m, p, q)

/-- `matrix_arithmetic`, `/repo/src/core/matrix_sparse.cpp` 384-414. -/
def arith [Zero α] [Add α] [Neg α] (isAdd : Bool) (m : Sparse α) (other : Option (Sparse α)) : Out (Sparse α) := do
  let o := operand other m
  assert (m.sizeRow == o.sizeRow && m.colSize == o.colSize)
  loop o.sizeRow (mergeRow isAdd other) m

/-- Body of the innermost loop of `operator*=`, `/repo/src/core/matrix_sparse.cpp` 362-366. -/
def mulStep [Zero α] [Add α] [Mul α] (copy : Sparse α) (other : Option (Sparse α)) (it : Iter) (b k : Nat)
    (m : Sparse α) : Out (Sparse α) := do
  let o := operand other m
  let j ← o.colAt (0, b + k)
  let x ← copy.valAt it
  let y ← o.valAt (0, b + k)
  let has ← m.contains it.1 j
  if has then m.addAt it.1 j (x * y)
  else
    let (m, _, _) ← m.insert it.1 j (x * y)
    pure m

/-- Body of the loop over the elements of a row, `/repo/src/core/matrix_sparse.cpp` 361-367.  The bounds of the innermost
loop are read once; they could only change under the loop if the operand is the matrix itself, and then the loop is not
entered. -/
def mulElem [Zero α] [Add α] [Mul α] (copy : Sparse α) (other : Option (Sparse α)) (i b k : Nat) (m : Sparse α) :
    Out (Sparse α) := do
  let c ← copy.colAt (i, b + k)
  let s ← (operand other m).rowBegin c
  let e ← (operand other m).rowEnd c
  loop (e.2 - s.2) (mulStep copy other (i, b + k) s.2) m

/-- Body of the loop over the rows, `/repo/src/core/matrix_sparse.cpp` 360-368. -/
def mulRow [Zero α] [Add α] [Mul α] (copy : Sparse α) (other : Option (Sparse α)) (i : Nat) (m : Sparse α) :
    Out (Sparse α) := do
  let s ← copy.rowBegin i
  let e ← copy.rowEnd i
  loop (e.2 - s.2) (mulElem copy other i s.2) m

/-- `operator*=(matrix)`, `/repo/src/core/matrix_sparse.cpp` 351-372.  `reserve` and `shrink_to_fit` only change the
capacity.  After the swap `*this` holds the resized empty matrix, which is also what `other` then refers to if it is the
same object. -/
def mul [Zero α] [Add α] [Mul α] (m : Sparse α) (other : Option (Sparse α)) : Out (Sparse α) := do
  let o := operand other m
  assert (m.colSize == o.sizeRow)
  let fresh ← (new : Sparse α).resize m.sizeRow o.colSize
  loop m.sizeRow (mulRow m other) fresh

/-- `operator+`, `/repo/include/core/matrix_sparse.hpp` 1124-1131. -/
def add [Zero α] [Add α] [Neg α] (a b : Sparse α) : Out (Sparse α) := do
  assert (a.sizeRow == b.sizeRow && a.colSize == b.colSize)
  arith true a (some b)

/-- `operator-`, `/repo/include/core/matrix_sparse.hpp` 1139-1142. -/
def sub [Zero α] [Add α] [Neg α] (a b : Sparse α) : Out (Sparse α) := arith false a (some b)

/-- `operator*` of two matrices, `/repo/include/core/matrix_sparse.hpp` 1150-1153. -/
def product [Zero α] [Add α] [Mul α] (a b : Sparse α) : Out (Sparse α) := mul a (some b)

/-- The lambda of the matrix vector product, `/repo/include/core/matrix_sparse.hpp` 1112-1114. -/
def rowDot [Zero α] [Add α] [Mul α] (m : Sparse α) (x : List α) (i : Nat) : Out α := do
  let s ← m.rowBegin i
  let e ← m.rowEnd i
  loop (e.2 - s.2) (fun k value => do
    let a ← m.valAt (i, s.2 + k)
    let c ← m.colAt (i, s.2 + k)
    let b ← rd x c
    pure (value + a * b)) 0

/-- `operator*` of a matrix and a vector, `/repo/include/core/matrix_sparse.hpp` 1104-1116.  `static` says whether the
vector has its size as a template argument. -/
def mulVec [Zero α] [Add α] [Mul α] (static : Bool) (m : Sparse α) (x : List α) : Out (List α) := do
  assert (m.colSize == x.length)
  assert (!static || x.length == 0 || m.sizeRow == x.length)
  mapOut (m.rowDot x) (List.range m.sizeRow)

end Sparse
end Disa
