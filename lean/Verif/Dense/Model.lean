import Verif.Basic
import Mathlib.Algebra.Group.Defs

/-!
# Model of dense vectors and matrices

A vector is the list of its elements.  The template argument `_size` is a number `s` as in the code: `0` for a vector sized
at run time, otherwise the length of the list.  A matrix is the list of its rows.
-/

namespace Disa

/-- Template sizes of a matrix: `none` for the class sized at run time, otherwise `_row` and `_col`, both not zero. -/
abbrev Dims := Option (Nat × Nat)

namespace Dense

variable {α : Type}

/-! ### Vectors -/

/-- `Static_Promoter` on vectors, `/repo/include/core/vector_dense.hpp` 263-268: the first type unless it is dynamic. -/
def promote (s t : Nat) : Nat := if s != 0 then s else t

/-- Constructors from a list, `/repo/include/core/vector_dense.hpp` 75-80 and 182-186. -/
def vecList (s : Nat) (l : List α) : Out (List α) := do
  assert (s == 0 || l.length == s)
  pure l

/-- Constructors from a function, `/repo/include/core/vector_dense.hpp` 88-91 and 194-196. -/
def vecOf (s : Nat) (f : Nat → Out α) (n : Nat) : Out (List α) := do
  assert (s == 0 || n == s)
  mapOut f (List.range n)

/-- A scalar passed by reference: a value that is not part of the object, or a position in it. -/
inductive Ref (ι α : Type) where
  | val (x : α)
  | own (i : ι)
  deriving DecidableEq, Repr

/-- Body of the loops of `operator*=` and `operator/=`, with `op` the operation. -/
def scaleBody (op : α → α → α) (s : Ref Nat α) (i : Nat) (v : List α) : Out (List α) := do
  let x ← (match s with
    | .val x => pure x
    | .own k => rd v k)
  let a ← rd v i
  wr v i (op a x)

/-- `operator*=(scalar)`, `/repo/include/core/vector_dense.hpp` 102-105 and 207-210. -/
def mulScalar [Mul α] (v : List α) (s : Ref Nat α) : Out (List α) := loop v.length (scaleBody (· * ·) s) v

/-- `operator/=(scalar)`, `/repo/include/core/vector_dense.hpp` 114-117 and 219-222. -/
def divScalar [Div α] (v : List α) (s : Ref Nat α) : Out (List α) := loop v.length (scaleBody (· / ·) s) v

/-- Body of the loops of `operator+=` and `operator-=`.  The other vector is `none` if it is the same object. -/
def accBody (op : α → α → α) (other : Option (List α)) (i : Nat) (v : List α) : Out (List α) := do
  let a ← rd v i
  let b ← rd (other.getD v) i
  wr v i (op a b)

/-- `operator+=`, `/repo/include/core/vector_dense.hpp` 125-131 and 230-236. -/
def addAssign [Add α] (v : List α) (other : Option (List α)) : Out (List α) := do
  assert (v.length == (other.getD v).length)
  loop v.length (accBody (· + ·) other) v

/-- `operator-=`, `/repo/include/core/vector_dense.hpp` 139-145 and 244-250. -/
def subAssign [Sub α] (v : List α) (other : Option (List α)) : Out (List α) := do
  assert (v.length == (other.getD v).length)
  loop v.length (accBody (· - ·) other) v

/-- `operator*(scalar, vector)`, `/repo/include/core/vector_dense.hpp` 293-296.  The vector is a copy, so the scalar is not
part of it. -/
def smul [Mul α] (x : α) (v : List α) : Out (List α) := mulScalar v (.val x)

/-- `operator/(vector, scalar)`, `/repo/include/core/vector_dense.hpp` 305-308. -/
def sdiv [Div α] (v : List α) (x : α) : Out (List α) := divScalar v (.val x)

/-- `operator+`, `/repo/include/core/vector_dense.hpp` 318-325, for vectors of template sizes `s` and `t`. -/
def add [Add α] (s t : Nat) (v w : List α) : Out (List α) := do
  assert (v.length == w.length)
  vecOf (promote s t) (fun i => do
    let a ← rd v i
    let b ← rd w i
    pure (a + b)) v.length

/-- `operator-`, `/repo/include/core/vector_dense.hpp` 335-342. -/
def sub [Sub α] (s t : Nat) (v w : List α) : Out (List α) := do
  assert (v.length == w.length)
  vecOf (promote s t) (fun i => do
    let a ← rd v i
    let b ← rd w i
    pure (a - b)) v.length

/-- `std::inner_product(v.begin(), v.end(), w.begin(), 0.0)`: the range of `w` must be as long as `v`. -/
def innerProduct [Zero α] [Add α] [Mul α] (v w : List α) : Out α :=
  if v.length ≤ w.length then .ok ((v.zip w).foldl (fun s p => s + p.1 * p.2) 0) else .ub

/-- `dot_product`, `/repo/include/core/vector_operators.hpp` 91-96. -/
def dot [Zero α] [Add α] [Mul α] (v w : List α) : Out α := do
  assert (v.length == w.length)
  innerProduct v w

/-- `cross_product`, `/repo/include/core/vector_operators.hpp` 139-151.  The result of type `promote s t` is made from a list
of three elements. -/
def cross [Zero α] [Sub α] [Mul α] (s t : Nat) (v w : List α) : Out (List α) := do
  assert (v.length == w.length)
  assert (v.length == 2 || v.length == 3)
  if v.length == 2 then
    let v0 ← rd v 0
    let v1 ← rd v 1
    let w0 ← rd w 0
    let w1 ← rd w 1
    vecList (promote s t) [0, 0, v0 * w1 - v1 * w0]
  else
    let v0 ← rd v 0
    let v1 ← rd v 1
    let v2 ← rd v 2
    let w0 ← rd w 0
    let w1 ← rd w 1
    let w2 ← rd w 2
    vecList (promote s t) [v1 * w2 - v2 * w1, v2 * w0 - v0 * w2, v0 * w1 - v1 * w0]

/-! ### Matrices -/

/-- Read an element of a matrix. -/
def rd2 (m : List (List α)) (i j : Nat) : Out α := do
  let r ← rd m i
  rd r j

/-- Write an element of a matrix. -/
def wr2 (m : List (List α)) (i j : Nat) (x : α) : Out (List (List α)) := do
  let r ← rd m i
  let r ← wr r j x
  wr m i r

/-- `size_column`, `/repo/include/core/matrix_dense.hpp` 114 and 294.  A matrix of fixed size has a first row, of size
`_col`. -/
def sizeColumn (m : List (List α)) : Nat :=
  match m with
  | [] => 0
  | r :: _ => r.length

/-- A matrix of zeros, as made by the default constructor of the fixed class or by `resize` on an empty matrix. -/
def zeros [Zero α] (r c : Nat) : List (List α) := List.replicate r (List.replicate c 0)

/-- Constructor from a list of rows, `/repo/include/core/matrix_dense.hpp` 81-84 and 244-251.  The fixed class does not check
the number of rows; the others are default constructed, that is zero. -/
def matList [Zero α] (d : Dims) (l : List (List α)) : Out (List (List α)) := do
  match d with
  | some (r, c) => if l.length ≤ r then pure (l ++ zeros (r - l.length) c) else .ub
  | none => mapOut (fun v => do
      assert (v.length == sizeColumn l)
      pure v) l

/-- Constructor from a function, `/repo/include/core/matrix_dense.hpp` 92-98 and 259-266. -/
def matOf (d : Dims) (f : Nat → Nat → Out α) (r c : Nat) : Out (List (List α)) := do
  assert (match d with
    | some (r', c') => r == r' && c == c'
    | none => true)
  mapOut (fun i => mapOut (f i) (List.range c)) (List.range r)

/-- `resize(rows, columns)` of the class sized at run time, `/repo/include/core/matrix_dense.hpp` 279-282. -/
def matResize [Zero α] (m : List (List α)) (r c : Nat) : List (List α) :=
  (resizeList m r []).map fun v => resizeList v c 0

/-- Loop of `operator*=` and `operator/=` for a row, each by the operator on vectors. -/
def scaleRow (op : α → α → α) (s : Ref (Nat × Nat) α) (i : Nat) (m : List (List α)) : Out (List (List α)) := do
  let r ← rd m i
  loop r.length (fun j m => do
    let x ← (match s with
      | .val x => pure x
      | .own p => rd2 m p.1 p.2)
    let a ← rd2 m i j
    wr2 m i j (op a x)) m

/-- `operator*=(scalar)`, `/repo/include/core/matrix_dense.hpp` 133-136 and 313-316. -/
def matMulScalar [Mul α] (m : List (List α)) (s : Ref (Nat × Nat) α) : Out (List (List α)) :=
  loop m.length (scaleRow (· * ·) s) m

/-- `operator/=(scalar)`, `/repo/include/core/matrix_dense.hpp` 145-148 and 325-328. -/
def matDivScalar [Div α] (m : List (List α)) (s : Ref (Nat × Nat) α) : Out (List (List α)) :=
  loop m.length (scaleRow (· / ·) s) m

/-- Body of `operator+=` and `operator-=`: the operator `f` on vectors applied to row `i`. -/
def accRow (f : List α → Option (List α) → Out (List α)) (other : Option (List (List α))) (i : Nat) (m : List (List α)) :
    Out (List (List α)) := do
  let r ← rd m i
  let o ← (match other with
    | some o => do
      let r ← rd o i
      pure (some r)
    | none => pure none)
  let r ← f r o
  wr m i r

/-- `size()` of both matrices is the same. -/
def sameSize (a b : List (List α)) : Bool := a.length == b.length && sizeColumn a == sizeColumn b

/-- `operator+=`, `/repo/include/core/matrix_dense.hpp` 157-164 and 337-344. -/
def matAddAssign [Add α] (m : List (List α)) (other : Option (List (List α))) : Out (List (List α)) := do
  assert (sameSize m (other.getD m))
  loop m.length (accRow addAssign other) m

/-- `operator-=`, `/repo/include/core/matrix_dense.hpp` 173-180 and 353-360. -/
def matSubAssign [Sub α] (m : List (List α)) (other : Option (List (List α))) : Out (List (List α)) := do
  assert (sameSize m (other.getD m))
  loop m.length (accRow subAssign other) m

/-- Innermost statement of `operator*=(matrix)`, on `*this` being `t`. -/
def mulElement [Zero α] [Add α] [Mul α] (copy : List (List α)) (other : Option (List (List α))) (i k j : Nat)
    (t : List (List α)) : Out (List (List α)) := do
  let t ← (if k == 0 then wr2 t i j 0 else pure t)
  let a ← rd2 copy i k
  let b ← rd2 (other.getD t) k j
  let x ← rd2 t i j
  wr2 t i j (x + a * b)

/-- Loops of `operator*=(matrix)` for row `i`. -/
def mulRow [Zero α] [Add α] [Mul α] (copy : List (List α)) (other : Option (List (List α))) (i : Nat) (t : List (List α)) :
    Out (List (List α)) :=
  loop (other.getD t).length (fun k t => loop (sizeColumn t) (mulElement copy other i k) t) t

/-- `operator*=(matrix)`, `/repo/include/core/matrix_dense.hpp` 191-208 (`fixed`) and 371-389.  After the swap `copy` is the
old matrix, and `*this` is zero, which is also what `matrix` refers to if it is the same object. -/
def mulAssign [Zero α] [Add α] [Mul α] (fixed : Bool) (m : List (List α)) (other : Option (List (List α))) :
    Out (List (List α)) := do
  let o := other.getD m
  if fixed then assert (sameSize m o) else assert (sizeColumn m == o.length)
  let t := zeros m.length (if fixed then sizeColumn m else sizeColumn o)
  loop t.length (mulRow m other) t

/-- `operator*(scalar, matrix)`, `/repo/include/core/matrix_dense.hpp` 427-430.  The matrix is a copy. -/
def matSmul [Mul α] (x : α) (m : List (List α)) : Out (List (List α)) := matMulScalar m (.val x)

/-- `operator/(matrix, scalar)`, `/repo/include/core/matrix_dense.hpp` 441-444. -/
def matSdiv [Div α] (m : List (List α)) (x : α) : Out (List (List α)) := matDivScalar m (.val x)

/-- `operator*(matrix, vector)`, `/repo/include/core/matrix_dense.hpp` 456-465, for a matrix with template rows `row` and a
vector of template size `s`.  The result has as many elements as the matrix has columns. -/
def matVec [Zero α] [Add α] [Mul α] (row s : Nat) (m : List (List α)) (v : List α) : Out (List α) := do
  assert (sizeColumn m == v.length)
  vecOf (promote row s) (fun i => do
    let r ← rd m i
    dot r v) (sizeColumn m)

/-- `Static_Promoter` on matrices, `/repo/include/core/vector_dense.hpp` 263-268. -/
def matPromote (d e : Dims) : Dims :=
  match d with
  | some x => some x
  | none => e

/-- `operator+`, `/repo/include/core/matrix_dense.hpp` 478-490. -/
def matAdd [Add α] (d e : Dims) (a b : List (List α)) : Out (List (List α)) := do
  assert (sameSize a b)
  matOf (matPromote d e) (fun i j => do
    let x ← rd2 a i j
    let y ← rd2 b i j
    pure (x + y)) a.length (sizeColumn a)

/-- `operator-`, `/repo/include/core/matrix_dense.hpp` 503-515. -/
def matSub [Sub α] (d e : Dims) (a b : List (List α)) : Out (List (List α)) := do
  assert (sameSize a b)
  matOf (matPromote d e) (fun i j => do
    let x ← rd2 a i j
    let y ← rd2 b i j
    pure (x - y)) a.length (sizeColumn a)

/-- `Matrix_Static_Demoter`, `/repo/include/core/matrix_dense.hpp` 404-412: rows of the first and columns of the second
matrix if both are of fixed size. -/
def demote (d e : Dims) : Dims :=
  match d, e with
  | some (r, _), some (_, c) => some (r, c)
  | _, _ => none

/-- `operator*(matrix, matrix)`, `/repo/include/core/matrix_dense.hpp` 528-541.  The first matrix is copied into an object
of the type of the result. -/
def matMul [Zero α] [Add α] [Mul α] (d e : Dims) (a b : List (List α)) : Out (List (List α)) := do
  assert (sizeColumn a == b.length)
  let t ← matOf (demote d e) (fun i j => rd2 a i j) a.length (sizeColumn a)
  mulAssign (demote d e).isSome t (some b)

end Dense

end Disa
