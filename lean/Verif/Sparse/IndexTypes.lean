import Verif.Spec.CsrData

/-!
# `CSR_Data` with any index types

`/repo/include/core/matrix_sparse_data.hpp` for every type of the stored indices, `_index_type`, and every type of the index
arguments, `_arg_index_type`.  Values of integer types are integers, and each operation converts them as C++ does.
-/

namespace Disa

/-- An integer type: its width, and whether it has negative values. -/
structure IntTy where
  bits : Nat
  signed : Bool
  deriving DecidableEq

namespace IntTy

/-- `int` -/
def int : IntTy := ⟨32, true⟩

/-- `std::size_t` -/
def size : IntTy := ⟨64, false⟩

/-- The largest value. -/
def max (t : IntTy) : Int := if t.signed then 2 ^ (t.bits - 1) - 1 else 2 ^ t.bits - 1

/-- The smallest value. -/
def min (t : IntTy) : Int := if t.signed then - 2 ^ (t.bits - 1) else 0

/-- Conversion: the value of the type that is congruent. -/
def cast (t : IntTy) (x : Int) : Int := if x % 2 ^ t.bits ≤ t.max then x % 2 ^ t.bits else x % 2 ^ t.bits - 2 ^ t.bits

/-- `std::make_signed_t` -/
def toSigned (t : IntTy) : IntTy := ⟨t.bits, true⟩

/-- Integral promotion. -/
def promote (t : IntTy) : IntTy := if t.bits < 32 then int else t

/-- The type in which two operands meet: the wider one, and the unsigned one if they are equally wide.  A wider signed type
holds all values of the narrower unsigned one. -/
def common (s t : IntTy) : IntTy :=
  let s := s.promote
  let t := t.promote
  if s.bits < t.bits then t
  else if t.bits < s.bits then s
  else if s.signed then t else s

/-- The comparison `x < y`. -/
def lt (s t : IntTy) (x y : Int) : Bool := (common s t).cast x < (common s t).cast y

/-- The comparison `x == y`. -/
def eq (s t : IntTy) (x y : Int) : Bool := (common s t).cast x == (common s t).cast y

/-- The result of an operation of this type: overflow of signed types is undefined. -/
def arith (t : IntTy) (x : Int) : Out Int :=
  if t.signed then if t.min ≤ x ∧ x ≤ t.max then .ok x else .ub else .ok (t.cast x)

/-- `++` -/
def incr (t : IntTy) (x : Int) : Out Int := do
  let y ← t.promote.arith (x + 1)
  pure (t.cast y)

end IntTy

/-- The members of `CSR_Data`, `/repo/include/core/matrix_sparse_data.hpp` 57-60. -/
structure TypedCsr (α : Type) where
  off : List Int
  cols : List Int
  vals : List α
  columns : Int
  deriving DecidableEq

namespace TypedCsr
variable {α : Type}

open IntTy

/-- A new `CSR_Data`. -/
def new : TypedCsr α := ⟨[], [], [], 0⟩

/-- Reading at an index, which is converted to `std::size_t`; negative ones are too large then. -/
def rdInt {β : Type} (v : List β) (i : Int) : Out β := if 0 ≤ i then rd v i.toNat else .ub

/-- `std::vector::resize`; a negative size is too large as a `std::size_t`. -/
def vecResize {β : Type} (v : List β) (n : Int) (fill : β) : Out (List β) :=
  if 0 ≤ n then .ok (resizeList v n.toNat fill) else .throw

/-- The range between two positions; those in front of the vector are invalid. -/
def sliceInt {β : Type} (v : List β) (b e : Int) : Out (List β) := if 0 ≤ b ∧ 0 ≤ e then slice v b.toNat e.toNat else .ub

/-- `std::lower_bound` or `std::upper_bound`: the number of leading elements for which the predicate holds, which has to fail
for all others. -/
def bound (p : Int → Bool) (l : List Int) : Out Nat :=
  if (l.drop (l.takeWhile p).length).all (!p ·) then .ok (l.takeWhile p).length else .ub

/-- `size_row`, `/repo/include/core/matrix_sparse_data.hpp` 110-112. -/
def sizeRow (T : IntTy) (m : TypedCsr α) : Int := if !m.off.isEmpty then T.cast (m.off.length - 1) else 0

/-- Body of the loop of `resize`, `/repo/include/core/matrix_sparse_data.hpp` 177-189, for the value `x` of `column - 1`.  The
state is the data and `offset_loss`. -/
def resizeBody (A T : IntTy) (x : Int) (row : Nat) (st : TypedCsr α × Int) : Out (TypedCsr α × Int) := do
  let m := st.1
  let e0 ← rd m.off (row + 1)
  let e1 ← T.promote.arith (e0 - st.2)
  let e := T.toSigned.cast e1
  let b0 ← rd m.off row
  let b := T.toSigned.cast b0
  let r ← sliceInt m.cols b e
  let k ← bound (fun c => !lt (common A int) T x c) r
  if b + k == e then
    let y ← T.promote.arith (e0 - st.2)
    let off ← wr m.off (row + 1) (T.cast y)
    pure ({ m with off := off }, st.2)
  else if e ≤ m.vals.length then
    let loss := T.cast (st.2 + (e - (b + k)))
    let y ← T.promote.arith (e0 - loss)
    let off ← wr m.off (row + 1) (T.cast y)
    pure ({ m with off := off, cols := cut m.cols (b + k).toNat e.toNat, vals := cut m.vals (b + k).toNat e.toNat }, loss)
  else .ub

/-- `resize`, `/repo/include/core/matrix_sparse_data.hpp` 154-192. -/
def resize [Zero α] (A T : IntTy) (m : TypedCsr α) (row column : Int) : Out (TypedCsr α) := do
  assert (0 ≤ row)
  assert (0 ≤ column)
  let m ← (if lt A T row (sizeRow T m) then do
    let o ← rdInt m.off row
    let cols ← vecResize m.cols o 0
    let vals ← vecResize m.vals o 0
    pure { m with cols := cols, vals := vals }
    else pure m)
  let n ← (common A int).arith (row + 1)
  let off ← vecResize m.off n (if m.off.isEmpty then 0 else m.off.getLastD 0)
  let m := { m with off := off }
  let m ← (if lt A T column m.columns then do
    let x ← (common A int).arith (column - 1)
    let (m, _) ← loop (sizeRow T m).toNat (resizeBody A T x) (m, 0)
    pure m
    else pure m)
  pure { m with columns := T.cast column }

/-- `lower_bound`, `/repo/include/core/matrix_sparse_data.hpp` 283-298 and 318-330. -/
def lowerBound (A T : IntTy) (m : TypedCsr α) (row column : Int) : Out CsrIter := do
  assert (0 ≤ row)
  assert (0 ≤ column)
  if lt A T row (sizeRow T m) then
    let b ← rdInt m.off row
    let n ← (common A int).arith (row + 1)
    let e ← rdInt m.off n
    let r ← sliceInt m.cols b e
    let k ← bound (fun c => lt T A c column) r
    if b + k ≤ m.vals.length then
      pure (if b + k != e then row.toNat else row.toNat + 1, (b + k).toNat, (b + k).toNat)
    else .ub
  else pure (m.off.length, m.cols.length, m.vals.length)

/-- `insert`, `/repo/include/core/matrix_sparse_data.hpp` 212-238.  It compiles for argument types that are at least as wide
as `int`: for others `row + 1` is an `int`, and the two arguments of `resize` have different types. -/
def insert [Zero α] (A T : IntTy) (m : TypedCsr α) (row column : Int) (value : α) : Out (TypedCsr α × CsrIter × Bool) := do
  assert (0 ≤ row)
  assert (0 ≤ column)
  let m ← (if !lt A T row (sizeRow T m) then do
    let n ← (common A int).arith (row + 1)
    resize A T m n (A.cast m.columns)
    else pure m)
  let m ← (if !lt A T column m.columns then do
    let n ← (common A int).arith (column + 1)
    resize A T m (A.cast (sizeRow T m)) n
    else pure m)
  let (ir, ic, iv) ← lowerBound A T m row column
  let found ← (if ir == row.toNat then do
    let c ← rd m.cols ic
    pure (IntTy.eq T A c column)
    else pure false)
  if found then pure (m, (ir, ic, iv), false)
  else if row.toNat < m.off.length then
    let tail ← mapOut T.incr (m.off.drop (row.toNat + 1))
    let off := m.off.take (row.toNat + 1) ++ tail
    pure ({ m with off := off, cols := insAt m.cols ic (T.cast column), vals := insAt m.vals iv value }, (row.toNat, ic, iv), true)
  else .ub

/-- `insert_or_assign`, `/repo/include/core/matrix_sparse_data.hpp` 257-263. -/
def insertOrAssign [Zero α] (A T : IntTy) (m : TypedCsr α) (row column : Int) (value : α) :
    Out (TypedCsr α × CsrIter × Bool) := do
  let (m, it, b) ← insert A T m row column value
  if !b then
    let vals ← wr m.vals it.2.2 value
    pure ({ m with vals := vals }, it, b)
  else pure (m, it, b)

end TypedCsr

namespace Spec

/-- Perform one call with arguments of the type `A`. -/
def typedStep {α : Type} [Zero α] (T : IntTy) (m : TypedCsr α) (A : IntTy) : CsrOp α → Out (TypedCsr α × Option Bool)
  | .insert i j v => do let (m, _, b) ← TypedCsr.insert A T m i j v; pure (m, some b)
  | .insertOrAssign i j v => do let (m, _, b) ← TypedCsr.insertOrAssign A T m i j v; pure (m, some b)
  | .resize r c => do let m ← TypedCsr.resize A T m r c; pure (m, none)

/-- Perform a history of calls, each with its type of arguments, and collect what they return. -/
def typedRun {α : Type} [Zero α] (T : IntTy) (m : TypedCsr α) : List (IntTy × CsrOp α) → Out (TypedCsr α × List (Option Bool))
  | [] => .ok (m, [])
  | op :: ops => do
    let (m, b) ← typedStep T m op.1 op.2
    let (m, bs) ← typedRun T m ops
    pure (m, b :: bs)

/-- The type holds the arguments of the call, the index of the row two further and the index of the column behind. -/
def Holds {α : Type} (t : IntTy) : CsrOp α → Prop
  | .insert i j _ => (i : Int) + 2 ≤ t.max ∧ (j : Int) + 1 ≤ t.max
  | .insertOrAssign i j _ => (i : Int) + 2 ≤ t.max ∧ (j : Int) + 1 ≤ t.max
  | .resize r c => (r : Int) + 1 ≤ t.max ∧ (c : Int) ≤ t.max

end Spec
end Disa
