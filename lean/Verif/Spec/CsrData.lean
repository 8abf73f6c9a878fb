import Verif.Sparse.CsrData
import Verif.Spec.Sparse

/-!
# Specification vocabulary for `CSR_Data`
-/

namespace Disa.Spec

open Disa

variable {α : Type}

/-- What a caller sees at `(i, j)`: if `lower_bound` stays in the row and meets the column, the value there. -/
def csrLookup (m : CsrData α) (i j : Nat) : Out (Option α) := do
  let (ir, ic, iv) ← CsrData.lowerBound m i j
  if ir == i then
    let c ← rd m.cols ic
    if c == j then
      let v ← rd m.vals iv
      pure (some v)
    else pure none
  else pure none

/-- Calls that change the data. -/
inductive CsrOp (α : Type) where
  | insert (i j : Nat) (v : α)
  | insertOrAssign (i j : Nat) (v : α)
  | resize (r c : Nat)

/-- A map with a number of rows and columns. -/
structure SizedMap (α : Type) where
  rows : Nat
  columns : Nat
  map : Map α

/-- The effect that a call should have, and the flag it should return. -/
def sizedStep (s : SizedMap α) : CsrOp α → SizedMap α × Option Bool
  | .insert i j v => (⟨max s.rows (i + 1), max s.columns (j + 1),
      if (s.map i j).isNone then s.map.put i j (some v) else s.map⟩, some (s.map i j).isNone)
  | .insertOrAssign i j v =>
    (⟨max s.rows (i + 1), max s.columns (j + 1), s.map.put i j (some v)⟩, some (s.map i j).isNone)
  | .resize r c => (⟨r, c, fun i j => if i < r ∧ j < c then s.map i j else none⟩, none)

/-- The call, with the flag returned. -/
def csrStep [Zero α] (m : CsrData α) : CsrOp α → Out (CsrData α × Option Bool)
  | .insert i j v => do
    let (m, _, b) ← CsrData.insert m i j v
    pure (m, some b)
  | .insertOrAssign i j v => do
    let (m, _, b) ← CsrData.insertOrAssign m i j v
    pure (m, some b)
  | .resize r c => do
    let m ← CsrData.resize m r c
    pure (m, none)

/-- A history on a map, with all flags. -/
def sizedRun : SizedMap α → List (CsrOp α) → SizedMap α × List (Option Bool)
  | s, [] => (s, [])
  | s, op :: ops => ((sizedRun (sizedStep s op).1 ops).1, (sizedStep s op).2 :: (sizedRun (sizedStep s op).1 ops).2)

/-- A history on the data, with all flags. -/
def csrRun [Zero α] : CsrData α → List (CsrOp α) → Out (CsrData α × List (Option Bool))
  | m, [] => .ok (m, [])
  | m, op :: ops => do
    let (m, b) ← csrStep m op
    let (m, bs) ← csrRun m ops
    pure (m, b :: bs)

/-- Indices are below the largest `std::size_t`, and `resize` asks for a column. -/
def CsrOp.Fits : CsrOp α → Prop
  | .insert i j _ => i + 1 < sizeMax ∧ j < sizeMax
  | .insertOrAssign i j _ => i + 1 < sizeMax ∧ j < sizeMax
  | .resize r c => r < sizeMax ∧ 0 < c

/-- What a caller sees who visits a row from `begin` to `end`: columns and values. -/
def visit (m : CsrData α) (v : RowView) (fuel : Nat) : Out (List (Nat × α)) := do
  let st ← whileFuel (fun st => !(ElemIter.eq st.1 v.end')) (fun st => do
    let c ← st.1.iColumn m
    let x ← st.1.value m
    pure (st.1.next, st.2 ++ [(c, x)])) fuel (v.begin', [])
  pure st.2

/-- The same from the last element to the first: the iterator is moved before it is dereferenced. -/
def visitBack (m : CsrData α) (v : RowView) (fuel : Nat) : Out (List (Nat × α)) := do
  let st ← whileFuel (fun st => !(ElemIter.eq st.1 v.begin')) (fun st => do
    let it := st.1.prev
    let c ← it.iColumn m
    let x ← it.value m
    pure (it, st.2 ++ [(c, x)])) fuel (v.end', [])
  pure st.2

/-- A caller who assigns to all values of a row, each from its column and old value. -/
def assignAll (f : Nat → α → α) (m : CsrData α) (v : RowView) (fuel : Nat) : Out (CsrData α) := do
  let st ← whileFuel (fun st => !(ElemIter.eq st.1 v.end')) (fun st => do
    let c ← st.1.iColumn st.2
    let x ← st.1.value st.2
    let m ← st.1.setValue st.2 (f c x)
    pure (st.1.next, m)) fuel (v.begin', m)
  pure st.2

/-- All elements, row by row: rows, columns and values. -/
def csrElements (m : CsrData α) : Out (List (Nat × Nat × α)) :=
  loop (CsrData.sizeRow m) (fun i l => do
    let v ← RowView.make m i
    let r ← visit m v (CsrData.sizeNonZero m)
    pure (l ++ r.map fun e => (i, e.1, e.2))) []

/-- The order of the storage: by rows, then by columns. -/
def Before (a b : Nat × Nat) : Prop := a.1 < b.1 ∨ (a.1 = b.1 ∧ a.2 < b.2)

end Disa.Spec
