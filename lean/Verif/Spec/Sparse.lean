import Verif.Sparse.Model

/-!
# Specification vocabulary for sparse matrices

What a caller sees of a matrix, the matrices that programs can obtain, and finite maps.  Nothing here refers to the storage
of the matrix.
-/

namespace Disa.Spec

open Disa

variable {α : Type}

/-- What a caller sees at `(i, j)`: `contains`, and if it says so the value behind `find`. -/
def lookup (m : Sparse α) (i j : Nat) : Out (Option α) := do
  let b ← m.contains i j
  if b then
    let it ← m.find i j
    let v ← m.valAt it
    pure (some v)
  else pure none

/-- The columns and values that iterating over row `i` yields. -/
def elements (m : Sparse α) (i : Nat) : Out (List (Nat × α)) := do
  let s ← m.rowBegin i
  let e ← m.rowEnd i
  mapOut (fun k => do
    let c ← m.colAt (i, s.2 + k)
    let v ← m.valAt (i, s.2 + k)
    pure (c, v)) (List.range (e.2 - s.2))

/-- Erase the element at `(i, j)`: `erase(find(i, j))`.  The read past the end in its assertion is ignored, see C65. -/
def eraseAt (m : Sparse α) (i j : Nat) : Out (Sparse α) := do
  let it ← m.find i j
  let (m, _) ← m.erase false it
  pure m

/-- Matrices that programs can obtain from the constructors by any history of calls.  Row and column indices are below
the largest `std::size_t`.  With `z = false` no call of `resize` asks for zero columns while there are elements. -/
inductive Built [Zero α] [Add α] [Neg α] [Mul α] [Div α] (z : Bool) : Sparse α → Prop
  | new : Built z Sparse.new
  | sized {r c : Nat} : r < sizeMax → Built z (Sparse.sized r c)
  | ofLists {nz ix : List Nat} {vs : List α} {c : Nat} {m : Sparse α} : nz.length ≤ sizeMax → c ≤ sizeMax →
      Sparse.ofLists nz ix vs c = .ok m → Built z m
  | insert {m m' : Sparse α} {i j : Nat} {v : α} {it : Iter} {b : Bool} : Built z m → i + 1 < sizeMax → j < sizeMax →
      m.insert i j v = .ok (m', it, b) → Built z m'
  | insertOrAssign {m m' : Sparse α} {i j : Nat} {v : α} {it : Iter} {b : Bool} : Built z m → i + 1 < sizeMax →
      j < sizeMax → m.insertOrAssign i j v = .ok (m', it, b) → Built z m'
  | erase {m m' : Sparse α} {i j : Nat} : Built z m → eraseAt m i j = .ok m' → Built z m'
  | resize {m m' : Sparse α} {r c : Nat} : Built z m → r < sizeMax → (z = true ∨ 0 < c ∨ m.sizeNonZero = 0) →
      m.resize r c = .ok m' → Built z m'
  | clear {m : Sparse α} : Built z m → Built z m.clear
  | ref {m m' : Sparse α} {i j : Nat} {it : Iter} : Built z m → j < sizeMax → m.ref i j = .ok (m', it) → Built z m'
  | write {m m' : Sparse α} {it : Iter} {v : α} : Built z m → m.setAt it v = .ok m' → Built z m'
  | scale {m : Sparse α} {a : α} : Built z m → Built z (m.scale a)
  | unscale {m : Sparse α} {a : α} : Built z m → Built z (m.unscale a)
  | arith {m o m' : Sparse α} {isAdd : Bool} : Built z m → Built z o → m.arith isAdd (some o) = .ok m' → Built z m'
  | arithSelf {m m' : Sparse α} {isAdd : Bool} : Built z m → m.arith isAdd none = .ok m' → Built z m'
  | mul {m o m' : Sparse α} : Built z m → Built z o → m.mul (some o) = .ok m' → Built z m'
  | mulSelf {m m' : Sparse α} : Built z m → m.mul none = .ok m' → Built z m'

/-- The value of the represented matrix at `(i, j)`: absent elements are zero. -/
def val [Zero α] (m : Sparse α) (i j : Nat) : Out α := do
  let o ← lookup m i j
  pure (o.getD 0)

/-- `m` represents the `r` by `c` matrix with the elements `f`. -/
def Shows [Zero α] (m : Sparse α) (r c : Nat) (f : Nat → Nat → α) : Prop :=
  m.sizeRow = r ∧ m.colSize = c ∧ ∀ i j, i < r → j < c → val m i j = .ok (f i j)

/-! ### Finite maps -/

/-- Calls that change single elements. -/
inductive MapOp (α : Type) where
  | insert (i j : Nat) (v : α)
  | insertOrAssign (i j : Nat) (v : α)
  | erase (i j : Nat)

/-- Finite maps from index pairs, as functions. -/
abbrev Map (α : Type) := Nat → Nat → Option α

/-- The map with the value at `(i, j)` replaced. -/
def Map.put (f : Map α) (i j : Nat) (v : Option α) : Map α := fun a b => if a = i ∧ b = j then v else f a b

/-- The effect that a call should have on the map, and the flag it should return. -/
def mapStep (f : Map α) : MapOp α → Map α × Bool
  | .insert i j v => match f i j with
    | some _ => (f, false)
    | none => (f.put i j (some v), true)
  | .insertOrAssign i j v => (f.put i j (some v), (f i j).isNone)
  | .erase i j => (f.put i j none, (f i j).isSome)

/-- The call on a matrix, with the flag returned.  The flag of an erasure says whether there was an element; without one
`erase` is not called. -/
def matStep [Zero α] (m : Sparse α) : MapOp α → Out (Sparse α × Bool)
  | .insert i j v => do
    let (m, _, b) ← m.insert i j v
    pure (m, b)
  | .insertOrAssign i j v => do
    let (m, _, b) ← m.insertOrAssign i j v
    pure (m, b)
  | .erase i j => do
    let b ← m.contains i j
    if b then
      let m ← eraseAt m i j
      pure (m, true)
    else pure (m, false)

/-- A history on a map, with all flags. -/
def mapRun : Map α → List (MapOp α) → Map α × List Bool
  | f, [] => (f, [])
  | f, op :: ops => ((mapRun (mapStep f op).1 ops).1, (mapStep f op).2 :: (mapRun (mapStep f op).1 ops).2)

/-- A history on a matrix, with all flags. -/
def matRun [Zero α] : Sparse α → List (MapOp α) → Out (Sparse α × List Bool)
  | m, [] => .ok (m, [])
  | m, op :: ops => do
    let (m, b) ← matStep m op
    let (m, bs) ← matRun m ops
    pure (m, b :: bs)

/-- The indices of a call are inside of a matrix with `r` rows and `c` columns. -/
def MapOp.InRange (r c : Nat) : MapOp α → Prop
  | .insert i j _ => i < r ∧ j < c
  | .insertOrAssign i j _ => i < r ∧ j < c
  | .erase i j => i < r ∧ j < c

end Disa.Spec
