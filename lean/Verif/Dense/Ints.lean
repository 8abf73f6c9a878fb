import Verif.Dense.GeometryFloat
import Verif.Loops
import Verif.Spec.Dense

/-!
# Dense vectors and matrices of integers

`_type` of `/repo/include/core/vector_dense.hpp` 56 and `/repo/include/core/matrix_dense.hpp` 59 can be an integer type ("e.g. double,
float, int").  The operators are those of `Verif.Dense.Model` with the arithmetic of the type.  Types that are narrower than `int` are left
out: their operations are carried out in `int`.
-/

namespace Disa.Dense

/-- An element of the integer type `t`, or the result of an operation that is undefined.  All further results that this is used for are
undefined as well. -/
inductive Elem (t : IntTy) where
  | of (x : Int)
  | undef
  deriving DecidableEq

namespace Elem
variable {t : IntTy}

/-- An operation of the type: overflow of signed types is undefined, unsigned types are reduced. -/
def op (f : Int → Int → Int) (a b : Elem t) : Elem t :=
  match a, b with
  | of x, of y =>
    match t.arith (f x y) with
    | .ok z => of z
    | _ => undef
  | _, _ => undef

instance : Zero (Elem t) := ⟨of 0⟩
instance : Add (Elem t) := ⟨op (· + ·)⟩
instance : Sub (Elem t) := ⟨op (· - ·)⟩
instance : Mul (Elem t) := ⟨op (· * ·)⟩

/-- Division drops the fraction; division by zero is undefined. -/
instance : Div (Elem t) := ⟨fun a b => if b = of 0 then undef else op Int.tdiv a b⟩

/-- The value of an element. -/
def get (a : Elem t) : Out Int :=
  match a with
  | of x => .ok x
  | undef => .ub

/-- The vector of an operation, which is undefined if it has used an undefined result. -/
def run (o : Out (List (Elem t))) : Out (List Int) := do
  let v ← o
  mapOut get v

/-- The matrix of an operation. -/
def runMat (o : Out (List (List (Elem t)))) : Out (List (List Int)) := do
  let m ← o
  mapOut (mapOut get) m

end Elem

end Disa.Dense

namespace Disa.Spec

/-- What arithmetic of the type makes of the integers `x i`: these integers, if they are values of the type.  Otherwise it is undefined
for signed types, and reduced for unsigned ones. -/
def inArithmetic (t : IntTy) {n : Nat} (x : Fin n → Int) : Out (List Int) :=
  if ∀ i, InType t (x i) then .ok (vec x) else if t.signed then .ub else .ok (vec fun i => t.cast (x i))

/-- The same for matrices. -/
def inArithmeticMat (t : IntTy) {r c : Nat} (x : Fin r → Fin c → Int) : Out (List (List Int)) :=
  if ∀ i j, InType t (x i j) then .ok (mat x) else if t.signed then .ub else .ok (mat fun i j => t.cast (x i j))

end Disa.Spec
