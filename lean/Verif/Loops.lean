import Verif.Sparse.IndexTypes

/-!
# The loop macros

`/repo/include/core/macros.hpp` 139-170.  The loops are modelled by the values that the index has when the body is executed, for
bodies that change neither the index nor the bounds.
-/

namespace Disa

/-- `--` -/
def IntTy.decr (t : IntTy) (x : Int) : Out Int := do
  let y ← t.promote.arith (x - 1)
  pure (t.cast y)

namespace Loops

/-- `FOR_INDEX`, `/repo/include/core/macros.hpp` 147-153, from the index on.  `t` is the type of `max_iter`. -/
def forIndex (t : IntTy) (maxIter : Int) : Nat → Int → Out (List Int)
  | 0, _ => .diverge
  | fuel + 1, i => do
    if IntTy.lt t t i maxIter then
      let j ← t.incr i
      let r ← forIndex t maxIter fuel j
      pure (i :: r)
    else pure []

/-- `FOR_INDEX_RANGE`, `/repo/include/core/macros.hpp` 155-165, from the index on.  `s` is the type of `start`, which the index
has as well, and `e` that of `end`. -/
def forRange (s e : IntTy) (start stop : Int) : Nat → Int → Out (List Int)
  | 0, _ => .diverge
  | fuel + 1, i => do
    if !IntTy.eq s e i stop then
      let j ← (if IntTy.lt s e start stop then s.incr i else s.decr i)
      let r ← forRange s e start stop fuel j
      pure (i :: r)
    else pure []

end Loops

namespace Spec

/-- The values of the type. -/
def InType (t : IntTy) (x : Int) : Prop := t.min ≤ x ∧ x ≤ t.max

instance (t : IntTy) (x : Int) : Decidable (InType t x) := inferInstanceAs (Decidable (_ ∧ _))

/-- The numbers from one to another, without the latter, upwards or downwards. -/
def between (a b : Int) : List Int :=
  if a < b then (List.range (b - a).toNat).map fun k : Nat => a + k else (List.range (a - b).toNat).map fun k : Nat => a - k

end Spec
end Disa
