import Verif.Dense.GeometryFloat

/-!
# Model of the norms of order three and more, with floating point numbers

The cube root `cbrt` and the power `pow` of the standard library are parameters.
-/

namespace Disa.Dense.Rounded

open Num

variable {rnd : ℚ → Fl}

/-- `lp_norm<3>`, `/repo/include/core/vector_operators.hpp` 57-61. -/
def norm3 (cbrt : Num rnd → Num rnd) (v : List (Num rnd)) : Num rnd :=
  cbrt (v.foldl (fun a b => a + size b * size b * size b) 0)

/-- `lp_norm<p>` for `p` from 4, `/repo/include/core/vector_operators.hpp` 62-67.  The exponent is an `unsigned int`, which is converted
to a scalar in the call of `std::pow` and in the division. -/
def normPow (pow : Num rnd → Num rnd → Num rnd) (p : Nat) (v : List (Num rnd)) : Num rnd :=
  pow (v.foldl (fun a b => a + pow (if p % 2 == 0 then b else size b) (ofNat p)) 0) (fin 1 / ofNat p)

end Disa.Dense.Rounded
