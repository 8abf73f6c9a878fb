import Verif.Scalar.Root
import Verif.Scalar.Sign

/-!
# Doubles with signed zeros

`Num binary64` has one zero.  Here are doubles whose zeros have signs, with the operations of IEEE 754, to show when that makes a
difference.
-/

namespace Disa

/-- A double: its value, where zeros have no sign, and the sign of a zero, which is not used for other values. -/
structure Signed where
  val : Num binary64
  minus : Bool
  deriving DecidableEq

namespace Signed

/-- `std::signbit`, for numbers that are not NaN. -/
def sign (a : Signed) : Bool :=
  match a.val with
  | .fin q => if q = 0 then a.minus else decide (q < 0)
  | .inf s => s
  | .nan => false

/-- The positive zero or another value. -/
def of (v : Num binary64) : Signed := ⟨v, false⟩

/-- `0.0` -/
instance : Zero Signed := ⟨of 0⟩

/-- `-0.0` -/
def minusZero : Signed := ⟨0, true⟩

/-- A zero as a sum is negative if both summands are. -/
instance : Add Signed := ⟨fun a b => ⟨a.val + b.val, a.sign && b.sign⟩⟩

instance : Neg Signed := ⟨fun a => ⟨-a.val, !a.minus⟩⟩

instance : Sub Signed := ⟨fun a b => a + -b⟩

/-- A zero as a product is negative if the signs of the factors differ. -/
instance : Mul Signed := ⟨fun a b => ⟨a.val * b.val, a.sign != b.sign⟩⟩

/-- A zero as a quotient is negative if the signs differ; so is an infinity from dividing by a zero. -/
instance : Div Signed := ⟨fun a b =>
  ⟨match a.val / b.val with
    | .inf s => if b.val = 0 then .inf (a.sign != b.sign) else .inf s
    | v => v, a.sign != b.sign⟩⟩

/-- `std::abs` -/
def abs (a : Signed) : Signed := ⟨Fl.abs a.val, false⟩

/-- `std::sqrt`; the root of `-0.0` is `-0.0`. -/
def root (sqrt : Num binary64 → Num binary64) (a : Signed) : Signed := ⟨sqrt a.val, a.minus⟩

/-- The comparisons and constants. -/
def arith : Arith Signed where
  lt a b := Fl.lt a.val b.val
  le a b := Fl.le a.val b.val
  eq a b := Fl.eq a.val b.val
  add a b := a + b
  sub a b := a - b
  mul a b := a * b
  abs := abs
  eps := of (Num.arith binary64).eps
  one := of (Num.arith binary64).one
  max := of (Num.arith binary64).max
  rel := of (Num.arith binary64).rel
  tol := of (Num.arith binary64).tol

theorem val_zero : (0 : Signed).val = 0 := rfl
theorem val_add (a b : Signed) : (a + b).val = a.val + b.val := rfl
theorem val_neg (a : Signed) : (-a).val = -a.val := rfl
theorem val_sub (a b : Signed) : (a - b).val = a.val - b.val := rfl
theorem val_mul (a b : Signed) : (a * b).val = a.val * b.val := rfl
theorem val_abs (a : Signed) : (abs a).val = Fl.abs a.val := rfl

/-- Unless the divisor is the negative zero, the value of a quotient is that of the values. -/
theorem val_div (a b : Signed) (h : b.val = 0 → b.minus = false) : (a / b).val = a.val / b.val := by
  show (match a.val / b.val with
    | .inf s => if b.val = 0 then .inf (a.sign != b.sign) else .inf s
    | v => v) = a.val / b.val
  by_cases hb : b.val = 0
  · have hs : b.sign = false := by
      unfold sign
      rw [hb]
      show (if (0 : ℚ) = 0 then b.minus else _) = false
      rw [if_pos rfl, h hb]
    rw [hs, hb]
    unfold sign
    rcases ha : a.val with _ | s | p
    · rfl
    · show Fl.inf (s != false) = Fl.inf (s != decide ((0 : ℚ) < 0))
      simp
    · show (match (if p = 0 then Fl.nan else Fl.inf (decide (p < 0))) with
        | .inf s => Fl.inf ((if p = 0 then a.minus else decide (p < 0)) != false)
        | v => v) = (if p = 0 then Fl.nan else Fl.inf (decide (p < 0)))
      by_cases hp : p = 0
      · rw [if_pos hp]
      · rw [if_neg hp, if_neg hp]
        simp
  · simp only [hb]
    split
    · rename_i h
      rw [h]
      rfl
    · rfl

theorem nearlyGreater_val (a b c d : Signed) :
    (Num.arith binary64).nearlyGreater a.val b.val c.val d.val = arith.nearlyGreater a b c d := by
  have hmax : ∀ x y : Signed, (arith.stdMax x y).val = (Num.arith binary64).stdMax x.val y.val := by
    intro x y
    unfold Arith.stdMax
    show (if Fl.lt x.val y.val = true then y else x).val = if Fl.lt x.val y.val = true then y.val else x.val
    split <;> rfl
  have hmin : ∀ x y : Signed, (arith.stdMin x y).val = (Num.arith binary64).stdMin x.val y.val := by
    intro x y
    unfold Arith.stdMin
    show (if Fl.lt y.val x.val = true then y else x).val = if Fl.lt y.val x.val = true then y.val else x.val
    split <;> rfl
  have heq : (Num.arith binary64).nearlyEqual a.val b.val c.val d.val = arith.nearlyEqual a b c d := by
    unfold Arith.nearlyEqual
    have h : arith.lt (arith.abs (arith.sub a b)) (arith.stdMax d (arith.mul c (arith.stdMin (arith.add (arith.abs a) (arith.abs b)) arith.max))) =
        (Num.arith binary64).lt ((Num.arith binary64).abs ((Num.arith binary64).sub a.val b.val)) ((Num.arith binary64).stdMax d.val
          ((Num.arith binary64).mul c.val ((Num.arith binary64).stdMin ((Num.arith binary64).add ((Num.arith binary64).abs a.val)
            ((Num.arith binary64).abs b.val)) (Num.arith binary64).max))) := by
      show Fl.lt _ (arith.stdMax d _).val = Fl.lt _ _
      rw [hmax]
      show Fl.lt _ ((Num.arith binary64).stdMax d.val (c.val * (arith.stdMin _ _).val)) = _
      rw [hmin]
      rfl
    rw [h]
    rfl
  unfold Arith.nearlyGreater Arith.nearlyLessEqual
  rw [heq]
  rfl

/-- Zeros of either sign are equal; dividing by them is not the same. -/
example : arith.eq minusZero 0 = true ∧ Fl.eq (of (Num.fin 1) / 0).val (.inf false) = true ∧
    Fl.eq (of (Num.fin 1) / minusZero).val (.inf true) = true ∧ 0 + minusZero = 0 ∧ minusZero + minusZero = minusZero ∧
    of (Num.fin (-1)) * 0 = minusZero ∧ sign (-0) = true := by
  refine ⟨?_, ?_, ?_, ?_, ?_, ?_, ?_⟩ <;> decide +kernel

end Signed
end Disa
