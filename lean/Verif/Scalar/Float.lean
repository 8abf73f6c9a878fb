import Verif.Scalar.Model
import Mathlib.Data.Int.Log
import Mathlib.Data.Rat.Floor
import Mathlib.Algebra.Order.Floor.Ring
import Mathlib.Tactic.Ring
import Mathlib.Tactic.Linarith
import Mathlib.Tactic.NormNum
import Mathlib.Tactic.Positivity
import Mathlib.Tactic.FieldSimp

/-!
# Rounded arithmetic

`Scalar`, `/repo/include/core/scalar.hpp` 37, is `double`.  The models over scalars with operations are used with `Num rnd`,
whose operations are those of `Fl`: the exact result is rounded by `rnd`.  There is no contraction of operations, and no
`-ffast-math`.
-/

namespace Disa

/-- Floating point numbers with the rounding `rnd`. -/
def Num (_ : ℚ → Fl) : Type := Fl

namespace Num
variable {rnd : ℚ → Fl}

instance : DecidableEq (Num rnd) := inferInstanceAs (DecidableEq Fl)
instance : Zero (Num rnd) := ⟨Fl.fin 0⟩
instance : Add (Num rnd) := ⟨Fl.add rnd⟩
instance : Sub (Num rnd) := ⟨Fl.sub rnd⟩
instance : Mul (Num rnd) := ⟨Fl.mul rnd⟩
instance : Div (Num rnd) := ⟨Fl.div rnd⟩
instance : Neg (Num rnd) := ⟨Fl.neg⟩

/-- The number `q`, which is not rounded. -/
def fin (q : ℚ) : Num rnd := Fl.fin q

/-- The comparisons and constants. -/
def arith (rnd : ℚ → Fl) : Arith (Num rnd) := Fl.arith rnd

/-- The value of a finite number. -/
def val : Num rnd → ℚ
  | .fin q => q
  | _ => 0

theorem val_fin (q : ℚ) : val (fin q : Num rnd) = q := rfl

theorem fin_inj {p q : ℚ} : (fin p : Num rnd) = fin q ↔ p = q := ⟨fun h => by cases h; rfl, fun h => by rw [h]⟩

theorem zero_eq : (0 : Num rnd) = fin 0 := rfl

theorem add_fin {a b : Num rnd} {q : ℚ} (h : a + b = fin q) : ∃ x y, a = fin x ∧ b = fin y ∧ rnd (x + y) = .fin q := by
  have h' : Fl.add rnd a b = .fin q := h
  cases a with
  | nan => cases h'
  | inf s => cases b with
    | nan => cases h'
    | inf t => simp only [Fl.add] at h'; split at h' <;> cases h'
    | fin y => cases h'
  | fin x => cases b with
    | nan => cases h'
    | inf t => cases h'
    | fin y => exact ⟨x, y, rfl, rfl, h'⟩

theorem sub_fin {a b : Num rnd} {q : ℚ} (h : a - b = fin q) : ∃ x y, a = fin x ∧ b = fin y ∧ rnd (x - y) = .fin q := by
  obtain ⟨x, y, rfl, h2, h3⟩ := add_fin (a := a) (b := Fl.neg b) (q := q) h
  cases b with
  | nan => cases h2
  | inf t => cases h2
  | fin z =>
    cases h2
    exact ⟨x, z, rfl, rfl, by rw [sub_eq_add_neg]; exact h3⟩

theorem mul_fin {a b : Num rnd} {q : ℚ} (h : a * b = fin q) : ∃ x y, a = fin x ∧ b = fin y ∧ rnd (x * y) = .fin q := by
  have h' : Fl.mul rnd a b = .fin q := h
  cases a with
  | nan => cases h'
  | inf s => cases b with
    | nan => cases h'
    | inf t => cases h'
    | fin y => simp only [Fl.mul] at h'; split at h' <;> cases h'
  | fin x => cases b with
    | nan => cases h'
    | inf t => simp only [Fl.mul] at h'; split at h' <;> cases h'
    | fin y => exact ⟨x, y, rfl, rfl, h'⟩

/-- Division by a number.  Dividing by infinity gives zero, so that the divisor has to be known to be finite. -/
theorem div_fin {a : Num rnd} {d q : ℚ} (hd : d ≠ 0) (h : a / (fin d : Num rnd) = fin q) :
    ∃ x, a = fin x ∧ rnd (x / d) = .fin q := by
  have h' : Fl.div rnd a (.fin d) = .fin q := h
  cases a with
  | nan => cases h'
  | inf s => cases h'
  | fin x =>
    simp only [Fl.div, hd, if_false] at h'
    exact ⟨x, rfl, h'⟩

theorem add_eq {x y : ℚ} : (fin x : Num rnd) + fin y = rnd (x + y) := rfl
theorem mul_eq {x y : ℚ} : (fin x : Num rnd) * fin y = rnd (x * y) := rfl
theorem sub_eq {x y : ℚ} : (fin x : Num rnd) - fin y = rnd (x - y) := by
  rw [sub_eq_add_neg]; rfl

end Num

/-- What is used of the rounding: results that do not overflow have relative error `u`, or absolute error `η` if they
underflow. -/
structure Rounds (rnd : ℚ → Fl) (u η : ℚ) : Prop where
  u_nonneg : 0 ≤ u
  η_nonneg : 0 ≤ η
  error : ∀ q q', rnd q = .fin q' → |q' - q| ≤ u * |q| + η

/-! ### Doubles -/

/-- The integer nearest to `x`, and the even one of two nearest. -/
def nearestEven (x : ℚ) : ℤ :=
  if x - ⌊x⌋ < 1 / 2 then ⌊x⌋ else if 1 / 2 < x - ⌊x⌋ then ⌊x⌋ + 1 else if ⌊x⌋ % 2 = 0 then ⌊x⌋ else ⌊x⌋ + 1

theorem nearestEven_error (x : ℚ) : |(nearestEven x : ℚ) - x| ≤ 1 / 2 := by
  have h1 := Int.floor_le x
  have h2 := Int.lt_floor_add_one x
  unfold nearestEven
  rw [abs_le]
  split
  · constructor <;> linarith
  · split
    · push_cast
      constructor <;> linarith
    · split
      · constructor <;> linarith
      · push_cast
        constructor <;> linarith

/-- The exponent of the last digit of a double near `q`. -/
def lastDigit (q : ℚ) : ℤ := max (Int.log 2 |q| - 52) (-1074)

/-- IEEE 754 rounding to the nearest double, ties to even. -/
def binary64 (q : ℚ) : Fl :=
  if |(nearestEven (q / 2 ^ lastDigit q) : ℚ) * 2 ^ lastDigit q| < 2 ^ (1024 : ℕ) then
    .fin (nearestEven (q / 2 ^ lastDigit q) * 2 ^ lastDigit q)
  else .inf (decide (q < 0))

/-- Doubles have relative error at most 2⁻⁵³, or absolute error at most 2⁻¹⁰⁷⁵. -/
theorem rounds_binary64 : Rounds binary64 (1 / 2 ^ 53) (1 / 2 ^ 1075) where
  u_nonneg := by positivity
  η_nonneg := by positivity
  error q q' h := by
    by_cases hq0 : q = 0
    · subst hq0
      have h0 : binary64 0 = .fin 0 := by decide +kernel
      rw [h0, Fl.fin.injEq] at h
      subst h
      simp
    unfold binary64 at h
    split at h
    · simp only [Fl.fin.injEq] at h
      subst h
      have hpos : (0 : ℚ) < 2 ^ lastDigit q := zpow_pos (by norm_num) _
      have e : |(nearestEven (q / 2 ^ lastDigit q) : ℚ) * 2 ^ lastDigit q - q| ≤ 1 / 2 * 2 ^ lastDigit q := by
        have h1 : (nearestEven (q / 2 ^ lastDigit q) : ℚ) * 2 ^ lastDigit q - q =
            ((nearestEven (q / 2 ^ lastDigit q) : ℚ) - q / 2 ^ lastDigit q) * 2 ^ lastDigit q := by
          field_simp
        rw [h1, abs_mul, abs_of_pos hpos]
        exact mul_le_mul_of_nonneg_right (nearestEven_error _) hpos.le
      refine e.trans ?_
      rcases le_total (Int.log 2 |q| - 52) (-1074) with hle | hle
      · have : lastDigit q = -1074 := max_eq_right hle
        rw [this]
        have h1 : (0 : ℚ) ≤ 1 / 2 ^ 53 * |q| := by positivity
        have h2 : (1 / 2 : ℚ) * 2 ^ (-1074 : ℤ) = 1 / 2 ^ 1075 := by
          rw [zpow_neg, show (1074 : ℤ) = ((1074 : ℕ) : ℤ) from rfl, zpow_natCast, pow_succ 2 1074]
          field_simp
        rw [h2]
        linarith
      · have : lastDigit q = Int.log 2 |q| - 52 := max_eq_left hle
        rw [this]
        have hq : 0 < |q| := abs_pos.mpr hq0
        have h1 : ((2 : ℕ) : ℚ) ^ Int.log 2 |q| ≤ |q| := Int.zpow_log_le_self (by norm_num) hq
        have h2 : (1 / 2 : ℚ) * 2 ^ (Int.log 2 |q| - 52) = 1 / 2 ^ 53 * 2 ^ Int.log 2 |q| := by
          rw [zpow_sub₀ (by norm_num), show (52 : ℤ) = ((52 : ℕ) : ℤ) from rfl, zpow_natCast, pow_succ 2 52]
          field_simp
        rw [h2]
        have h3 : (1 / 2 ^ 53 : ℚ) * 2 ^ Int.log 2 |q| ≤ 1 / 2 ^ 53 * |q| :=
          mul_le_mul_of_nonneg_left (by exact_mod_cast h1) (by positivity)
        have h4 : (0 : ℚ) ≤ 1 / 2 ^ 1075 := by positivity
        linarith
    · cases h

/-- Rounding is not the identity. -/
example : binary64 (1 / 10) = .fin (3602879701896397 / 2 ^ 55) := by decide +kernel

/-- Ties go to the even neighbour, large numbers to infinity and small ones to zero. -/
example : binary64 (2 ^ 53 + 1) = .fin (2 ^ 53) ∧ binary64 (2 ^ 53 + 3) = .fin (2 ^ 53 + 4) ∧
    binary64 (-2 ^ 1024) = .inf true ∧ binary64 (1 / 2 ^ 1075) = .fin 0 := by decide +kernel

end Disa
