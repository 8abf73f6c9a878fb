import Verif.Scalar.Mono

/-!
# Rounding to doubles does not depend on the sign
-/

namespace Disa

theorem nearestEven_neg (x : ℚ) : nearestEven (-x) = -nearestEven x := by
  have h1 := Int.floor_le x
  have h2 := Int.lt_floor_add_one x
  by_cases hx : (⌊x⌋ : ℚ) = x
  · have hf : ⌊-x⌋ = -⌊x⌋ := by
      conv_lhs => rw [← hx]
      rw [← Int.cast_neg, Int.floor_intCast]
    unfold nearestEven
    rw [hf, ← hx]
    simp
  · have hlt : (⌊x⌋ : ℚ) < x := lt_of_le_of_ne h1 hx
    have hf : ⌊-x⌋ = -⌊x⌋ - 1 := by
      rw [Int.floor_eq_iff]
      push_cast
      constructor <;> linarith
    unfold nearestEven
    rw [hf]
    have hc : -x - ((-⌊x⌋ - 1 : ℤ) : ℚ) = 1 - (x - ⌊x⌋) := by push_cast; ring
    rw [hc]
    generalize x - (⌊x⌋ : ℚ) = a
    generalize ⌊x⌋ = k
    split_ifs <;> first | omega | linarith

theorem near64_odd (q : ℚ) : near64 (-q) = -near64 q := by
  unfold near64
  have : lastDigit (-q) = lastDigit q := by unfold lastDigit; rw [abs_neg]
  rw [this, neg_div, nearestEven_neg]
  push_cast
  ring

theorem binary64_neg (q : ℚ) : binary64 (-q) = Fl.neg (binary64 q) := by
  rw [binary64_near, binary64_near, near64_odd, abs_neg]
  split
  · rfl
  · rename_i h
    have hq : q ≠ 0 := by
      rintro rfl
      apply h
      rw [near64_zero, abs_zero]
      positivity
    unfold Fl.neg
    congr 1
    rcases lt_or_gt_of_ne hq with h | h
    · rw [decide_eq_false (by linarith), decide_eq_true h]; rfl
    · rw [decide_eq_true (by linarith), decide_eq_false (by linarith)]; rfl

namespace Double

open Num

theorem neg_fin (q : ℚ) : -(fin q : Num binary64) = fin (-q) := rfl

theorem neg_neg (a : Num binary64) : - -a = a := by
  rcases a with _ | s | p
  · rfl
  · show Fl.neg (Fl.neg (.inf s)) = .inf s
    simp [Fl.neg]
  · show Fl.neg (Fl.neg (.fin p)) = .fin p
    simp [Fl.neg]

theorem add_comm (a b : Num binary64) : a + b = b + a := by
  rcases a with _ | s | p <;> rcases b with _ | t | q
  case fin.fin =>
    show binary64 (p + q) = binary64 (q + p)
    rw [_root_.add_comm]
  all_goals try rfl
  cases s <;> cases t <;> rfl

theorem mul_comm (a b : Num binary64) : a * b = b * a := by
  rcases a with _ | s | p <;> rcases b with _ | t | q
  case fin.fin =>
    show binary64 (p * q) = binary64 (q * p)
    rw [_root_.mul_comm]
  all_goals try rfl
  · cases s <;> cases t <;> rfl
  · show (if q = 0 then Fl.nan else Fl.inf (s != decide (q < 0))) = (if q = 0 then Fl.nan else Fl.inf (decide (q < 0) != s))
    cases s <;> cases decide (q < 0) <;> rfl
  · show (if p = 0 then Fl.nan else Fl.inf (decide (p < 0) != t)) = (if p = 0 then Fl.nan else Fl.inf (t != decide (p < 0)))
    cases t <;> cases decide (p < 0) <;> rfl

theorem neg_add (a b : Num binary64) : -(a + b) = -a + -b := by
  rcases a with _ | s | p <;> rcases b with _ | t | q
  case fin.fin =>
    show Fl.neg (binary64 (p + q)) = binary64 (-p + -q)
    rw [← binary64_neg, _root_.neg_add]
  all_goals try rfl
  cases s <;> cases t <;> rfl

theorem sub_eq (a b : Num binary64) : a - b = a + -b := rfl

theorem neg_sub (a b : Num binary64) : -(a - b) = b - a := by
  rw [sub_eq, sub_eq, neg_add, neg_neg, add_comm]

theorem decide_neg {p : ℚ} (h : p ≠ 0) : decide (-p < 0) = !decide (p < 0) := by
  rcases lt_or_gt_of_ne h with h | h
  · rw [decide_eq_false (by linarith), decide_eq_true h]; rfl
  · rw [decide_eq_true (by linarith), decide_eq_false (by linarith)]; rfl

theorem neg_mul (a b : Num binary64) : -a * b = -(a * b) := by
  rcases a with _ | s | p <;> rcases b with _ | t | q
  case fin.fin =>
    show binary64 (-p * q) = Fl.neg (binary64 (p * q))
    rw [← binary64_neg, _root_.neg_mul]
  all_goals try rfl
  · cases s <;> cases t <;> rfl
  · show (if q = 0 then Fl.nan else Fl.inf ((!s) != decide (q < 0))) = Fl.neg (if q = 0 then Fl.nan else Fl.inf (s != decide (q < 0)))
    split
    · rfl
    · cases s <;> cases decide (q < 0) <;> rfl
  · show (if -p = 0 then Fl.nan else Fl.inf (decide (-p < 0) != t)) = Fl.neg (if p = 0 then Fl.nan else Fl.inf (decide (p < 0) != t))
    by_cases h : p = 0
    · rw [if_pos (by simpa using h), if_pos h]; rfl
    · rw [if_neg (by simpa using h), if_neg h, decide_neg h]
      cases t <;> cases decide (p < 0) <;> rfl

theorem mul_neg (a b : Num binary64) : a * -b = -(a * b) := by
  rw [mul_comm, neg_mul, mul_comm]

theorem neg_div (a b : Num binary64) : -a / b = -(a / b) := by
  rcases a with _ | s | p <;> rcases b with _ | t | q
  case fin.fin =>
    show (if q = 0 then (if -p = 0 then Fl.nan else Fl.inf (decide (-p < 0))) else binary64 (-p / q)) =
      Fl.neg (if q = 0 then (if p = 0 then Fl.nan else Fl.inf (decide (p < 0))) else binary64 (p / q))
    by_cases h : q = 0
    · rw [if_pos h, if_pos h]
      by_cases hp : p = 0
      · rw [if_pos (by simpa using hp), if_pos hp]; rfl
      · rw [if_neg (by simpa using hp), if_neg hp, decide_neg hp]; rfl
    · rw [if_neg h, if_neg h, ← binary64_neg, _root_.neg_div]
  all_goals try rfl
  · show Fl.inf ((!s) != decide (q < 0)) = Fl.neg (Fl.inf (s != decide (q < 0)))
    cases s <;> cases decide (q < 0) <;> rfl

theorem neg_zero : -(0 : Num binary64) = 0 := by decide +kernel

end Double

end Disa
