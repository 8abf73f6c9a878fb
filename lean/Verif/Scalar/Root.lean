import Verif.Scalar.Float
import Mathlib.Data.Nat.Sqrt

/-!
# Square roots of doubles
-/

namespace Disa

/-- `std::sqrt` of doubles: the root, rounded down to a multiple of 2⁻¹²⁰⁰, is rounded to a double. -/
def root64 : Num binary64 → Num binary64
  | .fin q => if q < 0 then .nan else binary64 (Nat.sqrt ⌊q * 4 ^ 1200⌋₊ / 2 ^ 1200)
  | .inf false => .inf false
  | .inf true => .nan
  | .nan => .nan

theorem nearestEven_nonneg {x : ℚ} (h : 0 ≤ x) : 0 ≤ nearestEven x := by
  have : 0 ≤ ⌊x⌋ := Int.floor_nonneg.mpr h
  unfold nearestEven
  split
  · exact this
  · split
    · omega
    · split <;> omega

theorem nearestEven_int (k : ℤ) : nearestEven k = k := by
  unfold nearestEven
  simp

theorem binary64_nonneg {q s : ℚ} (hq : 0 ≤ q) (h : binary64 q = .fin s) : 0 ≤ s := by
  unfold binary64 at h
  split at h
  · rw [Fl.fin.injEq] at h
    subst h
    have h2 : (0 : ℚ) < 2 ^ lastDigit q := zpow_pos (by norm_num) _
    have h3 := nearestEven_nonneg (div_nonneg hq h2.le)
    have h4 : (0 : ℚ) ≤ (nearestEven (q / 2 ^ lastDigit q) : ℚ) := by exact_mod_cast h3
    exact mul_nonneg h4 h2.le
  · cases h

/-- Multiples of the last digit are not rounded. -/
theorem binary64_exact {q : ℚ} (k : ℤ) (hk : q = k * 2 ^ lastDigit q) (hq : |q| < 2 ^ (1024 : ℕ)) : binary64 q = .fin q := by
  have h2 : (2 : ℚ) ^ lastDigit q ≠ 0 := (zpow_pos (by norm_num) _).ne'
  have h3 : q / 2 ^ lastDigit q = k := by
    rw [div_eq_iff h2]
    exact hk
  unfold binary64
  rw [h3, nearestEven_int, ← hk, if_pos hq]

/-- Small integers are doubles. -/
theorem binary64_nat {n : Nat} (hn : n < 2 ^ 53) : binary64 n = .fin n := by
  by_cases h0 : n = 0
  · subst h0; decide +kernel
  have hpos : (0 : ℚ) < n := by exact_mod_cast Nat.pos_of_ne_zero h0
  have hl : lastDigit (n : ℚ) ≤ 0 := by
    unfold lastDigit
    have : Int.log 2 |(n : ℚ)| < 53 := by
      rw [← Int.lt_zpow_iff_log_lt (by norm_num) (abs_pos.mpr hpos.ne'), abs_of_pos hpos]
      exact_mod_cast hn
    omega
  obtain ⟨d, hd⟩ := Int.eq_ofNat_of_zero_le (show 0 ≤ - lastDigit (n : ℚ) by omega)
  refine binary64_exact (n * 2 ^ d) ?_ ?_
  · have : lastDigit (n : ℚ) = -(d : ℤ) := by omega
    rw [this, zpow_neg, zpow_natCast]
    push_cast
    field_simp
  · rw [abs_of_pos hpos]
    exact_mod_cast hn.trans (Nat.pow_lt_pow_right (by norm_num) (by norm_num : 53 < 1024))

end Disa
