import Verif.Props.UnitFloat
import Mathlib.Algebra.Order.Chebyshev

/-!
# Property C128: angles between vectors of doubles
-/

namespace Disa.Props

open Disa Spec Dense Num

theorem root_one {z δ : ℝ} (hz : 0 ≤ z) (h : |z ^ 2 - 1| ≤ δ) : |z - 1| ≤ δ := by
  refine le_trans ?_ h
  have e : z ^ 2 - 1 = (z - 1) * (z + 1) := by ring
  rw [e, abs_mul, abs_of_nonneg (by linarith : 0 ≤ z + 1)]
  exact le_mul_of_one_le_right (abs_nonneg _) (by linarith)

theorem cosine_abs {n : Nat} (x y : Fin n → ℝ) : |(∑ i, x i * y i) / (√(∑ i, x i * x i) * √(∑ i, y i * y i))| ≤ 1 := by
  have hS : 0 ≤ ∑ i, x i * x i := Finset.sum_nonneg fun i _ => mul_self_nonneg _
  have hT : 0 ≤ ∑ i, y i * y i := Finset.sum_nonneg fun i _ => mul_self_nonneg _
  have h := Finset.sum_mul_sq_le_sq_mul_sq Finset.univ x y
  rw [abs_div, abs_of_nonneg (by positivity : 0 ≤ √(∑ i, x i * x i) * √(∑ i, y i * y i))]
  refine div_le_one_of_le₀ ?_ (by positivity)
  rw [← Real.sqrt_mul hS]
  refine Real.abs_le_sqrt ?_
  simpa only [pow_two] using h

/-- Products with the factors of unit vectors. -/
theorem cosine_near {n : Nat} (x y : Fin n → ℝ) {c d δ : ℝ} (hc : 0 < c) (hd : 0 < d) (hx : |c ^ 2 * (∑ i, x i * x i) - 1| ≤ δ)
    (hy : |d ^ 2 * (∑ i, y i * y i) - 1| ≤ δ) (hδ : δ ≤ 1 / 4) :
    |c * d * (∑ i, x i * y i) - (∑ i, x i * y i) / (√(∑ i, x i * x i) * √(∑ i, y i * y i))| ≤ 9 / 4 * δ := by
  have hS : 0 ≤ ∑ i, x i * x i := Finset.sum_nonneg fun i _ => mul_self_nonneg _
  have hT : 0 ≤ ∑ i, y i * y i := Finset.sum_nonneg fun i _ => mul_self_nonneg _
  have hcos := cosine_abs x y
  have hδ0 : 0 ≤ δ := (abs_nonneg _).trans hx
  generalize ∑ i, x i * y i = P at *
  generalize ∑ i, x i * x i = S at *
  generalize ∑ i, y i * y i = T at *
  have hS' : 0 < S := by
    rcases hS.eq_or_lt with h | h
    · rw [← h] at hx
      norm_num at hx
      linarith
    · exact h
  have hT' : 0 < T := by
    rcases hT.eq_or_lt with h | h
    · rw [← h] at hy
      norm_num at hy
      linarith
    · exact h
  have h1 : |c * √S - 1| ≤ δ := root_one (by positivity) (by rwa [mul_pow, Real.sq_sqrt hS])
  have h2 : |d * √T - 1| ≤ δ := root_one (by positivity) (by rwa [mul_pow, Real.sq_sqrt hT])
  have r1 : 0 < √S := Real.sqrt_pos.mpr hS'
  have r2 : 0 < √T := Real.sqrt_pos.mpr hT'
  have e : c * d * P - P / (√S * √T) = (c * √S * (d * √T) - 1) * (P / (√S * √T)) := by
    field_simp
  rw [e, abs_mul]
  have h3 : |c * √S * (d * √T) - 1| ≤ 9 / 4 * δ := by
    have e2 : c * √S * (d * √T) - 1 = (c * √S - 1) * (d * √T - 1) + (c * √S - 1) + (d * √T - 1) := by ring
    rw [e2]
    have h4 : |(c * √S - 1) * (d * √T - 1)| ≤ 1 / 4 * δ := by
      rw [abs_mul]
      exact mul_le_mul (h1.trans hδ) h2 (abs_nonneg _) (by norm_num)
    have h5 := abs_add_le ((c * √S - 1) * (d * √T - 1) + (c * √S - 1)) (d * √T - 1)
    have h6 := abs_add_le ((c * √S - 1) * (d * √T - 1)) (c * √S - 1)
    linarith
  calc _ ≤ 9 / 4 * δ * 1 := mul_le_mul h3 hcos (abs_nonneg _) (by linarith)
    _ = _ := mul_one _

theorem clamp_fin (e : ℚ) : ∃ c : ℚ, Rounded.clamp (fin e : Num binary64) (fin (-1)) (fin 1) = fin c ∧ -1 ≤ c ∧ c ≤ 1 ∧
    ∀ t : ℝ, |t| ≤ 1 → |(c : ℝ) - t| ≤ |(e : ℝ) - t| := by
  have l1 : Fl.lt (.fin e) (.fin (-1)) = decide (e < -1) := rfl
  have l2 : Fl.lt (.fin 1) (.fin e) = decide (1 < e) := rfl
  by_cases h1 : e < -1
  · refine ⟨-1, ?_, le_rfl, by norm_num, fun t ht => ?_⟩
    · show (if Fl.lt (.fin e) (.fin (-1)) then _ else _) = _
      rw [l1, if_pos (by simpa using h1)]
    · have h1' : (e : ℝ) < -1 := by exact_mod_cast h1
      obtain ⟨h2, h3⟩ := abs_le.mp ht
      rw [abs_of_nonpos (by push_cast; linarith), abs_of_nonpos (by linarith)]
      push_cast
      linarith
  · by_cases h2 : 1 < e
    · refine ⟨1, ?_, by norm_num, le_rfl, fun t ht => ?_⟩
      · show (if Fl.lt (.fin e) (.fin (-1)) then _ else if Fl.lt (.fin 1) (.fin e) then _ else _) = _
        rw [l1, if_neg (by simpa using h1), l2, if_pos (by simpa using h2)]
      · have h1' : (1 : ℝ) < e := by exact_mod_cast h2
        obtain ⟨h2, h3⟩ := abs_le.mp ht
        rw [abs_of_nonneg (by push_cast; linarith), abs_of_nonneg (by linarith)]
        push_cast
        linarith
    · refine ⟨e, ?_, not_lt.mp h1, not_lt.mp h2, fun t _ => le_rfl⟩
      show (if Fl.lt (.fin e) (.fin (-1)) then _ else if Fl.lt (.fin 1) (.fin e) then _ else _) = _
      rw [l1, if_neg (by simpa using h1), l2, if_neg (by simpa using h2)]

/-- The divisor of the result: one, or `π / 180` as a double. -/
def unitOf (radians : Bool) : ℚ := if radians then 1 else 5030569068109113 / 2 ^ 58

/-! ### C128 -/

/-- C128: the angle between two vectors of doubles that are not zero is the arc cosine of a number that differs from the cosine by
at most `2⁻⁴⁵`. -/
def C128 : Prop := ∀ (acos : Num binary64 → Num binary64) (radians : Bool) (n : Nat) (x y : Fin n → ℚ), n = 2 ∨ n = 3 →
  (∀ i, binary64 (x i) = .fin (x i)) → (∀ i, binary64 (y i) = .fin (y i)) → (∃ i, x i ≠ 0) → (∃ i, y i ≠ 0) →
  ∃ c : ℚ, Rounded.angle root64 acos radians (vec fun i => fin (x i)) (vec fun i => fin (y i)) = .ok (acos (fin c) / fin (unitOf radians)) ∧
    -1 ≤ c ∧ c ≤ 1 ∧ |(c : ℝ) - (∑ i, (x i : ℝ) * y i) / (√(∑ i, (x i : ℝ) * x i) * √(∑ i, (y i : ℝ) * y i))| ≤ 1 / 2 ^ 45

/-- C128 fails: large vectors are orthogonal to themselves. -/
theorem c128_violated : ¬ C128 := by
  intro h
  obtain ⟨c, h1, h2, h3, h4⟩ := h id true 2 ![2 ^ 600, 0] ![2 ^ 600, 0] (.inl rfl) (by decide +kernel) (by decide +kernel)
    ⟨0, by decide +kernel⟩ ⟨0, by decide +kernel⟩
  have h5 : Rounded.angle root64 id true (vec fun i => (fin ((![2 ^ 600, 0] : Fin 2 → ℚ) i) : Num binary64))
      (vec fun i => fin ((![2 ^ 600, 0] : Fin 2 → ℚ) i)) = .ok (fin 0) := by decide +kernel
  rw [h5, Out.ok.injEq] at h1
  have h6 : binary64 (c / 1) = .fin 0 := by
    have : Fl.div binary64 (.fin c) (.fin 1) = .fin 0 := h1.symm
    simpa [Fl.div] using this
  have h7 := rounds_binary64.error _ _ h6
  rw [div_one, zero_sub, abs_neg] at h7
  have h8 : |c| ≤ 1 / 2 := by
    have h9 : (1 / 2 ^ 1075 : ℚ) ≤ 1 / 4 := by
      rw [show (1 / 4 : ℚ) = 1 / 2 ^ 2 by norm_num]
      exact one_div_le_one_div_of_le (by positivity) (pow_le_pow_right₀ (by norm_num) (by norm_num))
    generalize (1 / 2 ^ 1075 : ℚ) = η at *
    norm_num at h7
    linarith
  have h9 : (c : ℝ) ≤ 1 / 2 := by
    have := (le_abs_self c).trans h8
    have h10 : (c : ℝ) ≤ ((1 / 2 : ℚ) : ℝ) := by exact_mod_cast this
    simpa using h10
  have e1 : ∑ i, (((![2 ^ 600, 0] : Fin 2 → ℚ) i : ℚ) : ℝ) * (((![2 ^ 600, 0] : Fin 2 → ℚ) i : ℚ) : ℝ) = 2 ^ 600 * 2 ^ 600 := by
    rw [Fin.sum_univ_two]
    simp
  rw [e1, Real.mul_self_sqrt (by positivity), div_self (by positivity)] at h4
  have := (abs_le.mp h4).1
  norm_num at this
  linarith

/-- C128: the angle of vectors whose lengths are neither too large nor too small. -/
theorem c128_partial (acos : Num binary64 → Num binary64) (radians : Bool) {n : Nat} (x y : Fin n → ℚ) (hn : n = 2 ∨ n = 3)
    (hlo : 1 / 2 ^ 970 ≤ ∑ i, x i * x i) (hhi : ∑ i, x i * x i ≤ 2 ^ 1023)
    (hlo' : 1 / 2 ^ 970 ≤ ∑ i, y i * y i) (hhi' : ∑ i, y i * y i ≤ 2 ^ 1023) :
    ∃ c : ℚ, Rounded.angle root64 acos radians (vec fun i => fin (x i)) (vec fun i => fin (y i)) =
        .ok (acos (fin c) / fin (unitOf radians)) ∧
      -1 ≤ c ∧ c ≤ 1 ∧ |(c : ℝ) - (∑ i, (x i : ℝ) * y i) / (√(∑ i, (x i : ℝ) * x i) * √(∑ i, (y i : ℝ) * y i))| ≤ 1 / 2 ^ 45 := by
  have hn3 : n ≤ 3 := by omega
  have hnq : (n : ℚ) ≤ 3 := by exact_mod_cast hn3
  obtain ⟨c, p, hp, hc, hcS, hpe, hpp⟩ := c125_partial (by omega) x hlo hhi
  obtain ⟨d, r, hr, hd, hdT, hre, hrr⟩ := c125_partial (by omega) y hlo' hhi'
  clear hlo hlo' hhi hhi'
  have hδ : ((n : ℚ) + 8) / 2 ^ 51 ≤ 11 / 2 ^ 51 := div_le_div_of_nonneg_right (by linarith) (by norm_num)
  have hδ2 : ((n : ℚ) + 10) / 2 ^ 51 ≤ 13 / 2 ^ 51 := div_le_div_of_nonneg_right (by linarith) (by norm_num)
  -- elements of the unit vectors
  have bound : ∀ {e : ℚ} {z : Fin n → ℚ}, |e ^ 2 * (∑ i, z i * z i) - 1| ≤ ((n : ℚ) + 8) / 2 ^ 51 → ∀ i, |e * z i| ≤ 2 := by
    intro e z he i
    have h1 : z i * z i ≤ ∑ j, z j * z j := Finset.single_le_sum (f := fun j => z j * z j) (fun j _ => mul_self_nonneg _) (Finset.mem_univ i)
    have h2 : (e * z i) ^ 2 ≤ 2 := by
      have h3 := mul_le_mul_of_nonneg_left h1 (sq_nonneg e)
      have h4 := (abs_le.mp (he.trans hδ)).2
      rw [mul_pow, pow_two (z i)]
      norm_num at h4
      linarith
    exact abs_le_of_sq_le_sq (h2.trans (by norm_num)) (by norm_num)
  have hη : (1 / 2 ^ 1075 : ℚ) ≤ 1 / 2 ^ 100 := one_div_le_one_div_of_le (by positivity) (pow_le_pow_right₀ (by norm_num) (by norm_num))
  have hη' : (n : ℚ) / 2 ^ 1072 ≤ 1 / 2 ^ 100 := by
    have h1 : (n : ℚ) / 2 ^ 1072 ≤ 2 ^ 2 / 2 ^ 1072 := div_le_div_of_nonneg_right (by linarith) (by positivity)
    refine h1.trans ?_
    rw [div_le_div_iff₀ (by positivity) (by positivity), one_mul, ← pow_add]
    exact pow_le_pow_right₀ (by norm_num) (by norm_num)
  have small : ∀ {e : ℚ} {z w : Fin n → ℚ}, (∀ i, |e * z i| ≤ 2) → (∀ i, |w i - e * z i| ≤ 1 / 2 ^ 53 * |e * z i| + 1 / 2 ^ 1075) →
      ∀ i, |w i - e * z i| ≤ 1 / 2 ^ 51 := by
    intro e z w h1 h2 i
    have h3 := h2 i
    have h4 := mul_le_mul_of_nonneg_left (h1 i) (by norm_num : (0 : ℚ) ≤ 1 / 2 ^ 53)
    generalize (1 / 2 ^ 1075 : ℚ) = η at *
    norm_num at h3 h4 hη ⊢
    linarith
  have hpe' := small (bound hcS) hpe
  have hre' := small (bound hdT) hre
  -- the product of the unit vectors
  have hsum : ∑ i, |p i * r i| ≤ 5 / 4 := by
    have h1 : ∀ i, |p i * r i| ≤ (p i * p i + r i * r i) / 2 := fun i => by
      rw [abs_mul, ← abs_mul_abs_self (p i), ← abs_mul_abs_self (r i)]
      have := mul_self_nonneg (|p i| - |r i|)
      linarith
    have h2 := Finset.sum_le_sum fun i (_ : i ∈ Finset.univ) => h1 i
    rw [← Finset.sum_div, Finset.sum_add_distrib] at h2
    have h3 := (abs_le.mp (hpp.trans hδ2)).2
    have h4 := (abs_le.mp (hrr.trans hδ2)).2
    norm_num at h3 h4
    linarith
  have hsum0 : 0 ≤ ∑ i, |p i * r i| := Finset.sum_nonneg fun i _ => abs_nonneg _
  have hpe2 : productError (1 / 2 ^ 53) (1 / 2 ^ 1075) n (∑ i, |p i * r i|) ≤ 6 / 2 ^ 52 := by
    refine (productError_double (by omega) hsum0).trans ?_
    have h1 : ((n : ℚ) + 1) / 2 ^ 52 * (∑ i, |p i * r i|) ≤ 4 / 2 ^ 52 * (5 / 4) :=
      mul_le_mul (div_le_div_of_nonneg_right (by linarith) (by norm_num)) hsum hsum0 (by norm_num)
    generalize (n : ℚ) / 2 ^ 1072 = η at *
    norm_num at h1 hη' ⊢
    linarith
  obtain ⟨e, he⟩ := c100_finite rounds_binary64 (M := 3 / 2 * 2 ^ 1023) (fun q hq => range_double hq) p r (by
    have hw : (2 : ℚ) ^ 3 ≤ 2 ^ 1023 := pow_le_pow_right₀ (by norm_num) (by norm_num)
    generalize (2 : ℚ) ^ 1023 = w at *
    generalize productError _ _ _ _ = E at *
    norm_num at hpe2 hw
    linarith)
  obtain ⟨p', r', hp', hr', hdot⟩ := c100_dot rounds_binary64 _ _ e he
  obtain rfl : p = p' := funext fun i => fin_inj.mp (hp' i)
  obtain rfl : r = r' := funext fun i => fin_inj.mp (hr' i)
  have hdot := hdot.trans hpe2
  have hprod : |∑ i, p i * r i - c * d * ∑ i, x i * y i| ≤ 15 / 2 ^ 51 := by
    have e1 : c * d * ∑ i, x i * y i = ∑ i, c * x i * (d * y i) := by
      rw [Finset.mul_sum]
      exact Finset.sum_congr rfl fun i _ => by ring
    rw [e1, ← Finset.sum_sub_distrib]
    have h1 : ∀ i, |p i * r i - c * x i * (d * y i)| ≤ 5 / 2 ^ 51 := fun i => by
      have e2 : p i * r i - c * x i * (d * y i) =
          (p i - c * x i) * (r i - d * y i) + (p i - c * x i) * (d * y i) + c * x i * (r i - d * y i) := by ring
      rw [e2]
      have k1 : |(p i - c * x i) * (r i - d * y i)| ≤ 1 / 2 ^ 51 * (1 / 2 ^ 51) := by
        rw [abs_mul]
        exact mul_le_mul (hpe' i) (hre' i) (abs_nonneg _) (by norm_num)
      have k2 : |(p i - c * x i) * (d * y i)| ≤ 1 / 2 ^ 51 * 2 := by
        rw [abs_mul]
        exact mul_le_mul (hpe' i) (bound hdT i) (abs_nonneg _) (by norm_num)
      have k3 : |c * x i * (r i - d * y i)| ≤ 2 * (1 / 2 ^ 51) := by
        rw [abs_mul]
        exact mul_le_mul (bound hcS i) (hre' i) (abs_nonneg _) (by norm_num)
      refine (abs_add_le _ _).trans ((add_le_add (abs_add_le _ _) le_rfl).trans ?_)
      norm_num at k1 k2 k3 ⊢
      linarith
    refine (Finset.abs_sum_le_sum_abs _ _).trans ((Finset.sum_le_sum fun i _ => h1 i).trans ?_)
    rw [Finset.sum_const, Finset.card_univ, Fintype.card_fin, nsmul_eq_mul]
    norm_num
    linarith
  obtain ⟨k, hk, hk1, hk2, hk3⟩ := clamp_fin e
  refine ⟨k, ?_, hk1, hk2, ?_⟩
  · have hunit : (if radians then (fin 1 : Num binary64) else fin Rounded.pi64 / fin 180) = fin (unitOf radians) := by
      cases radians <;> decide +kernel
    unfold Rounded.angle
    have hl : (n == 2 || n == 3) = true := by
      rcases hn with rfl | rfl <;> rfl
    simp only [vec_length, beq_self_eq_true, assert_true, Out.ok_bind, hl, hp, hr, he, hk, hunit, Out.pure_eq]
  · refine (hk3 _ (cosine_abs _ _)).trans ?_
    have hcos := cosine_near (fun i => (x i : ℝ)) (fun i => (y i : ℝ)) (c := c) (d := d) (δ := 11 / 2 ^ 51) (by exact_mod_cast hc)
      (by exact_mod_cast hd) (by
        have : ((|c ^ 2 * (∑ i, x i * x i) - 1| : ℚ) : ℝ) ≤ ((11 / 2 ^ 51 : ℚ) : ℝ) := by exact_mod_cast hcS.trans hδ
        push_cast at this
        exact this) (by
        have : ((|d ^ 2 * (∑ i, y i * y i) - 1| : ℚ) : ℝ) ≤ ((11 / 2 ^ 51 : ℚ) : ℝ) := by exact_mod_cast hdT.trans hδ
        push_cast at this
        exact this) (by norm_num)
    have h1 : |(e : ℝ) - c * d * ∑ i, (x i : ℝ) * y i| ≤ 36 / 2 ^ 52 := by
      have h2 : |e - c * d * ∑ i, x i * y i| ≤ 36 / 2 ^ 52 := by
        have := abs_add_le (e - ∑ i, p i * r i) (∑ i, p i * r i - c * d * ∑ i, x i * y i)
        rw [sub_add_sub_cancel] at this
        norm_num at this hdot hprod ⊢
        linarith
      have : ((|e - c * d * ∑ i, x i * y i| : ℚ) : ℝ) ≤ ((36 / 2 ^ 52 : ℚ) : ℝ) := by exact_mod_cast h2
      push_cast at this
      exact this
    have h2 := abs_add_le ((e : ℝ) - c * d * ∑ i, (x i : ℝ) * y i) (c * d * (∑ i, (x i : ℝ) * y i) -
      (∑ i, (x i : ℝ) * y i) / (√(∑ i, (x i : ℝ) * x i) * √(∑ i, (y i : ℝ) * y i)))
    rw [sub_add_sub_cancel] at h2
    refine h2.trans ((add_le_add h1 hcos).trans ?_)
    norm_num

/-- The hypotheses hold: two vectors whose cosine is three fifths, which is not a double. -/
example : 1 / 2 ^ 970 ≤ ∑ i, (![1, 0] : Fin 2 → ℚ) i * (![1, 0] : Fin 2 → ℚ) i ∧
    ∑ i, (![3, -4] : Fin 2 → ℚ) i * (![3, -4] : Fin 2 → ℚ) i ≤ 2 ^ 1023 ∧
    Rounded.angle root64 id true [(fin 1 : Num binary64), fin 0] [fin 3, fin (-4)] = .ok (fin (1351079888211149 / 2 ^ 51)) := by
  refine ⟨?_, ?_, ?_⟩ <;> decide +kernel

end Disa.Props
