import Verif.Props.SameFloat

/-!
# Projections of vectors of doubles

C133.
-/

namespace Disa.Props

open Disa Spec Dense Num

/-- What remains of the direction that was projected out. -/
theorem remainder {n : Nat} {u η d E : ℚ} (hu : 0 ≤ u) (v w p q : Fin n → ℚ) (h1 : |d - ∑ i, v i * w i| ≤ E)
    (h2 : ∀ i, |p i - d * w i| ≤ u * |d * w i| + η) (h3 : ∀ i, |p i + q i - v i| ≤ u * |v i - p i|) :
    |∑ i, q i * w i| ≤ (∑ i, |v i * w i|) * |1 - ∑ i, w i * w i| + E * ∑ i, w i * w i + u * (|d| * ∑ i, w i * w i) + η * ∑ i, |w i| +
      u * (∑ i, |v i * w i| + |d| * ∑ i, w i * w i + u * (|d| * ∑ i, w i * w i) + η * ∑ i, |w i|) := by
  have e : ∑ i, q i * w i = (∑ i, v i * w i) * (1 - ∑ i, w i * w i) - (d - ∑ i, v i * w i) * (∑ i, w i * w i) -
      ∑ i, (p i - d * w i) * w i + ∑ i, (p i + q i - v i) * w i := by
    have a1 : ∑ i, (p i - d * w i) * w i = ∑ i, p i * w i - d * ∑ i, w i * w i := by
      rw [Finset.mul_sum, ← Finset.sum_sub_distrib]
      exact Finset.sum_congr rfl fun i _ => by ring
    have a2 : ∑ i, (p i + q i - v i) * w i = ∑ i, p i * w i + ∑ i, q i * w i - ∑ i, v i * w i := by
      rw [← Finset.sum_add_distrib, ← Finset.sum_sub_distrib]
      exact Finset.sum_congr rfl fun i _ => by ring
    rw [a1, a2]
    ring
  have hW : 0 ≤ ∑ i, w i * w i := Finset.sum_nonneg fun i _ => mul_self_nonneg _
  have b0 : |∑ i, v i * w i| ≤ ∑ i, |v i * w i| := Finset.abs_sum_le_sum_abs _ _
  have b1 : |(∑ i, v i * w i) * (1 - ∑ i, w i * w i)| ≤ (∑ i, |v i * w i|) * |1 - ∑ i, w i * w i| := by
    rw [abs_mul]
    exact mul_le_mul_of_nonneg_right b0 (abs_nonneg _)
  have b2 : |(d - ∑ i, v i * w i) * (∑ i, w i * w i)| ≤ E * ∑ i, w i * w i := by
    rw [abs_mul, abs_of_nonneg hW]
    exact mul_le_mul_of_nonneg_right h1 hW
  have sq : ∀ i, |w i| * |w i| = w i * w i := fun i => abs_mul_abs_self _
  have b3 : ∑ i, |p i - d * w i| * |w i| ≤ u * (|d| * ∑ i, w i * w i) + η * ∑ i, |w i| := by
    rw [Finset.mul_sum, Finset.mul_sum, Finset.mul_sum, ← Finset.sum_add_distrib]
    apply Finset.sum_le_sum
    intro i _
    have := mul_le_mul_of_nonneg_right (h2 i) (abs_nonneg (w i))
    rw [abs_mul] at this
    calc _ ≤ _ := this
      _ = u * (|d| * (|w i| * |w i|)) + η * |w i| := by ring
      _ = _ := by rw [sq]
  have b4 : |∑ i, (p i - d * w i) * w i| ≤ u * (|d| * ∑ i, w i * w i) + η * ∑ i, |w i| := by
    refine (Finset.abs_sum_le_sum_abs _ _).trans ?_
    simp only [abs_mul] at b3 ⊢
    exact b3
  have b5 : |∑ i, (p i + q i - v i) * w i| ≤ u * (∑ i, |v i * w i| + |d| * ∑ i, w i * w i + u * (|d| * ∑ i, w i * w i) + η * ∑ i, |w i|) := by
    have c1 : ∑ i, |v i - p i| * |w i| ≤ ∑ i, |v i * w i| + |d| * ∑ i, w i * w i + ∑ i, |p i - d * w i| * |w i| := by
      rw [Finset.mul_sum, ← Finset.sum_add_distrib, ← Finset.sum_add_distrib]
      apply Finset.sum_le_sum
      intro i _
      have t1 : |v i - p i| ≤ |v i| + |d * w i| + |p i - d * w i| := by
        have := abs_sub (v i) (d * w i)
        have t2 := abs_sub (v i - d * w i) (p i - d * w i)
        rw [sub_sub_sub_cancel_right] at t2
        linarith
      calc _ ≤ (|v i| + |d * w i| + |p i - d * w i|) * |w i| := mul_le_mul_of_nonneg_right t1 (abs_nonneg _)
        _ = |v i * w i| + |d| * (|w i| * |w i|) + |p i - d * w i| * |w i| := by rw [abs_mul, abs_mul]; ring
        _ = _ := by rw [sq]
    refine (Finset.abs_sum_le_sum_abs _ _).trans ?_
    calc ∑ i, |(p i + q i - v i) * w i| ≤ ∑ i, u * (|v i - p i| * |w i|) := by
          apply Finset.sum_le_sum
          intro i _
          rw [abs_mul, ← mul_assoc]
          exact mul_le_mul_of_nonneg_right (h3 i) (abs_nonneg _)
      _ = u * ∑ i, |v i - p i| * |w i| := by rw [Finset.mul_sum]
      _ ≤ _ := mul_le_mul_of_nonneg_left (by linarith) hu
  rw [e]
  have t1 := abs_add_le ((∑ i, v i * w i) * (1 - ∑ i, w i * w i) - (d - ∑ i, v i * w i) * (∑ i, w i * w i) -
      ∑ i, (p i - d * w i) * w i) (∑ i, (p i + q i - v i) * w i)
  have t2 := abs_sub ((∑ i, v i * w i) * (1 - ∑ i, w i * w i) - (d - ∑ i, v i * w i) * (∑ i, w i * w i))
    (∑ i, (p i - d * w i) * w i)
  have t3 := abs_sub ((∑ i, v i * w i) * (1 - ∑ i, w i * w i)) ((d - ∑ i, v i * w i) * (∑ i, w i * w i))
  linarith

/-- The numbers in the bound. -/
theorem remainder_small {N T W A d s E η ε : ℚ} (hN : 10 ≤ N) (hN' : N ≤ 2 ^ 21) (hT : 0 ≤ T) (hs : |s| ≤ T) (hd : |d - s| ≤ E)
    (hE : E ≤ (N - 9) / 2 ^ 52 * T + ε) (hε : 0 ≤ ε) (hW0 : 0 ≤ W) (hW : |W - 1| ≤ N / 2 ^ 51) (hη : 0 ≤ η * A) :
    T * |1 - W| + E * W + 1 / 2 ^ 53 * (|d| * W) + η * A + 1 / 2 ^ 53 * (T + |d| * W + 1 / 2 ^ 53 * (|d| * W) + η * A) ≤
      N / 2 ^ 50 * T + 2 * ε + 2 * (η * A) := by
  have hE0 : 0 ≤ E := (abs_nonneg _).trans hd
  have hd' : |d| ≤ T + E := by
    have := abs_add_le s (d - s)
    rw [add_sub_cancel] at this
    linarith
  have hW1 : W ≤ 101 / 100 := by
    have h1 := (abs_le.mp hW).2
    have : N / 2 ^ 51 ≤ 1 / 100 := by
      rw [div_le_iff₀ (by norm_num)]
      linarith
    linarith
  obtain ⟨X, hX⟩ : ∃ X, X = N / 2 ^ 52 * T := ⟨_, rfl⟩
  obtain ⟨Y, hY⟩ : ∃ Y, Y = 1 / 2 ^ 52 * T := ⟨_, rfl⟩
  have hY0 : 0 ≤ Y := by rw [hY]; positivity
  have hXY : 10 * Y ≤ X := by
    rw [hX, hY, ← mul_assoc]
    apply mul_le_mul_of_nonneg_right _ hT
    rw [mul_one_div]
    exact div_le_div_of_nonneg_right hN (by norm_num)
  have hE' : E ≤ X + ε := by
    refine hE.trans ?_
    rw [hX]
    have : (N - 9) / 2 ^ 52 * T ≤ N / 2 ^ 52 * T :=
      mul_le_mul_of_nonneg_right (div_le_div_of_nonneg_right (by linarith) (by norm_num)) hT
    linarith
  have h1 : T * |1 - W| ≤ 2 * X := by
    rw [abs_sub_comm]
    have := mul_le_mul_of_nonneg_left hW hT
    calc _ ≤ _ := this
      _ = _ := by rw [hX]; ring
  have h2 : E * W ≤ 101 / 100 * E := by
    rw [mul_comm]
    exact mul_le_mul_of_nonneg_right hW1 hE0
  have h3 : |d| * W ≤ 101 / 100 * (T + E) := by
    rw [mul_comm]
    exact mul_le_mul hW1 hd' (abs_nonneg _) (by norm_num)
  have h4 : 1 / 2 ^ 53 * (|d| * W) ≤ 101 / 200 * Y + 1 / 100 * E := by
    have := mul_le_mul_of_nonneg_left h3 (by positivity : (0 : ℚ) ≤ 1 / 2 ^ 53)
    rw [hY]
    norm_num at this ⊢
    linarith
  have h5 : 0 ≤ |d| * W := mul_nonneg (abs_nonneg _) hW0
  have h6 : 1 / 2 ^ 53 * (1 / 2 ^ 53 * (|d| * W)) ≤ 1 / 100 * (1 / 2 ^ 53 * (|d| * W)) :=
    mul_le_mul_of_nonneg_right (by norm_num) (by positivity)
  have h7 : 1 / 2 ^ 53 * (η * A) ≤ 1 / 100 * (η * A) := mul_le_mul_of_nonneg_right (by norm_num) hη
  have h8 : 1 / 2 ^ 53 * T = 1 / 2 * Y := by rw [hY]; ring
  have h9 : N / 2 ^ 50 * T = 4 * X := by rw [hX]; ring
  rw [h9, mul_add, mul_add, mul_add, h8]
  linarith

/-- Projecting a vector of doubles on a vector of length one: the tangent is parallel, the projections add up to the vector, and the rest
is orthogonal, up to rounding. -/
theorem c133_projection {n s t : Nat} (hs : Sized s n) (ht : Sized t n) (hn : n ≤ 2 ^ 20) (v w : Fin n → ℚ)
    (hv : ∀ i, binary64 (v i) = .fin (v i)) (hb : ∀ i, |v i| ≤ 2 ^ 1000) (hw : |∑ i, w i * w i - 1| ≤ (n + 10) / 2 ^ 51) :
    ∃ (d : ℚ) (p q : Fin n → ℚ),
      Rounded.projectionTangent root64 s t (vec fun i => fin (v i)) (vec fun i => fin (w i)) = .ok (vec fun i => fin (p i)) ∧
      Rounded.projectionOrthogonal root64 s t (vec fun i => fin (v i)) (vec fun i => fin (w i)) = .ok (vec fun i => fin (q i)) ∧
      |d - ∑ i, v i * w i| ≤ (n + 1) / 2 ^ 52 * ∑ i, |v i * w i| + n / 2 ^ 1072 ∧
      (∀ i, |p i - d * w i| ≤ 1 / 2 ^ 53 * |d * w i| + 1 / 2 ^ 1075) ∧
      (∀ i, |p i + q i - v i| ≤ 1 / 2 ^ 53 * |v i - p i|) ∧
      |∑ i, q i * w i| ≤ (n + 10) / 2 ^ 50 * ∑ i, |v i * w i| + 1 / 2 ^ 1050 := by
  have hn' : (n : ℚ) ≤ 2 ^ 20 := by exact_mod_cast hn
  have hδ : ((n : ℚ) + 10) / 2 ^ 51 ≤ 1 / 2 ^ 10 := by rw [div_le_iff₀ (by norm_num)]; linarith
  have hW0 : 0 ≤ ∑ i, w i * w i := Finset.sum_nonneg fun i _ => mul_self_nonneg _
  obtain ⟨w1, w2⟩ := abs_le.mp hw
  have hwi : ∀ i, |w i| ≤ 2 := by
    intro i
    have h1 : w i * w i ≤ ∑ i, w i * w i := Finset.single_le_sum (fun i _ => mul_self_nonneg (w i)) (Finset.mem_univ i)
    apply abs_le_of_sq_le_sq _ (by norm_num)
    rw [pow_two]
    linarith
  have hT0 : 0 ≤ ∑ i, |v i * w i| := Finset.sum_nonneg fun i _ => abs_nonneg _
  have hT : ∑ i, |v i * w i| ≤ 2 ^ 1021 := by
    have : ∀ i, |v i * w i| ≤ 2 ^ 1000 * 2 := fun i => by
      rw [abs_mul]
      exact mul_le_mul (hb i) (hwi i) (abs_nonneg _) (by positivity)
    refine (Finset.sum_le_sum fun i _ => this i).trans ?_
    rw [Finset.sum_const, Finset.card_univ, Fintype.card_fin, nsmul_eq_mul, show (2 : ℚ) ^ 1021 = 2 ^ 20 * (2 ^ 1000 * 2) by
      rw [← pow_succ, ← pow_add]]
    exact mul_le_mul_of_nonneg_right hn' (by positivity)
  have hpe := productError_double (n := n) (by omega) hT0
  have hε : (n : ℚ) / 2 ^ 1072 ≤ 1 / 2 ^ 1052 := by
    rw [show (2 : ℚ) ^ 1072 = 2 ^ 20 * 2 ^ 1052 by rw [← pow_add]]
    have : (0 : ℚ) < 2 ^ 1052 := by positivity
    generalize (2 : ℚ) ^ 1052 = z at *
    rw [div_le_div_iff₀ (by positivity) this, one_mul]
    exact mul_le_mul_of_nonneg_right hn' this.le
  have hε1 : (1 / 2 ^ 1052 : ℚ) ≤ 1 / 2 ^ 1 := one_div_le_one_div_of_le (by positivity) (pow_le_pow_right₀ (by norm_num) (by norm_num))
  have ha : ((n : ℚ) + 1) / 2 ^ 52 ≤ 1 / 8 := by rw [div_le_iff₀ (by norm_num)]; linarith
  have haT := mul_le_mul_of_nonneg_right ha hT0
  have hB : (2 : ℚ) ^ 1023 = 4 * 2 ^ 1021 := by rw [show (1023 : ℕ) = 2 + 1021 from rfl, pow_add]; norm_num
  have hB1 : (2 : ℚ) ^ 10 ≤ 2 ^ 1021 := pow_le_pow_right₀ (by norm_num) (by norm_num)
  have hB2 : (2 : ℚ) ^ 1000 ≤ 2 ^ 1021 := pow_le_pow_right₀ (by norm_num) (by norm_num)
  obtain ⟨d, hd⟩ := c100_finite rounds_binary64 (M := 3 / 2 * 2 ^ 1023) (fun q hq => range_double hq) v w (by
    rw [hB]
    generalize (2 : ℚ) ^ 1021 = B at *
    generalize (1 / 2 ^ 1052 : ℚ) = z at *
    generalize (n : ℚ) / 2 ^ 1072 = g at *
    generalize productError _ _ _ _ = e at *
    linarith only [hT, hpe, haT, hε, hε1, hB1, hT0])
  have hde : |d - ∑ i, v i * w i| ≤ (n + 1) / 2 ^ 52 * ∑ i, |v i * w i| + n / 2 ^ 1072 := by
    obtain ⟨p, q, hp, hq, he⟩ := c100_dot rounds_binary64 _ _ d hd
    have hp' : p = v := funext fun i => (fin_inj.mp (hp i)).symm
    have hq' : q = w := funext fun i => (fin_inj.mp (hq i)).symm
    subst hp' hq'
    exact he.trans hpe
  have hS : |∑ i, v i * w i| ≤ ∑ i, |v i * w i| := Finset.abs_sum_le_sum_abs _ _
  have hd2 : |d| ≤ 5 / 4 * 2 ^ 1021 := by
    have := abs_add_le (∑ i, v i * w i) (d - ∑ i, v i * w i)
    rw [add_sub_cancel] at this
    generalize (2 : ℚ) ^ 1021 = B at *
    generalize (1 / 2 ^ 1052 : ℚ) = z at *
    generalize (n : ℚ) / 2 ^ 1072 = g at *
    linarith only [this, hS, hde, hT, haT, hε, hε1, hB1, hT0]
  have hdw : ∀ i, |w i * d| ≤ 5 / 2 * 2 ^ 1021 := by
    intro i
    rw [abs_mul]
    calc _ ≤ 2 * (5 / 4 * 2 ^ 1021 : ℚ) := mul_le_mul (hwi i) hd2 (abs_nonneg _) (by norm_num)
      _ = _ := by ring
  have hp : ∀ i, ∃ p, binary64 (w i * d) = .fin p := fun i => range_double ((hdw i).trans (by
    rw [hB]
    generalize (2 : ℚ) ^ 1021 = B at *
    linarith only [hB1]))
  choose p hp using hp
  have hpe2 : ∀ i, |p i - d * w i| ≤ 1 / 2 ^ 53 * |d * w i| + 1 / 2 ^ 1075 := fun i => by
    have := rounds_binary64.error _ _ (hp i)
    rwa [mul_comm (w i) d] at this
  have hη : (1 / 2 ^ 1075 : ℚ) ≤ 1 / 2 ^ 1 := one_div_le_one_div_of_le (by positivity) (pow_le_pow_right₀ (by norm_num) (by norm_num))
  have hvp : ∀ i, |v i + -p i| ≤ 3 / 2 * 2 ^ 1023 := by
    intro i
    have h1 := hpe2 i
    have h2 := hdw i
    rw [mul_comm] at h2
    have h3 : |p i| ≤ 3 * 2 ^ 1021 := by
      have := abs_add_le (d * w i) (p i - d * w i)
      rw [add_sub_cancel] at this
      have h4 : 1 / 2 ^ 53 * |d * w i| ≤ 1 / 10 * |d * w i| := mul_le_mul_of_nonneg_right (by norm_num) (abs_nonneg _)
      generalize (2 : ℚ) ^ 1021 = B at *
      generalize (1 / 2 ^ 1075 : ℚ) = z at *
      linarith only [this, h1, h2, h4, hη, hB1]
    have h5 := abs_add_le (v i) (-p i)
    rw [abs_neg] at h5
    have h6 := hb i
    rw [hB]
    generalize (2 : ℚ) ^ 1021 = B at *
    generalize (2 : ℚ) ^ 1000 = C at *
    linarith only [h3, h5, h6, hB2, hB1]
  have hq : ∀ i, ∃ q, binary64 (v i + -p i) = .fin q := fun i => range_double (hvp i)
  choose q hq using hq
  have hqe : ∀ i, |p i + q i - v i| ≤ 1 / 2 ^ 53 * |v i - p i| := fun i => by
    have := add_relative (hv i) (double_neg (binary64_idem (hp i))) (hq i)
    rw [← sub_eq_add_neg] at this
    rwa [show p i + q i - v i = q i - (v i - p i) by ring]
  have htan : Rounded.projectionTangent root64 s t (vec fun i => (fin (v i) : Num binary64)) (vec fun i => fin (w i)) =
      .ok (vec fun i => fin (p i)) := by
    have hWlo : (1 / 2 ^ 970 : ℚ) ≤ ∑ i, w i * w i := by
      have : (1 / 2 ^ 970 : ℚ) ≤ 1 / 2 ^ 1 := one_div_le_one_div_of_le (by positivity) (pow_le_pow_right₀ (by norm_num) (by norm_num))
      generalize (1 / 2 ^ 970 : ℚ) = z at *
      linarith only [this, w1, hδ]
    have hWhi : ∑ i, w i * w i ≤ 2 ^ 1023 := by
      have : (2 : ℚ) ^ 1 ≤ 2 ^ 1023 := pow_le_pow_right₀ (by norm_num) (by norm_num)
      generalize (2 : ℚ) ^ 1023 = z at *
      linarith only [this, w2, hδ]
    obtain ⟨r, hr0, hr, hre⟩ := norm2_near (by omega) w hWlo hWhi
    have hrne : r ≠ 0 := by
      rintro rfl
      have h1 : ((n : ℚ) + 5) / 2 ^ 52 ≤ 1 / 2 := by rw [div_le_iff₀ (by norm_num)]; linarith
      have h2 := mul_le_mul_of_nonneg_right h1 hW0
      have h3 := (abs_le.mp hre).1
      norm_num at h3
      norm_num at h2
      linarith only [h2, h3, w1, hδ]
    have hne : (!Fl.eq (Rounded.norm2 root64 (vec fun i => (fin (w i) : Num binary64))) (.fin 0)) = true := by
      rw [hr]
      show (!decide (r = 0)) = true
      simp [hrne]
    unfold Rounded.projectionTangent
    rw [hne, hd]
    simp only [vec_length, beq_self_eq_true, assert_true, Out.ok_bind]
    rw [vecOf_ok (sized_promote hs ht) (fun i => (fin (w i) : Num binary64)) (fun i => by rw [rd_vec _ i.2])]
    simp only [Out.ok_bind]
    unfold smul mulScalar
    rw [vec_length, scale_val]
    exact congrArg (fun f : Fin n → Num binary64 => Out.ok (vec f)) (funext fun i => hp i)
  refine ⟨d, p, q, htan, ?_, hde, hpe2, hqe, ?_⟩
  · unfold Rounded.projectionOrthogonal
    rw [htan]
    simp only [vec_length, beq_self_eq_true, assert_true, Out.ok_bind]
    rw [vecOf_ok (sized_promote hs ht) (fun i => (fin (v i) : Num binary64)) (fun i => by rw [rd_vec _ i.2])]
    simp only [Out.ok_bind]
    rw [sub_ok (sized_promote hs ht) (sized_promote hs ht)]
    exact congrArg (fun f : Fin n → Num binary64 => Out.ok (vec f)) (funext fun i => hq i)
  · have hA0 : 0 ≤ ∑ i, |w i| := Finset.sum_nonneg fun i _ => abs_nonneg _
    have hA : ∑ i, |w i| ≤ 2 ^ 20 * 2 := by
      refine (Finset.sum_le_sum fun i _ => hwi i).trans ?_
      rw [Finset.sum_const, Finset.card_univ, Fintype.card_fin, nsmul_eq_mul]
      exact mul_le_mul_of_nonneg_right hn' (by norm_num)
    have k1 := remainder (by positivity) v w p q hde hpe2 hqe
    have k2 := remainder_small (N := n + 10) (by linarith [Nat.cast_nonneg (α := ℚ) n]) (by linarith) hT0 hS hde (by
      rw [show (n : ℚ) + 10 - 9 = n + 1 by ring]) (div_nonneg (Nat.cast_nonneg _) (pow_nonneg (by norm_num) _)) hW0 hw (mul_nonneg (by positivity : (0 : ℚ) ≤ 1 / 2 ^ 1075) hA0)
    refine k1.trans (k2.trans ?_)
    have e1 : (1 / 2 ^ 1050 : ℚ) = 4 * (1 / 2 ^ 1052) := by
      rw [show (2 : ℚ) ^ 1052 = 4 * 2 ^ 1050 by rw [show (1052 : ℕ) = 2 + 1050 from rfl, pow_add]; norm_num]
      have : (0 : ℚ) < 2 ^ 1050 := by positivity
      generalize (2 : ℚ) ^ 1050 = z at *
      field_simp
    have e2 : (1 / 2 ^ 1075 : ℚ) * ∑ i, |w i| ≤ 1 / 2 ^ 1052 := by
      refine (mul_le_mul_of_nonneg_left hA (by positivity)).trans ?_
      rw [show (2 : ℚ) ^ 1075 = 2 ^ 23 * 2 ^ 1052 by rw [← pow_add]]
      have : (0 : ℚ) < 2 ^ 1052 := by positivity
      generalize (2 : ℚ) ^ 1052 = z at *
      rw [one_div_mul_eq_div, div_le_div_iff₀ (by positivity) this]
      nlinarith
    rw [e1]
    generalize (1 / 2 ^ 1052 : ℚ) = z at *
    generalize (n : ℚ) / 2 ^ 1072 = g at *
    generalize (1 / 2 ^ 1075 : ℚ) * ∑ i, |w i| = a at *
    linarith only [hε, e2]

/-- The hypotheses hold for a vector that is not exactly of length one. -/
example : (∀ i, binary64 ((![1, -7, 1 / 2 ^ 1074] : Fin 3 → ℚ) i) = .fin ((![1, -7, 1 / 2 ^ 1074] : Fin 3 → ℚ) i)) ∧
    (∀ i, |(![1, -7, 1 / 2 ^ 1074] : Fin 3 → ℚ) i| ≤ 2 ^ 1000) ∧
    |∑ i, (![1351079888211149 / 2 ^ 51, 3602879701896397 / 2 ^ 52, 0] : Fin 3 → ℚ) i *
      (![1351079888211149 / 2 ^ 51, 3602879701896397 / 2 ^ 52, 0] : Fin 3 → ℚ) i - 1| ≤ (3 + 10) / 2 ^ 51 := by
  decide +kernel

end Disa.Props
