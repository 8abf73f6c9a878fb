import Verif.Solver.LuPivot
import Verif.Props.LuFloat

/-!
# Property C121: stability of the direct solver with pivoting
-/

namespace Disa.Props

open Disa Spec Dense Num Lu

/-- C121: with pivoting the residual of a solution is small compared to the largest coefficient `a` times the largest unknown
`X`, if the elimination cannot overflow. -/
def C121 : Prop := ∀ (t : ℚ), 0 < t → ∀ (n : Nat) (_ : n ≤ 2 ^ 52) (B : Fin n → Fin n → ℚ) (a : ℚ), (∀ r c, |B r c| ≤ a) →
  4 ^ (n + 1) * a + 3 ≤ 2 ^ 1023 → ∀ s' : Lu (Num binary64),
  factorise (Num.arith binary64) true { freshDouble with tol := fin t } (mat fun r c => (fin (B r c) : Num binary64)) = .ok (s', true) →
  ∀ (d x : Fin n → ℚ) (x0 : List (Num binary64)) (X : ℚ), (∀ c, |x c| ≤ X) →
  Lu.solve true s' x0 (some (vec fun r => (fin (d r) : Num binary64))) = .ok (vec (fun r => (fin (x r) : Num binary64)), true, 1) →
  ∀ r, |d r - ∑ c, B r c * x c| ≤ n ^ 3 * 4 ^ (n + 1) / 2 ^ 50 * a * (X + 1 / 2 ^ 960)

/-- C121 fails: for tolerances below `default_absolute` the search does not see small elements, and the pivot can be much smaller
than another one. -/
theorem c121_violated : ¬ C121 := by
  intro h
  have := h (1 / 2 ^ 200) (by positivity) 2 (by norm_num) ![![1 / 2 ^ 150, 1], ![1 / 2 ^ 47, 1]] 1 (by decide +kernel)
    (le_trans (by norm_num) (pow_le_pow_right₀ (by norm_num) (show 10 ≤ 1023 by norm_num)))
    ⟨true, fin (1 / 2 ^ 200), [[fin (1 / 2 ^ 150), fin 1], [fin (2 ^ 103), fin (-2 ^ 103)]], [0, 1]⟩ (by decide +kernel)
    ![1, 0] ![0, 1] [] 1 (by decide +kernel) (by decide +kernel) 1
  revert this
  decide +kernel

theorem fine_binary64 : Fine binary64 (1 / 2 ^ 53) (1 / 2 ^ 1075) (2 ^ 1023) where
  rounds := rounds_binary64
  u_small := by norm_num
  η_small := one_div_le_one_div_of_le (by positivity) (pow_le_pow_right₀ (by norm_num) (by norm_num))
  range := fun q hq => c100_range q (hq.trans (by
    have : (0 : ℚ) < 2 ^ 1023 := by positivity
    have h1 : (1 : ℚ) ≤ 2 - 1 / 2 ^ 52 := by norm_num
    generalize (2 : ℚ) ^ 1023 = w at *
    nlinarith))

theorem sum_bounds {n G X w S1 S2 S3 : ℚ} (hn1 : 1 ≤ n) (hG2 : 1 ≤ 2 ^ 46 * G) (hG0 : 0 < G) (hX0 : 0 ≤ X) (q2 : 0 < w) (q3 : w ≤ 1)
    (s1 : S1 ≤ n * (5 / 2 * (n * (G * X)))) (s2 : S2 ≤ n * (5 / 2 * (1 + G))) (s3 : S3 ≤ n * ((1 + G) * X)) :
    n / 2 ^ 50 * S1 + 6 * n * (w / 2 ^ 115) * (1 + 2 * S2 + S3) ≤ 4 / 2 ^ 50 * (n ^ 3 * G) * (X + w) := by
  have hn0 : 0 ≤ n := by linarith
  have hb : 1 + 2 * S2 + S3 ≤ 2 ^ 47 * (n ^ 2 * G) * (6 + X) := by
    have g1 : 1 + G ≤ 2 ^ 47 * G := by linarith
    have g2 : 2 ^ 47 * G ≤ 2 ^ 47 * G * n := le_mul_of_one_le_right (by positivity) hn1
    have g3 : n * (1 + G) ≤ n * (2 ^ 47 * G) := mul_le_mul_of_nonneg_left g1 hn0
    have g4 : n * (2 ^ 47 * G) ≤ n * (2 ^ 47 * G * n) := mul_le_mul_of_nonneg_left g2 hn0
    have g5 : n * (2 ^ 47 * G * n) = 2 ^ 47 * (n ^ 2 * G) := by ring
    have g6 : n * (1 + G) ≤ 2 ^ 47 * (n ^ 2 * G) := by linarith
    have g7 := mul_le_mul_of_nonneg_right g6 hX0
    have g8 : 1 ≤ 2 ^ 47 * (n ^ 2 * G) := by linarith
    linarith
  have t1 : n / 2 ^ 50 * S1 ≤ n / 2 ^ 50 * (n * (5 / 2 * (n * (G * X)))) := mul_le_mul_of_nonneg_left s1 (by positivity)
  have t3 : 6 * n * (w / 2 ^ 115) * (1 + 2 * S2 + S3) ≤ 6 * n * (w / 2 ^ 115) * (2 ^ 47 * (n ^ 2 * G) * (6 + X)) :=
    mul_le_mul_of_nonneg_left hb (by positivity)
  refine (add_le_add t1 t3).trans ?_
  have hV : 0 < n ^ 3 * G := by positivity
  have e1 : n / 2 ^ 50 * (n * (5 / 2 * (n * (G * X)))) = 5 / 2 / 2 ^ 50 * (n ^ 3 * G * X) := by ring
  have e2 : 6 * n * (w / 2 ^ 115) * (2 ^ 47 * (n ^ 2 * G) * (6 + X)) =
      36 / 2 ^ 68 * (n ^ 3 * G * w) + 6 / 2 ^ 68 * (n ^ 3 * G * X * w) := by ring
  have e3 : 4 / 2 ^ 50 * (n ^ 3 * G) * (X + w) = 4 / 2 ^ 50 * (n ^ 3 * G * X) + 4 / 2 ^ 50 * (n ^ 3 * G * w) := by ring
  rw [e1, e2, e3]
  have m1 : 0 ≤ n ^ 3 * G * X := mul_nonneg hV.le hX0
  have m2 : 0 ≤ n ^ 3 * G * w := mul_nonneg hV.le q2.le
  have m3 : n ^ 3 * G * X * w ≤ n ^ 3 * G * X * 1 := mul_le_mul_of_nonneg_left q3 m1
  linarith

/-- C121: what does hold.  If the tolerance is at least `default_absolute`, as it is by default, then no multiplier is larger than
5/2, the elements grow at most by a factor 4 in each step, and the residual is small. -/
theorem c121_partial (s s' : Lu (Num binary64)) {t : ℚ} (ht : 64 * (1 / 2 ^ 52) ≤ t) (hs : s.tol = fin t) {n : Nat}
    (hn : n ≤ 2 ^ 52) (B : Fin n → Fin n → ℚ) {a : ℚ} (ha : ∀ r c, |B r c| ≤ a) (hR : 4 ^ (n + 1) * a + 3 ≤ 2 ^ 1023)
    (hf : factorise (Num.arith binary64) true s (mat fun r c => (fin (B r c) : Num binary64)) = .ok (s', true)) :
    (∃ M : Fin n → Fin n → ℚ, s'.lu = mat (fun r c => (fin (M r c) : Num binary64)) ∧ (∀ r c, c < r → |M r c| ≤ 5 / 2) ∧
      ∀ r c, r ≤ c → |M r c| ≤ 4 ^ n * a) ∧
    ∀ (d x : Fin n → ℚ) (x0 : List (Num binary64)) (X : ℚ), (∀ c, |x c| ≤ X) →
      Lu.solve true s' x0 (some (vec fun r => (fin (d r) : Num binary64))) =
        .ok (vec (fun r => (fin (x r) : Num binary64)), true, 1) →
      ∀ r, |d r - ∑ c, B r c * x c| ≤ n ^ 3 * 4 ^ (n + 1) / 2 ^ 50 * a * (X + 1 / 2 ^ 960) := by
  have e : (64 * (1 / 2 ^ 52) : ℚ) = 1 / 2 ^ 46 := by norm_num
  rw [e] at ht
  have ht0 : 0 < t := lt_of_lt_of_le (by norm_num) ht
  obtain ⟨M, h1, h2, h3, h4⟩ := factorise_growth fine_binary64 s s' ht hs B ha hR hf
  refine ⟨⟨M, h1, h2, h3⟩, ?_⟩
  intro d x x0 X hX hx r0
  obtain ⟨p, -, h5⟩ := c103_partial true s s' ht0 hs hn B hf M h1
  have h6 := h5 d x x0 hx (p.symm r0)
  rw [Equiv.apply_symm_apply] at h6
  set r := p.symm r0 with hr
  refine h6.trans ?_
  have hX0 : 0 ≤ X := (abs_nonneg _).trans (hX r)
  have hL : ∀ k, |lowerPart M r k| ≤ 5 / 2 := by
    intro k
    unfold lowerPart
    split
    · exact h2 _ _ ‹_›
    · split <;> norm_num
  have hG1 : 1 / 2 ^ 46 ≤ 4 ^ n * a := ht.trans ((h4 r).trans (h3 r r le_rfl))
  have hU : ∀ k c, |upperPart M k c| ≤ 4 ^ n * a := by
    intro k c
    unfold upperPart
    split
    · exact h3 _ _ ‹_›
    · have : (0 : ℚ) < 1 / 2 ^ 46 := by norm_num
      rw [abs_zero]
      linarith
  have hn1 : (1 : ℚ) ≤ n := by
    have : 1 ≤ n := by have := r.2; omega
    exact_mod_cast this
  rw [show (n : ℚ) ^ 3 * 4 ^ (n + 1) / 2 ^ 50 * a * (X + 1 / 2 ^ 960) =
    4 / 2 ^ 50 * (n ^ 3 * (4 ^ n * a)) * (X + 1 / 2 ^ 960) by ring]
  generalize hG : 4 ^ n * a = G at *
  have hG0 : 0 < G := lt_of_lt_of_le (by norm_num) hG1
  have hG2 : 1 ≤ 2 ^ 46 * G := by
    have := mul_le_mul_of_nonneg_left hG1 (show (0 : ℚ) ≤ 2 ^ 46 by norm_num)
    norm_num at this ⊢
    linarith
  have s1 : ∑ k, |lowerPart M r k| * ∑ c, |upperPart M k c| * |x c| ≤ n * (5 / 2 * (n * (G * X))) := by
    have : ∀ k ∈ Finset.univ, |lowerPart M r k| * ∑ c, |upperPart M k c| * |x c| ≤ 5 / 2 * (n * (G * X)) := by
      intro k _
      refine mul_le_mul (hL k) ?_ (Finset.sum_nonneg fun c _ => mul_nonneg (abs_nonneg _) (abs_nonneg _)) (by norm_num)
      have : ∀ c ∈ Finset.univ, |upperPart M k c| * |x c| ≤ G * X := fun c _ =>
        mul_le_mul (hU k c) (hX c) (abs_nonneg _) hG0.le
      simpa using Finset.sum_le_card_nsmul _ _ _ this
    simpa using Finset.sum_le_card_nsmul _ _ _ this
  have hD : ∀ k, |M k k| ≤ G := fun k => h3 k k le_rfl
  have s2 : ∑ k, |lowerPart M r k| * (1 + |M k k|) ≤ n * (5 / 2 * (1 + G)) := by
    have : ∀ k ∈ Finset.univ, |lowerPart M r k| * (1 + |M k k|) ≤ 5 / 2 * (1 + G) := fun k _ =>
      mul_le_mul (hL k) (by linarith [hD k]) (by positivity) (by norm_num)
    simpa using Finset.sum_le_card_nsmul _ _ _ this
  have s3 : ∑ c, (1 + |M c c|) * |x c| ≤ n * ((1 + G) * X) := by
    have : ∀ c ∈ Finset.univ, (1 + |M c c|) * |x c| ≤ (1 + G) * X := fun c _ =>
      mul_le_mul (by linarith [hD c]) (hX c) (abs_nonneg _) (by linarith)
    simpa using Finset.sum_le_card_nsmul _ _ _ this
  have hκ : (6 * n / 2 ^ 1075 : ℚ) = 6 * n * (1 / 2 ^ 960 / 2 ^ 115) := by
    rw [show (2 : ℚ) ^ 1075 = 2 ^ 960 * 2 ^ 115 by rw [← pow_add], div_div, mul_one_div]
  have q2 : (0 : ℚ) < 1 / 2 ^ 960 := by positivity
  have q3 : (1 : ℚ) / 2 ^ 960 ≤ 1 := by
    rw [div_le_one (by positivity)]
    exact one_le_pow₀ (by norm_num)
  rw [hκ]
  exact sum_bounds hn1 hG2 hG0 hX0 q2 q3 s1 s2 s3

/-- The hypotheses hold for the example of C102. -/
example : (∀ r c : Fin 2, |(![![1, 3], ![3, 2]] : Fin 2 → Fin 2 → ℚ) r c| ≤ 3) ∧ (4 : ℚ) ^ (2 + 1) * 3 + 3 ≤ 2 ^ 1023 ∧
    freshDouble.tol = fin (64 * (1 / 2 ^ 52)) ∧
    factorise (Num.arith binary64) true freshDouble [[fin 1, fin 3], [fin 3, fin 2]] =
      .ok (⟨true, (Num.arith binary64).tol,
        [[fin 3, fin 2], [fin (6004799503160661 / 2 ^ 54), fin (5254199565265579 / 2 ^ 51)]], [1, 0]⟩, true) := by
  refine ⟨by decide +kernel, le_trans (by norm_num) (pow_le_pow_right₀ (by norm_num) (show 10 ≤ 1023 by norm_num)), rfl, by decide +kernel⟩

end Disa.Props
