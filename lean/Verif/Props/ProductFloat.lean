import Verif.Props.SameFloat

/-!
# Products of matrices and vectors of doubles

C134 and C135.
-/

namespace Disa.Props

open Disa Spec Dense Num

/-- The inner product of doubles that are not too large is finite and accurate. -/
theorem dot_double {n : Nat} (hn : n ≤ 2 ^ 20) (p q : Fin n → ℚ) (hb : ∑ i, |p i * q i| ≤ 2 ^ 1021) :
    ∃ r, dot (vec fun i => (fin (p i) : Num binary64)) (vec fun i => fin (q i)) = .ok (fin r) ∧
      |r - ∑ i, p i * q i| ≤ (n + 1) / 2 ^ 52 * ∑ i, |p i * q i| + n / 2 ^ 1072 := by
  have hn' : (n : ℚ) ≤ 2 ^ 20 := by exact_mod_cast hn
  have hT0 : 0 ≤ ∑ i, |p i * q i| := Finset.sum_nonneg fun i _ => abs_nonneg _
  have hpe := productError_double (n := n) (by omega) hT0
  have hε : (n : ℚ) / 2 ^ 1072 ≤ 1 / 2 ^ 1052 := by
    rw [show (2 : ℚ) ^ 1072 = 2 ^ 20 * 2 ^ 1052 by rw [← pow_add]]
    have : (0 : ℚ) < 2 ^ 1052 := by positivity
    generalize (2 : ℚ) ^ 1052 = z at *
    rw [div_le_div_iff₀ (by positivity) this, one_mul]
    exact mul_le_mul_of_nonneg_right hn' this.le
  have hε1 : (1 / 2 ^ 1052 : ℚ) ≤ 1 / 2 ^ 1 := one_div_le_one_div_of_le (by positivity) (pow_le_pow_right₀ (by norm_num) (by norm_num))
  have ha : ((n : ℚ) + 1) / 2 ^ 52 ≤ 1 / 8 := by rw [div_le_iff₀ (by norm_num)]; linarith
  have haT := mul_le_mul_of_nonneg_right ha hT0
  have hB : (2 : ℚ) ^ 1023 = 4 * 2 ^ 1021 := by rw [show (1023 : ℕ) = 2 + 1021 from rfl, pow_add]; norm_num
  have hB1 : (2 : ℚ) ^ 10 ≤ 2 ^ 1021 := pow_le_pow_right₀ (by norm_num) (by norm_num)
  obtain ⟨d, hd⟩ := c100_finite rounds_binary64 (M := 3 / 2 * 2 ^ 1023) (fun q hq => range_double hq) p q (by
    rw [hB]
    generalize (2 : ℚ) ^ 1021 = B at *
    generalize (1 / 2 ^ 1052 : ℚ) = z at *
    generalize (n : ℚ) / 2 ^ 1072 = g at *
    generalize productError _ _ _ _ = e at *
    linarith only [hb, hpe, haT, hε, hε1, hB1, hT0])
  refine ⟨d, hd, ?_⟩
  obtain ⟨p', q', hp, hq, he⟩ := c100_dot rounds_binary64 _ _ d hd
  have hp' : p' = p := funext fun i => (fin_inj.mp (hp i)).symm
  have hq' : q' = q := funext fun i => (fin_inj.mp (hq i)).symm
  subst hp' hq'
  exact he.trans hpe

/-- C134: each element of the product of two matrices of doubles is accurate. -/
theorem c134_product {d e : Dims} {r n c : Nat} (hd : SizedMat d r n) (he : SizedMat e n c)
    (hde : d = none ∨ e = none ∨ (r = n ∧ n = c)) (hn : n ≤ 2 ^ 20) (A : Fin r → Fin n → ℚ) (B : Fin n → Fin c → ℚ)
    (hb : ∀ i j, ∑ k, |A i k * B k j| ≤ 2 ^ 1021) :
    ∃ P : Fin r → Fin c → ℚ,
      matMul d e (mat fun i k => (fin (A i k) : Num binary64)) (mat fun k j => fin (B k j)) = .ok (mat fun i j => fin (P i j)) ∧
      ∀ i j, |P i j - ∑ k, A i k * B k j| ≤ (n + 1) / 2 ^ 52 * ∑ k, |A i k * B k j| + n / 2 ^ 1072 := by
  obtain ⟨Q, h1, h2⟩ := c129_dense hd he hde (fun i k => (fin (A i k) : Num binary64)) (fun k j => fin (B k j))
  have h3 : ∀ i j, ∃ x, Q i j = fin x ∧ |x - ∑ k, A i k * B k j| ≤ (n + 1) / 2 ^ 52 * ∑ k, |A i k * B k j| + n / 2 ^ 1072 := by
    intro i j
    obtain ⟨x, h4, h5⟩ := dot_double hn (A i) (fun k => B k j) (hb i j)
    rw [h2 i j, Out.ok.injEq] at h4
    exact ⟨x, h4, h5⟩
  choose P h4 h5 using h3
  refine ⟨P, ?_, h5⟩
  rw [h1]
  congr 2
  funext i j
  exact h4 i j

/-- C134: each element of the product of a square matrix and a vector of doubles is accurate. -/
theorem c134_vector {row s n : Nat} (hrow : Sized row n) (hs : Sized s n) (hn : n ≤ 2 ^ 20) (A : Fin n → Fin n → ℚ)
    (x : Fin n → ℚ) (hb : ∀ i, ∑ k, |A i k * x k| ≤ 2 ^ 1021) :
    ∃ y : Fin n → ℚ,
      matVec row s (mat fun i k => (fin (A i k) : Num binary64)) (vec fun k => fin (x k)) = .ok (vec fun i => fin (y i)) ∧
      ∀ i, |y i - ∑ k, A i k * x k| ≤ (n + 1) / 2 ^ 52 * ∑ k, |A i k * x k| + n / 2 ^ 1072 := by
  have h3 := fun i => dot_double hn (A i) x (hb i)
  choose y h4 h5 using h3
  refine ⟨y, ?_, h5⟩
  unfold matVec
  simp only [sizeColumn_mat (show n = 0 → n = 0 from id), vec_length, beq_self_eq_true, assert_true, Out.ok_bind]
  refine vecOf_ok (sized_promote hrow hs) _ (fun i => ?_)
  rw [rd_mat _ i.2, Out.ok_bind]
  exact h4 i

/-- Two products one after the other. -/
theorem two_products {n : Nat} {g ε : ℚ} (hg : 0 ≤ g) (a : Fin n → ℚ) (y z : Fin n → ℚ) (T : Fin n → ℚ) (w : ℚ)
    (hy : ∀ k, |y k - z k| ≤ g * T k + ε) (hT : ∀ k, |z k| ≤ T k)
    (hw : |w - ∑ k, a k * y k| ≤ g * ∑ k, |a k * y k| + ε) :
    |w - ∑ k, a k * z k| ≤ (2 * g + g * g) * ∑ k, |a k| * T k + ε * (1 + (1 + g) * ∑ k, |a k|) := by
  have h1 : ∀ k, |a k * y k| ≤ (1 + g) * (|a k| * T k) + ε * |a k| := by
    intro k
    rw [abs_mul]
    have h2 : |y k| ≤ T k + (g * T k + ε) := by
      have := abs_add_le (z k) (y k - z k)
      rw [add_sub_cancel] at this
      exact this.trans (add_le_add (hT k) (hy k))
    calc _ ≤ |a k| * (T k + (g * T k + ε)) := mul_le_mul_of_nonneg_left h2 (abs_nonneg _)
      _ = _ := by ring
  have h2 : ∑ k, |a k * y k| ≤ (1 + g) * ∑ k, |a k| * T k + ε * ∑ k, |a k| := by
    rw [Finset.mul_sum, Finset.mul_sum, ← Finset.sum_add_distrib]
    exact Finset.sum_le_sum fun k _ => h1 k
  have h3 : |∑ k, a k * (y k - z k)| ≤ g * ∑ k, |a k| * T k + ε * ∑ k, |a k| := by
    refine (Finset.abs_sum_le_sum_abs _ _).trans ?_
    rw [Finset.mul_sum, Finset.mul_sum, ← Finset.sum_add_distrib]
    apply Finset.sum_le_sum
    intro k _
    rw [abs_mul]
    calc _ ≤ |a k| * (g * T k + ε) := mul_le_mul_of_nonneg_left (hy k) (abs_nonneg _)
      _ = _ := by ring
  have e : w - ∑ k, a k * z k = (w - ∑ k, a k * y k) + ∑ k, a k * (y k - z k) := by
    simp only [mul_sub, Finset.sum_sub_distrib]
    ring
  have h4 := mul_le_mul_of_nonneg_left h2 hg
  rw [e]
  refine (abs_add_le _ _).trans ?_
  calc _ ≤ g * ((1 + g) * ∑ k, |a k| * T k + ε * ∑ k, |a k|) + ε + (g * ∑ k, |a k| * T k + ε * ∑ k, |a k|) :=
      add_le_add (hw.trans (add_le_add h4 le_rfl)) h3
    _ = _ := by ring

/-- Sums of products of numbers that are not too large. -/
theorem sum_bound {n a b : Nat} (hn : n ≤ 2 ^ 20) (p q : Fin n → ℚ) (hp : ∀ i, |p i| ≤ 2 ^ a) (hq : ∀ i, |q i| ≤ 2 ^ b) :
    ∑ i, |p i * q i| ≤ 2 ^ (20 + a + b) := by
  have h1 : ∀ i, |p i * q i| ≤ 2 ^ (a + b) := fun i => by
    rw [abs_mul, pow_add]
    exact mul_le_mul (hp i) (hq i) (abs_nonneg _) (by positivity)
  refine (Finset.sum_le_sum fun i _ => h1 i).trans ?_
  rw [Finset.sum_const, Finset.card_univ, Fintype.card_fin, nsmul_eq_mul, Nat.add_assoc, pow_add 2 20]
  exact mul_le_mul_of_nonneg_right (by exact_mod_cast hn) (by positivity)

/-- C134: whether a product of two square matrices and a vector of doubles is computed from the left or from the right makes no
difference but for rounding. -/
theorem c134_order {row s n : Nat} {d e : Dims} (hrow : Sized row n) (hs : Sized s n) (hd : SizedMat d n n) (he : SizedMat e n n)
    (hn : n ≤ 2 ^ 20) (A B : Fin n → Fin n → ℚ) (x : Fin n → ℚ) (hA : ∀ i k, |A i k| ≤ 2 ^ 300) (hB : ∀ k j, |B k j| ≤ 2 ^ 300)
    (hx : ∀ j, |x j| ≤ 2 ^ 300) :
    ∃ (P : Fin n → Fin n → ℚ) (y left right : Fin n → ℚ),
      matMul d e (mat fun i k => (fin (A i k) : Num binary64)) (mat fun k j => fin (B k j)) = .ok (mat fun i j => fin (P i j)) ∧
      matVec row s (mat fun i j => (fin (P i j) : Num binary64)) (vec fun j => fin (x j)) = .ok (vec fun i => fin (left i)) ∧
      matVec row s (mat fun k j => (fin (B k j) : Num binary64)) (vec fun j => fin (x j)) = .ok (vec fun k => fin (y k)) ∧
      matVec row s (mat fun i k => (fin (A i k) : Num binary64)) (vec fun k => fin (y k)) = .ok (vec fun i => fin (right i)) ∧
      ∀ i, |left i - right i| ≤ 5 * (n + 1) / 2 ^ 52 * ∑ k, ∑ j, |A i k| * |B k j| * |x j| +
        n / 2 ^ 1071 * (1 + ∑ k, |A i k| + ∑ j, |x j|) := by
  have hn' : (n : ℚ) ≤ 2 ^ 20 := by exact_mod_cast hn
  have hg0 : (0 : ℚ) ≤ ((n : ℚ) + 1) / 2 ^ 52 := by positivity
  have hg1 : ((n : ℚ) + 1) / 2 ^ 52 ≤ 1 / 2 := by rw [div_le_iff₀ (by norm_num)]; linarith
  have hε0 : (0 : ℚ) ≤ (n : ℚ) / 2 ^ 1072 := div_nonneg (Nat.cast_nonneg n) (pow_nonneg (by norm_num) _)
  have hε1 : (n : ℚ) / 2 ^ 1072 ≤ 1 := by
    rw [div_le_one (pow_pos (by norm_num) _)]
    exact hn'.trans (pow_le_pow_right₀ (by norm_num) (by norm_num))
  have hε2 : (n : ℚ) / 2 ^ 1071 = 2 * ((n : ℚ) / 2 ^ 1072) := by
    rw [pow_succ 2 1071]
    generalize hz : (2 : ℚ) ^ 1071 = z
    have : 0 < z := by rw [← hz]; positivity
    field_simp
  have hbig : ∀ {k : Nat} {q : ℚ}, k ≤ 1021 → q ≤ 2 ^ k → q ≤ 2 ^ 1021 := fun hk hq => hq.trans (pow_le_pow_right₀ (by norm_num) hk)
  -- the size of a computed product
  have hsz : ∀ (p q : Fin n → ℚ) (v : ℚ), (∀ i, |p i| ≤ 2 ^ 300) → (∀ i, |q i| ≤ 2 ^ 300) →
      |v - ∑ i, p i * q i| ≤ (n + 1) / 2 ^ 52 * ∑ i, |p i * q i| + n / 2 ^ 1072 → |v| ≤ 2 ^ 622 := by
    intro p q v hp hq hv
    have h1 := sum_bound hn p q hp hq
    have h2 : |∑ i, p i * q i| ≤ ∑ i, |p i * q i| := Finset.abs_sum_le_sum_abs _ _
    have h3 := abs_add_le (∑ i, p i * q i) (v - ∑ i, p i * q i)
    rw [add_sub_cancel] at h3
    have h4 := mul_le_mul_of_nonneg_right hg1 (Finset.sum_nonneg fun i _ => abs_nonneg (p i * q i) : (0 : ℚ) ≤ ∑ i, |p i * q i|)
    have h5 : (2 : ℚ) ^ 622 = 4 * 2 ^ 620 := by rw [show (622 : ℕ) = 2 + 620 from rfl, pow_add]; norm_num
    have h6 : (1 : ℚ) ≤ 2 ^ 620 := one_le_pow₀ (by norm_num)
    rw [show 20 + 300 + 300 = 620 from rfl] at h1
    rw [h5]
    generalize (2 : ℚ) ^ 620 = z at *
    generalize (n : ℚ) / 2 ^ 1072 = ε at *
    linarith only [hv, h1, h2, h3, h4, h6, hε1]
  obtain ⟨P, hP, hPe⟩ := c134_product hd he (.inr (.inr ⟨rfl, rfl⟩)) hn A B
    (fun i j => hbig (by norm_num) (sum_bound hn (A i) (fun k => B k j) (hA i) (fun k => hB k j)))
  have hPs : ∀ i j, |P i j| ≤ 2 ^ 622 := fun i j => hsz _ _ _ (hA i) (fun k => hB k j) (hPe i j)
  obtain ⟨y, hy, hye⟩ := c134_vector hrow hs hn B x (fun k => hbig (by norm_num) (sum_bound hn (B k) x (hB k) hx))
  have hys : ∀ k, |y k| ≤ 2 ^ 622 := fun k => hsz _ _ _ (hB k) hx (hye k)
  obtain ⟨left, hl, hle⟩ := c134_vector hrow hs hn P x (fun k => hbig (by norm_num) (sum_bound hn (P k) x (hPs k) hx))
  obtain ⟨right, hr, hre⟩ := c134_vector hrow hs hn A y (fun k => hbig (by norm_num) (sum_bound hn (A k) y (hA k) hys))
  refine ⟨P, y, left, right, hP, hl, hy, hr, fun i => ?_⟩
  have h1 := two_products hg0 (A i) y (fun k => ∑ j, B k j * x j) (fun k => ∑ j, |B k j * x j|) (right i) hye
    (fun k => Finset.abs_sum_le_sum_abs _ _) (hre i)
  have h2 := two_products hg0 x (P i) (fun j => ∑ k, A i k * B k j) (fun j => ∑ k, |A i k * B k j|) (left i) (hPe i)
    (fun j => Finset.abs_sum_le_sum_abs _ _) (by simpa only [mul_comm] using hle i)
  have e1 : ∑ j, x j * ∑ k, A i k * B k j = ∑ k, A i k * ∑ j, B k j * x j := by
    simp only [Finset.mul_sum]
    rw [Finset.sum_comm]
    exact Finset.sum_congr rfl fun k _ => Finset.sum_congr rfl fun j _ => by ring
  have e2 : ∑ k, |A i k| * ∑ j, |B k j * x j| = ∑ k, ∑ j, |A i k| * |B k j| * |x j| := by
    simp only [Finset.mul_sum, abs_mul]
    exact Finset.sum_congr rfl fun k _ => Finset.sum_congr rfl fun j _ => by ring
  have e3 : ∑ j, |x j| * ∑ k, |A i k * B k j| = ∑ k, ∑ j, |A i k| * |B k j| * |x j| := by
    simp only [Finset.mul_sum, abs_mul]
    rw [Finset.sum_comm]
    exact Finset.sum_congr rfl fun k _ => Finset.sum_congr rfl fun j _ => by ring
  rw [e1, e3] at h2
  rw [e2] at h1
  rw [hε2, mul_div_assoc]
  have hS : 0 ≤ ∑ k, ∑ j, |A i k| * |B k j| * |x j| :=
    Finset.sum_nonneg fun k _ => Finset.sum_nonneg fun j _ => by positivity
  have ha : 0 ≤ ∑ k, |A i k| := Finset.sum_nonneg fun k _ => abs_nonneg _
  have hx0 : 0 ≤ ∑ k, |x k| := Finset.sum_nonneg fun k _ => abs_nonneg _
  have h3 := abs_sub_le (left i) (∑ k, A i k * ∑ j, B k j * x j) (right i)
  rw [abs_sub_comm (∑ k, A i k * ∑ j, B k j * x j) (right i)] at h3
  generalize ∑ k, A i k * ∑ j, B k j * x j = w at *
  generalize ∑ k, ∑ j, |A i k| * |B k j| * |x j| = S at *
  generalize ∑ k, |A i k| = a at *
  generalize ∑ k, |x k| = b at *
  generalize (n : ℚ) / 2 ^ 1072 = ε at *
  generalize ((n : ℚ) + 1) / 2 ^ 52 = g at *
  have h4 : 2 * (2 * g + g * g) * S ≤ 5 * g * S := mul_le_mul_of_nonneg_right (by nlinarith only [hg0, hg1]) hS
  have h5 : ε * ((1 + g) * a) ≤ ε * (2 * a) := mul_le_mul_of_nonneg_left (mul_le_mul_of_nonneg_right (by linarith only [hg1]) ha) hε0
  have h6 : ε * ((1 + g) * b) ≤ ε * (2 * b) := mul_le_mul_of_nonneg_left (mul_le_mul_of_nonneg_right (by linarith only [hg1]) hx0) hε0
  linarith only [h1, h2, h3, h4, h5, h6]

example : ∃ P, matMul none none [[fin (1 / 2), fin 3], [fin 2, fin (-1)]] [[fin 1, fin 2], [fin 4, (fin 5 : Num binary64)]] = .ok P ∧
    matVec 0 0 P [fin 1, fin 1] = .ok [fin (57 / 2), fin (-3)] := ⟨_, rfl, by decide +kernel⟩

/-! ### C135: the cross product -/

/-- The difference of two products of doubles. -/
theorem difference {a b c d : ℚ} (h1 : |a * b| ≤ 2 ^ 1000) (h2 : |c * d| ≤ 2 ^ 1000) :
    ∃ r, (fin a * fin b - fin c * fin d : Num binary64) = fin r ∧
      |r - (a * b - c * d)| ≤ 3 / 2 ^ 53 * (|a * b| + |c * d|) + 1 / 2 ^ 1073 := by
  have hB : (2 : ℚ) ^ 1000 ≤ 2 ^ 1020 := pow_le_pow_right₀ (by norm_num) (by norm_num)
  have hB1 : (2 : ℚ) ^ 1 ≤ 2 ^ 1020 := pow_le_pow_right₀ (by norm_num) (by norm_num)
  have hB2 : (2 : ℚ) ^ 1023 = 8 * 2 ^ 1020 := by rw [show (1023 : ℕ) = 3 + 1020 from rfl, pow_add]; norm_num
  have hη : (1 / 2 ^ 1073 : ℚ) = 4 * (1 / 2 ^ 1075) := by rw [pow_add 2 1073 2]; norm_num; ring
  have hη0 : (0 : ℚ) ≤ 1 / 2 ^ 1075 := div_nonneg zero_le_one (pow_nonneg (by norm_num) _)
  have hη1 : (1 / 2 ^ 1075 : ℚ) ≤ 1 / 2 ^ 1 := one_div_le_one_div_of_le (by positivity) (pow_le_pow_right₀ (by norm_num) (by norm_num))
  have hr : ∀ {q : ℚ}, |q| ≤ 2 ^ 1000 → ∃ q', binary64 q = .fin q' ∧ |q' - q| ≤ 1 / 2 ^ 53 * |q| + 1 / 2 ^ 1075 := by
    intro q hq
    obtain ⟨q', h⟩ := range_double (q := q) (by
      rw [hB2]
      generalize (2 : ℚ) ^ 1020 = z at *
      generalize (2 : ℚ) ^ 1000 = z' at *
      linarith only [hq, hB, hB1])
    exact ⟨q', h, rounds_binary64.error _ _ h⟩
  obtain ⟨p, hp, hpe⟩ := hr h1
  obtain ⟨q, hq, hqe⟩ := hr h2
  have hp1 := abs_add_le (a * b) (p - a * b)
  have hq1 := abs_add_le (c * d) (q - c * d)
  rw [add_sub_cancel] at hp1 hq1
  have h0 : ∀ x : ℚ, 1 / 2 ^ 53 * |x| ≤ 1 / 8 * |x| := fun x => mul_le_mul_of_nonneg_right (by norm_num) (abs_nonneg _)
  have hpq := abs_add_le p (-q)
  rw [abs_neg] at hpq
  obtain ⟨r, hr'⟩ := range_double (q := p + -q) (by
    have k1 := h0 (a * b)
    have k2 := h0 (c * d)
    rw [hB2]
    generalize (2 : ℚ) ^ 1020 = z at *
    generalize (2 : ℚ) ^ 1000 = z' at *
    generalize (1 / 2 ^ 1075 : ℚ) = η at *
    linarith only [hpq, hp1, hq1, hpe, hqe, k1, k2, h1, h2, hB, hB1, hη1])
  have he := add_relative (binary64_idem hp) (double_neg (binary64_idem hq)) hr'
  refine ⟨r, ?_, ?_⟩
  · show Fl.sub binary64 (binary64 (a * b)) (binary64 (c * d)) = .fin r
    rw [hp, hq]
    exact hr'
  · have e : r - (a * b - c * d) = (r - (p + -q)) + ((p - a * b) - (q - c * d)) := by ring
    have k1 := abs_add_le (r - (p + -q)) ((p - a * b) - (q - c * d))
    have k2 := abs_sub (p - a * b) (q - c * d)
    rw [e, hη]
    generalize (1 / 2 ^ 1075 : ℚ) = η at *
    have k4 := abs_nonneg (a * b)
    have k5 := abs_nonneg (c * d)
    generalize |r - (p + -q) + (p - a * b - (q - c * d))| = X at *
    generalize |a * b| = S at *
    generalize |c * d| = T at *
    norm_num at he hpe hqe ⊢
    linarith only [he, hpe, hqe, k1, k2, hpq, k4, k5, hp1, hq1, hη0]

/-- Sums of three products with errors. -/
theorem three_products {a b c e f g A B C η : ℚ} (h0 : |e| ≤ 3 / 2 ^ 53 * A + η) (h1 : |f| ≤ 3 / 2 ^ 53 * B + η)
    (h2 : |g| ≤ 3 / 2 ^ 53 * C + η) :
    |a * e + b * f + c * g| ≤ 3 / 2 ^ 53 * (|a| * A + |b| * B + |c| * C) + η * (|a| + |b| + |c|) := by
  have k0 := mul_le_mul_of_nonneg_left h0 (abs_nonneg a)
  have k1 := mul_le_mul_of_nonneg_left h1 (abs_nonneg b)
  have k2 := mul_le_mul_of_nonneg_left h2 (abs_nonneg c)
  rw [← abs_mul] at k0 k1 k2
  have l1 := abs_add_le (a * e + b * f) (c * g)
  have l2 := abs_add_le (a * e) (b * f)
  generalize (3 / 2 ^ 53 : ℚ) = u at *
  linarith only [k0, k1, k2, l1, l2]

/-- C135: the cross product of two vectors of three doubles is accurate in each component, and nearly orthogonal to both. -/
theorem c135_cross {s t : Nat} (hs : Sized s 3) (ht : Sized t 3) (x y : Fin 3 → ℚ) (hb : ∀ i j, |x i * y j| ≤ 2 ^ 1000) :
    ∃ z : Fin 3 → ℚ, cross s t (vec fun i => (fin (x i) : Num binary64)) (vec fun i => fin (y i)) = .ok (vec fun i => fin (z i)) ∧
      |z 0 - (x 1 * y 2 - x 2 * y 1)| ≤ 3 / 2 ^ 53 * (|x 1 * y 2| + |x 2 * y 1|) + 1 / 2 ^ 1073 ∧
      |z 1 - (x 2 * y 0 - x 0 * y 2)| ≤ 3 / 2 ^ 53 * (|x 2 * y 0| + |x 0 * y 2|) + 1 / 2 ^ 1073 ∧
      |z 2 - (x 0 * y 1 - x 1 * y 0)| ≤ 3 / 2 ^ 53 * (|x 0 * y 1| + |x 1 * y 0|) + 1 / 2 ^ 1073 ∧
      |∑ i, x i * z i| ≤ 6 / 2 ^ 53 * (|x 0 * x 1 * y 2| + |x 1 * x 2 * y 0| + |x 2 * x 0 * y 1|) + 1 / 2 ^ 1073 * ∑ i, |x i| ∧
      |∑ i, y i * z i| ≤ 6 / 2 ^ 53 * (|x 0 * y 1 * y 2| + |x 1 * y 2 * y 0| + |x 2 * y 0 * y 1|) + 1 / 2 ^ 1073 * ∑ i, |y i| := by
  obtain ⟨z0, h0, e0⟩ := difference (hb 1 2) (hb 2 1)
  obtain ⟨z1, h1, e1⟩ := difference (hb 2 0) (hb 0 2)
  obtain ⟨z2, h2, e2⟩ := difference (hb 0 1) (hb 1 0)
  refine ⟨![z0, z1, z2], ?_, e0, e1, e2, ?_, ?_⟩
  · have hp : Sized (promote s t) 3 := sized_promote hs ht
    simp only [cross, rd_vec _ (show 0 < 3 by decide), rd_vec _ (show 1 < 3 by decide), rd_vec _ (show 2 < 3 by decide), vec_length,
      beq_self_eq_true, assert_true, Out.ok_bind, Bool.or_true]
    simp only [show ((3 : Nat) == 2) = false from rfl, Bool.false_eq_true, if_false]
    rw [vecList_ok hp]
    congr 1
    show [_, _, _] = [_, _, _]
    congr 1
    congr 1
    congr 1
  · have := three_products (a := x 0) (b := x 1) (c := x 2) e0 e1 e2
    rw [show x 0 * (z0 - (x 1 * y 2 - x 2 * y 1)) + x 1 * (z1 - (x 2 * y 0 - x 0 * y 2)) + x 2 * (z2 - (x 0 * y 1 - x 1 * y 0)) =
      x 0 * z0 + x 1 * z1 + x 2 * z2 by ring] at this
    simp only [Fin.sum_univ_three]
    refine this.trans (le_of_eq ?_)
    simp only [abs_mul]
    generalize (1 / 2 ^ 1073 : ℚ) = η
    ring
  · have := three_products (a := y 0) (b := y 1) (c := y 2) e0 e1 e2
    rw [show y 0 * (z0 - (x 1 * y 2 - x 2 * y 1)) + y 1 * (z1 - (x 2 * y 0 - x 0 * y 2)) + y 2 * (z2 - (x 0 * y 1 - x 1 * y 0)) =
      y 0 * z0 + y 1 * z1 + y 2 * z2 by ring] at this
    simp only [Fin.sum_univ_three]
    refine this.trans (le_of_eq ?_)
    simp only [abs_mul]
    generalize (1 / 2 ^ 1073 : ℚ) = η
    ring

/-- The cross product of two vectors of doubles, and of two vectors with numbers that are not doubles. -/
example : cross 3 0 [fin (1 / 2), fin 3, fin (-1)] [fin 3, fin 2, (fin 7 : Num binary64)] = .ok [fin 23, fin (-13 / 2), fin (-8)] := by
  decide +kernel

example : ∃ z : Fin 3 → ℚ, |z 0 - (1 / 3 * 2 - 5 * 7)| ≤ 3 / 2 ^ 53 * (|1 / 3 * 2| + |5 * 7|) + 1 / 2 ^ 1073 ∧
    cross 0 0 (vec fun i => (fin (![10, 1 / 3, 5] i) : Num binary64)) (vec fun i => fin (![1 / 7, 7, 2] i)) =
      .ok (vec fun i => fin (z i)) := by
  have hb : ∀ i j : Fin 3, |(![10, 1 / 3, 5] i * ![1 / 7, 7, 2] j : ℚ)| ≤ 2 ^ 1000 := by
    intro i j
    refine le_trans ?_ (pow_le_pow_right₀ (by norm_num) (show 7 ≤ 1000 by norm_num))
    fin_cases i <;> fin_cases j <;> norm_num [abs_of_pos]
  obtain ⟨z, hz, h0, -⟩ := c135_cross (.inl rfl) (.inl rfl) ![10, 1 / 3, 5] ![1 / 7, 7, 2] hb
  exact ⟨z, h0, hz⟩

end Disa.Props
