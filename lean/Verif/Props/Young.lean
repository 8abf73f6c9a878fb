import Verif.Props.Layered
import Verif.Props.Monotone

/-!
# Speeds of Jacobi, Gauss Seidel and SOR on rows with levels
-/

namespace Disa.Props

open Disa Spec Dense Iterative

section modes

variable {K : Type} [Field K] [LinearOrder K] [IsStrictOrderedRing K] {N : Type} {F : Scalars K N} {n : Nat} {m : Sparse K}
  {A : Fin n → Fin n → K} {level : Fin n → Nat}

/-- A Jacobi iteration multiplies the error `v` by `mu`. -/
def Mode (A : Fin n → Fin n → K) (mu : K) (v : Fin n → K) : Prop :=
  ∀ i, (∑ j, if j = i then 0 else A i j * v j) = -(mu * A i i * v i)

omit [LinearOrder K] [IsStrictOrderedRing K] in
/-- The off-diagonal part of a row for values that are a multiple of `v` in each stored column. -/
theorem off_scaled {e v : Fin n → K} {c : K} {i : Fin n} (h : ∀ j, j ≠ i → A i j ≠ 0 → e j = c * v j) :
    Iterative.off A e i = c * Iterative.off A v i := by
  unfold Iterative.off
  rw [Finset.mul_sum]
  refine Finset.sum_congr rfl fun j _ => ?_
  by_cases hj : j = i
  · rw [if_pos hj, if_pos hj, mul_zero]
  · rw [if_neg hj, if_neg hj]
    by_cases ha : A i j = 0
    · rw [ha]; ring
    · rw [h j hj ha]; ring

omit [LinearOrder K] [IsStrictOrderedRing K] in
theorem off_sum (u v : Fin n → K) (i : Fin n) : Iterative.off A (fun j => u j + v j) i = Iterative.off A u i + Iterative.off A v i := by
  unfold Iterative.off
  rw [← Finset.sum_add_distrib]
  refine Finset.sum_congr rfl fun j _ => ?_
  by_cases hj : j = i
  · simp [hj]
  · simp only [if_neg hj]; ring

omit [LinearOrder K] [IsStrictOrderedRing K] in
/-- What happens to an error in one new value. -/
theorem young_error {b sol : Fin n → K} (hs : Solves A sol b) (omega : K) (e : Fin n → K) {i : Fin n} (hd : A i i ≠ 0) :
    relaxed A b omega (fun j => sol j + e j) i = sol i + (-(omega * Iterative.off A e i / A i i) + (1 - omega) * e i) := by
  unfold relaxed
  rw [off_sum, ← hs i, off_add A sol i]
  field_simp
  ring

omit [LinearOrder K] [IsStrictOrderedRing K] in
/-- One in-place iteration on an error that is shaped by the levels. -/
theorem young_step {k : Method} (hk : k ≠ .jacobi) (hd : ∀ i, A i i ≠ 0) (hl : Layered (fun i j => A i j ≠ 0) level) {mu s : K}
    {v : Fin n → K} (hv : Mode A mu v) (hs : s ^ 2 = 1 - factor K k + factor K k * s * mu) {b sol : Fin n → K} (hsol : Solves A sol b)
    (c : K) {x y : Fin n → K} (hx : ∀ i, x i = sol i + c * s ^ level i * v i) (h : Next A b k x y) (i : Fin n) :
    y i = sol i + s ^ 2 * c * s ^ level i * v i := by
  have main : ∀ (p : Nat) (i : Fin n), i.1 = p → y i = sol i + s ^ 2 * c * s ^ level i * v i := by
    intro p
    induction p using Nat.strong_induction_on with
    | _ p ih =>
      intro i hip
      have hz : (fun j => if j < i then y j else x j) =
          fun j => sol j + if j < i then s ^ 2 * c * s ^ level j * v j else c * s ^ level j * v j := by
        funext j
        by_cases hj : j < i
        · rw [if_pos hj, if_pos hj]
          exact ih j.1 (by rw [Fin.lt_def] at hj; omega) j rfl
        · rw [if_neg hj, if_neg hj, hx]
      rw [h i, if_neg hk, hz, young_error hsol _ _ (hd i), off_scaled (v := v) (c := c * s ^ (level i + 1)) (fun j hj ha => ?_)]
      · have hm : Iterative.off A v i = -(mu * A i i * v i) := hv i
        have hdi := hd i
        rw [hm, if_neg (lt_irrefl i), hs]
        field_simp
        ring
      · rcases hl.sides i j ⟨hj.symm, ha⟩ with ⟨h1, h2⟩ | ⟨h1, h2⟩
        · rw [if_pos h1, ← h2]; ring
        · rw [if_neg (not_lt.mpr h1.le), ← h2]
  exact main i.1 i rfl

/-- C190: how an error that Jacobi multiplies by `mu` per iteration fares, shaped by the levels, under the other methods: it is
multiplied by the square of each root `s` of `s^2 = 1 - omega + omega s mu`. -/
theorem c190_modes (hF : Exact F) (k : Method) (hk : k ≠ .jacobi) (q : FixedPoint K) (h : Square m A) (hd : ∀ i, A i i ≠ 0)
    (hl : Layered (fun i j => A i j ≠ 0) level) {mu s : K} {v : Fin n → K} (hv : Mode A mu v)
    (hs : s ^ 2 = 1 - factor K k + factor K k * s * mu) {b sol : Fin n → K} (hsol : Solves A sol b) (c : K) (w : List K) (t : Nat) :
    ∃ w', times (step F k q m (vec b)) t (vec fun i => sol i + c * s ^ level i * v i, w) =
      .ok (vec fun i => sol i + (s ^ 2) ^ t * c * s ^ level i * v i, w') := by
  obtain ⟨xs, h1, h2, h3⟩ := iterates_next hF k q h hd b (fun i => sol i + c * s ^ level i * v i) w (fun h => absurd h hk)
  have he : ∀ t i, xs t i = sol i + (s ^ 2) ^ t * c * s ^ level i * v i := by
    intro t
    induction t with
    | zero => intro i; rw [h1]; ring
    | succ t ih =>
      intro i
      rw [young_step hk hd hl hv hs hsol ((s ^ 2) ^ t * c) ih (h3 t) i]
      ring
  obtain ⟨w', e⟩ := h2 t
  exact ⟨w', by rw [e]; congr 3; funext i; exact he t i⟩

omit [LinearOrder K] [IsStrictOrderedRing K] in
theorem jacobi_mode_step (hd : ∀ i, A i i ≠ 0) {mu : K} {v : Fin n → K} (hv : Mode A mu v) {b sol : Fin n → K} (hsol : Solves A sol b)
    (c : K) {x y : Fin n → K} (hx : ∀ i, x i = sol i + c * v i) (h : Next A b .jacobi x y) (i : Fin n) :
    y i = sol i + mu * c * v i := by
  have hm : Iterative.off A v i = -(mu * A i i * v i) := hv i
  have hdi := hd i
  rw [h i, if_pos rfl, show x = fun j => sol j + c * v j from funext hx, young_error hsol _ _ hdi,
    off_scaled (v := v) (c := c) (fun _ _ _ => rfl), hm]
  simp only [factor]
  field_simp
  ring

/-- C190: for comparison, Jacobi multiplies the error by `mu`, with levels or without. -/
theorem c190_jacobi (hF : Exact F) (q : FixedPoint K) (h : Square m A) (hd : ∀ i, A i i ≠ 0) {mu : K} {v : Fin n → K} (hv : Mode A mu v)
    {b sol : Fin n → K} (hsol : Solves A sol b) (c : K) (w : List K) (hw : w.length = n) (t : Nat) :
    ∃ w', times (step F .jacobi q m (vec b)) t (vec fun i => sol i + c * v i, w) = .ok (vec fun i => sol i + mu ^ t * c * v i, w') := by
  obtain ⟨xs, h1, h2, h3⟩ := iterates_next hF .jacobi q h hd b (fun i => sol i + c * v i) w (fun _ => hw)
  have he : ∀ t i, xs t i = sol i + mu ^ t * c * v i := by
    intro t
    induction t with
    | zero => intro i; rw [h1]; ring
    | succ t ih =>
      intro i
      rw [jacobi_mode_step hd hv hsol (mu ^ t * c) ih (h3 t) i]
      ring
  obtain ⟨w', e⟩ := h2 t
  exact ⟨w', by rw [e]; congr 3; funext i; exact he t i⟩

omit [IsStrictOrderedRing K] [LinearOrder K] in
/-- C190: for Gauss Seidel the root is `mu` itself, so the error is multiplied by `mu^2`. -/
theorem c190_gauss_seidel (mu : K) : mu ^ 2 = 1 - factor K .gaussSeidel + factor K .gaussSeidel * mu * mu := by
  simp only [factor]
  ring

/-- C190: for SOR a positive root is below `mu` if `mu` is below 1, so the error falls faster than with Gauss Seidel.  The roots
come in pairs with the product 1/2. -/
theorem c190_sor {mu s : K} (hs : s ^ 2 = 1 - factor K .sor + factor K .sor * s * mu) (h0 : 0 < s) :
    (mu < 1 → s < mu) ∧ (1 < mu → s < 1 / 2 ∨ mu < s) ∧
      (1 / (2 * s)) ^ 2 = 1 - factor K .sor + factor K .sor * (1 / (2 * s)) * mu := by
  simp only [factor] at hs ⊢
  have hmu : s * mu = (2 * s ^ 2 + 1) / 3 := by linarith
  refine ⟨fun hm => ?_, fun hm => ?_, ?_⟩
  · by_contra hc
    push Not at hc
    nlinarith [mul_le_mul_of_nonneg_left hc h0.le]
  · by_cases hc : s < 1 / 2
    · exact .inl hc
    · right
      push Not at hc
      by_contra hd
      push Not at hd
      nlinarith [mul_le_mul_of_nonneg_left hd h0.le]
  · have : mu = (2 * s ^ 2 + 1) / (3 * s) := by
      rw [eq_div_iff (by positivity)]
      linarith
    rw [this]
    field_simp
    ring

end modes

section reals

variable {N : Type} {F : Scalars ℝ N} {n : Nat} {m : Sparse ℝ} {A : Fin n → Fin n → ℝ} {level : Fin n → Nat}

/-- C190: the roots are real if and only if `mu^2` is at least 8/9. -/
theorem c190_roots {mu : ℝ} :
    (∃ s : ℝ, s ^ 2 = 1 - factor ℝ .sor + factor ℝ .sor * s * mu) ↔ 8 / 9 ≤ mu ^ 2 := by
  simp only [factor]
  refine ⟨fun ⟨s, hs⟩ => ?_, fun h => ?_⟩
  · nlinarith [sq_nonneg (s - 3 / 4 * mu)]
  · have hq : 0 ≤ 9 / 16 * mu ^ 2 - 1 / 2 := by linarith
    refine ⟨3 / 4 * mu + Real.sqrt (9 / 16 * mu ^ 2 - 1 / 2), ?_⟩
    have := Real.sq_sqrt hq
    nlinarith

/-- C190: if Jacobi enlarges an error then both other methods enlarge one, and do not converge from every start. -/
theorem c190_diverges (hF : Exact F) (k : Method) (hk : k ≠ .jacobi) (q : FixedPoint ℝ) (h : Square m A) (hd : ∀ i, A i i ≠ 0)
    (hl : Layered (fun i j => A i j ≠ 0) level) {mu : ℝ} {v : Fin n → ℝ} (hv : Mode A mu v) (hmu : 1 < mu) (hne : ∃ i, v i ≠ 0)
    {b sol : Fin n → ℝ} (hsol : Solves A sol b) (w : List ℝ) : ∃ x, ¬ TendTo F k q m b x w sol := by
  obtain ⟨s, hs1, hs⟩ : ∃ s : ℝ, 1 < s ∧ s ^ 2 = 1 - factor ℝ k + factor ℝ k * s * mu := by
    cases k with
    | jacobi => exact absurd rfl hk
    | gaussSeidel => exact ⟨mu, hmu, c190_gauss_seidel mu⟩
    | sor =>
      have hq : 1 / 16 < 9 / 16 * mu ^ 2 - 1 / 2 := by nlinarith
      refine ⟨3 / 4 * mu + Real.sqrt (9 / 16 * mu ^ 2 - 1 / 2), ?_, ?_⟩
      · have : (1 / 4 : ℝ) < Real.sqrt (9 / 16 * mu ^ 2 - 1 / 2) := Real.lt_sqrt_of_sq_lt (by norm_num; linarith)
        linarith
      · have := Real.sq_sqrt (show 0 ≤ 9 / 16 * mu ^ 2 - 1 / 2 by linarith)
        simp only [factor]
        nlinarith
  obtain ⟨i, hi⟩ := hne
  refine ⟨fun i => sol i + 1 * s ^ level i * v i, fun ht => ?_⟩
  obtain ⟨xs, h1, h2⟩ := ht
  have hpos : 0 < |s ^ level i * v i| := abs_pos.mpr (mul_ne_zero (pow_ne_zero _ (by linarith)) hi)
  obtain ⟨J, hJ⟩ := h2 _ hpos
  have h3 := hJ J le_rfl i
  obtain ⟨w1, e1⟩ := h1 J
  obtain ⟨w2, e2⟩ := c190_modes hF k hk q h hd hl hv hs hsol 1 w J
  have e3 : vec (xs J) = vec fun i => sol i + (s ^ 2) ^ J * 1 * s ^ level i * v i := congrArg Prod.fst (Out.ok.inj (e1.symm.trans e2))
  rw [vec_inj] at e3
  rw [e3, show sol i + (s ^ 2) ^ J * 1 * s ^ level i * v i - sol i = (s ^ 2) ^ J * (s ^ level i * v i) by ring, abs_mul] at h3
  have h4 : 1 ≤ |(s ^ 2) ^ J| := by
    rw [abs_of_nonneg (by positivity)]
    exact one_le_pow₀ (by nlinarith)
  nlinarith

end reals

/-- Two unknowns: Jacobi multiplies the error by 17/18, Gauss Seidel by 289/324, SOR by 9/16 = (3/4)^2. -/
example : Square (dense2 (18 : ℚ) (-17) (-17) 18) ![![18, -17], ![-17, 18]] ∧
    (∀ i, (![![18, -17], ![-17, 18]] : Fin 2 → Fin 2 → ℚ) i i ≠ 0) ∧
    Layered (fun i j => (![![18, -17], ![-17, 18]] : Fin 2 → Fin 2 → ℚ) i j ≠ 0) (fun i => i.1) ∧
    Mode (![![18, -17], ![-17, 18]] : Fin 2 → Fin 2 → ℚ) (17 / 18) (fun _ => 1) ∧
    ((3 / 4 : ℚ) ^ 2 = 1 - factor ℚ .sor + factor ℚ .sor * (3 / 4) * (17 / 18)) ∧
    Solves ![![18, -17], ![-17, 18]] (fun _ => (1 : ℚ)) (fun _ => 1) := by
  refine ⟨dense2_square _ _ _ _, by decide, ?_, ?_, by norm_num [factor], ?_⟩
  · intro i j
    fin_cases i <;> fin_cases j <;> simp
  · intro i
    fin_cases i <;> norm_num [Fin.sum_univ_two]
  · intro i
    fin_cases i <;> norm_num [Fin.sum_univ_two]

/-- C190: without levels the relation fails.  Three unknowns that all refer to each other: Jacobi halves the error with equal parts,
and an iteration of Gauss Seidel does not turn it into a multiple. -/
theorem c190_needed {N : Type} (F : Scalars ℚ N) (hF : Exact F) (q : FixedPoint ℚ) :
    ∃ (m : Sparse ℚ) (A : Fin 3 → Fin 3 → ℚ) (y : Fin 3 → ℚ) (w : List ℚ), Square m A ∧ (∀ i, A i i ≠ 0) ∧ Mode A (1 / 2) (fun _ => 1) ∧
      step F .gaussSeidel q m (vec fun _ : Fin 3 => 0) (vec fun _ : Fin 3 => 1, []) = .ok (vec y, w) ∧ ∀ r : ℚ, ∃ i, y i ≠ r := by
  have hm : Square (⟨[0, 3, 6, 9], [0, 1, 2, 0, 1, 2, 0, 1, 2], [4, -1, -1, -1, 4, -1, -1, -1, 4], 3⟩ : Sparse ℚ)
      ![![4, -1, -1], ![-1, 4, -1], ![-1, -1, 4]] := by
    refine ⟨Built.ofLists (nz := [0, 3, 6, 9]) (ix := [0, 1, 2, 0, 1, 2, 0, 1, 2]) (vs := [4, -1, -1, -1, 4, -1, -1, -1, 4]) (c := 3)
      (by decide) (by decide) (by decide +kernel), rfl, rfl, fun i j => ?_⟩
    fin_cases i <;> fin_cases j <;> rfl
  have hd : ∀ i, (![![4, -1, -1], ![-1, 4, -1], ![-1, -1, 4]] : Fin 3 → Fin 3 → ℚ) i i ≠ 0 := by decide
  obtain ⟨y, w, h1, -, h3⟩ := step_ok hF .gaussSeidel q hm hd (fun _ => 0) (fun _ => 1) [] (by simp)
  refine ⟨_, _, y, w, hm, hd, by unfold Mode; decide +kernel, h1, fun r => ?_⟩
  have y0 : y 0 = 1 / 2 := by
    rw [h3 0]
    simp [relaxed, Iterative.off, factor, Fin.sum_univ_three]
    norm_num
  have y1 : y 1 = 3 / 8 := by
    rw [h3 1]
    simp [relaxed, Iterative.off, factor, Fin.sum_univ_three, y0]
    norm_num
  by_cases hr : r = 1 / 2
  · exact ⟨1, by rw [y1, hr]; norm_num⟩
  · exact ⟨0, fun h => hr (by rw [← h, y0])⟩

end Disa.Props
