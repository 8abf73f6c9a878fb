import Verif.Props.Iterative

/-!
# Properties C112 and C113: which systems successive over relaxation and Jacobi solve
-/

namespace Disa.Props

open Disa Spec Dense Iterative

variable {N : Type} {F : Scalars ℝ N}

/-- Iterations that contract the error in the maximum norm tend to the solution. -/
theorem tendTo_of_contracts {k : Method} {s : FixedPoint ℝ} {n : Nat} {m : Sparse ℝ} {b sol : Fin n → ℝ} {q : ℝ} (hq0 : 0 ≤ q)
    (hq1 : q < 1) (hq : ∀ (x : Fin n → ℝ) (w : List ℝ), (k = .jacobi → w.length = n) → ∃ (y : Fin n → ℝ) (w' : List ℝ),
      Iterative.step F k s m (vec b) (vec x, w) = .ok (vec y, w') ∧ (k = .jacobi → w'.length = n) ∧
        ∀ E, (∀ i, |x i - sol i| ≤ E) → ∀ i, |y i - sol i| ≤ q * E) (x : Fin n → ℝ) (w : List ℝ)
    (hw : k = .jacobi → w.length = n) : TendTo F k s m b x w sol := by
  have hall : ∀ (j : Nat) (x : Fin n → ℝ) (w : List ℝ), (k = .jacobi → w.length = n) → ∀ E, (∀ i, |x i - sol i| ≤ E) →
      ∃ (y : Fin n → ℝ) (w' : List ℝ), times (Iterative.step F k s m (vec b)) j (vec x, w) = .ok (vec y, w') ∧
        ∀ i, |y i - sol i| ≤ q ^ j * E := by
    intro j
    induction j with
    | zero => intro x w hw E hE; exact ⟨x, w, rfl, by simpa using hE⟩
    | succ j ih =>
      intro x w hw E hE
      obtain ⟨y, w', h1, h2, h3⟩ := hq x w hw
      obtain ⟨z, w'', h4, h5⟩ := ih y w' h2 (q * E) (h3 E hE)
      refine ⟨z, w'', ?_, fun i => (h5 i).trans (by rw [pow_succ, mul_assoc])⟩
      unfold times
      rw [h1]
      exact h4
  have hE : ∀ i, |x i - sol i| ≤ ∑ l, |x l - sol l| := fun i =>
    Finset.single_le_sum (f := fun l => |x l - sol l|) (fun l _ => abs_nonneg _) (Finset.mem_univ i)
  have hE0 : 0 ≤ ∑ l, |x l - sol l| := Finset.sum_nonneg fun l _ => abs_nonneg _
  generalize (∑ l, |x l - sol l|) = E at hE hE0
  choose xs ws h1 h2 using fun j => hall j x w hw E hE
  refine ⟨xs, fun j => ⟨_, h1 j⟩, fun ε hε => ?_⟩
  obtain ⟨J, hJ⟩ := exists_pow_lt_of_lt_one (show 0 < ε / (E + 1) by positivity) hq1
  refine ⟨J, fun j hj i => lt_of_le_of_lt (h2 j i) ?_⟩
  have h3 : q ^ j ≤ q ^ J := pow_le_pow_of_le_one hq0 hq1.le hj
  have h4 : q ^ j * E ≤ q ^ J * E := mul_le_mul_of_nonneg_right h3 hE0
  have h5 : q ^ J * (E + 1) < ε := by rwa [lt_div_iff₀ (by positivity)] at hJ
  have h6 : 0 ≤ q ^ J := pow_nonneg hq0 J
  nlinarith

/-- Iterations that reduce the energy of the error tend to the solution. -/
theorem tendTo_of_energy {k : Method} {s : FixedPoint ℝ} {n : Nat} {m : Sparse ℝ} {A : Fin n → Fin n → ℝ} (hA : PositiveDefinite A)
    {b sol : Fin n → ℝ} {q : ℝ} (hq0 : 0 ≤ q) (hq1 : q < 1)
    (hq : ∀ (x : Fin n → ℝ) (w : List ℝ), (k = .jacobi → w.length = n) → ∃ (y : Fin n → ℝ) (w' : List ℝ),
      Iterative.step F k s m (vec b) (vec x, w) = .ok (vec y, w') ∧ (k = .jacobi → w'.length = n) ∧
        energy A (fun i => y i - sol i) ≤ q * energy A (fun i => x i - sol i)) (x : Fin n → ℝ) (w : List ℝ)
    (hw : k = .jacobi → w.length = n) : TendTo F k s m b x w sol := by
  have hall : ∀ (j : Nat) (x : Fin n → ℝ) (w : List ℝ), (k = .jacobi → w.length = n) → ∃ (y : Fin n → ℝ) (w' : List ℝ),
      times (Iterative.step F k s m (vec b)) j (vec x, w) = .ok (vec y, w') ∧
      energy A (fun i => y i - sol i) ≤ q ^ j * energy A (fun i => x i - sol i) := by
    intro j
    induction j with
    | zero => intro x w _; exact ⟨x, w, rfl, by simp⟩
    | succ j ih =>
      intro x w hw
      obtain ⟨y, w', h1, hw', h2⟩ := hq x w hw
      obtain ⟨z, w'', h3, h4⟩ := ih y w' hw'
      refine ⟨z, w'', ?_, h4.trans ?_⟩
      · unfold times
        rw [h1]
        exact h3
      · rw [pow_succ, mul_assoc]
        exact mul_le_mul_of_nonneg_left h2 (pow_nonneg hq0 j)
  choose xs ws h1 h2 using fun j => hall j x w hw
  refine ⟨xs, fun j => ⟨_, h1 j⟩, fun ε hε => ?_⟩
  choose c hc hcb using exists_component hA
  have hE0 := energy_nonneg hA (fun i => x i - sol i)
  generalize energy A (fun i => x i - sol i) = E at h2 hE0
  have hC : ∀ i, c i ≤ ∑ l, c l := fun i => Finset.single_le_sum (fun l _ => (hc l).le) (Finset.mem_univ i)
  have hC0 : 0 ≤ ∑ l, c l := Finset.sum_nonneg fun l _ => (hc l).le
  generalize (∑ l, c l) = C at hC hC0
  obtain ⟨J, hJ⟩ := exists_pow_lt_of_lt_one (show 0 < ε ^ 2 / (C * E + 1) by positivity) hq1
  refine ⟨J, fun j hj i => ?_⟩
  have h3 : q ^ j ≤ q ^ J := pow_le_pow_of_le_one hq0 hq1.le hj
  have h4 : (xs j i - sol i) ^ 2 ≤ c i * (q ^ j * E) :=
    (hcb i (fun i => xs j i - sol i)).trans (mul_le_mul_of_nonneg_left (h2 j) (hc i).le)
  have h5 : q ^ J * (C * E + 1) < ε ^ 2 := by rwa [lt_div_iff₀ (by positivity)] at hJ
  have h6 : 0 ≤ q ^ J := pow_nonneg hq0 J
  have h7 : c i * (q ^ j * E) ≤ C * (q ^ J * E) :=
    mul_le_mul (hC i) (mul_le_mul_of_nonneg_right h3 hE0) (mul_nonneg (pow_nonneg hq0 j) hE0) hC0
  exact abs_lt_of_sq_lt_sq (by nlinarith) hε.le

/-! ### C112 -/

/-- C112: successive over relaxation solves strictly diagonally dominant systems, as Jacobi and Gauss Seidel do. -/
def C112 : Prop := ∀ (n : Nat) (m : Sparse ℝ) (A : Fin n → Fin n → ℝ), Square m A → Dominant A →
  ∀ (s : FixedPoint ℝ) (b sol x : Fin n → ℝ) (w : List ℝ), Solves A sol b → TendTo reals .sor s m b x w sol

/-- One iteration for the matrix of the witness. -/
theorem witness_step (s : FixedPoint ℝ) (p q : ℝ) (w : List ℝ) :
    ∃ w', Iterative.step reals .sor s (dense2 2 1 (-1) 2) (vec ![(0 : ℝ), 0]) (vec ![p, q], w) =
      .ok (vec ![-(1 / 2 * p + 3 / 4 * q), -(3 / 8 * p + 17 / 16 * q)], w') := by
  obtain ⟨y, w', h1, -, h2⟩ := step_ok (F := reals) ⟨rfl, rfl⟩ .sor s (dense2_square (2 : ℝ) 1 (-1) 2)
    (by intro i; fin_cases i <;> simp) ![0, 0] ![p, q] w (by simp)
  refine ⟨w', ?_⟩
  rw [h1, Out.ok.injEq, Prod.mk.injEq, vec_inj]
  refine ⟨?_, rfl⟩
  have e0 := h2 0
  have e1 := h2 1
  simp [relaxed, off, Fin.sum_univ_two, factor] at e0 e1
  funext i
  fin_cases i
  · show y 0 = -(1 / 2 * p + 3 / 4 * q)
    rw [e0]; ring
  · show y 1 = -(3 / 8 * p + 17 / 16 * q)
    rw [e1, e0]; ring

/-- The second unknown of the witness never becomes small. -/
theorem witness_large (s : FixedPoint ℝ) (j : Nat) : ∀ (p q : ℝ) (w : List ℝ), 0 ≤ p * q → 1 ≤ |q| → ∃ p' q' w',
    times (Iterative.step reals .sor s (dense2 2 1 (-1) 2) (vec ![(0 : ℝ), 0])) j (vec ![p, q], w) = .ok (vec ![p', q'], w') ∧
      1 ≤ |q'| := by
  induction j with
  | zero => intro p q w _ h2; exact ⟨p, q, w, rfl, h2⟩
  | succ j ih =>
    intro p q w h1 h2
    obtain ⟨w', h3⟩ := witness_step s p q w
    have hq : 1 ≤ q ^ 2 := by
      rw [← sq_abs]
      nlinarith
    obtain ⟨p', q', w'', h4, h5⟩ := ih (-(1 / 2 * p + 3 / 4 * q)) (-(3 / 8 * p + 17 / 16 * q)) w' (by nlinarith [sq_nonneg p]) (by
      have : 1 ≤ (-(3 / 8 * p + 17 / 16 * q)) ^ 2 := by nlinarith [sq_nonneg p]
      rw [← sq_abs] at this
      nlinarith [abs_nonneg (-(3 / 8 * p + 17 / 16 * q))])
    refine ⟨p', q', w'', ?_, h5⟩
    unfold times
    rw [h3]
    exact h4

/-- C112 fails: the relaxation factor, which is always 1.5, is too large for a system with two unknowns. -/
theorem c112_violated : ¬ C112 := by
  intro h
  obtain ⟨xs, h1, h2⟩ := h 2 _ _ (dense2_square (2 : ℝ) 1 (-1) 2) (by
    intro i
    fin_cases i <;> simp [Fin.sum_univ_two]) ⟨⟨0, 0, 0⟩, [], 0⟩ ![0, 0] ![0, 0] ![0, 1] [] (by
    intro i
    fin_cases i <;> simp [Fin.sum_univ_two])
  obtain ⟨J, hJ⟩ := h2 1 one_pos
  obtain ⟨w', h3⟩ := h1 J
  obtain ⟨p', q', w'', h4, h5⟩ := witness_large ⟨⟨0, 0, 0⟩, [], 0⟩ J 0 1 [] (by simp) (by simp)
  rw [h4, Out.ok.injEq, Prod.mk.injEq, vec_inj] at h3
  have h6 := hJ J le_rfl 1
  rw [← h3.1] at h6
  simp at h6
  linarith

/-- C112: what does hold.  Successive over relaxation solves systems whose diagonal is more than three times as large as the
other elements of the row. -/
theorem c112_partial (hF : Exact F) {n : Nat} (m : Sparse ℝ) (A : Fin n → Fin n → ℝ) (h : Square m A)
    (hA : ∀ i, 3 * (∑ j, if j = i then 0 else |A i j|) < |A i i|) (s : FixedPoint ℝ) (b x : Fin n → ℝ) (w : List ℝ) :
    ∃ sol, Solves A sol b ∧ (∀ y, Solves A y b → y = sol) ∧ TendTo F .sor s m b x w sol := by
  have hdom : Dominant A := by
    intro i
    have : 0 ≤ ∑ j, if j = i then 0 else |A i j| := Finset.sum_nonneg fun j _ => by
      split
      · exact le_refl _
      · exact abs_nonneg _
    linarith [hA i]
  have hd := dominant_diag hdom
  obtain ⟨sol, hs, hu⟩ := dominant_solution A hdom b
  refine ⟨sol, hs, hu, ?_⟩
  obtain ⟨q, hq0, hq1, hq⟩ := exists_ratio (fun i j => if j = i then A i i else 3 * A i j) (by
    intro i
    have e : (∑ j, if j = i then (0 : ℝ) else |if j = i then A i i else 3 * A i j|) = 3 * ∑ j, if j = i then 0 else |A i j| := by
      rw [Finset.mul_sum]
      apply Finset.sum_congr rfl
      intro j _
      by_cases hj : j = i
      · simp [hj]
      · simp [hj, abs_mul]
    rw [e]
    simpa using hA i)
  have hq' : ∀ i, (∑ j, if j = i then 0 else |A i j|) ≤ q / 3 * |A i i| := by
    intro i
    have h1 := hq i
    have e : (∑ j, if j = i then (0 : ℝ) else |if j = i then A i i else 3 * A i j|) = 3 * ∑ j, if j = i then 0 else |A i j| := by
      rw [Finset.mul_sum]
      apply Finset.sum_congr rfl
      intro j _
      by_cases hj : j = i
      · simp [hj]
      · simp [hj, abs_mul]
    rw [e] at h1
    simp only [if_true] at h1
    linarith
  refine tendTo_of_contracts (q := (q + 1) / 2) (by linarith) (by linarith) (fun x w _ => ?_) x w (by simp)
  obtain ⟨y, w', h1, h1', h2⟩ := step_ok hF .sor s h hd b x w (by simp)
  refine ⟨y, w', h1, h1', fun E hE => ?_⟩
  have : ∀ l, ∀ i : Fin n, i.1 < l → |y i - sol i| ≤ (q + 1) / 2 * E := by
    intro l
    induction l with
    | zero => intro i hi; exact absurd hi (Nat.not_lt_zero _)
    | succ l ih =>
      intro i hi
      have hE0 : 0 ≤ E := (abs_nonneg _).trans (hE i)
      have hle : (q + 1) / 2 * E ≤ E := by nlinarith
      have h3 := h2 i
      simp only [reduceCtorEq, if_false] at h3
      have h4 : y i - sol i = 3 / 2 * (relaxed A b 1 (fun j => if j < i then y j else x j) i - sol i) +
          -(1 / 2) * (x i - sol i) := by
        rw [h3]
        unfold relaxed factor
        simp only [lt_irrefl, if_false]
        ring
      have h5 : |relaxed A b 1 (fun j => if j < i then y j else x j) i - sol i| ≤ q / 3 * E := by
        rw [relaxed_error A b sol _ hs (hd i)]
        apply off_bound A _ i (q / 3) E _ hE0 (hq' i) (hd i)
        intro j _
        show |(if j < i then y j else x j) - sol j| ≤ E
        split
        · rename_i hj
          exact (ih j (by have : j.1 < i.1 := hj; omega)).trans hle
        · exact hE j
      rw [h4]
      refine (abs_add_le _ _).trans ?_
      rw [abs_mul, abs_mul, abs_of_pos (by norm_num : (0 : ℝ) < 3 / 2), abs_neg, abs_of_pos (by norm_num : (0 : ℝ) < 1 / 2)]
      linarith [hE i]
  intro i
  exact this (i.1 + 1) i (by omega)

example : ∀ i, 3 * (∑ j, if j = i then 0 else |(![![4, 1], ![-1, 5]] : Fin 2 → Fin 2 → ℝ) i j|) <
    |(![![4, 1], ![-1, 5]] : Fin 2 → Fin 2 → ℝ) i i| := by
  intro i
  fin_cases i <;> simp [Fin.sum_univ_two] <;> norm_num

/-! ### C113 -/

/-- C113: Jacobi solves symmetric positive definite systems, as Gauss Seidel and successive over relaxation do. -/
def C113 : Prop := ∀ (n : Nat) (m : Sparse ℝ) (A : Fin n → Fin n → ℝ), Square m A → PositiveDefinite A →
  ∀ (s : FixedPoint ℝ) (b sol x : Fin n → ℝ) (w : List ℝ), w.length = n → Solves A sol b → TendTo reals .jacobi s m b x w sol

/-- A matrix with all nine elements stored: `1` on the diagonal and `a` elsewhere. -/
def dense3 {K : Type} [One K] (a : K) : Sparse K := ⟨[0, 3, 6, 9], [0, 1, 2, 0, 1, 2, 0, 1, 2], [1, a, a, a, 1, a, a, a, 1], 3⟩

theorem dense3_square {K : Type} [Field K] (a : K) : Square (dense3 a) (fun i j : Fin 3 => if i = j then 1 else a) := by
  refine ⟨Built.ofLists (nz := [0, 3, 6, 9]) (ix := [0, 1, 2, 0, 1, 2, 0, 1, 2]) (vs := [1, a, a, a, 1, a, a, a, 1]) (c := 3)
    (by simp [sizeMax]) (by simp [sizeMax])
    (by simp [dense3, Sparse.ofLists, loop, Sparse.listBody, rd, slice, overwrite, assert]), rfl, rfl, ?_⟩
  intro i j
  fin_cases i <;> fin_cases j <;> rfl

theorem dense3_definite : PositiveDefinite (fun i j : Fin 3 => if i = j then (1 : ℝ) else 3 / 4) := by
  refine ⟨by intro i j; simp only [eq_comm], fun v hv => ?_⟩
  have h1 : (∑ i : Fin 3, ∑ j : Fin 3, v i * (if i = j then (1 : ℝ) else 3 / 4) * v j) =
      1 / 4 * (v 0 ^ 2 + v 1 ^ 2 + v 2 ^ 2) + 3 / 4 * (v 0 + v 1 + v 2) ^ 2 := by
    simp [Fin.sum_univ_three]
    ring
  rw [h1]
  have h2 : 0 < v 0 ^ 2 + v 1 ^ 2 + v 2 ^ 2 := by
    by_contra hc
    have e0 : v 0 = 0 := by nlinarith [sq_nonneg (v 0), sq_nonneg (v 1), sq_nonneg (v 2)]
    have e1 : v 1 = 0 := by nlinarith [sq_nonneg (v 0), sq_nonneg (v 1), sq_nonneg (v 2)]
    have e2 : v 2 = 0 := by nlinarith [sq_nonneg (v 0), sq_nonneg (v 1), sq_nonneg (v 2)]
    exact hv (funext fun i => by fin_cases i; exacts [e0, e1, e2])
  nlinarith [sq_nonneg (v 0 + v 1 + v 2)]

theorem dense3_times (s : FixedPoint ℝ) (j : Nat) : ∀ (p : ℝ) (w : List ℝ), w.length = 3 → 1 ≤ |p| → ∃ (p' : ℝ) (w' : List ℝ),
    times (Iterative.step reals .jacobi s (dense3 (3 / 4)) (vec fun _ : Fin 3 => (0 : ℝ))) j (vec fun _ : Fin 3 => p, w) =
      .ok (vec fun _ : Fin 3 => p', w') ∧ 1 ≤ |p'| := by
  induction j with
  | zero => intro p w _ h2; exact ⟨p, w, rfl, h2⟩
  | succ j ih =>
    intro p w h1 h2
    obtain ⟨y, w', h3, h4, h5⟩ := step_ok (F := reals) ⟨rfl, rfl⟩ .jacobi s (dense3_square (3 / 4 : ℝ))
      (by intro i; simp) (fun _ => 0) (fun _ => p) w (fun _ => h1)
    have hy : y = fun _ => -(3 / 2) * p := by
      funext i
      rw [h5 i]
      fin_cases i <;> simp [relaxed, off, Fin.sum_univ_three, factor] <;> ring
    obtain ⟨p', w'', h6, h7⟩ := ih (-(3 / 2) * p) w' (h4 rfl) (by
      rw [abs_mul, abs_neg, abs_of_pos (by norm_num : (0 : ℝ) < 3 / 2)]
      linarith)
    refine ⟨p', w'', ?_, h7⟩
    unfold times
    rw [h3, hy]
    exact h6

/-- C113 fails: a system with three unknowns. -/
theorem c113_violated : ¬ C113 := by
  intro h
  obtain ⟨xs, h1, h2⟩ := h 3 _ _ (dense3_square (3 / 4 : ℝ)) dense3_definite ⟨⟨0, 0, 0⟩, [], 0⟩ (fun _ => 0) (fun _ => 0)
    (fun _ => 1) [0, 0, 0] rfl (by intro i; simp)
  obtain ⟨J, hJ⟩ := h2 1 one_pos
  obtain ⟨w', h3⟩ := h1 J
  obtain ⟨p', w'', h4, h5⟩ := dense3_times ⟨⟨0, 0, 0⟩, [], 0⟩ J 1 [0, 0, 0] rfl (by simp)
  rw [h4, Out.ok.injEq, Prod.mk.injEq, vec_inj] at h3
  have h6 := hJ J le_rfl 0
  rw [← h3.1] at h6
  simp at h6
  linarith

/-- One Jacobi iteration reduces the energy if the matrix with the other signs off the diagonal is positive definite too. -/
theorem jacobi_reduction {n : Nat} {A : Fin n → Fin n → ℝ} (hA : PositiveDefinite A)
    (hB : PositiveDefinite fun i j => if i = j then A i i else -A i j) : ∃ q : ℝ, 0 ≤ q ∧ q < 1 ∧ ∀ b s x : Fin n → ℝ, Solves A s b →
      energy A (fun k => relaxed A b 1 x k - s k) ≤ q * energy A (fun k => x k - s k) := by
  have hd : ∀ i, A i i ≠ 0 := fun i => (diag_pos hA i).ne'
  choose c hc hcb using exists_component hB
  obtain ⟨d, hd0, hdb⟩ := exists_energy_bound hA
  have hC : 0 ≤ ∑ i, d i * A i i ^ 2 * c i := Finset.sum_nonneg fun i _ =>
    mul_nonneg (mul_nonneg (hd0 i).le (sq_nonneg _)) (hc i).le
  obtain ⟨C, hCdef⟩ : ∃ C, C = ∑ i, d i * A i i ^ 2 * c i := ⟨_, rfl⟩
  rw [← hCdef] at hC
  refine ⟨1 - 1 / (C + 1), ?_, ?_, fun b s x hs => ?_⟩
  · rw [sub_nonneg, div_le_one (by linarith)]; linarith
  · have : 0 < 1 / (C + 1) := by positivity
    linarith
  · obtain ⟨e, he⟩ : ∃ e, e = fun k => x k - s k := ⟨_, rfl⟩
    obtain ⟨w, hw⟩ : ∃ w : Fin n → ℝ, w = fun k => apply A e k / A k k := ⟨_, rfl⟩
    have h1 : (fun k => relaxed A b 1 x k - s k) = fun k => e k + (-1) * w k := by
      funext k
      have h2 := hs k
      have h3 : apply A e k = off A x k + A k k * x k - b k := by
        rw [← h2, he, ← off_add]
        unfold apply
        rw [← Finset.sum_sub_distrib]
        exact Finset.sum_congr rfl fun j _ => by ring
      have h4 : w k = (off A x k + A k k * x k - b k) / A k k := by rw [hw, ← h3]
      rw [h4, he]
      unfold relaxed
      have := hd k
      field_simp
      ring
    have h2 : ∀ i, apply A e i = A i i * w i := fun i => by
      rw [hw]
      have := hd i
      field_simp
    have h3 : energy (fun i j => if i = j then A i i else -A i j) w = 2 * (∑ i, w i * apply A e i) - energy A w := by
      simp only [h2]
      unfold energy
      rw [Finset.mul_sum, ← Finset.sum_sub_distrib]
      apply Finset.sum_congr rfl
      intro i _
      have h4 : ∀ j, w i * (if i = j then A i i else -A i j) * w j = (if i = j then 2 * (w i * (A i i * w i)) else 0) - w i * A i j * w j := by
        intro j
        by_cases hj : i = j
        · subst hj; simp; ring
        · simp [hj]
      rw [Finset.sum_congr rfl fun j _ => h4 j, Finset.sum_sub_distrib]
      simp
    rw [h1, energy_line hA.1, ← he]
    have h5 : energy A e ≤ C * energy (fun i j => if i = j then A i i else -A i j) w := by
      refine (hdb e).trans ?_
      rw [hCdef, Finset.sum_mul]
      apply Finset.sum_le_sum
      intro i _
      rw [h2 i]
      have h6 := hcb i w
      have h7 : 0 ≤ d i * A i i ^ 2 := mul_nonneg (hd0 i).le (sq_nonneg _)
      have h8 := mul_le_mul_of_nonneg_left h6 h7
      calc d i * (A i i * w i) ^ 2 = d i * A i i ^ 2 * w i ^ 2 := by ring
        _ ≤ _ := h8
        _ = _ := by ring
    have h6 := energy_nonneg hB w
    rw [h3] at h5 h6
    obtain ⟨Q, hQ⟩ : ∃ Q, Q = 2 * (∑ i, w i * apply A e i) - energy A w := ⟨_, rfl⟩
    rw [← hQ] at h5 h6
    have h7 : 1 / (C + 1) * energy A e ≤ Q := by
      rw [div_mul_eq_mul_div, one_mul, div_le_iff₀ (by linarith)]
      linarith
    linarith

/-- C113: what does hold.  Jacobi solves symmetric positive definite systems if the matrix with the other signs off the diagonal
is positive definite too. -/
theorem c113_partial (hF : Exact F) {n : Nat} (m : Sparse ℝ) (A : Fin n → Fin n → ℝ) (h : Square m A) (hA : PositiveDefinite A)
    (hB : PositiveDefinite fun i j => if i = j then A i i else -A i j) (s : FixedPoint ℝ) (b x : Fin n → ℝ) (w : List ℝ)
    (hw : w.length = n) : ∃ sol, Solves A sol b ∧ TendTo F .jacobi s m b x w sol := by
  obtain ⟨sol, hs⟩ := exists_unit hA b
  obtain ⟨q, hq0, hq1, hq⟩ := jacobi_reduction hA hB
  refine ⟨sol, hs, tendTo_of_energy hA hq0 hq1 (fun x w hw => ?_) x w (fun _ => hw)⟩
  obtain ⟨y, w', h1, h2, h3⟩ := step_ok hF .jacobi s h (fun i => (diag_pos hA i).ne') b x w hw
  refine ⟨y, w', h1, h2, ?_⟩
  have : y = relaxed A b 1 x := by
    funext i
    rw [h3 i]
    rfl
  rw [this]
  exact hq b sol x hs

/-- The hypotheses are met by a matrix with two rows. -/
example : Square (dense2 (2 : ℝ) 1 1 2) ![![2, 1], ![1, 2]] ∧ PositiveDefinite (![![2, 1], ![1, 2]] : Fin 2 → Fin 2 → ℝ) ∧
    PositiveDefinite (fun i j => if i = j then (![![2, 1], ![1, 2]] : Fin 2 → Fin 2 → ℝ) i i
      else -(![![2, 1], ![1, 2]] : Fin 2 → Fin 2 → ℝ) i j) := by
  have h : ∀ v : Fin 2 → ℝ, v ≠ 0 → v 0 ≠ 0 ∨ v 1 ≠ 0 := by
    intro v hv
    by_contra hc
    push Not at hc
    exact hv (funext fun i => by fin_cases i; exacts [hc.1, hc.2])
  refine ⟨dense2_square _ _ _ _, ⟨by intro i j; fin_cases i <;> fin_cases j <;> rfl, fun v hv => ?_⟩,
    ⟨by intro i j; fin_cases i <;> fin_cases j <;> simp, fun v hv => ?_⟩⟩
  · simp only [Fin.sum_univ_two, Matrix.cons_val_zero, Matrix.cons_val_one]
    rcases h v hv with h1 | h1
    · nlinarith [sq_nonneg (v 0 + v 1), sq_nonneg (v 1), pow_pos (abs_pos.mpr h1) 2, sq_abs (v 0)]
    · nlinarith [sq_nonneg (v 0 + v 1), sq_nonneg (v 0), pow_pos (abs_pos.mpr h1) 2, sq_abs (v 1)]
  · simp [Fin.sum_univ_two]
    rcases h v hv with h1 | h1
    · nlinarith [sq_nonneg (v 0 - v 1), sq_nonneg (v 1), pow_pos (abs_pos.mpr h1) 2, sq_abs (v 0)]
    · nlinarith [sq_nonneg (v 0 - v 1), sq_nonneg (v 0), pow_pos (abs_pos.mpr h1) 2, sq_abs (v 1)]

end Disa.Props
