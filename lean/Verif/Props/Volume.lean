import Verif.Props.Iterative
import Mathlib.LinearAlgebra.Matrix.AbsoluteValue
import Mathlib.LinearAlgebra.Matrix.Block
import Mathlib.Data.Nat.Factorial.Basic
import Mathlib.Tactic.Linarith

/-!
# C177: successive over relaxation at best halves the error

The solver always relaxes with the factor 1.5.  Run it from as many starting vectors as there are unknowns: whatever the
matrix, an iteration multiplies the determinant of the errors by `(-1/2) ^ n`.  So there are starting vectors whose error is
at least halved only.
-/

namespace Disa.Props

open Disa Spec Dense Iterative

section Field

variable {K : Type} [Field K] [LinearOrder K] [IsStrictOrderedRing K] {N : Type} {F : Scalars K N}

/-- The errors of `n` vectors as a matrix: one column for each. -/
def errors {n : Nat} (X : Fin n → Fin n → K) (sol : Fin n → K) : Matrix (Fin n) (Fin n) K := .of fun i c => X c i - sol i

/-- One relaxation: the errors before and after are related by triangular matrices. -/
theorem errors_step {n : Nat} {A : Fin n → Fin n → K} (hd : ∀ i, A i i ≠ 0) {b sol : Fin n → K} (hs : Solves A sol b) (om : K)
    {X Y : Fin n → Fin n → K} (h : ∀ c i, Y c i = relaxed A b om (fun j => if j < i then Y c j else X c j) i) :
    (errors Y sol).det = (1 - om) ^ n * (errors X sol).det := by
  let P : Matrix (Fin n) (Fin n) K := .of fun i j => if j < i then om / A i i * A i j else if j = i then 1 else 0
  let Q : Matrix (Fin n) (Fin n) K := .of fun i j => if j < i then 0 else if j = i then 1 - om else -(om / A i i * A i j)
  have hPQ : P * errors Y sol = Q * errors X sol := by
    ext i c
    simp only [Matrix.mul_apply, P, Q, errors, Matrix.of_apply]
    have e1 := h c i
    have e2 := hs i
    rw [off_add] at e2
    unfold relaxed off at e1
    unfold off at e2
    simp only [lt_self_iff_false, if_false] at e1
    rw [← e2] at e1
    have hii := hd i
    have e3 : Y c i - sol i = (1 - om) * (X c i - sol i) -
        om / A i i * ∑ j, (if j = i then 0 else A i j * ((if j < i then Y c j else X c j) - sol j)) := by
      have : ∑ j, (if j = i then 0 else A i j * ((if j < i then Y c j else X c j) - sol j)) =
          (∑ j, if j = i then 0 else A i j * (if j < i then Y c j else X c j)) - ∑ j, if j = i then 0 else A i j * sol j := by
        rw [← Finset.sum_sub_distrib]
        refine Finset.sum_congr rfl fun j _ => ?_
        split
        · simp
        · ring
      rw [this, e1]
      field_simp
      ring
    have e4 : ∑ j, (if j < i then om / A i i * A i j else if j = i then 1 else 0) * (Y c j - sol j) =
        (Y c i - sol i) + ∑ j, if j < i then om / A i i * (A i j * (Y c j - sol j)) else 0 := by
      have : ∀ j, (if j < i then om / A i i * A i j else if j = i then 1 else 0) * (Y c j - sol j) =
          (if j = i then Y c i - sol i else 0) + if j < i then om / A i i * (A i j * (Y c j - sol j)) else 0 := by
        intro j
        by_cases h1 : j < i
        · simp [h1, h1.ne]; ring
        · by_cases h2 : j = i
          · subst h2; simp
          · simp [h1, h2]
      simp only [this, Finset.sum_add_distrib, Finset.sum_ite_eq', Finset.mem_univ, if_true]
    have e5 : ∑ j, (if j < i then 0 else if j = i then 1 - om else -(om / A i i * A i j)) * (X c j - sol j) =
        (1 - om) * (X c i - sol i) - ∑ j, if i < j then om / A i i * (A i j * (X c j - sol j)) else 0 := by
      have : ∀ j, (if j < i then 0 else if j = i then 1 - om else -(om / A i i * A i j)) * (X c j - sol j) =
          (if j = i then (1 - om) * (X c i - sol i) else 0) - if i < j then om / A i i * (A i j * (X c j - sol j)) else 0 := by
        intro j
        rcases lt_trichotomy j i with h1 | h1 | h1
        · simp [h1, h1.ne, h1.not_gt]
        · subst h1; simp
        · simp [h1, h1.ne', h1.not_gt]; ring
      simp only [this, Finset.sum_sub_distrib, Finset.sum_ite_eq', Finset.mem_univ, if_true]
    have e6 : om / A i i * ∑ j, (if j = i then 0 else A i j * ((if j < i then Y c j else X c j) - sol j)) =
        (∑ j, if j < i then om / A i i * (A i j * (Y c j - sol j)) else 0) +
          ∑ j, if i < j then om / A i i * (A i j * (X c j - sol j)) else 0 := by
      rw [Finset.mul_sum, ← Finset.sum_add_distrib]
      refine Finset.sum_congr rfl fun j _ => ?_
      rcases lt_trichotomy j i with h1 | h1 | h1
      · simp [h1, h1.ne, h1.not_gt]
      · subst h1; simp
      · simp [h1, h1.ne', h1.not_gt]
    rw [e4, e5, e3, e6]
    ring
  have hP : P.det = 1 := by
    rw [Matrix.det_of_isLowerTriangular P (by
      intro i j hij
      have : i < j := hij
      simp [P, this.not_gt, this.ne'])]
    simp [P]
  have hQ : Q.det = (1 - om) ^ n := by
    rw [Matrix.det_of_isUpperTriangular (M := Q) (by
      intro i j hij
      have : j < i := hij
      simp [Q, this])]
    simp [Q]
  have := congrArg Matrix.det hPQ
  rw [Matrix.det_mul, Matrix.det_mul, hP, hQ, one_mul] at this
  exact this

/-- Iterations from `n` starting vectors. -/
theorem errors_times (hF : Exact F) {n : Nat} (m : Sparse K) (A : Fin n → Fin n → K) (h : Square m A) (hd : ∀ i, A i i ≠ 0)
    (k : Method) (hk : k ≠ .jacobi) (s : FixedPoint K) (b sol : Fin n → K) (hs : Solves A sol b) (j : Nat) :
    ∀ (X : Fin n → Fin n → K) (w : Fin n → List K), ∃ Y : Fin n → Fin n → K,
      (∀ c, ∃ w', times (Iterative.step F k s m (vec b)) j (vec (X c), w c) = .ok (vec (Y c), w')) ∧
      (errors Y sol).det = ((1 - factor K k) ^ n) ^ j * (errors X sol).det := by
  induction j with
  | zero => intro X w; exact ⟨X, fun c => ⟨w c, rfl⟩, by simp⟩
  | succ j ih =>
    intro X w
    choose Z w' h1 _ h2 using fun c => step_ok hF k s h hd b (X c) (w c) (fun e => absurd e hk)
    obtain ⟨Y, h3, h4⟩ := ih Z w'
    refine ⟨Y, fun c => ?_, ?_⟩
    · obtain ⟨w'', h5⟩ := h3 c
      refine ⟨w'', ?_⟩
      unfold times
      rw [h1 c]
      exact h5
    · rw [h4, errors_step hd hs (factor K k) (X := X) (Y := Z) (fun c i => by rw [h2 c i, if_neg hk]), pow_succ, mul_assoc]

/-! ### C177 -/

/-- C177: successive over relaxation multiplies the determinant of the errors of `n` starting vectors by `(-1/2) ^ n` in each
iteration, for every matrix that it can be applied to. -/
theorem c177_volume (hF : Exact F) {n : Nat} (m : Sparse K) (A : Fin n → Fin n → K) (h : Square m A) (hd : ∀ i, A i i ≠ 0)
    (s : FixedPoint K) (b sol : Fin n → K) (hs : Solves A sol b) (X : Fin n → Fin n → K) (w : Fin n → List K) (j : Nat) :
    ∃ Y : Fin n → Fin n → K,
      (∀ c, ∃ w', times (Iterative.step F .sor s m (vec b)) j (vec (X c), w c) = .ok (vec (Y c), w')) ∧
      (Matrix.of fun i c => Y c i - sol i).det = (-1 / 2) ^ (n * j) * (Matrix.of fun i c => X c i - sol i).det := by
  obtain ⟨Y, h1, h2⟩ := errors_times hF m A h hd .sor (by simp) s b sol hs j X w
  refine ⟨Y, h1, ?_⟩
  have : (1 : K) - factor K .sor = -1 / 2 := by simp only [factor]; norm_num
  rw [this, ← pow_mul] at h2
  exact h2

/-- C177: after an iteration of Gauss Seidel the errors of any `n` starting vectors are linearly dependent. -/
theorem c177_gauss_seidel (hF : Exact F) {n : Nat} (hn : 0 < n) (m : Sparse K) (A : Fin n → Fin n → K) (h : Square m A)
    (hd : ∀ i, A i i ≠ 0) (s : FixedPoint K) (b sol : Fin n → K) (hs : Solves A sol b) (X : Fin n → Fin n → K)
    (w : Fin n → List K) (j : Nat) : ∃ Y : Fin n → Fin n → K,
      (∀ c, ∃ w', times (Iterative.step F .gaussSeidel s m (vec b)) (j + 1) (vec (X c), w c) = .ok (vec (Y c), w')) ∧
      (Matrix.of fun i c => Y c i - sol i).det = 0 := by
  obtain ⟨Y, h1, h2⟩ := errors_times hF m A h hd .gaussSeidel (by simp) s b sol hs (j + 1) X w
  refine ⟨Y, h1, ?_⟩
  have : (1 : K) - factor K .gaussSeidel = 0 := by simp [factor]
  rw [this, zero_pow hn.ne', zero_pow (by omega), zero_mul] at h2
  exact h2

/-- C177: whatever the matrix, for every number of iterations there is a starting vector that differs from the solution by
one in one element, such that an element is still off by at least `(1/2) ^ j / n` after `j` iterations of successive over
relaxation. -/
theorem c177_slow (hF : Exact F) {n : Nat} (hn : 0 < n) (m : Sparse K) (A : Fin n → Fin n → K) (h : Square m A)
    (hd : ∀ i, A i i ≠ 0) (s : FixedPoint K) (b sol : Fin n → K) (hs : Solves A sol b) (w : List K) (j : Nat) :
    ∃ (c : Fin n) (y : Fin n → K) (w' : List K),
      times (Iterative.step F .sor s m (vec b)) j (vec (fun i => if i = c then sol i + 1 else sol i), w) = .ok (vec y, w') ∧
      ∃ i, (1 / 2) ^ j / n ≤ |y i - sol i| := by
  obtain ⟨Y, h1, h2⟩ := c177_volume hF m A h hd s b sol hs (fun c i => if i = c then sol i + 1 else sol i) (fun _ => w) j
  have hone : (Matrix.of fun i c : Fin n => (if i = c then sol i + 1 else sol i) - sol i) = 1 := by
    ext i c
    by_cases hic : i = c
    · subst hic; simp
    · simp [hic]
  rw [hone, Matrix.det_one, mul_one] at h2
  by_contra hcon
  push Not at hcon
  have hall : ∀ c i, |Y c i - sol i| < (1 / 2) ^ j / n := fun c i => by
    obtain ⟨w', h3⟩ := h1 c
    exact hcon c (Y c) w' h3 i
  have : Nonempty (Fin n × Fin n) := ⟨(⟨0, hn⟩, ⟨0, hn⟩)⟩
  obtain ⟨⟨c0, i0⟩, hmax⟩ := Finite.exists_max fun p : Fin n × Fin n => |Y p.1 p.2 - sol p.2|
  have hlt := hall c0 i0
  have hdet := Matrix.det_le (A := Matrix.of fun i c => Y c i - sol i) (abv := AbsoluteValue.abs)
    (x := |Y c0 i0 - sol i0|) (fun i c => hmax (c, i))
  have hab : |((-1 / 2 : K) ^ (n * j))| = (1 / 2) ^ (n * j) := by
    rw [abs_pow]
    congr 1
    rw [abs_div, abs_neg, abs_one, abs_two]
  rw [h2, Fintype.card_fin, nsmul_eq_mul] at hdet
  change |((-1 / 2 : K) ^ (n * j))| ≤ _ at hdet
  rw [hab] at hdet
  have h0 : 0 ≤ |Y c0 i0 - sol i0| := abs_nonneg _
  have hn' : (0 : K) < n := by exact_mod_cast hn
  have h3 : |Y c0 i0 - sol i0| ^ n < ((1 / 2) ^ j / n) ^ n := pow_lt_pow_left₀ hlt h0 hn.ne'
  have h4 : ((n.factorial : Nat) : K) ≤ (n : K) ^ n := by exact_mod_cast n.factorial_le_pow
  have h5 : (0 : K) < (n.factorial : Nat) := by exact_mod_cast n.factorial_pos
  have h6 : ((n.factorial : Nat) : K) * |Y c0 i0 - sol i0| ^ n < (n : K) ^ n * ((1 / 2) ^ j / n) ^ n := by
    calc _ < ((n.factorial : Nat) : K) * ((1 / 2) ^ j / n) ^ n := mul_lt_mul_of_pos_left h3 h5
      _ ≤ _ := mul_le_mul_of_nonneg_right h4 (by positivity)
  rw [← mul_pow, mul_div_cancel₀ _ hn'.ne', ← pow_mul, mul_comm j n] at h6
  linarith

end Field

/-- A matrix with two unknowns that satisfies the assumptions, with the solution `(1, 1)`. -/
example : Square (dense2 (2 : ℚ) 1 (-1) 2) ![![2, 1], ![-1, 2]] ∧ (∀ i, (![![2, 1], ![-1, 2]] : Fin 2 → Fin 2 → ℚ) i i ≠ 0) ∧
    Solves (![![2, 1], ![-1, 2]] : Fin 2 → Fin 2 → ℚ) ![1, 1] ![3, 1] := by
  refine ⟨dense2_square (2 : ℚ) 1 (-1) 2, fun i => by fin_cases i <;> simp, fun i => ?_⟩
  fin_cases i <;> simp [Fin.sum_univ_two] <;> norm_num

end Disa.Props
