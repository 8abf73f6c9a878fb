import Verif.Props.Solve

/-!
# Properties C48, C86 to C90 and C92: residuals and the end of solves
-/

namespace Disa.Props

open Disa Spec Disa.Dense Iterative

/-! ### C48 -/

/-- `compute_residual` returns the two norms for all square systems. -/
def C48 : Prop := ∀ (n : Nat) (m : Sparse ℝ) (A : Fin n → Fin n → ℝ), Square m A → 0 < n → ∀ x b : Fin n → ℝ,
  computeResidual reals m (vec x) (vec b) = .ok (norm2 A x b, normMax A x b)

theorem norm2_eq_zero {n : Nat} (A : Fin n → Fin n → ℝ) (x b : Fin n → ℝ) (hn : 0 < n) : norm2 A x b = 0 ↔ Solves A x b := by
  unfold norm2 Solves
  have hn' : (0 : ℝ) < n := by exact_mod_cast hn
  have h0 : 0 ≤ ∑ i, defect A x b i ^ 2 := Finset.sum_nonneg fun i _ => sq_nonneg _
  rw [Real.sqrt_eq_zero (div_nonneg h0 hn'.le), div_eq_zero_iff, or_iff_left hn'.ne',
    Finset.sum_eq_zero_iff_of_nonneg fun i _ => sq_nonneg _]
  constructor
  · intro h i
    have := h i (Finset.mem_univ _)
    rw [sq_eq_zero_iff] at this
    exact sub_eq_zero.mp this
  · intro h i _
    rw [sq_eq_zero_iff]
    exact sub_eq_zero.mpr (h i)

theorem normMax_nonneg {n : Nat} (A : Fin n → Fin n → ℝ) (x b : Fin n → ℝ) : 0 ≤ normMax A x b :=
  Real.iSup_nonneg fun i => abs_nonneg _

theorem norm2_nonneg {n : Nat} (A : Fin n → Fin n → ℝ) (x b : Fin n → ℝ) : 0 ≤ norm2 A x b := Real.sqrt_nonneg _

theorem normMax_eq_zero {n : Nat} (A : Fin n → Fin n → ℝ) (x b : Fin n → ℝ) : normMax A x b = 0 ↔ Solves A x b := by
  constructor
  · intro h i
    have := defect_le_normMax A x b i
    rw [h] at this
    exact sub_eq_zero.mp (abs_nonpos_iff.mp this)
  · intro h
    apply le_antisymm _ (normMax_nonneg A x b)
    apply Real.iSup_le _ le_rfl
    intro i
    have : defect A x b i = 0 := sub_eq_zero.mpr (h i)
    rw [this, abs_zero]

/-- The norms are returned for square systems with fewer than 2^31 rows, and are zero exactly for solutions. -/
theorem c48_partial {n : Nat} (m : Sparse ℝ) (A : Fin n → Fin n → ℝ) (h : Square m A) (hn0 : 0 < n) (hn : n < 2 ^ 31)
    (x b : Fin n → ℝ) : computeResidual reals m (vec x) (vec b) = .ok (norm2 A x b, normMax A x b) ∧
      (norm2 A x b = 0 ↔ Solves A x b) ∧ (normMax A x b = 0 ↔ Solves A x b) :=
  ⟨computeResidual_ok h x b hn0 (by unfold intMax; omega), norm2_eq_zero A x b hn0, normMax_eq_zero A x b⟩

/-- The row counter overflows for all larger systems. -/
theorem c48_large {n : Nat} (m : Sparse ℝ) (A : Fin n → Fin n → ℝ) (h : Square m A) (hn : 2 ^ 31 ≤ n) (x b : Fin n → ℝ) :
    computeResidual reals m (vec x) (vec b) = .ub := by
  have hlen : ((vec x).length != 0 && (vec b).length != 0) = true := by
    simp only [vec_length]
    simp
    omega
  have hi : intMax < n := by unfold intMax; omega
  have hrow : ∀ k (hk : k < n) st, residualBody reals m (vec x) (vec b) k st = if k = intMax then .ub else
      .ok (st.1 + defect A x b ⟨k, hk⟩ * defect A x b ⟨k, hk⟩,
        if reals.lt st.2 (defect A x b ⟨k, hk⟩ * defect A x b ⟨k, hk⟩) then
          defect A x b ⟨k, hk⟩ * defect A x b ⟨k, hk⟩ else st.2) := by
    intro k hk st
    have hr : k < m.sizeRow := by rw [h.2.1]; exact hk
    have hrow := rowDot_ok h x ⟨k, hk⟩
    simp only at hrow
    unfold residualBody
    simp only [hr, decide_true, assert_true, Out.ok_bind, hrow, rd_vec b hk]
    rfl
  obtain ⟨st, h1, -⟩ := loop_inv (n := intMax) (s := ((0 : ℝ), (0 : ℝ))) (body := residualBody reals m (vec x) (vec b))
    (fun _ _ => True) trivial (fun k st hk _ => by
      rw [hrow k (by omega) st, if_neg (by omega)]
      exact ⟨_, rfl, trivial⟩)
  have hub : residualBody reals m (vec x) (vec b) intMax st = .ub := by rw [hrow intMax hi st, if_pos rfl]
  unfold computeResidual
  rw [hlen]
  simp only [vec_length, h.2.1, h.2.2.1, beq_self_eq_true, assert_true, Out.ok_bind, loop_fail hi h1 hub]
  rfl

theorem sized_square (n : Nat) (hn : n < sizeMax) : Square (Sparse.sized n n : Sparse ℝ) (fun _ _ : Fin n => 0) := by
  have hw : wrap (n + 1) = n + 1 := by
    unfold wrap
    unfold sizeMax at hn
    exact Nat.mod_eq_of_lt (by omega)
  have hr : (Sparse.sized n n : Sparse ℝ).sizeRow = n := by
    unfold Sparse.sized Sparse.sizeRow
    simp [hw]
  have hb : Built false (Sparse.sized n n : Sparse ℝ) := Built.sized hn
  refine ⟨hb, hr, rfl, fun i j => ?_⟩
  have h5 : (Sparse.sized n n : Sparse ℝ).Rep (List.replicate n []) := Sparse.rep_sized hn n
  unfold val
  rw [Sparse.lookup_ok h5 (by simp) j.1]
  simp [Sparse.entry, Sparse.row_replicate_nil]

theorem c48_violated : ¬ C48 := by
  intro h
  have h1 := sized_square (2 ^ 31) (by unfold sizeMax; norm_num)
  have h2 := h _ _ _ h1 (by norm_num) (fun _ => 0) (fun _ => 0)
  rw [c48_large _ _ h1 le_rfl] at h2
  cases h2

/-! ### The course of a solve -/

theorem times_succ_right {σ : Type} (f : σ → Out σ) (j : Nat) (s : σ) : times f (j + 1) s = times f j s >>= f := by
  induction j generalizing s with
  | zero =>
    show f s >>= times f 0 = f s
    cases f s <;> rfl
  | succ j ih =>
    show f s >>= times f (j + 1) = (f s >>= times f j) >>= f
    cases h : f s with
    | ok t => exact ih t
    | _ => rfl

/-- The convergence data after `j` iterations with the iterates `xs`. -/
noncomputable def data {n : Nat} (A : Fin n → Fin n → ℝ) (b : Fin n → ℝ) (xs : Nat → Fin n → ℝ) (j : Nat) : Conv ℝ Quot :=
  ⟨false, j, norm2 A (xs j) b, norm2 A (xs 1) b, reals.ratio (norm2 A (xs j) b) (norm2 A (xs 1) b),
    normMax A (xs j) b, normMax A (xs 1) b, reals.ratio (normMax A (xs j) b) (normMax A (xs 1) b)⟩

theorem passes (k : Method) (s : FixedPoint ℝ) {n : Nat} {m : Sparse ℝ} {A : Fin n → Fin n → ℝ} (h : Square m A)
    (hd : ∀ i, A i i ≠ 0) (hn0 : 0 < n) (hn : n < 2 ^ 31) (b x : Fin n → ℝ) (w : List ℝ) (hw : k = .jacobi → w.length = n) :
    ∃ (xs : Nat → Fin n → ℝ) (ws : Nat → List ℝ), xs 0 = x ∧
      (∀ j, times (step reals k s m (vec b)) j (vec x, w) = .ok (vec (xs j), ws j)) ∧
      (∀ j, k = .jacobi → (ws j).length = n) ∧
      ∀ j, j + 1 ≤ sizeMax → times (pass reals k s m (vec b)) (j + 1) ((vec x, w), Conv.new reals) =
        .ok ((vec (xs (j + 1)), ws (j + 1)), data A b xs (j + 1)) := by
  have hall : ∀ j, ∃ (y : Fin n → ℝ) (w' : List ℝ), times (step reals k s m (vec b)) j (vec x, w) = .ok (vec y, w') ∧
      (k = .jacobi → w'.length = n) := by
    intro j
    induction j with
    | zero => exact ⟨x, w, rfl, hw⟩
    | succ j ih =>
      obtain ⟨y, w', h1, h2⟩ := ih
      obtain ⟨z, w'', h3, h4, -⟩ := step_ok (F := reals) ⟨rfl, rfl⟩ k s h hd b y w' h2
      refine ⟨z, w'', ?_, h4⟩
      rw [times_succ_right, h1]
      exact h3
  choose xs ws h1 h2 using hall
  have h0 : xs 0 = x ∧ ws 0 = w := by
    have := h1 0
    simp only [times, Out.ok.injEq, Prod.mk.injEq] at this
    exact ⟨(vec_inj.mp this.1).symm, this.2.symm⟩
  have hstep : ∀ j, step reals k s m (vec b) (vec (xs j), ws j) = .ok (vec (xs (j + 1)), ws (j + 1)) := by
    intro j
    have := h1 (j + 1)
    rw [times_succ_right, h1 j] at this
    exact this
  have hres : ∀ j, computeResidual reals m (vec (xs j)) (vec b) = .ok (norm2 A (xs j) b, normMax A (xs j) b) := fun j =>
    computeResidual_ok h (xs j) b hn0 (by unfold intMax; omega)
  refine ⟨xs, ws, h0.1, h1, h2, fun j => ?_⟩
  induction j with
  | zero =>
    intro _
    rw [times_succ_right]
    show pass reals k s m (vec b) ((vec x, w), Conv.new reals) = _
    unfold pass
    have h4 := hstep 0
    rw [h0.1, h0.2] at h4
    simp only [h4, Out.ok_bind, update, hres (0 + 1), Out.pure_eq]
    rfl
  | succ j ih =>
    intro hj
    rw [times_succ_right, ih (by omega)]
    show pass reals k s m (vec b) ((vec (xs (j + 1)), ws (j + 1)), data A b xs (j + 1)) = _
    have hw : wrap (j + 1 + 1) = j + 1 + 1 := by
      unfold wrap
      unfold sizeMax at hj
      exact Nat.mod_eq_of_lt (by omega)
    unfold pass
    simp only [hstep (j + 1), Out.ok_bind, update, hres (j + 1 + 1), Out.pure_eq, data, hw]
    rfl

theorem above_ratio {x y t : ℝ} (hx : 0 ≤ x) (hy : 0 ≤ y) : reals.above (reals.ratio x y) t = false ↔ x ≤ t * y := by
  by_cases h0 : y = 0
  · subst h0
    by_cases h1 : x = 0
    · subst h1; simp [reals]
    · have : ¬ x ≤ 0 := fun h => h1 (le_antisymm h hx)
      simp [reals, h1, this]
  · have hy' : 0 < y := lt_of_le_of_ne hy (Ne.symm h0)
    simp only [reals, h0, if_false, decide_eq_false_iff_not, not_lt]
    exact div_le_iff₀ hy'

/-- Both norms are within the tolerances, relative to the first iterate. -/
def Within {n : Nat} (A : Fin n → Fin n → ℝ) (b : Fin n → ℝ) (tol : ℝ) (y1 y : Fin n → ℝ) : Prop :=
  norm2 A y b ≤ tol * norm2 A y1 b ∧ normMax A y b ≤ 10 * tol * normMax A y1 b

/-- The criteria of the solvers after `j` iterations. -/
def Stops {n : Nat} (A : Fin n → Fin n → ℝ) (b : Fin n → ℝ) (l : Limits ℝ) (xs : Nat → Fin n → ℝ) (j : Nat) : Prop :=
  l.minIterations ≤ j ∧ (l.maxIteration < j ∨ Within A b l.tolerance (xs 1) (xs j))

theorem isConverged_data {n : Nat} {A : Fin n → Fin n → ℝ} {b : Fin n → ℝ} {xs : Nat → Fin n → ℝ} {j : Nat} {l : Limits ℝ} :
    isConverged reals l (data A b xs j) = true ↔ Stops A b l xs j := by
  rw [isConverged_iff]
  show l.minIterations ≤ j ∧ (l.maxIteration < j ∨ (reals.above (reals.ratio (norm2 A (xs j) b) (norm2 A (xs 1) b))
    l.tolerance = false ∧ reals.above (reals.ratio (normMax A (xs j) b) (normMax A (xs 1) b)) (10 * l.tolerance) = false)) ↔ _
  rw [above_ratio (norm2_nonneg _ _ _) (norm2_nonneg _ _ _), above_ratio (normMax_nonneg _ _ _) (normMax_nonneg _ _ _)]
  rfl

/-- Solves return, with the first iterate that meets the criteria and its residuals. -/
theorem solve_course (k : Method) (s : FixedPoint ℝ) {n : Nat} {m : Sparse ℝ} {A : Fin n → Fin n → ℝ} (h : Square m A)
    (hd : ∀ i, A i i ≠ 0) (hn0 : 0 < n) (hn : n < 2 ^ 31) (b x : Fin n → ℝ) (htol : s.limits.tolerance < reals.big)
    (hmin : s.limits.minIterations ≤ sizeMax) (xs : Nat → Fin n → ℝ)
    (hxs : ∀ j, ∃ w, times (step reals k s m (vec b)) j (vec x, startWorking k s m) = .ok (vec (xs j), w))
    (J : Nat) (hJ0 : 0 < J) (hJs : J ≤ sizeMax) (hJ : Stops A b s.limits xs J) :
    ∃ j, 0 < j ∧ j ≤ J ∧ Stops A b s.limits xs j ∧ (∀ i, 0 < i → i < j → ¬ Stops A b s.limits xs i) ∧
      ∀ fuel, j ≤ fuel → ∃ s', solveSystem reals k s m (vec x) (vec b) fuel = .ok (vec (xs j), data A b xs j, s') := by
  classical
  have hex : ∃ j, 0 < j ∧ Stops A b s.limits xs j := ⟨J, hJ0, hJ⟩
  have hle : Nat.find hex ≤ J := Nat.find_min' hex ⟨hJ0, hJ⟩
  obtain ⟨h1, h2⟩ := Nat.find_spec hex
  have h3 : ∀ i, i < Nat.find hex → ¬ (0 < i ∧ Stops A b s.limits xs i) := fun i hi => Nat.find_min hex hi
  generalize Nat.find hex = j at hle h1 h2 h3
  refine ⟨j, h1, hle, h2, fun i h4 h5 h6 => h3 i h5 ⟨h4, h6⟩, fun fuel hf => ?_⟩
  obtain ⟨ys, ws, h4, h5, h6, h7⟩ := passes k s h hd hn0 hn b x (startWorking k s m)
    (fun hk => by rw [startWorking_length k s m hk]; exact h.2.1)
  have e : ys = xs := by
    funext i
    obtain ⟨w, hw⟩ := hxs i
    rw [h5 i, Out.ok.injEq, Prod.mk.injEq] at hw
    exact vec_inj.mp hw.1
  subst e
  have h8 : iterate reals k s m (vec b) fuel ((vec x, startWorking k s m), Conv.new reals) =
      .ok ((vec (ys j), ws j), data A b ys j) := by
    obtain ⟨j', rfl⟩ : ∃ j', j = j' + 1 := ⟨j - 1, by omega⟩
    refine iterate_of_times hf (h7 j' (by omega)) (isConverged_data.mpr h2) fun i hi t ht => ?_
    cases i with
    | zero =>
      simp only [times, Out.ok.injEq] at ht
      subst ht
      by_contra hc
      rw [Bool.not_eq_false, isConverged_iff] at hc
      rcases hc.2 with h9 | h9
      · exact absurd h9 (Nat.not_lt_zero _)
      · have := h9.1
        simp only [Conv.new, reals, decide_eq_false_iff_not] at this
        exact this htol
    | succ i =>
      rw [h7 i (by omega), Out.ok.injEq] at ht
      subst ht
      by_contra hc
      rw [Bool.not_eq_false] at hc
      exact h3 _ hi ⟨by omega, isConverged_data.mp hc⟩
  rw [solveSystem_eq, h8]
  exact ⟨_, rfl⟩

/-- A solve of a system with a nonzero diagonal returns an iterate of the method with its residuals. -/
theorem solve_returns (k : Method) (s : FixedPoint ℝ) {n : Nat} {m : Sparse ℝ} {A : Fin n → Fin n → ℝ} (h : Square m A)
    (hd : ∀ i, A i i ≠ 0) (hn0 : 0 < n) (hn : n < 2 ^ 31) (b x : Fin n → ℝ) (htol : s.limits.tolerance < reals.big)
    (hmin : s.limits.minIterations ≤ sizeMax) (hmax : s.limits.maxIteration < sizeMax) :
    ∃ xs : Nat → Fin n → ℝ, xs 0 = x ∧
      (∀ j, ∃ w, times (step reals k s m (vec b)) j (vec x, startWorking k s m) = .ok (vec (xs j), w)) ∧
      ∃ j, 0 < j ∧ j ≤ max s.limits.minIterations (s.limits.maxIteration + 1) ∧ Stops A b s.limits xs j ∧
        (∀ i, 0 < i → i < j → ¬ Stops A b s.limits xs i) ∧
        ∀ fuel, j ≤ fuel → ∃ s', solveSystem reals k s m (vec x) (vec b) fuel = .ok (vec (xs j), data A b xs j, s') := by
  obtain ⟨xs, ws, h4, h5, h6, h7⟩ := passes k s h hd hn0 hn b x (startWorking k s m)
    (fun hk => by rw [startWorking_length k s m hk]; exact h.2.1)
  exact ⟨xs, h4, fun j => ⟨_, h5 j⟩, solve_course k s h hd hn0 hn b x htol hmin xs (fun j => ⟨_, h5 j⟩)
    (max s.limits.minIterations (s.limits.maxIteration + 1)) (by omega) (by omega) ⟨by omega, .inl (by omega)⟩⟩

/-! ### C46 and C85 -/

/-- Every solve of a system with a nonzero diagonal ends. -/
def C46 : Prop := ∀ (n : Nat) (m : Sparse ℝ) (A : Fin n → Fin n → ℝ), Square m A → (∀ i, A i i ≠ 0) → ∀ (k : Method)
  (c : SolverConfig ℝ), c.minimumIterations ≤ sizeMax → c.maximumIterations ≤ sizeMax → ∀ x b : Fin n → ℝ,
    ∃ fuel, solveSystem reals k (initialise c) m (vec x) (vec b) fuel ≠ .diverge

theorem exists_vec {n : Nat} {w : List ℝ} (hw : w.length = n) : ∃ u : Fin n → ℝ, w = vec u := by
  refine ⟨fun i => w[i.1]'(by rw [hw]; exact i.2), ?_⟩
  apply List.ext_getElem
  · simp [hw]
  · intro k h1 h2; simp [vec]

theorem one_le_big : 1 ≤ reals.big := by
  show (1 : ℝ) ≤ (2 - 1 / 2 ^ 52) * 2 ^ 1023
  have h1 : (1 : ℝ) ≤ 2 ^ 1023 := one_le_pow₀ (by norm_num)
  have h2 : (1 : ℝ) ≤ 2 - 1 / 2 ^ 52 := by norm_num
  exact one_le_mul_of_one_le_of_one_le h2 h1

/-- A rotation by a quarter turn: the Jacobi iterates of this system have period four. -/
theorem turn_step (s : FixedPoint ℝ) (p q : ℝ) (w : List ℝ) (hw : w.length = 2) :
    step reals .jacobi s (dense2 1 1 (-1) 1) (vec ![0, 0]) (vec ![p, q], w) = .ok (vec ![-q, p], vec ![p, q]) := by
  obtain ⟨u, rfl⟩ := exists_vec hw
  unfold step
  have hd : ∀ i, (![![1, 1], ![-1, 1]] : Fin 2 → Fin 2 → ℝ) i i ≠ 0 := by intro i; fin_cases i <;> simp
  simp only [jacobi_ok (dense2_square 1 1 (-1) 1) (F := reals) rfl ![0, 0] reals.one hd ![p, q] u, Out.ok_bind, Out.pure_eq]
  congr 2
  rw [vec_inj]
  funext i
  have h1 : reals.one = 1 := rfl
  fin_cases i <;> simp [relaxed, off, Fin.sum_univ_two, h1]

theorem turn_residual (p q : ℝ) (h : p ^ 2 + q ^ 2 = 1) (h0 : p * q = 0) :
    computeResidual reals (dense2 1 1 (-1) 1) (vec ![p, q]) (vec ![0, 0]) = .ok (1, 1) := by
  rw [computeResidual_ok (dense2_square 1 1 (-1) 1) ![p, q] ![0, 0] (by norm_num) (by unfold intMax; norm_num)]
  have e0 : defect (![![1, 1], ![-1, 1]] : Fin 2 → Fin 2 → ℝ) ![p, q] ![0, 0] 0 = p + q := by
    simp [defect, Fin.sum_univ_two]
  have e1 : defect (![![1, 1], ![-1, 1]] : Fin 2 → Fin 2 → ℝ) ![p, q] ![0, 0] 1 = q - p := by
    simp [defect, Fin.sum_univ_two]; ring
  have a0 : |p + q| = 1 := by
    rw [← Real.sqrt_sq_eq_abs, show (p + q) ^ 2 = 1 by nlinarith, Real.sqrt_one]
  have a1 : |q - p| = 1 := by
    rw [← Real.sqrt_sq_eq_abs, show (q - p) ^ 2 = 1 by nlinarith, Real.sqrt_one]
  congr 2
  · unfold norm2
    rw [Fin.sum_univ_two, e0, e1, show ((p + q) ^ 2 + (q - p) ^ 2) / ((2 : Nat) : ℝ) = 1 by push_cast; nlinarith, Real.sqrt_one]
  · apply normMax_eq
    · intro i
      fin_cases i
      · exact (congrArg abs e0).trans a0 |>.le
      · exact (congrArg abs e1).trans a1 |>.le
    · exact ⟨0, by rw [e0, a0]⟩

/-- With the largest possible number of iterations the solve of that system never ends: the counter wraps round. -/
theorem c46_violated : ¬ C46 := by
  intro hC
  obtain ⟨fuel, h⟩ := hC 2 (dense2 1 1 (-1) 1) _ (dense2_square 1 1 (-1) 1) (by intro i; fin_cases i <;> simp) .jacobi
    ⟨.jacobi, true, 0, 0, sizeMax, 1 / 2, 1⟩ (Nat.zero_le _) le_rfl ![1, 0] ![0, 0]
  apply h
  rw [solveSystem_eq]
  have main : ∀ fuel (p q : ℝ) (w : List ℝ) (d : Conv ℝ Quot), p ^ 2 + q ^ 2 = 1 → p * q = 0 → w.length = 2 →
      d.iteration ≤ sizeMax → (d.iteration ≠ 0 → d.residual0 = 1 ∧ d.residualMax0 = 1) →
      reals.above d.residualNormalised (1 / 2) = true →
      iterate reals .jacobi (initialise ⟨.jacobi, true, 0, 0, sizeMax, 1 / 2, 1⟩) (dense2 1 1 (-1) 1) (vec ![0, 0]) fuel
        ((vec ![p, q], w), d) = .diverge := by
    intro fuel
    induction fuel with
    | zero =>
      intro p q w d h1 h2 h3 h4 h5 h6
      rw [iterate_eq]
      unfold whileFuel
      have : isConverged reals (initialise ⟨.jacobi, true, 0, 0, sizeMax, 1 / 2, 1⟩).limits d = false := by
        simp only [isConverged, initialise, Nat.not_lt_zero, if_false, gt_iff_lt, Nat.not_lt.mpr h4, h6, if_true]
      simp only [this, Bool.not_false, if_true]
    | succ fuel ih =>
      intro p q w d h1 h2 h3 h4 h5 h6
      rw [iterate_eq]
      unfold whileFuel
      have : isConverged reals (initialise ⟨.jacobi, true, 0, 0, sizeMax, 1 / 2, 1⟩).limits d = false := by
        simp only [isConverged, initialise, Nat.not_lt_zero, if_false, gt_iff_lt, Nat.not_lt.mpr h4, h6, if_true]
      simp only [this, Bool.not_false, if_true]
      have hpass : pass reals .jacobi (initialise ⟨.jacobi, true, 0, 0, sizeMax, 1 / 2, 1⟩) (dense2 1 1 (-1) 1) (vec ![0, 0])
          ((vec ![p, q], w), d) = .ok ((vec ![-q, p], vec ![p, q]),
            ⟨d.converged, wrap (d.iteration + 1), 1, 1, .num 1, 1, 1, .num 1⟩) := by
        unfold pass
        simp only [turn_step _ p q w h3, Out.ok_bind, update, turn_residual (-q) p (by linarith) (by linarith), Out.pure_eq]
        by_cases h0 : d.iteration = 0
        · simp [h0, reals]
        · simp [h0, (h5 h0).1, (h5 h0).2, reals]
      rw [hpass, Out.ok_bind]
      refine ih (-q) p _ _ (by linarith) (by linarith) (by simp) ?_ (fun _ => ⟨rfl, rfl⟩) ?_
      · show wrap (d.iteration + 1) ≤ sizeMax
        unfold wrap sizeMax
        have := Nat.mod_lt (d.iteration + 1) (show 0 < 2 ^ 64 by norm_num)
        omega
      · simp only [reals, decide_eq_true_eq]
        norm_num
  have := main fuel 1 0 (startWorking .jacobi (initialise ⟨.jacobi, true, 0, 0, sizeMax, 1 / 2, 1⟩) (dense2 1 1 (-1) 1))
    (Conv.new reals) (by norm_num) (by norm_num) (startWorking_length _ _ _ rfl) (by simp [Conv.new]) (by simp [Conv.new])
    (by
      show decide (1 / 2 < reals.big) = true
      rw [decide_eq_true_eq]
      exact lt_of_lt_of_le (by norm_num) one_le_big)
  rw [this]
  rfl

-- The hypotheses of `solve_returns` hold for this system with another limit.
example : ∃ s : FixedPoint ℝ, s.limits.tolerance < reals.big ∧ s.limits.minIterations ≤ sizeMax ∧
    s.limits.maxIteration < sizeMax :=
  ⟨⟨⟨3, 100, 1 / 2⟩, [], 1⟩, lt_of_lt_of_le (by norm_num) one_le_big, by norm_num [sizeMax], by norm_num [sizeMax]⟩

/-- A matrix with one element. -/
def single {K : Type} (a : K) : Sparse K := ⟨[0, 1], [0], [a], 1⟩

theorem single_square (a : ℝ) : Square (single a) (fun _ _ : Fin 1 => a) := by
  refine ⟨Built.ofLists (nz := [0, 1]) (ix := [0]) (vs := [a]) (c := 1) (by simp [sizeMax]) (by simp [sizeMax])
    (by simp [single, Sparse.ofLists, loop, Sparse.listBody, rd, slice, overwrite, assert]), rfl, rfl, ?_⟩
  intro i j
  fin_cases i; fin_cases j; rfl

/-- No solve makes more iterations than the larger of the two limits. -/
def C85 : Prop := ∀ (n : Nat) (m : Sparse ℝ) (A : Fin n → Fin n → ℝ), Square m A → (∀ i, A i i ≠ 0) → ∀ (k : Method)
  (c : SolverConfig ℝ), c.minimumIterations ≤ sizeMax → c.maximumIterations < sizeMax → ∀ (x b : Fin n → ℝ) (fuel : Nat) x' d s',
    solveSystem reals k (initialise c) m (vec x) (vec b) fuel = .ok (x', d, s') →
      d.iteration ≤ max c.minimumIterations c.maximumIterations

/-- A solve that does not meet the tolerance makes one iteration more than the largest number. -/
theorem c85_exact_partial (k : Method) (s : FixedPoint ℝ) {n : Nat} {m : Sparse ℝ} {A : Fin n → Fin n → ℝ} (h : Square m A)
    (hd : ∀ i, A i i ≠ 0) (hn0 : 0 < n) (hn : n < 2 ^ 31) (b x : Fin n → ℝ) (htol : s.limits.tolerance < reals.big)
    (hmin : s.limits.minIterations ≤ sizeMax) (hmax : s.limits.maxIteration < sizeMax) (fuel : Nat)
    (hf : max s.limits.minIterations (s.limits.maxIteration + 1) ≤ fuel) :
    ∃ x' d s', solveSystem reals k s m (vec x) (vec b) fuel = .ok (x', d, s') ∧
      (d.iteration ≤ s.limits.maxIteration ∨ d.iteration = max s.limits.minIterations (s.limits.maxIteration + 1)) := by
  obtain ⟨xs, h1, h2, j, h3, h4, h5, h6, h7⟩ := solve_returns k s h hd hn0 hn b x htol hmin hmax
  obtain ⟨s', h8⟩ := h7 fuel (by omega)
  refine ⟨_, _, _, h8, ?_⟩
  show j ≤ _ ∨ j = _
  by_contra hc
  push Not at hc
  have h9 := h5.1
  exact h6 (max s.limits.minIterations (s.limits.maxIteration + 1)) (by omega) (by omega) ⟨by omega, .inl (by omega)⟩

/-- The default configuration allows no iterations, and makes one. -/
theorem c85_violated : ¬ C85 := by
  intro hC
  obtain ⟨xs, h1, h2, j, h3, h4, h5, h6, h7⟩ := solve_returns .gaussSeidel
    (initialise ⟨.gaussSeidel, true, 0, 0, 0, 0, 3 / 2⟩) (single_square 1) (by simp) (by norm_num) (by norm_num)
    (fun _ => 1) (fun _ => 0) (lt_of_lt_of_le (show (0 : ℝ) < 1 by norm_num) one_le_big) (Nat.zero_le _)
    (show 0 < sizeMax by norm_num [sizeMax])
  obtain ⟨s', h8⟩ := h7 j le_rfl
  have := hC _ _ _ (single_square 1) (by simp) .gaussSeidel ⟨.gaussSeidel, true, 0, 0, 0, 0, 3 / 2⟩ (Nat.zero_le _)
    (show 0 < sizeMax by norm_num [sizeMax]) (fun _ => 0) (fun _ => 1) j _ _ _ h8
  have e : (data (fun _ _ : Fin 1 => (1 : ℝ)) (fun _ => 1) xs j).iteration = j := rfl
  rw [e] at this
  simp at this
  omega

/-! ### C86 -/

/-- A solve that stops within the largest number of iterations returns a vector whose residuals are within the tolerance of those
of the first iterate.  The reported norms are those of the returned vector. -/
theorem c86_tolerance (k : Method) (s : FixedPoint ℝ) {n : Nat} {m : Sparse ℝ} {A : Fin n → Fin n → ℝ} (h : Square m A)
    (hd : ∀ i, A i i ≠ 0) (hn0 : 0 < n) (hn : n < 2 ^ 31) (b x : Fin n → ℝ) (htol : s.limits.tolerance < reals.big)
    (hmin : s.limits.minIterations ≤ sizeMax) (hmax : s.limits.maxIteration < sizeMax) (fuel : Nat)
    (hf : max s.limits.minIterations (s.limits.maxIteration + 1) ≤ fuel) :
    ∃ (y y1 : Fin n → ℝ) (w : List ℝ) (d : Conv ℝ Quot) (s' : FixedPoint ℝ),
      solveSystem reals k s m (vec x) (vec b) fuel = .ok (vec y, d, s') ∧
      step reals k s m (vec b) (vec x, startWorking k s m) = .ok (vec y1, w) ∧
      d.residual = norm2 A y b ∧ d.residualMax = normMax A y b ∧
      (d.iteration ≤ s.limits.maxIteration → norm2 A y b ≤ s.limits.tolerance * norm2 A y1 b ∧
        normMax A y b ≤ 10 * s.limits.tolerance * normMax A y1 b) := by
  obtain ⟨xs, h1, h2, j, h3, h4, h5, h6, h7⟩ := solve_returns k s h hd hn0 hn b x htol hmin hmax
  obtain ⟨s', h8⟩ := h7 fuel (by omega)
  obtain ⟨w, hw⟩ := h2 1
  refine ⟨xs j, xs 1, w, _, s', h8, ?_, rfl, rfl, fun hj => ?_⟩
  · rw [times_succ_right] at hw
    exact hw
  · rcases h5.2 with h9 | h9
    · exact absurd h9 (Nat.not_lt.mpr hj)
    · exact h9

/-! ### C87 -/

theorem norm2_le_normMax {n : Nat} (A : Fin n → Fin n → ℝ) (x b : Fin n → ℝ) : norm2 A x b ≤ normMax A x b := by
  unfold norm2
  rw [Real.sqrt_le_iff]
  refine ⟨normMax_nonneg _ _ _, ?_⟩
  rcases Nat.eq_zero_or_pos n with rfl | hn
  · simp [sq_nonneg]
  · have hn' : (0 : ℝ) < n := by exact_mod_cast hn
    rw [div_le_iff₀ hn']
    calc ∑ i, defect A x b i ^ 2 ≤ ∑ _i : Fin n, normMax A x b ^ 2 := Finset.sum_le_sum fun i _ => by
          rw [← sq_abs]
          exact pow_le_pow_left₀ (abs_nonneg _) (defect_le_normMax A x b i) 2
      _ = normMax A x b ^ 2 * n := by simp [mul_comm]

theorem normMax_le {n : Nat} (A : Fin n → Fin n → ℝ) (x b sol : Fin n → ℝ) (hs : Solves A sol b) (ε : ℝ) (hε : 0 ≤ ε)
    (hx : ∀ i, |x i - sol i| ≤ ε) : normMax A x b ≤ (∑ i, ∑ j, |A i j|) * ε := by
  have h0 : 0 ≤ (∑ i, ∑ j, |A i j|) * ε :=
    mul_nonneg (Finset.sum_nonneg fun i _ => Finset.sum_nonneg fun j _ => abs_nonneg _) hε
  refine Real.iSup_le (fun i => ?_) h0
  have e : defect A x b i = ∑ j, A i j * (x j - sol j) := by
    unfold defect
    rw [← hs i, ← Finset.sum_sub_distrib]
    exact Finset.sum_congr rfl fun j _ => by ring
  rw [e]
  calc |∑ j, A i j * (x j - sol j)| ≤ ∑ j, |A i j * (x j - sol j)| := Finset.abs_sum_le_sum_abs _ _
    _ ≤ ∑ j, |A i j| * ε := Finset.sum_le_sum fun j _ => by
        rw [abs_mul]
        exact mul_le_mul_of_nonneg_left (hx j) (abs_nonneg _)
    _ = (∑ j, |A i j|) * ε := by rw [Finset.sum_mul]
    _ ≤ (∑ i, ∑ j, |A i j|) * ε := mul_le_mul_of_nonneg_right
        (Finset.single_le_sum (f := fun i => ∑ j, |A i j|) (fun l _ => Finset.sum_nonneg fun j _ => abs_nonneg _)
          (Finset.mem_univ i)) hε

theorem step_settings {S N : Type} [Zero S] [Add S] [Sub S] [Mul S] [Div S] (F : Scalars S N) (k : Method) (s s' : FixedPoint S)
    (m : Sparse S) (b : List S) : step F k s m b = step F k s' m b := by
  funext st
  cases k <;> rfl

/-- If the iterates tend to a solution and the tolerance is positive, the solve meets the tolerance: there is a number of
iterations, which depends on the system, the start and the tolerance only, that is always enough. -/
theorem c87_meets (k : Method) {n : Nat} {m : Sparse ℝ} {A : Fin n → Fin n → ℝ} (h : Square m A)
    (hd : ∀ i, A i i ≠ 0) (hn0 : 0 < n) (hn : n < 2 ^ 31) (b x sol : Fin n → ℝ) (hs : Solves A sol b) (s0 : FixedPoint ℝ)
    (ht : TendTo reals k s0 m b x (startWorking k s0 m) sol) (tol : ℝ) (htol0 : 0 < tol) (htol : tol < reals.big) :
    ∃ J, ∀ s : FixedPoint ℝ, s.limits.tolerance = tol → s.working = s0.working → J ≤ s.limits.maxIteration →
      s.limits.minIterations ≤ s.limits.maxIteration → s.limits.maxIteration ≤ sizeMax → ∀ fuel, s.limits.maxIteration ≤ fuel →
      ∃ (y : Fin n → ℝ) (d : Conv ℝ Quot) (s' : FixedPoint ℝ), solveSystem reals k s m (vec x) (vec b) fuel = .ok (vec y, d, s') ∧
        d.iteration ≤ max J s.limits.minIterations ∧
        d.residual = norm2 A y b ∧ norm2 A y b ≤ tol * d.residual0 ∧
        d.residualMax = normMax A y b ∧ normMax A y b ≤ 10 * tol * d.residualMax0 := by
  obtain ⟨xs, h1, h2⟩ := ht
  -- From some iteration on both norms are within the tolerance.
  have hev : ∃ J, 0 < J ∧ ∀ j, J ≤ j → Within A b tol (xs 1) (xs j) := by
    by_cases h0 : Solves A (xs 1) b
    · have hfix : ∀ j, ∃ w', times (step reals k s0 m (vec b)) (j + 1) (vec x, startWorking k s0 m) = .ok (vec (xs 1), w') ∧
          (k = .jacobi → w'.length = n) := by
        obtain ⟨ys, ws, h4, h5, h6, h7⟩ := passes k s0 h hd hn0 hn b x (startWorking k s0 m)
          (fun hk => by rw [startWorking_length k s0 m hk]; exact h.2.1)
        intro j
        induction j with
        | zero =>
          obtain ⟨w, hw⟩ := h1 1
          have e := h5 1
          rw [hw, Out.ok.injEq, Prod.mk.injEq] at e
          exact ⟨w, hw, by rw [e.2]; exact h6 1⟩
        | succ j ih =>
          obtain ⟨w', h3, hl⟩ := ih
          obtain ⟨y, w'', h8, h9⟩ := c45_fixed_point (F := reals) ⟨rfl, rfl⟩ k s0 m A h hd b (xs 1) w' hl
          rw [h9.mpr h0] at h8
          have e := h5 (j + 1 + 1)
          refine ⟨w'', ?_, ?_⟩
          · rw [times_succ_right, h3]
            exact h8
          · rw [times_succ_right, h3] at e
            rw [show (Out.ok (vec (xs 1), w') >>= step reals k s0 m (vec b)) = step reals k s0 m (vec b) (vec (xs 1), w') from rfl,
              h8, Out.ok.injEq, Prod.mk.injEq] at e
            rw [e.2]
            exact h6 _
      refine ⟨1, one_pos, fun j hj => ?_⟩
      obtain ⟨w', h3, -⟩ := hfix (j - 1)
      obtain ⟨w, hw⟩ := h1 j
      rw [show j - 1 + 1 = j by omega, hw, Out.ok.injEq, Prod.mk.injEq, vec_inj] at h3
      rw [h3.1]
      unfold Within
      rw [(norm2_eq_zero A _ b hn0).mpr h0, (normMax_eq_zero A _ b).mpr h0]
      simp
    · have p2 : 0 < norm2 A (xs 1) b := lt_of_le_of_ne (norm2_nonneg _ _ _) fun e => h0 ((norm2_eq_zero A _ b hn0).mp e.symm)
      have pm : 0 < normMax A (xs 1) b := lt_of_le_of_ne (normMax_nonneg _ _ _) fun e => h0 ((normMax_eq_zero A _ b).mp e.symm)
      have hC : 0 ≤ ∑ i, ∑ j, |A i j| := Finset.sum_nonneg fun i _ => Finset.sum_nonneg fun j _ => abs_nonneg _
      have hpos : 0 < min (tol * norm2 A (xs 1) b) (10 * tol * normMax A (xs 1) b) := lt_min (by positivity) (by positivity)
      obtain ⟨J, hJ⟩ := h2 (min (tol * norm2 A (xs 1) b) (10 * tol * normMax A (xs 1) b) / ((∑ i, ∑ j, |A i j|) + 1))
        (by positivity)
      refine ⟨J + 1, by omega, fun j hj => ?_⟩
      have hb := normMax_le A (xs j) b sol hs _ (by positivity) (fun i => (hJ j (by omega) i).le)
      have hb' : (∑ i, ∑ j, |A i j|) * (min (tol * norm2 A (xs 1) b) (10 * tol * normMax A (xs 1) b) /
          ((∑ i, ∑ j, |A i j|) + 1)) ≤ min (tol * norm2 A (xs 1) b) (10 * tol * normMax A (xs 1) b) := by
        rw [mul_div_assoc', div_le_iff₀ (by positivity)]
        nlinarith
      exact ⟨(norm2_le_normMax _ _ _).trans (hb.trans (hb'.trans (min_le_left _ _))),
        hb.trans (hb'.trans (min_le_right _ _))⟩
  obtain ⟨J, hJ0, hJ⟩ := hev
  refine ⟨J, fun s hst hsw hJm hmm hms fuel hf => ?_⟩
  have hsw' : startWorking k s m = startWorking k s0 m := by
    unfold startWorking
    rw [hsw]
  obtain ⟨j, h3, h4, h5, h6, h7⟩ := solve_course k s h hd hn0 hn b x (by rw [hst]; exact htol) (by omega) xs
    (fun j => by rw [step_settings reals k s s0, hsw']; exact h1 j) (max J s.limits.minIterations) (by omega) (by omega)
    ⟨by omega, .inr (by rw [hst]; exact hJ _ (by omega))⟩
  obtain ⟨s', h8⟩ := h7 fuel (by omega)
  have h9 : Within A b tol (xs 1) (xs j) := by
    rcases h5.2 with h9 | h9
    · omega
    · rwa [hst] at h9
  exact ⟨xs j, _, s', h8, h4, rfl, h9.1, rfl, h9.2⟩

/-- Jacobi and Gauss Seidel solves of strictly diagonally dominant systems meet every positive tolerance, given enough iterations;
so do Gauss Seidel and SOR solves of symmetric positive definite ones. -/
theorem c87_dominant (k : Method) {n : Nat} {m : Sparse ℝ} {A : Fin n → Fin n → ℝ} (h : Square m A)
    (hk : (k ≠ .sor ∧ Dominant A) ∨ (k ≠ .jacobi ∧ PositiveDefinite A)) (hn0 : 0 < n) (hn : n < 2 ^ 31) (b x : Fin n → ℝ)
    (tol : ℝ) (htol0 : 0 < tol) (htol : tol < reals.big) :
    ∃ J, ∀ c : SolverConfig ℝ, c.convergenceTolerance = tol → J ≤ c.maximumIterations →
      c.minimumIterations ≤ c.maximumIterations → c.maximumIterations ≤ sizeMax → ∀ fuel, c.maximumIterations ≤ fuel →
      ∃ (y : Fin n → ℝ) (d : Conv ℝ Quot) (s' : FixedPoint ℝ),
        solveSystem reals k (initialise c) m (vec x) (vec b) fuel = .ok (vec y, d, s') ∧
        d.iteration ≤ max J c.minimumIterations ∧
        d.residual = norm2 A y b ∧ norm2 A y b ≤ tol * d.residual0 ∧
        d.residualMax = normMax A y b ∧ normMax A y b ≤ 10 * tol * d.residualMax0 := by
  have hw : k = .jacobi → (startWorking k (initialise (⟨.unknown, true, 0, 0, 0, tol, 0⟩ : SolverConfig ℝ)) m).length = n :=
    fun hk => by rw [startWorking_length k _ m hk]; exact h.2.1
  have hsol : (∀ i, A i i ≠ 0) ∧ ∃ sol, Solves A sol b ∧ TendTo reals k (initialise ⟨.unknown, true, 0, 0, 0, tol, 0⟩) m b x
      (startWorking k (initialise (⟨.unknown, true, 0, 0, 0, tol, 0⟩ : SolverConfig ℝ)) m) sol := by
    rcases hk with ⟨h1, h2⟩ | ⟨h1, h2⟩
    · obtain ⟨sol, h3, -, h4⟩ := c47_converges (F := reals) ⟨rfl, rfl⟩ m A h h2 k h1
        (initialise ⟨.unknown, true, 0, 0, 0, tol, 0⟩) b x _ hw
      exact ⟨dominant_diag h2, sol, h3, h4⟩
    · obtain ⟨sol, h3, -, h4⟩ := c84_converges (F := reals) ⟨rfl, rfl⟩ m A h h2 k h1
        (initialise ⟨.unknown, true, 0, 0, 0, tol, 0⟩) b x
        (startWorking k (initialise (⟨.unknown, true, 0, 0, 0, tol, 0⟩ : SolverConfig ℝ)) m)
      exact ⟨fun i => (diag_pos h2 i).ne', sol, h3, h4⟩
  obtain ⟨hd, sol, h3, h4⟩ := hsol
  obtain ⟨J, hJ⟩ := c87_meets k h hd hn0 hn b x sol h3 _ h4 tol htol0 htol
  exact ⟨J, fun c h5 h6 h7 h8 fuel h9 => hJ (initialise c) h5 rfl h6 h7 h8 fuel h9⟩

/-! ### C88 -/

/-- `residual_0` is the residual of the start, as documented. -/
def C88 : Prop := ∀ (n : Nat) (m : Sparse ℝ) (A : Fin n → Fin n → ℝ), Square m A → (∀ i, A i i ≠ 0) → ∀ (k : Method)
  (c : SolverConfig ℝ) (x b : Fin n → ℝ) (fuel : Nat) x' d s',
    solveSystem reals k (initialise c) m (vec x) (vec b) fuel = .ok (x', d, s') → 0 < d.iteration → d.residual0 = norm2 A x b

/-- It is that of the first iterate, and so is the largest residual. -/
theorem c88_first_partial (k : Method) (s : FixedPoint ℝ) {n : Nat} {m : Sparse ℝ} {A : Fin n → Fin n → ℝ} (h : Square m A)
    (hd : ∀ i, A i i ≠ 0) (hn0 : 0 < n) (hn : n < 2 ^ 31) (b x : Fin n → ℝ) (htol : s.limits.tolerance < reals.big)
    (hmin : s.limits.minIterations ≤ sizeMax) (hmax : s.limits.maxIteration < sizeMax) (fuel : Nat)
    (hf : max s.limits.minIterations (s.limits.maxIteration + 1) ≤ fuel) :
    ∃ (x' : List ℝ) (y1 : Fin n → ℝ) (w : List ℝ) (d : Conv ℝ Quot) (s' : FixedPoint ℝ),
      solveSystem reals k s m (vec x) (vec b) fuel = .ok (x', d, s') ∧
      step reals k s m (vec b) (vec x, startWorking k s m) = .ok (vec y1, w) ∧
      d.residual0 = norm2 A y1 b ∧ d.residualMax0 = normMax A y1 b := by
  obtain ⟨xs, h1, h2, j, h3, h4, h5, h6, h7⟩ := solve_returns k s h hd hn0 hn b x htol hmin hmax
  obtain ⟨s', h8⟩ := h7 fuel (by omega)
  obtain ⟨w, hw⟩ := h2 1
  refine ⟨_, xs 1, w, _, s', h8, ?_, rfl, rfl⟩
  rw [times_succ_right] at hw
  exact hw

theorem single_step (k : Method) (hk : k ≠ .sor) (s : FixedPoint ℝ) (b x : ℝ) (w : List ℝ) (hw : k = .jacobi → w.length = 1) :
    ∃ w', step reals k s (single 1) (vec fun _ : Fin 1 => b) (vec fun _ : Fin 1 => x, w) = .ok (vec fun _ : Fin 1 => b, w') := by
  obtain ⟨y, w', h1, -, h2⟩ := step_ok (F := reals) ⟨rfl, rfl⟩ k s (single_square 1) (by simp) (fun _ => b) (fun _ => x) w hw
  refine ⟨w', ?_⟩
  rw [h1]
  congr 3
  funext i
  rw [h2 i]
  have : factor ℝ k = 1 := by cases k <;> first | rfl | exact absurd rfl hk
  have hi : i = 0 := Subsingleton.elim _ _
  subst hi
  rw [this]
  simp [relaxed, off]

theorem c88_violated : ¬ C88 := by
  intro hC
  obtain ⟨x', y1, w, d, s', h1, h2, h3, -⟩ := c88_first_partial .gaussSeidel (initialise ⟨.gaussSeidel, true, 0, 1, 1, 0, 0⟩)
    (single_square 1) (by simp) (by norm_num) (by norm_num) (fun _ => 1) (fun _ => 0)
    (lt_of_lt_of_le (show (0 : ℝ) < 1 by norm_num) one_le_big) (show 1 ≤ sizeMax by norm_num [sizeMax])
    (show 1 < sizeMax by norm_num [sizeMax]) 2 (by simp [initialise])
  have h4 := (c46_stops_partial .gaussSeidel (initialise ⟨.gaussSeidel, true, 0, 1, 1, 0, 0⟩) (single 1) _ _
    (show 1 ≤ sizeMax by norm_num [sizeMax]) (show 1 < sizeMax by norm_num [sizeMax]) 2 (by simp [initialise])).2 _ _ _ h1
  have h5 := hC _ _ _ (single_square 1) (by simp) _ _ _ _ _ _ _ _ h1 (lt_of_lt_of_le Nat.zero_lt_one h4.1)
  obtain ⟨w', h6⟩ := single_step .gaussSeidel (by simp) (initialise ⟨.gaussSeidel, true, 0, 1, 1, 0, 0⟩) 1 0
    (startWorking .gaussSeidel (initialise ⟨.gaussSeidel, true, 0, 1, 1, 0, 0⟩) (single 1)) (by simp)
  rw [h6, Out.ok.injEq, Prod.mk.injEq, vec_inj] at h2
  rw [h3, ← h2.1] at h5
  simp [norm2, defect] at h5

/-! ### C89 -/

/-- A solve that starts at a solution returns it, after the least number of iterations. -/
theorem c89_solution (k : Method) (s : FixedPoint ℝ) {n : Nat} {m : Sparse ℝ} {A : Fin n → Fin n → ℝ} (h : Square m A)
    (hd : ∀ i, A i i ≠ 0) (hn0 : 0 < n) (hn : n < 2 ^ 31) (b x : Fin n → ℝ) (hx : Solves A x b)
    (htol : s.limits.tolerance < reals.big) (hmin : s.limits.minIterations ≤ sizeMax) (fuel : Nat)
    (hf : max 1 s.limits.minIterations ≤ fuel) :
    ∃ (d : Conv ℝ Quot) (s' : FixedPoint ℝ), solveSystem reals k s m (vec x) (vec b) fuel = .ok (vec x, d, s') ∧
      d.iteration = max 1 s.limits.minIterations ∧ d.residual = 0 ∧ d.residualMax = 0 := by
  have hfix : ∀ j, ∃ w', times (step reals k s m (vec b)) j (vec x, startWorking k s m) = .ok (vec x, w') ∧
      (k = .jacobi → w'.length = n) := by
    intro j
    induction j with
    | zero => exact ⟨_, rfl, fun hk => by rw [startWorking_length k s m hk]; exact h.2.1⟩
    | succ j ih =>
      obtain ⟨w', h3, hl⟩ := ih
      obtain ⟨y, w'', h8, hl', -⟩ := step_ok (F := reals) ⟨rfl, rfl⟩ k s h hd b x w' hl
      obtain ⟨y', w3, h9, h10⟩ := c45_fixed_point (F := reals) ⟨rfl, rfl⟩ k s m A h hd b x w' hl
      rw [h8, Out.ok.injEq, Prod.mk.injEq, vec_inj] at h9
      refine ⟨w'', ?_, hl'⟩
      rw [times_succ_right, h3]
      show step reals k s m (vec b) (vec x, w') = _
      rw [h8, h9.1, h10.mpr hx]
  have hn2 := (norm2_eq_zero A x b hn0).mpr hx
  have hnm := (normMax_eq_zero A x b).mpr hx
  have hstop : ∀ j, Stops A b s.limits (fun _ => x) j ↔ s.limits.minIterations ≤ j := by
    intro j
    unfold Stops Within
    simp [hn2, hnm]
  obtain ⟨j, h1, h2, h3, h4, h5⟩ := solve_course k s h hd hn0 hn b x htol hmin (fun _ => x)
    (fun j => ⟨_, (hfix j).choose_spec.1⟩) (max 1 s.limits.minIterations) (by omega)
    (by have : 1 ≤ sizeMax := by norm_num [sizeMax]
        omega) ((hstop _).mpr (by omega))
  rw [hstop] at h3
  obtain ⟨s', h6⟩ := h5 fuel (by omega)
  refine ⟨_, s', h6, ?_, hn2, hnm⟩
  show j = _
  omega

/-! ### C49 -/

/-- One SOR iteration from the configuration uses the relaxation factor of the configuration. -/
def C49Relaxation : Prop := ∀ (n : Nat) (m : Sparse ℝ) (A : Fin n → Fin n → ℝ), Square m A → (∀ i, A i i ≠ 0) →
  ∀ (c : SolverConfig ℝ) (x b : Fin n → ℝ), ∃ y : Fin n → ℝ, ∃ w,
    step reals .sor (initialise c) m (vec b) (vec x, []) = .ok (vec y, w) ∧
    ∀ i, A i i * (y i - x i) = c.sorRelaxation * (b i - (∑ j, A i j * if j < i then y j else x j))

/-- The converged flag is set if the solve stops because the tolerance is met. -/
def C49Flag : Prop := ∀ (n : Nat) (m : Sparse ℝ) (A : Fin n → Fin n → ℝ), Square m A → (∀ i, A i i ≠ 0) → ∀ (k : Method)
  (c : SolverConfig ℝ) (x b : Fin n → ℝ) (fuel : Nat) x' d s',
    solveSystem reals k (initialise c) m (vec x) (vec b) fuel = .ok (x', d, s') → 0 < d.iteration →
    d.iteration ≤ c.maximumIterations → d.converged = true

/-- What SOR iterations compute, whatever the configuration is. -/
theorem c49_relaxation_partial {n : Nat} (m : Sparse ℝ) (A : Fin n → Fin n → ℝ) (h : Square m A) (hd : ∀ i, A i i ≠ 0)
    (c : SolverConfig ℝ) (x b : Fin n → ℝ) : ∃ y : Fin n → ℝ, ∃ w,
    step reals .sor (initialise c) m (vec b) (vec x, []) = .ok (vec y, w) ∧
    ∀ i, A i i * (y i - x i) = 3 / 2 * (b i - (∑ j, A i j * if j < i then y j else x j)) := by
  obtain ⟨y, w, h1, -, h2⟩ := step_ok (F := reals) ⟨rfl, rfl⟩ .sor (initialise c) h hd b x [] (by simp)
  refine ⟨y, w, h1, fun i => ?_⟩
  have := h2 i
  rw [if_neg (by simp)] at this
  rw [off_add A _ i, if_neg (lt_irrefl i)]
  have hi := hd i
  unfold relaxed at this
  simp only [factor, if_neg (lt_irrefl i)] at this
  rw [this]
  field_simp
  ring

theorem c49_violated : ¬ C49Relaxation ∧ ¬ C49Flag := by
  constructor
  · intro hC
    obtain ⟨y, w, h1, h2⟩ := hC 1 (single 1) _ (single_square 1) (by simp) ⟨.successiveOverRelaxation, true, 0, 0, 0, 0, 1⟩
      (fun _ => 0) (fun _ => 1)
    obtain ⟨y', w', h3, h4⟩ := c49_relaxation_partial (single 1) _ (single_square 1) (by simp)
      ⟨.successiveOverRelaxation, true, 0, 0, 0, 0, 1⟩ (fun _ => 0) (fun _ => 1)
    rw [h1, Out.ok.injEq, Prod.mk.injEq, vec_inj] at h3
    obtain ⟨rfl, -⟩ := h3
    have h5 := h2 0
    have h6 := h4 0
    simp at h5 h6
    linarith
  · intro hC
    obtain ⟨d, s', h1, h2, -⟩ := c89_solution .gaussSeidel (initialise ⟨.gaussSeidel, true, 0, 1, 5, 0, 0⟩) (single_square 1)
      (by simp) (by norm_num) (by norm_num) (fun _ => 1) (fun _ => 1) (by intro i; simp)
      (lt_of_lt_of_le (show (0 : ℝ) < 1 by norm_num) one_le_big) (show 1 ≤ sizeMax by norm_num [sizeMax]) 1
      (by simp [initialise])
    have e : d.iteration = 1 := by rw [h2]; simp [initialise]
    have h3 := hC _ _ _ (single_square 1) (by simp) _ _ _ _ _ _ _ _ h1 (by omega) (by rw [e]; norm_num)
    rw [c49_flag _ _ _ _ _ _ _ _ _ h1] at h3
    cases h3

/-! ### C92 -/

/-- Whatever the sizes of the vectors are, computing residuals does not read out of bounds. -/
def C92 : Prop := ∀ (m : Sparse ℝ), Built false m → m.sizeRow < 2 ^ 31 → ∀ x b : List ℝ, computeResidual reals m x b ≠ .ub

/-- Vectors that do not fit a square matrix are rejected. -/
theorem c92_square_partial (m : Sparse ℝ) {n : Nat} (A : Fin n → Fin n → ℝ) (h : Square m A) (x b : List ℝ)
    (hx : ¬ (x.length = n ∧ b.length = n ∧ 0 < n)) : computeResidual reals m x b = .exit 1 := by
  unfold computeResidual
  rw [h.2.1, h.2.2.1]
  by_cases h0 : x.length ≠ 0 ∧ b.length ≠ 0
  · have e : (x.length != 0 && b.length != 0) = true := by simp [h0.1, h0.2]
    rw [e]
    by_cases h1 : n = x.length
    · by_cases h2 : n = b.length
      · exact absurd ⟨h1.symm, h2.symm, by omega⟩ hx
      · have : (n == b.length) = false := by simpa using h2
        rw [this, show (n == x.length) = true by simpa using h1]
        rfl
    · rw [show (n == x.length) = false by simpa using h1]
      rfl
  · have e : (x.length != 0 && b.length != 0) = false := by
      simp only [Bool.and_eq_false_iff, bne_eq_false_iff_eq]
      omega
    rw [e]
    rfl

/-- The vectors that fit a matrix that is not square are rejected. -/
theorem c92_rectangular (m : Sparse ℝ) (hm : m.sizeRow ≠ m.colSize) (x b : List ℝ) (hx : x.length = m.colSize) :
    computeResidual reals m x b = .exit 1 := by
  unfold computeResidual
  rw [hx, show (m.sizeRow == m.colSize) = false by simpa using hm]
  cases (m.colSize != 0 && b.length != 0) <;> rfl

/-- Vectors that do not fit are accepted, and read out of bounds. -/
theorem c92_violated : ¬ C92 := by
  intro hC
  have hb : Built false (⟨[0, 1], [1], [1], 2⟩ : Sparse ℝ) := Built.ofLists (nz := [0, 1]) (ix := [1]) (vs := [1]) (c := 2)
    (by simp [sizeMax]) (by simp [sizeMax]) (by simp [Sparse.ofLists, loop, Sparse.listBody, rd, slice, overwrite, assert])
  refine hC _ hb (by simp [Sparse.sizeRow]) [1] [1, 1] ?_
  rfl

end Disa.Props
