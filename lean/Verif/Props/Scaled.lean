import Verif.Props.Permuted
import Verif.Props.Monotone

/-!
# Property C171: iterative solvers and the scale of equations and unknowns
-/

namespace Disa.Props

open Disa Spec Dense Iterative

section iterates

variable {K N : Type} [Field K] [LinearOrder K] [IsStrictOrderedRing K] {F : Scalars K N} {n : Nat}

/-- The system with equation `i` multiplied by `r i`, for the unknowns `t j` times the old ones. -/
def scaled (A : Fin n → Fin n → K) (r t : Fin n → K) (i j : Fin n) : K := r i * A i j / t j

theorem relaxed_scaled (A : Fin n → Fin n → K) (b r t : Fin n → K) (hr : ∀ i, r i ≠ 0) (ht : ∀ i, t i ≠ 0) (hd : ∀ i, A i i ≠ 0)
    (omega : K) (z : Fin n → K) (i : Fin n) :
    relaxed (scaled A r t) (fun i => r i * b i) omega (fun j => t j * z j) i = t i * relaxed A b omega z i := by
  have h1 : Iterative.off (scaled A r t) (fun j => t j * z j) i = r i * Iterative.off A z i := by
    unfold Iterative.off scaled
    rw [Finset.mul_sum]
    refine Finset.sum_congr rfl fun j _ => ?_
    split
    · rw [mul_zero]
    · have := ht j
      field_simp
  unfold relaxed
  rw [h1]
  unfold scaled
  have h2 := hr i
  have h3 := ht i
  have h4 := hd i
  field_simp

theorem next_scaled (A : Fin n → Fin n → K) (b r t : Fin n → K) (hr : ∀ i, r i ≠ 0) (ht : ∀ i, t i ≠ 0) (hd : ∀ i, A i i ≠ 0)
    (k : Method) {x y y' : Fin n → K} (h : Next A b k x y) (h' : Next (scaled A r t) (fun i => r i * b i) k (fun i => t i * x i) y') :
    y' = fun i => t i * y i := by
  funext i
  refine fin_strong (p := fun i => y' i = t i * y i) (fun i ih => ?_) i
  rw [h' i, h i, ← relaxed_scaled A b r t hr ht hd]
  congr 1
  funext j
  by_cases hk : k = .jacobi
  · simp only [hk, if_true]
  · simp only [hk, if_false]
    split
    · rename_i hj; exact ih j hj
    · rfl

theorem scaled_diag {A : Fin n → Fin n → K} {r t : Fin n → K} (hr : ∀ i, r i ≠ 0) (ht : ∀ i, t i ≠ 0) (hd : ∀ i, A i i ≠ 0) (i : Fin n) :
    scaled A r t i i ≠ 0 := div_ne_zero (mul_ne_zero (hr i) (hd i)) (ht i)

/-- C171: multiplying each equation by a factor changes no iterate, and multiplying each unknown by a factor multiplies its values in
each iterate. -/
theorem c171_iterates (hF : Exact F) (k : Method) (s s' : FixedPoint K) (m m' : Sparse K) (A : Fin n → Fin n → K) (r t : Fin n → K)
    (hm : Square m A) (hm' : Square m' fun i j => r i * A i j / t j) (hr : ∀ i, r i ≠ 0) (ht : ∀ i, t i ≠ 0) (hd : ∀ i, A i i ≠ 0)
    (b x : Fin n → K) (w w' : List K) (hw : k = .jacobi → w.length = n) (hw' : k = .jacobi → w'.length = n) (j : Nat) :
    ∃ (y : Fin n → K) (v v' : List K), times (step F k s m (vec b)) j (vec x, w) = .ok (vec y, v) ∧
      times (step F k s' m' (vec fun i => r i * b i)) j (vec fun i => t i * x i, w') = .ok (vec fun i => t i * y i, v') := by
  obtain ⟨xs, h1, h2, h3⟩ := iterates_next hF k s hm hd b x w hw
  obtain ⟨ys, k1, k2, k3⟩ := iterates_next hF k s' (A := scaled A r t) hm' (scaled_diag hr ht hd) (fun i => r i * b i)
    (fun i => t i * x i) w' hw'
  have key : ∀ j, ys j = fun i => t i * xs j i := by
    intro j
    induction j with
    | zero => rw [h1, k1]
    | succ j ih => exact next_scaled A b r t hr ht hd k (h3 j) (by rw [← ih]; exact k3 j)
  obtain ⟨v, e⟩ := h2 j
  obtain ⟨v', e'⟩ := k2 j
  exact ⟨xs j, v, v', e, by rw [e', key]⟩

end iterates

/-- The hypotheses are met by a system of two equations: the second equation times three, and the second unknown halved. -/
example : Square (dense2 (2 : ℝ) 1 1 3) ![![2, 1], ![1, 3]] ∧
    Square (dense2 (2 : ℝ) 2 3 18) (fun i j => (![1, 3] : Fin 2 → ℝ) i * (![![2, 1], ![1, 3]] : Fin 2 → Fin 2 → ℝ) i j /
      (![1, 1 / 2] : Fin 2 → ℝ) j) ∧ (∀ i, (![1, 3] : Fin 2 → ℝ) i ≠ 0) ∧ (∀ i, (![1, 1 / 2] : Fin 2 → ℝ) i ≠ 0) := by
  refine ⟨dense2_square _ _ _ _, ?_, ?_, ?_⟩
  · have e : (fun i j => (![1, 3] : Fin 2 → ℝ) i * (![![2, 1], ![1, 3]] : Fin 2 → Fin 2 → ℝ) i j / (![1, 1 / 2] : Fin 2 → ℝ) j) =
        ![![2, 2], ![3, 18]] := by
      funext i j
      fin_cases i <;> fin_cases j <;> norm_num
    rw [e]
    exact dense2_square _ _ _ _
  · intro i
    fin_cases i <;> norm_num
  · intro i
    fin_cases i <;> norm_num

/-- The convergence data of two solves: the same, but for the residuals, which are multiplied by `c` if there are any. -/
def ScaledConv (c : ℝ) (d d' : Conv ℝ Quot) : Prop :=
  d'.converged = d.converged ∧ d'.iteration = d.iteration ∧ d'.residualNormalised = d.residualNormalised ∧
    d'.residualMaxNormalised = d.residualMaxNormalised ∧
    (d.iteration = 0 ∧ d' = d ∨ d'.residual = c * d.residual ∧ d'.residual0 = c * d.residual0 ∧ d'.residualMax = c * d.residualMax ∧
      d'.residualMax0 = c * d.residualMax0)

theorem defect_scaled {n : Nat} (A : Fin n → Fin n → ℝ) (x b : Fin n → ℝ) {r t : ℝ} (ht : t ≠ 0) (i : Fin n) :
    defect (fun i j => r * A i j / t) (fun i => t * x i) (fun i => r * b i) i = r * defect A x b i := by
  unfold defect
  rw [mul_sub, Finset.mul_sum]
  congr 1
  refine Finset.sum_congr rfl fun j _ => ?_
  field_simp

theorem norm2_scaled {n : Nat} (A : Fin n → Fin n → ℝ) (x b : Fin n → ℝ) {r t : ℝ} (ht : t ≠ 0) :
    norm2 (fun i j => r * A i j / t) (fun i => t * x i) (fun i => r * b i) = |r| * norm2 A x b := by
  unfold norm2
  simp only [defect_scaled A x b ht, mul_pow, ← Finset.mul_sum]
  rw [mul_div_assoc, Real.sqrt_mul (sq_nonneg r), Real.sqrt_sq_eq_abs]

theorem normMax_scaled {n : Nat} (A : Fin n → Fin n → ℝ) (x b : Fin n → ℝ) {r t : ℝ} (ht : t ≠ 0) :
    normMax (fun i j => r * A i j / t) (fun i => t * x i) (fun i => r * b i) = |r| * normMax A x b := by
  unfold normMax
  simp only [defect_scaled A x b ht, abs_mul]
  rw [Real.mul_iSup_of_nonneg (abs_nonneg r)]

theorem ratio_scaled {c : ℝ} (hc : c ≠ 0) (x y : ℝ) : reals.ratio (c * x) (c * y) = reals.ratio x y := by
  simp only [reals, mul_eq_zero, hc, false_or]
  split
  · rfl
  · rw [mul_div_mul_left _ _ hc]

/-- C171: with one factor for all equations and one for all unknowns, `solve_system` takes the same number of iterations, reports the
same normalised residuals and multiplies the residuals by the factor of the equations and the solution by that of the unknowns. -/
theorem c171_solve (k : Method) (s : FixedPoint ℝ) {n : Nat} (m m' : Sparse ℝ) (A : Fin n → Fin n → ℝ) (r t : ℝ) (hr : r ≠ 0)
    (ht : t ≠ 0) (hn0 : 0 < n) (hn : n < 2 ^ 31) (hm : Square m A) (hm' : Square m' fun i j => r * A i j / t) (hd : ∀ i, A i i ≠ 0)
    (b x : Fin n → ℝ) (fuel : Nat) (y : List ℝ) (d : Conv ℝ Quot) (s1 : FixedPoint ℝ)
    (h : solveSystem reals k s m (vec x) (vec b) fuel = .ok (y, d, s1)) :
    ∃ (z : Fin n → ℝ) (d' : Conv ℝ Quot) (s2 : FixedPoint ℝ), y = vec z ∧
      solveSystem reals k s m' (vec fun i => t * x i) (vec fun i => r * b i) fuel = .ok (vec fun i => t * z i, d', s2) ∧
      ScaledConv |r| d d' := by
  have hn' : n ≤ intMax := by unfold intMax; omega
  have hr' : |r| ≠ 0 := abs_ne_zero.mpr hr
  have hconv : ∀ d d' : Conv ℝ Quot, ScaledConv |r| d d' → isConverged reals s.limits d' = isConverged reals s.limits d := by
    intro d d' h
    unfold isConverged
    rw [h.2.1, h.2.2.1, h.2.2.2.1]
  -- one iteration
  have hpass : ∀ (x : Fin n → ℝ) (w w' : List ℝ) (d d' : Conv ℝ Quot), (k = .jacobi → w.length = n) → (k = .jacobi → w'.length = n) →
      ScaledConv |r| d d' → ∃ (y : Fin n → ℝ) (v v' : List ℝ) (e e' : Conv ℝ Quot), (k = .jacobi → v.length = n) ∧
        (k = .jacobi → v'.length = n) ∧ pass reals k s m (vec b) ((vec x, w), d) = .ok ((vec y, v), e) ∧
        pass reals k s m' (vec fun i => r * b i) ((vec fun i => t * x i, w'), d') = .ok ((vec fun i => t * y i, v'), e') ∧
        ScaledConv |r| e e' := by
    intro x w w' d d' hw hw' hdd
    obtain ⟨y, v, h1, h2, h3⟩ := step_ok (F := reals) ⟨rfl, rfl⟩ k s hm hd b x w hw
    obtain ⟨y', v', h1', h2', h3'⟩ := step_ok (F := reals) ⟨rfl, rfl⟩ k s hm'
      (scaled_diag (r := fun _ => r) (t := fun _ => t) (fun _ => hr) (fun _ => ht) hd) (fun i => r * b i) (fun i => t * x i) w' hw'
    obtain rfl := next_scaled A b (fun _ => r) (fun _ => t) (fun _ => hr) (fun _ => ht) hd k (x := x) (y := y) (y' := y') h3 h3'
    have e0 : ∀ p : ℝ, ∀ q q' : ℝ, (d.iteration ≠ 0 → q' = |r| * q) →
        (if d'.iteration = 0 then |r| * p else q') = |r| * (if d.iteration = 0 then p else q) := by
      intro p q q' hq
      rw [hdd.2.1]
      split
      · rfl
      · rename_i h0; exact hq h0
    have hres : d.iteration ≠ 0 → d'.residual0 = |r| * d.residual0 ∧ d'.residualMax0 = |r| * d.residualMax0 := by
      intro h0
      rcases hdd.2.2.2.2 with h9 | h9
      · exact absurd h9.1 h0
      · exact ⟨h9.2.1, h9.2.2.2⟩
    refine ⟨y, v, v', ⟨d.converged, wrap (d.iteration + 1), norm2 A y b, if d.iteration = 0 then norm2 A y b else d.residual0,
        reals.ratio (norm2 A y b) (if d.iteration = 0 then norm2 A y b else d.residual0), normMax A y b,
        if d.iteration = 0 then normMax A y b else d.residualMax0,
        reals.ratio (normMax A y b) (if d.iteration = 0 then normMax A y b else d.residualMax0)⟩,
      ⟨d'.converged, wrap (d'.iteration + 1), |r| * norm2 A y b, if d'.iteration = 0 then |r| * norm2 A y b else d'.residual0,
        reals.ratio (|r| * norm2 A y b) (if d'.iteration = 0 then |r| * norm2 A y b else d'.residual0), |r| * normMax A y b,
        if d'.iteration = 0 then |r| * normMax A y b else d'.residualMax0,
        reals.ratio (|r| * normMax A y b) (if d'.iteration = 0 then |r| * normMax A y b else d'.residualMax0)⟩, h2, h2', ?_, ?_, ?_⟩
    · unfold pass update
      simp only [h1, Out.ok_bind, computeResidual_ok hm y b hn0 hn', Out.pure_eq]
    · unfold pass update
      simp only [h1', Out.ok_bind, computeResidual_ok hm' _ _ hn0 hn', Out.pure_eq, norm2_scaled A y b ht, normMax_scaled A y b ht]
    · refine ⟨hdd.1, by simp only [hdd.2.1], ?_, ?_, .inr ⟨rfl, e0 _ _ _ fun h0 => (hres h0).1, rfl, e0 _ _ _ fun h0 => (hres h0).2⟩⟩
      · simp only
        rw [e0 _ _ _ fun h0 => (hres h0).1, ratio_scaled hr']
      · simp only
        rw [e0 _ _ _ fun h0 => (hres h0).2, ratio_scaled hr']
  -- all iterations
  have hiter : ∀ (fuel : Nat) (x : Fin n → ℝ) (w w' : List ℝ) (d d' : Conv ℝ Quot), (k = .jacobi → w.length = n) →
      (k = .jacobi → w'.length = n) → ScaledConv |r| d d' → ∀ st, iterate reals k s m (vec b) fuel ((vec x, w), d) = .ok st →
      ∃ (y : Fin n → ℝ) (v' : List ℝ) (e' : Conv ℝ Quot), st.1.1 = vec y ∧
        iterate reals k s m' (vec fun i => r * b i) fuel ((vec fun i => t * x i, w'), d') = .ok ((vec fun i => t * y i, v'), e') ∧
        ScaledConv |r| st.2 e' := by
    intro fuel
    induction fuel with
    | zero =>
      intro x w w' d d' _ _ hdd st hst
      rw [iterate_eq] at hst ⊢
      unfold whileFuel at hst ⊢
      simp only [hconv d d' hdd] at hst ⊢
      by_cases hc : isConverged reals s.limits d = true
      · simp only [hc, Bool.not_true, Bool.false_eq_true, if_false, Out.ok.injEq] at hst ⊢
        subst hst
        exact ⟨x, w', d', rfl, rfl, hdd⟩
      · simp [hc] at hst
    | succ fuel ih =>
      intro x w w' d d' hw hw' hdd st hst
      rw [iterate_eq] at hst ⊢
      unfold whileFuel at hst ⊢
      simp only [hconv d d' hdd] at hst ⊢
      by_cases hc : isConverged reals s.limits d = true
      · simp only [hc, Bool.not_true, Bool.false_eq_true, if_false, Out.ok.injEq] at hst ⊢
        subst hst
        exact ⟨x, w', d', rfl, rfl, hdd⟩
      · obtain ⟨y, v, v', e, e', g1, g2, g3, g4, g5⟩ := hpass x w w' d d' hw hw' hdd
        simp only [hc, Bool.not_false, if_true, g3, g4, Out.ok_bind] at hst ⊢
        rw [← iterate_eq] at hst ⊢
        exact ih y v v' e e' g1 g2 g5 st hst
  rw [solveSystem_eq, Out.bind_eq_ok] at h
  obtain ⟨st, h1, h2⟩ := h
  simp only [Out.pure_eq, Out.ok.injEq, Prod.mk.injEq] at h2
  obtain ⟨z, v', d', h3, h4, h5⟩ := hiter fuel x _ (startWorking k s m') _ (Conv.new reals)
    (fun hk => by rw [startWorking_length k s m hk]; exact hm.2.1) (fun hk => by rw [startWorking_length k s m' hk]; exact hm'.2.1)
    ⟨rfl, rfl, rfl, rfl, .inl ⟨rfl, rfl⟩⟩ st h1
  refine ⟨z, d', ⟨s.limits, v', s.relaxation⟩, by rw [← h2.1, h3], ?_, by rw [← h2.2.1]; exact h5⟩
  rw [solveSystem_eq, h4, Out.ok_bind]
  rfl

/-- The hypotheses are met: one Jacobi iteration on two equations, and on ten times the equations. -/
example : ∃ y d s1, solveSystem reals .jacobi ⟨⟨0, 0, 1⟩, [], 1⟩ (dense2 (2 : ℝ) 1 1 3) (vec ![0, 0]) (vec ![3, 4]) 1 = .ok (y, d, s1) ∧
    Square (dense2 (2 : ℝ) 1 1 3) ![![2, 1], ![1, 3]] ∧
    Square (dense2 (20 : ℝ) 10 10 30) (fun i j => 10 * (![![2, 1], ![1, 3]] : Fin 2 → Fin 2 → ℝ) i j / 1) := by
  obtain ⟨y, w, h, -, -⟩ := step_ok (F := reals) ⟨rfl, rfl⟩ .jacobi ⟨⟨0, 0, 1⟩, [], 1⟩ (dense2_square (2 : ℝ) 1 1 3)
    (by intro i; fin_cases i <;> norm_num) ![3, 4] ![0, 0] (startWorking .jacobi ⟨⟨0, 0, 1⟩, [], 1⟩ (dense2 (2 : ℝ) 1 1 3))
    (fun hk => by rw [startWorking_length _ _ _ hk]; rfl)
  obtain ⟨d, s', hs⟩ := one_iteration .jacobi ⟨⟨0, 0, 1⟩, [], 1⟩ rfl (by decide) (by decide) (dense2_square (2 : ℝ) 1 1 3) _ _ y w h
  refine ⟨_, _, _, hs, dense2_square _ _ _ _, ?_⟩
  have e : (fun i j => 10 * (![![2, 1], ![1, 3]] : Fin 2 → Fin 2 → ℝ) i j / 1) = ![![20, 10], ![10, 30]] := by
    funext i j
    fin_cases i <;> fin_cases j <;> norm_num
  rw [e]
  exact dense2_square _ _ _ _

end Disa.Props
