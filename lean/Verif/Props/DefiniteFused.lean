import Verif.Props.SolveFused

/-!
# Property C222: symmetric positive definite systems with fused operations
-/

namespace Disa.Props

open Disa Spec Dense Num Sparse Iterative

variable {fuse : Hist → Hist → Hist → Bool}

/-- C222: the errors of the Gauss Seidel method and of successive over relaxation decrease as in C214 whichever products are
fused. -/
theorem c222_definite (sqrt : Fused binary64 fuse → Fused binary64 fuse) (k : Method) (hk : k ≠ .jacobi)
    (s : FixedPoint (Fused binary64 fuse)) {n : Nat} (hn : 0 < n) (m : Sparse (Fused binary64 fuse))
    (M : Fin n → Fin n → Fused binary64 fuse) (hm : Square m M) (A : Fin n → Fin n → ℚ) (hA : ∀ i j, (M i j).get = .fin (A i j))
    {l a X S : ℚ} (hl : 1 / 2 ^ 200 ≤ l) (ha' : a ≤ 2 ^ 200)
    (hco : ∀ v : Fin n → ℚ, l * ∑ i, v i ^ 2 ≤ ∑ i, ∑ j, v i * A i j * v j) (hsym : ∀ i j, A i j = A j i)
    (ha : ∀ i, A i i ≤ a) (hsize : (n : ℚ) ^ 7 * (a / l) ^ 4 ≤ 2 ^ 85) (B : Fin n → Fused binary64 fuse) (b sol : Fin n → ℚ)
    (hB : ∀ i, (B i).get = .fin (b i)) (hsol : Solves A sol b) (hX : ∀ j, |sol j| ≤ X) (hX' : X ≤ 2 ^ 150)
    (Y : Fin n → Fused binary64 fuse) (x : Fin n → ℚ) (hY : ∀ i, (Y i).get = .fin (x i)) (hx : ∀ j, |x j - sol j| ≤ S)
    (hS : S ≤ 2 ^ 150) (w : List (Fused binary64 fuse)) (j : Nat) :
    ∃ (Z : Fin n → Fused binary64 fuse) (z : Fin n → ℚ) (w' : List (Fused binary64 fuse)),
      times (step (fusedFloats binary64 fuse sqrt) k s m (vec B)) j (vec Y, w) = .ok (vec Z, w') ∧
      (∀ i, (Z i).get = .fin (z i)) ∧
      ∀ i, (z i - sol i) ^ 2 ≤ (1 - l / (24 * n ^ 2 * a)) ^ j * (n ^ 2 * (a / l) * S ^ 2) +
        n ^ 7 * (a / l) ^ 4 / 2 ^ 85 * (X + 1 / 2 ^ 800) ^ 2 := by
  obtain ⟨L, h1, h2, h3, h4, h5'⟩ := square_rep hm
  have h5 : ∀ i j : Fin n, ((entry L i j).getD 0).get = .fin (A i j) := fun i j => by rw [h5' i j]; exact hA i j
  have hdef : Definiteness A l := hco
  have hl0 : 0 < l := lt_of_lt_of_le (by positivity) hl
  have hd : ∀ i, A i i ≠ 0 := fun i => (hl0.trans_le (hdef.diag i)).ne'
  have ho := factor_cases k
  obtain ⟨O, hO⟩ : ∃ O, O = if k = .sor then (fusedFloats binary64 fuse sqrt).threeHalves else (fusedFloats binary64 fuse sqrt).one :=
    ⟨_, rfl⟩
  obtain ⟨ho', hst⟩ : O.get = .fin (factor ℚ k) ∧ O.Stored := by
    rw [hO]
    cases k <;> exact ⟨rfl, fun _ => rfl⟩
  obtain ⟨Z, z, ⟨w', e1⟩, e2, e3⟩ := definite_iterates (fun (v : Fused binary64 fuse) q => v.get = .fin q)
    (fun i Z => newValue (fusedFloats binary64 fuse sqrt) L B O (M i i) Z i)
    (fun j Z => ∃ w', times (step (fusedFloats binary64 fuse sqrt) k s m (vec B)) j (vec Y, w) = .ok (vec Z, w'))
    hn hl0 hdef hsym ha hsize hsol ho hX hX' (fun i e Z z hZ hz he => by
      obtain ⟨g1, g2⟩ := slip_bounds64 (size_of hn hl0 hdef ha hsize) hl ha' (hdef.entry hl0 hsym ha) hdef.diag hsol hX
        (hX'.trans (pow_le_pow_right₀ (by norm_num) (by norm_num))) ho i z hz he
      obtain ⟨r, hr⟩ := newValue_fused_range rounds_binary64 c100_range h2 h3 h5 (sqrt := sqrt) O hst _ ho' B b hB Z z hZ i (M i i)
        (hA i i) (hd i) g1
      exact ⟨r, hr, (newValue_fused rounds_binary64 h2 h3 h5 B b hB Z z hZ O hst _ ho' i (M i i) (hA i i) (hd i) r hr).trans g2⟩)
    (fun j Z hj => by
      obtain ⟨w', e1⟩ := hj
      obtain ⟨v, w'', f1, f2, f3⟩ := step_gen (fusedFloats binary64 fuse sqrt) k s h1 h3 h4 (fun i => M i i)
        (fun i => diag_fused h5' (hA i i) (hd i)) B Z w' (fun h => absurd h hk)
      simp only [← hO, ne_eq, hk, not_false_eq_true, true_and] at f3
      exact ⟨v, ⟨w'', by rw [times_succ_right, e1, Out.ok_bind, f1]⟩, f3⟩)
    Y x hY ⟨w, rfl⟩ hx hS j
  exact ⟨Z, z, w', e1, e2, e3⟩

/-- C222: solves return a finite solution with these errors. -/
theorem c222_returns (sqrt : Fused binary64 fuse → Fused binary64 fuse) (k : Method) (hk : k ≠ .jacobi)
    (s : FixedPoint (Fused binary64 fuse)) {n : Nat} (hn : 0 < n) (m : Sparse (Fused binary64 fuse))
    (M : Fin n → Fin n → Fused binary64 fuse) (hm : Square m M) (A : Fin n → Fin n → ℚ) (hA : ∀ i j, (M i j).get = .fin (A i j))
    {l a X S : ℚ} (hl : 1 / 2 ^ 200 ≤ l) (ha' : a ≤ 2 ^ 200)
    (hco : ∀ v : Fin n → ℚ, l * ∑ i, v i ^ 2 ≤ ∑ i, ∑ j, v i * A i j * v j) (hsym : ∀ i j, A i j = A j i)
    (ha : ∀ i, A i i ≤ a) (hsize : (n : ℚ) ^ 7 * (a / l) ^ 4 ≤ 2 ^ 85) (B : Fin n → Fused binary64 fuse) (b sol : Fin n → ℚ)
    (hB : ∀ i, (B i).get = .fin (b i)) (hsol : Solves A sol b) (hX : ∀ j, |sol j| ≤ X) (hX' : X ≤ 2 ^ 150)
    (Y : Fin n → Fused binary64 fuse) (x : Fin n → ℚ) (hY : ∀ i, (Y i).get = .fin (x i)) (hx : ∀ j, |x j - sol j| ≤ S)
    (hS : S ≤ 2 ^ 150) (hmin : s.limits.minIterations ≤ sizeMax) (hmax : s.limits.maxIteration < sizeMax) (fuel : Nat)
    (hf : max s.limits.minIterations (s.limits.maxIteration + 1) ≤ fuel) :
    ∃ (Z : Fin n → Fused binary64 fuse) (z : Fin n → ℚ) (d : Conv (Fused binary64 fuse) (Fused binary64 fuse))
      (s' : FixedPoint (Fused binary64 fuse)),
      solveSystem (fusedFloats binary64 fuse sqrt) k s m (vec Y) (vec B) fuel = .ok (vec Z, d, s') ∧
      (∀ i, (Z i).get = .fin (z i)) ∧
      s.limits.minIterations ≤ d.iteration ∧ d.iteration ≤ max s.limits.minIterations (s.limits.maxIteration + 1) ∧
      ∀ i, (z i - sol i) ^ 2 ≤ (1 - l / (24 * n ^ 2 * a)) ^ d.iteration * (n ^ 2 * (a / l) * S ^ 2) +
        n ^ 7 * (a / l) ^ 4 / 2 ^ 85 * (X + 1 / 2 ^ 800) ^ 2 := by
  have hj := c222_definite sqrt k hk s hn m M hm A hA hl ha' hco hsym ha hsize B b sol hB hsol hX hX' Y x hY hx hS (startWorking k s m)
  obtain ⟨L, h1, h2, h3, h4, h5⟩ := square_rep hm
  obtain ⟨hn31, -⟩ := definite_ranges hn hl ha' hco hsym ha hsize ((abs_nonneg _).trans (hX ⟨0, hn⟩)) hX'
    ((abs_nonneg _).trans (hx ⟨0, hn⟩)) hS
  obtain ⟨x', d, s', e⟩ := solve_runs (fusedFloats binary64 fuse sqrt) k s h1 h3 h4 hm.2.2.1 hn (by unfold intMax; omega) _ _ hmin hmax
    fuel hf (fun j => by
      obtain ⟨Z, z, w', e, -⟩ := hj j
      exact ⟨_, _, e⟩)
  obtain ⟨g1, g2, g3⟩ := (c46_stops_partial k s m _ _ hmin hmax fuel hf).2 _ _ _ e
  obtain ⟨Z, z, w', e1, e2, e3⟩ := hj d.iteration
  rw [g3, Out.ok.injEq, Prod.mk.injEq] at e1
  obtain ⟨rfl, -⟩ := e1
  exact ⟨Z, z, d, s', e, e2, g1, g2, e3⟩

/-- C222: solves stop at the tolerance, up to rounding. -/
theorem c222_stops {root : Fused binary64 fuse → Fused binary64 fuse} (hroot : ∀ x, (root x).get = root64 x.get) (k : Method)
    (hk : k ≠ .jacobi) (s s' : FixedPoint (Fused binary64 fuse)) {n : Nat} (hn : 0 < n) (m : Sparse (Fused binary64 fuse))
    (M : Fin n → Fin n → Fused binary64 fuse) (hm : Square m M) (A : Fin n → Fin n → ℚ) (hA : ∀ i j, (M i j).get = .fin (A i j))
    {l a X S e : ℚ} (hl : 1 / 2 ^ 200 ≤ l) (ha' : a ≤ 2 ^ 200)
    (hco : ∀ v : Fin n → ℚ, l * ∑ i, v i ^ 2 ≤ ∑ i, ∑ j, v i * A i j * v j) (hsym : ∀ i j, A i j = A j i)
    (ha : ∀ i, A i i ≤ a) (hsize : (n : ℚ) ^ 7 * (a / l) ^ 4 ≤ 2 ^ 85) (B : Fin n → Fused binary64 fuse) (b sol : Fin n → ℚ)
    (hB : ∀ i, (B i).get = .fin (b i)) (hst : ∀ i, (B i).Stored) (hsol : Solves A sol b) (hX : ∀ j, |sol j| ≤ X) (hX' : X ≤ 2 ^ 150)
    (Y : Fin n → Fused binary64 fuse) (x : Fin n → ℚ) (hY : ∀ i, (Y i).get = .fin (x i)) (hx : ∀ j, |x j - sol j| ≤ S)
    (hS : S ≤ 2 ^ 150) {J : Nat} (hJ : 0 < J) (hJs : s.limits.minIterations ≤ J) (he0 : 0 ≤ e) (he1 : e ≤ 2 ^ 200)
    (he : (1 - l / (24 * n ^ 2 * a)) ^ J * (n ^ 2 * (a / l) * S ^ 2) + n ^ 7 * (a / l) ^ 4 / 2 ^ 85 * (X + 1 / 2 ^ 800) ^ 2 ≤ e ^ 2)
    {tol : ℚ} (htol : s.limits.tolerance.get = .fin tol) (htol0 : 1 / 2 ^ 500 ≤ tol) (htol1 : tol ≤ 1) (fuel : Nat) (hf : fuel ≤ sizeMax)
    (x' : List (Fused binary64 fuse)) (d : Conv (Fused binary64 fuse) (Fused binary64 fuse))
    (hs : solveSystem (fusedFloats binary64 fuse root) k s m (vec Y) (vec B) fuel = .ok (x', d, s')) (hit : J < d.iteration) :
    ∃ r0, d.residual0.get = .fin r0 ∧ tol * r0 < 4 * residualBound n (n * a) X e := by
  have hj := c222_definite root k hk s hn m M hm A hA hl ha' hco hsym ha hsize B b sol hB hsol hX hX' Y x hY hx hS (startWorking k s m)
  obtain ⟨hn31, hR, hT, hd1⟩ := definite_ranges hn hl ha' hco hsym ha hsize ((abs_nonneg _).trans (hX ⟨0, hn⟩)) hX'
    ((abs_nonneg _).trans (hx ⟨0, hn⟩)) hS
  obtain ⟨Y1, y1, w1, e1, e1', e2⟩ := hj 1
  obtain ⟨YJ, y, w, e3, e3', e4⟩ := hj J
  have hy : ∀ j, |y j - sol j| ≤ e := fun j => abs_le_of_sq_le_sq ((e4 j).trans he) he0
  exact c221_stops hroot k s s' hn hn31 m M hm A hA hR (hT e he0 he1) (hT _ (by positivity) le_rfl) B b sol hB hst hsol hX _ hJ hJs
    Y1 YJ y1 y w1 w e1 e1' (fun j => hd1 _ (e2 j)) e3 e3' hy htol htol0 htol1 fuel hf x' d hs hit

/-- The hypotheses hold for doubles, whichever products are fused: a system with two unknowns that is not dominant and whose solution
has to be rounded. -/
example (fuse : Hist → Hist → Hist → Bool) (s' : FixedPoint (Fused binary64 fuse)) (x' : List (Fused binary64 fuse))
    (d : Conv (Fused binary64 fuse) (Fused binary64 fuse))
    (h : solveSystem (fusedFloats binary64 fuse rootFused) .sor ⟨⟨0, 1000000, inp 8 (1 / 2 ^ 10)⟩, [], inp 9 1⟩
      (dense2 (inp 0 2) (inp 1 3) (inp 2 3) (inp 3 6)) (vec fun i : Fin 2 => inp (6 + i.1) 0) (vec fun i : Fin 2 => inp (4 + i.1) 1)
      1000001 = .ok (x', d, s')) :
    d.iteration ≤ 100000 ∨ ∃ r0, d.residual0.get = .fin r0 ∧ r0 < 1 := by
  have hm : Square (dense2 (inp 0 2) (inp 1 3) (inp 2 3) (inp 3 6) : Sparse (Fused binary64 fuse))
      (![![inp 0 2, inp 1 3], ![inp 2 3, inp 3 6]] : Fin 2 → Fin 2 → Fused binary64 fuse) := by
    refine ⟨Built.ofLists (nz := [0, 2, 4]) (ix := [0, 1, 0, 1]) (vs := [inp 0 2, inp 1 3, inp 2 3, inp 3 6]) (c := 2)
      (by simp [sizeMax]) (by simp [sizeMax]) (dense2_lists _ _ _ _), rfl, rfl, ?_⟩
    intro i j
    fin_cases i <;> fin_cases j <;> rfl
  have hA : ∀ i j, ((![![inp 0 2, inp 1 3], ![inp 2 3, inp 3 6]] : Fin 2 → Fin 2 → Fused binary64 fuse) i j).get =
      .fin ((![![2, 3], ![3, 6]] : Fin 2 → Fin 2 → ℚ) i j) := by intro i j; fin_cases i <;> fin_cases j <;> rfl
  by_cases hit : d.iteration ≤ 100000
  · exact .inl hit
  · right
    obtain ⟨r0, g1, g2⟩ := c222_stops (fun _ => rfl) .sor (by simp) _ s' (by norm_num) _ _ hm _ hA (l := 1 / 3) (a := 6) (X := 1)
      (S := 1) (e := 1 / 2 ^ 20) (by decide +kernel) (by decide +kernel) (by
        intro v
        simp only [Fin.sum_univ_two, Matrix.cons_val_zero, Matrix.cons_val_one]
        nlinarith [sq_nonneg (5 * v 0 + 9 * v 1), sq_nonneg (v 1)]) (by decide +kernel) (by decide +kernel) (by decide +kernel)
      (fun i : Fin 2 => inp (4 + i.1) 1) (fun _ => 1) ![1, -1 / 3] (fun _ => rfl) (fun _ _ => rfl) (by unfold Solves; decide +kernel)
      (by decide +kernel) (by decide +kernel) (fun i : Fin 2 => inp (6 + i.1) 0) (fun _ => 0) (fun _ => rfl) (by decide +kernel)
      (by decide +kernel) (J := 100000) (by norm_num) (by simp) (by norm_num) (by norm_num) (by
        have h1 : (1 - 1 / 3 / (24 * (2 : ℕ) ^ 2 * 6) : ℚ) ^ 100000 ≤ 1 / 2 ^ 60 := by
          rw [show 100000 = 1000 * 100 by norm_num, pow_mul]
          refine (pow_le_pow_left₀ (by positivity) (show _ ≤ (3 / 5 : ℚ) by decide +kernel) 100).trans (by decide +kernel)
        have h2 : ((2 : ℕ) : ℚ) ^ 7 * (6 / (1 / 3)) ^ 4 / 2 ^ 85 * (1 + 1 / 2 ^ 800) ^ 2 ≤ 1 / 2 ^ 50 := by decide +kernel
        refine (add_le_add (mul_le_mul_of_nonneg_right h1 (by norm_num)) h2).trans (by norm_num)) (tol := 1 / 2 ^ 10) rfl (by decide +kernel)
      (by norm_num) 1000001 (by simp [sizeMax]) _ _ h (by omega)
    refine ⟨r0, g1, ?_⟩
    have g3 : 4 * residualBound 2 ((2 : ℕ) * 6) 1 (1 / 2 ^ 20) ≤ 1 / 2 ^ 10 * 1 := by decide +kernel
    exact lt_of_mul_lt_mul_left (g2.trans_le g3) (by positivity)

end Disa.Props
