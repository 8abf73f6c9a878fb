import Verif.Props.DefiniteFloat
import Verif.Props.RelaxFloat
import Verif.Props.SolveFloat
import Verif.Props.Solve
import Verif.Props.Residual

/-!
# Property C215: solves with floating point numbers return finite solutions
-/

namespace Disa.Props

open Disa Spec Dense Num Sparse Iterative

variable {rnd : ℚ → Fl} {u η : ℚ}

section
variable {S N : Type} [Zero S] [Add S] [Sub S] [Mul S] [Div S] {F : Scalars S N}

/-- Passes do not fail if no iteration does. -/
theorem pass_runs {k : Method} {s : FixedPoint S} {n : Nat} {m : Sparse S} {L : Rows S} (h1 : m.Rep L) (h3 : Bounded n L)
    (h4 : L.length = n) (hc : m.colSize = n) (hn0 : 0 < n) (hn : n ≤ intMax) {x w : List S} {b : Fin n → S}
    (hj : ∀ j, ∃ (y : Fin n → S) (w' : List S), times (step F k s m (vec b)) j (x, w) = .ok (vec y, w')) (j : Nat) :
    ∃ t, times (pass F k s m (vec b)) j ((x, w), Conv.new F) = .ok t ∧ times (step F k s m (vec b)) j (x, w) = .ok t.1 := by
  induction j with
  | zero => exact ⟨_, rfl, rfl⟩
  | succ j ih =>
    obtain ⟨t, e1, e2⟩ := ih
    obtain ⟨y, w', e3⟩ := hj (j + 1)
    have e4 := e3
    rw [times_succ_right, e2, Out.ok_bind] at e4
    obtain ⟨d, e5⟩ : ∃ d, update F m (vec y) (vec b) t.2 = .ok d := by
      unfold update
      rw [residual_gen F h1 h3 h4 hc y b hn0 hn]
      exact ⟨_, rfl⟩
    refine ⟨((vec y, w'), d), ?_, e3⟩
    rw [times_succ_right, e1, Out.ok_bind]
    unfold pass
    rw [e4, Out.ok_bind, e5]
    rfl

omit [Zero S] [Add S] [Sub S] [Mul S] [Div S] in
/-- Loops whose passes do not fail return or go on. -/
theorem whileFuel_runs {σ : Type} (c : σ → Bool) (f : σ → Out σ) (fuel : Nat) (st : σ)
    (h : ∀ j, ∃ t, times f j st = .ok t) : whileFuel c f fuel st = .diverge ∨ ∃ t, whileFuel c f fuel st = .ok t := by
  induction fuel generalizing st with
  | zero =>
    unfold whileFuel
    cases c st
    · exact Or.inr ⟨st, rfl⟩
    · exact Or.inl rfl
  | succ fuel ih =>
    unfold whileFuel
    cases c st
    · exact Or.inr ⟨st, rfl⟩
    · obtain ⟨t, e⟩ := h 1
      obtain ⟨u, e1, e2⟩ := times_succ_ok.mp e
      simp only [if_true, e1, Out.ok_bind]
      refine ih u fun j => ?_
      obtain ⟨v, e3⟩ := h (j + 1)
      obtain ⟨u', e4, e5⟩ := times_succ_ok.mp e3
      rw [e1, Out.ok.injEq] at e4
      subst e4
      exact ⟨v, e5⟩

/-- Solves do not fail if no iteration does. -/
theorem solve_runs (F : Scalars S N) (k : Method) (s : FixedPoint S) {n : Nat} {m : Sparse S} {L : Rows S} (h1 : m.Rep L)
    (h3 : Bounded n L) (h4 : L.length = n) (hc : m.colSize = n) (hn0 : 0 < n) (hn : n ≤ intMax) (x b : Fin n → S)
    (hmin : s.limits.minIterations ≤ sizeMax) (hmax : s.limits.maxIteration < sizeMax) (fuel : Nat)
    (hf : max s.limits.minIterations (s.limits.maxIteration + 1) ≤ fuel)
    (hj : ∀ j, ∃ (y : Fin n → S) (w' : List S),
      times (step F k s m (vec b)) j (vec x, startWorking k s m) = .ok (vec y, w')) :
    ∃ x' d s', solveSystem F k s m (vec x) (vec b) fuel = .ok (x', d, s') := by
  have e1 := iterate_ends (F := F) k s m (vec b) hmin hmax fuel ((vec x, startWorking k s m), Conv.new F)
    (by simpa [Conv.new] using hf)
  rcases whileFuel_runs (fun st => !isConverged F s.limits st.2) (pass F k s m (vec b)) fuel
      ((vec x, startWorking k s m), Conv.new F)
      (fun j => (pass_runs h1 h3 h4 hc hn0 hn hj j).imp fun t h => h.1) with h | ⟨t, h⟩
  · exact absurd h e1
  · rw [solveSystem_eq, iterate_eq, h]
    exact ⟨_, _, _, rfl⟩

end

/-! ### C215 -/

/-- C215: systems dominant by rows, with all methods; `q`, `c`, `X`, `E` and `G` are those of C195. -/
theorem c215_dominant (h : Rounds rnd u η) {M : ℚ} (hM : Range rnd M) (sqrt : Num rnd → Num rnd) (k : Method)
    (s : FixedPoint (Num rnd)) {n : Nat} (hn0 : 0 < n) (hn : n < 2 ^ 31) (m : Sparse (Num rnd)) (a : Fin n → Fin n → ℚ)
    (hm : Square m fun i j => (fin (a i j) : Num rnd)) {q c X E G : ℚ}
    (hq : ∀ i, (∑ j, if j = i then 0 else |a i j|) ≤ q * |a i i|) (hd : ∀ i, a i i ≠ 0) (hc : ∀ i, 1 / |a i i| ≤ c)
    (b sol : Fin n → ℚ) (hsol : Solves a sol b) (hX : ∀ j, |sol j| ≤ X) (x : Fin n → ℚ) (hx : ∀ j, |x j - sol j| ≤ E)
    (hρ : relaxRatio u η n (factor ℚ k) q < 1) (hG : G = relaxOffset u η n (factor ℚ k) q c X / (1 - relaxRatio u η n (factor ℚ k) q))
    (hR : ∀ i, relaxRange u η n (factor ℚ k) (a i i) (|b i| + q * |a i i| * (X + E + G)) (X + E + G) ≤ M)
    (hmin : s.limits.minIterations ≤ sizeMax) (hmax : s.limits.maxIteration < sizeMax) (fuel : Nat)
    (hf : max s.limits.minIterations (s.limits.maxIteration + 1) ≤ fuel) :
    ∃ (y : Fin n → ℚ) (d : Conv (Num rnd) (Num rnd)) (s' : FixedPoint (Num rnd)),
      solveSystem (floats rnd sqrt) k s m (vec fun i => fin (x i)) (vec fun i => fin (b i)) fuel =
        .ok (vec fun i => fin (y i), d, s') ∧
      s.limits.minIterations ≤ d.iteration ∧ d.iteration ≤ max s.limits.minIterations (s.limits.maxIteration + 1) ∧
      ∀ i, |y i - sol i| ≤ relaxRatio u η n (factor ℚ k) q ^ d.iteration * E + G := by
  have hrow := hm.2.1
  have hw : k = .jacobi → (startWorking k s m).length = n := fun hk => by
    rw [startWorking_length _ _ _ hk]
    exact hrow
  have hj := c195_dominant h hM sqrt k s m a hm hq hd hc b sol hsol hX x hx hρ hG hR (startWorking k s m) hw
  obtain ⟨L, h1, h2, h3, h4, h5⟩ := square_rep hm
  obtain ⟨x', d, s', e⟩ := solve_runs (floats rnd sqrt) k s h1 h3 h4 hm.2.2.1 hn0 (by unfold intMax; omega) _ _ hmin hmax fuel hf
    (fun j => by
      obtain ⟨y, w', e, -⟩ := hj j
      exact ⟨_, _, e⟩)
  obtain ⟨g1, g2, g3⟩ := (c46_stops_partial k s m _ _ hmin hmax fuel hf).2 _ _ _ e
  obtain ⟨y, w', e1, e2⟩ := hj d.iteration
  rw [g3, Out.ok.injEq, Prod.mk.injEq] at e1
  obtain ⟨rfl, -⟩ := e1
  exact ⟨y, d, s', e, g1, g2, e2⟩

/-- C215: symmetric positive definite systems of doubles, with the Gauss Seidel method and SOR; `l`, `a`, `X` and `S` are those of
C214. -/
theorem c215_definite (sqrt : Num binary64 → Num binary64) (k : Method) (hk : k ≠ .jacobi) (s : FixedPoint (Num binary64))
    {n : Nat} (hn : 0 < n) (m : Sparse (Num binary64)) (A : Fin n → Fin n → ℚ)
    (hm : Square m fun i j => (fin (A i j) : Num binary64)) {l a X S : ℚ} (hl : 1 / 2 ^ 200 ≤ l) (ha' : a ≤ 2 ^ 200)
    (hco : ∀ v : Fin n → ℚ, l * ∑ i, v i ^ 2 ≤ ∑ i, ∑ j, v i * A i j * v j) (hsym : ∀ i j, A i j = A j i)
    (ha : ∀ i, A i i ≤ a) (hsize : (n : ℚ) ^ 7 * (a / l) ^ 4 ≤ 2 ^ 85) (b sol : Fin n → ℚ) (hsol : Solves A sol b)
    (hX : ∀ j, |sol j| ≤ X) (hX' : X ≤ 2 ^ 150) (x : Fin n → ℚ) (hx : ∀ j, |x j - sol j| ≤ S) (hS : S ≤ 2 ^ 150)
    (hmin : s.limits.minIterations ≤ sizeMax) (hmax : s.limits.maxIteration < sizeMax) (fuel : Nat)
    (hf : max s.limits.minIterations (s.limits.maxIteration + 1) ≤ fuel) :
    ∃ (y : Fin n → ℚ) (d : Conv (Num binary64) (Num binary64)) (s' : FixedPoint (Num binary64)),
      solveSystem (floats binary64 sqrt) k s m (vec fun i => fin (x i)) (vec fun i => fin (b i)) fuel =
        .ok (vec fun i => fin (y i), d, s') ∧
      s.limits.minIterations ≤ d.iteration ∧ d.iteration ≤ max s.limits.minIterations (s.limits.maxIteration + 1) ∧
      ∀ i, (y i - sol i) ^ 2 ≤ (1 - l / (24 * n ^ 2 * a)) ^ d.iteration * (n ^ 2 * (a / l) * S ^ 2) +
        n ^ 7 * (a / l) ^ 4 / 2 ^ 85 * (X + 1 / 2 ^ 800) ^ 2 := by
  have hj := c214_definite sqrt k hk s hn m A hm hl ha' hco hsym ha hsize b sol hsol hX hX' x hx hS (startWorking k s m)
  obtain ⟨L, h1, h2, h3, h4, h5⟩ := square_rep hm
  have hl0 : 0 < l := lt_of_lt_of_le (by positivity) hl
  have hdef : Definiteness A l := hco
  have hla : l ≤ a := (hdef.diag ⟨0, hn⟩).trans (ha _)
  have hn31 : n < 2 ^ 31 := by
    have hκ1 : 1 ≤ a / l := by rw [le_div_iff₀ hl0]; linarith
    have e1 : (n : ℚ) ^ 7 ≤ 2 ^ 85 := (le_mul_of_one_le_right (by positivity) (one_le_pow₀ hκ1)).trans hsize
    have e2 : (n : ℚ) ^ 7 < (2 ^ 31) ^ 7 := e1.trans_lt (by norm_num)
    have e3 := lt_of_pow_lt_pow_left₀ 7 (by norm_num) e2
    exact_mod_cast e3
  obtain ⟨x', d, s', e⟩ := solve_runs (floats binary64 sqrt) k s h1 h3 h4 hm.2.2.1 hn (by unfold intMax; omega) _ _ hmin hmax fuel hf
    (fun j => by
      obtain ⟨y, w', e, -⟩ := hj j
      exact ⟨_, _, e⟩)
  obtain ⟨g1, g2, g3⟩ := (c46_stops_partial k s m _ _ hmin hmax fuel hf).2 _ _ _ e
  obtain ⟨y, w', e1, e2⟩ := hj d.iteration
  rw [g3, Out.ok.injEq, Prod.mk.injEq] at e1
  obtain ⟨rfl, -⟩ := e1
  exact ⟨y, d, s', e, g1, g2, e2⟩

/-- The hypotheses hold for doubles: a solver that makes at least 400 iterations solves a system with two unknowns to 46 digits, though
its solution has to be rounded. -/
example (sqrt : Num binary64 → Num binary64) (tol : Num binary64) :
    ∃ (y : Fin 2 → ℚ) (d : Conv (Num binary64) (Num binary64)) (s' : FixedPoint (Num binary64)),
      solveSystem (floats binary64 sqrt) .sor ⟨⟨400, 1000, tol⟩, [], fin 1⟩ (dense2 (fin 4) (fin 1) (fin (-1)) (fin 5))
        (vec fun _ : Fin 2 => fin 0) (vec fun _ : Fin 2 => fin 1) 1001 = .ok (vec fun i => fin (y i), d, s') ∧
      400 ≤ d.iteration ∧ d.iteration ≤ 1001 ∧ ∀ i, |y i - ![4 / 21, 5 / 21] i| ≤ 1 / 2 ^ 46 := by
  have hm : Square (dense2 (fin 4) (fin 1) (fin (-1)) (fin 5) : Sparse (Num binary64))
      fun i j => fin ((![![4, 1], ![-1, 5]] : Fin 2 → Fin 2 → ℚ) i j) := by
    refine ⟨Built.ofLists (nz := [0, 2, 4]) (ix := [0, 1, 0, 1]) (vs := [fin 4, fin 1, fin (-1), fin 5]) (c := 2)
      (by simp [sizeMax]) (by simp [sizeMax]) (dense2_lists _ _ _ _), rfl, rfl, ?_⟩
    intro i j
    fin_cases i <;> fin_cases j <;> rfl
  have hρ : relaxRatio (1 / 2 ^ 53) (1 / 2 ^ 1075) 2 (factor ℚ .sor) (1 / 4) < 9 / 10 := by decide +kernel
  have hρ0 : 0 ≤ relaxRatio (1 / 2 ^ 53) (1 / 2 ^ 1075) 2 (factor ℚ .sor) (1 / 4) := by decide +kernel
  have hG : relaxOffset (1 / 2 ^ 53) (1 / 2 ^ 1075) 2 (factor ℚ .sor) (1 / 4) (1 / 4) (5 / 21) /
      (1 - relaxRatio (1 / 2 ^ 53) (1 / 2 ^ 1075) 2 (factor ℚ .sor) (1 / 4)) ≤ 1 / 2 ^ 47 := by decide +kernel
  obtain ⟨y, d, s', e1, e2, e3, e4⟩ := c215_dominant rounds_binary64 c100_range sqrt .sor ⟨⟨400, 1000, tol⟩, [], fin 1⟩ (by norm_num)
    (by norm_num) _ _ hm (q := 1 / 4) (c := 1 / 4)
    (X := 5 / 21) (E := 5 / 21) (by decide +kernel) (by decide +kernel) (by decide +kernel) (fun _ => 1) ![4 / 21, 5 / 21]
    (by unfold Solves; decide +kernel) (by decide +kernel) (fun _ => 0) (by decide +kernel) (hρ.trans (by norm_num)) rfl
    (by decide +kernel) (by simp [sizeMax]) (by simp [sizeMax]) 1001 (by simp)
  refine ⟨y, d, s', e1, e2, e3.trans (by simp), fun i => (e4 i).trans ?_⟩
  have g1 : (9 / 10 : ℚ) ^ 400 * (5 / 21) ≤ 1 / 2 ^ 47 := by decide +kernel
  have g2 := pow_le_pow_left₀ hρ0 hρ.le d.iteration
  have g3 : (9 / 10 : ℚ) ^ d.iteration ≤ (9 / 10) ^ 400 := pow_le_pow_of_le_one (by norm_num) (by norm_num) e2
  have g4 := mul_le_mul_of_nonneg_right (g2.trans g3) (show (0 : ℚ) ≤ 5 / 21 by norm_num)
  have g5 : (1 / 2 ^ 47 : ℚ) + 1 / 2 ^ 47 = 1 / 2 ^ 46 := by norm_num
  rw [← g5]
  exact add_le_add (g4.trans g1) hG

end Disa.Props
