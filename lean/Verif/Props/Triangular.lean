import Verif.Props.Residual

/-!
# Property C154: the iterative solvers on triangular systems

A matrix is given levels if the elements off the diagonal lead from each row to rows of a lower level.  Triangular matrices,
also those whose rows and columns have been renumbered, have levels.
-/

namespace Disa.Props

open Disa Spec Dense Iterative

/-- The rows have levels below `depth`, and each row refers only to itself and to rows of lower levels. -/
def Levels {n : Nat} (A : Fin n → Fin n → ℝ) (level : Fin n → Nat) (depth : Nat) : Prop :=
  (∀ i, level i < depth) ∧ ∀ i j, i ≠ j → A i j ≠ 0 → level j < level i

/-- Lower triangular matrices have levels. -/
theorem levels_lower {n : Nat} {A : Fin n → Fin n → ℝ} (h : ∀ i j, i < j → A i j = 0) : Levels A (fun i => i.1) n :=
  ⟨fun i => i.2, fun i j hij ha => by
    rcases lt_trichotomy i j with h1 | h1 | h1
    · exact absurd (h i j h1) ha
    · exact absurd h1 hij
    · exact h1⟩

/-- Upper triangular matrices have levels. -/
theorem levels_upper {n : Nat} {A : Fin n → Fin n → ℝ} (h : ∀ i j, j < i → A i j = 0) : Levels A (fun i => n - 1 - i.1) n :=
  ⟨fun i => by have := i.2; simp only; omega, fun i j hij ha => by
    rcases lt_trichotomy i j with h1 | h1 | h1
    · have := j.2
      have : i.1 < j.1 := h1
      simp only; omega
    · exact absurd h1 hij
    · exact absurd (h i j h1) ha⟩

theorem off_congr {n : Nat} {A : Fin n → Fin n → ℝ} {i : Fin n} {u v : Fin n → ℝ} (h : ∀ j, i ≠ j → A i j ≠ 0 → u j = v j) :
    off A u i = off A v i := by
  unfold off
  refine Finset.sum_congr rfl fun j _ => ?_
  by_cases hj : j = i
  · rw [if_pos hj, if_pos hj]
  · rw [if_neg hj, if_neg hj]
    by_cases ha : A i j = 0
    · rw [ha, zero_mul, zero_mul]
    · rw [h j (fun e => hj e.symm) ha]

/-- Two sweeps from vectors that agree on the lower levels agree on one more level. -/
theorem sweep_agree {n : Nat} {A : Fin n → Fin n → ℝ} {b x x' y y' : Fin n → ℝ} {level : Fin n → Nat} {depth : Nat}
    (hl : Levels A level depth) (inp : Prop) [Decidable inp] (l : Nat)
    (hy : ∀ i, y i = relaxed A b 1 (if inp then x else fun j => if j < i then y j else x j) i)
    (hy' : ∀ i, y' i = relaxed A b 1 (if inp then x' else fun j => if j < i then y' j else x' j) i)
    (hx : ∀ j, level j < l → x j = x' j) : ∀ j, level j < l + 1 → y j = y' j := by
  have main : ∀ p, ∀ i : Fin n, i.1 < p → level i < l + 1 → y i = y' i := by
    intro p
    induction p with
    | zero => intro i hi; omega
    | succ p ih =>
      intro i hi hli
      rw [hy i, hy' i]
      unfold relaxed
      rw [off_congr (v := if inp then x' else fun j => if j < i then y' j else x' j)]
      · simp
      · intro j hij ha
        have := hl.2 i j hij ha
        by_cases hk : inp
        · rw [if_pos hk, if_pos hk]
          exact hx j (by omega)
        · rw [if_neg hk, if_neg hk]
          show (if j < i then y j else x j) = if j < i then y' j else x' j
          by_cases hji : j < i
          · rw [if_pos hji, if_pos hji]
            exact ih j (by have : j.1 < i.1 := hji
                           omega) (by omega)
          · rw [if_neg hji, if_neg hji]
            exact hx j (by omega)
  exact fun j => main (j.1 + 1) j (by omega)

/-- The iterates of a method. -/
theorem iterates {N : Type} {F : Scalars ℝ N} (hF : Exact F) (k : Method) (s : FixedPoint ℝ) {n : Nat} {m : Sparse ℝ}
    {A : Fin n → Fin n → ℝ} (h : Square m A) (hd : ∀ i, A i i ≠ 0) (b x : Fin n → ℝ) (w : List ℝ)
    (hw : k = .jacobi → w.length = n) : ∃ xs : Nat → Fin n → ℝ, xs 0 = x ∧
      (∀ j, ∃ w', times (step F k s m (vec b)) j (vec x, w) = .ok (vec (xs j), w')) ∧
      ∀ j i, xs (j + 1) i = relaxed A b (factor ℝ k)
        (if k = .jacobi then xs j else fun l => if l < i then xs (j + 1) l else xs j l) i := by
  have hall : ∀ j, ∃ (y : Fin n → ℝ) (w' : List ℝ), times (step F k s m (vec b)) j (vec x, w) = .ok (vec y, w') ∧
      (k = .jacobi → w'.length = n) := by
    intro j
    induction j with
    | zero => exact ⟨x, w, rfl, hw⟩
    | succ j ih =>
      obtain ⟨y, w', h1, h2⟩ := ih
      obtain ⟨z, w'', h3, h4, -⟩ := step_ok hF k s h hd b y w' h2
      exact ⟨z, w'', by rw [times_succ_right, h1]; exact h3, h4⟩
  choose xs ws h1 h2 using hall
  refine ⟨xs, ?_, fun j => ⟨_, h1 j⟩, fun j => ?_⟩
  · have := h1 0
    unfold times at this
    rw [Out.ok.injEq, Prod.mk.injEq, vec_inj] at this
    exact this.1.symm
  · obtain ⟨z, w'', h3, h4, h5⟩ := step_ok hF k s h hd b (xs j) (ws j) (h2 j)
    have := h1 (j + 1)
    rw [times_succ_right, h1 j] at this
    change step F k s m (vec b) (vec (xs j), ws j) = _ at this
    rw [h3, Out.ok.injEq, Prod.mk.injEq, vec_inj] at this
    rw [← this.1]
    exact h5

theorem fixed_solves {n : Nat} {A : Fin n → Fin n → ℝ} {b x : Fin n → ℝ} (k : Method) (hd : ∀ i, A i i ≠ 0)
    (h : ∀ i, x i = relaxed A b (factor ℝ k) (if k = .jacobi then x else fun l => if l < i then x l else x l) i) :
    Solves A x b := by
  intro i
  refine (relaxed_fixed A b x (factor_ne k) (hd i)).mp ?_
  have := h i
  have e : (if k = .jacobi then x else fun l => if l < i then x l else x l) = x := by
    split
    · rfl
    · funext l; simp
  rw [e] at this
  exact this.symm

theorem solves_fixed {n : Nat} {A : Fin n → Fin n → ℝ} {b x : Fin n → ℝ} (k : Method) (hd : ∀ i, A i i ≠ 0)
    (h : Solves A x b) (i : Fin n) : x i = relaxed A b (factor ℝ k) (if k = .jacobi then x else fun l => if l < i then x l else x l) i := by
  have e : (if k = .jacobi then x else fun l => if l < i then x l else x l) = x := by
    split
    · rfl
    · funext l; simp
  rw [e]
  exact ((relaxed_fixed A b x (factor_ne k) (hd i)).mpr (h i)).symm

theorem factor_one {k : Method} (hk : k ≠ .sor) : factor ℝ k = 1 := by
  cases k with
  | sor => exact absurd rfl hk
  | _ => rfl

/-- A system with levels has exactly one solution. -/
theorem c154_solution {n : Nat} (A : Fin n → Fin n → ℝ) (hd : ∀ i, A i i ≠ 0) (level : Fin n → Nat) (depth : Nat)
    (hl : Levels A level depth) (b : Fin n → ℝ) : ∃ sol, Solves A sol b ∧ ∀ y, Solves A y b → y = sol := by
  let f : (Fin n → ℝ) → Fin n → ℝ := fun x => relaxed A b 1 x
  let xs : Nat → Fin n → ℝ := fun j => f^[j] 0
  have hs : ∀ j, xs (j + 1) = relaxed A b 1 (xs j) := fun j => Function.iterate_succ_apply' f j 0
  have hag : ∀ j i, level i < j → xs (j + 1) i = xs j i := by
    intro j
    induction j with
    | zero => intro i hi; omega
    | succ j ih =>
      exact sweep_agree hl True j (fun i => by rw [hs (j + 1)]; simp) (fun i => by rw [hs j]; simp)
        (x := xs (j + 1)) (x' := xs j) (b := b) (fun i hi => ih i hi)
  have hfix : xs (depth + 1) = xs depth := funext fun i => hag depth i (hl.1 i)
  have hsol : Solves A (xs depth) b := fixed_solves .jacobi hd fun i => by
    conv_lhs => rw [← hfix, hs]
    simp [factor]
  refine ⟨xs depth, hsol, fun y hy => ?_⟩
  have hag' : ∀ j i, level i < j → xs j i = y i := by
    intro j
    induction j with
    | zero => intro i hi; omega
    | succ j ih =>
      exact sweep_agree hl True j (fun i => by rw [hs j]; simp) (fun i => by simpa [factor] using solves_fixed .jacobi hd hy i)
        (x := xs j) (x' := y) (b := b) (fun i hi => ih i hi)
  exact funext fun i => (hag' depth i (hl.1 i)).symm

/-- After as many iterations as there are levels Jacobi and Gauss Seidel have the solution. -/
theorem level_iterates {n : Nat} {A : Fin n → Fin n → ℝ} {b : Fin n → ℝ} {level : Fin n → Nat} {depth : Nat}
    (hl : Levels A level depth) (hd : ∀ i, A i i ≠ 0) {k : Method} (hk : k ≠ .sor) {xs : Nat → Fin n → ℝ}
    (hxs : ∀ j i, xs (j + 1) i = relaxed A b (factor ℝ k)
        (if k = .jacobi then xs j else fun l => if l < i then xs (j + 1) l else xs j l) i)
    {sol : Fin n → ℝ} (hs : Solves A sol b) {j : Nat} (hj : depth ≤ j) : xs j = sol := by
  have hag' : ∀ j i, level i < j → xs j i = sol i := by
    intro j
    induction j with
    | zero => intro i hi; omega
    | succ j ih =>
      exact sweep_agree hl (k = .jacobi) j (fun i => by rw [hxs j i, factor_one hk])
        (fun i => by conv_lhs => rw [solves_fixed k hd hs i, factor_one hk])
        (x := xs j) (x' := sol) (b := b) (fun i hi => ih i hi)
  exact funext fun i => hag' j i (lt_of_lt_of_le (hl.1 i) hj)

/-- C154: if the least number of iterations is at least the number of levels, Jacobi and Gauss Seidel return the solution,
whatever they start from. -/
theorem c154_levels (k : Method) (hk : k ≠ .sor) (s : FixedPoint ℝ) {n : Nat} {m : Sparse ℝ} {A : Fin n → Fin n → ℝ}
    (h : Square m A) (hd : ∀ i, A i i ≠ 0) (level : Fin n → Nat) (depth : Nat) (hl : Levels A level depth) (hn0 : 0 < n)
    (hn : n < 2 ^ 31) (b x sol : Fin n → ℝ) (hs : Solves A sol b) (htol : s.limits.tolerance < reals.big)
    (hdepth : depth ≤ s.limits.minIterations) (hmin : s.limits.minIterations ≤ sizeMax) (hmax : s.limits.maxIteration < sizeMax)
    (fuel : Nat) (hf : max s.limits.minIterations (s.limits.maxIteration + 1) ≤ fuel) :
    ∃ (d : Conv ℝ Quot) (s' : FixedPoint ℝ), solveSystem reals k s m (vec x) (vec b) fuel = .ok (vec sol, d, s') ∧
      d.residual = 0 ∧ d.residualMax = 0 := by
  obtain ⟨xs, -, h2, h3⟩ := iterates (F := reals) ⟨rfl, rfl⟩ k s h hd b x (startWorking k s m)
    (fun hk => by rw [startWorking_length k s m hk]; exact h.2.1)
  obtain ⟨j, h4, h5, h6, -, h8⟩ := solve_course k s h hd hn0 hn b x htol hmin xs h2
    (max s.limits.minIterations (s.limits.maxIteration + 1)) (by omega) (by omega) ⟨by omega, .inl (by omega)⟩
  obtain ⟨s', h9⟩ := h8 fuel (by omega)
  have h10 := h6.1
  have e : xs j = sol := level_iterates hl hd hk h3 hs (by omega)
  rw [e] at h9
  refine ⟨_, s', h9, ?_, ?_⟩
  · show norm2 A (xs j) b = 0
    rw [e]
    exact (norm2_eq_zero A sol b hn0).mpr hs
  · show normMax A (xs j) b = 0
    rw [e]
    exact (normMax_eq_zero A sol b).mpr hs

/-- C154: with a tolerance that is not negative, Jacobi and Gauss Seidel need no more iterations than there are levels. -/
theorem c154_iterations (k : Method) (hk : k ≠ .sor) (s : FixedPoint ℝ) {n : Nat} {m : Sparse ℝ} {A : Fin n → Fin n → ℝ}
    (h : Square m A) (hd : ∀ i, A i i ≠ 0) (level : Fin n → Nat) (depth : Nat) (hl : Levels A level depth) (hn0 : 0 < n)
    (hn : n < 2 ^ 31) (b x : Fin n → ℝ) (htol0 : 0 ≤ s.limits.tolerance) (htol : s.limits.tolerance < reals.big)
    (hdepth : depth ≤ sizeMax) (hmin : s.limits.minIterations ≤ sizeMax)
    (fuel : Nat) (hf : max s.limits.minIterations depth ≤ fuel) :
    ∃ (x' : List ℝ) (d : Conv ℝ Quot) (s' : FixedPoint ℝ), solveSystem reals k s m (vec x) (vec b) fuel = .ok (x', d, s') ∧
      d.iteration ≤ max s.limits.minIterations depth := by
  obtain ⟨sol, hs, -⟩ := c154_solution A hd level depth hl b
  obtain ⟨xs, -, h2, h3⟩ := iterates (F := reals) ⟨rfl, rfl⟩ k s h hd b x (startWorking k s m)
    (fun hk => by rw [startWorking_length k s m hk]; exact h.2.1)
  have hd0 : 0 < depth := lt_of_le_of_lt (Nat.zero_le _) (hl.1 ⟨0, hn0⟩)
  have e : xs (max s.limits.minIterations depth) = sol := level_iterates hl hd hk h3 hs (by omega)
  obtain ⟨j, h4, h5, h6, -, h8⟩ := solve_course k s h hd hn0 hn b x htol hmin xs h2
    (max s.limits.minIterations depth) (by omega) (by omega) ⟨by omega, .inr (by
      unfold Within
      rw [e, (norm2_eq_zero A sol b hn0).mpr hs, (normMax_eq_zero A sol b).mpr hs]
      exact ⟨mul_nonneg htol0 (norm2_nonneg _ _ _), mul_nonneg (by linarith) (normMax_nonneg _ _ _)⟩)⟩
  obtain ⟨s', h9⟩ := h8 fuel (by omega)
  exact ⟨_, _, s', h9, h5⟩

/-- C154: Gauss Seidel solves a lower triangular system in its first iteration, whatever it starts from. -/
theorem c154_lower (s : FixedPoint ℝ) {n : Nat} {m : Sparse ℝ} {A : Fin n → Fin n → ℝ} (h : Square m A)
    (hd : ∀ i, A i i ≠ 0) (hA : ∀ i j, i < j → A i j = 0) (hn0 : 0 < n) (hn : n < 2 ^ 31) (b x sol : Fin n → ℝ)
    (hs : Solves A sol b) (htol : s.limits.tolerance < reals.big) (hmin : s.limits.minIterations ≤ sizeMax) (fuel : Nat)
    (hf : max 1 s.limits.minIterations ≤ fuel) :
    ∃ (d : Conv ℝ Quot) (s' : FixedPoint ℝ), solveSystem reals .gaussSeidel s m (vec x) (vec b) fuel = .ok (vec sol, d, s') ∧
      d.iteration = max 1 s.limits.minIterations ∧ d.residual = 0 ∧ d.residualMax = 0 := by
  obtain ⟨xs, -, h2, h3⟩ := iterates (F := reals) ⟨rfl, rfl⟩ .gaussSeidel s h hd b x (startWorking .gaussSeidel s m)
    (fun hk => by cases hk)
  have e : ∀ j, xs (j + 1) = sol := by
    intro j
    have main : ∀ p, ∀ i : Fin n, i.1 < p → xs (j + 1) i = sol i := by
      intro p
      induction p with
      | zero => intro i hi; omega
      | succ p ih =>
        intro i hi
        rw [h3 j i, solves_fixed .gaussSeidel hd hs i]
        simp only [factor, relaxed, reduceCtorEq, if_false, sub_self, zero_mul, add_zero]
        rw [off_congr (v := fun l => if l < i then sol l else sol l)]
        intro l hil ha
        have hli : l < i := by
          rcases lt_trichotomy i l with h1 | h1 | h1
          · exact absurd (hA i l h1) ha
          · exact absurd h1 hil
          · exact h1
        simp only [if_pos hli]
        exact ih l (by have : l.1 < i.1 := hli
                       omega)
    exact funext fun i => main (i.1 + 1) i (by omega)
  have hn2 := (norm2_eq_zero A sol b hn0).mpr hs
  have hnm := (normMax_eq_zero A sol b).mpr hs
  have hstop : ∀ j, 0 < j → (Stops A b s.limits xs j ↔ s.limits.minIterations ≤ j) := by
    intro j hj
    obtain ⟨j, rfl⟩ : ∃ i, j = i + 1 := ⟨j - 1, by omega⟩
    unfold Stops Within
    rw [e j, e 0]
    simp [hn2, hnm]
  obtain ⟨j, h4, h5, h6, -, h8⟩ := solve_course .gaussSeidel s h hd hn0 hn b x htol hmin xs h2
    (max 1 s.limits.minIterations) (by omega) (by have : 1 ≤ sizeMax := by norm_num [sizeMax]
                                                  omega) ((hstop _ (by omega)).mpr (by omega))
  rw [hstop j h4] at h6
  obtain ⟨s', h9⟩ := h8 fuel (by omega)
  obtain ⟨i, rfl⟩ : ∃ i, j = i + 1 := ⟨j - 1, by omega⟩
  rw [e i] at h9
  refine ⟨_, s', h9, ?_, ?_, ?_⟩
  · show i + 1 = _
    omega
  · show norm2 A (xs (i + 1)) b = 0
    rw [e i, hn2]
  · show normMax A (xs (i + 1)) b = 0
    rw [e i, hnm]

/-- Errors that are halved up to a vanishing term vanish. -/
theorem halved {a d : Nat → ℝ} (h0 : ∀ j, 0 ≤ a j) (h : ∀ j, a (j + 1) ≤ a j / 2 + d j)
    (hd : ∀ ε, 0 < ε → ∃ J, ∀ j, J ≤ j → d j < ε) : ∀ ε, 0 < ε → ∃ J, ∀ j, J ≤ j → a j < ε := by
  intro ε hε
  obtain ⟨J, hJ⟩ := hd (ε / 4) (by linarith)
  have hall : ∀ t, a (J + t) ≤ a J / 2 ^ t + ε / 2 := by
    intro t
    induction t with
    | zero => simp; linarith
    | succ t ih =>
      have h1 := h (J + t)
      have h2 := hJ (J + t) (by omega)
      have e : a J / 2 ^ (t + 1) = a J / 2 ^ t / 2 := by rw [pow_succ]; field_simp
      rw [show J + (t + 1) = J + t + 1 by omega, e]
      linarith
  obtain ⟨T, hT⟩ := exists_pow_lt_of_lt_one (show 0 < ε / (2 * (a J + 1)) by have := h0 J; positivity)
    (show (1 / 2 : ℝ) < 1 by norm_num)
  refine ⟨J + T, fun j hj => ?_⟩
  have h1 := hall (j - J)
  rw [show J + (j - J) = j by omega] at h1
  have h2 : (1 / 2 : ℝ) ^ (j - J) ≤ (1 / 2) ^ T := pow_le_pow_of_le_one (by norm_num) (by norm_num) (by omega)
  have h3 : a J / 2 ^ (j - J) = a J * (1 / 2) ^ (j - J) := by rw [one_div, inv_pow]; rfl
  have h4 : a J * (1 / 2) ^ (j - J) ≤ a J * (1 / 2) ^ T := mul_le_mul_of_nonneg_left h2 (h0 J)
  have h5 : a J * (1 / 2) ^ T ≤ a J * (ε / (2 * (a J + 1))) := mul_le_mul_of_nonneg_left hT.le (h0 J)
  have h6 : a J * (ε / (2 * (a J + 1))) < ε / 2 := by
    have := h0 J
    rw [mul_div_assoc', div_lt_div_iff₀ (by linarith) (by norm_num)]
    nlinarith
  rw [h3] at h1
  linarith

/-- C154: all three methods tend to the solution of every system with levels, whatever they start from. -/
theorem c154_tends {N : Type} {F : Scalars ℝ N} (hF : Exact F) (k : Method) (s : FixedPoint ℝ) {n : Nat} {m : Sparse ℝ}
    {A : Fin n → Fin n → ℝ} (h : Square m A) (hd : ∀ i, A i i ≠ 0) (level : Fin n → Nat) (depth : Nat)
    (hl : Levels A level depth) (b x sol : Fin n → ℝ) (hs : Solves A sol b) (w : List ℝ) (hw : k = .jacobi → w.length = n) :
    TendTo F k s m b x w sol := by
  obtain ⟨xs, -, h2, h3⟩ := iterates hF k s h hd b x w hw
  have main : ∀ l, ∀ i, level i < l → ∀ ε, 0 < ε → ∃ J, ∀ j, J ≤ j → |xs j i - sol i| < ε := by
    intro l
    induction l with
    | zero => intro i hi; omega
    | succ l ih =>
      intro i hi
      let mix : Nat → Fin n → ℝ := fun j => if k = .jacobi then xs j else fun l => if l < i then xs (j + 1) l else xs j l
      refine halved (a := fun j => |xs j i - sol i|)
        (d := fun j => |factor ℝ k / A i i| * |off A (fun p => mix j p - sol p) i|) (fun j => abs_nonneg _) (fun j => ?_) ?_
      · have hm : mix j i = xs j i := by
          simp only [mix]
          split
          · rfl
          · simp
        have hsol := (relaxed_fixed A b sol (factor_ne (K := ℝ) k) (hd i)).mpr (hs i)
        have hx := h3 j i
        change xs (j + 1) i = relaxed A b (factor ℝ k) (mix j) i at hx
        have hoff : off A (fun p => mix j p - sol p) i = off A (mix j) i - off A sol i := by
          unfold off
          rw [← Finset.sum_sub_distrib]
          refine Finset.sum_congr rfl fun p _ => ?_
          split
          · simp
          · ring
        have e : xs (j + 1) i - sol i = (1 - factor ℝ k) * (xs j i - sol i) -
            factor ℝ k / A i i * off A (fun p => mix j p - sol p) i := by
          rw [hx]
          conv_lhs => rw [← hsol]
          unfold relaxed
          rw [hm, hoff]
          ring
        have hf : |1 - factor ℝ k| ≤ 1 / 2 := by
          cases k <;> simp only [factor] <;> norm_num [abs_of_neg]
        show |xs (j + 1) i - sol i| ≤ |xs j i - sol i| / 2 + _
        rw [e]
        refine (abs_sub _ _).trans ?_
        rw [abs_mul, abs_mul]
        have := mul_le_mul_of_nonneg_right hf (abs_nonneg (xs j i - sol i))
        linarith
      · intro ε hε
        have hmix : ∀ p, p ≠ i → A i p ≠ 0 → ∀ ε, 0 < ε → ∃ J, ∀ j, J ≤ j → |mix j p - sol p| < ε := by
          intro p hp ha ε hε
          have hlp := hl.2 i p (Ne.symm hp) ha
          obtain ⟨J, hJ⟩ := ih p (by omega) ε hε
          refine ⟨J, fun j hj => ?_⟩
          simp only [mix]
          split
          · exact hJ j hj
          · show |(if p < i then xs (j + 1) p else xs j p) - sol p| < ε
            split
            · exact hJ (j + 1) (by omega)
            · exact hJ j hj
        have hterm : ∀ p, ∀ ε, 0 < ε → ∃ J, ∀ j, J ≤ j → |if p = i then 0 else A i p * (mix j p - sol p)| < ε := by
          intro p ε hε
          by_cases hp : p = i
          · exact ⟨0, fun j _ => by simpa [hp] using hε⟩
          · by_cases ha : A i p = 0
            · exact ⟨0, fun j _ => by simpa [ha] using hε⟩
            · obtain ⟨J, hJ⟩ := hmix p hp ha (ε / |A i p|) (div_pos hε (abs_pos.mpr ha))
              refine ⟨J, fun j hj => ?_⟩
              rw [if_neg hp, abs_mul]
              have := hJ j hj
              rw [lt_div_iff₀ (abs_pos.mpr ha)] at this
              linarith
        have hsum : ∀ (t : Finset (Fin n)) (ε : ℝ), 0 < ε → ∃ J, ∀ j, J ≤ j →
            |∑ p ∈ t, if p = i then 0 else A i p * (mix j p - sol p)| < ε := by
          intro t
          induction t using Finset.induction_on with
          | empty => intro ε hε; exact ⟨0, fun j _ => by simpa using hε⟩
          | insert p t hp iht =>
            intro ε hε
            obtain ⟨J1, hJ1⟩ := hterm p (ε / 2) (by linarith)
            obtain ⟨J2, hJ2⟩ := iht (ε / 2) (by linarith)
            refine ⟨max J1 J2, fun j hj => ?_⟩
            rw [Finset.sum_insert hp]
            have := hJ1 j (by omega)
            have := hJ2 j (by omega)
            refine lt_of_le_of_lt (abs_add_le _ _) (by linarith)
        obtain ⟨J, hJ⟩ := hsum Finset.univ (ε / (|factor ℝ k / A i i| + 1)) (by positivity)
        refine ⟨J, fun j hj => ?_⟩
        have h5 := hJ j hj
        change |off A (fun p => mix j p - sol p) i| < _ at h5
        rw [lt_div_iff₀ (by positivity)] at h5
        have := abs_nonneg (off A (fun p => mix j p - sol p) i)
        show |factor ℝ k / A i i| * |off A (fun p => mix j p - sol p) i| < ε
        nlinarith
  refine ⟨xs, h2, fun ε hε => ?_⟩
  choose J hJ using fun i => main depth i (hl.1 i) ε hε
  refine ⟨∑ i, J i, fun j hj i => hJ i j ((Finset.single_le_sum (f := J) (fun _ _ => Nat.zero_le _) (Finset.mem_univ i)).trans hj)⟩

/-- One backward sweep solves an upper triangular system, whatever it starts from. -/
theorem c154_backward {N : Type} {F : Scalars ℝ N} (hF : Exact F) {n : Nat} {m : Sparse ℝ} {A : Fin n → Fin n → ℝ}
    (h : Square m A) (hd : ∀ i, A i i ≠ 0) (hA : ∀ i j, j < i → A i j = 0) (b x sol : Fin n → ℝ) (hs : Solves A sol b) :
    backwardSweep F m (vec b) 1 none (vec x) = .ok (vec sol) := by
  unfold backwardSweep
  rw [h.2.1]
  obtain ⟨t, h1, y, rfl, h2⟩ := loop_inv (n := n) (s := vec x)
    (body := fun k => sweepRow F m (vec b) 1 none (n - 1 - k))
    (fun k t => ∃ y : Fin n → ℝ, t = vec y ∧ ∀ i : Fin n, n - k ≤ i.1 → y i = sol i) ⟨x, rfl, fun i hi => by have := i.2; omega⟩ (by
      rintro k t hk ⟨y, rfl, hy⟩
      have hi : n - 1 - k < n := by omega
      refine ⟨_, sweepRow_ok h hF.1 b 1 ⟨n - 1 - k, hi⟩ (hd _) none y y rfl, _, rfl, fun i hki => ?_⟩
      by_cases e : i = ⟨n - 1 - k, hi⟩
      · subst e
        rw [if_pos rfl]
        have hfix := (relaxed_fixed A b sol (one_ne_zero (α := ℝ)) (hd ⟨n - 1 - k, hi⟩)).mpr (hs _)
        rw [← hfix]
        unfold relaxed
        rw [off_congr (v := sol)]
        · simp
        · intro j hij ha
          have hlt : (⟨n - 1 - k, hi⟩ : Fin n) < j := by
            rcases lt_trichotomy (⟨n - 1 - k, hi⟩ : Fin n) j with h1 | h1 | h1
            · exact h1
            · exact absurd h1 hij
            · exact absurd (hA _ _ h1) ha
          have : n - 1 - k < j.1 := hlt
          exact hy j (by omega)
      · rw [if_neg e]
        have : i.1 ≠ n - 1 - k := fun h => e (Fin.ext h)
        exact hy i (by omega))
  rw [h1, show y = sol from funext fun i => h2 i (by omega)]

-- The hypotheses of the theorems hold for a lower triangular system with two unknowns.
example : Square (dense2 (2 : ℝ) 0 3 4) ![![2, 0], ![3, 4]] ∧ (∀ i, (![![2, 0], ![3, 4]] : Fin 2 → Fin 2 → ℝ) i i ≠ 0) ∧
    (∀ i j : Fin 2, i < j → (![![2, 0], ![3, 4]] : Fin 2 → Fin 2 → ℝ) i j = 0) ∧
    Levels ![![2, 0], ![3, 4]] (fun i => i.1) 2 ∧ Solves (![![2, 0], ![3, 4]] : Fin 2 → Fin 2 → ℝ) ![1, 2] ![2, 11] := by
  have h : ∀ i j : Fin 2, i < j → (![![2, 0], ![3, 4]] : Fin 2 → Fin 2 → ℝ) i j = 0 := by
    intro i j hij
    fin_cases i <;> fin_cases j <;> simp at hij ⊢
  refine ⟨dense2_square _ _ _ _, ?_, h, levels_lower h, ?_⟩
  · intro i; fin_cases i <;> simp
  · intro i; fin_cases i <;> simp [Fin.sum_univ_two] <;> norm_num

-- And for a matrix that is triangular after a renumbering: each unknown refers to the next one, the last to none.
example : Levels ![![1, 0, 5], ![0, 1, 0], ![0, 7, 1]] ![2, 0, 1] 3 := by
  constructor
  · intro i; fin_cases i <;> simp
  · intro i j hij ha
    fin_cases i <;> fin_cases j <;> simp at hij ha ⊢

end Disa.Props
