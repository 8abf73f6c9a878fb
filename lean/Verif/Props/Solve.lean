import Verif.Solver.Solve
import Verif.Props.Iterative

/-!
# Properties C46, C48 to C50 and C85 to C91: solves
-/

namespace Disa.Props

open Disa Spec Disa.Dense Iterative

section Generic
variable {S N : Type} [Zero S] [Add S] [Sub S] [Mul S] [Div S] {F : Scalars S N}

/-! ### C46 -/

/-- The working vector with which a solve begins. -/
def startWorking (k : Method) (s : FixedPoint S) (m : Sparse S) : List S := match k with
  | .jacobi => resizeList s.working m.sizeRow 0
  | _ => s.working

omit [Add S] [Sub S] [Mul S] [Div S] in
theorem startWorking_length (k : Method) (s : FixedPoint S) (m : Sparse S) (h : k = .jacobi) :
    (startWorking k s m).length = m.sizeRow := by
  subst h
  exact resizeList_length' _ _ _

theorem solveSystem_eq (k : Method) (s : FixedPoint S) (m : Sparse S) (x b : List S) (fuel : Nat) :
    solveSystem F k s m x b fuel = (do
      let st ← iterate F k s m b fuel ((x, startWorking k s m), Conv.new F)
      pure (st.1.1, st.2, { s with working := st.1.2 })) := by
  unfold solveSystem startWorking
  cases k <;> rfl

theorem solveSystem_ok {k : Method} {s s' : FixedPoint S} {m : Sparse S} {x b x' : List S} {fuel : Nat} {d : Conv S N}
    (h : solveSystem F k s m x b fuel = .ok (x', d, s')) :
    iterate F k s m b fuel ((x, startWorking k s m), Conv.new F) = .ok ((x', s'.working), d) := by
  rw [solveSystem_eq, Out.bind_eq_ok] at h
  obtain ⟨st, h1, h2⟩ := h
  simp only [Out.pure_eq, Out.ok.injEq, Prod.mk.injEq] at h2
  obtain ⟨rfl, rfl, rfl⟩ := h2
  exact h1

/-- The solves of all systems end, whatever the scalars are, if the largest number of iterations is not the largest index:
after at least the smallest number of iterations and at most the largest number plus one, or the smallest number if that is
larger.  The counter is the number of iterations. -/
theorem c46_stops_partial (k : Method) (s : FixedPoint S) (m : Sparse S) (x b : List S)
    (hmin : s.limits.minIterations ≤ sizeMax) (hmax : s.limits.maxIteration < sizeMax) (fuel : Nat)
    (hf : max s.limits.minIterations (s.limits.maxIteration + 1) ≤ fuel) :
    solveSystem F k s m x b fuel ≠ .diverge ∧ ∀ x' d s', solveSystem F k s m x b fuel = .ok (x', d, s') →
      s.limits.minIterations ≤ d.iteration ∧ d.iteration ≤ max s.limits.minIterations (s.limits.maxIteration + 1) ∧
      times (step F k s m b) d.iteration (x, startWorking k s m) = .ok (x', s'.working) := by
  refine ⟨?_, fun x' d s' h => ?_⟩
  · rw [solveSystem_eq]
    exact Out.bind_ne_diverge (iterate_ends k s m b hmin hmax fuel _ (by simpa [Conv.new] using hf)) fun a => by intro h; cases h
  · obtain ⟨j, h1, h2, h3, h4⟩ := iterate_ok (solveSystem_ok h)
    have hj : j ≤ max s.limits.minIterations (s.limits.maxIteration + 1) := by
      by_contra hc
      obtain ⟨t, h5, h6⟩ := times_prefix (i := max s.limits.minIterations (s.limits.maxIteration + 1))
        (j := j - max s.limits.minIterations (s.limits.maxIteration + 1)) (by
          rw [show max s.limits.minIterations (s.limits.maxIteration + 1) +
            (j - max s.limits.minIterations (s.limits.maxIteration + 1)) = j by omega]; exact h2)
      have h7 := (times_iteration h5 (by simp [Conv.new]; omega)).2
      have h8 := not_isConverged (h4 _ (by omega) t h5)
      rw [h7] at h8
      simp [Conv.new] at h8
    have h9 := times_iteration h2 (by simp [Conv.new]; omega)
    simp only [Conv.new, Nat.zero_add] at h9
    have h10 := (isConverged_iff.mp h3).1
    exact ⟨h10, by rw [h9.2]; exact hj, by rw [h9.2]; exact h9.1⟩

/-- The solve stops at the first state that meets the criteria: fewer iterations are reported only if the normalised residuals
are within the tolerances. -/
theorem c46_reason (k : Method) (s s' : FixedPoint S) (m : Sparse S) (x b x' : List S) (fuel : Nat) (d : Conv S N)
    (h : solveSystem F k s m x b fuel = .ok (x', d, s')) : s.limits.maxIteration < d.iteration ∨
      (F.above d.residualNormalised s.limits.tolerance = false ∧
        F.above d.residualMaxNormalised (F.ten * s.limits.tolerance) = false) := by
  obtain ⟨j, h1, h2, h3, h4⟩ := iterate_ok (solveSystem_ok h)
  exact (isConverged_iff.mp h3).2

/-! ### C49 -/

/-- The converged flag is never set. -/
theorem c49_flag (k : Method) (s s' : FixedPoint S) (m : Sparse S) (x b x' : List S) (fuel : Nat) (d : Conv S N)
    (h : solveSystem F k s m x b fuel = .ok (x', d, s')) : d.converged = false := by
  obtain ⟨j, h1, h2, h3, h4⟩ := iterate_ok (solveSystem_ok h)
  rw [times_converged h2]
  rfl

/-- The relaxation factor of the configuration has no effect. -/
theorem c49_ignored (k : Method) (c : SolverConfig S) (r : S) (m : Sparse S) (x b x' : List S) (fuel : Nat) (d : Conv S N) :
    (∃ s', solveSystem F k (initialise c) m x b fuel = .ok (x', d, s')) ↔
      ∃ s', solveSystem F k (initialise { c with sorRelaxation := r }) m x b fuel = .ok (x', d, s') := by
  have h1 : ∀ st, step F k (initialise c) m b st = step F k (initialise { c with sorRelaxation := r }) m b st := fun st => by
    cases k <;> rfl
  have h2 : ∀ st, iterate F k (initialise c) m b fuel st = iterate F k (initialise { c with sorRelaxation := r }) m b fuel st := by
    intro st
    unfold iterate
    simp only [h1]
    rfl
  rw [solveSystem_eq, solveSystem_eq, h2]
  have h3 : startWorking k (initialise c) m = startWorking k (initialise { c with sorRelaxation := r }) m := by
    cases k <;> rfl
  rw [h3]
  cases iterate F k (initialise { c with sorRelaxation := r }) m b fuel
    ((x, startWorking k (initialise { c with sorRelaxation := r }) m), Conv.new F) with
  | ok st =>
    simp only [Out.ok_bind, Out.pure_eq, Out.ok.injEq, Prod.mk.injEq]
    constructor
    · rintro ⟨s', h4, h5, -⟩; exact ⟨_, h4, h5, rfl⟩
    · rintro ⟨s', h4, h5, -⟩; exact ⟨_, h4, h5, rfl⟩
  | exit c => constructor <;> (rintro ⟨s', h⟩; cases h)
  | throw => constructor <;> (rintro ⟨s', h⟩; cases h)
  | ub => constructor <;> (rintro ⟨s', h⟩; cases h)
  | diverge => constructor <;> (rintro ⟨s', h⟩; cases h)

/-! ### C50 -/

/-- The solver for sparse systems that a configuration names. -/
def named : SolverType → Option Method
  | .jacobi => some .jacobi
  | .gaussSeidel => some .gaussSeidel
  | .successiveOverRelaxation => some .sor
  | _ => none

/-- A configuration of an iterative solver gives that solver: it solves sparse systems with the named method and the configured
limits, and exits for dense ones. -/
theorem c50_sparse (c : SolverConfig S) (k : Method) (hk : named c.type = some k) :
    ∃ s, Solver.build c = .ok s ∧
      (∀ (m : Sparse S) (x b : List S) (fuel : Nat), Solver.solveSparse F s m x b fuel = (do
        let (x, d, t) ← solveSystem F k (initialise c) m x b fuel
        pure (x, d, Solver.fixedPoint k t))) := by
  unfold Solver.build
  cases hc : c.type <;> rw [hc] at hk <;> simp only [named, reduceCtorEq, Option.some.injEq] at hk <;> subst hk <;>
    exact ⟨_, rfl, fun _ _ _ _ => rfl⟩

/-- A dense solve with an iterative solver, or with none, exits. -/
theorem c50_sparse_dense {K : Type} [Field K] [LinearOrder K] (c : SolverConfig K) (k : Method) (hk : named c.type = some k)
    (s : Solver K) (hs : Solver.build c = .ok s) (x : List K) (b : Option (List K)) :
    Solver.solveDense s x b = .exit 1 ∧ Solver.solveDense (.none : Solver K) x b = .exit 1 := by
  refine ⟨?_, rfl⟩
  unfold Solver.build at hs
  cases hc : c.type <;> rw [hc] at hk hs <;> simp only [named, reduceCtorEq, Option.some.injEq] at hk <;>
    simp only [Out.ok.injEq] at hs <;> subst hs <;> rfl

/-- A configuration of the direct solver gives that solver, with or without pivoting as configured; a sparse solve with it
throws. -/
theorem c50_dense {K : Type} [Field K] [LinearOrder K] {F : Scalars K N} (c : SolverConfig K)
    (hc : c.type = .lowerUpperFactorisation) :
    ∃ s, Solver.build c = .ok s ∧ (s = .lu ⟨false, c.factorTolerance, [], []⟩ ∧ c.pivot = false ∨
        s = .lup ⟨false, c.factorTolerance, [], []⟩ ∧ c.pivot = true) ∧
      (∀ (x : List K) (b : Option (List K)), Solver.solveDense s x b =
        Lu.solve c.pivot ⟨false, c.factorTolerance, [], []⟩ x b) ∧
      ∀ (m : Sparse K) (x b : List K) (fuel : Nat), Solver.solveSparse F s m x b fuel = .throw := by
  unfold Solver.build Solver.newLu
  rw [hc]
  cases hp : c.pivot
  · exact ⟨_, rfl, .inl ⟨rfl, rfl⟩, fun _ _ => rfl, fun _ _ _ _ => rfl⟩
  · exact ⟨_, rfl, .inr ⟨rfl, rfl⟩, fun _ _ => rfl, fun _ _ _ _ => rfl⟩

/-- An unknown type ends the program, and so does a sparse solve without a solver. -/
theorem c50_unknown (c : SolverConfig S) (hc : c.type = .unknown) (m : Sparse S) (x b : List S) (fuel : Nat) :
    Solver.build c = .exit 0 ∧ Solver.solveSparse F (.none : Solver S) m x b fuel = .exit 1 := by
  unfold Solver.build
  rw [hc]
  exact ⟨rfl, rfl⟩

/-! ### C91 -/

omit [Zero S] [Add S] [Sub S] [Mul S] [Div S] in
/-- The direct solvers reject configurations of other solvers, and the configuration that they report gives the same solver and
has the options of the direct solvers of the configuration they were made from.  Factorising does not change it. -/
theorem c91_config (d c : SolverConfig S) (pivot : Bool) :
    (c.type = .lowerUpperFactorisation ∧ c.pivot = pivot → ∃ s, Solver.newLu pivot c = .ok s ∧
      (Solver.luConfig d pivot s).type = c.type ∧ (Solver.luConfig d pivot s).pivot = c.pivot ∧
      (Solver.luConfig d pivot s).factorTolerance = c.factorTolerance ∧
      Solver.newLu pivot (Solver.luConfig d pivot s) = .ok s) ∧
    (¬ (c.type = .lowerUpperFactorisation ∧ c.pivot = pivot) → Solver.newLu pivot c = .exit 1) := by
  constructor
  · rintro ⟨h1, h2⟩
    refine ⟨⟨false, c.factorTolerance, [], []⟩, ?_, h1.symm, h2.symm, rfl, ?_⟩
    · unfold Solver.newLu
      simp [h1, h2]
    · unfold Solver.newLu Solver.luConfig
      simp
  · intro h
    unfold Solver.newLu
    by_cases h1 : c.type = .lowerUpperFactorisation
    · have h2 : ¬ c.pivot = pivot := fun h2 => h ⟨h1, h2⟩
      have h2' : (c.pivot == pivot) = false := by simpa using h2
      rw [h1, h2']
      rfl
    · have h1' : (c.type == .lowerUpperFactorisation) = false := by simpa using h1
      rw [h1']
      rfl

end Generic

theorem c91_factorise {K : Type} [Field K] [LinearOrder K] [IsStrictOrderedRing K] (d : SolverConfig K) (pivot : Bool)
    (s s' : Lu K) (htol : 0 < s.tol) {n : Nat} (A : Fin n → Fin n → K) (ok : Bool)
    (h : Lu.factorise (Lu.scalars K) pivot s (mat A) = .ok (s', ok)) : Solver.luConfig d pivot s' = Solver.luConfig d pivot s := by
  obtain ⟨s'', ok', h1, -, h2, -⟩ := factorise_returns pivot s htol A
  rw [h] at h1
  simp only [Out.ok.injEq, Prod.mk.injEq] at h1
  obtain ⟨rfl, rfl⟩ := h1
  unfold Solver.luConfig
  rw [h2]

/-- The direct solver that a `Solver` holds. -/
def held {S : Type} : Solver S → Option (Lu S)
  | .lu s => some s
  | .lup s => some s
  | _ => none

/-- C50: a direct solver that is made from a configuration solves the system of the matrix it has factorised, with the method that
was configured.  Before it is given a matrix it solves nothing. -/
theorem c50_factorise {K : Type} [Field K] [LinearOrder K] [IsStrictOrderedRing K] (c : SolverConfig K)
    (hc : c.type = .lowerUpperFactorisation) (htol : 0 < c.factorTolerance) {n : Nat} (A : Fin n → Fin n → K) (s : Solver K)
    (hs : Solver.build c = .ok s) : ∃ l, held s = some l ∧
      (∀ (x0 : List K) (b : List K), Solver.solveDense s x0 (some b) = if b = [] then .ok (x0, false, 0) else .exit 1) ∧
      ∃ l' ok, Lu.factorise (Lu.scalars K) c.pivot l (mat A) = .ok (l', ok) ∧
        ∀ s', held s' = some l' → ((∃ t, s = .lup t) ↔ ∃ t, s' = .lup t) → ∀ (x0 : List K) (b : Fin n → K),
          (ok = false → Solver.solveDense s' x0 (some (vec b)) = .ok (x0, false, 0)) ∧
          (ok = true → ∃ x : Fin n → K, Solver.solveDense s' x0 (some (vec b)) = .ok (vec x, true, 1) ∧
            ∀ i, ∑ j, A i j * x j = b i) := by
  unfold Solver.build Solver.newLu at hs
  rw [hc] at hs
  obtain ⟨l', ok, h1, -⟩ := factorise_returns c.pivot ⟨false, c.factorTolerance, [], []⟩ htol A
  have key : s = (if c.pivot then .lup ⟨false, c.factorTolerance, [], []⟩ else .lu ⟨false, c.factorTolerance, [], []⟩) := by
    cases hp : c.pivot <;> rw [hp] at hs <;> exact (Out.ok.inj hs).symm
  have fresh : ∀ (p : Bool) (x0 b : List K), Lu.solve p ⟨false, c.factorTolerance, [], []⟩ x0 (some b) =
      if b = [] then .ok (x0, false, 0) else .exit 1 := by
    intro p x0 b
    unfold Lu.solve
    cases b with
    | nil => rfl
    | cons a b => rfl
  refine ⟨⟨false, c.factorTolerance, [], []⟩, ?_, ?_, l', ok, h1, ?_⟩
  · rw [key]; cases c.pivot <;> rfl
  · intro x0 b
    rw [key]
    cases c.pivot
    · exact fresh false x0 b
    · exact fresh true x0 b
  · intro s' h2 h3 x0 b
    have h4 : ∀ y, Solver.solveDense s' x0 y = Lu.solve c.pivot l' x0 y := by
      intro y
      rw [key] at h3
      cases hp : c.pivot <;> rw [hp] at h3 <;> cases s' <;> simp [held] at h2 h3 <;> subst h2 <;> rfl
    rw [h4]
    exact ⟨fun h => c44_rejected c.pivot _ l' htol A (by rw [h1, h]) b x0, fun h => c43_solves c.pivot _ l' htol A (by rw [h1, h]) b x0⟩

-- A configuration for which the factorisation needs pivoting, and the two states.
example : (Solver.solveDense (.lup ⟨true, (1 : ℚ) / 100, [[1, 0], [0, 1]], [1, 0]⟩) [] (some [3, 5]) = .ok ([5, 3], true, 1)) ∧
    Lu.factorise (Lu.scalars ℚ) true ⟨false, 1 / 100, [], []⟩ [[0, 1], [1, 0]] =
      .ok (⟨true, (1 : ℚ) / 100, [[1, 0], [0, 1]], [1, 0]⟩, true) := by decide +kernel

end Disa.Props
