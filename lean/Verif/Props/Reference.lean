import Verif.Solver.Reference
import Verif.Props.Residual

/-!
# Property C140: the convergence data of the solver classes
-/

namespace Disa.Props

open Disa Spec Disa.Dense Iterative

/-- The reference that the `solve` functions of the solver classes return refers to the convergence data of the solve. -/
def C140 : Prop :=
  (∀ (pivot : Bool) (s : Lu ℝ) (x : List ℝ) (b : Option (List ℝ)) (st : Store (Bool × Nat)) (x' : List ℝ) (d : Bool × Nat),
    Lu.solve pivot s x b = .ok (x', d) →
    ∃ r st', Direct.solve pivot s x b st = .ok (x', r, st') ∧ st'.read r = .ok d) ∧
  ∀ (k : Method) (s : FixedPoint ℝ) (m : Sparse ℝ) (x b : List ℝ) (fuel : Nat) (st : Store (Conv ℝ Quot)) (x' : List ℝ)
    (d : Conv ℝ Quot) (s' : FixedPoint ℝ), solveSystem reals k s m x b fuel = .ok (x', d, s') →
    ∃ r st', Iterative.solve reals k s m x b fuel st = .ok (x', s', r, st') ∧ st'.read r = .ok d

theorem read_returned {α : Type} (st : Store α) (a : α) (later : Store α) :
    Store.read ((st.returnReference a).1 ++ later) (st.returnReference a).2 = .ub := by
  have : ((st.returnReference a).1 ++ later)[(st.returnReference a).2]? = some none := by
    simp [Store.returnReference, Store.make, Store.destroy]
  unfold Store.read
  rw [this]

/-- The objects that were there before are not affected. -/
theorem read_others {α : Type} (st : Store α) (a : α) (r : Nat) (hr : r < st.length) :
    Store.read (st.returnReference a).1 r = st.read r := by
  have : (st.returnReference a).1[r]? = st[r]? := by
    simp only [Store.returnReference, Store.make, Store.destroy]
    rw [List.getElem?_set_ne (by omega), List.getElem?_append_left hr]
  unfold Store.read
  rw [this]

variable {S N : Type} [Zero S] [Sub S] [Mul S] [Div S]

/-- The solution of `solve` of the direct solvers is that of `solve_system`, and nothing else that exists is changed; reading the
reference that it returns is undefined, at once and after any number of further objects are made. -/
theorem c140_direct (pivot : Bool) (s : Lu S) (x : List S) (b : Option (List S)) (st : Store (Bool × Nat)) :
    (∀ x' d, Lu.solve pivot s x b = .ok (x', d) → ∃ r st', Direct.solve pivot s x b st = .ok (x', r, st') ∧
      (∀ r', r' < st.length → st'.read r' = st.read r') ∧ ∀ later, Store.read (st' ++ later) r = .ub) ∧
    ∀ x' r st', Direct.solve pivot s x b st = .ok (x', r, st') → ∃ d, Lu.solve pivot s x b = .ok (x', d) := by
  unfold Direct.solve
  refine ⟨fun x' d h => ?_, fun x' r st' h => ?_⟩
  · rw [h]
    exact ⟨_, _, rfl, read_others st d, read_returned st d⟩
  · simp only [Out.bind_eq_ok] at h
    obtain ⟨⟨y, d⟩, h1, h2⟩ := h
    simp only [Out.pure_eq, Out.ok.injEq, Prod.mk.injEq] at h2
    rw [← h2.1]
    exact ⟨d, h1⟩

/-- The same for `solve` of the fixed point solvers. -/
theorem c140_iterative [Add S] (F : Scalars S N) (k : Method) (s : FixedPoint S) (m : Sparse S) (x b : List S) (fuel : Nat)
    (st : Store (Conv S N)) :
    (∀ x' d s', solveSystem F k s m x b fuel = .ok (x', d, s') → ∃ r st', Iterative.solve F k s m x b fuel st =
      .ok (x', s', r, st') ∧ (∀ r', r' < st.length → st'.read r' = st.read r') ∧ ∀ later, Store.read (st' ++ later) r = .ub) ∧
    ∀ x' s' r st', Iterative.solve F k s m x b fuel st = .ok (x', s', r, st') →
      ∃ d, solveSystem F k s m x b fuel = .ok (x', d, s') := by
  unfold Iterative.solve
  refine ⟨fun x' d s' h => ?_, fun x' s' r st' h => ?_⟩
  · rw [h]
    exact ⟨_, _, rfl, read_others st d, read_returned st d⟩
  · simp only [Out.bind_eq_ok] at h
    obtain ⟨⟨y, d, t⟩, h1, h2⟩ := h
    simp only [Out.pure_eq, Out.ok.injEq, Prod.mk.injEq] at h2
    rw [← h2.1, ← h2.2.1]
    exact ⟨d, h1⟩

/-- A new direct solver has nothing to solve, and returns at once. -/
theorem c140_violated : ¬ C140 := by
  intro h
  obtain ⟨r, st', h1, h2⟩ := h.1 true ⟨false, 0, [], []⟩ [] none [] [] (false, 0) rfl
  obtain ⟨r', st'', h3, -, h4⟩ := (c140_direct true (⟨false, 0, [], []⟩ : Lu ℝ) [] none []).1 [] (false, 0) rfl
  rw [h1] at h3
  simp only [Out.ok.injEq, Prod.mk.injEq, true_and] at h3
  have := h4 []
  rw [List.append_nil, ← h3.1, ← h3.2, h2] at this
  cases this

/-- The class of all solvers returns the data by value: they are those of the solver that it holds. -/
theorem c140_partial [Add S] (F : Scalars S N) :
    (∀ (s : Lu S) (x : List S) (b : Option (List S)), Solver.solveDense (.lu s) x b = Lu.solve false s x b ∧
      Solver.solveDense (.lup s) x b = Lu.solve true s x b) ∧
    ∀ (k : Method) (s : FixedPoint S) (m : Sparse S) (x b : List S) (fuel : Nat) x' d s',
      solveSystem F k s m x b fuel = .ok (x', d, s') →
      Solver.solveSparse F (.fixedPoint k s) m x b fuel = .ok (x', d, .fixedPoint k s') := by
  refine ⟨fun s x b => ⟨rfl, rfl⟩, fun k s m x b fuel x' d s' h => ?_⟩
  simp only [Solver.solveSparse, h]
  rfl

-- A solve that returns: two Gauss Seidel iterations for one equation.
example : ∃ r, solveSystem reals .gaussSeidel ⟨⟨2, 1, 0⟩, [], 0⟩ (single 4) (vec fun _ : Fin 1 => 8) (vec fun _ : Fin 1 => 8) 2 =
    .ok r := by
  obtain ⟨xs, h0, h1, j, -, h2, h3, -, h4⟩ := solve_returns .gaussSeidel ⟨⟨2, 1, 0⟩, [], 0⟩ (single_square 4) (by simp)
    (by norm_num) (by norm_num) (fun _ => 8) (fun _ => 8) (lt_of_lt_of_le (by simp) one_le_big) (by simp [sizeMax])
    (by simp [sizeMax])
  obtain ⟨s', h5⟩ := h4 2 (by simpa using h2)
  exact ⟨_, h5⟩

end Disa.Props
