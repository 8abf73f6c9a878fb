import Verif.Props.LuMore
import Verif.Scalar.Float

/-!
# Properties C122 to C124: tolerances, orders of equations and right hand sides of direct solvers
-/

namespace Disa.Props

open Disa Spec Dense Lu

/-! ### C122 -/

section

variable {S : Type} [Zero S] [Sub S] [Mul S] [Div S]

theorem body_tol (F : Arith S) (pivot : Bool) {t t' : S} (h : ∀ a, F.lt a t' = true → F.lt a t = true) (i : Nat)
    (st : List (List S) × List Nat × Bool) (lu : List (List S)) (piv : List Nat)
    (hb : factoriseBody F pivot t i st = .ok (lu, piv, true)) :
    st.2.2 = true ∧ factoriseBody F pivot t' i st = .ok (lu, piv, true) := by
  obtain ⟨l, p, k⟩ := st
  cases k with
  | false =>
    unfold factoriseBody at hb
    simp at hb
  | true =>
    refine ⟨rfl, ?_⟩
    unfold factoriseBody at hb ⊢
    simp only [if_true] at hb ⊢
    rw [Out.bind_eq_ok] at hb
    obtain ⟨⟨l1, p1⟩, e1, hb⟩ := hb
    rw [e1, Out.ok_bind]
    simp only at hb ⊢
    rw [Out.bind_eq_ok] at hb
    obtain ⟨d, e2, hb⟩ := hb
    rw [e2, Out.ok_bind]
    cases hlt : F.lt (F.abs d) t with
    | true =>
      rw [hlt] at hb
      simp at hb
    | false =>
      have hlt' : F.lt (F.abs d) t' = false := by
        cases h' : F.lt (F.abs d) t' with
        | false => rfl
        | true => rw [h _ h'] at hlt; cases hlt
      rw [hlt] at hb
      rw [hlt']
      exact hb

theorem loop_tol (F : Arith S) (pivot : Bool) {t t' : S} (h : ∀ a, F.lt a t' = true → F.lt a t = true) (n : Nat)
    (st : List (List S) × List Nat × Bool) : ∀ lu piv, loop n (factoriseBody F pivot t) st = .ok (lu, piv, true) →
      loop n (factoriseBody F pivot t') st = .ok (lu, piv, true) := by
  induction n with
  | zero => exact fun _ _ h => h
  | succ n ih =>
    intro lu piv hl
    unfold loop at hl ⊢
    rw [Out.bind_eq_ok] at hl
    obtain ⟨⟨l, p, k⟩, e1, e2⟩ := hl
    obtain ⟨rfl, e3⟩ := body_tol F pivot h _ _ _ _ e2
    rw [ih _ _ e1, Out.ok_bind]
    exact e3

/-- C122, with any arithmetic: if everything below one tolerance is below another one, then a matrix that is accepted with the second
is accepted with the first, and the solves are the same. -/
theorem c122_tolerance (F : Arith S) (pivot : Bool) (s : Lu S) {t t' : S} (h : ∀ a, F.lt a t' = true → F.lt a t = true)
    (a : List (List S)) (x : List S) (b : Option (List S)) (r : Out (List S × Bool × Nat))
    (hs : seen F pivot { s with tol := t } a x b = .ok (true, r)) : seen F pivot { s with tol := t' } a x b = .ok (true, r) := by
  unfold seen factorise at hs ⊢
  simp only [Out.bind_eq_ok, Out.pure_eq, Out.ok.injEq, Prod.mk.injEq] at hs
  obtain ⟨⟨s1, ok⟩, ⟨⟨lu, piv, ok1⟩, e1, rfl, rfl⟩, e2, e3⟩ := hs
  simp only at e2 e3
  subst e2
  rw [loop_tol F pivot h _ _ _ _ e1, Out.ok_bind]
  simp only [Out.pure_eq, Out.ok_bind, Out.ok.injEq, Prod.mk.injEq, true_and]
  rw [← e3]
  rfl

end

/-- C122 for exact numbers. -/
theorem c122_exact {K : Type} [Field K] [LinearOrder K] (pivot : Bool) (s : Lu K) {t t' : K} (h : t' ≤ t)
    (a : List (List K)) (x : List K) (b : Option (List K)) (r : Out (List K × Bool × Nat))
    (hs : seen (scalars K) pivot { s with tol := t } a x b = .ok (true, r)) :
    seen (scalars K) pivot { s with tol := t' } a x b = .ok (true, r) := by
  refine c122_tolerance (scalars K) pivot s (fun y hy => ?_) a x b r hs
  have hy' : y < t' := by simpa [scalars, Arith.exact] using hy
  simpa [scalars, Arith.exact] using lt_of_lt_of_le hy' h

/-- C122 for doubles, with any rounding: the matrix may have elements that are not finite. -/
theorem c122_doubles (rnd : ℚ → Fl) (pivot : Bool) (s : Lu (Num rnd)) {t t' : ℚ} (h : t' ≤ t)
    (a : List (List (Num rnd))) (x : List (Num rnd)) (b : Option (List (Num rnd))) (r : Out (List (Num rnd) × Bool × Nat))
    (hs : seen (Num.arith rnd) pivot { s with tol := Num.fin t } a x b = .ok (true, r)) :
    seen (Num.arith rnd) pivot { s with tol := Num.fin t' } a x b = .ok (true, r) := by
  refine c122_tolerance (Num.arith rnd) pivot s (fun y hy => ?_) a x b r hs
  have hy' : Fl.lt y (.fin t') = true := hy
  show Fl.lt y (.fin t) = true
  cases y with
  | nan => cases hy'
  | inf n => exact hy'
  | fin q =>
    have hq : q < t' := by simpa [Fl.lt] using hy'
    simpa [Fl.lt] using lt_of_lt_of_le hq h

/-- A matrix that is accepted with the tolerance 1 is accepted with 1/2. -/
example : seen (scalars ℚ) true ⟨false, 1, [], []⟩ [[1, 3], [2, 4]] [] (some [1, 2]) = .ok (true, .ok ([1, 0], true, 1)) ∧
    (1 / 2 : ℚ) ≤ 1 := by decide +kernel

/-! ### C123 -/

section

variable {K : Type} [Field K] [LinearOrder K] [IsStrictOrderedRing K]

/-- C123: with pivoting the order of the equations does not matter: if one order is accepted then the other one is, and the solution is
the same. -/
def C123 : Prop := ∀ (s s1 : Lu ℚ), 0 < s.tol → ∀ (n : Nat) (A : Fin n → Fin n → ℚ) (σ : Equiv.Perm (Fin n)),
  factorise (scalars ℚ) true s (mat A) = .ok (s1, true) →
  ∃ s2, factorise (scalars ℚ) true s (mat fun r => A (σ r)) = .ok (s2, true) ∧ ∀ (b x : Fin n → ℚ) (x0 : List ℚ),
    Lu.solve true s1 x0 (some (vec b)) = .ok (vec x, true, 1) → Lu.solve true s2 x0 (some (vec fun r => b (σ r))) = .ok (vec x, true, 1)

/-- C123 fails: of two elements that are nearly equal the first one is the pivot, and the second pivot depends on it. -/
theorem c123_violated : ¬ C123 := by
  intro h
  obtain ⟨s2, h1, -⟩ := h ⟨false, 1, [], []⟩ ⟨true, 1, [[1, 0], [1 + 1 / 2 ^ 37, 1]], [0, 1]⟩ (by norm_num) 2
    ![![1, 0], ![1 + 1 / 2 ^ 37, 1]] (Equiv.swap 0 1) (by decide +kernel)
  have h2 : factorise (scalars ℚ) true ⟨false, 1, [], []⟩ [[1 + 1 / 2 ^ 37, 1], [1, 0]] =
      .ok (⟨false, 1, [[1 + 1 / 2 ^ 37, 1], [1 / (1 + 1 / 2 ^ 37), -(1 / (1 + 1 / 2 ^ 37))]], [0, 1]⟩, false) := by decide +kernel
  have h3 : (mat fun r => (![![1, 0], ![1 + 1 / 2 ^ 37, 1]] : Fin 2 → Fin 2 → ℚ) (Equiv.swap 0 1 r)) =
      [[1 + 1 / 2 ^ 37, 1], [1, 0]] := by decide +kernel
  rw [h3, h2] at h1
  simp at h1

/-- C123: what does hold.  If both orders are accepted then the solutions are the same. -/
theorem c123_partial (pivot pivot' : Bool) (s t s1 s2 : Lu K) (hs : 0 < s.tol) (ht : 0 < t.tol) {n : Nat} (A : Fin n → Fin n → K)
    (σ : Equiv.Perm (Fin n)) (h1 : factorise (scalars K) pivot s (mat A) = .ok (s1, true))
    (h2 : factorise (scalars K) pivot' t (mat fun r => A (σ r)) = .ok (s2, true)) (b : Fin n → K) (x0 x1 : List K) :
    ∃ x : Fin n → K, Lu.solve pivot s1 x0 (some (vec b)) = .ok (vec x, true, 1) ∧
      Lu.solve pivot' s2 x1 (some (vec fun r => b (σ r))) = .ok (vec x, true, 1) := by
  obtain ⟨x, e1, e2⟩ := c43_solves pivot s s1 hs A h1 b x0
  obtain ⟨y, e3, e4⟩ := c43_solves pivot' t s2 ht _ h2 (fun r => b (σ r)) x1
  refine ⟨x, e1, ?_⟩
  have hdet := c44_nonsingular pivot s s1 hs A h1
  have hinj : Function.Injective (Matrix.of A).mulVec :=
    Matrix.mulVec_injective_iff_isUnit.mpr ((Matrix.isUnit_iff_isUnit_det _).mpr (Ne.isUnit hdet))
  have : x = y := hinj (by
    funext i
    show ∑ j, A i j * x j = ∑ j, A i j * y j
    have := e4 (σ.symm i)
    simp only [Equiv.apply_symm_apply] at this
    rw [e2, this])
  rw [e3, this]

example : ∃ s1 s2, factorise (scalars ℚ) true ⟨false, 1, [], []⟩ (mat (![![1, 3], ![2, 4]] : Fin 2 → Fin 2 → ℚ)) = .ok (s1, true) ∧
    factorise (scalars ℚ) true ⟨false, 1, [], []⟩ (mat fun r => (![![1, 3], ![2, 4]] : Fin 2 → Fin 2 → ℚ) (Equiv.swap 0 1 r)) = .ok (s2, true) :=
  ⟨⟨true, 1, [[2, 4], [1 / 2, 1]], [1, 0]⟩, ⟨true, 1, [[2, 4], [1 / 2, 1]], [0, 1]⟩, by decide +kernel, by decide +kernel⟩

/-! ### C124 -/

/-- C124: the solution depends linearly on the right hand side. -/
theorem c124_linear (pivot : Bool) (s s' : Lu K) (hs : 0 < s.tol) {n : Nat} (A : Fin n → Fin n → K)
    (hf : factorise (scalars K) pivot s (mat A) = .ok (s', true)) (b d : Fin n → K) (α β : K) (x0 x1 x2 : List K) :
    ∃ x y : Fin n → K, Lu.solve pivot s' x0 (some (vec b)) = .ok (vec x, true, 1) ∧
      Lu.solve pivot s' x1 (some (vec d)) = .ok (vec y, true, 1) ∧
      Lu.solve pivot s' x2 (some (vec fun i => α * b i + β * d i)) = .ok (vec fun i => α * x i + β * y i, true, 1) := by
  obtain ⟨x, e1, e2⟩ := c43_solves pivot s s' hs A hf b x0
  obtain ⟨y, e3, e4⟩ := c43_solves pivot s s' hs A hf d x1
  obtain ⟨z, e5, e6⟩ := c43_solves pivot s s' hs A hf (fun i => α * b i + β * d i) x2
  refine ⟨x, y, e1, e3, ?_⟩
  have hdet := c44_nonsingular pivot s s' hs A hf
  have hinj : Function.Injective (Matrix.of A).mulVec :=
    Matrix.mulVec_injective_iff_isUnit.mpr ((Matrix.isUnit_iff_isUnit_det _).mpr (Ne.isUnit hdet))
  have : z = fun i => α * x i + β * y i := hinj (by
    funext i
    show ∑ j, A i j * z j = ∑ j, A i j * (α * x j + β * y j)
    rw [e6, ← e2, ← e4, Finset.mul_sum, Finset.mul_sum, ← Finset.sum_add_distrib]
    exact Finset.sum_congr rfl fun j _ => by ring)
  rw [e5, this]

example : ∃ s1, factorise (scalars ℚ) false ⟨false, 1, [], []⟩ (mat (![![1, 3], ![2, 4]] : Fin 2 → Fin 2 → ℚ)) = .ok (s1, true) :=
  ⟨⟨true, 1, [[1, 3], [2, -2]], []⟩, by decide +kernel⟩

end

end Disa.Props
