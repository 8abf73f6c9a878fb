import Verif.Solver.LuProof
import Mathlib.LinearAlgebra.Matrix.NonsingularInverse
import Mathlib.LinearAlgebra.Matrix.ToLin

/-!
# Properties C43, C44 and C81 to C83: the direct solver
-/

namespace Disa.Props

open Disa Spec Dense Lu

variable {K : Type} [Field K] [LinearOrder K] [IsStrictOrderedRing K]

theorem resizeList_length' {α : Type} (l : List α) (n : Nat) (x : α) : (resizeList l n x).length = n := by
  unfold resizeList; simp; omega

/-- The factorisation of a square matrix returns, whatever the solver did before. -/
theorem factorise_returns (pivot : Bool) (s : Lu K) (htol : 0 < s.tol) {n : Nat} (A : Fin n → Fin n → K) :
    ∃ s' ok, factorise (scalars K) pivot s (mat A) = .ok (s', ok) ∧ s'.factorised = ok ∧ s'.tol = s.tol ∧ s'.lu.length = n := by
  obtain ⟨p, M, st, ok, h1, -, -⟩ := factorise_ok pivot s htol A
  exact ⟨_, ok, h1, rfl, rfl, by simp⟩

/-! ### C43 -/

/-- After a successful factorisation the solve returns a converged state and the solution of the system: for all sizes, all
matrices, constant vectors and initial vectors of whatever size, with and without pivoting. -/
theorem c43_solves (pivot : Bool) (s s' : Lu K) (htol : 0 < s.tol) {n : Nat} (A : Fin n → Fin n → K)
    (hf : factorise (scalars K) pivot s (mat A) = .ok (s', true)) (b : Fin n → K) (x0 : List K) :
    ∃ x : Fin n → K, Lu.solve pivot s' x0 (some (vec b)) = .ok (vec x, true, 1) ∧ ∀ i, ∑ j, A i j * x j = b i := by
  obtain ⟨p, M, st, ok, h1, h2, -⟩ := factorise_ok pivot s htol A
  rw [hf] at h1
  simp only [Out.ok.injEq, Prod.mk.injEq] at h1
  obtain ⟨rfl, rfl⟩ := h1
  have hs := h2 rfl
  obtain ⟨x1, hx1⟩ : ∃ x1 : Fin n → K, resizeList x0 n 0 = vec x1 := by
    refine ⟨fun i => (resizeList x0 n 0)[i.1]'(by rw [resizeList_length']; exact i.2), ?_⟩
    apply List.ext_getElem
    · simp [resizeList_length']
    · intro k h1 h2; simp [vec]
  obtain ⟨y, e1, hy⟩ := forward_ok pivot { s with factorised := true, lu := mat M, piv := st } M rfl p hs.pivots
    (fun h => (hs.none h).2) b x1 (some (vec b)) (Or.inl rfl)
  obtain ⟨x, e2, hx⟩ := backward_ok { s with factorised := true, lu := mat M, piv := st } M rfl y
  refine ⟨x, ?_, sweeps_solve hs.factors (fun k h0 => ?_) hy hx⟩
  · unfold Lu.solve
    simp only [Option.getD_some, vec_length, mat_length, beq_self_eq_true, assert_true, Out.ok_bind, Bool.not_true,
      Bool.false_eq_true, if_false, hx1, e1, e2]
    rfl
  · have := hs.diag k k.2
    rw [h0, abs_zero] at this
    exact absurd this (not_le.mpr htol)

/-- A solver with the default tolerance. -/
def fresh : Lu ℚ := ⟨false, defaultRelative ℚ, [], []⟩

/-- The solver after a factorisation. -/
def after (o : Out (Lu ℚ × Bool)) : Lu ℚ := match o with
  | .ok (s, _) => s
  | _ => fresh

/-- A matrix that needs pivoting. -/
def needsPivot : Fin 3 → Fin 3 → ℚ := ![![0, 2, 1], ![1, 0, 0], ![3, 0, 5]]

-- The hypotheses of `c43_solves` hold for it, and the solve gives the solution.
example : 0 < fresh.tol := by decide +kernel
example : ∃ s', factorise (scalars ℚ) true fresh (mat needsPivot) = .ok (s', true) ∧
    Lu.solve true s' [] (some [7, 1, 18]) = .ok ([1, 2, 3], true, 1) := by
  refine ⟨after (factorise (scalars ℚ) true fresh (mat needsPivot)), ?_, ?_⟩ <;> decide +kernel
-- Without pivoting it is rejected.
example : ∃ s', factorise (scalars ℚ) false fresh (mat needsPivot) = .ok (s', false) :=
  ⟨after (factorise (scalars ℚ) false fresh (mat needsPivot)), by decide +kernel⟩

/-! ### C44 -/

/-- Accepted matrices are nonsingular. -/
theorem c44_nonsingular (pivot : Bool) (s s' : Lu K) (htol : 0 < s.tol) {n : Nat} (A : Fin n → Fin n → K)
    (hf : factorise (scalars K) pivot s (mat A) = .ok (s', true)) : (Matrix.of A).det ≠ 0 := by
  have hs : Function.Surjective (Matrix.of A).mulVec := by
    intro b
    obtain ⟨x, -, hx⟩ := c43_solves pivot s s' htol A hf b []
    exact ⟨x, funext fun i => hx i⟩
  exact ((Matrix.isUnit_iff_isUnit_det _).mp (Matrix.mulVec_surjective_iff_isUnit.mp hs)).ne_zero

/-- Singular matrices are rejected. -/
theorem c44_singular (pivot : Bool) (s : Lu K) (htol : 0 < s.tol) {n : Nat} (A : Fin n → Fin n → K)
    (hA : (Matrix.of A).det = 0) : ∃ s', factorise (scalars K) pivot s (mat A) = .ok (s', false) := by
  obtain ⟨s', ok, h1, -⟩ := factorise_returns pivot s htol A
  cases ok with
  | false => exact ⟨s', h1⟩
  | true => exact absurd hA (c44_nonsingular pivot s s' htol A h1)

/-- After a rejected factorisation, also if an earlier one was accepted, the solve reports that it did not converge and does
not touch the solution vector. -/
theorem c44_rejected (pivot : Bool) (s s' : Lu K) (htol : 0 < s.tol) {n : Nat} (A : Fin n → Fin n → K)
    (hf : factorise (scalars K) pivot s (mat A) = .ok (s', false)) (b : Fin n → K) (x0 : List K) :
    Lu.solve pivot s' x0 (some (vec b)) = .ok (x0, false, 0) := by
  obtain ⟨s'', ok, h1, h2, -, h3⟩ := factorise_returns pivot s htol A
  rw [hf] at h1
  simp only [Out.ok.injEq, Prod.mk.injEq] at h1
  obtain ⟨rfl, rfl⟩ := h1
  unfold Lu.solve
  simp [h2, h3]

/-- C44: a right hand side of another size ends the program. -/
theorem c44_size (pivot : Bool) (s s' : Lu K) (ok : Bool) (htol : 0 < s.tol) {n : Nat} (A : Fin n → Fin n → K)
    (hf : factorise (scalars K) pivot s (mat A) = .ok (s', ok)) (b x0 : List K) (hb : b.length ≠ n) :
    Lu.solve pivot s' x0 (some b) = .exit 1 := by
  obtain ⟨s'', ok', h1, h2, -, h3⟩ := factorise_returns pivot s htol A
  rw [hf] at h1
  simp only [Out.ok.injEq, Prod.mk.injEq] at h1
  obtain ⟨rfl, rfl⟩ := h1
  unfold Lu.solve
  simp [h3, hb, assert]

-- A singular matrix.
example : (Matrix.of (![![1, 2], ![2, 4]] : Fin 2 → Fin 2 → ℚ)).det = 0 := by
  rw [Matrix.det_fin_two]; simp; norm_num

/-! ### C81 -/

/-- With pivoting each rejected matrix is close to a singular one: it becomes singular if the entries of one column change by
less than twice the sum of the tolerance and the absolute tolerance of the comparison. -/
theorem c81_pivot (s s' : Lu K) (htol : 0 < s.tol) {n : Nat} (A : Fin n → Fin n → K)
    (hf : factorise (scalars K) true s (mat A) = .ok (s', false)) :
    ∃ (i : Fin n) (e : Fin n → K), (∀ r, |e r| < 2 * (s.tol + defaultAbsolute K)) ∧
      ∃ v : Fin n → K, v ≠ 0 ∧ ∀ r, ∑ c, (if c = i then A r c - e r else A r c) * v c = 0 := by
  obtain ⟨p, M, st, ok, h1, -, h2⟩ := factorise_ok true s htol A
  rw [hf] at h1
  simp only [Out.ok.injEq, Prod.mk.injEq] at h1
  obtain ⟨-, rfl⟩ := h1
  obtain ⟨i, hr⟩ := h2 rfl
  obtain ⟨v, hv, hv1, hv2⟩ := exists_kernel M i
  have hpos : (0 : K) < 2 * (s.tol + defaultAbsolute K) := by
    have : (0 : K) ≤ defaultAbsolute K := by unfold defaultAbsolute; positivity
    linarith
  refine ⟨i, fun r => if i ≤ p.symm r then M (p.symm r) i else 0, fun r => ?_, v, hv, fun r => ?_⟩
  · show |if i ≤ p.symm r then M (p.symm r) i else 0| < _
    split
    · rename_i h; exact hr.column rfl _ h
    · rw [abs_zero]; exact hpos
  · have := rows_kernel hr.factors hv1 hv2 (p.symm r)
    rw [Equiv.apply_symm_apply] at this
    have e : ∀ c, (if c = i then A r c - (if i ≤ p.symm r then M (p.symm r) i else 0) else A r c) * v c =
        A r c * v c - if c = i then (if i ≤ p.symm r then M (p.symm r) i else 0) * v i else 0 := by
      intro c
      by_cases hc : c = i
      · subst hc; simp only [if_true]; ring
      · simp [hc]
    simp only [e, Finset.sum_sub_distrib, Finset.sum_ite_eq', Finset.mem_univ, if_true, this]
    split <;> ring

/-- Without pivoting some leading block of each rejected matrix is close to a singular one: it becomes singular if its last
diagonal entry changes by less than the tolerance. -/
theorem c81_plain (s s' : Lu K) (htol : 0 < s.tol) {n : Nat} (A : Fin n → Fin n → K)
    (hf : factorise (scalars K) false s (mat A) = .ok (s', false)) :
    ∃ (i : Fin n) (e : K), |e| < s.tol ∧ ∃ v : Fin n → K, v ≠ 0 ∧ (∀ c, i < c → v c = 0) ∧
      ∀ r, r ≤ i → ∑ c, (if r = i ∧ c = i then A r c - e else A r c) * v c = 0 := by
  obtain ⟨p, M, st, ok, h1, -, h2⟩ := factorise_ok false s htol A
  rw [hf] at h1
  simp only [Out.ok.injEq, Prod.mk.injEq] at h1
  obtain ⟨-, rfl⟩ := h1
  obtain ⟨i, hr⟩ := h2 rfl
  obtain ⟨v, hv, hv1, hv2⟩ := exists_kernel M i
  obtain rfl := hr.none rfl
  refine ⟨i, M i i, hr.small, v, hv, hv1, fun r hri => ?_⟩
  have := rows_kernel hr.factors hv1 hv2 r
  rw [Equiv.Perm.one_apply] at this
  have e : ∀ c, (if r = i ∧ c = i then A r c - M i i else A r c) * v c =
      A r c * v c - if c = i then (if r = i then M i i * v i else 0) else 0 := by
    intro c
    by_cases hc : c = i
    · subst hc
      by_cases hrc : r = c
      · subst hrc; simp only [and_self, if_true]; ring
      · simp [hrc]
    · simp [hc]
  simp only [e, Finset.sum_sub_distrib, Finset.sum_ite_eq', Finset.mem_univ, if_true, this]
  rcases lt_or_eq_of_le hri with h | h
  · rw [if_neg (not_le.mpr h), if_neg h.ne, sub_zero]
  · subst h; simp

-- A matrix that is rejected with pivoting although it is nonsingular: the bound of the change cannot be zero.
example : ∃ s', factorise (scalars ℚ) true fresh (mat (![![1, 2], ![2, 4 + 1 / 2 ^ 40]] : Fin 2 → Fin 2 → ℚ)) = .ok (s', false) :=
  ⟨after (factorise (scalars ℚ) true fresh (mat (![![1, 2], ![2, 4 + 1 / 2 ^ 40]] : Fin 2 → Fin 2 → ℚ))),
    by decide +kernel⟩

/-! ### C82 -/

/-- No vector is taken to zero by dominant rows. -/
theorem dominant_injective {n : Nat} (B : Fin n → Fin n → K) (S : Fin n → Prop)
    (hB : ∀ r, S r → (∑ c, if c = r then 0 else |B r c|) < |B r r|) (v : Fin n → K) (hv : ∀ c, ¬ S c → v c = 0)
    (h0 : ∀ r, S r → ∑ c, B r c * v c = 0) : v = 0 := by
  by_contra hne
  obtain ⟨c0, hc0⟩ := Function.ne_iff.mp hne
  obtain ⟨r, -, hr⟩ := Finset.exists_max_image Finset.univ (fun c => |v c|) ⟨c0, Finset.mem_univ c0⟩
  have hpos : 0 < |v r| := lt_of_lt_of_le (abs_pos.mpr hc0) (hr c0 (Finset.mem_univ c0))
  have hS : S r := by
    by_contra h
    rw [hv r h, abs_zero] at hpos
    exact lt_irrefl _ hpos
  have h1 : B r r * v r = - ∑ c, if c = r then 0 else B r c * v c := by
    have : ∑ c, B r c * v c = (∑ c, if c = r then B r r * v r else 0) + ∑ c, if c = r then 0 else B r c * v c := by
      rw [← Finset.sum_add_distrib]
      apply Finset.sum_congr rfl
      intro c _
      by_cases hc : c = r
      · subst hc; simp
      · simp [hc]
    rw [h0 r hS, Finset.sum_ite_eq', if_pos (Finset.mem_univ r)] at this
    linarith
  have h2 : |B r r| * |v r| ≤ (∑ c, if c = r then 0 else |B r c|) * |v r| := by
    rw [← abs_mul, h1, abs_neg, Finset.sum_mul]
    refine (Finset.abs_sum_le_sum_abs _ _).trans (Finset.sum_le_sum fun c _ => ?_)
    by_cases hc : c = r
    · simp [hc]
    · simp only [hc, if_false, abs_mul]
      exact mul_le_mul_of_nonneg_left (hr c (Finset.mem_univ c)) (abs_nonneg _)
  exact absurd (hB r hS) (not_lt.mpr (le_of_mul_le_mul_right h2 hpos))

/-- Row diagonally dominant matrices are accepted without pivoting if the margin reaches the tolerance. -/
theorem c82_plain (s : Lu K) (htol : 0 < s.tol) {n : Nat} (A : Fin n → Fin n → K)
    (hA : ∀ r, s.tol + (∑ c, if c = r then 0 else |A r c|) ≤ |A r r|) :
    ∃ s', factorise (scalars K) false s (mat A) = .ok (s', true) := by
  obtain ⟨s', ok, h1, -⟩ := factorise_returns false s htol A
  cases ok with
  | true => exact ⟨s', h1⟩
  | false =>
    obtain ⟨i, e, he, v, hv, hv1, hv2⟩ := c81_plain s s' htol A h1
    refine absurd (dominant_injective (fun r c => if r = i ∧ c = i then A r c - e else A r c) (fun r => r ≤ i) ?_ v
      (fun c hc => hv1 c (not_le.mp hc)) hv2) hv
    intro r _
    have h2 : ∀ c, (if c = r then 0 else |if r = i ∧ c = i then A r c - e else A r c|) = if c = r then 0 else |A r c| := by
      intro c
      by_cases hc : c = r
      · simp [hc]
      · rw [if_neg hc, if_neg hc, if_neg (fun h => hc (h.2.trans h.1.symm))]
    simp only [h2]
    have h3 := hA r
    by_cases hri : r = i
    · subst hri
      simp only [and_self, if_true]
      have := abs_sub_abs_le_abs_sub (A r r) e
      linarith
    · simp only [hri, false_and, if_false]
      linarith

/-- With pivoting twice the margin and a little more is enough. -/
theorem c82_pivot (s : Lu K) (htol : 0 < s.tol) {n : Nat} (A : Fin n → Fin n → K)
    (hA : ∀ r, 2 * (s.tol + defaultAbsolute K) + (∑ c, if c = r then 0 else |A r c|) ≤ |A r r|) :
    ∃ s', factorise (scalars K) true s (mat A) = .ok (s', true) := by
  obtain ⟨s', ok, h1, -⟩ := factorise_returns true s htol A
  cases ok with
  | true => exact ⟨s', h1⟩
  | false =>
    obtain ⟨i, e, he, v, hv, hv2⟩ := c81_pivot s s' htol A h1
    refine absurd (dominant_injective (fun r c => if c = i then A r c - e r else A r c) (fun _ => True) ?_ v
      (fun c hc => absurd trivial hc) (fun r _ => hv2 r)) hv
    intro r _
    have h3 := hA r
    have h4 := he r
    by_cases hri : r = i
    · subst hri
      have h2 : ∀ c, (if c = r then 0 else |if c = r then A r c - e r else A r c|) = if c = r then 0 else |A r c| := by
        intro c
        by_cases hc : c = r <;> simp [hc]
      simp only [h2, if_true]
      have := abs_sub_abs_le_abs_sub (A r r) (e r)
      linarith
    · have h2 : ∀ c, (if c = r then 0 else |if c = i then A r c - e r else A r c|) ≤
          (if c = r then 0 else |A r c|) + if c = i then |e r| else 0 := by
        intro c
        by_cases hc : c = r
        · subst hc; simp [hri]
        · by_cases hci : c = i
          · simp only [hc, hci, if_true, if_false]
            rw [if_neg (fun h => hri h.symm), if_neg (fun h => hri h.symm)]
            exact abs_sub _ _
          · simp [hc, hci]
      have h5 := Finset.sum_le_sum fun c (_ : c ∈ Finset.univ) => h2 c
      rw [Finset.sum_add_distrib, Finset.sum_ite_eq', if_pos (Finset.mem_univ i)] at h5
      simp only [hri, if_false]
      exact lt_of_le_of_lt h5 (by linarith)

-- The usual three point stencil with a shift.
example : ∀ r, 2 * (fresh.tol + defaultAbsolute ℚ) + (∑ c, if c = r then 0 else
    |(![![3, -1, 0], ![-1, 3, -1], ![0, -1, 3]] : Fin 3 → Fin 3 → ℚ) r c|) ≤
    |(![![3, -1, 0], ![-1, 3, -1], ![0, -1, 3]] : Fin 3 → Fin 3 → ℚ) r r| := by decide +kernel

/-! ### C83 -/

/-- Claim: the solve may overwrite the constant vector, as its loops run in place. -/
def C83 (pivot : Bool) : Prop := ∀ (s s' : Lu ℚ), 0 < s.tol → ∀ (n : Nat) (A : Fin n → Fin n → ℚ),
    factorise (scalars ℚ) pivot s (mat A) = .ok (s', true) → ∀ b : Fin n → ℚ,
    ∃ x : Fin n → ℚ, Lu.solve pivot s' (vec b) none = .ok (vec x, true, 1) ∧ ∀ i, ∑ j, A i j * x j = b i

/-- It holds without pivoting. -/
theorem c83_plain_partial (s s' : Lu K) (htol : 0 < s.tol) {n : Nat} (A : Fin n → Fin n → K)
    (hf : factorise (scalars K) false s (mat A) = .ok (s', true)) (b : Fin n → K) :
    ∃ x : Fin n → K, Lu.solve false s' (vec b) none = .ok (vec x, true, 1) ∧ ∀ i, ∑ j, A i j * x j = b i := by
  obtain ⟨p, M, st, ok, h1, h2, -⟩ := factorise_ok false s htol A
  rw [hf] at h1
  simp only [Out.ok.injEq, Prod.mk.injEq] at h1
  obtain ⟨rfl, rfl⟩ := h1
  have hs := h2 rfl
  obtain ⟨-, rfl⟩ := hs.none rfl
  obtain ⟨y, e1, hy⟩ := forward_ok false { s with factorised := true, lu := mat M, piv := st } M rfl 1 hs.pivots
    (fun _ => rfl) b b none (Or.inr ⟨rfl, rfl, fun i => le_refl _⟩)
  obtain ⟨x, e2, hx⟩ := backward_ok { s with factorised := true, lu := mat M, piv := st } M rfl y
  refine ⟨x, ?_, sweeps_solve hs.factors (fun k h0 => ?_) hy hx⟩
  · unfold Lu.solve
    have hr : resizeList (vec b) n 0 = vec b := by
      unfold resizeList
      simp
    simp only [Option.getD_none, vec_length, mat_length, beq_self_eq_true, assert_true, Out.ok_bind, Bool.not_true,
      Bool.false_eq_true, if_false, hr, e1, e2]
    rfl
  · have := hs.diag k k.2
    rw [h0, abs_zero] at this
    exact absurd this (not_le.mpr htol)

/-- With pivoting it does not: the pivoted forward sweep reads entries that it has overwritten. -/
theorem c83_violated : ¬ C83 true := by
  intro h
  have e : factorise (scalars ℚ) true fresh (mat (![![0, 1], ![1, 0]] : Fin 2 → Fin 2 → ℚ)) =
      .ok (⟨true, defaultRelative ℚ, [[1, 0], [0, 1]], [1, 0]⟩, true) := by decide +kernel
  obtain ⟨x, h1, h2⟩ := h fresh _ (by decide +kernel) 2 ![![0, 1], ![1, 0]] e ![1, 2]
  have e2 : Lu.solve true ⟨true, defaultRelative ℚ, [[1, 0], [0, 1]], [1, 0]⟩ (vec (![1, 2] : Fin 2 → ℚ)) none =
      .ok (vec ![2, 2], true, 1) := by decide +kernel
  rw [e2] at h1
  simp only [Out.ok.injEq, Prod.mk.injEq, vec_inj] at h1
  have := h2 0
  rw [← h1.1] at this
  norm_num [Fin.sum_univ_two] at this

end Disa.Props
