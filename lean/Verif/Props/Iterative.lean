import Verif.Solver.Sweep
import Verif.Solver.Energy
import Verif.Props.Lu
import Mathlib.Topology.Order.Basic
import Mathlib.Analysis.SpecificLimits.Basic
import Mathlib.Topology.Algebra.Order.Field

/-!
# Properties C45, C47 and C84: fixed points and convergence of the iterative solvers
-/

namespace Disa.Props

open Disa Spec Disa.Dense Iterative

variable {K N : Type} [Field K] [LinearOrder K] [IsStrictOrderedRing K] {F : Scalars K N}

/-- The relaxation factor that a method uses. -/
def factor (K : Type) [Field K] : Method → K
  | .jacobi => 1
  | .gaussSeidel => 1
  | .sor => 3 / 2

theorem factor_ne (k : Method) : factor K k ≠ 0 := by
  cases k <;> simp [factor]

/-- What one iteration of each method computes. -/
theorem step_ok (hF : Exact F) (k : Method) (s : FixedPoint K) {n : Nat} {m : Sparse K} {A : Fin n → Fin n → K}
    (h : Square m A) (hd : ∀ i, A i i ≠ 0) (b x : Fin n → K) (w : List K) (hw : k = .jacobi → w.length = n) :
    ∃ (y : Fin n → K) (w' : List K), step F k s m (vec b) (vec x, w) = .ok (vec y, w') ∧ (k = .jacobi → w'.length = n) ∧
      ∀ i, y i = relaxed A b (factor K k) (if k = .jacobi then x else fun j => if j < i then y j else x j) i := by
  cases k with
  | jacobi =>
    obtain ⟨u, rfl⟩ : ∃ u : Fin n → K, w = vec u := by
      have := hw rfl
      refine ⟨fun i => w[i.1]'(by rw [this]; exact i.2), ?_⟩
      apply List.ext_getElem
      · simp [this]
      · intro k h1 h2; simp [vec]
    refine ⟨relaxed A b 1 x, vec x, ?_, by simp, fun i => by simp [factor]⟩
    unfold step
    rw [hF.1]
    simp only [jacobi_ok h hF.1 b 1 hd x u, Out.ok_bind, Out.pure_eq]
  | gaussSeidel =>
    obtain ⟨y, h1, h2⟩ := inplace_ok (F := F) h hF.1 b 1 hd x
    refine ⟨y, w, ?_, by simp, fun i => by simpa [factor] using h2 i⟩
    unfold step
    rw [hF.1]
    simp only [h1, Out.ok_bind, Out.pure_eq]
  | sor =>
    obtain ⟨y, h1, h2⟩ := inplace_ok (F := F) h hF.1 b (3 / 2) hd x
    refine ⟨y, w, ?_, by simp, fun i => by simpa [factor] using h2 i⟩
    unfold step
    rw [hF.2]
    simp only [h1, Out.ok_bind, Out.pure_eq]

/-! ### C45 -/

omit [LinearOrder K] [IsStrictOrderedRing K] in
theorem relaxed_fixed {n : Nat} (A : Fin n → Fin n → K) (b x : Fin n → K) {omega : K} (ho : omega ≠ 0) {i : Fin n}
    (hd : A i i ≠ 0) : relaxed A b omega x i = x i ↔ ∑ j, A i j * x j = b i := by
  rw [off_add]
  unfold relaxed
  constructor
  · intro h
    have h1 : omega * (b i - off A x i - A i i * x i) = 0 := by
      field_simp at h
      linear_combination h
    rcases mul_eq_zero.mp h1 with h2 | h2
    · exact absurd h2 ho
    · linear_combination -h2
  · intro h
    field_simp
    linear_combination -omega * h

/-- An iteration of any of the solvers returns, and leaves the vector unchanged exactly if it solves the system. -/
theorem c45_fixed_point (hF : Exact F) (k : Method) (s : FixedPoint K) {n : Nat} (m : Sparse K) (A : Fin n → Fin n → K)
    (h : Square m A) (hd : ∀ i, A i i ≠ 0) (b x : Fin n → K) (w : List K) (hw : k = .jacobi → w.length = n) :
    ∃ (y : Fin n → K) (w' : List K), step F k s m (vec b) (vec x, w) = .ok (vec y, w') ∧ (y = x ↔ Solves A x b) := by
  obtain ⟨y, w', h1, -, h2⟩ := step_ok hF k s h hd b x w hw
  refine ⟨y, w', h1, ?_, ?_⟩
  · rintro rfl i
    have := h2 i
    have e : (if k = .jacobi then y else fun j => if j < i then y j else y j) = y := by
      split
      · rfl
      · funext j; simp
    rw [e] at this
    exact (relaxed_fixed A b y (factor_ne k) (hd i)).mp this.symm
  · intro hs
    have : ∀ l, ∀ i : Fin n, i.1 < l → y i = x i := by
      intro l
      induction l with
      | zero => intro i hi; exact absurd hi (Nat.not_lt_zero _)
      | succ l ih =>
        intro i hi
        rw [h2 i]
        have e : (if k = .jacobi then x else fun j => if j < i then y j else x j) = x := by
          split
          · rfl
          · funext j
            split
            · rename_i hj
              exact ih j (by have : j.1 < i.1 := hj; omega)
            · rfl
        rw [e]
        exact (relaxed_fixed A b x (factor_ne k) (hd i)).mpr (hs i)
    funext i
    exact this (i.1 + 1) i (by omega)

/-- If an element of the diagonal is not stored the iteration exits. -/
theorem c45_missing (hF : Exact F) (k : Method) (s : FixedPoint K) {n : Nat} (m : Sparse K) (A : Fin n → Fin n → K)
    (h : Square m A) (i : Fin n) (hi : Spec.lookup m i i = .ok none) (hb : ∀ j, j < i → A j j ≠ 0) (b x : Fin n → K)
    (w : List K) (hw : k = .jacobi → w.length = n) : step F k s m (vec b) (vec x, w) = .exit 1 := by
  have main : ∀ (omega : K) (o : Option (List K)) (u : Fin n → K), (o = none ∨ o = some (vec x)) →
      forwardSweep F m (vec b) omega o (vec u) = .exit 1 := by
    intro omega o u ho
    have hprefix : ∀ l, l ≤ i.1 → ∃ y : Fin n → K, loop l (sweepRow F m (vec b) omega o) (vec u) = .ok (vec y) := by
      intro l hl
      obtain ⟨t, h1, y, rfl⟩ := loop_inv (n := l) (s := vec u) (body := sweepRow F m (vec b) omega o)
        (fun _ t => ∃ y : Fin n → K, t = vec y) ⟨u, rfl⟩ (by
          rintro j t hj ⟨y, rfl⟩
          have hjn : j < n := by have := i.2; omega
          have hdj : A ⟨j, hjn⟩ ⟨j, hjn⟩ ≠ 0 := hb ⟨j, hjn⟩ (show j < i.1 by omega)
          rcases ho with rfl | rfl
          · exact ⟨_, sweepRow_ok h hF.1 b omega ⟨j, hjn⟩ hdj none y y rfl, _, rfl⟩
          · exact ⟨_, sweepRow_ok h hF.1 b omega ⟨j, hjn⟩ hdj (some (vec x)) y x rfl, _, rfl⟩)
      exact ⟨y, h1⟩
    obtain ⟨y, hy⟩ := hprefix i.1 le_rfl
    have hfail : sweepRow F m (vec b) omega o i.1 (vec y) = .exit 1 := by
      have hr : i.1 < m.sizeRow := by rw [h.2.1]; exact i.2
      unfold sweepRow
      rcases ho with rfl | rfl
      · simp only [hr, decide_true, assert_true, Out.ok_bind, Option.getD_none, offRowDot_ok h, rd_vec b i.2, get_absent h i i hi]
        rfl
      · simp only [hr, decide_true, assert_true, Out.ok_bind, Option.getD_some, offRowDot_ok h, rd_vec b i.2, get_absent h i i hi]
        rfl
    have hcut : ∀ l, i.1 < l → loop l (sweepRow F m (vec b) omega o) (vec u) = .exit 1 := by
      intro l hl
      induction l with
      | zero => omega
      | succ l ih =>
        show (loop l (sweepRow F m (vec b) omega o) (vec u) >>= sweepRow F m (vec b) omega o l) = _
        by_cases he : l = i.1
        · rw [he, hy, Out.ok_bind, hfail]
        · rw [ih (by omega)]; rfl
    exact hcut m.sizeRow (by rw [h.2.1]; exact i.2)
  cases k with
  | jacobi =>
    obtain ⟨u, rfl⟩ : ∃ u : Fin n → K, w = vec u := by
      have := hw rfl
      refine ⟨fun i => w[i.1]'(by rw [this]; exact i.2), ?_⟩
      apply List.ext_getElem
      · simp [this]
      · intro k h1 h2; simp [vec]
    unfold step
    simp only [main _ (some (vec x)) u (Or.inr rfl)]
    rfl
  | gaussSeidel =>
    unfold step
    simp only [main _ none x (Or.inl rfl)]
    rfl
  | sor =>
    unfold step
    simp only [main _ none x (Or.inl rfl)]
    rfl

/-- A matrix in compressed rows with all four elements stored. -/
def dense2 {K : Type} (a b c d : K) : Sparse K := ⟨[0, 2, 4], [0, 1, 0, 1], [a, b, c, d], 2⟩

theorem dense2_lists {K : Type} [Zero K] (a b c d : K) :
    Sparse.ofLists [0, 2, 4] [0, 1, 0, 1] [a, b, c, d] 2 = .ok (dense2 a b c d) := by
  simp [dense2, Sparse.ofLists, loop, Sparse.listBody, rd, slice, overwrite, assert]

omit [LinearOrder K] [IsStrictOrderedRing K] in
theorem dense2_square (a b c d : K) : Square (dense2 a b c d) ![![a, b], ![c, d]] := by
  refine ⟨Built.ofLists (by simp [sizeMax]) (by simp [sizeMax]) (dense2_lists a b c d), rfl, rfl, ?_⟩
  intro i j
  fin_cases i <;> fin_cases j <;> rfl

-- The hypotheses of `c45_fixed_point` hold for a matrix that is not symmetric.
example : Square (dense2 (4 : ℚ) 1 (-2) 5) ![![4, 1], ![-2, 5]] ∧ ∀ i, (![![4, 1], ![-2, 5]] : Fin 2 → Fin 2 → ℚ) i i ≠ 0 :=
  ⟨dense2_square _ _ _ _, by decide⟩

/-! ### C47 -/

omit [LinearOrder K] [IsStrictOrderedRing K] in
theorem relaxed_error {n : Nat} (A : Fin n → Fin n → K) (b s z : Fin n → K) (hs : Solves A s b) {i : Fin n} (hd : A i i ≠ 0) :
    relaxed A b 1 z i - s i = - off A (fun j => z j - s j) i / A i i := by
  have h1 := hs i
  rw [off_add] at h1
  have h2 : off A (fun j => z j - s j) i = off A z i - off A s i := by
    unfold off
    rw [← Finset.sum_sub_distrib]
    apply Finset.sum_congr rfl
    intro j _
    split
    · ring
    · ring
  rw [h2]
  unfold relaxed
  field_simp
  linear_combination -h1

/-- The largest ratio between the other entries and the diagonal. -/
theorem exists_ratio {n : Nat} (A : Fin n → Fin n → K) (hA : Dominant A) :
    ∃ q : K, 0 ≤ q ∧ q < 1 ∧ ∀ i, (∑ j, if j = i then 0 else |A i j|) ≤ q * |A i i| := by
  have hpos : ∀ i, 0 < |A i i| := fun i => lt_of_le_of_lt (Finset.sum_nonneg fun j _ => by
    split
    · exact le_refl _
    · exact abs_nonneg _) (hA i)
  rcases Nat.eq_zero_or_pos n with rfl | hn
  · exact ⟨0, le_refl _, zero_lt_one, fun i => i.elim0⟩
  · obtain ⟨i, -, hi⟩ := Finset.exists_max_image Finset.univ (fun i => (∑ j, if j = i then 0 else |A i j|) / |A i i|)
      ⟨⟨0, hn⟩, Finset.mem_univ _⟩
    refine ⟨(∑ j, if j = i then 0 else |A i j|) / |A i i|, ?_, ?_, fun l => ?_⟩
    · apply div_nonneg _ (abs_nonneg _)
      exact Finset.sum_nonneg fun j _ => by
        split
        · exact le_refl _
        · exact abs_nonneg _
    · rw [div_lt_one (hpos i)]; exact hA i
    · have := hi l (Finset.mem_univ l)
      rwa [div_le_iff₀ (hpos l)] at this

theorem off_bound {n : Nat} (A : Fin n → Fin n → K) (z : Fin n → K) (i : Fin n) (q E : K) (hE : ∀ j, j ≠ i → |z j| ≤ E)
    (hE0 : 0 ≤ E) (hq : (∑ j, if j = i then 0 else |A i j|) ≤ q * |A i i|) (hd : A i i ≠ 0) : |- off A z i / A i i| ≤ q * E := by
  rw [abs_div, abs_neg, div_le_iff₀ (abs_pos.mpr hd)]
  have h1 : |off A z i| ≤ (∑ j, if j = i then 0 else |A i j|) * E := by
    unfold off
    rw [Finset.sum_mul]
    refine (Finset.abs_sum_le_sum_abs _ _).trans (Finset.sum_le_sum fun j _ => ?_)
    by_cases hj : j = i
    · simp [hj]
    · simp only [hj, if_false, abs_mul]
      exact mul_le_mul_of_nonneg_left (hE j hj) (abs_nonneg _)
  calc |off A z i| ≤ (∑ j, if j = i then 0 else |A i j|) * E := h1
    _ ≤ q * |A i i| * E := mul_le_mul_of_nonneg_right hq hE0
    _ = q * E * |A i i| := by ring

theorem dominant_diag {n : Nat} {A : Fin n → Fin n → K} (hA : Dominant A) (i : Fin n) : A i i ≠ 0 := by
  intro h
  have := hA i
  rw [h, abs_zero] at this
  refine absurd this (not_lt.mpr (Finset.sum_nonneg fun j _ => ?_))
  split
  · exact le_refl _
  · exact abs_nonneg _

/-- Each Jacobi and Gauss Seidel iteration contracts the error in the maximum norm, by a factor below one that depends on the
matrix only. -/
theorem c47_contracts (hF : Exact F) {n : Nat} (m : Sparse K) (A : Fin n → Fin n → K) (h : Square m A) (hA : Dominant A) :
    ∃ q : K, 0 ≤ q ∧ q < 1 ∧ ∀ (k : Method), k ≠ .sor → ∀ (s : FixedPoint K) (b sol : Fin n → K), Solves A sol b →
      ∀ (x : Fin n → K) (w : List K), (k = .jacobi → w.length = n) →
      ∃ (y : Fin n → K) (w' : List K), step F k s m (vec b) (vec x, w) = .ok (vec y, w') ∧ (k = .jacobi → w'.length = n) ∧
        ∀ E, (∀ i, |x i - sol i| ≤ E) → ∀ i, |y i - sol i| ≤ q * E := by
  have hd := dominant_diag hA
  obtain ⟨q, hq0, hq1, hq⟩ := exists_ratio A hA
  refine ⟨q, hq0, hq1, fun k hk s b sol hs x w hw => ?_⟩
  obtain ⟨y, w', h1, h1', h2⟩ := step_ok hF k s h hd b x w hw
  refine ⟨y, w', h1, h1', fun E hE => ?_⟩
  have hf : factor K k = 1 := by
    cases k with
    | sor => exact absurd rfl hk
    | _ => rfl
  have : ∀ l, ∀ i : Fin n, i.1 < l → |y i - sol i| ≤ q * E := by
    intro l
    induction l with
    | zero => intro i hi; exact absurd hi (Nat.not_lt_zero _)
    | succ l ih =>
      intro i hi
      have hE0 : 0 ≤ E := (abs_nonneg _).trans (hE i)
      have hle : q * E ≤ E := by nlinarith
      rw [h2 i, hf, relaxed_error A b sol _ hs (hd i)]
      apply off_bound A _ i q E _ hE0 (hq i) (hd i)
      intro j _
      split
      · exact hE j
      · show |(if j < i then y j else x j) - sol j| ≤ E
        split
        · rename_i hj
          exact (ih j (by have : j.1 < i.1 := hj; omega)).trans hle
        · exact hE j
  intro i
  exact this (i.1 + 1) i (by omega)

/-- Strictly dominant systems have exactly one solution. -/
theorem dominant_solution {n : Nat} (A : Fin n → Fin n → K) (hA : Dominant A) (b : Fin n → K) : ∃! x, Solves A x b := by
  let T : (Fin n → K) →ₗ[K] (Fin n → K) := Matrix.mulVecLin (Matrix.of A)
  have hT : ∀ v i, T v i = ∑ j, A i j * v j := fun v i => rfl
  have hinj : Function.Injective T := by
    rw [← LinearMap.ker_eq_bot]
    rw [Submodule.eq_bot_iff]
    intro v hv
    refine dominant_injective A (fun _ => True) (fun i _ => hA i) v (fun c hc => absurd trivial hc) (fun i _ => ?_)
    rw [← hT]
    exact congrFun (LinearMap.mem_ker.mp hv) i
  obtain ⟨x, hx⟩ := (LinearMap.injective_iff_surjective.mp hinj) b
  refine ⟨x, fun i => by rw [← hT, hx], fun y hy => hinj ?_⟩
  rw [hx]
  funext i
  exact hy i

/-- The errors after any number of iterations. -/
theorem iterates_bound (hF : Exact F) {n : Nat} (m : Sparse K) (A : Fin n → Fin n → K) (h : Square m A) (hA : Dominant A) :
    ∃ q : K, 0 ≤ q ∧ q < 1 ∧ ∀ (k : Method), k ≠ .sor → ∀ (s : FixedPoint K) (b sol : Fin n → K), Solves A sol b →
      ∀ (j : Nat) (x : Fin n → K) (w : List K), (k = .jacobi → w.length = n) → ∀ E, (∀ i, |x i - sol i| ≤ E) →
      ∃ (y : Fin n → K) (w' : List K), times (step F k s m (vec b)) j (vec x, w) = .ok (vec y, w') ∧
        ∀ i, |y i - sol i| ≤ q ^ j * E := by
  obtain ⟨q, hq0, hq1, hq⟩ := c47_contracts hF m A h hA
  refine ⟨q, hq0, hq1, fun k hk s b sol hs j => ?_⟩
  induction j with
  | zero => intro x w hw E hE; exact ⟨x, w, rfl, by simpa using hE⟩
  | succ j ih =>
    intro x w hw E hE
    obtain ⟨y, w', h1, h2, h3⟩ := hq k hk s b sol hs x w hw
    obtain ⟨z, w'', h4, h5⟩ := ih y w' h2 (q * E) (h3 E hE)
    refine ⟨z, w'', ?_, fun i => (h5 i).trans (by rw [pow_succ, mul_assoc])⟩
    unfold times
    rw [h1]
    exact h4

/-- The iterates of Jacobi and Gauss Seidel converge to the only solution from every start. -/
theorem c47_converges {F : Scalars ℝ N} (hF : Exact F) {n : Nat} (m : Sparse ℝ) (A : Fin n → Fin n → ℝ) (h : Square m A)
    (hA : Dominant A) (k : Method) (hk : k ≠ .sor) (s : FixedPoint ℝ) (b x : Fin n → ℝ) (w : List ℝ)
    (hw : k = .jacobi → w.length = n) :
    ∃ sol, Solves A sol b ∧ (∀ y, Solves A y b → y = sol) ∧ TendTo F k s m b x w sol := by
  obtain ⟨sol, hs, hu⟩ := dominant_solution A hA b
  obtain ⟨q, hq0, hq1, hq⟩ := iterates_bound hF m A h hA
  have hE : ∀ i, |x i - sol i| ≤ ∑ l, |x l - sol l| := fun i =>
    Finset.single_le_sum (f := fun l => |x l - sol l|) (fun l _ => abs_nonneg _) (Finset.mem_univ i)
  have hE0 : 0 ≤ ∑ l, |x l - sol l| := Finset.sum_nonneg fun l _ => abs_nonneg _
  generalize (∑ l, |x l - sol l|) = E at hE hE0
  have hall := fun j => hq k hk s b sol hs j x w hw E hE
  choose xs ws h1 h2 using hall
  refine ⟨sol, hs, hu, xs, fun j => ⟨_, h1 j⟩, fun ε hε => ?_⟩
  obtain ⟨J, hJ⟩ := exists_pow_lt_of_lt_one (show 0 < ε / (E + 1) by positivity) hq1
  refine ⟨J, fun j hj i => lt_of_le_of_lt (h2 j i) ?_⟩
  have h3 : q ^ j ≤ q ^ J := pow_le_pow_of_le_one hq0 hq1.le hj
  have h4 : q ^ j * E ≤ q ^ J * E := mul_le_mul_of_nonneg_right h3 hE0
  have h5 : q ^ J * (E + 1) < ε := by rwa [lt_div_iff₀ (by positivity)] at hJ
  have h6 : 0 ≤ q ^ J := pow_nonneg hq0 J
  nlinarith

-- The hypotheses hold for the same matrix.
example : Dominant (![![4, 1], ![-2, 5]] : Fin 2 → Fin 2 → ℝ) := by
  intro i
  fin_cases i <;> simp [Fin.sum_univ_two] <;> norm_num
example : Exact reals := ⟨rfl, rfl⟩

/-! ### C84 -/

theorem factor_range (k : Method) : 0 < factor K k ∧ factor K k < 2 := by
  cases k <;> simp only [factor] <;> norm_num

/-- Each Gauss Seidel and SOR iteration on a symmetric positive definite system reduces the energy of the error, by a factor
below one that depends on the matrix only. -/
theorem c84_reduces (hF : Exact F) {n : Nat} (m : Sparse K) (A : Fin n → Fin n → K) (h : Square m A)
    (hA : PositiveDefinite A) (k : Method) (hk : k ≠ .jacobi) :
    ∃ q : K, 0 ≤ q ∧ q < 1 ∧ ∀ (s : FixedPoint K) (b sol : Fin n → K), Solves A sol b → ∀ (x : Fin n → K) (w : List K),
      ∃ (y : Fin n → K) (w' : List K), step F k s m (vec b) (vec x, w) = .ok (vec y, w') ∧
        (∑ i, ∑ j, (y i - sol i) * A i j * (y j - sol j)) ≤ q * ∑ i, ∑ j, (x i - sol i) * A i j * (x j - sol j) := by
  obtain ⟨q, hq0, hq1, hq⟩ := exists_reduction hA (factor_range (K := K) k).1 (factor_range k).2
  refine ⟨q, hq0, hq1, fun s b sol hs x w => ?_⟩
  obtain ⟨y, w', h1, -, h2⟩ := step_ok hF k s h (fun i => (diag_pos hA i).ne') b x w (fun h => absurd h hk)
  refine ⟨y, w', h1, hq b sol x y hs fun i => ?_⟩
  rw [h2 i, if_neg hk]
  rfl

/-- Gauss Seidel and SOR converge to the only solution of each symmetric positive definite system from every start. -/
theorem c84_converges {F : Scalars ℝ N} (hF : Exact F) {n : Nat} (m : Sparse ℝ) (A : Fin n → Fin n → ℝ) (h : Square m A)
    (hA : PositiveDefinite A) (k : Method) (hk : k ≠ .jacobi) (s : FixedPoint ℝ) (b x : Fin n → ℝ) (w : List ℝ) :
    ∃ sol, Solves A sol b ∧ (∀ y, Solves A y b → y = sol) ∧ TendTo F k s m b x w sol := by
  obtain ⟨sol, hs⟩ := exists_unit hA b
  obtain ⟨q, hq0, hq1, hq⟩ := c84_reduces hF m A h hA k hk
  have hall : ∀ (j : Nat) (x : Fin n → ℝ) (w : List ℝ), ∃ (y : Fin n → ℝ) (w' : List ℝ),
      times (step F k s m (vec b)) j (vec x, w) = .ok (vec y, w') ∧
      energy A (fun i => y i - sol i) ≤ q ^ j * energy A (fun i => x i - sol i) := by
    intro j
    induction j with
    | zero => intro x w; exact ⟨x, w, rfl, by simp⟩
    | succ j ih =>
      intro x w
      obtain ⟨y, w', h1, h2⟩ := hq s b sol hs x w
      obtain ⟨z, w'', h3, h4⟩ := ih y w'
      refine ⟨z, w'', ?_, h4.trans ?_⟩
      · unfold times
        rw [h1]
        exact h3
      · rw [pow_succ, mul_assoc]
        exact mul_le_mul_of_nonneg_left h2 (pow_nonneg hq0 j)
  refine ⟨sol, hs, fun y hy => ?_, ?_⟩
  · by_contra hne
    have h1 := hA.2 (fun i => y i - sol i) (fun h0 => hne (funext fun i => by
      have := congrFun h0 i
      simpa [sub_eq_zero] using this))
    have h2 : energy A (fun i => y i - sol i) = 0 := by
      rw [energy_eq]
      apply Finset.sum_eq_zero
      intro i _
      have : apply A (fun i => y i - sol i) i = 0 := by
        have e1 := hy i
        have e2 : apply A sol i = b i := hs i
        unfold apply at e2 ⊢
        simp only [mul_sub, Finset.sum_sub_distrib, e1, e2, sub_self]
      rw [this, mul_zero]
    exact absurd h2 h1.ne'
  · choose xs ws h1 h2 using fun j => hall j x w
    refine ⟨xs, fun j => ⟨_, h1 j⟩, fun ε hε => ?_⟩
    choose c hc hcb using exists_component hA
    have hE0 := energy_nonneg hA (fun i => x i - sol i)
    generalize energy A (fun i => x i - sol i) = E at h2 hE0
    have hC : ∀ i, c i ≤ ∑ l, c l := fun i => Finset.single_le_sum (fun l _ => (hc l).le) (Finset.mem_univ i)
    have hC0 : 0 ≤ ∑ l, c l := Finset.sum_nonneg fun l _ => (hc l).le
    generalize (∑ l, c l) = C at hC hC0
    obtain ⟨J, hJ⟩ := exists_pow_lt_of_lt_one (show 0 < ε ^ 2 / (C * E + 1) by positivity) hq1
    refine ⟨J, fun j hj i => ?_⟩
    have h3 : q ^ j ≤ q ^ J := pow_le_pow_of_le_one hq0 hq1.le hj
    have h4 : (xs j i - sol i) ^ 2 ≤ c i * (q ^ j * E) :=
      (hcb i (fun i => xs j i - sol i)).trans (mul_le_mul_of_nonneg_left (h2 j) (hc i).le)
    have h5 : q ^ J * (C * E + 1) < ε ^ 2 := by rwa [lt_div_iff₀ (by positivity)] at hJ
    have h6 : 0 ≤ q ^ J := pow_nonneg hq0 J
    have h7 : c i * (q ^ j * E) ≤ C * (q ^ J * E) :=
      mul_le_mul (hC i) (mul_le_mul_of_nonneg_right h3 hE0) (mul_nonneg (pow_nonneg hq0 j) hE0) hC0
    exact abs_lt_of_sq_lt_sq (by nlinarith) hε.le

-- A symmetric positive definite matrix that is not diagonally dominant.
example : PositiveDefinite (![![1, 3], ![3, 10]] : Fin 2 → Fin 2 → ℝ) := by
  refine ⟨by intro i j; fin_cases i <;> fin_cases j <;> rfl, fun v hv => ?_⟩
  simp only [Fin.sum_univ_two, Matrix.cons_val_zero, Matrix.cons_val_one]
  have : v 0 ≠ 0 ∨ v 1 ≠ 0 := by
    by_contra hc
    push Not at hc
    exact hv (funext fun i => by fin_cases i; exacts [hc.1, hc.2])
  have e : v 0 * 1 * v 0 + v 0 * 3 * v 1 + (v 1 * 3 * v 0 + v 1 * 10 * v 1) = (v 0 + 3 * v 1) ^ 2 + v 1 ^ 2 := by ring
  rw [e]
  by_cases h1 : v 1 = 0
  · have h0 : v 0 ≠ 0 := this.resolve_right (fun h => h h1)
    rw [h1]
    have : 0 < v 0 ^ 2 := by positivity
    linarith [this, show (v 0 + 3 * 0) ^ 2 + 0 ^ 2 = v 0 ^ 2 by ring]
  · have : 0 < v 1 ^ 2 := by positivity
    linarith [sq_nonneg (v 0 + 3 * v 1)]
example : ¬ Dominant (![![1, 3], ![3, 10]] : Fin 2 → Fin 2 → ℝ) := by
  intro h
  have := h 0
  simp [Fin.sum_univ_two] at this

end Disa.Props
