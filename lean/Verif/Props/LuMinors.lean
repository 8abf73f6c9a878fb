import Verif.Props.LuTol
import Mathlib.LinearAlgebra.Matrix.Block

/-!
# Properties C174 and C175: the determinants of accepted matrices, and multiples of matrices
-/

namespace Disa.Props

open Disa Spec Dense Lu

/-- The determinant of the first `k` rows and columns. -/
def minor {K : Type} [CommRing K] {n : Nat} (A : Fin n → Fin n → K) (k : Nat) (h : k ≤ n) : K :=
  (Matrix.of fun r c : Fin k => A (Fin.castLE h r) (Fin.castLE h c)).det

variable {K : Type} [Field K] [LinearOrder K] [IsStrictOrderedRing K]

omit [LinearOrder K] [IsStrictOrderedRing K] in
theorem minor_factors {n : Nat} {A M : Fin n → Fin n → K} {i : Nat} (hf : Factors A 1 M i) (k : Nat) (h : k ≤ n) (hk : k ≤ i + 1) :
    minor A k h = ∏ j : Fin k, M (Fin.castLE h j) (Fin.castLE h j) := by
  have e : (Matrix.of fun r c : Fin k => A (Fin.castLE h r) (Fin.castLE h c)) =
      (Matrix.of fun r l : Fin k => lower M i (Fin.castLE h r) (Fin.castLE h l)) *
        Matrix.of fun l c : Fin k => upper M i (Fin.castLE h l) (Fin.castLE h c) := by
    ext r c
    rw [Matrix.mul_apply]
    have := hf (Fin.castLE h r) (Fin.castLE h c)
    rw [Equiv.Perm.one_apply] at this
    rw [Matrix.of_apply, this]
    symm
    refine Finset.sum_of_injOn (Fin.castLE h) ((Fin.castLE_injective h).injOn) (fun _ _ => Finset.mem_univ _) ?_ (fun _ _ => rfl)
    intro l _ hl
    have hlk : k ≤ l.1 := by
      by_contra hc
      exact hl ⟨⟨l.1, by omega⟩, Finset.mem_univ _, rfl⟩
    have hr := r.2
    unfold lower
    rw [if_neg (fun hh => by have := congrArg Fin.val hh; simp at this; omega), if_neg (fun hh => by
      have := hh.2
      rw [Fin.lt_def, Fin.val_castLE] at this
      omega), zero_mul]
  unfold minor
  rw [e, Matrix.det_mul, Matrix.det_of_lowerTriangular, Matrix.det_of_upperTriangular]
  · rw [Finset.prod_eq_one, one_mul]
    · refine Finset.prod_congr rfl fun j _ => ?_
      rw [Matrix.of_apply]
      unfold upper
      rw [if_neg (by omega)]
    · intro j _
      rw [Matrix.of_apply]
      unfold lower
      rw [if_pos rfl]
  · intro r c hrc
    have hrc' : c < r := hrc
    rw [Matrix.of_apply]
    unfold upper
    rw [if_pos]
    have hr := r.2
    rw [Fin.lt_def] at hrc'
    simp only [Fin.val_castLE]
    omega
  · intro r c hrc
    have hrc' : r < c := hrc
    rw [Fin.lt_def] at hrc'
    rw [Matrix.of_apply]
    unfold lower
    rw [if_neg (fun hh => by have := congrArg Fin.val hh; simp at this; omega), if_neg (fun hh => by
      have := hh.2
      rw [Fin.lt_def, Fin.val_castLE, Fin.val_castLE] at this
      omega)]

omit [LinearOrder K] [IsStrictOrderedRing K] in
theorem minor_succ {n : Nat} {A M : Fin n → Fin n → K} {i : Nat} (hf : Factors A 1 M i) (k : Nat) (h : k < n) (hk : k ≤ i) :
    minor A (k + 1) h = minor A k h.le * M ⟨k, h⟩ ⟨k, h⟩ := by
  rw [minor_factors hf (k + 1) h (by omega), minor_factors hf k h.le (by omega), Fin.prod_univ_castSucc]
  rfl

/-- C174: without pivoting the matrices that are accepted are those where each leading minor is at least the tolerance times the one
before it. -/
theorem c174_minors (s : Lu K) (htol : 0 < s.tol) {n : Nat} (A : Fin n → Fin n → K) :
    ∃ s' ok, factorise (scalars K) false s (mat A) = .ok (s', ok) ∧
      (ok = true ↔ ∀ (k : Nat) (h : k < n), s.tol * |minor A k h.le| ≤ |minor A (k + 1) h|) := by
  obtain ⟨p, M, st, ok, h1, h2, h3⟩ := factorise_ok false s htol A
  refine ⟨_, ok, h1, ?_⟩
  cases ok with
  | true =>
    refine ⟨fun _ k h => ?_, fun _ => rfl⟩
    obtain ⟨hf, hd, -, hn⟩ := h2 rfl
    rw [(hn rfl).2] at hf
    rw [minor_succ hf k h h.le, abs_mul, mul_comm]
    exact mul_le_mul_of_nonneg_left (hd ⟨k, h⟩ h) (abs_nonneg _)
  | false =>
    refine ⟨fun h => (Bool.false_ne_true h).elim, fun h => ?_⟩
    obtain ⟨i, hf, hsm, -, hn⟩ := h3 rfl
    rw [hn rfl] at hf
    have hpos : ∀ k (hk : k ≤ n), 0 < |minor A k hk| := by
      intro k
      induction k with
      | zero => intro hk; unfold minor; rw [Matrix.det_fin_zero, abs_one]; exact one_pos
      | succ k ih => exact fun hk => lt_of_lt_of_le (mul_pos htol (ih (by omega))) (h k hk)
    have e := h i.1 i.2
    rw [minor_succ hf i.1 i.2 le_rfl, abs_mul, mul_comm] at e
    exact absurd (le_of_mul_le_mul_left e (hpos i.1 i.2.le)) (not_le.mpr hsm)

/-- C174: an accepted matrix, with or without pivoting, has at least the determinant of a diagonal matrix with the tolerance on its
diagonal. -/
theorem c174_determinant (pivot : Bool) (s s' : Lu K) (htol : 0 < s.tol) {n : Nat} (A : Fin n → Fin n → K)
    (hf : factorise (scalars K) pivot s (mat A) = .ok (s', true)) : s.tol ^ n ≤ |(Matrix.of A).det| := by
  obtain ⟨p, M, st, ok, h1, h2, -⟩ := factorise_ok pivot s htol A
  rw [hf] at h1
  simp only [Out.ok.injEq, Prod.mk.injEq] at h1
  obtain ⟨-, rfl⟩ := h1
  obtain ⟨hF, hd, -, -⟩ := h2 rfl
  have e1 : Factors (fun r c => A (p r) c) 1 M n := fun r c => hF r c
  have e2 := minor_factors e1 n le_rfl (by omega)
  have e3 : minor (fun r c => A (p r) c) n le_rfl = Equiv.Perm.sign p * (Matrix.of A).det := by
    rw [← Matrix.det_permute]
    rfl
  have e4 : |(Matrix.of A).det| = ∏ j : Fin n, |M j j| := by
    have : |minor (fun r c => A (p r) c) n le_rfl| = |(Matrix.of A).det| := by
      rw [e3, abs_mul]
      rcases Int.units_eq_one_or (Equiv.Perm.sign p) with h | h <;> rw [h] <;> simp
    rw [← this, e2, Finset.abs_prod]
    rfl
  rw [e4]
  have : ∏ _j : Fin n, s.tol ≤ ∏ j : Fin n, |M j j| := Finset.prod_le_prod (fun _ _ => htol.le) fun j _ => hd j j.2
  simpa using this

/-! ### C175 -/

/-- C175, as stated: a multiple of a matrix that is accepted is accepted. -/
def C175 : Prop := ∀ (pivot : Bool) (s s' : Lu ℚ), 0 < s.tol → ∀ (n : Nat) (A : Fin n → Fin n → ℚ) (c : ℚ), c ≠ 0 →
  factorise (scalars ℚ) pivot s (mat A) = .ok (s', true) →
  ∃ s'', factorise (scalars ℚ) pivot s (mat fun i j => c * A i j) = .ok (s'', true)

/-- C175: small multiples of every matrix are rejected. -/
theorem c175_small (pivot : Bool) (s : Lu K) (htol : 0 < s.tol) {n : Nat} (A : Fin n → Fin n → K) (c : K)
    (hc : |c| ^ n * |(Matrix.of A).det| < s.tol ^ n) :
    ∃ s', factorise (scalars K) pivot s (mat fun i j => c * A i j) = .ok (s', false) := by
  obtain ⟨s', ok, h1, -⟩ := factorise_returns pivot s htol fun i j => c * A i j
  cases ok with
  | false => exact ⟨s', h1⟩
  | true =>
    have := c174_determinant pivot s s' htol _ h1
    have e : (Matrix.of fun i j => c * A i j) = c • Matrix.of A := rfl
    rw [e, Matrix.det_smul, Fintype.card_fin, abs_mul, abs_pow] at this
    exact absurd hc (not_lt.mpr this)

/-- C175 without pivoting: a multiple is accepted exactly if the matrix is accepted with the tolerance divided by the factor. -/
theorem c175_tolerance (s : Lu K) (htol : 0 < s.tol) {n : Nat} (A : Fin n → Fin n → K) (c : K) (hc : c ≠ 0) :
    (∃ s', factorise (scalars K) false s (mat fun i j => c * A i j) = .ok (s', true)) ↔
      ∃ s', factorise (scalars K) false { s with tol := s.tol / |c| } (mat A) = .ok (s', true) := by
  have hc' : 0 < |c| := abs_pos.mpr hc
  have hm : ∀ k (h : k ≤ n), minor (fun i j => c * A i j) k h = c ^ k * minor A k h := fun k h => by
    unfold minor
    have e : (Matrix.of fun r c' : Fin k => c * A (Fin.castLE h r) (Fin.castLE h c')) =
        c • Matrix.of fun r c' : Fin k => A (Fin.castLE h r) (Fin.castLE h c') := rfl
    rw [e, Matrix.det_smul, Fintype.card_fin]
  obtain ⟨s1, ok1, h1, h2⟩ := c174_minors s htol fun i j => c * A i j
  obtain ⟨s2, ok2, h3, h4⟩ := c174_minors { s with tol := s.tol / |c| } (div_pos htol hc') A
  have key : ok1 = true ↔ ok2 = true := by
    rw [h2, h4]
    refine forall_congr' fun k => forall_congr' fun h => ?_
    rw [hm, hm, abs_mul, abs_mul, abs_pow, abs_pow, pow_succ]
    have hp : 0 < |c| ^ k := pow_pos hc' k
    rw [show s.tol * (|c| ^ k * |minor A k h.le|) = (|c| ^ k * |c|) * (s.tol / |c| * |minor A k h.le|) by field_simp]
    exact mul_le_mul_iff_right₀ (mul_pos hp hc')
  rw [h1, h3]
  constructor
  · rintro ⟨s', e⟩
    simp only [Out.ok.injEq, Prod.mk.injEq] at e
    exact ⟨s2, by rw [key.mp e.2]⟩
  · rintro ⟨s', e⟩
    simp only [Out.ok.injEq, Prod.mk.injEq] at e
    exact ⟨s1, by rw [key.mpr e.2]⟩

/-- C175, the part that holds: without pivoting, for factors of absolute value at least one; and if a matrix and a multiple are both
accepted, the solution of the multiple is the solution divided by the factor. -/
theorem c175_larger_partial (s s' : Lu K) (htol : 0 < s.tol) {n : Nat} (A : Fin n → Fin n → K) (c : K) (hc : 1 ≤ |c|)
    (hf : factorise (scalars K) false s (mat A) = .ok (s', true)) :
    ∃ s'', factorise (scalars K) false s (mat fun i j => c * A i j) = .ok (s'', true) := by
  have hc0 : c ≠ 0 := by
    rintro rfl
    rw [abs_zero] at hc
    exact absurd hc (not_le.mpr one_pos)
  have hc' : 0 < |c| := abs_pos.mpr hc0
  rw [c175_tolerance s htol A c hc0]
  obtain ⟨s1, ok1, h1, h2⟩ := c174_minors s htol A
  obtain ⟨s2, ok2, h3, h4⟩ := c174_minors { s with tol := s.tol / |c| } (div_pos htol hc') A
  rw [hf] at h1
  simp only [Out.ok.injEq, Prod.mk.injEq] at h1
  have e : ok2 = true := h4.mpr fun k h => ?_
  · exact ⟨s2, by rw [h3, e]⟩
  refine le_trans (mul_le_mul_of_nonneg_right ?_ (abs_nonneg _)) (h2.mp h1.2.symm k h)
  exact div_le_self htol.le hc

theorem c175_solution_partial (pivot pivot' : Bool) (s t s1 s2 : Lu K) (hs : 0 < s.tol) (ht : 0 < t.tol) {n : Nat} (A : Fin n → Fin n → K)
    (c : K) (hc : c ≠ 0) (h1 : factorise (scalars K) pivot s (mat A) = .ok (s1, true))
    (h2 : factorise (scalars K) pivot' t (mat fun i j => c * A i j) = .ok (s2, true)) (b : Fin n → K) (x0 x1 : List K) :
    ∃ x : Fin n → K, Lu.solve pivot s1 x0 (some (vec b)) = .ok (vec x, true, 1) ∧
      Lu.solve pivot' s2 x1 (some (vec b)) = .ok (vec fun i => x i / c, true, 1) := by
  obtain ⟨x, e1, e2⟩ := c43_solves pivot s s1 hs A h1 b x0
  obtain ⟨y, e3, e4⟩ := c43_solves pivot' t s2 ht _ h2 b x1
  refine ⟨x, e1, ?_⟩
  have hdet := c44_nonsingular pivot s s1 hs A h1
  have hinj : Function.Injective (Matrix.of A).mulVec :=
    Matrix.mulVec_injective_iff_isUnit.mpr ((Matrix.isUnit_iff_isUnit_det _).mpr (Ne.isUnit hdet))
  have : (fun i => c * y i) = x := hinj (funext fun i => by
    show ∑ j, A i j * (c * y j) = ∑ j, A i j * x j
    rw [e2 i, ← e4 i]
    exact Finset.sum_congr rfl fun j _ => by ring)
  rw [e3]
  congr 3
  funext i
  rw [← this]
  field_simp

/-- C175 is violated by a hundredth of the unit matrix and the tolerance one tenth. -/
theorem c175_violated : ¬ C175 := by
  intro h
  obtain ⟨s'', h1⟩ := h true ⟨false, 1 / 10, [], []⟩ ⟨true, 1 / 10, [[1, 0], [0, 1]], [0, 1]⟩ (by norm_num) 2 ![![1, 0], ![0, 1]] (1 / 100)
    (by norm_num) (by decide +kernel)
  obtain ⟨s', h2⟩ := c175_small true ⟨false, 1 / 10, [], []⟩ (by norm_num) ![![1, 0], ![0, 1]] (1 / 100 : ℚ) (by
    rw [Matrix.det_fin_two]
    norm_num)
  rw [h1] at h2
  simp at h2

/-- A matrix that is accepted with the tolerance 1, and its minors. -/
example : factorise (scalars ℚ) false ⟨false, 1, [], []⟩ (mat ![![2, 1], ![4, 5]]) = .ok (⟨true, 1, [[2, 1], [2, 3]], []⟩, true) ∧
    minor ![![2, 1], ![4, (5 : ℚ)]] 1 (by omega) = 2 ∧ minor ![![2, 1], ![4, (5 : ℚ)]] 2 le_rfl = 6 := by
  refine ⟨by decide +kernel, ?_, ?_⟩
  · unfold minor
    rw [Matrix.det_fin_one]
    rfl
  · unfold minor
    rw [Matrix.det_fin_two]
    simp [Fin.castLE]
    norm_num

/-- And a matrix that is not accepted, though its determinant is one: a leading minor is zero. -/
example : (∃ s', factorise (scalars ℚ) false ⟨false, 1, [], []⟩ (mat ![![0, 1], ![-1, 0]]) = .ok (s', false)) ∧
    (Matrix.of ![![0, 1], ![-1, (0 : ℚ)]]).det = 1 := by
  refine ⟨⟨⟨false, 1, [[0, 1], [-1, 0]], []⟩, by decide +kernel⟩, ?_⟩
  rw [Matrix.det_fin_two]
  simp

end Disa.Props
