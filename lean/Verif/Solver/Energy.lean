import Verif.Solver.Sweep
import Mathlib.Algebra.Order.BigOperators.Ring.Finset
import Mathlib.Tactic.Positivity
import Mathlib.Algebra.BigOperators.Field
import Mathlib.LinearAlgebra.FiniteDimensional.Lemmas
import Mathlib.LinearAlgebra.Matrix.ToLin

/-!
# The energy of the error of in place sweeps for positive definite matrices
-/

namespace Disa.Iterative

open Disa Spec Disa.Dense

variable {K : Type} [Field K] [LinearOrder K] [IsStrictOrderedRing K] {n : Nat} {A : Fin n → Fin n → K}

/-- The energy of an error. -/
def energy (A : Fin n → Fin n → K) (e : Fin n → K) : K := ∑ i, ∑ j, e i * A i j * e j

/-- The product of the matrix and a vector. -/
def apply (A : Fin n → Fin n → K) (e : Fin n → K) (i : Fin n) : K := ∑ j, A i j * e j

omit [LinearOrder K] [IsStrictOrderedRing K] in
theorem energy_eq (e : Fin n → K) : energy A e = ∑ i, e i * apply A e i := by
  unfold energy apply
  simp only [Finset.mul_sum, mul_assoc]

omit [LinearOrder K] [IsStrictOrderedRing K] in
theorem apply_add (e f : Fin n → K) (t : K) (i : Fin n) : apply A (fun k => e k + t * f k) i = apply A e i + t * apply A f i := by
  unfold apply
  rw [Finset.mul_sum, ← Finset.sum_add_distrib]
  exact Finset.sum_congr rfl fun j _ => by ring

omit [LinearOrder K] [IsStrictOrderedRing K] in
theorem apply_symm (hs : ∀ i j, A i j = A j i) (e f : Fin n → K) : ∑ i, e i * apply A f i = ∑ i, f i * apply A e i := by
  unfold apply
  simp only [Finset.mul_sum]
  rw [Finset.sum_comm]
  exact Finset.sum_congr rfl fun j _ => Finset.sum_congr rfl fun i _ => by rw [hs i j]; ring

omit [LinearOrder K] [IsStrictOrderedRing K] in
/-- The energy along a line. -/
theorem energy_line (hs : ∀ i j, A i j = A j i) (e f : Fin n → K) (t : K) :
    energy A (fun k => e k + t * f k) = energy A e + 2 * t * (∑ i, f i * apply A e i) + t ^ 2 * energy A f := by
  rw [energy_eq, energy_eq, energy_eq]
  simp only [apply_add]
  have h1 : ∀ i, (e i + t * f i) * (apply A e i + t * apply A f i) =
      e i * apply A e i + t * (f i * apply A e i) + t * (e i * apply A f i) + t ^ 2 * (f i * apply A f i) := fun i => by ring
  simp only [h1, Finset.sum_add_distrib, ← Finset.mul_sum, apply_symm hs e f]
  ring

omit [LinearOrder K] [IsStrictOrderedRing K] in
theorem sum_unit (f : Fin n → K) (i : Fin n) : ∑ k, (if k = i then (1 : K) else 0) * f k = f i := by
  simp

omit [LinearOrder K] [IsStrictOrderedRing K] in
/-- The energy after a change of one unknown. -/
theorem energy_unit (hs : ∀ i j, A i j = A j i) (e : Fin n → K) (i : Fin n) (t : K) :
    energy A (fun k => if k = i then e k + t else e k) = energy A e + 2 * t * apply A e i + t ^ 2 * A i i := by
  have h := energy_line hs e (fun k => if k = i then 1 else 0) t
  have h1 : (fun k => e k + t * if k = i then (1 : K) else 0) = fun k => if k = i then e k + t else e k := by
    funext k
    by_cases hk : k = i <;> simp [hk]
  rw [h1] at h
  have h2 : energy A (fun k => if k = i then (1 : K) else 0) = A i i := by
    rw [energy_eq (fun k => if k = i then (1 : K) else 0), sum_unit]
    unfold apply
    simp
  rw [h, sum_unit, h2]

theorem energy_nonneg (hA : PositiveDefinite A) (e : Fin n → K) : 0 ≤ energy A e := by
  by_cases h : e = 0
  · subst h; simp [energy]
  · exact (hA.2 e h).le

theorem diag_pos (hA : PositiveDefinite A) (i : Fin n) : 0 < A i i := by
  have := hA.2 (fun k => if k = i then 1 else 0) (fun h => by
    have := congrFun h i
    simp at this)
  simpa using this

/-- Positive definite matrices take some vector to each unit vector. -/
theorem exists_unit (hA : PositiveDefinite A) (b : Fin n → K) : ∃ u, ∀ k, apply A u k = b k := by
  let T : (Fin n → K) →ₗ[K] (Fin n → K) := Matrix.mulVecLin (Matrix.of A)
  have hT : ∀ v i, T v i = apply A v i := fun v i => rfl
  have hinj : Function.Injective T := by
    rw [← LinearMap.ker_eq_bot, Submodule.eq_bot_iff]
    intro v hv
    by_contra hne
    have h1 := hA.2 v hne
    have h2 : energy A v = 0 := by
      rw [energy_eq]
      apply Finset.sum_eq_zero
      intro i _
      rw [← hT, LinearMap.mem_ker.mp hv]
      simp
    exact absurd h2 h1.ne'
  obtain ⟨u, hu⟩ := LinearMap.injective_iff_surjective.mp hinj b
  exact ⟨u, fun k => by rw [← hT, hu]⟩

/-- The energy bounds each component of the error. -/
theorem exists_component (hA : PositiveDefinite A) (i : Fin n) : ∃ c : K, 0 < c ∧ ∀ e : Fin n → K, e i ^ 2 ≤ c * energy A e := by
  obtain ⟨u, hu⟩ := exists_unit hA (fun k => if k = i then 1 else 0)
  have hu1 : energy A u = u i := by
    rw [energy_eq]
    simp only [hu]
    simp
  have hpos : 0 < u i := by
    rw [← hu1]
    apply hA.2
    rintro rfl
    have := hu i
    simp [apply] at this
  refine ⟨u i, hpos, fun e => ?_⟩
  have h1 := energy_nonneg hA (fun k => e k + (-(e i / u i)) * u k)
  rw [energy_line hA.1, hu1, apply_symm hA.1] at h1
  simp only [hu] at h1
  have h2 : ∑ k, e k * (if k = i then (1 : K) else 0) = e i := by simp
  rw [h2] at h1
  have h3 : energy A e + 2 * -(e i / u i) * e i + (-(e i / u i)) ^ 2 * u i = energy A e - e i ^ 2 / u i := by
    field_simp
    ring
  rw [h3, sub_nonneg, div_le_iff₀ hpos] at h1
  linarith [mul_comm (u i) (energy A e)]

/-- The energy is bounded by the squares of the residuals. -/
theorem exists_energy_bound (hA : PositiveDefinite A) :
    ∃ c : Fin n → K, (∀ i, 0 < c i) ∧ ∀ e : Fin n → K, energy A e ≤ ∑ i, c i * apply A e i ^ 2 := by
  choose u hu hb using exists_component hA
  refine ⟨fun i => n * u i, fun i => mul_pos (by have := i.2; exact_mod_cast (by omega : 0 < n)) (hu i), fun e => ?_⟩
  have h1 : ∀ i, e i * apply A e i ≤ energy A e / (2 * n) + n * u i * apply A e i ^ 2 / 2 := by
    intro i
    have hn : (0 : K) < n := by have := i.2; exact_mod_cast (by omega : 0 < n)
    have h2 := hb i e
    have h3 : 0 < (n : K) * u i := mul_pos hn (hu i)
    have h4 := sq_nonneg (e i - n * u i * apply A e i)
    have h5 : 2 * (n * u i) * (e i * apply A e i) ≤ e i ^ 2 + (n * u i) ^ 2 * apply A e i ^ 2 := by nlinarith
    have h6 : 2 * (n * u i) * (e i * apply A e i) ≤ u i * energy A e + (n * u i) ^ 2 * apply A e i ^ 2 := by linarith
    have h7 : energy A e / (2 * n) + n * u i * apply A e i ^ 2 / 2 =
        (u i * energy A e + (n * u i) ^ 2 * apply A e i ^ 2) / (2 * (n * u i)) := by
      have := (hu i).ne'
      field_simp
    rw [h7, le_div_iff₀ (by linarith)]
    linarith
  have h8 : energy A e ≤ ∑ i, (energy A e / (2 * n) + n * u i * apply A e i ^ 2 / 2) := by
    conv_lhs => rw [energy_eq]
    exact Finset.sum_le_sum fun i _ => h1 i
  rw [Finset.sum_add_distrib, Finset.sum_const, Finset.card_univ, Fintype.card_fin, nsmul_eq_mul, ← Finset.sum_div] at h8
  rcases Nat.eq_zero_or_pos n with rfl | hn
  · simp [energy]
  · have hn' : (n : K) ≠ 0 := by exact_mod_cast hn.ne'
    have h9 : (n : K) * (energy A e / (2 * n)) = energy A e / 2 := by field_simp
    rw [h9] at h8
    linarith

/-! ### A sweep -/

/-- The vector while a sweep has updated the first `l` unknowns. -/
def halfway (x y : Fin n → K) (l : Nat) : Fin n → K := fun k => if k.1 < l then y k else x k

omit [LinearOrder K] [IsStrictOrderedRing K] in
theorem halfway_succ (x y : Fin n → K) (i : Fin n) :
    halfway x y (i.1 + 1) = fun k => if k = i then y i else halfway x y i.1 k := by
  funext k
  unfold halfway
  by_cases hk : k = i
  · subst hk; simp
  · have : k.1 ≠ i.1 := fun h => hk (Fin.ext h)
    have e : (k.1 < i.1 + 1) ↔ (k.1 < i.1) := by omega
    simp only [hk, if_false, e]

omit [LinearOrder K] [IsStrictOrderedRing K] in
/-- The change of an unknown, by the residual at that time. -/
theorem change_eq {b s x y : Fin n → K} {omega : K} (hs : Solves A s b) {i : Fin n} (hd : A i i ≠ 0)
    (hy : y i = relaxed A b omega (halfway x y i.1) i) :
    y i - x i = - omega * apply A (fun k => halfway x y i.1 k - s k) i / A i i := by
  have h1 := hs i
  have h2 : apply A (fun k => halfway x y i.1 k - s k) i = (∑ j, A i j * halfway x y i.1 j) - b i := by
    rw [← h1]
    unfold apply
    rw [← Finset.sum_sub_distrib]
    exact Finset.sum_congr rfl fun j _ => by ring
  have h3 : halfway x y i.1 i = x i := by simp [halfway]
  rw [h2, off_add, h3, hy]
  unfold relaxed
  rw [h3]
  field_simp
  ring

omit [LinearOrder K] [IsStrictOrderedRing K] in
theorem energy_sweep (hsym : ∀ i j, A i j = A j i) {b s x y : Fin n → K} {omega : K} (ho : omega ≠ 0) (hs : Solves A s b)
    (hd : ∀ i, A i i ≠ 0) (hy : ∀ i, y i = relaxed A b omega (halfway x y i.1) i) (l : Nat) (hl : l ≤ n) :
    energy A (fun k => halfway x y l k - s k) = energy A (fun k => x k - s k) -
      (2 - omega) / omega * ∑ i : Fin n, if i.1 < l then A i i * (y i - x i) ^ 2 else 0 := by
  induction l with
  | zero => simp [halfway]
  | succ l ih =>
    have hl' : l < n := by omega
    have h1 := halfway_succ x y ⟨l, hl'⟩
    have h2 := change_eq hs (hd ⟨l, hl'⟩) (hy ⟨l, hl'⟩)
    simp only at h1 h2
    have h3 : halfway x y l ⟨l, hl'⟩ = x ⟨l, hl'⟩ := by simp [halfway]
    have h4 : (fun k => halfway x y (l + 1) k - s k) = fun k => if k = ⟨l, hl'⟩ then
        (halfway x y l k - s k) + (y ⟨l, hl'⟩ - x ⟨l, hl'⟩) else halfway x y l k - s k := by
      rw [h1]
      funext k
      by_cases hk : k = ⟨l, hl'⟩
      · subst hk
        simp only [if_true, h3]
        ring
      · simp [hk]
    rw [h4, energy_unit hsym (fun k => halfway x y l k - s k), ih (by omega)]
    have h5 : (∑ i : Fin n, if i.1 < l + 1 then A i i * (y i - x i) ^ 2 else 0) =
        (∑ i : Fin n, if i.1 < l then A i i * (y i - x i) ^ 2 else 0) +
          A ⟨l, hl'⟩ ⟨l, hl'⟩ * (y ⟨l, hl'⟩ - x ⟨l, hl'⟩) ^ 2 := by
      have e : ∀ i : Fin n, (if i.1 < l + 1 then A i i * (y i - x i) ^ 2 else 0) =
          (if i.1 < l then A i i * (y i - x i) ^ 2 else 0) +
            (if i = ⟨l, hl'⟩ then A ⟨l, hl'⟩ ⟨l, hl'⟩ * (y ⟨l, hl'⟩ - x ⟨l, hl'⟩) ^ 2 else 0) := by
        intro i
        by_cases hi : i = ⟨l, hl'⟩
        · subst hi; simp
        · have hi' : i.1 ≠ l := fun h => hi (Fin.ext h)
          have e : (i.1 < l + 1) ↔ (i.1 < l) := by omega
          simp only [e, hi, if_false, add_zero]
      rw [Finset.sum_congr rfl fun i _ => e i, Finset.sum_add_distrib, Finset.sum_ite_eq', if_pos (Finset.mem_univ _)]
    rw [h5]
    have hdl := hd ⟨l, hl'⟩
    have h6 : apply A (fun k => halfway x y l k - s k) ⟨l, hl'⟩ = - A ⟨l, hl'⟩ ⟨l, hl'⟩ * (y ⟨l, hl'⟩ - x ⟨l, hl'⟩) / omega := by
      rw [h2]
      field_simp
    rw [h6]
    field_simp
    ring

/-- Each sweep with a relaxation factor between zero and two reduces the energy of the error by a factor below one that depends
on the matrix and the relaxation factor only. -/
theorem exists_reduction (hA : PositiveDefinite A) {omega : K} (ho : 0 < omega) (ho2 : omega < 2) :
    ∃ q : K, 0 ≤ q ∧ q < 1 ∧ ∀ b s x y : Fin n → K, Solves A s b → (∀ i, y i = relaxed A b omega (halfway x y i.1) i) →
      energy A (fun k => y k - s k) ≤ q * energy A (fun k => x k - s k) := by
  obtain ⟨c, hc, hbound⟩ := exists_energy_bound hA
  have hd : ∀ i, A i i ≠ 0 := fun i => (diag_pos hA i).ne'
  let B : Fin n → Fin n → K := fun i k => if k = i then A i i / omega else if k < i then A i k else 0
  let C : K := ∑ i, c i * ∑ k, B i k ^ 2 / A k k
  have hC : 0 ≤ C := Finset.sum_nonneg fun i _ => mul_nonneg (hc i).le (Finset.sum_nonneg fun k _ =>
    div_nonneg (sq_nonneg _) (diag_pos hA k).le)
  have hg : 0 < (2 - omega) / omega := div_pos (by linarith) ho
  generalize hgdef : (2 - omega) / omega = g at hg
  refine ⟨1 - g / (C + g), ?_, ?_, ?_⟩
  · rw [sub_nonneg, div_le_one (by linarith)]; linarith
  · have : 0 < g / (C + g) := div_pos hg (by linarith)
    linarith
  · intro b s x y hs hy
    have h1 := energy_sweep hA.1 ho.ne' hs hd hy n le_rfl
    have hy' : (fun k => halfway x y n k - s k) = fun k => y k - s k := by
      funext k; simp [halfway]
    rw [hy', hgdef] at h1
    have hD : (∑ i : Fin n, if i.1 < n then A i i * (y i - x i) ^ 2 else 0) = ∑ i, A i i * (y i - x i) ^ 2 :=
      Finset.sum_congr rfl fun i _ => if_pos i.2
    rw [hD] at h1
    have hD0 : 0 ≤ ∑ i, A i i * (y i - x i) ^ 2 := Finset.sum_nonneg fun i _ =>
      mul_nonneg (diag_pos hA i).le (sq_nonneg _)
    -- the residuals before the sweep in terms of the changes
    have h2 : ∀ i, apply A (fun k => x k - s k) i = - ∑ k, B i k * (y k - x k) := by
      intro i
      have h3 := change_eq hs (hd i) (hy i)
      have h4 : apply A (fun k => halfway x y i.1 k - s k) i = apply A (fun k => x k - s k) i +
          ∑ k, if k < i then A i k * (y k - x k) else 0 := by
        unfold apply
        rw [← Finset.sum_add_distrib]
        apply Finset.sum_congr rfl
        intro k _
        show A i k * ((if k.1 < i.1 then y k else x k) - s k) = A i k * (x k - s k) + _
        by_cases hk : k < i
        · rw [if_pos (show k.1 < i.1 from hk), if_pos hk]; ring
        · rw [if_neg (show ¬ k.1 < i.1 from hk), if_neg hk]; ring
      have h5 : ∑ k, B i k * (y k - x k) = A i i / omega * (y i - x i) + ∑ k, if k < i then A i k * (y k - x k) else 0 := by
        have e : ∀ k, B i k * (y k - x k) = (if k = i then A i i / omega * (y i - x i) else 0) +
            (if k < i then A i k * (y k - x k) else 0) := by
          intro k
          show (if k = i then A i i / omega else if k < i then A i k else 0) * (y k - x k) = _
          by_cases hk : k = i
          · subst hk; simp
          · by_cases hk2 : k < i <;> simp [hk, hk2]
        rw [Finset.sum_congr rfl fun k _ => e k, Finset.sum_add_distrib, Finset.sum_ite_eq', if_pos (Finset.mem_univ i)]
      rw [h5]
      have h6 : A i i / omega * (y i - x i) = - apply A (fun k => halfway x y i.1 k - s k) i := by
        rw [h3]
        have := hd i
        have := ho.ne'
        field_simp
      rw [h6, h4]
      ring
    have h7 : ∀ i, apply A (fun k => x k - s k) i ^ 2 ≤ (∑ k, B i k ^ 2 / A k k) * ∑ k, A k k * (y k - x k) ^ 2 := by
      intro i
      rw [h2 i, neg_sq]
      refine Finset.sum_sq_le_sum_mul_sum_of_sq_eq_mul _ (fun k _ => div_nonneg (sq_nonneg _) (diag_pos hA k).le)
        (fun k _ => mul_nonneg (diag_pos hA k).le (sq_nonneg _)) (fun k _ => ?_)
      have := hd k
      field_simp
    have h8 : energy A (fun k => x k - s k) ≤ C * ∑ k, A k k * (y k - x k) ^ 2 := by
      refine (hbound _).trans ?_
      show _ ≤ (∑ i, c i * ∑ k, B i k ^ 2 / A k k) * _
      rw [Finset.sum_mul]
      refine Finset.sum_le_sum fun i _ => ?_
      rw [mul_assoc]
      exact mul_le_mul_of_nonneg_left (h7 i) (hc i).le
    generalize (∑ i, A i i * (y i - x i) ^ 2) = D at h1 h8 hD0
    generalize energy A (fun k => x k - s k) = E at h1 h8
    rw [h1]
    have h9 : E ≤ (C + g) * D := by nlinarith
    have h10 : g / (C + g) * E ≤ g * D := by
      rw [div_mul_eq_mul_div, div_le_iff₀ (by linarith)]
      nlinarith
    linarith

end Disa.Iterative
