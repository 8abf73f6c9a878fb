import Verif.Props.Boundary
import Verif.Props.Relax

/-!
# Property C185: systems with given unknowns
-/

namespace Disa.Props

open Disa Spec Graph Disa.Sparse Disa.Dense Iterative

variable {K N : Type} [Field K] [LinearOrder K] [IsStrictOrderedRing K] {F : Scalars K N}

/-- The rows of the given unknowns have no entry besides the one on the diagonal, and what is left of the other rows and columns is
symmetric and positive definite.  The matrix itself need not be symmetric. -/
structure Fixes {n : Nat} (A : Fin n → Fin n → K) (fixed : Fin n → Bool) : Prop where
  diagonal : ∀ i, fixed i = true → A i i ≠ 0
  rows : ∀ i j, fixed i = true → i ≠ j → A i j = 0
  symm : ∀ i j, fixed i = false → fixed j = false → A i j = A j i
  definite : ∀ v : Fin n → K, v ≠ 0 → (∀ i, fixed i = true → v i = 0) → 0 < ∑ i, ∑ j, v i * A i j * v j

section kept

variable {n : Nat} {A : Fin n → Fin n → K} {fixed : Fin n → Bool}

/-- The matrix without the coupling of given and other unknowns. -/
def kept (A : Fin n → Fin n → K) (fixed : Fin n → Bool) (M : K) (i j : Fin n) : K :=
  if fixed i || fixed j then if i = j then M else 0 else A i j

/-- The squares of the given unknowns. -/
def given (fixed : Fin n → Bool) (v : Fin n → K) : K := ∑ i, if fixed i then v i ^ 2 else 0

theorem given_nonneg (v : Fin n → K) : 0 ≤ given fixed v := Finset.sum_nonneg fun i _ => by
  split
  · exact sq_nonneg _
  · exact le_rfl

omit [LinearOrder K] [IsStrictOrderedRing K] in
theorem energy_kept (M : K) (v : Fin n → K) :
    energy (kept A fixed M) v = energy A (fun i => if fixed i then 0 else v i) + M * given fixed v := by
  unfold energy given
  rw [Finset.mul_sum, ← Finset.sum_add_distrib]
  refine Finset.sum_congr rfl fun i _ => ?_
  have h1 : ∀ j, v i * kept A fixed M i j * v j = (if fixed i then 0 else v i) * A i j * (if fixed j then 0 else v j) +
      if j = i then (M * if fixed i then v i ^ 2 else 0) else 0 := by
    intro j
    unfold kept
    by_cases hij : j = i
    · subst hij
      cases fixed j <;> simp <;> ring
    · cases fixed i <;> cases fixed j <;> simp [hij, Ne.symm hij]
  rw [Finset.sum_congr rfl fun j _ => h1 j, Finset.sum_add_distrib, Finset.sum_ite_eq', if_pos (Finset.mem_univ i)]

theorem kept_definite (hA : Fixes A fixed) {M : K} (hM : 0 < M) : PositiveDefinite (kept A fixed M) := by
  refine ⟨fun i j => ?_, fun v hv => ?_⟩
  · unfold kept
    cases hi : fixed i <;> cases hj : fixed j <;> simp [eq_comm (a := i) (b := j)]
    exact hA.symm i j hi hj
  · show 0 < energy (kept A fixed M) v
    rw [energy_kept]
    by_cases h0 : (fun i => if fixed i then 0 else v i) = 0
    · have h1 : energy A (fun i => if fixed i then 0 else v i) = 0 := by rw [h0]; simp [energy]
      rw [h1, zero_add]
      refine mul_pos hM ?_
      have : ∃ i, v i ≠ 0 := by
        by_contra hc
        push Not at hc
        exact hv (funext hc)
      obtain ⟨i, hi⟩ := this
      have hf : fixed i = true := by
        by_contra hc
        have := congrFun h0 i
        simp only [hc, if_false, Bool.false_eq_true] at this
        exact hi this
      have h2 := Finset.single_le_sum (f := fun i => if fixed i then v i ^ 2 else 0) (fun l _ => by
        show (0 : K) ≤ if fixed l then v l ^ 2 else 0
        split
        · exact sq_nonneg _
        · exact le_rfl) (Finset.mem_univ i)
      simp only [hf, if_true] at h2
      exact lt_of_lt_of_le (by positivity) h2
    · have h1 : 0 < energy A (fun i => if fixed i then 0 else v i) := hA.definite _ h0 fun i hi => by simp [hi]
      have := mul_nonneg hM.le (given_nonneg (fixed := fixed) v)
      linarith

omit [LinearOrder K] [IsStrictOrderedRing K] in
theorem kept_given (M : K) {i : Fin n} (hi : fixed i = true) (v : Fin n → K) : ∑ j, kept A fixed M i j * v j = M * v i := by
  rw [Finset.sum_eq_single i]
  · simp [kept, hi]
  · intro j _ hj
    simp [kept, hi, Ne.symm hj]
  · simp

omit [LinearOrder K] [IsStrictOrderedRing K] in
theorem kept_other (M : K) {i : Fin n} (hi : fixed i = false) (v : Fin n → K) :
    ∑ j, A i j * v j = ∑ j, kept A fixed M i j * v j + ∑ j, if fixed j then A i j * v j else 0 := by
  rw [← Finset.sum_add_distrib]
  refine Finset.sum_congr rfl fun j _ => ?_
  by_cases hij : i = j
  · subst hij
    simp [kept, hi]
  · cases hj : fixed j <;> simp [kept, hi, hj, hij]

omit [LinearOrder K] [IsStrictOrderedRing K] in
theorem fixes_given (hA : ∀ i j, fixed i = true → i ≠ j → A i j = 0) {i : Fin n} (hi : fixed i = true) (v : Fin n → K) :
    ∑ j, A i j * v j = A i i * v i := by
  rw [Finset.sum_eq_single i]
  · intro j _ hj
    rw [hA i j hi (Ne.symm hj), zero_mul]
  · simp

theorem fixes_diag (hA : Fixes A fixed) (i : Fin n) : A i i ≠ 0 := by
  cases hi : fixed i with
  | true => exact hA.diagonal i hi
  | false =>
    have := diag_pos (kept_definite hA one_pos) i
    simp only [kept, hi, Bool.or_self, Bool.false_eq_true, if_false] at this
    exact this.ne'

omit [LinearOrder K] [IsStrictOrderedRing K] in
theorem relaxed_sub {omega : K} {b s z : Fin n → K} (hs : Solves A s b) {i : Fin n} (hd : A i i ≠ 0) :
    relaxed A b omega z i - s i = relaxed A 0 omega (fun j => z j - s j) i := by
  have h1 := hs i
  rw [off_add] at h1
  have h2 : Iterative.off A (fun j => z j - s j) i = Iterative.off A z i - Iterative.off A s i := by
    unfold Iterative.off
    rw [← Finset.sum_sub_distrib]
    refine Finset.sum_congr rfl fun j _ => ?_
    split <;> ring
  unfold relaxed
  rw [h2, ← h1, Pi.zero_apply]
  field_simp
  ring

theorem energy_young {B : Fin n → Fin n → K} (hB : PositiveDefinite B) (u v : Fin n → K) {d : K} (hd : 0 < d) :
    energy B (fun i => u i + v i) ≤ (1 + d) * energy B u + (1 + 1 / d) * energy B v := by
  have h1 := energy_line hB.1 u v 1
  have h2 := energy_line hB.1 u v (-(1 / d))
  have h3 := energy_nonneg hB (fun k => u k + -(1 / d) * v k)
  rw [h2] at h3
  simp only [one_mul] at h1
  rw [h1]
  generalize (∑ i, v i * apply B u i) = c at h3
  have h4 : 0 ≤ d * (energy B u + 2 * -(1 / d) * c + (-(1 / d)) ^ 2 * energy B v) := mul_nonneg hd.le h3
  have h5 : d * (energy B u + 2 * -(1 / d) * c + (-(1 / d)) ^ 2 * energy B v) = d * energy B u - 2 * c + 1 / d * energy B v := by
    field_simp
    ring
  rw [h5] at h4
  nlinarith

/-- One sweep reduces the energy of the other unknowns up to what the given ones add. -/
theorem fixes_sweep (hA : Fixes A fixed) (k : Method) : ∃ q C : K, 0 ≤ q ∧ q < 1 ∧ 0 ≤ C ∧ ∀ x y : Fin n → K,
    (∀ i, y i = relaxed A 0 (factor K k) (halfway x y i.1) i) →
      (∀ i, fixed i = true → y i = (1 - factor K k) * x i) ∧
      energy (kept A fixed 1) y ≤ q * energy (kept A fixed 1) x + C * given fixed x := by
  have hB := kept_definite hA one_pos
  obtain ⟨q, hq0, hq1, hq⟩ := exists_reduction hB (factor_range (K := K) k).1 (factor_range k).2
  obtain ⟨c, hc, hbound⟩ := exists_energy_bound hB
  have hd : 0 < (1 - q) / 4 := by linarith
  generalize hdd : (1 - q) / 4 = d at hd
  have hq' : q = 1 - 4 * d := by rw [← hdd]; ring
  set Z : K := ∑ i, c i * ∑ j, A i j ^ 2 with hZ
  have hZ0 : 0 ≤ Z := Finset.sum_nonneg fun i _ => mul_nonneg (hc i).le (Finset.sum_nonneg fun j _ => sq_nonneg _)
  refine ⟨(1 + d) ^ 2 * q, ((1 + d) * q * (1 + 1 / d) + (1 + 1 / d)) * Z, by positivity, ?_, by positivity, fun x y hy => ?_⟩
  · have : d ≤ 1 / 4 := by linarith
    rw [hq']
    nlinarith [mul_pos hd hd, mul_pos (mul_pos hd hd) hd]
  · have hfix : ∀ i, fixed i = true → y i = (1 - factor K k) * x i := by
      intro i hi
      rw [hy i]
      unfold relaxed
      have h0 : Iterative.off A (halfway x y i.1) i = 0 := Finset.sum_eq_zero fun j _ => by
        split
        · rfl
        · rename_i hj
          rw [hA.rows i j hi (Ne.symm hj), zero_mul]
      rw [h0]
      simp [halfway]
    refine ⟨hfix, ?_⟩
    -- the given unknowns as right hand side
    obtain ⟨r, hr⟩ : ∃ r : Fin n → K, r = fun i => if fixed i then 0 else -∑ j, if fixed j then A i j * halfway x y i.1 j else 0 := ⟨_, rfl⟩
    obtain ⟨z, hz⟩ := exists_unit hB r
    have hzs : Solves (kept A fixed 1) z r := hz
    have hnext : ∀ i, y i = relaxed (kept A fixed 1) r (factor K k) (halfway x y i.1) i := by
      intro i
      have h1 : A i i ≠ 0 := fixes_diag hA i
      cases hi : fixed i with
      | true =>
        rw [hfix i hi]
        have h2 := kept_given (A := A) 1 hi (halfway x y i.1)
        rw [off_add] at h2
        have h3 : kept A fixed 1 i i = 1 := by simp [kept, hi]
        rw [h3, add_eq_right] at h2
        unfold relaxed
        rw [h2, h3, hr]
        simp [hi, halfway]
      | false =>
        have h2 := kept_other (A := A) 1 hi (halfway x y i.1)
        rw [off_add, off_add] at h2
        have h3 : kept A fixed 1 i i = A i i := by simp [kept, hi]
        rw [h3] at h2
        have h4 : r i = -∑ j, if fixed j then A i j * halfway x y i.1 j else 0 := by rw [hr]; simp [hi]
        rw [hy i]
        unfold relaxed
        rw [h3, h4, Pi.zero_apply]
        congr 3
        linarith
    have h1 := hq r z x y hzs hnext
    have hez : energy (kept A fixed 1) z ≤ Z * given fixed x := by
      refine (hbound z).trans ?_
      rw [hZ, Finset.sum_mul]
      refine Finset.sum_le_sum fun i _ => ?_
      rw [hz i, mul_assoc]
      refine mul_le_mul_of_nonneg_left ?_ (hc i).le
      cases hi : fixed i with
      | true =>
        rw [hr]
        simp only [hi, if_true]
        rw [zero_pow two_ne_zero]
        exact mul_nonneg (Finset.sum_nonneg fun j _ => sq_nonneg _) (given_nonneg x)
      | false =>
        rw [hr]
        simp only [hi, Bool.false_eq_true, if_false, neg_sq]
        have h2 : (∑ j, if fixed j then A i j * halfway x y i.1 j else 0) = ∑ j, A i j * if fixed j then halfway x y i.1 j else 0 :=
          Finset.sum_congr rfl fun j _ => by split <;> simp
        rw [h2]
        refine (Finset.sum_mul_sq_le_sq_mul_sq _ _ _).trans (mul_le_mul_of_nonneg_left ?_ (Finset.sum_nonneg fun j _ => sq_nonneg _))
        refine Finset.sum_le_sum fun j _ => ?_
        cases hj : fixed j with
        | false => simp
        | true =>
          simp only [if_true]
          unfold halfway
          split
          · rw [hfix j hj, mul_pow]
            have h3 : (1 - factor K k) ^ 2 ≤ 1 := by cases k <;> norm_num [factor]
            nlinarith [sq_nonneg (x j)]
          · exact le_rfl
    have h2 := energy_young hB (fun k => y k - z k) z hd
    have h3 := energy_young hB x (fun k => -z k) hd
    simp only [sub_add_cancel] at h2
    have h4 : energy (kept A fixed 1) (fun k => -z k) = energy (kept A fixed 1) z := by
      unfold energy
      exact Finset.sum_congr rfl fun i _ => Finset.sum_congr rfl fun j _ => by ring
    simp only [← sub_eq_add_neg] at h3
    rw [h4] at h3
    have h5 : energy (kept A fixed 1) (fun k => y k - z k) ≤ q * ((1 + d) * energy (kept A fixed 1) x + (1 + 1 / d) * energy (kept A fixed 1) z) :=
      h1.trans (mul_le_mul_of_nonneg_left h3 hq0)
    have h6 : (1 + d) * energy (kept A fixed 1) (fun k => y k - z k) ≤
        (1 + d) * (q * ((1 + d) * energy (kept A fixed 1) x + (1 + 1 / d) * energy (kept A fixed 1) z)) :=
      mul_le_mul_of_nonneg_left h5 (by linarith)
    have h7 : ((1 + d) * q * (1 + 1 / d) + (1 + 1 / d)) * energy (kept A fixed 1) z ≤
        ((1 + d) * q * (1 + 1 / d) + (1 + 1 / d)) * (Z * given fixed x) := mul_le_mul_of_nonneg_left hez (by positivity)
    linarith

/-- One sweep reduces the energy if the given unknowns count enough. -/
theorem fixes_reduction (hA : Fixes A fixed) (k : Method) : ∃ M q : K, 0 < M ∧ 0 ≤ q ∧ q < 1 ∧ ∀ b sol x y : Fin n → K, Solves A sol b →
    (∀ i, y i = relaxed A b (factor K k) (halfway x y i.1) i) →
      energy (kept A fixed M) (fun i => y i - sol i) ≤ q * energy (kept A fixed M) (fun i => x i - sol i) := by
  obtain ⟨q, C, hq0, hq1, hC, h⟩ := fixes_sweep hA k
  refine ⟨1 + 4 * C, max q (1 / 2), by linarith, le_max_of_le_left hq0, max_lt hq1 (by norm_num), fun b sol x y hs hy => ?_⟩
  obtain ⟨h1, h2⟩ := h (fun i => x i - sol i) (fun i => y i - sol i) (fun i => by
    rw [hy i, relaxed_sub hs (fixes_diag hA i)]
    congr 1
    funext j
    unfold halfway
    split <;> rfl)
  replace h1 : ∀ i, fixed i = true → (fun i => y i - sol i) i = (1 - factor K k) * (fun i => x i - sol i) i := h1
  generalize (fun i => x i - sol i) = e at h1 h2 ⊢
  generalize (fun i => y i - sol i) = e' at h1 h2 ⊢
  have hsplit : ∀ v : Fin n → K, energy (kept A fixed (1 + 4 * C)) v = energy (kept A fixed 1) v + 4 * C * given fixed v := by
    intro v
    rw [energy_kept, energy_kept]
    ring
  rw [hsplit, hsplit]
  have h3 : given fixed e' ≤ 1 / 4 * given fixed e := by
    unfold given
    rw [Finset.mul_sum]
    refine Finset.sum_le_sum fun i _ => ?_
    cases hi : fixed i with
    | false => simp
    | true =>
      simp only [if_true]
      rw [h1 i hi, mul_pow]
      have h4 : (1 - factor K k) ^ 2 ≤ 1 / 4 := by cases k <;> norm_num [factor]
      nlinarith [sq_nonneg (e i)]
  have h4 := energy_nonneg (kept_definite hA one_pos) e
  have h5 := given_nonneg (fixed := fixed) e
  have h6 : q * energy (kept A fixed 1) e ≤ max q (1 / 2) * energy (kept A fixed 1) e := mul_le_mul_of_nonneg_right (le_max_left _ _) h4
  have h7 : 1 / 2 * (4 * C * given fixed e) ≤ max q (1 / 2) * (4 * C * given fixed e) :=
    mul_le_mul_of_nonneg_right (le_max_right _ _) (by positivity)
  have h8 : 4 * C * given fixed e' ≤ 4 * C * (1 / 4 * given fixed e) := mul_le_mul_of_nonneg_left h3 (by linarith)
  linarith

end kept

/-- C185: systems with given unknowns have exactly one solution, and it has the given values. -/
theorem c185_solution {n : Nat} (A : Fin n → Fin n → K) (fixed : Fin n → Bool) (hA : Fixes A fixed) (b : Fin n → K) :
    (∃! x, Solves A x b) ∧ ∀ x, Solves A x b → ∀ i, fixed i = true → x i = b i / A i i := by
  have hB := kept_definite hA one_pos
  have hgiven : ∀ x, Solves A x b → ∀ i, fixed i = true → x i = b i / A i i := by
    intro x hx i hi
    have := hx i
    rw [fixes_given hA.rows hi] at this
    rw [← this]
    field_simp [fixes_diag hA i]
  refine ⟨?_, hgiven⟩
  obtain ⟨z, hz⟩ := exists_unit hB fun i => if fixed i then b i / A i i else b i - ∑ j, if fixed j then A i j * (b j / A j j) else 0
  have hzf : ∀ i, fixed i = true → z i = b i / A i i := by
    intro i hi
    have := hz i
    unfold apply at this
    rw [kept_given 1 hi, one_mul] at this
    simpa [hi] using this
  have hsz : Solves A z b := by
    intro i
    cases hi : fixed i with
    | true =>
      rw [fixes_given hA.rows hi, hzf i hi]
      field_simp [fixes_diag hA i]
    | false =>
      rw [kept_other 1 hi]
      have := hz i
      unfold apply at this
      rw [this]
      simp only [hi, Bool.false_eq_true, if_false]
      have h2 : (∑ j, if fixed j then A i j * z j else 0) = ∑ j, if fixed j then A i j * (b j / A j j) else 0 :=
        Finset.sum_congr rfl fun j _ => by
          split
          · rw [hzf j ‹_›]
          · rfl
      rw [h2]
      ring
  refine ⟨z, hsz, fun y hy => ?_⟩
  by_contra hne
  have h1 : 0 < energy (kept A fixed 1) (fun i => y i - z i) := hB.2 _ fun h0 => hne (funext fun i => by
    have := congrFun h0 i
    simpa [sub_eq_zero] using this)
  have h2 : energy (kept A fixed 1) (fun i => y i - z i) = 0 := by
    rw [energy_eq]
    refine Finset.sum_eq_zero fun i _ => ?_
    cases hi : fixed i with
    | true =>
      have := hgiven y hy i hi
      have := hzf i hi
      simp_all
    | false =>
      have : apply (kept A fixed 1) (fun i => y i - z i) i = 0 := by
        unfold apply
        have h3 := kept_other (A := A) 1 hi (fun i => y i - z i)
        have h4 : (∑ j, if fixed j then A i j * (y j - z j) else 0) = 0 := Finset.sum_eq_zero fun j _ => by
          split
          · rw [hgiven y hy j ‹_›, hzf j ‹_›, sub_self, mul_zero]
          · rfl
        rw [h4, add_zero] at h3
        rw [← h3]
        have e1 := hy i
        have e2 := hsz i
        simp only [mul_sub, Finset.sum_sub_distrib, e1, e2, sub_self]
      rw [this, mul_zero]
  exact absurd h2 h1.ne'

/-- C185: Gauss Seidel and successive over relaxation tend to the one solution from every start. -/
theorem c185_converges {F : Scalars ℝ N} (hF : Exact F) {n : Nat} (m : Sparse ℝ) (A : Fin n → Fin n → ℝ) (h : Square m A)
    (fixed : Fin n → Bool) (hA : Fixes A fixed) (k : Method) (hk : k ≠ .jacobi) (s : FixedPoint ℝ) (b x sol : Fin n → ℝ)
    (hs : Solves A sol b) (w : List ℝ) : TendTo F k s m b x w sol := by
  obtain ⟨M, q, hM, hq0, hq1, hq⟩ := fixes_reduction hA k
  refine tendTo_of_energy (kept_definite hA hM) hq0 hq1 (fun x w hw => ?_) x w (fun h => absurd h hk)
  obtain ⟨y, w', h1, h2, h3⟩ := step_ok hF k s h (fixes_diag hA) b x w hw
  refine ⟨y, w', h1, h2, hq b sol x y hs fun i => ?_⟩
  rw [h3 i, if_neg hk]
  rfl

/-- C185: the given unknowns take their values in one iteration of Gauss Seidel.  Successive over relaxation halves their errors and
changes their signs, so it never reaches them from another start. -/
theorem c185_given (hF : Exact F) {n : Nat} (m : Sparse K) (A : Fin n → Fin n → K) (h : Square m A) (fixed : Fin n → Bool)
    (hA : Fixes A fixed) (s : FixedPoint K) (b x sol : Fin n → K) (hs : Solves A sol b) (w : List K) :
    (∃ (y : Fin n → K) (w' : List K), step F .gaussSeidel s m (vec b) (vec x, w) = .ok (vec y, w') ∧ ∀ i, fixed i = true → y i = sol i) ∧
    ∀ j, ∃ (y : Fin n → K) (w' : List K), times (step F .sor s m (vec b)) j (vec x, w) = .ok (vec y, w') ∧
      ∀ i, fixed i = true → y i - sol i = (-(1 / 2)) ^ j * (x i - sol i) := by
  have key : ∀ (k : Method), k ≠ .jacobi → ∀ (x : Fin n → K) (w : List K), ∃ (y : Fin n → K) (w' : List K),
      step F k s m (vec b) (vec x, w) = .ok (vec y, w') ∧ ∀ i, fixed i = true → y i - sol i = (1 - factor K k) * (x i - sol i) := by
    intro k hk x w
    obtain ⟨y, w', h1, -, h3⟩ := step_ok hF k s h (fixes_diag hA) b x w (fun h => absurd h hk)
    obtain ⟨q, C, -, -, -, h4⟩ := fixes_sweep hA k
    refine ⟨y, w', h1, (h4 (fun i => x i - sol i) (fun i => y i - sol i) fun i => ?_).1⟩
    rw [h3 i, if_neg hk, relaxed_sub hs (fixes_diag hA i)]
    congr 1
    funext j
    show (if j < i then y j else x j) - sol j = if j.1 < i.1 then y j - sol j else x j - sol j
    by_cases hj : j < i
    · rw [if_pos hj, if_pos (show j.1 < i.1 from hj)]
    · rw [if_neg hj, if_neg (show ¬ j.1 < i.1 from hj)]
  constructor
  · obtain ⟨y, w', h1, h2⟩ := key .gaussSeidel (by simp) x w
    refine ⟨y, w', h1, fun i hi => ?_⟩
    have := h2 i hi
    rw [show factor K .gaussSeidel = 1 from rfl, sub_self, zero_mul] at this
    exact sub_eq_zero.mp this
  · intro j
    induction j generalizing x w with
    | zero => exact ⟨x, w, rfl, fun i _ => by simp⟩
    | succ j ih =>
      obtain ⟨y, w', h1, h2⟩ := key .sor (by simp) x w
      obtain ⟨y', w'', h3, h4⟩ := ih y w'
      refine ⟨y', w'', ?_, fun i hi => ?_⟩
      · unfold times
        rw [h1]
        exact h3
      · rw [h4 i hi, h2 i hi, show factor K .sor = 3 / 2 from rfl, pow_succ]
        ring

/-- C185: the rows of any unknowns of a symmetric positive definite system may be replaced by those of the identity. -/
theorem c185_replaced {n : Nat} (A : Fin n → Fin n → K) (hA : PositiveDefinite A) (fixed : Fin n → Bool) :
    Fixes (fun i j => if fixed i then if i = j then 1 else 0 else A i j) fixed := by
  refine ⟨fun i hi => by simp [hi], fun i j hi hij => by simp [hi, hij], fun i j hi hj => by simp [hi, hj, hA.1 i j], fun v hv h0 => ?_⟩
  refine lt_of_lt_of_eq (hA.2 v hv) (Finset.sum_congr rfl fun i _ => Finset.sum_congr rfl fun j _ => ?_)
  cases hi : fixed i with
  | false => simp
  | true => rw [h0 i hi]; simp

/-- C185: the systems of C184 are among them. -/
theorem c185_boundary (g : Graph) (h : Reachable false g) (fixed : Nat → Bool) (A : Fin g.sizeVertex → Fin g.sizeVertex → K)
    (hA : OfBoundary g fixed A) (ha : Anchored g fixed) : Fixes A fun i => fixed i := by
  classical
  refine ⟨fun i hi => ?_, fun i j hi hij => ?_, fun i j hi hj => ?_, fun v hv h0 => ?_⟩
  · rw [(given_others hA hi).2]; exact one_ne_zero
  · rw [hA.given i j hi, if_neg hij]
  · by_cases hij : i = j
    · rw [hij]
    · rw [hA.off i j hi hij, hA.off j i hj (Ne.symm hij)]
      simp only [adj_comm h]
  · -- the form is that of the differences over the edges
    obtain ⟨-, L, -, -, hL, -⟩ := c167_assemble (K := K) g h 0
    have hf := ofGraph_form h hL v
    have he : ∑ i, ∑ j, v i * A i j * v j = ∑ i, ∑ j, v i * L i j * v j := by
      refine Finset.sum_congr rfl fun i _ => ?_
      cases hi : fixed i with
      | true =>
        have := h0 i hi
        simp [this]
      | false =>
        refine Finset.sum_congr rfl fun j _ => ?_
        by_cases hij : i = j
        · subst hij
          obtain ⟨d, h1, -⟩ := degree_sum (K := K) h i
          rw [hA.diagonal i d hi h1, hL.diagonal i d h1, zero_add]
        · rw [hA.off i j hi hij, hL.off i j hij]
    rw [he]
    rw [zero_mul, mul_zero, zero_add] at hf
    have hnn : ∀ i j : Fin g.sizeVertex, (0 : K) ≤ if Adj g i j then (v i - v j) ^ 2 else 0 := fun i j => by
      split
      · exact sq_nonneg _
      · exact le_rfl
    have h1 : (0 : K) ≤ ∑ i : Fin g.sizeVertex, ∑ j : Fin g.sizeVertex, if Adj g i j then (v i - v j) ^ 2 else 0 :=
      Finset.sum_nonneg fun i _ => Finset.sum_nonneg fun j _ => hnn i j
    rcases h1.lt_or_eq with h2 | h2
    · linarith
    · exfalso
      have h3 : ∀ i j : Fin g.sizeVertex, Adj g i j → v i = v j := by
        intro i j hij
        have e1 := (Finset.sum_eq_zero_iff_of_nonneg fun i _ => Finset.sum_nonneg fun j _ => hnn i j).mp h2.symm i (Finset.mem_univ i)
        have e2 := (Finset.sum_eq_zero_iff_of_nonneg fun j _ => hnn i j).mp e1 j (Finset.mem_univ j)
        rw [if_pos hij] at e2
        exact sub_eq_zero.mp (pow_eq_zero_iff two_ne_zero |>.mp e2)
      refine hv (funext fun i => ?_)
      obtain ⟨s, k, hs, hfs, hw⟩ := ha i i.2
      have : ∀ k (i : Fin g.sizeVertex), Walk (Adj g) k s i → v i = 0 := by
        intro k
        induction k with
        | zero =>
          intro i hw
          have : s = i.1 := hw
          exact h0 i (by rw [← this]; exact hfs)
        | succ k ih =>
          rintro i ⟨u, hw, hu⟩
          have hu' := (adj_lt h hu).1
          rw [← h3 ⟨u, hu'⟩ i hu]
          exact ih ⟨u, hu'⟩ hw
      exact this k i hw

/-- C185: so all methods solve the systems of C184. -/
theorem c185_methods {F : Scalars ℝ N} (hF : Exact F) (g : Graph) (h : Reachable false g) (fixed : Nat → Bool) (ha : Anchored g fixed)
    (m : Sparse ℝ) (hm : boundary g fixed = .ok m) (b : Fin g.sizeVertex → ℝ) :
    ∃ (A : Fin g.sizeVertex → Fin g.sizeVertex → ℝ) (sol : Fin g.sizeVertex → ℝ), Square m A ∧ OfBoundary g fixed A ∧ Solves A sol b ∧
      ∀ (k : Method) (s : FixedPoint ℝ) (x : Fin g.sizeVertex → ℝ) (w : List ℝ), (k = .jacobi → w.length = g.sizeVertex) →
        TendTo F k s m b x w sol := by
  obtain ⟨A, sol, h1, h2, h3, -, h4, -⟩ := c184_solvers hF g h fixed ha m hm b
  refine ⟨A, sol, h1, h2, h3, fun k s x w hw => ?_⟩
  by_cases hk : k = .sor
  · exact c185_converges hF m A h1 _ (c185_boundary g h fixed A h2 ha) k (by rw [hk]; simp) s b x sol h3 w
  · exact h4 k hk s x w hw

/-- A matrix that is neither symmetric nor diagonally dominant with its last unknown given. -/
example : Fixes (![![2, -2, 7], ![-2, 3, 0], ![0, 0, -1]] : Fin 3 → Fin 3 → ℚ) ![false, false, true] := by
  refine ⟨fun i hi => ?_, fun i j hi hij => ?_, fun i j hi hj => ?_, fun v hv h0 => ?_⟩
  · fin_cases i <;> simp at hi ⊢
  · fin_cases i <;> fin_cases j <;> simp at hi hij ⊢
  · fin_cases i <;> fin_cases j <;> simp at hi hj ⊢
  · have h2 : v 2 = 0 := h0 2 rfl
    have h3 : v 0 ≠ 0 ∨ v 1 ≠ 0 := by
      by_contra hc
      push Not at hc
      refine hv (funext fun i => ?_)
      fin_cases i
      · exact hc.1
      · exact hc.2
      · exact h2
    simp [Fin.sum_univ_three, h2]
    rcases h3 with h3 | h3
    · nlinarith [sq_nonneg (v 0 - v 1), sq_nonneg (2 * v 0 - 3 * v 1), mul_self_pos.mpr h3]
    · nlinarith [sq_nonneg (v 0 - v 1), sq_nonneg (2 * v 0 - 3 * v 1), mul_self_pos.mpr h3]

/-- The graph `kite` with its ends given meets the hypotheses. -/
example : ∃ (m : Sparse ℝ) (A : Fin kite.sizeVertex → Fin kite.sizeVertex → ℝ), boundary kite ends = .ok m ∧ Square m A ∧
    Fixes A fun i => ends i := by
  obtain ⟨m, A, h1, h2, h3⟩ := c184_assemble (K := ℝ) kite kite_reachable ends
  exact ⟨m, A, h1, h2, c185_boundary kite kite_reachable ends A h3 kite_anchored⟩

end Disa.Props
