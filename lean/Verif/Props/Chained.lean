import Verif.Props.Monotone

/-!
# Property C183: dominant matrices with rows that are not strictly dominant
-/

namespace Disa.Props

open Disa Spec Disa.Dense Iterative

variable {K N : Type} [Field K] [LinearOrder K] [IsStrictOrderedRing K] {F : Scalars K N}

/-- The sum of the other elements of a row. -/
def others {n : Nat} (A : Fin n → Fin n → K) (i : Fin n) : K := ∑ j, if j = i then 0 else |A i j|

/-- No diagonal element is smaller than the sum of the others. -/
def Weak {n : Nat} (A : Fin n → Fin n → K) : Prop := ∀ i, others A i ≤ |A i i|

/-- Elements lead from the row to one that is strictly dominant. -/
inductive Chain {n : Nat} (A : Fin n → Fin n → K) : Fin n → Prop
  | strict {i} : others A i < |A i i| → Chain A i
  | link {i j} : j ≠ i → A i j ≠ 0 → Chain A j → Chain A i

/-- Every row is dominant, and leads to one that is strictly dominant. -/
def Chained {n : Nat} (A : Fin n → Fin n → K) : Prop := Weak A ∧ ∀ i, Chain A i

theorem others_nonneg {n : Nat} (A : Fin n → Fin n → K) (i : Fin n) : 0 ≤ others A i :=
  Finset.sum_nonneg fun j _ => by
    split
    · exact le_rfl
    · exact abs_nonneg _

theorem others_ge {n : Nat} (A : Fin n → Fin n → K) {i j : Fin n} (h : j ≠ i) : |A i j| ≤ others A i := by
  unfold others
  refine le_trans ?_ (Finset.single_le_sum (f := fun j => if j = i then 0 else |A i j|) (fun j _ => ?_) (Finset.mem_univ j))
  · simp [h]
  · split
    · exact le_rfl
    · exact abs_nonneg _

theorem chain_diag {n : Nat} {A : Fin n → Fin n → K} (hA : Weak A) {i : Fin n} (h : Chain A i) : A i i ≠ 0 := by
  intro h0
  have h1 := hA i
  rw [h0, abs_zero] at h1
  cases h with
  | strict h => rw [h0, abs_zero] at h; linarith [others_nonneg A i]
  | @link _ j hj ha _ =>
    have := others_ge A hj
    have := abs_pos.mpr ha
    linarith

theorem off_le {n : Nat} (A : Fin n → Fin n → K) {z : Fin n → K} {i : Fin n} {E : K} (h : ∀ j, |z j| ≤ E) :
    |Iterative.off A z i| ≤ others A i * E := by
  unfold Iterative.off others
  rw [Finset.sum_mul]
  refine (Finset.abs_sum_le_sum_abs _ _).trans (Finset.sum_le_sum fun j _ => ?_)
  by_cases hj : j = i
  · simp [hj]
  · simp only [hj, if_false, abs_mul]
    exact mul_le_mul_of_nonneg_left (h j) (abs_nonneg _)

theorem off_le_link {n : Nat} (A : Fin n → Fin n → K) {z : Fin n → K} {i l : Fin n} (hl : l ≠ i) {E E' : K} (h : ∀ j, |z j| ≤ E)
    (hl' : |z l| ≤ E') : |Iterative.off A z i| ≤ others A i * E - |A i l| * (E - E') := by
  have h1 : |Iterative.off A z i| ≤ ∑ j, ((if j = i then 0 else |A i j|) * E - if j = l then |A i l| * (E - E') else 0) := by
    unfold Iterative.off
    refine (Finset.abs_sum_le_sum_abs _ _).trans (Finset.sum_le_sum fun j _ => ?_)
    by_cases hj : j = i
    · subst hj
      simp [Ne.symm hl]
    · by_cases hjl : j = l
      · subst hjl
        simp only [hj, if_false, if_true, abs_mul]
        have := mul_le_mul_of_nonneg_left hl' (abs_nonneg (A i j))
        linarith
      · simp only [hj, hjl, if_false, abs_mul, sub_zero]
        exact mul_le_mul_of_nonneg_left (h j) (abs_nonneg _)
  rw [Finset.sum_sub_distrib, ← Finset.sum_mul] at h1
  simpa [others] using h1

/-- The errors of a method: the iterates for the right hand side zero. -/
def Errors {n : Nat} (A : Fin n → Fin n → K) (k : Method) (es : Nat → Fin n → K) : Prop := ∀ j, Next A 0 k (es j) (es (j + 1))

omit [LinearOrder K] [IsStrictOrderedRing K] in
theorem errors_shift {n : Nat} {A : Fin n → Fin n → K} {k : Method} {es : Nat → Fin n → K} (h : Errors A k es) (t : Nat) :
    Errors A k fun j => es (t + j) := fun j => h (t + j)

theorem next_value {n : Nat} {A : Fin n → Fin n → K} {k : Method} (hk : k ≠ .sor) {x y : Fin n → K} (h : Next A 0 k x y) (i : Fin n) :
    ∃ z : Fin n → K, y i = -Iterative.off A z i / A i i ∧ ∀ j, z j = x j ∨ (j < i ∧ z j = y j) := by
  refine ⟨if k = .jacobi then x else fun j => if j < i then y j else x j, ?_, fun j => ?_⟩
  · have := h i
    rw [factor_one_of hk] at this
    rw [this]
    unfold relaxed
    simp only [Pi.zero_apply, zero_sub, one_mul, sub_self, zero_mul, add_zero]
  · show (if k = .jacobi then x else fun j => if j < i then y j else x j) j = x j ∨ _ ∧
      (if k = .jacobi then x else fun j => if j < i then y j else x j) j = y j
    split
    · exact .inl rfl
    · simp only
      split
      · rename_i hj; exact .inr ⟨hj, rfl⟩
      · exact .inl rfl

theorem next_bound {n : Nat} {A : Fin n → Fin n → K} (hA : Weak A) (hd : ∀ i, A i i ≠ 0) {k : Method} (hk : k ≠ .sor)
    {x y : Fin n → K} (h : Next A 0 k x y) {E : K} (hx : ∀ i, |x i| ≤ E) (i : Fin n) : |y i| ≤ E := by
  refine fin_strong (p := fun i => |y i| ≤ E) (fun i ih => ?_) i
  obtain ⟨z, h1, h2⟩ := next_value hk h i
  have hz : ∀ j, |z j| ≤ E := fun j => by
    rcases h2 j with h | ⟨h, h'⟩
    · rw [h]; exact hx j
    · rw [h']; exact ih j h
  rw [h1, abs_div, abs_neg, div_le_iff₀ (abs_pos.mpr (hd i))]
  have hE : 0 ≤ E := (abs_nonneg _).trans (hx i)
  refine (off_le A hz).trans ?_
  rw [mul_comm E]
  exact mul_le_mul_of_nonneg_right (hA i) hE

theorem errors_bound {n : Nat} {A : Fin n → Fin n → K} (hA : Weak A) (hd : ∀ i, A i i ≠ 0) {k : Method} (hk : k ≠ .sor)
    {es : Nat → Fin n → K} (h : Errors A k es) {E : K} (hE : ∀ i, |es 0 i| ≤ E) (j : Nat) : ∀ i, |es j i| ≤ E := by
  induction j with
  | zero => exact hE
  | succ j ih => exact next_bound hA hd hk (h j) ih

/-- The errors of an unknown that leads to a strictly dominant row become smaller, by a factor that depends on the matrix only. -/
theorem chain_decays {n : Nat} {A : Fin n → Fin n → K} (hA : Weak A) (hd : ∀ i, A i i ≠ 0) {k : Method} (hk : k ≠ .sor) {i : Fin n}
    (hi : Chain A i) : ∃ (q : K) (D : Nat), 0 ≤ q ∧ q < 1 ∧ ∀ es, Errors A k es → ∀ E, (∀ i, |es 0 i| ≤ E) → ∀ j, D ≤ j →
      |es j i| ≤ q * E := by
  induction hi with
  | @strict i hi =>
    have hp := abs_pos.mpr (hd i)
    refine ⟨others A i / |A i i|, 1, div_nonneg (others_nonneg A i) hp.le, (div_lt_one hp).mpr hi, fun es hes E hE j hj => ?_⟩
    obtain ⟨j, rfl⟩ : ∃ t, j = t + 1 := ⟨j - 1, by omega⟩
    have hb := errors_bound hA hd hk hes hE
    obtain ⟨z, h1, h2⟩ := next_value hk (hes j) i
    have hz : ∀ l, |z l| ≤ E := fun l => by
      rcases h2 l with h | ⟨_, h⟩ <;> rw [h]
      · exact hb j l
      · exact hb (j + 1) l
    rw [h1, abs_div, abs_neg, div_mul_eq_mul_div]
    exact div_le_div_of_nonneg_right (off_le A hz) hp.le
  | @link i l hl ha _ ih =>
    obtain ⟨q, D, hq0, hq1, hq⟩ := ih
    have hp := abs_pos.mpr (hd i)
    have hal := abs_pos.mpr ha
    have hle : |A i l| ≤ |A i i| := (others_ge A hl).trans (hA i)
    refine ⟨1 - |A i l| * (1 - q) / |A i i|, D + 1, ?_, ?_, fun es hes E hE j hj => ?_⟩
    · rw [sub_nonneg, div_le_one hp]
      nlinarith
    · have : 0 < |A i l| * (1 - q) / |A i i| := div_pos (mul_pos hal (by linarith)) hp
      linarith
    obtain ⟨j, rfl⟩ : ∃ t, j = t + 1 := ⟨j - 1, by omega⟩
    have hb := errors_bound hA hd hk hes hE
    obtain ⟨z, h1, h2⟩ := next_value hk (hes j) i
    have hz : ∀ l, |z l| ≤ E := fun l => by
      rcases h2 l with h | ⟨_, h⟩ <;> rw [h]
      · exact hb j l
      · exact hb (j + 1) l
    have hz' : |z l| ≤ q * E := by
      rcases h2 l with h | ⟨_, h⟩ <;> rw [h]
      · exact hq es hes E hE j (by omega)
      · exact hq es hes E hE (j + 1) (by omega)
    have hE0 : 0 ≤ E := (abs_nonneg _).trans (hE i)
    rw [h1, abs_div, abs_neg, div_le_iff₀ hp]
    refine (off_le_link A hl hz hz').trans ?_
    have e : (1 - |A i l| * (1 - q) / |A i i|) * E * |A i i| = |A i i| * E - |A i l| * (E - q * E) := by
      field_simp
    rw [e]
    have := mul_le_mul_of_nonneg_right (hA i) hE0
    linarith

theorem chained_decays {n : Nat} {A : Fin n → Fin n → K} (hA : Chained A) {k : Method} (hk : k ≠ .sor) :
    ∃ (q : K) (D : Nat), 0 ≤ q ∧ q < 1 ∧ ∀ es, Errors A k es → ∀ E, (∀ i, |es 0 i| ≤ E) → ∀ j, D ≤ j → ∀ i, |es j i| ≤ q * E := by
  have hd := fun i => chain_diag hA.1 (hA.2 i)
  choose q D hq0 hq1 hq using fun i => chain_decays hA.1 hd hk (hA.2 i)
  rcases Nat.eq_zero_or_pos n with rfl | hn
  · exact ⟨0, 0, le_rfl, zero_lt_one, fun _ _ _ _ _ _ i => i.elim0⟩
  · have : Nonempty (Fin n) := ⟨⟨0, hn⟩⟩
    obtain ⟨a, ha⟩ := Finite.exists_max q
    obtain ⟨c, hc⟩ := Finite.exists_max D
    refine ⟨q a, D c, hq0 a, hq1 a, fun es hes E hE j hj i => (hq i es hes E hE j ((hc i).trans hj)).trans ?_⟩
    exact mul_le_mul_of_nonneg_right (ha i) ((abs_nonneg _).trans (hE i))

theorem errors_power {n : Nat} {A : Fin n → Fin n → K} {k : Method} {q : K} {D : Nat} (hq : ∀ es, Errors A k es → ∀ E, (∀ i, |es 0 i| ≤ E) →
    ∀ j, D ≤ j → ∀ i, |es j i| ≤ q * E) {es : Nat → Fin n → K} (h : Errors A k es) {E : K} (hE : ∀ i, |es 0 i| ≤ E) (t : Nat) :
    ∀ j, D * (t + 1) ≤ j → ∀ i, |es j i| ≤ q ^ (t + 1) * E := by
  induction t with
  | zero => intro j hj; rw [zero_add, pow_one]; exact hq es h E hE j (by omega)
  | succ t ih =>
    intro j hj i
    have h1 := hq (fun j => es (D * (t + 1) + j)) (errors_shift h _) (q ^ (t + 1) * E) (fun i => ih _ (by omega) i)
      (j - D * (t + 1)) (by rw [Nat.mul_succ] at hj; omega) i
    have h2 : D * (t + 1) + (j - D * (t + 1)) = j := by rw [Nat.mul_succ] at hj; omega
    simp only [h2] at h1
    rw [pow_succ' q (t + 1), mul_assoc]
    exact h1

/-- The errors of iterates. -/
theorem next_error {n : Nat} {A : Fin n → Fin n → K} (hd : ∀ i, A i i ≠ 0) {k : Method} (hk : k ≠ .sor) {b sol x y : Fin n → K}
    (hs : Solves A sol b) (h : Next A b k x y) : Next A 0 k (fun i => x i - sol i) (fun i => y i - sol i) := by
  intro i
  show y i - sol i = _
  rw [h i, factor_one_of hk, relaxed_error A b sol _ hs (hd i)]
  unfold relaxed
  simp only [Pi.zero_apply, zero_sub, one_mul, sub_self, zero_mul, add_zero]
  congr 2
  congr 1
  funext j
  split
  · rfl
  · simp only
    split <;> rfl

theorem solution_next {n : Nat} {A : Fin n → Fin n → K} (hd : ∀ i, A i i ≠ 0) {v : Fin n → K} (hv : Solves A v 0) :
    Next A 0 .jacobi v v := by
  intro i
  have h1 := hv i
  rw [off_add] at h1
  simp only [if_true, factor]
  unfold relaxed
  simp only [Pi.zero_apply] at h1 ⊢
  have := hd i
  field_simp
  linear_combination h1

theorem one_square : Square (⟨[0, 1], [0], [1], 1⟩ : Sparse ℝ) (fun _ _ : Fin 1 => (1 : ℝ)) :=
  ⟨Built.ofLists (nz := [0, 1]) (ix := [0]) (vs := [1]) (c := 1) (by simp [sizeMax]) (by simp [sizeMax])
    (by simp [Sparse.ofLists, loop, Sparse.listBody, rd, slice, overwrite, assert]), rfl, rfl,
    fun i j => by fin_cases i; fin_cases j; rfl⟩

theorem chained_injective {n : Nat} {A : Fin n → Fin n → K} (hA : Chained A) {v : Fin n → K} (hv : Solves A v 0) : v = 0 := by
  have hd := fun i => chain_diag hA.1 (hA.2 i)
  obtain ⟨q, D, hq0, hq1, hq⟩ := chained_decays hA (k := .jacobi) (by simp)
  funext i
  have : Nonempty (Fin n) := ⟨i⟩
  obtain ⟨a, ha⟩ := Finite.exists_max fun i => |v i|
  have h1 := hq (fun _ => v) (fun _ => solution_next hd hv) |v a| ha D le_rfl a
  have h2 : |v a| ≤ 0 := by nlinarith [abs_nonneg (v a)]
  exact abs_nonpos_iff.mp ((ha i).trans h2)

/-- C183: such a system has exactly one solution. -/
theorem c183_solution {n : Nat} (A : Fin n → Fin n → K) (hA : Chained A) (b : Fin n → K) : ∃! x, Solves A x b := by
  let T : (Fin n → K) →ₗ[K] (Fin n → K) := Matrix.mulVecLin (Matrix.of A)
  have hT : ∀ v i, T v i = ∑ j, A i j * v j := fun v i => rfl
  have hinj : Function.Injective T := by
    rw [← LinearMap.ker_eq_bot, Submodule.eq_bot_iff]
    intro v hv
    refine chained_injective hA fun i => ?_
    rw [← hT]
    exact congrFun (LinearMap.mem_ker.mp hv) i
  obtain ⟨x, hx⟩ := (LinearMap.injective_iff_surjective.mp hinj) b
  refine ⟨x, fun i => by rw [← hT, hx], fun y hy => hinj ?_⟩
  rw [hx]
  funext i
  exact hy i

/-- C183: no iteration of Jacobi or Gauss Seidel makes the largest error larger, and a number of iterations that depends on the
matrix only makes it smaller by a factor that depends on the matrix only. -/
theorem c183_errors (hF : Exact F) {n : Nat} (m : Sparse K) (A : Fin n → Fin n → K) (h : Square m A) (hA : Chained A) (k : Method)
    (hk : k ≠ .sor) :
    ∃ (q : K) (D : Nat), 0 ≤ q ∧ q < 1 ∧ ∀ (s : FixedPoint K) (b sol x : Fin n → K) (w : List K), Solves A sol b →
      (k = .jacobi → w.length = n) → ∃ xs : Nat → Fin n → K, xs 0 = x ∧
        (∀ j, ∃ w', times (step F k s m (vec b)) j (vec x, w) = .ok (vec (xs j), w')) ∧
        ∀ (j : Nat) (E : K), (∀ i, |xs j i - sol i| ≤ E) → (∀ i, |xs (j + 1) i - sol i| ≤ E) ∧
          ∀ t l, D * t ≤ l → ∀ i, |xs (j + l) i - sol i| ≤ q ^ t * E := by
  have hd := fun i => chain_diag hA.1 (hA.2 i)
  obtain ⟨q, D, hq0, hq1, hq⟩ := chained_decays hA hk
  refine ⟨q, D, hq0, hq1, fun s b sol x w hs hw => ?_⟩
  obtain ⟨xs, h1, h2, h3⟩ := iterates_next hF k s h hd b x w hw
  have he : Errors A k fun j i => xs j i - sol i := fun j => next_error hd hk hs (h3 j)
  refine ⟨xs, h1, h2, fun j E hE => ⟨next_bound hA.1 hd hk (he j) hE, fun t l hl i => ?_⟩⟩
  have hj := errors_shift he j
  cases t with
  | zero =>
    rw [pow_zero, one_mul]
    exact errors_bound hA.1 hd hk hj hE l i
  | succ t => exact errors_power hq hj hE t l hl i

/-- C183: Jacobi and Gauss Seidel converge to the solution from every start. -/
theorem c183_converges {F : Scalars ℝ N} (hF : Exact F) {n : Nat} (m : Sparse ℝ) (A : Fin n → Fin n → ℝ) (h : Square m A)
    (hA : Chained A) (k : Method) (hk : k ≠ .sor) (s : FixedPoint ℝ) (b x sol : Fin n → ℝ) (hs : Solves A sol b) (w : List ℝ)
    (hw : k = .jacobi → w.length = n) : TendTo F k s m b x w sol := by
  obtain ⟨q, D, hq0, hq1, hq⟩ := c183_errors hF m A h hA k hk
  obtain ⟨xs, h1, h2, h3⟩ := hq s b sol x w hs hw
  refine ⟨xs, h2, fun ε hε => ?_⟩
  have hE : ∀ i, |xs 0 i - sol i| ≤ ∑ l, |xs 0 l - sol l| := fun i =>
    Finset.single_le_sum (f := fun l => |xs 0 l - sol l|) (fun l _ => abs_nonneg _) (Finset.mem_univ i)
  have hE0 : 0 ≤ ∑ l, |xs 0 l - sol l| := Finset.sum_nonneg fun l _ => abs_nonneg _
  generalize (∑ l, |xs 0 l - sol l|) = E at hE hE0
  obtain ⟨J, hJ⟩ := exists_pow_lt_of_lt_one (show 0 < ε / (E + 1) by positivity) hq1
  refine ⟨D * J, fun j hj i => lt_of_le_of_lt (by simpa using (h3 0 E hE).2 J j hj i) ?_⟩
  have h5 : q ^ J * (E + 1) < ε := by rwa [lt_div_iff₀ (by positivity)] at hJ
  have h6 : 0 ≤ q ^ J := pow_nonneg hq0 J
  nlinarith

/-- The sum of a row of a matrix without positive elements off the diagonal. -/
theorem sum_signed {n : Nat} {A : Fin n → Fin n → K} (hA : Signed A) (c : Fin n) : ∑ j, A c j = |A c c| - others A c := by
  unfold others
  rw [abs_of_pos (hA.1 c), ← Finset.add_sum_erase _ _ (Finset.mem_univ c), sub_eq_add_neg, ← Finset.sum_neg_distrib,
    ← Finset.add_sum_erase (Finset.univ) (fun j => -(if j = c then 0 else |A c j|)) (Finset.mem_univ c)]
  rw [if_pos rfl, neg_zero, zero_add]
  congr 1
  refine Finset.sum_congr rfl fun j hj => ?_
  have hj := Finset.ne_of_mem_erase hj
  rw [if_neg hj, abs_of_nonpos (hA.2 c j (Ne.symm hj)), neg_neg]

/-- C183: if the other elements are not positive and the diagonal is, the chains are needed: without them there are right hand
sides without solution. -/
theorem c183_exactly {n : Nat} (A : Fin n → Fin n → K) (hA : Signed A) (hw : Weak A) :
    Chained A ↔ ∀ b, ∃ x, Solves A x b := by
  classical
  refine ⟨fun h b => (c183_solution A h b).exists, fun h => ⟨hw, ?_⟩⟩
  by_contra hc
  push Not at hc
  obtain ⟨u, hu⟩ := hc
  obtain ⟨x, hx⟩ := h fun i => if Chain A i then 0 else 1
  obtain ⟨c, hcm, hmin⟩ := Finset.exists_min_image (Finset.univ.filter fun i => ¬ Chain A i) x ⟨u, by simpa using hu⟩
  have hcc : ¬ Chain A c := by simpa using hcm
  have hsum : ∑ j, A c j = 0 := by
    have h1 : others A c = |A c c| := le_antisymm (hw c) (not_lt.mp fun h => hcc (.strict h))
    rw [sum_signed hA, h1, sub_self]
  have h1 := hx c
  simp only [if_neg hcc] at h1
  have h2 : ∑ j, A c j * x j ≤ ∑ j, A c j * x c := by
    refine Finset.sum_le_sum fun j _ => ?_
    by_cases hj : j = c
    · rw [hj]
    · by_cases h0 : A c j = 0
      · rw [h0, zero_mul, zero_mul]
      · refine mul_le_mul_of_nonpos_left (hmin j ?_) (hA.2 c j (Ne.symm hj))
        simp only [Finset.mem_filter, Finset.mem_univ, true_and]
        exact fun hcj => hcc (.link hj h0 hcj)
  rw [← Finset.sum_mul, hsum, zero_mul, h1] at h2
  linarith

theorem chain_above {n : Nat} {A : Fin n → Fin n → K} (hA : Signed A) (hw : Weak A) {z : Fin n → K} {a : K} (ha : a < 0)
    (hz : ∀ i, a ≤ z i) (h : ∀ i, 0 ≤ ∑ j, A i j * z j) {i : Fin n} (hi : Chain A i) : a < z i := by
  have key : ∀ i l : Fin n, l ≠ i → z i = a → ∑ j, A i j * z j ≤ a * (∑ j, A i j) + A i l * (z l - a) := by
    intro i l hl hi
    have : ∑ j, A i j * z j = a * (∑ j, A i j) + ∑ j, A i j * (z j - a) := by
      rw [Finset.mul_sum, ← Finset.sum_add_distrib]
      exact Finset.sum_congr rfl fun j _ => by ring
    have e := Finset.add_sum_erase Finset.univ (fun j => A i j * (z j - a)) (Finset.mem_univ l)
    have h2 : ∑ j ∈ Finset.univ.erase l, A i j * (z j - a) ≤ 0 := Finset.sum_nonpos fun j _ => by
      by_cases hj : j = i
      · rw [hj, hi, sub_self, mul_zero]
      · exact mul_nonpos_of_nonpos_of_nonneg (hA.2 i j (Ne.symm hj)) (by linarith [hz j])
    linarith
  refine lt_of_le_of_ne (hz i) fun he => ?_
  induction hi with
  | @strict i hi =>
    have h1 : ∑ j, A i j * z j ≤ a * ∑ j, A i j := by
      have : ∑ j, A i j * z j = a * (∑ j, A i j) + ∑ j, A i j * (z j - a) := by
        rw [Finset.mul_sum, ← Finset.sum_add_distrib]
        exact Finset.sum_congr rfl fun j _ => by ring
      have h2 : ∑ j, A i j * (z j - a) ≤ 0 := Finset.sum_nonpos fun j _ => by
        by_cases hj : j = i
        · rw [hj, ← he, sub_self, mul_zero]
        · exact mul_nonpos_of_nonpos_of_nonneg (hA.2 i j (Ne.symm hj)) (by linarith [hz j])
      linarith
    rw [sum_signed hA] at h1
    have := h i
    nlinarith
  | @link i l hl h0 _ ih =>
    have h1 := key i l hl he.symm
    have h2 : a < z l := lt_of_le_of_ne (hz l) fun h => ih h
    have h3 : A i l < 0 := lt_of_le_of_ne (hA.2 i l (Ne.symm hl)) h0
    have h4 : 0 ≤ ∑ j, A i j := by rw [sum_signed hA]; linarith [hw i]
    have := h i
    nlinarith [mul_neg_of_neg_of_pos h3 (sub_pos.mpr h2)]

/-- C183: if no element off the diagonal is positive, a larger right hand side has a larger solution. -/
theorem c183_compare {n : Nat} (A : Fin n → Fin n → K) (hA : Signed A) (hc : Chained A) (x y b c : Fin n → K) (hx : Solves A x b)
    (hy : Solves A y c) (h : ∀ i, b i ≤ c i) (i : Fin n) : x i ≤ y i := by
  have : Nonempty (Fin n) := ⟨i⟩
  obtain ⟨k, hk⟩ := Finite.exists_min fun i => y i - x i
  by_contra hlt
  have h0 : y k - x k < 0 := lt_of_le_of_lt (hk i) (by linarith)
  refine absurd (chain_above hA hc.1 h0 hk (fun i => ?_) (hc.2 k)) (lt_irrefl _)
  have e : ∑ j, A i j * (y j - x j) = c i - b i := by
    rw [← hx i, ← hy i, ← Finset.sum_sub_distrib]
    exact Finset.sum_congr rfl fun j _ => by ring
  rw [e]
  linarith [h i]

/-- C183: if the right hand side lies between the products of the matrix with two constant vectors, the solution lies between the
constants. -/
theorem c183_between {n : Nat} (A : Fin n → Fin n → K) (hA : Signed A) (hc : Chained A) (x b : Fin n → K) (hx : Solves A x b)
    (lo hi : K) (hb : ∀ i, (∑ j, A i j) * lo ≤ b i ∧ b i ≤ (∑ j, A i j) * hi) (i : Fin n) : lo ≤ x i ∧ x i ≤ hi :=
  ⟨c183_compare A hA hc (fun _ => lo) x _ b (fun _ => (Finset.sum_mul _ _ _).symm) hx (fun i => (hb i).1) i,
    c183_compare A hA hc x (fun _ => hi) b _ hx (fun _ => (Finset.sum_mul _ _ _).symm) (fun i => (hb i).2) i⟩

/-- C183: then also the iterates of Jacobi and Gauss Seidel stay between the constants if they start there, whether the matrix is
dominant or not. -/
theorem c183_box (hF : Exact F) (k : Method) (hk : k ≠ .sor) (s : FixedPoint K) {n : Nat} (m : Sparse K) (A : Fin n → Fin n → K)
    (h : Square m A) (hA : Signed A) (b x : Fin n → K) (w : List K) (hw : k = .jacobi → w.length = n) (lo hi : K)
    (hb : ∀ i, (∑ j, A i j) * lo ≤ b i ∧ b i ≤ (∑ j, A i j) * hi) (hx : ∀ i, lo ≤ x i ∧ x i ≤ hi) (j : Nat) :
    ∃ (y : Fin n → K) (w' : List K), times (step F k s m (vec b)) j (vec x, w) = .ok (vec y, w') ∧ ∀ i, lo ≤ y i ∧ y i ≤ hi := by
  obtain ⟨xs, h1, h2, h3⟩ := iterates_next hF k s h (fun i => (hA.1 i).ne') b x w hw
  obtain ⟨w', e⟩ := h2 j
  refine ⟨xs j, w', e, ?_⟩
  clear e
  have hlo : ∀ i, ∑ l, A i l * lo ≤ b i := fun i => by rw [← Finset.sum_mul]; exact (hb i).1
  have hhi : ∀ i, b i ≤ ∑ l, A i l * hi := fun i => by rw [← Finset.sum_mul]; exact (hb i).2
  obtain ⟨ls, l1, -, l3⟩ := iterates_next hF k s h (fun i => (hA.1 i).ne') b (fun _ => lo) w hw
  obtain ⟨us, u1, -, u3⟩ := iterates_next hF k s h (fun i => (hA.1 i).ne') b (fun _ => hi) w hw
  have hl := (next_rises hA hk (l3 0) (by rw [l1]; exact hlo)).1
  have hu := (next_falls hA hk (u3 0) (by rw [u1]; exact hhi)).1
  rw [l1] at hl
  rw [u1] at hu
  induction j with
  | zero => rw [h1]; exact hx
  | succ j ih =>
    intro i
    exact ⟨(hl i).trans (next_mono hA hk (fun _ => le_rfl) (by rw [l1]; exact fun i => (ih i).1) (l3 0) (h3 j) i),
      (next_mono hA hk (fun _ => le_rfl) (by rw [u1]; exact fun i => (ih i).2) (h3 j) (u3 0) i).trans (hu i)⟩

/-- C183: successive over relaxation leaves the bounds. -/
theorem c183_overshoots (s : FixedPoint ℝ) : ∃ w', Iterative.step reals .sor s (⟨[0, 1], [0], [1], 1⟩ : Sparse ℝ)
    (vec fun _ : Fin 1 => (1 : ℝ)) (vec fun _ : Fin 1 => (0 : ℝ), []) = .ok (vec fun _ : Fin 1 => (3 / 2 : ℝ), w') := by
  obtain ⟨y, w', h1, -, h2⟩ := step_ok (F := reals) ⟨rfl, rfl⟩ .sor s one_square
    (by intro i; simp) (fun _ => 1) (fun _ => 0) [] (by simp)
  refine ⟨w', ?_⟩
  rw [h1, Out.ok.injEq, Prod.mk.injEq, vec_inj]
  refine ⟨?_, rfl⟩
  funext i
  rw [h2 i]
  simp [relaxed, off, factor]

open Lu in
/-- C183: the direct solver gives the solution if it accepts the matrix. -/
theorem c183_direct (pivot : Bool) (d d' : Lu K) (htol : 0 < d.tol) {n : Nat} (A : Fin n → Fin n → K) (hA : Chained A)
    (hf : factorise (scalars K) pivot d (mat A) = .ok (d', true)) (b sol : Fin n → K) (hs : Solves A sol b) (x0 : List K) :
    Lu.solve pivot d' x0 (some (vec b)) = .ok (vec sol, true, 1) := by
  obtain ⟨y, h1, h2⟩ := c43_solves pivot d d' htol A hf b x0
  rw [h1, (c183_solution A hA b).unique h2 hs]

/-- The hypotheses hold for the matrix of a line with fixed ends, which is not strictly dominant. -/
example : Chained (![![2, -1, 0], ![-1, 2, -1], ![0, -1, 2]] : Fin 3 → Fin 3 → ℝ) ∧
    Signed (![![2, -1, 0], ![-1, 2, -1], ![0, -1, 2]] : Fin 3 → Fin 3 → ℝ) ∧
    ¬ Dominant (![![2, -1, 0], ![-1, 2, -1], ![0, -1, 2]] : Fin 3 → Fin 3 → ℝ) := by
  have e : ∀ i : Fin 3, others (![![2, -1, 0], ![-1, 2, -1], ![0, -1, 2]] : Fin 3 → Fin 3 → ℝ) i = if i = 1 then 2 else 1 := by
    intro i
    fin_cases i <;> simp [others, Fin.sum_univ_three] <;> norm_num
  have h0 : Chain (![![2, -1, 0], ![-1, 2, -1], ![0, -1, 2]] : Fin 3 → Fin 3 → ℝ) 0 := .strict (by rw [e]; norm_num)
  refine ⟨⟨fun i => ?_, fun i => ?_⟩, ⟨fun i => ?_, fun i j hij => ?_⟩, fun h => ?_⟩
  · rw [e]; fin_cases i <;> norm_num
  · fin_cases i
    · exact h0
    · exact .link (j := 0) (by decide) (by norm_num) h0
    · exact .strict (by rw [e]; norm_num)
  · fin_cases i <;> norm_num
  · fin_cases i <;> fin_cases j <;> first | exact absurd rfl hij | norm_num
  · have := h 1
    rw [show (∑ j, if j = 1 then (0 : ℝ) else |(![![2, -1, 0], ![-1, 2, -1], ![0, -1, 2]] : Fin 3 → Fin 3 → ℝ) 1 j|) = 2 from e 1] at this
    norm_num at this

/-- And its right hand side for the values 1 and 5 at the ends lies between the products with these numbers. -/
example : ∀ i, (∑ j, (![![2, -1, 0], ![-1, 2, -1], ![0, -1, 2]] : Fin 3 → Fin 3 → ℝ) i j) * 1 ≤ (![1, 0, 5] : Fin 3 → ℝ) i ∧
    (![1, 0, 5] : Fin 3 → ℝ) i ≤ (∑ j, (![![2, -1, 0], ![-1, 2, -1], ![0, -1, 2]] : Fin 3 → Fin 3 → ℝ) i j) * 5 := by
  intro i
  fin_cases i <;> simp [Fin.sum_univ_three] <;> norm_num

end Disa.Props
