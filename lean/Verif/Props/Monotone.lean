import Verif.Props.Laplace

/-!
# Properties C168 and C169: iterates that rise or fall
-/

namespace Disa.Props

open Disa Spec Graph Disa.Dense Iterative

variable {K N : Type} [Field K] [LinearOrder K] [IsStrictOrderedRing K] {F : Scalars K N}

/-! ### C168 -/

/-- The diagonal is positive and no other element is. -/
def Signed {n : Nat} (A : Fin n → Fin n → K) : Prop := (∀ i, 0 < A i i) ∧ ∀ i j, i ≠ j → A i j ≤ 0

/-- A method and the relation between its iterates. -/
def Next {n : Nat} (A : Fin n → Fin n → K) (b : Fin n → K) (k : Method) (x y : Fin n → K) : Prop :=
  ∀ i, y i = relaxed A b (factor K k) (if k = .jacobi then x else fun j => if j < i then y j else x j) i

theorem off_anti {n : Nat} {A : Fin n → Fin n → K} (hA : Signed A) {x y : Fin n → K} (i : Fin n) (h : ∀ j, j ≠ i → x j ≤ y j) :
    Iterative.off A y i ≤ Iterative.off A x i := by
  unfold Iterative.off
  refine Finset.sum_le_sum fun j _ => ?_
  split
  · exact le_rfl
  · rename_i hj
    exact mul_le_mul_of_nonpos_left (h j hj) (hA.2 i j (Ne.symm hj))

/-- The new value of an unknown grows with the right hand side and the other unknowns. -/
theorem relaxed_mono {n : Nat} {A : Fin n → Fin n → K} (hA : Signed A) {b b' x y : Fin n → K} (i : Fin n) (hb : b i ≤ b' i)
    (h : ∀ j, j ≠ i → x j ≤ y j) : relaxed A b 1 x i ≤ relaxed A b' 1 y i := by
  unfold relaxed
  simp only [one_mul, sub_self, zero_mul, add_zero]
  have := off_anti hA i h
  exact div_le_div_of_nonneg_right (by linarith) (hA.1 i).le

theorem factor_one_of {k : Method} (hk : k ≠ .sor) : factor K k = 1 := by
  cases k <;> simp_all [factor]

/-- The values that row `i` uses. -/
theorem seen_le {n : Nat} {k : Method} {x y x' y' : Fin n → K} {i : Fin n} (hx : ∀ j, x j ≤ x' j) (hy : ∀ j, j < i → y j ≤ y' j)
    (j : Fin n) : (if k = .jacobi then x else fun j => if j < i then y j else x j) j ≤
      (if k = .jacobi then x' else fun j => if j < i then y' j else x' j) j := by
  split
  · exact hx j
  · show (if j < i then y j else x j) ≤ if j < i then y' j else x' j
    split
    · rename_i hj; exact hy j hj
    · exact hx j

theorem fin_strong {n : Nat} {p : Fin n → Prop} (h : ∀ i, (∀ j, j < i → p j) → p i) (i : Fin n) : p i := by
  induction i using WellFoundedLT.induction with
  | ind i ih => exact h i ih

theorem next_mono {n : Nat} {A : Fin n → Fin n → K} (hA : Signed A) {k : Method} (hk : k ≠ .sor) {b b' x x' y y' : Fin n → K}
    (hb : ∀ i, b i ≤ b' i) (hx : ∀ i, x i ≤ x' i) (h : Next A b k x y) (h' : Next A b' k x' y') (i : Fin n) : y i ≤ y' i := by
  refine fin_strong (p := fun i => y i ≤ y' i) (fun i ih => ?_) i
  rw [h i, h' i, factor_one_of hk]
  exact relaxed_mono hA i (hb i) (fun j _ => seen_le hx ih j)

theorem relaxed_le {n : Nat} {A : Fin n → Fin n → K} (hA : Signed A) (b x : Fin n → K) (i : Fin n) :
    (∑ j, A i j * x j ≤ b i ↔ x i ≤ relaxed A b 1 x i) ∧ (b i ≤ ∑ j, A i j * x j ↔ relaxed A b 1 x i ≤ x i) := by
  unfold relaxed
  simp only [one_mul, sub_self, zero_mul, add_zero]
  rw [off_add, le_div_iff₀ (hA.1 i), div_le_iff₀ (hA.1 i)]
  constructor <;> constructor <;> intro h <;> linarith

theorem next_rises {n : Nat} {A : Fin n → Fin n → K} (hA : Signed A) {k : Method} (hk : k ≠ .sor) {b x y : Fin n → K}
    (h : Next A b k x y) (hx : ∀ i, ∑ j, A i j * x j ≤ b i) : (∀ i, x i ≤ y i) ∧ ∀ i, ∑ j, A i j * y j ≤ b i := by
  have h1 : ∀ i, x i ≤ y i := by
    refine fin_strong (fun i ih => ?_)
    refine ((relaxed_le hA b x i).1.mp (hx i)).trans ?_
    rw [h i, factor_one_of hk]
    refine relaxed_mono hA i le_rfl (fun j _ => ?_)
    split
    · exact le_rfl
    · show x j ≤ if j < i then y j else x j
      split
      · rename_i hj; exact ih j hj
      · exact le_rfl
  refine ⟨h1, fun i => (relaxed_le hA b y i).1.mpr ?_⟩
  conv_lhs => rw [h i, factor_one_of hk]
  refine relaxed_mono hA i le_rfl (fun j _ => ?_)
  split
  · exact h1 j
  · show (if j < i then y j else x j) ≤ y j
    split
    · exact le_rfl
    · exact h1 j

theorem next_falls {n : Nat} {A : Fin n → Fin n → K} (hA : Signed A) {k : Method} (hk : k ≠ .sor) {b x y : Fin n → K}
    (h : Next A b k x y) (hx : ∀ i, b i ≤ ∑ j, A i j * x j) : (∀ i, y i ≤ x i) ∧ ∀ i, b i ≤ ∑ j, A i j * y j := by
  have h1 : ∀ i, y i ≤ x i := by
    refine fin_strong (fun i ih => ?_)
    refine le_trans ?_ ((relaxed_le hA b x i).2.mp (hx i))
    rw [h i, factor_one_of hk]
    refine relaxed_mono hA i le_rfl (fun j _ => ?_)
    split
    · exact le_rfl
    · show (if j < i then y j else x j) ≤ x j
      split
      · rename_i hj; exact ih j hj
      · exact le_rfl
  refine ⟨h1, fun i => (relaxed_le hA b y i).2.mpr ?_⟩
  conv_rhs => rw [h i, factor_one_of hk]
  refine relaxed_mono hA i le_rfl (fun j _ => ?_)
  split
  · exact h1 j
  · show y j ≤ if j < i then y j else x j
    split
    · exact le_rfl
    · exact h1 j

theorem times_succ {σ : Type} (f : σ → Out σ) (j : Nat) (s : σ) : times f (j + 1) s = times f j s >>= f := by
  induction j generalizing s with
  | zero =>
    show f s >>= times f 0 = f s
    cases f s <;> rfl
  | succ j ih =>
    show f s >>= times f (j + 1) = (f s >>= times f j) >>= f
    cases f s with
    | ok t => exact ih t
    | _ => rfl

/-- The iterates of a method. -/
theorem iterates_next (hF : Exact F) (k : Method) (s : FixedPoint K) {n : Nat} {m : Sparse K} {A : Fin n → Fin n → K}
    (h : Square m A) (hd : ∀ i, A i i ≠ 0) (b x : Fin n → K) (w : List K) (hw : k = .jacobi → w.length = n) :
    ∃ xs : Nat → Fin n → K, xs 0 = x ∧ (∀ j, ∃ w', times (step F k s m (vec b)) j (vec x, w) = .ok (vec (xs j), w')) ∧
      ∀ j, Next A b k (xs j) (xs (j + 1)) := by
  choose Y W h1 h2 h3 using fun p : {p : (Fin n → K) × List K // k = .jacobi → p.2.length = n} =>
    step_ok (F := F) hF k s h hd b p.1.1 p.1.2 p.2
  let st : Nat → {p : (Fin n → K) × List K // k = .jacobi → p.2.length = n} :=
    Nat.rec ⟨(x, w), hw⟩ (fun _ p => ⟨(Y p, W p), h2 p⟩)
  refine ⟨fun j => (st j).1.1, rfl, fun j => ⟨(st j).1.2, ?_⟩, fun j => h3 (st j)⟩
  induction j with
  | zero => rfl
  | succ j ih => rw [times_succ, ih]; exact h1 (st j)

/-- C168: the iterates grow with the right hand side and with the start. -/
theorem c168_monotone (hF : Exact F) (k : Method) (hk : k ≠ .sor) (s s' : FixedPoint K) {n : Nat} (m : Sparse K)
    (A : Fin n → Fin n → K) (h : Square m A) (hA : Signed A) (b b' x x' : Fin n → K) (w w' : List K)
    (hw : k = .jacobi → w.length = n) (hw' : k = .jacobi → w'.length = n) (hb : ∀ i, b i ≤ b' i) (hx : ∀ i, x i ≤ x' i) (j : Nat) :
    ∃ (y y' : Fin n → K) (v v' : List K), times (step F k s m (vec b)) j (vec x, w) = .ok (vec y, v) ∧
      times (step F k s' m (vec b')) j (vec x', w') = .ok (vec y', v') ∧ ∀ i, y i ≤ y' i := by
  obtain ⟨xs, h1, h2, h3⟩ := iterates_next hF k s h (fun i => (hA.1 i).ne') b x w hw
  obtain ⟨ys, k1, k2, k3⟩ := iterates_next hF k s' h (fun i => (hA.1 i).ne') b' x' w' hw'
  obtain ⟨v, e1⟩ := h2 j
  obtain ⟨v', e2⟩ := k2 j
  refine ⟨_, _, v, v', e1, e2, ?_⟩
  clear e1 e2
  induction j with
  | zero => rw [h1, k1]; exact hx
  | succ j ih => exact next_mono hA hk hb ih (h3 j) (k3 j)

/-- C168: from a vector with a product not larger than the right hand side, the iterates rise and keep that, and they stay below
each vector above the start with a product not smaller than the right hand side. -/
theorem c168_rising (hF : Exact F) (k : Method) (hk : k ≠ .sor) (s : FixedPoint K) {n : Nat} (m : Sparse K)
    (A : Fin n → Fin n → K) (h : Square m A) (hA : Signed A) (b x : Fin n → K) (w : List K) (hw : k = .jacobi → w.length = n)
    (hx : ∀ i, ∑ j, A i j * x j ≤ b i) :
    ∃ xs : Nat → Fin n → K, xs 0 = x ∧ (∀ j, ∃ w', times (step F k s m (vec b)) j (vec x, w) = .ok (vec (xs j), w')) ∧
      (∀ j i, xs j i ≤ xs (j + 1) i) ∧ (∀ j i, ∑ l, A i l * xs j l ≤ b i) ∧
      ∀ z : Fin n → K, (∀ i, b i ≤ ∑ l, A i l * z l) → (∀ i, x i ≤ z i) → ∀ j i, xs j i ≤ z i := by
  obtain ⟨xs, h1, h2, h3⟩ := iterates_next hF k s h (fun i => (hA.1 i).ne') b x w hw
  have hsub : ∀ j i, ∑ l, A i l * xs j l ≤ b i := by
    intro j
    induction j with
    | zero => rw [h1]; exact hx
    | succ j ih => exact (next_rises hA hk (h3 j) ih).2
  refine ⟨xs, h1, h2, fun j => (next_rises hA hk (h3 j) (hsub j)).1, hsub, fun z hz hxz j => ?_⟩
  obtain ⟨zs, k1, -, k3⟩ := iterates_next hF k s h (fun i => (hA.1 i).ne') b z w hw
  have hf := (next_falls hA hk (k3 0) (by rw [k1]; exact hz)).1
  induction j with
  | zero => rw [h1]; exact hxz
  | succ j ih =>
    intro i
    refine (next_mono hA hk (fun _ => le_rfl) (by rw [k1]; exact ih) (h3 j) (k3 0) i).trans ?_
    rw [← k1]
    exact hf i

/-- C168: the same the other way round. -/
theorem c168_falling (hF : Exact F) (k : Method) (hk : k ≠ .sor) (s : FixedPoint K) {n : Nat} (m : Sparse K)
    (A : Fin n → Fin n → K) (h : Square m A) (hA : Signed A) (b x : Fin n → K) (w : List K) (hw : k = .jacobi → w.length = n)
    (hx : ∀ i, b i ≤ ∑ j, A i j * x j) :
    ∃ xs : Nat → Fin n → K, xs 0 = x ∧ (∀ j, ∃ w', times (step F k s m (vec b)) j (vec x, w) = .ok (vec (xs j), w')) ∧
      (∀ j i, xs (j + 1) i ≤ xs j i) ∧ (∀ j i, b i ≤ ∑ l, A i l * xs j l) ∧
      ∀ z : Fin n → K, (∀ i, ∑ l, A i l * z l ≤ b i) → (∀ i, z i ≤ x i) → ∀ j i, z i ≤ xs j i := by
  obtain ⟨xs, h1, h2, h3⟩ := iterates_next hF k s h (fun i => (hA.1 i).ne') b x w hw
  have hsup : ∀ j i, b i ≤ ∑ l, A i l * xs j l := by
    intro j
    induction j with
    | zero => rw [h1]; exact hx
    | succ j ih => exact (next_falls hA hk (h3 j) ih).2
  refine ⟨xs, h1, h2, fun j => (next_falls hA hk (h3 j) (hsup j)).1, hsup, fun z hz hxz j => ?_⟩
  obtain ⟨zs, k1, -, k3⟩ := iterates_next hF k s h (fun i => (hA.1 i).ne') b z w hw
  have hf := (next_rises hA hk (k3 0) (by rw [k1]; exact hz)).1
  induction j with
  | zero => rw [h1]; exact hxz
  | succ j ih =>
    intro i
    refine le_trans ?_ (next_mono hA hk (fun _ => le_rfl) (by rw [k1]; exact ih) (k3 0) (h3 j) i)
    rw [← k1]
    exact hf i

/-- C168: from such a start Gauss Seidel is never behind Jacobi. -/
theorem c168_compare (hF : Exact F) (s s' : FixedPoint K) {n : Nat} (m : Sparse K) (A : Fin n → Fin n → K) (h : Square m A)
    (hA : Signed A) (b x : Fin n → K) (w w' : List K) (hw : w.length = n) (j : Nat) :
    ∃ (y z : Fin n → K) (v v' : List K), times (step F .jacobi s m (vec b)) j (vec x, w) = .ok (vec y, v) ∧
      times (step F .gaussSeidel s' m (vec b)) j (vec x, w') = .ok (vec z, v') ∧
      ((∀ i, ∑ j, A i j * x j ≤ b i) → ∀ i, y i ≤ z i) ∧ ((∀ i, b i ≤ ∑ j, A i j * x j) → ∀ i, z i ≤ y i) := by
  obtain ⟨xs, h1, h2, h3⟩ := iterates_next hF .jacobi s h (fun i => (hA.1 i).ne') b x w (fun _ => hw)
  obtain ⟨ys, k1, k2, k3⟩ := iterates_next hF .gaussSeidel s' h (fun i => (hA.1 i).ne') b x w' (by simp)
  obtain ⟨v, e1⟩ := h2 j
  obtain ⟨v', e2⟩ := k2 j
  refine ⟨_, _, v, v', e1, e2, fun hx => ?_, fun hx => ?_⟩
  · have hsub : ∀ j i, ∑ l, A i l * ys j l ≤ b i := by
      intro j
      induction j with
      | zero => rw [k1]; exact hx
      | succ j ih => exact (next_rises hA (by simp) (k3 j) ih).2
    clear e1 e2
    induction j with
    | zero => rw [h1, k1]; exact fun _ => le_rfl
    | succ j ih =>
      intro i
      have hr := (next_rises hA (by simp) (k3 j) (hsub j)).1
      rw [h3 j i, k3 j i]
      refine relaxed_mono hA i le_rfl (fun l _ => ?_)
      show xs j l ≤ if l < i then ys (j + 1) l else ys j l
      split
      · exact (ih l).trans (hr l)
      · exact ih l
  · have hsup : ∀ j i, b i ≤ ∑ l, A i l * ys j l := by
      intro j
      induction j with
      | zero => rw [k1]; exact hx
      | succ j ih => exact (next_falls hA (by simp) (k3 j) ih).2
    clear e1 e2
    induction j with
    | zero => rw [h1, k1]; exact fun _ => le_rfl
    | succ j ih =>
      intro i
      have hr := (next_falls hA (by simp) (k3 j) (hsup j)).1
      rw [h3 j i, k3 j i]
      refine relaxed_mono hA i le_rfl (fun l _ => ?_)
      show (if l < i then ys (j + 1) l else ys j l) ≤ xs j l
      split
      · exact (hr l).trans (ih l)
      · exact ih l

theorem dominant_compare {n : Nat} {A : Fin n → Fin n → K} (hA : Signed A) (hd : Dominant A) {x y : Fin n → K}
    (h : ∀ i, ∑ j, A i j * x j ≤ ∑ j, A i j * y j) (i : Fin n) : x i ≤ y i := by
  have : Nonempty (Fin n) := ⟨i⟩
  obtain ⟨k, hk⟩ := Finite.exists_min (fun i => y i - x i)
  suffices 0 ≤ y k - x k by have := hk i; linarith
  by_contra hc
  have hc' : y k - x k < 0 := not_le.mp hc
  have h1 : 0 ≤ ∑ j, A k j * (y j - x j) := by
    simp only [mul_sub, Finset.sum_sub_distrib]
    linarith [h k]
  have h2 : ∑ j, A k j * (y j - x j) ≤ ∑ j, A k j * (y k - x k) := by
    refine Finset.sum_le_sum fun j _ => ?_
    by_cases hj : j = k
    · rw [hj]
    · exact mul_le_mul_of_nonpos_left (hk j) (hA.2 k j (Ne.symm hj))
  have h3 : ∑ j, A k j * (y k - x k) = (A k k - ∑ j, if j = k then 0 else |A k j|) * (y k - x k) := by
    rw [← Finset.sum_mul]
    congr 1
    rw [← Finset.add_sum_erase _ _ (Finset.mem_univ k), sub_eq_add_neg, ← Finset.sum_neg_distrib,
      ← Finset.add_sum_erase _ _ (Finset.mem_univ k)]
    rw [if_pos rfl, neg_zero, zero_add]
    congr 1
    refine Finset.sum_congr rfl fun j hj => ?_
    have hj := Finset.ne_of_mem_erase hj
    rw [if_neg hj, abs_of_nonpos (hA.2 k j (Ne.symm hj)), neg_neg]
  have h4 := hd k
  rw [abs_of_pos (hA.1 k)] at h4
  have h5 : (A k k - ∑ j, if j = k then 0 else |A k j|) * (y k - x k) < 0 := mul_neg_of_pos_of_neg (by linarith) hc'
  linarith

/-- C168: if the matrix is also strictly diagonally dominant, iterates that started so on both sides enclose the solution. -/
theorem c168_encloses (hF : Exact F) (k k' : Method) (hk : k ≠ .sor) (hk' : k' ≠ .sor) (s s' : FixedPoint K) {n : Nat} (m : Sparse K)
    (A : Fin n → Fin n → K) (h : Square m A) (hA : Signed A) (hd : Dominant A) (b x x' : Fin n → K) (w w' : List K)
    (hw : k = .jacobi → w.length = n) (hw' : k' = .jacobi → w'.length = n) (hx : ∀ i, ∑ j, A i j * x j ≤ b i)
    (hx' : ∀ i, b i ≤ ∑ j, A i j * x' j) (sol : Fin n → K) (hs : Solves A sol b) (j j' : Nat) :
    ∃ (y y' : Fin n → K) (v v' : List K), times (step F k s m (vec b)) j (vec x, w) = .ok (vec y, v) ∧
      times (step F k' s' m (vec b)) j' (vec x', w') = .ok (vec y', v') ∧ ∀ i, x i ≤ y i ∧ y i ≤ sol i ∧ sol i ≤ y' i ∧ y' i ≤ x' i := by
  obtain ⟨xs, h1, h2, h3, -, h5⟩ := c168_rising hF k hk s m A h hA b x w hw hx
  obtain ⟨ys, k1, k2, k3, -, k5⟩ := c168_falling hF k' hk' s' m A h hA b x' w' hw' hx'
  obtain ⟨v, e1⟩ := h2 j
  obtain ⟨v', e2⟩ := k2 j'
  refine ⟨_, _, v, v', e1, e2, fun i => ⟨?_, ?_, ?_, ?_⟩⟩
  · rw [← h1]; exact monotone_nat_of_le_succ (f := fun j => xs j i) (fun j => h3 j i) (Nat.zero_le j)
  · exact h5 sol (fun i => (hs i).ge) (dominant_compare hA hd fun i => by rw [hs i]; exact hx i) j i
  · exact k5 sol (fun i => (hs i).le) (dominant_compare hA hd fun i => by rw [hs i]; exact hx' i) j' i
  · rw [← k1]; exact antitone_nat_of_succ_le (f := fun j => ys j i) (fun j => k3 j i) (Nat.zero_le j')

/-! ### C169 -/

theorem ofGraph_signed {g : Graph} (h : Reachable false g) {c : K} (hc : 0 < c) {A : Fin g.sizeVertex → Fin g.sizeVertex → K}
    (hA : OfGraph g c A) : Signed A := by
  classical
  refine ⟨fun i => ?_, fun i j hij => ?_⟩
  · obtain ⟨d, h1, -⟩ := degree_sum (K := K) h i
    rw [hA.diagonal i d h1]
    positivity
  · rw [hA.off i j hij]
    split <;> simp

open Classical in
/-- The new value at a vertex. -/
theorem ofGraph_relaxed {g : Graph} (h : Reachable false g) {c : K} {A : Fin g.sizeVertex → Fin g.sizeVertex → K}
    (hA : OfGraph g c A) (b x : Fin g.sizeVertex → K) (i : Fin g.sizeVertex) :
    relaxed A b 1 x i = (b i + ∑ j : Fin g.sizeVertex, if Adj g i j then x j else 0) / A i i := by
  unfold relaxed
  rw [ofGraph_off h hA]
  ring

/-- A vertex is reached from `s` by a walk with fewer than `j` edges. -/
theorem jacobi_spread {g : Graph} (h : Reachable false g) {c : K} (hc : 0 < c) {A : Fin g.sizeVertex → Fin g.sizeVertex → K}
    (hA : OfGraph g c A) {s : Fin g.sizeVertex} {b : Fin g.sizeVertex → K} (hs : 0 < b s) (hb : ∀ i, i ≠ s → b i = 0)
    {xs : Nat → Fin g.sizeVertex → K} (h0 : xs 0 = 0) (hn : ∀ j, Next A b .jacobi (xs j) (xs (j + 1))) (j : Nat) :
    ∀ i, 0 ≤ xs j i ∧ (0 < xs j i ↔ ∃ k, k < j ∧ Walk (Adj g) k s i) := by
  classical
  have hb0 : ∀ i, 0 ≤ b i := fun i => by
    by_cases hi : i = s
    · rw [hi]; exact hs.le
    · rw [hb i hi]
  induction j with
  | zero => intro i; rw [h0]; simp
  | succ j ih =>
    intro i
    have e : xs (j + 1) i = (b i + ∑ l : Fin g.sizeVertex, if Adj g i l then xs j l else 0) / A i i := by
      rw [← ofGraph_relaxed h hA]
      simpa [factor] using hn j i
    have hd := (ofGraph_signed h hc hA).1 i
    have hnn : ∀ l : Fin g.sizeVertex, 0 ≤ if Adj g i l then xs j l else 0 := fun l => by
      split
      · exact (ih l).1
      · exact le_rfl
    have hsum : 0 ≤ ∑ l : Fin g.sizeVertex, if Adj g i l then xs j l else 0 := Finset.sum_nonneg fun l _ => hnn l
    refine ⟨by rw [e]; have := hb0 i; positivity, ?_⟩
    rw [e, div_pos_iff_of_pos_right hd]
    constructor
    · intro hp
      by_cases hi : i = s
      · exact ⟨0, Nat.succ_pos _, by rw [hi]; rfl⟩
      · rw [hb i hi, zero_add] at hp
        obtain ⟨l, -, hl⟩ := Finset.exists_ne_zero_of_sum_ne_zero hp.ne'
        by_cases ha : Adj g i l
        · rw [if_pos ha] at hl
          obtain ⟨k, hk, hw⟩ := (ih l).2.mp (lt_of_le_of_ne (ih l).1 (Ne.symm hl))
          exact ⟨k + 1, by omega, l, hw, (adj_comm h).mp ha⟩
        · rw [if_neg ha] at hl
          exact absurd rfl hl
    · rintro ⟨k, hk, hw⟩
      cases k with
      | zero =>
        have : i = s := Fin.ext (show s.1 = i.1 from hw).symm
        rw [this] at hsum ⊢
        linarith
      | succ k =>
        obtain ⟨l, hw, ha⟩ := hw
        have hl := (adj_lt h ha).1
        have hp := (ih ⟨l, hl⟩).2.mpr ⟨k, by omega, hw⟩
        have : xs j ⟨l, hl⟩ ≤ ∑ l : Fin g.sizeVertex, if Adj g i l then xs j l else 0 := by
          have := Finset.single_le_sum (f := fun l : Fin g.sizeVertex => if Adj g i l then xs j l else 0) (fun l _ => hnn l)
            (Finset.mem_univ ⟨l, hl⟩)
          simpa [(adj_comm h).mp ha] using this
        linarith [hb0 i]

theorem levels_walk {g : Graph} (h : Reachable false g) (h1 : 1 < g.sizeVertex) (s : Fin g.sizeVertex) :
    ∃ out, g.levelTraversal s sizeMax = .ok out ∧ ∀ i : Fin g.sizeVertex, ∃ l, out[i.1]? = some l ∧
      ∀ j, (∃ k, k < j ∧ Walk (Adj g) k s i) ↔ l < j ∧ l ≠ sizeMax := by
  have hn := reach_small h
  obtain ⟨out, ho, -, hv⟩ := c12_level_traversal_default false g h h1 s s.2
  refine ⟨out, ho, fun i => ?_⟩
  rcases hv i i.2 with ⟨l, hl, ⟨⟨s', rfl, hw⟩, hmin⟩, hout⟩ | ⟨hout, hno⟩
  · refine ⟨l, hout, fun j => ⟨?_, fun hj => ⟨l, hj.1, hw⟩⟩⟩
    rintro ⟨k, hk, hkw⟩
    have : l ≤ k := by
      by_contra hc
      exact hmin k (by omega) s rfl hkw
    exact ⟨by omega, by omega⟩
  · refine ⟨_, hout, fun j => ⟨?_, fun hj => absurd rfl hj.2⟩⟩
    rintro ⟨k, -, hkw⟩
    exact absurd ⟨k, s, rfl, hkw⟩ hno

/-- C169: in the Jacobi iterates the value at one vertex reaches exactly the vertices with a smaller level than the number of
iterations. -/
theorem c169_jacobi (hF : Exact F) (g : Graph) (h : Reachable false g) (h1 : 1 < g.sizeVertex) (c : K) (hc : 0 < c) (m : Sparse K)
    (A : Fin g.sizeVertex → Fin g.sizeVertex → K) (hm : Square m A) (hA : OfGraph g c A) (s : Fin g.sizeVertex)
    (b : Fin g.sizeVertex → K) (hs : 0 < b s) (hb : ∀ i, i ≠ s → b i = 0) (st : FixedPoint K) (w : List K)
    (hw : w.length = g.sizeVertex) :
    ∃ (out : List Nat) (xs : Nat → Fin g.sizeVertex → K), g.levelTraversal s sizeMax = .ok out ∧
      (∀ j, ∃ w', times (step F .jacobi st m (vec b)) j (vec fun _ : Fin g.sizeVertex => 0, w) = .ok (vec (xs j), w')) ∧
      ∀ j (i : Fin g.sizeVertex), ∃ l, out[i.1]? = some l ∧ 0 ≤ xs j i ∧ (0 < xs j i ↔ l < j ∧ l ≠ sizeMax) := by
  obtain ⟨out, ho, hl⟩ := levels_walk h h1 s
  obtain ⟨xs, e0, e1, e2⟩ := iterates_next hF .jacobi st hm (fun i => ((ofGraph_signed h hc hA).1 i).ne') b (fun _ => 0) w (fun _ => hw)
  refine ⟨out, xs, ho, e1, fun j i => ?_⟩
  obtain ⟨l, hl1, hl2⟩ := hl i
  obtain ⟨q1, q2⟩ := jacobi_spread h hc hA hs hb e0 e2 j i
  exact ⟨l, hl1, q1, q2.trans (hl2 j)⟩

/-- C169: with Gauss Seidel it reaches those, possibly more, but never a vertex that cannot be reached. -/
theorem c169_gauss_seidel (hF : Exact F) (g : Graph) (h : Reachable false g) (h1 : 1 < g.sizeVertex) (c : K) (hc : 0 < c)
    (m : Sparse K) (A : Fin g.sizeVertex → Fin g.sizeVertex → K) (hm : Square m A) (hA : OfGraph g c A) (s : Fin g.sizeVertex)
    (b : Fin g.sizeVertex → K) (hs : 0 < b s) (hb : ∀ i, i ≠ s → b i = 0) (st : FixedPoint K) (w : List K) :
    ∃ (out : List Nat) (xs : Nat → Fin g.sizeVertex → K), g.levelTraversal s sizeMax = .ok out ∧
      (∀ j, ∃ w', times (step F .gaussSeidel st m (vec b)) j (vec fun _ : Fin g.sizeVertex => 0, w) = .ok (vec (xs j), w')) ∧
      ∀ j (i : Fin g.sizeVertex), ∃ l, out[i.1]? = some l ∧ 0 ≤ xs j i ∧ (l < j → l ≠ sizeMax → 0 < xs j i) ∧
        (l = sizeMax → xs j i = 0) := by
  classical
  have hsg := ofGraph_signed h hc hA
  obtain ⟨out, ho, hl⟩ := levels_walk h h1 s
  obtain ⟨xs, e0, e1, e2⟩ := iterates_next hF .jacobi st hm (fun i => (hsg.1 i).ne') b (fun _ => 0)
    (List.replicate g.sizeVertex 0) (fun _ => by simp)
  obtain ⟨ys, f0, f1, f2⟩ := iterates_next hF .gaussSeidel st hm (fun i => (hsg.1 i).ne') b (fun _ => 0) w (by simp)
  refine ⟨out, ys, ho, f1, fun j i => ?_⟩
  obtain ⟨l, hl1, hl2⟩ := hl i
  obtain ⟨q1, q2⟩ := jacobi_spread h hc hA hs hb e0 e2 j i
  have hle : xs j i ≤ ys j i := by
    obtain ⟨y, z, v, v', g1, g2, g3, -⟩ := c168_compare hF st st m A hm hsg b (fun _ => 0) (List.replicate g.sizeVertex 0) w
      (by simp) j
    obtain ⟨_, r1⟩ := e1 j
    obtain ⟨_, r2⟩ := f1 j
    rw [g1, Out.ok.injEq, Prod.mk.injEq, vec_inj] at r1
    rw [g2, Out.ok.injEq, Prod.mk.injEq, vec_inj] at r2
    rw [← r1.1, ← r2.1]
    refine g3 (fun i => ?_) i
    simp only [mul_zero, Finset.sum_const_zero]
    by_cases hi : i = s
    · rw [hi]; exact hs.le
    · rw [hb i hi]
  refine ⟨l, hl1, q1.trans hle, fun h3 h4 => (q2.mpr ((hl2 j).mpr ⟨h3, h4⟩)).trans_le hle, fun h3 => ?_⟩
  have hno : ∀ k, ¬ Walk (Adj g) k s i := fun k hk => ((hl2 (k + 1)).mp ⟨k, by omega, hk⟩).2 h3
  clear hl1 hl2 h3 q1 q2 hle
  induction j generalizing i with
  | zero => rw [f0]
  | succ j ih =>
    revert hno
    refine fin_strong (p := fun i => (∀ k, ¬ Walk (Adj g) k s i) → ys (j + 1) i = 0) (fun i ih' hno => ?_) i
    have hi : i ≠ s := by rintro rfl; exact hno 0 rfl
    have e := f2 j i
    rw [factor_one_of (by simp), ofGraph_relaxed h hA, hb i hi] at e
    rw [e, zero_add, Finset.sum_eq_zero, zero_div]
    intro l _
    split
    · rename_i ha
      have hl' : ∀ k, ¬ Walk (Adj g) k s l := fun k hk => hno (k + 1) ⟨l, hk, (adj_comm h).mp ha⟩
      show (if l < i then ys (j + 1) l else ys j l) = 0
      split
      · rename_i hli; exact ih' l hli hl'
      · exact ih l hl'
    · rfl

/-- C169: the solution is positive at the vertices that can be reached, and zero at the others. -/
theorem c169_solution (g : Graph) (h : Reachable false g) (h1 : 1 < g.sizeVertex) (c : K) (hc : 0 < c)
    (A : Fin g.sizeVertex → Fin g.sizeVertex → K) (hA : OfGraph g c A) (s : Fin g.sizeVertex) (b sol : Fin g.sizeVertex → K)
    (hs : 0 < b s) (hb : ∀ i, i ≠ s → b i = 0) (hsol : Solves A sol b) :
    ∃ out : List Nat, g.levelTraversal s sizeMax = .ok out ∧
      ∀ i : Fin g.sizeVertex, ∃ l, out[i.1]? = some l ∧ (l ≠ sizeMax → 0 < sol i) ∧ (l = sizeMax → sol i = 0) := by
  classical
  have hsg := ofGraph_signed h hc hA
  have hd := (c167_definite g h c hc A hA).1
  have hb0 : ∀ i, 0 ≤ b i := fun i => by
    by_cases hi : i = s
    · rw [hi]; exact hs.le
    · rw [hb i hi]
  obtain ⟨out, ho, hl⟩ := levels_walk h h1 s
  refine ⟨out, ho, fun i => ?_⟩
  obtain ⟨l, hl1, hl2⟩ := hl i
  refine ⟨l, hl1, fun h3 => ?_, fun h3 => ?_⟩
  · let xs : Nat → Fin g.sizeVertex → K := Nat.rec 0 fun _ x => relaxed A b 1 x
    have hnx : ∀ j, Next A b .jacobi (xs j) (xs (j + 1)) := fun j i => by simp [factor, xs]
    have hsol' : Next A b .jacobi sol sol := fun i => by
      simp only [factor, if_true]
      exact ((relaxed_fixed A b sol one_ne_zero (hsg.1 i).ne').mpr (hsol i)).symm
    have hz : ∀ i, 0 ≤ sol i := dominant_compare hsg hd (x := fun _ => 0) fun i => by
      simp only [mul_zero, Finset.sum_const_zero]
      rw [hsol i]
      exact hb0 i
    have hle : ∀ j i, xs j i ≤ sol i := by
      intro j
      induction j with
      | zero => exact hz
      | succ j ih => exact next_mono hsg (by simp) (fun _ => le_rfl) ih (hnx j) hsol'
    exact ((jacobi_spread h hc hA hs hb rfl hnx (l + 1) i).2.mpr ((hl2 (l + 1)).mpr ⟨by omega, h3⟩)).trans_le (hle (l + 1) i)
  · have hno : ∀ k, ¬ Walk (Adj g) k s i := fun k hk => ((hl2 (k + 1)).mp ⟨k, by omega, hk⟩).2 h3
    set v : Fin g.sizeVertex → K := fun i => if ∃ k, Walk (Adj g) k s i then 0 else sol i with hv
    have hv0 : Solves A v 0 := by
      intro i
      have e := hsol i
      rw [ofGraph_mul h hA] at e ⊢
      by_cases hi : ∃ k, Walk (Adj g) k s i
      · have : v i = 0 := if_pos hi
        rw [this, mul_zero, zero_add]
        refine Finset.sum_eq_zero fun j _ => ?_
        split
        · rename_i ha
          obtain ⟨k, hk⟩ := hi
          have : v j = 0 := if_pos ⟨k + 1, i, hk, ha⟩
          rw [this, sub_zero]
        · rfl
      · have h4 : v i = sol i := if_neg hi
        have h5 : i ≠ s := by rintro rfl; exact hi ⟨0, rfl⟩
        rw [hb i h5] at e
        rw [h4, Pi.zero_apply]
        refine Eq.trans ?_ e
        congr 1
        refine Finset.sum_congr rfl fun j _ => ?_
        split
        · rename_i ha
          have : v j = sol j := if_neg (by rintro ⟨k, hk⟩; exact hi ⟨k + 1, j, hk, (adj_comm h).mp ha⟩)
          rw [this]
        · rfl
    obtain ⟨z, -, hu⟩ := dominant_solution A hd 0
    have h6 : v = fun _ => 0 := (hu v hv0).trans (hu (fun _ => 0) (fun i => by simp)).symm
    have h7 : v i = sol i := if_neg (by rintro ⟨k, hk⟩; exact hno k hk)
    rw [← h7, h6]

/-- The graph `searchGraph`, where the levels from 0 are 0, 1, 2, 2 and three vertices are not reached, meets the hypotheses. -/
example : Reachable false searchGraph ∧ 1 < searchGraph.sizeVertex ∧
    ∃ A : Fin searchGraph.sizeVertex → Fin searchGraph.sizeVertex → ℚ, ∃ m, laplace searchGraph 1 = .ok m ∧ Square m A ∧
      OfGraph searchGraph 1 A ∧ Signed A ∧ Dominant A := by
  obtain ⟨m, A, h1, h2, h3, -⟩ := c167_assemble (K := ℚ) searchGraph searchGraph_reachable 1
  exact ⟨searchGraph_reachable, by decide, A, m, h1, h2, h3, ofGraph_signed searchGraph_reachable one_pos h3,
    (c167_definite searchGraph searchGraph_reachable 1 one_pos A h3).1⟩

end Disa.Props
