import Verif.Dense.Mat
import Mathlib.Tactic.Ring
import Mathlib.Tactic.FieldSimp
import Mathlib.Algebra.Field.Rat

/-!
# Properties C38, C40, C41, C71 to C74: dense vectors and matrices
-/

namespace Disa.Props

open Disa Spec Dense

variable {α : Type}

/-! ### C38 -/

/-- C38: the operators on vectors act elementwise, for all sizes and all combinations of sizes fixed in the type (`s`, `t` not
zero) or not; with the same object on both sides too. -/
theorem c38_elementwise [Field α] {s t n : Nat} (hs : Sized s n) (ht : Sized t n) (x y : Fin n → α) (a : α) :
    addAssign (vec x) (some (vec y)) = .ok (vec fun i => x i + y i) ∧
    subAssign (vec x) (some (vec y)) = .ok (vec fun i => x i - y i) ∧
    addAssign (vec x) none = .ok (vec fun i => x i + x i) ∧
    subAssign (vec x) none = .ok (vec fun _ : Fin n => 0) ∧
    add s t (vec x) (vec y) = .ok (vec fun i => x i + y i) ∧
    sub s t (vec x) (vec y) = .ok (vec fun i => x i - y i) ∧
    mulScalar (vec x) (.val a) = .ok (vec fun i => x i * a) ∧
    divScalar (vec x) (.val a) = .ok (vec fun i => x i / a) ∧
    smul a (vec x) = .ok (vec fun i => a * x i) ∧
    sdiv (vec x) a = .ok (vec fun i => x i / a) := by
  refine ⟨addAssign_ok x y, subAssign_ok x y, addAssign_self x, ?_, add_ok hs ht x y, sub_ok hs ht x y, ?_, ?_, ?_, ?_⟩
  · rw [subAssign_self, sub_self]; rfl
  · simpa [mulScalar] using scale_val (· * ·) x a
  · simpa [divScalar] using scale_val (· / ·) x a
  · have := scale_val (· * ·) x a
    simpa [smul, mulScalar, mul_comm] using this
  · simpa [sdiv, divScalar] using scale_val (· / ·) x a

/-- C38: vectors of different sizes are rejected. -/
theorem c38_mismatch [Field α] (s t : Nat) (v w : List α) (h : v.length ≠ w.length) :
    addAssign v (some w) = .exit 1 ∧ subAssign v (some w) = .exit 1 ∧ add s t v w = .exit 1 ∧ sub s t v w = .exit 1 := by
  have hb : (v.length == w.length) = false := by simpa using h
  refine ⟨?_, ?_, ?_, ?_⟩
  · simp [addAssign, hb]
  · simp [subAssign, hb]
  · simp [add, hb]
  · simp [sub, hb]

/-- Vectors of the same size as functions. -/
theorem vec_pair {v w : List α} (h : v.length = w.length) : ∃ (n : Nat) (x y : Fin n → α), v = vec x ∧ w = vec y := by
  obtain ⟨x, hx⟩ := vec_get v
  obtain ⟨y, hy⟩ := vec_get w
  generalize v.length = n at h x hx
  subst h
  exact ⟨_, x, y, hx, hy⟩

/-- C38: addition is commutative, whatever the sizes. -/
theorem c38_comm [Field α] {s t : Nat} {v w : List α} (hs : Sized s v.length) (ht : Sized t w.length) :
    add s t v w = add t s w v := by
  by_cases h : v.length = w.length
  · obtain ⟨n, x, y, rfl, rfl⟩ := vec_pair h
    rw [vec_length] at hs ht
    rw [add_ok hs ht, add_ok ht hs, add_comm]
  · rw [(c38_mismatch s t v w h).2.2.1, (c38_mismatch t s w v (Ne.symm h)).2.2.1]

/-- C38: addition is associative, whatever the sizes. -/
theorem c38_assoc [Field α] {s t u : Nat} {v w z : List α} (hs : Sized s v.length) (ht : Sized t w.length)
    (hu : Sized u z.length) :
    (do let a ← add s t v w; add (promote s t) u a z) = (do let b ← add t u w z; add s (promote t u) v b) := by
  by_cases h : v.length = w.length
  · by_cases h' : w.length = z.length
    · obtain ⟨n, x, y, a, rfl, rfl, rfl⟩ : ∃ (n : Nat) (x y a : Fin n → α), v = vec x ∧ w = vec y ∧ z = vec a := by
        obtain ⟨x, hx⟩ := vec_get v
        obtain ⟨y, hy⟩ := vec_get w
        obtain ⟨a, ha⟩ := vec_get z
        generalize v.length = n at h x hx
        generalize w.length = m at h h' y hy
        subst h' h
        exact ⟨_, x, y, a, hx, hy, ha⟩
      simp only [vec_length] at hs ht hu
      simp only [add_ok hs ht, add_ok ht hu, Out.ok_bind, add_ok (sized_promote hs ht) hu, add_ok hs (sized_promote ht hu),
        add_assoc]
    · obtain ⟨n, x, y, rfl, rfl⟩ := vec_pair h
      rw [vec_length] at hs ht
      rw [add_ok hs ht, Out.ok_bind, (c38_mismatch _ _ _ _ h').2.2.1, (c38_mismatch _ _ _ _ (by simpa using h')).2.2.1]
      rfl
  · rw [(c38_mismatch _ _ _ _ h).2.2.1]
    by_cases h' : w.length = z.length
    · obtain ⟨n, x, y, rfl, rfl⟩ := vec_pair h'
      rw [vec_length] at ht hu
      rw [add_ok ht hu, Out.ok_bind, (c38_mismatch _ _ _ _ (by simpa using h)).2.2.1]
      rfl
    · rw [(c38_mismatch _ _ _ _ h').2.2.1]
      rfl

/-- C38: scalar multiples distribute over sums, whatever the sizes. -/
theorem c38_distrib [Field α] {s t : Nat} {v w : List α} (hs : Sized s v.length) (ht : Sized t w.length) (a b : α) :
    (do let x ← add s t v w; smul a x) = (do let x ← smul a v; let y ← smul a w; add s t x y) ∧
    smul (a + b) v = (do let x ← smul a v; let y ← smul b v; add s s x y) ∧
    smul (a * b) v = (do let x ← smul b v; smul a x) ∧ smul 1 v = .ok v ∧
    (a ≠ 0 → (do let x ← smul a v; sdiv x a) = .ok v) := by
  have hsm : ∀ (n : Nat) (x : Fin n → α) (a : α), smul a (vec x) = .ok (vec fun i => a * x i) :=
    fun n x a => (c38_elementwise (.inl rfl) (.inl rfl) x x a).2.2.2.2.2.2.2.2.1
  have hdv : ∀ (n : Nat) (x : Fin n → α) (a : α), sdiv (vec x) a = .ok (vec fun i => x i / a) :=
    fun n x a => (c38_elementwise (.inl rfl) (.inl rfl) x x a).2.2.2.2.2.2.2.2.2
  constructor
  · by_cases h : v.length = w.length
    · obtain ⟨n, x, y, rfl, rfl⟩ := vec_pair h
      rw [vec_length] at hs ht
      simp only [add_ok hs ht, hsm, Out.ok_bind, Pi.add_apply, mul_add]
      rfl
    · obtain ⟨x, hx⟩ := vec_get v
      obtain ⟨y, hy⟩ := vec_get w
      rw [(c38_mismatch _ _ _ _ h).2.2.1, hx, hy]
      simp only [hsm, Out.ok_bind]
      rw [(c38_mismatch _ _ _ _ (by simpa using h)).2.2.1]
      rfl
  · obtain ⟨x, hx⟩ := vec_get v
    rw [hx]
    generalize v.length = n at hs x
    refine ⟨?_, ?_, ?_, ?_⟩
    · simp only [hsm, Out.ok_bind, add_ok hs hs]
      congr 2
      funext i
      simp [add_mul]
    · simp only [hsm, Out.ok_bind, mul_assoc]
    · simp only [hsm, one_mul]
    · intro ha
      simp only [hsm, hdv, Out.ok_bind]
      congr 2
      funext i
      field_simp

/-- C38: subtracting what was added gives the vector back. -/
theorem c38_sub_add [Field α] {s t n : Nat} (hs : Sized s n) (ht : Sized t n) (x y : Fin n → α) :
    (do let a ← add s t (vec x) (vec y); sub (promote s t) t a (vec y)) = .ok (vec x) ∧
    (do let a ← addAssign (vec x) (some (vec y)); subAssign a (some (vec y))) = .ok (vec x) := by
  simp only [add_ok hs ht, addAssign_ok, Out.ok_bind, sub_ok (sized_promote hs ht) ht, subAssign_ok, add_sub_cancel_right,
    and_self]

example : add 0 3 [1, 2, 3] [4, 5, (6 : ℚ)] = .ok [5, 7, 9] := by decide +kernel
example : add 0 2 [1, 2, 3] [4, (5 : ℚ)] = .exit 1 := by decide +kernel
example : Sized 3 [4, 5, (6 : ℚ)].length ∧ Sized 0 [1, 2, (3 : ℚ)].length := ⟨.inr rfl, .inl rfl⟩

/-! ### C71: scaling by an own element -/

/-- The claim for vectors: an element of the vector scales as its value would. -/
def C71 : Prop := ∀ (n : Nat) (x : Fin n → ℚ) (k : Fin n),
  mulScalar (vec x) (.own k) = mulScalar (vec x) (.val (x k)) ∧ divScalar (vec x) (.own k) = divScalar (vec x) (.val (x k))

theorem c71_exact [Field α] {n : Nat} (x : Fin n → α) (k : Fin n) :
    mulScalar (vec x) (.own k) = .ok (vec fun i => x i * if i ≤ k then x k else x k * x k) ∧
    divScalar (vec x) (.own k) = .ok (vec fun i => x i / if i ≤ k then x k else x k / x k) := by
  constructor
  · simpa [mulScalar] using scale_own (· * ·) x k
  · simpa [divScalar] using scale_own (· / ·) x k

theorem c71_exact_matrix [Field α] {r c : Nat} (M : Fin r → Fin c → α) (k : Fin r) (l : Fin c) :
    matMulScalar (mat M) (.own (k, l)) =
      .ok (mat fun i j => M i j * if i < k ∨ i = k ∧ j ≤ l then M k l else M k l * M k l) ∧
    matDivScalar (mat M) (.own (k, l)) =
      .ok (mat fun i j => M i j / if i < k ∨ i = k ∧ j ≤ l then M k l else M k l / M k l) := by
  have hu : ∀ i j, (upTo (k, l) i j = true) = (i < k ∨ i = k ∧ j ≤ l) := by intro i j; simp [upTo]
  constructor
  · have := matScale_own (· * ·) M k l
    simpa only [matMulScalar, mat_length, hu] using this
  · have := matScale_own (· / ·) M k l
    simpa only [matDivScalar, mat_length, hu] using this

theorem c71_violated : ¬ C71 := by
  intro h
  have h1 := (h 2 ![2, 3] 0).1
  revert h1
  decide +kernel

/-- C71, where it is true: the element is one, or it is the last one. -/
theorem c71_partial [Field α] {n : Nat} (x : Fin n → α) (k : Fin n) (h : x k = 1 ∨ k.1 + 1 = n) :
    mulScalar (vec x) (.own k) = mulScalar (vec x) (.val (x k)) ∧ divScalar (vec x) (.own k) = divScalar (vec x) (.val (x k)) := by
  rw [(c71_exact x k).1, (c71_exact x k).2, (c38_elementwise (.inl rfl) (.inl rfl) x x _).2.2.2.2.2.2.1,
    (c38_elementwise (.inl rfl) (.inl rfl) x x _).2.2.2.2.2.2.2.1]
  rcases h with h | h
  · simp [h]
  · have : ∀ i : Fin n, i ≤ k := fun i => Fin.le_def.mpr (by omega)
    simp [this]

/-! ### C74: sums and scalar multiples of matrices -/

/-- C74: the operators on matrices act elementwise, for all sizes and all combinations of classes. -/
theorem c74_elementwise [Field α] {d e : Dims} {r c : Nat} (hd : SizedMat d r c) (he : SizedMat e r c)
    (M N : Fin r → Fin c → α) (a : α) :
    matAddAssign (mat M) (some (mat N)) = .ok (mat (M + N)) ∧ matSubAssign (mat M) (some (mat N)) = .ok (mat (M - N)) ∧
    matAddAssign (mat M) none = .ok (mat (M + M)) ∧
    matSubAssign (mat M) none = .ok (mat (0 : Fin r → Fin c → α)) ∧
    matAdd d e (mat M) (mat N) = .ok (mat (M + N)) ∧ matSub d e (mat M) (mat N) = .ok (mat (M - N)) ∧
    matMulScalar (mat M) (.val a) = .ok (mat (a • M)) ∧ matDivScalar (mat M) (.val a) = .ok (mat fun i j => M i j / a) ∧
    matSmul a (mat M) = .ok (mat (a • M)) ∧ matSdiv (mat M) a = .ok (mat fun i j => M i j / a) := by
  have h1 : matMulScalar (mat M) (.val a) = .ok (mat (a • M)) := by
    have := matScale_val (· * ·) M a
    unfold matMulScalar
    rw [mat_length, this]
    congr 2
    funext i j
    rw [mul_comm]; rfl
  have h2 : matDivScalar (mat M) (.val a) = .ok (mat fun i j => M i j / a) := by
    have := matScale_val (· / ·) M a
    unfold matDivScalar
    rw [mat_length, this]
  refine ⟨matAddAssign_ok M N, matSubAssign_ok M N, matAddAssign_self M, ?_, matAdd_ok hd he M N, matSub_ok hd he M N, h1, h2,
    h1, h2⟩
  rw [matSubAssign_self]
  congr 2
  exact sub_self M

/-- C74: matrices of different sizes are rejected. -/
theorem c74_mismatch [Field α] (d e : Dims) {r c r' c' : Nat} (h : r = 0 → c = 0) (h' : r' = 0 → c' = 0)
    (hne : (r, c) ≠ (r', c')) (M : Fin r → Fin c → α) (N : Fin r' → Fin c' → α) :
    matAddAssign (mat M) (some (mat N)) = .exit 1 ∧ matSubAssign (mat M) (some (mat N)) = .exit 1 ∧
    matAdd d e (mat M) (mat N) = .exit 1 ∧ matSub d e (mat M) (mat N) = .exit 1 := by
  have hb : sameSize (mat M) (mat N) = false := by
    rw [sameSize_mat h h']
    rw [ne_eq, Prod.mk.injEq] at hne
    simpa using hne
  refine ⟨?_, ?_, ?_, ?_⟩
  · simp [matAddAssign, hb]
  · simp [matSubAssign, hb]
  · simp [matAdd, hb]
  · simp [matSub, hb]

/-- C74: `resize` keeps the elements in range and fills with zero. -/
theorem c74_resize [Field α] {r c : Nat} (M : Fin r → Fin c → α) (r' c' : Nat) :
    matResize (mat M) r' c' = mat fun (i : Fin r') (j : Fin c') =>
      if h : i.1 < r ∧ j.1 < c then M ⟨i, h.1⟩ ⟨j, h.2⟩ else 0 := by
  rw [matResize_ok]
  congr 1
  funext i j
  by_cases hi : i.1 < r
  · by_cases hj : j.1 < c
    · rw [dif_pos ⟨hi, hj⟩]
      simp [mat, hi, hj]
    · rw [dif_neg (by omega)]
      simp [mat, hi, hj]
  · rw [dif_neg (by omega)]
    simp [mat, hi]

example : SizedMat (some (2, 3)) 2 3 ∧ SizedMat none 2 3 := ⟨⟨rfl, rfl, by decide, by decide⟩, fun h => by omega⟩
example : matAdd none (some (2, 2)) [[1, 2], [3, 4]] [[5, 6], [7, (8 : ℚ)]] = .ok [[6, 8], [10, 12]] := by decide +kernel

/-! ### C72: constructors check the size of lists -/

/-- The claim for matrices of fixed size: lists of the wrong number of rows are rejected. -/
def C72 : Prop := ∀ (r c : Nat) (l : List (List ℚ)), r ≠ 0 → c ≠ 0 → (∀ v ∈ l, v.length = c) → l.length ≠ r →
  matList (some (r, c)) l = .exit 1

theorem c72_violated : ¬ C72 := by
  intro h
  have h1 := h 2 1 [[1]] (by decide) (by decide) (by simp) (by decide)
  revert h1
  decide +kernel

/-- C72: what the constructor does: too many rows are undefined behaviour, missing rows are zero. -/
theorem c72_rows [Field α] (r c : Nat) (l : List (List α)) :
    matList (some (r, c)) l = if l.length ≤ r then .ok (l ++ List.replicate (r - l.length) (List.replicate c 0)) else .ub := rfl

/-- C72 for vectors and for matrices sized at run time, where it is true. -/
theorem c72_partial [Field α] :
    (∀ (s : Nat) (l : List α), vecList s l = if s = 0 ∨ s = l.length then .ok l else .exit 1) ∧
    ∀ l : List (List α), matList none l =
      if ∀ v ∈ l, ∀ w ∈ l, v.length = w.length then .ok l else .exit 1 := by
  constructor
  · intro s l
    by_cases h : Sized s l.length
    · rw [vecList_ok h]; exact (if_pos h).symm
    · rw [vecList_exit h]; exact (if_neg h).symm
  · intro l
    by_cases h : ∀ v ∈ l, ∀ w ∈ l, v.length = w.length
    · rw [if_pos h]
      have hc : ∀ v ∈ l, v.length = sizeColumn l := by
        intro v hv
        cases l with
        | nil => simp at hv
        | cons a l => exact h v hv a (by simp)
      obtain ⟨M, hM⟩ := mat_of_rows hc
      have h0 : l.length = 0 → sizeColumn l = 0 := by
        intro h
        rw [List.length_eq_zero_iff] at h
        rw [h]; rfl
      have := matList_dynamic h0 M
      rwa [← hM] at this
    · rw [if_neg h]
      apply matList_dynamic_exit
      by_contra hno
      push Not at hno
      exact h (fun v hv w hw => (hno v hv).trans (hno w hw).symm)

/-! ### C40 -/

/-- The claim of C40. -/
def C40 : Prop :=
  (∀ (r n c : Nat) (A : Fin r → Fin n → ℚ) (B : Fin n → Fin c → ℚ), r ≠ 0 → n ≠ 0 → c ≠ 0 →
    matMul (some (r, n)) (some (n, c)) (mat A) (mat B) = .ok (mat fun i j => ∑ k, A i k * B k j)) ∧
  (∀ (r c r' c' : Nat) (A : Fin r → Fin c → ℚ) (B : Fin r' → Fin c' → ℚ), r ≠ 0 → c ≠ 0 → r' ≠ 0 → c' ≠ 0 →
    c ≠ r' → mulAssign true (mat A) (some (mat B)) = .exit 1) ∧
  ∀ (n : Nat) (A : Fin n → Fin n → ℚ), mulAssign false (mat A) none = .ok (mat fun i j => ∑ k, A i k * A k j)

/-- C40 for the class sized at run time, where it is true: `*=` of different objects is the matrix product. -/
theorem c40_assign_partial [CommRing α] {r n c : Nat} (hr : r = 0 → n = 0) (hn : n = 0 → c = 0) (A : Fin r → Fin n → α)
    (B : Fin n → Fin c → α) : mulAssign false (mat A) (some (mat B)) = .ok (mat fun i j => ∑ k, A i k * B k j) := by
  unfold mulAssign
  simp only [Option.getD_some, Bool.false_eq_true, if_false, sizeColumn_mat hr, sizeColumn_mat hn, mat_length,
    beq_self_eq_true, assert_true, Out.ok_bind, zeros_eq]
  rw [mulLoops (Nat.le_refl n) A B, partialSum_mul]

/-- C40 for the class of fixed size, square, where it is true. -/
theorem c40_assign_square_partial [CommRing α] {n : Nat} (A B : Fin n → Fin n → α) :
    mulAssign true (mat A) (some (mat B)) = .ok (mat fun i j => ∑ k, A i k * B k j) := by
  unfold mulAssign
  simp only [Option.getD_some, if_true, sizeColumn_mat (show n = 0 → n = 0 from id), mat_length, sameSize_eq, assert_true,
    Out.ok_bind, zeros_eq]
  rw [mulLoops (Nat.le_refl n) A B, partialSum_mul]

/-- C40 for `*` with one of the matrices sized at run time, where it is true. -/
theorem c40_product_partial [CommRing α] {d e : Dims} {r n c : Nat} (hd : SizedMat d r n) (he : SizedMat e n c)
    (hde : d = none ∨ e = none) (A : Fin r → Fin n → α) (B : Fin n → Fin c → α) :
    matMul d e (mat A) (mat B) = .ok (mat fun i j => ∑ k, A i k * B k j) := by
  have hr := sizedMat_none hd
  have hn := sizedMat_none he
  have hdem : demote d e = none := by
    rcases hde with rfl | rfl
    · rfl
    · cases d <;> rfl
  unfold matMul
  simp only [sizeColumn_mat hr, mat_length, beq_self_eq_true, assert_true, Out.ok_bind, hdem, Option.isSome_none]
  rw [matOf_ok (d := none) hr A (fun i j => rd2_mat _ i.2 j.2), Out.ok_bind]
  exact c40_assign_partial hr hn A B

/-- C40 for `*` on square matrices of fixed size, where it is true. -/
theorem c40_product_square_partial [CommRing α] {n : Nat} (hn : n ≠ 0) (A B : Fin n → Fin n → α) :
    matMul (some (n, n)) (some (n, n)) (mat A) (mat B) = .ok (mat fun i j => ∑ k, A i k * B k j) := by
  unfold matMul
  simp only [sizeColumn_mat (show n = 0 → n = 0 from id), mat_length, beq_self_eq_true, assert_true, Out.ok_bind, demote,
    Option.isSome_some]
  rw [matOf_ok (d := some (n, n)) ⟨rfl, rfl, hn, hn⟩ A (fun i j => rd2_mat _ i.2 j.2), Out.ok_bind]
  exact c40_assign_square_partial A B

/-- C40: matrices whose sizes do not match are rejected by the class sized at run time, and by `*` always. -/
theorem c40_mismatch_partial [CommRing α] {d e : Dims} {r c r' c' : Nat} (hd : SizedMat d r c) (h : c ≠ r')
    (A : Fin r → Fin c → α) (B : Fin r' → Fin c' → α) :
    mulAssign false (mat A) (some (mat B)) = .exit 1 ∧ matMul d e (mat A) (mat B) = .exit 1 := by
  have hr := sizedMat_none hd
  constructor
  · unfold mulAssign
    simp [sizeColumn_mat hr, beq_false_of_ne h]
  · unfold matMul
    simp [sizeColumn_mat hr, beq_false_of_ne h]

/-- C40, not as claimed: `*` exits on matrices of fixed sizes unless both are square. -/
theorem c40_product_fixed [CommRing α] {r n c : Nat} (hr : r ≠ 0) (hn : n ≠ 0) (hne : ¬ (r = n ∧ n = c))
    (A : Fin r → Fin n → α) (B : Fin n → Fin c → α) :
    matMul (some (r, n)) (some (n, c)) (mat A) (mat B) = .exit 1 := by
  have hr' : r = 0 → n = 0 := fun h => absurd h hr
  have hn' : n = 0 → c = 0 := fun h => absurd h hn
  unfold matMul
  simp only [sizeColumn_mat hr', mat_length, beq_self_eq_true, assert_true, Out.ok_bind, demote, Option.isSome_some]
  by_cases hnc : n = c
  · subst hnc
    rw [matOf_ok (d := some (r, n)) ⟨rfl, rfl, hr, hn⟩ A (fun i j => rd2_mat _ i.2 j.2), Out.ok_bind]
    unfold mulAssign
    have : sameSize (mat A) (mat B) = false := by
      rw [sameSize_mat hr' hn']
      simpa using hne
    simp [this]
  · simp [matOf, beq_false_of_ne hnc]

/-- C40, not as claimed: `*=` on matrices of the same fixed size that are not square.  Wide matrices lose the columns behind
the number of rows; tall ones are undefined behaviour.  Other sizes exit, also where the product exists. -/
theorem c40_assign_fixed [CommRing α] {r c : Nat} (hr : r ≠ 0) (hc : c ≠ 0) (A B : Fin r → Fin c → α) :
    (∀ h : r ≤ c, mulAssign true (mat A) (some (mat B)) =
      .ok (mat fun i j => ∑ k : Fin r, A i (k.castLE h) * B k j)) ∧
    (c < r → mulAssign true (mat A) (some (mat B)) = .ub) ∧
    ∀ (r' c' : Nat) (B : Fin r' → Fin c' → α), r' ≠ 0 → (r, c) ≠ (r', c') →
      mulAssign true (mat A) (some (mat B)) = .exit 1 := by
  have hr' : r = 0 → c = 0 := fun h => absurd h hr
  refine ⟨?_, ?_, ?_⟩
  · intro h
    unfold mulAssign
    simp only [Option.getD_some, if_true, sizeColumn_mat hr', mat_length, sameSize_eq, assert_true, Out.ok_bind, zeros_eq]
    rw [mulLoops h A B]
    congr 2
    funext i j
    rw [partialSum_sum _ _ _ _ le_rfl]
    apply Finset.sum_congr rfl
    intro l _
    rw [if_pos l.2]
  · intro h
    unfold mulAssign
    simp only [Option.getD_some, if_true, sizeColumn_mat hr', mat_length, sameSize_eq, assert_true, Out.ok_bind, zeros_eq]
    exact mulLoops_ub h (by omega) (by omega) A B
  · intro r' c' B hr2 hne
    unfold mulAssign
    have : sameSize (mat A) (mat B) = false := by
      rw [sameSize_mat hr' (fun h => absurd h hr2)]
      rw [ne_eq, Prod.mk.injEq] at hne
      simpa using hne
    simp [this]

/-- C40, not as claimed: `A *= A` gives the zero matrix, in both classes. -/
theorem c40_self [CommRing α] (fixed : Bool) {n : Nat} (A : Fin n → Fin n → α) :
    mulAssign fixed (mat A) none = .ok (mat (0 : Fin n → Fin n → α)) := by
  unfold mulAssign
  cases fixed with
  | true =>
    simp only [Option.getD_none, if_true, sizeColumn_mat (show n = 0 → n = 0 from id), mat_length, sameSize_self, assert_true,
      Out.ok_bind, zeros_eq]
    exact mulLoops_self A
  | false =>
    simp only [Option.getD_none, Bool.false_eq_true, if_false, sizeColumn_mat (show n = 0 → n = 0 from id), mat_length,
      beq_self_eq_true, assert_true, Out.ok_bind, zeros_eq]
    exact mulLoops_self A

/-- C40 is violated in each of its parts. -/
theorem c40_violated : ¬ C40 ∧
    (∃ (A : Fin 2 → Fin 3 → ℚ) (B : Fin 3 → Fin 2 → ℚ),
      matMul (some (2, 3)) (some (3, 2)) (mat A) (mat B) ≠ .ok (mat fun i j => ∑ k, A i k * B k j)) ∧
    (∃ A B : Fin 2 → Fin 3 → ℚ, mulAssign true (mat A) (some (mat B)) ≠ .exit 1) ∧
    ∃ A : Fin 1 → Fin 1 → ℚ, mulAssign false (mat A) none ≠ .ok (mat fun i j => ∑ k, A i k * A k j) := by
  have h1 : ∃ (A : Fin 2 → Fin 3 → ℚ) (B : Fin 3 → Fin 2 → ℚ),
      matMul (some (2, 3)) (some (3, 2)) (mat A) (mat B) ≠ .ok (mat fun i j => ∑ k, A i k * B k j) :=
    ⟨0, 0, by rw [c40_product_fixed (by decide) (by decide) (by decide)]; intro h; cases h⟩
  refine ⟨?_, h1, ⟨0, 0, ?_⟩, ⟨1, ?_⟩⟩
  · intro h
    obtain ⟨A, B, hne⟩ := h1
    exact hne (h.1 2 3 2 A B (by decide) (by decide) (by decide))
  · rw [(c40_assign_fixed (by decide) (by decide) _ _).1 (by decide)]; intro h; cases h
  · rw [c40_self, ne_eq, Out.ok.injEq, mat_inj]
    intro h
    have := congrFun (congrFun h 0) 0
    simp at this

example : mulAssign false [[1, 2], [3, 4], [5, (6 : ℚ)]] (some [[1], [2]]) = .ok [[5], [11], [17]] := by decide +kernel
example : mulAssign true [[1, 2], [3, 4], [5, (6 : ℚ)]] (some [[1, 2], [3, 4], [5, 6]]) = .ub := by decide +kernel

/-! ### C41 -/

/-- The claim of C41. -/
def C41 : Prop := ∀ (r c : Nat) (M : Fin r → Fin c → ℚ) (x : Fin c → ℚ), r ≠ 0 →
  matVec 0 0 (mat M) (vec x) = .ok (vec fun i => ∑ j, M i j * x j)

/-- C41 for square matrices, where it is true, in all classes. -/
theorem c41_square_partial [CommRing α] {row s n : Nat} (hrow : Sized row n) (hs : Sized s n) (M : Fin n → Fin n → α)
    (x : Fin n → α) : matVec row s (mat M) (vec x) = .ok (vec fun i => ∑ j, M i j * x j) :=
  matVec_ok (sized_promote hrow hs) id (Nat.le_refl n) M x

/-- C41, not as claimed: with fewer rows than columns the call is undefined behaviour. -/
theorem c41_wide [CommRing α] {s r c : Nat} (hs : Sized s c) (hr : r ≠ 0) (hrc : r < c) (M : Fin r → Fin c → α)
    (x : Fin c → α) : matVec 0 s (mat M) (vec x) = .ub :=
  matVec_ub (by simpa [promote] using hs) (fun h => absurd h hr) hrc M x

/-- C41, not as claimed: with more rows than columns the entries behind the number of columns are missing. -/
theorem c41_tall [CommRing α] {s r c : Nat} (hs : Sized s c) (hrc : c < r) (M : Fin r → Fin c → α) (x : Fin c → α) :
    matVec 0 s (mat M) (vec x) = .ok (List.take c (vec fun i => ∑ j, M i j * x j)) := by
  rw [matVec_ok (by simpa [promote] using hs) (fun h => by omega) (Nat.le_of_lt hrc) M x, Out.ok.injEq]
  apply List.ext_getElem
  · simp; omega
  · intro i h1 h2
    simp [vec]
    rfl

/-- C41, not as claimed: a matrix of fixed size that is not square is rejected. -/
theorem c41_fixed [CommRing α] {s r c : Nat} (hr : r ≠ 0) (hrc : r ≠ c) (M : Fin r → Fin c → α) (x : Fin c → α) :
    matVec r s (mat M) (vec x) = .exit 1 :=
  matVec_fixed_exit (by simp [promote, hr, Sized, hrc]) (fun h => absurd h hr) M x

/-- C41: a vector of the wrong size is rejected. -/
theorem c41_mismatch [CommRing α] (row s : Nat) {r c n : Nat} (hr : r ≠ 0) (hn : c ≠ n) (M : Fin r → Fin c → α)
    (x : Fin n → α) : matVec row s (mat M) (vec x) = .exit 1 := by
  unfold matVec
  simp [sizeColumn_mat (show r = 0 → c = 0 from fun h => absurd h hr), beq_false_of_ne hn]

theorem c41_violated : ¬ C41 := by
  intro h
  have := h 1 2 0 0 (by decide)
  rw [c41_wide (.inl rfl) (by decide) (by decide)] at this
  cases this

example : matVec 0 2 [[1, 2], [3, (4 : ℚ)]] [5, 6] = .ok [17, 39] := by decide +kernel
example : matVec 0 0 [[1, 2], [3, 4], [5, (6 : ℚ)]] [1, 1] = .ok [3, 7] := by decide +kernel

/-! ### C73: the cross product -/

/-- The claim of C73 for vectors with two elements: the result is the vector along the third axis. -/
def C73 : Prop := ∀ (s t : Nat) (x y : Fin 2 → ℚ), Sized s 2 → Sized t 2 →
  cross s t (vec x) (vec y) = .ok [0, 0, x 0 * y 1 - x 1 * y 0]

theorem cross_two [CommRing α] (s t : Nat) (x y : Fin 2 → α) :
    cross s t (vec x) (vec y) = vecList (promote s t) [0, 0, x 0 * y 1 - x 1 * y 0] := by
  simp [cross, rd_vec _ (show 0 < 2 by decide), rd_vec _ (show 1 < 2 by decide)]

theorem cross_three [CommRing α] (s t : Nat) (x y : Fin 3 → α) :
    cross s t (vec x) (vec y) = vecList (promote s t)
      [x 1 * y 2 - x 2 * y 1, x 2 * y 0 - x 0 * y 2, x 0 * y 1 - x 1 * y 0] := by
  simp [cross, rd_vec _ (show 0 < 3 by decide), rd_vec _ (show 1 < 3 by decide), rd_vec _ (show 2 < 3 by decide)]

/-- C73, not as claimed: with two elements and a fixed size the call exits. -/
theorem c73_fixed [CommRing α] {s t : Nat} (hs : Sized s 2) (ht : Sized t 2) (h : s ≠ 0 ∨ t ≠ 0) (x y : Fin 2 → α) :
    cross s t (vec x) (vec y) = .exit 1 := by
  rw [cross_two]
  apply vecList_exit
  have : promote s t = 2 := by
    unfold promote
    rcases hs with rfl | rfl
    · rcases ht with rfl | rfl
      · simp at h
      · rfl
    · rfl
  simp [this, Sized]

theorem c73_violated : ¬ C73 := by
  intro h
  have := h 2 2 0 0 (.inr rfl) (.inr rfl)
  rw [c73_fixed (.inr rfl) (.inr rfl) (by decide)] at this
  cases this

/-- C73 where it is true: vectors sized at run time. -/
theorem c73_partial [CommRing α] (x y : Fin 2 → α) : cross 0 0 (vec x) (vec y) = .ok [0, 0, x 0 * y 1 - x 1 * y 0] := by
  rw [cross_two]
  exact vecList_ok (.inl rfl)

example : cross 0 0 [1, 2] [3, (4 : ℚ)] = .ok [0, 0, -2] ∧ cross 2 2 [1, 2] [3, (4 : ℚ)] = .exit 1 := by decide +kernel

end Disa.Props
