import Verif.Dense.Geometry
import Verif.Dense.Vec
import Mathlib.Analysis.MeanInequalities
import Mathlib.Tactic.LinearCombination
import Mathlib.Tactic.FieldSimp
import Mathlib.Tactic.Ring
import Mathlib.Tactic.NormNum.Inv

/-!
# Properties C39 and C75 to C78: norms, angles and projections
-/

namespace Disa.Props

open Disa Spec Dense

/-! ### Sums -/

theorem foldl_vec {n : Nat} (f : ℝ → ℝ) (x : Fin n → ℝ) : (vec x).foldl (fun a b => a + f b) 0 = ∑ i, f (x i) := by
  have key : ∀ (l : List ℝ) (a : ℝ), l.foldl (fun a b => a + f b) a = a + (l.map f).sum := by
    intro l
    induction l with
    | nil => simp
    | cons b l ih => intro a; simp [ih, add_assoc]
  rw [key, zero_add, vec, List.map_ofFn, List.sum_ofFn]
  rfl

theorem smul_vec {n : Nat} (x : Fin n → ℝ) (a : ℝ) : smul a (vec x) = .ok (vec fun i => a * x i) := by
  have := scale_val (· * ·) x a
  simpa [smul, mulScalar, mul_comm] using this

/-- The length of a vector. -/
noncomputable def len {n : Nat} (x : Fin n → ℝ) : ℝ := √(∑ i, x i * x i)

theorem sum_sq_nonneg {n : Nat} (x : Fin n → ℝ) : 0 ≤ ∑ i, x i * x i := Finset.sum_nonneg fun i _ => mul_self_nonneg _

theorem len_sq {n : Nat} (x : Fin n → ℝ) : len x * len x = ∑ i, x i * x i := Real.mul_self_sqrt (sum_sq_nonneg x)

theorem len_nonneg {n : Nat} (x : Fin n → ℝ) : 0 ≤ len x := Real.sqrt_nonneg _

theorem len_eq_zero {n : Nat} {x : Fin n → ℝ} : len x = 0 ↔ x = 0 := by
  unfold len
  rw [Real.sqrt_eq_zero (sum_sq_nonneg x), Finset.sum_eq_zero_iff_of_nonneg (fun i _ => mul_self_nonneg _)]
  constructor
  · intro h
    funext i
    simpa using h i (Finset.mem_univ i)
  · rintro rfl
    simp

theorem lpNorm_two {n : Nat} (x : Fin n → ℝ) : lpNorm 2 (vec x) = .ok (len x) := by
  simp only [lpNorm, len]
  rw [foldl_vec (fun b => b * b)]

/-- The unit vector that the code computes. -/
noncomputable def dir {n : Nat} (x : Fin n → ℝ) : Fin n → ℝ := fun i => x i * (if len x = 0 then 0 else 1 / len x)

theorem unit_ok {n : Nat} (x : Fin n → ℝ) : unit (vec x) = .ok (vec (dir x)) := by
  unfold unit
  rw [lpNorm_two, Out.ok_bind]
  have := scale_val (· * ·) x (if len x = 0 then 0 else 1 / len x)
  simp only [mulScalar, vec_length]
  exact this

/-! ### C39 -/

/-- C39: the dot product is symmetric, whatever the sizes. -/
theorem c39_dot_symmetric (v w : List ℝ) : dot v w = dot w v := by
  by_cases h : v.length = w.length
  · obtain ⟨x, hx⟩ := vec_get v
    obtain ⟨y, hy⟩ := vec_get w
    generalize hn : v.length = n at h x hx
    generalize w.length = m at h y hy
    subst h
    rw [hx, hy, dot_ok, dot_ok, dotProduct_comm]
  · rw [dot_exit h, dot_exit (Ne.symm h)]

/-- C39: the dot product is the sum of the products, hence bilinear, and positive. -/
theorem c39_dot_bilinear {n : Nat} (x y z : Fin n → ℝ) (a b : ℝ) :
    dot (vec x) (vec y) = .ok (∑ i, x i * y i) ∧
    (∃ d e, dot (vec x) (vec z) = .ok d ∧ dot (vec y) (vec z) = .ok e ∧
      dot (vec fun i => a * x i + b * y i) (vec z) = .ok (a * d + b * e)) ∧
    (∃ d, dot (vec x) (vec x) = .ok d ∧ 0 ≤ d ∧ (d = 0 ↔ x = 0)) := by
  refine ⟨dot_ok x y, ⟨_, _, dot_ok x z, dot_ok y z, ?_⟩, _, dot_ok x x, sum_sq_nonneg x, ?_⟩
  · rw [dot_ok, Out.ok.injEq]
    simp only [dotProduct, Finset.mul_sum, ← Finset.sum_add_distrib]
    apply Finset.sum_congr rfl
    intro i _
    ring
  · rw [← len_eq_zero, len, Real.sqrt_eq_zero (sum_sq_nonneg x)]
    rfl

/-- C39: vectors of different sizes are rejected. -/
theorem c39_dot_sizes (v w : List ℝ) (h : v.length ≠ w.length) : dot v w = .exit 1 := dot_exit h

theorem len_dir {n : Nat} {x : Fin n → ℝ} (h : x ≠ 0) : len (dir x) = 1 := by
  have h0 : len x ≠ 0 := fun h' => h (len_eq_zero.mp h')
  have : ∑ i, dir x i * dir x i = 1 := by
    have : ∀ i, dir x i * dir x i = (x i * x i) * (1 / (len x * len x)) := by
      intro i
      simp only [dir, if_neg h0]
      field_simp
    simp only [this, ← Finset.sum_mul, ← len_sq]
    field_simp
  unfold len
  rw [this, Real.sqrt_one]

/-- C39: `unit` of a vector that is not zero has norm one and points in the same direction; the zero vector stays zero. -/
theorem c39_unit {n : Nat} (x : Fin n → ℝ) :
    ∃ u, unit (vec x) = .ok (vec u) ∧
      (x ≠ 0 → lpNorm 2 (vec u) = .ok 1 ∧ ∃ c, 0 < c ∧ lpNorm 2 (vec x) = .ok c ∧ ∀ i, x i = c * u i) ∧ (x = 0 → u = 0) := by
  refine ⟨dir x, unit_ok x, ?_, ?_⟩
  · intro h
    have h0 : len x ≠ 0 := fun h' => h (len_eq_zero.mp h')
    refine ⟨by rw [lpNorm_two, len_dir h], len x, lt_of_le_of_ne (len_nonneg x) (Ne.symm h0), lpNorm_two x, fun i => ?_⟩
    simp only [dir, if_neg h0]
    field_simp
  · rintro rfl
    funext i
    simp [dir]

/-- C39: the cross product in three dimensions is orthogonal to both arguments, changes sign when they are swapped, and its
length is that of the parallelogram. -/
theorem c39_cross {s t : Nat} (hs : Sized s 3) (ht : Sized t 3) (x y : Fin 3 → ℝ) :
    ∃ z : Fin 3 → ℝ, cross s t (vec x) (vec y) = .ok (vec z) ∧ dot (vec x) (vec z) = .ok 0 ∧ dot (vec y) (vec z) = .ok 0 ∧
      cross t s (vec y) (vec x) = .ok (vec fun i => - z i) ∧
      ∑ i, z i * z i = (∑ i, x i * x i) * (∑ i, y i * y i) - (∑ i, x i * y i) * (∑ i, x i * y i) := by
  have key : ∀ {s t : Nat}, Sized s 3 → Sized t 3 → ∀ x y : Fin 3 → ℝ, cross s t (vec x) (vec y) =
      .ok [x 1 * y 2 - x 2 * y 1, x 2 * y 0 - x 0 * y 2, x 0 * y 1 - x 1 * y 0] := by
    intro s t hs ht x y
    have hp : Sized (promote s t) 3 := sized_promote hs ht
    simp [cross, rd_vec _ (show 0 < 3 by decide), rd_vec _ (show 1 < 3 by decide), rd_vec _ (show 2 < 3 by decide)]
    exact vecList_ok hp
  refine ⟨![x 1 * y 2 - x 2 * y 1, x 2 * y 0 - x 0 * y 2, x 0 * y 1 - x 1 * y 0], ?_, ?_, ?_, ?_, ?_⟩
  · rw [key hs ht]; simp [vec]
  · rw [dot_ok, Out.ok.injEq, dotProduct, Fin.sum_univ_three]; simp; ring
  · rw [dot_ok, Out.ok.injEq, dotProduct, Fin.sum_univ_three]; simp; ring
  · rw [key ht hs]; simp [vec, mul_comm]
  · simp only [Fin.sum_univ_three]; simp; ring

theorem projectionTangent_ok {s t n : Nat} (hs : Sized s n) (ht : Sized t n) (x : Fin n → ℝ) {y : Fin n → ℝ} (hy : y ≠ 0) :
    projectionTangent s t (vec x) (vec y) = .ok (vec fun i => (x ⬝ᵥ y) * y i) := by
  have h0 : len y ≠ 0 := fun h' => hy (len_eq_zero.mp h')
  unfold projectionTangent
  simp only [lpNorm_two, Out.ok_bind, h0, ne_eq, not_false_iff, decide_true, assert_true, vec_length, beq_self_eq_true, dot_ok]
  rw [vecOf_ok (sized_promote hs ht) y (fun i => rd_vec y i.2), Out.ok_bind, smul_vec]

theorem projectionOrthogonal_ok {s t n : Nat} (hs : Sized s n) (ht : Sized t n) (x : Fin n → ℝ) {y : Fin n → ℝ} (hy : y ≠ 0) :
    projectionOrthogonal s t (vec x) (vec y) = .ok (vec fun i => x i - (x ⬝ᵥ y) * y i) := by
  unfold projectionOrthogonal
  simp only [vec_length, beq_self_eq_true, assert_true, Out.ok_bind]
  rw [vecOf_ok (sized_promote hs ht) x (fun i => rd_vec x i.2), Out.ok_bind, projectionTangent_ok hs ht x hy, Out.ok_bind,
    sub_ok (sized_promote hs ht) (sized_promote hs ht)]
  rfl

/-- C39: for a direction of norm one the projections sum to the vector, are orthogonal to each other, and are along and
orthogonal to the direction. -/
theorem c39_projections {s t n : Nat} (hs : Sized s n) (ht : Sized t n) (x y : Fin n → ℝ) (hy : lpNorm 2 (vec y) = .ok 1) :
    ∃ p q : Fin n → ℝ, projectionTangent s t (vec x) (vec y) = .ok (vec p) ∧
      projectionOrthogonal s t (vec x) (vec y) = .ok (vec q) ∧ (∀ i, p i + q i = x i) ∧ dot (vec p) (vec q) = .ok 0 ∧
      (∃ c, ∀ i, p i = c * y i) ∧ dot (vec q) (vec y) = .ok 0 := by
  rw [lpNorm_two, Out.ok.injEq] at hy
  have hy0 : y ≠ 0 := by
    intro h
    rw [len_eq_zero.mpr h] at hy
    exact one_ne_zero hy.symm
  have hyy : ∑ i, y i * y i = 1 := by rw [← len_sq, hy, mul_one]
  have horth : ∑ i, (x i - (x ⬝ᵥ y) * y i) * y i = 0 := by
    have : ∀ i, (x i - (x ⬝ᵥ y) * y i) * y i = x i * y i - (x ⬝ᵥ y) * (y i * y i) := fun i => by ring
    simp only [this, Finset.sum_sub_distrib, ← Finset.mul_sum, hyy, mul_one]
    exact sub_self _
  refine ⟨_, _, projectionTangent_ok hs ht x hy0, projectionOrthogonal_ok hs ht x hy0, fun i => by ring, ?_,
    ⟨x ⬝ᵥ y, fun i => rfl⟩, ?_⟩
  · rw [dot_ok, Out.ok.injEq, dotProduct]
    have : ∀ i, (x ⬝ᵥ y) * y i * (x i - (x ⬝ᵥ y) * y i) = (x ⬝ᵥ y) * ((x i - (x ⬝ᵥ y) * y i) * y i) := fun i => by ring
    simp only [this, ← Finset.mul_sum, horth, mul_zero]
  · rw [dot_ok, Out.ok.injEq]
    exact horth

/-- C39: vectors of different sizes are rejected by all operations on two vectors. -/
theorem c39_sizes (s t : Nat) (radians : Bool) (v w : List ℝ) (h : v.length ≠ w.length) :
    dot v w = .exit 1 ∧ cross s t v w = .exit 1 ∧ angle radians v w = .exit 1 ∧ projectionTangent s t v w = .exit 1 ∧
      projectionOrthogonal s t v w = .exit 1 := by
  have h' : (v.length == w.length) = false := by simpa using h
  refine ⟨by simp [dot, h'], by simp [cross, h'], by simp [angle, h'], ?_, by simp [projectionOrthogonal, h']⟩
  unfold projectionTangent lpNorm
  simp only [Out.ok_bind, h']
  by_cases h0 : √(w.foldl (fun a b => a + b * b) 0) = 0 <;> simp [h0]

/-- C39: angles and cross products exist for two or three elements only. -/
theorem c39_dimensions (s t : Nat) (radians : Bool) (v w : List ℝ) (h2 : v.length ≠ 2) (h3 : v.length ≠ 3) :
    cross s t v w = .exit 1 ∧ angle radians v w = .exit 1 := by
  by_cases h : v.length = w.length
  · have h2' : (v.length == 2) = false := by simpa using h2
    have h3' : (v.length == 3) = false := by simpa using h3
    have h' : (v.length == w.length) = true := by simpa using h
    constructor
    · simp only [cross, h', h2', h3', Bool.or_self, assert_true, Out.ok_bind]
      rfl
    · simp only [angle, h', h2', h3', Bool.or_self, assert_true, Out.ok_bind]
      rfl
  · obtain ⟨-, e1, e2, -⟩ := c39_sizes s t radians v w h
    exact ⟨e1, e2⟩

example : dot [(1 : ℝ), 2] [3] = .exit 1 ∧ cross 0 0 [(1 : ℝ)] [2] = .exit 1 :=
  ⟨(c39_sizes 0 0 true _ _ (by simp)).1, (c39_dimensions 0 0 true _ _ (by simp) (by simp)).1⟩

example : ∃ u : Fin 2 → ℝ, unit (vec ![3, 4]) = .ok (vec u) ∧ lpNorm 2 (vec u) = .ok 1 := by
  obtain ⟨u, h1, h2, _⟩ := c39_unit ![3, 4]
  exact ⟨u, h1, (h2 (fun h => by have := congrFun h 0; simp at this)).1⟩
example : lpNorm 2 (vec ![0, 1, 0]) = .ok 1 := by rw [lpNorm_two]; simp [len, Fin.sum_univ_three]

/-! ### C78: only unit directions are accepted -/

/-- The claim: a direction that is not of norm one is rejected. -/
def C78 : Prop := ∀ (n : Nat) (x y : Fin n → ℝ), lpNorm 2 (vec y) ≠ .ok 1 →
  projectionTangent 0 0 (vec x) (vec y) = .exit 1 ∧ projectionOrthogonal 0 0 (vec x) (vec y) = .exit 1

/-- C78: exactly the zero vector is rejected; other vectors are used as if they were of norm one. -/
theorem c78_exact {s t n : Nat} (hs : Sized s n) (ht : Sized t n) (x y : Fin n → ℝ) :
    projectionTangent s t (vec x) (vec y) = (if y = 0 then .exit 1 else .ok (vec fun i => (∑ j, x j * y j) * y i)) ∧
    projectionOrthogonal s t (vec x) (vec y) =
      (if y = 0 then .exit 1 else .ok (vec fun i => x i - (∑ j, x j * y j) * y i)) := by
  by_cases hy : y = 0
  · rw [if_pos hy, if_pos hy]
    have h1 : projectionTangent s t (vec x) (vec y) = .exit 1 := by
      unfold projectionTangent
      rw [lpNorm_two, Out.ok_bind, len_eq_zero.mpr hy]
      simp
    refine ⟨h1, ?_⟩
    unfold projectionOrthogonal
    simp only [vec_length, beq_self_eq_true, assert_true, Out.ok_bind]
    rw [vecOf_ok (sized_promote hs ht) x (fun i => rd_vec x i.2), Out.ok_bind, h1]
    rfl
  · rw [if_neg hy, if_neg hy]
    exact ⟨projectionTangent_ok hs ht x hy, projectionOrthogonal_ok hs ht x hy⟩

theorem c78_violated : ¬ C78 := by
  intro h
  have hne : (fun _ : Fin 1 => (2 : ℝ)) ≠ 0 := fun h => by have := congrFun h 0; simp at this
  have h1 := (h 1 (fun _ => 1) (fun _ => 2) (by
    rw [lpNorm_two, ne_eq, Out.ok.injEq]
    intro h
    have h2 := len_sq (fun _ : Fin 1 => (2 : ℝ))
    rw [h] at h2
    norm_num at h2)).1
  rw [(c78_exact (.inl rfl) (.inl rfl) _ _).1, if_neg hne] at h1
  cases h1

/-! ### C75: `lp_norm` is a norm -/

theorem c75_value {n : Nat} (p : Nat) (hp : p ≠ 0) (x : Fin n → ℝ) :
    lpNorm p (vec x) = .ok ((∑ i, |x i| ^ p) ^ (1 / (p : ℝ))) := by
  match p, hp with
  | 1, _ =>
    simp only [lpNorm]
    rw [foldl_vec (fun b => |b|)]
    simp
  | 2, _ =>
    rw [lpNorm_two, Out.ok.injEq, len, Real.sqrt_eq_rpow]
    congr 1
    apply Finset.sum_congr rfl
    intro i _
    rw [sq_abs, sq]
  | 3, _ =>
    simp only [lpNorm]
    rw [foldl_vec (fun b => |b| * |b| * |b|), Out.ok.injEq]
    congr 1
    apply Finset.sum_congr rfl
    intro i _
    ring
  | p + 4, _ =>
    simp only [lpNorm]
    rw [foldl_vec (fun b => (if (p + 4) % 2 = 0 then b else |b|) ^ (p + 4)), Out.ok.injEq]
    congr 1
    apply Finset.sum_congr rfl
    intro i _
    split
    · rename_i h
      exact (Even.pow_abs (Nat.even_iff.mpr h) _).symm
    · rfl

theorem foldl_max (l : List ℝ) (a : ℝ) :
    (∀ b ∈ a :: l, |b| ≤ |l.foldl (fun m x => if decide (|m| < |x|) = true then x else m) a|) ∧
      l.foldl (fun m x => if decide (|m| < |x|) = true then x else m) a ∈ a :: l := by
  induction l generalizing a with
  | nil => simp
  | cons c l ih =>
    rw [List.foldl_cons]
    by_cases h : |a| < |c|
    · rw [if_pos (by simpa using h)]
      obtain ⟨h1, h2⟩ := ih c
      refine ⟨fun b hb => ?_, List.mem_cons_of_mem _ h2⟩
      rcases List.mem_cons.mp hb with rfl | hb
      · exact le_trans (le_of_lt h) (h1 c (by simp))
      · exact h1 b hb
    · rw [if_neg (by simpa using h)]
      obtain ⟨h1, h2⟩ := ih a
      refine ⟨fun b hb => ?_, ?_⟩
      · rcases List.mem_cons.mp hb with rfl | hb
        · exact h1 b (by simp)
        · rcases List.mem_cons.mp hb with rfl | hb
          · exact le_trans (le_of_not_gt h) (h1 a (by simp))
          · exact h1 b (by simp [hb])
      · rcases List.mem_cons.mp h2 with h2 | h2
        · rw [h2]; simp
        · exact List.mem_cons_of_mem _ (List.mem_cons_of_mem _ h2)

theorem c75_max {n : Nat} (hn : n ≠ 0) (x : Fin n → ℝ) :
    ∃ m, lpNorm 0 (vec x) = .ok m ∧ (∀ i, |x i| ≤ m) ∧ ∃ i, |x i| = m := by
  have hmem : ∀ i, x i ∈ vec x := fun i => List.mem_ofFn.mpr ⟨i, rfl⟩
  have hof : ∀ a ∈ vec x, ∃ i, x i = a := fun a ha => List.mem_ofFn.mp ha
  cases hv : vec x with
  | nil =>
    have := congrArg List.length hv
    rw [vec_length] at this
    exact absurd this hn
  | cons a l =>
    obtain ⟨h1, h2⟩ := foldl_max l a
    refine ⟨_, rfl, fun i => h1 _ (hv ▸ hmem i), ?_⟩
    obtain ⟨i, hi⟩ := hof _ (hv.symm ▸ h2)
    exact ⟨i, congrArg _ hi⟩

/-- The laws of a norm for a function. -/
def IsNorm {n : Nat} (N : (Fin n → ℝ) → ℝ) : Prop :=
  (∀ x, 0 ≤ N x) ∧ (∀ x, N x = 0 ↔ x = 0) ∧ (∀ (a : ℝ) x, N (fun i => a * x i) = |a| * N x) ∧
    ∀ x y, N (fun i => x i + y i) ≤ N x + N y

/-- The claim of C75. -/
def C75 : Prop := ∀ p n : Nat, ∃ N : (Fin n → ℝ) → ℝ, (∀ x, lpNorm p (vec x) = .ok (N x)) ∧ IsNorm N

/-- C75, where it is true: except for the maximum norm of vectors without elements. -/
theorem c75_norm_partial (p n : Nat) (h : p = 0 → n ≠ 0) :
    ∃ N : (Fin n → ℝ) → ℝ, (∀ x, lpNorm p (vec x) = .ok (N x)) ∧ IsNorm N := by
  by_cases hp : p = 0
  · subst hp
    have hn := h rfl
    choose N h1 h2 h3 using fun x : Fin n → ℝ => c75_max hn x
    refine ⟨N, h1, ?_, ?_, ?_, ?_⟩
    · intro x
      obtain ⟨i, hi⟩ := h3 x
      exact hi ▸ abs_nonneg _
    · intro x
      constructor
      · intro hx
        funext i
        have := h2 x i
        rw [hx] at this
        exact abs_nonpos_iff.mp this
      · rintro rfl
        obtain ⟨i, hi⟩ := h3 0
        rw [← hi]; simp
    · intro a x
      apply le_antisymm
      · obtain ⟨i, hi⟩ := h3 (fun i => a * x i)
        rw [← hi, abs_mul]
        exact mul_le_mul_of_nonneg_left (h2 x i) (abs_nonneg a)
      · obtain ⟨i, hi⟩ := h3 x
        rw [← hi, ← abs_mul]
        exact h2 (fun i => a * x i) i
    · intro x y
      obtain ⟨i, hi⟩ := h3 (fun i => x i + y i)
      rw [← hi]
      exact le_trans (abs_add_le _ _) (add_le_add (h2 x i) (h2 y i))
  · have hp0 : (p : ℝ) ≠ 0 := Nat.cast_ne_zero.mpr hp
    have hp1 : (1 : ℝ) ≤ p := by exact_mod_cast Nat.one_le_iff_ne_zero.mpr hp
    have hsum : ∀ x : Fin n → ℝ, 0 ≤ ∑ i, |x i| ^ p := fun x => Finset.sum_nonneg fun i _ => pow_nonneg (abs_nonneg _) _
    refine ⟨fun x => (∑ i, |x i| ^ p) ^ (1 / (p : ℝ)), fun x => c75_value p hp x, ?_, ?_, ?_, ?_⟩
    · intro x
      exact Real.rpow_nonneg (hsum x) _
    · intro x
      rw [Real.rpow_eq_zero (hsum x) (one_div_ne_zero hp0),
        Finset.sum_eq_zero_iff_of_nonneg (fun i _ => pow_nonneg (abs_nonneg _) _)]
      constructor
      · intro hx
        funext i
        simpa [hp] using hx i (Finset.mem_univ i)
      · rintro rfl
        simp [hp]
    · intro a x
      simp only [abs_mul, mul_pow, ← Finset.mul_sum]
      rw [Real.mul_rpow (pow_nonneg (abs_nonneg a) p) (hsum x)]
      congr 1
      rw [← Real.rpow_natCast, ← Real.rpow_mul (abs_nonneg a), mul_one_div_cancel hp0, Real.rpow_one]
    · intro x y
      have := Real.Lp_add_le Finset.univ x y hp1
      simpa only [Real.rpow_natCast] using this

/-- C75: the maximum norm of a vector without elements is undefined behaviour. -/
theorem c75_empty_ub : lpNorm 0 [] = .ub := rfl

theorem c75_violated : ¬ C75 := by
  intro h
  obtain ⟨N, h1, _⟩ := h 0 0
  have := h1 0
  simp [vec, lpNorm, maxElement] at this

example : lpNorm 4 (vec ![1, -2]) = .ok ((|1| ^ 4 + |-2| ^ 4) ^ (1 / ((4 : ℕ) : ℝ))) := by
  rw [c75_value 4 (by decide), Fin.sum_univ_two]; rfl

/-! ### C76: angles -/

theorem clamp_dirs {n : Nat} (x y : Fin n → ℝ) : clamp (dir x ⬝ᵥ dir y) (-1) 1 = dir x ⬝ᵥ dir y := by
  have hlen : ∀ z : Fin n → ℝ, ∑ i, dir z i * dir z i ≤ 1 := by
    intro z
    by_cases hz : z = 0
    · subst hz
      simp [dir]
    · rw [← len_sq, len_dir hz, mul_one]
  have hb : |dir x ⬝ᵥ dir y| ≤ 1 := by
    rw [abs_le]
    have h1 : 0 ≤ ∑ i, (dir x i + dir y i) * (dir x i + dir y i) := sum_sq_nonneg fun i => dir x i + dir y i
    have h2 : 0 ≤ ∑ i, (dir x i - dir y i) * (dir x i - dir y i) := sum_sq_nonneg fun i => dir x i - dir y i
    have e1 : ∑ i, (dir x i + dir y i) * (dir x i + dir y i) =
        ∑ i, dir x i * dir x i + ∑ i, dir y i * dir y i + 2 * (dir x ⬝ᵥ dir y) := by
      rw [dotProduct, Finset.mul_sum, ← Finset.sum_add_distrib, ← Finset.sum_add_distrib]
      exact Finset.sum_congr rfl fun i _ => by ring
    have e2 : ∑ i, (dir x i - dir y i) * (dir x i - dir y i) =
        ∑ i, dir x i * dir x i + ∑ i, dir y i * dir y i - 2 * (dir x ⬝ᵥ dir y) := by
      rw [dotProduct, Finset.mul_sum, ← Finset.sum_add_distrib, ← Finset.sum_sub_distrib]
      exact Finset.sum_congr rfl fun i _ => by ring
    have h3 := hlen x
    have h4 := hlen y
    constructor <;> linarith
  rw [abs_le] at hb
  unfold clamp
  rw [if_neg (not_lt.mpr hb.1), if_neg (not_lt.mpr hb.2)]

theorem angle_ok {n : Nat} (hn : n = 2 ∨ n = 3) (radians : Bool) (x y : Fin n → ℝ) :
    angle radians (vec x) (vec y) = .ok (Real.arccos (dir x ⬝ᵥ dir y) / (if radians then 1 else Real.pi / 180)) := by
  have hb : (n == 2 || n == 3) = true := by rcases hn with rfl | rfl <;> rfl
  unfold angle
  simp only [vec_length, beq_self_eq_true, hb, assert_true, Out.ok_bind, unit_ok, dot_ok, clamp_dirs, Out.pure_eq]

/-- C76: in two and three dimensions the angle between vectors that are not zero is the one in `[0, π]` whose cosine is the dot
product divided by the lengths; in degrees it is `180 / π` times that; it does not depend on the order. -/
theorem c76_angle {n : Nat} (hn : n = 2 ∨ n = 3) (x y : Fin n → ℝ) (hx : x ≠ 0) (hy : y ≠ 0) :
    ∃ θ a b, angle true (vec x) (vec y) = .ok θ ∧ 0 ≤ θ ∧ θ ≤ Real.pi ∧ lpNorm 2 (vec x) = .ok a ∧ lpNorm 2 (vec y) = .ok b ∧
      a * b * Real.cos θ = ∑ i, x i * y i ∧ angle true (vec y) (vec x) = .ok θ ∧
      angle false (vec x) (vec y) = .ok (θ * (180 / Real.pi)) ∧
      ∀ c d : ℝ, 0 < c → 0 < d → angle true (vec fun i => c * x i) (vec fun i => d * y i) = .ok θ := by
  have hlx : len x ≠ 0 := fun h' => hx (len_eq_zero.mp h')
  have hly : len y ≠ 0 := fun h' => hy (len_eq_zero.mp h')
  have hd : len x * len y * (dir x ⬝ᵥ dir y) = ∑ i, x i * y i := by
    rw [dotProduct, Finset.mul_sum]
    apply Finset.sum_congr rfl
    intro i _
    simp only [dir, if_neg hlx, if_neg hly]
    field_simp
  have hbound : -1 ≤ dir x ⬝ᵥ dir y ∧ dir x ⬝ᵥ dir y ≤ 1 := by
    have h := clamp_dirs x y
    unfold clamp at h
    split at h
    · constructor <;> linarith
    · split at h
      · constructor <;> linarith
      · constructor <;> linarith
  have hscale : ∀ (z : Fin n → ℝ) (c : ℝ), z ≠ 0 → 0 < c → dir (fun i => c * z i) = dir z := by
    intro z c hz hc
    have hl : len (fun i => c * z i) = c * len z := by
      unfold len
      have : ∀ i, c * z i * (c * z i) = c * c * (z i * z i) := fun i => by ring
      simp only [this, ← Finset.mul_sum]
      rw [Real.sqrt_mul (mul_self_nonneg c), Real.sqrt_mul_self hc.le]
    have hlz : len z ≠ 0 := fun h' => hz (len_eq_zero.mp h')
    funext i
    simp only [dir, hl, if_neg hlz, if_neg (mul_ne_zero hc.ne' hlz)]
    have := hc.ne'
    field_simp
  refine ⟨Real.arccos (dir x ⬝ᵥ dir y), len x, len y, ?_, Real.arccos_nonneg _, Real.arccos_le_pi _, lpNorm_two x, lpNorm_two y,
    ?_, ?_, ?_, ?_⟩
  · rw [angle_ok hn]; simp
  · rw [Real.cos_arccos hbound.1 hbound.2, hd]
  · rw [angle_ok hn, dotProduct_comm]; simp
  · rw [angle_ok hn]
    have := Real.pi_ne_zero
    simp only [Bool.false_eq_true, if_false, Out.ok.injEq]
    field_simp
  · intro c d hc hd
    rw [angle_ok hn, hscale x c hx hc, hscale y d hy hd]; simp

/-- C76: the angle with the zero vector is a right angle; other sizes are rejected. -/
theorem c76_special :
    (∀ n : Nat, n = 2 ∨ n = 3 → ∀ x y : Fin n → ℝ, x = 0 ∨ y = 0 → angle true (vec x) (vec y) = .ok (Real.pi / 2)) ∧
    ∀ (radians : Bool) (v w : List ℝ), (v.length ≠ w.length ∨ (v.length ≠ 2 ∧ v.length ≠ 3)) → angle radians v w = .exit 1 := by
  constructor
  · intro n hn x y h
    have hz : dir x ⬝ᵥ dir y = 0 := by
      have : ∀ z : Fin n → ℝ, z = 0 → dir z = 0 := by
        rintro z rfl
        funext i
        simp [dir]
      rcases h with h | h
      · rw [this x h, zero_dotProduct]
      · rw [this y h, dotProduct_zero]
    rw [angle_ok hn, hz]
    simp
  · intro radians v w h
    unfold angle
    by_cases hl : v.length = w.length
    · rcases h with h | h
      · exact absurd hl h
      · rw [show (v.length == w.length) = true by simpa using hl,
          show (v.length == 2 || v.length == 3) = false by simpa using h]
        rfl
    · rw [show (v.length == w.length) = false by simpa using hl]
      rfl

example : (![1, 0] : Fin 2 → ℝ) ≠ 0 := fun h => by have := congrFun h 0; simp at this

/-! ### C77: the mean -/

/-- C77: the mean lies between the smallest and the largest element, the deviations from it cancel, and it exits exactly on
vectors without elements. -/
theorem c77_mean {s n : Nat} (hs : Sized s n) (x : Fin n → ℝ) :
    (n = 0 → mean s (vec x) = .exit 1) ∧
    (n ≠ 0 → ∃ m, mean s (vec x) = .ok m ∧ ∑ i, (x i - m) = 0 ∧ (∃ i, x i ≤ m) ∧ (∃ i, m ≤ x i) ∧
      ∀ lo hi, (∀ i, lo ≤ x i) → (∀ i, x i ≤ hi) → lo ≤ m ∧ m ≤ hi) := by
  constructor
  · rintro rfl
    have : s = 0 := by rcases hs with h | h <;> exact h
    subst this
    simp [mean, vec]
  · intro hn
    have hb : (s != 0 || !(vec x).isEmpty) = true := by
      have : (vec x).isEmpty = false := by
        rw [List.isEmpty_eq_false_iff]
        intro h
        have := congrArg List.length h
        rw [vec_length] at this
        exact hn this
      rw [this]; simp
    have hn' : (n : ℝ) ≠ 0 := Nat.cast_ne_zero.mpr hn
    have hm : mean s (vec x) = .ok ((∑ i, x i) / n) := by
      unfold mean
      rw [hb, assert_true, Out.ok_bind, vec_length]
      have := foldl_vec (fun b => b) x
      simp only [Out.pure_eq, Out.ok.injEq]
      rw [← this]
    have hdev : ∑ i, (x i - (∑ i, x i) / n) = 0 := by
      rw [Finset.sum_sub_distrib, Finset.sum_const, Finset.card_univ, Fintype.card_fin, nsmul_eq_mul]
      field_simp
      ring
    refine ⟨_, hm, hdev, ?_, ?_, ?_⟩
    · by_contra hno
      push Not at hno
      have : 0 < ∑ i, (x i - (∑ i, x i) / n) :=
        Finset.sum_pos (fun i _ => sub_pos.mpr (hno i)) ⟨⟨0, by omega⟩, Finset.mem_univ _⟩
      linarith
    · by_contra hno
      push Not at hno
      have : ∑ i, (x i - (∑ i, x i) / n) < 0 :=
        Finset.sum_neg (fun i _ => sub_neg.mpr (hno i)) ⟨⟨0, by omega⟩, Finset.mem_univ _⟩
      linarith
    · intro lo hi hlo hhi
      have hpos : (0 : ℝ) < n := by exact_mod_cast Nat.pos_of_ne_zero hn
      constructor
      · rw [le_div_iff₀ hpos]
        have := Finset.sum_le_sum (s := Finset.univ) fun i _ => hlo i
        simpa [mul_comm] using this
      · rw [div_le_iff₀ hpos]
        have := Finset.sum_le_sum (s := Finset.univ) fun i _ => hhi i
        simpa [mul_comm] using this

example : mean 0 [1, 2, 6] = .ok 3 := by simp [mean]; norm_num

end Disa.Props
