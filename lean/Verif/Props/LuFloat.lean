import Verif.Solver.LuFloat
import Verif.Spec.Rounding
import Mathlib.Algebra.Order.Ring.Pow

/-!
# Property C102: rounding errors of the direct solver
-/

namespace Disa.Props

open Disa Spec Dense Num Lu

variable {rnd : ℚ → Fl} {u η : ℚ}

/-! ### Combining the errors -/

theorem combine {n : Nat} {B L U : Fin n → Fin n → ℚ} {b x y : Fin n → ℚ} {ε H : ℚ} (hε : 0 ≤ ε)
    (h1 : ∀ r c, |B r c - ∑ k, L r k * U k c| ≤ ε * (∑ k, |L r k| * |U k c|) + H * (1 + |U c c|))
    (h2 : ∀ r, |b r - ∑ k, L r k * y k| ≤ ε * (∑ k, |L r k| * |y k|) + H)
    (h3 : ∀ k, |y k - ∑ c, U k c * x c| ≤ ε * (∑ c, |U k c| * |x c|) + H * (1 + |U k k|)) (r : Fin n) :
    |b r - ∑ c, B r c * x c| ≤ (3 * ε + ε ^ 2) * (∑ k, |L r k| * ∑ c, |U k c| * |x c|) +
      H * (1 + (1 + ε) * (∑ k, |L r k| * (1 + |U k k|)) + ∑ c, (1 + |U c c|) * |x c|) := by
  have hW : ∀ k, |∑ c, U k c * x c| ≤ ∑ c, |U k c| * |x c| := fun k => by
    refine (Finset.abs_sum_le_sum_abs _ _).trans (le_of_eq ?_)
    exact Finset.sum_congr rfl fun c _ => abs_mul _ _
  have hy : ∀ k, |y k| ≤ (1 + ε) * (∑ c, |U k c| * |x c|) + H * (1 + |U k k|) := fun k => by
    have := abs_add_le (y k - ∑ c, U k c * x c) (∑ c, U k c * x c)
    rw [sub_add_cancel] at this
    have e1 := h3 k
    have e2 := hW k
    linarith
  have hS : ∑ c, (∑ k, |L r k| * |U k c|) * |x c| = ∑ k, |L r k| * ∑ c, |U k c| * |x c| := by
    simp only [Finset.sum_mul, Finset.mul_sum]
    rw [Finset.sum_comm]
    exact Finset.sum_congr rfl fun k _ => Finset.sum_congr rfl fun c _ => by ring
  have hdec : b r - ∑ c, B r c * x c = (b r - ∑ k, L r k * y k) + (∑ k, L r k * (y k - ∑ c, U k c * x c)) -
      ∑ c, (B r c - ∑ k, L r k * U k c) * x c := by
    have e : ∑ k, L r k * ∑ c, U k c * x c = ∑ c, (∑ k, L r k * U k c) * x c := by
      simp only [Finset.sum_mul, Finset.mul_sum]
      rw [Finset.sum_comm]
      exact Finset.sum_congr rfl fun k _ => Finset.sum_congr rfl fun c _ => by ring
    simp only [mul_sub, sub_mul, Finset.sum_sub_distrib, e]
    ring
  have t1 : ε * (∑ k, |L r k| * |y k|) ≤ ε * ((1 + ε) * (∑ k, |L r k| * ∑ c, |U k c| * |x c|) +
      H * ∑ k, |L r k| * (1 + |U k k|)) := by
    refine mul_le_mul_of_nonneg_left ?_ hε
    rw [Finset.mul_sum, Finset.mul_sum, ← Finset.sum_add_distrib]
    refine Finset.sum_le_sum fun k _ => ?_
    have := mul_le_mul_of_nonneg_left (hy k) (abs_nonneg (L r k))
    linarith
  have t2 : |∑ k, L r k * (y k - ∑ c, U k c * x c)| ≤ ε * (∑ k, |L r k| * ∑ c, |U k c| * |x c|) +
      H * ∑ k, |L r k| * (1 + |U k k|) := by
    refine (Finset.abs_sum_le_sum_abs _ _).trans ?_
    rw [Finset.mul_sum, Finset.mul_sum, ← Finset.sum_add_distrib]
    refine Finset.sum_le_sum fun k _ => ?_
    rw [abs_mul]
    have := mul_le_mul_of_nonneg_left (h3 k) (abs_nonneg (L r k))
    linarith
  have t3 : |∑ c, (B r c - ∑ k, L r k * U k c) * x c| ≤ ε * (∑ k, |L r k| * ∑ c, |U k c| * |x c|) +
      H * ∑ c, (1 + |U c c|) * |x c| := by
    refine (Finset.abs_sum_le_sum_abs _ _).trans ?_
    rw [← hS, Finset.mul_sum, Finset.mul_sum, ← Finset.sum_add_distrib]
    refine Finset.sum_le_sum fun c _ => ?_
    rw [abs_mul]
    have := mul_le_mul_of_nonneg_right (h1 r c) (abs_nonneg (x c))
    linarith
  rw [hdec]
  have t4 := (abs_sub (b r - ∑ k, L r k * y k + ∑ k, L r k * (y k - ∑ c, U k c * x c))
    (∑ c, (B r c - ∑ k, L r k * U k c) * x c))
  have t5 := abs_add_le (b r - ∑ k, L r k * y k) (∑ k, L r k * (y k - ∑ c, U k c * x c))
  have t6 := h2 r
  linarith

/-! ### The factors -/

theorem lower_eq {n : Nat} (M : Fin n → Fin n → ℚ) (r k : Fin n) : lower M n r k = lowerPart M r k := by
  unfold lower lowerPart
  by_cases h : r = k
  · subst h; simp
  · have : ¬ k = r := fun h' => h h'.symm
    simp [h, this, k.2]

theorem upper_eq {n : Nat} (M : Fin n → Fin n → ℚ) (k c : Fin n) : upper M n k c = upperPart M k c := by
  unfold upper upperPart
  rw [Nat.min_eq_left k.2.le]
  by_cases h : k ≤ c
  · rw [if_pos h, if_neg (Nat.not_lt.mpr h)]
  · rw [if_neg h, if_pos (Nat.not_le.mp h)]

theorem lower_abs {n : Nat} (M : Fin n → Fin n → ℚ) (r k : Fin n) :
    lower (fun i j => |M i j|) n r k = |lowerPart M r k| := by
  rw [lower_eq]
  unfold lowerPart
  split
  · rfl
  · split <;> simp

theorem upper_abs {n : Nat} (M : Fin n → Fin n → ℚ) (k c : Fin n) :
    upper (fun i j => |M i j|) n k c = |upperPart M k c| := by
  rw [upper_eq]
  unfold upperPart
  split
  · rfl
  · simp

theorem upper_diag {n : Nat} (M : Fin n → Fin n → ℚ) (c : Fin n) : upperPart M c c = M c c := by simp [upperPart]

theorem pow_le_small (h0 : 0 ≤ u) (h1 : u < 1) (hη : 0 ≤ η) {k n : Nat} (hk : k + 1 ≤ n) : gain u ^ (k + 1) * η ≤ small u η n := by
  obtain ⟨g1, -, -⟩ := gain_spec h0 h1
  refine le_trans ?_ (small_mono h0 h1 hη hk)
  unfold small
  push_cast
  have h3 : 0 ≤ gain u ^ (k + 1) * η := by positivity
  have h4 : (1 : ℚ) ≤ (k + 1) * (1 + gain u) := by
    have : (0 : ℚ) ≤ k := by positivity
    nlinarith
  nlinarith

/-- Relative error of `n` operations. -/
theorem relError_eq (n : Nat) : relError u n = gain u ^ n - 1 := rfl

theorem absError_eq (n : Nat) : absError u η n = small u η n := rfl

theorem solve_any {K : Type} [Zero K] [Sub K] [Mul K] [Div K] (pivot : Bool) (s : Lu K) {n : Nat} (M : Fin n → Fin n → K)
    (hs : s.factorised = true) (hM : s.lu = mat M) (p : Equiv.Perm (Fin n))
    (hp : pivot = true → s.piv = vec fun r => (p r).1) (hq : pivot = false → p = 1) (b : Fin n → K) (x0 : List K) :
    ∃ y x : Fin n → K, Lu.solve pivot s x0 (some (vec b)) = .ok (vec x, true, 1) ∧
      (∀ r, y r = less (b (p r)) (fun c => M r c * y c) 0 r.1) ∧
      ∀ r, x r = less (y r) (fun c => M r c * x c) (r.1 + 1) (n - (r.1 + 1)) / M r r := by
  obtain ⟨x1, hx1⟩ : ∃ x1 : Fin n → K, resizeList x0 n 0 = vec x1 := by
    have hl : (resizeList x0 n 0).length = n := by unfold resizeList; simp; omega
    refine ⟨fun i => (resizeList x0 n 0)[i.1]'(by rw [hl]; exact i.2), ?_⟩
    apply List.ext_getElem
    · simp [hl]
    · intro k h1 h2; simp [vec]
  obtain ⟨y, e1, hy⟩ := forward_ok pivot s M hM p hp hq b x1 (some (vec b)) (Or.inl rfl)
  obtain ⟨x, e2, hx⟩ := backward_ok s M hM y
  refine ⟨y, x, ?_, hy, hx⟩
  unfold Lu.solve
  simp only [Option.getD_some, vec_length, hM, mat_length, beq_self_eq_true, assert_true, Out.ok_bind, hs, Bool.not_true,
    Bool.false_eq_true, if_false, hx1, e1]
  rw [e2]
  rfl

/-- C102: with rounded arithmetic the calls return, also if elements are not finite. -/
theorem c102_returns (h : Rounds rnd u η) (h1 : u < 1) (pivot : Bool) (s : Lu (Num rnd)) {t : ℚ} (ht : 0 < t)
    (hs : s.tol = fin t) {n : Nat} (A : Fin n → Fin n → Num rnd) (b : Fin n → Num rnd) (x0 : List (Num rnd)) :
    ∃ s' ok, factorise (Num.arith rnd) pivot s (mat A) = .ok (s', ok) ∧
      (ok = false → Lu.solve pivot s' x0 (some (vec b)) = .ok (x0, false, 0)) ∧
      (ok = true → ∃ x : Fin n → Num rnd, Lu.solve pivot s' x0 (some (vec b)) = .ok (vec x, true, 1)) := by
  obtain ⟨p, M, st, ok, e1, e2⟩ := factorise_rounded h h1 pivot s ht hs A
  refine ⟨_, ok, e1, ?_, ?_⟩
  · rintro rfl
    unfold Lu.solve
    simp
  · rintro rfl
    obtain ⟨y, x, e3, -⟩ := solve_any pivot { s with factorised := true, lu := mat M, piv := st } M rfl rfl p (e2 rfl).pivots
      (fun hp => ((e2 rfl).none hp).2) b x0
    exact ⟨x, e3⟩

theorem sum_lower {n : Nat} (M : Fin n → Fin n → ℚ) (y : Fin n → ℚ) (r : Fin n) :
    ∑ k, lowerPart M r k * y k = psum (fun c => M r c * y c) 0 r.1 + y r := by
  have : ∀ k : Fin n, lowerPart M r k * y k =
      (if 0 ≤ k.1 ∧ k.1 < 0 + r.1 then M r k * y k else 0) + (if k = r then y r else 0) := by
    intro k
    unfold lowerPart
    by_cases hk : k = r
    · subst hk; simp
    · by_cases hkr : k < r
      · have : k.1 < r.1 := hkr
        simp [hk, hkr]
      · have : ¬ k.1 < r.1 := hkr
        simp [hk, hkr]
  simp only [this, Finset.sum_add_distrib, Finset.sum_ite_eq', Finset.mem_univ, if_true]
  rfl

theorem sum_upper {n : Nat} (M : Fin n → Fin n → ℚ) (x : Fin n → ℚ) (r : Fin n) :
    ∑ c, upperPart M r c * x c = psum (fun c => M r c * x c) (r.1 + 1) (n - (r.1 + 1)) + M r r * x r := by
  have : ∀ k : Fin n, upperPart M r k * x k =
      (if r.1 + 1 ≤ k.1 ∧ k.1 < r.1 + 1 + (n - (r.1 + 1)) then M r k * x k else 0) + (if k = r then M r r * x r else 0) := by
    intro k
    unfold upperPart
    have hn : k.1 < r.1 + 1 + (n - (r.1 + 1)) := by have := k.2; have := r.2; omega
    by_cases hk : k = r
    · subst hk; simp
    · have hk' : k.1 ≠ r.1 := fun h => hk (Fin.ext h)
      by_cases hkr : r ≤ k
      · have : r.1 ≤ k.1 := hkr
        simp [hk, hkr, hn, show r.1 + 1 ≤ k.1 by omega]
      · have : ¬ r.1 ≤ k.1 := hkr
        simp [hk, hkr, show ¬ r.1 + 1 ≤ k.1 by omega]
  simp only [this, Finset.sum_add_distrib, Finset.sum_ite_eq', Finset.mem_univ, if_true]
  rfl

/-- C102: if the computed factors are finite then so is the matrix, and their product is near to the matrix with its rows
permuted.  If the computed solution is finite too then so is the right hand side, and the residual is small. -/
theorem c102_backward (h : Rounds rnd u η) (h1 : u < 1) (pivot : Bool) (s s' : Lu (Num rnd)) {t : ℚ} (ht : 0 < t)
    (hs : s.tol = fin t) {n : Nat} (A : Fin n → Fin n → Num rnd)
    (hf : factorise (Num.arith rnd) pivot s (mat A) = .ok (s', true)) (M : Fin n → Fin n → ℚ)
    (hM : s'.lu = mat fun r c => (fin (M r c) : Num rnd)) :
    ∃ (p : Equiv.Perm (Fin n)) (B : Fin n → Fin n → ℚ), (pivot = false → p = 1) ∧ (∀ r c, A r c = fin (B r c)) ∧
      (∀ r c, |B (p r) c - ∑ k, lowerPart M r k * upperPart M k c| ≤
        relError u n * (∑ k, |lowerPart M r k| * |upperPart M k c|) + absError u η n * (1 + |M c c|)) ∧
      ∀ (b : Fin n → Num rnd) (x0 : List (Num rnd)) (x : Fin n → ℚ),
        Lu.solve pivot s' x0 (some (vec b)) = .ok (vec (fun r => (fin (x r) : Num rnd)), true, 1) →
        ∃ d : Fin n → ℚ, (∀ r, b r = fin (d r)) ∧ ∀ r, |d (p r) - ∑ c, B (p r) c * x c| ≤
          (3 * relError u n + relError u n ^ 2) * (∑ k, |lowerPart M r k| * ∑ c, |upperPart M k c| * |x c|) +
          absError u η n * (1 + (1 + relError u n) * (∑ k, |lowerPart M r k| * (1 + |M k k|)) +
            ∑ c, (1 + |M c c|) * |x c|) := by
  have hu := h.u_nonneg
  have hη := h.η_nonneg
  obtain ⟨g1, -, -⟩ := gain_spec hu h1
  obtain ⟨p, M', st, ok, e1, e2⟩ := factorise_rounded h h1 pivot s ht hs A
  rw [hf] at e1
  simp only [Out.ok.injEq, Prod.mk.injEq] at e1
  obtain ⟨rfl, rfl⟩ := e1
  have hR := e2 rfl
  obtain rfl : M' = fun r c => fin (M r c) := mat_inj.mp hM
  obtain ⟨hA, hb⟩ := hR.close fun r c => rfl
  have hd0 : ∀ k, M k k ≠ 0 := fun k => by
    have := hR.diag k k.2
    rw [hs] at this
    exact ne_zero_of_accepted ht this rfl
  have hb1 : ∀ r c, |Num.val (A (p r) c) - ∑ k, lowerPart M r k * upperPart M k c| ≤
      relError u n * (∑ k, |lowerPart M r k| * |upperPart M k c|) + absError u η n * (1 + |M c c|) := by
    intro r c
    have := hb r c
    rw [if_pos c.2] at this
    have q1 : prod (vals fun r c => (fin (M r c) : Num rnd)) n r c = ∑ k, lowerPart M r k * upperPart M k c :=
      Finset.sum_congr rfl fun k _ => by rw [← lower_eq, ← upper_eq]; rfl
    have q2 : prod (sizes fun r c => (fin (M r c) : Num rnd)) n r c = ∑ k, |lowerPart M r k| * |upperPart M k c| :=
      Finset.sum_congr rfl fun k _ => by rw [← lower_abs, ← upper_abs]; rfl
    rw [q1, q2] at this
    exact this
  refine ⟨p, vals A, fun hp => (hR.none hp).2, hA, hb1, ?_⟩
  intro b x0 x hx
  obtain ⟨y, x', e3, hy, hx'⟩ := solve_any pivot { s with factorised := true, lu := mat fun r c => (fin (M r c) : Num rnd), piv := st }
    _ rfl rfl p hR.pivots (fun hp => (hR.none hp).2) b x0
  rw [e3] at hx
  simp only [Out.ok.injEq, Prod.mk.injEq, and_true] at hx
  obtain rfl := vec_inj.mp hx
  -- the backward sweep
  have hback : ∀ r, y r = fin (Num.val (y r)) ∧ |Num.val (y r) - ∑ c, upperPart M r c * x c| ≤
      relError u n * (∑ c, |upperPart M r c| * |x c|) + absError u η n * (1 + |M r r|) := by
    intro r
    obtain ⟨q, f1, f2⟩ := div_fin (hd0 r) (hx' r).symm
    obtain ⟨i1, -, i3⟩ := less_error h h1 (y r) (fun c => (fin (M r c) : Num rnd)) (fun c => fin (x c)) (r.1 + 1) (n - (r.1 + 1))
      (by have := r.2; omega) q f1
    refine ⟨i1, ?_⟩
    simp only [Num.val_fin] at i3
    have := quot_error h h1 (n - (r.1 + 1)) (hd0 r) f2 i3 (psum_nonneg (fun c => abs_nonneg _) _ _)
    rw [sum_upper, mul_comm (M r r)]
    have q2 : ∑ c, |upperPart M r c| * |x c| = psum (fun c => |M r c * x c|) (r.1 + 1) (n - (r.1 + 1)) + |x r * M r r| := by
      have := sum_upper (fun r c => |M r c|) (fun c => |x c|) r
      rw [abs_mul, mul_comm |x r|]
      refine Eq.trans ?_ (this.trans ?_)
      · refine Finset.sum_congr rfl fun c _ => ?_
        unfold upperPart
        split
        · rfl
        · simp
      · simp only [abs_mul]
    rw [q2]
    have hT : 0 ≤ psum (fun c => |M r c * x c|) (r.1 + 1) (n - (r.1 + 1)) + |x r * M r r| :=
      add_nonneg (psum_nonneg (fun c => abs_nonneg _) _ _) (abs_nonneg _)
    have hk : n - (r.1 + 1) + 1 ≤ n := by have := r.2; omega
    have hg : gain u ^ (n - (r.1 + 1) + 1) ≤ gain u ^ n := pow_le_pow_right₀ g1 hk
    have t1 : (gain u ^ (n - (r.1 + 1) + 1) - 1) * (psum (fun c => |M r c * x c|) (r.1 + 1) (n - (r.1 + 1)) + |x r * M r r|) ≤
        (gain u ^ n - 1) * (psum (fun c => |M r c * x c|) (r.1 + 1) (n - (r.1 + 1)) + |x r * M r r|) :=
      mul_le_mul_of_nonneg_right (by linarith) hT
    have t2 : small u η (n - (r.1 + 1)) ≤ small u η n := small_mono hu h1 hη (by omega)
    have t3 := mul_le_mul_of_nonneg_right (pow_le_small hu h1 hη hk) (abs_nonneg (M r r))
    rw [relError_eq, absError_eq]
    linarith
  -- the forward sweep
  have hfor : ∀ r, b (p r) = fin (Num.val (b (p r))) ∧ |Num.val (b (p r)) - ∑ k, lowerPart M r k * Num.val (y k)| ≤
      relError u n * (∑ k, |lowerPart M r k| * |Num.val (y k)|) + absError u η n := by
    intro r
    obtain ⟨i1, -, i3⟩ := less_error h h1 (b (p r)) (fun c => (fin (M r c) : Num rnd)) (fun c => y c) 0 r.1
      (by have := r.2; omega) _ ((hy r).symm.trans (hback r).1)
    refine ⟨i1, ?_⟩
    simp only [Num.val_fin] at i3
    rw [sum_lower, ← sub_sub]
    have q2 : ∑ k, |lowerPart M r k| * |Num.val (y k)| = psum (fun c => |M r c * Num.val (y c)|) 0 r.1 + |Num.val (y r)| := by
      have := sum_lower (fun r c => |M r c|) (fun c => |Num.val (y c)|) r
      refine Eq.trans ?_ (this.trans ?_)
      · refine Finset.sum_congr rfl fun c _ => ?_
        unfold lowerPart
        split
        · rfl
        · split <;> simp
      · simp only [abs_mul]
    rw [q2]
    have hT : 0 ≤ psum (fun c => |M r c * Num.val (y c)|) 0 r.1 + |Num.val (y r)| :=
      add_nonneg (psum_nonneg (fun c => abs_nonneg _) _ _) (abs_nonneg _)
    have hg : gain u ^ r.1 ≤ gain u ^ n := pow_le_pow_right₀ g1 r.2.le
    have t1 : (gain u ^ r.1 - 1) * (psum (fun c => |M r c * Num.val (y c)|) 0 r.1 + |Num.val (y r)|) ≤
        (gain u ^ n - 1) * (psum (fun c => |M r c * Num.val (y c)|) 0 r.1 + |Num.val (y r)|) :=
      mul_le_mul_of_nonneg_right (by linarith) hT
    have t2 : small u η r.1 ≤ small u η n := small_mono hu h1 hη r.2.le
    rw [relError_eq, absError_eq]
    linarith
  refine ⟨fun r => Num.val (b r), fun r => ?_, fun r => ?_⟩
  · have := (hfor (p.symm r)).1
    simpa using this
  · have hε : 0 ≤ relError u n := by
      rw [relError_eq]
      have : 1 ≤ gain u ^ n := one_le_pow₀ g1
      linarith
    have := combine (B := fun r c => vals A (p r) c) (L := lowerPart M) (U := upperPart M) (b := fun r => Num.val (b (p r))) (x := x)
      (y := fun k => Num.val (y k)) hε (fun r c => by rw [upper_diag]; exact hb1 r c) (fun r => (hfor r).2)
      (fun k => by rw [upper_diag]; exact (hback k).2) r
    simpa only [upper_diag] using this

/-- C102: for doubles and sizes up to 2⁵² the relative error is at most `n` 2⁻⁵². -/
theorem c102_relError {n : Nat} (hn : n ≤ 2 ^ 52) : relError (1 / 2 ^ 53) n ≤ n / 2 ^ 52 := by
  have h1 : ((1 : ℚ) - n * (1 / 2 ^ 53)) ≤ (1 - 1 / 2 ^ 53) ^ n := by
    have := one_add_mul_le_pow (show (-2 : ℚ) ≤ -(1 / 2 ^ 53) by norm_num) n
    calc _ = 1 + n * -(1 / 2 ^ 53 : ℚ) := by ring
      _ ≤ _ := this
      _ = _ := by rw [← sub_eq_add_neg]
  have hn' : (n : ℚ) ≤ 2 ^ 52 := by exact_mod_cast hn
  have h0 : (0 : ℚ) ≤ n := by positivity
  have h2 : (1 : ℚ) / 2 ≤ 1 - n * (1 / 2 ^ 53) := by
    have : (n : ℚ) * (1 / 2 ^ 53) ≤ 2 ^ 52 * (1 / 2 ^ 53) := by gcongr
    norm_num at this ⊢
    linarith
  have hp : (0 : ℚ) < (1 - 1 / 2 ^ 53) ^ n := by norm_num
  unfold relError
  rw [one_div_pow, sub_le_iff_le_add, div_le_iff₀ hp]
  calc (1 : ℚ) ≤ (n / 2 ^ 52 + 1) * (1 - n * (1 / 2 ^ 53)) := by
        have e : (n / 2 ^ 52 + 1 : ℚ) * (1 - n * (1 / 2 ^ 53)) = 1 + n / 2 ^ 52 * (1 / 2 - n * (1 / 2 ^ 53)) := by ring
        have : 0 ≤ (n / 2 ^ 52 : ℚ) * (1 / 2 - n * (1 / 2 ^ 53)) := by
          refine mul_nonneg (by positivity) ?_
          linarith
        linarith
    _ ≤ _ := by
        refine mul_le_mul_of_nonneg_left h1 (by positivity)

/-- C102: the absolute error is at most 6 `n` 2⁻¹⁰⁷⁵. -/
theorem c102_absError {n : Nat} (hn : n ≤ 2 ^ 52) : absError (1 / 2 ^ 53) (1 / 2 ^ 1075) n ≤ 6 * n / 2 ^ 1075 := by
  have h1 := c102_relError hn
  unfold relError at h1
  have hn' : (n : ℚ) ≤ 2 ^ 52 := by exact_mod_cast hn
  have h2 : ((1 : ℚ) / (1 - 1 / 2 ^ 53)) ^ n ≤ 2 := by
    have : (n : ℚ) / 2 ^ 52 ≤ 1 := by rw [div_le_one (by positivity)]; exact hn'
    linarith
  have h3 : (1 : ℚ) + 1 / (1 - 1 / 2 ^ 53) ≤ 3 := by norm_num
  have hη : (0 : ℚ) ≤ 1 / 2 ^ 1075 := by positivity
  unfold absError
  rw [show 6 * (n : ℚ) / 2 ^ 1075 = n * 2 * (3 * (1 / 2 ^ 1075)) by ring]
  generalize (1 : ℚ) / 2 ^ 1075 = η at *
  gcongr

/-! ### Examples -/

/-- A solver with the default tolerance. -/
def freshDouble : Lu (Num binary64) := ⟨false, (Num.arith binary64).tol, [], []⟩

/-- A system with rounding errors: the hypotheses of `c102_backward` hold. -/
example : factorise (Num.arith binary64) true freshDouble [[fin 1, fin 3], [fin 3, fin 2]] =
      .ok (⟨true, (Num.arith binary64).tol,
        [[fin 3, fin 2], [fin (6004799503160661 / 2 ^ 54), fin (5254199565265579 / 2 ^ 51)]], [1, 0]⟩, true) ∧
    Lu.solve true ⟨true, (Num.arith binary64).tol,
        [[fin 3, fin 2], [fin (6004799503160661 / 2 ^ 54), fin (5254199565265579 / 2 ^ 51)]], [1, 0]⟩ [] (some [fin 1, fin 1]) =
      .ok ([fin (5146971002709137 / 2 ^ 55), fin (5146971002709139 / 2 ^ 54)], true, 1) := by decide +kernel

/-! ### C103 -/

/-- C103, as expected of a solver: if a solve reports that it converged and the solution is finite, then the residual is at
most half as large as its terms. -/
def C103 (pivot : Bool) : Prop := ∀ (n : Nat) (B : Fin n → Fin n → ℚ) (d x : Fin n → ℚ) (x0 : List (Num binary64))
  (s' : Lu (Num binary64)),
  factorise (Num.arith binary64) pivot freshDouble (mat fun r c => (fin (B r c) : Num binary64)) = .ok (s', true) →
  Lu.solve pivot s' x0 (some (vec fun r => (fin (d r) : Num binary64))) = .ok (vec (fun r => (fin (x r) : Num binary64)), true, 1) →
  ∀ r, |d r - ∑ c, B r c * x c| ≤ (|d r| + ∑ c, |B r c * x c|) / 2

/-- C103: two orthogonal rows whose elimination overflows.  The infinite pivot is accepted, and the division by it hides
that there was an overflow. -/
theorem c103_violated (pivot : Bool) : ¬ C103 pivot := by
  intro h
  have := h 2 ![![2 ^ 1023, 2 ^ 1023], ![-2 ^ 1023, 2 ^ 1023]] ![2 ^ 1000, 0] ![1 / 2 ^ 23, 0] []
    ⟨true, (Num.arith binary64).tol, [[fin (2 ^ 1023), fin (2 ^ 1023)], [fin (-1), .inf false]], if pivot then [0, 1] else []⟩
    (by cases pivot <;> decide +kernel) (by cases pivot <;> decide +kernel) 1
  revert this
  decide +kernel

/-- C103: an infinite coefficient is accepted, and the solution is finite. -/
theorem c103_infinite (pivot : Bool) : ∃ s', factorise (Num.arith binary64) pivot freshDouble [[.inf false]] = .ok (s', true) ∧
    Lu.solve pivot s' [] (some [fin 1]) = .ok ([fin 0], true, 1) :=
  ⟨⟨true, (Num.arith binary64).tol, [[.inf false]], if pivot then [0] else []⟩,
    by cases pivot <;> decide +kernel, by cases pivot <;> decide +kernel⟩

/-- C103: so is a coefficient that is not a number, and the solve reports that it converged. -/
theorem c103_nan (pivot : Bool) : ∃ s', factorise (Num.arith binary64) pivot freshDouble [[.nan]] = .ok (s', true) ∧
    Lu.solve pivot s' [] (some [fin 1]) = .ok ([.nan], true, 1) :=
  ⟨⟨true, (Num.arith binary64).tol, [[.nan]], if pivot then [0] else []⟩,
    by cases pivot <;> decide +kernel, by cases pivot <;> decide +kernel⟩

/-- C103: without pivoting finite factors are not enough: the small pivot makes the other coefficients vanish. -/
theorem c103_growth : ∃ s' : Lu (Num binary64),
    factorise (Num.arith binary64) false freshDouble [[fin (1 / 2 ^ 20), fin (2 ^ 40)], [fin (2 ^ 40), fin 1]] = .ok (s', true) ∧
    s'.lu = [[fin (1 / 2 ^ 20), fin (2 ^ 40)], [fin (2 ^ 60), fin (-2 ^ 100)]] ∧
    Lu.solve false s' [] (some [fin (2 ^ 40), fin 0]) = .ok ([fin 0, fin 1], true, 1) :=
  ⟨⟨true, (Num.arith binary64).tol, [[fin (1 / 2 ^ 20), fin (2 ^ 40)], [fin (2 ^ 60), fin (-2 ^ 100)]], []⟩,
    by decide +kernel, rfl, by decide +kernel⟩

/-- C103: what does hold for doubles.  If all factors are finite then the residual is small when compared to the factors. -/
theorem c103_partial (pivot : Bool) (s s' : Lu (Num binary64)) {t : ℚ} (ht : 0 < t) (hs : s.tol = fin t) {n : Nat}
    (hn : n ≤ 2 ^ 52) (B : Fin n → Fin n → ℚ)
    (hf : factorise (Num.arith binary64) pivot s (mat fun r c => (fin (B r c) : Num binary64)) = .ok (s', true))
    (M : Fin n → Fin n → ℚ) (hM : s'.lu = mat fun r c => (fin (M r c) : Num binary64)) :
    ∃ p : Equiv.Perm (Fin n), (pivot = false → p = 1) ∧ ∀ (d x : Fin n → ℚ) (x0 : List (Num binary64)),
      Lu.solve pivot s' x0 (some (vec fun r => (fin (d r) : Num binary64))) =
        .ok (vec (fun r => (fin (x r) : Num binary64)), true, 1) →
      ∀ r, |d (p r) - ∑ c, B (p r) c * x c| ≤ n / 2 ^ 50 * (∑ k, |lowerPart M r k| * ∑ c, |upperPart M k c| * |x c|) +
        6 * n / 2 ^ 1075 * (1 + 2 * (∑ k, |lowerPart M r k| * (1 + |M k k|)) + ∑ c, (1 + |M c c|) * |x c|) := by
  obtain ⟨p, B', h1, h2, -, h3⟩ := c102_backward rounds_binary64 (by norm_num) pivot s s' ht hs _ hf M hM
  refine ⟨p, h1, fun d x x0 hx r => ?_⟩
  obtain ⟨d', h4, h5⟩ := h3 _ x0 x hx
  obtain rfl : B' = B := by
    funext r c
    exact (fin_inj.mp (h2 r c)).symm
  obtain rfl : d' = d := by
    funext r
    exact (fin_inj.mp (h4 r)).symm
  refine (h5 r).trans ?_
  have hn' : (n : ℚ) ≤ 2 ^ 52 := by exact_mod_cast hn
  have e1 := c102_relError hn
  have e0 : 0 ≤ relError (1 / 2 ^ 53) n := by
    have : (1 : ℚ) ≤ (1 / (1 - 1 / 2 ^ 53)) ^ n := one_le_pow₀ (by norm_num)
    unfold relError
    linarith
  have e2 : relError (1 / 2 ^ 53) n ≤ 1 := by
    refine e1.trans ?_
    rw [div_le_one (by positivity)]
    exact hn'
  have e3 := c102_absError hn
  have g1 : 3 * relError (1 / 2 ^ 53) n + relError (1 / 2 ^ 53) n ^ 2 ≤ n / 2 ^ 50 := by
    have : relError (1 / 2 ^ 53) n ^ 2 ≤ relError (1 / 2 ^ 53) n := by nlinarith
    have q : (n : ℚ) / 2 ^ 50 = 4 * (n / 2 ^ 52) := by ring
    rw [q]
    linarith
  have g2 : 1 + relError (1 / 2 ^ 53) n ≤ 2 := by linarith
  have w1 : 0 ≤ ∑ k, |lowerPart M r k| * ∑ c, |upperPart M k c| * |x c| :=
    Finset.sum_nonneg fun k _ => mul_nonneg (abs_nonneg _) (Finset.sum_nonneg fun c _ => mul_nonneg (abs_nonneg _) (abs_nonneg _))
  have w2 : 0 ≤ ∑ k, |lowerPart M r k| * (1 + |M k k|) :=
    Finset.sum_nonneg fun k _ => mul_nonneg (abs_nonneg _) (add_nonneg zero_le_one (abs_nonneg _))
  have w3 : 0 ≤ ∑ c, (1 + |M c c|) * |x c| :=
    Finset.sum_nonneg fun k _ => mul_nonneg (add_nonneg zero_le_one (abs_nonneg _)) (abs_nonneg _)
  have w4 : (0 : ℚ) ≤ 6 * n / 2 ^ 1075 := by positivity
  refine add_le_add (mul_le_mul_of_nonneg_right g1 w1) ?_
  refine mul_le_mul e3 (by gcongr) ?_ w4
  have := mul_nonneg (add_nonneg zero_le_one e0) w2
  linarith

end Disa.Props
