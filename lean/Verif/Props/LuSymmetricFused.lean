import Verif.Props.LuAccurateFused
import Verif.Props.LuSymmetric

/-!
# Property C224: symmetric positive definite systems without pivoting, with fused operations
-/

namespace Disa.Props

open Disa Spec Dense Num Lu

variable {fuse : Hist → Hist → Hist → Bool} {n : Nat}

section sweeps

variable {rnd : ℚ → Fl} {u η : ℚ} {M : Fin n → Fin n → ℚ} {N : Fin n → Fin n → Fused rnd fuse} {d : Fin n → ℚ}
  {b y x : Fin n → Fused rnd fuse}

/-- One row of the forward sweep. -/
theorem forward_rowF (h : Rounds rnd u η) (h1 : u < 1) (hN : ∀ r c, (N r c).get = .fin (M r c)) (hb : ∀ r, (b r).get = .fin (d r))
    (hy : ∀ r, y r = less (b r) (fun c => N r c * y c) 0 r.1) {r : Fin n} (hr : (y r).IsFin) :
    |d r - ∑ k, lowerPart M r k * (y k).val| ≤ relError u n * (∑ k, |lowerPart M r k| * |(y k).val|) + absError u η n := by
  have hu := h.u_nonneg
  have hη := h.η_nonneg
  obtain ⟨g1, -, -⟩ := gain_spec hu h1
  have hMv : ∀ r c, (N r c).val = M r c := fun r c => (Fused.isFin_of (hN r c)).2
  have hdv : ∀ r, (b r).val = d r := fun r => (Fused.isFin_of (hb r)).2
  obtain ⟨-, -, i3⟩ := less_fused h h1 (b r) (fun c => N r c) (fun c => y c) 0 r.1 (by have := r.2; omega) (by rw [← hy r]; exact hr)
  simp only [← hy r, hMv, hdv] at i3
  rw [sum_lower, ← sub_sub]
  have q2 : ∑ k, |lowerPart M r k| * |(y k).val| = Lu.psum (fun c => |M r c * (y c).val|) 0 r.1 + |(y r).val| := by
    have := sum_lower (fun r c => |M r c|) (fun c => |(y c).val|) r
    refine Eq.trans ?_ (this.trans ?_)
    · refine Finset.sum_congr rfl fun c _ => ?_
      unfold lowerPart
      split
      · rfl
      · split <;> simp
    · simp only [abs_mul]
  rw [q2]
  have hT : 0 ≤ Lu.psum (fun c => |M r c * (y c).val|) 0 r.1 + |(y r).val| :=
    add_nonneg (psum_nonneg (fun c => abs_nonneg _) _ _) (abs_nonneg _)
  have hg : gain u ^ r.1 ≤ gain u ^ n := pow_le_pow_right₀ g1 r.2.le
  have t1 : (gain u ^ r.1 - 1) * (Lu.psum (fun c => |M r c * (y c).val|) 0 r.1 + |(y r).val|) ≤
      (gain u ^ n - 1) * (Lu.psum (fun c => |M r c * (y c).val|) 0 r.1 + |(y r).val|) :=
    mul_le_mul_of_nonneg_right (by linarith) hT
  have t2 : small u η r.1 ≤ small u η n := small_mono hu h1 hη r.2.le
  rw [relError_eq, absError_eq]
  linarith

/-- One row of the backward sweep. -/
theorem backward_rowF (h : Rounds rnd u η) (h1 : u < 1) (hd0 : ∀ r, M r r ≠ 0) (hN : ∀ r c, (N r c).get = .fin (M r c))
    (hx : ∀ r, x r = less (y r) (fun c => N r c * x c) (r.1 + 1) (n - (r.1 + 1)) / N r r) {r : Fin n} (hr : (x r).IsFin) :
    |(y r).val - ∑ c, upperPart M r c * (x c).val| ≤
      relError u n * (∑ c, |upperPart M r c| * |(x c).val|) + absError u η n * (1 + |M r r|) := by
  have hu := h.u_nonneg
  have hη := h.η_nonneg
  obtain ⟨g1, -, -⟩ := gain_spec hu h1
  have hMv : ∀ r c, (N r c).val = M r c := fun r c => (Fused.isFin_of (hN r c)).2
  rw [hx r] at hr
  obtain ⟨f1, f2⟩ := Fused.div_isFin (Fused.isFin_of (hN r r)).1 (by rw [hMv]; exact hd0 r) hr
  rw [← hx r, hMv] at f2
  obtain ⟨-, -, i3⟩ := less_fused h h1 (y r) (fun c => N r c) x (r.1 + 1) (n - (r.1 + 1)) (by have := r.2; omega) f1
  simp only [hMv] at i3
  have := quot_error h h1 (n - (r.1 + 1)) (hd0 r) f2 i3 (psum_nonneg (fun c => abs_nonneg _) _ _)
  rw [sum_upper, mul_comm (M r r)]
  have q2 : ∑ c, |upperPart M r c| * |(x c).val| =
      Lu.psum (fun c => |M r c * (x c).val|) (r.1 + 1) (n - (r.1 + 1)) + |(x r).val * M r r| := by
    have := sum_upper (fun r c => |M r c|) (fun c => |(x c).val|) r
    rw [abs_mul, mul_comm |(x r).val|]
    refine Eq.trans ?_ (this.trans ?_)
    · refine Finset.sum_congr rfl fun c _ => ?_
      unfold upperPart
      split
      · rfl
      · simp
    · simp only [abs_mul]
  rw [q2]
  have hT : 0 ≤ Lu.psum (fun c => |M r c * (x c).val|) (r.1 + 1) (n - (r.1 + 1)) + |(x r).val * M r r| :=
    add_nonneg (psum_nonneg (fun c => abs_nonneg _) _ _) (abs_nonneg _)
  have hk : n - (r.1 + 1) + 1 ≤ n := by have := r.2; omega
  have hg : gain u ^ (n - (r.1 + 1) + 1) ≤ gain u ^ n := pow_le_pow_right₀ g1 hk
  have t1 : (gain u ^ (n - (r.1 + 1) + 1) - 1) * (Lu.psum (fun c => |M r c * (x c).val|) (r.1 + 1) (n - (r.1 + 1)) + |(x r).val * M r r|) ≤
      (gain u ^ n - 1) * (Lu.psum (fun c => |M r c * (x c).val|) (r.1 + 1) (n - (r.1 + 1)) + |(x r).val * M r r|) :=
    mul_le_mul_of_nonneg_right (by linarith) hT
  have t2 : small u η (n - (r.1 + 1)) ≤ small u η n := small_mono hu h1 hη (by omega)
  have t3 := mul_le_mul_of_nonneg_right (pow_le_small hu h1 hη hk) (abs_nonneg (M r r))
  rw [relError_eq, absError_eq]
  linarith

theorem sweeps_fused (h : Rounds rnd u η) (h1 : u < 1) (hd0 : ∀ r, M r r ≠ 0) (hN : ∀ r c, (N r c).get = .fin (M r c))
    (hb : ∀ r, (b r).get = .fin (d r)) (hy : ∀ r, y r = less (b r) (fun c => N r c * y c) 0 r.1)
    (hx : ∀ r, x r = less (y r) (fun c => N r c * x c) (r.1 + 1) (n - (r.1 + 1)) / N r r) :
    Sweeps (fun (v : Fused rnd fuse) q => v.get = .fin q) Fused.val u η M N d b y x :=
  ⟨fun h => (Fused.isFin_of h).2, hN, hb, hy, hx, fun _ hr => forward_rowF h h1 hN hb hy (Fused.isFin_of hr).1,
    fun _ hr => backward_rowF h h1 hd0 hN hx (Fused.isFin_of hr).1⟩

end sweeps

/-- C224: without pivoting and whichever products are fused, a symmetric matrix of doubles whose form is well above the tolerance
is accepted, the factors do not grow beyond the diagonal, and their product is close to the matrix. -/
theorem c224_factors {t a l : ℚ} (ht : 1 / 2 ^ 100 ≤ t) (ha : a ≤ 2 ^ 900) (hl0 : 0 < l) (N : Fin n → Fin n → Fused binary64 fuse)
    (B : Fin n → Fin n → ℚ) (hN : ∀ r c, (N r c).get = .fin (B r c))
    (hB : ∀ x : Fin n → ℚ, l * ∑ r, x r ^ 2 ≤ ∑ r, ∑ c, x r * B r c * x c) (hsym : ∀ r c, B r c = B c r)
    (hdiag : ∀ r, B r r ≤ a) (hl : t + n ^ 2 * a / 2 ^ 46 ≤ l) (s : Lu (Fused binary64 fuse)) (hs : s.tol.get = .fin t) :
    ∃ (N' : Fin n → Fin n → Fused binary64 fuse) (M : Fin n → Fin n → ℚ),
      factorise (Fused.arith binary64 fuse) false s (mat N) = .ok ({ s with factorised := true, lu := mat N' }, true) ∧
      (∀ r c, (N' r c).get = .fin (M r c)) ∧
      (∀ k, t ≤ M k k) ∧ (∀ k c, k ≤ c → |M k c| ≤ 2 * a) ∧ (∀ r k c, k < r → k ≤ c → |M r k * M k c| ≤ 9 / 2 * a) ∧
      ∀ r c, |(∑ k, lowerPart M r k * upperPart M k c) - B r c| ≤ n * a / 2 ^ 49 := by
  obtain ⟨N', M, h1, h1', h2⟩ := factorise_definite_works64 (works_fused fine_binary64) ht ha hl0 (definite_form hB) hsym hdiag hl hN s hs
  refine ⟨N', M, h1, h1', fun k => h2.pivot k k.2, fun k c h => h2.top k c k.2 h,
    fun r k c hk hc => by linarith [h2.mult r k c k.2 hk hc], fun r c => ?_⟩
  have h3 := h2.near r c
  rw [show factorProduct M n r c = ∑ k, lowerPart M r k * upperPart M k c from
    Finset.sum_congr rfl fun k _ => by rw [lower_eq, upper_eq], ← mul_div_assoc] at h3
  exact h3

/-- C224: the residual of every finite solution is small against the matrix and the solution, and so is its distance from the
exact solution. -/
theorem c224_residual {t a l : ℚ} (ht : 1 / 2 ^ 100 ≤ t) (ha : a ≤ 2 ^ 900) (hl0 : 0 < l) (N : Fin n → Fin n → Fused binary64 fuse)
    (B : Fin n → Fin n → ℚ) (hN : ∀ r c, (N r c).get = .fin (B r c))
    (hB : ∀ x : Fin n → ℚ, l * ∑ r, x r ^ 2 ≤ ∑ r, ∑ c, x r * B r c * x c) (hsym : ∀ r c, B r c = B c r)
    (hdiag : ∀ r, B r r ≤ a) (hl : t + n ^ 2 * a / 2 ^ 46 ≤ l) (s : Lu (Fused binary64 fuse)) (hs : s.tol.get = .fin t) :
    ∃ s', factorise (Fused.arith binary64 fuse) false s (mat N) = .ok (s', true) ∧
    ∀ (b : Fin n → Fused binary64 fuse) (d : Fin n → ℚ) (x0 : List (Fused binary64 fuse)) (W : Fin n → Fused binary64 fuse)
      (x : Fin n → ℚ) (X : ℚ), (∀ r, (b r).get = .fin (d r)) → Lu.solve false s' x0 (some (vec b)) = .ok (vec W, true, 1) →
      (∀ r, (W r).get = .fin (x r)) → ∑ c, |x c| ≤ X →
      (∀ r, |d r - ∑ c, B r c * x c| ≤ n ^ 2 * a * (X / 2 ^ 46 + 1 / 2 ^ 899)) ∧
      ∀ y, Solves B y d → ∑ r, |x r - y r| ≤ n ^ 3 * (a / l) * (X / 2 ^ 46 + 1 / 2 ^ 899) := by
  have ht0 : 0 < t := lt_of_lt_of_le (by positivity) ht
  have hB' := definite_form hB
  obtain ⟨N', M, h1, h1', h2⟩ := factorise_definite_works64 (works_fused fine_binary64) ht ha hl0 hB' hsym hdiag hl hN s hs
  refine ⟨_, h1, fun b d x0 W x X hb hW hx hX => definite_residual ht hl0 hB' hdiag hl h2 (fun r => ?_) hX⟩
  obtain ⟨-, -, -, hn23⟩ := definite_sizes r.pos ht hl0 hB' hdiag hl
  have hn52 : n ≤ 2 ^ 52 := by
    have : n ≤ 2 ^ 23 := by exact_mod_cast hn23
    omega
  exact residual_fused64 ht0 hs hn52 h1 rfl hN h1' hb hW hx r

/-- C224: a symmetric positive definite system whose numbers are at most 2^300 in size is accepted, and for every right hand
side the solution returned is finite, bounded, and close to the exact solution. -/
theorem c224_solved {t a l : ℚ} (ht : 1 / 2 ^ 100 ≤ t) (ha : a ≤ 2 ^ 300) (hl0 : 0 < l) (N : Fin n → Fin n → Fused binary64 fuse)
    (B : Fin n → Fin n → ℚ) (hN : ∀ r c, (N r c).get = .fin (B r c))
    (hB : ∀ x : Fin n → ℚ, l * ∑ r, x r ^ 2 ≤ ∑ r, ∑ c, x r * B r c * x c) (hsym : ∀ r c, B r c = B c r)
    (hdiag : ∀ r, B r r ≤ a) (hl : t + n ^ 3 * a / 2 ^ 46 ≤ l) (s : Lu (Fused binary64 fuse)) (hs : s.tol.get = .fin t) :
    ∃ s', factorise (Fused.arith binary64 fuse) false s (mat N) = .ok (s', true) ∧
    ∀ (b : Fin n → Fused binary64 fuse) (d : Fin n → ℚ) (D : ℚ) (x0 : List (Fused binary64 fuse)),
      (∀ r, (b r).get = .fin (d r)) → (∀ r, |d r| ≤ D) → D ≤ 2 ^ 300 →
      ∃ (W : Fin n → Fused binary64 fuse) (x : Fin n → ℚ), Lu.solve false s' x0 (some (vec b)) = .ok (vec W, true, 1) ∧
      (∀ r, (W r).get = .fin (x r)) ∧ ∑ r, |x r| ≤ 3 * n * (D + a / 2 ^ 900) / l ∧
      ∀ y, Solves B y d → ∑ r, |x r - y r| ≤ n ^ 4 * (a / l) * (D / l / 2 ^ 44 + 1 / 2 ^ 440) := by
  have ht0 : 0 < t := lt_of_lt_of_le (by positivity) ht
  have hB' := definite_form hB
  have ha9 : a ≤ 2 ^ 900 := ha.trans (pow_le_pow_right₀ (by norm_num) (by norm_num))
  have hl2 : t + n ^ 2 * a / 2 ^ 46 ≤ l := by
    rcases Nat.eq_zero_or_pos n with rfl | hn0
    · simpa using hl
    · have h1 : l ≤ a := (hB'.diag ⟨0, hn0⟩).trans (hdiag _)
      have h2 : (n : ℚ) ^ 2 * a ≤ n ^ 3 * a :=
        mul_le_mul_of_nonneg_right (pow_le_pow_right₀ (by exact_mod_cast hn0) (by norm_num)) (hl0.le.trans h1)
      have h3 : (n : ℚ) ^ 2 * a / 2 ^ 46 ≤ n ^ 3 * a / 2 ^ 46 := div_le_div_of_nonneg_right h2 (by positivity)
      linarith only [h3, hl]
  have hw := works_fused (fuse := fuse) fine_binary64
  obtain ⟨N', M, h1, h1', h2⟩ := factorise_definite_works64 hw ht ha9 hl0 hB' hsym hdiag hl2 hN s hs
  obtain ⟨s', k1, k2⟩ := c224_residual ht ha9 hl0 N B hN hB hsym hdiag hl2 s hs
  rw [h1] at k1
  obtain rfl := (Prod.mk.inj (Out.ok.inj k1)).1
  refine ⟨_, h1, fun b d D x0 hb hdD hD => ?_⟩
  obtain ⟨y, w, l1, l2, l3⟩ := solve_any false { s with factorised := true, lu := mat N' } N' rfl rfl 1 (by simp) (fun _ => rfl) b x0
  rcases Nat.eq_zero_or_pos n with rfl | hn0
  · exact ⟨w, fun r => r.elim0, l1, fun r => r.elim0, by simp, fun y _ => by simp⟩
  obtain ⟨htl, hla, -, -⟩ := definite_sizes hn0 ht hl0 hB' hdiag hl2
  have h3 : (n : ℚ) ^ 3 * a ≤ 2 ^ 46 * l := by
    have : (n : ℚ) ^ 3 * a / 2 ^ 46 ≤ l := by linarith only [ht0, hl]
    rw [div_le_iff₀ (by positivity)] at this
    linarith only [this]
  obtain ⟨f1, f2⟩ := definite_sweeps hw ht ha hD htl hla h3 hB' h2 hdD hn0
    (sweeps_fused rounds_binary64 (by norm_num) (fun r => (ht0.trans_le (h2.pivot r r.2)).ne') h1' hb l2 l3)
  refine ⟨w, fun r => (w r).val, l1, f1, f2, fun z hz => ?_⟩
  exact ((k2 b d x0 w _ _ hb l1 f1 f2).2 z hz).trans (definite_constants ht ha htl hla ((abs_nonneg _).trans (hdD ⟨0, hn0⟩)) hn0)

/-- The hypotheses hold for doubles, whichever products are fused. -/
example (fuse : Hist → Hist → Hist → Bool) (b : Fin 3 → Fused binary64 fuse) (hb : ∀ r, (b r).get = .fin 1) :
    ∃ (s' : Lu (Fused binary64 fuse)) (W : Fin 3 → Fused binary64 fuse) (x : Fin 3 → ℚ),
      factorise (Fused.arith binary64 fuse) false ⟨false, (Fused.arith binary64 fuse).tol, [], []⟩
        (mat fun r c : Fin 3 => inp (3 * r.1 + c.1) (stiff r c)) = .ok (s', true) ∧
      Lu.solve false s' [] (some (vec b)) = .ok (vec W, true, 1) ∧ (∀ r, (W r).get = .fin (x r)) ∧
      ∀ y, Solves stiff y (fun _ => 1) → ∑ r, |x r - y r| ≤ 1 / 2 ^ 31 := by
  obtain ⟨s', h1, h2⟩ := c224_solved (fuse := fuse) (n := 3) (t := 64 * (1 / 2 ^ 52)) (a := 5) (l := 1 / 4) (by norm_num)
    (by decide +kernel) (by norm_num) (fun r c : Fin 3 => inp (3 * r.1 + c.1) (stiff r c)) stiff (fun _ _ => rfl) (fun x => by
      simp only [Fin.sum_univ_three]
      have e : ∀ r c, stiff r c = ([[4, 3, 1], [3, 4, 3], [1, 3, 5]].getD r.1 []).getD c.1 0 := fun _ _ => rfl
      simp only [e, Fin.val_zero, Fin.val_one, Fin.val_two, List.getD_cons_zero, List.getD_cons_succ]
      nlinarith [sq_nonneg (15 * x 0 + 12 * x 1 + 4 * x 2), sq_nonneg (27 * x 1 + 44 * x 2), sq_nonneg (x 2)])
    (by decide +kernel) (by decide +kernel) (by norm_num) ⟨false, (Fused.arith binary64 fuse).tol, [], []⟩ rfl
  obtain ⟨W, x, h3, h4, -, h5⟩ := h2 b (fun _ => 1) 1 [] hb (by simp) (by decide +kernel)
  refine ⟨s', W, x, h1, h3, h4, fun y hy => (h5 y hy).trans ?_⟩
  decide +kernel

end Disa.Props
