import Verif.Props.Fused
import Verif.Props.LuAccurate

/-!
# Property C223: the direct solver with fused operations is accurate for dominant matrices
-/

namespace Disa.Props

open Disa Spec Dense Num Lu

variable {fuse : Hist → Hist → Hist → Bool}

/-- Fused numbers. -/
theorem works_fused {rnd : ℚ → Fl} {u η R : ℚ} (hf : Fine rnd u η R) :
    Works (Fused.arith rnd fuse) (fun (x : Fused rnd fuse) q => x.get = .fin q) u η R where
  u_nonneg := hf.rounds.u_nonneg
  η_nonneg := hf.rounds.η_nonneg
  u_small := hf.u_small
  η_small := hf.η_small
  quot := by
    intro x y p q hx hy hq hR
    obtain ⟨z, hz⟩ := hf.range _ hR
    refine ⟨z, ?_, hf.rounds.error _ _ hz⟩
    show Fl.div rnd x.get y.get = .fin z
    rw [hx, hy]
    simp [Fl.div, hq, hz]
  diff := by
    intro w x y a p q hw hx hy hR
    have hu := hf.rounds.u_nonneg
    have hη := hf.rounds.η_nonneg
    have h0 : 0 ≤ u * |p * q| := by positivity
    obtain ⟨r, hr, h1⟩ : ∃ r, (x * y).operand w.hist = .fin r ∧ |r - p * q| ≤ u * |p * q| + η := by
      have e : (x * y).operand w.hist = (if fuse w.hist x.hist y.hist then .fin else rnd) (p * q) := by
        show Fl.mul _ x.get y.get = _
        rw [hx, hy]
        rfl
      rw [e]
      split
      · exact ⟨_, rfl, by rw [sub_self, abs_zero]; linarith⟩
      · obtain ⟨r, hr⟩ := hf.range (p * q) (by linarith [abs_nonneg a])
        exact ⟨r, hr, hf.rounds.error _ _ hr⟩
    have h2 := abs_add_le (r - p * q) (p * q)
    rw [sub_add_cancel] at h2
    obtain ⟨z, hz⟩ := hf.range (a - r) (by linarith [abs_sub a r])
    refine ⟨r, z, h1, hf.rounds.error _ _ hz, ?_⟩
    show Fl.sub rnd w.get ((x * y).operand w.hist) = .fin z
    rw [hw, hr]
    show rnd (a + -r) = _
    rw [← sub_eq_add_neg, hz]
  below := by
    intro x y p q hx hy
    show Fl.lt (Fl.abs x.get) y.get = _
    rw [hx, hy]
    rfl

/-- The bound of C217 for doubles. -/
theorem residual_constants {m : Nat} (hn : m ≤ 2 ^ 52) {T U X : ℚ} (hT : 0 ≤ T) (hU : 0 ≤ U) (hX : 0 ≤ X) :
    (3 * relError (1 / 2 ^ 53) m + relError (1 / 2 ^ 53) m ^ 2) * T +
      absError (1 / 2 ^ 53) (1 / 2 ^ 1075) m * (1 + (1 + relError (1 / 2 ^ 53) m) * U + X) ≤
    m / 2 ^ 50 * T + 6 * m / 2 ^ 1075 * (1 + 2 * U + X) := by
  have hn' : (m : ℚ) ≤ 2 ^ 52 := by exact_mod_cast hn
  have e1 := c102_relError hn
  have e0 : 0 ≤ relError (1 / 2 ^ 53) m := by
    have : (1 : ℚ) ≤ (1 / (1 - 1 / 2 ^ 53)) ^ m := one_le_pow₀ (by norm_num)
    unfold relError
    linarith
  have e2 : relError (1 / 2 ^ 53) m ≤ 1 := by
    refine e1.trans ?_
    rw [div_le_one (by positivity)]
    exact hn'
  have e3 := c102_absError hn
  have g1 : 3 * relError (1 / 2 ^ 53) m + relError (1 / 2 ^ 53) m ^ 2 ≤ m / 2 ^ 50 := by
    have : relError (1 / 2 ^ 53) m ^ 2 ≤ relError (1 / 2 ^ 53) m := by nlinarith
    have q : (m : ℚ) / 2 ^ 50 = 4 * (m / 2 ^ 52) := by ring
    rw [q]
    linarith
  have g2 : 1 + relError (1 / 2 ^ 53) m ≤ 2 := by linarith
  refine add_le_add (mul_le_mul_of_nonneg_right g1 hT) ?_
  refine mul_le_mul e3 (by gcongr) ?_ (by positivity)
  exact add_nonneg (add_nonneg zero_le_one (mul_nonneg (add_nonneg zero_le_one e0) hU)) hX

/-- The residual of a solution with fused operations, without pivoting. -/
theorem residual_fused64 {s s' : Lu (Fused binary64 fuse)} {t : ℚ} (ht : 0 < t) (hs : s.tol.get = .fin t) {n : Nat} (hn : n ≤ 2 ^ 52)
    {N N' : Fin n → Fin n → Fused binary64 fuse} (hf : factorise (Fused.arith binary64 fuse) false s (mat N) = .ok (s', true))
    (hN' : s'.lu = mat N') {B M : Fin n → Fin n → ℚ} (hB : ∀ r c, (N r c).get = .fin (B r c)) (hM : ∀ r c, (N' r c).get = .fin (M r c))
    {b X : Fin n → Fused binary64 fuse} {d x : Fin n → ℚ} (hd : ∀ r, (b r).get = .fin (d r)) {x0 : List (Fused binary64 fuse)}
    (hX : Lu.solve false s' x0 (some (vec b)) = .ok (vec X, true, 1)) (hx : ∀ r, (X r).get = .fin (x r)) (r : Fin n) :
    |d r - ∑ c, B r c * x c| ≤ n / 2 ^ 50 * (∑ k, |lowerPart M r k| * ∑ c, |upperPart M k c| * |x c|) +
      6 * n / 2 ^ 1075 * (1 + 2 * (∑ k, |lowerPart M r k| * (1 + |M k k|)) + ∑ c, (1 + |M c c|) * |x c|) := by
  obtain ⟨p, B', h1, h2, -, h3⟩ := c217_backward rounds_binary64 (by norm_num) false s s' ht hs N hf N' hN' M hM
  obtain ⟨d', h4, h5⟩ := h3 b x0 X x hX hx
  obtain rfl := h1 rfl
  obtain rfl : B' = B := funext fun r => funext fun c => Fl.fin.inj ((h2 r c).symm.trans (hB r c))
  obtain rfl : d' = d := funext fun r => Fl.fin.inj ((h4 r).symm.trans (hd r))
  refine (h5 r).trans (residual_constants hn ?_ ?_ ?_)
  · exact Finset.sum_nonneg fun k _ => mul_nonneg (abs_nonneg _) (Finset.sum_nonneg fun c _ => mul_nonneg (abs_nonneg _) (abs_nonneg _))
  · exact Finset.sum_nonneg fun k _ => mul_nonneg (abs_nonneg _) (add_nonneg zero_le_one (abs_nonneg _))
  · exact Finset.sum_nonneg fun k _ => mul_nonneg (add_nonneg zero_le_one (abs_nonneg _)) (abs_nonneg _)

/-- C223: without pivoting and whichever products are fused, a matrix of doubles whose rows are dominated by the diagonal is
accepted, the residual of every finite solution is small against the matrix and the solution, and so is its distance from the
exact solution. -/
theorem c223_accurate {n : Nat} {t A S : ℚ} (ht : 1 / 2 ^ 100 ≤ t) (hA : A ≤ 2 ^ 900) (N : Fin n → Fin n → Fused binary64 fuse)
    (B : Fin n → Fin n → ℚ) (hB : ∀ r c, (N r c).get = .fin (B r c)) (hrow : ∀ r, ∑ c, |B r c| ≤ A)
    (hdom : ∀ r, S + ∑ c ∈ Finset.univ.erase r, |B r c| ≤ |B r r|) (hS : t + n * A / 2 ^ 49 ≤ S) (s : Lu (Fused binary64 fuse))
    (hs : s.tol.get = .fin t) :
    ∃ s', factorise (Fused.arith binary64 fuse) false s (mat N) = .ok (s', true) ∧
    ∀ (b : Fin n → Fused binary64 fuse) (d : Fin n → ℚ) (x0 : List (Fused binary64 fuse)) (W : Fin n → Fused binary64 fuse)
      (x : Fin n → ℚ) (X : ℚ), (∀ r, (b r).get = .fin (d r)) → Lu.solve false s' x0 (some (vec b)) = .ok (vec W, true, 1) →
      (∀ r, (W r).get = .fin (x r)) → (∀ c, |x c| ≤ X) →
      (∀ r, |d r - ∑ c, B r c * x c| ≤ n ^ 2 * A * (6 * X / 2 ^ 50 + 1 / 2 ^ 900)) ∧
      ∀ y, Solves B y d → ∀ r, |x r - y r| ≤ n ^ 2 * A * (6 * X / 2 ^ 50 + 1 / 2 ^ 900) / S := by
  have ht0 : 0 < t := lt_of_lt_of_le (by positivity) ht
  obtain ⟨N', M, h1, h1', h2, hg, h3⟩ := factorise_works64 (works_fused fine_binary64) ht hA hrow hdom hS hB s hs
  have h2 := heavy_pivots ht0 (fun r => (h2 r).1) hg
  refine ⟨_, h1, fun b d x0 W x X hb hW hx hX => ?_⟩
  have hres : ∀ r, |d r - ∑ c, B r c * x c| ≤ n ^ 2 * A * (6 * X / 2 ^ 50 + 1 / 2 ^ 900) := by
    intro r
    have hn0 : 0 < n := r.pos
    obtain ⟨htS, hSA, hn⟩ := heavy_size hn0 ht0 hrow hdom hS
    have hX0 : 0 ≤ X := (abs_nonneg _).trans (hX r)
    have hband : Band (n - 1) M := fun r c h => by
      have := r.2
      have := c.2
      omega
    obtain ⟨k1, k2, k3⟩ := heavy_sums hband ht0 h2 h3 hX r
    rw [show n - 1 + 1 = n by omega] at k1 k2
    have hn52 : n ≤ 2 ^ 52 := by
      have : n ≤ 2 ^ 49 := by exact_mod_cast hn
      omega
    refine (residual_fused64 ht0 hs hn52 h1 rfl hB h1' hb hW hx r).trans ?_
    have hm : (1 : ℚ) ≤ (n : ℚ) := by exact_mod_cast hn0
    refine le_trans ?_ (heavy_constants hm hn ht (htS.trans hSA) hX0)
    have g1 : (0 : ℚ) ≤ n / 2 ^ 50 := by positivity
    have g2 : (0 : ℚ) ≤ 6 * n / 2 ^ 1075 := by positivity
    exact add_le_add (mul_le_mul_of_nonneg_left k1 g1)
      (mul_le_mul_of_nonneg_left (add_le_add (add_le_add le_rfl (mul_le_mul_of_nonneg_left k2 (by norm_num))) k3) g2)
  refine ⟨hres, fun y hy r => ?_⟩
  have hn0 : 0 < n := r.pos
  exact dominant_error (ht0.trans_le (heavy_size hn0 ht0 hrow hdom hS).1) hdom hy hres r

/-- C223: a dominant system whose numbers are at most 2^400 in size is accepted, and for every right hand side the solution
returned is finite, bounded, and close to the exact solution. -/
theorem c223_solved {n : Nat} {t A S : ℚ} (ht : 1 / 2 ^ 100 ≤ t) (hA : A ≤ 2 ^ 400) (N : Fin n → Fin n → Fused binary64 fuse)
    (B : Fin n → Fin n → ℚ) (hB : ∀ r c, (N r c).get = .fin (B r c)) (hrow : ∀ r, ∑ c, |B r c| ≤ A)
    (hdom : ∀ r, S + ∑ c ∈ Finset.univ.erase r, |B r c| ≤ |B r r|) (hS : t + n * A / 2 ^ 47 ≤ S) (s : Lu (Fused binary64 fuse))
    (hs : s.tol.get = .fin t) :
    ∃ s', factorise (Fused.arith binary64 fuse) false s (mat N) = .ok (s', true) ∧
    ∀ (b : Fin n → Fused binary64 fuse) (d : Fin n → ℚ) (D : ℚ) (x0 : List (Fused binary64 fuse)), (∀ r, (b r).get = .fin (d r)) →
      (∀ r, |d r| ≤ D) → D ≤ 2 ^ 400 →
      ∃ (W : Fin n → Fused binary64 fuse) (x : Fin n → ℚ), Lu.solve false s' x0 (some (vec b)) = .ok (vec W, true, 1) ∧
      (∀ r, (W r).get = .fin (x r)) ∧ (∀ r, |x r| ≤ 8 * (D + A / 2 ^ 900) / S) ∧
      ∀ y, Solves B y d → ∀ r, |x r - y r| ≤ n ^ 2 * (A / S) * (D / S / 2 ^ 44 + 1 / 2 ^ 440) := by
  have ht0 : 0 < t := lt_of_lt_of_le (by positivity) ht
  have hA9 : A ≤ 2 ^ 900 := hA.trans (pow_le_pow_right₀ (by norm_num) (by norm_num))
  have hS9 : t + n * A / 2 ^ 49 ≤ S := by
    rcases Nat.eq_zero_or_pos n with rfl | hn0
    · simpa using hS
    · have h1 : 0 ≤ ∑ c, |B ⟨0, hn0⟩ c| := Finset.sum_nonneg fun _ _ => abs_nonneg _
      have h2 : 0 ≤ n * A := mul_nonneg (by positivity) (h1.trans (hrow _))
      have h3 : n * A / 2 ^ 49 ≤ n * A / 2 ^ 47 := div_le_div_of_nonneg_left h2 (by positivity) (by norm_num)
      linarith
  have hw := works_fused (fuse := fuse) fine_binary64
  obtain ⟨N', M, h1, h1', h2, hg, -⟩ := factorise_works64 hw ht hA9 hrow hdom hS9 hB s hs
  obtain ⟨s', k1, k2⟩ := c223_accurate ht hA9 N B hB hrow hdom hS9 s hs
  rw [h1] at k1
  obtain rfl := (Prod.mk.inj (Out.ok.inj k1)).1
  refine ⟨_, h1, fun b d D x0 hb hdD hD => ?_⟩
  obtain ⟨y, w, l1, l2, l3⟩ := solve_any false { s with factorised := true, lu := mat N' } N' rfl rfl 1 (by simp) (fun _ => rfl) b x0
  have hfin : ∀ r, ∃ q, (w r).get = .fin q ∧ |q| ≤ 8 * (D + A / 2 ^ 900) / S := by
    intro r
    obtain ⟨htS, hSA, -⟩ := heavy_size r.pos ht0 hrow hdom hS9
    refine finite_works64 hw ht hA hD htS hSA ?_ (fun r => (h2 r).1) (fun r => (h2 r).2) hg hdD h1' hb l2 l3 r
    have : n * A / 2 ^ 47 ≤ S := by linarith
    rw [div_le_iff₀ (by positivity)] at this
    linarith
  choose x hx using hfin
  refine ⟨w, x, l1, fun r => (hx r).1, fun r => (hx r).2, fun z hz r => ?_⟩
  refine ((k2 b d x0 w x _ hb l1 (fun r => (hx r).1) fun c => (hx c).2).2 z hz r).trans ?_
  obtain ⟨htS, hSA, -⟩ := heavy_size r.pos ht0 hrow hdom hS9
  have hS0 : 0 < S := ht0.trans_le htS
  rw [div_eq_mul_one_div A (2 ^ 900)]
  exact solved_constants hS0 (hS0.le.trans hSA) ((abs_nonneg _).trans (hdD r)) (small_constants ht htS hA)

/-- The hypotheses hold for doubles, whichever products are fused. -/
example (fuse : Hist → Hist → Hist → Bool) (b : Fin 3 → Fused binary64 fuse) (hb : ∀ r, (b r).get = .fin 1) :
    ∃ (s' : Lu (Fused binary64 fuse)) (W : Fin 3 → Fused binary64 fuse) (x : Fin 3 → ℚ),
      factorise (Fused.arith binary64 fuse) false ⟨false, (Fused.arith binary64 fuse).tol, [], []⟩
        (mat fun r c : Fin 3 => inp (3 * r.1 + c.1) (mixedSigns r c)) = .ok (s', true) ∧
      Lu.solve false s' [] (some (vec b)) = .ok (vec W, true, 1) ∧ (∀ r, (W r).get = .fin (x r)) ∧
      ∀ y, Solves mixedSigns y (fun _ => 1) → ∀ r, |x r - y r| ≤ 1 / 2 ^ 37 := by
  obtain ⟨s', h1, h2⟩ := c223_solved (fuse := fuse) (n := 3) (t := 64 * (1 / 2 ^ 52)) (A := 7) (S := 1) (by norm_num) (by decide +kernel)
    (fun r c : Fin 3 => inp (3 * r.1 + c.1) (mixedSigns r c)) mixedSigns (fun _ _ => rfl) (by decide +kernel) (by decide +kernel)
    (by norm_num) ⟨false, (Fused.arith binary64 fuse).tol, [], []⟩ rfl
  obtain ⟨W, x, h3, h4, -, h5⟩ := h2 b (fun _ => 1) 1 [] hb (by simp) (by decide +kernel)
  refine ⟨s', W, x, h1, h3, h4, fun y hy r => (h5 y hy r).trans ?_⟩
  decide +kernel

end Disa.Props
