import Verif.Solver.Sweep
import Verif.Props.Round
import Verif.Graph.SubInv

/-!
# Rounding errors of sweeps
-/

namespace Disa

/-- The scalars of the solvers as floating point numbers.  The square root is a parameter. -/
def floats (rnd : ℚ → Fl) (sqrt : Num rnd → Num rnd) : Scalars (Num rnd) (Num rnd) where
  one := Num.fin 1
  threeHalves := Num.fin (3 / 2)
  ten := Num.fin 10
  big := Num.fin ((2 - 1 / 2 ^ 52) * 2 ^ 1023)
  sqrt := sqrt
  lt := Fl.lt
  count n := rnd n
  ratio x y := x / y
  plain x := x
  above x t := Fl.lt t x

namespace Iterative

open Disa Spec Dense Sparse Num Props

variable {rnd : ℚ → Fl} {u η : ℚ}

theorem round_step (h : Rounds rnd u η) {p q Q e T : ℚ} (hr : rnd p = .fin q) (he : |p - Q| ≤ e) (hT : |Q| ≤ T) :
    |q - Q| ≤ (1 + u) * e + u * T + η := by
  have h1 := h.error _ _ hr
  have h2 : |p| ≤ T + e := by
    have := abs_add_le Q (p - Q)
    rw [add_sub_cancel] at this
    linarith
  have h3 := mul_le_mul_of_nonneg_left h2 h.u_nonneg
  have h4 := abs_add_le (q - p) (p - Q)
  rw [sub_add_sub_cancel] at h4
  linarith

theorem combine {g P D C B T k x : ℚ} (hg : g = 1 + u) (hg1 : 1 ≤ g) (hP1 : 1 ≤ P) (hη : 0 ≤ η) (hT : 0 ≤ T) (hD0 : 0 ≤ D)
    (hC0 : 0 ≤ C) (hB0 : 0 ≤ B) (hx0 : 0 ≤ x) :
    (1 + u) * (D * (P * g ^ 4 - 1) * T + (D * (k * P * g ^ 3 + g ^ 2) + g * C + 1) * η +
      ((g ^ 2 - 1) * B + (g * x + 1) * η)) + u * (D * T + B) + η ≤
    (P * g ^ 5 - 1) * (D * T + B) + P * g ^ 4 * η * (D * (k + 1) + C + x + 3) := by
  have g2 : g ^ 2 ≤ P * g ^ 4 := by
    calc g ^ 2 ≤ 1 * g ^ 4 := by rw [one_mul]; exact pow_le_pow_right₀ hg1 (by norm_num)
      _ ≤ _ := mul_le_mul_of_nonneg_right hP1 (by positivity)
  have g3 : g ^ 3 ≤ P * g ^ 4 := by
    calc g ^ 3 ≤ 1 * g ^ 4 := by rw [one_mul]; exact pow_le_pow_right₀ hg1 (by norm_num)
      _ ≤ _ := mul_le_mul_of_nonneg_right hP1 (by positivity)
  have g3' : g ^ 3 ≤ P * g ^ 5 := by
    calc g ^ 3 ≤ 1 * g ^ 5 := by rw [one_mul]; exact pow_le_pow_right₀ hg1 (by norm_num)
      _ ≤ _ := mul_le_mul_of_nonneg_right hP1 (by positivity)
  have g1 : g ≤ P * g ^ 4 := by
    calc g = g ^ 1 := (pow_one g).symm
      _ ≤ 1 * g ^ 4 := by rw [one_mul]; exact pow_le_pow_right₀ hg1 (by norm_num)
      _ ≤ _ := mul_le_mul_of_nonneg_right hP1 (by positivity)
  have g0 : 1 ≤ P * g ^ 4 := hg1.trans g1
  have i1 : g ^ 3 * B ≤ P * g ^ 5 * B := mul_le_mul_of_nonneg_right g3' hB0
  have i2 : D * g ^ 3 * η ≤ D * (P * g ^ 4) * η := by gcongr
  have i3 : g ^ 2 * C * η ≤ P * g ^ 4 * C * η := by gcongr
  have i4 : g ^ 2 * x * η ≤ P * g ^ 4 * x * η := by gcongr
  have i5 : g * η ≤ P * g ^ 4 * η := by gcongr
  have i6 : 1 * η ≤ P * g ^ 4 * η := by gcongr
  have e : (1 + u) * (D * (P * g ^ 4 - 1) * T + (D * (k * P * g ^ 3 + g ^ 2) + g * C + 1) * η +
      ((g ^ 2 - 1) * B + (g * x + 1) * η)) + u * (D * T + B) + η =
      (P * g ^ 5 - 1) * (D * T) + (g ^ 3 * B - B) + (D * (k * (P * g ^ 4)) * η + D * g ^ 3 * η + g ^ 2 * C * η + g * η +
        g ^ 2 * x * η + g * η + 1 * η) := by
    rw [show 1 + u = g from hg.symm, show u = g - 1 by rw [hg]; ring]; ring
  have e' : (P * g ^ 5 - 1) * (D * T + B) + P * g ^ 4 * η * (D * (k + 1) + C + x + 3) =
      (P * g ^ 5 - 1) * (D * T) + (P * g ^ 5 * B - B) + (D * (k * (P * g ^ 4)) * η + D * (P * g ^ 4) * η + P * g ^ 4 * C * η +
        P * g ^ 4 * η + P * g ^ 4 * x * η + P * g ^ 4 * η + P * g ^ 4 * η) := by ring
  rw [e, e']
  linarith

/-- The errors of the steps from the sum of the products to the new value. -/
theorem value_error (h : Rounds rnd u η) (n : Nat) {b v V S omega a z w y t s x r : ℚ} (ha : a ≠ 0)
    (hv : |v - V| ≤ productError u η n S) (hV : |V| ≤ S) (h1 : rnd (b - v) = .fin z) (h2 : rnd (omega * z) = .fin w)
    (h3 : rnd (w / a) = .fin y) (h4 : rnd (1 - omega) = .fin t) (h5 : rnd (t * x) = .fin s) (h6 : rnd (y + s) = .fin r) :
    |r - (omega * (b - V) / a + (1 - omega) * x)| ≤ sweepError u η n omega a (|b| + S) x := by
  have hu := h.u_nonneg
  have hη := h.η_nonneg
  have ha' : 0 < |a| := abs_pos.mpr ha
  have hS : 0 ≤ S := (abs_nonneg _).trans hV
  unfold productError at hv
  obtain ⟨g, hg⟩ : ∃ g, g = 1 + u := ⟨_, rfl⟩
  obtain ⟨P, hP⟩ : ∃ P, P = (1 + u) ^ n := ⟨_, rfl⟩
  have hg1 : 1 ≤ g := by linarith
  have hP1 : 1 ≤ P := by rw [hP]; exact one_le_pow₀ (by linarith)
  have e1 : (1 + u) ^ (n + 1) = P * g := by rw [hP, hg]; ring
  have e4 : (1 + u) ^ (n + 4) = P * g ^ 4 := by rw [hP, hg]; ring
  have e5 : (1 + u) ^ (n + 5) = P * g ^ 5 := by rw [hP, hg]; ring
  obtain ⟨k, hk⟩ : ∃ k : ℚ, k = n * (2 + u) := ⟨_, rfl⟩
  have hk0 : 0 ≤ k := by rw [hk]; positivity
  rw [e1, ← hP, ← hk] at hv
  obtain ⟨T, hT⟩ : ∃ T, T = |b| + S := ⟨_, rfl⟩
  have hST : S ≤ T := by have := abs_nonneg b; linarith
  have hT0 : 0 ≤ T := hS.trans hST
  have hbV : |b - V| ≤ T := by have := abs_sub b V; linarith
  obtain ⟨W, hW⟩ : ∃ W, W = |omega| := ⟨_, rfl⟩
  have hW0 : 0 ≤ W := by rw [hW]; positivity
  -- the right hand side without the products
  have z1 : |z - (b - V)| ≤ (P * g ^ 2 - 1) * T + (k * P * g + 1) * η := by
    have := round_step h h1 (Q := b - V) (e := (P * g - 1) * S + k * P * η) (T := T)
      (by rw [show b - v - (b - V) = -(v - V) by ring, abs_neg]; exact hv) hbV
    have h7 : (P * g - 1) * S ≤ (P * g - 1) * T := mul_le_mul_of_nonneg_left hST (by nlinarith)
    have h8 : (1 + u) * ((P * g - 1) * S) ≤ (1 + u) * ((P * g - 1) * T) := mul_le_mul_of_nonneg_left h7 (by linarith)
    have h9 : (1 + u) * ((P * g - 1) * T + k * P * η) + u * T + η = (P * g ^ 2 - 1) * T + (k * P * g + 1) * η := by
      rw [hg]; ring
    linarith
  have w1 : |w - omega * (b - V)| ≤ W * (P * g ^ 3 - 1) * T + (W * (k * P * g ^ 2 + g) + 1) * η := by
    have := round_step h h2 (Q := omega * (b - V)) (e := W * ((P * g ^ 2 - 1) * T + (k * P * g + 1) * η)) (T := W * T)
      (by rw [← mul_sub, abs_mul, ← hW]; exact mul_le_mul_of_nonneg_left z1 hW0)
      (by rw [abs_mul, ← hW]; exact mul_le_mul_of_nonneg_left hbV hW0)
    refine this.trans (le_of_eq ?_)
    rw [hg]; ring
  have y1 : |y - omega * (b - V) / a| ≤ W / |a| * (P * g ^ 4 - 1) * T +
      (W / |a| * (k * P * g ^ 3 + g ^ 2) + g / |a| + 1) * η := by
    have := round_step h h3 (Q := omega * (b - V) / a)
      (e := (W * (P * g ^ 3 - 1) * T + (W * (k * P * g ^ 2 + g) + 1) * η) / |a|) (T := W * T / |a|)
      (by rw [← sub_div, abs_div]; exact div_le_div_of_nonneg_right w1 ha'.le)
      (by rw [abs_div, abs_mul, ← hW]; exact div_le_div_of_nonneg_right (mul_le_mul_of_nonneg_left hbV hW0) ha'.le)
    refine this.trans (le_of_eq ?_)
    rw [hg]
    field_simp
    ring
  have s1 : |s - (1 - omega) * x| ≤ (g ^ 2 - 1) * (|1 - omega| * |x|) + (g * |x| + 1) * η := by
    have t1 := round_step h h4 (Q := 1 - omega) (e := 0) (T := |1 - omega|) (by simp) le_rfl
    have := round_step h h5 (Q := (1 - omega) * x) (e := ((1 + u) * 0 + u * |1 - omega| + η) * |x|) (T := |1 - omega| * |x|)
      (by rw [← sub_mul, abs_mul]; exact mul_le_mul_of_nonneg_right t1 (abs_nonneg _)) (by rw [abs_mul])
    refine this.trans (le_of_eq ?_)
    rw [hg]; ring
  have r1 := round_step h h6 (Q := omega * (b - V) / a + (1 - omega) * x)
    (e := (W / |a| * (P * g ^ 4 - 1) * T + (W / |a| * (k * P * g ^ 3 + g ^ 2) + g / |a| + 1) * η) +
      ((g ^ 2 - 1) * (|1 - omega| * |x|) + (g * |x| + 1) * η)) (T := W / |a| * T + |1 - omega| * |x|)
    (by
      rw [show y + s - (omega * (b - V) / a + (1 - omega) * x) =
        (y - omega * (b - V) / a) + (s - (1 - omega) * x) by ring]
      exact (abs_add_le _ _).trans (add_le_add y1 s1))
    (by
      refine (abs_add_le _ _).trans (add_le_add ?_ (by rw [abs_mul]))
      rw [abs_div, abs_mul, ← hW, div_mul_eq_mul_div]
      exact div_le_div_of_nonneg_right (mul_le_mul_of_nonneg_left hbV hW0) ha'.le)
  refine r1.trans ?_
  unfold sweepError
  rw [e4, e5, ← hk, ← hT, ← hW]
  have hx0 := abs_nonneg x
  have := combine (η := η) (D := W / |a|) (C := 1 / |a|) (B := |1 - omega| * |x|) (x := |x|) (P := P) (T := T) (k := k) hg hg1 hP1
    hη hT0 (by positivity) (by positivity) (by positivity) hx0
  rw [show W * T / |a| = W / |a| * T by ring, show (W * (k + 1) + 1) / |a| = W / |a| * (k + 1) + 1 / |a| by ring,
    show g / |a| = g * (1 / |a|) by ring]
  exact this

/-- Without relaxation, none of these steps overflows if the numbers are small enough. -/
theorem value_finite (h : Rounds rnd u η) {M : ℚ} (hM : Range rnd M) (n : Nat) {b v V S a x : ℚ}
    (hv : |v - V| ≤ productError u η n S) (hV : |V| ≤ S) (hb : sweepRange u η n a (|b| + S) x ≤ M) :
    ∃ z w y t s r, rnd (b - v) = .fin z ∧ rnd (1 * z) = .fin w ∧ rnd (w / a) = .fin y ∧ rnd (1 - 1) = .fin t ∧
      rnd (t * x) = .fin s ∧ rnd (y + s) = .fin r := by
  have hu := h.u_nonneg
  have hη := h.η_nonneg
  have hS : 0 ≤ S := (abs_nonneg _).trans hV
  unfold productError at hv
  unfold sweepRange at hb
  obtain ⟨g, hg⟩ : ∃ g, g = 1 + u := ⟨_, rfl⟩
  obtain ⟨P, hP⟩ : ∃ P, P = (1 + u) ^ n := ⟨_, rfl⟩
  have hg1 : 1 ≤ g := by linarith
  have hP1 : 1 ≤ P := by rw [hP]; exact one_le_pow₀ (by linarith)
  have e1 : (1 + u) ^ (n + 1) = P * g := by rw [hP, hg]; ring
  have e5 : (1 + u) ^ (n + 5) = P * g ^ 5 := by rw [hP, hg]; ring
  obtain ⟨k, hk⟩ : ∃ k : ℚ, k = n * (2 + u) := ⟨_, rfl⟩
  have hk0 : 0 ≤ k := by rw [hk]; positivity
  rw [e1, ← hP, ← hk] at hv
  obtain ⟨T, hT⟩ : ∃ T, T = |b| + S := ⟨_, rfl⟩
  have hST : S ≤ T := by have := abs_nonneg b; linarith
  have hT0 : 0 ≤ T := hS.trans hST
  have hbV : |b - V| ≤ T := by have := abs_sub b V; linarith
  obtain ⟨C, hC⟩ : ∃ C, C = 1 / |a| := ⟨_, rfl⟩
  have hC0 : 0 ≤ C := by rw [hC]; positivity
  have hx0 := abs_nonneg x
  rw [e5, ← hk, ← hT, ← hC] at hb
  -- powers of `g`
  have hpow : ∀ i, i ≤ 5 → ∀ t, 0 ≤ t → g ^ i * t ≤ P * g ^ 5 * t ∧ P * g ^ i * t ≤ P * g ^ 5 * t := by
    intro i hi t ht
    have h1 : g ^ i ≤ g ^ 5 := pow_le_pow_right₀ hg1 hi
    have h2 : P * g ^ i ≤ P * g ^ 5 := mul_le_mul_of_nonneg_left h1 (by linarith)
    have h3 : g ^ i ≤ P * g ^ i := le_mul_of_one_le_left (by positivity) hP1
    exact ⟨mul_le_mul_of_nonneg_right (h3.trans h2) ht, mul_le_mul_of_nonneg_right h2 ht⟩
  obtain ⟨Q, hQ⟩ : ∃ Q, Q = P * g ^ 5 := ⟨_, rfl⟩
  rw [← hQ] at hb hpow
  have hQ0 : 0 ≤ Q := by rw [hQ]; positivity
  have hb' : Q * T + Q * (k * η) + 3 * (Q * η) + (Q * (C * T) + Q * (C * (k * η)) + 3 * (Q * (C * η))) + Q * (|x| * η) +
      3 * (Q * η) ≤ M := by
    refine le_trans (le_of_eq ?_) hb
    ring
  have p1 : 0 ≤ Q * T := by positivity
  have p2 : 0 ≤ Q * (k * η) := by positivity
  have p3 : 0 ≤ Q * η := by positivity
  have p4 : 0 ≤ Q * (C * T) := by positivity
  have p5 : 0 ≤ Q * (C * (k * η)) := by positivity
  have p6 : 0 ≤ Q * (C * η) := by positivity
  have p7 : 0 ≤ Q * (|x| * η) := by positivity
  have hkη : 0 ≤ k * η := by positivity
  have hCT : 0 ≤ C * T := by positivity
  have hCk : 0 ≤ C * (k * η) := by positivity
  have hCη : 0 ≤ C * η := by positivity
  have hxη : 0 ≤ |x| * η := by positivity
  have hv' : |v - V| ≤ (P * g - 1) * T + k * P * η := by
    have h7 : (P * g - 1) * S ≤ (P * g - 1) * T := mul_le_mul_of_nonneg_left hST (by nlinarith)
    linarith
  obtain ⟨z, h1⟩ := hM (b - v) (by
    have i1 := (hpow 1 (by norm_num) T hT0).2
    have i2 := (hpow 0 (by norm_num) (k * η) hkη).2
    have := abs_sub (b - V) (v - V)
    rw [sub_sub_sub_cancel_right] at this
    rw [pow_one] at i1
    rw [pow_zero] at i2
    have e : (P * g - 1) * T + k * P * η = P * g * T - T + P * 1 * (k * η) := by ring
    linarith)
  have z1 := round_step h h1 (Q := b - V) (e := (P * g - 1) * T + k * P * η) (T := T)
    (by rw [show b - v - (b - V) = -(v - V) by ring, abs_neg]; exact hv') hbV
  have z2 : (1 + u) * ((P * g - 1) * T + k * P * η) + u * T + η = P * g ^ 2 * T - T + (P * g ^ 1 * (k * η) + g ^ 0 * η) := by
    rw [show 1 + u = g from hg.symm, show u = g - 1 by rw [hg]; ring]; ring
  obtain ⟨w, h2⟩ := hM (1 * z) (by
    have i1 := (hpow 2 (by norm_num) T hT0).2
    have i2 := (hpow 1 (by norm_num) (k * η) hkη).2
    have i3 := (hpow 0 (by norm_num) η hη).1
    rw [one_mul]
    have := abs_add_le (b - V) (z - (b - V))
    rw [add_sub_cancel] at this
    linarith)
  have w1 := round_step h h2 (Q := b - V) (e := P * g ^ 2 * T - T + (P * g ^ 1 * (k * η) + g ^ 0 * η)) (T := T)
    (by rw [one_mul]; linarith) hbV
  have w2 : (1 + u) * (P * g ^ 2 * T - T + (P * g ^ 1 * (k * η) + g ^ 0 * η)) + u * T + η =
      P * g ^ 3 * T - T + (P * g ^ 2 * (k * η) + g ^ 1 * η + g ^ 0 * η) := by
    rw [show 1 + u = g from hg.symm, show u = g - 1 by rw [hg]; ring]; ring
  rw [w2] at w1
  have w3 : |w| ≤ P * g ^ 3 * T + (P * g ^ 2 * (k * η) + g ^ 1 * η + g ^ 0 * η) := by
    have := abs_add_le (b - V) (w - (b - V))
    rw [add_sub_cancel] at this
    linarith
  have w4 : |w / a| ≤ P * g ^ 3 * (C * T) + (P * g ^ 2 * (C * (k * η)) + g ^ 1 * (C * η) + g ^ 0 * (C * η)) := by
    rw [abs_div, div_eq_mul_one_div, ← hC]
    refine (mul_le_mul_of_nonneg_right w3 hC0).trans (le_of_eq ?_)
    ring
  obtain ⟨y, h3⟩ := hM (w / a) (by
    have i1 := (hpow 3 (by norm_num) _ hCT).2
    have i2 := (hpow 2 (by norm_num) _ hCk).2
    have i3 := (hpow 1 (by norm_num) _ hCη).1
    have i4 := (hpow 0 (by norm_num) _ hCη).1
    linarith)
  have y1 : |y| ≤ g * (P * g ^ 3 * (C * T) + (P * g ^ 2 * (C * (k * η)) + g ^ 1 * (C * η) + g ^ 0 * (C * η))) + η := by
    have e1 := h.error _ _ h3
    have := abs_add_le (w / a) (y - w / a)
    rw [add_sub_cancel] at this
    have i1 := mul_le_mul_of_nonneg_left w4 (by linarith : 0 ≤ g)
    have i2 : g * |w / a| = |w / a| + u * |w / a| := by rw [hg]; ring
    linarith
  obtain ⟨t, h4⟩ := hM (1 - 1) (by
    rw [sub_self, abs_zero]
    linarith)
  have t1 : |t| ≤ η := by
    have := h.error _ _ h4
    simpa using this
  have t2 : |t * x| ≤ |x| * η := by
    rw [abs_mul, mul_comm]
    exact mul_le_mul_of_nonneg_left t1 hx0
  obtain ⟨s, h5⟩ := hM (t * x) (by
    have i1 := (hpow 0 (by norm_num) _ hxη).1
    rw [pow_zero, one_mul] at i1
    linarith)
  have s1 : |s| ≤ g * (|x| * η) + η := by
    have e1 := h.error _ _ h5
    have := abs_add_le (t * x) (s - t * x)
    rw [add_sub_cancel] at this
    have i1 := mul_le_mul_of_nonneg_left t2 (by linarith : 0 ≤ g)
    have i2 : g * |t * x| = |t * x| + u * |t * x| := by rw [hg]; ring
    linarith
  obtain ⟨r, h6⟩ := hM (y + s) (by
    have i1 := (hpow 4 (by norm_num) _ hCT).2
    have i2 := (hpow 3 (by norm_num) _ hCk).2
    have i3 := (hpow 2 (by norm_num) _ hCη).1
    have i4 := (hpow 1 (by norm_num) _ hCη).1
    have i5 := (hpow 0 (by norm_num) _ hη).1
    have i6 := (hpow 1 (by norm_num) _ hxη).1
    rw [pow_zero, one_mul] at i5
    have e : g * (P * g ^ 3 * (C * T) + (P * g ^ 2 * (C * (k * η)) + g ^ 1 * (C * η) + g ^ 0 * (C * η))) =
      P * g ^ 4 * (C * T) + (P * g ^ 3 * (C * (k * η)) + g ^ 2 * (C * η) + g ^ 1 * (C * η)) := by ring
    have e' : g * (|x| * η) = g ^ 1 * (|x| * η) := by rw [pow_one]
    have := abs_add_le y s
    linarith)
  exact ⟨z, w, y, t, s, r, h1, h2, h3, h4, h5, h6⟩

/-! ### Rows -/

/-- The sum of the absolute values of the products off the diagonal. -/
def offAbs {n : Nat} (a : Fin n → Fin n → ℚ) (x : Fin n → ℚ) (i : Fin n) : ℚ := ∑ j, if j = i then 0 else |a i j * x j|

theorem off_le {n : Nat} (a : Fin n → Fin n → ℚ) (x : Fin n → ℚ) (i : Fin n) : |off a x i| ≤ offAbs a x i := by
  unfold off offAbs
  refine (Finset.abs_sum_le_sum_abs _ _).trans (Finset.sum_le_sum fun j _ => ?_)
  split <;> simp

theorem productError_mono (h : Rounds rnd u η) {k n : Nat} (hk : k ≤ n) {S : ℚ} (hS : 0 ≤ S) :
    productError u η k S ≤ productError u η n S := by
  have hu := h.u_nonneg
  have hη := h.η_nonneg
  have h1 : (1 : ℚ) ≤ 1 + u := by linarith
  have h2 : (1 + u) ^ (k + 1) ≤ (1 + u) ^ (n + 1) := pow_le_pow_right₀ h1 (by omega)
  have h3 : (1 + u) ^ k ≤ (1 + u) ^ n := pow_le_pow_right₀ h1 hk
  have h4 : (k : ℚ) ≤ n := by exact_mod_cast hk
  unfold productError
  gcongr

/-- The elements of a row of a matrix with finite elements, without the diagonal, and the elements of a vector. -/
theorem row_terms {n : Nat} {L : Rows (Num rnd)} {a : Fin n → Fin n → ℚ} (hs : Sorted L) (hb : Bounded n L)
    (hA : ∀ i j : Fin n, (entry L i j).getD 0 = fin (a i j)) (y : Fin n → ℚ) (i : Fin n) :
    ∃ t : List (ℚ × ℚ), t.length ≤ n ∧
      (row L i).foldl (fun v e => if e.1 = i.1 then v else v + e.2 * (vec fun j => (fin (y j) : Num rnd)).getD e.1 0) 0 =
        (t.map fun p => ((fin p.1 : Num rnd), (fin p.2 : Num rnd))).foldl (fun s p => s + p.1 * p.2) 0 ∧
      (t.map fun p => p.1 * p.2).sum = off a y i ∧ (t.map fun p => |p.1 * p.2|).sum = offAbs a y i := by
  -- elements and vector as functions of natural numbers
  obtain ⟨yN, hyN⟩ : ∃ yN : Nat → ℚ, ∀ j : Fin n, yN j = y j :=
    ⟨fun k => if h : k < n then y ⟨k, h⟩ else 0, fun j => by simp⟩
  have hfin : ∀ e ∈ row L i, e.2 = fin (Num.val e.2) ∧ (vec fun j => (fin (y j) : Num rnd)).getD e.1 0 = fin (yN e.1) := by
    intro e he
    have hlt := hb i e he
    have h1 := hA i ⟨e.1, hlt⟩
    have h2 : entry L i e.1 = some e.2 := by
      unfold entry
      rw [lookup_eq_some (hs i)]
      exact he
    rw [h2, Option.getD_some] at h1
    refine ⟨by rw [h1]; rfl, ?_⟩
    rw [show yN e.1 = y ⟨e.1, hlt⟩ from hyN ⟨e.1, hlt⟩]
    simp [vec, hlt]
  have hsum : ∀ f : ℚ → ℚ, f 0 = 0 → ((((row L i).filter fun e => e.1 ≠ i.1).map fun e =>
      (Num.val e.2, yN e.1)).map fun p => f (p.1 * p.2)).sum = ∑ j, if j = i then 0 else f (a i j * y j) := by
    intro f hf
    have e1 : ∀ l : List (Nat × Num rnd), (((l.filter fun e => e.1 ≠ i.1).map fun e =>
        (Num.val e.2, yN e.1)).map fun p => f (p.1 * p.2)).sum =
        (l.map fun e => if e.1 = i.1 then 0 else f (Num.val e.2 * yN e.1)).sum := by
      intro l
      induction l with
      | nil => rfl
      | cons e l ih =>
        by_cases he : e.1 = i.1
        · simpa [List.filter_cons, he] using ih
        · simpa [List.filter_cons, he] using ih
    rw [e1, sum_lookup (fun k v => if k = i.1 then 0 else f (Num.val v * yN k)) (hs i) (n := n) (fun e he => hb i e he),
      Finset.sum_range]
    apply Finset.sum_congr rfl
    intro j _
    have h1 := hA i j
    have hji : (j.1 = i.1) ↔ (j = i) := Fin.ext_iff.symm
    unfold entry at h1
    cases hl : (row L i).lookup j.1 with
    | none =>
      rw [hl] at h1
      have : (0 : ℚ) = a i j := fin_inj.mp h1
      simp [← this, hf]
    | some v =>
      rw [hl] at h1
      have : v = fin (a i j) := h1
      subst this
      simp only [Option.map_some, Option.getD_some, Num.val_fin, hji, hyN]
  refine ⟨((row L i).filter fun e => e.1 ≠ i.1).map fun e => (Num.val e.2, yN e.1), ?_, ?_, by unfold off; exact hsum id rfl, hsum abs abs_zero⟩
  · rw [List.length_map]
    refine (List.length_filter_le _ _).trans ?_
    have := Subgraph.sorted_length (hs i) (n := n) (by
      intro v hv
      unfold keys at hv
      obtain ⟨e, he, rfl⟩ := List.mem_map.mp hv
      exact hb i e he)
    unfold keys at this
    rwa [List.length_map] at this
  · have : ∀ (l : List (Nat × Num rnd)) (z : Num rnd), (∀ e ∈ l, e ∈ row L i) →
        l.foldl (fun v e => if e.1 = i.1 then v else v + e.2 * (vec fun j => (fin (y j) : Num rnd)).getD e.1 0) z =
        (((l.filter fun e => e.1 ≠ i.1).map fun e => (Num.val e.2, yN e.1)).map fun p =>
          ((fin p.1 : Num rnd), (fin p.2 : Num rnd))).foldl (fun s p => s + p.1 * p.2) z := by
      intro l
      induction l with
      | nil => exact fun _ _ => rfl
      | cons e l ih =>
        intro z hz
        have hl := ih
        by_cases he : e.1 = i.1
        · rw [List.foldl_cons, if_pos he, ih z fun e he => hz e (by simp [he])]
          simp [he]
        · obtain ⟨f1, f2⟩ := hfin e (hz e (by simp))
          rw [List.foldl_cons, if_neg he, ih _ fun e he => hz e (by simp [he])]
          simp only [List.filter_cons, he, ne_eq, not_false_eq_true, decide_true, if_true, List.map_cons, List.foldl_cons]
          rw [← f1, ← f2]
    exact this _ _ fun e he => he

variable (h : Rounds rnd u η) {n : Nat} {L : Rows (Num rnd)} {a : Fin n → Fin n → ℚ} (hs : Sorted L) (hb : Bounded n L)
  (hA : ∀ i j : Fin n, (entry L i j).getD 0 = fin (a i j)) {sqrt : Num rnd → Num rnd}

include h hs hb hA

/-- The error of the new value of an unknown. -/
theorem newValue_error (b y : Fin n → ℚ) (omega : ℚ) (i : Fin n) (hd : a i i ≠ 0) (r : ℚ)
    (hr : newValue (floats rnd sqrt) L (fun i => fin (b i)) (fin omega) (fin (a i i)) (fun i => fin (y i)) i = fin r) :
    |r - relaxed a b omega y i| ≤ sweepError u η n omega (a i i) (|b i| + offAbs a y i) (y i) := by
  unfold newValue at hr
  obtain ⟨t, ht, hf, hsum, habs⟩ := row_terms hs hb hA y i
  rw [hf] at hr
  obtain ⟨y', s, h1, h2, h3⟩ := add_fin hr
  obtain ⟨w, h4, h5⟩ := div_fin hd h1
  obtain ⟨o, z, h6, h7, h8⟩ := mul_fin h4
  obtain rfl : omega = o := fin_inj.mp h6
  obtain ⟨b', v, h9, h10, h11⟩ := sub_fin h7
  obtain rfl : b i = b' := fin_inj.mp h9
  obtain ⟨t', x, h12, h13, h14⟩ := mul_fin h2
  obtain rfl : y i = x := fin_inj.mp h13
  obtain ⟨o, o', h15, h16, h17⟩ := sub_fin h12
  obtain rfl : (1 : ℚ) = o := fin_inj.mp h15
  obtain rfl : omega = o' := fin_inj.mp h16
  obtain ⟨t'', e1, e2⟩ := sum_error h _ v h10
  obtain rfl : t = t'' := by
    have hinj : Function.Injective fun p : ℚ × ℚ => ((fin p.1 : Num rnd), (fin p.2 : Num rnd)) := by
      rintro ⟨p1, p2⟩ ⟨q1, q2⟩ he
      obtain ⟨e1, e2⟩ := Prod.mk.inj he
      have e1 : p1 = q1 := fin_inj.mp e1
      have e2 : p2 = q2 := fin_inj.mp e2
      rw [e1, e2]
    exact List.map_injective_iff.mpr hinj e1
  rw [hsum, habs] at e2
  have hV := off_le a y i
  exact value_error h n hd (e2.trans (productError_mono h ht ((abs_nonneg _).trans hV))) hV h11 h8 h5 h17 h14 h3

/-- It is finite without relaxation if the numbers are small enough. -/
theorem newValue_finite {M : ℚ} (hM : Range rnd M) (b y : Fin n → ℚ) (i : Fin n) (hd : a i i ≠ 0)
    (hR : sweepRange u η n (a i i) (|b i| + offAbs a y i) (y i) ≤ M) :
    ∃ r, newValue (floats rnd sqrt) L (fun i => fin (b i)) (fin 1) (fin (a i i)) (fun i => fin (y i)) i = fin r := by
  unfold newValue
  obtain ⟨t, ht, hf, hsum, habs⟩ := row_terms hs hb hA y i
  rw [hf]
  have hV := off_le a y i
  have hS : 0 ≤ offAbs a y i := (abs_nonneg _).trans hV
  have hu := h.u_nonneg
  have hη := h.η_nonneg
  obtain ⟨v, hv⟩ := sum_finite h hM t (by
    rw [habs]
    have h1 := productError_mono h ht hS
    have h2 : offAbs a y i + productError u η n (offAbs a y i) ≤ sweepRange u η n (a i i) (|b i| + offAbs a y i) (y i) := by
      unfold productError sweepRange
      obtain ⟨C, hC⟩ : ∃ C, C = 1 / |a i i| := ⟨_, rfl⟩
      have hC0 : 0 ≤ C := by rw [hC]; positivity
      rw [← hC]
      have h3 : (1 + u) ^ (n + 1) ≤ (1 + u) ^ (n + 5) := pow_le_pow_right₀ (by linarith) (by omega)
      have h4 : (1 + u) ^ n ≤ (1 + u) ^ (n + 5) := pow_le_pow_right₀ (by linarith) (by omega)
      have h0 : 0 ≤ (1 + u) ^ (n + 5) := by positivity
      have h5 : (1 + u) ^ (n + 1) * offAbs a y i ≤ (1 + u) ^ (n + 5) * offAbs a y i := mul_le_mul_of_nonneg_right h3 hS
      have h6 : n * (2 + u) * (1 + u) ^ n * η ≤ n * (2 + u) * (1 + u) ^ (n + 5) * η := by gcongr
      have h7 : 0 ≤ (1 + u) ^ (n + 5) * (|b i| + 3 * η + (|b i| + offAbs a y i + (n * (2 + u) + 3) * η) * C + (|y i| + 3) * η) := by
        positivity
      nlinarith
    linarith)
  have hv' : (t.map fun p => ((fin p.1 : Num rnd), (fin p.2 : Num rnd))).foldl (fun s p => s + p.1 * p.2) 0 = fin v := hv
  obtain ⟨t'', e1, e2⟩ := sum_error h _ v hv'
  obtain rfl : t = t'' := by
    have hinj : Function.Injective fun p : ℚ × ℚ => ((fin p.1 : Num rnd), (fin p.2 : Num rnd)) := by
      rintro ⟨p1, p2⟩ ⟨q1, q2⟩ he
      obtain ⟨e1, e2⟩ := Prod.mk.inj he
      have e1 : p1 = q1 := fin_inj.mp e1
      have e2 : p2 = q2 := fin_inj.mp e2
      rw [e1, e2]
    exact List.map_injective_iff.mpr hinj e1
  rw [hsum, habs] at e2
  obtain ⟨z, w, y', t', s, r, h1, h2, h3, h4, h5, h6⟩ := value_finite h hM n (b := b i) (a := a i i) (x := y i)
    (e2.trans (productError_mono h ht hS)) hV hR
  refine ⟨r, ?_⟩
  rw [hv']
  have f1 : (fin (b i) : Num rnd) - fin v = fin z := by exact Num.sub_eq.trans h1
  have f2 : (fin 1 : Num rnd) * fin z = fin w := h2
  have f3 : (fin w : Num rnd) / fin (a i i) = fin y' := by
    show Fl.div rnd (.fin w) (.fin (a i i)) = _
    simp only [Fl.div, hd, if_false, h3]
    rfl
  have f4 : (floats rnd sqrt).one - (fin 1 : Num rnd) = fin t' := by
    show (fin 1 : Num rnd) - fin 1 = _
    exact Num.sub_eq.trans h4
  have f5 : (fin t' : Num rnd) * fin (y i) = fin s := h5
  have f6 : (fin y' : Num rnd) + fin s = fin r := h6
  rw [f1, f2, f3, f4, f5, f6]

end Iterative
end Disa
