import Verif.Solver.SweepFloat
import Verif.Props.Fused

/-!
# Rounding errors of sweeps with fused operations
-/

namespace Disa

/-- The scalars of the solvers as floating point numbers with fused operations.  The square root is a parameter. -/
def fusedFloats (rnd : ℚ → Fl) (fuse : Hist → Hist → Hist → Bool) (sqrt : Fused rnd fuse → Fused rnd fuse) :
    Scalars (Fused rnd fuse) (Fused rnd fuse) where
  one := .num (.fin 1) (.input 0)
  threeHalves := .num (.fin (3 / 2)) (.input 0)
  ten := .num (.fin 10) (.input 0)
  big := .num (.fin ((2 - 1 / 2 ^ 52) * 2 ^ 1023)) (.input 0)
  sqrt := sqrt
  lt x y := Fl.lt x.get y.get
  count n := .num (rnd n) (.input 0)
  ratio x y := x / y
  plain x := x
  above x t := Fl.lt t.get x.get

namespace Fused

variable {rnd : ℚ → Fl} {fuse : Hist → Hist → Hist → Bool}

/-- The number is not a product that may be fused. -/
def Stored (x : Fused rnd fuse) : Prop := ∀ h, x.operand h = x.get

theorem stored_add (x y : Fused rnd fuse) : (x + y).Stored := fun _ => rfl

theorem stored_zero : (0 : Fused rnd fuse).Stored := fun _ => rfl

theorem sub_isFin {x y : Fused rnd fuse} (hy : y.Stored) (h : (x - y).IsFin) :
    x.IsFin ∧ y.IsFin ∧ rnd (x.val - y.val) = .fin (x - y).val := by
  have h' : Fl.sub rnd x.get (y.operand x.hist) = .fin (x - y).val := h
  rw [hy] at h'
  obtain ⟨p, q, h1, h2, h3⟩ := Num.sub_fin (rnd := rnd) (a := x.get) (b := y.get) h'
  obtain ⟨f1, v1⟩ := isFin_of h1
  obtain ⟨f2, v2⟩ := isFin_of h2
  exact ⟨f1, f2, by rw [v1, v2]; exact h3⟩

theorem mul_isFin {x y : Fused rnd fuse} (h : (x * y).IsFin) : x.IsFin ∧ y.IsFin ∧ rnd (x.val * y.val) = .fin (x * y).val := by
  have h' : Fl.mul rnd x.get y.get = .fin (x * y).val := h
  obtain ⟨p, q, h1, h2, h3⟩ := Num.mul_fin (rnd := rnd) (a := x.get) (b := y.get) h'
  obtain ⟨f1, v1⟩ := isFin_of h1
  obtain ⟨f2, v2⟩ := isFin_of h2
  exact ⟨f1, f2, by rw [v1, v2]; exact h3⟩

end Fused

namespace Iterative

open Disa Spec Dense Sparse Props

variable {rnd : ℚ → Fl} {fuse : Hist → Hist → Hist → Bool} {u η : ℚ}

theorem round_near (h : Rounds rnd u η) {p q Q e T : ℚ} (h1 : |q - p| ≤ u * |p| + η) (he : |p - Q| ≤ e) (hT : |Q| ≤ T) :
    |q - Q| ≤ (1 + u) * e + u * T + η := by
  have h2 : |p| ≤ T + e := by
    have := abs_add_le Q (p - Q)
    rw [add_sub_cancel] at this
    linarith
  have h3 := mul_le_mul_of_nonneg_left h2 h.u_nonneg
  have h4 := abs_add_le (q - p) (p - Q)
  rw [sub_add_sub_cancel] at h4
  linarith

/-- The errors of the steps from the sum of the products to the new value, with a last product that may be exact. -/
theorem value_near (h : Rounds rnd u η) (n : Nat) {b v V S omega a z w y t s x r : ℚ} (ha : a ≠ 0)
    (hv : |v - V| ≤ productError u η n S) (hV : |V| ≤ S) (h1 : rnd (b - v) = .fin z) (h2 : rnd (omega * z) = .fin w)
    (h3 : rnd (w / a) = .fin y) (h4 : rnd (1 - omega) = .fin t) (h5 : |s - t * x| ≤ u * |t * x| + η) (h6 : rnd (y + s) = .fin r) :
    |r - (omega * (b - V) / a + (1 - omega) * x)| ≤ sweepError u η n omega a (|b| + S) x := by
  have hu := h.u_nonneg
  have hη := h.η_nonneg
  have ha' : 0 < |a| := abs_pos.mpr ha
  have hS : 0 ≤ S := (abs_nonneg _).trans hV
  unfold productError at hv
  obtain ⟨g, hg⟩ : ∃ g, g = 1 + u := ⟨_, rfl⟩
  obtain ⟨P, hP⟩ : ∃ P, P = (1 + u) ^ n := ⟨_, rfl⟩
  have hg1 : 1 ≤ g := by linarith
  have hP1 : 1 ≤ P := by rw [hP]; exact one_le_pow₀ (by linarith)
  have e1 : (1 + u) ^ (n + 1) = P * g := by rw [hP, hg]; ring
  have e4 : (1 + u) ^ (n + 4) = P * g ^ 4 := by rw [hP, hg]; ring
  have e5 : (1 + u) ^ (n + 5) = P * g ^ 5 := by rw [hP, hg]; ring
  obtain ⟨k, hk⟩ : ∃ k : ℚ, k = n * (2 + u) := ⟨_, rfl⟩
  have hk0 : 0 ≤ k := by rw [hk]; positivity
  rw [e1, ← hP, ← hk] at hv
  obtain ⟨T, hT⟩ : ∃ T, T = |b| + S := ⟨_, rfl⟩
  have hST : S ≤ T := by have := abs_nonneg b; linarith
  have hT0 : 0 ≤ T := hS.trans hST
  have hbV : |b - V| ≤ T := by have := abs_sub b V; linarith
  obtain ⟨W, hW⟩ : ∃ W, W = |omega| := ⟨_, rfl⟩
  have hW0 : 0 ≤ W := by rw [hW]; positivity
  -- the right hand side without the products
  have z1 : |z - (b - V)| ≤ (P * g ^ 2 - 1) * T + (k * P * g + 1) * η := by
    have := round_step h h1 (Q := b - V) (e := (P * g - 1) * S + k * P * η) (T := T)
      (by rw [show b - v - (b - V) = -(v - V) by ring, abs_neg]; exact hv) hbV
    have h7 : (P * g - 1) * S ≤ (P * g - 1) * T := mul_le_mul_of_nonneg_left hST (by nlinarith)
    have h8 : (1 + u) * ((P * g - 1) * S) ≤ (1 + u) * ((P * g - 1) * T) := mul_le_mul_of_nonneg_left h7 (by linarith)
    have h9 : (1 + u) * ((P * g - 1) * T + k * P * η) + u * T + η = (P * g ^ 2 - 1) * T + (k * P * g + 1) * η := by
      rw [hg]; ring
    linarith
  have w1 : |w - omega * (b - V)| ≤ W * (P * g ^ 3 - 1) * T + (W * (k * P * g ^ 2 + g) + 1) * η := by
    have := round_step h h2 (Q := omega * (b - V)) (e := W * ((P * g ^ 2 - 1) * T + (k * P * g + 1) * η)) (T := W * T)
      (by rw [← mul_sub, abs_mul, ← hW]; exact mul_le_mul_of_nonneg_left z1 hW0)
      (by rw [abs_mul, ← hW]; exact mul_le_mul_of_nonneg_left hbV hW0)
    refine this.trans (le_of_eq ?_)
    rw [hg]; ring
  have y1 : |y - omega * (b - V) / a| ≤ W / |a| * (P * g ^ 4 - 1) * T +
      (W / |a| * (k * P * g ^ 3 + g ^ 2) + g / |a| + 1) * η := by
    have := round_step h h3 (Q := omega * (b - V) / a)
      (e := (W * (P * g ^ 3 - 1) * T + (W * (k * P * g ^ 2 + g) + 1) * η) / |a|) (T := W * T / |a|)
      (by rw [← sub_div, abs_div]; exact div_le_div_of_nonneg_right w1 ha'.le)
      (by rw [abs_div, abs_mul, ← hW]; exact div_le_div_of_nonneg_right (mul_le_mul_of_nonneg_left hbV hW0) ha'.le)
    refine this.trans (le_of_eq ?_)
    rw [hg]
    field_simp
    ring
  have s1 : |s - (1 - omega) * x| ≤ (g ^ 2 - 1) * (|1 - omega| * |x|) + (g * |x| + 1) * η := by
    have t1 := round_step h h4 (Q := 1 - omega) (e := 0) (T := |1 - omega|) (by simp) le_rfl
    have := round_near h h5 (Q := (1 - omega) * x) (e := ((1 + u) * 0 + u * |1 - omega| + η) * |x|) (T := |1 - omega| * |x|)
      (by rw [← sub_mul, abs_mul]; exact mul_le_mul_of_nonneg_right t1 (abs_nonneg _)) (by rw [abs_mul])
    refine this.trans (le_of_eq ?_)
    rw [hg]; ring
  have r1 := round_step h h6 (Q := omega * (b - V) / a + (1 - omega) * x)
    (e := (W / |a| * (P * g ^ 4 - 1) * T + (W / |a| * (k * P * g ^ 3 + g ^ 2) + g / |a| + 1) * η) +
      ((g ^ 2 - 1) * (|1 - omega| * |x|) + (g * |x| + 1) * η)) (T := W / |a| * T + |1 - omega| * |x|)
    (by
      rw [show y + s - (omega * (b - V) / a + (1 - omega) * x) =
        (y - omega * (b - V) / a) + (s - (1 - omega) * x) by ring]
      exact (abs_add_le _ _).trans (add_le_add y1 s1))
    (by
      refine (abs_add_le _ _).trans (add_le_add ?_ (by rw [abs_mul]))
      rw [abs_div, abs_mul, ← hW, div_mul_eq_mul_div]
      exact div_le_div_of_nonneg_right (mul_le_mul_of_nonneg_left hbV hW0) ha'.le)
  refine r1.trans ?_
  unfold sweepError
  rw [e4, e5, ← hk, ← hT, ← hW]
  have hx0 := abs_nonneg x
  have := combine (η := η) (D := W / |a|) (C := 1 / |a|) (B := |1 - omega| * |x|) (x := |x|) (P := P) (T := T) (k := k) hg hg1 hP1
    hη hT0 (by positivity) (by positivity) (by positivity) hx0
  rw [show W * T / |a| = W / |a| * T by ring, show (W * (k + 1) + 1) / |a| = W / |a| * (k + 1) + 1 / |a| by ring,
    show g / |a| = g * (1 / |a|) by ring]
  exact this

/-- Without relaxation, none of these steps overflows if the numbers are small enough. -/
theorem value_near_finite (h : Rounds rnd u η) {M : ℚ} (hM : Range rnd M) (n : Nat) {b v V S a x : ℚ}
    (hv : |v - V| ≤ productError u η n S) (hV : |V| ≤ S) (hb : sweepRange u η n a (|b| + S) x ≤ M) :
    ∃ z w y t, rnd (b - v) = .fin z ∧ rnd (1 * z) = .fin w ∧ rnd (w / a) = .fin y ∧ rnd (1 - 1) = .fin t ∧
      (∃ s, rnd (t * x) = .fin s) ∧ ∀ s, |s - t * x| ≤ u * |t * x| + η → ∃ r, rnd (y + s) = .fin r := by
  have hu := h.u_nonneg
  have hη := h.η_nonneg
  have hS : 0 ≤ S := (abs_nonneg _).trans hV
  unfold productError at hv
  unfold sweepRange at hb
  obtain ⟨g, hg⟩ : ∃ g, g = 1 + u := ⟨_, rfl⟩
  obtain ⟨P, hP⟩ : ∃ P, P = (1 + u) ^ n := ⟨_, rfl⟩
  have hg1 : 1 ≤ g := by linarith
  have hP1 : 1 ≤ P := by rw [hP]; exact one_le_pow₀ (by linarith)
  have e1 : (1 + u) ^ (n + 1) = P * g := by rw [hP, hg]; ring
  have e5 : (1 + u) ^ (n + 5) = P * g ^ 5 := by rw [hP, hg]; ring
  obtain ⟨k, hk⟩ : ∃ k : ℚ, k = n * (2 + u) := ⟨_, rfl⟩
  have hk0 : 0 ≤ k := by rw [hk]; positivity
  rw [e1, ← hP, ← hk] at hv
  obtain ⟨T, hT⟩ : ∃ T, T = |b| + S := ⟨_, rfl⟩
  have hST : S ≤ T := by have := abs_nonneg b; linarith
  have hT0 : 0 ≤ T := hS.trans hST
  have hbV : |b - V| ≤ T := by have := abs_sub b V; linarith
  obtain ⟨C, hC⟩ : ∃ C, C = 1 / |a| := ⟨_, rfl⟩
  have hC0 : 0 ≤ C := by rw [hC]; positivity
  have hx0 := abs_nonneg x
  rw [e5, ← hk, ← hT, ← hC] at hb
  -- powers of `g`
  have hpow : ∀ i, i ≤ 5 → ∀ t, 0 ≤ t → g ^ i * t ≤ P * g ^ 5 * t ∧ P * g ^ i * t ≤ P * g ^ 5 * t := by
    intro i hi t ht
    have h1 : g ^ i ≤ g ^ 5 := pow_le_pow_right₀ hg1 hi
    have h2 : P * g ^ i ≤ P * g ^ 5 := mul_le_mul_of_nonneg_left h1 (by linarith)
    have h3 : g ^ i ≤ P * g ^ i := le_mul_of_one_le_left (by positivity) hP1
    exact ⟨mul_le_mul_of_nonneg_right (h3.trans h2) ht, mul_le_mul_of_nonneg_right h2 ht⟩
  obtain ⟨Q, hQ⟩ : ∃ Q, Q = P * g ^ 5 := ⟨_, rfl⟩
  rw [← hQ] at hb hpow
  have hQ0 : 0 ≤ Q := by rw [hQ]; positivity
  have hb' : Q * T + Q * (k * η) + 3 * (Q * η) + (Q * (C * T) + Q * (C * (k * η)) + 3 * (Q * (C * η))) + Q * (|x| * η) +
      3 * (Q * η) ≤ M := by
    refine le_trans (le_of_eq ?_) hb
    ring
  have p1 : 0 ≤ Q * T := by positivity
  have p2 : 0 ≤ Q * (k * η) := by positivity
  have p3 : 0 ≤ Q * η := by positivity
  have p4 : 0 ≤ Q * (C * T) := by positivity
  have p5 : 0 ≤ Q * (C * (k * η)) := by positivity
  have p6 : 0 ≤ Q * (C * η) := by positivity
  have p7 : 0 ≤ Q * (|x| * η) := by positivity
  have hkη : 0 ≤ k * η := by positivity
  have hCT : 0 ≤ C * T := by positivity
  have hCk : 0 ≤ C * (k * η) := by positivity
  have hCη : 0 ≤ C * η := by positivity
  have hxη : 0 ≤ |x| * η := by positivity
  have hv' : |v - V| ≤ (P * g - 1) * T + k * P * η := by
    have h7 : (P * g - 1) * S ≤ (P * g - 1) * T := mul_le_mul_of_nonneg_left hST (by nlinarith)
    linarith
  obtain ⟨z, h1⟩ := hM (b - v) (by
    have i1 := (hpow 1 (by norm_num) T hT0).2
    have i2 := (hpow 0 (by norm_num) (k * η) hkη).2
    have := abs_sub (b - V) (v - V)
    rw [sub_sub_sub_cancel_right] at this
    rw [pow_one] at i1
    rw [pow_zero] at i2
    have e : (P * g - 1) * T + k * P * η = P * g * T - T + P * 1 * (k * η) := by ring
    linarith)
  have z1 := round_step h h1 (Q := b - V) (e := (P * g - 1) * T + k * P * η) (T := T)
    (by rw [show b - v - (b - V) = -(v - V) by ring, abs_neg]; exact hv') hbV
  have z2 : (1 + u) * ((P * g - 1) * T + k * P * η) + u * T + η = P * g ^ 2 * T - T + (P * g ^ 1 * (k * η) + g ^ 0 * η) := by
    rw [show 1 + u = g from hg.symm, show u = g - 1 by rw [hg]; ring]; ring
  obtain ⟨w, h2⟩ := hM (1 * z) (by
    have i1 := (hpow 2 (by norm_num) T hT0).2
    have i2 := (hpow 1 (by norm_num) (k * η) hkη).2
    have i3 := (hpow 0 (by norm_num) η hη).1
    rw [one_mul]
    have := abs_add_le (b - V) (z - (b - V))
    rw [add_sub_cancel] at this
    linarith)
  have w1 := round_step h h2 (Q := b - V) (e := P * g ^ 2 * T - T + (P * g ^ 1 * (k * η) + g ^ 0 * η)) (T := T)
    (by rw [one_mul]; linarith) hbV
  have w2 : (1 + u) * (P * g ^ 2 * T - T + (P * g ^ 1 * (k * η) + g ^ 0 * η)) + u * T + η =
      P * g ^ 3 * T - T + (P * g ^ 2 * (k * η) + g ^ 1 * η + g ^ 0 * η) := by
    rw [show 1 + u = g from hg.symm, show u = g - 1 by rw [hg]; ring]; ring
  rw [w2] at w1
  have w3 : |w| ≤ P * g ^ 3 * T + (P * g ^ 2 * (k * η) + g ^ 1 * η + g ^ 0 * η) := by
    have := abs_add_le (b - V) (w - (b - V))
    rw [add_sub_cancel] at this
    linarith
  have w4 : |w / a| ≤ P * g ^ 3 * (C * T) + (P * g ^ 2 * (C * (k * η)) + g ^ 1 * (C * η) + g ^ 0 * (C * η)) := by
    rw [abs_div, div_eq_mul_one_div, ← hC]
    refine (mul_le_mul_of_nonneg_right w3 hC0).trans (le_of_eq ?_)
    ring
  obtain ⟨y, h3⟩ := hM (w / a) (by
    have i1 := (hpow 3 (by norm_num) _ hCT).2
    have i2 := (hpow 2 (by norm_num) _ hCk).2
    have i3 := (hpow 1 (by norm_num) _ hCη).1
    have i4 := (hpow 0 (by norm_num) _ hCη).1
    linarith)
  have y1 : |y| ≤ g * (P * g ^ 3 * (C * T) + (P * g ^ 2 * (C * (k * η)) + g ^ 1 * (C * η) + g ^ 0 * (C * η))) + η := by
    have e1 := h.error _ _ h3
    have := abs_add_le (w / a) (y - w / a)
    rw [add_sub_cancel] at this
    have i1 := mul_le_mul_of_nonneg_left w4 (by linarith : 0 ≤ g)
    have i2 : g * |w / a| = |w / a| + u * |w / a| := by rw [hg]; ring
    linarith
  obtain ⟨t, h4⟩ := hM (1 - 1) (by
    rw [sub_self, abs_zero]
    linarith)
  have t1 : |t| ≤ η := by
    have := h.error _ _ h4
    simpa using this
  have t2 : |t * x| ≤ |x| * η := by
    rw [abs_mul, mul_comm]
    exact mul_le_mul_of_nonneg_left t1 hx0
  obtain ⟨s, h5⟩ := hM (t * x) (by
    have i1 := (hpow 0 (by norm_num) _ hxη).1
    rw [pow_zero, one_mul] at i1
    linarith)
  refine ⟨z, w, y, t, h1, h2, h3, h4, ⟨s, h5⟩, fun s e1 => ?_⟩
  have s1 : |s| ≤ g * (|x| * η) + η := by
    have := abs_add_le (t * x) (s - t * x)
    rw [add_sub_cancel] at this
    have i1 := mul_le_mul_of_nonneg_left t2 (by linarith : 0 ≤ g)
    have i2 : g * |t * x| = |t * x| + u * |t * x| := by rw [hg]; ring
    linarith
  obtain ⟨r, h6⟩ := hM (y + s) (by
    have i1 := (hpow 4 (by norm_num) _ hCT).2
    have i2 := (hpow 3 (by norm_num) _ hCk).2
    have i3 := (hpow 2 (by norm_num) _ hCη).1
    have i4 := (hpow 1 (by norm_num) _ hCη).1
    have i5 := (hpow 0 (by norm_num) _ hη).1
    have i6 := (hpow 1 (by norm_num) _ hxη).1
    rw [pow_zero, one_mul] at i5
    have e : g * (P * g ^ 3 * (C * T) + (P * g ^ 2 * (C * (k * η)) + g ^ 1 * (C * η) + g ^ 0 * (C * η))) =
      P * g ^ 4 * (C * T) + (P * g ^ 3 * (C * (k * η)) + g ^ 2 * (C * η) + g ^ 1 * (C * η)) := by ring
    have e' : g * (|x| * η) = g ^ 1 * (|x| * η) := by rw [pow_one]
    have := abs_add_le y s
    linarith)
  exact ⟨r, h6⟩

/-! ### Rows -/

/-- The elements of a row of a matrix with finite elements, without the diagonal, and the elements of a vector. -/
theorem row_fused {n : Nat} {L : Rows (Fused rnd fuse)} {a : Fin n → Fin n → ℚ} (hs : Sorted L) (hb : Bounded n L)
    (hA : ∀ i j : Fin n, ((entry L i j).getD 0).get = .fin (a i j)) (y : Fin n → Fused rnd fuse) (yq : Fin n → ℚ)
    (hy : ∀ j, (y j).get = .fin (yq j)) (i : Fin n) :
    ∃ t : List (Fused rnd fuse × Fused rnd fuse), t.length ≤ n ∧
      (row L i).foldl (fun v e => if e.1 = i.1 then v else v + e.2 * (vec y).getD e.1 0) 0 =
        t.foldl (fun (s : Fused rnd fuse) p => s + p.1 * p.2) 0 ∧ (∀ p ∈ t, p.1.IsFin ∧ p.2.IsFin) ∧
      (t.map fun p => p.1.val * p.2.val).sum = off a yq i ∧ (t.map fun p => |p.1.val * p.2.val|).sum = offAbs a yq i := by
  -- the vector as a function of natural numbers
  obtain ⟨yN, hyN⟩ : ∃ yN : Nat → ℚ, ∀ j : Fin n, yN j = yq j :=
    ⟨fun k => if h : k < n then yq ⟨k, h⟩ else 0, fun j => by simp⟩
  have hfin : ∀ e ∈ row L i, e.2.IsFin ∧ ((vec y).getD e.1 0).IsFin ∧ ((vec y).getD e.1 0).val = yN e.1 := by
    intro e he
    have hlt := hb i e he
    have h1 := hA i ⟨e.1, hlt⟩
    have h2 : entry L i e.1 = some e.2 := by
      unfold entry
      rw [lookup_eq_some (hs i)]
      exact he
    rw [h2, Option.getD_some] at h1
    have h3 : (vec y).getD e.1 0 = y ⟨e.1, hlt⟩ := by simp [vec, hlt]
    rw [h3, show yN e.1 = yq ⟨e.1, hlt⟩ from hyN ⟨e.1, hlt⟩]
    exact ⟨(Fused.isFin_of h1).1, (Fused.isFin_of (hy _)).1, (Fused.isFin_of (hy _)).2⟩
  have hsum : ∀ f : ℚ → ℚ, f 0 = 0 → ((((row L i).filter fun e => e.1 ≠ i.1).map fun e =>
      (e.2, (vec y).getD e.1 0)).map fun p => f (p.1.val * p.2.val)).sum = ∑ j, if j = i then 0 else f (a i j * yq j) := by
    intro f hf
    have e1 : ∀ l : List (Nat × Fused rnd fuse), (∀ e ∈ l, e ∈ row L i) → (((l.filter fun e => e.1 ≠ i.1).map fun e =>
        (e.2, (vec y).getD e.1 0)).map fun p => f (p.1.val * p.2.val)).sum =
        (l.map fun e => if e.1 = i.1 then 0 else f (e.2.val * yN e.1)).sum := by
      intro l
      induction l with
      | nil => exact fun _ => rfl
      | cons e l ih =>
        intro hl
        have ih := ih fun e he => hl e (by simp [he])
        obtain ⟨-, -, hv⟩ := hfin e (hl e (by simp))
        simp only [List.map_map, Function.comp_def] at ih ⊢
        by_cases he : e.1 = i.1
        · rw [List.filter_cons_of_neg (by simpa using he), List.map_cons, List.sum_cons, if_pos he, zero_add]
          exact ih
        · rw [List.filter_cons_of_pos (by simpa using he), List.map_cons, List.map_cons, List.sum_cons, List.sum_cons, if_neg he, hv,
            ih]
    rw [e1 _ fun e he => he, sum_lookup (fun k v => if k = i.1 then 0 else f (v.val * yN k)) (hs i) (n := n) (fun e he => hb i e he),
      Finset.sum_range]
    apply Finset.sum_congr rfl
    intro j _
    have h1 := hA i j
    have hji : (j.1 = i.1) ↔ (j = i) := Fin.ext_iff.symm
    unfold entry at h1
    cases hl : (row L i).lookup j.1 with
    | none =>
      rw [hl] at h1
      have : (0 : ℚ) = a i j := Fl.fin.inj (show Fl.fin 0 = Fl.fin (a i j) from h1)
      simp [← this, hf]
    | some v =>
      rw [hl] at h1
      have : v.val = a i j := (Fused.isFin_of h1).2
      simp only [Option.map_some, Option.getD_some, this, hji, hyN]
  refine ⟨((row L i).filter fun e => e.1 ≠ i.1).map fun e => (e.2, (vec y).getD e.1 0), ?_, ?_, ?_, by unfold off; exact hsum id rfl,
    hsum abs abs_zero⟩
  · rw [List.length_map]
    refine (List.length_filter_le _ _).trans ?_
    have := Subgraph.sorted_length (hs i) (n := n) (by
      intro v hv
      unfold keys at hv
      obtain ⟨e, he, rfl⟩ := List.mem_map.mp hv
      exact hb i e he)
    unfold keys at this
    rwa [List.length_map] at this
  · have : ∀ (l : List (Nat × Fused rnd fuse)) (z : Fused rnd fuse),
        l.foldl (fun v e => if e.1 = i.1 then v else v + e.2 * (vec y).getD e.1 0) z =
        ((l.filter fun e => e.1 ≠ i.1).map fun e => (e.2, (vec y).getD e.1 0)).foldl
          (fun (s : Fused rnd fuse) p => s + p.1 * p.2) z := by
      intro l
      induction l with
      | nil => exact fun _ => rfl
      | cons e l ih =>
        intro z
        by_cases he : e.1 = i.1
        · rw [List.foldl_cons, if_pos he, ih z, List.filter_cons_of_neg (by simpa using he)]
        · rw [List.foldl_cons, if_neg he, ih _, List.filter_cons_of_pos (by simpa using he), List.map_cons, List.foldl_cons]
    exact this _ _
  · intro p hp
    rw [List.mem_map] at hp
    obtain ⟨e, he, rfl⟩ := hp
    obtain ⟨f1, f2, -⟩ := hfin e (List.mem_filter.mp he).1
    exact ⟨f1, f2⟩

theorem stored_fold (t : List (Fused rnd fuse × Fused rnd fuse)) :
    (t.foldl (fun (s : Fused rnd fuse) p => s + p.1 * p.2) 0).Stored := by
  induction t using List.reverseRecOn with
  | nil => exact Fused.stored_zero
  | append_singleton t p ih =>
    rw [List.foldl_append, List.foldl_cons, List.foldl_nil]
    exact Fused.stored_add _ _

variable (h : Rounds rnd u η) {n : Nat} {L : Rows (Fused rnd fuse)} {a : Fin n → Fin n → ℚ} (hs : Sorted L) (hb : Bounded n L)
  (hA : ∀ i j : Fin n, ((entry L i j).getD 0).get = .fin (a i j)) {sqrt : Fused rnd fuse → Fused rnd fuse}

include h hs hb hA

/-- The error of the new value of an unknown. -/
theorem newValue_fused (B : Fin n → Fused rnd fuse) (b : Fin n → ℚ) (hB : ∀ i, (B i).get = .fin (b i)) (Y : Fin n → Fused rnd fuse)
    (y : Fin n → ℚ) (hY : ∀ i, (Y i).get = .fin (y i)) (O : Fused rnd fuse) (hO : O.Stored) (omega : ℚ) (ho : O.get = .fin omega)
    (i : Fin n) (D : Fused rnd fuse) (hD : D.get = .fin (a i i)) (hd : a i i ≠ 0) (r : ℚ)
    (hr : (newValue (fusedFloats rnd fuse sqrt) L B O D Y i).get = .fin r) :
    |r - relaxed a b omega y i| ≤ sweepError u η n omega (a i i) (|b i| + offAbs a y i) (y i) := by
  obtain ⟨t, ht, hf, -, hsum, habs⟩ := row_fused hs hb hA Y y hY i
  obtain ⟨hF, hV⟩ := Fused.isFin_of hr
  have hN : newValue (fusedFloats rnd fuse sqrt) L B O D Y i =
      O * (B i - t.foldl (fun (s : Fused rnd fuse) p => s + p.1 * p.2) 0) / D + ((fusedFloats rnd fuse sqrt).one - O) * Y i := by
    unfold newValue
    rw [hf]
  rw [hN] at hF hV
  obtain ⟨k1, k2, k3, s, k4, k5⟩ := Fused.add_mul_fin h hF
  obtain ⟨f1, v1⟩ := Fused.isFin_of hD
  obtain ⟨k6, k7⟩ := Fused.div_isFin f1 (by rw [v1]; exact hd) k1
  obtain ⟨k8, k9, k10⟩ := Fused.mul_isFin k6
  obtain ⟨k11, k12, k13⟩ := Fused.sub_isFin (stored_fold t) k9
  obtain ⟨-, k14, k15⟩ := Fused.sub_isFin hO k2
  obtain ⟨-, e2⟩ := sum_fused h t k12
  rw [hsum, habs] at e2
  have v2 := (Fused.isFin_of ho).2
  have v3 := (Fused.isFin_of (hB i)).2
  have v4 := (Fused.isFin_of (hY i)).2
  have v5 : (fusedFloats rnd fuse sqrt).one.val = 1 := rfl
  rw [hV] at k5
  rw [v1] at k7
  rw [v2] at k10
  rw [v3] at k13
  rw [v2, v5] at k15
  rw [v4] at k4
  have hle := off_le a y i
  exact value_near h n hd (e2.trans (productError_mono h ht ((abs_nonneg _).trans hle))) hle k13 k10 k7 k15 k4 k5

/-- It is finite without relaxation if the numbers are small enough. -/
theorem newValue_fused_finite {M : ℚ} (hM : Range rnd M) (B : Fin n → Fused rnd fuse) (b : Fin n → ℚ)
    (hB : ∀ i, (B i).get = .fin (b i)) (Y : Fin n → Fused rnd fuse) (y : Fin n → ℚ) (hY : ∀ i, (Y i).get = .fin (y i))
    (i : Fin n) (D : Fused rnd fuse) (hD : D.get = .fin (a i i)) (hd : a i i ≠ 0)
    (hR : sweepRange u η n (a i i) (|b i| + offAbs a y i) (y i) ≤ M) :
    ∃ r, (newValue (fusedFloats rnd fuse sqrt) L B (fusedFloats rnd fuse sqrt).one D Y i).get = .fin r := by
  obtain ⟨t, ht, hf, hfin, hsum, habs⟩ := row_fused hs hb hA Y y hY i
  have hV := off_le a y i
  have hS : 0 ≤ offAbs a y i := (abs_nonneg _).trans hV
  have hu := h.u_nonneg
  have hη := h.η_nonneg
  have hv := sum_fused_finite h hM t hfin (by
    rw [habs]
    have h1 := productError_mono h ht hS
    have h2 : offAbs a y i + productError u η n (offAbs a y i) ≤ sweepRange u η n (a i i) (|b i| + offAbs a y i) (y i) := by
      unfold productError sweepRange
      obtain ⟨C, hC⟩ : ∃ C, C = 1 / |a i i| := ⟨_, rfl⟩
      have hC0 : 0 ≤ C := by rw [hC]; positivity
      rw [← hC]
      have h3 : (1 + u) ^ (n + 1) ≤ (1 + u) ^ (n + 5) := pow_le_pow_right₀ (by linarith) (by omega)
      have h4 : (1 + u) ^ n ≤ (1 + u) ^ (n + 5) := pow_le_pow_right₀ (by linarith) (by omega)
      have h0 : 0 ≤ (1 + u) ^ (n + 5) := by positivity
      have h5 : (1 + u) ^ (n + 1) * offAbs a y i ≤ (1 + u) ^ (n + 5) * offAbs a y i := mul_le_mul_of_nonneg_right h3 hS
      have h6 : n * (2 + u) * (1 + u) ^ n * η ≤ n * (2 + u) * (1 + u) ^ (n + 5) * η := by gcongr
      have h7 : 0 ≤ (1 + u) ^ (n + 5) * (|b i| + 3 * η + (|b i| + offAbs a y i + (n * (2 + u) + 3) * η) * C + (|y i| + 3) * η) := by
        positivity
      nlinarith
    linarith)
  obtain ⟨-, e2⟩ := sum_fused h t hv
  rw [hsum, habs] at e2
  obtain ⟨z, w, y', t', h1, h2, h3, h4, ⟨s, h5⟩, h6⟩ := value_near_finite h hM n (b := b i) (a := a i i) (x := y i)
    (e2.trans (productError_mono h ht hS)) hV hR
  unfold newValue
  rw [hf]
  have hst := stored_fold t
  generalize t.foldl (fun (s : Fused rnd fuse) p => s + p.1 * p.2) 0 = V at *
  have f1 : (B i - V).get = .fin z := by
    show Fl.sub rnd (B i).get (V.operand (B i).hist) = _
    rw [hst, hB, hv]
    exact (Num.sub_eq (rnd := rnd)).trans h1
  have f2 : ((fusedFloats rnd fuse sqrt).one * (B i - V)).get = .fin w := by
    show Fl.mul rnd (.fin 1) (B i - V).get = _
    rw [f1]
    exact h2
  have f3 : ((fusedFloats rnd fuse sqrt).one * (B i - V) / D).get = .fin y' := by
    show Fl.div rnd ((fusedFloats rnd fuse sqrt).one * (B i - V)).get D.get = _
    rw [f2, hD]
    simp only [Fl.div, hd, if_false, h3]
  have f4 : ((fusedFloats rnd fuse sqrt).one - (fusedFloats rnd fuse sqrt).one).get = .fin t' := by
    show Fl.sub rnd (.fin 1) (.fin 1) = _
    exact (Num.sub_eq (rnd := rnd)).trans h4
  generalize (fusedFloats rnd fuse sqrt).one * (B i - V) / D = Q at *
  generalize (fusedFloats rnd fuse sqrt).one - (fusedFloats rnd fuse sqrt).one = T at *
  obtain ⟨p, hp, hpe⟩ : ∃ p, (T * Y i).operand Q.hist = .fin p ∧ |p - t' * y i| ≤ u * |t' * y i| + η := by
    have e : (T * Y i).operand Q.hist = (if fuse Q.hist T.hist (Y i).hist then .fin else rnd) (t' * y i) := by
      show Fl.mul _ T.get (Y i).get = _
      rw [f4, hY]
      rfl
    rw [e]
    split
    · exact ⟨_, rfl, by rw [sub_self, abs_zero]; positivity⟩
    · exact ⟨s, h5, h.error _ _ h5⟩
  obtain ⟨r, hr⟩ := h6 p hpe
  refine ⟨r, ?_⟩
  show Fl.add rnd Q.get ((T * Y i).operand Q.hist) = _
  rw [f3, hp]
  exact hr

end Iterative
end Disa
