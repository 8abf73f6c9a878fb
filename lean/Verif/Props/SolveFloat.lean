import Verif.Solver.ResidualFloat
import Verif.Props.SweepFloat
import Verif.Scalar.Root

/-!
# Properties C108 and C111: the residuals of iterative solvers with floating point numbers
-/

namespace Disa.Props

open Disa Spec Dense Num Sparse Iterative

variable {rnd : ℚ → Fl} {u η : ℚ}

/-- What is used of the square root: finite results are those of finite numbers, and their squares have relative error `σ` and
absolute error `τ`. -/
structure Root (sqrt : Num rnd → Num rnd) (σ τ : ℚ) : Prop where
  σ_nonneg : 0 ≤ σ
  σ_le : σ ≤ 1
  error : ∀ a s, sqrt a = fin s → ∃ q, a = fin q ∧ 0 ≤ q ∧ 0 ≤ s ∧ |s ^ 2 - q| ≤ σ * q + τ

/-! ### C111 -/

/-- C111: finite residual norms belong to finite residuals of the rows, up to rounding. -/
theorem c111_norms (h : Rounds rnd u η) {sqrt : Num rnd → Num rnd} {σ τ : ℚ} (hsq : Root sqrt σ τ) {n : Nat} (m : Sparse (Num rnd))
    (a : Fin n → Fin n → ℚ) (hm : Square m fun i j => (fin (a i j) : Num rnd)) (hn0 : 0 < n) (hn : n < 2 ^ 31)
    (hc : rnd n = .fin n) (x b : Fin n → ℚ) (r rmax : Num rnd) (r2 : ℚ) (hr2 : r = fin r2)
    (hr : computeResidual (floats rnd sqrt) m (vec fun i => fin (x i)) (vec fun i => fin (b i)) = .ok (r, rmax)) :
    ∃ d : Fin n → ℚ, (∀ i, |d i - defect a x b i| ≤ productError u η (n + 1) (|b i| + ∑ j, |a i j * x j|)) ∧
      |r2 ^ 2 - (∑ i, d i ^ 2) / n| ≤ meanError u η σ τ n ((∑ i, d i ^ 2) / n) ∧
      ∀ s, rmax = fin s → (∀ i, (1 - σ) * ((1 - u) * d i ^ 2 - η) ≤ s ^ 2 + τ) ∧
        (s ^ 2 ≤ τ ∨ ∃ i, s ^ 2 ≤ (1 + σ) * ((1 + u) * d i ^ 2 + η) + τ) := by
  have hu := h.u_nonneg
  have hη := h.η_nonneg
  have hσ := hsq.σ_nonneg
  obtain ⟨L, h1, h2, h3, h4, h5⟩ := square_rep hm
  rw [residual_gen (floats rnd sqrt) h1 h3 h4 hm.2.2.1 _ _ hn0 (by unfold intMax; omega), Out.ok.injEq, Prod.mk.injEq] at hr
  obtain ⟨hr, hmax⟩ := hr
  obtain ⟨p, hp⟩ : ∃ p, p = rowDefect L (fun j => (fin (x j) : Num rnd)) (fun j => fin (b j)) := ⟨_, rfl⟩
  have e1 := fold_fst (floats rnd sqrt) (fun i => p i * p i) (List.finRange n) (0, 0)
  unfold residualFold at hr hmax
  rw [← hp] at hr hmax
  rw [e1.1] at hr
  rw [e1.2] at hmax
  rw [hr2] at hr
  obtain ⟨v, g1, g2, -, g4⟩ := hsq.error _ _ hr
  have hn' : (0 : ℚ) < n := by exact_mod_cast hn0
  have hcount : (floats rnd sqrt).count n = fin (n : ℚ) := hc
  rw [hcount] at g1
  obtain ⟨q2, g5, g6⟩ := div_fin hn'.ne' g1
  obtain ⟨-, g7⟩ := terms_finite (fun i => p i * p i) _ _ _ g5
  choose! vv hvv using g7
  have hd : ∀ i, ∃ d, p i = fin d ∧ rnd (d * d) = .fin (vv i) := fun i => by
    obtain ⟨d, d', f1, f2, f3⟩ := mul_fin (hvv i (List.mem_finRange i))
    obtain rfl : d = d' := fin_inj.mp (f1.symm.trans f2)
    exact ⟨d, f1, f3⟩
  choose d hd1 hd2 using hd
  refine ⟨d, fun i => ?_, ?_, ?_⟩
  · refine rowDefect_error h h2 h3 h5 x b i (d i) ?_
    rw [← hp]
    exact hd1 i
  · have f1 : ((List.finRange n).map fun i => ((fin (d i) : Num rnd), (fin (d i) : Num rnd))).foldl (fun s p => s + p.1 * p.2) 0 =
        fin q2 := by
      rw [List.foldl_map, ← g5]
      simp only [hd1]
    obtain ⟨t, ht, he⟩ := sum_error h _ q2 f1
    obtain rfl : t = (List.finRange n).map fun i => (d i, d i) := by
      have hinj : Function.Injective fun p : ℚ × ℚ => ((fin p.1 : Num rnd), (fin p.2 : Num rnd)) := by
        rintro ⟨p1, p2⟩ ⟨q1, q2⟩ he
        obtain ⟨e1, e2⟩ := Prod.mk.inj he
        have e1 : p1 = q1 := fin_inj.mp e1
        have e2 : p2 = q2 := fin_inj.mp e2
        rw [e1, e2]
      refine List.map_injective_iff.mpr hinj ?_
      rw [← ht, List.map_map]
      rfl
    have hsum : (((List.finRange n).map fun i => (d i, d i)).map fun p => p.1 * p.2).sum = ∑ i, d i ^ 2 := by
      rw [List.map_map, Fin.sum_univ_def]
      simp only [pow_two]
      rfl
    have habs : (((List.finRange n).map fun i => (d i, d i)).map fun p => |p.1 * p.2|).sum = ∑ i, d i ^ 2 := by
      rw [List.map_map, Fin.sum_univ_def]
      congr 1
      apply List.map_congr_left
      intro i _
      show |d i * d i| = d i ^ 2
      rw [abs_mul_self, pow_two]
    rw [hsum, habs, List.length_map, List.length_finRange] at he
    obtain ⟨Q, hQ⟩ : ∃ Q, Q = (∑ i, d i ^ 2) / n := ⟨_, rfl⟩
    have hQ' : ∑ i, d i ^ 2 = n * Q := by rw [hQ]; field_simp
    have hQ0 : 0 ≤ Q := by
      rw [hQ]
      exact div_nonneg (Finset.sum_nonneg fun i _ => sq_nonneg _) hn'.le
    rw [← hQ]
    rw [hQ'] at he
    -- the mean
    have f2 : |q2 / n - Q| ≤ ((1 + u) ^ (n + 1) - 1) * Q + (2 + u) * (1 + u) ^ n * η := by
      rw [show q2 / n - Q = (q2 - n * Q) / n by field_simp, abs_div, abs_of_pos hn', div_le_iff₀ hn']
      refine he.trans (le_of_eq ?_)
      unfold productError
      ring
    have f3 := round_step h g6 f2 (T := Q) (by rw [abs_of_nonneg hQ0])
    have f4 : (1 + u) * (((1 + u) ^ (n + 1) - 1) * Q + (2 + u) * (1 + u) ^ n * η) + u * Q + η =
        ((1 + u) ^ (n + 2) - 1) * Q + ((2 + u) * (1 + u) ^ (n + 1) + 1) * η := by ring
    rw [f4] at f3
    have f5 : v ≤ Q + (((1 + u) ^ (n + 2) - 1) * Q + ((2 + u) * (1 + u) ^ (n + 1) + 1) * η) := by
      have := (abs_le.mp f3).2
      linarith
    have f6 := abs_add_le (r2 ^ 2 - v) (v - Q)
    rw [sub_add_sub_cancel] at f6
    have f7 := mul_le_mul_of_nonneg_left f5 hσ
    unfold meanError
    have f8 : ((1 + σ) * (1 + u) ^ (n + 2) - 1) * Q + (1 + σ) * ((2 + u) * (1 + u) ^ (n + 1) + 1) * η + τ =
        σ * (Q + (((1 + u) ^ (n + 2) - 1) * Q + ((2 + u) * (1 + u) ^ (n + 1) + 1) * η)) + τ +
          (((1 + u) ^ (n + 2) - 1) * Q + ((2 + u) * (1 + u) ^ (n + 1) + 1) * η) := by ring
    rw [f8]
    linarith
  · intro s hs
    obtain ⟨q, k1, k2, k3, k4⟩ := fold_max (sqrt := sqrt) (fun i => p i * p i) vv (List.finRange n)
      (fun i hi => hvv i hi) 0
    have k1' : (List.finRange n).foldl (fun s i => if (floats rnd sqrt).lt s (p i * p i) then p i * p i else s) (0, (0 : Num rnd)).2 = fin q := k1
    rw [k1', hs] at hmax
    obtain ⟨q', k5, -, -, k8⟩ := hsq.error _ _ hmax
    obtain rfl : q = q' := fin_inj.mp k5
    obtain ⟨k9, k10⟩ := abs_le.mp k8
    have herr : ∀ i, |vv i - d i ^ 2| ≤ u * d i ^ 2 + η := fun i => by
      have := h.error _ _ (hd2 i)
      rwa [abs_mul_self, ← pow_two] at this
    constructor
    · intro i
      have l1 := (abs_le.mp (herr i)).1
      have l2 := k3 i (List.mem_finRange i)
      have l3 : (1 - σ) * ((1 - u) * d i ^ 2 - η) ≤ (1 - σ) * q :=
        mul_le_mul_of_nonneg_left (by linarith) (by linarith [hsq.σ_le])
      linarith
    · rcases k4 with rfl | ⟨i, -, rfl⟩
      · left
        linarith
      · right
        refine ⟨i, ?_⟩
        have l1 := (abs_le.mp (herr i)).2
        have l2 := mul_le_mul_of_nonneg_left (show vv i ≤ (1 + u) * d i ^ 2 + η by linarith) (by linarith : 0 ≤ 1 + σ)
        linarith

/-- C111: the square root of doubles. -/
theorem c111_root : Root root64 (1 / 2 ^ 51) (1 / 2 ^ 2000) where
  σ_nonneg := by positivity
  σ_le := by norm_num
  error a s h := by
    cases a with
    | nan => cases h
    | inf t => cases t <;> cases h
    | fin q =>
      refine ⟨q, rfl, ?_⟩
      by_cases hq : q < 0
      · simp only [root64, hq, if_true] at h
        cases h
      simp only [root64, hq, if_false] at h
      have hq0 : 0 ≤ q := not_lt.mp hq
      obtain ⟨r, hr⟩ : ∃ r, r = Nat.sqrt ⌊q * 4 ^ 1200⌋₊ := ⟨_, rfl⟩
      have h1 : ((r : ℚ)) ^ 2 ≤ q * 4 ^ 1200 := by
        have e1 : r ^ 2 ≤ ⌊q * 4 ^ 1200⌋₊ := by rw [hr, pow_two]; exact Nat.sqrt_le _
        have e2 : ((⌊q * 4 ^ 1200⌋₊ : ℕ) : ℚ) ≤ q * 4 ^ 1200 := Nat.floor_le (by positivity)
        refine le_trans ?_ e2
        exact_mod_cast e1
      have h2 : q * 4 ^ 1200 < ((r : ℚ) + 1) ^ 2 := by
        have e1 : ⌊q * 4 ^ 1200⌋₊ + 1 ≤ (r + 1) ^ 2 := by rw [hr, pow_two]; exact Nat.lt_succ_sqrt _
        have e2 : q * 4 ^ 1200 < ((⌊q * 4 ^ 1200⌋₊ : ℕ) : ℚ) + 1 := Nat.lt_floor_add_one _
        refine e2.trans_le ?_
        exact_mod_cast e1
      obtain ⟨s0, hs0⟩ : ∃ s0 : ℚ, s0 = r / 2 ^ 1200 := ⟨_, rfl⟩
      have h0 : 0 ≤ s0 := by rw [hs0]; positivity
      have h4 : (4 : ℚ) ^ 1200 = 2 ^ 1200 * 2 ^ 1200 := by rw [← mul_pow]; norm_num
      have hpos : (0 : ℚ) < 2 ^ 1200 := by positivity
      have h3 : s0 ^ 2 ≤ q := by
        rw [hs0, div_pow, div_le_iff₀ (by positivity)]
        rw [h4] at h1
        rw [pow_two (2 ^ 1200 : ℚ)]
        exact h1
      obtain ⟨ε, hε⟩ : ∃ ε : ℚ, ε = 1 / 2 ^ 1200 := ⟨_, rfl⟩
      have h5 : q < (s0 + ε) ^ 2 := by
        rw [hs0, hε, ← add_div, div_pow, lt_div_iff₀ (by positivity)]
        rw [h4] at h2
        rw [pow_two (2 ^ 1200 : ℚ)]
        exact h2
      rw [← hr, ← hs0] at h
      have h : binary64 s0 = .fin s := h
      have hs := binary64_nonneg h0 h
      refine ⟨hq0, hs, ?_⟩
      have h6 := rounds_binary64.error _ _ h
      rw [abs_of_nonneg h0] at h6
      obtain ⟨η, hη⟩ : ∃ η : ℚ, η = 1 / 2 ^ 1075 := ⟨_, rfl⟩
      rw [← hη] at h6
      obtain ⟨u, hu⟩ : ∃ u : ℚ, u = 1 / 2 ^ 53 := ⟨_, rfl⟩
      rw [← hu] at h6
      -- products with small numbers
      have a1 : 2 * s0 * η ≤ 1 / 2 ^ 60 * s0 ^ 2 + 2 ^ 60 * η ^ 2 := by
        have := sq_nonneg (1 / 2 ^ 30 * s0 - 2 ^ 30 * η)
        have e : (1 / 2 ^ 30 * s0 - 2 ^ 30 * η) ^ 2 = 1 / 2 ^ 60 * s0 ^ 2 - 2 * s0 * η + 2 ^ 60 * η ^ 2 := by ring
        linarith
      have a2 : 2 * s0 * ε ≤ 1 / 2 ^ 60 * s0 ^ 2 + 2 ^ 60 * ε ^ 2 := by
        have := sq_nonneg (1 / 2 ^ 30 * s0 - 2 ^ 30 * ε)
        have e : (1 / 2 ^ 30 * s0 - 2 ^ 30 * ε) ^ 2 = 1 / 2 ^ 60 * s0 ^ 2 - 2 * s0 * ε + 2 ^ 60 * ε ^ 2 := by ring
        linarith
      have a3 : η ^ 2 ≤ 1 / 2 ^ 2100 := by
        rw [hη, div_pow, one_pow, ← pow_mul]
        exact one_div_le_one_div_of_le (by positivity) (pow_le_pow_right₀ (by norm_num) (by norm_num))
      have a4 : ε ^ 2 ≤ 1 / 2 ^ 2100 := by
        rw [hε, div_pow, one_pow, ← pow_mul]
        exact one_div_le_one_div_of_le (by positivity) (pow_le_pow_right₀ (by norm_num) (by norm_num))
      have a0 : (0 : ℚ) ≤ 1 / 2 ^ 2100 := by positivity
      have a5 : (1 : ℚ) / 2 ^ 2000 = 2 ^ 100 * (1 / 2 ^ 2100) := by
        rw [show (2100 : ℕ) = 2000 + 100 from rfl, pow_add]; field_simp
      have hη0 : 0 ≤ η := by rw [hη]; positivity
      rw [a5]
      clear a5
      generalize (1 : ℚ) / 2 ^ 2100 = t at *
      clear h1 h2 hr hs0 hε hη h4 hpos h
      have hu0 : 0 ≤ u := by rw [hu]; positivity
      have hu1 : u ≤ 1 / 2 ^ 53 := hu.le
      have hsq := sq_nonneg s0
      obtain ⟨b1, b2⟩ := abs_le.mp h6
      have b3 : s ≤ (1 + u) * s0 + η := by linarith
      have b4 : s ^ 2 ≤ ((1 + u) * s0 + η) ^ 2 := pow_le_pow_left₀ hs b3 2
      have b5 : ((1 + u) * s0 + η) ^ 2 = (1 + 2 * u + u ^ 2) * s0 ^ 2 + (1 + u) * (2 * s0 * η) + η ^ 2 := by ring
      have b6 : s0 ^ 2 - (2 * u * s0 ^ 2 + 2 * s0 * η) ≤ s ^ 2 := by
        have c1 : (1 - u) * s0 - η ≤ s := by linarith
        by_cases hc : 0 ≤ (1 - u) * s0 - η
        · have := pow_le_pow_left₀ hc c1 2
          have e : ((1 - u) * s0 - η) ^ 2 = s0 ^ 2 - (2 * u * s0 ^ 2 + 2 * s0 * η) + u ^ 2 * s0 ^ 2 + 2 * u * s0 * η + η ^ 2 := by
            ring
          have : 0 ≤ u ^ 2 * s0 ^ 2 := by positivity
          have : 0 ≤ 2 * u * s0 * η := by positivity
          have : 0 ≤ η ^ 2 := by positivity
          linarith
        · have c2 : (1 - u) * s0 ≤ η := by linarith
          have c3 := mul_le_mul_of_nonneg_left c2 h0
          have c4 : s0 * ((1 - u) * s0) = s0 ^ 2 - u * s0 ^ 2 := by ring
          have c5 : 0 ≤ u * s0 ^ 2 := by positivity
          have c6 : 0 ≤ s0 * η := by positivity
          have := sq_nonneg s
          linarith
      have b7 : u * (2 * s0 * η) ≤ 1 * (2 * s0 * η) := mul_le_mul_of_nonneg_right (by
        rw [hu]; norm_num) (by positivity)
      have b8 : (2 * u + u ^ 2) * s0 ^ 2 ≤ (1 / 2 ^ 51 - 1 / 2 ^ 55) * s0 ^ 2 := mul_le_mul_of_nonneg_right (by
        rw [hu]; norm_num) hsq
      have b9 : 2 * u * s0 ^ 2 ≤ (1 / 2 ^ 51 - 1 / 2 ^ 55) * s0 ^ 2 := mul_le_mul_of_nonneg_right (by
        rw [hu]; norm_num) hsq
      have b10 : (1 / 2 ^ 51 : ℚ) * s0 ^ 2 ≤ 1 / 2 ^ 51 * q := mul_le_mul_of_nonneg_left h3 (by positivity)
      have b11 : (s0 + ε) ^ 2 = s0 ^ 2 + 2 * s0 * ε + ε ^ 2 := by ring
      rw [abs_le]
      constructor <;> linarith

/-- C111: the numbers of unknowns are doubles. -/
theorem c111_count {n : Nat} (hn : n < 2 ^ 31) : binary64 n = .fin n := binary64_nat (by omega)

/-- The hypotheses hold for doubles. -/
example : computeResidual (floats binary64 root64) (dense2 (fin 3) (fin 1) (fin 1) (fin 3)) (vec ![fin (1 / 4), fin (1 / 2)])
    (vec ![fin 1, fin 1]) = .ok (fin (629397181890197 / 2 ^ 50), fin (3 / 4)) := by
  decide +kernel

/-! ### C108 -/

/-- C108, as documented: a solve that stops before its last iteration has a finite solution. -/
def C108 (sqrt : Num binary64 → Num binary64) (k : Method) : Prop := ∀ (n : Nat) (m : Sparse (Num binary64)) (a : Fin n → Fin n → ℚ),
  Square m (fun i j => (fin (a i j) : Num binary64)) → (∀ i, a i i ≠ 0) → ∀ (s : FixedPoint (Num binary64)) (t : ℚ),
  s.limits.tolerance = fin t → 0 < t → t < 1 → ∀ (x b : Fin n → ℚ) (fuel : Nat) (x' : List (Num binary64))
  (d : Conv (Num binary64) (Num binary64)) (s' : FixedPoint (Num binary64)),
  solveSystem (floats binary64 sqrt) k s m (vec fun i => fin (x i)) (vec fun i => fin (b i)) fuel = .ok (x', d, s') →
  d.iteration ≤ s.limits.maxIteration → ∃ y : Fin n → ℚ, x' = vec fun i => fin (y i)

/-- A number is not finite. -/
def Infinite (a : Num rnd) : Prop := ∀ q, a ≠ fin q

theorem ratio_self {a : Num rnd} (h : Infinite a ∨ a = 0) (sqrt : Num rnd → Num rnd) (t : Num rnd) :
    (floats rnd sqrt).above ((floats rnd sqrt).ratio a a) t = false := by
  have : a / a = (Fl.nan : Num rnd) := by
    rcases h with h | rfl
    · cases a with
      | nan => rfl
      | inf s => rfl
      | fin q => exact absurd rfl (h q)
    · show Fl.div rnd (.fin 0) (.fin 0) = _
      simp [Fl.div]
  show Fl.lt t (a / a) = false
  rw [this]
  cases t <;> rfl

theorem new_above (sqrt : Num rnd → Num rnd) {t : ℚ} (ht : t < (2 - 1 / 2 ^ 52) * 2 ^ 1023) :
    (floats rnd sqrt).above (Conv.new (floats rnd sqrt)).residualNormalised (fin t) = true := by
  show decide (t < (2 - 1 / 2 ^ 52) * 2 ^ 1023) = true
  simpa using ht

/-- C108: if the residuals after the first iteration are infinite or not numbers then the solve stops there, whatever the
tolerance. -/
theorem c108_stops (sqrt : Num rnd → Num rnd) (k : Method) (s : FixedPoint (Num rnd)) (m : Sparse (Num rnd)) (x b : List (Num rnd))
    {t : ℚ} (ht : s.limits.tolerance = fin t) (ht1 : t < (2 - 1 / 2 ^ 52) * 2 ^ 1023) (hmin : s.limits.minIterations ≤ 1)
    (v w : List (Num rnd)) (hv : Iterative.step (floats rnd sqrt) k s m b (x, startWorking k s m) = .ok (v, w)) (r rmax : Num rnd)
    (hr : computeResidual (floats rnd sqrt) m v b = .ok (r, rmax)) (h1 : Infinite r ∨ r = 0) (h2 : Infinite rmax ∨ rmax = 0)
    (fuel : Nat) : ∃ d s', solveSystem (floats rnd sqrt) k s m x b (fuel + 1) = .ok (v, d, s') ∧ d.iteration = 1 ∧
      d.residual = r ∧ d.residualMax = rmax := by
  have hp : pass (floats rnd sqrt) k s m b ((x, startWorking k s m), Conv.new (floats rnd sqrt)) =
      .ok ((v, w), ⟨false, 1, r, r, (floats rnd sqrt).ratio r r, rmax, rmax, (floats rnd sqrt).ratio rmax rmax⟩) := by
    unfold pass
    simp only [hv, Out.ok_bind, update, hr, Out.pure_eq]
    rfl
  have hi : iterate (floats rnd sqrt) k s m b (fuel + 1) ((x, startWorking k s m), Conv.new (floats rnd sqrt)) =
      .ok ((v, w), ⟨false, 1, r, r, (floats rnd sqrt).ratio r r, rmax, rmax, (floats rnd sqrt).ratio rmax rmax⟩) := by
    refine iterate_of_times (j := 1) (by omega) (times_succ_ok.mpr ⟨_, hp, rfl⟩) ?_ ?_
    · rw [isConverged_iff]
      exact ⟨hmin, .inr ⟨ratio_self h1 _ _, ratio_self h2 _ _⟩⟩
    · intro i hi u hu
      obtain rfl : i = 0 := by omega
      simp only [times, Out.ok.injEq] at hu
      subst hu
      by_contra hc
      rw [Bool.not_eq_false, isConverged_iff] at hc
      rcases hc.2 with h9 | h9
      · exact absurd h9 (Nat.not_lt_zero _)
      · rw [ht, new_above sqrt ht1] at h9
        exact absurd h9.1 (by simp)
  rw [solveSystem_eq, hi]
  exact ⟨_, _, rfl, rfl, rfl, rfl⟩

theorem single_fin (a : ℚ) : Square (single (fin a) : Sparse (Num rnd)) (fun _ _ : Fin 1 => fin a) := by
  refine ⟨Built.ofLists (nz := [0, 1]) (ix := [0]) (vs := [fin a]) (c := 1) (by simp [sizeMax]) (by simp [sizeMax])
    (by simp [single, Sparse.ofLists, loop, Sparse.listBody, rd, slice, overwrite, assert]), rfl, rfl, ?_⟩
  intro i j
  fin_cases i; fin_cases j; rfl

theorem hundred_le : (100 : ℚ) ≤ (2 - 1 / 2 ^ 52) * 2 ^ 1023 := by decide +kernel

/-- Infinity. -/
def infinity : Num rnd := Fl.inf false

/-- C108 fails for every method: the solution of a system with one unknown overflows. -/
theorem c108_violated (sqrt : Num binary64 → Num binary64) (hs : sqrt infinity = infinity) (k : Method) : ¬ C108 sqrt k := by
  intro h
  have hv : Iterative.step (floats binary64 sqrt) k ⟨⟨0, 100, fin (1 / 2)⟩, [fin 0], fin 1⟩ (single (fin (1 / 2 ^ 600)))
      [fin (2 ^ 600)] ([fin 0], [fin 0]) = .ok ([infinity], [fin 0]) := by
    have : Iterative.step (floats binary64 id) k ⟨⟨0, 100, fin (1 / 2)⟩, [fin 0], fin 1⟩ (single (fin (1 / 2 ^ 600)))
        [fin (2 ^ 600)] ([fin 0], [fin 0]) = .ok ([infinity], [fin 0]) := by
      cases k <;> decide +kernel
    cases k <;> exact this
  have hr : computeResidual (floats binary64 sqrt) (single (fin (1 / 2 ^ 600))) [infinity] [fin (2 ^ 600)] =
      .ok (infinity, infinity) := by
    have hl : loop 1 (residualBody (floats binary64 id) (single (fin (1 / 2 ^ 600))) [infinity] [fin (2 ^ 600)]) (0, 0) =
        .ok (infinity, infinity) := by decide +kernel
    have hl' : loop 1 (residualBody (floats binary64 sqrt) (single (fin (1 / 2 ^ 600))) [infinity] [fin (2 ^ 600)]) (0, 0) =
        .ok (infinity, infinity) := hl
    have hd : (infinity : Num binary64) / (floats binary64 sqrt).count 1 = infinity := by
      have : (floats binary64 sqrt).count 1 = fin 1 := c111_count (n := 1) (by norm_num)
      rw [this]
      decide +kernel
    unfold computeResidual
    show (loop 1 (residualBody (floats binary64 sqrt) (single (fin (1 / 2 ^ 600))) [infinity] [fin (2 ^ 600)]) (0, 0) >>=
      fun p => pure (sqrt (p.1 / (floats binary64 sqrt).count 1), sqrt p.2)) = _
    rw [hl']
    simp only [Out.ok_bind, Out.pure_eq, hd, hs]
  have hi : Infinite (infinity : Num binary64) := fun q hq => by cases hq
  have hstart : startWorking k (⟨⟨0, 100, fin (1 / 2)⟩, [fin 0], fin 1⟩ : FixedPoint (Num binary64))
      (single (fin (1 / 2 ^ 600))) = [fin 0] := by
    cases k <;> rfl
  obtain ⟨d, s', h1, h2, -, -⟩ := c108_stops sqrt k ⟨⟨0, 100, fin (1 / 2)⟩, [fin 0], fin 1⟩ (single (fin (1 / 2 ^ 600)))
    [fin 0] [fin (2 ^ 600)] rfl (lt_of_lt_of_le (by norm_num) hundred_le) (by simp) [infinity] [fin 0] (by rw [hstart]; exact hv) infinity infinity hr
    (.inl hi) (.inl hi) 0
  obtain ⟨y, hy⟩ := h 1 (single (fin (1 / 2 ^ 600))) (fun _ _ => 1 / 2 ^ 600) (single_fin _) (fun _ => by positivity)
    ⟨⟨0, 100, fin (1 / 2)⟩, [fin 0], fin 1⟩ (1 / 2) rfl (by norm_num) (by norm_num) (fun _ => 0) (fun _ => 2 ^ 600) 1 _ _ _ h1
    (by rw [h2]; norm_num)
  exact hi (y 0) (List.cons.inj hy).1

theorem times_shape {sqrt : Num rnd → Num rnd} (k : Method) (s : FixedPoint (Num rnd)) {n : Nat} {m : Sparse (Num rnd)}
    {a : Fin n → Fin n → ℚ} (hm : Square m fun i j => (fin (a i j) : Num rnd)) (hd : ∀ i, a i i ≠ 0) (b : Fin n → Num rnd)
    (j : Nat) : ∀ st st' : (List (Num rnd) × List (Num rnd)) × Conv (Num rnd) (Num rnd), st.1.1.length = n →
      (k = .jacobi → st.1.2.length = n) → times (pass (floats rnd sqrt) k s m (vec b)) j st = .ok st' → st'.1.1.length = n := by
  obtain ⟨L, h1, h2, h3, h4, h5⟩ := square_rep hm
  induction j with
  | zero =>
    intro st st' h6 _ h7
    simp only [times, Out.ok.injEq] at h7
    rw [← h7]
    exact h6
  | succ j ih =>
    intro st st' h6 h7 h8
    rw [times_succ_ok] at h8
    obtain ⟨v, h9, h10⟩ := h8
    obtain ⟨x, hx⟩ : ∃ x : Fin n → Num rnd, st.1.1 = vec x := ⟨fun i => st.1.1[i.1]'(by rw [h6]; exact i.2), by
      apply List.ext_getElem
      · simp [h6]
      · intro k h1 h2; simp [vec]⟩
    obtain ⟨h11, -, -⟩ := pass_ok h9
    obtain ⟨y, w', e1, e2, -⟩ := step_gen (floats rnd sqrt) k s h1 h3 h4 (fun i => fin (a i i))
      (fun i => diag_entry h5 i (hd i)) b x st.1.2 h7
    rw [show st.1 = (vec x, st.1.2) by rw [← hx], e1, Out.ok.injEq] at h11
    refine ih v st' ?_ ?_ h10
    · rw [← h11]; simp
    · intro hk
      rw [← h11]
      exact e2 hk

/-- A solution with a finite residual is finite. -/
theorem finite_of_residual {sqrt : Num rnd → Num rnd} {σ τ : ℚ} (hsq : Root sqrt σ τ) {n : Nat} {m : Sparse (Num rnd)}
    {a : Fin n → Fin n → ℚ} (hm : Square m fun i j => (fin (a i j) : Num rnd)) (hd : ∀ i, a i i ≠ 0) (hn0 : 0 < n)
    (hn : n < 2 ^ 31) (hc : rnd n = .fin n) (h : Rounds rnd u η) (x b : Fin n → Num rnd) (r : ℚ) (rmax : Num rnd)
    (hr : computeResidual (floats rnd sqrt) m (vec x) (vec b) = .ok (fin r, rmax)) : ∀ i, ∃ y, x i = fin y := by
  obtain ⟨L, h1, h2, h3, h4, h5⟩ := square_rep hm
  rw [residual_gen (floats rnd sqrt) h1 h3 h4 hm.2.2.1 _ _ hn0 (by unfold intMax; omega), Out.ok.injEq, Prod.mk.injEq] at hr
  obtain ⟨hr, -⟩ := hr
  have e1 := fold_fst (floats rnd sqrt) (fun i => rowDefect L x b i * rowDefect L x b i) (List.finRange n) (0, 0)
  unfold residualFold at hr
  rw [e1.1] at hr
  obtain ⟨v, g1, -⟩ := hsq.error _ _ hr
  have hn' : (0 : ℚ) < n := by exact_mod_cast hn0
  have hcount : (floats rnd sqrt).count n = fin (n : ℚ) := hc
  rw [hcount] at g1
  obtain ⟨q2, g5, -⟩ := div_fin hn'.ne' g1
  obtain ⟨-, g7⟩ := terms_finite (fun i => rowDefect L x b i * rowDefect L x b i) _ _ _ g5
  intro i
  obtain ⟨v, hv⟩ := g7 i (List.mem_finRange i)
  obtain ⟨d, -, f1, -, -⟩ := mul_fin hv
  unfold rowDefect at f1
  obtain ⟨p, -, f2, -, -⟩ := sub_fin f1
  have hf : dotL (row L i) (vec x) = ((row L i).map fun e => (e.2, (vec x).getD e.1 0)).foldl (fun s p => s + p.1 * p.2) 0 := by
    unfold dotL
    rw [List.foldl_map]
  rw [hf] at f2
  obtain ⟨t, ht, -⟩ := sum_error h _ p f2
  have hmem : (i.1, (fin (a i i) : Num rnd)) ∈ row L i := by
    have := diag_entry h5 i (hd i)
    unfold entry at this
    rwa [lookup_eq_some (h2 i)] at this
  have := List.mem_map_of_mem (f := fun e : Nat × Num rnd => (e.2, (vec x).getD e.1 0)) hmem
  rw [ht, List.mem_map] at this
  obtain ⟨q, -, hq⟩ := this
  have hq2 := (Prod.mk.inj hq).2
  refine ⟨q.2, ?_⟩
  have e : (vec x).getD i.1 0 = x i := by simp [vec]
  rw [← e]
  exact hq2.symm

theorem quotient_le {x y t : ℚ} (hx : 0 ≤ x) (hy : 0 < y) (hr : Fl.lt (.fin t) (binary64 (x / y)) = false) :
    (1 - 1 / 2 ^ 53) * x ≤ (t + 1 / 2 ^ 1075) * y := by
  have h0 : 0 ≤ x / y := div_nonneg hx hy.le
  cases hv : binary64 (x / y) with
  | nan =>
    unfold binary64 at hv
    split at hv <;> cases hv
  | inf s =>
    unfold binary64 at hv
    split at hv
    · cases hv
    · have hs : decide (x / y < 0) = s := by cases hv; rfl
      rw [decide_eq_false (not_lt.mpr h0)] at hs
      subst hs
      unfold binary64 at hr
      rw [if_neg (by assumption), decide_eq_false (not_lt.mpr h0)] at hr
      cases hr
  | fin q =>
    have h1 := rounds_binary64.error _ _ hv
    rw [abs_of_nonneg h0] at h1
    rw [hv] at hr
    have h2 : ¬ t < q := by
      have : decide (t < q) = false := hr
      simpa using this
    have h3 := (abs_le.mp h1).1
    have h4 : (1 - 1 / 2 ^ 53) * (x / y) ≤ t + 1 / 2 ^ 1075 := by linarith
    have h5 := mul_le_mul_of_nonneg_right h4 hy.le
    have h6 : (1 - 1 / 2 ^ 53) * (x / y) * y = (1 - 1 / 2 ^ 53) * x := by field_simp
    linarith

/-- C108: what does hold for doubles.  If the reported residual is finite, and the one after the first iteration is finite and
not zero, then the solution is finite and the residual has the tolerance that was asked for. -/
theorem c108_partial {sqrt : Num binary64 → Num binary64} {σ τ : ℚ} (hsq : Root sqrt σ τ) (k : Method)
    (s s' : FixedPoint (Num binary64)) {n : Nat} (m : Sparse (Num binary64)) (a : Fin n → Fin n → ℚ)
    (hm : Square m fun i j => (fin (a i j) : Num binary64)) (hd : ∀ i, a i i ≠ 0) (hn0 : 0 < n) (hn : n < 2 ^ 31) {t : ℚ}
    (ht : s.limits.tolerance = fin t) (ht0 : 0 ≤ t) (ht1 : t ≤ 1) (x b : Fin n → Num binary64) (fuel : Nat)
    (x' : List (Num binary64)) (d : Conv (Num binary64) (Num binary64))
    (hx : solveSystem (floats binary64 sqrt) k s m (vec x) (vec b) fuel = .ok (x', d, s'))
    (hmax : d.iteration ≤ s.limits.maxIteration) (r r0 : ℚ) (hr : d.residual = fin r) (hr0 : d.residual0 = fin r0)
    (hr0' : 0 < r0) :
    computeResidual (floats binary64 sqrt) m x' (vec b) = .ok (d.residual, d.residualMax) ∧
      (∃ y : Fin n → ℚ, x' = vec fun i => fin (y i)) ∧ 0 ≤ r ∧ (1 - 1 / 2 ^ 53) * r ≤ (t + 1 / 2 ^ 1075) * r0 ∧
      ∀ p p0 : ℚ, d.residualMax = fin p → d.residualMax0 = fin p0 → 0 < p0 → 0 ≤ p ∧
        (1 - 1 / 2 ^ 53) * p ≤ ((1 + 1 / 2 ^ 53) * (10 * t) + 2 / 2 ^ 1075) * p0 := by
  rw [solveSystem_eq, Out.bind_eq_ok] at hx
  obtain ⟨st, h1, h2⟩ := hx
  simp only [Out.pure_eq, Out.ok.injEq, Prod.mk.injEq] at h2
  obtain ⟨h2, h3, -⟩ := h2
  obtain ⟨j, -, h4, h5, -⟩ := iterate_ok h1
  have hlen := times_shape k s hm hd b j _ _ (by simp) (fun hk => by rw [startWorking_length k s m hk]; exact hm.2.1) h4
  rw [h3, isConverged_iff] at h5
  have h6 := h5.2.resolve_left (by omega)
  have hnan : ∀ q : ℚ, binary64 q ≠ .nan := fun q hq => by
    unfold binary64 at hq
    split at hq <;> cases hq
  cases j with
  | zero =>
    simp only [times, Out.ok.injEq] at h4
    rw [← h3, ← h4, ht, new_above sqrt (lt_of_lt_of_le (by linarith : t < 100) hundred_le)] at h6
    exact absurd h6.1 (by simp)
  | succ j =>
    rw [times_succ_right, Out.bind_eq_ok] at h4
    obtain ⟨st0, -, h7⟩ := h4
    unfold pass at h7
    rw [Out.bind_eq_ok] at h7
    obtain ⟨v, -, h7⟩ := h7
    rw [Out.bind_eq_ok] at h7
    obtain ⟨d', h8, h7⟩ := h7
    simp only [Out.pure_eq, Out.ok.injEq] at h7
    unfold update at h8
    rw [Out.bind_eq_ok] at h8
    obtain ⟨⟨p1, p2⟩, h9, h8⟩ := h8
    simp only [Out.pure_eq, Out.ok.injEq] at h8
    have hd' : d = d' := by rw [← h3, ← h7]
    have hv : v.1 = x' := by rw [← h2, ← h7]
    have e1 : d.residual = p1 := by rw [hd', ← h8]
    have e2 : d.residualMax = p2 := by rw [hd', ← h8]
    have e3 : d.residualNormalised = (floats binary64 sqrt).ratio d.residual d.residual0 := by rw [hd', ← h8]
    have e4 : d.residualMaxNormalised = (floats binary64 sqrt).ratio d.residualMax d.residualMax0 := by rw [hd', ← h8]
    rw [hv] at h9
    rw [← e1, ← e2] at h9
    refine ⟨h9, ?_⟩
    rw [h2] at hlen
    obtain ⟨y, rfl⟩ : ∃ y : Fin n → Num binary64, x' = vec y := ⟨fun i => x'[i.1]'(by rw [hlen]; exact i.2), by
      apply List.ext_getElem
      · simp [hlen]
      · intro k h1 h2; simp [vec]⟩
    rw [hr] at h9
    have hfin := finite_of_residual hsq hm hd hn0 hn (c111_count hn) rounds_binary64 y b r d.residualMax h9
    choose z hz using hfin
    obtain ⟨L, g1, g2, g3, g4, g5⟩ := square_rep hm
    rw [residual_gen (floats binary64 sqrt) g1 g3 g4 hm.2.2.1 _ _ hn0 (by unfold intMax; omega), Out.ok.injEq,
      Prod.mk.injEq] at h9
    obtain ⟨-, -, -, hrp, -⟩ := hsq.error _ _ h9.1
    refine ⟨⟨z, vec_inj.mpr (funext hz)⟩, hrp, ?_, ?_⟩
    · rw [e3, ht, hr, hr0] at h6
      refine quotient_le hrp hr0' ?_
      have := h6.1
      have e : (floats binary64 sqrt).ratio (fin r) (fin r0) = binary64 (r / r0) := by
        show Fl.div binary64 (.fin r) (.fin r0) = _
        simp [Fl.div, hr0'.ne']
      rw [e] at this
      exact this
    · intro p p0 hp hp0 hp0'
      obtain ⟨-, -, -, hpp, -⟩ := hsq.error _ p (by rw [← hp]; exact h9.2)
      refine ⟨hpp, ?_⟩
      rw [e4, ht, hp, hp0] at h6
      have h10 := h6.2
      have e : (floats binary64 sqrt).ratio (fin p) (fin p0) = binary64 (p / p0) := by
        show Fl.div binary64 (.fin p) (.fin p0) = _
        simp [Fl.div, hp0'.ne']
      rw [e] at h10
      have h10t : 0 ≤ 10 * t := by linarith
      obtain ⟨q, hq⟩ := c100_range (10 * t) (by
        rw [abs_of_nonneg h10t]
        exact le_trans (by linarith) hundred_le)
      have e' : (floats binary64 sqrt).ten * (fin t : Num binary64) = fin q := hq
      rw [e'] at h10
      have h11 := quotient_le hpp hp0' h10
      have h12 := rounds_binary64.error _ _ hq
      rw [abs_of_nonneg h10t] at h12
      have h13 := (abs_le.mp h12).2
      refine h11.trans (mul_le_mul_of_nonneg_right ?_ hp0'.le)
      have h14 : (2 : ℚ) / 2 ^ 1075 = 1 / 2 ^ 1075 + 1 / 2 ^ 1075 := by ring
      rw [h14]
      linarith

example (k : Method) : ¬ C108 root64 k := c108_violated root64 rfl k

/-- A solve with doubles that reaches the tolerance, with finite residuals. -/
example : (match solveSystem (floats binary64 root64) .jacobi ⟨⟨0, 100, fin (1 / 3)⟩, [], fin 1⟩
    (dense2 (fin 4) (fin 1) (fin 1) (fin 4)) (vec ![fin 0, fin 0]) (vec ![fin 4, fin 4]) 100 with
    | .ok (x, d, _) => some (x, d.iteration, d.residual, d.residual0, d.residualMax, d.residualMax0)
    | _ => none) = some ([fin (3 / 4), fin (3 / 4)], 2, fin (1 / 4), fin 1, fin (1 / 4), fin 1) := by
  decide +kernel

end Disa.Props
