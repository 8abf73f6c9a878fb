import Verif.Props.SolveFinite

/-!
# Property C216: solves with doubles stop at the tolerance
-/

namespace Disa.Props

open Disa Spec Dense Num Sparse Iterative

/-! ### Residuals are finite -/

theorem in_range : Range binary64 (2 ^ 1000) := fun q h => c100_range q (h.trans (by decide +kernel))

/-- Roots of moderate numbers are finite. -/
theorem root_range {q : ℚ} (h0 : 0 ≤ q) (h : q ≤ 2 ^ 1000) : ∃ r, root64 (fin q) = fin r := by
  obtain ⟨r, hr⟩ : ∃ r, r = Nat.sqrt ⌊q * 4 ^ 1200⌋₊ := ⟨_, rfl⟩
  have h1 : ((r : ℚ)) ^ 2 ≤ q * 4 ^ 1200 := by
    have e1 : r ^ 2 ≤ ⌊q * 4 ^ 1200⌋₊ := by rw [hr, pow_two]; exact Nat.sqrt_le _
    have e2 : ((⌊q * 4 ^ 1200⌋₊ : ℕ) : ℚ) ≤ q * 4 ^ 1200 := Nat.floor_le (by positivity)
    refine le_trans ?_ e2
    exact_mod_cast e1
  have h2 : |(r : ℚ) / 2 ^ 1200| ≤ 2 ^ 1000 := by
    have h4 : (4 : ℚ) ^ 1200 = 2 ^ 1200 * 2 ^ 1200 := by rw [← mul_pow]; norm_num
    have hpos : (0 : ℚ) < 2 ^ 1200 := by positivity
    have hC : (1 : ℚ) ≤ 2 ^ 1000 := one_le_pow₀ (by norm_num)
    rw [h4] at h1
    clear h4 hr
    generalize (2 ^ 1200 : ℚ) = D at *
    generalize (2 ^ 1000 : ℚ) = C at *
    rw [abs_of_nonneg (by positivity), div_le_iff₀ hpos]
    refine le_of_sq_le_sq ?_ (by positivity)
    have e1 : q * (D * D) ≤ C * (D * D) := mul_le_mul_of_nonneg_right h (by positivity)
    have e2 : C * (D * D) ≤ C * C * (D * D) := mul_le_mul_of_nonneg_right (by nlinarith) (by positivity)
    have e3 : (C * D) ^ 2 = C * C * (D * D) := by ring
    rw [e3]
    exact h1.trans (e1.trans e2)
  obtain ⟨v, hv⟩ := in_range _ h2
  refine ⟨v, ?_⟩
  rw [hr] at hv
  unfold root64 fin
  simp only [not_lt.mpr h0, if_false]
  exact hv

/-- The error of a sum of products of doubles. -/
theorem productError64 {n : Nat} (hn : n ≤ 2 ^ 31) {T : ℚ} (hT : 0 ≤ T) :
    productError (1 / 2 ^ 53) (1 / 2 ^ 1075) n T ≤ (n + 1) / 2 ^ 52 * T + 1 / 2 ^ 1000 := by
  have h1 := pow_double (show n + 1 ≤ 2 ^ 52 by omega)
  have h2 := pow_double (show n ≤ 2 ^ 52 by omega)
  have hn' : (n : ℚ) ≤ 2 ^ 31 := by exact_mod_cast hn
  push_cast at h1
  unfold productError
  have h3 : (1 + 1 / 2 ^ 53 : ℚ) ^ n ≤ 2 := by linarith
  have h4 : (n : ℚ) * (2 + 1 / 2 ^ 53) ≤ 2 ^ 31 * 3 := mul_le_mul hn' (by norm_num) (by positivity) (by positivity)
  have h5 : (n : ℚ) * (2 + 1 / 2 ^ 53) * (1 + 1 / 2 ^ 53) ^ n ≤ 2 ^ 31 * 3 * 2 :=
    mul_le_mul h4 h3 (by positivity) (by positivity)
  have h6 : (2 ^ 31 * 3 * 2 : ℚ) * (1 / 2 ^ 1075) ≤ 1 / 2 ^ 1000 := by decide +kernel
  have h7 := mul_le_mul_of_nonneg_right h5 (show (0 : ℚ) ≤ 1 / 2 ^ 1075 by positivity)
  have h8 := mul_le_mul_of_nonneg_right (show (1 + 1 / 2 ^ 53 : ℚ) ^ (n + 1) - 1 ≤ (n + 1) / 2 ^ 52 by linarith) hT
  exact add_le_add h8 (h7.trans h6)

/-- The error of a sum of products of numbers that are given. -/
theorem sum_error_of {rnd : ℚ → Fl} {u η : ℚ} (h : Rounds rnd u η) (t : List (ℚ × ℚ)) (r : ℚ)
    (hr : (t.map fun p => ((fin p.1 : Num rnd), (fin p.2 : Num rnd))).foldl (fun s p => s + p.1 * p.2) 0 = fin r) :
    |r - (t.map fun p => p.1 * p.2).sum| ≤ productError u η t.length (t.map fun p => |p.1 * p.2|).sum := by
  obtain ⟨t'', e1, e2⟩ := sum_error h _ r hr
  obtain rfl : t = t'' := by
    have hinj : Function.Injective fun p : ℚ × ℚ => ((fin p.1 : Num rnd), (fin p.2 : Num rnd)) := by
      rintro ⟨p1, p2⟩ ⟨q1, q2⟩ he
      obtain ⟨e1, e2⟩ := Prod.mk.inj he
      have e1 : p1 = q1 := fin_inj.mp e1
      have e2 : p2 = q2 := fin_inj.mp e2
      rw [e1, e2]
    exact List.map_injective_iff.mpr hinj e1
  exact e2

/-- The residuals of the rows are finite. -/
theorem rowDefect_finite {n : Nat} (hn : n < 2 ^ 31) {L : Rows (Num binary64)} {a : Fin n → Fin n → ℚ} (hs : Sorted L)
    (hb : Bounded n L) (hA : ∀ i j : Fin n, (entry L i j).getD 0 = fin (a i j)) (x b : Fin n → ℚ) (i : Fin n)
    (hR : |b i| + ∑ j, |a i j * x j| ≤ 2 ^ 460) :
    ∃ r, rowDefect L (fun j => (fin (x j) : Num binary64)) (fun j => fin (b j)) i = fin r := by
  obtain ⟨t, ht, hf, hsum, habs⟩ := row_all hs hb hA x i
  obtain ⟨S, hS⟩ : ∃ S, S = ∑ j, |a i j * x j| := ⟨_, rfl⟩
  have hS0 : 0 ≤ S := by rw [hS]; exact Finset.sum_nonneg fun j _ => abs_nonneg _
  have hb0 := abs_nonneg (b i)
  rw [← hS] at hR habs
  have hn' : (n : ℚ) ≤ 2 ^ 31 := by exact_mod_cast hn.le
  have hp := productError64 (n := t.length) (by omega) hS0
  have ht' : ((t.length : ℕ) : ℚ) ≤ 2 ^ 31 := by exact_mod_cast (by omega : t.length ≤ 2 ^ 31)
  have hk : ((t.length : ℕ) + 1 : ℚ) / 2 ^ 52 * S ≤ 1 * S := mul_le_mul_of_nonneg_right (by
    rw [div_le_one (by positivity)]; linarith) hS0
  have c1 : (1 / 2 ^ 1000 : ℚ) ≤ 1 := by decide +kernel
  have c2 : (4 * 2 ^ 460 + 4 : ℚ) ≤ 2 ^ 1000 := by decide +kernel
  obtain ⟨ε, hε⟩ : ∃ ε : ℚ, ε = 1 / 2 ^ 1000 := ⟨_, rfl⟩
  rw [← hε] at hp c1
  clear hε
  have hM := in_range
  generalize (2 ^ 460 : ℚ) = B at *
  generalize (2 ^ 1000 : ℚ) = C at *
  obtain ⟨v, hv⟩ := sum_finite rounds_binary64 hM t (by rw [habs]; linarith only [hp, hk, c1, c2, hR, hb0, hS0])
  have e2 := sum_error_of rounds_binary64 t v hv
  rw [hsum, habs] at e2
  have hV : |∑ j, a i j * x j| ≤ S := by rw [hS]; exact Finset.abs_sum_le_sum_abs _ _
  have hv2 : |v - b i| ≤ C := by
    have e3 := abs_sub v (b i)
    have e4 := abs_add_le (∑ j, a i j * x j) (v - ∑ j, a i j * x j)
    rw [add_sub_cancel] at e4
    linarith only [e3, e4, e2, hp, hk, c1, c2, hR, hb0, hS0, hV]
  obtain ⟨r, hr⟩ := hM _ hv2
  refine ⟨r, ?_⟩
  unfold rowDefect
  rw [hf, hv]
  show Fl.add binary64 (.fin v) (Fl.neg (.fin (b i))) = _
  simp only [Fl.add, Fl.neg, ← sub_eq_add_neg]
  exact hr

/-- Sums of squares are not negative. -/
theorem squares_nonneg {n : Nat} (d : Fin n → ℚ) (l : List (Fin n)) : ∀ z r : ℚ, 0 ≤ z →
    l.foldl (fun s i => s + (fin (d i) : Num binary64) * fin (d i)) (fin z) = fin r → 0 ≤ r := by
  induction l with
  | nil =>
    intro z r hz h
    exact (fin_inj.mp h) ▸ hz
  | cons e l ih =>
    intro z r hz h
    rw [List.foldl_cons] at h
    obtain ⟨⟨q, hq⟩, -⟩ := terms_finite (fun i => (fin (d i) : Num binary64) * fin (d i)) l r _ h
    obtain ⟨x, y, h1, h2, h3⟩ := add_fin hq
    obtain rfl : z = x := fin_inj.mp h1
    obtain ⟨p, p', h4, h5, h6⟩ := mul_fin h2
    obtain rfl : d e = p := fin_inj.mp h4
    obtain rfl : d e = p' := fin_inj.mp h5
    have h7 := binary64_nonneg (mul_self_nonneg (d e)) h6
    rw [hq] at h
    exact ih q r (binary64_nonneg (add_nonneg hz h7) h3) h

/-- Both norms are finite. -/
theorem residual_finite {n : Nat} (hn0 : 0 < n) (hn : n < 2 ^ 31) {m : Sparse (Num binary64)} {L : Rows (Num binary64)} (h1 : m.Rep L)
    (h3 : Bounded n L) (h4 : L.length = n) (hc : m.colSize = n) (x b : Fin n → Num binary64) (d : Fin n → ℚ)
    (hd : ∀ i, rowDefect L x b i = fin (d i)) (hR : ∀ i, |d i| ≤ 2 ^ 461) :
    ∃ r rmax, computeResidual (floats binary64 root64) m (vec x) (vec b) = .ok (fin r, fin rmax) ∧
      0 ≤ r ∧ 0 ≤ rmax := by
  rw [residual_gen (floats binary64 root64) h1 h3 h4 hc _ _ hn0 (by unfold intMax; omega)]
  have e1 := fold_fst (floats binary64 root64) (fun i => rowDefect L x b i * rowDefect L x b i) (List.finRange n) (0, 0)
  unfold residualFold
  rw [e1.1, e1.2]
  simp only [hd]
  have hn' : (0 : ℚ) < n := by exact_mod_cast hn0
  have hn31 : (n : ℚ) ≤ 2 ^ 31 := by exact_mod_cast hn.le
  obtain ⟨C, hC⟩ : ∃ C : ℚ, C = 2 ^ 1000 := ⟨_, rfl⟩
  obtain ⟨B, hB⟩ : ∃ B : ℚ, B = 2 ^ 922 := ⟨_, rfl⟩
  obtain ⟨η, hη⟩ : ∃ η : ℚ, η = 1 / 2 ^ 1075 := ⟨_, rfl⟩
  have hM : Range binary64 C := hC ▸ in_range
  have hroot : ∀ q, 0 ≤ q → q ≤ C → ∃ r, root64 (fin q) = fin r := fun q h0 h => root_range h0 (hC ▸ h)
  have hrnd := rounds_binary64
  rw [← hη] at hrnd
  have hsq : ∀ i, d i * d i ≤ B := fun i => by
    rw [← abs_mul_abs_self (d i), hB]
    have := mul_le_mul (hR i) (hR i) (abs_nonneg _) (by positivity)
    rwa [← pow_add] at this
  have c1 : (1 / 2 ^ 1000 : ℚ) ≤ 1 := by decide +kernel
  have c2 : 4 * (2 ^ 31 * B) + 16 ≤ C := by rw [hB, hC]; decide +kernel
  have c4 : η ≤ 1 := by rw [hη]; decide +kernel
  have hB0 : 0 ≤ B := by rw [hB]; positivity
  have hcount : (floats binary64 root64).count n = fin (n : ℚ) := c111_count hn
  rw [hcount]
  have hsum : (((List.finRange n).map fun i => (d i, d i)).map fun p => |p.1 * p.2|).sum ≤ 2 ^ 31 * B := by
    have e : (((List.finRange n).map fun i => (d i, d i)).map fun p => |p.1 * p.2|).sum = ∑ i, d i * d i := by
      rw [List.map_map, Fin.sum_univ_def]
      congr 1
      apply List.map_congr_left
      intro i _
      exact abs_mul_self _
    rw [e]
    refine (Finset.sum_le_card_nsmul _ _ B fun i _ => hsq i).trans ?_
    rw [Finset.card_univ, Fintype.card_fin, nsmul_eq_mul]
    exact mul_le_mul_of_nonneg_right hn31 hB0
  have hsum0 : 0 ≤ (((List.finRange n).map fun i => (d i, d i)).map fun p => |p.1 * p.2|).sum := by
    apply List.sum_nonneg
    intro y hy
    obtain ⟨p, -, rfl⟩ := List.mem_map.mp hy
    exact abs_nonneg _
  have hlen : ((List.finRange n).map fun i => (d i, d i)).length = n := by simp
  obtain ⟨T, hT⟩ : ∃ T, T = (((List.finRange n).map fun i => (d i, d i)).map fun p => |p.1 * p.2|).sum := ⟨_, rfl⟩
  rw [← hT] at hsum hsum0
  have hp := productError64 (n := n) hn.le hsum0
  have hk : ((n : ℚ) + 1) / 2 ^ 52 * T ≤ 1 * T := mul_le_mul_of_nonneg_right (by
    rw [div_le_one (by positivity)]; linarith) hsum0
  rw [← hη] at hp
  obtain ⟨ε, hε⟩ : ∃ ε : ℚ, ε = 1 / 2 ^ 1000 := ⟨_, rfl⟩
  rw [← hε] at hp c1
  clear hε hC hB hη
  obtain ⟨q2, hq2⟩ := sum_finite hrnd hM ((List.finRange n).map fun i => (d i, d i)) (by
    rw [hlen, ← hT]
    linarith only [hp, hk, c1, c2, hsum, hsum0])
  have he := sum_error_of hrnd _ q2 hq2
  rw [hlen, ← hT] at he
  have hs1 : (((List.finRange n).map fun i => (d i, d i)).map fun p => p.1 * p.2).sum = T := by
    rw [hT]
    congr 1
    simp only [List.map_map, Function.comp_def, abs_mul_self]
  rw [hs1] at he
  rw [List.foldl_map, List.foldl_map] at hq2
  have hq0 : 0 ≤ q2 := squares_nonneg d _ 0 q2 le_rfl hq2
  have hqC : 4 * q2 ≤ 3 * C := by
    have := (abs_le.mp he).2
    linarith only [hp, hk, c1, c2, hsum, hsum0, this]
  have hn1 : (1 : ℚ) ≤ n := by exact_mod_cast hn0
  have hq3 : q2 / n ≤ q2 := div_le_self hq0 hn1
  have hq4 : 0 ≤ q2 / n := by positivity
  have c3 : 0 ≤ C := by linarith only [c2, hB0]
  have hq5 : |q2 / n| ≤ C := by
    rw [abs_of_nonneg hq4]
    linarith only [hq3, hqC, c3]
  obtain ⟨q6, hq6⟩ := hM _ hq5
  have hq7 : 0 ≤ q6 := binary64_nonneg hq4 hq6
  have hq8 : q6 ≤ C := by
    have := (abs_le.mp (hrnd.error _ _ hq6)).2
    rw [abs_of_nonneg hq4] at this
    have c5 : (1 / 2 ^ 53 : ℚ) * (q2 / n) ≤ 1 / 8 * q2 := mul_le_mul (by norm_num) hq3 hq4 (by norm_num)
    linarith only [this, c4, c5, hq3, hqC, c2, hB0]
  obtain ⟨r, hr⟩ := hroot _ hq7 hq8
  -- the largest square
  have hsq1 : ∀ i, ∃ v, binary64 (d i * d i) = .fin v ∧ 0 ≤ v ∧ v ≤ C := fun i => by
    have h0 := mul_self_nonneg (d i)
    obtain ⟨v, hv⟩ := hM (d i * d i) (by
      rw [abs_of_nonneg h0]
      have := hsq i
      linarith only [this, c2, h0, hB0])
    refine ⟨v, hv, binary64_nonneg h0 hv, ?_⟩
    have := (abs_le.mp (hrnd.error _ _ hv)).2
    rw [abs_of_nonneg h0] at this
    have c5 : (1 / 2 ^ 53 : ℚ) * (d i * d i) ≤ 1 * (d i * d i) := mul_le_mul_of_nonneg_right (by norm_num) h0
    have h1 := hsq i
    linarith only [this, h1, c5, c4, c2, h0, hB0]
  choose v hv1 hv2 hv3 using hsq1
  obtain ⟨q, k1, k2, k3, k4⟩ := fold_max (sqrt := root64) (fun i => (fin (d i) : Num binary64) * fin (d i)) v (List.finRange n)
    (fun i _ => hv1 i) 0
  obtain ⟨s, hs⟩ := hroot q k2 (by
    rcases k4 with rfl | ⟨i, -, rfl⟩
    · exact c3
    · exact hv3 i)
  refine ⟨r, s, ?_⟩
  have g1 : (List.finRange n).foldl (fun s i => s + (fin (d i) : Num binary64) * fin (d i)) ((0, (0 : Num binary64)) : Num binary64 × Num binary64).1 = fin q2 := hq2
  have g2 : (List.finRange n).foldl (fun s i => if (floats binary64 root64).lt s (fin (d i) * fin (d i)) then fin (d i) * fin (d i) else s)
    (((0 : Num binary64), 0) : Num binary64 × Num binary64).2 = fin q := k1
  rw [g1, g2]
  have g3 : (fin q2 / fin (n : ℚ) : Num binary64) = fin q6 := by
    show Fl.div binary64 (.fin q2) (.fin n) = _
    simp only [Fl.div, hn'.ne', if_false]
    exact hq6
  rw [g3]
  have g4 : (floats binary64 root64).sqrt (fin q6) = fin r := hr
  have g5 : (floats binary64 root64).sqrt (fin q) = fin s := hs
  rw [g4, g5]
  obtain ⟨-, -, -, f1, -⟩ := c111_root.error _ _ hr
  obtain ⟨-, -, -, f2, -⟩ := c111_root.error _ _ hs
  exact ⟨rfl, f1, f2⟩


/-- Bound of the residuals of an approximation: `R` is the largest sum of the absolute values of a row, `X` the largest element of the
solution and `e` the largest error. -/
def residualBound (n : Nat) (R X e : ℚ) : ℚ := R * e + (n + 2) / 2 ^ 51 * (R * (X + e)) + 1 / 2 ^ 500

theorem norm_sizes {n : Nat} (hn : n < 2 ^ 31) {Q : ℚ} (hQ : 0 ≤ Q) :
    meanError (1 / 2 ^ 53) (1 / 2 ^ 1075) (1 / 2 ^ 51) (1 / 2 ^ 2000) n Q ≤ Q + 1 / 2 ^ 1060 := by
  have hn31 : (n : ℚ) ≤ 2 ^ 31 := by exact_mod_cast hn.le
  have h1 := pow_double (show n + 1 ≤ 2 ^ 52 by omega)
  have h2 := pow_double (show n + 2 ≤ 2 ^ 52 by omega)
  push_cast at h1 h2
  have h3 : (1 + 1 / 2 ^ 53 : ℚ) ^ (n + 1) ≤ 3 / 2 := by linarith
  have h4 : (1 + 1 / 2 ^ 53 : ℚ) ^ (n + 2) ≤ 3 / 2 := by linarith
  have h5 : ((1 + 1 / 2 ^ 51) * (1 + 1 / 2 ^ 53) ^ (n + 2) - 1 : ℚ) ≤ 1 := by linarith
  have h6 : ((1 + 1 / 2 ^ 51) * ((2 + 1 / 2 ^ 53) * (1 + 1 / 2 ^ 53) ^ (n + 1) + 1) : ℚ) ≤ 8 := by linarith
  have h7 : (8 * (1 / 2 ^ 1075) + 1 / 2 ^ 2000 : ℚ) ≤ 1 / 2 ^ 1060 := by decide +kernel
  have h8 := mul_le_mul_of_nonneg_right h5 hQ
  have h9 := mul_le_mul_of_nonneg_right h6 (show (0 : ℚ) ≤ 1 / 2 ^ 1075 by positivity)
  unfold meanError
  generalize (1 / 2 ^ 1060 : ℚ) = w1 at *
  generalize (1 / 2 ^ 1075 : ℚ) = w2 at *
  generalize (1 / 2 ^ 2000 : ℚ) = w3 at *
  linarith only [h7, h8, h9]

/-- Sizes of the defects of an approximation of the solution. -/
theorem defect_sizes {n : Nat} (hn0 : 0 < n) (hn : n < 2 ^ 31) {A : Fin n → Fin n → ℚ} {R X e : ℚ} (hR : ∀ i, ∑ j, |A i j| ≤ R)
    (hT : R * (X + e) ≤ 2 ^ 450) {b sol y : Fin n → ℚ} (hsol : Solves A sol b) (hX : ∀ j, |sol j| ≤ X) (hy : ∀ j, |y j - sol j| ≤ e) :
    (∀ i, |b i| + ∑ j, |A i j * y j| ≤ 2 ^ 460) ∧ ∀ d : Fin n → ℚ, (∀ i, |d i - defect A y b i| ≤
      productError (1 / 2 ^ 53) (1 / 2 ^ 1075) (n + 1) (|b i| + ∑ j, |A i j * y j|)) →
      ∀ i, |d i| ≤ R * e + (n + 2) / 2 ^ 51 * (R * (X + e)) + 1 / 2 ^ 1000 ∧ |d i| ≤ 2 ^ 461 := by
  have hX0 : 0 ≤ X := (abs_nonneg _).trans (hX ⟨0, hn0⟩)
  have he0 : 0 ≤ e := (abs_nonneg _).trans (hy ⟨0, hn0⟩)
  have hR0 : 0 ≤ R := le_trans (Finset.sum_nonneg fun j _ => abs_nonneg _) (hR ⟨0, hn0⟩)
  have hweight : ∀ (v : Fin n → ℚ) (V : ℚ), 0 ≤ V → (∀ j, |v j| ≤ V) → ∀ i, ∑ j, |A i j * v j| ≤ R * V := fun v V hV hv i => by
    have e1 : ∑ j, |A i j * v j| ≤ ∑ j, |A i j| * V := Finset.sum_le_sum fun j _ => by
      rw [abs_mul]
      exact mul_le_mul_of_nonneg_left (hv j) (abs_nonneg _)
    rw [← Finset.sum_mul] at e1
    exact e1.trans (mul_le_mul_of_nonneg_right (hR i) hV)
  have hyX : ∀ j, |y j| ≤ X + e := fun j => by
    have := abs_add_le (sol j) (y j - sol j)
    rw [add_sub_cancel] at this
    linarith [hX j, hy j]
  have hb : ∀ i, |b i| ≤ R * X := fun i => by
    rw [← hsol i]
    exact (Finset.abs_sum_le_sum_abs _ _).trans (hweight sol X hX0 hX i)
  have hdef : ∀ i, |defect A y b i| ≤ R * e := fun i => by
    have e1 : defect A y b i = ∑ j, A i j * (y j - sol j) := by
      unfold defect
      rw [← hsol i, ← Finset.sum_sub_distrib]
      exact Finset.sum_congr rfl fun j _ => by ring
    rw [e1]
    exact (Finset.abs_sum_le_sum_abs _ _).trans (hweight _ e he0 hy i)
  obtain ⟨T, hTe⟩ : ∃ T, T = R * (X + e) := ⟨_, rfl⟩
  have hRX : R * X ≤ T := by rw [hTe]; exact mul_le_mul_of_nonneg_left (by linarith) hR0
  have hRe : R * e ≤ T := by rw [hTe]; exact mul_le_mul_of_nonneg_left (by linarith) hR0
  have hRe0 : 0 ≤ R * e := by positivity
  have hT0 : 0 ≤ T := hRe0.trans hRe
  have hsum : ∀ i, |b i| + ∑ j, |A i j * y j| ≤ 2 * T := fun i => by
    have := hweight y (X + e) (by linarith) hyX i
    rw [← hTe] at this
    linarith [hb i]
  rw [← hTe] at hT
  have hbig : ∀ i, |b i| + ∑ j, |A i j * y j| ≤ 2 ^ 460 := fun i => by
    have c : (2 * 2 ^ 450 : ℚ) ≤ 2 ^ 460 := by decide +kernel
    have := hsum i
    generalize (2 ^ 450 : ℚ) = c1 at *
    generalize (2 ^ 460 : ℚ) = c2 at *
    linarith only [this, c, hT]
  refine ⟨hbig, fun d hd => ?_⟩
  have hn31 : (n : ℚ) ≤ 2 ^ 31 := by exact_mod_cast hn.le
  have herr : ∀ i, productError (1 / 2 ^ 53) (1 / 2 ^ 1075) (n + 1) (|b i| + ∑ j, |A i j * y j|) ≤
      (n + 2) / 2 ^ 51 * T + 1 / 2 ^ 1000 := fun i => by
    have e1 := productError64 (n := n + 1) (by omega) (T := |b i| + ∑ j, |A i j * y j|)
      (add_nonneg (abs_nonneg _) (Finset.sum_nonneg fun j _ => abs_nonneg _))
    refine e1.trans ?_
    have e2 := mul_le_mul_of_nonneg_left (hsum i) (show (0 : ℚ) ≤ ((n + 1 : ℕ) + 1) / 2 ^ 52 by positivity)
    have e3 : (((n + 1 : ℕ) : ℚ) + 1) / 2 ^ 52 * (2 * T) = (n + 2) / 2 ^ 51 * T := by
      push_cast
      ring
    rw [e3] at e2
    linarith only [e2]
  have hsmall : ((n : ℚ) + 2) / 2 ^ 51 * T ≤ 1 * T := mul_le_mul_of_nonneg_right (by
    rw [div_le_one (by positivity)]; linarith) hT0
  intro i
  have e1 := abs_add_le (defect A y b i) (d i - defect A y b i)
  rw [add_sub_cancel] at e1
  rw [← hTe]
  have e2 : |d i| ≤ R * e + (n + 2) / 2 ^ 51 * T + 1 / 2 ^ 1000 := by linarith only [e1, hd i, herr i, hdef i]
  refine ⟨e2, ?_⟩
  have c : (4 * 2 ^ 450 + 1 : ℚ) ≤ 2 ^ 461 := by decide +kernel
  have c' : (1 / 2 ^ 1000 : ℚ) ≤ 1 := by decide +kernel
  generalize (2 ^ 450 : ℚ) = c1 at *
  generalize (2 ^ 461 : ℚ) = c2 at *
  generalize (1 / 2 ^ 1000 : ℚ) = c3 at *
  linarith only [e2, c, c', hT, hsmall, hRe, hT0]

/-- Sizes of the norms of a residual with defects that are at most `ρ`. -/
theorem norm_bounds {n : Nat} (hn0 : 0 < n) (hn : n < 2 ^ 31) {R X e : ℚ} (hB0 : 0 ≤ R * e) (hT0 : 0 ≤ R * (X + e)) {d' : Fin n → ℚ}
    (hd' : ∀ i, |d' i| ≤ R * e + (n + 2) / 2 ^ 51 * (R * (X + e)) + 1 / 2 ^ 1000) {r s : ℚ} (hs0 : 0 ≤ s)
    (k2 : |r ^ 2 - (∑ i, d' i ^ 2) / n| ≤ meanError (1 / 2 ^ 53) (1 / 2 ^ 1075) (1 / 2 ^ 51) (1 / 2 ^ 2000) n ((∑ i, d' i ^ 2) / n))
    (k4 : ∀ i, (1 - 1 / 2 ^ 51) * ((1 - 1 / 2 ^ 53) * d' i ^ 2 - 1 / 2 ^ 1075) ≤ s ^ 2 + 1 / 2 ^ 2000)
    (k5 : s ^ 2 ≤ 1 / 2 ^ 2000 ∨ ∃ i, s ^ 2 ≤ (1 + 1 / 2 ^ 51) * ((1 + 1 / 2 ^ 53) * d' i ^ 2 + 1 / 2 ^ 1075) + 1 / 2 ^ 2000) :
    r ≤ 2 * residualBound n R X e ∧ s ≤ 2 * residualBound n R X e ∧ r ≤ 2 * s + 1 / 2 ^ 500 := by
  obtain ⟨T, hTe⟩ : ∃ T, T = R * (X + e) := ⟨_, rfl⟩
  rw [← hTe] at hT0 hd'
  obtain ⟨ρ, hρ⟩ : ∃ ρ, ρ = R * e + (n + 2) / 2 ^ 51 * T + 1 / 2 ^ 1000 := ⟨_, rfl⟩
  rw [← hρ] at hd'
  have hn' : (0 : ℚ) < n := by exact_mod_cast hn0
  have hsqρ : ∀ i, d' i ^ 2 ≤ ρ ^ 2 := fun i => by
    rw [← sq_abs]
    exact pow_le_pow_left₀ (abs_nonneg _) (hd' i) 2
  obtain ⟨Q, hQ⟩ : ∃ Q, Q = (∑ i, d' i ^ 2) / n := ⟨_, rfl⟩
  have hQ0 : 0 ≤ Q := by
    rw [hQ]
    exact div_nonneg (Finset.sum_nonneg fun i _ => sq_nonneg _) hn'.le
  have hmean : ∀ V : ℚ, (∀ i, d' i ^ 2 ≤ V) → Q ≤ V := fun V hV => by
    rw [hQ, div_le_iff₀ hn']
    refine (Finset.sum_le_card_nsmul _ _ V fun i _ => hV i).trans (le_of_eq ?_)
    rw [Finset.card_univ, Fintype.card_fin, nsmul_eq_mul, mul_comm]
  have hQρ := hmean _ hsqρ
  rw [← hQ] at k2
  have k6 := (abs_le.mp k2).2
  have k7 := norm_sizes hn hQ0
  obtain ⟨z, hz⟩ : ∃ z : ℚ, z = 1 / 2 ^ 500 := ⟨_, rfl⟩
  have hz0 : 0 ≤ z := by rw [hz]; positivity
  have c1 : (8 * (1 / 2 ^ 1060) : ℚ) ≤ z ^ 2 := by rw [hz]; decide +kernel
  have c2 : (1 / 2 ^ 1000 : ℚ) ≤ z := by rw [hz]; decide +kernel
  have c3 : (8 * (1 / 2 ^ 1075) + 8 * (1 / 2 ^ 2000) : ℚ) ≤ z ^ 2 := by rw [hz]; decide +kernel
  have c4 : (0 : ℚ) ≤ 1 / 2 ^ 1060 := by positivity
  have c5 : (0 : ℚ) ≤ 1 / 2 ^ 1075 := by positivity
  have c6 : (0 : ℚ) ≤ 1 / 2 ^ 2000 := by positivity
  have hB : residualBound n R X e = ρ - 1 / 2 ^ 1000 + z := by
    unfold residualBound
    rw [← hTe, ← hz, hρ]
    ring
  have hρ0 : 0 ≤ ρ := (abs_nonneg _).trans (hd' ⟨0, hn0⟩)
  have hρB : ρ ≤ residualBound n R X e := by rw [hB]; linarith only [c2]
  have hzB : z ≤ residualBound n R X e := by
    rw [hB, hρ]
    have : 0 ≤ (n + 2) / 2 ^ 51 * T := by positivity
    linarith only [this, hB0]
  obtain ⟨G, hG⟩ : ∃ G, G = residualBound n R X e := ⟨_, rfl⟩
  rw [← hG] at hρB hzB
  rw [← hG, ← hz]
  have g1 : ρ ^ 2 ≤ G ^ 2 := pow_le_pow_left₀ hρ0 hρB 2
  have g2 : z ^ 2 ≤ G ^ 2 := pow_le_pow_left₀ hz0 hzB 2
  have hG0 : 0 ≤ G := hz0.trans hzB
  clear hB hG hz hρ k2
  generalize (1 / 2 ^ 1060 : ℚ) = w1 at *
  generalize (1 / 2 ^ 1075 : ℚ) = w2 at *
  generalize (1 / 2 ^ 2000 : ℚ) = w3 at *
  refine ⟨?_, ?_, ?_⟩
  · refine le_of_sq_le_sq ?_ (by positivity)
    rw [mul_pow]
    linarith only [k6, k7, hQρ, g1, g2, c1, c4]
  · refine le_of_sq_le_sq ?_ (by positivity)
    rw [mul_pow]
    rcases k5 with k5 | ⟨i, k5⟩
    · have := sq_nonneg G
      linarith only [k5, g2, c3, c5, c6, this]
    · have e1 := hsqρ i
      have e2 := sq_nonneg (d' i)
      linarith only [k5, e1, e2, g1, g2, c3, c5, c6]
  · refine le_of_sq_le_sq ?_ (by positivity)
    have e1 : Q ≤ 8 / 7 * (s ^ 2 + w3 + w2) := hmean _ fun i => by
      have := k4 i
      have e2 := sq_nonneg (d' i)
      linarith only [this, e2, c5, c6]
    have e3 : (2 * s + z) ^ 2 = 4 * s ^ 2 + z ^ 2 + 4 * (s * z) := by ring
    have e4 : 0 ≤ s * z := mul_nonneg hs0 hz0
    have e5 := sq_nonneg s
    linarith only [e1, e3, e4, e5, k6, k7, c1, c3, c4, c5, c6]

/-- C216: the residuals of an approximation of the solution are finite and bounded. -/
theorem c216_residual {n : Nat} (hn0 : 0 < n) (hn : n < 2 ^ 31) (m : Sparse (Num binary64)) (A : Fin n → Fin n → ℚ)
    (hm : Square m fun i j => (fin (A i j) : Num binary64)) {R X e : ℚ} (hR : ∀ i, ∑ j, |A i j| ≤ R)
    (hT : R * (X + e) ≤ 2 ^ 450) (b sol y : Fin n → ℚ) (hsol : Solves A sol b) (hX : ∀ j, |sol j| ≤ X) (hy : ∀ j, |y j - sol j| ≤ e) :
    ∃ r rmax, computeResidual (floats binary64 root64) m (vec fun i => fin (y i)) (vec fun i => fin (b i)) = .ok (fin r, fin rmax) ∧
      0 ≤ r ∧ 0 ≤ rmax ∧ r ≤ 2 * residualBound n R X e ∧ rmax ≤ 2 * residualBound n R X e ∧ r ≤ 2 * rmax + 1 / 2 ^ 500 := by
  obtain ⟨L, h1, h2, h3, h4, h5⟩ := square_rep hm
  have hX0 : 0 ≤ X := (abs_nonneg _).trans (hX ⟨0, hn0⟩)
  have he0 : 0 ≤ e := (abs_nonneg _).trans (hy ⟨0, hn0⟩)
  have hR0 : 0 ≤ R := le_trans (Finset.sum_nonneg fun j _ => abs_nonneg _) (hR ⟨0, hn0⟩)
  obtain ⟨hbig, hsize⟩ := defect_sizes hn0 hn hR hT hsol hX hy
  choose d hd using fun i => rowDefect_finite hn h2 h3 h5 y b i (hbig i)
  have hd1 : ∀ i, |d i| ≤ 2 ^ 461 := fun i => (hsize d (fun i => rowDefect_error rounds_binary64 h2 h3 h5 y b i (d i) (hd i)) i).2
  obtain ⟨r, s, hr, hr0, hs0⟩ := residual_finite hn0 hn h1 h3 h4 hm.2.2.1 _ _ d hd hd1
  refine ⟨r, s, hr, hr0, hs0, ?_⟩
  obtain ⟨d', k1, k2, k3⟩ := c111_norms rounds_binary64 c111_root m A hm hn0 hn (c111_count hn) y b (fin r) (fin s) r rfl hr
  obtain ⟨k4, k5⟩ := k3 s rfl
  exact norm_bounds hn0 hn (mul_nonneg hR0 he0) (mul_nonneg hR0 (add_nonneg hX0 he0)) (fun i => (hsize d' k1 i).1) hs0 k2 k4 k5

/-! ### The loop stops -/

/-- The data after a pass: the residuals are those of the new solution, and the first ones are kept. -/
theorem pass_data {S N : Type} [Zero S] [Add S] [Sub S] [Mul S] [Div S] {F : Scalars S N} {k : Method} {s : FixedPoint S} {m : Sparse S}
    {x w b : List S} {j : Nat} (hj : j + 1 ≤ sizeMax) {t : (List S × List S) × Conv S N}
    (ht : times (pass F k s m b) (j + 1) ((x, w), Conv.new F) = .ok t) :
    ∃ t1 r r0 rmax rmax0, times (step F k s m b) 1 (x, w) = .ok t1 ∧ times (step F k s m b) (j + 1) (x, w) = .ok t.1 ∧
      computeResidual F m t1.1 b = .ok (r0, rmax0) ∧ computeResidual F m t.1.1 b = .ok (r, rmax) ∧
      t.2 = ⟨false, j + 1, r, r0, F.ratio r r0, rmax, rmax0, F.ratio rmax rmax0⟩ := by
  have hit := times_iteration ht (by simp [Conv.new]; omega)
  induction j generalizing t with
  | zero =>
    rw [times_succ_right] at ht
    unfold pass at ht
    simp only [times, Out.ok_bind] at ht
    rw [Out.bind_eq_ok] at ht
    obtain ⟨v, e1, ht⟩ := ht
    rw [Out.bind_eq_ok] at ht
    obtain ⟨d, e2, ht⟩ := ht
    unfold update at e2
    rw [Out.bind_eq_ok] at e2
    obtain ⟨⟨r, rmax⟩, e3, e4⟩ := e2
    simp only [Out.pure_eq, Out.ok.injEq] at ht e4
    subst ht
    subst e4
    exact ⟨v, r, r, rmax, rmax, times_succ_ok.mpr ⟨v, e1, rfl⟩, hit.1, e3, e3, rfl⟩
  | succ j ih =>
    rw [times_succ_right, Out.bind_eq_ok] at ht
    obtain ⟨t', e0, ht⟩ := ht
    obtain ⟨t1, r', r0, rmax', rmax0, i1, i2, i3, i4, i5⟩ := ih (by omega) e0 (times_iteration e0 (by simp [Conv.new]; omega))
    unfold pass at ht
    rw [Out.bind_eq_ok] at ht
    obtain ⟨v, e1, ht⟩ := ht
    rw [Out.bind_eq_ok] at ht
    obtain ⟨d, e2, ht⟩ := ht
    unfold update at e2
    rw [Out.bind_eq_ok] at e2
    obtain ⟨⟨r, rmax⟩, e3, e4⟩ := e2
    simp only [Out.pure_eq, Out.ok.injEq] at ht e4
    subst ht
    have hw : wrap (j + 1 + 1) = j + 1 + 1 := by
      unfold wrap
      unfold sizeMax at hj
      exact Nat.mod_eq_of_lt (by omega)
    refine ⟨t1, r, r0, rmax, rmax0, i1, hit.1, i3, e3, ?_⟩
    rw [← e4, i5]
    simp [hw]

/-- Ratios of doubles that are below the tolerance. -/
theorem ratio_below {p q t c : ℚ} (hp : 0 ≤ p) (hq : 0 < q) (h : p ≤ t * q) (ht : t ≤ 2 ^ 900) (hc : t * (1 + 1 / 2 ^ 53) + 1 / 2 ^ 1075 ≤ c) :
    (floats binary64 root64).above ((floats binary64 root64).ratio (fin p) (fin q)) (fin c) = false := by
  have h1 : p / q ≤ t := by rw [div_le_iff₀ hq]; exact h
  have h0 : 0 ≤ p / q := div_nonneg hp hq.le
  obtain ⟨r, hr⟩ := in_range (p / q) (by
    rw [abs_of_nonneg h0]
    exact h1.trans (ht.trans (by decide +kernel)))
  have h2 := (abs_le.mp (rounds_binary64.error _ _ hr)).2
  rw [abs_of_nonneg h0] at h2
  have h3 : (1 / 2 ^ 53 : ℚ) * (p / q) ≤ 1 / 2 ^ 53 * t := mul_le_mul_of_nonneg_left h1 (by positivity)
  have h4 : r ≤ c := by
    generalize (1 / 2 ^ 1075 : ℚ) = w at *
    linarith only [h1, h2, h3, hc]
  have h5 : (floats binary64 root64).ratio (fin p) (fin q) = fin r := by
    show Fl.div binary64 (.fin p) (.fin q) = _
    simp only [Fl.div, hq.ne', if_false]
    exact hr
  rw [h5]
  show decide (c < r) = false
  simpa using h4

/-- C216: a solve that makes more than `J` iterations, though the solution was close to the exact one after `J` of them, began with a
small residual. -/
theorem c216_stops (k : Method) (s s' : FixedPoint (Num binary64)) {n : Nat} (hn0 : 0 < n) (hn : n < 2 ^ 31) (m : Sparse (Num binary64))
    (A : Fin n → Fin n → ℚ) (hm : Square m fun i j => (fin (A i j) : Num binary64)) {R X e e1 : ℚ} (hR : ∀ i, ∑ j, |A i j| ≤ R)
    (hT : R * (X + e) ≤ 2 ^ 450) (hT1 : R * (X + e1) ≤ 2 ^ 450) (b sol : Fin n → ℚ) (hsol : Solves A sol b) (hX : ∀ j, |sol j| ≤ X)
    (x : List (Num binary64)) {J : Nat} (hJ : 0 < J) (hJs : s.limits.minIterations ≤ J) (y1 y : Fin n → ℚ) (w1 w : List (Num binary64))
    (h1 : times (step (floats binary64 root64) k s m (vec fun i => fin (b i))) 1 (x, startWorking k s m) =
      .ok (vec fun i => fin (y1 i), w1)) (hy1 : ∀ j, |y1 j - sol j| ≤ e1)
    (h : times (step (floats binary64 root64) k s m (vec fun i => fin (b i))) J (x, startWorking k s m) =
      .ok (vec fun i => fin (y i), w)) (hy : ∀ j, |y j - sol j| ≤ e)
    {tol : ℚ} (htol : s.limits.tolerance = fin tol) (htol0 : 1 / 2 ^ 500 ≤ tol) (htol1 : tol ≤ 1) (fuel : Nat) (hf : fuel ≤ sizeMax)
    (x' : List (Num binary64)) (d : Conv (Num binary64) (Num binary64))
    (hs : solveSystem (floats binary64 root64) k s m x (vec fun i => fin (b i)) fuel = .ok (x', d, s')) (hd : J < d.iteration) :
    ∃ r0, d.residual0 = fin r0 ∧ tol * r0 < 4 * residualBound n R X e := by
  obtain ⟨j, f1, f2, f3, f4⟩ := iterate_ok (solveSystem_ok hs)
  have f5 := (times_iteration f2 (by simp [Conv.new]; omega)).2
  simp only [Conv.new, Nat.zero_add] at f5
  obtain ⟨i, rfl⟩ : ∃ i, J = i + 1 := ⟨J - 1, by omega⟩
  obtain ⟨t, g1, -⟩ := times_prefix (i := i + 1) (j := j - (i + 1)) (by rw [show i + 1 + (j - (i + 1)) = j by omega]; exact f2)
  have g2 := f4 _ (by omega) t g1
  obtain ⟨t1, r, r0, rmax, rmax0, p1, p2, p3, p4, p5⟩ := pass_data (by omega) g1
  obtain ⟨l, hl⟩ : ∃ l, j = l + 1 := ⟨j - 1, by omega⟩
  rw [hl] at f2
  obtain ⟨t1', r', r0', rmax', rmax0', q1, q2, q3, q4, q5⟩ := pass_data (by omega) f2
  rw [h1, Out.ok.injEq] at p1 q1
  subst p1
  subst q1
  rw [p3, Out.ok.injEq, Prod.mk.injEq] at q3
  obtain ⟨rfl, rfl⟩ := q3
  rw [h, Out.ok.injEq] at p2
  rw [← p2] at p4
  obtain ⟨v0, vmax0, a1, a2, a3, a4, a5, a6⟩ := c216_residual hn0 hn m A hm hR hT1 b sol y1 hsol hX hy1
  obtain ⟨v, vmax, b1, b2, b3, b4, b5, b6⟩ := c216_residual hn0 hn m A hm hR hT b sol y hsol hX hy
  rw [a1, Out.ok.injEq, Prod.mk.injEq] at p3
  rw [b1, Out.ok.injEq, Prod.mk.injEq] at p4
  obtain ⟨rfl, rfl⟩ := p3
  obtain ⟨rfl, rfl⟩ := p4
  have hd0 : d.residual0 = fin v0 := by
    have : d = ((x', s'.working), d).2 := rfl
    rw [this, q5]
  refine ⟨v0, hd0, ?_⟩
  by_contra hc
  rw [not_lt] at hc
  have hconv : isConverged (floats binary64 root64) s.limits t.2 = true := by
    rw [isConverged_iff, p5, htol]
    refine ⟨hJs, Or.inr ?_⟩
    obtain ⟨z, hz⟩ : ∃ z : ℚ, z = 1 / 2 ^ 500 := ⟨_, rfl⟩
    have hz0 : 0 < z := by rw [hz]; positivity
    have hzG : z ≤ residualBound n R X e := by
      unfold residualBound
      have hX0 : 0 ≤ X := (abs_nonneg _).trans (hX ⟨0, hn0⟩)
      have he0 : 0 ≤ e := (abs_nonneg _).trans (hy ⟨0, hn0⟩)
      have hR0 : 0 ≤ R := le_trans (Finset.sum_nonneg fun j _ => abs_nonneg _) (hR ⟨0, hn0⟩)
      have : 0 ≤ R * e + (n + 2) / 2 ^ 51 * (R * (X + e)) := by positivity
      rw [← hz]
      linarith only [this]
    obtain ⟨G, hG⟩ : ∃ G, G = residualBound n R X e := ⟨_, rfl⟩
    rw [← hz] at a6 htol0
    rw [← hG] at hzG hc b4 b5
    have htp : 0 < tol := hz0.trans_le htol0
    have hv0 : 4 * G ≤ v0 := hc.trans (mul_le_of_le_one_left a2 htol1)
    have hv0' : 0 < v0 := by linarith only [hv0, hzG, hz0]
    have hw0 : 3 / 8 * v0 ≤ vmax0 := by linarith only [a6, hv0, hzG]
    have hw0' : 0 < vmax0 := by linarith only [hw0, hv0']
    have c1 : (1 / 2 ^ 1075 : ℚ) ≤ 1 / 8 * z := by rw [hz]; decide +kernel
    have c2 : (1 : ℚ) ≤ 2 ^ 899 := one_le_pow₀ (by norm_num)
    have c3 : (2 ^ 900 : ℚ) = 2 * 2 ^ 899 := by rw [pow_succ 2 899, mul_comm]
    generalize hK : (2 ^ 899 : ℚ) = K at c2 c3
    constructor
    · refine ratio_below b2 hv0' (t := tol / 2) (by linarith only [b4, hc]) ?_ ?_
      · rw [c3]
        linarith only [c2, htol1]
      · generalize (1 / 2 ^ 1075 : ℚ) = w at *
        linarith only [c1, htol0, htp]
    · have e1 : (10 : ℚ) * tol ≤ 10 := by linarith only [htol1]
      obtain ⟨t10, ht10⟩ := in_range (10 * tol) (by
        rw [abs_of_nonneg (by positivity)]
        exact e1.trans (by decide +kernel))
      have e2 := (abs_le.mp (rounds_binary64.error _ _ ht10)).1
      rw [abs_of_nonneg (by positivity)] at e2
      have e3 : (floats binary64 root64).ten * (fin tol : Num binary64) = fin t10 := ht10
      rw [e3]
      refine ratio_below b3 hw0' (t := 4 / 3 * tol) ?_ ?_ ?_
      · have e4 := mul_le_mul_of_nonneg_left hw0 htp.le
        linarith only [b5, hc, e4]
      · rw [c3]
        linarith only [c2, htol1]
      · generalize (1 / 2 ^ 1075 : ℚ) = w at *
        linarith only [c1, htol0, htp, e2]
  rw [hconv] at g2
  cases g2

/-- C216: systems dominant by rows, with all methods; `q`, `c`, `X`, `E` and `G` are those of C195. -/
theorem c216_dominant (k : Method) (s s' : FixedPoint (Num binary64)) {n : Nat} (hn0 : 0 < n) (hn : n < 2 ^ 31)
    (m : Sparse (Num binary64)) (a : Fin n → Fin n → ℚ) (hm : Square m fun i j => (fin (a i j) : Num binary64)) {q c R X E G : ℚ}
    (hq : ∀ i, (∑ j, if j = i then 0 else |a i j|) ≤ q * |a i i|) (hd : ∀ i, a i i ≠ 0) (hc : ∀ i, 1 / |a i i| ≤ c)
    (hR : ∀ i, ∑ j, |a i j| ≤ R) (hT : R * (X + E + G) ≤ 2 ^ 450)
    (b sol : Fin n → ℚ) (hsol : Solves a sol b) (hX : ∀ j, |sol j| ≤ X) (x : Fin n → ℚ) (hx : ∀ j, |x j - sol j| ≤ E)
    (hρ : relaxRatio (1 / 2 ^ 53) (1 / 2 ^ 1075) n (factor ℚ k) q < 1)
    (hG : G = relaxOffset (1 / 2 ^ 53) (1 / 2 ^ 1075) n (factor ℚ k) q c X /
      (1 - relaxRatio (1 / 2 ^ 53) (1 / 2 ^ 1075) n (factor ℚ k) q))
    (hM : ∀ i, relaxRange (1 / 2 ^ 53) (1 / 2 ^ 1075) n (factor ℚ k) (a i i) (|b i| + q * |a i i| * (X + E + G)) (X + E + G) ≤ 2 ^ 1000)
    {J : Nat} (hJ : 0 < J) (hJs : s.limits.minIterations ≤ J)
    {tol : ℚ} (htol : s.limits.tolerance = fin tol) (htol0 : 1 / 2 ^ 500 ≤ tol) (htol1 : tol ≤ 1) (fuel : Nat) (hf : fuel ≤ sizeMax)
    (x' : List (Num binary64)) (d : Conv (Num binary64) (Num binary64))
    (hs : solveSystem (floats binary64 root64) k s m (vec fun i => fin (x i)) (vec fun i => fin (b i)) fuel = .ok (x', d, s'))
    (hit : J < d.iteration) :
    ∃ r0, d.residual0 = fin r0 ∧
      tol * r0 < 4 * residualBound n R X (relaxRatio (1 / 2 ^ 53) (1 / 2 ^ 1075) n (factor ℚ k) q ^ J * E + G) := by
  have hw : k = .jacobi → (startWorking k s m).length = n := fun hk => by
    rw [startWorking_length _ _ _ hk]
    exact hm.2.1
  have hj := c195_dominant rounds_binary64 in_range root64 k s m a hm hq hd hc b sol hsol hX x hx hρ hG hM (startWorking k s m) hw
  obtain ⟨y1, w1, e1, e2⟩ := hj 1
  obtain ⟨y, w, e3, e4⟩ := hj J
  have hd0 : 0 < |a ⟨0, hn0⟩ ⟨0, hn0⟩| := abs_pos.mpr (hd _)
  have hq0 : 0 ≤ q := by
    have : 0 ≤ q * |a ⟨0, hn0⟩ ⟨0, hn0⟩| := le_trans (Finset.sum_nonneg fun j _ => by
      split
      · exact le_refl _
      · exact abs_nonneg _) (hq _)
    exact nonneg_of_mul_nonneg_left this hd0
  have hE0 : 0 ≤ E := (abs_nonneg _).trans (hx ⟨0, hn0⟩)
  have hR0 : 0 ≤ R := le_trans (Finset.sum_nonneg fun j _ => abs_nonneg _) (hR ⟨0, hn0⟩)
  have hρ0 : 0 ≤ relaxRatio (1 / 2 ^ 53) (1 / 2 ^ 1075) n (factor ℚ k) q := by unfold relaxRatio; positivity
  have hle : ∀ i, R * (X + (relaxRatio (1 / 2 ^ 53) (1 / 2 ^ 1075) n (factor ℚ k) q ^ i * E + G)) ≤ 2 ^ 450 := fun i => by
    have g1 := mul_le_of_le_one_left hE0 (pow_le_one₀ (n := i) hρ0 hρ.le)
    exact (mul_le_mul_of_nonneg_left (by linarith only [g1]) hR0).trans hT
  exact c216_stops k s s' hn0 hn m a hm hR (hle J) (hle 1) b sol hsol hX _ hJ hJs y1 y w1 w e1 e2 e3 e4 htol htol0 htol1 fuel hf x' d hs
    hit

/-- The numbers of symmetric positive definite systems are small enough. -/
theorem definite_ranges {n : Nat} (hn : 0 < n) {A : Fin n → Fin n → ℚ} {l a X S : ℚ} (hl : 1 / 2 ^ 200 ≤ l) (ha' : a ≤ 2 ^ 200)
    (hco : ∀ v : Fin n → ℚ, l * ∑ i, v i ^ 2 ≤ ∑ i, ∑ j, v i * A i j * v j) (hsym : ∀ i j, A i j = A j i)
    (ha : ∀ i, A i i ≤ a) (hsize : (n : ℚ) ^ 7 * (a / l) ^ 4 ≤ 2 ^ 85) (hX0 : 0 ≤ X) (hX' : X ≤ 2 ^ 150) (hS0 : 0 ≤ S)
    (hS : S ≤ 2 ^ 150) :
    n < 2 ^ 31 ∧ (∀ i, ∑ j, |A i j| ≤ n * a) ∧ (∀ e : ℚ, 0 ≤ e → e ≤ 2 ^ 200 → n * a * (X + e) ≤ 2 ^ 450) ∧
      ∀ d : ℚ, d ^ 2 ≤ (1 - l / (24 * n ^ 2 * a)) ^ 1 * (n ^ 2 * (a / l) * S ^ 2) + n ^ 7 * (a / l) ^ 4 / 2 ^ 85 * (X + 1 / 2 ^ 800) ^ 2 →
        |d| ≤ 2 ^ 200 := by
  have hl0 : 0 < l := lt_of_lt_of_le (by positivity) hl
  have hdef : Definiteness A l := hco
  have hent := hdef.entry hl0 hsym ha
  have hla : l ≤ a := (hdef.diag ⟨0, hn⟩).trans (ha _)
  have ha0 : 0 < a := hl0.trans_le hla
  have hn1 : (1 : ℚ) ≤ n := by exact_mod_cast hn
  have hκ1 : 1 ≤ a / l := by rw [le_div_iff₀ hl0]; linarith only [hla]
  have hn13 : (n : ℚ) ≤ 2 ^ 13 := by
    have e1 : (n : ℚ) ^ 7 ≤ 2 ^ 85 := (le_mul_of_one_le_right (by positivity) (one_le_pow₀ hκ1)).trans hsize
    have e2 : (n : ℚ) ^ 7 < (2 ^ 13) ^ 7 := e1.trans_lt (by norm_num)
    exact (lt_of_pow_lt_pow_left₀ 7 (by norm_num) e2).le
  have hn31 : n < 2 ^ 31 := by
    have : n ≤ 2 ^ 13 := by exact_mod_cast hn13
    omega
  have hR : ∀ i, ∑ j, |A i j| ≤ n * a := fun i => by
    refine (Finset.sum_le_card_nsmul _ _ a fun j _ => hent i j).trans (le_of_eq ?_)
    rw [Finset.card_univ, Fintype.card_fin, nsmul_eq_mul]
  have hT : ∀ e : ℚ, 0 ≤ e → e ≤ 2 ^ 200 → n * a * (X + e) ≤ 2 ^ 450 := fun e h0 h1 => by
    have g1 : (n : ℚ) * a ≤ 2 ^ 13 * 2 ^ 200 := mul_le_mul hn13 ha' ha0.le (by positivity)
    have g2 : X + e ≤ 2 ^ 150 + 2 ^ 200 := add_le_add hX' h1
    exact (mul_le_mul g1 g2 (by positivity) (by positivity)).trans (by decide +kernel)
  refine ⟨hn31, hR, hT, fun d hd => ?_⟩
  refine abs_le_of_sq_le_sq (hd.trans ?_) (by positivity)
  have g1 : 1 - l / (24 * n ^ 2 * a) ≤ 1 := sub_le_self _ (by positivity)
  have g2 : (n : ℚ) ^ 2 * (a / l) ≤ 2 ^ 85 := by
    refine le_trans (mul_le_mul (pow_le_pow_right₀ hn1 (by norm_num)) ?_ (by positivity) (by positivity)) hsize
    exact le_self_pow₀ hκ1 (by norm_num)
  have g3 : S ^ 2 ≤ (2 ^ 150) ^ 2 := pow_le_pow_left₀ hS0 hS 2
  have g4 : (n : ℚ) ^ 2 * (a / l) * S ^ 2 ≤ 2 ^ 85 * (2 ^ 150) ^ 2 := mul_le_mul g2 g3 (by positivity) (by positivity)
  have g5 : (1 - l / (24 * n ^ 2 * a)) ^ 1 * (n ^ 2 * (a / l) * S ^ 2) ≤ 2 ^ 85 * (2 ^ 150) ^ 2 := by
    rw [pow_one]
    exact (mul_le_of_le_one_left (by positivity) g1).trans g4
  have g6 : (n : ℚ) ^ 7 * (a / l) ^ 4 / 2 ^ 85 ≤ 1 := by rw [div_le_one (by positivity)]; exact hsize
  have g7 : (X + 1 / 2 ^ 800) ^ 2 ≤ (2 ^ 151 : ℚ) ^ 2 := by
    refine pow_le_pow_left₀ (by positivity) ?_ 2
    exact (add_le_add_left hX' _).trans (by decide +kernel)
  have g8 := mul_le_mul g6 g7 (by positivity) (by norm_num)
  exact (add_le_add g5 g8).trans (by decide +kernel)

/-- C216: symmetric positive definite systems, with the Gauss Seidel method and SOR; `l`, `a`, `X` and `S` are those of C214. -/
theorem c216_definite (k : Method) (hk : k ≠ .jacobi) (s s' : FixedPoint (Num binary64)) {n : Nat} (hn : 0 < n)
    (m : Sparse (Num binary64)) (A : Fin n → Fin n → ℚ) (hm : Square m fun i j => (fin (A i j) : Num binary64)) {l a X S e : ℚ}
    (hl : 1 / 2 ^ 200 ≤ l) (ha' : a ≤ 2 ^ 200)
    (hco : ∀ v : Fin n → ℚ, l * ∑ i, v i ^ 2 ≤ ∑ i, ∑ j, v i * A i j * v j) (hsym : ∀ i j, A i j = A j i)
    (ha : ∀ i, A i i ≤ a) (hsize : (n : ℚ) ^ 7 * (a / l) ^ 4 ≤ 2 ^ 85) (b sol : Fin n → ℚ) (hsol : Solves A sol b)
    (hX : ∀ j, |sol j| ≤ X) (hX' : X ≤ 2 ^ 150) (x : Fin n → ℚ) (hx : ∀ j, |x j - sol j| ≤ S) (hS : S ≤ 2 ^ 150)
    {J : Nat} (hJ : 0 < J) (hJs : s.limits.minIterations ≤ J) (he0 : 0 ≤ e) (he1 : e ≤ 2 ^ 200)
    (he : (1 - l / (24 * n ^ 2 * a)) ^ J * (n ^ 2 * (a / l) * S ^ 2) + n ^ 7 * (a / l) ^ 4 / 2 ^ 85 * (X + 1 / 2 ^ 800) ^ 2 ≤ e ^ 2)
    {tol : ℚ} (htol : s.limits.tolerance = fin tol) (htol0 : 1 / 2 ^ 500 ≤ tol) (htol1 : tol ≤ 1) (fuel : Nat) (hf : fuel ≤ sizeMax)
    (x' : List (Num binary64)) (d : Conv (Num binary64) (Num binary64))
    (hs : solveSystem (floats binary64 root64) k s m (vec fun i => fin (x i)) (vec fun i => fin (b i)) fuel = .ok (x', d, s'))
    (hit : J < d.iteration) :
    ∃ r0, d.residual0 = fin r0 ∧ tol * r0 < 4 * residualBound n (n * a) X e := by
  have hj := c214_definite root64 k hk s hn m A hm hl ha' hco hsym ha hsize b sol hsol hX hX' x hx hS (startWorking k s m)
  obtain ⟨hn31, hR, hT, hd1⟩ := definite_ranges hn hl ha' hco hsym ha hsize ((abs_nonneg _).trans (hX ⟨0, hn⟩)) hX'
    ((abs_nonneg _).trans (hx ⟨0, hn⟩)) hS
  obtain ⟨y1, w1, e1, e2⟩ := hj 1
  obtain ⟨y, w, e3, e4⟩ := hj J
  have hy : ∀ j, |y j - sol j| ≤ e := fun j => abs_le_of_sq_le_sq ((e4 j).trans he) he0
  exact c216_stops k s s' hn hn31 m A hm hR (hT e he0 he1) (hT _ (by positivity) le_rfl) b sol hsol hX _ hJ hJs y1 y w1 w e1
    (fun j => hd1 _ (e2 j)) e3 hy
    htol htol0 htol1 fuel hf x' d hs hit

/-- The hypotheses hold: SOR with a tolerance of `2⁻²⁰` and a limit of a million iterations solves a system with two unknowns in no more
than 400 of them, unless its first residual was already below `2⁻²⁰`. -/
example (x' : List (Num binary64)) (d : Conv (Num binary64) (Num binary64)) (s' : FixedPoint (Num binary64))
    (h : solveSystem (floats binary64 root64) .sor ⟨⟨0, 1000000, fin (1 / 2 ^ 20)⟩, [], fin 1⟩
      (dense2 (fin 4) (fin 1) (fin (-1)) (fin 5)) (vec fun _ : Fin 2 => fin 0) (vec fun _ : Fin 2 => fin 1) 1000001 = .ok (x', d, s')) :
    d.iteration ≤ 400 ∨ ∃ r0, d.residual0 = fin r0 ∧ r0 < 1 / 2 ^ 20 := by
  have hm : Square (dense2 (fin 4) (fin 1) (fin (-1)) (fin 5) : Sparse (Num binary64))
      fun i j => fin ((![![4, 1], ![-1, 5]] : Fin 2 → Fin 2 → ℚ) i j) := by
    refine ⟨Built.ofLists (nz := [0, 2, 4]) (ix := [0, 1, 0, 1]) (vs := [fin 4, fin 1, fin (-1), fin 5]) (c := 2)
      (by simp [sizeMax]) (by simp [sizeMax]) (dense2_lists _ _ _ _), rfl, rfl, ?_⟩
    intro i j
    fin_cases i <;> fin_cases j <;> rfl
  have hρ : relaxRatio (1 / 2 ^ 53) (1 / 2 ^ 1075) 2 (factor ℚ .sor) (1 / 4) < 9 / 10 := by decide +kernel
  have hρ0 : 0 ≤ relaxRatio (1 / 2 ^ 53) (1 / 2 ^ 1075) 2 (factor ℚ .sor) (1 / 4) := by decide +kernel
  have hG : relaxOffset (1 / 2 ^ 53) (1 / 2 ^ 1075) 2 (factor ℚ .sor) (1 / 4) (1 / 4) (5 / 21) /
      (1 - relaxRatio (1 / 2 ^ 53) (1 / 2 ^ 1075) 2 (factor ℚ .sor) (1 / 4)) ≤ 1 / 2 ^ 47 := by decide +kernel
  rcases Nat.lt_or_ge 400 d.iteration with hit | hit
  · obtain ⟨r0, e1, e2⟩ := c216_dominant .sor _ s' (by norm_num) (by norm_num) _ _ hm (q := 1 / 4) (c := 1 / 4) (R := 6)
      (X := 5 / 21) (E := 5 / 21) (by decide +kernel) (by decide +kernel) (by decide +kernel) (by decide +kernel) (by decide +kernel)
      (fun _ => 1) ![4 / 21, 5 / 21] (by unfold Solves; decide +kernel) (by decide +kernel) (fun _ => 0) (by decide +kernel)
      (hρ.trans (by norm_num)) rfl (by decide +kernel) (J := 400) (by norm_num) (by simp) (tol := 1 / 2 ^ 20) rfl (by decide +kernel)
      (by norm_num) 1000001 (by simp [sizeMax]) x' d h hit
    refine Or.inr ⟨r0, e1, ?_⟩
    have g1 : (9 / 10 : ℚ) ^ 400 * (5 / 21) ≤ 1 / 2 ^ 47 := by decide +kernel
    have g4 := mul_le_mul_of_nonneg_right (pow_le_pow_left₀ hρ0 hρ.le 400) (show (0 : ℚ) ≤ 5 / 21 by norm_num)
    have g5 := add_le_add (g4.trans g1) hG
    unfold residualBound at e2
    have g6 : (1 / 2 ^ 500 : ℚ) ≤ 1 / 2 ^ 60 := by decide +kernel
    push_cast at e2
    generalize relaxRatio (1 / 2 ^ 53) (1 / 2 ^ 1075) 2 (factor ℚ .sor) (1 / 4) ^ 400 * (5 / 21) +
      relaxOffset (1 / 2 ^ 53) (1 / 2 ^ 1075) 2 (factor ℚ .sor) (1 / 4) (1 / 4) (5 / 21) /
      (1 - relaxRatio (1 / 2 ^ 53) (1 / 2 ^ 1075) 2 (factor ℚ .sor) (1 / 4)) = e at *
    generalize (1 / 2 ^ 500 : ℚ) = z at *
    norm_num at *
    linarith
  · exact Or.inl hit

end Disa.Props
