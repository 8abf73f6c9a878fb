import Verif.Props.SolveStop
import Verif.Props.SolveFinite
import Verif.Props.ResidualFused
import Verif.Props.RelaxFused

/-!
# Property C221: iterative solves with fused operations return, and stop at the tolerance
-/

namespace Disa.Props

open Disa Spec Dense Num Sparse Iterative

variable {rnd : ℚ → Fl} {fuse : Hist → Hist → Hist → Bool} {u η : ℚ}

/-- C221: solves of systems dominant by rows return a finite solution with the errors of C220, whichever products are fused. -/
theorem c221_returns (h : Rounds rnd u η) {M : ℚ} (hM : Range rnd M) (sqrt : Fused rnd fuse → Fused rnd fuse) (k : Method)
    (s : FixedPoint (Fused rnd fuse)) {n : Nat} (hn0 : 0 < n) (hn : n < 2 ^ 31) (m : Sparse (Fused rnd fuse))
    (A : Fin n → Fin n → Fused rnd fuse) (hm : Square m A) (a : Fin n → Fin n → ℚ) (hA : ∀ i j, (A i j).get = .fin (a i j))
    {q c X E G : ℚ} (hq : ∀ i, (∑ j, if j = i then 0 else |a i j|) ≤ q * |a i i|) (hd : ∀ i, a i i ≠ 0) (hc : ∀ i, 1 / |a i i| ≤ c)
    (B : Fin n → Fused rnd fuse) (b sol : Fin n → ℚ) (hB : ∀ i, (B i).get = .fin (b i)) (hsol : Solves a sol b)
    (hX : ∀ j, |sol j| ≤ X) (Y : Fin n → Fused rnd fuse) (x : Fin n → ℚ) (hY : ∀ i, (Y i).get = .fin (x i))
    (hx : ∀ j, |x j - sol j| ≤ E) (hρ : relaxRatio u η n (factor ℚ k) q < 1)
    (hG : G = relaxOffset u η n (factor ℚ k) q c X / (1 - relaxRatio u η n (factor ℚ k) q))
    (hR : ∀ i, relaxRange u η n (factor ℚ k) (a i i) (|b i| + q * |a i i| * (X + E + G)) (X + E + G) ≤ M)
    (hmin : s.limits.minIterations ≤ sizeMax) (hmax : s.limits.maxIteration < sizeMax) (fuel : Nat)
    (hf : max s.limits.minIterations (s.limits.maxIteration + 1) ≤ fuel) :
    ∃ (Z : Fin n → Fused rnd fuse) (z : Fin n → ℚ) (d : Conv (Fused rnd fuse) (Fused rnd fuse)) (s' : FixedPoint (Fused rnd fuse)),
      solveSystem (fusedFloats rnd fuse sqrt) k s m (vec Y) (vec B) fuel = .ok (vec Z, d, s') ∧ (∀ i, (Z i).get = .fin (z i)) ∧
      s.limits.minIterations ≤ d.iteration ∧ d.iteration ≤ max s.limits.minIterations (s.limits.maxIteration + 1) ∧
      ∀ i, |z i - sol i| ≤ relaxRatio u η n (factor ℚ k) q ^ d.iteration * E + G := by
  have hrow := hm.2.1
  have hw : k = .jacobi → (startWorking k s m).length = n := fun hk => by
    rw [startWorking_length _ _ _ hk]
    exact hrow
  have hj := c220_dominant h hM sqrt k s m A hm a hA hq hd hc B b sol hB hsol hX Y x hY hx hρ hG hR (startWorking k s m) hw
  obtain ⟨L, h1, h2, h3, h4, h5⟩ := square_rep hm
  obtain ⟨x', d, s', e⟩ := solve_runs (fusedFloats rnd fuse sqrt) k s h1 h3 h4 hm.2.2.1 hn0 (by unfold intMax; omega) _ _ hmin hmax
    fuel hf (fun j => by
      obtain ⟨Z, z, w', e, -⟩ := hj j
      exact ⟨_, _, e⟩)
  obtain ⟨g1, g2, g3⟩ := (c46_stops_partial k s m _ _ hmin hmax fuel hf).2 _ _ _ e
  obtain ⟨Z, z, w', e1, e2, e3⟩ := hj d.iteration
  rw [g3, Out.ok.injEq, Prod.mk.injEq] at e1
  obtain ⟨rfl, -⟩ := e1
  exact ⟨Z, z, d, s', e, e2, g1, g2, e3⟩

/-- The residuals of the rows are finite. -/
theorem rowDefect_fused_finite {n : Nat} (hn : n < 2 ^ 31) {L : Rows (Fused binary64 fuse)} {a : Fin n → Fin n → ℚ} (hs : Sorted L)
    (hb : Bounded n L) (hA : ∀ i j : Fin n, ((entry L i j).getD 0).get = .fin (a i j)) (X B : Fin n → Fused binary64 fuse)
    (x b : Fin n → ℚ) (hX : ∀ j, (X j).get = .fin (x j)) (hB : ∀ j, (B j).get = .fin (b j)) (hst : ∀ j, (B j).Stored) (i : Fin n)
    (hR : |b i| + ∑ j, |a i j * x j| ≤ 2 ^ 460) : (rowDefect L X B i).IsFin := by
  obtain ⟨t, ht, hf, hsum, habs, hfin⟩ := row_all_fused hs hb hA X x hX i
  obtain ⟨S, hS⟩ : ∃ S, S = ∑ j, |a i j * x j| := ⟨_, rfl⟩
  have hS0 : 0 ≤ S := by rw [hS]; exact Finset.sum_nonneg fun j _ => abs_nonneg _
  have hb0 := abs_nonneg (b i)
  rw [← hS] at hR habs
  have hp := productError64 (n := t.length) (by omega) hS0
  have ht' : ((t.length : ℕ) : ℚ) ≤ 2 ^ 31 := by exact_mod_cast (by omega : t.length ≤ 2 ^ 31)
  have hk : ((t.length : ℕ) + 1 : ℚ) / 2 ^ 52 * S ≤ 1 * S := mul_le_mul_of_nonneg_right (by
    rw [div_le_one (by positivity)]; linarith) hS0
  have c1 : (1 / 2 ^ 1000 : ℚ) ≤ 1 := by decide +kernel
  have c2 : (4 * 2 ^ 460 + 4 : ℚ) ≤ 2 ^ 1000 := by decide +kernel
  obtain ⟨ε, hε⟩ : ∃ ε : ℚ, ε = 1 / 2 ^ 1000 := ⟨_, rfl⟩
  rw [← hε] at hp c1
  clear hε
  have hM := in_range
  generalize (2 ^ 460 : ℚ) = P at *
  generalize (2 ^ 1000 : ℚ) = C at *
  have hv := sum_fused_finite rounds_binary64 hM t hfin (by rw [habs]; linarith only [hp, hk, c1, c2, hR, hb0, hS0])
  obtain ⟨-, e2⟩ := sum_fused rounds_binary64 t hv
  rw [hsum, habs] at e2
  unfold rowDefect
  rw [hf]
  obtain ⟨v, hv'⟩ : ∃ v, v = (t.foldl (fun (s : Fused binary64 fuse) p => s + p.1 * p.2) 0).val := ⟨_, rfl⟩
  rw [← hv'] at e2
  have hV : |∑ j, a i j * x j| ≤ S := by rw [hS]; exact Finset.abs_sum_le_sum_abs _ _
  have hv2 : |v - b i| ≤ C := by
    have e3 := abs_sub v (b i)
    have e4 := abs_add_le (∑ j, a i j * x j) (v - ∑ j, a i j * x j)
    rw [add_sub_cancel] at e4
    linarith only [e3, e4, e2, hp, hk, c1, c2, hR, hb0, hS0, hV]
  obtain ⟨r, hr⟩ := hM _ hv2
  refine (Fused.isFin_of (q := r) ?_).1
  show Fl.sub binary64 _ ((B i).operand _) = _
  rw [hst i, hB i, hv, ← hv', ← hr]
  simp only [Fl.sub, Fl.add, Fl.neg, ← sub_eq_add_neg]

/-- Sums of squares are not negative. -/
theorem squares_fused_nonneg {n : Nat} (p : Fin n → Fused binary64 fuse) (l : List (Fin n)) : ∀ z : Fused binary64 fuse, 0 ≤ z.val →
    (l.foldl (fun s i => s + p i * p i) z).IsFin → 0 ≤ (l.foldl (fun s i => s + p i * p i) z).val := by
  induction l using List.reverseRecOn with
  | nil => exact fun z hz _ => hz
  | append_singleton l e ih =>
    intro z hz hf
    rw [List.foldl_append, List.foldl_cons, List.foldl_nil] at hf ⊢
    have hf' : Fl.add binary64 _ ((p e * p e).operand _) = _ := hf
    obtain ⟨x, y, h1, h2, h3⟩ := Num.add_fin (rnd := binary64) hf'
    obtain ⟨f1, v1⟩ := Fused.isFin_of h1
    have hx := ih z hz f1
    rw [v1] at hx
    have h2' : Fl.mul (if fuse _ (p e).hist (p e).hist then .fin else binary64) (p e).get (p e).get = .fin y := h2
    obtain ⟨x', y', h4, h5, h6⟩ := Num.mul_fin (rnd := if fuse _ (p e).hist (p e).hist then .fin else binary64) h2'
    rw [h4] at h5
    obtain rfl := Fl.fin.inj h5
    have hy : 0 ≤ y := by
      split at h6
      · obtain rfl := Fl.fin.inj h6
        exact mul_self_nonneg _
      · exact binary64_nonneg (mul_self_nonneg _) h6
    exact binary64_nonneg (add_nonneg hx hy) h3

/-- Both norms are finite. -/
theorem residual_fused_finite {root : Fused binary64 fuse → Fused binary64 fuse} (hroot : ∀ x, (root x).get = root64 x.get) {n : Nat}
    (hn0 : 0 < n) (hn : n < 2 ^ 31) {m : Sparse (Fused binary64 fuse)} {L : Rows (Fused binary64 fuse)} (h1 : m.Rep L)
    (h3 : Bounded n L) (h4 : L.length = n) (hc : m.colSize = n) (x b : Fin n → Fused binary64 fuse) (d : Fin n → ℚ)
    (hd : ∀ i, (rowDefect L x b i).get = .fin (d i)) (hR : ∀ i, |d i| ≤ 2 ^ 461) :
    ∃ (r rmax : Fused binary64 fuse) (r2 rmax2 : ℚ), computeResidual (fusedFloats binary64 fuse root) m (vec x) (vec b) = .ok (r, rmax) ∧
      r.get = .fin r2 ∧ rmax.get = .fin rmax2 ∧ 0 ≤ r2 ∧ 0 ≤ rmax2 := by
  rw [residual_gen (fusedFloats binary64 fuse root) h1 h3 h4 hc _ _ hn0 (by unfold intMax; omega)]
  obtain ⟨p, hp⟩ : ∃ p, p = rowDefect L x b := ⟨_, rfl⟩
  have e1 := fold_both (fusedFloats binary64 fuse root).lt (fun i => p i * p i) (List.finRange n) (0, 0)
  unfold residualFold
  rw [← hp] at hd ⊢
  rw [e1.1, e1.2]
  have hpf : ∀ i, (p i).IsFin := fun i => (Fused.isFin_of (hd i)).1
  have hpv : ∀ i, (p i).val = d i := fun i => (Fused.isFin_of (hd i)).2
  have hn' : (0 : ℚ) < n := by exact_mod_cast hn0
  have hn31 : (n : ℚ) ≤ 2 ^ 31 := by exact_mod_cast hn.le
  obtain ⟨C, hC⟩ : ∃ C : ℚ, C = 2 ^ 1000 := ⟨_, rfl⟩
  obtain ⟨B, hB⟩ : ∃ B : ℚ, B = 2 ^ 922 := ⟨_, rfl⟩
  obtain ⟨η, hη⟩ : ∃ η : ℚ, η = 1 / 2 ^ 1075 := ⟨_, rfl⟩
  have hM : Range binary64 C := hC ▸ in_range
  have hrt : ∀ q, 0 ≤ q → q ≤ C → ∃ r, root64 (fin q) = fin r := fun q h0 h => root_range h0 (hC ▸ h)
  have hrnd := rounds_binary64
  rw [← hη] at hrnd
  have hsq : ∀ i, d i * d i ≤ B := fun i => by
    rw [← abs_mul_abs_self (d i), hB]
    have := mul_le_mul (hR i) (hR i) (abs_nonneg _) (by positivity)
    rwa [← pow_add] at this
  have c1 : (1 / 2 ^ 1000 : ℚ) ≤ 1 := by decide +kernel
  have c2 : 4 * (2 ^ 31 * B) + 16 ≤ C := by rw [hB, hC]; decide +kernel
  have c4 : η ≤ 1 := by rw [hη]; decide +kernel
  have hB0 : 0 ≤ B := by rw [hB]; positivity
  have hcount : ((fusedFloats binary64 fuse root).count n).get = .fin (n : ℚ) := c111_count hn
  obtain ⟨T, hT⟩ : ∃ T, T = ∑ i, d i * d i := ⟨_, rfl⟩
  have hsum : T ≤ 2 ^ 31 * B := by
    rw [hT]
    refine (Finset.sum_le_card_nsmul _ _ B fun i _ => hsq i).trans ?_
    rw [Finset.card_univ, Fintype.card_fin, nsmul_eq_mul]
    exact mul_le_mul_of_nonneg_right hn31 hB0
  have hsum0 : 0 ≤ T := by
    rw [hT]
    exact Finset.sum_nonneg fun i _ => mul_self_nonneg _
  have hlen : ((List.finRange n).map fun i => (p i, p i)).length = n := by simp
  have ha1 : (((List.finRange n).map fun i => (p i, p i)).map fun q => |q.1.val * q.2.val|).sum = T := by
    rw [hT, List.map_map, Fin.sum_univ_def]
    congr 1
    apply List.map_congr_left
    intro i _
    show |(p i).val * (p i).val| = _
    rw [hpv, abs_mul_self]
  have hs1 : (((List.finRange n).map fun i => (p i, p i)).map fun q => q.1.val * q.2.val).sum = T := by
    rw [hT, List.map_map, Fin.sum_univ_def]
    congr 1
    apply List.map_congr_left
    intro i _
    show (p i).val * (p i).val = _
    rw [hpv]
  have hpe := productError64 (n := n) hn.le hsum0
  have hk : ((n : ℚ) + 1) / 2 ^ 52 * T ≤ 1 * T := mul_le_mul_of_nonneg_right (by
    rw [div_le_one (by positivity)]; linarith) hsum0
  rw [← hη] at hpe
  obtain ⟨ε, hε⟩ : ∃ ε : ℚ, ε = 1 / 2 ^ 1000 := ⟨_, rfl⟩
  rw [← hε] at hpe c1
  clear hε hC hB hη
  have hq2 := sum_fused_finite hrnd hM ((List.finRange n).map fun i => (p i, p i)) (by
    intro q hq
    obtain ⟨i, -, rfl⟩ := List.mem_map.mp hq
    exact ⟨hpf i, hpf i⟩) (by
    rw [hlen, ha1]
    linarith only [hpe, hk, c1, c2, hsum, hsum0])
  obtain ⟨-, he⟩ := sum_fused hrnd _ hq2
  rw [hlen, ha1, hs1] at he
  have hfold : (List.finRange n).foldl (fun s i => s + p i * p i) (0 : Fused binary64 fuse) =
      ((List.finRange n).map fun i => (p i, p i)).foldl (fun s q => s + q.1 * q.2) 0 := by rw [List.foldl_map]
  rw [← hfold] at he hq2
  have hq0 := squares_fused_nonneg p (List.finRange n) 0 le_rfl hq2
  obtain ⟨q2, hq2'⟩ : ∃ q2, q2 = ((List.finRange n).foldl (fun s i => s + p i * p i) (0 : Fused binary64 fuse)).val := ⟨_, rfl⟩
  rw [← hq2'] at he hq0
  have hqC : 4 * q2 ≤ 3 * C := by
    have := (abs_le.mp he).2
    linarith only [hpe, hk, c1, c2, hsum, hsum0, this]
  have hn1 : (1 : ℚ) ≤ n := by exact_mod_cast hn0
  have hq3 : q2 / n ≤ q2 := div_le_self hq0 hn1
  have hq4 : 0 ≤ q2 / n := by positivity
  have c3 : 0 ≤ C := by linarith only [c2, hB0]
  have hq5 : |q2 / n| ≤ C := by
    rw [abs_of_nonneg hq4]
    linarith only [hq3, hqC, c3]
  obtain ⟨q6, hq6⟩ := hM _ hq5
  have hq7 : 0 ≤ q6 := binary64_nonneg hq4 hq6
  have hq8 : q6 ≤ C := by
    have := (abs_le.mp (hrnd.error _ _ hq6)).2
    rw [abs_of_nonneg hq4] at this
    have c5 : (1 / 2 ^ 53 : ℚ) * (q2 / n) ≤ 1 / 8 * q2 := mul_le_mul (by norm_num) hq3 hq4 (by norm_num)
    linarith only [this, c4, c5, hq3, hqC, c2, hB0]
  obtain ⟨r, hr⟩ := hrt _ hq7 hq8
  -- the largest square
  have hsq1 : ∀ i, ∃ v, binary64 (d i * d i) = .fin v ∧ 0 ≤ v ∧ v ≤ C := fun i => by
    have h0 := mul_self_nonneg (d i)
    obtain ⟨v, hv⟩ := hM (d i * d i) (by
      rw [abs_of_nonneg h0]
      have := hsq i
      linarith only [this, c2, h0, hB0])
    refine ⟨v, hv, binary64_nonneg h0 hv, ?_⟩
    have := (abs_le.mp (hrnd.error _ _ hv)).2
    rw [abs_of_nonneg h0] at this
    have c5 : (1 / 2 ^ 53 : ℚ) * (d i * d i) ≤ 1 * (d i * d i) := mul_le_mul_of_nonneg_right (by norm_num) h0
    have h1 := hsq i
    linarith only [this, h1, c5, c4, c2, h0, hB0]
  choose v hv1 hv2 hv3 using hsq1
  have hsq' : ∀ i, (p i * p i).get = binary64 (d i * d i) := fun i => by
    show Fl.mul binary64 (p i).get (p i).get = _
    rw [hd i]
    rfl
  obtain ⟨q, k1, k2, k3, k4⟩ := fold_max (sqrt := root64) (fun i => ((p i * p i).get : Num binary64)) v (List.finRange n)
    (fun i _ => (hsq' i).trans (hv1 i)) 0
  obtain ⟨s, hs⟩ := hrt q k2 (by
    rcases k4 with rfl | ⟨i, -, rfl⟩
    · exact c3
    · exact hv3 i)
  have g3 : (((List.finRange n).foldl (fun s i => s + p i * p i) (0 : Fused binary64 fuse)) / (fusedFloats binary64 fuse root).count n).get =
      .fin q6 := by
    show Fl.div binary64 _ _ = _
    rw [hq2, hcount, ← hq2']
    simp only [Fl.div, hn'.ne', if_false]
    exact hq6
  have g2 : ((List.finRange n).foldl (fun s i => if (fusedFloats binary64 fuse root).lt s (p i * p i) then p i * p i else s)
      (0 : Fused binary64 fuse)).get = .fin q := by
    show ((List.finRange n).foldl (fun s i => if Fl.lt s.get (p i * p i).get then p i * p i else s) (0 : Fused binary64 fuse)).get = _
    rw [fold_get]
    exact k1
  obtain ⟨-, -, -, f1, -⟩ := c111_root.error _ _ hr
  obtain ⟨-, -, -, f2, -⟩ := c111_root.error _ _ hs
  refine ⟨_, _, r, s, rfl, ?_, ?_, f1, f2⟩
  · show (root _).get = _
    rw [hroot]
    exact (congrArg root64 g3).trans hr
  · show (root _).get = _
    rw [hroot]
    exact (congrArg root64 g2).trans hs

/-- C221: the residuals of an approximation of the solution are finite and bounded as in C216, whichever products are fused. -/
theorem c221_residual {root : Fused binary64 fuse → Fused binary64 fuse} (hroot : ∀ x, (root x).get = root64 x.get) {n : Nat}
    (hn0 : 0 < n) (hn : n < 2 ^ 31) (m : Sparse (Fused binary64 fuse)) (A : Fin n → Fin n → Fused binary64 fuse) (hm : Square m A)
    (a : Fin n → Fin n → ℚ) (hA : ∀ i j, (A i j).get = .fin (a i j)) {R X e : ℚ} (hR : ∀ i, ∑ j, |a i j| ≤ R)
    (hT : R * (X + e) ≤ 2 ^ 450) (B : Fin n → Fused binary64 fuse) (b sol : Fin n → ℚ) (hB : ∀ i, (B i).get = .fin (b i))
    (hst : ∀ i, (B i).Stored) (hsol : Solves a sol b) (hX : ∀ j, |sol j| ≤ X) (Y : Fin n → Fused binary64 fuse) (y : Fin n → ℚ)
    (hY : ∀ i, (Y i).get = .fin (y i)) (hy : ∀ j, |y j - sol j| ≤ e) :
    ∃ (r rmax : Fused binary64 fuse) (r2 rmax2 : ℚ), computeResidual (fusedFloats binary64 fuse root) m (vec Y) (vec B) = .ok (r, rmax) ∧
      r.get = .fin r2 ∧ rmax.get = .fin rmax2 ∧ 0 ≤ r2 ∧ 0 ≤ rmax2 ∧ r2 ≤ 2 * residualBound n R X e ∧
      rmax2 ≤ 2 * residualBound n R X e ∧ r2 ≤ 2 * rmax2 + 1 / 2 ^ 500 := by
  obtain ⟨L, h1, h2, h3, h4, h5'⟩ := square_rep hm
  have h5 : ∀ i j : Fin n, ((entry L i j).getD 0).get = .fin (a i j) := fun i j => by rw [h5' i j]; exact hA i j
  have hX0 : 0 ≤ X := (abs_nonneg _).trans (hX ⟨0, hn0⟩)
  have he0 : 0 ≤ e := (abs_nonneg _).trans (hy ⟨0, hn0⟩)
  have hR0 : 0 ≤ R := le_trans (Finset.sum_nonneg fun j _ => abs_nonneg _) (hR ⟨0, hn0⟩)
  obtain ⟨hbig, hsize⟩ := defect_sizes hn0 hn hR hT hsol hX hy
  have hd := fun i => rowDefect_fused_finite hn h2 h3 h5 Y B y b hY hB hst i (hbig i)
  have hd1 : ∀ i, |(rowDefect L Y B i).val| ≤ 2 ^ 461 := fun i =>
    (hsize _ (fun i => rowDefect_fused rounds_binary64 h2 h3 h5 Y B y b hY hB hst i (hd i)) i).2
  obtain ⟨r, rmax, r2, s2, hr, e1, e2, hr0, hs0⟩ := residual_fused_finite hroot hn0 hn h1 h3 h4 hm.2.2.1 _ _ _ hd hd1
  refine ⟨r, rmax, r2, s2, hr, e1, e2, hr0, hs0, ?_⟩
  obtain ⟨d', k1, k2, k3⟩ := c219_norms rounds_binary64 c219_doubles.1 c111_root hroot m A hm a hA hn0 hn (c111_count hn) Y B y b hY hB
    hst r rmax r2 e1 hr
  obtain ⟨k4, k5⟩ := k3 s2 e2
  exact norm_bounds hn0 hn (mul_nonneg hR0 he0) (mul_nonneg hR0 (add_nonneg hX0 he0)) (fun i => (hsize d' k1 i).1) hs0 k2 k4 k5

/-- Ratios that are below the tolerance. -/
theorem ratio_fused_below {root : Fused binary64 fuse → Fused binary64 fuse} {P Q C : Fused binary64 fuse} {p q t c : ℚ}
    (hP : P.get = .fin p) (hQ : Q.get = .fin q) (hC : C.get = .fin c) (hp : 0 ≤ p) (hq : 0 < q) (h : p ≤ t * q) (ht : t ≤ 2 ^ 900)
    (hc : t * (1 + 1 / 2 ^ 53) + 1 / 2 ^ 1075 ≤ c) :
    (fusedFloats binary64 fuse root).above ((fusedFloats binary64 fuse root).ratio P Q) C = false := by
  have e := ratio_below hp hq h ht hc
  show Fl.lt C.get (Fl.div binary64 P.get Q.get) = false
  rw [hP, hQ, hC]
  exact e

/-- C221: a solve that makes more than `J` iterations, though the solution was close to the exact one after `J` of them, began with a
small residual. -/
theorem c221_stops {root : Fused binary64 fuse → Fused binary64 fuse} (hroot : ∀ x, (root x).get = root64 x.get) (k : Method)
    (s s' : FixedPoint (Fused binary64 fuse)) {n : Nat} (hn0 : 0 < n) (hn : n < 2 ^ 31) (m : Sparse (Fused binary64 fuse))
    (A : Fin n → Fin n → Fused binary64 fuse) (hm : Square m A) (a : Fin n → Fin n → ℚ) (hA : ∀ i j, (A i j).get = .fin (a i j))
    {R X e e1 : ℚ} (hR : ∀ i, ∑ j, |a i j| ≤ R) (hT : R * (X + e) ≤ 2 ^ 450) (hT1 : R * (X + e1) ≤ 2 ^ 450)
    (B : Fin n → Fused binary64 fuse) (b sol : Fin n → ℚ) (hB : ∀ i, (B i).get = .fin (b i)) (hst : ∀ i, (B i).Stored)
    (hsol : Solves a sol b) (hX : ∀ j, |sol j| ≤ X)
    (x : List (Fused binary64 fuse)) {J : Nat} (hJ : 0 < J) (hJs : s.limits.minIterations ≤ J)
    (Y1 Y : Fin n → Fused binary64 fuse) (y1 y : Fin n → ℚ) (w1 w : List (Fused binary64 fuse))
    (h1 : times (step (fusedFloats binary64 fuse root) k s m (vec B)) 1 (x, startWorking k s m) = .ok (vec Y1, w1))
    (hY1 : ∀ i, (Y1 i).get = .fin (y1 i)) (hy1 : ∀ j, |y1 j - sol j| ≤ e1)
    (h : times (step (fusedFloats binary64 fuse root) k s m (vec B)) J (x, startWorking k s m) = .ok (vec Y, w))
    (hY : ∀ i, (Y i).get = .fin (y i)) (hy : ∀ j, |y j - sol j| ≤ e)
    {tol : ℚ} (htol : s.limits.tolerance.get = .fin tol) (htol0 : 1 / 2 ^ 500 ≤ tol) (htol1 : tol ≤ 1) (fuel : Nat) (hf : fuel ≤ sizeMax)
    (x' : List (Fused binary64 fuse)) (d : Conv (Fused binary64 fuse) (Fused binary64 fuse))
    (hs : solveSystem (fusedFloats binary64 fuse root) k s m x (vec B) fuel = .ok (x', d, s')) (hd : J < d.iteration) :
    ∃ r0, d.residual0.get = .fin r0 ∧ tol * r0 < 4 * residualBound n R X e := by
  obtain ⟨j, f1, f2, f3, f4⟩ := iterate_ok (solveSystem_ok hs)
  have f5 := (times_iteration f2 (by simp [Conv.new]; omega)).2
  simp only [Conv.new, Nat.zero_add] at f5
  obtain ⟨i, rfl⟩ : ∃ i, J = i + 1 := ⟨J - 1, by omega⟩
  obtain ⟨t, g1, -⟩ := times_prefix (i := i + 1) (j := j - (i + 1)) (by rw [show i + 1 + (j - (i + 1)) = j by omega]; exact f2)
  have g2 := f4 _ (by omega) t g1
  obtain ⟨t1, r, r0, rmax, rmax0, p1, p2, p3, p4, p5⟩ := pass_data (by omega) g1
  obtain ⟨l, hl⟩ : ∃ l, j = l + 1 := ⟨j - 1, by omega⟩
  rw [hl] at f2
  obtain ⟨t1', r', r0', rmax', rmax0', q1, q2, q3, q4, q5⟩ := pass_data (by omega) f2
  rw [h1, Out.ok.injEq] at p1 q1
  subst p1
  subst q1
  rw [p3, Out.ok.injEq, Prod.mk.injEq] at q3
  obtain ⟨rfl, rfl⟩ := q3
  rw [h, Out.ok.injEq] at p2
  rw [← p2] at p4
  obtain ⟨V0, Vmax0, v0, vmax0, a1, a1', a1'', a2, a3, a4, a5, a6⟩ :=
    c221_residual hroot hn0 hn m A hm a hA hR hT1 B b sol hB hst hsol hX Y1 y1 hY1 hy1
  obtain ⟨V, Vmax, v, vmax, b1, b1', b1'', b2, b3, b4, b5, b6⟩ :=
    c221_residual hroot hn0 hn m A hm a hA hR hT B b sol hB hst hsol hX Y y hY hy
  rw [a1, Out.ok.injEq, Prod.mk.injEq] at p3
  rw [b1, Out.ok.injEq, Prod.mk.injEq] at p4
  obtain ⟨rfl, rfl⟩ := p3
  obtain ⟨rfl, rfl⟩ := p4
  have hd0 : d.residual0.get = .fin v0 := by
    have : d = ((x', s'.working), d).2 := rfl
    rw [this, q5]
    exact a1'
  refine ⟨v0, hd0, ?_⟩
  by_contra hc
  rw [not_lt] at hc
  have hconv : isConverged (fusedFloats binary64 fuse root) s.limits t.2 = true := by
    rw [isConverged_iff, p5]
    refine ⟨hJs, Or.inr ?_⟩
    obtain ⟨z, hz⟩ : ∃ z : ℚ, z = 1 / 2 ^ 500 := ⟨_, rfl⟩
    have hz0 : 0 < z := by rw [hz]; positivity
    have hzG : z ≤ residualBound n R X e := by
      unfold residualBound
      have hX0 : 0 ≤ X := (abs_nonneg _).trans (hX ⟨0, hn0⟩)
      have he0 : 0 ≤ e := (abs_nonneg _).trans (hy ⟨0, hn0⟩)
      have hR0 : 0 ≤ R := le_trans (Finset.sum_nonneg fun j _ => abs_nonneg _) (hR ⟨0, hn0⟩)
      have : 0 ≤ R * e + (n + 2) / 2 ^ 51 * (R * (X + e)) := by positivity
      rw [← hz]
      linarith only [this]
    obtain ⟨G, hG⟩ : ∃ G, G = residualBound n R X e := ⟨_, rfl⟩
    rw [← hz] at a6 htol0
    rw [← hG] at hzG hc b4 b5
    have htp : 0 < tol := hz0.trans_le htol0
    have hv0 : 4 * G ≤ v0 := hc.trans (mul_le_of_le_one_left a2 htol1)
    have hv0' : 0 < v0 := by linarith only [hv0, hzG, hz0]
    have hw0 : 3 / 8 * v0 ≤ vmax0 := by linarith only [a6, hv0, hzG]
    have hw0' : 0 < vmax0 := by linarith only [hw0, hv0']
    have c1 : (1 / 2 ^ 1075 : ℚ) ≤ 1 / 8 * z := by rw [hz]; decide +kernel
    have c2 : (1 : ℚ) ≤ 2 ^ 899 := one_le_pow₀ (by norm_num)
    have c3 : (2 ^ 900 : ℚ) = 2 * 2 ^ 899 := by rw [pow_succ 2 899, mul_comm]
    generalize hK : (2 ^ 899 : ℚ) = K at c2 c3
    constructor
    · refine ratio_fused_below b1' a1' htol b2 hv0' (t := tol / 2) (by linarith only [b4, hc]) ?_ ?_
      · rw [c3]
        linarith only [c2, htol1]
      · generalize (1 / 2 ^ 1075 : ℚ) = w at *
        linarith only [c1, htol0, htp]
    · have e1 : (10 : ℚ) * tol ≤ 10 := by linarith only [htol1]
      obtain ⟨t10, ht10⟩ := in_range (10 * tol) (by
        rw [abs_of_nonneg (by positivity)]
        exact e1.trans (by decide +kernel))
      have e2 := (abs_le.mp (rounds_binary64.error _ _ ht10)).1
      rw [abs_of_nonneg (by positivity)] at e2
      have e3 : ((fusedFloats binary64 fuse root).ten * s.limits.tolerance).get = .fin t10 := by
        show Fl.mul binary64 (.fin 10) s.limits.tolerance.get = _
        rw [htol]
        exact ht10
      refine ratio_fused_below b1'' a1'' e3 b3 hw0' (t := 4 / 3 * tol) ?_ ?_ ?_
      · have e4 := mul_le_mul_of_nonneg_left hw0 htp.le
        linarith only [b5, hc, e4]
      · rw [c3]
        linarith only [c2, htol1]
      · generalize (1 / 2 ^ 1075 : ℚ) = w at *
        linarith only [c1, htol0, htp, e2]
  rw [hconv] at g2
  cases g2

/-- C221: solves of systems dominant by rows, with all methods; `q`, `c`, `X`, `E` and `G` are those of C220. -/
theorem c221_dominant {root : Fused binary64 fuse → Fused binary64 fuse} (hroot : ∀ x, (root x).get = root64 x.get) (k : Method)
    (s s' : FixedPoint (Fused binary64 fuse)) {n : Nat} (hn0 : 0 < n) (hn : n < 2 ^ 31) (m : Sparse (Fused binary64 fuse))
    (A : Fin n → Fin n → Fused binary64 fuse) (hm : Square m A) (a : Fin n → Fin n → ℚ) (hA : ∀ i j, (A i j).get = .fin (a i j))
    {q c R X E G : ℚ} (hq : ∀ i, (∑ j, if j = i then 0 else |a i j|) ≤ q * |a i i|) (hd : ∀ i, a i i ≠ 0) (hc : ∀ i, 1 / |a i i| ≤ c)
    (hR : ∀ i, ∑ j, |a i j| ≤ R) (hT : R * (X + E + G) ≤ 2 ^ 450) (B : Fin n → Fused binary64 fuse) (b sol : Fin n → ℚ)
    (hB : ∀ i, (B i).get = .fin (b i)) (hst : ∀ i, (B i).Stored) (hsol : Solves a sol b) (hX : ∀ j, |sol j| ≤ X)
    (Y : Fin n → Fused binary64 fuse) (x : Fin n → ℚ) (hY : ∀ i, (Y i).get = .fin (x i)) (hx : ∀ j, |x j - sol j| ≤ E)
    (hρ : relaxRatio (1 / 2 ^ 53) (1 / 2 ^ 1075) n (factor ℚ k) q < 1)
    (hG : G = relaxOffset (1 / 2 ^ 53) (1 / 2 ^ 1075) n (factor ℚ k) q c X /
      (1 - relaxRatio (1 / 2 ^ 53) (1 / 2 ^ 1075) n (factor ℚ k) q))
    (hM : ∀ i, relaxRange (1 / 2 ^ 53) (1 / 2 ^ 1075) n (factor ℚ k) (a i i) (|b i| + q * |a i i| * (X + E + G)) (X + E + G) ≤ 2 ^ 1000)
    {J : Nat} (hJ : 0 < J) (hJs : s.limits.minIterations ≤ J)
    {tol : ℚ} (htol : s.limits.tolerance.get = .fin tol) (htol0 : 1 / 2 ^ 500 ≤ tol) (htol1 : tol ≤ 1) (fuel : Nat) (hf : fuel ≤ sizeMax)
    (x' : List (Fused binary64 fuse)) (d : Conv (Fused binary64 fuse) (Fused binary64 fuse))
    (hs : solveSystem (fusedFloats binary64 fuse root) k s m (vec Y) (vec B) fuel = .ok (x', d, s')) (hit : J < d.iteration) :
    ∃ r0, d.residual0.get = .fin r0 ∧
      tol * r0 < 4 * residualBound n R X (relaxRatio (1 / 2 ^ 53) (1 / 2 ^ 1075) n (factor ℚ k) q ^ J * E + G) := by
  have hw : k = .jacobi → (startWorking k s m).length = n := fun hk => by
    rw [startWorking_length _ _ _ hk]
    exact hm.2.1
  have hj := c220_dominant rounds_binary64 in_range root k s m A hm a hA hq hd hc B b sol hB hsol hX Y x hY hx hρ hG hM
    (startWorking k s m) hw
  obtain ⟨Y1, y1, w1, e1, e1', e2⟩ := hj 1
  obtain ⟨YJ, y, w, e3, e3', e4⟩ := hj J
  have hd0 : 0 < |a ⟨0, hn0⟩ ⟨0, hn0⟩| := abs_pos.mpr (hd _)
  have hq0 : 0 ≤ q := by
    have : 0 ≤ q * |a ⟨0, hn0⟩ ⟨0, hn0⟩| := le_trans (Finset.sum_nonneg fun j _ => by
      split
      · exact le_refl _
      · exact abs_nonneg _) (hq _)
    exact nonneg_of_mul_nonneg_left this hd0
  have hE0 : 0 ≤ E := (abs_nonneg _).trans (hx ⟨0, hn0⟩)
  have hR0 : 0 ≤ R := le_trans (Finset.sum_nonneg fun j _ => abs_nonneg _) (hR ⟨0, hn0⟩)
  have hρ0 : 0 ≤ relaxRatio (1 / 2 ^ 53) (1 / 2 ^ 1075) n (factor ℚ k) q := by unfold relaxRatio; positivity
  have hle : ∀ i, R * (X + (relaxRatio (1 / 2 ^ 53) (1 / 2 ^ 1075) n (factor ℚ k) q ^ i * E + G)) ≤ 2 ^ 450 := fun i => by
    have g1 := mul_le_of_le_one_left hE0 (pow_le_one₀ (n := i) hρ0 hρ.le)
    exact (mul_le_mul_of_nonneg_left (by linarith only [g1]) hR0).trans hT
  exact c221_stops hroot k s s' hn0 hn m A hm a hA hR (hle J) (hle 1) B b sol hB hst hsol hX _ hJ hJs Y1 YJ y1 y w1 w e1 e1' e2 e3 e3' e4
    htol htol0 htol1 fuel hf x' d hs hit

/-- The hypotheses of `c221_returns` and `c221_dominant` hold for a system of two equations, solved with over relaxation: either the
solve ends within 100 iterations, or the residual after the first iteration is of the size of the rounding errors. -/
example (fuse : Hist → Hist → Hist → Bool) :
    ∃ (Z : Fin 2 → Fused binary64 fuse) (z : Fin 2 → ℚ) (d : Conv (Fused binary64 fuse) (Fused binary64 fuse))
      (s' : FixedPoint (Fused binary64 fuse)),
      solveSystem (fusedFloats binary64 fuse rootFused) .sor ⟨⟨0, 1000, inp 8 (1 / 2 ^ 10)⟩, [], inp 9 1⟩
        (dense2 (inp 0 4) (inp 1 1) (inp 2 (-1)) (inp 3 5)) (vec fun i : Fin 2 => inp (6 + i.1) 0) (vec fun i : Fin 2 => inp (4 + i.1) 1)
        1001 = .ok (vec Z, d, s') ∧ (∀ i, (Z i).get = .fin (z i)) ∧
      (d.iteration ≤ 100 ∨ ∃ r0, d.residual0.get = .fin r0 ∧ r0 < 1 / 100) := by
  have hm : Square (dense2 (inp 0 4) (inp 1 1) (inp 2 (-1)) (inp 3 5) : Sparse (Fused binary64 fuse))
      (![![inp 0 4, inp 1 1], ![inp 2 (-1), inp 3 5]] : Fin 2 → Fin 2 → Fused binary64 fuse) := by
    refine ⟨Built.ofLists (nz := [0, 2, 4]) (ix := [0, 1, 0, 1]) (vs := [inp 0 4, inp 1 1, inp 2 (-1), inp 3 5]) (c := 2)
      (by simp [sizeMax]) (by simp [sizeMax]) (dense2_lists _ _ _ _), rfl, rfl, ?_⟩
    intro i j
    fin_cases i <;> fin_cases j <;> rfl
  have hρ : relaxRatio (1 / 2 ^ 53) (1 / 2 ^ 1075) 2 (factor ℚ .sor) (1 / 4) < 9 / 10 := by decide +kernel
  have hA : ∀ i j, ((![![inp 0 4, inp 1 1], ![inp 2 (-1), inp 3 5]] : Fin 2 → Fin 2 → Fused binary64 fuse) i j).get =
      .fin ((![![4, 1], ![-1, 5]] : Fin 2 → Fin 2 → ℚ) i j) := by intro i j; fin_cases i <;> fin_cases j <;> rfl
  obtain ⟨Z, z, d, s', e1, e2, e3, e4, e5⟩ := c221_returns rounds_binary64 in_range rootFused .sor
    ⟨⟨0, 1000, inp 8 (1 / 2 ^ 10)⟩, [], inp 9 1⟩ (by norm_num) (by norm_num) _ _ hm _ hA (q := 1 / 4) (c := 1 / 4)
    (X := 5 / 21) (E := 5 / 21) (by decide +kernel) (by decide +kernel) (by decide +kernel) (fun i : Fin 2 => inp (4 + i.1) 1)
    (fun _ => 1) ![4 / 21, 5 / 21] (fun _ => rfl) (by unfold Solves; decide +kernel) (by decide +kernel)
    (fun i : Fin 2 => inp (6 + i.1) 0) (fun _ => 0) (fun _ => rfl) (by decide +kernel) (hρ.trans (by norm_num)) rfl (by decide +kernel)
    (by simp [sizeMax]) (by simp [sizeMax]) 1001 (by simp)
  refine ⟨Z, z, d, s', e1, e2, ?_⟩
  by_cases hit : d.iteration ≤ 100
  · exact .inl hit
  · right
    obtain ⟨r0, g1, g2⟩ := c221_dominant (fun _ => rfl) .sor _ s' (by norm_num) (by norm_num) _ _ hm _ hA (q := 1 / 4) (c := 1 / 4) (R := 6)
      (X := 5 / 21) (E := 5 / 21) (by decide +kernel) (by decide +kernel) (by decide +kernel) (by decide +kernel) (by decide +kernel)
      (fun i : Fin 2 => inp (4 + i.1) 1) (fun _ => 1) ![4 / 21, 5 / 21] (fun _ => rfl) (fun _ _ => rfl) (by unfold Solves; decide +kernel)
      (by decide +kernel) (fun i : Fin 2 => inp (6 + i.1) 0) (fun _ => 0) (fun _ => rfl) (by decide +kernel) (hρ.trans (by norm_num)) rfl
      (by decide +kernel) (J := 100) (by norm_num) (by simp) (tol := 1 / 2 ^ 10) rfl (by decide +kernel) (by norm_num) 1001
      (by simp [sizeMax]) _ _ e1 (by omega)
    refine ⟨r0, g1, ?_⟩
    have g3 : 4 * residualBound 2 6 (5 / 21) (relaxRatio (1 / 2 ^ 53) (1 / 2 ^ 1075) 2 (factor ℚ .sor) (1 / 4) ^ 100 * (5 / 21) +
        relaxOffset (1 / 2 ^ 53) (1 / 2 ^ 1075) 2 (factor ℚ .sor) (1 / 4) (1 / 4) (5 / 21) /
          (1 - relaxRatio (1 / 2 ^ 53) (1 / 2 ^ 1075) 2 (factor ℚ .sor) (1 / 4))) ≤ 1 / 2 ^ 10 * (1 / 100) := by decide +kernel
    have := g2.trans_le g3
    exact lt_of_mul_lt_mul_left this (by positivity)

end Disa.Props
