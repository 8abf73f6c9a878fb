import Verif.Solver.ResidualFused
import Verif.Props.SolveFloat

/-!
# Property C219: residuals with fused operations
-/

namespace Disa.Props

open Disa Spec Dense Num Sparse Iterative

variable {rnd : ℚ → Fl} {fuse : Hist → Hist → Hist → Bool} {u η : ℚ}

/-- C219: the norms of the residual are as close to those of the defects as in C111, whichever products are fused. -/
theorem c219_norms (h : Rounds rnd u η) (hinf : ∀ q, 0 ≤ q → (∃ v, rnd q = .fin v) ∨ rnd q = .inf false) {sqrt : Num rnd → Num rnd}
    {σ τ : ℚ} (hsq : Root sqrt σ τ) {root : Fused rnd fuse → Fused rnd fuse} (hroot : ∀ x, (root x).get = sqrt x.get) {n : Nat}
    (m : Sparse (Fused rnd fuse)) (A : Fin n → Fin n → Fused rnd fuse) (hm : Square m A) (a : Fin n → Fin n → ℚ)
    (hA : ∀ i j, (A i j).get = .fin (a i j)) (hn0 : 0 < n) (hn : n < 2 ^ 31) (hc : rnd n = .fin n) (X B : Fin n → Fused rnd fuse)
    (x b : Fin n → ℚ) (hX : ∀ i, (X i).get = .fin (x i)) (hB : ∀ i, (B i).get = .fin (b i)) (hst : ∀ i, (B i).Stored)
    (r rmax : Fused rnd fuse) (r2 : ℚ) (hr2 : r.get = .fin r2)
    (hr : computeResidual (fusedFloats rnd fuse root) m (vec X) (vec B) = .ok (r, rmax)) :
    ∃ d : Fin n → ℚ, (∀ i, |d i - defect a x b i| ≤ productError u η (n + 1) (|b i| + ∑ j, |a i j * x j|)) ∧
      |r2 ^ 2 - (∑ i, d i ^ 2) / n| ≤ meanError u η σ τ n ((∑ i, d i ^ 2) / n) ∧
      ∀ s, rmax.get = .fin s → (∀ i, (1 - σ) * ((1 - u) * d i ^ 2 - η) ≤ s ^ 2 + τ) ∧
        (s ^ 2 ≤ τ ∨ ∃ i, s ^ 2 ≤ (1 + σ) * ((1 + u) * d i ^ 2 + η) + τ) := by
  have hu := h.u_nonneg
  have hη := h.η_nonneg
  have hσ := hsq.σ_nonneg
  obtain ⟨L, h1, h2, h3, h4, h5'⟩ := square_rep hm
  have h5 : ∀ i j : Fin n, ((entry L i j).getD 0).get = .fin (a i j) := fun i j => by rw [h5' i j]; exact hA i j
  rw [residual_gen (fusedFloats rnd fuse root) h1 h3 h4 hm.2.2.1 _ _ hn0 (by unfold intMax; omega), Out.ok.injEq, Prod.mk.injEq] at hr
  obtain ⟨hr, hmax⟩ := hr
  obtain ⟨p, hp⟩ : ∃ p, p = rowDefect L X B := ⟨_, rfl⟩
  have e1 := fold_both (fusedFloats rnd fuse root).lt (fun i => p i * p i) (List.finRange n) (0, 0)
  unfold residualFold at hr hmax
  rw [← hp] at hr hmax
  rw [e1.1] at hr
  rw [e1.2] at hmax
  have hr' := (congrArg Fused.get hr).trans hr2
  have hmax' := congrArg Fused.get hmax
  rw [show (fusedFloats rnd fuse root).sqrt = root from rfl, hroot] at hr' hmax'
  obtain ⟨v, g1, g2, -, g4⟩ := hsq.error _ _ hr'
  have hn' : (0 : ℚ) < n := by exact_mod_cast hn0
  obtain ⟨f1, f2⟩ := Fused.isFin_of g1
  have hcount : ((fusedFloats rnd fuse root).count n).get = .fin (n : ℚ) := hc
  obtain ⟨c1, c2⟩ := Fused.isFin_of hcount
  obtain ⟨g5, g6⟩ := Fused.div_isFin c1 (by rw [c2]; exact hn'.ne') f1
  rw [c2, f2] at g6
  have hfold : (List.finRange n).foldl (fun s i => s + p i * p i) (0 : Fused rnd fuse) =
      ((List.finRange n).map fun i => (p i, p i)).foldl (fun s q => s + q.1 * q.2) 0 := by rw [List.foldl_map]
  have g5' : ((List.finRange n).foldl (fun s i => s + p i * p i) (0 : Fused rnd fuse)).IsFin := g5
  rw [hfold] at g5'
  obtain ⟨g7, he⟩ := sum_fused h _ g5'
  obtain ⟨q2, hq2⟩ : ∃ q2, q2 = (((List.finRange n).map fun i => (p i, p i)).foldl (fun s q => s + q.1 * q.2) (0 : Fused rnd fuse)).val :=
    ⟨_, rfl⟩
  have g6' : rnd (((List.finRange n).foldl (fun s i => s + p i * p i) (0 : Fused rnd fuse)).val / n) = .fin v := g6
  rw [hfold, ← hq2] at g6'
  have hd1 : ∀ i, (p i).IsFin := fun i => (g7 (p i, p i) (List.mem_map.mpr ⟨i, List.mem_finRange i, rfl⟩)).1
  obtain ⟨d, hd⟩ : ∃ d : Fin n → ℚ, d = fun i => (p i).val := ⟨_, rfl⟩
  have hdi : ∀ i, (p i).val = d i := fun i => by rw [hd]
  refine ⟨d, fun i => ?_, ?_, ?_⟩
  · have := rowDefect_fused h h2 h3 h5 X B x b hX hB hst i (by rw [← hp]; exact hd1 i)
    rwa [← hp, hdi] at this
  · have hsum : (((List.finRange n).map fun i => (p i, p i)).map fun q => q.1.val * q.2.val).sum = ∑ i, d i ^ 2 := by
      rw [List.map_map, Fin.sum_univ_def]
      simp only [pow_two, hd]
      rfl
    have habs : (((List.finRange n).map fun i => (p i, p i)).map fun q => |q.1.val * q.2.val|).sum = ∑ i, d i ^ 2 := by
      rw [List.map_map, Fin.sum_univ_def]
      congr 1
      apply List.map_congr_left
      intro i _
      show |(p i).val * (p i).val| = d i ^ 2
      rw [abs_mul_self, pow_two, hdi]
    rw [hsum, habs, List.length_map, List.length_finRange, ← hq2] at he
    obtain ⟨Q, hQ⟩ : ∃ Q, Q = (∑ i, d i ^ 2) / n := ⟨_, rfl⟩
    have hQ' : ∑ i, d i ^ 2 = n * Q := by rw [hQ]; field_simp
    have hQ0 : 0 ≤ Q := by
      rw [hQ]
      exact div_nonneg (Finset.sum_nonneg fun i _ => sq_nonneg _) hn'.le
    rw [← hQ]
    rw [hQ'] at he
    -- the mean
    have f2 : |q2 / n - Q| ≤ ((1 + u) ^ (n + 1) - 1) * Q + (2 + u) * (1 + u) ^ n * η := by
      rw [show q2 / n - Q = (q2 - n * Q) / n by field_simp, abs_div, abs_of_pos hn', div_le_iff₀ hn']
      refine he.trans (le_of_eq ?_)
      unfold productError
      ring
    have f3 := round_step h g6' f2 (T := Q) (by rw [abs_of_nonneg hQ0])
    have f4 : (1 + u) * (((1 + u) ^ (n + 1) - 1) * Q + (2 + u) * (1 + u) ^ n * η) + u * Q + η =
        ((1 + u) ^ (n + 2) - 1) * Q + ((2 + u) * (1 + u) ^ (n + 1) + 1) * η := by ring
    rw [f4] at f3
    have f5 : v ≤ Q + (((1 + u) ^ (n + 2) - 1) * Q + ((2 + u) * (1 + u) ^ (n + 1) + 1) * η) := by
      have := (abs_le.mp f3).2
      linarith
    have f6 := abs_add_le (r2 ^ 2 - v) (v - Q)
    rw [sub_add_sub_cancel] at f6
    have f7 := mul_le_mul_of_nonneg_left f5 hσ
    unfold meanError
    have f8 : ((1 + σ) * (1 + u) ^ (n + 2) - 1) * Q + (1 + σ) * ((2 + u) * (1 + u) ^ (n + 1) + 1) * η + τ =
        σ * (Q + (((1 + u) ^ (n + 2) - 1) * Q + ((2 + u) * (1 + u) ^ (n + 1) + 1) * η)) + τ +
          (((1 + u) ^ (n + 2) - 1) * Q + ((2 + u) * (1 + u) ^ (n + 1) + 1) * η) := by ring
    rw [f8]
    linarith
  · intro s hs
    have hsq' : ∀ i, (p i * p i).get = rnd (d i * d i) := by
      intro i
      show Fl.mul rnd (p i).get (p i).get = _
      rw [hd1 i, hdi]
      rfl
    have e2 : (List.finRange n).foldl (fun s i => if (fusedFloats rnd fuse root).lt s (p i * p i) then p i * p i else s)
        ((0, 0) : Fused rnd fuse × Fused rnd fuse).2 = (List.finRange n).foldl (fun s i => if Fl.lt s.get (p i * p i).get then p i * p i else s) 0 :=
      rfl
    rw [e2, fold_get, hs] at hmax'
    obtain ⟨q, k5, -, -, k8⟩ := hsq.error _ _ hmax'
    have hfin : ∀ i, ∃ v, rnd (d i * d i) = .fin v := by
      intro i
      have hsm := fold_small (fun i => (p i * p i).get) (List.finRange n) (fun i _ => by
        rw [hsq']
        rcases hinf _ (mul_self_nonneg (d i)) with ⟨v, e⟩ | e <;> rw [e] <;> simp) _ (by rw [k5]; exact ⟨Fl.noConfusion, Fl.noConfusion⟩)
      rcases hinf _ (mul_self_nonneg (d i)) with e | e
      · exact e
      · exact absurd ((hsq' i).trans e) (hsm.2 i (List.mem_finRange i))
    choose vv hd2 using hfin
    obtain ⟨q', k1, k2, k3, k4⟩ := fold_max (sqrt := sqrt) (fun i => ((p i * p i).get : Num rnd)) vv (List.finRange n)
      (fun i _ => (hsq' i).trans (hd2 i)) 0
    obtain rfl : q' = q := fin_inj.mp (k1.symm.trans k5)
    obtain ⟨k9, k10⟩ := abs_le.mp k8
    have herr : ∀ i, |vv i - d i ^ 2| ≤ u * d i ^ 2 + η := fun i => by
      have := h.error _ _ (hd2 i)
      rwa [abs_mul_self, ← pow_two] at this
    constructor
    · intro i
      have l1 := (abs_le.mp (herr i)).1
      have l2 := k3 i (List.mem_finRange i)
      have l3 : (1 - σ) * ((1 - u) * d i ^ 2 - η) ≤ (1 - σ) * q' :=
        mul_le_mul_of_nonneg_left (by linarith) (by linarith [hsq.σ_le])
      linarith
    · rcases k4 with rfl | ⟨i, -, rfl⟩
      · left
        linarith
      · right
        refine ⟨i, ?_⟩
        have l1 := (abs_le.mp (herr i)).2
        have l2 := mul_le_mul_of_nonneg_left (show vv i ≤ (1 + u) * d i ^ 2 + η by linarith) (by linarith : 0 ≤ 1 + σ)
        linarith

/-- C219: doubles overflow to infinity, and the square root of doubles. -/
theorem c219_doubles : (∀ q, 0 ≤ q → (∃ v, binary64 q = .fin v) ∨ binary64 q = .inf false) ∧ Root root64 (1 / 2 ^ 51) (1 / 2 ^ 2000) := by
  refine ⟨fun q hq => ?_, c111_root⟩
  unfold binary64
  split
  · exact .inl ⟨_, rfl⟩
  · right
    rw [decide_eq_false (not_lt.mpr hq)]

/-- The square root of doubles with a history. -/
def rootFused {fuse : Hist → Hist → Hist → Bool} (x : Fused binary64 fuse) : Fused binary64 fuse := .num (root64 x.get) (.op 6 x.hist x.hist)

/-- C219: a residual that is zero without fused operations and is not with them. -/
theorem c219_differs :
    (computeResidual (fusedFloats binary64 (fun _ _ _ => false) rootFused) (dense2 (inp 0 1) (inp 1 (2 ^ 27 + 1)) (inp 2 0) (inp 3 1))
      (vec ![inp 4 (-(2 ^ 54 + 2 ^ 28)), inp 5 (2 ^ 27 + 1)]) (vec ![inp 6 0, inp 7 (2 ^ 27 + 1)]) >>= fun r => pure (r.1.get, r.2.get)) =
        .ok (.fin 0, .fin 0) ∧
    (computeResidual (fusedFloats binary64 odd rootFused) (dense2 (inp 0 1) (inp 1 (2 ^ 27 + 1)) (inp 2 0) (inp 3 1))
      (vec ![inp 4 (-(2 ^ 54 + 2 ^ 28)), inp 5 (2 ^ 27 + 1)]) (vec ![inp 6 0, inp 7 (2 ^ 27 + 1)]) >>= fun r => pure (r.1.get, r.2.get)) =
        .ok (.fin (6369051672525773 / 2 ^ 53), .fin 1) := by
  constructor <;> decide +kernel

/-- The hypotheses of `c219_norms` hold for this system. -/
example : Square (dense2 (inp 0 1) (inp 1 (2 ^ 27 + 1)) (inp 2 0) (inp 3 1)) ![![inp 0 1, inp 1 (2 ^ 27 + 1)], ![inp 2 0, (inp 3 1 : Fused binary64 odd)]] ∧
    (∀ x : Fused binary64 odd, (rootFused x).get = root64 x.get) ∧ ∀ i, ((![inp 6 0, inp 7 (2 ^ 27 + 1)] : Fin 2 → Fused binary64 odd) i).Stored := by
  refine ⟨⟨Built.ofLists (nz := [0, 2, 4]) (ix := [0, 1, 0, 1]) (vs := [inp 0 1, inp 1 (2 ^ 27 + 1), inp 2 0, inp 3 1]) (c := 2)
    (by simp [sizeMax]) (by simp [sizeMax]) (dense2_lists _ _ _ _), rfl, rfl, fun i j => ?_⟩, fun _ => rfl, fun i => ?_⟩
  · fin_cases i <;> fin_cases j <;> rfl
  · fin_cases i <;> exact fun _ => rfl

end Disa.Props
