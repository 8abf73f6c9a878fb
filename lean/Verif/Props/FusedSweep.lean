import Verif.Solver.SweepFused
import Verif.Props.SweepFloat

/-!
# Property C218: rounding errors of iterative solvers with fused operations
-/

namespace Disa.Props

open Disa Spec Dense Sparse Iterative

variable {rnd : ℚ → Fl} {fuse : Hist → Hist → Hist → Bool} {u η : ℚ}

/-- The stored diagonal of a matrix with finite elements. -/
theorem diag_fused {n : Nat} {L : Rows (Fused rnd fuse)} {A : Fin n → Fin n → Fused rnd fuse} {i : Fin n} {d : ℚ}
    (hA : ∀ i j : Fin n, (entry L i j).getD 0 = A i j) (hd : (A i i).get = .fin d) (h0 : d ≠ 0) : entry L i i = some (A i i) := by
  have h6 := hA i i
  cases he : entry L i i with
  | none =>
    rw [he] at h6
    rw [← h6] at hd
    exact absurd (Fl.fin.inj (show Fl.fin 0 = Fl.fin d from hd)).symm h0
  | some v => rw [he] at h6; rw [← h6]; rfl

/-- C218: the bound of the error of the new value of each unknown in one iteration (C109) holds whichever products are fused. -/
theorem c218_step (h : Rounds rnd u η) (sqrt : Fused rnd fuse → Fused rnd fuse) (k : Method) (s : FixedPoint (Fused rnd fuse))
    {n : Nat} (m : Sparse (Fused rnd fuse)) (A : Fin n → Fin n → Fused rnd fuse) (hm : Square m A) (a : Fin n → Fin n → ℚ)
    (hA : ∀ i j, (A i j).get = .fin (a i j)) (hd : ∀ i, a i i ≠ 0) (B X Y : Fin n → Fused rnd fuse) (b x y : Fin n → ℚ)
    (hB : ∀ i, (B i).get = .fin (b i)) (hX : ∀ i, (X i).get = .fin (x i)) (hY : ∀ i, (Y i).get = .fin (y i))
    (w w' : List (Fused rnd fuse)) (hw : k = .jacobi → w.length = n)
    (hy : step (fusedFloats rnd fuse sqrt) k s m (vec B) (vec X, w) = .ok (vec Y, w'))
    (i : Fin n) (z : Fin n → ℚ) (hz : ∀ j, z j = if k ≠ .jacobi ∧ j < i then y j else x j) :
    |y i - (factor ℚ k * (b i - ∑ j, if j = i then 0 else a i j * z j) / a i i + (1 - factor ℚ k) * x i)| ≤
      sweepError u η n (factor ℚ k) (a i i) (|b i| + ∑ j, if j = i then 0 else |a i j * z j|) (x i) := by
  obtain ⟨L, h1, h2, h3, h4, h5'⟩ := square_rep hm
  have h5 : ∀ i j : Fin n, ((entry L i j).getD 0).get = .fin (a i j) := fun i j => by rw [h5' i j]; exact hA i j
  obtain ⟨y', w'', e1, -, e3⟩ := step_gen (fusedFloats rnd fuse sqrt) k s h1 h3 h4 (fun i => A i i)
    (fun i => diag_fused h5' (hA i i) (hd i)) B X w hw
  rw [hy, Out.ok.injEq, Prod.mk.injEq, vec_inj] at e1
  obtain ⟨rfl, -⟩ := e1
  have e4 := e3 i
  obtain ⟨ho, hs⟩ : (if k = .sor then (fusedFloats rnd fuse sqrt).threeHalves else (fusedFloats rnd fuse sqrt).one).get =
      .fin (factor ℚ k) ∧ (if k = .sor then (fusedFloats rnd fuse sqrt).threeHalves else (fusedFloats rnd fuse sqrt).one).Stored := by
    cases k <;> exact ⟨rfl, fun _ => rfl⟩
  have hZ : ∀ j, (if k ≠ .jacobi ∧ j < i then Y j else X j).get = .fin (z j) := by
    intro j
    rw [hz j]
    split
    · exact hY j
    · exact hX j
  have := newValue_fused h h2 h3 h5 B b hB _ z hZ _ hs (factor ℚ k) ho i (A i i) (hA i i) (hd i) (y i) (by rw [← e4]; exact hY i)
  have hzi : z i = x i := by rw [hz i]; simp
  unfold relaxed Iterative.off offAbs at this
  rwa [hzi] at this

/-- The new value of an unknown when all values are close to the solution. -/
theorem row_fused_bound (h : Rounds rnd u η) {M : ℚ} (hM : Range rnd M) {sqrt : Fused rnd fuse → Fused rnd fuse} {n : Nat} {L : Rows (Fused rnd fuse)}
    {a : Fin n → Fin n → ℚ} (hs : Sorted L) (hb : Bounded n L) (hA : ∀ i j : Fin n, ((entry L i j).getD 0).get = .fin (a i j))
    {q c X e B : ℚ} (i : Fin n) (hq : (∑ j, if j = i then 0 else |a i j|) ≤ q * |a i i|) (hd : a i i ≠ 0) (hc : 1 / |a i i| ≤ c)
    (B' : Fin n → Fused rnd fuse) (b sol : Fin n → ℚ) (hB : ∀ i, (B' i).get = .fin (b i)) (D : Fused rnd fuse)
    (hD : D.get = .fin (a i i)) (hsol : Solves a sol b) (hX : ∀ j, |sol j| ≤ X) (Z : Fin n → Fused rnd fuse)
    (z : Fin n → ℚ) (hZ : ∀ j, (Z j).get = .fin (z j)) (hz : ∀ j, |z j - sol j| ≤ e)
    (heB : X + e ≤ B) (hR : sweepRange u η n (a i i) (|b i| + q * |a i i| * B) B ≤ M) :
    ∃ r, (newValue (fusedFloats rnd fuse sqrt) L B' (fusedFloats rnd fuse sqrt).one D Z i).get = .fin r ∧
      |r - sol i| ≤ sweepRatio u η n q * e + sweepOffset u η n q c X := by
  have hu := h.u_nonneg
  have hη := h.η_nonneg
  have he0 : 0 ≤ e := (abs_nonneg _).trans (hz i)
  have hX0 : 0 ≤ X := (abs_nonneg _).trans (hX i)
  have hd' : 0 < |a i i| := abs_pos.mpr hd
  have hq0 : 0 ≤ q := by
    have : 0 ≤ q * |a i i| := le_trans (Finset.sum_nonneg fun j _ => by
      split
      · exact le_refl _
      · exact abs_nonneg _) hq
    exact nonneg_of_mul_nonneg_left this hd'
  have hzX : ∀ j, |z j| ≤ X + e := fun j => by
    have := abs_add_le (sol j) (z j - sol j)
    rw [add_sub_cancel] at this
    linarith [hX j, hz j]
  have hoff := offAbs_le a z i hzX (by linarith) hq
  have hoff' : offAbs a z i ≤ q * |a i i| * B := hoff.trans (mul_le_mul_of_nonneg_left heB (by positivity))
  have hzB : |z i| ≤ |B| := ((hzX i).trans heB).trans (le_abs_self B)
  obtain ⟨r, hr⟩ := newValue_fused_finite h hs hb hA (sqrt := sqrt) hM B' b hB Z z hZ i D hD hd
    ((sweepRange_mono h n (a i i) (by linarith) hzB).trans hR)
  refine ⟨r, hr, ?_⟩
  have h1 := newValue_fused h hs hb hA B' b hB Z z hZ _ (fun _ => rfl) 1 rfl i D hD hd r hr
  have h2 : |relaxed a b 1 z i - sol i| ≤ q * e := by
    rw [relaxed_error a b sol z hsol hd]
    exact off_bound a (fun j => z j - sol j) i q e (fun j _ => hz j) he0 hq hd
  have hbi : |b i| ≤ |a i i| * ((1 + q) * X) := by
    have h3 := hsol i
    rw [off_add] at h3
    have h4 := (off_le a sol i).trans (offAbs_le a sol i hX hX0 hq)
    have h5 : |a i i * sol i| ≤ |a i i| * X := by
      rw [abs_mul]; exact mul_le_mul_of_nonneg_left (hX i) hd'.le
    rw [← h3]
    refine (abs_add_le _ _).trans ?_
    linarith
  have hs : (|b i| + offAbs a z i) / |a i i| ≤ (1 + 2 * q) * X + q * e := by
    rw [div_le_iff₀ hd']
    linarith
  have hP : (1 : ℚ) ≤ (1 + u) ^ (n + 5) := one_le_pow₀ (by linarith)
  have hP4 : (0 : ℚ) ≤ (1 + u) ^ (n + 4) * η := by positivity
  have hk : (0 : ℚ) ≤ n * (2 + u) := by positivity
  have h6 : sweepError u η n 1 (a i i) (|b i| + offAbs a z i) (z i) ≤
      ((1 + u) ^ (n + 5) - 1) * ((1 + 2 * q) * X + q * e) +
        (1 + u) ^ (n + 4) * η * ((n * (2 + u) + 2) * c + (X + e) + 3) := by
    unfold sweepError
    rw [abs_one, sub_self, abs_zero, zero_mul, add_zero, one_mul, one_mul]
    have h7 : (n * (2 + u) + 1 + 1) / |a i i| ≤ (n * (2 + u) + 2) * c := by
      rw [div_eq_mul_one_div, add_assoc, one_add_one_eq_two]
      exact mul_le_mul_of_nonneg_left hc (by linarith)
    refine add_le_add (mul_le_mul_of_nonneg_left hs (by linarith)) (mul_le_mul_of_nonneg_left ?_ hP4)
    linarith [hzX i]
  have h8 := abs_add_le (r - relaxed a b 1 z i) (relaxed a b 1 z i - sol i)
  rw [sub_add_sub_cancel] at h8
  refine h8.trans ?_
  unfold sweepRatio sweepOffset
  have e1 : (q * (1 + u) ^ (n + 5) + (1 + u) ^ (n + 4) * η) * e + (((1 + u) ^ (n + 5) - 1) * ((1 + 2 * q) * X) +
      (1 + u) ^ (n + 4) * η * ((n * (2 + u) + 2) * c + X + 3)) = ((1 + u) ^ (n + 5) - 1) * ((1 + 2 * q) * X + q * e) +
        (1 + u) ^ (n + 4) * η * ((n * (2 + u) + 2) * c + (X + e) + 3) + q * e := by ring
  linarith

/-- C218: the errors of Jacobi and Gauss Seidel iterations decrease as in C110 whichever products are fused. -/
theorem c218_dominant (h : Rounds rnd u η) {M : ℚ} (hM : Range rnd M) (sqrt : Fused rnd fuse → Fused rnd fuse) (k : Method)
    (hk : k ≠ .sor) (s : FixedPoint (Fused rnd fuse)) {n : Nat} (m : Sparse (Fused rnd fuse)) (A : Fin n → Fin n → Fused rnd fuse)
    (hm : Square m A) (a : Fin n → Fin n → ℚ) (hA : ∀ i j, (A i j).get = .fin (a i j)) {q c X E G : ℚ}
    (hq : ∀ i, (∑ j, if j = i then 0 else |a i j|) ≤ q * |a i i|) (hd : ∀ i, a i i ≠ 0) (hc : ∀ i, 1 / |a i i| ≤ c)
    (B : Fin n → Fused rnd fuse) (b sol : Fin n → ℚ) (hB : ∀ i, (B i).get = .fin (b i)) (hsol : Solves a sol b)
    (hX : ∀ j, |sol j| ≤ X) (Y : Fin n → Fused rnd fuse) (x : Fin n → ℚ) (hY : ∀ i, (Y i).get = .fin (x i))
    (hx : ∀ j, |x j - sol j| ≤ E) (hρ : sweepRatio u η n q < 1) (hG : G = sweepOffset u η n q c X / (1 - sweepRatio u η n q))
    (hR : ∀ i, sweepRange u η n (a i i) (|b i| + q * |a i i| * (X + E + G)) (X + E + G) ≤ M)
    (w : List (Fused rnd fuse)) (hw : k = .jacobi → w.length = n) (j : Nat) :
    ∃ (Z : Fin n → Fused rnd fuse) (z : Fin n → ℚ) (w' : List (Fused rnd fuse)),
      times (step (fusedFloats rnd fuse sqrt) k s m (vec B)) j (vec Y, w) = .ok (vec Z, w') ∧
      (∀ i, (Z i).get = .fin (z i)) ∧ ∀ i, |z i - sol i| ≤ sweepRatio u η n q ^ j * E + G := by
  obtain ⟨L, h1, h2, h3, h4, h5'⟩ := square_rep hm
  have h5 : ∀ i j : Fin n, ((entry L i j).getD 0).get = .fin (a i j) := fun i j => by rw [h5' i j]; exact hA i j
  have hu := h.u_nonneg
  have hη := h.η_nonneg
  have hpos : ∀ _ : Fin n, 0 ≤ E ∧ 0 ≤ sweepRatio u η n q ∧ 0 ≤ G := fun i => by
    have hd' : 0 < |a i i| := abs_pos.mpr (hd i)
    have hq0 : 0 ≤ q := by
      have : 0 ≤ q * |a i i| := le_trans (Finset.sum_nonneg fun j _ => by
        split
        · exact le_refl _
        · exact abs_nonneg _) (hq i)
      exact nonneg_of_mul_nonneg_left this hd'
    have hX0 : 0 ≤ X := (abs_nonneg _).trans (hX i)
    have hc0 : 0 ≤ c := le_trans (by positivity) (hc i)
    refine ⟨(abs_nonneg _).trans (hx i), by unfold sweepRatio; positivity, ?_⟩
    rw [hG]
    refine div_nonneg ?_ (by linarith)
    unfold sweepOffset
    have hP : (1 : ℚ) ≤ (1 + u) ^ (n + 5) := one_le_pow₀ (by linarith)
    have : 0 ≤ (1 + u) ^ (n + 5) - 1 := by linarith
    positivity
  have hfix : sweepRatio u η n q * G + sweepOffset u η n q c X = G := by
    rw [hG]
    have : 1 - sweepRatio u η n q ≠ 0 := by linarith
    field_simp
    ring
  obtain ⟨ρ, hρ'⟩ : ∃ ρ, ρ = sweepRatio u η n q := ⟨_, rfl⟩
  obtain ⟨δ, hδ⟩ : ∃ δ, δ = sweepOffset u η n q c X := ⟨_, rfl⟩
  have hrow := fun (i : Fin n) (e : ℚ) (Z : Fin n → Fused rnd fuse) (z : Fin n → ℚ) (hZ : ∀ j, (Z j).get = .fin (z j))
      (hz : ∀ j, |z j - sol j| ≤ e) (he : X + e ≤ X + E + G) =>
    row_fused_bound h hM (sqrt := sqrt) h2 h3 h5 i (hq i) (hd i) (hc i) B b sol hB (A i i) (hA i i) hsol hX Z z hZ hz he (hR i)
  rw [← hρ'] at hρ hpos hfix ⊢
  rw [← hδ] at hfix
  -- the iterates
  have main : ∀ j, ∃ (Z : Fin n → Fused rnd fuse) (z : Fin n → ℚ) (w' : List (Fused rnd fuse)),
      times (step (fusedFloats rnd fuse sqrt) k s m (vec B)) j (vec Y, w) = .ok (vec Z, w') ∧ (k = .jacobi → w'.length = n) ∧
      (∀ i, (Z i).get = .fin (z i)) ∧ ∀ i, |z i - sol i| ≤ ρ ^ j * E + G := by
    intro j
    induction j with
    | zero =>
      refine ⟨Y, x, w, rfl, hw, hY, fun i => ?_⟩
      have := hx i
      have := (hpos i).2.2
      rw [pow_zero, one_mul]
      linarith
    | succ j ih =>
      obtain ⟨Z, z, w', e1, e2, e4, e3⟩ := ih
      obtain ⟨v, w'', f1, f2, f3⟩ := step_gen (fusedFloats rnd fuse sqrt) k s h1 h3 h4 (fun i => A i i)
        (fun i => diag_fused h5' (hA i i) (hd i)) B Z w' e2
      simp only [if_neg hk] at f3
      -- values of smaller unknowns first
      have hv : ∀ t, ∀ i : Fin n, i.1 = t → ∃ r, (v i).get = .fin r ∧ |r - sol i| ≤ ρ ^ (j + 1) * E + G := by
        intro t
        induction t using Nat.strong_induction_on with
        | _ t iht =>
          rintro i rfl
          obtain ⟨p1, p2, p3⟩ := hpos i
          have hpj : ρ ^ j ≤ 1 := pow_le_one₀ p2 hρ.le
          have hpj0 : 0 ≤ ρ ^ j := pow_nonneg p2 j
          have hstep : ρ ^ (j + 1) * E + G ≤ ρ ^ j * E + G := by
            have : ρ ^ (j + 1) ≤ ρ ^ j := pow_le_pow_of_le_one p2 hρ.le (Nat.le_succ j)
            have := mul_le_mul_of_nonneg_right this p1
            linarith
          have hz : ∀ l : Fin n, ∃ r : ℚ, (if k ≠ .jacobi ∧ l < i then v l else Z l).get = .fin r ∧
              |r - sol l| ≤ ρ ^ j * E + G := by
            intro l
            by_cases hl : k ≠ .jacobi ∧ l < i
            · obtain ⟨r, g1, g2⟩ := iht l.1 hl.2 l rfl
              exact ⟨r, by rw [if_pos hl, g1], g2.trans hstep⟩
            · exact ⟨z l, by rw [if_neg hl, e4], e3 l⟩
          choose z' g1 g2 using hz
          have hle : ρ ^ j * E ≤ E := mul_le_of_le_one_left p1 hpj
          obtain ⟨r, r1, r2⟩ := hrow i (ρ ^ j * E + G) _ z' g1 g2 (by linarith)
          refine ⟨r, ?_, ?_⟩
          · rw [f3 i]
            exact r1
          · rw [← hρ', ← hδ] at r2
            refine r2.trans (le_of_eq ?_)
            rw [pow_succ]
            linear_combination hfix
      have hv' : ∀ i : Fin n, ∃ r, (v i).get = .fin r ∧ |r - sol i| ≤ ρ ^ (j + 1) * E + G := fun i => hv i.1 i rfl
      choose r r1 r2 using hv'
      refine ⟨v, r, w'', ?_, f2, r1, r2⟩
      rw [times_succ_right, e1, Out.ok_bind, f1]
  obtain ⟨Z, z, w', e1, -, e4, e3⟩ := main j
  exact ⟨Z, z, w', e1, e4, e3⟩

/-- The hypotheses hold for doubles, whichever products are fused: a system with two unknowns whose solution has to be rounded. -/
example (fuse : Hist → Hist → Hist → Bool) (sqrt : Fused binary64 fuse → Fused binary64 fuse) (s : FixedPoint (Fused binary64 fuse))
    (j : Nat) :
    ∃ (Z : Fin 2 → Fused binary64 fuse) (z : Fin 2 → ℚ) (w' : List (Fused binary64 fuse)),
      times (Iterative.step (fusedFloats binary64 fuse sqrt) .gaussSeidel s (dense2 (inp 0 4) (inp 1 1) (inp 2 (-2)) (inp 3 5))
        (vec fun i : Fin 2 => inp (4 + i.1) 1)) j (vec fun i : Fin 2 => inp (6 + i.1) 0, []) = .ok (vec Z, w') ∧
      (∀ i, (Z i).get = .fin (z i)) ∧ ∀ i, |z i - ![2 / 11, 3 / 11] i| ≤ (2 / 3) ^ j * (3 / 11) + 1 / 2 ^ 50 := by
  have hm : Square (dense2 (inp 0 4) (inp 1 1) (inp 2 (-2)) (inp 3 5) : Sparse (Fused binary64 fuse))
      (![![inp 0 4, inp 1 1], ![inp 2 (-2), inp 3 5]] : Fin 2 → Fin 2 → Fused binary64 fuse) := by
    refine ⟨Built.ofLists (nz := [0, 2, 4]) (ix := [0, 1, 0, 1]) (vs := [inp 0 4, inp 1 1, inp 2 (-2), inp 3 5]) (c := 2)
      (by simp [sizeMax]) (by simp [sizeMax]) (dense2_lists _ _ _ _), rfl, rfl, ?_⟩
    intro i j
    fin_cases i <;> fin_cases j <;> rfl
  have hρ : sweepRatio (1 / 2 ^ 53) (1 / 2 ^ 1075) 2 (2 / 5) < 2 / 3 := by decide +kernel
  have hρ0 : 0 ≤ sweepRatio (1 / 2 ^ 53) (1 / 2 ^ 1075) 2 (2 / 5) := by decide +kernel
  have hG : sweepOffset (1 / 2 ^ 53) (1 / 2 ^ 1075) 2 (2 / 5) (1 / 4) (3 / 11) /
      (1 - sweepRatio (1 / 2 ^ 53) (1 / 2 ^ 1075) 2 (2 / 5)) ≤ 1 / 2 ^ 50 := by decide +kernel
  obtain ⟨Z, z, w', e1, e3, e2⟩ := c218_dominant rounds_binary64 c100_range sqrt .gaussSeidel (by simp) s _ _ hm
    (![![4, 1], ![-2, 5]] : Fin 2 → Fin 2 → ℚ) (by intro i j; fin_cases i <;> fin_cases j <;> rfl) (q := 2 / 5) (c := 1 / 4)
    (X := 3 / 11) (E := 3 / 11) (by decide +kernel) (by decide +kernel) (by decide +kernel) (fun i : Fin 2 => inp (4 + i.1) 1)
    (fun _ => 1) ![2 / 11, 3 / 11] (fun _ => rfl)
    (by unfold Solves; decide +kernel) (by decide +kernel) (fun i : Fin 2 => inp (6 + i.1) 0) (fun _ => 0) (fun _ => rfl)
    (by decide +kernel) (hρ.trans (by norm_num)) rfl (by decide +kernel) [] (by simp) j
  refine ⟨Z, z, w', e1, e3, fun i => (e2 i).trans ?_⟩
  gcongr

end Disa.Props
