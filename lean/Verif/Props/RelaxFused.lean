import Verif.Props.FusedSweep
import Verif.Props.RelaxFloat

/-!
# Property C220: successive over relaxation with fused operations
-/

namespace Disa.Props

open Disa Spec Dense Sparse Iterative

variable {rnd : ℚ → Fl} {fuse : Hist → Hist → Hist → Bool} {u η : ℚ}

/-- The new value is finite if the numbers are small enough, whatever the relaxation factor. -/
theorem newValue_fused_range (h : Rounds rnd u η) {M : ℚ} (hM : Range rnd M) {sqrt : Fused rnd fuse → Fused rnd fuse} {n : Nat}
    {L : Rows (Fused rnd fuse)} {a : Fin n → Fin n → ℚ} (hs : Sorted L) (hb : Bounded n L)
    (hA : ∀ i j : Fin n, ((entry L i j).getD 0).get = .fin (a i j)) (O : Fused rnd fuse) (hO : O.Stored) (omega : ℚ)
    (ho : O.get = .fin omega) (B : Fin n → Fused rnd fuse) (b : Fin n → ℚ) (hB : ∀ i, (B i).get = .fin (b i))
    (Y : Fin n → Fused rnd fuse) (y : Fin n → ℚ) (hY : ∀ i, (Y i).get = .fin (y i)) (i : Fin n) (D : Fused rnd fuse)
    (hD : D.get = .fin (a i i)) (hd : a i i ≠ 0)
    (hR : relaxRange u η n omega (a i i) (|b i| + offAbs a y i) (y i) ≤ M) :
    ∃ r, (newValue (fusedFloats rnd fuse sqrt) L B O D Y i).get = .fin r := by
  obtain ⟨t, ht, hf, hfin, hsum, habs⟩ := row_fused hs hb hA Y y hY i
  have hV := off_le a y i
  have hS : 0 ≤ offAbs a y i := (abs_nonneg _).trans hV
  have hu := h.u_nonneg
  have hη := h.η_nonneg
  have hd' : 0 < |a i i| := abs_pos.mpr hd
  have hbi := abs_nonneg (b i)
  have hPE : 0 ≤ productError u η n (offAbs a y i) := by
    unfold productError
    have : (1 : ℚ) ≤ (1 + u) ^ (n + 1) := one_le_pow₀ (by linarith)
    have := mul_nonneg (by linarith : (0 : ℚ) ≤ (1 + u) ^ (n + 1) - 1) hS
    positivity
  have hPE' := productError_le h n (show offAbs a y i ≤ |b i| + offAbs a y i by linarith)
  unfold relaxRange at hR
  dsimp only at hR
  obtain ⟨B0, hB0⟩ : ∃ B, B = |b i| + offAbs a y i + productError u η n (|b i| + offAbs a y i) := ⟨_, rfl⟩
  rw [← hB0] at hR
  obtain ⟨B1, hB1⟩ : ∃ B, B = (1 + u) * B0 + η := ⟨_, rfl⟩
  rw [← hB1] at hR
  obtain ⟨B2, hB2⟩ : ∃ B, B = (1 + u) * (|omega| * B1) + η := ⟨_, rfl⟩
  rw [← hB2] at hR
  obtain ⟨B3, hB3⟩ : ∃ B, B = (1 + u) * (B2 / |a i i|) + η := ⟨_, rfl⟩
  rw [← hB3] at hR
  obtain ⟨B4, hB4⟩ : ∃ B, B = (1 + u) * |1 - omega| + η := ⟨_, rfl⟩
  rw [← hB4] at hR
  obtain ⟨B5, hB5⟩ : ∃ B, B = (1 + u) * (B4 * |y i|) + η := ⟨_, rfl⟩
  rw [← hB5] at hR
  have p0 : 0 ≤ B0 := by rw [hB0]; linarith
  have p1 : 0 ≤ B1 := by rw [hB1]; positivity
  have p2 : 0 ≤ B2 := by rw [hB2]; positivity
  have p3 : 0 ≤ B3 := by rw [hB3]; positivity
  have p4 : 0 ≤ B4 := by rw [hB4]; positivity
  have p5 : 0 ≤ B5 := by rw [hB5]; positivity
  have q1 : 0 ≤ |omega| * B1 := by positivity
  have q2 : 0 ≤ B2 / |a i i| := by positivity
  have q3 := abs_nonneg (1 - omega)
  have q4 : 0 ≤ B4 * |y i| := by positivity
  have hv := sum_fused_finite h hM t hfin (by
    rw [habs]
    have := productError_mono h ht hS
    linarith)
  obtain ⟨-, e2⟩ := sum_fused h t hv
  rw [hsum, habs] at e2
  unfold newValue
  rw [hf]
  have hst := stored_fold t
  generalize t.foldl (fun (s : Fused rnd fuse) p => s + p.1 * p.2) 0 = V at *
  obtain ⟨v, hvv⟩ : ∃ v, v = V.val := ⟨_, rfl⟩
  rw [← hvv] at e2
  have hvB : |b i - v| ≤ B0 := by
    have h1 := productError_mono h ht hS
    have h2 := abs_sub (b i) v
    have h3 := abs_add_le (off a y i) (v - off a y i)
    rw [add_sub_cancel] at h3
    rw [hB0]
    linarith
  obtain ⟨z, h1⟩ := hM (b i - v) (by linarith)
  have z1 : |z| ≤ B1 := by rw [hB1]; exact rounded_le h h1 hvB
  have z2 : |omega * z| ≤ |omega| * B1 := by rw [abs_mul]; exact mul_le_mul_of_nonneg_left z1 (abs_nonneg _)
  obtain ⟨w, h2⟩ := hM (omega * z) (by linarith)
  have w1 : |w| ≤ B2 := by rw [hB2]; exact rounded_le h h2 z2
  have w2 : |w / a i i| ≤ B2 / |a i i| := by rw [abs_div]; exact div_le_div_of_nonneg_right w1 hd'.le
  obtain ⟨y', h3⟩ := hM (w / a i i) (by linarith)
  have y1 : |y'| ≤ B3 := by rw [hB3]; exact rounded_le h h3 w2
  obtain ⟨t', h4⟩ := hM (1 - omega) (by linarith)
  have t1 : |t'| ≤ B4 := by rw [hB4]; exact rounded_le h h4 le_rfl
  have t2 : |t' * y i| ≤ B4 * |y i| := by rw [abs_mul]; exact mul_le_mul_of_nonneg_right t1 (abs_nonneg _)
  have f1 : (B i - V).get = .fin z := by
    show Fl.sub rnd (B i).get (V.operand (B i).hist) = _
    rw [hst, hB, hv, ← hvv]
    exact (Num.sub_eq (rnd := rnd)).trans h1
  have f2 : (O * (B i - V)).get = .fin w := by
    show Fl.mul rnd O.get (B i - V).get = _
    rw [f1, ho]
    exact h2
  have f3 : (O * (B i - V) / D).get = .fin y' := by
    show Fl.div rnd (O * (B i - V)).get D.get = _
    rw [f2, hD]
    simp only [Fl.div, hd, if_false, h3]
  have f4 : ((fusedFloats rnd fuse sqrt).one - O).get = .fin t' := by
    show Fl.sub rnd (.fin 1) (O.operand _) = _
    rw [hO, ho]
    exact (Num.sub_eq (rnd := rnd)).trans h4
  generalize O * (B i - V) / D = Q at *
  generalize (fusedFloats rnd fuse sqrt).one - O = T at *
  obtain ⟨p, hp, hpe⟩ : ∃ p, (T * Y i).operand Q.hist = .fin p ∧ |p - t' * y i| ≤ u * |t' * y i| + η := by
    have e : (T * Y i).operand Q.hist = (if fuse Q.hist T.hist (Y i).hist then .fin else rnd) (t' * y i) := by
      show Fl.mul _ T.get (Y i).get = _
      rw [f4, hY]
      rfl
    rw [e]
    split
    · exact ⟨_, rfl, by rw [sub_self, abs_zero]; positivity⟩
    · obtain ⟨s, h5⟩ := hM (t' * y i) (by linarith)
      exact ⟨s, h5, h.error _ _ h5⟩
  have s1 : |p| ≤ B5 := by
    have h7 := abs_add_le (t' * y i) (p - t' * y i)
    rw [add_sub_cancel] at h7
    have h8 := mul_le_mul_of_nonneg_left t2 hu
    rw [hB5]
    linarith
  obtain ⟨r, h6⟩ := hM (y' + p) (by have := abs_add_le y' p; linarith)
  refine ⟨r, ?_⟩
  show Fl.add rnd Q.get ((T * Y i).operand Q.hist) = _
  rw [f3, hp]
  exact h6

/-- The new value of an unknown when all values are close to the solution. -/
theorem relax_fused_bound (h : Rounds rnd u η) {M : ℚ} (hM : Range rnd M) {sqrt : Fused rnd fuse → Fused rnd fuse} {n : Nat}
    {L : Rows (Fused rnd fuse)} {a : Fin n → Fin n → ℚ} (hs : Sorted L) (hb : Bounded n L)
    (hA : ∀ i j : Fin n, ((entry L i j).getD 0).get = .fin (a i j)) (O : Fused rnd fuse) (hO : O.Stored) (omega : ℚ)
    (ho' : O.get = .fin omega) {q c X e B : ℚ} (i : Fin n) (hq : (∑ j, if j = i then 0 else |a i j|) ≤ q * |a i i|) (hd : a i i ≠ 0)
    (hc : 1 / |a i i| ≤ c) (B' : Fin n → Fused rnd fuse) (b sol : Fin n → ℚ) (hB : ∀ i, (B' i).get = .fin (b i)) (D : Fused rnd fuse)
    (hD : D.get = .fin (a i i)) (hsol : Solves a sol b) (hX : ∀ j, |sol j| ≤ X) (Z : Fin n → Fused rnd fuse) (z : Fin n → ℚ)
    (hZ : ∀ j, (Z j).get = .fin (z j)) (hz : ∀ j, |z j - sol j| ≤ e) (heB : X + e ≤ B)
    (hR : relaxRange u η n omega (a i i) (|b i| + q * |a i i| * B) B ≤ M) :
    ∃ r, (newValue (fusedFloats rnd fuse sqrt) L B' O D Z i).get = .fin r ∧
      |r - sol i| ≤ relaxRatio u η n omega q * e + relaxOffset u η n omega q c X := by
  have hu := h.u_nonneg
  have hη := h.η_nonneg
  have he0 : 0 ≤ e := (abs_nonneg _).trans (hz i)
  have hX0 : 0 ≤ X := (abs_nonneg _).trans (hX i)
  have hd' : 0 < |a i i| := abs_pos.mpr hd
  have hq0 : 0 ≤ q := by
    have : 0 ≤ q * |a i i| := le_trans (Finset.sum_nonneg fun j _ => by
      split
      · exact le_refl _
      · exact abs_nonneg _) hq
    exact nonneg_of_mul_nonneg_left this hd'
  have hzX : ∀ j, |z j| ≤ X + e := fun j => by
    have := abs_add_le (sol j) (z j - sol j)
    rw [add_sub_cancel] at this
    linarith [hX j, hz j]
  have hoff := offAbs_le a z i hzX (by linarith) hq
  have hoff' : offAbs a z i ≤ q * |a i i| * B := hoff.trans (mul_le_mul_of_nonneg_left heB (by positivity))
  have hzB : |z i| ≤ |B| := ((hzX i).trans heB).trans (le_abs_self B)
  obtain ⟨r, hr⟩ := newValue_fused_range h hM hs hb hA (sqrt := sqrt) O hO omega ho' B' b hB Z z hZ i D hD hd
    ((relaxRange_mono h n omega (a i i) (by linarith) hzB).trans hR)
  refine ⟨r, hr, ?_⟩
  have h1 := newValue_fused h hs hb hA B' b hB Z z hZ O hO omega ho' i D hD hd r hr
  have ho := abs_nonneg omega
  have ho1 := abs_nonneg (1 - omega)
  have h2 : |relaxed a b omega z i - sol i| ≤ (|omega| * q + |1 - omega|) * e := by
    have e1 : relaxed a b omega z i - sol i = omega * (relaxed a b 1 z i - sol i) + (1 - omega) * (z i - sol i) := by
      unfold relaxed; ring
    rw [e1]
    have h3 : |relaxed a b 1 z i - sol i| ≤ q * e := by
      rw [relaxed_error a b sol z hsol hd]
      exact off_bound a (fun j => z j - sol j) i q e (fun j _ => hz j) he0 hq hd
    refine (abs_add_le _ _).trans ?_
    rw [abs_mul, abs_mul]
    have := mul_le_mul_of_nonneg_left h3 ho
    have := mul_le_mul_of_nonneg_left (hz i) ho1
    linarith
  have hbi : |b i| ≤ |a i i| * ((1 + q) * X) := by
    have h3 := hsol i
    rw [off_add] at h3
    have h4 := (off_le a sol i).trans (offAbs_le a sol i hX hX0 hq)
    have h5 : |a i i * sol i| ≤ |a i i| * X := by
      rw [abs_mul]; exact mul_le_mul_of_nonneg_left (hX i) hd'.le
    rw [← h3]
    refine (abs_add_le _ _).trans ?_
    linarith
  have hs : (|b i| + offAbs a z i) / |a i i| ≤ (1 + 2 * q) * X + q * e := by
    rw [div_le_iff₀ hd']
    linarith
  have hP : (1 : ℚ) ≤ (1 + u) ^ (n + 5) := one_le_pow₀ (by linarith)
  have hP4 : (0 : ℚ) ≤ (1 + u) ^ (n + 4) * η := by positivity
  have hk : (0 : ℚ) ≤ n * (2 + u) := by positivity
  have h6 : sweepError u η n omega (a i i) (|b i| + offAbs a z i) (z i) ≤
      ((1 + u) ^ (n + 5) - 1) * (|omega| * ((1 + 2 * q) * X + q * e) + |1 - omega| * (X + e)) +
        (1 + u) ^ (n + 4) * η * ((|omega| * (n * (2 + u) + 1) + 1) * c + (X + e) + 3) := by
    unfold sweepError
    have h7 : (|omega| * (n * (2 + u) + 1) + 1) / |a i i| ≤ (|omega| * (n * (2 + u) + 1) + 1) * c := by
      rw [div_eq_mul_one_div]
      exact mul_le_mul_of_nonneg_left hc (by positivity)
    have h8 : |omega| * (|b i| + offAbs a z i) / |a i i| ≤ |omega| * ((1 + 2 * q) * X + q * e) := by
      rw [mul_div_assoc]
      exact mul_le_mul_of_nonneg_left hs ho
    have h9 := mul_le_mul_of_nonneg_left (hzX i) ho1
    refine add_le_add (mul_le_mul_of_nonneg_left (by linarith) (by linarith)) (mul_le_mul_of_nonneg_left ?_ hP4)
    linarith [hzX i]
  have h8 := abs_add_le (r - relaxed a b omega z i) (relaxed a b omega z i - sol i)
  rw [sub_add_sub_cancel] at h8
  refine h8.trans ?_
  unfold relaxRatio relaxOffset
  have e1 : ((|omega| * q + |1 - omega|) * (1 + u) ^ (n + 5) + (1 + u) ^ (n + 4) * η) * e +
      (((1 + u) ^ (n + 5) - 1) * ((|omega| * (1 + 2 * q) + |1 - omega|) * X) +
      (1 + u) ^ (n + 4) * η * ((|omega| * (n * (2 + u) + 1) + 1) * c + X + 3)) =
      ((1 + u) ^ (n + 5) - 1) * (|omega| * ((1 + 2 * q) * X + q * e) + |1 - omega| * (X + e)) +
        (1 + u) ^ (n + 4) * η * ((|omega| * (n * (2 + u) + 1) + 1) * c + (X + e) + 3) + (|omega| * q + |1 - omega|) * e := by ring
  linarith

/-- C220: the errors of the iterations of every method decrease as in C195 whichever products are fused. -/
theorem c220_dominant (h : Rounds rnd u η) {M : ℚ} (hM : Range rnd M) (sqrt : Fused rnd fuse → Fused rnd fuse) (k : Method)
    (s : FixedPoint (Fused rnd fuse)) {n : Nat} (m : Sparse (Fused rnd fuse)) (A : Fin n → Fin n → Fused rnd fuse)
    (hm : Square m A) (a : Fin n → Fin n → ℚ) (hA : ∀ i j, (A i j).get = .fin (a i j)) {q c X E G : ℚ}
    (hq : ∀ i, (∑ j, if j = i then 0 else |a i j|) ≤ q * |a i i|) (hd : ∀ i, a i i ≠ 0) (hc : ∀ i, 1 / |a i i| ≤ c)
    (B : Fin n → Fused rnd fuse) (b sol : Fin n → ℚ) (hB : ∀ i, (B i).get = .fin (b i)) (hsol : Solves a sol b)
    (hX : ∀ j, |sol j| ≤ X) (Y : Fin n → Fused rnd fuse) (x : Fin n → ℚ) (hY : ∀ i, (Y i).get = .fin (x i))
    (hx : ∀ j, |x j - sol j| ≤ E) (hρ : relaxRatio u η n (factor ℚ k) q < 1) (hG : G = relaxOffset u η n (factor ℚ k) q c X / (1 - relaxRatio u η n (factor ℚ k) q))
    (hR : ∀ i, relaxRange u η n (factor ℚ k) (a i i) (|b i| + q * |a i i| * (X + E + G)) (X + E + G) ≤ M)
    (w : List (Fused rnd fuse)) (hw : k = .jacobi → w.length = n) (j : Nat) :
    ∃ (Z : Fin n → Fused rnd fuse) (z : Fin n → ℚ) (w' : List (Fused rnd fuse)),
      times (step (fusedFloats rnd fuse sqrt) k s m (vec B)) j (vec Y, w) = .ok (vec Z, w') ∧
      (∀ i, (Z i).get = .fin (z i)) ∧ ∀ i, |z i - sol i| ≤ relaxRatio u η n (factor ℚ k) q ^ j * E + G := by
  obtain ⟨L, h1, h2, h3, h4, h5'⟩ := square_rep hm
  have h5 : ∀ i j : Fin n, ((entry L i j).getD 0).get = .fin (a i j) := fun i j => by rw [h5' i j]; exact hA i j
  obtain ⟨ho, hs⟩ : (if k = .sor then (fusedFloats rnd fuse sqrt).threeHalves else (fusedFloats rnd fuse sqrt).one).get =
      .fin (factor ℚ k) ∧ (if k = .sor then (fusedFloats rnd fuse sqrt).threeHalves else (fusedFloats rnd fuse sqrt).one).Stored := by
    cases k <;> exact ⟨rfl, fun _ => rfl⟩
  have hu := h.u_nonneg
  have hη := h.η_nonneg
  have hpos : ∀ _ : Fin n, 0 ≤ E ∧ 0 ≤ relaxRatio u η n (factor ℚ k) q ∧ 0 ≤ G := fun i => by
    have hd' : 0 < |a i i| := abs_pos.mpr (hd i)
    have hq0 : 0 ≤ q := by
      have : 0 ≤ q * |a i i| := le_trans (Finset.sum_nonneg fun j _ => by
        split
        · exact le_refl _
        · exact abs_nonneg _) (hq i)
      exact nonneg_of_mul_nonneg_left this hd'
    have hX0 : 0 ≤ X := (abs_nonneg _).trans (hX i)
    have hc0 : 0 ≤ c := le_trans (by positivity) (hc i)
    refine ⟨(abs_nonneg _).trans (hx i), by unfold relaxRatio; positivity, ?_⟩
    rw [hG]
    refine div_nonneg ?_ (by linarith)
    unfold relaxOffset
    have hP : (1 : ℚ) ≤ (1 + u) ^ (n + 5) := one_le_pow₀ (by linarith)
    have : 0 ≤ (1 + u) ^ (n + 5) - 1 := by linarith
    positivity
  have hfix : relaxRatio u η n (factor ℚ k) q * G + relaxOffset u η n (factor ℚ k) q c X = G := by
    rw [hG]
    have : 1 - relaxRatio u η n (factor ℚ k) q ≠ 0 := by linarith
    field_simp
    ring
  obtain ⟨ρ, hρ'⟩ : ∃ ρ, ρ = relaxRatio u η n (factor ℚ k) q := ⟨_, rfl⟩
  obtain ⟨δ, hδ⟩ : ∃ δ, δ = relaxOffset u η n (factor ℚ k) q c X := ⟨_, rfl⟩
  have hrow := fun (i : Fin n) (e : ℚ) (Z : Fin n → Fused rnd fuse) (z : Fin n → ℚ) (hZ : ∀ j, (Z j).get = .fin (z j))
      (hz : ∀ j, |z j - sol j| ≤ e) (he : X + e ≤ X + E + G) =>
    relax_fused_bound h hM (sqrt := sqrt) h2 h3 h5 _ hs (factor ℚ k) ho i (hq i) (hd i) (hc i) B b sol hB (A i i) (hA i i) hsol hX Z z hZ hz he (hR i)
  rw [← hρ'] at hρ hpos hfix ⊢
  rw [← hδ] at hfix
  -- the iterates
  have main : ∀ j, ∃ (Z : Fin n → Fused rnd fuse) (z : Fin n → ℚ) (w' : List (Fused rnd fuse)),
      times (step (fusedFloats rnd fuse sqrt) k s m (vec B)) j (vec Y, w) = .ok (vec Z, w') ∧ (k = .jacobi → w'.length = n) ∧
      (∀ i, (Z i).get = .fin (z i)) ∧ ∀ i, |z i - sol i| ≤ ρ ^ j * E + G := by
    intro j
    induction j with
    | zero =>
      refine ⟨Y, x, w, rfl, hw, hY, fun i => ?_⟩
      have := hx i
      have := (hpos i).2.2
      rw [pow_zero, one_mul]
      linarith
    | succ j ih =>
      obtain ⟨Z, z, w', e1, e2, e4, e3⟩ := ih
      obtain ⟨v, w'', f1, f2, f3⟩ := step_gen (fusedFloats rnd fuse sqrt) k s h1 h3 h4 (fun i => A i i)
        (fun i => diag_fused h5' (hA i i) (hd i)) B Z w' e2
      -- values of smaller unknowns first
      have hv : ∀ t, ∀ i : Fin n, i.1 = t → ∃ r, (v i).get = .fin r ∧ |r - sol i| ≤ ρ ^ (j + 1) * E + G := by
        intro t
        induction t using Nat.strong_induction_on with
        | _ t iht =>
          rintro i rfl
          obtain ⟨p1, p2, p3⟩ := hpos i
          have hpj : ρ ^ j ≤ 1 := pow_le_one₀ p2 hρ.le
          have hpj0 : 0 ≤ ρ ^ j := pow_nonneg p2 j
          have hstep : ρ ^ (j + 1) * E + G ≤ ρ ^ j * E + G := by
            have : ρ ^ (j + 1) ≤ ρ ^ j := pow_le_pow_of_le_one p2 hρ.le (Nat.le_succ j)
            have := mul_le_mul_of_nonneg_right this p1
            linarith
          have hz : ∀ l : Fin n, ∃ r : ℚ, (if k ≠ .jacobi ∧ l < i then v l else Z l).get = .fin r ∧
              |r - sol l| ≤ ρ ^ j * E + G := by
            intro l
            by_cases hl : k ≠ .jacobi ∧ l < i
            · obtain ⟨r, g1, g2⟩ := iht l.1 hl.2 l rfl
              exact ⟨r, by rw [if_pos hl, g1], g2.trans hstep⟩
            · exact ⟨z l, by rw [if_neg hl, e4], e3 l⟩
          choose z' g1 g2 using hz
          have hle : ρ ^ j * E ≤ E := mul_le_of_le_one_left p1 hpj
          obtain ⟨r, r1, r2⟩ := hrow i (ρ ^ j * E + G) _ z' g1 g2 (by linarith)
          refine ⟨r, ?_, ?_⟩
          · rw [f3 i]
            exact r1
          · rw [← hρ', ← hδ] at r2
            refine r2.trans (le_of_eq ?_)
            rw [pow_succ]
            linear_combination hfix
      have hv' : ∀ i : Fin n, ∃ r, (v i).get = .fin r ∧ |r - sol i| ≤ ρ ^ (j + 1) * E + G := fun i => hv i.1 i rfl
      choose r r1 r2 using hv'
      refine ⟨v, r, w'', ?_, f2, r1, r2⟩
      rw [times_succ_right, e1, Out.ok_bind, f1]
  obtain ⟨Z, z, w', e1, -, e4, e3⟩ := main j
  exact ⟨Z, z, w', e1, e4, e3⟩

/-- The hypotheses hold for doubles, whichever products are fused: a system with two unknowns whose solution has to be rounded. -/
example (fuse : Hist → Hist → Hist → Bool) (sqrt : Fused binary64 fuse → Fused binary64 fuse) (s : FixedPoint (Fused binary64 fuse))
    (j : Nat) :
    ∃ (Z : Fin 2 → Fused binary64 fuse) (z : Fin 2 → ℚ) (w' : List (Fused binary64 fuse)),
      times (Iterative.step (fusedFloats binary64 fuse sqrt) .sor s (dense2 (inp 0 4) (inp 1 1) (inp 2 (-1)) (inp 3 5))
        (vec fun i : Fin 2 => inp (4 + i.1) 1)) j (vec fun i : Fin 2 => inp (6 + i.1) 0, []) = .ok (vec Z, w') ∧
      (∀ i, (Z i).get = .fin (z i)) ∧ ∀ i, |z i - ![4 / 21, 5 / 21] i| ≤ (9 / 10) ^ j * (5 / 21) + 1 / 2 ^ 47 := by
  have hm : Square (dense2 (inp 0 4) (inp 1 1) (inp 2 (-1)) (inp 3 5) : Sparse (Fused binary64 fuse))
      (![![inp 0 4, inp 1 1], ![inp 2 (-1), inp 3 5]] : Fin 2 → Fin 2 → Fused binary64 fuse) := by
    refine ⟨Built.ofLists (nz := [0, 2, 4]) (ix := [0, 1, 0, 1]) (vs := [inp 0 4, inp 1 1, inp 2 (-1), inp 3 5]) (c := 2)
      (by simp [sizeMax]) (by simp [sizeMax]) (dense2_lists _ _ _ _), rfl, rfl, ?_⟩
    intro i j
    fin_cases i <;> fin_cases j <;> rfl
  have hρ : relaxRatio (1 / 2 ^ 53) (1 / 2 ^ 1075) 2 (factor ℚ .sor) (1 / 4) < 9 / 10 := by decide +kernel
  have hρ0 : 0 ≤ relaxRatio (1 / 2 ^ 53) (1 / 2 ^ 1075) 2 (factor ℚ .sor) (1 / 4) := by decide +kernel
  have hG : relaxOffset (1 / 2 ^ 53) (1 / 2 ^ 1075) 2 (factor ℚ .sor) (1 / 4) (1 / 4) (5 / 21) /
      (1 - relaxRatio (1 / 2 ^ 53) (1 / 2 ^ 1075) 2 (factor ℚ .sor) (1 / 4)) ≤ 1 / 2 ^ 47 := by decide +kernel
  obtain ⟨Z, z, w', e1, e3, e2⟩ := c220_dominant rounds_binary64 c100_range sqrt .sor s _ _ hm
    (![![4, 1], ![-1, 5]] : Fin 2 → Fin 2 → ℚ) (by intro i j; fin_cases i <;> fin_cases j <;> rfl) (q := 1 / 4) (c := 1 / 4)
    (X := 5 / 21) (E := 5 / 21) (by decide +kernel) (by decide +kernel) (by decide +kernel) (fun i : Fin 2 => inp (4 + i.1) 1)
    (fun _ => 1) ![4 / 21, 5 / 21] (fun _ => rfl)
    (by unfold Solves; decide +kernel) (by decide +kernel) (fun i : Fin 2 => inp (6 + i.1) 0) (fun _ => 0) (fun _ => rfl)
    (by decide +kernel) (hρ.trans (by norm_num)) rfl (by decide +kernel) [] (by simp) j
  refine ⟨Z, z, w', e1, e3, fun i => (e2 i).trans ?_⟩
  gcongr

end Disa.Props
