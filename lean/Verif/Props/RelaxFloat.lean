import Verif.Props.SweepFloat

/-!
# Property C195: successive over relaxation with doubles
-/

namespace Disa.Spec

/-- No intermediate result of the new value of an unknown with the relaxation factor `omega` is larger than this. -/
def relaxRange (u η : ℚ) (n : Nat) (omega a s x : ℚ) : ℚ :=
  let B0 := s + productError u η n s
  let B1 := (1 + u) * B0 + η
  let B2 := (1 + u) * (|omega| * B1) + η
  let B3 := (1 + u) * (B2 / |a|) + η
  let B4 := (1 + u) * |1 - omega| + η
  let B5 := (1 + u) * (B4 * |x|) + η
  B0 + |omega| * B1 + B2 / |a| + |1 - omega| + B4 * |x| + (B3 + B5)

/-- Factor by which an iteration with the relaxation factor `omega` reduces the error if the rows have the ratio `q`. -/
def relaxRatio (u η : ℚ) (n : Nat) (omega q : ℚ) : ℚ := (|omega| * q + |1 - omega|) * (1 + u) ^ (n + 5) + (1 + u) ^ (n + 4) * η

/-- The error that an iteration adds: `1 / c` is the smallest diagonal entry and `X` the largest element of the solution. -/
def relaxOffset (u η : ℚ) (n : Nat) (omega q c X : ℚ) : ℚ :=
  ((1 + u) ^ (n + 5) - 1) * ((|omega| * (1 + 2 * q) + |1 - omega|) * X) +
    (1 + u) ^ (n + 4) * η * ((|omega| * (n * (2 + u) + 1) + 1) * c + X + 3)

end Disa.Spec

namespace Disa.Props

open Disa Spec Dense Num Sparse Iterative

variable {rnd : ℚ → Fl} {u η : ℚ}

theorem productError_le (h : Rounds rnd u η) (n : Nat) {s s' : ℚ} (hs : s ≤ s') :
    productError u η n s ≤ productError u η n s' := by
  have hu := h.u_nonneg
  unfold productError
  have : (1 : ℚ) ≤ (1 + u) ^ (n + 1) := one_le_pow₀ (by linarith)
  have := mul_le_mul_of_nonneg_left hs (by linarith : (0 : ℚ) ≤ (1 + u) ^ (n + 1) - 1)
  linarith

theorem relaxRange_mono (h : Rounds rnd u η) (n : Nat) (omega a : ℚ) {s s' x x' : ℚ} (hs : s ≤ s') (hx : |x| ≤ |x'|) :
    relaxRange u η n omega a s x ≤ relaxRange u η n omega a s' x' := by
  have hu := h.u_nonneg
  have hη := h.η_nonneg
  have := productError_le h n hs
  unfold relaxRange
  dsimp only
  gcongr

/-- A rounded number. -/
theorem rounded_le (h : Rounds rnd u η) {p q B : ℚ} (hr : rnd p = .fin q) (hp : |p| ≤ B) : |q| ≤ (1 + u) * B + η := by
  have hu := h.u_nonneg
  have := h.error _ _ hr
  have h2 := abs_add_le p (q - p)
  rw [add_sub_cancel] at h2
  have := mul_le_mul_of_nonneg_left hp hu
  linarith

/-- The new value is finite if the numbers are small enough, whatever the relaxation factor. -/
theorem newValue_range (h : Rounds rnd u η) {M : ℚ} (hM : Range rnd M) {sqrt : Num rnd → Num rnd} {n : Nat} {L : Rows (Num rnd)}
    {a : Fin n → Fin n → ℚ} (hs : Sorted L) (hb : Bounded n L) (hA : ∀ i j : Fin n, (entry L i j).getD 0 = fin (a i j))
    (omega : ℚ) (b y : Fin n → ℚ) (i : Fin n) (hd : a i i ≠ 0)
    (hR : relaxRange u η n omega (a i i) (|b i| + offAbs a y i) (y i) ≤ M) :
    ∃ r, newValue (floats rnd sqrt) L (fun i => fin (b i)) (fin omega) (fin (a i i)) (fun i => fin (y i)) i = fin r := by
  unfold newValue
  obtain ⟨t, ht, hf, hsum, habs⟩ := row_terms hs hb hA y i
  rw [hf]
  have hV := off_le a y i
  have hS : 0 ≤ offAbs a y i := (abs_nonneg _).trans hV
  have hu := h.u_nonneg
  have hη := h.η_nonneg
  have hd' : 0 < |a i i| := abs_pos.mpr hd
  have hbi := abs_nonneg (b i)
  have hPE : 0 ≤ productError u η n (offAbs a y i) := by
    unfold productError
    have : (1 : ℚ) ≤ (1 + u) ^ (n + 1) := one_le_pow₀ (by linarith)
    have := mul_nonneg (by linarith : (0 : ℚ) ≤ (1 + u) ^ (n + 1) - 1) hS
    positivity
  have hPE' := productError_le h n (show offAbs a y i ≤ |b i| + offAbs a y i by linarith)
  unfold relaxRange at hR
  dsimp only at hR
  obtain ⟨B0, hB0⟩ : ∃ B, B = |b i| + offAbs a y i + productError u η n (|b i| + offAbs a y i) := ⟨_, rfl⟩
  rw [← hB0] at hR
  obtain ⟨B1, hB1⟩ : ∃ B, B = (1 + u) * B0 + η := ⟨_, rfl⟩
  rw [← hB1] at hR
  obtain ⟨B2, hB2⟩ : ∃ B, B = (1 + u) * (|omega| * B1) + η := ⟨_, rfl⟩
  rw [← hB2] at hR
  obtain ⟨B3, hB3⟩ : ∃ B, B = (1 + u) * (B2 / |a i i|) + η := ⟨_, rfl⟩
  rw [← hB3] at hR
  obtain ⟨B4, hB4⟩ : ∃ B, B = (1 + u) * |1 - omega| + η := ⟨_, rfl⟩
  rw [← hB4] at hR
  obtain ⟨B5, hB5⟩ : ∃ B, B = (1 + u) * (B4 * |y i|) + η := ⟨_, rfl⟩
  rw [← hB5] at hR
  have p0 : 0 ≤ B0 := by rw [hB0]; linarith
  have p1 : 0 ≤ B1 := by rw [hB1]; positivity
  have p2 : 0 ≤ B2 := by rw [hB2]; positivity
  have p3 : 0 ≤ B3 := by rw [hB3]; positivity
  have p4 : 0 ≤ B4 := by rw [hB4]; positivity
  have p5 : 0 ≤ B5 := by rw [hB5]; positivity
  have q1 : 0 ≤ |omega| * B1 := by positivity
  have q2 : 0 ≤ B2 / |a i i| := by positivity
  have q3 := abs_nonneg (1 - omega)
  have q4 : 0 ≤ B4 * |y i| := by positivity
  obtain ⟨v, hv⟩ := sum_finite h hM t (by
    rw [habs]
    have := productError_mono h ht hS
    linarith)
  have hv' : (t.map fun p => ((fin p.1 : Num rnd), (fin p.2 : Num rnd))).foldl (fun s p => s + p.1 * p.2) 0 = fin v := hv
  obtain ⟨t'', e1, e2⟩ := sum_error h _ v hv'
  obtain rfl : t = t'' := by
    have hinj : Function.Injective fun p : ℚ × ℚ => ((fin p.1 : Num rnd), (fin p.2 : Num rnd)) := by
      rintro ⟨p1, p2⟩ ⟨q1, q2⟩ he
      obtain ⟨e1, e2⟩ := Prod.mk.inj he
      have e1 : p1 = q1 := fin_inj.mp e1
      have e2 : p2 = q2 := fin_inj.mp e2
      rw [e1, e2]
    exact List.map_injective_iff.mpr hinj e1
  rw [hsum, habs] at e2
  have hvB : |b i - v| ≤ B0 := by
    have h1 := productError_mono h ht hS
    have h2 := abs_sub (b i) v
    have h3 := abs_add_le (off a y i) (v - off a y i)
    rw [add_sub_cancel] at h3
    rw [hB0]
    linarith
  obtain ⟨z, h1⟩ := hM (b i - v) (by linarith)
  have z1 : |z| ≤ B1 := by rw [hB1]; exact rounded_le h h1 hvB
  have z2 : |omega * z| ≤ |omega| * B1 := by rw [abs_mul]; exact mul_le_mul_of_nonneg_left z1 (abs_nonneg _)
  obtain ⟨w, h2⟩ := hM (omega * z) (by linarith)
  have w1 : |w| ≤ B2 := by rw [hB2]; exact rounded_le h h2 z2
  have w2 : |w / a i i| ≤ B2 / |a i i| := by rw [abs_div]; exact div_le_div_of_nonneg_right w1 hd'.le
  obtain ⟨y', h3⟩ := hM (w / a i i) (by linarith)
  have y1 : |y'| ≤ B3 := by rw [hB3]; exact rounded_le h h3 w2
  obtain ⟨t', h4⟩ := hM (1 - omega) (by linarith)
  have t1 : |t'| ≤ B4 := by rw [hB4]; exact rounded_le h h4 le_rfl
  have t2 : |t' * y i| ≤ B4 * |y i| := by rw [abs_mul]; exact mul_le_mul_of_nonneg_right t1 (abs_nonneg _)
  obtain ⟨s, h5⟩ := hM (t' * y i) (by linarith)
  have s1 : |s| ≤ B5 := by rw [hB5]; exact rounded_le h h5 t2
  obtain ⟨r, h6⟩ := hM (y' + s) (by have := abs_add_le y' s; linarith)
  refine ⟨r, ?_⟩
  rw [hv']
  have f1 : (fin (b i) : Num rnd) - fin v = fin z := by exact Num.sub_eq.trans h1
  have f2 : (fin omega : Num rnd) * fin z = fin w := h2
  have f3 : (fin w : Num rnd) / fin (a i i) = fin y' := by
    show Fl.div rnd (.fin w) (.fin (a i i)) = _
    simp only [Fl.div, hd, if_false, h3]
    rfl
  have f4 : (floats rnd sqrt).one - (fin omega : Num rnd) = fin t' := by
    show (fin 1 : Num rnd) - fin omega = _
    exact Num.sub_eq.trans h4
  have f5 : (fin t' : Num rnd) * fin (y i) = fin s := h5
  have f6 : (fin y' : Num rnd) + fin s = fin r := h6
  rw [f1, f2, f3, f4, f5, f6]

/-- The new value of an unknown when all values are close to the solution. -/
theorem relax_bound (h : Rounds rnd u η) {M : ℚ} (hM : Range rnd M) {sqrt : Num rnd → Num rnd} {n : Nat} {L : Rows (Num rnd)}
    {a : Fin n → Fin n → ℚ} (hs : Sorted L) (hb : Bounded n L) (hA : ∀ i j : Fin n, (entry L i j).getD 0 = fin (a i j))
    (omega : ℚ) {q c X e B : ℚ} (i : Fin n) (hq : (∑ j, if j = i then 0 else |a i j|) ≤ q * |a i i|) (hd : a i i ≠ 0)
    (hc : 1 / |a i i| ≤ c) (b sol : Fin n → ℚ) (hsol : Solves a sol b) (hX : ∀ j, |sol j| ≤ X) (z : Fin n → ℚ)
    (hz : ∀ j, |z j - sol j| ≤ e) (heB : X + e ≤ B) (hR : relaxRange u η n omega (a i i) (|b i| + q * |a i i| * B) B ≤ M) :
    ∃ r, newValue (floats rnd sqrt) L (fun i => fin (b i)) (fin omega) (fin (a i i)) (fun j => fin (z j)) i = fin r ∧
      |r - sol i| ≤ relaxRatio u η n omega q * e + relaxOffset u η n omega q c X := by
  have hu := h.u_nonneg
  have hη := h.η_nonneg
  have he0 : 0 ≤ e := (abs_nonneg _).trans (hz i)
  have hX0 : 0 ≤ X := (abs_nonneg _).trans (hX i)
  have hd' : 0 < |a i i| := abs_pos.mpr hd
  have hq0 : 0 ≤ q := by
    have : 0 ≤ q * |a i i| := le_trans (Finset.sum_nonneg fun j _ => by
      split
      · exact le_refl _
      · exact abs_nonneg _) hq
    exact nonneg_of_mul_nonneg_left this hd'
  have hzX : ∀ j, |z j| ≤ X + e := fun j => by
    have := abs_add_le (sol j) (z j - sol j)
    rw [add_sub_cancel] at this
    linarith [hX j, hz j]
  have hoff := offAbs_le a z i hzX (by linarith) hq
  have hoff' : offAbs a z i ≤ q * |a i i| * B := hoff.trans (mul_le_mul_of_nonneg_left heB (by positivity))
  have hzB : |z i| ≤ |B| := ((hzX i).trans heB).trans (le_abs_self B)
  obtain ⟨r, hr⟩ := newValue_range h hM hs hb hA (sqrt := sqrt) omega b z i hd
    ((relaxRange_mono h n omega (a i i) (by linarith) hzB).trans hR)
  refine ⟨r, hr, ?_⟩
  have h1 := newValue_error h hs hb hA b z omega i hd r hr
  have ho := abs_nonneg omega
  have ho' := abs_nonneg (1 - omega)
  have h2 : |relaxed a b omega z i - sol i| ≤ (|omega| * q + |1 - omega|) * e := by
    have e1 : relaxed a b omega z i - sol i = omega * (relaxed a b 1 z i - sol i) + (1 - omega) * (z i - sol i) := by
      unfold relaxed; ring
    rw [e1]
    have h3 : |relaxed a b 1 z i - sol i| ≤ q * e := by
      rw [relaxed_error a b sol z hsol hd]
      exact off_bound a (fun j => z j - sol j) i q e (fun j _ => hz j) he0 hq hd
    refine (abs_add_le _ _).trans ?_
    rw [abs_mul, abs_mul]
    have := mul_le_mul_of_nonneg_left h3 ho
    have := mul_le_mul_of_nonneg_left (hz i) ho'
    linarith
  have hbi : |b i| ≤ |a i i| * ((1 + q) * X) := by
    have h3 := hsol i
    rw [off_add] at h3
    have h4 := (off_le a sol i).trans (offAbs_le a sol i hX hX0 hq)
    have h5 : |a i i * sol i| ≤ |a i i| * X := by
      rw [abs_mul]; exact mul_le_mul_of_nonneg_left (hX i) hd'.le
    rw [← h3]
    refine (abs_add_le _ _).trans ?_
    linarith
  have hs : (|b i| + offAbs a z i) / |a i i| ≤ (1 + 2 * q) * X + q * e := by
    rw [div_le_iff₀ hd']
    linarith
  have hP : (1 : ℚ) ≤ (1 + u) ^ (n + 5) := one_le_pow₀ (by linarith)
  have hP4 : (0 : ℚ) ≤ (1 + u) ^ (n + 4) * η := by positivity
  have hk : (0 : ℚ) ≤ n * (2 + u) := by positivity
  have h6 : sweepError u η n omega (a i i) (|b i| + offAbs a z i) (z i) ≤
      ((1 + u) ^ (n + 5) - 1) * (|omega| * ((1 + 2 * q) * X + q * e) + |1 - omega| * (X + e)) +
        (1 + u) ^ (n + 4) * η * ((|omega| * (n * (2 + u) + 1) + 1) * c + (X + e) + 3) := by
    unfold sweepError
    have h7 : (|omega| * (n * (2 + u) + 1) + 1) / |a i i| ≤ (|omega| * (n * (2 + u) + 1) + 1) * c := by
      rw [div_eq_mul_one_div]
      exact mul_le_mul_of_nonneg_left hc (by positivity)
    have h8 : |omega| * (|b i| + offAbs a z i) / |a i i| ≤ |omega| * ((1 + 2 * q) * X + q * e) := by
      rw [mul_div_assoc]
      exact mul_le_mul_of_nonneg_left hs ho
    have h9 := mul_le_mul_of_nonneg_left (hzX i) ho'
    refine add_le_add (mul_le_mul_of_nonneg_left (by linarith) (by linarith)) (mul_le_mul_of_nonneg_left ?_ hP4)
    linarith [hzX i]
  have h8 := abs_add_le (r - relaxed a b omega z i) (relaxed a b omega z i - sol i)
  rw [sub_add_sub_cancel] at h8
  refine h8.trans ?_
  unfold relaxRatio relaxOffset
  have e1 : ((|omega| * q + |1 - omega|) * (1 + u) ^ (n + 5) + (1 + u) ^ (n + 4) * η) * e +
      (((1 + u) ^ (n + 5) - 1) * ((|omega| * (1 + 2 * q) + |1 - omega|) * X) +
      (1 + u) ^ (n + 4) * η * ((|omega| * (n * (2 + u) + 1) + 1) * c + X + 3)) =
      ((1 + u) ^ (n + 5) - 1) * (|omega| * ((1 + 2 * q) * X + q * e) + |1 - omega| * (X + e)) +
        (1 + u) ^ (n + 4) * η * ((|omega| * (n * (2 + u) + 1) + 1) * c + (X + e) + 3) + (|omega| * q + |1 - omega|) * e := by ring
  linarith

/-- C195: the iterations of every method with rounding, for a matrix that is dominant enough for its factor.  None of the iterates
overflows, and their distance to the solution shrinks to a multiple of the rounding error. -/
theorem c195_dominant (h : Rounds rnd u η) {M : ℚ} (hM : Range rnd M) (sqrt : Num rnd → Num rnd) (k : Method)
    (s : FixedPoint (Num rnd)) {n : Nat} (m : Sparse (Num rnd)) (a : Fin n → Fin n → ℚ)
    (hm : Square m fun i j => (fin (a i j) : Num rnd)) {q c X E G : ℚ}
    (hq : ∀ i, (∑ j, if j = i then 0 else |a i j|) ≤ q * |a i i|) (hd : ∀ i, a i i ≠ 0) (hc : ∀ i, 1 / |a i i| ≤ c)
    (b sol : Fin n → ℚ) (hsol : Solves a sol b) (hX : ∀ j, |sol j| ≤ X) (x : Fin n → ℚ) (hx : ∀ j, |x j - sol j| ≤ E)
    (hρ : relaxRatio u η n (factor ℚ k) q < 1) (hG : G = relaxOffset u η n (factor ℚ k) q c X / (1 - relaxRatio u η n (factor ℚ k) q))
    (hR : ∀ i, relaxRange u η n (factor ℚ k) (a i i) (|b i| + q * |a i i| * (X + E + G)) (X + E + G) ≤ M)
    (w : List (Num rnd)) (hw : k = .jacobi → w.length = n) (j : Nat) :
    ∃ (y : Fin n → ℚ) (w' : List (Num rnd)),
      times (step (floats rnd sqrt) k s m (vec fun i => fin (b i))) j (vec fun i => fin (x i), w) =
        .ok (vec fun i => fin (y i), w') ∧
      ∀ i, |y i - sol i| ≤ relaxRatio u η n (factor ℚ k) q ^ j * E + G := by
  obtain ⟨L, h1, h2, h3, h4, h5⟩ := square_rep hm
  have hu := h.u_nonneg
  have hη := h.η_nonneg
  have hpos : ∀ _ : Fin n, 0 ≤ E ∧ 0 ≤ relaxRatio u η n (factor ℚ k) q ∧ 0 ≤ G := fun i => by
    have hd' : 0 < |a i i| := abs_pos.mpr (hd i)
    have hq0 : 0 ≤ q := by
      have : 0 ≤ q * |a i i| := le_trans (Finset.sum_nonneg fun j _ => by
        split
        · exact le_refl _
        · exact abs_nonneg _) (hq i)
      exact nonneg_of_mul_nonneg_left this hd'
    have hX0 : 0 ≤ X := (abs_nonneg _).trans (hX i)
    have hc0 : 0 ≤ c := le_trans (by positivity) (hc i)
    refine ⟨(abs_nonneg _).trans (hx i), by unfold relaxRatio; positivity, ?_⟩
    rw [hG]
    refine div_nonneg ?_ (by linarith)
    unfold relaxOffset
    have hP : (1 : ℚ) ≤ (1 + u) ^ (n + 5) := one_le_pow₀ (by linarith)
    have : 0 ≤ (1 + u) ^ (n + 5) - 1 := by linarith
    positivity
  have hfix : relaxRatio u η n (factor ℚ k) q * G + relaxOffset u η n (factor ℚ k) q c X = G := by
    rw [hG]
    have : 1 - relaxRatio u η n (factor ℚ k) q ≠ 0 := by linarith
    field_simp
    ring
  obtain ⟨ρ, hρ'⟩ : ∃ ρ, ρ = relaxRatio u η n (factor ℚ k) q := ⟨_, rfl⟩
  obtain ⟨δ, hδ⟩ : ∃ δ, δ = relaxOffset u η n (factor ℚ k) q c X := ⟨_, rfl⟩
  have hrow := fun (i : Fin n) (e : ℚ) (z : Fin n → ℚ) (hz : ∀ j, |z j - sol j| ≤ e) (he : X + e ≤ X + E + G) =>
    relax_bound h hM (sqrt := sqrt) h2 h3 h5 (factor ℚ k) i (hq i) (hd i) (hc i) b sol hsol hX z hz he (hR i)
  rw [← hρ'] at hρ hpos hfix ⊢
  rw [← hδ] at hfix
  -- the iterates
  have main : ∀ j, ∃ (y : Fin n → ℚ) (w' : List (Num rnd)),
      times (step (floats rnd sqrt) k s m (vec fun i => fin (b i))) j (vec fun i => fin (x i), w) =
        .ok (vec fun i => fin (y i), w') ∧ (k = .jacobi → w'.length = n) ∧ ∀ i, |y i - sol i| ≤ ρ ^ j * E + G := by
    intro j
    induction j with
    | zero =>
      refine ⟨x, w, rfl, hw, fun i => ?_⟩
      have := hx i
      have := (hpos i).2.2
      rw [pow_zero, one_mul]
      linarith
    | succ j ih =>
      obtain ⟨y, w', e1, e2, e3⟩ := ih
      obtain ⟨v, w'', f1, f2, f3⟩ := step_gen (floats rnd sqrt) k s h1 h3 h4 (fun i => fin (a i i))
        (fun i => diag_entry h5 i (hd i)) (fun i => fin (b i)) (fun i => fin (y i)) w' e2
      have ho : (if k = .sor then (floats rnd sqrt).threeHalves else (floats rnd sqrt).one) = fin (factor ℚ k) := by
        cases k <;> rfl
      simp only [ho] at f3
      -- values of smaller unknowns first
      have hv : ∀ t, ∀ i : Fin n, i.1 = t → ∃ r, v i = fin r ∧ |r - sol i| ≤ ρ ^ (j + 1) * E + G := by
        intro t
        induction t using Nat.strong_induction_on with
        | _ t iht =>
          rintro i rfl
          obtain ⟨p1, p2, p3⟩ := hpos i
          have hpj : ρ ^ j ≤ 1 := pow_le_one₀ p2 hρ.le
          have hpj0 : 0 ≤ ρ ^ j := pow_nonneg p2 j
          have hstep : ρ ^ (j + 1) * E + G ≤ ρ ^ j * E + G := by
            have : ρ ^ (j + 1) ≤ ρ ^ j := pow_le_pow_of_le_one p2 hρ.le (Nat.le_succ j)
            have := mul_le_mul_of_nonneg_right this p1
            linarith
          have hz : ∀ l : Fin n, ∃ r : ℚ, (if k ≠ .jacobi ∧ l < i then v l else fin (y l)) = fin r ∧
              |r - sol l| ≤ ρ ^ j * E + G := by
            intro l
            by_cases hl : k ≠ .jacobi ∧ l < i
            · obtain ⟨r, g1, g2⟩ := iht l.1 hl.2 l rfl
              exact ⟨r, by rw [if_pos hl, g1], g2.trans hstep⟩
            · exact ⟨y l, by rw [if_neg hl], e3 l⟩
          choose z g1 g2 using hz
          have hle : ρ ^ j * E ≤ E := mul_le_of_le_one_left p1 hpj
          obtain ⟨r, r1, r2⟩ := hrow i (ρ ^ j * E + G) z g2 (by linarith)
          refine ⟨r, ?_, ?_⟩
          · rw [f3 i, funext g1]
            exact r1
          · rw [← hρ', ← hδ] at r2
            refine r2.trans (le_of_eq ?_)
            rw [pow_succ]
            linear_combination hfix
      have hv' : ∀ i : Fin n, ∃ r, v i = fin r ∧ |r - sol i| ≤ ρ ^ (j + 1) * E + G := fun i => hv i.1 i rfl
      choose r r1 r2 using hv'
      refine ⟨r, w'', ?_, f2, r2⟩
      rw [times_succ_right, e1, Out.ok_bind, f1, funext r1]
  obtain ⟨y, w', e1, -, e3⟩ := main j
  exact ⟨y, w', e1, e3⟩

/-- C195: the factor of successive over relaxation for doubles; it is below one if `q` is below one third by a little. -/
theorem c195_ratio {n : Nat} (hn : n + 5 ≤ 2 ^ 52) {q : ℚ} (hq : 0 ≤ q) :
    relaxRatio (1 / 2 ^ 53) (1 / 2 ^ 1075) n (factor ℚ .sor) q ≤ (3 / 2 * q + 1 / 2) * (1 + (n + 5) / 2 ^ 52) + 1 / 2 ^ 1074 := by
  have h1 := c110_ratio hn (q := 3 / 2 * q + 1 / 2) (by positivity)
  refine le_trans (le_of_eq ?_) h1
  unfold relaxRatio sweepRatio
  have e1 : |factor ℚ .sor| = 3 / 2 := by
    show |(3 / 2 : ℚ)| = 3 / 2
    exact abs_of_pos (by norm_num)
  have e2 : |1 - factor ℚ .sor| = 1 / 2 := by
    show |1 - (3 / 2 : ℚ)| = 1 / 2
    rw [abs_of_neg (by norm_num)]; norm_num
  rw [e1, e2]

/-- C195: the error that an iteration of successive over relaxation adds for doubles. -/
theorem c195_offset {n : Nat} (hn : n + 5 ≤ 2 ^ 52) {q c X : ℚ} (hq : 0 ≤ q) (hc : 0 ≤ c) (hX : 0 ≤ X) :
    relaxOffset (1 / 2 ^ 53) (1 / 2 ^ 1075) n (factor ℚ .sor) q c X ≤
      (n + 5) / 2 ^ 52 * ((2 + 3 * q) * X) + 1 / 2 ^ 1074 * (3 / 2 * ((2 * n + 3) * c) + X + 3) := by
  have hp := pow_double hn
  push_cast at hp
  have e1 : |factor ℚ .sor| = 3 / 2 := by
    show |(3 / 2 : ℚ)| = 3 / 2
    exact abs_of_pos (by norm_num)
  have e2 : |1 - factor ℚ .sor| = 1 / 2 := by
    show |1 - (3 / 2 : ℚ)| = 1 / 2
    rw [abs_of_neg (by norm_num)]; norm_num
  unfold relaxOffset
  rw [e1, e2]
  have hP : (1 : ℚ) ≤ (1 + 1 / 2 ^ 53) ^ (n + 5) := one_le_pow₀ (by norm_num)
  have h2 : ((1 + 1 / 2 ^ 53 : ℚ) ^ (n + 5) - 1) * ((3 / 2 * (1 + 2 * q) + 1 / 2) * X) ≤ (n + 5) / 2 ^ 52 * ((2 + 3 * q) * X) := by
    rw [show (3 / 2 * (1 + 2 * q) + 1 / 2 : ℚ) = 2 + 3 * q by ring]
    exact mul_le_mul_of_nonneg_right (by linarith) (by positivity)
  have h3 : (1 + 1 / 2 ^ 53 : ℚ) ^ (n + 4) * (1 / 2 ^ 1075) * ((3 / 2 * (n * (2 + 1 / 2 ^ 53) + 1) + 1) * c + X + 3) ≤
      1 / 2 ^ 1074 * (3 / 2 * ((2 * n + 3) * c) + X + 3) := by
    have h4 : (1 + 1 / 2 ^ 53 : ℚ) ^ (n + 4) ≤ 2 := by
      have h5 := pow_double (n := n + 4) (by omega)
      refine h5.trans ?_
      have h6 : ((n + 4 : Nat) : ℚ) ≤ 2 ^ 52 := by exact_mod_cast (by omega : n + 4 ≤ 2 ^ 52)
      have : ((n + 4 : Nat) : ℚ) / 2 ^ 52 ≤ 1 := by rw [div_le_one (by norm_num)]; exact h6
      linarith
    have h5 : (1 + 1 / 2 ^ 53 : ℚ) ^ (n + 4) * (1 / 2 ^ 1075) ≤ 1 / 2 ^ 1074 := by
      calc _ ≤ 2 * (1 / 2 ^ 1075 : ℚ) := mul_le_mul_of_nonneg_right h4 (by positivity)
        _ = 1 / 2 ^ 1074 := by rw [pow_succ 2 1074]; ring
    have h6 : (n * (2 + 1 / 2 ^ 53) + 2 : ℚ) ≤ 2 * n + 3 := by
      have h7 : (n : ℚ) ≤ 2 ^ 53 := by exact_mod_cast (by omega : n ≤ 2 ^ 53)
      have h8 : (n : ℚ) * (1 / 2 ^ 53) ≤ 1 := by
        rw [mul_one_div, div_le_one (by norm_num)]; exact h7
      linarith
    have h9 : (3 / 2 * (n * (2 + 1 / 2 ^ 53) + 1) + 1) * c ≤ 3 / 2 * ((2 * n + 3) * c) := by
      have := mul_le_mul_of_nonneg_right h6 hc
      nlinarith
    refine mul_le_mul h5 (by linarith) ?_ (by positivity)
    positivity
  exact add_le_add h2 h3

/-- The hypotheses hold for doubles: a system with two unknowns whose solution has to be rounded. -/
example (sqrt : Num binary64 → Num binary64) (s : FixedPoint (Num binary64)) (j : Nat) :
    ∃ (y : Fin 2 → ℚ) (w' : List (Num binary64)),
      times (Iterative.step (floats binary64 sqrt) .sor s (dense2 (fin 4) (fin 1) (fin (-1)) (fin 5))
        (vec fun _ : Fin 2 => fin 1)) j (vec fun _ : Fin 2 => fin 0, []) = .ok (vec fun i => fin (y i), w') ∧
      ∀ i, |y i - ![4 / 21, 5 / 21] i| ≤ (9 / 10) ^ j * (5 / 21) + 1 / 2 ^ 47 := by
  have hm : Square (dense2 (fin 4) (fin 1) (fin (-1)) (fin 5) : Sparse (Num binary64))
      fun i j => fin ((![![4, 1], ![-1, 5]] : Fin 2 → Fin 2 → ℚ) i j) := by
    refine ⟨Built.ofLists (nz := [0, 2, 4]) (ix := [0, 1, 0, 1]) (vs := [fin 4, fin 1, fin (-1), fin 5]) (c := 2)
      (by simp [sizeMax]) (by simp [sizeMax]) (dense2_lists _ _ _ _), rfl, rfl, ?_⟩
    intro i j
    fin_cases i <;> fin_cases j <;> rfl
  have hρ : relaxRatio (1 / 2 ^ 53) (1 / 2 ^ 1075) 2 (factor ℚ .sor) (1 / 4) < 9 / 10 := by decide +kernel
  have hρ0 : 0 ≤ relaxRatio (1 / 2 ^ 53) (1 / 2 ^ 1075) 2 (factor ℚ .sor) (1 / 4) := by decide +kernel
  have hG : relaxOffset (1 / 2 ^ 53) (1 / 2 ^ 1075) 2 (factor ℚ .sor) (1 / 4) (1 / 4) (5 / 21) /
      (1 - relaxRatio (1 / 2 ^ 53) (1 / 2 ^ 1075) 2 (factor ℚ .sor) (1 / 4)) ≤ 1 / 2 ^ 47 := by decide +kernel
  obtain ⟨y, w', e1, e2⟩ := c195_dominant rounds_binary64 c100_range sqrt .sor s _ _ hm (q := 1 / 4) (c := 1 / 4)
    (X := 5 / 21) (E := 5 / 21) (by decide +kernel) (by decide +kernel) (by decide +kernel) (fun _ => 1) ![4 / 21, 5 / 21]
    (by unfold Solves; decide +kernel) (by decide +kernel) (fun _ => 0) (by decide +kernel) (hρ.trans (by norm_num)) rfl (by decide +kernel) []
    (by simp) j
  refine ⟨y, w', e1, fun i => (e2 i).trans ?_⟩
  gcongr

end Disa.Props
