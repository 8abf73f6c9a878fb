import Verif.Solver.SweepFloat
import Verif.Props.Iterative
import Verif.Props.Residual
import Verif.Props.LuFloat

/-!
# Properties C109 and C110: rounding errors of iterative solvers
-/

namespace Disa.Props

open Disa Spec Dense Num Sparse Iterative

/-- What one iteration of each method computes, in any arithmetic. -/
theorem step_gen {S N : Type} [Zero S] [Add S] [Sub S] [Mul S] [Div S] (F : Scalars S N) (k : Method) (s : FixedPoint S) {n : Nat}
    {m : Sparse S} {L : Rows S} (h1 : m.Rep L) (h3 : Bounded n L) (h4 : L.length = n) (D : Fin n → S)
    (hd : ∀ i : Fin n, entry L i i = some (D i)) (b x : Fin n → S) (w : List S) (hw : k = .jacobi → w.length = n) :
    ∃ (y : Fin n → S) (w' : List S), step F k s m (vec b) (vec x, w) = .ok (vec y, w') ∧ (k = .jacobi → w'.length = n) ∧
      ∀ i, y i = newValue F L b (if k = .sor then F.threeHalves else F.one) (D i)
        (fun j => if k ≠ .jacobi ∧ j < i then y j else x j) i := by
  have hn : m.sizeRow = n := by rw [h1.sizeRow, h4]
  have hR : ∀ (omega : S) (i : Fin n) (x : Option (List S)) (u y : Fin n → S), x.getD (vec u) = vec y →
      sweepRow F m (vec b) omega x i (vec u) = .ok (vec fun k => if k = i then newValue F L b omega (D i) y i else u k) :=
    fun omega i x u y hx => sweepRow_gen h1 h3 h4 b omega (D i) i (hd i) x u y hx
  cases k with
  | jacobi =>
    obtain ⟨u, rfl⟩ : ∃ u : Fin n → S, w = vec u := by
      have := hw rfl
      refine ⟨fun i => w[i.1]'(by rw [this]; exact i.2), ?_⟩
      apply List.ext_getElem
      · simp [this]
      · intro k h1 h2; simp [vec]
    have e1 := jacobi_gen (R := fun y i => newValue F L b F.one (D i) y i) hn (hR F.one) x u
    refine ⟨fun i => newValue F L b F.one (D i) x i, vec x, ?_, by simp, fun i => ?_⟩
    · unfold Iterative.step
      simp only [e1, Out.ok_bind, Out.pure_eq]
    · simp
  | gaussSeidel =>
    obtain ⟨y, e1, e2⟩ := inplace_gen (R := fun y i => newValue F L b F.one (D i) y i) hn (hR F.one) x
    refine ⟨y, w, ?_, by simp, fun i => ?_⟩
    · unfold Iterative.step
      simp only [e1, Out.ok_bind, Out.pure_eq]
    · rw [e2 i]
      simp
  | sor =>
    obtain ⟨y, e1, e2⟩ := inplace_gen (R := fun y i => newValue F L b F.threeHalves (D i) y i) hn (hR F.threeHalves) x
    refine ⟨y, w, ?_, by simp, fun i => ?_⟩
    · unfold Iterative.step
      simp only [e1, Out.ok_bind, Out.pure_eq]
    · rw [e2 i]
      simp

variable {rnd : ℚ → Fl} {u η : ℚ}

/-- The stored diagonal of a matrix with finite elements. -/
theorem diag_entry {n : Nat} {L : Rows (Num rnd)} {a : Fin n → Fin n → ℚ}
    (hA : ∀ i j : Fin n, (entry L i j).getD 0 = fin (a i j)) (i : Fin n) (hd : a i i ≠ 0) :
    entry L i i = some (fin (a i i)) := by
  have h6 := hA i i
  cases he : entry L i i with
  | none =>
    rw [he] at h6
    exact absurd (fin_inj.mp (show (fin 0 : Num rnd) = fin (a i i) from h6)).symm hd
  | some v => rw [he] at h6; rw [← h6]; rfl

/-- C109: the rounding error of the new value of each unknown in one iteration. -/
theorem c109_step (h : Rounds rnd u η) (sqrt : Num rnd → Num rnd) (k : Method) (s : FixedPoint (Num rnd)) {n : Nat}
    (m : Sparse (Num rnd)) (a : Fin n → Fin n → ℚ) (hm : Square m fun i j => (fin (a i j) : Num rnd)) (hd : ∀ i, a i i ≠ 0)
    (b x y : Fin n → ℚ) (w w' : List (Num rnd)) (hw : k = .jacobi → w.length = n)
    (hy : step (floats rnd sqrt) k s m (vec fun i => fin (b i)) (vec fun i => fin (x i), w) = .ok (vec fun i => fin (y i), w'))
    (i : Fin n) (z : Fin n → ℚ) (hz : ∀ j, z j = if k ≠ .jacobi ∧ j < i then y j else x j) :
    |y i - (factor ℚ k * (b i - ∑ j, if j = i then 0 else a i j * z j) / a i i + (1 - factor ℚ k) * x i)| ≤
      sweepError u η n (factor ℚ k) (a i i) (|b i| + ∑ j, if j = i then 0 else |a i j * z j|) (x i) := by
  obtain ⟨L, h1, h2, h3, h4, h5⟩ := square_rep hm
  obtain ⟨y', w'', e1, -, e3⟩ := step_gen (floats rnd sqrt) k s h1 h3 h4 (fun i => fin (a i i)) (fun i => diag_entry h5 i (hd i))
    (fun i => fin (b i)) (fun i => fin (x i)) w hw
  rw [hy, Out.ok.injEq, Prod.mk.injEq, vec_inj] at e1
  obtain ⟨rfl, -⟩ := e1
  have e4 := e3 i
  have ho : (if k = .sor then (floats rnd sqrt).threeHalves else (floats rnd sqrt).one) = fin (factor ℚ k) := by
    cases k <;> rfl
  have hz' : (fun j => if k ≠ .jacobi ∧ j < i then (fin (y j) : Num rnd) else fin (x j)) = fun j => fin (z j) := by
    funext j
    rw [hz j]
    split <;> rfl
  rw [ho, hz'] at e4
  have := newValue_error h h2 h3 h5 b z (factor ℚ k) i (hd i) (y i) e4.symm
  have hzi : z i = x i := by rw [hz i]; simp
  unfold relaxed Iterative.off offAbs at this
  rwa [hzi] at this

/-! ### C110 -/

theorem offAbs_le {n : Nat} (a : Fin n → Fin n → ℚ) (z : Fin n → ℚ) (i : Fin n) {q B : ℚ} (hz : ∀ j, |z j| ≤ B) (hB : 0 ≤ B)
    (hq : (∑ j, if j = i then 0 else |a i j|) ≤ q * |a i i|) : offAbs a z i ≤ q * |a i i| * B := by
  refine le_trans ?_ (mul_le_mul_of_nonneg_right hq hB)
  unfold offAbs
  rw [Finset.sum_mul]
  refine Finset.sum_le_sum fun j _ => ?_
  split
  · simp
  · rw [abs_mul]
    exact mul_le_mul_of_nonneg_left (hz j) (abs_nonneg _)

theorem sweepRange_mono (h : Rounds rnd u η) (n : Nat) (a : ℚ) {s s' x x' : ℚ} (hs : s ≤ s') (hx : |x| ≤ |x'|) :
    sweepRange u η n a s x ≤ sweepRange u η n a s' x' := by
  have hu := h.u_nonneg
  have hη := h.η_nonneg
  unfold sweepRange
  gcongr

/-- The new value of an unknown when all values are close to the solution. -/
theorem row_bound (h : Rounds rnd u η) {M : ℚ} (hM : Range rnd M) {sqrt : Num rnd → Num rnd} {n : Nat} {L : Rows (Num rnd)}
    {a : Fin n → Fin n → ℚ} (hs : Sorted L) (hb : Bounded n L) (hA : ∀ i j : Fin n, (entry L i j).getD 0 = fin (a i j))
    {q c X e B : ℚ} (i : Fin n) (hq : (∑ j, if j = i then 0 else |a i j|) ≤ q * |a i i|) (hd : a i i ≠ 0) (hc : 1 / |a i i| ≤ c)
    (b sol : Fin n → ℚ) (hsol : Solves a sol b) (hX : ∀ j, |sol j| ≤ X) (z : Fin n → ℚ) (hz : ∀ j, |z j - sol j| ≤ e)
    (heB : X + e ≤ B) (hR : sweepRange u η n (a i i) (|b i| + q * |a i i| * B) B ≤ M) :
    ∃ r, newValue (floats rnd sqrt) L (fun i => fin (b i)) (fin 1) (fin (a i i)) (fun j => fin (z j)) i = fin r ∧
      |r - sol i| ≤ sweepRatio u η n q * e + sweepOffset u η n q c X := by
  have hu := h.u_nonneg
  have hη := h.η_nonneg
  have he0 : 0 ≤ e := (abs_nonneg _).trans (hz i)
  have hX0 : 0 ≤ X := (abs_nonneg _).trans (hX i)
  have hd' : 0 < |a i i| := abs_pos.mpr hd
  have hq0 : 0 ≤ q := by
    have : 0 ≤ q * |a i i| := le_trans (Finset.sum_nonneg fun j _ => by
      split
      · exact le_refl _
      · exact abs_nonneg _) hq
    exact nonneg_of_mul_nonneg_left this hd'
  have hzX : ∀ j, |z j| ≤ X + e := fun j => by
    have := abs_add_le (sol j) (z j - sol j)
    rw [add_sub_cancel] at this
    linarith [hX j, hz j]
  have hoff := offAbs_le a z i hzX (by linarith) hq
  have hoff' : offAbs a z i ≤ q * |a i i| * B := hoff.trans (mul_le_mul_of_nonneg_left heB (by positivity))
  have hzB : |z i| ≤ |B| := ((hzX i).trans heB).trans (le_abs_self B)
  obtain ⟨r, hr⟩ := newValue_finite h hs hb hA (sqrt := sqrt) hM b z i hd
    ((sweepRange_mono h n (a i i) (by linarith) hzB).trans hR)
  refine ⟨r, hr, ?_⟩
  have h1 := newValue_error h hs hb hA b z 1 i hd r hr
  have h2 : |relaxed a b 1 z i - sol i| ≤ q * e := by
    rw [relaxed_error a b sol z hsol hd]
    exact off_bound a (fun j => z j - sol j) i q e (fun j _ => hz j) he0 hq hd
  have hbi : |b i| ≤ |a i i| * ((1 + q) * X) := by
    have h3 := hsol i
    rw [off_add] at h3
    have h4 := (off_le a sol i).trans (offAbs_le a sol i hX hX0 hq)
    have h5 : |a i i * sol i| ≤ |a i i| * X := by
      rw [abs_mul]; exact mul_le_mul_of_nonneg_left (hX i) hd'.le
    rw [← h3]
    refine (abs_add_le _ _).trans ?_
    linarith
  have hs : (|b i| + offAbs a z i) / |a i i| ≤ (1 + 2 * q) * X + q * e := by
    rw [div_le_iff₀ hd']
    linarith
  have hP : (1 : ℚ) ≤ (1 + u) ^ (n + 5) := one_le_pow₀ (by linarith)
  have hP4 : (0 : ℚ) ≤ (1 + u) ^ (n + 4) * η := by positivity
  have hk : (0 : ℚ) ≤ n * (2 + u) := by positivity
  have h6 : sweepError u η n 1 (a i i) (|b i| + offAbs a z i) (z i) ≤
      ((1 + u) ^ (n + 5) - 1) * ((1 + 2 * q) * X + q * e) +
        (1 + u) ^ (n + 4) * η * ((n * (2 + u) + 2) * c + (X + e) + 3) := by
    unfold sweepError
    rw [abs_one, sub_self, abs_zero, zero_mul, add_zero, one_mul, one_mul]
    have h7 : (n * (2 + u) + 1 + 1) / |a i i| ≤ (n * (2 + u) + 2) * c := by
      rw [div_eq_mul_one_div, add_assoc, one_add_one_eq_two]
      exact mul_le_mul_of_nonneg_left hc (by linarith)
    refine add_le_add (mul_le_mul_of_nonneg_left hs (by linarith)) (mul_le_mul_of_nonneg_left ?_ hP4)
    linarith [hzX i]
  have h8 := abs_add_le (r - relaxed a b 1 z i) (relaxed a b 1 z i - sol i)
  rw [sub_add_sub_cancel] at h8
  refine h8.trans ?_
  unfold sweepRatio sweepOffset
  have e1 : (q * (1 + u) ^ (n + 5) + (1 + u) ^ (n + 4) * η) * e + (((1 + u) ^ (n + 5) - 1) * ((1 + 2 * q) * X) +
      (1 + u) ^ (n + 4) * η * ((n * (2 + u) + 2) * c + X + 3)) = ((1 + u) ^ (n + 5) - 1) * ((1 + 2 * q) * X + q * e) +
        (1 + u) ^ (n + 4) * η * ((n * (2 + u) + 2) * c + (X + e) + 3) + q * e := by ring
  linarith

/-- C110: the Jacobi and Gauss Seidel iterations with rounding, for a dominant matrix.  None of the iterates overflows, and their
distance to the solution shrinks to a multiple of the rounding error. -/
theorem c110_dominant (h : Rounds rnd u η) {M : ℚ} (hM : Range rnd M) (sqrt : Num rnd → Num rnd) (k : Method) (hk : k ≠ .sor)
    (s : FixedPoint (Num rnd)) {n : Nat} (m : Sparse (Num rnd)) (a : Fin n → Fin n → ℚ)
    (hm : Square m fun i j => (fin (a i j) : Num rnd)) {q c X E G : ℚ}
    (hq : ∀ i, (∑ j, if j = i then 0 else |a i j|) ≤ q * |a i i|) (hd : ∀ i, a i i ≠ 0) (hc : ∀ i, 1 / |a i i| ≤ c)
    (b sol : Fin n → ℚ) (hsol : Solves a sol b) (hX : ∀ j, |sol j| ≤ X) (x : Fin n → ℚ) (hx : ∀ j, |x j - sol j| ≤ E)
    (hρ : sweepRatio u η n q < 1) (hG : G = sweepOffset u η n q c X / (1 - sweepRatio u η n q))
    (hR : ∀ i, sweepRange u η n (a i i) (|b i| + q * |a i i| * (X + E + G)) (X + E + G) ≤ M)
    (w : List (Num rnd)) (hw : k = .jacobi → w.length = n) (j : Nat) :
    ∃ (y : Fin n → ℚ) (w' : List (Num rnd)),
      times (step (floats rnd sqrt) k s m (vec fun i => fin (b i))) j (vec fun i => fin (x i), w) =
        .ok (vec fun i => fin (y i), w') ∧
      ∀ i, |y i - sol i| ≤ sweepRatio u η n q ^ j * E + G := by
  obtain ⟨L, h1, h2, h3, h4, h5⟩ := square_rep hm
  have hu := h.u_nonneg
  have hη := h.η_nonneg
  have hpos : ∀ _ : Fin n, 0 ≤ E ∧ 0 ≤ sweepRatio u η n q ∧ 0 ≤ G := fun i => by
    have hd' : 0 < |a i i| := abs_pos.mpr (hd i)
    have hq0 : 0 ≤ q := by
      have : 0 ≤ q * |a i i| := le_trans (Finset.sum_nonneg fun j _ => by
        split
        · exact le_refl _
        · exact abs_nonneg _) (hq i)
      exact nonneg_of_mul_nonneg_left this hd'
    have hX0 : 0 ≤ X := (abs_nonneg _).trans (hX i)
    have hc0 : 0 ≤ c := le_trans (by positivity) (hc i)
    refine ⟨(abs_nonneg _).trans (hx i), by unfold sweepRatio; positivity, ?_⟩
    rw [hG]
    refine div_nonneg ?_ (by linarith)
    unfold sweepOffset
    have hP : (1 : ℚ) ≤ (1 + u) ^ (n + 5) := one_le_pow₀ (by linarith)
    have : 0 ≤ (1 + u) ^ (n + 5) - 1 := by linarith
    positivity
  have hfix : sweepRatio u η n q * G + sweepOffset u η n q c X = G := by
    rw [hG]
    have : 1 - sweepRatio u η n q ≠ 0 := by linarith
    field_simp
    ring
  obtain ⟨ρ, hρ'⟩ : ∃ ρ, ρ = sweepRatio u η n q := ⟨_, rfl⟩
  obtain ⟨δ, hδ⟩ : ∃ δ, δ = sweepOffset u η n q c X := ⟨_, rfl⟩
  have hrow := fun (i : Fin n) (e : ℚ) (z : Fin n → ℚ) (hz : ∀ j, |z j - sol j| ≤ e) (he : X + e ≤ X + E + G) =>
    row_bound h hM (sqrt := sqrt) h2 h3 h5 i (hq i) (hd i) (hc i) b sol hsol hX z hz he (hR i)
  rw [← hρ'] at hρ hpos hfix ⊢
  rw [← hδ] at hfix
  -- the iterates
  have main : ∀ j, ∃ (y : Fin n → ℚ) (w' : List (Num rnd)),
      times (step (floats rnd sqrt) k s m (vec fun i => fin (b i))) j (vec fun i => fin (x i), w) =
        .ok (vec fun i => fin (y i), w') ∧ (k = .jacobi → w'.length = n) ∧ ∀ i, |y i - sol i| ≤ ρ ^ j * E + G := by
    intro j
    induction j with
    | zero =>
      refine ⟨x, w, rfl, hw, fun i => ?_⟩
      have := hx i
      have := (hpos i).2.2
      rw [pow_zero, one_mul]
      linarith
    | succ j ih =>
      obtain ⟨y, w', e1, e2, e3⟩ := ih
      obtain ⟨v, w'', f1, f2, f3⟩ := step_gen (floats rnd sqrt) k s h1 h3 h4 (fun i => fin (a i i))
        (fun i => diag_entry h5 i (hd i)) (fun i => fin (b i)) (fun i => fin (y i)) w' e2
      have ho : (if k = .sor then (floats rnd sqrt).threeHalves else (floats rnd sqrt).one) = fin 1 := by
        rw [if_neg hk]; rfl
      simp only [ho] at f3
      -- values of smaller unknowns first
      have hv : ∀ t, ∀ i : Fin n, i.1 = t → ∃ r, v i = fin r ∧ |r - sol i| ≤ ρ ^ (j + 1) * E + G := by
        intro t
        induction t using Nat.strong_induction_on with
        | _ t iht =>
          rintro i rfl
          obtain ⟨p1, p2, p3⟩ := hpos i
          have hpj : ρ ^ j ≤ 1 := pow_le_one₀ p2 hρ.le
          have hpj0 : 0 ≤ ρ ^ j := pow_nonneg p2 j
          have hstep : ρ ^ (j + 1) * E + G ≤ ρ ^ j * E + G := by
            have : ρ ^ (j + 1) ≤ ρ ^ j := pow_le_pow_of_le_one p2 hρ.le (Nat.le_succ j)
            have := mul_le_mul_of_nonneg_right this p1
            linarith
          have hz : ∀ l : Fin n, ∃ r : ℚ, (if k ≠ .jacobi ∧ l < i then v l else fin (y l)) = fin r ∧
              |r - sol l| ≤ ρ ^ j * E + G := by
            intro l
            by_cases hl : k ≠ .jacobi ∧ l < i
            · obtain ⟨r, g1, g2⟩ := iht l.1 hl.2 l rfl
              exact ⟨r, by rw [if_pos hl, g1], g2.trans hstep⟩
            · exact ⟨y l, by rw [if_neg hl], e3 l⟩
          choose z g1 g2 using hz
          have hle : ρ ^ j * E ≤ E := mul_le_of_le_one_left p1 hpj
          obtain ⟨r, r1, r2⟩ := hrow i (ρ ^ j * E + G) z g2 (by linarith)
          refine ⟨r, ?_, ?_⟩
          · rw [f3 i, funext g1]
            exact r1
          · rw [← hρ', ← hδ] at r2
            refine r2.trans (le_of_eq ?_)
            rw [pow_succ]
            linear_combination hfix
      have hv' : ∀ i : Fin n, ∃ r, v i = fin r ∧ |r - sol i| ≤ ρ ^ (j + 1) * E + G := fun i => hv i.1 i rfl
      choose r r1 r2 using hv'
      refine ⟨r, w'', ?_, f2, r2⟩
      rw [times_succ_right, e1, Out.ok_bind, f1, funext r1]
  obtain ⟨y, w', e1, -, e3⟩ := main j
  exact ⟨y, w', e1, e3⟩

theorem pow_double {n : Nat} (hn : n ≤ 2 ^ 52) : (1 + 1 / 2 ^ 53 : ℚ) ^ n ≤ 1 + n / 2 ^ 52 := by
  have h1 := c102_relError hn
  unfold relError at h1
  have h2 : (1 + 1 / 2 ^ 53 : ℚ) ^ n ≤ (1 / (1 - 1 / 2 ^ 53)) ^ n := pow_le_pow_left₀ (by norm_num) (by norm_num) n
  linarith

/-- C110: the factor for doubles. -/
theorem c110_ratio {n : Nat} (hn : n + 5 ≤ 2 ^ 52) {q : ℚ} (hq : 0 ≤ q) :
    sweepRatio (1 / 2 ^ 53) (1 / 2 ^ 1075) n q ≤ q * (1 + (n + 5) / 2 ^ 52) + 1 / 2 ^ 1074 := by
  have h1 := pow_double hn
  have h2 := pow_double (n := n + 4) (by omega)
  have h3 : ((n + 4 : Nat) : ℚ) ≤ 2 ^ 52 := by exact_mod_cast (by omega : n + 4 ≤ 2 ^ 52)
  have h4 : (1 + 1 / 2 ^ 53 : ℚ) ^ (n + 4) ≤ 2 := by
    refine h2.trans ?_
    have : ((n + 4 : Nat) : ℚ) / 2 ^ 52 ≤ 1 := by rw [div_le_one (by norm_num)]; exact h3
    linarith
  unfold sweepRatio
  push_cast at h1
  refine add_le_add (mul_le_mul_of_nonneg_left h1 hq) ?_
  calc (1 + 1 / 2 ^ 53 : ℚ) ^ (n + 4) * (1 / 2 ^ 1075) ≤ 2 * (1 / 2 ^ 1075) := mul_le_mul_of_nonneg_right h4 (by positivity)
    _ = 1 / 2 ^ 1074 := by rw [pow_succ 2 1074]; ring

/-- C110: the error that an iteration adds for doubles. -/
theorem c110_offset {n : Nat} (hn : n + 5 ≤ 2 ^ 52) {q c X : ℚ} (hq : 0 ≤ q) (hc : 0 ≤ c) (hX : 0 ≤ X) :
    sweepOffset (1 / 2 ^ 53) (1 / 2 ^ 1075) n q c X ≤
      (n + 5) / 2 ^ 52 * ((1 + 2 * q) * X) + 1 / 2 ^ 1074 * ((2 * n + 3) * c + X + 3) := by
  have h1 := pow_double hn
  have h2 := pow_double (n := n + 4) (by omega)
  have h3 : ((n + 4 : Nat) : ℚ) ≤ 2 ^ 52 := by exact_mod_cast (by omega : n + 4 ≤ 2 ^ 52)
  have h4 : (1 + 1 / 2 ^ 53 : ℚ) ^ (n + 4) ≤ 2 := by
    refine h2.trans ?_
    have : ((n + 4 : Nat) : ℚ) / 2 ^ 52 ≤ 1 := by rw [div_le_one (by norm_num)]; exact h3
    linarith
  unfold sweepOffset
  push_cast at h1
  have h5 : (1 + 1 / 2 ^ 53 : ℚ) ^ (n + 4) * (1 / 2 ^ 1075) ≤ 1 / 2 ^ 1074 := by
    calc _ ≤ 2 * (1 / 2 ^ 1075 : ℚ) := mul_le_mul_of_nonneg_right h4 (by positivity)
      _ = 1 / 2 ^ 1074 := by rw [pow_succ 2 1074]; ring
  have h6 : (n * (2 + 1 / 2 ^ 53) + 2 : ℚ) ≤ 2 * n + 3 := by
    have h7 : (n : ℚ) ≤ 2 ^ 53 := by exact_mod_cast (by omega : n ≤ 2 ^ 53)
    have h8 : (n : ℚ) * (1 / 2 ^ 53) ≤ 1 := by
      rw [mul_one_div, div_le_one (by norm_num)]; exact h7
    linarith
  have h9 := mul_le_mul_of_nonneg_right h6 hc
  refine add_le_add (mul_le_mul_of_nonneg_right (by linarith) (by positivity)) (mul_le_mul h5 (by linarith) ?_ (by positivity))
  positivity

/-- The hypotheses hold for doubles: a system with two unknowns whose solution has to be rounded. -/
example (sqrt : Num binary64 → Num binary64) (s : FixedPoint (Num binary64)) (j : Nat) :
    ∃ (y : Fin 2 → ℚ) (w' : List (Num binary64)),
      times (Iterative.step (floats binary64 sqrt) .gaussSeidel s (dense2 (fin 4) (fin 1) (fin (-2)) (fin 5))
        (vec fun _ : Fin 2 => fin 1)) j (vec fun _ : Fin 2 => fin 0, []) = .ok (vec fun i => fin (y i), w') ∧
      ∀ i, |y i - ![2 / 11, 3 / 11] i| ≤ (2 / 3) ^ j * (3 / 11) + 1 / 2 ^ 50 := by
  have hm : Square (dense2 (fin 4) (fin 1) (fin (-2)) (fin 5) : Sparse (Num binary64))
      fun i j => fin ((![![4, 1], ![-2, 5]] : Fin 2 → Fin 2 → ℚ) i j) := by
    refine ⟨Built.ofLists (nz := [0, 2, 4]) (ix := [0, 1, 0, 1]) (vs := [fin 4, fin 1, fin (-2), fin 5]) (c := 2)
      (by simp [sizeMax]) (by simp [sizeMax]) (dense2_lists _ _ _ _), rfl, rfl, ?_⟩
    intro i j
    fin_cases i <;> fin_cases j <;> rfl
  have hρ : sweepRatio (1 / 2 ^ 53) (1 / 2 ^ 1075) 2 (2 / 5) < 2 / 3 := by decide +kernel
  have hρ0 : 0 ≤ sweepRatio (1 / 2 ^ 53) (1 / 2 ^ 1075) 2 (2 / 5) := by decide +kernel
  have hG : sweepOffset (1 / 2 ^ 53) (1 / 2 ^ 1075) 2 (2 / 5) (1 / 4) (3 / 11) /
      (1 - sweepRatio (1 / 2 ^ 53) (1 / 2 ^ 1075) 2 (2 / 5)) ≤ 1 / 2 ^ 50 := by decide +kernel
  obtain ⟨y, w', e1, e2⟩ := c110_dominant rounds_binary64 c100_range sqrt .gaussSeidel (by simp) s _ _ hm (q := 2 / 5) (c := 1 / 4)
    (X := 3 / 11) (E := 3 / 11) (by decide +kernel) (by decide +kernel) (by decide +kernel) (fun _ => 1) ![2 / 11, 3 / 11]
    (by unfold Solves; decide +kernel) (by decide +kernel) (fun _ => 0) (by decide +kernel) (hρ.trans (by norm_num)) rfl (by decide +kernel) []
    (by simp) j
  refine ⟨y, w', e1, fun i => (e2 i).trans ?_⟩
  gcongr

end Disa.Props
