import Verif.Solver.Same
import Verif.Props.Residual

/-!
# Property C139: the same vector as constants and as solution

An iterative solver is called with one vector in both places.
-/

namespace Disa.Props

open Disa Spec Disa.Dense Iterative

/-! ### One iteration -/

theorem loop_congr_inv {σ : Type} {f g : Nat → σ → Out σ} (I : Nat → σ → Prop) {n : Nat} {s : σ} (h0 : I 0 s)
    (he : ∀ i s, i < n → I i s → f i s = g i s) (hs : ∀ i s s', i < n → I i s → f i s = .ok s' → I (i + 1) s') :
    loop n f s = loop n g s := by
  induction n with
  | zero => rfl
  | succ n ih =>
    have h1 := ih (fun i s hi => he i s (by omega)) (fun i s s' hi => hs i s s' (by omega))
    simp only [loop]
    rw [← h1]
    cases h2 : loop n f s with
    | ok t =>
      have := loop_inv_of_ok I h0 (fun i s s' hi => hs i s s' (by omega)) h2
      exact he n t (by omega) this
    | _ => rfl

section generic

variable {S N : Type} [Zero S] [Add S] [Sub S] [Mul S] [Div S]

theorem sweepRow_parts {F : Scalars S N} {m : Sparse S} {b : List S} {omega : S} {x : Option (List S)} {i : Nat} {u u' : List S}
    (h : sweepRow F m b omega x i u = .ok u') : u'.length = u.length ∧ ∀ j, j ≠ i → u'[j]? = u[j]? := by
  unfold sweepRow at h
  simp only [Out.bind_eq_ok] at h
  obtain ⟨-, -, d, -, c, -, a, -, y, -, h⟩ := h
  unfold wr at h
  split at h
  · simp only [Out.ok.injEq] at h
    subst h
    exact ⟨List.length_set, fun j hj => List.getElem?_set_ne (Ne.symm hj)⟩
  · cases h

theorem sweepRow_constants {F : Scalars S N} {m : Sparse S} {b b' : List S} {omega : S} {x : Option (List S)} {i : Nat}
    {u : List S} (h : b[i]? = b'[i]?) : sweepRow F m b omega x i u = sweepRow F m b' omega x i u := by
  unfold sweepRow rd
  rw [h]

theorem forwardSweepSame_inplace (F : Scalars S N) (m : Sparse S) (omega : S) (b : List S) :
    forwardSweepSame F m omega none b = forwardSweep F m b omega none b := by
  unfold forwardSweepSame forwardSweep
  refine loop_congr_inv (fun i u => ∀ j, i ≤ j → u[j]? = b[j]?) (fun _ _ => rfl) (fun i u _ hI => ?_)
    (fun i u u' _ hI h j hj => ?_)
  · exact sweepRow_constants (hI i (le_refl _))
  · rw [(sweepRow_parts h).2 j (by omega)]
    exact hI j (by omega)

/-- The first iteration is that of a call with a copy of the constants: for every matrix, every method and every arithmetic. -/
theorem c139_first (F : Scalars S N) (k : Method) (s : FixedPoint S) (m : Sparse S) (b w : List S) :
    stepSame F k m (b, w) = step F k s m b (b, w) := by
  cases k with
  | jacobi => rfl
  | gaussSeidel => simp only [stepSame, step, forwardSweepSame_inplace]
  | sor => simp only [stepSame, step, forwardSweepSame_inplace]

/-- Whether and how a computation returns. -/
def shape {α : Type} (o : Out α) : Out Unit := o >>= fun _ => .ok ()

theorem shape_bind {α β γ δ : Type} {o : Out α} {p : Out β} {f : α → Out γ} {g : β → Out δ} (h : shape o = shape p)
    (hf : ∀ a b, shape (f a) = shape (g b)) : shape (o >>= f) = shape (p >>= g) := by
  cases o <;> cases p <;> simp [shape] at h ⊢ <;> first | exact h | exact hf _ _

theorem shape_loop {σ τ : Type} {f : Nat → σ → Out σ} {g : Nat → τ → Out τ} {n : Nat} {s : σ} {t : τ}
    (h : ∀ i, i < n → ∀ s t, shape (f i s) = shape (g i t)) : shape (loop n f s) = shape (loop n g t) := by
  induction n with
  | zero => rfl
  | succ n ih => exact shape_bind (ih fun i hi => h i (by omega)) (h n (by omega))

theorem shape_rd {α : Type} {v w : List α} (h : v.length = w.length) (i : Nat) : shape (rd v i) = shape (rd w i) := by
  by_cases hi : i < v.length
  · rw [rd_ok hi, rd_ok (h ▸ hi)]; rfl
  · rw [rd_ub (by omega), rd_ub (by omega)]

theorem update_shape {F : Scalars S N} {m : Sparse S} {x b b' : List S} (h : b.length = b'.length) (d : Conv S N) :
    shape (update F m x b d) = shape (update F m x b' d) := by
  unfold update
  refine shape_bind ?_ fun _ _ => rfl
  unfold computeResidual
  rw [h]
  refine shape_bind rfl fun _ _ => shape_bind rfl fun _ _ => shape_bind rfl fun _ _ => shape_bind ?_ fun _ _ => rfl
  refine shape_loop fun i _ s t => ?_
  unfold residualBody
  refine shape_bind rfl fun _ _ => shape_bind rfl fun _ _ => shape_bind (shape_rd h i) fun _ _ => ?_
  split <;> rfl

theorem step_length {F : Scalars S N} {k : Method} {s : FixedPoint S} {m : Sparse S} {b x w : List S} {v : List S × List S}
    (h : step F k s m b (x, w) = .ok v) (hw : k = .jacobi → w.length = x.length) : v.1.length = x.length := by
  have hs : ∀ (omega : S) (y : Option (List S)) (u u' : List S), forwardSweep F m b omega y u = .ok u' → u'.length = u.length :=
    fun omega y u u' h => loop_inv_of_ok (fun _ t => t.length = u.length) rfl
      (fun i t t' _ hI h => (sweepRow_parts h).1.trans hI) h
  unfold step at h
  cases k <;> simp only [Out.bind_eq_ok, Out.pure_eq, Out.ok.injEq] at h <;> obtain ⟨u, h1, rfl⟩ := h
  · exact (hs _ _ _ _ h1).trans (hw rfl)
  · exact hs _ _ _ _ h1
  · exact hs _ _ _ _ h1

theorem conv_one {F : Scalars S N} {m : Sparse S} {x b : List S} {d : Conv S N} (h : update F m x b (Conv.new F) = .ok d) :
    d.iteration = 1 := by
  unfold update at h
  simp only [Out.bind_eq_ok] at h
  obtain ⟨r, -, h⟩ := h
  simp only [Out.pure_eq, Out.ok.injEq] at h
  rw [← h]
  rfl

theorem while_once {σ : Type} {c : σ → Bool} {f : σ → Out σ} {fuel : Nat} {s : σ}
    (h : ∀ t, f s = .ok t → c t = false) (hf : 0 < fuel) : whileFuel c f fuel s = if c s then f s else .ok s := by
  cases fuel with
  | zero => omega
  | succ fuel =>
    simp only [whileFuel]
    split
    · cases h1 : f s with
      | ok t =>
        have h2 := h t h1
        simp only [Out.ok_bind]
        cases fuel <;> simp [whileFuel, h2]
      | _ => rfl
    · rfl

/-- The vector that a call leaves. -/
def result {α β : Type} (o : Out (α × β)) : Out α := o >>= fun r => .ok r.1

end generic

/-! ### The claim -/

/-- A call with one vector in both places leaves the solution that a call with a copy of the constants leaves. -/
def C139 : Prop := ∀ (n : Nat) (m : Sparse ℝ) (A : Fin n → Fin n → ℝ), Square m A → (∀ i, A i i ≠ 0) →
  ∀ (s : Solver ℝ) (b : Fin n → ℝ) (fuel : Nat) (r : List ℝ × Conv ℝ Quot × Solver ℝ),
    Solver.solveSparse reals s m (vec b) (vec b) fuel = .ok r →
    ∃ fuel' r', Solver.solveSparseSame reals s m (vec b) fuel' = .ok r' ∧ r'.1 = r.1

/-- One iteration leaves what a call with a copy of the constants leaves: for every solver that a configuration of at most one
iteration gives, every matrix and every arithmetic. -/
theorem c139_partial {S N : Type} [Zero S] [Add S] [Sub S] [Mul S] [Div S] (F : Scalars S N) (c : SolverConfig S) (s : Solver S)
    (hc : c.minimumIterations ≤ 1 ∧ c.maximumIterations = 0) (hs : Solver.build c = .ok s) (m : Sparse S) (b : List S)
    (hb : b.length = m.sizeRow) (fuel : Nat) (hf : 0 < fuel) :
    result (Solver.solveSparseSame F s m b fuel) = result (Solver.solveSparse F s m b b fuel) := by
  have key : ∀ k, result (Solver.solveSparseSame F (.fixedPoint k (initialise c)) m b fuel) =
      result (Solver.solveSparse F (.fixedPoint k (initialise c)) m b b fuel) := by
    intro k
    have hlim : ∀ d : Conv S N, d.iteration = 1 → isConverged F (initialise c).limits d = true := by
      intro d hd
      unfold isConverged initialise
      simp only [hd, hc.2]
      rw [if_neg (by omega), if_pos (by omega)]
    obtain ⟨w, h1, h2, hwl⟩ : ∃ w, solveSystemSame F k (initialise c) m b fuel =
        (iterateSame F k (initialise c) m fuel ((b, w), Conv.new F) >>= fun r =>
          .ok (r.1.1, r.2, { initialise c with working := r.1.2 })) ∧
        solveSystem F k (initialise c) m b b fuel = (iterate F k (initialise c) m b fuel ((b, w), Conv.new F) >>= fun r =>
          .ok (r.1.1, r.2, { initialise c with working := r.1.2 })) ∧ (k = .jacobi → w.length = b.length) := by
      refine ⟨if k = .jacobi then resizeList (initialise c).working m.sizeRow 0 else (initialise c).working, ?_, ?_, ?_⟩
      · cases k <;> rfl
      · cases k <;> rfl
      · rintro rfl
        rw [hb]
        simp [resizeList, initialise]
    simp only [Solver.solveSparseSame, Solver.solveSparse, h1, h2]
    unfold iterateSame iterate
    rw [while_once (fun t ht => ?_) hf, while_once (fun t ht => ?_) hf]
    · cases isConverged F (initialise c).limits (Conv.new F) with
      | true => rfl
      | false =>
        simp only [Bool.not_false, if_true]
        rw [c139_first F k (initialise c)]
        cases h : step F k (initialise c) m b (b, w) with
        | ok v =>
          have hl := step_length h hwl
          have hu := update_shape (F := F) (m := m) (x := v.1) hl (Conv.new F)
          simp only [Out.ok_bind]
          revert hu
          cases update F m v.1 v.1 (Conv.new F) <;> cases update F m v.1 b (Conv.new F) <;> simp [shape, result]
        | _ => rfl
    · simp only [Out.bind_eq_ok, Out.pure_eq, Out.ok.injEq] at ht
      obtain ⟨v, -, d, hd, rfl⟩ := ht
      rw [hlim d (conv_one hd)]; rfl
    · simp only [Out.bind_eq_ok, Out.pure_eq, Out.ok.injEq] at ht
      obtain ⟨v, -, d, hd, rfl⟩ := ht
      rw [hlim d (conv_one hd)]; rfl
  unfold Solver.build at hs
  cases ht : c.type <;> rw [ht] at hs <;> simp only at hs
  · split at hs <;> simp only [Out.bind_eq_ok, Out.pure_eq, Out.ok.injEq] at hs <;> obtain ⟨_, -, rfl⟩ := hs <;> rfl
  · simp only [Out.ok.injEq] at hs; subst hs; exact key _
  · simp only [Out.ok.injEq] at hs; subst hs; exact key _
  · simp only [Out.ok.injEq] at hs; subst hs; exact key _
  · cases hs

/-! ### What happens instead -/

section field

variable {K N : Type} [Field K] [LinearOrder K] [IsStrictOrderedRing K] {F : Scalars K N}

omit [LinearOrder K] [IsStrictOrderedRing K] in
/-- What one iteration of each method computes. -/
theorem stepSame_ok (hF : Exact F) (k : Method) {n : Nat} {m : Sparse K} {A : Fin n → Fin n → K}
    (h : Square m A) (hd : ∀ i, A i i ≠ 0) (x : Fin n → K) (w : List K) (hw : k = .jacobi → w.length = n) :
    ∃ (y : Fin n → K) (w' : List K), stepSame F k m (vec x, w) = .ok (vec y, w') ∧ (k = .jacobi → w'.length = n) ∧
      ∀ i, ∃ z : Fin n → K, (∀ j, z j = if k ≠ .jacobi ∧ j < i then y j else x j) ∧ y i = relaxed A z (factor K k) z i := by
  have hR : ∀ (omega : K) (i : Fin n) (x : Option (List K)) (u y : Fin n → K), x.getD (vec u) = vec y →
      sweepRowSame F m omega x i (vec u) = .ok (vec fun k => if k = i then relaxed A y omega y i else u k) := by
    intro omega i x u y hx
    unfold sweepRowSame
    rw [hx]
    exact sweepRow_ok h hF.1 y omega i (hd i) x u y hx
  have hin : ∀ omega, ∃ y : Fin n → K, forwardSweepSame F m omega none (vec x) = .ok (vec y) ∧
      ∀ i, y i = relaxed A (fun k => if k < i then y k else x k) omega (fun k => if k < i then y k else x k) i := by
    intro omega
    unfold forwardSweepSame
    rw [h.2.1]
    exact inplace_body (R := fun y i => relaxed A y omega y i) (hR omega) x
  cases k with
  | jacobi =>
    obtain ⟨u, rfl⟩ : ∃ u : Fin n → K, w = vec u := by
      have := hw rfl
      refine ⟨fun i => w[i.1]'(by rw [this]; exact i.2), ?_⟩
      apply List.ext_getElem
      · simp [this]
      · intro k h1 h2; simp [vec]
    refine ⟨fun i => relaxed A x 1 x i, vec x, ?_, by simp, fun i => ⟨x, by simp, rfl⟩⟩
    simp only [stepSame, forwardSweepSame]
    rw [hF.1, h.2.1, jacobi_body (R := fun y i => relaxed A y 1 y i) (hR 1) x u]
    rfl
  | gaussSeidel =>
    obtain ⟨y, h1, h2⟩ := hin 1
    refine ⟨y, w, ?_, by simp, fun i => ⟨_, fun j => by simp, h2 i⟩⟩
    simp only [stepSame]
    rw [hF.1, h1]
    rfl
  | sor =>
    obtain ⟨y, h1, h2⟩ := hin (3 / 2)
    refine ⟨y, w, ?_, by simp, fun i => ⟨_, fun j => by simp, h2 i⟩⟩
    simp only [stepSame]
    rw [hF.2, h1]
    rfl

/-- An iteration leaves the vector unchanged exactly if the matrix does: what the solvers look for does not depend on the
constants. -/
theorem c139_fixed (hF : Exact F) (k : Method) {n : Nat} (m : Sparse K) (A : Fin n → Fin n → K) (h : Square m A)
    (hd : ∀ i, A i i ≠ 0) (x : Fin n → K) (w : List K) (hw : k = .jacobi → w.length = n) :
    ∃ (y : Fin n → K) (w' : List K), stepSame F k m (vec x, w) = .ok (vec y, w') ∧ (y = x ↔ Solves A x x) := by
  obtain ⟨y, w', h1, -, h2⟩ := stepSame_ok hF k h hd x w hw
  refine ⟨y, w', h1, ?_, ?_⟩
  · rintro rfl i
    obtain ⟨z, h3, h4⟩ := h2 i
    obtain rfl : z = y := by funext j; rw [h3]; simp
    exact (relaxed_fixed A z z (factor_ne k) (hd i)).mp h4.symm
  · intro hs
    have : ∀ l, ∀ i : Fin n, i.1 < l → y i = x i := by
      intro l
      induction l with
      | zero => intro i hi; exact absurd hi (Nat.not_lt_zero _)
      | succ l ih =>
        intro i hi
        obtain ⟨z, h3, h4⟩ := h2 i
        obtain rfl : z = x := by
          funext j
          rw [h3]
          split
          · rename_i hj
            exact ih j (by have : j.1 < i.1 := hj.2; omega)
          · rfl
        rw [h4]
        exact (relaxed_fixed A z z (factor_ne k) (hd i)).mpr (hs i)
    funext i
    exact this (i.1 + 1) i (by omega)

end field

/-! ### Whole solves -/

section solves

variable {S N : Type} [Zero S] [Add S] [Sub S] [Mul S] [Div S] {F : Scalars S N}

/-- One pass of the loops of the solvers. -/
def passSame (F : Scalars S N) (k : Method) (m : Sparse S) (st : (List S × List S) × Conv S N) :
    Out ((List S × List S) × Conv S N) := do
  let v ← stepSame F k m st.1
  let d ← update F m v.1 v.1 st.2
  pure (v, d)

theorem passSame_ok {k : Method} {m : Sparse S} {st st' : (List S × List S) × Conv S N} (h : passSame F k m st = .ok st') :
    stepSame F k m st.1 = .ok st'.1 ∧ st'.2.iteration = wrap (st.2.iteration + 1) := by
  unfold passSame at h
  simp only [Out.bind_eq_ok, Out.pure_eq, Out.ok.injEq] at h
  obtain ⟨v, h1, d, h2, rfl⟩ := h
  unfold update at h2
  simp only [Out.bind_eq_ok, Out.pure_eq, Out.ok.injEq] at h2
  obtain ⟨r, -, rfl⟩ := h2
  exact ⟨h1, rfl⟩

/-- What a solve leaves is what some number of iterations leave, at least as many as it is asked for. -/
theorem iterateSame_ok {k : Method} {s : FixedPoint S} {m : Sparse S} {fuel : Nat} {st st' : (List S × List S) × Conv S N}
    (h : iterateSame F k s m fuel st = .ok st') : ∃ j, times (stepSame F k m) j st.1 = .ok st'.1 ∧
      s.limits.minIterations ≤ st.2.iteration + j := by
  have hend : ∀ st : (List S × List S) × Conv S N, ¬ (!isConverged F s.limits st.2) = true →
      s.limits.minIterations ≤ st.2.iteration := by
    intro st h
    simp only [Bool.not_eq_true', Bool.not_eq_false] at h
    exact (isConverged_iff.mp h).1
  unfold iterateSame at h
  induction fuel generalizing st with
  | zero =>
    simp only [whileFuel] at h
    split at h
    · cases h
    · rename_i hc
      simp only [Out.ok.injEq] at h
      subst h
      exact ⟨0, rfl, hend st hc⟩
  | succ fuel ih =>
    simp only [whileFuel] at h
    split at h
    · rw [Out.bind_eq_ok] at h
      obtain ⟨u, h1, h2⟩ := h
      obtain ⟨j, h3, h4⟩ := ih h2
      obtain ⟨h5, h6⟩ := passSame_ok h1
      refine ⟨j + 1, times_succ_ok.mpr ⟨_, h5, h3⟩, ?_⟩
      have : wrap (st.2.iteration + 1) ≤ st.2.iteration + 1 := Nat.mod_le _ _
      omega
    · rename_i hc
      simp only [Out.ok.injEq] at h
      subst h
      exact ⟨0, rfl, hend st hc⟩

end solves

section zero

variable {K N : Type} [Field K] [LinearOrder K] [IsStrictOrderedRing K] {F : Scalars K N}

theorem relaxed_same_bound {n : Nat} {A : Fin n → Fin n → K} {z : Fin n → K} {omega q E : K} {i : Fin n} (ho : 1 ≤ omega)
    (hq : 1 + (∑ j, if j = i then 0 else |A i j|) ≤ q * |A i i|) (hd : A i i ≠ 0) (hz : ∀ j, |z j| ≤ E) :
    |relaxed A z omega z i| ≤ (omega * q + (omega - 1)) * E := by
  have hE : 0 ≤ E := (abs_nonneg _).trans (hz i)
  have hp : 0 < |A i i| := abs_pos.mpr hd
  have h1 : |off A z i| ≤ (∑ j, if j = i then 0 else |A i j|) * E := by
    unfold off
    rw [Finset.sum_mul]
    refine (Finset.abs_sum_le_sum_abs _ _).trans (Finset.sum_le_sum fun j _ => ?_)
    by_cases hj : j = i
    · simp [hj]
    · simp only [hj, if_false, abs_mul]
      exact mul_le_mul_of_nonneg_left (hz j) (abs_nonneg _)
  have h2 : |z i - off A z i| ≤ q * E * |A i i| := by
    have := abs_sub (z i) (off A z i)
    have h3 := hz i
    have h4 := mul_le_mul_of_nonneg_right hq hE
    nlinarith
  have h3 : |(z i - off A z i) / A i i| ≤ q * E := by
    rw [abs_div, div_le_iff₀ hp]
    exact h2
  unfold relaxed
  rw [mul_div_assoc]
  have h4 : |omega * ((z i - off A z i) / A i i)| ≤ omega * (q * E) := by
    rw [abs_mul, abs_of_nonneg (by linarith)]
    exact mul_le_mul_of_nonneg_left h3 (by linarith)
  have h5 : |(1 - omega) * z i| ≤ (omega - 1) * E := by
    rw [abs_mul, abs_sub_comm, abs_of_nonneg (by linarith)]
    exact mul_le_mul_of_nonneg_left (hz i) (by linarith)
  have := abs_add_le (omega * ((z i - off A z i) / A i i)) ((1 - omega) * z i)
  linarith

/-- How large the diagonal has to be: larger than one and the other elements of the row together, three times that for SOR. -/
def Heavy (k : Method) {n : Nat} (A : Fin n → Fin n → K) : Prop :=
  ∀ i, (if k = .sor then 3 else 1) * (1 + ∑ j, if j = i then 0 else |A i j|) < |A i i|

theorem heavy_diag {k : Method} {n : Nat} {A : Fin n → Fin n → K} (h : Heavy k A) (i : Fin n) : A i i ≠ 0 := by
  intro h0
  have h1 := h i
  rw [h0, abs_zero] at h1
  have h2 : 0 ≤ ∑ j, if j = i then 0 else |A i j| := Finset.sum_nonneg fun j _ => by
    split
    · exact le_refl _
    · exact abs_nonneg _
  split at h1 <;> linarith

theorem heavy_ratio {k : Method} {n : Nat} {A : Fin n → Fin n → K} (h : Heavy k A) :
    ∃ q : K, 0 ≤ q ∧ factor K k * q + (factor K k - 1) < 1 ∧ ∀ i, 1 + (∑ j, if j = i then 0 else |A i j|) ≤ q * |A i i| := by
  have hpos : ∀ i, 0 < |A i i| := fun i => abs_pos.mpr (heavy_diag h i)
  have hs : ∀ i : Fin n, 0 ≤ ∑ j, if j = i then 0 else |A i j| := fun i => Finset.sum_nonneg fun j _ => by
    split
    · exact le_refl _
    · exact abs_nonneg _
  rcases Nat.eq_zero_or_pos n with rfl | hn
  · refine ⟨0, le_refl _, ?_, fun i => i.elim0⟩
    cases k <;> simp only [factor] <;> norm_num
  · obtain ⟨i, -, hi⟩ := Finset.exists_max_image Finset.univ (fun i => (1 + ∑ j, if j = i then 0 else |A i j|) / |A i i|)
      ⟨⟨0, hn⟩, Finset.mem_univ _⟩
    refine ⟨(1 + ∑ j, if j = i then 0 else |A i j|) / |A i i|, ?_, ?_, fun l => ?_⟩
    · exact div_nonneg (by have := hs i; linarith) (abs_nonneg _)
    · have h1 := h i
      cases k with
      | sor =>
        simp only [if_true] at h1
        have : (1 + ∑ j, if j = i then 0 else |A i j|) / |A i i| < 1 / 3 := by
          rw [div_lt_iff₀ (hpos i)]
          linarith
        simp only [factor]
        linarith
      | _ =>
        simp only [reduceCtorEq, if_false] at h1
        have : (1 + ∑ j, if j = i then 0 else |A i j|) / |A i i| < 1 := by
          rw [div_lt_one (hpos i)]
          linarith
        simp only [factor]
        linarith
    · have := hi l (Finset.mem_univ l)
      rwa [div_le_iff₀ (hpos l)] at this

/-- The iterates shrink by a factor below one each. -/
theorem same_bound (hF : Exact F) (k : Method) {n : Nat} (m : Sparse K) (A : Fin n → Fin n → K) (h : Square m A)
    (hA : Heavy k A) : ∃ q : K, 0 ≤ q ∧ q < 1 ∧ ∀ (j : Nat) (x : Fin n → K) (w : List K), (k = .jacobi → w.length = n) →
      ∀ E, (∀ i, |x i| ≤ E) → ∃ (y : Fin n → K) (w' : List K), times (stepSame F k m) j (vec x, w) = .ok (vec y, w') ∧
        ∀ i, |y i| ≤ q ^ j * E := by
  have hd := heavy_diag hA
  obtain ⟨q, hq0, hq1, hq⟩ := heavy_ratio hA
  have ho : 1 ≤ factor K k := by cases k <;> simp only [factor] <;> norm_num
  have hr0 : 0 ≤ factor K k * q + (factor K k - 1) := by nlinarith
  generalize hr : factor K k * q + (factor K k - 1) = r at hq1 hr0
  refine ⟨r, hr0, hq1, fun j => ?_⟩
  induction j with
  | zero => intro x w hw E hE; exact ⟨x, w, rfl, by simpa using hE⟩
  | succ j ih =>
    intro x w hw E hE
    obtain ⟨y, w', h1, h2, h3⟩ := stepSame_ok hF k h hd x w hw
    have hy : ∀ l, ∀ i : Fin n, i.1 < l → |y i| ≤ r * E := by
      intro l
      induction l with
      | zero => intro i hi; exact absurd hi (Nat.not_lt_zero _)
      | succ l ih =>
        intro i hi
        have hE0 : 0 ≤ E := (abs_nonneg _).trans (hE i)
        have hle : r * E ≤ E := by nlinarith
        obtain ⟨z, h4, h5⟩ := h3 i
        rw [h5, ← hr]
        refine relaxed_same_bound ho (hq i) (hd i) fun j => ?_
        rw [h4 j]
        split
        · rename_i hj
          exact (ih j (by have : j.1 < i.1 := hj.2; omega)).trans hle
        · exact hE j
    obtain ⟨z, w'', h4, h5⟩ := ih y w' h2 (r * E) (fun i => hy (i.1 + 1) i (by omega))
    refine ⟨z, w'', ?_, fun i => (h5 i).trans (by rw [pow_succ, mul_assoc])⟩
    unfold times
    rw [h1]
    exact h4

end zero

/-- Where the diagonal is large, the solution left tends to zero as the solver is asked for more iterations, whatever the
constants are. -/
theorem c139_zero {N : Type} {F : Scalars ℝ N} (hF : Exact F) (k : Method) {n : Nat} (m : Sparse ℝ) (A : Fin n → Fin n → ℝ)
    (h : Square m A) (hA : Heavy k A) (b : Fin n → ℝ) (ε : ℝ) (hε : 0 < ε) : ∃ J : Nat, ∀ (s : FixedPoint ℝ) (fuel : Nat)
      (r : List ℝ × Conv ℝ N × Solver ℝ), J ≤ s.limits.minIterations →
      Solver.solveSparseSame F (.fixedPoint k s) m (vec b) fuel = .ok r →
      ∃ y : Fin n → ℝ, r.1 = vec y ∧ ∀ i, |y i| < ε := by
  obtain ⟨q, hq0, hq1, hq⟩ := same_bound hF k m A h hA
  have hE : ∀ i, |b i| ≤ ∑ l, |b l| := fun i =>
    Finset.single_le_sum (f := fun l => |b l|) (fun l _ => abs_nonneg _) (Finset.mem_univ i)
  have hE0 : 0 ≤ ∑ l, |b l| := Finset.sum_nonneg fun l _ => abs_nonneg _
  generalize (∑ l, |b l|) = E at hE hE0
  obtain ⟨J, hJ⟩ := exists_pow_lt_of_lt_one (show 0 < ε / (E + 1) by positivity) hq1
  refine ⟨J, fun s fuel r hs hr => ?_⟩
  obtain ⟨w, hw, st, h1, h2⟩ : ∃ w, (k = .jacobi → w.length = n) ∧
      ∃ st, iterateSame F k s m fuel ((vec b, w), Conv.new F) = .ok st ∧ r.1 = st.1.1 := by
    refine ⟨if k = .jacobi then resizeList s.working m.sizeRow 0 else s.working, ?_, ?_⟩
    · rintro rfl
      rw [h.2.1]
      simp only [if_true, resizeList, List.length_append, List.length_take, List.length_replicate]
      omega
    · cases k <;> simp only [Solver.solveSparseSame, solveSystemSame, Out.bind_eq_ok, Out.pure_eq, Out.ok.injEq] at hr <;>
        obtain ⟨r1, ⟨r2, h1, rfl⟩, rfl⟩ := hr <;> exact ⟨r2, h1, rfl⟩
  obtain ⟨j, h3, h4⟩ := iterateSame_ok h1
  obtain ⟨y, w', h5, h6⟩ := hq j b w hw E hE
  rw [h5] at h3
  simp only [Out.ok.injEq] at h3
  refine ⟨y, by rw [h2, ← h3], fun i => lt_of_le_of_lt (h6 i) ?_⟩
  have hj : J ≤ j := by
    have : (Conv.new F : Conv ℝ N).iteration = 0 := rfl
    simp only [this] at h4
    omega
  have h7 : q ^ j ≤ q ^ J := pow_le_pow_of_le_one hq0 hq1.le hj
  have h8 : q ^ j * E ≤ q ^ J * E := mul_le_mul_of_nonneg_right h7 hE0
  have h9 : q ^ J * (E + 1) < ε := by rwa [lt_div_iff₀ (by positivity)] at hJ
  have h10 : 0 ≤ q ^ J := pow_nonneg hq0 J
  nlinarith

/-- Solves with one vector in both places return. -/
theorem c139_returns (k : Method) (s : FixedPoint ℝ) {n : Nat} (m : Sparse ℝ) (A : Fin n → Fin n → ℝ) (h : Square m A)
    (hd : ∀ i, A i i ≠ 0) (hn0 : 0 < n) (hn : n < 2 ^ 31) (b : Fin n → ℝ) (hmin : s.limits.minIterations ≤ sizeMax)
    (hmax : s.limits.maxIteration < sizeMax) :
    ∃ r, Solver.solveSparseSame reals (.fixedPoint k s) m (vec b) (max s.limits.minIterations (s.limits.maxIteration + 1)) =
      .ok r := by
  have key : ∀ (fuel : Nat) (x : Fin n → ℝ) (w : List ℝ) (d : Conv ℝ Quot), (k = .jacobi → w.length = n) →
      max s.limits.minIterations (s.limits.maxIteration + 1) ≤ d.iteration + fuel →
      ∃ r, iterateSame reals k s m fuel ((vec x, w), d) = .ok r := by
    intro fuel
    induction fuel with
    | zero =>
      intro x w d _ hf
      have : isConverged reals s.limits d = true := isConverged_iff.mpr ⟨by omega, .inl (by omega)⟩
      exact ⟨_, by simp [iterateSame, whileFuel, this]; rfl⟩
    | succ fuel ih =>
      intro x w d hw hf
      cases hc : isConverged reals s.limits d with
      | true => exact ⟨_, by simp [iterateSame, whileFuel, hc]; rfl⟩
      | false =>
        have hlt : d.iteration < max s.limits.minIterations (s.limits.maxIteration + 1) := by
          by_contra hge
          rw [isConverged_iff.mpr ⟨by omega, .inl (by omega)⟩] at hc
          cases hc
        have hwr : wrap (d.iteration + 1) = d.iteration + 1 := by
          unfold wrap
          unfold sizeMax at hmin hmax
          exact Nat.mod_eq_of_lt (by omega)
        obtain ⟨y, w', h1, h2, -⟩ := stepSame_ok (F := reals) ⟨rfl, rfl⟩ k h hd x w hw
        have h3 := computeResidual_ok h y y hn0 (by unfold intMax; omega)
        unfold iterateSame at ih ⊢
        simp only [whileFuel, hc, Bool.not_false, if_true, h1, Out.ok_bind, update, h3, Out.pure_eq]
        exact ih y w' _ h2 (by simp only [hwr]; omega)
  have hfin : ∀ w, (k = .jacobi → w.length = n) → ∃ r, iterateSame reals k s m (max s.limits.minIterations
      (s.limits.maxIteration + 1)) ((vec b, w), Conv.new reals) = .ok r := fun w hw =>
    key _ b w (Conv.new reals) hw (by omega)
  cases k with
  | jacobi =>
    obtain ⟨r, hr⟩ := hfin (resizeList s.working m.sizeRow 0) (fun _ => by
      rw [h.2.1]
      simp only [resizeList, List.length_append, List.length_take, List.length_replicate]
      omega)
    exact ⟨_, by simp only [Solver.solveSparseSame, solveSystemSame, hr, Out.ok_bind, Out.pure_eq]; rfl⟩
  | gaussSeidel =>
    obtain ⟨r, hr⟩ := hfin s.working (by simp)
    exact ⟨_, by simp only [Solver.solveSparseSame, solveSystemSame, hr, Out.ok_bind, Out.pure_eq]; rfl⟩
  | sor =>
    obtain ⟨r, hr⟩ := hfin s.working (by simp)
    exact ⟨_, by simp only [Solver.solveSparseSame, solveSystemSame, hr, Out.ok_bind, Out.pure_eq]; rfl⟩

theorem single_iterates (j : Nat) (x : ℝ) (w : List ℝ) :
    times (stepSame reals .gaussSeidel (single 4)) j (vec fun _ : Fin 1 => x, w) = .ok (vec fun _ : Fin 1 => x / 4 ^ j, w) := by
  induction j generalizing x with
  | zero => simp [times]
  | succ j ih =>
    obtain ⟨y, w', h1, -, h2⟩ := stepSame_ok (F := reals) ⟨rfl, rfl⟩ .gaussSeidel (single_square 4) (by simp)
      (fun _ => x) w (by simp)
    have hw : w' = w := by
      simp only [stepSame, Out.bind_eq_ok, Out.pure_eq, Out.ok.injEq, Prod.mk.injEq] at h1
      obtain ⟨u, -, -, h⟩ := h1
      exact h.symm
    obtain ⟨z, h3, h4⟩ := h2 0
    have hy : y = fun _ => x / 4 := by
      funext i
      fin_cases i
      have h5 := h3 0
      simp only [lt_irrefl, and_false, if_false] at h5
      simp only [Fin.zero_eta, h4, relaxed, off, factor, h5, Fin.sum_univ_one, if_true]
      ring
    rw [hy, hw] at h1
    unfold times
    rw [h1]
    simp only [Out.ok_bind]
    rw [ih]
    congr 3
    funext _
    rw [pow_succ, div_div, mul_comm]

/-- Two Gauss Seidel iterations for the single equation `4 x = 8`. -/
theorem c139_violated : ¬ C139 := by
  intro hC
  let s : FixedPoint ℝ := ⟨⟨2, 1, 0⟩, [], 0⟩
  obtain ⟨xs, h0, h1, j, -, h2, h3, -, h4⟩ := solve_returns .gaussSeidel s (single_square 4) (by simp) (by norm_num) (by norm_num)
    (fun _ => 8) (fun _ => 8) (lt_of_lt_of_le (by simp [s]) one_le_big) (by simp [s, sizeMax]) (by simp [s, sizeMax])
  obtain ⟨s', h5⟩ := h4 j (le_refl _)
  obtain ⟨fuel, r, h6, h7⟩ := hC 1 (single 4) _ (single_square 4) (by simp) (.fixedPoint .gaussSeidel s) (fun _ => 8) j
    (vec (xs j), data _ _ xs j, .fixedPoint .gaussSeidel s') (by simp only [Solver.solveSparse, h5]; rfl)
  have hx : ∀ i, xs (i + 1) = fun _ => 2 := by
    intro i
    obtain ⟨w, h8⟩ := h1 i
    obtain ⟨w', h9⟩ := h1 (i + 1)
    rw [times_succ_right, h8] at h9
    obtain ⟨y, w'', h10, -, h11⟩ := step_ok (F := reals) ⟨rfl, rfl⟩ .gaussSeidel s (single_square 4) (by simp)
      (fun _ => 8) (xs i) w (by simp)
    rw [show (Out.ok (vec (xs i), w) >>= step reals .gaussSeidel s (single 4) (vec fun _ : Fin 1 => 8)) =
      step reals .gaussSeidel s (single 4) (vec fun _ : Fin 1 => 8) (vec (xs i), w) from rfl, h10] at h9
    simp only [Out.ok.injEq, Prod.mk.injEq, vec_inj] at h9
    rw [← h9.1]
    funext l
    rw [h11 l]
    fin_cases l
    simp only [relaxed, off, factor, Fin.sum_univ_one]
    norm_num
  have hj : 2 ≤ j := h3.1
  obtain ⟨i, rfl⟩ : ∃ i, j = i + 1 := ⟨j - 1, by omega⟩
  simp only [hx] at h7
  simp only [Solver.solveSparseSame, solveSystemSame, Out.bind_eq_ok, Out.pure_eq, Out.ok.injEq] at h6
  obtain ⟨r1, ⟨r2, h8, rfl⟩, rfl⟩ := h6
  obtain ⟨j, h9, h10⟩ := iterateSame_ok h8
  rw [single_iterates] at h9
  simp only [Out.ok.injEq] at h9
  have h11 := congrFun (vec_inj.mp ((congrArg Prod.fst h9).trans h7)) 0
  have h12 : 2 ≤ j := by
    have : (Conv.new reals : Conv ℝ Quot).iteration = 0 := rfl
    simp only [this] at h10
    have : s.limits.minIterations = 2 := rfl
    omega
  have h13 : (4 : ℝ) ^ 2 ≤ 4 ^ j := pow_le_pow_right₀ (by norm_num) h12
  have h14 : (0 : ℝ) < 4 ^ j := by positivity
  rw [div_eq_iff h14.ne'] at h11
  linarith

-- A matrix with a large diagonal and constants that are not zero: the solution is not zero.
example : Heavy .gaussSeidel (![![4, 1], ![-2, 5]] : Fin 2 → Fin 2 → ℝ) ∧ Heavy .sor (![![7, 1], ![-2, 10]] : Fin 2 → Fin 2 → ℝ) ∧
    Solves (![![4, 1], ![-2, 5]] : Fin 2 → Fin 2 → ℝ) ![1, 1] ![5, 3] := by
  refine ⟨?_, ?_, ?_⟩ <;> intro i <;> fin_cases i <;> simp [Fin.sum_univ_two] <;> norm_num

-- A vector that the solvers leave unchanged although it is not the solution.
example : Solves (![![2, -1], ![-1, 2]] : Fin 2 → Fin 2 → ℝ) ![1, 1] ![1, 1] := by
  intro i
  fin_cases i <;> simp [Fin.sum_univ_two] <;> norm_num

-- A configuration of one iteration.
example : ∃ s, Solver.build (⟨.gaussSeidel, true, 0, 1, 0, 0, 1⟩ : SolverConfig ℝ) = .ok s := ⟨_, rfl⟩

end Disa.Props
