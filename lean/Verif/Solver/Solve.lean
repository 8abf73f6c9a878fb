import Verif.Solver.Sweep
import Mathlib.Analysis.SpecialFunctions.Sqrt

/-!
# The loops of the iterative solvers
-/

namespace Disa

/-! ### Divergence -/

theorem Out.bind_ne_diverge {α β : Type} {o : Out α} {f : α → Out β} (h : o ≠ .diverge) (hf : ∀ a, f a ≠ .diverge) :
    o >>= f ≠ .diverge := by
  cases o with
  | ok a => exact hf a
  | diverge => exact absurd rfl h
  | exit c => intro h; cases h
  | throw => intro h; cases h
  | ub => intro h; cases h

theorem assert_ne_diverge (b : Bool) : assert b ≠ .diverge := by
  cases b <;> intro h <;> cases h

theorem rd_ne_diverge {α : Type} (l : List α) (i : Nat) : rd l i ≠ .diverge := by
  by_cases h : i < l.length
  · rw [rd_ok h]; intro h; cases h
  · rw [rd_ub (by omega)]; intro h; cases h

theorem wr_ne_diverge {α : Type} (l : List α) (i : Nat) (v : α) : wr l i v ≠ .diverge := by
  by_cases h : i < l.length
  · rw [wr_ok h]; intro h; cases h
  · rw [wr_ub (by omega)]; intro h; cases h

theorem loop_ne_diverge {σ : Type} {body : Nat → σ → Out σ} (h : ∀ i s, body i s ≠ .diverge) (n : Nat) (s : σ) :
    loop n body s ≠ .diverge := by
  induction n generalizing s with
  | zero => intro h; cases h
  | succ n ih => exact Out.bind_ne_diverge (ih s) (fun a => h n a)

namespace Iterative

open Spec Dense Sparse

variable {S N : Type} [Zero S] [Add S] [Sub S] [Mul S] [Div S] {F : Scalars S N}

omit [Zero S] [Add S] [Sub S] [Mul S] [Div S] in
theorem ptr_ne_diverge (m : Sparse S) (p : Nat) : m.ptr p ≠ .diverge := by
  unfold Sparse.ptr
  split <;> intro h <;> cases h

omit [Zero S] [Add S] [Sub S] [Mul S] [Div S] in
theorem rowBegin_ne_diverge (m : Sparse S) (i : Nat) : m.rowBegin i ≠ .diverge := by
  unfold Sparse.rowBegin
  exact Out.bind_ne_diverge (rd_ne_diverge _ _) fun a => Out.bind_ne_diverge (ptr_ne_diverge _ _) fun a => by intro h; cases h

omit [Zero S] [Add S] [Sub S] [Mul S] [Div S] in
theorem rowEnd_ne_diverge (m : Sparse S) (i : Nat) : m.rowEnd i ≠ .diverge := by
  unfold Sparse.rowEnd
  exact Out.bind_ne_diverge (rd_ne_diverge _ _) fun a => Out.bind_ne_diverge (ptr_ne_diverge _ _) fun a => by intro h; cases h

omit [Zero S] [Add S] [Sub S] [Mul S] [Div S] in
theorem find_ne_diverge (m : Sparse S) (i j : Nat) : m.find i j ≠ .diverge := by
  unfold Sparse.find
  split
  · refine Out.bind_ne_diverge (rd_ne_diverge _ _) fun b => Out.bind_ne_diverge (rd_ne_diverge _ _) fun e =>
      Out.bind_ne_diverge ?_ fun r => Out.bind_ne_diverge (ptr_ne_diverge _ _) fun p => by intro h; cases h
    unfold slice
    split <;> intro h <;> cases h
  · exact rowEnd_ne_diverge _ _

omit [Zero S] [Add S] [Sub S] [Mul S] [Div S] in
theorem get_ne_diverge (m : Sparse S) (i j : Nat) : m.get i j ≠ .diverge := by
  unfold Sparse.get
  refine Out.bind_ne_diverge (assert_ne_diverge _) fun _ => Out.bind_ne_diverge ?_ fun b =>
    Out.bind_ne_diverge (assert_ne_diverge _) fun _ => Out.bind_ne_diverge (find_ne_diverge _ _ _) fun it => rd_ne_diverge _ _
  unfold Sparse.contains
  refine Out.bind_ne_diverge (find_ne_diverge _ _ _) fun it => ?_
  split
  · exact Out.bind_ne_diverge (rowEnd_ne_diverge _ _) fun e => by intro h; cases h
  · intro h; cases h

theorem sweepRow_ne_diverge (m : Sparse S) (b : List S) (omega : S) (x : Option (List S)) (i : Nat) (u : List S) :
    sweepRow F m b omega x i u ≠ .diverge := by
  unfold sweepRow
  refine Out.bind_ne_diverge (assert_ne_diverge _) fun _ => Out.bind_ne_diverge ?_ fun d =>
    Out.bind_ne_diverge (rd_ne_diverge _ _) fun c => Out.bind_ne_diverge (get_ne_diverge _ _ _) fun a =>
    Out.bind_ne_diverge (rd_ne_diverge _ _) fun y => wr_ne_diverge _ _ _
  unfold offRowDot
  refine Out.bind_ne_diverge (rowBegin_ne_diverge _ _) fun s => Out.bind_ne_diverge (rowEnd_ne_diverge _ _) fun e =>
    loop_ne_diverge (fun k v => Out.bind_ne_diverge (rd_ne_diverge _ _) fun c => ?_) _ _
  split
  · exact Out.bind_ne_diverge (rd_ne_diverge _ _) fun a => Out.bind_ne_diverge (rd_ne_diverge _ _) fun y => by intro h; cases h
  · intro h; cases h

theorem step_ne_diverge (k : Method) (s : FixedPoint S) (m : Sparse S) (b : List S) (st : List S × List S) :
    step F k s m b st ≠ .diverge := by
  cases k <;> exact Out.bind_ne_diverge (loop_ne_diverge (fun i u => sweepRow_ne_diverge _ _ _ _ _ _) _ _) fun w => by
    intro h; cases h

theorem update_ne_diverge (m : Sparse S) (x b : List S) (d : Conv S N) : update F m x b d ≠ .diverge := by
  unfold update computeResidual
  refine Out.bind_ne_diverge (Out.bind_ne_diverge (assert_ne_diverge _) fun _ => Out.bind_ne_diverge (assert_ne_diverge _)
    fun _ => Out.bind_ne_diverge (assert_ne_diverge _) fun _ => Out.bind_ne_diverge (loop_ne_diverge (fun i st => ?_) _ _)
    fun r => by intro h; cases h) fun r => by intro h; cases h
  unfold residualBody
  refine Out.bind_ne_diverge (assert_ne_diverge _) fun _ => Out.bind_ne_diverge ?_ fun v =>
    Out.bind_ne_diverge (rd_ne_diverge _ _) fun c => ?_
  · unfold Sparse.rowDot
    exact Out.bind_ne_diverge (rowBegin_ne_diverge _ _) fun s => Out.bind_ne_diverge (rowEnd_ne_diverge _ _) fun e =>
      loop_ne_diverge (fun k v => Out.bind_ne_diverge (rd_ne_diverge _ _) fun a => Out.bind_ne_diverge (rd_ne_diverge _ _)
        fun c => Out.bind_ne_diverge (rd_ne_diverge _ _) fun y => by intro h; cases h) _ _
  · split <;> intro h <;> cases h

/-- One pass of the loops of the solvers. -/
def pass (F : Scalars S N) (k : Method) (s : FixedPoint S) (m : Sparse S) (b : List S) (st : (List S × List S) × Conv S N) :
    Out ((List S × List S) × Conv S N) := do
  let v ← step F k s m b st.1
  let d ← update F m v.1 b st.2
  pure (v, d)

theorem iterate_eq (k : Method) (s : FixedPoint S) (m : Sparse S) (b : List S) (fuel : Nat)
    (st : (List S × List S) × Conv S N) :
    iterate F k s m b fuel st = whileFuel (fun st => !isConverged F s.limits st.2) (pass F k s m b) fuel st := rfl

theorem pass_ne_diverge (k : Method) (s : FixedPoint S) (m : Sparse S) (b : List S) (st : (List S × List S) × Conv S N) :
    pass F k s m b st ≠ .diverge :=
  Out.bind_ne_diverge (step_ne_diverge _ _ _ _ _) fun v => Out.bind_ne_diverge (update_ne_diverge _ _ _ _) fun d => by
    intro h; cases h

theorem pass_ok {k : Method} {s : FixedPoint S} {m : Sparse S} {b : List S} {st st' : (List S × List S) × Conv S N}
    (h : pass F k s m b st = .ok st') : step F k s m b st.1 = .ok st'.1 ∧ st'.2.iteration = wrap (st.2.iteration + 1) ∧
      st'.2.converged = st.2.converged := by
  unfold pass at h
  rw [Out.bind_eq_ok] at h
  obtain ⟨v, h1, h⟩ := h
  rw [Out.bind_eq_ok] at h
  obtain ⟨d, h2, h⟩ := h
  simp only [Out.pure_eq, Out.ok.injEq] at h
  subst h
  unfold update at h2
  rw [Out.bind_eq_ok] at h2
  obtain ⟨r, -, h2⟩ := h2
  simp only [Out.pure_eq, Out.ok.injEq] at h2
  subst h2
  exact ⟨h1, rfl, rfl⟩

omit [Zero S] [Add S] [Sub S] [Div S] in
theorem not_isConverged {l : Limits S} {d : Conv S N} (h : isConverged F l d = false) :
    d.iteration < max l.minIterations (l.maxIteration + 1) := by
  unfold isConverged at h
  by_cases h1 : d.iteration < l.minIterations
  · omega
  · by_cases h2 : d.iteration > l.maxIteration
    · simp [h1, h2] at h
    · omega

omit [Zero S] [Add S] [Sub S] [Div S] in
/-- The documented conditions, as they are checked. -/
theorem isConverged_iff {l : Limits S} {d : Conv S N} : isConverged F l d = true ↔ l.minIterations ≤ d.iteration ∧
    (l.maxIteration < d.iteration ∨ (F.above d.residualNormalised l.tolerance = false ∧
      F.above d.residualMaxNormalised (F.ten * l.tolerance) = false)) := by
  unfold isConverged
  by_cases h1 : d.iteration < l.minIterations
  · have : ¬ l.minIterations ≤ d.iteration := by omega
    simp [h1]
  · have h1' : l.minIterations ≤ d.iteration := by omega
    by_cases h2 : d.iteration > l.maxIteration
    · simp [h1', h2]
    · have h2' : ¬ l.maxIteration < d.iteration := h2
      cases h3 : F.above d.residualNormalised l.tolerance <;>
        cases h4 : F.above d.residualMaxNormalised (F.ten * l.tolerance) <;> simp [h1', h2', h1]

/-- The loops end in time. -/
theorem iterate_ends (k : Method) (s : FixedPoint S) (m : Sparse S) (b : List S)
    (hmin : s.limits.minIterations ≤ sizeMax) (hmax : s.limits.maxIteration < sizeMax) (fuel : Nat)
    (st : (List S × List S) × Conv S N)
    (hf : max s.limits.minIterations (s.limits.maxIteration + 1) ≤ st.2.iteration + fuel) :
    iterate F k s m b fuel st ≠ .diverge := by
  rw [iterate_eq]
  induction fuel generalizing st with
  | zero =>
    unfold whileFuel
    cases h : isConverged F s.limits st.2 with
    | false => have := not_isConverged h; omega
    | true => simp
  | succ fuel ih =>
    unfold whileFuel
    cases h : isConverged F s.limits st.2 with
    | true => simp
    | false =>
      simp only [Bool.not_false, if_true]
      have hlt := not_isConverged h
      cases hp : pass F k s m b st with
      | ok st' =>
        obtain ⟨-, h2, -⟩ := pass_ok hp
        have hw : wrap (st.2.iteration + 1) = st.2.iteration + 1 := by
          unfold wrap
          unfold sizeMax at hmin hmax
          exact Nat.mod_eq_of_lt (by omega)
        exact ih st' (by rw [h2, hw]; omega)
      | diverge => exact absurd hp (pass_ne_diverge _ _ _ _ _)
      | exit c => intro h; cases h
      | throw => intro h; cases h
      | ub => intro h; cases h

theorem times_succ_ok {σ : Type} {f : σ → Out σ} {n : Nat} {s t : σ} : times f (n + 1) s = .ok t ↔
    ∃ u, f s = .ok u ∧ times f n u = .ok t := by
  show (f s >>= times f n) = .ok t ↔ _
  rw [Out.bind_eq_ok]

/-- What the loops do, however many iterations they take: they stop at the first state that is converged. -/
theorem iterate_ok {k : Method} {s : FixedPoint S} {m : Sparse S} {b : List S} {fuel : Nat}
    {st st' : (List S × List S) × Conv S N} (h : iterate F k s m b fuel st = .ok st') :
    ∃ j, j ≤ fuel ∧ times (pass F k s m b) j st = .ok st' ∧ isConverged F s.limits st'.2 = true ∧
      ∀ i, i < j → ∀ t, times (pass F k s m b) i st = .ok t → isConverged F s.limits t.2 = false := by
  rw [iterate_eq] at h
  induction fuel generalizing st with
  | zero =>
    unfold whileFuel at h
    cases hc : isConverged F s.limits st.2 with
    | false => simp [hc] at h
    | true =>
      simp [hc] at h
      subst h
      exact ⟨0, le_refl _, rfl, hc, fun i hi => absurd hi (Nat.not_lt_zero _)⟩
  | succ fuel ih =>
    unfold whileFuel at h
    cases hc : isConverged F s.limits st.2 with
    | true =>
      simp [hc] at h
      subst h
      exact ⟨0, Nat.zero_le _, rfl, hc, fun i hi => absurd hi (Nat.not_lt_zero _)⟩
    | false =>
      simp only [hc, Bool.not_false, if_true] at h
      rw [Out.bind_eq_ok] at h
      obtain ⟨u, h1, h2⟩ := h
      obtain ⟨j, h3, h4, h5, h6⟩ := ih h2
      refine ⟨j + 1, by omega, times_succ_ok.mpr ⟨u, h1, h4⟩, h5, ?_⟩
      intro i hi t ht
      cases i with
      | zero =>
        simp only [times, Out.ok.injEq] at ht
        subst ht
        exact hc
      | succ i =>
        rw [times_succ_ok] at ht
        obtain ⟨u', h7, h8⟩ := ht
        rw [h1, Out.ok.injEq] at h7
        subst h7
        exact h6 i (by omega) t h8

/-- Conversely. -/
theorem iterate_of_times {k : Method} {s : FixedPoint S} {m : Sparse S} {b : List S} {fuel j : Nat}
    {st st' : (List S × List S) × Conv S N} (hj : j ≤ fuel) (h : times (pass F k s m b) j st = .ok st')
    (hc : isConverged F s.limits st'.2 = true)
    (hn : ∀ i, i < j → ∀ t, times (pass F k s m b) i st = .ok t → isConverged F s.limits t.2 = false) :
    iterate F k s m b fuel st = .ok st' := by
  rw [iterate_eq]
  induction fuel generalizing st j with
  | zero =>
    obtain rfl : j = 0 := by omega
    simp only [times, Out.ok.injEq] at h
    subst h
    simp [whileFuel, hc]
  | succ fuel ih =>
    cases j with
    | zero =>
      simp only [times, Out.ok.injEq] at h
      subst h
      simp [whileFuel, hc]
    | succ j =>
      rw [times_succ_ok] at h
      obtain ⟨u, h1, h2⟩ := h
      have hst := hn 0 (by omega) st rfl
      unfold whileFuel
      simp only [hst, Bool.not_false, if_true, h1, Out.ok_bind]
      exact ih (by omega) h2 (fun i hi t ht => hn (i + 1) (by omega) t (times_succ_ok.mpr ⟨u, h1, ht⟩))

/-- The counter counts. -/
theorem times_iteration {k : Method} {s : FixedPoint S} {m : Sparse S} {b : List S} {j : Nat}
    {st st' : (List S × List S) × Conv S N} (h : times (pass F k s m b) j st = .ok st') (hj : st.2.iteration + j ≤ sizeMax) :
    times (step F k s m b) j st.1 = .ok st'.1 ∧ st'.2.iteration = st.2.iteration + j := by
  induction j generalizing st with
  | zero =>
    simp only [times, Out.ok.injEq] at h
    subst h
    exact ⟨rfl, rfl⟩
  | succ j ih =>
    rw [times_succ_ok] at h
    obtain ⟨u, h1, h2⟩ := h
    obtain ⟨h3, h4, -⟩ := pass_ok h1
    have hw : wrap (st.2.iteration + 1) = st.2.iteration + 1 := by
      unfold wrap
      unfold sizeMax at hj
      exact Nat.mod_eq_of_lt (by omega)
    obtain ⟨h5, h6⟩ := ih h2 (by rw [h4, hw]; omega)
    exact ⟨times_succ_ok.mpr ⟨_, h3, h5⟩, by rw [h6, h4, hw]; omega⟩

theorem times_converged {k : Method} {s : FixedPoint S} {m : Sparse S} {b : List S} {j : Nat}
    {st st' : (List S × List S) × Conv S N} (h : times (pass F k s m b) j st = .ok st') :
    st'.2.converged = st.2.converged := by
  induction j generalizing st with
  | zero =>
    simp only [times, Out.ok.injEq] at h
    subst h
    rfl
  | succ j ih =>
    rw [times_succ_ok] at h
    obtain ⟨u, h1, h2⟩ := h
    rw [ih h2, (pass_ok h1).2.2]

/-- A prefix of the passes. -/
theorem times_prefix {σ : Type} {f : σ → Out σ} {i j : Nat} {s t : σ} (h : times f (i + j) s = .ok t) :
    ∃ u, times f i s = .ok u ∧ times f j u = .ok t := by
  induction i generalizing s with
  | zero => exact ⟨s, rfl, by simpa using h⟩
  | succ i ih =>
    rw [show i + 1 + j = (i + j) + 1 by omega, times_succ_ok] at h
    obtain ⟨u, h1, h2⟩ := h
    obtain ⟨v, h3, h4⟩ := ih h2
    exact ⟨v, times_succ_ok.mpr ⟨u, h1, h3⟩, h4⟩

/-! ### Residuals -/

omit [Zero S] [Add S] [Sub S] [Mul S] [Div S]

theorem residual_loop {n : Nat} {m : Sparse ℝ} {A : Fin n → Fin n → ℝ} (h : Square m A) (x b : Fin n → ℝ) (hn : n ≤ intMax) :
    ∃ l2 linf : ℝ, loop n (residualBody reals m (vec x) (vec b)) (0, 0) = .ok (l2, linf) ∧
      l2 = ∑ i, defect A x b i ^ 2 ∧ (∀ i, defect A x b i ^ 2 ≤ linf) ∧
      (linf = 0 ∨ ∃ i, linf = defect A x b i ^ 2) := by
  obtain ⟨⟨l2, linf⟩, h1, h2, h3, h4⟩ := loop_inv (n := n) (s := ((0 : ℝ), (0 : ℝ)))
    (body := residualBody reals m (vec x) (vec b))
    (fun k st => st.1 = (∑ i : Fin n, if i.1 < k then defect A x b i ^ 2 else 0) ∧
      (∀ i : Fin n, i.1 < k → defect A x b i ^ 2 ≤ st.2) ∧ (st.2 = 0 ∨ ∃ i, st.2 = defect A x b i ^ 2))
    ⟨by simp, fun i hi => absurd hi (Nat.not_lt_zero _), Or.inl rfl⟩ (by
      rintro k ⟨l2, linf⟩ hk ⟨h2, h3, h4⟩
      simp only at h2 h3 h4
      have hr : k < m.sizeRow := by rw [h.2.1]; exact hk
      have hrow := rowDot_ok h x ⟨k, hk⟩
      simp only at hrow
      refine ⟨(l2 + defect A x b ⟨k, hk⟩ ^ 2,
        if linf < defect A x b ⟨k, hk⟩ ^ 2 then defect A x b ⟨k, hk⟩ ^ 2 else linf), ?_, ?_, ?_, ?_⟩
      · unfold residualBody
        simp only [hr, decide_true, assert_true, Out.ok_bind, hrow, rd_vec b hk]
        rw [if_neg (by omega)]
        simp only [reals, decide_eq_true_eq, Out.pure_eq, defect, pow_two]
      · simp only
        have e : ∀ i : Fin n, (if i.1 < k + 1 then defect A x b i ^ 2 else 0) =
            (if i.1 < k then defect A x b i ^ 2 else 0) +
              (if i = ⟨k, hk⟩ then defect A x b ⟨k, hk⟩ ^ 2 else 0) := by
          intro i
          by_cases hi : i = ⟨k, hk⟩
          · subst hi; simp
          · have hi' : i.1 ≠ k := fun h => hi (Fin.ext h)
            have e : (i.1 < k + 1) ↔ (i.1 < k) := by omega
            simp only [e, hi, if_false, add_zero]
        rw [Finset.sum_congr rfl fun i _ => e i, Finset.sum_add_distrib, Finset.sum_ite_eq', if_pos (Finset.mem_univ _), h2]
      · intro i hi
        simp only
        by_cases hik : i = ⟨k, hk⟩
        · subst hik
          split
          · exact le_refl _
          · rename_i hle; exact not_lt.mp hle
        · have hi' : i.1 ≠ k := fun h => hik (Fin.ext h)
          have := h3 i (by omega)
          split
          · rename_i hlt; exact this.trans hlt.le
          · exact this
      · simp only
        split
        · exact Or.inr ⟨_, rfl⟩
        · exact h4)
  refine ⟨l2, linf, h1, ?_, fun i => h3 i i.2, h4⟩
  exact h2.trans (Finset.sum_congr rfl fun i _ => if_pos i.2)

theorem normMax_eq {n : Nat} {A : Fin n → Fin n → ℝ} {x b : Fin n → ℝ} {v : ℝ} (h1 : ∀ i, |defect A x b i| ≤ v)
    (h2 : ∃ i, v = |defect A x b i|) : normMax A x b = v := by
  obtain ⟨i, hi⟩ := h2
  haveI : Nonempty (Fin n) := ⟨i⟩
  apply le_antisymm
  · exact ciSup_le h1
  · rw [hi]
    exact le_ciSup (f := fun i => |defect A x b i|) (Set.finite_range _).bddAbove i

theorem defect_le_normMax {n : Nat} (A : Fin n → Fin n → ℝ) (x b : Fin n → ℝ) (i : Fin n) :
    |defect A x b i| ≤ normMax A x b :=
  le_ciSup (f := fun i => |defect A x b i|) (Set.finite_range _).bddAbove i

theorem computeResidual_ok {n : Nat} {m : Sparse ℝ} {A : Fin n → Fin n → ℝ} (h : Square m A) (x b : Fin n → ℝ) (hn0 : 0 < n)
    (hn : n ≤ intMax) : computeResidual reals m (vec x) (vec b) = .ok (norm2 A x b, normMax A x b) := by
  obtain ⟨l2, linf, h1, h2, h3, h4⟩ := residual_loop h x b hn
  have hlen : ((vec x).length != 0 && (vec b).length != 0) = true := by
    simp only [vec_length]
    simp
    omega
  unfold computeResidual
  rw [hlen]
  simp only [vec_length, h.2.1, h.2.2.1, beq_self_eq_true, assert_true, Out.ok_bind, h1, Out.pure_eq, Out.ok.injEq,
    Prod.mk.injEq]
  refine ⟨by rw [h2]; rfl, ?_⟩
  symm
  apply normMax_eq
  · intro i
    show _ ≤ √linf
    rw [← Real.sqrt_sq_eq_abs]
    exact Real.sqrt_le_sqrt (h3 i)
  · have : ∃ i, linf = defect A x b i ^ 2 := by
      rcases h4 with h4 | h4
      · refine ⟨⟨0, hn0⟩, ?_⟩
        have := h3 ⟨0, hn0⟩
        rw [h4] at this ⊢
        exact (le_antisymm this (sq_nonneg _)).symm
      · exact h4
    obtain ⟨i, hi⟩ := this
    refine ⟨i, ?_⟩
    show √linf = _
    rw [hi, Real.sqrt_sq_eq_abs]

end Iterative
end Disa
