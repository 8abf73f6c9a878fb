import Verif.Props.Reuse
import Verif.Solver.SweepFloat
import Verif.Scalar.Mono

/-!
# Properties C179 and C180: limits of iterative solves
-/

namespace Disa.Props

open Disa Spec Dense Iterative

section Generic

variable {S N : Type} [Zero S] [Add S] [Sub S] [Mul S] [Div S] {F : Scalars S N}

/-! ### C180 -/

/-- The residuals that are reported after at least one iteration. -/
def SameEnd (d e : Conv S N) : Prop := d.residual = e.residual ∧ d.residualMax = e.residualMax

theorem update_other {m : Sparse S} {x b : List S} {d d' : Conv S N} (e : Conv S N) (h : update F m x b d = .ok d') :
    ∃ e', update F m x b e = .ok e' ∧ SameEnd d' e' ∧ m.sizeRow = x.length ∧ (d = e → d' = e') := by
  unfold update at h ⊢
  rw [Out.bind_eq_ok] at h
  obtain ⟨⟨r, rm⟩, h1, h2⟩ := h
  have hlen : m.sizeRow = x.length := by
    unfold computeResidual at h1
    rw [Out.bind_eq_ok] at h1
    obtain ⟨_, _, h1⟩ := h1
    rw [Out.bind_eq_ok] at h1
    obtain ⟨_, h3, _⟩ := h1
    by_contra hne
    simp [assert, hne] at h3
  simp only [Out.pure_eq, Out.ok.injEq] at h2
  subst h2
  rw [h1]
  exact ⟨_, rfl, ⟨rfl, rfl⟩, hlen, by rintro rfl; rfl⟩

/-- The first vector after an iteration does not depend on the working vector. -/
theorem step_other (k : Method) (s s' : FixedPoint S) {m : Sparse S} {b x u v y w : List S}
    (hl : k = .jacobi → u.length = m.sizeRow ∧ v.length = m.sizeRow) (h : step F k s m b (x, u) = .ok (y, w)) :
    ∃ z, step F k s' m b (x, v) = .ok (y, z) ∧ (k = .jacobi → w = x ∧ z = x) := by
  cases k with
  | jacobi =>
    obtain ⟨hu, hv⟩ := hl rfl
    unfold Iterative.step at h ⊢
    simp only at h ⊢
    rw [sweep_overwrites m b x F.one u v hu hv] at h
    rw [Out.bind_eq_ok] at h
    obtain ⟨y', h1, h2⟩ := h
    simp only [Out.pure_eq, Out.ok.injEq, Prod.mk.injEq] at h2
    obtain ⟨rfl, rfl⟩ := h2
    rw [h1]
    exact ⟨x, rfl, fun _ => ⟨rfl, rfl⟩⟩
  | gaussSeidel =>
    unfold Iterative.step at h ⊢
    simp only at h ⊢
    rw [Out.bind_eq_ok] at h
    obtain ⟨y', h1, h2⟩ := h
    simp only [Out.pure_eq, Out.ok.injEq, Prod.mk.injEq] at h2
    obtain ⟨rfl, rfl⟩ := h2
    rw [h1]
    exact ⟨v, rfl, by simp⟩
  | sor =>
    unfold Iterative.step at h ⊢
    simp only at h ⊢
    rw [Out.bind_eq_ok] at h
    obtain ⟨y', h1, h2⟩ := h
    simp only [Out.pure_eq, Out.ok.injEq, Prod.mk.injEq] at h2
    obtain ⟨rfl, rfl⟩ := h2
    rw [h1]
    exact ⟨v, rfl, by simp⟩

/-- Iterations from the same vector, with other working vectors and other convergence data. -/
theorem times_other (k : Method) (s s' : FixedPoint S) {m : Sparse S} {b x u v : List S} (j : Nat) {d : Conv S N} (e : Conv S N)
    {t : (List S × List S) × Conv S N} (hx : x.length = m.sizeRow)
    (hl : k = .jacobi → u.length = m.sizeRow ∧ v.length = m.sizeRow) (h : times (pass F k s m b) j ((x, u), d) = .ok t) :
    ∃ t', times (pass F k s' m b) j ((x, v), e) = .ok t' ∧ t'.1.1 = t.1.1 ∧ t.1.1.length = m.sizeRow ∧
      (k = .jacobi → t.1.2.length = m.sizeRow ∧ t'.1.2.length = m.sizeRow) ∧ (0 < j → SameEnd t.2 t'.2) ∧
      (d = e → t.2 = t'.2) := by
  induction j generalizing x u v d e with
  | zero =>
    simp only [times, Out.ok.injEq] at h
    subst h
    exact ⟨_, rfl, rfl, hx, hl, by simp, id⟩
  | succ j ih =>
    rw [times_succ_ok] at h
    obtain ⟨st, h1, h2⟩ := h
    unfold pass at h1
    rw [Out.bind_eq_ok] at h1
    obtain ⟨⟨y, w⟩, h3, h1⟩ := h1
    rw [Out.bind_eq_ok] at h1
    obtain ⟨d', h4, h1⟩ := h1
    simp only [Out.pure_eq, Out.ok.injEq] at h1
    subst h1
    obtain ⟨z, h5, h6⟩ := step_other k s s' hl h3
    obtain ⟨e', h7, h8, h9, h10⟩ := update_other e h4
    have hp : pass F k s' m b ((x, v), e) = .ok ((y, z), e') := by
      unfold pass
      rw [h5, Out.ok_bind]
      simp only
      rw [h7]
      rfl
    obtain ⟨t', i1, i2, i3, i4, i5, i6⟩ := ih e' h9.symm (fun hk => by
      obtain ⟨rfl, rfl⟩ := h6 hk
      exact ⟨hx, hx⟩) h2
    refine ⟨t', times_succ_ok.mpr ⟨_, hp, i1⟩, i2, i3, i4, fun _ => ?_, fun hde => i6 (h10 hde)⟩
    cases j with
    | zero =>
      simp only [times, Out.ok.injEq] at h2 i1
      subst h2 i1
      exact h8
    | succ j => exact i5 (by omega)

theorem times_add {σ : Type} {f : σ → Out σ} {i j : Nat} {s t u : σ} (h1 : times f i s = .ok t) (h2 : times f j t = .ok u) :
    times f (i + j) s = .ok u := by
  induction i generalizing s with
  | zero =>
    simp only [times, Out.ok.injEq] at h1
    subst h1
    simpa using h2
  | succ i ih =>
    rw [times_succ_ok] at h1
    obtain ⟨v, h3, h4⟩ := h1
    rw [show i + 1 + j = (i + j) + 1 by omega, times_succ_ok]
    exact ⟨v, h3, ih h4⟩

/-- The number of iterations that a solve reports. -/
theorem solve_count {k : Method} {s s' : FixedPoint S} {m : Sparse S} {x b x' : List S} {fuel : Nat} {d : Conv S N}
    (hf : fuel ≤ sizeMax) (h : solveSystem F k s m x b fuel = .ok (x', d, s')) :
    d.iteration ≤ fuel ∧ times (pass F k s m b) d.iteration ((x, startWorking k s m), Conv.new F) = .ok ((x', s'.working), d) ∧
      isConverged F s.limits d = true ∧ ∀ i, i < d.iteration → ∀ t,
        times (pass F k s m b) i ((x, startWorking k s m), Conv.new F) = .ok t → isConverged F s.limits t.2 = false := by
  obtain ⟨j, h1, h2, h3, h4⟩ := iterate_ok (solveSystem_ok h)
  have h5 := (times_iteration h2 (by simp [Conv.new]; omega)).2
  simp only [Conv.new, Nat.zero_add] at h5
  rw [h5]
  exact ⟨h1, h2, h3, h4⟩

/-- C180: two solves that together make as many iterations as one. -/
theorem c180_split (k : Method) (s1 s2 s3 t1 t2 : FixedPoint S) (m : Sparse S) (x x1 x2 b : List S) (fuel1 fuel2 : Nat)
    (d1 d2 : Conv S N) (hx : x.length = m.sizeRow) (hf : fuel1 + fuel2 ≤ sizeMax)
    (h1 : solveSystem F k s1 m x b fuel1 = .ok (x1, d1, t1)) (h2 : solveSystem F k s2 m x1 b fuel2 = .ok (x2, d2, t2))
    (hmin : s3.limits.minIterations = d1.iteration + d2.iteration) (hmax : s3.limits.maxIteration + 1 = d1.iteration + d2.iteration) :
    ∃ d3 t3, solveSystem F k s3 m x b (d1.iteration + d2.iteration) = .ok (x2, d3, t3) ∧
      d3.iteration = d1.iteration + d2.iteration ∧
      (0 < d2.iteration → d3.residual = d2.residual ∧ d3.residualMax = d2.residualMax) := by
  obtain ⟨a1, a2, -, -⟩ := solve_count (by omega) h1
  obtain ⟨b1, b2, -, -⟩ := solve_count (by omega) h2
  obtain ⟨u1, c1, c2, c3, c4, -, -⟩ := times_other k s1 s3 (v := startWorking k s3 m) _ (Conv.new F) hx
    (fun hk => ⟨startWorking_length _ _ _ hk, startWorking_length _ _ _ hk⟩) a2
  obtain ⟨⟨y, w⟩, e⟩ := u1
  simp only at c2 c3
  subst c2
  obtain ⟨u2, e1, e2, e3, e4, e5, -⟩ := times_other k s2 s3 (v := w) _ e c3
    (fun hk => ⟨startWorking_length _ _ _ hk, (c4 hk).2⟩) b2
  obtain ⟨⟨z, w'⟩, e'⟩ := u2
  simp only at e2
  subst e2
  have hall := times_add c1 e1
  have hit := (times_iteration hall (by simp [Conv.new]; omega)).2
  simp only [Conv.new, Nat.zero_add] at hit
  have hi : iterate F k s3 m b (d1.iteration + d2.iteration) ((x, startWorking k s3 m), Conv.new F) = .ok ((z, w'), e') := by
    refine iterate_of_times le_rfl hall ?_ ?_
    · rw [isConverged_iff]
      dsimp only
      omega
    · intro i hi t ht
      have := (times_iteration ht (by simp [Conv.new]; omega)).2
      simp only [Conv.new, Nat.zero_add] at this
      unfold isConverged
      rw [if_pos (by omega)]
  refine ⟨e', { s3 with working := w' }, ?_, hit, fun h0 => ?_⟩
  · rw [solveSystem_eq, hi]
    rfl
  · obtain ⟨r1, r2⟩ := e5 h0
    exact ⟨r1.symm, r2.symm⟩

/-- C180: solves of a system from the same vector that make the same number of iterations return the same, whatever their limits
and whatever was solved before. -/
theorem c180_same (k : Method) (s s' t t' : FixedPoint S) (m : Sparse S) (x y y' b : List S) (fuel fuel' : Nat)
    (d d' : Conv S N) (hx : x.length = m.sizeRow) (hf : fuel ≤ sizeMax) (hf' : fuel' ≤ sizeMax)
    (h : solveSystem F k s m x b fuel = .ok (y, d, t)) (h' : solveSystem F k s' m x b fuel' = .ok (y', d', t'))
    (hd : d.iteration = d'.iteration) : y = y' ∧ d = d' := by
  obtain ⟨a1, a2, -, -⟩ := solve_count hf h
  obtain ⟨b1, b2, -, -⟩ := solve_count hf' h'
  rw [hd] at a2
  obtain ⟨u, c1, c2, -, -, -, c3⟩ := times_other k s s' (v := startWorking k s' m) _ (Conv.new F) hx
    (fun hk => ⟨startWorking_length _ _ _ hk, startWorking_length _ _ _ hk⟩) a2
  rw [b2] at c1
  cases c1
  exact ⟨c2.symm, c3 rfl⟩

/-! ### C179 -/

/-- The second limits ask for at least as much as the first. -/
def Stricter (F : Scalars S N) (l l' : Limits S) : Prop :=
  l.minIterations ≤ l'.minIterations ∧ l.maxIteration ≤ l'.maxIteration ∧
    (∀ r, F.above r l.tolerance = true → F.above r l'.tolerance = true) ∧
    ∀ r, F.above r (F.ten * l.tolerance) = true → F.above r (F.ten * l'.tolerance) = true

omit [Zero S] [Add S] [Sub S] [Div S] in
theorem Stricter.converged {l l' : Limits S} (h : Stricter F l l') {d : Conv S N} (hd : isConverged F l' d = true) :
    isConverged F l d = true := by
  obtain ⟨h1, h2, h3, h4⟩ := h
  rw [isConverged_iff] at hd ⊢
  obtain ⟨e1, e2⟩ := hd
  refine ⟨by omega, ?_⟩
  rcases e2 with e2 | ⟨e2, e3⟩
  · left; omega
  · right
    constructor
    · cases hc : F.above d.residualNormalised l.tolerance with
      | false => rfl
      | true => rw [h3 _ hc] at e2; cases e2
    · cases hc : F.above d.residualMaxNormalised (F.ten * l.tolerance) with
      | false => rfl
      | true => rw [h4 _ hc] at e3; cases e3

/-- C179, with any scalars: a solve with limits that ask for less returns if one with limits that ask for more does, after no more
iterations, and the other solve continues from what it returns. -/
theorem c179_limits (k : Method) (s s' t' : FixedPoint S) (m : Sparse S) (x y' b : List S) (fuel : Nat)
    (d' : Conv S N) (hx : x.length = m.sizeRow) (hf : fuel ≤ sizeMax) (hs : Stricter F s.limits s'.limits)
    (h' : solveSystem F k s' m x b fuel = .ok (y', d', t')) :
    ∃ y d t, solveSystem F k s m x b fuel = .ok (y, d, t) ∧ d.iteration ≤ d'.iteration ∧
      (d.iteration = d'.iteration → y = y' ∧ d = d') ∧
      ∀ s'', s''.limits.minIterations = d'.iteration - d.iteration →
        s''.limits.maxIteration + 1 = d'.iteration - d.iteration →
        ∃ d'' t'', solveSystem F k s'' m y b fuel = .ok (y', d'', t'') ∧ d''.residual = d'.residual ∧
          d''.residualMax = d'.residualMax := by
  classical
  obtain ⟨a1, a2, a3, -⟩ := solve_count hf h'
  -- the first state at which the weaker limits are met
  let P : Nat → Prop := fun i => ∃ st, times (pass F k s' m b) i ((x, startWorking k s' m), Conv.new F) = .ok st ∧
    isConverged F s.limits st.2 = true
  have hex : ∃ i, P i := ⟨_, _, a2, hs.converged a3⟩
  obtain ⟨st, p1, p2⟩ := Nat.find_spec hex
  have hle : Nat.find hex ≤ d'.iteration := Nat.find_min' hex ⟨_, a2, hs.converged a3⟩
  generalize hi : Nat.find hex = i at p1 hle
  have hw := fun hk => And.intro (startWorking_length k s' m hk) (startWorking_length k s m hk)
  obtain ⟨st', q1, q2, q3, q4, -, q5⟩ := times_other k s' s (v := startWorking k s m) _ (Conv.new F) hx hw p1
  have q5 := q5 rfl
  have hbefore : ∀ l, l < i → ∀ t, times (pass F k s m b) l ((x, startWorking k s m), Conv.new F) = .ok t →
      isConverged F s.limits t.2 = false := by
    intro l hl t ht
    obtain ⟨t2, r1, -, -, -, -, r2⟩ := times_other k s s' (v := startWorking k s' m) _ (Conv.new F) hx
      (fun hk => ⟨(hw hk).2, (hw hk).1⟩) ht
    have r2 := r2 rfl
    cases hc : isConverged F s.limits t.2 with
    | false => rfl
    | true =>
      rw [r2] at hc
      have := Nat.find_min' hex (m := l) ⟨t2, r1, hc⟩
      omega
  have hit := iterate_of_times (le_trans hle a1) q1 (q5 ▸ p2) hbefore
  have hcount := (times_iteration q1 (by simp [Conv.new]; omega)).2
  simp only [Conv.new, Nat.zero_add] at hcount
  obtain ⟨⟨y, w⟩, d⟩ := st'
  simp only at q2 q3 q4 hcount
  have hsolve : solveSystem F k s m x b fuel = .ok (y, d, { s with working := w }) := by
    rw [solveSystem_eq, hit]
    rfl
  refine ⟨y, d, _, hsolve, by omega, fun e => c180_same k s s' _ _ m x y y' b fuel fuel d d' hx hf hf hsolve h' e, ?_⟩
  intro s'' e1 e2
  obtain ⟨r, hr⟩ : ∃ r, d'.iteration = i + r := ⟨d'.iteration - i, by omega⟩
  rw [hr] at a2
  obtain ⟨u, z1, z2⟩ := times_prefix a2
  rw [p1] at z1
  cases z1
  obtain ⟨⟨v, w1⟩, e⟩ := st
  simp only at q2 q3 q4
  subst q2
  obtain ⟨t'', v1, v2, -, -, v3, -⟩ := times_other k s' s'' (v := startWorking k s'' m) _ (Conv.new F) q3
    (fun hk => ⟨(q4 hk).1, startWorking_length _ _ _ hk⟩) z2
  obtain ⟨⟨y'', w''⟩, d''⟩ := t''
  simp only at v2
  subst v2
  have hc2 := (times_iteration v1 (by simp [Conv.new]; omega)).2
  simp only [Conv.new, Nat.zero_add] at hc2
  have hit2 : iterate F k s'' m b fuel ((y, startWorking k s'' m), Conv.new F) = .ok ((y'', w''), d'') := by
    refine iterate_of_times (by omega) v1 ?_ ?_
    · rw [isConverged_iff]
      dsimp only
      omega
    · intro l hl t ht
      have := (times_iteration ht (by simp [Conv.new]; omega)).2
      simp only [Conv.new, Nat.zero_add] at this
      unfold isConverged
      rw [if_pos (by omega)]
  obtain ⟨r1, r2⟩ := v3 (by omega)
  refine ⟨d'', { s'' with working := w'' }, ?_, r1.symm, r2.symm⟩
  rw [solveSystem_eq, hit2]
  rfl

end Generic

/-- C179 with exact numbers: smaller tolerances ask for more. -/
theorem c179_reals (l l' : Limits ℝ) (h1 : l.minIterations ≤ l'.minIterations) (h2 : l.maxIteration ≤ l'.maxIteration)
    (h3 : l'.tolerance ≤ l.tolerance) : Stricter reals l l' := by
  have key : ∀ t t' : ℝ, t' ≤ t → ∀ r, reals.above r t = true → reals.above r t' = true := by
    intro t t' ht r hr
    cases r with
    | nan => exact hr
    | inf => exact hr
    | num x =>
      simp only [reals, decide_eq_true_eq] at hr ⊢
      linarith
  refine ⟨h1, h2, key _ _ h3, key _ _ ?_⟩
  show (10 : ℝ) * _ ≤ 10 * _
  linarith

/-- C179 with doubles: smaller tolerances ask for more, also infinite ones. -/
theorem c179_doubles (sqrt : Num binary64 → Num binary64) (l l' : Limits (Num binary64))
    (h1 : l.minIterations ≤ l'.minIterations) (h2 : l.maxIteration ≤ l'.maxIteration)
    (h3 : Fl.le l'.tolerance l.tolerance = true) : Stricter (floats binary64 sqrt) l l' := by
  have key : ∀ t t' : Fl, Fl.le t' t = true → ∀ r, Fl.lt t r = true → Fl.lt t' r = true := by
    intro t t' ht r hr
    rcases t with _ | b | p <;> rcases t' with _ | b' | p' <;> rcases r with _ | b'' | q <;>
      simp_all [Fl.le, Fl.lt, Fl.eq]
    · rcases ht with ht | rfl
      · linarith
      · linarith
  refine ⟨h1, h2, key _ _ h3, key _ _ ?_⟩
  show Fl.le (Fl.mul binary64 (Fl.fin 10) l'.tolerance) (Fl.mul binary64 (Fl.fin 10) l.tolerance) = true
  revert h3
  generalize l.tolerance = t
  generalize l'.tolerance = t'
  intro h3
  have hfin : ∀ q : ℚ, ∀ b, Fl.le (binary64 q) (.inf false) = true ∧ Fl.le (.inf true) (binary64 q) = true ∧
      Fl.le (.inf b) (.inf b) = true := by
    intro q b
    rw [binary64_near]
    split
    · simp [Fl.le, Fl.lt, Fl.eq]
    · cases decide (q < 0) <;> simp [Fl.le, Fl.lt, Fl.eq]
  rcases t with _ | b | p <;> rcases t' with _ | b' | p'
  all_goals simp only [Fl.mul] at h3 ⊢
  all_goals try (simp [Fl.le, Fl.lt, Fl.eq] at h3; done)
  · cases b <;> cases b' <;> simp_all [Fl.le, Fl.lt, Fl.eq]
  · have : b = false := by cases b <;> simp_all [Fl.le, Fl.lt, Fl.eq]
    subst this
    simpa [show ¬ (10 : ℚ) < 0 by norm_num] using (hfin _ true).1
  · have : b' = true := by cases b' <;> simp_all [Fl.le, Fl.lt, Fl.eq]
    subst this
    simpa [show ¬ (10 : ℚ) < 0 by norm_num] using (hfin _ true).2.1
  · apply binary64_mono
    have : p' ≤ p := by
      simp only [Fl.le, Fl.lt, Fl.eq, Bool.or_eq_true, decide_eq_true_eq] at h3
      rcases h3 with h | h <;> linarith
    linarith

/-- A solve with doubles, one with a smaller tolerance, and one that continues the first. -/
example : (solveSystem (floats binary64 root64) .jacobi ⟨⟨0, 100, Num.fin (1 / 3)⟩, [], Num.fin 1⟩
      (dense2 (Num.fin 4) (Num.fin 1) (Num.fin 1) (Num.fin 4)) [Num.fin 0, Num.fin 0] [Num.fin 4, Num.fin 4] 100 >>=
      fun r => .ok (r.1, r.2.1.iteration, r.2.1.residual)) = .ok ([Num.fin (3 / 4), Num.fin (3 / 4)], 2, Num.fin (1 / 4)) ∧
    (solveSystem (floats binary64 root64) .jacobi ⟨⟨0, 100, Num.fin (1 / 32)⟩, [], Num.fin 1⟩
      (dense2 (Num.fin 4) (Num.fin 1) (Num.fin 1) (Num.fin 4)) [Num.fin 0, Num.fin 0] [Num.fin 4, Num.fin 4] 100 >>=
      fun r => .ok (r.1, r.2.1.iteration, r.2.1.residual)) = .ok ([Num.fin (51 / 64), Num.fin (51 / 64)], 4, Num.fin (1 / 64)) ∧
    (solveSystem (floats binary64 root64) .jacobi ⟨⟨2, 1, Num.fin 0⟩, [], Num.fin 1⟩
      (dense2 (Num.fin 4) (Num.fin 1) (Num.fin 1) (Num.fin 4)) [Num.fin (3 / 4), Num.fin (3 / 4)] [Num.fin 4, Num.fin 4] 100 >>=
      fun r => .ok (r.1, r.2.1.iteration, r.2.1.residual)) = .ok ([Num.fin (51 / 64), Num.fin (51 / 64)], 2, Num.fin (1 / 64)) := by
  decide +kernel

example : Stricter (floats binary64 root64) ⟨0, 100, Num.fin (1 / 3)⟩ ⟨0, 100, Num.fin (1 / 32)⟩ :=
  c179_doubles _ _ _ (by decide) (by decide) (by decide +kernel)

end Disa.Props
