import Verif.Props.Residual

/-!
# Property C90: solvers can be used again
-/

namespace Disa.Props

open Disa Spec Disa.Dense Iterative

variable {S N : Type} [Zero S] [Add S] [Sub S] [Mul S] [Div S] {F : Scalars S N}

/-- A Jacobi sweep overwrites the whole working vector. -/
theorem sweep_overwrites (m : Sparse S) (b x : List S) (omega : S) (u v : List S) (hu : u.length = m.sizeRow)
    (hv : v.length = m.sizeRow) : forwardSweep F m b omega (some x) u = forwardSweep F m b omega (some x) v := by
  unfold forwardSweep
  have key : ∀ l, l ≤ m.sizeRow →
      (∃ u' v', loop l (sweepRow F m b omega (some x)) u = .ok u' ∧ loop l (sweepRow F m b omega (some x)) v = .ok v' ∧
        u'.length = m.sizeRow ∧ v'.length = m.sizeRow ∧ u'.take l = v'.take l) ∨
      (∃ e : Out (List S), (∀ f : List S → Out (List S), e >>= f = e) ∧ loop l (sweepRow F m b omega (some x)) u = e ∧
        loop l (sweepRow F m b omega (some x)) v = e) := by
    intro l
    induction l with
    | zero => intro _; exact .inl ⟨u, v, rfl, rfl, hu, hv, rfl⟩
    | succ l ih =>
      intro hl
      rcases ih (by omega) with ⟨u', v', h1, h2, h3, h4, h5⟩ | ⟨e, he, h1, h2⟩
      · have hrow : ∀ t : List S, t.length = m.sizeRow → sweepRow F m b omega (some x) l t = (do
            let y ← (do
              let d ← offRowDot m x l
              let c ← rd b l
              let a ← m.get l l
              let y ← rd x l
              pure (omega * (c - d) / a + (F.one - omega) * y) : Out S)
            pure (t.set l y)) := by
          intro t ht
          have hw : ∀ z, wr t l z = .ok (t.set l z) := fun z => wr_ok (by omega)
          unfold sweepRow
          simp only [show (decide (l < m.sizeRow)) = true by simp; omega, assert_true, Out.ok_bind, Option.getD_some, hw]
          cases offRowDot m x l <;> try rfl
          simp only [Out.ok_bind]
          cases rd b l <;> try rfl
          simp only [Out.ok_bind]
          cases m.get l l <;> try rfl
          simp only [Out.ok_bind]
          cases rd x l <;> rfl
        have hu' := hrow u' h3
        have hv' := hrow v' h4
        generalize (do
              let d ← offRowDot m x l
              let c ← rd b l
              let a ← m.get l l
              let y ← rd x l
              pure (omega * (c - d) / a + (F.one - omega) * y) : Out S) = o at hu' hv'
        have eu : loop (l + 1) (sweepRow F m b omega (some x)) u = sweepRow F m b omega (some x) l u' := by
          show loop l _ u >>= _ = _
          rw [h1]; rfl
        have ev : loop (l + 1) (sweepRow F m b omega (some x)) v = sweepRow F m b omega (some x) l v' := by
          show loop l _ v >>= _ = _
          rw [h2]; rfl
        rw [eu, ev, hu', hv']
        cases o with
        | ok y =>
          refine .inl ⟨_, _, rfl, rfl, by simpa using h3, by simpa using h4, ?_⟩
          apply List.ext_getElem
          · simp [h3, h4]
          · intro i hi1 hi2
            simp only [List.getElem_take, List.getElem_set]
            by_cases hil : l = i
            · simp [hil]
            · have hlt : i < l := by simp at hi1; omega
              simp only [hil, if_false]
              have e1 : (u'.take l)[i]'(by simp; omega) = (v'.take l)[i]'(by simp; omega) := by simp only [h5]
              simpa using e1
        | exit c => exact .inr ⟨.exit c, fun _ => rfl, rfl, rfl⟩
        | throw => exact .inr ⟨.throw, fun _ => rfl, rfl, rfl⟩
        | ub => exact .inr ⟨.ub, fun _ => rfl, rfl, rfl⟩
        | diverge => exact .inr ⟨.diverge, fun _ => rfl, rfl, rfl⟩
      · refine .inr ⟨e, he, ?_, ?_⟩
        · show loop l _ u >>= _ = _
          rw [h1, he]
        · show loop l _ v >>= _ = _
          rw [h2, he]
  rcases key m.sizeRow le_rfl with ⟨u', v', h1, h2, h3, h4, h5⟩ | ⟨e, he, h1, h2⟩
  · rw [h1, h2]
    rw [← h3, List.take_length, h3, ← h4, List.take_length] at h5
    rw [h5]
  · rw [h1, h2]

/-- The parts of a solve that the caller sees. -/
def visible {α β γ : Type} (o : Out (α × β × γ)) : Out (α × β) := do
  let r ← o
  pure (r.1, r.2.1)

/-- What a solve returns does not depend on the systems that the solver solved before. -/
theorem c90_history (k : Method) (s : FixedPoint S) (w : List S) (m : Sparse S) (x b : List S) (fuel : Nat) :
    visible (solveSystem F k { s with working := w } m x b fuel) = visible (solveSystem F k s m x b fuel) := by
  have hw : ∀ st, iterate F k { s with working := w } m b fuel st = iterate F k s m b fuel st := by
    intro st
    unfold iterate
    rw [step_settings F k { s with working := w } s]
  have main : ∀ (fuel : Nat) (x u v : List S) (d : Conv S N), (k = .jacobi → u.length = m.sizeRow ∧ v.length = m.sizeRow) →
      (do let st ← iterate F k s m b fuel ((x, u), d); pure (st.1.1, st.2) : Out (List S × Conv S N)) =
      (do let st ← iterate F k s m b fuel ((x, v), d); pure (st.1.1, st.2)) := by
    intro fuel
    cases hk : k with
    | jacobi =>
      intro x u v d hl
      have hl := hl rfl
      have hp : pass F .jacobi s m b ((x, u), d) = pass F .jacobi s m b ((x, v), d) := by
        unfold pass step
        simp only [sweep_overwrites m b x F.one u v hl.1 hl.2]
      rw [iterate_eq, iterate_eq]
      cases fuel with
      | zero =>
        unfold whileFuel
        cases isConverged F s.limits d <;> rfl
      | succ fuel =>
        unfold whileFuel
        cases isConverged F s.limits d
        · simp only [Bool.not_false, if_true, hp]
        · rfl
    | gaussSeidel =>
      induction fuel with
      | zero =>
        intro x u v d _
        rw [iterate_eq, iterate_eq]
        unfold whileFuel
        cases isConverged F s.limits d <;> rfl
      | succ fuel ih =>
        intro x u v d _
        rw [iterate_eq, iterate_eq]
        unfold whileFuel
        cases isConverged F s.limits d
        · simp only [Bool.not_false, if_true]
          unfold pass step
          cases forwardSweep F m b F.one none x with
          | ok y =>
            simp only [Out.ok_bind, Out.pure_eq]
            cases update F m y b d with
            | ok d' =>
              simp only [Out.ok_bind]
              exact ih y u v d' (by simp)
            | _ => rfl
          | _ => rfl
        · rfl
    | sor =>
      induction fuel with
      | zero =>
        intro x u v d _
        rw [iterate_eq, iterate_eq]
        unfold whileFuel
        cases isConverged F s.limits d <;> rfl
      | succ fuel ih =>
        intro x u v d _
        rw [iterate_eq, iterate_eq]
        unfold whileFuel
        cases isConverged F s.limits d
        · simp only [Bool.not_false, if_true]
          unfold pass step
          cases forwardSweep F m b F.threeHalves none x with
          | ok y =>
            simp only [Out.ok_bind, Out.pure_eq]
            cases update F m y b d with
            | ok d' =>
              simp only [Out.ok_bind]
              exact ih y u v d' (by simp)
            | _ => rfl
          | _ => rfl
        · rfl
  have hv : ∀ s' : FixedPoint S, visible (solveSystem F k s' m x b fuel) = (do
      let st ← iterate F k s' m b fuel ((x, startWorking k s' m), Conv.new F)
      pure (st.1.1, st.2)) := by
    intro s'
    unfold visible
    rw [solveSystem_eq]
    cases iterate F k s' m b fuel ((x, startWorking k s' m), Conv.new F) <;> rfl
  rw [hv, hv, hw]
  exact main fuel x _ _ _ fun hk => ⟨startWorking_length _ _ _ hk, startWorking_length _ _ _ hk⟩

/-- Solving with an iterative solver keeps its settings: a solver that has been used differs from a new one in its working vector
only, so that solving again gives what a new solver gives. -/
theorem c90_again (k : Method) (c : SolverConfig S) (m1 m2 : Sparse S) (x1 b1 x1' x2 b2 : List S) (fuel1 fuel2 : Nat)
    (d1 : Conv S N) (s1 : FixedPoint S) (h : solveSystem F k (initialise c) m1 x1 b1 fuel1 = .ok (x1', d1, s1)) :
    visible (solveSystem F k s1 m2 x2 b2 fuel2) = visible (solveSystem F k (initialise c) m2 x2 b2 fuel2) := by
  have : s1 = { initialise c with working := s1.working } := by
    rw [solveSystem_eq, Out.bind_eq_ok] at h
    obtain ⟨st, h1, h2⟩ := h
    simp only [Out.pure_eq, Out.ok.injEq, Prod.mk.injEq] at h2
    obtain ⟨rfl, rfl, rfl⟩ := h2
    rfl
  rw [this]
  exact c90_history k (initialise c) s1.working m2 x2 b2 fuel2

end Disa.Props
