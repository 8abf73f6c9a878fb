import Verif.Props.SweepFloat
import Verif.Props.Residual
import Verif.Props.Order
import Verif.Props.Graph

/-!
# Properties C114 and C115: iterative solvers and the numbering of the unknowns
-/

namespace Disa.Props

open Disa Spec Dense Iterative

/-- The solve for a renumbered system returns for the same limit of iterations, with the same convergence data and the renumbered
solution. -/
def SameSolve {n : Nat} (k : Method) (s : FixedPoint ℝ) (σ : Equiv.Perm (Fin n)) (m m' : Sparse ℝ) (b x : Fin n → ℝ) : Prop :=
  ∀ (fuel : Nat) (y : List ℝ) (d : Conv ℝ Quot) (s1 : FixedPoint ℝ),
    solveSystem reals k s m (vec x) (vec b) fuel = .ok (y, d, s1) →
    ∃ (z : Fin n → ℝ) (s2 : FixedPoint ℝ), y = vec z ∧
      solveSystem reals k s m' (vec fun i => x (σ.symm i)) (vec fun i => b (σ.symm i)) fuel = .ok (vec fun i => z (σ.symm i), d, s2)

/-- C114: solves do not depend on the numbering of the unknowns. -/
def C114 (k : Method) : Prop := ∀ (n : Nat) (σ : Equiv.Perm (Fin n)) (m m' : Sparse ℝ) (A : Fin n → Fin n → ℝ), 0 < n → n < 2 ^ 31 →
  Square m A → Square m' (fun i j => A (σ.symm i) (σ.symm j)) → (∀ i, A i i ≠ 0) → ∀ (s : FixedPoint ℝ) (b x : Fin n → ℝ),
  SameSolve k s σ m m' b x

section renumber

variable {n : Nat} (σ : Equiv.Perm (Fin n)) (A : Fin n → Fin n → ℝ) (b x : Fin n → ℝ)

theorem sum_renumber (z : Fin n → ℝ) (i : Fin n) :
    ∑ j, A (σ.symm (σ i)) (σ.symm j) * z j = ∑ j, A i j * z (σ j) := by
  rw [← Equiv.sum_comp σ]
  simp

theorem relaxed_renumber (omega : ℝ) (z : Fin n → ℝ) (i : Fin n) :
    relaxed (fun i j => A (σ.symm i) (σ.symm j)) (fun i => b (σ.symm i)) omega z (σ i) =
      relaxed A b omega (fun j => z (σ j)) i := by
  unfold relaxed
  have : off (fun i j => A (σ.symm i) (σ.symm j)) z (σ i) = off A (fun j => z (σ j)) i := by
    unfold off
    rw [← Equiv.sum_comp σ]
    simp
  rw [this]
  simp

theorem relaxed_congr {omega : ℝ} {y z : Fin n → ℝ} {i : Fin n} (h : ∀ j, j ≠ i → A i j ≠ 0 → y j = z j) (hi : y i = z i) :
    relaxed A b omega y i = relaxed A b omega z i := by
  unfold relaxed
  have : off A y i = off A z i := by
    unfold off
    apply Finset.sum_congr rfl
    intro j _
    by_cases hj : j = i
    · simp [hj]
    · by_cases ha : A i j = 0
      · simp [ha]
      · rw [h j hj ha]
  rw [this, hi]

theorem defect_renumber (i : Fin n) :
    defect (fun i j => A (σ.symm i) (σ.symm j)) (fun i => x (σ.symm i)) (fun i => b (σ.symm i)) (σ i) = defect A x b i := by
  unfold defect
  rw [sum_renumber]
  simp

theorem norm2_renumber : norm2 (fun i j => A (σ.symm i) (σ.symm j)) (fun i => x (σ.symm i)) (fun i => b (σ.symm i)) = norm2 A x b := by
  unfold norm2
  rw [← Equiv.sum_comp σ]
  simp only [defect_renumber]

theorem normMax_renumber :
    normMax (fun i j => A (σ.symm i) (σ.symm j)) (fun i => x (σ.symm i)) (fun i => b (σ.symm i)) = normMax A x b := by
  unfold normMax
  rw [← Equiv.iSup_comp σ]
  simp only [defect_renumber]

end renumber

/-- The solves are the same if the renumbering keeps the order of coupled unknowns, or the method is Jacobi. -/
theorem same_solve (k : Method) {n : Nat} (σ : Equiv.Perm (Fin n)) (m m' : Sparse ℝ) (A : Fin n → Fin n → ℝ) (hn0 : 0 < n)
    (hn : n < 2 ^ 31) (hm : Square m A) (hm' : Square m' (fun i j => A (σ.symm i) (σ.symm j))) (hd : ∀ i, A i i ≠ 0)
    (hσ : k ≠ .jacobi → ∀ i j, A i j ≠ 0 → (j < i ↔ σ j < σ i)) (s : FixedPoint ℝ) (b x : Fin n → ℝ) :
    SameSolve k s σ m m' b x := by
  have hn' : n ≤ intMax := by unfold intMax; omega
  -- one iteration
  have hpass : ∀ (x : Fin n → ℝ) (w w' : List ℝ) (d : Conv ℝ Quot), (k = .jacobi → w.length = n) → (k = .jacobi → w'.length = n) →
      ∃ (y : Fin n → ℝ) (v v' : List ℝ) (d' : Conv ℝ Quot), (k = .jacobi → v.length = n) ∧ (k = .jacobi → v'.length = n) ∧
        pass reals k s m (vec b) ((vec x, w), d) = .ok ((vec y, v), d') ∧
        pass reals k s m' (vec fun i => b (σ.symm i)) ((vec fun i => x (σ.symm i), w'), d) =
          .ok ((vec fun i => y (σ.symm i), v'), d') := by
    intro x w w' d hw hw'
    obtain ⟨y, v, h1, h2, h3⟩ := step_ok (F := reals) ⟨rfl, rfl⟩ k s hm hd b x w hw
    obtain ⟨y', v', h1', h2', h3'⟩ := step_ok (F := reals) ⟨rfl, rfl⟩ k s hm' (fun i => hd (σ.symm i)) (fun i => b (σ.symm i))
      (fun i => x (σ.symm i)) w' hw'
    have hy : ∀ l, ∀ i : Fin n, i.1 < l → y' (σ i) = y i := by
      intro l
      induction l with
      | zero => intro i hi; exact absurd hi (Nat.not_lt_zero _)
      | succ l ih =>
        intro i hi
        rw [h3' (σ i), h3 i, relaxed_renumber]
        by_cases hk : k = .jacobi
        · simp [hk]
        · simp only [hk, if_false, Equiv.symm_apply_apply]
          refine relaxed_congr A b (fun j hj ha => ?_) (by simp)
          have := hσ hk i j ha
          by_cases hji : j < i
          · rw [if_pos hji, if_pos (this.mp hji)]
            exact ih j (by have : j.1 < i.1 := hji; omega)
          · rw [if_neg hji, if_neg (fun h => hji (this.mpr h))]
    have hy' : y' = fun i => y (σ.symm i) := by
      funext i
      have := hy ((σ.symm i).1 + 1) (σ.symm i) (by omega)
      simpa using this
    subst hy'
    refine ⟨y, v, v', ⟨d.converged, wrap (d.iteration + 1), norm2 A y b, if d.iteration = 0 then norm2 A y b else d.residual0,
      reals.ratio (norm2 A y b) (if d.iteration = 0 then norm2 A y b else d.residual0), normMax A y b,
      if d.iteration = 0 then normMax A y b else d.residualMax0,
      reals.ratio (normMax A y b) (if d.iteration = 0 then normMax A y b else d.residualMax0)⟩, h2, h2', ?_, ?_⟩
    · unfold pass update
      simp only [h1, Out.ok_bind, computeResidual_ok hm y b hn0 hn', Out.pure_eq]
    · unfold pass update
      simp only [h1', Out.ok_bind, computeResidual_ok hm' _ _ hn0 hn', Out.pure_eq, norm2_renumber, normMax_renumber]
  -- all iterations
  have hiter : ∀ (fuel : Nat) (x : Fin n → ℝ) (w w' : List ℝ) (d : Conv ℝ Quot), (k = .jacobi → w.length = n) →
      (k = .jacobi → w'.length = n) → ∀ st, iterate reals k s m (vec b) fuel ((vec x, w), d) = .ok st →
      ∃ (y : Fin n → ℝ) (v' : List ℝ), st.1.1 = vec y ∧
        iterate reals k s m' (vec fun i => b (σ.symm i)) fuel ((vec fun i => x (σ.symm i), w'), d) =
          .ok ((vec fun i => y (σ.symm i), v'), st.2) := by
    intro fuel
    induction fuel with
    | zero =>
      intro x w w' d _ _ st hst
      rw [iterate_eq] at hst ⊢
      unfold whileFuel at hst ⊢
      simp only at hst ⊢
      by_cases hc : isConverged reals s.limits d = true
      · simp only [hc, Bool.not_true, Bool.false_eq_true, if_false, Out.ok.injEq] at hst ⊢
        subst hst
        exact ⟨x, w', rfl, rfl⟩
      · simp [hc] at hst
    | succ fuel ih =>
      intro x w w' d hw hw' st hst
      rw [iterate_eq] at hst ⊢
      unfold whileFuel at hst ⊢
      simp only at hst ⊢
      by_cases hc : isConverged reals s.limits d = true
      · simp only [hc, Bool.not_true, Bool.false_eq_true, if_false, Out.ok.injEq] at hst ⊢
        subst hst
        exact ⟨x, w', rfl, rfl⟩
      · obtain ⟨y, v, v', d', g1, g2, g3, g4⟩ := hpass x w w' d hw hw'
        simp only [hc, Bool.not_false, if_true, g3, g4, Out.ok_bind] at hst ⊢
        rw [← iterate_eq] at hst ⊢
        exact ih y v v' d' g1 g2 st hst
  intro fuel y d s1 h
  rw [solveSystem_eq, Out.bind_eq_ok] at h
  obtain ⟨st, h1, h2⟩ := h
  simp only [Out.pure_eq, Out.ok.injEq, Prod.mk.injEq] at h2
  obtain ⟨z, v', h3, h4⟩ := hiter fuel x _ (startWorking k s m') _
    (fun hk => by rw [startWorking_length k s m hk]; exact hm.2.1) (fun hk => by rw [startWorking_length k s m' hk]; exact hm'.2.1) st h1
  refine ⟨z, ⟨s.limits, v', s.relaxation⟩, by rw [← h2.1, h3], ?_⟩
  rw [solveSystem_eq, h4, Out.ok_bind]
  simp only [Out.pure_eq, Out.ok.injEq, Prod.mk.injEq]
  exact ⟨trivial, h2.2.1, trivial⟩

/-- C114 for Jacobi. -/
theorem c114_jacobi_partial : C114 .jacobi := fun _ σ m m' A hn0 hn hm hm' hd s b x =>
  same_solve .jacobi σ m m' A hn0 hn hm hm' hd (fun h => absurd rfl h) s b x

/-- C114 for all methods, if the renumbering keeps the order of coupled unknowns. -/
theorem c114_order_partial (k : Method) {n : Nat} (σ : Equiv.Perm (Fin n)) (m m' : Sparse ℝ) (A : Fin n → Fin n → ℝ) (hn0 : 0 < n)
    (hn : n < 2 ^ 31) (hm : Square m A) (hm' : Square m' (fun i j => A (σ.symm i) (σ.symm j))) (hd : ∀ i, A i i ≠ 0)
    (hσ : ∀ i j, A i j ≠ 0 → (j < i ↔ σ j < σ i)) (s : FixedPoint ℝ) (b x : Fin n → ℝ) : SameSolve k s σ m m' b x :=
  same_solve k σ m m' A hn0 hn hm hm' hd (fun _ => hσ) s b x

/-- The hypotheses are met by two unknowns that are not coupled, in either order. -/
example : Square (dense2 (2 : ℝ) 0 0 3) ![![2, 0], ![0, 3]] ∧ Square (dense2 (3 : ℝ) 0 0 2) (fun i j =>
    (![![2, 0], ![0, 3]] : Fin 2 → Fin 2 → ℝ) ((Equiv.swap 0 1 : Equiv.Perm (Fin 2)).symm i) ((Equiv.swap 0 1).symm j)) ∧
    (∀ i j : Fin 2, (![![2, 0], ![0, 3]] : Fin 2 → Fin 2 → ℝ) i j ≠ 0 → (j < i ↔ Equiv.swap 0 1 j < Equiv.swap 0 1 i)) := by
  refine ⟨dense2_square _ _ _ _, ?_, ?_⟩
  · have e : (fun i j => (![![2, 0], ![0, 3]] : Fin 2 → Fin 2 → ℝ) ((Equiv.swap 0 1 : Equiv.Perm (Fin 2)).symm i)
        ((Equiv.swap 0 1).symm j)) = ![![3, 0], ![0, 2]] := by
      funext i j
      fin_cases i <;> fin_cases j <;> simp
    rw [e]
    exact dense2_square _ _ _ _
  · intro i j
    fin_cases i <;> fin_cases j <;> simp

/-- A solve with at most one iteration. -/
theorem one_iteration (k : Method) (s : FixedPoint ℝ) (hs : s.limits = ⟨0, 0, 1⟩) {n : Nat} {m : Sparse ℝ} {A : Fin n → Fin n → ℝ}
    (hn0 : 0 < n) (hn : n < 2 ^ 31) (hm : Square m A) (b x y : Fin n → ℝ) (w : List ℝ)
    (hy : Iterative.step reals k s m (vec b) (vec x, startWorking k s m) = .ok (vec y, w)) :
    ∃ d s', solveSystem reals k s m (vec x) (vec b) 1 = .ok (vec y, d, s') := by
  obtain ⟨d, hd, h1⟩ : ∃ d, pass reals k s m (vec b) ((vec x, startWorking k s m), Conv.new reals) = .ok ((vec y, w), d) ∧
      d.iteration = 1 := by
    unfold pass update
    simp only [hy, Out.ok_bind, computeResidual_ok hm y b hn0 (by unfold intMax; omega), Out.pure_eq]
    exact ⟨_, rfl, rfl⟩
  have hi : iterate reals k s m (vec b) 1 ((vec x, startWorking k s m), Conv.new reals) = .ok ((vec y, w), d) := by
    refine iterate_of_times (j := 1) le_rfl (times_succ_ok.mpr ⟨_, hd, rfl⟩) ?_ ?_
    · rw [isConverged_iff, h1, hs]
      exact ⟨by simp, .inl (by simp)⟩
    · intro i hi u hu
      obtain rfl : i = 0 := by omega
      simp only [times, Out.ok.injEq] at hu
      subst hu
      by_contra hc
      rw [Bool.not_eq_false, isConverged_iff, hs] at hc
      rcases hc.2 with h9 | h9
      · exact absurd h9 (Nat.not_lt_zero _)
      · have h10 := h9.1
        simp only [Conv.new, reals, decide_eq_false_iff_not, not_lt] at h10
        have : (1 : ℝ) < (2 - 1 / 2 ^ 52) * 2 ^ 1023 := by
          have e : (2 : ℝ) ≤ 2 ^ 1023 := by
            calc (2 : ℝ) = 2 ^ 1 := by norm_num
              _ ≤ 2 ^ 1023 := pow_le_pow_right₀ (by norm_num) (by norm_num)
          have e2 : (1 : ℝ) ≤ 2 - 1 / 2 ^ 52 := by norm_num
          generalize (2 : ℝ) ^ 1023 = P at *
          nlinarith
        exact absurd this (not_lt.mpr h10)
  rw [solveSystem_eq, hi]
  exact ⟨_, _, rfl⟩

/-- C114 fails for Gauss Seidel and successive over relaxation: exchanging the unknowns of a triangular system. -/
theorem c114_violated (k : Method) (hk : k ≠ .jacobi) : ¬ C114 k := by
  intro h
  obtain ⟨s, hs⟩ : ∃ s : FixedPoint ℝ, s = ⟨⟨0, 0, 1⟩, [], 0⟩ := ⟨_, rfl⟩
  have hl : s.limits = ⟨0, 0, 1⟩ := by rw [hs]
  have hm := dense2_square (2 : ℝ) 0 2 2
  have hm' := dense2_square (2 : ℝ) 2 0 2
  have e : (fun i j => (![![2, 0], ![2, 2]] : Fin 2 → Fin 2 → ℝ) ((Equiv.swap 0 1 : Equiv.Perm (Fin 2)).symm i)
      ((Equiv.swap 0 1 : Equiv.Perm (Fin 2)).symm j)) = ![![2, 2], ![0, 2]] := by
    funext i j
    fin_cases i <;> fin_cases j <;> simp
  obtain ⟨y, w, h1, -, h2⟩ := step_ok (F := reals) ⟨rfl, rfl⟩ k s hm (by intro i; fin_cases i <;> simp) ![2, 0] ![0, 0]
    (startWorking k s (dense2 2 0 2 2)) (fun h => absurd h hk)
  obtain ⟨y', w', h1', -, h2'⟩ := step_ok (F := reals) ⟨rfl, rfl⟩ k s hm' (by intro i; fin_cases i <;> simp) ![0, 2] ![0, 0]
    (startWorking k s (dense2 2 2 0 2)) (fun h => absurd h hk)
  obtain ⟨d, s1, h3⟩ := one_iteration k s hl (by norm_num) (by norm_num) hm _ _ y w h1
  obtain ⟨d', s1', h3'⟩ := one_iteration k s hl (by norm_num) (by norm_num) hm' _ _ y' w' h1'
  obtain ⟨z, s2, h4, h5⟩ := h 2 (Equiv.swap 0 1) _ _ _ (by norm_num) (by norm_num) hm (by rw [e]; exact hm')
    (by intro i; fin_cases i <;> simp) s ![2, 0] ![0, 0] 1 _ d s1 h3
  have e1 : (fun i => (![0, 0] : Fin 2 → ℝ) ((Equiv.swap 0 1 : Equiv.Perm (Fin 2)).symm i)) = ![0, 0] := by
    funext i; fin_cases i <;> simp
  have e2 : (fun i => (![2, 0] : Fin 2 → ℝ) ((Equiv.swap 0 1 : Equiv.Perm (Fin 2)).symm i)) = ![0, 2] := by
    funext i; fin_cases i <;> simp
  rw [e1, e2, h3', Out.ok.injEq, Prod.mk.injEq, vec_inj] at h5
  rw [vec_inj] at h4
  have h6 := congrFun h5.1 0
  rw [← h4] at h6
  have h7 := h2 0
  have h8 := h2 1
  have h9 := h2' 0
  simp [hk, relaxed, off, Fin.sum_univ_two] at h7
  simp [hk, relaxed, off, Fin.sum_univ_two] at h8
  simp [hk, relaxed, off, Fin.sum_univ_two] at h9
  simp at h6
  rw [h9, h8, h7] at h6
  cases k
  · exact hk rfl
  · norm_num [factor] at h6
  · norm_num [factor] at h6

/-! ### C115 -/

section colours

variable {S N : Type} [Zero S] [Add S] [Neg S] [Sub S] [Mul S] [Div S]

/-- C115: for a matrix whose graph was reordered by `greedy_multicolouring`, an iteration of Gauss Seidel is one iteration of
Jacobi for each colour after the other: each unknown gets the value that Jacobi computes from the new values of the smaller
colours and the old values of the others.  This holds in any arithmetic. -/
theorem c115_colours (F : Scalars S N) (s : FixedPoint S) (g g' : Graph) (h : Reachable false g) (hedge : ∃ u v, Adj g u v)
    (p : List Nat) (hp : g.greedyMulticolouring = .ok p) (hg : g.reorder p = .ok (g', g)) (m : Sparse S) {n : Nat}
    (hn : g.sizeVertex = n) (A : Fin n → Fin n → S) (hm : Square m A)
    (hadj : ∀ i j : Fin n, i ≠ j → Spec.lookup m i j ≠ .ok none → Adj g' i j) (hd : ∀ i : Fin n, Spec.lookup m i i ≠ .ok none)
    (b x : Fin n → S) (w w0 : List S) (hw0 : w0.length = n) :
    ∃ col : Fin n → Nat, (∀ i j, i ≤ j → col i ≤ col j) ∧ (∀ i j : Fin n, Adj g' i j → col i ≠ col j) ∧
      ∃ (y : Fin n → S) (w' : List S), Iterative.step F .gaussSeidel s m (vec b) (vec x, w) = .ok (vec y, w') ∧
        ∀ i, ∃ (v : Fin n → S) (w'' : List S), Iterative.step F .jacobi s m (vec b)
          (vec fun j => if col j < col i then y j else x j, w0) = .ok (vec v, w'') ∧ y i = v i := by
  obtain ⟨p', col, h1, h2, h3, -, h4⟩ := c21_greedy g h hedge
  rw [hp, Out.ok.injEq] at h1
  subst h1
  obtain ⟨g1, h5, -, -, h6⟩ := c08_reorder false g h p h2
  rw [hg, Out.ok.injEq, Prod.mk.injEq] at h5
  obtain ⟨rfl, -⟩ := h5
  have hlen : p.length = n := by rw [h2.length_eq, List.length_range, hn]
  -- old numbers
  have hold : ∀ i : Fin n, ∃ u, ∃ hu : u < p.length, p[u] = i.1 := by
    intro i
    have : i.1 ∈ p := h2.mem_iff.mpr (by rw [List.mem_range, hn]; exact i.2)
    obtain ⟨u, hu, e⟩ := List.getElem_of_mem this
    exact ⟨u, hu, e⟩
  choose o ho1 ho2 using hold
  have hget : ∀ i : Fin n, p[o i]? = some i.1 := fun i => by rw [List.getElem?_eq_getElem (ho1 i), ho2 i]
  have hmono : ∀ i j : Fin n, i ≤ j → col (o i) ≤ col (o j) := by
    intro i j hij
    rcases hij.lt_or_eq with hlt | rfl
    · have := (h4 (o i) (o j) i.1 j.1 (by rw [hn, ← hlen]; exact ho1 i) (by rw [hn, ← hlen]; exact ho1 j) (hget i) (hget j)).mp hlt
      omega
    · exact le_rfl
  have hne : ∀ i j : Fin n, Adj g' i j → col (o i) ≠ col (o j) := by
    intro i j hij
    have := h6 (o i) (o j) (ho1 i) (ho1 j)
    rw [ho2, ho2] at this
    exact h3 _ _ (this.mp hij)
  refine ⟨fun i => col (o i), hmono, hne, ?_⟩
  obtain ⟨L, g1', g2, g3, g4, g5⟩ := square_rep hm
  have hlook : ∀ i j : Fin n, Spec.lookup m i j = .ok (Sparse.entry L i j) := fun i j =>
    Sparse.lookup_ok g1' (by rw [g4]; exact i.2) j
  have hD : ∀ i : Fin n, ∃ v, Sparse.entry L i i = some v := by
    intro i
    have := hd i
    rw [hlook] at this
    cases he : Sparse.entry L i i with
    | none => rw [he] at this; exact absurd rfl this
    | some v => exact ⟨v, rfl⟩
  choose D hD using hD
  obtain ⟨y, w', e1, -, e2⟩ := step_gen F .gaussSeidel s g1' g3 g4 D hD b x w (by simp)
  refine ⟨y, w', e1, fun i => ?_⟩
  obtain ⟨v, w'', f1, -, f2⟩ := step_gen F .jacobi s g1' g3 g4 D hD b (fun j => if col (o j) < col (o i) then y j else x j) w0
    (fun _ => hw0)
  refine ⟨v, w'', f1, ?_⟩
  rw [e2 i, f2 i]
  simp only [reduceCtorEq, if_false, ne_eq, not_false_eq_true, true_and, not_true_eq_false, false_and]
  unfold newValue
  simp only [lt_irrefl, if_false]
  congr 3
  congr 1
  apply List.foldl_ext
  intro t e he
  by_cases hei : e.1 = i.1
  · simp [hei]
  · rw [if_neg hei, if_neg hei]
    have hlt : e.1 < n := g3 i.1 e he
    have hent : Sparse.entry L i.1 e.1 ≠ none := by
      unfold Sparse.entry
      rw [ne_eq, Sparse.lookup_eq_none, not_not]
      exact List.mem_map_of_mem he
    have hA := hadj i ⟨e.1, hlt⟩ (fun hc => hei (congrArg Fin.val hc).symm) (by
      rw [hlook i ⟨e.1, hlt⟩]
      intro hc
      exact hent (Out.ok.inj hc))
    have hc := hne i ⟨e.1, hlt⟩ hA
    have : ((⟨e.1, hlt⟩ : Fin n) < i) ↔ col (o ⟨e.1, hlt⟩) < col (o i) := by
      constructor
      · intro hl
        have := hmono _ _ hl.le
        omega
      · intro hl
        by_contra hcon
        have := hmono i ⟨e.1, hlt⟩ (not_lt.mp hcon)
        omega
    simp only [vec, List.getD_eq_getElem?_getD, List.getElem?_ofFn, hlt, dif_pos, this]

end colours

/-- The graph of the example beside C94: vertices 1 and 3 share a colour, and the renumbered matrix stores only couplings
between different colours. -/
example : Reachable false ⟨[1, 2, 3, 0, 2, 0, 1, 0], [0, 3, 5, 7, 8]⟩ ∧
    Graph.greedyMulticolouring ⟨[1, 2, 3, 0, 2, 0, 1, 0], [0, 3, 5, 7, 8]⟩ = .ok [0, 1, 3, 2] ∧
    Graph.reorder ⟨[1, 2, 3, 0, 2, 0, 1, 0], [0, 3, 5, 7, 8]⟩ [0, 1, 3, 2] =
      .ok (⟨[1, 2, 3, 0, 3, 0, 0, 1], [0, 3, 5, 6, 8]⟩, ⟨[1, 2, 3, 0, 2, 0, 1, 0], [0, 3, 5, 7, 8]⟩) ∧
    Square (⟨[0, 4, 7, 9, 12], [0, 1, 2, 3, 0, 1, 3, 0, 2, 0, 1, 3], [4, 1, 1, 1, 1, 4, 1, 1, 4, 1, 1, 4], 4⟩ : Sparse ℝ)
      ![![4, 1, 1, 1], ![1, 4, 0, 1], ![1, 0, 4, 0], ![1, 1, 0, 4]] ∧
    ∀ i j : Fin 4, i ≠ j → Spec.lookup (⟨[0, 4, 7, 9, 12], [0, 1, 2, 3, 0, 1, 3, 0, 2, 0, 1, 3],
      [4, 1, 1, 1, 1, 4, 1, 1, 4, 1, 1, 4], 4⟩ : Sparse ℝ) i j ≠ .ok none →
      Adj ⟨[1, 2, 3, 0, 3, 0, 0, 1], [0, 3, 5, 6, 8]⟩ i j := by
  refine ⟨⟨[.insert ⟨0, 1⟩, .insert ⟨0, 2⟩, .insert ⟨0, 3⟩, .insert ⟨1, 2⟩], by simp [Op.Valid, sizeMax], by decide⟩,
    by decide +kernel, by decide +kernel, ?_, ?_⟩
  · refine ⟨Built.ofLists (nz := [0, 4, 7, 9, 12]) (ix := [0, 1, 2, 3, 0, 1, 3, 0, 2, 0, 1, 3])
      (vs := [4, 1, 1, 1, 1, 4, 1, 1, 4, 1, 1, 4]) (c := 4) (by simp [sizeMax]) (by simp [sizeMax])
      (by simp [Sparse.ofLists, loop, Sparse.listBody, rd, slice, overwrite, assert]), rfl, rfl, ?_⟩
    intro i j
    fin_cases i <;> fin_cases j <;> rfl
  · intro i j
    fin_cases i <;> fin_cases j <;> intro h1 h2 <;> first | exact absurd rfl h1 | exact absurd rfl h2 | exact ⟨_, rfl, by decide⟩

end Disa.Props
