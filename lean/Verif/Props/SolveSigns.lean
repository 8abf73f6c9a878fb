import Verif.Props.LuSigns
import Verif.Props.Iterative
import Verif.Props.SparseAlgebra
import Verif.Solver.SweepFloat

/-!
# Property C202: signs of equations and unknowns do not matter to the fixed point solvers
-/

namespace Disa.Props

open Disa Spec Dense Num Sparse Iterative

theorem turn_add (s : Bool) (a b : Num binary64) : turn s a + turn s b = turn s (a + b) := by
  cases s
  · rfl
  · exact (Double.neg_add a b).symm

theorem turn_zero (s : Bool) : turn s 0 = 0 := by
  cases s
  · rfl
  · exact Double.neg_zero

theorem turn_square (s : Bool) (a : Num binary64) : turn s a * turn s a = a * a := by
  rw [turn_mul, Bool.xor_self]
  rfl

theorem mul_turn (s : Bool) (a b : Num binary64) : a * turn s b = turn s (a * b) := by
  have := turn_mul false s a b
  rwa [Bool.false_xor] at this

/-! ### Rows -/

/-- The elements of row `i` with changed signs. -/
def turnRow (σ τ : Nat → Bool) (i : Nat) (r : List (Nat × Num binary64)) : List (Nat × Num binary64) :=
  r.map fun e => (e.1, turn (σ i ^^ τ e.1) e.2)

/-- Two square matrices that programs can make, which store the same positions and differ by the signs of rows and columns. -/
structure Turned (n : Nat) (σ τ : Nat → Bool) (m m' : Sparse (Num binary64)) : Prop where
  built : Built false m
  built' : Built false m'
  rows : m.sizeRow = n
  columns : m.colSize = n
  rows' : m'.sizeRow = n
  columns' : m'.colSize = n
  elements : ∀ i j, i < n → j < n → ∃ o, Spec.lookup m i j = .ok o ∧
    Spec.lookup m' i j = .ok (o.map fun v => if σ i = τ j then v else -v)
  diagonal : ∀ i, i < n → ∃ d, Spec.lookup m i i = .ok (some d) ∧ d ≠ fin 0

section

variable {n : Nat} {σ τ : Nat → Bool} {m m' : Sparse (Num binary64)} {sqrt : Num binary64 → Num binary64}

theorem lookup_turnRow (i : Nat) (r : List (Nat × Num binary64)) (j : Nat) :
    (turnRow σ τ i r).lookup j = (r.lookup j).map (turn (σ i ^^ τ j)) := by
  induction r with
  | nil => rfl
  | cons e r ih =>
    unfold turnRow at ih ⊢
    rw [List.map_cons]
    by_cases h : j = e.1
    · subst h
      simp [List.lookup]
    · have : (j == e.1) = false := by simpa using h
      rw [show e = (e.1, e.2) from rfl]
      simp only [List.lookup, this]
      exact ih

theorem Turned.reps (h : Turned n σ τ m m') : ∃ L L' : Rows (Num binary64), m.Rep L ∧ m'.Rep L' ∧ Bounded n L ∧ Bounded n L' ∧
    L.length = n ∧ L'.length = n ∧ (∀ i, i < n → row L' i = turnRow σ τ i (row L i)) ∧
    ∀ i, i < n → ∃ d, d ≠ fin 0 ∧ entry L i i = some d ∧ entry L' i i = some (turn (σ i ^^ τ i) d) := by
  obtain ⟨L, h1, h2, -, h4⟩ := inv_built h.built
  obtain ⟨L', k1, k2, -, k4⟩ := inv_built h.built'
  have e1 : L.length = n := by rw [← h1.sizeRow]; exact h.rows
  have e2 : L'.length = n := by rw [← k1.sizeRow]; exact h.rows'
  have hrow : ∀ i, i < n → row L' i = turnRow σ τ i (row L i) := by
    intro i hi
    refine row_of_lookups (k2 i) ?_ fun j => ?_
    · have : keys (turnRow σ τ i (row L i)) = keys (row L i) := by
        unfold turnRow keys
        rw [List.map_map]
        rfl
      rw [this]
      exact h2 i
    · by_cases hj : j < n
      swap
      · have none : ∀ (M : Rows (Num binary64)), Bounded n M → (row M i).lookup j = none := fun M hM => by
          rw [lookup_eq_none]
          intro hk
          obtain ⟨e, e1, rfl⟩ := List.mem_map.mp hk
          exact hj (hM i e e1)
        rw [lookup_turnRow, none L (by rw [← h.columns]; exact h4 rfl), none L' (by rw [← h.columns']; exact k4 rfl)]
        rfl
      obtain ⟨o, o1, o2⟩ := h.elements i j hi hj
      rw [lookup_ok h1 (by omega), Out.ok.injEq] at o1
      rw [lookup_ok k1 (by omega), Out.ok.injEq] at o2
      rw [lookup_turnRow]
      show entry L' i j = (entry L i j).map _
      rw [o2, o1]
      congr 1
      funext v
      cases σ i <;> cases τ j <;> rfl
  refine ⟨L, L', h1, k1, by rw [← h.columns]; exact h4 rfl, by rw [← h.columns']; exact k4 rfl, e1, e2, hrow, fun i hi => ?_⟩
  obtain ⟨d, d1, d2⟩ := h.diagonal i hi
  rw [lookup_ok h1 (by omega), Out.ok.injEq] at d1
  refine ⟨d, d2, d1, ?_⟩
  have : (row L' i).lookup i = ((row L i).lookup i).map (turn (σ i ^^ τ i)) := by rw [hrow i hi, lookup_turnRow]
  show (row L' i).lookup i = _
  rw [this]
  show (entry L i i).map _ = _
  rw [d1]
  rfl

/-- A vector with changed signs. -/
def turnVec (τ : Nat → Bool) (x : Fin n → Num binary64) : Fin n → Num binary64 := fun i => turn (τ i) (x i)

theorem getD_turnVec (x : Fin n → Num binary64) (j : Nat) : (vec (turnVec τ x)).getD j 0 = turn (τ j) ((vec x).getD j 0) := by
  unfold vec turnVec
  rw [List.getD_eq_getElem?_getD, List.getD_eq_getElem?_getD]
  by_cases hj : j < n
  · rw [List.getElem?_eq_getElem (by simpa using hj), List.getElem?_eq_getElem (by simpa using hj)]
    simp
  · rw [List.getElem?_eq_none (by simpa using hj), List.getElem?_eq_none (by simpa using hj)]
    exact (turn_zero _).symm

theorem fold_turned (i : Nat) (r : List (Nat × Num binary64)) (x : Fin n → Num binary64) (v : Num binary64) :
    (turnRow σ τ i r).foldl (fun v e => if e.1 = i then v else v + e.2 * (vec (turnVec τ x)).getD e.1 0) (turn (σ i) v) =
      turn (σ i) (r.foldl (fun v e => if e.1 = i then v else v + e.2 * (vec x).getD e.1 0) v) := by
  induction r generalizing v with
  | nil => rfl
  | cons e r ih =>
    unfold turnRow at ih ⊢
    rw [List.map_cons, List.foldl_cons, List.foldl_cons]
    by_cases h : e.1 = i
    · simp only [h, if_true]
      exact ih v
    · simp only [h, if_false]
      rw [getD_turnVec, turn_mul, show ((σ i ^^ τ e.1) ^^ τ e.1) = σ i by cases σ i <;> cases τ e.1 <;> rfl, turn_add]
      exact ih _

theorem dotL_turned (i : Nat) (r : List (Nat × Num binary64)) (x : Fin n → Num binary64) :
    dotL (turnRow σ τ i r) (vec (turnVec τ x)) = turn (σ i) (dotL r (vec x)) := by
  have key : ∀ v : Num binary64, (turnRow σ τ i r).foldl (fun v e => v + e.2 * (vec (turnVec τ x)).getD e.1 0) (turn (σ i) v) =
      turn (σ i) (r.foldl (fun v e => v + e.2 * (vec x).getD e.1 0) v) := by
    induction r with
    | nil => intro v; rfl
    | cons e r ih =>
      intro v
      unfold turnRow at ih ⊢
      rw [List.map_cons, List.foldl_cons, List.foldl_cons]
      simp only
      rw [getD_turnVec, turn_mul, show ((σ i ^^ τ e.1) ^^ τ e.1) = σ i by cases σ i <;> cases τ e.1 <;> rfl, turn_add]
      exact ih _
  have := key 0
  rw [turn_zero] at this
  exact this

theorem newValue_turned {L L' : Rows (Num binary64)} (i : Fin n) (hr : row L' i = turnRow σ τ i (row L i)) (b y : Fin n → Num binary64)
    (omega : Num binary64) {d : Num binary64} (hd : d ≠ fin 0) :
    newValue (floats binary64 sqrt) L' (turnVec σ b) omega (turn (σ i ^^ τ i) d) (turnVec τ y) i =
      turn (τ i) (newValue (floats binary64 sqrt) L b omega d y i) := by
  unfold newValue
  have h := fold_turned (σ := σ) (τ := τ) i.1 (row L i) y 0
  rw [turn_zero] at h
  rw [hr, h]
  unfold turnVec
  rw [turn_sub, mul_turn, turn_div _ _ _ hd, mul_turn, show (σ i ^^ (σ i ^^ τ i)) = τ i by cases σ i <;> cases τ i <;> rfl, turn_add]

/-! ### Iterations -/

theorem sweeps_turned (h : Turned n σ τ m m') (b : Fin n → Num binary64) (omega : Num binary64) :
    ∃ R R' : (Fin n → Num binary64) → Fin n → Num binary64, (∀ y, R' (turnVec τ y) = turnVec τ (R y)) ∧
      (∀ (i : Fin n) (x : Option (List (Num binary64))) (u y : Fin n → Num binary64), x.getD (vec u) = vec y →
        sweepRow (floats binary64 sqrt) m (vec b) omega x i (vec u) = .ok (vec fun k => if k = i then R y i else u k)) ∧
      ∀ (i : Fin n) (x : Option (List (Num binary64))) (u y : Fin n → Num binary64), x.getD (vec u) = vec y →
        sweepRow (floats binary64 sqrt) m' (vec (turnVec σ b)) omega x i (vec u) =
          .ok (vec fun k => if k = i then R' y i else u k) := by
  obtain ⟨L, L', h1, k1, h2, k2, h3, k3, h4, h5⟩ := h.reps
  have h5' : ∀ i : Fin n, ∃ d, d ≠ fin 0 ∧ entry L i i = some d ∧ entry L' i i = some (turn (σ i ^^ τ i) d) := fun i => h5 i i.2
  choose d d1 d2 d3 using h5'
  refine ⟨fun y i => newValue (floats binary64 sqrt) L b omega (d i) y i,
    fun y i => newValue (floats binary64 sqrt) L' (turnVec σ b) omega (turn (σ i ^^ τ i) (d i)) y i, fun y => ?_, ?_, ?_⟩
  · funext i
    exact newValue_turned i (h4 i i.2) b y omega (d1 i)
  · intro i x u y hx
    exact sweepRow_gen h1 h2 h3 b omega (d i) i (d2 i) x u y hx
  · intro i x u y hx
    exact sweepRow_gen k1 k2 k3 (turnVec σ b) omega _ i (d3 i) x u y hx

theorem inplace_turned (h : Turned n σ τ m m') (b x : Fin n → Num binary64) (omega : Num binary64) :
    ∃ y : Fin n → Num binary64, forwardSweep (floats binary64 sqrt) m (vec b) omega none (vec x) = .ok (vec y) ∧
      forwardSweep (floats binary64 sqrt) m' (vec (turnVec σ b)) omega none (vec (turnVec τ x)) = .ok (vec (turnVec τ y)) := by
  obtain ⟨R, R', h1, h2, h3⟩ := sweeps_turned (sqrt := sqrt) h b omega
  obtain ⟨y, e1, e2⟩ := inplace_gen h.rows h2 x
  obtain ⟨y', e1', e2'⟩ := inplace_gen h.rows' h3 (turnVec τ x)
  refine ⟨y, e1, ?_⟩
  rw [e1', Out.ok.injEq, vec_inj]
  have key : ∀ k, ∀ i : Fin n, i.1 = k → y' i = turnVec τ y i := by
    intro k
    induction k using Nat.strong_induction_on with
    | _ k ih =>
      rintro i rfl
      have : (fun k => if k < i then y' k else turnVec τ x k) = turnVec τ fun k => if k < i then y k else x k := by
        funext k
        by_cases hk : k < i
        · rw [if_pos hk, ih k.1 hk k rfl]
          simp only [turnVec, if_pos hk]
        · rw [if_neg hk]
          simp only [turnVec, if_neg hk]
      rw [e2' i, this, h1]
      unfold turnVec
      rw [← e2 i]
  exact funext fun i => key _ i rfl

theorem jacobi_turned (h : Turned n σ τ m m') (b x : Fin n → Num binary64) (omega : Num binary64) :
    ∃ y : Fin n → Num binary64, ∀ w w' : List (Num binary64), w.length = n → w'.length = n →
      forwardSweep (floats binary64 sqrt) m (vec b) omega (some (vec x)) w = .ok (vec y) ∧
      forwardSweep (floats binary64 sqrt) m' (vec (turnVec σ b)) omega (some (vec (turnVec τ x))) w' = .ok (vec (turnVec τ y)) := by
  obtain ⟨R, R', h1, h2, h3⟩ := sweeps_turned (sqrt := sqrt) h b omega
  refine ⟨R x, fun w w' hw hw' => ?_⟩
  have hv : ∀ w : List (Num binary64), w.length = n → ∃ u : Fin n → Num binary64, w = vec u := by
    rintro w rfl
    exact ⟨fun i => w[i], by apply List.ext_getElem <;> simp [vec]⟩
  obtain ⟨u, rfl⟩ := hv w hw
  obtain ⟨u', rfl⟩ := hv w' hw'
  refine ⟨jacobi_gen h.rows h2 x u, ?_⟩
  rw [jacobi_gen h.rows' h3 (turnVec τ x) u', h1]

/-- States of the two solvers that belong together. -/
def Together (k : Method) (τ : Nat → Bool) (n : Nat) (st st' : List (Num binary64) × List (Num binary64)) : Prop :=
  (∃ x : Fin n → Num binary64, st.1 = vec x ∧ st'.1 = vec (turnVec τ x)) ∧ (k = .jacobi → st.2.length = n ∧ st'.2.length = n)

theorem step_turned (h : Turned n σ τ m m') (k : Method) (s s' : FixedPoint (Num binary64)) (b : Fin n → Num binary64)
    {st st' : List (Num binary64) × List (Num binary64)} (hst : Together k τ n st st') :
    ∃ v v', Iterative.step (floats binary64 sqrt) k s m (vec b) st = .ok v ∧
      Iterative.step (floats binary64 sqrt) k s' m' (vec (turnVec σ b)) st' = .ok v' ∧ Together k τ n v v' := by
  obtain ⟨⟨x, h1, h2⟩, h3⟩ := hst
  cases k with
  | jacobi =>
    obtain ⟨y, hy⟩ := jacobi_turned (sqrt := sqrt) h b x (floats binary64 sqrt).one
    obtain ⟨e1, e2⟩ := hy _ _ (h3 rfl).1 (h3 rfl).2
    unfold Iterative.step
    simp only [h1, h2, e1, e2, Out.ok_bind]
    exact ⟨_, _, rfl, rfl, ⟨y, rfl, rfl⟩, fun _ => by simp⟩
  | gaussSeidel =>
    obtain ⟨y, e1, e2⟩ := inplace_turned (sqrt := sqrt) h b x (floats binary64 sqrt).one
    unfold Iterative.step
    simp only [h1, h2, e1, e2, Out.ok_bind]
    exact ⟨_, _, rfl, rfl, ⟨y, rfl, rfl⟩, by simp⟩
  | sor =>
    obtain ⟨y, e1, e2⟩ := inplace_turned (sqrt := sqrt) h b x (floats binary64 sqrt).threeHalves
    unfold Iterative.step
    simp only [h1, h2, e1, e2, Out.ok_bind]
    exact ⟨_, _, rfl, rfl, ⟨y, rfl, rfl⟩, by simp⟩

theorem residual_turned (h : Turned n σ τ m m') (hn0 : 0 < n) (hn : n < 2 ^ 31) (b x : Fin n → Num binary64) :
    ∃ r, computeResidual (floats binary64 sqrt) m (vec x) (vec b) = .ok r ∧
      computeResidual (floats binary64 sqrt) m' (vec (turnVec τ x)) (vec (turnVec σ b)) = .ok r := by
  obtain ⟨L, L', h1, k1, h2, k2, h3, k3, h4, -⟩ := h.reps
  have hbody : ∀ i, i < n → ∀ st, ∃ st1, residualBody (floats binary64 sqrt) m (vec x) (vec b) i st = .ok st1 ∧
      residualBody (floats binary64 sqrt) m' (vec (turnVec τ x)) (vec (turnVec σ b)) i st = .ok st1 := by
    intro i hi st
    have hmax : ¬ i = intMax := by unfold intMax; omega
    unfold residualBody
    rw [h1.rowDot (by rw [vec_length]; exact h2) (by omega), k1.rowDot (by rw [vec_length]; exact k2) (by omega), h4 i hi, dotL_turned,
      rd_vec b hi, rd_vec _ hi, h.rows, h.rows']
    simp only [hi, decide_true, assert_true, Out.ok_bind, hmax, if_false, turnVec, turn_sub, turn_square]
    exact ⟨_, rfl, rfl⟩
  obtain ⟨_, e1, e2⟩ := loop_inv (n := n) (s := ((0 : Num binary64), (0 : Num binary64)))
    (body := residualBody (floats binary64 sqrt) m (vec x) (vec b))
    (fun i st => loop i (residualBody (floats binary64 sqrt) m' (vec (turnVec τ x)) (vec (turnVec σ b)))
      ((0 : Num binary64), (0 : Num binary64)) = .ok st) rfl (by
      intro i st hi h
      obtain ⟨st1, s1, s2⟩ := hbody i hi st
      exact ⟨st1, s1, by rw [loop, h, Out.ok_bind, s2]⟩)
  unfold computeResidual
  rw [h.rows, h.rows', h.columns, h.columns', e1, e2]
  simp only [vec_length, bne_self_eq_false, beq_self_eq_true, show (n != 0) = true by simp; omega, Bool.and_self, assert_true, Out.ok_bind]
  exact ⟨_, rfl, rfl⟩

theorem whileFuel_together {α β : Type} (R : α → β → Prop) {c : α → Bool} {d : β → Bool} {f : α → Out α} {g : β → Out β}
    (hc : ∀ s t, R s t → d t = c s) (h : ∀ s t, R s t → ∃ s1 t1, f s = .ok s1 ∧ g t = .ok t1 ∧ R s1 t1) (n : Nat) {s : α} {t : β}
    (hst : R s t) : (∃ s1 t1, whileFuel c f n s = .ok s1 ∧ whileFuel d g n t = .ok t1 ∧ R s1 t1) ∨
      (whileFuel c f n s = .diverge ∧ whileFuel d g n t = .diverge) := by
  induction n generalizing s t with
  | zero =>
    unfold whileFuel
    rw [hc s t hst]
    cases c s
    · exact .inl ⟨s, t, rfl, rfl, hst⟩
    · exact .inr ⟨rfl, rfl⟩
  | succ n ih =>
    unfold whileFuel
    rw [hc s t hst]
    cases c s
    · exact .inl ⟨s, t, rfl, rfl, hst⟩
    · obtain ⟨s1, t1, e1, e2, e3⟩ := h s t hst
      simp only [if_true, e1, e2, Out.ok_bind]
      exact ih e3

/-- C202 for the fixed point solvers: the same number of iterations and the same reported residuals, and the solution differs by the
signs of the unknowns only. -/
theorem c202_fixed (sqrt : Num binary64 → Num binary64) (k : Method) (s s' : FixedPoint (Num binary64)) (hs : s'.limits = s.limits)
    (h : Turned n σ τ m m') (hn0 : 0 < n) (hn : n < 2 ^ 31) (b x : Fin n → Num binary64) (fuel : Nat) :
    (∃ (y : Fin n → Num binary64) (d : Conv (Num binary64) (Num binary64)) (s1 s2 : FixedPoint (Num binary64)),
      solveSystem (floats binary64 sqrt) k s m (vec x) (vec b) fuel = .ok (vec y, d, s1) ∧
      solveSystem (floats binary64 sqrt) k s' m' (vec fun i => if τ i then -x i else x i) (vec fun i => if σ i then -b i else b i) fuel =
        .ok (vec fun i => if τ i then -y i else y i, d, s2)) ∨
    (solveSystem (floats binary64 sqrt) k s m (vec x) (vec b) fuel = .diverge ∧
      solveSystem (floats binary64 sqrt) k s' m' (vec fun i => if τ i then -x i else x i) (vec fun i => if σ i then -b i else b i) fuel =
        .diverge) := by
  show (∃ (y : Fin n → Num binary64) (d : Conv (Num binary64) (Num binary64)) (s1 s2 : FixedPoint (Num binary64)),
      solveSystem (floats binary64 sqrt) k s m (vec x) (vec b) fuel = .ok (vec y, d, s1) ∧
      solveSystem (floats binary64 sqrt) k s' m' (vec (turnVec τ x)) (vec (turnVec σ b)) fuel = .ok (vec (turnVec τ y), d, s2)) ∨
    (solveSystem (floats binary64 sqrt) k s m (vec x) (vec b) fuel = .diverge ∧
      solveSystem (floats binary64 sqrt) k s' m' (vec (turnVec τ x)) (vec (turnVec σ b)) fuel = .diverge)
  have main := fun (w w' : List (Num binary64)) (hw : k = .jacobi → w.length = n ∧ w'.length = n) =>
    whileFuel_together (fun (st st' : (List (Num binary64) × List (Num binary64)) × Conv (Num binary64) (Num binary64)) =>
        Together k τ n st.1 st'.1 ∧ st'.2 = st.2)
      (c := fun st => !isConverged (floats binary64 sqrt) s.limits st.2) (d := fun st => !isConverged (floats binary64 sqrt) s'.limits st.2)
      (f := fun st => do
        let v ← Iterative.step (floats binary64 sqrt) k s m (vec b) st.1
        let d ← update (floats binary64 sqrt) m v.1 (vec b) st.2
        pure (v, d))
      (g := fun st => do
        let v ← Iterative.step (floats binary64 sqrt) k s' m' (vec (turnVec σ b)) st.1
        let d ← update (floats binary64 sqrt) m' v.1 (vec (turnVec σ b)) st.2
        pure (v, d))
      (by rintro st st' ⟨-, e⟩; rw [e, hs])
      (by
        rintro ⟨st, d⟩ ⟨st', _⟩ ⟨h1, rfl⟩
        obtain ⟨v, v', e1, e2, e3⟩ := step_turned (sqrt := sqrt) h k s s' b h1
        obtain ⟨⟨z, z1, z2⟩, -⟩ := id e3
        obtain ⟨r, r1, r2⟩ := residual_turned (sqrt := sqrt) h hn0 hn b z
        simp only [e1, e2, Out.ok_bind]
        unfold update
        rw [z1, z2, r1, r2]
        exact ⟨_, _, rfl, rfl, e3, rfl⟩) fuel
      (s := ((vec x, w), Conv.new (floats binary64 sqrt))) (t := ((vec (turnVec τ x), w'), Conv.new (floats binary64 sqrt)))
      ⟨⟨⟨x, rfl, rfl⟩, hw⟩, rfl⟩
  have hlen : ∀ (l : List (Num binary64)) (z : Num binary64), (resizeList l n z).length = n := by
    intro l z
    unfold resizeList
    simp
    omega
  have key : ∀ w w' : List (Num binary64), (k = .jacobi → w.length = n ∧ w'.length = n) →
      (∃ (y : Fin n → Num binary64) (d : Conv (Num binary64) (Num binary64)) (s1 s2 : FixedPoint (Num binary64)),
        (iterate (floats binary64 sqrt) k s m (vec b) fuel ((vec x, w), Conv.new (floats binary64 sqrt)) >>= fun r =>
          pure (r.1.1, r.2, { s with working := r.1.2 })) = .ok (vec y, d, s1) ∧
        (iterate (floats binary64 sqrt) k s' m' (vec (turnVec σ b)) fuel ((vec (turnVec τ x), w'), Conv.new (floats binary64 sqrt)) >>=
          fun r => pure (r.1.1, r.2, { s' with working := r.1.2 })) = .ok (vec (turnVec τ y), d, s2)) ∨
      ((iterate (floats binary64 sqrt) k s m (vec b) fuel ((vec x, w), Conv.new (floats binary64 sqrt)) >>= fun r =>
          pure (r.1.1, r.2, { s with working := r.1.2 })) = .diverge ∧
        (iterate (floats binary64 sqrt) k s' m' (vec (turnVec σ b)) fuel ((vec (turnVec τ x), w'), Conv.new (floats binary64 sqrt)) >>=
          fun r => pure (r.1.1, r.2, { s' with working := r.1.2 })) = .diverge) := by
    intro w w' hw
    unfold iterate
    rcases main w w' hw with ⟨st, st', e1, e2, ⟨⟨y, y1, y2⟩, -⟩, e4⟩ | ⟨e1, e2⟩
    · left
      refine ⟨y, st.2, { s with working := st.1.2 }, { s' with working := st'.1.2 }, ?_, ?_⟩
      · rw [e1, Out.ok_bind, ← y1]
        rfl
      · rw [e2, Out.ok_bind, ← y2, ← e4]
        rfl
    · right
      rw [e1, e2]
      exact ⟨rfl, rfl⟩
  unfold solveSystem
  rw [h.rows, h.rows']
  cases k with
  | jacobi => exact key _ _ fun _ => ⟨hlen _ _, hlen _ _⟩
  | gaussSeidel => exact key _ _ (by simp)
  | sor => exact key _ _ (by simp)

end

/-- The first equation and the second unknown with the other sign: the hypotheses are met, also with an infinite element. -/
example : Turned 2 (· == 0) (· == 1) (dense2 (fin 3) (fin 1) (.inf false) (fin 3)) (dense2 (fin (-3)) (fin 1) (.inf false) (fin (-3))) where
  built := Built.ofLists (nz := [0, 2, 4]) (ix := [0, 1, 0, 1]) (vs := [fin 3, fin 1, .inf false, fin 3]) (c := 2)
    (by simp [sizeMax]) (by simp [sizeMax]) (dense2_lists _ _ _ _)
  built' := Built.ofLists (nz := [0, 2, 4]) (ix := [0, 1, 0, 1]) (vs := [fin (-3), fin 1, .inf false, fin (-3)]) (c := 2)
    (by simp [sizeMax]) (by simp [sizeMax]) (dense2_lists _ _ _ _)
  rows := rfl
  columns := rfl
  rows' := rfl
  columns' := rfl
  elements := by
    intro i j hi hj
    obtain rfl | rfl : i = 0 ∨ i = 1 := by omega
    all_goals
      obtain rfl | rfl : j = 0 ∨ j = 1 := by omega
      all_goals exact ⟨_, rfl, rfl⟩
  diagonal := by
    intro i hi
    obtain rfl | rfl : i = 0 ∨ i = 1 := by omega
    · exact ⟨fin 3, rfl, by decide⟩
    · exact ⟨fin 3, rfl, by decide⟩

/-- The sign of a zero pivot cannot be changed: with a stored zero on the diagonal the claim fails, so the hypothesis is needed. -/
theorem c202_zero (sqrt : Num binary64 → Num binary64) :
    Iterative.step (floats binary64 sqrt) .gaussSeidel ⟨⟨0, 1, fin 0⟩, [], fin 1⟩ (dense2 (fin 0) (fin 1) (fin 1) (fin 1))
      (vec fun _ : Fin 2 => fin 1) (vec fun _ : Fin 2 => fin 0, []) = .ok ([.inf false, .inf true], []) ∧
    Iterative.step (floats binary64 sqrt) .gaussSeidel ⟨⟨0, 1, fin 0⟩, [], fin 1⟩ (dense2 (fin 0) (fin 1) (fin (-1)) (fin 1))
      (vec fun _ : Fin 2 => fin 1) (vec fun _ : Fin 2 => fin 0, []) = .ok ([.inf false, .inf false], []) := by
  have h : Iterative.step (floats binary64 id) .gaussSeidel ⟨⟨0, 1, fin 0⟩, [], fin 1⟩ (dense2 (fin 0) (fin 1) (fin 1) (fin 1))
      (vec fun _ : Fin 2 => fin 1) (vec fun _ : Fin 2 => fin 0, []) = .ok ([.inf false, .inf true], []) ∧
    Iterative.step (floats binary64 id) .gaussSeidel ⟨⟨0, 1, fin 0⟩, [], fin 1⟩ (dense2 (fin 0) (fin 1) (fin (-1)) (fin 1))
      (vec fun _ : Fin 2 => fin 1) (vec fun _ : Fin 2 => fin 0, []) = .ok ([.inf false, .inf false], []) := by decide +kernel
  exact h

end Disa.Props
