import Verif.Props.FusedSigns
import Verif.Props.SolveSigns
import Verif.Props.BoxFused
import Verif.Solver.ResidualFloat

/-!
# Property C234: signs of equations and unknowns do not matter to the fixed point solvers with fused operations
-/

namespace Disa.Props

open Disa Spec Dense Num Sparse Iterative Fused

/-! ### Operations -/

section

variable {fuse : Hist → Hist → Hist → Bool}

theorem alike_false (a : Fused binary64 fuse) : alike false a = a := by
  cases a <;> rfl

theorem alike_zero (s : Bool) : alike s (0 : Fused binary64 fuse) = 0 := by
  show Fused.num (turn s (0 : Num binary64)) (.input 0) = _
  rw [turn_zero]
  rfl

theorem round_neg (c : Bool) (q : ℚ) : (if c then Fl.fin else binary64) (-q) = Fl.neg ((if c then Fl.fin else binary64) q) := by
  cases c
  · exact binary64_neg q
  · rfl

theorem operand_alike (s : Bool) (w : Fused binary64 fuse) (h : Hist) : (alike s w).operand h = turn s (w.operand h) := by
  cases w with
  | num x k => rfl
  | prod a b k l =>
    have := mul_turned (round_neg (fuse h k l)) s false a b
    rwa [Bool.xor_false] at this

theorem operand_alike_mul {s t t' : Bool} (h : (t ^^ t') = s) (a b : Fused binary64 fuse) (k : Hist) :
    (alike t a * alike t' b).operand k = turn s ((a * b).operand k) := by
  show Fl.mul (if fuse k (alike t a).hist (alike t' b).hist then .fin else binary64) (alike t a).get (alike t' b).get =
    turn s (Fl.mul (if fuse k a.hist b.hist then .fin else binary64) a.get b.get)
  rw [hist_alike, hist_alike, get_alike, get_alike, ← h]
  exact mul_turned (round_neg _) t t' _ _

theorem alike_sub (s : Bool) (v w : Fused binary64 fuse) : alike s v - alike s w = alike s (v - w) := by
  show Fused.num (Fl.sub binary64 (alike s v).get ((alike s w).operand (alike s v).hist)) (.op 1 (alike s v).hist (alike s w).hist) = _
  rw [hist_alike, hist_alike, get_alike, operand_alike]
  rw [show Fl.sub binary64 (turn s v.get) (turn s (w.operand v.hist)) = turn s (Fl.sub binary64 v.get (w.operand v.hist)) from
    turn_sub s v.get _]
  rfl

theorem alike_add_mul {s t t' : Bool} (h : (t ^^ t') = s) (v a b : Fused binary64 fuse) :
    alike s v + alike t a * alike t' b = alike s (v + a * b) := by
  show Fused.num (Fl.add binary64 (alike s v).get ((alike t a * alike t' b).operand (alike s v).hist))
    (.op 0 (alike s v).hist (.op 2 (alike t a).hist (alike t' b).hist)) = _
  rw [hist_alike, hist_alike, hist_alike, get_alike, operand_alike_mul h]
  rw [show Fl.add binary64 (turn s v.get) (turn s ((a * b).operand v.hist)) = turn s (Fl.add binary64 v.get ((a * b).operand v.hist)) from
    turn_add s v.get _]
  rfl

theorem alike_mul_div (s t : Bool) (m a : Fused binary64 fuse) {d : Fused binary64 fuse} (hd : d.get ≠ .fin 0) :
    m * alike s a / alike t d = alike (s ^^ t) (m * a / d) := by
  have h1 : (m * alike s a).get = turn s (m * a).get := by
    show Fl.mul binary64 m.get (alike s a).get = turn s (Fl.mul binary64 m.get a.get)
    rw [get_alike]
    exact mul_turn s m.get a.get
  have h2 : (m * alike s a).hist = (m * a).hist := by
    show Hist.op 2 m.hist (alike s a).hist = .op 2 m.hist a.hist
    rw [hist_alike]
  show Fused.num (Fl.div binary64 (m * alike s a).get (alike t d).get) (.op 3 (m * alike s a).hist (alike t d).hist) = _
  rw [h1, h2, hist_alike, get_alike]
  rw [show Fl.div binary64 (turn s (m * a).get) (turn t d.get) = turn (s ^^ t) (Fl.div binary64 (m * a).get d.get) from
    turn_div s t (m * a).get hd]
  rfl

end

/-! ### Rows -/

variable {fuse : Hist → Hist → Hist → Bool} {sqrt : Fused binary64 fuse → Fused binary64 fuse} {n : Nat} {σ τ : Nat → Bool}
  {m m' : Sparse (Fused binary64 fuse)}

/-- The elements of row `i` with changed signs. -/
def likeRow (σ τ : Nat → Bool) (i : Nat) (r : List (Nat × Fused binary64 fuse)) : List (Nat × Fused binary64 fuse) :=
  r.map fun e => (e.1, alike (σ i ^^ τ e.1) e.2)

/-- A vector with changed signs. -/
def likeVec (τ : Nat → Bool) (x : Fin n → Fused binary64 fuse) : Fin n → Fused binary64 fuse := fun i => alike (τ i) (x i)

/-- Two square matrices that programs can make, which store the same positions and differ by the signs of rows and columns.  Elements
in the same place have the same label. -/
structure TurnedF (n : Nat) (σ τ : Nat → Bool) (m m' : Sparse (Fused binary64 fuse)) : Prop where
  built : Built false m
  built' : Built false m'
  rows : m.sizeRow = n
  columns : m.colSize = n
  rows' : m'.sizeRow = n
  columns' : m'.colSize = n
  elements : ∀ i j, i < n → j < n → ∃ o : Option (Fl × Hist), Spec.lookup m i j = .ok (o.map fun v => .num v.1 v.2) ∧
    Spec.lookup m' i j = .ok (o.map fun v => .num (if σ i = τ j then v.1 else Fl.neg v.1) v.2)
  diagonal : ∀ i, i < n → ∃ d h, Spec.lookup m i i = .ok (some (.num d h)) ∧ d ≠ .fin 0

theorem lookup_likeRow (i : Nat) (r : List (Nat × Fused binary64 fuse)) (j : Nat) :
    (likeRow σ τ i r).lookup j = (r.lookup j).map (alike (σ i ^^ τ j)) := by
  induction r with
  | nil => rfl
  | cons e r ih =>
    unfold likeRow at ih ⊢
    rw [List.map_cons]
    by_cases h : j = e.1
    · subst h
      simp [List.lookup]
    · have : (j == e.1) = false := by simpa using h
      rw [show e = (e.1, e.2) from rfl]
      simp only [List.lookup, this]
      exact ih

theorem TurnedF.reps (h : TurnedF n σ τ m m') : ∃ L L' : Rows (Fused binary64 fuse), m.Rep L ∧ m'.Rep L' ∧ Bounded n L ∧ Bounded n L' ∧
    L.length = n ∧ L'.length = n ∧ (∀ i, i < n → row L' i = likeRow σ τ i (row L i)) ∧
    ∀ i, i < n → ∃ d, d.get ≠ .fin 0 ∧ entry L i i = some d ∧ entry L' i i = some (alike (σ i ^^ τ i) d) := by
  obtain ⟨L, h1, h2, -, h4⟩ := inv_built h.built
  obtain ⟨L', k1, k2, -, k4⟩ := inv_built h.built'
  have e1 : L.length = n := by rw [← h1.sizeRow]; exact h.rows
  have e2 : L'.length = n := by rw [← k1.sizeRow]; exact h.rows'
  have hrow : ∀ i, i < n → row L' i = likeRow σ τ i (row L i) := by
    intro i hi
    refine row_of_lookups (k2 i) ?_ fun j => ?_
    · have : keys (likeRow σ τ i (row L i)) = keys (row L i) := by
        unfold likeRow keys
        rw [List.map_map]
        rfl
      rw [this]
      exact h2 i
    · by_cases hj : j < n
      swap
      · have none : ∀ (M : Rows (Fused binary64 fuse)), Bounded n M → (row M i).lookup j = none := fun M hM => by
          rw [lookup_eq_none]
          intro hk
          obtain ⟨e, e1, rfl⟩ := List.mem_map.mp hk
          exact hj (hM i e e1)
        rw [lookup_likeRow, none L (by rw [← h.columns]; exact h4 rfl), none L' (by rw [← h.columns']; exact k4 rfl)]
        rfl
      obtain ⟨o, o1, o2⟩ := h.elements i j hi hj
      rw [lookup_ok h1 (by omega), Out.ok.injEq] at o1
      rw [lookup_ok k1 (by omega), Out.ok.injEq] at o2
      rw [lookup_likeRow]
      show entry L' i j = (entry L i j).map _
      rw [o2, o1, Option.map_map]
      congr 1
      funext v
      cases hs : σ i <;> cases ht : τ j <;> rfl
  refine ⟨L, L', h1, k1, by rw [← h.columns]; exact h4 rfl, by rw [← h.columns']; exact k4 rfl, e1, e2, hrow, fun i hi => ?_⟩
  obtain ⟨d, k, d1, d2⟩ := h.diagonal i hi
  rw [lookup_ok h1 (by omega), Out.ok.injEq] at d1
  refine ⟨.num d k, d2, d1, ?_⟩
  have : (row L' i).lookup i = ((row L i).lookup i).map (alike (σ i ^^ τ i)) := by rw [hrow i hi, lookup_likeRow]
  show (row L' i).lookup i = _
  rw [this]
  show (entry L i i).map _ = _
  rw [d1]
  rfl

theorem getD_likeVec (x : Fin n → Fused binary64 fuse) (j : Nat) : (vec (likeVec τ x)).getD j 0 = alike (τ j) ((vec x).getD j 0) := by
  unfold vec likeVec
  rw [List.getD_eq_getElem?_getD, List.getD_eq_getElem?_getD]
  by_cases hj : j < n
  · rw [List.getElem?_eq_getElem (by simpa using hj), List.getElem?_eq_getElem (by simpa using hj)]
    simp
  · rw [List.getElem?_eq_none (by simpa using hj), List.getElem?_eq_none (by simpa using hj)]
    exact (alike_zero _).symm

theorem fold_alike (i : Nat) (r : List (Nat × Fused binary64 fuse)) (x : Fin n → Fused binary64 fuse) (p : Nat → Prop) [DecidablePred p]
    (v : Fused binary64 fuse) :
    (likeRow σ τ i r).foldl (fun v e => if p e.1 then v else v + e.2 * (vec (likeVec τ x)).getD e.1 0) (alike (σ i) v) =
      alike (σ i) (r.foldl (fun v e => if p e.1 then v else v + e.2 * (vec x).getD e.1 0) v) := by
  induction r generalizing v with
  | nil => rfl
  | cons e r ih =>
    unfold likeRow at ih ⊢
    rw [List.map_cons, List.foldl_cons, List.foldl_cons]
    by_cases h : p e.1
    · simp only [h, if_true]
      exact ih v
    · simp only [h, if_false]
      rw [getD_likeVec, alike_add_mul (s := σ i) (by cases σ i <;> cases τ e.1 <;> rfl)]
      exact ih _

theorem dotL_alike (i : Nat) (r : List (Nat × Fused binary64 fuse)) (x : Fin n → Fused binary64 fuse) :
    dotL (likeRow σ τ i r) (vec (likeVec τ x)) = alike (σ i) (dotL r (vec x)) := by
  have := fold_alike (σ := σ) (τ := τ) i r x (fun _ => False) 0
  simp only [if_false] at this
  rw [alike_zero] at this
  exact this

theorem newValue_alike {L L' : Rows (Fused binary64 fuse)} (i : Fin n) (hr : row L' i = likeRow σ τ i (row L i))
    (b y : Fin n → Fused binary64 fuse) (omega : Fused binary64 fuse) {d : Fused binary64 fuse} (hd : d.get ≠ .fin 0) :
    newValue (fusedFloats binary64 fuse sqrt) L' (likeVec σ b) omega (alike (σ i ^^ τ i) d) (likeVec τ y) i =
      alike (τ i) (newValue (fusedFloats binary64 fuse sqrt) L b omega d y i) := by
  unfold newValue
  have h := fold_alike (σ := σ) (τ := τ) i.1 (row L i) y (· = i.1) 0
  rw [alike_zero] at h
  rw [hr, h]
  have e := alike_add_mul (s := τ i) (t := false) (t' := τ i) (Bool.false_xor _)
    (omega * (b i - (row L i).foldl (fun v e => if e.1 = i.1 then v else v + e.2 * (vec y).getD e.1 0) 0) / d)
    ((fusedFloats binary64 fuse sqrt).one - omega) (y i)
  rw [alike_false] at e
  rw [← e]
  unfold likeVec
  rw [alike_sub, alike_mul_div _ _ _ _ hd, show (σ i ^^ (σ i ^^ τ i)) = τ i by cases σ i <;> cases τ i <;> rfl]

/-! ### Iterations -/

/-- States of the two solvers that belong together. -/
def Alike (k : Method) (τ : Nat → Bool) (n : Nat) (st st' : List (Fused binary64 fuse) × List (Fused binary64 fuse)) : Prop :=
  (∃ x : Fin n → Fused binary64 fuse, st.1 = vec x ∧ st'.1 = vec (likeVec τ x)) ∧ (k = .jacobi → st.2.length = n ∧ st'.2.length = n)

theorem step_alike (h : TurnedF n σ τ m m') (k : Method) (s s' : FixedPoint (Fused binary64 fuse)) (b : Fin n → Fused binary64 fuse)
    {st st' : List (Fused binary64 fuse) × List (Fused binary64 fuse)} (hst : Alike k τ n st st') :
    ∃ v v', Iterative.step (fusedFloats binary64 fuse sqrt) k s m (vec b) st = .ok v ∧
      Iterative.step (fusedFloats binary64 fuse sqrt) k s' m' (vec (likeVec σ b)) st' = .ok v' ∧ Alike k τ n v v' := by
  obtain ⟨x0, w⟩ := st
  obtain ⟨x0', w'⟩ := st'
  obtain ⟨⟨x, rfl, rfl⟩, h3⟩ := hst
  obtain ⟨L, L', h1, k1, h2, k2, hl, kl, h4, h5⟩ := h.reps
  have h5' : ∀ i : Fin n, ∃ d : Fused binary64 fuse, d.get ≠ .fin 0 ∧ entry L i i = some d ∧ entry L' i i = some (alike (σ i ^^ τ i) d) :=
    fun i => h5 i i.2
  choose d d1 d2 d3 using h5'
  obtain ⟨y, v, e1, e2, e3⟩ := step_gen (fusedFloats binary64 fuse sqrt) k s h1 h2 hl d d2 b x w fun hk => (h3 hk).1
  obtain ⟨y', v', f1, f2, f3⟩ := step_gen (fusedFloats binary64 fuse sqrt) k s' k1 k2 kl _ d3 (likeVec σ b) (likeVec τ x) w'
    fun hk => (h3 hk).2
  refine ⟨_, _, e1, f1, ⟨y, rfl, ?_⟩, fun hk => ⟨e2 hk, f2 hk⟩⟩
  show vec y' = _
  rw [vec_inj]
  refine funext (fin_strong fun i ih => ?_)
  have : (fun j => if k ≠ .jacobi ∧ j < i then y' j else likeVec τ x j) = likeVec τ fun j => if k ≠ .jacobi ∧ j < i then y j else x j := by
    funext j
    by_cases hj : k ≠ .jacobi ∧ j < i
    · rw [if_pos hj, ih j hj.2]
      simp only [likeVec, if_pos hj]
    · rw [if_neg hj]
      simp only [likeVec, if_neg hj]
  rw [f3 i, this, newValue_alike i (h4 i i.2) b _ _ (d1 i), ← e3 i]
  rfl

theorem residual_alike (hsqrt : ∀ a b : Fused binary64 fuse, a.get = b.get → a.hist = b.hist → sqrt a = sqrt b) (h : TurnedF n σ τ m m')
    (hn0 : 0 < n) (hn : n < 2 ^ 31) (b x : Fin n → Fused binary64 fuse) :
    ∃ r, computeResidual (fusedFloats binary64 fuse sqrt) m (vec x) (vec b) = .ok r ∧
      computeResidual (fusedFloats binary64 fuse sqrt) m' (vec (likeVec τ x)) (vec (likeVec σ b)) = .ok r := by
  obtain ⟨L, L', h1, k1, h2, k2, h3, k3, h4, -⟩ := h.reps
  have hmax : n ≤ intMax := by unfold intMax; omega
  refine ⟨_, residual_gen _ h1 h2 h3 h.columns x b hn0 hmax, ?_⟩
  rw [residual_gen _ k1 k2 k3 h.columns' _ _ hn0 hmax]
  have hdef : ∀ i : Fin n, rowDefect L' (likeVec τ x) (likeVec σ b) i = alike (σ i) (rowDefect L x b i) := by
    intro i
    unfold rowDefect
    rw [h4 i i.2, dotL_alike]
    exact alike_sub _ _ _
  have hfold : ∀ (l : List (Fin n)) (p q q' : Fused binary64 fuse), q'.get = q.get → q'.hist = q.hist →
      ∀ u u' : Fused binary64 fuse × Fused binary64 fuse,
      u = l.foldl (fun st i => (st.1 + rowDefect L x b i * rowDefect L x b i,
        if (fusedFloats binary64 fuse sqrt).lt st.2 (rowDefect L x b i * rowDefect L x b i) then rowDefect L x b i * rowDefect L x b i
        else st.2)) (p, q) →
      u' = l.foldl (fun st i => (st.1 + rowDefect L' (likeVec τ x) (likeVec σ b) i * rowDefect L' (likeVec τ x) (likeVec σ b) i,
        if (fusedFloats binary64 fuse sqrt).lt st.2 (rowDefect L' (likeVec τ x) (likeVec σ b) i * rowDefect L' (likeVec τ x) (likeVec σ b) i)
        then rowDefect L' (likeVec τ x) (likeVec σ b) i * rowDefect L' (likeVec τ x) (likeVec σ b) i else st.2)) (p, q') →
      u'.1 = u.1 ∧ u'.2.get = u.2.get ∧ u'.2.hist = u.2.hist := by
    intro l
    induction l with
    | nil =>
      rintro p q q' g1 g2 u u' rfl rfl
      exact ⟨rfl, g1, g2⟩
    | cons i l ih =>
      rintro p q q' g1 g2 u u' hu hu'
      rw [List.foldl_cons] at hu hu'
      simp only at hu hu'
      rw [hdef i] at hu'
      have c1 : (alike (σ i) (rowDefect L x b i) * alike (σ i) (rowDefect L x b i)).get = (rowDefect L x b i * rowDefect L x b i).get := by
        show Fl.mul binary64 (alike (σ i) (rowDefect L x b i)).get (alike (σ i) (rowDefect L x b i)).get = _
        rw [get_alike]
        exact turn_square (σ i) (rowDefect L x b i).get
      have c2 : (alike (σ i) (rowDefect L x b i) * alike (σ i) (rowDefect L x b i)).hist = (rowDefect L x b i * rowDefect L x b i).hist := by
        show Hist.op 2 (alike (σ i) (rowDefect L x b i)).hist (alike (σ i) (rowDefect L x b i)).hist = _
        rw [hist_alike]
        rfl
      have c3 : p + alike (σ i) (rowDefect L x b i) * alike (σ i) (rowDefect L x b i) = p + rowDefect L x b i * rowDefect L x b i := by
        have := alike_add_mul (s := false) (Bool.xor_self (σ i)) p (rowDefect L x b i) (rowDefect L x b i)
        rwa [alike_false, alike_false] at this
      have c4 : (fusedFloats binary64 fuse sqrt).lt q' (alike (σ i) (rowDefect L x b i) * alike (σ i) (rowDefect L x b i)) =
          (fusedFloats binary64 fuse sqrt).lt q (rowDefect L x b i * rowDefect L x b i) := by
        show Fl.lt q'.get _ = Fl.lt q.get _
        rw [g1, c1]
      rw [c3, c4] at hu'
      refine ih _ _ _ ?_ ?_ u u' hu hu'
      · split
        · exact c1
        · exact g1
      · split
        · exact c2
        · exact g2
  obtain ⟨g1, g2, g3⟩ := hfold (List.finRange n) 0 0 0 rfl rfl (residualFold (fusedFloats binary64 fuse sqrt) L x b)
    (residualFold (fusedFloats binary64 fuse sqrt) L' (likeVec τ x) (likeVec σ b)) rfl rfl
  rw [g1, show (fusedFloats binary64 fuse sqrt).sqrt (residualFold (fusedFloats binary64 fuse sqrt) L' (likeVec τ x) (likeVec σ b)).2 =
    (fusedFloats binary64 fuse sqrt).sqrt (residualFold (fusedFloats binary64 fuse sqrt) L x b).2 from hsqrt _ _ g2 g3]

/-- Solving both systems. -/
theorem solve_alike (hsqrt : ∀ a b : Fused binary64 fuse, a.get = b.get → a.hist = b.hist → sqrt a = sqrt b) (k : Method)
    (s s' : FixedPoint (Fused binary64 fuse)) (hs : s'.limits = s.limits) (h : TurnedF n σ τ m m') (hn0 : 0 < n) (hn : n < 2 ^ 31)
    (b x : Fin n → Fused binary64 fuse) (fuel : Nat) :
    (∃ (y : Fin n → Fused binary64 fuse) (d : Conv (Fused binary64 fuse) (Fused binary64 fuse)) (s1 s2 : FixedPoint (Fused binary64 fuse)),
      solveSystem (fusedFloats binary64 fuse sqrt) k s m (vec x) (vec b) fuel = .ok (vec y, d, s1) ∧
      solveSystem (fusedFloats binary64 fuse sqrt) k s' m' (vec (likeVec τ x)) (vec (likeVec σ b)) fuel = .ok (vec (likeVec τ y), d, s2)) ∨
    (solveSystem (fusedFloats binary64 fuse sqrt) k s m (vec x) (vec b) fuel = .diverge ∧
      solveSystem (fusedFloats binary64 fuse sqrt) k s' m' (vec (likeVec τ x)) (vec (likeVec σ b)) fuel = .diverge) := by
  have main := fun (w w' : List (Fused binary64 fuse)) (hw : k = .jacobi → w.length = n ∧ w'.length = n) =>
    whileFuel_together (fun (st st' : (List (Fused binary64 fuse) × List (Fused binary64 fuse)) × Conv (Fused binary64 fuse) (Fused binary64 fuse)) =>
        Alike k τ n st.1 st'.1 ∧ st'.2 = st.2)
      (c := fun st => !isConverged (fusedFloats binary64 fuse sqrt) s.limits st.2)
      (d := fun st => !isConverged (fusedFloats binary64 fuse sqrt) s'.limits st.2)
      (f := fun st => do
        let v ← Iterative.step (fusedFloats binary64 fuse sqrt) k s m (vec b) st.1
        let d ← update (fusedFloats binary64 fuse sqrt) m v.1 (vec b) st.2
        pure (v, d))
      (g := fun st => do
        let v ← Iterative.step (fusedFloats binary64 fuse sqrt) k s' m' (vec (likeVec σ b)) st.1
        let d ← update (fusedFloats binary64 fuse sqrt) m' v.1 (vec (likeVec σ b)) st.2
        pure (v, d))
      (by rintro st st' ⟨-, e⟩; rw [e, hs])
      (by
        rintro ⟨st, d⟩ ⟨st', _⟩ ⟨h1, rfl⟩
        obtain ⟨v, v', e1, e2, e3⟩ := step_alike (sqrt := sqrt) h k s s' b h1
        obtain ⟨⟨z, z1, z2⟩, -⟩ := id e3
        obtain ⟨r, r1, r2⟩ := residual_alike hsqrt h hn0 hn b z
        simp only [e1, e2, Out.ok_bind]
        unfold update
        rw [z1, z2, r1, r2]
        exact ⟨_, _, rfl, rfl, e3, rfl⟩) fuel
      (s := ((vec x, w), Conv.new (fusedFloats binary64 fuse sqrt))) (t := ((vec (likeVec τ x), w'), Conv.new (fusedFloats binary64 fuse sqrt)))
      ⟨⟨⟨x, rfl, rfl⟩, hw⟩, rfl⟩
  have hlen : ∀ (l : List (Fused binary64 fuse)) (z : Fused binary64 fuse), (resizeList l n z).length = n := by
    intro l z
    unfold resizeList
    simp
    omega
  have key : ∀ w w' : List (Fused binary64 fuse), (k = .jacobi → w.length = n ∧ w'.length = n) →
      (∃ (y : Fin n → Fused binary64 fuse) (d : Conv (Fused binary64 fuse) (Fused binary64 fuse)) (s1 s2 : FixedPoint (Fused binary64 fuse)),
        (iterate (fusedFloats binary64 fuse sqrt) k s m (vec b) fuel ((vec x, w), Conv.new (fusedFloats binary64 fuse sqrt)) >>= fun r =>
          pure (r.1.1, r.2, { s with working := r.1.2 })) = .ok (vec y, d, s1) ∧
        (iterate (fusedFloats binary64 fuse sqrt) k s' m' (vec (likeVec σ b)) fuel
          ((vec (likeVec τ x), w'), Conv.new (fusedFloats binary64 fuse sqrt)) >>=
          fun r => pure (r.1.1, r.2, { s' with working := r.1.2 })) = .ok (vec (likeVec τ y), d, s2)) ∨
      ((iterate (fusedFloats binary64 fuse sqrt) k s m (vec b) fuel ((vec x, w), Conv.new (fusedFloats binary64 fuse sqrt)) >>= fun r =>
          pure (r.1.1, r.2, { s with working := r.1.2 })) = .diverge ∧
        (iterate (fusedFloats binary64 fuse sqrt) k s' m' (vec (likeVec σ b)) fuel
          ((vec (likeVec τ x), w'), Conv.new (fusedFloats binary64 fuse sqrt)) >>=
          fun r => pure (r.1.1, r.2, { s' with working := r.1.2 })) = .diverge) := by
    intro w w' hw
    unfold iterate
    rcases main w w' hw with ⟨st, st', e1, e2, ⟨⟨y, y1, y2⟩, -⟩, e4⟩ | ⟨e1, e2⟩
    · left
      refine ⟨y, st.2, { s with working := st.1.2 }, { s' with working := st'.1.2 }, ?_, ?_⟩
      · rw [e1, Out.ok_bind, ← y1]
        rfl
      · rw [e2, Out.ok_bind, ← y2, ← e4]
        rfl
    · right
      rw [e1, e2]
      exact ⟨rfl, rfl⟩
  unfold solveSystem
  rw [h.rows, h.rows']
  cases k with
  | jacobi => exact key _ _ fun _ => ⟨hlen _ _, hlen _ _⟩
  | gaussSeidel => exact key _ _ (by simp)
  | sor => exact key _ _ (by simp)

/-! ### The property -/

/-- C234: changing the signs of equations and of unknowns does not change the number of iterations nor the reported residuals, and
changes the solution by the signs of the unknowns only, whatever operations are fused. -/
theorem c234_signs (hsqrt : ∀ a b : Fused binary64 fuse, a.get = b.get → a.hist = b.hist → sqrt a = sqrt b) (k : Method)
    (s s' : FixedPoint (Fused binary64 fuse)) (hs : s'.limits = s.limits) (h : TurnedF n σ τ m m') (hn0 : 0 < n) (hn : n < 2 ^ 31)
    (b x : Fin n → Fl) (hb hx : Fin n → Hist) (fuel : Nat) :
    (∃ (y y' : Fin n → Fused binary64 fuse) (d : Conv (Fused binary64 fuse) (Fused binary64 fuse)) (s1 s2 : FixedPoint (Fused binary64 fuse)),
      solveSystem (fusedFloats binary64 fuse sqrt) k s m (vec fun i => .num (x i) (hx i)) (vec fun i => .num (b i) (hb i)) fuel =
        .ok (vec y, d, s1) ∧
      solveSystem (fusedFloats binary64 fuse sqrt) k s' m' (vec fun i => .num (if τ i then Fl.neg (x i) else x i) (hx i))
        (vec fun i => .num (if σ i then Fl.neg (b i) else b i) (hb i)) fuel = .ok (vec y', d, s2) ∧
      ∀ i, (y' i).get = if τ i then Fl.neg (y i).get else (y i).get) ∨
    (solveSystem (fusedFloats binary64 fuse sqrt) k s m (vec fun i => .num (x i) (hx i)) (vec fun i => .num (b i) (hb i)) fuel = .diverge ∧
      solveSystem (fusedFloats binary64 fuse sqrt) k s' m' (vec fun i => .num (if τ i then Fl.neg (x i) else x i) (hx i))
        (vec fun i => .num (if σ i then Fl.neg (b i) else b i) (hb i)) fuel = .diverge) := by
  rcases solve_alike hsqrt k s s' hs h hn0 hn (fun i => .num (b i) (hb i)) (fun i => .num (x i) (hx i)) fuel with
    ⟨y, d, s1, s2, e1, e2⟩ | e
  · exact .inl ⟨y, likeVec τ y, d, s1, s2, e1, e2, fun i => get_alike _ _⟩
  · exact .inr e

/-- The first equation and the second unknown with the other sign: the hypotheses are met, also with an infinite element, and by a
square root of the stored number. -/
example (fuse : Hist → Hist → Hist → Bool) (root : Fl → Fl) :
    TurnedF (fuse := fuse) 2 (· == 0) (· == 1) (dense2 (inp 1 3) (inp 2 1) (.num (.inf false) (.input 3)) (inp 4 3))
      (dense2 (inp 1 (-3)) (inp 2 1) (.num (.inf false) (.input 3)) (inp 4 (-3))) ∧
    ∀ a b : Fused binary64 fuse, a.get = b.get → a.hist = b.hist →
      (fun a => .num (root a.get) (.op 6 a.hist a.hist) : Fused binary64 fuse → Fused binary64 fuse) a =
        (fun a => .num (root a.get) (.op 6 a.hist a.hist) : Fused binary64 fuse → Fused binary64 fuse) b := by
  refine ⟨⟨Built.ofLists (nz := [0, 2, 4]) (ix := [0, 1, 0, 1]) (vs := [inp 1 3, inp 2 1, .num (.inf false) (.input 3), inp 4 3]) (c := 2)
    (by simp [sizeMax]) (by simp [sizeMax]) (dense2_lists _ _ _ _),
    Built.ofLists (nz := [0, 2, 4]) (ix := [0, 1, 0, 1]) (vs := [inp 1 (-3), inp 2 1, .num (.inf false) (.input 3), inp 4 (-3)]) (c := 2)
    (by simp [sizeMax]) (by simp [sizeMax]) (dense2_lists _ _ _ _), rfl, rfl, rfl, rfl, ?_, ?_⟩, fun a b h1 h2 => by simp only [h1, h2]⟩
  · intro i j hi hj
    obtain rfl | rfl : i = 0 ∨ i = 1 := by omega
    · obtain rfl | rfl : j = 0 ∨ j = 1 := by omega
      · exact ⟨some (.fin 3, .input 1), rfl, rfl⟩
      · exact ⟨some (.fin 1, .input 2), rfl, rfl⟩
    · obtain rfl | rfl : j = 0 ∨ j = 1 := by omega
      · exact ⟨some (.inf false, .input 3), rfl, rfl⟩
      · exact ⟨some (.fin 3, .input 4), rfl, rfl⟩
  · intro i hi
    obtain rfl | rfl : i = 0 ∨ i = 1 := by omega
    · exact ⟨.fin 3, .input 1, rfl, by decide⟩
    · exact ⟨.fin 3, .input 4, rfl, by decide⟩

end Disa.Props
