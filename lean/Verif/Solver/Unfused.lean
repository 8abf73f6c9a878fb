import Verif.Sparse.Hom
import Verif.Props.ZeroFloat
import Verif.Solver.SweepFused

/-!
# Solvers of which no operation is fused
-/

namespace Disa.Props.Unfused

open Disa Spec Dense Sparse Num Lu Iterative ZeroFloat

variable {rnd : ℚ → Fl} {fuse : Hist → Hist → Hist → Bool}

/-- The number that is stored. -/
abbrev store (x : Fused rnd fuse) : Num rnd := x.get

/-- The numbers that are stored in a vector. -/
abbrev storeVec (v : List (Fused rnd fuse)) : List (Num rnd) := v.map store

/-- The numbers that are stored in a matrix. -/
abbrev storeMat (m : List (List (Fused rnd fuse))) : List (List (Num rnd)) := mapMat store m

/-- The data of a direct solver. -/
def storeLu (s : Lu (Fused rnd fuse)) : Lu (Num rnd) := ⟨s.factorised, store s.tol, storeMat s.lu, s.piv⟩

/-- The data of a fixed point solver. -/
def storeFixed (s : FixedPoint (Fused rnd fuse)) : FixedPoint (Num rnd) :=
  ⟨⟨s.limits.minIterations, s.limits.maxIteration, store s.limits.tolerance⟩, storeVec s.working, store s.relaxation⟩

/-- Convergence data. -/
def storeConv (d : Conv (Fused rnd fuse) (Fused rnd fuse)) : Conv (Num rnd) (Num rnd) :=
  ⟨d.converged, d.iteration, store d.residual, store d.residual0, store d.residualNormalised, store d.residualMax, store d.residualMax0,
    store d.residualMaxNormalised⟩

theorem hom (hf : ∀ h k l, fuse h k l = false) : Hom (store : Fused rnd fuse → Num rnd) :=
  ⟨rfl, fun x y => (c217_same hf x y).1, fun x y => (c217_same hf x y).2.1, fun x y => (c217_same hf x y).2.2.1⟩

theorem stdMax_store (x y : Fused rnd fuse) : store ((Fused.arith rnd fuse).stdMax x y) = (Num.arith rnd).stdMax (store x) (store y) := by
  unfold Arith.stdMax
  show (if Fl.lt x.get y.get = true then y else x).get = if Fl.lt x.get y.get = true then y.get else x.get
  split <;> rfl

theorem stdMin_store (x y : Fused rnd fuse) : store ((Fused.arith rnd fuse).stdMin x y) = (Num.arith rnd).stdMin (store x) (store y) := by
  unfold Arith.stdMin
  show (if Fl.lt y.get x.get = true then y else x).get = if Fl.lt y.get x.get = true then y.get else x.get
  split <;> rfl

theorem nearlyEqual_store (a b r t : Fused rnd fuse) :
    (Num.arith rnd).nearlyEqual (store a) (store b) (store r) (store t) = (Fused.arith rnd fuse).nearlyEqual a b r t := by
  unfold Arith.nearlyEqual
  have h : (Fused.arith rnd fuse).lt ((Fused.arith rnd fuse).abs ((Fused.arith rnd fuse).sub a b)) ((Fused.arith rnd fuse).stdMax t
        ((Fused.arith rnd fuse).mul r ((Fused.arith rnd fuse).stdMin ((Fused.arith rnd fuse).add ((Fused.arith rnd fuse).abs a)
          ((Fused.arith rnd fuse).abs b)) (Fused.arith rnd fuse).max))) =
      (Num.arith rnd).lt ((Num.arith rnd).abs ((Num.arith rnd).sub (store a) (store b))) ((Num.arith rnd).stdMax (store t)
        ((Num.arith rnd).mul (store r) ((Num.arith rnd).stdMin ((Num.arith rnd).add ((Num.arith rnd).abs (store a))
          ((Num.arith rnd).abs (store b))) (Num.arith rnd).max))) := by
    show Fl.lt _ (store ((Fused.arith rnd fuse).stdMax t _)) = Fl.lt _ _
    rw [stdMax_store]
    show Fl.lt _ ((Num.arith rnd).stdMax (store t) (store r * store ((Fused.arith rnd fuse).stdMin _ _))) = _
    rw [stdMin_store]
    rfl
  rw [h]
  rfl

theorem nearlyGreater_store (a b r t : Fused rnd fuse) :
    (Num.arith rnd).nearlyGreater (store a) (store b) (store r) (store t) = (Fused.arith rnd fuse).nearlyGreater a b r t := by
  unfold Arith.nearlyGreater Arith.nearlyLessEqual
  rw [nearlyEqual_store]
  rfl

/-! ### Direct solvers -/

/-- The matrix and the pivots. -/
def storeFst {β : Type} (st : List (List (Fused rnd fuse)) × β) : List (List (Num rnd)) × β := (storeMat st.1, st.2)

theorem search_store (lu : List (List (Fused rnd fuse))) (i k : Nat) (st : Fused rnd fuse × Nat) :
    searchBody (Num.arith rnd) (storeMat lu) i k (store st.1, st.2) =
      (fun st : Fused rnd fuse × Nat => (store st.1, st.2)) <$> searchBody (Fused.arith rnd fuse) lu i k st := by
  unfold searchBody
  refine bind_hom store _ (rd2_map store lu _ _) fun a _ => ?_
  rw [show (Num.arith rnd).nearlyGreater ((Num.arith rnd).abs (store a)) (store st.1) (Num.arith rnd).rel (Num.arith rnd).tol =
    (Fused.arith rnd fuse).nearlyGreater ((Fused.arith rnd fuse).abs a) st.1 (Fused.arith rnd fuse).rel (Fused.arith rnd fuse).tol from
      nearlyGreater_store ((Fused.arith rnd fuse).abs a) st.1 (Fused.arith rnd fuse).rel (Fused.arith rnd fuse).tol]
  refine bind_hom_same _ fun g _ => ?_
  cases g <;> rfl

theorem pivot_store (i : Nat) (st : List (List (Fused rnd fuse)) × List Nat) :
    pivotStep (Num.arith rnd) i (storeFst st) = storeFst <$> pivotStep (Fused.arith rnd fuse) i st := by
  unfold pivotStep
  refine bind_hom (fun st : Fused rnd fuse × Nat => (store st.1, st.2)) _ ?_ fun r _ => ?_
  · show loop (sizeColumn (storeMat st.1) - i) _ _ = _
    rw [sizeColumn_map]
    exact loop_hom (fun st : Fused rnd fuse × Nat => (store st.1, st.2)) _ (fun k st' _ => search_store st.1 i k st') (0, i)
  · show (if (r.2 != i) = true then _ else _) = storeFst <$> (if (r.2 != i) = true then _ else _)
    split
    · refine bind_hom_same _ fun piv _ => bind_hom storeMat _ ?_ fun lu _ => rfl
      exact swapAt_map (List.map store) st.1 i r.2
    · rfl

variable (hf : ∀ h k l, fuse h k l = false)
include hf

theorem sub_store (x y : Fused rnd fuse) : store x - store y = store (x - y) := ((hom hf).sub x y).symm

theorem add_store (x y : Fused rnd fuse) : store x + store y = store (x + y) := ((hom hf).add x y).symm

theorem eliminate_store (i k : Nat) (lu : List (List (Fused rnd fuse))) :
    eliminateRow i k (storeMat lu) = storeMat <$> eliminateRow i k lu := by
  unfold eliminateRow
  refine bind_hom store _ (rd2_map _ lu _ _) fun a _ => bind_hom store _ (rd2_map _ lu _ _) fun d hd => ?_
  refine bind_hom storeMat _ (wr2_map store lu _ _ (a / d)) fun lu _ => ?_
  rw [sizeColumn_map]
  refine loop_hom storeMat _ (fun c lu _ => ?_) lu
  refine bind_hom store _ (rd2_map _ lu _ _) fun x _ => bind_hom store _ (rd2_map _ lu _ _) fun l _ =>
    bind_hom store _ (rd2_map _ lu _ _) fun u _ => ?_
  rw [show store x - store l * store u = store (x - l * u) from sub_store hf x (l * u)]
  exact wr2_map store lu _ _ (x - l * u)

theorem body_store (pivot : Bool) (tol : Fused rnd fuse) (i : Nat) (st : List (List (Fused rnd fuse)) × List Nat × Bool) :
    factoriseBody (Num.arith rnd) pivot (store tol) i (storeFst st) = storeFst <$> factoriseBody (Fused.arith rnd fuse) pivot tol i st := by
  unfold factoriseBody
  show (if st.2.2 = true then _ else _) = storeFst <$> (if st.2.2 = true then _ else _)
  split
  · refine bind_hom storeFst _ ?_ fun r _ => bind_hom store _ (rd2_map _ r.1 i i) fun d hd => ?_
    · cases pivot
      · rfl
      · exact pivot_store i (st.1, st.2.1)
    · show (if Fl.lt (Fl.abs d.get) tol.get = true then _ else _) = storeFst <$> (if Fl.lt (Fl.abs d.get) tol.get = true then _ else _)
      split
      · rfl
      · refine bind_hom storeMat _ ?_ fun _ _ => rfl
        show loop ((storeMat r.1).length - (i + 1)) _ _ = _
        rw [mapMat_length]
        exact loop_hom storeMat _ (fun k lu _ => eliminate_store hf i _ lu) r.1
  · rfl

theorem factorise_store (pivot : Bool) (s : Lu (Fused rnd fuse)) (a : List (List (Fused rnd fuse))) :
    factorise (Num.arith rnd) pivot (storeLu s) (storeMat a) =
      (fun r : Lu (Fused rnd fuse) × Bool => (storeLu r.1, r.2)) <$> factorise (Fused.arith rnd fuse) pivot s a := by
  unfold factorise
  refine bind_hom storeFst _ ?_ fun _ _ => rfl
  rw [mapMat_length, sizeColumn_map]
  exact loop_hom storeFst _ (fun i st _ => body_store hf pivot s.tol i st) (a, _, true)

theorem solve_store (pivot : Bool) (s : Lu (Fused rnd fuse)) (x : List (Fused rnd fuse)) (b : Option (List (Fused rnd fuse))) :
    Lu.solve pivot (storeLu s) (storeVec x) (b.map storeVec) =
      (fun r : List (Fused rnd fuse) × Bool × Nat => (storeVec r.1, r.2)) <$> Lu.solve pivot s x b := by
  have ho : ∀ x, (b.map storeVec).getD (storeVec x) = storeVec (b.getD x) := by intro x; cases b <;> rfl
  have hs : ∀ x l z : Fused rnd fuse, store x - store l * store z = store (x - l * z) := fun x l z => sub_store hf x (l * z)
  unfold Lu.solve
  show (Disa.assert (((b.map storeVec).getD (storeVec x)).length == (storeMat s.lu).length) >>= _) = _
  simp only [ho, List.length_map, mapMat_length]
  refine bind_hom_same _ fun _ _ => ?_
  show (if (!s.factorised) = true then _ else _) = _ <$> (if (!s.factorised) = true then _ else _)
  split
  · rfl
  · refine bind_hom storeVec _ ?_ fun x _ => bind_hom storeVec _ ?_ fun x _ => rfl
    · show loop (storeMat s.lu).length _ (resizeList (storeVec x) _ (store (0 : Fused rnd fuse))) = _
      rw [mapMat_length, resizeList_map]
      refine loop_hom storeVec _ (fun i x _ => ?_) _
      unfold forwardBody
      refine bind_hom_same _ fun p _ => ?_
      rw [ho]
      refine bind_hom store _ (rd_map _ _ p) fun v _ => bind_hom storeVec _ (wr_map _ x i v) fun x _ => ?_
      refine loop_hom storeVec _ (fun c x _ => bind_hom store _ (rd_map _ x i) fun y _ => bind_hom store _ (rd2_map _ s.lu i c)
        fun l _ => bind_hom store _ (rd_map _ x c) fun z _ => ?_) x
      rw [hs]
      exact wr_map _ x i (y - l * z)
    · show loop (storeMat s.lu).length (fun k x => backwardBody (storeLu s) ((storeMat s.lu).length - 1 - k) x) _ = _
      rw [mapMat_length]
      refine loop_hom storeVec _ (fun i x _ => ?_) _
      unfold backwardBody
      show (loop (sizeColumn (storeMat s.lu) - _) _ _ >>= _) = _
      rw [sizeColumn_map]
      refine bind_hom storeVec _ ?_ fun x _ => bind_hom store _ (rd_map _ x _) fun y _ =>
        bind_hom store _ (rd2_map _ s.lu _ _) fun d he => wr_map store x _ (y / d)
      refine loop_hom storeVec _ (fun c x _ => bind_hom store _ (rd_map _ x _) fun y _ => bind_hom store _ (rd2_map _ s.lu _ _)
          fun u _ => bind_hom store _ (rd_map _ x _) fun z _ => ?_) x
      rw [hs]
      exact wr_map _ x _ (y - u * z)

/-! ### Fixed point solvers -/

variable (sqrt : Num rnd → Num rnd) (root : Fused rnd fuse → Fused rnd fuse) (hr : ∀ x, store (root x) = sqrt (store x))

theorem offRowDot_store (m : Sparse (Fused rnd fuse)) (x : List (Fused rnd fuse)) (i : Nat) :
    offRowDot (m.map store) (storeVec x) i = store <$> offRowDot m x i := by
  unfold offRowDot
  rw [rowBegin_map, rowEnd_map]
  refine bind_hom_same _ fun s _ => bind_hom_same _ fun e _ => loop_hom store _ (fun k v _ => ?_) 0
  refine bind_hom_same _ fun c _ => ?_
  split
  · refine bind_hom store _ (valAt_map _ m _) fun a _ => bind_hom store _ (rd_map _ x c) fun y _ => ?_
    show Out.ok (store v + store (a * y)) = Out.ok (store (v + a * y))
    rw [add_store hf]
  · rfl

theorem sweepRow_store (m : Sparse (Fused rnd fuse)) (b : List (Fused rnd fuse)) (omega : Fused rnd fuse) (x : Option (List (Fused rnd fuse)))
    (i : Nat) (u : List (Fused rnd fuse)) :
    sweepRow (floats rnd sqrt) (m.map store) (storeVec b) (store omega) (x.map storeVec) i (storeVec u) =
      storeVec <$> sweepRow (fusedFloats rnd fuse root) m b omega x i u := by
  have h : (x.map storeVec).getD (storeVec u) = storeVec (x.getD u) := by cases x <;> rfl
  unfold sweepRow
  rw [h]
  refine bind_hom_same _ fun _ _ => bind_hom store _ (offRowDot_store hf m _ i) fun d _ => bind_hom store _ (rd_map _ b i) fun c _ =>
    bind_hom store _ (get_map _ m i i) fun a ha => bind_hom store _ (rd_map _ _ i) fun y _ => ?_
  have : store omega * (store c - store d) / store a + ((floats rnd sqrt).one - store omega) * store y =
      store (omega * (c - d) / a + ((fusedFloats rnd fuse root).one - omega) * y) := by
    rw [← add_store hf, sub_store hf c d, show (floats rnd sqrt).one = store (fusedFloats rnd fuse root).one from rfl, sub_store hf]
    rfl
  rw [this]
  exact wr_map _ u i (omega * (c - d) / a + ((fusedFloats rnd fuse root).one - omega) * y)

theorem sweep_store (m : Sparse (Fused rnd fuse)) (b : List (Fused rnd fuse)) (omega : Fused rnd fuse) (x : Option (List (Fused rnd fuse)))
    (u : List (Fused rnd fuse)) :
    forwardSweep (floats rnd sqrt) (m.map store) (storeVec b) (store omega) (x.map storeVec) (storeVec u) =
      storeVec <$> forwardSweep (fusedFloats rnd fuse root) m b omega x u :=
  loop_hom storeVec _ (fun i u _ => sweepRow_store hf sqrt root m b omega x i u) u

/-- Both vectors. -/
def storeBoth (st : List (Fused rnd fuse) × List (Fused rnd fuse)) : List (Num rnd) × List (Num rnd) := (storeVec st.1, storeVec st.2)

theorem step_store (k : Method) (s : FixedPoint (Fused rnd fuse)) (m : Sparse (Fused rnd fuse)) (b : List (Fused rnd fuse))
    (st : List (Fused rnd fuse) × List (Fused rnd fuse)) :
    Iterative.step (floats rnd sqrt) k (storeFixed s) (m.map store) (storeVec b) (storeBoth st) =
      storeBoth <$> Iterative.step (fusedFloats rnd fuse root) k s m b st := by
  cases k <;> unfold Iterative.step
  · exact bind_hom storeVec _ (sweep_store hf sqrt root m b (fusedFloats rnd fuse root).one (some st.1) st.2) fun _ _ => rfl
  · exact bind_hom storeVec _ (sweep_store hf sqrt root m b (fusedFloats rnd fuse root).one none st.1) fun _ _ => rfl
  · exact bind_hom storeVec _ (sweep_store hf sqrt root m b (fusedFloats rnd fuse root).threeHalves none st.1) fun _ _ => rfl

/-- Two values. -/
def storePair (p : Fused rnd fuse × Fused rnd fuse) : Num rnd × Num rnd := (store p.1, store p.2)

theorem residualBody_store (m : Sparse (Fused rnd fuse)) (x b : List (Fused rnd fuse)) (i : Nat) (st : Fused rnd fuse × Fused rnd fuse) :
    residualBody (floats rnd sqrt) (m.map store) (storeVec x) (storeVec b) i (storePair st) =
      storePair <$> residualBody (fusedFloats rnd fuse root) m x b i st := by
  unfold residualBody
  refine bind_hom_same _ fun _ _ => bind_hom store _ ((hom hf).rowDot_map m x i) fun v _ => bind_hom store _ (rd_map _ b i) fun c _ => ?_
  simp only
  split
  · rfl
  · rw [sub_store hf]
    show Out.ok (store st.1 + store ((v - c) * (v - c)), if Fl.lt st.2.get ((v - c) * (v - c)).get = true then store ((v - c) * (v - c))
      else store st.2) = Out.ok (store (st.1 + (v - c) * (v - c)), store (if Fl.lt st.2.get ((v - c) * (v - c)).get = true then
        (v - c) * (v - c) else st.2))
    rw [add_store hf]
    split <;> rfl

include hr

theorem residual_store (m : Sparse (Fused rnd fuse)) (x b : List (Fused rnd fuse)) :
    computeResidual (floats rnd sqrt) (m.map store) (storeVec x) (storeVec b) =
      storePair <$> computeResidual (fusedFloats rnd fuse root) m x b := by
  unfold computeResidual
  rw [List.length_map, List.length_map]
  refine bind_hom_same _ fun _ _ => bind_hom_same _ fun _ _ => bind_hom_same _ fun _ _ => bind_hom storePair _ ?_ fun r _ => ?_
  · exact loop_hom storePair _ (fun i st _ => residualBody_store hf sqrt root m x b i st) (0, 0)
  · show Out.ok (sqrt (store (r.1 / (fusedFloats rnd fuse root).count x.length)), sqrt (store r.2)) =
      Out.ok (store (root (r.1 / (fusedFloats rnd fuse root).count x.length)), store (root r.2))
    rw [hr, hr]

theorem update_store (m : Sparse (Fused rnd fuse)) (x b : List (Fused rnd fuse)) (d : Conv (Fused rnd fuse) (Fused rnd fuse)) :
    update (floats rnd sqrt) (m.map store) (storeVec x) (storeVec b) (storeConv d) =
      storeConv <$> update (fusedFloats rnd fuse root) m x b d := by
  unfold update
  refine bind_hom storePair _ (residual_store hf sqrt root hr m x b) fun r _ => ?_
  show Out.ok _ = Out.ok _
  congr 1
  unfold storeConv
  have e1 : (if d.iteration = 0 then store r.1 else store d.residual0) = store (if d.iteration = 0 then r.1 else d.residual0) := by
    split <;> rfl
  have e2 : (if d.iteration = 0 then store r.2 else store d.residualMax0) = store (if d.iteration = 0 then r.2 else d.residualMax0) := by
    split <;> rfl
  dsimp only
  rw [e1, e2]
  rfl

theorem solveSystem_store (k : Method) (s : FixedPoint (Fused rnd fuse)) (m : Sparse (Fused rnd fuse)) (x b : List (Fused rnd fuse))
    (fuel : Nat) :
    solveSystem (floats rnd sqrt) k (storeFixed s) (m.map store) (storeVec x) (storeVec b) fuel =
      (fun r : List (Fused rnd fuse) × Conv (Fused rnd fuse) (Fused rnd fuse) × FixedPoint (Fused rnd fuse) =>
        (storeVec r.1, storeConv r.2.1, storeFixed r.2.2)) <$> solveSystem (fusedFloats rnd fuse root) k s m x b fuel := by
  have hi : ∀ w, iterate (floats rnd sqrt) k (storeFixed s) (m.map store) (storeVec b) fuel
      ((storeVec x, storeVec w), Iterative.Conv.new (floats rnd sqrt)) =
      (fun st : (List (Fused rnd fuse) × List (Fused rnd fuse)) × Conv (Fused rnd fuse) (Fused rnd fuse) => (storeBoth st.1, storeConv st.2)) <$>
        iterate (fusedFloats rnd fuse root) k s m b fuel ((x, w), Iterative.Conv.new (fusedFloats rnd fuse root)) := by
    intro w
    unfold iterate
    refine while_hom (fun st : (List (Fused rnd fuse) × List (Fused rnd fuse)) × Conv (Fused rnd fuse) (Fused rnd fuse) =>
      (storeBoth st.1, storeConv st.2)) (fun _ => True) (fun st => rfl) (fun st hst => ?_) (fun _ _ _ _ => trivial) fuel
      ((x, w), Iterative.Conv.new (fusedFloats rnd fuse root)) trivial
    exact bind_hom storeBoth _ (step_store hf sqrt root k s m b st.1) fun v _ =>
        bind_hom storeConv _ (update_store hf sqrt root hr m v.1 b st.2) fun d _ => rfl
  have hw : ∀ n, resizeList (storeVec s.working) n 0 = storeVec (resizeList s.working n 0) := fun n => resizeList_map store s.working n 0
  unfold solveSystem
  cases k
  · refine bind_hom (fun st : (List (Fused rnd fuse) × List (Fused rnd fuse)) × Conv (Fused rnd fuse) (Fused rnd fuse) =>
      (storeBoth st.1, storeConv st.2)) _ ?_ fun _ _ => rfl
    show iterate _ _ _ _ _ _ ((storeVec x, resizeList (storeVec s.working) m.sizeRow 0), _) = _
    rw [hw]
    exact hi _
  · exact bind_hom (fun st : (List (Fused rnd fuse) × List (Fused rnd fuse)) × Conv (Fused rnd fuse) (Fused rnd fuse) =>
      (storeBoth st.1, storeConv st.2)) _ (hi _) fun _ _ => rfl
  · exact bind_hom (fun st : (List (Fused rnd fuse) × List (Fused rnd fuse)) × Conv (Fused rnd fuse) (Fused rnd fuse) =>
      (storeBoth st.1, storeConv st.2)) _ (hi _) fun _ _ => rfl

end Disa.Props.Unfused
