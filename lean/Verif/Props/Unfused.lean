import Verif.Solver.Unfused

/-!
# Properties: the solvers with and without fused operations
-/

namespace Disa.Props

open Disa Spec Dense Sparse Num Lu Iterative Unfused

variable {rnd : ℚ → Fl} {fuse : Hist → Hist → Hist → Bool}

/-- C217: if nothing is fused then products of vectors, products of sparse matrices with vectors, factorisations and solutions are those of
C100 to C102. -/
theorem c217_unfused (hf : ∀ h k l, fuse h k l = false) (pivot static : Bool) (s : Lu (Fused rnd fuse)) (a : List (List (Fused rnd fuse)))
    (m : Sparse (Fused rnd fuse)) (x y : List (Fused rnd fuse)) (b : Option (List (Fused rnd fuse))) :
    dot (storeVec x) (storeVec y) = store <$> dot x y ∧
    mulVec static (m.map store) (storeVec x) = storeVec <$> mulVec static m x ∧
    factorise (Num.arith rnd) pivot (storeLu s) (storeMat a) =
      (fun r : Lu (Fused rnd fuse) × Bool => (storeLu r.1, r.2)) <$> factorise (Fused.arith rnd fuse) pivot s a ∧
    Lu.solve pivot (storeLu s) (storeVec x) (b.map storeVec) =
      (fun r : List (Fused rnd fuse) × Bool × Nat => (storeVec r.1, r.2)) <$> Lu.solve pivot s x b :=
  ⟨(hom hf).dot_map x y, (hom hf).mulVec_map static m x, factorise_store hf pivot s a, solve_store hf pivot s x b⟩

/-- C218: if nothing is fused then the solutions, the convergence data and the solvers afterwards are those of C109 and C110. -/
theorem c218_unfused (hf : ∀ h k l, fuse h k l = false) (sqrt : Num rnd → Num rnd) (root : Fused rnd fuse → Fused rnd fuse)
    (hr : ∀ x, store (root x) = sqrt (store x)) (k : Method) (s : FixedPoint (Fused rnd fuse)) (m : Sparse (Fused rnd fuse))
    (x b : List (Fused rnd fuse)) (fuel : Nat) :
    solveSystem (floats rnd sqrt) k (storeFixed s) (m.map store) (storeVec x) (storeVec b) fuel =
      (fun r : List (Fused rnd fuse) × Conv (Fused rnd fuse) (Fused rnd fuse) × FixedPoint (Fused rnd fuse) =>
        (storeVec r.1, storeConv r.2.1, storeFixed r.2.2)) <$> solveSystem (fusedFloats rnd fuse root) k s m x b fuel :=
  solveSystem_store hf sqrt root hr k s m x b fuel

/-- A square root of numbers with a history. -/
example (sqrt : Num rnd → Num rnd) : ∀ x : Fused rnd fuse, store (Fused.num (sqrt (store x)) (.op 6 x.hist x.hist) : Fused rnd fuse) = sqrt (store x) :=
  fun _ => rfl

/-- Nothing is fused. -/
example : ∀ h k l : Hist, (fun _ _ _ => false : Hist → Hist → Hist → Bool) h k l = false := fun _ _ _ => rfl

end Disa.Props
