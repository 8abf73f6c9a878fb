import Verif.Dense.Model
import Verif.Sparse.Model

/-!
# Changing the scalars

Functions between scalars that keep the operations can be applied before or after an operation on vectors and matrices.
-/

namespace Disa

variable {S T : Type}

theorem rd_map (f : S → T) (v : List S) (i : Nat) : rd (v.map f) i = f <$> rd v i := by
  unfold rd
  rw [List.getElem?_map]
  cases v[i]? <;> rfl

theorem wr_map (f : S → T) (v : List S) (i : Nat) (a : S) : wr (v.map f) i (f a) = List.map f <$> wr v i a := by
  unfold wr
  rw [List.length_map]
  split
  · simp [List.map_set]
  · rfl

/-- Loops whose bodies commute with a change of the state. -/
theorem loop_hom {σ τ : Type} (φ : σ → τ) {f : Nat → σ → Out σ} {g : Nat → τ → Out τ} (n : Nat) (h : ∀ i s, i < n → g i (φ s) = φ <$> f i s)
    (s : σ) : loop n g (φ s) = φ <$> loop n f s := by
  induction n with
  | zero => rfl
  | succ n ih =>
    unfold loop
    rw [ih fun i s hi => h i s (by omega)]
    cases loop n f s <;> first | rfl | exact h _ _ (by omega)

theorem mapOut_hom {β : Type} (φ : S → T) {f : β → Out S} {g : β → Out T} (h : ∀ i, g i = φ <$> f i) (l : List β) :
    mapOut g l = List.map φ <$> mapOut f l := by
  induction l with
  | nil => rfl
  | cons a l ih =>
    unfold mapOut
    rw [h, ih]
    cases f a <;> first | rfl | skip
    cases mapOut f l <;> rfl

theorem bind_hom {α β γ δ : Type} (φ : α → β) (ψ : γ → δ) {x : Out α} {y : Out β} {f : α → Out γ} {g : β → Out δ} (h : y = φ <$> x)
    (hf : ∀ a, x = .ok a → g (φ a) = ψ <$> f a) : (y >>= g) = ψ <$> (x >>= f) := by
  rw [h]
  cases x <;> first | rfl | exact hf _ rfl

theorem bind_hom_same {α γ δ : Type} (ψ : γ → δ) {x : Out α} {f : α → Out γ} {g : α → Out δ}
    (hf : ∀ a, x = .ok a → g a = ψ <$> f a) : (x >>= g) = ψ <$> (x >>= f) := by
  cases x <;> first | rfl | exact hf _ rfl

theorem resizeList_map (f : S → T) (v : List S) (n : Nat) (a : S) : resizeList (v.map f) n (f a) = (resizeList v n a).map f := by
  simp [resizeList, List.map_take]

/-- A function between scalars that keeps sums, differences and products. -/
structure Hom (f : S → T) [Zero S] [Add S] [Sub S] [Mul S] [Zero T] [Add T] [Sub T] [Mul T] : Prop where
  zero : f 0 = 0
  add : ∀ a b, f (a + b) = f a + f b
  sub : ∀ a b, f (a - b) = f a - f b
  mul : ∀ a b, f (a * b) = f a * f b

namespace Hom

variable [Zero S] [Add S] [Sub S] [Mul S] [Zero T] [Add T] [Sub T] [Mul T] {f : S → T} (hf : Hom f)
include hf

open Dense

/-! ### Vectors -/

theorem vecOf_map {s n : Nat} {a : Nat → Out S} {b : Nat → Out T} (h : ∀ i, b i = f <$> a i) :
    vecOf s b n = List.map f <$> vecOf s a n := by
  unfold vecOf
  exact bind_hom_same _ fun _ _ => mapOut_hom f h _

theorem vecList_map (s : Nat) (l : List S) : vecList s (l.map f) = List.map f <$> vecList s l := by
  unfold vecList
  rw [List.length_map]
  exact bind_hom_same _ fun _ _ => rfl

theorem dense_add (s t : Nat) (v w : List S) : Dense.add s t (v.map f) (w.map f) = List.map f <$> Dense.add s t v w := by
  unfold Dense.add
  rw [List.length_map, List.length_map]
  refine bind_hom_same _ fun _ _ => hf.vecOf_map fun i => ?_
  exact bind_hom f f (rd_map f v i) fun a _ => bind_hom f f (rd_map f w i) fun b _ => congrArg Out.ok (hf.add a b).symm

theorem dense_sub (s t : Nat) (v w : List S) : Dense.sub s t (v.map f) (w.map f) = List.map f <$> Dense.sub s t v w := by
  unfold Dense.sub
  rw [List.length_map, List.length_map]
  refine bind_hom_same _ fun _ _ => hf.vecOf_map fun i => ?_
  exact bind_hom f f (rd_map f v i) fun a _ => bind_hom f f (rd_map f w i) fun b _ => congrArg Out.ok (hf.sub a b).symm

/-- A reference to a scalar. -/
def ref {ι : Type} (f : S → T) : Ref ι S → Ref ι T
  | .val x => .val (f x)
  | .own i => .own i

omit hf [Zero S] [Add S] [Sub S] [Mul S] [Zero T] [Add T] [Sub T] [Mul T] in
theorem scaleBody_map {op : S → S → S} {op' : T → T → T} (h : ∀ a b, op' (f a) (f b) = f (op a b)) (r : Ref Nat S) (i : Nat) (v : List S) :
    scaleBody op' (ref f r) i (v.map f) = List.map f <$> scaleBody op r i v := by
  unfold scaleBody
  refine bind_hom f _ ?_ fun x _ => bind_hom f _ (rd_map f v i) fun a _ => ?_
  · cases r with
    | val x => rfl
    | own k => exact rd_map f v k
  · rw [h]
    exact wr_map f v i _

theorem mulScalar_map (v : List S) (r : Ref Nat S) : mulScalar (v.map f) (ref f r) = List.map f <$> mulScalar v r := by
  unfold mulScalar
  rw [List.length_map]
  exact loop_hom (List.map f) _ (fun i s _ => scaleBody_map (fun a b => (hf.mul a b).symm) r i s) v

theorem accBody_map {op : S → S → S} {op' : T → T → T} (h : ∀ a b, op' (f a) (f b) = f (op a b)) (o : Option (List S)) (i : Nat)
    (v : List S) : accBody op' (o.map (List.map f)) i (v.map f) = List.map f <$> accBody op o i v := by
  unfold accBody
  have ho : (o.map (List.map f)).getD (v.map f) = (o.getD v).map f := by cases o <;> rfl
  rw [ho]
  refine bind_hom f _ (rd_map f v i) fun a _ => bind_hom f _ (rd_map f _ i) fun b _ => ?_
  rw [h]
  exact wr_map f v i _

theorem addAssign_map (v : List S) (o : Option (List S)) :
    addAssign (v.map f) (o.map (List.map f)) = List.map f <$> addAssign v o := by
  unfold addAssign
  have ho : (o.map (List.map f)).getD (v.map f) = (o.getD v).map f := by cases o <;> rfl
  rw [ho, List.length_map, List.length_map]
  exact bind_hom_same _ fun _ _ => loop_hom (List.map f) _ (fun i s _ => hf.accBody_map (fun a b => (hf.add a b).symm) o i s) v

theorem subAssign_map (v : List S) (o : Option (List S)) :
    subAssign (v.map f) (o.map (List.map f)) = List.map f <$> subAssign v o := by
  unfold subAssign
  have ho : (o.map (List.map f)).getD (v.map f) = (o.getD v).map f := by cases o <;> rfl
  rw [ho, List.length_map, List.length_map]
  exact bind_hom_same _ fun _ _ => loop_hom (List.map f) _ (fun i s _ => hf.accBody_map (fun a b => (hf.sub a b).symm) o i s) v

theorem dot_map (v w : List S) : dot (v.map f) (w.map f) = f <$> dot v w := by
  unfold dot innerProduct
  rw [List.length_map, List.length_map]
  refine bind_hom_same _ fun _ _ => ?_
  split
  · rw [Out.map_ok, Out.ok.injEq, List.zip_map, List.foldl_map]
    have : ∀ (l : List (S × S)) (a : S), l.foldl (fun s p => s + (Prod.map f f p).1 * (Prod.map f f p).2) (f a) =
        f (l.foldl (fun s p => s + p.1 * p.2) a) := by
      intro l
      induction l with
      | nil => intro a; rfl
      | cons p l ih =>
        intro a
        rw [List.foldl_cons, List.foldl_cons, ← ih, hf.add, hf.mul]
        rfl
    rw [← this, hf.zero]
  · rfl

theorem cross_map (s t : Nat) (v w : List S) : cross s t (v.map f) (w.map f) = List.map f <$> cross s t v w := by
  unfold cross
  rw [List.length_map, List.length_map]
  refine bind_hom_same _ fun _ _ => bind_hom_same _ fun _ _ => ?_
  split
  · refine bind_hom f _ (rd_map f v 0) fun a _ => bind_hom f _ (rd_map f v 1) fun b _ => bind_hom f _ (rd_map f w 0) fun c _ =>
      bind_hom f _ (rd_map f w 1) fun d _ => ?_
    rw [← hf.vecList_map]
    simp [hf.zero, hf.sub, hf.mul]
  · refine bind_hom f _ (rd_map f v 0) fun a _ => bind_hom f _ (rd_map f v 1) fun b _ => bind_hom f _ (rd_map f v 2) fun c _ =>
      bind_hom f _ (rd_map f w 0) fun d _ => bind_hom f _ (rd_map f w 1) fun e _ => bind_hom f _ (rd_map f w 2) fun g _ => ?_
    rw [← hf.vecList_map]
    simp [hf.sub, hf.mul]

end Hom

/-! ### Matrices -/

/-- A matrix with other scalars. -/
def mapMat (f : S → T) (m : List (List S)) : List (List T) := m.map (List.map f)

theorem mapMat_length (f : S → T) (m : List (List S)) : (mapMat f m).length = m.length := List.length_map ..

theorem rd_mapMat (f : S → T) (m : List (List S)) (i : Nat) : rd (mapMat f m) i = List.map f <$> rd m i := rd_map _ _ _

theorem rd2_map (f : S → T) (m : List (List S)) (i j : Nat) : Dense.rd2 (mapMat f m) i j = f <$> Dense.rd2 m i j := by
  unfold Dense.rd2
  exact bind_hom (List.map f) _ (rd_map _ m i) fun r _ => rd_map f r j

theorem wr2_map (f : S → T) (m : List (List S)) (i j : Nat) (a : S) :
    Dense.wr2 (mapMat f m) i j (f a) = mapMat f <$> Dense.wr2 m i j a := by
  unfold Dense.wr2
  exact bind_hom (List.map f) _ (rd_map _ m i) fun r _ => bind_hom (List.map f) _ (wr_map f r j a) fun r' _ => wr_map _ m i r'

theorem sizeColumn_map (f : S → T) (m : List (List S)) : Dense.sizeColumn (mapMat f m) = Dense.sizeColumn m := by
  cases m <;> simp [mapMat, Dense.sizeColumn]

theorem sameSize_map (f : S → T) (a b : List (List S)) : Dense.sameSize (mapMat f a) (mapMat f b) = Dense.sameSize a b := by
  unfold Dense.sameSize
  rw [sizeColumn_map, sizeColumn_map, mapMat_length, mapMat_length]

theorem matOf_map (f : S → T) {d : Dims} {r c : Nat} {a : Nat → Nat → Out S} {b : Nat → Nat → Out T} (h : ∀ i j, b i j = f <$> a i j) :
    Dense.matOf d b r c = mapMat f <$> Dense.matOf d a r c := by
  unfold Dense.matOf
  exact bind_hom_same _ fun _ _ => mapOut_hom (List.map f) (fun i => mapOut_hom f (h i) _) _

namespace Hom

variable [Zero S] [Add S] [Sub S] [Mul S] [Zero T] [Add T] [Sub T] [Mul T] {f : S → T} (hf : Hom f)
include hf

open Dense

theorem matAdd_map (d e : Dims) (a b : List (List S)) : matAdd d e (mapMat f a) (mapMat f b) = mapMat f <$> matAdd d e a b := by
  unfold matAdd
  rw [sameSize_map, mapMat_length, sizeColumn_map]
  refine bind_hom_same _ fun _ _ => matOf_map f fun i j => ?_
  exact bind_hom f f (rd2_map f a i j) fun x _ => bind_hom f f (rd2_map f b i j) fun y _ => congrArg Out.ok (hf.add x y).symm

theorem matSub_map (d e : Dims) (a b : List (List S)) : matSub d e (mapMat f a) (mapMat f b) = mapMat f <$> matSub d e a b := by
  unfold matSub
  rw [sameSize_map, mapMat_length, sizeColumn_map]
  refine bind_hom_same _ fun _ _ => matOf_map f fun i j => ?_
  exact bind_hom f f (rd2_map f a i j) fun x _ => bind_hom f f (rd2_map f b i j) fun y _ => congrArg Out.ok (hf.sub x y).symm

theorem matMulScalar_map (m : List (List S)) (r : Ref (Nat × Nat) S) :
    matMulScalar (mapMat f m) (ref f r) = mapMat f <$> matMulScalar m r := by
  unfold matMulScalar
  rw [mapMat_length]
  refine loop_hom (mapMat f) _ (fun i m _ => ?_) m
  unfold scaleRow
  refine bind_hom (List.map f) _ (rd_map _ m i) fun v _ => ?_
  rw [List.length_map]
  refine loop_hom (mapMat f) _ (fun j m _ => ?_) m
  refine bind_hom f _ ?_ fun x _ => bind_hom f _ (rd2_map f m i j) fun a _ => ?_
  · cases r with
    | val x => rfl
    | own p => exact rd2_map f m p.1 p.2
  · show wr2 (mapMat f m) i j (f a * f x) = _
    rw [← hf.mul]
    exact wr2_map f m i j _

theorem matVec_map (r s : Nat) (m : List (List S)) (v : List S) :
    matVec r s (mapMat f m) (v.map f) = List.map f <$> matVec r s m v := by
  unfold matVec
  rw [sizeColumn_map, List.length_map]
  exact bind_hom_same _ fun _ _ => hf.vecOf_map fun i => bind_hom (List.map f) _ (rd_map _ m i) fun w _ => hf.dot_map w v

theorem mulElement_map (copy : List (List S)) (o : Option (List (List S))) (i k j : Nat) (t : List (List S)) :
    mulElement (mapMat f copy) (o.map (mapMat f)) i k j (mapMat f t) = mapMat f <$> mulElement copy o i k j t := by
  unfold mulElement
  refine bind_hom (mapMat f) _ ?_ fun t _ => ?_
  · split
    · rw [← hf.zero]
      exact wr2_map f t i j 0
    · rfl
  have ho : (o.map (mapMat f)).getD (mapMat f t) = mapMat f (o.getD t) := by cases o <;> rfl
  rw [ho]
  refine bind_hom f _ (rd2_map f copy i k) fun a _ => bind_hom f _ (rd2_map f _ k j) fun b _ => bind_hom f _ (rd2_map f t i j) fun x _ => ?_
  rw [← hf.mul, ← hf.add]
  exact wr2_map f t i j _

theorem mulAssign_map (fixed : Bool) (m : List (List S)) (o : Option (List (List S))) :
    mulAssign fixed (mapMat f m) (o.map (mapMat f)) = mapMat f <$> mulAssign fixed m o := by
  have ho : ∀ t, (o.map (mapMat f)).getD (mapMat f t) = mapMat f (o.getD t) := fun t => by cases o <;> rfl
  have hz : ∀ r c, zeros r c = mapMat f (zeros r c) := fun r c => by simp [zeros, mapMat, hf.zero]
  unfold mulAssign
  simp only [ho, sameSize_map, sizeColumn_map, mapMat_length]
  have key : loop (zeros m.length (if fixed then sizeColumn m else sizeColumn (o.getD m)) : List (List T)).length
      (Dense.mulRow (mapMat f m) (o.map (mapMat f))) (zeros m.length (if fixed then sizeColumn m else sizeColumn (o.getD m))) =
      mapMat f <$> loop (zeros m.length (if fixed then sizeColumn m else sizeColumn (o.getD m)) : List (List S)).length
      (Dense.mulRow m o) (zeros m.length (if fixed then sizeColumn m else sizeColumn (o.getD m))) := by
    rw [hz, mapMat_length]
    refine loop_hom (mapMat f) _ (fun i t _ => ?_) _
    unfold Dense.mulRow
    rw [ho, mapMat_length]
    refine loop_hom (mapMat f) _ (fun k t _ => ?_) _
    rw [sizeColumn_map]
    exact loop_hom (mapMat f) _ (fun j t _ => hf.mulElement_map m o i k j t) _
  rw [key]
  split
  · exact bind_hom_same _ fun _ _ => rfl
  · exact bind_hom_same _ fun _ _ => rfl

theorem matMul_map (d e : Dims) (a b : List (List S)) : matMul d e (mapMat f a) (mapMat f b) = mapMat f <$> matMul d e a b := by
  unfold matMul
  rw [sizeColumn_map, mapMat_length, mapMat_length]
  refine bind_hom_same _ fun _ _ => bind_hom (mapMat f) _ (matOf_map f fun i j => rd2_map f a i j) fun t _ => ?_
  exact hf.mulAssign_map _ t (some b)

end Hom

/-! ### Sparse matrices -/

namespace Sparse

/-- A sparse matrix with other scalars. -/
def map (f : S → T) (m : Sparse S) : Sparse T := ⟨m.off, m.cols, m.vals.map f, m.colSize⟩

theorem ptr_map (f : S → T) (m : Sparse S) (p : Nat) : (m.map f).ptr p = m.ptr p := by
  unfold ptr map
  rw [List.length_map]

theorem rowBegin_map (f : S → T) (m : Sparse S) (i : Nat) : (m.map f).rowBegin i = m.rowBegin i := by
  unfold rowBegin
  simp only [ptr_map]
  rfl

theorem rowEnd_map (f : S → T) (m : Sparse S) (i : Nat) : (m.map f).rowEnd i = m.rowEnd i := by
  unfold rowEnd
  simp only [ptr_map]
  rfl

theorem valAt_map (f : S → T) (m : Sparse S) (it : Iter) : (m.map f).valAt it = f <$> m.valAt it := rd_map ..

theorem find_map (f : S → T) (m : Sparse S) (i j : Nat) : (m.map f).find i j = m.find i j := by
  unfold find
  simp only [ptr_map, rowEnd_map]
  rfl

theorem contains_map (f : S → T) (m : Sparse S) (i j : Nat) : (m.map f).contains i j = m.contains i j := by
  unfold contains
  simp only [find_map, rowEnd_map]

theorem get_map (f : S → T) (m : Sparse S) (i j : Nat) : (m.map f).get i j = f <$> m.get i j := by
  unfold get
  simp only [contains_map, find_map]
  exact bind_hom_same _ fun _ _ => bind_hom_same _ fun _ _ => bind_hom_same _ fun _ _ => bind_hom_same _ fun it _ => valAt_map f m it

end Sparse

namespace Hom

variable [Zero S] [Add S] [Sub S] [Mul S] [Zero T] [Add T] [Sub T] [Mul T] {f : S → T} (hf : Hom f)
include hf

theorem rowDot_map (m : Sparse S) (x : List S) (i : Nat) : (m.map f).rowDot (x.map f) i = f <$> m.rowDot x i := by
  unfold Sparse.rowDot
  rw [Sparse.rowBegin_map, Sparse.rowEnd_map]
  refine bind_hom_same _ fun s _ => bind_hom_same _ fun e _ => ?_
  conv_lhs => rw [← hf.zero]
  refine loop_hom f _ (fun k a _ => ?_) 0
  refine bind_hom f _ (Sparse.valAt_map f m _) fun v _ => bind_hom_same f fun c _ => bind_hom f _ (rd_map f x c) fun b _ => ?_
  exact congrArg Out.ok (by rw [hf.add, hf.mul])

theorem mulVec_map (static : Bool) (m : Sparse S) (x : List S) :
    (m.map f).mulVec static (x.map f) = List.map f <$> m.mulVec static x := by
  unfold Sparse.mulVec
  rw [List.length_map]
  exact bind_hom_same _ fun _ _ => bind_hom_same _ fun _ _ => mapOut_hom f (hf.rowDot_map m x) _

end Hom
end Disa
