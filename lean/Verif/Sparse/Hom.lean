import Verif.Dense.Hom

/-!
# Changing the scalars of sparse matrices
-/

namespace Disa

variable {S T : Type}

theorem cut_map (f : S → T) (v : List S) (b e : Nat) : cut (v.map f) b e = (cut v b e).map f := by
  simp [cut, List.map_take, List.map_drop]

theorem insAt_map (f : S → T) (v : List S) (p : Nat) (a : S) : insAt (v.map f) p (f a) = (insAt v p a).map f := by
  simp [insAt, List.map_take, List.map_drop]

namespace Sparse

/-- The first part of a result is a matrix. -/
def mapFst {β : Type} (f : S → T) (r : Sparse S × β) : Sparse T × β := (r.1.map f, r.2)

theorem lowerBound_map (f : S → T) (m : Sparse S) (i j : Nat) : (m.map f).lowerBound i j = m.lowerBound i j := by
  unfold lowerBound
  simp only [ptr_map, rowEnd_map]
  rfl

theorem setAt_map (f : S → T) (m : Sparse S) (it : Iter) (v : S) : (m.map f).setAt it (f v) = map f <$> m.setAt it v := by
  unfold setAt
  exact bind_hom (List.map f) _ (wr_map f m.vals it.2 v) fun _ _ => rfl

theorem resizeBody_map (f : S → T) (c i : Nat) (st : Sparse S × Nat) :
    resizeBody c i (mapFst f st) = mapFst f <$> resizeBody c i st := by
  unfold resizeBody
  refine bind_hom_same _ fun e0 _ => bind_hom_same _ fun b _ => bind_hom_same _ fun r _ => bind_hom_same _ fun k _ => ?_
  show (if (b + k == usub e0 st.2) = true then _ else if usub e0 st.2 ≤ (st.1.vals.map f).length then _ else _) = _
  rw [List.length_map]
  split
  · exact bind_hom_same _ fun _ _ => rfl
  · split
    · refine bind_hom_same _ fun off _ => ?_
      show Out.ok ((⟨off, _, cut (st.1.vals.map f) _ _, _⟩ : Sparse T), _) = _
      rw [cut_map]
      rfl
    · rfl

variable [Zero S] [Zero T]

theorem resize_map (f : S → T) (h0 : f 0 = 0) (m : Sparse S) (r c : Nat) : (m.map f).resize r c = map f <$> m.resize r c := by
  unfold resize
  refine bind_hom (map f) _ ?_ fun m' _ => bind_hom (map f) _ ?_ fun _ _ => rfl
  · show (if r < m.sizeRow then _ else _) = _
    split
    · refine bind_hom_same _ fun o _ => ?_
      show Out.ok (⟨_, _, resizeList (m.vals.map f) o 0, _⟩ : Sparse T) = _
      rw [← h0, resizeList_map]
      rfl
    · rfl
  · show (if c < m'.colSize then _ else _) = _
    split
    · refine bind_hom (mapFst f) _ ?_ fun _ _ => rfl
      exact loop_hom (mapFst f) _ (fun i st _ => resizeBody_map f c i st)
        ((⟨_, m'.cols, m'.vals, m'.colSize⟩ : Sparse S), 0)
    · rfl

omit [Zero S] [Zero T] in
theorem insertCore_map (f : S → T) (m : Sparse S) (i j : Nat) (v : S) :
    (m.map f).insertCore i j (f v) = mapFst f <$> m.insertCore i j v := by
  unfold insertCore
  rw [lowerBound_map, rowEnd_map]
  refine bind_hom_same _ fun it _ => bind_hom_same _ fun _ _ => bind_hom_same _ fun e _ => bind_hom_same _ fun new _ => ?_
  split
  · show Out.ok ((⟨_, _, insAt (m.vals.map f) it.2 (f v), _⟩ : Sparse T), _) = _
    rw [insAt_map]
    rfl
  · rfl

theorem insert_map (f : S → T) (h0 : f 0 = 0) (m : Sparse S) (i j : Nat) (v : S) :
    (m.map f).insert i j (f v) = mapFst f <$> m.insert i j v := by
  unfold insert
  refine bind_hom (map f) _ ?_ fun m _ => bind_hom (map f) _ ?_ fun m _ => insertCore_map f m i j v
  · show (if i ≥ m.sizeRow then _ else _) = _
    split
    · exact resize_map f h0 m _ _
    · rfl
  · show (if j ≥ m.colSize then _ else _) = _
    split
    · exact resize_map f h0 m _ _
    · rfl

theorem insertOrAssign_map (f : S → T) (h0 : f 0 = 0) (m : Sparse S) (i j : Nat) (v : S) :
    (m.map f).insertOrAssign i j (f v) = mapFst f <$> m.insertOrAssign i j v := by
  unfold insertOrAssign
  refine bind_hom (mapFst f) _ (insert_map f h0 m i j v) fun r _ => ?_
  obtain ⟨m, it, b⟩ := r
  cases b
  · exact bind_hom (map f) (mapFst f) (setAt_map f m it v) fun _ _ => rfl
  · rfl

theorem ref_map (f : S → T) (h0 : f 0 = 0) (m : Sparse S) (i j : Nat) : (m.map f).ref i j = mapFst f <$> m.ref i j := by
  unfold ref
  rw [lowerBound_map, rowEnd_map]
  refine bind_hom_same _ fun _ _ => bind_hom_same _ fun it _ => bind_hom_same _ fun e _ => bind_hom_same _ fun absent _ => ?_
  refine bind_hom (mapFst f) _ ?_ fun r _ => ?_
  · split
    · rw [← h0]
      exact bind_hom (mapFst f) _ (insert_map f h0 m i j 0) fun _ _ => rfl
    · rfl
  · exact bind_hom f _ (valAt_map f r.1 r.2) fun _ _ => rfl

theorem addAt_map [Add S] [Add T] (f : S → T) (h0 : f 0 = 0) (ha : ∀ a b, f (a + b) = f a + f b) (m : Sparse S) (i j : Nat) (v : S) :
    (m.map f).addAt i j (f v) = map f <$> m.addAt i j v := by
  unfold addAt
  refine bind_hom (mapFst f) _ (ref_map f h0 m i j) fun r _ => bind_hom f _ (valAt_map f r.1 r.2) fun x _ => ?_
  rw [← ha]
  exact setAt_map f _ _ _

omit [Zero S] [Zero T] in
theorem operand_map (f : S → T) (o : Option (Sparse S)) (m : Sparse S) : operand (o.map (map f)) (m.map f) = (operand o m).map f := by
  cases o <;> rfl

section
variable [Add S] [Neg S] [Add T] [Neg T]

omit [Zero S] [Zero T] [Add S] [Add T] in
theorem signed_map (f : S → T) (hn : ∀ a, f (-a) = -f a) (isAdd : Bool) (v : S) : signed isAdd (f v) = f (signed isAdd v) := by
  unfold signed
  split
  · rfl
  · exact (hn v).symm

theorem mergeStep_map (f : S → T) (h0 : f 0 = 0) (ha : ∀ a b, f (a + b) = f a + f b) (hn : ∀ a, f (-a) = -f a) (isAdd : Bool)
    (o : Option (Sparse S)) (i : Nat) (st : Sparse S × Iter × Iter) :
    mergeStep isAdd (o.map (map f)) i (mapFst f st) = mapFst f <$> mergeStep isAdd o i st := by
  obtain ⟨m, p, q⟩ := st
  show mergeStep isAdd (o.map (map f)) i (m.map f, p, q) = _
  unfold mergeStep
  simp only [operand_map, rowEnd_map]
  refine bind_hom_same _ fun e _ => bind_hom_same _ fun cq _ => bind_hom_same _ fun c _ => ?_
  split
  · refine bind_hom f _ (valAt_map f _ q) fun v _ => ?_
    rw [signed_map f hn]
    exact bind_hom (mapFst f) _ (insert_map f h0 m _ _ _) fun _ _ => rfl
  · split
    · rfl
    · refine bind_hom f _ (valAt_map f m p) fun x _ => bind_hom f _ (valAt_map f _ q) fun v _ => ?_
      rw [signed_map f hn, ← ha]
      exact bind_hom (map f) _ (setAt_map f m p _) fun _ _ => rfl

theorem mergeLoop_map (f : S → T) (h0 : f 0 = 0) (ha : ∀ a b, f (a + b) = f a + f b) (hn : ∀ a, f (-a) = -f a) (isAdd : Bool)
    (o : Option (Sparse S)) (i : Nat) (fuel : Nat) (st : Sparse S × Iter × Iter) :
    mergeLoop isAdd (o.map (map f)) i fuel (mapFst f st) = map f <$> mergeLoop isAdd o i fuel st := by
  induction fuel generalizing st with
  | zero => rfl
  | succ fuel ih =>
    unfold mergeLoop
    show ((operand (o.map (map f)) (st.1.map f)).rowEnd i >>= _) = _
    rw [operand_map, rowEnd_map]
    refine bind_hom_same _ fun e _ => ?_
    show (if (st.2.2 != e) = true then _ else _) = _
    split
    · exact bind_hom (mapFst f) _ (mergeStep_map f h0 ha hn isAdd o i st) fun st' _ => ih st'
    · rfl

theorem arith_map (f : S → T) (h0 : f 0 = 0) (ha : ∀ a b, f (a + b) = f a + f b) (hn : ∀ a, f (-a) = -f a) (isAdd : Bool) (m : Sparse S)
    (o : Option (Sparse S)) : arith isAdd (m.map f) (o.map (map f)) = map f <$> arith isAdd m o := by
  unfold arith
  simp only [operand_map]
  refine bind_hom_same _ fun _ _ => loop_hom (map f) _ (fun i m _ => ?_) m
  unfold mergeRow
  rw [operand_map, rowBegin_map, rowBegin_map]
  exact bind_hom_same _ fun p _ => bind_hom_same _ fun q _ => mergeLoop_map f h0 ha hn isAdd o i _ (m, p, q)

end

theorem mul_map [Add S] [Sub S] [Mul S] [Add T] [Sub T] [Mul T] {f : S → T} (hf : Hom f) (m : Sparse S) (o : Option (Sparse S)) :
    mul (m.map f) (o.map (map f)) = map f <$> mul m o := by
  unfold mul
  simp only [operand_map]
  refine bind_hom_same _ fun _ _ => bind_hom (map f) _ (resize_map f hf.zero new _ _) fun fresh _ => loop_hom (map f) _ (fun i r _ => ?_) fresh
  unfold mulRow
  rw [rowBegin_map, rowEnd_map]
  refine bind_hom_same _ fun s _ => bind_hom_same _ fun e _ => loop_hom (map f) _ (fun k r _ => ?_) r
  unfold mulElem
  simp only [operand_map, rowBegin_map, rowEnd_map]
  refine bind_hom_same _ fun c _ => bind_hom_same _ fun s _ => bind_hom_same _ fun e _ => loop_hom (map f) _ (fun k r _ => ?_) r
  unfold mulStep
  simp only [operand_map, contains_map]
  refine bind_hom_same _ fun j _ => bind_hom f _ (valAt_map f m _) fun x _ => bind_hom f _ (valAt_map f _ _) fun y _ =>
    bind_hom_same _ fun has _ => ?_
  rw [← hf.mul]
  split
  · exact addAt_map f hf.zero hf.add r _ _ _
  · exact bind_hom (mapFst f) _ (insert_map f hf.zero r _ _ _) fun _ _ => rfl

theorem scale_map [Add S] [Sub S] [Mul S] [Add T] [Sub T] [Mul T] {f : S → T} (hf : Hom f) (m : Sparse S) (a : S) :
    (m.map f).scale (f a) = (m.scale a).map f := by
  unfold scale map
  simp [hf.mul]

end Sparse
end Disa
