import Verif.Dense.Vec

/-!
# Calls on dense matrices
-/

namespace Disa.Dense

open Disa Spec

variable {α : Type}

@[simp] theorem mat_length {r c : Nat} (M : Fin r → Fin c → α) : (mat M).length = r := by simp [mat]

theorem mat_inj {r c : Nat} {M N : Fin r → Fin c → α} : mat M = mat N ↔ M = N := by
  unfold mat
  rw [List.ofFn_inj]
  constructor
  · intro h
    funext i
    exact List.ofFn_inj.mp (congrFun h i)
  · rintro rfl; rfl

theorem mat_eq_vec {r c : Nat} (M : Fin r → Fin c → α) : mat M = vec fun i => vec (M i) := rfl

theorem sizeColumn_mat {r c : Nat} (h : r = 0 → c = 0) (M : Fin r → Fin c → α) : sizeColumn (mat M) = c := by
  cases r with
  | zero => simpa [mat, sizeColumn] using (h rfl).symm
  | succ r => simp [mat, sizeColumn, List.ofFn_succ]

theorem sizeColumn_pos {r c : Nat} (h : 0 < r) (M : Fin r → Fin c → α) : sizeColumn (mat M) = c :=
  sizeColumn_mat (by omega) M

theorem sizedMat_none {d : Dims} {r c : Nat} (h : SizedMat d r c) : r = 0 → c = 0 := by
  intro h0
  cases d with
  | none => exact h h0
  | some p => exact absurd h0 h.2.2.1

theorem rd_mat {r c i : Nat} (M : Fin r → Fin c → α) (hi : i < r) : rd (mat M) i = .ok (vec (M ⟨i, hi⟩)) := by
  rw [mat_eq_vec, rd_vec _ hi]

theorem rd2_mat {r c i j : Nat} (M : Fin r → Fin c → α) (hi : i < r) (hj : j < c) :
    rd2 (mat M) i j = .ok (M ⟨i, hi⟩ ⟨j, hj⟩) := by
  simp [rd2, rd_mat _ hi, rd_vec _ hj]

theorem wr2_mat {r c i j : Nat} (M : Fin r → Fin c → α) (hi : i < r) (hj : j < c) (a : α) :
    wr2 (mat M) i j a = .ok (mat fun i' j' => if i'.1 = i ∧ j'.1 = j then a else M i' j') := by
  simp only [wr2, rd_mat _ hi, wr_vec _ hj, Out.ok_bind]
  rw [mat_eq_vec, wr_vec _ hi]
  congr 1
  rw [mat_eq_vec]
  congr 1
  funext i'
  by_cases h : i'.1 = i
  · have : i' = ⟨i, hi⟩ := Fin.ext h
    subst this
    simp
  · simp [h]

theorem zeros_eq [Zero α] (r c : Nat) : zeros r c = mat (0 : Fin r → Fin c → α) := by
  unfold zeros mat
  apply List.ext_getElem
  · simp
  · intro i h1 h2
    simp only [List.getElem_replicate, List.getElem_ofFn]
    apply List.ext_getElem
    · simp
    · intro j h3 h4
      simp

/-- Every rectangular list of rows is a matrix. -/
theorem mat_of_rows {l : List (List α)} {c : Nat} (h : ∀ r ∈ l, r.length = c) :
    ∃ M : Fin l.length → Fin c → α, l = mat M := by
  refine ⟨fun i j => (l[i.1])[j.1]'(by rw [h _ (List.getElem_mem _)]; exact j.2), ?_⟩
  unfold mat
  apply List.ext_getElem
  · simp
  · intro i h1 h2
    rw [List.getElem_ofFn]
    apply List.ext_getElem
    · simp [h _ (List.getElem_mem h1)]
    · intro j h3 h4
      simp

/-! ### Construction -/

theorem matOf_ok {d : Dims} {r c : Nat} (hd : SizedMat d r c) {f : Nat → Nat → Out α} (M : Fin r → Fin c → α)
    (h : ∀ (i : Fin r) (j : Fin c), f i j = .ok (M i j)) : matOf d f r c = .ok (mat M) := by
  unfold matOf
  have key : mapOut (fun i => mapOut (f i) (List.range c)) (List.range r) = .ok (mat M) :=
    mapOut_range _ (fun i => mapOut_range _ (h i))
  cases d with
  | none => simpa using key
  | some p => simpa [hd.1, hd.2.1] using key

theorem matList_dynamic [Zero α] {r c : Nat} (hr : r = 0 → c = 0) (M : Fin r → Fin c → α) :
    matList none (mat M) = .ok (mat M) := by
  unfold matList
  refine mapOut_vec _ _ _ (fun i => ?_)
  simp [sizeColumn_mat hr]

theorem matList_dynamic_exit [Zero α] {l : List (List α)} (h : ∃ v ∈ l, v.length ≠ sizeColumn l) :
    matList none l = .exit 1 := by
  unfold matList
  simp only
  generalize hc : sizeColumn l = c at h ⊢
  clear hc
  induction l with
  | nil => obtain ⟨v, hv, _⟩ := h; simp at hv
  | cons a l ih =>
    by_cases ha : a.length = c
    · obtain ⟨v, hv, hne⟩ := h
      have hv' : v ∈ l := by
        rcases List.mem_cons.mp hv with rfl | h
        · exact absurd ha hne
        · exact h
      unfold mapOut
      rw [ih ⟨v, hv', hne⟩, show (a.length == c) = true by simpa using ha]
      rfl
    · unfold mapOut
      rw [show (a.length == c) = false by simpa using ha]
      rfl

theorem matResize_ok [Zero α] (m : List (List α)) (r c : Nat) :
    matResize m r c = mat (fun (i : Fin r) (j : Fin c) => ((m[i.1]?).bind (·[j.1]?)).getD 0) := by
  unfold matResize mat
  apply List.ext_getElem
  · simp [resizeList]; omega
  · intro i h1 h2
    rw [List.getElem_map, List.getElem_ofFn]
    have hi : i < r := by simpa using h2
    have hrow : (resizeList m r [])[i]'(by simpa using h1) = (m[i]?).getD [] := by
      unfold resizeList
      by_cases hm : i < m.length
      · rw [List.getElem_append_left (by simp; omega)]; simp [hm]
      · rw [List.getElem_append_right (by simp; omega)]; simp [Nat.le_of_not_lt hm]
    rw [hrow]
    apply List.ext_getElem
    · simp [resizeList]; omega
    · intro j h3 h4
      have hj : j < c := by simpa using h4
      simp only [List.getElem_ofFn]
      generalize m[i]? = o at h3 ⊢
      unfold resizeList
      cases o with
      | none => simp
      | some v =>
        simp only [Option.getD_some, Option.bind_some]
        by_cases hv : j < v.length
        · rw [List.getElem_append_left (by simp; omega)]; simp [hv]
        · rw [List.getElem_append_right (by simp; omega)]; simp [Nat.le_of_not_lt hv]

/-! ### Sums -/

theorem accRow_some {r c : Nat} {f : List α → Option (List α) → Out (List α)} {op : α → α → α}
    (hf : ∀ x y : Fin c → α, f (vec x) (some (vec y)) = .ok (vec fun i => op (x i) (y i))) (M N : Fin r → Fin c → α) :
    loop r (accRow f (some (mat N))) (mat M) = .ok (mat fun i j => op (M i j) (N i j)) := by
  rw [mat_eq_vec M, mat_eq_vec (fun i j => op (M i j) (N i j))]
  apply loop_vec
  intro i hi
  simp [accRow, rd_vec _ hi, rd_mat _ hi, hf]

theorem accRow_none {r c : Nat} {f : List α → Option (List α) → Out (List α)} {op : α → α → α}
    (hf : ∀ x : Fin c → α, f (vec x) none = .ok (vec fun i => op (x i) (x i))) (M : Fin r → Fin c → α) :
    loop r (accRow f none) (mat M) = .ok (mat fun i j => op (M i j) (M i j)) := by
  rw [mat_eq_vec M, mat_eq_vec (fun i j => op (M i j) (M i j))]
  apply loop_vec
  intro i hi
  simp [accRow, rd_vec _ hi, hf]

theorem sameSize_mat {r c r' c' : Nat} (h : r = 0 → c = 0) (h' : r' = 0 → c' = 0) (M : Fin r → Fin c → α)
    (N : Fin r' → Fin c' → α) : sameSize (mat M) (mat N) = (r == r' && c == c') := by
  simp [sameSize, sizeColumn_mat h, sizeColumn_mat h']

theorem sameSize_self (m : List (List α)) : sameSize m m = true := by simp [sameSize]

theorem sameSize_eq {r c : Nat} (M N : Fin r → Fin c → α) : sameSize (mat M) (mat N) = true := by
  cases r with
  | zero => simp [sameSize, mat]
  | succ r => rw [sameSize_mat (by omega) (by omega)]; simp

theorem matAddAssign_ok [Add α] {r c : Nat} (M N : Fin r → Fin c → α) :
    matAddAssign (mat M) (some (mat N)) = .ok (mat (M + N)) := by
  simp only [matAddAssign, Option.getD, sameSize_eq, assert_true, Out.ok_bind, mat_length]
  exact accRow_some (op := (· + ·)) (fun x y => addAssign_ok x y) M N

theorem matAddAssign_self [Add α] {r c : Nat} (M : Fin r → Fin c → α) :
    matAddAssign (mat M) none = .ok (mat (M + M)) := by
  simp only [matAddAssign, Option.getD, sameSize_self, assert_true, Out.ok_bind, mat_length]
  exact accRow_none (op := (· + ·)) (fun x => addAssign_self x) M

theorem matSubAssign_ok [Sub α] {r c : Nat} (M N : Fin r → Fin c → α) :
    matSubAssign (mat M) (some (mat N)) = .ok (mat (M - N)) := by
  simp only [matSubAssign, Option.getD, sameSize_eq, assert_true, Out.ok_bind, mat_length]
  exact accRow_some (op := (· - ·)) (fun x y => subAssign_ok x y) M N

theorem matSubAssign_self [Sub α] {r c : Nat} (M : Fin r → Fin c → α) :
    matSubAssign (mat M) none = .ok (mat (M - M)) := by
  simp only [matSubAssign, Option.getD, sameSize_self, assert_true, Out.ok_bind, mat_length]
  exact accRow_none (op := (· - ·)) (fun x => subAssign_self x) M

theorem matAdd_ok [Add α] {d e : Dims} {r c : Nat} (hd : SizedMat d r c) (he : SizedMat e r c) (M N : Fin r → Fin c → α) :
    matAdd d e (mat M) (mat N) = .ok (mat (M + N)) := by
  unfold matAdd
  simp only [sameSize_eq, assert_true, Out.ok_bind, mat_length, sizeColumn_mat (sizedMat_none hd)]
  refine matOf_ok ?_ _ (fun i j => by simp [rd2_mat _ i.2 j.2])
  cases d <;> assumption

theorem matSub_ok [Sub α] {d e : Dims} {r c : Nat} (hd : SizedMat d r c) (he : SizedMat e r c) (M N : Fin r → Fin c → α) :
    matSub d e (mat M) (mat N) = .ok (mat (M - N)) := by
  unfold matSub
  simp only [sameSize_eq, assert_true, Out.ok_bind, mat_length, sizeColumn_mat (sizedMat_none hd)]
  refine matOf_ok ?_ _ (fun i j => by simp [rd2_mat _ i.2 j.2])
  cases d <;> assumption

/-! ### Scalars -/

/-- The element at `(i, j)` comes before the one at `(k, l)`, or is the same. -/
def upTo {r c : Nat} (p : Fin r × Fin c) (i : Fin r) (j : Fin c) : Bool := i < p.1 || (i == p.1 && j ≤ p.2)

/-- A loop over the elements that computes them one by one, row by row. -/
theorem loop_mat {r c : Nat} {body : Nat → Nat → List (List α) → Out (List (List α))} (M N : Fin r → Fin c → α)
    (h : ∀ (i : Fin r) (j : Fin c) (t : Fin r → Fin c → α),
      t = (fun i' j' => if i' < i ∨ (i' = i ∧ j' < j) then N i' j' else M i' j') →
      body i j (mat t) = wr2 (mat t) i j (N i j)) :
    loop r (fun i m => do
      let row ← rd m i
      loop row.length (body i) m) (mat M) = .ok (mat N) := by
  obtain ⟨s, h1, h2⟩ := loop_inv (body := fun i m => do
      let row ← rd m i
      loop row.length (body i) m) (n := r) (s := mat M)
    (fun i s => s = mat fun i' j' => if i'.1 < i then N i' j' else M i' j') (by simp) (by
      rintro i s hi rfl
      simp only [rd_mat _ hi, Out.ok_bind, vec_length]
      obtain ⟨s, h1, h2⟩ := loop_inv (body := body i) (n := c)
        (s := mat fun i' j' => if i'.1 < i then N i' j' else M i' j')
        (fun j s => s = mat fun i' j' => if i'.1 < i ∨ (i'.1 = i ∧ j'.1 < j) then N i' j' else M i' j') (by simp) (by
          rintro j s hj rfl
          refine ⟨_, (h ⟨i, hi⟩ ⟨j, hj⟩ _ ?_).trans (wr2_mat _ hi hj _), ?_⟩
          · funext i' j'
            simp only [Fin.lt_def, Fin.ext_iff]
          · congr 1
            funext i' j'
            by_cases h1 : i'.1 = i ∧ j'.1 = j
            · rw [if_pos h1, if_pos (by omega)]
              rw [show i' = ⟨i, hi⟩ from Fin.ext h1.1, show j' = ⟨j, hj⟩ from Fin.ext h1.2]
            · rw [if_neg h1]
              by_cases h2 : i'.1 < i ∨ (i'.1 = i ∧ j'.1 < j)
              · rw [if_pos h2, if_pos (by omega)]
              · rw [if_neg h2, if_neg (by omega)])
      refine ⟨s, h1, h2.trans ?_⟩
      congr 1
      funext i' j'
      have := j'.2
      by_cases h3 : i'.1 < i + 1
      · rw [if_pos (by omega), if_pos h3]
      · rw [if_neg (by omega), if_neg h3])
  rw [h1, h2]
  congr 2
  funext i j
  rw [if_pos i.2]

theorem matScale_val {r c : Nat} (op : α → α → α) (M : Fin r → Fin c → α) (a : α) :
    loop r (scaleRow op (.val a)) (mat M) = .ok (mat fun i j => op (M i j) a) := by
  refine loop_mat M _ (fun i j t ht => ?_)
  simp only [rd2_mat _ i.2 j.2, Out.ok_bind, Out.pure_eq]
  congr 1
  simp [ht]

theorem matScale_own {r c : Nat} (op : α → α → α) (M : Fin r → Fin c → α) (k : Fin r) (l : Fin c) :
    loop r (scaleRow op (.own (k.1, l.1))) (mat M) =
      .ok (mat fun i j => op (M i j) (if upTo (k, l) i j then M k l else op (M k l) (M k l))) := by
  refine loop_mat M _ (fun i j t ht => ?_)
  simp only [rd2_mat _ i.2 j.2, rd2_mat _ k.2 l.2, Out.ok_bind]
  congr 1
  have h1 : t i j = M i j := by simp [ht]
  have h2 : t k l = if upTo (k, l) i j then M k l else op (M k l) (M k l) := by
    rw [ht]
    show (if k < i ∨ k = i ∧ l < j then op (M k l) (if upTo (k, l) k l then M k l else op (M k l) (M k l)) else M k l) = _
    by_cases h : upTo (k, l) i j = true
    · rw [if_pos h, if_neg]
      simp only [upTo, Bool.or_eq_true, Bool.and_eq_true, decide_eq_true_eq, beq_iff_eq] at h
      intro h'
      simp only [Fin.lt_def, Fin.le_def, Fin.ext_iff] at h h'
      omega
    · rw [if_neg h, if_pos]
      · rw [if_pos]
        simp [upTo]
      · simp only [upTo, Bool.or_eq_true, Bool.and_eq_true, decide_eq_true_eq, beq_iff_eq] at h
        simp only [Fin.lt_def, Fin.le_def, Fin.ext_iff] at h ⊢
        omega
  rw [← h1, ← h2]

/-! ### Products -/

theorem matVec_ok [NonUnitalNonAssocSemiring α] {row s r c : Nat} (hs : Sized (promote row s) c) (hr : r = 0 → c = 0)
    (hrc : c ≤ r) (M : Fin r → Fin c → α) (x : Fin c → α) :
    matVec row s (mat M) (vec x) = .ok (vec fun i : Fin c => M ⟨i.1, by omega⟩ ⬝ᵥ x) := by
  unfold matVec
  simp only [sizeColumn_mat hr, vec_length, beq_self_eq_true, assert_true, Out.ok_bind]
  refine vecOf_ok hs _ (fun i => ?_)
  rw [rd_mat _ (show i.1 < r by omega), Out.ok_bind, dot_ok]

theorem matVec_ub [NonUnitalNonAssocSemiring α] {row s r c : Nat} (hs : Sized (promote row s) c) (hr : r = 0 → c = 0)
    (hrc : r < c) (M : Fin r → Fin c → α) (x : Fin c → α) : matVec row s (mat M) (vec x) = .ub := by
  unfold matVec vecOf
  simp only [sizeColumn_mat hr, vec_length, beq_self_eq_true, assert_true, Out.ok_bind, sized_bool.mpr hs]
  refine mapOut_range_ub (k := r) hrc (fun i hi => ?_) ?_
  · rw [rd_mat _ hi, Out.ok_bind, dot_ok]
    exact ⟨_, rfl⟩
  · rw [rd_ub (by simp)]; rfl

theorem matVec_fixed_exit [NonUnitalNonAssocSemiring α] {row s r c : Nat} (hs : ¬ Sized (promote row s) c) (hr : r = 0 → c = 0)
    (M : Fin r → Fin c → α) (x : Fin c → α) : matVec row s (mat M) (vec x) = .exit 1 := by
  unfold matVec
  simp only [sizeColumn_mat hr, vec_length, beq_self_eq_true, assert_true, Out.ok_bind]
  exact vecOf_exit hs

/-- The sum that the loops have computed before `k`. -/
def partialSum [Zero α] [Add α] [Mul α] {r n p c : Nat} (h : p ≤ n) (A : Fin r → Fin n → α) (B : Fin p → Fin c → α) :
    Nat → Fin r → Fin c → α
  | 0, _, _ => 0
  | k + 1, i, j => if hk : k < p then partialSum h A B k i j + A i ⟨k, by omega⟩ * B ⟨k, hk⟩ j else partialSum h A B k i j

theorem partialSum_zero [Zero α] [Add α] [Mul α] {r n p c : Nat} (h : p ≤ n) (A : Fin r → Fin n → α)
    (B : Fin p → Fin c → α) (i : Fin r) (j : Fin c) : partialSum h A B 0 i j = 0 := rfl

theorem partialSum_succ [Zero α] [Add α] [Mul α] {r n p c : Nat} (h : p ≤ n) (A : Fin r → Fin n → α)
    (B : Fin p → Fin c → α) (k : Nat) (hk : k < p) (i : Fin r) (j : Fin c) :
    partialSum h A B (k + 1) i j = partialSum h A B k i j + A i ⟨k, by omega⟩ * B ⟨k, hk⟩ j := by
  rw [partialSum, dif_pos hk]

theorem partialSum_sum [NonUnitalNonAssocSemiring α] {r n p c : Nat} (h : p ≤ n) (A : Fin r → Fin n → α)
    (B : Fin p → Fin c → α) (k : Nat) (hk : k ≤ p) (i : Fin r) (j : Fin c) :
    partialSum h A B k i j = ∑ l : Fin p, if l.1 < k then A i (l.castLE h) * B l j else 0 := by
  induction k with
  | zero => simp [partialSum_zero]
  | succ k ih =>
    rw [partialSum_succ h A B k hk, ih (by omega)]
    have : A i ⟨k, by omega⟩ * B ⟨k, hk⟩ j =
        ∑ l : Fin p, if l = ⟨k, hk⟩ then A i (l.castLE h) * B l j else 0 := by
      simp [Finset.sum_ite_eq', Fin.castLE]
    rw [this, ← Finset.sum_add_distrib]
    apply Finset.sum_congr rfl
    intro l _
    symm
    rcases Nat.lt_trichotomy l.1 k with h1 | h1 | h1
    · rw [if_pos (by omega), if_pos h1, if_neg (by rw [Fin.ext_iff]; simp; omega), add_zero]
    · rw [if_pos (by omega), if_neg (by omega), if_pos (Fin.ext h1), zero_add]
    · rw [if_neg (by omega), if_neg (by omega), if_neg (by rw [Fin.ext_iff]; simp; omega), add_zero]

/-- The loops of the product, for matrices where they stay in bounds. -/
theorem mulLoops [Zero α] [Add α] [Mul α] {r n p c : Nat} (h : p ≤ n) (A : Fin r → Fin n → α)
    (B : Fin p → Fin c → α) :
    loop r (mulRow (mat A) (some (mat B))) (mat (0 : Fin r → Fin c → α)) = .ok (mat (partialSum h A B p)) := by
  obtain ⟨s, h1, h2⟩ := loop_inv (body := mulRow (mat A) (some (mat B))) (n := r) (s := mat (0 : Fin r → Fin c → α))
    (fun i s => s = mat fun (i' : Fin r) (j' : Fin c) => if i'.1 < i then partialSum h A B p i' j' else 0)
    (by simp; rfl) (by
      rintro i s hi rfl
      unfold mulRow
      simp only [Option.getD_some, mat_length]
      obtain ⟨s, h1, h2⟩ := loop_inv (n := p)
        (body := fun k t => loop (sizeColumn t) (mulElement (mat A) (some (mat B)) i k) t)
        (s := mat fun (i' : Fin r) (j' : Fin c) => if i'.1 < i then partialSum h A B p i' j' else 0)
        (fun k s => s = mat fun (i' : Fin r) (j' : Fin c) =>
          if i'.1 < i then partialSum h A B p i' j' else if i'.1 = i then partialSum h A B k i' j' else 0)
        (by simp [partialSum_zero]) (by
          rintro k s hk rfl
          simp only [sizeColumn_pos (show 0 < r by omega)]
          obtain ⟨s, h1, h2⟩ := loop_inv (n := c) (body := mulElement (mat A) (some (mat B)) i k)
            (s := mat fun (i' : Fin r) (j' : Fin c) =>
              if i'.1 < i then partialSum h A B p i' j' else if i'.1 = i then partialSum h A B k i' j' else 0)
            (fun j s => s = mat fun (i' : Fin r) (j' : Fin c) =>
              if i'.1 < i then partialSum h A B p i' j' else if i'.1 = i then
                (if j'.1 < j then partialSum h A B (k + 1) i' j' else partialSum h A B k i' j') else 0)
            (by simp) (by
              rintro j s hj rfl
              generalize hS : (fun (i' : Fin r) (j' : Fin c) =>
                if i'.1 < i then partialSum h A B p i' j' else if i'.1 = i then
                (if j'.1 < j then partialSum h A B (k + 1) i' j' else partialSum h A B k i' j') else 0) = S
              have hSij : S ⟨i, hi⟩ ⟨j, hj⟩ = partialSum h A B k ⟨i, hi⟩ ⟨j, hj⟩ := by simp [← hS]
              have hstep : mulElement (mat A) (some (mat B)) i k j (mat S) =
                  .ok (mat fun i' j' => if i'.1 = i ∧ j'.1 = j then partialSum h A B (k + 1) ⟨i, hi⟩ ⟨j, hj⟩ else S i' j') := by
                unfold mulElement
                by_cases hk0 : k = 0
                · subst hk0
                  simp only [beq_self_eq_true, if_true, wr2_mat _ hi hj, Out.ok_bind, Option.getD_some,
                    rd2_mat _ hi (show 0 < n by omega), rd2_mat _ hk hj, rd2_mat _ hi hj, and_self, if_true]
                  congr 2
                  funext i' j'
                  rw [partialSum_succ h A B 0 hk, partialSum_zero]
                  by_cases hij : i'.1 = i ∧ j'.1 = j
                  · rw [if_pos hij, if_pos hij]
                  · rw [if_neg hij, if_neg hij, if_neg hij]
                · rw [if_neg (by simpa using hk0)]
                  simp only [Out.pure_eq, Out.ok_bind, Option.getD_some, rd2_mat _ hi (show k < n by omega), rd2_mat _ hk hj,
                    rd2_mat _ hi hj, wr2_mat _ hi hj, hSij, partialSum_succ h A B k hk]
              refine ⟨_, hstep, ?_⟩
              congr 1
              funext i' j'
              rw [← hS]
              by_cases hij : i'.1 = i ∧ j'.1 = j
              · obtain ⟨rfl, rfl⟩ := hij
                simp
              · rw [if_neg hij]
                simp only
                split
                · rfl
                · split
                  · by_cases hj' : j'.1 < j
                    · rw [if_pos hj', if_pos (by omega)]
                    · rw [if_neg hj', if_neg (by omega)]
                  · rfl)
          refine ⟨s, h1, h2.trans ?_⟩
          congr 1
          funext i' j'
          simp [j'.2])
      refine ⟨s, h1, h2.trans ?_⟩
      congr 1
      funext i' j'
      by_cases h3 : i'.1 < i
      · rw [if_pos h3, if_pos (by omega)]
      · by_cases h4 : i'.1 = i
        · rw [if_neg h3, if_pos h4, if_pos (by omega)]
        · rw [if_neg h3, if_neg h4, if_neg (by omega)])
  rw [h1, h2]
  congr 2
  funext i j
  rw [if_pos i.2]

theorem partialSum_mul [NonUnitalNonAssocSemiring α] {r n c : Nat} (A : Fin r → Fin n → α) (B : Fin n → Fin c → α) :
    partialSum (Nat.le_refl n) A B n = fun i j => ∑ k, A i k * B k j := by
  funext i j
  rw [partialSum_sum _ _ _ _ le_rfl]
  apply Finset.sum_congr rfl
  intro l _
  rw [if_pos l.2]
  rfl

/-- If the loops leave the old matrix, the product is undefined. -/
theorem mulLoops_ub [NonUnitalNonAssocSemiring α] {r n p c : Nat} (h : n < p) (hr : 0 < r) (hc : 0 < c)
    (A : Fin r → Fin n → α) (B : Fin p → Fin c → α) :
    loop r (mulRow (mat A) (some (mat B))) (mat (0 : Fin r → Fin c → α)) = .ub := by
  refine loop_fail (i := 0) hr rfl ?_
  unfold mulRow
  simp only [Option.getD_some, mat_length]
  have hwr : ∀ (k j : Nat) (S : Fin r → Fin c → α), j < c → k < p → (k < n → ∃ S' : Fin r → Fin c → α, mulElement (mat A) (some (mat B)) 0 k j (mat S) = .ok (mat S')) ∧
      (n ≤ k → mulElement (mat A) (some (mat B)) 0 k j (mat S) = .ub) := by
    intro k j S hj hk
    have h0 : ∃ S' : Fin r → Fin c → α, (if (k == 0) = true then wr2 (mat S) 0 j (0 : α) else pure (mat S)) = .ok (mat S') := by
      split
      · exact ⟨_, wr2_mat _ hr hj _⟩
      · exact ⟨S, rfl⟩
    obtain ⟨S', h0⟩ := h0
    constructor
    · intro hkn
      unfold mulElement
      rw [h0]
      simp only [Out.ok_bind, Option.getD_some, rd2_mat _ hr hkn, rd2_mat _ hk hj, rd2_mat _ hr hj, wr2_mat _ hr hj]
      exact ⟨_, rfl⟩
    · intro hkn
      unfold mulElement
      rw [h0, Out.ok_bind]
      have : rd2 (mat A) 0 k = .ub := by
        simp [rd2, rd_mat _ hr, rd_ub (show (vec (A ⟨0, hr⟩)).length ≤ k by simpa using hkn)]
      rw [this]; rfl
  refine loop_stop .ub (fun _ => rfl) (fun s => ∃ S : Fin r → Fin c → α, s = mat S) ⟨_, rfl⟩ ?_ (j := n) h ?_
  · rintro k s hk ⟨S, rfl⟩
    simp only [sizeColumn_pos hr]
    by_cases hkn : k < n
    · right
      obtain ⟨s, h1, S', h2⟩ := loop_inv (n := c) (body := mulElement (mat A) (some (mat B)) 0 k) (s := mat S)
        (fun _ s => ∃ S : Fin r → Fin c → α, s = mat S) ⟨S, rfl⟩ (by
          rintro j s hj ⟨S, rfl⟩
          obtain ⟨S', h⟩ := (hwr k j S hj hk).1 hkn
          exact ⟨_, h, S', rfl⟩)
      exact ⟨s, h1, S', h2⟩
    · left
      exact loop_fail (i := 0) hc rfl ((hwr k 0 S hc hk).2 (by omega))
  · rintro s ⟨S, rfl⟩
    simp only [sizeColumn_pos hr]
    exact loop_fail (i := 0) hc rfl ((hwr n 0 S hc h).2 (Nat.le_refl _))

/-- The loops of the product when the other matrix is the same object: all is zero. -/
theorem mulLoops_self [NonUnitalNonAssocSemiring α] {n : Nat} (A : Fin n → Fin n → α) :
    loop n (mulRow (mat A) none) (mat (0 : Fin n → Fin n → α)) = .ok (mat (0 : Fin n → Fin n → α)) := by
  obtain ⟨s, h1, h2⟩ := loop_inv (body := mulRow (mat A) none) (n := n) (s := mat (0 : Fin n → Fin n → α))
    (fun _ s => s = mat (0 : Fin n → Fin n → α)) rfl (by
      rintro i s hi rfl
      unfold mulRow
      simp only [Option.getD_none, mat_length]
      refine ⟨_, ?_, rfl⟩
      obtain ⟨s, h1, h2⟩ := loop_inv (n := n) (body := fun k t => loop (sizeColumn t) (mulElement (mat A) none i k) t)
        (s := mat (0 : Fin n → Fin n → α)) (fun _ s => s = mat (0 : Fin n → Fin n → α)) rfl (by
          rintro k s hk rfl
          simp only [sizeColumn_pos (show 0 < n by omega)]
          obtain ⟨s, h1, h2⟩ := loop_inv (n := n) (body := mulElement (mat A) none i k)
            (s := mat (0 : Fin n → Fin n → α)) (fun _ s => s = mat (0 : Fin n → Fin n → α)) rfl (by
              rintro j s hj rfl
              have hz : (if (k == 0) = true then wr2 (mat (0 : Fin n → Fin n → α)) i j (0 : α)
                  else pure (mat (0 : Fin n → Fin n → α))) = .ok (mat (0 : Fin n → Fin n → α)) := by
                split
                · rw [wr2_mat _ hi hj]
                  congr 2
                  funext i' j'
                  simp
                · rfl
              unfold mulElement
              refine ⟨_, ?_, rfl⟩
              rw [hz]
              simp only [Out.ok_bind, Option.getD_none, rd2_mat _ hi hk, rd2_mat _ hk hj, rd2_mat _ hi hj, wr2_mat _ hi hj]
              congr 2
              funext i' j'
              simp)
          exact ⟨s, h1, h2⟩)
      rw [h1, h2])
  rw [h1, h2]

end Disa.Dense
