import Verif.Dense.Ints
import Verif.Dense.Mat
import Verif.Props.Loops
import Mathlib.Algebra.BigOperators.Fin

/-!
# Property C159: vectors and matrices of integers
-/

namespace Disa.Props

open Disa Spec Dense

/-- The result of an operation of the type whose mathematical result is `z`. -/
def computed (t : IntTy) (z : Int) : Elem t := if InType t z then .of z else if t.signed then .undef else .of (t.cast z)

variable {t : IntTy}

theorem op_of (hb : 32 ≤ t.bits) (f : Int → Int → Int) (x y : Int) :
    Elem.op f (Elem.of x : Elem t) (Elem.of y) = computed t (f x y) := by
  unfold Elem.op computed IntTy.arith
  dsimp only
  cases hs : t.signed with
  | true =>
    by_cases h : InType t (f x y)
    · rw [if_pos h, if_pos rfl, if_pos (show t.min ≤ f x y ∧ f x y ≤ t.max from h)]
    · rw [if_neg h, if_pos rfl, if_neg (show ¬ (t.min ≤ f x y ∧ f x y ≤ t.max) from h), if_pos rfl]
  | false =>
    by_cases h : InType t (f x y)
    · rw [if_pos h, cast_self (by omega) h]; rfl
    · rw [if_neg h]; rfl

theorem add_of (hb : 32 ≤ t.bits) (x y : Int) : (Elem.of x : Elem t) + Elem.of y = computed t (x + y) := op_of hb _ x y
theorem sub_of (hb : 32 ≤ t.bits) (x y : Int) : (Elem.of x : Elem t) - Elem.of y = computed t (x - y) := op_of hb _ x y
theorem mul_of (hb : 32 ≤ t.bits) (x y : Int) : (Elem.of x : Elem t) * Elem.of y = computed t (x * y) := op_of hb _ x y
theorem div_of (hb : 32 ≤ t.bits) (x : Int) {y : Int} (hy : y ≠ 0) : (Elem.of x : Elem t) / Elem.of y = computed t (x.tdiv y) := by
  have : (Elem.of y : Elem t) ≠ Elem.of 0 := by
    intro h
    exact hy (Elem.of.inj h)
  show (if (Elem.of y : Elem t) = Elem.of 0 then Elem.undef else Elem.op Int.tdiv (Elem.of x) (Elem.of y)) = _
  rw [if_neg this, op_of hb]

theorem get_computed (t : IntTy) (z : Int) :
    (computed t z).get = if InType t z then .ok z else if t.signed then .ub else .ok (t.cast z) := by
  unfold computed
  split
  · rfl
  · split <;> rfl

theorem mapOut_ub_of {α β : Type} {f : α → Out β} (hf : ∀ a, f a = .ub ∨ ∃ b, f a = .ok b) {l : List α} {a : α} (ha : a ∈ l)
    (h : f a = .ub) : mapOut f l = .ub := by
  induction l with
  | nil => cases ha
  | cons b l ih =>
    unfold mapOut
    rcases hf b with h1 | ⟨c, h1⟩
    · rw [h1]; rfl
    · rw [h1, Out.ok_bind]
      rcases List.mem_cons.mp ha with h2 | h2
      · subst h2; rw [h1] at h; cases h
      · rw [ih h2]; rfl

theorem get_cases (a : Elem t) : a.get = .ub ∨ ∃ b, a.get = .ok b := by
  cases a with
  | undef => exact .inl rfl
  | of x => exact .inr ⟨x, rfl⟩

theorem mapOut_get_cases (l : List (Elem t)) : mapOut Elem.get l = .ub ∨ ∃ b, mapOut Elem.get l = .ok b := by
  induction l with
  | nil => exact .inr ⟨[], rfl⟩
  | cons a l ih =>
    unfold mapOut
    rcases get_cases a with h | ⟨b, h⟩
    · left; rw [h]; rfl
    · rw [h, Out.ok_bind]
      rcases ih with h | ⟨c, h⟩
      · left; rw [h]; rfl
      · right; rw [h]; exact ⟨_, rfl⟩

theorem get_vec (hb : 32 ≤ t.bits) {n : Nat} (z : Fin n → Int) : mapOut Elem.get (vec fun i => computed t (z i)) = inArithmetic t z := by
  unfold inArithmetic
  by_cases h : ∀ i, InType t (z i)
  · rw [if_pos h]
    exact mapOut_vec _ _ _ fun i => by rw [get_computed, if_pos (h i)]
  · rw [if_neg h]
    cases hs : t.signed with
    | true =>
      rw [if_pos rfl]
      obtain ⟨i, hi⟩ := not_forall.mp h
      refine mapOut_ub_of get_cases (a := computed t (z i)) ?_ ?_
      · unfold vec; exact List.mem_ofFn.mpr ⟨i, rfl⟩
      · rw [get_computed, if_neg hi, hs, if_pos rfl]
    | false =>
      rw [if_neg (by simp)]
      refine mapOut_vec _ _ _ fun i => ?_
      rw [get_computed]
      split
      · rw [cast_self (by omega) (by assumption)]
      · rw [hs]; rfl

theorem run_vec (hb : 32 ≤ t.bits) {n : Nat} (z : Fin n → Int) : Elem.run (.ok (vec fun i => computed t (z i))) = inArithmetic t z := by
  unfold Elem.run
  rw [Out.ok_bind, get_vec hb]

theorem get_mat (hb : 32 ≤ t.bits) {r c : Nat} (z : Fin r → Fin c → Int) :
    Elem.runMat (.ok (mat fun i j => computed t (z i j))) = inArithmeticMat t z := by
  unfold Elem.runMat inArithmeticMat
  rw [Out.ok_bind, mat_eq_vec]
  by_cases h : ∀ i j, InType t (z i j)
  · rw [if_pos h]
    refine mapOut_vec _ _ _ fun i => ?_
    rw [get_vec hb]
    unfold inArithmetic
    rw [if_pos (h i)]
    rfl
  · rw [if_neg h]
    cases hs : t.signed with
    | true =>
      rw [if_pos rfl]
      obtain ⟨i, hi⟩ := not_forall.mp h
      refine mapOut_ub_of mapOut_get_cases (a := vec fun j => computed t (z i j)) ?_ ?_
      · unfold vec; exact List.mem_ofFn.mpr ⟨i, rfl⟩
      · rw [get_vec hb]
        unfold inArithmetic
        rw [if_neg hi, hs, if_pos rfl]
    | false =>
      rw [if_neg (by simp)]
      refine mapOut_vec _ _ _ fun i => ?_
      rw [get_vec hb]
      unfold inArithmetic
      split
      · rename_i h'
        have : (fun j => t.cast (z i j)) = z i := funext fun j => cast_self (by omega) (h' j)
        show Out.ok (vec (z i)) = Out.ok (List.ofFn fun j => t.cast (z i j))
        rw [this]
        rfl
      · rw [hs]; rfl

/-- The elements of a vector. -/
abbrev ints (t : IntTy) {n : Nat} (x : Fin n → Int) : List (Elem t) := vec fun i => Elem.of (x i)

/-- The elements of a matrix. -/
abbrev intsMat (t : IntTy) {r c : Nat} (x : Fin r → Fin c → Int) : List (List (Elem t)) := mat fun i j => Elem.of (x i j)

/-- C159, vectors: the operators compute the integers, as far as the type has them. -/
theorem c159_vectors (t : IntTy) (hb : 32 ≤ t.bits) {r s n : Nat} (hr : Sized r n) (hs : Sized s n) (x y : Fin n → Int) (a : Int) :
    Elem.run (addAssign (ints t x) (some (ints t y))) = inArithmetic t (fun i => x i + y i) ∧
    Elem.run (subAssign (ints t x) (some (ints t y))) = inArithmetic t (fun i => x i - y i) ∧
    Elem.run (add r s (ints t x) (ints t y)) = inArithmetic t (fun i => x i + y i) ∧
    Elem.run (sub r s (ints t x) (ints t y)) = inArithmetic t (fun i => x i - y i) ∧
    Elem.run (mulScalar (ints t x) (.val (.of a))) = inArithmetic t (fun i => x i * a) ∧
    Elem.run (smul (.of a) (ints t x)) = inArithmetic t (fun i => x i * a) ∧
    (a ≠ 0 → Elem.run (divScalar (ints t x) (.val (.of a))) = inArithmetic t (fun i => (x i).tdiv a) ∧
      Elem.run (sdiv (ints t x) (.of a)) = inArithmetic t (fun i => (x i).tdiv a)) ∧
    (0 < n → Elem.run (divScalar (ints t x) (.val (.of 0))) = .ub ∧ Elem.run (sdiv (ints t x) (.of 0)) = .ub) := by
  have hm : Elem.run (mulScalar (ints t x) (.val (.of a))) = inArithmetic t (fun i => x i * a) := by
    have := scale_val (· * ·) (fun i => (Elem.of (x i) : Elem t)) (Elem.of a)
    unfold mulScalar
    rw [vec_length, this]
    simp only [mul_of hb]
    exact run_vec hb _
  have hd : a ≠ 0 → Elem.run (divScalar (ints t x) (.val (.of a))) = inArithmetic t (fun i => (x i).tdiv a) := by
    intro ha
    have := scale_val (· / ·) (fun i => (Elem.of (x i) : Elem t)) (Elem.of a)
    unfold divScalar
    rw [vec_length, this]
    simp only [div_of hb _ ha]
    exact run_vec hb _
  have h0 : 0 < n → Elem.run (divScalar (ints t x) (.val (.of 0))) = .ub := by
    intro hn
    have := scale_val (· / ·) (fun i => (Elem.of (x i) : Elem t)) (Elem.of 0)
    unfold divScalar
    rw [vec_length, this]
    unfold Elem.run
    rw [Out.ok_bind]
    refine mapOut_ub_of get_cases (a := Elem.undef) ?_ rfl
    unfold vec
    refine List.mem_ofFn.mpr ⟨⟨0, hn⟩, ?_⟩
    show (if (Elem.of 0 : Elem t) = Elem.of 0 then Elem.undef else _) = _
    rw [if_pos rfl]
  have ha : ∀ x y : Fin n → Int, (fun i => (Elem.of (x i) : Elem t)) + (fun i => Elem.of (y i)) = fun i => computed t (x i + y i) :=
    fun x y => funext fun i => add_of hb _ _
  have hs' : ∀ x y : Fin n → Int, (fun i => (Elem.of (x i) : Elem t)) - (fun i => Elem.of (y i)) = fun i => computed t (x i - y i) :=
    fun x y => funext fun i => sub_of hb _ _
  refine ⟨?_, ?_, ?_, ?_, hm, hm, fun h => ⟨hd h, hd h⟩, fun h => ⟨h0 h, h0 h⟩⟩
  · rw [addAssign_ok, ha]; exact run_vec hb _
  · rw [subAssign_ok, hs']; exact run_vec hb _
  · rw [add_ok hr hs, ha]; exact run_vec hb _
  · rw [sub_ok hr hs, hs']; exact run_vec hb _

/-- C159: a vector or a matrix added to itself, or taken from itself. -/
theorem c159_self (t : IntTy) (hb : 32 ≤ t.bits) {n r c : Nat} (x : Fin n → Int) (M : Fin r → Fin c → Int) :
    Elem.run (addAssign (ints t x) none) = inArithmetic t (fun i => x i + x i) ∧
    Elem.run (subAssign (ints t x) none) = inArithmetic t (fun i => x i - x i) ∧
    Elem.runMat (matAddAssign (intsMat t M) none) = inArithmeticMat t (fun i j => M i j + M i j) ∧
    Elem.runMat (matSubAssign (intsMat t M) none) = inArithmeticMat t (fun i j => M i j - M i j) := by
  refine ⟨?_, ?_, ?_, ?_⟩
  · rw [addAssign_self]
    have : (fun i => (Elem.of (x i) : Elem t)) + (fun i => Elem.of (x i)) = fun i => computed t (x i + x i) := funext fun i => add_of hb _ _
    rw [this]; exact run_vec hb _
  · rw [subAssign_self]
    have : (fun i => (Elem.of (x i) : Elem t)) - (fun i => Elem.of (x i)) = fun i => computed t (x i - x i) := funext fun i => sub_of hb _ _
    rw [this]; exact run_vec hb _
  · rw [matAddAssign_self]
    have : (fun i j => (Elem.of (M i j) : Elem t)) + (fun i j => Elem.of (M i j)) = fun i j => computed t (M i j + M i j) :=
      funext fun i => funext fun j => add_of hb _ _
    rw [this]; exact get_mat hb _
  · rw [matSubAssign_self]
    have : (fun i j => (Elem.of (M i j) : Elem t)) - (fun i j => Elem.of (M i j)) = fun i j => computed t (M i j - M i j) :=
      funext fun i => funext fun j => sub_of hb _ _
    rw [this]; exact get_mat hb _

/-- C159, matrices: the operators other than the product. -/
theorem c159_matrices (t : IntTy) (hb : 32 ≤ t.bits) {d e : Dims} {r c : Nat} (hd : SizedMat d r c) (he : SizedMat e r c)
    (x y : Fin r → Fin c → Int) (a : Int) :
    Elem.runMat (matAddAssign (intsMat t x) (some (intsMat t y))) = inArithmeticMat t (fun i j => x i j + y i j) ∧
    Elem.runMat (matSubAssign (intsMat t x) (some (intsMat t y))) = inArithmeticMat t (fun i j => x i j - y i j) ∧
    Elem.runMat (matAdd d e (intsMat t x) (intsMat t y)) = inArithmeticMat t (fun i j => x i j + y i j) ∧
    Elem.runMat (matSub d e (intsMat t x) (intsMat t y)) = inArithmeticMat t (fun i j => x i j - y i j) ∧
    Elem.runMat (matMulScalar (intsMat t x) (.val (.of a))) = inArithmeticMat t (fun i j => x i j * a) ∧
    Elem.runMat (matSmul (.of a) (intsMat t x)) = inArithmeticMat t (fun i j => x i j * a) ∧
    (a ≠ 0 → Elem.runMat (matDivScalar (intsMat t x) (.val (.of a))) = inArithmeticMat t (fun i j => (x i j).tdiv a) ∧
      Elem.runMat (matSdiv (intsMat t x) (.of a)) = inArithmeticMat t (fun i j => (x i j).tdiv a)) := by
  have hm : Elem.runMat (matMulScalar (intsMat t x) (.val (.of a))) = inArithmeticMat t (fun i j => x i j * a) := by
    have := matScale_val (· * ·) (fun i j => (Elem.of (x i j) : Elem t)) (Elem.of a)
    unfold matMulScalar
    rw [mat_length, this]
    simp only [mul_of hb]
    exact get_mat hb _
  have hd' : a ≠ 0 → Elem.runMat (matDivScalar (intsMat t x) (.val (.of a))) = inArithmeticMat t (fun i j => (x i j).tdiv a) := by
    intro ha
    have := matScale_val (· / ·) (fun i j => (Elem.of (x i j) : Elem t)) (Elem.of a)
    unfold matDivScalar
    rw [mat_length, this]
    simp only [div_of hb _ ha]
    exact get_mat hb _
  have ha : (fun i j => (Elem.of (x i j) : Elem t)) + (fun i j => Elem.of (y i j)) = fun i j => computed t (x i j + y i j) :=
    funext fun i => funext fun j => add_of hb _ _
  have hs' : (fun i j => (Elem.of (x i j) : Elem t)) - (fun i j => Elem.of (y i j)) = fun i j => computed t (x i j - y i j) :=
    funext fun i => funext fun j => sub_of hb _ _
  refine ⟨?_, ?_, ?_, ?_, hm, hm, fun h => ⟨hd' h, hd' h⟩⟩
  · rw [matAddAssign_ok, ha]; exact get_mat hb _
  · rw [matSubAssign_ok, hs']; exact get_mat hb _
  · rw [matAdd_ok hd he, ha]; exact get_mat hb _
  · rw [matSub_ok hd he, hs']; exact get_mat hb _

/-! ### Products -/

/-- The sum of the first `k` products. -/
def sumTo {r n c : Nat} (A : Fin r → Fin n → Int) (B : Fin n → Fin c → Int) (i : Fin r) (j : Fin c) (k : Nat) : Int :=
  ∑ l : Fin n, if l.1 < k then A i l * B l j else 0

/-- The products and their sums are values of the type. -/
def StaysIn (t : IntTy) {r n c : Nat} (A : Fin r → Fin n → Int) (B : Fin n → Fin c → Int) (i : Fin r) (j : Fin c) (k : Nat) : Prop :=
  ∀ l : Fin n, l.1 < k → InType t (A i l * B l j) ∧ InType t (sumTo A B i j (l.1 + 1))

theorem sumTo_zero {r n c : Nat} (A : Fin r → Fin n → Int) (B : Fin n → Fin c → Int) (i : Fin r) (j : Fin c) : sumTo A B i j 0 = 0 := by
  simp [sumTo]

theorem sumTo_succ {r n c : Nat} (A : Fin r → Fin n → Int) (B : Fin n → Fin c → Int) (i : Fin r) (j : Fin c) {k : Nat} (hk : k < n) :
    sumTo A B i j (k + 1) = sumTo A B i j k + A i ⟨k, hk⟩ * B ⟨k, hk⟩ j := by
  have h1 := partialSum_succ (Nat.le_refl n) A B k hk i j
  rw [partialSum_sum (Nat.le_refl n) A B (k + 1) hk, partialSum_sum (Nat.le_refl n) A B k (by omega)] at h1
  exact h1

theorem sumTo_all {r n c : Nat} (A : Fin r → Fin n → Int) (B : Fin n → Fin c → Int) (i : Fin r) (j : Fin c) :
    sumTo A B i j n = ∑ l, A i l * B l j := by
  unfold sumTo
  exact Finset.sum_congr rfl fun l _ => by rw [if_pos l.2]

theorem cast_congr {x y : Int} (h : x % 2 ^ t.bits = y % 2 ^ t.bits) : t.cast x = t.cast y := by
  unfold IntTy.cast
  rw [h]

theorem cast_add_cast (x y : Int) : t.cast (t.cast x + t.cast y) = t.cast (x + y) := by
  apply cast_congr
  rw [Int.add_emod, cast_mod, cast_mod, ← Int.add_emod]

theorem add_undef (a : Elem t) : a + Elem.undef = Elem.undef := by
  cases a <;> rfl

theorem undef_add (a : Elem t) : Elem.undef + a = Elem.undef := rfl

theorem computed_unsigned (hb : 32 ≤ t.bits) (hs : t.signed = false) (z : Int) : computed t z = .of (t.cast z) := by
  unfold computed
  split
  · rw [cast_self (by omega) (by assumption)]
  · rw [hs]; rfl

theorem partialSum_unsigned (hb : 32 ≤ t.bits) (hs : t.signed = false) {r n c : Nat} (A : Fin r → Fin n → Int) (B : Fin n → Fin c → Int)
    (k : Nat) (hk : k ≤ n) (i : Fin r) (j : Fin c) :
    partialSum (Nat.le_refl n) (fun i l => (Elem.of (A i l) : Elem t)) (fun l j => Elem.of (B l j)) k i j =
      .of (t.cast (sumTo A B i j k)) := by
  induction k with
  | zero =>
    rw [partialSum_zero, sumTo_zero]
    have : t.cast 0 = 0 := cast_self (by omega) (by unfold InType IntTy.min IntTy.max; rw [hs]; have := Int.pow_pos (n := 2) (m := t.bits) (by omega); simp; omega)
    rw [this]
    rfl
  | succ k ih =>
    rw [partialSum_succ _ _ _ k hk, ih (by omega), mul_of hb, computed_unsigned hb hs, add_of hb, computed_unsigned hb hs,
      cast_add_cast, sumTo_succ A B i j hk]

open Classical in
theorem partialSum_signed (hb : 32 ≤ t.bits) (hs : t.signed = true) {r n c : Nat} (A : Fin r → Fin n → Int) (B : Fin n → Fin c → Int)
    (k : Nat) (hk : k ≤ n) (i : Fin r) (j : Fin c) :
    partialSum (Nat.le_refl n) (fun i l => (Elem.of (A i l) : Elem t)) (fun l j => Elem.of (B l j)) k i j =
      if StaysIn t A B i j k then .of (sumTo A B i j k) else .undef := by
  induction k with
  | zero =>
    have hW : StaysIn t A B i j 0 := fun l hl => absurd hl (Nat.not_lt_zero _)
    rw [partialSum_zero, sumTo_zero, if_pos hW]
    rfl
  | succ k ih =>
    rw [partialSum_succ _ _ _ k hk, ih (by omega), mul_of hb]
    by_cases hW : StaysIn t A B i j k
    · rw [if_pos hW]
      by_cases h1 : InType t (A i ⟨k, hk⟩ * B ⟨k, hk⟩ j)
      · have e : computed t (A i ⟨k, hk⟩ * B ⟨k, hk⟩ j) = .of (A i ⟨k, hk⟩ * B ⟨k, hk⟩ j) := by unfold computed; rw [if_pos h1]
        rw [e, add_of hb, ← sumTo_succ A B i j hk]
        unfold computed
        by_cases h2 : InType t (sumTo A B i j (k + 1))
        · rw [if_pos h2, if_pos]
          intro l hl
          rcases Nat.lt_succ_iff_lt_or_eq.mp hl with h3 | h3
          · exact hW l h3
          · have : l = ⟨k, hk⟩ := Fin.ext h3
            rw [this]
            exact ⟨h1, h2⟩
        · rw [if_neg h2, hs, if_pos rfl, if_neg]
          intro h
          exact h2 (h ⟨k, hk⟩ (Nat.lt_succ_self k)).2
      · have e : computed t (A i ⟨k, hk⟩ * B ⟨k, hk⟩ j) = .undef := by unfold computed; rw [if_neg h1, hs, if_pos rfl]
        rw [e, add_undef, if_neg]
        intro h
        exact h1 (h ⟨k, hk⟩ (Nat.lt_succ_self k)).1
    · rw [if_neg hW, undef_add, if_neg]
      intro h
      exact hW fun l hl => h l (by omega)

/-- The product of the integer matrices in the arithmetic of the type: undefined for a signed type as soon as one of the products, or one
of the sums of the first products, is not a value of the type; and the exact product otherwise.  For an unsigned type the exact product
is reduced. -/
def IsProduct (t : IntTy) {r n c : Nat} (A : Fin r → Fin n → Int) (B : Fin n → Fin c → Int) (o : Out (List (List Int))) : Prop :=
  (t.signed = true → (∀ i j, StaysIn t A B i j n) → o = .ok (mat fun i j => ∑ l, A i l * B l j)) ∧
  (t.signed = true → (¬ ∀ i j, StaysIn t A B i j n) → o = .ub) ∧
  (t.signed = false → o = .ok (mat fun i j => t.cast (∑ l, A i l * B l j)))

theorem product_run (hb : 32 ≤ t.bits) {r n c : Nat} (A : Fin r → Fin n → Int) (B : Fin n → Fin c → Int) :
    IsProduct t A B (Elem.runMat (.ok (mat (partialSum (Nat.le_refl n) (fun i l => (Elem.of (A i l) : Elem t)) (fun l j => Elem.of (B l j)) n)))) := by
  classical
  refine ⟨fun hs h => ?_, fun hs h => ?_, fun hs => ?_⟩
  · have : partialSum (Nat.le_refl n) (fun i l => (Elem.of (A i l) : Elem t)) (fun l j => Elem.of (B l j)) n =
        fun i j => Elem.of (∑ l, A i l * B l j) := by
      funext i j
      rw [partialSum_signed hb hs A B n (Nat.le_refl n), if_pos (h i j), sumTo_all]
    rw [this]
    unfold Elem.runMat
    rw [Out.ok_bind, mat_eq_vec]
    exact mapOut_vec _ _ _ fun i => mapOut_vec _ _ _ fun j => rfl
  · obtain ⟨i, hi⟩ := not_forall.mp h
    obtain ⟨j, hj⟩ := not_forall.mp hi
    unfold Elem.runMat
    rw [Out.ok_bind, mat_eq_vec]
    refine mapOut_ub_of mapOut_get_cases
      (a := vec (partialSum (Nat.le_refl n) (fun i l => (Elem.of (A i l) : Elem t)) (fun l j => Elem.of (B l j)) n i)) ?_ ?_
    · unfold vec; exact List.mem_ofFn.mpr ⟨i, rfl⟩
    · refine mapOut_ub_of get_cases (a := Elem.undef) ?_ rfl
      unfold vec
      refine List.mem_ofFn.mpr ⟨j, ?_⟩
      rw [partialSum_signed hb hs A B n (Nat.le_refl n), if_neg hj]
  · have : partialSum (Nat.le_refl n) (fun i l => (Elem.of (A i l) : Elem t)) (fun l j => Elem.of (B l j)) n =
        fun i j => Elem.of (t.cast (∑ l, A i l * B l j)) := by
      funext i j
      rw [partialSum_unsigned hb hs A B n (Nat.le_refl n), sumTo_all]
    rw [this]
    unfold Elem.runMat
    rw [Out.ok_bind, mat_eq_vec]
    exact mapOut_vec _ _ _ fun i => mapOut_vec _ _ _ fun j => rfl

theorem assign_eq (hb : 32 ≤ t.bits) {r n c : Nat} (hr : r = 0 → n = 0) (hn : n = 0 → c = 0) (A : Fin r → Fin n → Int)
    (B : Fin n → Fin c → Int) : IsProduct t A B (Elem.runMat (mulAssign false (intsMat t A) (some (intsMat t B)))) := by
  unfold mulAssign intsMat
  simp only [Option.getD_some, Bool.false_eq_true, if_false, sizeColumn_mat hr, sizeColumn_mat hn, mat_length,
    beq_self_eq_true, assert_true, Out.ok_bind, zeros_eq]
  rw [mulLoops (Nat.le_refl n)]
  exact product_run hb A B

theorem assign_square_eq (hb : 32 ≤ t.bits) {n : Nat} (A B : Fin n → Fin n → Int) :
    IsProduct t A B (Elem.runMat (mulAssign true (intsMat t A) (some (intsMat t B)))) := by
  unfold mulAssign intsMat
  simp only [Option.getD_some, if_true, sizeColumn_mat (show n = 0 → n = 0 from id), mat_length, sameSize_eq, assert_true,
    Out.ok_bind, zeros_eq]
  rw [mulLoops (Nat.le_refl n)]
  exact product_run hb A B

theorem product_eq (hb : 32 ≤ t.bits) {d e : Dims} {r n c : Nat} (hd : SizedMat d r n) (he : SizedMat e n c) (hde : d = none ∨ e = none)
    (A : Fin r → Fin n → Int) (B : Fin n → Fin c → Int) :
    IsProduct t A B (Elem.runMat (matMul d e (intsMat t A) (intsMat t B))) := by
  have hr := sizedMat_none hd
  have hn := sizedMat_none he
  have hdem : demote d e = none := by
    rcases hde with rfl | rfl
    · rfl
    · cases d <;> rfl
  unfold matMul intsMat
  simp only [sizeColumn_mat hr, mat_length, beq_self_eq_true, assert_true, Out.ok_bind, hdem, Option.isSome_none]
  rw [matOf_ok (d := none) hr _ (fun i j => rd2_mat _ i.2 j.2), Out.ok_bind]
  exact assign_eq hb hr hn A B

theorem product_square_eq (hb : 32 ≤ t.bits) {n : Nat} (hn : n ≠ 0) (A B : Fin n → Fin n → Int) :
    IsProduct t A B (Elem.runMat (matMul (some (n, n)) (some (n, n)) (intsMat t A) (intsMat t B))) := by
  unfold matMul intsMat
  simp only [sizeColumn_mat (show n = 0 → n = 0 from id), mat_length, beq_self_eq_true, assert_true, Out.ok_bind, demote,
    Option.isSome_some]
  rw [matOf_ok (d := some (n, n)) ⟨rfl, rfl, hn, hn⟩ _ (fun i j => rd2_mat _ i.2 j.2), Out.ok_bind]
  exact assign_square_eq hb A B

/-- C159, in full for products: the product of integer matrices whose entries are values of the type is returned, if its entries are
values of the type. -/
def C159 : Prop :=
  ∀ (t : IntTy), 32 ≤ t.bits → ∀ {r n c : Nat}, (r = 0 → n = 0) → (n = 0 → c = 0) →
    ∀ (A : Fin r → Fin n → Int) (B : Fin n → Fin c → Int), (∀ i j, InType t (A i j)) → (∀ i j, InType t (B i j)) →
    (∀ i j, InType t (∑ l, A i l * B l j)) →
    Elem.runMat (matMul none none (intsMat t A) (intsMat t B)) = .ok (mat fun i j => ∑ l, A i l * B l j)

/-- C159 for `int`: a row and a column whose product is `INT_MAX`, but not the sum of the first two terms. -/
theorem c159_violated : ¬ C159 := by
  intro h
  have h1 := h ⟨32, true⟩ (by decide) (r := 1) (n := 3) (c := 1) (by decide) (by decide) (fun _ => ![2147483647, 1, -1])
    (fun _ _ => 1) (by decide) (by decide) (by decide)
  have h2 := (product_eq (t := ⟨32, true⟩) (by decide) (d := none) (e := none) (r := 1) (n := 3) (c := 1) (by intro h; cases h) (by intro h; cases h)
    (Or.inl rfl) (fun _ => ![2147483647, 1, -1]) (fun _ _ => 1)).2.1 rfl (by
      intro hW
      have := (hW 0 0 1 (by decide)).2
      revert this
      decide)
  rw [h1] at h2
  cases h2

/-- C159, products exactly. -/
theorem c159_products (t : IntTy) (hb : 32 ≤ t.bits) :
    (∀ {r n c : Nat}, (r = 0 → n = 0) → (n = 0 → c = 0) → ∀ (A : Fin r → Fin n → Int) (B : Fin n → Fin c → Int),
      IsProduct t A B (Elem.runMat (mulAssign false (intsMat t A) (some (intsMat t B))))) ∧
    (∀ {n : Nat} (A B : Fin n → Fin n → Int), IsProduct t A B (Elem.runMat (mulAssign true (intsMat t A) (some (intsMat t B))))) ∧
    (∀ {d e : Dims} {r n c : Nat}, SizedMat d r n → SizedMat e n c → (d = none ∨ e = none) →
      ∀ (A : Fin r → Fin n → Int) (B : Fin n → Fin c → Int),
      IsProduct t A B (Elem.runMat (matMul d e (intsMat t A) (intsMat t B)))) ∧
    (∀ {n : Nat}, n ≠ 0 → ∀ A B : Fin n → Fin n → Int,
      IsProduct t A B (Elem.runMat (matMul (some (n, n)) (some (n, n)) (intsMat t A) (intsMat t B)))) :=
  ⟨fun hr hn A B => assign_eq hb hr hn A B, fun A B => assign_square_eq hb A B, fun hd he h A B => product_eq hb hd he h A B,
    fun hn A B => product_square_eq hb hn A B⟩

/-- C159 where it is true for products: an unsigned type, or entries so small that no sum of the products can leave the type. -/
theorem c159_products_partial (t : IntTy) (hb : 32 ≤ t.bits) {r n c : Nat} (A : Fin r → Fin n → Int) (B : Fin n → Fin c → Int)
    (o : Out (List (List Int))) (ho : IsProduct t A B o)
    (h : t.signed = false ∧ (∀ i j, InType t (∑ l, A i l * B l j)) ∨
      ∃ a b : Int, (∀ i l, |A i l| ≤ a) ∧ (∀ l j, |B l j| ≤ b) ∧ n * (a * b) ≤ t.max ∧ t.signed = true) :
    o = .ok (mat fun i j => ∑ l, A i l * B l j) := by
  rcases h with ⟨hs, h⟩ | ⟨a, b, hA, hB, hab, hs⟩
  · rw [ho.2.2 hs]
    congr 2
    funext i j
    exact cast_self (by omega) (h i j)
  · refine ho.1 hs fun i j l hl => ?_
    have hp : ∀ l, |A i l * B l j| ≤ a * b := fun l => by
      rw [abs_mul]
      exact mul_le_mul (hA i l) (hB l j) (abs_nonneg _) (le_trans (abs_nonneg _) (hA i l))
    have h0 : 0 ≤ a * b := le_trans (abs_nonneg _) (hp l)
    have hin : ∀ z : Int, |z| ≤ n * (a * b) → InType t z := by
      intro z hz
      have := abs_le.mp (le_trans hz hab)
      unfold InType IntTy.min
      rw [hs, if_pos rfl]
      unfold IntTy.max at this ⊢
      rw [hs, if_pos rfl] at this ⊢
      constructor <;> omega
    have hn : (1 : Int) ≤ n := by have := l.2; omega
    refine ⟨hin _ (le_trans (hp l) (by nlinarith)), hin _ ?_⟩
    unfold sumTo
    refine le_trans (Finset.abs_sum_le_sum_abs _ _) ?_
    refine le_trans (Finset.sum_le_sum (g := fun _ => a * b) fun k _ => ?_) (by simp)
    split
    · exact hp k
    · simpa using h0

/-- The hypotheses: a product of `int` matrices whose sums stay in the type, the one above whose sums do not, and one of `unsigned`. -/
example : (32 ≤ (⟨32, true⟩ : IntTy).bits ∧ ∃ a b : Int, (∀ i l, |(![![1, -2], ![3, 40000]] : Fin 2 → Fin 2 → Int) i l| ≤ a) ∧
    (∀ l j, |(![![5, 6], ![-7, 20000]] : Fin 2 → Fin 2 → Int) l j| ≤ b) ∧ (2 : Nat) * (a * b) ≤ (⟨32, true⟩ : IntTy).max) ∧
    Elem.runMat (matMul none none (intsMat ⟨32, true⟩ ![![1, -2], ![3, 40000]]) (intsMat ⟨32, true⟩ ![![5, 6], ![-7, 20000]])) =
      .ok [[19, -39994], [-279985, 800000018]] ∧
    Elem.runMat (matMul none none (intsMat ⟨32, true⟩ fun (_ : Fin 1) => ![2147483647, 1, -1]) (intsMat ⟨32, true⟩ fun (_ : Fin 3) (_ : Fin 1) => 1)) = .ub ∧
    Elem.runMat (matMul none none (intsMat ⟨32, false⟩ fun (_ : Fin 1) => ![4294967295, 5]) (intsMat ⟨32, false⟩ fun (_ : Fin 2) (_ : Fin 1) => 3)) = .ok [[12]] := by
  refine ⟨⟨by decide, 40000, 20000, by decide, by decide, by decide⟩, by decide, by decide, by decide⟩

/-- The cases of the operators: a sum that stays in `int`, one that does not, the same of `unsigned`, and a division. -/
example : Elem.run (addAssign (ints ⟨32, true⟩ ![1, -5]) (some (ints ⟨32, true⟩ ![2, 3]))) = .ok [3, -2] ∧
    Elem.run (addAssign (ints ⟨32, true⟩ ![2147483647]) (some (ints ⟨32, true⟩ ![1]))) = .ub ∧
    Elem.run (addAssign (ints ⟨32, false⟩ ![4294967295]) (some (ints ⟨32, false⟩ ![1]))) = .ok [0] ∧
    Elem.run (subAssign (ints ⟨32, false⟩ ![0]) (some (ints ⟨32, false⟩ ![1]))) = .ok [4294967295] ∧
    Elem.run (divScalar (ints ⟨32, true⟩ ![7, -7]) (.val (.of 2))) = .ok [3, -3] ∧
    Elem.run (divScalar (ints ⟨32, true⟩ ![-2147483648]) (.val (.of (-1)))) = .ub := by
  decide

end Disa.Props
