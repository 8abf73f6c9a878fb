import Verif.Spec.Dense
import Mathlib.Algebra.BigOperators.Fin

/-!
# Calls on dense vectors
-/

namespace Disa.Dense

open Disa Spec

variable {α : Type}

@[simp] theorem vec_length {n : Nat} (x : Fin n → α) : (vec x).length = n := by simp [vec]

theorem vec_get (l : List α) : ∃ x : Fin l.length → α, l = vec x := ⟨l.get, by simp [vec]⟩

theorem vec_inj {n : Nat} {x y : Fin n → α} : vec x = vec y ↔ x = y := List.ofFn_inj

theorem rd_vec {n i : Nat} (x : Fin n → α) (h : i < n) : rd (vec x) i = .ok (x ⟨i, h⟩) := by
  rw [rd_ok (by simpa using h)]
  simp [vec]

theorem wr_vec {n i : Nat} (x : Fin n → α) (h : i < n) (a : α) :
    wr (vec x) i a = .ok (vec fun k => if k.1 = i then a else x k) := by
  rw [wr_ok (by simpa using h), Out.ok.injEq]
  apply List.ext_getElem
  · simp
  · intro k h1 h2
    simp only [vec, List.getElem_set, List.getElem_ofFn, eq_comm]

/-- A loop that computes the elements one by one. -/
theorem loop_vec {n : Nat} {body : Nat → List α → Out (List α)} (x y : Fin n → α)
    (h : ∀ i (hi : i < n), body i (vec fun k => if k.1 < i then y k else x k) =
      wr (vec fun k => if k.1 < i then y k else x k) i (y ⟨i, hi⟩)) : loop n body (vec x) = .ok (vec y) := by
  obtain ⟨s, h1, h2⟩ := loop_inv (body := body) (n := n) (s := vec x)
    (fun i s => s = vec fun k => if k.1 < i then y k else x k) (by simp) (by
      rintro i s hi rfl
      refine ⟨_, (h i hi).trans (wr_vec _ hi _), ?_⟩
      congr 1
      funext k
      rcases Nat.lt_trichotomy k.1 i with h1 | h1 | h1
      · rw [if_neg (by omega), if_pos h1, if_pos (by omega)]
      · rw [if_pos h1, if_pos (by omega)]
        congr 1
        exact Fin.ext h1.symm
      · rw [if_neg (by omega), if_neg (by omega), if_neg (by omega)])
  rw [h1, h2]
  congr 2
  funext k
  rw [if_pos k.2]

theorem mapOut_vec {β : Type} {n : Nat} (f : β → Out α) (x : Fin n → β) (y : Fin n → α) (h : ∀ i, f (x i) = .ok (y i)) :
    mapOut f (List.ofFn x) = .ok (List.ofFn y) := by
  induction n with
  | zero => rfl
  | succ n ih =>
    rw [List.ofFn_succ, List.ofFn_succ]
    simp only [mapOut, h, ih (fun i => x i.succ) (fun i => y i.succ) (fun i => h _), Out.ok_bind, Out.pure_eq]

theorem range_eq (n : Nat) : List.range n = List.ofFn (fun i : Fin n => i.1) := by
  apply List.ext_getElem <;> simp

theorem mapOut_range {n : Nat} {f : Nat → Out α} (y : Fin n → α) (h : ∀ i : Fin n, f i = .ok (y i)) :
    mapOut f (List.range n) = .ok (vec y) := by
  rw [range_eq]
  exact mapOut_vec f _ y h

/-- A call that is undefined for one element, and returns before. -/
theorem mapOut_range_ub {n k : Nat} {f : Nat → Out α} (hk : k < n) (h1 : ∀ i, i < k → ∃ a, f i = .ok a) (h2 : f k = .ub) :
    mapOut f (List.range n) = .ub := by
  have key : ∀ (l : List Nat) (pre post : List Nat), l = pre ++ k :: post → (∀ i ∈ pre, ∃ a, f i = .ok a) →
      mapOut f l = .ub := by
    rintro _ pre post rfl
    induction pre with
    | nil => intro _; simp [mapOut, h2]
    | cons a pre ih =>
      intro h
      obtain ⟨b, hb⟩ := h a (by simp)
      simp [mapOut, hb, ih (fun i hi => h i (by simp [hi]))]
  refine key _ (List.range k) ((List.range (n - k - 1)).map (fun i => k + 1 + i)) ?_ ?_
  · apply List.ext_getElem
    · simp; omega
    · intro i h3 h4
      rcases Nat.lt_trichotomy i k with h | h | h
      · rw [List.getElem_append_left (by simpa using h)]; simp
      · subst h; simp
      · rw [List.getElem_append_right (by simp; omega)]
        simp only [List.getElem_range, List.length_range]
        obtain ⟨d, rfl⟩ : ∃ d, i = k + (d + 1) := ⟨i - k - 1, by omega⟩
        simp
        omega
  · intro i hi
    exact h1 i (by simpa using hi)

theorem sized_bool {s n : Nat} : (s == 0 || n == s) = true ↔ Sized s n := by
  rw [Bool.or_eq_true, beq_iff_eq, beq_iff_eq, Sized, eq_comm (a := n)]

theorem sized_promote {s t n : Nat} (hs : Sized s n) (ht : Sized t n) : Sized (promote s t) n := by
  unfold promote
  split
  · exact hs
  · exact ht

theorem vecList_ok {s : Nat} {l : List α} (h : Sized s l.length) : vecList s l = .ok l := by
  unfold vecList
  rw [sized_bool.mpr h]; rfl

theorem vecList_exit {s : Nat} {l : List α} (h : ¬ Sized s l.length) : vecList s l = .exit 1 := by
  unfold vecList
  rw [← sized_bool, Bool.not_eq_true] at h
  rw [h]; rfl

theorem vecOf_ok {s n : Nat} {f : Nat → Out α} (hs : Sized s n) (y : Fin n → α) (h : ∀ i : Fin n, f i = .ok (y i)) :
    vecOf s f n = .ok (vec y) := by
  unfold vecOf
  rw [sized_bool.mpr hs, assert_true, Out.ok_bind]
  exact mapOut_range y h

theorem vecOf_exit {s n : Nat} {f : Nat → Out α} (hs : ¬ Sized s n) : vecOf s f n = .exit 1 := by
  unfold vecOf
  rw [← sized_bool, Bool.not_eq_true] at hs
  rw [hs]; rfl

/-! ### Scalars -/

theorem scale_val {n : Nat} (op : α → α → α) (x : Fin n → α) (a : α) :
    loop n (scaleBody op (.val a)) (vec x) = .ok (vec fun i => op (x i) a) := by
  apply loop_vec
  intro i hi
  simp [scaleBody, rd_vec _ hi]

theorem scale_own {n : Nat} (op : α → α → α) (x : Fin n → α) (k : Fin n) :
    loop n (scaleBody op (.own k.1)) (vec x) =
      .ok (vec fun i => op (x i) (if i ≤ k then x k else op (x k) (x k))) := by
  apply loop_vec
  intro i hi
  simp only [scaleBody, rd_vec _ hi, rd_vec _ k.2, Out.ok_bind]
  congr 1
  simp only [Nat.lt_irrefl, if_false, Fin.le_def]
  by_cases h : i ≤ k.1
  · rw [if_neg (by omega), if_pos h]
  · rw [if_pos (by omega), if_neg h, if_pos (Nat.le_refl _)]

theorem scale_own_ub {n k : Nat} (op : α → α → α) (x : Fin n → α) (hn : n ≠ 0) (hk : n ≤ k) :
    loop n (scaleBody op (.own k)) (vec x) = .ub := by
  refine loop_fail (i := 0) (s' := vec x) (by omega) rfl ?_
  simp [scaleBody, rd_ub (show (vec x).length ≤ k by simpa using hk)]

/-! ### Sums -/

theorem acc_some {n : Nat} (op : α → α → α) (x y : Fin n → α) :
    loop n (accBody op (some (vec y))) (vec x) = .ok (vec fun i => op (x i) (y i)) := by
  apply loop_vec
  intro i hi
  simp [accBody, rd_vec _ hi]

theorem acc_none {n : Nat} (op : α → α → α) (x : Fin n → α) :
    loop n (accBody op none) (vec x) = .ok (vec fun i => op (x i) (x i)) := by
  apply loop_vec
  intro i hi
  simp [accBody, rd_vec _ hi]

theorem addAssign_ok [Add α] {n : Nat} (x y : Fin n → α) : addAssign (vec x) (some (vec y)) = .ok (vec (x + y)) := by
  simp only [addAssign, vec_length, Option.getD, beq_self_eq_true, assert_true, Out.ok_bind]
  exact acc_some (· + ·) x y

theorem addAssign_self [Add α] {n : Nat} (x : Fin n → α) : addAssign (vec x) none = .ok (vec (x + x)) := by
  simp only [addAssign, vec_length, Option.getD, beq_self_eq_true, assert_true, Out.ok_bind]
  exact acc_none (· + ·) x

theorem subAssign_ok [Sub α] {n : Nat} (x y : Fin n → α) : subAssign (vec x) (some (vec y)) = .ok (vec (x - y)) := by
  simp only [subAssign, vec_length, Option.getD, beq_self_eq_true, assert_true, Out.ok_bind]
  exact acc_some (· - ·) x y

theorem subAssign_self [Sub α] {n : Nat} (x : Fin n → α) : subAssign (vec x) none = .ok (vec (x - x)) := by
  simp only [subAssign, vec_length, Option.getD, beq_self_eq_true, assert_true, Out.ok_bind]
  exact acc_none (· - ·) x

theorem add_ok [Add α] {s t n : Nat} (hs : Sized s n) (ht : Sized t n) (x y : Fin n → α) :
    add s t (vec x) (vec y) = .ok (vec (x + y)) := by
  unfold add
  simp only [vec_length, beq_self_eq_true, assert_true, Out.ok_bind]
  exact vecOf_ok (sized_promote hs ht) _ (fun i => by simp [rd_vec _ i.2])

theorem sub_ok [Sub α] {s t n : Nat} (hs : Sized s n) (ht : Sized t n) (x y : Fin n → α) :
    sub s t (vec x) (vec y) = .ok (vec (x - y)) := by
  unfold sub
  simp only [vec_length, beq_self_eq_true, assert_true, Out.ok_bind]
  exact vecOf_ok (sized_promote hs ht) _ (fun i => by simp [rd_vec _ i.2])

/-! ### Inner product -/

theorem foldl_sum [AddCommMonoid α] [Mul α] (l : List (α × α)) (a : α) :
    l.foldl (fun s p => s + p.1 * p.2) a = a + (l.map fun p => p.1 * p.2).sum := by
  induction l generalizing a with
  | nil => simp
  | cons p l ih => simp [ih, add_assoc]

theorem dot_ok [NonUnitalNonAssocSemiring α] {n : Nat} (x y : Fin n → α) : dot (vec x) (vec y) = .ok (x ⬝ᵥ y) := by
  unfold dot innerProduct
  simp only [vec_length, beq_self_eq_true, assert_true, Out.ok_bind, Nat.le_refl, if_true, Out.ok.injEq]
  rw [foldl_sum, zero_add, dotProduct, ← List.sum_ofFn]
  congr 1
  apply List.ext_getElem
  · simp
  · intro i h1 h2
    simp [vec]

theorem dot_exit [NonUnitalNonAssocSemiring α] {v w : List α} (h : v.length ≠ w.length) : dot v w = .exit 1 := by
  unfold dot
  rw [show (v.length == w.length) = false by simpa using h]; rfl

end Disa.Dense
