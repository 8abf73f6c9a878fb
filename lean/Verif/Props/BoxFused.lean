import Verif.Props.BoxFloat
import Verif.Props.FusedSweep
import Verif.Props.LuMonotoneFused

/-!
# Property C232: bounds that are integers hold with doubles, whatever operations are fused
-/

namespace Disa.Props

open Disa Spec Dense Num Sparse Iterative Fused

variable {fuse : Hist → Hist → Hist → Bool} {n : Nat}

/-- Rounding keeps bounds that are integers. -/
theorem binary64_between {P Q : ℤ} {q : ℚ} (hP : |P| < 2 ^ 53) (hQ : |Q| < 2 ^ 53) (h1 : (P : ℚ) ≤ q) (h2 : q ≤ Q) :
    ∃ r, binary64 q = .fin r ∧ (P : ℚ) ≤ r ∧ r ≤ Q := by
  obtain ⟨r, hr⟩ := binary64_squeeze h1 h2 (double_int hP) (double_int hQ)
  exact ⟨r, hr, binary64_fin_mono h1 (double_int hP) hr, binary64_fin_mono h2 hr (double_int hQ)⟩

/-- So does a product in a sum, rounded or not. -/
theorem operand_between {P Q : ℤ} {a b : Fused binary64 fuse} {x y : ℚ} (ha : a.get = .fin x) (hb : b.get = .fin y) (h : Hist)
    (hP : |P| < 2 ^ 53) (hQ : |Q| < 2 ^ 53) (h1 : (P : ℚ) ≤ x * y) (h2 : x * y ≤ Q) :
    ∃ r, (a * b).operand h = .fin r ∧ (P : ℚ) ≤ r ∧ r ≤ Q := by
  rw [operand_get ha hb]
  split
  · exact ⟨_, rfl, h1, h2⟩
  · exact binary64_between hP hQ h1 h2

/-- The products of a row with values between integers, added up. -/
theorem fold_between (f : Nat → ℤ) (lo hi : ℤ) (i : Fin n) (Y : Fin n → Fused binary64 fuse) (y : Fin n → ℚ)
    (hY : ∀ j, (Y j).get = .fin (y j) ∧ (lo : ℚ) ≤ y j ∧ y j ≤ hi) (r : List (Nat × Fused binary64 fuse))
    (hr : ∀ e ∈ r, e.1 < n ∧ e.2.get = .fin (f e.1 : ℚ) ∧ (e.1 ≠ i.1 → f e.1 ≤ 0)) :
    ∀ (v : Fused binary64 fuse) (p : ℚ) (P Q : ℤ), v.get = .fin p → v.Stored → (P : ℚ) ≤ p → p ≤ Q →
      |P| + (r.map fun e => if e.1 = i.1 then 0 else |f e.1| * |hi|).sum < 2 ^ 53 →
      |Q| + (r.map fun e => if e.1 = i.1 then 0 else |f e.1| * |lo|).sum < 2 ^ 53 →
      ∃ q, (r.foldl (fun v e => if e.1 = i.1 then v else v + e.2 * (vec Y).getD e.1 0) v).get = .fin q ∧
        (r.foldl (fun v e => if e.1 = i.1 then v else v + e.2 * (vec Y).getD e.1 0) v).Stored ∧
        ((P + (r.map fun e => if e.1 = i.1 then 0 else f e.1 * hi).sum : ℤ) : ℚ) ≤ q ∧
        q ≤ ((Q + (r.map fun e => if e.1 = i.1 then 0 else f e.1 * lo).sum : ℤ) : ℚ) := by
  induction r with
  | nil =>
    intro v p P Q h1 h2 h3 h4 _ _
    exact ⟨p, h1, h2, by simpa using h3, by simpa using h4⟩
  | cons e r ih =>
    intro v p P Q h1 h2 h3 h4 h5 h6
    rw [List.map_cons, List.sum_cons] at h5 h6
    have nn : ∀ c : ℤ, 0 ≤ (r.map fun e => if e.1 = i.1 then 0 else |f e.1| * |c|).sum := fun c => List.sum_nonneg (by
      intro x hx
      obtain ⟨e, -, rfl⟩ := List.mem_map.mp hx
      split
      · exact le_rfl
      · positivity)
    have n1 := nn hi
    have n2 := nn lo
    have ih := ih fun e he => hr e (by simp [he])
    obtain ⟨g1, g2, g3⟩ := hr e (by simp)
    rw [List.foldl_cons, List.map_cons, List.sum_cons, List.map_cons, List.sum_cons]
    by_cases hi' : e.1 = i.1
    · simp only [hi', if_true, zero_add] at h5 h6 ⊢
      exact ih v p P Q h1 h2 h3 h4 h5 h6
    · simp only [hi', if_false] at h5 h6 ⊢
      rw [← abs_mul] at h5 h6
      have b1 := abs_nonneg P
      have b2 := abs_nonneg Q
      have b3 := abs_nonneg (f e.1 * hi)
      have b4 := abs_nonneg (f e.1 * lo)
      have b5 := abs_add_le P (f e.1 * hi)
      have b6 := abs_add_le Q (f e.1 * lo)
      have f0 : (f e.1 : ℚ) ≤ 0 := by exact_mod_cast g3 hi'
      have e1 : (vec Y).getD e.1 0 = Y ⟨e.1, g1⟩ := by
        unfold vec
        rw [List.getD_eq_getElem?_getD, List.getElem?_ofFn, dif_pos g1]
        rfl
      rw [e1]
      obtain ⟨y1, y2, y3⟩ := hY ⟨e.1, g1⟩
      obtain ⟨s, s1, s2, s3⟩ := operand_between (P := f e.1 * hi) (Q := f e.1 * lo) g2 y1 v.hist (by omega) (by omega)
        (by push_cast; exact mul_le_mul_of_nonpos_left y3 f0) (by push_cast; exact mul_le_mul_of_nonpos_left y2 f0)
      push_cast at s2 s3
      obtain ⟨q, q1, q2, q3⟩ := binary64_between (P := P + f e.1 * hi) (Q := Q + f e.1 * lo) (q := p + s) (by omega) (by omega)
        (by push_cast; linarith) (by push_cast; linarith)
      have hq : (v + e.2 * Y ⟨e.1, g1⟩).get = .fin q := by
        show Fl.add binary64 v.get ((e.2 * Y ⟨e.1, g1⟩).operand v.hist) = _
        rw [h1, s1]
        exact q1
      have := ih _ q _ _ hq (stored_add _ _) q2 q3 (by omega) (by omega)
      rwa [add_assoc, add_assoc] at this

/-- The rows of a matrix of integers with a positive diagonal and no other positive elements. -/
structure IntRowsF (m : Sparse (Fused binary64 fuse)) (L : Rows (Fused binary64 fuse)) (A : Fin n → Fin n → Fused binary64 fuse)
    (a : Fin n → Fin n → ℤ) : Prop where
  rep : m.Rep L
  bounded : Bounded n L
  length : L.length = n
  diag : ∀ i : Fin n, entry L i i = some (A i i)
  value : ∀ i j, (A i j).get = .fin (a i j : ℚ)
  elem : ∀ i : Fin n, ∀ e ∈ row L i, ∃ h : e.1 < n, e.2 = A i ⟨e.1, h⟩
  pos : ∀ i, 0 < a i i
  off : ∀ i j, i ≠ j → a i j ≤ 0
  sorted : Sorted L
  absent : ∀ i j : Fin n, j.1 ∉ (row L i).map Prod.fst → a i j = 0

theorem intRowsF {m : Sparse (Fused binary64 fuse)} {A : Fin n → Fin n → Fused binary64 fuse} {a : Fin n → Fin n → ℤ} (hm : Square m A)
    (hA : ∀ i j, (A i j).get = .fin (a i j : ℚ)) (hd : ∀ i, 0 < a i i) (ho : ∀ i j, i ≠ j → a i j ≤ 0) : ∃ L, IntRowsF m L A a := by
  obtain ⟨L, h1, h2, h3, h4, h5⟩ := square_rep hm
  refine ⟨L, h1, h3, h4, fun i => diag_fused h5 (hA i i) (by exact_mod_cast (hd i).ne'), hA, fun i e he => ?_, hd, ho, h2, fun i j hj => ?_⟩
  · have hb := h3 i e he
    have e1 : entry L i e.1 = some e.2 := (lookup_eq_some (h2 i)).mpr he
    refine ⟨hb, ?_⟩
    have := h5 i ⟨e.1, hb⟩
    rw [show entry L i (⟨e.1, hb⟩ : Fin n) = some e.2 from e1] at this
    exact this
  · have e1 : entry L i j = none := by
      by_contra hc
      exact hj (mem_keys_iff.mpr hc)
    have := h5 i j
    rw [e1] at this
    have h0 := hA i j
    rw [← this] at h0
    have h1 : (Fl.fin 0) = .fin (a i j : ℚ) := h0
    rw [Fl.fin.injEq] at h1
    exact_mod_cast h1.symm

/-- The new value of an unknown keeps the bounds. -/
theorem newValue_between {sqrt : Fused binary64 fuse → Fused binary64 fuse} {m : Sparse (Fused binary64 fuse)} {L : Rows (Fused binary64 fuse)}
    {A : Fin n → Fin n → Fused binary64 fuse} {a : Fin n → Fin n → ℤ} (h : IntRowsF m L A a) (lo hi : ℤ) (i : Fin n)
    (hlo : (∑ j, |a i j|) * |lo| < 2 ^ 53) (hhi : (∑ j, |a i j|) * |hi| < 2 ^ 53) (B : Fin n → Fused binary64 fuse) {b : ℚ}
    (hB : (B i).get = .fin b) (hb : (((∑ j, a i j) * lo : ℤ) : ℚ) ≤ b ∧ b ≤ ((∑ j, a i j) * hi : ℤ)) (Y : Fin n → Fused binary64 fuse)
    (y : Fin n → ℚ) (hY : ∀ j, (Y j).get = .fin (y j) ∧ (lo : ℚ) ≤ y j ∧ y j ≤ hi) :
    ∃ q, (newValue (fusedFloats binary64 fuse sqrt) L B (fusedFloats binary64 fuse sqrt).one (A i i) Y i).get = .fin q ∧
      (lo : ℚ) ≤ q ∧ q ≤ hi := by
  have hp := h.pos i
  have hp' : (0 : ℚ) < a i i := by exact_mod_cast hp
  set f : Nat → ℤ := fun j => if h : j < n then a i ⟨j, h⟩ else 0 with hf
  have hfj : ∀ j : Fin n, f j = a i j := fun j => by simp [hf]
  have hr : ∀ e ∈ row L i, e.1 < n ∧ e.2.get = .fin (f e.1 : ℚ) ∧ (e.1 ≠ i.1 → f e.1 ≤ 0) := by
    intro e he
    obtain ⟨h1, h2⟩ := h.elem i e he
    refine ⟨h1, by rw [h2, h.value]; simp [hf, h1], fun hne => ?_⟩
    rw [show f e.1 = a i ⟨e.1, h1⟩ by simp [hf, h1]]
    exact h.off i _ fun hc => hne (congrArg Fin.val hc).symm
  have hpw : (row L i).Pairwise fun a b => a.1 < b.1 := by
    have := h.sorted i
    unfold keys at this
    rwa [List.pairwise_map] at this
  have hb' : ∀ e ∈ row L i, e.1 < n := fun e he => (hr e he).1
  have hab : ∀ j : Fin n, j.1 ∉ (row L i).map Prod.fst → f j = 0 := fun j hj => by rw [hfj, h.absent i j hj]
  have s1 : ∀ c : ℤ, ((row L i).map fun e => if e.1 = i.1 then 0 else |f e.1| * |c|).sum + |a i i| * |c| = (∑ j, |a i j|) * |c| := by
    intro c
    have s1 := row_sum hpw hb' (fun j => if j = i.1 then 0 else |f j| * |c|) (fun j hj => by simp [hab j hj])
    simp only [hfj, ← Fin.ext_iff] at s1
    rw [s1, Finset.sum_mul, ← Finset.add_sum_erase _ _ (Finset.mem_univ i),
      ← Finset.add_sum_erase Finset.univ (fun j => |a i j| * |c|) (Finset.mem_univ i), if_pos rfl, zero_add, add_comm]
    congr 1
    exact Finset.sum_congr rfl fun j hj => if_neg (Finset.ne_of_mem_erase hj)
  have s2 : ∀ c : ℤ, ((row L i).map fun e => if e.1 = i.1 then 0 else f e.1 * c).sum + a i i * c = (∑ j, a i j) * c := by
    intro c
    have s2 := row_sum hpw hb' (fun j => if j = i.1 then 0 else f j * c) (fun j hj => by simp [hab j hj])
    simp only [hfj, ← Fin.ext_iff] at s2
    rw [s2, Finset.sum_mul, ← Finset.add_sum_erase _ _ (Finset.mem_univ i),
      ← Finset.add_sum_erase Finset.univ (fun j => a i j * c) (Finset.mem_univ i), if_pos rfl, zero_add, add_comm]
    congr 1
    exact Finset.sum_congr rfl fun j hj => if_neg (Finset.ne_of_mem_erase hj)
  have nn : ∀ c : ℤ, 0 ≤ ((row L i).map fun e => if e.1 = i.1 then 0 else |f e.1| * |c|).sum := fun c => List.sum_nonneg (by
    intro x hx
    obtain ⟨e, -, rfl⟩ := List.mem_map.mp hx
    split
    · exact le_rfl
    · positivity)
  have small : ∀ c : ℤ, (∑ j, |a i j|) * |c| < 2 ^ 53 → |a i i * c| < 2 ^ 53 ∧ |c| < 2 ^ 53 := by
    intro c hc
    have h1 := s1 c
    have h2 := nn c
    have h3 : |c| ≤ |a i i| * |c| := by
      have h1 : 1 ≤ |a i i| := by rw [abs_of_pos hp]; omega
      nlinarith [abs_nonneg c]
    rw [abs_mul]
    omega
  obtain ⟨l1, l2⟩ := small lo hlo
  obtain ⟨u1, u2⟩ := small hi hhi
  have hz : ∀ c : ℤ, (∑ j, |a i j|) * |c| < 2 ^ 53 →
      |(0 : ℤ)| + ((row L i).map fun e => if e.1 = i.1 then 0 else |f e.1| * |c|).sum < 2 ^ 53 := by
    intro c hc
    have h1 := s1 c
    have h2 := abs_nonneg (a i i * c)
    rw [abs_mul] at h2
    rw [abs_zero]
    omega
  obtain ⟨s, q1, q2, q3, q4⟩ := fold_between f lo hi i Y y hY (row L i) hr 0 0 0 0 rfl stored_zero (by simp) (by simp) (hz hi hhi) (hz lo hlo)
  rw [zero_add] at q3 q4
  unfold newValue
  set v := (row L i).foldl (fun v e => if e.1 = i.1 then v else v + e.2 * (vec Y).getD e.1 0) 0 with hv
  have t1 := s2 lo
  have t2 := s2 hi
  -- the right hand side without the products
  obtain ⟨z, z1, z2, z3⟩ := binary64_between (P := a i i * lo) (Q := a i i * hi) (q := b - s) l1 u1
    (by
      have : ((a i i * lo : ℤ) : ℚ) = (((∑ j, a i j) * lo : ℤ) : ℚ) - (((row L i).map fun e => if e.1 = i.1 then 0 else f e.1 * lo).sum : ℤ) := by
        rw [← t1]; push_cast; ring
      rw [this]
      linarith [hb.1])
    (by
      have : ((a i i * hi : ℤ) : ℚ) = (((∑ j, a i j) * hi : ℤ) : ℚ) - (((row L i).map fun e => if e.1 = i.1 then 0 else f e.1 * hi).sum : ℤ) := by
        rw [← t2]; push_cast; ring
      rw [this]
      linarith [hb.2])
  have g1 : (B i - v).get = .fin z := sub_get hB ((q2 _).trans q1) z1
  obtain ⟨w, w1, w2, w3⟩ := binary64_between (P := a i i * lo) (Q := a i i * hi) (q := 1 * z) l1 u1 (by linarith) (by linarith)
  have g2 : ((fusedFloats binary64 fuse sqrt).one * (B i - v)).get = .fin w := by
    show Fl.mul binary64 (.fin 1) (B i - v).get = _
    rw [g1]
    exact w1
  push_cast at w2 w3
  obtain ⟨t, t3, t4, t5⟩ := binary64_between (P := lo) (Q := hi) (q := w / a i i) l2 u2
    (by rw [le_div_iff₀ hp']; linarith) (by rw [div_le_iff₀ hp']; linarith)
  have g3 : ((fusedFloats binary64 fuse sqrt).one * (B i - v) / A i i).get = .fin t := div_get g2 (h.value i i) hp'.ne' t3
  obtain ⟨r, r1, r2, r3⟩ := binary64_between (P := lo) (Q := hi) (q := t + 0) l2 u2 (by linarith) (by linarith)
  refine ⟨r, ?_, r2, r3⟩
  have g4 : ((fusedFloats binary64 fuse sqrt).one - (fusedFloats binary64 fuse sqrt).one).get = .fin 0 :=
    sub_get (x := 1) (p := 1) rfl rfl (by rw [sub_self]; exact binary64_zero)
  have g5 : (((fusedFloats binary64 fuse sqrt).one - (fusedFloats binary64 fuse sqrt).one) * Y i).operand
      ((fusedFloats binary64 fuse sqrt).one * (B i - v) / A i i).hist = .fin 0 := by
    rw [operand_get g4 (hY i).1, zero_mul]
    split
    · rfl
    · exact binary64_zero
  show Fl.add binary64 _ _ = _
  rw [g3, g5]
  exact r1

variable {sqrt : Fused binary64 fuse → Fused binary64 fuse} {m : Sparse (Fused binary64 fuse)} {k : Method}

/-- C232: let the elements be integers, positive on the diagonal and not positive elsewhere, and the bounds be integers.  If the right
hand side lies between the products of the matrix with the bounds, no iterate that starts between the bounds overflows or leaves them,
whatever operations are fused. -/
theorem c232_box (hk : k ≠ .sor) (s : FixedPoint (Fused binary64 fuse)) (A : Fin n → Fin n → Fused binary64 fuse) (hm : Square m A)
    (a : Fin n → Fin n → ℤ) (hA : ∀ i j, (A i j).get = .fin (a i j : ℚ)) (hd : ∀ i, 0 < a i i) (ho : ∀ i j, i ≠ j → a i j ≤ 0) (lo hi : ℤ)
    (hlo : ∀ i, (∑ j, |a i j|) * |lo| < 2 ^ 53) (hhi : ∀ i, (∑ j, |a i j|) * |hi| < 2 ^ 53) (B : Fin n → Fused binary64 fuse) (b : Fin n → ℚ)
    (hB : ∀ i, (B i).get = .fin (b i)) (hb : ∀ i, (((∑ j, a i j) * lo : ℤ) : ℚ) ≤ b i ∧ b i ≤ ((∑ j, a i j) * hi : ℤ))
    (X : Fin n → Fused binary64 fuse) (x : Fin n → ℚ) (hX : ∀ i, (X i).get = .fin (x i)) (hx : ∀ i, (lo : ℚ) ≤ x i ∧ x i ≤ hi)
    (w : List (Fused binary64 fuse)) (hw : k = .jacobi → w.length = n) (j : Nat) :
    ∃ (Z : Fin n → Fused binary64 fuse) (z : Fin n → ℚ) (w' : List (Fused binary64 fuse)),
      times (step (fusedFloats binary64 fuse sqrt) k s m (vec B)) j (vec X, w) = .ok (vec Z, w') ∧ (∀ i, (Z i).get = .fin (z i)) ∧
      ∀ i, (lo : ℚ) ≤ z i ∧ z i ≤ hi := by
  obtain ⟨L, hL⟩ := intRowsF hm hA hd ho
  suffices H : ∃ (Z : Fin n → Fused binary64 fuse) (z : Fin n → ℚ) (w' : List (Fused binary64 fuse)),
      times (step (fusedFloats binary64 fuse sqrt) k s m (vec B)) j (vec X, w) = .ok (vec Z, w') ∧ (k = .jacobi → w'.length = n) ∧
      ∀ i, (Z i).get = .fin (z i) ∧ (lo : ℚ) ≤ z i ∧ z i ≤ hi by
    obtain ⟨Z, z, w', h1, -, h2⟩ := H
    exact ⟨Z, z, w', h1, fun i => (h2 i).1, fun i => (h2 i).2⟩
  induction j with
  | zero => exact ⟨X, x, w, rfl, hw, fun i => ⟨hX i, hx i⟩⟩
  | succ j ih =>
    obtain ⟨Z, z, w', e1, e2, e3⟩ := ih
    obtain ⟨v, w'', f1, f2, f3⟩ := step_gen (fusedFloats binary64 fuse sqrt) k s hL.rep hL.bounded hL.length (fun i => A i i) hL.diag B Z w' e2
    simp only [if_neg hk] at f3
    have key : ∀ i, ∃ q, (v i).get = .fin q ∧ (lo : ℚ) ≤ q ∧ q ≤ hi := by
      refine fin_strong fun i ih => ?_
      have hy : ∀ l, ∃ q : ℚ, (if k ≠ .jacobi ∧ l < i then v l else Z l).get = .fin q ∧ (lo : ℚ) ≤ q ∧ q ≤ hi := by
        intro l
        split
        · rename_i hl
          exact ih l hl.2
        · exact ⟨z l, e3 l⟩
      choose y hy using hy
      rw [f3 i]
      exact newValue_between hL lo hi i (hlo i) (hhi i) B (hB i) (hb i) _ y hy
    choose q hq using key
    exact ⟨v, q, w'', by rw [times_succ, e1]; exact f1, f2, hq⟩

/-- C232: so the maximum principle of C186 for graphs with given values does not depend on which operations are fused. -/
theorem c232_graph (g : Graph) (h : Reachable false g) (fixed : Nat → Bool) (ha : Anchored g fixed) (hn : g.sizeVertex < 2 ^ 52)
    (lo hi : ℤ) (hlo : 2 * g.sizeVertex * |lo| < 2 ^ 53) (hhi : 2 * g.sizeVertex * |hi| < 2 ^ 53) (one minus : Fused binary64 fuse)
    (number : Nat → Fused binary64 fuse) (h1 : one.get = .fin 1) (h2 : minus.get = .fin (-1))
    (h3 : ∀ d : Nat, (number d).get = (Ints.toScalar d : Num binary64)) :
    ∃ m, boundaryBy one minus number g fixed = .ok m ∧ ∀ (k : Method), k ≠ .sor → ∀ (s : FixedPoint (Fused binary64 fuse))
      (B X : Fin g.sizeVertex → Fused binary64 fuse) (b x : Fin g.sizeVertex → ℚ), (∀ i, (B i).get = .fin (b i)) → (∀ i, (X i).get = .fin (x i)) →
      (∀ i : Fin g.sizeVertex, if fixed i then (lo : ℚ) ≤ b i ∧ b i ≤ hi else b i = 0) → (∀ i, (lo : ℚ) ≤ x i ∧ x i ≤ hi) →
      ∀ w, (k = .jacobi → w.length = g.sizeVertex) → ∀ j,
      ∃ (Z : Fin g.sizeVertex → Fused binary64 fuse) (z : Fin g.sizeVertex → ℚ) (w' : List (Fused binary64 fuse)),
        times (step (fusedFloats binary64 fuse sqrt) k s m (vec B)) j (vec X, w) = .ok (vec Z, w') ∧ (∀ i, (Z i).get = .fin (z i)) ∧
        ∀ i, (lo : ℚ) ≤ z i ∧ z i ≤ hi := by
  classical
  obtain ⟨-, a, -, -, hof, hsmall⟩ := boundaryF_ok g h fixed hn
  obtain ⟨m, k1, k2, k3, k4, k5⟩ := boundary_lookup one minus number g h fixed
  choose d hd hs using fun i => degree_sum (K := ℚ) h i
  have hdn : ∀ i, d i ≤ g.sizeVertex := by
    intro i
    have : (d i : ℚ) ≤ g.sizeVertex := by
      rw [hs i]
      refine (Finset.sum_le_sum (g := fun _ => (1 : ℚ)) fun j _ => ?_).trans (by simp)
      split <;> norm_num
    exact_mod_cast this
  have hc := boundary_chained h hof ha
  have hsig := boundary_signed h hof fun i => chain_diag hc.1 (hc.2 i)
  have hsum : ∀ (c : ℤ) (i : Fin g.sizeVertex), (((∑ j, a i j) * c : ℤ) : ℚ) = if fixed i then (c : ℚ) else 0 := by
    intro c i
    have := boundary_sum h hof ha i
    push_cast
    rw [this]
    split <;> simp
  have hbound : ∀ c : ℤ, 2 * g.sizeVertex * |c| < 2 ^ 53 → ∀ i, (∑ j, |a i j|) * |c| < 2 ^ 53 := fun c hc i =>
    lt_of_le_of_lt (mul_le_mul_of_nonneg_right (hsmall i) (abs_nonneg c)) hc
  refine ⟨m, k1, fun k hk s B X b x hB hX hb hx w hw j => ?_⟩
  refine c232_box (m := m) (a := a) hk s (fun i j => if i = j then (if fixed i then one else number (d i)) else
    if fixed i = false ∧ Adj g i j then minus else 0) ⟨k2, k3, k4, fun i j => ?_⟩ ?_ (fun i => by have := hsig.1 i; simp only at this; exact_mod_cast this)
    (fun i j hij => by have := hsig.2 i j hij; simp only at this; exact_mod_cast this) lo hi (hbound lo hlo) (hbound hi hhi) B b hB (fun i => ?_) X x hX hx w hw j
  · unfold Spec.val
    rw [k5 i j (d i) (hd i)]
    show Out.ok _ = Out.ok _
    congr 1
    simp only
    by_cases hij : i = j
    · rw [if_pos hij, if_pos hij]
      rfl
    · rw [if_neg hij, if_neg hij]
      by_cases hc : fixed i = false ∧ Adj g i j
      · rw [if_pos hc, if_pos hc]
        rfl
      · rw [if_neg hc, if_neg hc]
        rfl
  · intro i j
    by_cases hij : i = j
    · subst hij
      rw [if_pos rfl]
      cases hf : fixed i with
      | true =>
        have := hof.given i i hf
        rw [if_pos rfl] at this
        rw [if_pos rfl, h1, this]
      | false =>
        have := hof.diagonal i (d i) hf (hd i)
        rw [if_neg (by simp), h3, this]
        have e1 : (Ints.toScalar (d i) : Num binary64) = fin ((d i : ℤ) : ℚ) := toScalar_int (by have := hdn i; rw [abs_of_nonneg (by omega)]; omega)
        exact e1
    · rw [if_neg hij]
      cases hf : fixed i with
      | true =>
        have := hof.given i j hf
        rw [if_neg hij] at this
        rw [if_neg (by simp), this]
        rfl
      | false =>
        have := hof.off i j hf hij
        rw [this]
        by_cases hadj : Adj g i j
        · rw [if_pos ⟨rfl, hadj⟩, if_pos hadj, h2]
        · rw [if_neg (by simp [hadj]), if_neg hadj]
          rfl
  · rw [hsum, hsum]
    have := hb i
    split at this
    · rename_i hf
      rw [if_pos hf, if_pos hf]
      exact this
    · rename_i hf
      rw [if_neg hf, if_neg hf, this]
      exact ⟨le_rfl, le_rfl⟩

/-- Numbers, a graph and bounds that meet the hypotheses, whichever products are fused: the kite with values between -1 and 1. -/
example (fuse : Hist → Hist → Hist → Bool) (sqrt : Fused binary64 fuse → Fused binary64 fuse) (s : FixedPoint (Fused binary64 fuse)) (j : Nat) :
    ∃ (m : Sparse (Fused binary64 fuse)) (Z : Fin kite.sizeVertex → Fused binary64 fuse) (z : Fin kite.sizeVertex → ℚ)
      (w : List (Fused binary64 fuse)),
      boundaryBy (inp 1 1) (inp 2 (-1)) (fun d => .num (Ints.toScalar d : Num binary64) (.input (3 + d))) kite ends = .ok m ∧
      times (step (fusedFloats binary64 fuse sqrt) .gaussSeidel s m (vec fun i : Fin kite.sizeVertex => inp 9 (if ends i then 1 else 0))) j
        (vec fun _ : Fin kite.sizeVertex => inp 9 (-1 / 3), []) = .ok (vec Z, w) ∧ (∀ i, (Z i).get = .fin (z i)) ∧ ∀ i, -1 ≤ z i ∧ z i ≤ 1 := by
  obtain ⟨m, h1, h2⟩ := c232_graph (fuse := fuse) (sqrt := sqrt) kite kite_reachable ends kite_anchored (by decide) (-1) 1 (by decide)
    (by decide) (inp 1 1) (inp 2 (-1)) (fun d => .num (Ints.toScalar d : Num binary64) (.input (3 + d))) rfl rfl (fun _ => rfl)
  obtain ⟨Z, z, w, h3, h4, h5⟩ := h2 .gaussSeidel (by simp) s (fun i => inp 9 (if ends i then 1 else 0)) (fun _ => inp 9 (-1 / 3))
    (fun i => if ends i then 1 else 0) (fun _ => -1 / 3) (fun _ => rfl) (fun _ => rfl)
    (fun i => by
      by_cases hi : ends i = true
      · simp [hi]
      · simp [hi]) (fun _ => by norm_num) [] (by simp) j
  exact ⟨m, Z, z, w, h1, h3, h4, fun i => by simpa using h5 i⟩

end Disa.Props
