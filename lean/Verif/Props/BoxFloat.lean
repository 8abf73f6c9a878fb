import Verif.Props.MonotoneFloat
import Verif.Props.IntsScalar
import Verif.Props.Boundary

/-!
# Property C186: bounds that are integers hold with doubles
-/

namespace Disa.Props

open Disa Spec Dense Num Sparse Iterative

variable {sqrt : Num binary64 → Num binary64} {n : Nat} {L : Rows (Num binary64)}

/-- `newValue_squeeze` with right hand sides that differ. -/
theorem newValue_squeezes {b b' b'' z z' z'' : Fin n → ℚ} {d : ℚ} (hd : 0 < d) {i : Fin n} {y y'' : ℚ}
    (hr : ∀ e ∈ row L i, e.1 ≠ i → ∃ a, e.2 = fin a ∧ a ≤ 0) (hb : b i ≤ b' i) (hb' : b' i ≤ b'' i) (hz : ∀ j, z j ≤ z' j)
    (hz' : ∀ j, z' j ≤ z'' j)
    (h : newValue (floats binary64 sqrt) L (fun i => fin (b i)) (fin 1) (fin d) (fun i => fin (z i)) i = fin y)
    (h'' : newValue (floats binary64 sqrt) L (fun i => fin (b'' i)) (fin 1) (fin d) (fun i => fin (z'' i)) i = fin y'') :
    ∃ y', newValue (floats binary64 sqrt) L (fun i => fin (b' i)) (fin 1) (fin d) (fun i => fin (z' i)) i = fin y' := by
  obtain ⟨s, u, v, t, h1, h2, h3, h4, h5⟩ := newValue_steps hd.ne' h
  obtain ⟨s'', u'', v'', t'', k1, k2, k3, k4, k5⟩ := newValue_steps hd.ne' h''
  obtain ⟨s', l1⟩ := sumOff_squeeze hz hz' _ hr le_rfl le_rfl h1 k1
  have a1 := sumOff_anti hz _ hr le_rfl h1 l1
  have a2 := sumOff_anti hz' _ hr le_rfl l1 k1
  obtain ⟨u', l2⟩ := binary64_squeeze (q := b' i - s') (by linarith) (by linarith) h2 k2
  have b1 := binary64_fin_mono (by linarith) h2 l2
  have b2 := binary64_fin_mono (by linarith) l2 k2
  obtain ⟨v', l3⟩ := binary64_squeeze (q := 1 * u') (by linarith) (by linarith) h3 k3
  have c1 := binary64_fin_mono (by linarith) h3 l3
  have c2 := binary64_fin_mono (by linarith) l3 k3
  have d1 := div_le_div_of_nonneg_right c1 hd.le
  have d2 := div_le_div_of_nonneg_right c2 hd.le
  obtain ⟨t', l4⟩ := binary64_squeeze d1 d2 h4 k4
  have e1 := binary64_fin_mono d1 h4 l4
  have e2 := binary64_fin_mono d2 l4 k4
  obtain ⟨y', l5⟩ := binary64_squeeze (q := t' + 0) (by linarith) (by linarith) h5 k5
  exact ⟨y', newValue_of_steps hd.ne' l1 l2 l3 l4 l5⟩

/-! ### Constant vectors of integers -/

theorem sumOff_int (f : Nat → ℤ) (c : ℤ) (i : Fin n) (r : List (Nat × Num binary64)) (hr : ∀ e ∈ r, e.1 < n ∧ e.2 = fin (f e.1 : ℚ)) :
    ∀ p : ℤ, |p| + (r.map fun e => if e.1 = i.1 then 0 else |f e.1| * |c|).sum < 2 ^ 53 →
      sumOff r i (vec fun _ : Fin n => fin (c : ℚ)) (fin (p : ℚ)) =
        fin ((p + (r.map fun e => if e.1 = i.1 then 0 else f e.1 * c).sum : ℤ) : ℚ) := by
  induction r with
  | nil => intro p _; simp [sumOff]
  | cons e r ih =>
    intro p hp
    rw [List.map_cons, List.sum_cons] at hp
    have hl : 0 ≤ (r.map fun e => if e.1 = i.1 then 0 else |f e.1| * |c|).sum := List.sum_nonneg (by
      intro x hx
      obtain ⟨e, -, rfl⟩ := List.mem_map.mp hx
      split
      · exact le_rfl
      · positivity)
    obtain ⟨h1, h2⟩ := hr e (by simp)
    unfold sumOff at ih ⊢
    rw [List.foldl_cons, List.map_cons, List.sum_cons]
    by_cases hi : e.1 = i.1
    · simp only [hi, if_true, zero_add] at hp ⊢
      exact ih (fun e he => hr e (by simp [he])) p hp
    · simp only [hi, if_false] at hp ⊢
      rw [← abs_mul] at hp
      have hs := abs_nonneg p
      have ht := abs_nonneg (f e.1 * c)
      have ha := abs_add_le p (f e.1 * c)
      have e1 : (vec fun _ : Fin n => (fin (c : ℚ) : Num binary64)).getD e.1 0 = fin (c : ℚ) := by
        rw [getD_vec (fun _ => (c : ℚ)), dif_pos h1]
      have e2 : (fin (f e.1 : ℚ) * fin (c : ℚ) : Num binary64) = fin ((f e.1 * c : ℤ) : ℚ) := by
        refine mul64 ?_
        rw [← Int.cast_mul]
        exact double_int (by omega)
      have e3 : (fin (p : ℚ) + fin ((f e.1 * c : ℤ) : ℚ) : Num binary64) = fin ((p + f e.1 * c : ℤ) : ℚ) := by
        have := double_int (z := p + f e.1 * c) (by omega)
        show binary64 ((p : ℚ) + (f e.1 * c : ℤ)) = _
        rw [← Int.cast_add, this]
        rfl
      rw [h2, e1, e2, e3, ih (fun e he => hr e (by simp [he])) _ (by omega), add_assoc]

/-- Sums over a row and over all columns. -/
theorem row_sum {α : Type} {r : List (Nat × α)} (hs : r.Pairwise fun a b => a.1 < b.1) (hb : ∀ e ∈ r, e.1 < n) (f : Nat → ℤ)
    (h0 : ∀ j : Fin n, j.1 ∉ r.map Prod.fst → f j = 0) : (r.map fun e => f e.1).sum = ∑ j : Fin n, f j := by
  have hnd : (r.map Prod.fst).Nodup := by
    rw [List.nodup_iff_pairwise_ne, List.pairwise_map]
    exact hs.imp fun h => Nat.ne_of_lt h
  have e1 : (r.map fun e => f e.1) = (r.map Prod.fst).map f := by simp
  rw [e1, ← List.sum_toFinset f hnd, ← Finset.sum_range]
  refine Finset.sum_subset (fun j hj => ?_) fun j hj hj' => ?_
  · rw [List.mem_toFinset] at hj
    obtain ⟨e, he, rfl⟩ := List.mem_map.mp hj
    exact Finset.mem_range.mpr (hb e he)
  · rw [List.mem_toFinset] at hj'
    exact h0 ⟨j, Finset.mem_range.mp hj⟩ hj'

/-- What the rows of a matrix of integers that are doubles store. -/
structure IntRows (m : Sparse (Num binary64)) (L : Rows (Num binary64)) (a : Fin n → Fin n → ℤ) : Prop
    extends SignedRows m L (fun i j => (a i j : ℚ)) where
  sorted : Sorted L
  absent : ∀ i j : Fin n, j.1 ∉ (row L i).map Prod.fst → a i j = 0

theorem intRows {m : Sparse (Num binary64)} {a : Fin n → Fin n → ℤ} (hm : Square m fun i j => (fin (a i j : ℚ) : Num binary64))
    (ha : Signed fun i j => (a i j : ℚ)) : ∃ L, IntRows m L a := by
  obtain ⟨L, h1, h2, h3, h4, h5⟩ := square_rep hm
  have hel : ∀ i : Fin n, ∀ e ∈ row L i, ∃ h : e.1 < n, e.2 = fin (a i ⟨e.1, h⟩ : ℚ) := by
    intro i e he
    have hb := h3 i e he
    have e1 : entry L i e.1 = some e.2 := (lookup_eq_some (h2 i)).mpr he
    refine ⟨hb, ?_⟩
    have := h5 i ⟨e.1, hb⟩
    rw [show entry L i (⟨e.1, hb⟩ : Fin n) = some e.2 from e1] at this
    exact this
  refine ⟨L, ⟨⟨h1, h3, h4, fun i => diag_entry h5 i ((ha.1 i).ne'), hel⟩, ha.1, fun i e he hi => ?_⟩, h2, fun i j hj => ?_⟩
  · obtain ⟨hb, e2⟩ := hel i e he
    exact ⟨_, e2, ha.2 i ⟨e.1, hb⟩ fun h => hi (congrArg Fin.val h).symm⟩
  · have e1 : entry L i j = none := by
      by_contra hc
      exact hj (mem_keys_iff.mpr hc)
    have := h5 i j
    rw [e1] at this
    have h0 : (fin 0 : Num binary64) = fin (a i j : ℚ) := this
    exact_mod_cast (fin_inj.mp h0).symm

/-- A constant vector solves its row exactly. -/
theorem newValue_const {m : Sparse (Num binary64)} {a : Fin n → Fin n → ℤ} (h : IntRows m L a) (c : ℤ) (i : Fin n)
    (hc : (∑ j, |a i j|) * |c| < 2 ^ 53) (b : Fin n → ℚ) (hb : b i = ((∑ j, a i j) * c : ℤ)) :
    newValue (floats binary64 sqrt) L (fun i => fin (b i)) (fin 1) (fin (a i i : ℚ)) (fun _ => fin (c : ℚ)) i = fin (c : ℚ) := by
  have hp : (0 : ℚ) < a i i := h.pos i
  have hp' : 0 < a i i := by exact_mod_cast hp
  set f : Nat → ℤ := fun j => if h : j < n then a i ⟨j, h⟩ else 0 with hf
  have hfj : ∀ j : Fin n, f j = a i j := fun j => by simp [hf]
  have hr : ∀ e ∈ row L i, e.1 < n ∧ e.2 = fin (f e.1 : ℚ) := by
    intro e he
    obtain ⟨h1, h2⟩ := h.elem i e he
    exact ⟨h1, by rw [h2]; simp [hf, h1]⟩
  have hpw : (row L i).Pairwise fun a b => a.1 < b.1 := by
    have := h.sorted i
    unfold keys at this
    rwa [List.pairwise_map] at this
  have hb' : ∀ e ∈ row L i, e.1 < n := fun e he => (hr e he).1
  have hab : ∀ j : Fin n, j.1 ∉ (row L i).map Prod.fst → f j = 0 := fun j hj => by rw [hfj, h.absent i j hj]
  have s1 := row_sum hpw hb' (fun j => if j = i.1 then 0 else |f j| * |c|) (fun j hj => by simp [hab j hj])
  have s2 := row_sum hpw hb' (fun j => if j = i.1 then 0 else f j * c) (fun j hj => by simp [hab j hj])
  simp only [hfj, ← Fin.ext_iff] at s1 s2
  have t1 : (∑ j, if j = i then 0 else |a i j| * |c|) + |a i i| * |c| = (∑ j, |a i j|) * |c| := by
    rw [Finset.sum_mul, ← Finset.add_sum_erase _ _ (Finset.mem_univ i), ← Finset.add_sum_erase Finset.univ (fun j => |a i j| * |c|) (Finset.mem_univ i)]
    rw [if_pos rfl, zero_add, add_comm]
    congr 1
    exact Finset.sum_congr rfl fun j hj => if_neg (Finset.ne_of_mem_erase hj)
  have t2 : (∑ j, if j = i then 0 else a i j * c) + a i i * c = (∑ j, a i j) * c := by
    rw [Finset.sum_mul, ← Finset.add_sum_erase _ _ (Finset.mem_univ i), ← Finset.add_sum_erase Finset.univ (fun j => a i j * c) (Finset.mem_univ i)]
    rw [if_pos rfl, zero_add, add_comm]
    congr 1
    exact Finset.sum_congr rfl fun j hj => if_neg (Finset.ne_of_mem_erase hj)
  have t3 : 0 ≤ ∑ j, if j = i then 0 else |a i j| * |c| := Finset.sum_nonneg fun j _ => by
    split
    · exact le_rfl
    · positivity
  have t4 : |a i i * c| < 2 ^ 53 := by rw [abs_mul]; omega
  have hsum := sumOff_int f c i (row L i) hr 0 (by rw [s1, abs_zero]; have := abs_nonneg (a i i * c); rw [abs_mul] at this; omega)
  rw [s2, zero_add, Int.cast_zero] at hsum
  have hcc : |c| < 2 ^ 53 := by
    have : |c| ≤ |a i i| * |c| := by
      have h1 : 1 ≤ |a i i| := by rw [abs_of_pos hp']; omega
      nlinarith [abs_nonneg c]
    rw [abs_mul] at t4
    omega
  refine newValue_of_steps hp.ne' hsum (u := ((a i i * c : ℤ) : ℚ)) (v := ((a i i * c : ℤ) : ℚ)) (t := (c : ℚ)) ?_ ?_ ?_ ?_
  · rw [hb, ← t2, ← Int.cast_sub, add_sub_cancel_left]
    exact double_int t4
  · rw [one_mul]
    exact double_int t4
  · rw [Int.cast_mul, mul_div_cancel_left₀ _ hp.ne']
    exact double_int hcc
  · rw [add_zero]
    exact double_int hcc

/-- One iteration keeps the bounds. -/
theorem nextF_box {m : Sparse (Num binary64)} {a : Fin n → Fin n → ℤ} (h : IntRows m L a) {k : Method} (hk : k ≠ .sor)
    (s : FixedPoint (Num binary64)) (lo hi : ℤ) (hlo : ∀ i, (∑ j, |a i j|) * |lo| < 2 ^ 53) (hhi : ∀ i, (∑ j, |a i j|) * |hi| < 2 ^ 53)
    {b x : Fin n → ℚ} (hb : ∀ i, (((∑ j, a i j) * lo : ℤ) : ℚ) ≤ b i ∧ b i ≤ ((∑ j, a i j) * hi : ℤ))
    (hx : ∀ i, (lo : ℚ) ≤ x i ∧ x i ≤ hi) :
    ∃ y, NextF sqrt L (fun i j => (a i j : ℚ)) b k x y ∧ ∀ i, (lo : ℚ) ≤ y i ∧ y i ≤ hi := by
  obtain ⟨v, v', e1, e2, e3⟩ := step_gen (floats binary64 sqrt) k s h.rep h.bounded h.length (fun i => fin (a i i : ℚ)) h.diag
    (fun i => fin (b i)) (fun i => fin (x i)) (List.replicate n 0) (by simp)
  simp only [omega_one hk] at e3
  have key : ∀ i, ∃ q, v i = fin q ∧ (lo : ℚ) ≤ q ∧ q ≤ hi := by
    refine fin_strong fun i ih => ?_
    choose! q hq using ih
    have e4 : (fun j => if k ≠ .jacobi ∧ j < i then v j else fin (x j)) = fun j => fin (if k ≠ .jacobi ∧ j < i then q j else x j) := by
      funext j
      split
      · rename_i hj; exact (hq j hj.2).1
      · rfl
    have e5 := e3 i
    rw [e4] at e5
    have u1 : ∀ j, (lo : ℚ) ≤ if k ≠ .jacobi ∧ j < i then q j else x j := fun j => by
      split
      · rename_i hj; exact (hq j hj.2).2.1
      · exact (hx j).1
    have u2 : ∀ j, (if k ≠ .jacobi ∧ j < i then q j else x j) ≤ (hi : ℚ) := fun j => by
      split
      · rename_i hj; exact (hq j hj.2).2.2
      · exact (hx j).2
    have n1 := newValue_const (sqrt := sqrt) h lo i (hlo i) (fun i => (((∑ j, a i j) * lo : ℤ) : ℚ)) rfl
    have n2 := newValue_const (sqrt := sqrt) h hi i (hhi i) (fun i => (((∑ j, a i j) * hi : ℤ) : ℚ)) rfl
    obtain ⟨p, hp⟩ := newValue_squeezes (h.pos i) (h.off i) (hb i).1 (hb i).2 u1 u2 n1 n2
    exact ⟨p, e5.trans hp, newValue_mono (h.pos i) (h.off i) (hb i).1 u1 n1 hp, newValue_mono (h.pos i) (h.off i) (hb i).2 u2 hp n2⟩
  choose q hq using key
  refine ⟨q, fun i => ?_, fun i => (hq i).2⟩
  rw [← (hq i).1, e3 i]
  congr 1
  funext j
  split
  · exact (hq j).1.symm
  · rfl

variable {m : Sparse (Num binary64)} {a : Fin n → Fin n → ℤ} {k : Method}

/-- C186: let the elements be integers, positive on the diagonal and not positive elsewhere, and the bounds be integers.  If the right
hand side lies between the products of the matrix with the bounds, no iterate with doubles overflows or leaves the bounds, those from
the lower bound rise until they stay the same, those from the upper bound fall until they stay the same, and all others stay between
them. -/
theorem c186_box (hk : k ≠ .sor) (s : FixedPoint (Num binary64)) (hm : Square m fun i j => (fin (a i j : ℚ) : Num binary64))
    (ha : Signed fun i j => (a i j : ℚ)) (lo hi : ℤ) (hle : lo ≤ hi) (hlo : ∀ i, (∑ j, |a i j|) * |lo| < 2 ^ 53)
    (hhi : ∀ i, (∑ j, |a i j|) * |hi| < 2 ^ 53) (b : Fin n → ℚ)
    (hb : ∀ i, (((∑ j, a i j) * lo : ℤ) : ℚ) ≤ b i ∧ b i ≤ ((∑ j, a i j) * hi : ℤ)) (w : List (Num binary64))
    (hw : k = .jacobi → w.length = n) :
    ∃ xs zs : Nat → Fin n → ℚ,
      (∀ j, ∃ w', times (step (floats binary64 sqrt) k s m (vec fun i => fin (b i))) j (vec fun _ : Fin n => fin (lo : ℚ), w) =
        .ok (vec fun i => fin (xs j i), w')) ∧
      (∀ j, ∃ w', times (step (floats binary64 sqrt) k s m (vec fun i => fin (b i))) j (vec fun _ : Fin n => fin (hi : ℚ), w) =
        .ok (vec fun i => fin (zs j i), w')) ∧
      (∀ j i, (lo : ℚ) ≤ xs j i ∧ xs j i ≤ xs (j + 1) i ∧ zs (j + 1) i ≤ zs j i ∧ zs j i ≤ hi) ∧
      (∃ J, ∀ j, J ≤ j → xs j = xs J ∧ zs j = zs J) ∧
      ∀ u : Fin n → ℚ, (∀ i, (lo : ℚ) ≤ u i ∧ u i ≤ hi) → ∀ j, ∃ (y : Fin n → ℚ) (w' : List (Num binary64)),
        times (step (floats binary64 sqrt) k s m (vec fun i => fin (b i))) j (vec fun i => fin (u i), w) = .ok (vec fun i => fin (y i), w') ∧
        ∀ i, xs j i ≤ y i ∧ y i ≤ zs j i := by
  obtain ⟨L, hL⟩ := intRows hm ha
  have hle' : (lo : ℚ) ≤ hi := by exact_mod_cast hle
  obtain ⟨x', n1, x1⟩ := nextF_box (sqrt := sqrt) hL hk s lo hi hlo hhi hb (x := fun _ => lo) (fun i => ⟨le_rfl, hle'⟩)
  obtain ⟨z', n2, z1⟩ := nextF_box (sqrt := sqrt) hL hk s lo hi hlo hhi hb (x := fun _ => hi) (fun i => ⟨hle', le_rfl⟩)
  obtain ⟨v, h1, -⟩ := nextF_step hL.toFinRows hk s hw n1
  obtain ⟨v', h2, -⟩ := nextF_step hL.toFinRows hk s hw n2
  obtain ⟨xs, zs, e1, e2, e3, e4, e5, e6, e7⟩ := c170_settles hk s hm ha b _ _ _ _ w v v' hw h1 h2 (fun i => (x1 i).1) (fun i => (z1 i).2)
    (fun _ => hle')
  have x0 : ∀ i, xs 0 i = lo := by
    obtain ⟨w', e⟩ := e1 0
    have : vec (fun _ : Fin n => (fin (lo : ℚ) : Num binary64)) = vec fun i => fin (xs 0 i) := by
      have e' : Out.ok (vec (fun _ : Fin n => (fin (lo : ℚ) : Num binary64)), w) = Out.ok (vec fun i => fin (xs 0 i), w') := e
      rw [Out.ok.injEq, Prod.mk.injEq] at e'
      exact e'.1
    rw [vec_inj] at this
    exact fun i => (fin_inj.mp (congrFun this i)).symm
  have z0 : ∀ i, zs 0 i = hi := by
    obtain ⟨w', e⟩ := e2 0
    have : vec (fun _ : Fin n => (fin (hi : ℚ) : Num binary64)) = vec fun i => fin (zs 0 i) := by
      have e' : Out.ok (vec (fun _ : Fin n => (fin (hi : ℚ) : Num binary64)), w) = Out.ok (vec fun i => fin (zs 0 i), w') := e
      rw [Out.ok.injEq, Prod.mk.injEq] at e'
      exact e'.1
    rw [vec_inj] at this
    exact fun i => (fin_inj.mp (congrFun this i)).symm
  refine ⟨xs, zs, e1, e2, fun j i => ⟨?_, e3 j i, e4 j i, ?_⟩, e6, fun u hu j => e7 u (fun i => (hu i).1) (fun i => (hu i).2) j⟩
  · induction j with
    | zero => rw [x0]
    | succ j ih => exact ih.trans (e3 j i)
  · induction j with
    | zero => rw [z0]
    | succ j ih => exact (e4 j i).trans ih

/-! ### Graphs with given values -/

/-- The program of C184 with doubles; sizes are converted. -/
def boundaryF (g : Graph) (fixed : Nat → Bool) : Out (Sparse (Num binary64)) :=
  boundaryBy (fin 1) (fin (-1)) (fun d => Ints.toScalar d) g fixed

/-- The matrix it stores is that of the problem. -/
theorem boundaryF_ok (g : Graph) (h : Reachable false g) (fixed : Nat → Bool) (hn : g.sizeVertex < 2 ^ 52) :
    ∃ (m : Sparse (Num binary64)) (a : Fin g.sizeVertex → Fin g.sizeVertex → ℤ), boundaryF g fixed = .ok m ∧
      Square m (fun i j => (fin (a i j : ℚ) : Num binary64)) ∧ OfBoundary g fixed (fun i j => (a i j : ℚ)) ∧
      ∀ i, ∑ j, |a i j| ≤ 2 * g.sizeVertex := by
  classical
  obtain ⟨m, h1, h2, h3, h4, h5⟩ := boundary_lookup (fin 1 : Num binary64) (fin (-1)) (fun d => Ints.toScalar d) g h fixed
  choose d hd hs using fun i => degree_sum (K := ℚ) h i
  have hdn : ∀ i, d i ≤ g.sizeVertex := by
    intro i
    have : (d i : ℚ) ≤ g.sizeVertex := by
      rw [hs i]
      refine (Finset.sum_le_sum (g := fun _ => (1 : ℚ)) fun j _ => ?_).trans (by simp)
      split <;> norm_num
    exact_mod_cast this
  obtain ⟨a, ha⟩ : ∃ a : Fin g.sizeVertex → Fin g.sizeVertex → ℤ, a = fun (i j : Fin g.sizeVertex) => if i = j then (if fixed i then 1 else (d i : ℤ)) else
    if fixed i = false ∧ Adj g i j then -1 else 0 := ⟨_, rfl⟩
  have hof : OfBoundary g fixed (fun i j => (a i j : ℚ)) := by
    refine ⟨fun i j hi => ?_, fun i e hi he => ?_, fun i j hi hij => ?_⟩
    · rw [ha]
      simp only [hi, if_true, Bool.true_eq_false, false_and, if_false]
      split <;> simp
    · rw [hd i, Out.ok.injEq] at he
      rw [ha]
      simp [hi, he]
    · rw [ha]
      simp only [hij, if_false, hi, true_and]
      split <;> simp
  refine ⟨m, a, h1, ⟨h2, h3, h4, fun i j => ?_⟩, hof, fun i => ?_⟩
  · unfold Spec.val
    rw [h5 i j (d i) (hd i), ha]
    have e1 : (Ints.toScalar (d i) : Num binary64) = fin ((d i : ℤ) : ℚ) := toScalar_int (by have := hdn i; rw [abs_of_nonneg (by omega)]; omega)
    show Out.ok _ = Out.ok _
    congr 1
    by_cases hij : i = j
    · subst hij
      cases hf : fixed i with
      | true => simp [hf]
      | false => simpa [hf] using e1
    · by_cases hc : fixed i = false ∧ Adj g i j
      · simp [hij, hc]
      · simp only [hij, hc, if_false, Int.cast_zero]
        rfl
  · have hi1 : 1 ≤ g.sizeVertex := by have := i.2; omega
    have key : ((∑ j, |a i j| : ℤ) : ℚ) = others (fun i j => (a i j : ℚ)) i + |(a i i : ℚ)| := by
      unfold others
      push_cast
      rw [← Finset.add_sum_erase _ _ (Finset.mem_univ i), ← Finset.add_sum_erase Finset.univ (fun j => if j = i then 0 else |(a i j : ℚ)|)
        (Finset.mem_univ i), if_pos rfl, zero_add, add_comm]
      congr 1
      exact Finset.sum_congr rfl fun j hj => (if_neg (Finset.ne_of_mem_erase hj)).symm
    have : ((∑ j, |a i j| : ℤ) : ℚ) ≤ (2 * g.sizeVertex : ℤ) := by
      rw [key, abs_of_nonneg (boundary_nonneg h hof i)]
      push_cast
      cases hi : fixed i with
      | true =>
        obtain ⟨g1, g2⟩ := given_others hof hi
        rw [g1, g2]
        have : (1 : ℚ) ≤ g.sizeVertex := by exact_mod_cast hi1
        linarith
      | false =>
        have g1 := (free_others h hof hi).1
        have g2 := hof.diagonal i (d i) hi (hd i)
        rw [g1, g2]
        have : (d i : ℚ) ≤ g.sizeVertex := by exact_mod_cast hdn i
        linarith
    exact_mod_cast this

/-- C186: so the maximum principle of C184 holds with doubles if the bounds of the given values are integers: no iterate of Jacobi or
Gauss Seidel leaves them, whatever is rounded, and the iterates from the bounds settle. -/
theorem c186_graph (g : Graph) (h : Reachable false g) (fixed : Nat → Bool) (ha : Anchored g fixed) (hn : g.sizeVertex < 2 ^ 52)
    (lo hi : ℤ) (hle : lo ≤ hi) (hlo : 2 * g.sizeVertex * |lo| < 2 ^ 53) (hhi : 2 * g.sizeVertex * |hi| < 2 ^ 53) :
    ∃ m, boundaryF g fixed = .ok m ∧ ∀ (k : Method), k ≠ .sor → ∀ (s : FixedPoint (Num binary64)) (b : Fin g.sizeVertex → ℚ),
      (∀ i : Fin g.sizeVertex, if fixed i then (lo : ℚ) ≤ b i ∧ b i ≤ hi else b i = 0) → ∀ w, (k = .jacobi → w.length = g.sizeVertex) →
      (∀ u : Fin g.sizeVertex → ℚ, (∀ i, (lo : ℚ) ≤ u i ∧ u i ≤ hi) → ∀ j, ∃ (y : Fin g.sizeVertex → ℚ) (w' : List (Num binary64)),
        times (step (floats binary64 sqrt) k s m (vec fun i => fin (b i))) j (vec fun i => fin (u i), w) = .ok (vec fun i => fin (y i), w') ∧
        ∀ i, (lo : ℚ) ≤ y i ∧ y i ≤ hi) ∧
      ∃ (J : Nat) (x z : Fin g.sizeVertex → ℚ), (∀ i, x i ≤ z i) ∧ ∀ j, J ≤ j →
        (∃ w', times (step (floats binary64 sqrt) k s m (vec fun i => fin (b i))) j (vec fun _ : Fin g.sizeVertex => fin (lo : ℚ), w) =
          .ok (vec fun i => fin (x i), w')) ∧
        (∃ w', times (step (floats binary64 sqrt) k s m (vec fun i => fin (b i))) j (vec fun _ : Fin g.sizeVertex => fin (hi : ℚ), w) =
          .ok (vec fun i => fin (z i), w')) ∧
        ∀ u : Fin g.sizeVertex → ℚ, (∀ i, (lo : ℚ) ≤ u i ∧ u i ≤ hi) → ∃ (y : Fin g.sizeVertex → ℚ) (w' : List (Num binary64)),
          times (step (floats binary64 sqrt) k s m (vec fun i => fin (b i))) j (vec fun i => fin (u i), w) =
            .ok (vec fun i => fin (y i), w') ∧ ∀ i, x i ≤ y i ∧ y i ≤ z i := by
  obtain ⟨m, a, h1, h2, h3, h4⟩ := boundaryF_ok g h fixed hn
  have hc := boundary_chained h h3 ha
  have hs := boundary_signed h h3 fun i => chain_diag hc.1 (hc.2 i)
  have hbound : ∀ c : ℤ, 2 * g.sizeVertex * |c| < 2 ^ 53 → ∀ i, (∑ j, |a i j|) * |c| < 2 ^ 53 := fun c hc i =>
    lt_of_le_of_lt (mul_le_mul_of_nonneg_right (h4 i) (abs_nonneg c)) hc
  refine ⟨m, h1, fun k hk s b hb w hw => ?_⟩
  have hsum : ∀ (c : ℤ) (i : Fin g.sizeVertex), (((∑ j, a i j) * c : ℤ) : ℚ) = if fixed i then (c : ℚ) else 0 := by
    intro c i
    have := boundary_sum h h3 ha i
    push_cast
    rw [this]
    split <;> simp
  obtain ⟨xs, zs, e1, e2, e3, ⟨J, e4⟩, e5⟩ := c186_box (sqrt := sqrt) hk s h2 hs lo hi hle (hbound lo hlo) (hbound hi hhi) b (fun i => by
    rw [hsum, hsum]
    have := hb i
    split at this
    · rename_i hf
      rw [if_pos hf, if_pos hf]
      exact this
    · rename_i hf
      rw [if_neg hf, if_neg hf, this]
      exact ⟨le_rfl, le_rfl⟩) w hw
  have hle' : (lo : ℚ) ≤ hi := by exact_mod_cast hle
  refine ⟨fun u hu j => ?_, J, xs J, zs J, fun i => ?_, fun j hj => ⟨?_, ?_, fun u hu => ?_⟩⟩
  · obtain ⟨y, w', q1, q2⟩ := e5 u hu j
    exact ⟨y, w', q1, fun i => ⟨(e3 j i).1.trans (q2 i).1, (q2 i).2.trans (e3 j i).2.2.2⟩⟩
  · obtain ⟨y, w', -, q2⟩ := e5 (fun _ => lo) (fun _ => ⟨le_rfl, hle'⟩) J
    exact (q2 i).1.trans (q2 i).2
  · obtain ⟨w', e⟩ := e1 j
    exact ⟨w', by rw [e, (e4 j hj).1]⟩
  · obtain ⟨w', e⟩ := e2 j
    exact ⟨w', by rw [e, (e4 j hj).2]⟩
  · obtain ⟨y, w', q1, q2⟩ := e5 u hu j
    exact ⟨y, w', q1, fun i => by rw [← (e4 j hj).1, ← (e4 j hj).2]; exact q2 i⟩

/-- The double next to a tenth. -/
def tenth64 : ℚ := 3602879701896397 / 2 ^ 55

/-- C186: other bounds may be left: if three neighbours have the value 0.1, the mean of them with doubles is larger. -/
theorem c186_needed (s : FixedPoint (Num binary64)) : ∃ m, boundaryF star (fun v => v != 0) = .ok m ∧ binary64 (1 / 10) = .fin tenth64 ∧
    ∃ (y : Fin 4 → ℚ) (w' : List (Num binary64)), step (floats binary64 sqrt) .gaussSeidel s m
      (vec fun i : Fin 4 => fin (if i = 0 then 0 else tenth64)) (vec fun _ : Fin 4 => fin tenth64, []) = .ok (vec fun i => fin (y i), w') ∧
      tenth64 < y 0 := by
  refine ⟨⟨[0, 4, 5, 6, 7], [0, 1, 2, 3, 1, 2, 3], [fin 3, fin (-1), fin (-1), fin (-1), fin 1, fin 1, fin 1], 4⟩, by decide +kernel,
    by decide +kernel, ![tenth64 + 1 / 2 ^ 56, tenth64, tenth64, tenth64], [], ?_, by decide +kernel⟩
  have : step (floats binary64 id) .gaussSeidel ⟨⟨0, 0, fin 0⟩, [], fin 0⟩
      ⟨[0, 4, 5, 6, 7], [0, 1, 2, 3, 1, 2, 3], [fin 3, fin (-1), fin (-1), fin (-1), fin 1, fin 1, fin 1], 4⟩
      (vec fun i : Fin 4 => fin (if i = 0 then 0 else tenth64)) (vec fun _ : Fin 4 => fin tenth64, []) =
      .ok (vec fun i => fin ((![tenth64 + 1 / 2 ^ 56, tenth64, tenth64, tenth64] : Fin 4 → ℚ) i), []) := by decide +kernel
  exact this

/-- Graphs and bounds that meet the hypotheses: the kite with values between -1 and 1. -/
example : Reachable false kite ∧ Anchored kite ends ∧ kite.sizeVertex < 2 ^ 52 ∧ 2 * (kite.sizeVertex : ℤ) * |(-1 : ℤ)| < 2 ^ 53 :=
  ⟨kite_reachable, kite_anchored, by decide, by decide⟩

end Disa.Props
