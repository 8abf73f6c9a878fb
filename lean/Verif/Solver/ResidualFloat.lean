import Verif.Solver.SweepFloat
import Verif.Solver.Solve

/-!
# Rounding errors of residuals
-/

namespace Disa.Iterative

open Disa Spec Dense Sparse Num Props

/-- The elements of a row of a matrix with finite elements and the elements of a vector. -/
theorem row_all {rnd : ℚ → Fl} {n : Nat} {L : Rows (Num rnd)} {a : Fin n → Fin n → ℚ} (hs : Sorted L) (hb : Bounded n L)
    (hA : ∀ i j : Fin n, (entry L i j).getD 0 = fin (a i j)) (y : Fin n → ℚ) (i : Fin n) :
    ∃ t : List (ℚ × ℚ), t.length ≤ n ∧
      dotL (row L i) (vec fun j => (fin (y j) : Num rnd)) =
        (t.map fun p => ((fin p.1 : Num rnd), (fin p.2 : Num rnd))).foldl (fun s p => s + p.1 * p.2) 0 ∧
      (t.map fun p => p.1 * p.2).sum = ∑ j, a i j * y j ∧ (t.map fun p => |p.1 * p.2|).sum = ∑ j, |a i j * y j| := by
  obtain ⟨yN, hyN⟩ : ∃ yN : Nat → ℚ, ∀ j : Fin n, yN j = y j :=
    ⟨fun k => if h : k < n then y ⟨k, h⟩ else 0, fun j => by simp⟩
  have hfin : ∀ e ∈ row L i, e.2 = fin (Num.val e.2) ∧ (vec fun j => (fin (y j) : Num rnd)).getD e.1 0 = fin (yN e.1) := by
    intro e he
    have hlt := hb i e he
    have h1 := hA i ⟨e.1, hlt⟩
    have h2 : entry L i e.1 = some e.2 := by
      unfold entry
      rw [lookup_eq_some (hs i)]
      exact he
    rw [h2, Option.getD_some] at h1
    refine ⟨by rw [h1]; rfl, ?_⟩
    rw [show yN e.1 = y ⟨e.1, hlt⟩ from hyN ⟨e.1, hlt⟩]
    simp [vec, hlt]
  have hsum : ∀ f : ℚ → ℚ, f 0 = 0 → (((row L i).map fun e => (Num.val e.2, yN e.1)).map fun p => f (p.1 * p.2)).sum =
      ∑ j, f (a i j * y j) := by
    intro f hf
    rw [List.map_map]
    show ((row L i).map fun e => f (Num.val e.2 * yN e.1)).sum = _
    rw [sum_lookup (fun k v => f (Num.val v * yN k)) (hs i) (n := n) (fun e he => hb i e he), Finset.sum_range]
    apply Finset.sum_congr rfl
    intro j _
    have h1 := hA i j
    unfold entry at h1
    cases hl : (row L i).lookup j.1 with
    | none =>
      rw [hl] at h1
      have : (0 : ℚ) = a i j := fin_inj.mp h1
      simp [← this, hf]
    | some v =>
      rw [hl] at h1
      have : v = fin (a i j) := h1
      subst this
      simp only [Option.map_some, Option.getD_some, Num.val_fin, hyN]
  refine ⟨(row L i).map fun e => (Num.val e.2, yN e.1), ?_, ?_, by exact hsum id rfl, hsum abs abs_zero⟩
  · rw [List.length_map]
    have := Subgraph.sorted_length (hs i) (n := n) (by
      intro v hv
      unfold keys at hv
      obtain ⟨e, he, rfl⟩ := List.mem_map.mp hv
      exact hb i e he)
    unfold keys at this
    rwa [List.length_map] at this
  · unfold dotL
    rw [List.map_map, List.foldl_map]
    apply List.foldl_ext
    intro v e he
    obtain ⟨f1, f2⟩ := hfin e he
    show v + e.2 * _ = v + fin (Num.val e.2) * fin (yN e.1)
    rw [← f1, f2]

section generic

variable {S N : Type} [Zero S] [Add S] [Sub S] [Mul S] [Div S] (F : Scalars S N)

/-- The residual of a row. -/
def rowDefect (L : Rows S) {n : Nat} (x b : Fin n → S) (i : Fin n) : S := dotL (row L i) (vec x) - b i

/-- Both sums of the residuals, in the order of the rows. -/
def residualFold (L : Rows S) {n : Nat} (x b : Fin n → S) : S × S :=
  (List.finRange n).foldl (fun st i => (st.1 + rowDefect L x b i * rowDefect L x b i,
    if F.lt st.2 (rowDefect L x b i * rowDefect L x b i) then rowDefect L x b i * rowDefect L x b i else st.2)) (0, 0)

theorem residual_gen {n : Nat} {m : Sparse S} {L : Rows S} (h1 : m.Rep L) (h3 : Bounded n L) (h4 : L.length = n)
    (hc : m.colSize = n) (x b : Fin n → S) (hn0 : 0 < n) (hn : n ≤ intMax) :
    computeResidual F m (vec x) (vec b) =
      .ok (F.sqrt ((residualFold F L x b).1 / F.count n), F.sqrt (residualFold F L x b).2) := by
  have hrow : m.sizeRow = n := by rw [h1.sizeRow, h4]
  have hlen : ((vec x).length != 0 && (vec b).length != 0) = true := by
    simp only [vec_length]
    simp
    omega
  have hloop : loop n (residualBody F m (vec x) (vec b)) (0, 0) = .ok (residualFold F L x b) := by
    obtain ⟨s', e1, e2⟩ := loop_foldl (fun (s t : S × S) => s = t) (fun st (i : Fin n) =>
      (st.1 + rowDefect L x b i * rowDefect L x b i,
        if F.lt st.2 (rowDefect L x b i * rowDefect L x b i) then rowDefect L x b i * rowDefect L x b i else st.2))
      (List.finRange n) (body := residualBody F m (vec x) (vec b)) (s := (0, 0)) (t := (0, 0)) (by
        rintro k hk s t rfl
        rw [List.length_finRange] at hk
        refine ⟨_, ?_, rfl⟩
        have hr : k < m.sizeRow := by rw [hrow]; exact hk
        unfold residualBody
        simp only [hr, decide_true, assert_true, Out.ok_bind, h1.rowDot (x := vec x) (by rw [vec_length]; exact h3)
          (show k < L.length by rw [h4]; exact hk), rd_vec b hk]
        rw [if_neg (by omega)]
        simp only [List.getElem_finRange, Fin.cast_mk, rowDefect, Out.pure_eq]) rfl
    rw [List.length_finRange] at e1
    rw [e1, e2]
    rfl
  unfold computeResidual
  rw [hlen]
  simp only [vec_length, hrow, hc, beq_self_eq_true, assert_true, Out.ok_bind, hloop, Out.pure_eq]

end generic

variable {rnd : ℚ → Fl} {u η : ℚ}

theorem terms_finite {β : Type} (p : β → Num rnd) (l : List β) : ∀ r z, l.foldl (fun s i => s + p i) z = fin r →
    (∃ q, z = fin q) ∧ ∀ i ∈ l, ∃ v, p i = fin v := by
  induction l with
  | nil => exact fun r z h => ⟨⟨r, h⟩, fun i hi => absurd hi List.not_mem_nil⟩
  | cons e l ih =>
    intro r z h
    rw [List.foldl_cons] at h
    obtain ⟨⟨q, hq⟩, h2⟩ := ih r _ h
    obtain ⟨x, y, h3, h4, -⟩ := add_fin hq
    refine ⟨⟨x, h3⟩, fun i hi => ?_⟩
    rcases List.mem_cons.mp hi with rfl | hi
    · exact ⟨y, h4⟩
    · exact h2 i hi

theorem fold_fst {β : Type} (F : Scalars (Num rnd) (Num rnd)) (p : β → Num rnd) (l : List β) (z : Num rnd × Num rnd) :
    (l.foldl (fun st i => (st.1 + p i, if F.lt st.2 (p i) then p i else st.2)) z).1 = l.foldl (fun s i => s + p i) z.1 ∧
    (l.foldl (fun st i => (st.1 + p i, if F.lt st.2 (p i) then p i else st.2)) z).2 =
      l.foldl (fun s i => if F.lt s (p i) then p i else s) z.2 := by
  induction l generalizing z with
  | nil => exact ⟨rfl, rfl⟩
  | cons e l ih => exact ih _

theorem fold_max {β : Type} {sqrt : Num rnd → Num rnd} (p : β → Num rnd) (v : β → ℚ) (l : List β) (hv : ∀ i ∈ l, p i = fin (v i)) :
    ∀ z : ℚ, ∃ q, l.foldl (fun s i => if (floats rnd sqrt).lt s (p i) then p i else s) (fin z) = fin q ∧ z ≤ q ∧
      (∀ i ∈ l, v i ≤ q) ∧ (q = z ∨ ∃ i ∈ l, q = v i) := by
  induction l with
  | nil => exact fun z => ⟨z, rfl, le_rfl, fun i hi => absurd hi List.not_mem_nil, Or.inl rfl⟩
  | cons e l ih =>
    intro z
    have he := hv e (by simp)
    have ih' := ih fun i hi => hv i (by simp [hi])
    rw [List.foldl_cons, he]
    by_cases hz : z < v e
    · have : (floats rnd sqrt).lt (fin z) (fin (v e)) = true := by
        show decide (z < v e) = true
        simpa using hz
      rw [if_pos this]
      obtain ⟨q, h1, h2, h3, h4⟩ := ih' (v e)
      refine ⟨q, h1, hz.le.trans h2, fun i hi => ?_, Or.inr ?_⟩
      · rcases List.mem_cons.mp hi with rfl | hi
        · exact h2
        · exact h3 i hi
      · rcases h4 with h4 | ⟨i, hi, h4⟩
        · exact ⟨e, by simp, h4⟩
        · exact ⟨i, by simp [hi], h4⟩
    · have : ¬ (floats rnd sqrt).lt (fin z) (fin (v e)) = true := by
        show ¬ decide (z < v e) = true
        simpa using hz
      rw [if_neg this]
      obtain ⟨q, h1, h2, h3, h4⟩ := ih' z
      refine ⟨q, h1, h2, fun i hi => ?_, ?_⟩
      · rcases List.mem_cons.mp hi with rfl | hi
        · exact (not_lt.mp hz).trans h2
        · exact h3 i hi
      · rcases h4 with h4 | ⟨i, hi, h4⟩
        · exact Or.inl h4
        · exact Or.inr ⟨i, by simp [hi], h4⟩

/-- The error of the residual of a row. -/
theorem rowDefect_error (h : Rounds rnd u η) {n : Nat} {L : Rows (Num rnd)} {a : Fin n → Fin n → ℚ} (hs : Sorted L)
    (hb : Bounded n L) (hA : ∀ i j : Fin n, (entry L i j).getD 0 = fin (a i j)) (x b : Fin n → ℚ) (i : Fin n) (r : ℚ)
    (hr : rowDefect L (fun j => (fin (x j) : Num rnd)) (fun j => fin (b j)) i = fin r) :
    |r - defect a x b i| ≤ productError u η (n + 1) (|b i| + ∑ j, |a i j * x j|) := by
  have hu := h.u_nonneg
  have hη := h.η_nonneg
  obtain ⟨t, ht, hf, hsum, habs⟩ := row_all hs hb hA x i
  unfold rowDefect at hr
  rw [hf] at hr
  obtain ⟨v, b', h1, h2, h3⟩ := sub_fin hr
  obtain rfl : b i = b' := fin_inj.mp h2
  obtain ⟨t'', e1, e2⟩ := sum_error h _ v h1
  obtain rfl : t = t'' := by
    have hinj : Function.Injective fun p : ℚ × ℚ => ((fin p.1 : Num rnd), (fin p.2 : Num rnd)) := by
      rintro ⟨p1, p2⟩ ⟨q1, q2⟩ he
      obtain ⟨e1, e2⟩ := Prod.mk.inj he
      have e1 : p1 = q1 := fin_inj.mp e1
      have e2 : p2 = q2 := fin_inj.mp e2
      rw [e1, e2]
    exact List.map_injective_iff.mpr hinj e1
  rw [hsum, habs] at e2
  have hS : |∑ j, a i j * x j| ≤ ∑ j, |a i j * x j| := Finset.abs_sum_le_sum_abs _ _
  have hS0 : 0 ≤ ∑ j, |a i j * x j| := (abs_nonneg _).trans hS
  have e3 := e2.trans (productError_mono h ht hS0)
  have e4 := round_step h h3 (Q := defect a x b i) (e := productError u η n (∑ j, |a i j * x j|))
    (T := |b i| + ∑ j, |a i j * x j|) (by
      unfold defect
      rw [sub_sub_sub_cancel_right]
      exact e3) (by
      unfold defect
      have := abs_sub (∑ j, a i j * x j) (b i)
      linarith)
  refine e4.trans ?_
  have e5 := productError_step hu hη n (T := |b i| + ∑ j, |a i j * x j|) (a := 0) le_rfl
  rw [add_zero, mul_zero, add_zero] at e5
  refine le_trans ?_ e5
  have e6 : productError u η n (∑ j, |a i j * x j|) ≤ productError u η n (|b i| + ∑ j, |a i j * x j|) := by
    have hb0 := abs_nonneg (b i)
    have hP : (1 : ℚ) ≤ (1 + u) ^ (n + 1) := one_le_pow₀ (by linarith)
    unfold productError
    have : ((1 + u) ^ (n + 1) - 1) * (∑ j, |a i j * x j|) ≤ ((1 + u) ^ (n + 1) - 1) * (|b i| + ∑ j, |a i j * x j|) :=
      mul_le_mul_of_nonneg_left (by linarith) (by linarith)
    linarith
  have e7 := mul_le_mul_of_nonneg_left e6 (by linarith : 0 ≤ 1 + u)
  have e8 : 0 ≤ (1 + u) * η := by positivity
  linarith

end Disa.Iterative
