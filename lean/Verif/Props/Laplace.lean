import Verif.Props.Assemble
import Verif.Props.Iterative
import Verif.Props.LuMore
import Verif.Props.GraphUtil
import Verif.Props.Line
import Mathlib.LinearAlgebra.Matrix.ToLinearEquiv

/-!
# Properties C167 to C169: systems that belong to graphs
-/

namespace Disa.Props

open Disa Spec Graph Disa.Sparse Disa.Dense Iterative Lu

/-! ### C167 -/

/-- A program that stores the matrix of a graph:

    for (v = 0; v < graph.size_vertex(); ++v) {
      matrix.insert(v, v, c + graph[v].size());
      for (w : graph[v]) matrix.insert(v, w, -1.0);
    } -/
def laplace {K : Type} [Field K] (g : Graph) (c : K) : Out (Sparse K) :=
  (List.range g.sizeVertex).foldlM (fun m v => do
    let r ← g.nbrs v
    assemble m (⟨.insert, v, v, c + r.length⟩ :: r.map fun w => ⟨.insert, v, w, -1⟩)) (Sparse.sized g.sizeVertex g.sizeVertex)

open Classical in
/-- The matrix of a graph: `c` and the degree on the diagonal, and -1 for each edge. -/
structure OfGraph {K : Type} [Field K] (g : Graph) (c : K) {n : Nat} (A : Fin n → Fin n → K) : Prop where
  diagonal : ∀ (i : Fin n) (d : Nat), g.degree i = .ok d → A i i = c + d
  off : ∀ i j : Fin n, i ≠ j → A i j = if Adj g i j then -1 else 0

section assemble

variable {α : Type} [Zero α] [Add α]

theorem assemble_append (m : Sparse α) (a b : List (Edit α)) :
    assemble m (a ++ b) = (do let m ← assemble m a; assemble m b) := by
  induction a generalizing m with
  | nil => rfl
  | cons e a ih =>
    simp only [List.cons_append, assemble]
    cases edit m e <;> simp [ih]

theorem foldlM_assemble {g : Graph} (f : Nat → List Nat → List (Edit α)) (rows : Nat → List Nat) (l : List Nat) (m : Sparse α)
    (h : ∀ v ∈ l, g.nbrs v = .ok (rows v)) :
    l.foldlM (fun m v => do let r ← g.nbrs v; assemble m (f v r)) m = assemble m (l.flatMap fun v => f v (rows v)) := by
  induction l generalizing m with
  | nil => rfl
  | cons v l ih =>
    rw [List.foldlM_cons, List.flatMap_cons, assemble_append, h v (by simp)]
    simp only [Out.ok_bind]
    cases assemble m (f v (rows v)) with
    | ok m => exact ih m (fun w hw => h w (by simp [hw]))
    | _ => rfl

theorem assemble_built [Neg α] [Mul α] [Div α] {es : List (Edit α)} {m m' : Sparse α} (hm : Built false m)
    (he : ∀ e ∈ es, e.how = .insert ∧ e.row + 1 < sizeMax ∧ e.col < sizeMax) (h : assemble m es = .ok m') : Built false m' := by
  induction es generalizing m with
  | nil => cases h; exact hm
  | cons e es ih =>
    obtain ⟨h1, h2, h3⟩ := he e (by simp)
    simp only [assemble, edit, h1] at h
    cases hi : m.insert e.row e.col e.v with
    | ok p =>
      obtain ⟨m1, it, b⟩ := p
      rw [hi] at h
      exact ih (hm.insert h2 h3 hi) (fun e he' => he e (by simp [he'])) h
    | _ => rw [hi] at h; cases h

theorem flatMap_single {β : Type} (F : Nat → List β) (i : Nat) (l : List Nat) (hn : l.Nodup) (hi : i ∈ l)
    (h : ∀ v ∈ l, v ≠ i → F v = []) : l.flatMap F = F i := by
  induction l with
  | nil => simp at hi
  | cons v l ih =>
    rw [List.flatMap_cons]
    rw [List.nodup_cons] at hn
    by_cases hv : v = i
    · subst hv
      have : l.flatMap F = [] := by
        rw [List.flatMap_eq_nil_iff]
        exact fun w hw => h w (by simp [hw]) (by rintro rfl; exact hn.1 hw)
      rw [this, List.append_nil]
    · rw [h v (by simp) hv, List.nil_append]
      refine ih hn.2 ?_ (fun w hw => h w (by simp [hw]))
      rcases List.mem_cons.mp hi with rfl | hi
      · exact absurd rfl hv
      · exact hi

end assemble

section program

variable {K : Type} [Field K]

open Classical in
/-- C167: the program returns for every undirected graph.  The matrix is that of the graph, and the elements it stores are those on
the diagonal and those of the edges. -/
theorem c167_assemble (g : Graph) (h : Reachable false g) (c : K) :
    ∃ (m : Sparse K) (A : Fin g.sizeVertex → Fin g.sizeVertex → K), laplace g c = .ok m ∧ Square m A ∧ OfGraph g c A ∧
      ∀ i j : Nat, i < g.sizeVertex →
        (m.contains i j = .ok (decide (i = j ∨ Adj g i j))) := by
  have hn := reach_small h
  obtain ⟨L, hr, hg⟩ := reach_rep h
  rw [hr.sizeVertex] at hn
  have hrows : ∀ v ∈ List.range g.sizeVertex, g.nbrs v = .ok (row L v) := fun v hv =>
    hr.nbrs (by rw [← hr.sizeVertex]; exact List.mem_range.mp hv)
  have hs := hr.sizeVertex
  generalize hN : g.sizeVertex = n at hs hrows ⊢
  set f : Nat → List Nat → List (Edit K) := fun v r => ⟨.insert, v, v, c + r.length⟩ :: r.map fun w => ⟨.insert, v, w, -1⟩ with hf
  set es := (List.range n).flatMap fun v => f v (row L v) with hes
  have hmem : ∀ e ∈ es, e.how = .insert ∧ e.row < n ∧ e.col < n := by
    intro e he
    obtain ⟨v, hv, he⟩ := List.mem_flatMap.mp he
    rw [List.mem_range] at hv
    rcases List.mem_cons.mp he with rfl | he
    · exact ⟨rfl, hv, hv⟩
    · obtain ⟨w, hw, rfl⟩ := List.mem_map.mp he
      exact ⟨rfl, hv, by rw [hs]; exact hg.range v w hw⟩
  have hb : Built false (Sparse.sized n n : Sparse K) := Built.sized (by omega)
  have hL0 : ∀ i j, entry (List.replicate n ([] : List (Nat × K))) i j = none := by
    intro i j
    unfold entry
    rw [row_replicate_nil]
    rfl
  obtain ⟨m, L', h1, h2, h3, h4, h5, h6, h7⟩ := assemble_ok es (rep_sized (α := K) (r := n) (by omega) n)
    (fun i => by rw [row_replicate_nil]; exact List.Pairwise.nil) (bounded_replicate _ _) (fun e he => by
      obtain ⟨q1, q2, q3⟩ := hmem e he
      exact ⟨by omega, by omega, by rw [q1]; simp⟩)
  rw [List.length_replicate] at h5
  have hlen : L'.length = n := by
    have e1 := (h5 n).mpr ⟨le_rfl, fun e he => (hmem e he).2.1⟩
    have e2 := ((h5 L'.length).mp le_rfl).1
    omega
  have hcol : m.colSize = n := by
    have e1 := (h6 n).mpr ⟨le_rfl, fun e he => (hmem e he).2.2⟩
    have e2 : n ≤ m.colSize := ((h6 m.colSize).mp le_rfl).1
    omega
  have hcell : ∀ i j, i < n → cell es i j = cell (f i (row L i)) i j := by
    intro i j hi
    unfold cell
    rw [hes, List.filter_flatMap]
    refine flatMap_single _ i _ List.nodup_range (List.mem_range.mpr hi) (fun v _ hv => ?_)
    rw [List.filter_eq_nil_iff]
    intro e he
    rcases List.mem_cons.mp he with rfl | he
    · simp [hv]
    · obtain ⟨w, -, rfl⟩ := List.mem_map.mp he
      simp [hv]
  have hent : ∀ i j, i < n → entry L' i j = if i = j then some (c + (row L i).length) else if j ∈ row L i then some (-1) else none := by
    intro i j hi
    rw [h7, hL0, hcell i j hi]
    unfold cell
    rw [hf]
    have hnd : (row L i).Nodup := (hg.sorted i).imp (fun hab => Nat.ne_of_lt hab)
    have hmap : ((row L i).map fun w => (⟨.insert, i, w, -1⟩ : Edit K)).filter (fun e => decide (e.row = i ∧ e.col = j)) =
        if j ∈ row L i then [⟨.insert, i, j, -1⟩] else [] := by
      rw [List.filter_map]
      have : ((fun e : Edit K => decide (e.row = i ∧ e.col = j)) ∘ fun w => (⟨.insert, i, w, -1⟩ : Edit K)) = fun w => decide (w = j) := by
        funext w; simp
      rw [this]
      have : (row L i).filter (fun w => decide (w = j)) = if j ∈ row L i then [j] else [] := by
        have := List.filter_beq (l := row L i) j
        simp only [beq_eq_decide] at this
        rw [this]
        split
        · rw [List.count_eq_one_of_mem hnd ‹_›]; rfl
        · rw [List.count_eq_zero_of_not_mem ‹_›]; rfl
      rw [this]
      split <;> rfl
    by_cases hij : i = j
    · subst hij
      rw [List.filter_cons_of_pos (by simp), hmap, if_neg (hg.loopless i), if_pos rfl]
      rfl
    · rw [List.filter_cons_of_neg (by simp [hij]), hmap, if_neg hij]
      split <;> rfl
  have hbm : Built false m := assemble_built hb (fun e he => by
    obtain ⟨q1, q2, q3⟩ := hmem e he
    exact ⟨q1, by omega, by omega⟩) h1
  refine ⟨m, fun i j => (entry L' i j).getD 0, ?_, ⟨hbm, by rw [h2.sizeRow, hlen], hcol, fun i j => ?_⟩, ⟨fun i d hd => ?_, fun i j hij => ?_⟩,
    fun i j hi => ?_⟩
  · unfold laplace
    rw [hN, foldlM_assemble f (row L) _ _ hrows]
    exact h1
  · unfold val
    rw [lookup_ok h2 (by rw [hlen]; exact i.2)]
    rfl
  · rw [hr.degree (by rw [← hs]; exact i.2), Out.ok.injEq] at hd
    show (entry L' i i).getD 0 = _
    rw [hent i i i.2, if_pos rfl, ← hd]
    rfl
  · show (entry L' i j).getD 0 = _
    rw [hent i j i.2, if_neg (by rwa [← Fin.ext_iff])]
    by_cases hj : j.1 ∈ row L i
    · rw [if_pos hj, if_pos (hr.adj_iff.mpr hj)]
      rfl
    · rw [if_neg hj, if_neg (fun hc => hj (hr.adj_iff.mp hc))]
      rfl
  · have hk : j ∈ keys (row L' i) ↔ i = j ∨ Adj g i j := by
      rw [mem_keys_iff, hent i j hi, hr.adj_iff]
      by_cases hij : i = j
      · simp [hij]
      · by_cases hj : j ∈ row L i <;> simp [hij, hj]
    rw [h2.contains (by rw [hlen]; exact hi), ← row_of_lt (by rw [hlen]; exact hi)]
    exact congrArg Out.ok (decide_eq_decide.mpr hk)

end program

section algebra

variable {K : Type} [Field K]

open Classical in
theorem degree_sum {g : Graph} (h : Reachable false g) (i : Fin g.sizeVertex) :
    ∃ d, g.degree i = .ok d ∧ (d : K) = ∑ j : Fin g.sizeVertex, if Adj g i j then 1 else 0 := by
  obtain ⟨L, hr, hg⟩ := reach_rep h
  have hs := hr.sizeVertex
  refine ⟨_, hr.degree (by rw [← hs]; exact i.2), ?_⟩
  rw [Finset.sum_boole]
  congr 1
  have hnd : (row L i).Nodup := (hg.sorted i).imp (fun hab => Nat.ne_of_lt hab)
  rw [← List.toFinset_card_of_nodup hnd]
  symm
  refine Finset.card_bij (fun j _ => j.1) (fun j hj => ?_) (fun a _ b _ hab => Fin.ext hab) (fun b hb => ?_)
  · rw [List.mem_toFinset]
    exact hr.adj_iff.mp (Finset.mem_filter.mp hj).2
  · rw [List.mem_toFinset] at hb
    exact ⟨⟨b, by rw [hs]; exact hg.range _ _ hb⟩, Finset.mem_filter.mpr ⟨Finset.mem_univ _, hr.adj_iff.mpr hb⟩, rfl⟩

theorem adj_irrefl {d : Bool} {g : Graph} (h : Reachable d g) (i : Nat) : ¬ Adj g i i := by
  obtain ⟨L, hr, hg⟩ := reach_rep h
  rw [hr.adj_iff]
  exact hg.loopless i

theorem adj_comm {g : Graph} (h : Reachable false g) {i j : Nat} : Adj g i j ↔ Adj g j i := by
  obtain ⟨L, hr, hg⟩ := reach_rep h
  rw [hr.adj_iff, hr.adj_iff]
  exact ⟨hg.symm rfl i j, hg.symm rfl j i⟩

open Classical in
/-- The sum of the elements off the diagonal with factors. -/
theorem ofGraph_off {g : Graph} (h : Reachable false g) {c : K} {A : Fin g.sizeVertex → Fin g.sizeVertex → K} (hA : OfGraph g c A)
    (x : Fin g.sizeVertex → K) (i : Fin g.sizeVertex) : Iterative.off A x i = - ∑ j : Fin g.sizeVertex, if Adj g i j then x j else 0 := by
  unfold Iterative.off
  rw [← Finset.sum_neg_distrib]
  refine Finset.sum_congr rfl (fun j _ => ?_)
  by_cases hij : j = i
  · subst hij
    rw [if_pos rfl, if_neg (adj_irrefl h _), neg_zero]
  · rw [if_neg hij, hA.off i j (Ne.symm hij)]
    split <;> simp

open Classical in
/-- A row of the product. -/
theorem ofGraph_mul {g : Graph} (h : Reachable false g) {c : K} {A : Fin g.sizeVertex → Fin g.sizeVertex → K} (hA : OfGraph g c A)
    (x : Fin g.sizeVertex → K) (i : Fin g.sizeVertex) :
    ∑ j, A i j * x j = c * x i + ∑ j : Fin g.sizeVertex, if Adj g i j then x i - x j else 0 := by
  obtain ⟨d, h1, h2⟩ := degree_sum (K := K) h i
  rw [off_add, ofGraph_off h hA, hA.diagonal i d h1, h2, add_mul, Finset.sum_mul]
  have : ∑ j : Fin g.sizeVertex, (if Adj g i j then x i - x j else 0) =
      (∑ j : Fin g.sizeVertex, (if Adj g i j then (1 : K) else 0) * x i) - ∑ j : Fin g.sizeVertex, if Adj g i j then x j else 0 := by
    rw [← Finset.sum_sub_distrib]
    refine Finset.sum_congr rfl (fun j _ => ?_)
    split <;> simp
  rw [this]
  ring

variable [LinearOrder K] [IsStrictOrderedRing K]

/-- The diagonal exceeds the other elements of its row by `c`. -/
theorem ofGraph_dominant {g : Graph} (h : Reachable false g) {c : K} (hc : 0 ≤ c) {A : Fin g.sizeVertex → Fin g.sizeVertex → K}
    (hA : OfGraph g c A) (i : Fin g.sizeVertex) : c + (∑ j, if j = i then 0 else |A i j|) = |A i i| := by
  classical
  obtain ⟨d, h1, h2⟩ := degree_sum (K := K) h i
  rw [hA.diagonal i d h1, abs_of_nonneg (by positivity), h2]
  congr 1
  refine Finset.sum_congr rfl (fun j _ => ?_)
  by_cases hij : j = i
  · subst hij
    rw [if_pos rfl, if_neg (adj_irrefl h _)]
  · rw [if_neg hij, hA.off i j (Ne.symm hij)]
    split <;> simp

open Classical in
/-- The quadratic form of the matrix. -/
theorem ofGraph_form {g : Graph} (h : Reachable false g) {c : K} {A : Fin g.sizeVertex → Fin g.sizeVertex → K} (hA : OfGraph g c A)
    (v : Fin g.sizeVertex → K) : 2 * ∑ i, ∑ j, v i * A i j * v j =
      2 * (c * ∑ i, v i ^ 2) + ∑ i : Fin g.sizeVertex, ∑ j : Fin g.sizeVertex, if Adj g i j then (v i - v j) ^ 2 else 0 := by
  have e1 : ∀ i, ∑ j, v i * A i j * v j = c * v i ^ 2 + ∑ j : Fin g.sizeVertex, if Adj g i j then v i * (v i - v j) else 0 := by
    intro i
    have := congrArg (fun t => v i * t) (ofGraph_mul h hA v i)
    simp only [mul_add, Finset.mul_sum] at this
    rw [show ∑ j, v i * A i j * v j = ∑ j, v i * (A i j * v j) from Finset.sum_congr rfl fun j _ => by ring, this]
    congr 1
    · ring
    · exact Finset.sum_congr rfl fun j _ => by split <;> simp
  simp only [e1, Finset.sum_add_distrib, ← Finset.mul_sum, mul_add]
  congr 1
  have e2 : (∑ i : Fin g.sizeVertex, ∑ j : Fin g.sizeVertex, if Adj g i j then v i * (v i - v j) else 0) =
      ∑ i : Fin g.sizeVertex, ∑ j : Fin g.sizeVertex, if Adj g i j then v j * (v j - v i) else 0 := by
    rw [Finset.sum_comm]
    exact Finset.sum_congr rfl fun i _ => Finset.sum_congr rfl fun j _ => by rw [adj_comm h]
  have e3 : ∀ a b s : K, a = b → a + b = s → 2 * a = s := fun a b s h1 h2 => by rw [← h2, ← h1, two_mul]
  refine e3 _ _ _ e2 ?_
  rw [← Finset.sum_add_distrib]
  refine Finset.sum_congr rfl fun i _ => ?_
  rw [← Finset.sum_add_distrib]
  refine Finset.sum_congr rfl fun j _ => ?_
  split
  · ring
  · simp

theorem ofGraph_symmetric {g : Graph} (h : Reachable false g) {c : K} {A : Fin g.sizeVertex → Fin g.sizeVertex → K}
    (hA : OfGraph g c A) (i j : Fin g.sizeVertex) : A i j = A j i := by
  classical
  by_cases hij : i = j
  · rw [hij]
  · rw [hA.off i j hij, hA.off j i (Ne.symm hij)]
    exact if_congr (adj_comm h) rfl rfl

/-- C167: with a positive number on the diagonal the matrix is strictly diagonally dominant, symmetric and positive definite. -/
theorem c167_definite (g : Graph) (h : Reachable false g) (c : K) (hc : 0 < c) (A : Fin g.sizeVertex → Fin g.sizeVertex → K)
    (hA : OfGraph g c A) : Dominant A ∧ PositiveDefinite A := by
  classical
  refine ⟨fun i => ?_, ofGraph_symmetric h hA, fun v hv => ?_⟩
  · have := ofGraph_dominant h hc.le hA i
    linarith
  · have h1 := ofGraph_form h hA v
    have h2 : 0 ≤ ∑ i : Fin g.sizeVertex, ∑ j : Fin g.sizeVertex, if Adj g i j then (v i - v j) ^ 2 else 0 :=
      Finset.sum_nonneg fun i _ => Finset.sum_nonneg fun j _ => by split <;> positivity
    obtain ⟨i, hi⟩ := Function.ne_iff.mp hv
    have h3 : 0 < ∑ i, v i ^ 2 :=
      Finset.sum_pos' (fun i _ => by positivity) ⟨i, Finset.mem_univ _, by have : v i ≠ 0 := hi; positivity⟩
    have h4 := mul_pos hc h3
    linarith

/-- C167: without it the product with a vector is zero exactly if the vector has the same value on both sides of every edge. -/
theorem c167_kernel (g : Graph) (h : Reachable false g) (A : Fin g.sizeVertex → Fin g.sizeVertex → K) (hA : OfGraph g 0 A)
    (v : Fin g.sizeVertex → K) : Solves A v 0 ↔ ∀ i j : Fin g.sizeVertex, Adj g i j → v i = v j := by
  classical
  constructor
  · intro hs i j hij
    have h1 := ofGraph_form h hA v
    have h2 : ∑ i, ∑ j, v i * A i j * v j = 0 := by
      refine Finset.sum_eq_zero fun i _ => ?_
      have := congrArg (fun t => v i * t) (hs i)
      simp only [Finset.mul_sum, Pi.zero_apply, mul_zero] at this
      rw [← this]
      exact Finset.sum_congr rfl fun j _ => by ring
    rw [h2, mul_zero, zero_mul, mul_zero, zero_add] at h1
    have h3 := (Finset.sum_eq_zero_iff_of_nonneg (fun i _ => Finset.sum_nonneg fun j _ => by split <;> positivity)).mp h1.symm i
      (Finset.mem_univ _)
    have h4 := (Finset.sum_eq_zero_iff_of_nonneg (fun j _ => by split <;> positivity)).mp h3 j (Finset.mem_univ _)
    rw [if_pos hij] at h4
    exact sub_eq_zero.mp (pow_eq_zero_iff (two_ne_zero)|>.mp h4)
  · intro hv i
    rw [ofGraph_mul h hA, zero_mul, zero_add]
    refine Finset.sum_eq_zero fun j _ => ?_
    split
    · rename_i hij; rw [hv i j hij, sub_self]
    · rfl

/-- C167: so the direct solver rejects it. -/
theorem c167_singular (g : Graph) (h : Reachable false g) (h0 : 0 < g.sizeVertex) (A : Fin g.sizeVertex → Fin g.sizeVertex → K)
    (hA : OfGraph g 0 A) (pivot : Bool) (d : Lu K) (htol : 0 < d.tol) :
    ∃ d', factorise (scalars K) pivot d (mat A) = .ok (d', false) := by
  refine c44_singular pivot d htol A (Matrix.exists_mulVec_eq_zero_iff.mp ⟨fun _ => 1, ?_, ?_⟩)
  · intro hc
    exact one_ne_zero (congrFun hc ⟨0, h0⟩)
  · funext i
    exact (c167_kernel g h A hA (fun _ => 1)).mpr (fun _ _ _ => rfl) i

/-- C167: the solution lies between the bounds of the right hand side. -/
theorem c167_bounds (g : Graph) (h : Reachable false g) (c : K) (hc : 0 < c) (A : Fin g.sizeVertex → Fin g.sizeVertex → K)
    (hA : OfGraph g c A) (x b : Fin g.sizeVertex → K) (hx : Solves A x b) (lo hi : K) (hb : ∀ i, lo ≤ b i ∧ b i ≤ hi)
    (i : Fin g.sizeVertex) : lo ≤ c * x i ∧ c * x i ≤ hi := by
  classical
  have : Nonempty (Fin g.sizeVertex) := ⟨i⟩
  constructor
  · obtain ⟨k, hk⟩ := Finite.exists_min x
    have h1 := hx k
    rw [ofGraph_mul h hA] at h1
    have h2 : (∑ j : Fin g.sizeVertex, if Adj g k j then x k - x j else 0) ≤ 0 :=
      Finset.sum_nonpos fun j _ => by
        split
        · have := hk j; linarith
        · exact le_rfl
    have h3 := mul_le_mul_of_nonneg_left (hk i) hc.le
    linarith [(hb k).1]
  · obtain ⟨k, hk⟩ := Finite.exists_max x
    have h1 := hx k
    rw [ofGraph_mul h hA] at h1
    have h2 : 0 ≤ (∑ j : Fin g.sizeVertex, if Adj g k j then x k - x j else 0) :=
      Finset.sum_nonneg fun j _ => by
        split
        · have := hk j; linarith
        · exact le_rfl
    have h3 := mul_le_mul_of_nonneg_left (hk i) hc.le
    linarith [(hb k).2]

/-- C167: the direct solver accepts it if its tolerance is not larger than the number. -/
theorem c167_accepted (g : Graph) (h : Reachable false g) (c : K) (hc : 0 < c) (A : Fin g.sizeVertex → Fin g.sizeVertex → K)
    (hA : OfGraph g c A) (d : Lu K) (htol : 0 < d.tol) :
    (d.tol ≤ c → ∃ d', factorise (scalars K) false d (mat A) = .ok (d', true)) ∧
      (2 * (d.tol + defaultAbsolute K) ≤ c → ∃ d', factorise (scalars K) true d (mat A) = .ok (d', true)) := by
  constructor
  · intro ht
    refine c82_plain d htol A fun r => ?_
    have := ofGraph_dominant h hc.le hA r
    linarith
  · intro ht
    refine c82_pivot d htol A fun r => ?_
    have := ofGraph_dominant h hc.le hA r
    linarith

end algebra

/-- C167: assembled with a positive number, all three methods of the iterative solver return and tend to the one solution, from any
start, and the direct solver gives it whenever it accepts the matrix. -/
theorem c167_solvers {N : Type} {F : Scalars ℝ N} (hF : Exact F) (g : Graph) (h : Reachable false g) (c : ℝ) (hc : 0 < c)
    (m : Sparse ℝ) (hm : laplace g c = .ok m) (b : Fin g.sizeVertex → ℝ) :
    ∃ (A : Fin g.sizeVertex → Fin g.sizeVertex → ℝ) (sol : Fin g.sizeVertex → ℝ), Square m A ∧ OfGraph g c A ∧ Solves A sol b ∧
      (∀ y, Solves A y b → y = sol) ∧
      (∀ (k : Method) (s : FixedPoint ℝ) (x : Fin g.sizeVertex → ℝ) (w : List ℝ), (k = .jacobi → w.length = g.sizeVertex) →
        TendTo F k s m b x w sol) ∧
      ∀ (pivot : Bool) (d d' : Lu ℝ), 0 < d.tol → factorise (scalars ℝ) pivot d (mat A) = .ok (d', true) → ∀ x0 : List ℝ,
        Lu.solve pivot d' x0 (some (vec b)) = .ok (vec sol, true, 1) := by
  obtain ⟨m', A, h1, h2, h3, -⟩ := c167_assemble g h c
  rw [hm, Out.ok.injEq] at h1
  subst h1
  obtain ⟨hd, hp⟩ := c167_definite g h c hc A h3
  obtain ⟨sol, hs, hu⟩ := dominant_solution A hd b
  refine ⟨A, sol, h2, h3, hs, hu, fun k s x w hw => ?_, fun pivot d d' htol hf x0 => ?_⟩
  · by_cases hk : k = .jacobi
    · obtain ⟨sol', -, h4, h5⟩ := c47_converges hF m A h2 hd k (by rw [hk]; decide) s b x w hw
      rw [h4 sol hs]
      exact h5
    · obtain ⟨sol', -, h4, h5⟩ := c84_converges hF m A h2 hp k hk s b x w
      rw [h4 sol hs]
      exact h5
  · obtain ⟨y, h4, h5⟩ := c43_solves pivot d d' htol A hf b x0
    rw [h4, hu y h5]

/-- The graph `kite` meets the hypotheses. -/
example : Reachable false kite ∧ 0 < kite.sizeVertex ∧ (0 : ℚ) < 1 / 2 ∧ 0 < fresh.tol ∧ fresh.tol ≤ 1 / 2 ∧
    2 * (fresh.tol + defaultAbsolute ℚ) ≤ 1 / 2 :=
  ⟨kite_reachable, by decide, by decide +kernel, by decide +kernel, by decide +kernel, by decide +kernel⟩

/-- What the program makes of it, and what the direct solver says. -/
example : laplace kite (1 / 2 : ℚ) = .ok ⟨[0, 2, 6, 9, 12], [0, 1, 0, 1, 2, 3, 1, 2, 3, 1, 2, 3],
      [3 / 2, -1, -1, 7 / 2, -1, -1, -1, 5 / 2, -1, -1, -1, 5 / 2], 4⟩ ∧
    (∃ d, factorise (scalars ℚ) true fresh [[1, -1, 0, 0], [-1, 3, -1, -1], [0, -1, 2, -1], [0, -1, -1, 2]] = .ok (d, false)) := by
  refine ⟨by decide +kernel, after (factorise (scalars ℚ) true fresh [[1, -1, 0, 0], [-1, 3, -1, -1], [0, -1, 2, -1], [0, -1, -1, 2]]), ?_⟩
  decide +kernel

end Disa.Props
