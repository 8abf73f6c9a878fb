import Verif.Props.Chained

/-!
# Property C184: systems of graphs with given values at some vertices
-/

namespace Disa.Props

open Disa Spec Graph Disa.Sparse Disa.Dense Iterative Lu

/-- A program that stores the matrix of the problem to find values at the vertices of a graph that are given at the vertices in
`fixed` and are the mean of the neighbours at all others:

    for (v = 0; v < graph.size_vertex(); ++v) {
      if (fixed(v)) matrix.insert(v, v, 1.0);
      else {
        matrix.insert(v, v, graph[v].size());
        for (w : graph[v]) matrix.insert(v, w, -1.0);
      }
    }

The parameters are the numbers 1 and -1 and how sizes become numbers. -/
def boundaryBy {α : Type} [Zero α] [Add α] (one minus : α) (number : Nat → α) (g : Graph) (fixed : Nat → Bool) : Out (Sparse α) :=
  (List.range g.sizeVertex).foldlM (fun m v => do
    let r ← g.nbrs v
    assemble m (if fixed v then [⟨.insert, v, v, one⟩]
      else ⟨.insert, v, v, number r.length⟩ :: r.map fun w => ⟨.insert, v, w, minus⟩)) (Sparse.sized g.sizeVertex g.sizeVertex)

/-- The program with exact arithmetic. -/
def boundary {K : Type} [Field K] (g : Graph) (fixed : Nat → Bool) : Out (Sparse K) := boundaryBy 1 (-1) (fun d => (d : K)) g fixed

open Classical in
/-- The matrix of the problem. -/
structure OfBoundary {K : Type} [Field K] (g : Graph) (fixed : Nat → Bool) {n : Nat} (A : Fin n → Fin n → K) : Prop where
  given : ∀ i j : Fin n, fixed i = true → A i j = if i = j then 1 else 0
  diagonal : ∀ (i : Fin n) (d : Nat), fixed i = false → g.degree i = .ok d → A i i = d
  off : ∀ i j : Fin n, fixed i = false → i ≠ j → A i j = if Adj g i j then -1 else 0

section program

variable {K : Type} [Field K]

open Classical in
/-- What the program stores, for any numbers. -/
theorem boundary_lookup {K : Type} [Zero K] [Add K] [Neg K] [Mul K] [Div K] (one minus : K) (number : Nat → K) (g : Graph)
    (h : Reachable false g) (fixed : Nat → Bool) :
    ∃ m : Sparse K, boundaryBy one minus number g fixed = .ok m ∧ Built false m ∧ m.sizeRow = g.sizeVertex ∧ m.colSize = g.sizeVertex ∧
      ∀ (i j : Fin g.sizeVertex) (d : Nat), g.degree i = .ok d → Spec.lookup m i j =
        .ok (if i = j then some (if fixed i then one else number d) else if fixed i = false ∧ Adj g i j then some minus else none) := by
  have hn := reach_small h
  obtain ⟨L, hr, hg⟩ := reach_rep h
  rw [hr.sizeVertex] at hn
  have hrows : ∀ v ∈ List.range g.sizeVertex, g.nbrs v = .ok (row L v) := fun v hv =>
    hr.nbrs (by rw [← hr.sizeVertex]; exact List.mem_range.mp hv)
  have hs := hr.sizeVertex
  generalize hN : g.sizeVertex = n at hs hrows ⊢
  set f : Nat → List Nat → List (Edit K) := fun v r => if fixed v then [⟨.insert, v, v, one⟩]
    else ⟨.insert, v, v, number r.length⟩ :: r.map fun w => ⟨.insert, v, w, minus⟩ with hf
  set es := (List.range n).flatMap fun v => f v (row L v) with hes
  have hfm : ∀ v e, e ∈ f v (row L v) → e.how = .insert ∧ e.row = v ∧ (e.col = v ∨ e.col ∈ row L v) := by
    intro v e he
    simp only [hf] at he
    split at he
    · rw [List.mem_singleton] at he
      subst he
      exact ⟨rfl, rfl, .inl rfl⟩
    · rcases List.mem_cons.mp he with rfl | he
      · exact ⟨rfl, rfl, .inl rfl⟩
      · obtain ⟨w, hw, rfl⟩ := List.mem_map.mp he
        exact ⟨rfl, rfl, .inr hw⟩
  have hmem : ∀ e ∈ es, e.how = .insert ∧ e.row < n ∧ e.col < n := by
    intro e he
    obtain ⟨v, hv, he⟩ := List.mem_flatMap.mp he
    rw [List.mem_range] at hv
    obtain ⟨q1, q2, q3⟩ := hfm v e he
    refine ⟨q1, by omega, ?_⟩
    rcases q3 with q3 | q3
    · omega
    · rw [hs]; exact hg.range v _ q3
  have hb : Built false (Sparse.sized n n : Sparse K) := Built.sized (by omega)
  have hL0 : ∀ i j, entry (List.replicate n ([] : List (Nat × K))) i j = none := by
    intro i j
    unfold entry
    rw [row_replicate_nil]
    rfl
  obtain ⟨m, L', h1, h2, h3, h4, h5, h6, h7⟩ := assemble_ok es (rep_sized (α := K) (r := n) (by omega) n)
    (fun i => by rw [row_replicate_nil]; exact List.Pairwise.nil) (bounded_replicate _ _) (fun e he => by
      obtain ⟨q1, q2, q3⟩ := hmem e he
      exact ⟨by omega, by omega, by rw [q1]; simp⟩)
  rw [List.length_replicate] at h5
  have hlen : L'.length = n := by
    have e1 := (h5 n).mpr ⟨le_rfl, fun e he => (hmem e he).2.1⟩
    have e2 := ((h5 L'.length).mp le_rfl).1
    omega
  have hcol : m.colSize = n := by
    have e1 := (h6 n).mpr ⟨le_rfl, fun e he => (hmem e he).2.2⟩
    have e2 : n ≤ m.colSize := ((h6 m.colSize).mp le_rfl).1
    omega
  have hcell : ∀ i j, i < n → cell es i j = cell (f i (row L i)) i j := by
    intro i j hi
    unfold cell
    rw [hes, List.filter_flatMap]
    refine flatMap_single _ i _ List.nodup_range (List.mem_range.mpr hi) (fun v _ hv => ?_)
    rw [List.filter_eq_nil_iff]
    intro e he
    obtain ⟨-, q2, -⟩ := hfm v e he
    simp [q2, hv]
  have hent : ∀ i j, i < n → entry L' i j = if i = j then some (if fixed i then one else number (row L i).length)
      else if fixed i = false ∧ j ∈ row L i then some minus else none := by
    intro i j hi
    rw [h7, hL0, hcell i j hi]
    unfold cell
    simp only [hf]
    have hnd : (row L i).Nodup := (hg.sorted i).imp (fun hab => Nat.ne_of_lt hab)
    have hmap : ((row L i).map fun w => (⟨.insert, i, w, minus⟩ : Edit K)).filter (fun e => decide (e.row = i ∧ e.col = j)) =
        if j ∈ row L i then [⟨.insert, i, j, minus⟩] else [] := by
      rw [List.filter_map]
      have : ((fun e : Edit K => decide (e.row = i ∧ e.col = j)) ∘ fun w => (⟨.insert, i, w, minus⟩ : Edit K)) = fun w => decide (w = j) := by
        funext w; simp
      rw [this]
      have : (row L i).filter (fun w => decide (w = j)) = if j ∈ row L i then [j] else [] := by
        have := List.filter_beq (l := row L i) j
        simp only [beq_eq_decide] at this
        rw [this]
        split
        · rw [List.count_eq_one_of_mem hnd ‹_›]; rfl
        · rw [List.count_eq_zero_of_not_mem ‹_›]; rfl
      rw [this]
      split <;> rfl
    cases hfi : fixed i with
    | true =>
      simp only [if_true, Bool.true_eq_false, false_and, if_false]
      by_cases hij : i = j
      · subst hij
        rw [List.filter_cons_of_pos (by simp), if_pos rfl]
        rfl
      · rw [List.filter_cons_of_neg (by simp [hij]), if_neg hij]
        rfl
    | false =>
      simp only [Bool.false_eq_true, if_false, true_and]
      by_cases hij : i = j
      · subst hij
        rw [List.filter_cons_of_pos (by simp), hmap, if_neg (hg.loopless i), if_pos rfl]
        rfl
      · rw [List.filter_cons_of_neg (by simp [hij]), hmap, if_neg hij]
        split <;> rfl
  have hbm : Built false m := assemble_built hb (fun e he => by
    obtain ⟨q1, q2, q3⟩ := hmem e he
    exact ⟨q1, by omega, by omega⟩) h1
  refine ⟨m, ?_, hbm, by rw [h2.sizeRow, hlen], hcol, fun i j d hd => ?_⟩
  · unfold boundaryBy
    rw [hN, foldlM_assemble f (row L) _ _ hrows]
    exact h1
  · rw [hr.degree (by rw [← hs]; exact i.2), Out.ok.injEq] at hd
    rw [lookup_ok h2 (by rw [hlen]; exact i.2), hent i j i.2, hd]
    have ha : Adj g i j ↔ j.1 ∈ row L i := hr.adj_iff
    by_cases hij : i = j
    · rw [if_pos hij, if_pos (congrArg Fin.val hij)]
    · rw [if_neg hij, if_neg fun hc => hij (Fin.ext hc)]
      by_cases hj : j.1 ∈ row L i
      · simp only [hj, ha.mpr hj, and_true]
      · simp only [hj, mt ha.mp hj, and_false, if_false]

/-- C184: the program returns for every undirected graph, with the matrix of the problem. -/
theorem c184_assemble (g : Graph) (h : Reachable false g) (fixed : Nat → Bool) :
    ∃ (m : Sparse K) (A : Fin g.sizeVertex → Fin g.sizeVertex → K), boundary g fixed = .ok m ∧ Square m A ∧ OfBoundary g fixed A := by
  classical
  obtain ⟨m, h1, h2, h3, h4, h5⟩ := boundary_lookup (K := K) 1 (-1) (fun d => (d : K)) g h fixed
  choose d hd _ using fun i => degree_sum (K := K) h i
  refine ⟨m, fun i j => (if i = j then some (if fixed i then 1 else ((d i : Nat) : K)) else
    if fixed i = false ∧ Adj g i j then some (-1) else none).getD 0, h1, ⟨h2, h3, h4, fun i j => ?_⟩,
    ⟨fun i j hi => ?_, fun i e hi he => ?_, fun i j hi hij => ?_⟩⟩
  · unfold val
    rw [h5 i j (d i) (hd i)]
    rfl
  · simp only [hi, if_true, Bool.true_eq_false, false_and, if_false]
    split <;> rfl
  · rw [hd i, Out.ok.injEq] at he
    simp [hi, he]
  · simp only [hij, if_false, hi, true_and]
    split <;> rfl

end program

variable {K N : Type} [Field K] [LinearOrder K] [IsStrictOrderedRing K] {F : Scalars K N}

section rows

variable {g : Graph} {fixed : Nat → Bool} {A : Fin g.sizeVertex → Fin g.sizeVertex → K}

/-- Every vertex is joined to one with a given value. -/
def Anchored (g : Graph) (fixed : Nat → Bool) : Prop :=
  ∀ v, v < g.sizeVertex → ∃ s k, s < g.sizeVertex ∧ fixed s = true ∧ Walk (Adj g) k s v

theorem given_others (hA : OfBoundary g fixed A) {i : Fin g.sizeVertex} (hi : fixed i = true) : others A i = 0 ∧ A i i = 1 := by
  refine ⟨Finset.sum_eq_zero fun j _ => ?_, by rw [hA.given i i hi, if_pos rfl]⟩
  split
  · rfl
  · rename_i hj
    rw [hA.given i j hi, if_neg (Ne.symm hj), abs_zero]

open Classical in
theorem free_others (h : Reachable false g) (hA : OfBoundary g fixed A) {i : Fin g.sizeVertex} (hi : fixed i = false) :
    others A i = A i i ∧ A i i = ∑ j : Fin g.sizeVertex, if Adj g i j then 1 else 0 := by
  obtain ⟨d, h1, h2⟩ := degree_sum (K := K) h i
  have e : A i i = ∑ j : Fin g.sizeVertex, if Adj g i j then 1 else 0 := by rw [hA.diagonal i d hi h1, h2]
  refine ⟨?_, e⟩
  rw [e]
  refine Finset.sum_congr rfl fun j _ => ?_
  by_cases hij : j = i
  · subst hij
    rw [if_pos rfl, if_neg (adj_irrefl h _)]
  · rw [if_neg hij, hA.off i j hi (Ne.symm hij)]
    split <;> simp

theorem boundary_nonneg (h : Reachable false g) (hA : OfBoundary g fixed A) (i : Fin g.sizeVertex) : 0 ≤ A i i := by
  cases hi : fixed i with
  | true => rw [(given_others hA hi).2]; exact zero_le_one
  | false => rw [← (free_others h hA hi).1]; exact others_nonneg A i

theorem boundary_weak (h : Reachable false g) (hA : OfBoundary g fixed A) : Weak A := by
  intro i
  rw [abs_of_nonneg (boundary_nonneg h hA i)]
  cases hi : fixed i with
  | true => rw [(given_others hA hi).1, (given_others hA hi).2]; exact zero_le_one
  | false => exact (free_others h hA hi).1.le

/-- Chains are walks to given values. -/
theorem boundary_chain (h : Reachable false g) (hA : OfBoundary g fixed A) (i : Fin g.sizeVertex) :
    Chain A i ↔ ∃ s k, s < g.sizeVertex ∧ fixed s = true ∧ Walk (Adj g) k s i := by
  constructor
  · intro hc
    induction hc with
    | @strict i hi =>
      cases hf : fixed i with
      | true => exact ⟨i, 0, i.2, hf, rfl⟩
      | false =>
        rw [abs_of_nonneg (boundary_nonneg h hA i), (free_others h hA hf).1] at hi
        exact absurd hi (lt_irrefl _)
    | @link i j hj h0 _ ih =>
      cases hf : fixed i with
      | true => rw [hA.given i j hf, if_neg (Ne.symm hj)] at h0; exact absurd rfl h0
      | false =>
        obtain ⟨s, k, h1, h2, h3⟩ := ih
        rw [hA.off i j hf (Ne.symm hj)] at h0
        have ha : Adj g i j := by
          by_contra hc
          rw [if_neg hc] at h0
          exact h0 rfl
        exact ⟨s, k + 1, h1, h2, j, h3, (adj_comm h).mp ha⟩
  · rintro ⟨s, k, h1, h2, h3⟩
    have hstrict : ∀ i : Fin g.sizeVertex, fixed i = true → Chain A i := fun i hi =>
      .strict (by rw [(given_others hA hi).1, (given_others hA hi).2, abs_one]; exact zero_lt_one)
    induction k generalizing i with
    | zero =>
      have : s = i.1 := h3
      exact hstrict i (by rw [← this]; exact h2)
    | succ k ih =>
      obtain ⟨u, hw, ha⟩ := h3
      have hu := (adj_lt h ha).1
      cases hf : fixed i with
      | true => exact hstrict i hf
      | false =>
        have hne : i ≠ ⟨u, hu⟩ := fun he => adj_irrefl h u (by rw [he] at ha; exact ha)
        refine .link (j := ⟨u, hu⟩) (Ne.symm hne) ?_ (ih ⟨u, hu⟩ hw)
        rw [hA.off i ⟨u, hu⟩ hf hne, if_pos ((adj_comm h).mp ha)]
        exact neg_ne_zero.mpr one_ne_zero

theorem boundary_chained (h : Reachable false g) (hA : OfBoundary g fixed A) (ha : Anchored g fixed) : Chained A :=
  ⟨boundary_weak h hA, fun i => (boundary_chain h hA i).mpr (ha i i.2)⟩

theorem boundary_signed (h : Reachable false g) (hA : OfBoundary g fixed A) (hd : ∀ i, A i i ≠ 0) : Signed A := by
  refine ⟨fun i => lt_of_le_of_ne (boundary_nonneg h hA i) (Ne.symm (hd i)), fun i j hij => ?_⟩
  cases hf : fixed i with
  | true => rw [hA.given i j hf, if_neg hij]
  | false =>
    rw [hA.off i j hf hij]
    split <;> simp

theorem boundary_sum (h : Reachable false g) (hA : OfBoundary g fixed A) (ha : Anchored g fixed) (i : Fin g.sizeVertex) :
    ∑ j, A i j = if fixed i then 1 else 0 := by
  have hc := boundary_chained h hA ha
  rw [sum_signed (boundary_signed h hA fun i => chain_diag hc.1 (hc.2 i)), abs_of_nonneg (boundary_nonneg h hA i)]
  cases hi : fixed i with
  | true => rw [(given_others hA hi).1, (given_others hA hi).2]; simp
  | false => rw [(free_others h hA hi).1]; simp

end rows

/-- C184: the problem can be solved for all given values and sources exactly if every vertex is joined to one with a given value, and
then the solution is unique. -/
theorem c184_solvable (g : Graph) (h : Reachable false g) (fixed : Nat → Bool) (A : Fin g.sizeVertex → Fin g.sizeVertex → K)
    (hA : OfBoundary g fixed A) :
    ((∀ b, ∃ x, Solves A x b) ↔ Anchored g fixed) ∧ (Anchored g fixed → ∀ b, ∃! x, Solves A x b) := by
  refine ⟨⟨fun hs => ?_, fun ha b => (c183_solution A (boundary_chained h hA ha) b).exists⟩,
    fun ha b => c183_solution A (boundary_chained h hA ha) b⟩
  have hd : ∀ i, A i i ≠ 0 := by
    intro i h0
    cases hf : fixed i with
    | true => rw [(given_others hA hf).2] at h0; exact one_ne_zero h0
    | false =>
      obtain ⟨x, hx⟩ := hs fun _ => 1
      have h1 := hx i
      rw [Finset.sum_eq_zero] at h1
      · exact zero_ne_one h1
      · intro j _
        by_cases hj : j = i
        · rw [hj, h0, zero_mul]
        · have := others_ge A hj
          rw [(free_others h hA hf).1, h0] at this
          rw [abs_nonpos_iff.mp this, zero_mul]
  have hc := (c183_exactly A (boundary_signed h hA hd) (boundary_weak h hA)).mpr hs
  exact fun v hv => (boundary_chain h hA ⟨v, hv⟩).mp (hc.2 ⟨v, hv⟩)

/-- C184: without sources the values lie between the given ones.  One side needs sources of one sign only. -/
theorem c184_between (g : Graph) (h : Reachable false g) (fixed : Nat → Bool) (A : Fin g.sizeVertex → Fin g.sizeVertex → K)
    (hA : OfBoundary g fixed A) (ha : Anchored g fixed) (x b : Fin g.sizeVertex → K) (hx : Solves A x b) :
    (∀ hi, (∀ i : Fin g.sizeVertex, b i ≤ if fixed i then hi else 0) → ∀ i, x i ≤ hi) ∧ (∀ lo, (∀ i : Fin g.sizeVertex, (if fixed i then lo else 0) ≤ b i) → ∀ i, lo ≤ x i) := by
  have hc := boundary_chained h hA ha
  have hs := boundary_signed h hA fun i => chain_diag hc.1 (hc.2 i)
  constructor
  · intro hi hb
    refine c183_compare A hs hc x (fun _ => hi) b _ hx (fun _ => rfl) fun i => ?_
    rw [← Finset.sum_mul, boundary_sum h hA ha i]
    refine (hb i).trans (le_of_eq ?_)
    split <;> simp
  · intro lo hb
    refine c183_compare A hs hc (fun _ => lo) x _ b (fun _ => rfl) hx fun i => ?_
    rw [← Finset.sum_mul, boundary_sum h hA ha i]
    refine le_trans (le_of_eq ?_) (hb i)
    split <;> simp

open Classical in
/-- C184: at the other vertices the value is the mean of the neighbours, so if it is the largest one, the neighbours have it too. -/
theorem c184_mean (g : Graph) (h : Reachable false g) (fixed : Nat → Bool) (A : Fin g.sizeVertex → Fin g.sizeVertex → K)
    (hA : OfBoundary g fixed A) (x b : Fin g.sizeVertex → K) (hx : Solves A x b) (i : Fin g.sizeVertex) :
    (fixed i = true → x i = b i) ∧
    (fixed i = false → ∀ d, g.degree i = .ok d → (d : K) * x i = (∑ j : Fin g.sizeVertex, if Adj g i j then x j else 0) + b i) ∧
    (fixed i = false → b i = 0 → (∀ j, x j ≤ x i) → ∀ j : Fin g.sizeVertex, Adj g i j → x j = x i) := by
  have hfree : fixed i = false → (∑ j : Fin g.sizeVertex, if Adj g i j then x i - x j else 0) = b i := by
    intro hf
    have h1 := hx i
    rw [off_add, (free_others h hA hf).2] at h1
    rw [← h1, Finset.sum_mul]
    unfold Iterative.off
    rw [← Finset.sum_add_distrib]
    refine Finset.sum_congr rfl fun j _ => ?_
    by_cases hij : j = i
    · subst hij
      rw [if_pos rfl, if_neg (adj_irrefl h _), if_neg (adj_irrefl h _)]
      ring
    · rw [if_neg hij, hA.off i j hf (Ne.symm hij)]
      split <;> ring
  refine ⟨fun hf => ?_, fun hf d hd => ?_, fun hf hb hm j ha => ?_⟩
  · have h1 := hx i
    rw [Finset.sum_eq_single i] at h1
    · rwa [(given_others hA hf).2, one_mul] at h1
    · intro j _ hj
      rw [hA.given i j hf, if_neg (Ne.symm hj), zero_mul]
    · simp
  · rw [← hfree hf, ← hA.diagonal i d hf hd, (free_others h hA hf).2, Finset.sum_mul, ← Finset.sum_add_distrib]
    refine Finset.sum_congr rfl fun j _ => ?_
    split <;> ring
  · have h1 := hfree hf
    rw [hb] at h1
    have h2 := (Finset.sum_eq_zero_iff_of_nonneg (fun j _ => by
      split
      · linarith [hm j]
      · exact le_rfl)).mp h1 j (Finset.mem_univ j)
    rw [if_pos ha] at h2
    linarith

/-- C184: iterates of Jacobi and Gauss Seidel that start between the given values stay there. -/
theorem c184_box (hF : Exact F) (g : Graph) (h : Reachable false g) (fixed : Nat → Bool) (m : Sparse K)
    (A : Fin g.sizeVertex → Fin g.sizeVertex → K) (hm : Square m A) (hA : OfBoundary g fixed A) (ha : Anchored g fixed) (k : Method)
    (hk : k ≠ .sor) (s : FixedPoint K) (b x : Fin g.sizeVertex → K) (w : List K) (hw : k = .jacobi → w.length = g.sizeVertex) (lo hi : K)
    (hb : ∀ i : Fin g.sizeVertex, (if fixed i then lo else 0) ≤ b i ∧ b i ≤ if fixed i then hi else 0) (hx : ∀ i, lo ≤ x i ∧ x i ≤ hi) (j : Nat) :
    ∃ (y : Fin g.sizeVertex → K) (w' : List K), times (step F k s m (vec b)) j (vec x, w) = .ok (vec y, w') ∧
      ∀ i, lo ≤ y i ∧ y i ≤ hi := by
  have hc := boundary_chained h hA ha
  refine c183_box hF k hk s m A hm (boundary_signed h hA fun i => chain_diag hc.1 (hc.2 i)) b x w hw lo hi (fun i => ?_) hx j
  rw [boundary_sum h hA ha i]
  have := hb i
  cases hf : fixed i <;> simpa [hf] using this

/-- C184: assembled, Jacobi and Gauss Seidel tend to the one solution from every start, and the direct solver gives it whenever it
accepts the matrix. -/
theorem c184_solvers {F : Scalars ℝ N} (hF : Exact F) (g : Graph) (h : Reachable false g) (fixed : Nat → Bool) (ha : Anchored g fixed)
    (m : Sparse ℝ) (hm : boundary g fixed = .ok m) (b : Fin g.sizeVertex → ℝ) :
    ∃ (A : Fin g.sizeVertex → Fin g.sizeVertex → ℝ) (sol : Fin g.sizeVertex → ℝ), Square m A ∧ OfBoundary g fixed A ∧ Solves A sol b ∧
      (∀ y, Solves A y b → y = sol) ∧
      (∀ (k : Method), k ≠ .sor → ∀ (s : FixedPoint ℝ) (x : Fin g.sizeVertex → ℝ) (w : List ℝ), (k = .jacobi → w.length = g.sizeVertex) →
        TendTo F k s m b x w sol) ∧
      ∀ (pivot : Bool) (d d' : Lu ℝ), 0 < d.tol → factorise (scalars ℝ) pivot d (mat A) = .ok (d', true) → ∀ x0 : List ℝ,
        Lu.solve pivot d' x0 (some (vec b)) = .ok (vec sol, true, 1) := by
  obtain ⟨m', A, h1, h2, h3⟩ := c184_assemble (K := ℝ) g h fixed
  rw [hm, Out.ok.injEq] at h1
  subst h1
  have hc := boundary_chained h h3 ha
  obtain ⟨sol, hs, hu⟩ := c183_solution A hc b
  exact ⟨A, sol, h2, h3, hs, hu, fun k hk s x w hw => c183_converges hF m A h2 hc k hk s b x sol hs w hw,
    fun pivot d d' htol hf x0 => c183_direct pivot d d' htol A hc hf b sol hs x0⟩

/-- The ends 0 and 3 of `kite` given. -/
def ends (v : Nat) : Bool := v == 0 || v == 3

theorem kite_anchored : Anchored kite ends := by
  intro v hv
  refine ⟨if v = 0 then 0 else 3, if v = 0 ∨ v = 3 then 0 else 1, ?_⟩
  have : v < 4 := hv
  have ha : ∀ a b, ((kite.nbrs a).bind fun r => .ok (decide (b ∈ r))) = .ok true → Adj kite a b := by
    intro a b hab
    cases hn : kite.nbrs a with
    | ok r =>
      rw [hn] at hab
      refine ⟨r, hn, ?_⟩
      simpa [Out.bind] using hab
    | exit c => rw [hn] at hab; simp [Out.bind] at hab
    | throw => rw [hn] at hab; simp [Out.bind] at hab
    | ub => rw [hn] at hab; simp [Out.bind] at hab
    | diverge => rw [hn] at hab; simp [Out.bind] at hab
  interval_cases v
  · exact ⟨by decide, by decide, rfl⟩
  · exact ⟨by decide, by decide, 3, rfl, ha 3 1 (by decide +kernel)⟩
  · exact ⟨by decide, by decide, 3, rfl, ha 3 2 (by decide +kernel)⟩
  · exact ⟨by decide, by decide, rfl⟩

/-- The graph `kite` meets the hypotheses, and what the program makes of it. -/
example : Reachable false kite ∧ Anchored kite ends ∧
    boundary (K := ℚ) kite ends = .ok ⟨[0, 1, 5, 8, 9], [0, 0, 1, 2, 3, 1, 2, 3, 3], [1, -1, 3, -1, -1, -1, 2, -1, 1], 4⟩ :=
  ⟨kite_reachable, kite_anchored, by decide +kernel⟩

/-- Nothing given: no vertex is joined to a given one. -/
example : ¬ Anchored kite fun _ => false := fun h => by
  obtain ⟨s, k, -, h2, -⟩ := h 0 (by decide)
  exact Bool.false_ne_true h2

end Disa.Props
