import Verif.Props.Laplace
import Verif.Props.Monotone
import Verif.Props.Subgraph
import Verif.Props.Residual
import Verif.Props.SparseArith

/-!
# Iterations on a subgraph with levels around it
-/

namespace Disa.Props

open Disa Spec Graph Disa.Sparse Disa.Dense Iterative

section cover

variable {parent : Graph} {hash : Nat → Nat} {part : List Nat} {m : Nat} {s : Subgraph}

/-- What is used of a subgraph: the vertices it maps to, and where the neighbours of its inner vertices are. -/
theorem ghost_cover (hp : Reachable false parent) (hs : part.Pairwise (· < ·)) (hlt : ∀ v ∈ part, v < parent.sizeVertex)
    (hr : SubReach hash parent part (sizeMax - 1) m s) {loc : Fin s.sizeVertex → Fin parent.sizeVertex}
    (hloc : ∀ i : Fin s.sizeVertex, s.localGlobal i = .ok (loc i).1) :
    Function.Injective loc ∧ (∀ i : Fin s.sizeVertex, ∃ k, s.vertexLevel i = .ok k ∧ k ≤ m) ∧
    (∀ i j : Fin s.sizeVertex, Adj s.graph i j ↔ Adj parent (loc i) (loc j)) ∧
    ∀ (i : Fin s.sizeVertex) (k : Nat), s.vertexLevel i = .ok k → k < m → ∀ v : Fin parent.sizeVertex, Adj parent (loc i) v →
      ∃ (j : Fin s.sizeVertex) (l : Nat), loc j = v ∧ s.vertexLevel j = .ok l ∧ l ≤ k + 1 := by
  obtain ⟨f, hf⟩ := c24_update_levels_partial parent hash part m s hp hs hlt hr
  have e : ∀ i : Fin s.sizeVertex, f i = (loc i).1 := fun i => Out.ok.inj ((hf.mapping i i.2).symm.trans (hloc i))
  refine ⟨fun i j hij => Fin.ext (hf.injective i j i.2 j.2 (by rw [e, e, hij])), fun i => ?_, fun i j => ?_, ?_⟩
  · obtain ⟨k, h1, h2⟩ := hf.levels i i.2
    obtain ⟨l, h3, h4⟩ := (hf.vertices (f i)).mp ⟨i, i.2, rfl⟩
    exact ⟨k, h1, by rw [h2.unique h4]; exact h3⟩
  · rw [hf.edges i j i.2 j.2, e, e]
  · intro i k hk hkm v hv
    obtain ⟨k', h1, h2⟩ := hf.levels i i.2
    obtain rfl : k = k' := Out.ok.inj (hk.symm.trans h1)
    obtain ⟨l, h3, h4⟩ := IsDist.succ_le h2 (by rw [e]; exact hv)
    obtain ⟨j, h5, h6⟩ := (hf.vertices v).mpr ⟨l, by omega, h4⟩
    obtain ⟨l', h7, h8⟩ := hf.levels j h5
    rw [h6] at h8
    obtain rfl : l' = l := h8.unique h4
    exact ⟨⟨j, h5⟩, l', Fin.ext (by rw [← e]; exact h6), h7, h3⟩

/-- There is such a map. -/
theorem ghost_loc (hp : Reachable false parent) (hs : part.Pairwise (· < ·)) (hlt : ∀ v ∈ part, v < parent.sizeVertex)
    (hr : SubReach hash parent part (sizeMax - 1) m s) :
    ∃ loc : Fin s.sizeVertex → Fin parent.sizeVertex, ∀ i : Fin s.sizeVertex, s.localGlobal i = .ok (loc i).1 := by
  obtain ⟨f, hf⟩ := c24_update_levels_partial parent hash part m s hp hs hlt hr
  have hb : ∀ i : Fin s.sizeVertex, f i < parent.sizeVertex := fun i => by
    obtain ⟨k, -, ⟨⟨v, hv, hw⟩, -⟩⟩ := (hf.vertices (f i)).mp ⟨i, i.2, rfl⟩
    cases k with
    | zero => rw [← show v = f i from hw]; exact hlt v hv
    | succ k =>
      obtain ⟨w, -, hw⟩ := hw
      exact (Disa.Props.adj_lt hp hw).2
  exact ⟨fun i => ⟨f i, hb i⟩, fun i => hf.mapping i i.2⟩

theorem ghost_reach (hp : Reachable false parent) (hs : part.Pairwise (· < ·)) (hlt : ∀ v ∈ part, v < parent.sizeVertex)
    (hr : SubReach hash parent part (sizeMax - 1) m s) : Reachable false s.graph := by
  obtain ⟨x, hx⟩ := Subgraph.hash_ok hp hash
  exact (reach_inv hp hx hs hlt (by decide) hr).1.reach

/-- One level around the partition gives its vertices all their neighbours. -/
theorem ghost_degree (hp : Reachable false parent) (hs : part.Pairwise (· < ·)) (hlt : ∀ v ∈ part, v < parent.sizeVertex)
    (hr : SubReach hash parent part (sizeMax - 1) m s) {loc : Fin s.sizeVertex → Fin parent.sizeVertex}
    (hloc : ∀ i : Fin s.sizeVertex, s.localGlobal i = .ok (loc i).1) (i : Fin s.sizeVertex) (k : Nat) (hk : s.vertexLevel i = .ok k)
    (hkm : k < m) : s.graph.degree i = parent.degree (loc i) := by
  classical
  obtain ⟨hinj, -, hadj, hcov⟩ := ghost_cover hp hs hlt hr hloc
  obtain ⟨d, h1, h2⟩ := degree_sum (K := ℚ) (ghost_reach hp hs hlt hr) i
  obtain ⟨d', h3, h4⟩ := degree_sum (K := ℚ) hp (loc i)
  rw [h1, h3]
  congr 1
  have : (d : ℚ) = d' := by
    rw [h2, h4]
    refine Finset.sum_of_injOn loc hinj.injOn (fun _ _ => Finset.mem_coe.mpr (Finset.mem_univ _)) ?_ ?_
    · intro v _ hv
      rw [if_neg]
      intro h
      obtain ⟨j, -, h5, -⟩ := hcov i k hk hkm v h
      exact hv ⟨j, Finset.mem_coe.mpr (Finset.mem_univ _), h5⟩
    · intro j _
      exact if_congr (hadj i j) rfl rfl
  exact_mod_cast this

end cover

section iterations

variable {K : Type} [Field K] [LinearOrder K] [IsStrictOrderedRing K]
variable {parent : Graph} {hash : Nat → Nat} {part : List Nat} {m : Nat} {s : Subgraph}

/-- A matrix with elements on the diagonal and at the edges of a graph. -/
def Along (g : Graph) {n : Nat} (A : Fin n → Fin n → K) : Prop := ∀ i j : Fin n, i ≠ j → ¬ Adj g i j → A i j = 0

/-- A sum over a row of the whole matrix is the sum over the row of the part. -/
theorem ghost_sum (hp : Reachable false parent) (hs : part.Pairwise (· < ·)) (hlt : ∀ v ∈ part, v < parent.sizeVertex)
    (hr : SubReach hash parent part (sizeMax - 1) m s) {loc : Fin s.sizeVertex → Fin parent.sizeVertex}
    (hloc : ∀ i : Fin s.sizeVertex, s.localGlobal i = .ok (loc i).1) {A : Fin parent.sizeVertex → Fin parent.sizeVertex → K}
    (hA : Along parent A) {A' : Fin s.sizeVertex → Fin s.sizeVertex → K} {i : Fin s.sizeVertex} {k : Nat}
    (hk : s.vertexLevel i = .ok k) (hkm : k < m) (hA' : ∀ j, A' i j = A (loc i) (loc j)) {x : Fin parent.sizeVertex → K}
    {y : Fin s.sizeVertex → K} (hy : ∀ (j : Fin s.sizeVertex) (l : Nat), s.vertexLevel j = .ok l → l ≤ k + 1 → y j = x (loc j)) :
    Iterative.off A' y i = Iterative.off A x (loc i) := by
  obtain ⟨hinj, hlev, hadj, hcov⟩ := ghost_cover hp hs hlt hr hloc
  unfold Iterative.off
  refine Finset.sum_of_injOn loc hinj.injOn (fun _ _ => Finset.mem_coe.mpr (Finset.mem_univ _)) ?_ ?_
  · intro v _ hv
    by_cases hvi : v = loc i
    · rw [if_pos hvi]
    · rw [if_neg hvi, hA (loc i) v (Ne.symm hvi), zero_mul]
      intro h
      obtain ⟨j, -, h5, -⟩ := hcov i k hk hkm v h
      exact hv ⟨j, Finset.mem_coe.mpr (Finset.mem_univ _), h5⟩
  · intro j _
    by_cases hji : j = i
    · rw [if_pos hji, if_pos (by rw [hji])]
    · rw [if_neg hji, if_neg (fun h => hji (hinj h)), hA' j]
      by_cases ha : Adj parent (loc i) (loc j)
      · obtain ⟨j', l, h1, h2, h3⟩ := hcov i k hk hkm (loc j) ha
        obtain rfl := hinj h1
        rw [hy j' l h2 h3]
      · rw [hA (loc i) (loc j) (fun h => hji (hinj h).symm) ha, zero_mul, zero_mul]

/-- Repeated products. -/
theorem products_ok {n : Nat} {M : Sparse K} {A : Fin n → Fin n → K} (hM : Square M A) (x : Fin n → K) :
    ∃ xs : Nat → Fin n → K, xs 0 = x ∧ (∀ t, times (M.mulVec false) t (vec x) = .ok (vec (xs t))) ∧
      ∀ t i, xs (t + 1) i = ∑ j, A i j * xs t j := by
  have h1 : ∀ x : Fin n → K, M.mulVec false (vec x) = .ok (vec fun i => ∑ j, A i j * x j) := by
    intro x
    obtain ⟨m1, m2, m3, m4⟩ := hM
    obtain ⟨y, h1, h2, h3⟩ := c36_matvec M m1 n n (fun i j => if h : i < n ∧ j < n then A ⟨i, h.1⟩ ⟨j, h.2⟩ else 0)
      ⟨m2, m3, fun i j hi hj => by simp only [hi, hj, and_self, dif_pos]; exact m4 ⟨i, hi⟩ ⟨j, hj⟩⟩ false (vec x) (by simp [vec]) (by simp)
    rw [h1]
    congr 1
    refine List.ext_getElem? (fun i => ?_)
    by_cases hi : i < n
    · rw [h3 i hi, Finset.sum_range]
      simp [vec, hi]
    · rw [List.getElem?_eq_none (by omega), List.getElem?_eq_none (by simp [vec]; omega)]
  refine ⟨fun t => Nat.rec x (fun _ y i => ∑ j, A i j * y j) t, rfl, fun t => ?_, fun t i => rfl⟩
  induction t with
  | zero => rfl
  | succ t ih => rw [times_succ_right, ih]; exact h1 _

variable {N : Type} {F : Scalars K N}

/-- C188: Jacobi on a subgraph with `m` levels around its partition.  After `t` iterations the values at the vertices of level at
most `m - t` are those of the iteration on the whole graph.  The rows of the outermost level do not matter. -/
theorem c188_jacobi (hF : Exact F) (hp : Reachable false parent) (hs : part.Pairwise (· < ·))
    (hlt : ∀ v ∈ part, v < parent.sizeVertex) (hr : SubReach hash parent part (sizeMax - 1) m s)
    (loc : Fin s.sizeVertex → Fin parent.sizeVertex) (hloc : ∀ i : Fin s.sizeVertex, s.localGlobal i = .ok (loc i).1)
    (M M' : Sparse K) (A : Fin parent.sizeVertex → Fin parent.sizeVertex → K) (A' : Fin s.sizeVertex → Fin s.sizeVertex → K)
    (hM : Square M A) (hM' : Square M' A') (hA : Along parent A) (hd : ∀ i, A i i ≠ 0) (hd' : ∀ i, A' i i ≠ 0)
    (hA' : ∀ (i : Fin s.sizeVertex) (k : Nat), s.vertexLevel i = .ok k → k < m → ∀ j, A' i j = A (loc i) (loc j))
    (b x : Fin parent.sizeVertex → K) (b' : Fin s.sizeVertex → K)
    (hb : ∀ (i : Fin s.sizeVertex) (k : Nat), s.vertexLevel i = .ok k → k < m → b' i = b (loc i))
    (st st' : FixedPoint K) (w w' : List K) (hw : w.length = parent.sizeVertex) (hw' : w'.length = s.sizeVertex) :
    ∃ (xs : Nat → Fin parent.sizeVertex → K) (ys : Nat → Fin s.sizeVertex → K),
      (∀ t, ∃ v, times (step F .jacobi st M (vec b)) t (vec x, w) = .ok (vec (xs t), v)) ∧
      (∀ t, ∃ v, times (step F .jacobi st' M' (vec b')) t (vec fun i => x (loc i), w') = .ok (vec (ys t), v)) ∧
      ∀ (t : Nat) (i : Fin s.sizeVertex) (k : Nat), s.vertexLevel i = .ok k → k + t ≤ m → ys t i = xs t (loc i) := by
  obtain ⟨xs, x0, x1, x2⟩ := iterates_next hF .jacobi st hM hd b x w (fun _ => hw)
  obtain ⟨ys, y0, y1, y2⟩ := iterates_next hF .jacobi st' hM' hd' b' (fun i => x (loc i)) w' (fun _ => hw')
  refine ⟨xs, ys, x1, y1, fun t => ?_⟩
  induction t with
  | zero => intro i k _ _; rw [y0, x0]
  | succ t ih =>
    intro i k hk hkt
    have e1 := x2 t (loc i)
    have e2 := y2 t i
    rw [if_pos rfl] at e1 e2
    rw [e1, e2]
    unfold relaxed
    rw [ghost_sum hp hs hlt hr hloc hA hk (by omega) (hA' i k hk (by omega)) (x := xs t) (y := ys t)
      (fun j l hl hlk => ih j l hl (by omega)), hb i k hk (by omega), hA' i k hk (by omega) i, ih i k hk (by omega)]

/-- C188: the same for products with the matrix. -/
theorem c188_product (hp : Reachable false parent) (hs : part.Pairwise (· < ·))
    (hlt : ∀ v ∈ part, v < parent.sizeVertex) (hr : SubReach hash parent part (sizeMax - 1) m s)
    (loc : Fin s.sizeVertex → Fin parent.sizeVertex) (hloc : ∀ i : Fin s.sizeVertex, s.localGlobal i = .ok (loc i).1)
    (M M' : Sparse K) (A : Fin parent.sizeVertex → Fin parent.sizeVertex → K) (A' : Fin s.sizeVertex → Fin s.sizeVertex → K)
    (hM : Square M A) (hM' : Square M' A') (hA : Along parent A)
    (hA' : ∀ (i : Fin s.sizeVertex) (k : Nat), s.vertexLevel i = .ok k → k < m → ∀ j, A' i j = A (loc i) (loc j))
    (x : Fin parent.sizeVertex → K) :
    ∃ (xs : Nat → Fin parent.sizeVertex → K) (ys : Nat → Fin s.sizeVertex → K),
      (∀ t, times (M.mulVec false) t (vec x) = .ok (vec (xs t))) ∧
      (∀ t, times (M'.mulVec false) t (vec fun i => x (loc i)) = .ok (vec (ys t))) ∧
      ∀ (t : Nat) (i : Fin s.sizeVertex) (k : Nat), s.vertexLevel i = .ok k → k + t ≤ m → ys t i = xs t (loc i) := by
  obtain ⟨xs, x0, x1, x2⟩ := products_ok hM x
  obtain ⟨ys, y0, y1, y2⟩ := products_ok hM' (fun i => x (loc i))
  refine ⟨xs, ys, x1, y1, fun t => ?_⟩
  induction t with
  | zero => intro i k _ _; rw [y0, x0]
  | succ t ih =>
    intro i k hk hkt
    rw [x2, y2, off_add, off_add,
      ghost_sum hp hs hlt hr hloc hA hk (by omega) (hA' i k hk (by omega)) (x := xs t) (y := ys t)
        (fun j l hl hlk => ih j l hl (by omega)), hA' i k hk (by omega) i, ih i k hk (by omega)]

omit [LinearOrder K] [IsStrictOrderedRing K] in
/-- The matrix of a graph has elements along its edges only. -/
theorem ofGraph_along {g : Graph} {c : K} {A : Fin g.sizeVertex → Fin g.sizeVertex → K} (hA : OfGraph g c A) : Along g A := by
  intro i j hij h
  rw [hA.off i j hij, if_neg h]

/-- C188: the matrices that the same program builds from the graph and from the subgraph are in that relation. -/
theorem c188_laplace (hp : Reachable false parent) (hs : part.Pairwise (· < ·))
    (hlt : ∀ v ∈ part, v < parent.sizeVertex) (hr : SubReach hash parent part (sizeMax - 1) m s)
    (loc : Fin s.sizeVertex → Fin parent.sizeVertex) (hloc : ∀ i : Fin s.sizeVertex, s.localGlobal i = .ok (loc i).1)
    (c : K) (hc : 0 < c) :
    ∃ (M M' : Sparse K) (A : Fin parent.sizeVertex → Fin parent.sizeVertex → K) (A' : Fin s.sizeVertex → Fin s.sizeVertex → K),
      laplace parent c = .ok M ∧ laplace s.graph c = .ok M' ∧ Square M A ∧ Square M' A' ∧ Along parent A ∧ (∀ i, A i i ≠ 0) ∧
      (∀ i, A' i i ≠ 0) ∧
      ∀ (i : Fin s.sizeVertex) (k : Nat), s.vertexLevel i = .ok k → k < m → ∀ j, A' i j = A (loc i) (loc j) := by
  classical
  have hg := ghost_reach hp hs hlt hr
  obtain ⟨M, A, m1, m2, m3, -⟩ := c167_assemble parent hp c
  obtain ⟨M', A', n1, n2, n3, -⟩ := c167_assemble s.graph hg c
  obtain ⟨hinj, -, hadj, -⟩ := ghost_cover hp hs hlt hr hloc
  refine ⟨M, M', A, A', m1, n1, m2, n2, ofGraph_along m3, fun i => ((ofGraph_signed hp hc m3).1 i).ne',
    fun i => ((ofGraph_signed hg hc n3).1 i).ne', fun i k hk hkm j => ?_⟩
  by_cases hij : i = j
  · subst hij
    obtain ⟨d, h1, -⟩ := degree_sum (K := K) hg i
    rw [n3.diagonal i d h1, m3.diagonal (loc i) d (by rw [← ghost_degree hp hs hlt hr hloc i k hk hkm]; exact h1)]
  · rw [n3.off i j hij, m3.off (loc i) (loc j) (fun h => hij (hinj h))]
    exact if_congr (hadj i j) rfl rfl

end iterations

/-- C188: one level serves for one product and not for two. -/
theorem c188_sharp : ∃ (s : Subgraph) (M M' : Sparse ℚ), SubReach id path3 [0] (sizeMax - 1) 1 s ∧ laplace path3 1 = .ok M ∧
    laplace s.graph 1 = .ok M' ∧ s.localGlobal 0 = .ok 0 ∧ s.localGlobal 1 = .ok 1 ∧ s.vertexLevel 0 = .ok 0 ∧
    times (M.mulVec false) 2 [0, 0, 1] = .ok [1, -5, 5] ∧ times (M'.mulVec false) 2 [0, 0] = .ok [0, 0] := by
  refine ⟨⟨⟨[1, 0], [0, 1, 2]⟩, [0, 1], [0, 1], 3 ^^^ 2 ^^^ 1 ^^^ 1⟩, ⟨[0, 2, 5, 7], [0, 1, 0, 1, 2, 1, 2], [2, -1, -1, 3, -1, -1, 2], 3⟩,
    ⟨[0, 2, 4], [0, 1, 0, 1], [2, -1, -1, 2], 2⟩, .make (by decide) (by decide +kernel), ?_, ?_, rfl, rfl, rfl, ?_, ?_⟩ <;> decide +kernel

example : ∃ s, SubReach id path3 [0] (sizeMax - 1) 1 s ∧ s.sizeVertex = 2 ∧ s.vertexLevel 0 = .ok 0 ∧ 0 + 1 ≤ 1 :=
  ⟨⟨⟨[1, 0], [0, 1, 2]⟩, [0, 1], [0, 1], 3 ^^^ 2 ^^^ 1 ^^^ 1⟩, .make (by decide) (by decide +kernel), rfl, rfl, le_rfl⟩

/-- Jacobi on the path with the vertex 0 and one level around it. -/
example : ∃ (s : Subgraph) (M M' : Sparse ℚ) (A : Fin path3.sizeVertex → Fin path3.sizeVertex → ℚ)
    (A' : Fin s.sizeVertex → Fin s.sizeVertex → ℚ) (loc : Fin s.sizeVertex → Fin path3.sizeVertex),
    SubReach id path3 [0] (sizeMax - 1) 1 s ∧ (∀ i : Fin s.sizeVertex, s.localGlobal i = .ok (loc i).1) ∧ Square M A ∧ Square M' A' ∧
    Along path3 A ∧ (∀ i, A i i ≠ 0) ∧ (∀ i, A' i i ≠ 0) ∧
    ∀ (i : Fin s.sizeVertex) (k : Nat), s.vertexLevel i = .ok k → k < 1 → ∀ j, A' i j = A (loc i) (loc j) := by
  have hr : SubReach id path3 [0] (sizeMax - 1) 1 ⟨⟨[1, 0], [0, 1, 2]⟩, [0, 1], [0, 1], 3 ^^^ 2 ^^^ 1 ^^^ 1⟩ :=
    .make (by decide) (by decide +kernel)
  obtain ⟨loc, hloc⟩ := ghost_loc path3_reachable (by decide) (by decide) hr
  obtain ⟨M, M', A, A', -, -, h1, h2, h3, h4, h5, h6⟩ :=
    c188_laplace path3_reachable (by decide) (by decide) hr loc hloc (1 : ℚ) one_pos
  exact ⟨_, M, M', A, A', loc, hr, hloc, h1, h2, h3, h4, h5, h6⟩

end Disa.Props
