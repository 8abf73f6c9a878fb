import Verif.Graph.Inserts

/-!
# Properties C01 to C11: the graph container
-/

namespace Disa.Props

open Disa Spec Graph

/-! ### C01 -/

/-- C01: a history of insertions into a default constructed graph behaves like a set of edges. -/
theorem c01_insert_history (d : Bool) (es : List Edge) (hne : ∀ e ∈ es, e.1 ≠ e.2)
    (hlt : ∀ e ∈ es, e.1 + 1 < sizeMax ∧ e.2 + 1 < sizeMax) :
    ∃ g bs, insertAll d Graph.new es = .ok (g, bs) ∧
      bs.length = es.length ∧
      (∀ k (hk : k < es.length), bs[k]? = some (!decide (EdgeIn d (es.take k) es[k]))) ∧
      (∀ q : Edge, q.1 ≠ q.2 → g.contains q = .ok (decide (EdgeIn d es q))) ∧
      g.sizeEdge d = countEdges d es ∧
      (∀ e ∈ es, e.1 < g.sizeVertex ∧ e.2 < g.sizeVertex) ∧
      (es = [] → g.sizeVertex = 0) ∧
      (es ≠ [] → ∃ e ∈ es, g.sizeVertex = max e.1 e.2 + 1) := by
  obtain ⟨g, bs, L, h1, h2, h3, h4, h5, h6, h7⟩ := insertAll_ok rep_new (good_nil d) hne hlt
  have hm : ∀ i j, j ∈ row L i ↔ EdgeIn d es (i, j) := fun i j => by rw [h4]; simp [row]
  have hs := foldl_max_spec es 0
  simp only [List.length_nil] at h5
  rw [← h5] at hs
  refine ⟨g, bs, h1, h6, ?_, ?_, sizeEdge_count h2 h3 hne hm, ?_, ?_, ?_⟩
  · intro k hk
    rw [h7 k hk]
    simp [row]
  · intro q hq
    rw [h2.contains h3, if_neg hq]
    simp only [hm]
  · intro e he
    rw [h2.sizeVertex]
    have := hs.1 e he; omega
  · rintro rfl
    rw [h2.sizeVertex, h5]; rfl
  · intro hes
    rw [h2.sizeVertex]
    rcases hs.2 with h | h
    · obtain ⟨e, he⟩ := List.exists_mem_of_ne_nil es hes
      have := hs.1 e he; omega
    · exact h

/-- C01: inserting an edge with equal end points exits, whatever came before. -/
theorem c01_insert_loop_exits (d : Bool) (pre post : List Edge) (e : Edge) (hne : ∀ e ∈ pre, e.1 ≠ e.2)
    (hlt : ∀ e ∈ pre, e.1 + 1 < sizeMax ∧ e.2 + 1 < sizeMax) (he : e.1 = e.2) :
    insertAll d Graph.new (pre ++ e :: post) = .exit 1 :=
  insertAll_exit rep_new (good_nil d) hne hlt he

/-- C01: asking for an edge with equal end points exits. -/
theorem c01_contains_loop_exits (g : Graph) (e : Edge) (he : e.1 = e.2) : g.contains e = .exit 1 := by
  simp [Graph.contains, he]

example : (∀ e ∈ [(0, 3), (2, 1), (3, 0)], e.1 ≠ e.2) ∧ ∀ e ∈ [(0, 3), (2, 1), (3, 0)], e.1 + 1 < sizeMax ∧ e.2 + 1 < sizeMax := by
  decide

/-- What C01 says for the history above: the third insertion repeats the first one. -/
example : insertAll false Graph.new [(0, 3), (2, 1), (3, 0)] =
    .ok (⟨[3, 2, 1, 0], [0, 1, 2, 3, 4]⟩, [true, true, false]) := by decide

/-! ### C02 -/

/-- C02: neighbour spans of every reachable graph are strictly increasing, in range, loop free and as long as the
degree says. -/
theorem c02_spans (d : Bool) (g : Graph) (h : Reachable d g) (v : Nat) (hv : v < g.sizeVertex) :
    ∃ r, g.nbrs v = .ok r ∧ r.Pairwise (· < ·) ∧ (∀ u ∈ r, u < g.sizeVertex ∧ u ≠ v) ∧ g.degree v = .ok r.length := by
  obtain ⟨L, h1, h2⟩ := reach_rep h
  rw [h1.sizeVertex] at hv
  refine ⟨row L v, h1.nbrs hv, h2.sorted v, ?_, h1.degree hv⟩
  intro u hu
  refine ⟨by rw [h1.sizeVertex]; exact h2.range v u hu, ?_⟩
  rintro rfl
  exact h2.loopless u hu

/-- C02: adjacency in undirected graphs is symmetric. -/
theorem c02_symmetric (g : Graph) (h : Reachable false g) (u v : Nat) : Adj g u v ↔ Adj g v u := by
  obtain ⟨L, h1, h2⟩ := reach_rep h
  rw [h1.adj_iff, h1.adj_iff]
  exact ⟨h2.symm rfl u v, h2.symm rfl v u⟩

/-- C02: the degrees sum to the number of edges, counted twice when undirected. -/
theorem c02_degree_sum (d : Bool) (g : Graph) (h : Reachable d g) :
    ∃ ds, mapOut g.degree (List.range g.sizeVertex) = .ok ds ∧
      ds.sum = if d then g.sizeEdge d else 2 * g.sizeEdge d := by
  obtain ⟨L, h1, h2⟩ := reach_rep h
  refine ⟨_, mapOut_ok (g := fun v => (row L v).length) ?_, ?_⟩
  · intro v hv
    rw [h1.sizeVertex] at hv
    exact h1.degree (by simpa using hv)
  · rw [← h1.stored h2, h1.sizeVertex, flatten_length_eq_sum]
    rfl

/-- A reachable graph whose history uses every operation. -/
def witnessOps : List Op :=
  [.insert (5, 6), .clear, .insert (0, 1), .insert (2, 1), .insert (2, 3), .insert (0, 3), .resize 6, .insert (4, 5), .resize 5,
    .eraseIf (· == 1), .reorder [3, 0, 2, 1]]

theorem witnessOps_valid : ∀ op ∈ witnessOps, op.Valid := by
  simp only [witnessOps, List.mem_cons, List.not_mem_nil, or_false]
  rintro op (rfl | rfl | rfl | rfl | rfl | rfl | rfl | rfl | rfl | rfl | rfl) <;> simp [Op.Valid, sizeMax] <;> decide

example : ∃ g, Reachable false g ∧ g.sizeVertex = 4 ∧ g.sizeEdge false = 2 :=
  ⟨⟨[2, 0, 3, 2], [0, 1, 1, 3, 4]⟩, ⟨witnessOps, witnessOps_valid, by decide +kernel⟩, by decide, by decide⟩

/-! ### C03 -/

/-- C03: two insertion sequences that denote the same set of edges build the same graph. -/
theorem c03_order_independent (d : Bool) (es fs : List Edge)
    (hes : ∀ e ∈ es, e.1 ≠ e.2) (hlt : ∀ e ∈ es, e.1 + 1 < sizeMax ∧ e.2 + 1 < sizeMax)
    (hfs : ∀ e ∈ fs, e.1 ≠ e.2) (hlt' : ∀ e ∈ fs, e.1 + 1 < sizeMax ∧ e.2 + 1 < sizeMax)
    (hsame : ∀ q, EdgeIn d es q ↔ EdgeIn d fs q) :
    ∃ g bs cs, insertAll d Graph.new es = .ok (g, bs) ∧ insertAll d Graph.new fs = .ok (g, cs) := by
  obtain ⟨g, bs, L, h1, h2, h3, h4, h5, _, _⟩ := insertAll_ok rep_new (good_nil d) hes hlt
  obtain ⟨g', cs, M, k1, k2, k3, k4, k5, _, _⟩ := insertAll_ok rep_new (good_nil d) hfs hlt'
  have hself : ∀ (l : List Edge) (e : Edge), e ∈ l → EdgeIn d l e := fun l e he => ⟨e, he, .inl rfl⟩
  by_cases hn : es = []
  · have hf : fs = [] := by
      by_contra hc
      obtain ⟨f, hf⟩ := List.exists_mem_of_ne_nil fs hc
      have := (hsame f).mpr (hself fs f hf)
      subst hn; exact edgeIn_nil this
    subst hn; subst hf
    exact ⟨Graph.new, [], [], rfl, rfl⟩
  · have hs := foldl_max_spec es 0
    have hs' := foldl_max_spec fs 0
    simp only [List.length_nil] at h5 k5
    rw [← h5] at hs
    rw [← k5] at hs'
    have hfn : fs ≠ [] := by
      rintro rfl
      obtain ⟨f, hf⟩ := List.exists_mem_of_ne_nil es hn
      exact edgeIn_nil ((hsame f).mp (hself es f hf))
    have key : ∀ (xs ys : List Edge) (m : Nat), (∀ q, EdgeIn d xs q → EdgeIn d ys q) →
        (∀ e ∈ ys, max e.1 e.2 < m) → ∀ e ∈ xs, max e.1 e.2 < m := by
      intro xs ys m hq hm e he
      obtain ⟨f, hf, hse⟩ := hq e (hself xs e he)
      have := hm f hf
      rcases hse with hse | ⟨_, hse⟩
      · rw [hse]; exact this
      · rw [← hse] at this; simp only at this; omega
    have hLpos : ∃ e ∈ es, L.length = max e.1 e.2 + 1 := by
      rcases hs.2 with h | h
      · obtain ⟨e, he⟩ := List.exists_mem_of_ne_nil es hn
        have := hs.1 e he; omega
      · exact h
    have hMpos : ∃ e ∈ fs, M.length = max e.1 e.2 + 1 := by
      rcases hs'.2 with h | h
      · obtain ⟨e, he⟩ := List.exists_mem_of_ne_nil fs hfn
        have := hs'.1 e he; omega
      · exact h
    have hlen : L.length = M.length := by
      obtain ⟨e, he, hL⟩ := hLpos
      obtain ⟨f, hf, hM⟩ := hMpos
      have a1 := key es fs M.length (fun q => (hsame q).mp) hs'.1 e he
      have a2 := key fs es L.length (fun q => (hsame q).mpr) hs.1 f hf
      omega
    have hLM : L = M := good_ext h3 k3 hlen fun i j => by
      rw [h4, k4, hsame]
    subst hLM
    have hLn : L ≠ [] := by
      obtain ⟨e, _, hL⟩ := hLpos
      rintro rfl; simp at hL
    rw [h2.unique k2 hLn] at h1
    exact ⟨g', bs, cs, h1, k1⟩

example : ∀ q, EdgeIn false [(0, 3), (2, 1), (3, 0)] q ↔ EdgeIn false [(1, 2), (0, 3), (1, 2), (3, 0)] q := by
  rintro ⟨a, b⟩
  simp only [EdgeIn, sameEdge, List.mem_cons, List.not_mem_nil, or_false, Prod.mk.injEq, true_and,
    exists_eq_or_imp, exists_eq_left]
  omega

/-! ### C04 -/

/-- Number of vertices below `v` that the predicate does not delete: the new index of `v`. -/
def newIndex (del : Nat → Bool) (v : Nat) : Nat := ((List.range v).filter fun i => !del i).length

theorem newIndex_eq (del : Nat → Bool) (v : Nat) : newIndex del v = rank del v := by
  rw [newIndex, rank, List.countP_eq_length_filter]

/-- C04: when `erase_if` returns, the graph is the induced subgraph of the surviving vertices, renumbered in order. -/
theorem c04_erase_if (d : Bool) (g g' : Graph) (h : Reachable d g) (del : Nat → Bool) (he : g.eraseIf del = .ok g') :
    g'.sizeVertex = newIndex del g.sizeVertex ∧
    (∀ u v, u < g.sizeVertex → v < g.sizeVertex → del u = false → del v = false →
      (Adj g' (newIndex del u) (newIndex del v) ↔ Adj g u v)) ∧
    (∀ u v, u < v → del u = false → newIndex del u < newIndex del v) ∧
    (∀ i, i < g'.sizeVertex → ∃ v, v < g.sizeVertex ∧ del v = false ∧ newIndex del v = i) := by
  obtain ⟨L, h1, h2⟩ := reach_rep h
  have h3 := h1.eraseIf_of_ok h2.range he
  simp only [newIndex_eq, h1.sizeVertex, h3.sizeVertex, eraseRows_length, h1.adj_iff, h3.adj_iff]
  exact ⟨trivial, fun u v hu _ hdu hdv => mem_eraseRows hu hdu hdv, fun u v huv hu => rank_lt del huv hu,
    fun i hi => rank_surj del hi⟩

example : ∃ g g', Reachable false g ∧ g.eraseIf (· == 1) = .ok g' ∧ g.sizeVertex = 4 ∧ g'.sizeVertex = 3 ∧
    g'.sizeEdge false = 2 :=
  ⟨⟨[1, 3, 0, 2, 1, 3, 0, 2], [0, 2, 4, 6, 8]⟩, ⟨[2, 2, 0, 1], [0, 1, 2, 4]⟩,
    ⟨[.insert (0, 1), .insert (2, 1), .insert (2, 3), .insert (0, 3)], by simp [Op.Valid, sizeMax], by decide⟩,
    by decide, by decide, by decide, by decide⟩

/-! ### C05 -/

/-- The full C05: `erase_if` is memory safe on every reachable graph.  It is false, see `c05_violated`. -/
def C05 : Prop := ∀ d g del, Reachable d g → g.eraseIf del ≠ .ub

/-- C05 fails: erasing nothing from a graph whose last vertex is isolated writes out of bounds. -/
theorem c05_violated : ¬ C05 := by
  intro h
  refine h false ⟨[1, 0], [0, 1, 2, 2]⟩ (fun _ => false) ⟨[.insert (0, 1), .resize 3], ?_, by decide⟩ (by decide)
  simp [Op.Valid, sizeMax]

/-- C05: the exact condition for undefined behaviour: the graph is the default one, or a surviving vertex has an index
of at least the number of stored adjacencies. -/
theorem c05_erase_if_ub_iff (d : Bool) (g : Graph) (h : Reachable d g) (del : Nat → Bool) :
    g.eraseIf del = .ub ↔ g = Graph.new ∨
      ∃ v, v < g.sizeVertex ∧ del v = false ∧ (if d then g.sizeEdge d else 2 * g.sizeEdge d) ≤ v := by
  obtain ⟨L, h1, h2⟩ := reach_rep h
  rw [← h1.stored h2, h1.sizeVertex]
  constructor
  · intro hub
    by_contra hc
    rw [not_or] at hc
    have ho : g.off = offs L := by
      rcases h1.2 with ho | ⟨hL, ho⟩
      · exact ho
      · exfalso
        apply hc.1
        have := h1.1
        cases g
        subst hL
        simp_all [Graph.new]
    obtain ⟨g', he, _⟩ := h1.eraseIf h2.range del ho (fun v hv hd => by
      by_contra hlt
      exact hc.2 ⟨v, hv, hd, by omega⟩)
    rw [he] at hub; simp at hub
  · rintro (rfl | hb)
    · exact eraseIf_new del rfl
    · exact h1.eraseIf_ub del hb

/-- C05, the part that holds: without isolated vertices among the survivors' index range, that is when every survivor
index is below the number of stored adjacencies, `erase_if` on a graph with vertices returns.  Missing: all other
graphs, see `c05_violated`. -/
theorem c05_erase_if_safe_partial (d : Bool) (g : Graph) (h : Reachable d g) (del : Nat → Bool) (hv : 0 < g.sizeVertex)
    (hs : ∀ v, v < g.sizeVertex → del v = false → v < if d then g.sizeEdge d else 2 * g.sizeEdge d) :
    ∃ g', g.eraseIf del = .ok g' := by
  obtain ⟨L, h1, h2⟩ := reach_rep h
  rw [← h1.stored h2, h1.sizeVertex] at hs
  rw [h1.sizeVertex] at hv
  obtain ⟨g', he, _⟩ := h1.eraseIf h2.range del (h1.off (by rintro rfl; simp at hv)) hs
  exact ⟨g', he⟩

example : ∃ g, Reachable false g ∧ 0 < g.sizeVertex ∧
    ∀ v, v < g.sizeVertex → (v == 1) = false → v < if false then g.sizeEdge false else 2 * g.sizeEdge false :=
  ⟨⟨[1, 3, 0, 2, 1, 3, 0, 2], [0, 2, 4, 6, 8]⟩,
    ⟨[.insert (0, 1), .insert (2, 1), .insert (2, 3), .insert (0, 3)], by simp [Op.Valid, sizeMax], by decide⟩,
    by decide, by decide⟩

/-! ### C06 -/

/-- C06: `resize` keeps exactly the edges between remaining vertices (with the stray write of C07 dropped). -/
theorem c06_resize (d : Bool) (g : Graph) (h : Reachable d g) {n : Nat} (hn : n < sizeMax) :
    ∃ g', g.resize false n = .ok g' ∧ g'.sizeVertex = n ∧
      ∀ u v, Adj g' u v ↔ u < n ∧ v < n ∧ Adj g u v := by
  obtain ⟨L, h1, h2⟩ := reach_rep h
  obtain ⟨g', h3, h4⟩ := h1.resize h2.sorted hn
  refine ⟨g', h3, ?_, ?_⟩
  · rw [h4.sizeVertex, resizeRows]
    split
    · simp; omega
    · simp; omega
  · intro u v
    rw [h4.adj_iff, h1.adj_iff, resizeRows]
    split
    · rw [row_pad]
      constructor
      · intro hm
        have := lt_of_mem_row hm; have := h2.range _ _ hm
        exact ⟨by omega, by omega, hm⟩
      · exact fun hm => hm.2.2
    · rw [row_shrink]
      split
      · rw [List.mem_filter]; simp; tauto
      · simp; omega

example : ∃ g g', Reachable false g ∧ g.resize false 3 = .ok g' ∧ g.sizeEdge false = 4 ∧ g'.sizeEdge false = 2 :=
  ⟨⟨[1, 3, 0, 2, 1, 3, 0, 2], [0, 2, 4, 6, 8]⟩, ⟨[1, 0, 2, 1], [0, 1, 3, 4]⟩,
    ⟨[.insert (0, 1), .insert (2, 1), .insert (2, 3), .insert (0, 3)], by simp [Op.Valid, sizeMax], by decide⟩,
    by decide, by decide, by decide⟩

/-- C06: with the largest size `size + 1` is zero, so the graph has no vertices, but keeps its neighbour lists. -/
theorem c06_largest (d strict : Bool) (g : Graph) (hr : Reachable d g) : g.resize strict sizeMax = .ok ⟨g.adj, []⟩ := by
  have h := reach_small hr
  unfold Graph.resize
  rw [if_pos h, show wrap (sizeMax + 1) = 0 from rfl]
  simp [resizeList]

/-- There it has no vertices and one edge. -/
example : ∃ g, Reachable false g ∧ g.resize true sizeMax = .ok ⟨[1, 0], []⟩ ∧
    (⟨[1, 0], []⟩ : Graph).sizeVertex = 0 ∧ (⟨[1, 0], []⟩ : Graph).sizeEdge false = 1 :=
  have h : Reachable false ⟨[1, 0], [0, 1, 2]⟩ := ⟨[.insert (0, 1)], by simp [Op.Valid, sizeMax], by decide⟩
  ⟨_, h, c06_largest false true _ h, rfl, rfl⟩

/-! ### C07 -/

/-- The full C07: `resize` is memory safe.  It is false, see `c07_violated`. -/
def C07 : Prop := ∀ d g n, Reachable d g → g.resize true n ≠ .ub

/-- C07: exactly the resizes to a size between one and the current size write past the end of the offsets. -/
theorem c07_resize_ub_iff (d : Bool) (g : Graph) (h : Reachable d g) (n : Nat) :
    g.resize true n = .ub ↔ 0 < n ∧ n ≤ g.sizeVertex := by
  obtain ⟨L, h1, h2⟩ := reach_rep h
  rw [h1.sizeVertex]
  constructor
  · intro hub
    by_contra hc
    by_cases hn : n = 0
    · subst hn
      obtain ⟨e1, _⟩ := resize_setup h1 (Nat.zero_le L.length)
      have e1' : resizeList g.off (0 + 1) 0 = [0] := by rw [e1]; rfl
      unfold Graph.resize at hub
      rw [if_neg (by omega)] at hub
      simp only [e1'] at hub
      simp [rd, Graph.sizeVertex, loop] at hub
    · unfold Graph.resize at hub
      rw [if_pos (by rw [h1.sizeVertex]; omega)] at hub
      cases hub
  · rintro ⟨h3, h4⟩
    exact h1.resize_ub h2.sorted h4 h3

/-- C07 fails: shrinking a graph with one edge to one vertex. -/
theorem c07_violated : ¬ C07 := by
  intro h
  refine h false ⟨[1, 0], [0, 1, 2]⟩ 1 ⟨[.insert (0, 1)], ?_, by decide⟩ (by decide)
  simp [Op.Valid, sizeMax]

/-- C07, the part that holds: growing and resizing to zero are memory safe.  Missing: every other shrink. -/
theorem c07_resize_safe_partial (d : Bool) (g : Graph) (h : Reachable d g) (n : Nat) (hn : n = 0 ∨ g.sizeVertex < n) :
    g.resize true n ≠ .ub := by
  rw [Ne, c07_resize_ub_iff d g h n]; omega

example : ∃ g n, Reachable false g ∧ 0 < g.sizeVertex ∧ g.sizeVertex < n :=
  ⟨⟨[1, 0], [0, 1, 2]⟩, 5, ⟨[.insert (0, 1)], by simp [Op.Valid, sizeMax], by decide⟩, by decide, by decide⟩

/-! ### C08 -/

/-- C08: `reorder` with a permutation relabels the graph and hands back the old one. -/
theorem c08_reorder (d : Bool) (g : Graph) (h : Reachable d g) (perm : List Nat)
    (hp : perm.Perm (List.range g.sizeVertex)) :
    ∃ g', g.reorder perm = .ok (g', g) ∧ g'.sizeVertex = g.sizeVertex ∧ g'.sizeEdge d = g.sizeEdge d ∧
      ∀ a b (ha : a < perm.length) (hb : b < perm.length), Adj g' perm[a] perm[b] ↔ Adj g a b := by
  obtain ⟨L, h1, h2⟩ := reach_rep h
  rw [h1.sizeVertex] at hp
  have hp' : IsPerm perm L.length := hp
  obtain ⟨g', h3, h4⟩ := h1.reorder h2.range hp'
  refine ⟨g', h3, ?_, ?_, ?_⟩
  · rw [h4.sizeVertex, h1.sizeVertex, reorderRows_length]
  · unfold Graph.sizeEdge
    rw [h4.1, h1.1, reorderRows_total hp']
  · intro a b ha hb
    rw [← pat_eq ha, ← pat_eq hb, h4.adj_iff, h1.adj_iff]
    rw [hp'.length] at ha hb
    exact mem_reorderRows hp' h2.range ha hb

example : ∃ g perm, Reachable false g ∧ perm.Perm (List.range g.sizeVertex) ∧ perm = [2, 0, 1] ∧ 0 < g.sizeEdge false :=
  ⟨⟨[1, 0, 2, 1], [0, 1, 3, 4]⟩, [2, 0, 1],
    ⟨[.insert (0, 1), .insert (2, 1)], by simp [Op.Valid, sizeMax], by decide⟩, by decide, rfl, by decide⟩

/-! ### C09 -/

/-- The full C09: whatever is not a permutation makes `reorder` exit.  It is false, see `c09_violated`. -/
def C09 : Prop := ∀ d g perm, Reachable d g → ¬ perm.Perm (List.range g.sizeVertex) → g.reorder perm = .exit 1

/-- C09 fails: three equal entries with the right sum are accepted, and leave a vertex listed as its own neighbour. -/
theorem c09_violated : ¬ C09 := by
  intro h
  have := h false ⟨[1, 0, 2, 1], [0, 1, 3, 4]⟩ [1, 1, 1]
    ⟨[.insert (0, 1), .insert (2, 1)], by simp [Op.Valid, sizeMax], by decide⟩ (by decide)
  exact absurd this (by decide +kernel)

/-- C09 fails also by undefined behaviour. -/
theorem c09_violated_ub : ∃ g perm, Reachable false g ∧ g.reorder perm = .ub :=
  ⟨⟨[1, 0, 2, 1], [0, 1, 3, 4]⟩, [3, 0, 0], ⟨[.insert (0, 1), .insert (2, 1)], by simp [Op.Valid, sizeMax], by decide⟩,
    by decide +kernel⟩

/-- C09 fails by silently returning a graph that breaks C02: here vertex 1 becomes its own neighbour. -/
theorem c09_violated_self_loop : ∃ g g' perm, Reachable false g ∧ g.reorder perm = .ok (g', g) ∧ Adj g' 1 1 :=
  ⟨⟨[1, 0, 2, 1], [0, 1, 3, 4]⟩, ⟨[1, 1, 0, 0], [0, 0, 1, 1]⟩, [1, 1, 1],
    ⟨[.insert (0, 1), .insert (2, 1)], by simp [Op.Valid, sizeMax], by decide⟩, by decide +kernel,
    [1], by decide, by decide⟩

/-- C09, the part that holds: a vector of the wrong length, or one whose sum is not that of `0..n-1`, makes `reorder`
exit, and permutations do not.  Missing: vectors with the right length and sum that are no permutations. -/
theorem c09_reorder_rejects_partial (g : Graph) (perm : List Nat)
    (hbad : perm.length ≠ g.sizeVertex ∨ perm.sum ≠ (List.range g.sizeVertex).sum) : g.reorder perm = .exit 1 := by
  unfold Graph.reorder
  by_cases hl : perm.length = g.sizeVertex
  · have hs : perm.sum ≠ (List.range g.sizeVertex).sum := by
      rcases hbad with h | h
      · exact absurd hl h
      · exact h
    have := sum_range g.sizeVertex
    have hf : (2 * perm.sum == (g.sizeVertex - 1) * g.sizeVertex) = false := by
      rw [← this]; simp; exact hs
    simp [hl, hf]
  · have : (perm.length == g.sizeVertex) = false := by simpa using hl
    simp [this]

example : ∃ (g : Graph) (perm : List Nat), Reachable false g ∧ perm.length = g.sizeVertex ∧ perm.sum ≠ (List.range g.sizeVertex).sum :=
  ⟨⟨[1, 0, 2, 1], [0, 1, 3, 4]⟩, [2, 2, 1], ⟨[.insert (0, 1), .insert (2, 1)], by simp [Op.Valid, sizeMax], by decide⟩,
    by decide, by decide⟩

/-! ### C10 -/

/-- C10: queries on reachable graphs either answer or exit, and exit only on equal end points or vertices out of
range. -/
theorem c10_queries_safe (d : Bool) (g : Graph) (h : Reachable d g) :
    (∀ e : Edge, e.1 ≠ e.2 → ∃ b, g.contains e = .ok b ∧ (b = true ↔ Adj g e.1 e.2)) ∧
    (∀ e : Edge, e.1 = e.2 → g.contains e = .exit 1) ∧
    (∀ v, v < g.sizeVertex → ∃ r, g.nbrs v = .ok r ∧ g.at' v = .ok r ∧ g.degree v = .ok r.length) ∧
    (∀ v, g.sizeVertex ≤ v → g.nbrs v = .exit 1 ∧ g.at' v = .exit 1 ∧ g.degree v = .exit 1) ∧
    (0 < g.sizeVertex → ∃ r s, g.front = .ok r ∧ g.nbrs 0 = .ok r ∧ g.back = .ok s ∧ g.nbrs (g.sizeVertex - 1) = .ok s) ∧
    (g.sizeVertex = 0 → g.front = .exit 1 ∧ g.back = .exit 1) := by
  obtain ⟨L, h1, h2⟩ := reach_rep h
  rw [h1.sizeVertex]
  refine ⟨?_, ?_, ?_, ?_, ?_, ?_⟩
  · intro e he
    refine ⟨_, by rw [h1.contains h2, if_neg he], ?_⟩
    rw [h1.adj_iff]; simp
  · intro e he; exact c01_contains_loop_exits g e he
  · intro v hv
    refine ⟨row L v, h1.nbrs hv, ?_, h1.degree hv⟩
    simp [Graph.at', h1.sizeVertex, hv, h1.nbrs hv]
  · intro v hv
    refine ⟨h1.nbrs_exit hv, ?_, ?_⟩
    · simp [Graph.at', h1.sizeVertex, Nat.not_lt.mpr hv]
    · simp [Graph.degree, h1.sizeVertex, Nat.not_lt.mpr hv]
  · intro hpos
    have hne : g.empty = false := by rw [h1.empty]; exact decide_eq_false (by omega)
    refine ⟨row L 0, row L (L.length - 1), ?_, h1.nbrs hpos, ?_, h1.nbrs (by omega)⟩
    · simp [Graph.front, hne, h1.nbrs hpos]
    · simp only [Graph.back, hne, Bool.not_false, assert_true, Out.ok_bind, h1.sizeVertex]
      rw [usub_of_le hpos, h1.nbrs (by omega)]
  · intro hz
    have hne : g.empty = true := by rw [h1.empty]; simp [hz]
    simp [Graph.front, Graph.back, hne]

/-! ### C11 -/

/-- C11: the hash of a reachable graph is a function of four numbers. -/
theorem c11_hash_value (d : Bool) (g : Graph) (h : Reachable d g) (hash : Nat → Nat) (hv : 0 < g.sizeVertex) :
    ∃ a b, g.degree 0 = .ok a ∧ g.degree (g.sizeVertex - 1) = .ok b ∧
      g.hash hash d = .ok (hash g.sizeVertex ^^^ hash (g.sizeEdge d) ^^^ hash a ^^^ hash b) := by
  obtain ⟨_, _, q3, _, q5, _⟩ := c10_queries_safe d g h
  obtain ⟨r, s, hf, hr, hb, hs⟩ := q5 hv
  obtain ⟨r', hr', _, hd⟩ := q3 0 hv
  obtain ⟨s', hs', _, hd'⟩ := q3 (g.sizeVertex - 1) (by omega)
  rw [hr] at hr'; cases hr'
  rw [hs] at hs'; cases hs'
  have hne : g.empty = false := by
    obtain ⟨L, h1, _⟩ := reach_rep h
    rw [h1.empty]; rw [h1.sizeVertex] at hv; exact decide_eq_false (by omega)
  exact ⟨r.length, s.length, hd, hd', by simp [Graph.hash, hne, hf, hb]⟩

/-- C11: graphs without vertices hash to zero. -/
theorem c11_hash_empty (d : Bool) (g : Graph) (h : Reachable d g) (hash : Nat → Nat) (hv : g.sizeVertex = 0) :
    g.hash hash d = .ok 0 := by
  obtain ⟨L, h1, _⟩ := reach_rep h
  rw [h1.sizeVertex] at hv
  simp [Graph.hash, h1.empty, hv]

/-- C11: reachable graphs with the same number of vertices and the same neighbour spans have equal hashes. -/
theorem c11_equal_graphs_equal_hashes (d : Bool) (g g' : Graph) (h : Reachable d g) (h' : Reachable d g')
    (hs : g.sizeVertex = g'.sizeVertex) (hn : ∀ v, v < g.sizeVertex → g.nbrs v = g'.nbrs v) (hash : Nat → Nat) :
    g.hash hash d = g'.hash hash d := by
  obtain ⟨L, h1, h2⟩ := reach_rep h
  obtain ⟨M, k1, k2⟩ := reach_rep h'
  have hLM : L = M := by
    rw [h1.sizeVertex, k1.sizeVertex] at hs
    apply rows_ext hs
    intro i
    by_cases hi : i < L.length
    · have := hn i (by rw [h1.sizeVertex]; exact hi)
      rw [h1.nbrs hi, k1.nbrs (by omega)] at this
      simpa using this
    · rw [row_of_ge (by omega), row_of_ge (by omega)]
  subst hLM
  by_cases hL : L = []
  · have e1 : g.sizeVertex = 0 := by rw [h1.sizeVertex, hL]; rfl
    rw [c11_hash_empty d g h hash e1, c11_hash_empty d g' h' hash (by omega)]
  · rw [h1.unique k1 hL]

/-- C11: graphs that agree on vertex count, edge count and first and last degree collide. -/
theorem c11_collide (d : Bool) (g g' : Graph) (h : Reachable d g) (h' : Reachable d g')
    (hv : g.sizeVertex = g'.sizeVertex) (he : g.sizeEdge d = g'.sizeEdge d) (h0 : g.degree 0 = g'.degree 0)
    (h1 : g.degree (g.sizeVertex - 1) = g'.degree (g'.sizeVertex - 1)) (hash : Nat → Nat) :
    g.hash hash d = g'.hash hash d := by
  rcases Nat.eq_zero_or_pos g.sizeVertex with hz | hz
  · rw [c11_hash_empty d g h hash hz, c11_hash_empty d g' h' hash (by omega)]
  · obtain ⟨a, b, h2, h3, h4⟩ := c11_hash_value d g h hash hz
    obtain ⟨a', b', k2, k3, k4⟩ := c11_hash_value d g' h' hash (by omega)
    rw [h0, k2] at h2; cases h2
    rw [h1, k3] at h3; cases h3
    rw [h4, k4, hv, he]

/-- C11: two different reachable graphs with equal hashes, whatever `std::hash<std::size_t>` is. -/
theorem c11_hash_not_injective : ∃ g g', Reachable false g ∧ Reachable false g' ∧ Adj g 0 1 ∧ ¬ Adj g' 0 1 ∧
    ∀ hash : Nat → Nat, g.hash hash false = g'.hash hash false := by
  have r1 : Reachable false ⟨[1, 0, 2, 1, 3, 2], [0, 1, 3, 5, 6]⟩ :=
    ⟨[.insert (0, 1), .insert (1, 2), .insert (2, 3)], by simp [Op.Valid, sizeMax], by decide⟩
  have r2 : Reachable false ⟨[2, 2, 3, 0, 1, 1], [0, 1, 3, 5, 6]⟩ :=
    ⟨[.insert (0, 2), .insert (2, 1), .insert (1, 3)], by simp [Op.Valid, sizeMax], by decide⟩
  refine ⟨_, _, r1, r2, ⟨[1], by decide, by decide⟩, ?_, fun hash => ?_⟩
  · rintro ⟨r, hr, hm⟩
    have : Graph.nbrs ⟨[2, 2, 3, 0, 1, 1], [0, 1, 3, 5, 6]⟩ 0 = .ok [2] := by decide
    rw [this] at hr; cases hr; simp at hm
  · exact c11_collide false _ _ r1 r2 rfl rfl (by decide) (by decide) hash

/-! ### C51 -/

/-- The full C51: inserting an edge that mentions one of the two largest indexes is rejected.  It is false, see
`c51_violated`. -/
def C51 : Prop := ∀ d g e, Reachable d g → max e.1 e.2 + 1 = sizeMax ∨ max e.1 e.2 = sizeMax → g.insert d e = .exit 1

/-- C51: on each graph below the maximal size it is undefined instead: the vertex count, or the length of the offsets, wraps round to
zero. -/
theorem c51_insert_reserved_ub (d : Bool) (g : Graph) (h : Reachable d g) (e : Edge)
    (hne : e.1 ≠ e.2) (hmax : max e.1 e.2 + 1 = sizeMax ∨ max e.1 e.2 = sizeMax) : g.insert d e = .ub := by
  have hs := reach_small h
  obtain ⟨L, h1, h2⟩ := reach_rep h
  rw [h1.sizeVertex] at hs
  exact h1.insert_max h2 hs hne hmax

theorem c51_violated : ¬ C51 := by
  intro h
  have hr : Reachable false Graph.new := ⟨[], by simp, rfl⟩
  have h1 := h false Graph.new (0, sizeMax) hr (.inr rfl)
  rw [c51_insert_reserved_ub false Graph.new hr (0, sizeMax) (by decide) (.inr rfl)] at h1
  simp at h1

/-! ### C52 -/

/-- C52: the edge list constructor builds the graph that inserting the edges one by one builds. -/
theorem c52_of_edges (d : Bool) (es : List Edge) (hn : es ≠ []) :
    Graph.ofEdges d es = (do let (g, _) ← insertAll d Graph.new es; pure g) := by
  have key : ∀ (es : List Edge) (g : Graph),
      es.foldlM (fun g e => do let (g, _) ← Graph.insert d g e; pure g) g =
        (do let (g, _) ← insertAll d g es; pure g : Out Graph) := by
    intro es
    induction es with
    | nil => intro g; rfl
    | cons e es ih =>
      intro g
      simp only [List.foldlM_cons, insertAll]
      cases Graph.insert d g e with
      | ok p =>
        simp only [Out.ok_bind, Out.pure_eq]
        have := ih p.1
        simp only [Out.pure_eq] at this
        rw [this]
        cases insertAll d p.1 es <;> rfl
      | exit c => rfl
      | throw => rfl
      | ub => rfl
      | diverge => rfl
  have : es.isEmpty = false := by simpa using hn
  rw [Graph.ofEdges, this]
  exact key es Graph.new

/-- C52: an empty edge list is undefined behaviour. -/
theorem c52_of_no_edges (d : Bool) : Graph.ofEdges d [] = .ub := rfl

end Disa.Props
