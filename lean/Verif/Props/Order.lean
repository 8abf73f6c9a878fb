import Verif.Graph.Colour
import Verif.Props.GraphUtil

/-!
# Properties C17 to C22 and C53, C55 to C57: the orderings
-/

namespace Disa.Props

open Disa Spec Graph

/-! ### C17 -/

/-- C17: from a root that reaches every vertex `breadth_first` returns a permutation that maps the root to 0. -/
theorem c17_breadth_first (g : Graph) (h : Reachable false g) (root : Nat)
    (hroot : root < g.sizeVertex) (hc : Spans (Adj g) g.sizeVertex root) :
    ∃ p, g.breadthFirst root = .ok p ∧ p.Perm (List.range g.sizeVertex) ∧ p[root]? = some 0 := by
  have hn := reach_small h
  obtain ⟨L, hr, hg⟩ := reach_rep h
  rw [hr.sizeVertex] at hn hroot hc ⊢
  rw [hr.adj_eq] at hc
  obtain ⟨p, h1, h2⟩ := (breadthFirst_ok hr hg hn hroot).1 hc
  exact ⟨p, h1, h2.perm, h2.head⟩

/-- C17: if some vertex cannot be reached from the root, or the root is out of range, the program exits. -/
theorem c17_disconnected_exits (g : Graph) (h : Reachable false g) (root : Nat)
    (h0 : g.sizeVertex ≠ 0) (hc : g.sizeVertex ≤ root ∨ ¬ Spans (Adj g) g.sizeVertex root) : g.breadthFirst root = .exit 1 := by
  have hn := reach_small h
  obtain ⟨L, hr, hg⟩ := reach_rep h
  rw [hr.sizeVertex] at hn hc h0
  rw [hr.adj_eq] at hc
  by_cases hroot : root < L.length
  · rcases hc with hc | hc
    · omega
    · unfold Spans at hc
      simp only [not_forall] at hc
      obtain ⟨v, hv, hnr⟩ := hc
      exact (breadthFirst_ok hr hg hn hroot).2 ⟨v, hv, hnr⟩
  · unfold breadthFirst
    rw [hr.empty, decide_eq_false h0, hr.sizeVertex]
    simp [hroot]

/-- C17: the empty graph yields the empty permutation. -/
theorem c17_empty (g : Graph) (h : Reachable false g) (h0 : g.sizeVertex = 0) (root : Nat) : g.breadthFirst root = .ok [] := by
  obtain ⟨L, hr, _⟩ := reach_rep h
  rw [hr.sizeVertex] at h0
  unfold breadthFirst
  rw [hr.empty, decide_eq_true h0]
  rfl

example : Reachable false kite ∧ kite.sizeVertex < sizeMax ∧ 2 < kite.sizeVertex ∧ Spans (Adj kite) kite.sizeVertex 2 :=
  ⟨kite_reachable, by decide, by decide, kite_spans 2 (by omega)⟩

example : kite.breadthFirst 2 = .ok [3, 1, 0, 2] := by decide +kernel

/-- A disconnected graph. -/
example : Reachable false searchGraph ∧ searchGraph.breadthFirst 0 = .exit 1 := ⟨searchGraph_reachable, by decide +kernel⟩

/-! ### C18 -/

/-- C18: vertices are numbered by increasing distance from the root. -/
theorem c18_level_order (g : Graph) (h : Reachable false g) (root : Nat)
    (hroot : root < g.sizeVertex) (p : List Nat) (hp : g.breadthFirst root = .ok p) (u v a b j k : Nat)
    (hu : p[u]? = some a) (hv : p[v]? = some b) (hab : a < b)
    (hj : IsDist (Adj g) (· = root) u j) (hk : IsDist (Adj g) (· = root) v k) : j ≤ k := by
  have hn := reach_small h
  have hc : Spans (Adj g) g.sizeVertex root := by
    by_contra hc
    rw [c17_disconnected_exits g h root (by omega) (.inr hc)] at hp
    simp at hp
  obtain ⟨L, hr, hg⟩ := reach_rep h
  rw [hr.sizeVertex] at hn hroot hc
  rw [hr.adj_eq] at hc hj hk
  obtain ⟨q, h1, h2⟩ := (breadthFirst_ok hr hg hn hroot).1 hc
  rw [hp] at h1
  cases h1
  exact h2.level u v a b j k hu hv hab hj hk

/-- The hypotheses of C18 are met by vertices 1 and 0 of the kite, at distance 1 and 2 from the root 2. -/
example : kite.breadthFirst 2 = .ok [3, 1, 0, 2] ∧ ([3, 1, 0, 2] : List Nat)[1]? = some 1 ∧
    ([3, 1, 0, 2] : List Nat)[0]? = some 3 ∧ IsDist (Adj kite) (· = 2) 1 1 := by
  refine ⟨by decide +kernel, rfl, rfl, ⟨2, rfl, 2, rfl, kite_adj (r := [1, 3]) rfl (by decide)⟩, ?_⟩
  intro j hj s hs hw
  have : j = 0 := by omega
  subst this
  subst hs
  simp [Walk] at hw

/-! ### C55 -/

/-- C55: the complete rule of `breadth_first`: of two vertices other than the root, the one whose first numbered neighbour
comes earlier is numbered earlier, and vertices with the same first numbered neighbour keep their order. -/
theorem c55_breadth_first_rule (g : Graph) (h : Reachable false g) (root : Nat)
    (hroot : root < g.sizeVertex) (p : List Nat) (hp : g.breadthFirst root = .ok p) (u v a b i j : Nat)
    (hu : p[u]? = some a) (hv : p[v]? = some b) (hur : u ≠ root) (hvr : v ≠ root)
    (hi : FirstNbr (Adj g) p u i) (hj : FirstNbr (Adj g) p v j) :
    a < b ↔ i < j ∨ (i = j ∧ u < v) := by
  have hn := reach_small h
  have hc : Spans (Adj g) g.sizeVertex root := by
    by_contra hc
    rw [c17_disconnected_exits g h root (by omega) (.inr hc)] at hp
    simp at hp
  obtain ⟨L, hr, hg⟩ := reach_rep h
  rw [hr.sizeVertex] at hn hroot hc
  rw [hr.adj_eq] at hc hi hj
  obtain ⟨q, h1, h2⟩ := (breadthFirst_ok hr hg hn hroot).1 hc
  rw [hp] at h1
  cases h1
  constructor
  · intro hab
    have := h2.tree u v a b hu hv hab hur i j hi hj
    omega
  · intro hc
    rcases Nat.lt_trichotomy a b with hab | hab | hab
    · exact hab
    · subst hab
      have : u = v := by
        have hnd := h2.perm.nodup
        obtain ⟨hul, hu'⟩ := List.getElem?_eq_some_iff.mp hu
        obtain ⟨hvl, hv'⟩ := List.getElem?_eq_some_iff.mp hv
        exact (List.Nodup.getElem_inj_iff hnd).mp (hu'.trans hv'.symm)
      subst this
      have hij : i = j := by
        obtain ⟨⟨w, hw1, hw2⟩, hw3⟩ := hi
        obtain ⟨⟨w', hw1', hw2'⟩, hw3'⟩ := hj
        have := hw3 w' j hw1' hw2'
        have := hw3' w i hw1 hw2
        omega
      omega
    · have := h2.tree v u b a hv hu hab hvr j i hj hi
      omega

/-- The rule at work: in the kite from root 2, vertices 1 and 3 share the first numbered neighbour 2. -/
example : kite.breadthFirst 2 = .ok [3, 1, 0, 2] ∧ FirstNbr (Adj kite) [3, 1, 0, 2] 1 0 ∧
    FirstNbr (Adj kite) [3, 1, 0, 2] 3 0 := by
  refine ⟨by decide +kernel, ⟨⟨2, kite_adj (r := [1, 3]) rfl (by decide), rfl⟩, fun _ _ _ _ => Nat.zero_le _⟩,
    ⟨⟨2, kite_adj (r := [1, 3]) rfl (by decide), rfl⟩, fun _ _ _ _ => Nat.zero_le _⟩⟩

/-! ### C19 -/

/-- C19: from a given root that reaches every vertex `cuthill_mckee` returns a permutation that maps the root to 0,
whatever order `std::sort` gives to vertices of equal degree. -/
theorem c19_cuthill_mckee (sort : List (Nat × Nat) → List (Nat × Nat)) (hsort : DegreeSort sort) (g : Graph)
    (h : Reachable false g) (root : Nat) (hroot : root < g.sizeVertex)
    (hc : Spans (Adj g) g.sizeVertex root) :
    ∃ p, g.cuthillMckee sort root = .ok p ∧ p.Perm (List.range g.sizeVertex) ∧ p[root]? = some 0 := by
  have hn := reach_small h
  obtain ⟨L, hr, hg⟩ := reach_rep h
  rw [hr.sizeVertex] at hn hroot hc ⊢
  rw [hr.adj_eq] at hc
  obtain ⟨p, h1, h2⟩ := (cuthillMckee_from hr hg hn hsort hroot (.inl hroot) (cmRoot_given hn hroot)).1 hc
  exact ⟨p, h1, h2.perm, h2.head⟩

/-- C19: if some vertex cannot be reached from the given root the program exits; so it does for a root out of range that
is not the default value. -/
theorem c19_disconnected_exits (sort : List (Nat × Nat) → List (Nat × Nat)) (hsort : DegreeSort sort) (g : Graph)
    (h : Reachable false g) (root : Nat) (h0 : g.sizeVertex ≠ 0) (hm : root ≠ sizeMax)
    (hc : g.sizeVertex ≤ root ∨ ¬ Spans (Adj g) g.sizeVertex root) : g.cuthillMckee sort root = .exit 1 := by
  have hn := reach_small h
  obtain ⟨L, hr, hg⟩ := reach_rep h
  rw [hr.sizeVertex] at hn hc h0
  rw [hr.adj_eq] at hc
  by_cases hroot : root < L.length
  · rcases hc with hc | hc
    · omega
    · unfold Spans at hc
      simp only [not_forall] at hc
      obtain ⟨v, hv, hnr⟩ := hc
      exact (cuthillMckee_from hr hg hn hsort hroot (.inl hroot) (cmRoot_given hn hroot)).2 ⟨v, hv, hnr⟩
  · unfold cuthillMckee
    rw [hr.empty, decide_eq_false h0, hr.sizeVertex]
    have hb : (root == sizeMax) = false := by simpa only [beq_eq_false_iff_ne]
    simp [hroot, hb]

/-- C19: the empty graph yields the empty permutation. -/
theorem c19_empty (sort : List (Nat × Nat) → List (Nat × Nat)) (g : Graph) (h : Reachable false g) (h0 : g.sizeVertex = 0)
    (root : Nat) : g.cuthillMckee sort root = .ok [] := by
  obtain ⟨L, hr, _⟩ := reach_rep h
  rw [hr.sizeVertex] at h0
  unfold cuthillMckee
  rw [hr.empty, decide_eq_true h0]
  rfl

/-- A sort as required. -/
theorem insertionSort_degreeSort : DegreeSort (List.insertionSort fun a b => a.2 ≤ b.2) := by
  intro l
  refine ⟨List.perm_insertionSort _ _, ?_⟩
  have : IsTrans (Nat × Nat) fun a b => a.2 ≤ b.2 := ⟨fun a b c h1 h2 => by omega⟩
  have : Std.Total fun (a b : Nat × Nat) => a.2 ≤ b.2 := ⟨fun a b => by omega⟩
  exact List.pairwise_insertionSort _ _

example : kite.cuthillMckee (List.insertionSort fun a b => a.2 ≤ b.2) 2 = .ok [3, 2, 0, 1] := by decide +kernel

/-! ### C56 -/

/-- C56: the complete rule of `cuthill_mckee` from a given root: vertices are numbered by increasing distance; of two
vertices other than the root the one with the earlier first numbered neighbour comes first, and with the same first
numbered neighbour the one that comes first has at most the degree of the other. -/
theorem c56_cuthill_mckee_rule (sort : List (Nat × Nat) → List (Nat × Nat)) (hsort : DegreeSort sort) (g : Graph)
    (h : Reachable false g) (root : Nat) (hroot : root < g.sizeVertex) (p : List Nat)
    (hp : g.cuthillMckee sort root = .ok p) (u v a b : Nat) (hu : p[u]? = some a) (hv : p[v]? = some b) (hab : a < b) :
    (∀ j k, IsDist (Adj g) (· = root) u j → IsDist (Adj g) (· = root) v k → j ≤ k) ∧
    (∀ i j du dv, u ≠ root → FirstNbr (Adj g) p u i → FirstNbr (Adj g) p v j → g.degree u = .ok du → g.degree v = .ok dv →
      i < j ∨ (i = j ∧ du ≤ dv)) := by
  have hn := reach_small h
  have hc : Spans (Adj g) g.sizeVertex root := by
    by_contra hc
    rw [c19_disconnected_exits sort hsort g h root (by omega) (by omega) (.inr hc)] at hp
    simp at hp
  obtain ⟨L, hr, hg⟩ := reach_rep h
  rw [hr.sizeVertex] at hn hroot hc
  rw [hr.adj_eq] at hc ⊢
  obtain ⟨q, h1, h2⟩ := (cuthillMckee_from hr hg hn hsort hroot (.inl hroot) (cmRoot_given hn hroot)).1 hc
  rw [hp] at h1
  cases h1
  refine ⟨fun j k hj hk => h2.level u v a b j k hu hv hab hj hk, ?_⟩
  intro i j du dv hur hi hj hdu hdv
  have hul : u < L.length := by
    have := (List.getElem?_eq_some_iff.mp hu).1; rw [h2.perm.length] at this; exact this
  have hvl : v < L.length := by
    have := (List.getElem?_eq_some_iff.mp hv).1; rw [h2.perm.length] at this; exact this
  rw [hr.degree hul] at hdu
  rw [hr.degree hvl] at hdv
  have := h2.tree u v a b hu hv hab hur i j hi hj
  have e1 := Out.ok.inj hdu
  have e2 := Out.ok.inj hdv
  subst e1; subst e2
  omega

/-- The rule at work: from root 1 all other vertices share the first numbered neighbour and come by degree. -/
example : kite.cuthillMckee (List.insertionSort fun a b => a.2 ≤ b.2) 1 = .ok [1, 0, 2, 3] ∧ kite.degree 0 = .ok 1 ∧
    kite.degree 2 = .ok 2 := by decide +kernel

/-! ### C57 -/

/-- C57: without a root `cuthill_mckee` starts from the first vertex of minimum degree. -/
theorem c57_default_root (sort : List (Nat × Nat) → List (Nat × Nat)) (g : Graph)
    (h : Reachable false g) (h0 : g.sizeVertex ≠ 0)
    (hpos : ∀ v, v < g.sizeVertex → g.degree v ≠ .ok 0) :
    ∃ root dr, root < g.sizeVertex ∧ g.degree root = .ok dr ∧
      (∀ v k, g.degree v = .ok k → dr ≤ k) ∧ (∀ v k, v < root → g.degree v = .ok k → dr < k) ∧
      g.cuthillMckee sort sizeMax = g.cuthillMckee sort root := by
  have hn := reach_small h
  obtain ⟨L, hr, hg⟩ := reach_rep h
  rw [hr.sizeVertex] at hn h0 hpos ⊢
  obtain ⟨r, h1, h2, h3, h4⟩ := cmRoot_default hr hg hn (by intro hc; rw [hc] at h0; simp at h0)
    (fun v hv hc => hpos v hv (by rw [hr.degree hv, hc]; rfl))
  have hdeg : ∀ v k, g.degree v = .ok k → v < L.length ∧ k = (row L v).length := by
    intro v k hk
    have hvl : v < L.length := by
      by_contra hcon
      have : g.degree v = .exit 1 := by
        unfold Graph.degree; rw [hr.sizeVertex]; simp [hcon]
      rw [this] at hk; simp at hk
    rw [hr.degree hvl] at hk
    exact ⟨hvl, (Out.ok.inj hk).symm⟩
  refine ⟨r, _, h2, hr.degree h2, ?_, ?_, ?_⟩
  · intro v k hk
    obtain ⟨hv, rfl⟩ := hdeg v k hk
    exact h3 v hv
  · intro v k hv hk
    obtain ⟨_, rfl⟩ := hdeg v k hk
    exact h4 v hv
  · unfold cuthillMckee
    rw [h1, cmRoot_given hn h2, hr.sizeVertex]
    simp [h2]

/-- C57: without a root, a vertex without neighbours makes the program exit, even if it is the only vertex. -/
theorem c57_isolated_exits (sort : List (Nat × Nat) → List (Nat × Nat)) (g : Graph)
    (h : Reachable false g) (v : Nat) (hv : v < g.sizeVertex) (h0 : g.degree v = .ok 0) :
    g.cuthillMckee sort sizeMax = .exit 1 := by
  have hn := reach_small h
  obtain ⟨L, hr, hg⟩ := reach_rep h
  rw [hr.sizeVertex] at hn hv
  rw [hr.degree hv] at h0
  have hz := cmRoot_zero_degree hr hg hn hv (List.eq_nil_of_length_eq_zero (Out.ok.inj h0))
  unfold cuthillMckee
  rw [hr.empty, decide_eq_false (by omega), hr.sizeVertex, hz]
  simp

example : kite.sizeVertex < sizeMax ∧ kite.sizeVertex ≠ 0 ∧ ∀ v, v < kite.sizeVertex → kite.degree v ≠ .ok 0 := by
  decide

example : kite.cuthillMckee (List.insertionSort fun a b => a.2 ≤ b.2) sizeMax = .ok [0, 1, 2, 3] := by decide +kernel

example : searchGraph.sizeVertex < sizeMax ∧ 6 < searchGraph.sizeVertex ∧ searchGraph.degree 6 = .ok 0 := by decide

/-! ### C20 -/

/-- C20: `cuthill_mckee_reverse` reverses the numbering of `cuthill_mckee` and is a permutation again; it exits when
`cuthill_mckee` exits. -/
theorem c20_reverse (sort : List (Nat × Nat) → List (Nat × Nat)) (hsort : DegreeSort sort) (g : Graph)
    (h : Reachable false g) (root : Nat) :
    (∀ p, g.cuthillMckee sort root = .ok p →
      ∃ q, g.cuthillMckeeReverse sort root = .ok q ∧ q.Perm (List.range g.sizeVertex) ∧
        ∀ v, v < g.sizeVertex → ∃ a b, p[v]? = some a ∧ q[v]? = some b ∧ a + b + 1 = g.sizeVertex) ∧
    (∀ c, g.cuthillMckee sort root = .exit c → g.cuthillMckeeReverse sort root = .exit c) := by
  have hn := reach_small h
  constructor
  · intro p hp
    have hperm : p.Perm (List.range g.sizeVertex) := by
      obtain ⟨L, hr, hg⟩ := reach_rep h
      by_cases h0 : g.sizeVertex = 0
      · rw [c19_empty sort g h h0 root] at hp
        cases hp; rw [h0]; simp
      · by_cases hm : root = sizeMax
        · subst hm
          by_cases hpos : ∀ v, v < g.sizeVertex → g.degree v ≠ .ok 0
          · obtain ⟨r, dr, h1, _, _, _, h2⟩ := c57_default_root sort g h h0 hpos
            rw [h2] at hp
            by_cases hc : Spans (Adj g) g.sizeVertex r
            · obtain ⟨q, hq, hperm, _⟩ := c19_cuthill_mckee sort hsort g h r h1 hc
              rw [hp] at hq; cases hq; exact hperm
            · rw [c19_disconnected_exits sort hsort g h r h0 (by omega) (.inr hc)] at hp
              simp at hp
          · simp only [not_forall, not_not] at hpos
            obtain ⟨v, hv, hd⟩ := hpos
            rw [c57_isolated_exits sort g h v hv hd] at hp
            simp at hp
        · by_cases hroot : root < g.sizeVertex
          · by_cases hc : Spans (Adj g) g.sizeVertex root
            · obtain ⟨q, hq, hperm, _⟩ := c19_cuthill_mckee sort hsort g h root hroot hc
              rw [hp] at hq; cases hq; exact hperm
            · rw [c19_disconnected_exits sort hsort g h root h0 hm (.inr hc)] at hp
              simp at hp
          · rw [c19_disconnected_exits sort hsort g h root h0 hm (.inl (by omega))] at hp
            simp at hp
    have hlen : p.length = g.sizeVertex := by simpa using hperm.length_eq
    have hlt : ∀ a ∈ p, a < g.sizeVertex := fun a ha => List.mem_range.mp (hperm.mem_iff.mp ha)
    have hval : ∀ a ∈ p, usub (usub p.length a) 1 = g.sizeVertex - 1 - a := by
      intro a ha
      have := hlt a ha
      rw [usub_of_le (show a ≤ p.length by omega), usub_of_le (by omega)]
      omega
    have hmap : (p.map fun t => usub (usub p.length t) 1) = p.map fun t => g.sizeVertex - 1 - t :=
      List.map_congr_left hval
    refine ⟨p.map fun t => g.sizeVertex - 1 - t, ?_, ?_, ?_⟩
    · unfold cuthillMckeeReverse
      rw [hp]
      simp only [Out.ok_bind, Out.pure_eq, hmap]
    · have h1 : (p.map fun t => g.sizeVertex - 1 - t).Perm ((List.range g.sizeVertex).map fun t => g.sizeVertex - 1 - t) :=
        hperm.map _
      refine h1.trans ?_
      have h2 : (List.range g.sizeVertex).map (fun t => g.sizeVertex - 1 - t) = (List.range g.sizeVertex).reverse := by
        apply List.ext_getElem
        · simp
        · intro i h1 h2
          simp
      rw [h2]
      exact List.reverse_perm _
    · intro v hv
      have hvl : v < p.length := by omega
      have := hlt p[v] (List.getElem_mem hvl)
      exact ⟨p[v], g.sizeVertex - 1 - p[v], by simp [hvl], by simp [hvl], by omega⟩
  · intro c hc
    unfold cuthillMckeeReverse
    rw [hc]; rfl

example : kite.cuthillMckeeReverse (List.insertionSort fun a b => a.2 ≤ b.2) 2 = .ok [0, 1, 3, 2] := by decide +kernel

/-! ### C21 -/

/-- C21: on a graph with an edge `greedy_multicolouring` returns a permutation that orders the vertices by a colouring and
then by index; adjacent vertices have different colours. -/
theorem c21_greedy (g : Graph) (h : Reachable false g) (hedge : ∃ u v, Adj g u v) :
    ∃ p col, g.greedyMulticolouring = .ok p ∧ p.Perm (List.range g.sizeVertex) ∧
      (∀ u v, Adj g u v → col u ≠ col v) ∧ (∀ v, v < g.sizeVertex → GreedyRule (Adj g) col v) ∧
      OrdersBy g.sizeVertex col p := by
  obtain ⟨L, hr, hg⟩ := reach_rep h
  rw [hr.sizeVertex]
  rw [hr.adj_eq] at hedge ⊢
  obtain ⟨p, col, h1, h2, h3, h4⟩ := greedy_ok hr hg hedge
  refine ⟨p, col, h1, h2, ?_, h3, h4⟩
  have key : ∀ u v, u < v → rowRel L v u → col u ≠ col v := by
    intro u v huv hvu
    have hvl : v < L.length := lt_of_mem_row hvu
    exact ((h3 v hvl).2 ⟨u, huv, hvu⟩).2.1 u huv hvu
  intro u v huv
  rcases Nat.lt_trichotomy u v with hl | hl | hl
  · exact key u v hl (hg.symm rfl u v huv)
  · subst hl; exact absurd huv (hg.loopless u)
  · exact (key v u hl huv).symm

/-- C21: the rule determines the colours, hence the permutation. -/
theorem c21_rule_determines (n : Nat) (E : Nat → Nat → Prop) (col col' : Nat → Nat)
    (h : ∀ v, v < n → GreedyRule E col v) (h' : ∀ v, v < n → GreedyRule E col' v) : ∀ v, v < n → col v = col' v := by
  intro v
  induction v using Nat.strong_induction_on with
  | _ v ih =>
    intro hv
    by_cases he : ∃ u, u < v ∧ E v u
    · obtain ⟨⟨u, hu, hue, hlt⟩, h2, h3⟩ := (h v hv).2 he
      obtain ⟨⟨u', hu', hue', hlt'⟩, h2', h3'⟩ := (h' v hv).2 he
      have e1 := h3 (col' v) ⟨u', hu', hue', by rw [ih u' hu' (by omega)]; exact hlt'⟩
        (fun w hw hwe => by rw [ih w hw (by omega)]; exact h2' w hw hwe)
      have e2 := h3' (col v) ⟨u, hu, hue, by rw [← ih u hu (by omega)]; exact hlt⟩
        (fun w hw hwe => by rw [← ih w hw (by omega)]; exact h2 w hw hwe)
      omega
    · have hno : ∀ u, u < v → ¬ E v u := fun u hu hue => he ⟨u, hu, hue⟩
      rw [(h v hv).1 hno, (h' v hv).1 hno]

example : Reachable false searchGraph ∧ ∃ u v, Adj searchGraph u v :=
  ⟨searchGraph_reachable, 0, 1, [1], rfl, by decide⟩

/-- Colours of that graph: 1, 2, 3, 4 for the kite, 1, 2 for the edge, 1 for the isolated vertex. -/
example : searchGraph.greedyMulticolouring = .ok [0, 3, 5, 6, 1, 4, 2] := by decide +kernel

/-! ### C22 -/

/-- C22, as stated: `greedy_multicolouring` of a graph without edges is a permutation. -/
def C22 : Prop := ∀ g : Graph, Reachable false g → (¬ ∃ u v, Adj g u v) →
  ∃ p, g.greedyMulticolouring = .ok p ∧ p.Perm (List.range g.sizeVertex)

/-- C22: for a graph without edges all entries are zero. -/
theorem c22_edgeless (g : Graph) (h : Reachable false g) (hno : ¬ ∃ u v, Adj g u v) :
    g.greedyMulticolouring = .ok (List.replicate g.sizeVertex 0) := by
  obtain ⟨L, hr, hg⟩ := reach_rep h
  rw [hr.sizeVertex]
  rw [hr.adj_eq] at hno
  apply greedy_edgeless hr hg
  intro i
  rw [List.eq_nil_iff_forall_not_mem]
  intro v hv
  exact hno ⟨i, v, hv⟩

/-- C22: a permutation is returned exactly up to one vertex. -/
theorem c22_permutation_iff (g : Graph) (h : Reachable false g) (hno : ¬ ∃ u v, Adj g u v) :
    (∃ p, g.greedyMulticolouring = .ok p ∧ p.Perm (List.range g.sizeVertex)) ↔ g.sizeVertex ≤ 1 := by
  rw [c22_edgeless g h hno]
  constructor
  · rintro ⟨p, hp, hperm⟩
    cases hp
    by_contra hc
    have : 1 ∈ List.replicate g.sizeVertex 0 := hperm.mem_iff.mpr (List.mem_range.mpr (by omega))
    have := List.eq_of_mem_replicate this
    omega
  · intro h1
    refine ⟨_, rfl, ?_⟩
    rcases Nat.lt_or_ge 0 g.sizeVertex with h2 | h2
    · have : g.sizeVertex = 1 := by omega
      rw [this]; exact List.Perm.refl _
    · have : g.sizeVertex = 0 := by omega
      rw [this]; exact List.Perm.refl _

theorem edgeless_no_adj (n u v : Nat) : ¬ Adj ⟨[], List.replicate n 0⟩ u v := by
  rintro ⟨r, hr, hv⟩
  have hnil : r = [] := by
    unfold Graph.nbrs Disa.slice at hr
    simp only [Out.bind_eq_ok] at hr
    obtain ⟨_, _, b, _, hs⟩ := hr
    by_cases hb : b.1 ≤ b.2 ∧ b.2 ≤ ([] : List Nat).length
    · rw [if_pos hb] at hs
      rw [← Out.ok.inj hs]; simp
    · rw [if_neg hb] at hs; simp at hs
  rw [hnil] at hv; simp at hv

/-- C22 is violated by the graph with two vertices and no edge. -/
theorem c22_violated : ¬ C22 := by
  intro hc
  have hr : Reachable false ⟨[], [0, 0, 0]⟩ := ⟨[.resize 2], by simp [Op.Valid, sizeMax], by decide⟩
  have hno : ¬ ∃ u v, Adj ⟨[], [0, 0, 0]⟩ u v := fun ⟨u, v, h⟩ => edgeless_no_adj 3 u v h
  have := (c22_permutation_iff _ hr hno).mp (hc _ hr hno)
  simp [Graph.sizeVertex, Graph.empty] at this

/-- The part of C22 that holds: graphs with one vertex, and the empty graph.  Missing: two or more vertices, where the
property is false. -/
theorem c22_small_partial (g : Graph) (h : Reachable false g) (h1 : g.sizeVertex ≤ 1) :
    ∃ p, g.greedyMulticolouring = .ok p ∧ p.Perm (List.range g.sizeVertex) := by
  have hno : ¬ ∃ u v, Adj g u v := by
    obtain ⟨L, hr, hg⟩ := reach_rep h
    rw [hr.sizeVertex] at h1
    rw [hr.adj_eq]
    rintro ⟨u, v, huv⟩
    have h2 := lt_of_mem_row huv
    have h3 := hg.range u v huv
    have : u = v := by omega
    subst this
    exact hg.loopless u huv
  exact (c22_permutation_iff g h hno).mpr h1

/-! ### C53 -/

/-- C53, as stated: the colouring behind the permutation is the documented first fit colouring. -/
def C53 : Prop := ∀ g : Graph, Reachable false g → (∃ u v, Adj g u v) →
  ∃ p col, g.greedyMulticolouring = .ok p ∧ (∀ v, v < g.sizeVertex → FirstFitRule (Adj g) col v) ∧
    OrdersBy g.sizeVertex col p

/-- C53 is violated by the path 0-1-2: first fit colours 0 and 2 alike, the code gives three colours. -/
theorem c53_violated : ¬ C53 := by
  intro hc
  let g : Graph := ⟨[1, 0, 2, 1], [0, 1, 3, 4]⟩
  have hr : Reachable false g := ⟨[.insert (0, 1), .insert (1, 2)], by
    simp only [List.mem_cons, List.not_mem_nil, or_false]
    rintro op (rfl | rfl) <;> simp [Op.Valid, sizeMax], by decide +kernel⟩
  have h10 : Adj g 1 0 := ⟨[0, 2], rfl, by decide⟩
  have h21 : Adj g 2 1 := ⟨[1], rfl, by decide⟩
  have h20 : ¬ Adj g 2 0 := by
    rintro ⟨r, hr, hv⟩
    have : g.nbrs 2 = .ok [1] := rfl
    rw [this] at hr; cases hr; simp at hv
  obtain ⟨p, col, hp, hff, hord⟩ := hc g hr ⟨1, 0, h10⟩
  have hp' : g.greedyMulticolouring = .ok [0, 1, 2] := by decide +kernel
  rw [hp'] at hp
  cases hp
  have r0 := hff 0 (by decide)
  have r1 := hff 1 (by decide)
  have r2 := hff 2 (by decide)
  have c0 : col 0 = 1 := by
    have := r0.2.2 1 (by omega) (fun u hu => by omega)
    have := r0.1
    omega
  have c1 : col 1 ≠ 1 := fun h => r1.2.1 0 (by omega) h10 (by omega)
  have c2 : col 2 = 1 := by
    have := r2.2.2 1 (by omega) (fun u hu hue => by
      have : u = 0 ∨ u = 1 := by omega
      rcases this with rfl | rfl
      · exact absurd hue h20
      · exact c1)
    have := r2.1
    omega
  have := (hord 1 2 1 2 (by decide) (by decide) rfl rfl).mp (by omega)
  have := r1.1
  omega

/-- The part of C53 that holds: when every vertex that has a neighbour of smaller index has one which itself has none,
the colouring is first fit.  Missing: all other graphs, where a vertex gets a larger colour than documented. -/
theorem c53_first_fit_partial (g : Graph) (h : Reachable false g) (hedge : ∃ u v, Adj g u v)
    (hlow : ∀ v, (∃ u, u < v ∧ Adj g v u) → ∃ u, u < v ∧ Adj g v u ∧ ∀ w, w < u → ¬ Adj g u w) :
    ∃ p col, g.greedyMulticolouring = .ok p ∧ (∀ v, v < g.sizeVertex → FirstFitRule (Adj g) col v) ∧
      OrdersBy g.sizeVertex col p := by
  obtain ⟨p, col, h1, _, _, h3, h4⟩ := c21_greedy g h hedge
  have hpos : ∀ v, v < g.sizeVertex → 0 < col v := by
    intro v hv
    by_cases he : ∃ u, u < v ∧ Adj g v u
    · obtain ⟨⟨u, _, _, hlt⟩, _⟩ := (h3 v hv).2 he
      omega
    · rw [(h3 v hv).1 (fun u hu hue => he ⟨u, hu, hue⟩)]; omega
  refine ⟨p, col, h1, fun v hv => ⟨hpos v hv, ?_, ?_⟩, h4⟩
  · intro u hu hue
    exact ((h3 v hv).2 ⟨u, hu, hue⟩).2.1 u hu hue
  · intro c hc hcn
    by_cases he : ∃ u, u < v ∧ Adj g v u
    · obtain ⟨u, hu, hue, hnone⟩ := hlow v he
      have hcu : col u = 1 := (h3 u (by omega)).1 hnone
      apply ((h3 v hv).2 he).2.2 c _ hcn
      refine ⟨u, hu, hue, ?_⟩
      have := hcn u hu hue
      omega
    · rw [(h3 v hv).1 (fun u hu hue => he ⟨u, hu, hue⟩)]; omega

/-- A star around vertex 0 with one more edge meets the hypotheses. -/
example : Reachable false ⟨[1, 2, 3, 0, 2, 0, 1, 0], [0, 3, 5, 7, 8]⟩ ∧
    ∀ v, (∃ u, u < v ∧ Adj ⟨[1, 2, 3, 0, 2, 0, 1, 0], [0, 3, 5, 7, 8]⟩ v u) →
      ∃ u, u < v ∧ Adj ⟨[1, 2, 3, 0, 2, 0, 1, 0], [0, 3, 5, 7, 8]⟩ v u ∧
        ∀ w, w < u → ¬ Adj ⟨[1, 2, 3, 0, 2, 0, 1, 0], [0, 3, 5, 7, 8]⟩ u w := by
  refine ⟨⟨[.insert (0, 1), .insert (0, 2), .insert (0, 3), .insert (1, 2)], ?_, by decide +kernel⟩, ?_⟩
  · simp only [List.mem_cons, List.not_mem_nil, or_false]
    rintro op (rfl | rfl | rfl | rfl) <;> simp [Op.Valid, sizeMax]
  · rintro v ⟨u, hu, r, hr, hur⟩
    refine ⟨0, by omega, ?_, fun w hw => by omega⟩
    by_cases hv : v < 4
    · match v, hv with
      | 0, _ => omega
      | 1, _ => exact ⟨_, rfl, by decide⟩
      | 2, _ => exact ⟨_, rfl, by decide⟩
      | 3, _ => exact ⟨_, rfl, by decide⟩
    · have : Graph.nbrs ⟨[1, 2, 3, 0, 2, 0, 1, 0], [0, 3, 5, 7, 8]⟩ v = .exit 1 := by
        unfold Graph.nbrs
        simp [Graph.sizeVertex, Graph.empty, hv]
      rw [this] at hr; simp at hr

end Disa.Props
