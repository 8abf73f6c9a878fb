import Verif.Graph.Peripheral
import Verif.Graph.Expansion
import Verif.Graph.Ecc
import Verif.Props.Graph

/-!
# Properties C12 to C16: the graph utilities
-/

namespace Disa.Props

open Disa Spec Graph

/-- Two components: the path 0-1-2-3 with a chord 1-3, and the edge 4-5; vertex 6 is isolated. -/
def searchOps : List Op :=
  [.insert (0, 1), .insert (2, 1), .insert (2, 3), .insert (1, 3), .insert (4, 5), .resize 7]

/-- The graph built by `searchOps`. -/
def searchGraph : Graph := ⟨[1, 0, 2, 3, 1, 3, 1, 2, 5, 4], [0, 1, 4, 6, 8, 9, 10, 10]⟩

theorem searchOps_valid : ∀ op ∈ searchOps, op.Valid := by
  simp only [searchOps, List.mem_cons, List.not_mem_nil, or_false]
  rintro op (rfl | rfl | rfl | rfl | rfl | rfl) <;> simp [Op.Valid, sizeMax]

theorem searchGraph_reachable : Reachable false searchGraph := ⟨searchOps, searchOps_valid, by decide +kernel⟩

/-- A connected graph: the path 0-1-2-3 with a chord 1-3. -/
def kiteOps : List Op := [.insert (0, 1), .insert (2, 1), .insert (2, 3), .insert (1, 3)]

/-- The graph built by `kiteOps`. -/
def kite : Graph := ⟨[1, 0, 2, 3, 1, 3, 1, 2], [0, 1, 4, 6, 8]⟩

theorem kiteOps_valid : ∀ op ∈ kiteOps, op.Valid := by
  simp only [kiteOps, List.mem_cons, List.not_mem_nil, or_false]
  rintro op (rfl | rfl | rfl | rfl) <;> simp [Op.Valid, sizeMax]

theorem kite_reachable : Reachable false kite := ⟨kiteOps, kiteOps_valid, by decide +kernel⟩

theorem kite_adj {u v : Nat} {r : List Nat} (h : kite.nbrs u = .ok r) (hv : v ∈ r) : Adj kite u v := ⟨r, h, hv⟩

theorem kite_spans (u : Nat) (hu : u < 4) : Spans (Adj kite) 4 u := by
  have a : Adj kite 0 1 := kite_adj (r := [1]) rfl (by decide)
  have b : Adj kite 1 0 := kite_adj (r := [0, 2, 3]) rfl (by decide)
  have c : Adj kite 1 2 := kite_adj (r := [0, 2, 3]) rfl (by decide)
  have d : Adj kite 1 3 := kite_adj (r := [0, 2, 3]) rfl (by decide)
  have e : Adj kite 2 1 := kite_adj (r := [1, 3]) rfl (by decide)
  have f : Adj kite 3 1 := kite_adj (r := [1, 2]) rfl (by decide)
  have one : ∀ v, v < 4 → ∃ n, Walk (Adj kite) n 1 v := by
    intro v hv
    match v, hv with
    | 0, _ => exact ⟨1, 1, rfl, b⟩
    | 1, _ => exact ⟨0, rfl⟩
    | 2, _ => exact ⟨1, 1, rfl, c⟩
    | 3, _ => exact ⟨1, 1, rfl, d⟩
  have toOne : ∃ n, Walk (Adj kite) n u 1 := by
    match u, hu with
    | 0, _ => exact ⟨1, 0, rfl, a⟩
    | 1, _ => exact ⟨0, rfl⟩
    | 2, _ => exact ⟨1, 2, rfl, e⟩
    | 3, _ => exact ⟨1, 3, rfl, f⟩
  intro v hv
  obtain ⟨n, h1⟩ := toOne
  obtain ⟨m, h2⟩ := one v hv
  exact ⟨n + m, u, rfl, h1.append h2⟩

/-! ### C12 -/

/-- C12: `level_traversal` returns the distances up to the end level, and the maximum index elsewhere. -/
theorem c12_level_traversal (d : Bool) (g : Graph) (h : Reachable d g) (h1 : 1 < g.sizeVertex)
    (start e : Nat) (hs : start < g.sizeVertex) (he : e ≤ sizeMax) :
    ∃ out, g.levelTraversal start e = .ok out ∧ IsLevels (Adj g) (· = start) e g.sizeVertex out := by
  have hn := reach_small h
  obtain ⟨L, hr, hg⟩ := reach_rep h
  rw [hr.sizeVertex] at h1 hn hs ⊢
  rw [hr.adj_eq]
  exact levelTraversal_ok hr hg h1 hn he hs

/-- C12: with the default end level every vertex gets its distance, and exactly the unreachable ones the maximum. -/
theorem c12_level_traversal_default (d : Bool) (g : Graph) (h : Reachable d g) (h1 : 1 < g.sizeVertex)
    (start : Nat) (hs : start < g.sizeVertex) :
    ∃ out, g.levelTraversal start sizeMax = .ok out ∧ out.length = g.sizeVertex ∧ ∀ v, v < g.sizeVertex →
      (∃ k, k < g.sizeVertex ∧ IsDist (Adj g) (· = start) v k ∧ out[v]? = some k) ∨
      (out[v]? = some sizeMax ∧ ¬ Reached (Adj g) (· = start) v) := by
  have hn := reach_small h
  obtain ⟨L, hr, hg⟩ := reach_rep h
  rw [hr.sizeVertex] at h1 hn hs ⊢
  rw [hr.adj_eq]
  obtain ⟨out, ho, hl, hv⟩ := levelTraversal_ok hr hg h1 hn (Nat.le_refl sizeMax) hs
  refine ⟨out, ho, hl, fun v hvl => ?_⟩
  rcases hv v hvl with ⟨k, _, hk, hok⟩ | ⟨hok, hno⟩
  · exact .inl ⟨k, dist_lt hg hs hk, hk, hok⟩
  · refine .inr ⟨hok, fun hre => ?_⟩
    obtain ⟨k, hk⟩ := reached_iff.mp hre
    have := dist_lt hg hs hk
    exact hno k (by omega) hk

/-- C12: the version with a queue, started from several vertices at level 0. -/
theorem c12_level_traversal_queue (d : Bool) (g : Graph) (h : Reachable d g) (h1 : 1 < g.sizeVertex)
    (queue level : List Nat) (e : Nat) (he : e ≤ sizeMax) (hnd : queue.Nodup)
    (hlen : level.length = g.sizeVertex) (hlt : ∀ v ∈ queue, v < g.sizeVertex)
    (hlev : ∀ v, v < g.sizeVertex → level[v]? = some (if v ∈ queue then 0 else sizeMax)) :
    ∃ out, g.levelTraversalFrom queue level e = .ok out ∧ IsLevels (Adj g) (· ∈ queue) e g.sizeVertex out := by
  have hn := reach_small h
  obtain ⟨L, hr, hg⟩ := reach_rep h
  rw [hr.sizeVertex] at h1 hn hlen hlt hlev ⊢
  rw [hr.adj_eq]
  have hvis : ∀ (v k : Nat), level[v]? = some k → k ≠ sizeMax → v ∈ queue ∧ k = 0 := by
    intro v k hv hk
    have hvl : v < L.length := by rw [← hlen]; exact (List.getElem?_eq_some_iff.mp hv).1
    have := hlev v hvl
    rw [hv] at this
    split at this <;> rename_i hq
    · exact ⟨hq, Option.some.inj this⟩
    · exact absurd (Option.some.inj this) hk
  apply levelTraversalFrom_ok hr hg (by intro h; rw [h] at h1; simp at h1) hn he
  · refine ⟨hlen, ⟨[], ?_⟩, ?_⟩
    · refine ⟨?_, by simpa using hnd, ?_, ?_, ?_, ?_, ?_, ?_⟩
      · intro v
        simp only [List.not_mem_nil, false_or]
        constructor
        · rintro ⟨k, hk, hv⟩; exact (hvis v k hv hk).1
        · intro hv
          refine ⟨0, by decide, ?_⟩
          rw [hlev v (hlt v hv), if_pos hv]
      · rintro v ⟨k, hk, hv⟩
        exact ⟨0, Nat.zero_le _, isDist_zero.mpr (hvis v k hv hk).1⟩
      · intro s hs
        exact ⟨0, by decide, by rw [hlev s (hlt s hs), if_pos hs]⟩
      · apply List.pairwise_of_forall_mem_list
        intro u hu v hv j k hj hk
        rw [hj.unique (isDist_zero.mpr hu)]; omega
      · simp
      · intro f rest hq v hv j k hj hk
        rw [hk.unique (isDist_zero.mpr hv)]; omega
      · simp
    · intro v k hv hk
      obtain ⟨h2, rfl⟩ := hvis v k hv hk
      exact isDist_zero.mpr h2
  · intro l hl hls
    obtain ⟨v, hv⟩ := List.mem_iff_getElem?.mp hl
    rw [(hvis v l hv hls).2]; omega

example : Reachable false searchGraph ∧ 1 < searchGraph.sizeVertex ∧ searchGraph.sizeVertex < sizeMax ∧
    2 < searchGraph.sizeVertex := ⟨searchGraph_reachable, by decide, by decide, by decide⟩

/-- What C12 says for that graph. -/
example : searchGraph.levelTraversal 0 sizeMax = .ok [0, 1, 2, 2, sizeMax, sizeMax, sizeMax] ∧
    searchGraph.levelTraversal 0 1 = .ok [0, 1, sizeMax, sizeMax, sizeMax, sizeMax, sizeMax] ∧
    searchGraph.levelTraversalFrom [3, 4] [sizeMax, sizeMax, sizeMax, 0, 0, sizeMax, sizeMax] sizeMax =
      .ok [2, 1, 1, 0, 0, 1, sizeMax] := by decide +kernel

/-! ### C13 -/

/-- C13: `level_traversal` on a graph with one vertex exits, whatever the arguments. -/
theorem c13_single_vertex_exits (d : Bool) (g : Graph) (h : Reachable d g) (h1 : g.sizeVertex = 1) (start e : Nat) :
    g.levelTraversal start e = .exit 1 := by
  obtain ⟨L, hr, hg⟩ := reach_rep h
  rw [hr.sizeVertex] at h1
  unfold levelTraversal
  rw [hr.empty, decide_eq_false (by omega), hr.sizeVertex, h1]
  by_cases hs : start < 1
  · have : start = 0 := by omega
    subst this
    have hw : wr (List.replicate 1 sizeMax) 0 0 = .ok [0] := by decide
    simp only [Bool.not_false, assert_true, Out.ok_bind, decide_true, Nat.zero_lt_one, hw]
    unfold levelTraversalFrom
    rw [hr.empty, decide_eq_false (by omega), hr.sizeVertex, h1]
    rfl
  · simp only [hs, decide_false]; rfl

/-- C13: exactly the calls on at most one vertex or with a start vertex out of range exit. -/
theorem c13_exits_iff (d : Bool) (g : Graph) (h : Reachable d g) (start e : Nat)
    (he : e ≤ sizeMax) :
    g.levelTraversal start e = .exit 1 ↔ g.sizeVertex ≤ 1 ∨ g.sizeVertex ≤ start := by
  have hn := reach_small h
  constructor
  · intro hx
    by_contra hc
    obtain ⟨out, ho, _⟩ := c12_level_traversal d g h (by omega) start e (by omega) he
    rw [ho] at hx; simp at hx
  · intro hc
    by_cases h1 : g.sizeVertex = 1
    · exact c13_single_vertex_exits d g h h1 start e
    · obtain ⟨L, hr, hg⟩ := reach_rep h
      rw [hr.sizeVertex] at hc h1
      unfold levelTraversal
      rw [hr.empty, hr.sizeVertex]
      by_cases h0 : L.length = 0
      · simp [h0]
      · have : ¬ start < L.length := by omega
        simp [h0, this]

example : ∃ g, Reachable false g ∧ g.sizeVertex = 1 :=
  ⟨⟨[], [0, 0]⟩, ⟨[.resize 1], by simp [Op.Valid, sizeMax], by decide⟩, rfl⟩

/-! ### C14 -/

/-- C14: on a graph in which every vertex can be reached from the start vertex the search terminates with a vertex that
is at least as eccentric as the start vertex, and no farthest vertex has a smaller degree than it. -/
theorem c14_pseudo_peripheral (g : Graph) (h : Reachable false g) (start : Nat)
    (hs : start < g.sizeVertex) (hc : Spans (Adj g) g.sizeVertex start) :
    ∃ p a b, g.pseudoPeripheral start = .ok p ∧ p < g.sizeVertex ∧ IsEcc (Adj g) g.sizeVertex start a ∧
      IsEcc (Adj g) g.sizeVertex p b ∧ a ≤ b ∧
      ∀ v j k, IsDist (Adj g) (· = p) v b → g.degree v = .ok j → g.degree p = .ok k → k ≤ j := by
  have hn := reach_small h
  obtain ⟨L, hr, hg⟩ := reach_rep h
  rw [hr.sizeVertex] at hn hs hc ⊢
  rw [hr.adj_eq] at hc ⊢
  obtain ⟨p, h1, h2, h3, h4⟩ := pseudoPeripheral_ok hr hg hn hs
  have hd : ∀ u, u < L.length → ∀ v, v < L.length → ∃ k, IsDist (rowRel L) (· = u) v k := by
    intro u hu v hv
    obtain ⟨n, s, rfl, hw⟩ := hc u hu
    obtain ⟨m, s, rfl, hw'⟩ := hc v hv
    exact reached_iff.mp ⟨n + m, u, rfl, (hw.symm (fun a b => hg.symm rfl a b)).append hw'⟩
  have hecc : ∀ u, u < L.length → ∀ e, (∀ v, v < L.length → lvl L u v ≤ e) → (∃ v, v < L.length ∧ lvl L u v = e) →
      IsEcc (rowRel L) L.length u e := by
    intro u hu e hle ⟨v, hv, hve⟩
    refine ⟨fun w hw => ?_, v, hv, ?_⟩
    · obtain ⟨k, hk⟩ := hd u hu w hw
      have := hle w hw
      rw [lvl_of_dist hk] at this
      exact ⟨k, this, hk⟩
    · obtain ⟨k, hk⟩ := hd u hu v hv
      rw [lvl_of_dist hk] at hve
      subst hve; exact hk
  have hmax : ∃ a, (∀ v, v < L.length → lvl L start v ≤ a) ∧ ∃ v, v < L.length ∧ lvl L start v = a := by
    obtain ⟨v, hv, hb⟩ := (Finset.range L.length).exists_max_image (lvl L start) ⟨start, by simpa using hs⟩
    simp only [Finset.mem_range] at hv hb
    exact ⟨lvl L start v, hb, v, hv, rfl⟩
  obtain ⟨a, ha1, ha2⟩ := hmax
  by_cases h0 : (row L start).length = 0
  · have hps := h3 h0
    subst hps
    refine ⟨p, a, a, h1, h2, hecc p h2 a ha1 ha2, hecc p h2 a ha1 ha2, Nat.le_refl _, ?_⟩
    intro v j k _ hj hk
    rw [hr.degree h2] at hk
    have := Out.ok.inj hk
    omega
  · obtain ⟨md, m1, m2, ⟨q, hq, hqm, -⟩, m3⟩ := h4 h0
    obtain ⟨v, hv, hva⟩ := ha2
    refine ⟨p, a, md, h1, h2, hecc start hs a ha1 ⟨v, hv, hva⟩, hecc p h2 md m2 ⟨q, hq, hqm⟩, ?_, ?_⟩
    · have := m1 v hv; omega
    · intro v j k hvd hj hk
      have hvl : v < L.length := by
        by_contra hcon
        have : g.degree v = .exit 1 := by
          unfold Graph.degree; rw [hr.sizeVertex]; simp [hcon]
        rw [this] at hj; simp at hj
      have := m3 v hvl (lvl_of_dist hvd)
      rw [hr.degree hvl] at hj
      rw [hr.degree h2] at hk
      have := Out.ok.inj hj
      have := Out.ok.inj hk
      omega

/-- C14: on any other graph the search terminates too. If the start vertex has no neighbour it is returned; otherwise the
result has a vertex it cannot reach, and no such vertex has a smaller degree. -/
theorem c14_pseudo_peripheral_disconnected (g : Graph) (h : Reachable false g) (start : Nat)
    (hs : start < g.sizeVertex) (hc : ¬ Spans (Adj g) g.sizeVertex start) :
    ∃ p, g.pseudoPeripheral start = .ok p ∧ p < g.sizeVertex ∧ (g.degree start = .ok 0 → p = start) ∧
      ¬ Spans (Adj g) g.sizeVertex p ∧
      (g.degree start ≠ .ok 0 → ∀ v j k, ¬ Reached (Adj g) (· = p) v → g.degree v = .ok j → g.degree p = .ok k → k ≤ j) := by
  have hn := reach_small h
  obtain ⟨L, hr, hg⟩ := reach_rep h
  rw [hr.sizeVertex] at hn hs hc ⊢
  rw [hr.adj_eq] at hc ⊢
  obtain ⟨p, h1, h2, h3, h4⟩ := pseudoPeripheral_ok hr hg hn hs
  have hspan : ¬ Spans (rowRel L) L.length p := by
    intro hp
    apply hc
    obtain ⟨m, s, rfl, hw'⟩ := hp start hs
    intro v hv
    obtain ⟨n, s, rfl, hw⟩ := hp v hv
    exact ⟨m + n, start, rfl, (hw'.symm (fun a b => hg.symm rfl a b)).append hw⟩
  refine ⟨p, h1, h2, ?_, hspan, ?_⟩
  · intro h0
    rw [hr.degree hs] at h0
    exact h3 (Out.ok.inj h0)
  · intro h0 v j k hv hj hk
    rw [hr.degree hs] at h0
    obtain ⟨md, m1, m2, ⟨q, hq, hqm, -⟩, m3⟩ := h4 (fun hh => h0 (by rw [hh]))
    have hvl : v < L.length := by
      by_contra hcon
      have : g.degree v = .exit 1 := by
        unfold Graph.degree; rw [hr.sizeVertex]; simp [hcon]
      rw [this] at hj; simp at hj
    have hlv : lvl L p v = sizeMax := lvl_of_none (fun hh => hv (reached_iff.mpr hh))
    have hmd : md = sizeMax := by
      have h5 := m2 v hvl
      rcases lvl_cases hg (v := q) h2 with h6 | h6 <;> omega
    have := m3 v hvl (by rw [hlv, hmd])
    rw [hr.degree hvl] at hj
    rw [hr.degree h2] at hk
    have := Out.ok.inj hj
    have := Out.ok.inj hk
    omega

example : Reachable false kite ∧ kite.sizeVertex < sizeMax ∧ 2 < kite.sizeVertex ∧ Spans (Adj kite) kite.sizeVertex 2 :=
  ⟨kite_reachable, by decide, by decide, kite_spans 2 (by omega)⟩

example : kite.pseudoPeripheral 2 = .ok 0 := by decide +kernel

/-- The disconnected case: the search leaves the component of the start vertex. -/
example : Reachable false searchGraph ∧ searchGraph.pseudoPeripheral 1 = .ok 6 :=
  ⟨searchGraph_reachable, by decide +kernel⟩

/-! ### C15 -/

/-- C15: `level_expansion` gives every seed its own colour, every vertex that a seed can reach the colour of a closest
seed, along a shortest path of that colour, and every other vertex the maximum index. -/
theorem c15_level_expansion (d : Bool) (g : Graph) (h : Reachable d g) (seeds : List Nat)
    (hne : seeds ≠ []) (hnd : seeds.Nodup) (hlt : ∀ s ∈ seeds, s < g.sizeVertex) :
    ∃ color, g.levelExpansion seeds = .ok color ∧ color.length = g.sizeVertex ∧
      (∀ (i s : Nat), seeds[i]? = some s → color[s]? = some i) ∧
      (∀ v, v < g.sizeVertex →
        (color[v]? = some sizeMax ∧ ¬ Reached (Adj g) (· ∈ seeds) v) ∨
        ∃ i s k, color[v]? = some i ∧ seeds[i]? = some s ∧ IsDist (Adj g) (· ∈ seeds) v k ∧
          Walk (fun a b => Adj g a b ∧ color[a]? = some i ∧ color[b]? = some i) k s v) := by
  have hn := reach_small h
  obtain ⟨L, hr, hg⟩ := reach_rep h
  rw [hr.sizeVertex] at hn hlt ⊢
  rw [hr.adj_eq]
  exact levelExpansion_ok hr hg hn hne hnd hlt

/-- C15: no seeds, or a seed out of range, exit. -/
theorem c15_bad_seeds_exit (g : Graph) (seeds : List Nat)
    (hbad : seeds = [] ∨ ∃ s ∈ seeds, g.sizeVertex ≤ s) : g.levelExpansion seeds = .exit 1 := by
  unfold levelExpansion
  cases he : g.empty with
  | true => rfl
  | false =>
    rcases hbad with rfl | ⟨s, hs, hle⟩
    · rfl
    · cases seeds with
      | nil => simp at hs
      | cons a l =>
        have hm : ¬ maxElem (a :: l) < g.sizeVertex := by
          have key : ∀ (l : List Nat) (m : Nat), m ≤ l.foldl max m ∧ ∀ x ∈ l, x ≤ l.foldl max m := by
            intro l
            induction l with
            | nil => intro m; simp
            | cons y l ih =>
              intro m
              have := ih (max m y)
              simp only [List.foldl_cons, List.mem_cons]
              refine ⟨by omega, ?_⟩
              rintro x (rfl | hx)
              · omega
              · exact this.2 x hx
          have := (key (a :: l) 0).2 s hs
          unfold maxElem
          omega
        simp only [Bool.not_false, assert_true, Out.ok_bind, List.isEmpty_cons, hm, decide_false]
        rfl

example : Reachable false searchGraph ∧ searchGraph.sizeVertex < sizeMax ∧ ([3, 4, 0] : List Nat) ≠ [] ∧
    ([3, 4, 0] : List Nat).Nodup ∧ ∀ s ∈ ([3, 4, 0] : List Nat), s < searchGraph.sizeVertex :=
  ⟨searchGraph_reachable, by decide, by decide, by decide, by decide⟩

example : searchGraph.levelExpansion [3, 4, 0] = .ok [2, 0, 0, 0, 1, 1, sizeMax] := by decide +kernel

/-! ### C16 -/

/-- C16, as stated: `eccentricity_graph` never accesses memory out of bounds. -/
def C16 : Prop := ∀ (g : Graph) (ecc : List (List Nat)), Reachable false g → g.eccGraph ecc ≠ .ub

/-- C16: exactly the graphs with an edge make `eccentricity_graph` access memory out of bounds. -/
theorem c16_eccentricity_ub_iff (g : Graph) (h : Reachable false g) (ecc : List (List Nat)) :
    g.eccGraph ecc = .ub ↔ ∃ u v, Adj g u v := by
  have hn := reach_small h
  obtain ⟨L, hr, hg⟩ := reach_rep h
  rw [hr.sizeVertex] at hn
  rw [hr.adj_eq]
  constructor
  · intro hub
    by_contra hc
    have h0 : ∀ i, row L i = [] := by
      intro i
      rw [List.eq_nil_iff_forall_not_mem]
      intro v hv
      exact hc ⟨i, v, hv⟩
    rw [eccGraph_edgeless hr h0] at hub
    simp at hub
  · rintro ⟨u, v, huv⟩
    rcases Nat.lt_trichotomy u v with hl | hl | hl
    · exact eccGraph_ub hr hg hn huv hl ecc
    · subst hl; exact absurd huv (hg.loopless u)
    · exact eccGraph_ub hr hg hn (hg.symm rfl u v huv) hl ecc

/-- C16 is violated by every graph with an edge, e.g. the one below. -/
theorem c16_violated : ¬ C16 := fun hc =>
  hc kite [] kite_reachable ((c16_eccentricity_ub_iff kite kite_reachable []).mpr
    ⟨0, 1, kite_adj (r := [1]) rfl (by decide)⟩)

/-- The part of C16 that holds: on graphs without edges the call is safe and vertex `s` gets the maximum index for every
smaller vertex and 0 for itself.  Missing: every graph with an edge. -/
theorem c16_eccentricity_safe_partial (g : Graph) (h : Reachable false g) (hno : ¬ ∃ u v, Adj g u v)
    (ecc : List (List Nat)) :
    g.eccGraph ecc = .ok ((List.range g.sizeVertex).map fun s => List.replicate s sizeMax ++ [0]) := by
  obtain ⟨L, hr, hg⟩ := reach_rep h
  rw [hr.sizeVertex]
  rw [hr.adj_eq] at hno
  apply eccGraph_edgeless hr
  intro i
  rw [List.eq_nil_iff_forall_not_mem]
  intro v hv
  exact hno ⟨i, v, hv⟩

example : ∃ g, Reachable false g ∧ g.sizeVertex = 3 ∧ ¬ ∃ u v, Adj g u v := by
  refine ⟨⟨[], [0, 0, 0, 0]⟩, ⟨[.resize 3], by simp [Op.Valid, sizeMax], by decide⟩, rfl, ?_⟩
  rintro ⟨u, v, r, hr, hv⟩
  by_cases hu : u < 3
  · match u, hu with
    | 0, _ => cases hr; simp at hv
    | 1, _ => cases hr; simp at hv
    | 2, _ => cases hr; simp at hv
  · have : Graph.nbrs ⟨[], [0, 0, 0, 0]⟩ u = .exit 1 := by
      unfold Graph.nbrs
      simp [Graph.sizeVertex, Graph.empty, hu]
    rw [this] at hr; simp at hr

/-! ### C54 -/

/-- C54: with its default stop vertex `eccentricity_vertex_breadth_first` computes the distances from the start vertex,
whatever its output argument held before. -/
theorem c54_eccentricity_vertex (d : Bool) (g : Graph) (h : Reachable d g) (start : Nat)
    (hs : start < g.sizeVertex) (old : List Nat) :
    ∃ out, g.eccVertex start old sizeMax = .ok out ∧ out.length = g.sizeVertex ∧ ∀ v, v < g.sizeVertex →
      (∃ k, IsDist (Adj g) (· = start) v k ∧ out[v]? = some k) ∨
      (out[v]? = some sizeMax ∧ ¬ Reached (Adj g) (· = start) v) := by
  have hn := reach_small h
  obtain ⟨L, hr, hg⟩ := reach_rep h
  rw [hr.sizeVertex] at hn hs ⊢
  rw [hr.adj_eq]
  obtain ⟨out, ho, hl, hv⟩ := eccVertex_ok hr hg hn hs old
  refine ⟨out, ho, hl, fun v hvl => ?_⟩
  rcases hv v hvl with ⟨k, _, hk, hok⟩ | ⟨hok, hno⟩
  · exact .inl ⟨k, hk, hok⟩
  · refine .inr ⟨hok, fun hre => ?_⟩
    obtain ⟨k, hk⟩ := reached_iff.mp hre
    have := dist_lt hg hs hk
    exact hno k (by omega) hk

example : searchGraph.eccVertex 0 [7, 7] sizeMax = .ok [0, 1, 2, 2, sizeMax, sizeMax, sizeMax] := by decide +kernel

end Disa.Props
