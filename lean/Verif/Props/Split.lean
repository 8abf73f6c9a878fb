import Verif.Props.Partition
import Verif.Props.Renumber

/-!
# Property C107: the parts of a bisection
-/

namespace Disa.Props

open Disa Spec Graph Partition

theorem reached_trans {E : Nat → Nat → Prop} {u v w : Nat} (h1 : Reached E (· = u) v) (h2 : Reached E (· = v) w) :
    Reached E (· = u) w := by
  obtain ⟨m, s, rfl, hm⟩ := h1
  obtain ⟨n, t, rfl, hn⟩ := h2
  exact ⟨m + n, _, rfl, hm.append hn⟩

theorem reached_symm {E : Nat → Nat → Prop} (hs : ∀ u v, E u v → E v u) {u v : Nat} (h : Reached E (· = u) v) :
    Reached E (· = v) u := by
  obtain ⟨m, s, rfl, hm⟩ := h
  exact ⟨m, _, rfl, hm.symm hs⟩

theorem connected_of_spans {E : Nat → Nat → Prop} (hs : ∀ u v, E u v → E v u) {n r : Nat} (h : Spans E n r) :
    Connected E n := fun u hu v hv => reached_trans (reached_symm hs (h u hu)) (h v hv)

/-- The ball around a vertex of a connected part is connected. -/
theorem ball_connected {g : Graph} {x mid : Nat} {s l : Subgraph} {levels : List Nat} {p : Nat} (hs : IsPart g x s)
    (hl : IsPart g x l) (h2 : 2 ≤ s.graph.sizeVertex) (hp : p < s.graph.sizeVertex)
    (hlev : s.graph.levelTraversal p sizeMax = .ok levels)
    (hk : l.l2g = Subgraph.keepAt (fun i => decide (mid < levels.getD i 0)) s.l2g)
    (hc : Connected (Adj s.graph) s.graph.sizeVertex) : Connected (Adj l.graph) l.graph.sizeVertex := by
  obtain ⟨out, o1, o2, o3⟩ := c12_level_traversal_default false s.graph hs.inv.reach (by omega) p hp
  rw [hlev] at o1
  cases o1
  have hlevel : ∀ i, i < s.graph.sizeVertex → ∃ k, IsDist (Adj s.graph) (· = p) i k ∧ levels[i]? = some k := by
    intro i hi
    rcases o3 i hi with ⟨k, -, k1, k2⟩ | ⟨-, k2⟩
    · exact ⟨k, k1, k2⟩
    · exact absurd (hc p hp i hi) k2
  have hss : s.graph.sizeVertex = s.l2g.length := hs.inv.size
  have hls : l.graph.sizeVertex = l.l2g.length := hl.inv.size
  have hmem : ∀ v, v ∈ l.l2g ↔ ∃ i k : Nat, s.l2g[i]? = some v ∧ IsDist (Adj s.graph) (· = p) i k ∧ k ≤ mid := by
    intro v
    rw [hk, Subgraph.mem_keepAt]
    constructor
    · rintro ⟨i, h1, h2⟩
      obtain ⟨k, k1, k2⟩ := hlevel i (by rw [hss]; exact (List.getElem?_eq_some_iff.mp h2).1)
      refine ⟨i, k, h2, k1, ?_⟩
      simpa [List.getD_eq_getElem?_getD, k2] using h1
    · rintro ⟨i, k, h2, k1, hm⟩
      obtain ⟨k', k1', k2⟩ := hlevel i (by rw [hss]; exact (List.getElem?_eq_some_iff.mp h2).1)
      obtain rfl := k1.unique k1'
      exact ⟨i, by simpa [List.getD_eq_getElem?_getD, k2] using hm, h2⟩
  have hsym : ∀ u v, Adj l.graph u v → Adj l.graph v u := fun u v => (c02_symmetric _ hl.inv.reach u v).mp
  have hidx : ∀ v, v ∈ l.l2g → ∃ a : Nat, l.l2g[a]? = some v := fun v hv => List.mem_iff_getElem?.mp hv
  obtain ⟨q, hq⟩ : ∃ q, s.l2g[p]? = some q := ⟨_, List.getElem?_eq_getElem (by omega)⟩
  obtain ⟨r, hr⟩ := hidx q ((hmem q).mpr ⟨p, 0, hq, isDist_zero.mpr rfl, Nat.zero_le _⟩)
  have key : ∀ k i v a : Nat, k ≤ mid → IsDist (Adj s.graph) (· = p) i k → s.l2g[i]? = some v → l.l2g[a]? = some v →
      Reached (Adj l.graph) (· = r) a := by
    intro k
    induction k with
    | zero =>
      intro i v a _ hd hi ha
      have : i = p := by obtain ⟨⟨_, rfl, rfl⟩, -⟩ := hd; rfl
      subst this
      rw [hq] at hi
      cases hi
      obtain ⟨b1, b2⟩ := List.getElem?_eq_some_iff.mp ha
      obtain ⟨b3, b4⟩ := List.getElem?_eq_some_iff.mp hr
      have := (List.Nodup.getElem_inj_iff hl.inv.nodup).mp (b2.trans b4.symm)
      subst this
      exact ⟨0, _, rfl, rfl⟩
    | succ k ih =>
      intro i v a hkm hd hi ha
      obtain ⟨j, j1, j2⟩ := hd.pred
      obtain ⟨w, hw⟩ : ∃ w, s.l2g[j]? = some w :=
        ⟨_, List.getElem?_eq_getElem (by rw [← hss]; exact (adj_lt hs.inv.reach j2).1)⟩
      obtain ⟨b, hb⟩ := hidx w ((hmem w).mpr ⟨j, k, hw, j1, by omega⟩)
      refine reached_trans (ih j w b (by omega) j1 hw hb) ⟨1, b, rfl, Walk.single ?_⟩
      rw [hl.inv.adj b a w v hb ha, ← hs.inv.adj j i w v hw hi]
      exact j2
  refine connected_of_spans (r := r) hsym fun a ha => ?_
  have ha' : a < l.l2g.length := by omega
  obtain ⟨i, k, h1, h2, h3⟩ := (hmem _).mp (List.getElem_mem ha')
  exact key k i _ a h3 h2 h1 (List.getElem?_eq_getElem ha')

/-! ### C107 -/

/-- The full C107.  It is false, see `c107_violated`. -/
def C107 : Prop :=
  ∀ (hash : Nat → Nat) (g : Graph) (k : Nat) (subs : List Subgraph), Reachable false g →
    Connected (Adj g) g.sizeVertex → bisection hash g k = .ok subs →
    ∀ s ∈ subs, Connected (Adj s.graph) s.graph.sizeVertex

/-- A star with three leaves. -/
def star : Graph := ⟨[1, 2, 3, 0, 0, 0], [0, 3, 4, 5, 6]⟩

theorem star_reachable : Reachable false star :=
  ⟨[.insert (0, 1), .insert (0, 2), .insert (0, 3)], by simp [Op.Valid, sizeMax], by decide⟩

theorem star_connected : Connected (Adj star) star.sizeVertex := by
  refine connected_of_spans (r := 0) (fun u v => (c02_symmetric _ star_reachable u v).mp) fun v hv => ?_
  have h4 : v < 4 := hv
  obtain rfl | rfl | rfl | rfl : v = 0 ∨ v = 1 ∨ v = 2 ∨ v = 3 := by omega
  · exact ⟨0, 0, rfl, rfl⟩
  all_goals exact ⟨1, 0, rfl, Walk.single ⟨[1, 2, 3], by decide, by decide⟩⟩

/-- C107 does not hold: two leaves of a star form a part without the centre. -/
theorem c107_violated : ¬ C107 := by
  intro hc
  have := hc id star 2 [⟨⟨[1, 0], [0, 1, 2]⟩, [0, 2], [], 5⟩, ⟨⟨[], [0, 0, 0]⟩, [1, 3], [], 5⟩] star_reachable
    star_connected (by decide +kernel) ⟨⟨[], [0, 0, 0]⟩, [1, 3], [], 5⟩ (by simp) 0 (by decide) 1 (by decide)
  obtain ⟨n, s, rfl, hw⟩ := this
  cases n with
  | zero => cases hw
  | succ n =>
    obtain ⟨w, -, l, h1, h2⟩ := hw
    match w with
    | 0 => cases h1; simp at h2
    | 1 => cases h1; simp at h2
    | w + 2 => simp [Graph.nbrs, Graph.sizeVertex, assert] at h1

/-- The part with all vertices has the graph itself. -/
theorem whole_part {g : Graph} {x : Nat} {s : Subgraph} (h : Reachable false g) (h0 : 0 < g.sizeVertex) (hs : IsPart g x s)
    (hl : s.l2g = List.range g.sizeVertex) : s.graph = g := by
  have hsz : s.graph.sizeVertex = g.sizeVertex := by
    have : s.graph.sizeVertex = s.l2g.length := hs.inv.size
    rw [this, hl, List.length_range]
  refine graph_ext h hs.inv.reach h0 hsz fun a b => ?_
  have key : ∀ a b, a < g.sizeVertex → b < g.sizeVertex → (Adj s.graph a b ↔ Adj g a b) := fun a b ha hb =>
    hs.inv.adj a b a b (by rw [hl, List.getElem?_range ha]) (by rw [hl, List.getElem?_range hb])
  constructor
  · intro hab
    obtain ⟨k1, k2⟩ := adj_lt hs.inv.reach hab
    exact (key a b (by omega) (by omega)).mp hab
  · intro hab
    obtain ⟨k1, k2⟩ := adj_lt h hab
    exact (key a b k1 k2).mpr hab

/-- When `recursive_graph_bisection` returns for a graph with vertices. -/
theorem bisection_cases {hash : Nat → Nat} {g : Graph} {k : Nat} {subs : List Subgraph} (h : Reachable false g)
    (h0 : 0 < g.sizeVertex) (hb : bisection hash g k = .ok subs) :
    0 < k ∧ k ≤ g.sizeVertex ∧ g ≠ Graph.new ∧ ∀ v, v < g.sizeVertex → v < 2 * g.sizeEdge false := by
  have hn := reach_small h
  have hk : 0 < k := by
    by_contra hk
    rw [c25_bisection_exits hash g h k (.inl (by omega))] at hb
    cases hb
  have hub : ¬ (g = Graph.new ∨ 2 * g.sizeEdge false < g.sizeVertex) := by
    intro hc
    rw [c25_bisection_ub hash g h k hk hc] at hb
    cases hb
  have hkn : k ≤ g.sizeVertex := by
    by_contra hkn
    rw [c25_bisection_exits hash g h k (.inr ⟨h0, by omega, by omega⟩)] at hb
    cases hb
  exact ⟨hk, hkn, fun e => hub (.inl e), fun v hv => by omega⟩

/-- C107, as far as it holds: the first part of a connected graph is connected, whatever the number of parts. -/
theorem c107_first_partial (hash : Nat → Nat) (g : Graph) (h : Reachable false g)
    (hc : Connected (Adj g) g.sizeVertex) (k : Nat) (subs : List Subgraph) (hb : bisection hash g k = .ok subs) :
    ∃ s, subs[0]? = some s ∧ Connected (Adj s.graph) s.graph.sizeVertex := by
  have hn := reach_small h
  rcases Nat.eq_zero_or_pos g.sizeVertex with h0 | h0
  · have hk : 0 < k := by
      by_contra hk
      rw [c25_bisection_exits hash g h k (.inl (by omega))] at hb
      cases hb
    have hnew : g ≠ Graph.new := by
      intro e
      rw [c25_bisection_ub hash g h k hk (.inl e)] at hb
      cases hb
    have := c25_bisection_empty hash g h h0 hnew k hk
    split_ifs at this
    · obtain ⟨s, h1, h2⟩ := this
      rw [hb] at h1
      cases h1
      have h2' : s.graph.sizeVertex = 0 := h2
      exact ⟨s, rfl, fun u hu => by omega⟩
    · rw [hb] at this
      cases this
  · obtain ⟨hk, hkn, hnew, hsafe⟩ := bisection_cases h h0 hb
    obtain ⟨x, hx⟩ := Subgraph.hash_ok h hash
    have hlt : ∀ v ∈ List.range g.sizeVertex, v < g.sizeVertex := fun v hv => List.mem_range.mp hv
    obtain ⟨s, h1, h2, h3⟩ := make_part h hash hx hsafe hnew (part := List.range g.sizeVertex) List.pairwise_lt_range
      hlt (by simpa using h0)
    have hP : Parts g x [s] := ⟨by simpa using h3, by simp [h2]⟩
    have hsc : Connected (Adj s.graph) s.graph.sizeVertex := by rw [whole_part h h0 h3 h2]; exact hc
    obtain ⟨subs', h4, -, -, h5⟩ := loop_inv (n := k - 1) (body := fun _ subs => bisectStep hash g subs) (s := [s])
      (fun (i : Nat) (subs : List Subgraph) => Parts g x subs ∧ subs.length = i + 1 ∧
        ∃ s, subs[0]? = some s ∧ Connected (Adj s.graph) s.graph.sizeVertex)
      ⟨hP, rfl, s, rfl, hsc⟩
      (by
        rintro i subs hi ⟨hP, hl, t, ht, htc⟩
        have hne : subs ≠ [] := by rintro rfl; simp at hl
        obtain ⟨u, p, levels, l, r, e1, e2, e3, e4, e5, e6, e7, e8, e9, e10⟩ :=
          bisectStep_form h hash hx hsafe hnew hP hne (by omega)
        obtain ⟨subs', f1, f2, f3⟩ := bisectStep_ok h hash hx hsafe hnew hP hne (by omega)
        rw [e10] at f1
        cases f1
        refine ⟨_, e10, f2, by omega, ?_⟩
        obtain ⟨hu, -⟩ := List.getElem?_eq_some_iff.mp e1
        rw [List.getElem?_append_left (by simpa using by omega)]
        by_cases hz : largest subs = 0
        · rw [hz] at e1 ⊢
          rw [ht] at e1
          cases e1
          refine ⟨l, by rw [List.getElem?_set_self (by omega)], ?_⟩
          have hpt := hP.part t (List.mem_of_getElem? ht)
          obtain ⟨L, hr, hg⟩ := reach_rep hpt.inv.reach
          have hL := hr.sizeVertex
          obtain ⟨p', hp, hpl, _⟩ := pseudoPeripheral_ok hr hg (by omega) (start := 0) (by omega)
          rw [e2] at hp
          cases hp
          exact ball_connected hpt e8 e4 (by omega) e3 e6 htc
        · exact ⟨t, by rw [List.getElem?_set_ne hz]; exact ht, htc⟩)
    unfold bisection at hb
    rw [decide_eq_true hk] at hb
    simp only [assert_true, Out.ok_bind, h1, h4] at hb
    cases hb
    exact h5

/-- C107: two parts of a connected graph are the inner and the outer levels around a pseudo peripheral vertex. -/
theorem c107_split (hash : Nat → Nat) (g : Graph) (h : Reachable false g) (hn : g.sizeVertex ≤ 2 ^ 53)
    (hc : Connected (Adj g) g.sizeVertex) (subs : List Subgraph) (hb : bisection hash g 2 = .ok subs) :
    ∃ p m a b, g.pseudoPeripheral 0 = .ok p ∧ IsEcc (Adj g) g.sizeVertex p m ∧ subs = [a, b] ∧
      (∀ v, v ∈ a.l2g ↔ ∃ d, IsDist (Adj g) (· = p) v d ∧ d ≤ m / 2) ∧
      (∀ v, v ∈ b.l2g ↔ ∃ d, IsDist (Adj g) (· = p) v d ∧ m / 2 < d) := by
  have hn' : g.sizeVertex < sizeMax := by unfold sizeMax; omega
  rcases Nat.eq_zero_or_pos g.sizeVertex with h0 | h0
  · have hnew : g ≠ Graph.new := by
      intro e
      rw [c25_bisection_ub hash g h 2 (by omega) (.inl e)] at hb
      cases hb
    have := c25_bisection_empty hash g h h0 hnew 2 (by omega)
    rw [if_neg (by omega), hb] at this
    cases this
  · obtain ⟨-, hkn, hnew, hsafe⟩ := bisection_cases h h0 hb
    obtain ⟨x, hx⟩ := Subgraph.hash_ok h hash
    have hlt : ∀ v ∈ List.range g.sizeVertex, v < g.sizeVertex := fun v hv => List.mem_range.mp hv
    obtain ⟨s, h1, h2, h3⟩ := make_part h hash hx hsafe hnew (part := List.range g.sizeVertex) List.pairwise_lt_range
      hlt (by simpa using h0)
    have hP : Parts g x [s] := ⟨by simpa using h3, by simp [h2]⟩
    have hsg := whole_part h h0 h3 h2
    obtain ⟨u, p, levels, l, r, e1, e2, e3, e4, e5, e6, e7, e8, e9, e10⟩ :=
      bisectStep_form h hash hx hsafe hnew hP (by simp) (by simp; omega)
    have hz : largest [s] = 0 := by
      have := (List.getElem?_eq_some_iff.mp e1).1
      simpa using this
    rw [hz] at e1 e10
    cases e1
    rw [hsg] at e2 e3
    unfold bisection at hb
    rw [decide_eq_true (by omega)] at hb
    simp only [assert_true, Out.ok_bind, h1, loop, Nat.reduceSub] at hb
    rw [e10] at hb
    cases hb
    obtain ⟨L, hr, hg⟩ := reach_rep h
    have hL := hr.sizeVertex
    obtain ⟨p', hp, hpl, _⟩ := pseudoPeripheral_ok hr hg (by omega) (start := 0) (by omega)
    rw [e2] at hp
    cases hp
    obtain ⟨out, o1, o2, o3⟩ := c12_level_traversal_default false g h (by omega) p (by omega)
    rw [e3] at o1
    cases o1
    have hlevel : ∀ i, i < g.sizeVertex → ∃ k, k < g.sizeVertex ∧ IsDist (Adj g) (· = p) i k ∧ levels[i]? = some k := by
      intro i hi
      rcases o3 i hi with ⟨k, k0, k1, k2⟩ | ⟨-, k2⟩
      · exact ⟨k, k0, k1, k2⟩
      · exact absurd (hc p (by omega) i hi) k2
    have hmax : maxElem levels ∈ levels := Subgraph.maxElem_mem (by rintro rfl; simp at o2; omega)
    obtain ⟨q, hq⟩ := List.mem_iff_getElem?.mp hmax
    have hql : q < g.sizeVertex := by rw [← o2]; exact (List.getElem?_eq_some_iff.mp hq).1
    obtain ⟨m, m0, m1, m2⟩ := hlevel q hql
    rw [hq] at m2
    cases m2
    have hd : toDouble (maxElem levels / 2) = maxElem levels / 2 := if_pos (by omega)
    rw [hd] at e6 e7
    have hrange : ∀ v d, IsDist (Adj g) (· = p) v d → v < g.sizeVertex := by
      intro v d hd
      cases d with
      | zero => obtain ⟨⟨_, rfl, rfl⟩, -⟩ := hd; omega
      | succ d => obtain ⟨w, -, hw⟩ := hd.pred; exact (adj_lt h hw).2
    have hkeep : ∀ (f : Nat → Bool) v, v ∈ Subgraph.keepAt (fun i => f (levels.getD i 0)) s.l2g ↔
        ∃ d, IsDist (Adj g) (· = p) v d ∧ f d = false := by
      intro f v
      rw [Subgraph.mem_keepAt, h2]
      constructor
      · rintro ⟨i, f1, f2⟩
        obtain ⟨f3, rfl⟩ := List.getElem?_eq_some_iff.mp f2
        obtain ⟨k, -, k1, k2⟩ := hlevel i (by simpa using f3)
        refine ⟨k, by simpa using k1, ?_⟩
        simpa [List.getD_eq_getElem?_getD, k2] using f1
      · rintro ⟨d, d1, d2⟩
        obtain ⟨k, -, k1, k2⟩ := hlevel v (hrange v d d1)
        obtain rfl := d1.unique k1
        exact ⟨v, by simpa [List.getD_eq_getElem?_getD, k2] using d2, List.getElem?_range (hrange v d d1)⟩
    refine ⟨p, maxElem levels, l, r, e2, ⟨fun v hv => ?_, q, hql, m1⟩, rfl, fun v => ?_, fun v => ?_⟩
    · obtain ⟨k, -, k1, k2⟩ := hlevel v hv
      exact ⟨k, Subgraph.le_maxElem (List.mem_of_getElem? k2), k1⟩
    · rw [e6, hkeep (fun k => decide (maxElem levels / 2 < k))]
      simp
    · rw [e7, hkeep (fun k => !decide (maxElem levels / 2 < k))]
      simp

example : Connected (Adj star) star.sizeVertex ∧ bisection id star 2 =
    .ok [⟨⟨[1, 0], [0, 1, 2]⟩, [0, 2], [], 5⟩, ⟨⟨[], [0, 0, 0]⟩, [1, 3], [], 5⟩] := ⟨star_connected, by decide +kernel⟩

end Disa.Props
