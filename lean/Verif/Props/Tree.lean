import Verif.Props.GraphUtil
import Mathlib.Data.Finset.Max

/-!
# C176: the pseudo peripheral vertex of a tree

A tree is a connected graph with one edge less than it has vertices.  There the farthest vertex from any vertex is an end of
a longest path, so that `pseudo_peripheral_vertex`, which in general only promises a vertex of large eccentricity, finds a
vertex of the largest eccentricity.
-/

namespace Disa.Props

open Disa Spec Graph

/-- The graph is a tree: every vertex can be reached from every other, and there is one edge less than vertices. -/
def Tree (g : Graph) : Prop := Connected (Adj g) g.sizeVertex ∧ g.sizeEdge false + 1 = g.sizeVertex

/-! ### Four points of a tree -/

/-- Distances in which a vertex has exactly one neighbour that is closer to any other, and all the rest are farther. -/
structure TreeMetric (n : Nat) (E : Nat → Nat → Prop) (D : Nat → Nat → Nat) : Prop where
  self : ∀ a, a < n → D a a = 0
  symm : ∀ a b, D a b = D b a
  tri : ∀ a b c, a < n → b < n → c < n → D a c ≤ D a b + D b c
  edge : ∀ a b, E a b → E b a
  next : ∀ a b, a < n → b < n → a ≠ b → ∃ c, c < n ∧ E a c ∧ D c b + 1 = D a b ∧ ∀ c', E a c' → c' ≠ c → D c' b = D a b + 1

variable {n : Nat} {E : Nat → Nat → Prop} {D : Nat → Nat → Nat}

/-- A vertex with different next vertices on the way to `u` and to `v` is between them. -/
theorem TreeMetric.between (h : TreeMetric n E D) {u : Nat} (hu : u < n) : ∀ (k : Nat) {v x c : Nat}, v < n → x < n →
    D x v = k → E x c → D c v + 1 = D x v → D c u = D x u + 1 → D u v = D u x + D x v := by
  intro k
  induction k with
  | zero => intro v x c _ _ hk _ hc _; omega
  | succ k ih =>
    intro v x c hv hx hk he hc hxu
    have hcn : c < n := by
      have hvx : x ≠ v := by rintro rfl; rw [h.self _ hx] at hk; omega
      obtain ⟨z, hzn, hz, hz1, hz2⟩ := h.next x v hx hv hvx
      have : z = c := by
        by_contra hne
        have := hz2 c he (Ne.symm hne)
        omega
      subst this; exact hzn
    by_cases hcv : c = v
    · subst hcv
      rw [h.self _ hv] at hc
      rw [h.symm u c, hxu, h.symm u x]
      omega
    · obtain ⟨z, hzn, hz, hz1, hz2⟩ := h.next c v hcn hv hcv
      have hzx : z ≠ x := by rintro rfl; omega
      have hcu : c ≠ u := by rintro rfl; rw [h.self _ hu] at hxu; omega
      obtain ⟨w, hwn, hw, hw1, hw2⟩ := h.next c u hcn hu hcu
      have hwx : w = x := by
        by_contra hne
        have := hw2 x (h.edge _ _ he) (Ne.symm hne)
        omega
      subst hwx
      have := ih hv hcn (by omega) hz hz1 (hw2 z hz hzx)
      rw [this, h.symm u c, h.symm u w]
      omega

/-- Of the three ways to pair four vertices of a tree, no one has a larger sum of distances than both of the others. -/
theorem TreeMetric.four (h : TreeMetric n E D) {u v y : Nat} (hu : u < n) (hv : v < n) (hy : y < n) : ∀ (k : Nat) {x : Nat},
    x < n → D x u = k → D x y + D u v ≤ D x u + D v y ∨ D x y + D u v ≤ D x v + D u y := by
  intro k
  induction k with
  | zero =>
    intro x hx hk
    have hxu : x = u := by
      by_contra hne
      obtain ⟨c, _, _, hc, _⟩ := h.next x u hx hu hne
      omega
    subst hxu
    right; omega
  | succ k ih =>
    intro x hx hk
    have hxu : x ≠ u := by rintro rfl; rw [h.self _ hx] at hk; omega
    by_cases hxv : x = v
    · subst hxv
      left
      rw [h.symm u x]; omega
    by_cases hxy : x = y
    · subst hxy
      left
      have := h.tri u x v hu hx hv
      rw [h.self _ hx, h.symm x u, h.symm v x]; omega
    obtain ⟨a, han, ha, ha1, ha2⟩ := h.next x u hx hu hxu
    obtain ⟨b, hbn, hb, hb1, hb2⟩ := h.next x v hx hv hxv
    obtain ⟨c, hcn, hc, hc1, hc2⟩ := h.next x y hx hy hxy
    by_cases hab : a = b
    · by_cases hac : a = c
      · subst hab; subst hac
        rcases ih han (by omega) with h' | h'
        · left; omega
        · right; omega
      · have e1 := h.between hu _ hy hx rfl hc hc1 (ha2 c hc (Ne.symm hac))
        have := h.tri u x v hu hx hv
        right
        rw [h.symm u x] at e1 this
        omega
    · have e1 := h.between hu _ hv hx rfl hb hb1 (ha2 b hb (Ne.symm hab))
      rw [h.symm u x] at e1
      by_cases hac : a = c
      · have hbc : b ≠ c := fun e => hab (hac.trans e.symm)
        have e2 := h.between hv _ hy hx rfl hc hc1 (hb2 c hc (Ne.symm hbc))
        rw [h.symm v x] at e2
        left; omega
      · have e2 := h.between hu _ hy hx rfl hc hc1 (ha2 c hc (Ne.symm hac))
        rw [h.symm u x] at e2
        right; omega

/-- A vertex that is farthest from some vertex has the largest eccentricity. -/
theorem TreeMetric.farthest (h : TreeMetric n E D) {q p e : Nat} (hq : q < n) (hp : p < n) (hf : ∀ v, v < n → D q v ≤ D q p)
    (he : ∀ v, v < n → D p v ≤ e) {x y : Nat} (hx : x < n) (hy : y < n) : D x y ≤ e := by
  have h1 := hf x hx
  have h2 := hf y hy
  have h3 := he x hx
  have h4 := he y hy
  rcases h.four hq hp hy (D x q) hx rfl with h5 | h5
  · rw [h.symm x q] at h5; omega
  · rw [h.symm x p] at h5; omega

/-! ### The distances of a tree -/

theorem tree_metric {g : Graph} {L : List (List Nat)} (hr : g.Rep L) (hg : Good false L) (ht : Tree g) :
    TreeMetric L.length (rowRel L) (lvl L) := by
  obtain ⟨hc, hcard⟩ := ht
  rw [hr.adj_eq, hr.sizeVertex] at hc
  rw [hr.sizeVertex, hr.sizeEdge hg] at hcard
  simp only [Bool.false_eq_true, if_false] at hcard
  have hd : ∀ a b, a < L.length → b < L.length → IsDist (rowRel L) (· = a) b (lvl L a b) := by
    intro a b ha hb
    obtain ⟨k, hk⟩ := reached_iff.mp (hc a ha b hb)
    rw [lvl_of_dist hk]; exact hk
  have hsym := lvl_symm (L := L) (hg.symm rfl)
  have hself : ∀ a, lvl L a a = 0 := fun a => lvl_of_dist (isDist_zero.mpr rfl)
  refine ⟨fun a _ => hself a, hsym, ?_, fun a b hab => hg.symm rfl a b hab, ?_⟩
  · intro a b c ha hb hc'
    obtain ⟨⟨s, rfl, hw⟩, -⟩ := hd a b ha hb
    obtain ⟨⟨t, rfl, hw'⟩, -⟩ := hd b c hb hc'
    obtain ⟨k, hk, hk'⟩ := exists_isDist_le (S := (· = s)) rfl (hw.append hw')
    rw [lvl_of_dist hk']; exact hk
  · intro a b ha hb hab
    -- the parents of the vertices other than `b`
    have hpar : ∀ x, x < L.length → x ≠ b → ∃ c, rowRel L x c ∧ lvl L b c + 1 = lvl L b x := by
      intro x hx hxb
      have := hd b x hb hx
      rcases hl : lvl L b x with _ | k
      · rw [hl] at this
        exact absurd (isDist_zero.mp this) hxb
      · rw [hl] at this
        obtain ⟨c, hc1, hc2⟩ := this.pred
        exact ⟨c, hg.symm rfl _ _ hc2, by rw [lvl_of_dist hc1]⟩
    choose! par hp1 hp2 using hpar
    let f : Nat → Nat × Nat := fun x => (min x (par x), max x (par x))
    have hinj : Set.InjOn f ((Finset.range L.length).erase b) := by
      intro x hx y hy hxy
      simp only [Finset.coe_erase, Finset.coe_range, Set.mem_diff, Set.mem_Iio, Set.mem_singleton_iff] at hx hy
      have h1 := hp2 x hx.1 hx.2
      have h2 := hp2 y hy.1 hy.2
      simp only [f, Prod.mk.injEq] at hxy
      by_contra hne
      have : x = par y ∧ y = par x := by omega
      rw [← this.1] at h2
      rw [← this.2] at h1
      omega
    have hmaps : ((Finset.range L.length).erase b).image f ⊆ upPairs L := by
      intro p hp
      simp only [Finset.mem_image, Finset.mem_erase, Finset.mem_range] at hp
      obtain ⟨x, ⟨hxb, hx⟩, rfl⟩ := hp
      rw [mem_upPairs hg]
      have h1 := hp1 x hx hxb
      have hne : x ≠ par x := by intro e; rw [← e] at h1; exact hg.loopless _ h1
      simp only [f]
      rcases Nat.lt_or_gt_of_ne hne with hlt | hlt
      · rw [min_eq_left hlt.le, max_eq_right hlt.le]; exact ⟨h1, hlt⟩
      · rw [min_eq_right hlt.le, max_eq_left hlt.le]; exact ⟨hg.symm rfl _ _ h1, hlt⟩
    have himg : ((Finset.range L.length).erase b).image f = upPairs L := by
      apply Finset.eq_of_subset_of_card_le hmaps
      rw [Finset.card_image_of_injOn hinj, Finset.card_erase_of_mem (by simpa using hb), Finset.card_range]
      omega
    refine ⟨par a, hg.range a _ (hp1 a ha hab), hp1 a ha hab, ?_, ?_⟩
    · rw [hsym, hsym a b]; exact hp2 a ha hab
    · intro c hac hne
      have hcn := hg.range a c hac
      have hac' : a ≠ c := by rintro rfl; exact hg.loopless _ hac
      have hmem : (min a c, max a c) ∈ upPairs L := by
        rw [mem_upPairs hg]
        rcases Nat.lt_or_gt_of_ne hac' with hlt | hlt
        · rw [min_eq_left hlt.le, max_eq_right hlt.le]; exact ⟨hac, hlt⟩
        · rw [min_eq_right hlt.le, max_eq_left hlt.le]; exact ⟨hg.symm rfl _ _ hac, hlt⟩
      rw [← himg] at hmem
      simp only [Finset.mem_image, Finset.mem_erase, Finset.mem_range] at hmem
      obtain ⟨x, ⟨hxb, hx⟩, hfx⟩ := hmem
      simp only [f, Prod.mk.injEq] at hfx
      have h2 := hp2 x hx hxb
      have : (x = a ∧ par x = c) ∨ (x = c ∧ par x = a) := by omega
      rcases this with ⟨rfl, e⟩ | ⟨rfl, e⟩
      · exact absurd e.symm hne
      · rw [e] at h2
        rw [hsym, hsym a b]; omega

/-! ### C176 -/

/-- C176: in a tree a vertex that is farthest from some vertex has the largest eccentricity, the length of a longest
shortest path. -/
theorem c176_farthest (g : Graph) (h : Reachable false g) (ht : Tree g) (q p a e : Nat) (hq : q < g.sizeVertex)
    (ha : IsEcc (Adj g) g.sizeVertex q a) (hp : p < g.sizeVertex) (hd : IsDist (Adj g) (· = q) p a)
    (he : IsEcc (Adj g) g.sizeVertex p e) :
    ∀ u v k, u < g.sizeVertex → v < g.sizeVertex → IsDist (Adj g) (· = u) v k → k ≤ e := by
  obtain ⟨L, hr, hg⟩ := reach_rep h
  have hm := tree_metric hr hg ht
  rw [hr.sizeVertex] at *
  rw [hr.adj_eq] at *
  intro u v k hu hv hk
  rw [← lvl_of_dist hk]
  refine hm.farthest hq hp (fun w hw => ?_) (fun w hw => ?_) hu hv
  · obtain ⟨j, hj, hj'⟩ := ha.1 w hw
    rw [lvl_of_dist hj', lvl_of_dist hd]; exact hj
  · obtain ⟨j, hj, hj'⟩ := he.1 w hw
    rw [lvl_of_dist hj']; exact hj

/-- C176: `pseudo_peripheral_vertex` of a tree, from any start vertex, returns a vertex of the largest eccentricity. -/
theorem c176_peripheral (g : Graph) (h : Reachable false g) (ht : Tree g) (start : Nat) (hs : start < g.sizeVertex) :
    ∃ p e, g.pseudoPeripheral start = .ok p ∧ p < g.sizeVertex ∧ IsEcc (Adj g) g.sizeVertex p e ∧
      ∀ u v k, u < g.sizeVertex → v < g.sizeVertex → IsDist (Adj g) (· = u) v k → k ≤ e := by
  obtain ⟨p, a, b, h1, h2, -, h4, -, -⟩ := c14_pseudo_peripheral g h start hs (ht.1 start hs)
  refine ⟨p, b, h1, h2, h4, ?_⟩
  have hn := reach_small h
  obtain ⟨L, hr, hg⟩ := reach_rep h
  have hm := tree_metric hr hg ht
  rw [hr.sizeVertex] at *
  rw [hr.adj_eq] at *
  obtain ⟨p', k1, k2, k3, k4⟩ := pseudoPeripheral_ok hr hg hn hs
  rw [h1] at k1
  have := Out.ok.inj k1
  subst this
  have hb : ∀ w, w < L.length → lvl L p w ≤ b := by
    intro w hw
    obtain ⟨j, hj, hj'⟩ := h4.1 w hw
    rw [lvl_of_dist hj']; exact hj
  intro u v k hu hv hk
  rw [← lvl_of_dist hk]
  by_cases h0 : (row L start).length = 0
  · -- without neighbours there is no other vertex
    have hall : ∀ w, w < L.length → w = start := by
      intro w hw
      by_contra hne
      obtain ⟨c, _, hc, _⟩ := hm.next start w hs hw (Ne.symm hne)
      have : row L start = [] := List.length_eq_zero_iff.mp h0
      unfold rowRel at hc
      rw [this] at hc
      simp at hc
    rw [hall u hu, hall v hv, hm.self _ hs]
    exact Nat.zero_le _
  · obtain ⟨md, m1, m2, ⟨q, hq, hqm, hall⟩, -⟩ := k4 h0
    refine hm.farthest hq h2 (fun w hw => ?_) hb hu hv
    rw [hm.symm q p, hqm]
    exact hall w hw

/-! ### Examples -/

/-- The distances of a vertex as `level_traversal` returns them. -/
theorem dist_of_levels {g : Graph} (h : Reachable false g) (hn : 1 < g.sizeVertex) {u : Nat} (hu : u < g.sizeVertex)
    {out : List Nat} (ho : g.levelTraversal u sizeMax = .ok out) {v k : Nat} (hk : out[v]? = some k) (hm : k ≠ sizeMax) :
    IsDist (Adj g) (· = u) v k := by
  obtain ⟨out', h1, h2, h3⟩ := c12_level_traversal false g h hn u sizeMax hu (Nat.le_refl _)
  rw [ho] at h1
  have := Out.ok.inj h1
  subst this
  have hv : v < g.sizeVertex := by
    rw [← h2]
    exact (List.getElem?_eq_some_iff.mp hk).1
  rcases h3 v hv with ⟨j, -, hj, e⟩ | ⟨e, -⟩
  · rw [hk] at e
    have := Option.some.inj e
    subst this; exact hj
  · rw [hk] at e
    exact absurd (Option.some.inj e) hm

theorem spans_of_levels {g : Graph} (h : Reachable false g) (hn : 1 < g.sizeVertex) {u : Nat} (hu : u < g.sizeVertex)
    {out : List Nat} (ho : g.levelTraversal u sizeMax = .ok out) (hl : out.length = g.sizeVertex)
    (hm : ∀ k ∈ out, k ≠ sizeMax) : Spans (Adj g) g.sizeVertex u := by
  intro v hv
  have hv' : v < out.length := by omega
  exact reached_iff.mpr ⟨_, dist_of_levels h hn hu ho (List.getElem?_eq_getElem hv') (hm _ (List.getElem_mem hv'))⟩

/-- A vertex with three branches of lengths one, one and three. -/
def branches : Graph := ⟨[3, 3, 3, 4, 0, 1, 2, 2, 5, 4], [0, 1, 2, 4, 7, 9, 10]⟩

theorem branches_reachable : Reachable false branches :=
  ⟨[.insert (3, 0), .insert (3, 1), .insert (2, 3), .insert (2, 4), .insert (5, 4)], by
    simp only [List.mem_cons, List.not_mem_nil, or_false]
    rintro op (rfl | rfl | rfl | rfl | rfl) <;> simp [Op.Valid, sizeMax], by decide +kernel⟩

theorem branches_tree : Tree branches := by
  refine ⟨fun u hu => ?_, by decide⟩
  have hu' : u < 6 := hu
  rcases (by omega : u = 0 ∨ u = 1 ∨ u = 2 ∨ u = 3 ∨ u = 4 ∨ u = 5) with rfl | rfl | rfl | rfl | rfl | rfl
  · exact spans_of_levels branches_reachable (by decide) hu (out := [0, 2, 2, 1, 3, 4]) (by decide +kernel) rfl (by decide)
  · exact spans_of_levels branches_reachable (by decide) hu (out := [2, 0, 2, 1, 3, 4]) (by decide +kernel) rfl (by decide)
  · exact spans_of_levels branches_reachable (by decide) hu (out := [2, 2, 0, 1, 1, 2]) (by decide +kernel) rfl (by decide)
  · exact spans_of_levels branches_reachable (by decide) hu (out := [1, 1, 1, 0, 2, 3]) (by decide +kernel) rfl (by decide)
  · exact spans_of_levels branches_reachable (by decide) hu (out := [3, 3, 1, 2, 0, 1]) (by decide +kernel) rfl (by decide)
  · exact spans_of_levels branches_reachable (by decide) hu (out := [4, 4, 2, 3, 1, 0]) (by decide +kernel) rfl (by decide)

example : branches.pseudoPeripheral 2 = .ok 5 := by decide +kernel

/-- A triangle and a square with a vertex in common. -/
def loops : Graph := ⟨[4, 5, 4, 5, 3, 5, 2, 5, 0, 1, 0, 1, 2, 3], [0, 2, 4, 6, 8, 10, 14]⟩

theorem loops_reachable : Reachable false loops :=
  ⟨[.insert (0, 4), .insert (0, 5), .insert (1, 4), .insert (1, 5), .insert (2, 3), .insert (2, 5), .insert (3, 5)], by
    simp only [List.mem_cons, List.not_mem_nil, or_false]
    rintro op (rfl | rfl | rfl | rfl | rfl | rfl | rfl) <;> simp [Op.Valid, sizeMax], by decide +kernel⟩

/-- C176: in a connected graph that is not a tree the vertex found may have a smaller eccentricity than others: 2 where there
are vertices at distance 3. -/
theorem c176_cycles : ∃ g start p, Reachable false g ∧ Connected (Adj g) g.sizeVertex ∧ start < g.sizeVertex ∧
    g.pseudoPeripheral start = .ok p ∧ IsEcc (Adj g) g.sizeVertex p 2 ∧
    ∃ u v, u < g.sizeVertex ∧ v < g.sizeVertex ∧ IsDist (Adj g) (· = u) v 3 := by
  have hspan : Spans (Adj loops) loops.sizeVertex 1 :=
    spans_of_levels loops_reachable (by decide) (by decide) (out := [2, 0, 2, 2, 1, 1]) (by decide +kernel) rfl (by decide)
  obtain ⟨L, hr, hg⟩ := reach_rep loops_reachable
  have hsymm : ∀ a b, Adj loops a b → Adj loops b a := by
    rw [hr.adj_eq]; exact fun a b => hg.symm rfl a b
  refine ⟨loops, 0, 1, loops_reachable, ?_, by decide, by decide +kernel, ⟨?_, 0, by decide, ?_⟩, 2, 4, by decide, by decide, ?_⟩
  · intro u hu v hv
    obtain ⟨n, s, rfl, hw⟩ := hspan u hu
    obtain ⟨m, s, rfl, hw'⟩ := hspan v hv
    exact ⟨n + m, u, rfl, (hw.symm hsymm).append hw'⟩
  · intro v hv
    have hv' : v < 6 := hv
    have key := fun k hk hm => dist_of_levels loops_reachable (by decide) (u := 1) (by decide) (out := [2, 0, 2, 2, 1, 1])
      (by decide +kernel) (v := v) (k := k) hk hm
    rcases (by omega : v = 0 ∨ v = 1 ∨ v = 2 ∨ v = 3 ∨ v = 4 ∨ v = 5) with rfl | rfl | rfl | rfl | rfl | rfl
    · exact ⟨2, by omega, key 2 rfl (by decide)⟩
    · exact ⟨0, by omega, key 0 rfl (by decide)⟩
    · exact ⟨2, by omega, key 2 rfl (by decide)⟩
    · exact ⟨2, by omega, key 2 rfl (by decide)⟩
    · exact ⟨1, by omega, key 1 rfl (by decide)⟩
    · exact ⟨1, by omega, key 1 rfl (by decide)⟩
  · exact dist_of_levels loops_reachable (by decide) (by decide) (out := [2, 0, 2, 2, 1, 1]) (by decide +kernel) rfl (by decide)
  · exact dist_of_levels loops_reachable (by decide) (by decide) (out := [2, 2, 0, 1, 3, 1]) (by decide +kernel) rfl (by decide)

end Disa.Props
