import Verif.Props.GridColour
import Verif.Props.Layered
import Verif.Props.Tree

/-!
# Property C194: colours of a graph in levels
-/

namespace Disa.Props

open Disa Spec Graph

/-- C194: if the vertices have levels such that the neighbours with smaller numbers are one level below, and only vertices of level zero
have none, `greedy_multicolouring` orders by level, and as many groups as levels are needed. -/
theorem c194_levels (g : Graph) (h : Reachable false g) (hedge : ∃ u v, Adj g u v) (lev : Nat → Nat)
    (hlow : ∀ u v, u < v → Adj g v u → lev u + 1 = lev v)
    (hup : ∀ v, v < g.sizeVertex → lev v ≠ 0 → ∃ u, u < v ∧ Adj g v u) :
    ∃ p, g.greedyMulticolouring = .ok p ∧ p.Perm (List.range g.sizeVertex) ∧ OrdersBy g.sizeVertex lev p ∧
      ∀ k, Groups (Adj g) g.sizeVertex p k ↔ ∀ v, v < g.sizeVertex → lev v < k := by
  obtain ⟨p, col, hp, hperm, hne, hrule, hord⟩ := c21_greedy g h hedge
  have hE : ∀ u v, Adj g u v → u < g.sizeVertex ∧ v < g.sizeVertex := fun u v huv => by
    obtain ⟨L, hr, hgood⟩ := reach_rep h
    rw [hr.adj_eq] at huv
    rw [hr.sizeVertex]
    exact ⟨lt_of_mem_row huv, lt_of_mem_row (hgood.symm rfl u v huv)⟩
  have hcol : ∀ v, v < g.sizeVertex → col v = lev v + 1 := by
    refine c21_rule_determines _ (Adj g) col (fun v => lev v + 1) hrule fun v hv => ⟨fun h0 => ?_, fun ⟨u, hu, hau⟩ => ?_⟩ <;> dsimp only
    · by_contra hc
      obtain ⟨u, hu, hau⟩ := hup v hv fun e => hc (by rw [e])
      exact h0 u hu hau
    · have e := hlow u v hu hau
      refine ⟨⟨u, hu, hau, by omega⟩, fun w hw haw => by have := hlow w v hw haw; omega, ?_⟩
      rintro c ⟨w, hw, haw, hwc⟩ -
      have := hlow w v hw haw
      omega
  have hord' : OrdersBy g.sizeVertex lev p := by
    intro u v a b hu hv ha hb
    rw [hord u v a b hu hv ha hb, hcol u hu, hcol v hv]
    omega
  have hlen : p.length = g.sizeVertex := by rw [hperm.length_eq, List.length_range]
  have hget : ∀ v, v < g.sizeVertex → ∃ a, p[v]? = some a := fun v hv => ⟨_, List.getElem?_eq_getElem (by omega)⟩
  refine ⟨p, hp, hperm, hord', fun k => ⟨fun ⟨grp, g1, g2, g3⟩ => ?_, fun hk => ⟨lev, hk, ?_, ?_⟩⟩⟩
  · have key : ∀ v, v < g.sizeVertex → lev v ≤ grp v := by
      intro v
      induction v using Nat.strong_induction_on with
      | _ v ih =>
        intro hv
        by_cases h0 : lev v = 0
        · omega
        · obtain ⟨u, hu, hau⟩ := hup v hv h0
          have e := hlow u v hu hau
          have := ih u hu (by omega)
          obtain ⟨a, ha⟩ := hget u (by omega)
          obtain ⟨b, hb⟩ := hget v hv
          have hab := (hord' u v a b (by omega) hv ha hb).mpr (.inl (by omega))
          have := g2 u v a b ha hb hab.le
          have := g3 v u hau
          omega
    exact fun v hv => lt_of_le_of_lt (key v hv) (g1 v hv)
  · intro u v a b ha hb hab
    have hu : u < g.sizeVertex := by rw [← hlen]; exact (List.getElem?_eq_some_iff.mp ha).1
    have hv : v < g.sizeVertex := by rw [← hlen]; exact (List.getElem?_eq_some_iff.mp hb).1
    by_contra hc
    have := (hord' v u b a hv hu hb ha).mpr (.inl (by omega))
    omega
  · intro u v huv e
    have := hne u v huv
    rw [hcol u (hE u v huv).1, hcol v (hE u v huv).2] at this
    omega

/-- A permutation that is ordered like the numbers is the identity. -/
theorem orders_identity {n : Nat} {p : List Nat} (hp : p.Perm (List.range n))
    (h : ∀ u v a b, u < n → v < n → p[u]? = some a → p[v]? = some b → u < v → a < b) : p = List.range n := by
  have hlen : p.length = n := by rw [hp.length_eq, List.length_range]
  refine hp.eq_of_pairwise (le := (· < ·)) (fun a b _ _ h1 h2 => by omega) ?_ List.pairwise_lt_range
  rw [List.pairwise_iff_getElem]
  intro i j hi hj hij
  exact h i j _ _ (by omega) (by omega) (List.getElem?_eq_getElem hi) (List.getElem?_eq_getElem hj) hij

/-- The documented rule gives the parity of the levels. -/
theorem c194_documented (g : Graph) (lev : Nat → Nat) (hlow : ∀ u v, u < v → Adj g v u → lev u + 1 = lev v)
    (hup : ∀ v, v < g.sizeVertex → lev v ≠ 0 → ∃ u, u < v ∧ Adj g v u) (col : Nat → Nat)
    (hcol : ∀ v, v < g.sizeVertex → FirstFitRule (Adj g) col v) : ∀ v, v < g.sizeVertex → col v = lev v % 2 + 1 := by
  intro v
  induction v using Nat.strong_induction_on with
  | _ v ih =>
    intro hv
    obtain ⟨h1, h2, h3⟩ := hcol v hv
    by_cases h0 : lev v = 0
    · have : col v ≤ 1 := h3 1 (by omega) fun u hu ha => by have := hlow u v hu ha; omega
      omega
    · obtain ⟨u, hu, ha⟩ := hup v hv h0
      have e := hlow u v hu ha
      have eu := ih u hu (by omega)
      have h4 := h2 u hu ha
      have h5 : col v ≤ lev v % 2 + 1 := h3 _ (by omega) fun w hw haw => by
        have e2 := hlow w v hw haw
        rw [ih w hw (by omega)]
        omega
      omega

/-- The levels of a graph without odd cycles in the order of distance from a root. -/
theorem levels_of_distance {g g' : Graph} (h : Reachable false g) (side : Nat → Bool)
    (hs : ∀ u v, Adj g u v → side u ≠ side v) {root : Nat} (hc : Spans (Adj g) g.sizeVertex root) {p : List Nat}
    (hp : p.Perm (List.range g.sizeVertex)) (hg : g.reorder p = .ok (g', g))
    (hord : ∀ u v a b j k, p[u]? = some a → p[v]? = some b → a < b → IsDist (Adj g) (· = root) u j →
      IsDist (Adj g) (· = root) v k → j ≤ k) :
    ∃ lev : Nat → Nat, (∀ u a, p[u]? = some a → IsDist (Adj g) (· = root) u (lev a)) ∧
      (∀ i j, i < j → j < g.sizeVertex → lev i ≤ lev j) ∧ (∀ i j, i < j → Adj g' j i → lev i + 1 = lev j) ∧
      ∀ j, j < g.sizeVertex → lev j ≠ 0 → ∃ i, i < j ∧ Adj g' j i := by
  obtain ⟨g1, h5, hsz, -, h6⟩ := c08_reorder false g h p hp
  obtain ⟨g2, h7, hg2, -⟩ := reorder_spec h hp
  rw [hg, Out.ok.injEq, Prod.mk.injEq] at h5 h7
  obtain ⟨rfl, -⟩ := h5
  obtain ⟨rfl, -⟩ := h7
  have hlen : p.length = g.sizeVertex := by rw [hp.length_eq, List.length_range]
  have hold : ∀ i, i < g.sizeVertex → ∃ u, u < g.sizeVertex ∧ p[u]? = some i := by
    intro i hi
    obtain ⟨u, hu, e⟩ := List.getElem_of_mem (hp.mem_iff.mpr (List.mem_range.mpr hi))
    exact ⟨u, by omega, by rw [List.getElem?_eq_getElem hu, e]⟩
  choose! o ho1 ho2 using hold
  have hinj : ∀ u a, p[u]? = some a → a < g.sizeVertex ∧ o a = u := by
    intro u a hu
    have hul := (List.getElem?_eq_some_iff.mp hu)
    have ha : a < g.sizeVertex := by
      obtain ⟨h1, h2⟩ := hul
      exact List.mem_range.mp (hp.mem_iff.mp (h2 ▸ List.getElem_mem h1))
    refine ⟨ha, ?_⟩
    have h8 := ho2 a ha
    obtain ⟨k1, k2⟩ := List.getElem?_eq_some_iff.mp h8
    obtain ⟨k3, k4⟩ := hul
    exact (hp.nodup_iff.mpr List.nodup_range).getElem_inj_iff.mp (k2.trans k4.symm)
  have hdist : ∀ i, i < g.sizeVertex → ∃ k, IsDist (Adj g) (· = root) (o i) k := fun i hi =>
    reached_iff.mp (hc (o i) (ho1 i hi))
  choose! lev hlev using hdist
  have hpar : ∀ i, i < g.sizeVertex → (side root = side (o i) ↔ lev i % 2 = 0) := fun i hi => by
    obtain ⟨⟨s, rfl, hw⟩, -⟩ := hlev i hi
    exact walk_side hs hw
  obtain ⟨L, hr, hgood⟩ := Graph.reach_rep h
  have hsymm : ∀ u v, Adj g u v → Adj g v u := by
    rw [hr.adj_eq]
    exact fun u v => hgood.symm rfl u v
  have hmono : ∀ i j, i < j → j < g.sizeVertex → lev i ≤ lev j := fun i j hij hj =>
    hord _ _ _ _ _ _ (ho2 i (by omega)) (ho2 j hj) hij (hlev i (by omega)) (hlev j hj)
  have hadj : ∀ i j, i < g.sizeVertex → j < g.sizeVertex → (Adj g' i j ↔ Adj g (o i) (o j)) := by
    intro i j hi hj
    have := h6 (o i) (o j) (by have := ho1 i hi; omega) (by have := ho1 j hj; omega)
    have e1 := (List.getElem?_eq_some_iff.mp (ho2 i hi)).2
    have e2 := (List.getElem?_eq_some_iff.mp (ho2 j hj)).2
    rw [e1, e2] at this
    exact this
  refine ⟨lev, fun u a hu => ?_, hmono, fun i j hij ha => ?_, fun j hj h0 => ?_⟩
  · obtain ⟨h8, rfl⟩ := hinj u a hu
    exact hlev a h8
  · have hj : j < g.sizeVertex := by
      rw [← hsz]
      obtain ⟨L', hr', -⟩ := Graph.reach_rep hg2
      rw [hr'.adj_eq] at ha
      rw [hr'.sizeVertex]
      exact lt_of_mem_row ha
    have hi : i < g.sizeVertex := by omega
    have hA := (hadj j i hj hi).mp ha
    have h7 := (hlev j hj).le_succ hA (hlev i hi)
    have h8 := (hlev i hi).le_succ (hsymm _ _ hA) (hlev j hj)
    have h9 : lev i % 2 ≠ lev j % 2 := by
      intro e
      have h10 := hpar i hi
      have h11 := hpar j hj
      rw [e, ← h11] at h10
      have h12 := hs _ _ hA
      cases hr : side root <;> cases hi : side (o i) <;> cases hj : side (o j) <;> simp_all
    have := hmono i j hij hj
    omega
  · obtain ⟨k, hk⟩ := Nat.exists_eq_succ_of_ne_zero h0
    have hd := hlev j hj
    rw [hk] at hd
    obtain ⟨⟨s, rfl, w, hw, hwj⟩, hmin⟩ := hd
    have hwn : w < g.sizeVertex := by
      rw [hr.adj_eq] at hwj
      rw [hr.sizeVertex]
      exact lt_of_mem_row hwj
    obtain ⟨a, ha⟩ : ∃ a, p[w]? = some a := ⟨_, List.getElem?_eq_getElem (by omega)⟩
    obtain ⟨han, rfl⟩ := hinj w a ha
    have h7 : lev a ≤ k := by
      obtain ⟨k', hk', hd'⟩ := exists_isDist_le (S := (· = s)) rfl hw
      rw [(hlev a han).unique hd']
      exact hk'
    refine ⟨a, ?_, (hadj j a hj han).mpr (hsymm _ _ hwj)⟩
    by_contra hc
    rcases Nat.lt_or_ge j a with h8 | h8
    · have := hmono j a h8 han
      omega
    · obtain rfl : a = j := by omega
      omega

/-- C194: in the order of `breadth_first` or `cuthill_mckee` a graph without odd cycles is left by `greedy_multicolouring` as it is, and
as many groups are needed as there are distances from the root. -/
theorem c194_reordered (sort : List (Nat × Nat) → List (Nat × Nat)) (hsort : DegreeSort sort) (g g' : Graph)
    (h : Reachable false g) (h2 : 1 < g.sizeVertex) (side : Nat → Bool) (hs : ∀ u v, Adj g u v → side u ≠ side v) (root : Nat)
    (hroot : root < g.sizeVertex) (p : List Nat) (hp : g.breadthFirst root = .ok p ∨ g.cuthillMckee sort root = .ok p)
    (hg : g.reorder p = .ok (g', g)) :
    g'.greedyMulticolouring = .ok (List.range g.sizeVertex) ∧ g'.reorder (List.range g.sizeVertex) = .ok (g', g') ∧
      (∀ k, Groups (Adj g') g.sizeVertex (List.range g.sizeVertex) k ↔ ∀ v d, IsDist (Adj g) (· = root) v d → d < k) ∧
      ∀ col, (∀ v, v < g.sizeVertex → FirstFitRule (Adj g') col v) →
        ∀ u a d, p[u]? = some a → IsDist (Adj g) (· = root) u d → col a = d % 2 + 1 := by
  have hn := Graph.reach_small h
  have hc : Spans (Adj g) g.sizeVertex root := by
    by_contra hc
    rcases hp with hp | hp
    · rw [c17_disconnected_exits g h root (by omega) (.inr hc)] at hp
      simp at hp
    · rw [c19_disconnected_exits sort hsort g h root (by omega) (by omega) (.inr hc)] at hp
      simp at hp
  obtain ⟨hperm, lev, hl1, hl2, hl3, hl4⟩ : p.Perm (List.range g.sizeVertex) ∧ ∃ lev : Nat → Nat,
      (∀ u a, p[u]? = some a → IsDist (Adj g) (· = root) u (lev a)) ∧
      (∀ i j, i < j → j < g.sizeVertex → lev i ≤ lev j) ∧ (∀ i j, i < j → Adj g' j i → lev i + 1 = lev j) ∧
      ∀ j, j < g.sizeVertex → lev j ≠ 0 → ∃ i, i < j ∧ Adj g' j i := by
    rcases hp with hp | hp
    · obtain ⟨q, k1, k2, -⟩ := c17_breadth_first g h root hroot hc
      rw [hp] at k1
      cases k1
      exact ⟨k2, levels_of_distance h side hs hc k2 hg fun u v a b j k hu hv hab hj hk =>
        c18_level_order g h root hroot p hp u v a b j k hu hv hab hj hk⟩
    · obtain ⟨q, k1, k2, -⟩ := c19_cuthill_mckee sort hsort g h root hroot hc
      rw [hp] at k1
      cases k1
      exact ⟨k2, levels_of_distance h side hs hc k2 hg fun u v a b j k hu hv hab hj hk =>
        (c56_cuthill_mckee_rule sort hsort g h root hroot p hp u v a b hu hv hab).1 j k hj hk⟩
  obtain ⟨g1, k1, hsz, -, h6⟩ := c08_reorder false g h p hperm
  obtain ⟨g2, k2, hg2, -⟩ := reorder_spec h hperm
  rw [hg, Out.ok.injEq, Prod.mk.injEq] at k1 k2
  obtain ⟨rfl, -⟩ := k1
  obtain ⟨rfl, -⟩ := k2
  have hlen : p.length = g.sizeVertex := by rw [hperm.length_eq, List.length_range]
  have hedge : ∃ u v, Adj g' u v := by
    -- another vertex than the root has a neighbour
    obtain ⟨v, hv, hvr⟩ : ∃ v, v < g.sizeVertex ∧ v ≠ root := by
      by_cases h0 : root = 0
      · exact ⟨1, h2, by omega⟩
      · exact ⟨0, by omega, by omega⟩
    have hd := hl1 v _ (List.getElem?_eq_getElem (by omega : v < p.length))
    have hpv : p[v]'(by omega) < g.sizeVertex := List.mem_range.mp (hperm.mem_iff.mp (List.getElem_mem _))
    obtain ⟨i, -, hi⟩ := hl4 (p[v]'(by omega)) hpv fun e => by
      rw [e] at hd
      exact hvr ((isDist_zero (S := (· = root))).mp hd)
    exact ⟨_, _, hi⟩
  rw [← hsz] at hl2 hl4
  obtain ⟨q, m1, m2, m3, m4⟩ := c194_levels g' hg2 hedge lev hl3 hl4
  have hq : q = List.range g'.sizeVertex := orders_identity m2 fun u v a b hu hv ha hb huv => by
    have := hl2 u v huv hv
    rw [m3 u v a b hu hv ha hb]
    omega
  rw [hq, hsz] at m1
  rw [hq, hsz] at m4
  refine ⟨m1, ?_, fun k => ?_, fun col hcol u a d hu hd => ?_⟩
  · have := c104_identity false g' hg2
    rwa [hsz] at this
  · rw [m4]
    constructor
    · intro hk v d hd
      have hv : v < g.sizeVertex := by
        obtain ⟨L, hr, hgood⟩ := Graph.reach_rep h
        rcases d with _ | d
        · have : v = root := (isDist_zero (S := (· = root))).mp hd
          omega
        · obtain ⟨⟨s, -, w, -, hw⟩, -⟩ := hd
          rw [hr.adj_eq] at hw
          rw [hr.sizeVertex]
          exact hgood.range _ _ hw
      have hd2 := hl1 v _ (List.getElem?_eq_getElem (by omega : v < p.length))
      rw [hd.unique hd2]
      exact hk _ (List.mem_range.mp (hperm.mem_iff.mp (List.getElem_mem _)))
    · intro hk v hv
      obtain ⟨u, hu, e⟩ := List.getElem_of_mem (hperm.mem_iff.mpr (List.mem_range.mpr hv))
      exact hk u _ (hl1 u v (by rw [List.getElem?_eq_getElem hu, e]))
  · have hd2 := hl1 u a hu
    rw [hd.unique hd2]
    obtain ⟨k1, k2⟩ := List.getElem?_eq_some_iff.mp hu
    exact c194_documented g' lev hl3 hl4 col (by rw [hsz]; exact hcol) a
      (by rw [hsz]; exact List.mem_range.mp (hperm.mem_iff.mp (k2 ▸ List.getElem_mem k1)))

/-- C194: trees have two sides, so it holds for them from every root. -/
theorem c194_tree (g : Graph) (h : Reachable false g) (ht : Tree g) : ∃ side : Nat → Bool, ∀ u v, Adj g u v → side u ≠ side v := by
  obtain ⟨L, hr, hg⟩ := reach_rep h
  have hm := tree_metric hr hg ht
  have key : ∀ u v, Adj g u v → lvl L 0 u % 2 ≠ lvl L 0 v % 2 := by
    intro u v huv
    rw [hr.adj_eq] at huv
    have hu : u < L.length := lt_of_mem_row huv
    have hv : v < L.length := hg.range _ _ huv
    have huv' := hg.symm rfl _ _ huv
    have hne : u ≠ v := fun e => hg.loopless v (e ▸ huv)
    rcases Nat.eq_zero_or_pos u with rfl | h0
    · obtain ⟨c, -, -, h3, h4⟩ := hm.next v 0 hv hu (Ne.symm hne)
      rw [hm.symm c, hm.symm v] at h3
      by_cases hc : 0 = c
      · subst hc; omega
      · have := h4 0 huv' hc
        rw [hm.symm v 0] at this
        omega
    · obtain ⟨c, -, -, h3, h4⟩ := hm.next u 0 hu (by omega) (by omega)
      rw [hm.symm c, hm.symm u] at h3
      by_cases hc : v = c
      · subst hc; omega
      · have := h4 v huv hc
        rw [hm.symm v, hm.symm u] at this
        omega
  refine ⟨fun v => decide (lvl L 0 v % 2 = 0), fun u v huv e => key u v huv ?_⟩
  have : lvl L 0 u % 2 = 0 ↔ lvl L 0 v % 2 = 0 := by simpa using e
  omega

/-- The vertex with three branches from the end of the longest: distances up to four, so five groups. -/
example : branches.breadthFirst 5 = .ok [4, 5, 2, 3, 1, 0] ∧
    branches.reorder [4, 5, 2, 3, 1, 0] = .ok (⟨[1, 0, 2, 1, 3, 2, 4, 5, 3, 3], [0, 1, 3, 5, 8, 9, 10]⟩, branches) ∧
    (⟨[1, 0, 2, 1, 3, 2, 4, 5, 3, 3], [0, 1, 3, 5, 8, 9, 10]⟩ : Graph).greedyMulticolouring = .ok [0, 1, 2, 3, 4, 5] := by
  refine ⟨by decide +kernel, by decide +kernel, by decide +kernel⟩

/-- The hypotheses hold for it. -/
example : Reachable false branches ∧ 1 < branches.sizeVertex ∧ (∃ side : Nat → Bool, ∀ u v, Adj branches u v → side u ≠ side v) ∧
    5 < branches.sizeVertex ∧ DegreeSort (List.insertionSort fun a b => a.2 ≤ b.2) :=
  ⟨branches_reachable, by decide, c194_tree branches branches_reachable branches_tree, by decide, insertionSort_degreeSort⟩

/-- The hypotheses of `c194_levels` hold for the path in its numbering. -/
example : ∃ g, Reachable false g ∧ (∃ u v, Adj g u v) ∧ (∀ u v, u < v → Adj g v u → u + 1 = v) ∧
    ∀ v, v < g.sizeVertex → v ≠ 0 → ∃ u, u < v ∧ Adj g v u := by
  obtain ⟨g, -, h2, h3, h4⟩ := c27_line false 5 (by decide) (by decide)
  refine ⟨g, h2, ⟨0, 1, (h4 0 1).mpr (by decide)⟩, fun u v huv ha => ?_, fun v hv h0 => ⟨v - 1, by omega, (h4 v (v - 1)).mpr ⟨by omega, by omega, .inr ⟨rfl, by omega⟩⟩⟩⟩
  have := (h4 v u).mp ha
  omega

end Disa.Props
