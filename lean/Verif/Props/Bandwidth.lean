import Verif.Props.Order
import Verif.Props.Generator
import Mathlib.Data.Set.Card

/-!
# Properties C93 to C95: what the orderings are good for
-/

namespace Disa.Props

open Disa Spec Graph

/-! ### C93 -/

/-- The walk to a vertex extends to its neighbours, so distances of neighbours differ by at most one. -/
theorem dist_step {E : Nat → Nat → Prop} {S : Nat → Prop} {u v j k : Nat} (he : E u v) (hu : IsDist E S u j)
    (hv : IsDist E S v k) : k ≤ j + 1 := by
  obtain ⟨⟨s, hs, hw⟩, _⟩ := hu
  by_contra hc
  exact hv.2 (j + 1) (by omega) s hs ⟨u, hw, he⟩

theorem dist_unique {E : Nat → Nat → Prop} {S : Nat → Prop} {v j k : Nat} (hj : IsDist E S v j) (hk : IsDist E S v k) :
    j = k := by
  obtain ⟨⟨s, hs, hw⟩, h1⟩ := hj
  obtain ⟨⟨t, ht, hx⟩, h2⟩ := hk
  rcases Nat.lt_trichotomy j k with h | h | h
  · exact absurd hw (h2 j h s hs)
  · exact h
  · exact absurd hx (h1 k h t ht)

/-- Permutations that number by increasing distance keep neighbours within two consecutive levels. -/
theorem level_bandwidth {E : Nat → Nat → Prop} {n root : Nat} {p : List Nat} (hp : p.Perm (List.range n))
    (hc : Spans E n root)
    (hlev : ∀ u v a b j k : Nat, p[u]? = some a → p[v]? = some b → a < b → IsDist E (· = root) u j → IsDist E (· = root) v k → j ≤ k)
    {u v a b j : Nat} (he : E u v) (hu : p[u]? = some a) (hv : p[v]? = some b) (hab : a < b)
    (hj : IsDist E (· = root) u j) : b - a < levelSize E n root j + levelSize E n root (j + 1) := by
  have hlen : p.length = n := by simpa using hp.length_eq
  have hlt : ∀ w c : Nat, p[w]? = some c → w < n := fun w c h => by
    have := (List.getElem?_eq_some_iff.mp h).1; omega
  have hd : ∀ w, w < n → ∃ k, IsDist E (· = root) w k := fun w hw => reached_iff.mp (hc w hw)
  obtain ⟨k, hk⟩ := hd v (hlt v b hv)
  have hkj := dist_step he hj hk
  have hjk := hlev u v a b j k hu hv hab hj hk
  -- the vertex numbered `c`
  have hinv : ∀ c, c < n → ∃ w : Nat, p[w]? = some c := fun c hcn =>
    List.mem_iff_getElem?.mp (hp.mem_iff.mpr (List.mem_range.mpr hcn))
  have hbn : b < n := List.mem_range.mp (hp.mem_iff.mp (List.mem_of_getElem? hv))
  choose! inv hinv using hinv
  let A : Set Nat := {w | w < n ∧ IsDist E (· = root) w j}
  let B : Set Nat := {w | w < n ∧ IsDist E (· = root) w (j + 1)}
  have hfin : (A ∪ B).Finite := (Set.finite_lt_nat n).subset (by
    rintro w (hw | hw) <;> exact hw.1)
  have hsub : inv '' Set.Icc a b ⊆ A ∪ B := by
    rintro _ ⟨c, ⟨h1, h2⟩, rfl⟩
    have hcn : c < n := by omega
    have hic := hinv c hcn
    have hwn := hlt _ _ hic
    obtain ⟨l, hl⟩ := hd _ hwn
    have e1 : j ≤ l := by
      rcases Nat.eq_or_lt_of_le h1 with rfl | h1
      · have hnd : p.Nodup := hp.symm.nodup List.nodup_range
        obtain ⟨x1, x2⟩ := List.getElem?_eq_some_iff.mp hu
        obtain ⟨y1, y2⟩ := List.getElem?_eq_some_iff.mp hic
        have : u = inv a := (List.Nodup.getElem_inj_iff hnd).mp (x2.trans y2.symm)
        rw [← this] at hl
        exact (dist_unique hj hl).le
      · exact hlev u _ a c j l hu hic h1 hj hl
    have e2 : l ≤ k := by
      rcases Nat.eq_or_lt_of_le h2 with rfl | h2
      · have hnd : p.Nodup := hp.symm.nodup List.nodup_range
        obtain ⟨x1, x2⟩ := List.getElem?_eq_some_iff.mp hv
        obtain ⟨y1, y2⟩ := List.getElem?_eq_some_iff.mp hic
        have : v = inv c := (List.Nodup.getElem_inj_iff hnd).mp (x2.trans y2.symm)
        rw [← this] at hl
        exact (dist_unique hl hk).le
      · exact hlev _ v c b l k hic hv h2 hl hk
    rcases (by omega : l = j ∨ l = j + 1) with rfl | rfl
    · exact .inl ⟨hwn, hl⟩
    · exact .inr ⟨hwn, hl⟩
  have hinj : Set.InjOn inv (Set.Icc a b) := by
    intro c hc1 c' hc2 hcc
    have e1 := hinv c (by have := hc1.2; omega)
    have e2 := hinv c' (by have := hc2.2; omega)
    rw [hcc, e2] at e1
    exact (Option.some.inj e1).symm
  have h1 : (inv '' Set.Icc a b).ncard = b + 1 - a := by
    rw [Set.ncard_image_of_injOn hinj, ← Finset.coe_Icc, Set.ncard_coe_finset, Nat.card_Icc]
  have h2 := Set.ncard_le_ncard hsub hfin
  have h3 := Set.ncard_union_le A B
  have : levelSize E n root j = A.ncard := rfl
  have : levelSize E n root (j + 1) = B.ncard := rfl
  omega

/-- Reordering by `p` succeeds, and the new indices of neighbours differ by less than the sizes of two consecutive levels
of the breadth first search from `root` together. -/
def Narrow (g : Graph) (root : Nat) (p : List Nat) : Prop :=
  ∃ g', g.reorder p = .ok (g', g) ∧ ∀ a b, Adj g' a b → a < b →
    ∃ k, b - a < levelSize (Adj g) g.sizeVertex root k + levelSize (Adj g) g.sizeVertex root (k + 1)

theorem narrow_of {g : Graph} (h : Reachable false g) {root : Nat} {p : List Nat} (hp : p.Perm (List.range g.sizeVertex))
    (hb : ∀ u v a b : Nat, Adj g u v → p[u]? = some a → p[v]? = some b → a < b →
      ∃ k, b - a < levelSize (Adj g) g.sizeVertex root k + levelSize (Adj g) g.sizeVertex root (k + 1)) :
    Narrow g root p := by
  obtain ⟨g', h1, h2, _, h4⟩ := c08_reorder false g h p hp
  refine ⟨g', h1, ?_⟩
  intro a b hab hlt
  have hr' : Reachable false g' := by
    obtain ⟨ops, hv, hr⟩ := h
    refine ⟨ops ++ [.reorder p], ?_, ?_⟩
    · intro op hop
      rcases List.mem_append.mp hop with hop | hop
      · exact hv op hop
      · rw [List.mem_singleton] at hop
        subst hop
        show p.Perm (List.range p.length)
        rw [hp.length_eq, List.length_range]
        exact hp
    · rw [run_append, hr]
      simp [run, step, h1]
  have hin : ∀ c d, Adj g' c d → c < g'.sizeVertex ∧ d < g'.sizeVertex := by
    intro c d hcd
    obtain ⟨L, hr, hg⟩ := reach_rep hr'
    rw [hr.adj_iff] at hcd
    rw [hr.sizeVertex]
    exact ⟨lt_of_mem_row hcd, hg.range c d hcd⟩
  obtain ⟨ha, hb'⟩ := hin a b hab
  rw [h2] at ha hb'
  obtain ⟨u, hu⟩ := List.mem_iff_getElem?.mp (hp.mem_iff.mpr (List.mem_range.mpr ha))
  obtain ⟨v, hv⟩ := List.mem_iff_getElem?.mp (hp.mem_iff.mpr (List.mem_range.mpr hb'))
  obtain ⟨hul, hu'⟩ := List.getElem?_eq_some_iff.mp hu
  obtain ⟨hvl, hv'⟩ := List.getElem?_eq_some_iff.mp hv
  have := h4 u v hul hvl
  rw [hu', hv'] at this
  exact hb u v a b (this.mp hab) hu hv hlt

/-- C93: `breadth_first` keeps neighbours within two consecutive levels. -/
theorem c93_breadth_first (g : Graph) (h : Reachable false g) (root : Nat)
    (hroot : root < g.sizeVertex) (p : List Nat) (hp : g.breadthFirst root = .ok p) : Narrow g root p := by
  have hn := reach_small h
  have hc : Spans (Adj g) g.sizeVertex root := by
    by_contra hc
    rw [c17_disconnected_exits g h root (by omega) (.inr hc)] at hp
    simp at hp
  obtain ⟨q, hq, hperm, _⟩ := c17_breadth_first g h root hroot hc
  rw [hp] at hq
  cases hq
  refine narrow_of h hperm fun u v a b he hu hv hab => ?_
  have hun : u < g.sizeVertex := by
    have := (List.getElem?_eq_some_iff.mp hu).1
    rwa [hperm.length_eq, List.length_range] at this
  obtain ⟨j, hj⟩ := reached_iff.mp (hc u hun)
  exact ⟨j, level_bandwidth hperm hc (fun u v a b j k hu hv hab hj hk =>
    c18_level_order g h root hroot p hp u v a b j k hu hv hab hj hk) he hu hv hab hj⟩

/-- C93: so do `cuthill_mckee` and `cuthill_mckee_reverse`, whatever order `std::sort` gives to vertices of equal
degree. -/
theorem c93_cuthill_mckee (sort : List (Nat × Nat) → List (Nat × Nat)) (hsort : DegreeSort sort) (g : Graph)
    (h : Reachable false g) (root : Nat) (hroot : root < g.sizeVertex) (p : List Nat)
    (hp : g.cuthillMckee sort root = .ok p) :
    Narrow g root p ∧ ∃ q, g.cuthillMckeeReverse sort root = .ok q ∧ Narrow g root q := by
  have hn := reach_small h
  have hc : Spans (Adj g) g.sizeVertex root := by
    by_contra hc
    rw [c19_disconnected_exits sort hsort g h root (by omega) (by omega) (.inr hc)] at hp
    simp at hp
  obtain ⟨q, hq, hperm, _⟩ := c19_cuthill_mckee sort hsort g h root hroot hc
  rw [hp] at hq
  cases hq
  have hun : ∀ u a : Nat, p[u]? = some a → u < g.sizeVertex := fun u a hu => by
    have := (List.getElem?_eq_some_iff.mp hu).1
    rwa [hperm.length_eq, List.length_range] at this
  have key : ∀ u v a b : Nat, Adj g u v → p[u]? = some a → p[v]? = some b → a < b →
      ∃ k, b - a < levelSize (Adj g) g.sizeVertex root k + levelSize (Adj g) g.sizeVertex root (k + 1) := by
    intro u v a b he hu hv hab
    obtain ⟨j, hj⟩ := reached_iff.mp (hc u (hun u a hu))
    exact ⟨j, level_bandwidth hperm hc (fun u v a b j k hu hv hab hj hk =>
      (c56_cuthill_mckee_rule sort hsort g h root hroot p hp u v a b hu hv hab).1 j k hj hk) he hu hv hab hj⟩
  refine ⟨narrow_of h hperm key, ?_⟩
  obtain ⟨q, hq, hqp, hqv⟩ := (c20_reverse sort hsort g h root).1 p hp
  refine ⟨q, hq, narrow_of h hqp fun u v a b he hu hv hab => ?_⟩
  have hqn : ∀ u a : Nat, q[u]? = some a → u < g.sizeVertex := fun u a hu => by
    have := (List.getElem?_eq_some_iff.mp hu).1
    rwa [hqp.length_eq, List.length_range] at this
  obtain ⟨a', a'', h1, h2, h3⟩ := hqv u (hqn u a hu)
  obtain ⟨b', b'', h4, h5, h6⟩ := hqv v (hqn v b hv)
  rw [hu] at h2
  rw [hv] at h5
  cases h2
  cases h5
  obtain ⟨k, hk⟩ := key v u b' a' ((c02_symmetric g h u v).mp he) h4 h1 (by omega)
  exact ⟨k, by omega⟩

/-- The orderings of the kite with root 2, which has levels of sizes 1, 2 and 1. -/
example : Reachable false kite ∧ kite.sizeVertex < sizeMax ∧ 2 < kite.sizeVertex ∧ kite.breadthFirst 2 = .ok [3, 1, 0, 2] ∧
    kite.cuthillMckee (List.insertionSort fun a b => a.2 ≤ b.2) 2 = .ok [3, 2, 0, 1] ∧
    DegreeSort (List.insertionSort fun a b => a.2 ≤ b.2) :=
  ⟨kite_reachable, by decide, by decide, by decide +kernel, by decide +kernel, insertionSort_degreeSort⟩

/-! ### C94 -/

/-- C94, as stated: the order of `greedy_multicolouring` has at most one more group than the largest degree. -/
def C94 : Prop := ∀ g : Graph, Reachable false g → (∃ u v, Adj g u v) → ∀ m, (∀ v k, g.degree v = .ok k → k ≤ m) →
  ∃ p, g.greedyMulticolouring = .ok p ∧ Groups (Adj g) g.sizeVertex p (m + 1)

/-- C94: on the path with `n` vertices the order is unchanged and needs `n` groups. -/
theorem c94_line (n : Nat) (h2 : 2 ≤ n) (hn : n < sizeMax) (g : Graph) (hg : createLine false n = .ok g) :
    g.greedyMulticolouring = .ok (List.range n) ∧ ∀ k, Groups (Adj g) n (List.range n) k ↔ n ≤ k := by
  obtain ⟨g', h1, h3, h4, h5⟩ := c27_line false n h2 hn
  rw [hg] at h1
  cases h1
  obtain ⟨p, col, hp, hperm, hne, hrule, hord⟩ := c21_greedy g h3 ⟨0, 1, (h5 0 1).mpr ⟨by omega, by omega, .inl rfl⟩⟩
  rw [h4] at hperm hrule hord
  have hcol : ∀ v, v < n → col v = v + 1 := by
    intro v
    induction v with
    | zero => exact fun hv => (hrule 0 hv).1 fun u hu => by omega
    | succ v ih =>
      intro hv
      have hadj : ∀ u, u < v + 1 → (Adj g (v + 1) u ↔ u = v) := by
        intro u hu
        rw [h5]
        constructor
        · rintro ⟨_, _, h | ⟨_, h⟩⟩ <;> omega
        · rintro rfl; exact ⟨hv, by omega, .inr ⟨rfl, rfl⟩⟩
      obtain ⟨⟨u, hu, hue, hlt⟩, h7, h8⟩ := (hrule (v + 1) hv).2 ⟨v, by omega, (hadj v (by omega)).mpr rfl⟩
      rw [hadj u hu] at hue
      subst hue
      have e := ih (by omega)
      have := h8 (u + 2) ⟨u, hu, (hadj u hu).mpr rfl, by omega⟩ (fun w hw hwe => by
        rw [hadj w hw] at hwe
        subst hwe; omega)
      omega
  have hlen : p.length = n := by simpa using hperm.length_eq
  have hpr : p = List.range n := by
    refine List.Perm.eq_of_pairwise (le := (· < ·)) (fun a b _ _ h1 h2 => by omega) ?_ List.pairwise_lt_range hperm
    rw [List.pairwise_iff_getElem]
    intro i j hi hj hij
    refine (hord i j p[i] p[j] (by omega) (by omega) (List.getElem?_eq_getElem hi)
      (List.getElem?_eq_getElem hj)).mpr (.inl ?_)
    rw [hcol i (by omega), hcol j (by omega)]
    omega
  refine ⟨by rw [hp, hpr], fun k => ⟨?_, fun hk => ?_⟩⟩
  · rintro ⟨grp, e1, e2, e3⟩
    have hge : ∀ v, v < n → v ≤ grp v := by
      intro v
      induction v with
      | zero => exact fun _ => Nat.zero_le _
      | succ v ih =>
        intro hv
        have a1 := ih (by omega)
        have a2 := e2 v (v + 1) v (v + 1) (List.getElem?_range (by omega)) (List.getElem?_range hv) (by omega)
        have a3 := e3 v (v + 1) ((h5 _ _).mpr ⟨by omega, hv, .inl rfl⟩)
        omega
    have a1 := e1 (n - 1) (by omega)
    have a2 := hge (n - 1) (by omega)
    omega
  · refine ⟨id, fun v hv => by simp only [id]; omega, fun u v a b hu hv hab => ?_, fun u v huv => ?_⟩
    · have b1 := List.getElem?_eq_some_iff.mp hu
      have b2 := List.getElem?_eq_some_iff.mp hv
      simp only [List.getElem_range, List.length_range] at b1 b2
      obtain ⟨_, b1⟩ := b1
      obtain ⟨_, b2⟩ := b2
      simp only [id]; omega
    · have := (h5 u v).mp huv
      simp only [id]; omega

/-- C94 is violated by the path with four vertices, whose degrees are at most 2. -/
theorem c94_violated : ¬ C94 := by
  intro hc
  obtain ⟨g, h1, h3, h4, h5⟩ := c27_line false 4 (by omega) (by decide)
  have hg : createLine false 4 = .ok ⟨[1, 0, 2, 1, 3, 2], [0, 1, 3, 5, 6]⟩ := by decide +kernel
  obtain ⟨e1, e2⟩ := c94_line 4 (by omega) (by decide) g h1
  obtain ⟨p, hp, hgr⟩ := hc g h3 ⟨0, 1, (h5 0 1).mpr ⟨by omega, by omega, .inl rfl⟩⟩ 2 (by
    intro v k hk
    by_cases hv : v < g.sizeVertex
    · rw [hg] at h1
      cases h1
      rw [h4] at hv
      have : ∀ v, v < 4 → Graph.degree ⟨[1, 0, 2, 1, 3, 2], [0, 1, 3, 5, 6]⟩ v = .ok 1 ∨
          Graph.degree ⟨[1, 0, 2, 1, 3, 2], [0, 1, 3, 5, 6]⟩ v = .ok 2 := by decide +kernel
      have := this v hv
      rw [hk] at this
      rcases this with a | a <;> cases a <;> omega
    · have : g.degree v = .exit 1 := by unfold Graph.degree; simp [hv]
      rw [this] at hk
      simp at hk)
  rw [e1] at hp
  cases hp
  rw [h4] at hgr
  have := (e2 3).mp hgr
  omega

/-- The part of C94 that holds: when every vertex that has a neighbour of smaller index has one which itself has none.
Missing: all other graphs, where the number of groups is not bounded by the degree. -/
theorem c94_groups_partial (g : Graph) (h : Reachable false g) (hedge : ∃ u v, Adj g u v) (m : Nat)
    (hm : ∀ v k, g.degree v = .ok k → k ≤ m)
    (hlow : ∀ v, (∃ u, u < v ∧ Adj g v u) → ∃ u, u < v ∧ Adj g v u ∧ ∀ w, w < u → ¬ Adj g u w) :
    ∃ p, g.greedyMulticolouring = .ok p ∧ Groups (Adj g) g.sizeVertex p (m + 1) := by
  obtain ⟨p, col, h1, hff, h3⟩ := c53_first_fit_partial g h hedge hlow
  obtain ⟨q, col', h1', hperm, _⟩ := c21_greedy g h hedge
  rw [h1] at h1'
  cases h1'
  have hlen : ∀ u a : Nat, p[u]? = some a → u < g.sizeVertex := fun u a hu => by
    have := (List.getElem?_eq_some_iff.mp hu).1
    rwa [hperm.length_eq, List.length_range] at this
  have hnd : p.Nodup := hperm.symm.nodup List.nodup_range
  have hadj : ∀ u v, Adj g u v → u < g.sizeVertex ∧ v < g.sizeVertex := by
    intro u v huv
    obtain ⟨L, hr, hg⟩ := reach_rep h
    rw [hr.adj_iff] at huv
    rw [hr.sizeVertex]
    exact ⟨lt_of_mem_row huv, hg.range u v huv⟩
  refine ⟨p, h1, fun v => col v - 1, fun v hv => ?_, fun u v a b hu hv hab => ?_, fun u v huv => ?_⟩
  · -- a colour not above `m + 1` is free
    obtain ⟨r, hr, _, hin, hd⟩ := c02_spans false g h v hv
    have hle := hm v _ hd
    show col v - 1 < m + 1
    by_contra hc
    have hused : ∀ c ∈ Finset.Icc 1 (m + 1), c ∈ (r.map col).toFinset := by
      intro c hc1
      rw [Finset.mem_Icc] at hc1
      by_contra hcn
      have := (hff v hv).2.2 c (by omega) (fun u hu hue => by
        rintro rfl
        obtain ⟨r', hr', hm'⟩ := hue
        rw [hr] at hr'
        cases hr'
        exact hcn (by simp only [List.mem_toFinset, List.mem_map]; exact ⟨u, hm', rfl⟩))
      omega
    have c1 := Finset.card_le_card (show Finset.Icc 1 (m + 1) ⊆ (r.map col).toFinset from hused)
    have c2 := List.toFinset_card_le (r.map col)
    simp only [Nat.card_Icc, List.length_map] at c1 c2
    omega
  · have hu' := hlen u a hu
    have hv' := hlen v b hv
    rcases Nat.eq_or_lt_of_le hab with rfl | hab
    · obtain ⟨x1, x2⟩ := List.getElem?_eq_some_iff.mp hu
      obtain ⟨y1, y2⟩ := List.getElem?_eq_some_iff.mp hv
      have : u = v := (List.Nodup.getElem_inj_iff hnd).mp (x2.trans y2.symm)
      subst this
      exact le_rfl
    · have := (h3 u v a b hu' hv' hu hv).mp hab
      show col u - 1 ≤ col v - 1
      omega
  · obtain ⟨hu, hv⟩ := hadj u v huv
    have hsym := (c02_symmetric g h u v).mp huv
    have p1 := (hff u hu).1
    have p2 := (hff v hv).1
    have : col u ≠ col v := by
      rcases Nat.lt_trichotomy u v with hl | hl | hl
      · exact (hff v hv).2.1 u hl hsym
      · subst hl
        obtain ⟨r, hr, hm'⟩ := huv
        obtain ⟨r', hr', _, hin, _⟩ := c02_spans false g h u hu
        rw [hr] at hr'
        cases hr'
        exact absurd rfl (hin u hm').2
      · exact ((hff u hu).2.1 v hl huv).symm
    show col u - 1 ≠ col v - 1
    omega

/-- The graph of the example beside C53, a star around vertex 0 with one more edge, meets the hypotheses; the
colours are 1, 2, 3, 2. -/
example : Graph.greedyMulticolouring ⟨[1, 2, 3, 0, 2, 0, 1, 0], [0, 3, 5, 7, 8]⟩ = .ok [0, 1, 3, 2] := by decide +kernel

example : createLine false 4 = .ok ⟨[1, 0, 2, 1, 3, 2], [0, 1, 3, 5, 6]⟩ := by decide +kernel

/-! ### C95 -/

theorem grid_cell {n v : Nat} (h : v < n * n) : ∃ x y, x < n ∧ y < n ∧ v = y * n + x :=
  ⟨v % n, v / n, Nat.mod_lt _ (by by_contra hn; have : n = 0 := by omega
                                  simp [this] at h), Nat.div_lt_of_lt_mul h, by
    rw [Nat.mul_comm]; exact (Nat.div_add_mod v n).symm⟩

theorem grid_inj {n x y x' y' : Nat} (hx : x < n) (hx' : x' < n) (h : y * n + x = y' * n + x') : x = x' ∧ y = y' := by
  have hn : 0 < n := by omega
  have e1 : (y * n + x) % n = x := by rw [Nat.add_comm, Nat.add_mul_mod_self_right, Nat.mod_eq_of_lt hx]
  have e2 : (y' * n + x') % n = x' := by rw [Nat.add_comm, Nat.add_mul_mod_self_right, Nat.mod_eq_of_lt hx']
  have : x = x' := by rw [← e1, ← e2, h]
  subst this
  have : y * n = y' * n := by omega
  exact ⟨rfl, Nat.eq_of_mul_eq_mul_right hn this⟩

/-- C95: in the undirected grid `level_traversal` returns the Manhattan distances. -/
theorem c95_grid (n : Nat) (h2 : 2 ≤ n) (hn : n * n < sizeMax) (g : Graph) (hg : createStructured false n = .ok g)
    (x0 y0 : Nat) (hx0 : x0 < n) (hy0 : y0 < n) :
    ∃ out, g.levelTraversal (y0 * n + x0) sizeMax = .ok out ∧ out.length = n * n ∧
      ∀ x y, x < n → y < n → out[y * n + x]? = some ((x - x0) + (x0 - x) + (y - y0) + (y0 - y)) := by
  obtain ⟨g', h1, h3, h4, h5⟩ := c28_structured false n h2 hn
  rw [hg] at h1
  cases h1
  have hcell : ∀ x y, x < n → y < n → y * n + x < n * n := by
    intro x y hx hy
    calc y * n + x < y * n + n := by omega
      _ = (y + 1) * n := by ring
      _ ≤ n * n := Nat.mul_le_mul_right n hy
  have h22 : 2 * 2 ≤ n * n := Nat.mul_le_mul h2 h2
  have hwalk : ∀ k x y, x < n → y < n → (x - x0) + (x0 - x) + (y - y0) + (y0 - y) = k →
      Walk (Adj g) k (y0 * n + x0) (y * n + x) := by
    intro k
    induction k with
    | zero =>
      intro x y hx hy hk
      have e1 : x = x0 := by omega
      have e2 : y = y0 := by omega
      subst e1 e2
      rfl
    | succ k ih =>
      intro x y hx hy hk
      by_cases c1 : x0 < x
      · refine ⟨y * n + (x - 1), ih (x - 1) y (by omega) hy (by omega), (h5 _ _ _ _ (by omega) hy hx hy).mpr (.inl ⟨rfl, by omega⟩)⟩
      by_cases c2 : x < x0
      · refine ⟨y * n + (x + 1), ih (x + 1) y (by omega) hy (by omega),
          (h5 _ _ _ _ (by omega) hy hx hy).mpr (.inr (.inr ⟨rfl, .inl ⟨rfl, by omega⟩⟩))⟩
      by_cases c3 : y0 < y
      · refine ⟨(y - 1) * n + x, ih x (y - 1) hx (by omega) (by omega),
          (h5 _ _ _ _ hx (by omega) hx hy).mpr (.inr (.inl ⟨rfl, by omega⟩))⟩
      · refine ⟨(y + 1) * n + x, ih x (y + 1) hx (by omega) (by omega),
          (h5 _ _ _ _ hx (by omega) hx hy).mpr (.inr (.inr ⟨rfl, .inr ⟨rfl, by omega⟩⟩))⟩
  have hlow : ∀ k w, Walk (Adj g) k (y0 * n + x0) w → ∃ x y, x < n ∧ y < n ∧ w = y * n + x ∧
      (x - x0) + (x0 - x) + (y - y0) + (y0 - y) ≤ k := by
    intro k
    induction k with
    | zero => rintro w rfl; exact ⟨x0, y0, hx0, hy0, rfl, by omega⟩
    | succ k ih =>
      rintro w ⟨u, hu, huw⟩
      obtain ⟨x, y, hx, hy, rfl, hk⟩ := ih u hu
      have hw : w < n * n := by
        obtain ⟨L, hr, hgd⟩ := reach_rep h3
        rw [hr.adj_iff] at huw
        rw [← h4, hr.sizeVertex]
        exact hgd.range _ _ huw
      obtain ⟨x', y', hx', hy', rfl⟩ := grid_cell hw
      have := (h5 x y x' y' hx hy hx' hy').mp huw
      exact ⟨x', y', hx', hy', rfl, by omega⟩
  obtain ⟨out, ho, hl, hv⟩ := c12_level_traversal_default false g h3 (by omega) (y0 * n + x0)
    (by rw [h4]; exact hcell x0 y0 hx0 hy0)
  refine ⟨out, ho, by rw [hl, h4], fun x y hx hy => ?_⟩
  have hd : IsDist (Adj g) (· = y0 * n + x0) (y * n + x) ((x - x0) + (x0 - x) + (y - y0) + (y0 - y)) := by
    refine ⟨⟨_, rfl, hwalk _ x y hx hy rfl⟩, ?_⟩
    rintro j hj _ rfl hw
    obtain ⟨x', y', hx', hy', he, hle⟩ := hlow j _ hw
    obtain ⟨rfl, rfl⟩ := grid_inj hx hx' he
    omega
  rcases hv (y * n + x) (by rw [h4]; exact hcell x y hx hy) with ⟨k, _, hk, hok⟩ | ⟨_, hno⟩
  · rw [hok, dist_unique hk hd]
  · exact absurd (reached_iff.mpr ⟨_, hd⟩) hno

/-- C95: in the directed grid exactly the vertices of later columns and rows are reached. -/
theorem c95_grid_directed (n : Nat) (h2 : 2 ≤ n) (hn : n * n < sizeMax) (g : Graph) (hg : createStructured true n = .ok g)
    (x0 y0 : Nat) (hx0 : x0 < n) (hy0 : y0 < n) :
    ∃ out, g.levelTraversal (y0 * n + x0) sizeMax = .ok out ∧ out.length = n * n ∧
      ∀ x y, x < n → y < n →
        out[y * n + x]? = some (if x0 ≤ x ∧ y0 ≤ y then (x - x0) + (y - y0) else sizeMax) := by
  obtain ⟨g', h1, h3, h4, h5⟩ := c28_structured true n h2 hn
  rw [hg] at h1
  cases h1
  simp only [Bool.true_eq_false, false_and, or_false] at h5
  have hcell : ∀ x y, x < n → y < n → y * n + x < n * n := by
    intro x y hx hy
    calc y * n + x < y * n + n := by omega
      _ = (y + 1) * n := by ring
      _ ≤ n * n := Nat.mul_le_mul_right n hy
  have h22 : 2 * 2 ≤ n * n := Nat.mul_le_mul h2 h2
  have hwalk : ∀ k x y, x < n → y < n → x0 ≤ x → y0 ≤ y → (x - x0) + (y - y0) = k →
      Walk (Adj g) k (y0 * n + x0) (y * n + x) := by
    intro k
    induction k with
    | zero =>
      intro x y hx hy _ _ hk
      have e1 : x = x0 := by omega
      have e2 : y = y0 := by omega
      subst e1 e2
      rfl
    | succ k ih =>
      intro x y hx hy _ _ hk
      by_cases c1 : x0 < x
      · exact ⟨y * n + (x - 1), ih (x - 1) y (by omega) hy (by omega) (by omega) (by omega),
          (h5 _ _ _ _ (by omega) hy hx hy).mpr (.inl ⟨rfl, by omega⟩)⟩
      · exact ⟨(y - 1) * n + x, ih x (y - 1) hx (by omega) (by omega) (by omega) (by omega),
          (h5 _ _ _ _ hx (by omega) hx hy).mpr (.inr ⟨rfl, by omega⟩)⟩
  have hlow : ∀ k w, Walk (Adj g) k (y0 * n + x0) w → ∃ x y, x < n ∧ y < n ∧ w = y * n + x ∧
      x0 ≤ x ∧ y0 ≤ y ∧ (x - x0) + (y - y0) = k := by
    intro k
    induction k with
    | zero => rintro w rfl; exact ⟨x0, y0, hx0, hy0, rfl, by omega, by omega, by omega⟩
    | succ k ih =>
      rintro w ⟨u, hu, huw⟩
      obtain ⟨x, y, hx, hy, rfl, _, _, hk⟩ := ih u hu
      have hw : w < n * n := by
        obtain ⟨L, hr, hgd⟩ := reach_rep h3
        rw [hr.adj_iff] at huw
        rw [← h4, hr.sizeVertex]
        exact hgd.range _ _ huw
      obtain ⟨x', y', hx', hy', rfl⟩ := grid_cell hw
      have := (h5 x y x' y' hx hy hx' hy').mp huw
      exact ⟨x', y', hx', hy', rfl, by omega, by omega, by omega⟩
  obtain ⟨out, ho, hl, hv⟩ := c12_level_traversal_default true g h3 (by omega) (y0 * n + x0)
    (by rw [h4]; exact hcell x0 y0 hx0 hy0)
  refine ⟨out, ho, by rw [hl, h4], fun x y hx hy => ?_⟩
  by_cases hin : x0 ≤ x ∧ y0 ≤ y
  · rw [if_pos hin]
    have hd : IsDist (Adj g) (· = y0 * n + x0) (y * n + x) ((x - x0) + (y - y0)) := by
      refine ⟨⟨_, rfl, hwalk _ x y hx hy hin.1 hin.2 rfl⟩, ?_⟩
      rintro j hj _ rfl hw
      obtain ⟨x', y', hx', hy', he, _, _, hle⟩ := hlow j _ hw
      obtain ⟨rfl, rfl⟩ := grid_inj hx hx' he
      omega
    rcases hv (y * n + x) (by rw [h4]; exact hcell x y hx hy) with ⟨k, _, hk, hok⟩ | ⟨_, hno⟩
    · rw [hok, dist_unique hk hd]
    · exact absurd (reached_iff.mpr ⟨_, hd⟩) hno
  · rw [if_neg hin]
    rcases hv (y * n + x) (by rw [h4]; exact hcell x y hx hy) with ⟨k, _, ⟨⟨_, rfl, hw⟩, _⟩, _⟩ | ⟨hok, _⟩
    · obtain ⟨x', y', hx', hy', he, b1, b2, _⟩ := hlow k _ hw
      obtain ⟨rfl, rfl⟩ := grid_inj hx hx' he
      exact absurd ⟨b1, b2⟩ hin
    · exact hok

example : (createStructured false 3 >>= fun g => g.levelTraversal 1 sizeMax) = .ok [1, 0, 1, 2, 1, 2, 3, 2, 3] ∧
    (createStructured true 3 >>= fun g => g.levelTraversal 4 sizeMax) =
      .ok [sizeMax, sizeMax, sizeMax, sizeMax, 0, 1, sizeMax, 1, 2] := by decide +kernel

end Disa.Props
