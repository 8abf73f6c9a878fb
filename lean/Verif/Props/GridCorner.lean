import Verif.Props.Grid
import Verif.Props.Tree

/-!
# Property C178: pseudo peripheral vertices and bisections of grids
-/

namespace Disa.Props

open Disa Spec Graph Partition

namespace GridBy

variable {g : Graph} {n : Nat} {f : Nat → Nat → Nat}

/-- The distance of two cells is the number of columns and rows between them. -/
theorem distance (h : GridBy g n f) {a b x y : Nat} (ha : a < n) (hb : b < n) (hx : x < n) (hy : y < n) :
    IsDist (Adj g) (· = f a b) (f x y) ((x - a) + (a - x) + (y - b) + (b - y)) := by
  constructor
  · refine ⟨f a b, rfl, ?_⟩
    obtain ⟨k, hk⟩ : ∃ k, (x - a) + (a - x) + (y - b) + (b - y) = k := ⟨_, rfl⟩
    rw [hk]
    induction k generalizing x y with
    | zero =>
      obtain ⟨rfl, rfl⟩ : x = a ∧ y = b := by omega
      rfl
    | succ k ih =>
      by_cases c1 : a < x
      · exact ⟨f (x - 1) y, ih (by omega) hy (by omega), (h.adj _ _ _ _ (by omega) hy hx hy).mpr (by unfold Beside; omega)⟩
      by_cases c2 : x < a
      · exact ⟨f (x + 1) y, ih (by omega) hy (by omega), (h.adj _ _ _ _ (by omega) hy hx hy).mpr (by unfold Beside; omega)⟩
      by_cases c3 : b < y
      · exact ⟨f x (y - 1), ih hx (by omega) (by omega), (h.adj _ _ _ _ hx (by omega) hx hy).mpr (by unfold Beside; omega)⟩
      · exact ⟨f x (y + 1), ih hx (by omega) (by omega), (h.adj _ _ _ _ hx (by omega) hx hy).mpr (by unfold Beside; omega)⟩
  · rintro j hj _ rfl hw
    have hsym := c02_symmetric g h.reach
    have hlow : ∀ k w, Walk (Adj g) k (f a b) w → ∃ c d, c < n ∧ d < n ∧ w = f c d ∧
        (c - a) + (a - c) + (d - b) + (b - d) ≤ k := by
      intro k
      induction k with
      | zero => rintro w rfl; exact ⟨a, b, ha, hb, rfl, by omega⟩
      | succ k ih =>
        rintro w ⟨u, hu, huw⟩
        obtain ⟨c, d, hc, hd, rfl, hk⟩ := ih u hu
        obtain ⟨c', d', hc', hd', rfl, hB⟩ := h.nbr hc hd ((hsym _ _).mp huw)
        unfold Beside at hB
        exact ⟨c', d', hc', hd', rfl, by omega⟩
    obtain ⟨c, d, hc, hd, he, hle⟩ := hlow j _ hw
    have := h.inj x y c d hx hy hc hd he
    omega

/-- From any vertex `pseudo_peripheral_vertex` finds a corner. -/
theorem corner (h : GridBy g n f) (h2 : 2 ≤ n) {start : Nat} (hs : start < n * n) :
    ∃ x y, g.pseudoPeripheral start = .ok (f x y) ∧ (x = 0 ∨ x = n - 1) ∧ (y = 0 ∨ y = n - 1) := by
  obtain ⟨L, hr, hg⟩ := reach_rep h.reach
  have hn := reach_small h.reach
  have hL : L.length = n * n := by rw [← hr.sizeVertex, h.size]
  obtain ⟨p, k1, k2, -, k4⟩ := pseudoPeripheral_ok hr hg (by rw [← hr.sizeVertex]; exact hn) (hL.symm ▸ hs)
  have hdist : ∀ {a b x y : Nat}, a < n → b < n → x < n → y < n →
      lvl L (f a b) (f x y) = (x - a) + (a - x) + (y - b) + (b - y) := by
    intro a b x y ha hb hx hy
    have := h.distance ha hb hx hy
    rw [hr.adj_eq] at this
    exact lvl_of_dist this
  have hdeg : (row L start).length ≠ 0 := by
    obtain ⟨x, y, hx, hy, rfl⟩ := h.surj start hs
    have : Adj g (f x y) (f (if x = 0 then 1 else x - 1) y) :=
      (h.adj _ _ _ _ hx hy (by split <;> omega) hy).mpr (by unfold Beside; split <;> omega)
    rw [hr.adj_iff] at this
    exact fun e => by rw [List.length_eq_zero_iff.mp e] at this; cases this
  obtain ⟨md, -, -, ⟨q, hq, hqm, hall⟩, -⟩ := k4 hdeg
  obtain ⟨x, y, hx, hy, rfl⟩ := h.surj p (hL ▸ k2)
  obtain ⟨a, b, ha, hb, rfl⟩ := h.surj q (hL ▸ hq)
  refine ⟨x, y, k1, ?_⟩
  rw [hdist hx hy ha hb] at hqm
  have far : ∀ u v, u < n → v < n → (u - a) + (a - u) + (v - b) + (b - v) ≤ md := by
    intro u v hu hv
    have := hall (f u v) (hL.symm ▸ h.lt u v hu hv)
    rwa [hdist ha hb hu hv] at this
  have e1 := far 0 y (by omega) hy
  have e2 := far (n - 1) y (by omega) hy
  have e3 := far x 0 hx (by omega)
  have e4 := far x (n - 1) hx (by omega)
  omega

theorem ecc (h : GridBy g n f) (h2 : 2 ≤ n) : IsEcc (Adj g) (n * n) (f 0 0) (2 * (n - 1)) := by
  refine ⟨fun v hv => ?_, ?_⟩
  · obtain ⟨x, y, hx, hy, rfl⟩ := h.surj v hv
    exact ⟨x + y, by omega, h.dist hx hy⟩
  · refine ⟨f (n - 1) (n - 1), h.lt _ _ (by omega) (by omega), ?_⟩
    have := h.dist (x := n - 1) (y := n - 1) (by omega) (by omega)
    rwa [show n - 1 + (n - 1) = 2 * (n - 1) by omega] at this

/-- A corner is the origin of a grid with columns and rows counted from it. -/
theorem at_corner (h : GridBy g n f) {x y : Nat} (h0 : 0 < n) (hx : x = 0 ∨ x = n - 1) (hy : y = 0 ∨ y = n - 1) :
    ∃ f', GridBy g n f' ∧ f' 0 0 = f x y := by
  rcases hx with rfl | rfl <;> rcases hy with rfl | rfl
  · exact ⟨f, h, rfl⟩
  · exact ⟨_, h.transpose.flip.transpose, by simp⟩
  · exact ⟨_, h.flip, by simp⟩
  · exact ⟨_, h.flip.transpose.flip.transpose, by simp⟩

end GridBy

theorem corner_cell {n x y : Nat} (h2 : 2 ≤ n) (hx : x = 0 ∨ x = n - 1) (hy : y = 0 ∨ y = n - 1) :
    y * n + x = 0 ∨ y * n + x = n - 1 ∨ y * n + x = (n - 1) * n ∨ y * n + x = n * n - 1 := by
  rcases hx with rfl | rfl <;> rcases hy with rfl | rfl
  · left; simp
  · right; right; left; simp
  · right; left; simp
  · right; right; right
    obtain ⟨m, rfl⟩ : ∃ m, n = m + 1 := ⟨n - 1, by omega⟩
    simp only [Nat.add_sub_cancel]
    ring_nf
    omega

/-- C178: `pseudo_peripheral_vertex` of a grid in any numbering returns a corner, from any start vertex, and no two vertices
are farther apart than opposite corners. -/
theorem c178_corner (n : Nat) (h2 : 2 ≤ n) (hn : n * n < sizeMax) (grid g : Graph)
    (hgrid : createStructured false n = .ok grid) (p : List Nat) (hp : p.Perm (List.range (n * n)))
    (hg : grid.reorder p = .ok (g, grid)) (start : Nat) (hs : start < n * n) :
    ∃ v corner, g.pseudoPeripheral start = .ok v ∧ p[corner]? = some v ∧
      (corner = 0 ∨ corner = n - 1 ∨ corner = (n - 1) * n ∨ corner = n * n - 1) ∧
      IsEcc (Adj g) (n * n) v (2 * (n - 1)) ∧
      ∀ a b k, a < n * n → b < n * n → IsDist (Adj g) (· = a) b k → k ≤ 2 * (n - 1) := by
  have h := gridBy_of h2 hn hgrid hp hg
  obtain ⟨x, y, h1, hx, hy⟩ := h.corner h2 hs
  have hc := corner_cell h2 hx hy
  have hlt : y * n + x < p.length := by
    rw [hp.length_eq, List.length_range]
    calc y * n + x < y * n + n := by omega
      _ = (y + 1) * n := by ring
      _ ≤ n * n := Nat.mul_le_mul_right n (by omega)
  refine ⟨_, y * n + x, h1, by simp [List.getD_eq_getElem?_getD, List.getElem?_eq_getElem hlt], hc, ?_, ?_⟩
  · obtain ⟨f', hf, e⟩ := h.at_corner (by omega) hx hy
    have := hf.ecc h2
    rwa [e] at this
  · intro a b k ha hb hk
    obtain ⟨x, y, hx, hy, rfl⟩ := h.surj a ha
    obtain ⟨u, v, hu, hv, rfl⟩ := h.surj b hb
    rw [dist_unique hk (h.distance hx hy hu hv)]
    omega

theorem triangle_sum (n : Nat) : 2 * ((List.range n).map (fun x => n - x)).sum = n * (n + 1) := by
  induction n with
  | zero => rfl
  | succ n ih =>
    rw [List.range_succ_eq_map]
    simp only [List.map_cons, List.map_map, List.sum_cons, Function.comp_def, Nat.succ_eq_add_one, Nat.add_sub_add_right,
      Nat.sub_zero, Nat.mul_add, ih]
    ring

/-- A graph without isolated vertices has at least half as many edges as vertices. -/
theorem safe_of_adj {g : Graph} (h : Reachable false g) (ha : ∀ v, v < g.sizeVertex → ∃ w, Adj g v w) :
    ∀ v, v < g.sizeVertex → v < 2 * g.sizeEdge false := by
  obtain ⟨L, hL, hG⟩ := reach_rep h
  have hst := hL.stored hG
  have hs := hL.sizeVertex
  have hge : L.length ≤ L.flatten.length := by
    apply stored_ge
    intro r hr he
    obtain ⟨i, hi⟩ := List.mem_iff_getElem?.mp hr
    have hil : i < g.sizeVertex := by
      rw [hs]
      exact (List.getElem?_eq_some_iff.mp hi).1
    have hrow : row L i = [] := by simp [row, List.getD_eq_getElem?_getD, hi, he]
    obtain ⟨w, hw⟩ := ha i hil
    rw [hL.adj_iff, hrow] at hw
    cases hw
  simp only [Bool.false_eq_true, if_false] at hst
  intro v hv
  omega

/-- Two parts of a connected graph: the vertices up to half of the eccentricity from the pseudo peripheral vertex of the first
vertex, and the others. -/
theorem bisect_two (hash : Nat → Nat) {g : Graph} (h : Reachable false g) (h1 : 1 < g.sizeVertex)
    (hn : g.sizeVertex ≤ 2 ^ 53) (hc : Spans (Adj g) g.sizeVertex 0) :
    ∃ v e l r, g.pseudoPeripheral 0 = .ok v ∧ IsEcc (Adj g) g.sizeVertex v e ∧ bisection hash g 2 = .ok [l, r] ∧
      (∀ u, u ∈ l.l2g ↔ ∃ k, k ≤ e / 2 ∧ IsDist (Adj g) (· = v) u k) ∧
      (∀ u, u ∈ r.l2g ↔ ∃ k, e / 2 < k ∧ IsDist (Adj g) (· = v) u k) ∧
      l.l2g.Nodup ∧ l.sizeVertex = l.l2g.length ∧ l.sizeVertex + r.sizeVertex = g.sizeVertex := by
  have hsym := c02_symmetric g h
  have hsafe : ∀ v, v < g.sizeVertex → v < 2 * g.sizeEdge false := by
    refine safe_of_adj h fun v hv => ?_
    by_cases hv0 : v = 0
    · subst hv0
      obtain ⟨k, s, rfl, hw⟩ := hc 1 h1
      have : ∀ k x, Walk (Adj g) k 0 x → 0 ≠ x → ∃ w, Adj g 0 w := by
        intro k
        induction k with
        | zero => intro x hx hne; exact absurd hx hne
        | succ k ih =>
          rintro x ⟨y, hy, hyx⟩ hne
          by_cases e : 0 = y
          · subst e; exact ⟨x, hyx⟩
          · exact ih y hy e
      exact this k 1 hw (by omega)
    · obtain ⟨k, s, rfl, hw⟩ := hc v hv
      cases k with
      | zero => exact absurd (Eq.symm hw) hv0
      | succ k =>
        obtain ⟨u, -, huv⟩ := hw
        exact ⟨u, (hsym _ _).mp huv⟩
  obtain ⟨x, hx⟩ := Subgraph.hash_ok h hash
  obtain ⟨subs, b1, b2, b3⟩ := bisection_ok h hash hx hsafe (k := 1) (by omega) (by omega)
  obtain ⟨s, rfl⟩ := List.length_eq_one_iff.mp b3
  obtain ⟨i, p, levels, s', l, r, d1, d2, d3, -, d4, d5, d6, d7, d8⟩ := c147_step hash g h hn 1 h1 _ b1
  have hi : i = 0 := by
    have := (List.getElem?_eq_some_iff.mp d1).1
    simp at this; exact this
  subst hi
  cases d1
  have hpart := b2.part s List.mem_cons_self
  have hperm := b2.perm
  simp only [List.map_cons, List.map_nil, List.flatten_cons, List.flatten_nil, List.append_nil] at hperm
  have hrange : s.l2g = List.range g.sizeVertex :=
    List.Perm.eq_of_pairwise (fun _ _ _ _ h1 h2 => absurd h1 (by omega)) hpart.sorted List.pairwise_lt_range hperm
  have hget : ∀ j, j < g.sizeVertex → s.l2g[j]? = some j := by
    intro j hj
    rw [hrange, List.getElem?_range hj]
  have hsz : s.graph.sizeVertex = g.sizeVertex := by rw [hpart.inv.size, hrange, List.length_range]
  have hgraph : s.graph = g := by
    refine graph_ext h hpart.inv.reach (by omega) hsz fun a b => ?_
    constructor
    · intro hab
      have := adj_lt hpart.inv.reach hab
      rwa [hpart.inv.adj a b a b (hget a (by omega)) (hget b (by omega))] at hab
    · intro hab
      have := adj_lt h hab
      rwa [hpart.inv.adj a b a b (hget a (by omega)) (hget b (by omega))]
  rw [hgraph] at d4 d5
  obtain ⟨p', a, e, e1, e2, -, he, -, -⟩ := c14_pseudo_peripheral g h 0 (by omega) hc
  rw [d4] at e1
  cases e1
  obtain ⟨out, o1, o2, o3⟩ := c12_level_traversal_default false g h h1 p e2
  rw [d5] at o1
  cases o1
  have hlev : ∀ j d, levels[j]? = some d ↔ j < g.sizeVertex ∧ IsDist (Adj g) (· = p) j d := by
    intro j d
    constructor
    · intro hj
      have hjl : j < g.sizeVertex := by rw [← o2]; exact (List.getElem?_eq_some_iff.mp hj).1
      rcases o3 j hjl with ⟨k, -, k1, k2⟩ | ⟨-, k2⟩
      · rw [hj] at k2
        cases k2
        exact ⟨hjl, k1⟩
      · obtain ⟨k, -, hk⟩ := he.1 j hjl
        exact absurd (reached_iff.mpr ⟨_, hk⟩) k2
    · rintro ⟨hjl, hd⟩
      rcases o3 j hjl with ⟨k, -, k1, k2⟩ | ⟨-, k2⟩
      · rw [k2, dist_unique k1 hd]
      · exact absurd (reached_iff.mpr ⟨_, hd⟩) k2
  have hmax : maxElem levels = e := by
    apply maxElem_eq
    · obtain ⟨w, hw, hwe⟩ := he.2
      exact List.mem_of_getElem? ((hlev w e).mpr ⟨hw, hwe⟩)
    · intro y hy
      obtain ⟨j, hj⟩ := List.mem_iff_getElem?.mp hy
      obtain ⟨hjl, hd⟩ := (hlev j y).mp hj
      obtain ⟨k, hk, hk'⟩ := he.1 j hjl
      rw [dist_unique hd hk']; exact hk
  have hside : ∀ (t : Subgraph) (P : Nat → Prop),
      (∀ v, v ∈ t.l2g ↔ ∃ a d : Nat, levels[a]? = some d ∧ s.l2g[a]? = some v ∧ P d) →
      ∀ u, u ∈ t.l2g ↔ ∃ k, P k ∧ IsDist (Adj g) (· = p) u k := by
    intro t P ht u
    rw [ht]
    constructor
    · rintro ⟨b, d, q1, q2, q3⟩
      obtain ⟨hb, hd⟩ := (hlev b d).mp q1
      rw [hget b hb] at q2
      cases q2
      exact ⟨d, q3, hd⟩
    · rintro ⟨k, hk, hd⟩
      have hu : u < g.sizeVertex := by
        obtain ⟨⟨w, rfl, hw⟩, -⟩ := hd
        cases k with
        | zero => cases hw; exact e2
        | succ k => obtain ⟨y, -, hy⟩ := hw; exact (adj_lt h hy).2
      exact ⟨u, k, (hlev u k).mpr ⟨hu, hd⟩, hget u hu, hk⟩
  rw [hmax] at d7 d8
  obtain ⟨subs', c1, c2, -⟩ := bisection_ok h hash hx hsafe (k := 2) (by omega) (by omega)
  have d2' : bisection hash g 2 = .ok [l, r] := d2
  rw [d2'] at c1
  cases c1
  have pl := c2.part l (by simp)
  have pr := c2.part r (by simp)
  have hlen := c2.perm.length_eq
  simp only [List.map_cons, List.map_nil, List.flatten_cons, List.flatten_nil, List.append_nil, List.length_append,
    List.length_range] at hlen
  have zl : l.sizeVertex = l.l2g.length := pl.inv.size
  have zr : r.sizeVertex = r.l2g.length := pr.inv.size
  exact ⟨p, e, l, r, d4, he, d2', hside l _ d7, hside r _ d8, pl.inv.nodup, zl, by omega⟩

/-- C178: the first of two parts of a grid in any numbering consists of the cells on one side of a diagonal, with the diagonal,
the second of the others. -/
theorem c178_bisection (hash : Nat → Nat) (n : Nat) (h2 : 2 ≤ n) (hn : n * n ≤ 2 ^ 53) (grid g : Graph)
    (hgrid : createStructured false n = .ok grid) (p : List Nat) (hp : p.Perm (List.range (n * n)))
    (hg : grid.reorder p = .ok (g, grid)) :
    ∃ v l r, g.pseudoPeripheral 0 = .ok v ∧ bisection hash g 2 = .ok [l, r] ∧
      (∀ u, u ∈ l.l2g ↔ ∃ k, k ≤ n - 1 ∧ IsDist (Adj g) (· = v) u k) ∧
      (∀ u, u ∈ r.l2g ↔ ∃ k, n - 1 < k ∧ IsDist (Adj g) (· = v) u k) ∧
      2 * l.sizeVertex = n * (n + 1) ∧ 2 * r.sizeVertex = n * (n - 1) := by
  have h := gridBy_of h2 (lt_of_le_of_lt hn (by decide)) hgrid hp hg
  have h4 : 2 * 2 ≤ n * n := Nat.mul_le_mul h2 h2
  obtain ⟨x, y, h1, hx, hy⟩ := h.corner h2 (start := 0) (by omega)
  obtain ⟨f, hf, e0⟩ := h.at_corner (by omega) hx hy
  rw [← e0] at h1
  have hsz := h.size
  have hc : Spans (Adj g) g.sizeVertex 0 := by
    intro v hv
    rw [hsz] at hv
    obtain ⟨a, b, ha, hb, e⟩ := hf.surj 0 (by omega)
    obtain ⟨c, d, hc, hd, rfl⟩ := hf.surj v hv
    rw [e]
    exact reached_iff.mpr ⟨_, hf.distance ha hb hc hd⟩
  obtain ⟨v, e, l, r, k1, k2, k3, k4, k5, k6, k8, hsum⟩ := bisect_two hash h.reach (by omega) (by omega) hc
  rw [h1] at k1
  cases k1
  have he : e = 2 * (n - 1) := by
    obtain ⟨w, hw, hwe⟩ := k2.2
    obtain ⟨j, hj, hj'⟩ := (hf.ecc h2).1 w (by omega)
    obtain ⟨u, hu, hue⟩ := (hf.ecc h2).2
    obtain ⟨i, hi, hi'⟩ := k2.1 u (by omega)
    have := dist_unique hwe hj'
    have := dist_unique hue hi'
    omega
  have hhalf : e / 2 = n - 1 := by omega
  rw [hhalf] at k4 k5
  have hl : 2 * l.sizeVertex = n * (n + 1) := by
    have hnd : ((List.range n).flatMap (fun x => (List.range (n - x)).map (f x))).Nodup := by
      rw [List.nodup_flatMap]
      refine ⟨fun x hx => ?_, ?_⟩
      · refine List.Nodup.map_on (fun a ha b hb e => ?_) List.nodup_range
        rw [List.mem_range] at hx ha hb
        exact (hf.inj x a x b hx (by omega) hx (by omega) e).2
      · refine List.Pairwise.imp_of_mem (R := fun a b => a < b) (fun {a b} ha hb hab => ?_) List.pairwise_lt_range
        rw [List.mem_range] at ha hb
        intro w hw hw'
        rw [List.mem_map] at hw hw'
        obtain ⟨c, hc, rfl⟩ := hw
        obtain ⟨d, hd, e⟩ := hw'
        rw [List.mem_range] at hc hd
        have := hf.inj b d a c hb (by omega) ha (by omega) e
        omega
    have hperm : l.l2g.Perm ((List.range n).flatMap (fun x => (List.range (n - x)).map (f x))) := by
      rw [List.perm_ext_iff_of_nodup k6 hnd]
      intro u
      rw [k4]
      simp only [List.mem_flatMap, List.mem_map, List.mem_range]
      constructor
      · rintro ⟨k, hk, hd⟩
        have hu : u < n * n := by
          obtain ⟨⟨w, rfl, hw⟩, -⟩ := hd
          cases k with
          | zero => cases hw; exact hf.lt 0 0 (by omega) (by omega)
          | succ k => obtain ⟨y, -, hy⟩ := hw; rw [← hsz]; exact (adj_lt h.reach hy).2
        obtain ⟨a, b, ha, hb, rfl⟩ := hf.surj u hu
        have := dist_unique hd (hf.dist ha hb)
        exact ⟨a, ha, b, by omega, rfl⟩
      · rintro ⟨a, ha, b, hb, rfl⟩
        exact ⟨a + b, by omega, hf.dist ha (by omega)⟩
    rw [k8, hperm.length_eq, List.length_flatMap]
    simp only [List.length_map, List.length_range]
    exact triangle_sum n
  refine ⟨f 0 0, l, r, h1, k3, k4, k5, hl, ?_⟩
  rw [hsz] at hsum
  obtain ⟨m, rfl⟩ : ∃ m, n = m + 1 := ⟨n - 1, by omega⟩
  simp only [Nat.add_sub_cancel]
  have e1 : (m + 1) * (m + 1) * 2 = (m + 1) * (m + 1 + 1) + (m + 1) * m := by ring
  omega

example : ∃ grid g, createStructured false 3 = .ok grid ∧ grid.reorder [4, 0, 7, 1, 8, 2, 6, 3, 5] = .ok (g, grid) ∧
    g ≠ grid ∧ g.pseudoPeripheral 8 = .ok 5 ∧ g.pseudoPeripheral 7 = .ok 6 :=
  ⟨_, _, rfl, rfl, by decide +kernel⟩

example : ∃ grid subs, createStructured false 3 = .ok grid ∧ bisection id grid 2 = .ok subs ∧
    subs.map Subgraph.l2g = [[2, 4, 5, 6, 7, 8], [0, 1, 3]] :=
  ⟨_, _, rfl, rfl, by decide +kernel⟩

end Disa.Props
