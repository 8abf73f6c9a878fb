import Verif.Props.Bandwidth

/-!
# Properties C104 to C106: what renumbering keeps
-/

namespace Disa.Props

open Disa Spec Graph

/-- Two graphs made through the interface that have the same vertices and edges are equal. -/
theorem graph_ext {d : Bool} {g g' : Graph} (h : Reachable d g) (h' : Reachable d g') (h0 : 0 < g.sizeVertex)
    (hs : g'.sizeVertex = g.sizeVertex) (ha : ∀ a b, Adj g' a b ↔ Adj g a b) : g' = g := by
  obtain ⟨L, hr, hg⟩ := reach_rep h
  obtain ⟨M, hr', hg'⟩ := reach_rep h'
  have hl : M.length = L.length := by rw [← hr.sizeVertex, ← hr'.sizeVertex, hs]
  obtain rfl : M = L := good_ext hg' hg hl fun i j => by
    have := ha i j
    rwa [hr.adj_iff, hr'.adj_iff] at this
  have hne : M ≠ [] := by
    rintro rfl
    rw [hr.sizeVertex] at h0
    exact absurd h0 (by simp)
  have e1 : g.off = offs M := by
    rcases hr.2 with h | ⟨h, -⟩
    · exact h
    · exact absurd h hne
  have e2 : g'.off = offs M := by
    rcases hr'.2 with h | ⟨h, -⟩
    · exact h
    · exact absurd h hne
  obtain ⟨adj, off⟩ := g
  obtain ⟨adj', off'⟩ := g'
  have a1 := hr.1
  have a2 := hr'.1
  simp only at e1 e2 a1 a2
  rw [e1, e2, a1, a2]

/-- What `reorder` does with a permutation. -/
theorem reorder_spec {d : Bool} {g : Graph} (h : Reachable d g) {p : List Nat} (hp : p.Perm (List.range g.sizeVertex)) :
    ∃ g', g.reorder p = .ok (g', g) ∧ Reachable d g' ∧ g'.sizeVertex = g.sizeVertex ∧
      (∀ a b i j : Nat, p[a]? = some i → p[b]? = some j → (Adj g' i j ↔ Adj g a b)) := by
  obtain ⟨g', h1, h2, -, h4⟩ := c08_reorder d g h p hp
  refine ⟨g', h1, ?_, h2, ?_⟩
  · obtain ⟨ops, hv, hr⟩ := h
    refine ⟨ops ++ [.reorder p], ?_, ?_⟩
    · intro op hop
      rcases List.mem_append.mp hop with hop | hop
      · exact hv op hop
      · rw [List.mem_singleton] at hop
        subst hop
        show p.Perm (List.range p.length)
        rw [hp.length_eq, List.length_range]
        exact hp
    · rw [run_append, hr]
      simp [run, step, h1]
  · intro a b i j hi hj
    obtain ⟨x1, x2⟩ := List.getElem?_eq_some_iff.mp hi
    obtain ⟨y1, y2⟩ := List.getElem?_eq_some_iff.mp hj
    have := h4 a b x1 y1
    rwa [x2, y2] at this

theorem perm_surj {p : List Nat} {n : Nat} (hp : p.Perm (List.range n)) {i : Nat} (hi : i < n) : ∃ a : Nat, p[a]? = some i :=
  List.mem_iff_getElem?.mp (hp.mem_iff.mpr (List.mem_range.mpr hi))

theorem perm_get {p : List Nat} {n : Nat} (hp : p.Perm (List.range n)) {a : Nat} (ha : a < n) : ∃ i, p[a]? = some i ∧ i < n := by
  have hl : p.length = n := by simpa using hp.length_eq
  refine ⟨p[a]'(by omega), List.getElem?_eq_getElem _, ?_⟩
  exact List.mem_range.mp (hp.mem_iff.mp (List.getElem_mem _))

theorem perm_lt {p : List Nat} {n : Nat} (hp : p.Perm (List.range n)) {a i : Nat} (ha : p[a]? = some i) : a < n ∧ i < n := by
  have hl : p.length = n := by simpa using hp.length_eq
  exact ⟨by rw [← hl]; exact (List.getElem?_eq_some_iff.mp ha).1, List.mem_range.mp (hp.mem_iff.mp (List.mem_of_getElem? ha))⟩

theorem perm_inj {p : List Nat} {n : Nat} (hp : p.Perm (List.range n)) {a b i : Nat} (ha : p[a]? = some i)
    (hb : p[b]? = some i) : a = b := by
  have hnd : p.Nodup := hp.symm.nodup List.nodup_range
  obtain ⟨x1, x2⟩ := List.getElem?_eq_some_iff.mp ha
  obtain ⟨y1, y2⟩ := List.getElem?_eq_some_iff.mp hb
  exact (List.Nodup.getElem_inj_iff hnd).mp (x2.trans y2.symm)

theorem adj_range {d : Bool} {g : Graph} (h : Reachable d g) {a b : Nat} (hab : Adj g a b) :
    a < g.sizeVertex ∧ b < g.sizeVertex := adj_lt h hab

/-! ### C104 -/

/-- Two renumberings of a graph with vertices, one after the other. -/
theorem reorder_compose (d : Bool) (g : Graph) (h : Reachable d g) (h0 : 0 < g.sizeVertex) (p q r : List Nat)
    (hp : p.Perm (List.range g.sizeVertex)) (hq : q.Perm (List.range g.sizeVertex)) (hr : r.length = g.sizeVertex)
    (hpq : ∀ a i : Nat, p[a]? = some i → r[a]? = q[i]?) :
    ∃ g1 g2, g.reorder p = .ok (g1, g) ∧ g1.reorder q = .ok (g2, g1) ∧ g.reorder r = .ok (g2, g) := by
  have hrp : r.Perm (List.range g.sizeVertex) := by
    have hm : ∀ i, i < g.sizeVertex → i ∈ r := by
      intro i hi
      obtain ⟨j, hj⟩ := perm_surj hq hi
      obtain ⟨a, ha⟩ := perm_surj hp (perm_lt hq hj).1
      have := hpq a j ha
      rw [hj] at this
      exact List.mem_of_getElem? this
    have hsub : (List.range g.sizeVertex).Subperm r :=
      List.subperm_of_subset List.nodup_range fun i hi => hm i (List.mem_range.mp hi)
    exact (hsub.perm_of_length_le (by simp [hr])).symm
  obtain ⟨g1, e1, r1, s1, a1⟩ := reorder_spec h hp
  obtain ⟨g2, e2, r2, s2, a2⟩ := reorder_spec (g := g1) r1 (p := q) (by rw [s1]; exact hq)
  obtain ⟨g3, e3, r3, s3, a3⟩ := reorder_spec h hrp
  refine ⟨g1, g2, e1, e2, ?_⟩
  rw [e3]
  congr 2
  refine graph_ext r2 r3 (by omega) (by omega) fun x y => ?_
  have key : ∀ x y, x < g.sizeVertex → y < g.sizeVertex → (Adj g3 x y ↔ Adj g2 x y) := by
    intro x y hx hy
    obtain ⟨i, hi⟩ := perm_surj hq hx
    obtain ⟨j, hj⟩ := perm_surj hq hy
    obtain ⟨a, ha⟩ := perm_surj hp (perm_lt hq hi).1
    obtain ⟨b, hb⟩ := perm_surj hp (perm_lt hq hj).1
    rw [a2 i j x y hi hj, a1 a b i j ha hb, a3 a b x y ((hpq a i ha).trans hi) ((hpq b j hb).trans hj)]
  constructor
  · intro hxy
    obtain ⟨k1, k2⟩ := adj_lt r3 hxy
    exact (key x y (by omega) (by omega)).mp hxy
  · intro hxy
    obtain ⟨k1, k2⟩ := adj_lt r2 hxy
    exact (key x y (by omega) (by omega)).mpr hxy

/-- C104: the identity changes nothing. -/
theorem c104_identity (d : Bool) (g : Graph) (h : Reachable d g) : g.reorder (List.range g.sizeVertex) = .ok (g, g) := by
  obtain ⟨g', e1, r1, s1, a1⟩ := reorder_spec h (List.Perm.refl _)
  by_cases h0 : 0 < g.sizeVertex
  · rw [e1]
    congr 2
    refine graph_ext h r1 h0 s1 fun x y => ?_
    have key : ∀ x y, x < g.sizeVertex → y < g.sizeVertex → (Adj g' x y ↔ Adj g x y) := fun x y hx hy =>
      a1 x y x y (List.getElem?_range hx) (List.getElem?_range hy)
    constructor
    · intro hxy
      obtain ⟨k1, k2⟩ := adj_lt r1 hxy
      exact (key x y (by omega) (by omega)).mp hxy
    · intro hxy
      obtain ⟨k1, k2⟩ := adj_lt h hxy
      exact (key x y (by omega) (by omega)).mpr hxy
  · obtain ⟨L, hr, -⟩ := reach_rep h
    have hs := hr.sizeVertex
    have hL : L = [] := List.eq_nil_of_length_eq_zero (by omega)
    subst hL
    have hemp : g.empty = true := by rw [hr.empty]; simp
    have hz : g.sizeVertex = 0 := by omega
    have hoff : List.replicate g.off.length 0 = g.off := by
      rcases hr.2 with ho | ⟨-, ho⟩ <;> rw [ho] <;> rfl
    unfold Graph.reorder
    rw [hz]
    simp [Graph.reorderOff, hemp, assert, loop, hoff]
    cases g
    have := hr.1
    simp_all

/-- C104: renumbering twice is renumbering once, with the permutation that is applied after the other. -/
theorem c104_compose (d : Bool) (g : Graph) (h : Reachable d g) (p q r : List Nat)
    (hp : p.Perm (List.range g.sizeVertex)) (hq : q.Perm (List.range g.sizeVertex)) (hr : r.length = g.sizeVertex)
    (hpq : ∀ a i : Nat, p[a]? = some i → r[a]? = q[i]?) :
    ∃ g1 g2, g.reorder p = .ok (g1, g) ∧ g1.reorder q = .ok (g2, g1) ∧ g.reorder r = .ok (g2, g) := by
  by_cases h0 : 0 < g.sizeVertex
  · exact reorder_compose d g h h0 p q r hp hq hr hpq
  · have hz : g.sizeVertex = 0 := by omega
    have e := c104_identity d g h
    rw [hz] at hp hq e hr
    obtain rfl : p = [] := by simpa using hp
    obtain rfl : q = [] := by simpa using hq
    obtain rfl : r = [] := List.eq_nil_of_length_eq_zero hr
    exact ⟨g, g, e, e, e⟩

/-- C104: renumbering with the inverse permutation restores the graph. -/
theorem c104_inverse (d : Bool) (g : Graph) (h : Reachable d g) (p q : List Nat) (hp : p.Perm (List.range g.sizeVertex))
    (hq : q.Perm (List.range g.sizeVertex)) (hpq : ∀ a i : Nat, p[a]? = some i → q[i]? = some a) :
    ∃ g1, g.reorder p = .ok (g1, g) ∧ g1.reorder q = .ok (g, g1) := by
  by_cases h0 : 0 < g.sizeVertex
  · obtain ⟨g1, g2, e1, e2, e3⟩ := reorder_compose d g h h0 p q (List.range g.sizeVertex) hp hq (by simp) fun a i hi => by
      rw [hpq a i hi, List.getElem?_range (perm_lt hp hi).1]
    rw [c104_identity d g h] at e3
    obtain rfl : g = g2 := by injection e3 with e; exact congrArg Prod.fst e
    exact ⟨g1, e1, e2⟩
  · have hz : g.sizeVertex = 0 := by omega
    have e := c104_identity d g h
    rw [hz] at hp hq e
    obtain rfl : p = [] := by simpa using hp
    obtain rfl : q = [] := by simpa using hq
    exact ⟨g, e, e⟩

/-! ### C105 -/

theorem walk_perm {E E' : Nat → Nat → Prop} {f : Nat → Nat} (hE : ∀ a b, E a b → E' (f a) (f b)) {n a b : Nat}
    (h : Walk E n a b) : Walk E' n (f a) (f b) := by
  induction n generalizing b with
  | zero => exact congrArg f h
  | succ n ih =>
    obtain ⟨w, h1, h2⟩ := h
    exact ⟨f w, ih h1, hE w b h2⟩

/-- Distances are the same in the renumbered graph. -/
theorem dist_perm {d : Bool} {g g' : Graph} (h : Reachable d g) (h' : Reachable d g') {p : List Nat}
    (hp : p.Perm (List.range g.sizeVertex)) (hs : g'.sizeVertex = g.sizeVertex)
    (ha : ∀ a b i j : Nat, p[a]? = some i → p[b]? = some j → (Adj g' i j ↔ Adj g a b)) {s t v w k : Nat} (ht : p[s]? = some t)
    (hw : p[v]? = some w) : IsDist (Adj g') (· = t) w k ↔ IsDist (Adj g) (· = s) v k := by
  have hwalk : ∀ n, Walk (Adj g') n t w ↔ Walk (Adj g) n s v := by
    intro n
    constructor
    · intro hx
      have hf : ∀ a b, Adj g' a b → Adj g ((p.idxOf a)) (p.idxOf b) := by
        intro a b hab
        obtain ⟨k1, k2⟩ := adj_lt h' hab
        obtain ⟨x, hx⟩ := perm_surj hp (by omega : a < g.sizeVertex)
        obtain ⟨y, hy⟩ := perm_surj hp (by omega : b < g.sizeVertex)
        have e1 : p.idxOf a = x := by
          have hm := List.mem_of_getElem? hx
          exact perm_inj hp (by rw [List.getElem?_eq_getElem (List.idxOf_lt_length_of_mem hm), List.getElem_idxOf]) hx
        have e2 : p.idxOf b = y := by
          have hm := List.mem_of_getElem? hy
          exact perm_inj hp (by rw [List.getElem?_eq_getElem (List.idxOf_lt_length_of_mem hm), List.getElem_idxOf]) hy
        rw [e1, e2]
        exact (ha x y a b hx hy).mp hab
      have := walk_perm hf hx
      have e1 : p.idxOf t = s := perm_inj hp (by
        rw [List.getElem?_eq_getElem (List.idxOf_lt_length_of_mem (List.mem_of_getElem? ht)), List.getElem_idxOf]) ht
      have e2 : p.idxOf w = v := perm_inj hp (by
        rw [List.getElem?_eq_getElem (List.idxOf_lt_length_of_mem (List.mem_of_getElem? hw)), List.getElem_idxOf]) hw
      rwa [e1, e2] at this
    · intro hx
      have hf : ∀ a b, Adj g a b → Adj g' (p.getD a 0) (p.getD b 0) := by
        intro a b hab
        obtain ⟨k1, k2⟩ := adj_lt h hab
        obtain ⟨i, hi, -⟩ := perm_get hp k1
        obtain ⟨j, hj, -⟩ := perm_get hp k2
        rw [List.getD_eq_getElem?_getD, List.getD_eq_getElem?_getD, hi, hj]
        exact (ha a b i j hi hj).mpr hab
      have := walk_perm hf hx
      rwa [List.getD_eq_getElem?_getD, List.getD_eq_getElem?_getD, ht, hw] at this
  unfold IsDist
  simp only [exists_eq_left, forall_eq, hwalk]

/-- C105: the levels of `level_traversal` move with the vertices. -/
theorem c105_levels (d : Bool) (g : Graph) (h : Reachable d g) (h1 : 1 < g.sizeVertex)
    (p : List Nat) (hp : p.Perm (List.range g.sizeVertex)) (s t e : Nat) (ht : p[s]? = some t) (he : e ≤ sizeMax) :
    ∃ g' out out', g.reorder p = .ok (g', g) ∧ g.levelTraversal s e = .ok out ∧ g'.levelTraversal t e = .ok out' ∧
      out.length = g.sizeVertex ∧ out'.length = g.sizeVertex ∧ ∀ v w : Nat, p[v]? = some w → out'[w]? = out[v]? := by
  have hn := reach_small h
  obtain ⟨g', e1, r1, s1, a1⟩ := reorder_spec h hp
  obtain ⟨ks, kt⟩ := perm_lt hp ht
  obtain ⟨out, o1, l1, o2⟩ := c12_level_traversal d g h h1 s e ks he
  obtain ⟨out', o1', l1', o2'⟩ := c12_level_traversal d g' r1 (by omega) t e (by omega) he
  refine ⟨g', out, out', e1, o1, o1', l1, by omega, fun v w hw => ?_⟩
  obtain ⟨kv, kw⟩ := perm_lt hp hw
  rcases o2 v kv with ⟨k, k1, k2, k3⟩ | ⟨k1, k2⟩ <;> rcases o2' w (by omega) with ⟨l, m1, m2, m3⟩ | ⟨m1, m2⟩
  · rw [k3, m3, dist_unique k2 ((dist_perm h r1 hp s1 a1 ht hw).mp m2)]
  · exact absurd ((dist_perm h r1 hp s1 a1 ht hw).mpr k2) (m2 k k1)
  · exact absurd ((dist_perm h r1 hp s1 a1 ht hw).mp m2) (k2 l m1)
  · rw [k1, m1]

/-! ### C106 -/

/-- Numberings in which each vertex but the first has a smaller neighbour, and the order is that of the smallest neighbours. -/
theorem identity_of_order {g : Graph} (h : Reachable false g) (h0 : 0 < g.sizeVertex)
    (hsp : Spans (Adj g) g.sizeVertex 0)
    (hprev : ∀ k, 0 < k → k < g.sizeVertex → ∃ i, i < k ∧ Adj g i k)
    (hord : ∀ k m i a : Nat, 0 < k → k < m → m < g.sizeVertex → Adj g i k → (∀ i', Adj g i' k → i ≤ i') → Adj g a m → i ≤ a) :
    g.breadthFirst 0 = .ok (List.range g.sizeVertex) := by
  have hn := reach_small h
  obtain ⟨p, e1, hp, hp0⟩ := c17_breadth_first g h 0 h0 hsp
  rw [e1]
  congr 1
  have hl : p.length = g.sizeVertex := by simpa using hp.length_eq
  have key : ∀ k, k < g.sizeVertex → p[k]? = some k := by
    intro k
    induction k using Nat.strong_induction_on with
    | _ k ih =>
      intro hk
      rcases Nat.eq_zero_or_pos k with rfl | hk0
      · exact hp0
      obtain ⟨c, hc, hcn⟩ := perm_get hp hk
      have hck : k ≤ c := by
        by_contra hlt
        have := ih c (by omega) hcn
        have := perm_inj hp this hc
        omega
      rcases Nat.eq_or_lt_of_le hck with rfl | hck
      · exact hc
      exfalso
      obtain ⟨m, hm⟩ := perm_surj hp hk
      have hmn := (perm_lt hp hm).1
      have hkm : k < m := by
        rcases Nat.lt_trichotomy m k with hlt | rfl | hgt
        · have := ih m hlt hmn
          rw [this] at hm
          injection hm with hm
          omega
        · rw [hc] at hm
          injection hm with hm
          omega
        · exact hgt
      -- the smallest neighbours of `k` and of `m`
      have hmin : ∀ x, 0 < x → x < g.sizeVertex → ∃ i, FirstNbr (Adj g) p x i := by
        intro x hx hxn
        obtain ⟨w, -, hw⟩ := hprev x hx hxn
        obtain ⟨l, hl1, -⟩ := perm_get hp (adj_lt h hw).1
        classical
        have hex : ∃ i, ∃ w, Adj g w x ∧ p[w]? = some i := ⟨l, w, hw, hl1⟩
        exact ⟨Nat.find hex, Nat.find_spec hex, fun w l hw hl => Nat.find_min' hex ⟨w, hw, hl⟩⟩
      obtain ⟨i, hi⟩ := hmin k hk0 hk
      obtain ⟨j, hj⟩ := hmin m (by omega) hmn
      have hrule := (c55_breadth_first_rule g h 0 h0 p e1 m k k c j i hm hc (by omega) (by omega) hj hi).mp hck
      have hji : j < i := by
        rcases hrule with h | ⟨-, h⟩
        · exact h
        · omega
      obtain ⟨i0, hi0, hi0k⟩ := hprev k hk0 hk
      have hi_le : i ≤ i0 := hi.2 i0 i0 hi0k (ih i0 hi0 (by omega))
      have hsmall : ∀ x l, FirstNbr (Adj g) p x l → l < k → Adj g l x := by
        intro x l hx hlk
        obtain ⟨⟨y, hy1, hy2⟩, -⟩ := hx
        have := ih l hlk (by omega)
        rw [perm_inj hp this hy2]
        exact hy1
      have hA := hsmall k i hi (by omega)
      have hB := hsmall m j hj (by omega)
      have hmini : ∀ i', Adj g i' k → i ≤ i' := by
        intro i' hi'
        by_cases hlt : i' < k
        · exact hi.2 i' i' hi' (ih i' hlt (by omega))
        · omega
      have := hord k m i j hk0 hkm hmn hA hmini hB
      omega
  apply List.ext_getElem?
  intro k
  by_cases hk : k < g.sizeVertex
  · rw [key k hk, List.getElem?_range hk]
  · rw [List.getElem?_eq_none (by omega), List.getElem?_eq_none (by simp; omega)]

/-- A numbering that goes level by level, in the order of the first numbered neighbours, gives a graph that breadth first search
leaves alone. -/
theorem renumbered_identity {g : Graph} (h : Reachable false g) {root : Nat}
    (hroot : root < g.sizeVertex) (hsp : Spans (Adj g) g.sizeVertex root) {p : List Nat}
    (hp : p.Perm (List.range g.sizeVertex)) (hp0 : p[root]? = some 0)
    (hlev : ∀ u v a b j k : Nat, p[u]? = some a → p[v]? = some b → a < b → IsDist (Adj g) (· = root) u j →
      IsDist (Adj g) (· = root) v k → j ≤ k)
    (hord : ∀ u v a b i j : Nat, p[u]? = some a → p[v]? = some b → a < b → u ≠ root → v ≠ root → FirstNbr (Adj g) p u i →
      FirstNbr (Adj g) p v j → i ≤ j) :
    ∃ g', g.reorder p = .ok (g', g) ∧ g'.breadthFirst 0 = .ok (List.range g.sizeVertex) := by
  have hn := reach_small h
  obtain ⟨g', e1, r1, s1, a1⟩ := reorder_spec h hp
  refine ⟨g', e1, ?_⟩
  rw [← s1]
  have hdist : ∀ v, v < g.sizeVertex → ∃ k, IsDist (Adj g) (· = root) v k := fun v hv => reached_iff.mp (hsp v hv)
  have hroot0 : ∀ k v, 0 < k → p[v]? = some k → v ≠ root := by
    rintro k v hk hv rfl
    rw [hp0] at hv
    injection hv with hv
    omega
  refine identity_of_order r1 (by omega) ?_ ?_ ?_
  · intro w hw
    obtain ⟨v, hv⟩ := perm_surj hp (by omega : w < g.sizeVertex)
    obtain ⟨k, hk⟩ := hdist v (perm_lt hp hv).1
    exact reached_iff.mpr ⟨k, (dist_perm h r1 hp s1 a1 hp0 hv).mpr hk⟩
  · intro k hk hkn
    obtain ⟨v, hv⟩ := perm_surj hp (by omega : k < g.sizeVertex)
    obtain ⟨D, hD⟩ := hdist v (perm_lt hp hv).1
    have hvr := hroot0 k v hk hv
    cases D with
    | zero =>
      obtain ⟨⟨s, rfl, hw⟩, -⟩ := hD
      exact absurd (Eq.symm (show s = v from hw)) hvr
    | succ D =>
      have hD' := hD
      obtain ⟨⟨s, hs, ⟨w, hw, hwv⟩⟩, hmin⟩ := hD
      obtain ⟨c, hc, -⟩ := perm_get hp (adj_lt h hwv).1
      refine ⟨c, ?_, (a1 w v c k hc hv).mpr hwv⟩
      obtain ⟨E, hE⟩ := hdist w (adj_lt h hwv).1
      have hED : E ≤ D := by
        by_contra hlt
        exact hE.2 D (by omega) s hs hw
      rcases Nat.lt_trichotomy c k with hlt | rfl | hgt
      · exact hlt
      · obtain rfl := perm_inj hp hc hv
        have := dist_unique hE hD'
        omega
      · have := hlev v w k c (D + 1) E hv hc hgt hD' hE
        omega
  · intro k m i a hk hkm hmn hik hmin ham
    rw [s1] at hmn
    obtain ⟨u, hu⟩ := perm_surj hp (by omega : k < g.sizeVertex)
    obtain ⟨v, hv⟩ := perm_surj hp hmn
    have hfirst : ∀ x c, p[x]? = some c → (∃ b, Adj g' b c) → ∃ l, FirstNbr (Adj g) p x l ∧ Adj g' l c ∧ ∀ b, Adj g' b c → l ≤ b := by
      intro x c hx ⟨b, hb⟩
      classical
      have hex : ∃ b, Adj g' b c := ⟨b, hb⟩
      refine ⟨Nat.find hex, ⟨?_, ?_⟩, Nat.find_spec hex, fun b hb => Nat.find_min' hex hb⟩
      · have hs := Nat.find_spec hex
        obtain ⟨y, hy⟩ := perm_surj hp (by have := (adj_lt r1 hs).1; omega : Nat.find hex < g.sizeVertex)
        exact ⟨y, (a1 y x _ c hy hx).mp hs, hy⟩
      · intro w l hw hl
        exact Nat.find_min' hex ((a1 w x l c hl hx).mpr hw)
    obtain ⟨l1, f1, f2, f3⟩ := hfirst u k hu ⟨i, hik⟩
    obtain ⟨l2, f4, f5, f6⟩ := hfirst v m hv ⟨a, ham⟩
    have := hord u v k m l1 l2 hu hv hkm (hroot0 k u hk hu) (hroot0 m v (by omega) hv) f1 f4
    have := hmin l1 f2
    have := f6 a ham
    omega

/-- C106: after renumbering with `breadth_first`, breadth first search from the first vertex leaves the numbers alone. -/
theorem c106_breadth_first (g : Graph) (h : Reachable false g) (root : Nat)
    (hroot : root < g.sizeVertex) (p : List Nat) (hp : g.breadthFirst root = .ok p) :
    ∃ g', g.reorder p = .ok (g', g) ∧ g'.breadthFirst 0 = .ok (List.range g.sizeVertex) := by
  have hn := reach_small h
  have hc : Spans (Adj g) g.sizeVertex root := by
    by_contra hc
    rw [c17_disconnected_exits g h root (by omega) (.inr hc)] at hp
    simp at hp
  obtain ⟨q, hq, hperm, h0⟩ := c17_breadth_first g h root hroot hc
  rw [hp] at hq
  cases hq
  refine renumbered_identity h hroot hc hperm h0 (fun u v a b j k hu hv hab hj hk =>
    c18_level_order g h root hroot p hp u v a b j k hu hv hab hj hk) fun u v a b i j hu hv hab hur hvr hi hj => ?_
  rcases (c55_breadth_first_rule g h root hroot p hp u v a b i j hu hv hur hvr hi hj).mp hab with h | ⟨h, -⟩ <;> omega

/-- C106: so it does after renumbering with `cuthill_mckee`, whatever order `std::sort` gives to vertices of equal degree. -/
theorem c106_cuthill_mckee (sort : List (Nat × Nat) → List (Nat × Nat)) (hsort : DegreeSort sort) (g : Graph)
    (h : Reachable false g) (root : Nat) (hroot : root < g.sizeVertex) (p : List Nat)
    (hp : g.cuthillMckee sort root = .ok p) :
    ∃ g', g.reorder p = .ok (g', g) ∧ g'.breadthFirst 0 = .ok (List.range g.sizeVertex) := by
  have hn := reach_small h
  have hc : Spans (Adj g) g.sizeVertex root := by
    by_contra hc
    rw [c19_disconnected_exits sort hsort g h root (by omega) (by omega) (.inr hc)] at hp
    simp at hp
  obtain ⟨q, hq, hperm, h0⟩ := c19_cuthill_mckee sort hsort g h root hroot hc
  rw [hp] at hq
  cases hq
  refine renumbered_identity h hroot hc hperm h0 (fun u v a b j k hu hv hab hj hk =>
    (c56_cuthill_mckee_rule sort hsort g h root hroot p hp u v a b hu hv hab).1 j k hj hk)
    fun u v a b i j hu hv hab hur hvr hi hj => ?_
  have hdeg : ∀ w, w < g.sizeVertex → ∃ k, g.degree w = .ok k := by
    intro w hw
    obtain ⟨L, hr, -⟩ := reach_rep h
    rw [hr.sizeVertex] at hw
    exact ⟨_, hr.degree hw⟩
  obtain ⟨du, hdu⟩ := hdeg u (perm_lt hperm hu).1
  obtain ⟨dv, hdv⟩ := hdeg v (perm_lt hperm hv).1
  rcases (c56_cuthill_mckee_rule sort hsort g h root hroot p hp u v a b hu hv hab).2 i j du dv hur hi hj hdu hdv with h | ⟨h, -⟩ <;> omega

/-- The kite: renumbering with a permutation and its inverse, distances, and the orderings. -/
example : Reachable false kite ∧ kite.sizeVertex = 4 ∧
    kite.reorder [3, 1, 0, 2] = .ok (⟨[1, 2, 0, 2, 3, 0, 1, 1], [0, 2, 5, 7, 8]⟩, kite) ∧
    (⟨[1, 2, 0, 2, 3, 0, 1, 1], [0, 2, 5, 7, 8]⟩ : Graph).reorder [2, 1, 3, 0] = .ok (kite, ⟨[1, 2, 0, 2, 3, 0, 1, 1], [0, 2, 5, 7, 8]⟩) ∧
    kite.levelTraversal 2 sizeMax = .ok [2, 1, 0, 1] ∧
    (⟨[1, 2, 0, 2, 3, 0, 1, 1], [0, 2, 5, 7, 8]⟩ : Graph).levelTraversal 0 sizeMax = .ok [0, 1, 1, 2] ∧
    kite.breadthFirst 2 = .ok [3, 1, 0, 2] ∧
    (⟨[1, 2, 0, 2, 3, 0, 1, 1], [0, 2, 5, 7, 8]⟩ : Graph).breadthFirst 0 = .ok [0, 1, 2, 3] :=
  ⟨kite_reachable, by decide, by decide +kernel, by decide +kernel, by decide +kernel, by decide +kernel, by decide +kernel,
    by decide +kernel⟩

end Disa.Props
