import Verif.Props.Tree
import Verif.Props.Order
import Verif.Props.Renumber
import Verif.Props.LuMinors
import Verif.Props.Monotone
import Verif.Props.Ghost

/-!
# Trees in the orders of the renumbering functions, and the direct solver on them
-/

namespace Disa.Props

open Disa Spec Graph

/-- Every vertex but the first has exactly one neighbour with a smaller number. -/
def OneBefore (g : Graph) : Prop := ∀ i, i < g.sizeVertex → 0 < i → ∃! j, j < i ∧ Adj g i j

/-- Every vertex but the last has exactly one neighbour with a larger number. -/
def OneAfter (g : Graph) : Prop := ∀ i, i + 1 < g.sizeVertex → ∃! j, i < j ∧ Adj g i j

/-- A renumbering of a tree by distance from a root. -/
theorem before_of_distance {g g' : Graph} (h : Reachable false g) (ht : Tree g) {root : Nat} (hroot : root < g.sizeVertex) {p : List Nat}
    (hp : p.Perm (List.range g.sizeVertex)) (hg : g.reorder p = .ok (g', g))
    (hord : ∀ u v a b j k, p[u]? = some a → p[v]? = some b → a < b → IsDist (Adj g) (· = root) u j →
      IsDist (Adj g) (· = root) v k → j ≤ k) : OneBefore g' := by
  obtain ⟨g1, h5, hsz, -, h6⟩ := c08_reorder false g h p hp
  rw [hg, Out.ok.injEq, Prod.mk.injEq] at h5
  obtain ⟨rfl, -⟩ := h5
  obtain ⟨L, hr, hgood⟩ := reach_rep h
  have hm := tree_metric hr hgood ht
  have hlen : p.length = g.sizeVertex := by rw [hp.length_eq, List.length_range]
  have hn := hr.sizeVertex
  have hold : ∀ i, i < g.sizeVertex → ∃ u, ∃ hu : u < p.length, p[u] = i := by
    intro i hi
    exact List.getElem_of_mem (hp.mem_iff.mpr (List.mem_range.mpr hi))
  have hinj : ∀ u v (hu : u < p.length) (hv : v < p.length), p[u] = p[v] → u = v := fun u v hu hv e =>
    (hp.nodup_iff.mpr List.nodup_range).getElem_inj_iff.mp e
  have hdist : ∀ u, u < g.sizeVertex → IsDist (Adj g) (· = root) u (lvl L root u) := by
    intro u hu
    obtain ⟨k, hk⟩ := reached_iff.mp (ht.1 root hroot u hu)
    have hk' := hk
    rw [hr.adj_eq] at hk'
    rw [lvl_of_dist hk']; exact hk
  -- larger numbers have larger distances
  have hlt : ∀ u v (hu : u < p.length) (hv : v < p.length), lvl L root u < lvl L root v → p[u] < p[v] := by
    intro u v hu hv hl
    by_contra hc
    have h7 : p[u] ≠ p[v] := fun e => by rw [hinj u v hu hv e] at hl; omega
    have := hord v u _ _ _ _ (List.getElem?_eq_getElem hv) (List.getElem?_eq_getElem hu) (by omega) (hdist v (by omega)) (hdist u (by omega))
    omega
  intro i hi h0
  rw [hsz] at hi
  obtain ⟨u, hu, rfl⟩ := hold i hi
  have hur : u ≠ root := by
    rintro rfl
    obtain ⟨v, hv, e⟩ := hold 0 (by omega)
    have h7 : lvl L u v ≤ lvl L u u :=
      hord v u _ _ _ _ (List.getElem?_eq_getElem hv) (List.getElem?_eq_getElem hu) (by omega) (hdist v (by omega)) (hdist u (by omega))
    have h8 := hdist v (by omega)
    rw [hm.self u (by omega)] at h7
    rw [Nat.le_zero.mp h7] at h8
    have h9 : v = u := (isDist_zero (S := (· = u))).mp h8
    subst h9
    omega
  obtain ⟨c, hc1, hc2, hc3, hc4⟩ := hm.next u root (by omega) (by omega) hur
  rw [hm.symm c, hm.symm u] at hc3
  refine ⟨p[c]'(by omega), ⟨hlt c u (by omega) hu (by omega), ?_⟩, ?_⟩
  · rw [h6 u c hu (by omega), hr.adj_eq]
    exact hc2
  · rintro j ⟨hj1, hj2⟩
    have hjn : j < g.sizeVertex := by omega
    obtain ⟨v, hv, rfl⟩ := hold j hjn
    rw [h6 u v hu hv, hr.adj_eq] at hj2
    by_contra hne
    have hvc : v ≠ c := fun e => hne (by subst e; rfl)
    have h7 := hc4 v hj2 hvc
    rw [hm.symm v, hm.symm u] at h7
    have := hlt u v hu hv (by omega)
    omega

/-- C193: `breadth_first` gives every vertex of a tree but the first exactly one neighbour with a smaller number. -/
theorem c193_breadth_first (g : Graph) (h : Reachable false g) (ht : Tree g) (root : Nat) (hroot : root < g.sizeVertex) :
    ∃ p g', g.breadthFirst root = .ok p ∧ g.reorder p = .ok (g', g) ∧ OneBefore g' := by
  obtain ⟨p, h1, h2, -⟩ := c17_breadth_first g h root hroot (ht.1 root hroot)
  obtain ⟨g', h3, -⟩ := c08_reorder false g h p h2
  exact ⟨p, g', h1, h3, before_of_distance h ht hroot h2 h3 fun u v a b j k hu hv hab hj hk =>
    c18_level_order g h root hroot p h1 u v a b j k hu hv hab hj hk⟩

/-- C193: so does `cuthill_mckee`; after `cuthill_mckee_reverse` every vertex but the last has exactly one neighbour with a larger
number. -/
theorem c193_cuthill_mckee (sort : List (Nat × Nat) → List (Nat × Nat)) (hsort : DegreeSort sort) (g : Graph) (h : Reachable false g)
    (ht : Tree g) (root : Nat) (hroot : root < g.sizeVertex ∨ root = sizeMax ∧ 1 < g.sizeVertex) :
    ∃ p g' q g'', g.cuthillMckee sort root = .ok p ∧ g.reorder p = .ok (g', g) ∧ OneBefore g' ∧
      g.cuthillMckeeReverse sort root = .ok q ∧ g.reorder q = .ok (g'', g) ∧ OneAfter g'' := by
  obtain ⟨r, hr, er⟩ : ∃ r, r < g.sizeVertex ∧ g.cuthillMckee sort root = g.cuthillMckee sort r := by
    rcases hroot with hroot | ⟨rfl, h1⟩
    · exact ⟨root, hroot, rfl⟩
    · obtain ⟨r, -, h2, -, -, -, h3⟩ := c57_default_root sort g h (by omega) (fun v hv hd => by
        obtain ⟨L, hr, hg⟩ := reach_rep h
        rw [hr.sizeVertex] at hv h1
        obtain ⟨w, hw⟩ : ∃ w, w < L.length ∧ w ≠ v := by
          by_cases hv0 : v = 0
          · exact ⟨1, h1, by omega⟩
          · exact ⟨0, by omega, by omega⟩
        obtain ⟨c, -, hc, -⟩ := (tree_metric hr hg ht).next v w hv hw.1 (Ne.symm hw.2)
        rw [hr.degree hv] at hd
        have : row L v = [] := List.eq_nil_of_length_eq_zero (Out.ok.inj hd)
        unfold rowRel at hc
        rw [this] at hc
        simp at hc)
      exact ⟨r, h2, h3⟩
  obtain ⟨p, h1, h2, -⟩ := c19_cuthill_mckee sort hsort g h r hr (ht.1 r hr)
  obtain ⟨g', h3, hsz, -, h6⟩ := c08_reorder false g h p h2
  have hb : OneBefore g' := before_of_distance h ht hr h2 h3 fun u v a b j k hu hv hab hj hk =>
    (c56_cuthill_mckee_rule sort hsort g h r hr p h1 u v a b hu hv hab).1 j k hj hk
  obtain ⟨q, k1, k2, k3⟩ := (c20_reverse sort hsort g h root).1 p (er.trans h1)
  obtain ⟨g'', k4, ksz, -, k6⟩ := c08_reorder false g h q k2
  refine ⟨p, g', q, g'', er.trans h1, h3, hb, k1, k4, fun i hi => ?_⟩
  rw [ksz] at hi
  have hpl : p.length = g.sizeVertex := by rw [h2.length_eq, List.length_range]
  have hql : q.length = g.sizeVertex := by rw [k2.length_eq, List.length_range]
  have hsum : ∀ v (hv : v < g.sizeVertex), p[v]'(by omega) + q[v]'(by omega) + 1 = g.sizeVertex := by
    intro v hv
    obtain ⟨a, b, e1, e2, e3⟩ := k3 v hv
    rw [List.getElem?_eq_getElem (by omega), Option.some.injEq] at e1 e2
    rw [e1, e2]; exact e3
  have hq : ∀ i, i < g.sizeVertex → ∃ u, ∃ hu : u < q.length, q[u] = i := fun i hi =>
    List.getElem_of_mem (k2.mem_iff.mpr (List.mem_range.mpr hi))
  have hp' : ∀ i, i < g.sizeVertex → ∃ u, ∃ hu : u < p.length, p[u] = i := fun i hi =>
    List.getElem_of_mem (h2.mem_iff.mpr (List.mem_range.mpr hi))
  obtain ⟨u, hu, rfl⟩ := hq i (by omega)
  have hs := hsum u (by omega)
  obtain ⟨j, ⟨hj1, hj2⟩, hj3⟩ := hb (p[u]'(by omega)) (by omega) (by omega)
  obtain ⟨v, hv, rfl⟩ := hp' j (by omega)
  have hsv := hsum v (by omega)
  refine ⟨q[v]'(by omega), ⟨by omega, ?_⟩, ?_⟩
  · rw [k6 u v hu (by omega), ← h6 u v (by omega) hv]
    exact hj2
  · rintro k ⟨hk1, hk2⟩
    have hkn : k < g.sizeVertex := by
      rw [← ksz]
      obtain ⟨g3, m1, hg2, -⟩ := reorder_spec h k2
      obtain rfl : g3 = g'' := congrArg Prod.fst (Out.ok.inj (m1.symm.trans k4))
      obtain ⟨L, hr'', hg''⟩ := reach_rep hg2
      rw [hr''.adj_eq] at hk2
      rw [hr''.sizeVertex]
      exact hg''.range _ _ hk2
    obtain ⟨w, hw, rfl⟩ := hq k hkn
    have hsw := hsum w (by omega)
    rw [k6 u w hu hw, ← h6 u w (by omega) (by omega)] at hk2
    have := hj3 (p[w]'(by omega)) ⟨by omega, hk2⟩
    omega

/-- C193: only trees can be numbered like that. -/
theorem c193_only_trees (g : Graph) (h : Reachable false g) (h0 : 0 < g.sizeVertex) (hb : OneBefore g) : Tree g := by
  obtain ⟨L, hr, hg⟩ := reach_rep h
  have hn := hr.sizeVertex
  choose! par hp1 hp2 using fun i (hi : i < g.sizeVertex ∧ 0 < i) => hb i hi.1 hi.2
  have hsymm : ∀ u v, Adj g u v → Adj g v u := by
    rw [hr.adj_eq]; exact fun u v => hg.symm rfl u v
  have hroot : ∀ v, v < g.sizeVertex → ∃ k, Walk (Adj g) k 0 v := by
    intro v
    induction v using Nat.strong_induction_on with
    | _ v ih =>
      intro hv
      rcases Nat.eq_zero_or_pos v with rfl | hv0
      · exact ⟨0, rfl⟩
      · obtain ⟨h1, h2⟩ := hp1 v ⟨hv, hv0⟩
        obtain ⟨k, hk⟩ := ih (par v) h1 (by omega)
        exact ⟨k + 1, par v, hk, hsymm _ _ h2⟩
  refine ⟨fun u hu v hv => ?_, ?_⟩
  · obtain ⟨k, hk⟩ := hroot u hu
    obtain ⟨l, hl⟩ := hroot v hv
    exact ⟨k + l, u, rfl, (Walk.symm hsymm hk).append hl⟩
  · have hcard : ((Finset.range g.sizeVertex).erase 0).card = (upPairs L).card := by
      refine Finset.card_bij (fun i _ => (par i, i)) ?_ ?_ ?_
      · intro i hi
        simp only [Finset.mem_erase, Finset.mem_range] at hi
        obtain ⟨h1, h2⟩ := hp1 i ⟨hi.2, by omega⟩
        rw [mem_upPairs hg]
        rw [hr.adj_eq] at h2
        exact ⟨hg.symm rfl _ _ h2, h1⟩
      · intro i _ j _ e
        exact congrArg Prod.snd e
      · rintro ⟨a, b⟩ hab
        rw [mem_upPairs hg] at hab
        have hbn : b < g.sizeVertex := by rw [hn]; exact hg.range _ _ hab.1
        have hb0 : 0 < b := by have : a < b := hab.2; omega
        refine ⟨b, by simp only [Finset.mem_erase, Finset.mem_range]; omega, ?_⟩
        have : a = par b := hp2 b ⟨hbn, hb0⟩ a ⟨hab.2, by rw [hr.adj_eq]; exact hg.symm rfl _ _ hab.1⟩
        rw [this]
    rw [hr.sizeEdge hg]
    simp only [Bool.false_eq_true, if_false]
    rw [← hcard, Finset.card_erase_of_mem (Finset.mem_range.mpr h0), Finset.card_range]
    omega

/-! ### The direct solver -/

section direct

open Dense Lu

variable {K : Type} [Field K]

/-- The pivots of a matrix along the edges of a tree: from each diagonal element the products of the elements that join it with earlier
ones, over the pivots of these. -/
def pivots {n : Nat} (A : Fin n → Fin n → K) (i : Fin n) : K :=
  A i i - ∑ k : Fin n, if _h : k < i then A i k * A k i / pivots A k else 0
termination_by i.1

/-- Each row and column together have at most one element besides zeros after the diagonal. -/
def OneLater {n : Nat} (A : Fin n → Fin n → K) : Prop :=
  ∀ i j k : Fin n, i < j → i < k → (A i j ≠ 0 ∨ A j i ≠ 0) → (A i k ≠ 0 ∨ A k i ≠ 0) → j = k

/-- The elements of the factors. -/
theorem tree_factors {n : Nat} {A M : Fin n → Fin n → K} (hA : OneLater A) {i : Nat} (hf : Factors A 1 M i)
    (hd : ∀ k : Fin n, k.1 < i → M k k ≠ 0 ∨ pivots A k ≠ 0) (k : Fin n) : k.1 ≤ i →
    M k k = pivots A k ∧ (∀ c, k < c → M k c = A k c) ∧ (k.1 < i → ∀ r, k < r → M r k = A r k / pivots A k) := by
  refine fin_strong (p := fun k => k.1 ≤ i → M k k = pivots A k ∧ (∀ c, k < c → M k c = A k c) ∧
    (k.1 < i → ∀ r, k < r → M r k = A r k / pivots A k)) (fun k ih hk => ?_) k
  -- the row and the column of the product
  have hrow : ∀ c, k ≤ c → A k c = (∑ l : Fin n, if l < k then M k l * M l c else 0) + M k c := by
    intro c hc
    have h1 := hf k c
    rw [Equiv.Perm.one_apply] at h1
    rw [h1, ← Finset.add_sum_erase _ _ (Finset.mem_univ k), ← Finset.add_sum_erase _ (fun l => if l < k then M k l * M l c else 0) (Finset.mem_univ k)]
    have e1 : lower M i k k * upper M i k c = M k c := by
      unfold lower upper
      rw [if_pos rfl, one_mul, if_neg (by have : k.1 ≤ c.1 := hc; omega)]
    rw [e1, if_neg (lt_irrefl k), zero_add, add_comm]
    congr 1
    refine Finset.sum_congr rfl fun l hl => ?_
    have hlk : l ≠ k := Finset.ne_of_mem_erase hl
    unfold lower upper
    rw [if_neg (Ne.symm hlk)]
    by_cases h2 : l < k
    · have h3 : l.1 < k.1 := h2
      have h4 : k.1 ≤ c.1 := hc
      rw [if_pos ⟨by omega, h2⟩, if_pos h2, if_neg (by omega)]
    · rw [if_neg (fun h => h2 h.2), if_neg h2, zero_mul]
  have hlow : ∀ l, l < k → M k l = A k l / pivots A l := fun l hl => by
    have h3 : l.1 < k.1 := hl
    exact (ih l hl (by omega)).2.2 (by omega) k hl
  have hup : ∀ l c, l < k → k ≤ c → M l c = A l c := fun l c hl hc => by
    have h3 : l.1 < k.1 := hl
    exact (ih l hl (by omega)).2.1 c (lt_of_lt_of_le hl hc)
  have hdiag : M k k = pivots A k := by
    have h1 := hrow k le_rfl
    rw [pivots, h1]
    have : ∀ l : Fin n, (if l < k then M k l * M l k else 0) = if _h : l < k then A k l * A l k / pivots A l else 0 := by
      intro l
      by_cases hl : l < k
      · rw [if_pos hl, dif_pos hl, hlow l hl, hup l k hl le_rfl]
        ring
      · rw [if_neg hl, dif_neg hl]
    rw [Finset.sum_congr rfl fun l _ => this l]
    ring
  refine ⟨hdiag, fun c hc => ?_, fun hki r hr => ?_⟩
  · have h1 := hrow c hc.le
    rw [Finset.sum_eq_zero, zero_add] at h1
    · exact h1.symm
    · intro l _
      split
      · rename_i hl
        rw [hlow l hl, hup l c hl hc.le]
        by_cases e1 : A k l = 0
        · rw [e1]; simp
        · by_cases e2 : A l c = 0
          · rw [e2]; simp
          · exact absurd (hA l k c hl (hl.trans hc) (.inr e1) (.inl e2)) (ne_of_lt hc)
      · rfl
  · have h1 := hf r k
    rw [Equiv.Perm.one_apply, Finset.sum_eq_single k] at h1
    · unfold lower upper at h1
      have h3 : k.1 < r.1 := hr
      rw [if_neg (ne_of_gt hr), if_pos ⟨hki, hr⟩, if_neg (by omega), hdiag] at h1
      have hne : pivots A k ≠ 0 := by
        rcases hd k hki with h | h
        · rwa [hdiag] at h
        · exact h
      rw [h1]
      field_simp
    · intro l _ hlk
      unfold lower upper
      by_cases hrl : r = l
      · subst hrl
        have h3 : k.1 < r.1 := hr
        rw [if_pos (by omega : k.1 < min r.1 i), mul_zero]
      · rw [if_neg hrl]
        by_cases h2 : l.1 < i ∧ l < r
        · rw [if_pos h2]
          rcases lt_or_gt_of_ne hlk with h4 | h4
          · have h5 : l.1 < k.1 := h4
            rw [if_neg (by omega), (ih l h4 (by omega)).2.2 h2.1 r h2.2, (ih l h4 (by omega)).2.1 k h4]
            by_cases e1 : A r l = 0
            · rw [e1]; simp
            · by_cases e2 : A l k = 0
              · rw [e2]; simp
              · exact absurd (hA l r k h2.2 h4 (.inr e1) (.inl e2)) (ne_of_gt hr)
          · have h5 : k.1 < l.1 := h4
            rw [if_pos (by omega), mul_zero]
        · rw [if_neg h2, zero_mul]
    · intro h; exact absurd (Finset.mem_univ k) h

variable [LinearOrder K] [IsStrictOrderedRing K]

/-- C193: without pivoting the direct solver accepts a matrix along a tree in such a numbering exactly if all its pivots along the tree
reach the tolerance, and then its determinant is their product. -/
theorem c193_direct (s : Lu K) (htol : 0 < s.tol) {n : Nat} (A : Fin n → Fin n → K) (hA : OneLater A) :
    ∃ s' ok, factorise (scalars K) false s (mat A) = .ok (s', ok) ∧ (ok = true ↔ ∀ i, s.tol ≤ |pivots A i|) ∧
      (ok = true → (Matrix.of A).det = ∏ i, pivots A i) := by
  obtain ⟨p, M, st, ok, h1, h2, h3⟩ := factorise_ok false s htol A
  have hpos : ∀ {x : K}, s.tol ≤ |x| → x ≠ 0 := fun h e => by
    rw [e, abs_zero] at h
    exact absurd htol (not_lt.mpr h)
  refine ⟨_, ok, h1, ?_⟩
  cases ok with
  | true =>
    obtain ⟨hf, hd, -, hn⟩ := h2 rfl
    rw [(hn rfl).2] at hf
    have key : ∀ k, M k k = pivots A k := fun k => (tree_factors hA hf (fun k hk => .inl (hpos (hd k hk))) k k.2.le).1
    refine ⟨⟨fun _ i => by rw [← key i]; exact hd i i.2, fun _ => rfl⟩, fun _ => ?_⟩
    have := minor_factors hf n le_rfl (Nat.le_succ n)
    unfold minor at this
    rw [show (Matrix.of A) = Matrix.of fun r c : Fin n => A (Fin.castLE le_rfl r) (Fin.castLE le_rfl c) from rfl, this]
    exact Finset.prod_congr rfl fun k _ => key k
  | false =>
    refine ⟨⟨fun h => (Bool.false_ne_true h).elim, fun h => ?_⟩, fun h => (Bool.false_ne_true h).elim⟩
    obtain ⟨i, hf, hsm, -, hn⟩ := h3 rfl
    rw [hn rfl] at hf
    rw [(tree_factors hA hf (fun k _ => .inr (hpos (h k))) i le_rfl).1] at hsm
    exact absurd (h i) (not_le.mpr hsm)

/-- C193: matrices along the edges of a graph in such a numbering have at most one element after the diagonal. -/
theorem c193_along (g : Graph) (h : Reachable false g) (ha : OneAfter g) (A : Fin g.sizeVertex → Fin g.sizeVertex → K) (hA : Along g A) :
    OneLater A := by
  obtain ⟨L, hr, hg⟩ := reach_rep h
  have hsymm : ∀ u v, Adj g u v → Adj g v u := by
    rw [hr.adj_eq]; exact fun u v => hg.symm rfl u v
  have key : ∀ i j : Fin g.sizeVertex, i < j → (A i j ≠ 0 ∨ A j i ≠ 0) → Adj g i j := by
    intro i j hij hne
    by_contra hc
    rcases hne with hne | hne
    · exact hne (hA i j hij.ne hc)
    · exact hne (hA j i hij.ne' fun h => hc (hsymm _ _ h))
  intro i j k hij hik hj hk
  have h1 : i.1 < j.1 := hij
  have h2 : i.1 < k.1 := hik
  exact Fin.ext ((ha i.1 (by omega)).unique ⟨h1, key i j hij hj⟩ ⟨h2, key i k hik hk⟩)

/-- C193: so the pivots of the direct solver on the equations of a tree numbered by `cuthill_mckee_reverse` are those along its edges. -/
theorem c193_tree (sort : List (Nat × Nat) → List (Nat × Nat)) (hsort : DegreeSort sort) (g : Graph) (h : Reachable false g)
    (ht : Tree g) (root : Nat) (hroot : root < g.sizeVertex ∨ root = sizeMax ∧ 1 < g.sizeVertex) (s : Lu K) (htol : 0 < s.tol) :
    ∃ q g', g.cuthillMckeeReverse sort root = .ok q ∧ g.reorder q = .ok (g', g) ∧
      ∀ A : Fin g'.sizeVertex → Fin g'.sizeVertex → K, Along g' A →
        ∃ s' ok, factorise (scalars K) false s (mat A) = .ok (s', ok) ∧ (ok = true ↔ ∀ i, s.tol ≤ |pivots A i|) ∧
          (ok = true → (Matrix.of A).det = ∏ i, pivots A i) := by
  obtain ⟨p, -, q, g', hp, -, -, h1, h2, h3⟩ := c193_cuthill_mckee sort hsort g h ht root hroot
  have h4 : Reachable false g' := by
    obtain ⟨q', k1, k2, -⟩ := (c20_reverse sort hsort g h root).1 p hp
    obtain rfl : q' = q := Out.ok.inj (k1.symm.trans h1)
    obtain ⟨g1, m1, m2, -⟩ := reorder_spec h k2
    obtain rfl : g1 = g' := congrArg Prod.fst (Out.ok.inj (m1.symm.trans h2))
    exact m2
  exact ⟨q, g', h1, h2, fun A hA => c193_direct s htol A (c193_along g' h4 h3 A hA)⟩

/-- The hypotheses hold for a vertex with three branches and both its numberings. -/
example : Reachable false branches ∧ Tree branches ∧ 2 < branches.sizeVertex ∧ 1 < branches.sizeVertex ∧
    DegreeSort (List.insertionSort fun a b => a.2 ≤ b.2) :=
  ⟨branches_reachable, branches_tree, by decide, by decide, insertionSort_degreeSort⟩

/-- A matrix along the three vertices of two branches, numbered from the ends: the pivots are 2, 2 and 2 - 1/2 - 1/2. -/
def arms : Fin 3 → Fin 3 → ℚ := fun i j => if i = j then 2 else if i = 2 ∨ j = 2 then -1 else 0

theorem arms_later : OneLater arms := by
  unfold OneLater
  decide +kernel

theorem arms_pivots : pivots arms 0 = 2 ∧ pivots arms 1 = 2 ∧ pivots arms 2 = 1 := by
  have h0 : pivots arms 0 = 2 := by
    rw [pivots]
    simp [Fin.sum_univ_three, arms]
  have h1 : pivots arms 1 = 2 := by
    rw [pivots]
    simp [Fin.sum_univ_three, arms]
  refine ⟨h0, h1, ?_⟩
  rw [pivots]
  simp only [Fin.sum_univ_three, h0, h1]
  simp [arms]
  norm_num

example : OneLater arms ∧ (∀ i, (1 : ℚ) ≤ |pivots arms i|) ∧ (Matrix.of arms).det = 4 := by
  refine ⟨arms_later, fun i => ?_, ?_⟩
  · obtain ⟨h0, h1, h2⟩ := arms_pivots
    fin_cases i
    · exact h0.symm ▸ by norm_num
    · exact h1.symm ▸ by norm_num
    · exact h2.symm ▸ by norm_num
  · simp [Matrix.det_fin_three, arms]
    norm_num

end direct

end Disa.Props
