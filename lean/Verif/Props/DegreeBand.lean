import Verif.Props.Profile
import Verif.Props.Laplace
import Verif.Props.LuBand

/-!
# Property C205: degrees bound how far a renumbering by levels reaches
-/

namespace Disa.Props

open Disa Spec Graph

open Classical in
/-- The neighbours of a vertex. -/
noncomputable def around (g : Graph) (v : Nat) : Finset Nat := (Finset.range g.sizeVertex).filter (Adj g v)

theorem mem_around {g : Graph} (h : Reachable false g) {v w : Nat} : w ∈ around g v ↔ Adj g v w := by
  classical
  unfold around
  rw [Finset.mem_filter, Finset.mem_range]
  exact ⟨fun h => h.2, fun hw => ⟨(adj_lt h hw).2, hw⟩⟩

theorem degree_around {g : Graph} (h : Reachable false g) {v d : Nat} (hd : g.degree v = .ok d) : (around g v).card = d := by
  obtain ⟨L, hr, hg⟩ := reach_rep h
  obtain ⟨-, rfl⟩ := degree_row hr hd
  have hnd : (row L v).Nodup := (hg.sorted v).imp (fun hab => Nat.ne_of_lt hab)
  rw [← List.toFinset_card_of_nodup hnd]
  congr 1
  ext w
  rw [mem_around h, List.mem_toFinset, hr.adj_iff]

/-- The first neighbour of each vertex but the first, where breadth first search leaves the numbers alone. -/
theorem parents {g : Graph} (h : Reachable false g) (hid : g.breadthFirst 0 = .ok (List.range g.sizeVertex)) :
    ∃ par : Nat → Nat, (∀ j, 0 < j → j < g.sizeVertex → par j < j ∧ Adj g (par j) j ∧ ∀ w, Adj g w j → par j ≤ w) ∧
      ∀ i j, 0 < i → i < j → j < g.sizeVertex → par i ≤ par j := by
  have hn := reach_small h
  have hr : ∀ a : Nat, a < g.sizeVertex → (List.range g.sizeVertex)[a]? = some a := fun a ha => List.getElem?_range ha
  have hr' : ∀ a b : Nat, (List.range g.sizeVertex)[a]? = some b → a = b := fun a b hab => by
    obtain ⟨h1, h2⟩ := List.getElem?_eq_some_iff.mp hab
    simpa using h2
  have hex : ∀ j, 0 < j ∧ j < g.sizeVertex → ∃ l, l < j ∧ Adj g l j ∧ ∀ w, Adj g w j → l ≤ w := by
    rintro j ⟨h0, hj⟩
    have hsp : Spans (Adj g) g.sizeVertex 0 := by
      by_contra hc
      rw [c17_disconnected_exits g h 0 (by omega) (.inr hc)] at hid
      simp at hid
    classical
    obtain ⟨D, hD⟩ := reached_iff.mp (hsp j hj)
    obtain ⟨w, hwj, hw⟩ : ∃ w, w < j ∧ Adj g w j := by
      cases D with
      | zero =>
        obtain ⟨⟨s, rfl, hw⟩, -⟩ := hD
        have : (0 : Nat) = j := hw
        omega
      | succ D =>
        obtain ⟨⟨s, rfl, ⟨w, hsw, hwv⟩⟩, hmin⟩ := hD
        refine ⟨w, ?_, hwv⟩
        have hwn := (adj_lt h hwv).1
        obtain ⟨E, hE⟩ := reached_iff.mp (hsp w hwn)
        have hED : E ≤ D := by
          by_contra hc
          exact hE.2 D (by omega) 0 rfl hsw
        by_contra hc
        have hne : w ≠ j := fun e => adj_irrefl h j (e ▸ hwv)
        have := c18_level_order g h 0 (by omega) _ hid j w j w (D + 1) E (hr j hj) (hr w hwn) (by omega)
          ⟨⟨0, rfl, w, hsw, hwv⟩, hmin⟩ hE
        omega
    have hex : ∃ w, Adj g w j := ⟨w, hw⟩
    exact ⟨Nat.find hex, (Nat.find_min' hex hw).trans_lt hwj, Nat.find_spec hex, fun w hw => Nat.find_min' hex hw⟩
  choose! par hpar using hex
  refine ⟨par, fun j h0 hj => hpar j ⟨h0, hj⟩, fun i j hi hij hj => ?_⟩
  have first : ∀ x, 0 < x → x < g.sizeVertex → FirstNbr (Adj g) (List.range g.sizeVertex) x (par x) := by
    intro x h0 hx
    obtain ⟨p1, p2, p3⟩ := hpar x ⟨h0, hx⟩
    refine ⟨⟨_, p2, hr _ (by omega)⟩, fun w l hw hl => ?_⟩
    rw [← hr' w l hl]
    exact p3 w hw
  have := (c55_breadth_first_rule g h 0 (by omega) _ hid i j i j (par i) (par j) (hr i (by omega)) (hr j hj) (by omega) (by omega)
    (first i hi (by omega)) (first j (by omega) hj)).mp hij
  omega

/-- Where breadth first search leaves the numbers alone, the vertices up to `a` have at most one neighbour after them for each edge that
does not lead back. -/
theorem reach_of_identity {g : Graph} (h : Reachable false g) (hid : g.breadthFirst 0 = .ok (List.range g.sizeVertex)) {a b : Nat}
    (hab : Adj g a b) : b ≤ 1 + ∑ k ∈ Finset.range (a + 1), ((around g k).card - 1) := by
  obtain ⟨par, hpar, hmono⟩ := parents h hid
  have hbn := (adj_lt h hab).2
  have hcard := Finset.card_eq_sum_card_fiberwise (s := Finset.Icc 1 b) (t := Finset.range (a + 1)) (f := par) (by
    intro j hj
    simp only [Finset.coe_Icc, Set.mem_Icc] at hj
    have h1 := (hpar b (by omega) hbn).2.2 a hab
    simp only [Finset.coe_range, Set.mem_Iio]
    rcases Nat.lt_or_eq_of_le hj.2 with hlt | rfl
    · have := hmono j b (by omega) hlt hbn
      omega
    · omega)
  rw [Nat.card_Icc, Finset.sum_range_succ'] at hcard
  rw [Finset.sum_range_succ']
  have e0 : (Finset.filter (fun x => par x = 0) (Finset.Icc 1 b)).card ≤ (around g 0).card := by
    refine Finset.card_le_card fun j hj => ?_
    rw [Finset.mem_filter, Finset.mem_Icc] at hj
    rw [mem_around h, ← hj.2]
    exact (hpar j (by omega) (by omega)).2.1
  have e1 : ∑ k ∈ Finset.range a, (Finset.filter (fun x => par x = k + 1) (Finset.Icc 1 b)).card ≤
      ∑ k ∈ Finset.range a, ((around g (k + 1)).card - 1) := by
    refine Finset.sum_le_sum fun k hk => ?_
    have hk' := Finset.mem_range.mp hk
    have hkn : k + 1 < g.sizeVertex := by
      have := (adj_lt h hab).1
      omega
    obtain ⟨p1, p2, p3⟩ := hpar (k + 1) (by omega) hkn
    rw [← Finset.card_erase_of_mem ((mem_around h).mpr ((c02_symmetric g h _ _).mp p2))]
    refine Finset.card_le_card fun j hj => ?_
    rw [Finset.mem_filter, Finset.mem_Icc] at hj
    have hj' := hpar j (by omega) (by omega)
    rw [Finset.mem_erase, mem_around h]
    refine ⟨?_, by rw [← hj.2]; exact hj'.2.1⟩
    rintro rfl
    omega
  omega

/-- Renumberings keep the degrees. -/
theorem around_reorder {g g' : Graph} (h : Reachable false g) (h' : Reachable false g') {p : List Nat}
    (hp : p.Perm (List.range g.sizeVertex)) (hadj : ∀ a b i j : Nat, p[a]? = some i → p[b]? = some j → (Adj g' i j ↔ Adj g a b))
    (hs : g'.sizeVertex = g.sizeVertex) {v i : Nat} (hv : p[v]? = some i) : (around g' i).card = (around g v).card := by
  symm
  have hl : p.length = g.sizeVertex := by simpa using hp.length_eq
  refine Finset.card_bij (fun w _ => p.getD w 0) ?_ ?_ ?_
  · intro w hw
    rw [mem_around h] at hw
    obtain ⟨j, hj, -⟩ := perm_get hp (adj_lt h hw).2
    rw [List.getD_eq_getElem?_getD, hj, Option.getD_some, mem_around h', hadj v w i j hv hj]
    exact hw
  · intro w hw x hx e
    rw [mem_around h] at hw hx
    obtain ⟨j, hj, -⟩ := perm_get hp (adj_lt h hw).2
    obtain ⟨k, hk, -⟩ := perm_get hp (adj_lt h hx).2
    rw [List.getD_eq_getElem?_getD, List.getD_eq_getElem?_getD, hj, hk, Option.getD_some, Option.getD_some] at e
    subst e
    exact perm_inj hp hj hk
  · intro j hj
    rw [mem_around h'] at hj
    obtain ⟨w, hw⟩ := perm_surj hp (by rw [← hs]; exact (adj_lt h' hj).2)
    refine ⟨w, ?_, by rw [List.getD_eq_getElem?_getD, hw]; rfl⟩
    rw [mem_around h, ← hadj v w i j hv hw]
    exact hj

/-- What follows for a renumbered graph: for vertex `a` only the degrees of the vertices up to `a` count. -/
theorem degree_bounds {g g' : Graph} (h : Reachable false g) {p : List Nat} (hp : p.Perm (List.range g.sizeVertex))
    (hg : g.reorder p = .ok (g', g)) (hid : g'.breadthFirst 0 = .ok (List.range g.sizeVertex)) :
    (∀ deg : Nat → Nat, (∀ v, v < g.sizeVertex → g'.degree v = .ok (deg v)) → ∀ a b, Adj g' a b →
      b ≤ 1 + ∑ k ∈ Finset.range (a + 1), (deg k - 1)) ∧
    ∀ most, (∀ v d, g.degree v = .ok d → d ≤ most) → ∀ a b, Adj g' a b → b ≤ 1 + (a + 1) * (most - 1) := by
  obtain ⟨g1, m1, r1, s1, a1⟩ := reorder_spec h hp
  obtain rfl : g1 = g' := congrArg Prod.fst (Out.ok.inj (m1.symm.trans hg))
  rw [← s1] at hid
  refine ⟨fun deg hdeg a b hab => ?_, fun most hmost a b hab => ?_⟩
  · refine (reach_of_identity r1 hid hab).trans (Nat.add_le_add_left (Finset.sum_le_sum fun k hk => ?_) 1)
    have hk' := Finset.mem_range.mp hk
    have := (adj_lt r1 hab).1
    rw [degree_around r1 (hdeg k (by omega))]
  · refine (reach_of_identity r1 hid hab).trans (Nat.add_le_add_left ?_ 1)
    refine (Finset.sum_le_card_nsmul _ _ (most - 1) fun k hk => ?_).trans (by rw [Finset.card_range, smul_eq_mul])
    have hk' := Finset.mem_range.mp hk
    have hkn := (adj_lt r1 hab).1
    obtain ⟨v, hv⟩ := perm_surj hp (i := k) (by omega)
    rw [around_reorder h r1 hp a1 s1 hv]
    obtain ⟨L, hr, -⟩ := reach_rep h
    have hd := hr.degree (v := v) (by rw [← hr.sizeVertex]; exact (perm_lt hp hv).1)
    have := hmost v _ hd
    rw [degree_around h hd]
    omega

/-- C205: `breadth_first`. -/
theorem c205_breadth_first (g : Graph) (h : Reachable false g) (root : Nat) (hroot : root < g.sizeVertex) (p : List Nat)
    (hp : g.breadthFirst root = .ok p) :
    ∃ g', g.reorder p = .ok (g', g) ∧
    (∀ deg : Nat → Nat, (∀ v, v < g.sizeVertex → g'.degree v = .ok (deg v)) → ∀ a b, Adj g' a b →
      b ≤ 1 + ∑ k ∈ Finset.range (a + 1), (deg k - 1)) ∧
    ∀ most, (∀ v d, g.degree v = .ok d → d ≤ most) → ∀ a b, Adj g' a b → b ≤ 1 + (a + 1) * (most - 1) := by
  have hn := reach_small h
  have hc : Spans (Adj g) g.sizeVertex root := by
    by_contra hc
    rw [c17_disconnected_exits g h root (by omega) (.inr hc)] at hp
    simp at hp
  obtain ⟨q, hq, hperm, h0⟩ := c17_breadth_first g h root hroot hc
  obtain rfl : q = p := Out.ok.inj (hq.symm.trans hp)
  obtain ⟨g', e1, hid⟩ := c106_breadth_first g h root hroot q hp
  exact ⟨g', e1, degree_bounds h hperm e1 hid⟩

/-- C205: `cuthill_mckee`, and where no vertex has more than two neighbours also `cuthill_mckee_reverse`. -/
theorem c205_cuthill_mckee (sort : List (Nat × Nat) → List (Nat × Nat)) (hsort : DegreeSort sort) (g : Graph) (h : Reachable false g)
    (root : Nat) (hroot : root < g.sizeVertex ∨ root = sizeMax ∧ 0 < g.sizeVertex) (p : List Nat)
    (hp : g.cuthillMckee sort root = .ok p) :
    ∃ g' q g'', g.reorder p = .ok (g', g) ∧ g.cuthillMckeeReverse sort root = .ok q ∧ g.reorder q = .ok (g'', g) ∧
    (∀ deg : Nat → Nat, (∀ v, v < g.sizeVertex → g'.degree v = .ok (deg v)) → ∀ a b, Adj g' a b →
      b ≤ 1 + ∑ k ∈ Finset.range (a + 1), (deg k - 1)) ∧
    (∀ most, (∀ v d, g.degree v = .ok d → d ≤ most) → ∀ a b, Adj g' a b → b ≤ 1 + (a + 1) * (most - 1)) ∧
    ((∀ v d, g.degree v = .ok d → d ≤ 2) → (∀ a b, Adj g' a b → b ≤ a + 2) ∧ ∀ a b, Adj g'' a b → b ≤ a + 2) := by
  obtain ⟨q, hq, hqp, hqv⟩ := (c20_reverse sort hsort g h root).1 p hp
  obtain ⟨r, hr, hp⟩ : ∃ r, r < g.sizeVertex ∧ g.cuthillMckee sort r = .ok p := by
    rcases hroot with hroot | ⟨rfl, h1⟩
    · exact ⟨root, hroot, hp⟩
    · by_cases hd : ∀ v, v < g.sizeVertex → g.degree v ≠ .ok 0
      · obtain ⟨r, -, h2, -, -, -, h3⟩ := c57_default_root sort g h (by omega) hd
        exact ⟨r, h2, h3.symm.trans hp⟩
      · push Not at hd
        obtain ⟨v, hv, hd⟩ := hd
        rw [c57_isolated_exits sort g h v hv hd] at hp
        simp at hp
  obtain ⟨g', e1, hid⟩ := c106_cuthill_mckee sort hsort g h r hr p hp
  have hpp : p.Perm (List.range g.sizeVertex) := by
    have hn := reach_small h
    have hc : Spans (Adj g) g.sizeVertex r := by
      by_contra hc
      rw [c19_disconnected_exits sort hsort g h r (by omega) (by omega) (.inr hc)] at hp
      simp at hp
    obtain ⟨q, hq, hperm, -⟩ := c19_cuthill_mckee sort hsort g h r hr hc
    rw [hp] at hq
    cases hq
    exact hperm
  obtain ⟨b1, b2⟩ := degree_bounds h hpp e1 hid
  obtain ⟨g'', e2, r2, s2, a2⟩ := reorder_spec h hqp
  obtain ⟨g1, m1, r1, s1, a1⟩ := reorder_spec h hpp
  obtain rfl : g1 = g' := congrArg Prod.fst (Out.ok.inj (m1.symm.trans e1))
  refine ⟨g1, q, g'', e1, hq, e2, b1, b2, fun htwo => ?_⟩
  have key : ∀ a b, Adj g1 a b → b ≤ a + 2 := fun a b hab => by
    have := b2 2 htwo a b hab
    omega
  refine ⟨key, fun i k hik => ?_⟩
  have hl := adj_lt r2 hik
  rw [s2] at hl
  obtain ⟨u, hu⟩ := perm_surj hqp hl.1
  obtain ⟨v, hv⟩ := perm_surj hqp hl.2
  obtain ⟨a, a', c1, c2, c3⟩ := hqv u (perm_lt hqp hu).1
  obtain ⟨b, b', c4, c5, c6⟩ := hqv v (perm_lt hqp hv).1
  obtain rfl := Option.some.inj (c2.symm.trans hu)
  obtain rfl := Option.some.inj (c5.symm.trans hv)
  have hab : Adj g1 a b := (a1 u v a b c1 c4).mpr ((a2 u v _ _ hu hv).mp hik)
  have := key b a ((c02_symmetric g1 r1 _ _).mp hab)
  omega

open Dense Num Lu in
/-- C205: with at most two neighbours each, as on lines and rings, the residual of the direct solver after `cuthill_mckee_reverse` is that
of three operations, whatever the size. -/
theorem c205_direct (sort : List (Nat × Nat) → List (Nat × Nat)) (hsort : DegreeSort sort) (g : Graph) (h : Reachable false g)
    (root : Nat) (hroot : root < g.sizeVertex ∨ root = sizeMax ∧ 0 < g.sizeVertex) (p : List Nat)
    (hp : g.cuthillMckee sort root = .ok p) (htwo : ∀ v d, g.degree v = .ok d → d ≤ 2) :
    ∃ q g', g.cuthillMckeeReverse sort root = .ok q ∧ g.reorder q = .ok (g', g) ∧
    ∀ (n : Nat) (B : Fin n → Fin n → ℚ), (∀ r c, binary64 (B r c) = .fin (B r c)) → Along g' B →
    ∀ (s s' : Lu (Num binary64)) {t : ℚ}, 0 < t → s.tol = fin t →
    factorise (Num.arith binary64) false s (mat fun r c => (fin (B r c) : Num binary64)) = .ok (s', true) →
    ∀ M : Fin n → Fin n → ℚ, s'.lu = mat (fun r c => (fin (M r c) : Num binary64)) →
    ∀ (d x : Fin n → ℚ) (x0 : List (Num binary64)), (∀ r, binary64 (d r) = .fin (d r)) →
    Lu.solve false s' x0 (some (vec fun r => (fin (d r) : Num binary64))) =
      .ok (vec (fun r => (fin (x r) : Num binary64)), true, 1) →
    ∀ r, |d r - ∑ c, B r c * x c| ≤ 3 / 2 ^ 50 * (∑ k, |lowerPart M r k| * ∑ c, |upperPart M k c| * |x c|) +
      18 / 2 ^ 1075 * (1 + 2 * (∑ k, |lowerPart M r k| * (1 + |M k k|)) + ∑ c, (1 + |M c c|) * |x c|) := by
  obtain ⟨g', q, g'', -, h2, h3, -, -, h6⟩ := c205_cuthill_mckee sort hsort g h root hroot p hp
  have hqp : q.Perm (List.range g.sizeVertex) := by
    obtain ⟨q1, k1, k2, -⟩ := (c20_reverse sort hsort g h root).1 p hp
    obtain rfl := Out.ok.inj (k1.symm.trans h2)
    exact k2
  obtain ⟨g1, m1, r1, -⟩ := reorder_spec h hqp
  obtain rfl : g1 = g'' := congrArg Prod.fst (Out.ok.inj (m1.symm.trans h3))
  refine ⟨q, g1, h2, h3, fun n B hB hA s s' t ht hs hf M hM d x x0 hd hx r => ?_⟩
  have := c203_residual s s' ht hs (β := 2) (by norm_num) B hB (along_band r1 (h6 htwo).2 hA) hf M hM d x x0 hd hx r
  rw [show 6 * ((2 + 1 : Nat) : ℚ) = 18 by norm_num, show ((2 + 1 : Nat) : ℚ) = 3 by norm_num] at this
  exact this

/-- A ring of five vertices: numbered along the ring the ends are four apart. After `cuthill_mckee` neighbours are at most two apart. -/
def ringFive : Graph := ⟨[1, 4, 0, 2, 1, 3, 2, 4, 0, 3], [0, 2, 4, 6, 8, 10]⟩

theorem ringFive_reachable : Reachable false ringFive :=
  ⟨[.insert (0, 1), .insert (1, 2), .insert (2, 3), .insert (3, 4), .insert (4, 0)], by simp [Op.Valid, sizeMax], by decide⟩

example : ringFive.cuthillMckee (List.insertionSort fun a b => a.2 ≤ b.2) sizeMax = .ok [0, 1, 3, 4, 2] ∧
    ringFive.reorder [0, 1, 3, 4, 2] = .ok (⟨[1, 2, 0, 3, 0, 4, 1, 4, 2, 3], [0, 2, 4, 6, 8, 10]⟩, ringFive) ∧
    ∀ v, v < 5 → ringFive.degree v = .ok 2 :=
  ⟨by decide +kernel, by decide +kernel, by decide +kernel⟩

/-- A star numbered from a leaf: the centre 1 has three neighbours, so it reaches vertex 3 = 1 + 0 + 2. -/
example : Props.star.breadthFirst 1 = .ok [1, 0, 2, 3] ∧
    Props.star.reorder [1, 0, 2, 3] = .ok (⟨[1, 0, 2, 3, 1, 1], [0, 1, 4, 5, 6]⟩, Props.star) ∧
    (Graph.mk [1, 0, 2, 3, 1, 1] [0, 1, 4, 5, 6]).degree 0 = .ok 1 ∧ (Graph.mk [1, 0, 2, 3, 1, 1] [0, 1, 4, 5, 6]).degree 1 = .ok 3 :=
  ⟨by decide +kernel, by decide +kernel, by decide +kernel, by decide +kernel⟩

end Disa.Props
