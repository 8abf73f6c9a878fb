import Verif.Props.Renumber
import Verif.Props.Split
import Mathlib.Data.Set.Card

/-!
# Property C200: the profile after `cuthill_mckee_reverse`
-/

namespace Disa.Props

open Disa Spec Graph

/-- The position `(i, j)` below the diagonal is in the profile: vertex `i` has a neighbour numbered at most `j`. A skyline storage of
the matrix of the graph stores these positions. -/
def InProfile (g : Graph) (i j : Nat) : Prop := j < i ∧ ∃ k, k ≤ j ∧ Adj g i k

/-- The number of positions in the profile. -/
noncomputable def profile (g : Graph) : Nat := Set.ncard {x : Nat × Nat | InProfile g x.1 x.2}

/-- The profile is finite. -/
theorem profile_finite {g : Graph} (h : Reachable false g) : Set.Finite {x : Nat × Nat | InProfile g x.1 x.2} := by
  refine Set.Finite.subset ((Finset.range g.sizeVertex ×ˢ Finset.range g.sizeVertex).finite_toSet) ?_
  rintro ⟨i, j⟩ ⟨hij, k, -, hk⟩
  have := (adj_lt h hk).1
  simp only [Finset.coe_product, Finset.coe_range, Set.mem_prod, Set.mem_Iio]
  omega

/-- Where breadth first search from vertex 0 leaves the numbers alone, every neighbour `i` of a vertex `k` after `j` gives a
neighbour of `j` at or before `i`. -/
theorem profile_of_identity {g : Graph} (h : Reachable false g) (hid : g.breadthFirst 0 = .ok (List.range g.sizeVertex)) {i j k : Nat}
    (hij : i < j) (hjk : j ≤ k) (hik : Adj g i k) : InProfile g j i := by
  have hn := reach_small h
  have hkn := (adj_lt h hik).2
  have hsp : Spans (Adj g) g.sizeVertex 0 := by
    by_contra hc
    rw [c17_disconnected_exits g h 0 (by omega) (.inr hc)] at hid
    simp at hid
  have hr : ∀ a : Nat, a < g.sizeVertex → (List.range g.sizeVertex)[a]? = some a := fun a ha => List.getElem?_range ha
  have hr' : ∀ a b : Nat, (List.range g.sizeVertex)[a]? = some b → a = b := fun a b hab => by
    obtain ⟨h1, h2⟩ := List.getElem?_eq_some_iff.mp hab
    simpa using h2
  have hmin : ∀ x w, Adj g w x → ∃ l, l ≤ w ∧ Adj g l x ∧ FirstNbr (Adj g) (List.range g.sizeVertex) x l := by
    intro x w hw
    classical
    have hex : ∃ w, Adj g w x := ⟨w, hw⟩
    refine ⟨Nat.find hex, Nat.find_min' hex hw, Nat.find_spec hex,
      ⟨_, Nat.find_spec hex, hr _ (adj_lt h (Nat.find_spec hex)).1⟩, fun w l hw hl => ?_⟩
    rw [← hr' w l hl]
    exact Nat.find_min' hex hw
  obtain ⟨D, hD⟩ := reached_iff.mp (hsp j (by omega))
  obtain ⟨w, hw⟩ : ∃ w, Adj g w j := by
    cases D with
    | zero =>
      obtain ⟨⟨s, rfl, hw⟩, -⟩ := hD
      have : (0 : Nat) = j := hw
      omega
    | succ D =>
      obtain ⟨⟨s, hs, ⟨w, -, hwv⟩⟩, -⟩ := hD
      exact ⟨w, hwv⟩
  obtain ⟨l, hl, hlk, fl⟩ := hmin k i hik
  obtain ⟨m, -, hmj, fm⟩ := hmin j w hw
  refine ⟨hij, m, ?_, (c02_symmetric g h m j).mp hmj⟩
  rcases Nat.lt_or_eq_of_le hjk with hlt | rfl
  · have := (c55_breadth_first_rule g h 0 (by omega) _ hid j k j k m l (hr j (by omega)) (hr k hkn) (by omega) (by omega) fm fl).mp hlt
    omega
  · exact (fm.2 i i hik (hr i (by omega)))

/-- C200: each position in the profile after `cuthill_mckee_reverse` is the mirror image of one in the profile after `cuthill_mckee`,
so reversing never enlarges the profile. -/
theorem c200_profile (sort : List (Nat × Nat) → List (Nat × Nat)) (hsort : DegreeSort sort) (g : Graph) (h : Reachable false g)
    (root : Nat) (hroot : root < g.sizeVertex ∨ root = sizeMax ∧ 0 < g.sizeVertex) (p : List Nat)
    (hp : g.cuthillMckee sort root = .ok p) :
    ∃ g' q g'', g.reorder p = .ok (g', g) ∧ g.cuthillMckeeReverse sort root = .ok q ∧ g.reorder q = .ok (g'', g) ∧
      (∀ i j, InProfile g'' i j → InProfile g' (g.sizeVertex - 1 - j) (g.sizeVertex - 1 - i)) ∧ profile g'' ≤ profile g' := by
  obtain ⟨q, hq, hqp, hqv⟩ := (c20_reverse sort hsort g h root).1 p hp
  obtain ⟨r, hr, hp⟩ : ∃ r, r < g.sizeVertex ∧ g.cuthillMckee sort r = .ok p := by
    rcases hroot with hroot | ⟨rfl, h1⟩
    · exact ⟨root, hroot, hp⟩
    · by_cases hd : ∀ v, v < g.sizeVertex → g.degree v ≠ .ok 0
      · obtain ⟨r, -, h2, -, -, -, h3⟩ := c57_default_root sort g h (by omega) hd
        exact ⟨r, h2, h3.symm.trans hp⟩
      · push Not at hd
        obtain ⟨v, hv, hd⟩ := hd
        rw [c57_isolated_exits sort g h v hv hd] at hp
        simp at hp
  obtain ⟨g', e1, hid⟩ := c106_cuthill_mckee sort hsort g h r hr p hp
  obtain ⟨g'', e2, r2, s2, a2⟩ := reorder_spec h hqp
  have hpp : p.Perm (List.range g.sizeVertex) := by
    have hn := reach_small h
    have hc : Spans (Adj g) g.sizeVertex r := by
      by_contra hc
      rw [c19_disconnected_exits sort hsort g h r (by omega) (by omega) (.inr hc)] at hp
      simp at hp
    obtain ⟨q, hq, hperm, -⟩ := c19_cuthill_mckee sort hsort g h r hr hc
    rw [hp] at hq
    cases hq
    exact hperm
  obtain ⟨g1, m1, r1, s1, a1⟩ := reorder_spec h hpp
  obtain rfl : g1 = g' := congrArg Prod.fst (Out.ok.inj (m1.symm.trans e1))
  rw [← s1] at hid
  have key : ∀ i j, InProfile g'' i j → InProfile g1 (g.sizeVertex - 1 - j) (g.sizeVertex - 1 - i) := by
    rintro i j ⟨hij, k, hkj, hik⟩
    have hl := adj_lt r2 hik
    rw [s2] at hl
    obtain ⟨u, hu⟩ := perm_surj hqp hl.1
    obtain ⟨v, hv⟩ := perm_surj hqp hl.2
    obtain ⟨a, a', b1, b2, b3⟩ := hqv u (perm_lt hqp hu).1
    obtain ⟨b, b', b4, b5, b6⟩ := hqv v (perm_lt hqp hv).1
    obtain rfl := Option.some.inj (b2.symm.trans hu)
    obtain rfl := Option.some.inj (b5.symm.trans hv)
    have hab : Adj g1 a b := (a1 u v a b b1 b4).mpr ((a2 u v _ _ hu hv).mp hik)
    rw [show g.sizeVertex - 1 - a' = a by omega]
    exact profile_of_identity r1 hid (by omega) (by omega) hab
  refine ⟨g1, q, g'', e1, hq, e2, key, ?_⟩
  refine Set.ncard_le_ncard_of_injOn (fun x => (g.sizeVertex - 1 - x.2, g.sizeVertex - 1 - x.1)) (fun x hx => key x.1 x.2 hx) ?_
    (profile_finite r1)
  rintro ⟨i, j⟩ ⟨hij, k, -, hk⟩ ⟨i', j'⟩ ⟨hij', k', -, hk'⟩ he
  have h1 := (adj_lt r2 hk).1
  have h2 := (adj_lt r2 hk').1
  rw [s2] at h1 h2
  simp only [Prod.mk.injEq] at he hij hij'
  ext <;> simp only <;> omega

/-- A star of four vertices with centre 0, numbered from the leaf 1. The reversed numbering has no neighbour before vertex 1, while in
the other one vertex 3 has a neighbour at or before vertex 2. -/
example : Reachable false Props.star ∧ 1 < Props.star.sizeVertex ∧
    DegreeSort (List.insertionSort fun a b => a.2 ≤ b.2) ∧
    Props.star.cuthillMckee (List.insertionSort fun a b => a.2 ≤ b.2) 1 = .ok [1, 0, 2, 3] ∧
    Props.star.reorder [1, 0, 2, 3] = .ok (⟨[1, 0, 2, 3, 1, 1], [0, 1, 4, 5, 6]⟩, Props.star) ∧
    Props.star.cuthillMckeeReverse (List.insertionSort fun a b => a.2 ≤ b.2) 1 = .ok [2, 3, 1, 0] ∧
    Props.star.reorder [2, 3, 1, 0] = .ok (⟨[2, 2, 0, 1, 3, 2], [0, 1, 2, 5, 6]⟩, Props.star) :=
  ⟨star_reachable, by decide, insertionSort_degreeSort, by decide +kernel, by decide +kernel, by decide +kernel, by decide +kernel⟩

example : InProfile ⟨[1, 0, 2, 3, 1, 1], [0, 1, 4, 5, 6]⟩ 3 2 :=
  ⟨by omega, 1, by omega, [1], rfl, by decide⟩

example : ¬ InProfile ⟨[2, 2, 0, 1, 3, 2], [0, 1, 2, 5, 6]⟩ 1 0 := by
  rintro ⟨-, k, hk, r, hr, hkr⟩
  obtain rfl : [2] = r := Out.ok.inj hr
  simp only [List.mem_singleton] at hkr
  omega

end Disa.Props
