import Verif.Props.Split

/-!
# Property C147: more parts refine fewer parts
-/

namespace Disa.Props

open Disa Spec Graph Partition

theorem bisection_succ {hash : Nat → Nat} {g : Graph} {k : Nat} {subs : List Subgraph} (hk : 0 < k)
    (hb : bisection hash g k = .ok subs) : bisection hash g (k + 1) = bisectStep hash g subs := by
  unfold bisection at hb ⊢
  rw [decide_eq_true hk] at hb
  rw [decide_eq_true (show k + 1 > 0 by omega)]
  simp only [assert_true, Out.ok_bind] at hb ⊢
  obtain ⟨s, h1, h2⟩ := Out.bind_eq_ok.mp hb
  rw [h1, Out.ok_bind, show k + 1 - 1 = (k - 1) + 1 by omega, loop, h2]
  rfl

theorem largest_first {subs : List Subgraph} {s : Subgraph} (hs : subs[largest subs]? = some s) {j : Nat} {t : Subgraph}
    (hj : j < largest subs) (ht : subs[j]? = some t) : t.sizeVertex ≠ s.sizeVertex := by
  have hne : subs.map Subgraph.sizeVertex ≠ [] := by
    intro h
    rw [List.map_eq_nil_iff] at h
    subst h
    simp at hs
  have h1 := idxOf_maxElem hne
  rw [List.getElem?_map] at h1
  change Option.map _ subs[largest subs]? = _ at h1
  rw [hs] at h1
  simp only [Option.map_some, Option.some.injEq] at h1
  intro he
  have h2 : (subs.map Subgraph.sizeVertex)[j]? = some (maxElem (subs.map Subgraph.sizeVertex)) := by
    rw [List.getElem?_map, ht, Option.map_some, he, h1]
  obtain ⟨h3, h4⟩ := List.getElem?_eq_some_iff.mp h2
  have h5 : j < (subs.map Subgraph.sizeVertex).idxOf (maxElem (subs.map Subgraph.sizeVertex)) := hj
  have h6 := List.not_of_lt_findIdx h5
  rw [h4] at h6
  simp at h6

/-- C147: asking for one more part splits the first of the largest parts in two and keeps the others.  The inner half stays in
its place, the outer half comes last; the halves are the levels of the part up to half the highest one, and the others. -/
theorem c147_step (hash : Nat → Nat) (g : Graph) (h : Reachable false g) (hn : g.sizeVertex ≤ 2 ^ 53) (k : Nat)
    (hk : k < g.sizeVertex) (subs : List Subgraph) (hb : bisection hash g k = .ok subs) :
    ∃ (i p : Nat) (levels : List Nat) (s l r : Subgraph), subs[i]? = some s ∧
      bisection hash g (k + 1) = .ok (subs.set i l ++ [r]) ∧
      (∀ t ∈ subs, t.sizeVertex ≤ s.sizeVertex) ∧ (∀ j t, j < i → subs[j]? = some t → t.sizeVertex < s.sizeVertex) ∧
      s.graph.pseudoPeripheral 0 = .ok p ∧ s.graph.levelTraversal p sizeMax = .ok levels ∧ levels.length = s.sizeVertex ∧
      (∀ v, v ∈ l.l2g ↔ ∃ a d : Nat, levels[a]? = some d ∧ s.l2g[a]? = some v ∧ d ≤ maxElem levels / 2) ∧
      (∀ v, v ∈ r.l2g ↔ ∃ a d : Nat, levels[a]? = some d ∧ s.l2g[a]? = some v ∧ maxElem levels / 2 < d) := by
  have h0 : 0 < g.sizeVertex := by omega
  obtain ⟨hk0, -, hnew, hsafe⟩ := bisection_cases h h0 hb
  obtain ⟨x, hx⟩ := Subgraph.hash_ok h hash
  obtain ⟨subs', h1, h2, h3⟩ := bisection_ok h hash hx hsafe hk0 hk.le
  rw [hb] at h1
  cases h1
  have hne : subs ≠ [] := by rintro rfl; simp at h3; omega
  obtain ⟨s, p, levels, l, r, e1, e2, e3, e4, e5, e6, e7, e8, e9, e10⟩ :=
    bisectStep_form h hash hx hsafe hnew h2 hne (by omega)
  obtain ⟨s', hs', hmax⟩ := largest_get hne
  rw [e1] at hs'
  cases hs'
  have hpart := h2.part s (List.mem_of_getElem? e1)
  have hsz : s.sizeVertex = s.l2g.length := hpart.inv.size
  obtain ⟨L, hr, hg⟩ := reach_rep hpart.inv.reach
  have hL := hr.sizeVertex
  obtain ⟨p', hp, hpl, _⟩ := pseudoPeripheral_ok hr hg (by omega) (start := 0) (by omega)
  rw [e2] at hp
  cases hp
  obtain ⟨out, o1, o2, o3⟩ := c12_level_traversal_default false s.graph hpart.inv.reach (by omega) p (by omega)
  rw [e3] at o1
  cases o1
  have o2' : levels.length = s.sizeVertex := o2
  have hkeep : ∀ (f : Nat → Bool) v, v ∈ Subgraph.keepAt (fun i => f (levels.getD i 0)) s.l2g ↔
      ∃ a d : Nat, levels[a]? = some d ∧ s.l2g[a]? = some v ∧ f d = false := by
    intro f v
    rw [Subgraph.mem_keepAt]
    constructor
    · rintro ⟨i, f1, f2⟩
      have hi : i < levels.length := by
        have := (List.getElem?_eq_some_iff.mp f2).1
        omega
      refine ⟨i, levels[i], List.getElem?_eq_getElem hi, f2, ?_⟩
      simpa [List.getD_eq_getElem?_getD, hi] using f1
    · rintro ⟨i, d, d1, d2, d3⟩
      exact ⟨i, by simpa [List.getD_eq_getElem?_getD, d1] using d3, d2⟩
  -- the conversion to a floating point number and back
  have hd : ∀ d ∈ levels, (toDouble (maxElem levels / 2) < d ↔ maxElem levels / 2 < d) := by
    intro d hd
    by_cases hm : maxElem levels / 2 < 2 ^ 53
    · rw [show toDouble (maxElem levels / 2) = maxElem levels / 2 from if_pos hm]
    · -- some vertex is out of reach: all levels are small or the largest index
      have hl : s.l2g.length ≤ g.sizeVertex := Subgraph.sorted_length hpart.sorted hpart.inv.lt
      have hlev : ∀ e ∈ levels, e < g.sizeVertex ∨ e = sizeMax := by
        intro e he
        obtain ⟨a, ha⟩ := List.mem_iff_getElem?.mp he
        have hal : a < s.graph.sizeVertex := by rw [← o2]; exact (List.getElem?_eq_some_iff.mp ha).1
        rcases o3 a hal with ⟨k, k0, -, k2⟩ | ⟨k1, -⟩
        · rw [ha] at k2
          cases k2
          have : s.graph.sizeVertex = s.l2g.length := hpart.inv.size
          left; omega
        · rw [ha] at k1
          cases k1
          exact .inr rfl
      have hmm : maxElem levels = sizeMax := by
        rcases hlev _ (Subgraph.maxElem_mem (by rintro rfl; simp at hd)) with h | h
        · omega
        · exact h
      have hv : toDouble (maxElem levels / 2) = 2 ^ 63 := by rw [hmm]; decide
      rw [hv, hmm]
      rcases hlev d hd with h | h
      · unfold sizeMax; constructor <;> intro _ <;> omega
      · rw [h]; decide
  refine ⟨largest subs, p, levels, s, l, r, e1, ?_, hmax, ?_, e2, e3, o2', fun v => ?_, fun v => ?_⟩
  · rw [bisection_succ hk0 hb, e10]
  · intro j t hj ht
    exact lt_of_le_of_ne (hmax t (List.mem_of_getElem? ht)) (largest_first e1 hj ht)
  · rw [e6, hkeep (fun d => decide (toDouble (maxElem levels / 2) < d))]
    constructor
    · rintro ⟨a, d, d1, d2, d3⟩
      refine ⟨a, d, d1, d2, ?_⟩
      have := hd d (List.mem_of_getElem? d1)
      rw [decide_eq_false_iff_not, this] at d3
      omega
    · rintro ⟨a, d, d1, d2, d3⟩
      refine ⟨a, d, d1, d2, ?_⟩
      rw [decide_eq_false_iff_not, hd d (List.mem_of_getElem? d1)]
      omega
  · rw [e7, hkeep (fun d => !decide (toDouble (maxElem levels / 2) < d))]
    constructor
    · rintro ⟨a, d, d1, d2, d3⟩
      refine ⟨a, d, d1, d2, ?_⟩
      rw [Bool.not_eq_false', decide_eq_true_iff, hd d (List.mem_of_getElem? d1)] at d3
      exact d3
    · rintro ⟨a, d, d1, d2, d3⟩
      refine ⟨a, d, d1, d2, ?_⟩
      rw [Bool.not_eq_false', decide_eq_true_iff, hd d (List.mem_of_getElem? d1)]
      exact d3

/-- C147: each of more parts lies in one of fewer parts. -/
theorem c147_nested (hash : Nat → Nat) (g : Graph) (h : Reachable false g) (hn : g.sizeVertex ≤ 2 ^ 53) (k m : Nat)
    (hkm : k ≤ m) (hm : m ≤ g.sizeVertex) (subs fine : List Subgraph) (hb : bisection hash g k = .ok subs)
    (hf : bisection hash g m = .ok fine) :
    ∀ t ∈ fine, ∃ s ∈ subs, ∀ v ∈ t.l2g, v ∈ s.l2g := by
  induction m, hkm using Nat.le_induction generalizing fine with
  | base =>
    rw [hb] at hf
    cases hf
    exact fun t ht => ⟨t, ht, fun v hv => hv⟩
  | succ m hkm ih =>
    have h0 : 0 < g.sizeVertex := by omega
    obtain ⟨hk0, -, hnew, hsafe⟩ := bisection_cases h h0 hb
    obtain ⟨x, hx⟩ := Subgraph.hash_ok h hash
    obtain ⟨mid, h1, -, -⟩ := bisection_ok h hash hx hsafe (show 0 < m by omega) (by omega)
    obtain ⟨i, p, levels, s, l, r, e1, e2, e3, e4, e5, e6, e7, e8, e9⟩ := c147_step hash g h hn m (by omega) mid h1
    rw [hf] at e2
    cases e2
    have ih' := ih (by omega) mid h1
    obtain ⟨u, hu, hsub⟩ := ih' s (List.mem_of_getElem? e1)
    intro t ht
    rcases List.mem_append.mp ht with ht | ht
    · rcases List.mem_or_eq_of_mem_set ht with ht | rfl
      · exact ih' t ht
      · refine ⟨u, hu, fun v hv => hsub v ?_⟩
        obtain ⟨a, d, -, d2, -⟩ := (e8 v).mp hv
        exact List.mem_of_getElem? d2
    · rw [List.mem_singleton] at ht
      subst ht
      refine ⟨u, hu, fun v hv => hsub v ?_⟩
      obtain ⟨a, d, -, d2, -⟩ := (e9 v).mp hv
      exact List.mem_of_getElem? d2

/-- C147: the largest part does not grow with the number of parts. -/
theorem c147_largest (hash : Nat → Nat) (g : Graph) (h : Reachable false g) (hn : g.sizeVertex ≤ 2 ^ 53) (k m : Nat)
    (hkm : k ≤ m) (hm : m ≤ g.sizeVertex) (subs fine : List Subgraph) (hb : bisection hash g k = .ok subs)
    (hf : bisection hash g m = .ok fine) (t : Subgraph) (ht : t ∈ fine) : ∃ s ∈ subs, t.sizeVertex ≤ s.sizeVertex := by
  rcases Nat.eq_zero_or_pos g.sizeVertex with h0 | h0
  · obtain rfl : k = m := by omega
    rw [hb] at hf
    cases hf
    exact ⟨t, ht, le_rfl⟩
  · obtain ⟨s, hs, hsub⟩ := c147_nested hash g h hn k m hkm hm subs fine hb hf t ht
    obtain ⟨hk0, -, hnew, hsafe⟩ := bisection_cases h h0 hb
    obtain ⟨x, hx⟩ := Subgraph.hash_ok h hash
    obtain ⟨mid, h1, h2, -⟩ := bisection_ok h hash hx hsafe hk0 (show k ≤ g.sizeVertex by omega)
    obtain ⟨fin, h3, h4, -⟩ := bisection_ok h hash hx hsafe (show 0 < m by omega) hm
    rw [hb] at h1
    cases h1
    rw [hf] at h3
    cases h3
    refine ⟨s, hs, ?_⟩
    have i1 : t.sizeVertex = t.l2g.length := (h4.part t ht).inv.size
    have i2 : s.sizeVertex = s.l2g.length := (h2.part s hs).inv.size
    rw [i1, i2]
    have hnd : t.l2g.Nodup := (h4.part t ht).sorted.imp fun h => Nat.ne_of_lt h
    exact (hnd.subperm hsub).length_le

example : bisection id star 2 = .ok [⟨⟨[1, 0], [0, 1, 2]⟩, [0, 2], [], 5⟩, ⟨⟨[], [0, 0, 0]⟩, [1, 3], [], 5⟩] ∧
    bisection id star 3 = .ok [⟨⟨[], [0, 0]⟩, [2], [], 5⟩, ⟨⟨[], [0, 0, 0]⟩, [1, 3], [], 5⟩, ⟨⟨[], [0, 0]⟩, [0], [], 5⟩] := by
  decide +kernel

end Disa.Props
