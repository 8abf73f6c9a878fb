import Verif.Graph.Bisect

/-!
# Properties C25 and C26: partitioning

`hash` is `std::hash<std::size_t>`, about which nothing is assumed.
-/

namespace Disa.Props

open Disa Spec Graph Partition

/-! ### C25 -/

/-- C25: for a part count between one and the number of vertices, `recursive_graph_bisection` returns that many parts.
They are nonempty, every vertex of the graph is in exactly one of them, under one local index, and each part is an
induced subgraph that lists its vertices in increasing order and recognises the graph as its parent. -/
theorem c25_bisection (hash : Nat → Nat) (g : Graph) (h : Reachable false g)
    (hs : g.sizeVertex ≤ 2 * g.sizeEdge false) (k : Nat) (hk : 0 < k) (hkn : k ≤ g.sizeVertex) :
    ∃ subs, bisection hash g k = .ok subs ∧ subs.length = k ∧
      (∀ s ∈ subs, 0 < s.sizeVertex ∧ s.isParent hash g = .ok true ∧
        ∃ f : Nat → Nat, (∀ i j, i < j → j < s.sizeVertex → f i < f j) ∧ (∀ i, i < s.sizeVertex → s.localGlobal i = .ok (f i)) ∧
          (∀ i, i < s.sizeVertex → f i < g.sizeVertex) ∧
          ∀ i j, i < s.sizeVertex → j < s.sizeVertex → (Adj s.graph i j ↔ Adj g (f i) (f j))) ∧
      ∀ v, v < g.sizeVertex → ∃ i j : Nat, (∃ s, subs[i]? = some s ∧ s.localGlobal j = .ok v) ∧
        ∀ i' j' : Nat, (∃ s, subs[i']? = some s ∧ s.localGlobal j' = .ok v) → i' = i ∧ j' = j := by
  have hn := reach_small h
  obtain ⟨x, hx⟩ := Subgraph.hash_ok h hash
  obtain ⟨subs, h1, h2, h3⟩ := bisection_ok h hash hx (fun v hv => by omega) hk hkn
  have key : ∀ s ∈ subs, ∀ (j v : Nat), s.localGlobal j = .ok v ↔ s.l2g[j]? = some v := by
    intro s hs j v
    have hsz : s.sizeVertex = s.l2g.length := (h2.part s hs).inv.size
    unfold Subgraph.localGlobal
    by_cases hj : j < s.sizeVertex
    · simp only [hj, decide_true, assert_true, Out.ok_bind]
      rw [rd_ok (by omega), List.getElem?_eq_getElem (by omega)]
      simp
    · have hj' : ¬ j < s.l2g.length := by omega
      simp [hj, hj', assert]
  refine ⟨subs, h1, h3, ?_, ?_⟩
  · intro s hs
    have hp := h2.part s hs
    have hsz : s.sizeVertex = s.l2g.length := hp.inv.size
    have hget : ∀ i, i < s.sizeVertex → s.l2g[i]? = some (s.l2g.getD i 0) := by
      intro i hi
      have : i < s.l2g.length := by omega
      simp [this]
    refine ⟨by rw [hsz]; exact hp.nonempty, ?_, fun i => s.l2g.getD i 0, ?_, ?_, ?_, ?_⟩
    · unfold Subgraph.isParent; rw [hx, hp.hash]; simp
    · intro i j hij hj
      have hjl : j < s.l2g.length := by omega
      have hil : i < s.l2g.length := by omega
      have := List.pairwise_iff_getElem.mp hp.sorted i j hil hjl hij
      simpa [hil, hjl] using this
    · intro i hi; exact (key s hs i _).mpr (hget i hi)
    · intro i hi; exact hp.inv.lt _ (List.mem_of_getElem? (hget i hi))
    · intro i j hi hj; exact hp.inv.adj i j _ _ (hget i hi) (hget j hj)
  · intro v hv
    have hnd : ((subs.map Subgraph.l2g).flatten).Nodup := h2.perm.nodup_iff.mpr List.nodup_range
    have hm : v ∈ (subs.map Subgraph.l2g).flatten := h2.perm.mem_iff.mpr (List.mem_range.mpr hv)
    rw [List.nodup_flatten] at hnd
    obtain ⟨l, hl, hvl⟩ := List.mem_flatten.mp hm
    obtain ⟨s, hs, rfl⟩ := List.mem_map.mp hl
    obtain ⟨i, hi, his⟩ := List.mem_iff_getElem.mp hs
    obtain ⟨j, hj, hjv⟩ := List.mem_iff_getElem.mp hvl
    refine ⟨i, j, ⟨s, by rw [List.getElem?_eq_getElem hi, his], (key s hs j v).mpr (by
      rw [List.getElem?_eq_getElem hj, hjv])⟩, ?_⟩
    rintro i' j' ⟨t, ht, htv⟩
    have htm := List.mem_of_getElem? ht
    rw [key t htm] at htv
    obtain ⟨hi', hie⟩ := List.getElem?_eq_some_iff.mp ht
    have hii : i' = i := by
      by_contra hne
      have hpw := List.pairwise_iff_getElem.mp hnd.2
      have hdis : ∀ a b (ha : a < subs.length) (hb : b < subs.length), a < b → v ∈ subs[a].l2g → v ∈ subs[b].l2g → False := by
        intro a b ha hb hab h5 h6
        have := hpw a b (by simpa using ha) (by simpa using hb) hab
        simp only [List.getElem_map] at this
        exact this h5 h6
      have hv1 : v ∈ subs[i'].l2g := by rw [hie]; exact List.mem_of_getElem? htv
      have hv2 : v ∈ subs[i].l2g := by rw [his]; exact hvl
      rcases Nat.lt_or_gt_of_ne hne with hlt | hlt
      · exact hdis _ _ hi' hi hlt hv1 hv2
      · exact hdis _ _ hi hi' hlt hv2 hv1
    subst hii
    have hts : t = s := by rw [← hie, his]
    subst hts
    refine ⟨rfl, ?_⟩
    obtain ⟨hj', hje⟩ := List.getElem?_eq_some_iff.mp htv
    exact (List.Nodup.getElem_inj_iff (h2.part t htm).inv.nodup).mp (hje.trans hjv.symm)

/-- C25: no parts at all, or more parts than vertices, exit. -/
theorem c25_bisection_exits (hash : Nat → Nat) (g : Graph) (h : Reachable false g)
    (k : Nat) (hk : k = 0 ∨ (0 < g.sizeVertex ∧ g.sizeVertex ≤ 2 * g.sizeEdge false ∧ g.sizeVertex < k)) :
    bisection hash g k = .exit 1 := by
  have hn := reach_small h
  rcases hk with rfl | ⟨h0, hs, hk⟩
  · rfl
  · obtain ⟨x, hx⟩ := Subgraph.hash_ok h hash
    exact bisection_exit h hash hx (fun v hv => by omega) h0 hk

/-- C25: graphs with more vertices than twice their edges, and the default graph, are undefined behaviour. -/
theorem c25_bisection_ub (hash : Nat → Nat) (g : Graph) (h : Reachable false g) (k : Nat)
    (hk : 0 < k) (hs : g = Graph.new ∨ 2 * g.sizeEdge false < g.sizeVertex) : bisection hash g k = .ub := by
  have hn := reach_small h
  have hlt : ∀ v ∈ List.range g.sizeVertex, v < g.sizeVertex := fun v hv => List.mem_range.mp hv
  have : Subgraph.make hash g (List.range g.sizeVertex) 0 = .ub := by
    rcases c23_returns g h hash (List.range g.sizeVertex) List.pairwise_lt_range hlt with ⟨h1, _⟩ | ⟨_, h2, h3⟩
    · exact h1
    · exfalso
      rcases hs with hs | hs
      · exact h2 hs
      · have := h3 (2 * g.sizeEdge false) (List.mem_range.mpr hs); omega
  unfold bisection
  rw [decide_eq_true hk, this]
  rfl

/-- C25: of a graph without vertices there is one part, and the program exits for more. -/
theorem c25_bisection_empty (hash : Nat → Nat) (g : Graph) (h : Reachable false g) (h0 : g.sizeVertex = 0)
    (hnew : g ≠ Graph.new) (k : Nat) (hk : 0 < k) :
    if k = 1 then ∃ s, bisection hash g k = .ok [s] ∧ s.sizeVertex = 0 else bisection hash g k = .exit 1 := by
  have hn : g.sizeVertex < sizeMax := by rw [h0]; decide
  rcases c23_returns g h hash [] List.Pairwise.nil (by simp) with ⟨_, h1⟩ | ⟨⟨s, h1⟩, _⟩
  · simp at h1; exact absurd h1 hnew
  · obtain ⟨hsz, _⟩ := c23_induced g h hash [] List.Pairwise.nil (by simp) s h1
    have hs0 : s.graph.sizeVertex = 0 := hsz
    have hstep : bisectStep hash g [s] = .exit 1 := by
      have hl : largest [s] = 0 := by simp [largest, maxElem]
      have he : s.graph.empty = true := by
        obtain ⟨x, hx⟩ := Subgraph.hash_ok h hash
        obtain ⟨L, hr, _⟩ := reach_rep (reach_inv h hx List.Pairwise.nil (by simp) (by decide) (.make (B := sizeMax - 1) (by decide) h1)).1.reach
        rw [hr.empty]; rw [hr.sizeVertex] at hs0; exact decide_eq_true hs0
      have hpp : s.graph.pseudoPeripheral 0 = .exit 1 := by
        unfold pseudoPeripheral; rw [he]; rfl
      unfold bisectStep
      simp only [hl, rd, List.getElem?_cons_zero, Out.ok_bind, hpp]
      rfl
    unfold bisection
    rw [decide_eq_true hk, h0]
    simp only [assert_true, Out.ok_bind, List.range_zero, h1]
    by_cases hk1 : k = 1
    · rw [if_pos hk1]
      subst hk1
      exact ⟨s, rfl, hsz⟩
    · rw [if_neg hk1]
      have key : ∀ m, 1 ≤ m → loop m (fun _ subs => bisectStep hash g subs) [s] = .exit 1 := by
        intro m hm
        induction m, hm using Nat.le_induction with
        | base => rw [loop, loop, Out.ok_bind, hstep]
        | succ m hm ih => rw [loop, ih]; rfl
      exact key (k - 1) (by omega)

example : kite.sizeVertex ≤ 2 * kite.sizeEdge false ∧
    bisection id kite 3 = .ok [⟨⟨[], [0, 0]⟩, [1], [], 3⟩, ⟨⟨[1, 0], [0, 1, 2]⟩, [2, 3], [], 3⟩, ⟨⟨[], [0, 0]⟩, [0], [], 3⟩] := by
  decide +kernel

/-! ### C26 -/

/-- The full C26.  It is false, see `c26_violated`. -/
def C26 : Prop :=
  ∀ (hash : Nat → Nat) (g : Graph) (maxIter : Nat) (subs : List Subgraph), Reachable false g →
    2 ≤ subs.length → (∀ s ∈ subs, ∃ part, part.Pairwise (· < ·) ∧ (∀ v ∈ part, v < g.sizeVertex) ∧
      SubReach hash g part (sizeMax - 1) 0 s) → multinode hash g maxIter subs ≠ .ub

theorem parents_ok {hash : Nat → Nat} {g : Graph} {subs : List Subgraph} (h : ∀ s ∈ subs, s.isParent hash g = .ok true) :
    subs.foldlM (fun b s => if b then s.isParent hash g else pure false) true = Out.ok true := by
  induction subs with
  | nil => rfl
  | cons s l ih =>
    rw [List.foldlM_cons]
    simp only [if_true, h s (by simp), Out.ok_bind]
    exact ih (fun t ht => h t (by simp [ht]))

/-- C26: whatever the other arguments are, the call is undefined as soon as the graph has an edge and there are two
parts that recognise it as their parent. -/
theorem c26_multinode_ub (hash : Nat → Nat) (g : Graph) (h : Reachable false g)
    (he : ∃ u v, Adj g u v) (maxIter : Nat) (subs : List Subgraph) (h2 : 2 ≤ subs.length)
    (hp : ∀ s ∈ subs, s.isParent hash g = .ok true) : multinode hash g maxIter subs = .ub := by
  have hn := reach_small h
  unfold multinode
  have e1 : subs.isEmpty = false := by cases subs with
    | nil => simp at h2
    | cons => rfl
  have e2 : (subs.length == 1) = false := by rw [beq_eq_false_iff_ne]; omega
  rw [e1, parents_ok hp, e2, (c16_eccentricity_ub_iff g h []).mpr he]
  rfl

/-- C26 does not hold: already for the result of `recursive_graph_bisection` on a path. -/
theorem c26_violated : ¬ C26 := by
  intro hc
  have hs : ∀ s ∈ [(⟨⟨[1, 0], [0, 1, 2]⟩, [1, 2], [], 1⟩ : Subgraph), ⟨⟨[], [0, 0]⟩, [0], [], 1⟩],
      ∃ part, part.Pairwise (· < ·) ∧ (∀ v ∈ part, v < path3.sizeVertex) ∧ SubReach id path3 part (sizeMax - 1) 0 s := by
    intro s hs
    simp only [List.mem_cons, List.not_mem_nil, or_false] at hs
    rcases hs with rfl | rfl
    · exact ⟨[1, 2], by decide, by decide, .make (by decide) (by decide +kernel)⟩
    · exact ⟨[0], by decide, by decide, .make (by decide) (by decide +kernel)⟩
  refine hc id path3 1 _ path3_reachable (by decide) hs ?_
  refine c26_multinode_ub id path3 path3_reachable ⟨0, 1, [1], rfl, by decide⟩ 1 _ (by decide) ?_
  intro s hs'
  obtain ⟨part, h1, h2, h3⟩ := hs s hs'
  exact c60_own_parent_partial id path3 part 0 s path3_reachable h1 h2 h3

example : bisection id path3 2 =
    .ok [⟨⟨[1, 0], [0, 1, 2]⟩, [1, 2], [], 1⟩, ⟨⟨[], [0, 0]⟩, [0], [], 1⟩] := by
  decide +kernel

/-- C26 for one part, which is returned unchanged, and for the calls that exit.  Missing from the full statement: two or
more parts. -/
theorem c26_multinode_small_partial (hash : Nat → Nat) (g : Graph) (h : Reachable false g) (maxIter : Nat) :
    multinode hash g maxIter [] = .exit 1 ∧
    (∀ s : Subgraph, s.isParent hash g = .ok true → multinode hash g maxIter [s] = .ok [s]) ∧
    ∀ subs : List Subgraph, (∃ s ∈ subs, s.isParent hash g = .ok false) → multinode hash g maxIter subs = .exit 1 := by
  refine ⟨rfl, ?_, ?_⟩
  · intro s hs
    unfold multinode
    rw [parents_ok (by simpa using hs)]
    rfl
  · intro subs hbad
    obtain ⟨x, hx⟩ := Subgraph.hash_ok h hash
    have hf : ∀ l : List Subgraph, l.foldlM (fun b s => if b then s.isParent hash g else pure false) false = Out.ok false := by
      intro l
      induction l with
      | nil => rfl
      | cons s l ih => rw [List.foldlM_cons]; exact ih
    have key : ∀ l : List Subgraph, (∃ s ∈ l, s.isParent hash g = .ok false) →
        l.foldlM (fun b s => if b then s.isParent hash g else pure false) true = Out.ok false := by
      intro l
      induction l with
      | nil => simp
      | cons s l ih =>
        rintro ⟨t, ht, htb⟩
        have hsp : s.isParent hash g = .ok (x == s.hashParent) := by unfold Subgraph.isParent; rw [hx]; rfl
        rw [List.foldlM_cons, if_pos rfl, hsp, Out.ok_bind]
        cases hb : (x == s.hashParent) with
        | false => exact hf l
        | true =>
          rcases List.mem_cons.mp ht with rfl | ht
          · rw [hsp, hb] at htb; cases htb
          · exact ih ⟨t, ht, htb⟩
    have e1 : subs.isEmpty = false := by
      obtain ⟨s, hs, _⟩ := hbad
      cases subs with
      | nil => simp at hs
      | cons => rfl
    unfold multinode
    rw [e1, key subs hbad]
    rfl

end Disa.Props
