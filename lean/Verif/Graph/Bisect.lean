import Verif.Graph.Partition
import Verif.Props.GraphUtil
import Verif.Props.Subgraph

/-! # `recursive_graph_bisection` returns a partition -/

namespace Disa
open Spec Graph Props
namespace Partition

/-- A part as the constructor makes it from a nonempty increasing list. -/
structure IsPart (graph : Graph) (x : Nat) (s : Subgraph) : Prop where
  inv : Subgraph.SubInv graph (· ∈ s.l2g) 0 s
  sorted : s.l2g.Pairwise (· < ·)
  nonempty : 0 < s.l2g.length
  hash : s.hashParent = x

/-- Invariant of the while loop. -/
structure Parts (graph : Graph) (x : Nat) (subs : List Subgraph) : Prop where
  part : ∀ s ∈ subs, IsPart graph x s
  perm : ((subs.map Subgraph.l2g).flatten).Perm (List.range graph.sizeVertex)

theorem idxOf_maxElem {l : List Nat} (h : l ≠ []) : l[l.idxOf (maxElem l)]? = some (maxElem l) := by
  have hm := Subgraph.maxElem_mem h
  rw [List.getElem?_eq_getElem (List.idxOf_lt_length_of_mem hm)]
  simp

theorem largest_get {subs : List Subgraph} (h : subs ≠ []) :
    ∃ s, subs[largest subs]? = some s ∧ ∀ t ∈ subs, t.sizeVertex ≤ s.sizeVertex := by
  have hne : subs.map Subgraph.sizeVertex ≠ [] := by simpa using h
  have hi := idxOf_maxElem hne
  unfold largest
  rw [List.getElem?_map] at hi
  obtain ⟨s, hs, hsv⟩ := Option.map_eq_some_iff.mp hi
  refine ⟨s, hs, fun t ht => ?_⟩
  rw [hsv]
  exact Subgraph.le_maxElem (List.mem_map.mpr ⟨t, ht, rfl⟩)

theorem make_part {graph : Graph} (hp : Reachable false graph) (h : Nat → Nat) {x : Nat}
    (hx : graph.hash h false = .ok x) (hsafe : ∀ v, v < graph.sizeVertex → v < 2 * graph.sizeEdge false)
    (hnew : graph ≠ Graph.new) {part : List Nat} (hs : part.Pairwise (· < ·)) (hlt : ∀ v ∈ part, v < graph.sizeVertex)
    (hne : 0 < part.length) :
    ∃ s, Subgraph.make h graph part 0 = .ok s ∧ s.l2g = part ∧ IsPart graph x s := by
  have hn := reach_small hp
  obtain ⟨del, x', h1, hx', h2⟩ := c23_aux hp h hs hlt
  rw [hx] at hx'
  cases hx'
  rcases c23_returns graph hp h part hs hlt with ⟨_, hb⟩ | ⟨⟨s, hok⟩, _⟩
  · exfalso
    rcases hb with hb | ⟨v, hv, hb⟩
    · exact hnew hb
    · have := hsafe v (hlt v hv); omega
  · have hok' := hok
    rw [h2] at hok
    obtain ⟨g, he, hg⟩ := Out.bind_eq_ok.mp hok
    cases hg
    exact ⟨_, hok', rfl, Subgraph.make_inv hp hs hlt h1 he x, hs, hne, rfl⟩

theorem keepAt_perm (del : Nat → Bool) (l : List α) :
    (Subgraph.keepAt del l ++ Subgraph.keepAt (fun i => !del i) l).Perm l := by
  unfold Subgraph.keepAt
  rw [← List.map_append]
  have h := (List.filter_append_perm (fun p : α × Nat => !del p.2) l.zipIdx).map Prod.fst
  simpa using h

theorem split_ok {s : Subgraph} (hsz : s.sizeVertex = s.l2g.length) {levels : List Nat} (hl : levels.length = s.sizeVertex)
    (mid : Nat) :
    loop levels.length (splitStep s levels mid) ([], []) =
      .ok (Subgraph.keepAt (fun i => decide (mid < levels.getD i 0)) s.l2g,
        Subgraph.keepAt (fun i => !decide (mid < levels.getD i 0)) s.l2g) := by
  obtain ⟨st, h1, h2⟩ := loop_inv (n := levels.length) (body := splitStep s levels mid) (s := ([], []))
    (fun (i : Nat) (st : List Nat × List Nat) =>
      st = (Subgraph.keepAt (fun i => decide (mid < levels.getD i 0)) (s.l2g.take i),
        Subgraph.keepAt (fun i => !decide (mid < levels.getD i 0)) (s.l2g.take i)))
    rfl
    (by
      rintro i st hi rfl
      have hi' : i < s.l2g.length := by omega
      have hi2 : i < s.sizeVertex := by omega
      have e1 : rd levels i = .ok levels[i] := rd_ok hi
      have e2 : s.localGlobal i = .ok s.l2g[i] := by
        simp only [Subgraph.localGlobal, hi2, decide_true, assert_true, Out.ok_bind]
        exact rd_ok hi'
      have e3 : levels.getD i 0 = levels[i] := by simp [hi]
      have e4 : (s.l2g.take i).length = i := by rw [List.length_take]; omega
      rw [Subgraph.take_succ' hi', Subgraph.keepAt_snoc, Subgraph.keepAt_snoc, e4, e3]
      refine ⟨_, ?_, rfl⟩
      unfold splitStep
      simp only [e1, e2, Out.ok_bind]
      by_cases hk : levels[i] ≤ mid
      · have : decide (mid < levels[i]) = false := decide_eq_false (by omega)
        rw [if_pos hk, this]; simp
      · have : decide (mid < levels[i]) = true := decide_eq_true (by omega)
        rw [if_neg hk, this]; simp)
  rw [h1, h2, List.take_of_length_le (by omega)]

/-- The levels of a split part: some vertex is kept and some is not. -/
theorem levels_split {g : Graph} (h : Reachable false g) (h2 : 2 ≤ g.sizeVertex) :
    ∃ p levels, g.pseudoPeripheral 0 = .ok p ∧ g.levelTraversal p sizeMax = .ok levels ∧
      levels.length = g.sizeVertex ∧
      (∃ i : Nat, i < levels.length ∧ levels.getD i 0 ≤ toDouble (maxElem levels / 2)) ∧
      (∃ i : Nat, i < levels.length ∧ toDouble (maxElem levels / 2) < levels.getD i 0) := by
  have hn := reach_small h
  obtain ⟨L, hr, hg⟩ := reach_rep h
  have hL := hr.sizeVertex
  obtain ⟨p, hp, hpl, _⟩ := pseudoPeripheral_ok hr hg (by omega) (start := 0) (by omega)
  obtain ⟨levels, h3, h4, h5⟩ := c12_level_traversal_default false g h (by omega) p (by omega)
  refine ⟨p, levels, hp, h3, h4, ?_, ?_⟩
  · refine ⟨p, by omega, ?_⟩
    rcases h5 p (by omega) with ⟨k, _, hk, hkl⟩ | ⟨_, hno⟩
    · have : k = 0 := hk.unique (isDist_zero.mpr rfl)
      subst this
      simp [hkl]
    · exact absurd ⟨0, p, rfl, rfl⟩ hno
  · have hne : levels ≠ [] := by rintro rfl; simp at h4; omega
    have hm := Subgraph.maxElem_mem hne
    obtain ⟨i, hi, hie⟩ := List.mem_iff_getElem.mp hm
    refine ⟨i, hi, ?_⟩
    have : levels.getD i 0 = maxElem levels := by simp [hi, hie]
    rw [this]
    apply toDouble_lt
    -- a vertex other than `p` has a positive level
    obtain ⟨w, hw, hwp⟩ : ∃ w, w < g.sizeVertex ∧ w ≠ p := by
      by_cases h0 : p = 0
      · exact ⟨1, by omega, by omega⟩
      · exact ⟨0, by omega, by omega⟩
    rcases h5 w hw with ⟨k, _, hk, hkl⟩ | ⟨hmax, _⟩
    · have hle := Subgraph.le_maxElem (List.mem_of_getElem? hkl)
      have : k ≠ 0 := by
        rintro rfl
        exact hwp ((isDist_zero (S := (· = p))).mp hk)
      omega
    · have hle := Subgraph.le_maxElem (List.mem_of_getElem? hmax)
      have : 0 < sizeMax := by decide
      omega

variable {graph : Graph} {x : Nat}

theorem Parts.sum {subs : List Subgraph} (h : Parts graph x subs) :
    ((subs.map Subgraph.l2g).map List.length).sum = graph.sizeVertex := by
  have := h.perm.length_eq
  rw [List.length_flatten, List.length_range] at this
  exact this

theorem sum_le {l : List Nat} {b : Nat} (h : ∀ x ∈ l, x ≤ b) : l.sum ≤ l.length * b := by
  induction l with
  | nil => simp
  | cons a l ih =>
    have h1 := h a (by simp)
    have h2 := ih (fun x hx => h x (by simp [hx]))
    rw [List.sum_cons, List.length_cons, Nat.add_mul, Nat.one_mul]; omega

theorem le_sum {l : List Nat} (h : ∀ x ∈ l, 1 ≤ x) : l.length ≤ l.sum := by
  induction l with
  | nil => simp
  | cons a l ih =>
    have h1 := h a (by simp)
    have h2 := ih (fun x hx => h x (by simp [hx]))
    rw [List.sum_cons, List.length_cons]; omega

theorem Parts.length_le {subs : List Subgraph} (h : Parts graph x subs) : subs.length ≤ graph.sizeVertex := by
  rw [← h.sum]
  have := le_sum (l := (subs.map Subgraph.l2g).map List.length) (by
    intro y hy
    simp only [List.map_map, List.mem_map, Function.comp] at hy
    obtain ⟨s, hs, rfl⟩ := hy
    exact (h.part s hs).nonempty)
  simpa using this

/-- One pass: the largest part is split by the levels of its own graph. -/
theorem bisectStep_form (hp : Reachable false graph) (h : Nat → Nat)
    (hx : graph.hash h false = .ok x) (hsafe : ∀ v, v < graph.sizeVertex → v < 2 * graph.sizeEdge false)
    (hnew : graph ≠ Graph.new) {subs : List Subgraph} (hP : Parts graph x subs) (hne : subs ≠ [])
    (hlen : subs.length < graph.sizeVertex) :
    ∃ s p levels l r, subs[largest subs]? = some s ∧ s.graph.pseudoPeripheral 0 = .ok p ∧
      s.graph.levelTraversal p sizeMax = .ok levels ∧ 2 ≤ s.graph.sizeVertex ∧ s.graph.sizeVertex < sizeMax ∧
      l.l2g = Subgraph.keepAt (fun i => decide (toDouble (maxElem levels / 2) < levels.getD i 0)) s.l2g ∧
      r.l2g = Subgraph.keepAt (fun i => !decide (toDouble (maxElem levels / 2) < levels.getD i 0)) s.l2g ∧
      IsPart graph x l ∧ IsPart graph x r ∧ bisectStep h graph subs = .ok (subs.set (largest subs) l ++ [r]) := by
  have hn := reach_small hp
  obtain ⟨s, hs, hmax⟩ := largest_get hne
  obtain ⟨hi, hie⟩ := List.getElem?_eq_some_iff.mp hs
  have hsm : s ∈ subs := List.mem_of_getElem? hs
  have hpart := hP.part s hsm
  have hsz : s.sizeVertex = s.l2g.length := hpart.inv.size
  have h2 : 2 ≤ s.sizeVertex := by
    by_contra hc
    have : ((subs.map Subgraph.l2g).map List.length).sum ≤ subs.length * 1 := by
      have := sum_le (l := (subs.map Subgraph.l2g).map List.length) (b := 1) (by
        intro y hy
        simp only [List.map_map, List.mem_map, Function.comp] at hy
        obtain ⟨t, ht, rfl⟩ := hy
        have h3 := hmax t ht
        have h4 : t.sizeVertex = t.l2g.length := (hP.part t ht).inv.size
        omega)
      simpa using this
    rw [hP.sum] at this
    omega
  have hsn : s.graph.sizeVertex < sizeMax := by
    have : s.l2g.length ≤ graph.sizeVertex := Subgraph.sorted_length hpart.sorted hpart.inv.lt
    have : s.graph.sizeVertex = s.l2g.length := hpart.inv.size
    omega
  obtain ⟨p, levels, e1, e2, e3, ⟨a, ha, ha2⟩, ⟨b, hb, hb2⟩⟩ := levels_split hpart.inv.reach h2
  have e4 := split_ok hsz e3 (toDouble (maxElem levels / 2))
  generalize hdel : (fun i => decide (toDouble (maxElem levels / 2) < levels.getD i 0)) = del at e4
  have hdel' : (fun i => !decide (toDouble (maxElem levels / 2) < levels.getD i 0)) = fun i => !del i := by
    rw [← hdel]
  rw [hdel'] at e4
  have hsz2 : s.graph.sizeVertex = s.l2g.length := hpart.inv.size
  have hlt : ∀ (d : Nat → Bool), ∀ v ∈ Subgraph.keepAt d s.l2g, v < graph.sizeVertex :=
    fun d v hv => hpart.inv.lt v ((Subgraph.keepAt_sublist d _).subset hv)
  have hsort : ∀ (d : Nat → Bool), (Subgraph.keepAt d s.l2g).Pairwise (· < ·) :=
    fun d => hpart.sorted.sublist (Subgraph.keepAt_sublist d _)
  have hpos : ∀ (d : Nat → Bool) (i : Nat), i < s.l2g.length → d i = false → 0 < (Subgraph.keepAt d s.l2g).length := by
    intro d i hi hd
    exact List.length_pos_of_mem (Subgraph.mem_keepAt.mpr ⟨i, hd, List.getElem?_eq_getElem hi⟩)
  obtain ⟨l, m1, m2, m3⟩ := make_part hp h hx hsafe hnew (hsort del) (hlt del)
    (hpos del a (by omega) (by rw [← hdel]; exact decide_eq_false (by omega)))
  obtain ⟨r, n1, n2, n3⟩ := make_part hp h hx hsafe hnew (hsort (fun i => !del i)) (hlt _)
    (hpos (fun i => !del i) b (by omega) (by rw [← hdel]; simpa using hb2))
  refine ⟨s, p, levels, l, r, hs, e1, e2, h2, hsn, by rw [m2, hdel], by rw [n2, hdel'], m3, n3, ?_⟩
  unfold bisectStep
  simp only [rd_of_some hs, Out.ok_bind, e1, e2, e4, m1, wr_ok hi, n1, Out.pure_eq]

theorem bisectStep_ok (hp : Reachable false graph) (h : Nat → Nat)
    (hx : graph.hash h false = .ok x) (hsafe : ∀ v, v < graph.sizeVertex → v < 2 * graph.sizeEdge false)
    (hnew : graph ≠ Graph.new) {subs : List Subgraph} (hP : Parts graph x subs) (hne : subs ≠ [])
    (hlen : subs.length < graph.sizeVertex) :
    ∃ subs', bisectStep h graph subs = .ok subs' ∧ Parts graph x subs' ∧ subs'.length = subs.length + 1 := by
  obtain ⟨s, p, levels, l, r, hs, -, -, -, -, m2, n2, m3, n3, e⟩ := bisectStep_form hp h hx hsafe hnew hP hne hlen
  obtain ⟨hi, hie⟩ := List.getElem?_eq_some_iff.mp hs
  generalize hdel : (fun i => decide (toDouble (maxElem levels / 2) < levels.getD i 0)) = del at m2
  have hdel' : (fun i => !decide (toDouble (maxElem levels / 2) < levels.getD i 0)) = fun i => !del i := by
    rw [← hdel]
  rw [hdel'] at n2
  refine ⟨subs.set (largest subs) l ++ [r], e, ⟨?_, ?_⟩, by simp⟩
  · intro t ht
    rcases List.mem_append.mp ht with ht | ht
    · rcases List.mem_or_eq_of_mem_set ht with ht | rfl
      · exact hP.part t ht
      · exact m3
    · rw [List.mem_singleton.mp ht]; exact n3
  · refine List.Perm.trans ?_ hP.perm
    have hset : subs.set (largest subs) l = subs.take (largest subs) ++ l :: subs.drop (largest subs + 1) :=
      List.set_eq_take_append_cons_drop .. |>.trans (by rw [if_pos hi])
    have hsub : subs = subs.take (largest subs) ++ s :: subs.drop (largest subs + 1) := by
      rw [← hie, List.cons_getElem_drop_succ, List.take_append_drop]
    conv => rhs; rw [hsub]
    rw [hset]
    simp only [List.map_append, List.map_cons, List.flatten_append, List.flatten_cons, List.map_nil, List.flatten_nil,
      List.append_nil, m2, n2]
    rw [List.append_assoc]
    refine List.Perm.append_left _ ?_
    rw [List.append_assoc]
    refine ((List.perm_append_comm (l₁ := (List.map Subgraph.l2g _).flatten)).append_left _).trans ?_
    rw [← List.append_assoc]
    exact (keepAt_perm del s.l2g).append_right _

theorem bisectStep_exit (h : Nat → Nat) {subs : List Subgraph} (hP : Parts graph x subs) (hne : subs ≠ [])
    (hlen : graph.sizeVertex ≤ subs.length) : bisectStep h graph subs = .exit 1 := by
  obtain ⟨s, hs, hmax⟩ := largest_get hne
  have hsm : s ∈ subs := List.mem_of_getElem? hs
  have hpart := hP.part s hsm
  have hone : ∀ t ∈ subs, t.l2g.length = 1 := by
    by_contra hc
    simp only [not_forall] at hc
    obtain ⟨t, ht, hc⟩ := hc
    have h1 := (hP.part t ht).nonempty
    have hsum := hP.sum
    obtain ⟨a, b, rfl⟩ := List.append_of_mem ht
    have ha := le_sum (l := (a.map Subgraph.l2g).map List.length) (by
      intro y hy
      simp only [List.map_map, List.mem_map, Function.comp] at hy
      obtain ⟨t, ht, rfl⟩ := hy
      exact (hP.part t (by simp [ht])).nonempty)
    have hb := le_sum (l := (b.map Subgraph.l2g).map List.length) (by
      intro y hy
      simp only [List.map_map, List.mem_map, Function.comp] at hy
      obtain ⟨t, ht, rfl⟩ := hy
      exact (hP.part t (by simp [ht])).nonempty)
    simp only [List.map_append, List.map_cons, List.sum_append, List.sum_cons, List.length_append, List.length_cons,
      List.length_map] at hsum ha hb hlen
    omega
  have h1 : s.graph.sizeVertex = 1 := hpart.inv.size.trans (hone s hsm)
  obtain ⟨L, hr, hg⟩ := reach_rep hpart.inv.reach
  have hL := hr.sizeVertex
  obtain ⟨p, hp, hpl, _⟩ := pseudoPeripheral_ok hr hg (by have : 1 < sizeMax := by decide
                                                          omega) (start := 0) (by omega)
  have he := c13_single_vertex_exits false s.graph hpart.inv.reach h1 p sizeMax
  unfold bisectStep
  simp only [rd_of_some hs, Out.ok_bind, hp, he]
  rfl

theorem bisection_ok (hp : Reachable false graph) (h : Nat → Nat)
    (hx : graph.hash h false = .ok x) (hsafe : ∀ v, v < graph.sizeVertex → v < 2 * graph.sizeEdge false)
    {k : Nat} (hk : 0 < k) (hkn : k ≤ graph.sizeVertex) :
    ∃ subs, bisection h graph k = .ok subs ∧ Parts graph x subs ∧ subs.length = k := by
  have hn := reach_small hp
  have hnew : graph ≠ Graph.new := by rintro rfl; simp [Graph.new, Graph.sizeVertex] at hkn; omega
  have hlt : ∀ v ∈ List.range graph.sizeVertex, v < graph.sizeVertex := fun v hv => List.mem_range.mp hv
  obtain ⟨s, h1, h2, h3⟩ := make_part hp h hx hsafe hnew (part := List.range graph.sizeVertex) List.pairwise_lt_range
    hlt (by simp; omega)
  have hP : Parts graph x [s] := ⟨by simpa using h3, by simp [h2]⟩
  obtain ⟨subs, h4, h5, h6, _⟩ := loop_inv (n := k - 1) (body := fun _ subs => bisectStep h graph subs) (s := [s])
    (fun (i : Nat) (subs : List Subgraph) => Parts graph x subs ∧ subs.length = i + 1 ∧ subs ≠ [])
    ⟨hP, rfl, by simp⟩
    (by
      rintro i subs hi ⟨hP, hl, hne⟩
      obtain ⟨subs', e1, e2, e3⟩ := bisectStep_ok hp h hx hsafe hnew hP hne (by omega)
      exact ⟨subs', e1, e2, by omega, by rintro rfl; simp at e3⟩)
  refine ⟨subs, ?_, h5, by omega⟩
  unfold bisection
  rw [decide_eq_true hk]
  simp only [assert_true, Out.ok_bind, h1, h4]

theorem bisection_exit (hp : Reachable false graph) (h : Nat → Nat)
    (hx : graph.hash h false = .ok x) (hsafe : ∀ v, v < graph.sizeVertex → v < 2 * graph.sizeEdge false)
    (h0 : 0 < graph.sizeVertex) {k : Nat} (hkn : graph.sizeVertex < k) : bisection h graph k = .exit 1 := by
  have hn := reach_small hp
  obtain ⟨subs, h1, h2, h3⟩ := bisection_ok hp h hx hsafe (k := graph.sizeVertex) h0 (Nat.le_refl _)
  have hstep := bisectStep_exit h h2 (by rintro rfl; simp at h3; omega) (by omega)
  unfold bisection at h1 ⊢
  rw [decide_eq_true h0] at h1
  rw [decide_eq_true (by omega : k > 0)]
  simp only [assert_true, Out.ok_bind] at h1 ⊢
  obtain ⟨s, h4, h5⟩ := Out.bind_eq_ok.mp h1
  rw [h4, Out.ok_bind]
  have key : ∀ m, graph.sizeVertex ≤ m → loop m (fun _ subs => bisectStep h graph subs) [s] = .exit 1 := by
    intro m hm
    induction m, hm using Nat.le_induction with
    | base =>
      have : graph.sizeVertex = (graph.sizeVertex - 1) + 1 := by omega
      rw [this, loop, h5, Out.ok_bind, hstep]
    | succ m hm ih => rw [loop, ih]; rfl
  exact key (k - 1) (by omega)

end Partition
end Disa
