import Verif.Graph.SubAccess
import Verif.Props.SubResize
import Verif.Props.Capacity

/-!
# Property C182: access to subgraphs and their storage
-/

namespace Disa.Props

open Disa Spec Graph

open Classical in
/-- What a program reads from a subgraph, for the vertex mapping `f`. -/
structure Reads (parent : Graph) (s : Subgraph) (f : Nat → Nat) : Prop where
  inj : ∀ i j, i < s.sizeVertex → j < s.sizeVertex → f i = f j → i = j
  mapping : ∀ i, i < s.sizeVertex → s.localGlobal i = .ok (f i)
  rows : ∀ i, i < s.sizeVertex → ∃ r p, s.nbrs i = .ok r ∧ s.at' i = .ok r ∧ s.degree i = .ok r.length ∧
    r.Pairwise (· < ·) ∧ (∀ j, j ∈ r ↔ j < s.sizeVertex ∧ Adj parent (f i) (f j)) ∧
    parent.nbrs (f i) = .ok p ∧ (r.map f).Perm (p.filter fun v => ∃ j, j < s.sizeVertex ∧ f j = v)
  range : ∀ i, s.sizeVertex ≤ i → s.nbrs i = .exit 1 ∧ s.at' i = .exit 1 ∧ s.degree i = .exit 1
  edges : ∀ i j, i ≠ j → ∃ b, s.contains (i, j) = .ok b ∧
    (b = true ↔ i < s.sizeVertex ∧ j < s.sizeVertex ∧ Adj parent (f i) (f j))
  loops : ∀ i, s.contains (i, i) = .exit 1
  ends : 0 < s.sizeVertex → s.front = s.nbrs 0 ∧ s.back = s.nbrs (s.sizeVertex - 1)
  none : s.sizeVertex = 0 → s.front = .exit 1 ∧ s.back = .exit 1
  empty : s.empty = decide (s.sizeVertex = 0)
  size : s.size = (s.sizeVertex, s.sizeEdge)
  count : s.sizeEdge = ((Finset.range s.sizeVertex ×ˢ Finset.range s.sizeVertex).filter
    fun q => q.1 < q.2 ∧ Adj parent (f q.1) (f q.2)).card


theorem reads {parent : Graph} (hp : Reachable false parent) {S : Nat → Prop} {m : Nat} {s : Subgraph} {f : Nat → Nat}
    (hr : Reachable false s.graph) (h : IsLevelSubgraph parent S m s f)
    (hlt : ∀ i, i < s.sizeVertex → f i < parent.sizeVertex) : Reads parent s f := by
  obtain ⟨L, h1, h2⟩ := reach_rep hr
  obtain ⟨P, p1, p2⟩ := reach_rep hp
  obtain ⟨q1, q2, q3, q4, q5, q6⟩ := c10_queries_safe false s.graph hr
  have hsz : s.sizeVertex = L.length := h1.sizeVertex
  have hadj : ∀ i j, j ∈ row L i ↔ i < s.sizeVertex ∧ j < s.sizeVertex ∧ Adj parent (f i) (f j) := by
    intro i j
    constructor
    · intro hj
      have hj' := h2.range i j hj
      have hi' := h2.range j i (h2.symm rfl i j hj)
      rw [hsz]
      refine ⟨hi', hj', (h.edges i j (by rw [hsz]; exact hi') (by rw [hsz]; exact hj')).mp (h1.adj_iff.mpr hj)⟩
    · rintro ⟨hi, hj, ha⟩
      exact h1.adj_iff.mp ((h.edges i j hi hj).mpr ha)
  refine ⟨h.injective, h.mapping, ?_, fun v hv => ⟨(q4 v hv).1, (q4 v hv).1, (q4 v hv).2.2⟩, ?_, fun i => q2 (i, i) rfl, ?_, q6, ?_, rfl, ?_⟩
  · intro i hi
    have hi' : i < L.length := by rw [← hsz]; exact hi
    have hlt : f i < P.length := by rw [← p1.sizeVertex]; exact hlt i hi
    refine ⟨row L i, row P (f i), h1.nbrs hi', h1.nbrs hi', h1.degree hi', h2.sorted i, ?_, p1.nbrs hlt, ?_⟩
    · intro j
      rw [hadj]
      exact ⟨fun h => h.2, fun h => ⟨hi, h⟩⟩
    · have n1 : (row L i).Nodup := (h2.sorted i).imp (fun h => Nat.ne_of_lt h)
      have n2 : (row P (f i)).Nodup := (p2.sorted _).imp (fun h => Nat.ne_of_lt h)
      rw [List.perm_ext_iff_of_nodup]
      · intro v
        simp only [List.mem_map, List.mem_filter, decide_eq_true_eq]
        constructor
        · rintro ⟨j, hj, rfl⟩
          obtain ⟨_, hj2, ha⟩ := (hadj i j).mp hj
          exact ⟨p1.adj_iff.mp ha, j, hj2, rfl⟩
        · rintro ⟨hv, j, hj, rfl⟩
          exact ⟨j, (hadj i j).mpr ⟨hi, hj, p1.adj_iff.mpr hv⟩, rfl⟩
      · refine List.Nodup.map_on ?_ n1
        intro x hx y hy hxy
        exact h.injective x y ((hadj i x).mp hx).2.1 ((hadj i y).mp hy).2.1 hxy
      · exact n2.filter _
  · intro i j hij
    obtain ⟨b, hb, hb'⟩ := q1 (i, j) hij
    exact ⟨b, hb, by rw [hb', h1.adj_iff, hadj]⟩
  · intro hpos
    obtain ⟨r, t, e1, e2, e3, e4⟩ := q5 hpos
    exact ⟨e1.trans e2.symm, e3.trans e4.symm⟩
  · show s.graph.empty = _
    rw [h1.empty, hsz]
  · show s.graph.sizeEdge false = _
    rw [h1.sizeEdge h2]
    simp only [Bool.false_eq_true, if_false]
    congr 1
    ext q
    rw [mem_upPairs h2, hadj]
    simp only [Finset.mem_filter, Finset.mem_product, Finset.mem_range]
    tauto

/-- C182: what the functions of a subgraph return are the edges of the parent between its vertices. -/
theorem c182_reads (parent : Graph) (hash : Nat → Nat) (part : List Nat) (m : Nat) (s : Subgraph)
    (hp : Reachable false parent) (hs : part.Pairwise (· < ·)) (hlt : ∀ v ∈ part, v < parent.sizeVertex)
    (hr : SubReach hash parent part (sizeMax - 1) m s) : ∃ f, Reads parent s f := by
  obtain ⟨x, hx⟩ := Subgraph.hash_ok hp hash
  obtain ⟨hI, _⟩ := reach_inv hp hx hs hlt (by decide) hr
  have hf := hI.spec
  refine ⟨_, reads hp hI.reach hf ?_⟩
  intro i hi
  have hm := hf.mapping i hi
  unfold Subgraph.localGlobal at hm
  rw [show s.sizeVertex = s.l2g.length from hI.size] at hm hi
  simp only [hi, decide_true, assert_true, Out.ok_bind] at hm
  rw [rd_ok hi, Out.ok.injEq] at hm
  rw [← hm]
  exact hI.lt _ (List.getElem_mem hi)

/-- What holds of a subgraph with its storage. -/
def SubFits (h : Nat → Nat) (parent : Graph) (part : List Nat) (B : Nat) (c : SubRoom) : Prop :=
  SubSized h parent part B c.sub ∧ c.sub.graph.off.length ≤ c.off ∧ c.sub.graph.adj.length ≤ c.adj ∧
    c.sub.l2g.length ≤ c.l2g ∧ c.sub.lev.length ≤ c.lev

theorem sub_fits {a : Alloc} {h : Nat → Nat} {parent : Graph} (hp : Reachable false parent) {part : List Nat}
    (hs : part.Pairwise (· < ·)) (hlt : ∀ v ∈ part, v < parent.sizeVertex) {c : SubRoom}
    (hc : SubHeld a h parent part (sizeMax - 1) c) : SubFits h parent part (sizeMax - 1) c := by
  induction hc with
  | start h0 h1 h2 h3 h4 => exact ⟨h0, h1, h2, h3, h4⟩
  | @reserve c v e c' _ hr ih =>
    obtain ⟨h0, h1, h2, h3, h4⟩ := ih
    simp only [SubRoom.reserve, Out.bind_eq_ok] at hr
    obtain ⟨r, k1, k2⟩ := hr
    unfold Room.reserve at k1
    generalize (if (!false) = true then 2 else 1) = k at k1
    split at k1
    · rw [Out.ok.injEq] at k1
      split at k2
      · rw [Out.pure_eq, Out.ok.injEq] at k2
        rw [← k2, ← k1]
        exact ⟨h0, Nat.le_trans h1 (fit_ge a _ _ _).1, Nat.le_trans h2 (fit_ge a _ _ _).1,
          Nat.le_trans h3 (fit_ge a _ _ _).1, Nat.le_trans h4 (fit_ge a _ _ _).1⟩
      · cases k2
    · cases k1
  | shrink _ ih =>
    obtain ⟨h0, h1, h2, h3, h4⟩ := ih
    exact ⟨h0, a.shrink_ge _ _ h1, a.shrink_ge _ _ h2, a.shrink_ge _ _ h3, a.shrink_ge _ _ h4⟩
  | clear _ ih =>
    obtain ⟨h0, h1, h2, h3, h4⟩ := ih
    exact ⟨.clear h0, Nat.zero_le _, Nat.zero_le _, Nat.zero_le _, Nat.zero_le _⟩
  | @resize c n c' _ hn hr ih =>
    obtain ⟨h0, h1, h2, h3, h4⟩ := ih
    simp only [SubRoom.resize, Out.bind_eq_ok, Out.pure_eq, Out.ok.injEq] at hr
    obtain ⟨s, k1, r, k2, k3⟩ := hr
    have hz := sized hp hs hlt h0
    obtain ⟨L, r1, r2⟩ := reach_rep hz.reach
    have hL := reach_small hz.reach
    rw [r1.sizeVertex] at hL
    obtain ⟨L', f1, f2, f3, f4, f5⟩ := room_step (a := a) (d := false) (c := c.room) (c' := r) (op := .call (.resize n))
      (L := L) ⟨r1, r2, hL, h1, h2⟩ hn k2
    obtain ⟨g, g1, g2, g3, g4, g5⟩ := resize_sized hz hn
    have hg : r.graph = g := by
      unfold Room.resize SubRoom.room at k2
      simp only [g1, Out.ok_bind, Out.pure_eq, Out.ok.injEq] at k2
      rw [← k2]
    rw [k1, Out.ok.injEq] at g5
    rw [← k3]
    refine ⟨.resize h0 hn k1, ?_, ?_, ?_, ?_⟩
    · show s.graph.off.length ≤ r.off
      rw [g5]; rw [hg] at f4; exact f4
    · show s.graph.adj.length ≤ r.adj
      rw [g5]; rw [hg] at f5; exact f5
    · show s.l2g.length ≤ a.fit c.l2g c.sub.l2g.length n
      rw [g5]
      show (resizeList c.sub.l2g n 0).length ≤ _
      rw [resizeList_len]
      exact (fit_ge a _ _ _).2
    · show s.lev.length ≤ if !c.sub.lev.isEmpty then a.fit c.lev c.sub.lev.length n else c.lev
      rw [g5]
      show (if !c.sub.lev.isEmpty then resizeList c.sub.lev n 0 else c.sub.lev).length ≤ _
      split
      · rw [resizeList_len]
        exact (fit_ge a _ _ _).2
      · exact h4
  | swapFst _ _ _ ih => exact ih
  | swapSnd _ _ ih _ => exact ih

/-- C182: whatever was called before, the four capacities are at least the number of vertices, of edges, of vertices, and
of levels held. -/
theorem c182_sizes (a : Alloc) (h : Nat → Nat) (parent : Graph) (part : List Nat) (hp : Reachable false parent)
    (hs : part.Pairwise (· < ·)) (hlt : ∀ v ∈ part, v < parent.sizeVertex) (c : SubRoom)
    (hc : SubHeld a h parent part (sizeMax - 1) c) :
    c.sub.sizeVertex ≤ c.capacity.1 ∧ c.sub.sizeEdge ≤ c.capacity.2.1 ∧ c.sub.sizeVertex ≤ c.capacity.2.2.1 ∧
      c.sub.lev.length ≤ c.capacity.2.2.2 := by
  obtain ⟨h0, h1, h2, h3, h4⟩ := sub_fits hp hs hlt hc
  have hz := sized hp hs hlt h0
  obtain ⟨L, r1, r2⟩ := reach_rep hz.reach
  have hL := reach_small hz.reach
  rw [r1.sizeVertex] at hL
  obtain ⟨q1, q2⟩ := fits_sizes (d := false) (c := c.room) (L := L) ⟨r1, r2, hL, h1, h2⟩
  refine ⟨q1, q2, ?_, h4⟩
  rw [← hz.size]
  exact h3

/-- C182: `reserve` ends the program or makes room for the vertices in three vectors and for the edges in the fourth,
without changing the subgraph or taking capacity away.  No vector holds `2^64 - 1` elements. -/
theorem c182_reserve (a : Alloc) (ha : a.max < sizeMax) (c c' : SubRoom) (v e : Nat) (he : e * 2 ≤ sizeMax)
    (hr : c.reserve a v e = .ok c') :
    c'.sub = c.sub ∧ v ≤ c'.capacity.1 ∧ e ≤ c'.capacity.2.1 ∧ v ≤ c'.capacity.2.2.1 ∧ v ≤ c'.capacity.2.2.2 ∧
      c.capacity.1 ≤ c'.capacity.1 ∧ c.capacity.2.1 ≤ c'.capacity.2.1 ∧ c.capacity.2.2.1 ≤ c'.capacity.2.2.1 ∧
      c.capacity.2.2.2 ≤ c'.capacity.2.2.2 := by
  simp only [SubRoom.reserve, Out.bind_eq_ok] at hr
  obtain ⟨r, k1, k2⟩ := hr
  split at k2
  · rename_i hv
    rw [Out.pure_eq, Out.ok.injEq] at k2
    obtain ⟨h1, h2, h3, h4, h5⟩ := c142_reserve_partial a false c.room r v e (by omega) (by simpa using he) k1
    rw [← k2]
    exact ⟨rfl, h2, h3, (fit_ge a _ _ _).2, (fit_ge a _ _ _).2, h4, h5, (fit_ge a _ _ _).1, (fit_ge a _ _ _).1⟩
  · cases k2

/-- C182: too many vertices end the program. -/
theorem c182_reserve_exits (a : Alloc) (c : SubRoom) (v e : Nat) (hv : a.max < v) : c.reserve a v e = .throw := by
  unfold SubRoom.reserve
  have : c.room.reserve a false v e = .throw ∨ ∃ r, c.room.reserve a false v e = .ok r := by
    unfold Room.reserve
    generalize (if (!false) = true then 2 else 1) = k
    split
    · exact .inr ⟨_, rfl⟩
    · exact .inl rfl
  rcases this with h | ⟨r, h⟩ <;> rw [h]
  · rfl
  · simp only [Out.ok_bind]
    rw [if_neg (by omega)]

/-- C182: resizing to what was reserved moves none of the vectors that have an element for every vertex, and never the
edges. -/
theorem c182_resize (a : Alloc) (h : Nat → Nat) (parent : Graph) (part : List Nat) (hp : Reachable false parent)
    (hs : part.Pairwise (· < ·)) (hlt : ∀ v ∈ part, v < parent.sizeVertex) (c c' : SubRoom)
    (hc : SubHeld a h parent part (sizeMax - 1) c) (n : Nat) (hn : n < sizeMax) (h0 : c.off ≠ 0)
    (h1 : n ≤ c.capacity.1) (h2 : n ≤ c.capacity.2.2.1) (h3 : n ≤ c.capacity.2.2.2) (hr : c.resize a n = .ok c') :
    c'.capacity = c.capacity := by
  obtain ⟨g0, g1, g2, g3, g4⟩ := sub_fits hp hs hlt hc
  have hz := sized hp hs hlt g0
  obtain ⟨L, r1, r2⟩ := reach_rep hz.reach
  have hL := reach_small hz.reach
  rw [r1.sizeVertex] at hL
  simp only [SubRoom.resize, Out.bind_eq_ok, Out.pure_eq, Out.ok.injEq] at hr
  obtain ⟨s, _, r, k2, k3⟩ := hr
  unfold Room.resize at k2
  simp only [Out.bind_eq_ok, Out.pure_eq, Out.ok.injEq] at k2
  obtain ⟨g, _, k2⟩ := k2
  have hw : wrap (n + 1) = n + 1 := by unfold wrap; unfold sizeMax at hn; exact Nat.mod_eq_of_lt (by omega)
  have ho : r.off = c.off := by
    rw [← k2]
    show a.fit c.off c.sub.graph.off.length (wrap (n + 1)) = c.off
    rw [hw]
    apply fit_eq
    have : n ≤ if c.off = 0 then 0 else c.off - 1 := h1
    rw [if_neg h0] at this
    omega
  have hj : r.adj = c.adj := by
    rw [← k2]
    show (if c.sub.graph.sizeVertex < n then c.adj
      else a.fit c.adj c.sub.graph.adj.length ((resizeList c.sub.graph.off (n + 1) 0).getLastD 0)) = c.adj
    split
    · rfl
    · rename_i hle
      apply fit_eq
      rw [r1.sizeVertex] at hle
      by_cases hne : L = []
      · subst hne
        have hn0 : n = 0 := by simpa using hle
        subst hn0
        have : (resizeList c.sub.graph.off (0 + 1) 0).getLastD 0 = 0 := by
          rcases r1.2 with h | ⟨_, h⟩ <;> rw [h] <;> rfl
        rw [this]; exact Nat.zero_le _
      · have hoff := r1.off hne
        have hlast : (resizeList c.sub.graph.off (n + 1) 0).getLastD 0 = psum L n := by
          have : resizeList c.sub.graph.off (n + 1) 0 = (offs L).take (n + 1) := by
            unfold resizeList
            rw [hoff, Nat.sub_eq_zero_of_le (by rw [offs_length]; omega)]
            simp
          rw [this, List.getLastD_eq_getLast?, List.getLast?_take, if_neg (by omega)]
          simp only [Nat.add_sub_cancel]
          rw [offs_getElem? L (by omega)]
          simp
        rw [hlast]
        have := psum_le L n
        rw [r1.1] at g2
        omega
  rw [← k3]
  unfold SubRoom.capacity Room.capacity SubRoom.room
  simp only
  rw [ho, hj, fit_eq a (show n ≤ c.l2g from h2)]
  congr 3
  split
  · exact fit_eq a h3
  · rfl

/-- C182: reserving and then resizing to at most the vertices reserved keeps the capacities. -/
theorem c182_reserve_resize (a : Alloc) (ha : a.max < sizeMax) (h : Nat → Nat) (parent : Graph) (part : List Nat)
    (hp : Reachable false parent) (hs : part.Pairwise (· < ·)) (hlt : ∀ v ∈ part, v < parent.sizeVertex) (c c1 c2 : SubRoom)
    (hc : SubHeld a h parent part (sizeMax - 1) c) (v e n : Nat) (he : e * 2 ≤ sizeMax) (hn : n ≤ v)
    (hr : c.reserve a v e = .ok c1) (hz : c1.resize a n = .ok c2) : c2.capacity = c1.capacity := by
  have hv : v ≤ a.max := by
    by_contra hh
    rw [c182_reserve_exits a c v e (by omega)] at hr
    cases hr
  obtain ⟨_, h1, _, h3, h4, _⟩ := c182_reserve a ha c c1 v e he hr
  refine c182_resize a h parent part hp hs hlt c1 c2 (.reserve hc hr) n (by omega) ?_ (by omega) (by omega) (by omega) hz
  simp only [SubRoom.reserve, Out.bind_eq_ok] at hr
  obtain ⟨r, k1, k2⟩ := hr
  rw [if_pos hv, Out.pure_eq, Out.ok.injEq] at k2
  unfold Room.reserve at k1
  generalize (if (!false) = true then 2 else 1) = k at k1
  split at k1
  · rw [Out.ok.injEq] at k1
    rw [← k2, ← k1]
    have := (fit_ge a c.room.off c.room.graph.off.length (wrap (v + 1))).2
    have hw : wrap (v + 1) = v + 1 := by unfold wrap; unfold sizeMax at ha; exact Nat.mod_eq_of_lt (by omega)
    rw [hw] at this ⊢
    show a.fit c.room.off c.room.graph.off.length (v + 1) ≠ 0
    omega
  · cases k1

/-- C182: `shrink_to_fit` changes no content, `clear` no capacity, and `swap` exchanges both. -/
theorem c182_others (a : Alloc) (c d : SubRoom) :
    (c.shrinkToFit a).sub = c.sub ∧ c.clear.capacity = c.capacity ∧ c.clear.sub.sizeVertex = 0 ∧ c.clear.sub.sizeEdge = 0 ∧
      c.clear.sub.l2g = [] ∧ c.swap d = (d, c) :=
  ⟨rfl, rfl, rfl, by simp [SubRoom.clear, Subgraph.sizeEdge, Subgraph.clear, Graph.clear, Graph.sizeEdge], rfl, rfl⟩

/-- C182: if `shrink_to_fit` of a vector leaves no unused storage, `capacity` gives the sizes afterwards. -/
theorem c182_shrink (a : Alloc) (ha : ∀ c n, a.shrink c n = n) (c : SubRoom) :
    (c.shrinkToFit a).capacity = (c.sub.sizeVertex, c.sub.sizeEdge, c.sub.l2g.length, c.sub.lev.length) := by
  unfold SubRoom.shrinkToFit SubRoom.capacity SubRoom.room Room.shrinkToFit Room.capacity Subgraph.sizeVertex
    Subgraph.sizeEdge Graph.sizeVertex Graph.sizeEdge
  simp only [ha]
  cases c.sub.graph.off <;> simp

example : ∀ c n, exactAlloc.shrink c n = n := fun _ _ => rfl

/-- The first two vertices of a path of three, in storage that just holds them. -/
def twoOfThree : SubRoom := ⟨⟨⟨[1, 0], [0, 1, 2]⟩, [0, 1], [0, 1], 3 ^^^ 2 ^^^ 1 ^^^ 1⟩, 3, 2, 2, 2⟩

theorem twoOfThree_reach : SubReach id path3 [0] (sizeMax - 1) 1 twoOfThree.sub := .make (by decide) (by decide +kernel)

example : SubHeld exactAlloc id path3 [0] (sizeMax - 1) twoOfThree :=
  .start (.reach twoOfThree_reach) (by decide) (by decide) (by decide) (by decide)

example : exactAlloc.max < sizeMax := by decide

/-- What the claims say of it. -/
example : twoOfThree.sub.nbrs 1 = .ok [0] ∧ twoOfThree.sub.at' 2 = .exit 1 ∧ twoOfThree.sub.degree 0 = .ok 1 ∧
    twoOfThree.sub.contains (0, 1) = .ok true ∧ twoOfThree.sub.contains (1, 2) = .ok false ∧ twoOfThree.sub.size = (2, 1) ∧
    twoOfThree.capacity = (2, 1, 2, 2) := by decide

example : ∃ c c', twoOfThree.reserve exactAlloc 5 7 = .ok c ∧ c.capacity = (5, 7, 5, 5) ∧ c.resize exactAlloc 4 = .ok c' ∧
    c'.capacity = (5, 7, 5, 5) ∧ (c'.shrinkToFit exactAlloc).capacity = (4, 1, 4, 4) :=
  ⟨_, _, rfl, rfl, rfl, by decide, by decide⟩

end Disa.Props
