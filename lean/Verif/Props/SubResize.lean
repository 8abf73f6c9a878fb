import Verif.Props.Subgraph

/-!
# Property C143: subgraphs that are resized, cleared and swapped
-/

namespace Disa.Props

open Disa Spec Graph

theorem resizeList_get {l : List Nat} {n i : Nat} (hi : i < n) : rd (resizeList l n 0) i = .ok ((l[i]?).getD 0) := by
  unfold resizeList
  apply rd_of_some
  by_cases h : i < l.length
  · rw [List.getElem?_append_left (by rw [List.length_take]; omega), List.getElem?_take, if_pos hi,
      List.getElem?_eq_getElem h]
    rfl
  · rw [List.getElem?_append_right (by rw [List.length_take]; omega), List.length_take,
      List.getElem?_replicate, if_pos (by omega), List.getElem?_eq_none (by omega)]
    rfl

theorem resizeList_len (l : List Nat) (n : Nat) : (resizeList l n 0).length = n := by
  unfold resizeList
  rw [List.length_append, List.length_take, List.length_replicate]
  omega

/-- The vectors of a subgraph have the same size. -/
structure Sized (s : Subgraph) : Prop where
  reach : Reachable false s.graph
  size : s.l2g.length = s.sizeVertex
  lev : s.lev = [] ∨ s.lev.length = s.sizeVertex

theorem reachable_new : Reachable false Graph.new := ⟨[], by simp, rfl⟩

theorem resize_sized {s : Subgraph} (h : Sized s) {n : Nat} (hn : n < sizeMax) :
    ∃ g, s.graph.resize false n = .ok g ∧ g.sizeVertex = n ∧ Reachable false g ∧
      (∀ u v, Adj g u v ↔ u < n ∧ v < n ∧ Adj s.graph u v) ∧
      s.resize false n = .ok ⟨g, resizeList s.l2g n 0, if !s.lev.isEmpty then resizeList s.lev n 0 else s.lev,
        if s.sizeVertex < n then 0 else s.hashParent⟩ := by
  obtain ⟨g, h1, h2, h3⟩ := c06_resize false s.graph h.reach hn
  refine ⟨g, h1, h2, Graph.Reachable.step h.reach (op := .resize n) hn h1, h3, ?_⟩
  unfold Subgraph.resize
  rw [h1]
  rfl

theorem sized_resize {s s' : Subgraph} (h : Sized s) {n : Nat} (hn : n < sizeMax) (hr : s.resize false n = .ok s') :
    Sized s' := by
  obtain ⟨g, h1, h2, h3, _, h4⟩ := resize_sized h hn
  rw [hr, Out.ok.injEq] at h4
  subst h4
  refine ⟨h3, ?_, ?_⟩
  · show (resizeList s.l2g n 0).length = g.sizeVertex
    rw [resizeList_len, h2]
  · show (if !s.lev.isEmpty then resizeList s.lev n 0 else s.lev) = [] ∨ _
    cases hl : s.lev with
    | nil => left; rfl
    | cons x l =>
      right
      show (resizeList (x :: l) n 0).length = g.sizeVertex
      rw [resizeList_len, h2]

theorem sized {h : Nat → Nat} {parent : Graph} (hp : Reachable false parent) {part : List Nat}
    (hs : part.Pairwise (· < ·)) (hlt : ∀ v ∈ part, v < parent.sizeVertex) {s : Subgraph}
    (hr : SubSized h parent part (sizeMax - 1) s) : Sized s := by
  induction hr with
  | @reach m s hr =>
    obtain ⟨x, hx⟩ := Subgraph.hash_ok hp h
    obtain ⟨hI, _⟩ := reach_inv hp hx hs hlt (by decide) hr
    refine ⟨hI.reach, hI.size.symm, ?_⟩
    rcases hI.lev with ⟨h1, _⟩ | ⟨h1, _⟩
    · exact .inl h1
    · exact .inr (h1.trans hI.size.symm)
  | resize _ hn hr ih => exact sized_resize ih hn hr
  | clear _ _ => exact ⟨reachable_new, rfl, .inl rfl⟩

/-- C143 as stated in the properties file, the part about the parent. -/
def C143 : Prop := ∀ (h : Nat → Nat) (parent : Graph) (part : List Nat) (s s' : Subgraph) (n : Nat), Reachable false parent →
  part.Pairwise (· < ·) → (∀ v ∈ part, v < parent.sizeVertex) → 0 < parent.sizeVertex → SubSized h parent part (sizeMax - 1) s →
  n < sizeMax → s.sizeVertex < n → s.resize false n = .ok s' → s'.isParent h parent = .ok false

/-- C143: `resize` of a subgraph (with the stray write of C07 dropped).  Remaining vertices keep their edges, global index
and level.  New vertices are isolated and claim to be the vertex 0 of the parent. -/
theorem c143_resize (h : Nat → Nat) (parent : Graph) (part : List Nat) (s : Subgraph) (hp : Reachable false parent)
    (hs : part.Pairwise (· < ·)) (hlt : ∀ v ∈ part, v < parent.sizeVertex) (hr : SubSized h parent part (sizeMax - 1) s)
    (n : Nat) (hn : n < sizeMax) :
    ∃ s', s.resize false n = .ok s' ∧ s'.sizeVertex = n ∧
      (∀ u v, Adj s'.graph u v ↔ u < n ∧ v < n ∧ Adj s.graph u v) ∧
      (∀ i, i < n → i < s.sizeVertex → s'.localGlobal i = s.localGlobal i ∧ s'.vertexLevel i = s.vertexLevel i ∧
        s'.isLocal i = s.isLocal i) ∧
      (∀ i, i < n → s.sizeVertex ≤ i → s'.localGlobal i = .ok 0 ∧ s'.vertexLevel i = .ok 0 ∧ s'.isLocal i = .ok true) := by
  have hz := sized hp hs hlt hr
  obtain ⟨g, h1, h2, h3, h4, h5⟩ := resize_sized hz hn
  refine ⟨_, h5, h2, h4, ?_, ?_⟩
  · intro i hi hi'
    have hg : (⟨g, resizeList s.l2g n 0, if !s.lev.isEmpty then resizeList s.lev n 0 else s.lev,
        if s.sizeVertex < n then 0 else s.hashParent⟩ : Subgraph).sizeVertex = n := h2
    have hl : rd s.l2g i = .ok ((s.l2g[i]?).getD 0) := by
      rw [List.getElem?_eq_getElem (by rw [hz.size]; exact hi')]
      exact rd_ok (by rw [hz.size]; exact hi')
    have hv : s.lev ≠ [] → rd s.lev i = .ok ((s.lev[i]?).getD 0) := by
      intro hne
      have := hz.lev.resolve_left hne
      rw [List.getElem?_eq_getElem (by rw [this]; exact hi')]
      exact rd_ok (by rw [this]; exact hi')
    refine ⟨?_, ?_, ?_⟩
    · unfold Subgraph.localGlobal
      rw [hg, resizeList_get hi, hl]
      simp [hi, hi']
    · unfold Subgraph.vertexLevel
      rw [hg]
      cases hlev : s.lev with
      | nil => simp [hi, hi']
      | cons x l =>
        have hv := hv (by rw [hlev]; simp)
        have hne : (resizeList (x :: l) n 0).isEmpty = false := by
          rw [List.isEmpty_eq_false_iff, ← List.length_pos_iff, resizeList_len]; omega
        rw [hlev] at hv
        simp only [List.isEmpty_cons, Bool.not_false, if_true, hne, Bool.false_eq_true, if_false, resizeList_get hi, hv, hi, hi']
    · unfold Subgraph.isLocal
      rw [hg]
      cases hlev : s.lev with
      | nil => simp [hi, hi']
      | cons x l =>
        have hv := hv (by rw [hlev]; simp)
        have hne : (resizeList (x :: l) n 0).isEmpty = false := by
          rw [List.isEmpty_eq_false_iff, ← List.length_pos_iff, resizeList_len]; omega
        rw [hlev] at hv
        simp only [List.isEmpty_cons, Bool.not_false, if_true, hne, Bool.false_eq_true, if_false, resizeList_get hi, hv, hi, hi']
  · intro i hi hi'
    have hg : (⟨g, resizeList s.l2g n 0, if !s.lev.isEmpty then resizeList s.lev n 0 else s.lev,
        if s.sizeVertex < n then 0 else s.hashParent⟩ : Subgraph).sizeVertex = n := h2
    have hl : (s.l2g[i]?).getD 0 = 0 := by
      rw [List.getElem?_eq_none (by rw [hz.size]; exact hi')]; rfl
    have hv : (s.lev[i]?).getD 0 = 0 := by
      rw [List.getElem?_eq_none]
      · rfl
      · rcases hz.lev with h | h
        · rw [h]; simp
        · rw [h]; exact hi'
    refine ⟨?_, ?_, ?_⟩
    · unfold Subgraph.localGlobal
      rw [hg, resizeList_get hi, hl]
      simp [hi]
    · unfold Subgraph.vertexLevel
      rw [hg]
      cases hlev : s.lev with
      | nil => simp [hi]
      | cons x l =>
        have hne : (resizeList (x :: l) n 0).isEmpty = false := by
          rw [List.isEmpty_eq_false_iff, ← List.length_pos_iff, resizeList_len]; omega
        rw [hlev] at hv
        simp [hne, resizeList_get hi, hv, hi]
    · unfold Subgraph.isLocal
      rw [hg]
      cases hlev : s.lev with
      | nil => simp [hi]
      | cons x l =>
        have hne : (resizeList (x :: l) n 0).isEmpty = false := by
          rw [List.isEmpty_eq_false_iff, ← List.length_pos_iff, resizeList_len]; omega
        rw [hlev] at hv
        simp [hne, resizeList_get hi, hv, hi]

/-- C143: shrinking is undefined exactly when shrinking the graph is (C07). -/
theorem c143_ub_iff (h : Nat → Nat) (parent : Graph) (part : List Nat) (s : Subgraph) (hp : Reachable false parent)
    (hs : part.Pairwise (· < ·)) (hlt : ∀ v ∈ part, v < parent.sizeVertex) (hr : SubSized h parent part (sizeMax - 1) s)
    (n : Nat) : s.resize true n = .ub ↔ 0 < n ∧ n ≤ s.sizeVertex := by
  have hz := sized hp hs hlt hr
  have := c07_resize_ub_iff false s.graph hz.reach n
  show _ ↔ 0 < n ∧ n ≤ s.graph.sizeVertex
  rw [← this]
  unfold Subgraph.resize
  cases s.graph.resize true n <;> simp

/-- C143: a subgraph that does not grow keeps its parent. -/
theorem c143_shrunk_parent (h : Nat → Nat) (parent g : Graph) (part : List Nat) (s s' : Subgraph) (hp : Reachable false parent)
    (hs : part.Pairwise (· < ·)) (hlt : ∀ v ∈ part, v < parent.sizeVertex) (hr : SubSized h parent part (sizeMax - 1) s)
    (n : Nat) (hn : n < sizeMax) (hle : n ≤ s.sizeVertex) (hres : s.resize false n = .ok s') :
    s'.isParent h g = s.isParent h g := by
  have hz := sized hp hs hlt hr
  obtain ⟨g', h1, h2, h3, h4, h5⟩ := resize_sized hz hn
  rw [hres, Out.ok.injEq] at h5
  subst h5
  unfold Subgraph.isParent
  rw [if_neg (show ¬ s.sizeVertex < n by omega)]

/-- C143: a subgraph that has grown takes those graphs for its parent whose hash is zero, the hash of the empty graph. -/
theorem c143_grown_parent (h : Nat → Nat) (parent g : Graph) (part : List Nat) (s s' : Subgraph) (hp : Reachable false parent)
    (hs : part.Pairwise (· < ·)) (hlt : ∀ v ∈ part, v < parent.sizeVertex) (hr : SubSized h parent part (sizeMax - 1) s)
    (n : Nat) (hn : n < sizeMax) (hlt' : s.sizeVertex < n) (hres : s.resize false n = .ok s') (hg : Reachable false g) :
    ∃ x, g.hash h false = .ok x ∧ s'.isParent h g = .ok (x == 0) := by
  have hz := sized hp hs hlt hr
  obtain ⟨g', h1, h2, h3, h4, h5⟩ := resize_sized hz hn
  rw [hres, Out.ok.injEq] at h5
  subst h5
  obtain ⟨x, hx⟩ := Subgraph.hash_ok hg h
  refine ⟨x, hx, ?_⟩
  unfold Subgraph.isParent
  rw [hx, if_pos hlt']
  rfl

/-- C143, parents whose hash is not that of the empty graph. -/
theorem c143_parent_partial (h : Nat → Nat) (parent : Graph) (part : List Nat) (s s' : Subgraph) (hp : Reachable false parent)
    (hs : part.Pairwise (· < ·)) (hlt : ∀ v ∈ part, v < parent.sizeVertex) (hr : SubSized h parent part (sizeMax - 1) s)
    (n : Nat) (hn : n < sizeMax) (hlt' : s.sizeVertex < n) (hres : s.resize false n = .ok s')
    (hne : parent.hash h false ≠ .ok 0) : s'.isParent h parent = .ok false := by
  obtain ⟨x, h1, h2⟩ := c143_grown_parent h parent parent part s s' hp hs hlt hr n hn hlt' hres hp
  rw [h2]
  rw [h1] at hne
  have : x ≠ 0 := fun e => hne (by rw [e])
  simpa using this

/-- C143: whatever `std::hash` is, a parent with as many edges as vertices whose first and last vertex have equally many
neighbours, such as a cycle, is still taken for the parent of a subgraph that has grown. -/
theorem c143_cycle (h : Nat → Nat) (parent : Graph) (part : List Nat) (s s' : Subgraph) (hp : Reachable false parent)
    (hs : part.Pairwise (· < ·)) (hlt : ∀ v ∈ part, v < parent.sizeVertex) (hr : SubSized h parent part (sizeMax - 1) s)
    (n : Nat) (hn : n < sizeMax) (hlt' : s.sizeVertex < n) (hres : s.resize false n = .ok s') (hv : 0 < parent.sizeVertex)
    (he : parent.sizeEdge false = parent.sizeVertex) (hd : parent.degree 0 = parent.degree (parent.sizeVertex - 1)) :
    s'.isParent h parent = .ok true := by
  obtain ⟨x, h1, h2⟩ := c143_grown_parent h parent parent part s s' hp hs hlt hr n hn hlt' hres hp
  obtain ⟨a, b, k1, k2, k3⟩ := c11_hash_value false parent hp h hv
  rw [hd, k2, Out.ok.injEq] at k1
  rw [k3, he, k1, Nat.xor_self, Nat.zero_xor, Nat.xor_self, Out.ok.injEq] at h1
  rw [h2, ← h1]
  rfl

/-- The cycle with three vertices. -/
def triangle : Graph := ⟨[1, 2, 0, 2, 0, 1], [0, 2, 4, 6]⟩

theorem triangle_reachable : Reachable false triangle :=
  ⟨[.insert (0, 1), .insert (1, 2), .insert (0, 2)], by simp [Op.Valid, sizeMax], by decide⟩

/-- C143 fails: a subgraph of a triangle that has grown still belongs to the triangle. -/
theorem c143_violated : ¬ C143 := by
  intro h
  have hr : SubSized id triangle [0] (sizeMax - 1) ⟨⟨[], [0, 0]⟩, [0], [], 0⟩ :=
    .reach (m := 0) (.make (by decide) (by decide +kernel))
  have h1 := h id triangle [0] _ ⟨⟨[], [0, 0, 0]⟩, [0, 0], [], 0⟩ 2 triangle_reachable (by decide) (by decide) (by decide) hr
    (by decide) (by decide) (by decide +kernel)
  exact absurd h1 (by decide +kernel)

/-- There `update_levels` accepts the triangle and connects only one of the two copies of its first vertex. -/
theorem c143_wrong : ∃ s s' t gl, SubSized id triangle [0] (sizeMax - 1) s ∧ s.resize true 2 = .ok s' ∧
    s'.updateLevels id triangle 1 none = .ok (t, gl) ∧ t.localGlobal 0 = .ok 0 ∧ t.localGlobal 1 = .ok 0 ∧
    t.localGlobal 2 = .ok 1 ∧ t.graph.contains (0, 2) = .ok false ∧ triangle.contains (0, 1) = .ok true :=
  ⟨⟨⟨[], [0, 0]⟩, [0], [], 0⟩, ⟨⟨[], [0, 0, 0]⟩, [0, 0], [], 0⟩, ⟨⟨[2, 3, 1, 3, 1, 2], [0, 0, 2, 4, 6]⟩, [0, 0, 1, 2], [0, 0, 1, 1], 0⟩,
    none, .reach (m := 0) (.make (by decide) (by decide +kernel)), by decide +kernel, by decide +kernel, by decide +kernel,
    by decide +kernel, by decide +kernel, by decide +kernel, by decide +kernel⟩

/-- C143: `clear` removes everything, and the parent. -/
theorem c143_clear (h : Nat → Nat) (s : Subgraph) (g : Graph) (hg : Reachable false g) : s.clear.sizeVertex = 0 ∧
    s.clear.graph.sizeEdge false = 0 ∧ (∀ i, s.clear.localGlobal i = .exit 1 ∧ s.clear.vertexLevel i = .exit 1 ∧
      s.clear.isLocal i = .exit 1) ∧
    (g.sizeVertex = 0 → s.clear.isParent h g = .ok true) ∧ (g.hash h false ≠ .ok 0 → s.clear.isParent h g = .ok false) := by
  refine ⟨rfl, (show Graph.sizeEdge false ⟨[], []⟩ = 0 by decide), fun i => ⟨rfl, rfl, rfl⟩, ?_, ?_⟩
  · intro h0
    unfold Subgraph.isParent
    rw [c11_hash_empty false g hg h h0]
    rfl
  · intro hne
    obtain ⟨x, hx⟩ := Subgraph.hash_ok hg h
    rw [hx] at hne
    have : x ≠ 0 := fun e => hne (by rw [e])
    unfold Subgraph.isParent
    rw [hx]
    show Out.ok (x == 0) = _
    simpa using this

/-- C143: `swap` exchanges the subgraphs. -/
theorem c143_swap (s t : Subgraph) : s.swap t = (t, s) := rfl

/-- The hypotheses can be met by a subgraph with levels that is shrunk and grows again. -/
example : ∃ s s' s'', SubSized id path3 [1] (sizeMax - 1) s ∧ s.resize false 2 = .ok s' ∧ s'.resize false 4 = .ok s'' ∧
    s.sizeVertex = 3 ∧ s''.sizeVertex = 4 ∧ s''.vertexLevel 1 = .ok 1 ∧ s''.localGlobal 1 = .ok 0 ∧
    s''.isParent id path3 = .ok false :=
  ⟨⟨⟨[1, 2, 0, 0], [0, 2, 3, 4]⟩, [1, 0, 2], [0, 1, 1], 1⟩, ⟨⟨[1, 0], [0, 1, 2]⟩, [1, 0], [0, 1], 1⟩,
    ⟨⟨[1, 0], [0, 1, 2, 2, 2]⟩, [1, 0, 0, 0], [0, 1, 0, 0], 0⟩, .reach (m := 1) (.make (by decide) (by decide +kernel)),
    by decide +kernel, by decide +kernel, by decide, by decide, by decide, by decide, by decide +kernel⟩

end Disa.Props
