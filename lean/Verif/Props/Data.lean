import Verif.Graph.Data
import Verif.Props.SubResize
import Verif.Sparse.Rows

/-!
# Property C144: the pointers that graphs and subgraphs return
-/

namespace Disa.Props

open Disa Spec Graph

/-- C144: without vertices both pointers of a graph are null. -/
theorem c144_empty (d : Bool) (g : Graph) (h : Reachable d g) (h0 : g.sizeVertex = 0) : g.data = (none, none) := by
  obtain ⟨L, h1, _⟩ := reach_rep h
  rw [h1.sizeVertex] at h0
  unfold Graph.data
  rw [h1.empty, h0]
  rfl

/-- C144: the offsets that a graph with vertices returns delimit the neighbours of each vertex in the list that it returns,
which is null exactly if there are no edges. -/
theorem c144_graph (d : Bool) (g : Graph) (h : Reachable d g) (h0 : 0 < g.sizeVertex) :
    ∃ a o, g.data = (a, some o) ∧ o.length = g.sizeVertex + 1 ∧ o[0]? = some 0 ∧ (a = none ↔ g.sizeEdge d = 0) ∧
      (∀ p, a = some p → o[g.sizeVertex]? = some p.length) ∧
      ∀ i, i < g.sizeVertex → ∃ b r, o[i]? = some b ∧ g.nbrs i = .ok r ∧ o[i + 1]? = some (b + r.length) ∧
        ∀ k, k < r.length → ∃ p, a = some p ∧ p[b + k]? = r[k]? := by
  obtain ⟨L, h1, h2⟩ := reach_rep h
  have hsz := h1.sizeVertex
  rw [hsz] at h0
  have hne : L ≠ [] := by rintro rfl; simp at h0
  have ho := h1.off hne
  have he : g.empty = false := by rw [h1.empty]; exact decide_eq_false (by omega)
  have hst := h1.stored h2
  refine ⟨if g.adj.isEmpty then none else some g.adj, g.off, ?_, ?_, ?_, ?_, ?_, ?_⟩
  · unfold Graph.data
    rw [he]
    cases g.adj.isEmpty <;> rfl
  · rw [ho, offs_length, hsz]
  · rw [ho, offs_getElem? L (Nat.zero_le _), psum_zero]
  · rw [← h1.1] at hst
    constructor
    · intro ha
      have : g.adj = [] := by
        by_contra hc
        rw [if_neg (by simpa using hc)] at ha
        cases ha
      rw [this] at hst
      simp only [List.length_nil] at hst
      cases d
      · simp only [Bool.false_eq_true, if_false] at hst; omega
      · simp only [if_true] at hst; omega
    · intro hz
      rw [hz] at hst
      have : g.adj = [] := by
        apply List.length_eq_zero_iff.mp
        rw [hst]; cases d <;> rfl
      rw [this]; rfl
  · intro p hp
    have : p = g.adj := by
      split at hp
      · cases hp
      · exact (Option.some.inj hp).symm
    rw [this, hsz, ho, offs_getElem? L (Nat.le_refl _), psum_length, h1.1]
  · intro i hi
    rw [hsz] at hi
    refine ⟨psum L i, row L i, by rw [ho, offs_getElem? L (by omega)], h1.nbrs hi, ?_, ?_⟩
    · rw [ho, offs_getElem? L (by omega), psum_succ L hi, row_of_lt hi]
    · intro k hk
      rw [row_of_lt hi] at hk ⊢
      have hf := Sparse.flatten_getElem? L hi hk
      have hlt := (List.getElem?_eq_some_iff.mp hf).1
      refine ⟨g.adj, ?_, ?_⟩
      · rw [if_neg]
        rw [h1.1, List.isEmpty_iff]
        intro hc
        rw [hc] at hlt
        simp at hlt
      · rw [h1.1, hf, List.getElem?_eq_getElem hk]

/-- C144 as stated in the properties file, the part about subgraphs. -/
def C144 : Prop := ∀ (h : Nat → Nat) (parent : Graph) (part : List Nat) (s : Subgraph), Reachable false parent →
  part.Pairwise (· < ·) → (∀ v ∈ part, v < parent.sizeVertex) → SubSized h parent part (sizeMax - 1) s →
  s.graph.sizeEdge false = 0 → s.data.1 = none ∧ s.data.2.2 = (none, none)

/-- C144: the pointers of a subgraph are those of its graph and point to the global indices and the levels.  There are no
levels if all of them are zero, and none of them points anywhere if there are no vertices. -/
theorem c144_subgraph (h : Nat → Nat) (parent : Graph) (part : List Nat) (s : Subgraph) (hp : Reachable false parent)
    (hs : part.Pairwise (· < ·)) (hlt : ∀ v ∈ part, v < parent.sizeVertex) (hr : SubSized h parent part (sizeMax - 1) s) :
    ∃ l k, s.data = (s.graph.data.1, s.graph.data.2, l, k) ∧ (l = none ↔ s.sizeVertex = 0) ∧
      (s.sizeVertex = 0 → s.data = (none, none, none, none)) ∧
      (∀ p, l = some p → p.length = s.sizeVertex ∧ ∀ i, i < s.sizeVertex → ∃ v, p[i]? = some v ∧ s.localGlobal i = .ok v) ∧
      (∀ p, k = some p → p.length = s.sizeVertex ∧ ∀ i, i < s.sizeVertex → ∃ v, p[i]? = some v ∧ s.vertexLevel i = .ok v) ∧
      (k = none → ∀ i, i < s.sizeVertex → s.vertexLevel i = .ok 0) := by
  have hz := sized hp hs hlt hr
  have hempty : ∀ l : List Nat, (if l.isEmpty then none else some l) = none ↔ l = [] := by
    intro l; cases l <;> simp
  have hsome : ∀ l p : List Nat, (if l.isEmpty then none else some l) = some p → p = l := by
    intro l p; cases l <;> simp [eq_comm]
  refine ⟨_, _, rfl, ?_, ?_, ?_, ?_, ?_⟩
  · rw [hempty, ← List.length_eq_zero_iff, hz.size]
  · intro h0
    have e1 : s.l2g = [] := List.length_eq_zero_iff.mp (by rw [hz.size, h0])
    have e2 : s.lev = [] := by
      rcases hz.lev with e | e
      · exact e
      · exact List.length_eq_zero_iff.mp (by rw [e, h0])
    unfold Subgraph.data
    rw [e1, e2, c144_empty false s.graph hz.reach h0]
    rfl
  · intro p hp'
    have := hsome _ _ hp'
    subst this
    refine ⟨hz.size, fun i hi => ?_⟩
    have hi' : i < s.l2g.length := by rw [hz.size]; exact hi
    refine ⟨s.l2g[i], List.getElem?_eq_getElem hi', ?_⟩
    unfold Subgraph.localGlobal
    simp [hi, rd_ok hi']
  · intro p hp'
    have := hsome _ _ hp'
    subst this
    have hne : s.lev ≠ [] := by
      intro hc
      rw [hc] at hp'
      cases hp'
    have hlen := hz.lev.resolve_left hne
    refine ⟨hlen, fun i hi => ?_⟩
    have hi' : i < s.lev.length := by rw [hlen]; exact hi
    refine ⟨s.lev[i], List.getElem?_eq_getElem hi', ?_⟩
    unfold Subgraph.vertexLevel
    have : s.lev.isEmpty = false := by simpa using hne
    simp [hi, this, rd_ok hi']
  · intro hk i hi
    rw [hempty] at hk
    unfold Subgraph.vertexLevel
    simp [hi, hk]

/-- C144: as documented, a subgraph that was made without further levels returns no pointer to levels. -/
theorem c144_no_levels (h : Nat → Nat) (parent : Graph) (part : List Nat) (s : Subgraph)
    (hp : Reachable false parent) (hs : part.Pairwise (· < ·)) (hlt : ∀ v ∈ part, v < parent.sizeVertex)
    (hm : Subgraph.make h parent part 0 = .ok s) : s.data.2.2.2 = none := by
  obtain ⟨del, x, h1, hx, h2⟩ := c23_aux hp h hs hlt
  rw [h2] at hm
  obtain ⟨g, _, h4⟩ := Out.bind_eq_ok.mp hm
  cases h4
  rfl

/-- C144 fails: a subgraph with one vertex and no edges returns a pointer to its global indices. -/
theorem c144_violated : ¬ C144 := by
  intro h
  have hr : SubSized id path3 [0] (sizeMax - 1) ⟨⟨[], [0, 0]⟩, [0], [], 3 ^^^ 2 ^^^ 1 ^^^ 1⟩ :=
    .reach (m := 0) (.make (by decide) (by decide +kernel))
  have := (h id path3 [0] _ path3_reachable (by decide) (by decide) hr (by decide)).2
  exact absurd this (by decide)

/-- C144, subgraphs without vertices. -/
theorem c144_partial (h : Nat → Nat) (parent : Graph) (part : List Nat) (s : Subgraph) (hp : Reachable false parent)
    (hs : part.Pairwise (· < ·)) (hlt : ∀ v ∈ part, v < parent.sizeVertex) (hr : SubSized h parent part (sizeMax - 1) s)
    (h0 : s.sizeVertex = 0) : s.data.1 = none ∧ s.data.2.2 = (none, none) := by
  obtain ⟨l, k, _, _, h3, _⟩ := c144_subgraph h parent part s hp hs hlt hr
  rw [h3 h0]
  exact ⟨rfl, rfl⟩

/-- The hypotheses can be met. -/
example : Reachable false path3 ∧ path3.data = (some [1, 0, 2, 1], some [0, 1, 3, 4]) := ⟨path3_reachable, by decide⟩

end Disa.Props
