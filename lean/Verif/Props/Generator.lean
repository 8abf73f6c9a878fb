import Verif.Graph.Generator
import Verif.Props.Graph

/-!
# Properties C27, C28, C58 and C63: the graph generators
-/

namespace Disa.Props

open Disa Spec Graph

/-! ### C27 -/

/-- C27: `create_graph_line` builds the path graph. -/
theorem c27_line (d : Bool) (n : Nat) (h2 : 2 ≤ n) (hn : n < sizeMax) :
    ∃ g, createLine d n = .ok g ∧ Reachable d g ∧ g.sizeVertex = n ∧
      ∀ a b, Adj g a b ↔ a < n ∧ b < n ∧ (b = a + 1 ∨ (d = false ∧ a = b + 1)) := by
  obtain ⟨g, h1, h3, h4, h5⟩ := createLine_ok d n h2 hn
  refine ⟨g, h1, h3, h5, ?_⟩
  intro a b
  rw [h4]
  unfold sameEdge
  simp only [Prod.mk.injEq]
  constructor
  · rintro ⟨x, hx, ⟨rfl, rfl⟩ | ⟨hd, rfl, rfl⟩⟩
    · exact ⟨by omega, by omega, .inl rfl⟩
    · exact ⟨by omega, by omega, .inr ⟨hd, rfl⟩⟩
  · rintro ⟨h6, h7, rfl | ⟨hd, rfl⟩⟩
    · exact ⟨a, by omega, .inl ⟨rfl, rfl⟩⟩
    · exact ⟨b, by omega, .inr ⟨hd, rfl, rfl⟩⟩

example : createLine false 4 = .ok ⟨[1, 0, 2, 1, 3, 2], [0, 1, 3, 5, 6]⟩ ∧
    createLine true 4 = .ok ⟨[1, 2, 3], [0, 1, 2, 3, 3]⟩ := by decide +kernel

/-! ### C28 -/

/-- C28: `create_graph_structured` builds the grid; the vertex in column `x` of row `y` is `y * n + x`. -/
theorem c28_structured (d : Bool) (n : Nat) (h2 : 2 ≤ n) (hn : n * n < sizeMax) :
    ∃ g, createStructured d n = .ok g ∧ Reachable d g ∧ g.sizeVertex = n * n ∧
      ∀ x y x' y', x < n → y < n → x' < n → y' < n →
        (Adj g (y * n + x) (y' * n + x') ↔
          (y = y' ∧ x + 1 = x') ∨ (x = x' ∧ y + 1 = y') ∨
          (d = false ∧ ((y = y' ∧ x' + 1 = x) ∨ (x = x' ∧ y' + 1 = y)))) := by
  obtain ⟨g, h1, h3, h4, h5⟩ := createStructured_ok d n hn
  refine ⟨g, h1, h3, createStructured_size h2 h3 h4 h5, ?_⟩
  intro x y x' y' hx hy hx' hy'
  rw [h4, cells hx hy hx' hy']
  unfold Before
  constructor
  · rintro ((h | h) | ⟨hd, ⟨e, h⟩ | ⟨e, h⟩⟩)
    · exact .inl h
    · exact .inr (.inl h)
    · exact .inr (.inr ⟨hd, .inl ⟨e.symm, h⟩⟩)
    · exact .inr (.inr ⟨hd, .inr ⟨e.symm, h⟩⟩)
  · rintro (h | h | ⟨hd, ⟨e, h⟩ | ⟨e, h⟩⟩)
    · exact .inl (.inl h)
    · exact .inl (.inr h)
    · exact .inr ⟨hd, .inl ⟨e.symm, h⟩⟩
    · exact .inr ⟨hd, .inr ⟨e.symm, h⟩⟩

/-- Every vertex of the grid has such coordinates, so C28 describes all edges. -/
example (n v : Nat) (h : v < n * n) : ∃ y < n, ∃ x < n, v = y * n + x :=
  ⟨v / n, Nat.div_lt_of_lt_mul h, v % n, Nat.mod_lt _ (by by_contra hn; have : n = 0 := by omega
                                                          simp [this] at h), by
    rw [Nat.mul_comm]; exact (Nat.div_add_mod v n).symm⟩

example : createStructured false 2 = .ok ⟨[1, 2, 0, 3, 0, 3, 1, 2], [0, 2, 4, 6, 8]⟩ ∧
    createStructured true 2 = .ok ⟨[1, 2, 3, 3], [0, 2, 3, 4, 4]⟩ := by decide +kernel

/-! ### C58 -/

/-- C58, as documented: the generators return graphs with `n` and `n * n` vertices. -/
def C58 : Prop :=
  ∀ (d : Bool) (n : Nat), n * n < sizeMax →
    (∃ g, createLine d n = .ok g ∧ g.sizeVertex = n) ∧ (∃ g, createStructured d n = .ok g ∧ g.sizeVertex = n * n)

/-- C58 does not hold: the graph for a single vertex has no vertex. -/
theorem c58_violated : ¬ C58 := by
  intro h
  obtain ⟨⟨g, h1, h2⟩, _⟩ := h false 1 (by decide)
  have : createLine false 1 = .ok Graph.new := rfl
  rw [this] at h1
  cases h1
  exact absurd h2 (by decide)

/-- C58: exactly what the generators do for fewer than two vertices.  With zero vertices the loop bound of the line wraps
round; given enough memory the loop runs until it inserts an edge with the reserved index. -/
theorem c58_small (d : Bool) :
    createLine d 1 = .ok Graph.new ∧ createLine d 0 = .ub ∧
    createStructured d 1 = .ok Graph.new ∧ createStructured d 0 = .ok Graph.new ∧ Graph.new.sizeVertex = 0 :=
  ⟨rfl, createLine_zero d, createStructured_one d, rfl, rfl⟩

/-- C58, what holds: the vertex counts are right from two vertices on. -/
theorem c58_size_partial (d : Bool) (n : Nat) (h2 : 2 ≤ n) (hn : n * n < sizeMax) :
    (∃ g, createLine d n = .ok g ∧ g.sizeVertex = n) ∧ (∃ g, createStructured d n = .ok g ∧ g.sizeVertex = n * n) := by
  have : n ≤ n * n := Nat.le_mul_self n
  obtain ⟨g, h1, _, h3, _⟩ := c27_line d n h2 (by omega)
  obtain ⟨g', h1', _, h3', _⟩ := c28_structured d n h2 hn
  exact ⟨⟨g, h1, h3⟩, ⟨g', h1', h3'⟩⟩

example : ∃ n, 2 ≤ n ∧ n * n < sizeMax := ⟨5, by decide⟩

/-! ### C63 -/

/-- The graph drawn in `/repo/include/graph/generator.hpp` 104-108: rows, columns, diagonals. -/
def hybridDrawing : List Edge :=
  [(0, 1), (1, 2), (3, 4), (4, 5), (6, 7)] ++ [(0, 3), (1, 4), (2, 5)] ++ [(3, 6), (4, 6), (4, 7), (5, 7)]

/-- The graph drawn in `/repo/include/graph/generator.hpp` 121-133: the three columns from top to bottom, the rows, the
falling and the rising diagonals. -/
def saadDrawing : List Edge :=
  [(5, 14), (14, 3), (3, 12), (12, 1), (1, 8), (8, 0)] ++ [(13, 11), (11, 10), (10, 7), (7, 6)] ++ [(4, 9), (9, 2)] ++
  [(14, 13), (3, 11), (11, 4), (12, 10), (10, 9), (1, 7), (7, 2), (8, 6)] ++ [(5, 13), (14, 11), (13, 4)] ++
  [(11, 12), (4, 10), (10, 1), (9, 7), (7, 8), (2, 6), (6, 0)]

/-- Lists that denote each other's edges denote the same edges. -/
theorem edgeIn_iff {es fs : List Edge} (h1 : ∀ e ∈ es, EdgeIn false fs e) (h2 : ∀ f ∈ fs, EdgeIn false es f) (q : Edge) :
    EdgeIn false es q ↔ EdgeIn false fs q := by
  have tr : ∀ {a b c : Edge}, sameEdge false a b → sameEdge false b c → sameEdge false a c := by
    rintro ⟨a, a'⟩ ⟨b, b'⟩ ⟨c, c'⟩
    simp only [sameEdge, Prod.mk.injEq, true_and]
    rintro (⟨rfl, rfl⟩ | ⟨rfl, rfl⟩) (⟨rfl, rfl⟩ | ⟨rfl, rfl⟩) <;> simp
  constructor
  · rintro ⟨e, he, hs⟩
    obtain ⟨f, hf, hs'⟩ := h1 e he
    exact ⟨f, hf, tr hs hs'⟩
  · rintro ⟨e, he, hs⟩
    obtain ⟨f, hf, hs'⟩ := h2 e he
    exact ⟨f, hf, tr hs hs'⟩

theorem static_graph (es fs : List Edge) (n : Nat) (hn : es ≠ []) (h0 : ∀ e ∈ es, e.1 ≠ e.2)
    (hl : ∀ e ∈ es, e.1 + 1 < sizeMax ∧ e.2 + 1 < sizeMax) (h1 : ∀ e ∈ es, EdgeIn false fs e) (h2 : ∀ f ∈ fs, EdgeIn false es f)
    (hsz : ∀ g, Graph.ofEdges false es = .ok g → g.sizeVertex = n) :
    ∃ g, Graph.ofEdges false es = .ok g ∧ g.sizeVertex = n ∧ ∀ q : Edge, q.1 ≠ q.2 → g.contains q = .ok (decide (EdgeIn false fs q)) := by
  obtain ⟨g, bs, h3, _, _, h4, _⟩ := c01_insert_history false es h0 hl
  have h5 : Graph.ofEdges false es = .ok g := by rw [c52_of_edges false es hn, h3]; rfl
  refine ⟨g, h5, hsz g h5, fun q hq => ?_⟩
  rw [h4 q hq]
  congr 1
  exact decide_eq_decide.mpr (edgeIn_iff h1 h2 q)

/-- C63: `create_graph_hybrid` returns the graph of its drawing. -/
theorem c63_hybrid : ∃ g, createHybrid = .ok g ∧ g.sizeVertex = 8 ∧
    ∀ q : Edge, q.1 ≠ q.2 → g.contains q = .ok (decide (EdgeIn false hybridDrawing q)) :=
  static_graph _ _ 8 (by decide) (by decide) (by decide) (by decide) (by decide) (by
    intro g hg
    have : createHybrid = .ok g := hg
    have h : (createHybrid >>= fun g => .ok g.sizeVertex) = .ok 8 := by decide +kernel
    rw [this] at h
    exact Out.ok.inj h)

/-- C63: `create_graph_saad` returns the graph of its drawing. -/
theorem c63_saad : ∃ g, createSaad = .ok g ∧ g.sizeVertex = 15 ∧
    ∀ q : Edge, q.1 ≠ q.2 → g.contains q = .ok (decide (EdgeIn false saadDrawing q)) :=
  static_graph _ _ 15 (by decide) (by decide) (by decide +kernel) (by decide +kernel) (by decide +kernel) (by
    intro g hg
    have : createSaad = .ok g := hg
    have h : (createSaad >>= fun g => .ok g.sizeVertex) = .ok 15 := by decide +kernel
    rw [this] at h
    exact Out.ok.inj h)

end Disa.Props
