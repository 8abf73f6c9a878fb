import Verif.Graph.Inserts
import Verif.Graph.Levels

/-!
# Model of the graph generators

`/repo/include/graph/generator.hpp`.
-/

namespace Disa
namespace Graph

open Spec

/-- `create_graph_line`, `/repo/include/graph/generator.hpp` 47-53. -/
def createLine (d : Bool) (n : Nat) : Out Graph :=
  loop (usub n 1) (fun x g => do
    let (g, _) ← g.insert d (x, wrap (x + 1))
    pure g) Graph.new

/-- A guarded insertion statement of `create_graph_structured`. -/
def insertWhen (c : Bool) (d : Bool) (g : Graph) (e : Edge) : Out Graph := do
  if c then
    let (g, _) ← g.insert d e
    return g
  else return g

/-- Body of the inner loop of `create_graph_structured`, `/repo/include/graph/generator.hpp` 85-89. -/
def structuredCell (d : Bool) (n y x : Nat) (g : Graph) : Out Graph := do
  let v := wrap (wrap (y * n) + x)
  let g ← insertWhen (!d && x != 0) d g (usub v 1, v)
  let g ← insertWhen (x != usub n 1) d g (v, wrap (v + 1))
  let g ← insertWhen (!d && y != 0) d g (usub v n, v)
  insertWhen (decide (y < usub n 1)) d g (v, wrap (v + n))

/-- `create_graph_structured`, `/repo/include/graph/generator.hpp` 81-94. -/
def createStructured (d : Bool) (n : Nat) : Out Graph :=
  loop n (fun y g => loop n (fun x g => structuredCell d n y x g) g) Graph.new

/-- `create_graph_hybrid`, `/repo/include/graph/generator.hpp` 112-115. -/
def createHybrid : Out Graph := Graph.ofEdges false
  [(3, 0), (0, 1), (7, 4), (6, 7), (2, 5), (3, 4), (6, 3), (4, 5), (4, 6), (7, 4), (5, 7), (2, 1), (1, 4)]

/-- `create_graph_saad`, `/repo/include/graph/generator.hpp` 137-142. -/
def createSaad : Out Graph := Graph.ofEdges false
  [(0, 6), (0, 8), (1, 7), (1, 8), (1, 10), (1, 12), (2, 6), (2, 7), (2, 9), (3, 11), (3, 12), (3, 14), (4, 9), (4, 10),
   (4, 11), (4, 13), (5, 13), (5, 14), (6, 7), (6, 8), (7, 8), (7, 9), (7, 10), (9, 10), (10, 11), (10, 12), (11, 12),
   (11, 13), (11, 14), (13, 14)]

/-! ### Insertion on reachable graphs -/

theorem reach_new {d : Bool} : Reachable d Graph.new := ⟨[], by simp, rfl⟩

theorem adj_new {i j : Nat} : ¬ Adj Graph.new i j :=
  fun ⟨r, hr, _⟩ => by simp [nbrs, sizeVertex, Graph.new, assert] at hr

theorem reach_insert {d : Bool} {g g' : Graph} {e : Edge} {b : Bool} (h : Reachable d g) (he : e.1 + 1 < sizeMax ∧ e.2 + 1 < sizeMax)
    (hi : g.insert d e = .ok (g', b)) : Reachable d g' := by
  obtain ⟨ops, h1, h2⟩ := h
  have key : ∀ (ops : List Op) (g0 : Graph), run d g0 ops = .ok g → run d g0 (ops ++ [.insert e]) = .ok g' := by
    intro ops
    induction ops with
    | nil =>
      intro g0 h
      simp only [run, Out.ok.injEq] at h
      subst h
      simp [run, step, hi]
    | cons op ops ih =>
      intro g0 h
      simp only [run, Out.bind_eq_ok] at h
      obtain ⟨g1, h3, h4⟩ := h
      simp [run, h3, ih g1 h4]
  refine ⟨ops ++ [.insert e], ?_, key ops _ h2⟩
  intro op hop
  rcases List.mem_append.mp hop with hop | hop
  · exact h1 op hop
  · simp only [List.mem_singleton] at hop; subst hop; exact he

theorem insert_adj {d : Bool} {g : Graph} (h : Reachable d g) (e : Edge) (hne : e.1 ≠ e.2)
    (he : e.1 + 1 < sizeMax ∧ e.2 + 1 < sizeMax) :
    ∃ g' b, g.insert d e = .ok (g', b) ∧ Reachable d g' ∧ (∀ i j, Adj g' i j ↔ Adj g i j ∨ sameEdge d (i, j) e) ∧
      g'.sizeVertex = max g.sizeVertex (max e.1 e.2 + 1) := by
  obtain ⟨L, hr, hg⟩ := reach_rep h
  have hi := hr.insert hg e hne (by omega)
  by_cases hin : e.2 ∈ row L e.1
  · refine ⟨g, false, hi.1 hin, h, ?_, ?_⟩
    · intro i j
      rw [hr.adj_eq]
      constructor
      · exact .inl
      · rintro (hx | hx | ⟨hd, hx⟩)
        · exact hx
        · rw [← hx] at hin; exact hin
        · rw [← hx] at hin; exact hg.symm hd _ _ hin
    · rw [hr.sizeVertex]
      have := hg.range _ _ hin
      have := lt_of_mem_row hin
      omega
  · obtain ⟨g', h1, h2⟩ := hi.2 hin
    refine ⟨g', true, h1, reach_insert h he h1, ?_, ?_⟩
    · intro i j
      rw [hr.adj_eq, h2.adj_eq]
      exact mem_insRows hne i j
    · rw [hr.sizeVertex, h2.sizeVertex, insRows_length]

theorem adj_lt {d : Bool} {g : Graph} (h : Reachable d g) {i j : Nat} (ha : Adj g i j) :
    i < g.sizeVertex ∧ j < g.sizeVertex := by
  obtain ⟨L, hr, hg⟩ := reach_rep h
  rw [hr.adj_eq] at ha
  rw [hr.sizeVertex]
  exact ⟨lt_of_mem_row ha, hg.range _ _ ha⟩

/-! ### The line -/

theorem line_loop (d : Bool) (k : Nat) (hk : k + 1 < sizeMax) :
    ∃ g, loop k (fun x g => do
      let (g, _) ← g.insert d (x, wrap (x + 1))
      pure g) Graph.new = .ok g ∧ Reachable d g ∧ (∀ i j, Adj g i j ↔ ∃ x < k, sameEdge d (i, j) (x, x + 1)) ∧
      g.sizeVertex = if k = 0 then 0 else k + 1 := by
  apply loop_inv (fun (k : Nat) (g : Graph) => Reachable d g ∧ (∀ i j, Adj g i j ↔ ∃ x < k, sameEdge d (i, j) (x, x + 1)) ∧
      g.sizeVertex = if k = 0 then 0 else k + 1)
  · exact ⟨reach_new, fun i j => by simp [adj_new], rfl⟩
  · rintro i g hi ⟨h1, h2, h3⟩
    have hw : wrap (i + 1) = i + 1 := wrap_of_lt (by omega)
    obtain ⟨g', b, h4, h5, h6, h7⟩ := insert_adj h1 (i, i + 1) (by simp) (by simp; omega)
    refine ⟨g', by simp [hw, h4], h5, ?_, ?_⟩
    · intro a c
      rw [h6, h2]
      constructor
      · rintro (⟨x, hx, hs⟩ | hs)
        · exact ⟨x, by omega, hs⟩
        · exact ⟨i, by omega, hs⟩
      · rintro ⟨x, hx, hs⟩
        by_cases hxi : x = i
        · subst hxi; exact .inr hs
        · exact .inl ⟨x, by omega, hs⟩
    · rw [h7, h3]
      simp only
      split <;> simp <;> omega

theorem createLine_ok (d : Bool) (n : Nat) (h2 : 2 ≤ n) (hn : n < sizeMax) :
    ∃ g, createLine d n = .ok g ∧ Reachable d g ∧ (∀ i j, Adj g i j ↔ ∃ x < n - 1, sameEdge d (i, j) (x, x + 1)) ∧
      g.sizeVertex = n := by
  obtain ⟨g, h1, h3, h4, h5⟩ := line_loop d (n - 1) (by omega)
  refine ⟨g, ?_, h3, h4, by rw [h5, if_neg (by omega)]; omega⟩
  unfold createLine
  rw [usub_of_le (by omega)]
  exact h1

/-- For zero vertices the loop bound wraps round and an edge mentions the last index but one, which the graph cannot hold. -/
theorem createLine_zero (d : Bool) : createLine d 0 = .ub := by
  obtain ⟨g, h1, h3, h4, h5⟩ := line_loop d (sizeMax - 2) (by unfold sizeMax; omega)
  have hb : usub 0 1 = (sizeMax - 2) + 1 + 1 := by decide
  unfold createLine
  rw [hb]
  simp only [loop]
  rw [h1]
  obtain ⟨L, hr, hg⟩ := reach_rep h3
  have hs : L.length = sizeMax - 1 := by
    rw [← hr.sizeVertex, h5, if_neg (by unfold sizeMax; omega)]; unfold sizeMax; omega
  have hw : wrap (sizeMax - 2 + 1) = sizeMax - 1 := by decide
  have := hr.insert_max hg (by rw [hs]; unfold sizeMax; omega) (e := (sizeMax - 2, sizeMax - 1)) (by simp [sizeMax]) (by simp [sizeMax])
  simp only [Out.ok_bind, hw, this]
  rfl

/-! ### The grid -/

/-- Edges inserted for the cell in row `y` and column `x`. -/
def CellEdge (d : Bool) (n y x i j : Nat) : Prop :=
  (d = false ∧ x ≠ 0 ∧ sameEdge d (i, j) (y * n + x - 1, y * n + x)) ∨
  (x ≠ n - 1 ∧ sameEdge d (i, j) (y * n + x, y * n + x + 1)) ∨
  (d = false ∧ y ≠ 0 ∧ sameEdge d (i, j) (y * n + x - n, y * n + x)) ∨
  (y < n - 1 ∧ sameEdge d (i, j) (y * n + x, y * n + x + n))

theorem insertWhen_ok {d : Bool} {g : Graph} (h : Reachable d g) (c : Bool) (e : Edge) {m : Nat} (hm : m < sizeMax)
    (hs : g.sizeVertex ≤ m) (he : c = true → e.1 ≠ e.2 ∧ e.1 < m ∧ e.2 < m) :
    ∃ g', insertWhen c d g e = .ok g' ∧ Reachable d g' ∧
      (∀ i j, Adj g' i j ↔ Adj g i j ∨ (c = true ∧ sameEdge d (i, j) e)) ∧ g'.sizeVertex ≤ m := by
  cases c with
  | false => exact ⟨g, rfl, h, by simp, hs⟩
  | true =>
    obtain ⟨h1, h2, h3⟩ := he rfl
    obtain ⟨g', b, h4, h5, h6, h7⟩ := insert_adj h e h1 (by omega)
    exact ⟨g', by simp [insertWhen, h4], h5, by simpa using h6, by omega⟩

theorem structuredCell_ok {d : Bool} {g : Graph} (h : Reachable d g) {n x y : Nat} (hx : x < n) (hy : y < n)
    (hn : n * n < sizeMax) (hs : g.sizeVertex ≤ n * n) :
    ∃ g', structuredCell d n y x g = .ok g' ∧ Reachable d g' ∧
      (∀ i j, Adj g' i j ↔ Adj g i j ∨ CellEdge d n y x i j) ∧ g'.sizeVertex ≤ n * n := by
  have hrow : y * n + n ≤ n * n := by
    calc y * n + n = (y + 1) * n := by rw [Nat.succ_mul]
      _ ≤ n * n := Nat.mul_le_mul_right n hy
  have hrow' : y < n - 1 → y * n + n + n ≤ n * n := fun hy' => by
    calc y * n + n + n = (y + 2) * n := by rw [Nat.succ_mul, Nat.succ_mul]
      _ ≤ n * n := Nat.mul_le_mul_right n (by omega)
  have hy0 : y ≠ 0 → n ≤ y * n := fun hy0 => Nat.le_mul_of_pos_left n (by omega)
  unfold structuredCell
  have hw : wrap (wrap (y * n) + x) = y * n + x := by
    rw [wrap_of_lt (n := y * n) (by omega), wrap_of_lt (by omega)]
  simp only [hw]
  rw [usub_of_le (a := n) (b := 1) (by omega)]
  obtain ⟨g1, a1, b1, c1, d1⟩ := insertWhen_ok h (!d && x != 0) (usub (y * n + x) 1, y * n + x) hn hs (by
    intro hc
    simp only [Bool.and_eq_true, bne_iff_ne] at hc
    rw [usub_of_le (show 1 ≤ y * n + x by omega)]
    simp only; omega)
  obtain ⟨g2, a2, b2, c2, d2⟩ := insertWhen_ok b1 (x != n - 1) (y * n + x, wrap (y * n + x + 1)) hn d1 (by
    intro hc
    simp only [bne_iff_ne] at hc
    rw [wrap_of_lt (by omega)]
    simp only; omega)
  obtain ⟨g3, a3, b3, c3, d3⟩ := insertWhen_ok b2 (!d && y != 0) (usub (y * n + x) n, y * n + x) hn d2 (by
    intro hc
    simp only [Bool.and_eq_true, bne_iff_ne] at hc
    have := hy0 hc.2
    rw [usub_of_le (show n ≤ y * n + x by omega)]
    simp only; omega)
  obtain ⟨g4, a4, b4, c4, d4⟩ := insertWhen_ok b3 (decide (y < n - 1)) (y * n + x, wrap (y * n + x + n)) hn d3 (by
    intro hc
    simp only [decide_eq_true_eq] at hc
    have := hrow' hc
    rw [wrap_of_lt (by omega)]
    simp only; omega)
  refine ⟨g4, by simp [a1, a2, a3, a4], b4, ?_, d4⟩
  intro i j
  rw [c4, c3, c2, c1]
  simp only [Bool.and_eq_true, bne_iff_ne, decide_eq_true_eq, Bool.not_eq_true', CellEdge]
  have e1 : x ≠ 0 → usub (y * n + x) 1 = y * n + x - 1 := fun h => usub_of_le (by omega)
  have e2 : x ≠ n - 1 → wrap (y * n + x + 1) = y * n + x + 1 := fun h => wrap_of_lt (by omega)
  have e3 : y ≠ 0 → usub (y * n + x) n = y * n + x - n := fun h => usub_of_le (by have := hy0 h; omega)
  have e4 : y < n - 1 → wrap (y * n + x + n) = y * n + x + n := fun h => wrap_of_lt (by have := hrow' h; omega)
  constructor
  · rintro ((((h | ⟨⟨ha, hb⟩, h⟩) | ⟨ha, h⟩) | ⟨⟨ha, hb⟩, h⟩) | ⟨ha, h⟩)
    · exact .inl h
    · rw [e1 hb] at h; exact .inr (.inl ⟨ha, hb, h⟩)
    · rw [e2 ha] at h; exact .inr (.inr (.inl ⟨ha, h⟩))
    · rw [e3 hb] at h; exact .inr (.inr (.inr (.inl ⟨ha, hb, h⟩)))
    · rw [e4 ha] at h; exact .inr (.inr (.inr (.inr ⟨ha, h⟩)))
  · rintro (h | ⟨ha, hb, h⟩ | ⟨ha, h⟩ | ⟨ha, hb, h⟩ | ⟨ha, h⟩)
    · exact .inl (.inl (.inl (.inl h)))
    · rw [← e1 hb] at h; exact .inl (.inl (.inl (.inr ⟨⟨ha, hb⟩, h⟩)))
    · rw [← e2 ha] at h; exact .inl (.inl (.inr ⟨ha, h⟩))
    · rw [← e3 hb] at h; exact .inl (.inr ⟨⟨ha, hb⟩, h⟩)
    · rw [← e4 ha] at h; exact .inr ⟨ha, h⟩

theorem createStructured_ok (d : Bool) (n : Nat) (hn : n * n < sizeMax) :
    ∃ g, createStructured d n = .ok g ∧ Reachable d g ∧
      (∀ i j, Adj g i j ↔ ∃ y < n, ∃ x < n, CellEdge d n y x i j) ∧ g.sizeVertex ≤ n * n := by
  unfold createStructured
  apply loop_inv (fun (k : Nat) (g : Graph) => Reachable d g ∧
    (∀ i j, Adj g i j ↔ ∃ y < k, ∃ x < n, CellEdge d n y x i j) ∧ g.sizeVertex ≤ n * n)
  · exact ⟨reach_new, fun i j => by simp [adj_new], Nat.zero_le _⟩
  · rintro y g hy ⟨h1, h2, h3⟩
    obtain ⟨g', h4, h5, h6, h7⟩ := loop_inv (body := fun x g => structuredCell d n y x g) (n := n) (s := g)
      (fun (k : Nat) (g' : Graph) => Reachable d g' ∧
        (∀ i j, Adj g' i j ↔ Adj g i j ∨ ∃ x < k, CellEdge d n y x i j) ∧ g'.sizeVertex ≤ n * n)
      ⟨h1, by simp, h3⟩ (by
        rintro x s hx ⟨k1, k2, k3⟩
        obtain ⟨s', l1, l2, l3, l4⟩ := structuredCell_ok k1 hx hy hn k3
        refine ⟨s', l1, l2, ?_, l4⟩
        intro i j
        rw [l3, k2]
        constructor
        · rintro ((h | ⟨a, ha, h⟩) | h)
          · exact .inl h
          · exact .inr ⟨a, by omega, h⟩
          · exact .inr ⟨x, by omega, h⟩
        · rintro (h | ⟨a, ha, h⟩)
          · exact .inl (.inl h)
          · by_cases hax : a = x
            · subst hax; exact .inr h
            · exact .inl (.inr ⟨a, by omega, h⟩))
    refine ⟨g', h4, h5, ?_, h7⟩
    intro i j
    rw [h6, h2]
    constructor
    · rintro (⟨a, ha, h⟩ | h)
      · exact ⟨a, by omega, h⟩
      · exact ⟨y, by omega, h⟩
    · rintro ⟨a, ha, h⟩
      by_cases hay : a = y
      · subst hay; exact .inr h
      · exact .inl ⟨a, by omega, h⟩

/-- Positions on the grid determine the vertex. -/
theorem grid_inj {n x y x' y' : Nat} (hx : x < n) (hx' : x' < n) : y * n + x = y' * n + x' ↔ x = x' ∧ y = y' := by
  constructor
  · intro h
    have h1 : (y * n + x) % n = (y' * n + x') % n := by rw [h]
    have h2 : (y * n + x) / n = (y' * n + x') / n := by rw [h]
    rw [Nat.add_comm, Nat.add_mul_mod_self_right, Nat.add_comm (y' * n), Nat.add_mul_mod_self_right,
      Nat.mod_eq_of_lt hx, Nat.mod_eq_of_lt hx'] at h1
    rw [Nat.add_comm, Nat.add_mul_div_right _ _ (by omega), Nat.add_comm (y' * n), Nat.add_mul_div_right _ _ (by omega),
      Nat.div_eq_of_lt hx, Nat.div_eq_of_lt hx'] at h2
    omega
  · rintro ⟨rfl, rfl⟩; rfl

/-- Neighbours on the grid, the first one left of or below the second. -/
def Before (x y x' y' : Nat) : Prop := (y = y' ∧ x + 1 = x') ∨ (x = x' ∧ y + 1 = y')

theorem cells {d : Bool} {n x y x' y' : Nat} (hx : x < n) (hy : y < n) (hx' : x' < n) (hy' : y' < n) :
    (∃ b < n, ∃ a < n, CellEdge d n b a (y * n + x) (y' * n + x')) ↔
      Before x y x' y' ∨ (d = false ∧ Before x' y' x y) := by
  have hsucc : ∀ b a : Nat, b * n + a + n = (b + 1) * n + a := fun b a => by rw [Nat.succ_mul]; omega
  have hpred : ∀ b a : Nat, b ≠ 0 → b * n + a - n = (b - 1) * n + a := fun b a hb => by
    obtain ⟨c, rfl⟩ := Nat.exists_eq_succ_of_ne_zero hb
    rw [Nat.succ_mul]; simp; omega
  constructor
  · rintro ⟨b, hb, a, ha, h⟩
    rcases h with ⟨hd, h0, h⟩ | ⟨h0, h⟩ | ⟨hd, h0, h⟩ | ⟨h0, h⟩
    · have e : b * n + a - 1 = b * n + (a - 1) := by omega
      rw [e] at h
      unfold sameEdge at h
      simp only [Prod.mk.injEq] at h
      rw [grid_inj hx (by omega), grid_inj hx' (by omega), grid_inj hx' (by omega), grid_inj hx (by omega)] at h
      unfold Before
      rcases h with h | ⟨hd', h⟩
      · left; omega
      · refine .inr ⟨hd', ?_⟩; omega
    · have e : b * n + a + 1 = b * n + (a + 1) := by omega
      rw [e] at h
      unfold sameEdge at h
      simp only [Prod.mk.injEq] at h
      rw [grid_inj hx (by omega), grid_inj hx' (by omega), grid_inj hx' (by omega), grid_inj hx (by omega)] at h
      unfold Before
      rcases h with h | ⟨hd', h⟩
      · left; omega
      · refine .inr ⟨hd', ?_⟩; omega
    · rw [hpred b a h0] at h
      unfold sameEdge at h
      simp only [Prod.mk.injEq] at h
      rw [grid_inj hx (by omega), grid_inj hx' (by omega), grid_inj hx' (by omega), grid_inj hx (by omega)] at h
      unfold Before
      rcases h with h | ⟨hd', h⟩
      · left; omega
      · refine .inr ⟨hd', ?_⟩; omega
    · rw [hsucc] at h
      unfold sameEdge at h
      simp only [Prod.mk.injEq] at h
      rw [grid_inj hx (by omega), grid_inj hx' (by omega), grid_inj hx' (by omega), grid_inj hx (by omega)] at h
      unfold Before
      rcases h with h | ⟨hd', h⟩
      · left; omega
      · refine .inr ⟨hd', ?_⟩; omega
  · rintro ((⟨rfl, h⟩ | ⟨rfl, h⟩) | ⟨hd, (⟨rfl, h⟩ | ⟨rfl, h⟩)⟩)
    · exact ⟨y, hy, x, hx, .inr (.inl ⟨by omega, .inl (by simp; omega)⟩)⟩
    · exact ⟨y, hy, x, hx, .inr (.inr (.inr ⟨by omega, .inl (by rw [hsucc, h])⟩))⟩
    · exact ⟨y', hy, x', hx', .inr (.inl ⟨by omega, .inr ⟨hd, by simp; omega⟩⟩)⟩
    · exact ⟨y', hy', x', hx, .inr (.inr (.inr ⟨by omega, .inr ⟨hd, by rw [hsucc, h]⟩⟩))⟩

theorem createStructured_size {d : Bool} {n : Nat} (h2 : 2 ≤ n) {g : Graph} (hg : Reachable d g)
    (ha : ∀ i j, Adj g i j ↔ ∃ y < n, ∃ x < n, CellEdge d n y x i j) (hs : g.sizeVertex ≤ n * n) : g.sizeVertex = n * n := by
  have h1 : Adj g ((n - 1) * n + (n - 2)) ((n - 1) * n + (n - 1)) := by
    rw [ha, cells (by omega) (by omega) (by omega) (by omega)]
    exact .inl (.inl ⟨rfl, by omega⟩)
  have := (adj_lt hg h1).2
  have e : (n - 1) * n + (n - 1) + 1 = n * n := by
    obtain ⟨c, rfl⟩ : ∃ c, n = c + 1 := ⟨n - 1, by omega⟩
    simp only [Nat.add_sub_cancel]
    rw [Nat.succ_mul]; omega
  omega

theorem createStructured_one (d : Bool) : createStructured d 1 = .ok Graph.new := by cases d <;> rfl

end Graph
end Disa
