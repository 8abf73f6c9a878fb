import Verif.Graph.Util

/-!
# Model of the graph orderings

`/repo/src/graph/reorder.cpp` and `/repo/include/graph/reorder.hpp`.
-/

namespace Disa
namespace Graph

/-- Local variables of the search loops. -/
structure Search where
  /-- `queue` -/
  queue : List Nat
  /-- `visited` -/
  visited : List Bool
  /-- `permutation` -/
  perm : List Nat
  /-- `new_index` -/
  next : Nat
  deriving DecidableEq, Repr

/-- The while loop body of `breadth_first`, `/repo/src/graph/reorder.cpp` 69-80. -/
def bfsStep (g : Graph) (s : Search) : Out Search :=
  match s.queue with
  | [] => .ok s
  | front :: rest => do
    let perm ← wr s.perm front s.next
    let r ← g.nbrs front
    let t ← r.foldlM (discover (fun b => !b) (fun _ => .ok true)) (rest, s.visited)
    pure ⟨t.1, t.2, perm, s.next + 1⟩

/-- `breadth_first`, `/repo/src/graph/reorder.cpp` 50-84. -/
def breadthFirst (g : Graph) (start : Nat) : Out (List Nat) :=
  if g.empty then .ok []
  else do
    assert (start < g.sizeVertex)
    let visited ← wr (List.replicate g.sizeVertex false) start true
    let s ← whileFuel (fun s => !s.queue.isEmpty) g.bfsStep (1 + g.sizeVertex)
      ⟨[start], visited, List.replicate g.sizeVertex sizeMax, 0⟩
    assert (s.next == g.sizeVertex)
    pure s.perm

/-- The while loop body of `cuthill_mckee`, `/repo/src/graph/reorder.cpp` 127-146.  `sort` stands for `std::sort` with the
comparator of line 144, which leaves the order of vertices of equal degree open. -/
def cmStep (sort : List (Nat × Nat) → List (Nat × Nat)) (g : Graph) (s : Search) : Out Search :=
  match s.queue with
  | [] => .ok s
  | front :: rest => do
    let perm ← wr s.perm front s.next
    let r ← g.nbrs front
    let t ← r.foldlM (discover (fun b => !b) (fun _ => .ok true)) ([], s.visited)
    let pairs ← mapOut (fun v => do let k ← g.degree v; pure (v, k)) t.1
    pure ⟨rest ++ (sort pairs).map (·.1), t.2, perm, s.next + 1⟩

/-- The search for the start vertex, `/repo/src/graph/reorder.cpp` 114-120; the state is
`(start_vertex, minimum_degree)`. -/
def cmStart (g : Graph) (i : Nat) (s : Nat × Nat) : Out (Nat × Nat) := do
  let k ← g.degree i
  if s.2 > k then
    assert (k != 0)
    pure (i, k)
  else pure s

/-- The start vertex of `cuthill_mckee`, `/repo/src/graph/reorder.cpp` 113-122. -/
def cmRoot (g : Graph) (start : Nat) : Out Nat :=
  if start == sizeMax then do
    let s ← loop g.sizeVertex g.cmStart (start, sizeMax)
    assert (s.1 != sizeMax)
    pure s.1
  else .ok start

/-- `cuthill_mckee`, `/repo/src/graph/reorder.cpp` 98-150. -/
def cuthillMckee (sort : List (Nat × Nat) → List (Nat × Nat)) (g : Graph) (start : Nat) : Out (List Nat) :=
  if g.empty then .ok []
  else do
    assert (start < g.sizeVertex || start == sizeMax)
    let root ← g.cmRoot start
    let visited ← wr (List.replicate g.sizeVertex false) root true
    let s ← whileFuel (fun s => !s.queue.isEmpty) (g.cmStep sort) (1 + g.sizeVertex)
      ⟨[root], visited, List.replicate g.sizeVertex sizeMax, 0⟩
    assert (s.next == g.sizeVertex)
    pure s.perm

/-- `cuthill_mckee_reverse`, `/repo/include/graph/reorder.hpp` 58-65. -/
def cuthillMckeeReverse (sort : List (Nat × Nat) → List (Nat × Nat)) (g : Graph) (start : Nat) : Out (List Nat) := do
  let p ← g.cuthillMckee sort start
  pure (p.map fun t => usub (usub p.length t) 1)

/-- The gap search, `/repo/src/graph/reorder.cpp` 195-202: the colour after the first gap in the sorted colours. -/
def gap : List Nat → Option Nat
  | a :: b :: l => if a ≠ b ∧ a + 1 ≠ b then some (a + 1) else gap (b :: l)
  | _ => none

/-- Colour for a vertex whose coloured neighbours have the colours `adj` (sorted), `/repo/src/graph/reorder.cpp` 188-203. -/
def pickColour (adj : List Nat) : Nat :=
  match adj with
  | [] => 1
  | _ => (gap adj).getD (adj.getLastD 0 + 1)

/-- Colouring of one vertex, `/repo/src/graph/reorder.cpp` 180-204; the state is `(colour, max_color)`. -/
def colourStep (g : Graph) (i : Nat) (s : List Nat × Nat) : Out (List Nat × Nat) := do
  let r ← g.nbrs i
  let cs ← mapOut (fun v => rd s.1 v) r
  let adj := (cs.filter (· != 0)).insertionSort (· ≤ ·)
  let colour ← wr s.1 i (pickColour adj)
  pure (colour, if adj.isEmpty then s.2 else max s.2 (pickColour adj))

/-- Inner loop of the numbering, `/repo/src/graph/reorder.cpp` 210-212; the state is `(permutation, new_index)`. -/
def numberStep (colour : List Nat) (c : Nat) (i : Nat) (s : List Nat × Nat) : Out (List Nat × Nat) := do
  let x ← rd colour i
  if x == c then
    let p ← wr s.1 i s.2
    pure (p, s.2 + 1)
  else pure s

/-- `greedy_multicolouring`, `/repo/src/graph/reorder.cpp` 168-216. -/
def greedyMulticolouring (g : Graph) : Out (List Nat) :=
  if g.empty then .ok []
  else do
    let s ← loop g.sizeVertex g.colourStep (List.replicate g.sizeVertex 0, 0)
    let t ← loop (s.2 + 1) (fun c t => loop s.1.length (numberStep s.1 c) t) (List.replicate g.sizeVertex 0, 0)
    pure t.1

end Graph
end Disa
