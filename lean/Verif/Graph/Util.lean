import Verif.Graph.Model

/-!
# Model of the graph utilities

`/repo/include/graph/graph_utilities.hpp`.  The functions are templates on the graph type; a subgraph passes its own
graph on, so one model serves both.  A `std::queue` is a list with its front first.
-/

namespace Disa

/-- The common loop body of the searches: if the mark of `v` satisfies `isNew`, write a new mark and append `v`.
`/repo/include/graph/graph_utilities.hpp` 86-89, 133-136 and 240-243, `/repo/src/graph/reorder.cpp` 76-79 and 135-138. -/
def discover (isNew : β → Bool) (val : List β → Out β) (s : List Nat × List β) (v : Nat) : Out (List Nat × List β) := do
  let x ← rd s.2 v
  if isNew x then
    let y ← val s.2
    let m ← wr s.2 v y
    pure (s.1 ++ [v], m)
  else pure s

namespace Graph

/-- Is the level 0, i.e. unset after the increment on line 77? -/
def unset (l : Nat) : Bool := l == 0

/-- `vertex_level[front] + 1`, line 88. -/
def nextLevel (front : Nat) (level : List Nat) : Out Nat := do
  let l ← rd level front
  pure (wrap (l + 1))

/-- Body of the while loop of `level_traversal`, `/repo/include/graph/graph_utilities.hpp` 82-91. -/
def levelStep (g : Graph) (endLevel : Nat) (s : List Nat × List Nat) : Out (List Nat × List Nat) :=
  match s.1 with
  | [] => .ok s
  | front :: rest => do
    let l ← rd s.2 front
    if l == wrap (endLevel + 1) then pure (rest, s.2)
    else
      let r ← g.nbrs front
      r.foldlM (discover unset (nextLevel front)) (rest, s.2)

/-- Largest element of a vector of indices (`*std::max_element` of a non-empty vector). -/
def maxElem (l : List Nat) : Nat := l.foldl max 0

/-- `level_traversal` with a queue, `/repo/include/graph/graph_utilities.hpp` 72-94; the queue is empty afterwards. -/
def levelTraversalFrom (g : Graph) (queue : List Nat) (level : List Nat) (endLevel : Nat) : Out (List Nat) := do
  assert (!g.empty)
  assert (level.length == g.sizeVertex)
  let level := level.map fun l => wrap (l + 1)
  assert (maxElem level < g.sizeVertex)
  let s ← whileFuel (fun s => !s.1.isEmpty) (g.levelStep endLevel) (queue.length + g.sizeVertex) (queue, level)
  pure (s.2.map fun l => usub l 1)

/-- `level_traversal` from one vertex, `/repo/include/graph/graph_utilities.hpp` 48-61. -/
def levelTraversal (g : Graph) (start : Nat) (endLevel : Nat) : Out (List Nat) := do
  assert (!g.empty)
  assert (start < g.sizeVertex)
  let level ← wr (List.replicate g.sizeVertex sizeMax) start 0
  g.levelTraversalFrom [start] level endLevel

/-- Is the colour or distance the maximum, i.e. unset? -/
def isMax (l : Nat) : Bool := l == sizeMax

/-- Drain one queue of `level_expansion`, `/repo/include/graph/graph_utilities.hpp` 129-138. -/
def drain (g : Graph) : List Nat → List Nat × List Nat → Out (List Nat × List Nat)
  | [], s => .ok s
  | front :: rest, s => do
    let r ← g.nbrs front
    let s ← r.foldlM (discover isMax (fun color => rd color front)) s
    drain g rest s

/-- One turn of the `FOR(i_queue, ...)` loop of `level_expansion`, `/repo/include/graph/graph_utilities.hpp` 122-140.
The state is `(vertex_queues, vertex_color)`. -/
def expandQueue (g : Graph) (iteration : Nat) (i : Nat) (s : List (List Nat) × List Nat) :
    Out (List (List Nat) × List Nat) := do
  let k := if iteration % 2 == 0 then i else s.1.length - i - 1
  let q ← rd s.1 k
  let t ← g.drain q ([], s.2)
  let qs ← wr s.1 k t.1
  pure (qs, t.2)

/-- Body of the while loop of `level_expansion`, `/repo/include/graph/graph_utilities.hpp` 121-144; the state is
`(iteration, vertex_queues, vertex_color)`. -/
def expandSweep (g : Graph) (s : Nat × List (List Nat) × List Nat) : Out (Nat × List (List Nat) × List Nat) := do
  let t ← loop s.2.1.length (g.expandQueue s.1) s.2
  assert (s.1 < g.sizeVertex)
  pure (s.1 + 1, t)

/-- `level_expansion`, `/repo/include/graph/graph_utilities.hpp` 104-146, returning `vertex_color`.  Its earlier content
does not matter, every entry is overwritten.  The fuel is one more than the number of sweeps the assertion permits. -/
def levelExpansion (g : Graph) (seeds : List Nat) : Out (List Nat) := do
  assert (!g.empty)
  assert (!seeds.isEmpty)
  assert (maxElem seeds < g.sizeVertex)
  let color ← loop seeds.length (fun i color => do
    let s ← rd seeds i
    wr color s i) (List.replicate g.sizeVertex sizeMax)
  let s ← whileFuel (fun s => s.2.1.any fun q => !q.isEmpty) g.expandSweep (g.sizeVertex + 1)
    (0, seeds.map (fun s => [s]), color)
  pure s.2.2

/-- Body of the `FOR` loop of `pseudo_peripheral_vertex`, `/repo/include/graph/graph_utilities.hpp` 175-182; the state is
`(found, max_distance, pseudo_peripheral_node)`. -/
def peripheralBody (g : Graph) (distance : List Nat) (i : Nat) (s : Bool × Nat × Nat) : Out (Bool × Nat × Nat) := do
  let di ← rd distance i
  if di > s.2.1 then pure (false, di, i)
  else if di == s.2.1 then
    let a ← g.degree i
    let b ← g.degree s.2.2
    if a < b then pure (false, di, i) else pure s
  else pure s

/-- Body of the while loop of `pseudo_peripheral_vertex`, `/repo/include/graph/graph_utilities.hpp` 172-183. -/
def peripheralStep (g : Graph) (s : Bool × Nat × Nat) : Out (Bool × Nat × Nat) := do
  let distance ← g.levelTraversal s.2.2 sizeMax
  loop g.sizeVertex (g.peripheralBody distance) (true, s.2)

/-- `pseudo_peripheral_vertex`, `/repo/include/graph/graph_utilities.hpp` 155-185.  The fuel bounds the pairs of a
distance and a degree that the loop can go through. -/
def pseudoPeripheral (g : Graph) (start : Nat) : Out Nat := do
  assert (!g.empty)
  assert (start < g.sizeVertex)
  let deg ← g.degree start
  if deg == 0 then pure start
  else
    let s ← whileFuel (fun s => !s.1) g.peripheralStep ((g.sizeVertex + 2) * (g.sizeVertex + 2)) (false, 0, start)
    pure s.2.2

/-- Body of the while loop of `eccentricity_vertex_breadth_first`, `/repo/include/graph/graph_utilities.hpp` 235-244. -/
def eccStep (g : Graph) (stop : Nat) (s : List Nat × List Nat) : Out (List Nat × List Nat) :=
  match s.1 with
  | [] => .ok s
  | front :: rest =>
    if front ≥ stop then .ok (rest, s.2)
    else do
      let r ← g.nbrs front
      r.foldlM (discover isMax (nextLevel front)) (rest, s.2)

/-- `eccentricity_vertex_breadth_first`, `/repo/include/graph/graph_utilities.hpp` 214-246, returning `distance`.  The
argument is the earlier content of `distance`. -/
def eccVertex (g : Graph) (start : Nat) (distance : List Nat) (stop : Nat) : Out (List Nat) := do
  assert (!g.empty)
  assert (start < g.sizeVertex)
  assert (start ≤ stop)
  assert (stop == sizeMax || stop ≤ g.sizeVertex)
  let distance := distance.map fun _ => sizeMax
  let distance := resizeList distance (if g.sizeVertex ≤ stop then g.sizeVertex else stop) sizeMax
  let distance ← wr distance start 0
  let s ← whileFuel (fun s => !s.1.isEmpty) (g.eccStep stop) (1 + g.sizeVertex) ([start], distance)
  pure s.2

/-- `eccentricity_graph`, `/repo/include/graph/graph_utilities.hpp` 193-200, returning `eccentricity`.  The argument is
its earlier content. -/
def eccGraph (g : Graph) (ecc : List (List Nat)) : Out (List (List Nat)) :=
  loop g.sizeVertex (fun i ecc => do
    let start := usub (usub g.sizeVertex i) 1
    let old ← rd ecc start
    let d ← g.eccVertex start old (start + 1)
    wr ecc start d) (resizeList ecc g.sizeVertex [])

end Graph
end Disa
