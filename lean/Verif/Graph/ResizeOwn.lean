import Verif.Graph.Model

/-!
`resize` of a graph to a number which is an entry of one of its own rows, as in `graph.resize(graph[i][k])`.

The parameter of `resize` is `const std::size_t& size` and `graph[i]` is a span of the graph's own list, so `size` is then
a reference into `vertex_adjacent_list`, which `resize` changes.
-/

namespace Disa.Graph

/-- The value which `std::lower_bound` of the shrinking loop compares with, `/repo/include/graph/adjacency_graph.hpp` 515,
if `size` refers to position `p` of `vertex_adjacent_list`: what the list holds there now.  For an empty row nothing is
read; 0 stands for it.  Reading a position past the end is undefined. -/
def ownSize (p v : Nat) (s : List Nat × List Nat × Nat) : Out Nat := do
  let (b, e) ← adjIter ⟨s.2.1, s.1⟩ v
  if b == e then .ok 0 else rd s.2.1 p

/-- Body of the shrinking loop of `resize`, `/repo/include/graph/adjacency_graph.hpp` 513-523, with `size` at position
`p`. -/
def ownBody (strict : Bool) (p v : Nat) (s : List Nat × List Nat × Nat) : Out (List Nat × List Nat × Nat) := do
  let x ← ownSize p v s
  resizeBody strict x v s

/-- `graph.resize(graph[i][k])`, `/repo/include/graph/adjacency_graph.hpp` 500-525.  The two uses of `size` before the
list changes (504-508) read the entry; growing does not touch the list. -/
def resizeOwn (strict : Bool) (g : Graph) (i k : Nat) : Out Graph := do
  let b ← rd g.off i
  let size ← rd g.adj (b + k)
  if g.sizeVertex < size then g.resize strict size
  else
    let off := resizeList g.off (size + 1) 0
    let back ← rd off (off.length - 1)
    let adj := resizeList g.adj back 0
    let (off, adj, _) ← loop (sizeVertex ⟨adj, off⟩) (ownBody strict (b + k)) (off, adj, 0)
    return ⟨adj, off⟩

end Disa.Graph
