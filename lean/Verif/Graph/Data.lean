import Verif.Graph.Subgraph

/-!
# Model of `data` of graphs and subgraphs

A pointer is `none` if it is null.  Otherwise it is given by the elements of the vector it points into.
-/

namespace Disa

/-- `data`, `/repo/include/graph/adjacency_graph.hpp` 182-186: the neighbours and the offsets. -/
def Graph.data (g : Graph) : Option (List Nat) × Option (List Nat) :=
  if g.empty then (none, none)
  else if g.adj.isEmpty then (none, some g.off)
  else (some g.adj, some g.off)

/-- `data`, `/repo/include/graph/adjacency_subgraph.hpp` 159-164: also the global indices and the levels. -/
def Subgraph.data (s : Subgraph) : Option (List Nat) × Option (List Nat) × Option (List Nat) × Option (List Nat) :=
  let graphData := s.graph.data
  (graphData.1, graphData.2, if s.l2g.isEmpty then none else some s.l2g, if s.lev.isEmpty then none else some s.lev)

end Disa
