import Verif.Graph.Subgraph

/-!
# Printing graphs

Model of the stream operators.  A stream is the text written so far, a list of characters; an index is written in decimal digits,
which is what an output stream with its default flags and the classic locale does.
-/

namespace Disa

/-- `ostream << n` for a `std::size_t` with the default flags of the stream. -/
def dec (n : Nat) : List Char := Nat.toDigits 10 n

namespace Graph

/-- Body of the inner loop of `operator<<`, `/repo/include/graph/adjacency_graph.hpp` 631-632 and
`/repo/src/graph/adjacency_subgraph.cpp` 236-237: the neighbour, and a separator if it differs from the last neighbour. -/
def printEntry (g : Graph) (v : Nat) (t : List Char) (x : Nat) : Out (List Char) := do
  let r ← g.nbrs v
  let b ← rd r (r.length - 1)
  pure (t ++ dec x ++ if x != b then [',', ' '] else [])

/-- Body of the loop of `operator<<`, `/repo/include/graph/adjacency_graph.hpp` 629-634 and
`/repo/src/graph/adjacency_subgraph.cpp` 234-239. -/
def printVertex (g : Graph) (v : Nat) (t : List Char) : Out (List Char) := do
  let t := if v != 0 then t ++ ['\n'] else t
  let r ← g.nbrs v
  let t ← r.foldlM (g.printEntry v) t
  let r ← g.nbrs v
  pure (if r.isEmpty then t ++ ['.'] else t)

/-- `operator<<`, `/repo/include/graph/adjacency_graph.hpp` 628-636, on a stream to which `t` was written before. -/
def print (g : Graph) (t : List Char) : Out (List Char) := loop g.sizeVertex g.printVertex t

end Graph

namespace Subgraph

/-- Body of the second loop of `operator<<`, `/repo/src/graph/adjacency_subgraph.cpp` 241-242. -/
def printMapping (s : Subgraph) (i : Nat) (t : List Char) : Out (List Char) := do
  let a ← s.localGlobal i
  let b ← s.vertexLevel i
  pure (t ++ ['\n'] ++ dec i ++ [' ', '-', '>', ' '] ++ dec a ++ [' ', '('] ++ dec b ++ [')'])

/-- `operator<<`, `/repo/src/graph/adjacency_subgraph.cpp` 232-245. -/
def print (s : Subgraph) (t : List Char) : Out (List Char) := do
  let t ← loop s.sizeVertex s.graph.printVertex t
  loop s.sizeVertex s.printMapping t

end Subgraph
end Disa
