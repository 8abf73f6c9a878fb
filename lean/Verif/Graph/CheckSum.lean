import Verif.Graph.Model
import Verif.Scalar.Float

/-!
`reorder` with the check sum in `double`.

`Graph.reorder` of `Verif/Graph/Model.lean` has the check sum as a natural number; here it is the floating point number that
the code computes.
-/

namespace Disa.Graph

/-- Conversion of `std::size_t` to `double`. -/
def asDouble (n : Nat) : Num binary64 := binary64 n

/-- `std::accumulate(permutation.begin(), permutation.end(), 0.0)`, `/repo/include/graph/adjacency_graph.hpp` 564. -/
def checkSum (perm : List Nat) : Num binary64 := perm.foldl (fun s x => s + asDouble x) (Num.fin 0)

/-- `(size_vertex() - 1) * size_vertex() / 2.0`, `/repo/include/graph/adjacency_graph.hpp` 564: the product is
`std::size_t` arithmetic, the quotient is of `double`. -/
def checkSumOf (n : Nat) : Num binary64 := asDouble (wrap (usub n 1 * n)) / Num.fin 2

/-- `reorder`, `/repo/include/graph/adjacency_graph.hpp` 558-593, as `Graph.reorder` apart from the check sum. -/
def reorderDouble (g : Graph) (perm : List Nat) : Out (Graph × Graph) := do
  let n := g.sizeVertex
  assert (perm.length == n)
  assert (Fl.eq (checkSum perm) (checkSumOf n))
  let off ← g.reorderOff perm
  let adj := List.replicate g.adj.length 0
  let adj ← loop n (g.reorderFill perm off) adj
  return (⟨adj, off⟩, g)

end Disa.Graph
