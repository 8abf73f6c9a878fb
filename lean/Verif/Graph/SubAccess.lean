import Verif.Graph.Capacity
import Verif.Spec.Subgraph

/-!
# Model of the access to subgraphs and of their storage

The functions of `Adjacency_Subgraph` that pass a call on to the member `graph`, and `reserve`, `capacity` and
`shrink_to_fit`.
-/

namespace Disa

namespace Subgraph

/-- `at`, `/repo/include/graph/adjacency_subgraph.hpp` 110: it passes the call on to `operator[]` of the graph. -/
def at' (s : Subgraph) (v : Nat) : Out (List Nat) := s.graph.nbrs v

/-- `operator[]` (both overloads), `/repo/include/graph/adjacency_subgraph.hpp` 117-126. -/
def nbrs (s : Subgraph) (v : Nat) : Out (List Nat) := s.graph.nbrs v

/-- `front` (both overloads), `/repo/include/graph/adjacency_subgraph.hpp` 132-138. -/
def front (s : Subgraph) : Out (List Nat) := s.graph.front

/-- `back` (both overloads), `/repo/include/graph/adjacency_subgraph.hpp` 144-150. -/
def back (s : Subgraph) : Out (List Nat) := s.graph.back

/-- `empty`, `/repo/include/graph/adjacency_subgraph.hpp` 175. -/
def empty (s : Subgraph) : Bool := s.graph.empty

/-- `size_edge`, `/repo/include/graph/adjacency_subgraph.hpp` 187. -/
def sizeEdge (s : Subgraph) : Nat := s.graph.sizeEdge false

/-- `size`, `/repo/include/graph/adjacency_subgraph.hpp` 193, with `size` of the graph,
`/repo/include/graph/adjacency_graph.hpp` 216-218. -/
def size (s : Subgraph) : Nat × Nat := (s.graph.sizeVertex, s.graph.sizeEdge false)

/-- `contains`, `/repo/include/graph/adjacency_subgraph.hpp` 270. -/
def contains (s : Subgraph) (e : Edge) : Out Bool := s.graph.contains e

/-- `degree`, `/repo/include/graph/adjacency_subgraph.hpp` 281. -/
def degree (s : Subgraph) (v : Nat) : Out Nat := s.graph.degree v

end Subgraph

/-- A subgraph with the capacities of its vectors. -/
structure SubRoom where
  sub : Subgraph
  /-- The capacity of `offset` of the graph. -/
  off : Nat
  /-- The capacity of `vertex_adjacent_list` of the graph. -/
  adj : Nat
  /-- `i_local_global.capacity()` -/
  l2g : Nat
  /-- `level_set_value.capacity()` -/
  lev : Nat

namespace SubRoom

/-- The member `graph` with its capacities. -/
def room (c : SubRoom) : Room := ⟨c.sub.graph, c.off, c.adj⟩

/-- `reserve`, `/repo/include/graph/adjacency_subgraph.hpp` 200-204.  The exception for a size above `max_size` ends the
program, as the function is `noexcept`. -/
def reserve (a : Alloc) (c : SubRoom) (v e : Nat) : Out SubRoom := do
  let r ← c.room.reserve a false v e
  if v ≤ a.max then
    pure ⟨c.sub, r.off, r.adj, a.fit c.l2g c.sub.l2g.length v, a.fit c.lev c.sub.lev.length v⟩
  else .throw

/-- `capacity`, `/repo/include/graph/adjacency_subgraph.hpp` 210-212. -/
def capacity (c : SubRoom) : Nat × Nat × Nat × Nat :=
  ((c.room.capacity false).1, (c.room.capacity false).2, c.l2g, c.lev)

/-- `shrink_to_fit`, `/repo/include/graph/adjacency_subgraph.hpp` 217-221. -/
def shrinkToFit (a : Alloc) (c : SubRoom) : SubRoom :=
  let r := c.room.shrinkToFit a
  ⟨c.sub, r.off, r.adj, a.shrink c.l2g c.sub.l2g.length, a.shrink c.lev c.sub.lev.length⟩

/-- `clear`, `/repo/include/graph/adjacency_subgraph.hpp` 229-234. -/
def clear (c : SubRoom) : SubRoom := { c with sub := c.sub.clear }

/-- `resize`, `/repo/include/graph/adjacency_subgraph.hpp` 243-248. -/
def resize (a : Alloc) (c : SubRoom) (n : Nat) : Out SubRoom := do
  let s ← c.sub.resize false n
  let r ← c.room.resize a n
  pure ⟨s, r.off, r.adj, a.fit c.l2g c.sub.l2g.length n,
    if !c.sub.lev.isEmpty then a.fit c.lev c.sub.lev.length n else c.lev⟩

/-- `swap`, `/repo/include/graph/adjacency_subgraph.hpp` 254-259, returning both subgraphs: the vectors change hands. -/
def swap (c d : SubRoom) : SubRoom × SubRoom :=
  let (s, t) := c.sub.swap d.sub
  (⟨s, d.off, d.adj, d.l2g, d.lev⟩, ⟨t, c.off, c.adj, c.l2g, c.lev⟩)

end SubRoom

namespace Spec

/-- Subgraphs with their storage that a program can obtain: any subgraph in any storage that holds it, and what the
functions above make of it. -/
inductive SubHeld (a : Alloc) (h : Nat → Nat) (parent : Graph) (part : List Nat) (B : Nat) : SubRoom → Prop
  | start {s off adj l2g lev} : SubSized h parent part B s → s.graph.off.length ≤ off → s.graph.adj.length ≤ adj →
      s.l2g.length ≤ l2g → s.lev.length ≤ lev → SubHeld a h parent part B ⟨s, off, adj, l2g, lev⟩
  | reserve {c v e c'} : SubHeld a h parent part B c → c.reserve a v e = .ok c' → SubHeld a h parent part B c'
  | shrink {c} : SubHeld a h parent part B c → SubHeld a h parent part B (c.shrinkToFit a)
  | clear {c} : SubHeld a h parent part B c → SubHeld a h parent part B c.clear
  | resize {c n c'} : SubHeld a h parent part B c → n < sizeMax → c.resize a n = .ok c' → SubHeld a h parent part B c'
  | swapFst {c d} : SubHeld a h parent part B c → SubHeld a h parent part B d → SubHeld a h parent part B (c.swap d).1
  | swapSnd {c d} : SubHeld a h parent part B c → SubHeld a h parent part B d → SubHeld a h parent part B (c.swap d).2

end Spec

end Disa
