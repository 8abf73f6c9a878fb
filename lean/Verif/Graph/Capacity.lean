import Verif.Alloc
import Verif.Spec.Graph

/-!
# Model of the storage of graphs

`reserve`, `capacity` and `shrink_to_fit` of `Adjacency_Graph`, and what the other functions do to the capacity of its two
vectors.
-/

namespace Disa

/-- A graph with the capacities of its vectors. -/
structure Room where
  graph : Graph
  /-- `offset.capacity()` -/
  off : Nat
  /-- `vertex_adjacent_list.capacity()` -/
  adj : Nat

namespace Room

/-- Default constructor, `/repo/include/graph/adjacency_graph.hpp` 84. -/
def new : Room := ⟨Graph.new, 0, 0⟩

/-- `capacity`, `/repo/include/graph/adjacency_graph.hpp` 234-237. -/
def capacity (d : Bool) (c : Room) : Nat × Nat :=
  (if c.off = 0 then 0 else c.off - 1, if !d then c.adj / 2 else c.adj)

/-- `reserve`, `/repo/include/graph/adjacency_graph.hpp` 225-228.  Both sizes are computed with `std::size_t` and wrap.  The
exception for a size above `max_size` ends the program, as the function is `noexcept`. -/
def reserve (a : Alloc) (d : Bool) (c : Room) (v e : Nat) : Out Room :=
  if wrap (v + 1) ≤ a.max ∧ wrap (e * (if !d then 2 else 1)) ≤ a.max then
    .ok { c with
      off := a.fit c.off c.graph.off.length (wrap (v + 1))
      adj := a.fit c.adj c.graph.adj.length (wrap (e * (if !d then 2 else 1))) }
  else .throw

/-- `shrink_to_fit`, `/repo/include/graph/adjacency_graph.hpp` 242-245. -/
def shrinkToFit (a : Alloc) (c : Room) : Room :=
  { c with off := a.shrink c.off c.graph.off.length, adj := a.shrink c.adj c.graph.adj.length }

/-- `insert`, `/repo/include/graph/adjacency_graph.hpp` 412-437: `offset` grows once, `vertex_adjacent_list` by single
elements. -/
def insert (a : Alloc) (d : Bool) (c : Room) (e : Edge) : Out (Room × Bool) := do
  let (g, b) ← c.graph.insert d e
  if b then
    let adj := a.fit c.adj c.graph.adj.length (c.graph.adj.length + 1)
    let adj := if d then adj else a.fit adj (c.graph.adj.length + 1) (c.graph.adj.length + 2)
    pure (⟨g, a.fit c.off c.graph.off.length g.off.length, adj⟩, b)
  else pure ({ c with graph := g }, b)

/-- `resize`, `/repo/include/graph/adjacency_graph.hpp` 500-525. -/
def resize (a : Alloc) (c : Room) (n : Nat) : Out Room := do
  let g ← c.graph.resize false n
  let off := resizeList c.graph.off (n + 1) 0
  let adj := if c.graph.sizeVertex < n then c.adj else a.fit c.adj c.graph.adj.length (off.getLastD 0)
  pure ⟨g, a.fit c.off c.graph.off.length (wrap (n + 1)), adj⟩

/-- `erase_if`, `/repo/include/graph/adjacency_graph.hpp` 445-492. -/
def eraseIf (c : Room) (del : Nat → Bool) : Out Room := do
  let g ← c.graph.eraseIf del
  pure { c with graph := g }

/-- `reorder`, `/repo/include/graph/adjacency_graph.hpp` 558-593: the vectors are new. -/
def reorder (a : Alloc) (c : Room) (perm : List Nat) : Out Room := do
  let (g, _) ← c.graph.reorder perm
  pure ⟨g, a.fit 0 0 c.graph.off.length, a.fit 0 0 c.graph.adj.length⟩

/-- `clear`, `/repo/include/graph/adjacency_graph.hpp` 254-257. -/
def clear (c : Room) : Room := { c with graph := c.graph.clear }

end Room

namespace Spec

/-- A call on a graph that may concern its storage. -/
inductive RoomOp where
  | call (op : Op)
  | reserve (v e : Nat)
  | shrinkToFit

/-- Perform one call. -/
def roomStep (a : Alloc) (d : Bool) (c : Room) : RoomOp → Out Room
  | .call (.insert e) => do let (c, _) ← c.insert a d e; pure c
  | .call (.eraseIf del) => c.eraseIf del
  | .call (.resize n) => c.resize a n
  | .call (.reorder perm) => c.reorder a perm
  | .call .clear => .ok c.clear
  | .reserve v e => c.reserve a d v e
  | .shrinkToFit => .ok (c.shrinkToFit a)

/-- Perform a history of calls. -/
def roomRun (a : Alloc) (d : Bool) (c : Room) : List RoomOp → Out Room
  | [] => .ok c
  | op :: ops => do let c ← roomStep a d c op; roomRun a d c ops

/-- Documented preconditions of a call. -/
def RoomOp.Valid : RoomOp → Prop
  | .call op => op.Valid
  | _ => True

/-- Graphs with their storage that a program can obtain from a default constructed one. -/
def Held (a : Alloc) (d : Bool) (c : Room) : Prop := ∃ ops, (∀ op ∈ ops, op.Valid) ∧ roomRun a d Room.new ops = .ok c

/-- Insert the edges in order. -/
def roomInsert (a : Alloc) (d : Bool) : Room → List Edge → Out Room
  | c, [] => .ok c
  | c, e :: es => do
    let (c, _) ← c.insert a d e
    roomInsert a d c es

end Spec

end Disa
