import Verif.Basic
import Mathlib.Data.List.Sort

/-!
# Model of `Adjacency_Graph`

`/repo/include/graph/adjacency_graph.hpp`.  The template parameter `_directed` is the Boolean argument `d`.
-/

namespace Disa

/-- Data members of `Adjacency_Graph`, `/repo/include/graph/adjacency_graph.hpp` 331-332. -/
structure Graph where
  /-- `vertex_adjacent_list` -/
  adj : List Nat
  /-- `offset` -/
  off : List Nat
  deriving DecidableEq, Repr

/-- `Edge`, `/repo/include/graph/edge.hpp` 35. -/
abbrev Edge := Nat × Nat

/-- `order_edge_vertex`, `/repo/include/graph/edge.hpp` 42-46 (the null pointer check is not modelled). -/
def orderEdge (e : Edge) : Edge := if e.1 < e.2 then (e.1, e.2) else (e.2, e.1)

namespace Graph

/-- Default constructor, `/repo/include/graph/adjacency_graph.hpp` 84. -/
def new : Graph := ⟨[], []⟩

/-- `empty`, `/repo/include/graph/adjacency_graph.hpp` 196. -/
def empty (g : Graph) : Bool := g.off.isEmpty || g.off.length < 2

/-- `size_vertex`, `/repo/include/graph/adjacency_graph.hpp` 202. -/
def sizeVertex (g : Graph) : Nat := if !g.off.isEmpty then g.off.length - 1 else 0

/-- `size_edge`, `/repo/include/graph/adjacency_graph.hpp` 208-210. -/
def sizeEdge (d : Bool) (g : Graph) : Nat := if !d then g.adj.length / 2 else g.adj.length

/-- `clear`, `/repo/include/graph/adjacency_graph.hpp` 254-257. -/
def clear (_ : Graph) : Graph := ⟨[], []⟩

/-- `swap`, `/repo/include/graph/adjacency_graph.hpp` 288-291, returning both graphs. -/
def swap (g h : Graph) : Graph × Graph := (⟨h.adj, h.off⟩, ⟨g.adj, g.off⟩)

/-- `vertex_adjacency_iter`, `/repo/include/graph/adjacency_graph.hpp` 344-347, as positions. -/
def adjIter (g : Graph) (v : Nat) : Out (Nat × Nat) := do
  let b ← rd g.off v
  let e ← rd g.off (v + 1)
  pure (b, e)

/-- `operator[]` (both overloads), `/repo/include/graph/adjacency_graph.hpp` 119-136.  The result is the content of the
span.  A span outside the adjacency list is counted as undefined when it is formed rather than when it is read. -/
def nbrs (g : Graph) (v : Nat) : Out (List Nat) := do
  assert (v < g.sizeVertex)
  let (b, e) ← g.adjIter v
  slice g.adj b e

/-- `at`, `/repo/include/graph/adjacency_graph.hpp` 108-112. -/
def at' (g : Graph) (v : Nat) : Out (List Nat) := do
  assert (v < g.sizeVertex)
  g.nbrs v

/-- `front`, `/repo/include/graph/adjacency_graph.hpp` 142-154. -/
def front (g : Graph) : Out (List Nat) := do
  assert (!g.empty)
  g.nbrs 0

/-- `back`, `/repo/include/graph/adjacency_graph.hpp` 160-172. -/
def back (g : Graph) : Out (List Nat) := do
  assert (!g.empty)
  g.nbrs (usub g.sizeVertex 1)

/-- `degree`, `/repo/include/graph/adjacency_graph.hpp` 313-317. -/
def degree (g : Graph) (v : Nat) : Out Nat := do
  assert (v < g.sizeVertex)
  let e ← rd g.off (v + 1)
  let b ← rd g.off v
  pure (usub e b)

/-- `contains`, `/repo/include/graph/adjacency_graph.hpp` 535-544. -/
def contains (g : Graph) (e : Edge) : Out Bool := do
  assert (e.1 != e.2)
  if g.empty then return false
  if max e.1 e.2 ≥ g.sizeVertex then return false
  let r ← g.nbrs e.1
  let k ← lowerBound r e.2
  if k != r.length then
    let x ← rd r k
    return x == e.2
  else return false

/-- `insert_vertex_adjacent_list`, `/repo/include/graph/adjacency_graph.hpp` 603-609. -/
def insertAdj (g : Graph) (v x : Nat) : Out Graph := do
  let (b, e) ← g.adjIter v
  let r ← slice g.adj b e
  let k ← lowerBound r x
  pure { g with adj := insAt g.adj (b + k) x }

/-- `std::for_each` over the offset positions `[lo, hi)`, adding `c`; a range that is not inside the vector is
undefined.  Used for lines 425-427 and 433-434 of `/repo/include/graph/adjacency_graph.hpp`. -/
def addOff (off : List Nat) (lo hi c : Nat) : Out (List Nat) :=
  if lo ≤ hi ∧ hi ≤ off.length then
    .ok (off.mapIdx fun i o => if lo ≤ i ∧ i < hi then o + c else o)
  else .ub

/-- First half of the body of the shrinking loop of `resize`, `/repo/include/graph/adjacency_graph.hpp` 514-521: drop the
entries of vertex `v` that are not below `size`.  The state is `(offset, vertex_adjacent_list, offset_carry)`. -/
def resizeTrim (size : Nat) (v : Nat) (s : List Nat × List Nat × Nat) : Out (List Nat × List Nat × Nat) := do
  let (b, e) ← adjIter ⟨s.2.1, s.1⟩ v
  let r ← slice s.2.1 b e
  let k ← lowerBound r size
  if b + k != e then
    let o ← rd s.1 (v + 1)
    let off ← wr s.1 (v + 1) (usub o (e - (b + k)))
    pure (off, cut s.2.1 (b + k) e, s.2.2 + (e - (b + k)))
  else pure s

/-- Second half of the body, `/repo/include/graph/adjacency_graph.hpp` 522.  With `strict` the update of
`offset[i_vertex + 2]` past the end is undefined; without it that update is dropped, which is what happens when it lands
in unused memory. -/
def resizeCarry (strict : Bool) (v : Nat) (s : List Nat × List Nat × Nat) : Out (List Nat × List Nat × Nat) := do
  if v + 2 < s.1.length ∨ strict then
    let o ← rd s.1 (v + 2)
    let off ← wr s.1 (v + 2) (usub o s.2.2)
    pure (off, s.2)
  else pure s

/-- Body of the shrinking loop of `resize`, `/repo/include/graph/adjacency_graph.hpp` 513-523. -/
def resizeBody (strict : Bool) (size : Nat) (v : Nat) (s : List Nat × List Nat × Nat) :
    Out (List Nat × List Nat × Nat) := do
  let s ← resizeTrim size v s
  resizeCarry strict v s

/-- `resize`, `/repo/include/graph/adjacency_graph.hpp` 500-525.  `size + 1` is `std::size_t` arithmetic and wraps; it does not if the
graph has so many vertices. -/
def resize (strict : Bool) (g : Graph) (size : Nat) : Out Graph := do
  if g.sizeVertex < size then
    let fill := if g.off.isEmpty then 0 else g.off.getLastD 0
    return { g with off := resizeList g.off (wrap (size + 1)) fill }
  else
    let off := resizeList g.off (size + 1) 0
    let back ← rd off (off.length - 1)
    let adj := resizeList g.adj back 0
    let (off, adj, _) ← loop (sizeVertex ⟨adj, off⟩) (resizeBody strict size) (off, adj, 0)
    return ⟨adj, off⟩

/-- The resize step of `insert`, `/repo/include/graph/adjacency_graph.hpp` 421.  `max + 1` is `std::size_t` arithmetic
and wraps. -/
def growFor (g : Graph) (m : Nat) : Out Graph :=
  if m ≥ g.sizeVertex then g.resize true (wrap (m + 1)) else .ok g

/-- `insert`, `/repo/include/graph/adjacency_graph.hpp` 412-437. -/
def insert (d : Bool) (g : Graph) (e : Edge) : Out (Graph × Bool) := do
  assert (e.1 != e.2)
  if ← g.contains e then return (g, false)
  let (a, b) := if !d then orderEdge e else e
  let g ← g.growFor (max a b)
  let g ← g.insertAdj a b
  let off ← addOff g.off (a + 1) (if !d then b + 2 else g.off.length) 1
  let g : Graph := { g with off := off }
  if d then return (g, true)
  let g ← g.insertAdj b a
  let o ← rd g.off (b + 1)
  let off ← wr g.off (b + 1) (o + 1)
  let off ← addOff off (b + 2) off.length 2
  return ({ g with off := off }, true)

/-- Constructor from an edge list, `/repo/include/graph/adjacency_graph.hpp` 386-399.  Dereferencing the maximum of an
empty list is undefined; reserve and shrink_to_fit are not modelled. -/
def ofEdges (d : Bool) (es : List Edge) : Out Graph :=
  if es.isEmpty then .ub
  else es.foldlM (fun g e => do let (g, _) ← insert d g e; pure g) new

/-- State of the first loop of `erase_if`. -/
structure EraseState where
  off : List Nat
  adjDel : List Bool
  newIdx : List Nat
  removed : Nat
  iv : Nat

/-- Body of the first loop of `erase_if`, `/repo/include/graph/adjacency_graph.hpp` 455-472. -/
def eraseBody (adj : List Nat) (del : Nat → Bool) (v : Nat) (s : EraseState) : Out EraseState := do
  let (b, e) ← adjIter ⟨adj, s.off⟩ v
  let r ← slice adj b e
  let o ← rd s.off v
  let off ← wr s.off v (usub o s.removed)
  if !del v then
    let newIdx ← wr s.newIdx v s.iv
    let adjDel ← overwrite s.adjDel b (r.map del)
    pure ⟨off, adjDel, newIdx, s.removed + r.countP del, s.iv + 1⟩
  else
    let adjDel ← overwrite s.adjDel b (r.map fun _ => true)
    pure ⟨off, adjDel, s.newIdx, s.removed + (e - b), s.iv⟩

/-- `erase_if`, `/repo/include/graph/adjacency_graph.hpp` 445-492.  `std::remove_if` with the counting lambdas is
modelled as removing the positions for which the lambda returns true, visited once each from front to back. -/
def eraseIf (g : Graph) (del : Nat → Bool) : Out Graph := do
  let n := g.sizeVertex
  let s ← loop n (eraseBody g.adj del)
    ⟨g.off, List.replicate g.adj.length false, List.replicate g.adj.length sizeMax, 0, 0⟩
  let o ← rd s.off (s.off.length - 1)
  let off ← wr s.off (s.off.length - 1) (usub o s.removed)
  let off := (off.zipIdx.filter fun p => !(p.2 < n && del p.2)).map Prod.fst
  let adj := ((g.adj.zip s.adjDel).filter fun p => !p.2).map Prod.fst
  let adj ← mapOut (rd s.newIdx) adj
  let back ← rd off (off.length - 1)
  assert (back == adj.length)
  return ⟨adj, off⟩

/-- First loop of `reorder`, `/repo/include/graph/adjacency_graph.hpp` 575. -/
def reorderCount (g : Graph) (perm : List Nat) (i : Nat) (off : List Nat) : Out (List Nat) := do
  let p ← rd perm i
  let e ← rd g.off (i + 1)
  let b ← rd g.off i
  wr off (p + 1) (usub e b)

/-- Second loop of `reorder`, `/repo/include/graph/adjacency_graph.hpp` 576. -/
def reorderSum (i : Nat) (off : List Nat) : Out (List Nat) := do
  let x ← rd off (i + 1)
  let y ← rd off i
  wr off (i + 1) (x + y)

/-- Third loop of `reorder`, `/repo/include/graph/adjacency_graph.hpp` 580-588.  `std::sort` on indices has a unique
result, computed here by an insertion sort. -/
def reorderFill (g : Graph) (perm off : List Nat) (i : Nat) (adj : List Nat) : Out (List Nat) := do
  let p ← rd perm i
  let (b, e) ← g.adjIter i
  let r ← slice g.adj b e
  let r ← mapOut (rd perm) r
  let b' ← rd off p
  let adj ← overwrite adj b' r
  let (b, e) ← adjIter ⟨adj, off⟩ p
  let s ← slice adj b e
  overwrite adj b (s.insertionSort (· ≤ ·))

/-- The new offsets computed by `reorder`, `/repo/include/graph/adjacency_graph.hpp` 569-577. -/
def reorderOff (g : Graph) (perm : List Nat) : Out (List Nat) :=
  let off := List.replicate g.off.length 0
  if !g.empty then do
    let off ← wr off 0 0
    let off ← loop g.sizeVertex (g.reorderCount perm) off
    loop g.sizeVertex reorderSum off
  else .ok off

/-- `reorder`, `/repo/include/graph/adjacency_graph.hpp` 558-593.  Returns the graph after the call and the returned
graph.  The check sum is computed in `double` by the code; it is exact here, which is the same up to 2^27 vertices (C187). -/
def reorder (g : Graph) (perm : List Nat) : Out (Graph × Graph) := do
  let n := g.sizeVertex
  assert (perm.length == n)
  assert (2 * perm.sum == (n - 1) * n)
  let off ← g.reorderOff perm
  let adj := List.replicate g.adj.length 0
  let adj ← loop n (g.reorderFill perm off) adj
  return (⟨adj, off⟩, g)

/-- `std::hash<Adjacency_Graph>`, `/repo/include/graph/adjacency_graph.hpp` 667-676.  `h` is `std::hash<std::size_t>`. -/
def hash (h : Nat → Nat) (d : Bool) (g : Graph) : Out Nat := do
  if g.empty then return 0
  let f ← g.front
  let b ← g.back
  return 0 ^^^ h g.sizeVertex ^^^ h (g.sizeEdge d) ^^^ h f.length ^^^ h b.length

end Graph
end Disa
