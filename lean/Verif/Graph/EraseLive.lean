import Verif.Graph.Model

/-!
`erase_if` with a predicate which looks at the graph it is called on.

The template parameter of `erase_if` may be any callable, for example `[&](std::size_t v) { return graph.degree(v) < 2; }`.
`Graph.eraseIf` of `Verif/Graph/Model.lean` has the predicate as a function of the vertex alone; here it is also a function
of the two vectors of the graph as they are at the moment of the call, and may fail.
-/

namespace Disa.Graph

/-- Body of the first loop of `erase_if`, `/repo/include/graph/adjacency_graph.hpp` 455-472.  The predicate is called
after `offset[i_vertex_old]` has been reduced (460).  The two passes over the neighbours (465, 466) are one pass: nothing
changes between them. -/
def liveBody (adj : List Nat) (del : Graph → Nat → Out Bool) (v : Nat) (s : EraseState) : Out EraseState := do
  let (b, e) ← adjIter ⟨adj, s.off⟩ v
  let r ← slice adj b e
  let o ← rd s.off v
  let off ← wr s.off v (usub o s.removed)
  let c ← del ⟨adj, off⟩ v
  if !c then
    let newIdx ← wr s.newIdx v s.iv
    let flags ← mapOut (del ⟨adj, off⟩) r
    let adjDel ← overwrite s.adjDel b flags
    pure ⟨off, adjDel, newIdx, s.removed + flags.countP id, s.iv + 1⟩
  else
    let adjDel ← overwrite s.adjDel b (r.map fun _ => true)
    pure ⟨off, adjDel, s.newIdx, s.removed + (e - b), s.iv⟩

/-- The lambda given to `std::remove_if`, `/repo/include/graph/adjacency_graph.hpp` 477. -/
def liveAsk (adj : List Nat) (del : Graph → Nat → Out Bool) (i : Nat) (off : List Nat) : Out Bool :=
  if i < sizeVertex ⟨adj, off⟩ then del ⟨adj, off⟩ i else .ok false

/-- One step of `std::remove_if` over `offset`, `/repo/include/graph/adjacency_graph.hpp` 476-478: the predicate is called
for the position, and an offset which stays is moved to the front at once.  The state is `offset` and the number of
offsets kept. -/
def liveKeep (adj : List Nat) (del : Graph → Nat → Out Bool) (i : Nat) (s : List Nat × Nat) : Out (List Nat × Nat) := do
  let c ← liveAsk adj del i s.1
  let x ← rd s.1 i
  if c then pure s
  else
    let off ← wr s.1 s.2 x
    pure (off, s.2 + 1)

/-- `erase_if`, `/repo/include/graph/adjacency_graph.hpp` 445-492, with a predicate which reads the graph. -/
def eraseIfLive (g : Graph) (del : Graph → Nat → Out Bool) : Out Graph := do
  let s ← loop g.sizeVertex (liveBody g.adj del)
    ⟨g.off, List.replicate g.adj.length false, List.replicate g.adj.length sizeMax, 0, 0⟩
  let o ← rd s.off (s.off.length - 1)
  let off ← wr s.off (s.off.length - 1) (usub o s.removed)
  let k ← loop off.length (liveKeep g.adj del) (off, 0)
  let off := k.1.take k.2
  let adj := ((g.adj.zip s.adjDel).filter fun p => !p.2).map Prod.fst
  let adj ← mapOut (rd s.newIdx) adj
  let back ← rd off (off.length - 1)
  assert (back == adj.length)
  return ⟨adj, off⟩

/-- The predicate "the degree is below `k`", which asks the graph. -/
def degreeBelow (k : Nat) (g : Graph) (v : Nat) : Out Bool := do
  let n ← g.degree v
  pure (n < k)

end Disa.Graph
