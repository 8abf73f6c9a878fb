import Verif.Graph.Util

/-!
# Model of `Adjacency_Subgraph`

`/repo/include/graph/adjacency_subgraph.hpp` and `/repo/src/graph/adjacency_subgraph.cpp`.  The functions that only pass
a call on to the graph (`at`, `operator[]`, `front`, `back`, `contains`, `degree`, the sizes) are those of the member
`graph`.  `h` is `std::hash<std::size_t>`.
-/

namespace Disa

/-- Data members of `Adjacency_Subgraph`, `/repo/include/graph/adjacency_subgraph.hpp` 346-352. -/
structure Subgraph where
  /-- `graph` -/
  graph : Graph
  /-- `i_local_global` -/
  l2g : List Nat
  /-- `level_set_value` -/
  lev : List Nat
  /-- `hash_parent` -/
  hashParent : Nat
  deriving DecidableEq, Repr

namespace Subgraph

/-- Default constructor, `/repo/include/graph/adjacency_subgraph.hpp` 81.  The hash of the empty graph is 0. -/
def new : Subgraph := ⟨Graph.new, [], [], 0⟩

/-- `size_vertex`, `/repo/include/graph/adjacency_subgraph.hpp` 180. -/
def sizeVertex (s : Subgraph) : Nat := s.graph.sizeVertex

/-- `clear`, `/repo/include/graph/adjacency_subgraph.hpp` 229-234. -/
def clear (s : Subgraph) : Subgraph := ⟨s.graph.clear, [], [], 0⟩

/-- `resize`, `/repo/include/graph/adjacency_subgraph.hpp` 243-248. -/
def resize (strict : Bool) (s : Subgraph) (size : Nat) : Out Subgraph := do
  let hp := if size > s.sizeVertex then 0 else s.hashParent
  let g ← s.graph.resize strict size
  pure ⟨g, resizeList s.l2g size 0, if !s.lev.isEmpty then resizeList s.lev size 0 else s.lev, hp⟩

/-- `swap`, `/repo/include/graph/adjacency_subgraph.hpp` 254-259, returning both subgraphs. -/
def swap (s t : Subgraph) : Subgraph × Subgraph :=
  let (g, k) := s.graph.swap t.graph
  (⟨g, t.l2g, t.lev, t.hashParent⟩, ⟨k, s.l2g, s.lev, s.hashParent⟩)

/-- `is_local`, `/repo/include/graph/adjacency_subgraph.hpp` 288-292. -/
def isLocal (s : Subgraph) (i : Nat) : Out Bool := do
  assert (i < s.sizeVertex)
  if s.lev.isEmpty then return true
  else
    let k ← rd s.lev i
    return k == 0

/-- `is_parent`, `/repo/include/graph/adjacency_subgraph.hpp` 299-301. -/
def isParent (h : Nat → Nat) (s : Subgraph) (parent : Graph) : Out Bool := do
  let x ← parent.hash h false
  return x == s.hashParent

/-- `local_global`, `/repo/include/graph/adjacency_subgraph.hpp` 308-312. -/
def localGlobal (s : Subgraph) (i : Nat) : Out Nat := do
  assert (i < s.sizeVertex)
  rd s.l2g i

/-- `vertex_level`, `/repo/include/graph/adjacency_subgraph.hpp` 340-344. -/
def vertexLevel (s : Subgraph) (i : Nat) : Out Nat := do
  assert (i < s.sizeVertex)
  if s.lev.isEmpty then return 0 else rd s.lev i

/-! ### `add_levels` -/

/-- Body of the loop that prepares the traversal, `/repo/src/graph/adjacency_subgraph.cpp` 150-154.  The state is
`(start_vertices, levels, i_global_local)`. -/
def loadStep (s : Subgraph) (c : Nat) (i : Nat) (st : List Nat × List Nat × List Nat) :
    Out (List Nat × List Nat × List Nat) := do
  let k ← rd s.lev i
  let v ← rd s.l2g i
  let q := if k == c then st.1 ++ [v] else st.1
  let levels ← wr st.2.1 v k
  let g2l ← wr st.2.2 v i
  pure (q, levels, g2l)

/-- The test `current_max < levels[i] && levels[i] <= max_level` on lines 161 and 169. -/
def isNewLevel (c maxLevel k : Nat) : Bool := decide (c < k) && decide (k ≤ maxLevel)

/-- Body of the loop that adds new vertices to the mapping, `/repo/src/graph/adjacency_subgraph.cpp` 160-165.  The state
is `(i_global_local, i_local_global, level_set_value)`. -/
def mapStep (c maxLevel : Nat) (levels : List Nat) (v : Nat) (st : List Nat × List Nat × List Nat) :
    Out (List Nat × List Nat × List Nat) := do
  let k ← rd levels v
  if isNewLevel c maxLevel k then
    let g2l ← wr st.1 v st.2.1.length
    pure (g2l, st.2.1 ++ [v], st.2.2 ++ [k])
  else pure st

/-- Innermost statement of the loop that inserts edges, `/repo/src/graph/adjacency_subgraph.cpp` 172-175. -/
def linkStep (g2l : List Nat) (a : Nat) (g : Graph) (w : Nat) : Out Graph := do
  let b ← rd g2l w
  if b != sizeMax then
    let (g, _) ← g.insert false (a, b)
    pure g
  else pure g

/-- Body of the loop that inserts edges, `/repo/src/graph/adjacency_subgraph.cpp` 168-178. -/
def edgeStep (parent : Graph) (c maxLevel : Nat) (levels g2l : List Nat) (v : Nat) (g : Graph) : Out Graph := do
  let k ← rd levels v
  if isNewLevel c maxLevel k then
    let a ← rd g2l v
    let r ← parent.nbrs v
    r.foldlM (linkStep g2l a) g
  else pure g

/-- `add_levels`, `/repo/src/graph/adjacency_subgraph.cpp` 136-179.  The result includes the global to local mapping. -/
def addLevels (s : Subgraph) (parent : Graph) (maxLevel c : Nat) : Out (Subgraph × List Nat) := do
  let n := parent.sizeVertex
  let (q, levels, g2l) ← loop s.sizeVertex (s.loadStep c) ([], List.replicate n sizeMax, List.replicate n sizeMax)
  let levels ← parent.levelTraversalFrom q levels maxLevel
  let (g2l, l2g, lev) ← loop levels.length (mapStep c maxLevel levels) (g2l, s.l2g, s.lev)
  let g ← loop levels.length (edgeStep parent c maxLevel levels g2l) s.graph
  pure (⟨g, l2g, lev, s.hashParent⟩, g2l)

/-! ### `remove_levels` -/

/-- Entries of `l` at the positions the predicate keeps (`std::remove_if` with a counter). -/
def keepAt (del : Nat → Bool) (l : List α) : List α := ((l.zipIdx).filter fun p => !del p.2).map Prod.fst

/-- Body of the loop that fills the global to local mapping, `/repo/src/graph/adjacency_subgraph.cpp` 207. -/
def fillStep (s : Subgraph) (i : Nat) (g2l : List Nat) : Out (List Nat) := do
  let v ← s.localGlobal i
  wr g2l v i

/-- `remove_levels`, `/repo/src/graph/adjacency_subgraph.cpp` 185-209.  The predicate reads `level_set_value` at every
vertex and at every position of the local to global mapping; if there are not enough levels that is undefined.  The
mapping is only filled if the caller passed one. -/
def removeLevels (s : Subgraph) (parent : Graph) (maxLevel : Nat) (g2l : Option (List Nat)) :
    Out (Subgraph × Option (List Nat)) := do
  if s.lev.length < s.sizeVertex ∨ s.lev.length < s.l2g.length then .ub
  else
    let del := fun v => decide (s.lev.getD v 0 > maxLevel)
    let g ← s.graph.eraseIf del
    let l2g := keepAt del s.l2g
    let lev := if maxLevel != 0 then s.lev.filter (fun k => !decide (k > maxLevel)) else []
    let s' : Subgraph := ⟨g, l2g, lev, s.hashParent⟩
    match g2l with
    | none => pure (s', none)
    | some _ =>
      let m ← loop s'.sizeVertex s'.fillStep (List.replicate parent.sizeVertex sizeMax)
      pure (s', some m)

/-! ### `update_levels`, the constructor and `reorder` -/

/-- `update_levels`, `/repo/src/graph/adjacency_subgraph.cpp` 110-123.  The last argument is the optional mapping; the
result holds its new content if one was passed. -/
def updateLevels (h : Nat → Nat) (s : Subgraph) (parent : Graph) (maxLevel : Nat) (g2l : Option (List Nat)) :
    Out (Subgraph × Option (List Nat)) := do
  let x ← parent.hash h false
  assert (s.hashParent == x)
  let c := if s.lev.isEmpty then 0 else Graph.maxElem s.lev
  let s := if s.lev.isEmpty then { s with lev := List.replicate s.sizeVertex 0 } else s
  if c < maxLevel then
    let (s, m) ← s.addLevels parent maxLevel c
    pure (s, if g2l.isSome then some m else none)
  else s.removeLevels parent maxLevel g2l

/-- `std::unique_copy`: drop the elements equal to their predecessor. -/
def uniqueCopy : List Nat → List Nat
  | [] => []
  | [a] => [a]
  | a :: b :: l => if a == b then uniqueCopy (b :: l) else a :: uniqueCopy (b :: l)

/-- Loop of the constructor that fills the global to local mapping, `/repo/src/graph/adjacency_subgraph.cpp` 62-66. -/
def indexPartition (n : Nat) (part : List Nat) : Out (List Nat) :=
  loop part.length (fun i g2l => do
    let v ← rd part i
    wr g2l v i) (List.replicate n sizeMax)

/-- Constructor, `/repo/src/graph/adjacency_subgraph.cpp` 40-77, in a debug build.  `erase_if` only asks the predicate about vertices of
the parent. -/
def make (h : Nat → Nat) (parent : Graph) (part : List Nat) (extraLevels : Nat) : Out Subgraph := do
  assert ((uniqueCopy part).length == part.length)
  assert (part.length ≤ parent.sizeVertex)
  assert (part.all fun v => v < parent.sizeVertex)
  let x ← parent.hash h false
  let g2l ← indexPartition parent.sizeVertex part
  let g ← parent.eraseIf fun v => g2l.getD v sizeMax == sizeMax
  let s : Subgraph := ⟨g, part, [], x⟩
  if extraLevels != 0 then
    let (s, _) ← s.updateLevels h parent extraLevels (some g2l)
    pure s
  else pure s

/-- Loop body of `reorder`, `/repo/src/graph/adjacency_subgraph.cpp` 94-97. -/
def reorderStep (s : Subgraph) (perm : List Nat) (i : Nat) (st : List Nat × List Nat) : Out (List Nat × List Nat) := do
  let p ← rd perm i
  let v ← rd s.l2g i
  let l2g ← wr st.1 p v
  if !s.lev.isEmpty then
    let k ← rd s.lev i
    let lev ← wr st.2 p k
    pure (l2g, lev)
  else pure (l2g, st.2)

/-- `reorder`, `/repo/src/graph/adjacency_subgraph.cpp` 88-102: the reordered subgraph and the returned old one, which
keeps the default parent hash. -/
def reorder (s : Subgraph) (perm : List Nat) : Out (Subgraph × Subgraph) := do
  let (g, old) ← s.graph.reorder perm
  let (l2g, lev) ← loop g.sizeVertex (s.reorderStep perm)
    (List.replicate perm.length 0, List.replicate (if s.lev.isEmpty then 0 else perm.length) 0)
  pure (⟨g, l2g, lev, s.hashParent⟩, ⟨old, s.l2g, s.lev, 0⟩)

end Subgraph
end Disa
