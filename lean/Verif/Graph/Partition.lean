import Verif.Graph.SubInv

/-!
# Model of `partition.cpp`

`/repo/src/graph/partition.cpp`.  `h` is `std::hash<std::size_t>`.
-/

namespace Disa

/-- Conversion of an integer to `double` and back: integers from `2^53` on are rounded to 53 significant bits, ties to
even.  Only used for numbers of at most `2^63`, for which the conversion back is exact. -/
def toDouble (n : Nat) : Nat :=
  if n < 2 ^ 53 then n
  else
    let s := 2 ^ (Nat.log2 n - 52)
    if s < 2 * (n % s) ∨ (2 * (n % s) = s ∧ n / s % 2 = 1) then (n / s + 1) * s else n / s * s

namespace Partition
open Graph

/-! ### `recursive_graph_bisection` -/

/-- Loop body that distributes the vertices, `/repo/src/graph/partition.cpp` 136-138. -/
def splitStep (s : Subgraph) (levels : List Nat) (mid : Nat) (i : Nat) (st : List Nat × List Nat) :
    Out (List Nat × List Nat) := do
  let k ← rd levels i
  let v ← s.localGlobal i
  if k ≤ mid then pure (st.1 ++ [v], st.2) else pure (st.1, st.2 ++ [v])

/-- Position of the first part with the most vertices (`std::max_element`, `/repo/src/graph/partition.cpp` 127-129). -/
def largest (subs : List Subgraph) : Nat :=
  (subs.map Subgraph.sizeVertex).idxOf (maxElem (subs.map Subgraph.sizeVertex))

/-- Body of the while loop, `/repo/src/graph/partition.cpp` 125-146.  `std::ceil` of the integer quotient only converts
it to `double`. -/
def bisectStep (h : Nat → Nat) (graph : Graph) (subs : List Subgraph) : Out (List Subgraph) := do
  let i := largest subs
  let s ← rd subs i
  let p ← s.graph.pseudoPeripheral 0
  let levels ← s.graph.levelTraversal p sizeMax
  let mid := toDouble (maxElem levels / 2)
  let (left, right) ← loop levels.length (splitStep s levels mid) ([], [])
  let l ← Subgraph.make h graph left 0
  let subs ← wr subs i l
  let r ← Subgraph.make h graph right 0
  pure (subs ++ [r])

/-- `recursive_graph_bisection`, `/repo/src/graph/partition.cpp` 113-149. -/
def bisection (h : Nat → Nat) (graph : Graph) (k : Nat) : Out (List Subgraph) := do
  assert (decide (k > 0))
  let s ← Subgraph.make h graph (List.range graph.sizeVertex) 0
  loop (k - 1) (fun _ subs => bisectStep h graph subs) [s]

/-! ### `multinode_level_set_expansion` -/

/-- Body of the innermost loop, `/repo/src/graph/partition.cpp` 75-82. -/
def eccBody (s : Subgraph) (ecc : List (List Nat)) (v w : Nat) (m : Nat) : Out Nat := do
  if v == w then pure m
  else
    let a ← s.localGlobal v
    let b ← s.localGlobal w
    let row ← rd ecc (max a b)
    let e ← rd row (min a b)
    pure (max e m)

/-- Body of the loop over the vertices of one part, `/repo/src/graph/partition.cpp` 72-88.  The state is
`(min_eccentricity, seed)`. -/
def seedBody (s : Subgraph) (ecc : List (List Nat)) (v : Nat) (st : Nat × Nat) : Out (Nat × Nat) := do
  let m ← loop s.sizeVertex (eccBody s ecc v) 0
  if st.1 > m then
    let g ← s.localGlobal v
    pure (m, g)
  else pure st

/-- The seed of one part, `/repo/src/graph/partition.cpp` 68-88. -/
def seedOf (ecc : List (List Nat)) (s : Subgraph) : Out Nat := do
  let st ← loop s.sizeVertex (seedBody s ecc) (sizeMax, sizeMax)
  pure st.2

/-- Body of the loop that collects the vertices of each colour, `/repo/src/graph/partition.cpp` 99. -/
def collectBody (colors : List Nat) (v : Nat) (st : List (List Nat)) : Out (List (List Nat)) := do
  let c ← rd colors v
  let l ← rd st c
  wr st c (l ++ [v])

/-- The parts grown from the seeds, `/repo/src/graph/partition.cpp` 97-104.  `k` is the number of parts. -/
def regrow (h : Nat → Nat) (graph : Graph) (k : Nat) (seed : List Nat) : Out (List Subgraph) := do
  let colors ← graph.levelExpansion seed
  let parts ← loop colors.length (collectBody colors) (List.replicate k [])
  mapOut (fun p => Subgraph.make h graph p 0) parts

/-- One iteration, `/repo/src/graph/partition.cpp` 65-105.  The state is `(done, seed_previous, subgraph_list)`. -/
def multinodeStep (h : Nat → Nat) (graph : Graph) (ecc : List (List Nat)) (st : Bool × List Nat × List Subgraph) :
    Out (Bool × List Nat × List Subgraph) := do
  if st.1 then pure st
  else
    let seed ← mapOut (seedOf ecc) st.2.2
    if seed == st.2.1 then pure (true, seed, st.2.2)
    else
      let subs ← regrow h graph st.2.2.length seed
      pure (false, seed, subs)

/-- The iterations with the table that `eccentricity_graph` has filled, `/repo/src/graph/partition.cpp` 57 and 65-105. -/
def multinodeLoop (h : Nat → Nat) (graph : Graph) (ecc : List (List Nat)) (maxIter : Nat) (subs : List Subgraph) :
    Out (List Subgraph) := do
  let st ← loop maxIter (fun _ st => multinodeStep h graph ecc st) (false, List.replicate subs.length 0, subs)
  pure st.2.2

/-- `multinode_level_set_expansion`, `/repo/src/graph/partition.cpp` 46-106. -/
def multinode (h : Nat → Nat) (graph : Graph) (maxIter : Nat) (subs : List Subgraph) : Out (List Subgraph) := do
  assert (!subs.isEmpty)
  let ok ← subs.foldlM (fun b s => if b then s.isParent h graph else pure false) true
  assert ok
  if subs.length == 1 then pure subs
  else
    let ecc ← graph.eccGraph []
    multinodeLoop h graph ecc maxIter subs

/-! ### Rounding -/

theorem toDouble_lt {d : Nat} (hd : 0 < d) : toDouble (d / 2) < d := by
  unfold toDouble
  by_cases h : d / 2 < 2 ^ 53
  · rw [if_pos h]; omega
  · rw [if_neg h]
    generalize hx : d / 2 = x at h
    have hx0 : x ≠ 0 := by omega
    have hlog : 53 ≤ Nat.log2 x := (Nat.le_log2 hx0).mpr (by omega)
    have hle : 2 ^ Nat.log2 x ≤ x := Nat.log2_self_le hx0
    simp only
    generalize hs : 2 ^ (Nat.log2 x - 52) = s
    have hs2 : 2 ^ Nat.log2 x = s * 2 ^ 52 := by rw [← hs, ← Nat.pow_add]; congr 1; omega
    have hpos : 0 < s := by rw [← hs]; exact Nat.two_pow_pos _
    have hdm := Nat.div_add_mod x s
    have hmul : x / s * s ≤ x := by rw [Nat.mul_comm]; omega
    have hsx : s < x := by omega
    split
    · rw [Nat.add_mul, Nat.one_mul]; omega
    · omega

end Partition
end Disa
