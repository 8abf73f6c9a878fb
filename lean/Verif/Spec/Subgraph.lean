import Verif.Graph.Subgraph
import Verif.Spec.Graph
import Verif.Spec.Dist

/-!
# Specification vocabulary for subgraphs
-/

namespace Disa.Spec

open Disa

/-- Seen through its public functions, `s` is the subgraph of `parent` induced by the vertices within distance `m` of
the vertices `S`.  `f` is the mapping from local to global indices. -/
structure IsLevelSubgraph (parent : Graph) (S : Nat → Prop) (m : Nat) (s : Subgraph) (f : Nat → Nat) : Prop where
  /-- `local_global` is `f`. -/
  mapping : ∀ i, i < s.sizeVertex → s.localGlobal i = .ok (f i)
  /-- Different local vertices are different vertices of the parent. -/
  injective : ∀ i j, i < s.sizeVertex → j < s.sizeVertex → f i = f j → i = j
  /-- The vertices are those within distance `m`. -/
  vertices : ∀ v, (∃ i, i < s.sizeVertex ∧ f i = v) ↔ ∃ k, k ≤ m ∧ IsDist (Adj parent) S v k
  /-- The edges are those of the parent. -/
  edges : ∀ i j, i < s.sizeVertex → j < s.sizeVertex → (Adj s.graph i j ↔ Adj parent (f i) (f j))
  /-- `vertex_level` is the distance. -/
  levels : ∀ i, i < s.sizeVertex → ∃ k, s.vertexLevel i = .ok k ∧ IsDist (Adj parent) S (f i) k
  /-- `is_local` holds for the vertices of the partition. -/
  isLocal : ∀ i, i < s.sizeVertex → ∃ b, s.isLocal i = .ok b ∧ (b = true ↔ S (f i))

/-- `m` maps global indices to the local indices of `s`, and vertices outside `s` to the reserved index. -/
def IsGlobalLocal (parent : Graph) (s : Subgraph) (m : List Nat) : Prop :=
  m.length = parent.sizeVertex ∧
  (∀ i v, s.localGlobal i = .ok v → m[v]? = some i) ∧
  ∀ v, v < parent.sizeVertex → (∀ i, s.localGlobal i ≠ .ok v) → m[v]? = some sizeMax

/-- The subgraphs a program can get from the partition `part` of `parent` by creating one, setting its level count and
reordering it, with level counts of at most `B`; `m` is the level count asked for last. -/
inductive SubReach (h : Nat → Nat) (parent : Graph) (part : List Nat) (B : Nat) : Nat → Subgraph → Prop
  | make {e s} : e ≤ B → Subgraph.make h parent part e = .ok s → SubReach h parent part B e s
  | levels {m s M gl s' gl'} : SubReach h parent part B m s → M ≤ B → s.updateLevels h parent M gl = .ok (s', gl') →
      SubReach h parent part B M s'
  | reorder {m s perm s' old} : SubReach h parent part B m s → perm.Perm (List.range s.sizeVertex) →
      s.reorder perm = .ok (s', old) → SubReach h parent part B m s'

/-- The subgraphs a program can get from those by also resizing and clearing them. -/
inductive SubSized (h : Nat → Nat) (parent : Graph) (part : List Nat) (B : Nat) : Subgraph → Prop
  | reach {m s} : SubReach h parent part B m s → SubSized h parent part B s
  | resize {s n s'} : SubSized h parent part B s → n < sizeMax → s.resize false n = .ok s' → SubSized h parent part B s'
  | clear {s} : SubSized h parent part B s → SubSized h parent part B s.clear

end Disa.Spec
