import Verif.Graph.Model
import Mathlib.Data.Finset.Card
import Mathlib.Data.Finset.Dedup

/-!
# Specification vocabulary for graphs

Histories of public calls, and the edge set that a history of insertions should denote.  Nothing here refers to the
storage of the graph.
-/

namespace Disa.Spec

open Disa

/-- A mutating call on a graph. -/
inductive Op where
  | insert (e : Edge)
  | eraseIf (del : Nat → Bool)
  | resize (n : Nat)
  | reorder (perm : List Nat)
  | clear

/-- Perform one call and keep the resulting graph.  `resize` is run with its write one past the end of the offsets
dropped; see C07 for that write. -/
def step (d : Bool) (g : Graph) : Op → Out Graph
  | .insert e => do let (g, _) ← g.insert d e; pure g
  | .eraseIf del => g.eraseIf del
  | .resize n => g.resize false n
  | .reorder perm => do let (g, _) ← g.reorder perm; pure g
  | .clear => .ok g.clear

/-- Perform a history of calls. -/
def run (d : Bool) (g : Graph) : List Op → Out Graph
  | [] => .ok g
  | op :: ops => do let g ← step d g op; run d g ops

/-- Documented preconditions of a call: the maximum index is reserved for "no data", a size is below it, and `reorder` is given a
permutation. -/
def Op.Valid : Op → Prop
  | .insert e => e.1 + 1 < sizeMax ∧ e.2 + 1 < sizeMax
  | .resize n => n < sizeMax
  | .reorder perm => perm.Perm (List.range perm.length)
  | _ => True

/-- Graphs a program can obtain from a default constructed one by calls that respect their preconditions. -/
def Reachable (d : Bool) (g : Graph) : Prop := ∃ ops, (∀ op ∈ ops, op.Valid) ∧ run d Graph.new ops = .ok g

/-- Insert the edges in order, collecting the returned flags. -/
def insertAll (d : Bool) : Graph → List Edge → Out (Graph × List Bool)
  | g, [] => .ok (g, [])
  | g, e :: es => do
    let (g, b) ← g.insert d e
    let (g, bs) ← insertAll d g es
    pure (g, b :: bs)

/-- Do `e` and `f` denote the same edge? -/
def sameEdge (d : Bool) (e f : Edge) : Prop := e = f ∨ (d = false ∧ (e.2, e.1) = f)

instance (d : Bool) (e f : Edge) : Decidable (sameEdge d e f) := by unfold sameEdge; infer_instance

/-- `q` denotes an edge in the list. -/
def EdgeIn (d : Bool) (es : List Edge) (q : Edge) : Prop := ∃ f ∈ es, sameEdge d q f

instance (d : Bool) (es : List Edge) (q : Edge) : Decidable (EdgeIn d es q) := by unfold EdgeIn; infer_instance

/-- Representative of an edge: smaller end point first when undirected. -/
def normEdge (d : Bool) (e : Edge) : Edge := if d then e else (min e.1 e.2, max e.1 e.2)

/-- Number of different edges in a list. -/
def countEdges (d : Bool) (es : List Edge) : Nat := (es.map (normEdge d)).toFinset.card

/-- `u` and `v` are adjacent: `v` is in the span returned for `u`. -/
def Adj (g : Graph) (u v : Nat) : Prop := ∃ r, g.nbrs u = .ok r ∧ v ∈ r

end Disa.Spec
