import Verif.Basic
import Mathlib.Data.Set.Card
import Mathlib.Tactic.Common

/-!
# Walks and distances

Specification vocabulary: walks along a relation and the distance from a set of sources.
-/

namespace Disa.Spec

/-- There is a walk of length `n` from `u` to `v` along `E`. -/
def Walk (E : Nat → Nat → Prop) : Nat → Nat → Nat → Prop
  | 0, u, v => u = v
  | n + 1, u, v => ∃ w, Walk E n u w ∧ E w v

/-- `k` is the length of a shortest walk from a source to `v`. -/
def IsDist (E : Nat → Nat → Prop) (S : Nat → Prop) (v k : Nat) : Prop :=
  (∃ s, S s ∧ Walk E k s v) ∧ ∀ j, j < k → ∀ s, S s → ¬ Walk E j s v

/-- `v` can be reached from a source. -/
def Reached (E : Nat → Nat → Prop) (S : Nat → Prop) (v : Nat) : Prop := ∃ n s, S s ∧ Walk E n s v

/-- `out` holds the distance from the sources of every vertex within distance `e` of them, and the maximum index for
every other vertex. -/
def IsLevels (E : Nat → Nat → Prop) (S : Nat → Prop) (e n : Nat) (out : List Nat) : Prop :=
  out.length = n ∧ ∀ v, v < n →
    (∃ k, k ≤ e ∧ IsDist E S v k ∧ out[v]? = some k) ∨ (out[v]? = some sizeMax ∧ ∀ k, k ≤ e → ¬ IsDist E S v k)

/-- `e` is the eccentricity of `u` in a graph with `n` vertices: everything is within distance `e`, and something is at
that distance. -/
def IsEcc (E : Nat → Nat → Prop) (n u e : Nat) : Prop :=
  (∀ v, v < n → ∃ k, k ≤ e ∧ IsDist E (· = u) v k) ∧ ∃ v, v < n ∧ IsDist E (· = u) v e

/-- Every vertex can be reached from `u`. -/
def Spans (E : Nat → Nat → Prop) (n u : Nat) : Prop := ∀ v, v < n → Reached E (· = u) v

/-- Every vertex can be reached from every other. -/
def Connected (E : Nat → Nat → Prop) (n : Nat) : Prop := ∀ u, u < n → Spans E n u

/-- The number of vertices at distance `k` from `u`. -/
noncomputable def levelSize (E : Nat → Nat → Prop) (n u k : Nat) : Nat := {v | v < n ∧ IsDist E (· = u) v k}.ncard

end Disa.Spec
