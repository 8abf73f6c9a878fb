import Verif.Spec.Dist

/-!
# Specification vocabulary for the orderings
-/

namespace Disa.Spec

/-- What `std::sort` with a comparator on the second components promises; the order of pairs with equal second
components is open. -/
def DegreeSort (sort : List (Nat × Nat) → List (Nat × Nat)) : Prop :=
  ∀ l, (sort l).Perm l ∧ (sort l).Pairwise fun a b => a.2 ≤ b.2

/-- `i` is the smallest new index of a neighbour of `v`. -/
def FirstNbr (E : Nat → Nat → Prop) (p : List Nat) (v i : Nat) : Prop :=
  (∃ w, E w v ∧ p[w]? = some i) ∧ ∀ w l : Nat, E w v → p[w]? = some l → i ≤ l

/-- Colour of `v` as the code chooses it, from the colours of the neighbours with smaller index: 1 without such a
neighbour, otherwise the least unused colour above the least used one. -/
def GreedyRule (E : Nat → Nat → Prop) (col : Nat → Nat) (v : Nat) : Prop :=
  ((∀ u, u < v → ¬ E v u) → col v = 1) ∧
  ((∃ u, u < v ∧ E v u) →
    (∃ u, u < v ∧ E v u ∧ col u < col v) ∧ (∀ u, u < v → E v u → col u ≠ col v) ∧
    ∀ c, (∃ u, u < v ∧ E v u ∧ col u < c) → (∀ u, u < v → E v u → col u ≠ c) → col v ≤ c)

/-- Colour of `v` as documented: the least positive colour not used by a neighbour with smaller index. -/
def FirstFitRule (E : Nat → Nat → Prop) (col : Nat → Nat) (v : Nat) : Prop :=
  0 < col v ∧ (∀ u, u < v → E v u → col u ≠ col v) ∧
  ∀ c, 0 < c → (∀ u, u < v → E v u → col u ≠ c) → col v ≤ c

/-- The new indices `p` order the vertices by colour and then by old index. -/
def OrdersBy (n : Nat) (col : Nat → Nat) (p : List Nat) : Prop :=
  ∀ (u v a b : Nat), u < n → v < n → p[u]? = some a → p[v]? = some b →
    (a < b ↔ col u < col v ∨ (col u = col v ∧ u < v))

/-- The vertices, in their new order, fall into at most `k` consecutive groups without neighbours in the same group. -/
def Groups (E : Nat → Nat → Prop) (n : Nat) (p : List Nat) (k : Nat) : Prop :=
  ∃ grp : Nat → Nat, (∀ v, v < n → grp v < k) ∧
    (∀ u v a b : Nat, p[u]? = some a → p[v]? = some b → a ≤ b → grp u ≤ grp v) ∧ ∀ u v, E u v → grp u ≠ grp v

end Disa.Spec
