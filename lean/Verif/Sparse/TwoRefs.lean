import Verif.Sparse.Capacity

/-!
# Two references to elements of a sparse matrix

`matrix[i][j]` of a non-constant matrix inserts an absent element, `/repo/include/core/matrix_sparse.hpp` 575-580, which moves
the elements behind it and may move the storage.  A reference is the position of the element in `element_value`.
-/

namespace Disa
namespace SparseRoom
variable {α : Type}

/-- `double& p = matrix[i][j]; double& q = matrix[k][l];` and then the use of both, as in `std::swap(p, q)`.  If the second
call has moved the values, which changes the capacity, `p` dangles. -/
def refs [Zero α] (a b : Alloc) (c : SparseRoom α) (i j k l : Nat) : Out (SparseRoom α × Iter × Iter) := do
  let (c1, p) ← c.ref a b i j
  let (c2, q) ← c1.ref a b k l
  if c2.vals = c1.vals then pure (c2, p, q) else .ub

/-- `std::swap(p, q)` for references to elements. -/
def swapAt (c : SparseRoom α) (p q : Iter) : Out (SparseRoom α) := do
  let x ← c.matrix.valAt p
  let y ← c.matrix.valAt q
  let c ← c.setAt p y
  c.setAt q x

end SparseRoom
end Disa
