import Verif.Basic

/-!
# Capacity of vectors

Of `std::vector` this uses: a change of the size moves the elements only if the new size exceeds the capacity, and then the
new capacity is at least the new size; `erase` and `clear` keep the capacity; a new vector has none.  How much is allocated
is a parameter.
-/

namespace Disa

/-- What the standard leaves to the implementation of `std::vector`. -/
structure Alloc where
  /-- The capacity after growing from a capacity and a size to a size that does not fit. -/
  grow : Nat → Nat → Nat → Nat
  /-- The capacity after `shrink_to_fit` with a capacity and a size. -/
  shrink : Nat → Nat → Nat
  /-- `max_size` -/
  max : Nat
  grow_le : ∀ c s n, n ≤ grow c s n
  shrink_ge : ∀ c n, n ≤ c → n ≤ shrink c n
  shrink_le : ∀ c n, n ≤ c → shrink c n ≤ c

/-- The capacity of a vector with the capacity `c` and the size `s` after it has got the size `n`, or room for it. -/
def Alloc.fit (a : Alloc) (c s n : Nat) : Nat := if n ≤ c then c else a.grow c s n

end Disa
