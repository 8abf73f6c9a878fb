import Verif.Sparse.Model
import Verif.Graph.Print

/-! # Printing sparse matrices -/

namespace Disa
namespace Sparse

variable {α : Type}

/-- The words of a line, each followed by a blank, and the end of the line. -/
def printLine {β : Type} (fmt : β → List Char) (l : List β) (t : List Char) : List Char :=
  l.foldl (fun t x => t ++ fmt x ++ [' ']) t ++ ['\n']

/-- `operator<<`, `/repo/include/core/matrix_sparse.hpp` 1163-1172, on a stream to which `t` was written before.  `fmt` is how the
stream writes an element; `std::endl` is an end of line, its flush is not modelled. -/
def print (fmt : α → List Char) (m : Sparse α) (t : List Char) : List Char :=
  printLine fmt m.vals (printLine dec m.cols (printLine dec m.off (t ++ ['\n'])))

end Sparse
end Disa
