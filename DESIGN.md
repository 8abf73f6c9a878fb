# Formal model of Disa

The C++ sources in `/repo` are read as text and modelled in Lean 4 as total, computable functions.  The properties of
`properties.jsonl` are then theorems about those functions.

## Trusted base

* Lean 4.33.0's kernel.  No axioms are added; no `sorry`, `native_decide` or `bv_decide`.
* Theorems may depend on the standard axioms `propext`, `Classical.choice`, `Quot.sound` only.
  `lean/Verif/Audit.lean` prints the axioms of each claimed theorem.
* The transcription of the C++ into the model, which is by hand.  Each definition cites the file and lines it models and
  says what it simplifies.

## Modelling conventions

* `Out α` is the outcome of a C++ call: `ok a`, `exit code` (a failed `ASSERT`/`ASSERT_DEBUG`; `CMakeLists.txt` defines
  `DISA_DEBUG` unconditionally, so debug assertions are always live), `throw` (an uncaught C++ exception), `ub`
  (undefined behaviour: out of bounds access, dereferencing an end iterator), and `diverge` (the fuel given to an
  unbounded `while` loop was exhausted; theorems about such loops say that `diverge` does not happen from some fuel on).
* `std::vector<std::size_t>` is `List Nat`.  An index is a natural number; `std::numeric_limits<std::size_t>::max()` is the
  constant `2^64-1` and is compared against, never assumed to be infinite, where the code uses it as a marker.
  Calls that make a graph are given indexes below `2^64-2` and sizes below `2^64-1` (`Op.Valid`; what the other values do is C06
  and C51), so that a reachable graph has fewer than `2^64-1` vertices.  Other sizes are assumed to stay below `2^64-1` where a
  theorem says so; there is no allocation failure in the model.  Other integer types, their conversions and overflow are modelled in
  C156, C157, C159-C161 and C228 only.
* Forming a past-the-end pointer through `&*end()` or `&v[size()]` is treated as plain pointer arithmetic.  Only reads and
  writes through such a position count as `ub`.
* The check sum of `Adjacency_Graph::reorder` is exact in the model.  The code computes it in `double`; C187 shows that this is the
  same up to `2^27` vertices, and that larger graphs may be rejected.  Claims that use `reorder` are about graphs up to that size.
* `std::sort` is unstable; it is modelled as an arbitrary function that returns a sorted permutation, and theorems
  quantify over all of these.
* Container properties are proved over an arbitrary scalar type, algebraic ones over commutative rings, fields, linearly ordered
  fields or the reals.  What is proved about the loops of the iterative solvers (C46, C49, C50, C85, C90) holds for any scalars.
* Rounding is modelled for the tolerant comparisons (C42, C79, C80) and, from C100 on, for products, the direct and the fixed
  point solvers, norms, means, unit vectors, angles and projections.  `Num rnd` are rational numbers, infinities and NaN; each
  operation rounds the exact result with `rnd`.  Theorems hold for every rounding with a relative and an absolute error bound
  (`Rounds`), and `binary64`, rounding to nearest even with gradual underflow, is proved to be one.  There is one zero, so signed
  zeros and the sign of an infinity that comes from dividing by zero are not distinguished; C136 compares this with doubles whose
  zeros have signs, `Signed`.  Operations are rounded one by one: `std::pow` of the residual with exponent 2 is one product, no
  `-ffast-math`, no excess precision, and no fused multiplication and addition.  The build does not forbid the latter
  (`-ffp-contract` is not set); C217 and C218 show for products, the direct solver and the sweeps that the error bounds also hold with it.
* Functions that return real numbers (norms, angles, residuals) are not computable; their models are executable for any scalars
  that are.
* An argument that may be the same object as another one is an `Option`; `none` is the same object.  The iterative solvers with
  one vector in both places are separate definitions (`Solver/Same.lean`).
* The constructors of the solver base classes call `initialise_solver` of the derived class before the derived class is
  constructed.  The standard leaves this undefined; the model takes the effect that it has with the known compilers.
* The lifetime of objects is modelled only for the references that `solve` of the solver classes returns (C140).
* `std::chrono` time stamps and messages on the console are not modelled.  A stream that a graph or a sparse matrix is written to is
  the text written so far; indexes are written in decimal.  Iterators are positions; their arithmetic is modelled as far as
  it is used or claimed.

## Plan for each property

| id | model | proof |
|----|-------|-------|
| C01 | `Graph.insert`, `Graph.contains` on the flat offset and adjacency vectors | refinement of CSR to a list of rows, induction over histories against an edge list specification |
| C02 | same plus `eraseIf`, `resize`, `reorder`, `clear` | invariant preserved by each operation, induction over histories |
| C03 | same as C01 | canonical form: a well formed graph is determined by its edges and size |
| C04 | `Graph.eraseIf` | row level characterisation |
| C05 | `Graph.eraseIf` | exact condition for `ub`, witness, and a safe condition |
| C06 | `Graph.resize` | row level characterisation; out of bounds write modelled as dropped in the lenient variant |
| C07 | `Graph.resize` | strict variant is `ub` for all shrinks |
| C08 | `Graph.reorder` | adjacency characterisation for permutations |
| C09 | `Graph.reorder` | length and sum check characterised; counterexamples |
| C10 | queries | no `ub` on reachable graphs |
| C11 | `Graph.hash` | hash is a function of four observables; collision family |
| C12 | `levelTraversal` | breadth first invariant, against walk distance |
| C13 | `levelTraversal` | direct computation for all single vertex graphs |
| C14 | `pseudoPeripheral` | lexicographic measure |
| C15 | `levelExpansion` | invariant over sweeps |
| C16 | `eccentricity*` | for all graphs with an edge |
| C17-C18 | `breadthFirst` | queue invariant |
| C19-C20 | `cuthillMckee` | queue invariant, arbitrary sort |
| C21-C22 | `greedyMulticolouring` | colouring invariant; counting sort lemma |
| C23-C24 | `Subgraph` | on top of `eraseIf` and breadth first levels |
| C25 | `recursiveBisection` | induction over the number of parts |
| C26 | `multinode` | consequence of C16 |
| C27-C28 | generators | induction over inserted edges with C01 |
| C29-C36 | `Sparse` flat CSR arrays | refinement to rows of sorted association lists |
| C37 | `CsrData` | same |
| C38-C41 | `Dense` lists | list algebra, `Matrix` of Mathlib as specification |
| C42 | `nearlyEqual` family | ordered field reasoning |
| C43-C44, C81-C83 | `Lu.factorise`, `Lu.solve` | loop invariants, Schur complements |
| C45, C47, C84 | `Iterative.forwardSweep`, `Iterative.step` | field reasoning, maximum norm and energy norm contractions |
| C46, C48-C50, C85-C92 | `Iterative.solveSystem`, `computeResidual`, `Solver` | induction over the passes of the loops, case analysis |
| C51-C63 | graphs | as for C01-C28 |
| C64-C70 | sparse matrices, `RowView` | as for C29-C37 |
| C71-C78 | dense vectors and matrices, geometry | list algebra, real analysis of Mathlib |
| C79-C80 | `Arith.nearlyEqual` family | case analysis over exact and floating point numbers |
| C93-C95 | orderings, generators | counting, from C18, C21, C28 and C56 |
| C96-C99 | `Lu` | from C43, C81, C47 and C84; simulation of two runs; shapes |
| C100-C101 | `Num`, `Dense.dot`, `Sparse.mulVec` | induction over the terms with an error bound; `binary64` by cases on the exponent |
| C102-C103 | `Lu` over `Num` | invariant of the elimination with an error bound; witnesses with overflow |
| C104-C106 | `Graph.reorder`, orderings | graphs with the same edges are stored alike; from C12, C17-C19, C55 and C56 |
| C107 | `Partition.bisection` | invariant of the first part, induction over the distance |
| C108-C111 | `Iterative` over `Num`, `root64` | error of one row, induction over the rows; last iteration of the loop |
| C112-C115 | `Iterative.step`, `solveSystem`, `greedyMulticolouring` | contraction of the maximum or energy norm; simulation of the renumbered solve |
| C116-C120 | `RowView`, `ElemIter`, `CsrData.lowerBound` | refinement to rows of columns and values, induction over the position of the iterator |
| C121 | `Lu.factorise`, `Lu.solve` over `Num binary64` | invariant that bounds multipliers and elements in each step, combined with C102 |
| C122-C124 | `Lu.factorise`, `Lu.solve` | simulation of the run with the other tolerance; uniqueness of the solution |
| C125-C128 | `Rounded.unit`, `Rounded.mean`, norms, `Rounded.angle` | error of sums of doubles, `root64` and one division; rounding is monotone |
| C129-C130 | `Sparse`, `Dense` over `Num binary64` and rings | adding zeros to doubles is exact; from C33, C34 and C36 |
| C131-C132 | `Rounded`, `Dense`, `Sparse`, solvers over `Num binary64` | rounding is odd; each loop commutes with the change of sign |
| C133 | `Rounded.projectionTangent`, `Rounded.projectionOrthogonal` | one error per operation; what remains is split into four sums |
| C134 | `Rounded.matMul`, `Rounded.matVec` | every element is an inner product; two products split over the exact one |
| C135 | `Rounded.cross` | two products and a difference per component; the exact parts cancel |
| C136 | `Signed`, all operations over it | every operation commutes with forgetting signs of zeros, except division by zeros, which are excluded or have a known sign |
| C137 | `Graph.print`, `Subgraph.print` | loop invariants give the text; joined texts without the separator in them are unique |
| C138 | `Sparse.print` | as C137 |
| C139 | `solveSparseSame`, the sweeps with constants read from the solution | the row being written has not been overwritten in the first sweep; contraction towards zero |
| C140 | `Direct.solve`, `Iterative.solve` on a store of objects with lifetimes | the temporary is destroyed by the return statement |
| C141 | `insertOwn`, `resizeOwnRow`, `resizeOwnColumn`: the index is read from `column_index` at each use | the last read of `resize` sets `column_size` to a stored column; the column loop keeps the rows, with any bounds |
| C142 | `Room`: a graph with the capacities of its vectors; `Alloc`: what the standard leaves to the implementation of `std::vector` | sizes fit into capacities as an invariant of all calls; an insertion that fits asks both vectors for sizes that fit |
| C143 | `Subgraph.resize`, `clear`, `swap`; `SubSized`: histories with them | the vectors of a subgraph have equal sizes as an invariant; the exclusive or of equal hashes is zero |
| C144 | `Graph.data`, `Subgraph.data`: the vectors pointed into, or none | the representation of graphs by rows |
| C145-C146 | `visitAll`, `visitAllBack`, `updateAll` over row and element iterators | refinement to rows of columns and values, induction over the positions of both iterators |
| C147 | `bisection` for different numbers of parts | one step of the loop per part, the first largest part, induction over the number of parts |
| C148 | `insert`, `insertOrAssign`, `assign`, `addAt` in sequences | refinement to sorted rows, which lookups determine; fold of the calls for each element |
| C149 | `resize`, `eraseIf`, `insert`, `reorder` one after the other | graphs are determined by size and adjacency; composition of the renumberings |
| C150 | `multinodeLoop`, `seedOf`, `regrow` | invariant of the loop with its exit: the parts are grown from the remembered seeds; the colours of C15 |
| C151 | `SparseRoom`: a sparse matrix with the capacities of its vectors; `Alloc` | sizes fit into capacities as an invariant of all calls |
| C152 | `SparseRoom.refs`, `swapAt`: positions in `element_value`, dangling if the capacity has changed | the position of an element is the number of stored elements before it |
| C153 | the model of sparse matrices | the rule on sizes as an invariant of all histories that ask for no columns without rows |
| C154 | the sweeps and solves of the iterative solvers, over the reals | levels: two sweeps from vectors that agree on the lower levels agree on one more; errors halved up to a vanishing term |
| C155 | row objects with the capacities of the vectors they refer to | reading any window of the stored elements; how the windows move |
| C156 | `CSR_Data` over two integer types with the conversions and overflow of C++ (`IntTy`) | simulation by the `std::size_t` model as long as the types hold all numbers |
| C157 | the loop macros over two integer types: the values of the index | the index and the converted bound move together; uniqueness of the outcome |
| C158 | subgraph, `update_levels` after any history | invariant of C24; the mapping grows at its end and shrinks to a sublist, and a sublist without duplicates is fixed by its elements |
| C159 | the dense operators over an integer type with its overflow (`Elem`) | the generic loops; each entry of a product is undefined from the first sum that leaves the type |
| C160 | vector operators over an integer type: terms in the type, sums in `double` | integers below 2^53 are numbers of `double`; rounding is monotone |
| C161 | `unit` and `angle` over an integer type | the rounded sum of squares is at least two unless the vector is zero or has length one |
| C162 | `Graph.eraseIfLive`: the predicate sees the vectors as they are at each call | simulation by `eraseIf` as long as nothing was removed; counterexamples |
| C163 | `Graph.resizeOwn`: `size` is a position of the list | the loop is that of `resize` with a size per row |
| C164 | `createLine`, `reorder`, `cuthillMckee`, `breadthFirst` | every level from an end has one vertex, so neighbours become consecutive (C93) |
| C165 | `bisection` of `createLine` | induction over the number of parts, with the step of C147 |
| C166 | `createStructured`, `reorder`, `cuthillMckee` | induction over the diagonals with the rule of C56; the vertices numbered between two neighbours lie in different columns |
| C167 | `insert`, `Graph.nbrs`, all solvers | the program as a list of insertions (C148); a row of the product is `c` times the unknown plus differences along the edges, which gives dominance (C47, C82), definiteness (C84) and the bounds |
| C168 | `forward_sweep`, Jacobi, Gauss Seidel | the new value of an unknown is monotone in the others; induction over rows and iterations |
| C169 | the same and `levelTraversal` | walks of length below `j` (C12) by induction over iterations; C168 for Gauss Seidel |
| C170 | the same in `binary64` | rounding is monotone; a number between two that do not overflow does not overflow; doubles are multiples of 2^-1074, so bounded monotone iterates become constant |
| C171 | equations and unknowns times nonzero factors | induction over the unknowns of an iteration and over the iterations; the residual norms are multiplied by one factor, their ratios are unchanged |
| C172 | doubles times a power of two | rounding commutes with the factor for numbers in the normal range and for multiples of 2^-1074; induction over the row, the unknowns and the iterations |
| C173 | colours of a grid | the rule of C21 has one solution, the antidiagonals; a path through all of them needs a group for each |
| C174 | minors of accepted matrices | the leading blocks are products of the leading blocks of the factors, whose determinants are products of pivots |
| C175 | multiples of matrices | from C174: minors are homogeneous |
| C176 | pseudo peripheral vertex of trees | unique closer neighbour by counting edges, four point condition by induction along the way to a vertex |
| C177 | determinant of errors under relaxation | the errors before and after an iteration are related by triangular matrices with known diagonals; Leibniz bound of a determinant |
| C178 | corners and diagonals of grids | a vertex farthest from some vertex is a corner; the parts are counted diagonal by diagonal |
| C179 | limits of iterative solves | the first state that meets the weaker limits is on the way to the one that meets the stronger ones |
| C180 | split solves | passes from the same vector give the same vector whatever the working vector and the convergence data are |
| C181 | Gauss Seidel and two Jacobi iterations | consistently ordered matrices: induction over iterations and rows with the shift 2k + level; breadth first levels of bipartite graphs |
| C182 | access to subgraphs, storage | rows of the graph against those of the parent under the mapping of C24; capacities as in C142 |
| C183 | weakly dominant systems | induction over the chain gives a factor below one and a number of iterations for each unknown; minimum of the difference for the comparison |
| C184 | graphs with given values at some vertices | insertion proof of C167 with rows of the identity; chains of C183 are walks to given vertices; comparison with constants |
| C185 | systems with given unknowns | energy of the decoupled matrix, given unknowns as right hand side, Young inequality, weighted sum of both energies |
| C186 | integer bounds with doubles | constant integer vectors are exact, monotone rounding squeezes the iterates between them |
| C187 | `reorder` with its check sum in `double` | sums below 2^53 are exact and others stay above; an order whose last two sums are rounded down |
| C188 | Ghost levels and Jacobi iterations | the neighbours of a vertex below the last level are in the subgraph one level further at most; induction over the iterations |
| C189 | Dependence of iterates | one step reads one row; induction over steps, inside a step over rows |
| C190 | Speeds of the three methods | the shape `s^level` absorbs the order of the sweep; induction over rows and steps |
| C191 | Jacobi in parts | C188 for each part and round; vertices of level 0 are the part |
| C192 | Parts solved on their own | each solve of a part contracts the error against the solution of the whole system in the maximum norm; induction over the times at which all vertices have been replaced |
| C193 | Trees in the orders of the renumbering functions | the distance from the root orders the numbers and each vertex of a tree has one neighbour nearer to the root; induction over the factors: elimination along a tree makes no new elements |
| C194 | greedy_multicolouring in breadth first order | the levels satisfy the rule of the code, which determines the colours; the order by level and index is the order of the numbers; a walk down the levels needs a group per level |
| C195 | Successive over relaxation with doubles | error of one new value for any relaxation factor (C109), bounds of all intermediate results, induction over unknowns and iterations as in C110 |
| C196 | `bisection` with parts which are not connected | the step of C147, levels at the largest index, induction over the number of parts |
| C197 | `multinodeLoop` with the table of distances | the centre of a part is at least as good as any vertex, a closest seed at least as near as the own centre, induction over the iterations |
| C198 | LU without pivoting: order of solutions with doubles | loss of the row sums in each elimination step is bounded, so that the factors keep their signs; monotone rounding in the sweeps |
| C199 | LU: equations not coupled with others are solved as if alone, bit by bit | relation between the run of the whole and the run of the part, step by step; zeros neither win the search for the pivot nor change doubles |
| C200 | profile of cuthill_mckee_reverse | After cuthill_mckee breadth first search leaves the numbers alone (C106), so the first neighbours ascend (C55); an edge over j gives j an earlier neighbour; mirror images inject. |
| C201 | direct solver, closed equations without pivoting | both triangular zero blocks stay zero under each elimination step, so the part takes the steps of the whole; first small pivot decides |
| C202 | signs of equations and unknowns, all solvers, doubles | signs of the factors after each step; pivot search sees absolute values; relational run of the fixed point loop |
| C203 | rounding errors with the bandwidth | closed form of the factors without pivoting; zero products at both ends of the sums change nothing for doubles, so the error analysis of C102 applies to the middle of the sums |
| C204 | integer systems are solved exactly | what is left of the product after i steps is an integer below 2^53, so each operation is exact |
| C205 | degrees bound how far reordered neighbours lie | vertices counted by their first neighbours, which do not decrease; C203 for bandwidth two |
| C206 | equations times powers of two in the direct solver | factors that satisfy their equations are the ones found; each difference, product and quotient of doubles scales exactly |
| C207 | dominant systems in the direct solver with doubles | excess of the pivots over the rest of the rows (`excess`) as an invariant of the rounded elimination and of both sweeps; residual of C203 |
| C208 | pivoting and matrices with dominant columns, doubles | excess of the pivots over the rest of the columns as an invariant of the rounded elimination (`HeavyColumns`); the search for the pivot keeps its first row; C207 for the accuracy |
| C209 | eccentricity search with a stop vertex | the search with a stop is the full search with its marks cut off, up to the first access beyond it (`while_cut`) |
| C210 | fill-in of the direct solver | elements of the factors come from the matrix or from two others with a smaller number; induction on that number gives a path; conversely signs rule out cancelling |
| C211 | errors of the direct solver on trees | terms that are exactly zero add no rounding, so the number of elements in a row of the factors bounds the operations; C210 gives the degree |
| C212 | pivoting on banded matrices | invariant of the steps: rows from i + b on are untouched, those before reach at most 2b further than the step, the number of updates of an element bounds its growth |
| C213 | symmetric positive definite systems of doubles without pivoting | the product of the factors after each step is a matrix near the given one (`Definite`); its form bounds what is left of the matrix (`schur_bounds`), and for leading and trailing parts of both sweeps the solution (`forward_prefix`, `backward_suffix`) |
| C214 | Gauss Seidel and SOR with doubles on symmetric positive definite systems | the energy of the error falls by a sixth of the weighted squares of the changes, up to the squares of the rounding errors (`energy_slip`), and these bound the energy before (`rough_sweep`) |
| C215 | `Iterative.solveSystem` over `Num` | the loop returns if no iteration fails; C195 and C214 at the number of iterations reported |
| C216 | `computeResidual`, `solveSystem` over `Num binary64` | bounds of the rounding errors of the residual (C111) and of the iterates (C195, C214); the pass after `J` iterations is converged by the definition of `isConverged` unless the first residual is small |
| C217 | `Fused`, with `Dense.dot`, `Sparse.mulVec`, `Lu` | products are kept until they are used, and numbers carry the history of their computation, on which the choice of the fused operations depends; the error analysis only uses that a product is near to the exact one |
| C218 | `fusedFloats`, with `Iterative.step` | the row sums with products kept until they are used (C217) instead of the rounded ones, then as C109 and C110 |
| C219 | `computeResidual` with `fusedFloats` | the row defects and the sum of squares with products kept until they are used, then as C111; the maximum is one of stored squares |
| C220 | `fusedFloats`, with `Iterative.step` | as C195, where the last product may be exact |
| C221 | `solveSystem` and `computeResidual` with `fusedFloats` | C215 and C216 for dominant rows: the iterates are those of C220, the finite norms those of C219, and the loop as in C216 |
| C222 | `solveSystem` and `step` with `fusedFloats` | C214 to C216 for definite matrices: the sweep lemma of C214 for any values whose rounding errors are bounded, with the errors of C220 |
| C223 | `Lu.factorise` and `Lu.solve` with `fusedFloats` | C207 for dominant matrices: the invariants of the elimination and the sweeps for any values whose rounding errors are bounded (`Works`), with the residuals of C217 |
| C224 | `Lu.factorise` and `Lu.solve` with `fusedFloats` | C213 for symmetric positive definite matrices: the elimination and the sweeps for any values whose rounding errors are bounded (`Works`, `Sweeps`), with the rows of C217 |
| C225 | `Rounded.norm3`, `Rounded.normPow` | terms that are nearly right and sums with a relative error; real powers for the rounded exponent; functions with the assumed errors exist |
| C226 | `Lu.factorise` and `Lu.solve` with `Fused binary64`, `cuthillMckeeReverse` | C203 with fused products: a product with a zero changes no double, fused or not, and the other terms have the errors of C217 |
| C227 | `Lu.factorise`, `Lu.solve` and `dot` with `Fused binary64` | by induction over the steps the values of both runs agree, because an exact product is the same operand fused or not; integers as in C204 |
| C228 | `TypedCsr.insert`, `insertOrAssign`, `resize`, `lowerBound` | violated: the offsets count the elements in the index type; refinement to `CsrData` while the type holds their number, and what the first element too many does |
| C229 | `Lu.factorise` and `Lu.solve` with `Fused binary64`, with and without pivoting | simulation of one run by the other with changed signs and the same histories, as in C202; an exact product changes its sign like a rounded one |
| C230 | `Lu.factorise` and `Lu.solve` with `Fused binary64`, with and without pivoting | the columns left stay dominated up to the errors, as in C208, for all numbers with the bounds `Works`; comparisons see the values only |
| C231 | `Lu.factorise` and `Lu.solve` with `Fused binary64`, without pivoting | as C198; an exact product and a rounded one are both monotone, and runs which are compared fuse the same operations |
| C232 | `step` of Jacobi and Gauss Seidel with `Fused binary64`, `boundaryBy` | integer bounds of all partial sums and quotients are doubles; rounding and exact products keep them |
| C233 | `step` of Jacobi and Gauss Seidel with `Fused binary64` | sums of products with factors at most zero fall as the unknowns rise, whether rounded or exact; equal histories mean equal choices |
| C234 | `solveSystem` of the fixed point solvers with `Fused binary64` | each operation, fused or not, turns signs; squares of residuals do not change; both runs stay together in the loop |
| C235 | `Lu.factorise` with `Fused binary64`, `cuthillMckeeReverse` | C210 with fused products: all terms of an element without a path have a zero factor, and such products change no double, fused or not |
| C236 | `Lu.factorise` and `Lu.solve` with `Fused binary64`, `cuthillMckeeReverse` | C211 with fused products: terms that are zero add no error, the others those of C217; C235 gives the degree |
| C237 | `Lu.factorise` and `Lu.solve` with `Fused binary64` | C206 with fused products: factors that satisfy their equations are the ones found; each difference scales exactly, with the product rounded or not, and has the same history |
| C238 | `Iterative.step` with `Fused binary64` | C172 with fused products and one power per equation: the sum of a row scales exactly and has the same history, the quotient by the diagonal is the same |

## Violated properties

For some properties the code does not do what its documentation or its interface promise.  For these the property is a definition
`Cnn : Prop`, `cnn_violated` proves its negation with a concrete witness that callers can reach, and further theorems prove what the
code does instead or under which condition the property holds.  They are the claims with the status `partial`: C05, C07, C09, C16,
C22, C24, C26, C30-C32, C35, C40, C41, C46, C48, C49, C51, C53, C58-C60, C62, C64-C67, C69, C71-C73, C75, C78-C80, C83, C85,
C88, C92, C94, C98, C103, C107, C108, C112-C114,
C118-C121, C123, C125-C128, C138-C144, C151-C153, C155-C157, C159-C163, C173, C175, C187, C209.  No claim is partial for another reason.

## Not modelled

* Messages on the console, time stamps, `reserve`, `capacity` and `shrink_to_fit` of dense vectors and matrices.
* `std::acos`, `std::cbrt` and `std::pow` with doubles are parameters; C225 assumes error bounds of the latter two.
* The commented out half of `matrix_sparse_new.hpp`.

## Files

* `lean/Verif/Basic.lean`, `Csr.lean`: outcomes, C++ vectors, loops.
* `lean/Verif/{Graph,Sparse,Dense,Scalar,Solver}`: the models (`Model.lean`, `CsrData.lean`, `Geometry.lean`, `Lu.lean`,
  `Iterative.lean`, `Order.lean`, ...) and lemmas about them.
* `lean/Verif/Spec`: vocabulary of the statements, independent of the helper functions of the models.
* `lean/Verif/Props`: the theorems of the manifest.
* `lean/Verif/Audit.lean`: axioms of the claimed theorems.
* `seeded/LOG.jsonl`: edited programs and what stopped proving.  A failed proof is not by itself a false claim: a proof script
  can fail for an edit that changes nothing visible.  The field `observed` says how an entry was obtained.
  * `full build`: each failing proof was replaced and the build continued.  `failed_theorems` are the claims that then rest on a
    replaced proof.  `breaks` was written before the run.
  * `first failing lemma`: the build was stopped at the lemma in `failed_lemmas`.  `failed_theorems` are the claims whose proofs
    use that lemma, taken from the dependencies of the unedited project.  They were not run one by one.  `breaks` was written
    before the run.
  * `first failing lemma, generated edit`: the same for edits made by a script.  `breaks` lists the titles of the properties
    that use the lemma.  Nobody judged for each of these edits whether the claims are false for it.
  * `by hand`: single edits and survivors that were examined one by one.
  * Entries whose `breaks` starts with `none` are equivalent, or equal for all states the claims are about; the text says why.
    Those that start with `no claim` are differences that no claim covers.
