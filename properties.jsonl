{"id": "C01", "title": "Graph insert/contains behave like a set of edges", "statement": "Starting from a default constructed graph and performing any history of insert calls, contains(e) is true exactly when e (or its reversal, for an undirected graph) was inserted earlier; insert returns true exactly when the edge was not already present; size_edge is the number of distinct inserted edges and size_vertex is one more than the largest vertex index mentioned. An insert or contains call with equal end points exits the program and nothing else does.", "quantifier": "all finite histories of insert calls with arbitrary vertex indices other than the two largest (see C51), directed and undirected graphs, and all queries afterwards", "why_tests_cant": "The CSR offsets are updated incrementally, so a wrong offset may only show up after a specific later insert; the histories and graph sizes are unbounded.", "anchors": ["include/graph/adjacency_graph.hpp: Adjacency_Graph::insert", "include/graph/adjacency_graph.hpp: Adjacency_Graph::contains", "include/graph/adjacency_graph.hpp: insert_vertex_adjacent_list", "include/graph/adjacency_graph.hpp: size_edge", "include/graph/adjacency_graph.hpp: size_vertex", "include/graph/edge.hpp: order_edge_vertex"]}
{"id": "C02", "title": "Adjacency lists stay sorted, duplicate free, in range, loop free and symmetric", "statement": "After any history of successful insert, erase_if, resize, reorder (with permutations) and clear calls, for every vertex v the span returned by operator[](v) is strictly increasing, only contains valid vertex indices different from v, and for undirected graphs u is in the span of v iff v is in the span of u; degree(v) is the length of that span and the degrees sum to size_edge (directed) or 2*size_edge (undirected).", "quantifier": "all histories of mutating operations on a graph and all vertices", "why_tests_cant": "It is an invariant over unbounded operation histories; tests look at a few final states.", "anchors": ["include/graph/adjacency_graph.hpp: insert", "include/graph/adjacency_graph.hpp: erase_if", "include/graph/adjacency_graph.hpp: resize", "include/graph/adjacency_graph.hpp: reorder", "include/graph/adjacency_graph.hpp: operator[]", "include/graph/adjacency_graph.hpp: degree"]}
{"id": "C03", "title": "The graph does not depend on the insertion order", "statement": "Two graphs built by inserting the same set of edges in any order, with any repetition and (for undirected graphs) any orientation, are identical: same vertex count, same edge count, and the same neighbour span for every vertex.", "quantifier": "all pairs of edge sequences denoting the same edge set", "why_tests_cant": "There are factorially many insertion orders for every edge set.", "anchors": ["include/graph/adjacency_graph.hpp: insert"]}
{"id": "C04", "title": "erase_if keeps exactly the induced subgraph of the survivors", "statement": "When erase_if completes without undefined behaviour, the new graph has one vertex per vertex for which the predicate is false, numbered in the original relative order, and two survivors are adjacent afterwards iff they were adjacent before.", "quantifier": "all well formed graphs and all vertex predicates", "why_tests_cant": "Requires every graph and every subset of vertices; index compaction errors depend on which vertices are removed together.", "anchors": ["include/graph/adjacency_graph.hpp: erase_if"]}
{"id": "C05", "title": "erase_if is memory safe", "statement": "erase_if never accesses memory out of bounds, for every graph and every predicate. (The code violates this: the relabelling table is sized by the adjacency list, so keeping a vertex whose index is at least the number of stored adjacencies writes past its end; a default graph dereferences an empty offset vector.)", "quantifier": "all well formed graphs and all vertex predicates", "why_tests_cant": "Out of bounds writes only happen for sparse graphs with isolated vertices and may be silent in tests.", "anchors": ["include/graph/adjacency_graph.hpp: erase_if"]}
{"id": "C06", "title": "resize keeps exactly the edges between remaining vertices", "statement": "resize(n) leaves a graph with n vertices in which two vertices are adjacent iff both are below n and they were adjacent before; growing adds isolated vertices. The one exception is n = 2^64-1, the reserved value: the length of the offsets wraps round to zero and the result has no vertices.", "quantifier": "all well formed graphs and all target sizes", "why_tests_cant": "Depends on unbounded graph and size; each shrink touches every vertex' offsets.", "anchors": ["include/graph/adjacency_graph.hpp: resize"]}
{"id": "C07", "title": "resize is memory safe", "statement": "resize never accesses the offset vector out of bounds. (The code violates this when size is between 1 and size_vertex: the last loop iteration updates an offset one past the end.)", "quantifier": "all well formed graphs and target sizes", "why_tests_cant": "The write lands in spare capacity, so no test observes it.", "anchors": ["include/graph/adjacency_graph.hpp: resize"]}
{"id": "C08", "title": "reorder is a graph isomorphism and hands back the old graph", "statement": "Given a permutation p of the vertices, after reorder(p) vertices p[a] and p[b] are adjacent iff a and b were before, vertex and edge counts are unchanged, and the returned graph is the graph before the call.", "quantifier": "all well formed graphs and all permutations of their vertices, up to 2^27 vertices (C187)", "why_tests_cant": "n! permutations for each graph.", "anchors": ["include/graph/adjacency_graph.hpp: reorder"]}
{"id": "C09", "title": "reorder rejects everything that is not a permutation", "statement": "reorder exits the program for each argument that is not a permutation of 0..n-1. (The code only checks the length and the sum, so this is violated: for instance {1,1,1} is accepted and yields a malformed graph, and {3,0,0} reads and writes out of bounds.)", "quantifier": "all graphs and all argument vectors", "why_tests_cant": "A checksum accepts all but a few wrong vectors correctly; testing single bad vectors says nothing about the rest.", "anchors": ["include/graph/adjacency_graph.hpp: reorder"]}
{"id": "C10", "title": "Read only graph queries are memory safe on every reachable graph", "statement": "On every graph made through the interface, contains(e) with any e, at(v), degree(v) and operator[](v) with v < size_vertex never access out of bounds; at(v) exits for v >= size_vertex.", "quantifier": "all reachable graphs, all vertices and edges", "why_tests_cant": "Depends on the offset invariants of all reachable states.", "anchors": ["include/graph/adjacency_graph.hpp: contains", "include/graph/adjacency_graph.hpp: at", "include/graph/adjacency_graph.hpp: degree", "include/graph/adjacency_graph.hpp: operator[]"]}
{"id": "C11", "title": "Equal graphs hash equally, but the hash does not identify a graph", "statement": "The hash is a function of vertex count, edge count and the degrees of first and last vertex: graphs that are observably equal have equal hashes; graphs which agree on those four numbers collide, so hash equality does not imply graph equality.", "quantifier": "all graphs", "why_tests_cant": "Universal statement about pairs of graphs.", "anchors": ["include/graph/adjacency_graph.hpp: struct std::hash<Adjacency_Graph>"]}
{"id": "C12", "title": "level_traversal computes breadth first distances", "statement": "For any graph with at least two vertices, any start vertex and any end level, level_traversal returns, for each vertex, the length of a shortest path from the start vertex if that is at most the end level, and the maximum index value otherwise; with the default end level exactly the unreachable vertices get the maximum. The overload that takes a queue of start vertices gives the distance from the nearest of them.", "quantifier": "all well formed graphs with more than one vertex, all start vertices (or sets of them) and all end levels", "why_tests_cant": "Shortest path correctness on all graphs; tests use a handful of meshes.", "anchors": ["include/graph/graph_utilities.hpp: level_traversal"]}
{"id": "C13", "title": "level_traversal rejects single vertex graphs", "statement": "On a graph with exactly one vertex level_traversal terminates the program through its level assertion.", "quantifier": "all single vertex graphs", "why_tests_cant": "A boundary that the code comments do not mention; no test covers it.", "anchors": ["include/graph/graph_utilities.hpp: level_traversal"]}
{"id": "C14", "title": "pseudo_peripheral_vertex terminates and never moves closer", "statement": "For any graph and any start vertex the search terminates and returns a vertex of the graph. If every vertex can be reached from the start vertex, the eccentricity of the result is at least that of the start vertex and no vertex farthest from the result has a smaller degree. Otherwise a start vertex without neighbours is returned itself, and any other start vertex yields a vertex such that no vertex it cannot reach has a smaller degree.", "quantifier": "all undirected graphs and start vertices", "why_tests_cant": "Termination of an unbounded while loop.", "anchors": ["include/graph/graph_utilities.hpp: pseudo_peripheral_vertex"]}
{"id": "C15", "title": "level_expansion colours from its seeds", "statement": "level_expansion returns, gives every seed its own colour, and gives every vertex that a seed can reach the colour of a seed at minimum distance, joined to it by a shortest path of vertices of that colour; every other vertex keeps the maximum index. An empty seed list or a seed out of range exits the program.", "quantifier": "all graphs and seed lists with distinct vertices", "why_tests_cant": "Sweep order dependent fixed point iteration over arbitrary graphs.", "anchors": ["include/graph/graph_utilities.hpp: level_expansion"]}
{"id": "C16", "title": "eccentricity functions are memory safe", "statement": "eccentricity_graph never accesses memory out of bounds. (Violated: on each graph that has at least one edge it reads past the end of its distance vector.)", "quantifier": "all graphs", "why_tests_cant": "Reads past the end of a heap vector are not observed by tests.", "anchors": ["include/graph/graph_utilities.hpp: eccentricity_graph", "include/graph/graph_utilities.hpp: eccentricity_vertex_breadth_first"]}
{"id": "C17", "title": "breadth_first returns a permutation", "statement": "For each connected graph and start vertex breadth_first returns a permutation of the vertices that maps the start vertex to 0; for a disconnected graph the program exits; the empty graph yields an empty permutation.", "quantifier": "all graphs and root vertices", "why_tests_cant": "All graphs; a missing or duplicate index occurs only for particular topologies.", "anchors": ["src/graph/reorder.cpp: breadth_first"]}
{"id": "C18", "title": "breadth_first numbers vertices level by level", "statement": "If a vertex receives a smaller new index than another, then its distance to the root is at most the distance of the other.", "quantifier": "all connected graphs, roots, and vertex pairs", "why_tests_cant": "Relates an order produced by a queue to shortest path lengths on all graphs.", "anchors": ["src/graph/reorder.cpp: breadth_first"]}
{"id": "C19", "title": "cuthill_mckee returns a permutation", "statement": "For each connected graph with at least two vertices, whichever unstable sort is used, cuthill_mckee returns a permutation of the vertices; for a disconnected graph the program exits.", "quantifier": "all graphs, root vertices and all behaviours of std::sort permitted by its specification", "why_tests_cant": "std::sort is unspecified on ties; tests see one implementation.", "anchors": ["src/graph/reorder.cpp: cuthill_mckee"]}
{"id": "C20", "title": "cuthill_mckee_reverse reverses cuthill_mckee", "statement": "For each vertex v, the new index in the reverse ordering is n-1 minus the new index in the Cuthill McKee ordering; the result is again a permutation.", "quantifier": "all graphs and roots for which cuthill_mckee returns", "why_tests_cant": "All graphs.", "anchors": ["include/graph/reorder.hpp: cuthill_mckee_reverse"]}
{"id": "C21", "title": "greedy_multicolouring returns a permutation grouping independent sets", "statement": "For each graph in which at least one vertex has a neighbour, greedy_multicolouring returns a permutation of the vertices sorted by colour and then by vertex index, for a colouring in which adjacent vertices have different colours. A vertex without a neighbour of smaller index has colour 1; any other vertex has the least colour that is larger than the least colour of those neighbours and unused by them.", "quantifier": "all graphs", "why_tests_cant": "All graphs and visiting orders.", "anchors": ["src/graph/reorder.cpp: greedy_multicolouring"]}
{"id": "C22", "title": "greedy_multicolouring handles edgeless graphs", "statement": "For a graph without edges greedy_multicolouring returns a permutation. (Violated: for n >= 2 vertices and no edges the returned vector is all zeros.)", "quantifier": "all edgeless graphs", "why_tests_cant": "The defect appears only when no vertex has neighbours.", "anchors": ["src/graph/reorder.cpp: greedy_multicolouring"]}
{"id": "C23", "title": "A subgraph of a sorted partition is the induced subgraph", "statement": "Constructing a subgraph of a parent graph from a strictly increasing list of vertices gives a local graph whose local vertex i is the i-th listed vertex (local_global), and local vertices are adjacent iff the global ones are, whenever the constructor returns; it is undefined behaviour exactly when the parent is default constructed or a listed vertex is not below twice the edge count. (For unsorted lists the code numbers the local graph in parent order but the mapping in list order, so the property fails.)", "quantifier": "all parents and vertex lists", "why_tests_cant": "All graphs and all subsets and their orders.", "anchors": ["src/graph/adjacency_subgraph.cpp: Adjacency_Subgraph::Adjacency_Subgraph", "include/graph/adjacency_subgraph.hpp: local_global"]}
{"id": "C24", "title": "update_levels grows the subgraph by graph distance", "statement": "After update_levels(parent, k) on a subgraph made from a partition, the subgraph consists of exactly the parent vertices at distance at most k from the partition, is the induced subgraph on them, and vertex_level of every local vertex is its distance from the partition.", "quantifier": "all parents, partitions and level counts", "why_tests_cant": "Levels and graphs unbounded.", "anchors": ["src/graph/adjacency_subgraph.cpp: update_levels", "src/graph/adjacency_subgraph.cpp: add_levels", "src/graph/adjacency_subgraph.cpp: remove_levels"]}
{"id": "C25", "title": "recursive_graph_bisection partitions the vertices", "statement": "For a graph with at least one vertex and at most twice as many vertices as edges, and a number of parts k between 1 and the vertex count, recursive_graph_bisection returns exactly k parts: they are nonempty, each vertex is in exactly one of them, and each is an induced subgraph that recognises its parent. For k = 0 or k larger than the vertex count the program exits. On graphs with more vertices than twice the edges the call with k > 0 is undefined behaviour.", "quantifier": "all graphs and part counts", "why_tests_cant": "Depends on all graphs, all splits and tie breaks.", "anchors": ["src/graph/partition.cpp: recursive_graph_bisection"]}
{"id": "C26", "title": "multinode_level_set_expansion is memory safe", "statement": "multinode_level_set_expansion with at least two parts never accesses out of bounds. (Violated for each graph with an edge because of the graph eccentricity computation.)", "quantifier": "all graphs and part counts", "why_tests_cant": "Silent out of bounds read.", "anchors": ["src/graph/partition.cpp: multinode_level_set_expansion"]}
{"id": "C27", "title": "create_graph_line builds the path graph", "statement": "create_graph_line(n) for n >= 2 returns the graph with n vertices in which a and b are adjacent iff they differ by one.", "quantifier": "all n below 2^64-1, directed and undirected", "why_tests_cant": "All sizes.", "anchors": ["include/graph/generator.hpp: create_graph_line"]}
{"id": "C28", "title": "create_graph_structured builds the grid graph", "statement": "create_graph_structured(n) for n >= 2 returns the graph on n*n vertices in which vertices are adjacent iff they are horizontal or vertical neighbours on the n by n grid.", "quantifier": "all n with n*n below 2^64-1, directed and undirected", "why_tests_cant": "All sizes.", "anchors": ["include/graph/generator.hpp: create_graph_structured"]}
{"id": "C29", "title": "Sparse insert, insert_or_assign and erase behave like a finite map", "statement": "Starting from a matrix of any size, after any history of insert, insert_or_assign and erase calls with indices in range, find/contains see an element at (i,j) exactly when the history left one there, with the value an ordinary finite map would hold; insert does not overwrite and reports whether it inserted.", "quantifier": "all histories of operations with arbitrary indices and values", "why_tests_cant": "Unbounded histories over incrementally updated CSR arrays.", "anchors": ["src/core/matrix_sparse.cpp: insert", "src/core/matrix_sparse.cpp: insert_or_assign", "src/core/matrix_sparse.cpp: erase", "src/core/matrix_sparse.cpp: find", "src/core/matrix_sparse.cpp: contains", "src/core/matrix_sparse.cpp: lower_bound"]}
{"id": "C30", "title": "Sparse storage invariants hold after each operation", "statement": "After any history of insert, insert_or_assign, erase, resize, clear, addition, subtraction and multiplication each row iterates over strictly increasing column indices below size_column, and size_non_zero is the total number of stored elements.", "quantifier": "all histories of operations", "why_tests_cant": "Invariant over unbounded histories.", "anchors": ["src/core/matrix_sparse.cpp: insert", "src/core/matrix_sparse.cpp: resize", "src/core/matrix_sparse.cpp: operator*=", "src/core/matrix_sparse.cpp: matrix_arithmetic"]}
{"id": "C31", "title": "Checked sparse access returns the element or exits", "statement": "at(i,j) returns the stored element when present and exits the program when absent. (Violated: for an absent element at the end of its row the code inspects the next row, and returns that row's element when the column matches, or reads past the end of the storage.)", "quantifier": "all matrices and index pairs", "why_tests_cant": "Needs particular neighbouring row contents.", "anchors": ["src/core/matrix_sparse.cpp: at"]}
{"id": "C32", "title": "Sparse resize keeps exactly the elements in range", "statement": "resize(r,c) leaves exactly the stored elements with row < r and column < c, with values unchanged. (Violated for c = 0: the code keeps all elements of the remaining rows.)", "quantifier": "all matrices and sizes", "why_tests_cant": "All matrices and sizes; the column 0 boundary wraps an unsigned subtraction.", "anchors": ["src/core/matrix_sparse.cpp: resize"]}
{"id": "C33", "title": "Sparse addition and subtraction are elementwise", "statement": "For matrices of equal size, after A += B (A -= B) every element equals the sum (difference) of the elements, absent elements counting as zero; the stored pattern is the union; unequal sizes exit. This also holds when A and B are the same object.", "quantifier": "all pairs of matrices", "why_tests_cant": "Merging of arbitrary sorted patterns.", "anchors": ["src/core/matrix_sparse.cpp: matrix_arithmetic", "src/core/matrix_sparse.cpp: operator+=", "src/core/matrix_sparse.cpp: operator-="]}
{"id": "C34", "title": "Sparse product is the matrix product", "statement": "For matrices with matching inner sizes, A *= B and A * B give the matrix product of the represented matrices; mismatching sizes exit.", "quantifier": "all pairs of matrices with matching sizes, over any commutative ring of scalars", "why_tests_cant": "All sizes and patterns.", "anchors": ["src/core/matrix_sparse.cpp: operator*=", "include/core/matrix_sparse.hpp: operator*"]}
{"id": "C35", "title": "Sparse self multiplication", "statement": "A *= A with the same object on both sides computes the square of A. (Violated: the code always produces a matrix without stored elements.)", "quantifier": "all square sparse matrices", "why_tests_cant": "Aliasing is never exercised.", "anchors": ["src/core/matrix_sparse.cpp: operator*="]}
{"id": "C36", "title": "Sparse matrix vector product", "statement": "A * x equals the mathematical matrix vector product for every sparse matrix with size_column equal to the vector size, other sizes exit (vectors of static size also exit unless the matrix is square, as the result has the same type); it is linear in x and distributes over sparse addition.", "quantifier": "all matrices and vectors, over any commutative ring of scalars", "why_tests_cant": "All sizes and patterns.", "anchors": ["include/core/matrix_sparse.hpp: operator*(const Matrix_Sparse&, const Vector_Dense&)"]}
{"id": "C37", "title": "CSR_Data operations behave like a finite map", "statement": "The CSR_Data based storage: after any history of insert and insert_or_assign, lower_bound finds (i,j) exactly when it is stored and the value is what a finite map would hold; resize with at least one column keeps exactly the elements in range; no operation accesses out of bounds.", "quantifier": "all histories of operations", "why_tests_cant": "Unbounded histories.", "anchors": ["include/core/matrix_sparse_data.hpp: insert", "include/core/matrix_sparse_data.hpp: insert_or_assign", "include/core/matrix_sparse_data.hpp: lower_bound", "include/core/matrix_sparse_data.hpp: resize"]}
{"id": "C38", "title": "Dense vector operations satisfy the vector space laws and reject mismatching sizes", "statement": "+, -, scalar * and / on dense vectors act elementwise, and exit exactly when the sizes differ; hence addition is commutative and associative, and scalar multiplication distributes (for exact scalars).", "quantifier": "all vectors of all sizes over any commutative ring or field", "why_tests_cant": "All sizes and values.", "anchors": ["include/core/vector_dense.hpp: operator+=", "include/core/vector_dense.hpp: operator+"]}
{"id": "C39", "title": "Vector geometry identities", "statement": "For exact real scalars: dot is symmetric and bilinear, unit vectors have norm one, the cross product is orthogonal to both arguments and antisymmetric, and for a unit normal the tangential and orthogonal projections sum to the vector and are orthogonal to each other. Each of these operations, and the angle, exits for vectors of different sizes, and the cross product and the angle for sizes other than two and three.", "quantifier": "all vectors", "why_tests_cant": "All values.", "anchors": ["include/core/vector_operators.hpp: dot_product", "include/core/vector_operators.hpp: unit", "include/core/vector_operators.hpp: cross_product", "include/core/vector_operators.hpp: projection_tangent", "include/core/vector_operators.hpp: projection_orthogonal"]}
{"id": "C40", "title": "Dense matrix product is the matrix product", "statement": "A *= B and A * B on dense matrices compute the matrix product for all matching sizes, and exit otherwise. (Violated: A *= A with the same object yields the zero matrix; on matrices whose fixed sizes are not square A * B always exits and A *= B loses columns or is undefined behaviour. True for distinct objects sized at run time or square.)", "quantifier": "all dense matrices over any commutative ring", "why_tests_cant": "All sizes; aliasing.", "anchors": ["include/core/matrix_dense.hpp: operator*="]}
{"id": "C41", "title": "Dense matrix vector product", "statement": "A * x equals the matrix vector product for all dense matrices. (Violated: true for square matrices; for fewer rows than columns the code reads past the end, for more rows than columns it drops the last entries, and matrices of fixed size that are not square exit.)", "quantifier": "all dense matrices and vectors", "why_tests_cant": "Shape dependent; tests use square matrices.", "anchors": ["include/core/matrix_dense.hpp: operator*(const Matrix_Dense&, const Vector_Dense&)"]}
{"id": "C42", "title": "Tolerant comparisons are coherent", "statement": "For all scalars and valid tolerances is_nearly_equal is reflexive and symmetric, is_nearly_less and is_nearly_greater are mutually exclusive with is_nearly_equal and with each other, exactly one of less, equal, greater holds, and a tolerance outside [epsilon,1] exits whenever it is used (is_nearly_equal always; the others unless a plain comparison decides first).", "quantifier": "all scalar pairs and tolerances (exact arithmetic)", "why_tests_cant": "All value pairs.", "anchors": ["include/core/scalar.hpp: is_nearly_equal", "include/core/scalar.hpp: is_nearly_less", "include/core/scalar.hpp: is_nearly_greater"]}
{"id": "C43", "title": "LU solve solves the system", "statement": "If factorise(A) returned true then solve_system(x,b) returns a converged state and sets x such that A x = b exactly (for exact field arithmetic), with and without pivoting.", "quantifier": "all square matrices over a linearly ordered field, all right hand sides, all positive tolerances", "why_tests_cant": "All sizes and values, including all pivot sequences.", "anchors": ["include/solver/direct_lower_upper_factorisation.hpp: factorise", "include/solver/direct_lower_upper_factorisation.hpp: solve_system"]}
{"id": "C44", "title": "Factorisation success implies nonsingularity", "statement": "If factorise(A) returns true (positive tolerance) then A is nonsingular; equivalently each singular matrix is rejected; and after a rejected factorisation solve_system reports not converged and leaves x unchanged; a right hand side of another size ends the program.", "quantifier": "all square matrices", "why_tests_cant": "All singular matrices.", "anchors": ["include/solver/direct_lower_upper_factorisation.hpp: factorise", "include/solver/direct_lower_upper_factorisation.hpp: solve_system"]}
{"id": "C45", "title": "The exact solution is the only fixed point of the iterative solvers", "statement": "For a square sparse matrix with nonzero stored diagonal, a sweep of Jacobi, Gauss Seidel or SOR leaves x unchanged iff A x = b (exact arithmetic).", "quantifier": "all such systems", "why_tests_cant": "All sizes and values.", "anchors": ["src/solver/solver_fixed_point.cpp: forward_sweep"]}
{"id": "C46", "title": "Iterative solvers stop", "statement": "Every iterative solve performs at most max(maximum_iterations, minimum_iterations) + 1 iterations and at least the configured minimum number. (Violated for a maximum of the largest std::size_t, where the iteration counter wraps round and the solve may never end.)", "quantifier": "all systems, all configurations", "why_tests_cant": "Termination of a data dependent loop for all inputs.", "anchors": ["include/solver/solver_utilities.hpp: Convergence_Criteria::is_converged", "src/solver/solver_fixed_point.cpp: solve_system"]}
{"id": "C47", "title": "Jacobi and Gauss Seidel converge for diagonally dominant systems", "statement": "For strictly row diagonally dominant matrices each Jacobi and Gauss Seidel sweep contracts the maximum norm error by a factor below one that depends only on the matrix, hence iterates converge to the solution.", "quantifier": "all strictly diagonally dominant systems and start vectors (exact real arithmetic)", "why_tests_cant": "All systems, infinitely many iterations.", "anchors": ["src/solver/solver_fixed_point.cpp: forward_sweep"]}
{"id": "C48", "title": "Reported residuals are the residual norms", "statement": "compute_residual on a square system returns sqrt(sum r_i^2 / n) and max |r_i| for r = A x - b; both are zero iff A x = b. (Violated from 2^31 rows on: the row counter is an int, and its overflow is undefined.)", "quantifier": "all square systems", "why_tests_cant": "All systems.", "anchors": ["include/solver/solver_utilities.hpp: compute_residual", "include/solver/solver_utilities.hpp: Convergence_Data::update"]}
{"id": "C49", "title": "Solver configuration is honoured", "statement": "The SOR solver uses the relaxation factor of its configuration, and iterative solvers set the converged flag when they stop because the tolerance is met. (Violated: SOR always uses 1.5, and the converged flag is never set.)", "quantifier": "all configurations and systems", "why_tests_cant": "Ranges over all configurations.", "anchors": ["src/solver/solver_fixed_point.cpp: Solver_Fixed_Point<successive_over_relaxation>::solve_system", "include/solver/solver_utilities.hpp: Convergence_Data"]}
{"id": "C50", "title": "Solver dispatch", "statement": "build_solver followed by solve runs the solver named by the configuration; a solve call that does not fit the configured solver never returns: a dense solve on an iterative or unset solver exits, an unknown type exits while building, and a sparse solve on a direct solver falls through the switch and ends in a bad variant access exception. A direct solver built from a configuration solves the system of the matrix it has factorised with the configured pivoting; before that a solve reports no convergence or exits.", "quantifier": "all configurations", "why_tests_cant": "Universal over configurations.", "anchors": ["src/solver/solver.cpp: build_solver", "include/solver/solver.hpp: Solver::solve"]}
{"id": "C51", "title": "Inserting an index that cannot be stored is rejected", "statement": "An insert call that mentions the maximum index value, which the conventions reserve for 'no data', or the value before it, for which the offsets would need more than 2^64-1 entries, exits the program and leaves the graph alone. (Violated: the new vertex count or the length of the offsets wraps round to zero and the offsets are read out of bounds.)", "quantifier": "all graphs and all edges that mention one of the two largest indexes", "why_tests_cant": "The failure needs one of two indexes out of 2^64, on any graph.", "anchors": ["include/graph/adjacency_graph.hpp: insert", "include/graph/adjacency_graph.hpp: resize", "docs/conventions.md"]}
{"id": "C52", "title": "The edge list constructor is a sequence of insertions", "statement": "Constructing a graph from a nonempty edge list gives the graph (or the program exit) that inserting the edges one at a time into a default graph gives; an empty edge list dereferences an end iterator.", "quantifier": "all edge lists", "why_tests_cant": "All lists of edges.", "anchors": ["include/graph/adjacency_graph.hpp: Adjacency_Graph::Adjacency_Graph(std::initializer_list<Edge>)"]}
{"id": "C53", "title": "greedy_multicolouring uses the lowest free colour", "statement": "For each graph with an edge the permutation returned by greedy_multicolouring is sorted by the colouring its documentation describes (each vertex in turn gets the lowest colour not present among its coloured neighbours) and then by index. (Violated: the search for a gap never considers colour 1, so a path gets a new colour for every vertex.)", "quantifier": "all graphs with at least one edge", "why_tests_cant": "The colouring is never returned; only reasoning over all graphs shows for which of them the two rules agree.", "anchors": ["src/graph/reorder.cpp: greedy_multicolouring"]}
{"id": "C54", "title": "eccentricity_vertex_breadth_first computes distances", "statement": "With its default stop vertex eccentricity_vertex_breadth_first fills its output with the distance of every vertex from the start vertex, and the maximum index for unreachable vertices, whatever the output held before.", "quantifier": "all graphs, start vertices and previous contents of the output", "why_tests_cant": "Shortest paths in arbitrary graphs and stale buffers cannot be enumerated.", "anchors": ["include/graph/graph_utilities.hpp: eccentricity_vertex_breadth_first"]}
{"id": "C55", "title": "breadth_first follows the queue order exactly", "statement": "Of two vertices other than the root, the one whose first numbered neighbour has the smaller new index is numbered first; vertices with the same first numbered neighbour keep their relative order.", "quantifier": "all connected graphs, roots and vertex pairs", "why_tests_cant": "The order of ties only matters on graphs with many equivalent vertices.", "anchors": ["src/graph/reorder.cpp: breadth_first"]}
{"id": "C56", "title": "cuthill_mckee numbers by level, then by first neighbour, then by degree", "statement": "A vertex numbered before another is not farther from the root; if neither is the root, its first numbered neighbour does not come later, and if both have the same first numbered neighbour its degree is not larger. This holds however std::sort orders vertices of equal degree.", "quantifier": "all connected graphs, roots, vertex pairs and sort implementations", "why_tests_cant": "The freedom of std::sort and the number of graphs are unbounded.", "anchors": ["src/graph/reorder.cpp: cuthill_mckee"]}
{"id": "C57", "title": "cuthill_mckee picks a vertex of minimum degree by default", "statement": "Called without a root cuthill_mckee behaves as if called with the first vertex of minimum degree; if some vertex has no neighbours, even a single vertex, the program exits.", "quantifier": "all nonempty graphs", "why_tests_cant": "Depends on the whole degree sequence.", "anchors": ["src/graph/reorder.cpp: cuthill_mckee"]}
{"id": "C58", "title": "Generated graphs have the documented number of vertices", "statement": "create_graph_line(n) returns a graph with n vertices and create_graph_structured(n) a graph with n*n vertices. (Violated: for n = 1 both return a graph without vertices, and for n = 0 the loop of create_graph_line runs until it inserts an index that cannot be stored.)", "quantifier": "all n with n*n in the index range, directed and undirected", "why_tests_cant": "Holds for every tried n from 2 on; the failures are at the ends of the range.", "anchors": ["include/graph/generator.hpp: create_graph_line", "include/graph/generator.hpp: create_graph_structured"]}
{"id": "C59", "title": "update_levels never fails on the parent of the subgraph", "statement": "update_levels called with the graph the subgraph was made from always returns. (Violated: growing exits as soon as some level is one less than the number of vertices, for instance at the far end of a path, and shrinking, including asking for the current level count, is undefined behaviour when the local graph has too few edges.)", "quantifier": "all parents, partitions, level histories and level counts", "why_tests_cant": "The failures depend on the distances in the parent and on how many edges the local graph has.", "anchors": ["src/graph/adjacency_subgraph.cpp: update_levels", "src/graph/adjacency_subgraph.cpp: add_levels", "src/graph/adjacency_subgraph.cpp: remove_levels"]}
{"id": "C60", "title": "is_parent recognises only the parent", "statement": "is_parent, and with it the check of update_levels, accepts the graph the subgraph was made from and no graph with other edges. (Violated: only a hash of the vertex count, the edge count and the first and last degree is compared, so update_levels mixes the edges of different graphs.)", "quantifier": "all parents, other graphs, partitions and hash functions", "why_tests_cant": "Needs a colliding pair for every possible std::hash.", "anchors": ["include/graph/adjacency_subgraph.hpp: is_parent", "src/graph/adjacency_subgraph.cpp: update_levels"]}
{"id": "C61", "title": "Subgraph reorder renumbers consistently", "statement": "After reorder with a permutation local vertex i has become permutation[i]: global index, level, locality and adjacency follow, and the parent is still recognised.", "quantifier": "all subgraphs of sorted partitions after any history of level changes and reorderings, and all permutations", "why_tests_cant": "All graphs and permutations.", "anchors": ["src/graph/adjacency_subgraph.cpp: reorder"]}
{"id": "C62", "title": "Subgraph reorder returns the old subgraph", "statement": "The subgraph returned by reorder equals the one before the call. (Violated: it has lost the hash of its parent, so is_parent and update_levels reject the parent.)", "quantifier": "all subgraphs of sorted partitions and all permutations", "why_tests_cant": "The difference shows only in later calls on the returned object.", "anchors": ["src/graph/adjacency_subgraph.cpp: reorder"]}
{"id": "C63", "title": "The fixed example graphs match their drawings", "statement": "create_graph_hybrid and create_graph_saad return graphs whose vertices and edges are exactly those drawn in their documentation.", "quantifier": "all pairs of vertices of both graphs", "why_tests_cant": "The drawings are prose; the unit tests do not compare the graphs with them.", "anchors": ["include/graph/generator.hpp: create_graph_hybrid", "include/graph/generator.hpp: create_graph_saad"]}
{"id": "C64", "title": "Sparse lookups of rows out of range", "statement": "find and lower_bound with a row outside of the matrix return end(), and contains returns false, as documented. (Violated: all three read behind the end of the row offsets, on every matrix.)", "quantifier": "all matrices after any history of calls, all rows out of range and all columns", "why_tests_cant": "The bad read usually goes unnoticed in a test.", "anchors": ["src/core/matrix_sparse.cpp: find", "src/core/matrix_sparse.cpp: contains", "src/core/matrix_sparse.cpp: lower_bound"]}
{"id": "C65", "title": "Erasing a found element is defined", "statement": "erase of an iterator obtained by finding a stored element removes exactly this element. (Violated: the assertion in front of it compares with end()->end() and so reads behind the end of the row offsets, on every matrix; the removal itself is right.)", "quantifier": "all matrices after any history of calls and all stored elements", "why_tests_cant": "The read is silent in most builds.", "anchors": ["src/core/matrix_sparse.cpp: erase"]}
{"id": "C66", "title": "data returns the storage", "statement": "data returns the address of the row offsets unless the matrix is empty, and those of columns and values unless there are no elements; the others are null, as documented. (Violated on every matrix: with elements all three are null, with rows but no elements nothing is returned, without rows the offsets are returned.)", "quantifier": "all matrices", "why_tests_cant": "The function has no test.", "anchors": ["include/core/matrix_sparse.hpp: data"]}
{"id": "C67", "title": "Scaling by an own element", "statement": "Multiplying or dividing a matrix by a reference to one of its own elements scales all elements by the value that the element had before the call. (Violated: elements behind it are scaled by its new value.)", "quantifier": "all matrices and elements", "why_tests_cant": "Aliasing is never exercised.", "anchors": ["include/core/matrix_sparse.hpp: operator*=(const Scalar&)", "include/core/matrix_sparse.hpp: operator/=(const Scalar&)"]}
{"id": "C68", "title": "The constructor from lists accepts exactly the consistent lists", "statement": "For any nonempty list of offsets the constructor returns when the offsets start at 0, do not decrease and end at the number of columns, there are as many values as columns, and each row has different columns below the column count; it exits otherwise. The matrix then holds exactly the given elements, whatever the order within each row.", "quantifier": "all lists with at least one offset", "why_tests_cant": "All orders and sizes of lists.", "anchors": ["src/core/matrix_sparse.cpp: Matrix_Sparse(std::initializer_list)"]}
{"id": "C69", "title": "Iterator arithmetic of sparse matrices", "statement": "it + n and it - n are the iterator moved by n and leave it alone, it += n and it -= n move it by n, it[n] is the n-th element or row from it. (Violated: on rows it + n and it - n also move it; on elements none of +, += and -= moves anything; the other operators of rows and it[n] are right.)", "quantifier": "all iterators and offsets", "why_tests_cant": "All positions; the operators have no test.", "anchors": ["include/core/matrix_sparse.hpp: Iterator_Matrix_Sparse_Row::operator+", "include/core/matrix_sparse.hpp: Iterator_Matrix_Sparse_Element::operator+", "include/core/matrix_sparse.hpp: Iterator_Matrix_Sparse_Element::operator+="]}
{"id": "C70", "title": "Assigning through a row of the new sparse matrix", "statement": "Through a row of the new sparse matrix, row[j] = v stores v at (i, j) whether or not the element was there, and leaves every other element alone; the row then reads v at j and what it read before elsewhere. Reading an element that is stored returns the value that a lookup finds; reading one that is not exits.", "quantifier": "all storage after any history of insert, insert_or_assign and resize, all rows, columns and values", "why_tests_cant": "Unbounded histories; insertion shifts the storage behind the views.", "anchors": ["include/core/matrix_sparse_new.hpp: Matrix_Sparse_Row", "include/core/matrix_sparse_new.hpp: SparseAccessor::operator="]}
{"id": "C71", "title": "Scaling a dense vector or matrix by an own element", "statement": "Multiplying or dividing a dense vector or matrix by a reference to one of its own elements scales all elements by the value that the element had before the call. (Violated: elements behind it are scaled by its new value.)", "quantifier": "all vectors, matrices and elements", "why_tests_cant": "Aliasing is never exercised.", "anchors": ["include/core/vector_dense.hpp: operator*=", "include/core/matrix_dense.hpp: operator*="]}
{"id": "C72", "title": "List constructors check the size", "statement": "A dense vector or matrix of fixed size made from a list of another size is rejected, and so is a list of rows of different lengths. (Violated for matrices of fixed size: missing rows are zero, too many are undefined behaviour.)", "quantifier": "all lists and sizes", "why_tests_cant": "All sizes of lists.", "anchors": ["include/core/vector_dense.hpp: Vector_Dense(std::initializer_list)", "include/core/matrix_dense.hpp: Matrix_Dense(std::initializer_list)"]}
{"id": "C73", "title": "Cross product of vectors with two elements", "statement": "The cross product of vectors with two elements is the vector of three elements along the third axis. (Violated: if one of the sizes is fixed the result has no room and the call exits.)", "quantifier": "all vectors with two elements, in all combinations of fixed and dynamic sizes", "why_tests_cant": "All combinations of sizes; the mixed ones are not tested.", "anchors": ["include/core/vector_operators.hpp: cross_product"]}
{"id": "C74", "title": "Dense matrix sums, scalar multiples and resize", "statement": "+, -, and scalar * and / on dense matrices act elementwise, exit exactly when the sizes differ, and do so also if both operands are the same object; resize keeps the elements in range and fills the others with zero.", "quantifier": "all matrices of all sizes and classes over any field", "why_tests_cant": "All sizes and values.", "anchors": ["include/core/matrix_dense.hpp: operator+=", "include/core/matrix_dense.hpp: operator+", "include/core/matrix_dense.hpp: resize"]}
{"id": "C75", "title": "lp_norm is a norm", "statement": "For every p, lp_norm returns the p-norm (the maximum norm for 0): it is nonnegative, zero only on the zero vector, homogeneous and satisfies the triangle inequality. (Violated only for the maximum norm of a vector without elements, which is undefined behaviour.)", "quantifier": "all p, all sizes and all real vectors", "why_tests_cant": "The triangle inequality for all p is a theorem about all vectors.", "anchors": ["include/core/vector_operators.hpp: lp_norm"]}
{"id": "C76", "title": "Angles", "statement": "The angle between two vectors that are not zero is the one in [0, pi] whose cosine is their dot product over their lengths; it does not depend on the order nor on the lengths, and in degrees it is 180/pi times as large. With a zero vector it is a right angle. Sizes other than 2 or 3, or different ones, exit.", "quantifier": "all vectors of real numbers", "why_tests_cant": "All directions and lengths.", "anchors": ["include/core/vector_operators.hpp: angle"]}
{"id": "C77", "title": "The mean is a mean", "statement": "The mean lies between the smallest and the largest element and the deviations from it sum to zero; a vector without elements exits.", "quantifier": "all vectors of real numbers", "why_tests_cant": "All sizes and values.", "anchors": ["include/core/vector_operators.hpp: mean"]}
{"id": "C78", "title": "Projections reject directions that are not unit vectors", "statement": "The projections exit unless the direction is a unit vector, as their assertion says. (Violated: only the zero vector is rejected; other directions give a vector that is not the projection.)", "quantifier": "all vectors and directions", "why_tests_cant": "The tests only use unit directions.", "anchors": ["include/core/vector_operators.hpp: projection_tangent", "include/core/vector_operators.hpp: projection_orthogonal"]}
{"id": "C79", "title": "Nearly equal follows the documented cases", "statement": "is_nearly_equal compares relative to the norm |a|+|b| when the norm is above the absolute tolerance, and absolutely below it, as documented; larger tolerances never separate equal scalars. (Violated: the absolute tolerance also decides for norms up to tol_abs/tol_rel; 64 and 96 epsilon are nearly equal with the default tolerances although they differ by a fifth of the norm.)", "quantifier": "all scalars and tolerances (exact arithmetic)", "why_tests_cant": "The tests only check values away from the cutoffs.", "anchors": ["include/core/scalar.hpp: is_nearly_equal"]}
{"id": "C80", "title": "Nearly less and nearly greater exclude each other", "statement": "is_nearly_less and is_nearly_greater never both hold. (Violated exactly if one of the scalars is NaN: then both hold.)", "quantifier": "all floating point numbers including infinities and NaN, all roundings that commute with the sign, all valid tolerances", "why_tests_cant": "All roundings and values; NaN is not tested.", "anchors": ["include/core/scalar.hpp: is_nearly_less", "include/core/scalar.hpp: is_nearly_greater"]}
{"id": "C81", "title": "Rejected matrices are nearly singular", "statement": "If factorise(A) returns false then A is close to a singular matrix: with pivoting it becomes singular when the entries of one column change by less than 2 (tolerance + default_absolute) each; without pivoting a leading block becomes singular when its last diagonal entry changes by less than the tolerance.", "quantifier": "all square matrices over a linearly ordered field, all positive tolerances", "why_tests_cant": "All rejected matrices; shows that the factorisation does not reject well conditioned systems.", "anchors": ["include/solver/direct_lower_upper_factorisation.hpp: factorise"]}
{"id": "C82", "title": "Diagonally dominant matrices are factorised", "statement": "factorise(A) returns true for every row diagonally dominant matrix whose margin is at least the tolerance (no pivoting) or 2 (tolerance + default_absolute) (pivoting).", "quantifier": "all sizes, all such matrices", "why_tests_cant": "All sizes and values; the elimination must keep the dominance.", "anchors": ["include/solver/direct_lower_upper_factorisation.hpp: factorise"]}
{"id": "C83", "title": "The direct solve works in place", "statement": "solve_system(b,b), with the same object as solution and constant vector, turns b into the solution of the system. (Violated with pivoting: the forward sweep reads permuted entries that it has already overwritten.)", "quantifier": "all square matrices and right hand sides", "why_tests_cant": "Aliasing is not tested; with pivoting it depends on the pivot sequence.", "anchors": ["include/solver/direct_lower_upper_factorisation.hpp: solve_system"]}
{"id": "C84", "title": "Gauss Seidel and SOR converge for symmetric positive definite systems", "statement": "For a symmetric positive definite matrix every iteration of the Gauss Seidel and SOR solvers reduces the energy norm of the error by a factor below one that depends only on the matrix, so that the iterates tend to the solution from every initial guess.", "quantifier": "all sizes, all symmetric positive definite real matrices stored in a Matrix_Sparse, all right hand sides and initial guesses", "why_tests_cant": "A statement about limits over all matrices; tests run a few systems for a few iterations.", "anchors": ["src/solver/solver_fixed_point.cpp: forward_sweep, solve_system"]}
{"id": "C85", "title": "The maximum number of iterations is respected", "statement": "An iterative solve performs at most max(minimum_iterations, maximum_iterations) iterations. (Violated: a solve that does not meet the tolerance performs maximum_iterations + 1, so the default configuration, which allows none, performs one.)", "quantifier": "all systems with nonzero diagonal, all configurations, all initial guesses", "why_tests_cant": "An off by one at the limit shows only for solves that do not converge in time; quantifies over all systems and limits.", "anchors": ["include/solver/solver_utilities.hpp: Convergence_Criteria::is_converged"]}
{"id": "C86", "title": "A solve that stops in time has small residuals", "statement": "If an iterative solve returns after at most maximum_iterations iterations then the returned vector has a root mean square residual of at most tolerance times that of the first iterate and a largest residual of at most 10 tolerance times that of the first iterate; the reported residuals are those of the returned vector.", "quantifier": "all square systems with nonzero diagonal and between one and 2^31 - 1 rows, all three methods, tolerances below scalar_max, limits of iterations below the largest std::size_t", "why_tests_cant": "All systems and tolerances.", "anchors": ["src/solver/solver_fixed_point.cpp: solve_system", "include/solver/solver_utilities.hpp: Convergence_Criteria::is_converged, Convergence_Data::update"]}
{"id": "C87", "title": "Convergent solves meet the tolerance", "statement": "For strictly diagonally dominant systems (Jacobi, Gauss Seidel) and symmetric positive definite systems (Gauss Seidel, SOR), every positive tolerance and every initial guess there is a number J of iterations such that every solve with maximum_iterations of at least J returns after at most max(J, minimum_iterations) iterations with residuals within the tolerance.", "quantifier": "all such systems with between one and 2^31 - 1 rows, initial guesses, positive tolerances below scalar_max, and minimum_iterations of at most maximum_iterations", "why_tests_cant": "A liveness statement over all systems; includes the case in which the first iterate is already exact and the normalised residuals are 0/0.", "anchors": ["src/solver/solver_fixed_point.cpp: solve_system", "include/solver/solver_utilities.hpp: Convergence_Criteria::is_converged"]}
{"id": "C88", "title": "residual_0 is the residual of the initial guess", "statement": "The members residual_0 and residual_max_0 of the returned convergence data are the norms of the residual before the first iteration, as documented. (Violated: they are those of the first iterate.)", "quantifier": "all systems and initial guesses", "why_tests_cant": "Quantifies over all systems; tests look only at the final residuals.", "anchors": ["include/solver/solver_utilities.hpp: Convergence_Data, Convergence_Data::update"]}
{"id": "C89", "title": "A solution is returned unchanged", "statement": "An iterative solve whose initial guess solves the system returns it unchanged, with zero residuals, after max(1, minimum_iterations) iterations.", "quantifier": "all square systems with nonzero diagonal and between one and 2^31 - 1 rows, all three methods, tolerances below scalar_max, limits of iterations below the largest std::size_t", "why_tests_cant": "All systems; the normalised residuals are 0/0, which must count as converged.", "anchors": ["src/solver/solver_fixed_point.cpp: solve_system", "include/solver/solver_utilities.hpp: Convergence_Criteria::is_converged"]}
{"id": "C90", "title": "Solvers can be used again", "statement": "The solution and the convergence data that an iterative solve returns do not depend on the systems, of any sizes, that the same solver solved before.", "quantifier": "all scalars, all systems (well formed or not), all histories", "why_tests_cant": "All histories; the Jacobi solver keeps a working vector between solves.", "anchors": ["src/solver/solver_fixed_point.cpp: Solver_Fixed_Point<jacobi>::solve_system"]}
{"id": "C91", "title": "The configuration of direct solvers round trips", "statement": "A direct solver can be constructed exactly from configurations of its type and pivoting; the configuration it then reports has the same type, pivoting and tolerance and constructs the same solver. Factorising does not change it.", "quantifier": "all configurations, all matrices", "why_tests_cant": "All configurations.", "anchors": ["include/solver/direct_lower_upper_factorisation.hpp: constructor, get_config"]}
{"id": "C92", "title": "compute_residual never reads out of bounds", "statement": "compute_residual exits if the vectors do not fit the matrix and does not read out of bounds. (Violated: the sizes are compared crosswise, so for matrices that are not square vectors that fit are rejected and others are accepted and read out of bounds.)", "quantifier": "all matrices and vectors", "why_tests_cant": "Only square systems are tested.", "anchors": ["include/solver/solver_utilities.hpp: compute_residual"]}
{"id": "C93", "title": "The orderings bound the bandwidth", "statement": "After reorder with the result of breadth_first, cuthill_mckee or cuthill_mckee_reverse the indices of adjacent vertices differ by less than the number of vertices in two consecutive levels around the root.", "quantifier": "all connected undirected graphs, all roots, all behaviours of std::sort on equal degrees", "why_tests_cant": "Quantifies over all graphs; this is what the orderings are for, and tests compare only sample permutations.", "anchors": ["src/graph/reorder.cpp: breadth_first, cuthill_mckee, cuthill_mckee_reverse", "include/graph/adjacency_graph.hpp: reorder"]}
{"id": "C94", "title": "The number of colours is bounded by the degree", "statement": "In the order of greedy_multicolouring the vertices fall into at most (largest degree + 1) consecutive groups of pairwise not adjacent vertices. (Violated: on the path with n vertices the order is unchanged and needs n groups, though the degrees are at most 2. True for graphs in which every vertex with a smaller neighbour has one that has none itself.)", "quantifier": "all undirected graphs with an edge", "why_tests_cant": "The classical bound of greedy colouring, over all graphs; sample orders do not show it.", "anchors": ["src/graph/reorder.cpp: greedy_multicolouring"]}
{"id": "C95", "title": "Distances in generated grids", "statement": "level_traversal on the undirected graph of create_graph_structured returns the Manhattan distances of the cells; on the directed one it reaches exactly the cells of later rows and columns.", "quantifier": "all grid sizes, all start cells", "why_tests_cant": "All sizes; combines the generator and the traversal.", "anchors": ["include/graph/generator.hpp: create_graph_structured", "include/graph/graph_utilities.hpp: level_traversal"]}
{"id": "C96", "title": "Positive definite matrices are factorised", "statement": "factorise accepts each matrix, symmetric or not, whose quadratic form is at least tolerance times the sum of squares; with pivoting (n + 1)(tolerance + default_absolute) is enough.", "quantifier": "all sizes, all matrices, all positive tolerances, exact arithmetic", "why_tests_cant": "All matrices; the bound of the pivots by the quadratic form is not visible in samples.", "anchors": ["include/solver/direct_lower_upper_factorisation.hpp: factorise"]}
{"id": "C97", "title": "Direct solvers can be used again", "statement": "The result of a factorisation and those of the solves after it do not depend on earlier factorisations with the same solver.", "quantifier": "all matrices (square or not), all vectors, all histories", "why_tests_cant": "All histories.", "anchors": ["include/solver/direct_lower_upper_factorisation.hpp: factorise, solve_system"]}
{"id": "C98", "title": "Matrices that are not square are rejected", "statement": "factorise of a matrix that is not square returns false or exits. (Violated: there is no check. With more columns than rows the version with pivoting always reads out of bounds; the one without may accept the matrix, and then every solve reads out of bounds. With more rows than columns the matrix is rejected or read out of bounds.)", "quantifier": "all matrices sized at run time", "why_tests_cant": "Only square matrices are tested; quantifies over all shapes.", "anchors": ["include/solver/direct_lower_upper_factorisation.hpp: factorise, solve_system"]}
{"id": "C99", "title": "The solvers agree", "statement": "If the direct solver accepts the matrix of a strictly diagonally dominant system, Jacobi and Gauss Seidel tend to the vector it returns; for symmetric positive definite systems Gauss Seidel and SOR do.", "quantifier": "all such systems, all starts, exact arithmetic", "why_tests_cant": "Limits over all systems.", "anchors": ["include/solver/direct_lower_upper_factorisation.hpp: solve_system", "src/solver/solver_fixed_point.cpp: solve_system"]}
{"id": "C100", "title": "Rounding error of the inner product", "statement": "If dot_product of two vectors of doubles is finite then all elements are, and it differs from the exact product by at most ((1+2^-53)^(n+1) - 1) times the sum of the absolute terms, plus a multiple of 2^-1075 for underflow. It is finite if the sum of the absolute terms, with that error added, is at most the largest double.", "quantifier": "all sizes, all vectors of doubles; any rounding with bounded relative and absolute error", "why_tests_cant": "The error bound is for all vectors; tests compare with a tolerance on samples.", "anchors": ["include/core/vector_operators.hpp: dot_product"]}
{"id": "C101", "title": "Rounding error of the sparse matrix vector product", "statement": "If an element of the product of a sparse matrix and a vector of doubles is finite then so are the stored elements of that row and the vector elements in their columns, and the error is at most that of an inner product of as many terms as the row has stored elements. Elements that are not stored do not count.", "quantifier": "all matrices made through the interface, all vectors of doubles", "why_tests_cant": "All matrices and roundings.", "anchors": ["include/core/matrix_sparse.hpp: operator*"]}
{"id": "C102", "title": "Rounding error of the direct solver", "statement": "factorise and solve_system with doubles return for every input, also for infinities and NaN. If the factors L, U are finite then the matrix with permuted rows differs from L U by at most n 2^-52 |L||U|, and each finite solution returned solves the system up to a residual of (3 e + e^2)|L||U||x| with e = n 2^-52; underflow adds multiples of 2^-1075.", "quantifier": "all sizes up to 2^52, all matrices and vectors of doubles, with and without pivoting; any rounding with bounded relative and absolute error", "why_tests_cant": "Backward error analysis holds for all matrices and cannot be sampled.", "anchors": ["include/solver/direct_lower_upper_factorisation.hpp: factorise, solve_system"]}
{"id": "C103", "title": "A solution of the direct solver with doubles solves the system", "statement": "If a solve with doubles reports convergence and a finite solution, the residual of each row is at most half as large as its terms. (Violated: a pivot that overflows is accepted and the division by it gives 0, with and without pivoting; without pivoting also a small pivot can do this with finite factors. Matrices with infinite or NaN coefficients are accepted. True up to a multiple of |L||U||x| when the factors are finite.)", "quantifier": "all systems of doubles", "why_tests_cant": "Overflow happens only with rare inputs and the result does not show it.", "anchors": ["include/solver/direct_lower_upper_factorisation.hpp: factorise, solve_system"]}
{"id": "C104", "title": "Renumberings compose", "statement": "Reordering a graph with one permutation and then with another gives the same graph, stored in the same way, as reordering once with the combined permutation. Reordering with the identity changes nothing, and reordering with the inverse permutation restores the graph exactly.", "quantifier": "all graphs made through the interface, directed or not, all pairs of permutations", "why_tests_cant": "All graphs and permutations.", "anchors": ["include/graph/adjacency_graph.hpp: reorder"]}
{"id": "C105", "title": "Levels move with the vertices", "statement": "level_traversal of a reordered graph, started at the new number of a vertex, gives each vertex the level it had before under its old number, also when the traversal is stopped early.", "quantifier": "all graphs with at least two vertices (level_traversal exits on a single one), permutations, start vertices and last levels", "why_tests_cant": "All graphs and permutations.", "anchors": ["include/graph/adjacency_graph.hpp: reorder", "include/graph/graph_utilities.hpp: level_traversal"]}
{"id": "C106", "title": "Reordering twice changes nothing more", "statement": "After a graph is reordered with the result of breadth_first or cuthill_mckee, breadth_first from vertex 0 of the reordered graph is the identity permutation.", "quantifier": "all graphs and roots for which the first call returns, any order of vertices of equal degree", "why_tests_cant": "All graphs; std::sort is free to order equal degrees in any way.", "anchors": ["src/graph/reorder.cpp: breadth_first, cuthill_mckee", "include/graph/adjacency_graph.hpp: reorder"]}
{"id": "C107", "title": "Parts of a connected graph are connected", "statement": "Each part returned by recursive_graph_bisection for a connected graph is connected. (Violated: two leaves of a star form a part. The first part is connected for every number of parts. Two parts are exactly the vertices at distance at most and more than half the eccentricity from a pseudo peripheral vertex.)", "quantifier": "all connected graphs, all part counts, all hash functions", "why_tests_cant": "All graphs.", "anchors": ["src/graph/partition.cpp: recursive_graph_bisection"]}
{"id": "C108", "title": "A solve that stops early with doubles has a finite solution", "statement": "With IEEE doubles, an iterative solve of a system of finite numbers with no zero on the diagonal that stops before its last iteration has a finite solution. (Violated: when the residual of the first iteration overflows its ratio to itself is NaN, which is not above the tolerance, and the solve stops with an infinite solution. If the residual that is reported is finite, and the one of the first iteration is finite and positive, then the solution is finite, the residual is the one of the solution, and its ratio to the first is the tolerance up to one rounding.)", "quantifier": "all matrices, start vectors, right hand sides, tolerances between zero and one, all three methods", "why_tests_cant": "All systems of doubles.", "anchors": ["src/solver/solver_fixed_point.cpp: solve_system", "include/solver/solver_utilities.hpp: is_converged, update"]}
{"id": "C109", "title": "A sweep with doubles makes the same step as the exact sweep, up to a bound", "statement": "If the result of one iteration of the Jacobi, Gauss Seidel or successive over relaxation solver is finite, then each of its numbers differs from the exact update of its row, with the numbers that the method uses, by at most an explicit bound that depends on the number of entries of the row and the unit of rounding.", "quantifier": "all square matrices of finite numbers with no zero on the diagonal, all vectors of finite numbers, all roundings with a bounded error", "why_tests_cant": "All vectors of doubles.", "anchors": ["src/solver/solver_fixed_point.cpp: solve_system, forward_sweep"]}
{"id": "C110", "title": "Jacobi and Gauss Seidel approach the solution of dominant systems with doubles", "statement": "Let the sums of the absolute values off the diagonal be at most q times those on the diagonal, with q(1 + (n+5) 2^-52) + 2^-1074 < 1, so that the system is strictly diagonally dominant by more than the rounding errors. Then each iteration with doubles multiplies the largest error by that factor, less than one, and adds a fixed offset, explicit as well; no iteration overflows while the numbers are far from the largest one.", "quantifier": "all such matrices of finite numbers, all start vectors and right hand sides; any rounding with bounded relative and absolute error", "why_tests_cant": "All systems of doubles.", "anchors": ["src/solver/solver_fixed_point.cpp: solve_system, forward_sweep"]}
{"id": "C111", "title": "Residual norms of doubles bound the defect of the system", "statement": "If compute_residual returns finite norms then the square of the first is the mean of the squares of the defects of the rows, and the square of the second the largest of them, up to explicit rounding errors. The square root of IEEE doubles meets what is asked of the root.", "quantifier": "all square matrices of finite numbers with between one and 2^31 - 1 rows, all vectors of finite numbers, all roundings with a bounded error", "why_tests_cant": "All vectors of doubles.", "anchors": ["include/solver/solver_utilities.hpp: compute_residual"]}
{"id": "C112", "title": "Successive over relaxation solves dominant systems", "statement": "For strictly diagonally dominant systems the iterates of the successive over relaxation solver tend to the solution, as those of the Jacobi and Gauss Seidel solvers do. (Violated: its factor is fixed at 1.5, and for [[2, 1], [-1, 2]] the iterates grow without bound. They tend to the solution if each diagonal element is larger than three times the sum of the others of its row.)", "quantifier": "all square matrices, right hand sides and start vectors", "why_tests_cant": "Convergence is a statement about infinitely many iterations and all start vectors.", "anchors": ["src/solver/solver_fixed_point.cpp: solve_system, forward_sweep"]}
{"id": "C113", "title": "Jacobi solves symmetric positive definite systems", "statement": "For symmetric positive definite systems the iterates of the Jacobi solver tend to the solution, as those of the other two iterative solvers do. (Violated: for three unknowns with 1 on the diagonal and 3/4 elsewhere they do not. They do if the matrix with the opposite signs off the diagonal is positive definite too.)", "quantifier": "all square matrices, right hand sides and start vectors", "why_tests_cant": "Convergence is a statement about infinitely many iterations and all start vectors.", "anchors": ["src/solver/solver_fixed_point.cpp: solve_system, forward_sweep"]}
{"id": "C114", "title": "Solves do not depend on the numbering of the unknowns", "statement": "Renumbering the unknowns and equations of a system, its start vector and its right hand side renumbers the solution that an iterative solver returns and changes neither the number of iterations nor the residuals. (Violated for Gauss Seidel and successive over relaxation, which use new values of unknowns with smaller numbers. It holds for Jacobi, and for all methods if the renumbering keeps the order of the unknowns that are coupled.)", "quantifier": "all systems of between one and 2^31 - 1 equations without a zero on the diagonal, all permutations, all settings of the solver", "why_tests_cant": "All permutations of all systems.", "anchors": ["src/solver/solver_fixed_point.cpp: solve_system", "include/solver/solver_utilities.hpp: compute_residual, update"]}
{"id": "C115", "title": "After greedy_multicolouring the unknowns of one colour are independent in Gauss Seidel", "statement": "For a matrix whose off diagonal elements are edges of a graph reordered with the permutation of greedy_multicolouring, one Gauss Seidel iteration treats the colours one after the other, and within a colour gives each unknown the value that one Jacobi iteration computes from the new values of the smaller colours and the old values of the others; the order of the unknowns within a colour does not matter. This holds for any arithmetic, also rounded.", "quantifier": "all graphs with an edge, all matrices on the reordered graph whose diagonal elements are stored, all vectors, all arithmetics", "why_tests_cant": "All graphs and matrices; the claim relates two modules of the library.", "anchors": ["src/graph/reorder.cpp: greedy_multicolouring", "include/graph/adjacency_graph.hpp: reorder", "src/solver/solver_fixed_point.cpp: forward_sweep"]}
{"id": "C116", "title": "Visiting a row reads its elements", "statement": "Going through a row of the new sparse matrix from begin to end reads each stored element of the row once, by increasing columns, and no other; there are as many as size_non_zero says; going backwards from end to begin reads them in reverse.", "quantifier": "all matrices reached by any sequence of operations, all their rows", "why_tests_cant": "All histories of a matrix and all of its rows.", "anchors": ["include/core/matrix_sparse_new.hpp: Matrix_Sparse_Row::begin, end, size_non_zero", "include/core/matrix_sparse_new.hpp: Base_Iterator_Matrix_Sparse_Element"]}
{"id": "C117", "title": "Assigning to the elements of a row changes only them", "statement": "Assigning to the values of a row of the new sparse matrix through its iterators changes the value of each stored element of the row as asked, and no other element, no column, no size and no other row.", "quantifier": "all matrices reached by any sequence of operations, all their rows, all new values", "why_tests_cant": "All histories of a matrix, all of its rows and all values assigned.", "anchors": ["include/core/matrix_sparse_new.hpp: Matrix_Sparse_Row::begin, end", "include/core/matrix_sparse_new.hpp: Matrix_Sparse_Element::value"]}
{"id": "C118", "title": "lower_bound is the first element that is not before a position", "statement": "lower_bound(row, column) returns row, column and value of the first stored element, by rows and columns, that is not before the position, or the ends if there is none. (Violated: the column and the value are those, but behind the last element of a row the row returned is the next one even if it has no element.)", "quantifier": "all matrices reached by any sequence of operations, all positions in and outside of them", "why_tests_cant": "All histories of a matrix and all positions; the wrong row needs an empty row behind the one asked for.", "anchors": ["include/core/matrix_sparse_data.hpp: lower_bound"]}
{"id": "C119", "title": "Elements are equal if their columns and values are", "statement": "Two elements of a sparse matrix compare as equal if and only if they are in the same column and have the same value, as documented. (Violated: they are equal if and only if they are the same element.)", "quantifier": "all matrices reached by any sequence of operations, all pairs of elements", "why_tests_cant": "All pairs of elements of all matrices.", "anchors": ["include/core/matrix_sparse_new.hpp: Matrix_Sparse_Element::operator=="]}
{"id": "C120", "title": "row_offset is the position of the first element of a row", "statement": "row_offset of a row is the position of its first element among all elements. (Violated: it is the position behind its last element, so it is wrong for each row that is not empty.)", "quantifier": "all matrices reached by any sequence of operations, all their rows", "why_tests_cant": "All histories of a matrix and all of its rows.", "anchors": ["include/core/matrix_sparse_new.hpp: Matrix_Sparse_Row::row_offset"]}
{"id": "C121", "title": "Pivoting keeps the residual of the direct solver small", "statement": "With pivoting and doubles the residual of each finite solution is at most n^3 4^(n+1) 2^-50 times the largest coefficient times (the largest unknown + 2^-960), for all tolerances, if 4^(n+1) times the largest coefficient does not overflow. (Violated: for tolerances below default_absolute, as the search for the pivot does not tell small elements apart. True for all others, the default among them: no multiplier exceeds 5/2 and elements grow by at most 4 in each step.)", "quantifier": "all matrices of doubles with up to 2^52 rows, right hand sides and tolerances, with every rounding error of the factorisation and of the solve", "why_tests_cant": "All matrices and all rounding errors; the violation needs a tolerance that is not the default.", "anchors": ["include/solver/direct_lower_upper_factorisation.hpp: factorise, solve_system"]}
{"id": "C122", "title": "A smaller tolerance accepts more matrices", "statement": "A matrix that factorise accepts with some tolerance is accepted with every smaller one, and the solutions are the same; with exact numbers and with doubles, also for matrices with infinities and NaN and matrices that are not square.", "quantifier": "all matrices, pairs of tolerances, start vectors and right hand sides", "why_tests_cant": "All matrices and all pairs of tolerances.", "anchors": ["include/solver/direct_lower_upper_factorisation.hpp: factorise, solve_system"]}
{"id": "C123", "title": "The order of the equations does not matter", "statement": "With pivoting, if a matrix is accepted then so it is with its rows in any other order, and the solution of the system with its equations in that order is the same. (Violated: of nearly equal elements the first one becomes the pivot, so that later pivots depend on the order and can be below the tolerance for one order only. If both orders are accepted the solutions are the same, with and without pivoting.)", "quantifier": "all square matrices and permutations of their rows, all right hand sides", "why_tests_cant": "All permutations of all systems; the violation needs nearly equal elements and a pivot at the tolerance.", "anchors": ["include/solver/direct_lower_upper_factorisation.hpp: factorise, solve_system"]}
{"id": "C124", "title": "Solutions of the direct solver are linear in the right hand side", "statement": "After an accepted factorisation the solution for a b + b' d is a times the one for b plus b' times the one for d, whatever the vectors for the solutions contained (exact numbers).", "quantifier": "all accepted matrices, pairs of right hand sides and factors", "why_tests_cant": "All matrices, right hand sides and factors.", "anchors": ["include/solver/direct_lower_upper_factorisation.hpp: solve_system"]}
{"id": "C125", "title": "Unit vectors of doubles have length one", "statement": "The unit vector of a vector of doubles that is not zero has length one up to (n + 10) 2^-51 in its square, for up to 2^40 elements. (Violated: the squares of the elements are summed as they are. The unit vector is zero whenever an element is at least 2^512 in size, or all are at most 2^-538. True if the sum of the squares is between 2^-970 and 2^1023; the elements then are those of the vector times one factor, up to rounding.) If an element is NaN, all elements of the unit vector are.", "quantifier": "all vectors of doubles, with every rounding error", "why_tests_cant": "All vectors and all rounding errors; overflow and underflow need extreme elements.", "anchors": ["include/core/vector_operators.hpp: unit, lp_norm"]}
{"id": "C126", "title": "The mean of doubles lies between the smallest and the largest", "statement": "The mean of the elements of a vector of doubles is at least the smallest and at most the largest of them. (Violated: the mean of three numbers 0.1 is larger than 0.1, and the mean of two large numbers is infinite. True for one element and for two elements below 2^1023 in size. In general the error is at most (n + 1) 2^-52 times the mean of the absolute values, plus 2^-1070.)", "quantifier": "all vectors of doubles, with every rounding error", "why_tests_cant": "All vectors and all rounding errors; sums that are rounded up and overflow.", "anchors": ["include/core/vector_operators.hpp: mean"]}
{"id": "C127", "title": "Norms of vectors of doubles are accurate", "statement": "The norms of a vector of n <= 2^40 doubles have relative errors of at most (n + 5) 2^-52 (for the Euclidean norm: its square), and the largest norm is exact. (Violated: the Euclidean norm of vectors that are not zero can be zero, and of finite vectors infinite. The largest norm is always exact; the sum of the absolute values has the small error, and is at least each of them, if it is at most 2^1023; the Euclidean norm has the small error if the sum of squares is between 2^-970 and 2^1023.)", "quantifier": "all vectors of doubles, with every rounding error", "why_tests_cant": "All vectors and all rounding errors; overflow and underflow.", "anchors": ["include/core/vector_operators.hpp: lp_norm"]}
{"id": "C128", "title": "Angles of vectors of doubles are accurate", "statement": "The angle between two vectors of doubles that are not zero is the arc cosine of a number in [-1, 1] that differs from the cosine by at most 2^-45, in radians or divided by the degree. (Violated: large vectors are orthogonal to themselves, since their unit vectors are zero. True if the sums of squares of both vectors are between 2^-970 and 2^1023.)", "quantifier": "all pairs of vectors of doubles with two or three elements, every function for the arc cosine, with every rounding error", "why_tests_cant": "All vectors and all rounding errors; the cosine could leave the interval by rounding.", "anchors": ["include/core/vector_operators.hpp: angle, unit, clamp"]}
{"id": "C129", "title": "Sparse and dense matrices of doubles give the same results", "statement": "For finite elements the sparse product with a vector, the sparse product of matrices and (for doubles) sums and differences give exactly the numbers that the dense operators give for the same matrices, with all their rounding errors and overflows; each element of a dense product is the inner product of a row and a column, whatever the scalars.", "quantifier": "all sparse matrices that programs can build, and the dense matrices they represent, with doubles", "why_tests_cant": "All matrices, and equality of all rounding errors.", "anchors": ["src/core/matrix_sparse.cpp: operator*=, operator+=, operator-=", "include/core/matrix_sparse.hpp: operator*", "include/core/matrix_dense.hpp: operator*, operator+, operator-", "include/core/vector_operators.hpp: dot_product"]}
{"id": "C130", "title": "Laws of sparse sums and products", "statement": "Sparse addition is associative and commutative (commutative also with doubles), multiplication is associative and distributes over addition from both sides, and (A B) x = A (B x). In each law both sides have the same sizes, the same number of stored elements, and the same stored elements, not only the same values.", "quantifier": "all sparse matrices that programs can build, of matching sizes, over all commutative rings", "why_tests_cant": "All matrices and all their patterns of stored elements.", "anchors": ["src/core/matrix_sparse.cpp: operator*=, operator+=", "include/core/matrix_sparse.hpp: operator+, operator*"]}
{"id": "C131", "title": "Signs of vectors of doubles", "statement": "Changing the sign of a vector changes the sign of its inner products, its mean, its unit vector, its projections and the products of matrices with it, and leaves its norms unchanged; inner products and angles do not depend on the order of the vectors; differences and cross products change sign with the order; the cross product of a vector with itself is zero unless a product overflows. All this holds exactly: for every rounding error, and with elements that are infinite or NaN. Zeros of both signs count as equal.", "quantifier": "all vectors of doubles, of all template sizes, with infinite elements and NaN; every function for the square root and the arc cosine", "why_tests_cant": "All vectors and all rounding errors.", "anchors": ["include/core/vector_operators.hpp: lp_norm, mean, dot_product, unit, angle, cross_product, projection_tangent, projection_orthogonal", "include/core/vector_dense.hpp: operator-", "include/core/matrix_sparse.hpp: operator*", "include/core/matrix_dense.hpp: operator*"]}
{"id": "C132", "title": "Solvers do not depend on the sign of the right hand side", "statement": "A solver that is given a right hand side, starting values and a working vector with all signs changed takes exactly the same number of iterations, reports exactly the same residuals and returns exactly the solution with all signs changed (or exits, or behaves undefined, in the same way). The direct solvers too.", "quantifier": "all fixed point solvers and both direct solvers in every state, all matrices and vectors of doubles, with infinite elements and NaN, every number of iterations", "why_tests_cant": "All matrices, numbers of iterations and rounding errors.", "anchors": ["src/solver/solver_fixed_point.cpp: solve_system, forward_sweep", "include/solver/solver_utilities.hpp: compute_residual, update, is_converged", "include/solver/direct_lower_upper_factorisation.hpp: solve_system"]}
{"id": "C133", "title": "Projections of vectors of doubles", "statement": "For a vector v of doubles of size at most 2^1000 and a vector w whose squared length is one up to (n + 10) 2^-51, as the library's unit vectors have, projection_tangent returns a multiple of w up to one rounding error per element, by the inner product up to (n + 1) 2^-52 of the sum of the absolute products; it and projection_orthogonal add up to v up to one rounding error per element; and the inner product of projection_orthogonal with w is at most (n + 10) 2^-50 of the sum of the absolute products, plus 2^-1050. Neither exits nor overflows.", "quantifier": "all vectors of up to 2^20 doubles, of all template sizes, with every rounding error, overflow and underflow", "why_tests_cant": "All vectors and all rounding errors.", "anchors": ["include/core/vector_operators.hpp: projection_tangent, projection_orthogonal, unit"]}
{"id": "C134", "title": "Products of matrices of doubles", "statement": "Every element of the product of two matrices of doubles, and of the product of a square matrix and a vector, differs from the exact one by at most (n + 1) 2^-52 of the sum of the absolute products, plus n 2^-1072, and neither exits nor overflows while these sums are at most 2^1021. With elements of at most 2^300, (A B) x and A (B x) differ in component i by at most 5 (n + 1) 2^-52 of the sum over k and j of |A_ik| |B_kj| |x_j|, plus n 2^-1071 (1 + sum |A_ik| + sum |x_j|).", "quantifier": "all matrices and vectors of doubles with inner dimension up to 2^20, of all template sizes, with every rounding error, overflow and underflow", "why_tests_cant": "All matrices and all rounding errors.", "anchors": ["include/core/matrix_dense.hpp: operator*", "include/core/vector_operators.hpp: dot_product"]}
{"id": "C135", "title": "Cross products of doubles", "statement": "For two vectors of three doubles whose products are at most 2^1000, cross_product does not exit or overflow; each component differs from the exact one by at most 3 * 2^-53 of the sum of the two absolute products in it, plus 2^-1073; and the exact inner product of the result with either argument, which should be zero, is at most 6 * 2^-53 of the sum of the three absolute triple products that cancel, plus 2^-1073 of the sum of the absolute elements of that argument.", "quantifier": "all vectors of three doubles, of all template sizes, with every rounding error, overflow and underflow", "why_tests_cant": "All vectors and all rounding errors; tests compare a few products of small integers.", "anchors": ["include/core/vector_operators.hpp: cross_product"]}
{"id": "C136", "title": "Signs of zeros do not matter", "statement": "With doubles whose zeros have signs, as in IEEE 754, changing the signs of zeros in the arguments changes no result but for signs of zeros: not those of sums, differences, multiples and products of vectors, dense matrices and sparse matrices, of cross products, norms, means, unit vectors, angles and projections, not the factorisation and solution with the direct solver with a positive tolerance, and not the iterations, residuals and solution of a fixed point solver, provided that no stored diagonal element is -0.0. With a tolerance of zero, or with a zero on the diagonal of the sparse matrix, the sign of a zero decides the sign of an infinite solution.", "quantifier": "all vectors, matrices, systems and starting values of doubles with signed zeros, infinities and NaN, of all sizes and template sizes, with every rounding error, for any square root and arc cosine", "why_tests_cant": "All arguments with all combinations of signs of zeros.", "anchors": ["include/core/vector_operators.hpp", "include/core/vector_dense.hpp", "include/core/matrix_dense.hpp", "src/core/matrix_sparse.cpp", "include/solver/direct_lower_upper_factorisation.hpp: factorise, solve_system", "src/solver/solver_fixed_point.cpp: solve_system"]}
{"id": "C137", "title": "Printed graphs can be read back", "statement": "Writing a graph to a stream appends one line for each vertex, with its neighbours separated by a comma and a blank or a full stop if there are none, and does nothing else: it never exits and never reads out of bounds. The text determines the number of vertices and the neighbours of each vertex. Writing a subgraph that was created, given levels and reordered appends these lines and then a line 'index -> index in the parent (level)' for each vertex; the text determines its graph, the mapping to the parent and the levels.", "quantifier": "all graphs, directed and undirected, reachable by any history of calls; all pairs of such graphs; all subgraphs of all parents, for all partitions and level counts, and all pairs of these", "why_tests_cant": "The separators are placed by comparing neighbours with the last one, so that the text is only right if no neighbour is repeated; that no two graphs share a text is a statement about all pairs of graphs.", "anchors": ["include/graph/adjacency_graph.hpp: operator<<", "src/graph/adjacency_subgraph.cpp: operator<<"]}
{"id": "C138", "title": "Printed sparse matrices can be read back", "statement": "If elements are written so that their texts determine them and contain no blanks and ends of lines, the text that writing a sparse matrix to a stream appends determines the matrix. (Violated: the number of columns is not written, so that matrices that differ in nothing else are written alike; everything else is determined.)", "quantifier": "all pairs of sparse matrices and all ways to write elements", "why_tests_cant": "A statement about all pairs of matrices.", "anchors": ["include/core/matrix_sparse.hpp: operator<<"]}
{"id": "C139", "title": "Constants and solution in one vector", "statement": "A fixed point solver that is called with the same vector as constants and as solution leaves the solution that it leaves if the constants are a copy. (Violated: the constants are overwritten as the solution is. The first iteration is right, for all matrices and all arithmetic; after it the iterations look for a vector that the matrix leaves unchanged, whatever the constants were. If each diagonal element exceeds one plus the sum of the other elements of its row, or three times that for SOR, the solution left tends to zero as the number of iterations asked for grows.)", "quantifier": "all square systems without zeros on the diagonal, all three methods, all limits; for the first iteration all matrices, vectors and arithmetics", "why_tests_cant": "The tests use two vectors. That the iterations converge to zero is a statement about all numbers of iterations.", "anchors": ["src/solver/solver_fixed_point.cpp: solve_system, forward_sweep", "include/solver/solver.hpp: solve"]}
{"id": "C140", "title": "Convergence data that are returned by reference", "statement": "The reference that solve of a direct solver class or of a fixed point solver class returns refers to the convergence data of the solve. (Violated by every solve: the reference refers to a temporary that no longer exists, and reading it is undefined. The solution vector is right, and solve of the class of all solvers returns the data by value.)", "quantifier": "all solvers, systems and vectors for which the solve returns, and any further objects made before the reference is read", "why_tests_cant": "Reading an object after its lifetime often gives the expected value in a test.", "anchors": ["include/solver/direct.hpp: Direct::solve", "include/solver/solver_iterative.hpp: Solver_Iterative::solve", "include/solver/solver.hpp: solve"]}
{"id": "C141", "title": "Index arguments that refer to the matrix itself", "statement": "Calling insert or resize of a sparse matrix with the reference that i_column() of one of its iterators returns has the same effect as calling it with a copy of that column, as long as no vector has to be moved. (Violated: resize(r, iter.i_column()) is undefined or leaves an element in a column that no longer exists, for every element in a column other than zero. resize(iter.i_column(), c) reads a removed element if the row of the element is removed. insert(iter.i_column(), j, v) inserts the right element but can return an iterator with the wrong row.)", "quantifier": "all matrices that programs can build, all stored elements, all other arguments below the largest index", "why_tests_cant": "The effect depends on the storage order of all other elements; a test sees one matrix, and often one where the reference happens to keep its value.", "anchors": ["include/core/matrix_sparse.hpp: Iterator_Matrix_Sparse_Element::i_column", "src/core/matrix_sparse.cpp: Matrix_Sparse::insert", "src/core/matrix_sparse.cpp: Matrix_Sparse::resize"]}
{"id": "C142", "title": "Reserved storage of graphs", "statement": "capacity() of a graph is never below its numbers of vertices and edges. reserve(v, e) either ends the program or leaves the graph as it is with a capacity of at least v vertices and e edges, and takes no capacity away. Insertions after it do not allocate while there are at most v vertices and e edges; erase_if, clear and, if there are vertices, a resize to at most their number keep the capacity. (Violated: reserve(v, e) returns without reserving when v is the largest index, or when the graph is undirected and e is at least half of the largest index, as the sizes that it asks for wrap around.)", "quantifier": "all graphs that programs can build with any history of calls, including reserve and shrink_to_fit, all sizes, all ways an implementation of std::vector may grow", "why_tests_cant": "How much a vector grows differs between implementations and the claim is about every later sequence of insertions; a test sees one implementation and a few sequences.", "anchors": ["include/graph/adjacency_graph.hpp: Adjacency_Graph::reserve", "include/graph/adjacency_graph.hpp: Adjacency_Graph::capacity", "include/graph/adjacency_graph.hpp: Adjacency_Graph::shrink_to_fit"]}
{"id": "C143", "title": "Subgraphs that are resized", "statement": "resize(n) of a subgraph keeps the edges between the first n vertices and their global index, level and locality; new vertices are isolated. If n is above the number of vertices the subgraph loses its parent, as documented, otherwise it keeps it. clear leaves no vertices and no parent; swap exchanges two subgraphs. (Violated: a parent whose hash is zero is still recognised after growing, whatever std::hash is; this is every parent with as many edges as vertices and equal degrees of the first and last vertex, for instance every cycle. update_levels then accepts it, although all new vertices claim to be the parent's vertex zero.)", "quantifier": "all parents, all increasing partitions, all histories of update_levels, reorder, resize and clear, all sizes below the largest index, all hash functions", "why_tests_cant": "The parent is recognised by an exclusive or of hashes, which cancel for particular shapes only; a test with another parent passes.", "anchors": ["include/graph/adjacency_subgraph.hpp: Adjacency_Subgraph::resize", "include/graph/adjacency_subgraph.hpp: Adjacency_Subgraph::clear", "include/graph/adjacency_subgraph.hpp: Adjacency_Subgraph::swap", "include/graph/adjacency_subgraph.hpp: Adjacency_Subgraph::is_parent"]}
{"id": "C144", "title": "Pointers to the data of graphs and subgraphs", "statement": "data() of a graph returns null pointers if there are no vertices. Otherwise the second pointer is to the offsets of the vertices, from zero on, and graph[i] is the part of the first between the offsets i and i + 1; the first is null exactly if there are no edges. data() of a subgraph adds a pointer to the global indices and one to the levels; without levels the last is null and all levels are zero. If there are no edges only the pointer to the offsets is not null, as documented. (Violated: the pointer to the global indices is not null for any subgraph with vertices.)", "quantifier": "all graphs that programs can build, all subgraphs of them", "why_tests_cant": "Offsets and neighbours must fit together for every graph; a test compares single entries.", "anchors": ["include/graph/adjacency_graph.hpp: Adjacency_Graph::data", "include/graph/adjacency_subgraph.hpp: Adjacency_Subgraph::data"]}
{"id": "C145", "title": "Going through a sparse matrix visits its elements", "statement": "Going through the rows of a sparse matrix from begin to end, and through each row from begin to end, visits each stored element once, by rows and in a row by columns, and nothing else; the row index, column index and value that the iterators give are those of the element. Going backwards visits them in reverse. The difference of end and begin of a row is the number of its elements, and find returns the position at which the element is visited.", "quantifier": "all matrices after any history of calls", "why_tests_cant": "All histories and sizes; a test walks over a few matrices.", "anchors": ["include/core/matrix_sparse.hpp: Iterator_Matrix_Sparse_Row", "include/core/matrix_sparse.hpp: Iterator_Matrix_Sparse_Element", "src/core/matrix_sparse.cpp: begin, end"]}
{"id": "C146", "title": "Assigning through the iterators of a sparse matrix", "statement": "Assigning f(row, column, value) to each element while going through a sparse matrix, or through one row, changes the value of each visited element as asked, once, and no other element and no size. With f multiplying by a the result is that of *= a, with f dividing by a that of /= a.", "quantifier": "all matrices after any history of calls, all functions f", "why_tests_cant": "All histories, sizes and functions.", "anchors": ["include/core/matrix_sparse.hpp: Iterator_Matrix_Sparse_Element::operator*", "include/core/matrix_sparse.hpp: Matrix_Sparse::operator*=", "include/core/matrix_sparse.hpp: Matrix_Sparse::operator/="]}
{"id": "C147", "title": "More parts refine fewer parts", "statement": "For a non-empty graph of at most 2^53 vertices and fewer parts than vertices, recursive_graph_bisection for k+1 parts gives the parts for k parts, in the same places, except that the first of the largest parts is replaced by its inner half and its outer half is added at the end.  The halves are the vertices of that part up to, and beyond, half the highest level of the level traversal of the part from its pseudo peripheral vertex.  Hence every part for m >= k parts lies in a part for k parts, and the largest part does not grow with the number of parts.", "quantifier": "all undirected graphs made by valid histories of up to 2^53 vertices; all k <= m <= number of vertices; all hashes", "why_tests_cant": "relates the results for different numbers of parts, of graphs of any size", "anchors": ["src/graph/partition.cpp: recursive_graph_bisection"]}
{"id": "C148", "title": "Sparse matrices do not depend on the order of their assembly", "statement": "Calls of insert, insert_or_assign, matrix[i][j] = v and matrix[i][j] += v with indices that can be stored, where matrix[i] is only used for rows of the matrix, all succeed.  The matrix grows to the least size that holds all rows and columns named, and each element is what the calls that name it make of it in their order, independently of all other calls.  A matrix with rows is determined by its sizes and elements, including its storage.  So two sequences of calls with the same calls for each element in the same order give the identical matrix, for any scalars, doubles among them; calls for different elements may be made in any order; and contributions added to the same elements may be added in any order if the sum of the scalars does not depend on it.", "quantifier": "all matrices made by valid histories without a resize to zero columns, all lists of calls", "why_tests_cant": "relates all orders of arbitrarily long sequences of calls", "anchors": ["src/core/matrix_sparse.cpp: Matrix_Sparse::insert", "src/core/matrix_sparse.cpp: Matrix_Sparse::insert_or_assign", "include/core/matrix_sparse.hpp: Matrix_Sparse_Row::operator[]"]}
{"id": "C149", "title": "Changes of a graph compose", "statement": "With the write past the end of the offsets (C07) dropped: resize to n and then to m gives the same graph as resize to m, unless the first removes vertices and the second adds some; resize of a graph with vertices to its present size changes nothing, so vertices that were added to it can be removed again; vertices can be added before or after an edge between vertices of the final graph, with the same return value of insert.  Where erase_if is defined (C05): erasing twice is erasing once with both predicates, the second asked about the new numbers; erasing all vertices from n on is resize to n; erasing none changes nothing; and erasing after a reorder is erasing the same vertices before it and reordering the rest in the order given by the permutation.", "quantifier": "all graphs made by valid histories, directed and undirected, all sizes below the largest index, all predicates and permutations", "why_tests_cant": "equations between different histories of graphs of any size, for any predicate", "anchors": ["include/graph/adjacency_graph.hpp: Adjacency_Graph::resize", "include/graph/adjacency_graph.hpp: Adjacency_Graph::erase_if", "include/graph/adjacency_graph.hpp: Adjacency_Graph::reorder"]}
{"id": "C150", "title": "Passes of the level set expansion", "statement": "Suppose the distances that multinode_level_set_expansion computes first (C16, C26) were a table of any finite values, one for each pair of vertices; the values themselves do not matter here.  Then on a connected graph, for two or more disjoint parts with vertices, every number of iterations is defined.  An iteration takes of each part the lowest vertex whose largest value to the others is least, and makes new parts, as many as before, that hold each vertex of the graph once, in increasing order, and each with a closest one of these seeds and with all vertices of a shortest path from it.  Stopping early when the seeds repeat is not visible in the result: it is what the full number of iterations gives, and once an iteration changes nothing no later one does.  If a vertex of the graph cannot be reached from the parts the first iteration is undefined; if a part has no vertices, or each of its vertices is infinitely far from another one, it exits.", "quantifier": "all connected undirected graphs, tables, part lists, numbers of iterations and hashes", "why_tests_cant": "needs the effect of a loop with a data dependent exit on graphs of any size", "anchors": ["src/graph/partition.cpp: multinode_level_set_expansion"]}
{"id": "C151", "title": "Reserved storage of sparse matrices", "statement": "Whatever was called before, capacity of a sparse matrix is at least what is stored: one offset more than there are rows, if there are rows, and the elements.  reserve(row, non_zero) ends the program or gives a capacity of at least row + 1 offsets and non_zero elements, without changing the matrix or taking capacity away.  After it, calls of insert, insert_or_assign and matrix[i][j] = v do not change the capacity, so do not move the storage, while there are at most row rows and non_zero elements.  erase, clear and, if there are rows, resize to at most their number keep the capacity, and only shrink_to_fit takes some away.", "quantifier": "all matrices built by a constructor and any history of calls, all sizes, all ways in which std::vector may allocate", "why_tests_cant": "needs all histories and all allocation policies; a test sees one library", "anchors": ["include/core/matrix_sparse.hpp: Matrix_Sparse::reserve", "include/core/matrix_sparse.hpp: Matrix_Sparse::capacity", "include/core/matrix_sparse.hpp: Matrix_Sparse::shrink_to_fit", "include/core/matrix_sparse.hpp: Matrix_Sparse::clear", "src/core/matrix_sparse.cpp: Matrix_Sparse::insert", "src/core/matrix_sparse.cpp: Matrix_Sparse::erase", "src/core/matrix_sparse.cpp: Matrix_Sparse::resize"]}
{"id": "C152", "title": "References to two elements of a sparse matrix", "statement": "If the storage has room for two more elements, two references matrix[i][j] and matrix[k][l] taken one after the other, as for std::swap(matrix[i][j], matrix[k][l]), are to the elements of these positions, which have the values from before, or zero if they were absent.", "quantifier": "all matrices built by a constructor and any history of calls, all pairs of positions in existing rows", "why_tests_cant": "depends on the order of the two positions, on which of them are stored and on the capacity", "anchors": ["include/core/matrix_sparse.hpp: Matrix_Sparse_Row::operator[]", "src/core/matrix_sparse.cpp: Matrix_Sparse::operator[]", "src/core/matrix_sparse.cpp: Matrix_Sparse::insert"]}
{"id": "C153", "title": "A sparse matrix without rows is empty and has no columns and elements", "statement": "For every sparse matrix obtained by any history of constructors and modifying calls: `empty()` is true exactly when `size_row()` is 0, a matrix without rows stores no element, and, as the documentation of `size()` says, its number of columns is 0 too. `clear` always leaves 0 rows, 0 columns, 0 elements; the constructor and `resize` leave exactly the sizes asked for.", "quantifier": "all histories of calls on sparse matrices over any value type; all requested sizes", "why_tests_cant": "The emptiness test looks at the length of the offsets, the column count is stored separately, and every modifying call must keep both consistent.", "anchors": ["include/core/matrix_sparse.hpp: Matrix_Sparse::empty", "include/core/matrix_sparse.hpp: Matrix_Sparse::size", "include/core/matrix_sparse.hpp: Matrix_Sparse::clear", "src/core/matrix_sparse.cpp: Matrix_Sparse::resize"]}
{"id": "C154", "title": "Triangular systems are solved in finitely many iterations", "statement": "For every system whose matrix has a nonzero diagonal and whose rows can be given levels so that each row refers only to itself and to rows of lower levels (lower or upper triangular matrices, also after any renumbering): it has exactly one solution; Jacobi and Gauss Seidel solves return exactly this solution, from every initial guess, if the minimum number of iterations is at least the number of levels, and with a tolerance that is not negative they never need more iterations than that; Gauss Seidel on a lower triangular system always returns the exact solution, after max(1, minimum) iterations and with zero residuals; SOR iterates tend to the solution as well.", "quantifier": "all sizes (1 to 2^31 - 1 for solves), levelled matrices, right hand sides, initial guesses and solver limits, in exact arithmetic", "why_tests_cant": "It is a statement on the solution for all matrices of a class and all initial guesses; it depends on the order in which the sweep visits the rows and on which vector it reads.", "anchors": ["src/solver/solver_fixed_point.cpp: forward_sweep", "src/solver/solver_fixed_point.cpp: backward_sweep", "src/solver/solver_fixed_point.cpp: Solver_Fixed_Point::solve_system", "include/solver/solver_utilities.hpp: Convergence_Criteria::is_converged"]}
{"id": "C155", "title": "Row objects of one sparse matrix stay usable beside each other", "statement": "For the row based sparse matrix (CSR data with row objects): whatever is assigned to an element through one row object, every other row object of the same matrix that was made before reads afterwards exactly what the matrix stores in its row.", "quantifier": "all reachable matrices, all pairs of rows, all positions, values and states of the storage", "why_tests_cant": "Whether it goes wrong depends on the order of the rows, on whether the element was stored already and on the capacity the vectors happen to have; a test sees one combination.", "anchors": ["include/core/matrix_sparse_new.hpp: Matrix_Sparse_Row::SparseAccessor::operator=", "include/core/matrix_sparse_new.hpp: Matrix_Sparse_Row::at", "include/core/matrix_sparse_data.hpp: insert_or_assign"]}
{"id": "C156", "title": "Index types do not matter", "statement": "Calls of insert, insert_or_assign and resize on CSR data have the same effect whatever integer types the stored indices and the arguments have: as long as every argument fits its own type and the stored indices fit theirs, the offsets, columns, values, sizes and flags after any history of calls are those that std::size_t gives throughout.", "quantifier": "all histories of insert, insert_or_assign and resize, all integer types of the stored indices, all types of the arguments of each call, all values", "why_tests_cant": "The calls are templates over two integer types, and conversions between them go wrong only beyond two thousand million rows, columns or elements, which no test allocates.", "anchors": ["include/core/matrix_sparse_data.hpp: insert", "include/core/matrix_sparse_data.hpp: insert_or_assign", "include/core/matrix_sparse_data.hpp: resize", "include/core/matrix_sparse_data.hpp: lower_bound", "include/core/matrix_sparse_data.hpp: size_row"]}
{"id": "C157", "title": "The loop macros visit the indexes between their bounds", "statement": "FOR(index, start, end) executes its body for start and then for each further integer towards end, upwards if start is below end and downwards otherwise, and stops before end, whatever integer types the two bounds have. FOR(index, max) executes it for 0, 1, ..., max - 1.", "quantifier": "all pairs of integer types of 32 and 64 bits, all values of the bounds; all types and values of the single bound", "why_tests_cant": "The macro takes the type of the index from start and compares with the usual conversions; which combinations of types and signs go wrong cannot be enumerated, and the wrong ones run for ages or are undefined.", "anchors": ["include/core/macros.hpp: FOR_INDEX", "include/core/macros.hpp: FOR_INDEX_RANGE", "include/core/macros.hpp: FOR"]}
{"id": "C158", "title": "Changing the levels of a subgraph keeps its numbering", "statement": "When update_levels adds levels, every vertex already in the subgraph keeps its local index, its level, its is_local flag and its edges, and the new vertices follow in ascending order of their index in the parent. When it removes levels, the vertices that stay keep their order. Adding levels and going back to the former number gives the former subgraph: the same graph, the same local_global, vertex_level and is_local for every index.", "quantifier": "all parent graphs, all partitions, all subgraphs made by the constructor and any sequence of update_levels and reorder, all former and new numbers of levels below 2^64 - 1, whenever the calls return", "why_tests_cant": "The levels are added and removed by separate code that erases vertices from three containers at once; that they agree after any history of growing, shrinking and reordering is a statement about all graphs.", "anchors": ["src/graph/adjacency_subgraph.cpp: Adjacency_Subgraph::update_levels", "src/graph/adjacency_subgraph.cpp: Adjacency_Subgraph::add_levels", "src/graph/adjacency_subgraph.cpp: Adjacency_Subgraph::remove_levels"]}
{"id": "C159", "title": "Vectors and matrices of integers", "statement": "With elements of an integer type, +=, -=, +, -, the products with and the quotients by a scalar, and the products of matrices give the integers that exact arithmetic gives, whenever those are values of the type; quotients drop the fraction. Results of an unsigned type that are not values of it are reduced modulo a power of two. No operation is undefined unless its result is not a value of the type.", "quantifier": "all signed and unsigned integer types of at least 32 bits, vectors and matrices of all sizes, fixed or not, and all values", "why_tests_cant": "The largest values of the type are not what tests use, and the sums inside of a product can leave the type although its result does not; which products do is a statement about all matrices.", "anchors": ["include/core/vector_dense.hpp: operator+=, operator-=, operator*=, operator/=", "include/core/matrix_dense.hpp: operator*=", "include/core/matrix_dense.hpp: operator*"]}
{"id": "C160", "title": "Dot products, means and norms of integer vectors", "statement": "dot_product, mean and lp_norm of vectors of integers return a Scalar: the exact value (for the mean and the Euclidean norm rounded once) whenever all integers involved, that is the products, absolute values and their sums, are below 2^53 in magnitude and so are numbers of double. The product of a matrix and a vector of integers is exact under the same condition, if its elements are values of the type. Operands of different sizes exit the program.", "quantifier": "all signed and unsigned integer types and vectors of all sizes and values within these bounds", "why_tests_cant": "The result has the type double although the terms are formed in the type of the elements; whether those leave the type depends on values near its end, in every position.", "anchors": ["include/core/vector_operators.hpp: dot_product", "include/core/vector_operators.hpp: mean", "include/core/vector_operators.hpp: lp_norm", "include/core/matrix_dense.hpp: operator*"]}
{"id": "C161", "title": "Unit vectors and angles of integer vectors", "statement": "unit of a vector of integers returns the vector of length one in the same direction whenever its elements are integers, and zero for zero vectors. angle returns the integer part of the included angle.", "quantifier": "all signed integer types of 32 to 64 bits, vectors of all sizes for unit and of size two and three for angle, all values", "why_tests_cant": "The compiler converts a factor between zero and one to an integer without a word; that the result is wrong for all but a handful of vectors is a statement about all of them.", "anchors": ["include/core/vector_operators.hpp: unit", "include/core/vector_operators.hpp: angle"]}
{"id": "C162", "title": "Erasing vertices by a property they have in the graph", "statement": "erase_if called with a predicate which looks at the graph itself, such as a degree below k, deletes exactly the vertices for which the predicate held when erase_if was called, and leaves the graph between the others.", "quantifier": "all graphs reachable by histories of calls, directed or not, and all k; predicates which read the row of the vertex for the positive part", "why_tests_cant": "The predicate is called several times for each vertex, at moments when part of the offsets have been reduced; which answers change depends on what was deleted before, so samples with one isolated vertex pass.", "anchors": ["include/graph/adjacency_graph.hpp: erase_if", "include/graph/adjacency_graph.hpp: degree"]}
{"id": "C163", "title": "Resizing a graph to one of its own entries", "statement": "graph.resize(graph[i][k]) does what graph.resize does with the value of that entry.", "quantifier": "all graphs reachable by histories of calls and all their entries", "why_tests_cant": "The parameter is a reference into the list which the function shortens; the outcome depends on the place of the entry and on the rows before and after it.", "anchors": ["include/graph/adjacency_graph.hpp: resize", "include/graph/adjacency_graph.hpp: operator[]"]}
{"id": "C164", "title": "Reordering a renumbered line gives the line back", "statement": "Take a line of n vertices made by create_graph_line and renumber it with any permutation. cuthill_mckee and cuthill_mckee_reverse with the default root, and these two and breadth_first from either end of the line, return a permutation which reorders the renumbered graph into exactly the graph that create_graph_line makes.", "quantifier": "all n of at least two, all permutations, all ways in which std::sort may order equal degrees", "why_tests_cant": "There are n! numberings of each line; a wrong choice of the root or of the order within a level shows only for some of them.", "anchors": ["src/graph/reorder.cpp: cuthill_mckee", "src/graph/reorder.cpp: breadth_first", "include/graph/reorder.hpp: cuthill_mckee_reverse", "include/graph/generator.hpp: create_graph_line"]}
{"id": "C165", "title": "Recursive bisection cuts a line into balanced runs", "statement": "recursive_graph_bisection of the line of n vertices into k parts gives k runs of consecutive vertices, together all n of them, of which the largest has at most twice as many vertices as the smallest plus one. If n is m times a power of two and k is that power, all parts have exactly m vertices.", "quantifier": "all n from two to 2^53, all k from one to n, all hash functions", "why_tests_cant": "Balance is a statement about every pair of parts after any number of bisections; samples fix n and k.", "anchors": ["src/graph/partition.cpp: recursive_graph_bisection", "include/graph/generator.hpp: create_graph_line"]}
{"id": "C166", "title": "cuthill_mckee of a grid in any numbering finds the bandwidth of the grid", "statement": "Take a grid of n columns and n rows made by create_graph_structured and renumber it with any permutation. After reordering by the result of cuthill_mckee or cuthill_mckee_reverse, with the default root or from any corner, the indices of neighbours differ by at most n, as they do in the grid that create_graph_structured makes.", "quantifier": "all n of at least two whose grid can be indexed, all permutations, all ways in which std::sort may order equal degrees", "why_tests_cant": "There are (n^2)! numberings, and the bound needs the order within each level, which depends on the degrees and on the order of all levels before.", "anchors": ["src/graph/reorder.cpp: cuthill_mckee", "include/graph/reorder.hpp: cuthill_mckee_reverse", "include/graph/generator.hpp: create_graph_structured"]}
{"id": "C167", "title": "The matrix assembled from a graph can be solved by every solver", "statement": "For an undirected graph, insert c plus the degree of each vertex on the diagonal of a sparse matrix and -1 for each neighbour. The calls return, and the matrix stores exactly the diagonal and the edges. If c is positive, the three iterative methods tend to the one solution of each system from any start, the direct solver accepts the matrix if its tolerance is small enough against c and gives the same solution, and c times the solution lies between the smallest and the largest element of the right hand side. If c is zero, a vector has product zero exactly if its values agree on both sides of every edge, and the direct solver reports the matrix of a graph with vertices as singular.", "quantifier": "all undirected graphs made through the interface, all c, right hand sides and starts; exact arithmetic", "why_tests_cant": "Tests solve a few fixed systems; that no graph breaks any of the solvers needs a proof over all graphs.", "anchors": ["src/core/matrix_sparse.cpp: insert", "include/graph/adjacency_graph.hpp: operator[]", "src/solver/solver_fixed_point.cpp: solve_system", "include/solver/direct_lower_upper_factorisation.hpp: factorise"]}
{"id": "C168", "title": "Jacobi and Gauss Seidel rise or fall to the solution of systems with nonpositive elements off the diagonal", "statement": "Let the diagonal of the matrix be positive and no other element be positive. Jacobi and Gauss Seidel iterates then grow with the right hand side and with the start. From a start whose product with the matrix is nowhere larger than the right hand side they rise with every iteration, keep that, and never pass a vector above the start whose product is nowhere smaller; the same holds downwards. From such a start Gauss Seidel is never behind Jacobi. If the matrix is also strictly diagonally dominant, iterates that rise and iterates that fall enclose the solution.", "quantifier": "all such square matrices, right hand sides, starts and numbers of iterations; exact arithmetic", "why_tests_cant": "A test sees a few iterates of a few systems. The order of the two methods and the enclosure are claims about every unknown in every iteration.", "anchors": ["src/solver/solver_fixed_point.cpp: solve_system", "src/solver/solver_fixed_point.cpp: forward_sweep"]}
{"id": "C169", "title": "A source spreads by one level per Jacobi iteration", "statement": "Take the matrix of an undirected graph with positive c and a right hand side that is positive at one vertex and zero elsewhere, and start from zero. After j Jacobi iterations the solution is positive exactly at the vertices that level_traversal from that vertex gives a level below j, and zero at all others. After j Gauss Seidel iterations it is positive at least there, and zero at the vertices that level_traversal does not reach. The solution itself is positive exactly at the vertices that are reached and zero at the others.", "quantifier": "all undirected graphs with two or more vertices, all vertices, positive c and numbers of iterations; exact arithmetic", "why_tests_cant": "It relates every iterate of a solver to a graph search on any graph.", "anchors": ["src/solver/solver_fixed_point.cpp: solve_system", "include/graph/graph_utilities.hpp: level_traversal"]}
{"id": "C170", "title": "With doubles Jacobi and Gauss Seidel keep their order and settle", "statement": "Let the diagonal of a matrix of doubles be positive and no other element be positive. As long as nothing overflows, Jacobi and Gauss Seidel iterates computed with doubles grow with the right hand side and with the start, despite rounding. If one iteration raises a vector x nowhere below itself, one iteration raises a vector z nowhere above itself, and x is nowhere above z, then the iterates from every vector between them never overflow and stay between the iterates from x and those from z. The iterates from x rise, those from z fall, and both become constant after finitely many iterations.", "quantifier": "all such square matrices of doubles of any size, right hand sides, starts and numbers of iterations; IEEE 754 double arithmetic", "why_tests_cant": "Rounding could break the order or let iterates cycle for ever; a test sees finitely many iterates of a few systems.", "anchors": ["src/solver/solver_fixed_point.cpp: solve_system", "include/solver/solver_utilities.hpp: forward_sweep"]}
{"id": "C171", "title": "Fixed point solvers and the units of equations and unknowns", "statement": "In exact arithmetic, let every equation be multiplied by its own nonzero factor, and let every unknown be replaced by the unknown times its own nonzero factor, so that element (i,j) is multiplied by the factor of equation i and divided by that of unknown j. Then after any number of iterations each of the three fixed point methods holds the old iterate with every unknown times its factor; the factors of the equations do not show. If all equations share one factor and all unknowns share one factor, solve_system stops after the same number of iterations, with the same convergence flag and normalised residuals, residuals times the absolute value of the factor of the equations, and the solution times the factor of the unknowns.", "quantifier": "all square matrices of any size (1 to 2^31 - 1 for solves) with nonzero diagonal, right hand sides, starts, nonzero factors, limits and numbers of iterations; exact arithmetic", "why_tests_cant": "A test compares a few systems with a few factors, after a few iterations.", "anchors": ["src/solver/solver_fixed_point.cpp: solve_system", "src/solver/solver_fixed_point.cpp: is_converged", "include/solver/solver_utilities.hpp: forward_sweep, compute_residual"]}
{"id": "C172", "title": "Doubles times a power of two do not change the iterates", "statement": "With doubles, multiply the matrix by 2^e with operator*= and the right hand side by 2^e, for e at least 0, so that no element of the matrix overflows. If the Jacobi or Gauss Seidel iterates of the larger system are finite up to some iteration, then the iterates of the smaller system from the same start are the same up to there, to the last bit and without overflow, unless a product of an element off the diagonal and a value in one of these iterates is not zero and below 2^-1022 in absolute value. If there is such a product, the iterates may differ.", "quantifier": "all square matrices of doubles of any size with nonzero diagonal, right hand sides, starts, exponents and numbers of iterations; IEEE 754 double arithmetic", "why_tests_cant": "Each operation rounds, and rounding commutes with powers of two only outside the subnormal range; a test tries a few matrices and exponents.", "anchors": ["src/solver/solver_fixed_point.cpp: solve_system", "include/solver/solver_utilities.hpp: forward_sweep", "include/core/matrix_sparse.hpp: operator*="]}
{"id": "C173", "title": "greedy_multicolouring of a grid gives two groups", "statement": "On a grid made by create_graph_structured(n), n at least 2, greedy_multicolouring orders the cells so that they fall into two consecutive groups without neighbours in the same group, as cells with an even and with an odd sum of coordinates do. (Violated for every n: the cells are ordered by the antidiagonals, and then by index, and 2n - 1 groups are needed and enough.)", "quantifier": "all grids whose number of vertices is below 2^64 - 1", "why_tests_cant": "The number of groups grows with the grid; a test that checks that neighbours have different colours passes on each of them.", "anchors": ["include/graph/reorder.hpp: greedy_multicolouring", "include/graph/generator.hpp: create_graph_structured"]}
{"id": "C174", "title": "Determinants of the matrices that the direct solver accepts", "statement": "In exact arithmetic and for a positive tolerance, factorise without pivoting accepts a square matrix exactly if the determinant of its first k+1 rows and columns is, in absolute value, at least the tolerance times that of its first k rows and columns, for every k. With or without pivoting the determinant of an accepted matrix with n rows is at least the n-th power of the tolerance in absolute value.", "quantifier": "all square matrices of any size and positive tolerances; exact arithmetic", "why_tests_cant": "The matrices that are accepted form an unbounded set that a test can only sample; determinants do not occur in the code.", "anchors": ["include/solver/direct_lower_upper_factorisation.hpp: factorise"]}
{"id": "C175", "title": "Multiples of a matrix are accepted by the direct solver", "statement": "In exact arithmetic, if the direct solver accepts a matrix then it accepts every multiple of it by a nonzero factor, and the solution is divided by the factor. (Violated: the pivots are compared with the tolerance itself, so that every matrix is rejected once it is multiplied by a factor c with |c|^n times its determinant below the n-th power of the tolerance. Without pivoting a multiple is accepted exactly if the matrix is accepted with the tolerance divided by |c|, so that factors of at least one in absolute value do no harm. If a matrix and a multiple are accepted, the solutions are as claimed.)", "quantifier": "all square matrices of any size, factors and positive tolerances; exact arithmetic", "why_tests_cant": "A test that uses well scaled matrices does not notice; the factor from which on a matrix is rejected depends on the matrix.", "anchors": ["include/solver/direct_lower_upper_factorisation.hpp: factorise, solve_system"]}
{"id": "C176", "title": "pseudo_peripheral_vertex of a tree finds the diameter", "statement": "In a tree, that is a connected undirected graph with one edge less than vertices, every vertex that is farthest from some vertex has the largest eccentricity, and pseudo_peripheral_vertex returns a vertex of the largest eccentricity from every start vertex: no two vertices are farther apart than the result and the vertex farthest from it. In connected graphs with cycles this need not hold; there is one with six vertices in which the result has eccentricity 2 although two vertices have distance 3.", "quantifier": "all undirected graphs that a program can build and that are trees, all start vertices", "why_tests_cant": "It is a statement about the shape of all trees; tests use a few small graphs.", "anchors": ["include/graph/graph_utilities.hpp: pseudo_peripheral_vertex", "include/graph/graph_utilities.hpp: level_traversal"]}
{"id": "C177", "title": "Successive over relaxation at best halves the error", "statement": "Let a square sparse matrix with n >= 1 rows and entries on its whole diagonal have a right hand side with a solution. With exact arithmetic one iteration of the successive over relaxation solver multiplies the determinant of the errors of any n starting vectors by (-1/2)^n, whatever the matrix. Therefore, for every number j of iterations, there is a starting vector that differs from the solution by one in one element, such that after j iterations an element is still off by at least (1/2)^j / n; no matrix lets the solver do better for all starting vectors. An iteration of Gauss Seidel makes the determinant zero.", "quantifier": "all square matrices with nonzero diagonal, all right hand sides with a solution, all starting vectors, all numbers of iterations", "why_tests_cant": "It bounds the best behaviour over all matrices; tests run the solver on single systems.", "anchors": ["src/solver/solver_fixed_point.cpp: Solver_Fixed_Point::solve_system", "include/solver/solver_fixed_point.hpp: Solver_Fixed_Point"]}
{"id": "C178", "title": "Grids are entered at a corner and bisected along a diagonal", "statement": "Let a graph be a square grid of n >= 2 rows as create_graph_structured makes it, with its vertices renumbered in any way by reorder. pseudo_peripheral_vertex then returns one of the four corners from any start vertex, and its eccentricity 2(n-1) is the largest distance of any two vertices. With n^2 <= 2^53 recursive_graph_bisection into two parts cuts along a diagonal: the first part consists of the vertices at distance at most n-1 from the pseudo peripheral vertex of vertex 0, the second of all others, so that the parts have n(n+1)/2 and n(n-1)/2 vertices, whatever the numbering.", "quantifier": "all grid sizes, all numberings, all start vertices", "why_tests_cant": "The numberings of a grid cannot be listed; tests use one grid with one numbering.", "anchors": ["include/graph/graph_utilities.hpp: pseudo_peripheral_vertex", "src/graph/partition.cpp: recursive_graph_bisection", "include/graph/generator.hpp: create_graph_structured"]}
{"id": "C179", "title": "Limits that ask for more continue the same iteration", "statement": "Take an iterative solver and a second one of the same type whose configuration asks for at least as much: its minimum_iterations and maximum_iterations are not smaller and its convergence_tolerance is not larger. If the second one returns, then the first one, given the same system and initial guess, returns as well, after no more iterations; if the numbers of iterations are equal then the solutions and the convergence data are equal; and otherwise the second solution is what as many more iterations make of the first. With exact numbers and with doubles, also if infinities and NaN occur.", "quantifier": "all matrices, right hand sides, initial guesses of the size of the matrix, all configurations with comparable limits", "why_tests_cant": "The claim relates the solves of all pairs of configurations.", "anchors": ["include/solver/solver_utilities.hpp: Convergence_Criteria", "src/solver/solver_fixed_point.cpp: Solver_Fixed_Point::solve_system"]}
{"id": "C180", "title": "Iterations can be split between solves", "statement": "A solve that is started from the solution of an earlier solve continues it: if the two make i and j iterations then one solve that is set to make i + j iterations returns the same solution, and, if j is not zero, the same residual and maximum residual, to the last bit (its normalised residuals refer to another first residual). Two solves of a system from the same initial guess that make the same number of iterations return the same solution and the same convergence data, whatever their limits and whatever the solvers solved before.", "quantifier": "all matrices, right hand sides, initial guesses of the size of the matrix, all configurations, any scalars", "why_tests_cant": "Tests compare at most a few pairs of solves of a few systems.", "anchors": ["src/solver/solver_fixed_point.cpp: Solver_Fixed_Point::solve_system", "include/solver/solver_utilities.hpp: Convergence_Data::update"]}
{"id": "C181", "title": "Gauss Seidel does two iterations of Jacobi in one", "statement": "Let the unknowns have levels such that every element off the diagonal leads to an unknown of the level below with a smaller number or of the level above with a larger number. Then for every run of Jacobi there is a run of Gauss Seidel whose k-th iterate has, for an unknown of level l, the value that Jacobi has after 2k+l iterations; and every run of Gauss Seidel is of this kind from the iteration on that is half the number of levels. So with exact arithmetic one of the two converges from every start if and only if the other does, and Jacobi solves symmetric positive definite systems with levels. With doubles the values are the same bit for bit apart from the signs of zeros as long as Jacobi stays finite. Lines and grids have levels in the numbering of the generators, so have two groups of unknowns that are independent among themselves, and so has every connected graph without odd cycles after breadth_first or cuthill_mckee. Without levels Gauss Seidel may converge from every start while Jacobi does not.", "quantifier": "all square matrices with nonzero diagonal and levels, right hand sides, starts and iteration counts; all graphs without odd cycles, roots and sorting algorithms that sort by degree", "why_tests_cant": "The claim relates two whole runs of two solvers for all numbers of iterations; tests compare single results with tolerances.", "anchors": ["src/solver/solver_fixed_point.cpp", "include/solver/solver_fixed_point.hpp", "src/graph/reorder.cpp", "include/graph/generator.hpp"]}
{"id": "C182", "title": "Access to subgraphs and their storage", "statement": "For every subgraph obtained from the constructor, update_levels and reorder: operator[] and at return, for a vertex in range, the strictly ascending local indices of exactly the vertices of the subgraph that are adjacent in the parent (their global indices are the parent's neighbours that belong to the subgraph), degree is their number, and all three exit for a vertex out of range; contains holds exactly for edges of the parent between two vertices of the subgraph, answers false for indices out of range and exits for equal ones; front and back are the first and last vertex and exit when there is none; size_edge is the number of edges of the parent between vertices of the subgraph. Whatever was called before, the four numbers of capacity() are at least the number of vertices, edges, vertices and stored levels. A reserve(v, e) that returns leaves the contents, lowers no capacity and makes all four at least v, e, v, v, so that a resize to at most v vertices afterwards allocates nothing; more vertices than a vector can hold end the program. clear keeps the capacities, shrink_to_fit the contents (and the capacities are then the sizes, if std::vector frees all it can), and swap exchanges both.", "quantifier": "all parents, partitions, level counts below 2^64 - 1, orders, allocation strategies and histories of calls; e <= (2^64 - 1) / 2 for reserve (C142 has the sizes that wrap around)", "why_tests_cant": "tests look at capacity() after one reserve on one subgraph, and at single neighbours", "anchors": ["include/graph/adjacency_subgraph.hpp", "include/graph/adjacency_graph.hpp"]}
{"id": "C183", "title": "Dominant systems with rows that are not strictly dominant", "statement": "Let no diagonal element be smaller in absolute value than the sum of the other elements of its row, and let nonzero elements lead from every row to one that is strictly dominant. Then with exact arithmetic the system has exactly one solution, no iteration of Jacobi or Gauss Seidel makes the largest error larger, a fixed number of iterations makes it smaller by a fixed factor, both converge to the solution from every start, and the direct solver returns it whenever it accepts the matrix. If the diagonal is positive and no other element is, a dominant matrix has solutions for all right hand sides if and only if all rows lead to strictly dominant ones; a larger right hand side then has a larger solution, and if the right hand side lies between the products of the matrix with two constant vectors, the solution and all iterates that start there stay between the constants. Successive over relaxation leaves such bounds.", "quantifier": "all square matrices as described, right hand sides, starts, iteration counts; exact arithmetic", "why_tests_cant": "Convergence from every start, and for every matrix with such chains, is a statement about limits; tests run single systems, which are strictly dominant.", "anchors": ["src/solver/solver_fixed_point.cpp", "include/solver/solver_fixed_point.hpp", "include/solver/direct_lower_upper_factorisation.hpp"]}
{"id": "C184", "title": "Values given at some vertices of a graph: unique solution, maximum principle, and the iterates respect it", "statement": "For every undirected graph and every set of vertices, a program that inserts for a given vertex the entry (v, v, 1) and for any other vertex (v, v, degree) and (v, w, -1) for its neighbours returns with exactly that matrix. The system can be solved for every right hand side exactly if every vertex is joined by a walk to a given one, and then the solution is unique. The solution has the given values, at any other vertex degree times the value is the sum over the neighbours plus the source, all values lie between bounds of the given values if there are no sources (one side needs sources of one sign only), and where a vertex that is not given has the largest value its neighbours have it too. Iterates of Jacobi and Gauss Seidel that start between the bounds stay between them, both methods tend to the solution from every start, and the direct solver returns it whenever it accepts the matrix.", "quantifier": "all undirected graphs built through the API, all sets of given vertices, all right hand sides, bounds and starting vectors, all numbers of iterations, exact arithmetic", "why_tests_cant": "The program runs the storage, the graph and three solvers together; the claim is about all graphs and all sets of given vertices, and the maximum principle is an inequality at every vertex after every iteration.", "anchors": ["include/graph/adjacency_graph.hpp", "include/core/matrix_sparse.hpp", "src/solver/solver_fixed_point.cpp", "include/solver/direct_lower_upper_factorisation.hpp"]}
{"id": "C185", "title": "Systems with given unknowns: Gauss Seidel and SOR converge although the matrix is not symmetric", "statement": "Let the rows of some unknowns have no entry besides a nonzero diagonal one, and let the rest of the matrix be symmetric and positive definite; the columns of the given unknowns are arbitrary. Then the system has exactly one solution, and Gauss Seidel and successive over relaxation tend to it from every start. Gauss Seidel gives the given unknowns their values in one iteration, while SOR multiplies their errors by exactly -1/2 in each iteration. The rows of any unknowns of a symmetric positive definite matrix may so be replaced by rows of the identity, and all three methods solve the systems of graphs with given values.", "quantifier": "all sizes, all such matrices and sets of given unknowns, all right hand sides and starting vectors, all numbers of iterations, exact arithmetic", "why_tests_cant": "Convergence is a statement about infinitely many iterations for all matrices; the usual criteria (dominance, symmetry) do not apply.", "anchors": ["src/solver/solver_fixed_point.cpp", "include/solver/solver_fixed_point.hpp"]}
{"id": "C186", "title": "Bounds that are integers hold with doubles, whatever is rounded", "statement": "Let the elements of the matrix be integers stored as doubles, positive on the diagonal and not positive elsewhere, and let two integers bound the problem: the right hand side lies between the products of the matrix with the constant vectors of the bounds, and those products are below 2^53. Then with double arithmetic no iterate of Jacobi or Gauss Seidel that starts between the bounds overflows or leaves them, after any number of iterations; the iterates from the lower bound rise and those from the upper bound fall until they stay the same bit for bit, and all others stay between them. So for every undirected graph in which all vertices are joined to given ones, the program that stores the matrix of the mean value problem with doubles satisfies the maximum principle exactly (for example values between 0 and 1 stay there). Bounds that are not integers may be left: the mean of three neighbours with the value 0.1 is larger than 0.1.", "quantifier": "all sizes, all such matrices, all graphs below 2^52 vertices and sets of given vertices, all integer bounds, right hand sides and starting vectors, all numbers of iterations, IEEE doubles", "why_tests_cant": "It says that rounding never produces a value outside the bounds, for all graphs and all iterations; a test sees single roundings.", "anchors": ["src/solver/solver_fixed_point.cpp", "include/core/matrix_sparse.hpp", "include/graph/adjacency_graph.hpp"]}
{"id": "C187", "title": "reorder accepts the permutations of large graphs", "statement": "reorder accepts every permutation of the vertices. (Violated for large graphs: the check sum is accumulated in double and rounds from 2^53 on. Every graph whose number of vertices is 4 modulo 8, between 2^27 and 180000000, has a permutation that makes reorder exit, for instance 134217732 vertices without edges. Up to 2^27 vertices the check in double accepts exactly the arguments with the right sum, for all arguments whatsoever, so that the results on reorder hold up to that size.)", "quantifier": "all reachable graphs, directed or not, and all permutations, IEEE doubles", "why_tests_cant": "The smallest graphs that are rejected have more than a hundred million vertices, and only some orders of them are; the equivalence below is for all arguments, with entries of any size.", "anchors": ["include/graph/adjacency_graph.hpp: reorder"]}
{"id": "C188", "title": "Ghost levels are enough for as many Jacobi iterations", "statement": "Take a partition of the vertices of a graph and the subgraph with m levels around it, after any constructions, changes of its levels and renumberings that end with m levels. Take a matrix with elements on the diagonal and along edges only, and a matrix of the subgraph which has the same rows at the vertices of level below m; its rows at level m may be anything with a diagonal. If the iterations start with the same values, then after t Jacobi iterations, and also after t products with the matrices, the values at the vertices of level at most m - t are those of the iteration on the whole graph. Assembling the matrix with a shift c and the degrees on the diagonal and -1 at the edges from the graph and from the subgraph gives two such matrices. One level more is not free: with one level and two products the value at the partition can differ.", "quantifier": "all reachable graphs, partitions, hash functions, numbers of levels, sequences of subgraph calls, matrices along the edges, vectors, numbers of iterations; exact arithmetic", "why_tests_cant": "The claim joins level traversal, the numbering of the subgraph, assembly and the solver over any number of iterations on any graph.", "anchors": ["include/graph/adjacency_subgraph.hpp", "src/graph/adjacency_subgraph.cpp", "src/solver/solver_fixed_point.cpp", "include/core/matrix_sparse.hpp"]}
{"id": "C189", "title": "Iterates depend only on the equations they can reach", "statement": "Two systems of the same size with stored diagonals are given; everything about them may differ except what is said. (a) If a set of unknowns is closed, that is, the equations of the set store elements only in columns of the set, and both systems have the same stored elements, right-hand sides and start values on the set, then after any number of iterations of Jacobi, Gauss-Seidel or SOR the values on the set are identical. (b) After t Jacobi iterations the value of an unknown is identical if the two systems have the same rows and right-hand sides within t - 1 and the same start values within t stored elements from it. This holds for any scalars, so also for double precision with infinities and with values that are not a number. The distances in (b) are least, and Gauss-Seidel does not obey them.", "quantifier": "all scalar types and operations, both systems, closed sets, start values, working vectors, numbers of iterations", "why_tests_cant": "It compares two arbitrary systems over any number of iterations in any arithmetic; a test compares two given systems.", "anchors": ["src/solver/solver_fixed_point.cpp", "include/core/matrix_sparse.hpp"]}
{"id": "C190", "title": "Speeds of Jacobi, Gauss-Seidel and SOR on rows with levels", "statement": "Let the rows have levels such that each row refers only to itself, to earlier rows of the level below and to later rows of the level above (lines, grids and graphs without odd cycles have such a numbering). Let a Jacobi iteration multiply an error v by mu. Then for Gauss-Seidel and SOR with their factors omega, 1 and 3/2, and each s with s^2 = 1 - omega + omega s mu, the error with the entries s^level v is multiplied by exactly s^2 in every iteration. So Gauss-Seidel multiplies by mu^2. For SOR a positive s is smaller than mu if mu is below 1, so it is faster on that error; real s exist exactly if mu^2 is at least 8/9, and the two of them have the product 1/2. If Jacobi has such an error with mu above 1, neither Gauss-Seidel nor SOR converges from every start. Without levels the relation fails.", "quantifier": "all matrices with such levels and non-zero diagonal, errors v, factors mu, roots s, right-hand sides, solutions, numbers of iterations; exact arithmetic", "why_tests_cant": "A relation between the speeds of three methods over all matrices of a kind and any number of iterations.", "anchors": ["src/solver/solver_fixed_point.cpp", "include/solver/solver_fixed_point.hpp"]}
{"id": "C191", "title": "Jacobi in parts with exchange is Jacobi", "statement": "Cut the vertices of a graph into parts, take the subgraph of each with at least r levels around it, and give it a matrix and a right-hand side with the rows of the whole system at all levels below its last one. In a round every part does r Jacobi iterations on its own matrix, and then every vertex takes the value of a part that it belongs to. The rounds can always be run and parts that share a vertex agree on its value. After T rounds the values are exactly those after r T Jacobi iterations on the whole system. The parts returned by recursive_graph_bisection, with their levels set by update_levels, are such parts.", "quantifier": "all reachable graphs, hash functions, families of parts that cover the vertices, numbers of levels, sequences of subgraph calls, matrices along the edges, start values, numbers of iterations per round and of rounds; exact arithmetic", "why_tests_cant": "It joins the partitioner, the levels of subgraphs and the solver over any number of rounds; tests look at each of them alone and on single graphs.", "anchors": ["src/graph/partition.cpp", "src/graph/adjacency_subgraph.cpp", "include/graph/adjacency_subgraph.hpp", "src/solver/solver_fixed_point.cpp"]}
{"id": "C192", "title": "Parts solved on their own with the values around them held tend to the solution, in any order", "statement": "Take a strictly diagonally dominant system whose matrix has elements along the edges of an undirected graph, and subgraphs with at least one level around them whose partitions together contain every vertex. For each subgraph take the matrix which has the rows of the system at the levels below the last and rows of the identity at the last level, and the right hand side which has the current values at the last level. Solve it by one or more iterations of Jacobi or Gauss Seidel from the current values, by a call of solve_system of these solvers which makes at least one iteration, or by a direct solver which accepts the matrix. Then the error at all levels below the last is at most a factor below one, which depends only on the whole matrix, times the largest error of the current values. Hence if values of vertices are replaced by those of any part that has them below its last level, in any order and any number at a time, then all values tend to the solution as long as each vertex is replaced again and again; if all are replaced in each round the error falls geometrically by that factor.", "quantifier": "all undirected graphs built through the API, all sets of parts (overlapping or not) and numbers of levels of at least one, all dominant matrices, right hand sides and starting values, all choices of solver and numbers of iterations per part and time, all orders; exact arithmetic", "why_tests_cant": "tests can run one decomposition of one system with one schedule for a limited number of rounds; convergence for all schedules is a statement about infinite executions", "anchors": ["src/graph/adjacency_subgraph.cpp", "include/graph/adjacency_subgraph.hpp", "src/solver/solver_fixed_point.cpp", "include/solver/direct_lower_upper_factorisation.hpp"]}
{"id": "C193", "title": "Renumbering a tree leaves one neighbour before each vertex, and the pivots of the direct solver are those along its edges", "statement": "If a tree is renumbered with the permutation of breadth_first from any vertex, or of cuthill_mckee from any vertex or from the root it picks itself, every vertex but the first has exactly one neighbour with a smaller number; after cuthill_mckee_reverse every vertex but the last has exactly one neighbour with a larger number. Only trees can be numbered like that: a graph where every vertex but the first has exactly one smaller neighbour is a tree. For the equations of a tree numbered by cuthill_mckee_reverse (any matrix with elements on the diagonal and at edges only) the direct solver without pivoting accepts the matrix if and only if the pivots along the tree all reach its tolerance, where the pivot of a vertex is its diagonal element less, for each neighbour with a smaller number, the product of the two elements between them over the pivot of that neighbour; if it does, the determinant is the product of these pivots.", "quantifier": "all trees built through the API, all roots, all permissible sort implementations, all matrices along the renumbered tree, all positive tolerances; exact arithmetic", "why_tests_cant": "tests can renumber some trees; that the order leaves exactly one earlier neighbour on every tree, and when elimination in that order succeeds for every matrix, needs a proof over all trees and values", "anchors": ["include/graph/reorder.hpp", "src/graph/reorder.cpp", "include/graph/adjacency_graph.hpp", "include/solver/direct_lower_upper_factorisation.hpp"]}
{"id": "C194", "title": "greedy_multicolouring leaves graphs without odd cycles in breadth first order as they are", "statement": "Let a connected undirected graph with at least two vertices have two sides such that every edge joins them, as trees, lines and grids do, and renumber it with the permutation of breadth_first or cuthill_mckee from any root. Then greedy_multicolouring of the renumbered graph returns the identity, reordering with it changes nothing, and the vertices in that order need one consecutive group of pairwise not adjacent vertices for every distance from the root, no less and no more. The documented rule (lowest colour not present among the coloured neighbours) would give the vertices at even distances colour 1 and the others colour 2. The same holds for the colours whenever the vertices have levels such that every smaller neighbour is one level below and only vertices of the lowest level have none: the order is by level and then by index, and as many groups as levels are needed.", "quantifier": "all connected graphs without odd cycles, all roots, all sorting algorithms that sort by degree; all levels as described", "why_tests_cant": "tests can colour some renumbered graphs; that the rule the code implements degenerates to the levels on all of them needs an induction over the order of the vertices", "anchors": ["src/graph/reorder.cpp", "include/graph/reorder.hpp"]}
{"id": "C195", "title": "Successive over relaxation approaches the solution with doubles", "statement": "If the elements off the diagonal of each row add up, in absolute value, to at most q times the absolute value of the diagonal element, then each iteration of the successive over relaxation solver with floating point numbers multiplies the largest error by at most (3q + 1)/2, enlarged by rounding, and adds a fixed offset, both explicit; no iteration overflows while the numbers are far from the largest one. So for q below one third, by a margin of the order of the unit of rounding, the iterates come as close to the exact solution as the offset allows and stay there.", "quantifier": "all matrices of finite numbers with that ratio, all sizes, right hand sides, start vectors and numbers of iterations; all roundings with a bounded error, with explicit constants for IEEE doubles", "why_tests_cant": "tests can run some systems for some iterations; a bound for all matrices that includes every rounding and excludes overflow in every intermediate result needs an error analysis", "anchors": ["src/solver/solver_fixed_point.cpp", "include/solver/solver_fixed_point.hpp"]}
{"id": "C196", "title": "Bisection takes one component at a time out of a part that is not connected", "statement": "If the first of the largest parts returned by recursive_graph_bisection is not connected, then asking for one more part leaves exactly one connected component of it in its place and puts all its other vertices into a new last part. So parts need not be balanced at all: a star of n vertices cut into k parts, with k from 2 to n - 2, keeps n - k of its leaves in the last part, while all other parts have at most two vertices.", "quantifier": "all undirected graphs of at most 2^53 vertices, all stars, all numbers of parts, all hash functions", "why_tests_cant": "Which vertices go where depends on the largest index standing in for a missing level, on integer halving and on the order of the parts after any number of steps; samples fix the graph and the number of parts.", "anchors": ["src/graph/partition.cpp: recursive_graph_bisection", "include/graph/graph_utilities.hpp: pseudo_peripheral_vertex"]}
{"id": "C197", "title": "The level set expansion does not make parts wider", "statement": "Suppose the distances that multinode_level_set_expansion computes first (C16, C26) were those of the graph. Let the given parts be at least two, without vertices in common, and hold all vertices of a connected graph. If after n iterations each part has a vertex with all its vertices within distance r, then after any larger number of iterations each part has a vertex from which every vertex of the part is at most r steps away without leaving the part.", "quantifier": "all connected undirected graphs, parts, radii, numbers of iterations and hashes", "why_tests_cant": "relates the results of any two numbers of iterations on graphs of any size; a test sees some iterations of one partition", "anchors": ["src/graph/partition.cpp: multinode_level_set_expansion", "include/graph/graph_utilities.hpp: level_expansion"]}
{"id": "C198", "title": "The direct solver without pivoting keeps the order of right hand sides for dominant matrices with nonpositive coupling, whatever is rounded", "statement": "Let the matrix given to factorise of Solver_LU (no pivoting) have doubles on the diagonal which are at most A, no positive element off the diagonal, and let the elements of each row add up to at least the factorisation tolerance plus n*A/2^50 (n rows; A at most 2^900, n at most 2^50, tolerance at least 2^-100, the default is 2^-46). With double arithmetic factorise returns true. If b <= b' <= b'' hold element by element, and solve_system gives finite numbers x for b and x'' for b'', then it gives finite numbers x' for b', and x <= x' <= x'' hold element by element. In particular no element of a finite solution for a right hand side without negative elements is negative. Rounding does not break this, and there is no tolerance in the comparison of the solutions.", "quantifier": "all sizes up to 2^50, all such matrices, tolerances and right hand sides, all contents of the solution vector before the call", "why_tests_cant": "The order of solutions is a statement about pairs of right hand sides and about every rounding error made on the way. A test sees single solutions, and compares them with a tolerance.", "anchors": ["include/solver/direct_lower_upper_factorisation.hpp: factorise", "include/solver/direct_lower_upper_factorisation.hpp: solve_system"]}
{"id": "C199", "title": "Equations that are not coupled with the others get the solution they have alone from the direct solver, to the last bit", "statement": "Let a set of equations of a matrix of doubles not be coupled with the others: the elements in their rows and other columns, and in other rows and their columns, are zero. If factorise of the whole matrix returns true and nothing overflowed in it, then factorise of the matrix of these equations alone, in the same order and with the same tolerance, returns true. If further solve_system of the whole system gives finite numbers for a right hand side of doubles, then solve_system of the equations alone gives exactly the same numbers for their unknowns. This holds with and without pivoting: rows are only exchanged with rows of the same set, and the zeros of the others change no number by rounding.", "quantifier": "all sizes, matrices of doubles, sets of equations, positive tolerances and right hand sides, with and without pivoting, all contents of solvers and solution vectors before the calls", "why_tests_cant": "The claim is equality of every bit between two runs of different size, for all matrices and all sets of equations; a test compares few systems, and usually with a tolerance.", "anchors": ["include/solver/direct_lower_upper_factorisation.hpp: factorise", "include/solver/direct_lower_upper_factorisation.hpp: solve_system"]}
{"id": "C200", "title": "Reversing the Cuthill-McKee numbering never enlarges the profile", "statement": "Call the position (i, j) with j < i part of the profile of a graph if vertex i has a neighbour with an index of at most j; these are the positions that a skyline storage of a matrix of the graph stores. Renumber a graph with reorder by the result of cuthill_mckee, and by that of cuthill_mckee_reverse with the same root. Each position (i, j) in the profile of the second graph has its mirror image (n-1-j, n-1-i) in the profile of the first, so the second profile has at most as many positions.", "quantifier": "all undirected graphs made through the interface on which cuthill_mckee returns, all roots and the default root, all results of std::sort for vertices of equal degree", "why_tests_cant": "Tests compare the permutation of a few graphs with a stored one; that the reversed order is never worse is a statement on all graphs, and it is what the reversed order is for.", "anchors": ["src/graph/reorder.cpp: cuthill_mckee", "src/graph/reorder.cpp: cuthill_mckee_reverse", "include/graph/adjacency_graph.hpp: reorder"]}
{"id": "C201", "title": "Without pivoting, equations without the other unknowns are solved by the direct solver as if alone", "statement": "Let some equations of a system of doubles not contain the unknowns of the other equations, while the others may contain theirs. Without pivoting: if the whole matrix is accepted with finite factors, the closed equations alone are accepted with the same tolerance, and their finite solution alone is the one in the whole, to the last bit, whatever the rest of the right hand side is. If the stored factors of the whole are finite, the whole is accepted exactly if the closed equations and the remaining equations with their own unknowns are both accepted alone. For every arithmetic, each leading part of an accepted matrix is accepted and its factors are the leading part of the factors. With pivoting a matrix can be accepted although its closed equations are rejected alone.", "quantifier": "all numbers of equations, all choices of equations, all matrices and right hand sides of doubles, all positive tolerances; for the leading parts all arithmetics including infinities and NaN", "why_tests_cant": "Tests solve a few full matrices; that the elimination never mixes a closed part with the rest, in the acceptance and in each bit of the result, is a statement on all block structures.", "anchors": ["include/solver/direct_lower_upper_factorisation.hpp: factorise", "include/solver/direct_lower_upper_factorisation.hpp: solve_system"]}
{"id": "C202", "title": "Signs of equations and unknowns do not matter to the solvers, to the last bit", "statement": "Multiply some equations of a system of doubles by -1, right hand side included, and replace some unknowns by their negatives. The direct solver, with or without pivoting, accepts the changed matrix exactly if it accepts the original one, chooses the same pivots, and returns the same solution up to the signs of the replaced unknowns. Jacobi, Gauss Seidel and successive over relaxation take the same number of iterations, report the same residuals and return the same solution up to these signs. This holds to the last bit whatever is rounded, and also if values overflow or are infinite or NaN. A stored zero on the diagonal is the exception for the fixed point solvers.", "quantifier": "all sizes (for the fixed point solvers 1 to 2^31-1), all choices of equations and unknowns, all matrices, right hand sides and starting values of doubles, infinities and NaN included, all positive tolerances of the factorisation, all limits, all previous contents of the solvers", "why_tests_cant": "Tests solve single systems and compare with tolerances; a symmetry in every bit of all results, iteration counts and pivot choices is a statement on pairs of runs.", "anchors": ["include/solver/direct_lower_upper_factorisation.hpp: factorise", "include/solver/direct_lower_upper_factorisation.hpp: solve_system", "src/solver/solver_fixed_point.cpp: forward_sweep", "include/solver/solver_utilities.hpp: compute_residual"]}
{"id": "C203", "title": "Rounding errors of the direct solver grow with the bandwidth, not with the size", "statement": "Let the elements of a system of doubles be zero farther than \u03b2 from the diagonal, and solve it by LU without pivoting. If the factors are finite they have no elements outside of the band, their product differs from the matrix by at most relError(\u03b2+1)\u00b7|L||U| (in effect (\u03b2+1)/2^52\u00b7|L||U|) plus underflow, and each finite solution leaves a residual of at most (\u03b2+1)/2^50\u00b7|L||U||x| plus underflow, whatever the number of unknowns is. For a grid of n by n vertices in any numbering, renumbered by cuthill_mckee_reverse with the default root, \u03b2 is n although the system has n\u00b7n unknowns.", "quantifier": "all sizes, all bandwidths below 2^52, all matrices and right hand sides of doubles with this bandwidth, all positive tolerances; for grids all n from 2 with n\u00b7n < 2^64-1, all numberings, all results of std::sort for vertices of equal degree", "why_tests_cant": "Tests compare a few solutions with tolerances; a bound on the rounding errors of all systems that does not grow with the size is not a statement on single systems.", "anchors": ["include/solver/direct_lower_upper_factorisation.hpp: factorise", "include/solver/direct_lower_upper_factorisation.hpp: solve_system", "src/graph/reorder.cpp: cuthill_mckee_reverse"]}
{"id": "C204", "title": "Systems of integers that have factors of integers are solved without rounding", "statement": "Let a matrix of integers be the product of a lower factor of integers with ones on the diagonal and an upper factor of integers, where the sizes of the products of their elements add up to less than 2^53 in each element and the diagonal of the upper factor is not below the tolerance. The direct solver with doubles and without pivoting accepts the matrix and stores exactly these factors, and for the right hand side that belongs to a solution of integers, with the sizes of the products below 2^53 again, it returns exactly this solution. With pivoting this does not hold: for the rows (1, 0) and (3, 1) and the solution (1, 1) the second unknown is not 1.", "quantifier": "all sizes, all factors and solutions of integers within the bounds, all positive tolerances, all previous contents of the solver and the solution vector", "why_tests_cant": "Tests compare a few solutions up to tolerances; exactness for all such systems is a statement on every rounding that could take place.", "anchors": ["include/solver/direct_lower_upper_factorisation.hpp: factorise", "include/solver/direct_lower_upper_factorisation.hpp: solve_system"]}
{"id": "C205", "title": "Degrees bound how far the reordered neighbours lie", "statement": "Number a connected graph with breadth_first or cuthill_mckee and reorder it. Then every neighbour b of vertex a satisfies b <= 1 + the sum of (degree(k) - 1) over the vertices k = 0..a of the reordered graph. In particular, if no vertex of the graph has more than D neighbours, b <= 1 + (a + 1)(D - 1). If no vertex has more than two neighbours, as on lines and rings in any numbering, neighbours are at most two apart after cuthill_mckee and after cuthill_mckee_reverse, and a system on the reordered graph that the direct solver without pivoting accepts and solves in doubles has a residual of three operations, at most 3 / 2^50 times |L||U||x| plus an underflow term, whatever its size.", "quantifier": "all graphs reachable by the public operations, all roots and the default root, all permutations returned, all sorts by degree std::sort may perform, all vertices, all degree bounds, all systems of doubles on the reordered graph", "why_tests_cant": "The bound is an inequality over all graphs and all pairs of neighbours. A test measures the bandwidth of a few graphs, on which a search that numbers vertices in another order within a level often has the same or even a smaller bandwidth.", "anchors": ["src/graph/reorder.cpp: breadth_first", "src/graph/reorder.cpp: cuthill_mckee", "src/graph/reorder.cpp: cuthill_mckee_reverse", "include/solver/direct_lower_upper_factorisation.hpp: factorise", "include/solver/direct_lower_upper_factorisation.hpp: solve_system"]}
{"id": "C206", "title": "Equations times powers of two do not change the direct solver without pivoting, to the last bit", "statement": "With doubles and without pivoting, multiply each equation of a system, right hand side included, by its own power of two 2^e with e at least 0. If the direct solver accepts this system and its factors and solution are finite, then it also accepts the system without the powers of two and returns the same solution to the last bit, with the upper factor divided by the powers and each multiplier divided by the quotient of the two powers, provided that the pivots without the powers reach the tolerance, that products in the smaller system are zero or at least 2^-1022 in size, and that the multipliers between equations with different powers are neither too small nor too large to keep all digits. If all equations have the same power nothing is needed of the multipliers. If a product underflows the factors may differ. With pivoting they may differ even without underflow: for the rows (1, 1) and (2, 1) times 2^-60 and a tolerance of 2^-80 rows are not interchanged, while for the rows themselves they are.", "quantifier": "all sizes, matrices and right hand sides of doubles, exponents per equation, positive tolerances, previous contents of the solvers and the solution vectors; IEEE 754 double arithmetic", "why_tests_cant": "Whether every intermediate value of an elimination is rounded in the same way for all scalings is not visible in samples; a test compares a few solutions up to a tolerance and misses a stopping test or pivot search that depends on the units.", "anchors": ["include/solver/direct_lower_upper_factorisation.hpp: factorise", "include/solver/direct_lower_upper_factorisation.hpp: solve_system", "include/core/scalar.hpp: is_nearly_greater"]}
{"id": "C207", "title": "The direct solver without pivoting solves every diagonally dominant system of doubles, accurately", "statement": "Take a matrix of doubles in which every diagonal element exceeds, in absolute value, the sum of the absolute values of the other elements of its row by at least S, with elements of any sign, whose rows have sums of absolute values of at most A. If S is at least t + n*A/2^49 for n unknowns and the tolerance t, t is at least 2^-100 and A at most 2^900, the direct solver without pivoting accepts the matrix, and every finite solution x with |x| at most X leaves residuals of at most (b + 1)^2 * A * (6 * X / 2^50 + 2^-900), where b is the bandwidth, so that it lies within this bound divided by S of the exact solution. If S is at least t + n*A/2^47, A is at most 2^400 and the right hand side is at most D, D at most 2^400, in absolute value, the solver returns a finite solution: no step overflows, no element exceeds 8 * (D + A/2^900) / S, and each differs from the exact solution by at most (b + 1)^2 * (A/S) * (D/S/2^44 + 2^-440). For systems on a grid of n by n vertices in any numbering, reordered by cuthill_mckee_reverse, b is n.", "quantifier": "all sizes, bandwidths below 2^52, matrices and right hand sides of doubles with the stated dominance, tolerances from 2^-100, previous contents of the solver and of the solution vector; for grids all n from 2 with n*n < 2^64-1, all numberings and all results of std::sort for vertices of equal degree; IEEE 754 double arithmetic", "why_tests_cant": "That elimination without interchanges never breaks down, never overflows and stays accurate for a whole class of matrices of all sizes is a statement on the growth of numbers in all eliminations; tests see a few matrices with moderate factors.", "anchors": ["include/solver/direct_lower_upper_factorisation.hpp: factorise", "include/solver/direct_lower_upper_factorisation.hpp: solve_system", "src/graph/reorder.cpp: cuthill_mckee_reverse"]}
{"id": "C208", "title": "Pivoting changes nothing for matrices of doubles whose columns are dominated by the diagonal", "statement": "Take a matrix in which every diagonal element exceeds, in absolute value, the sum of the absolute values of the other elements of its column by at least S, with elements of any sign, whose columns have sums of absolute values of at most A, A at most 2^900. If S is at least T + n*A/2^49 for n unknowns, where T is at least the tolerance and at least 2^-45, the direct solver with pivoting interchanges no equations, in spite of all roundings and of the tolerances in its search for the pivot: it accepts the matrix, as does the direct solver without pivoting, and then both give the same results to the last bit for every right hand side and initial vector, also in place, and fail for the same ones. If the rows are dominated in the same way (as in symmetric matrices), S is at least max(t, 2^-45) + n*A/2^47 for the tolerance t, t at least 2^-100, and A and the right hand side D are at most 2^400, the solver with pivoting returns finite solutions, at most 8 * (D + A/2^900) / S in size, that differ from the exact ones by at most (b + 1)^2 * (A/S) * (D/S/2^44 + 2^-440) for the bandwidth b.", "quantifier": "all sizes, matrices with the stated dominance, right hand sides, initial vectors and previous contents of the solvers (for the second part bandwidths below 2^52 and right hand sides of doubles); IEEE 754 double arithmetic", "why_tests_cant": "That no rounded elimination step, in any matrix of the class and of any size, lets another element of the column pass the diagonal one needs an invariant of the elimination; tests compare the two solvers for a few matrices.", "anchors": ["include/solver/direct_lower_upper_factorisation.hpp: factorise", "include/solver/direct_lower_upper_factorisation.hpp: solve_system", "include/core/scalar.hpp: is_nearly_greater"]}
{"id": "C209", "title": "eccentricity_vertex_breadth_first with a stop vertex is memory safe", "statement": "With every stop vertex that it accepts, eccentricity_vertex_breadth_first stays within its output. It ends the program exactly if the start vertex is not in the graph, follows the stop vertex, or the stop vertex exceeds the number of vertices and is not the default. (Violated: it reads or writes past the end of its output exactly if some vertex that can be reached from the start vertex, the start vertex itself included, does not precede the stop vertex. The check which is to skip such vertices comes after the access. If all reachable vertices precede it, the output holds the distances of the vertices before the stop vertex, and the maximum index for unreachable ones, whatever it held before.)", "quantifier": "all directed and undirected graphs, start and stop vertices and previous contents of the output", "why_tests_cant": "Accesses past the end of a heap vector are not observed by tests, and which calls make them depends on the whole graph.", "anchors": ["include/graph/graph_utilities.hpp: eccentricity_vertex_breadth_first"]}
{"id": "C210", "title": "Fill-in of the direct solver without pivoting follows paths through earlier unknowns", "statement": "Take a matrix of doubles which the direct solver without pivoting accepts with finite factors, for any tolerance above zero. An element of the factors that is not zero has a path of elements of the matrix that are not zero from its row to its column by way of unknowns before both of them; all other elements of the factors are exactly zero, in spite of roundings. So for a matrix along the edges of an undirected graph both triangles of the factors stay in the profile of the graph (from the first neighbour of each vertex to the diagonal), and neither has more elements besides zeros than the profile has positions. If the later neighbours of every vertex are neighbours of each other, the factors have elements besides zeros along the edges and on the diagonal only; this is so for each tree of any shape after reordering by cuthill_mckee_reverse, from any root and from the default one. In exact arithmetic the statement on paths holds too, and if the elements off the diagonal are at most zero and no row has a negative sum then each path gives an element that is not zero, so that the paths describe the factors completely.", "quantifier": "all sizes, matrices, graphs, trees, roots and tolerances above zero; any implementation of std::sort; IEEE 754 double arithmetic and exact arithmetic", "why_tests_cant": "The elements that fill in depend on all paths through the graph, of any length, and on rounding for each; tests look at the factors of a few small matrices.", "anchors": ["include/solver/direct_lower_upper_factorisation.hpp: factorise", "src/graph/reorder.cpp: cuthill_mckee_reverse", "include/graph/adjacency_graph.hpp: reorder"]}
{"id": "C211", "title": "Rounding errors of the direct solver grow with the degree on trees, not with the size or the bandwidth", "statement": "Let the direct solver without pivoting accept a system of doubles with finite factors which have at most b elements besides zeros in each row on each side of the diagonal, wherever these are. Then the product of the factors differs from the matrix by at most relError(b+1)*|L||U| plus underflow, and each finite solution leaves a residual of at most (b+1)/2^50*|L||U||x| plus underflow, whatever the number of unknowns is. For systems along a graph in which the later neighbours of every vertex are neighbours of each other, b is the largest degree; so for every tree of any shape after reordering by cuthill_mckee_reverse, from any root and from the default one. If the rows are dominated by the diagonal by at least S, with sums of absolute values of at most A, at most 2^400, and S at least t + n*A/2^47 for n unknowns and the tolerance t, at least 2^-100, then the system on the tree is accepted, for every right hand side of size at most D, D at most 2^400, the solution returned is finite, no element exceeds 8*(D + A/2^900)/S, and each differs from the exact solution by at most (b+1)^2 * (A/S) * (D/S/2^44 + 2^-440).", "quantifier": "all sizes, matrices, right hand sides of doubles and tolerances above zero; all trees, roots and results of std::sort for vertices of equal degree; degrees below 2^52; IEEE 754 double arithmetic", "why_tests_cant": "Tests compare a few solutions with tolerances; that the errors of all systems on all trees are bounded by the degree needs that zeros of the factors are exact and cost no rounding, for trees of any size.", "anchors": ["include/solver/direct_lower_upper_factorisation.hpp: factorise", "include/solver/direct_lower_upper_factorisation.hpp: solve_system", "src/graph/reorder.cpp: cuthill_mckee_reverse"]}
{"id": "C212", "title": "With pivoting, the growth and the errors of the direct solver on banded matrices depend on the band, not on the size", "statement": "Let the direct solver with pivoting accept a matrix of doubles without elements more than b off the diagonal, with a tolerance of at least default_absolute, as it is by default, and elements of size at most a, 4^(2b+1)*a + 3 at most 2^1023. Then, whatever the number n of unknowns is, all elements of the factors are finite, no multiplier exceeds 5/2, no element of the upper factor exceeds 4^(2b)*a or lies more than 2b to the right of the diagonal, each column of the lower factor has at most b elements besides zeros, and no row is moved up by more than b positions. Each finite solution x with elements of size at most X leaves a residual of at most n^2*(2b+1)*4^(2b+1)/2^50*a*(X + 2^-960), n at most 2^52. So for systems along a graph whose vertices have at most two neighbours, as lines and rings, after cuthill_mckee_reverse the elements grow by a factor of at most 256 and the residual is at most 5*n^2/2^40*a*(X + 2^-960), whatever the coefficients (of size at most 2^1000) are.", "quantifier": "all sizes, bands, matrices of doubles, right hand sides and tolerances from default_absolute on; all graphs with at most two neighbours per vertex, roots and results of std::sort for vertices of equal degree; IEEE 754 double arithmetic", "why_tests_cant": "Growth is rare: the matrices for which pivoting meets it are special, and a bound that does not depend on the size needs an argument on which rows can have been touched before each step.", "anchors": ["include/solver/direct_lower_upper_factorisation.hpp: factorise", "include/solver/direct_lower_upper_factorisation.hpp: solve_system", "src/graph/reorder.cpp: cuthill_mckee_reverse"]}
{"id": "C213", "title": "Without pivoting, the direct solver factorises symmetric positive definite matrices of doubles without growth and solves them accurately", "statement": "Let a symmetric matrix of n by n doubles have diagonal elements of at most a, at most 2^900, and let the form x^T*A*x be at least l times the square of the length of x, for every vector x. If l is at least t + n^2*a/2^46, with a tolerance t of at least 2^-100, then the direct solver without pivoting accepts the matrix: no pivot falls below t, no element of the upper factor exceeds 2a, no product of elements of the lower and the upper factor exceeds 9/2*a, and no element of the product of the factors differs from the matrix by more than n*a/2^49. Each finite solution x whose absolute values add up to at most X leaves a residual of at most n^2*a*(X/2^46 + 2^-899) per row, and the absolute values of its errors add up to at most n^3*(a/l)*(X/2^46 + 2^-899). If further a is at most 2^300 and l at least t + n^3*a/2^46, then for every right hand side with elements of size at most D, at most 2^300, the solution is finite, its absolute values add up to at most 3*n*(D + a/2^900)/l, and the absolute values of its errors to at most n^4*(a/l)*(D/l/2^44 + 2^-440).", "quantifier": "all sizes, symmetric matrices, bounds of the form and the diagonal, tolerances, right hand sides and states before the call; IEEE 754 double arithmetic", "why_tests_cant": "The multipliers of such a matrix need not be small, so that only an argument on the form of all matrices in between excludes growth, and rounding makes these matrices unsymmetric; tests compare a few matrices with a tolerance", "anchors": ["include/solver/direct_lower_upper_factorisation.hpp: factorise", "include/solver/direct_lower_upper_factorisation.hpp: solve_system"]}
{"id": "C214", "title": "Gauss Seidel and SOR with doubles approach the solution of symmetric positive definite systems", "statement": "Let a sparse symmetric matrix of n by n doubles, n at least 1, have diagonal elements of at most a, at most 2^200, and let the form x^T*A*x be at least l times the square of the length of x for every vector x, with l at least 2^-200 and n^7*(a/l)^4 at most 2^85. Let the exact solution have elements of at most X and the start differ from it by at most S in each element, both at most 2^150. Then no iteration of the Gauss Seidel or the successive over relaxation solver overflows, and after j iterations the square of the error of each element is at most (1 - l/(24*n^2*a))^j * n^2*(a/l)*S^2 + n^7*(a/l)^4/2^85 * (X + 2^-800)^2. So from some iteration on the squares of the errors are at most twice the last term.", "quantifier": "all sizes, matrices, right hand sides, starts and numbers of iterations; IEEE 754 double arithmetic", "why_tests_cant": "Rows of such matrices need not be dominated by the diagonal, so that the largest error may grow in an iteration and only the energy of the error, which no program computes, shrinks; tests run a few systems for a number of iterations", "anchors": ["src/solver/solver_fixed_point.cpp: forward_sweep", "include/solver/solver_fixed_point.hpp"]}
{"id": "C215", "title": "Iterative solves with doubles return a finite solution whose error the reported iterations bound", "statement": "Let the largest number of iterations of an iterative solver be below the largest index. If each row of a square matrix of floating point numbers is dominated by its diagonal (with a ratio q for which q, or (3q+1)/2 for successive over relaxation, is below one by a margin for rounding) and the numbers are far from overflow, or if the matrix of doubles is symmetric and positive definite as in C214 and the method is Gauss Seidel or successive over relaxation, then the solve returns, whatever the tolerance and whatever its residuals are (they may overflow): no assertion fails, the solution vector is finite, and the number of iterations it reports lies between the smallest number and the largest plus one. The error of every element of the solution returned is at most the bound of the method for the number of iterations that is reported: the ratio to the power of that number times the error of the start, plus the fixed offset of rounding.", "quantifier": "all sizes, matrices, right hand sides, starts, limits and tolerances; all roundings with a bounded error for dominant rows, IEEE 754 double arithmetic for the definite ones", "why_tests_cant": "The number of iterations depends on the computed residuals, so a test sees one number for each system; the claim holds for whatever number the solver stops at, also when the residuals overflow or are not numbers", "anchors": ["src/solver/solver_fixed_point.cpp: solve_system", "include/solver/solver_utilities.hpp: is_converged, update"]}
{"id": "C216", "title": "Iterative solves with doubles stop at the tolerance, up to rounding", "statement": "With IEEE 754 doubles, the residuals that an iterative solver computes for an approximation of the solution whose elements differ from the exact ones by no more than e are finite and not negative, and both are at most 2B(e), where B(e) = R e + (n+2) 2^-51 R (X + e) + 2^-500, n is the number of unknowns, R the largest sum of the absolute values of a row and X the largest element of the solution, provided that R (X + e) is at most 2^450. Consequently, if a solve with a tolerance t between 2^-500 and 1 reports more than J iterations, J not less than the smallest number of iterations, though the approximation after J of them was within e of the solution, then the first residual r0 it reports is finite and t r0 < 4B(e): a solve goes on beyond the tolerance only when the reduction that was asked for lies below the accuracy of the residuals. For rows dominated by the diagonal e is the bound of C195 after J iterations, for all methods; for symmetric positive definite matrices it is the bound of C214 after J iterations, for Gauss Seidel and successive over relaxation.", "quantifier": "all sizes below 2^31, matrices, right hand sides, starts, tolerances and limits within the stated ranges, all numbers of iterations J", "why_tests_cant": "A test sees that one system converged; whether any system can iterate to the limit because its residual stagnates above the tolerance is a statement about the rounding errors of all systems", "anchors": ["src/solver/solver_fixed_point.cpp: solve_system", "include/solver/solver_utilities.hpp: is_converged, update, compute_residual"]}
{"id": "C217", "title": "Rounding errors when products are fused with sums", "statement": "The bounds for the rounding errors of inner products (C100), of products of sparse matrices and vectors (C101) and of the direct solver (C102) do not depend on whether the compiler contracts multiplications and additions into fused operations, which the build does not forbid: they hold for every choice of the sums s + a b and differences s - a b that are rounded once instead of twice, even if the choice differs from operation to operation. The inner product stays finite under the same condition as in C100, and factorise and solve_system return for all inputs. If no operation is fused then the results are those of C100 to C102.  The results themselves can differ: there are vectors whose inner product is 0 without and 1 with fused operations, and systems whose factors and solutions differ.", "quantifier": "all sizes, vectors, matrices, right hand sides, pivoting or not, all choices of the operations that are fused, any rounding with bounded relative and absolute error", "why_tests_cant": "Tests run one binary for one target; whether bounds hold for every way in which a compiler may contract the operations cannot be tested", "anchors": ["include/core/vector_operators.hpp: dot_product", "include/core/matrix_sparse.hpp: operator*", "include/solver/direct_lower_upper_factorisation.hpp: factorise, solve_system", "CMakeLists.txt"]}
{"id": "C218", "title": "Rounding errors of fixed point iterations when products are fused with sums", "statement": "The bound for the rounding error of each new value of an unknown in an iteration of the Jacobi, Gauss Seidel or over relaxation solver (C109) holds for every choice of the sums s + a b that the compiler contracts into one operation with one rounding. So does the convergence of the Jacobi and Gauss Seidel solvers for strictly diagonally dominant matrices (C110): all iterates are finite, and the error decreases with the same factor until it has the same size as the rounding errors.  If no operation is fused then the solution, the convergence data and the solver afterwards are those of C109 and C110.", "quantifier": "all sizes, matrices that are stored in any way the API can build, right hand sides, start vectors, numbers of iterations, all choices of the operations that are fused, any rounding with bounded relative and absolute error", "why_tests_cant": "Tests run one binary for one target on some systems; whether bounds hold for every way in which a compiler may contract the operations cannot be tested", "anchors": ["src/solver/solver_fixed_point.cpp: forward_sweep, solve_system", "CMakeLists.txt"]}
{"id": "C219", "title": "Residual norms when products are fused with sums", "statement": "The bounds of C111 for the two norms that compute_residual returns, and so for the residuals in the convergence data, do not depend on whether the compiler contracts multiplications and additions: they hold for every choice of the operations that are fused, in the products with the rows and in the sum of squares, even if it differs from operation to operation.  The norms themselves can differ: there are systems and vectors whose residual is exactly zero without fused operations, so that an iterative solver would stop, and whose largest element is 1 with them.", "quantifier": "all square matrices of finite numbers with between one and 2^31 - 1 rows, all vectors of finite numbers, all choices of the operations that are fused, all roundings with a bounded error that overflow to infinity", "why_tests_cant": "The choice is made by the compiler, for each target and each level of optimisation; a test sees the choices of one build.", "anchors": ["include/solver/solver_utilities.hpp: compute_residual"]}
{"id": "C220", "title": "Successive over relaxation when products are fused with sums", "statement": "The bound of C195 for the distance between the iterates of the successive over relaxation solver and the solution holds for every choice of the operations that the compiler contracts, here also the last product with the old value of the unknown: no iterate overflows, and the error decreases with the same factor until it has the size of the rounding errors.", "quantifier": "all matrices of finite numbers with the ratio of C195, all sizes, right hand sides, start vectors and numbers of iterations, all choices of the operations that are fused, all roundings with a bounded error", "why_tests_cant": "The choice is made by the compiler, and the claim is about every number of iterations and every size.", "anchors": ["src/solver/solver_fixed_point.cpp", "include/solver/solver_fixed_point.hpp"]}
{"id": "C221", "title": "Iterative solves return and stop at the tolerance when products are fused with sums", "statement": "The results of C215 and C216 for rows dominated by the diagonal do not depend on which multiplications and additions the compiler contracts, in the sweeps, in the residuals and from operation to operation.  A solve returns a finite solution, the number of iterations it reports lies between the smallest number and the largest plus one, and the error of every element is at most the ratio of C195 to the power of that number times the error of the start, plus the offset of rounding.  The residuals of an approximation within e of the solution are finite, not negative and at most 2B(e) (with B as in C216, for R (X + e) at most 2^450), and a solve with a tolerance t between 2^-500 and 1 reports more than J iterations, J not less than the smallest number of iterations, only if t times the first residual it reports is below 4B(e), where e is the bound of the error after J iterations.", "quantifier": "all sizes below 2^31, dominated matrices, right hand sides, starts, limits and tolerances within the stated ranges, all methods, all choices of the operations that are fused; for the first part all roundings with a bounded error, for the residuals and the tolerance IEEE 754 double arithmetic", "why_tests_cant": "The choice is made by the compiler, for each target and each level of optimisation, and it changes the iterates and the residuals by rounding errors; a test sees the choices of one build on one system, and cannot tell whether another choice would go on to the largest number of iterations.", "anchors": ["src/solver/solver_fixed_point.cpp: solve_system", "include/solver/solver_utilities.hpp: compute_residual, is_converged"]}
{"id": "C222", "title": "Symmetric positive definite systems are solved as accurately when products are fused with sums", "statement": "The results of C214, C215 and C216 for symmetric positive definite matrices do not depend on which multiplications and additions the compiler contracts, in the sweeps, in the residuals and from operation to operation.  For matrices, solutions and starts as in C214 no iteration of the Gauss Seidel or the successive over relaxation solver overflows, and after j iterations the square of the error of each element is at most (1 - l/(24*n^2*a))^j * n^2*(a/l)*S^2 + n^7*(a/l)^4/2^85 * (X + 2^-800)^2, with the same constants.  A solve returns a finite solution, the number of iterations it reports lies between the smallest number and the largest plus one, and the errors are at most this bound for the number it reports.  A solve with a tolerance t between 2^-500 and 1 reports more than J iterations, J at least 1 and not less than the smallest number of iterations, only if t times the first residual it reports is below 4B(e) (B as in C216, with rows of at most n*a), where e, at most 2^200, is such that its square is not below the bound after J iterations.", "quantifier": "all sizes, symmetric positive definite matrices, right hand sides, starts, limits and tolerances within the stated ranges, all choices of the operations that are fused; IEEE 754 double arithmetic", "why_tests_cant": "The choice of the fused operations is made by the compiler for each target; a test sees one choice, and the energy of the error, which is what decreases, is not computed by the program.", "anchors": ["src/solver/solver_fixed_point.cpp: forward_sweep, solve_system", "include/solver/solver_utilities.hpp: compute_residual, is_converged"]}
{"id": "C223", "title": "The direct solver without pivoting solves dominant systems as accurately when products are fused with sums", "statement": "The results of C207 do not depend on which products the compiler contracts with the subtractions that follow them, in the elimination and in the two sweeps and from operation to operation.  Take a matrix of n by n doubles in which every diagonal element exceeds, in absolute value, the sum of the absolute values of the other elements of its row by at least S, and whose rows have sums of absolute values of at most A.  If S is at least t + n*A/2^49 for the tolerance t, t is at least 2^-100 and A at most 2^900, the direct solver without pivoting accepts the matrix, and every finite solution x with |x| at most X leaves residuals of at most n^2 * A * (6*X/2^50 + 2^-900), so that it lies within this bound divided by S of the exact solution.  If S is at least t + n*A/2^47 and A and the bound D of the right hand side are at most 2^400, the solver returns a finite solution: no element exceeds 8*(D + A/2^900)/S, and each differs from the exact solution by at most n^2 * (A/S) * (D/S/2^44 + 2^-440).", "quantifier": "all sizes, dominant matrices and right hand sides within the stated ranges, tolerances from 2^-100, previous contents of the solver and of the solution vector, all choices of the operations that are fused; IEEE 754 double arithmetic", "why_tests_cant": "The choice of the fused operations is made by the compiler for each target, and a test sees one choice for a few matrices; that no intermediate result overflows holds for all of them only because of an invariant of the elimination.", "anchors": ["include/solver/direct_lower_upper_factorisation.hpp: factorise, solve_system"]}
{"id": "C224", "title": "Without pivoting, the direct solver solves symmetric positive definite systems as accurately when products are fused with sums", "statement": "The results of C213 do not depend on which products the compiler contracts with the subtractions that follow them.  Let a symmetric matrix of n by n doubles have diagonal elements of at most a, at most 2^900, and let the form x^T*A*x be at least l times the square of the length of x, for every vector x.  If l is at least t + n^2*a/2^46, with a tolerance t of at least 2^-100, then the direct solver without pivoting accepts the matrix: no pivot falls below t, no element of the upper factor exceeds 2a, no product of elements of the lower and the upper factor exceeds 9/2*a, and no element of the product of the factors differs from the matrix by more than n*a/2^49.  Each finite solution x whose absolute values add up to at most X leaves a residual of at most n^2*a*(X/2^46 + 2^-899) per row, and the absolute values of its errors add up to at most n^3*(a/l)*(X/2^46 + 2^-899).  If further a is at most 2^300 and l at least t + n^3*a/2^46, then for every right hand side with elements of size at most D, at most 2^300, the solution is finite, its absolute values add up to at most 3*n*(D + a/2^900)/l, and the absolute values of its errors to at most n^4*(a/l)*(D/l/2^44 + 2^-440).", "quantifier": "all sizes, symmetric matrices, bounds of the form and the diagonal, tolerances, right hand sides and states before the call, all choices of the operations that are fused; IEEE 754 double arithmetic", "why_tests_cant": "The choice of the fused operations is made by the compiler for each target, and contraction rounds the two triangles of a symmetric matrix differently; that the elimination stays close to that of a definite matrix concerns every choice.", "anchors": ["include/solver/direct_lower_upper_factorisation.hpp: factorise, solve_system"]}
{"id": "C225", "title": "Norms of order three and more of doubles are as accurate as the cube root and the power of the standard library", "statement": "For up to 2^40 doubles whose powers |x_i|^p add up to S, between 2^-970 and 2^1022, lp_norm with p of 3 returns a number whose third power differs from S by at most 2d + (n+1)/2^51 in relation to S, if std::cbrt returns a number whose third power is wrong by at most d in relation to its argument.  With p from 4 up to the largest unsigned int, even or odd, it differs from the p-th root of S by at most 3d + n/2^50 + 1/(2^40*p) in relation to the root, if std::pow returns whole powers, and powers with exponents between zero and one, with a relative error of at most d, at most 1/8, and whole powers that underflow with an absolute error of at most 2^-1073.  No more is used of the two functions, and there are functions on doubles with d of 2^-50 and 2^-52.", "quantifier": "all numbers and values of elements of either sign, all orders, all functions with such errors; IEEE 754 double arithmetic", "why_tests_cant": "The errors of the library functions differ from system to system, and the exponent 1/p is itself rounded, which changes the result by more than rounding when S is very large or small; tests compare a few norms of short vectors.", "anchors": ["include/core/vector_operators.hpp: lp_norm"]}
{"id": "C226", "title": "Rounding errors of the direct solver grow with the bandwidth, not with the size, also when products are fused with sums", "statement": "The results of C203 do not depend on which products the compiler contracts with the subtractions that follow them: let the elements of a system of doubles be zero farther than \u03b2 from the diagonal, and solve it by LU without pivoting.  If the factors are finite they have no elements outside of the band, their product differs from the matrix by at most relError(\u03b2+1)\u00b7|L||U| plus underflow, and each finite solution leaves a residual of at most (\u03b2+1)/2^50\u00b7|L||U||x| plus underflow, whatever the number of unknowns is.  For a grid of n by n vertices in any numbering, renumbered by cuthill_mckee_reverse with the default root, \u03b2 is n although the system has n\u00b7n unknowns.", "quantifier": "all sizes, all bandwidths below 2^52, all matrices and right hand sides of doubles with this bandwidth, all positive tolerances, all choices of the operations that are fused; for grids all n from 2 with n\u00b7n < 2^64-1, all numberings, all results of std::sort for vertices of equal degree", "why_tests_cant": "The choice of the fused operations is made by the compiler for each target, and may differ for the zeros outside of the band and the elements inside; that no choice lets the errors grow with the size concerns systems of every size.", "anchors": ["include/solver/direct_lower_upper_factorisation.hpp: factorise", "include/solver/direct_lower_upper_factorisation.hpp: solve_system", "src/graph/reorder.cpp: cuthill_mckee_reverse"]}
{"id": "C227", "title": "Fused operations change nothing where products need no rounding", "statement": "Which products the compiler contracts with the sums that follow them does not affect a computation whose products are doubles: if LU without pivoting accepts a matrix of doubles, its factors are finite and no product of an element of L with an element of U in the same term needs rounding, the factorisation is accepted with the same factors for every choice; if also the products with the intermediate and final unknowns need no rounding, the solution is the same for every choice; the same holds for dot_product.  In particular the systems of integers of C204 are solved without rounding for every choice.  Where a product does need rounding the choice may be seen: for (-(1+2^-29), 1+2^-30)\u00b7(1, 1+2^-30) the result is 0 or 2^-60.", "quantifier": "all sizes, all matrices, right hand sides and vectors of doubles whose products need no rounding, all tolerances, all choices of the operations that are fused; for the last part all systems of integers within the bounds of C204", "why_tests_cant": "Tests see one compiler with one choice of contractions; that every choice gives the same bits concerns all compilers and all matrices with such products.", "anchors": ["include/solver/direct_lower_upper_factorisation.hpp: factorise, solve_system", "include/core/vector_operators.hpp: dot_product"]}
{"id": "C228", "title": "An index type that holds the rows and columns holds the matrix", "statement": "CSR data work with every index type that holds the row and column indices in use: calls of insert, insert_or_assign and resize leave the offsets, columns, values, sizes and flags that std::size_t gives, however many elements are stored.", "quantifier": "all histories of insert, insert_or_assign and resize, all integer types of the stored indices that hold the rows and columns, all values", "why_tests_cant": "The first failure with int needs 2^31 elements; which types and which calls are affected is not visible in small matrices, and the call that stores the element too many reports success for narrow and unsigned types.", "anchors": ["include/core/matrix_sparse_data.hpp: insert, insert_or_assign, resize, lower_bound"]}
{"id": "C229", "title": "Signs of equations and unknowns do not matter to the direct solver, whatever operations are fused", "statement": "Change the signs of any equations (a row of the matrix and its right hand side) and of any unknowns (a column of the matrix) of a system of doubles. Compiled for a target with fused multiply-add, where the compiler may contract any of the operations v - a * b and leave others, but makes the same choice in both runs, the direct solver accepts or rejects both matrices alike, chooses the same pivots, and the computed solutions differ by the signs of the unknowns only, to the last bit. Hence which operations are contracted cannot give a direction a preference.", "quantifier": "All systems of all sizes with any doubles, also infinite ones and NaN; all choices of signs; with and without pivoting; all choices of fused operations.", "why_tests_cant": "What is contracted depends on target, compiler and optimisation level, a test sees one choice and compares within tolerances.", "anchors": ["include/solver/direct_lower_upper_factorisation.hpp: factorise, solve_system"]}
{"id": "C230", "title": "Pivoting changes nothing for matrices whose columns are dominated by the diagonal, whatever operations are fused", "statement": "For a matrix of doubles whose columns are dominated by the diagonal by a margin for rounding, the direct solver with pivoting interchanges no equations, compiled with any choice of contracted operations v - a * b: both direct solvers accept the matrix, have the same factors and give the same solution for every right hand side, initial vector and in place.  If the rows are dominated as well, the solution of the pivoting solver is finite, bounded, and close to the exact one by the bound of C223.", "quantifier": "all sizes, all matrices of doubles with dominated columns and numbers up to 2^900 (2^400 for the accuracy), all right hand sides, all choices of fused operations", "why_tests_cant": "Whether an element below the pivot becomes the larger one by rounding depends on which products the compiler leaves unrounded; tests see one compiler and a few matrices.", "anchors": ["include/solver/direct_lower_upper_factorisation.hpp: factorise, solve_system"]}
{"id": "C231", "title": "The direct solver without pivoting keeps the order of right hand sides for dominant matrices with nonpositive coupling, whatever operations are fused", "statement": "Let the matrix be as in C198: doubles on the diagonal up to A, no positive element off the diagonal, rows which add up to at least the factorisation tolerance plus n*A/2^50.  Compiled with any choice of contracted operations v - a * b, factorise of Solver_LU (no pivoting) returns true.  If b <= b' <= b'' hold element by element, and solve_system gives finite numbers x for b and x'' for b'', then it gives finite numbers x' for b', and x <= x' <= x'' hold element by element.  No element of a finite solution for a right hand side without negative elements is negative.", "quantifier": "all sizes up to 2^50, all such matrices, tolerances and right hand sides, all contents of the solution vector before the call, all choices of fused operations that are the same for the right hand sides that are compared", "why_tests_cant": "Which products are rounded before they are subtracted depends on the compiler; a test sees one choice, and contraction may change the sign of a small remainder.", "anchors": ["include/solver/direct_lower_upper_factorisation.hpp: factorise, solve_system"]}
{"id": "C232", "title": "Bounds that are integers hold with doubles, whatever operations are fused", "statement": "Let the elements of the matrix be integers stored as doubles, positive on the diagonal and not positive elsewhere, and let two integers bound the problem as in C186: the right hand side lies between the products of the matrix with the constant vectors of the bounds, and those products are below 2^53.  Compiled with any choice of contracted operations s + a * b, which may be another one in every iteration and for every unknown, no iterate of Jacobi or Gauss Seidel that starts between the bounds overflows or leaves them, after any number of iterations.  So for every undirected graph in which all vertices are joined to given ones, the program that stores the matrix of the mean value problem satisfies the maximum principle exactly, whatever the compiler contracts.", "quantifier": "all sizes, all such matrices, all graphs below 2^52 vertices and sets of given vertices, all integer bounds, right hand sides and starting vectors, all numbers of iterations, all choices of fused operations", "why_tests_cant": "A test sees one compiler; contraction changes the last bits of nearly every iterate, and a value at a bound could leave it in one iteration of many.", "anchors": ["src/solver/solver_fixed_point.cpp", "include/core/matrix_sparse.hpp", "include/graph/adjacency_graph.hpp"]}
{"id": "C233", "title": "Order of Jacobi and Gauss Seidel iterates with fused operations", "statement": "For a square sparse matrix of doubles with a positive diagonal and no positive element elsewhere, let Jacobi or Gauss Seidel run the same number of iterations three times, with right hand sides and starting vectors which rise from run to run, compiled to a program in which any product that is added or subtracted may be rounded or fused with the sum, the choice depending on which operation it is and not on the numbers. If the last iterates of the first and third run are finite, then the iterate of the second run is finite and lies between them in every place. In particular finite iterates for a right hand side and a start without negative numbers have no negative number.", "quantifier": "all sizes, matrices of this sign pattern, right hand sides, starts, numbers of iterations, previous contents of working storage and choices of fused operations", "why_tests_cant": "Each compiler fuses differently, and a test sees the numbers of one program; order in every place for every choice is not visible in samples.", "anchors": ["src/solver/solver_fixed_point.cpp"]}
{"id": "C234", "title": "Signs of equations and unknowns do not matter to the fixed point solvers, whatever operations are fused", "statement": "Change the signs of any equations (a row of a sparse matrix and its right hand side) and of any unknowns (a column of the matrix and the starting value) of a system of doubles. Compiled for a target with fused multiply-add, where the compiler may contract any of the operations v + a * b and v - a * b and leave others, but makes the same choice in both runs, Jacobi, Gauss Seidel and successive over relaxation with the same limits take the same number of iterations, report the same residuals, and return solutions which differ by the signs of the unknowns only, to the last bit; or both do not end within any given number of iterations. A stored zero on the diagonal is excluded.", "quantifier": "all sizes from 1 to 2^31-1, all choices of equations and unknowns, all matrices, right hand sides and starting values of doubles, infinities and NaN included, all limits, all previous contents of the solvers, all choices of fused operations", "why_tests_cant": "Fused operations differ between compilers and targets, and a test runs on one; that no choice prefers a sign in any operation of any iteration, also in the stopping test, is a claim about all programs.", "anchors": ["src/solver/solver_fixed_point.cpp", "include/solver/solver_utilities.hpp"]}
{"id": "C235", "title": "Fill-in of the direct solver follows paths through earlier unknowns whatever operations are fused", "statement": "Compile the direct solver for a target with fused multiply-add, where the compiler may contract any of the operations v - a * b and leave others. Take a matrix of doubles which the solver without pivoting accepts with finite factors, for any tolerance above zero. An element of the factors that is not zero has a path of elements of the matrix that are not zero from its row to its column by way of unknowns before both of them; all other elements of the factors are exactly zero. So for a matrix along the edges of an undirected graph both triangles of the factors stay in the profile of the graph, and neither has more elements besides zeros than the profile has positions. If the later neighbours of every vertex are neighbours of each other, the factors have elements besides zeros along the edges and on the diagonal only; this is so for each tree of any shape after reordering by cuthill_mckee_reverse, from any root and from the default one.", "quantifier": "all sizes, matrices, graphs, trees, roots and tolerances above zero; any implementation of std::sort; all choices of fused operations; IEEE 754 double arithmetic", "why_tests_cant": "Which products a compiler fuses depends on target and version; an element that should be zero and is tiny instead, for one choice and one pattern, does not show in a comparison with a tolerance.", "anchors": ["include/solver/direct_lower_upper_factorisation.hpp: factorise", "src/graph/reorder.cpp: cuthill_mckee_reverse", "include/graph/adjacency_graph.hpp: reorder"]}
{"id": "C236", "title": "Rounding errors of the direct solver grow with the degree on trees whatever operations are fused", "statement": "Compile the direct solver for a target with fused multiply-add, where the compiler may contract any of the operations v - a * b and leave others. Let the solver without pivoting accept a system of doubles with finite factors which have at most b elements besides zeros in each row on each side of the diagonal, wherever these are. Then the product of the factors differs from the matrix by at most relError(b+1)*|L||U| plus underflow, and each finite solution leaves a residual of at most (b+1)/2^50*|L||U||x| plus underflow, whatever the number of unknowns is. For systems along a graph in which the later neighbours of every vertex are neighbours of each other, b is the largest degree; so for every tree of any shape after reordering by cuthill_mckee_reverse, from any root and from the default one. If the rows are dominated by the diagonal by at least S, with sums of absolute values of at most A, at most 2^400, and S at least t + n*A/2^47 for n unknowns and the tolerance t, at least 2^-100, then the system on the tree is accepted, for every right hand side of size at most D, D at most 2^400, the solution returned is finite, no element exceeds 8*(D + A/2^900)/S, and each differs from the exact solution by at most (b+1)^2 * (A/S) * (D/S/2^44 + 2^-440).", "quantifier": "all sizes, matrices, right hand sides of doubles and tolerances above zero; all trees, roots and results of std::sort for vertices of equal degree; degrees below 2^52; all choices of fused operations; IEEE 754 double arithmetic", "why_tests_cant": "A bound on errors for all systems on all trees and all choices of a compiler can not be sampled; a test sees one compiler, a few trees and a few right hand sides.", "anchors": ["include/solver/direct_lower_upper_factorisation.hpp: factorise", "include/solver/direct_lower_upper_factorisation.hpp: solve_system", "src/graph/reorder.cpp: cuthill_mckee_reverse"]}
{"id": "C237", "title": "Equations times powers of two do not change the direct solver without pivoting whatever operations are fused", "statement": "Compile the direct solver for a target with fused multiply-add, where the compiler may contract any of the operations v - a * b and leave others. With doubles and without pivoting, multiply each equation of a system, right hand side included, by its own power of two 2^e with e at least 0, and let the same code run on both systems. If the direct solver accepts the larger system and its factors and solution are finite, then it also accepts the system without the powers of two and returns the same solution to the last bit, with the upper factor divided by the powers and each multiplier divided by the quotient of the two powers, provided that the pivots without the powers reach the tolerance, that products in the smaller system are multiples of 2^-1074, and that the multipliers between equations with different powers are neither too small nor too large to keep all digits, or come from zeros. Products that are zero or at least 2^-969 in size are such multiples. If all equations have the same power nothing is needed of the multipliers for the factors. If a fused product is no multiple of 2^-1074 the factors may differ.", "quantifier": "all sizes, matrices and right hand sides of doubles, exponents per equation, positive tolerances, previous contents of the solvers and the solution vectors; all choices of fused operations, the same ones for both systems; IEEE 754 double arithmetic", "why_tests_cant": "Equality to the last bit for all systems, all powers and all choices of a compiler can not be sampled; a test sees one compiler and a few systems.", "anchors": ["include/solver/direct_lower_upper_factorisation.hpp: factorise", "include/solver/direct_lower_upper_factorisation.hpp: solve_system"]}
{"id": "C238", "title": "Equations times powers of two do not change the iterates of the fixed point solvers whatever operations are fused", "statement": "Compile the fixed point solvers for a target with fused multiply-add, where the compiler may contract any of the operations v + a * b and leave others. With doubles, multiply each equation of a system (a row of a sparse matrix and its right hand side) by its own power of two 2^e with e at least 0, so that nothing is rounded or overflows, and let the same code run on both systems. If the Jacobi or Gauss Seidel iterates of the larger system are finite up to some iteration, then the iterates of the smaller system from the same start are the same up to there, to the last bit, provided that the products of stored elements off the diagonal of the smaller system and values in these iterates are multiples of 2^-1074, as all products of doubles are that are zero or at least 2^-969 in size. For successive over relaxation the same holds if these products and the right hand side are multiples of 2^-1073, as products of doubles are that are zero or at least 2^-968 in size. If a fused product is no such multiple, the iterates may differ.", "quantifier": "all square sparse matrices of finite numbers of any size with a stored diagonal, right hand sides of doubles, finite starts, exponents per equation, numbers of iterations and previous contents of the solvers; all choices of fused operations, the same ones for both systems; IEEE 754 double arithmetic", "why_tests_cant": "Equality to the last bit of all iterates for all systems, all powers and all choices of a compiler can not be sampled; a test sees one compiler and a few systems.", "anchors": ["src/solver/solver_fixed_point.cpp: solve_system", "include/solver/solver_utilities.hpp: forward_sweep"]}
