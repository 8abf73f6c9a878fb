{
 "claims": [
  {
   "property": "C01",
   "status": "proved",
   "theorems": [
    "Disa.Props.c01_insert_history",
    "Disa.Props.c01_insert_loop_exits",
    "Disa.Props.c01_contains_loop_exits"
   ],
   "note": ""
  },
  {
   "property": "C02",
   "status": "proved",
   "theorems": [
    "Disa.Props.c02_spans",
    "Disa.Props.c02_symmetric",
    "Disa.Props.c02_degree_sum"
   ],
   "note": "Histories run resize with its stray write (C07) dropped."
  },
  {
   "property": "C03",
   "status": "proved",
   "theorems": [
    "Disa.Props.c03_order_independent"
   ],
   "note": ""
  },
  {
   "property": "C04",
   "status": "proved",
   "theorems": [
    "Disa.Props.c04_erase_if"
   ],
   "note": ""
  },
  {
   "property": "C05",
   "status": "partial",
   "theorems": [
    "Disa.Props.c05_violated",
    "Disa.Props.c05_erase_if_ub_iff",
    "Disa.Props.c05_erase_if_safe_partial"
   ],
   "note": "The code violates the property; the exact condition for undefined behaviour is proved."
  },
  {
   "property": "C06",
   "status": "proved",
   "theorems": [
    "Disa.Props.c06_resize",
    "Disa.Props.c06_largest"
   ],
   "note": "The write one past the end of the offsets (C07) is dropped in this model variant."
  },
  {
   "property": "C07",
   "status": "partial",
   "theorems": [
    "Disa.Props.c07_violated",
    "Disa.Props.c07_resize_ub_iff",
    "Disa.Props.c07_resize_safe_partial"
   ],
   "note": "The code violates the property; the exact condition for undefined behaviour is proved."
  },
  {
   "property": "C08",
   "status": "proved",
   "theorems": [
    "Disa.Props.c08_reorder"
   ],
   "note": ""
  },
  {
   "property": "C09",
   "status": "partial",
   "theorems": [
    "Disa.Props.c09_violated",
    "Disa.Props.c09_violated_ub",
    "Disa.Props.c09_violated_self_loop",
    "Disa.Props.c09_reorder_rejects_partial"
   ],
   "note": "The code violates the property: only length and sum are checked."
  },
  {
   "property": "C10",
   "status": "proved",
   "theorems": [
    "Disa.Props.c10_queries_safe"
   ],
   "note": ""
  },
  {
   "property": "C100",
   "status": "proved",
   "theorems": [
    "Disa.Props.c100_dot",
    "Disa.Props.c100_finite",
    "Disa.Props.c100_binary64",
    "Disa.Props.c100_range"
   ],
   "note": "c100_binary64 and c100_range show that doubles meet the hypotheses."
  },
  {
   "property": "C101",
   "status": "proved",
   "theorems": [
    "Disa.Props.c101_sparse",
    "Disa.Props.c100_binary64"
   ],
   "note": ""
  },
  {
   "property": "C102",
   "status": "proved",
   "theorems": [
    "Disa.Props.c102_returns",
    "Disa.Props.c102_backward",
    "Disa.Props.c102_relError",
    "Disa.Props.c102_absError",
    "Disa.Props.c100_binary64"
   ],
   "note": ""
  },
  {
   "property": "C103",
   "status": "partial",
   "theorems": [
    "Disa.Props.c103_violated",
    "Disa.Props.c103_infinite",
    "Disa.Props.c103_nan",
    "Disa.Props.c103_growth",
    "Disa.Props.c103_partial"
   ],
   "note": "The code violates the claim, in the way that the statement gives in parentheses (`_violated`). The conditions given there, under which it holds, or what holds instead, are proved by the other theorems."
  },
  {
   "property": "C104",
   "status": "proved",
   "theorems": [
    "Disa.Props.c104_compose",
    "Disa.Props.c104_identity",
    "Disa.Props.c104_inverse"
   ],
   "note": ""
  },
  {
   "property": "C105",
   "status": "proved",
   "theorems": [
    "Disa.Props.c105_levels"
   ],
   "note": ""
  },
  {
   "property": "C106",
   "status": "proved",
   "theorems": [
    "Disa.Props.c106_breadth_first",
    "Disa.Props.c106_cuthill_mckee"
   ],
   "note": ""
  },
  {
   "property": "C107",
   "status": "partial",
   "theorems": [
    "Disa.Props.c107_violated",
    "Disa.Props.c107_first_partial",
    "Disa.Props.c107_split"
   ],
   "note": "The code violates the claim, in the way that the statement gives in parentheses (`_violated`). The conditions given there, under which it holds, or what holds instead, are proved by the other theorems."
  },
  {
   "property": "C108",
   "status": "partial",
   "theorems": [
    "Disa.Props.c108_violated",
    "Disa.Props.c108_stops",
    "Disa.Props.c108_partial"
   ],
   "note": "The code violates the claim, in the way that the statement gives in parentheses (`_violated`). The conditions given there, under which it holds, or what holds instead, are proved by the other theorems."
  },
  {
   "property": "C109",
   "status": "proved",
   "theorems": [
    "Disa.Props.c109_step"
   ],
   "note": ""
  },
  {
   "property": "C11",
   "status": "proved",
   "theorems": [
    "Disa.Props.c11_hash_value",
    "Disa.Props.c11_hash_empty",
    "Disa.Props.c11_equal_graphs_equal_hashes",
    "Disa.Props.c11_collide",
    "Disa.Props.c11_hash_not_injective"
   ],
   "note": ""
  },
  {
   "property": "C110",
   "status": "proved",
   "theorems": [
    "Disa.Props.c110_dominant",
    "Disa.Props.c110_ratio",
    "Disa.Props.c110_offset"
   ],
   "note": ""
  },
  {
   "property": "C111",
   "status": "proved",
   "theorems": [
    "Disa.Props.c111_norms",
    "Disa.Props.c111_root",
    "Disa.Props.c111_count"
   ],
   "note": ""
  },
  {
   "property": "C112",
   "status": "partial",
   "theorems": [
    "Disa.Props.c112_violated",
    "Disa.Props.c112_partial"
   ],
   "note": "The code violates the claim, in the way that the statement gives in parentheses (`_violated`). The conditions given there, under which it holds, or what holds instead, are proved by the other theorems."
  },
  {
   "property": "C113",
   "status": "partial",
   "theorems": [
    "Disa.Props.c113_violated",
    "Disa.Props.c113_partial"
   ],
   "note": "The code violates the claim, in the way that the statement gives in parentheses (`_violated`). The conditions given there, under which it holds, or what holds instead, are proved by the other theorems."
  },
  {
   "property": "C114",
   "status": "partial",
   "theorems": [
    "Disa.Props.c114_violated",
    "Disa.Props.c114_jacobi_partial",
    "Disa.Props.c114_order_partial"
   ],
   "note": "The code violates the claim, in the way that the statement gives in parentheses (`_violated`). The conditions given there, under which it holds, or what holds instead, are proved by the other theorems."
  },
  {
   "property": "C115",
   "status": "proved",
   "theorems": [
    "Disa.Props.c115_colours"
   ],
   "note": ""
  },
  {
   "property": "C116",
   "status": "proved",
   "theorems": [
    "Disa.Props.c116_visit"
   ],
   "note": ""
  },
  {
   "property": "C117",
   "status": "proved",
   "theorems": [
    "Disa.Props.c117_assign"
   ],
   "note": ""
  },
  {
   "property": "C118",
   "status": "partial",
   "theorems": [
    "Disa.Props.c118_violated",
    "Disa.Props.c118_partial"
   ],
   "note": "The code violates the claim, in the way that the statement gives in parentheses (`_violated`). The conditions given there, under which it holds, or what holds instead, are proved by the other theorems."
  },
  {
   "property": "C119",
   "status": "partial",
   "theorems": [
    "Disa.Props.c119_violated",
    "Disa.Props.c119_partial"
   ],
   "note": "The code violates the claim, in the way that the statement gives in parentheses (`_violated`). The conditions given there, under which it holds, or what holds instead, are proved by the other theorems."
  },
  {
   "property": "C12",
   "status": "proved",
   "theorems": [
    "Disa.Props.c12_level_traversal",
    "Disa.Props.c12_level_traversal_default",
    "Disa.Props.c12_level_traversal_queue"
   ],
   "note": ""
  },
  {
   "property": "C120",
   "status": "partial",
   "theorems": [
    "Disa.Props.c120_violated",
    "Disa.Props.c120_partial"
   ],
   "note": "The code violates the claim, in the way that the statement gives in parentheses (`_violated`). The conditions given there, under which it holds, or what holds instead, are proved by the other theorems."
  },
  {
   "property": "C121",
   "status": "partial",
   "theorems": [
    "Disa.Props.c121_violated",
    "Disa.Props.c121_partial"
   ],
   "note": "The code violates the claim, in the way that the statement gives in parentheses (`_violated`). The conditions given there, under which it holds, or what holds instead, are proved by the other theorems."
  },
  {
   "property": "C122",
   "status": "proved",
   "theorems": [
    "Disa.Props.c122_tolerance",
    "Disa.Props.c122_exact",
    "Disa.Props.c122_doubles"
   ],
   "note": ""
  },
  {
   "property": "C123",
   "status": "partial",
   "theorems": [
    "Disa.Props.c123_violated",
    "Disa.Props.c123_partial"
   ],
   "note": "The code violates the claim, in the way that the statement gives in parentheses (`_violated`). The conditions given there, under which it holds, or what holds instead, are proved by the other theorems."
  },
  {
   "property": "C124",
   "status": "proved",
   "theorems": [
    "Disa.Props.c124_linear"
   ],
   "note": ""
  },
  {
   "property": "C125",
   "status": "partial",
   "theorems": [
    "Disa.Props.c125_violated",
    "Disa.Props.c125_large",
    "Disa.Props.c125_small",
    "Disa.Props.c125_partial",
    "Disa.Props.c125_nan"
   ],
   "note": "The code violates the claim, in the way that the statement gives in parentheses (`_violated`). The conditions given there, under which it holds, or what holds instead, are proved by the other theorems."
  },
  {
   "property": "C126",
   "status": "partial",
   "theorems": [
    "Disa.Props.c126_violated",
    "Disa.Props.c126_overflow",
    "Disa.Props.c126_two_partial",
    "Disa.Props.c126_partial"
   ],
   "note": "The code violates the claim, in the way that the statement gives in parentheses (`_violated`). The conditions given there, under which it holds, or what holds instead, are proved by the other theorems."
  },
  {
   "property": "C127",
   "status": "partial",
   "theorems": [
    "Disa.Props.c127_violated",
    "Disa.Props.c127_overflow",
    "Disa.Props.c127_max_partial",
    "Disa.Props.c127_sum_partial",
    "Disa.Props.c127_euclid_partial"
   ],
   "note": "The code violates the claim, in the way that the statement gives in parentheses (`_violated`). The conditions given there, under which it holds, or what holds instead, are proved by the other theorems."
  },
  {
   "property": "C128",
   "status": "partial",
   "theorems": [
    "Disa.Props.c128_violated",
    "Disa.Props.c128_partial"
   ],
   "note": "The code violates the claim, in the way that the statement gives in parentheses (`_violated`). The conditions given there, under which it holds, or what holds instead, are proved by the other theorems."
  },
  {
   "property": "C129",
   "status": "proved",
   "theorems": [
    "Disa.Props.c129_dense",
    "Disa.Props.c129_vector",
    "Disa.Props.c129_product",
    "Disa.Props.c129_sum"
   ],
   "note": ""
  },
  {
   "property": "C13",
   "status": "proved",
   "theorems": [
    "Disa.Props.c13_single_vertex_exits",
    "Disa.Props.c13_exits_iff"
   ],
   "note": ""
  },
  {
   "property": "C130",
   "status": "proved",
   "theorems": [
    "Disa.Props.c130_add_comm",
    "Disa.Props.c130_add_assoc",
    "Disa.Props.c130_mul_assoc",
    "Disa.Props.c130_distrib",
    "Disa.Props.c130_vector"
   ],
   "note": ""
  },
  {
   "property": "C131",
   "status": "proved",
   "theorems": [
    "Disa.Props.c131_dot",
    "Disa.Props.c131_norm",
    "Disa.Props.c131_mean",
    "Disa.Props.c131_angle",
    "Disa.Props.c131_cross",
    "Disa.Props.c131_self",
    "Disa.Props.c131_projection",
    "Disa.Props.c131_matrix"
   ],
   "note": ""
  },
  {
   "property": "C132",
   "status": "proved",
   "theorems": [
    "Disa.Props.c132_fixed",
    "Disa.Props.c132_direct"
   ],
   "note": ""
  },
  {
   "property": "C133",
   "status": "proved",
   "theorems": [
    "Disa.Props.c133_projection"
   ],
   "note": ""
  },
  {
   "property": "C134",
   "status": "proved",
   "theorems": [
    "Disa.Props.c134_product",
    "Disa.Props.c134_vector",
    "Disa.Props.c134_order"
   ],
   "note": ""
  },
  {
   "property": "C135",
   "status": "proved",
   "theorems": [
    "Disa.Props.c135_cross"
   ],
   "note": ""
  },
  {
   "property": "C136",
   "status": "proved",
   "theorems": [
    "Disa.Props.c136_vector",
    "Disa.Props.c136_matrix",
    "Disa.Props.c136_sparse",
    "Disa.Props.c136_norm",
    "Disa.Props.c136_direct",
    "Disa.Props.c136_fixed",
    "Disa.Props.c136_zero_tolerance",
    "Disa.Props.c136_zero_diagonal"
   ],
   "note": ""
  },
  {
   "property": "C137",
   "status": "proved",
   "theorems": [
    "Disa.Props.c137_text",
    "Disa.Props.c137_graph",
    "Disa.Props.c137_subgraph_text",
    "Disa.Props.c137_subgraph"
   ],
   "note": ""
  },
  {
   "property": "C138",
   "status": "partial",
   "theorems": [
    "Disa.Props.c138_violated",
    "Disa.Props.c138_text",
    "Disa.Props.c138_columns",
    "Disa.Props.c138_partial"
   ],
   "note": "The code violates the property: the number of columns is not printed."
  },
  {
   "property": "C139",
   "status": "partial",
   "theorems": [
    "Disa.Props.c139_violated",
    "Disa.Props.c139_first",
    "Disa.Props.c139_partial",
    "Disa.Props.c139_fixed",
    "Disa.Props.c139_returns",
    "Disa.Props.c139_zero"
   ],
   "note": "The code violates the property: the constants are overwritten by the first iteration."
  },
  {
   "property": "C14",
   "status": "proved",
   "theorems": [
    "Disa.Props.c14_pseudo_peripheral",
    "Disa.Props.c14_pseudo_peripheral_disconnected"
   ],
   "note": ""
  },
  {
   "property": "C140",
   "status": "partial",
   "theorems": [
    "Disa.Props.c140_violated",
    "Disa.Props.c140_direct",
    "Disa.Props.c140_iterative",
    "Disa.Props.c140_partial"
   ],
   "note": "The code violates the property: the reference is to a temporary."
  },
  {
   "property": "C141",
   "status": "partial",
   "theorems": [
    "Disa.Props.c141_violated",
    "Disa.Props.c141_column",
    "Disa.Props.c141_column_never",
    "Disa.Props.c141_row",
    "Disa.Props.c141_insert",
    "Disa.Props.c141_full",
    "Disa.Props.c141_insert_partial",
    "Disa.Props.c141_insert_wrong"
   ],
   "note": "The code violates the property: the arguments are read again after the storage has changed. Proved are the exact conditions."
  },
  {
   "property": "C142",
   "status": "partial",
   "theorems": [
    "Disa.Props.c142_violated",
    "Disa.Props.c142_wrap",
    "Disa.Props.c142_sizes",
    "Disa.Props.c142_reserve_partial",
    "Disa.Props.c142_insert",
    "Disa.Props.c142_reserve_insert",
    "Disa.Props.c142_keep"
   ],
   "note": "The code violates the property for sizes that wrap around. Proved for every size that does not, and the rest of the property for all graphs."
  },
  {
   "property": "C143",
   "status": "partial",
   "theorems": [
    "Disa.Props.c143_violated",
    "Disa.Props.c143_wrong",
    "Disa.Props.c143_cycle",
    "Disa.Props.c143_grown_parent",
    "Disa.Props.c143_parent_partial",
    "Disa.Props.c143_shrunk_parent",
    "Disa.Props.c143_resize",
    "Disa.Props.c143_ub_iff",
    "Disa.Props.c143_clear",
    "Disa.Props.c143_swap"
   ],
   "note": "The code violates the property for parents whose hash is zero. Proved for all other parents, and the rest of the property, apart from the stray write of C07, for all subgraphs."
  },
  {
   "property": "C144",
   "status": "partial",
   "theorems": [
    "Disa.Props.c144_violated",
    "Disa.Props.c144_empty",
    "Disa.Props.c144_graph",
    "Disa.Props.c144_subgraph",
    "Disa.Props.c144_no_levels",
    "Disa.Props.c144_partial"
   ],
   "note": "The code violates what is documented for subgraphs without edges. The rest is proved for all graphs and subgraphs."
  },
  {
   "property": "C145",
   "status": "proved",
   "theorems": [
    "Disa.Props.c145_visit",
    "Disa.Props.c145_row"
   ],
   "note": ""
  },
  {
   "property": "C146",
   "status": "proved",
   "theorems": [
    "Disa.Props.c146_update",
    "Disa.Props.c146_row",
    "Disa.Props.c146_scale"
   ],
   "note": ""
  },
  {
   "property": "C147",
   "status": "proved",
   "theorems": [
    "Disa.Props.c147_step",
    "Disa.Props.c147_nested",
    "Disa.Props.c147_largest"
   ],
   "note": "One step of the loop adds one part; the conversion of half the highest level to double and back is exact or, for unreachable vertices, decides the same.  The bound 2^53 is that of the conversion."
  },
  {
   "property": "C148",
   "status": "proved",
   "theorems": [
    "Disa.Props.c148_elements",
    "Disa.Props.c148_determined",
    "Disa.Props.c148_order",
    "Disa.Props.c148_distinct",
    "Disa.Props.c148_sums"
   ],
   "note": "The doubles of the code are any scalars in the first four theorems; the last needs a sum that does not depend on the order, as of rationals."
  },
  {
   "property": "C149",
   "status": "proved",
   "theorems": [
    "Disa.Props.c149_resize",
    "Disa.Props.c149_same_size",
    "Disa.Props.c149_grow_back",
    "Disa.Props.c149_insert_resize",
    "Disa.Props.c149_erase_twice",
    "Disa.Props.c149_erase_tail",
    "Disa.Props.c149_erase_none",
    "Disa.Props.c149_reorder_erase"
   ],
   "note": "The graphs are identical, also in their storage; where a result has no vertices the storage of empty graphs may differ, so the laws of erase_if are stated for results with vertices."
  },
  {
   "property": "C15",
   "status": "proved",
   "theorems": [
    "Disa.Props.c15_level_expansion",
    "Disa.Props.c15_bad_seeds_exit"
   ],
   "note": ""
  },
  {
   "property": "C150",
   "status": "proved",
   "theorems": [
    "Disa.Props.c150_passes",
    "Disa.Props.c150_converged",
    "Disa.Props.c150_unreached",
    "Disa.Props.c150_no_centre"
   ],
   "note": "About the iterations with the table as a parameter, because the function that fills it is undefined for graphs with edges (C16)."
  },
  {
   "property": "C151",
   "status": "partial",
   "theorems": [
    "Disa.Props.c151_violated",
    "Disa.Props.c151_sizes",
    "Disa.Props.c151_values",
    "Disa.Props.c151_reserve_partial",
    "Disa.Props.c151_reserve_insert",
    "Disa.Props.c151_grow",
    "Disa.Props.c151_keep",
    "Disa.Props.c151_wrap"
   ],
   "note": "Violated: for the largest number of rows the number of offsets wraps to zero and none are reserved.  Proved for all smaller numbers.  Further: if columns and values are allocated alike, the values have the capacity that is reported for the columns."
  },
  {
   "property": "C152",
   "status": "partial",
   "theorems": [
    "Disa.Props.c152_violated",
    "Disa.Props.c152_partial",
    "Disa.Props.c152_wrong",
    "Disa.Props.c152_full",
    "Disa.Props.c152_swap"
   ],
   "note": "Violated if the second element is absent and comes before the first one: its insertion moves the first element away from its reference, which is then to the last element in front of it (c152_wrong).  Proved for all other pairs.  Without room the first reference dangles if the second element has to be made (c152_full); elements that are there can be swapped without room (c152_swap)."
  },
  {
   "property": "C153",
   "status": "partial",
   "theorems": [
    "Disa.Props.c153_violated",
    "Disa.Props.c153_empty",
    "Disa.Props.c153_clear",
    "Disa.Props.c153_asked",
    "Disa.Props.c153_resize",
    "Disa.Props.c153_partial"
   ],
   "note": "Violated: `Matrix_Sparse(0, 5)` and `resize(0, 5)` leave a matrix with no rows and five columns, against the documentation of `size()`. `c153_empty` proves the claim on `empty()` and elements for every history, `c153_clear`, `c153_asked` and `c153_resize` the sizes after these calls, and `c153_partial` that columns without rows only arise when a constructor or `resize` is asked for them: every other call, products included, keeps the documented rule."
  },
  {
   "property": "C154",
   "status": "proved",
   "theorems": [
    "Disa.Props.c154_solution",
    "Disa.Props.c154_levels",
    "Disa.Props.c154_iterations",
    "Disa.Props.c154_lower",
    "Disa.Props.c154_tends",
    "Disa.Props.c154_backward"
   ],
   "note": "`Levels` says that elements off the diagonal lead to rows of lower levels; `levels_lower` and `levels_upper` show it for triangular matrices. `c154_levels` is the exact result of `solve_system`, `c154_iterations` the bound on the iterations, `c154_lower` the single Gauss Seidel iteration, `c154_tends` convergence of all three methods. `c154_backward` is the corresponding statement for the backward sweep, which no solver uses."
  },
  {
   "property": "C155",
   "status": "partial",
   "theorems": [
    "Disa.Props.c155_violated",
    "Disa.Props.c155_assigned",
    "Disa.Props.c155_present",
    "Disa.Props.c155_before",
    "Disa.Props.c155_full",
    "Disa.Props.c155_window"
   ],
   "note": "The claim does not hold (`c155_violated`): only the row that is assigned through gets new spans. `c155_assigned`: the assignment itself is right and so is its own row. `c155_present`: all rows stay right if the element was stored. `c155_before`: so do the rows above as long as there is room. `c155_full`: without room for a new element every other row dangles. `c155_window`: with room, a row reads the elements that now lie where its own lay."
  },
  {
   "property": "C156",
   "status": "partial",
   "theorems": [
    "Disa.Props.c156_violated",
    "Disa.Props.c156_partial",
    "Disa.Props.c156_one_type",
    "Disa.Props.c156_negative",
    "Disa.Props.c156_exit",
    "Disa.Props.c156_loss",
    "Disa.Props.c156_overflow"
   ],
   "note": "The claim does not hold (`c156_violated`): insert converts the current number of columns to the type of its arguments before it appends a row. `c156_partial`: it holds if the type of every call holds the arguments of all calls. `c156_one_type`: in particular with one type for all arguments. `c156_negative`: negative indices end the program. `c156_exit`, `c156_loss`: what appending a row does when the type of the arguments does not hold the number of columns, the program ends or all elements behind the converted number are erased. `c156_overflow`: appending one of the two largest rows of a signed type is undefined."
  },
  {
   "property": "C157",
   "status": "partial",
   "theorems": [
    "Disa.Props.c157_violated",
    "Disa.Props.c157_partial",
    "Disa.Props.c157_exact",
    "Disa.Props.c157_visits",
    "Disa.Props.c157_overflow",
    "Disa.Props.c157_endless",
    "Disa.Props.c157_index"
   ],
   "note": "The claim does not hold (`c157_violated`): counting down from a std::size_t to -1 counts upwards. `c157_partial`: it holds for bounds of one type, for bounds that are not negative and for signed types. `c157_exact`: it holds exactly if the conversion to the common type keeps the distance of the bounds and end is a value of the type of start. `c157_visits`, `c157_overflow`, `c157_endless`: what the loop does in all other cases. `c157_index`: the loop with one bound is right for all types."
  },
  {
   "property": "C158",
   "status": "proved",
   "theorems": [
    "Disa.Props.c158_grow",
    "Disa.Props.c158_shrink",
    "Disa.Props.c158_back"
   ],
   "note": "`c158_grow`: what adding levels keeps, and the order of the new vertices. `c158_shrink`: removing levels keeps the order. `c158_back`: the way there and back gives the former subgraph. When update_levels does not return is C59."
  },
  {
   "property": "C159",
   "status": "partial",
   "theorems": [
    "Disa.Props.c159_vectors",
    "Disa.Props.c159_self",
    "Disa.Props.c159_matrices",
    "Disa.Props.c159_violated",
    "Disa.Props.c159_products",
    "Disa.Props.c159_products_partial"
   ],
   "note": "The operations on elements are as claimed (`c159_vectors`, `c159_self`, `c159_matrices`). The product of matrices is not: the sum of the first terms can leave a signed type although the result does not (`c159_violated`; a row 2147483647, 1, -1 and a column of ones for int). `c159_products` is what products do exactly: undefined if and only if one of the terms or one of the sums of the first terms is not a value of the signed type, and reduced for unsigned types. `c159_products_partial`: right for unsigned types, and for entries bounded so that no sum can leave the type. Types narrower than int are not modelled."
  },
  {
   "property": "C16",
   "status": "partial",
   "theorems": [
    "Disa.Props.c16_violated",
    "Disa.Props.c16_eccentricity_ub_iff",
    "Disa.Props.c16_eccentricity_safe_partial"
   ],
   "note": "The code violates the property on every graph with an edge; the exact condition is proved."
  },
  {
   "property": "C160",
   "status": "partial",
   "theorems": [
    "Disa.Props.c160_violated",
    "Disa.Props.c160_dot",
    "Disa.Props.c160_dot_partial",
    "Disa.Props.c160_apply_partial",
    "Disa.Props.c160_sizes",
    "Disa.Props.c160_mean",
    "Disa.Props.c160_norm1",
    "Disa.Props.c160_norm2",
    "Disa.Props.c160_max_partial",
    "Disa.Props.c160_max_least"
   ],
   "note": "mean, lp_norm<1> and lp_norm<2> are as claimed. dot_product is not: the products are formed in the (promoted) type of the elements, so that 65536 times 65536 is undefined for int and zero for unsigned int, and 65535 times 65535 undefined for unsigned short (`c160_violated`). `c160_dot` is what it does exactly, `c160_dot_partial` and, for square matrices, `c160_apply_partial` the cases where it is right. (For other matrices the product with a vector has the wrong size, C41.) lp_norm<0> of vectors with the least value of int is undefined (`c160_max_least`), and right otherwise (`c160_max_partial`)."
  },
  {
   "property": "C161",
   "status": "partial",
   "theorems": [
    "Disa.Props.c161_violated",
    "Disa.Props.c161_unit",
    "Disa.Props.c161_angle"
   ],
   "note": "The factor 1/|v| is converted to the type of the elements, which makes it 0 unless the vector has length one (`c161_violated`: unit of 0, 5). `c161_unit`: unit returns vectors of length one, and the zero vector for all others. `c161_angle`: angle is right for two vectors of length one and 90 degrees (1 radian) for all others; it uses the values of acos at -1, 0 and 1."
  },
  {
   "property": "C162",
   "status": "partial",
   "theorems": [
    "Disa.Props.c162_violated",
    "Disa.Props.c162_corrupts",
    "Disa.Props.c162_path",
    "Disa.Props.c162_fixed",
    "Disa.Props.c162_partial",
    "Disa.Props.c162_isolated"
   ],
   "note": "False: the offsets are reduced before the predicate is called, so that degrees come out too large or too small. Erasing degrees below two from a triangle with a pendant vertex leaves a vertex adjacent to itself (`c162_corrupts`); the path of three vertices loses all of them (`c162_path`). Proved: predicates which do not look at the graph (`c162_fixed`), and predicates on the row of the vertex if no edge touches a vertex to delete (`c162_partial`), in particular degrees below k if all such vertices are isolated (`c162_isolated`)."
  },
  {
   "property": "C163",
   "status": "partial",
   "theorems": [
    "Disa.Props.c163_violated",
    "Disa.Props.c163_asymmetric",
    "Disa.Props.c163_rows",
    "Disa.Props.c163_partial",
    "Disa.Props.c163_dangling"
   ],
   "note": "False: once row i has been cut, the reference shows the first entry of the next row, so all rows after row i are emptied (`c163_rows`); the triangle resized to its entry 2 keeps one direction of the edge (`c163_asymmetric`). An entry of a row which is removed is destroyed and read (`c163_dangling`). `c163_partial`: right if the rows before have nothing to remove and those after nothing to keep. As in C06 the write one past the end of the offsets (C07) is dropped in this model variant."
  },
  {
   "property": "C164",
   "status": "proved",
   "theorems": [
    "Disa.Props.c164_default",
    "Disa.Props.c164_cuthill_mckee",
    "Disa.Props.c164_breadth_first"
   ],
   "note": "`p[0]` and `p[n - 1]` are the ends of the renumbered line."
  },
  {
   "property": "C165",
   "status": "proved",
   "theorems": [
    "Disa.Props.c165_bisection",
    "Disa.Props.c165_equal"
   ],
   "note": "The bound is sharp: six vertices in three parts give two, three and one."
  },
  {
   "property": "C166",
   "status": "proved",
   "theorems": [
    "Disa.Props.c166_default",
    "Disa.Props.c166_corner"
   ],
   "note": "A level is a diagonal of the grid, and `cuthill_mckee` numbers all of them from the same side because the cell on the border has the smaller degree."
  },
  {
   "property": "C167",
   "status": "proved",
   "theorems": [
    "Disa.Props.c167_assemble",
    "Disa.Props.c167_definite",
    "Disa.Props.c167_solvers",
    "Disa.Props.c167_accepted",
    "Disa.Props.c167_bounds",
    "Disa.Props.c167_kernel",
    "Disa.Props.c167_singular"
   ],
   "note": "`laplace` is the program.  `OfGraph` describes the matrix by the degrees and neighbours that the graph reports."
  },
  {
   "property": "C168",
   "status": "proved",
   "theorems": [
    "Disa.Props.c168_monotone",
    "Disa.Props.c168_rising",
    "Disa.Props.c168_falling",
    "Disa.Props.c168_compare",
    "Disa.Props.c168_encloses"
   ],
   "note": "`Signed` is the condition on the matrix.  SOR overshoots, so it is left out."
  },
  {
   "property": "C169",
   "status": "proved",
   "theorems": [
    "Disa.Props.c169_jacobi",
    "Disa.Props.c169_gauss_seidel",
    "Disa.Props.c169_solution"
   ],
   "note": "The maximum index in the output of `levelTraversal` marks the vertices that are not reached."
  },
  {
   "property": "C17",
   "status": "proved",
   "theorems": [
    "Disa.Props.c17_breadth_first",
    "Disa.Props.c17_disconnected_exits",
    "Disa.Props.c17_empty"
   ],
   "note": ""
  },
  {
   "property": "C170",
   "status": "proved",
   "theorems": [
    "Disa.Props.c170_monotone",
    "Disa.Props.c170_settles"
   ],
   "note": "`binary64` rounds to nearest, ties to even.  The result of an iteration being `fin` says that nothing overflowed.  Zeros have no sign here; C136 shows that their signs do not matter."
  },
  {
   "property": "C171",
   "status": "proved",
   "theorems": [
    "Disa.Props.c171_iterates",
    "Disa.Props.c171_solve"
   ],
   "note": "Before the first iteration the residuals are the largest scalar and are not multiplied; `ScaledConv` says so.  With different factors for the equations the residuals change in different ways, so that the number of iterations may change; nothing is claimed about that."
  },
  {
   "property": "C172",
   "status": "proved",
   "theorems": [
    "Disa.Props.c172_power_of_two",
    "Disa.Props.c172_underflow"
   ],
   "note": "Sums and differences of doubles are multiples of 2^-1074 and need no condition.  Successive over relaxation is not covered: its product with 3/2 may round.  Neither is the stopping test, whose squares may underflow."
  },
  {
   "property": "C173",
   "status": "partial",
   "theorems": [
    "Disa.Props.c173_violated",
    "Disa.Props.c173_diagonals"
   ],
   "note": "Violated; `c173_diagonals` gives the order for every grid and the least number of groups."
  },
  {
   "property": "C174",
   "status": "proved",
   "theorems": [
    "Disa.Props.c174_minors",
    "Disa.Props.c174_determinant"
   ],
   "note": ""
  },
  {
   "property": "C175",
   "status": "partial",
   "theorems": [
    "Disa.Props.c175_violated",
    "Disa.Props.c175_small",
    "Disa.Props.c175_tolerance",
    "Disa.Props.c175_larger_partial",
    "Disa.Props.c175_solution_partial"
   ],
   "note": "Violated.  Missing: nothing is claimed about which multiples are accepted with pivoting, other than that small ones are not; the choice of the pivot compares with absolute tolerances too."
  },
  {
   "property": "C176",
   "status": "proved",
   "theorems": [
    "Disa.Props.c176_farthest",
    "Disa.Props.c176_peripheral",
    "Disa.Props.c176_cycles"
   ],
   "note": ""
  },
  {
   "property": "C177",
   "status": "proved",
   "theorems": [
    "Disa.Props.c177_volume",
    "Disa.Props.c177_gauss_seidel",
    "Disa.Props.c177_slow"
   ],
   "note": ""
  },
  {
   "property": "C178",
   "status": "proved",
   "theorems": [
    "Disa.Props.c178_corner",
    "Disa.Props.c178_bisection"
   ],
   "note": ""
  },
  {
   "property": "C179",
   "status": "proved",
   "theorems": [
    "Disa.Props.c179_limits",
    "Disa.Props.c179_reals",
    "Disa.Props.c179_doubles"
   ],
   "note": "The theorem for any scalars takes the comparison of the limits as a hypothesis, which the other two prove from the order of the tolerances."
  },
  {
   "property": "C18",
   "status": "proved",
   "theorems": [
    "Disa.Props.c18_level_order"
   ],
   "note": ""
  },
  {
   "property": "C180",
   "status": "proved",
   "theorems": [
    "Disa.Props.c180_split",
    "Disa.Props.c180_same"
   ],
   "note": ""
  },
  {
   "property": "C181",
   "status": "proved",
   "theorems": [
    "Disa.Props.c181_jacobi",
    "Disa.Props.c181_gauss_seidel",
    "Disa.Props.c181_converges",
    "Disa.Props.c181_definite",
    "Disa.Props.c181_needed",
    "Disa.Props.c181_doubles",
    "Disa.Props.c181_line",
    "Disa.Props.c181_grid",
    "Disa.Props.c181_groups",
    "Disa.Props.c181_reordered"
   ],
   "note": "The order of the products in a row is the same in both solvers, so the theorem for doubles needs no rounding analysis. A value that is not finite would spread through the product with zero of the relaxation."
  },
  {
   "property": "C182",
   "status": "proved",
   "theorems": [
    "Disa.Props.c182_reads",
    "Disa.Props.c182_sizes",
    "Disa.Props.c182_reserve",
    "Disa.Props.c182_reserve_exits",
    "Disa.Props.c182_resize",
    "Disa.Props.c182_reserve_resize",
    "Disa.Props.c182_shrink",
    "Disa.Props.c182_others"
   ],
   "note": "SubRoom (Graph/SubAccess.lean) adds the capacities of the four vectors; how much std::vector allocates is a parameter (Alloc).  The structure Reads lists what the access functions return."
  },
  {
   "property": "C183",
   "status": "proved",
   "theorems": [
    "Disa.Props.c183_solution",
    "Disa.Props.c183_errors",
    "Disa.Props.c183_converges",
    "Disa.Props.c183_exactly",
    "Disa.Props.c183_compare",
    "Disa.Props.c183_between",
    "Disa.Props.c183_box",
    "Disa.Props.c183_overshoots",
    "Disa.Props.c183_direct"
   ],
   "note": "Chained is weak dominance with chains of nonzero elements to strictly dominant rows.  c183_exactly shows that the chains are needed."
  },
  {
   "property": "C184",
   "status": "proved",
   "theorems": [
    "Disa.Props.c184_assemble",
    "Disa.Props.c184_solvable",
    "Disa.Props.c184_between",
    "Disa.Props.c184_mean",
    "Disa.Props.c184_box",
    "Disa.Props.c184_solvers"
   ],
   "note": "The matrix is the one the modelled insert stores, related to the graph through degree and adjacency only.  The example runs the program on a graph with two given vertices."
  },
  {
   "property": "C185",
   "status": "proved",
   "theorems": [
    "Disa.Props.c185_solution",
    "Disa.Props.c185_converges",
    "Disa.Props.c185_given",
    "Disa.Props.c185_replaced",
    "Disa.Props.c185_boundary",
    "Disa.Props.c185_methods"
   ],
   "note": "Energy of the free unknowns plus a large multiple of the squared errors of the given ones decreases.  Jacobi is covered for the systems of graphs only (c185_methods)."
  },
  {
   "property": "C186",
   "status": "proved",
   "theorems": [
    "Disa.Props.c186_box",
    "Disa.Props.c186_graph",
    "Disa.Props.c186_needed"
   ],
   "note": "Constant vectors of integers pass the row operations without rounding, and rounding is monotone (C170).  c186_needed runs the program on a star with the value 0.1."
  },
  {
   "property": "C187",
   "status": "partial",
   "theorems": [
    "Disa.Props.c187_violated",
    "Disa.Props.c187_rejected",
    "Disa.Props.c187_reorder_partial",
    "Disa.Props.c187_accepted_partial",
    "Disa.Props.c187_check"
   ],
   "note": "Violated by the code.  The rejected order adds the odd vertices first, then the even ones, then 1 and 5, which lose two by rounding to even.  Proved: up to 2^27 vertices reorder with the check sum in double is the reorder of the other claims."
  },
  {
   "property": "C188",
   "status": "proved",
   "theorems": [
    "Disa.Props.c188_jacobi",
    "Disa.Props.c188_product",
    "Disa.Props.c188_laplace",
    "Disa.Props.c188_sharp"
   ],
   "note": "Exact arithmetic. The matrices are any two that agree on the rows of levels below m; c188_laplace gives a program that builds such a pair."
  },
  {
   "property": "C189",
   "status": "proved",
   "theorems": [
    "Disa.Props.c189_closed",
    "Disa.Props.c189_cone",
    "Disa.Props.c189_sharp"
   ],
   "note": "About the iterations, not about when solve stops: the residual of solve is a sum over all equations. c189_sharp is a concrete system in double precision."
  },
  {
   "property": "C19",
   "status": "proved",
   "theorems": [
    "Disa.Props.c19_cuthill_mckee",
    "Disa.Props.c19_disconnected_exits",
    "Disa.Props.c19_empty"
   ],
   "note": ""
  },
  {
   "property": "C190",
   "status": "proved",
   "theorems": [
    "Disa.Props.c190_modes",
    "Disa.Props.c190_jacobi",
    "Disa.Props.c190_gauss_seidel",
    "Disa.Props.c190_sor",
    "Disa.Props.c190_roots",
    "Disa.Props.c190_diverges",
    "Disa.Props.c190_needed"
   ],
   "note": "Exact arithmetic. About errors that are multiples of one mode; errors in general are only covered where they are sums of such modes."
  },
  {
   "property": "C191",
   "status": "proved",
   "theorems": [
    "Disa.Props.c191_rounds",
    "Disa.Props.c191_exists",
    "Disa.Props.c191_bisection"
   ],
   "note": "Exact arithmetic. The rounds are a program that uses the library, not a function of it. c191_bisection is for graphs with at most twice as many vertices as edges, for others bisection is undefined (C25), and for calls of update_levels that return."
  },
  {
   "property": "C192",
   "status": "proved",
   "theorems": [
    "Disa.Props.c192_part",
    "Disa.Props.c192_rounds",
    "Disa.Props.c192_exists",
    "Disa.Props.c192_converges"
   ],
   "note": "The methods may differ between parts and times; c192_exists runs the rounds with any choice of them and number of iterations per part. Nothing is claimed for SOR in the parts."
  },
  {
   "property": "C193",
   "status": "proved",
   "theorems": [
    "Disa.Props.c193_breadth_first",
    "Disa.Props.c193_cuthill_mckee",
    "Disa.Props.c193_only_trees",
    "Disa.Props.c193_direct",
    "Disa.Props.c193_along",
    "Disa.Props.c193_tree"
   ],
   "note": "c193_direct is for any matrix with at most one element pair after each diagonal element; c193_tree joins it with the renumbering. The root the function picks itself needs at least two vertices."
  },
  {
   "property": "C194",
   "status": "proved",
   "theorems": [
    "Disa.Props.c194_levels",
    "Disa.Props.c194_documented",
    "Disa.Props.c194_reordered",
    "Disa.Props.c194_tree"
   ],
   "note": "What greedy_multicolouring does instead of its documentation (C53), on the graphs for which two colours are enough. c194_levels includes C173 and the lines of C94."
  },
  {
   "property": "C195",
   "status": "proved",
   "theorems": [
    "Disa.Props.c195_dominant",
    "Disa.Props.c195_ratio",
    "Disa.Props.c195_offset"
   ],
   "note": "c195_dominant is for all three methods, each with its own factor; for Jacobi and Gauss Seidel it is C110 with a slightly different condition against overflow. C112 shows that without such a ratio the method may diverge even in exact arithmetic."
  },
  {
   "property": "C196",
   "status": "proved",
   "theorems": [
    "Disa.Props.c196_component",
    "Disa.Props.c196_star"
   ],
   "note": "Contrast C165: on a line the parts stay balanced. c196_star is by induction over the number of parts with c196_component as the step."
  },
  {
   "property": "C197",
   "status": "proved",
   "theorems": [
    "Disa.Props.c197_radius"
   ],
   "note": "With the distance computation as it is the call is undefined for every graph with an edge (C26), hence the supposition, as in C150."
  },
  {
   "property": "C198",
   "status": "proved",
   "theorems": [
    "Disa.Props.c198_between",
    "Disa.Props.c198_nonneg"
   ],
   "note": "Doubles, rounded to nearest even. The sums of the rows that remain lose at most 6uA+3eta(A+n) in a step of the elimination, so that the factors keep their signs; rounding is monotone."
  },
  {
   "property": "C199",
   "status": "proved",
   "theorems": [
    "Disa.Props.c199_parts"
   ],
   "note": "Doubles, rounded to nearest even. That nothing overflowed means that the stored factors are finite; C121 gives a bound under which this is so with pivoting."
  },
  {
   "property": "C20",
   "status": "proved",
   "theorems": [
    "Disa.Props.c20_reverse"
   ],
   "note": ""
  },
  {
   "property": "C200",
   "status": "proved",
   "theorems": [
    "Disa.Props.c200_profile"
   ],
   "note": "The number of positions may be equal, as for a path numbered from one end; the example is a star where it shrinks."
  },
  {
   "property": "C201",
   "status": "proved",
   "theorems": [
    "Disa.Props.c201_solution",
    "Disa.Props.c201_accepted",
    "Disa.Props.c201_leading",
    "Disa.Props.c201_pivoting"
   ],
   "note": "Finite factors are a hypothesis, since an infinite multiplier of a row outside the part makes NaN of a zero. c201_pivoting is the concrete matrix that shows that the claim on the acceptance is for the solver without pivoting only."
  },
  {
   "property": "C202",
   "status": "proved",
   "theorems": [
    "Disa.Props.c202_signs",
    "Disa.Props.c202_fixed",
    "Disa.Props.c202_zero"
   ],
   "note": "NaN and zero have no sign in the model (C136 shows that signs of zeros do not reach results except through a division by zero). c202_fixed speaks of matrices that store the same positions; fuel only bounds the number of iterations looked at. c202_zero is the exception of a zero diagonal."
  },
  {
   "property": "C203",
   "status": "proved",
   "theorems": [
    "Disa.Props.c203_band",
    "Disa.Props.c203_residual",
    "Disa.Props.c203_grid"
   ],
   "note": "c203_band is the bound with relError and absError of Spec/Rounding (C102), c203_residual the explicit form. The finiteness of the factors and of the solution is needed (C103)."
  },
  {
   "property": "C204",
   "status": "proved",
   "theorems": [
    "Disa.Props.c204_factors",
    "Disa.Props.c204_solve",
    "Disa.Props.c204_pivoting"
   ],
   "note": "The bounds are on the sums of the sizes of the products, so that no partial sum exceeds 2^53; c204_pivoting is the counterexample with pivoting."
  },
  {
   "property": "C205",
   "status": "proved",
   "theorems": [
    "Disa.Props.c205_breadth_first",
    "Disa.Props.c205_cuthill_mckee",
    "Disa.Props.c205_direct"
   ],
   "note": "Each vertex but the first has a first neighbour before it, these first neighbours do not decrease, and a vertex is the first neighbour of at most degree - 1 others (degree for the first). Counting the vertices up to b by their first neighbours gives the bound. The direct solver part uses C203 with bandwidth two."
  },
  {
   "property": "C206",
   "status": "proved",
   "theorems": [
    "Disa.Props.c206_equations",
    "Disa.Props.c206_multiple",
    "Disa.Props.c206_pivoting",
    "Disa.Props.c206_underflow"
   ],
   "note": "Complements C172 (fixed point solvers) and C175 (exact arithmetic). The intermediate vector of the forward substitution is the y of the hypothesis; sums and differences of doubles are multiples of 2^-1074 and need no condition. c206_pivoting and c206_underflow show that the restrictions are needed."
  },
  {
   "property": "C207",
   "status": "proved",
   "theorems": [
    "Disa.Props.c207_accurate",
    "Disa.Props.c207_solved",
    "Disa.Props.c207_grid"
   ],
   "note": "Unlike C102 and C203 the bounds do not refer to the computed factors, and unlike C198 the elements may have any sign. The right hand side acts like a further column: the amount by which the pivot of a row exceeds the rest bounds it in every step."
  },
  {
   "property": "C208",
   "status": "proved",
   "theorems": [
    "Disa.Props.c208_same",
    "Disa.Props.c208_solved"
   ],
   "note": "Dominant rows alone are not enough: an example beside the theorems has dominant rows and pivoting interchanges its equations. The bound 2^-45 is there since the search starts from zero and compares with a tolerance."
  },
  {
   "property": "C209",
   "status": "partial",
   "theorems": [
    "Disa.Props.c209_exit_iff",
    "Disa.Props.c209_ub_iff",
    "Disa.Props.c209_distances_partial",
    "Disa.Props.c209_violated"
   ],
   "note": "Violated by the code. The three theorems give the outcome of every call with an explicit stop vertex; C54 is the default one."
  },
  {
   "property": "C21",
   "status": "proved",
   "theorems": [
    "Disa.Props.c21_greedy",
    "Disa.Props.c21_rule_determines"
   ],
   "note": ""
  },
  {
   "property": "C210",
   "status": "proved",
   "theorems": [
    "Disa.Props.c210_paths",
    "Disa.Props.c210_profile",
    "Disa.Props.c210_no_fill",
    "Disa.Props.c210_tree",
    "Disa.Props.c210_exact"
   ],
   "note": "The factors are the ones the solver keeps for later solves. An example beside the theorems shows that the signs in the last part are needed: without them elements cancel."
  },
  {
   "property": "C211",
   "status": "proved",
   "theorems": [
    "Disa.Props.c211_few",
    "Disa.Props.c211_residual",
    "Disa.Props.c211_accurate",
    "Disa.Props.c211_solved",
    "Disa.Props.c211_joined",
    "Disa.Props.c211_tree",
    "Disa.Props.c211_tree_solved"
   ],
   "note": "relError and absError are those of Spec/Rounding (C102). The part on trees rests on C210, there is no fill-in."
  },
  {
   "property": "C212",
   "status": "proved",
   "theorems": [
    "Disa.Props.c212_factors",
    "Disa.Props.c212_residual",
    "Disa.Props.c212_two"
   ],
   "note": "Compare C121, where the band is not known and the bounds are exponential in the size. The elements of the matrix must be doubles, as they are in the program."
  },
  {
   "property": "C213",
   "status": "proved",
   "theorems": [
    "Disa.Props.c213_factors",
    "Disa.Props.c213_residual",
    "Disa.Props.c213_solved"
   ],
   "note": "C96 is the same for exact numbers. Rows need not be dominated by the diagonal, compare C207."
  },
  {
   "property": "C214",
   "status": "proved",
   "theorems": [
    "Disa.Props.c214_definite",
    "Disa.Props.c214_settles"
   ],
   "note": "C84 is the same for exact numbers, C110 and C195 are the results for dominant rows."
  },
  {
   "property": "C215",
   "status": "proved",
   "theorems": [
    "Disa.Props.c215_dominant",
    "Disa.Props.c215_definite"
   ],
   "note": "The bounds per iteration are those of C195 and C214."
  },
  {
   "property": "C216",
   "status": "proved",
   "theorems": [
    "Disa.Props.c216_residual",
    "Disa.Props.c216_stops",
    "Disa.Props.c216_dominant",
    "Disa.Props.c216_definite"
   ],
   "note": ""
  },
  {
   "property": "C217",
   "status": "proved",
   "theorems": [
    "Disa.Props.c217_dot",
    "Disa.Props.c217_finite",
    "Disa.Props.c217_sparse",
    "Disa.Props.c217_returns",
    "Disa.Props.c217_backward",
    "Disa.Props.c217_same",
    "Disa.Props.c217_fused",
    "Disa.Props.c217_unfused"
   ],
   "note": ""
  },
  {
   "property": "C218",
   "status": "proved",
   "theorems": [
    "Disa.Props.c218_step",
    "Disa.Props.c218_dominant",
    "Disa.Props.c218_unfused"
   ],
   "note": ""
  },
  {
   "property": "C219",
   "status": "proved",
   "theorems": [
    "Disa.Props.c219_norms",
    "Disa.Props.c219_doubles",
    "Disa.Props.c219_differs"
   ],
   "note": ""
  },
  {
   "property": "C22",
   "status": "partial",
   "theorems": [
    "Disa.Props.c22_violated",
    "Disa.Props.c22_edgeless",
    "Disa.Props.c22_permutation_iff",
    "Disa.Props.c22_small_partial"
   ],
   "note": "The code violates the property for two or more vertices; the exact result is proved."
  },
  {
   "property": "C220",
   "status": "proved",
   "theorems": [
    "Disa.Props.c220_dominant"
   ],
   "note": ""
  },
  {
   "property": "C221",
   "status": "proved",
   "theorems": [
    "Disa.Props.c221_returns",
    "Disa.Props.c221_residual",
    "Disa.Props.c221_stops",
    "Disa.Props.c221_dominant"
   ],
   "note": "The right hand side must not itself be a product that is still to be fused; it is read from a vector."
  },
  {
   "property": "C222",
   "status": "proved",
   "theorems": [
    "Disa.Props.c222_definite",
    "Disa.Props.c222_returns",
    "Disa.Props.c222_stops"
   ],
   "note": "The right hand side must not itself be a product that is still to be fused; it is read from a vector."
  },
  {
   "property": "C223",
   "status": "proved",
   "theorems": [
    "Disa.Props.c223_accurate",
    "Disa.Props.c223_solved"
   ],
   "note": "As C207, with the size of the matrix in place of its bandwidth: the errors of C217 are stated with the size."
  },
  {
   "property": "C224",
   "status": "proved",
   "theorems": [
    "Disa.Props.c224_factors",
    "Disa.Props.c224_residual",
    "Disa.Props.c224_solved"
   ],
   "note": "C213 with the constants unchanged."
  },
  {
   "property": "C225",
   "status": "proved",
   "theorems": [
    "Disa.Props.c225_cube",
    "Disa.Props.c225_power",
    "Disa.Props.c225_exists"
   ],
   "note": "The cube root and the power are parameters with error bounds; sums outside of the range are not covered, as powers overflow or underflow there."
  },
  {
   "property": "C226",
   "status": "proved",
   "theorems": [
    "Disa.Props.c226_band",
    "Disa.Props.c226_residual",
    "Disa.Props.c226_grid"
   ],
   "note": "C203 with the constants unchanged."
  },
  {
   "property": "C227",
   "status": "proved",
   "theorems": [
    "Disa.Props.c227_factors",
    "Disa.Props.c227_solve",
    "Disa.Props.c227_dot",
    "Disa.Props.c227_integers",
    "Disa.Props.c227_rounded"
   ],
   "note": "The hypotheses speak of the factors, unknowns and intermediate values of the run without fused operations."
  },
  {
   "property": "C228",
   "status": "partial",
   "theorems": [
    "Disa.Props.c228_violated",
    "Disa.Props.c228_partial",
    "Disa.Props.c228_wide",
    "Disa.Props.c228_wraps",
    "Disa.Props.c228_shrink"
   ],
   "note": "The claim does not hold (`c228_violated`): the offsets count the elements in the index type, so 8 by 16 elements are too many for eight bits. `c228_partial`: it holds as long as the index type holds the number of elements after each call, and its signed type the number of elements before a call that removes columns; the number of calls does not matter. `c228_wide`: for signed types as wide as int, storing the first element too many is undefined. `c228_wraps`: for all others it is stored and reported as new, but the last offset becomes the smallest value of the type, and the next access to the last row is undefined if the type is signed or the element is in this row. `c228_shrink`: an unsigned type holds twice as many elements as the signed one, but removing columns is then undefined."
  },
  {
   "property": "C229",
   "status": "proved",
   "theorems": [
    "Disa.Props.c229_signs"
   ],
   "note": "Both runs are given the same labels for inputs, so that the choice of fused operations is the same. Zero has no sign in the model of doubles, as for C202."
  },
  {
   "property": "C23",
   "status": "proved",
   "theorems": [
    "Disa.Props.c23_induced",
    "Disa.Props.c23_returns",
    "Disa.Props.c23_rejects",
    "Disa.Props.c23_unsorted"
   ],
   "note": "The constructor can be undefined behaviour through erase_if; c23_returns gives the exact condition."
  },
  {
   "property": "C230",
   "status": "proved",
   "theorems": [
    "Disa.Props.c230_same",
    "Disa.Props.c230_solved"
   ],
   "note": "As C208, with the errors of a step bounded for rounded and exact products alike.  The margin is the same as in C208."
  },
  {
   "property": "C231",
   "status": "proved",
   "theorems": [
    "Disa.Props.c231_between",
    "Disa.Props.c231_nonneg"
   ],
   "note": "As C198, for any choice of fused operations.  The choice may depend on the position of an operation in the computation, not on the numbers, so that it is the same for the right hand sides that are compared."
  },
  {
   "property": "C232",
   "status": "proved",
   "theorems": [
    "Disa.Props.c232_box",
    "Disa.Props.c232_graph"
   ],
   "note": "The products of integers below 2^53 with the bounds are doubles, so that rounded and exact products lie between them alike.  Unlike C231 no two runs are compared, so that the choice of fused operations may depend on anything.  That the iterates from the bounds settle (C186) is not claimed: a choice that changes from one iteration to the next may move them."
  },
  {
   "property": "C233",
   "status": "proved",
   "theorems": [
    "Disa.Props.c233_between",
    "Disa.Props.c233_nonneg"
   ],
   "note": "Successive over relaxation is excluded: there the second coefficient is negative and order may be lost. Unlike C170, that the iterates settle is not claimed, since the program may fuse differently from one iteration to the next. The example runs Gauss Seidel on two unknowns for any number of iterations."
  },
  {
   "property": "C234",
   "status": "proved",
   "theorems": [
    "Disa.Props.c234_signs"
   ],
   "note": "Completes C229, which is about the direct solver, and C202, which has no fused operations. Elements in the same place have the same labels in both runs, so that the choice is the same. The square root depends on the stored number and how it was computed only. Zero has no sign in the model of doubles; c202_zero shows why a zero diagonal is excluded."
  },
  {
   "property": "C235",
   "status": "proved",
   "theorems": [
    "Disa.Props.c235_paths",
    "Disa.Props.c235_profile",
    "Disa.Props.c235_no_fill",
    "Disa.Props.c235_tree"
   ],
   "note": "Completes C210, which has no fused operations. A product with a zero factor changes no double, fused or not. Exact arithmetic is in C210."
  },
  {
   "property": "C236",
   "status": "proved",
   "theorems": [
    "Disa.Props.c236_few",
    "Disa.Props.c236_residual",
    "Disa.Props.c236_accurate",
    "Disa.Props.c236_solved",
    "Disa.Props.c236_joined",
    "Disa.Props.c236_tree",
    "Disa.Props.c236_tree_solved"
   ],
   "note": "Completes C211, which has no fused operations. relError and absError are those of Spec/Rounding (C102). The part on trees rests on C235, there is no fill-in."
  },
  {
   "property": "C237",
   "status": "proved",
   "theorems": [
    "Disa.Props.c237_equations",
    "Disa.Props.c237_stored",
    "Disa.Props.c237_products",
    "Disa.Props.c237_multiple",
    "Disa.Props.c237_underflow"
   ],
   "note": "Completes C206, which has no fused operations. What is fused may depend on how the operands were computed but not on their values, so that it is the same for both systems. The condition on products is that of exact products, since a fused product is not rounded; it is needed, by c237_underflow. The intermediate vector of the forward substitution is the y of the hypothesis."
  },
  {
   "property": "C238",
   "status": "proved",
   "theorems": [
    "Disa.Props.c238_equations",
    "Disa.Props.c238_sor",
    "Disa.Props.c238_products",
    "Disa.Props.c238_underflow"
   ],
   "note": "Completes C172, which has no fused operations and one power for all equations. c237_products shows which products are multiples of 2^-1074. What is fused may depend on how the operands were computed but not on their values. Successive over relaxation, which C172 leaves out, needs twice the grid since its product with 3/2 may round. The stopping test is not covered, as in C172."
  },
  {
   "property": "C24",
   "status": "partial",
   "theorems": [
    "Disa.Props.c24_violated",
    "Disa.Props.c24_update_levels_partial",
    "Disa.Props.c24_global_local_partial"
   ],
   "note": "The code violates the property for the level count 2^64-1 on disconnected parents; it is proved for all smaller level counts, for any history of level changes and reorderings, whenever the calls return (C59 says when they do)."
  },
  {
   "property": "C25",
   "status": "proved",
   "theorems": [
    "Disa.Props.c25_bisection",
    "Disa.Props.c25_bisection_exits",
    "Disa.Props.c25_bisection_ub",
    "Disa.Props.c25_bisection_empty"
   ],
   "note": ""
  },
  {
   "property": "C26",
   "status": "partial",
   "theorems": [
    "Disa.Props.c26_violated",
    "Disa.Props.c26_multinode_ub",
    "Disa.Props.c26_multinode_small_partial",
    "Disa.Props.c26_edgeless_partial"
   ],
   "note": "The code violates the property: with two or more parts of a graph with an edge the call is always undefined behaviour."
  },
  {
   "property": "C27",
   "status": "proved",
   "theorems": [
    "Disa.Props.c27_line"
   ],
   "note": ""
  },
  {
   "property": "C28",
   "status": "proved",
   "theorems": [
    "Disa.Props.c28_structured"
   ],
   "note": ""
  },
  {
   "property": "C29",
   "status": "proved",
   "theorems": [
    "Disa.Props.c29_finite_map"
   ],
   "note": "erase runs without the read behind the end in its assertion (C65)."
  },
  {
   "property": "C30",
   "status": "partial",
   "theorems": [
    "Disa.Props.c30_violated",
    "Disa.Props.c30_invariants_partial",
    "Disa.Props.c30_columns_partial"
   ],
   "note": "The code violates the column bound after resize to zero columns; everything else is proved, and the column bound for all histories without such a call."
  },
  {
   "property": "C31",
   "status": "partial",
   "theorems": [
    "Disa.Props.c31_violated",
    "Disa.Props.c31_present_partial",
    "Disa.Props.c31_range_partial",
    "Disa.Props.c31_absent_partial",
    "Disa.Props.c31_next_row",
    "Disa.Props.c31_last_row"
   ],
   "note": "The code violates the property; the three cases for absent elements are proved exactly."
  },
  {
   "property": "C32",
   "status": "partial",
   "theorems": [
    "Disa.Props.c32_violated",
    "Disa.Props.c32_resize_partial",
    "Disa.Props.c32_zero"
   ],
   "note": "Proved for at least one column; the code keeps all elements of the remaining rows for zero columns."
  },
  {
   "property": "C33",
   "status": "proved",
   "theorems": [
    "Disa.Props.c33_arithmetic",
    "Disa.Props.c33_self",
    "Disa.Props.c33_sizes",
    "Disa.Props.c33_operators",
    "Disa.Props.c33_elements",
    "Disa.Props.c33_elements_self"
   ],
   "note": ""
  },
  {
   "property": "C34",
   "status": "proved",
   "theorems": [
    "Disa.Props.c34_product",
    "Disa.Props.c34_sizes"
   ],
   "note": ""
  },
  {
   "property": "C35",
   "status": "partial",
   "theorems": [
    "Disa.Props.c35_violated",
    "Disa.Props.c35_self",
    "Disa.Props.c35_partial"
   ],
   "note": "The code violates the property; the result is right exactly when the square is zero."
  },
  {
   "property": "C36",
   "status": "proved",
   "theorems": [
    "Disa.Props.c36_matvec",
    "Disa.Props.c36_sizes",
    "Disa.Props.c36_linear",
    "Disa.Props.c36_distributes"
   ],
   "note": ""
  },
  {
   "property": "C37",
   "status": "proved",
   "theorems": [
    "Disa.Props.c37_finite_map"
   ],
   "note": ""
  },
  {
   "property": "C38",
   "status": "proved",
   "theorems": [
    "Disa.Props.c38_elementwise",
    "Disa.Props.c38_mismatch",
    "Disa.Props.c38_comm",
    "Disa.Props.c38_assoc",
    "Disa.Props.c38_distrib",
    "Disa.Props.c38_sub_add"
   ],
   "note": ""
  },
  {
   "property": "C39",
   "status": "proved",
   "theorems": [
    "Disa.Props.c39_dot_symmetric",
    "Disa.Props.c39_dot_bilinear",
    "Disa.Props.c39_dot_sizes",
    "Disa.Props.c39_unit",
    "Disa.Props.c39_cross",
    "Disa.Props.c39_projections",
    "Disa.Props.c39_sizes",
    "Disa.Props.c39_dimensions"
   ],
   "note": ""
  },
  {
   "property": "C40",
   "status": "partial",
   "theorems": [
    "Disa.Props.c40_violated",
    "Disa.Props.c40_assign_partial",
    "Disa.Props.c40_assign_square_partial",
    "Disa.Props.c40_product_partial",
    "Disa.Props.c40_product_square_partial",
    "Disa.Props.c40_mismatch_partial",
    "Disa.Props.c40_product_fixed",
    "Disa.Props.c40_assign_fixed",
    "Disa.Props.c40_self"
   ],
   "note": "The code violates the property for the same object and for fixed sizes that are not square; the results there are proved, and the product in all other cases."
  },
  {
   "property": "C41",
   "status": "partial",
   "theorems": [
    "Disa.Props.c41_violated",
    "Disa.Props.c41_square_partial",
    "Disa.Props.c41_wide",
    "Disa.Props.c41_tall",
    "Disa.Props.c41_fixed",
    "Disa.Props.c41_mismatch"
   ],
   "note": "The code violates the property unless the matrix is square; the results are proved for all shapes."
  },
  {
   "property": "C42",
   "status": "proved",
   "theorems": [
    "Disa.Props.c42_coherent",
    "Disa.Props.c42_exact",
    "Disa.Props.c42_float",
    "Disa.Props.c42_tolerance"
   ],
   "note": "Proved for exact arithmetic and, beyond the claim, for floating point numbers that are not NaN with any rounding that commutes with the sign."
  },
  {
   "property": "C43",
   "status": "proved",
   "theorems": [
    "Disa.Props.c43_solves",
    "Disa.Props.factorise_returns"
   ],
   "note": "Exact arithmetic in any linearly ordered field; the constants of the pivot comparison are those of doubles."
  },
  {
   "property": "C44",
   "status": "proved",
   "theorems": [
    "Disa.Props.c44_nonsingular",
    "Disa.Props.c44_singular",
    "Disa.Props.c44_rejected",
    "Disa.Props.c44_size",
    "Disa.Props.factorise_returns"
   ],
   "note": "Exact arithmetic."
  },
  {
   "property": "C45",
   "status": "proved",
   "theorems": [
    "Disa.Props.c45_fixed_point",
    "Disa.Props.c45_missing"
   ],
   "note": "Exact arithmetic in a linearly ordered field."
  },
  {
   "property": "C46",
   "status": "partial",
   "theorems": [
    "Disa.Props.c46_violated",
    "Disa.Props.c46_stops_partial",
    "Disa.Props.c46_reason"
   ],
   "note": "Violated if maximum_iterations is the largest index: the counter wraps round; proved for all other configurations and any scalars."
  },
  {
   "property": "C47",
   "status": "proved",
   "theorems": [
    "Disa.Props.c47_contracts",
    "Disa.Props.c47_converges"
   ],
   "note": "Exact arithmetic; the limits are over the reals."
  },
  {
   "property": "C48",
   "status": "partial",
   "theorems": [
    "Disa.Props.c48_violated",
    "Disa.Props.c48_partial",
    "Disa.Props.c48_large"
   ],
   "note": "Violated (signed overflow) for 2^31 rows or more; proved for fewer. Real arithmetic."
  },
  {
   "property": "C49",
   "status": "partial",
   "theorems": [
    "Disa.Props.c49_violated",
    "Disa.Props.c49_relaxation_partial",
    "Disa.Props.c49_flag",
    "Disa.Props.c49_ignored"
   ],
   "note": "Violated; what the code does instead is proved."
  },
  {
   "property": "C50",
   "status": "proved",
   "theorems": [
    "Disa.Props.c50_sparse",
    "Disa.Props.c50_sparse_dense",
    "Disa.Props.c50_dense",
    "Disa.Props.c50_factorise",
    "Disa.Props.c50_unknown"
   ],
   "note": ""
  },
  {
   "property": "C51",
   "status": "partial",
   "theorems": [
    "Disa.Props.c51_violated",
    "Disa.Props.c51_insert_reserved_ub"
   ],
   "note": "The code violates the property on every graph: the call is undefined behaviour."
  },
  {
   "property": "C52",
   "status": "proved",
   "theorems": [
    "Disa.Props.c52_of_edges",
    "Disa.Props.c52_of_no_edges"
   ],
   "note": ""
  },
  {
   "property": "C53",
   "status": "partial",
   "theorems": [
    "Disa.Props.c53_violated",
    "Disa.Props.c53_first_fit_partial"
   ],
   "note": "The code violates its documentation; the colouring it computes instead is characterised in C21."
  },
  {
   "property": "C54",
   "status": "proved",
   "theorems": [
    "Disa.Props.c54_eccentricity_vertex"
   ],
   "note": ""
  },
  {
   "property": "C55",
   "status": "proved",
   "theorems": [
    "Disa.Props.c55_breadth_first_rule"
   ],
   "note": ""
  },
  {
   "property": "C56",
   "status": "proved",
   "theorems": [
    "Disa.Props.c56_cuthill_mckee_rule"
   ],
   "note": ""
  },
  {
   "property": "C57",
   "status": "proved",
   "theorems": [
    "Disa.Props.c57_default_root",
    "Disa.Props.c57_isolated_exits"
   ],
   "note": ""
  },
  {
   "property": "C58",
   "status": "partial",
   "theorems": [
    "Disa.Props.c58_violated",
    "Disa.Props.c58_small",
    "Disa.Props.c58_size_partial"
   ],
   "note": "The code violates the property for fewer than two vertices; the results there are proved exactly."
  },
  {
   "property": "C59",
   "status": "partial",
   "theorems": [
    "Disa.Props.c59_violated",
    "Disa.Props.c59_violated_ub",
    "Disa.Props.c59_update_levels_cases",
    "Disa.Props.c59_update_levels_partial"
   ],
   "note": "The code violates the property; the exact conditions for exit and undefined behaviour are proved."
  },
  {
   "property": "C60",
   "status": "partial",
   "theorems": [
    "Disa.Props.c60_violated",
    "Disa.Props.c60_violated_any",
    "Disa.Props.c60_is_parent",
    "Disa.Props.c60_update_levels_rejects",
    "Disa.Props.c60_own_parent_partial"
   ],
   "note": "The code violates the property whatever std::hash is; what is_parent computes is proved."
  },
  {
   "property": "C61",
   "status": "proved",
   "theorems": [
    "Disa.Props.c61_reorder"
   ],
   "note": ""
  },
  {
   "property": "C62",
   "status": "partial",
   "theorems": [
    "Disa.Props.c62_violated",
    "Disa.Props.c62_old_partial"
   ],
   "note": "The code violates the property; everything but the parent hash is proved to be returned."
  },
  {
   "property": "C63",
   "status": "proved",
   "theorems": [
    "Disa.Props.c63_hybrid",
    "Disa.Props.c63_saad"
   ],
   "note": ""
  },
  {
   "property": "C64",
   "status": "partial",
   "theorems": [
    "Disa.Props.c64_violated",
    "Disa.Props.c64_lookup_ub",
    "Disa.Props.c64_in_range_partial"
   ],
   "note": "The code violates the property on every matrix."
  },
  {
   "property": "C65",
   "status": "partial",
   "theorems": [
    "Disa.Props.c65_violated",
    "Disa.Props.c65_erase_ub",
    "Disa.Props.c65_erase_partial"
   ],
   "note": "The code violates the property on every matrix; the effect without the bad read is proved."
  },
  {
   "property": "C66",
   "status": "partial",
   "theorems": [
    "Disa.Props.c66_violated",
    "Disa.Props.c66_data",
    "Disa.Props.c66_never"
   ],
   "note": "The code violates the property on every matrix; the results are proved exactly."
  },
  {
   "property": "C67",
   "status": "partial",
   "theorems": [
    "Disa.Props.c67_violated",
    "Disa.Props.c67_exact",
    "Disa.Props.c67_scale_partial"
   ],
   "note": "The code violates the property; the result is proved exactly."
  },
  {
   "property": "C68",
   "status": "proved",
   "theorems": [
    "Disa.Props.c68_constructor",
    "Disa.Props.c68_empty"
   ],
   "note": ""
  },
  {
   "property": "C69",
   "status": "partial",
   "theorems": [
    "Disa.Props.c69_violated",
    "Disa.Props.c69_exact",
    "Disa.Props.c69_exact_sub",
    "Disa.Props.c69_negative",
    "Disa.Props.c69_rows_partial",
    "Disa.Props.c69_subscript_partial"
   ],
   "note": "The code violates the property; the results are proved exactly."
  },
  {
   "property": "C70",
   "status": "proved",
   "theorems": [
    "Disa.Props.c70_row_assign",
    "Disa.Props.c70_row_read"
   ],
   "note": ""
  },
  {
   "property": "C71",
   "status": "partial",
   "theorems": [
    "Disa.Props.c71_violated",
    "Disa.Props.c71_exact",
    "Disa.Props.c71_exact_matrix",
    "Disa.Props.c71_partial"
   ],
   "note": "The code violates the property; the result is proved exactly."
  },
  {
   "property": "C72",
   "status": "partial",
   "theorems": [
    "Disa.Props.c72_violated",
    "Disa.Props.c72_rows",
    "Disa.Props.c72_partial"
   ],
   "note": "The code violates the property for matrices of fixed size."
  },
  {
   "property": "C73",
   "status": "partial",
   "theorems": [
    "Disa.Props.c73_violated",
    "Disa.Props.c73_fixed",
    "Disa.Props.c73_partial"
   ],
   "note": "The code violates the property if one of the sizes is fixed; proved for dynamic sizes."
  },
  {
   "property": "C74",
   "status": "proved",
   "theorems": [
    "Disa.Props.c74_elementwise",
    "Disa.Props.c74_mismatch",
    "Disa.Props.c74_resize"
   ],
   "note": ""
  },
  {
   "property": "C75",
   "status": "partial",
   "theorems": [
    "Disa.Props.c75_violated",
    "Disa.Props.c75_empty_ub",
    "Disa.Props.c75_value",
    "Disa.Props.c75_max",
    "Disa.Props.c75_norm_partial"
   ],
   "note": "The code violates the property only for the maximum norm of a vector without elements."
  },
  {
   "property": "C76",
   "status": "proved",
   "theorems": [
    "Disa.Props.c76_angle",
    "Disa.Props.c76_special"
   ],
   "note": ""
  },
  {
   "property": "C77",
   "status": "proved",
   "theorems": [
    "Disa.Props.c77_mean"
   ],
   "note": ""
  },
  {
   "property": "C78",
   "status": "partial",
   "theorems": [
    "Disa.Props.c78_violated",
    "Disa.Props.c78_exact"
   ],
   "note": "The code violates the property; the result is proved exactly."
  },
  {
   "property": "C79",
   "status": "partial",
   "theorems": [
    "Disa.Props.c79_violated",
    "Disa.Props.c79_exact",
    "Disa.Props.c79_cases_partial",
    "Disa.Props.c79_monotone"
   ],
   "note": "The code violates its documentation; what it computes is proved exactly."
  },
  {
   "property": "C80",
   "status": "partial",
   "theorems": [
    "Disa.Props.c80_violated",
    "Disa.Props.c80_exact"
   ],
   "note": "The code violates the property exactly for NaN."
  },
  {
   "property": "C81",
   "status": "proved",
   "theorems": [
    "Disa.Props.c81_pivot",
    "Disa.Props.c81_plain"
   ],
   "note": "Exact arithmetic."
  },
  {
   "property": "C82",
   "status": "proved",
   "theorems": [
    "Disa.Props.c82_plain",
    "Disa.Props.c82_pivot"
   ],
   "note": "Exact arithmetic."
  },
  {
   "property": "C83",
   "status": "partial",
   "theorems": [
    "Disa.Props.c83_violated",
    "Disa.Props.c83_plain_partial"
   ],
   "note": "Violated with pivoting; proved without."
  },
  {
   "property": "C84",
   "status": "proved",
   "theorems": [
    "Disa.Props.c84_reduces",
    "Disa.Props.c84_converges"
   ],
   "note": "Exact arithmetic; the limits are over the reals."
  },
  {
   "property": "C85",
   "status": "partial",
   "theorems": [
    "Disa.Props.c85_violated",
    "Disa.Props.c85_exact_partial",
    "Disa.Props.c46_stops_partial"
   ],
   "note": "Violated by one; the exact bound is proved."
  },
  {
   "property": "C86",
   "status": "proved",
   "theorems": [
    "Disa.Props.c86_tolerance"
   ],
   "note": "Real arithmetic, with the quotients by zero of doubles."
  },
  {
   "property": "C87",
   "status": "proved",
   "theorems": [
    "Disa.Props.c87_meets",
    "Disa.Props.c87_dominant"
   ],
   "note": "Real arithmetic, with the quotients by zero of doubles."
  },
  {
   "property": "C88",
   "status": "partial",
   "theorems": [
    "Disa.Props.c88_violated",
    "Disa.Props.c88_first_partial"
   ],
   "note": "Violated; what the code does instead is proved."
  },
  {
   "property": "C89",
   "status": "proved",
   "theorems": [
    "Disa.Props.c89_solution"
   ],
   "note": "Real arithmetic, with the quotients by zero of doubles."
  },
  {
   "property": "C90",
   "status": "proved",
   "theorems": [
    "Disa.Props.c90_history",
    "Disa.Props.c90_again"
   ],
   "note": ""
  },
  {
   "property": "C91",
   "status": "proved",
   "theorems": [
    "Disa.Props.c91_config",
    "Disa.Props.c91_factorise"
   ],
   "note": ""
  },
  {
   "property": "C92",
   "status": "partial",
   "theorems": [
    "Disa.Props.c92_violated",
    "Disa.Props.c92_square_partial",
    "Disa.Props.c92_rectangular"
   ],
   "note": "Violated for matrices that are not square; proved for square ones."
  },
  {
   "property": "C93",
   "status": "proved",
   "theorems": [
    "Disa.Props.c93_breadth_first",
    "Disa.Props.c93_cuthill_mckee"
   ],
   "note": ""
  },
  {
   "property": "C94",
   "status": "partial",
   "theorems": [
    "Disa.Props.c94_violated",
    "Disa.Props.c94_line",
    "Disa.Props.c94_groups_partial"
   ],
   "note": "Violated; exact for paths."
  },
  {
   "property": "C95",
   "status": "proved",
   "theorems": [
    "Disa.Props.c95_grid",
    "Disa.Props.c95_grid_directed"
   ],
   "note": ""
  },
  {
   "property": "C96",
   "status": "proved",
   "theorems": [
    "Disa.Props.c96_plain",
    "Disa.Props.c96_pivot"
   ],
   "note": ""
  },
  {
   "property": "C97",
   "status": "proved",
   "theorems": [
    "Disa.Props.c97_history"
   ],
   "note": ""
  },
  {
   "property": "C98",
   "status": "partial",
   "theorems": [
    "Disa.Props.c98_violated",
    "Disa.Props.c98_wide_pivot",
    "Disa.Props.c98_wide_plain",
    "Disa.Props.c98_tall",
    "Disa.Props.c98_tall_partial"
   ],
   "note": "Violated; the theorems say what happens for each shape."
  },
  {
   "property": "C99",
   "status": "proved",
   "theorems": [
    "Disa.Props.c99_dominant",
    "Disa.Props.c99_positive_definite"
   ],
   "note": ""
  }
 ]
}