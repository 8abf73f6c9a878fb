import Verif.Props.All

/-! Axioms of every claimed theorem. -/

#print axioms Disa.Props.c01_insert_history
#print axioms Disa.Props.c01_insert_loop_exits
#print axioms Disa.Props.c01_contains_loop_exits
#print axioms Disa.Props.c02_spans
#print axioms Disa.Props.c02_symmetric
#print axioms Disa.Props.c02_degree_sum
#print axioms Disa.Props.c03_order_independent
#print axioms Disa.Props.c04_erase_if
#print axioms Disa.Props.c05_violated
#print axioms Disa.Props.c05_erase_if_ub_iff
#print axioms Disa.Props.c05_erase_if_safe_partial
#print axioms Disa.Props.c06_resize
#print axioms Disa.Props.c06_largest
#print axioms Disa.Props.c07_violated
#print axioms Disa.Props.c07_resize_ub_iff
#print axioms Disa.Props.c07_resize_safe_partial
#print axioms Disa.Props.c08_reorder
#print axioms Disa.Props.c09_violated
#print axioms Disa.Props.c09_violated_ub
#print axioms Disa.Props.c09_violated_self_loop
#print axioms Disa.Props.c09_reorder_rejects_partial
#print axioms Disa.Props.c10_queries_safe
#print axioms Disa.Props.c100_dot
#print axioms Disa.Props.c100_finite
#print axioms Disa.Props.c100_binary64
#print axioms Disa.Props.c100_range
#print axioms Disa.Props.c101_sparse
#print axioms Disa.Props.c102_returns
#print axioms Disa.Props.c102_backward
#print axioms Disa.Props.c102_relError
#print axioms Disa.Props.c102_absError
#print axioms Disa.Props.c103_violated
#print axioms Disa.Props.c103_infinite
#print axioms Disa.Props.c103_nan
#print axioms Disa.Props.c103_growth
#print axioms Disa.Props.c103_partial
#print axioms Disa.Props.c104_compose
#print axioms Disa.Props.c104_identity
#print axioms Disa.Props.c104_inverse
#print axioms Disa.Props.c105_levels
#print axioms Disa.Props.c106_breadth_first
#print axioms Disa.Props.c106_cuthill_mckee
#print axioms Disa.Props.c107_violated
#print axioms Disa.Props.c107_first_partial
#print axioms Disa.Props.c107_split
#print axioms Disa.Props.c108_violated
#print axioms Disa.Props.c108_stops
#print axioms Disa.Props.c108_partial
#print axioms Disa.Props.c109_step
#print axioms Disa.Props.c11_hash_value
#print axioms Disa.Props.c11_hash_empty
#print axioms Disa.Props.c11_equal_graphs_equal_hashes
#print axioms Disa.Props.c11_collide
#print axioms Disa.Props.c11_hash_not_injective
#print axioms Disa.Props.c110_dominant
#print axioms Disa.Props.c110_ratio
#print axioms Disa.Props.c110_offset
#print axioms Disa.Props.c111_norms
#print axioms Disa.Props.c111_root
#print axioms Disa.Props.c111_count
#print axioms Disa.Props.c112_violated
#print axioms Disa.Props.c112_partial
#print axioms Disa.Props.c113_violated
#print axioms Disa.Props.c113_partial
#print axioms Disa.Props.c114_violated
#print axioms Disa.Props.c114_jacobi_partial
#print axioms Disa.Props.c114_order_partial
#print axioms Disa.Props.c115_colours
#print axioms Disa.Props.c116_visit
#print axioms Disa.Props.c117_assign
#print axioms Disa.Props.c118_violated
#print axioms Disa.Props.c118_partial
#print axioms Disa.Props.c119_violated
#print axioms Disa.Props.c119_partial
#print axioms Disa.Props.c12_level_traversal
#print axioms Disa.Props.c12_level_traversal_default
#print axioms Disa.Props.c12_level_traversal_queue
#print axioms Disa.Props.c120_violated
#print axioms Disa.Props.c120_partial
#print axioms Disa.Props.c121_violated
#print axioms Disa.Props.c121_partial
#print axioms Disa.Props.c122_tolerance
#print axioms Disa.Props.c122_exact
#print axioms Disa.Props.c122_doubles
#print axioms Disa.Props.c123_violated
#print axioms Disa.Props.c123_partial
#print axioms Disa.Props.c124_linear
#print axioms Disa.Props.c125_violated
#print axioms Disa.Props.c125_large
#print axioms Disa.Props.c125_small
#print axioms Disa.Props.c125_partial
#print axioms Disa.Props.c125_nan
#print axioms Disa.Props.c126_violated
#print axioms Disa.Props.c126_overflow
#print axioms Disa.Props.c126_two_partial
#print axioms Disa.Props.c126_partial
#print axioms Disa.Props.c127_violated
#print axioms Disa.Props.c127_overflow
#print axioms Disa.Props.c127_max_partial
#print axioms Disa.Props.c127_sum_partial
#print axioms Disa.Props.c127_euclid_partial
#print axioms Disa.Props.c128_violated
#print axioms Disa.Props.c128_partial
#print axioms Disa.Props.c129_dense
#print axioms Disa.Props.c129_vector
#print axioms Disa.Props.c129_product
#print axioms Disa.Props.c129_sum
#print axioms Disa.Props.c13_single_vertex_exits
#print axioms Disa.Props.c13_exits_iff
#print axioms Disa.Props.c130_add_comm
#print axioms Disa.Props.c130_add_assoc
#print axioms Disa.Props.c130_mul_assoc
#print axioms Disa.Props.c130_distrib
#print axioms Disa.Props.c130_vector
#print axioms Disa.Props.c131_dot
#print axioms Disa.Props.c131_norm
#print axioms Disa.Props.c131_mean
#print axioms Disa.Props.c131_angle
#print axioms Disa.Props.c131_cross
#print axioms Disa.Props.c131_self
#print axioms Disa.Props.c131_projection
#print axioms Disa.Props.c131_matrix
#print axioms Disa.Props.c132_fixed
#print axioms Disa.Props.c132_direct
#print axioms Disa.Props.c133_projection
#print axioms Disa.Props.c134_product
#print axioms Disa.Props.c134_vector
#print axioms Disa.Props.c134_order
#print axioms Disa.Props.c135_cross
#print axioms Disa.Props.c136_vector
#print axioms Disa.Props.c136_matrix
#print axioms Disa.Props.c136_sparse
#print axioms Disa.Props.c136_norm
#print axioms Disa.Props.c136_direct
#print axioms Disa.Props.c136_fixed
#print axioms Disa.Props.c136_zero_tolerance
#print axioms Disa.Props.c136_zero_diagonal
#print axioms Disa.Props.c137_text
#print axioms Disa.Props.c137_graph
#print axioms Disa.Props.c137_subgraph_text
#print axioms Disa.Props.c137_subgraph
#print axioms Disa.Props.c138_violated
#print axioms Disa.Props.c138_text
#print axioms Disa.Props.c138_columns
#print axioms Disa.Props.c138_partial
#print axioms Disa.Props.c139_violated
#print axioms Disa.Props.c139_first
#print axioms Disa.Props.c139_partial
#print axioms Disa.Props.c139_fixed
#print axioms Disa.Props.c139_returns
#print axioms Disa.Props.c139_zero
#print axioms Disa.Props.c14_pseudo_peripheral
#print axioms Disa.Props.c14_pseudo_peripheral_disconnected
#print axioms Disa.Props.c140_violated
#print axioms Disa.Props.c140_direct
#print axioms Disa.Props.c140_iterative
#print axioms Disa.Props.c140_partial
#print axioms Disa.Props.c141_violated
#print axioms Disa.Props.c141_column
#print axioms Disa.Props.c141_column_never
#print axioms Disa.Props.c141_row
#print axioms Disa.Props.c141_insert
#print axioms Disa.Props.c141_full
#print axioms Disa.Props.c141_insert_partial
#print axioms Disa.Props.c141_insert_wrong
#print axioms Disa.Props.c142_violated
#print axioms Disa.Props.c142_wrap
#print axioms Disa.Props.c142_sizes
#print axioms Disa.Props.c142_reserve_partial
#print axioms Disa.Props.c142_insert
#print axioms Disa.Props.c142_reserve_insert
#print axioms Disa.Props.c142_keep
#print axioms Disa.Props.c143_violated
#print axioms Disa.Props.c143_wrong
#print axioms Disa.Props.c143_cycle
#print axioms Disa.Props.c143_grown_parent
#print axioms Disa.Props.c143_parent_partial
#print axioms Disa.Props.c143_shrunk_parent
#print axioms Disa.Props.c143_resize
#print axioms Disa.Props.c143_ub_iff
#print axioms Disa.Props.c143_clear
#print axioms Disa.Props.c143_swap
#print axioms Disa.Props.c144_violated
#print axioms Disa.Props.c144_empty
#print axioms Disa.Props.c144_graph
#print axioms Disa.Props.c144_subgraph
#print axioms Disa.Props.c144_no_levels
#print axioms Disa.Props.c144_partial
#print axioms Disa.Props.c145_visit
#print axioms Disa.Props.c145_row
#print axioms Disa.Props.c146_update
#print axioms Disa.Props.c146_row
#print axioms Disa.Props.c146_scale
#print axioms Disa.Props.c147_step
#print axioms Disa.Props.c147_nested
#print axioms Disa.Props.c147_largest
#print axioms Disa.Props.c148_elements
#print axioms Disa.Props.c148_determined
#print axioms Disa.Props.c148_order
#print axioms Disa.Props.c148_distinct
#print axioms Disa.Props.c148_sums
#print axioms Disa.Props.c149_resize
#print axioms Disa.Props.c149_same_size
#print axioms Disa.Props.c149_grow_back
#print axioms Disa.Props.c149_insert_resize
#print axioms Disa.Props.c149_erase_twice
#print axioms Disa.Props.c149_erase_tail
#print axioms Disa.Props.c149_erase_none
#print axioms Disa.Props.c149_reorder_erase
#print axioms Disa.Props.c15_level_expansion
#print axioms Disa.Props.c15_bad_seeds_exit
#print axioms Disa.Props.c150_passes
#print axioms Disa.Props.c150_converged
#print axioms Disa.Props.c150_unreached
#print axioms Disa.Props.c150_no_centre
#print axioms Disa.Props.c151_violated
#print axioms Disa.Props.c151_sizes
#print axioms Disa.Props.c151_values
#print axioms Disa.Props.c151_reserve_partial
#print axioms Disa.Props.c151_reserve_insert
#print axioms Disa.Props.c151_grow
#print axioms Disa.Props.c151_keep
#print axioms Disa.Props.c151_wrap
#print axioms Disa.Props.c152_violated
#print axioms Disa.Props.c152_partial
#print axioms Disa.Props.c152_wrong
#print axioms Disa.Props.c152_full
#print axioms Disa.Props.c152_swap
#print axioms Disa.Props.c153_violated
#print axioms Disa.Props.c153_empty
#print axioms Disa.Props.c153_clear
#print axioms Disa.Props.c153_asked
#print axioms Disa.Props.c153_resize
#print axioms Disa.Props.c153_partial
#print axioms Disa.Props.c154_solution
#print axioms Disa.Props.c154_levels
#print axioms Disa.Props.c154_iterations
#print axioms Disa.Props.c154_lower
#print axioms Disa.Props.c154_tends
#print axioms Disa.Props.c154_backward
#print axioms Disa.Props.c155_violated
#print axioms Disa.Props.c155_assigned
#print axioms Disa.Props.c155_present
#print axioms Disa.Props.c155_before
#print axioms Disa.Props.c155_full
#print axioms Disa.Props.c155_window
#print axioms Disa.Props.c156_violated
#print axioms Disa.Props.c156_partial
#print axioms Disa.Props.c156_one_type
#print axioms Disa.Props.c156_negative
#print axioms Disa.Props.c156_exit
#print axioms Disa.Props.c156_loss
#print axioms Disa.Props.c156_overflow
#print axioms Disa.Props.c157_violated
#print axioms Disa.Props.c157_partial
#print axioms Disa.Props.c157_exact
#print axioms Disa.Props.c157_visits
#print axioms Disa.Props.c157_overflow
#print axioms Disa.Props.c157_endless
#print axioms Disa.Props.c157_index
#print axioms Disa.Props.c158_grow
#print axioms Disa.Props.c158_shrink
#print axioms Disa.Props.c158_back
#print axioms Disa.Props.c159_vectors
#print axioms Disa.Props.c159_self
#print axioms Disa.Props.c159_matrices
#print axioms Disa.Props.c159_violated
#print axioms Disa.Props.c159_products
#print axioms Disa.Props.c159_products_partial
#print axioms Disa.Props.c16_violated
#print axioms Disa.Props.c16_eccentricity_ub_iff
#print axioms Disa.Props.c16_eccentricity_safe_partial
#print axioms Disa.Props.c160_violated
#print axioms Disa.Props.c160_dot
#print axioms Disa.Props.c160_dot_partial
#print axioms Disa.Props.c160_apply_partial
#print axioms Disa.Props.c160_sizes
#print axioms Disa.Props.c160_mean
#print axioms Disa.Props.c160_norm1
#print axioms Disa.Props.c160_norm2
#print axioms Disa.Props.c160_max_partial
#print axioms Disa.Props.c160_max_least
#print axioms Disa.Props.c161_violated
#print axioms Disa.Props.c161_unit
#print axioms Disa.Props.c161_angle
#print axioms Disa.Props.c162_violated
#print axioms Disa.Props.c162_corrupts
#print axioms Disa.Props.c162_path
#print axioms Disa.Props.c162_fixed
#print axioms Disa.Props.c162_partial
#print axioms Disa.Props.c162_isolated
#print axioms Disa.Props.c163_violated
#print axioms Disa.Props.c163_asymmetric
#print axioms Disa.Props.c163_rows
#print axioms Disa.Props.c163_partial
#print axioms Disa.Props.c163_dangling
#print axioms Disa.Props.c164_default
#print axioms Disa.Props.c164_cuthill_mckee
#print axioms Disa.Props.c164_breadth_first
#print axioms Disa.Props.c165_bisection
#print axioms Disa.Props.c165_equal
#print axioms Disa.Props.c166_default
#print axioms Disa.Props.c166_corner
#print axioms Disa.Props.c167_assemble
#print axioms Disa.Props.c167_definite
#print axioms Disa.Props.c167_solvers
#print axioms Disa.Props.c167_accepted
#print axioms Disa.Props.c167_bounds
#print axioms Disa.Props.c167_kernel
#print axioms Disa.Props.c167_singular
#print axioms Disa.Props.c168_monotone
#print axioms Disa.Props.c168_rising
#print axioms Disa.Props.c168_falling
#print axioms Disa.Props.c168_compare
#print axioms Disa.Props.c168_encloses
#print axioms Disa.Props.c169_jacobi
#print axioms Disa.Props.c169_gauss_seidel
#print axioms Disa.Props.c169_solution
#print axioms Disa.Props.c17_breadth_first
#print axioms Disa.Props.c17_disconnected_exits
#print axioms Disa.Props.c17_empty
#print axioms Disa.Props.c170_monotone
#print axioms Disa.Props.c170_settles
#print axioms Disa.Props.c171_iterates
#print axioms Disa.Props.c171_solve
#print axioms Disa.Props.c172_power_of_two
#print axioms Disa.Props.c172_underflow
#print axioms Disa.Props.c173_violated
#print axioms Disa.Props.c173_diagonals
#print axioms Disa.Props.c174_minors
#print axioms Disa.Props.c174_determinant
#print axioms Disa.Props.c175_violated
#print axioms Disa.Props.c175_small
#print axioms Disa.Props.c175_tolerance
#print axioms Disa.Props.c175_larger_partial
#print axioms Disa.Props.c175_solution_partial
#print axioms Disa.Props.c176_farthest
#print axioms Disa.Props.c176_peripheral
#print axioms Disa.Props.c176_cycles
#print axioms Disa.Props.c177_volume
#print axioms Disa.Props.c177_gauss_seidel
#print axioms Disa.Props.c177_slow
#print axioms Disa.Props.c178_corner
#print axioms Disa.Props.c178_bisection
#print axioms Disa.Props.c179_limits
#print axioms Disa.Props.c179_reals
#print axioms Disa.Props.c179_doubles
#print axioms Disa.Props.c18_level_order
#print axioms Disa.Props.c180_split
#print axioms Disa.Props.c180_same
#print axioms Disa.Props.c181_jacobi
#print axioms Disa.Props.c181_gauss_seidel
#print axioms Disa.Props.c181_converges
#print axioms Disa.Props.c181_definite
#print axioms Disa.Props.c181_needed
#print axioms Disa.Props.c181_doubles
#print axioms Disa.Props.c181_line
#print axioms Disa.Props.c181_grid
#print axioms Disa.Props.c181_groups
#print axioms Disa.Props.c181_reordered
#print axioms Disa.Props.c182_reads
#print axioms Disa.Props.c182_sizes
#print axioms Disa.Props.c182_reserve
#print axioms Disa.Props.c182_reserve_exits
#print axioms Disa.Props.c182_resize
#print axioms Disa.Props.c182_reserve_resize
#print axioms Disa.Props.c182_shrink
#print axioms Disa.Props.c182_others
#print axioms Disa.Props.c183_solution
#print axioms Disa.Props.c183_errors
#print axioms Disa.Props.c183_converges
#print axioms Disa.Props.c183_exactly
#print axioms Disa.Props.c183_compare
#print axioms Disa.Props.c183_between
#print axioms Disa.Props.c183_box
#print axioms Disa.Props.c183_overshoots
#print axioms Disa.Props.c183_direct
#print axioms Disa.Props.c184_assemble
#print axioms Disa.Props.c184_solvable
#print axioms Disa.Props.c184_between
#print axioms Disa.Props.c184_mean
#print axioms Disa.Props.c184_box
#print axioms Disa.Props.c184_solvers
#print axioms Disa.Props.c185_solution
#print axioms Disa.Props.c185_converges
#print axioms Disa.Props.c185_given
#print axioms Disa.Props.c185_replaced
#print axioms Disa.Props.c185_boundary
#print axioms Disa.Props.c185_methods
#print axioms Disa.Props.c186_box
#print axioms Disa.Props.c186_graph
#print axioms Disa.Props.c186_needed
#print axioms Disa.Props.c187_violated
#print axioms Disa.Props.c187_rejected
#print axioms Disa.Props.c187_reorder_partial
#print axioms Disa.Props.c187_accepted_partial
#print axioms Disa.Props.c187_check
#print axioms Disa.Props.c188_jacobi
#print axioms Disa.Props.c188_product
#print axioms Disa.Props.c188_laplace
#print axioms Disa.Props.c188_sharp
#print axioms Disa.Props.c189_closed
#print axioms Disa.Props.c189_cone
#print axioms Disa.Props.c189_sharp
#print axioms Disa.Props.c19_cuthill_mckee
#print axioms Disa.Props.c19_disconnected_exits
#print axioms Disa.Props.c19_empty
#print axioms Disa.Props.c190_modes
#print axioms Disa.Props.c190_jacobi
#print axioms Disa.Props.c190_gauss_seidel
#print axioms Disa.Props.c190_sor
#print axioms Disa.Props.c190_roots
#print axioms Disa.Props.c190_diverges
#print axioms Disa.Props.c190_needed
#print axioms Disa.Props.c191_rounds
#print axioms Disa.Props.c191_exists
#print axioms Disa.Props.c191_bisection
#print axioms Disa.Props.c192_part
#print axioms Disa.Props.c192_rounds
#print axioms Disa.Props.c192_exists
#print axioms Disa.Props.c192_converges
#print axioms Disa.Props.c193_breadth_first
#print axioms Disa.Props.c193_cuthill_mckee
#print axioms Disa.Props.c193_only_trees
#print axioms Disa.Props.c193_direct
#print axioms Disa.Props.c193_along
#print axioms Disa.Props.c193_tree
#print axioms Disa.Props.c194_levels
#print axioms Disa.Props.c194_documented
#print axioms Disa.Props.c194_reordered
#print axioms Disa.Props.c194_tree
#print axioms Disa.Props.c195_dominant
#print axioms Disa.Props.c195_ratio
#print axioms Disa.Props.c195_offset
#print axioms Disa.Props.c196_component
#print axioms Disa.Props.c196_star
#print axioms Disa.Props.c197_radius
#print axioms Disa.Props.c198_between
#print axioms Disa.Props.c198_nonneg
#print axioms Disa.Props.c199_parts
#print axioms Disa.Props.c20_reverse
#print axioms Disa.Props.c200_profile
#print axioms Disa.Props.c201_solution
#print axioms Disa.Props.c201_accepted
#print axioms Disa.Props.c201_leading
#print axioms Disa.Props.c201_pivoting
#print axioms Disa.Props.c202_signs
#print axioms Disa.Props.c202_fixed
#print axioms Disa.Props.c202_zero
#print axioms Disa.Props.c203_band
#print axioms Disa.Props.c203_residual
#print axioms Disa.Props.c203_grid
#print axioms Disa.Props.c204_factors
#print axioms Disa.Props.c204_solve
#print axioms Disa.Props.c204_pivoting
#print axioms Disa.Props.c205_breadth_first
#print axioms Disa.Props.c205_cuthill_mckee
#print axioms Disa.Props.c205_direct
#print axioms Disa.Props.c206_equations
#print axioms Disa.Props.c206_multiple
#print axioms Disa.Props.c206_pivoting
#print axioms Disa.Props.c206_underflow
#print axioms Disa.Props.c207_accurate
#print axioms Disa.Props.c207_solved
#print axioms Disa.Props.c207_grid
#print axioms Disa.Props.c208_same
#print axioms Disa.Props.c208_solved
#print axioms Disa.Props.c209_exit_iff
#print axioms Disa.Props.c209_ub_iff
#print axioms Disa.Props.c209_distances_partial
#print axioms Disa.Props.c209_violated
#print axioms Disa.Props.c21_greedy
#print axioms Disa.Props.c21_rule_determines
#print axioms Disa.Props.c210_paths
#print axioms Disa.Props.c210_profile
#print axioms Disa.Props.c210_no_fill
#print axioms Disa.Props.c210_tree
#print axioms Disa.Props.c210_exact
#print axioms Disa.Props.c211_few
#print axioms Disa.Props.c211_residual
#print axioms Disa.Props.c211_accurate
#print axioms Disa.Props.c211_solved
#print axioms Disa.Props.c211_joined
#print axioms Disa.Props.c211_tree
#print axioms Disa.Props.c211_tree_solved
#print axioms Disa.Props.c212_factors
#print axioms Disa.Props.c212_residual
#print axioms Disa.Props.c212_two
#print axioms Disa.Props.c213_factors
#print axioms Disa.Props.c213_residual
#print axioms Disa.Props.c213_solved
#print axioms Disa.Props.c214_definite
#print axioms Disa.Props.c214_settles
#print axioms Disa.Props.c215_dominant
#print axioms Disa.Props.c215_definite
#print axioms Disa.Props.c216_residual
#print axioms Disa.Props.c216_stops
#print axioms Disa.Props.c216_dominant
#print axioms Disa.Props.c216_definite
#print axioms Disa.Props.c217_dot
#print axioms Disa.Props.c217_finite
#print axioms Disa.Props.c217_sparse
#print axioms Disa.Props.c217_returns
#print axioms Disa.Props.c217_backward
#print axioms Disa.Props.c217_same
#print axioms Disa.Props.c217_fused
#print axioms Disa.Props.c217_unfused
#print axioms Disa.Props.c218_step
#print axioms Disa.Props.c218_dominant
#print axioms Disa.Props.c218_unfused
#print axioms Disa.Props.c219_norms
#print axioms Disa.Props.c219_doubles
#print axioms Disa.Props.c219_differs
#print axioms Disa.Props.c22_violated
#print axioms Disa.Props.c22_edgeless
#print axioms Disa.Props.c22_permutation_iff
#print axioms Disa.Props.c22_small_partial
#print axioms Disa.Props.c220_dominant
#print axioms Disa.Props.c221_returns
#print axioms Disa.Props.c221_residual
#print axioms Disa.Props.c221_stops
#print axioms Disa.Props.c221_dominant
#print axioms Disa.Props.c222_definite
#print axioms Disa.Props.c222_returns
#print axioms Disa.Props.c222_stops
#print axioms Disa.Props.c223_accurate
#print axioms Disa.Props.c223_solved
#print axioms Disa.Props.c224_factors
#print axioms Disa.Props.c224_residual
#print axioms Disa.Props.c224_solved
#print axioms Disa.Props.c225_cube
#print axioms Disa.Props.c225_power
#print axioms Disa.Props.c225_exists
#print axioms Disa.Props.c226_band
#print axioms Disa.Props.c226_residual
#print axioms Disa.Props.c226_grid
#print axioms Disa.Props.c227_factors
#print axioms Disa.Props.c227_solve
#print axioms Disa.Props.c227_dot
#print axioms Disa.Props.c227_integers
#print axioms Disa.Props.c227_rounded
#print axioms Disa.Props.c228_violated
#print axioms Disa.Props.c228_partial
#print axioms Disa.Props.c228_wide
#print axioms Disa.Props.c228_wraps
#print axioms Disa.Props.c228_shrink
#print axioms Disa.Props.c229_signs
#print axioms Disa.Props.c23_induced
#print axioms Disa.Props.c23_returns
#print axioms Disa.Props.c23_rejects
#print axioms Disa.Props.c23_unsorted
#print axioms Disa.Props.c230_same
#print axioms Disa.Props.c230_solved
#print axioms Disa.Props.c231_between
#print axioms Disa.Props.c231_nonneg
#print axioms Disa.Props.c232_box
#print axioms Disa.Props.c232_graph
#print axioms Disa.Props.c233_between
#print axioms Disa.Props.c233_nonneg
#print axioms Disa.Props.c234_signs
#print axioms Disa.Props.c235_paths
#print axioms Disa.Props.c235_profile
#print axioms Disa.Props.c235_no_fill
#print axioms Disa.Props.c235_tree
#print axioms Disa.Props.c236_few
#print axioms Disa.Props.c236_residual
#print axioms Disa.Props.c236_accurate
#print axioms Disa.Props.c236_solved
#print axioms Disa.Props.c236_joined
#print axioms Disa.Props.c236_tree
#print axioms Disa.Props.c236_tree_solved
#print axioms Disa.Props.c237_equations
#print axioms Disa.Props.c237_stored
#print axioms Disa.Props.c237_products
#print axioms Disa.Props.c237_multiple
#print axioms Disa.Props.c237_underflow
#print axioms Disa.Props.c238_equations
#print axioms Disa.Props.c238_sor
#print axioms Disa.Props.c238_products
#print axioms Disa.Props.c238_underflow
#print axioms Disa.Props.c24_violated
#print axioms Disa.Props.c24_update_levels_partial
#print axioms Disa.Props.c24_global_local_partial
#print axioms Disa.Props.c25_bisection
#print axioms Disa.Props.c25_bisection_exits
#print axioms Disa.Props.c25_bisection_ub
#print axioms Disa.Props.c25_bisection_empty
#print axioms Disa.Props.c26_violated
#print axioms Disa.Props.c26_multinode_ub
#print axioms Disa.Props.c26_multinode_small_partial
#print axioms Disa.Props.c26_edgeless_partial
#print axioms Disa.Props.c27_line
#print axioms Disa.Props.c28_structured
#print axioms Disa.Props.c29_finite_map
#print axioms Disa.Props.c30_violated
#print axioms Disa.Props.c30_invariants_partial
#print axioms Disa.Props.c30_columns_partial
#print axioms Disa.Props.c31_violated
#print axioms Disa.Props.c31_present_partial
#print axioms Disa.Props.c31_range_partial
#print axioms Disa.Props.c31_absent_partial
#print axioms Disa.Props.c31_next_row
#print axioms Disa.Props.c31_last_row
#print axioms Disa.Props.c32_violated
#print axioms Disa.Props.c32_resize_partial
#print axioms Disa.Props.c32_zero
#print axioms Disa.Props.c33_arithmetic
#print axioms Disa.Props.c33_self
#print axioms Disa.Props.c33_sizes
#print axioms Disa.Props.c33_operators
#print axioms Disa.Props.c33_elements
#print axioms Disa.Props.c33_elements_self
#print axioms Disa.Props.c34_product
#print axioms Disa.Props.c34_sizes
#print axioms Disa.Props.c35_violated
#print axioms Disa.Props.c35_self
#print axioms Disa.Props.c35_partial
#print axioms Disa.Props.c36_matvec
#print axioms Disa.Props.c36_sizes
#print axioms Disa.Props.c36_linear
#print axioms Disa.Props.c36_distributes
#print axioms Disa.Props.c37_finite_map
#print axioms Disa.Props.c38_elementwise
#print axioms Disa.Props.c38_mismatch
#print axioms Disa.Props.c38_comm
#print axioms Disa.Props.c38_assoc
#print axioms Disa.Props.c38_distrib
#print axioms Disa.Props.c38_sub_add
#print axioms Disa.Props.c39_dot_symmetric
#print axioms Disa.Props.c39_dot_bilinear
#print axioms Disa.Props.c39_dot_sizes
#print axioms Disa.Props.c39_unit
#print axioms Disa.Props.c39_cross
#print axioms Disa.Props.c39_projections
#print axioms Disa.Props.c39_sizes
#print axioms Disa.Props.c39_dimensions
#print axioms Disa.Props.c40_violated
#print axioms Disa.Props.c40_assign_partial
#print axioms Disa.Props.c40_assign_square_partial
#print axioms Disa.Props.c40_product_partial
#print axioms Disa.Props.c40_product_square_partial
#print axioms Disa.Props.c40_mismatch_partial
#print axioms Disa.Props.c40_product_fixed
#print axioms Disa.Props.c40_assign_fixed
#print axioms Disa.Props.c40_self
#print axioms Disa.Props.c41_violated
#print axioms Disa.Props.c41_square_partial
#print axioms Disa.Props.c41_wide
#print axioms Disa.Props.c41_tall
#print axioms Disa.Props.c41_fixed
#print axioms Disa.Props.c41_mismatch
#print axioms Disa.Props.c42_coherent
#print axioms Disa.Props.c42_exact
#print axioms Disa.Props.c42_float
#print axioms Disa.Props.c42_tolerance
#print axioms Disa.Props.c43_solves
#print axioms Disa.Props.factorise_returns
#print axioms Disa.Props.c44_nonsingular
#print axioms Disa.Props.c44_singular
#print axioms Disa.Props.c44_rejected
#print axioms Disa.Props.c44_size
#print axioms Disa.Props.c45_fixed_point
#print axioms Disa.Props.c45_missing
#print axioms Disa.Props.c46_violated
#print axioms Disa.Props.c46_stops_partial
#print axioms Disa.Props.c46_reason
#print axioms Disa.Props.c47_contracts
#print axioms Disa.Props.c47_converges
#print axioms Disa.Props.c48_violated
#print axioms Disa.Props.c48_partial
#print axioms Disa.Props.c48_large
#print axioms Disa.Props.c49_violated
#print axioms Disa.Props.c49_relaxation_partial
#print axioms Disa.Props.c49_flag
#print axioms Disa.Props.c49_ignored
#print axioms Disa.Props.c50_sparse
#print axioms Disa.Props.c50_sparse_dense
#print axioms Disa.Props.c50_dense
#print axioms Disa.Props.c50_factorise
#print axioms Disa.Props.c50_unknown
#print axioms Disa.Props.c51_violated
#print axioms Disa.Props.c51_insert_reserved_ub
#print axioms Disa.Props.c52_of_edges
#print axioms Disa.Props.c52_of_no_edges
#print axioms Disa.Props.c53_violated
#print axioms Disa.Props.c53_first_fit_partial
#print axioms Disa.Props.c54_eccentricity_vertex
#print axioms Disa.Props.c55_breadth_first_rule
#print axioms Disa.Props.c56_cuthill_mckee_rule
#print axioms Disa.Props.c57_default_root
#print axioms Disa.Props.c57_isolated_exits
#print axioms Disa.Props.c58_violated
#print axioms Disa.Props.c58_small
#print axioms Disa.Props.c58_size_partial
#print axioms Disa.Props.c59_violated
#print axioms Disa.Props.c59_violated_ub
#print axioms Disa.Props.c59_update_levels_cases
#print axioms Disa.Props.c59_update_levels_partial
#print axioms Disa.Props.c60_violated
#print axioms Disa.Props.c60_violated_any
#print axioms Disa.Props.c60_is_parent
#print axioms Disa.Props.c60_update_levels_rejects
#print axioms Disa.Props.c60_own_parent_partial
#print axioms Disa.Props.c61_reorder
#print axioms Disa.Props.c62_violated
#print axioms Disa.Props.c62_old_partial
#print axioms Disa.Props.c63_hybrid
#print axioms Disa.Props.c63_saad
#print axioms Disa.Props.c64_violated
#print axioms Disa.Props.c64_lookup_ub
#print axioms Disa.Props.c64_in_range_partial
#print axioms Disa.Props.c65_violated
#print axioms Disa.Props.c65_erase_ub
#print axioms Disa.Props.c65_erase_partial
#print axioms Disa.Props.c66_violated
#print axioms Disa.Props.c66_data
#print axioms Disa.Props.c66_never
#print axioms Disa.Props.c67_violated
#print axioms Disa.Props.c67_exact
#print axioms Disa.Props.c67_scale_partial
#print axioms Disa.Props.c68_constructor
#print axioms Disa.Props.c68_empty
#print axioms Disa.Props.c69_violated
#print axioms Disa.Props.c69_exact
#print axioms Disa.Props.c69_exact_sub
#print axioms Disa.Props.c69_negative
#print axioms Disa.Props.c69_rows_partial
#print axioms Disa.Props.c69_subscript_partial
#print axioms Disa.Props.c70_row_assign
#print axioms Disa.Props.c70_row_read
#print axioms Disa.Props.c71_violated
#print axioms Disa.Props.c71_exact
#print axioms Disa.Props.c71_exact_matrix
#print axioms Disa.Props.c71_partial
#print axioms Disa.Props.c72_violated
#print axioms Disa.Props.c72_rows
#print axioms Disa.Props.c72_partial
#print axioms Disa.Props.c73_violated
#print axioms Disa.Props.c73_fixed
#print axioms Disa.Props.c73_partial
#print axioms Disa.Props.c74_elementwise
#print axioms Disa.Props.c74_mismatch
#print axioms Disa.Props.c74_resize
#print axioms Disa.Props.c75_violated
#print axioms Disa.Props.c75_empty_ub
#print axioms Disa.Props.c75_value
#print axioms Disa.Props.c75_max
#print axioms Disa.Props.c75_norm_partial
#print axioms Disa.Props.c76_angle
#print axioms Disa.Props.c76_special
#print axioms Disa.Props.c77_mean
#print axioms Disa.Props.c78_violated
#print axioms Disa.Props.c78_exact
#print axioms Disa.Props.c79_violated
#print axioms Disa.Props.c79_exact
#print axioms Disa.Props.c79_cases_partial
#print axioms Disa.Props.c79_monotone
#print axioms Disa.Props.c80_violated
#print axioms Disa.Props.c80_exact
#print axioms Disa.Props.c81_pivot
#print axioms Disa.Props.c81_plain
#print axioms Disa.Props.c82_plain
#print axioms Disa.Props.c82_pivot
#print axioms Disa.Props.c83_violated
#print axioms Disa.Props.c83_plain_partial
#print axioms Disa.Props.c84_reduces
#print axioms Disa.Props.c84_converges
#print axioms Disa.Props.c85_violated
#print axioms Disa.Props.c85_exact_partial
#print axioms Disa.Props.c86_tolerance
#print axioms Disa.Props.c87_meets
#print axioms Disa.Props.c87_dominant
#print axioms Disa.Props.c88_violated
#print axioms Disa.Props.c88_first_partial
#print axioms Disa.Props.c89_solution
#print axioms Disa.Props.c90_history
#print axioms Disa.Props.c90_again
#print axioms Disa.Props.c91_config
#print axioms Disa.Props.c91_factorise
#print axioms Disa.Props.c92_violated
#print axioms Disa.Props.c92_square_partial
#print axioms Disa.Props.c92_rectangular
#print axioms Disa.Props.c93_breadth_first
#print axioms Disa.Props.c93_cuthill_mckee
#print axioms Disa.Props.c94_violated
#print axioms Disa.Props.c94_line
#print axioms Disa.Props.c94_groups_partial
#print axioms Disa.Props.c95_grid
#print axioms Disa.Props.c95_grid_directed
#print axioms Disa.Props.c96_plain
#print axioms Disa.Props.c96_pivot
#print axioms Disa.Props.c97_history
#print axioms Disa.Props.c98_violated
#print axioms Disa.Props.c98_wide_pivot
#print axioms Disa.Props.c98_wide_plain
#print axioms Disa.Props.c98_tall
#print axioms Disa.Props.c98_tall_partial
#print axioms Disa.Props.c99_dominant
#print axioms Disa.Props.c99_positive_definite
