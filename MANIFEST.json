{
 "claims": [
  {
   "property": "C01",
   "status": "proved",
   "theorems": [
    "Verif.Trees.C01_traverse_complete",
    "Verif.Trees.C01_traverse_nodup",
    "Verif.Trees.C01_depth_first_order",
    "Verif.Trees.C01_breadth_first_order",
    "Verif.Trees.C01_traverse_flag",
    "Verif.Trees.C01_tree_traverse"
   ],
   "note": ""
  },
  {
   "property": "C02",
   "status": "proved",
   "theorems": [
    "Verif.Trees.C02_get_leaves",
    "Verif.Trees.C02_tree_leaves",
    "Verif.Trees.C02_leaves_antichain",
    "Verif.Trees.C02_leaves_cover"
   ],
   "note": ""
  },
  {
   "property": "C03",
   "status": "proved",
   "theorems": [
    "Verif.Trees.C03_root_subtrees_exact",
    "Verif.Trees.C03_root_subtrees_rooted",
    "Verif.Trees.C03_root_subtrees_least",
    "Verif.Trees.C03_root_subtrees_of_rooted",
    "Verif.Trees.C03_root_subtrees_idempotent"
   ],
   "note": ""
  },
  {
   "property": "C04",
   "status": "proved",
   "theorems": [
    "Verif.Trees.C04_subtrees_rooted_iff",
    "Verif.Trees.C04_subtrees_rooted_after"
   ],
   "note": ""
  },
  {
   "property": "C05",
   "status": "proved",
   "theorems": [
    "Verif.Trees.C05_refine_exact",
    "Verif.Trees.C05_new_subforest",
    "Verif.Trees.C05_new_leaves",
    "Verif.Trees.C05_same_subforest",
    "Verif.Trees.C05_clean_up"
   ],
   "note": ""
  },
  {
   "property": "C06",
   "status": "partial",
   "theorems": [
    "Verif.Trees.C06_coarsen_exact",
    "Verif.Trees.C06_coarsen_delete",
    "Verif.Trees.C06_coarsen_all",
    "Verif.Trees.C06_coarsen_new_label",
    "Verif.Trees.C06_coarsen_subforest_partial",
    "Verif.Trees.C06_coarsen_subforest_violated"
   ],
   "note": "Clauses without subforest flag proved exactly; the last clause (coarsening inside a subforest) is false of the code when grandchildren carry the flag (C06_coarsen_subforest_violated); C06_coarsen_subforest_partial covers what does hold."
  },
  {
   "property": "C07",
   "status": "proved",
   "theorems": [
    "Verif.Trees.C07_mark_single",
    "Verif.Trees.C07_mark_recursive",
    "Verif.Trees.C07_mark_reverse",
    "Verif.Trees.C07_flag_laws",
    "Verif.Trees.C07_record"
   ],
   "note": ""
  },
  {
   "property": "C08",
   "status": "partial",
   "theorems": [
    "Verif.Trees.C08_find_own_address",
    "Verif.Trees.C08_addresses_distinct",
    "Verif.Trees.C08_depthOK",
    "Verif.Trees.C08_missing_address_violated",
    "Verif.Trees.C08_tree_find_node_violated",
    "Verif.Trees.C08_remove_tree_violated",
    "Verif.Trees.C08_plant_split_violated",
    "Verif.Trees.C08_find_node"
   ],
   "note": "find_node of an own address, injectivity and lengths proved over all histories; the clause that find_node of a missing address returns None is false of the code (C08_missing_address_violated), further violations for Tree.find_node, remove_tree and planting split trees."
  },
  {
   "property": "C09",
   "status": "proved",
   "theorems": [
    "Verif.Trees.C09_nearest_ancestor",
    "Verif.Trees.C09_nearest_ancestor_none",
    "Verif.Trees.C09_get_parent"
   ],
   "note": ""
  },
  {
   "property": "C10",
   "status": "proved",
   "theorems": [
    "Verif.Trees.C10_contains_iff",
    "Verif.Trees.C10_contains_order"
   ],
   "note": ""
  },
  {
   "property": "C11",
   "status": "proved",
   "theorems": [
    "Verif.Trees.C11_is_contained_in_iff",
    "Verif.Trees.C11_is_contained_in_none"
   ],
   "note": ""
  },
  {
   "property": "C12",
   "status": "partial",
   "theorems": [
    "Verif.Trees.C12_tree_depth",
    "Verif.Trees.C12_tree_depth_flag_partial",
    "Verif.Trees.C12_forest_depth",
    "Verif.Trees.C12_flagged_depth_violated"
   ],
   "note": "tree_depth()/depth() proved; the flagged clause is false of the code (recursion at mesh.py l.438-448 drops the flag): C12_flagged_depth_violated is the negation with a witness."
  },
  {
   "property": "C13",
   "status": "proved",
   "theorems": [
    "Verif.Trees.C13_invariant",
    "Verif.Trees.C13_refine_total",
    "Verif.Trees.C13_remove_violated"
   ],
   "note": "Invariant over all histories of the listed operations. C13_remove_violated records that Tree.remove, not in the list, breaks it."
  },
  {
   "property": "C14",
   "status": "proved",
   "theorems": [
    "Verif.Trees.C14_is_rooted_subtree_iff",
    "Verif.Trees.C14_make_rooted_subtree_exact",
    "Verif.Trees.C14_make_rooted_subtree_rooted"
   ],
   "note": ""
  },
  {
   "property": "C15",
   "status": "proved",
   "theorems": [
    "Verif.OneD.C15_split",
    "Verif.OneD.C15_leaves_tile",
    "Verif.OneD.C15_box"
   ],
   "note": ""
  },
  {
   "property": "C16",
   "status": "proved",
   "theorems": [
    "Verif.OneD.C16_left",
    "Verif.OneD.C16_right",
    "Verif.OneD.C16_periodic",
    "Verif.OneD.C16_boundary_cells"
   ],
   "note": ""
  },
  {
   "property": "C17",
   "status": "proved",
   "theorems": [
    "Verif.OneD.C17_round_trip",
    "Verif.OneD.C17_jacobian",
    "Verif.OneD.C17_contains",
    "Verif.OneD.C17_subcell",
    "Verif.OneD.C17_subcell_child"
   ],
   "note": ""
  },
  {
   "property": "C18",
   "status": "partial",
   "theorems": [
    "Verif.OneD.C18_mesh1d",
    "Verif.OneD.C18_interval",
    "Verif.OneD.C18_lost_points_violated",
    "Verif.Quad.C18_mesh2d",
    "Verif.Quad.C18_quadcell",
    "Verif.Quad.C18_tolerance_violated"
   ],
   "note": "Complete and duplicate-free assignment proved for 1D and 2D meshes and cells; violations: a node with a missing child loses points (C18_lost_points_violated), positive tolerance puts points in cells not containing them (C18_tolerance_violated)."
  },
  {
   "property": "C19",
   "status": "proved",
   "theorems": [
    "Verif.Quad.C19_area_sum",
    "Verif.Quad.C19_child_convex",
    "Verif.Quad.C19_split_total",
    "Verif.Quad.C19_split_refused",
    "Verif.Quad.C19_leaf_areas",
    "Verif.Quad.C19_split_always",
    "Verif.Quad.C19_nonconvex_split_violated"
   ],
   "note": "C19_nonconvex_split_violated records that convexity is needed."
  },
  {
   "property": "C20",
   "status": "partial",
   "theorems": [
    "Verif.Quad.C20_subcell",
    "Verif.Quad.C20_outside",
    "Verif.Quad.C20_self_violated"
   ],
   "note": "Proved for every proper descendant; cell.subcell_position(cell) itself raises (C20_self_violated)."
  },
  {
   "property": "C21",
   "status": "partial",
   "theorems": [
    "Verif.Quad.C21_injective",
    "Verif.Quad.C21_surjective",
    "Verif.Quad.C21_bijection",
    "Verif.Quad.C21_change_of_variables",
    "Verif.Quad.C21_vertices_edges",
    "Verif.Quad.C21_jacobian",
    "Verif.Quad.C21_jacobian_inverse",
    "Verif.Quad.C21_det_pos",
    "Verif.Quad.C21_hessian",
    "Verif.Quad.C21_rectangle",
    "Verif.Quad.C21_is_rectangle",
    "Verif.Quad.C21_vertical_rectangle_violated",
    "Verif.Quad.C21_newton_fixed",
    "Verif.Quad.C21_newton_parallelogram"
   ],
   "note": "All clauses proved; inverse on rectangles proved when the first edge is horizontal and violated when it is vertical (C21_vertical_rectangle_violated)."
  },
  {
   "property": "C22",
   "status": "proved",
   "theorems": [
    "Verif.Quad.C22_hull",
    "Verif.Quad.C22_mono",
    "Verif.Quad.C22_map_inside"
   ],
   "note": ""
  },
  {
   "property": "C23",
   "status": "proved",
   "theorems": [
    "Verif.Mesh.C23_split_ok",
    "Verif.Mesh.C23_twins",
    "Verif.Mesh.C23_children",
    "Verif.Mesh.C23_pairs"
   ],
   "note": "Over all orders of splits (HReach), periodic half-edges included."
  },
  {
   "property": "C24",
   "status": "proved",
   "theorems": [
    "Verif.Dcel.C24_counts",
    "Verif.Dcel.C24_faces",
    "Verif.Dcel.C24_areas",
    "Verif.Dcel.C24_tiling",
    "Verif.Dcel.C24_oriented",
    "Verif.Dcel.C24_twins",
    "Verif.Phys.C24_mesh",
    "Verif.Phys.C24_embedded"
   ],
   "note": "Grid of arbitrary nx, ny >= 1 and any box: counts, faces, areas, tiling, orientation, twins."
  },
  {
   "property": "C25",
   "status": "partial",
   "theorems": [
    "Verif.Dcel.C25_sides",
    "Verif.Dcel.C25_next_prev",
    "Verif.Dcel.C25_cycle",
    "Verif.Dcel.C25_twin_iff",
    "Verif.Dcel.C25_twin",
    "Verif.Dcel.C25_nonmanifold_violated",
    "Verif.Phys.C25_mesh",
    "Verif.Phys.C25_mesh_cells"
   ],
   "note": "Proved for all face lists (sides, next/prev, cycles, exact characterisation of the computed twin) and involution for oriented face lists; C25_nonmanifold_violated: without orientation/manifoldness the computed twin is not an involution."
  },
  {
   "property": "C26",
   "status": "partial",
   "theorems": [
    "Verif.Dcel.C26_interior_partial",
    "Verif.Dcel.C26_boundary_violated",
    "Verif.Dcel.C26_1d",
    "Verif.Dcel.C26_1d_periodic"
   ],
   "note": "1D (plain and periodic) and 2D interior edges proved; on a 2D boundary edge the code returns the last face instead of None (C26_boundary_violated)."
  },
  {
   "property": "C27",
   "status": "proved",
   "theorems": [
    "Verif.Mesh.C27_is_balanced",
    "Verif.Mesh.C27_terminates",
    "Verif.Mesh.C27_no_error",
    "Verif.Mesh.C27_run_exists",
    "Verif.Mesh.C27_result",
    "Verif.Mesh.C27_minimal",
    "Verif.Mesh.C27_order_independent",
    "Verif.Mesh.C27_idempotent"
   ],
   "note": "For the whole mesh (or a flag that all cells carry) and every order of set.pop."
  },
  {
   "property": "C28",
   "status": "proved",
   "theorems": [
    "Verif.Fem.C28_defined1",
    "Verif.Fem.C28_defined2",
    "Verif.Fem.C28_node_count",
    "Verif.Fem.C28_nodal1",
    "Verif.Fem.C28_nodal2",
    "Verif.Fem.C28_partition_of_unity1",
    "Verif.Fem.C28_partition_of_unity2"
   ],
   "note": ""
  },
  {
   "property": "C29",
   "status": "proved",
   "theorems": [
    "Verif.Fem.C29_derivatives1",
    "Verif.Fem.C29_gradient2",
    "Verif.Fem.C29_hessian2"
   ],
   "note": ""
  },
  {
   "property": "C30",
   "status": "proved",
   "theorems": [
    "Verif.Fem.C30_reproduces1",
    "Verif.Fem.C30_reproduces2",
    "Verif.Fem.C30_polynomial",
    "Verif.Fem.C30_unisolvent"
   ],
   "note": ""
  },
  {
   "property": "C31",
   "status": "proved",
   "theorems": [
    "Verif.Fem.C31_hanging_continuous",
    "Verif.Fem.C31_conforming_continuous",
    "Verif.Fem.C31_coefficients_sum",
    "Verif.Fem.C31_others_vanish",
    "Verif.Fem.C31_constraint_coefficients"
   ],
   "note": ""
  },
  {
   "property": "C32",
   "status": "partial",
   "theorems": [
    "Verif.Gauss.C32_exact1",
    "Verif.Gauss.C32_exact2",
    "Verif.Gauss.C32_weights1",
    "Verif.Gauss.C32_orders",
    "Verif.Gauss.C32_weights2",
    "Verif.Gauss.C32_order6_partial",
    "Verif.Gauss.C32_order6_violated",
    "Verif.Gauss.C32_triangle_violated"
   ],
   "note": "Exactness proved for every accepted interval/quadrilateral order except 6, whose hard-coded coefficients are only approximate (C32_order6_partial gives the exact low-degree statement, C32_order6_violated the negation); triangle rules raise / are unavailable (C32_triangle_violated)."
  },
  {
   "property": "C33",
   "status": "proved",
   "theorems": [
    "Verif.Gauss.C33_scale_interval",
    "Verif.Gauss.C33_scale_quad",
    "Verif.Gauss.C33_composite_interval",
    "Verif.Gauss.C33_composite_quad",
    "Verif.Gauss.C33_interval",
    "Verif.Gauss.C33_half_edge",
    "Verif.Gauss.C33_quadrilateral",
    "Verif.Gauss.C33_rectangle",
    "Verif.Gauss.C33_area"
   ],
   "note": ""
  },
  {
   "property": "C34",
   "status": "partial",
   "theorems": [
    "Verif.Dof.C34_terminates",
    "Verif.Dof.C34_complete",
    "Verif.Dof.C34_stable",
    "Verif.Dof.C34_numbers",
    "Verif.Dof.C34_shared",
    "Verif.Dof.C34_sound",
    "Verif.Dof.C34_count",
    "Verif.Dof.C34_neighbors",
    "Verif.Dof.C34_vertex",
    "Verif.Dof.C34_torn",
    "Verif.Dof.C34_redistribute_violated",
    "Verif.Dof.C34_bowtie_violated"
   ],
   "note": "Quadrilateral meshes without periodic edges, every element type. Termination, completeness, stability, gap-free numbers and 'equal dofs are the same point' over all histories (refinement between distributions included); equal iff same point (and hence dof count, neighbours, vertices) for any sequence of distributions on one mesh; torn elements for all histories. Violated: refining between distributions duplicates shared dofs (C34_redistribute_violated), cells meeting in a vertex only (C34_bowtie_violated). One-dimensional meshes: C70; periodic quadrilateral meshes: C80."
  },
  {
   "property": "C35",
   "status": "partial",
   "theorems": [
    "Verif.Asm.C35_terminates",
    "Verif.Asm.C35_prolongation",
    "Verif.Asm.C35_matrix",
    "Verif.Asm.C35_dofs",
    "Verif.Asm.C35_correction_partial",
    "Verif.Asm.C35_vector",
    "Verif.Asm.C35_galerkin_partial",
    "Verif.Asm.C35_constant",
    "Verif.Asm.C35_order",
    "Verif.Asm.C35_consolidates_partial",
    "Verif.Asm.C35_setorder_violated",
    "Verif.Asm.C35_petrov_violated"
   ],
   "note": "Termination, P\u1d40 A P entries, vector, constants, row/column dofs and order independence proved for all inputs and any set order for which consolidate returns; Dirichlet correction proved for equal test/trial dofs, violated otherwise (C35_petrov_violated); list(set()) order can raise (C35_setorder_violated)."
  },
  {
   "property": "C36",
   "status": "partial",
   "theorems": [
    "Verif.Asm.C36_constant_partial",
    "Verif.Asm.C36_other_cells",
    "Verif.Asm.C36_violated"
   ],
   "note": "Holds for constant forms; for linear/bilinear forms the shallow copy empties the stored lists in every case (C36_violated)."
  },
  {
   "property": "C37",
   "status": "partial",
   "theorems": [
    "Verif.Linsys.C37_solve",
    "Verif.Linsys.C37_constraints",
    "Verif.Linsys.C37_galerkin_partial",
    "Verif.Linsys.C37_dirichlet",
    "Verif.Linsys.C37_spd",
    "Verif.Linsys.C37_spd_directions",
    "Verif.Linsys.C37_solvable",
    "Verif.Linsys.C37_solvable_directions",
    "Verif.Linsys.C37_load_violated",
    "Verif.Linsys.C37_chain_violated",
    "Verif.Linsys.C37_submesh_violated",
    "Verif.Linsys.C37_duplicate_violated"
   ],
   "note": "Exact description of the result (C37_solve): all constraints hold exactly, Galerkin equations hold with the loads of all hanging nodes but the first dropped; the full statement for Dirichlet constraints and for at most one loaded hanging node; SPD, or symmetric and definite on the admissible directions => solvable. Violations: lost loads, chained hanging nodes, submesh dof numbering, duplicated Dirichlet dofs."
  },
  {
   "property": "C38",
   "status": "partial",
   "theorems": [
    "Verif.Linsys.C38_fresh",
    "Verif.Linsys.C38_homogeneous_partial",
    "Verif.Linsys.C38_repeat_partial",
    "Verif.Linsys.C38_factored_partial",
    "Verif.Linsys.C38_new_rhs_violated",
    "Verif.Linsys.C38_new_matrix_violated",
    "Verif.Linsys.C38_hanging_violated",
    "Verif.Linsys.C38_late_constraint_violated"
   ],
   "note": "All histories for homogeneous Dirichlet conditions; repeated solves for any Dirichlet values; factored solves with hanging nodes; fresh matrix+rhs before each solve always works (C38_fresh). Violations: new rhs, new matrix, hanging nodes, late constraints."
  },
  {
   "property": "C39",
   "status": "proved",
   "theorems": [
    "Verif.Spd.C39_pseudo_inverse",
    "Verif.Spd.C39_exact",
    "Verif.Spd.C39_total"
   ],
   "note": ""
  },
  {
   "property": "C40",
   "status": "partial",
   "theorems": [
    "Verif.Spd.C40_exists",
    "Verif.Spd.C40_represents",
    "Verif.Spd.C40_reconstruct",
    "Verif.Spd.C40_dot",
    "Verif.Spd.C40_adjoint",
    "Verif.Spd.C40_solve",
    "Verif.Spd.C40_solve_pinv",
    "Verif.Spd.C40_solve_psd",
    "Verif.Spd.C40_sqrt_solve",
    "Verif.Spd.C40_sorted",
    "Verif.Spd.C40_rank",
    "Verif.Spd.C40_nullspace",
    "Verif.Spd.C40_generalized_solve",
    "Verif.Spd.C40_pinv_violated",
    "Verif.Spd.C40_rank_violated",
    "Verif.Spd.C40_generalized_violated"
   ],
   "note": "Exact description of every operation in terms of the clamped spectrum proved for all inputs; dot/solve/sqrt consistent with the represented matrix. Violations: default lower bound breaks the pseudo-inverse and the rank of singular matrices, generalized dot/sqrt is wrong."
  },
  {
   "property": "C41",
   "status": "partial",
   "theorems": [
    "Verif.Spd.C41_reconstruct",
    "Verif.Spd.C41_solve",
    "Verif.Spd.C41_sqrt_dot",
    "Verif.Spd.C41_sqrt_solve",
    "Verif.Spd.C41_exists",
    "Verif.Spd.C41_modified_solve_partial",
    "Verif.Spd.C41_modified_sqrt_partial",
    "Verif.Spd.C41_modified_consistent",
    "Verif.Spd.C41_reconstruct_violated",
    "Verif.Spd.C41_solve_blocks_violated",
    "Verif.Spd.C41_sqrt_solve_violated",
    "Verif.Spd.C41_solve_perm_violated",
    "Verif.Spd.C41_modchol"
   ],
   "note": "Positive definite branch (dense and CHOLMOD) fully proved; degenerate branch: modified-Cholesky theorem and consistency proved, with violations for permutation, 2x2 blocks and the wrong triangle."
  },
  {
   "property": "C42",
   "status": "partial",
   "theorems": [
    "Verif.Gmrf.C42_total_1d",
    "Verif.Gmrf.C42_total_2d",
    "Verif.Gmrf.C42_formula_1d",
    "Verif.Gmrf.C42_metric_1d",
    "Verif.Gmrf.C42_formula_2d",
    "Verif.Gmrf.C42_metric_2d",
    "Verif.Gmrf.C42_aniso_diagonal",
    "Verif.Gmrf.C42_aniso_partial",
    "Verif.Gmrf.C42_periodic_1d",
    "Verif.Gmrf.C42_periodic_2d",
    "Verif.Gmrf.C42_periodic_metric_1d",
    "Verif.Gmrf.C42_periodic_metric_2d",
    "Verif.Gmrf.C42_periodic_violated",
    "Verif.Gmrf.C42_mnorm_violated",
    "Verif.Gmrf.C42_triangle_violated"
   ],
   "note": "Metric (1D, 2D, diagonal anisotropy) and torus distance for points of the box proved; violations: off-diagonal anisotropy uses M[0,1] with the absolute coordinate differences (C42_mnorm_violated, C42_triangle_violated), periodic distance outside the box (C42_periodic_violated)."
  },
  {
   "property": "C43",
   "status": "partial",
   "theorems": [
    "Verif.Gmrf.C43_sample_constraint",
    "Verif.Gmrf.C43_sample_pointwise",
    "Verif.Gmrf.C43_sample_law_eig",
    "Verif.Gmrf.C43_sample_law_chol",
    "Verif.Gmrf.C43_sample_law_prec_eig",
    "Verif.Gmrf.C43_sample_regular",
    "Verif.Gmrf.C43_field_partial",
    "Verif.Gmrf.C43_field_covariance_violated",
    "Verif.Gmrf.C43_field_sample_violated"
   ],
   "note": "output='sample': A X = e and the exact conditional law proved for every stored decomposition and mode; output='field': conditional mean and matrix proved (C43_field_partial), but the returned field's covariance does not satisfy A K' = 0 (eigenvalues clamped, C43_field_covariance_violated) and cannot be sampled (C43_field_sample_violated)."
  },
  {
   "property": "C44",
   "status": "partial",
   "theorems": [
    "Verif.Gmrf.C44_symmetric",
    "Verif.Gmrf.C44_bounded_1d_partial",
    "Verif.Gmrf.C44_bounded_2d_partial",
    "Verif.Gmrf.C44_matern_offdiagonal",
    "Verif.Gmrf.C44_matern_violated",
    "Verif.Gmrf.C44_constant_violated",
    "Verif.Gmrf.C44_linear_violated",
    "Verif.Gmrf.C44_periodic_violated"
   ],
   "note": "Symmetry for all kernels; k(x,x)=sigma^2 and bound for all stationary kernels except matern (diagonal 1 instead of sigma^2, C44_matern_violated); constant returns sigma (C44_constant_violated), linear and periodic outside the box violated."
  },
  {
   "property": "C45",
   "status": "proved",
   "theorems": [
    "Verif.Fem.C45_parse"
   ],
   "note": ""
  },
  {
   "property": "C46",
   "status": "partial",
   "theorems": [
    "Verif.OneD.C46_siblings_partial",
    "Verif.OneD.C46_cousin_violated",
    "Verif.OneD.C46_periodic_violated"
   ],
   "note": "Siblings proved; violated for cousins and for periodic meshes."
  },
  {
   "property": "C47",
   "status": "partial",
   "theorems": [
    "Verif.Quad.C47_complete_partial",
    "Verif.Quad.C47_sound_partial",
    "Verif.Quad.C47_downward_violated"
   ],
   "note": "Proved for edges that are vertical, horizontal or point upwards; downward skew edges are treated as horizontal (C47_downward_violated)."
  },
  {
   "property": "C48",
   "status": "partial",
   "theorems": [
    "Verif.Quad.C48_no_miss",
    "Verif.Quad.C48_half_edge",
    "Verif.Quad.C48_small_violated",
    "Verif.Quad.C48_cell_no_miss",
    "Verif.Quad.C48_cell_sound",
    "Verif.Quad.C48_cell_exact"
   ],
   "note": "No-miss direction and exactness for cells proved; tiny segments violate exactness (C48_small_violated) because of absolute tolerances."
  },
  {
   "property": "C49",
   "status": "partial",
   "theorems": [
    "Verif.Quad.C49_map",
    "Verif.Quad.C49_inverse",
    "Verif.Quad.C49_subcell_partial",
    "Verif.Quad.C49_vertical_violated",
    "Verif.Quad.C49_jac_violated",
    "Verif.Quad.C49_far_violated"
   ],
   "note": "Map and inverse proved; sub-edge position proved for edges where the code divides by a nonzero x-extent, violated for vertical edges."
  },
  {
   "property": "C50",
   "status": "partial",
   "theorems": [
    "Verif.Dcel.C50_sound_partial",
    "Verif.Dcel.C50_lost_violated",
    "Verif.Dcel.C50_order_violated",
    "Verif.Dcel.C50_closed_violated",
    "Verif.Dcel.C50_points_violated",
    "Verif.Dcel.C50_complete",
    "Verif.Per.C50_grid"
   ],
   "note": "Soundness proved for all connectivities; every boundary half-edge exactly once if no proper part of the boundary closes up (C50_complete), hence on every rectangular grid (C50_grid); for several closed boundary curves completeness, and path order, empty boundary and get_boundary_points are violated with witnesses."
  },
  {
   "property": "C51",
   "status": "partial",
   "theorems": [
    "Verif.Dcel.C51_pair_sides",
    "Verif.Per.C51_bottom_violated",
    "Verif.Per.C51_grid"
   ],
   "note": "Rectangular grids: make_periodic with get_boundary_half_edges as in the code succeeds and gives the cyclic twins (C51_grid); general boundaries: if the first direction does not raise, twins are an involution, every side half-edge is matched, others unchanged (C51_pair_sides). Violated: the second direction does not raise if bottom half-edges have no partner (C51_bottom_violated)."
  },
  {
   "property": "C52",
   "status": "proved",
   "theorems": [
    "Verif.Mesh.C52_split_ok",
    "Verif.Mesh.C52_loop",
    "Verif.Mesh.C52_neighbor"
   ],
   "note": ""
  },
  {
   "property": "C53",
   "status": "partial",
   "theorems": [
    "Verif.Mesh.C53_submesh_violated",
    "Verif.Mesh.C53_full_flag_partial"
   ],
   "note": "Holds when all cells carry the flag (C53_full_flag_partial, from C27); false for a proper submesh of a finer mesh: C53_submesh_violated gives a rooted submesh and two orders of set.pop, one balanced, one not."
  },
  {
   "property": "C54",
   "status": "partial",
   "theorems": [
    "Verif.Asm.C54_solve_partial",
    "Verif.Asm.C54_total",
    "Verif.Asm.C54_solvable",
    "Verif.Asm.C54_chain_violated",
    "Verif.Asm.C54_overlap_violated",
    "Verif.Asm.C54_no_dirichlet_violated"
   ],
   "note": "Full statement for one-level hanging nodes disjoint from Dirichlet dofs, at least one Dirichlet coupling, sorted list(set()); violations: chains, overlap with Dirichlet, no Dirichlet conditions (IndexError)."
  },
  {
   "property": "C55",
   "status": "partial",
   "theorems": [
    "Verif.Fem.C55_first",
    "Verif.Fem.C55_second",
    "Verif.Fem.C55_mapped_exists",
    "Verif.Fem.C55_reference",
    "Verif.Fem.C55_interval",
    "Verif.Fem.C55_outside",
    "Verif.Fem.C55_vertical_rectangle_violated",
    "Verif.Fem.C55_interval_reference_violated"
   ],
   "note": "All convex quadrilaterals on the general branch, upright rectangles on the rectangle branch, intervals, and reference derivatives proved; violated for rectangles whose first edge is vertical (C55_vertical_rectangle_violated) and for 1D reference derivatives at several points (C55_interval_reference_violated)."
  },
  {
   "property": "C57",
   "status": "partial",
   "theorems": [
    "Verif.Gmrf.C57_gram_1d_partial",
    "Verif.Gmrf.C57_gram_2d_partial",
    "Verif.Gmrf.C57_gram_linear",
    "Verif.Gmrf.C57_periodic_violated",
    "Verif.Gmrf.C57_aniso_violated",
    "Verif.Gmrf.C57_matern_violated"
   ],
   "note": "Non-periodic gaussian/exponential/rational/matern(sigma=1) with diagonal M, constant and linear with any psd M proved for any finite point set; violated: periodic gaussian, off-diagonal M, matern with sigma != 1."
  },
  {
   "property": "C58",
   "status": "proved",
   "theorems": [
    "Verif.Gmrf.C58_sample_eig",
    "Verif.Gmrf.C58_sample_chol",
    "Verif.Gmrf.C58_sample_prec_eig"
   ],
   "note": "Eigen and Cholesky, covariance and precision; the eigendecomposition represents the clamped matrix (equal to the given one when it dominates the lower bound)."
  },
  {
   "property": "C59",
   "status": "partial",
   "theorems": [
    "Verif.Gmrf.C59_full",
    "Verif.Gmrf.C59_law",
    "Verif.Gmrf.C59_split",
    "Verif.Gmrf.C59_explicit_partial",
    "Verif.Gmrf.C59_explicit_violated"
   ],
   "note": "Drawn random numbers: full statement. Explicit z: only ranges starting at 0 (C59_explicit_partial); any other range raises (C59_explicit_violated)."
  },
  {
   "property": "C60",
   "status": "proved",
   "theorems": [
    "Verif.Gmrf.C60_generalized",
    "Verif.Gmrf.C60_interpolation",
    "Verif.Gmrf.C60_galerkin",
    "Verif.Gmrf.C60_exists"
   ],
   "note": "Symmetric positive definite mass matrix."
  },
  {
   "property": "C56",
   "status": "proved",
   "theorems": [
    "Verif.Form.C56_mass_pd",
    "Verif.Form.C56_edges",
    "Verif.Form.C56_edges_load",
    "Verif.Form.C56_edges_constant",
    "Verif.Form.C56_area",
    "Verif.Form.C56_mass_total",
    "Verif.Form.C56_vertices",
    "Verif.Form.C56_vertex_constant_violated",
    "Verif.Form.C56_exact_mass",
    "Verif.Form.C56_exact_load",
    "Verif.Form.C56_exact_parallelogram",
    "Verif.Form.C56_exact_convection",
    "Verif.Form.C56_exact_interval",
    "Verif.Form.C56_exact_interval_load",
    "Verif.Form.C56_unmarked_interval",
    "Verif.Form.C56_sample_size",
    "Verif.Form.C56_samples",
    "Verif.Form.C56_symmetric",
    "Verif.Form.C56_psd",
    "Verif.Form.C56_constants_derivative",
    "Verif.Form.C56_constants_value",
    "Verif.Form.C56_unmarked",
    "Verif.Form.C56_stiffness_kernel"
   ],
   "note": "Exactness: values/loads/convection on any convex quadrilateral, every derivative on parallelograms, edges and vertices, intervals with every derivative, rules up to 5 points per direction (the 6-point rule is not exact, see C32); second-order terms with a non-constant Jacobian have rational integrands, for which no Gauss rule is exact. Constant forms on vertices raise (C56_vertex_constant_violated)."
  },
  {
   "property": "C61",
   "status": "proved",
   "theorems": [
    "Verif.Form.C61_symmetric",
    "Verif.Form.C61_psd",
    "Verif.Form.C61_mass_pd",
    "Verif.Form.C61_poisson_solvable"
   ],
   "note": "Hypothesis on the mesh: cells hang together through shared dofs, supports of hanging dofs are cell dofs; list(set(..)) ascending for invertibility."
  },
  {
   "property": "C62",
   "status": "partial",
   "theorems": [
    "Verif.Dof.C62_leaf_dofs",
    "Verif.Dof.C62_stale_violated",
    "Verif.Dof.C62_succeeds",
    "Verif.Dof.C62_continuous",
    "Verif.Dof.C62_implies_continuous",
    "Verif.Dof.C62_hanging",
    "Verif.Dof.C62_no_chain",
    "Verif.Dof.C62_well_formed",
    "Verif.Dof.C62_solution_continuous"
   ],
   "note": "Proved for every balanced refined quadrilateral mesh without periodic edges, all continuous elements, at every point with coordinates in any ordered field; submeshes: rooted flags whose refined cells have all four children marked (the direction 'constraints imply continuity' without that). Violated for a dof handler with stale constraints: clear_dofs does not clear them (C62_stale_violated)."
  },
  {
   "property": "C63",
   "status": "partial",
   "theorems": [
    "Verif.Phys.C63_distinct",
    "Verif.Phys.C63_array",
    "Verif.Phys.C63_array_ex",
    "Verif.Phys.C63_submesh_violated",
    "Verif.Phys.C63_torn_violated",
    "Verif.Phys.C63_cells_violated",
    "Verif.Phys.C63_vertex",
    "Verif.Phys.C63_vertex_cells",
    "Verif.Phys.C63_succeeds",
    "Verif.Phys.C63_complete_first",
    "Verif.Phys.C63_complete"
   ],
   "note": "Whatever is returned is the right point, for every history and element (C63_vertex, C63_vertex_cells); aligned arrays; success of distribute_dofs; completeness after the first distribution (any submesh, element) and, for continuous elements without refinement in between, after each distribution on the whole mesh; distinct vertices on embedded meshes (all rectangular grids). Violated: dofs of a second submesh and of cells refined later can lack a vertex (C63_submesh_violated, C63_torn_violated: the early return compares counts), and with cells= a KeyError (C63_cells_violated)."
  },
  {
   "property": "C64",
   "status": "partial",
   "theorems": [
    "Verif.Bnd.C64_hole_violated",
    "Verif.Bnd.C64_flag_violated",
    "Verif.Bnd.C64_flag_partial",
    "Verif.Bnd.C64_grid",
    "Verif.Bnd.C64_sound",
    "Verif.Bnd.C64_segments",
    "Verif.Bnd.C64_vertices"
   ],
   "note": "Termination, path, soundness and no repetition for all meshes (C64_sound); completeness, closedness and the vertices for every domain with one boundary curve (C64_segments, C64_vertices), which includes all rectangular grids (C64_grid). False of the code: with a hole the outer boundary is lost (C64_hole_violated); with a flag unmarked half-edges are returned (C64_flag_violated; marked ones are never lost: C64_flag_partial)."
  },
  {
   "property": "C65",
   "status": "partial",
   "theorems": [
    "Verif.Reg.C65_entity",
    "Verif.Reg.C65_region_dofs",
    "Verif.Reg.C65_boundary",
    "Verif.Reg.C65_DQ0_violated",
    "Verif.Reg.C65_region",
    "Verif.Reg.C65_mark",
    "Verif.Reg.C65_mark_get"
   ],
   "note": "All clauses for meshes with one boundary curve when on_boundary is used (it rests on get_boundary_segments, see C64), every flag, every entity type, every element except half-edge and vertex dofs of DQ0, where the code returns the cell dof (C65_DQ0_violated)."
  },
  {
   "property": "C66",
   "status": "partial",
   "theorems": [
    "Verif.Dir.C66_assembler_partial",
    "Verif.Dir.C66_one_level",
    "Verif.Dir.C66_assembler_solution_partial",
    "Verif.Dir.C66_assembler_violated",
    "Verif.Dir.C66_exact",
    "Verif.Dir.C66_constant",
    "Verif.Dir.C66_constraints",
    "Verif.Dir.C66_not_hanging",
    "Verif.Dir.C66_solution",
    "Verif.Dir.C66_whole_boundary",
    "Verif.Dir.C66_assembler_Q1",
    "Verif.Dir.C66_marker_violated"
   ],
   "note": "All clauses for LinearSystem on domains with one boundary curve (see C64): constraints, well-formedness, solution (C66_solution, C66_whole_boundary, C66_exact, C66_constant), any solver result. Assembler.add_dirichlet prescribes only vertex dofs (C66_assembler_partial; complete for Q1: C66_assembler_Q1), so it misses the side dofs of Q2/Q3 (C66_assembler_violated), and a marker of half-edges as documented has no effect (C66_marker_violated). C66_assembler_solution_partial has the hypotheses of C54 on the order of sets. One-dimensional meshes: C71."
  },
  {
   "property": "C67",
   "status": "partial",
   "theorems": [
    "Verif.Fn.C67_bins",
    "Verif.Fn.C67_bins_outside",
    "Verif.Fn.C67_extension",
    "Verif.Fn.C67_gradient",
    "Verif.Fn.C67_hessian",
    "Verif.Fn.C67_polynomial_gradient",
    "Verif.Fn.C67_differentiate",
    "Verif.Fn.C67_basis",
    "Verif.Fn.C67_eval",
    "Verif.Fn.C67_tolerance_violated",
    "Verif.Fn.C67_basis_order_violated",
    "Verif.Fn.C67_differentiate_violated",
    "Verif.Fn.C67_differentiate_submesh_violated",
    "Verif.Fn.C67_polynomial",
    "Verif.Fn.C67_polynomial_rectangles",
    "Verif.Fn.C67_grid",
    "Verif.Fn.C67_setup",
    "Verif.Fn.C67_affine",
    "Verif.Fn.C67_value",
    "Verif.Fn.C67_point",
    "Verif.Fn.C67_nodes"
   ],
   "note": "All clauses in exact arithmetic for points at which the reference map is exact: everywhere on meshes of rectangles and parallelograms (C67_affine; Newton on general quadrilaterals: C21), except for points outside of a cell by less than the tolerance 1e-10, where the code raises an exception (C67_tolerance_violated). The dofs of the basis must be listed with the largest last; the code relies on the order of a Python set (C67_basis_order_violated). differentiate: proved for polynomials (C67_differentiate); false for functions with kinks (C67_differentiate_violated) and on submeshes (C67_differentiate_submesh_violated). One input variable, two dimensions."
  },
  {
   "property": "C68",
   "status": "proved",
   "theorems": [
    "Verif.Fn.C68_hanging_violated",
    "Verif.Fn.C68_interpolant",
    "Verif.Fn.C68_continuous",
    "Verif.Fn.C68_eval",
    "Verif.Fn.C68_interpolates",
    "Verif.Fn.C68_finer"
   ],
   "note": "Exact arithmetic, reference map exact at the dof vertices (C67_affine). Without the continuity of f the values at hanging nodes differ (C68_hanging_violated)."
  },
  {
   "property": "C69",
   "status": "partial",
   "theorems": [
    "Verif.Gal.C69_no_inner_violated",
    "Verif.Gal.C69_reproduces",
    "Verif.Gal.C69_solvable",
    "Verif.Gal.C69_one_answer",
    "Verif.Gal.C69_inner",
    "Verif.Gal.C69_bilinear",
    "Verif.Gal.C69_system_partial",
    "Verif.Gal.C69_system_runs"
   ],
   "note": "Assembler path: reproduction for Q1-Q3 with the boundary values in the dictionary (C69_reproduces), the whole pipeline for Q1 with Assembler.add_dirichlet (C69_bilinear; for Q2/Q3 add_dirichlet misses dofs, see C66_assembler_violated), invertibility and unique answer exactly on meshes with an inner dof (C69_solvable, C69_one_answer, C69_inner; without one consolidate raises: C69_no_inner_violated). LinearSystem path: C69_system_runs, and reproduction with at most one hanging node or zero load (C69_system_partial), because solve_system drops loads of hanging nodes (C37_load_violated). Exact arithmetic; sparse solver returns an exact solution; kernels polynomial and positive; rule with at most 5 points per direction; domains with one boundary curve where the code must find the boundary."
  },
  {
   "property": "C70",
   "status": "partial",
   "theorems": [
    "Verif.Line.C70_own_count_violated",
    "Verif.Line.C70_own_reuse_violated",
    "Verif.Line.C70_periodic_refined_violated",
    "Verif.Line.C70_terminates",
    "Verif.Line.C70_complete",
    "Verif.Line.C70_stable",
    "Verif.Line.C70_numbers_partial",
    "Verif.Line.C70_shared_partial",
    "Verif.Line.C70_count_partial",
    "Verif.Line.C70_torn"
   ],
   "note": "Proved for all histories if the mesh is not periodic or has at least two initial cells (refinement between distributions included). Violated on periodic meshes with one initial cell: inner dofs of Q2/Q3 are not counted (C70_own_count_violated), so later distributions use their numbers again (C70_own_reuse_violated); if the cell was refined first the two ends get different dofs (C70_periodic_refined_violated). Histories contain no coarsening after the dof handler is created."
  },
  {
   "property": "C71",
   "status": "partial",
   "theorems": [
    "Verif.Line.C71_same_vertex",
    "Verif.Line.C71_region_partial",
    "Verif.Line.C71_region_dofs_partial",
    "Verif.Line.C71_dirichlet_partial",
    "Verif.Line.C71_constraints_partial",
    "Verif.Line.C71_none_DQ0",
    "Verif.Line.C71_mark_partial",
    "Verif.Line.C71_marked_dirichlet_partial",
    "Verif.Line.C71_ready_first",
    "Verif.Line.C71_ready",
    "Verif.Line.C71_periodic_violated",
    "Verif.Line.C71_complete_violated",
    "Verif.Line.C71_flags_violated",
    "Verif.Line.C71_vertex",
    "Verif.Line.C71_terminates",
    "Verif.Line.C71_complete_first_partial",
    "Verif.Line.C71_complete_partial"
   ],
   "note": "Soundness (C71_vertex), termination, identity of vertices, regions, dofs of regions, markers, Dirichlet values and constraints for all histories, submeshes, markers and every element (DQ0 has no dofs at vertices: C71_none_DQ0). Completeness: after the first distribution on any submesh, and for continuous elements after every distribution on the whole mesh, refinement in between included. Violated: DQ0 after refinement and a second submesh lack vertices, because the early return compares counts (C71_complete_violated, C71_flags_violated); on_boundary=True raises on every periodic mesh (C71_periodic_violated), hence the hypothesis bnd -> not periodic."
  },
  {
   "property": "C72",
   "status": "partial",
   "theorems": [
    "Verif.Bvp.C72_no_inner_violated",
    "Verif.Bvp.C72_continuous",
    "Verif.Bvp.C72_one_answer",
    "Verif.Bvp.C72_values",
    "Verif.Bvp.C72_reproduces",
    "Verif.Bvp.C72_vertices",
    "Verif.Bvp.C72_best",
    "Verif.Bvp.C72_setup"
   ],
   "note": "All clauses proved wherever a free dof exists; on a mesh of one cell with Q1 and Dirichlet values at both ends consolidate raises (C72_no_inner_violated). C72_one_answer states exactly when solve succeeds."
  },
  {
   "property": "C73",
   "status": "proved",
   "theorems": [
    "Verif.Bvp.C73_rate",
    "Verif.Bvp.C73_converges",
    "Verif.Bvp.C73_refine",
    "Verif.Bvp.C73_refine_converges"
   ],
   "note": ""
  },
  {
   "property": "C74",
   "status": "partial",
   "theorems": [
    "Verif.Arr.C74_convert_partial",
    "Verif.Arr.C74_same_partial",
    "Verif.Arr.C74_ragged",
    "Verif.Arr.C74_parse_partial",
    "Verif.Arr.C74_numbers_violated",
    "Verif.Arr.C74_single_violated",
    "Verif.Arr.C74_empty_violated",
    "Verif.Arr.C74_dim_violated"
   ],
   "note": "Proved for all formats except: lists of numbers raise (C74_numbers_violated), a vector of length one gets three axes (C74_single_violated), the empty list has one axis (C74_empty_violated); contradictory dimensions are accepted for tuples (C74_dim_violated)."
  },
  {
   "property": "C75",
   "status": "partial",
   "theorems": [
    "Verif.Arr.Exp.C75_history_partial",
    "Verif.Arr.Exp.C75_shared_violated",
    "Verif.Arr.Exp.C75_empty_violated",
    "Verif.Arr.Exp.C75_position_violated"
   ],
   "note": "Proved (C75_history_partial) for all histories of calls whose lists are nonempty and made for the call. Violated: a list passed to two functions is shared and add_rule changes it (C75_shared_violated); a function without rules combines a later rule with wrong parameters (C75_empty_violated); set_rules with a position raises AttributeError (C75_position_violated)."
  },
  {
   "property": "C76",
   "status": "partial",
   "theorems": [
    "Verif.Intg.C76_exact_ip_partial",
    "Verif.Intg.C76_exact_ii_partial",
    "Verif.Intg.C76_matrix_partial",
    "Verif.Intg.C76_galerkin_partial",
    "Verif.Intg.C76_symmetric_partial",
    "Verif.Intg.C76_positive_partial",
    "Verif.Intg.C76_flag_violated",
    "Verif.Intg.C76_samples_violated",
    "Verif.Intg.C76_submesh_violated",
    "Verif.Intg.C76_petrov_violated",
    "Verif.Intg.C76_regions_violated"
   ],
   "note": "Proved for every mesh, kernel and set of forms with one sample, at least one region per cell, equal numbers of nodes, and for symmetric kernels equal test and trial functions. Violated: a form with a flag raises as soon as one cell is not flagged (C76_flag_violated); several samples raise (C76_samples_violated); IIForm on a submesh raises (C76_submesh_violated); IIForm uses the first region of a cell only (C76_regions_violated); a symmetric kernel with different test and trial functions gives a wrong matrix (C76_petrov_violated)."
  },
  {
   "property": "C77",
   "status": "partial",
   "theorems": [
    "Verif.Dof.C77_get_partial",
    "Verif.Dof.C77_system_partial",
    "Verif.Dof.C77_stale_violated",
    "Verif.Dof.C77_key_violated",
    "Verif.Dof.C77_boundary_violated",
    "Verif.Dof.C77_submesh_violated",
    "Verif.Dof.C77_default_violated",
    "Verif.Dof.C77_has_violated",
    "Verif.Dof.C77_has_partial"
   ],
   "note": "Proved: get_hanging_nodes is current if the table was set after the last change of the mesh or never asked for before (C77_get_partial); one system with boundary values on a new dofhandler, any number of calls for one submesh (C77_system_partial). Violated: stale tables after refinement (C77_stale_violated), KeyError for intervals and discontinuous elements (C77_key_violated), boundary values of an earlier system stay (C77_boundary_violated), hanging nodes of another submesh stay (C77_submesh_violated), the flag \"default\" (C77_default_violated), has_hanging_nodes (C77_has_violated)."
  },
  {
   "property": "C78",
   "status": "proved",
   "theorems": [
    "Verif.Cea.C78_minimises",
    "Verif.Cea.C78_best"
   ],
   "note": "For initial meshes of parallelograms (where the Gauss rule is exact), polynomial kernel and load with degrees the rule integrates exactly, Dirichlet values at all boundary nodes, exact arithmetic and exact linear solve."
  },
  {
   "property": "C79",
   "status": "proved",
   "theorems": [
    "Verif.Cea.C79_local",
    "Verif.Cea.C79_rate",
    "Verif.Cea.C79_converges",
    "Verif.Cea.C79_exists",
    "Verif.Cea.C79_limit"
   ],
   "note": "As C78: initial meshes of parallelograms, polynomial kernel and load, Dirichlet values at all boundary nodes, exact arithmetic and exact linear solve; balanced meshes without periodicity, or rooted submeshes that are full."
  },
  {
   "property": "C80",
   "status": "partial",
   "theorems": [
    "Verif.Per.C80_narrow_violated",
    "Verif.Per.C80_single_violated",
    "Verif.Per.C80_grid",
    "Verif.Per.C80_terminates",
    "Verif.Per.C80_complete",
    "Verif.Per.C80_stable",
    "Verif.Per.C80_numbers",
    "Verif.Per.C80_shared",
    "Verif.Per.C80_sound",
    "Verif.Per.C80_count",
    "Verif.Per.C80_neighbors",
    "Verif.Per.C80_vertex",
    "Verif.Per.C80_torn",
    "Verif.Per.C80_pairs",
    "Verif.Per.C80_single_partial"
   ],
   "note": "Proved for every initial mesh that satisfies PerOk, which every grid with at least two cells in each periodic direction does (C80_grid), all histories and all iteration orders of the sets. Violated with a single cell in a periodic direction: distribute_dofs does not return on a 2 by 1 torus (C80_narrow_violated), and n_dofs is too small on the 1 by 1 torus for cubic elements (C80_single_violated). As in C34, 'same point implies same dof' needs that the mesh is not refined between distributions. On a one-cell periodic grid the dofs of all continuous elements are shared exactly as the glued points are (C80_single_partial)."
  },
  {
   "property": "C81",
   "status": "proved",
   "theorems": [
    "Verif.Per.C81_arises",
    "Verif.Per.C81_succeeds",
    "Verif.Per.C81_continuous",
    "Verif.Per.C81_implies_continuous",
    "Verif.Per.C81_hanging",
    "Verif.Per.C81_no_chain",
    "Verif.Per.C81_once",
    "Verif.Per.C81_leaf_dofs",
    "Verif.Per.C81_well_formed",
    "Verif.Per.C81_solution_periodic"
   ],
   "note": "For every initial mesh that satisfies PerOk (every grid with at least two cells in each periodic direction, C80_grid), no refinement between the distributions, a new dof handler. The proof is that of C62, which only needs the numbering property (Rdy), here given by C80. On a stale dof handler C62_stale_violated applies as well. The docstring's 'hanging nodes are never periodic' is false: tor_hangs."
  },
  {
   "property": "C82",
   "status": "partial",
   "theorems": [
    "Verif.PySet.C82_grid_violated",
    "Verif.PySet.C82_grid_dofs",
    "Verif.PySet.C82_grid_dirichlet",
    "Verif.PySet.C82_grid",
    "Verif.PySet.C82_grid_solves",
    "Verif.PySet.C82_line_dofs",
    "Verif.PySet.C82_line",
    "Verif.PySet.C82_line_solves",
    "Verif.PySet.C82_line_converges",
    "Verif.PySet.C82_mesh",
    "Verif.PySet.C82_ratio",
    "Verif.PySet.C82_system",
    "Verif.PySet.C82_system_reproduces",
    "Verif.PySet.C82_bilinear",
    "Verif.PySet.C82_set",
    "Verif.PySet.C82_ascending",
    "Verif.PySet.C82_run",
    "Verif.PySet.C82_fails"
   ],
   "note": "The set of CPython 3.7-3.13 (Objects/setobject.c) is modelled: C82_set (every element once), C82_ascending (sorted if every element x is below 8 or 3x <= 5n + 3, n the number of elements), C82_fails (otherwise an IndexError). Proved: all one-dimensional problems (C82_line, C82_line_solves, C82_line_converges), all LinearSystems (C82_system, C82_system_reproduces), two-dimensional meshes on which hanging and Dirichlet dofs are at most two fifths of all (C82_ratio, C82_bilinear), grids with 4(d nx + d ny) <= d nx d ny + 4 (C82_grid, C82_grid_solves). Violated: Q1 Poisson with Dirichlet values on a 3x3 grid, where solve raises IndexError (C82_grid_violated). This discharges the hypothesis on the order of the set (Ascending) in C35, C54, C69, C72, C73, C78, C79 for these meshes."
  },
  {
   "property": "C83",
   "status": "partial",
   "theorems": [
    "Verif.Mesh.C83_vertices",
    "Verif.Mesh.C83_neighbor_violated",
    "Verif.Mesh.C83_balanced_violated",
    "Verif.Mesh.C83_hanging_violated",
    "Verif.Mesh.C83_extends",
    "Verif.Mesh.C83_split_ok",
    "Verif.Mesh.C83_delete",
    "Verif.Mesh.C83_direct",
    "Verif.Mesh.C83_neighbors_partial",
    "Verif.Mesh.C83_neighbors_clean_partial",
    "Verif.Mesh.C83_balanced_partial"
   ],
   "note": "Proved for all histories: splitting never fails and adds exactly the four children (C83_split_ok), deleting (C83_delete), same cells, children, half-edges, marks as a mesh that was only refined (C83_direct), same vertices (C83_vertices), the neighbours of that mesh are found (C83_neighbors_partial, C83_neighbors_clean_partial), is_balanced() true implies the 2:1 rule (C83_balanced_partial); the model extends that of the other mesh properties (C83_extends). Violated: half-edges of deleted cells stay, so get_neighbors returns deleted cells (C83_neighbor_violated), is_balanced() is false, distribute_dofs fails and balance splits without need on balanced meshes (C83_balanced_violated), set_hanging_nodes raises (C83_hanging_violated). One-dimensional coarsening is in C15-C18, where it is right."
  },
  {
   "property": "C84",
   "status": "proved",
   "theorems": [
    "Verif.Cea.C84_nested",
    "Verif.Cea.C84_monotone"
   ],
   "note": ""
  },
  {
   "property": "C85",
   "status": "partial",
   "theorems": [
    "Verif.Tri.C85_violated",
    "Verif.Tri.C85_never",
    "Verif.Tri.C85_phi_violated",
    "Verif.Tri.C85_cubic_violated",
    "Verif.Tri.C85_partial"
   ],
   "note": "no element can be constructed (C85_violated: Element.__init__ is called with an argument missing), phi calls a method that does not exist, and the cubic element on triangles has no branch; proved for the tables of functions"
  },
  {
   "property": "C86",
   "status": "proved",
   "theorems": [
    "Verif.Sum.C86_load",
    "Verif.Sum.C86_rows",
    "Verif.Sum.C86_kernel",
    "Verif.Sum.C86_matrix",
    "Verif.Sum.C86_hanging",
    "Verif.Sum.C86_torn",
    "Verif.Sum.C86_integral",
    "Verif.Sum.C86_mass",
    "Verif.Sum.C86_runs"
   ],
   "note": ""
  },
  {
   "property": "C87",
   "status": "partial",
   "theorems": [
    "Verif.Samp.C87_matrix",
    "Verif.Samp.C87_vector_partial",
    "Verif.Samp.C87_sizes",
    "Verif.Samp.C87_bilinear",
    "Verif.Samp.C87_linear_partial",
    "Verif.Samp.C87_linear_never",
    "Verif.Samp.C87_linear_violated",
    "Verif.Samp.C87_scalar_partial",
    "Verif.Samp.C87_scalar_violated",
    "Verif.Samp.C87_solve_partial",
    "Verif.Samp.C87_solve_violated"
   ],
   "note": "bilinear forms: proved in full (C87_matrix). A deterministic linear form added to a sampled one always raises (C87_linear_never, C87_linear_violated), a constant form over a marked region raises (C87_scalar_violated), solve always uses sample 0 of the Dirichlet values (C87_solve_violated); proved otherwise"
  },
  {
   "property": "C88",
   "status": "proved",
   "theorems": [
    "Verif.Neu.C88_no_dirichlet_violated",
    "Verif.Neu.C88_reproduces",
    "Verif.Neu.C88_solvable",
    "Verif.Neu.C88_one_answer",
    "Verif.Neu.C88_free",
    "Verif.Neu.C88_bilinear"
   ],
   "note": "C88_reproduces, C88_solvable, C88_one_answer, C88_free; C88_bilinear runs the whole pipeline from the mesh (Assembler.add_dirichlet marks only vertices, see C66, hence bilinear there). Without any Dirichlet value (pure Robin) solve raises: C88_no_dirichlet_violated, outside the statement."
  },
  {
   "property": "C89",
   "status": "partial",
   "theorems": [
    "Verif.Ell.C89_form",
    "Verif.Ell.C89_spd",
    "Verif.Ell.C89_lumped",
    "Verif.Ell.C89_precision_partial",
    "Verif.Ell.C89_unique",
    "Verif.Ell.C89_constants",
    "Verif.Ell.C89_exponent_violated",
    "Verif.Ell.C89_kappa_violated",
    "Verif.Ell.C89_constructor_violated",
    "Verif.Ell.C89_runs"
   ],
   "note": "proved: the assembled matrix is the quadrature of the form, symmetric positive definite (C89_form, C89_spd), the lumped mass is positive for all elements on all convex cells (C89_lumped), the precision matrix is unique (C89_unique), the loop ends with the factor for the exponent gamma+1 (C89_precision_partial). The code breaks the rest: exponent off by one (C89_exponent_violated), kappa instead of kappa^2 (C89_kappa_violated), the constructor always raises (C89_constructor_violated). Two dimensional meshes; CHOLMOD by its contract."
  },
  {
   "property": "C90",
   "status": "proved",
   "theorems": [
    "Verif.Nrm.C90_accepts",
    "Verif.Nrm.C90_points",
    "Verif.Nrm.C90_normal",
    "Verif.Nrm.C90_orientation",
    "Verif.Nrm.C90_outward",
    "Verif.Nrm.C90_neighbour",
    "Verif.Nrm.C90_gauss_cell",
    "Verif.Nrm.C90_gauss_mesh",
    "Verif.Nrm.C90_closed"
   ],
   "note": ""
  },
  {
   "property": "C91",
   "status": "partial",
   "theorems": [
    "Verif.Hist.C91_parse",
    "Verif.Hist.C91_parse_violated",
    "Verif.Hist.C91_independent",
    "Verif.Hist.C91_matrix",
    "Verif.Hist.C91_correction_partial",
    "Verif.Hist.C91_vector",
    "Verif.Hist.C91_scalar_partial",
    "Verif.Hist.C91_present",
    "Verif.Hist.C91_solve_partial",
    "Verif.Hist.C91_again",
    "Verif.Hist.C91_solve_again_partial",
    "Verif.Hist.C91_again_violated",
    "Verif.Hist.C91_dirichlet_violated",
    "Verif.Hist.C91_scalar_violated"
   ],
   "note": "proved: parsing of the argument (C91_parse), independence of the problems (C91_independent), for every history the matrix, correction (same test and trial dofs), vector and number are the sums over all assemble calls with the constraints of their time (C91_matrix, C91_correction_partial, C91_vector, C91_scalar_partial, C91_present), m identical calls give m times the matrix (C91_again), and solve is still right if the constraints never changed between calls (C91_solve_partial, C91_solve_again_partial). The code breaks the rest: the caller's list is changed (C91_parse_violated), assembling again doubles everything (C91_again_violated), solve is wrong after a change of boundary values (C91_dirichlet_violated), kept constants are counted twice (C91_scalar_violated). A call that raises ends the history."
  },
  {
   "property": "C92",
   "status": "partial",
   "theorems": [
    "Verif.Trees.C92_refine_new",
    "Verif.Trees.C92_refine_flag",
    "Verif.Trees.C92_refine_inplace",
    "Verif.Hist.C92_assemble_retry",
    "Verif.Hist.C92_assemble_first_partial",
    "Verif.Hist.C92_assemble_matrix",
    "Verif.Hist.C92_assemble_violated",
    "Verif.Mesh.C92_balance_state",
    "Verif.Mesh.C92_balance",
    "Verif.Mesh.C92_balance_again",
    "Verif.Trees.C92_refine_new_again",
    "Verif.Trees.C92_refine_flag_again",
    "Verif.Trees.C92_refine_inplace_again",
    "Verif.Trees.C92_refine_unflagged_violated",
    "Verif.Trees.C92_refine_stale_violated",
    "Verif.Trees.C92_refine_outside_violated",
    "Verif.Trees.C92_root_subtrees",
    "Verif.Mesh.C92_split_again",
    "Verif.Mesh.C92_split_again_any",
    "Verif.Mesh.C92_split_children_violated",
    "Verif.Mesh.C92_split_half_violated"
   ],
   "note": "proved for any number of interruptions: root_subtrees again gives exactly the same forest (C92_root_subtrees); balance again gives the same mesh (C92_balance, C92_balance_state, C92_balance_again); refine into a new label gives the same nodes and marks (C92_refine_new_again), refine by a refinement flag the same nodes and the same marks except for the refinement flag (C92_refine_flag_again, C92_refine_inplace_again). The code breaks the rest: refine without flags refines twice (C92_refine_unflagged_violated), the refinement flag of the interrupted cell stays for ever (C92_refine_stale_violated), flags outside the subforest are picked up (C92_refine_outside_violated), assemble counts the cells done before the exception twice (C92_assemble_violated; exactly what it computes: C92_assemble_retry, C92_assemble_matrix). QuadCell.split left before its first child is made (inside or between the splits of its half-edges), any number of times, and called again gives exactly the mesh of the undisturbed call (C92_split_again, C92_split_again_any); left later, the cell can never be completed (C92_split_children_violated, every mesh), and a half-edge left with one child makes split of the cell fail (C92_split_half_violated). Not modelled: balance and refine left inside split and repeated as a whole, crash points inside distribute and consolidate."
  },
  {
   "property": "C93",
   "status": "partial",
   "theorems": [
    "Verif.Quad.C93_locate_sound",
    "Verif.Quad.C93_locate_none",
    "Verif.Quad.C93_locate_unrefined_partial",
    "Verif.Quad.C93_locate_bins",
    "Verif.Quad.C93_locate_history",
    "Verif.Quad.C93_locate_violated",
    "Verif.Quad.C93_locate_flag_violated"
   ],
   "note": "proved: the cell returned is flagged and contains the point (C93_locate_sound), None exactly if no coarse cell does (C93_locate_none), agreement with bin_points (C93_locate_bins), for every history a leaf with the point lies below the cell returned and None means that no cell contains it (C93_locate_history), the full statement on unrefined meshes (C93_locate_unrefined_partial). The code breaks the full statement: on a refined mesh the coarse cell is returned, not the smallest (C93_locate_violated), and a flagged cell below an unflagged one is overlooked (C93_locate_flag_violated)"
  },
  {
   "property": "C94",
   "status": "partial",
   "theorems": [
    "Verif.Trees.C94_vertex",
    "Verif.Trees.C94_markable_partial",
    "Verif.Trees.C94_markable_violated",
    "Verif.Trees.C94_true_is_one_violated"
   ],
   "note": "proved for Vertex (C94_vertex) and for Markable without unmark (C94_markable_partial). The code breaks the rest: Markable.unmark does nothing (C94_markable_violated); mark() adds True, which Python identifies with the flag 1 (C94_true_is_one_violated)"
  },
  {
   "property": "C95",
   "status": "partial",
   "theorems": [
    "Verif.Arr.C95_construct",
    "Verif.Arr.C95_reject",
    "Verif.Arr.C95_eval_partial",
    "Verif.Arr.C95_eval_two_partial",
    "Verif.Arr.C95_arity",
    "Verif.Arr.C95_variables_violated",
    "Verif.Arr.C95_numbers_violated",
    "Verif.Arr.C95_map_partial",
    "Verif.Arr.C95_map_dofhandler",
    "Verif.Arr.C95_map_violated"
   ],
   "note": "proved: construction, rejection, arity (C95_construct, C95_reject, C95_arity), evaluation for one and two variables in every format for which C74 holds (C95_eval_partial, C95_eval_two_partial). The code breaks the rest: three variables are rejected (C95_variables_violated), lists of numbers raise (C95_numbers_violated), Map forgets mesh and subforest flag unless a basis is given (C95_map_violated)"
  },
  {
   "property": "C96",
   "status": "partial",
   "theorems": [
    "Verif.Store.C96_modify_partial",
    "Verif.Store.C96_add_partial",
    "Verif.Store.C96_shared_violated",
    "Verif.Store.C96_twins_violated",
    "Verif.Store.C96_data_violated",
    "Verif.Store.C96_rejected_violated",
    "Verif.Store.C96_submesh_violated",
    "Verif.Store.C96_bivariate_violated",
    "Verif.Store.C96_univariate",
    "Verif.Store.C96_kernel_partial",
    "Verif.Store.C96_kernel_violated",
    "Verif.Store.C96_history_partial"
   ],
   "note": "proved: every history in which functions are created from and set to arrays made for the call, data() is not called, and values are modified only at dofs of the basis (without a list of dofs: only on whole meshes) is the history of independent tables (C96_history_partial), with what modify_data and add_samples do to each value (C96_modify_partial, C96_add_partial); number of samples of kernels (C96_kernel_partial). The code breaks the rest: shared arrays (C96_shared_violated, C96_twins_violated, C96_data_violated), rejected data replace the old ones (C96_rejected_violated), foreign dofs on submeshes write to the last dof (C96_submesh_violated), two variables: samples appended to the wrong axis (C96_bivariate_violated), kernels do not see later samples (C96_kernel_violated)"
  },
  {
   "property": "C97",
   "status": "partial",
   "theorems": [
    "Verif.Trees.C97_exists",
    "Verif.Trees.C97_position",
    "Verif.Trees.C97_children",
    "Verif.Trees.C97_get_child",
    "Verif.Trees.C97_nat",
    "Verif.Trees.C97_from_end_partial",
    "Verif.Trees.C97_first_from_end_violated"
   ],
   "note": "proved for all flags and positions counted from the front (C97_exists, C97_position, C97_children, C97_get_child, C97_nat) and for positions -1..-(n-1) (C97_from_end_partial); violated for the position -n, which has_children accepts and get_child rejects (C97_first_from_end_violated, every node with slots)."
  },
  {
   "property": "C98",
   "status": "proved",
   "theorems": [
    "Verif.Max.C98_cubic_violated",
    "Verif.Max.C98_comparison",
    "Verif.Max.C98_minimum",
    "Verif.Max.C98_maximum",
    "Verif.Max.C98_stable"
   ],
   "note": "C98_comparison, C98_minimum, C98_maximum, C98_stable hold for linear elements, as stated; C98_cubic_violated shows with exact integrals that the restriction to linear elements is needed. `Ascending ord` is discharged by C82."
  },
  {
   "property": "C99",
   "status": "partial",
   "theorems": [
    "Verif.Trees.C99_add_child",
    "Verif.Trees.C99_split",
    "Verif.Trees.C99_rejected",
    "Verif.Trees.C99_addresses",
    "Verif.Trees.C99_types",
    "Verif.Trees.C99_never_again",
    "Verif.Trees.C99_elsewhere",
    "Verif.Trees.C99_types_remove_violated",
    "Verif.Trees.C99_split_again_violated"
   ],
   "note": "Everything but the last clause is proved (C99_add_child, C99_split, C99_rejected, C99_addresses, C99_types, C99_never_again, C99_elsewhere). The last clause is false of the code: a LEAF whose children were deleted cannot be split (C99_split_again_violated); with remove() the types are wrong (C99_types_remove_violated)."
  },
  {
   "property": "C100",
   "status": "partial",
   "theorems": [
    "Verif.Samp.C100_count",
    "Verif.Samp.C100_agrees",
    "Verif.Samp.C100_first_partial",
    "Verif.Samp.C100_order",
    "Verif.Samp.C100_count_violated"
   ],
   "note": "Proved: when n_samples returns, it returns the number of samples of the assembled form, whatever the order (C100_count, C100_agrees, C100_order). It raises for problems that are accepted when a deterministic form precedes a sampled one (C100_count_violated); C100_first_partial says exactly when."
  },
  {
   "property": "C101",
   "status": "proved",
   "theorems": [
    "Verif.Max2.C101_no_hanging",
    "Verif.Max2.C101_long_violated",
    "Verif.Max2.C101_comparison",
    "Verif.Max2.C101_minimum",
    "Verif.Max2.C101_maximum",
    "Verif.Max2.C101_stable"
   ],
   "note": "C101_comparison, C101_minimum, C101_maximum, C101_stable, C101_no_hanging as stated; C101_long_violated: on a 2x1 rectangle refined once, no load, nonnegative Dirichlet values, solve returns -1/5 at the centre, so the restriction of the side ratio is needed. `Ascending ord` is discharged by C82."
  },
  {
   "property": "C102",
   "status": "proved",
   "theorems": [
    "Verif.Super.C102_superposition",
    "Verif.Super.C102_history",
    "Verif.Super.C102_domain",
    "Verif.Super.C102_units",
    "Verif.Super.C102_exists"
   ],
   "note": "C102_superposition, C102_history, C102_domain, C102_units as stated, for answers of any run (`Answer`); C102_exists gives answers to which they apply. Exact real arithmetic. `Ascending ord` is discharged by C82."
  },
  {
   "property": "C103",
   "status": "proved",
   "theorems": [
    "Verif.Motion.C103_motion",
    "Verif.Motion.C103_base"
   ],
   "note": "C103_motion and C103_base as stated, for answers of any run (`Answer` of C102). Reflections are excluded: they reverse the winding order, which the constructor of QuadCell rejects. Exact real arithmetic."
  },
  {
   "property": "C104",
   "status": "partial",
   "theorems": [
    "Verif.Coef.C104_value",
    "Verif.Coef.C104_form",
    "Verif.Coef.C104_requested_violated",
    "Verif.Coef.C104_submesh_violated"
   ],
   "note": "Proved for functions on the leaves of the mesh of the form and derivatives of their bases, with linear, bilinear and constant forms, maps and samples mixed: C104_value, C104_form. Two clauses are false of the code: the derivative requested with Kernel(f, derivatives=...) is ignored in a form (C104_requested_violated), and a function on a coarser submesh has wrong values at the quadrature points of finer cells (C104_submesh_violated). Cell forms without flag."
  },
  {
   "property": "C105",
   "status": "partial",
   "theorems": [
    "Verif.Coef.C105_reference",
    "Verif.Coef.C105_physical_partial",
    "Verif.Coef.C105_physical_violated",
    "Verif.Coef.C105_derivative_violated",
    "Verif.Coef.C105_flag_violated"
   ],
   "note": "C105_reference (first clause) is proved. The second clause is false of the code away from the unit square (C105_physical_violated; C105_physical_partial: true on the unit square), the third on every cell (C105_derivative_violated: always raises; C105_flag_violated: with a subforest flag too, except on cells outside of the subforest, where the reference derivative is returned)."
  },
  {
   "property": "C106",
   "status": "proved",
   "theorems": [
    "Verif.Coef.C106_assembly",
    "Verif.Coef.C106_one_answer"
   ],
   "note": "Functions on the leaves of the mesh of the problem (Means: Nodal with the basis given, optionally a derivative of its basis); a request Kernel(f, derivatives=...) is covered where C104 allows it. Entries that raise are 0 in contribsK and in Form.contribs alike; C104_form shows that the same entries raise."
  },
  {
   "property": "C107",
   "status": "proved",
   "theorems": [
    "Verif.Coef.C107_matrix",
    "Verif.Coef.C107_vector"
   ],
   "note": "Volume forms; v and u deterministic (one sample), the kernels may have any number of samples. C86_hanging and C86_torn supply the hypothesis Unbound for the constraints of a mesh."
  }
 ]
}