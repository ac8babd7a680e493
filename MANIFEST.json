{
 "claims": [
  {
   "property": "C01",
   "status": "proved",
   "theorems": [
    "Verif.Props.C01_permutations_count",
    "Verif.Props.C01_permutations_exact",
    "Verif.Props.C01_permutations_nodup",
    "Verif.Props.C01_permutations_empty"
   ],
   "note": ""
  },
  {
   "property": "C02",
   "status": "proved",
   "theorems": [
    "Verif.Props.C02_combinations_exact",
    "Verif.Props.C02_combinations_count",
    "Verif.Props.C02_combinations_nodup",
    "Verif.Props.C02_combinations_parity",
    "Verif.Props.C02_combinations_one",
    "Verif.Props.C02_combinations_not_shuffle_sign",
    "Verif.Props.C02_combinations_too_many"
   ],
   "note": "includes the refutation of the shuffle sign for n >= 2"
  },
  {
   "property": "C03",
   "status": "proved",
   "theorems": [
    "Verif.Props.C03_boundary_of_boundary",
    "Verif.Props.C03_accepts_iff",
    "Verif.Props.C03_points_rejected"
   ],
   "note": ""
  },
  {
   "property": "C04",
   "status": "proved",
   "theorems": [
    "Verif.Props.C04_elements_are_faces",
    "Verif.Props.C04_elements_distinct",
    "Verif.Props.C04_top_level"
   ],
   "note": ""
  },
  {
   "property": "C05",
   "status": "proved",
   "theorems": [
    "Verif.Props.C05_boundary_slot",
    "Verif.Props.C05_entry_nonzero_iff",
    "Verif.Props.C05_column_count"
   ],
   "note": ""
  },
  {
   "property": "C06",
   "status": "proved",
   "theorems": [
    "Verif.Props.C06_induced_sign"
   ],
   "note": ""
  },
  {
   "property": "C07",
   "status": "proved",
   "theorems": [
    "Verif.Props.C07_relative_parity_fails_iff",
    "Verif.Props.C07_fix_orientation_coherent",
    "Verif.Props.C07_fix_orientation_succeeds_iff",
    "Verif.Props.C07_loose_last_rejected",
    "Verif.Props.C07_orientable_but_rejected"
   ],
   "note": "exact success condition; includes the refutation of success on every orientable mesh"
  },
  {
   "property": "C08",
   "status": "proved",
   "theorems": [
    "Verif.Props.C08_true_sound",
    "Verif.Props.C08_connected_exact",
    "Verif.Props.C08_disconnected_not_exact",
    "Verif.Props.C08_coherent_some_solver"
   ],
   "note": ""
  },
  {
   "property": "C09",
   "status": "proved",
   "theorems": [
    "Verif.Props.C09_boundary_chain_is_cycle",
    "Verif.Props.C09_closed_iff",
    "Verif.Props.C09_boundary_elements",
    "Verif.Props.C09_boundary_coherent_and_closed",
    "Verif.Props.C09_boundary_of_boundary",
    "Verif.Props.C09_one_dimensional_fails"
   ],
   "note": "includes the AssertionError for open one-dimensional meshes"
  },
  {
   "property": "C10",
   "status": "proved",
   "theorems": [
    "Verif.Props.C10_select_subset",
    "Verif.Props.C10_wrong_length",
    "Verif.Props.C10_parent_of_simplices"
   ],
   "note": ""
  },
  {
   "property": "C11",
   "status": "proved",
   "theorems": [
    "Verif.Props.C11_selectors_split",
    "Verif.Props.C11_without_boundary",
    "Verif.Props.C11_boundary_selector_meaning"
   ],
   "note": ""
  },
  {
   "property": "C12",
   "status": "proved",
   "theorems": [
    "Verif.Props.C12_dual_edge_sums",
    "Verif.Props.C12_dual_edge_two_ends"
   ],
   "note": ""
  },
  {
   "property": "C13",
   "status": "proved",
   "theorems": [
    "Verif.Props.C13_closed_dual",
    "Verif.Props.C13_dual_product_iff",
    "Verif.Props.C13_dual_2d",
    "Verif.Props.C13_dual_3d_not_chain"
   ],
   "note": "the equivalence is proved; with boundary the chain property itself holds in 2-D and is refuted in 3-D"
  },
  {
   "property": "C14",
   "status": "proved",
   "theorems": [
    "Verif.Props.C14_domains_are_flags"
   ],
   "note": ""
  },
  {
   "property": "C15",
   "status": "proved",
   "theorems": [
    "Verif.Props.C15_simplices",
    "Verif.Props.C15_preserves_orientation",
    "Verif.Props.C15_unoriented_opposes"
   ],
   "note": ""
  },
  {
   "property": "C16",
   "status": "proved",
   "theorems": [
    "Verif.Props.C16_counts_and_orientation",
    "Verif.Props.C16_children_boundary",
    "Verif.Props.C16_closed"
   ],
   "note": ""
  },
  {
   "property": "C17",
   "status": "proved",
   "theorems": [
    "Verif.Props.C17_decode_encode",
    "Verif.Props.C17_encode_decode"
   ],
   "note": "all level sizes, empty levels included"
  },
  {
   "property": "C18",
   "status": "proved",
   "theorems": [
    "Verif.Props.C18_boundary",
    "Verif.Props.C18_coherent",
    "Verif.Props.C18_split"
   ],
   "note": "vertices 0..V-1 all used, corners of each quad distinct"
  },
  {
   "property": "C19",
   "status": "proved",
   "theorems": [
    "Verif.Props.C19_boundary_of_boundary",
    "Verif.Props.C19_levels",
    "Verif.Props.C19_boundary",
    "Verif.Props.C19_entries",
    "Verif.Props.C19_elements_are_faces",
    "Verif.Props.C19_accepts_iff",
    "Verif.Props.C19_shape",
    "Verif.Props.C19_unmirrored"
   ],
   "note": "All dimensions. C19_unmirrored is the witness for mirror=False."
  },
  {
   "property": "C20",
   "status": "proved",
   "theorems": [
    "Verif.Props.C20_count",
    "Verif.Props.C20_exact",
    "Verif.Props.C20_nodup",
    "Verif.Props.C20_lookup",
    "Verif.Props.C20_multiplicative",
    "Verif.Props.C20_mirrors",
    "Verif.Props.C20_points"
   ],
   "note": ""
  },
  {
   "property": "C21",
   "status": "proved",
   "theorems": [
    "Verif.Props.C21_numbering",
    "Verif.Props.C21_vertices",
    "Verif.Props.C21_cubes",
    "Verif.Props.C21_positions",
    "Verif.Props.C21_accepted",
    "Verif.Props.C21_same_corners",
    "Verif.Props.C21_elements",
    "Verif.Props.C21_counts",
    "Verif.Props.C21_euler",
    "Verif.Props.C21_leibniz",
    "Verif.Props.C21_linked",
    "Verif.Props.C21_pairsCancel",
    "Verif.Props.C21_oriented"
   ],
   "note": "For all dimensions of the factors with sum at most 7 (acceptance) and for factors without two cubes on the same corners; C21_same_corners is the witness that the product of other topologies can be rejected. Orientation is claimed for factors of dimension at least one whose cubes are linked through shared faces."
  },
  {
   "property": "C22",
   "status": "proved",
   "theorems": [
    "Verif.Props.C22_count",
    "Verif.Props.C22_corners",
    "Verif.Props.C22_cells",
    "Verif.Props.C22_vertices",
    "Verif.Props.C22_centering",
    "Verif.Props.C22_accepted",
    "Verif.Props.C22_rejected",
    "Verif.Props.C22_oriented",
    "Verif.Props.C22_counts",
    "Verif.Props.C22_euler"
   ],
   "note": "mirror=True for the topology. C22_rejected: from dimension 8 on the lookup table of cube symmetries raises an AssertionError."
  },
  {
   "property": "C23",
   "status": "proved",
   "theorems": [
    "Verif.Props.C23_vertices",
    "Verif.Props.C23_tops",
    "Verif.Props.C23_constants",
    "Verif.Props.C23_vertices_negated",
    "Verif.Props.C23_tops_negated"
   ],
   "note": "The _negated theorems show that six and seven levels apart the code returns minus the mean."
  },
  {
   "property": "C24",
   "status": "proved",
   "theorems": [
    "Verif.Props.C24_degree",
    "Verif.Props.C24_degree_wraps",
    "Verif.Props.C24_star",
    "Verif.Props.C24_overflow"
   ],
   "note": "C24_star and C24_overflow show the wrap-around of int8."
  },
  {
   "property": "C25",
   "status": "proved",
   "theorems": [
    "Verif.Props.C25_symbols",
    "Verif.Props.C25_table",
    "Verif.Props.C25_exterior_derivative",
    "Verif.Props.C25_pascal",
    "Verif.Props.C25_pascal_outside"
   ],
   "note": ""
  },
  {
   "property": "C26",
   "status": "proved",
   "theorems": [
    "Verif.Props.C26_closed"
   ],
   "note": ""
  },
  {
   "property": "C27",
   "status": "proved",
   "theorems": [
    "Verif.Props.C27_adjoint"
   ],
   "note": ""
  },
  {
   "property": "C28",
   "status": "proved",
   "theorems": [
    "Verif.Props.C28_initialized"
   ],
   "note": ""
  },
  {
   "property": "C29",
   "status": "proved",
   "theorems": [
    "Verif.Props.C29_coarsen_refine",
    "Verif.Props.C29_adjoint",
    "Verif.Props.C29_binning_mean",
    "Verif.Props.C29_coarse_fine",
    "Verif.Props.C29_sampling_changes_mean"
   ],
   "note": "The last theorem is a witness: sampled forms do not keep their mean."
  },
  {
   "property": "C30",
   "status": "proved",
   "theorems": [
    "Verif.Props.C30_commute"
   ],
   "note": ""
  },
  {
   "property": "C31",
   "status": "proved",
   "theorems": [
    "Verif.Props.C31_constant",
    "Verif.Props.C31_total",
    "Verif.Props.C31_corners"
   ],
   "note": ""
  },
  {
   "property": "C32",
   "status": "proved",
   "theorems": [
    "Verif.Props.C32_simplify_graded",
    "Verif.Props.C32_simplify_exact",
    "Verif.Props.C32_tolerance",
    "Verif.Props.C32_shape_coincidence"
   ],
   "note": "exact under the stated conditions on the elementary operators; both ways in which the code leaves them are refuted with witnesses"
  },
  {
   "property": "C33",
   "status": "proved",
   "theorems": [
    "Verif.Props.C33_adjoint",
    "Verif.Props.C33_involution"
   ],
   "note": ""
  },
  {
   "property": "C34",
   "status": "proved",
   "theorems": [
    "Verif.Props.C34_normal_form",
    "Verif.Props.C34_expressions",
    "Verif.Props.C34_idempotent"
   ],
   "note": ""
  },
  {
   "property": "C35",
   "status": "proved",
   "theorems": [
    "Verif.Props.C35_roundtrip",
    "Verif.Props.C35_equal_lengths",
    "Verif.Props.C35_stencil_roundtrip",
    "Verif.Props.C35_stencil_three_blocks"
   ],
   "note": "at most two stencil blocks; for three or more the code raises ValueError, which is proved"
  },
  {
   "property": "C36",
   "status": "proved",
   "theorems": [
    "Verif.Props.C36_product",
    "Verif.Props.C36_transpose",
    "Verif.Props.C36_missing_block"
   ],
   "note": ""
  },
  {
   "property": "C37",
   "status": "proved",
   "theorems": [
    "Verif.Props.C37_distributes",
    "Verif.Props.C37_compose",
    "Verif.Props.C37_adjoint"
   ],
   "note": "For every number of blocks and every conforming block operator whose entries are built by the operator constructors from linear functions and diagonals that stay clear of the tolerances of simplify (products of diagonals are counted); the hypotheses are met by the blocks of every canonical system (canonical_conforming, topology_leaves)."
  },
  {
   "property": "C38",
   "status": "proved",
   "theorems": [
    "Verif.Props.C38_symmetric",
    "Verif.Props.C38_normal",
    "Verif.Props.C38_normal_ne",
    "Verif.Props.C38_canonical",
    "Verif.Props.C38_normal_drops_small"
   ],
   "note": "Symmetry holds for every grid and scale. The normal equations are exact for every grid and every scale the powers of which up to 2N stay clear of the tolerances of simplify (ScaleOk); C38_normal and C38_normal_ne hold for all conforming systems, also rectangular ones. C38_normal_drops_small proves that the claim fails at scale 1/10000: simplify drops the square of a Hodge operator."
  },
  {
   "property": "C39",
   "status": "proved",
   "theorems": [
    "Verif.Props.C39_v_cycle_fixed",
    "Verif.Props.C39_solve_v_cycle_fixed",
    "Verif.Props.C39_full_cycle_zero",
    "Verif.Props.C39_v_cycle_correction",
    "Verif.Props.C39_error_propagation",
    "Verif.Props.C39_two_grid"
   ],
   "note": ""
  },
  {
   "property": "C40",
   "status": "proved",
   "theorems": [
    "Verif.Props.C40_jacobi_fixed",
    "Verif.Props.C40_overrelax_fixed",
    "Verif.Props.C40_smooth_fixed",
    "Verif.Props.C40_jacobi_descent",
    "Verif.Props.C40_nr_fixed",
    "Verif.Props.C40_nr_descent",
    "Verif.Props.C40_ne_fixed",
    "Verif.Props.C40_ne_grows",
    "Verif.Props.C40_canonical_fixed",
    "Verif.Props.C40_ne_wrong_sign"
   ],
   "note": "The inverse diagonal is a parameter of the smoothers. The NE variant moves away from the solution: C40_ne_grows proves growth of the weighted residual and C40_ne_wrong_sign is a concrete witness."
  },
  {
   "property": "C41",
   "status": "proved",
   "theorems": [
    "Verif.Props.C41_hierarchy",
    "Verif.Props.C41_inverse"
   ],
   "note": ""
  },
  {
   "property": "C42",
   "status": "proved",
   "theorems": [
    "Verif.Props.C42_residual",
    "Verif.Props.C42_zero_residual",
    "Verif.Props.C42_energy",
    "Verif.Props.C42_terminates"
   ],
   "note": ""
  },
  {
   "property": "C43",
   "status": "proved",
   "theorems": [
    "Verif.Props.C43_adjoint",
    "Verif.Props.C43_inverse",
    "Verif.Props.C43_inverse_transpose",
    "Verif.Props.C43_null",
    "Verif.Props.C43_null_vanishes"
   ],
   "note": ""
  },
  {
   "property": "C44",
   "status": "proved",
   "theorems": [
    "Verif.Props.C44_corners",
    "Verif.Props.C44_multilinear_exact",
    "Verif.Props.C44_partition_of_unity",
    "Verif.Props.C44_bounds",
    "Verif.Props.C44_corner_value"
   ],
   "note": ""
  },
  {
   "property": "C45",
   "status": "proved",
   "theorems": [
    "Verif.Props.C45_lifting",
    "Verif.Props.C45_pick_dual",
    "Verif.Props.C45_pick_dual_unweighted"
   ],
   "note": ""
  },
  {
   "property": "C46",
   "status": "proved",
   "theorems": [
    "Verif.Props.C46_pairs",
    "Verif.Props.C46_accumulate",
    "Verif.Props.C46_adjacent",
    "Verif.Props.C46_adjacent_all_iff"
   ],
   "note": ""
  },
  {
   "property": "C47",
   "status": "proved",
   "theorems": [
    "Verif.Props.C47_normal",
    "Verif.Props.C47_normals_sum",
    "Verif.Props.C47_volume",
    "Verif.Props.C47_translate",
    "Verif.Props.C47_transform",
    "Verif.Props.C47_transform_normals",
    "Verif.Props.C47_scale",
    "Verif.Props.C47_closed_topology",
    "Verif.Props.C47_open"
   ],
   "note": "C47_open is the witness for open meshes; C47_closed_topology derives closedness from is_oriented and boundary()."
  },
  {
   "property": "C48",
   "status": "proved",
   "theorems": [
    "Verif.Props.C48_split",
    "Verif.Props.C48_boundary",
    "Verif.Props.C48_closed",
    "Verif.Props.C48_clip",
    "Verif.Props.C48_volume",
    "Verif.Props.C48_normals",
    "Verif.Props.C48_spare_vertex"
   ],
   "note": "C48_spare_vertex is the witness that an unused position breaks clip: inserted vertices are numbered from the number of vertices of the topology."
  },
  {
   "property": "C49",
   "status": "proved",
   "theorems": [
    "Verif.Props.C49_euler",
    "Verif.Props.C49_euler_preserved_iff",
    "Verif.Props.C49_pillow"
   ],
   "note": "exact change of the characteristic; it is not preserved for meshes with repeated triangles"
  },
  {
   "property": "C50",
   "status": "proved",
   "theorems": [
    "Verif.Props.C50_transfer_chain_map",
    "Verif.Props.C50_edge_halves"
   ],
   "note": ""
  },
  {
   "property": "C51",
   "status": "proved",
   "theorems": [
    "Verif.Props.C51_rotation"
   ],
   "note": ""
  },
  {
   "property": "C52",
   "status": "proved",
   "theorems": [
    "Verif.Props.C52_preconditioner_linear",
    "Verif.Props.C52_full_cycle_linear"
   ],
   "note": ""
  },
  {
   "property": "C53",
   "status": "proved",
   "theorems": [
    "Verif.Props.C53_diagonal",
    "Verif.Props.C53_diagonal_exact",
    "Verif.Props.C53_canonical",
    "Verif.Props.C53_odd"
   ],
   "note": "C53_odd is the witness: with three cells the computed entry is 2 and the diagonal entry is 3."
  },
  {
   "property": "C54",
   "status": "proved",
   "theorems": [
    "Verif.Props.C54_volume_gradient"
   ],
   "note": ""
  },
  {
   "property": "C55",
   "status": "proved",
   "theorems": [
    "Verif.Props.C55_signed_shape",
    "Verif.Props.C55_permute",
    "Verif.Props.C55_corner",
    "Verif.Props.C55_affine",
    "Verif.Props.C55_split",
    "Verif.Props.C55_signed_zero",
    "Verif.Props.C55_unsigned_shape",
    "Verif.Props.C55_unsigned_signed",
    "Verif.Props.C55_signed_measure",
    "Verif.Props.C55_congruent",
    "Verif.Props.C55_unsigned_measure",
    "Verif.Props.C55_unsigned_zero"
   ],
   "note": "unsigned_volume and the statements about measure are over the real numbers, since they need a square root."
  },
  {
   "property": "C56",
   "status": "proved",
   "theorems": [
    "Verif.Props.C56_shape",
    "Verif.Props.C56_orthogonal",
    "Verif.Props.C56_volume",
    "Verif.Props.C56_permute",
    "Verif.Props.C56_length",
    "Verif.Props.C56_curve",
    "Verif.Props.C56_twiceArea",
    "Verif.Props.C56_not_directed"
   ],
   "note": "C56_not_directed is the witness that volume() depends on the directions of the edges."
  },
  {
   "property": "C57",
   "status": "proved",
   "theorems": [
    "Verif.Props.C57_center",
    "Verif.Props.C57_exists",
    "Verif.Props.C57_circumcenter",
    "Verif.Props.C57_weighted",
    "Verif.Props.C57_far",
    "Verif.Props.C57_batch",
    "Verif.Props.C57_small_weights",
    "Verif.Props.C57_small",
    "Verif.Props.C57_small_witness"
   ],
   "note": "np.linalg.eigh is a parameter that meets its contract (IsEigh). C57_far, C57_batch and C57_small are the negations outside the condition on the eigenvalues."
  },
  {
   "property": "C58",
   "status": "proved",
   "theorems": [
    "Verif.Props.C58_pinv",
    "Verif.Props.C58_unique",
    "Verif.Props.C58_inverse",
    "Verif.Props.C58_wide",
    "Verif.Props.C58_construction",
    "Verif.Props.C58_construction_raises",
    "Verif.Props.C58_construction_edge",
    "Verif.Props.C58_row"
   ],
   "note": "np.linalg.svd is a parameter that meets its contract (IsSvd)."
  },
  {
   "property": "C59",
   "status": "proved",
   "theorems": [
    "Verif.Props.C59_primal",
    "Verif.Props.C59_dual",
    "Verif.Props.C59_total",
    "Verif.Props.C59_diamond",
    "Verif.Props.C59_wellcentred",
    "Verif.Props.C59_tetrahedron",
    "Verif.Props.C59_applies",
    "Verif.Props.C59_assert",
    "Verif.Props.C59_obtuse_face"
   ],
   "note": "Without weights. C59_obtuse_face is the witness that a tetrahedron with an obtuse face gets a wrong measure (the FIXME in the code). C59_applies shows that the hypotheses can be met for every oriented complex without degenerate simplices, with a suitable tolerance."
  },
  {
   "property": "C60",
   "status": "proved",
   "theorems": [
    "Verif.Props.C60_angle",
    "Verif.Props.C60_angle_sum",
    "Verif.Props.C60_vertex_areas",
    "Verif.Props.C60_edge_ratio",
    "Verif.Props.C60_weights",
    "Verif.Props.C60_hodge",
    "Verif.Props.C60_delaunay",
    "Verif.Props.C60_docstring"
   ],
   "note": "C60_docstring is the witness that the docstring of compute_edge_ratio states the inverse ratio."
  },
  {
   "property": "C61",
   "status": "proved",
   "theorems": [
    "Verif.Props.C61_centers",
    "Verif.Props.C61_excess",
    "Verif.Props.C61_remap",
    "Verif.Props.C61_remap_vertex",
    "Verif.Props.C61_depth",
    "Verif.Props.C61_delaunay",
    "Verif.Props.C61_dual_edges",
    "Verif.Props.C61_wellcentered",
    "Verif.Props.C61_wellcentered_delaunay",
    "Verif.Props.C61_wellcentered_positive",
    "Verif.Props.C61_hodge",
    "Verif.Props.C61_applies",
    "Verif.Props.C61_acute",
    "Verif.Props.C61_line"
   ],
   "note": "From two dimensions on, without interference of the tolerance of the circumcenters. C61_delaunay and C61_dual_edges assume that no face lies in more than two simplices. C61_acute is an instance; C61_line is the witness for one dimension and for the measures of weighted complexes."
  },
  {
   "property": "C62",
   "status": "proved",
   "theorems": [
    "Verif.Props.C62_weights",
    "Verif.Props.C62_pick",
    "Verif.Props.C62_pick_unweighted",
    "Verif.Props.C62_delaunay",
    "Verif.Props.C62_away",
    "Verif.Props.C62_hint",
    "Verif.Props.C62_hint_error",
    "Verif.Props.C62_sample",
    "Verif.Props.C62_sample_affine",
    "Verif.Props.C62_sample_delaunay",
    "Verif.Props.C62_refused",
    "Verif.Props.C62_instance",
    "Verif.Props.C62_notch",
    "Verif.Props.C62_parts"
   ],
   "note": "minres is a parameter that solves symmetric systems that have a solution, cKDTree one that returns a nearest point. C62_notch and C62_parts are the witnesses that the test for pairwise Delaunay does not suffice; C62_instance meets the hypotheses. That ways away from the point exist in convex meshes is not derived."
  },
  {
   "property": "C63",
   "status": "proved",
   "theorems": [
    "Verif.Props.C63_length",
    "Verif.Props.C63_triangle_inequality",
    "Verif.Props.C63_length_nan",
    "Verif.Props.C63_area",
    "Verif.Props.C63_area_invariant",
    "Verif.Props.C63_area_rotated",
    "Verif.Props.C63_area_flat",
    "Verif.Props.C63_area_split",
    "Verif.Props.C63_volume_cases",
    "Verif.Props.C63_around",
    "Verif.Props.C63_midpoint",
    "Verif.Props.C63_circumcenter",
    "Verif.Props.C63_circumcenter_small",
    "Verif.Props.C63_triangle_circumcenter",
    "Verif.Props.C63_intersect"
   ],
   "note": "Exact real arithmetic. The surface measure is Mathlib's (toSphere of the volume of space); Girard's theorem is proved from it. C63_circumcenter is under the condition on the eigenvalues of C57. C63_area_flat, C63_triangle_circumcenter and C63_intersect contain the findings."
  },
  {
   "property": "C64",
   "status": "proved",
   "theorems": [
    "Verif.Props.C64_sphere",
    "Verif.Props.C64_circle",
    "Verif.Props.C64_rejects",
    "Verif.Props.C64_nan",
    "Verif.Props.C64_total",
    "Verif.Props.C64_unweighted",
    "Verif.Props.C64_nearest",
    "Verif.Props.C64_dual_edge",
    "Verif.Props.C64_circle_halves",
    "Verif.Props.C64_octahedron",
    "Verif.Props.C64_quarters"
   ],
   "note": "Under the condition on the eigenvalues of C57. The surface measure is Mathlib's. C64_octahedron and C64_quarters meet the hypotheses."
  },
  {
   "property": "C65",
   "status": "proved",
   "theorems": [
    "Verif.Props.C65_labels",
    "Verif.Props.C65_is_connected",
    "Verif.Props.C65_split",
    "Verif.Props.C65_regions",
    "Verif.Props.C65_is_manifold",
    "Verif.Props.C65_wraps",
    "Verif.Props.C65_same_answers",
    "Verif.Props.C65_touching",
    "Verif.Props.C65_accepts_book",
    "Verif.Props.C65_rejects_simplex",
    "Verif.Props.C65_twisted_strip"
   ],
   "note": "connected_components is a parameter that meets its contract (ComponentsSpec); findComponents meets it. C65_accepts_book, C65_rejects_simplex and C65_twisted_strip are the witnesses for the findings; C65_touching is an instance."
  },
  {
   "property": "C66",
   "status": "proved",
   "theorems": [
    "Verif.Props.C66_simplices",
    "Verif.Props.C66_edges_fail",
    "Verif.Props.C66_counts",
    "Verif.Props.C66_euler",
    "Verif.Props.C66_boundary",
    "Verif.Props.C66_preserves",
    "Verif.Props.C66_is_connected",
    "Verif.Props.C66_is_oriented",
    "Verif.Props.C66_positions",
    "Verif.Props.C66_volume",
    "Verif.Props.C66_reversed"
   ],
   "note": "C66_is_connected below 256 corners. C66_reversed is the witness that tetrahedra are turned inside out; C66_boundary and C66_volume state the sign in general."
  },
  {
   "property": "C67",
   "status": "proved",
   "theorems": [
    "Verif.Props.C67_accepts",
    "Verif.Props.C67_cubes",
    "Verif.Props.C67_counts",
    "Verif.Props.C67_euler",
    "Verif.Props.C67_transfers",
    "Verif.Props.C67_parts",
    "Verif.Props.C67_boundary",
    "Verif.Props.C67_boundary_top",
    "Verif.Props.C67_boundary_squares",
    "Verif.Props.C67_boundary_fails",
    "Verif.Props.C67_positions",
    "Verif.Props.C67_halves"
   ],
   "note": "np.unique is a parameter with its contract (UniqSpec); the witness C67_boundary_fails uses one in lexicographic order, lexRows."
  },
  {
   "property": "C68",
   "status": "proved",
   "theorems": [
    "Verif.Props.C68_vertices",
    "Verif.Props.C68_vertices_negated",
    "Verif.Props.C68_tops",
    "Verif.Props.C68_tops_negated",
    "Verif.Props.C68_degree_wraps",
    "Verif.Props.C68_degree"
   ],
   "note": "The claim about means holds for levels at most five apart; the negated theorems state what is returned for the others."
  },
  {
   "property": "C69",
   "status": "proved",
   "theorems": [
    "Verif.Props.C69_smooth",
    "Verif.Props.C69_operator",
    "Verif.Props.C69_operator_simplices",
    "Verif.Props.C69_agree",
    "Verif.Props.C69_covered",
    "Verif.Props.C69_creases",
    "Verif.Props.C69_subdivide",
    "Verif.Props.C69_subdivide_negated",
    "Verif.Props.C69_loop_fails",
    "Verif.Props.C69_right_triangle"
   ],
   "note": "Creases are chains (arrays) of existing levels and of the right length; positions are exact numbers, not integers that numpy would round. C69_subdivide_negated, C69_loop_fails and C69_right_triangle are the findings."
  },
  {
   "property": "C70",
   "status": "proved",
   "theorems": [
    "Verif.Props.C70_metric",
    "Verif.Props.C70_total",
    "Verif.Props.C70_grid",
    "Verif.Props.C70_wraps",
    "Verif.Props.C70_negative",
    "Verif.Props.C70_unoriented",
    "Verif.Props.C70_rotated_negated"
   ],
   "note": "The dimension of the space is that of the cubes. C70_grid discharges all hypotheses of C70_metric and C70_total for grids. C70_negative (from C70_wraps) and C70_rotated_negated are the findings."
  },
  {
   "property": "C71",
   "status": "proved",
   "theorems": [
    "Verif.Props.C71_extrude",
    "Verif.Props.C71_closed",
    "Verif.Props.C71_two_triangles",
    "Verif.Props.C71_volume",
    "Verif.Props.C71_rejects",
    "Verif.Props.C71_unused_position",
    "Verif.Props.C71_weights",
    "Verif.Props.C71_pinched",
    "Verif.Props.C71_square"
   ],
   "note": "The identity of the two topology objects is a parameter. C71_volume (the sign), C71_weights, C71_unused_position and C71_pinched are the findings; C71_square is the concrete case."
  },
  {
   "property": "C72",
   "status": "proved",
   "theorems": [
    "Verif.Props.C72_center_of_mass",
    "Verif.Props.C72_nan",
    "Verif.Props.C72_away_negated",
    "Verif.Props.C72_area",
    "Verif.Props.C72_vertex_areas",
    "Verif.Props.C72_edge_lengths",
    "Verif.Props.C72_edge_lengths_rejects"
   ],
   "note": "A filling of the surface by tetrahedra is given by its faces: all alternating quantities of triangles have the same sum over both. C72_away_negated and the factor two in C72_vertex_areas are the findings."
  },
  {
   "property": "C73",
   "status": "proved",
   "theorems": [
    "Verif.Props.C73_round_trip",
    "Verif.Props.C73_closed",
    "Verif.Props.C73_trailing",
    "Verif.Props.C73_truncated",
    "Verif.Props.C73_collapse_negated"
   ],
   "note": "A file is the list of its bytes, a float of four bytes is its bit pattern; rounding and npi.unique with return_inverse are parameters, the latter with its contract (UniqueInverse). C73_collapse_negated is the finding for corners that are rounded to the same position."
  },
  {
   "property": "C74",
   "status": "proved",
   "theorems": [
    "Verif.Props.C74_regular",
    "Verif.Props.C74_center",
    "Verif.Props.C74_equilateral",
    "Verif.Props.C74_volume",
    "Verif.Props.C74_canonical",
    "Verif.Props.C74_topology"
   ],
   "note": "Exact real arithmetic. C74_volume contains the finding that the simplices of even dimension are turned inside out."
  },
  {
   "property": "C75",
   "status": "proved",
   "theorems": [
    "Verif.Props.C75_icosahedron",
    "Verif.Props.C75_topology",
    "Verif.Props.C75_tiles",
    "Verif.Props.C75_edge_lengths",
    "Verif.Props.C75_refinement",
    "Verif.Props.C75_case"
   ],
   "note": "Exact real arithmetic; SAT solver, eigensolver and unique within their contracts. A nan among the positions is an error in the model; the theorems show that there is none."
  },
  {
   "property": "C76",
   "status": "proved",
   "theorems": [
    "Verif.Props.C76_oriented_sound",
    "Verif.Props.C76_oriented_exact",
    "Verif.Props.C76_select_subset",
    "Verif.Props.C76_wrong_length",
    "Verif.Props.C76_closed_iff",
    "Verif.Props.C76_boundary_elements",
    "Verif.Props.C76_boundary_coherent_and_closed",
    "Verif.Props.C76_incoherent_rejected",
    "Verif.Props.C76_case",
    "Verif.Props.C76_cube"
   ],
   "note": "Topologies from from_cubes with mirror=True. C76_case and C76_cube are concrete cases that meet the hypotheses."
  },
  {
   "property": "C77",
   "status": "proved",
   "theorems": [
    "Verif.Props.C77_circle",
    "Verif.Props.C77_refines",
    "Verif.Props.C77_edge_length",
    "Verif.Props.C77_volume",
    "Verif.Props.C77_cylinder",
    "Verif.Props.C77_cylinder_boundary",
    "Verif.Props.C77_cylinder_radius"
   ],
   "note": "Exact real arithmetic. The sign in C77_volume, and the radius 1/sqrt(2) without subdivisions (C77_circle, C77_cylinder_radius), are the findings."
  },
  {
   "property": "C78",
   "status": "proved",
   "theorems": [
    "Verif.Props.C78_velocity",
    "Verif.Props.C78_uniform",
    "Verif.Props.C78_incompressible",
    "Verif.Props.C78_boundary",
    "Verif.Props.C78_refused",
    "Verif.Props.C78_length",
    "Verif.Props.C78_gradients",
    "Verif.Props.C78_applies",
    "Verif.Props.C78_acute"
   ],
   "note": "Exact real arithmetic; np.linalg.svd is a parameter. The complex has no weights, and in three or more dimensions its faces contain their circumcenters. Finding: simplex_gradients is n times the gradient its docstring promises (C78_gradients)."
  },
  {
   "property": "C79",
   "status": "proved",
   "theorems": [
    "Verif.Props.C79_closest",
    "Verif.Props.C79_rotation",
    "Verif.Props.C79_positive",
    "Verif.Props.C79_mirror_fails",
    "Verif.Props.C79_singular",
    "Verif.Props.C79_not_square",
    "Verif.Props.C79_power_add",
    "Verif.Props.C79_power_nat",
    "Verif.Props.C79_power_inverse",
    "Verif.Props.C79_root",
    "Verif.Props.C79_power_nan",
    "Verif.Props.C79_turn",
    "Verif.Props.C79_angle",
    "Verif.Props.C79_turned_angle",
    "Verif.Props.C79_angle_nan",
    "Verif.Props.C79_angle_refused",
    "Verif.Props.C79_half_turn_nan"
   ],
   "note": "Exact real and complex arithmetic; np.linalg.svd and np.linalg.eig are parameters. One matrix and one exponent at a time. Findings: C79_mirror_fails, C79_singular, C79_not_square, C79_power_nan, C79_half_turn_nan, C79_angle_nan."
  },
  {
   "property": "C80",
   "status": "proved",
   "theorems": [
    "Verif.Props.C80_pick",
    "Verif.Props.C80_hint",
    "Verif.Props.C80_sample",
    "Verif.Props.C80_fundamental",
    "Verif.Props.C80_dual",
    "Verif.Props.C80_fundamental_hint",
    "Verif.Props.C80_grid",
    "Verif.Props.C80_unequal",
    "Verif.Props.C80_turned",
    "Verif.Props.C80_hint_beyond"
   ],
   "note": "Exact arithmetic over an ordered field; cKDTree.query is a parameter that returns some nearest site. As many coordinates as dimensions. Findings: C80_fundamental_hint, C80_hint_beyond, C80_unequal, C80_turned."
  },
  {
   "property": "C81",
   "status": "proved",
   "theorems": [
    "Verif.Props.C81_sample",
    "Verif.Props.C81_assume_interior"
   ],
   "note": "Exact arithmetic; np.pad, np.remainder and map_coordinates(order=1) are modelled by their documented behaviour. Finding: C81_assume_interior."
  },
  {
   "property": "C82",
   "status": "proved",
   "theorems": [
    "Verif.Props.C82_accepts",
    "Verif.Props.C82_rejected",
    "Verif.Props.C82_cubes",
    "Verif.Props.C82_counts",
    "Verif.Props.C82_euler",
    "Verif.Props.C82_coherent",
    "Verif.Props.C82_oriented",
    "Verif.Props.C82_solid_not_oriented",
    "Verif.Props.C82_positions"
   ],
   "note": "Positions over the reals with the circumcenters of C57 and C59. Finding: C82_solid_not_oriented."
  },
  {
   "property": "C83",
   "status": "proved",
   "theorems": [
    "Verif.Props.C83_closed",
    "Verif.Props.C83_closed_cubes",
    "Verif.Props.C83_open",
    "Verif.Props.C83_open_cubes",
    "Verif.Props.C83_in_order",
    "Verif.Props.C83_in_order_triangles",
    "Verif.Props.C83_in_order_cubes",
    "Verif.Props.C83_in_order_squares",
    "Verif.Props.C83_exists",
    "Verif.Props.C83_exists_cubes",
    "Verif.Props.C83_constants",
    "Verif.Props.C83_order_needed"
   ],
   "note": "Over every field of characteristic zero. Levels above five are given with the sign int8 arithmetic makes of them. Finding: C83_order_needed."
  },
  {
   "property": "C84",
   "status": "proved",
   "theorems": [
    "Verif.Props.C84_bounds",
    "Verif.Props.C84_constant",
    "Verif.Props.C84_exact",
    "Verif.Props.C84_grid",
    "Verif.Props.C84_case",
    "Verif.Props.C84_at_boundary"
   ],
   "note": "Over every ordered field. Dimensions above five are left out because of the int8 wrap-around of C83. Finding: C84_at_boundary."
  },
  {
   "property": "C85",
   "status": "proved",
   "theorems": [
    "Verif.Props.C85_symmetric",
    "Verif.Props.C85_adjoint",
    "Verif.Props.C85_interpolates",
    "Verif.Props.C85_constant",
    "Verif.Props.C85_mean",
    "Verif.Props.C85_commute",
    "Verif.Props.C85_dual_commute",
    "Verif.Props.C85_case",
    "Verif.Props.C85_coarsen_derivative"
   ],
   "note": "Over every ordered field. Finding: C85_coarsen_derivative."
  },
  {
   "property": "C86",
   "status": "proved",
   "theorems": [
    "Verif.Props.C86_weak",
    "Verif.Props.C86_source",
    "Verif.Props.C86_adjoint",
    "Verif.Props.C86_solvable",
    "Verif.Props.C86_bounds",
    "Verif.Props.C86_coarse",
    "Verif.Props.C86_means",
    "Verif.Props.C86_transfer",
    "Verif.Props.C86_tolerance",
    "Verif.Props.C86_constraint_lost"
   ],
   "note": "Over every ordered field. Findings: C86_tolerance and C86_constraint_lost."
  },
  {
   "property": "C87",
   "status": "proved",
   "theorems": [
    "Verif.Props.C87_weights",
    "Verif.Props.C87_center",
    "Verif.Props.C87_solid_delaunay",
    "Verif.Props.C87_solid",
    "Verif.Props.C87_plane_delaunay",
    "Verif.Props.C87_plane_rejects",
    "Verif.Props.C87_pick",
    "Verif.Props.C87_sample",
    "Verif.Props.C87_constant",
    "Verif.Props.C87_applies",
    "Verif.Props.C87_case",
    "Verif.Props.C87_acute_fails",
    "Verif.Props.C87_solid_case"
   ],
   "note": "Exact real arithmetic, euclidian complexes; the parameters and contracts are those of C61, C62 and C83. sample_dual_0 with weighted=False. The parent of the planar theorems has no weights. Findings: C87_solid and C87_acute_fails."
  },
  {
   "property": "C88",
   "status": "proved",
   "theorems": [
    "Verif.Props.C88_positive",
    "Verif.Props.C88_closed",
    "Verif.Props.C88_open",
    "Verif.Props.C88_rejects",
    "Verif.Props.C88_bounds",
    "Verif.Props.C88_constant",
    "Verif.Props.C88_edge_weight",
    "Verif.Props.C88_edge_linear",
    "Verif.Props.C88_boundary_unused",
    "Verif.Props.C88_sample",
    "Verif.Props.C88_sample_constant",
    "Verif.Props.C88_vertex_not_linear",
    "Verif.Props.C88_closed_case",
    "Verif.Props.C88_open_case",
    "Verif.Props.C88_edge_linear_case",
    "Verif.Props.C88_sample_case"
   ],
   "note": "Exact real arithmetic, euclidian complexes; the parameters and contracts are those of C61, C83 and C87. The order of the numbering of the boundary is the hypothesis InOrder of C83. Findings: C88_boundary_unused and C88_vertex_not_linear."
  },
  {
   "property": "C89",
   "status": "proved",
   "theorems": [
    "Verif.Props.C89_exact",
    "Verif.Props.C89_chain_accepted",
    "Verif.Props.C89_noticed",
    "Verif.Props.C89_last_unchecked",
    "Verif.Props.C89_two_unchecked",
    "Verif.Props.C89_simplicial",
    "Verif.Props.C89_cubical",
    "Verif.Props.C89_closed_dual",
    "Verif.Props.C89_open_dual",
    "Verif.Props.C89_case"
   ],
   "note": "Assumes that the product of two sparse matrices stores no zeros and that n_dim is the number of matrices. Findings: C89_last_unchecked and C89_two_unchecked; C89_open_dual is the finding of C13 as the code itself sees it."
  },
  {
   "property": "C90",
   "status": "proved",
   "theorems": [
    "Verif.Props.C90_sparse_to_elements",
    "Verif.Props.C90_cross_polytope",
    "Verif.Props.C90_rejected",
    "Verif.Props.C90_positions",
    "Verif.Props.C90_case",
    "Verif.Props.C90_positions_case"
   ],
   "note": "Floats are real numbers in C90_positions; the checks of the constructor of ComplexSpherical are not modelled."
  },
  {
   "property": "C91",
   "status": "proved",
   "theorems": [
    "Verif.Props.C91_layout",
    "Verif.Props.C91_cubical",
    "Verif.Props.C91_simplicial",
    "Verif.Props.C91_case"
   ],
   "note": "primal_position and topology.boundary are inputs of dual_position; C09 and C76 give that boundary numbers its elements as C91_layout assumes."
  },
  {
   "property": "C92",
   "status": "proved",
   "theorems": [
    "Verif.Props.C92_selectors",
    "Verif.Props.C92_selectors_closed",
    "Verif.Props.C92_positions",
    "Verif.Props.C92_matrices_2",
    "Verif.Props.C92_matrices_2_cubes",
    "Verif.Props.C92_closed",
    "Verif.Props.C92_gradient",
    "Verif.Props.C92_case"
   ],
   "note": "C83_in_order and its companions say when the boundary is numbered in order, C83_order_needed that it need not be."
  },
  {
   "property": "C93",
   "status": "proved",
   "theorems": [
    "Verif.Props.C93_blocks",
    "Verif.Props.C93_cubes",
    "Verif.Props.C93_loop",
    "Verif.Props.C93_case",
    "Verif.Props.C93_case_loop"
   ],
   "note": "The attribute parent is not modelled: the coarse topology is a parameter. C83_in_order_squares says that boundaries of squares are numbered in order."
  },
  {
   "property": "C94",
   "status": "proved",
   "theorems": [
    "Verif.Props.C94_rows",
    "Verif.Props.C94_columns",
    "Verif.Props.C94_as_diagonal",
    "Verif.Props.C94_equal_lengths",
    "Verif.Props.C94_balance",
    "Verif.Props.C94_balance_equal",
    "Verif.Props.C94_case"
   ],
   "note": "Block vectors are sums of vectors of equal length; numpy's repetition of vectors of length one is not modelled. Division is exact, and rows that are zero are excluded from the statement on balancing."
  },
  {
   "property": "C95",
   "status": "proved",
   "theorems": [
    "Verif.Props.C95_vectors",
    "Verif.Props.C95_matrices",
    "Verif.Props.C95_case"
   ],
   "note": "Squareness of block matrices is what a user expects from square and is_square; C95_matrices proves that they raise instead. Nested block arrays are not modelled."
  },
  {
   "property": "C96",
   "status": "proved",
   "theorems": [
    "Verif.Props.C96_add",
    "Verif.Props.C96_sub",
    "Verif.Props.C96_mismatch",
    "Verif.Props.C96_case"
   ],
   "note": "Repetition of axes of length one is modelled; the theorem on sums is about operators of equal shapes. Differences are what a user expects of A - B; C96_sub proves that they raise."
  },
  {
   "property": "C97",
   "status": "proved",
   "theorems": [
    "Verif.Props.C97_partition",
    "Verif.Props.C97_same_mask",
    "Verif.Props.C97_independent",
    "Verif.Props.C97_odd_needed",
    "Verif.Props.C97_case"
   ],
   "note": "C97_odd_needed is the witness that even sizes are needed for the statement about the ends of the grid."
  },
  {
   "property": "C98",
   "status": "proved",
   "theorems": [
    "Verif.Props.C98_values",
    "Verif.Props.C98_average",
    "Verif.Props.C98_linear",
    "Verif.Props.C98_alternating",
    "Verif.Props.C98_no_end",
    "Verif.Props.C98_case"
   ],
   "note": "Rational numbers in place of floating point; all weights are dyadic."
  }
 ]
}