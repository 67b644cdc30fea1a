{
 "claims": [
  {
   "property": "C01",
   "status": "proved",
   "theorems": [
    "P4est.C01_compare_is_curve_order",
    "P4est.C01_coordinates_compare",
    "P4est.C01_compare_total_order"
   ],
   "note": ""
  },
  {
   "property": "C02",
   "status": "proved",
   "theorems": [
    "P4est.C02_is_ancestor_iff"
   ],
   "note": ""
  },
  {
   "property": "C03",
   "status": "proved",
   "theorems": [
    "P4est.C03_overlaps_iff",
    "P4est.C03_nested_or_disjoint",
    "P4est.C03_disjoint_sign"
   ],
   "note": ""
  },
  {
   "property": "C04",
   "status": "proved",
   "theorems": [
    "P4est.C04_parent_of_child",
    "P4est.C04_child_of_parent",
    "P4est.C04_ancestor_unique"
   ],
   "note": ""
  },
  {
   "property": "C05",
   "status": "proved",
   "theorems": [
    "P4est.C05_children_tile",
    "P4est.C05_children_consecutive"
   ],
   "note": ""
  },
  {
   "property": "C06",
   "status": "partial",
   "theorems": [
    "P4est.C06_is_sibling_iff",
    "P4est.C06_is_parent_iff",
    "P4est.C06_is_family2_partial",
    "P4est.C06_is_family3_partial",
    "P4est.C06_is_family_accepts_non_siblings",
    "P4est.C06_is_family3_accepts_non_siblings"
   ],
   "note": "is_family does not check that the first argument is a first child; the counterexamples are proved and the equivalence holds for a first argument that is child 0"
  },
  {
   "property": "C07",
   "status": "proved",
   "theorems": [
    "P4est.C07_nca_is_smallest",
    "P4est.C07_nca_valid"
   ],
   "note": ""
  },
  {
   "property": "C08",
   "status": "proved",
   "theorems": [
    "P4est.C08_reference_versions_agree"
   ],
   "note": ""
  },
  {
   "property": "C09",
   "status": "partial",
   "theorems": [
    "P4est.C09_is_next_partial",
    "P4est.C09_is_next_exact",
    "P4est.C09_is_next_accepts_gap",
    "P4est.C09_is_next_accepts_gap_3d"
   ],
   "note": "false as stated when the second quadrant is smaller than the first: any descendant of the next quadrant is accepted; counterexamples, the exact characterisation and the remaining directions are proved"
  },
  {
   "property": "C10",
   "status": "proved",
   "theorems": [
    "P4est.C10_descendants_bound",
    "P4est.C10_corner_descendant"
   ],
   "note": ""
  },
  {
   "property": "C100",
   "status": "proved",
   "theorems": [
    "P4est.C100_face",
    "P4est.C100_corner",
    "P4est.C100_unique"
   ],
   "note": "Every dimension."
  },
  {
   "property": "C101",
   "status": "proved",
   "theorems": [
    "P4est.C101_reset"
   ],
   "note": "All forests and callbacks; the memory pool of libsc is modelled by its contract."
  },
  {
   "property": "C102",
   "status": "proved",
   "theorems": [
    "P4est.C102_inside",
    "P4est.C102_outside",
    "P4est.C102_node",
    "P4est.C102_coordinates",
    "P4est.C102_back"
   ],
   "note": "All octants, edges, orientations and nodes. The search for the edge neighbors is not modelled."
  },
  {
   "property": "C103",
   "status": "proved",
   "theorems": [
    "P4est.C103_equal"
   ],
   "note": "All connectivities of documented shape, in 2D and 3D."
  },
  {
   "property": "C104",
   "status": "proved",
   "theorems": [
    "P4est.C104_remove_nonowned",
    "P4est.C104_empty"
   ],
   "note": "Every dimension, all distributed forests."
  },
  {
   "property": "C11",
   "status": "proved",
   "theorems": [
    "P4est.C11_linear_id_is_block_number",
    "P4est.C11_set_morton_inverse",
    "P4est.C11_id_order_is_compare_order"
   ],
   "note": ""
  },
  {
   "property": "C12",
   "status": "proved",
   "theorems": [
    "P4est.C12_successor",
    "P4est.C12_predecessor",
    "P4est.C12_inverse"
   ],
   "note": ""
  },
  {
   "property": "C13",
   "status": "proved",
   "theorems": [
    "P4est.C13_enlarge_first_maximal",
    "P4est.C13_enlarge_last_maximal",
    "P4est.C13_is_first_last_iff"
   ],
   "note": ""
  },
  {
   "property": "C14",
   "status": "proved",
   "theorems": [
    "P4est.C14_face_neighbor",
    "P4est.C14_corner_neighbor",
    "P4est.C14_edge_neighbor",
    "P4est.C14_half_face_neighbors",
    "P4est.C14_half_corner_neighbor",
    "P4est.C14_all_face_neighbors"
   ],
   "note": ""
  },
  {
   "property": "C15",
   "status": "proved",
   "theorems": [
    "P4est.C15_clamp_roundtrip",
    "P4est.C15_node_to_quadrant"
   ],
   "note": ""
  },
  {
   "property": "C16",
   "status": "partial",
   "theorems": [
    "P4est.C16_is_sorted_iff",
    "P4est.C16_is_linear_iff",
    "P4est.C16_is_complete_partial",
    "P4est.C16_is_complete_accepts_hole",
    "P4est.C16_is_complete_accepts_hole_3d",
    "P4est.C16_gapless_is_range"
   ],
   "note": "tree_is_complete accepts arrays with holes (witness proved), because is_next does"
  },
  {
   "property": "C17",
   "status": "proved",
   "theorems": [
    "P4est.C17_refine_invariants"
   ],
   "note": ""
  },
  {
   "property": "C18",
   "status": "proved",
   "theorems": [
    "P4est.C18_refine_sequential",
    "P4est.C18_refine_pure",
    "P4est.C18_refine_once",
    "P4est.C18_callback_order"
   ],
   "note": ""
  },
  {
   "property": "C19",
   "status": "proved",
   "theorems": [
    "P4est.C19_coarsen_invariants",
    "P4est.C19_coarsen_once"
   ],
   "note": ""
  },
  {
   "property": "C20",
   "status": "proved",
   "theorems": [
    "P4est.C20_coarsen_undoes_refine",
    "P4est.C20_coarsen_recursive"
   ],
   "note": ""
  },
  {
   "property": "C21",
   "status": "proved",
   "theorems": [
    "P4est.C21_refine_counters",
    "P4est.C21_coarsen_counters",
    "P4est.C21_complete_region_counters",
    "P4est.C21_linearize_counters",
    "P4est.C21_refine_offsets",
    "P4est.C21_coarsen_offsets"
   ],
   "note": ""
  },
  {
   "property": "C22",
   "status": "proved",
   "theorems": [
    "P4est.C22_complete_region",
    "P4est.C22_complete_region_largest"
   ],
   "note": ""
  },
  {
   "property": "C23",
   "status": "proved",
   "theorems": [
    "P4est.C23_linearize",
    "P4est.C23_linearize_members",
    "P4est.C23_linearize_may_uncover"
   ],
   "note": ""
  },
  {
   "property": "C24",
   "status": "proved",
   "theorems": [
    "P4est.C24_lower_bound",
    "P4est.C24_higher_bound",
    "P4est.C24_guess_irrelevant"
   ],
   "note": ""
  },
  {
   "property": "C25",
   "status": "partial",
   "theorems": [
    "P4est.C25_find_partition_partial",
    "P4est.C25_documented_clamp_false"
   ],
   "note": "The window is the documented one except for the documented clamping of end to num_procs-1, which the code does not perform: C25_documented_clamp_false refutes it."
  },
  {
   "property": "C26",
   "status": "proved",
   "theorems": [
    "P4est.C26_split_array"
   ],
   "note": ""
  },
  {
   "property": "C27",
   "status": "proved",
   "theorems": [
    "P4est.C27_find_owner",
    "P4est.C27_is_contained"
   ],
   "note": ""
  },
  {
   "property": "C28",
   "status": "proved",
   "theorems": [
    "P4est.C28_count_quadrants",
    "P4est.C28_cut_exact",
    "P4est.C28_global_first_quadrant"
   ],
   "note": "The cut is computed in floating point: proved for every monotone rounding that is exact on representable numbers, under (n+1)*P <= 2^(mantissa bits - 1)."
  },
  {
   "property": "C29",
   "status": "proved",
   "theorems": [
    "P4est.C29_first_positions",
    "P4est.C29_positions_ordered"
   ],
   "note": ""
  },
  {
   "property": "C30",
   "status": "proved",
   "theorems": [
    "P4est.C30_partition_given",
    "P4est.C30_partition_conserves",
    "P4est.C30_shipped_zero",
    "P4est.C30_tree_offsets"
   ],
   "note": "Point to point messages by their matching; sizes in int and the user data pool are not modelled."
  },
  {
   "property": "C31",
   "status": "proved",
   "theorems": [
    "P4est.C31_weighted_partition",
    "P4est.C31_zero_weights",
    "P4est.C31_single_process",
    "P4est.C31_uniform_partition"
   ],
   "note": "Weights and counts are unbounded integers; the cut in floating point as in C28; sc_search_lower_bound64 by its contract; messages by their matching."
  },
  {
   "property": "C32",
   "status": "partial",
   "theorems": [
    "P4est.C32_partition_for_coarsening_partial",
    "P4est.C32_uniform_for_coarsening_partial",
    "P4est.C32_weighted_for_coarsening_partial",
    "P4est.C32_reads_before_array"
   ],
   "note": "Whole function with its messages, for every forest, partition, request and number of ranks; with uniform and weighted requests inside partition_ext. Partial because the code reads partition_now[-1] for some requests; the theorems cover the other requests and, for those, memory that is not negative; C32_reads_before_array shows the access."
  },
  {
   "property": "C33",
   "status": "proved",
   "theorems": [
    "P4est.C33_transfer_fixed",
    "P4est.C33_transfer_items",
    "P4est.C33_transfer_custom"
   ],
   "note": "begin and end on all ranks: messages match in size and number, no access out of bounds, any two partitions with empty ranks; byte counts are not restricted to int; MPI point-to-point delivery is the modelled contract"
  },
  {
   "property": "C34",
   "status": "proved",
   "theorems": [
    "P4est.C34_checksum",
    "P4est.C34_partition_independent",
    "P4est.C34_records_determine_leaves"
   ],
   "note": "zlib and libsc checksums after their published source; p4est_checksum_partition is not modelled"
  },
  {
   "property": "C35",
   "status": "proved",
   "theorems": [
    "P4est.C35_refine",
    "P4est.C35_coarsen",
    "P4est.C35_partition",
    "P4est.C35_copy",
    "P4est.C35_history",
    "P4est.C35_same_revision"
   ],
   "note": "histories of refine_ext, coarsen_ext and partition_ext with any arguments on any number of ranks; partition under the conditions of C28 and C32; the revision is unbounded; p4est_balance is not part of the histories"
  },
  {
   "property": "C36",
   "status": "proved",
   "theorems": [
    "P4est.C36_new"
   ],
   "note": "both filling modes, all ranks; level at most 29 and the cut in floating point as in C28; counts and indices are unbounded; connectivity enters through its number of trees"
  },
  {
   "property": "C37",
   "status": "proved",
   "theorems": [
    "P4est.C37_transform_face",
    "P4est.C37_unique",
    "P4est.C37_face_neighbor_extra",
    "P4est.C37_face_checks"
   ],
   "note": "2D and 3D; level at most 29 for quadrants (for nodes of level 30 the code computes a sum outside int32); only the face tables of the connectivity"
  },
  {
   "property": "C38",
   "status": "proved",
   "theorems": [
    "P4est.C38_face_corners",
    "P4est.C38_face_edges"
   ],
   "note": "all faces, orientations, corners and edges in 2D and 3D, against the gluing map of C37"
  },
  {
   "property": "C39",
   "status": "proved",
   "theorems": [
    "P4est.C39_deflate_inflate",
    "P4est.C39_inflate"
   ],
   "note": "all ranks, with and without data, any partition with empty ranks; all members of forest and trees; libsc binary search by its contract in the source; sc_array data as a list of abstract payloads"
  },
  {
   "property": "C40",
   "status": "proved",
   "theorems": [
    "P4est.C40_search_local",
    "P4est.C40_matches",
    "P4est.C40_every_leaf_once"
   ],
   "note": "callbacks are arbitrary functions of a state; a point is known to its callback by its number; p4est_search_reorder and _partition are separate properties"
  },
  {
   "property": "C41",
   "status": "proved",
   "theorems": [
    "P4est.C41_union",
    "P4est.C41_intersection",
    "P4est.C41_finer",
    "P4est.C41_unique",
    "P4est.C41_union_length",
    "P4est.C41_balance_self",
    "P4est.C41_balance_face",
    "P4est.C41_union_graded"
   ],
   "note": "columns of any height up to the root, layers up to level 30; arrays as lists, cursors as the unread rest"
  },
  {
   "property": "C42",
   "status": "proved",
   "theorems": [
    "P4est.C42_build",
    "P4est.C42_build_empty_rank"
   ],
   "note": "one rank's part of the result; the final p4est_comm_count_quadrants is covered by C28; sc_array_bsearch and sc_array_sort by their contracts as for C53"
  },
  {
   "property": "C43",
   "status": "partial",
   "theorems": [
    "P4est.C43_overlaps_tree_iff",
    "P4est.C43_in_range_iff",
    "P4est.C43_is_inside_tree_partial",
    "P4est.C43_is_inside_tree_accepts_outside"
   ],
   "note": "is_inside_tree only checks where the quadrant begins; counterexample proved"
  },
  {
   "property": "C44",
   "status": "proved",
   "theorems": [
    "P4est.C44_shared_points",
    "P4est.C44_shared_edge_points",
    "P4est.C44_volume_point"
   ],
   "note": ""
  },
  {
   "property": "C45",
   "status": "proved",
   "theorems": [
    "P4est.C45_refine_safe",
    "P4est.C45_coarsen_safe",
    "P4est.C45_linearize_safe",
    "P4est.C45_complete_region_safe"
   ],
   "note": ""
  },
  {
   "property": "C46",
   "status": "partial",
   "theorems": [
    "P4est.C46_coarsen_all_seen",
    "P4est.C46_coarsen_once_each_partial",
    "P4est.C46_rejected_seen_twice"
   ],
   "note": "false as documented: leaves of a rejected family are passed again as orphans (witness proved); every leaf is passed at least once, and exactly once if no family is rejected"
  },
  {
   "property": "C47",
   "status": "proved",
   "theorems": [
    "P4est.C47_find_cumulative"
   ],
   "note": ""
  },
  {
   "property": "C48",
   "status": "partial",
   "theorems": [
    "P4est.C48_neighborhood_owned_partial",
    "P4est.C48_corner_neighborhood_not_owned"
   ],
   "note": "Inside the tree and across its faces; false across tree corners: refuted for the bowtie connectivity."
  },
  {
   "property": "C49",
   "status": "proved",
   "theorems": [
    "P4est.C49_count_pertree"
   ],
   "note": "all ranks with their messages; Allgatherv as concatenation; counts are unbounded integers; global_first_position as C29 shows it to be"
  },
  {
   "property": "C50",
   "status": "proved",
   "theorems": [
    "P4est.C50_connectivity",
    "P4est.C50_save_load",
    "P4est.C50_save_load_autopartition"
   ],
   "note": "bytes little-endian, quadrant record of 4 bytes per number; MPI I/O branch of save_ext and load_mpi are not modelled; p4est_connectivity_is_valid is a parameter; attribute and vertex bytes are opaque; loading computes the partition in floating point as in C28"
  },
  {
   "property": "C51",
   "status": "proved",
   "theorems": [
    "P4est.C51_search_partition",
    "P4est.C51_finds_owner"
   ],
   "note": "callbacks are arbitrary functions of a state; a point is known to its callback by its number; global_first_position as C29 shows it to be"
  },
  {
   "property": "C52",
   "status": "proved",
   "theorems": [
    "P4est.C52_search_all",
    "P4est.C52_finds_leaf_or_owner"
   ],
   "note": "callbacks are arbitrary functions of a state; a point is known to its callback by its number; global_first_position as C29 shows it to be"
  },
  {
   "property": "C53",
   "status": "proved",
   "theorems": [
    "P4est.C53_complete_subtree",
    "P4est.C53_complete_subtree_empty"
   ],
   "note": "sc_array_bsearch and sc_array_sort by their contracts; the replace callback is not modelled (NULL in this function); leaves outside the range of the tree are excluded (the code asserts the same)"
  },
  {
   "property": "C54",
   "status": "proved",
   "theorems": [
    "P4est.C54_balance_subtree",
    "P4est.C54_balance_tree",
    "P4est.C54_balance_unchanged",
    "P4est.C54_balance_subtree_empty",
    "P4est.C54_gap_not_balanced"
   ],
   "note": "for trees without gaps, as p4est passes them; with a gap at the front the result is not balanced (witness proved); contracts of libsc as for C53; the replace callback is not modelled"
  },
  {
   "property": "C55",
   "status": "partial",
   "theorems": [
    "P4est.C55_layers_partial",
    "P4est.C55_two_turns_partial",
    "P4est.C55_layers_idempotent",
    "P4est.C55_layers_not_balanced",
    "P4est.C55_full_is_face",
    "P4est.C55_edges_not_balanced"
   ],
   "note": "One process, any mesh of columns. The run ends, refines and grades each column and is never finer than the coarsest balanced refinement; balanced input is kept. Partial because the code is not balanced across edges (finding 10) and may stop early across faces (finding 11); balance between columns is proved for runs of at most two turns."
  },
  {
   "property": "C56",
   "status": "partial",
   "theorems": [
    "P4est.C56_range_boundaries_partial",
    "P4est.C56_single_cell",
    "P4est.C56_single_cell_missed"
   ],
   "note": "Every quadrant and every range, in 2D and 3D. Partial because the code is wrong when the range is one cell and the quadrant is larger (finding 12); C56_single_cell says exactly what it reports then."
  },
  {
   "property": "C57",
   "status": "partial",
   "theorems": [
    "P4est.C57_ghost_face_partial",
    "P4est.C57_ghost_single_cell_waits"
   ],
   "note": "All distributed forests and consistent connectivities in 2D and 3D, for P4EST_CONNECT_FACE: the exchange ends on all ranks and ghosts, mirrors and all offset tables are exact. Partial because finding 12 makes the code wait forever if a rank has one single leaf of level 29 (C57_ghost_single_cell_waits). Connections through corners in 2D are C58."
  },
  {
   "property": "C58",
   "status": "partial",
   "theorems": [
    "P4est.C58_ghost_full_partial",
    "P4est.C58_ghost_corner_missing",
    "P4est.C58_ghost_corner_waits"
   ],
   "note": "2D, all distributed forests and consistent face and corner tables. Partial because of finding 12 (a rank with one single leaf of level 29) and finding 13 (trees connected at a corner only, witnesses proved); 3D is not modelled."
  },
  {
   "property": "C59",
   "status": "partial",
   "theorems": [
    "P4est.C59_corner_checks_partial",
    "P4est.C59_entry_out_of_range"
   ],
   "note": "2D. Acceptance is exact for all tables. Partial because entries of tree_to_corner out of range are not rejected but read out of bounds (finding 14, witness proved); array lengths are those that the counts require."
  },
  {
   "property": "C60",
   "status": "partial",
   "theorems": [
    "P4est.C60_search_reorder_partial",
    "P4est.C60_every_leaf_once",
    "P4est.C60_trees_dropped"
   ],
   "note": "All local forests, callbacks with any state, points, with and without skipped levels: which calls are made, their order and arguments. Partial because a reorder callback that drops roots makes the code read out of bounds (finding 15, proved in general); dropped children are covered."
  },
  {
   "property": "C61",
   "status": "proved",
   "theorems": [
    "P4est.C61_exchange_data",
    "P4est.C61_exchange_custom",
    "P4est.C61_exchange_levels"
   ],
   "note": "All ranks, relations, data, sizes, ranges of levels and orders of arrival, for ghost layers whose tables fit together (GhostTables). C61_new_exchange_face_partial and C61_new_exchange_full_partial combine it with p4est_ghost_new of C57 and C58, whose exceptions they inherit. The tables qactive and qbuffer are members of the receives in the model."
  },
  {
   "property": "C62",
   "status": "proved",
   "theorems": [
    "P4est.C62_volumes"
   ],
   "note": "Volume and face callbacks; with edge or corner callbacks the loop has more parts, which are not modelled. The cache of search tiers is not modelled."
  },
  {
   "property": "C63",
   "status": "partial",
   "theorems": [
    "P4est.C63_each_face_once_partial",
    "P4est.C63_single_cell_missed"
   ],
   "note": "All meshes, gluings, distributions and ghosts. Partial because a rank with one single leaf of the smallest size gets no call for its faces at upper faces of the tree (finding 16, witness proved)."
  },
  {
   "property": "C64",
   "status": "proved",
   "theorems": [
    "P4est.C64_face_calls"
   ],
   "note": "All meshes, gluings, distributions and ghosts. Without edge and corner callbacks and without the remote flag."
  },
  {
   "property": "C65",
   "status": "proved",
   "theorems": [
    "P4est.C65_volumes_first"
   ],
   "note": "All meshes, gluings, distributions and ghosts."
  },
  {
   "property": "C66",
   "status": "partial",
   "theorems": [
    "P4est.C66_faces_shown_partial",
    "P4est.C66_neighbors_shown_partial"
   ],
   "note": "All meshes, gluings and distributions; combined with p4est_ghost_new of C57. Partial with the exception of C63 (finding 16) and of C57."
  },
  {
   "property": "C67",
   "status": "partial",
   "theorems": [
    "P4est.C67_ghost_bsearch_partial",
    "P4est.C67_ghost_contains_partial",
    "P4est.C67_unknown_tree_misses"
   ],
   "note": "All ghost layers, ranks (given or -1), quadrants and searches, if the tree is given. With tree -1, which the documentation allows, a ghost can be missed (finding 18, witness proved)."
  },
  {
   "property": "C68",
   "status": "proved",
   "theorems": [
    "P4est.C68_balanced_passes",
    "P4est.C68_brick_exact"
   ],
   "note": "All forests and distributions; any gluing for balanced forests, unrotated gluings in general. Only P4EST_CONNECT_FACE."
  },
  {
   "property": "C69",
   "status": "partial",
   "theorems": [
    "P4est.C69_is_balanced_partial",
    "P4est.C69_unbalanced_waits"
   ],
   "note": "If the test returns then the result is exact, for any gluing. Partial because on an unbalanced forest with a reversed gluing a rank can wait forever (finding 17, witness proved)."
  },
  {
   "property": "C70",
   "status": "partial",
   "theorems": [
    "P4est.C70_mesh_faces_partial",
    "P4est.C70_ghost_new_serves_partial",
    "P4est.C70_single_cell_unset"
   ],
   "note": "All meshes, gluings, distributions and ghosts with all neighbors, both options. Partial because a rank with one single leaf of the smallest size gets unset entries (finding 19, witness proved). Only P4EST_CONNECT_FACE."
  },
  {
   "property": "C71",
   "status": "proved",
   "theorems": [
    "P4est.C71_ghost_owners"
   ],
   "note": "All meshes, gluings, distributions and ghosts with all neighbors. Only P4EST_CONNECT_FACE."
  },
  {
   "property": "C72",
   "status": "proved",
   "theorems": [
    "P4est.C72_trees_levels"
   ],
   "note": "All meshes, gluings, distributions and ghosts with all neighbors. Only P4EST_CONNECT_FACE."
  },
  {
   "property": "C73",
   "status": "partial",
   "theorems": [
    "P4est.C73_face_neighbors_partial"
   ],
   "note": "All local leaves, meshes, gluings and distributions, with and without quad_to_tree. Partial with the exception of C70 (finding 19)."
  },
  {
   "property": "C74",
   "status": "partial",
   "theorems": [
    "P4est.C74_canonicalize_partial",
    "P4est.C74_same_point_partial",
    "P4est.C74_canonicalize_faces_partial",
    "P4est.C74_reduced_fails"
   ],
   "note": "All gluings, trees and points in 2D with complete corner tables; in 3D points of the interior and of open faces. Partial: false with a valid connectivity whose corner tables are incomplete (C74_reduced_fails, finding 20); points on edges in 3D are not covered."
  },
  {
   "property": "C75",
   "status": "proved",
   "theorems": [
    "P4est.C75_self",
    "P4est.C75_face",
    "P4est.C75_corner"
   ],
   "note": "All gluings, trees, faces (2D and 3D), corners (2D) and coordinates. Edges and corners in 3D are not modelled."
  },
  {
   "property": "C76",
   "status": "proved",
   "theorems": [
    "P4est.C76_brick",
    "P4est.C76_same_point"
   ],
   "note": "All sizes and periodicities in 2D with 4 m n < 2^31. The brick in 3D is not modelled."
  },
  {
   "property": "C77",
   "status": "partial",
   "theorems": [
    "P4est.C77_roundtrip_partial",
    "P4est.C77_size_aborts",
    "P4est.C77_header_string_cut"
   ],
   "note": "All sections, strings, partitions, orders of the writes, with and without MPI I/O; files shorter than 2^64 bytes. Partial: false for sections of 15 modulo 16 bytes (C77_size_aborts, finding 21) and for the 47th character of the string of the file (C77_header_string_cut, finding 22). MPI calls succeed."
  },
  {
   "property": "C78",
   "status": "partial",
   "theorems": [
    "P4est.C78_interrupted_partial",
    "P4est.C78_cut_partial",
    "P4est.C78_header_cut"
   ],
   "note": "All pieces of the writes and all truncations, sections not of 15 modulo 16 bytes. The attempt to read fails, but with MPI I/O the code can be the one for success and ranks can diverge, and without it the codes differ between ranks (finding 23). The list of sections is proved for truncated files."
  },
  {
   "property": "C79",
   "status": "partial",
   "theorems": [
    "P4est.C79_wrong_request_partial",
    "P4est.C79_other_dimension",
    "P4est.C79_other_count_reports_success"
   ],
   "note": "All files, requests of a possible size, ranks and partitions; codes without MPI I/O. Partial: another number of quadrants gives the code for success (finding 24), and p4est_file_read_field uses a freed context (finding 25); both proved."
  },
  {
   "property": "C80",
   "status": "proved",
   "theorems": [
    "P4est.C80_marks",
    "P4est.C80_adapt",
    "P4est.C80_changed"
   ],
   "note": "All legal local trees, sequences of calls and numbers of processes. coarsen_delay zero, no replace_fn; balance, ghost layer and mesh are not part of it."
  },
  {
   "property": "C81",
   "status": "partial",
   "theorems": [
    "P4est.C81_return_partial",
    "P4est.C81_collision"
   ],
   "note": "One process, all legal trees, calls and functions in the place of balance. Partial: with zlib, no change is also reported if the forests differ but have the same number of leaves and the same checksum, which occurs (C81_collision, finding 26)."
  },
  {
   "property": "C82",
   "status": "proved",
   "theorems": [
    "P4est.C82_newly",
    "P4est.C82_after_adapt"
   ],
   "note": "All pairs of legal forests in which every new leaf is an old leaf, a child of one or the parent of old leaves, in particular after every adaptation by marks before balance."
  },
  {
   "property": "C83",
   "status": "proved",
   "theorems": [
    "P4est.C83_unchanged",
    "P4est.C83_leaves"
   ],
   "note": "All ranges; all local trees that are not empty, all ascending mirrors or none."
  },
  {
   "property": "C84",
   "status": "partial",
   "theorems": [
    "P4est.C84_faces",
    "P4est.C84_complete_partial",
    "P4est.C84_old_links",
    "P4est.C84_invalid"
   ],
   "note": "All numbers of trees, vertices without three equal faces, 2D and 3D; C84_faces for any previous tables. Partial: the previous tables are not overwritten where a face has no partner, so the result is as claimed only if they connect at most faces with the same vertices (C84_old_links, C84_invalid, finding 27)."
  },
  {
   "property": "C85",
   "status": "proved",
   "theorems": [
    "P4est.C85_corners"
   ],
   "note": "All numbers of trees and vertices in 2D, vertices without three equal faces, previous face tables that connect at most faces with the same vertices. Edges and corners in 3D are not modelled."
  },
  {
   "property": "C86",
   "status": "partial",
   "theorems": [
    "P4est.C86_permute_partial",
    "P4est.C86_no_vertices",
    "P4est.C86_reduce"
   ],
   "note": "All valid connectivities with vertices in 2D, all permutations, both directions. Partial: for a valid connectivity without vertices the call accesses a missing array (C86_no_vertices). sc_array_permute is a contract."
  },
  {
   "property": "C87",
   "status": "partial",
   "theorems": [
    "P4est.C87_join_partial",
    "P4est.C87_build",
    "P4est.C87_after_complete",
    "P4est.C87_invalid"
   ],
   "note": "2D. C87_build: all numbers of trees, all lists of calls in any order from separate trees. C87_join_partial: one call on any tables that treat corners meeting across faces alike; C87_after_complete shows this of tables computed from vertices. Partial: for valid tables that are not closed in this sense the result can be invalid (C87_invalid, finding 29). Sorting and permuting of libsc arrays are contracts."
  },
  {
   "property": "C88",
   "status": "partial",
   "theorems": [
    "P4est.C88_accepts",
    "P4est.C88_sound_partial",
    "P4est.C88_positions_partial",
    "P4est.C88_accepts_holes",
    "P4est.C88_accepts_nothing",
    "P4est.C88_accepts_levels"
   ],
   "note": "Every legal forest is accepted: any number of ranks, trees and leaves, 2D and 3D. Partial: the converse holds for the order of the leaves, offsets, local counters, descendants, the sum of the level counters and empty non-local trees; it is false for completeness and single level counters (finding 30)."
  },
  {
   "property": "C89",
   "status": "partial",
   "theorems": [
    "P4est.C89_is_equal",
    "P4est.C89_connectivity_ignored"
   ],
   "note": "All pairs of legal forests on the same ranks, 2D and 3D, with and without data. Partial: connectivities are not compared although documented (C89_connectivity_ignored, finding 31). The bytes of data are values of a type with decidable equality; padding in the array of positions is equal."
  },
  {
   "property": "C90",
   "status": "partial",
   "theorems": [
    "P4est.C90_test_partial",
    "P4est.C90_returns",
    "P4est.C90_child_missed"
   ],
   "note": "All quadrants of all levels up to 29 and all positions in any box of whole trees, all conditions, 2D and 3D. Partial: false if q is a child of p (C90_child_missed, finding 32), and without the array of seeds a missing array is used if q is inside p (C90_returns, finding 33)."
  },
  {
   "property": "C91",
   "status": "partial",
   "theorems": [
    "P4est.C91_seeds_partial",
    "P4est.C91_no_more",
    "P4est.C91_edge_incomplete"
   ],
   "note": "All quadrants of levels up to 29 and all positions in any box of whole trees, all conditions, 2D and 3D. Partial: with edge balance in 3D and q outside along two axes seeds are missing (C91_edge_incomplete, finding 34; C91_no_more still holds); a child of p as in C90."
  },
  {
   "property": "C92",
   "status": "partial",
   "theorems": [
    "P4est.C92_balance_border",
    "P4est.C92_forced_partial"
   ],
   "note": "C92_balance_border is complete: all trees, borders, conditions and callbacks init, 2D and 3D. Partial: the last sentence of the claim with the exceptions of C91. With the replace callback: C97."
  },
  {
   "property": "C93",
   "status": "partial",
   "theorems": [
    "P4est.C93_overlap_partial",
    "P4est.C93_forest_partial"
   ],
   "note": "All leaves, quadrants, levels and lists, face and corner balance in 2D and 3D. Partial: in 3D with edge balance only leaves not outside along two axes (C91 fails there); the transformation of the seeds into other trees is a parameter; which quadrants a process sends: C96."
  },
  {
   "property": "C94",
   "status": "proved",
   "theorems": [
    "P4est.C94_uniqify"
   ],
   "note": "The sort is by its contract."
  },
  {
   "property": "C95",
   "status": "proved",
   "theorems": [
    "P4est.C95_first_pass"
   ],
   "note": "With the replace callback the leaves are the same (C97_replace_subtree)."
  },
  {
   "property": "C96",
   "status": "partial",
   "theorems": [
    "P4est.C96_balance_shared_partial",
    "P4est.C96_same_partial",
    "P4est.C96_replace_partial"
   ],
   "note": "All trees, numbers of processes and partitions, face and full balance in 2D and 3D. Partial: not for edge balance in 3D (the seeds are not enough there, C91), no neighboring trees, messages arrive unchanged."
  },
  {
   "property": "C97",
   "status": "proved",
   "theorems": [
    "P4est.C97_replace",
    "P4est.C97_replace_subtree",
    "P4est.C97_conserve_subtree",
    "P4est.C97_replace_border",
    "P4est.C97_conserve_border"
   ],
   "note": "Both passes of balance over a tree and the two together, for all leaves, borders, conditions and callbacks in 2D and 3D. Which border a tree gets: C92 to C96."
  },
  {
   "property": "C98",
   "status": "proved",
   "theorems": [
    "P4est.C98_touches_inside",
    "P4est.C98_touches_outside",
    "P4est.C98_shift_corner",
    "P4est.C98_root"
   ],
   "note": "Every dimension. Nodes as arguments of touches_corner are modelled, but not part of the theorems."
  },
  {
   "property": "C99",
   "status": "proved",
   "theorems": [
    "P4est.C99_touches_inside",
    "P4est.C99_touches_outside",
    "P4est.C99_shift_edge",
    "P4est.C99_root"
   ],
   "note": "All octants and edges. Nodes as arguments of touches_edge are modelled, but not part of the theorems."
  }
 ]
}