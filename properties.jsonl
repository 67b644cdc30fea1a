{"id": "C01", "title": "Quadrant comparison is the Morton order", "statement": "p4est_quadrant_compare (and p4est_coordinates_compare) returns a negative, zero or positive value exactly as the first quadrant precedes, equals or follows the second in the order 'Morton index of the lower corner (coordinates read as unsigned 32 bit), then level'. It is hence a strict total order on quadrants, usable by sort and bsearch.", "quantifier": "all pairs and triples of quadrants with arbitrary int32 coordinates (also outside the root) and any levels, 2D and 3D", "why_tests_cant": "the code uses an exclusive-or most-significant-bit trick; order axioms range over all triples of about 2^90 values", "anchors": ["src/p4est_bits.c:p4est_coordinates_compare", "src/p4est_bits.c:p4est_quadrant_compare"]}
{"id": "C02", "title": "Ancestor test is strict region containment", "statement": "p4est_quadrant_is_ancestor(q,r) returns true iff the cells covered by r are a proper subset of the cells covered by q.", "quantifier": "all pairs of extended quadrants in 2D and 3D", "why_tests_cant": "the pair space is astronomically large and the test is by bit masks", "anchors": ["src/p4est_bits.c:p4est_quadrant_is_ancestor"]}
{"id": "C03", "title": "Overlap test and two-way disjointness comparison", "statement": "p4est_quadrant_overlaps(q,r) is true iff q and r share a cell; two quadrants either are disjoint or one contains the other; p4est_quadrant_disjoint returns 0 iff they overlap and otherwise the sign of the Morton order.", "quantifier": "all pairs of extended quadrants", "why_tests_cant": "all pairs; laminarity is a universally quantified fact", "anchors": ["src/p4est_bits.c:p4est_quadrant_overlaps", "src/p4est_bits.c:p4est_quadrant_disjoint"]}
{"id": "C04", "title": "Parent, child, sibling and ancestor constructors round-trip", "statement": "The parent of the child k of q is q and that child's child_id is k; the child of the parent of q with q's child_id is q; sibling k of q is child k of q's parent; p4est_quadrant_ancestor at a level is the unique quadrant of that level containing q; results of valid inputs are valid.", "quantifier": "all extended quadrants with the documented level bounds and all child ids", "why_tests_cant": "universal over all quadrants", "anchors": ["src/p4est_bits.c:p4est_quadrant_parent", "src/p4est_bits.c:p4est_quadrant_child", "src/p4est_bits.c:p4est_quadrant_sibling", "src/p4est_bits.c:p4est_quadrant_ancestor", "src/p4est_bits.c:p4est_quadrant_child_id"]}
{"id": "C05", "title": "Children tile their parent", "statement": "Every cell of q lies in exactly one of the children written by p4est_quadrant_children/childrenv, the children lie in q, and they are in strictly increasing Morton order and consecutive (p4est_quadrant_is_next).", "quantifier": "all valid quadrants below the maximum level", "why_tests_cant": "universal over quadrants and cells", "anchors": ["src/p4est_bits.c:p4est_quadrant_children", "src/p4est_bits.c:p4est_quadrant_childrenv"]}
{"id": "C06", "title": "Family test is exact", "statement": "p4est_quadrant_is_family(q0..) is true iff the arguments are, in order, all children 0..2^d-1 of one common parent (for a first argument that is a first sibling); p4est_quadrant_is_sibling is true iff both have the same parent and differ; is_parent iff the first is the parent of the second.", "quantifier": "all tuples of extended quadrants", "why_tests_cant": "tuples of arbitrary quadrants cannot be enumerated", "anchors": ["src/p4est_bits.c:p4est_quadrant_is_family", "src/p4est_bits.c:p4est_quadrant_is_sibling", "src/p4est_bits.c:p4est_quadrant_is_parent"]}
{"id": "C07", "title": "Nearest common ancestor is the deepest common container", "statement": "p4est_nearest_common_ancestor(q1,q2) contains both quadrants and every quadrant that contains both contains it; it agrees with the reference version p4est_nearest_common_ancestor_D.", "quantifier": "all pairs of quadrants inside the same root", "why_tests_cant": "uses log2 of exclusive or; all pairs", "anchors": ["src/p4est_bits.c:p4est_nearest_common_ancestor", "src/p4est_bits.c:p4est_nearest_common_ancestor_D"]}
{"id": "C08", "title": "Fast predicates agree with their reference versions", "statement": "p4est_quadrant_is_sibling, _is_parent, _is_ancestor, _is_next and nearest_common_ancestor return the same results as the slower _D versions that the library ships for cross-checking.", "quantifier": "all pairs of quadrants meeting the assertions of both functions", "why_tests_cant": "all pairs", "anchors": ["src/p4est_bits.c:p4est_quadrant_is_sibling_D", "src/p4est_bits.c:p4est_quadrant_is_parent_D", "src/p4est_bits.c:p4est_quadrant_is_ancestor_D", "src/p4est_bits.c:p4est_quadrant_is_next_D"]}
{"id": "C09", "title": "is_next means adjacent along the space-filling curve", "statement": "p4est_quadrant_is_next(q,r) is true iff r begins exactly where q ends: in Morton order of the finest cells, the first cell of r is the immediate successor of the last cell of q.", "quantifier": "all pairs of quadrants inside the root", "why_tests_cant": "all pairs across levels", "anchors": ["src/p4est_bits.c:p4est_quadrant_is_next"]}
{"id": "C10", "title": "First and last descendants bound the subtree", "statement": "For a quadrant q and level l, first_descendant and last_descendant are level-l quadrants inside q, and a level-l quadrant lies inside q iff it compares between them.", "quantifier": "all valid quadrants and levels", "why_tests_cant": "universal", "anchors": ["src/p4est_bits.c:p4est_quadrant_first_descendant", "src/p4est_bits.c:p4est_quadrant_last_descendant", "src/p4est_bits.c:p4est_quadrant_corner_descendant"]}
{"id": "C11", "title": "Linear id and set_morton are mutually inverse and order preserving", "statement": "p4est_quadrant_set_morton(level,id) followed by linear_id returns id, linear_id followed by set_morton returns the quadrant, and id order is compare order on quadrants of one level; no bit is lost in the 64 bit (2D, 3D up to the documented level) and 128 bit variants.", "quantifier": "all levels and all ids below 2^(d*level), all quadrants at least as deep as level", "why_tests_cant": "2^58 ids per level", "anchors": ["src/p4est_bits.c:p4est_quadrant_linear_id", "src/p4est_bits.c:p4est_quadrant_set_morton", "src/p4est_bits.c:p4est_quadrant_linear_id_ext128", "src/p4est_bits.c:p4est_quadrant_set_morton_ext128"]}
{"id": "C12", "title": "Successor and predecessor step the curve by one", "statement": "p4est_quadrant_successor returns the same-level quadrant whose linear id is larger by one, predecessor the one smaller by one; they are inverse to each other.", "quantifier": "all valid quadrants that are not the last (first) of their level", "why_tests_cant": "carry propagation over all levels and coordinates", "anchors": ["src/p4est_bits.c:p4est_quadrant_successor", "src/p4est_bits.c:p4est_quadrant_predecessor"]}
{"id": "C13", "title": "enlarge_first/enlarge_last are maximal", "statement": "p4est_quadrant_enlarge_first(a,q) turns q into the largest ancestor inside a that has the same first descendant; enlarge_last the largest that has the same last descendant; is_first_last tells whether f and l are the extreme descendants of a.", "quantifier": "all q inside a", "why_tests_cant": "loop over levels with arbitrary coordinates", "anchors": ["src/p4est_bits.c:p4est_quadrant_enlarge_first", "src/p4est_bits.c:p4est_quadrant_enlarge_last", "src/p4est_bits.c:p4est_quadrant_is_first_last"]}
{"id": "C14", "title": "Face and corner neighbors are translates, and mutual", "statement": "face_neighbor(q,f) is the equal-size quadrant sharing exactly face f; the neighbor across the opposite face of the neighbor is q; likewise for corners. half_face_neighbors lists the half-size quadrants that tile the layer adjacent to face f.", "quantifier": "all extended quadrants and faces/corners", "why_tests_cant": "universal", "anchors": ["src/p4est_bits.c:p4est_quadrant_face_neighbor", "src/p4est_bits.c:p4est_quadrant_corner_neighbor", "src/p4est_bits.c:p4est_quadrant_half_face_neighbors", "src/p4est_bits.c:p4est_quadrant_half_corner_neighbor", "src/p4est_bits.c:p4est_quadrant_all_face_neighbors"]}
{"id": "C15", "title": "Node clamping round-trips", "statement": "node_unclamp after node_clamp_inside restores every legal node; node_to_quadrant returns a quadrant of the requested level that contains the node, and it is the only one of that level that does.", "quantifier": "all legal nodes and levels", "why_tests_cant": "universal", "anchors": ["src/p4est_bits.c:p4est_node_clamp_inside", "src/p4est_bits.c:p4est_node_unclamp", "src/p4est_bits.c:p4est_node_to_quadrant", "src/p4est_bits.c:p4est_quadrant_contains_node"]}
{"id": "C16", "title": "Tree validity checks characterise a gapless linear tree", "statement": "tree_is_complete returns true iff the leaves cover, without gap or overlap and in order, one contiguous range of the space-filling curve; complete implies linear, and linear implies sorted; is_linear iff sorted and pairwise disjoint.", "quantifier": "all leaf arrays of any length", "why_tests_cant": "the checks only look at neighboring pairs; the claim is about all pairs and all cells", "anchors": ["src/p4est_algorithms.c:p4est_tree_is_sorted", "src/p4est_algorithms.c:p4est_tree_is_linear", "src/p4est_algorithms.c:p4est_tree_is_complete"]}
{"id": "C17", "title": "Refinement preserves the mesh invariants and covers the same domain", "statement": "p4est_refine_ext replaces leaves only by descendants: the result is again complete, covers exactly the same cells, is sorted, every new leaf is inside an old leaf, and no leaf is refined beyond the allowed level.", "quantifier": "every leaf array and every refine callback (an arbitrary, even stateful, decision procedure), recursive or not", "why_tests_cant": "arbitrary callbacks and arbitrary array lengths; queue-driven algorithm", "anchors": ["src/p4est.c:p4est_refine_ext"]}
{"id": "C18", "title": "Refinement result is determined by the callback", "statement": "With a pure callback, non-recursive refine replaces exactly the leaves for which the callback is true (and level below the limit) by their children; recursive refine yields the leaves of the recursive splitting; leaf order and callback order are Morton order.", "quantifier": "all leaf arrays, callbacks and levels", "why_tests_cant": "recursion depth and callback arbitrary", "anchors": ["src/p4est.c:p4est_refine_ext"]}
{"id": "C19", "title": "Coarsening preserves the mesh invariants", "statement": "p4est_coarsen_ext replaces only complete families by their parent: the result is complete, sorted and covers exactly the same cells; every old leaf is equal to or inside a new leaf.", "quantifier": "every leaf array and every (stateful) coarsen callback, recursive or not, with or without orphan callbacks", "why_tests_cant": "in-place sliding-window algorithm over arbitrary arrays", "anchors": ["src/p4est.c:p4est_coarsen_ext"]}
{"id": "C20", "title": "Coarsen undoes refine", "statement": "Non-recursive coarsen with an always-true callback right after a non-recursive uniform refine restores the original leaves; recursive coarsening of all families leaves no complete family in the tree.", "quantifier": "all complete leaf arrays", "why_tests_cant": "fixpoint property of a window algorithm", "anchors": ["src/p4est.c:p4est_coarsen_ext", "src/p4est.c:p4est_refine_ext"]}
{"id": "C21", "title": "Level counters and maximum level stay consistent", "statement": "After refine, coarsen, complete_region and linearize_tree, quadrants_per_level[l] equals the number of leaves of level l for every l, maxlevel is the largest level present, and the counters sum to the number of leaves.", "quantifier": "every history of these operations", "why_tests_cant": "histories and callbacks are unbounded", "anchors": ["src/p4est.c:p4est_refine_ext", "src/p4est.c:p4est_coarsen_ext", "src/p4est_algorithms.c:p4est_complete_region", "src/p4est_algorithms.c:p4est_linearize_tree"]}
{"id": "C22", "title": "complete_region fills the gap minimally", "statement": "p4est_complete_region(a,b) yields exactly the quadrants strictly between a and b: sorted, consecutive, covering every cell between the end of a and the start of b, with every quadrant as coarse as possible; it terminates.", "quantifier": "all pairs a<b of valid disjoint quadrants", "why_tests_cant": "work list algorithm, all pairs", "anchors": ["src/p4est_algorithms.c:p4est_complete_region"]}
{"id": "C23", "title": "linearize_tree keeps exactly the finest leaves", "statement": "p4est_linearize_tree on a sorted array removes exactly those entries that are equal to or ancestors of a later one; the result is linear, every old entry still contains a remaining one (area covered only by a removed ancestor is lost), and the count returned is the number removed; the data of exactly the removed entries is freed.", "quantifier": "all sorted arrays", "why_tests_cant": "arbitrary arrays; two-pointer in-place algorithm", "anchors": ["src/p4est_algorithms.c:p4est_linearize_tree"]}
{"id": "C24", "title": "Binary searches for lower and higher bounds", "statement": "p4est_find_lower_bound returns the position of the first array entry not smaller than q, or -1 iff none; p4est_find_higher_bound the last entry not larger, or -1 iff none; both terminate and return the same answer for every admissible starting guess.", "quantifier": "all sorted arrays, all quadrants, all guesses", "why_tests_cant": "array length and guess unbounded", "anchors": ["src/p4est_search.c:p4est_find_lower_bound", "src/p4est_search.c:p4est_find_higher_bound"]}
{"id": "C25", "title": "p4est_find_partition returns the window of ranks", "statement": "p4est_find_partition returns the smallest positions with my_begin<=a[begin] and my_end<=a[end], with documented clamping.", "quantifier": "all nondecreasing arrays and all pairs", "why_tests_cant": "unbounded arrays", "anchors": ["src/p4est_search.c:p4est_find_partition"]}
{"id": "C26", "title": "split_array splits a subtree by child", "statement": "p4est_split_array returns 2^d+1 nondecreasing offsets such that the entries with positions in [indices[k],indices[k+1]) are exactly those contained in child k.", "quantifier": "all sorted arrays of strict descendants of one quadrant", "why_tests_cant": "arbitrary arrays", "anchors": ["src/p4est_search.c:p4est_split_array"]}
{"id": "C27", "title": "Unique owner rank", "statement": "p4est_comm_find_owner returns the one non-empty rank whose partition range contains the given quadrant's first position, for every admissible guess, and p4est_comm_is_owner is true for exactly this rank.", "quantifier": "all partitions including empty ranks, all quadrants, all guesses", "why_tests_cant": "rank counts, partitions and guesses unbounded", "anchors": ["src/p4est_communication.c:p4est_comm_find_owner", "src/p4est_communication.c:p4est_comm_is_owner", "src/p4est_communication.c:p4est_comm_is_empty"]}
{"id": "C28", "title": "Global counts are prefix sums", "statement": "After p4est_comm_count_quadrants, global_first_quadrant starts at 0, is nondecreasing, differs by the local counts and ends with the global count; p4est_comm_global_first_quadrant and partition_cut give shares that differ by at most one.", "quantifier": "all process counts and local counts", "why_tests_cant": "unbounded processes", "anchors": ["src/p4est_communication.c:p4est_comm_count_quadrants", "src/p4est_communication.c:p4est_comm_global_first_quadrant", "src/p4est_base.h:p4est_partition_cut_gloidx"]}
{"id": "C29", "title": "Global partition positions are monotone and skip empty ranks", "statement": "After p4est_comm_global_partition every rank's first position is its own first leaf if it has one, else the position of the next non-empty rank (or the end); positions are nondecreasing and a rank is empty iff its position equals the next one.", "quantifier": "all distributions of leaves to ranks", "why_tests_cant": "unbounded processes and empty patterns", "anchors": ["src/p4est_communication.c:p4est_comm_global_partition"]}
{"id": "C30", "title": "Repartition conserves leaves and order", "statement": "p4est_partition_given moves leaves so that the global sequence of (tree, quadrant, user data) is unchanged and rank p holds exactly new_num_quadrants_in_proc[p] consecutive entries; what each rank sends to another is exactly what that rank expects to receive; the return value is nonzero iff some leaf changes rank.", "quantifier": "all old and new partitions", "why_tests_cant": "number of ranks and leaves unbounded; message matching across ranks", "anchors": ["src/p4est_algorithms.c:p4est_partition_given"]}
{"id": "C31", "title": "Weighted partition is balanced by cut points", "statement": "p4est_partition_ext with weights assigns to rank p the leaves between the lower bounds of the cuts W*p/P; counts are nonnegative and sum to the total; every send has exactly one matching receive; all-zero weights and a single process are a no-op.", "quantifier": "all weight functions with nonnegative weights", "why_tests_cant": "unbounded ranks, weights", "anchors": ["src/p4est.c:p4est_partition_ext"]}
{"id": "C32", "title": "Partition for coarsening keeps families together", "statement": "p4est_partition_correction moves a cut that splits a complete family so that the family ends up on one rank; the total number is preserved.", "quantifier": "all partitions and families", "why_tests_cant": "unbounded ranks and counts", "anchors": ["src/p4est_algorithms.c:p4est_partition_correction", "src/p4est.c:p4est_partition_for_coarsening", "src/p4est_algorithms.c:p4est_next_nonempty_process"]}
{"id": "C33", "title": "Data transfer follows the partition", "statement": "p4est_transfer_fixed and p4est_transfer_custom/items deliver to each destination rank the concatenation of the data of its elements in global order, every byte exactly once, with matching send and receive sizes.", "quantifier": "all source and destination partitions with empty ranks, all item sizes", "why_tests_cant": "unbounded ranks, sizes", "anchors": ["src/p4est_communication.c:p4est_transfer_fixed_begin", "src/p4est_communication.c:p4est_transfer_custom_begin", "src/p4est_communication.c:p4est_transfer_items_begin"]}
{"id": "C34", "title": "Forest checksum does not depend on the partition", "statement": "p4est_checksum of two distributions of the same leaves is equal, because the Adler-32 combination over trees and ranks equals the Adler-32 of the concatenated bytes.", "quantifier": "all leaf sequences and all partitions", "why_tests_cant": "algebraic identity for all byte strings", "anchors": ["src/p4est.c:p4est_checksum", "src/p4est_communication.c:p4est_comm_checksum", "src/p4est_algorithms.c:p4est_quadrant_checksum"]}
{"id": "C35", "title": "Revision counter", "statement": "refine, coarsen and partition increase the revision by exactly one if the mesh or partition changed and leave it unchanged otherwise; a copy starts at 0.", "quantifier": "all histories of operations", "why_tests_cant": "histories unbounded", "anchors": ["src/p4est.c:p4est_refine_ext", "src/p4est.c:p4est_coarsen_ext", "src/p4est.c:p4est_partition_ext", "src/p4est.c:p4est_copy_ext"]}
{"id": "C36", "title": "New forest", "statement": "p4est_new_ext creates a forest of complete trees. It uses the smallest level that is at least min_level and gives at least min_quadrants per rank. With fill_uniform each rank holds consecutive leaves of this level, all ranks together every one exactly once, local counts differing by at most one; without it each rank holds coarser leaves covering the same region. The callback is called once for each local leaf in order, and the partition markers and counters are those of these leaves.", "quantifier": "all numbers of trees, ranks, levels, minimum counts, both filling modes, all stateful callbacks", "why_tests_cant": "unbounded", "anchors": ["src/p4est.c:p4est_new_ext"]}
{"id": "C37", "title": "Face transform maps the mesh across a face exactly and invertibly", "statement": "For every face connection, p4est_coordinates_transform_face with the transform of p4est_expand_face_transform is the unique rigid map that glues the trees together as documented (faces, orientation, right-handed in 3D). p4est_quadrant_transform_face maps a quadrant outside one tree onto the congruent quadrant inside the neighbor tree; transforming back with the transform of the reverse connection returns the original. p4est_quadrant_face_neighbor_extra returns the neighbor in the right tree and, called with its result, leads back.", "quantifier": "all faces, neighbor faces, orientations and quadrants; all consistent connectivities", "why_tests_cant": "quadrants unbounded; combination of tables and arithmetic", "anchors": ["src/p4est_bits.c:p4est_quadrant_transform_face", "src/p4est_connectivity.c:p4est_expand_face_transform", "src/p4est_bits.c:p4est_coordinates_transform_face", "src/p4est_bits.c:p4est_quadrant_face_neighbor_extra", "src/p4est_connectivity.c:p4est_find_face_transform", "src/p4est_connectivity.c:p4est_connectivity_is_valid"]}
{"id": "C38", "title": "Corner and edge correspondence across face connections", "statement": "p4est_connectivity_face_neighbor_corner and p8est_connectivity_face_neighbor_edge map each corner and edge on a face to the corner and edge of the neighbor at the same place, consistently with the coordinates transform and the face-local numbering, and the reverse connection maps it back.", "quantifier": "all face/face/orientation combinations in 2D and 3D", "why_tests_cant": "the consistency of tables and arithmetic must hold for all combinations", "anchors": ["src/p4est_connectivity.c:p4est_connectivity_face_neighbor_corner", "src/p4est_connectivity.c:p4est_connectivity_face_neighbor_face_corner", "src/p8est_connectivity.c:p8est_connectivity_face_neighbor_edge"]}
{"id": "C39", "title": "Deflate/inflate round-trips the forest", "statement": "p4est_inflate of the arrays produced by p4est_deflate_quadrants reproduces the same leaves in the same trees with the same payload.", "quantifier": "all complete forests and payloads", "why_tests_cant": "unbounded", "anchors": ["src/p4est_io.c:p4est_deflate_quadrants", "src/p4est_io.c:p4est_inflate"]}
{"id": "C40", "title": "Search visits exactly the leaves that match", "statement": "p4est_search_local calls the callbacks top-down with branches containing local leaves; a point that matches all ancestors is delivered to the leaf callback for every leaf, in order; without pruning each local leaf is visited exactly once.", "quantifier": "all local leaf arrays and callbacks", "why_tests_cant": "recursion over arbitrary trees", "anchors": ["src/p4est_search.c:p4est_search_local"]}
{"id": "C41", "title": "Layer profile union and intersection", "statement": "In p6est profile code, the union of two column profiles is the coarsest common refinement and the intersection the finest common coarsening; balancing yields the coarsest 2:1 balanced refinement.", "quantifier": "all complete column profiles", "why_tests_cant": "unbounded lists", "anchors": ["src/p6est_profile.c:p6est_profile_union", "src/p6est_profile.c:p6est_profile_intersection", "src/p6est_profile.c:p6est_profile_balance_self"]}
{"id": "C42", "title": "Manual build API produces a complete valid forest", "statement": "p4est_build_add in Morton order followed by p4est_build_complete yields exactly the added leaves plus the coarsest possible fill-in, covering the same range as before.", "quantifier": "all sequences of added quadrants", "why_tests_cant": "unbounded sequences", "anchors": ["src/p4est_build.c:p4est_build_add", "src/p4est_build.c:p4est_build_complete"]}
{"id": "C43", "title": "Tree range tests", "statement": "p4est_quadrant_overlaps_tree is true iff the quadrant's stretch of the curve meets the local range of the tree; p4est_quadrant_is_inside_tree iff it is completely contained in it; p4est_quadrant_in_range iff the quadrant is legal and lies completely between the given first and last descendants.", "quantifier": "all legal quadrants and all local ranges, empty ones included", "why_tests_cant": "all triples of quadrants", "anchors": ["src/p4est_bits.c:p4est_quadrant_overlaps_tree", "src/p4est_bits.c:p4est_quadrant_is_inside_tree", "src/p4est_algorithms.c:p4est_quadrant_in_range"]}
{"id": "C44", "title": "Shared points have equal coordinates from both sides", "statement": "A quadrant and its face, corner or edge neighbor compute the same coordinates for the shared face midpoint, corner point (and node) or edge midpoint; the midpoint of a quadrant is the corner common to all its children.", "quantifier": "all quadrants, faces, corners, edges", "why_tests_cant": "universal over quadrants", "anchors": ["src/p4est_bits.c:p4est_quadrant_face_coordinates", "src/p4est_bits.c:p4est_quadrant_corner_coordinates", "src/p4est_bits.c:p4est_quadrant_corner_node", "src/p4est_bits.c:p4est_quadrant_volume_coordinates", "src/p8est_bits.c:p8est_quadrant_edge_coordinates"]}
{"id": "C45", "title": "Adaptation terminates and stays inside the leaf array", "statement": "p4est_refine_ext, p4est_coarsen_ext, p4est_linearize_tree and p4est_complete_region terminate for every input and callback, and no access to the in-place modified leaf array is out of bounds.", "quantifier": "all leaf arrays of legal quadrants, all (stateful) callbacks", "why_tests_cant": "termination and memory safety for arbitrary callbacks and array lengths", "anchors": ["src/p4est.c:p4est_refine_ext", "src/p4est.c:p4est_coarsen_ext", "src/p4est_algorithms.c:p4est_linearize_tree", "src/p4est_algorithms.c:p4est_complete_region"]}
{"id": "C46", "title": "Coarsen shows every leaf to the callback exactly once when asked for orphans", "statement": "With coarsen_recursive false and callback_orphans true, p4est_coarsen_ext passes every local quadrant exactly once into the coarsen callback, either as a member of a complete family or alone as an orphan.", "quantifier": "all leaf arrays of a tree and all callbacks", "why_tests_cant": "documented guarantee for every leaf array and every pattern of answers of the callback", "anchors": ["src/p4est_extended.h:p4est_coarsen_ext", "src/p4est.c:p4est_coarsen_ext"]}
{"id": "C47", "title": "A cumulative quadrant number finds its tree and position", "statement": "For every legal processor-local cumulative number p4est_find_quadrant_cumulative terminates and returns the tree that holds the quadrant and the position in this tree whose cumulative number it is, for every initial guess of the tree.", "quantifier": "all forests (any number of trees and quadrants, empty trees included), all numbers, all hints", "why_tests_cant": "unbounded numbers of trees and a bisection that starts from an arbitrary guess", "anchors": ["src/p4est_search.c:p4est_find_quadrant_cumulative"]}
{"id": "C48", "title": "A neighborhood reported as owned is owned", "statement": "If p4est_comm_neighborhood_owned returns true for a local leaf with the flags of p4est_comm_tree_info, the whole 3x3 (3x3x3) neighborhood of the leaf, including what lies across faces, edges and corners of the tree, is owned by this rank.", "quantifier": "all distributed forests, connectivities and leaves", "why_tests_cant": "the decision looks at two positions on the curve and must be right for every partition", "anchors": ["src/p4est_communication.c:p4est_comm_neighborhood_owned", "src/p4est_communication.c:p4est_comm_tree_info"]}
{"id": "C49", "title": "Counting leaves per tree is exact", "statement": "p4est_comm_count_pertree returns on every process the array whose entry t is the number of leaves in all trees before t, for any partition including empty processes and trees that span several processes; every message that is sent is received and vice versa.", "quantifier": "all complete forests, all partitions, all numbers of processes", "why_tests_cant": "which process counts a tree and which processes exchange a message depends on where the partition cuts fall; unboundedly many configurations", "anchors": ["src/p4est_communication.c:p4est_comm_count_pertree"]}
{"id": "C50", "title": "Saving and loading a forest is lossless", "statement": "A connectivity written by p4est_connectivity_sink is read back identically by p4est_connectivity_source, which consumes exactly the bytes written. A forest saved by p4est_save_ext (with or without data, with or without its partition) and loaded by p4est_source_ext gives the same connectivity and the same leaves with the same data in the same trees: on the same number of processes with the saved partition it is the same partition, and with autopartition on any number of processes it is the equal partition. The source is left exactly at the end of the forest.", "quantifier": "all connectivities with arrays of the documented shape, all forests, data sizes, partitions, numbers of saving and loading processes, header reading modes and trailing bytes", "why_tests_cant": "alignment gaps, skips and offsets depend on all sizes; unboundedly many shapes of forest and numbers of processes", "anchors": ["src/p4est.c:p4est_save_ext", "src/p4est.c:p4est_source_ext", "src/p4est_connectivity.c:p4est_connectivity_sink", "src/p4est_connectivity.c:p4est_connectivity_source"]}
{"id": "C51", "title": "The search of the partition leads to the owners", "statement": "p4est_search_partition (also _gfx and _gfp) visits on every tree, in depth-first order, exactly the root, and the children of every quadrant that several processes own part of and that the callbacks let pass, and passes with each the lowest and the highest process that own a part of it. Points are shown in order to the quadrants they reach. If the callbacks accept all quadrants that contain a position, exactly one quadrant owned by a single process and containing the position is visited, with this process as both bounds.", "quantifier": "all complete forests, partitions (with empty processes), callbacks with state, point sets, with or without global_first_quadrant", "why_tests_cant": "where processes begin within the tree of quadrants and which are empty is unbounded, and so are the answers of callbacks", "anchors": ["src/p4est_search.c:p4est_search_partition", "src/p4est_search.c:p4est_search_partition_gfx", "src/p4est_search.c:p4est_search_partition_gfp"]}
{"id": "C52", "title": "The search of the whole forest leads to local leaves and remote owners", "statement": "p4est_search_all visits on every tree, in depth-first order, exactly the root, and the children of every quadrant that the callbacks let pass and that several processes own part of, or the calling process owns without it being a leaf. With each quadrant it passes the lowest and the highest process that own a part of it, and the local number for a local leaf or -1. If the callbacks accept all quadrants that contain a position, the search ends in the local leaf that contains it, or else in a quadrant owned by one other process alone.", "quantifier": "all complete forests, partitions (with empty processes), calling processes, callbacks with state, point sets", "why_tests_cant": "where processes begin within the tree of quadrants and which are empty is unbounded, and so are the answers of callbacks", "anchors": ["src/p4est_search.c:p4est_search_all"]}
{"id": "C53", "title": "Completing a subtree fills the gaps with the largest quadrants", "statement": "p4est_complete_subtree turns any nonempty list of leaves of a tree, in order and without overlap, into leaves that cover exactly the part of the tree between its first and its last descendant. Every given leaf stays, with its data. The gaps are filled with the largest quadrants possible, each initialized once by the callback, in order. The level counters and the maximum level agree with the leaves.", "quantifier": "all first and last descendants, all linear lists of leaves between them (with any gaps), all init callbacks with state, 2D and 3D", "why_tests_cant": "the positions and sizes of gaps are unbounded, and that no coarser filling exists ranges over all quadrants", "anchors": ["src/p4est_algorithms.c:p4est_complete_subtree", "src/p4est_algorithms.c:p4est_complete_or_balance", "src/p4est_algorithms.c:p4est_complete_or_balance_kernel"]}
{"id": "C54", "title": "Balancing a subtree gives the coarsest balanced refinement", "statement": "p4est_balance_subtree replaces the leaves of a tree by leaves that cover the same part of the tree, none coarser than before, such that leaves that share a face (for the other types also an edge or a corner) differ by at most one level. No leaf is finer than balance requires: a complete balanced tree as fine as the input is as fine as the output. Leaves that stay keep their data, replaced leaves are freed, new leaves are initialized once each, in order, and the counters agree with the leaves. A balanced tree is not changed.", "quantifier": "all trees, ranges between first and last descendants covered by leaves, all balance types, init callbacks with state, 2D and 3D", "why_tests_cant": "balance spreads over unboundedly many levels and leaves, and minimality ranges over all balanced trees", "anchors": ["src/p4est_algorithms.c:p4est_balance_subtree", "src/p4est_algorithms.c:p4est_complete_or_balance", "src/p4est_algorithms.c:p4est_complete_or_balance_kernel"]}
{"id": "C55", "title": "Balance of the layers of neighboring columns", "statement": "p6est_balance with P8EST_CONNECT_FACE (EDGE, FULL) refines the layers of all columns so that layers that share a face (edge, corner) differ by at most one level, keeps every refined column a refinement of the given one, and refines no more than necessary.", "quantifier": "all horizontal meshes, all layers in the columns, every order of the columns", "why_tests_cant": "the exchange between columns repeats until nothing changes; which column sees which change depends on the order of the columns and the history of changes", "anchors": ["src/p6est.c:p6est_balance_ext", "src/p6est_profile.c:p6est_profile_new_local", "src/p6est_profile.c:p6est_profile_balance_local", "src/p6est_profile.c:p6est_profile_balance_full_one_pass"]}
{"id": "C56", "title": "Boundaries touched by a range of cells", "statement": "p4est_find_range_boundaries reports exactly the faces, edges and corners of a quadrant that are touched by at least one smallest quadrant of a range inside it. The range is given by its first and last smallest quadrant, and a missing end means the first or last one of the quadrant.", "quantifier": "all quadrants, all pairs of first and last smallest quadrants in them, each end given or not, 2D and 3D", "why_tests_cant": "there are about 4^29 (8^29) positions for each end, and the result depends on the child numbers on all levels", "anchors": ["src/p4est_search.c:p4est_find_range_boundaries", "src/p4est_search.c:p4est_range_boundaries", "src/p4est_search.c:p4est_limit_boundaries"]}
{"id": "C57", "title": "Ghost layer across faces", "statement": "p4est_ghost_new with P4EST_CONNECT_FACE ends on every rank. The ghosts of a rank are exactly the leaves of other ranks that have a common part of a face with one of its own leaves, inside a tree or across connected trees, sorted by owner and position and each with its number on its owner. The mirrors are exactly the own leaves that are ghosts elsewhere. tree_offsets, proc_offsets and mirror_tree_offsets cut the arrays by tree and by rank, and the mirrors listed for a rank in mirror_proc_mirrors are, in order, the ghosts of that rank that come from here.", "quantifier": "all numbers of ranks, all forests of complete trees however they are refined (balanced or not) and distributed, with empty ranks, all consistent connectivities, 2D and 3D", "why_tests_cant": "the result depends on the whole forest, its partition and the connectivity; a missed neighbor on one rank makes another wait forever, and only for certain cuts of the curve", "anchors": ["src/p4est_ghost.c:p4est_ghost_new", "src/p4est_ghost.c:p4est_ghost_new_check", "src/p4est_ghost.c:p4est_ghost_test_add", "src/p4est_ghost.c:p4est_ghost_mirror_add", "src/p4est_ghost.c:p4est_ghost_mirror_reset"]}
{"id": "C58", "title": "Ghost layer across faces and corners", "statement": "p4est_ghost_new with P4EST_CONNECT_FULL ends on every rank. The ghosts of a rank are exactly the leaves of other ranks that have a common point with one of its own leaves: inside a tree, across connected faces of trees, or at corners of trees that the corner tables list as the same. Order, numbers, mirrors and offset tables are as for P4EST_CONNECT_FACE.", "quantifier": "all numbers of ranks, all forests of complete trees of squares however they are refined and distributed, with empty ranks, all consistent face and corner tables, 2D", "why_tests_cant": "the result depends on the whole forest, its partition and the connectivity, with any number of trees around a corner; a missed neighbor on one rank makes another wait forever", "anchors": ["src/p4est_ghost.c:p4est_ghost_new", "src/p4est_ghost.c:p4est_ghost_new_check", "src/p4est_connectivity.c:p4est_find_corner_transform", "src/p4est_bits.c:p4est_quadrant_transform_corner"]}
{"id": "C59", "title": "The validity check accepts exactly the consistent corner tables", "statement": "For a connectivity with consistent faces p4est_connectivity_is_valid accepts the corner tables exactly if the lists of corners are consecutive and name existing corners of trees, each corner of each tree is unlisted or has the number of a list that names it exactly once, and all corners of trees in that list have the same number. It rejects all other tables without an access out of bounds.", "quantifier": "all numbers of trees and corners, all contents of the corner tables, 2D", "why_tests_cant": "the tables are arrays of any length with any contents, and the claim covers every way in which they can be wrong", "anchors": ["src/p4est_connectivity.c:p4est_connectivity_is_valid", "src/p4est_connectivity.c:p4est_find_corner_transform"]}
{"id": "C60", "title": "Search in a user-defined order", "statement": "p4est_search_reorder passes the roots of the local trees, and for every search quadrant with several leaves below the children that contain leaves, to the reorder callback, and visits exactly those left by it, in its order, unless it returns false. The pre-quadrant callback is called for each search quadrant that some target reaches, then the point callback for the points that reached it in order, then the reorder callback if a target is left, then the search of the children, then the post-quadrant callback; quadrants rejected by the pre-quadrant callback get no further calls. With skip_levels the search quadrants are the leaves and the quadrants at which leaves divide, otherwise all quadrants that contain a leaf. Each call is made exactly once, with the local number of a leaf or -1.", "quantifier": "all local forests, all callbacks with any state, all sets of points, with and without skipping of levels, 2D and 3D", "why_tests_cant": "the callbacks are arbitrary stateful programs that decide the course of the search, over meshes of any depth", "anchors": ["src/p4est_search.c:p4est_search_reorder", "src/p4est_search.c:p4est_reorder_recursion", "src/p4est_search.h:p4est_search_reorder_t"]}
{"id": "C61", "title": "Exchange of the data of ghosts", "statement": "For ghost layers whose tables fit together on all ranks, p4est_ghost_exchange_data, p4est_ghost_exchange_custom and p4est_ghost_exchange_custom_levels (each also as _begin and _end) return on every rank in whatever order the messages arrive. Afterwards the data of each ghost equals the data of the leaf it stands for on the rank that owns it (the user data of this leaf, the pointer itself if the data size is 0, or the mirror data the owner supplied). The version for levels changes only the data of ghosts with a level in the range and needs mirror data only for mirrors with such a level; all other memory is unchanged.", "quantifier": "all numbers of ranks, all forests and neighborhood relations, all data and data sizes, all ranges of levels, all orders of arrival", "why_tests_cant": "the order of arrival is up to the network, and the tables and data are arbitrary; tests see a few runs on few ranks", "anchors": ["src/p4est_ghost.c:p4est_ghost_exchange_data_begin", "src/p4est_ghost.c:p4est_ghost_exchange_custom_begin", "src/p4est_ghost.c:p4est_ghost_exchange_custom_end", "src/p4est_ghost.c:p4est_ghost_exchange_custom_levels_begin", "src/p4est_ghost.c:p4est_ghost_exchange_custom_levels_end"]}
{"id": "C62", "title": "Volume callbacks of an iteration", "statement": "p4est_iterate calls the volume callback, if one is given, exactly once for each local leaf, in the order of the leaves, with the tree and the number of the leaf in this tree, whether a face callback is given or not and with any ghost layer or none. It returns, and calls no callback that was not given.", "quantifier": "all connectivities with consistent faces, all balanced distributed forests, all ranks, all sets of ghosts, 2D and 3D", "why_tests_cant": "the order is that of a recursion over search areas of arbitrary meshes and partitions; tests see a few meshes", "anchors": ["src/p4est_iterate.c:p4est_iterate_ext", "src/p4est_iterate.c:p4est_volume_iterate", "src/p4est_iterate.c:p4est_volume_iterate_simple", "src/p4est_iterate.h:p4est_iter_volume_info_t"]}
{"id": "C63", "title": "Each face of each local leaf is iterated once", "statement": "In all calls of the face callback that p4est_iterate makes on a rank, taken together, each of the faces of each local leaf is listed exactly once.", "quantifier": "all connectivities with consistent faces, all forests balanced across faces and their distributions, all ranks, all sets of ghosts or none, 2D and 3D", "why_tests_cant": "a flux loop that misses or repeats one face is wrong only for some meshes, gluings of trees or partitions; they are unbounded in number", "anchors": ["src/p4est_iterate.c:p4est_iterate_ext", "src/p4est_iterate.c:p4est_face_iterate", "src/p4est_iterate.c:p4est_iter_init_face", "src/p4est_iterate.c:p4est_iter_get_boundaries"]}
{"id": "C64", "title": "What a face callback shows", "statement": "In each call of the face callback the sides are as documented: at the boundary of the domain one side with one leaf; else two sides whose faces are the same set of points, the first with the smaller tree (or face) if they lie in different trees, with the orientation from the connectivity and the mark for faces of trees. At least one side is one leaf; the other is one leaf or the smaller leaves at the face in the order of their corners. Each listed leaf has its number among the local leaves of its tree or its number among the ghosts; an entry is NULL with number -1 and marked as ghost only if no local leaf and no ghost lies there. At least one listed leaf is local.", "quantifier": "all connectivities with consistent faces, all forests balanced across faces and their distributions, all ranks, all sets of ghosts or none, 2D and 3D", "why_tests_cant": "orientations, hanging faces and ghosts combine in arbitrarily many ways", "anchors": ["src/p4est_iterate.h:p4est_iter_face_info_t", "src/p4est_iterate.h:p4est_iter_face_side_t", "src/p4est_iterate.c:p4est_face_iterate", "src/p4est_iterate.c:p4est_iter_init_face_from_volume"]}
{"id": "C65", "title": "Volumes before faces", "statement": "If p4est_iterate is given a volume and a face callback, each call of the face callback comes after the volume callbacks of all the local leaves that it lists.", "quantifier": "all connectivities with consistent faces, all forests balanced across faces and their distributions, all ranks, all sets of ghosts or none, 2D and 3D", "why_tests_cant": "the order is that of a nested recursion over trees and search areas; tests see the order for a few meshes", "anchors": ["src/p4est_iterate.h:p4est_iterate", "src/p4est_iterate.c:p4est_iterate_ext", "src/p4est_iterate.c:p4est_volume_iterate"]}
{"id": "C66", "title": "All neighbors across faces are iterated", "statement": "For each local leaf and each other leaf of the forest with a common part of a face, p4est_iterate with the ghost layer of p4est_ghost_new calls the face callback with both of them, on opposite sides and by the faces that meet. With other ghosts this holds for all leaves that are local or among the ghosts.", "quantifier": "all connectivities with consistent faces, all forests balanced across faces and their distributions, all ranks, 2D and 3D", "why_tests_cant": "a pair of neighbors can be missed for special positions at boundaries of ranks and trees only", "anchors": ["src/p4est_iterate.c:p4est_iterate_ext", "src/p4est_iterate.c:p4est_face_iterate", "src/p4est_ghost.c:p4est_ghost_new"]}
{"id": "C67", "title": "Search in a ghost layer", "statement": "p4est_ghost_bsearch returns the position of the ghost that is equal to the given quadrant, in the given tree and of the given rank if these are given, and -1 if there is none; p4est_ghost_contains does the same for the ghost that contains the quadrant.", "quantifier": "all ghost layers whose ghosts are leaves in the order of the forest, all ranks, trees and valid quadrants, all binary searches that work on sorted arrays", "why_tests_cant": "a search that misses depends on the combination of windows of ranks and trees and on the position of the key among the ghosts", "anchors": ["src/p4est_ghost.h:p4est_ghost_bsearch", "src/p4est_ghost.h:p4est_ghost_contains", "src/p4est_ghost.c:p4est_ghost_check_range"]}
{"id": "C68", "title": "The test for face balance is exact on trees side by side", "statement": "p4est_is_balanced with face connections returns true on all ranks if leaves with a common part of a face differ by at most one level. If the trees lie side by side without rotation it also returns if this is not the case, and then it returns false on all ranks.", "quantifier": "all connectivities with consistent faces, all complete forests and their distributions, 2D and 3D", "why_tests_cant": "the test uses a special ghost layer that must not deadlock for any unbalanced mesh and any partition; tests see a few of them", "anchors": ["src/p4est_extended.h:p4est_is_balanced", "src/p4est_ghost.c:p4est_is_balanced", "src/p4est_ghost.c:p4est_ghost_new_check", "src/p4est_ghost.c:p4est_quadrant_exists"]}
{"id": "C69", "title": "The test for face balance is exact for any gluing", "statement": "p4est_is_balanced with face connections returns on all ranks, and returns true if and only if all leaves with a common part of a face differ by at most one level.", "quantifier": "all connectivities with consistent faces, all complete forests and their distributions, 2D and 3D", "why_tests_cant": "whether a rank waits for a message that is never sent depends on the orientation of a gluing and on where the boundaries of ranks are", "anchors": ["src/p4est_ghost.c:p4est_is_balanced", "src/p4est_ghost.c:p4est_ghost_new_check", "src/p4est_ghost.c:p4est_quadrant_find_owner"]}
{"id": "C70", "title": "The mesh tells the neighbors at each face", "statement": "p4est_mesh_new with face connections on a balanced forest returns, and for each face of each local leaf the entries of quad_to_quad, quad_to_face and quad_to_half tell, as documented, whether the face is on the boundary of the domain or the neighbors have the same, double or half size, which leaves they are, which faces they show, the relative orientation and the subface. Ghosts made with p4est_ghost_new serve for it.", "quantifier": "all connectivities with consistent faces, all complete forests that are balanced over faces, all distributions and ranks, all ghost layers with all neighbors, both options, 2D and 3D", "why_tests_cant": "the entries depend on the gluing, the sizes of the neighbors and the boundaries between ranks; tests look at a few meshes and mostly only that entries are in range", "anchors": ["src/p4est_mesh.h:p4est_mesh_t", "src/p4est_mesh.c:p4est_mesh_new_params", "src/p4est_mesh.c:mesh_iter_face"]}
{"id": "C71", "title": "The mesh tells the owners of ghosts", "statement": "The mesh counts the local leaves and the ghosts, and ghost_to_proc has for each ghost the rank that owns the leaf.", "quantifier": "as C70, also for ranks with a single leaf", "why_tests_cant": "ranks without ghosts in between have to be skipped for all distributions", "anchors": ["src/p4est_mesh.h:p4est_mesh_t", "src/p4est_mesh.c:p4est_mesh_new_params"]}
{"id": "C72", "title": "The mesh tells trees and levels", "statement": "If asked for, quad_to_tree has the tree of each local leaf, and quad_level has for each level the list of the numbers of the local leaves of this level in increasing order.", "quantifier": "as C71", "why_tests_cant": "must hold for every local leaf of every forest", "anchors": ["src/p4est_mesh.h:p4est_mesh_t", "src/p4est_mesh.c:mesh_iter_volume"]}
{"id": "C73", "title": "The iterator over the mesh shows each neighbor once", "statement": "Beginning with p4est_mesh_face_neighbor_init2 for a local leaf, repeated calls of p4est_mesh_face_neighbor_next show face by face exactly the leaves that have a common part of that face, each once, or the leaf itself if the face is on the boundary of the domain, and then return NULL. With each of them come the owner, the number in its tree or among the ghosts and the entry of quad_to_face.", "quantifier": "all local leaves of all meshes as in C70, with and without quad_to_tree", "why_tests_cant": "whether a neighbor is skipped or repeated depends on the mix of sizes around a leaf and on the owners", "anchors": ["src/p4est_mesh.h:p4est_mesh_face_neighbor_next", "src/p4est_mesh.c:p4est_mesh_face_neighbor_init2", "src/p4est_mesh.c:p4est_mesh_face_neighbor_next", "src/p4est_mesh.c:p4est_mesh_quadrant_cumulative"]}
{"id": "C74", "title": "Canonical coordinates identify points of the mesh", "statement": "p4est_connectivity_coordinates_canonicalize takes a point of a tree to the lowest numbered tree that touches it and to the first of its coordinates there along the space filling curve. The result is the same point of the mesh, and two points of trees get the same result exactly if they are the same point of the mesh.", "quantifier": "all meshes of trees with all gluings, all trees, all points of the closed tree, interior, on faces and on corners", "why_tests_cant": "which trees meet at a point depends on the gluing; a tree that is missed or a wrong tie-break splits one point into two for some mesh only", "anchors": ["src/p4est_connectivity.h:p4est_connectivity_coordinates_canonicalize", "src/p4est_connectivity.c:p4est_connectivity_coordinates_canonicalize", "src/p4est_bits.c:p4est_coordinates_transform_face", "src/p4est_bits.c:p4est_coordinates_transform_corner"]}
{"id": "C75", "title": "Neighbor transforms glue trees and can be undone", "statement": "p4est_connectivity_get_neighbor_transforms yields the identity, one transformation for each connected face at the given boundary, and one for each further tree at the given corner. Applied by p4est_neighbor_transform_coordinates, a transformation of a face is the map that glues the two trees together, and that of a corner takes the cube beyond the corner to the neighbor; p4est_neighbor_transform_coordinates_reverse is the inverse on both sides.", "quantifier": "all meshes of trees with all gluings, all faces in two and three dimensions, all corners in two dimensions, all coordinates in and beyond the tree", "why_tests_cant": "there are hundreds of combinations of faces and orientations, and the inverse must hold for all coordinates", "anchors": ["src/p4est_connectivity.h:p4est_connectivity_get_neighbor_transforms", "src/p4est_connectivity.c:p4est_face_transform_to_neighbor_transform", "src/p4est_connectivity.c:p4est_corner_transform_to_neighbor_transform", "src/p4est_connectivity.c:p4est_neighbor_transform_coordinates", "src/p4est_connectivity.c:p4est_neighbor_transform_coordinates_reverse"]}
{"id": "C76", "title": "A brick is the grid of trees that was asked for", "statement": "p4est_connectivity_new_brick (m, n, periodic_a, periodic_b) returns a valid connectivity of m * n trees that are the unit squares of a grid: trees next to each other, also around a periodic direction, are connected by opposite faces without rotation, the other faces are the boundary; the corner tables list exactly the tree corners that are the same inner point of the grid and miss none; each point of the grid is a vertex once, and each tree has the vertices of its square. Its assertions hold and it does not access its arrays out of bounds.", "quantifier": "all positive m and n whose tables can be indexed with 32 bits, all four choices of periodic directions", "why_tests_cant": "the trees are numbered along a curve that depends on the numbers of bits of m and n; each size and periodicity gives other tables", "anchors": ["src/p4est_connectivity.h:p4est_connectivity_new_brick", "src/p4est_connectivity.c:p4est_connectivity_new_brick", "src/p4est_connectivity.c:brick_linear_to_xyz", "src/p4est_connectivity.c:brick_xyz_to_linear"]}
{"id": "C77", "title": "What is written to a data file is read back", "statement": "A file that is written with p4est_file_open_create, p4est_file_write_block and p4est_file_write_field does not depend on the number of ranks, on the partition, on the order in which the ranks write, or on the use of MPI I/O. Opened with p4est_file_open_read on any number of ranks with any partition, p4est_file_read_block and p4est_file_read_field return the blocks, the entries of the quadrants of the calling rank and the user strings, also when some sections are skipped; after the last section a read fails. p4est_file_info lists all the sections with types, sizes and strings.", "quantifier": "all user strings, numbers of quadrants, sequences of blocks and fields of any sizes, partitions on writing and reading, and orders of the writes", "why_tests_cant": "files are portable between all pairs of partitions, and the layout depends on all sizes modulo 16", "anchors": ["src/p4est_io.h:p4est_file_open_create", "src/p4est_io.h:p4est_file_write_block", "src/p4est_io.h:p4est_file_write_field", "src/p4est_io.h:p4est_file_read_block", "src/p4est_io.h:p4est_file_read_field", "src/p4est_io.h:p4est_file_info", "src/p4est_io.c:p4est_file_get_padding_string"]}
{"id": "C78", "title": "Interrupted and truncated data files", "statement": "If a program is interrupted while it writes a section with p4est_file_write_block or p4est_file_write_field, or if the end of a data file is lost, then all the sections before are read as if nothing had happened, p4est_file_info lists exactly them, and an attempt to read or skip the incomplete section fails.", "quantifier": "all files, all sets of pieces of the writes that reached the file before the interruption in any order, without the last byte; all lengths of a truncated file; all ranks and partitions", "why_tests_cant": "crash points and the order in which bytes reach a parallel file system cannot be enumerated", "anchors": ["src/p4est_io.c:p4est_file_write_block", "src/p4est_io.c:p4est_file_write_field", "src/p4est_io.c:p4est_file_read_block_metadata", "src/p4est_io.c:p4est_file_info"]}
{"id": "C79", "title": "A request that does not fit a data file fails with the code for the mismatch", "statement": "If p4est_file_read_block or p4est_file_read_field asks for another kind of section than the next one in the file, or for another size, it returns NULL and the error code tells which of the two it was. p4est_file_open_read returns NULL with an error code for a file of another dimension or another number of quadrants.", "quantifier": "all files, positions in the file, requests, ranks and partitions", "why_tests_cant": "the requests and the contents of the file are unbounded", "anchors": ["src/p4est_io.c:p4est_file_read_block_metadata", "src/p4est_io.c:p4est_file_open_read", "src/p4est_io.c:p4est_file_check_file_metadata"]}
{"id": "C80", "title": "Adaptation follows the marks of the user", "statement": "After calls of p4est_wrap_mark_refine and p4est_wrap_mark_coarsen in any order, the last call for a leaf counts. p4est_wrap_adapt, before it balances the forest, replaces exactly the leaves marked for refinement (not on the finest level) by their children and exactly the families whose leaves are all marked for coarsening by their parent, keeps all other leaves, clears all marks and notices on every process whether anything changed anywhere.", "quantifier": "all forests, dimensions, sequences of marks and numbers of processes", "why_tests_cant": "the marks walk through refinement and coarsening with a counter per leaf; errors show only for particular combinations of marked leaves and families", "anchors": ["src/p4est_wrap.c:p4est_wrap_mark_refine", "src/p4est_wrap.c:p4est_wrap_mark_coarsen", "src/p4est_wrap.c:p4est_wrap_adapt", "src/p4est_wrap.c:refine_callback", "src/p4est_wrap.c:replace_on_refine", "src/p4est_wrap.c:coarsen_callback"]}
{"id": "C81", "title": "The returned value of the adaptation tells whether the leaves have changed", "statement": "p4est_wrap_adapt returns nonzero if and only if the leaves after the call differ from those before it, and there is one cleared mark for every leaf.", "quantifier": "all forests on one process, all marks, any effect of balance, with and without zlib", "why_tests_cant": "the comparison is by a checksum, and two particular forests among all are needed for a collision", "anchors": ["src/p4est_wrap.c:p4est_wrap_adapt"]}
{"id": "C82", "title": "Lists of newly refined and newly coarsened leaves", "statement": "With store_adapted, newly_refined has in ascending order the positions of the first children of exactly the leaves that were refined, and newly_coarsened those of exactly the leaves that replace a family.", "quantifier": "all pairs of forests in which every new leaf is an old leaf, a child of an old leaf or the parent of old leaves; all forests after adaptation by marks", "why_tests_cant": "only levels are compared, and a wrong step would show only for particular sequences of leaves", "anchors": ["src/p4est_wrap.c:p4est_wrap_adapt"]}
{"id": "C83", "title": "Leaves that stay on a process, and the iterator over local leaves", "statement": "p4est_wrap_partition_unchanged returns exactly the range of the leaves that a process has before and after a partition, with their positions after and before. p4est_wrap_leaf_first and p4est_wrap_leaf_next visit every local leaf exactly once and in order, with the right numbers, and with is_mirror set exactly for the mirrors.", "quantifier": "all ranges; all local trees and mirrors", "why_tests_cant": "the ranges and the positions of mirrors are unbounded", "anchors": ["src/p4est_wrap.c:p4est_wrap_partition_unchanged", "src/p4est_wrap.c:p4est_wrap_leaf_first", "src/p4est_wrap.c:p4est_wrap_leaf_next", "src/p4est_wrap.c:p4est_wrap_leaf_info"]}
{"id": "C84", "title": "Trees are connected at the faces that have the same vertices", "statement": "p4est_connectivity_complete gives consistent face tables that connect exactly the different faces of trees with the same vertices; the orientation is the number of the corner of the face with the higher number whose vertex is that of the first corner of the other face. What the face tables connected before is overwritten; periodicity that is not in the list of vertices is lost.", "quantifier": "all numbers of trees and vertices, all lists of vertices in which no three faces have the same ones, all previous contents of the face tables; 2D and 3D", "why_tests_cant": "the faces meet in any order and orientation, and the previous tables are arbitrary", "anchors": ["src/p4est_connectivity.c:p4est_connectivity_complete", "src/p4est_connectivity.c:p4est_conn_face_key", "src/p4est_base.h:p4est_topidx_bsort", "src/p4est_connectivity.h:p4est_connectivity_complete"]}
{"id": "C85", "title": "Trees are connected at the corners that have the same vertex", "statement": "After p4est_connectivity_complete the corner tables are valid. For each corner of each tree, p4est_find_corner_transform and the connections across faces find exactly the other corners of trees with the same vertex. A corner is stored only if two of its trees do not meet across a face.", "quantifier": "all numbers of trees and vertices, all lists of vertices in which no three faces have the same ones; 2D", "why_tests_cant": "any number of trees can meet at a vertex, in any order and partly across faces", "anchors": ["src/p4est_connectivity.c:p4est_connectivity_complete", "src/p4est_connectivity.c:p4est_find_corner_transform", "src/p4est_connectivity.c:p4est_find_corner_transform_internal"]}
{"id": "C86", "title": "Permuting a connectivity renumbers its trees and changes nothing else; reducing removes exactly the corners", "statement": "In two dimensions, p4est_connectivity_permute called with any permutation of the trees of a valid connectivity, in either direction of is_current_to_new, terminates without an access out of bounds and gives a valid connectivity in which tree t has the new number that the permutation says: two tree faces are connected afterwards if and only if the corresponding ones were connected before, with the same orientation, the corner lists and the corner numbers of tree corners correspond, and so do the vertices. p4est_connectivity_reduce keeps faces and vertices and leaves a valid connectivity without corner neighbors beyond those across faces.", "quantifier": "every valid connectivity in two dimensions with vertices, every permutation of its trees, both directions of the map, every content of fresh memory", "why_tests_cant": "A test permutes a handful of connectivities with a handful of permutations, often involutions, for which the two directions of the map agree; only a proof over all permutations separates the renaming of entries from the moving of rows.", "anchors": ["src/p4est_connectivity.c: p4est_connectivity_permute, p4est_connectivity_reduce", "src/p4est_connectivity.h: p4est_connectivity_permute, p4est_connectivity_reduce"]}
{"id": "C87", "title": "Joining faces connects exactly them and finds all corners that come together", "statement": "In two dimensions, p4est_connectivity_join_faces called for two different boundary faces of trees and an orientation terminates without an access out of bounds. Afterwards the two faces are connected in this orientation, all other faces are connected as before, the connectivity is valid, and two corners of trees are at the same point for the connectivity if and only if this follows from the points before and from the new connection. In particular, every valid connectivity between the faces of squares can be built from separate trees by joining faces in any order.", "quantifier": "every connectivity built from separate trees or from vertices and then by joining faces, every number of trees, every pair of different boundary faces, every orientation, every list and order of calls", "why_tests_cant": "Whether corners come together correctly depends on the order of the calls and on what was stored before: the numbers of corners are merged, lists are moved and old lists become empty. A test runs a few orders on a few meshes.", "anchors": ["src/p4est_connectivity.c: p4est_connectivity_join_faces, p4est_connectivity_join_corners, p4est_connectivity_store_corner", "src/p4est_connectivity.h: p4est_connectivity_join_faces"]}
{"id": "C88", "title": "The validity check accepts exactly legal forests", "statement": "p4est_is_valid returns true on all ranks for every legal forest: complete trees distributed in their order over the ranks, with matching counters and positions. If it returns true, then the quadrant counters are consistent, all trees are complete, and all non-local trees are empty.", "quantifier": "every forest on every number of ranks, with any number of trees and leaves and with empty ranks, and every combination of wrong members", "why_tests_cant": "A test shows that some forests are accepted; it cannot show that no legal forest is rejected, nor that nothing wrong is accepted, over all forests and partitions.", "anchors": ["src/p4est_algorithms.c: p4est_is_valid", "src/p4est_algorithms.h: p4est_is_valid", "src/p4est_communication.c: p4est_comm_sync_flag"]}
{"id": "C89", "title": "Comparing forests finds every difference", "statement": "For two legal forests on the same ranks, p4est_is_equal terminates without an access out of bounds. If it returns true on a rank then the leaves of this rank are the same in all trees and, if asked for and the data size is not zero, so is their data. If leaves and data are the same on all ranks then it returns true on all ranks. The result is true only if the connectivities are equal as well.", "quantifier": "every pair of legal forests, every number of ranks and trees, with and without data", "why_tests_cant": "Equality has to be found for all pairs of forests, also where the forests differ only in a tree that is not local or in the number of trees; a test compares a few pairs.", "anchors": ["src/p4est_algorithms.c: p4est_is_equal", "src/p4est_algorithms.h: p4est_is_equal"]}
{"id": "C90", "title": "Whether a quadrant forces another to be divided", "statement": "p4est_balance_seeds (q, p, balance, seeds) returns true exactly if q causes p to split: in every mesh of the trees around that is balanced under the given condition and is as fine as q at the place of q, there is no quadrant that contains p. The quadrants may lie in different trees (given in the coordinates of one of them).", "quantifier": "every pair of quadrants of all levels and positions, inside and outside of the tree, every balance condition in 2D and 3D, with and without the array of seeds", "why_tests_cant": "The answer is computed by bit tricks from the distances, for arbitrary level differences; the claim is about all balanced meshes that contain q, of which there are infinitely many shapes. The test of the project compares random pairs.", "anchors": ["src/p4est_balance.c: p4est_balance_seeds, p4est_balance_seeds_face, p8est_balance_seeds_edge, p4est_balance_seeds_corner", "src/p4est_balance.c: p4est_balance_kernel_1d, p4est_balance_kernel_2d, p8est_balance_kernel_3d_edge, p8est_balance_kernel_3d_face", "src/p4est_balance.h: p4est_balance_seeds"]}
{"id": "C91", "title": "The seeds can replace the quadrant outside", "statement": "If p4est_balance_seeds (q, p, balance, seeds) is called with an array, the quadrants it returns lie in p, are finer than p and not finer than q, and can replace q when p is balanced alone: a quadrant of p is divided in every balanced mesh of p that is as fine as the seeds exactly if it is divided in every balanced mesh of the trees around that is as fine as q.", "quantifier": "every pair of quadrants of all levels and positions, inside and outside of the tree, every balance condition in 2D and 3D", "why_tests_cant": "The seeds stand for an unbounded chain of splits between q and every quadrant of p; a missing or superfluous seed shows only for particular distances and child positions, and the test of the library compares with a recursion on small levels.", "anchors": ["src/p4est_balance.c p4est_balance_seeds", "src/p4est_balance.c p4est_bal_face_con_internal", "src/p4est_balance.c p8est_bal_edge_con_internal", "src/p4est_balance.c p4est_bal_corner_con_internal"]}
{"id": "C92", "title": "Balance along the border of a tree", "statement": "The last step of p4est_balance, for each tree: given the leaves of the tree at its border, the quadrants received from outside and the seeds inside of these leaves, each leaf is replaced by the coarsest balanced division of it that is as fine as the seeds in it; all other leaves stay. The leaves then cover the same part of the tree in order and without overlap. Leaves that stay keep their data, new leaves are initialized by the callback in order, replaced leaves are freed, and the counters of the tree stay consistent. With the seeds of p4est_balance_seeds for some quadrants outside, a leaf is divided exactly as much as these quadrants demand.", "quantifier": "every part of a tree with arbitrary many leaves, every border with arbitrary many entries in any order and with repetitions, every balance condition in 2D and 3D, every callback", "why_tests_cant": "The leaves, the seeds and their order are unbounded; a wrong treatment of repeated or nested seeds, of entries before or after the local part or of the rest of the leaves shows only in particular combinations, and a result that is too fine passes the test for balance.", "anchors": ["src/p4est_algorithms.c p4est_balance_border", "src/p4est_algorithms.c p4est_balance_kernel", "src/p4est.c p4est_balance_ext"]}
{"id": "C93", "title": "Seeds between a quadrant and the leaves around it", "statement": "During p4est_balance each process gets quadrants of other processes and trees and compares them with its own leaves. For each such quadrant it collects seeds in its own leaves that replace the quadrant in exactly the leaves that touch it, and seeds in the quadrant that replace exactly the leaves that do not touch it; the others are left to the owner of the quadrant. So of two quadrants near each other exactly one owner finds each demand. Nothing is collected that the balance condition does not demand, and no array is used behind its end.", "quantifier": "every list of local leaves (arbitrary many) that covers the surroundings of the quadrant, every quadrant inside or outside of the tree at every level, every list of such quadrants, every balance condition in 2D and 3D", "why_tests_cant": "The leaves that matter are found by two binary searches for each of up to 26 positions; the loop skips leaves by a level that it raises on the way. A leaf missed shows only as a missing split far away for particular relative positions and depths, and a superfluous one passes the test for balance.", "anchors": ["src/p4est_algorithms.c p4est_tree_compute_overlap", "src/p4est_balance.c p4est_balance_seeds_face", "src/p4est_balance.c p4est_balance_seeds_corner", "src/p8est_balance.c p8est_balance_seeds_edge", "src/p4est_search.c p4est_find_lower_bound"]}
{"id": "C94", "title": "The removal of superfluous seeds in balance loses nothing", "statement": "The quadrants exchanged between processes during p4est_balance are sorted by tree and position and thinned out before they are sent.  The thinning keeps only given quadrants, in order; of two that are kept in a tree none is inside of the parent of the other; and in every tree, for every domain and every balance condition, what is kept forces exactly the same divisions as what was given.", "quantifier": "every list of legal first children of positive level with tree numbers, of any length and in any order, with or without duplicates; every domain, balance condition and quadrant", "why_tests_cant": "A single dropped seed leaves one leaf too coarse for one particular configuration of processes; the configurations cannot be enumerated.", "anchors": ["src/p4est_algorithms.c: p4est_tree_uniqify_overlap", "src/p4est_bits.c: p4est_quadrant_compare_piggy", "src/p4est.c: p4est_balance_response"]}
{"id": "C95", "title": "The first pass of balance settles everything a process's own leaves require", "statement": "In the first pass of p4est_balance each process balances its part of a tree for itself. Afterwards a quadrant within its part is inside of a leaf exactly if the leaves that the process had before do not require it to be divided, in any balanced mesh of the whole tree, also where this requirement acts by way of the parts of other processes. So nothing more has to be sent back because of a process's own leaves.", "quantifier": "every part of a tree between two positions of the curve, all leaves that cover it at all levels, every balance condition in 2D and 3D, every data initialization and binary search", "why_tests_cant": "A requirement that leaves the part and comes back occurs only for particular shapes of the part and depths of the leaves; for each shape there are infinitely many leaf arrays.", "anchors": ["src/p4est_algorithms.c: p4est_balance_subtree_ext", "src/p4est_algorithms.c: p4est_complete_or_balance_kernel", "src/p4est.c: p4est_balance_ext"]}
{"id": "C96", "title": "Balance of a shared tree is complete, least and independent of the partition", "statement": "When a tree without neighbors is shared by any number of processes, p4est_balance returns on all of them, each process keeps its part of the tree, and all leaves together are the coarsest balanced tree that is as fine as the one before. The leaves of the result do not depend on the number of processes and on how the tree was shared. A leaf that is not divided keeps its data and the counters stay right.", "quantifier": "every complete tree at all levels, every number of processes and every way to share its leaves, face and corner balance in 2D, face and full balance in 3D, every data initialization", "why_tests_cant": "One exchange of quadrants has to be enough for every tree and every partition; a leaf that is not sent, or a seed that is lost, leaves one split missing for one particular combination of depth, position and partition.", "anchors": ["src/p4est.c: p4est_balance_ext", "src/p4est.c: p4est_balance_schedule", "src/p4est.c: p4est_balance_response", "src/p4est_communication.c: p4est_comm_neighborhood_owned", "src/p4est_algorithms.c: p4est_tree_compute_overlap", "src/p4est_algorithms.c: p4est_balance_border"]}
{"id": "C97", "title": "The replace callback of balance sees each division once, from coarse to fine", "statement": "When p4est_balance_ext divides a leaf by several levels, the replace callback is called as if the leaf had been refined step by step: once for each quadrant that is divided and for no other, with this quadrant going out and all of its children coming in. The outgoing quadrant is the old leaf with its data, or a quadrant that came in with an earlier call, with the data that the callback wrote for it; the incoming ones are initialized; each new leaf has the data written when it came in; a leaf that is not divided keeps its data and is not reported. So a quantity that the callback conserves in each call is conserved by balance. The leaves are the same as without the callback.", "quantifier": "all leaves of a tree or a part of it, at all levels, all borders, balance conditions, init and replace callbacks and user states, 2D and 3D; every conserved quantity", "why_tests_cant": "The order of the calls and the temporary quadrants depend on the whole shape of the division of a leaf; there are infinitely many shapes and callbacks.", "anchors": ["src/p4est_algorithms.c: p4est_balance_replace_recursive", "src/p4est_algorithms.c: p4est_complete_or_balance", "src/p4est_algorithms.c: p4est_balance_border", "src/p4est_extended.h: p4est_balance_ext"]}
{"id": "C98", "title": "Shifting a quadrant to a corner gives the leaf that balance needs there", "statement": "p4est_quadrant_touches_corner tells whether a quadrant of the tree contains the cell at the given corner of the tree, or, for the outside, whether an extended quadrant contains the cell diagonally across it. p4est_quadrant_shift_corner ends for every valid quadrant q except the root; its result is a valid quadrant that touches the corner from the inside, and it is the leaf at this corner of the coarsest corner-balanced mesh of the tree that is as fine as q where q is: in every corner-balanced mesh without a leaf properly around q, the leaf at the corner is the result or inside it, and in one such mesh it is the result. For the root an assertion fails, although the documentation allows every valid quadrant.", "quantifier": "all valid quadrants of all levels, all corners, all corner-balanced meshes of the tree, every dimension (2D and 3D)", "why_tests_cant": "The claim compares the result with all balanced meshes of a tree, and the number of steps depends on the position of the quadrant among 2^58 or 2^87.", "anchors": ["src/p4est_bits.c: p4est_quadrant_touches_corner", "src/p4est_bits.c: p4est_quadrant_shift_corner", "src/p4est_bits.h: p4est_quadrant_shift_corner"]}
{"id": "C99", "title": "Shifting an octant to an edge gives what balance needs there", "statement": "p8est_quadrant_touches_edge with inside set tells whether an octant of the tree has a cell at the given edge of the tree; for the outside it tells whether an extended octant has a cell diagonally across the edge. p8est_quadrant_shift_edge ends for every valid octant q except the root; r, rup and rdown are valid octants of the same level that touch the edge from the inside, and r is at the height of q along the edge. In the corner-balanced meshes of the tree that are as fine as q where q is, no octant at the edge of the level of r must be divided, and of the octants at the edge that are one level coarser exactly those from the parent of rdown to the parent of rup must be. So the three octants recreate the effect of q on balance across the edge, as documented. For the root an assertion fails.", "quantifier": "all valid octants of all levels, all twelve edges, all corner-balanced meshes of a tree", "why_tests_cant": "The claim compares the results with all balanced meshes of a tree, and the number of steps depends on the position of the octant among 2^87.", "anchors": ["src/p8est_bits.c: p8est_quadrant_touches_edge", "src/p8est_bits.c: p8est_quadrant_shift_edge", "src/p8est_bits.h: p8est_quadrant_shift_edge"]}
{"id": "C100", "title": "Sharing a face or corner with an ancestor", "statement": "For a quadrant and a proper ancestor of it, p4est_quadrant_is_ancestor_face tells whether the descendant has a cell at the given face of the ancestor, and p4est_quadrant_is_ancestor_corner whether it contains the cell of the ancestor at the given corner; the second holds exactly when the first holds for the faces that meet at the corner. At every finer level exactly one descendant of a quadrant is at a given corner of it.", "quantifier": "all valid quadrants, all their proper ancestors, faces and corners, every dimension (2D and 3D)", "why_tests_cant": "There are 2^58 or 2^87 positions with up to 29 ancestors each.", "anchors": ["src/p4est_bits.c: p4est_quadrant_is_ancestor_face", "src/p4est_bits.c: p4est_quadrant_is_ancestor_corner"]}
{"id": "C101", "title": "Resetting the data initializes every leaf once, in its own block", "statement": "After p4est_reset_data the leaves are the same, the data size and the user pointer are the given ones, and every local leaf has a block of user data of its own in the current pool, or no block and no pool for size zero; when the size does not change the blocks are the old ones. The init callback, if given, has been invoked exactly once for each local leaf, tree by tree and in order, with the new user pointer already set, and the data of each leaf afterwards are what the callback wrote for it: no other call has overwritten them. Without a callback and with the same size the data are kept.", "quantifier": "all forests with consistent data, old and new sizes including zero, callbacks with any user state, user pointers", "why_tests_cant": "Whether two leaves share a block, or a leaf keeps a block of the old pool, depends on the history of the forest and shows only when a callback's write meets another leaf's data.", "anchors": ["src/p4est.c: p4est_reset_data", "src/p4est.h: p4est_reset_data"]}
{"id": "C102", "title": "Transforming an octant across an edge keeps its place along the edge and can be undone", "statement": "p8est_quadrant_transform_edge between a tree and a neighbor across an edge violates no assertion for an octant diagonally across the edge (to be placed inside) or for a valid octant at the edge (to be placed outside). The result has the same level, is a valid octant at the neighbor's edge or an octant diagonally across that edge, respectively, and covers the same positions along the edge, counted from the other end if the two edges run in opposite directions. A node on the edge, and the coordinates of a point of the edge given to p8est_coordinates_transform_edge, go to the same point of the neighbor's edge. The transform back with the other placement returns the original octant.", "quantifier": "all octants of all levels at all positions, both edge numbers, both orientations, both placements, all nodes on the edge", "why_tests_cant": "There are 12 times 12 pairs of edges, two orientations, two placements and an octant at each of up to 2^29 positions; a wrong flip or shift shows only for particular combinations in meshes with such edges.", "anchors": ["src/p8est_bits.c: p8est_quadrant_transform_edge", "src/p8est_bits.c: p8est_coordinates_transform_edge", "src/p8est_bits.h: p8est_quadrant_transform_edge", "src/p8est_connectivity.c: p8est_find_edge_transform_internal"]}
{"id": "C103", "title": "Two connectivities compare equal exactly when all their contents agree", "statement": "For two connectivities whose arrays have the documented lengths, p4est_connectivity_is_equal reads no array past its end, even when the two differ in the sizes of their arrays, and returns true if and only if all numbers, the coordinates of the vertices byte by byte, all trees, faces, edges and corners, and the attributes are the same.", "quantifier": "all pairs of connectivities of any size with arrays as documented, 2D and 3D, with and without vertices, edges, corners and attributes", "why_tests_cant": "A forgotten array or a length taken from the wrong connectivity matters only for pairs that differ exactly there, and a read past the end may go unnoticed.", "anchors": ["src/p4est_connectivity.c: p4est_connectivity_is_equal", "src/p4est_connectivity.h: p4est_connectivity_is_equal"]}
{"id": "C104", "title": "Removing the quadrants not owned keeps exactly the owned ones with their data", "statement": "p4est_tree_remove_nonowned for a tree of which a process owns leaves keeps exactly those stored quadrants whose whole area belongs to the leaves the process owned in this tree, in their order and with their user data. It frees the data of each of the others once, returns their number, subtracts them from the counts per level, and sets the maximum level to that of the quadrants kept, or zero.", "quantifier": "all distributed forests, ranks and trees with leaves of the rank, all lists of quadrants in and around the tree with any data", "why_tests_cant": "The array is compacted in place while it is read, and ownership is decided by comparisons of corner positions with the ends of the process; an error shows only for particular lists at the boundary between two processes.", "anchors": ["src/p4est_algorithms.c: p4est_tree_remove_nonowned", "src/p4est_algorithms.h: p4est_tree_remove_nonowned", "src/p4est_communication.c: p4est_comm_tree_info"]}
