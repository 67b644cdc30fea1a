# Design of the formal model of p4est

The model is in Lean 4 under `lean/Verif/`. Layout:

* `Verif/Model/*.lean`: the code, function by function. Every definition cites file and lines.
* `Verif/Spec/*.lean`: small specifications in terms a user knows (cells, regions, the curve,
  lists of leaves, partitions as intervals). They do not use the model's helpers.
* `Verif/Lemmas/*.lean`: proofs of auxiliary facts.
* `Verif/Props/*.lean`: the property theorems `Cxx_...` and, beside them, examples that meet the hypotheses.
* `seeded/LOG.jsonl`: wrong programs (edits of the model) and the theorems that no longer prove.

## Conventions

* The dimension `d` is a parameter of the quadrant type (`Quad d`, coordinates `Fin d → ℤ`).
  The C code has one source for 2D and 3D (macro `P4_TO_P8`). A theorem for all `d` specialises
  to both. Where the C code is specific to 2 or 3 the model is too.
* `p4est_qcoord_t` is modelled as `ℤ` with two's complement bit operations (`Int.land`, ...).
  On the int32 range these agree with the C operators. Where overflow or unsigned
  reinterpretation matters (`uint32_t`, `uint64_t`, sc_uint128) the model reduces modulo 2^32,
  2^64, 2^128 explicitly. Counts (`p4est_locidx_t`, `p4est_gloidx_t`) are unbounded integers.
* Levels are `ℕ`. The C value -1 written by P4EST_QUADRANT_INIT is not modelled.
* P4EST_ASSERT conditions are preconditions of theorems, not run-time behaviour.
* Loops are structural recursions on the remaining iterations, or `partial_fixpoint` definitions with
  values in `Option`. There `none` stands for an access out of bounds, or for a loop that does not end.
  A theorem `f x = some y` therefore says that the loop ends and stays inside its arrays.
* C arrays are lists with `[i]?`; arrays with uninitialised entries are lists of `Option`, and reading an
  uninitialised entry gives `none`.
* Callbacks are arbitrary functions with a state of arbitrary type: user callbacks may depend on all
  earlier calls.
* Signed division in C is `Int.tdiv`.

## Contracts of code that is not in the tree, or outside the language

* libsc (`sc/`) is an empty submodule in the pinned tree. `sc_array_*`, `sc_bsearch_range`, `sc_array_split`,
  `sc_uint128_*`, `sc_search_lower_bound64`, `sc_list_*`, zlib's `adler32` and
  `adler32_combine` are modelled by their documented contract.
* MPI: Allgather gives every rank all contributions; a message from p to q with a tag is
  matched with the receive that q posts for p with that tag, and the received buffer is the sent buffer.
  A model function that runs all ranks (`transmit`, `collect`, `weightReceive`, `deliver`, ...) returns `none`
  if a receive has no matching message, or a message has no receive, or sizes differ. So `some` includes the
  absence of deadlock from missing messages. Lengths passed as `int` are not restricted.
* Floating point (`p4est_partition_cut_gloidx`, long double): an arbitrary monotone rounding that is exact
  on the integers up to 2^mantissa (`Rounding`); the theorems state the bound on sizes under which the cut is exact.
* Memory: `sc_mempool`, reference counts and the user data pointers are not modelled. The user data of a leaf is a
  value that travels with the leaf.

## Plan for each property

| id | modelled | proof |
|----|----------|-------|
| C01 | coordinates_compare, quadrant_compare with uint32 xor tricks | equivalence to the order of the interleaved index by induction on bits |
| C02-C10, C13-C15, C44 | bit-mask functions of p4est_bits.c, p8est_bits.c | reduce bit operations to division/modulo, then to intervals of the curve |
| C11, C12 | interleaving loops and carry loops | induction on bit count |
| C16, C43 | array checks of p4est_bits.c, p4est_algorithms.c | induction on lists, intervals |
| C17-C21, C45, C46 | refine and coarsen as the in-place/queue algorithm with callback state | invariant over loop steps; refinement to a recursive spec |
| C22 | work-list algorithm of complete_region | measure, interval invariant |
| C23 | two-pointer loop of linearize_tree | induction |
| C24-C26, C47 | binary searches | loop invariant, termination by interval length |
| C27-C29, C48 | owner search, prefix sums, position sweep, neighborhood | loop invariants over ranks |
| C30-C33 | all ranks with their messages | per-rank windows, then the global concatenation |
| C34 | checksum serialisation and the combination over trees and ranks | algebra modulo 65521 |
| C35 | refine_ext and coarsen_ext on all ranks (loops over the local trees, count of all leaves, revision), partition_ext and copy_ext, as operations on one state of all ranks | each operation keeps the forest consistent and cannot both grow and shrink a rank, so the global count tells a change; induction over histories |
| C36 | per-rank loops with set_morton/successor | interval arithmetic |
| C37, C38 | transform arithmetic and tables | finite tables by kernel evaluation, arithmetic for all coordinates |
| C39 | deflate and inflate | list induction |
| C40 | p4est_search_local: the recursion with all callbacks recorded as events | induction on the depth; the calls of a window are those of its top branch and of its parts |
| C51, C52 | p4est_search_partition and p4est_search_all with the ranges of ranks and the calls as events | the ranges by the order of the partition along the curve, then as C40 |
| C53, C54 | p4est_complete_subtree and p4est_balance_subtree: the whole kernel (level lists, binary searches, fill loop) and the merge of the data | the set of families the balance phase reaches, closed under coarse neighbors, is exactly what balance requires (Lemmas/BalanceGeom); the fill loop puts out the coarsest quadrants that respect a sorted list (Lemmas/BalanceFill); data by list induction |
| C41 | union, intersection, balance_self, balance_face of profiles | columns are dyadic intervals, so a finer column splits each layer of a coarser one; list induction over the loops; the passes write the coarsest layers that satisfy the condition in one direction |
| C55 | the profiles of all nodes of the columns, new_local and balance_local on one process with the flags of changed nodes and the counts per element; the lnodes table is any table | invariants over the turns of the loop, a decreasing measure; witness for what does not hold |
| C56 | find_range_boundaries with its tables and both recursions on bit masks; the output arrays are not modelled | induction over levels: a part is touched beyond a cell iff a later sibling lies at it, or the child with the cell does and touches it; exact description of the failing case |
| C57 | ghost_new for CONNECT_FACE: the loops over trees, leaves and faces, test_add, the mirror state machine, the exchange with a receive that may never be served, all offset tables; messages and buffers are lists | the neighbors found for a face are the leaves with cells at the touched face (C14, C27, C56); skipped leaves have none (C48); the state machine computes filters of the leaves; the relation is symmetric, so every receive is served |
| C58 | the corner loop of ghost_new, find_corner_transform and transform_corner in 2D, on top of C57 | a leaf with a common point is found across the face or at the end of it, or by the list of the corner; neighbors across a corner are neighbors of a smallest quadrant across two faces; witnesses for what does not hold |
| C59 | the checks of corner_to_tree, corner_to_corner, ctt_offset and tree_to_corner in is_valid, with the call of find_corner_transform in it | the loops decide the clauses of the specification; witness for an entry out of range |
| C60 | search_reorder and reorder_recursion with all callbacks over a state, every call recorded | the calls of a window are those of its top quadrant and of the parts the reorder callback leaves; induction on the depth; general theorem for the failing case |
| C61 | the three exchanges with their _begin and _end parts on all ranks; messages as lists of bytes, receives that complete in any order; request and buffer tables folded into the receives | closed form of the posted receives and messages by induction over ranks; effect of one receive on the items; the effects of all receives do not depend on the order; combined with C57 and C58 |
| C62-C66 | p4est_iterate with volume and face callbacks: which faces of trees a rank runs, both recursions with the windows of local leaves and ghosts, the record for each call; the cache of tiers, edge and corner callbacks and the remote flag are not modelled | the two sides of a search area are quadrants of one size with the same face, and their windows are the leaves inside; an area ends at a leaf, and balance makes the other side a leaf or its children; counting each (leaf, face) by induction on the depth, then over areas and trees |
| C67-C69 | p4est_ghost_bsearch, p4est_ghost_contains and p4est_is_balanced for P4EST_CONNECT_FACE with the ghost layer of P4EST_GHOST_UNBALANCED_FAIL, its check and early end, p4est_quadrant_find_owner and p4est_quadrant_exists across faces; libsc's searches by contract | which leaf is across a face of a leaf, its parent and its children; in a balanced mesh each small neighbor belongs to one rank, so the messages are symmetric and exactly one of the three searches finds a leaf; a leaf with a neighbor that is two levels smaller fails all three; on unrotated gluings a passed check means that small neighbors belong to one rank |
| C70-C73 | p4est_mesh_new_params for P4EST_CONNECT_FACE (mesh_iter_face, mesh_iter_volume, the tables of owners, trees and levels), p4est_mesh_quadrant_cumulative, p4est_mesh_face_neighbor_init2 and _next; on the model of the iteration of C62-C66 | each call of the face callback fills the entries of the local leaves it shows and no other; the calls show each face of each local leaf once, so at the end each entry is as documented; an entry is then read back: the leaves with the numbers in it are exactly those with a common part of the face; the iterator shows them face by face |
| C74 | p4est_connectivity_coordinates_canonicalize with all loops; in 3D without edges and corners | steps across faces and between listed corners generate the relation "same point"; at a point of an open face two steps lead back, at corners completeness of the tables is the hypothesis; loop invariant: the state is a candidate that is not after any candidate seen |
| C75 | p4est_connectivity_get_neighbor_transforms (self, faces, corners in 2D), p4est_neighbor_transform_coordinates and _reverse | the members written from a face transformation give the closed form of C37; a signed permutation with offsets is inverted by the loop of the reverse function because the axes written are different |
| C76 | p4est_connectivity_new_brick in 2D with both conversions between position and index, both loops, all tables and vertices | the conversions move bits and are inverse to each other and monotone; tree and corner numbers are counts of indices before, so they are bijections; each table entry is written with one value wherever it is written, and all are written; invariant of the vertex loop: each corner before has its vertex, each vertex once |
| C77 | p4est_file_open_create, write_block, write_field, open_read, read_block, read_field (and _ext), info on a file that is a list of bytes; the writes of the ranks in any order | all writes of a section agree with one list of bytes, so their order does not matter; decimal numbers, paddings and strings are parsed back; induction over the sections with an arbitrary rest of the file |
| C78 | the same functions after any pieces of the writes of a section, and on a truncated file | pieces do not touch what is before the section and do not reach its last byte, so that the padding is incomplete |
| C79 | p4est_file_read_block_metadata and p4est_file_check_file_metadata | the header of a section determines its kind and its size |
| C80 | p4est_wrap_mark_refine/mark_coarsen, p4est_wrap_adapt up to coarsening with its callbacks, flags as pairs of Booleans, coarsen_delay zero, no replace_fn | one pass over the calls, then refine (C18) and coarsen (C19) with a state that walks through the flags; the coarsening callback is called once per leaf or family |
| C81 | p4est_wrap_adapt on one process with any function for balance: the returned value | the number of leaves and the checksum depend on the leaves only; a collision of the checksum as a witness |
| C82 | newly_refined and newly_coarsened in p4est_wrap_adapt | old and new leaves are split into pieces: a leaf kept, a leaf and its children, a family and its parent |
| C83 | p4est_wrap_partition_unchanged, p4est_wrap_leaf_first/next/info | arithmetic of ranges; invariant of the position in the mirrors |
| C84 | p4est_connectivity_complete: keys of faces with their bubble sort, hash array as a list, orientation and tables, in 2D and 3D | invariant over the faces treated: partners are connected with each other, all others have their old entries; sorted keys are equal exactly for permutations |
| C85 | p4est_connectivity_complete: lists of corners at each vertex, test for redundant corners, numbers and lists in 2D | invariant over the vertices treated: lists of the accepted vertices are the blocks of the tables; consistency, and C58's description of p4est_find_corner_transform |
| C86 | p4est_connectivity.c permute, reduce (2D) | The renaming loops as folds over positions, `sc_array_permute` by its contract (element `i` moves to position `perm[i]`); lemmas give each entry of the new tables; validity and the renumbering follow by surjectivity of the permutation (`C86_permute_partial`). Without vertices the call fails (`C86_no_vertices`, finding 28). `C86_reduce` for reduce. |
| C87 | p4est_connectivity.c store_corner, join_corners, join_faces (2D) | The functions as written on the lists of the corner tables (sorting, removal of duplicates, the move of one block of the lists by `sc_array_permute` and the shift of offsets), `sc_array_sort`, `sc_array_uniq`, `sc_array_permute` by contract. An invariant: consistent tables in which corners that meet across faces are treated alike (`CornersClosed`). Each step keeps it and changes the relation "at the same point" by one chain link; `C87_build` by induction over the calls from separate trees, `C87_after_complete` for tables computed from vertices. For valid tables that are not closed the claim is false (finding 29), hence `C87_join_partial`. |
| C88 | p4est_algorithms.c is_valid, p4est_communication.c sync_flag | The function as written on the members of the forest of each rank. A small specification of a legal forest (`LegalForest`): complete trees distributed in order, all members described by the leaves. `C88_accepts`: by the curve positions of the segments of the ranks. `C88_sound_partial`, `C88_positions_partial`: what follows from the result true. The full converse is false (finding 30). `describe_legal` builds the members for any distribution. |
| C89 | p4est_algorithms.c is_equal | The function as written; the members of a legal forest are functions of its leaves, so equal leaves give equal members; conversely trees that are not local are empty. Connectivities are not compared (finding 31). |
| C90 | p4est_balance.c: the kernels, con_internal functions and balance_seeds | The functions as written. Specification: meshes are sets of quadrants that cover a box of whole trees; `Divides D k S r`: no balanced mesh of `D` that is as fine as `S` has a quadrant containing `r`. Proved by the coarsest balanced mesh (`SplitAt`: parents, and coarser neighbors of divided quadrants), its description by distances that can be halved with at most `k` roundings at a time (`CanReach`), and closed forms of that for the kernels: maximum, sum, and the carries of `x + y + z - (x or y or z)`. False for a child of `p` (finding 32); without seeds a missing array is used for `q` inside `p` (finding 33). |
| C91 | p4est_balance.c: the arrays `add` of the con_internal functions | The loops over the neighbors of the seed with their tables and the removal of entries, as written. The neighbors are the quadrants besides the nearest one (`besides`); each test finds the nearest quadrant of the level up to which something is forced in there (`SeedOf`). Completeness by moving the source of the chain of halvings into the neighbor that the target is beyond (`Lowered`, `complete_few`), for face balance in 3D with the diagonal that is tested one level coarser. False for edge balance in 3D at an edge (finding 34). |
| C92 | p4est_algorithms.c: balance_border | Sorting and removal of repetitions, the tests against the first and last descendant, the reduced list of seeds, the kernel (C54) inside of one leaf, and the new leaf array, as written, without a replace callback. The specification is that of C90 (`Divides`) for each leaf with the seeds inside of it. Proved by an invariant of the loop over the border: the entries left are sorted, and each is outside of the part, a leaf not yet handled, or inside of a leaf that is still listed. `C92_forced_partial` joins it with C91. |
| C93 | p4est_algorithms.c: tree_compute_overlap | The loop over the 3^d positions around the quadrant, the two searches (C24), the list of leaves already compared (at most 2^d: an access behind it is `none`), the tables from positions to faces, edges and corners, the skipping by level, and the first siblings, as written. The transformation into other trees is a parameter (`emit`). The specification is `Touching` and, as for C90, `Divides`. Proved by: the leaves between the two search results are exactly those inside of the position; the tables agree with the offsets (by evaluation); a seed skipped by level contains one already found; an invariant of the loop over the positions. `C93_forest_partial` is for the whole input. Edge balance in 3D is excepted where C91 fails. |
| C94 | p4est_tree_uniqify_overlap, compare_piggy | `Model/Uniqify`: the sorted array and the loop with the entry written last; proof: by induction over the loop an entry inside of the parent of each given one is kept; sortedness and first children give that none is superfluous. |
| C95 | p4est_balance_subtree as used in the first pass of p4est_balance | The model of C54. The specification is `Divides` (C90) for the whole tree (`TreeBox`). Proved from what the kernel reaches, compared with a run of the same kernel without the ends of the part. |
| C96 | p4est.c: balance_ext within one tree, balance_schedule, balance_response, the merge of the answers; p4est_communication.c: neighborhood_owned | `Model/BalanceExchange`: which leaves are put into the border, to which parts they are sent, both answers (C93, C94), the merged border and the second pass (C92), for all processes at once. Messages arrive unchanged; the owner of a position is found by comparing it with the ends of the parts (C47). Specification: complete, `Balanced`, `AsFineAs`, least. Proved: (1) for quadrants outside of a balanced part its border leaves require as much as all leaves (`HasBorder.enough`, by replacing the part of a mesh inside of the section by the leaves); (2) leaves of two parts of which one acts on the other are known to both sides; (3) C93 shares the work between both sides; (4) the leaves that result are those of the coarsest mesh. |
| C97 | p4est_balance_replace_recursive, and the replace callback in p4est_complete_or_balance and p4est_balance_border | `Model/BalanceReplace`: the recursion with the split array, temporary quadrants as values, the callback as a function that returns the new data of the incoming quadrants. The specification records the calls beside the user state. Proof: induction over the levels below a leaf; the run of the border loop is shared with C92 (`BorderRun`); the calls of both passes are joined (`narrates_trans`). `C96_replace_partial` has the whole of C96 with the callback (`Model/BalanceExchangeReplace`). |
| C98 | p4est_quadrant_touches_corner, p4est_quadrant_shift_corner | `Model/ShiftCorner`: the loop with its tests, assertions as `none`, and the clamps, for both dimensions at once. `Spec/Corner`: the cells at a corner. Proof: the distance of the moved quadrant from the corner, in units of its side, halves and drops by one in each step, so that the level of the result is a formula in the first distance; the same formula says which quadrants at the corner are divided in every corner-balanced mesh (`Forces`, from C90). Finding: the root is a valid quadrant, but the function asserts a positive level. |
| C99 | p8est_quadrant_touches_edge, p8est_quadrant_shift_edge | `Model/ShiftEdge`: the three quadrants of the loop with the tables of siblings and steps, assertions as `none`, and the clamps; `rup` and `rdown` are always computed. `Spec/Corner`: the octants at an edge. Proof: as C98 across the edge; along the edge the numbers of the three quadrants after j steps are closed formulas with floor divisions, which are compared with the distances in `Forces`. The assertions of touches_edge and its use for nodes are not part of the theorems. |
| C100 | p4est_quadrant_is_ancestor_face, p4est_quadrant_is_ancestor_corner | `Model/AncestorFace`: the comparisons, for both dimensions at once. Proof: a descendant is within the ancestor along each axis and the sides divide each other. |
| C101 | p4est_reset_data | `Model/ResetData`: blocks of user data as addresses in numbered pools, the content of all blocks as a function, the loops over the local leaves with allocation and callback. `Spec/ResetData`: what consistent data are, and the calls of the callback in order. Proof: induction over the leaves; a write does not touch the blocks of other leaves because the pointers differ. Trusted: `sc_mempool_alloc` gives a block that is not in use; the callback writes only the block of its quadrant. |
| C102 | p8est_quadrant_transform_edge, p8est_coordinates_transform_edge | `Model/TransformEdge`: the record filled for a neighbor's edge, the coordinates of the result by the axis numbers and the switch over the corners, and the assertions about touching the edges. `Spec/EdgeAlong`: the positions of an octant along an edge, the points of an edge. Proof: the coordinates in terms of the ends of the edge by cases over the 12 edges, the rest by arithmetic for all octants, with C99 for what touching means. Not modelled: which edge neighbors p8est_find_edge_transform finds. |
| C103 | p4est_connectivity_is_equal | `Model/ConnEqual`: the sequence of comparisons, each with the length that the code computes from the first connectivity; a comparison past the end of an array is `none`. `Spec/File`: the documented lengths, as for C50. Proof: test by test; the equality of the offsets makes the lengths of the later arrays agree. Hypothesis besides the lengths: without edges or corners the last offset is zero, as documented. Simplified: bytes of numbers are compared as numbers. |
| C104 | p4est_tree_remove_nonowned | `Model/RemoveNonowned`: the condition of the loop, the loop that moves quadrants to the front of the array with its counters, and the maximum level. `Spec/Owned`: all cells of a quadrant belong to given leaves. Proof: the condition agrees with p4est_comm_is_contained (C27) by the positions on the curve; an invariant over the turns of the loop. Not modelled: the assertions that the stored quadrants are sorted. |
| C42 | p4est_build.c on one rank: new, add (with the callback in force at each call), end of each tree (coarsest fill of a tree without added leaves, completion otherwise) and complete | invariant over the sequence of calls; the fill from C13 and C22, completion from C53 |

C49 (`p4est_comm_count_pertree` on all ranks, by the owner of the first corner of each tree), C50 (bytes of the saved file, parsed back
by list induction) and C43-C48 were added while reading the code.

## What the code does differently from its documentation

Each of these is proved as a theorem about the model with a concrete witness; the property keeps a `_partial`
theorem with the added hypothesis.

1. C06: `p4est_quadrant_is_family` does not check that the first argument is a first child. Its 4 (8) arguments
   may be congruent shifts that are not siblings. `C06_is_family_accepts_non_siblings`, also in 3D.
2. C09: `p4est_quadrant_is_next(q, r)` with `r` smaller than `q` accepts every descendant of the next quadrant, not only
   the first. `C09_is_next_accepts_gap`. Therefore `p4est_tree_is_complete` accepts arrays with holes:
   `C16_is_complete_accepts_hole`.
3. C43: `p4est_quadrant_is_inside_tree` accepts a quadrant that extends beyond the local range.
   `C43_is_inside_tree_accepts_outside`.
4. C46: `p4est_coarsen_ext` with callback_orphans passes members of a rejected family a second time.
   `C46_rejected_seen_twice`.
5. C23: `p4est_linearize_tree` keeps the smallest quadrant and so may uncover area. `C23_linearize_may_uncover`.
6. C25: the documented restriction of `end` to `num_procs - 1` in `p4est_find_partition` is not done.
   `C25_documented_clamp_false`.
7. C48: `p4est_comm_neighborhood_owned` ignores trees that are connected by a corner or edge only.
   `C48_corner_neighborhood_not_owned`.
8. C32: `p4est_partition_for_coarsening` reads `partition_now[-1]` for some requests. `C32_reads_before_array`.
9. C54: `p4est_balance_subtree` is documented to balance a sorted tree and to complete it. If the tree has a gap at the front (or
   the back) of its range the result is complete but need not be balanced, because the number of levels to process is computed
   before the entries for the first and the last descendant are added. `C54_gap_not_balanced`. Callers within p4est pass trees
   without gaps, for which C54 is proved without restriction.
10. C55: `p6est_profile_balance_full`, meant for balance across edges, computes the same as `p6est_profile_balance_face`: its additional
   condition `n >= MAX (nextl, prevl) - 1` always holds for a profile that is balanced in itself, as the function assumes.
   `C55_full_is_face`. Hence `p6est_balance` with P8EST_CONNECT_EDGE or FULL does not balance layers that share an edge.
   `C55_edges_not_balanced`.
11. C55: `p6est_profile_balance_local` (src/p6est_profile.c:756-872) may stop before the columns are balanced. A column that
   has read a change stores the lengths of all its nodes in `enode_counts` (865), also those of nodes that an earlier column has
   changed in the same turn. Such a node was not read unless it was flagged in the turn before (772). In the next turn it is
   flagged, but its length agrees with the stored one, so it is skipped (791). Six columns in a row in a certain order suffice:
   `C55_layers_not_balanced` gives two columns with a common face and the levels 3 and 1 at the bottom, for every balance
   type. In the first two turns nothing is overlooked: `C55_two_turns_partial`.
12. C56: `p4est_find_range_boundaries` (src/p4est_search.c:525-533) is wrong for a range of one cell in a larger quadrant.
    With equal ends the nearest common ancestor has level 29, and the recursion reads child numbers of level 30. In a debug
    build the assertion `lcid < ucid` fails. Otherwise all parts that have an upper side are dropped: the last cell of a tree
    alone reports nothing (`C56_single_cell`, `C56_single_cell_missed`). The caller `p4est_ghost_test_add` admits equal ends: its
    own assertion (src/p4est_ghost.c:1405) is `lq <= uq`. The consequence is that `p4est_ghost_new` may not end: a rank with
    one single leaf of level 29 sends it to the larger neighbor on another rank and waits for the reply, which that rank does
    not send (`C57_ghost_single_cell_waits`: one tree with 88 leaves on five ranks).
13. C58: a consequence of finding 7. `p4est_ghost_new_check` skips the leaves of a rank that owns a whole tree unless they touch
    a connected face of the tree (src/p4est_ghost.c:1550-1560), also for `P4EST_CONNECT_FULL`. If two trees are connected at a
    corner only, their leaves at this corner are missing in the ghost layers (`C58_ghost_corner_missing`), and if one of the trees
    is connected to a third one by a face, its rank waits forever for a message from the other (`C58_ghost_corner_waits`).
14. C59: `p4est_connectivity_is_valid` calls `p4est_find_corner_transform` before it tests that the entry of `tree_to_corner` is in range
    (src/p4est_connectivity.c:1085-1087). An entry beyond `num_corners`, or below -1, makes that function read `ctt_offset` out of bounds;
    in a debug build its assertion fails. `C59_entry_out_of_range`.
15. C60: `p4est_search_reorder` calls the reorder callback with the roots of the local trees and then loops over the number of local
    trees, not over the length of the array the callback leaves (src/p4est_search.c:1062-1066). If the callback drops a root, as its
    documentation explicitly allows (src/p4est_search.h:307-310), the loop reads beyond the end of the array. `C60_trees_dropped`.
16. C63, C66: a consequence of finding 12. `p4est_iter_get_boundaries` finds the faces of trees that a rank has to run with
    `p4est_find_range_boundaries` (src/p4est_iterate.c:2960-2970). A rank with one single leaf of level 29, when the next rank begins in the
    same tree, gets no callback for the faces of this leaf that lie on upper faces of the tree. `C63_single_cell_missed`: one tree with
    88 leaves on three ranks; the face is on the boundary of the domain and no rank gets a call for it.
17. C69: `p4est_is_balanced` can wait forever on an unbalanced forest. To prevent this, the construction of its ghost layer compares the
    owners of the first and of the last smallest quadrant of each small neighbor (src/p4est_ghost.c:1583-1600), but both are taken in the
    coordinates of the sending tree. Across a gluing that reverses a direction the last one there is not the last one in the neighbor
    tree, so different owners in between are not noticed. `C69_unbalanced_waits`: two squares with orientation 1, eight leaves,
    four ranks.
18. C67: `p4est_ghost_bsearch` and `p4est_ghost_contains` allow the tree to be -1 (src/p4est_ghost.h:156,168), but then search an array that is sorted by tree
    first with a comparison that ignores the tree. `C67_unknown_tree_misses`.
19. C70, C73: a consequence of finding 16. On a rank with one single leaf of level 29 `p4est_mesh_new` leaves entries of `quad_to_quad`
    and `quad_to_face` at their first values -1 and -25, which stand for nothing in the documentation. `C70_single_cell_unset`.
20. C74: `p4est_connectivity_coordinates_canonicalize` asks for a valid connectivity and promises the lowest numbered tree touching the point, to
    identify it uniquely. Trees that touch only at a corner are found only through the corner tables, and these may be empty in a valid
    connectivity (p4est_connectivity_reduce). `C74_reduced_fails`: on the periodic unit square without its corner the last
    corner is taken to the second one, and the second to the first.
21. C77: `p4est_file_get_padding_string` adds 17 bytes to a section of 15 modulo 16 bytes. The assertion behind it excludes this; without
    assertions `snprintf` writes the 17 bytes and a zero to arrays of 17 bytes. So a block of 15 bytes can be neither written nor
    read. `C77_size_aborts`.
22. C77: the user string of the file may have 47 characters, and all are written, but `p4est_file_check_file_metadata` copies only 46 (it
    passes the number of characters where the size of the buffer is asked for). `C77_header_string_cut`.
23. C78: the documentation promises that errors are synchronized. If bytes are missing then rank 0 jumps behind a broadcast that
    the other ranks wait in, so that they take the number of bytes or a flag for a code of MPI: rank 0 returns the code for a wrong
    count, the others the one for an unknown error or a wrong format. `C78_cut_partial`, `C78_header_cut`.
24. C79: `p4est_file_open_read` for a forest with another number of quadrants returns NULL with the error code for success, which it takes from
    `p4est_file_close`. `C79_other_count_reports_success`. The same code is returned with MPI I/O if the file is too short for
    a section.
25. C79: after an error of `p4est_file_read_field_ext`, which frees the context, `p4est_file_read_field` reads the context
    (p4est_io.c:1494). `C79_wrong_request_partial`.
26. C81: with zlib, `p4est_wrap_adapt` decides by the number of leaves and the 32-bit checksum of the forest whether
    anything has changed after balance (p4est_wrap.c:770-774). Both can be equal for different forests: a quadtree with 28
    leaves, balanced before and after, of which one leaf is refined and one family coarsened, has the checksum 0x987c0362
    before and after. The function returns 0, and the old ghost layer and mesh stay although the leaves are others. `C81_collision`.
27. C84: `p4est_connectivity_complete` does not reset the face tables: the entries of faces without a partner stay
    (p4est_connectivity.c:3913), although the documentation says that the tables "will be overwritten" and that "periodicity that is not inherent in
    the list of vertices will be lost". `C84_old_links`: a periodic square with four vertices stays periodic. `C84_invalid`: if the tables connect faces
    with different vertices, the result can be inconsistent, and the last assertion fails.
28. C86: `p4est_connectivity_permute` permutes `tree_to_vertex` without a test for NULL (p4est_connectivity.c:4215), which the arrays of corners
    have. A connectivity without vertices is valid, and with a permutation that moves a tree the call accesses a NULL pointer (`C86_no_vertices`).
29. C87: `p4est_connectivity_store_corner` puts only the corners across the two faces at a corner in its list and overwrites their entries
    (p4est_connectivity.c:4499-4602). For a valid connectivity whose corners were reduced, so that three squares around a vertex are
    connected at two faces and no corners are stored, `p4est_connectivity_join_faces` of the remaining two faces stores the corner of the middle
    square twice in one list; `p4est_connectivity_is_valid` rejects the result, which the function itself asserts (`C87_invalid`).
30. C88: `p4est_is_valid` promises complete trees, but it checks the end of the last local tree only and lets a local tree be empty. It accepts
    a forest of two trees in which the first has one leaf on a quarter of its area (`C88_accepts_holes`), a forest with no leaves
    (`C88_accepts_nothing`), and, since only the sum of the counters of the levels is checked, a leaf of level 0 that is counted on level 3
    (`C88_accepts_levels`).
31. C89: `p4est_is_equal` is documented to be true if "forests and their connectivities are equal", but it does not look at the connectivities: two
    legal forests with different valid connectivities are equal (`C89_connectivity_ignored`).
32. C90: `p4est_balance_seeds` returns false if `q` is at most one level finer than `p`. A child of `p` is inside of `p` and causes `p` to split
    (`C90_child_missed`).
33. C90: `seeds` may be NULL, but for `q` inside `p` the function resizes the array without a test (`C90_returns`).
34. C91: with `P8EST_CONNECT_EDGE` and `q` outside of `p` along two axes the seeds do not suffice: a level 7 quadrant causes a level 4 quadrant
    of `p` along the edge to split, the only seed (level 6) does not (`C91_edge_incomplete`).

Seen while reading, not proved: `p4est_quadrant_is_sibling_D` calls parent on the second argument without a check of its
level; the assertion in `p4est_comm_parallel_env_reduce_ext` contains `=`; `p4est_comm_neighborhood_owned` passes the first
corner where it means the last in its second search; `p4est_refine_ext` does not set `maxlevel` if
nothing was refined; `p4est_source_ext` and `p4est_load_mpi` check `retval` after reading the saved partition without assigning it
(p4est.c:3840 and 4150), so a file that ends there is not noticed; the model aborts; `p4est_mesh_new_params` allows `params` to be NULL,
but an assertion before the test for NULL reads `params->btype` (p4est_mesh.c:1270); with MPI I/O `p4est_file_read_field_ext` compares the size of the file with
the data of the calling rank and closes the file collectively, so the ranks can diverge, and the comparison wraps around for files shorter than 176 bytes;
`p4est_connectivity_permute` does not move `tree_to_attr`, so attributes stay with the old numbers of trees;
the test `blevel == plevel - 1` in the functions of p4est_balance.c is never true; there `P4EST_QUADRANT_MASK (blevel - 2)` shifts by 31 for `blevel` 1
(the value is not used).

## Modelled and not modelled

Modelled: p4est_bits.c (all of the quadrant relations, descendants, ids, neighbors, coordinates), p8est_bits.c (edge
functions), p4est_algorithms.c (is_valid, is_equal, tree checks, linearize, complete_region, complete_subtree and
balance_subtree and balance_border with and without replace callback, partition_correction, partition_given), p4est_search.c (bound searches, find_partition, split_array, cumulative search, search_local, search_partition,
search_all, search_reorder, find_range_boundaries without the output arrays), p6est_profile.c (union, intersection, balance and balance_local of profiles),
p4est_balance.c (all of it),
p4est_communication.c (count_quadrants, global_partition, find_owner, is_contained, is_empty, tree_info,
neighborhood_owned, count_pertree, transfer_*), p4est.c (new_ext, copy_ext with data, refine_ext, coarsen_ext, partition_ext, partition_for_coarsening,
checksum), p4est_connectivity.c and p8est_connectivity.c (face tables, face_neighbor_corner, face_neighbor_edge,
expand_face_transform, find_face_transform, face checks of is_valid; in 2D find_corner_transform and the corner checks of is_valid;
coordinates_canonicalize, neighbor transforms, new_brick in 2D, complete in 2D and its faces in 3D, permute, reduce and join_faces in 2D; edge tables and the corners in 3D are not),
p4est_wrap.c (marks, adapt with balance as a parameter and without ghost layer and mesh, newly adapted leaves, partition_unchanged, leaf iterator), p4est_io.c (deflate_quadrants, inflate, the p4est_file_* functions for headers, blocks and fields with successful MPI calls), p4est.c save_ext (the branch without MPI I/O, ranks one after the other) and source_ext,
p4est_connectivity.c sink and source (little-endian bytes; a failed read or write aborts), p4est_build.c,
p4est_ghost.c (ghost_new for connections through faces, and for full connections in 2D; exchange of data; search by rank and tree; is_balanced for faces; expand and the local version are not),
p4est_iterate.c (volume and face callbacks), p4est_mesh.c (mesh_new for faces, quadrant_cumulative, face_neighbor_init2 and _next; corners and edges and get_neighbors are not).

Not modelled: the exchange of quadrants between different trees in balance and their transformation there (the exchange between processes within one tree, the tests, the comparison with the leaves and the last step are modelled: C90 to C96; the MPI calls, the choice of the notification algorithm and the order of messages are not), nodes, lnodes, iterate with edge or corner callbacks, vtk, geometry, plex, MPI start-up, memory management, parallel file
I/O. Statistics and logging output are left out everywhere.

## Trusted base

* Lean's kernel.
* The axioms `propext`, `Classical.choice`, `Quot.sound`. No theorem depends on any other; there is no `sorry`, no
  `native_decide`, no `bv_decide`.
* The correspondence between C and the model definitions, as cited at each definition.
* The contracts listed above.
