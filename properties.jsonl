{"id": "C01", "title": "Index arithmetic is a faithful octree address", "statement": "For every Index i with non-negative coordinates and every octant c in 0..7: i.child(c).parent() == i and i.child(c).which_child() == c; conversely every index of level >= 1 equals parent().child(which_child()); parent(m+n) == parent(m) of parent(n) while the level suffices; distinct children (or children of distinct nodes) are distinct indices.", "quantifier": "all non-negative integer coordinates, all levels, all octants, all ancestor distances", "why_tests_cant": "Infinitely many addresses; every tree walk, key lookup and edge target relies on all of them.", "anchors": ["include/dashmm/index.h: Index::parent, Index::child, Index::which_child"]}
{"id": "C02", "title": "Boxes of the domain geometry tile the domain", "statement": "For every domain geometry and every index, the half-open box [low_from_index, high_from_index) is exactly the disjoint union of its eight child boxes, the centre is the midpoint and is the common corner of the children, and the level-0 box is the whole cube; so at every level each point of the cube lies in exactly one box. (Exact arithmetic.)", "quantifier": "all domains with positive size, all indices, all levels, all points", "why_tests_cant": "A sampled test only sees a few boxes; the claim is about every point and every depth.", "anchors": ["include/dashmm/domaingeometry.h: DomainGeometry::low_from_index, high_from_index, center_from_index, size_from_level", "src/domaingeometry.cc"]}
{"id": "C03", "title": "The cubic domain contains the requested rectangle", "statement": "Constructing a DomainGeometry from a low and high corner with factor >= 1 yields a cube that contains the whole rectangle, has the same centre, and its edge is factor times the longest side.", "quantifier": "all corner pairs with low <= high componentwise, all factors >= 1", "why_tests_cant": "Real-valued, unbounded input space.", "anchors": ["src/domaingeometry.cc: DomainGeometry::DomainGeometry(Point, Point, double)"]}
{"id": "C04", "title": "Buffers never move past their end and are faithful", "statement": "A ReadBuffer/WriteBuffer cursor never passes the end of its buffer under any operation sequence; a write never touches bytes outside the buffer; bytes written by any sequence of successful writes are read back in order by the matching sequence of reads; and an operation reports success exactly when all requested bytes were handled, for every non-empty request.", "quantifier": "all buffer sizes, all sequences of reads, writes and advances of any size", "why_tests_cant": "Unbounded operation histories and sizes.", "anchors": ["include/dashmm/buffer.h: Buffer, ReadBuffer, WriteBuffer"]}
{"id": "C05", "title": "An empty request on an exhausted buffer is a success", "statement": "Reading, writing or skipping zero bytes always reports success, whatever the cursor position.", "quantifier": "all buffers and cursor positions", "why_tests_cant": "Only a corner state (cursor at end) shows the failure; expected to be FALSE of the code.", "anchors": ["include/dashmm/buffer.h: ReadBuffer::advance, WriteBuffer::write"]}
{"id": "C06", "title": "ViewSet::bytes is the exact serialized size", "statement": "For every ViewSet, serialize() into a buffer of exactly bytes() bytes writes exactly bytes() bytes, never more.", "quantifier": "all view sets: any number of views, any view sizes including none", "why_tests_cant": "Unbounded number and sizes of views; every remote expansion contribution depends on it.", "anchors": ["src/viewset.cc: ViewSet::bytes, ViewSet::serialize"]}
{"id": "C07", "title": "ViewSet serialization round-trips", "statement": "interpret() of the bytes produced by serialize() yields the same role, centre, scale, and the same views (index, size and content) in order, with no assertion failing on either side.", "quantifier": "all view sets and all view contents", "why_tests_cant": "Unbounded; and the failing corner (trailing zero-length view in an exact-size buffer) is never tested. Expected FALSE in that corner.", "anchors": ["src/viewset.cc: ViewSet::serialize, ViewSet::interpret", "include/dashmm/expansionlco.h: ExpansionLCO::contribute"]}
{"id": "C08", "title": "ArrayRef::slice yields only in-range sub-arrays", "statement": "slice(offset, n) returns a valid reference only if [offset, offset+n) lies inside the array and then refers to exactly those records; every in-range request succeeds.", "quantifier": "all array lengths, offsets and counts representable in size_t", "why_tests_cant": "The wrap-around corner (offset + n overflowing) cannot be covered by sampling. Expected FALSE for wrap-around requests.", "anchors": ["include/dashmm/arrayref.h: ArrayRef::slice"]}
{"id": "C09", "title": "Array allocation is consistent over ranks", "statement": "After a collective allocate on a fresh array in which rank r asks for c_r records (or hands over a segment of c_r records), count() is c_r on rank r and length() is the sum of all c_r on every rank; all ranks report the same code: success exactly if no rank failed to get memory, in which case every rank holds the handed-over records or default-initialised ones; allocating an already allocated array reports a domain error on every rank and changes nothing.", "quantifier": "all numbers of ranks, all per-rank counts, all orders in which the ranks' contributions arrive", "why_tests_cant": "Every rank count and every reduction order.", "anchors": ["include/dashmm/array.h: Array::allocate, allocate_array_meta_handler, allocate_local_work_handler", "src/reductionops.cc"]}
{"id": "C10", "title": "Array::get returns exactly the requested local range", "statement": "In a collective get(first,last,out) each rank whose range satisfies first <= last <= its local count receives exactly its records first..last-1 in order and nothing else is written; a rank with another range receives nothing; every rank reports success if all ranges were good and a domain error otherwise.", "quantifier": "all numbers of ranks, local segments, first/last per rank, orders in which the ranks' codes are combined", "why_tests_cant": "Unbounded inputs.", "anchors": ["include/dashmm/array.h: Array::get, array_local_get_handler"]}
{"id": "C11", "title": "Array::put overwrites exactly the requested local range", "statement": "put(first,last,in) with first <= last <= local count replaces exactly records first..last-1 by in[0..last-first) and changes no other record, reading nothing beyond in[last-first).", "quantifier": "all local segments, all first/last, all input data", "why_tests_cant": "The range copied by the code is wrong for every first > 0. Expected FALSE; the first == 0 part is provable.", "anchors": ["include/dashmm/array.h: Array::put, put_handler"]}
{"id": "C12", "title": "Array::get after put returns the data", "statement": "put(first,last,d) followed by get(first,last) yields d; records outside [first,last) keep their previous values.", "quantifier": "all segments and ranges", "why_tests_cant": "Unbounded; depends on the previous property.", "anchors": ["include/dashmm/array.h: Array::put, Array::get"]}
{"id": "C13", "title": "Array::collect concatenates the ranks' records in rank order", "statement": "collect() returns, on rank 0, exactly the records of rank 0, then those of rank 1, and so on, each once, whatever order the ranks' messages arrive in.", "quantifier": "all rank counts, all per-rank record lists, all message arrival orders, any serializer that round-trips", "why_tests_cant": "Every arrival order.", "anchors": ["include/dashmm/array.h: Array::collect, collect_request_handler, collect_receive_handler"]}
{"id": "C14", "title": "Array::map applies the action to each record exactly once", "statement": "map with any overdecomposition factor and any number of threads invokes the leaf action on consecutive, non-empty, disjoint chunks which together are exactly all local records, each once; the number of chunk completions equals the number the completion LCO waits for, so map returns exactly when all chunks finished.", "quantifier": "all record counts, thread counts, factors and schedules", "why_tests_cant": "Splitting arithmetic with rounding over all sizes; wrong counts hang or return early only for particular sizes.", "anchors": ["include/dashmm/arrayforeachaction.h: ArrayForEachAction::root_handler, spawn_handler"]}
{"id": "C15", "title": "The Hilbert key is a bijection", "statement": "For every k, the Hilbert key of the cells of a 2^k x 2^k x 2^k grid is a bijection onto [0, 8^k).", "quantifier": "all k and all cells", "why_tests_cant": "Unbounded k; the tables must be permutations in every reachable orientation.", "anchors": ["src/hilbert.cc: hilbert_key"]}
{"id": "C16", "title": "Consecutive Hilbert keys are adjacent cells", "statement": "For every k, the cells with consecutive Hilbert keys share a face, so that each rank's contiguous key range is a connected path of cells.", "quantifier": "all k and all consecutive key pairs", "why_tests_cant": "Unbounded k.", "anchors": ["src/hilbert.cc: hilbert_key, h_transforms"]}
{"id": "C17", "title": "The Morton key interleaves bits injectively", "statement": "For coordinates below 2^21 the Morton key has bit 3i, 3i+1, 3i+2 equal to bit i of x, y, z, hence distinct cells have distinct keys.", "quantifier": "all 63-bit coordinate triples", "why_tests_cant": "2^63 inputs.", "anchors": ["src/hilbert.cc: split, morton_key"]}
{"id": "C18", "title": "Key-space partition assigns every cell a valid rank, in order", "statement": "distribute_points assigns every cell of the uniform grid a rank in [0, ranks) and the ranks are non-decreasing along the curve, so that each rank owns a contiguous range.", "quantifier": "all rank counts, all cell counts", "why_tests_cant": "The code reads before the start of an array or trips an assertion for skewed or sparse counts. Expected FALSE in general; true under a stated condition.", "anchors": ["src/hilbert.cc: partition, distribute_points_hilbert"]}
{"id": "C19", "title": "simple_key enumerates the uniform grid", "statement": "The uniform-grid key x + y*dim + z*dim^2 is a bijection from the dim^3 cells to [0, dim^3); the key computed for a fine index equals the key of its ancestor at the uniform level.", "quantifier": "all dims, all indices", "why_tests_cant": "Unbounded.", "anchors": ["include/dashmm/tree.h: simple_key, Tree::get_unif_grid_index"]}
{"id": "C20", "title": "Every point is assigned to the uniform cell containing it", "statement": "With the computed domain, every input point lies in the closed domain cube, its computed cell coordinates are in range, and the cell's box contains the point (the top face being attributed to the last cell); cell counts sum to the number of points.", "quantifier": "all point sets (of any size and distribution with positive extent), all uniform levels", "why_tests_cant": "Real-valued unbounded input.", "anchors": ["include/dashmm/tree.h: Tree::assign_points_to_unif_grid", "include/dashmm/dualtree.h: DualTree::compute_domain_geometry"]}
{"id": "C21", "title": "Grouping points is a permutation into contiguous cells", "statement": "group_points_on_unif_grid rearranges the records into an order that is a permutation of the input in which cell g's records occupy exactly the contiguous range given by the returned offset and count, for every g.", "quantifier": "all record arrays and cell assignments", "why_tests_cant": "In-place cycle-following permutation; all permutations.", "anchors": ["include/dashmm/tree.h: Tree::group_points_on_unif_grid"]}
{"id": "C22", "title": "Recursive partition builds a correct octree over the points", "statement": "Partitioning a node keeps the multiset of its points, gives each existing child a non-empty contiguous slice with exactly the points in that child's box, leaves are exactly the nodes with at most the refinement limit of points, and the leaves' slices in order tile the node's slice.", "quantifier": "all point sets, all thresholds >= 1, all depths", "why_tests_cant": "Unbounded recursion over real positions.", "anchors": ["include/dashmm/node.h: Node::partition_node_handler, Node::create_children"]}
{"id": "C23", "title": "Tree construction terminates on every input", "statement": "Partitioning terminates for every set of points and every refinement limit >= 1.", "quantifier": "all point sets", "why_tests_cant": "Non-termination only shows for more than `limit` coincident points. Expected FALSE.", "anchors": ["include/dashmm/node.h: Node::partition_node_handler"]}
{"id": "C24", "title": "Compressing and extracting a branch reproduces it", "statement": "Sending a subtree with compress and rebuilding it with extract reproduces every node: same shape, same indices, same parent/child relations; the announced number of nodes equals the number of entries written.", "quantifier": "all subtrees of any depth and shape", "why_tests_cant": "Unbounded recursive structures.", "anchors": ["include/dashmm/node.h: Node::compress, Node::extract, Node::n_descendants"]}
{"id": "C25", "title": "The uniform top tree is complete", "statement": "setup_basics builds exactly one node for every index of level < unif_level and links each uniform grid node, once, under its parent; looking a grid cell up by its index and walking down from the root by child octants reach the same node.", "quantifier": "all uniform levels", "why_tests_cant": "Heap-index arithmetic for all levels.", "anchors": ["include/dashmm/tree.h: Tree::setup_basics, simple_key"]}
{"id": "C26", "title": "Looking up an expansion address walks to the right node", "statement": "For any node in a tree, the walk used to look up its LCO address, driven only by its Index, ends at that node.", "quantifier": "all trees, all node indices", "why_tests_cant": "All shapes and depths.", "anchors": ["include/dashmm/tree.h: Tree::lookup_lco_addx"]}
{"id": "C27", "title": "Pruning removes exactly the empty branches", "statement": "After pruneTopnodes a top-level node other than the root remains in the tree iff some point lies below it, and no node with points is disconnected.", "quantifier": "all point count vectors, all uniform levels", "why_tests_cant": "All emptiness patterns.", "anchors": ["include/dashmm/tree.h: Tree::pruneTopnodes", "include/dashmm/node.h: Node::removeDownwardLinks"]}
{"id": "C28", "title": "Point exchange is order-independent and triggers partitioning once", "statement": "A uniform cell that expects n points from several ranks ends up holding exactly those n points whatever order and interleaving the messages merge in; partitioning of the cell starts exactly once, and only after all its points arrived.", "quantifier": "all numbers of ranks, all message sizes, all arrival interleavings", "why_tests_cant": "All interleavings.", "anchors": ["include/dashmm/tree.h: Tree::merge_points_handler, initPointExchange", "include/dashmm/node.h: Node::increment_first"]}
{"id": "C29", "title": "Point messages fit their parcels and decode to what was sent", "statement": "The exchange message for any cell range fits in the parcel allocated for it and the receiver decodes exactly the sent counts and records.", "quantifier": "all counts per cell, all record lists, all serializers with the stated contract", "why_tests_cant": "All sizes.", "anchors": ["include/dashmm/dualtree.h: DualTree::send_points_handler, recv_points_handler"]}
{"id": "C30", "title": "Tree creation completes exactly once all cells are done", "statement": "The LCO on which tree creation waits receives exactly as many sets as it expects, for every distribution of points over ranks and cells (including empty cells and identical sources and targets).", "quantifier": "all ranks, all counts, all schedules", "why_tests_cant": "All schedules; a miscount hangs or returns early.", "anchors": ["include/dashmm/dualtree.h: DualTree::create_dual_tree_handler, send_points_handler, recv_points_handler"]}
{"id": "C31", "title": "Tree creation returns only after all users of its temporaries finished", "statement": "When create_dual_tree finishes and frees the count and offset arrays, no task that reads them is still pending.", "quantifier": "all schedules and rank counts", "why_tests_cant": "A race on a particular schedule. Expected FALSE (a send with no points may still be pending).", "anchors": ["include/dashmm/dualtree.h: DualTree::create_dual_tree_handler, send_points_handler"]}
{"id": "C32", "title": "DAG bookkeeping: in-counts equal incoming edges", "statement": "Whatever order concurrent tasks link nodes in, every DAG node's input count equals the number of edges that point to it, and no edge is lost or duplicated.", "quantifier": "all interleavings of link operations", "why_tests_cant": "All interleavings.", "anchors": ["include/dashmm/dag.h: DAGInfo::link_nodes, DAGNode::add_in_edge, add_out_edge"]}
{"id": "C33", "title": "Direct method: every target gets every source exactly once", "statement": "For every source and target tree, evaluating the DAG built by Direct delivers to every target leaf the contribution of every source leaf exactly once.", "quantifier": "all pairs of trees, any uniform level", "why_tests_cant": "All tree pairs.", "anchors": ["include/builtins/direct_method.h: Direct", "include/dashmm/dualtree.h: source_apply_method_handler, target_apply_method_handler"]}
{"id": "C34", "title": "Barnes-Hut: every target gets every source exactly once", "statement": "For every source and target tree and whatever the acceptance criterion answers, the DAG built by BH delivers to every target leaf each source leaf's contribution exactly once, either directly or through exactly one multipole.", "quantifier": "all pairs of trees, all outcomes of the acceptance test, any uniform level", "why_tests_cant": "All tree pairs and criteria.", "anchors": ["include/builtins/bh_method.h: BH"]}
{"id": "C35", "title": "FMM: every target gets every source exactly once", "statement": "For every source and target tree, evaluating the DAG built by FMM delivers to every target leaf the contribution of every source leaf exactly once.", "quantifier": "all pairs of trees, all refinement decisions, any uniform level", "why_tests_cant": "All tree pairs.", "anchors": ["include/builtins/fmm_method.h: FMM"]}
{"id": "C36", "title": "FMM97: every target gets every source exactly once", "statement": "For every source and target tree, evaluating the DAG built by FMM97, with the merge-and-shift lists, delivers to every target leaf the contribution of every source leaf exactly once.", "quantifier": "all pairs of trees, all refinement decisions, any uniform level", "why_tests_cant": "All tree pairs; interplay of method and 216-entry table.", "anchors": ["include/builtins/fmm97_method.h: FMM97", "src/merge_shift.cc: merge_and_shift_table", "src/laplace.cc: lap_i_to_i, lap_i_to_l"]}
{"id": "C37", "title": "FMM operators are only applied between well-separated boxes", "statement": "Every M->L, S->L, M->T and I->I/I->L interaction generated by FMM/FMM97 is between boxes that are separated by at least one box of the smaller box's size; S->T is used otherwise.", "quantifier": "all pairs of trees", "why_tests_cant": "All tree pairs.", "anchors": ["include/builtins/fmm_method.h: FMM::process, well_sep_test, well_sep_test_asymmetric, proc_coll_recur", "include/builtins/fmm97_method.h"]}
{"id": "C38", "title": "DAG construction never trips its assertions", "statement": "With Direct, BH, FMM and FMM97 no edge is linked from or to a DAG node that was not created, and no DAG node is created twice.", "quantifier": "all pairs of trees, any uniform level", "why_tests_cant": "All tree pairs.", "anchors": ["include/dashmm/dag.h: DAGInfo::StoM ... ItoL, add_normal, add_interm, add_parts"]}
{"id": "C39", "title": "Target traversal partitions the targets", "statement": "The DAG target leaves partition the target points: every target-tree leaf lies under exactly one target node that received a particle DAG node.", "quantifier": "all target trees, all refinement outcomes", "why_tests_cant": "All trees.", "anchors": ["include/dashmm/dualtree.h: DualTree::target_apply_method_handler"]}
{"id": "C40", "title": "Barnes-Hut acceptance is valid for every point of the target box", "statement": "If the BH acceptance test accepts an expansion for a target node, then size/distance < theta for every point in that target's box.", "quantifier": "all boxes, all theta, all points", "why_tests_cant": "Real-valued. Expected FALSE: the 'nearest' point is taken on the wrong face when the expansion lies on the low side.", "anchors": ["include/builtins/bh_method.h: BH::nearest, BH::MAC"]}
{"id": "C41", "title": "Merge-and-shift lists translate by the exact displacement", "statement": "For each source child offset and each target child: the child's local expansion receives the source exactly once if the two are well separated and never otherwise, and the total translation applied equals the true displacement between the two boxes, in the frame of the direction used; all shift-table subscripts are in range.", "quantifier": "the full table: all 208 offsets times 8 children", "why_tests_cant": "Finite but the test suite only checks end accuracy.", "anchors": ["src/merge_shift.cc", "src/laplace.cc: lap_i_to_i, lap_i_to_l, lap_e_to_e"]}
{"id": "C42", "title": "Every DAG edge fires exactly once, and only after its source is final", "statement": "In any execution of any DAG, each edge's operation is applied at most once, only after all inputs of its source were accumulated; in a completed execution each edge was applied exactly once.", "quantifier": "all DAGs, all schedules", "why_tests_cant": "All schedules.", "anchors": ["include/dashmm/expansionlco.h: ExpansionLCO", "include/dashmm/targetlco.h: TargetLCO"]}
{"id": "C43", "title": "The result does not depend on the schedule", "statement": "Any two complete executions of the same DAG, in any order and with any placement of nodes on ranks, leave the same values in every target (contributions being accumulated with a commutative, associative addition).", "quantifier": "all DAGs, all pairs of schedules, all distributions", "why_tests_cant": "All schedules.", "anchors": ["include/dashmm/expansionlco.h: ExpansionLCO::operation_handler, spawn_out_edges", "include/dashmm/targetlco.h"]}
{"id": "C44", "title": "Evaluation always completes", "statement": "Starting from the source leaves, every schedule of the DAG reaches a state in which every node has triggered, so that the termination detection fires.", "quantifier": "all DAGs produced by the methods", "why_tests_cant": "Expected FALSE: a node without inputs (e.g. an FMM local expansion nobody contributes to) never triggers and evaluate() hangs; provable when every non-source node has an input.", "anchors": ["include/dashmm/expansionlco.h: ExpansionLCO::init_handler, predicate_handler", "include/dashmm/dualtree.h: termination_detection_handler"]}
{"id": "C45", "title": "Termination is signalled only after all work", "statement": "The evaluation's completion fires only when every target and internal node assigned to the locality has triggered.", "quantifier": "all node sets, all splits into local and remote nodes, all orders", "why_tests_cant": "All orders.", "anchors": ["include/dashmm/dualtree.h: DualTree::setup_termination_detection, termination_detection_handler"]}
{"id": "C46", "title": "Edges are delivered to the owning rank, in one message per rank", "statement": "Grouping a node's outgoing edges processes every edge exactly once: those on the local rank directly, and for each remote rank exactly one message with all and only the edges to that rank.", "quantifier": "all edge lists, all localities", "why_tests_cant": "All edge lists.", "anchors": ["include/dashmm/expansionlco.h: ExpansionLCO::spawn_out_edges_handler", "include/dashmm/dualtree.h: instigate_dag_eval"]}
{"id": "C47", "title": "Every DAG node is placed on exactly one existing rank", "statement": "After compute_distribution with the BH, FMM97, single-locality or random policy no assertion has failed, every DAG node has a locality in [0, ranks), nodes already placed keep their place, sources and targets sit on the rank that owns their points, each source leaf's S->M edge stays on one rank, and (BH, FMM97) every other node sits on the first rank that receives the largest weight of its output.", "quantifier": "all source and target trees whose source leaves lie at or below the uniform level, the four methods, all schedules of the tasks that make the DAG, all results of the unstable sort, all rank counts, all edge weights", "why_tests_cant": "The trees, schedules, sort results and weights are unbounded.", "anchors": ["src/bhdistro.cc: BHDistro::compute_distribution", "src/fmm97distro.cc", "src/singlelocdistro.cc", "src/randomdistro.cc"]}
{"id": "C48", "title": "Work is split over workers without gaps or overlap", "statement": "Starting the DAG and resetting the LCOs splits the local nodes among workers in consecutive ranges which tile [0,count), and the number of completions equals the number waited for.", "quantifier": "all counts, all worker numbers", "why_tests_cant": "Rounding corner cases for all sizes.", "anchors": ["include/dashmm/dualtree.h: DualTree::start_DAG_evaluation", "include/dashmm/evaluator.h: Evaluator::reset_something_LCOs"]}
{"id": "C49", "title": "Resetting a DAG allows an identical second evaluation", "statement": "After reset, executing the same DAG again on the same data yields the same values as the first execution, for any schedules of the two.", "quantifier": "all DAGs, all schedules, any number of repetitions", "why_tests_cant": "All histories.", "anchors": ["include/dashmm/evaluator.h: Evaluator::reset_DAG", "include/dashmm/expansionlco.h: ExpansionLCO::reset", "include/dashmm/targetlco.h: TargetLCO::reset"]}
{"id": "C50", "title": "Reductions compute sum and maximum regardless of order", "statement": "The reductions used for counts and return codes yield the element-wise sum or maximum of all contributions, in any order and any association.", "quantifier": "all contribution vectors, all orders", "why_tests_cant": "All orders.", "anchors": ["src/reductionops.cc"]}
{"id": "C51", "title": "Centre-of-mass moments aggregate exactly", "statement": "The monopole, centre of mass and quadrupole obtained by generating moments for leaves and merging them up any tree, contributions arriving in any order, equal those of all sources taken at once (exact arithmetic): for LaplaceCOM whenever all charges are positive (or, with charges of both signs, whenever the result is finite), for LaplaceCOMAcc whenever no charge is negative. A leaf of total charge zero makes every LaplaceCOM ancestor non-finite.", "quantifier": "all source sets, all merge trees, all arrival orders", "why_tests_cant": "Real-valued, all tree shapes.", "anchors": ["include/builtins/laplace_com.h: LaplaceCOM::S_to_M, add_expansion", "include/builtins/laplace_com_acc.h: LaplaceCOMAcc::S_to_M, add_expansion"]}
{"id": "C52", "title": "Coefficient index maps are gap-free packings", "statement": "midx, lidx, sidx, hidx and didx map their index ranges one-to-one onto an initial segment of the naturals, so coefficient arrays of the documented length are neither overrun nor overlapping.", "quantifier": "all expansion orders", "why_tests_cant": "All orders p.", "anchors": ["include/builtins/special_function.h: midx, lidx, sidx, didx, hidx"]}
{"id": "C53", "title": "The rotation table key comparison is a strict weak order", "statement": "The comparison used as ordering of the rotation-matrix maps is irreflexive, transitive and has transitive incomparability.", "quantifier": "all pairs/triples of keys", "why_tests_cant": "Real-valued.", "anchors": ["include/builtins/builtin_table.h or laplace_table.h: builtin_cmp"]}
{"id": "C54", "title": "Freeing a received branch frees its allocation", "statement": "The pointer passed to delete[] for a received remote branch is the beginning of the block allocated when it was received, for every branch shape.", "quantifier": "all branch shapes", "why_tests_cant": "All shapes.", "anchors": ["include/dashmm/tree.h: Tree::destroy_handler / delete remote branch", "include/dashmm/node.h: Node::compress, extract"]}
{"id": "C55", "title": "Results do not depend on whether assertions are compiled in", "statement": "Disabling assertions (NDEBUG) does not change the DAG that is built.", "quantifier": "all trees and methods", "why_tests_cant": "Build-configuration dependent. Expected FALSE: the nodes are created inside assert().", "anchors": ["include/builtins/fmm_method.h: FMM::generate", "include/builtins/bh_method.h: BH::generate"]}
{"id": "C56", "title": "All ranks agree on where every DAG node is placed", "statement": "Each rank builds its own copy of the DAG and runs the distribution policy on it; for each of the four policies, all ranks compute the same DAG nodes and the same locality for every DAG node, whatever the order of their tasks and whatever order the unstable sort leaves equal colours in (same seed for the random policy).", "quantifier": "all trees, the four methods, all pairs of schedules and of sort results, all rank counts and weights", "why_tests_cant": "Pairs of schedules on different ranks are unbounded, and disagreement shows only as a rare hang or lost contribution.", "anchors": ["include/dashmm/evaluator.h: evaluate_handler", "include/dashmm/dualtree.h: collect_DAG_nodes", "src/bhdistro.cc: BHDistro::compute_distribution", "src/fmm97distro.cc: FMM97Distro::compute_distribution", "src/randomdistro.cc"]}
{"id": "C57", "title": "The distribution of points over ranks is balanced", "statement": "For every q, the number of points distribute_points puts on ranks below q is at least as close to q equal shares (floor(total/ranks)*q) as what any other contiguous initial piece of the space filling curve holds.", "quantifier": "all rank counts, all grid levels, all cell counts", "why_tests_cant": "Every count vector and every alternative cut.", "anchors": ["src/hilbert.cc: partition, distribute_points_hilbert"]}
{"id": "C58", "title": "Identical sources and targets give identical trees", "statement": "When sources and targets are the same array, building the target tree after the source tree moves no record, never looks for a split point in a range that has none, and ends with exactly the source tree's nodes and slices.", "quantifier": "every set of points, threshold, and every pair of schedules of the two trees' partition tasks", "why_tests_cant": "a test sees one schedule and one point set", "anchors": ["include/dashmm/node.h:443-536 partition_node_handler (same_sandt)", "include/dashmm/tree.h merge_points_same_s_and_t"]}
{"id": "C59", "title": "A cell signals completion exactly when its branch is built", "statement": "The completion of a grid cell never receives more inputs than it was made for, is not signalled while any partition task of the branch is outstanding, and is always signalled in the end (if partitioning ends).", "quantifier": "every set of points, threshold and schedule of partition tasks", "why_tests_cant": "depends on all interleavings of tasks", "anchors": ["include/dashmm/node.h:443-536 partition_node_handler", "include/dashmm/node.h add_completion"]}
{"id": "C60", "title": "A LaplaceCOM expansion evaluates the potential to quadrupole order", "statement": "If an expansion holds the moments of sources within distance a of its centre, the value M_to_T adds to the potential of a target at distance r > a differs from the exact potential by at most a constant times the total absolute charge times a^3/(r^3(r-a)).", "quantifier": "all source sets, charges, targets outside the ball", "why_tests_cant": "Real-valued; an error of the size of the quadrupole term hides in the tolerance of accuracy tests. FALSE of the code: the quadrupole term has the wrong sign.", "anchors": ["include/builtins/laplace_com.h: LaplaceCOM::M_to_T"]}
{"id": "C61", "title": "A LaplaceCOMAcc expansion evaluates the field to quadrupole order", "statement": "If an expansion holds the moments of sources within distance a of its centre, what M_to_T adds to each component of the acceleration of a target at distance r > a differs from the exact field by at most 76 times the total absolute charge times a^3/(r^2(r-a)^3), and nothing else about the target changes.", "quantifier": "all source sets, charges, targets outside the ball", "why_tests_cant": "Real-valued, all configurations.", "anchors": ["include/builtins/laplace_com_acc.h: LaplaceCOMAcc::M_to_T"]}
{"id": "C62", "title": "Direct evaluation is the exact sum over sources", "statement": "S_to_T of LaplaceCOM and LaplaceCOMAcc adds to every target the exact potential (field) of the given sources, leaving out sources at the target's own position; presenting the sources in pieces and in any order gives the same result.", "quantifier": "all sources, targets, partitions of the sources into calls", "why_tests_cant": "All configurations and orders.", "anchors": ["include/builtins/laplace_com.h: LaplaceCOM::S_to_T", "include/builtins/laplace_com_acc.h: LaplaceCOMAcc::S_to_T"]}
{"id": "C63", "title": "Laplace expansions at the box centre", "statement": "A source placed exactly at the centre of the box in which it is expanded, or a target placed exactly at the centre of the box whose local expansion it evaluates, makes the result not-a-number (a defect: 0.0/0.0 in the computation of the azimuth); for all other positions the operators yield numbers.", "quantifier": "all positions, charges, scales", "why_tests_cant": "Coincidence with a box centre has probability zero for random points, so random tests do not hit it.", "anchors": ["src/laplace.cc: lap_s_to_m, lap_s_to_l, lap_m_to_m, lap_l_to_l, lap_m_to_t, lap_l_to_t", "include/builtins/laplace.h: Laplace"]}
{"id": "C64", "title": "M_to_M is exact", "statement": "For every domain, box, child octant and set of sources, shifting the multipole expansion from the child to the parent yields exactly (in exact arithmetic) the expansion of the same sources formed directly about the parent's centre at the parent's scale, at all orders; the contributions of the eight children add up to the expansion of all sources.", "quantifier": "all domains, boxes, octants, sources, orders", "why_tests_cant": "Numerical tests compare end results within a tolerance, where a wrong high-order coefficient disappears.", "anchors": ["src/laplace.cc: lap_s_to_m, lap_s_to_l, lap_m_to_m, lap_l_to_l, lap_m_to_t, lap_l_to_t", "include/builtins/laplace.h: Laplace", "src/laplace_table.cc: generate_dmatrix_of_beta"]}
{"id": "C65", "title": "L_to_L is exact", "statement": "Shifting a local expansion from a box to any of its children does not change the potential any target obtains from it.", "quantifier": "all domains, boxes, octants, expansions, targets, orders", "why_tests_cant": "All octants times all coefficients times all targets.", "anchors": ["src/laplace.cc: lap_s_to_m, lap_s_to_l, lap_m_to_m, lap_l_to_l, lap_m_to_t, lap_l_to_t", "include/builtins/laplace.h: Laplace"]}
{"id": "C66", "title": "Error bound of a multipole expansion", "statement": "Evaluating the multipole expansion of order p of sources at a target farther from the centre than each source gives the potential up to sum |q| (|s-c|/|t-c|)^(p+1)/(|t-c|-|s-c|).", "quantifier": "all sources, targets, centres, scales, orders", "why_tests_cant": "A test sees one configuration; the bound is for all.", "anchors": ["src/laplace.cc: lap_s_to_m, lap_s_to_l, lap_m_to_m, lap_l_to_l, lap_m_to_t, lap_l_to_t", "include/builtins/laplace.h: Laplace"]}
{"id": "C67", "title": "Error bound of a local expansion", "statement": "Evaluating the local expansion of order p formed from sources at a target nearer to the centre than each source gives the potential up to sum |q| (|t-c|/|s-c|)^(p+1)/(|s-c|-|t-c|).", "quantifier": "all sources, targets, centres, scales, orders", "why_tests_cant": "As C66.", "anchors": ["src/laplace.cc: lap_s_to_m, lap_s_to_l, lap_m_to_m, lap_l_to_l, lap_m_to_t, lap_l_to_t", "include/builtins/laplace.h: Laplace"]}
{"id": "C68", "title": "Error bound of M_to_L", "statement": "Forming the multipole expansion in a box, translating it by M_to_L to any box of the same level far enough away and evaluating there gives the potential up to sum |q| ((a/(d-b))^(p+1)+(b/(d-a))^(p+1))/(d-a-b), a, b, d the distances of source and target from their centres and of the centres.", "quantifier": "all domains, pairs of boxes of equal level, sources, targets, orders", "why_tests_cant": "All offsets (rotation angles) times all configurations.", "anchors": ["src/laplace.cc: lap_s_to_m, lap_s_to_l, lap_m_to_m, lap_l_to_l, lap_m_to_t, lap_l_to_t", "include/builtins/laplace.h: Laplace", "include/builtins/laplace.h: M_to_L, M_to_L_zp, M_to_L_zm"]}
{"id": "C69", "title": "Shifts do not add error", "statement": "Any number of M_to_M up from a source leaf, an M_to_L, and any number of L_to_L down to a target leaf give the error of the M_to_L alone; the same for multipole expansions evaluated after any number of M_to_M and local expansions after any number of L_to_L.", "quantifier": "all depths, paths, sources, targets, orders", "why_tests_cant": "Unbounded depth.", "anchors": ["src/laplace.cc: lap_s_to_m, lap_s_to_l, lap_m_to_m, lap_l_to_l, lap_m_to_t, lap_l_to_t", "include/builtins/laplace.h: Laplace"]}
{"id": "C70", "title": "S_to_T is the sum over the other sources", "statement": "The direct interaction yields the sum of q/|t-s| over all sources not at the target's position, whatever their order and division into leaves.", "quantifier": "all sources and targets", "why_tests_cant": "All inputs.", "anchors": ["include/builtins/laplace.h: S_to_T"]}
{"id": "C71", "title": "Rotations and tables", "statement": "The tables hold the square roots of factorials and binomial coefficients; rotating an expansion by the precomputed matrices yields the expansion of the rotated sources, and the matrix of the opposite angle undoes it.", "quantifier": "all orders, angles, sources", "why_tests_cant": "The recurrences are tested only through end results.", "anchors": ["src/laplace_table.cc: generate_sqf, generate_sqbinom, generate_dmatrix_of_beta", "src/laplace.cc: lap_rotate_sph_z, lap_rotate_sph_y", "src/special_function.cc: legendre_Plm"]}
{"id": "C72", "title": "FMM with the Laplace kernel is accurate", "statement": "When an evaluation with FMM and the Laplace kernel has ended, every target holds its initial value plus its potential with an error of at most 2(2+sqrt 3)^2 (sqrt3/(4-sqrt3))^(p+1) < 28*0.765^(p+1) times the potential of the absolute charges, where p is the order of the expansions.", "quantifier": "all source and target trees, all positions in the boxes that are not at (or vertically too near) a centre, all charges, orders, numbers of ranks, placements of nodes and schedules", "why_tests_cant": "The error depends on all positions and charges; tests compare a few random distributions with direct sums.", "anchors": ["include/builtins/fmm_method.h", "include/builtins/laplace.h", "src/laplace.cc", "include/dashmm/dualtree.h: create_DAG, execute_DAG"]}
{"id": "C73", "title": "Direct with the Laplace kernel is exact", "statement": "When an evaluation with Direct and the Laplace kernel has ended, every target holds its initial value plus exactly its potential (in real arithmetic), with no contribution of sources at its own position.", "quantifier": "all trees, positions, charges, ranks, placements and schedules", "why_tests_cant": "A lost or doubled pair depends on the schedule and on the tree.", "anchors": ["include/builtins/direct_method.h", "include/builtins/laplace.h: S_to_T"]}
{"id": "C74", "title": "Barnes-Hut with the Laplace kernel is accurate", "statement": "If every source of an accepted box is nearer to its centre than k times any position in the accepting box (k < 1), then when an evaluation has ended the error at each target is at most k^(p+1)(1+k)/(1-k) times the potential of the absolute charges.", "quantifier": "all trees, acceptance criteria, positions, charges, orders, ranks, placements and schedules", "why_tests_cant": "The error depends on all positions and charges, and on which boxes are accepted.", "anchors": ["include/builtins/bh_method.h", "include/builtins/laplace.h", "src/laplace.cc"]}
{"id": "C75", "title": "The plane-wave operators apply the quadrature rule", "statement": "For charges in a box, a box of the level above at an offset that occurs in FMM97, and a child of it: M_to_I, I_to_I, I_to_L and L_to_T give a target in the child, if the child is separated from the source box, exactly the sum over the charges of the exponential quadrature rule in the frame of one of six directions in which the child is two or three boxes ahead, and nothing if it is not separated. If the rule has the relative error e, the error at the target is at most e times the potential of the absolute charges.", "quantifier": "all rules with even numbers of angles, orders, domains, source boxes and target boxes with offsets -2..3, children, charges and positions not at a centre", "why_tests_cant": "There are 216 offsets times 8 children, with merged lists, rotations and shifts for each; tests see only the total of a few distributions.", "anchors": ["src/laplace.cc: lap_m_to_i, lap_i_to_i, lap_i_to_l, lap_e_to_e, lap_e_to_l", "include/builtins/laplace.h: M_to_I, I_to_I, I_to_L"]}
{"id": "C76", "title": "Layout of the plane-wave tables and expansions", "statement": "The literals of the tables for 3, 6 and 9 digits agree (offsets sm_ and smf_, number nexp_, lengths, even numbers of angles); every place that is computed for xs_, ys_, zs_, lambdaknm_, ealphaj_ and an exponential expansion is within the array and holds the entry meant; the shift reads no array out of range. The constructor makes the table for the wanted digits for 3 and 9; for 6 digits it makes the table for 9 and loses the other (a missing break); for other numbers it makes none.", "quantifier": "all entries, shifts and orders; all numbers of digits", "why_tests_cant": "A wrong offset reads a neighbouring entry and only lowers the accuracy a little.", "anchors": ["src/laplace_table.cc: LaplaceTable::LaplaceTable, generate_xs, generate_ys, generate_zs, generate_lambdaknm, generate_ealphaj", "src/laplace.cc: lap_e_to_e"]}
{"id": "C77", "title": "FMM97 with the Laplace kernel is accurate", "statement": "When an evaluation with FMM97 and the Laplace kernel has ended, every target holds its initial value plus its potential with an error of at most max(2(2+sqrt 3)^2 (sqrt3/(4-sqrt3))^(p+1), e) times the potential of the absolute charges, where p is the order of the expansions and e the relative error of the quadrature rule for boxes two or three apart.", "quantifier": "all source and target trees, all positions in the boxes that are not at (or vertically too near) a centre, all charges, orders, rules with even numbers of angles, numbers of ranks, placements of nodes and schedules", "why_tests_cant": "The error depends on all positions and charges; tests compare a few random distributions with direct sums.", "anchors": ["include/builtins/fmm97_method.h", "include/builtins/laplace.h", "src/laplace.cc", "include/dashmm/dualtree.h: create_DAG, execute_DAG"]}
{"id": "C78", "title": "Construction of a tree, end to end", "statement": "For any records of the ranks with at most `threshold` in one place: when all branches are finished and received, pruning the top succeeds and what hangs at the root of a tree is exactly the tree that the counts of points in boxes ask for (a box is there iff it holds points and no box above it, from the uniform level on, holds at most `threshold`); every node from the uniform level on holds exactly the records of its box, every record is in exactly one leaf, and all ranks have the same tree, in whatever order the tasks ran and the branches arrived.", "quantifier": "all domains, records, thresholds, uniform levels, distributions of the cells over ranks, orders of the tasks and of the arrival of branches, addresses of blocks that do not overlap", "why_tests_cant": "The steps (grid, grouping, exchange, division by tasks, serialisation, pruning) are each tested on few inputs if at all; that they fit together for all inputs and schedules is not testable.", "anchors": ["include/dashmm/dualtree.h: create_from_LCO, prune_topnodes", "include/dashmm/tree.h: setup_basics, recv_node, send_node", "include/dashmm/node.h: partition", "src/domaingeometry.cc"]}
{"id": "C79", "title": "An evaluation, from the arrays of the ranks to the results", "statement": "For any arrays of sources and targets on any number of ranks, not all in one place: with the domain the ranks agree on and the two trees constructed, in whichever order the DAG is discovered and executed, once the execution is done the result nodes hold every target of every rank exactly once, and every target has its initial value plus its potential due to all the sources of all the ranks: exactly with Direct, and with FMM, FMM97 and Barnes-Hut with the relative error (against the potential of the absolute charges) of the method.", "quantifier": "all inputs on all numbers of ranks, thresholds, uniform levels, constructions, discovery orders, placements of the nodes, schedules; for expansions, all positions that are not at (or vertically too near) a centre", "why_tests_cant": "It is the contract of Evaluator::evaluate over all inputs and schedules; tests compare a few random inputs.", "anchors": ["include/dashmm/evaluator.h: evaluate", "include/dashmm/dualtree.h", "include/dashmm/dag.h", "include/builtins/laplace.h", "include/builtins/direct_method.h", "include/builtins/bh_method.h", "include/builtins/fmm_method.h", "include/builtins/fmm97_method.h"]}
{"id": "C80", "title": "All ranks construct the same tree, in any order of their tasks and messages", "statement": "When every rank has its cells of the uniform grid with all the records of those cells from all ranks, the tasks that divide the cells, and the messages that carry finished branches between the ranks, lead to the same tree on every rank, in whatever order they happen: the tree determined by the records alone. Pruning succeeds on each rank as soon as the rank has finished its own cells and received the others. The construction never gets stuck before all ranks are there, and it ends if no place has more records than the refinement limit. If the targets are the sources, the target tree is the same tree again. An evaluation on these trees gives the results of C79 on every rank's nodes.", "quantifier": "all numbers of ranks, assignments of cells to ranks, uniform levels, thresholds, records, interleavings of tasks and messages with other work", "why_tests_cant": "The number of interleavings of splits, sends and receives over the ranks is not bounded; a lost or early message shows on rare schedules only.", "anchors": ["include/dashmm/node.h: partition, compress, extract", "include/dashmm/tree.h: send_node, recv_node, receive_handler, prune_topnodes", "include/dashmm/dualtree.h: create_dual_tree"]}
{"id": "C81", "title": "The records of all ranks arrive in their cells", "statement": "Every rank sorts its records by cell of the uniform grid, which never fails and only permutes them; the reduced counts, in any order of the contributions, are the numbers of records of all ranks per cell; and on the rank a cell is assigned to, the tasks that copy the local records and those that merge the messages of the other ranks, in any interleaving and with the messages decoded at any address, fill the cell with exactly the records of all ranks assigned to it, each once, without writing outside of it, and start its division exactly once, when it is complete. The slices of the cells tile the array of the rank.", "quantifier": "all numbers of ranks, records in the domain, uniform levels, assignments of cells to ranks, contents of memory, interleavings of the merging tasks", "why_tests_cant": "It is about all interleavings of merges on one cell, all distributions of records over ranks, and all addresses at which messages are received.", "anchors": ["include/dashmm/dualtree.h: sort_local_points, send_points_handler, recv_points_handler, create_dual_tree_handler", "include/dashmm/tree.h: initPointExchange, merge_points_handler"]}
{"id": "C82", "title": "What the user reads back after an evaluation", "statement": "After an evaluation the user's arrays have been replaced by the records as the tree sorted them. All the LCOs that write results write to disjoint records and leave none out, so that a collect of the target array that returns gives each target of the user exactly once, in some order, with its potential due to all sources added to what it held (exactly with Direct, up to the error of the method with FMM and FMM97); also if the targets are the sources.", "quantifier": "all inputs, numbers of ranks, assignments of cells, interleavings of tree construction, DAG discovery, execution and collect; all serializers that keep their contract", "why_tests_cant": "It is the end-to-end contract of evaluate followed by collect, over all inputs and all schedules.", "anchors": ["include/dashmm/array.h: replace, collect", "include/dashmm/dualtree.h: create_dual_tree_handler", "include/dashmm/tree.h: initPointExchange", "include/dashmm/targetlco.h: operation_handler", "include/dashmm/evaluator.h: evaluate"]}
{"id": "C83", "title": "create_DAG and destroy_DAG account for everything they allocate", "statement": "On a tree without a DAG, create_DAG with a builtin method succeeds in every schedule; the DAG object it returns lists every DAG node exactly once; on each rank every DAG node placed there, except sources, gets exactly one LCO, and there are no others, so that waiting for, resetting and deleting them finds an LCO. destroy_DAG then succeeds in every order of its tasks: no assertion fails, nothing is deleted twice or used after deletion, and nothing is left allocated.", "quantifier": "all source and target trees, the four methods with any acceptance test, any placement of the nodes on the ranks, all schedules of the tasks that add nodes and LCOs and of those that delete them", "why_tests_cant": "A leak or a double free depends on which of the nodes a method made, where they were placed and in which order the walks ran.", "anchors": ["include/dashmm/dag.h: DAGNode, DAG::~DAG, DAGInfo::add_parts, add_normal, add_interm, collect_DAG_nodes", "include/dashmm/dualtree.h: create_DAG, collect_DAG_nodes, create_S_expansions_from_DAG_handler, create_T_expansions_from_DAG_handler, destroy_DAG_LCOs_handler", "include/dashmm/evaluator.h: create_DAG_handler, destroy_DAG_handler"]}
{"id": "C84", "title": "A tree can carry one DAG after another", "statement": "After destroy_DAG the same tree can be given to create_DAG again, with the same or another method, and everything said of the first DAG holds of the second. (False of the code: ~DAGNode does not null the pointers in the tree nodes, so every second create_DAG trips an assertion.)", "quantifier": "all trees, all pairs of builtin methods, all schedules", "why_tests_cant": "The tests and demos create one DAG per tree; the claim is about every history of calls.", "anchors": ["include/dashmm/dag.h: DAGNode::~DAGNode, DAGInfo::remove_node, DAGInfo::add_parts", "include/dashmm/evaluator.h: Evaluator::create_DAG, Evaluator::destroy_DAG"]}
{"id": "C85", "title": "The scaled spherical Bessel functions are what they are called", "statement": "bessel_kn_scaled, when it returns, has stored exactly scale^n k_n(x); it returns whenever the entries fit in a double and aborts outside its range of arguments. bessel_in_scaled stores i_n(x)/scale^n up to the relative error of the tabulated I_{n+1/2} and values below 1e-300 flushed to zero, for x up to 100 (above, it stores zeros). bessel_jn_scaled and bessel_hn_scaled do the same with j_n and h_n. (False of the code for h_n at x < 1e-4, where y_n lacks a factor 1/x for n >= 1, and, in exact arithmetic, for j_n beyond a zero of one of the functions.)", "quantifier": "all arguments x, scales, orders n and lengths of the array", "why_tests_cant": "The claim is an identity with special functions for every real argument and every order.", "anchors": ["src/special_function.cc: bessel_jn_scaled, bessel_in_scaled, bessel_kn_scaled, bessel_hn_scaled"]}
{"id": "C86", "title": "Yukawa expansions approximate the screened potential", "statement": "For every set of charges, S_to_M followed by M_to_T yields the screened potential at each target farther from the centre than all charges, and S_to_L followed by L_to_T at each target closer than all charges, with an error per unit charge of at most pi/(2 lambda) times: min((rho/r)^(p+1), exp(-lambda (r - rho)))/(r - rho) for the truncation, the relative error of the tabulated Bessel functions, and an underflow term; S_to_T adds the exact potential. With 3 or 6 digits the operators return for all targets outside a quarter of the box with 1e-200 <= lambda r < 1e8. (For other numbers of digits S_to_L aborts; for lambda r >= 1e8 the evaluation aborts.)", "quantifier": "all lists of charges, centres, targets, screening parameters, scales, orders p", "why_tests_cant": "An error bound for all configurations of charges and all screening parameters is not established by any finite number of comparisons.", "anchors": ["src/yukawa.cc: yuk_s_to_m, yuk_s_to_l, yuk_m_to_t, yuk_l_to_t", "include/builtins/yukawa.h: Yukawa::S_to_M, S_to_L, M_to_T, L_to_T, S_to_T", "src/yukawa_table.cc: YukawaTable::YukawaTable, generate_sqf", "include/builtins/yukawa_table.h: YukawaTable::scale"]}
{"id": "C87", "title": "Which method works with which expansion", "statement": "Every pair of built-in method and built-in expansion that is usable is usable for all inputs: with Direct and any expansion, BH and any expansion but Helmholtz, FMM and Laplace, FMM97 and Laplace, Yukawa or Helmholtz, every edge of every DAG is served by an operation the expansion implements (no null pointer is dereferenced, no assertion fails, no table is read outside its bounds, no contribution is silently dropped); for Yukawa and Helmholtz as long as no tree is deeper than 21 levels, for Helmholtz as long as omega times the domain size is more than 1/2. A method only ever uses the operations the documentation lists for it (FMM97 does not even need MtoL). (Yukawa and Helmholtz with FMM dereference a null pointer as soon as one multipole-to-local translation occurs, although the documentation calls Yukawa compatible with every method; BH with Helmholtz always aborts; deeper trees, and Helmholtz on a domain with omega*size <= 1/2, read outside the tables.)", "quantifier": "all source and target trees, all schedules of the DAG construction, all built-in methods and expansions", "why_tests_cant": "Which operations occur depends on the shape of both trees; a test only sees the operations its points provoke.", "anchors": ["include/dashmm/expansionlco.h: ExpansionLCO::contribute, m_to_l_out_edge and the other out edges", "include/builtins/yukawa.h: Yukawa::M_to_L", "include/builtins/helmholtz.h: Helmholtz::M_to_L", "include/builtins/laplace_com.h: LaplaceCOM::S_to_L, L_to_T, M_to_I", "include/builtins/direct_method.h, bh_method.h, fmm_method.h, fmm97_method.h: process, inherit, generate, aggregate", "include/builtins/helmholtz_table.h: HelmholtzTable::m2m, l2l, level", "include/builtins/yukawa_table.h: YukawaTable::m2m, level", "src/helmholtz_table.cc: maxlev"]}
{"id": "C88", "title": "Helmholtz expansions approximate the field", "statement": "For every set of charges, S_to_M followed by M_to_T yields the field sum of q exp(i w R)/(i w R) at each target farther from the centre than all charges, and S_to_L followed by L_to_T at each target closer than all charges, with an error per unit charge of at most a constant exp(w (r + rho)) (1 + ...)/w times (rho/r)^(p+1)/(r - rho), plus what the errors of the two arrays of Bessel functions cost term by term; S_to_T adds the exact field. (For targets with w r < 1e-4 the Hankel functions are wrong by a factor below 3e-4, so no accuracy holds.)", "quantifier": "all lists of charges, centres, targets, frequencies, scales, orders p", "why_tests_cant": "An error bound for all configurations of charges and all frequencies is not established by any finite number of comparisons.", "anchors": ["include/builtins/helmholtz.h: Helmholtz::S_to_M, S_to_L, M_to_T, L_to_T, S_to_T, compute_scale", "src/helmholtz_table.cc: HelmholtzTable::HelmholtzTable, generate_sqf", "include/builtins/helmholtz_table.h: HelmholtzTable::scale", "src/special_function.cc: bessel_jn_scaled, bessel_hn_scaled"]}
{"id": "C89", "title": "An array gives back what it allocates, in every history and for every failing allocation", "statement": "On any number of ranks, for every sequence of calls of allocate, set_manager and destroy on an Array (the latter two on an array that is allocated) and whichever allocations fail inside: nothing is freed twice, everything allocated is owned by the array, so that after destroy nothing is left; allocate answers kSuccess if all allocations succeeded, kAllocationError on every rank if the segment of one rank could not be allocated, kDomainError (and does nothing) if the array is allocated already; and a failed allocate leaves the array empty.", "quantifier": "all numbers of ranks, all record counts, all segments handed over by the user, all sequences of calls, all choices of allocations that fail", "why_tests_cant": "Tests do not make allocations fail, and a leak shows only in the objects that are left after a whole history; the number of histories and of failure points is unbounded.", "anchors": ["include/dashmm/array.h: Array::allocate, Array::destroy, Array::set_manager, ArrayMetaAllocateRegistrar, ArrayMetaDeallocateRegistrar, ArraySetManagerRegistrar", "include/dashmm/arraymetadata.h: ArrayMetaData"]}
{"id": "C90", "title": "Plane waves of Yukawa and Helmholtz reach every child once, moved to its place, at every level", "statement": "For Yukawa and Helmholtz, at every level of the tree, whatever the parameter of the kernel and the size of the domain (for which the tables of Helmholtz can be made): every number of angles per quadrature node is even and positive and is the largest the table asks for up to the wave number across; every entry the operators read from the tables is the one meant and lies inside its array; an expansion of a box is not longer than one of its parent, so that adding it to the views of the parent's level writes inside them; and after I_to_I from any set of source boxes in the list of a target, in any order, and add_expansion, I_to_L finds for each child and direction exactly the sum over the boxes seen in that direction of their waves, each multiplied by the wave at the displacement of the child from the box. A box is used for a child exactly if it is not a neighbour of the child, and only in a direction in which the child is two or three boxes ahead. Every such wave solves the equation of its kernel.", "quantifier": "all parameters, domain sizes, levels, quadrature nodes and angles; all lists of source boxes (offsets -2..3) with arbitrary expansions, in any order; all children and directions", "why_tests_cant": "The lengths and layouts of the expansions depend on the parameter, the size of the domain and the level; a test sees a few of these and compares sums to a tolerance, so that a missing or doubled wave in a rare position, or a write past the end, goes unseen.", "anchors": ["src/yukawa_table.cc: YukawaTable::YukawaTable", "src/helmholtz_table.cc: HelmholtzTable::HelmholtzTable", "src/yukawa.cc: yuk_e_to_e, yuk_i_to_i, yuk_i_to_l", "include/builtins/helmholtz.h: e2e_e, e2e_p, Helmholtz::I_to_I, I_to_L, add_expansion", "include/builtins/yukawa.h: Yukawa::add_expansion", "src/merge_shift.cc: merge_and_shift_table"]}
{"id": "C91", "title": "The unit of length does not matter", "statement": "The plane-wave tables of Yukawa and Helmholtz for a parameter a and a domain of size L are those for a/c and c L for every c > 0; in particular if the tables can be made for a problem they can be made for the same problem in another unit of length.", "quantifier": "all parameters, sizes and scalings", "why_tests_cant": "Tests run in one unit of length (the unit cube).", "anchors": ["src/yukawa_table.cc: YukawaTable::YukawaTable", "src/helmholtz_table.cc: HelmholtzTable::HelmholtzTable"]}
{"id": "C92", "title": "Trees give back what they allocate", "statement": "During the construction of a tree by all ranks, and its deletion after pruning, no rank frees anything twice, frees anything it has not allocated or reads a node it has freed; and after the deletion each rank has given back every node, array, lock and completion LCO it allocated for the tree.", "quantifier": "all point sets, distributions, numbers of ranks and orders of tasks and messages", "why_tests_cant": "A leak or a double free shows only for particular trees (empty cells, undivided cells, foreign cells) and schedules, and tests do not account for the memory of every rank.", "anchors": ["include/dashmm/tree.h: setup_basics_handler, delete_tree_handler", "include/dashmm/node.h: extract, destroy_branch, partition_node_handler", "include/dashmm/dualtree.h: 1236-1276"]}
{"id": "C93", "title": "Work along edges reaches the right place", "statement": "When a node of the DAG has triggered, the work of each of its out edges is done exactly once, on the rank where the edge's target was placed, with the data of the node (the sources of the leaf, or the header and the views of the expansion) exactly as they were on the sending rank, and its result is sent to the LCO serving that target there; the ranks exchange only indices and operations, never addresses of another rank. Messages are built in a scratch buffer and nothing outside of it is written. (Below 2^31/40 edges from one expansion to a rank, beyond which the count in the message overflows, and for edges across ranks whose target is not a multipole made from sources, which the distribution policies keep local.)", "quantifier": "all trees, methods, schedules of the construction of the DAG, good placements, ranks, serializers, contents of memory, orders of edges to the same rank", "why_tests_cant": "Messages are assembled by hand at byte offsets and targets are found again by index; a wrong offset or lookup shows only for particular combinations of ranks, edges and sizes.", "anchors": ["include/dashmm/dualtree.h: 1570-1760", "include/dashmm/expansionlco.h: spawn_out_edges, spawn_out_edges_work, spawn_out_edges_from_remote", "include/dashmm/dualtree.h: instigate_dag_eval, instigate_dag_eval_remote"]}
{"id": "C94", "title": "Operations on expansions give back their memory", "statement": "Every operation of a built-in expansion (S_to_M, S_to_L, M_to_M, M_to_L, L_to_L, M_to_I, I_to_I, I_to_L and the operations on targets), called on an expansion whose views are in live memory (its own, or a parcel), uses and frees only live memory; the expansion it returns owns the memory of its views, has exactly the views that the target of the edge expects, and when it is deleted the memory is as before the operation: no scratch array is left behind and none is freed twice. (False of the code for I_to_L with the Yukawa kernel, which loses s arrays per direction, and for S_to_L and M_to_T with the Helmholtz kernel, which lose two arrays per source or target.)", "quantifier": "all kernels, operations, numbers of sources, targets and quadrature nodes, entries of the merge-and-shift table, and states of the heap", "why_tests_cant": "Leaks and double frees of scratch space do not change results; which arrays are freed depends on table entries and on which branch is taken, and tests look at values only.", "anchors": ["include/builtins/laplace.h", "include/builtins/yukawa.h", "include/builtins/helmholtz.h", "include/builtins/laplace_com.h", "src/laplace.cc: lap_i_to_i, lap_i_to_l, lap_e_to_l", "src/yukawa.cc: yuk_i_to_i, yuk_e_to_l", "src/special_function.cc: bessel_hn_scaled"]}
{"id": "C95", "title": "An evaluation uses live memory only and gives it all back", "statement": "During an evaluation, on any number of ranks and in any schedule, no task, message handler or operation uses freed memory, frees a block twice, frees memory inside a message, reads a view that an expansion does not have, or meets a null expansion; every schedule comes to an end; the contents are then the result of the DAG; and once the tasks have ended and the DAG is destroyed, the heap is as before the evaluation and no message buffer is left. (False of the code in two ways: destroy_DAG may run while the task of an expansion that has served its edges is about to delete that expansion, which is then deleted twice; and the operations of the Yukawa and Helmholtz kernels leak.)", "quantifier": "all source and target trees, built-in methods and expansions that go with them, numbers of ranks, placements of nodes, orders of edges, and interleavings of tasks, sets and messages", "why_tests_cant": "Which task frees an expansion, and when, depends on the schedule; a use after free or a double free shows up only in rare interleavings, and a leak does not change results.", "anchors": ["include/dashmm/expansionlco.h: operation_handler, spawn_out_edges_handler, spawn_out_edges_from_remote_handler, contribute, destroy", "include/dashmm/targetlco.h: operation_handler", "include/dashmm/dualtree.h: instigate_dag_eval_handler, instigate_dag_eval_remote_handler, execute_DAG, destroy_DAG_LCOs"]}
{"id": "C96", "title": "Whole evaluations with the centre-of-mass expansions", "statement": "An evaluation with the expansion LaplaceCOM (potential) or LaplaceCOMAcc (field) and the method Direct leaves in every target exactly the potential (the field) of all sources, whatever the charges. With Barnes-Hut and positive charges every target gets a finite number, and if accepted boxes subtend at most the ratio kappa < 1 the relative error is at most a bound in kappa alone that vanishes with kappa. This holds although adding up expansions of this kind is not a sum and depends on the order of arrival. (It is false for charges of both signs: with LaplaceCOM one leaf whose charges cancel makes every target that uses a box above it not a number.)", "quantifier": "all source and target trees, all sources and targets in their boxes, all acceptance criteria, all placements of the DAG on any number of ranks, all schedules", "why_tests_cant": "a test runs one schedule and one set of particles; the moments an expansion ends up with are computed by a merge that is applied in the order the contributions happen to arrive", "anchors": ["include/builtins/laplace_com.h:LaplaceCOM", "include/builtins/laplace_com_acc.h:LaplaceCOMAcc", "include/builtins/bh_method.h:BH", "include/builtins/direct_method.h:Direct", "include/dashmm/expansionlco.h:ExpansionLCO", "include/dashmm/targetlco.h:TargetLCO"]}
{"id": "C97", "title": "What an evaluation reports when the runtime fails", "statement": "evaluate returns kSuccess exactly if none of the runtime calls it makes reports an error, and then everything it created has been destroyed and nothing else has been touched. If one of them fails it returns kRuntimeError. In any history of create_tree, create_DAG, execute_DAG, reset_DAG, destroy_DAG and destroy_tree with handles that exist, no call crashes, a call returns kSuccess (or a new handle) exactly if the runtime reports no error, and what exists afterwards is what has been created and not destroyed.", "quantifier": "all ways the five runtime calls of evaluate can end, all previous states, all histories of the public calls", "why_tests_cant": "the runtime does not fail on demand, and there are infinitely many histories of calls", "anchors": ["include/dashmm/evaluator.h: create_tree, create_DAG, execute_DAG, reset_DAG, destroy_DAG, destroy_tree, evaluate", "include/dashmm/rankwise.h: RankWise::here", "include/dashmm/dag.h: ~DAG"]}
{"id": "C98", "title": "Translations of the Yukawa kernel", "statement": "M_to_M of the Yukawa kernel makes of the multipole expansion of a box one about the centre of its parent, and M_to_T of it gives, at every target farther from the parent's centre than the old expansion reaches, the value that M_to_T of the old one gives, up to an explicit bound in the order, the inverse screening length, the shift and the accuracy of the Bessel functions; the size of the new expansion is bounded too, so that the translations can be chained. L_to_L makes of the local expansion of a box one about the centre of its child, and L_to_T of it gives the value that L_to_T of the old one gives, up to an explicit bound. So charges seen through S_to_M, M_to_M and M_to_T, or through S_to_L, L_to_L and L_to_T, give the screened potential up to the sum of the bounds, and what the truncation contributes vanishes as the order grows. Below level 21 of the domain neither translation can be used.", "quantifier": "all orders, screening lengths, domains, boxes, children, expansions of bounded size, charges and targets", "why_tests_cant": "the accuracy is a statement about all coefficients and positions, the tables are filled with double sums of products of factorials, and no accuracy test in the repository covers the Yukawa translations one by one", "anchors": ["src/yukawa.cc: yuk_m_to_m, yuk_l_to_l, yuk_rotate_sph_z, yuk_rotate_sph_y", "src/yukawa_table.cc: YukawaTable::generate_m2m, generate_l2l, generate_scaled_wigner_dmat, generate_scaled_dmat_of_beta", "include/builtins/yukawa_table.h: YukawaTable::level", "include/builtins/yukawa.h: M_to_M, L_to_L"]}
{"id": "C99", "title": "Evaluations with the Yukawa kernel", "statement": "An evaluation with the Yukawa kernel and Barnes-Hut gives every target, when it has finished, what it held before plus the screened potential of all the sources, up to an explicit bound, whatever the trees (of at most 21 levels), the number of ranks, the placement of the DAG and the order of the tasks, provided that no box is evaluated at a target inside the sphere around it: every source leaf contributes once, directly and then exactly, or through one of its ancestors and then up to the error of the expansion of the leaf and those of the translations on the way. At a target whose distance from the box is 1/k of its radius or more each of these is bounded by terms with k to the order of the expansion, apart from the errors of the Bessel functions. With the direct method the potential is exact.", "quantifier": "all trees, sources, targets, acceptance criteria, orders up to 18, screening lengths, numbers of ranks, placements and schedules", "why_tests_cant": "the sum is made by tasks in an order the scheduler chooses on any number of ranks, and the accuracy is a statement about all positions and charges; no test in the repository covers the Yukawa kernel", "anchors": ["include/builtins/yukawa.h: S_to_M, M_to_M, M_to_T, S_to_T", "include/builtins/bh_method.h", "include/builtins/direct_method.h", "include/dashmm/dualtree.h: instigate_dag_eval_work", "include/dashmm/expansionlco.h: spawn_out_edges_work", "include/dashmm/targetlco.h: operation_handler"]}
{"id": "C100", "title": "Weights of the edges", "statement": "The weight that a kernel reports for an edge of an evaluation is read inside of its table for every edge that a compatible method makes. All weights are 1 but those of M->I (6) and I->I. With the Laplace kernel the weight of an I->I edge is the number of plane-wave views it carries, one to three; with the Yukawa and Helmholtz kernels the count is lost in a shadowed variable and the weight is 0. The placement does not depend on it: every node without a place of its own goes to the first of the ranks to which most of its edges lead, whichever the kernel, so that all kernels place a DAG alike.", "quantifier": "all trees, methods with compatible kernels, numbers of ranks, ownership maps and orders of the concurrent settings", "why_tests_cant": "a wrong weight changes no result, only the placement, for any of infinitely many trees and numbers of ranks; the table is read at an offset of boxes that no test ranges over", "anchors": ["include/builtins/laplace.h: weight_estimate", "include/builtins/yukawa.h: weight_estimate", "include/builtins/helmholtz.h: weight_estimate", "include/builtins/laplace_com.h: weight_estimate", "include/builtins/laplace_com_acc.h: weight_estimate", "src/fmm97distro.cc: FMM97Distro::compute_locality", "src/bhdistro.cc: BHDistro::compute_locality"]}
{"id": "C101", "title": "Plane waves of the Yukawa kernel", "statement": "With the Yukawa kernel, the charges of source boxes that reach a child of a target box through plane waves (S_to_M, M_to_I, I_to_I of every box, the sum of the results, I_to_L) are in the local expansion of the child exactly as the quadrature rule of the tables prescribes: the value of the expansion at a target is the sum, over the charges in boxes two or more boxes apart from the child, of the rule in the direction of their axis; boxes adjacent to the child contribute nothing. Hence the potential is accurate to the relative accuracy of the rule at that level, and all accesses to the tables and the waves are in range.", "quantifier": "all tables of the kernel, sizes of the domain, screening parameters, orders, levels up to 21, target boxes and children, lists of source boxes within the merge-and-shift range and their charges, and targets in the child", "why_tests_cant": "a test samples directions and charges; a sign or a parity that is wrong for one direction, one child or one order stays unnoticed", "anchors": ["src/yukawa.cc: yuk_m_to_i, yuk_i_to_i, yuk_i_to_l, yuk_e_to_e, yuk_e_to_l", "src/special_function.cc: legendre_Plm_gt1_scaled", "include/builtins/yukawa.h: M_to_I, I_to_I, I_to_L", "src/yukawa_table.cc"]}
{"id": "C102", "title": "FMM97 with the Yukawa kernel end to end", "statement": "After a finished evaluation with FMM97 and the Yukawa kernel every target holds the value it held before plus the screened potential of all sources, up to the sum of the errors of the ways in which the source leaves reach it: each leaf reaches it exactly once, directly, through the multipole expansion of an ancestor, through the local expansion of an ancestor of the target leaf, or through both and the plane waves between them; the error of a way is that of the translations and truncations on it and of the plane waves of its level.", "quantifier": "all source and target trees of up to 21 levels, all sources and targets in their leaves clear of the centres, screening parameters, orders 1 to 18, tables of the kernel, refinement thresholds, numbers of ranks, placements of the DAG nodes and schedules", "why_tests_cant": "the result depends on the schedule, the placement and on which of the ways each pair of leaves takes; a test compares a few pairs of a few distributions", "anchors": ["include/builtins/fmm97_method.h", "include/builtins/yukawa.h", "src/yukawa.cc", "include/dashmm/expansionlco.h", "include/dashmm/dag.h"]}
{"id": "C103", "title": "Helmholtz translations between a box and its children", "statement": "M_to_M makes of the multipole expansion of a box an expansion about the centre of its parent, L_to_L of a local expansion one about the centre of a child: M_to_T, respectively L_to_T, gives the same complex value for the old and the new expansion up to a bound that consists of a truncation part, which vanishes as the order grows, and of parts linear in the errors of the Bessel functions; the size of the new expansion is bounded. Composed with S_to_M or S_to_L this bounds the distance to the field exp(i om r)/(i om r) of the sources. The tables hold child levels 3 to 21 only, and FMM97 asks for no other level above.", "quantifier": "all box indices with levels in the range, children, expansions with coefficients of bounded size, sources, targets, frequencies, orders, domains and accuracies of the Bessel tables", "why_tests_cant": "the error has to be bounded for every frequency, order and position; a test compares a few points", "anchors": ["include/builtins/helmholtz.h", "include/builtins/helmholtz_table.h", "src/helmholtz_table.cc", "Helmholtz::M_to_M", "Helmholtz::L_to_L"]}
{"id": "C104", "title": "The direct method with any kernel", "statement": "After a finished evaluation with the direct method every target holds the value it held before plus what S_to_T of the kernel adds for each source leaf, every leaf exactly once, whatever the kernel (built in or written by the user); for the Helmholtz kernel this is exactly the field of all sources.", "quantifier": "all kernels (value types with a commutative addition, operations S_to_T), source and target trees, refinement thresholds, orders of the construction tasks, numbers of ranks, placements and schedules", "why_tests_cant": "a test runs the built-in kernels on a few schedules", "anchors": ["include/builtins/direct_method.h", "include/dashmm/targetlco.h", "include/dashmm/dualtree.h", "include/builtins/helmholtz.h", "Helmholtz::S_to_T"]}
{"id": "C105", "title": "Plane waves of the Helmholtz kernel", "statement": "What FMM97 with the Helmholtz kernel adds to a target box through plane waves (S_to_M, M_to_I, I_to_I, I_to_L, L_to_T) is, for every charge in a box of the interaction lists of that box, the quadrature rules for propagating and for evanescent waves applied to that charge, in the frame of the direction between the boxes, once; charges of adjacent boxes contribute nothing. When the rules are accurate to eps times the size of the kernel, so is the result for all charges together. All array accesses are in range.", "quantifier": "all frequencies omega > 0 for which the table exists, box sizes, levels up to 21, expansion orders, Gauss rules, lists of source boxes, charges, targets, tables of Bessel functions", "why_tests_cant": "a test compares a few fields with the exact one up to an accuracy of three or six digits and cannot tell an error of the operators from one of the quadrature", "anchors": ["include/builtins/helmholtz.h", "Helmholtz::M_to_I", "Helmholtz::I_to_I", "Helmholtz::I_to_L", "Helmholtz::e2l", "src/special_function.cc", "legendre_Plm_evan_scaled", "legendre_Plm_prop_scaled", "src/helmholtz_table.cc"]}
{"id": "C106", "title": "FMM97 with the Helmholtz kernel end to end", "statement": "After a finished evaluation with FMM97 and the Helmholtz kernel every target holds the value it held before plus the field of all sources, up to the sum of the errors of the ways in which the source leaves reach it: each leaf reaches it exactly once, directly, through the multipole expansion of an ancestor, through the local expansion of an ancestor of the target leaf, or through both and the plane waves between them; the error of a way is that of the translations and truncations on it, of the plane waves of its level and of the Bessel functions used.", "quantifier": "all source and target trees of up to 21 levels, all sources and targets in their leaves clear of the centres, frequencies the program has tables for, orders, tables of Bessel functions, rules for the propagating waves, tables of the evanescent waves, refinement thresholds, numbers of ranks, placements of the DAG nodes and schedules", "why_tests_cant": "the result depends on the schedule, the placement and on which of the ways each pair of leaves takes; a test compares a few pairs of a few distributions", "anchors": ["include/builtins/fmm97_method.h", "include/builtins/helmholtz.h", "src/helmholtz_table.cc", "include/dashmm/expansionlco.h", "include/dashmm/targetlco.h", "include/dashmm/dag.h"]}
{"id": "C107", "title": "The Gamma function", "statement": "Gamma(x) is exactly (n-1)! at the natural numbers n below 12; it obeys Gamma(x+1) = x Gamma(x) and, for negative x, Gamma(x) Gamma(1-x) = pi / sin(pi x); it is positive for positive x; the relative error is the same at arguments that differ by a whole number, so that the accuracy between 1 and 2 is the accuracy up to 12 and, by the reflection, that of the mirror images; at the half integers from -10.5 to 11.5, which the Bessel functions of the kernels use, it is below 2e-20 (before rounding). At the poles, above 171.624 and below -170.624 the result is the largest double.", "quantifier": "all real arguments in the ranges named", "why_tests_cant": "the identities hold for a continuum of arguments; the error against the true Gamma function at the half integers is a statement about an irrational number", "anchors": ["src/special_function.cc: Gamma"]}
{"id": "C108", "title": "The report on the edges of the DAG counts every edge once", "statement": "After the nodes of the DAG are placed on n ranks, DAG::printedges(n) writes one table for each operation with a line for each ordered pair of ranks, and the number in it is the number of edges of the DAG with this operation from nodes on the first to nodes on the second rank; all numbers add up to the number of edges (no edge leaves a target leaf, whose edges are not looked at). If an edge has an end on no rank below n - before the placement every node is on rank -1 - the table is accessed out of its range.", "quantifier": "all source and target trees, all four methods, all interleavings of the tasks that make the DAG, all placements, all orders of nodes and edges, all n", "why_tests_cant": "trees, schedules and placements are unbounded", "anchors": ["src/dag.cc: optoint, zero_table, collect_edges, DAG::printedges", "include/dashmm/dag.h: DAG", "include/dashmm/dualtree.h: collect_DAG_nodes"]}
{"id": "C109", "title": "Access to the data of the ranks", "statement": "A RankLocal made with here() reads and writes the data of its own rank, whoever else writes it; one made with there(r) for another rank is a copy of the data at the time it was made: later changes are not seen, and what is written through it reaches no rank. Moving hands everything over, and the object moved from is invalid. In every history of constructions, moves, assignments, reads, writes and destructions nothing is released twice and no valid object refers to released memory. If no object that holds something is assigned to, everything acquired is released when all objects are gone; if one is, what it held is never released.", "quantifier": "all histories of the objects of a rank, all data, failures of allocation and writes from outside in between", "why_tests_cant": "histories are unbounded, and the leak has no visible effect in a run", "anchors": ["include/dashmm/rankwise.h: RankLocal, RankWise::here, RankWise::there"]}
{"id": "C110", "title": "Windows of a trace", "statement": "The trace reader, given files that each have at least one record, can add them in any number per worker and sort them without undefined behaviour; a window [a,b) has one entry for each worker of the files, with exactly the worker's records of the interval in order of time; adjacent windows neither overlap nor lose records; the bounds in time, the number of events and the identifiers of workers are right; after finalize nothing is added, before it there are no windows. (False of the code for the records at the latest instant of a worker: they are in no window.)", "quantifier": "all sets of trace files, all orders of them and of records with equal stamps, all windows", "why_tests_cant": "the files and the intervals are unbounded, and the sort may order ties in any way", "anchors": ["trace/readtrace/worker.cc: Worker::range, Worker::add_file, Worker::finalize", "trace/readtrace/locality.cc: Locality::add_file, Locality::span", "trace/readtrace/trace.cc: Trace::add_file, Trace::finalize, Trace::window, Trace::min_ns, Trace::max_ns"]}
{"id": "C111", "title": "Coverage of a window by segments", "statement": "The coverage that is reported for a segment type and a window is, for each worker, the part of the window that the worker's segments of the type cover. (False of the code for windows inside of a segment, for which zero is reported; for the last segment of a worker, which is reported to run to the end of the window; and for segments that touch, which make an assertion fail.)", "quantifier": "all traces, types and windows", "why_tests_cant": "the position of the window relative to the segments is arbitrary", "anchors": ["trace/readtrace/trace.cc: range_coverage, span_coverage, coverage_of_segment_type"]}
{"id": "C112", "title": "The time origin of a trace", "statement": "After find_and_reset_zero all times of a locality that has an origin record are relative to the time of that record. (False of the code if the origin is not the first record read for its worker, in which case nothing is changed, and for records earlier than the origin, which become the latest ones.)", "quantifier": "all sets and orders of trace files", "why_tests_cant": "depends on the order in which the files are named and on the times", "anchors": ["trace/readtrace/worker.cc: Worker::get_zeroref, Worker::reset_zero", "trace/readtrace/locality.cc: Locality::zero_reset", "trace/readtrace/trace.cc: Trace::find_and_reset_zero"]}
{"id": "C113", "title": "The database of a trace", "statement": "The database that is written for a trace has one Event row for each record, numbered from 0, with the rows of each worker in its order of time and with the record's type, worker and time; the types of events are those that occur, each once; for each worker and type of segment the Segment rows are exactly the finished segments, in order, each with the rows of its begin and its end; there are no others. It is written exactly if the records of each type of each worker are begin and end of one segment after the other, with possibly a begin at the end; otherwise there is an exception. (For a segment with begin and end at the same instant it is the order that std::sort happens to give them which decides.)", "quantifier": "all sets of trace files, all orders of records with equal stamps", "why_tests_cant": "the number and the interleaving of the segments of different types and workers is unbounded", "anchors": ["trace/readtrace/sqlite3out.cc: SQLiteWriter, collate_segments, process_events, process_segments", "trace/readtrace/segment.h: Segment"]}
{"id": "C114", "title": "The files of a trace", "statement": "A file with the name LOCALITY.WORKER.x.y.CLASS_EVENT.ext in any directory is read with that locality, worker and type of events, other shapes of names are refused; the records of a file are read back exactly, in order, with their times; a file with a partial record at its end or without the magic word is refused; every operation that DASHMM records has a begin and an end type which belong to the same type of segment, different operations to different types of segments; a type that belongs to a segment is either a begin or an end. (A file that ends inside of its header is not refused but read as one without records.)", "quantifier": "all names, all contents of files", "why_tests_cant": "names, numbers and contents are arbitrary", "anchors": ["trace/readtrace/tracefile.cc: File, split, interpret_filename, next", "trace/readtrace/traceevent.cc: dashmm events by name", "trace/readtrace/dashmmevents.cc", "trace/readtrace/networkevents.cc", "trace/readtrace/segmentids.cc"]}
{"id": "C115", "title": "Keys and transactions of the database of a trace", "statement": "In the database that is written for the files of a trace (with localities that are not negative) the tables Locality, Worker, Segmenttype, Eventclass and Eventtype have exactly the localities, workers, types of segments, classes and types of events that occur, each once and with numbers that are different; each reference of a row of Worker, Eventtype, Event and Segment is to a row that exists; the events of a type all have the type of segments and the class of the row of their type. The rows of Event and Segment are inserted in transactions such that no statement fails, at the end all rows are stored and no transaction is open; if the program stops at any point before, the rows stored are a multiple of 10000.", "quantifier": "all sets of trace files, all numbers of rows, all points at which the program stops", "why_tests_cant": "the files and the number of rows are arbitrary, and so is the point of a crash", "anchors": ["trace/readtrace/sqlite3out.cc: SQLiteWriter::LocalityTable, WorkerTable, SegmenttypeTable, EventclassTable, EventtypeTable, EventTable, SegmentTable", "trace/readtrace/segmentids.cc: name", "trace/readtrace/trace.h: max_locality, has_locality"]}
{"id": "C116", "title": "Plots of a trace", "statement": "A plot of a trace has for each worker a bar of its own: the bars are in the image, do not overlap and have the padding between them, the first worker on top, and the height of the image differs from the one asked for by at most half a pixel for each worker; each column of a bar is drawn once; the columns are windows that begin at t0, end at t1 and never go back (for every rounding of double, up to 2^48 ns) and each record between t0 and t1 is in exactly one of them; the colour of a column of a bar is the part of it that the worker's segments cover; the utilization has one row for each sample. (False of the code: columns wholly inside of a segment are drawn as if there were none, and each utilization with at least one sample writes to elements of a vector that do not exist.)", "quantifier": "all traces, sizes of images, paddings, intervals and roundings", "why_tests_cant": "sizes, intervals, and the rounding of double are arbitrary", "anchors": ["trace/readtrace/plotter.cc: set_bar_height, bar_bottom, bar_top, plot", "trace/readtrace/utilization.cc: Utilization::operator(), sum_of_cover", "trace/readtrace/trace.cc: worker_map, total_workers"]}
{"id": "C117", "title": "Time stepping with the library", "statement": "In every step of the time-stepping demo every particle moves for dt from its current velocity with the attraction of all particles at their current positions, once, under every schedule of the parallel update; charge and index never change; with all particles in one leaf the total momentum is constant. (False of the code from the second step on: the evaluation adds to the acceleration and nothing resets it, so step k moves with the sum of the fields of all k evaluations.)", "quantifier": "every number of particles and steps, every time step, every sequence of operations an evaluation applies to a target, every schedule of the forEach", "why_tests_cant": "The demo has no test; a first step is right, and that later steps use sums of old fields shows only as a slow deviation of orbits. For all numbers of steps and all evaluations only an induction settles it.", "anchors": ["demo/stepping/stepping.cc: update_particles, perform_time_stepping, set_sources", "include/builtins/laplace_com_acc.h: M_to_T, S_to_T"]}
{"id": "C118", "title": "Files of test points and their combination", "statement": "A file of test points that was written is read back exactly, and one that is cut off anywhere is refused. Combining succeeds exactly if counts and indices agree, the other file has exact potentials and this file has none of that kernel; it takes exactly the potentials of one kernel and changes nothing else. Files made for the three kernels combine to one with all potentials, each from its own file. The program combines its three files and claims success only if it did. (The last is false of the code: the second file is never looked at, success is claimed in any case; a refusal may leave the object half changed.)", "quantifier": "all numbers and contents of records, all layouts of records in a file, all places where a file is cut off, all orders of the points", "why_tests_cant": "Tests use a few intact files; cut-off files, mismatches at an arbitrary index and files with several kernels are not in them.", "anchors": ["test/combinepoints/combiner.cc: Combiner, Combine, Write", "test/combinepoints/combiner.h: HasAllPhis", "test/combinepoints/combine.cc: main", "test/makepoints/makepoints.cc: save_to_file", "test/common/common.h"]}
{"id": "C119", "title": "Comparison of an evaluation with exact potentials", "statement": "The test program accepts exactly the supported combinations of kernel, method and accuracy; all ranks make the same collective calls; the evaluation is made once with the parameters asked for; the numbers it reports are the relative error in the least-squares norm and the greatest relative error of a target against the exact potentials of the kernel: the first is zero only if all potentials are exact and is at most the second. (False of the code: unknown kernel names are accepted and nothing is evaluated; every rank but 0 leaves before the first collective call.)", "quantifier": "all arguments, files, ranks and lists of targets", "why_tests_cant": "A test program is not tested itself; what it reports for arbitrary potentials, and what other ranks do, is not seen in a run on one rank.", "anchors": ["test/collect/collect.cc: read_arguments, read_input_data, perform_evaluation_test, compare_results"]}
{"id": "C120", "title": "Verification of the results in the demo", "statement": "The demo makes as many sources and targets as asked for, spread over the ranks up to one; every target has an index of its own; rank 0 verifies at most 400 targets, at different places; and the two errors reported are the relative error in the least-squares norm and the greatest relative error of the targets sampled, whatever the order in which targets and exact results come back. (False of the code where there are at least as many targets as ranks and the ranks do not divide their number: then an index occurs twice, and the result of one target is compared with the exact result of another.)", "quantifier": "all numbers of ranks and targets, all orders of the targets after an evaluation, all potentials", "why_tests_cant": "The demo is the test: its verdict is only as good as the numbering, which goes wrong only for some combinations of ranks and targets, and then for some orders only.", "anchors": ["demo/basic/testmain.cc: read_arguments, set_targets, perform_evaluation_test, compare_results"]}
{"id": "C121", "title": "Points of the demos", "statement": "Cube positions are in the unit cube around the origin, sphere positions at distance one, and the Plummer position of a random number is at the radius within which that part of the mass of the Plummer sphere lies, defined for every random number but the greatest; charges have size between 1 and 2 and are positive where negative ones are not asked for; the total Plummer charge is 100 for every rank with sources; the time-stepping demo draws the radius uniformly.", "quantifier": "all random numbers", "why_tests_cant": "A distribution is not visible in one sample and the one random number that divides by zero is not drawn in a test.", "anchors": ["demo/basic/testmain.cc: pick_cube_position, pick_sphere_position, pick_plummer_position, pick_charge, pick_plummer_charge", "demo/stepping/stepping.cc: pick_sphere_position"]}
{"id": "C122", "title": "The Gauss rule of the propagating waves", "statement": "Where the eigenvalue routine reports success, its values are in ascending order and are, up to an error bound that depends only on the number of rows and the size of the matrix, the eigenvalues of the tridiagonal matrix with the first components of its orthonormal eigenvectors. So the nodes are up to that error (below 1e-10 for up to a hundred nodes) those of the Gauss rule of the Legendre polynomials, the weights are not negative and sum to the length of the interval, linear functions are integrated up to the error, and the angles are in ascending order between 0 and pi/2. The element of the work array that is never initialised has no influence.", "quantifier": "every number of nodes, every symmetric tridiagonal matrix, every sequence of shifts, splittings and sweeps the iteration takes, every content of uninitialised memory", "why_tests_cant": "The iteration takes a different path for every matrix; tests see that evaluations are accurate enough for a few numbers of nodes, not that the rule is the Gauss rule.", "anchors": ["src/helmholtz_table.cc: HelmholtzTable::gaussq, HelmholtzTable::imtql2"]}
{"id": "C123", "title": "The rule integrates polynomials exactly", "statement": "The rule with N nodes that the Helmholtz table computes integrates every polynomial of degree at most 2N-1 over the interval from -1 to 1, up to the error of its eigenvalue iteration (below 1e-7 for a power and up to a hundred nodes).", "quantifier": "every number of nodes, every polynomial of degree at most 2N-1, every run of the iteration that reports success", "why_tests_cant": "A test can integrate a few polynomials for the numbers of nodes in the tables; that it is the Gauss rule for every number, and with which error, is a theorem about the recurrence and the iteration.", "anchors": ["src/helmholtz_table.cc: HelmholtzTable::gaussq, HelmholtzTable::imtql2"]}
{"id": "C124", "title": "The demo, from its command line to its calls", "statement": "The last option of a kind counts and those not given have their defaults; the program accepts exactly the supported combinations; every rank then makes the same calls in the same order, which make each array once, fill it, evaluate once with the kernel, method, digits and threshold asked for, verify if asked by direct summation for the same kernel, and destroy each array once after its last use; otherwise no rank makes a call. (False of the code for other kernel names: they are accepted with every method and number of digits, and nothing is evaluated.)", "quantifier": "all command lines, all numbers of ranks", "why_tests_cant": "The demo is run with a few command lines; the combinations of options, their order and repetition, and the number of ranks are unbounded.", "anchors": ["demo/basic/testmain.cc: read_arguments, prepare_sources, prepare_targets, perform_evaluation_test, main"]}
{"id": "C125", "title": "The time-stepping demo, from its command line to its calls", "statement": "The last option of a kind counts and those not given have their defaults; every rank makes the array of particles (all of them on rank 0), evaluates and moves the particles alternately as often as steps are asked for, with the same time step on every rank, collects exactly if a file is named, and destroys the array; the time step is the root of one over the total mass, divided by 200; with wrong arguments no rank makes a call.", "quantifier": "all command lines, all masses, all numbers of steps and all ranks", "why_tests_cant": "A run is one command line on one number of ranks; that ranks agree on calls and time step in every run is not visible in it.", "anchors": ["demo/stepping/stepping.cc: read_arguments, set_sources, perform_time_stepping, main"]}
{"id": "C126", "title": "The output of the demo of a user's expansion", "statement": "Every run of the demo of a user's expansion that finishes prints, for each edge of the graph of the evaluation, the line of its operation once, and for each contribution to an expansion one line of an addition, and nothing else; so two runs print the same lines in another order perhaps; and when the line of an operation on an expansion is printed, all additions to it have been.", "quantifier": "every tree, every schedule, every number of ranks and placement of the nodes", "why_tests_cant": "The order of the lines changes with the schedule; that none is missing or printed twice in any schedule cannot be seen from runs.", "anchors": ["demo/user/user_expansion.h: User", "demo/user/README", "include/dashmm/expansionlco.h: spawn_out_edges_work, operation_handler", "include/dashmm/targetlco.h: operation_handler"]}
