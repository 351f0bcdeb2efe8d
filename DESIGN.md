# DESIGN: formal model of DASHMM in Lean 4

## Trusted base

* Lean 4.33.0's kernel.
* The axioms `propext`, `Classical.choice`, `Quot.sound` (Lean's and Mathlib's standard ones). No theorem depends on another axiom; none is
  declared. Checked with `#print axioms` on every theorem of MANIFEST.json. `decide +kernel` is used for finite tables: it is a kernel
  computation, not compiled code.
* The reading of the C++ source: no code is run or extracted. Every definition in `lean/Verif/Model` cites the file and lines it models and says what it
  simplifies.
* What the model assumes of the HPX-5 runtime, of C++ and of the hardware, as listed below.

## Layout

* `lean/Verif/Model/*.lean`: the model, function by function, with citations.
* `lean/Verif/Spec/*.lean`: the small vocabulary the theorems are stated in, independent of how the model computes.
* `lean/Verif/Proofs/*.lean`: lemmas.
* `lean/Verif/Props/*.lean`: the property theorems, named `Cnn_...`, with non-vacuity examples beside them.
* `properties.jsonl`: the properties in English. `MANIFEST.json`: property, status, theorems (generated by `tools/mk_manifest.py`).
* `seeded/LOG.jsonl`: one line for each realistic bug put into a scratch copy of the model, with the theorems that failed because of it.

## What is modelled

| Model | Code |
|---|---|
| Index, Geometry, Mac | index.h, point.h/.cc, domaingeometry.h/.cc, the acceptance test of bh_method.h |
| Buffer, ViewSet | buffer.h, viewset.h/.cc (bytes, cursors, little-endian scalars) |
| Array, ForEach | array.h (allocate, destroy, get, put, map, collect, attach of segments), arrayref.h, arraymetadata.h, serializer.h, arrayforeachaction.h |
| ArrayLife | array.h `allocate`, `destroy`, `set_manager`: the objects allocated and freed, each allocation possibly failing |
| Hilbert | hilbert.cc (keys, partition of the key space over ranks), Morton keys |
| Grid, Points | domain reduction, uniform grid, counting, grouping (`group_points_on_unif_grid`), exchange of counts and points: tree.h, dualtree.h |
| Build, Octree | node.h `partition`, as a transition system of tasks over a shared record array; completion LCOs |
| Branch, TopTree, Merge, Exchange | node.h/tree.h: compress, extract, send/receive of branches, `setup_basics`, lookup, pruning, merging of sorted point sets, completion of the tree construction |
| RankTree | tree construction on all ranks together: tasks of node.h `partition`, `send_node`/`recv_node`, the heaps of all ranks, with every interleaving |
| TreeLife | the same with what is allocated: node.h constructors, `destroy_branch`; tree.h `setup_basics`, `delete_tree`; dualtree.h the deletion of completion LCOs |
| Arrive | dualtree.h `sort_local_points`, the reduced counts, tree.h `initPointExchange` (offsets, local copies), which merges a cell gets; joins Grid, Points, Merge |
| ReadBack | dualtree.h 1285-1297 with array.h `replace`, targetlco.h writing in place: what the arrays hold after an evaluation |
| Dag, Methods, Link, Ndebug | `create_DAG`: source and target traversals of Direct, BH, FMM, FMM97 as tasks with every interleaving; DAGInfo bookkeeping (dag.h); the methods when assertions are not compiled |
| Distro, Schedule | the four distribution policies; chunks for workers; grouping of edges by rank; termination detection |
| Exec, MethodExec, LapExec | `execute_DAG`, expansionlco.h, targetlco.h: LCOs with counters, edge processing, every interleaving on any number of localities; with provenance values (which source reached which target by which operators) and with the numbers of the Laplace kernel |
| Life | the objects of the DAG on a rank: DAGNodes, the pointers to them in the tree nodes, LCOs; `create_DAG_handler`, `create_S/T_expansions_from_DAG`, `destroy_DAG_handler`, `~DAG` |
| Reduce | reductionops.cc |
| Com, ComEval | laplace_com.h, laplace_com_acc.h, all operators |
| Laplace | laplace.h, laplace.cc, laplace_table.cc: S_to_M, S_to_L, M_to_M, L_to_L, M_to_L, M_to_T, L_to_T, S_to_T, rotations and their tables, legendre_Plm |
| Plane, PlaneTable, MergeShift | the plane-wave operators M_to_I, I_to_I, I_to_L, e_to_e, e_to_l, the tables of laplace_table.cc, merge_shift.cc/.h |
| Bessel, Yukawa | special_function.cc: the four `bessel_*_scaled`; yukawa.h, yukawa.cc, yukawa_table.cc: S_to_M, S_to_L, M_to_T, L_to_T (potentials), S_to_T, orders, scales, `generate_sqf` |
| Helmholtz | helmholtz.h, helmholtz_table.cc: S_to_M, S_to_L, M_to_T, L_to_T (potentials), S_to_T, orders, scales, `generate_sqf` |
| Waves | yukawa_table.cc, helmholtz_table.cc: the plane-wave tables of a level; yukawa.cc, helmholtz.h: `e_to_e`, `I_to_I`, `add_expansion`, the gathering part of `I_to_L` |
| Kernels | which of the eleven operations each built-in expansion implements (value, nullptr, nothing) and `contribute` dereferencing the answer |
| Coeff, RotTable | index maps of coefficient arrays, lengths of allocations, the maps of rotation matrices and their comparison (Laplace, Yukawa, Helmholtz) |
| Route | dualtree.h `instigate_dag_eval`, `instigate_dag_eval_remote`; expansionlco.h `spawn_out_edges` and its remote handler: the bytes of the messages, the resolution of targets by index |
| ExpMem | laplace.h, yukawa.h, helmholtz.h, laplace_com.h, laplace_com_acc.h, laplace.cc, yukawa.cc, special_function.cc: constructors, destructors and the `new`/`delete` of each operation |
| ExpRun | expansionlco.h:108-181, 199-276, 344-578, 584-690, targetlco.h:116-134, 176-223, dualtree.h:1374-1453, 1500-1706: tasks, parcels and the memory of an evaluation |
| ComExec | laplace_com.h 71-87, 169-298, laplace_com_acc.h 71-87, 169-327 within expansionlco.h 200-208, 337-367, 545-687, targetlco.h 176-218, dualtree.h 1666-1705 | real numbers; a result that is not finite is `none` / `⊤` |
| Session | evaluator.h:122-326, 350-461 (public calls, evaluate), rankwise.h:181-198 (assertion) | what the runtime does (every call may succeed, fail without effect or fail after its effect), the contents of trees and DAGs |
| YukShift | yukawa.cc:24-66, 146-224 (rotations, M_to_M, L_to_L); yukawa_table.cc:25, 326-568 (Wigner matrices, m2m, l2l); yukawa_table.h:66 | rounding; the gradient; `level` of scales that are not those of boxes |
| YukExec | dualtree.h:1365-1446, 1666-1705 (centres, scales, start), expansionlco.h:200-233, 545-687, targetlco.h:182-218 with the operators of yukawa.h:157-253 | the plane waves of the Yukawa kernel (FMM97); rounding |
| Weights | laplace.h, yukawa.h, helmholtz.h, laplace_com.h, laplace_com_acc.h: weight_estimate (with the shadowed variable of yukawa.h:314 and helmholtz.h:1079) | nothing of these functions |
| YukPlane | special_function.cc:49-69; yukawa.cc:508-623, 692-879, 903-1017; yukawa.h:254-279 | rounding; the leak of `z` (C94) |
| YukFmm | expansionlco.h:545-687 and yukawa.h:157-296 with the operators of YukExec and YukPlane: all operations of FMM97 along the edges of the DAG | rounding; views are functions of the position, their lengths those of the level |
| HelmShift | helmholtz.h:266-371, 1099-1185 (M_to_M, L_to_L, rotations); helmholtz_table.cc:23, 660-674, 790-915 (Wigner matrices, m2m, l2l); helmholtz_table.h:44-53, 149 | rounding; `level` of scales that are not those of boxes; the plane waves of the Helmholtz kernel |
| DirectExec | the LCOs as templates over the kernel (expansionlco.h:73-77, targetlco.h:60-64), dualtree.h:1666-1705, targetlco.h:182-218, helmholtz.h:480-497 | rounding |
| HelmPlane | special_function.cc:71-114; helmholtz_table.h:56-105; helmholtz.h:499-1042, 1241-1445 | rounding; `gaussq` (the nodes and weights of the propagating waves are parameters) |
| HelmFmm | as YukFmm, with helmholtz.h:69-109, 154-1061 | rounding; the run-time's memory (C94, C95) |
| Gamma | src/special_function.cc:27, 116-240 | rounding |
| PrintEdges | src/dag.cc:28-87, 111-128 | failure to open the file; `int` counters are unbounded |
| RankLocal | rankwise.h:40-117, 181-198 | allocation and release of the RankWise itself; what follows the missing `return` of `operator=` |
| Trace, TraceCover, TraceZero | trace/readtrace: worker.cc, locality.cc, trace.cc | `std::sort` is any sorted permutation; stamps below 2^63 in the coverage; quotients exact |
| TraceDb | trace/readtrace/sqlite3out.cc (Event, Eventtype and Segment rows), segment.h | SQLite itself is not modelled: a row that is inserted is there |
| TraceFile | trace/readtrace/tracefile.cc, traceevent.cc, dashmmevents.cc, networkevents.cc, segmentids.cc | `std::stoi` as the C++ standard gives it (blanks, sign, digits, range of int) |
| TraceKeys | trace/readtrace/sqlite3out.cc (all other tables, transactions), segmentids.cc | SQLite fails for no other reason than `BEGIN` in and `END` outside of a transaction; rows of an open transaction are not stored |
| TracePlot | trace/readtrace: plotter.cc, utilization.cc | pngwriter is the list of rectangles; no overflow of integers; the means without rounding; the sums and the output of a utilization are left out, since it is undefined before |
| Stepping | demo/stepping/stepping.cc (update_particles, the loop, set_sources) | real arithmetic; the order of the records in the array, options, timing and output left out |
| Combine | test/combinepoints (all), save_to_file of test/makepoints, test/common/common.h | the bytes of a record are a parameter; running out of memory or disk left out |
| Collect | test/collect/collect.cc (argument checks, calls on each rank, comparison) | exact complex arithmetic; printing and reading of the file (see Combine) left out |
| Demo | demo/basic/testmain.cc (shares, indices, points, charges, verification), pick_sphere_position of demo/stepping | exact arithmetic; random numbers are reals in [0,1]; options, timing and the evaluation itself (see C05 ff.) left out |
| Demo (points) | the pick functions of demo/basic and demo/stepping | rounding of the random numbers left out |
| GaussQ | src/helmholtz_table.cc:446-468, 518-637 (gaussq, imtql2) | exact real arithmetic; that 30 turns are enough is the assertion of the code and not proved; with NDEBUG the call goes with the assertion |
| GaussQ (exactness) | as GaussQ | as GaussQ |
| DemoRun | demo/basic/testmain.cc: read_arguments, the calls of prepare_*, perform_evaluation_test and main | getopt_long, atoi; what is printed |
| StepRun | demo/stepping/stepping.cc: read_arguments, set_sources (masses), the calls of perform_time_stepping and main | getopt_long, atoi; real arithmetic; what is printed; the records are those of Stepping |
| UserRun | demo/user/user_expansion.h (what the operations print), where the LCOs call them | a line is printed in one piece; what the expansion holds (nothing but its center) left out |

## What is not modelled

* Rounding of `double`. Geometry is over any ordered field with floor, kernels over the reals and complex numbers; 0/0 (a NaN) is a separate outcome
  (`none`, or `⊤` where values are added). Two exceptions: RotTable has an arbitrary rounding function, and Buffer/ViewSet treat doubles as opaque bytes.
* `int` overflow, unless a property is about it (C08: `size_t` is arithmetic modulo 2^64).
* HPX-5 itself. Assumed: an action runs to its end once started and its parcel is delivered exactly once; an LCO `set` runs its operation atomically and triggers once, when the
  predicate first holds; `hpx_call_when` runs after the trigger; locks exclude. Ranks, tasks and messages interleave in any order.
* Failure of allocation (except in `Array::allocate`, C89), the file system, the command line, demos, tests, tracing.
* The numerics of the shifts of Helmholtz and of its M_to_I and `e_to_l`, and `bessel_In`, `bessel_Jn`, `bessel_Yn` of special_function.cc: only index maps, allocations and rotation maps; the three tables are parameters.
* The numbers in the quadrature tables of laplace_table.cc: accuracy of FMM97 (C77, C79) is relative to the accuracy of the rule (`Rule.Accurate`), for which a bound is shown to exist
  for every rule, not computed for the literals.

## Remarks on single models

* **Tree construction (C22, C23, C58, C59).** Tasks divide slices of a shared array; a state is the array, the tasks and the nodes. `Steps` allows any order. Coincident points
  beyond the threshold never end (`C23_coincident_never_ends`), hence the hypothesis `atPlace ≤ threshold` in C78_exists.
* **DAG discovery (C33-C39).** Programs of sequential and parallel composition; `Runs prog acts` is any interleaving.
* **Execution (C42-C46, C49).** A state has per-node counters, accumulators, tasks and messages. A node that gets no input (in-count zero) never triggers and the evaluation hangs
  (`C44_*_can_hang`); theorems about results are about executions that are done. `reset_DAG` can run before the tasks of the last evaluation ended; C49 is partial because of that.
* **Laplace (C63-C74).** Accuracy is proved from the code's own recurrences, rotations and tables to the analytic error bounds, over the reals. `Clear` excludes points at (or within 1e-14 of
  the polar axis of, but not on) centres of boxes, where the code produces a NaN or replaces an angle (C63).
* **Plane waves (C75-C77).** The operators are proved to compute the quadrature rule's kernel expanded to order p; the layout of the flat arrays is C76.
* **End to end (C78, C79).** `Construction.Ok` lists what happens on one rank during tree construction, in terms of the other models. That the pointers inside a branch that the rank
  built itself form a tree of the nodes made by the tasks is assumed there (fields `shape`, `copy`); for received branches it is proved (`C78_received`).
  C80 closes this: there the heaps of all ranks are part of the state, every `split` writes the parent and child pointers, every send compresses what is in the heap and every
  receive extracts into the heap of the receiver, and `Construction.Ok` is proved of every reachable state. Its interface to the exchange of records is `Arrived`, which C81 proves.

## Plan per property

Each line says what is modelled and how the property is proved. Status and exact theorem names are in MANIFEST.json. "Negation witness" means that the property as stated is false of
the code: the failure is proved for a concrete reachable case, and a `_partial` theorem gives the condition under which it holds.

* **C01** Index arithmetic is a faithful octree address. Model `Index` over Int with `>>>`/`<<<`/`%`; laws by omega/Int lemmas (module Index).
* **C02** Boxes of the domain geometry tile the domain. Boxes over an ordered field (ℚ/any linear ordered field); arithmetic proofs (module Geometry).
* **C03** The cubic domain contains the requested rectangle. Cubifying constructor over an ordered field (module Geometry).
* **C04** Buffers never move past their end and are faithful. Buffers as byte lists with cursor; invariants by induction over operation lists (module Buffer).
* **C05** An empty request on an exhausted buffer is a success. Same model; negation with a concrete witness plus `_partial` (cursor not at the end).
* **C06** ViewSet::bytes is the exact serialized size. ViewSet model over the buffer model, little-endian scalars; size lemma (module ViewSet).
* **C07** ViewSet serialization round-trips. Round-trip by induction over views; negation witness for the zero-length tail; `_partial` excludes it.
* **C08** ArrayRef::slice yields only in-range sub-arrays. size_t as Nat mod 2^64; negation witness for wrap-around; `_partial` without wrap.
* **C09** Array allocation is consistent over ranks. Ranks as a list of requests; contribution vectors and their commutative reduction; invariants over every arrival order (module Array).
* **C10** Array::get returns exactly the requested local range. Local segment as list with explicit out-of-bounds outcome.
* **C11** Array::put overwrites exactly the requested local range. Same; negation witness for first>0, `_partial` for first=0.
* **C12** Array::get after put returns the data. Same; negation witness, `_partial` for first=0.
* **C13** Array::collect concatenates the ranks' records in rank order. Receive handler folded over any permutation of the messages.
* **C14** Array::map applies the action to each record exactly once. Recursive split as well-founded recursion; leaves list; count equality; schedules by permutation of leaf completions (module ForEach).
* **C15** The Hilbert key is a bijection. Orientation-state recursion over k; per-orientation permutation facts by exhaustive kernel computation on the finite state space, lifted by induction on k (module Hilbert).
* **C16** Consecutive Hilbert keys are adjacent cells. Same, with endpoint-corner invariants per orientation.
* **C17** The Morton key interleaves bits injectively. BitVec 64 model, bit extensionality lemma (module Morton).
* **C18** Key-space partition assigns every cell a valid rank, in order. Model of `partition` with explicit UB/assert outcomes; witness of failure; `_partial` under sufficient condition.
* **C19** simple_key enumerates the uniform grid. Nat arithmetic (module Grid).
* **C20** Every point is assigned to the uniform cell containing it. Floor arithmetic over an ordered field; counts by induction (module Grid).
* **C21** Grouping points is a permutation into contiguous cells. Array-as-function model of the cycle loop; invariant: set of finalized slots (module Group).
* **C22** Recursive partition builds a correct octree over the points. Fuelled recursive partition over points with comparisons against centre (module Partition).
* **C23** Tree construction terminates on every input. Negation: coincident points exceed any fuel; `_partial`: terminates if points are separable.
* **C24** Compressing and extracting a branch reproduces it. Tree as inductive type; BFS by levels; extract as fold; (module Compress).
* **C25** The uniform top tree is complete. Heap-index model of setup_basics (module TopTree).
* **C26** Looking up an expansion address walks to the right node. Walk function on trees by index digits (module TopTree).
* **C27** Pruning removes exactly the empty branches. removeDownwardLinks as recursion on trees (module TopTree).
* **C28** Point exchange is order-independent and triggers partitioning once. Transition system over message interleavings (module Exchange).
* **C29** Point messages fit their parcels and decode to what was sent. Byte layout model with abstract record serializer contract (module Exchange).
* **C30** Tree creation completes exactly once all cells are done. Counting set operations over all branches (module Exchange).
* **C31** Tree creation returns only after all users of its temporaries finished. Small transition system with task states; reachable bad state exhibited; `_partial` for senders with points.
* **C32** DAG bookkeeping: in-counts equal incoming edges. Atomic half-steps of link_nodes, any interleaving; counting invariant (module Dag).
* **C33** Direct method: every target gets every source exactly once. Edge-emitting model of traversal + provenance semantics (modules Method*).
* **C34** Barnes-Hut: every target gets every source exactly once. Same with arbitrary acceptance oracle.
* **C35** FMM: every target gets every source exactly once. Same.
* **C36** FMM97: every target gets every source exactly once. Same, views and tags explicit.
* **C37** FMM operators are only applied between well-separated boxes. Separation predicate on real boxes from emitted edges.
* **C38** DAG construction never trips its assertions. DAG-node creation recorded with assertion outcome.
* **C39** Target traversal partitions the targets. Target leaves visited partition the tree.
* **C40** Barnes-Hut acceptance is valid for every point of the target box. MAC over ordered field, squared distances; negation witness; `_partial` for the high side.
* **C41** Merge-and-shift lists translate by the exact displacement. Full finite table, kernel computed, lifted to all indices.
* **C42** Every DAG edge fires exactly once, and only after its source is final. Asynchronous executor as transition system over arbitrary DAGs; trace invariants (module Exec).
* **C43** The result does not depend on the schedule. Uniqueness of the solution of the DAG equations (module Exec).
* **C44** Evaluation always completes. Progress measure; negation with zero-input node; `_partial` when every non-source has an input.
* **C45** Termination is signalled only after all work. AND-LCO counting (module Term).
* **C46** Edges are delivered to the owning rank, in one message per rank. Grouping function over sorted edges (module EdgeGroup).
* **C47** Every DAG node is placed on exactly one existing rank. Policies as folds with explicit assertion outcome (module Distro).
* **C48** Work is split over workers without gaps or overlap. Chunk arithmetic (module Chunks).
* **C49** Resetting a DAG allows an identical second evaluation. Executor reset + C43.
* **C50** Reductions compute sum and maximum regardless of order. Commutative monoid folds (module Reduce).
* **C51** Centre-of-mass moments aggregate exactly. Field arithmetic (module LaplaceCOM).
* **C52** Coefficient index maps are gap-free packings. Integer arithmetic (module SpecialIdx).
* **C53** The rotation table key comparison is a strict weak order. Order on floor keys (module Cmp).
* **C54** Freeing a received branch frees its allocation. Consequence of BFS order in compress model (module Compress).
* **C55** Results do not depend on whether assertions are compiled in. Method model with assertion-effects flag; negation witness.
* **C56** All ranks agree on where every DAG node is placed. Uniqueness of the placement for any two runs of a policy; the random policy assumes the same seed and generator on all ranks (module Distro).
* **C57** The distribution of points over ranks is balanced. Bound on the shares from the partition model; `_partial`: when `distribute_points` does not fail (C18) (module Hilbert).
* **C58** Identical sources and targets give identical trees. Second run of Build over the array the first left (module Build).
* **C59** A cell signals completion exactly when its branch is built. Completion LCOs counted in Build states.
* **C60** A LaplaceCOM expansion evaluates the potential to quadrupole order. Taylor remainder over the reals; negation witness: the quadrupole term has the wrong sign; `_partial`: the error is of monopole order, and of second order with the opposite sign (module ComEval).
* **C61** A LaplaceCOMAcc expansion evaluates the field to quadrupole order. Same.
* **C62** Direct evaluation is the exact sum over sources. Sum over lists.
* **C63** Laplace expansions at the box centre. The code's division gives `none`; characterised exactly (module Laplace).
* **C64/C65** M_to_M, L_to_L exact. Rotation + axial shift = general translation; addition theorems proved from the recurrences (Proofs/Harm*, Lap*).
* **C66/C67/C68** Error bounds of multipole, local, M_to_L. Generating function of Legendre polynomials, geometric tail.
* **C69** Shifts do not add error. Consequence of C64/C65.
* **C70** S_to_T. Sum over sources not at the target.
* **C71** Rotations and tables. Recurrences of the code's tables satisfy the Wigner relations used.
* **C72-C74** FMM, Direct, BH accuracy for whole evaluations. Provenance (C33-C36) + executor (C42, C43) + C64-C70.
* **C75** Plane-wave operators apply the quadrature rule. Algebra of exponentials, rotations of the six directions.
* **C76** Layout of tables and expansions. Arithmetic on literals (kernel computation) and on offsets for all entries.
* **C77** FMM97 accuracy. C36 + C41 + C75 + bound for M_to_L lists.
* **C78** Tree construction, end to end. Composition of C20-C29, C58, C59.
* **C79** Evaluation, end to end. C78 + C72-C74, C77.
* **C80** Trees on all ranks together. World of heaps, cells and messages; invariant over counted runs (module RankTree, on C22-C29, C58, C59, C78).
* **C81** Records of all ranks arrive in their cells. Joins the grouping (C21), messages (C29) and merges (C28): each cell's list of merge tasks is a permutation of the per-rank groups (module Arrive).
* **C82** What is read back. Each place of a cell's array is in exactly one result node (counting argument over C79's permutation), so each record is written once; then C13 (module ReadBack).
* **C83** Life of the DAG. A heap with DAGNodes, pointers in tree nodes and LCOs; asserts, null and dangling uses, double deletes are failures; invariants over any schedule (module Life).
* **C84** Second DAG on a tree. Negation witness: the first action of every schedule adds the parts node of a source leaf, whose pointer is still set (module Life).
* **C85** Scaled Bessel functions. k_n by its recurrence against the closed form of DLMF 10.49.12; Taylor branches against the power series; negation witnesses for h_n at small arguments and for j_n after a zero. The tables of `bessel_In`, `bessel_Jn`, `bessel_Yn` are parameters with a stated accuracy; `_partial` in that sense (module Bessel).
* **C86** Yukawa expansions. The addition theorem for exp(-kR)/R is proved with a remainder (deforming the source to the centre at constant distance); the Wronskian bounds each term by the one of 1/R (modules YukAdd, YukErr, YukBound); then the model's loops are summed over the sources (YukOps, YukVal).
* **C87** Methods and expansions. Modelled: for every expansion and operation whether it computes, returns nullptr, does nothing, fails an assertion or reads outside a table with one entry per level, given the levels of the two ends of the edge and the level the table finds for the default scale 1.0; `contribute` dereferencing the pointer; the construction of the receiving expansion. Proved by following each method's loops over an arbitrary consider list; the lists are shown minimal on a pair of trees, which also is the counterexample for FMM with Yukawa; BH with Helmholtz is refuted for every non-empty source tree.
* **C88** Helmholtz expansions. The remainder of the addition theorem (YukErr, for complex k) at k = -i w; the addition theorem of the harmonics of one degree in the terms of the code (`zonal`) sums both the multipole loops (orders 0..n, real parts) and the local loops (orders -n..n, whose azimuth is 0 instead of 1 on the axis, where it does not matter).
* **C89** Life of an array. The state is the multiset of allocated objects; each allocation draws from an arbitrary `Luck`. Invariant `Accounted`: live = base + what the array owns, kept by every call, so by every history. Two failures break the full statement: a failed segment leaves the array allocated (`C89_failed_allocate_leaves_array`), and after a failed first LCO the handler goes on (`C89_reducer_failure_leaks`).
  Records in memory are of any type `F` with a serializer that keeps its contract, and are seen as a record of the tree with an exact real result by a function `view`
  (no serializer into bytes can be right for all reals, so `F` cannot be the reals themselves).
* **C90** Plane waves of Yukawa and Helmholtz. Modelled: the loops of the two table constructors for the waves of a level (numbers of angles, offsets, the arrays of factors), `e_to_e` on arrays with every read and write checked, `I_to_I`, `add_expansion`, the gathering part of `I_to_L`. Proved: loop invariants for the layout; an array invariant `Holds` (entry k, j at its place) through any list of source boxes; the directions from the finite table of merge_shift.cc, with the displacement composed of two shifts. Not modelled: `M_to_I` and `e_to_l` (numerics).
* **C91** Units. The tables of Yukawa are a function of the product; those of Helmholtz are not, since the constructor compares the frequency and not the frequency times the size (counterexample `C91_helmholtz_units_matter`; `C91_helmholtz_exit` says exactly when it ends the program).
* **C92** Trees give back what they allocate. The model of C80 with a ledger of what is allocated on each rank (nodes, arrays of received branches, locks, completion LCOs, the block of the top), `destroy_branch` and `delete_tree_handler` over the pruned heap; a deallocation of what is not in the ledger fails. Proved: invariant giving the ledger in every reachable state, then the exact set that is left. The full statement is false: the completion LCOs of other ranks' empty cells and the arrays of length zero stay (`C92_leaks`).
* **C93** Work along edges reaches the right place. Modelled: the records of out edges and the messages byte by byte (instigate_dag_eval, its remote handler, spawn_out_edges and its remote handler), the lookup by index in the tree of the receiving rank (model of C26) and the DAG objects of the rank (model of C83). Proved from what C24/C47/C83 establish about ranks after `create_DAG`, with the round trip of C07 for views; the loops over runs of equal locality by induction, with the invariant that the head of the scratch buffer is intact. Two limits shown by theorem: the count of edges (`C93_count_overflow`) and StoM edges across ranks (`C93_StoM_needs_locality`).
* **C94** Operations on expansions give back their memory. Modelled: each operation of the five built-in expansions as a program over a ledger of live blocks and parcels that gets stuck on an invalid use or free (Model/ExpMem); std::vector scratch space, which frees itself, and the contents of arrays are not in this model. Proved with a small frame logic over multisets: what is live after an operation is what was live before, the memory of the result, and exactly `leaks` blocks; `leaks` is 0 for Laplace and the centre-of-mass expansions on all edges that occur (the merge-and-shift table has an entry for each I_to_I edge of FMM97), and not 0 for Yukawa I_to_L and Helmholtz S_to_L, M_to_T, which are shown to leak. Partial: the claim is false for these.
* **C95** An evaluation uses live memory only and gives it all back. Modelled: the tasks (source leaves, remote sources, spawn_out_edges, remote spawn_out_edges), the parcels and the expansions held by LCOs as a transition system whose actions are the memory programs of Model/ExpMem and of expansionlco.h, with an explicit error outcome (Model/ExpRun); any interleaving, rank placement and order of out edges. Proved by an invariant that is a refinement to Model/Exec (multisets of edges ready and in the network) together with an exact account of the heap and of the parcels; a potential bounds the number of actions. Partial: the claim is false when the LCOs are destroyed before the tasks have ended (a concrete reachable double free is proved), and for kernels whose operations leak.
* **C96** – `Model/ComExec` runs the DAG of `Model/Exec` with the moments of `Model/Com` and the evaluations of `Model/ComEval`; `Model/Exec` asks no law of the addition, so `add_expansion` may fail and need not commute. Proof: every node of a finished run holds the fold of its in edges in the order of arrival (`Proofs/Order`); induction along the DAG that an expansion holds the moments of the sources below it and that the centre is in the box; the bounds come from C60/C61. Charges of both signs: counterexample theorem.
* **C97** The public calls of the evaluator as functions on a state (trees, DAG objects, LCOs that exist), with the end of every runtime call as a parameter; `evaluate` as the composition in the code, with the destructor of the unique_ptr. Proved by cases for `evaluate` and by induction over histories. Partial: errors of create_tree and create_DAG are not looked at, so the program crashes instead of returning kRuntimeError (`C97_unreported`).
* **C98** `yuk_m_to_m`, `yuk_l_to_l` and the tables `m2m_`, `l2l_` and the scaled Wigner matrices as functions of degree and order (Model/YukShift). In a common normalization the rotations are those of the Laplace kernel (proved to act as rotations of space there), and the shift along the axis is the finite section of the translation of the solutions of the modified Helmholtz equation: its coefficients satisfy the differential equations of the translation, so the error of the section is the integral of a flux through the last degree, which the size of the coefficients bounds (Proofs/Wave*). The inaccuracy of the Bessel functions enters through bounds on the same sums with perturbed tables (Proofs/Yuk*). Sizes of expansions of charges, and of translated expansions, by Cauchy–Schwarz over the orders.
* **C99** The asynchronous execution of Model/Exec with the operators of Model/Yukawa and Model/YukShift as the operations of the edges (Model/YukExec). Invariant of a multipole node: the leaves whose sources have arrived (with multiplicity, tied to the provenance of C37–C39), a bound on the size of the expansion, and a bound on the difference of its field and the potential of these leaves at every regular target outside the sphere around the box; `M_to_M` preserves it by C98, additions add the bounds. For a target node: the list of the ways of the contributions. By induction along the ranks of the DAG and the uniqueness of the evaluation (C42).
* **C100** weight_estimate of the five kernels (Model/Weights) with the tables of C94; the in-range claim from the shapes of the edges that the methods make (C94_ItoI_tags, C87), the placement from the policy theorems of C47/C48 with weights replaced by 1 on the edges that leave nodes without a place.
* **C101** `legendre_Plm_gt1_scaled`, `yuk_m_to_i`, `yuk_e_to_l`, `yuk_i_to_l` as functions of degree and order (Model/YukPlane) on top of the tables and shifts of C90. In the normalization of C98 the waves of a charge are the parts of low degree and frequency of the plane wave in a complex direction (addition theorem for the solid harmonics at isotropic complex arguments; Spec/YukPlane states it with Legendre polynomials and Fourier coefficients); `I_to_L` is its adjoint, the other directions are rotations of the frame. The gathering is C90. The accuracy of the rule is a hypothesis (`RuleAccurate`), shown satisfiable for some accuracy; the value for the literals of the tables is not established.
* **C102** `Model/YukFmm`: the execution of C99 with the operations `MtoI`, `ItoI`, `ItoL` of Model/YukPlane, the views added entry by entry. Invariants of the nodes, carried along the edges of FMM97: a multipole node is C99; an intermediate source node holds the waves of its multipole; an intermediate target node holds views whose `I_to_L` for each child is the sum of the contributions of the boxes that the child takes; a local node is within the summed errors of its ways and within the summed sizes, which C98's bounds carry through `LtoL`. Each contribution takes one way (direct, multipole at the target, charges into a local expansion, plane waves) that the DAG has; the error is a sum over the ways. The accuracy and growth of the plane waves at a level are hypotheses (`WavesAccurate`), shown satisfiable at every level (`C102_waves_have_accuracy`: the map is linear and depends on finitely many coefficients); the values for the literals of the tables are not established.
* **C103** `Model/HelmShift`: the tables and the translations. The wave number of the kernel is `κ = −iω`, so that the addition theorems along the z-axis of C98 hold with a complex parameter; the rotations are those of C64. A local expansion of this kernel has coefficients for both signs of `m`: it is split into two with real zonal parts (phase 1 and phase i), each moved by the lemmas of C98, and put together with a bound that does not lose a factor. The Bessel tables are parameters (`GoodTab`), met without any table in boxes that are small compared to the wavelength (`C103_small_box`).
* **C104** `Model/DirectExec`: the execution of C42 over an arbitrary commutative monoid of values. The provenance theorem of C33 gives the list of source leaves from which edges come to a target leaf (a permutation of the leaves), C43 the value of a node as the sum over its in-edges.
* **C105** `legendre_Plm_evan_scaled`, `legendre_Plm_prop_scaled`, `M_to_I`, `I_to_I`, `I_to_L` and `e2l` of the Helmholtz kernel as functions of degree and order (Model/HelmPlane) on top of the tables and shifts of C90. The Legendre arrays are solid harmonics of a complex direction `(σ, ζ)` with `ζ² + σ² = -1`; the addition theorem of C101 turns the waves of a charge into the parts of low degree and frequency of a plane wave, propagating or evanescent; conjugation gives the opposite directions and the other half of the angles; the value of a local expansion (a family of two-sided coefficients) is linear and turns with the frame. Together: the code computes the two quadrature rules of Spec/HelmPlane for every charge of a box apart. The accuracy of the quadrature itself is a hypothesis (`RuleAccurate`), which some `ε` always meets.
* **C106** the execution of C42-C44 with the operators of C88, C103 and C105 on the values of the LCOs (Model/HelmFmm: multipole coefficients, local coefficients, evanescent and propagating views, target values; no value `⊤` where the code fails). By induction along the acyclic DAG every node holds, up to the error of the ways, the field of the leaves its provenance (C36) names: `RelM` for multipole expansions (size and value), `RelL` for local expansions, `RelS`/`RelI` for the views (linear in the expansion, Proofs/HelmViews, Proofs/HelmBox). That the accuracies of plane waves and functions exist: linear maps on finitely many coefficients are bounded (Proofs/HelmGain).
* **C107** `Gamma` over the real numbers (Model/Gamma). The loop is a product of consecutive numbers, which gives the recurrence; the coefficients of numerator and denominator have signs that make the rational function positive on [0, 1]; the reflection is the parity of the sine. Compared with Mathlib's `Real.Gamma` through its recurrence, its reflection formula and its value √π at 1/2 (20 digits of π). The Stirling branch (12 and above) is modelled, its accuracy is not proved.
* **C108** `collect_edges` as a fold over nodes and edges with checked array accesses (Model/PrintEdges); invariant: the entries are the counts so far. Every edge leaves exactly one node of the three lists: Shape of C47 and the lists of C48.
* **C109** a state machine of the objects of a rank (Model/RankLocal): pins and copies that are acquired, members of the objects. Invariant: what the objects hold is acquired at least as often as they hold it; a copy has one holder. The excess never decreases, and only an assignment to an object that holds something increases it. The missing `return` of the move assignment is undefined behaviour and not modelled.
* **C110** the reader as a state (Model/Trace): an invariant over the files added so far (records per worker, keys in order, identifiers); windows of a sorted list are filters of it. `std::sort` is a relation (any sorted permutation). Partial: the records at the latest instant are lost (C110_latest_lost).
* **C111** the loop of `range_coverage` over the begin and end records of segments that are apart (Model/TraceCover), by induction over the segments. Partial, with three theorems on where the code deviates.
* **C112** the search for the origin over the workers of a locality and the subtraction modulo 2^64 (Model/TraceZero). Partial, with theorems on where the code deviates.
* **C113** the rows as lists (Model/TraceDb): the open segments of a worker by type as a state, related to the sublists of begin and end records of each type; the rows of the workers are filters of one list.
* **C114** names and contents as lists of characters and bytes (Model/TraceFile), with the tables of types by name; splitting and little-endian numbers by induction, the tables by evaluation in the kernel.
* **C115** the tables as lists of rows that grow by the first occurrence of a key (Model/TraceKeys), by induction over the events; the statements of the transactions as a list that is run by a small model of the connection, by induction over the rows left, for every prefix.
* **C116** the positions of samples with an arbitrary rounding function that is monotone with relative error 2^-53 (Model/TracePlot); the image as a list of rectangles. Partial: C116_white_inside and C116_utilization_undefined say where the code deviates.
* **C117** particles followed by identity, an evaluation as an arbitrary list of the modelled S_to_T and M_to_T on each (Model/Stepping); the accumulated field by induction over steps, momentum by antisymmetry of the pairs, schedules by C14. Partial: C117_later_steps and C117_second_step_wrong say where the code deviates.
* **C118** files as byte lists with an arbitrary fixed-size codec per record (Model/Combine); read/write by induction over the records, Combine by cases over the flags and induction over the targets. Partial: C118_second_file_ignored, C118_always_success, C118_half_done say where the code deviates.
* **C119** the arguments by enumeration, the collective calls of each rank as a list (Model/Collect), the loop of the comparison by induction, over the complex numbers. Partial: C119_unknown_kernel and C119_ranks_disagree say where the code deviates.
* **C120** shares and indices as lists over the ranks, the map of indices as the fold that builds it, the loop by induction over the exact results (Model/Demo); distinctness of the indices is decided for all n and ranks by arithmetic. Partial: C120_index_twice and C120_collision_wrong say where the code deviates.
* **C121** the functions over the real numbers with the random numbers as arguments (Model/Demo); the mass fraction of the Plummer sphere is the specification (Spec/Demo).
* **C122** the three arrays as functions, the search, the sweep as a fold over the rotations, the sort (Model/GaussQ). Every turn of a sweep is shown to be a rotation of two coordinates of the quadratic form (with the element outside the three diagonals carried along), so a sweep changes coordinates only; an element treated as zero changes the form by at most its size, which the test bounds by the diagonal and so by the form; induction over turns and rows. The Jacobi matrix is bounded by 1 by completing squares.
* **C123** from C122: in the coordinates with respect to the eigenvectors the matrix is multiplication by the nodes up to the error, so moments of the rule are first elements of powers of the matrix; these agree with those of the infinite matrix below 2N steps, which are the moments of the interval, as the Legendre polynomials (defined by their recurrence) have integral zero. The integral is Mathlib's.
* **C124** model of the loop over the options (what getopt_long returns is a list of letters and arguments, atoi a parameter), the tests in their order, and the calls of the library as a list. Induction over the options; cases of kernels and methods.
* **C125** model of the loop over the options (what getopt_long returns is a list of letters and arguments, atoi and the masses parameters) and of the calls as a list, with the value of rank 0 after the broadcast (Model/StepRun). Induction over options and masses.
* **C126** the lines printed by the operations and additions of User as a function of the events of the executions of C42 (Model/UserRun); from C42 by permutation of the log, end to end for FMM.
