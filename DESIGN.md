# Formal model of `principal_sequence_of_partition`

Source under study: `/repo` (C++). Prover: Lean 4.33.0 + Mathlib. All modules live in `lean/Verif`.

## 1. What the library promises

Given a weighted graph on nodes `0..n-1`, let `f(P)` be the total weight of the arcs whose end points
lie in different blocks of the partition `P`, and `h_λ(P) = f(P) - λ|P|`. The *principal sequence of
partitions* (PSP) is the list of minimisers of `h_λ` as `λ` grows, together with the critical values of `λ`
where the minimiser changes. `PSP::run(method)` computes it by one of several algorithms
(`dt`, `pdt`, `pdt_r`, `psp_i`, `hpsp`, `agg_psp`).

The specification is in `Verif/Spec/PSP.lean` and mentions no definition of the model.

## 2. Modelling decisions

* **Numbers.** `double` is modelled by exact rationals `ℚ` (every finite double is a rational). Rounding is
  modelled for `dt`, `psp_i`, `hpsp`, `pdt`, `pdt_r` and `agg_psp` (`Model/Rounded`, `Model/RoundedPSPI`, `Model/RoundedPDT`, `Model/RoundedPMFR`, `Model/RoundedAIC`; C63-C66, C70, C72-C75, C77-C79, C86, C87), and for `AIC` on hypergraphs and finite linear sources
  and for `CL` on entropy functions (`Model/RoundedFunctors`; C89, C91).
  `Spec.FloatingPoint` covers the formats of IEEE 754 with their limited exponents: small numbers are rounded to multiples of
  `2 ^ -low` (underflow), and nothing but monotonicity is assumed for arguments above `2 ^ high`, so the theorems imply that
  what happens there does not matter. C77 and C79 use in addition that sums of numbers of
  the format have no underflow (`Theory/FormatSums`), and assume that the linear solver returns numbers of the format below a
  limit (`FormatSolver`; infinite results of the solver are not modelled). The counterexamples are run
  with `roundDouble`, which is proved to be the rounding of `double` including subnormal numbers. `lemon::Tolerance<double>::epsilon()` is a parameter `ε` of the model, not a constant, and every
  comparison in the code that uses it is kept. Infinite values are explicit (`Option`/`WithTop`), a division by
  zero is a distinct outcome.
* **Outcomes.** `Outcome α` = value, C++ exception, undefined behaviour, floating-point non-finite result
  (`nan`), or out of fuel. Recursive functions take fuel; theorems show that the fuel passed always suffices.
* **Sets.** `stl::CSet` is `Finset ℕ`; `stl::Partition` is `Finset (Finset ℕ)`. The submodule `psp/set` is not in
  the tree, so its operations are modelled by their documented meaning (trusted). The iteration order over a
  `Partition` is a parameter where it could matter.
* **Graphs.** `lemon::ListDigraph` + `ArcMap` is the list of valid node ids and the list of arcs (source, target,
  capacity) in insertion order. LEMON itself is not in the tree.
* **Max-flow.** `lemon::Preflow` is a parameter (`FlowSolver`), assumed to return the value of a minimum cut
  together with a minimum cut (`Correct`). Nothing is assumed about *which* minimum cut is reported unless a theorem
  has the hypothesis `Minimal`: the sink side is then the inclusion-minimal one. LEMON does not promise that: to our
  knowledge `Preflow::minCut` reports as sink side all nodes whose label stayed below the maximum, which can include
  nodes that no longer reach the sink in the residual network. Therefore every algorithm has a theorem for arbitrary
  correct solvers, and a sharper one under `Minimal`; `C01_needs_minimal_cuts` shows that the
  sharper conclusion really needs it. A brute-force instance shows that the assumptions are satisfiable,
  and makes the model executable.

## 3. Plan per property

| id | modelled | proof idea |
|----|----------|-----------|
| C01 | `DT::run/split`, both `minimize`, `make_dgraph`, PSP wrapper | recursion invariant: both end points are finest minimisers at some λ; concavity; uniqueness from the uncrossing argument |
| C02 | same | chord argument on the concave lower envelope, for any ε |
| C03 | `PMF`, `PDT` | invariant for all λ: y_λ lies in the polytope {y(S) ≤ f(S)-λ} and the blocks are tight |
| C04 | `HPSP` | recursion on (subgraph, contraction); threshold forest is optimal at every λ |
| C05, C06 | `PSP_I` | same recursion on trees; queue emits thresholds; counterexample for ties by evaluation |
| C07 | wrapper | uniqueness of the principal sequence |
| C08, C09 | both `DilworthTruncation` classes | greedy invariant: x(S) ≤ f(S)-λ, blocks tight, finest |
| C10 | `get_cut_value`, `get_partition_value` | induction on arcs |
| C11 | all methods, `main` output loop | from the PSP theorems, plus direct list-shape lemmas |
| C12 | `DT::split` | fuel bound by |P|-|Q|; count of truncations |
| C13 | `DT::split(…,k)` | same invariant with |Q| < k ≤ |P| |
| C14, C15 | wrapper | uniqueness of the PSP applied to permuted/scaled input |
| C16 | `make_dgraph`, constructors | induction on the arc list |
| C17-C19 | `minimize` | negations: concrete witnesses evaluated by the kernel; general theorem for self loops |
| C20, C21 | wrapper state machine | induction on call histories; witness for the violation |
| C22 | `compute_lambda` | loop invariant: sum = F(last turning point) |
| C23 | `PMF::slice` | chain of minimisers, monotone differences |
| C24 | `modify_flow` | preflow conditions arc by arc |
| C25 | `PMF_R::slice` threads | transition system, inductive invariant over all interleavings |
| C26 | `PDT::run` twice | witness |
| C27 | `contract` | weights between groups |
| C28 | wrapper | case analysis on the method string |
| C29 | all methods, n = 1 | evaluation |
| C30-C33 | `HC`, `CL` | union-find forest invariant over call histories |
| C34, C35 | `DigraphEntropy`, `edmonds_greedy` | arcwise counting; submodular greedy |
| C36 | `operator<<` | list induction |
| C37 | all methods, non-minimal cuts | witnesses evaluated by the kernel |
| C38, C39 | `PMF_R`, `PDT_R` | cut capacity of the contracted network = objective + constant; recursion as for `PMF` |
| C40 | `PDT_R::run` twice | as C26 |
| C41 | constructor with three vectors | list induction |
| C42 | `HC::find`, `HC::similarity` | union by rank: a tree of rank k has 2^k nodes |
| C43 | `AIC::agglomerate`, `Agglomerative_PSP`, `PSP::run_agg_psp` | level sets of the minimum norm base are tight; blocks joined at the largest ratio give the next coarser partition of a set function submodular on intersecting sets |
| C44 | `min_norm_base` | invariant of Wolfe's algorithm: the corral is affinely independent, the norm decreases, so no corral returns; if the algorithm gives up, it has seen 102 points with decreasing norms and gaps that did not decrease (`C44_stuck`) |
| C45 | `HypergraphEntropy` | as C43 for another set function |
| C46 | `SF::mutual_info` | arcwise counting |
| C47 | `digraph_contract` | capacity between pairs of nodes, then sums |
| C48 | `digraph_copy` | invariant of LEMON's linked node list; erasing inside the loop jumps to the free list |
| C49 | `FiniteLinearEntropy` | elimination computes the rank; dimension formula; then as C43 |
| C50, C51 | `gaussian.hpp` | Schur complement = minimum of the quadratic form; determinants are log-submodular |
| C52 | `PMF_R` with flow maps and elevators | max-flow min-cut for rational networks; the contracted flow is a flow of the contracted network; refinement to C38/C39 |
| C53 | constructor from a graph, then any method | the uncopied graph has the same optimal partitions; witness for zero weights |
| C54 | `main` as a function on a file system | case analysis; output loop by list induction |
| C55 | `example.cpp` | counts and critical values determine the result for every environment |
| C56, C57 | all methods | telescoping sum of consecutive optima; first and last chord |
| C58 | all methods | a set that holds together is never cut by an optimal partition, and every block holds together |
| C59 | all methods | number of maximum flow computations of a run: at most `n(2n-3)`, `n(n-1)`, `2n(n-1)`, `n(n+1)/2-3` (twice); the last is attained on stars for every `n` |
| C60 | `PSP` objects | invariant: every address on the heap has at most one owner; induction over programs |
| C61 | `HC::getPartition`, `Agglomerative_PSP::run` | number of objects that remain, by induction over the rounds |
| C62 | `PMF_R::run`, `PMF_R::slice`, `PDT_R::run` with their objects | frame of a call of `slice`, induction over the recursion |
| C63 | `DT` with a rounding after every operation, solver with errors | `DInv` with error terms (`AInv`), error bounds for sums, gaps between costs for integer weights |
| C70 | `DT` with a rounding after every operation, weights that are no integers | near optimal ends of every call of `split` (`NChain`); sorting the values moves each of them by at most the error (`insertionSort_close`) |
| C66, C67, C68 | `PMF`, `PDT` with a rounding after every operation, and with the tolerance alone; `PMF_R`, `PDT_R` with the tolerance alone | near minimisers of the parametric objective (`NearAt`, `AChain`); the base and the partitions with error terms (`AInv`, `WChain`) along the merge; neighbouring near optima with weights on a grid are optimal at a nearby parameter; refinement of `PMF_R::slice` to `PMF::slice` for all weights; witnesses |
| C71 | `PSP_I`, `HPSP` with the tolerance alone, arbitrary weights | every edge in a contracted graph has at least the weight `eps`, so none is dropped; a tree whose nodes are right up to `eps` (`GoodA`) gives a sequence that is right up to `(n-1) eps`, since each expanded node and each unexpanded set costs at most `eps` (`queueLoop_near`, `mergeLoop_near`) |
| C72 | `PSP_I` with a rounding after every operation, arbitrary weights | the contracted graph represents exactly a graph whose weights are changed by a factor near 1 (`RepF`); a tree whose values are only nearly ordered (`GoodF`) gives a chain that is right after sorting (`queueLoop_nearF`) |
| C73 | `HPSP` with a rounding after every operation, arbitrary weights | `HPSP::split` simulates `PSP_I::split` step by step also with rounding (`HSimF`), so the arrays hold the values of the same tree (`enc_values`); the merge reports every value above the root's (`mergeLoop_values`) |
| C74 | `DT::run(k)` with a rounding after every operation | a truncation whose value is small enough returns a partition strictly between the two ends (`DSetup.next`), so both recursions of `DT` visit the same partitions (`DSetup.splitNum`) |
| C75 | `PMF_R`, `PDT_R` with a rounding after every operation, for every schedule | the networks of `slice` as cut functions with node capacities (`gObj`), monotone in the parameter after rounding; one-sided errors of the two ends (`UpAt`, `DownAt`) so that the errors of contracted networks add up linearly along the recursion; then as for C66; witnesses |
| C76 | the factor `L` of `min_norm_base` with its exception | simulation by a rational scaled factor (`codeFactor_sim`), which can be evaluated; `L Lᵀ = e eᵀ + Qᵀ Q` as an invariant of append and of a single deletion (`Gram.append`, `Gram.delete`), so the pivot is positive for affinely independent columns (`schur_pos`); a monitor for double deletions (`aggRunSF_watch`); witness |
| C77 | `min_norm_base`, `edmonds_greedy` with a rounding after every operation (`Model/RoundedAIC`), arbitrary solver | the accepted weights are positive and sum to about 1, so the point is near a convex combination of bases (`comb_near`); the greedy point minimises the inner product, so the test bounds the gap (`certified_gap`); underflow only matters in products and is small in comparison with `eps`, the weights and the tolerance, and the gap bounds the distance (`gap_dist`); with an exact solver and `n * eps < 1` a minor cycle never removes all columns, since the weights sum to 1 (`Theory/WolfeSafe`) |
| C78 | `Agglomerative_PSP::run`, `HC::merge` | every accepted merge gives one more cluster a parent (`MergeGrows`), a round without one repeats for ever (`stepLoop_dichotomy`); witnesses by evaluation |
| C79 | `DigraphEntropy`, `AIC::agglomerate` with a rounding after every operation | error of the contracted functor (`join_near`); the minimum of all exact minimum norm bases is the merge value (`Round.mergeValue`), and the computed one is as near to it as the points are (`gamma_of_points`); which clusters a round merges follows from the comparison with the rounded bound (`Theory/AggLinks`) |
| C80, C82 | two runs of any methods on two graphs (`Spec/Compare`: weight between two nodes, clusters at a threshold, embeddings) | by C58 two nodes are together exactly if some set holds together; such a set holds together in a heavier graph (`holds_embed`), and has no pieces without edges between them (`holds_one_part`) |
| C81 | two runs of any methods on graphs with the same nodes | counts of clusters at a threshold give the order of the values (`sorted_le_of_counts`); for the stability both graphs are compared with the graph of the smaller weights (`meetArcs`), where all differences have one sign and sums of values are total weights (C56) |
| C83 | two runs with tolerances or rounding (`RunResult` in `Props/Compare` lists the runs with known error bounds: C66, C67, C70-C72, C75, C87) | uncrossing of partitions that are optimal up to an error for two different graphs (`near_refines_two`) |
| C84 | `convert`, `toNetworkX` of `utility/gaussian2Dcase.py` (`Model/LgfPy`) | the lines that are read are the lines written up to their ends (`lines_join`, `readLines_same`); loops by induction on the lines |
| C85 | `Gaussian2DGraph` (`Model/Gaussian2D`) | the edges are the pairs above the tolerance (`cloudEdges_ok`); no distance grows, so no weight falls (`between_cloud_mono`), then C83 with `weightExcess` 0 |
| C86 | `aggRunF`: all rounds of `agg_psp` with a rounding after every operation | for integral weights all values of the functors and all results of `edmonds_greedy` are computed exactly (`Theory/IntegerValues`); a point of `min_norm_base` is near the projection to the affine hull of some of these results (`Theory/RoundedCorral`, `Theory/PreciseSolver`); there are finitely many such projections, so one that is as near to the minimum norm base as the test of optimality ensures is the minimum norm base; then the induction of C43 (`Theory/AICRun`, for any threshold) applies |
| C87 | `aggRun`, `aggRunF`: all rounds, any weights | a round merges blocks whose coordinates are within the tolerance and the errors of the smallest one; the level sets of minimum norm bases are tight, so each such merge is cheap (`Round.level_price`); merges are combined by uncrossing (`merge_together`), which bounds the cost of a partition coarser than the new one; if a partition is the cheapest of its coarsenings at its merge value it stays nearly optimal there (`near_of_coarser`, `near_next`); a value above the last one stops all progress (`mergeAll_refused`), otherwise the errors of the rounds add up (`Theory/NearCoarser`, `Theory/AggApprox`) |
| C88 | `aggRunSF`: `hypergraphEntropy`, `finiteLinear`, any functor with an intersecting submodular function | the proof of C87 is made for set functions (`Theory/NearSF`, `Theory/NearCoarser`, `Theory/AggApprox`); digraphs are the case of `incident` (`approx_of_incident`) |
| C89 | `hypergraphEntropyF`, `finiteLinearF`, `aicRunF` | `NearFunctor` bounds the rounding of a functor; a rounded sum of weights and a product `unit * rank` meet it (`Theory/RoundedFunctors`); then as C87. `doubleHypergraph_run` and `doubleSource_run` are runs with `double` that meet all assumptions. Elimination is over exact field elements, so only the product with `unit` rounds |
| C90 | `CL.new`, `CL.ofEntropy`, `HC.getPartition`; methods of `PSP` | merging two blocks saves at least the mutual information of their elements (`Theory/ChowLiu`, `pair_le`), breaking a block of an optimal partition in two costs at least the parameter (`break_block`); in a forest an edge is the only one between its sides |
| C91 | `CL.ofEntropyF` with `digraphEntropyF`, `hypergraphEntropyF`, `finiteLinearF` | `info_near` bounds the error of one mutual information by `NearFunctor`; single linkage (C33) of the rounded values; then as C90 |
| C92 | `agglomerateF`, `aggLoopF`, `HC.merge` with any `mnb` | the links a round passes to `merge` either change nothing (then `run` never ends, `loopWith_shape`) or join clusters that were apart; the last critical value is the least (`HCInv.last`); entries of the points are rounded numbers, so the smallest one is below the threshold (`mnbOfF_fixed`) |
| C93 | `aicObject`, `aicObjectF`, `HC.getPartition`, `getCluster`, `getCriticalValues`, `similarity` | all links of one round have the same value, which is at most every earlier one, so cutting the forest at `gam` gives the partition after the last round with a value above `gam` (`loopWith_queries`); a partition with the most blocks at `γ` stays optimal a little above `γ`, where the optimum is unique (`C93_optimal`) |
| C94 | two runs of any methods, on a graph and on a part of it or on the graph with merged nodes | a set that holds together above the threshold lies in one cluster at it (`holds_mono`, `clusters_within`); partitions of the merged nodes cost as much as their preimages (`crossWeight_mergePull`) and the clusters are the finest cheapest partition (`clustersAt_optimal`) |
| C95 | one run of any method | every edge between two blocks leaves exactly two blocks (`sum_boundary`), every edge inside a set is counted at two nodes (`sum_degree`); strength and densest set from C57, clusters from C58 |
| C96 | the `AIC` object after agglomeration | a block of an optimal partition may be replaced by a partition of it (`IsOptimalSF.block`), and the blocks that meet a set which shares enough may be merged (`costSF_expand_le`, by `uncross_meeting`); the answers of the object from C93, the sequence from C45/C49 |
| C97 | the `AIC` object in floating-point arithmetic; runs of C83 | the lemmas of C96 for nearly optimal partitions (`near_block_shares`, `near_same`); for graphs what the parts of a set have in common is the weight between them (`common_incident`) |
| C98 | one run of any method; runs of C83 | breaking a block in two cuts at least the parameter (`break_block`), so a block cannot split into parts without edges between them; the ends of an edge hold together below its weight (`edge_holds`) |
| C99 | one run of any method; runs of C83 | every edge is inside a block or between two (`cross_inside`), so a bound of the density of the blocks bounds the price of a partition from below (`cross_ge`, `cross_gt`); ends of the critical values from C57; `inside_complete` by induction on the number of nodes |
| C100 | the `AIC` object after agglomeration | for a subadditive function the partitions into independent parts are the optimal ones at the threshold 0 (`independent_iff`); the clusters at 0 refine each of them (`sf_cluster`, `near_same` from C96, C97) |
| C69 | `get_psp` of `experimental/get_psp.py` (`Model/GetPSP`) | critical values of a tree are its weights (`tree_critical`); invariants of the loop for stars, for the values and for orderly trees (`Theory/GetPSPTree`); conversely the order of the merges decides what is lost (`Theory/GetPSPOrder`); witnesses |
| C64, C65 | `PSP_I`, `HPSP` with a rounding after every operation, solver with errors | the decisions are those of some solver without rounding (`DecideSpec`), and values are only compared: `fl` is strictly monotone on the possible values |

## 4. What is modelled where

| module | code | left out |
|--------|------|----------|
| `Model/Basic` | `psp_i.h` helpers, `make_dgraph` (graph construction), `Outcome` | - |
| `Model/Flow` | the flow solver as a parameter | LEMON itself |
| `Model/Dilworth`, `Model/DT` | `dt.cpp` | `cout` under `_DEBUG` |
| `Model/PSPI` | `psp_i.cpp`: `Gradient`, `DilworthTruncation`, `contract`, `split`, queue | - |
| `Model/HPSP` | `hpsp.cpp` | - |
| `Model/PMF` | `pmf.cpp`: `PMF` with its warm starts (`WarmSolver`), `PDT` | elevators |
| `Model/PMFR` | `pmf_r.cpp`: `PMF_R`, `PDT_R`; which thread delivers is a parameter (`Finish`) | starting points (see `Model/PMFRWarm`), debug checks |
| `Model/PMFRWarm` | `pmf_r.cpp`: `PMF_R` with the flow maps and elevators its solvers start from (`HLSolver`, `RWarm`), `modify_flow` | an elevator is represented by the nodes of its network; memory management (see `Model/LifePMFR`) |
| `Model/Race` | threads, mutex, condition variable and interrupts of `PMF_R::slice` | weak memory: all shared accesses are under the mutex or after `join` |
| `Model/Mem` | the in-place changes of the shared graph by both `DilworthTruncation::minimize`: `addNode`, `addArc`, `erase`, free list, `maxNodeId` | arc ids |
| `Model/PSP` | class `PSP`: constructors, `run`, getters; output loop of `main`; `io_utility.cpp` | destructor (see `Model/LifePSP`), free list after `psp_i`/`hpsp`, printing of a `Partition` |
| `Model/HC` | `IC/src/Core.hpp`: `HC`, `LinkList`, `sort_indexes`; `IC/src/ChowLiu.hpp`: `CL` | destructors (see `Model/LifeHC`), printing; values of `merge` are finite |
| `Model/AIC` | `IC/src/AIC.hpp`: `edmonds_greedy`, `min_norm_base`, `AIC`; `IC/src/hypergraph.hpp`; `psp/agglomerative.cpp`; `SF::mutual_info` | the values of the incremental factor `L` (whether its test throws is a parameter; see `Model/Factor`), the tree maps of `Agglomerative_PSP` |
| `Model/Factor` | `IC/src/AIC.hpp:62-66, 90-109, 146-170`: the matrix `L` over the real numbers, the test that throws | after a division by zero the model stops (`nan`) though the code goes on with undefined entries |
| `Model/Agg` | `PSP::run` compiled with `AGG` | - |
| `Model/Util` | `digraph_utility.cpp`; LEMON's `ListDigraph` nodes as linked list (`NodeStore`) | arc lists of LEMON |
| `Model/FLS` | `IC/src/FLS.hpp` | PARI's elements of the field and its `rank`: any field `F`, Gaussian elimination |
| `Model/Gaussian` | `IC/src/gaussian.hpp`, over the reals | Eigen's `LLT` is a parameter (`ExactLLT`: exact, reads the lower triangle only); `cerr` |
| `Model/Main` | `main.cpp` (both `main` paths, names of result files, exit codes), `example.cpp` | argument parsing (`Args`), the LGF reader (parameter), how numbers are printed |
| `Model/Count` | the algorithms again with a counter of `Preflow` runs (`Theory/Count` proves that forgetting the counter gives the other files) | work inside one flow computation |
| `Model/Heap` | which objects exist (`HM`): `new`, `delete`, local objects | addresses are never used twice, so use after deletion is always noticed |
| `Model/LifePSP` | lifetimes of `PSP` objects and graphs: constructors, implicit copies and assignments, destructor | - |
| `Model/LifeHC` | `HC::getPartition`, `AIC::agglomerate`, `Agglomerative_PSP::run` with the lists they create | vectors and queues own their memory |
| `Model/LifePMFR` | `PMF_R`, `PDT_R` with graphs, arc maps, flow maps, elevators and threads; who owns an elevator is a parameter | exceptions inside a thread; members of `PMF_R` end after `run` |
| `Model/Rounded` | `dt.cpp`, `graph.h` with rounded arithmetic; `FlowSolver.Approx` | infinities, NaN; which operations the flow solver rounds (only its total error is bounded) |
| `Model/RoundedPSPI` | `psp_i.cpp`, `hpsp.cpp` with rounded arithmetic | as `Model/Rounded` |
| `Model/RoundedPDT` | `pmf.cpp` with rounded arithmetic | as `Model/Rounded` |
| `Model/RoundedPMFR` | `pmf_r.cpp` with rounded arithmetic; the schedule is a parameter | as `Model/Rounded`; the starting points of flow computations |
| `Model/RoundedAIC` | `AIC.hpp`: `min_norm_base`, `SF_`, `agglomerate`; `agglomerative.cpp`: `DigraphEntropy`, `run`, with rounded arithmetic; products of Eigen are parameters (`NumericsF`) | as `Model/Rounded`; the values of the factor `L` |
| `Model/RoundedFunctors` | `HypergraphEntropy`, `FiniteLinearEntropy`, `run` for any functor, `CL` on a functor, with rounded arithmetic | as `Model/RoundedAIC` |
| `Model/AICQueries` | the `AIC` object after the loop of `Agglomerative_PSP::run` | queries between two calls of `agglomerate` are covered by C30 to C32 |
| `Model/LgfPy` | `convert`, `toNetworkX` of `utility/gaussian2Dcase.py` | texts as lists of characters; printing of floats a parameter; the generation of points and matrix, encodings and names of files are left out |
| `Model/Gaussian2D` | `test/gaussian2Dcase.cpp` | `exp` a parameter, numbers exact, random numbers a sequence; `np` not negative |
| `Model/GetPSP` | `experimental/get_psp.py` | Python dictionaries as finite maps; numbers exact; the `while` loop with fuel |

The linear solver of `min_norm_base` (Eigen's `llt().solve`) and its sort are parameters (`Numerics`); the theorems ask
for exact solutions (`ExactNumerics`). `gaussNumerics` (Gaussian elimination, proved exact) shows that this can be met and
makes the model executable. Since the precision `eps` and the tolerance are absolute numbers in the code, C43–C45 say that
they work if small enough for the given function; `C43_small_weights_violated` shows that the built-in `1e-6` is not. A
fixed tolerance is also not enough in general for another reason: the optimality test bounds the squared distance to the
minimum norm base by the tolerance, so the distance can be of the order `1e-3`, while the test for merging uses `1e-6`
(`C43_agg_psp_approx` states what would suffice). The exit by the counter of stuck cycles (AIC.hpp:79-86) is a proviso of
C43–C45 (`NeverStuck`); it is proved impossible for up to four nodes.

`FineTolerance eps n E` and `PdtTolerance eps n E` say that the tolerance is below the resolution of the weights:
all arithmetic of the algorithms stays on a grid, and the grid is coarser than the tolerance. For integer weights and
LEMON's `1e-10` they hold up to the sizes stated in `integer_weights*`. Without such a condition `pdt` and `pdt_r` are still
right up to an error that grows with `n (n + 2)^2 eps` (C67), `psp_i` and `hpsp` up to `(n - 1) eps` (C71), `dt` up to `2 eps` (C70), each
plus the weights of edges that are discarded.

## 5. Findings (defects proved with witnesses)

1. `psp_i` repeats critical values on ties (`C06_ties_violated`).
2. Arcs from a higher to a lower node are ignored, also with the public constructor (`C17_orientation_violated`);
   already the Dilworth truncation reports a value below the minimum (`C17_truncation_violated`).
3. Parallel arcs are not summed (`C18_parallel_violated`), a positive self loop is undefined behaviour
   (`C19_self_loop_violated`).
4. `hpsp` returns overlapping blocks and `pdt` throws "lambda value mismatch" if the flow solver reports a minimum cut
   that is not the smallest (`C04_needs_minimal_cuts`, `C03_needs_minimal_cuts`).
   Neither `dt`, `psp_i` nor `hpsp` needs minimal cuts if no optimal partition lies strictly between the coarsest and the
   finest one (`NoBetween`; `C01_dt_no_between`, `C06_pspi_no_between`, `C04_hpsp_no_between`).
5. A second `PDT::run` or `PDT_R::run` divides zero by zero on every graph (`C26_rerun_violated`, `C40_rerun_violated`).
6. `PMF_R::slice` waits forever if both workers throw (`C25_deadlock`); it uses `if` instead of `while` around
   `cond.wait`, which is harmless (`C25_hand_over` covers spurious wake-ups).
7. The parametric flow divides zero by zero if `{j}` is optimal at the start value (`C23_pmf_nan`, `C39_pmf_r_nan`).
8. `psp_i` and `hpsp` contract the caller's graph, so another run on the same object gives a different result
   (`C21_violated`); `dt`, `pdt` and `pdt_r` can be repeated in any order (`C20_history`).
9. On the one-node graph `dt` divides zero by zero, the other methods do not (`C29_one_node`).
10. Printing an empty vector reads out of bounds (`C36_show`); the constructor with three vectors reads out of bounds if
   the second or third is shorter than the first (`C41_short`) and turns negative ids into huge ones (`C41_negative`).
11. `HC::getCriticalValues(i)` misses values at which the cluster of `i` changes (`C32_violated`); `HC(0)` does not throw
   (the `runtime_error` is constructed, not thrown) and its `getPartition` is undefined (`C30_empty`); `CL` checks neither
   lengths nor indices (`C33_unchecked`).
12. `DigraphEntropy` counts an arc from a higher to a lower node twice (`C34_reversed_violated`), so `agg_psp` returns a
   wrong critical value (`C43_reversed_violated`). Parallel arcs are no problem for `agg_psp`.
13. The tolerance of `agglomerate()` is absolute: small weights give wrong partitions and repeated critical values, also
   with exact arithmetic (`C43_small_weights_violated`).
14. `min_norm_base` on one element does not subtract the value of the empty set (`C44_single_violated`).
15. `agg_psp` after `psp_i` or `hpsp` on the same object asks for erased nodes (`C43_history`).
16. `digraph_contract` drops the capacity towards `S` at nodes that also have capacity from `S` (`C47_lost`), and leaves
   parallel arcs if `S` is a single node (`C47_duplicates_violated`). `digraph_copy` erases nodes while iterating: only
   the largest missing id is missing in the copy (`C48_copy`, `C48_copy_violated`).
17. `ScalarGaussianEntropy` accepts matrices that are not symmetric; values then depend on the order of the elements
   (`C50_asymmetric_violated`). It gives nats, `GaussianEntropy` gives bits (`C50_value`, `C51_value`).
18. `PMF_R::slice` hands the elevators from before the contraction to the children of a contracted call
   (pmf_r.cpp:549-550): a solver that needs an elevator for its own network can fail (`C52_elevator_violated`). This does
   not happen if only the left or only the right threads deliver (`C52_left_partial`, `C52_right_partial`).
19. The flow `PMF_R` starts a solver from need not be a preflow: the contracted sink may send out more than it receives
   (`C52_preflow_violated`; the witness uses starting values `y` of its own, none was found for those of `PDT_R`). The
   release build ignores that `init` returns false. A solver that only needs the other conditions is
   fine (`C52_warm_partial`).
20. An edge of weight zero in a graph of the caller or in an LGF file makes `pdt` and `pdt_r` return a wrong result: both
   PMF classes then add a second arc to the sink and both arcs get the full capacity (pmf.cpp:103-123,
   pmf_r.cpp:110-132; `C53_zero_violated`). The constructor with a list drops such edges.
21. `main` treats the result name `output.txt` as not given, so no file of that name can be asked for
   (`C54_output_violated`); the default name prepends the method to the whole path of the graph, so a graph in another
   directory gives a result in a directory that does not exist, and the program ends with 0 without a result
   (`C54_lost_silently`, `C54_lost_violated`). `agg_psp` is offered, but the default build throws (`C54_agg_violated`).
22. `docs/source/detail.rst` gives `PSP_I` the complexity `O(n MaxFlow(n))`. On stars with weights `K (i+1)!` it (and
   `HPSP`) makes exactly `n(n+1)/2 - 3` flow computations, each from scratch (`C59_attained`, `C59_not_linear`): the
   number of flow computations is quadratic in the worst case. The bound `O(n^2)` flows holds (`C59_flow_count`).

23. Class `PSP` has a destructor that deletes the graph, but neither copy constructor nor assignment. A copy of an object
   made from a list shares the graph: it is deleted twice (`C60_copy_violated`) or used after its end
   (`C60_copy_use_violated`); an assignment loses the graph of the left side (`C60_assign_violated`). An object made
   from a list for `number_of_node <= 0` never deletes its graph (`C60_empty_violated`).
24. `HC::getPartition` never deletes `to_cluster`: every call leaves `n + 1` objects behind
   (`C61_partition_violated`), every run of `Agglomerative_PSP` with `k` partitions `2 k (n + 1)` (`C61_agg_violated`).
   The destructor of `LinkList` would leave `lnode[0]` (`C61_list_violated`).
25. `PMF_R` deletes the elevators of its solvers itself (pmf_r.cpp:168-173, 555-560), also those that a solver made in
   `init`. If the destructor of `Preflow_HL` deletes them too (as LEMON's `Preflow` does; the class is in a missing
   submodule), every run of `PDT_R` on at least two nodes is undefined behaviour (`C62_own_violated`). If it does not,
   a thread interrupted after `init` in a contracting call leaves its elevator behind (`C62_leak_violated`); otherwise
   the objects are right (`C62_partial`, `C62_clean_partial`).
26. **Large integer weights**: `dt` compares numbers of the size of the weights with an absolute tolerance. For the path
   with weights `2^52+1`, `2^52+2`, exact as `double` values, it loses a partition (`C63_large_violated`). For weights
   within the bound of `RoundingFine` the partitions are right (`C63_dt_rounded`).
27. **`hpsp` and rounding**: for two 4-cycles with weights 1 and a common node, an edge with weight 4 and a further node,
   `hpsp` in `double` arithmetic returns blocks that overlap, even if the flow solver only rounds its value
   (`C65_hpsp_violated`). The value `4/3` is rounded, so the truncation joins one of the cycles but not the other, and
   `merge` cannot handle a node whose parent in the tree has the same value. This needs no large weights. The critical
   values are right (`C65_hpsp_values_partial`), and so are the partitions if no optimal partition lies strictly between
   the coarsest and the finest one (`C65_hpsp_no_between_partial`); `psp_i` is not affected (`C64_pspi_rounded`).
   With other weights even a tree with four edges and the weights 0.1, 0.2 and 0.3 suffices (`C73_partitions_violated`),
   while the critical values are still right up to a small error (`C73_hpsp_values_partial`).
28. **`pdt` and rounding**: `PDT::run` merges two sorted lists of critical values and treats values as equal only if they
   are the same `double` (pmf.cpp:319-338). The same critical value computed in two ways differs in the last place, and
   the merge then inserts a partition between the two that is not in the principal sequence. This happens for a graph with
   6 nodes and 7 edges of weight 1 (`C66_pdt_violated`). The damage is limited: unless the run throws "lambda value
   mismatch", all partitions returned are optimal up to a small error (`C66_pdt_approx_partial`, for all weights), for
   integer weights exactly optimal, and the critical values are close to the true ones (`C66_pdt_weak_partial`).
   The exception does occur: `PMF::compute_lambda` takes a turning point for the solution if a rounded difference of cut
   values is at most the tolerance, and `PMF::slice` (pmf.cpp:203-213) throws if the result is outside the interval by
   more than the tolerance. For 6 nodes and 5 edges whose critical values differ by almost exactly the tolerance these two
   tests disagree in double arithmetic (`C66_exception_violated`); with exact arithmetic the run ends normally.
29. **`get_psp.py`**: when a node that already has a group is merged into its parent, the parent is forgotten
   (get_psp.py:19, `C69_lost_violated`); when the parent was merged into its own parent before, a second group is opened
   and the blocks overlap (`C69_overlap_violated`). `C69_tree_partial` says exactly for which trees the script is right
   (`Orderly`); for instance it fails on the path `[0, 0, 1]` with the weights `[0, 1, 2]`. The entry of `W` for the root, which belongs to no edge, must not be
   above the others (`C69_root_violated`), and with two weights below -1 the loop never ends (`C69_forever_violated`).
30. **`psp_i` and rounding**: with weights that are no integers the critical values that `psp_i` reports need not be in
   increasing order. For 6 nodes and 9 edges with the weights 0.1 and 0.3 they are 0.2, 0.30000000000000004, 0.3, 0.35
   (`C72_order_violated`): two computations of the same critical value differ in the last place, and the queue of
   `PSP_I::run` (psp_i.cpp:118-154) pushes a child whose value is below the value of its parent. Sorting the values moves
   each of them by at most a small error, and with sorted values the result is right up to a small error
   (`C72_pspi_approx_partial`).
31. **`DT::run(k)` and large weights**: `DT::split(Q, P, k)` has no check that the partition it continues with differs from
   `Q` and `P`. For a triangle with weights 700000 the tolerance `1e-10` is lost when it is subtracted from `-1050000`; the
   same call is repeated forever (`DT::run(2)`), or `Q and P have the same size` is thrown (`DT::run(4)`)
   (`C74_large_violated`). `DT::run()` compares the numbers of blocks and ends.
32. **`pdt_r` in double arithmetic depends on the threads.** For six edges with weights 0.2 to 0.9 the first critical value is
   0.6 or the next smaller double, depending on which thread delivers first (`C75_threads_violated`). Additional partitions
   and the exception "lambda value mismatch" occur as for `pdt` (`C75_pdt_r_violated`, `C75_exception_violated`), with the
   same bounds on the damage in every schedule (`C75_pdt_r_approx_partial`, `C75_pdt_r_weak_partial`). Also the partitions
   can depend on the threads: for 7 nodes and weights 0.1 and 0.2 five partitions are returned in one schedule and six in
   another, and neither list contains the other (`C75_partitions_violated`).
33. **`min_norm_base` loses its factor when two columns are removed at once.** In a minor cycle the rotations that keep `L`
   triangular are done for one marked column after the other while the rows are still in place (AIC.hpp:148-159), so those
   for the second column start from the wrong rows; afterwards `L Lᵀ` differs from `e eᵀ + Qᵀ Q`, and a later major
   cycle throws "Try to set a higher functional tolerance." although all arithmetic is exact. Five nodes and five edges with
   weights 1 and 3 are enough (`C76_agg_psp_violated`). `L` has no other effect: the weights are computed from `Q`
   (AIC.hpp:118), and without the test the result is right (`C76_nothing_else`). As long as every minor cycle removes one
   column the exception cannot occur (`C76_min_norm_base_partial`, `C76_agg_psp_partial`), nor on at most three elements,
   so for `agg_psp` on at most four nodes (`C76_three`, `C76_agg_psp_four`).
34. **`agg_psp` can run for ever.** For a cycle of four nodes with weights 1, 1, 1 and 1.000003 the loop of
   `Agglomerative_PSP::run` never ends and appends to its lists without end, with exact arithmetic (`C78_cycle_violated`)
   as with `double` (`C78_cycle_double_violated`). `min_norm_base` stops as soon as its gap is below `1e-6`, so its
   coordinates differ from each other by up to `1e-3`; `agglomerate` then merges only some of the clusters that belong
   together (AIC.hpp:290 compares with `1e-6`), the next round finds a larger value, and `HC::merge` refuses it
   (Core.hpp:186-189) while `agglomerate` returns `true`. In general a round makes no progress exactly if its value is above the
   last critical value (`C78_stuck_iff`), and then nothing changes any more (`C78_ends_or_never`).
   An exact `min_norm_base` would not help: on `slowArcs` (seven nodes) the tolerance of AIC.hpp:290 alone joins nodes at a value
   that is too high for them, and the loop never ends (`C78_exact_points_violated`).
35. `min_norm_base` can return the origin as optimal though it is not in the base polytope: if the precision `eps` is large
   all columns are removed (`C77_origin_violated`). Otherwise the test of optimality is reliable, whatever the linear
   solver returns (`C77_min_norm_base_partial`). With an exact solver "large" means `1/n` or more: below, the result is always a
   base (`C77_exact_solver`), at `1/n` it need not be (`C77_bound_violated`). The code uses `10⁻¹⁵`.
36. `toNetworkX` never labels the source: after the loop over the arcs `st` still holds the line `@attributes`, in which
   `source` is looked for (gaussian2Dcase.py:31), and the next line, which names the source, is searched for `target`
   (`C84_attributes_violated`). A file without `@arcs` makes it loop for ever (`C84_endless_violated`).
37. `Gaussian2DGraph` without an array makes `4 * (np / 4)` positions but reads `np` of them (gaussian2Dcase.cpp:11-26), which is
   undefined behaviour unless 4 divides `np` (`C85_random_violated`). The comment gaussian2Dcase.h:28 has `exp(-γ‖·‖²/2)`, the
   code `exp(-γ‖·‖²)`.
38. The comment of `CL` (ChowLiu.hpp:32) says that it returns the PSP of the graph. It does so for forests (`C90_forest`); for the
   triangle it does not (`C90_triangle_violated`), and the values can be too small by the factor `n²/4` (`C90_between`, `C90_sharp`).

## 6. Trusted base

* Lean's kernel; axioms `propext`, `Classical.choice`, `Quot.sound` only.
* The model against the code: `Props/ProjectTests` runs the tests of the project (`/repo/test`) on the model, including the
  internal values they look at (`W`, `K` of `hpsp`, `contract`, `modify_flow`, `construct_new_update_base` of `PMF_R`), exactly
  and in double arithmetic; all expectations are met. These are tests of the model, not proofs.
* The reading of the C++ text in `/repo`; semantics of LEMON, Eigen, boost and `psp/set` as stated above.
* Not modelled: floating-point rounding except in `dt`, `psp_i`, `hpsp`, `pdt`, `pdt_r`, `agg_psp` (`Model/Rounded`, `Model/RoundedPSPI`, `Model/RoundedPDT`, `Model/RoundedPMFR`, `Model/RoundedAIC`) and `AIC` and `CL` on hypergraphs and finite linear sources (`Model/RoundedFunctors`; no infinities and NaN there, see Numbers), memory management except as in `Model/LifePSP`, `LifeHC`, `LifePMFR`, timing output, the parser of the command line,
  the LGF reader, numerical linear algebra (the solver inside `min_norm_base`, Eigen's Cholesky decomposition).
