{"id": "C01", "title": "PSP::run(\"dt\") returns the principal sequence of partitions", "statement": "After PSP::run(\"dt\") on a graph with n>=2 nodes whose arcs go from a lower to a higher node id (no parallel arcs), get_partitions()/get_critical_values() are the principal sequence: partitions start at {V}, end at singletons, strictly refine, critical values strictly increase, and partition i minimises (weight of arcs crossing blocks) - lambda*|P| exactly for lambda between its two neighbouring critical values (uniquely strictly inside).", "quantifier": "all node counts n>=2, all simple low-to-high weighted graphs, all real lambda, all competitor partitions, all correct max-flow solvers, all tolerances below the resolution of the weights", "why_tests_cant": "The number of competitor partitions is the Bell number and lambda ranges over a continuum; tests only compare a few hand-computed sequences.", "anchors": ["psp/psp.cpp:PSP::run_dt", "psp/dt.cpp:DT::run", "psp/dt.cpp:DT::split", "psp/dt.cpp:DilworthTruncation::run"]}
{"id": "C02", "title": "dt is within the tolerance of optimal for every graph and every lambda", "statement": "With no assumption at all on the weights (other than > tolerance), for every lambda some partition returned by PSP::run(\"dt\") costs at most eps more than the cheapest partition of the node set, eps being the library tolerance.", "quantifier": "all low-to-high simple weighted graphs with n>=2, all lambda, all partitions, every eps>0", "why_tests_cant": "A continuum of lambda and exponentially many partitions; the tolerance-based early exit only matters for adversarial weights.", "anchors": ["psp/dt.cpp:DT::split", "psp/dt.cpp:DT::run"]}
{"id": "C03", "title": "PSP::run(\"pdt\") returns the principal sequence of partitions", "statement": "Same conclusion as C01 for the parametric method \"pdt\".", "quantifier": "all n>=2, all simple low-to-high weighted graphs, all lambda, all partitions, all correct max-flow solvers that report minimal sink sides, all sufficiently small tolerances", "why_tests_cant": "As C01; moreover pdt maintains piecewise-linear functions of lambda whose correctness is an invariant over all lambda.", "anchors": ["psp/pmf.cpp:PDT::run", "psp/pmf.cpp:PMF::run", "psp/pmf.cpp:PMF::slice"]}
{"id": "C04", "title": "PSP::run(\"hpsp\") returns the principal sequence of partitions", "statement": "Same conclusion as C01 for the hierarchical method \"hpsp\".", "quantifier": "all n>=2, all simple low-to-high weighted graphs, all lambda, all partitions, every iteration order over the blocks of a partition", "why_tests_cant": "As C01; additionally the result must not depend on the order in which blocks are contracted.", "anchors": ["psp/hpsp.cpp:HPSP::run", "psp/hpsp.cpp:HPSP::split", "psp/hpsp.cpp:HPSP::merge", "psp/hpsp.cpp:HPSP::contract"]}
{"id": "C05", "title": "PSP::run() (default psp_i) returns nested optimal partitions", "statement": "After PSP::run() / run(\"psp_i\"): the partitions start at {V}, end at singletons and strictly refine each other, the critical values never decrease, and partition i is a minimiser for every lambda between its neighbouring critical values. Stronger claim users expect (critical values strictly increase, result equals the dt result) is examined separately (C06).", "quantifier": "all n>=2, all simple low-to-high weighted graphs, all lambda, all partitions, every iteration order over blocks", "why_tests_cant": "As C04; the priority queue order over an arbitrary tree cannot be exhausted by examples.", "anchors": ["psp/psp_i.cpp:PSP_I::run", "psp/psp_i.cpp:PSP_I::split", "psp/psp_i.cpp:PSP_I::contract"]}
{"id": "C06", "title": "psp_i critical values are strictly increasing / psp_i agrees with the other methods", "statement": "The critical values returned by the default method strictly increase and equal those of dt. (The code violates this when two branches split at the same critical value; what does hold: after merging runs of equal critical values the psp_i output is the principal sequence.)", "quantifier": "all simple low-to-high weighted graphs, n>=2", "why_tests_cant": "Existing tests only run psp_i on graphs without ties, so the suite passes although the claim is false.", "anchors": ["psp/psp_i.cpp:PSP_I::run", "test/test_psp_i.h", "test/test_pmf.h:FourPointNotComplete"]}
{"id": "C07", "title": "All methods agree", "statement": "dt, pdt, hpsp and pdt_r return the same partitions and the same critical values on the same graph.", "quantifier": "all simple low-to-high weighted graphs, n>=2", "why_tests_cant": "Agreement on every input follows only from uniqueness of the principal sequence, not from sampling.", "anchors": ["psp/psp.cpp:PSP::run"]}
{"id": "C08", "title": "DilworthTruncation computes min over all partitions", "statement": "DilworthTruncation(lambda,g,w).run(): get_min_value() equals the minimum over all partitions P of f(P)-lambda*|P|, get_min_partition() is a partition of the node set attaining it, whichever minimum cut the max-flow solver picks at each step.", "quantifier": "all simple low-to-high graphs, all lambda (also negative), every choice of minimum cuts", "why_tests_cant": "Bell-many partitions, real lambda, arbitrary tie-breaking inside the flow solver.", "anchors": ["psp/dt.cpp:DilworthTruncation::run", "psp/dt.cpp:DilworthTruncation::minimize", "psp/psp_i.cpp:DilworthTruncation::run", "psp/psp_i.cpp:DilworthTruncation::minimize"]}
{"id": "C09", "title": "DilworthTruncation returns the finest minimiser", "statement": "If the solver reports minimal sink-side cuts, get_min_partition() refines every partition attaining the minimum (so it is unique).", "quantifier": "all simple low-to-high graphs, all lambda, all minimising partitions", "why_tests_cant": "Must hold against all optimal partitions at tie values of lambda.", "anchors": ["psp/dt.cpp:DilworthTruncation::run", "psp/psp_i.cpp:DilworthTruncation::run"]}
{"id": "C10", "title": "evaluate/get_partition_value is the crossing weight", "statement": "get_partition_value(g,w,P) (sum of in-cuts of the blocks) equals the total weight of arcs whose end points lie in different blocks of P, for any orientation of the arcs; DilworthTruncation::evaluate subtracts lambda*|P|.", "quantifier": "all digraphs (parallel arcs, loops, any orientation), all partitions of the node set", "why_tests_cant": "Universal identity over graphs and partitions.", "anchors": ["psp/graph.h:get_cut_value", "psp/graph.h:get_partition_value", "psp/dt.cpp:DilworthTruncation::evaluate"]}
{"id": "C11", "title": "Lists returned have matching lengths", "statement": "After a successful run with n>=2 nodes, number of partitions = number of critical values + 1, the first partition is {V} and the last one is all singletons; hence main's output loop never reads past the end.", "quantifier": "all graphs and methods dt, pdt, hpsp, psp_i", "why_tests_cant": "Depends on the shape of the recursion for arbitrary inputs.", "anchors": ["psp/psp.cpp:PSP::get_critical_values", "psp/psp.cpp:PSP::get_partitions", "main.cpp:main"]}
{"id": "C12", "title": "dt does at most 2n-3 truncations and always terminates", "statement": "DT::run on n>=2 nodes terminates, calling the Dilworth truncation at most 2n-3 times, and never divides by zero, for every graph and tolerance.", "quantifier": "all graphs satisfying the precondition, all eps>0", "why_tests_cant": "Termination for every input cannot be tested.", "anchors": ["psp/dt.cpp:DT::split"]}
{"id": "C13", "title": "DT::run(k) returns the coarsest principal partition with at least k blocks", "statement": "For 2<=k<=n, DT::run(k) returns the partition of the principal sequence with the fewest blocks among those with at least k blocks; for k<=1 the first nontrivial one; for k>n the singletons. It never throws logic_error. (The header comment says 'finest partition with |P|>k', which is not what is computed.)", "quantifier": "all graphs, all k", "why_tests_cant": "Quantifies over all graphs and k; the documented comment and the code disagree.", "anchors": ["psp/dt.cpp:DT::split(Q,P,partition_num)", "psp/dt.cpp:DT::run(int)", "psp/dt.h"]}
{"id": "C14", "title": "Order in which arcs are given does not matter", "statement": "Permuting the arc list passed to the PSP constructor does not change the result of run(\"dt\"/\"pdt\"/\"hpsp\").", "quantifier": "all arc lists, all permutations", "why_tests_cant": "Factorially many permutations of arbitrary lists.", "anchors": ["psp/psp.cpp:PSP::PSP", "psp/graph.h:make_dgraph"]}
{"id": "C15", "title": "Scaling weights scales critical values", "statement": "Multiplying all weights by c>0 leaves the partitions unchanged and multiplies each critical value by c (dt, pdt, hpsp).", "quantifier": "all graphs, all c>0 (tolerance small in both)", "why_tests_cant": "Continuum of scale factors and graphs.", "anchors": ["psp/psp.cpp:PSP::run"]}
{"id": "C16", "title": "Negligible arcs are ignored, invalid ids are undefined behaviour", "statement": "The PSP constructor drops exactly the arcs whose weight is <= tolerance, keeps all others in order; an arc with positive weight and an end point >= number_of_node indexes outside the graph (undefined behaviour), and this is the only way construction can go wrong.", "quantifier": "all arc lists and node counts", "why_tests_cant": "Universal over inputs, undefined behaviour cannot be observed reliably in tests.", "anchors": ["psp/graph.h:make_dgraph", "psp/psp.cpp:PSP::PSP"]}
{"id": "C17", "title": "Orientation of arcs does not matter (violated)", "statement": "README and docs present the input as an (undirected) graph, so reversing an arc should not change the result. The code only looks at arcs into the newest node from smaller ids, so reversed arcs change the result. Counterexample proved; positive statement holds for low-to-high arcs.", "quantifier": "all graphs and orientations", "why_tests_cant": "All tests list arcs with i<j.", "anchors": ["psp/dt.cpp:DilworthTruncation::minimize", "psp/psp.h:PSP", "README.md"]}
{"id": "C18", "title": "Parallel arcs add up (violated)", "statement": "Giving an edge as two parallel arcs w1, w2 should be equivalent to one arc w1+w2. The code overwrites instead of adding when collecting the arcs into the newest node. Counterexample proved.", "quantifier": "all multigraphs", "why_tests_cant": "No test has parallel arcs.", "anchors": ["psp/dt.cpp:DilworthTruncation::minimize (line 50)", "psp/psp_i.cpp:DilworthTruncation::minimize (line 21)"]}
{"id": "C19", "title": "Self loops are harmless (violated for dt)", "statement": "A self loop contributes to no cut, so it should not matter. run(\"dt\") writes outside a vector for any positive-weight self loop: undefined behaviour for every graph containing one.", "quantifier": "all graphs containing a self loop with weight > tolerance", "why_tests_cant": "Undefined behaviour, not observable by a test; no test has loops.", "anchors": ["psp/dt.cpp:DilworthTruncation::minimize (line 50)"]}
{"id": "C20", "title": "run(\"dt\") and run(\"pdt\") leave the graph untouched, so a PSP object can be rerun", "statement": "After run(\"dt\") (or \"pdt\") the graph is as before, so any sequence of further dt/pdt runs on the same PSP object returns the same lists.", "quantifier": "all graphs, all finite sequences of runs", "why_tests_cant": "All histories of calls.", "anchors": ["psp/psp.cpp:PSP::run", "psp/dt.cpp:DilworthTruncation::minimize"]}
{"id": "C21", "title": "Any sequence of run() calls on one PSP object gives the same result (violated by psp_i and hpsp)", "statement": "Calling run again on the same object should give the same lists. psp_i and hpsp contract the shared graph, so a later run of any method sees a smaller graph. Counterexample proved.", "quantifier": "all histories of run calls", "why_tests_cant": "Needs a history of calls; the tests never rerun after psp_i.", "anchors": ["psp/psp_i.cpp:PSP_I::contract", "psp/hpsp.cpp:HPSP::contract", "psp/psp.cpp:PSP::run"]}
{"id": "C22", "title": "compute_lambda solves the piecewise-linear equation", "statement": "PMF::compute_lambda(list,target) returns lambda with |sum_i min(a_i-lambda,b_i) - target| <= tolerance (exactly 0 unless it stops at the first turning point), throws range_error only if there is no solution, for every nonempty list.", "quantifier": "all nonempty parameter lists (finite or infinite b_i), all targets, all eps>=0", "why_tests_cant": "All lists and targets; tests use four fixed lists.", "anchors": ["psp/pmf.cpp:PMF::compute_lambda"]}
{"id": "C23", "title": "PMF::run gives all minimum cuts for every lambda", "statement": "After PMF::run for node j: get_set_list is a strictly decreasing chain of sets ending in {j}, get_lambda_list is strictly increasing with one element fewer, and the k-th set minimises f(T)-y_lambda(T\\{j}) over all T containing j for every lambda between its neighbours.", "quantifier": "all graphs, all j, all piecewise-linear y that arise, all lambda >= -0.1", "why_tests_cant": "Continuum of lambda and exponentially many sets.", "anchors": ["psp/pmf.cpp:PMF::run", "psp/pmf.cpp:PMF::slice"]}
{"id": "C24", "title": "Warm start of the flow solver is always valid", "statement": "modify_flow always produces a preflow that Preflow::init accepts (within capacities, nonnegative excess at every node but the source) whenever lambda does not decrease, so ignoring init's return value in release builds is safe (exact arithmetic).", "quantifier": "all networks, all flows, all lambda_1 <= lambda_2", "why_tests_cant": "All flows and parameters.", "anchors": ["psp/pmf.cpp:PMF::modify_flow", "psp/pmf.cpp:PMF::slice"]}
{"id": "C25", "title": "pdt_r: the two worker threads always hand over a result", "statement": "In every schedule, if at least one of the two max-flow workers does not fail, slice neither deadlocks nor reads an unset result: it returns a completed worker's cut. If both workers throw before notifying, slice waits forever (counterexample proved).", "quantifier": "all interleavings of the main thread and both workers including spurious wake-ups, interrupts and worker failures", "why_tests_cant": "Interleavings cannot be enumerated by tests.", "anchors": ["psp/pmf_r.cpp:PMF_R::slice", "psp/pmf_r.cpp:executePreflow", "psp/pmf_r.cpp:executePreflow_reverse"]}
{"id": "C26", "title": "Re-running a PDT object gives the same result (violated)", "statement": "PDT::run contains code 'handle multiple run', but the second run on the same object starts from stale parameters of node 0 and divides by zero / returns something else. Counterexample proved; the first run is correct (C03).", "quantifier": "all histories of PDT::run", "why_tests_cant": "Needs a second run on the same object.", "anchors": ["psp/pmf.cpp:PDT::run"]}
{"id": "C27", "title": "Contraction preserves crossing weights", "statement": "contract(S,i) used by psp_i and hpsp: for every partition of the contracted node set, the crossing weight in the contracted graph equals the crossing weight of the expanded partition in the original graph; result is again simple and low-to-high.", "quantifier": "all simple low-to-high graphs whose weights are above tolerance, all node sets S with least element i, all partitions", "why_tests_cant": "Universal over graphs, sets and partitions.", "anchors": ["psp/psp_i.cpp:PSP_I::contract", "psp/hpsp.cpp:HPSP::contract"]}
{"id": "C28", "title": "Unknown methods are rejected without changing results", "statement": "PSP::run(m) for m not in the method list throws logic_error and leaves get_partitions/get_critical_values and the graph unchanged; before any successful run both are empty.", "quantifier": "all strings, all object states", "why_tests_cant": "All strings and histories.", "anchors": ["psp/psp.cpp:PSP::run"]}
{"id": "C29", "title": "Degenerate graphs", "statement": "For n=1, psp_i, hpsp and pdt return one partition and no critical value whereas dt divides by zero (0/0) and returns two identical partitions and a NaN critical value.", "quantifier": "the one-node graph", "why_tests_cant": "Documents an inconsistency between methods that no test covers.", "anchors": ["psp/dt.cpp:DT::split", "psp/pmf.cpp:PDT::run", "psp/hpsp.cpp:HPSP::run", "psp/psp_i.cpp:PSP_I::run"]}
{"id": "C30", "title": "HC::getPartition(gamma) groups exactly the merged points", "statement": "After any sequence of HC::merge calls, getPartition(gamma) returns a partition of {0..n-1} whose blocks are the connected components of the accepted merges with value > gamma.", "quantifier": "all n, all sequences of merge calls, all gamma", "why_tests_cant": "All histories of calls.", "anchors": ["IC/src/Core.hpp:HC::merge", "IC/src/Core.hpp:HC::getPartition"]}
{"id": "C31", "title": "HC similarity is the bottleneck value", "statement": "HC::similarity(i,j) is the largest gamma at which i and j are together (0 if never).", "quantifier": "all n, histories of merges, pairs i,j", "why_tests_cant": "All histories.", "anchors": ["IC/src/Core.hpp:HC::similarity"]}
{"id": "C32", "title": "HC::getCriticalValues(i) lists all values where the cluster of i changes (violated)", "statement": "Documented as the critical values of the clusters containing i; misses changes caused by siblings attached to an ancestor. Counterexample proved.", "quantifier": "all histories of merges, all i", "why_tests_cant": "All histories.", "anchors": ["IC/src/Core.hpp:HC::getCriticalValues"]}
{"id": "C33", "title": "Chow-Liu clustering is single linkage", "statement": "CL::agglomerate run to the end: getPartition(gamma) are the connected components of the graph of pairs with weight > gamma.", "quantifier": "all n, all weight lists, all gamma", "why_tests_cant": "All weight lists.", "anchors": ["IC/src/ChowLiu.hpp:CL"]}
{"id": "C34", "title": "DigraphEntropy is the incident weight, monotone and submodular", "statement": "For low-to-high digraphs DigraphEntropy(B) is the total weight of arcs touching B, and is a normalised monotone submodular function, as AIC requires.", "quantifier": "all low-to-high digraphs with nonnegative weights, all node lists B without repetition", "why_tests_cant": "Universal over sets.", "anchors": ["psp/agglomerative.cpp:DigraphEntropy"]}
{"id": "C35", "title": "edmonds_greedy returns a base", "statement": "edmonds_greedy(f,w) returns x with x(V)=f(V)-f(empty), x(S)<=f(S)-f(empty) for all S, and minimises <w,x> over that polytope, for submodular f.", "quantifier": "all submodular f, all weight vectors", "why_tests_cant": "Exponentially many constraints.", "anchors": ["IC/src/AIC.hpp:edmonds_greedy"]}
{"id": "C36", "title": "Printing a vector", "statement": "operator<< prints [a, b, c] for nonempty vectors; on the empty vector size()-1 wraps around and it reads out of bounds.", "quantifier": "all vectors", "why_tests_cant": "Undefined behaviour at the boundary.", "anchors": ["psp/io_utility.cpp:operator<<"]}
{"id": "C37", "title": "pdt and hpsp work with whatever minimum cut the flow solver reports (violated)", "statement": "A max-flow library promises some minimum cut, not the smallest one. run(\"pdt\") and run(\"hpsp\") should return the principal sequence for every choice of minimum cuts. The code violates this: with another choice at a single tie pdt throws logic_error(\"lambda value mismatch\") and hpsp returns overlapping blocks. dt and psp_i do not depend on the choice beyond repeated critical values.", "quantifier": "all correct max-flow solvers, all simple low-to-high graphs", "why_tests_cant": "Tests run with one version of one solver and one tie-breaking rule; ties are not even noticed.", "anchors": ["psp/pmf.cpp:182-242", "psp/hpsp.cpp", "psp/psp_i.cpp:52-59"]}
{"id": "C38", "title": "PSP::run(\"pdt_r\") returns the principal sequence in every schedule", "statement": "Same conclusion as C01 for the two-threaded method \"pdt_r\": whichever of its two flow threads finishes, is interrupted or delivers in each call of slice, the returned partitions and critical values are the principal sequence; in particular the result does not depend on the schedule and equals that of \"pdt\".", "quantifier": "all n>=2, all simple low-to-high weighted graphs, all complete executions of the threads in all calls of slice, all correct flow solvers reporting extremal sides, all sufficiently small tolerances", "why_tests_cant": "A test sees one interleaving per call; the number of combinations of outcomes over the recursion is exponential, and the inputs are infinite.", "anchors": ["psp/pmf_r.cpp:PDT_R::run", "psp/pmf_r.cpp:PMF_R::run", "psp/pmf_r.cpp:PMF_R::slice"]}
{"id": "C39", "title": "PMF_R::run gives all minimum cuts for every lambda", "statement": "As C23 for PMF_R, which contracts the network and works on the reversed network in a second thread.", "quantifier": "all graphs, all j, all piecewise-linear y on a grid, all lambda >= -0.1, all outcomes of the threads", "why_tests_cant": "Continuum of lambda, exponentially many sets, all schedules.", "anchors": ["psp/pmf_r.cpp:PMF_R::run", "psp/pmf_r.cpp:PMF_R::slice", "psp/pmf_r.cpp:PMF_R::contract", "psp/pmf_r.cpp:PMF_R::update_dig"]}
{"id": "C40", "title": "A PDT_R object can be run twice (violated)", "statement": "PDT_R::run resets its lists 'for multiple run', so a second run on the same object should give the same result. The code violates this: the parameters of the nodes are not reset and the second run divides zero by zero, on every graph.", "quantifier": "all simple low-to-high graphs with n>=2, all schedules", "why_tests_cant": "The failure is on every input but only in the second run of one object; that it is on every input is a universal statement.", "anchors": ["psp/pmf_r.cpp:PDT_R::run"]}
{"id": "C41", "title": "The two constructors agree", "statement": "PSP(s_list, t_list, weights, n) with vectors of equal length and ids in 0..n-1 builds the same object as PSP(triples, n); if t_list or weights is shorter than s_list, or an id of an arc with positive weight is negative, the behaviour is undefined.", "quantifier": "all vectors, all n", "why_tests_cant": "All lengths and values of three vectors.", "anchors": ["psp/psp.cpp:PSP::PSP"]}
{"id": "C42", "title": "Logarithmic depth of the merge forest", "statement": "After any sequence of merge calls, HC::find recurses at most log2(n)+1 times and HC::similarity at most 2 log2(n)+1 times, as documented.", "quantifier": "all n, all sequences of merge calls, all nodes", "why_tests_cant": "Worst case over all histories.", "anchors": ["IC/src/Core.hpp:HC::find", "IC/src/Core.hpp:HC::similarity"]}
{"id": "C43", "title": "agg_psp returns the principal sequence", "statement": "With an exact linear solver and small enough tolerances, PSP::run(\"agg_psp\") returns the principal sequence of partitions and its critical values, the same as dt, pdt, pdt_r and hpsp.", "quantifier": "all digraphs with arcs from lower to higher ids (parallel arcs allowed), all results of the sorts", "why_tests_cant": "Universal over graphs and tie breaking; correctness of the merge order rests on a submodularity argument.", "anchors": ["psp/agglomerative.cpp:Agglomerative_PSP::run", "IC/src/AIC.hpp:AIC::agglomerate", "psp/psp.cpp:PSP::run_agg_psp"]}
{"id": "C44", "title": "min_norm_base ends and returns the minimum norm base", "statement": "With an exact linear solver and small enough precision, min_norm_base ends, stays inside its matrices, returns a point of the base polytope, and if it ends by the optimality test the squared distance to the minimum norm base is at most the tolerance; for small enough tolerance it is the minimum norm base.", "quantifier": "all submodular functions on at least two elements", "why_tests_cant": "Termination and memory bounds over all functions; leftover weights of earlier cycles are read.", "anchors": ["IC/src/AIC.hpp:min_norm_base"]}
{"id": "C45", "title": "AIC on hypergraphs", "statement": "HypergraphEntropy(B) is the sum over hyperedges of the largest weight in B, and AIC on it builds the principal sequence of partitions of that function.", "quantifier": "all incidence matrices with at least one row", "why_tests_cant": "Universal over matrices and sets.", "anchors": ["IC/src/hypergraph.hpp:HypergraphEntropy", "IC/src/AIC.hpp:AIC::agglomerate"]}
{"id": "C46", "title": "mutual_info of a digraph is the weight between the sets", "statement": "For low-to-high digraphs SF::mutual_info(B, C) on DigraphEntropy is the total weight of the arcs between the disjoint lists B and C.", "quantifier": "all low-to-high digraphs, all disjoint lists without repetition", "why_tests_cant": "Universal over pairs of sets.", "anchors": ["IC/src/Core.hpp:SF::mutual_info", "psp/agglomerative.cpp:DigraphEntropy"]}
{"id": "C47", "title": "digraph_contract keeps the capacities", "statement": "After digraph_contract(g, S, i) the capacity from a set of nodes to a disjoint one is the capacity between the sets of old nodes they stand for (i stands for S), and at most one arc joins the new node to another. The code violates both: capacity towards S is dropped at nodes that also have capacity from S, and parallel arcs stay if S is a single node.", "quantifier": "all graphs, all node sets, all tolerances", "why_tests_cant": "Universal over graphs and pairs of sets; the test checks one graph.", "anchors": ["psp/digraph_utility.cpp:digraph_contract"]}
{"id": "C48", "title": "digraph_copy copies", "statement": "digraph_copy gives a graph with the same node ids and arcs. The code violates this whenever two or more ids are missing: only the largest missing id is missing in the copy. It is right with at most one missing id.", "quantifier": "all graphs with any set of erased nodes", "why_tests_cant": "Universal over graphs; the test erases one node only.", "anchors": ["psp/digraph_utility.cpp:digraph_copy"]}
{"id": "C49", "title": "Entropy of finite linear sources and AIC on it", "statement": "FiniteLinearEntropy(B) is the unit times the dimension of the space spanned by the rows of the sources in B over the finite field; it is normalised, monotone and submodular, and AIC on it builds the principal sequence of partitions.", "quantifier": "all matrices over all finite fields, all lists of sources", "why_tests_cant": "Universal over matrices, fields and sets.", "anchors": ["IC/src/FLS.hpp:FiniteLinearEntropy", "IC/src/AIC.hpp:AIC::agglomerate"]}
{"id": "C50", "title": "Entropy of a Gaussian vector", "statement": "ScalarGaussianEntropy(B) is the differential entropy log det(2*pi*e*Sigma_B)/2 of the components in B, whatever their order; it is submodular and mutual_info is never negative; it throws exactly if an element is repeated or Sigma_B is not positive definite. The constructor only checks that the matrix is square: a matrix that is not symmetric is accepted and the value then depends on the order of B.", "quantifier": "all matrices, all lists of indices, all exact Cholesky decompositions", "why_tests_cant": "Universal over real matrices and sets; the submodular inequality is not visible in single values.", "anchors": ["IC/src/gaussian.hpp:ScalarGaussianEntropy"]}
{"id": "C51", "title": "Entropy of Gaussian sources given by linear mappings", "statement": "GaussianEntropy(B) is the differential entropy in bits of the stacked linear mappings of B; it is submodular and mutual_info is never negative; it throws exactly if the rows are dependent or a nonempty source is repeated, except that it returns 0 if there are no columns. The constructor accepts exactly mappings with equal numbers of columns.", "quantifier": "all lists of matrices, all lists of sources, all exact Cholesky decompositions", "why_tests_cant": "Universal over real matrices and sets.", "anchors": ["IC/src/gaussian.hpp:GaussianEntropy"]}
{"id": "C52", "title": "Starting points of the parametric flow in pdt_r", "statement": "The flows and elevators that pdt_r hands from one max-flow computation to the next do not change its result: pdt_r returns the principal sequence of partitions whatever the starting points, whichever threads deliver, and whatever interrupted threads leave behind. Every starting flow is within the capacities and leaves no ordinary node with more outflow than inflow. An elevator is only used on the network it was made for, and every starting flow is a preflow.", "quantifier": "all weighted graphs with arcs from lower to higher ids, all schedules of the threads, all correct flow solvers", "why_tests_cant": "The schedules and the maximum flows a solver may return cannot be enumerated by tests; the contracted networks are internal.", "anchors": ["psp/pmf_r.cpp:PMF_R::slice", "psp/pmf_r.cpp:PMF_R::modify_flow", "psp/pmf_r.cpp:PMF_R::executePreflow"]}
{"id": "C53", "title": "Objects made from a graph of the caller", "statement": "PSP(g, weights) followed by run(method) gives the principal sequence of partitions of the graph as given, also if edges have weight zero, and the same result as the constructor with the list of the same edges.", "quantifier": "all graphs with edges from lower to higher ids, all methods, all environments", "why_tests_cant": "Universal over graphs, cuts and schedules; the graph is not normalised as in the other constructor.", "anchors": ["psp/psp.cpp:PSP::PSP", "psp/pmf.cpp:PMF", "psp/pmf_r.cpp:PMF_R"]}
{"id": "C54", "title": "The command line program", "statement": "main reads the graph, runs the method and writes to the result file exactly the partitions and critical values in alternation; it changes no other file, and writes nothing on help, on an unknown method or if the run fails. The result file is the one the user named. It ends with 0 only if the result was written. Every method listed in the help can be run.", "quantifier": "all file systems, arguments, graphs and methods", "why_tests_cant": "All file systems and argument combinations.", "anchors": ["main.cpp:main"]}
{"id": "C55", "title": "The example program", "statement": "example.cpp prints {{0,1,2}}, 2, {{0,2},{1}}, 5, {{0},{1},{2}} whatever minimum cuts the flow solver returns and in whatever order blocks are visited.", "quantifier": "all environments", "why_tests_cant": "A test sees one solver and one order.", "anchors": ["example/example.cpp:main"]}
{"id": "C56", "title": "Number of partitions and sum of the critical values", "statement": "Every method returns partitions with strictly growing numbers of blocks, at most n partitions and n-1 critical values, and the critical values times the number of additional blocks sum to the total weight of the graph.", "quantifier": "all graphs with at least two nodes, all methods, all environments", "why_tests_cant": "Universal over weighted graphs.", "anchors": ["psp/psp.h:PSP::run", "psp/psp.h:PSP::get_partitions", "psp/psp.h:PSP::get_critical_values"]}
{"id": "C57", "title": "Strength and densest set", "statement": "The first critical value is the minimum over all partitions into k >= 2 blocks of cut weight / (k-1); the last one is the maximum over all sets of k >= 2 nodes of inner weight / (k-1).", "quantifier": "all graphs with at least two nodes, all methods, all environments", "why_tests_cant": "Exponentially many partitions and sets.", "anchors": ["psp/psp.h:PSP::get_critical_values"]}
{"id": "C58", "title": "Clusters at a threshold", "statement": "For every threshold g, in the partition whose index is the number of critical values <= g, two nodes are in the same block iff some set containing both cannot be broken into k >= 2 pieces at a cost of at most g (k-1).", "quantifier": "all graphs with at least two nodes, all thresholds, all pairs of nodes, all methods, all environments", "why_tests_cant": "Exponentially many sets and partitions, real thresholds.", "anchors": ["psp/psp.h:PSP::get_partitions"]}
{"id": "C59", "title": "Number of flow computations", "statement": "A run of a method on a valid graph with n >= 2 nodes ends normally and starts at most n(2n-3) maximum flow computations for dt, n(n-1) for pdt, 2n(n-1) for pdt_r, and n(n+1)/2-3 for psp_i and hpsp. For psp_i and hpsp the bound holds whatever the flow solver returns and is attained for every n, so the number is not O(n) as docs/source/detail.rst suggests.", "quantifier": "all valid graphs, all environments, all schedules; tightness for all n and all correct solvers", "why_tests_cant": "Worst case over all graphs and all flow solvers; the recursion trees depend on the weights.", "anchors": ["psp/psp_i.cpp:PSP_I::split", "psp/hpsp.cpp:HPSP::split", "psp/dt.cpp:DT::split", "psp/pmf.cpp:PMF::slice", "psp/pmf_r.cpp:PMF_R::slice", "docs/source/detail.rst"]}
{"id": "C60", "title": "Lifetimes of PSP objects", "statement": "A program that creates, copies, assigns, runs and ends objects of class PSP within the rules of C++, and ends all of them and its own graphs (each after the objects made from it), never uses or deletes a graph that no longer exists, and leaves no graph behind.", "quantifier": "all programs of any length, all interleavings of constructions, copies, runs and destructions, all heaps", "why_tests_cant": "Tests run a few lifetimes; unbounded sequences of constructions, copies and destructions, and faults such as double deletion are not visible in results.", "anchors": ["psp/psp.h:PSP", "psp/psp.cpp:PSP::PSP", "psp/psp.cpp:PSP::~PSP"]}
{"id": "C61", "title": "Queries of the clustering leave nothing behind", "statement": "HC::getPartition, HC::getCoarsestPartition and Agglomerative_PSP::run delete nothing that existed before and leave no new objects behind when they return.", "quantifier": "all clusterings, all thresholds, all submodular functions, all minimum norm solvers, all heaps", "why_tests_cant": "Leaks do not change results; the number depends on the number of rounds.", "anchors": ["IC/src/Core.hpp:HC::getPartition", "IC/src/Core.hpp:HC::LinkList", "psp/agglomerative.cpp:Agglomerative_PSP::run"]}
{"id": "C62", "title": "Lifetimes of the objects of pdt_r", "statement": "PDT_R::run deletes each of the graphs, maps, threads and elevators that it creates exactly once and nothing else, and never uses one that no longer exists, whatever the order in which the two threads of each step end.", "quantifier": "all graphs, all schedules of the threads (also interrupted ones), all depths of recursion, all solvers, both conventions for who owns an elevator made by a solver, all heaps", "why_tests_cant": "Leaks and double deletions do not change results, and they depend on the moment at which a thread is interrupted, which tests cannot choose.", "anchors": ["psp/pmf_r.cpp:PMF_R::run", "psp/pmf_r.cpp:PMF_R::slice", "psp/pmf_r.cpp:executePreflow", "psp/pmf_r.cpp:executePreflow_reverse"]}
{"id": "C63", "title": "Rounding errors do not change the result of dt", "statement": "On a graph with integer weights of moderate size, dt computed in binary floating-point arithmetic, with a flow solver that makes small errors, returns exactly the partitions it should (a principal sequence, possibly with repeated critical values), and its critical values are the exact ones, each rounded once.", "quantifier": "all valid graphs with integer weights, all precisions p, all ways to round ties, all solvers with error at most delta, all orders of blocks and arcs, all tolerances eps with 2 n delta + 60 n^2 W / 2^p < eps <= 1/(2n), W being the total weight", "why_tests_cant": "Tests compare results on a few graphs up to a tolerance; whether accumulated rounding errors can flip a comparison depends on all weights and on the cuts the solver reports.", "anchors": ["psp/dt.cpp:DT::split", "psp/dt.cpp:DilworthTruncation::minimize", "psp/dt.cpp:DilworthTruncation::run", "psp/graph.h:get_cut_value", "psp/graph.h:get_partition_value"]}
{"id": "C64", "title": "Rounding errors do not change the result of psp_i", "statement": "On a graph with integer weights of moderate size, the default method computed in binary floating-point arithmetic, with a flow solver that makes small errors, returns exactly the partitions it should (a principal sequence, possibly with repeated critical values), and its critical values are the exact ones, each rounded once.", "quantifier": "all valid graphs with integer weights, all precisions p, all ways to round ties, all solvers with error at most delta, all orders of blocks and arcs, all tolerances eps with 2 n delta + 60 n^2 W / 2^p < eps <= 1/(2n), W being the total weight", "why_tests_cant": "Tests compare results on a few graphs up to a tolerance; whether accumulated rounding errors can flip a comparison, or reorder the queue of tree nodes, depends on all weights and on the cuts the solver reports.", "anchors": ["psp/psp_i.cpp:PSP_I::run", "psp/psp_i.cpp:PSP_I::split", "psp/psp_i.cpp:PSP_I::contract", "psp/psp_i.cpp:DilworthTruncation::run"]}
{"id": "C65", "title": "Rounding errors do not change the result of hpsp", "statement": "On a graph with integer weights of moderate size, hpsp computed in binary floating-point arithmetic returns the principal sequence: the exact partitions, and the exact critical values, each rounded once.", "quantifier": "all valid graphs with integer weights, all precisions p, all ways to round ties, all solvers with error at most delta, all orders of blocks and arcs, all tolerances eps with 2 n delta + 60 n^2 W / 2^p < eps <= 1/(2n), W being the total weight", "why_tests_cant": "hpsp relies on the truncation returning an extremal optimal partition at values that are tied; a rounding error in the last place can make it return another one, for graphs that no test contains.", "anchors": ["psp/hpsp.cpp:HPSP::run", "psp/hpsp.cpp:HPSP::split", "psp/hpsp.cpp:HPSP::merge", "psp/hpsp.cpp:HPSP::psp_construct"]}
{"id": "C66", "title": "Rounding errors do not change the result of pdt", "statement": "On a graph with integer weights of moderate size, the parametric method pdt computed in binary floating-point arithmetic returns the principal sequence: the exact partitions, and the exact critical values up to rounding.", "quantifier": "all valid graphs with integer weights, all precisions p, all ways to round ties, all solvers that report minimal cuts and round only the value, all orders of arcs", "why_tests_cant": "pdt computes each critical value once per node that is added, along different routes, and compares them exactly when it merges its lists; whether two results of the same exact value differ in the last place depends on the graph, and no test contains all graphs.", "anchors": ["psp/pmf.cpp:PDT::run", "psp/pmf.cpp:PMF::slice", "psp/pmf.cpp:PMF::compute_lambda"]}
{"id": "C67", "title": "The error of pdt and pdt_r caused by their tolerance is bounded", "statement": "For arbitrary nonnegative weights each of the parametric methods pdt and pdt_r (whichever of its threads deliver) ends without an exception and returns a sequence of ever finer partitions from the coarsest to the finest, with nondecreasing critical values, such that between its neighbouring critical values each partition is optimal up to an error of 13 n (n+2)^2 eps. If the weights are multiples of a number that is large compared with this error, each partition is exactly optimal and each critical value is within this error of the true one.", "quantifier": "all valid graphs with n >= 1 nodes and all weights, all flow solvers that report minimal cuts, all tolerances eps > 0 with 240 n (n+2)^2 eps <= 1 (n <= 345 for LEMON's tolerance; exactness for integer weights up to n = 59)", "why_tests_cant": "Weights that differ by less than the tolerance make pdt merge or misplace critical values; how such errors accumulate over the nodes can be tested only for single graphs.", "anchors": ["psp/pmf.cpp:PDT::run", "psp/pmf.cpp:PMF::slice", "psp/pmf.cpp:PMF::compute_lambda", "psp/pmf_r.cpp:PDT_R::run", "psp/pmf_r.cpp:PMF_R::slice"]}
{"id": "C68", "title": "The outcome of pdt_r is a function of its input", "statement": "Whatever the weights and the tolerance, even if the result is inexact or an exception is thrown: the outcome of pdt_r does not depend on which of its threads deliver in which call of slice, nor on the max-flow solvers, nor on the starting points of the flow computations.", "quantifier": "all valid graphs and weights, all tolerances eps > 0, any two families of complete executions of the threads, any two pairs of solvers that report extremal minimum cuts (for the last claim: from any starting flow and elevator)", "why_tests_cant": "Contracted networks of different threads have to agree for every combination of schedules over the recursion; near ties, where a difference would show, are met by tests only by chance.", "anchors": ["psp/pmf_r.cpp:PMF_R::run", "psp/pmf_r.cpp:PMF_R::slice", "psp/pmf_r.cpp:PDT_R::run"]}
{"id": "C69", "title": "get_psp.py computes the principal sequence of a tree", "statement": "get_psp(n, K, W) of the experimental script, given a tree by the parent K[j] of every node j > 0 and the weight W[j] of the edge to it, ends and returns the critical values of the tree in increasing order and its principal sequence of partitions.", "quantifier": "all trees whose nodes are numbered after their parents, all nonnegative weights (the entry for the root being at most the others)", "why_tests_cant": "The script has two tests with four nodes; whether groups are merged right depends on the shape of the tree and the order of the weights.", "anchors": ["experimental/get_psp.py:get_psp"]}
{"id": "C70", "title": "The error of dt in floating-point arithmetic is bounded for all weights", "statement": "With arbitrary nonnegative weights, not only integers, dt computed in binary floating-point arithmetic with a flow solver that makes small errors ends normally and returns a sequence of ever finer partitions from the coarsest to the finest, with as many sorted critical values as there are steps, such that between its neighbouring critical values, as they are reported, each partition costs at most 2 eps more than the cheapest one (apart from edges whose weight does not exceed eps, which are discarded). If the weights are multiples of a number that is large compared with this error, each partition is exactly optimal and each critical value is within this error of the true one.", "quantifier": "all valid graphs with n >= 2 nodes and all weights of total at most W, all precisions p, all ways to round ties, all solvers with error at most delta, all orders of blocks and arcs, all tolerances eps <= 1 with 9 n^2 delta + 220 n^3 W / 2^p <= eps; with exact arithmetic all eps > 0", "why_tests_cant": "With weights that are not integers every sum is rounded and the recursion can take wrong branches whose critical values are sorted afterwards, apart from the partitions they belong to; tests compare results with an expected one on a few graphs only.", "anchors": ["psp/dt.cpp:DT::split", "psp/dt.cpp:DT::run", "psp/dt.cpp:DilworthTruncation::minimize", "psp/dt.cpp:DilworthTruncation::run", "psp/graph.h:get_cut_value", "psp/graph.h:get_partition_value"]}
{"id": "C71", "title": "The error of psp_i and hpsp caused by their tolerance is bounded", "statement": "For arbitrary nonnegative weights psp_i and hpsp end normally and return a sequence of ever finer partitions from the coarsest to the finest, with nondecreasing critical values, such that between its neighbouring critical values each partition costs at most (n-1) eps more than the cheapest one, plus eps for every edge (nothing if all weights exceed eps). The error is not always zero.", "quantifier": "all valid graphs with n >= 2 nodes and all weights, all tolerances eps > 0, all orders of blocks, all correct flow solvers (hpsp: those that report minimal cuts)", "why_tests_cant": "With weights that are not multiples of a coarse grid a set can be declared indivisible although dividing it would save something; contraction adds up weights and drops small ones. How such errors add up along the recursion depends on the graph.", "anchors": ["psp/psp_i.cpp:PSP_I::run", "psp/psp_i.cpp:PSP_I::split", "psp/psp_i.cpp:PSP_I::contract", "psp/hpsp.cpp:HPSP::run", "psp/hpsp.cpp:HPSP::split", "psp/hpsp.cpp:HPSP::merge"]}
{"id": "C72", "title": "The error of psp_i in floating-point arithmetic is bounded for all weights", "statement": "With arbitrary nonnegative weights, not only integers, psp_i computed in binary floating-point arithmetic with a flow solver that makes small errors ends normally and returns a sequence of ever finer partitions from the coarsest to the finest with nondecreasing critical values, such that between its neighbouring critical values each partition is optimal up to a small error.", "quantifier": "all valid graphs with n >= 2 nodes and all weights, all precisions, all ways to round ties, all solvers with small errors, all orders of blocks and arcs, all tolerances", "why_tests_cant": "Every sum is rounded, contracted edges carry rounded sums, and the order of the critical values relies on comparisons of values computed in different ways; tests compare results with an expected one on a few graphs only.", "anchors": ["psp/psp_i.cpp:PSP_I::run", "psp/psp_i.cpp:PSP_I::split", "psp/psp_i.cpp:PSP_I::contract", "psp/psp_i.cpp:DilworthTruncation::minimize"]}
{"id": "C73", "title": "hpsp in floating-point arithmetic for all weights", "statement": "With arbitrary nonnegative weights, hpsp computed in binary floating-point arithmetic with a flow solver that makes small errors ends normally. Its critical values are strictly increasing and are those of a sequence of ever finer partitions from the coarsest to the finest that are optimal up to a small error; they are the values psp_i reports, without repetition; and the partitions hpsp returns are those of such a sequence.", "quantifier": "all valid graphs with n >= 2 nodes and all weights, all precisions, all ways to round ties, all solvers with small errors, all orders of blocks and arcs, all tolerances", "why_tests_cant": "hpsp rebuilds the tree of sets from comparisons of rounded values; whether values that should be equal or ordered still are depends on the last bits for every graph.", "anchors": ["psp/hpsp.cpp:HPSP::run", "psp/hpsp.cpp:HPSP::split", "psp/hpsp.cpp:HPSP::merge", "psp/psp_i.cpp:PSP_I::run"]}
{"id": "C74", "title": "DT::run(k) in floating-point arithmetic agrees with DT::run()", "statement": "DT::run(k), computed in binary floating-point arithmetic with a flow solver that makes small errors, ends normally with a partition that DT::run() returns for the same graph: the coarsest one with at least k blocks other than the coarsest partition of all, and the finest partition if k exceeds the number of nodes. The bound on the weights is needed: beyond it the calls can go on forever or an exception is thrown, although DT::run() ends.", "quantifier": "all valid graphs with n >= 2 nodes, all weights of moderate total size compared with tolerance and precision, all integers k, all ways to round ties, all solvers with small errors, all orders of blocks and arcs", "why_tests_cant": "The recursion has no check that it makes progress; whether it does depends on rounded values at every step, for every graph and every k.", "anchors": ["psp/dt.cpp:DT::run(int)", "psp/dt.cpp:DT::split", "psp/dt.cpp:DilworthTruncation::run"]}
{"id": "C75", "title": "pdt_r in floating-point arithmetic, whichever threads deliver", "statement": "The parallel parametric method pdt_r, computed in binary floating-point arithmetic, returns the same partitions and critical values whichever threads deliver first, and they are those of the principal sequence up to rounding errors in the critical values.", "quantifier": "all valid graphs with weights of moderate total size, all schedules of the threads at every call of slice, all precisions p, all ways to round ties, all solvers that report minimal cuts and make small errors in the value, all orders of arcs", "why_tests_cant": "The schedule decides which networks are contracted and so which sums are formed in which order; rounding errors of contracted networks add up along the recursion, and a test sees only the schedules that happen to occur on one machine.", "anchors": ["psp/pmf_r.cpp:PDT_R::run", "psp/pmf_r.cpp:PMF_R::run", "psp/pmf_r.cpp:PMF_R::slice", "psp/pmf_r.cpp:PMF_R::contract", "psp/pmf_r.cpp:PMF_R::update_dig"]}
{"id": "C76", "title": "min_norm_base does not ask for a higher tolerance when the arithmetic is exact", "statement": "With an exact linear solver and exact arithmetic, min_norm_base of a submodular function never throws \"Try to set a higher functional tolerance.\": the incrementally updated factor L stays a Cholesky factor of e e' + Q' Q, so its pivots are positive. Hence agg_psp and AIC end normally, with the principal sequence. L has no other influence on the result.", "quantifier": "all submodular functions on any number of elements, all valid digraphs and hypergraphs, all exact solvers and sorts, all precisions, tolerances and numbers of cycles", "why_tests_cant": "The factor is only used in the test that throws; whether it is right depends on which columns were removed in all earlier minor cycles, and small examples never remove two columns at once.", "anchors": ["IC/src/AIC.hpp:min_norm_base", "IC/src/AIC.hpp:AIC::agglomerate", "psp/agglomerative.cpp:Agglomerative_PSP::run"]}
{"id": "C77", "title": "What the optimality test of min_norm_base certifies in floating-point arithmetic", "statement": "If min_norm_base ends by its test of optimality, the point it returns is, up to rounding errors, in the base polytope, and the square of its distance to the minimum norm base is at most about fn_tol, no matter how accurate the linear solver is.", "quantifier": "all submodular functions on at least two elements, all linear solvers that return a vector of the right length, all roundings and orders of summation with a small relative error, all tolerances and precisions", "why_tests_cant": "The point is a combination of vertices with weights from an ill-conditioned linear system; a test cannot know the exact minimum norm base, nor enumerate solvers and roundings.", "anchors": ["IC/src/AIC.hpp:min_norm_base", "IC/src/AIC.hpp:edmonds_greedy"]}
{"id": "C78", "title": "agg_psp ends", "statement": "Agglomerative_PSP::run ends on every valid graph after at most as many rounds as there are nodes, with the tolerance that is built in (1e-6).", "quantifier": "all valid digraphs and weights, exact arithmetic or double", "why_tests_cant": "Whether a round makes progress depends on tiny differences between critical values of consecutive rounds; typical test weights (small integers) never show it.", "anchors": ["psp/agglomerative.cpp:Agglomerative_PSP::run", "IC/src/AIC.hpp:AIC::agglomerate", "IC/src/Core.hpp:HC::merge"]}
{"id": "C79", "title": "Critical values of agg_psp in floating-point arithmetic", "statement": "The value at which a round of agglomerate merges clusters differs from the exact value at which clusters of the current partition have to be merged by at most about the square root of fn_tol, plus rounding errors; in particular the largest critical value that agg_psp returns is that of the principal sequence up to this error.", "quantifier": "all digraphs with arcs from lower to higher nodes and nonnegative weights, all precisions p, all ways to round ties, all linear solvers, all orders of arcs, provided the calls of min_norm_base end by their test of optimality", "why_tests_cant": "Universal over graphs, roundings and solvers; the exact value is a maximum over exponentially many partitions.", "anchors": ["psp/agglomerative.cpp:Agglomerative_PSP::run", "psp/agglomerative.cpp:DigraphEntropy::operator()", "IC/src/AIC.hpp:AIC::agglomerate", "IC/src/AIC.hpp:min_norm_base"]}
{"id": "C80", "title": "Clusters only grow when weight or nodes are added", "statement": "If every weight of a graph is at most that of the corresponding pair of nodes in another graph (on the same or on more nodes, under any renaming), then nodes that share a block at a threshold in the result of PSP for the first graph also share a block at that threshold in the result for the second, whichever methods are used. Renaming the nodes only renames the blocks.", "quantifier": "all pairs of valid graphs, embeddings, thresholds, pairs of methods, thread schedules, minimal solvers, tolerances small enough for the weights", "why_tests_cant": "Relates two runs on different inputs for all pairs of graphs; the algorithms treat nodes in the order of their numbers, so neither monotonicity nor independence of the numbering is visible in the code.", "anchors": ["psp/psp.h:PSP", "psp/psp.cpp:PSP::run", "psp/psp.h:PSP::get_partitions"]}
{"id": "C81", "title": "Critical values are monotone and stable in the weights", "statement": "Counted with multiplicities (the number of additional blocks) there are n - 1 critical values. Adding weight lowers none of them. For two graphs on the same nodes the sum of the absolute differences of the critical values is at most the sum of the absolute differences of the weights.", "quantifier": "all pairs of valid graphs on the same nodes, pairs of methods, schedules, minimal solvers, tolerances small enough for the weights", "why_tests_cant": "A statement about pairs of inputs; each critical value is an extremum over exponentially many partitions.", "anchors": ["psp/psp.cpp:PSP::run", "psp/psp.h:PSP::get_critical_values"]}
{"id": "C82", "title": "Separate parts are clustered separately", "statement": "If a set of nodes has no edges to the rest of the graph, then at every nonnegative threshold the blocks of the result that meet the set are exactly those of the result for the set alone; no block contains nodes from two such parts.", "quantifier": "all valid graphs, isolated node sets, numberings, thresholds at least 0, pairs of methods, schedules, minimal solvers", "why_tests_cant": "Relates the run on a graph to the run on a part of it, for all ways the parts are interleaved in the numbering.", "anchors": ["psp/psp.cpp:PSP::run", "psp/psp.h:PSP::get_partitions"]}
{"id": "C83", "title": "Two runs with tolerances, rounding errors and noise in the weights", "statement": "For any two runs of dt, pdt, pdt_r, psp_i or hpsp in exact arithmetic with tolerances, or of all but hpsp in floating-point arithmetic, or of agg_psp where it ended with all calls of min_norm_base ended by their test (C87), on two graphs with the same nodes: each critical value of one exceeds its counterpart by at most the sum of the error bounds of the runs and the total excess of weight; and at thresholds that are apart by more than this, the blocks of the higher one are contained in those of the lower one.", "quantifier": "all pairs of valid graphs, all tolerances, precisions, roundings, solvers with bounded errors, orders and schedules for which the error bounds hold", "why_tests_cant": "Universal over pairs of inputs and over rounding; methods can return different partitions for the same graph, and the claim says how far these can be apart.", "anchors": ["psp/psp.cpp:PSP::run", "psp/dt.cpp:DT::run", "psp/pmf.cpp:PDT::run", "psp/psp_i.cpp:PSP_I::run", "psp/hpsp.cpp:HPSP::run"]}
{"id": "C84", "title": "Graph files written and read by utility/gaussian2Dcase.py", "statement": "toNetworkX ends on every file and reads back what convert has written: the row numbers as nodes, an edge for each pair i < j with an entry of at least 1e-10, labelled with the printed entry; and nodes named as source and target in a section of attributes are labelled s and t.", "quantifier": "all matrices of all sizes, all ways to print finite numbers, all names in the section of attributes, all files", "why_tests_cant": "Universal over contents of files; whether a line is taken for a heading depends on the text of labels and numbers.", "anchors": ["utility/gaussian2Dcase.py:toNetworkX", "utility/gaussian2Dcase.py:convert"]}
{"id": "C85", "title": "Graphs of points of the plane (Gaussian2DGraph)", "statement": "The constructor of Gaussian2DGraph never fails: with an array of points it yields the graph whose weight between two points is their similarity (0 if not above the tolerance), and without one np random points around four centres. Moving points closer together can only join clusters: nodes together at a threshold stay together at every threshold lower by more than the errors of the runs, and critical values only grow up to these errors.", "quantifier": "all numbers and arrays of points, all random numbers, all decreasing similarity functions, all gamma >= 0, all methods and arithmetics of C83", "why_tests_cant": "The comparison relates two runs for all pairs of point sets; random points use the clock as the seed, so a test sees different points each time and never a number that is not a multiple of four.", "anchors": ["test/gaussian2Dcase.cpp:Gaussian2DGraphBase", "test/gaussian2Dcase.cpp:compute_similarity", "test/gaussian2Dcase.cpp:Gaussian2DGraph"]}
{"id": "C86", "title": "All partitions of agg_psp in floating-point arithmetic", "statement": "For integral weights, agg_psp computed in floating-point arithmetic returns exactly the partitions of the principal sequence, and critical values that are as precise as the linear solver (not only up to the square root of the tolerance), when the tolerance lies between the rounding errors and a distance that depends only on the graph.", "quantifier": "all digraphs with arcs from lower to higher nodes and nonnegative integral weights, all precisions p, all ways to round ties, limited exponents included, all linear solvers with a relative error kappa, all orders of arcs, provided the calls of min_norm_base in the run end by their test of optimality", "why_tests_cant": "Universal over graphs, roundings, solvers and tolerances; that no other corral gives a point close to the minimum norm base is a statement about exponentially many sets of points.", "anchors": ["psp/agglomerative.cpp:Agglomerative_PSP::run", "psp/agglomerative.cpp:DigraphEntropy::operator()", "IC/src/AIC.hpp:AIC::agglomerate", "IC/src/AIC.hpp:min_norm_base"]}
{"id": "C87", "title": "The result of agg_psp for any weights, whenever it ends", "statement": "For arbitrary nonnegative weights, a run of agg_psp goes on for ever (C78) or it returns partitions from the coarsest to the finest, each strictly refining the one before, with critical values that do not decrease, and each partition is, for all parameters between its two critical values, within an explicit error (of the order n^3 times the square root of the tolerance) of the least cost. No other outcome is possible.", "quantifier": "all digraphs with arcs from lower to higher nodes and nonnegative weights, exact arithmetic with an exact solver, or all precisions p, roundings with limited exponents included, all linear solvers that return numbers of the format, all orders of arcs, provided the calls of min_norm_base in the run end by their test of optimality", "why_tests_cant": "Universal over weights, roundings and solvers; errors of one round change the clusters all later rounds start from, and whether they add up or multiply cannot be seen from runs.", "anchors": ["psp/agglomerative.cpp:Agglomerative_PSP::run", "IC/src/AIC.hpp:AIC::agglomerate", "IC/src/AIC.hpp:min_norm_base", "IC/src/Core.hpp:HC::merge"]}
{"id": "C88", "title": "AIC on hypergraphs, finite linear sources and other functors with any tolerances", "statement": "For every functor that computes a set function which is submodular on intersecting sets (weighted hypergraphs, also with negative weights; finite linear sources over any field), and for tolerances of any size, the loop of agglomerate goes on for ever or it builds partitions from the coarsest to the finest, each strictly refining the one before, with critical values that do not decrease, and each partition is, for all parameters between its two critical values, within an explicit error of the least cost of all partitions. No other outcome is possible.", "quantifier": "all functors with an intersecting submodular function of any size, all hypergraphs, all finite linear sources, all tolerances and solvers that are exact, eps below 1/n, provided the calls of min_norm_base in reached states end by their test of optimality", "why_tests_cant": "Universal over set functions and tolerances; what a tolerance that is large for the data does to later rounds cannot be seen from runs.", "anchors": ["IC/src/AIC.hpp:AIC::agglomerate", "IC/src/AIC.hpp:min_norm_base", "IC/src/hypergraph.hpp:HypergraphEntropy", "IC/src/FLS.hpp:FiniteLinearEntropy", "IC/src/Core.hpp:HC::merge"]}
{"id": "C89", "title": "AIC on hypergraphs and finite linear sources in floating-point arithmetic", "statement": "For every weighted hypergraph without negative weights and every finite linear source over any field, with all operations of the functor, of min_norm_base and of agglomerate rounded (for example double) and for tolerances of any size up to 1, the loop of agglomerate goes on for ever or it builds partitions from the coarsest to the finest, each strictly refining the one before, with critical values that do not decrease, and each partition is, for all parameters between its two critical values, within an explicit error of the least cost of all partitions. No other outcome is possible.", "quantifier": "all hypergraphs with nonnegative weights of the format, all finite linear sources over any field, all precisions and roundings, all tolerances that the precision can resolve, all linear solvers that return numbers of the format below a limit, provided the calls of min_norm_base in reached states end by their test of optimality", "why_tests_cant": "Universal over weights, matrices, rounding modes and precisions; the accumulated effect of rounding on later rounds cannot be bounded from runs.", "anchors": ["IC/src/hypergraph.hpp:HypergraphEntropy", "IC/src/FLS.hpp:FiniteLinearEntropy", "IC/src/AIC.hpp:AIC::agglomerate", "IC/src/AIC.hpp:min_norm_base", "IC/src/Core.hpp:HC::merge"]}
{"id": "C90", "title": "Chow-Liu clusters and the principal sequence", "statement": "The clusters of CL at a threshold gamma always lie inside the clusters of the principal sequence at gamma, for graphs and for every entropy function (hypergraphs, finite linear sources). For a forest they are equal at all thresholds that are not negative, so CL agrees with every method of PSP there. For any simple graph on n nodes the clusters of the principal sequence at gamma lie inside the clusters of CL at every threshold up to 4 gamma / n^2, and this factor is the best possible. The comment of the constructor that it returns the PSP of the graph is not true in general.", "quantifier": "all graphs, forests, intersecting submodular functions, all orders that the sort may give to equal weights, all thresholds, all methods of PSP", "why_tests_cant": "Universal over graphs and thresholds; compares two different algorithms on all inputs; a bound with the best constant cannot be found by sampling.", "anchors": ["IC/src/ChowLiu.hpp:CL", "IC/src/Core.hpp:HC::getPartition", "psp/psp.cpp:PSP::run"]}
{"id": "C91", "title": "Chow-Liu clusters in floating-point arithmetic", "statement": "The constructor of CL from an entropy function (DigraphEntropy, HypergraphEntropy with nonnegative weights, FiniteLinearEntropy) with all operations rounded to p digits: at every threshold gamma its clusters contain the exact clusters for gamma + e, are contained in the exact clusters for gamma - e, and lie inside every partition that is optimal at gamma - e or below, where e is (6 m + 14) W / 2^p for m terms of total weight at most W.", "quantifier": "all graphs, hypergraphs and finite linear sources with weights of the format, all precisions and roundings (IEEE 754 with underflow included), all orders that the sort may give to equal values, all thresholds", "why_tests_cant": "Universal over weights, precisions and thresholds; rounding changes the order of equal values, so runs alone do not tell which clusters are right.", "anchors": ["IC/src/ChowLiu.hpp:CL", "IC/src/hypergraph.hpp:HypergraphEntropy", "IC/src/FLS.hpp:FiniteLinearEntropy", "psp/agglomerative.cpp:DigraphEntropy"]}
{"id": "C92", "title": "agg_psp returns a hierarchy, whatever min_norm_base returns", "statement": "Whatever points min_norm_base returns to AIC::agglomerate (also when it gave up or the linear solver is useless), if Agglomerative_PSP::run returns, its partitions lead from all nodes in one block to single nodes, each strictly refining the one before, there is one critical value between each two of them, and the critical values do not decrease. The other outcomes are that run goes on for ever (C78) or that a call of min_norm_base does not return; in particular critical_values.back() is never called on an empty vector.", "quantifier": "all functors with at least one element (digraphs, hypergraphs, finite linear sources, any others), all functions in place of min_norm_base, all roundings and tolerances; for the outcomes all linear solvers, monotone idempotent roundings and tolerances fn_tol >= 0", "why_tests_cant": "Universal over what the numerical part does; tests only run it where it works.", "anchors": ["psp/agglomerative.cpp:Agglomerative_PSP::run", "IC/src/AIC.hpp:AIC::agglomerate", "IC/src/Core.hpp:HC::merge"]}
{"id": "C93", "title": "After agglomeration the AIC object answers according to the sequence of partitions", "statement": "A program that calls AIC::agglomerate until it returns false and then asks the object: at every threshold gamma (also -infinity) getPartition(gamma) returns the partition of the sequence that Agglomerative_PSP::run collects between the critical values up to gamma and those above, getCluster(i, gamma) returns the block of i in it, getCriticalValues() lists the critical values once each in descending order, and similarity(i, j) of two different points is a critical value, namely the one below which i and j are in the same block. When the sequence is the principal sequence of partitions, getPartition(gamma) is the optimal partition at gamma with the most blocks, and no other optimal partition has as many; when it is within C of the optimum, so is getPartition(gamma).", "quantifier": "all functors with at least one element, all functions in place of min_norm_base, all roundings and tolerances for which the loop ends; all thresholds and points", "why_tests_cant": "The project's tests read only the sequences that run collects; the object is a forest with weights whose answers at all thresholds depend on the order of all merges.", "anchors": ["IC/src/AIC.hpp:AIC::agglomerate", "IC/src/Core.hpp:HC::getPartition", "IC/src/Core.hpp:HC::getCluster", "IC/src/Core.hpp:HC::similarity", "IC/src/Core.hpp:HC::getCriticalValues", "psp/agglomerative.cpp:Agglomerative_PSP::run"]}
{"id": "C94", "title": "Clusters can be examined alone or merged to nodes", "statement": "Given the clusters at a threshold: above the threshold the clusters of the nodes of a cluster (or of a union of clusters) are those in the result of PSP for the graph of these nodes alone; up to the threshold the clusters are those in the result for the graph in which nodes of a common cluster are merged to one node and the weights added up.", "quantifier": "all valid graphs, all thresholds, all unions of clusters and all ways of merging nodes of common clusters, all numberings of the smaller graph, all pairs of methods, schedules, minimal solvers, tolerances small enough for the weights", "why_tests_cant": "Relates runs on graphs of different sizes for all graphs and thresholds; the recursion of psp_i and hpsp uses such smaller graphs, but a caller who builds them starts a new run, possibly by another method.", "anchors": ["psp/psp.cpp:PSP::run", "psp/psp.h:PSP::get_partitions", "psp/psp.h:PSP::get_critical_values"]}
{"id": "C95", "title": "Critical values, cuts and degrees", "statement": "For the result of PSP::run by any method on a graph with n nodes: if x is the weight of the lightest cut of the graph, the first critical value lies between n x / (2 (n - 1)) and x, so it is more than half of x when x > 0; the last critical value is at least every weight and at most the largest degree. At a threshold of at least x the nodes are not all in one cluster, below n x / (2 (n - 1)) they are; and at a threshold of at least the degree of a node, this node is alone. The bounds are reached by cycles and by single edges.", "quantifier": "all valid graphs with at least two nodes, all thresholds, all methods, schedules, minimal solvers, tolerances small enough for the weights", "why_tests_cant": "The lightest cut is a minimum over all sets of nodes and the bounds hold for all graphs; tests compare fixed graphs with fixed lists.", "anchors": ["psp/psp.cpp:PSP::run", "psp/psp.h:PSP::get_partitions", "psp/psp.h:PSP::get_critical_values"]}
{"id": "C96", "title": "AIC clusters by shared information", "statement": "AIC on the entropy function of a hypergraph or of a finite linear source, agglomerated until the end with an exact solver and small tolerances: getCluster(i, gamma) lists the points that lie together with i in a set whose shared information exceeds gamma (however the set is divided, the parts have more than gamma in common per additional part); similarity(i, j) of two points is the most that a set containing both shares; the smallest critical value is the information shared by all points, the largest one is the largest total correlation per additional point of any set; and the critical values times the numbers of additional clusters add up to the total correlation of all points.", "quantifier": "all hypergraphs and finite linear sources with at least one element, all thresholds, all pairs of points, tolerances small enough for the values, minimum norm bases by exact solvers that do not get stuck (nothing to assume for up to four elements)", "why_tests_cant": "The shared information is a minimum over all partitions of a set, the clusters are determined by a maximum over all sets, and the statement is about every hypergraph, source and threshold; the project's tests compare a few sequences with fixed lists.", "anchors": ["IC/src/AIC.hpp:AIC::agglomerate", "IC/src/Core.hpp:HC::getCluster", "IC/src/Core.hpp:HC::similarity", "IC/src/Core.hpp:HC::getCriticalValues", "IC/src/hypergraph.hpp:HypergraphEntropy", "IC/src/FLS.hpp:FiniteLinearEntropy"]}
{"id": "C97", "title": "With tolerances and rounding the clusters are right up to the error", "statement": "After AIC has been agglomerated in floating-point arithmetic on a hypergraph or a finite linear source, with the error C of C89: getCluster(i, gamma) contains every set that contains i and shares more than gamma + C, and its points lie together with i in sets sharing at least gamma - C; similarity(i, j) is within C of the most that a set containing i and j shares. For graphs the same holds for the clusters in the results of dt, pdt, pdt_r, psp_i, hpsp and agg_psp with the error bounds of C83: a set of nodes that cannot be broken without cutting more than gamma + C per piece lies in one cluster at gamma, and nodes of a common cluster lie in a set that cannot be broken without cutting almost gamma - C per piece.", "quantifier": "all hypergraphs with nonnegative weights, finite linear sources and valid graphs, all thresholds and points, all precisions, roundings, tolerances and solvers for which the error bounds of C83 and C89 hold, provided the loop of AIC ends and the calls of min_norm_base end by their test of optimality", "why_tests_cant": "The shared information of a set is a minimum over all partitions, the claim is for all sets, thresholds and roundings; tests compare rounded results with fixed lists.", "anchors": ["IC/src/AIC.hpp:AIC::agglomerate", "IC/src/Core.hpp:HC::getCluster", "IC/src/Core.hpp:HC::similarity", "psp/psp.h:PSP::get_partitions", "psp/psp.h:PSP::get_critical_values"]}
{"id": "C98", "title": "Connected components", "statement": "For every method and every threshold >= 0, each cluster is connected inside itself by edges of positive weight; the clusters at the threshold 0 are the connected components of the graph, and the first critical value is positive iff the graph is connected. For runs with tolerances and rounding with total error C, clusters at a threshold g > C are connected, and they are the components if every edge weighs 0 or more than g + C.", "quantifier": "all graphs with at least two nodes, all thresholds, all methods, all environments; all runs with a known error bound", "why_tests_cant": "All graphs and all paths in them, real thresholds, any flow solver and rounding.", "anchors": ["psp/psp.h:PSP::get_partitions", "psp/psp.h:PSP::get_critical_values"]}
{"id": "C99", "title": "Graphs without clusters", "statement": "All critical values are equal (to the total weight divided by n-1) iff no set of nodes is denser than the whole graph, density being the inside weight per additional node; dt, pdt, pdt_r and hpsp then return exactly the two trivial partitions, and conversely. If every proper set is less dense, so does psp_i. In particular a complete graph with equal weights w gives the single critical value n w / 2. For runs with tolerances and rounding with total error C, all nodes are together below the mean density minus C and all are apart above the mean density plus C.", "quantifier": "all graphs with at least two nodes, all methods, all environments; all n and w for complete graphs; all runs with a known error bound", "why_tests_cant": "Exponentially many sets; an equivalence for all graphs; complete graphs of any size.", "anchors": ["psp/psp.h:PSP::get_partitions", "psp/psp.h:PSP::get_critical_values"]}
{"id": "C100", "title": "Independent parts", "statement": "After AIC has been agglomerated on a hypergraph with nonnegative weights or on a finite linear source, getPartition(0) lists the finest partition into independent parts, parts being independent if their entropies add up to the entropy of all points: the listed parts are independent, and every partition into independent parts keeps each of them together. similarity(i, j) is positive iff no partition into independent parts separates i and j. All critical values are nonnegative; they are all positive iff the points cannot be divided into independent parts. In floating-point arithmetic with the error C of C97, a cluster at a threshold above C lies in one part of every partition into independent parts, and points of different parts have similarity at most C.", "quantifier": "all hypergraphs with nonnegative weights and all finite linear sources over any field, all exact solvers and small tolerances, provided the calls of min_norm_base do not get stuck (proved up to four points); for floating-point arithmetic as in C97", "why_tests_cant": "Independence is quantified over all partitions of the points, for all inputs; tests compare with fixed lists.", "anchors": ["IC/src/AIC.hpp:AIC::agglomerate", "IC/src/Core.hpp:HC::getPartition", "IC/src/Core.hpp:HC::similarity", "IC/src/Core.hpp:HC::getCriticalValues"]}
