{
 "claims": [
  {
   "property": "C01",
   "status": "proved",
   "theorems": [
    "PSP.Props.C01_dt_exact",
    "PSP.Props.C01_dt_any_cut",
    "PSP.Props.C01_dt_dropTies",
    "PSP.Props.C01_dt_no_between",
    "PSP.Props.C01_needs_minimal_cuts"
   ],
   "note": "Exact principal sequence when the flow solver reports minimal sink sides; with any correct solver a nested optimal sequence whose critical values are exactly the critical parameters and which becomes the principal sequence after removing repeated values. C01_needs_minimal_cuts shows the hypothesis on the cuts is needed for strictness."
  },
  {
   "property": "C02",
   "status": "proved",
   "theorems": [
    "PSP.Props.C02_dt_within_eps"
   ],
   "note": ""
  },
  {
   "property": "C03",
   "status": "proved",
   "theorems": [
    "PSP.Props.C03_pdt",
    "PSP.Props.C03_pdt_eventually",
    "PSP.Props.C03_needs_minimal_cuts"
   ],
   "note": "For every solver reporting minimal sink sides and every tolerance below a bound given by the weights (C03_pdt) or some positive bound depending on the graph (C03_pdt_eventually). C03_needs_minimal_cuts: the hypothesis on the cuts is needed."
  },
  {
   "property": "C04",
   "status": "proved",
   "theorems": [
    "PSP.Props.C04_hpsp",
    "PSP.Props.C04_hpsp_values_any_cut",
    "PSP.Props.C04_hpsp_no_between",
    "PSP.Props.C04_needs_minimal_cuts"
   ],
   "note": "Principal sequence for every solver reporting minimal sink sides and every iteration order; critical values correct for every correct solver. C04_needs_minimal_cuts: with other minimum cuts the partitions can be wrong (overlapping blocks)."
  },
  {
   "property": "C05",
   "status": "proved",
   "theorems": [
    "PSP.Props.C05_pspi"
   ],
   "note": "For every correct flow solver and every iteration order over blocks."
  },
  {
   "property": "C06",
   "status": "partial",
   "theorems": [
    "PSP.Props.C06_ties_violated",
    "PSP.Props.C06_pspi_partial",
    "PSP.Props.C06_pspi_no_between"
   ],
   "note": "The property is violated (critical values repeat); witness proved. Proved instead: the values are exactly the critical parameters, and removing repeated values gives the principal sequence. The full property holds when no optimal partition lies strictly between the coarsest and the finest (C06_pspi_no_between)."
  },
  {
   "property": "C07",
   "status": "proved",
   "theorems": [
    "PSP.Props.C07_agree",
    "PSP.Props.C07_pspi"
   ],
   "note": "Also across different solvers, iteration orders and schedules."
  },
  {
   "property": "C08",
   "status": "proved",
   "theorems": [
    "PSP.Props.C08_dilworth_min"
   ],
   "note": "dt.cpp class; the psp_i.cpp class is covered inside C05."
  },
  {
   "property": "C09",
   "status": "proved",
   "theorems": [
    "PSP.Props.C09_dilworth_finest"
   ],
   "note": ""
  },
  {
   "property": "C10",
   "status": "proved",
   "theorems": [
    "PSP.Props.C10_partition_value",
    "PSP.Props.C10_evaluate"
   ],
   "note": ""
  },
  {
   "property": "C11",
   "status": "proved",
   "theorems": [
    "PSP.Props.C11_lists"
   ],
   "note": ""
  },
  {
   "property": "C12",
   "status": "proved",
   "theorems": [
    "PSP.Props.C12_dt_calls"
   ],
   "note": ""
  },
  {
   "property": "C13",
   "status": "proved",
   "theorems": [
    "PSP.Props.C13_dt_num"
   ],
   "note": ""
  },
  {
   "property": "C14",
   "status": "proved",
   "theorems": [
    "PSP.Props.C14_order",
    "PSP.Props.C14_pspi"
   ],
   "note": ""
  },
  {
   "property": "C15",
   "status": "proved",
   "theorems": [
    "PSP.Props.C15_scale"
   ],
   "note": ""
  },
  {
   "property": "C16",
   "status": "proved",
   "theorems": [
    "PSP.Props.C16_construct"
   ],
   "note": ""
  },
  {
   "property": "C17",
   "status": "partial",
   "theorems": [
    "PSP.Props.C17_orientation_violated",
    "PSP.Props.C17_truncation_violated"
   ],
   "note": "Violated: witnesses proved."
  },
  {
   "property": "C18",
   "status": "partial",
   "theorems": [
    "PSP.Props.C18_parallel_violated"
   ],
   "note": "Violated: witness proved."
  },
  {
   "property": "C19",
   "status": "partial",
   "theorems": [
    "PSP.Props.C19_self_loop_violated"
   ],
   "note": "Violated: undefined behaviour for every graph with a positive self loop."
  },
  {
   "property": "C20",
   "status": "proved",
   "theorems": [
    "PSP.Props.C20_history",
    "PSP.Props.C20_new"
   ],
   "note": "In-place changes of the shared graph by dt are modelled step by step; holds for every graph, solver and tolerance."
  },
  {
   "property": "C21",
   "status": "partial",
   "theorems": [
    "PSP.Props.C21_violated",
    "PSP.Props.C20_history"
   ],
   "note": "Violated by psp_i and hpsp: witness proved. Holds for histories of dt, pdt, pdt_r (C20_history)."
  },
  {
   "property": "C22",
   "status": "proved",
   "theorems": [
    "PSP.Props.C22_compute_lambda",
    "PSP.Props.C22_solvable",
    "PSP.Props.C22_empty"
   ],
   "note": ""
  },
  {
   "property": "C23",
   "status": "proved",
   "theorems": [
    "PSP.Props.C23_pmf",
    "PSP.Props.C23_pmf_nan"
   ],
   "note": "Parameters y on a grid above the tolerance; the case in which {j} is optimal at the start value is C23_pmf_nan."
  },
  {
   "property": "C24",
   "status": "proved",
   "theorems": [
    "PSP.Props.C24_warm_start",
    "PSP.Props.C24_only_preflows"
   ],
   "note": ""
  },
  {
   "property": "C25",
   "status": "proved",
   "theorems": [
    "PSP.Props.C25_finite",
    "PSP.Props.C25_mutual_exclusion",
    "PSP.Props.C25_progress",
    "PSP.Props.C25_stuck",
    "PSP.Props.C25_hand_over",
    "PSP.Props.C25_interrupt",
    "PSP.Props.C25_deadlock"
   ],
   "note": "All interleavings of a transition system with spurious wake-ups, interrupts and failures. C25_deadlock is the proved defect: slice waits forever if both workers throw."
  },
  {
   "property": "C26",
   "status": "partial",
   "theorems": [
    "PSP.Props.C26_rerun_violated",
    "PSP.Props.C03_pdt"
   ],
   "note": "Violated for every graph: the second run divides zero by zero. The first run is correct (C03)."
  },
  {
   "property": "C27",
   "status": "proved",
   "theorems": [
    "PSP.Props.C27_contract"
   ],
   "note": ""
  },
  {
   "property": "C28",
   "status": "proved",
   "theorems": [
    "PSP.Props.C28_unknown",
    "PSP.Props.C28_known",
    "PSP.Props.C28_initial"
   ],
   "note": ""
  },
  {
   "property": "C29",
   "status": "proved",
   "theorems": [
    "PSP.Props.C29_one_node"
   ],
   "note": "The lists that dt leaves after dividing zero by zero are not modelled (outcome nan)."
  },
  {
   "property": "C30",
   "status": "proved",
   "theorems": [
    "PSP.Props.C30_merge",
    "PSP.Props.C30_partition",
    "PSP.Props.C30_coarsest",
    "PSP.Props.C30_cluster",
    "PSP.Props.C30_values",
    "PSP.Props.C30_empty"
   ],
   "note": ""
  },
  {
   "property": "C31",
   "status": "proved",
   "theorems": [
    "PSP.Props.C31_similarity"
   ],
   "note": ""
  },
  {
   "property": "C32",
   "status": "partial",
   "theorems": [
    "PSP.Props.C32_violated",
    "PSP.Props.C32_partial"
   ],
   "note": "Violated: witness proved. What is listed is correct and the largest value is listed (C32_partial)."
  },
  {
   "property": "C33",
   "status": "proved",
   "theorems": [
    "PSP.Props.C33_single_linkage",
    "PSP.Props.C33_entropy",
    "PSP.Props.C33_unchecked"
   ],
   "note": ""
  },
  {
   "property": "C34",
   "status": "proved",
   "theorems": [
    "PSP.Props.C34_value",
    "PSP.Props.C34_entropy",
    "PSP.Props.C34_reversed_violated"
   ],
   "note": "For arcs from lower to higher ids, as stated; C34_reversed_violated shows that the orientation is needed."
  },
  {
   "property": "C35",
   "status": "proved",
   "theorems": [
    "PSP.Props.C35_edmonds_greedy",
    "PSP.Props.C35_size"
   ],
   "note": "For every order the sort may return."
  },
  {
   "property": "C36",
   "status": "proved",
   "theorems": [
    "PSP.Props.C36_show"
   ],
   "note": ""
  },
  {
   "property": "C37",
   "status": "partial",
   "theorems": [
    "PSP.Props.C03_needs_minimal_cuts",
    "PSP.Props.C04_needs_minimal_cuts",
    "PSP.Props.C01_dt_any_cut",
    "PSP.Props.C05_pspi",
    "PSP.Props.C04_hpsp_values_any_cut"
   ],
   "note": "Violated: witnesses proved for pdt and hpsp. What holds for every correct solver: dt (C01_dt_any_cut), psp_i (C05_pspi), critical values of hpsp (C04_hpsp_values_any_cut)."
  },
  {
   "property": "C38",
   "status": "proved",
   "theorems": [
    "PSP.Props.C38_pdt_r",
    "PSP.Props.C38_schedules",
    "PSP.Props.C38_deterministic"
   ],
   "note": "For the starting points of the flow computations see C52."
  },
  {
   "property": "C39",
   "status": "proved",
   "theorems": [
    "PSP.Props.C39_pmf_r",
    "PSP.Props.C39_pmf_r_nan"
   ],
   "note": ""
  },
  {
   "property": "C40",
   "status": "partial",
   "theorems": [
    "PSP.Props.C40_rerun_violated",
    "PSP.Props.C38_pdt_r"
   ],
   "note": "Violated for every graph: the second run divides zero by zero. The first run is correct (C38)."
  },
  {
   "property": "C41",
   "status": "proved",
   "theorems": [
    "PSP.Props.C41_lists",
    "PSP.Props.C41_short",
    "PSP.Props.C41_negative"
   ],
   "note": ""
  },
  {
   "property": "C42",
   "status": "proved",
   "theorems": [
    "PSP.Props.C42_logarithmic"
   ],
   "note": ""
  },
  {
   "property": "C43",
   "status": "partial",
   "theorems": [
    "PSP.Props.C43_agg_psp",
    "PSP.Props.C43_agg_psp_four",
    "PSP.Props.C43_agg_psp_approx",
    "PSP.Props.C43_run_once",
    "PSP.Props.C43_agrees",
    "PSP.Props.C43_small_weights_violated",
    "PSP.Props.C43_reversed_violated",
    "PSP.Props.C43_history",
    "PSP.Props.C43_empty"
   ],
   "note": "Proved for exact linear solvers and small enough tolerances, provided no call of min_norm_base is ended by its counter of stuck cycles (unconditional up to four nodes). C43_small_weights_violated: the built-in absolute tolerance is too large for small weights. The exception of the incremental factor is excluded by a hypothesis here; see C76."
  },
  {
   "property": "C44",
   "status": "proved",
   "theorems": [
    "PSP.Props.C44_min_norm_base",
    "PSP.Props.C44_may_throw",
    "PSP.Props.C44_not_stuck",
    "PSP.Props.C44_stuck",
    "PSP.Props.C44_single_violated"
   ],
   "note": "On one element the value of the empty set is not subtracted (C44_single_violated)."
  },
  {
   "property": "C45",
   "status": "partial",
   "theorems": [
    "PSP.Props.C45_value",
    "PSP.Props.C45_aic",
    "PSP.Props.C45_aic_four"
   ],
   "note": "Same proviso as C43 (unconditional up to four nodes)."
  },
  {
   "property": "C46",
   "status": "proved",
   "theorems": [
    "PSP.Props.C46_mutual_info"
   ],
   "note": ""
  },
  {
   "property": "C47",
   "status": "partial",
   "theorems": [
    "PSP.Props.C47_contract_partial",
    "PSP.Props.C47_two_way_violated",
    "PSP.Props.C47_lost",
    "PSP.Props.C47_duplicates_violated"
   ],
   "note": "Capacities are kept if no node has arcs both from and to S; otherwise the property is violated."
  },
  {
   "property": "C48",
   "status": "partial",
   "theorems": [
    "PSP.Props.C48_copy",
    "PSP.Props.C48_copy_partial",
    "PSP.Props.C48_copy_violated"
   ],
   "note": "C48_copy says for every graph what the copy is; it equals the old graph iff at most one id is missing."
  },
  {
   "property": "C49",
   "status": "partial",
   "theorems": [
    "PSP.Props.C49_value",
    "PSP.Props.C49_entropy",
    "PSP.Props.C49_aic",
    "PSP.Props.C49_aic_four"
   ],
   "note": "Value and entropy properties proved in full; AIC with the same proviso as C43 (unconditional up to four sources)."
  },
  {
   "property": "C50",
   "status": "partial",
   "theorems": [
    "PSP.Props.C50_new",
    "PSP.Props.C50_value",
    "PSP.Props.C50_throws",
    "PSP.Props.C50_submodular",
    "PSP.Props.C50_mutual_info",
    "PSP.Props.C50_unchecked",
    "PSP.Props.C50_asymmetric_violated"
   ],
   "note": "Proved in full for symmetric matrices; violated for others (C50_asymmetric_violated)."
  },
  {
   "property": "C51",
   "status": "proved",
   "theorems": [
    "PSP.Props.C51_new",
    "PSP.Props.C51_value",
    "PSP.Props.C51_throws",
    "PSP.Props.C51_repeated",
    "PSP.Props.C51_no_columns_violated",
    "PSP.Props.C51_submodular",
    "PSP.Props.C51_mutual_info"
   ],
   "note": ""
  },
  {
   "property": "C52",
   "status": "partial",
   "theorems": [
    "PSP.Props.C52_warm_partial",
    "PSP.Props.C52_same_partial",
    "PSP.Props.C52_pmf_r_partial",
    "PSP.Props.C52_left_partial",
    "PSP.Props.C52_right_partial",
    "PSP.Props.C52_same_left_partial",
    "PSP.Props.C52_same_right_partial",
    "PSP.Props.C52_elevator_violated",
    "PSP.Props.C52_preflow_violated"
   ],
   "note": "Proved in full for solvers that work from any flow within the capacities without deficits at ordinary nodes, and for fitting elevators if only the left or only the right threads deliver. The last sentence of the statement is violated (C52_elevator_violated, C52_preflow_violated)."
  },
  {
   "property": "C53",
   "status": "partial",
   "theorems": [
    "PSP.Props.C53_graph_plain",
    "PSP.Props.C53_graph_partial",
    "PSP.Props.C53_same",
    "PSP.Props.C53_zero_violated"
   ],
   "note": "Violated for zero weights with pdt and pdt_r (C53_zero_violated). Holds for dt, psp_i and hpsp on all graphs (C53_graph_plain) and for all methods on positive weights."
  },
  {
   "property": "C54",
   "status": "partial",
   "theorems": [
    "PSP.Props.C54_main_partial",
    "PSP.Props.C54_main_plain",
    "PSP.Props.C54_frame",
    "PSP.Props.C54_idle",
    "PSP.Props.C54_output_violated",
    "PSP.Props.C54_lost_silently",
    "PSP.Props.C54_lost_violated",
    "PSP.Props.C54_agg_violated"
   ],
   "note": "Report, frame and idle cases proved; the naming of result files, the exit code for lost results and agg_psp violate the property (witnesses)."
  },
  {
   "property": "C55",
   "status": "proved",
   "theorems": [
    "PSP.Props.C55_example",
    "PSP.Props.C55_report"
   ],
   "note": ""
  },
  {
   "property": "C56",
   "status": "proved",
   "theorems": [
    "PSP.Props.C56_counts"
   ],
   "note": ""
  },
  {
   "property": "C57",
   "status": "proved",
   "theorems": [
    "PSP.Props.C57_ends"
   ],
   "note": ""
  },
  {
   "property": "C58",
   "status": "proved",
   "theorems": [
    "PSP.Props.C58_clusters"
   ],
   "note": ""
  },
  {
   "property": "C59",
   "status": "proved",
   "theorems": [
    "PSP.Props.C59_flow_count",
    "PSP.Props.C59_any_solver",
    "PSP.Props.C59_attained",
    "PSP.Props.C59_not_linear"
   ],
   "note": ""
  },
  {
   "property": "C60",
   "status": "partial",
   "theorems": [
    "PSP.Props.C60_lifetime_partial",
    "PSP.Props.C60_count",
    "PSP.Props.C60_safe",
    "PSP.Props.C60_copy_violated",
    "PSP.Props.C60_copy_use_violated",
    "PSP.Props.C60_assign_violated",
    "PSP.Props.C60_empty_violated"
   ],
   "note": "Proved for programs that copy only objects made from graphs of the caller, with the exact number of lost objects. Violated by copies and assignments of other objects and by graphs without nodes."
  },
  {
   "property": "C61",
   "status": "partial",
   "theorems": [
    "PSP.Props.C61_partition_partial",
    "PSP.Props.C61_agg_partial",
    "PSP.Props.C61_partition_violated",
    "PSP.Props.C61_agg_violated",
    "PSP.Props.C61_list_violated"
   ],
   "note": "Nothing else is deleted and the results do not depend on the heap; every call leaves objects behind, and the number of them is proved."
  },
  {
   "property": "C62",
   "status": "partial",
   "theorems": [
    "PSP.Props.C62_partial",
    "PSP.Props.C62_clean_partial",
    "PSP.Props.C62_input_partial",
    "PSP.Props.C62_own_violated",
    "PSP.Props.C62_leak_violated"
   ],
   "note": "If solvers do not delete their elevators: nothing is used after its end, nothing else is deleted, and nothing remains unless a thread is interrupted after init. Violated: with solvers that delete their elevators every run is undefined behaviour; otherwise interrupted threads leave elevators behind."
  },
  {
   "property": "C63",
   "status": "proved",
   "theorems": [
    "PSP.Props.C63_dt_rounded",
    "PSP.Props.C63_dt_no_between",
    "PSP.Props.C63_values",
    "PSP.Props.C63_exact",
    "PSP.Props.C63_large_violated"
   ],
   "note": "For integer weights that are too large for the stated bound the result can be wrong (C63_large_violated)."
  },
  {
   "property": "C64",
   "status": "proved",
   "theorems": [
    "PSP.Props.C64_pspi_rounded",
    "PSP.Props.C64_pspi_no_between",
    "PSP.Props.C64_exact"
   ],
   "note": ""
  },
  {
   "property": "C65",
   "status": "partial",
   "theorems": [
    "PSP.Props.C65_hpsp_values_partial",
    "PSP.Props.C65_hpsp_no_between_partial",
    "PSP.Props.C65_hpsp_violated"
   ],
   "note": "The critical values are right; the partitions can be wrong, even for weights up to 4 (C65_hpsp_violated). They are right when no optimal partition lies strictly between the coarsest and the finest."
  },
  {
   "property": "C66",
   "status": "partial",
   "theorems": [
    "PSP.Props.C66_pdt_approx_partial",
    "PSP.Props.C66_pdt_weak_partial",
    "PSP.Props.C66_exact",
    "PSP.Props.C66_pdt_violated",
    "PSP.Props.C66_exception_violated"
   ],
   "note": "Violated even for weights 1: the result can contain partitions between those of the principal sequence. Proved for all weights of moderate size, not only integers: unless the exception \"lambda value mismatch\" is thrown, the partitions are optimal up to 13 n (n+2)^2 eps; if all weights are multiples of some u (1 for integers) that is large compared with this, they are exactly optimal (a weak principal sequence) and the critical values are within 13 n (n+2)^2 eps of the true ones. The exception can occur (C66_exception_violated): for two critical values that differ by almost exactly the tolerance, in double arithmetic."
  },
  {
   "property": "C67",
   "status": "proved",
   "theorems": [
    "PSP.Props.C67_pdt_approx",
    "PSP.Props.C67_pdt_weak",
    "PSP.Props.C67_pdt_no_between",
    "PSP.Props.C67_pdt_integer",
    "PSP.Props.C67_pdt_r_approx",
    "PSP.Props.C67_pdt_r_weak",
    "PSP.Props.C67_pdt_r_integer",
    "PSP.Props.C67_pdt_r_warm",
    "PSP.Props.C67_error_occurs"
   ],
   "note": "Exact arithmetic, tolerance as in the code. C67_error_occurs shows that the error is not always zero."
  },
  {
   "property": "C68",
   "status": "proved",
   "theorems": [
    "PSP.Props.C68_pdt_r",
    "PSP.Props.C68_schedules",
    "PSP.Props.C52_same_partial"
   ],
   "note": "With starting points: C52_same_partial, for solvers that work from any flow."
  },
  {
   "property": "C69",
   "status": "partial",
   "theorems": [
    "PSP.Props.C69_tree_partial",
    "PSP.Props.C69_star_partial",
    "PSP.Props.C69_values_partial",
    "PSP.Props.C69_lost_violated",
    "PSP.Props.C69_overlap_violated",
    "PSP.Props.C69_root_violated",
    "PSP.Props.C69_forever_violated"
   ],
   "note": "The values are right for all trees; the partitions are right for exactly the trees described by Orderly (C69_tree_partial, an equivalence), among them all stars. Violated for other trees: a parent can be lost, blocks can overlap. Also shown: what goes wrong if the entry for the root is above the others or weights are below -1."
  },
  {
   "property": "C70",
   "status": "proved",
   "theorems": [
    "PSP.Props.C70_dt_approx",
    "PSP.Props.C70_dt_approx_large",
    "PSP.Props.C70_dt_weak",
    "PSP.Props.C70_dt_exact"
   ],
   "note": "Discarded edges add at most eps each to the error."
  },
  {
   "property": "C71",
   "status": "proved",
   "theorems": [
    "PSP.Props.C71_pspi_approx",
    "PSP.Props.C71_pspi_approx_large",
    "PSP.Props.C71_hpsp_approx",
    "PSP.Props.C71_hpsp_approx_large",
    "PSP.Props.C71_error_real"
   ],
   "note": "exact arithmetic; the tolerance is the only source of error"
  },
  {
   "property": "C72",
   "status": "partial",
   "theorems": [
    "PSP.Props.C72_pspi_approx_partial",
    "PSP.Props.C72_pspi_approx_large_partial",
    "PSP.Props.C72_pspi_weak_partial",
    "PSP.Props.C72_order_violated"
   ],
   "note": "The order of the critical values is violated (witness in double arithmetic). Proved for all weights: the result with the values in increasing order is right up to a small error, and sorting moves the values by at most a small error. The tolerance must be at least 2^-p and must not be rounded down (it is a double)."
  },
  {
   "property": "C73",
   "status": "partial",
   "theorems": [
    "PSP.Props.C73_hpsp_values_partial",
    "PSP.Props.C73_hpsp_values_large_partial",
    "PSP.Props.C73_hpsp_critical",
    "PSP.Props.C73_hpsp_pspi",
    "PSP.Props.C73_partitions_violated"
   ],
   "note": "The partitions are violated (overlapping blocks for a tree with four edges in double arithmetic). Proved for all weights: the critical values are strictly increasing and right up to a small error, there is one partition more than values, the last one is the finest, and the values are those of psp_i. The tolerance must be at least 2^-p and must not be rounded down (it is a double)."
  },
  {
   "property": "C74",
   "status": "proved",
   "theorems": [
    "PSP.Props.C74_dtnum_rounded",
    "PSP.Props.C74_dtnum_grid",
    "PSP.Props.C74_exact",
    "PSP.Props.C74_large_violated"
   ],
   "note": "for weights within the bound of DtRoundingFine; C74_large_violated: a triangle with weights 700000 for which DT::run(2) never ends and DT::run(4) throws"
  },
  {
   "property": "C75",
   "status": "partial",
   "theorems": [
    "PSP.Props.C75_pdt_r_approx_partial",
    "PSP.Props.C75_pdt_r_weak_partial",
    "PSP.Props.C75_threads_partial",
    "PSP.Props.C75_exact",
    "PSP.Props.C75_pdt_r_violated",
    "PSP.Props.C75_exception_violated",
    "PSP.Props.C75_threads_violated",
    "PSP.Props.C75_partitions_violated"
   ],
   "note": "Violated: the critical values and the partitions can depend on the threads, additional partitions can occur for unit weights and the exception \"lambda value mismatch\" can occur. Proved for all weights of moderate size and all schedules: unless the exception is thrown, the partitions are optimal up to 13 n (n+2)^2 eps, exactly optimal if the weights are multiples of some u that is large compared with this, and then the same for all schedules if no optimal partition lies between others."
  },
  {
   "property": "C76",
   "status": "partial",
   "theorems": [
    "PSP.Props.C76_nothing_else",
    "PSP.Props.C76_agg_psp_violated",
    "PSP.Props.C76_run_once_violated",
    "PSP.Props.C76_min_norm_base_violated",
    "PSP.Props.C76_min_norm_base_partial",
    "PSP.Props.C76_three",
    "PSP.Props.C76_agg_psp_same_partial",
    "PSP.Props.C76_agg_psp_partial",
    "PSP.Props.C76_agg_psp_four",
    "PSP.Props.C76_aic_four"
   ],
   "note": "Violated: when a minor cycle removes two columns at once the factor becomes wrong and a later cycle throws although the arithmetic is exact (five nodes, weights 1 and 3). Proved: nothing else can happen because of the factor; it cannot happen as long as every minor cycle removes one column, nor on at most three elements, so agg_psp and AIC are right on at most four nodes with the factor of the code."
  },
  {
   "property": "C77",
   "status": "partial",
   "theorems": [
    "PSP.Props.C77_min_norm_base_partial",
    "PSP.Props.C77_sequential",
    "PSP.Props.C77_any_solver_partial",
    "PSP.Props.C77_any_solver_factor_partial",
    "PSP.Props.C77_exists",
    "PSP.Props.C77_origin_violated",
    "PSP.Props.C77_exact_solver",
    "PSP.Props.C77_exact_solver_factor",
    "PSP.Props.C77_bound_violated"
   ],
   "note": "Proved except for the origin: if all columns are removed the point is 0 and passes the test, though it need not be in the base polytope (C77_origin_violated, with a large eps). C77_sequential: products computed from left to right in a floating-point format (limited exponents, as double, or not) meet the assumption on rounding, if the solver returns numbers of the format that are not too large. The exact case holds for any solver, also with the factor L of the code. With an exact solver and n*eps < 1 nothing is excepted (C77_exact_solver, C77_exact_solver_factor), and this bound on eps is sharp (C77_bound_violated)."
  },
  {
   "property": "C78",
   "status": "partial",
   "theorems": [
    "PSP.Props.C78_ends_or_never",
    "PSP.Props.C78_stuck_iff",
    "PSP.Props.C78_stuck_forever",
    "PSP.Props.C78_cycle_violated",
    "PSP.Props.C78_cycle_double_violated",
    "PSP.Props.C78_triangle_violated",
    "PSP.Props.C78_run_once_violated",
    "PSP.Props.C78_cycle_sequence",
    "PSP.Props.C78_exact_points_violated",
    "PSP.Props.exists_exactPoints"
   ],
   "note": "Violated: on a cycle of four nodes with weights 1, 1, 1 and 1.000003 agg_psp never ends, with exact arithmetic and with double; on a graph with seven nodes it never ends even if min_norm_base returns exact minimum norm bases. Proved: it ends within n + 1 rounds or never, and a round makes no progress exactly if its value is above the last critical value. C43 gives the tolerances for which it ends."
  },
  {
   "property": "C79",
   "status": "partial",
   "theorems": [
    "PSP.Props.C79_round_partial",
    "PSP.Props.C79_round_exact",
    "PSP.Props.C79_links",
    "PSP.Props.C79_largest_partial",
    "PSP.Props.C79_merge_value"
   ],
   "note": "Proved, with limited exponents as in double, for calls of min_norm_base that end by the test of optimality with a point other than the origin (see C77), weights in the range 256 n W^2 <= 4^p, and solvers that return numbers of the format; the origin is not excepted in exact arithmetic with an exact solver and n*eps < 1 (C79_round_exact). C79_links says which clusters a round merges. The partitions of later rounds are in C86 (integral weights)."
  },
  {
   "property": "C80",
   "status": "proved",
   "theorems": [
    "PSP.Props.C80_contained",
    "PSP.Props.C80_heavier",
    "PSP.Props.C80_rename"
   ],
   "note": "Tolerances as in C07 (PdtTolerance)."
  },
  {
   "property": "C81",
   "status": "proved",
   "theorems": [
    "PSP.Props.C81_monotone",
    "PSP.Props.C81_stable"
   ],
   "note": "Tolerances as in C07 (PdtTolerance)."
  },
  {
   "property": "C82",
   "status": "proved",
   "theorems": [
    "PSP.Props.C82_part"
   ],
   "note": "Tolerances as in C07 (PdtTolerance)."
  },
  {
   "property": "C83",
   "status": "proved",
   "theorems": [
    "PSP.Props.C83_clusters",
    "PSP.Props.C83_values"
   ],
   "note": "Runs of agg_psp are included under the assumptions of C87. The runs and their error bounds are listed in RunResult; the critical values of psp_i in floating-point arithmetic are sorted first (C72 bounds the difference)."
  },
  {
   "property": "C84",
   "status": "partial",
   "theorems": [
    "PSP.Props.C84_roundtrip",
    "PSP.Props.C84_attributes_violated",
    "PSP.Props.C84_endless_violated"
   ],
   "note": "The round trip is proved. Violated: source and target are never labelled for a section of attributes in the usual order, and a file without a line @arcs is read for ever."
  },
  {
   "property": "C85",
   "status": "partial",
   "theorems": [
    "PSP.Props.C85_graph",
    "PSP.Props.C85_random",
    "PSP.Props.C85_random_violated",
    "PSP.Props.C85_closer"
   ],
   "note": "Proved for arrays of points and for multiples of four. Violated: without an array and with np not a multiple of 4 the constructor reads beyond the end of the positions."
  },
  {
   "property": "C86",
   "status": "partial",
   "theorems": [
    "PSP.Props.C86_run_partial",
    "PSP.Props.C86_gap",
    "PSP.Props.C86_rounded_solver"
   ],
   "note": "Proved with limited exponents as in double, for integral weights, a solver with a given relative error when the entries it returns have the same sign (C86_rounded_solver: correctly rounded solutions have one of 2/2^p), and runs in which all calls of min_norm_base end by the test of optimality with a point other than the origin. The distance e is shown to exist for every graph (C86_gap), not computed in general. Not covered: other weights (see C87), runs with other ends (C78), the error of Eigen's llt."
  },
  {
   "property": "C87",
   "status": "partial",
   "theorems": [
    "PSP.Props.C87_run_partial",
    "PSP.Props.C87_exact_partial"
   ],
   "note": "Proved for exact arithmetic with an exact solver and n*eps < 1, and for floating-point arithmetic with limited exponents, for runs in which all calls of min_norm_base in reached states end by the test of optimality (in floating-point arithmetic: with a point other than the origin, see C77). any_run and exact_run are runs with fractional weights that meet all assumptions. Not covered: runs where a call ended otherwise; that the run ends is false in general (C78)."
  },
  {
   "property": "C88",
   "status": "partial",
   "theorems": [
    "PSP.Props.C88_functor_partial",
    "PSP.Props.C88_hypergraph_partial",
    "PSP.Props.C88_linear_partial"
   ],
   "note": "Proved for exact arithmetic with an exact solver and n*eps < 1, for runs in which all calls of min_norm_base in reached states end by the test of optimality. hypergraph_run (with a negative weight) and source_run meet all assumptions. Rounding is in C89. Not covered: runs where a call ended otherwise; that the run ends."
  },
  {
   "property": "C89",
   "status": "partial",
   "theorems": [
    "PSP.Props.C89_hypergraph_partial",
    "PSP.Props.C89_linear_partial"
   ],
   "note": "Proved for every rounding to p digits and any linear solver with results in the format, for runs in which all calls of min_norm_base in reached states end by the test of optimality. doubleHypergraph_run and doubleSource_run (double, tolerances of the code) meet all assumptions. Not covered: runs where a call ended otherwise; negative weights; that the run ends."
  },
  {
   "property": "C90",
   "status": "proved",
   "theorems": [
    "PSP.Props.C90_between",
    "PSP.Props.C90_sharp",
    "PSP.Props.C90_forest",
    "PSP.Props.C90_methods",
    "PSP.Props.C90_entropy",
    "PSP.Props.C90_hypergraph",
    "PSP.Props.C90_linear",
    "PSP.Props.C90_triangle_violated"
   ],
   "note": "The statement is proved in full; its last sentence, that the comment of the constructor is not true in general, is C90_triangle_violated."
  },
  {
   "property": "C91",
   "status": "proved",
   "theorems": [
    "PSP.Props.C91_hypergraph",
    "PSP.Props.C91_linear",
    "PSP.Props.C91_digraph"
   ],
   "note": ""
  },
  {
   "property": "C92",
   "status": "proved",
   "theorems": [
    "PSP.Props.C92_hierarchy",
    "PSP.Props.C92_hierarchy_exact",
    "PSP.Props.C92_digraph",
    "PSP.Props.C92_outcomes"
   ],
   "note": "Reading outside of a returned point gives 0 in the model; points of the code have the right length (used in C92_outcomes). C92_outcomes assumes a rounding that is monotone and idempotent (plain_id, plain_double)."
  },
  {
   "property": "C93",
   "status": "proved",
   "theorems": [
    "PSP.Props.C93_queries",
    "PSP.Props.C93_queries_exact",
    "PSP.Props.C93_digraph",
    "PSP.Props.C93_optimal",
    "PSP.Props.C93_near",
    "PSP.Props.C93_hypergraph_four"
   ],
   "note": "C93_optimal and C93_near take the sequence from the theorems on run (C43, C45, C49, C87 to C89); C93_hypergraph_four composes them for one kind of input. doubleObject is a run with double."
  },
  {
   "property": "C94",
   "status": "proved",
   "theorems": [
    "PSP.Props.C94_inside",
    "PSP.Props.C94_merged"
   ],
   "note": "Tolerances as in C07 (PdtTolerance). Clusters at a threshold as in C80 (clustersAt)."
  },
  {
   "property": "C95",
   "status": "proved",
   "theorems": [
    "PSP.Props.C95_bounds",
    "PSP.Props.C95_alone",
    "PSP.Props.C95_whole",
    "PSP.Props.C95_sharp"
   ],
   "note": "Tolerances as in C07 (PdtTolerance)."
  },
  {
   "property": "C96",
   "status": "partial",
   "theorems": [
    "PSP.Props.C96_object",
    "PSP.Props.C96_hypergraph",
    "PSP.Props.C96_hypergraph_four",
    "PSP.Props.C96_sources",
    "PSP.Props.C96_sources_four"
   ],
   "note": "Same proviso as C45 and C49 (unconditional up to four points); C96_object needs only that the sequence is the principal one."
  },
  {
   "property": "C97",
   "status": "partial",
   "theorems": [
    "PSP.Props.C97_object",
    "PSP.Props.C97_hypergraph_partial",
    "PSP.Props.C97_sources_partial",
    "PSP.Props.C97_graph"
   ],
   "note": "The provisos of C89: the loop of AIC ends, and the calls of min_norm_base end by their test of optimality. C97_object and C97_graph have no provisos of their own."
  },
  {
   "property": "C98",
   "status": "proved",
   "theorems": [
    "PSP.Props.C98_clusters",
    "PSP.Props.C98_components",
    "PSP.Props.C98_first",
    "PSP.Props.C98_near_clusters",
    "PSP.Props.C98_near_components"
   ],
   "note": "The tolerance must be fine for the weights (as for C57); C98_near_* have the provisos of the runs of C83."
  },
  {
   "property": "C99",
   "status": "proved",
   "theorems": [
    "PSP.Props.C99_equal",
    "PSP.Props.C99_trivial",
    "PSP.Props.C99_strict",
    "PSP.Props.C99_complete",
    "PSP.Props.C99_near"
   ],
   "note": "The tolerance must be fine for the weights (as for C57); C99_near has the provisos of the runs of C83."
  },
  {
   "property": "C100",
   "status": "partial",
   "theorems": [
    "PSP.Props.C100_object",
    "PSP.Props.C100_hypergraph",
    "PSP.Props.C100_hypergraph_four",
    "PSP.Props.C100_sources",
    "PSP.Props.C100_sources_four",
    "PSP.Props.C100_near"
   ],
   "note": "Same proviso as C45 and C49 (unconditional up to four points); C100_object needs only that the sequence is the principal one. C100_near takes the answers up to an error from C97."
  }
 ]
}