import Verif.Props.RoundedAIC
import Verif.Props.Util
import Verif.Props.PDTRRounded
import Verif.Props.PSPIOrder
import Verif.Model.Gaussian2D
import Verif.Model.PMFRWarm

/-!
# The tests of the project (`/repo/test`), run on the model

These are tests of the model, not proofs: each of them feeds the input of a test of the project to the model of the function
under test and compares with the result that the test expects. Left out: tests of LEMON itself (`TEST(PMF_R, reverse)`),
tests that only print (`TEST(PDT, RUN)`), and those that compare two methods on eight points with irrational weights (C07 and
C83 are about that). Numbers such as `5 / 3.0` are exact here.
-/

namespace PSP.Props

open PSP.Spec PSP.Model PSP.Theory

/-! ### fixtures (test/utility.h, test_graph.h) -/

/-- `Graph4PointTest`, `Graph4PointTestGraph` (utility.h:12-62). -/
def graph4Point : List Arc := [⟨0, 1, 1⟩, ⟨1, 2, 1⟩, ⟨2, 3, 1⟩, ⟨0, 3, 1⟩, ⟨0, 2, 1 / 2⟩, ⟨1, 3, 1 / 2⟩]

/-- `FourPointNotComplete` (utility.h:64-111). -/
def fourPointNotComplete : List Arc := [⟨0, 1, 1⟩, ⟨2, 3, 1⟩]

/-- `ThreePointComplete` (utility.h:113-147), also `SIMPLE_DGRAPH` (test_graph.h:13-26). -/
def threePointComplete : List Arc := [⟨0, 1, 1⟩, ⟨0, 2, 1⟩, ⟨1, 2, 5⟩]

/-- The graph of `PMClass` and `PDT_R, RUN` (test_pmf.h:45-61, test_pmf_r.h:161-187). -/
def pmClass : List Arc := [⟨0, 1, 1⟩, ⟨0, 2, 5⟩, ⟨1, 2, 1⟩]

/-- `SIMPLE_FOUR_POINT` (test_psp_i.h:5-11, test_hpsp.h:9-17, test_agg_psp.h:6-12). -/
def simpleFourPoint : List Arc := [⟨0, 1, 1⟩, ⟨0, 2, 2 / 5⟩, ⟨1, 3, 1 / 2⟩, ⟨2, 3, 2⟩]

/-- `NESTED_FOUR_POINT` (test_hpsp.h:58-67). -/
def nestedFourPoint : List Arc := [⟨0, 1, 5⟩, ⟨0, 2, 2⟩, ⟨0, 3, 1⟩, ⟨1, 2, 2⟩, ⟨1, 3, 1⟩]

/-! ### test_graph.h -/

/-- `SIMPLE_DGRAPH, make_dgraph`. -/
example : makeDgraph lemonEps 3 threePointComplete = .ok ⟨[0, 1, 2], threePointComplete⟩ ∧
    (threePointComplete.map Arc.cap).sum = 7 := by decide +kernel

/-- `SIMPLE_DGRAPH, get_cut_value`. -/
example : getCutValue threePointComplete ∅ = 0 ∧ getCutValue threePointComplete {2} = 6 ∧
    getCutValue threePointComplete {0, 2} = 5 ∧ getCutValue threePointComplete {0, 1, 2} = 0 := by decide +kernel

/-- `SIMPLE_DGRAPH, get_partition_value`. -/
example : getPartitionValue threePointComplete (makeFine 3) = 7 ∧
    getPartitionValue threePointComplete {makeDense 3} = 0 ∧
    getPartitionValue threePointComplete {{0}, {1, 2}} = 2 := by decide +kernel

/-! ### test_dt.h -/

/-- `Graph4PointTestGraph, DT`, and `Graph4PointTest` with `pdt` and `pdt_r` (test_pmf.h, test_pmf_r.h). -/
example : ∀ m ∈ ["dt", "pdt", "pdt_r"], runOnce exEnv exSched 4 graph4Point m =
    .ok ⟨[{makeDense 4}, makeFine 4], [5 / 3]⟩ := by decide +kernel

/-- `Graph4PointTestGraph, MFDT`. -/
example : dilworthDT bruteSolver ⟨List.range 4, graph4Point⟩ (5 / 3 + 1 / 10) = .ok (-(31 / 5) / 3, makeFine 4) := by
  decide +kernel

/-- `FourPointNotCompleteGraph, MFDT`. -/
example : dilworthDT bruteSolver ⟨List.range 4, fourPointNotComplete⟩ (1 / 10) = .ok (-(1 / 5), {{2, 3}, {0, 1}}) := by
  decide +kernel

/-! ### test_pmf.h, test_pmf_r.h -/

/-- `PMF, EquationSolve`. -/
example : computeLambda lemonEps [(2, some 0), (0, some 0)] (-1 / 2) = .ok (1 / 2) ∧
    computeLambda lemonEps [(2, some 0), (0, some 0)] (-3) = .ok (5 / 2) ∧
    (∃ s, computeLambda lemonEps [(2, some 0), (0, some 0)] 1 = .exc s) ∧
    computeLambda lemonEps [(2, some 0), (0, some 0)] (-1) = .ok 1 ∧
    computeLambda lemonEps [(0, some 0), (0, some 0)] (-2) = .ok 1 ∧
    computeLambda lemonEps [(0, none), (0, some 0)] 2 = .ok (-2) ∧
    computeLambda lemonEps [(0, none), (0, some 0)] (-2) = .ok 1 ∧
    computeLambda lemonEps [(0, none), (0, none)] 2 = .ok (-1) ∧
    computeLambda lemonEps [(1, some (-1))] (-1) = .ok 2 := by
  refine ⟨by decide +kernel, by decide +kernel, ⟨"no solution", by decide +kernel⟩, by decide +kernel, by decide +kernel,
    by decide +kernel, by decide +kernel, by decide +kernel, by decide +kernel⟩

/-- `PMF, PMClass`. -/
example : pmfRun bruteWarm lemonEps ⟨List.range 3, pmClass⟩ 2 (fun _ => (0, none)) =
    .ok ([{0, 1, 2}, {0, 2}, {2}], [1, 5]) := by decide +kernel

/-- `PMF_R, PMClass`, whichever threads deliver. -/
example : ∀ c ∈ [Finish.left, Finish.right, Finish.both],
    pmfrRun bruteSolver bruteSrc lemonEps ⟨List.range 3, pmClass⟩ (fun _ _ _ => c) 2 (fun _ => (0, none)) =
      .ok ([{0, 1, 2}, {0, 2}, {2}], [1, 5]) := by decide +kernel

/-- `PMF, ComputeCut`. -/
example : getCutValue [⟨0, 1, 1⟩, ⟨1, 2, 2⟩, ⟨0, 2, 4⟩] {2} = 6 ∧ getCutValue [⟨0, 1, 1⟩, ⟨1, 2, 2⟩, ⟨0, 2, 4⟩] {1, 2} = 5 ∧
    getCutValue [⟨0, 1, 1⟩, ⟨1, 2, 2⟩, ⟨0, 2, 4⟩] {0, 1, 2} = 0 := by decide +kernel

/-- `ThreePointComplete` with `PDT` and `PDT_R`. -/
example : ∀ m ∈ ["pdt", "pdt_r"], runOnce exEnv exSched 3 threePointComplete m =
    .ok ⟨[{makeDense 3}, {{1, 2}, {0}}, makeFine 3], [2, 5]⟩ := by decide +kernel

/-- `FourPointNotComplete` with `PDT` and `PDT_R`. -/
example : ∀ m ∈ ["pdt", "pdt_r"], runOnce exEnv exSched 4 fourPointNotComplete m =
    .ok ⟨[{makeDense 4}, {{0, 1}, {2, 3}}, makeFine 4], [0, 1]⟩ := by decide +kernel

/-- `PDT_R, RUN`. -/
example : runOnce exEnv exSched 3 pmClass "pdt_r" = .ok ⟨[{makeDense 3}, {{0, 2}, {1}}, makeFine 3], [2, 5]⟩ := by
  decide +kernel

/-- The network read from the string in `PMF_R, execute_reverse`, `contract` and `modifyFlow`; 4 is the source, 3 the
sink. -/
def readNet : List NArc := [⟨.src, .v 0, 1⟩, ⟨.src, .v 2, 2⟩, ⟨.v 0, .v 1, 3⟩, ⟨.v 2, .v 0, 5⟩, ⟨.v 2, .snk, 6⟩,
  ⟨.v 1, .v 2, 4⟩, ⟨.v 1, .snk, 7⟩]

/-- `PMF_R, execute_reverse`: the value is 3, the sink side `{0, 1, 2, 3}`. -/
example : rightResult bruteSrc 3 ⟨{0, 1, 2}, readNet⟩ .right = ({0, 1, 2, 3}, 3) := by decide +kernel

/-- `PMF_R, contract`. -/
example : contractR lemonEps 3 {2, 4} {1, 3} readNet =
    [⟨.src, .snk, 6⟩, ⟨.snk, .src, 4⟩, ⟨.src, .v 0, 6⟩, ⟨.v 0, .snk, 3⟩] := by decide +kernel

/-- `PMF_R, modifyFlow`, with the maximum flow of the network. -/
example : contractFlow lemonEps 3 {2, 4} {1, 3} readNet [1, 2, 1, 0, 2, 0, 1] = [2, 0, 1, 1] := by decide +kernel

/-- `PMF_R, construct_new_base`. -/
example : newBase [⟨0, 1, 2⟩, ⟨0, 2, 3⟩, ⟨0, 3, 5⟩, ⟨1, 3, 4⟩, ⟨1, 2, 1⟩, ⟨2, 3, 7⟩] {0, 4} {3} 1 = (2, 4) ∧
    newBase [⟨0, 1, 2⟩, ⟨0, 2, 3⟩, ⟨0, 3, 5⟩, ⟨1, 3, 4⟩, ⟨1, 2, 1⟩, ⟨2, 3, 7⟩] {0, 4} {3} 2 = (3, 7) := by decide +kernel

/-! ### test_psp_i.h, test_hpsp.h, test_agg_psp.h -/

/-- `SIMPLE_FOUR_POINT` with `psp_i` and `hpsp`. -/
example : ∀ m ∈ ["psp_i", "hpsp"], runOnce exEnv exSched 4 simpleFourPoint m =
    .ok ⟨[{makeDense 4}, {{0, 1}, {2, 3}}, {{0}, {1}, {2, 3}}, makeFine 4], [9 / 10, 1, 2]⟩ := by decide +kernel

/-- The members `K` and `W` in `HPSP, SIMPLE_FOUR_POINT`. -/
example : (do
    let x ← hpspSplit bruteSolver lemonEps exOrd 5 ⟨List.range 4, simpleFourPoint⟩ ⟨fun _ => 0, fun _ => 0⟩ 0 (makeDense 4)
    return ((List.range 4).map x.2.K, (List.range 4).map x.2.W)) =
    Outcome.ok ([0, 0, 0, 2], [9 / 10, 1, 9 / 10, 2]) := by decide +kernel

/-- `HPSP, NESTED_FOUR_POINT`. -/
example : runOnce exEnv exSched 4 nestedFourPoint "hpsp" =
    .ok ⟨[{makeDense 4}, {{0, 1, 2}, {3}}, {{0, 1}, {2}, {3}}, makeFine 4], [2, 4, 5]⟩ := by decide +kernel

/-- The members `K` and `W` in `HPSP, NESTED_FOUR_POINT`. -/
example : (do
    let x ← hpspSplit bruteSolver lemonEps exOrd 5 ⟨List.range 4, nestedFourPoint⟩ ⟨fun _ => 0, fun _ => 0⟩ 0 (makeDense 4)
    return ((List.range 4).map x.2.K, (List.range 4).map x.2.W)) =
    Outcome.ok ([0, 0, 0, 0], [2, 5, 4, 2]) := by decide +kernel

/-- `Agglomerative_PSP, SIMPLE_FOUR_POINT`. -/
example : aggRun (mnbOf gaussNumerics (1 / 10 ^ 6) (1 / 10 ^ 15) 20) ⟨List.range 4, simpleFourPoint⟩ (1 / 10 ^ 6) =
    .ok ([{makeDense 4}, {{0, 1}, {2, 3}}, {{0}, {1}, {2, 3}}, makeFine 4], [9 / 10, 1, 2]) := by decide +kernel

/-! ### test_gaussian.h -/

/-- `Gaussian2D, GivenPoint`: the weights `exp(-36)` and `exp(-72)` are negligible, whatever `exp` is above `10⁻¹⁰`. -/
example : (do
    let x ← gaussian2D lemonEps (similarity (fun t => if t < 36 then 1 else 1 / 10 ^ 15) 1) 4
      (some [(3, 3), (3, -3), (-3, 3), (-3, -3)]) (fun _ => 0)
    let r ← runOnce exEnv exSched 4 x.2 "psp_i"
    return (x.1, r.psp.map Finset.card)) =
    Outcome.ok ([(3, 3), (3, -3), (-3, 3), (-3, -3)], [1, 4]) := by decide +kernel

/-! ### test_utility.h -/

/-- `Graph4PointTestGraph, Contract`. -/
example : digraphContract lemonEps ⟨List.range 4, graph4Point⟩ {1, 2, 3} 2 = .ok ⟨[0, 2], [⟨0, 2, 5 / 2⟩]⟩ := by
  decide +kernel

/-- `DigraphUtility, COPY`: node 1 was erased, its arc is gone. -/
example : digraphCopy ⟨[0, 2], [⟨0, 2, 4⟩], [1], 3⟩ = .ok ⟨[0, 2], [⟨0, 2, 4⟩]⟩ := by decide +kernel

/-! ### in double arithmetic

The same runs with the rounded models. `EXPECT_DOUBLE_EQ` allows four units in the last place; `doubleEq` allows less. -/

/-- Implies that `EXPECT_DOUBLE_EQ(a, b)` holds. -/
def doubleEq (a b : ℚ) : Bool := decide (|a - b| ≤ 4 * (1 / 2 ^ 53) * |b|)

/-- The critical values and partitions of a run are as a test expects. -/
def expected (r : Outcome PSPOut) (ps : List Partition) (cv : List ℚ) : Bool :=
  match r with
  | .ok r => decide (r.psp = ps) && decide (r.cv.length = cv.length) && (List.zipWith doubleEq r.cv cv).all id
  | _ => false

/-- Weights as the compiler stores them. -/
def stored (E : List Arc) : List Arc := E.map fun a => ⟨a.src, a.dst, roundDouble a.cap⟩

example : expected (makeDgraph lemonEps 4 (stored graph4Point) >>=
    dtRunF roundDouble lemonOrder exOrd (roundedSolver 53) lemonEps) [{makeDense 4}, makeFine 4]
    [roundDouble (1 + roundDouble (2 / 3))] = true := by decide +kernel

example : expected (makeDgraph lemonEps 4 (stored graph4Point) >>=
    pdtRunF roundDouble List.reverse List.reverse (roundedWarm 53) lemonEps) [{makeDense 4}, makeFine 4]
    [roundDouble (1 + roundDouble (2 / 3))] = true := by decide +kernel

example : ∀ c ∈ [Finish.left, .right, .both], expected (doubleRun 4 (stored graph4Point) fun _ _ _ => c)
    [{makeDense 4}, makeFine 4] [roundDouble (1 + roundDouble (2 / 3))] = true := by decide +kernel

example : expected (makeDgraph lemonEps 4 (stored simpleFourPoint) >>= fun g =>
    pspiRunF roundDouble lemonOrder (roundedSolver 53) lemonEps exOrd g >>= fun r => pure r.2)
    [{makeDense 4}, {{0, 1}, {2, 3}}, {{0}, {1}, {2, 3}}, makeFine 4] [roundDouble (9 / 10), 1, 2] = true := by
  decide +kernel

example : expected (makeDgraph lemonEps 4 (stored simpleFourPoint) >>= fun g =>
    hpspRunF roundDouble lemonOrder (roundedSolver 53) lemonEps exOrd g >>= fun r => pure r.2)
    [{makeDense 4}, {{0, 1}, {2, 3}}, {{0}, {1}, {2, 3}}, makeFine 4] [roundDouble (9 / 10), 1, 2] = true := by
  decide +kernel

example : expected (do
    let r ← aggRunF roundDouble id id (mnbOfF roundDouble (gaussDouble.seqF roundDouble)
      (roundDouble (1 / 10 ^ 6)) (roundDouble (1 / 10 ^ 15)) 50) ⟨List.range 4, stored simpleFourPoint⟩
      (roundDouble (1 / 10 ^ 6))
    return ⟨r.1, r.2⟩)
    [{makeDense 4}, {{0, 1}, {2, 3}}, {{0}, {1}, {2, 3}}, makeFine 4] [roundDouble (9 / 10), 1, 2] = true := by
  decide +kernel

end PSP.Props
