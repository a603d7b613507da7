import Verif.Model.RoundedAIC
import Verif.Model.FLS
import Verif.Model.HC

/-!
# Model: `AIC` with the functors of `hypergraph.hpp` and `FLS.hpp` in floating-point arithmetic

As `Model/AIC` and `Model/FLS`, with a rounding `fl` after every operation on numbers.
-/

namespace PSP.Model

/-- `HypergraphEntropy` (hypergraph.hpp:6-46) with rounding: the sum `ent += M.col(i).maxCoeff()` (lines 25-28). -/
def hypergraphEntropyF (fl : ℚ → ℚ) (M : List (List ℚ)) (cols : ℕ) : SF where
  size := M.length
  val B := flSum fl 0 ((List.range cols).map fun c => maxCoeff (B.map fun r => (M.getD r []).getD c 0))

variable {F : Type} [Field F] [DecidableEq F]

variable (F) in
/-- `FiniteLinearEntropy` (FLS.hpp:48-98) with rounding: the product of `k * log2(p)`, here `unit`, and the rank
(line 70). The rank itself is computed with integers (FLS.hpp:7-46). -/
def finiteLinearF (fl : ℚ → ℚ) (unit : ℚ) (cols : ℕ) (M : List (List (List ℤ))) : SF where
  size := M.length
  val B := fl (unit * grank F cols (B.flatMap fun b => M.getD b []))

/-- `Agglomerative_PSP::run` (agglomerative.cpp:81-89) for any `SF`, with rounding. -/
def aicRunF (fl : ℚ → ℚ) (mnb : SF → Outcome (List ℚ)) (f : SF) (fnTol : ℚ) : Outcome (List Partition × List ℚ) := do
  let h := HC.new f.size
  let P ← h.getCoarsestPartition
  aggLoopF fl mnb f fnTol (f.size + 1) h [toPartition P] []

/-- `CL::CL(SF &h)` (ChowLiu.hpp:45-57) with rounding: `h({i}) + h({j}) - h({i, j})` (lines 50-52). -/
def CL.ofEntropyF (fl : ℚ → ℚ) (f : List ℕ → ℚ) (n : ℕ) (idx : List ℕ) : Outcome HC :=
  let ps := clPairs n
  CL.new n (ps.map Prod.fst) (ps.map Prod.snd)
    (ps.map fun p => fl (fl (f [p.1] + f [p.2]) - f [p.1, p.2])) idx

end PSP.Model
