import Verif.Model.AIC
import Verif.Model.PSP

/-!
# Model of the class `psp::PSP` compiled with `AGG` (`/repo/psp/psp.cpp:46-49, 83-90`)
-/

namespace PSP.Model

open PSP.Spec (Arc)

/-- The node ids of the graph are `0 … n-1`: then `DigraphEntropy` (agglomerative.cpp:46-60) asks only for
nodes that exist. -/
def Mem.contiguous (m : Mem) : Bool := decide (m.nodes.Perm (List.range m.nodes.length))

/-- `PSP::run_agg_psp` (psp.cpp:83-90); `mnb` is `min_norm_base(·, fn_tol, eps)`.  If the ids are not
`0 … n-1` (after `psp_i` or `hpsp`), the arcs of an erased node are asked for, which LEMON does not allow;
shown as undefined behaviour. -/
def PSPObj.runAgg (mnb : SF → Outcome (List ℚ)) (fnTol : ℚ) (o : PSPObj) : PSPObj × Outcome Unit :=
  o.finish do
    if ¬ o.mem.contiguous then .ub "nodeFromId of an erased node"
    let r ← aggRun mnb o.mem.graph fnTol
    return (o.mem, ⟨r.1, r.2⟩)

/-- `PSP::run(method)` (psp.cpp:35-52) with `AGG`. The names are different, so the order of the tests does
not matter. -/
def PSPObj.runAGG (e : Env) (mnb : SF → Outcome (List ℚ)) (fnTol : ℚ) (sched : Schedule)
    (method : String) (o : PSPObj) : PSPObj × Outcome Unit :=
  if method = "agg_psp" then o.runAgg mnb fnTol else o.run e sched method

/-- The object is made, run once with `AGG`, and the lists are read. -/
def runOnceAGG (e : Env) (mnb : SF → Outcome (List ℚ)) (fnTol : ℚ) (sched : Schedule) (n : ℕ)
    (E : List Arc) (method : String) : Outcome PSPOut := do
  let o ← PSPObj.new e.eps n E
  (o.runAGG e mnb fnTol sched method).2
  return ⟨(o.runAGG e mnb fnTol sched method).1.getPartitions,
    (o.runAGG e mnb fnTol sched method).1.getCriticalValues⟩

end PSP.Model
