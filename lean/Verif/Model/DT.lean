import Mathlib.Data.List.Sort
import Verif.Model.Dilworth

/-!
# Model of `submodular::DT` (`/repo/psp/dt.cpp:95-177`)
-/

namespace PSP.Model

/-- `gamma_apostrophe` (dt.cpp:106, 129). -/
def gammaApos (g : Digraph) (Q P : Partition) : ℚ :=
  (getPartitionValue g.arcs P - getPartitionValue g.arcs Q) / ((P.card : ℚ) - Q.card)

/-- `h_apostrophe` (dt.cpp:107, 130). -/
def hApos (g : Digraph) (Q P : Partition) : ℚ :=
  (P.card * getPartitionValue g.arcs Q - Q.card * getPartitionValue g.arcs P) /
    ((P.card : ℚ) - Q.card)

/-- Result of a `DT::split` call: critical values and partitions in the order in which they are
pushed, and the number of Dilworth truncations run (instrumentation, not in the code). -/
structure DTOut where
  cv : List ℚ
  psp : List Partition
  calls : ℕ

instance : DecidableEq DTOut := fun a b =>
  decidable_of_iff (a.cv = b.cv ∧ a.psp = b.psp ∧ a.calls = b.calls)
    (by cases a; cases b; simp)

/-- `DT::split(Q, P)` (dt.cpp:128-143). Division by `|P| - |Q| = 0` gives a NaN or infinity. -/
def dtSplit (S : FlowSolver) (ε : ℚ) (g : Digraph) :
    ℕ → Partition → Partition → Outcome DTOut
  | 0, _, _ => .fuel
  | k + 1, Q, P =>
    if P.card = Q.card then .nan
    else do
      let r ← dilworthDT S g (gammaApos g Q P)
      if r.1 > hApos g Q P - ε ∨ Q.card = r.2.card ∨ P.card = r.2.card then
        return ⟨[gammaApos g Q P], [], 1⟩
      else
        let a ← dtSplit S ε g k Q r.2
        let b ← dtSplit S ε g k r.2 P
        return ⟨a.cv ++ b.cv, r.2 :: (a.psp ++ b.psp), 1 + a.calls + b.calls⟩

/-- `DT::split(Q, P, partition_num)` (dt.cpp:100-126). -/
def dtSplitNum (S : FlowSolver) (ε : ℚ) (g : Digraph) (num : ℤ) :
    ℕ → Partition → Partition → Outcome Partition
  | 0, _, _ => .fuel
  | k + 1, Q, P =>
    if Q.card = P.card then .exc "Q and P have the same size"
    else do
      let r ← dilworthDT S g (gammaApos g Q P)
      if r.1 > hApos g Q P - ε then
        return P
      else if (r.2.card : ℤ) = num then
        return r.2
      else if (r.2.card : ℤ) < num then
        dtSplitNum S ε g num k r.2 P
      else
        dtSplitNum S ε g num k Q r.2

/-- Output of a PSP algorithm: `get_psp()` and `get_critical_values()`. -/
structure PSPOut where
  psp : List Partition
  cv : List ℚ

instance : DecidableEq PSPOut := fun a b =>
  decidable_of_iff (a.psp = b.psp ∧ a.cv = b.cv) (by cases a; cases b; simp)

/-- `DT::run()` (dt.cpp:153-165): `list::sort` is a stable sort. Fuel `n` suffices. -/
def dtRun (S : FlowSolver) (ε : ℚ) (g : Digraph) : Outcome PSPOut := do
  let n := g.countNodes
  let r ← dtSplit S ε g n {makeDense n} (makeFine n)
  return ⟨(({makeDense n} : Partition) :: makeFine n :: r.psp).insertionSort
            (fun P Q => P.card ≤ Q.card),
          r.cv.insertionSort (· ≤ ·)⟩

/-- `DT::run(partition_num)` (dt.cpp:145-151). -/
def dtRunNum (S : FlowSolver) (ε : ℚ) (g : Digraph) (num : ℤ) : Outcome Partition :=
  let n := g.countNodes
  dtSplitNum S ε g num n {makeDense n} (makeFine n)

end PSP.Model
