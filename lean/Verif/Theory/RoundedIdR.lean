import Verif.Theory.RoundedId
import Verif.Model.RoundedPMFR

/-!
# Without rounding, the model of `PDT_R` with rounded arithmetic is the model of `PDT_R`
-/

namespace PSP.Theory

open PSP.Spec PSP.Model

variable {ao io : List Arc → List Arc} {no : List NArc → List NArc}

theorem updateDigF_id (y : ℕ → YPair) (lam : ℚ) (base : ℕ → ℚ × ℚ) (arcs : List NArc) :
    updateDigF id y lam base arcs = updateDig y lam base arcs := by
  unfold updateDigF updateDig
  apply List.map_congr_left
  rintro ⟨a, b, c⟩ _
  cases a <;> cases b <;> rfl

theorem newBaseF_id (hio : ∀ l, (io l).Perm l) (E : List Arc) (S T : CSet) :
    newBaseF id io E S T = newBase E S T := by
  funext i
  unfold newBaseF newBase
  rw [flSum_id, flSum_id, zero_add, zero_add, sum_filter_map, sum_filter_map, ((hio E).map _).sum_eq,
    ((hio E).map _).sum_eq]
  simp only [decide_eq_true_eq]

theorem arcSumF_id (hno : ∀ l, (no l).Perm l) (ε : ℚ) (old : List NArc) : arcSumF id no ε old = arcSum ε old := by
  funext p
  unfold arcSumF arcSum
  rw [flSum_id, zero_add, sum_filter_map, ((hno old).map _).sum_eq]
  simp only [decide_eq_true_eq]

theorem sliceNetF_id (hio : ∀ l, (io l).Perm l) (hno : ∀ l, (no l).Perm l) (ε : ℚ) (E : List Arc) (j : ℕ)
    (y : ℕ → YPair) (G : RNet) (Tl Tr : CSet) (lam : ℚ) (c : Bool) :
    sliceNetF id io no ε E j y G Tl Tr lam c = sliceNet ε E j y G Tl Tr lam c := by
  unfold sliceNetF sliceNet contractR
  simp only [updateDigF_id, newBaseF_id hio, arcSumF_id hno]

theorem netCutF_id (hno : ∀ l, (no l).Perm l) (V : Finset ℕ) (arcs : List NArc) (X : Finset ℕ) :
    netCutF id no arcs X = (Net.mk V arcs).cutCap X := by
  unfold netCutF Net.cutCap
  rw [flSum_id, zero_add, sum_filter_map, ((hno arcs).map _).sum_eq]
  simp only [decide_eq_true_eq]

theorem pmfrSliceF_id (hao : ∀ l, (ao l).Perm l) (hio : ∀ l, (io l).Perm l) (hno : ∀ l, (no l).Perm l) (S : FlowSolver)
    (R : SrcSolver) (ε : ℚ) (E : List Arc) (j : ℕ) (y : ℕ → YPair) (finish : CSet → CSet → Finish) (k : ℕ) :
    ∀ G Tl Tr lam1 lam3 c, pmfrSliceF id ao io no S R ε E j y finish k G Tl Tr lam1 lam3 c =
      pmfrSlice S R ε E j y finish k G Tl Tr lam1 lam3 c := by
  induction k with
  | zero => intros; rfl
  | succ k ih =>
    intro G Tl Tr lam1 lam3 c
    unfold pmfrSliceF pmfrSlice
    have h1 : ∀ a b, tolDifferentF id ε a b = tolDifferent ε a b := fun a b => rfl
    have h3 : ∀ (H : RNet) X, netCutF id no H.arcs X = (Net.mk H.verts H.arcs).cutCap X := fun H X =>
      netCutF_id hno H.verts H.arcs X
    simp only [lambdaConstF_id hao, computeLambdaF_id, h1, sliceNetF_id hio hno, h3, ih, id_eq]

theorem pmfrRunF_id (hao : ∀ l, (ao l).Perm l) (hio : ∀ l, (io l).Perm l) (hno : ∀ l, (no l).Perm l) (S : FlowSolver)
    (R : SrcSolver) (ε : ℚ) (g : Digraph) (finish : ℕ → CSet → CSet → Finish) :
    pmfrRunF id ao io no S R ε g finish = pmfrRun S R ε g finish := by
  funext j y
  have h1 : ∀ n, lambda3F id g.arcs j y n = lambda3 g.arcs j y n := fun n => rfl
  unfold pmfrRunF pmfrRun
  simp only [pmfrSliceF_id hao hio hno, updateDigF_id, h1, id_eq]

theorem pdtrRunF_id (hao : ∀ l, (ao l).Perm l) (hio : ∀ l, (io l).Perm l) (hno : ∀ l, (no l).Perm l) (S : FlowSolver)
    (R : SrcSolver) (ε : ℚ) (finish : ℕ → CSet → CSet → Finish) (g : Digraph) :
    pdtrRunF id ao io no S R ε finish g = pdtrRun S R ε finish g := by
  unfold pdtrRunF pdtrRun pdtrRunFrom pdtRunWith
  rw [pmfrRunF_id hao hio hno]
  split
  · rfl
  · simp only [pdtLoopF_id hao, Outcome.bind_assoc]
    congr 1
    funext st
    split
    · rfl
    · rfl

end PSP.Theory
