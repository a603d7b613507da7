import Verif.Theory.RoundedPDT

/-!
# Without rounding, the model of `PDT` with rounded arithmetic is the model of `PDT`
-/

namespace PSP.Theory

open PSP.Spec PSP.Model

variable {ao : List Arc → List Arc} {no : List NArc → List NArc}

theorem pmfNetF_id (ε : ℚ) (E : List Arc) (j : ℕ) (y : ℕ → YPair) (lam : ℚ) :
    pmfNetF id ε E j y lam = pmfNet ε E j y lam := by
  unfold pmfNetF pmfNet
  have : pmfArcF id E j y lam = pmfArc E j y lam := by funext a; cases a <;> rfl
  rw [this]

theorem cutValueF_id (hao : ∀ l, (ao l).Perm l) (E : List Arc) (S : CSet) :
    cutValueF id ao E S = getCutValue E S := by
  unfold cutValueF getCutValue
  rw [flSum_id, zero_add, sum_filter_map, ((hao E).map _).sum_eq]
  simp

theorem pmfCutF_id (hno : ∀ l, (no l).Perm l) (ε : ℚ) (E : List Arc) (j : ℕ) (y : ℕ → YPair) (lam : ℚ) (T : CSet) :
    pmfCutF id no ε E j y lam T = pmfCut ε E j y lam T := by
  unfold pmfCutF pmfCut Net.cutCap
  rw [flSum_id, zero_add, sum_filter_map, ((hno _).map _).sum_eq]
  simp only [decide_eq_true_eq]
  rfl

theorem lambdaConstF_id (hao : ∀ l, (ao l).Perm l) (E : List Arc) (S T : CSet) :
    lambdaConstF id ao E S T = getCutValue E S - getCutValue E T := by
  unfold lambdaConstF
  rw [cutValueF_id hao, cutValueF_id hao]
  rfl

theorem pmfSliceF_id (hao : ∀ l, (ao l).Perm l) (hno : ∀ l, (no l).Perm l) (W : WarmSolver) (ε : ℚ) (E : List Arc)
    (n j : ℕ) (y : ℕ → YPair) (k : ℕ) : ∀ Tl Tr f lam1 lam3,
      pmfSliceF id ao no W ε E n j y k Tl Tr f lam1 lam3 = pmfSlice W ε E n j y k Tl Tr f lam1 lam3 := by
  induction k with
  | zero => intros; rfl
  | succ k ih =>
    intro Tl Tr f lam1 lam3
    unfold pmfSliceF pmfSlice
    have h1 : ∀ a b, tolDifferentF id ε a b = tolDifferent ε a b := fun a b => rfl
    have h2 : ∀ a b, tolDifferentOF id ε a b = tolDifferentO ε a b := fun a b => by cases b <;> rfl
    have h4 : ∀ l as f, modifyFlowF id E j y l as f = modifyFlow E j y l as f := fun l as f => by
      unfold modifyFlowF modifyFlow
      apply List.map_congr_left
      intro a _
      rcases a with ⟨a, b⟩
      cases a <;> rfl
    simp only [lambdaConstF_id hao, computeLambdaF_id, h1, h2, pmfNetF_id, h4, pmfCutF_id hno, ih, id_eq]

theorem pmfRunF_id (hao : ∀ l, (ao l).Perm l) (hno : ∀ l, (no l).Perm l) (W : WarmSolver) (ε : ℚ) (g : Digraph) :
    pmfRunF id ao no W ε g = pmfRun W ε g := by
  funext j y
  unfold pmfRunF pmfRun pmfRunIds
  simp only [pmfSliceF_id hao hno, pmfNetF_id, id_eq]

theorem pdtStepF_id (hao : ∀ l, (ao l).Perm l) (pmf : ℕ → (ℕ → YPair) → Outcome (List CSet × List ℚ)) (g : Digraph)
    (j : ℕ) (st : PDTState) : pdtStepF id ao pmf g j st = pdtStep pmf g j st := by
  have h1 : ∀ ts ls y u, pdtUpdateF id ts ls y u = pdtUpdate ts ls y u := fun ts ls y u => rfl
  have h2 : ∀ ts ls y k, pdtUpdatesF id ts ls y k = pdtUpdates ts ls y k := fun ts ls y k => by
    induction k with
    | zero => rfl
    | succ k ih => unfold pdtUpdatesF pdtUpdates; rw [ih]; simp only [h1]
  unfold pdtStepF pdtStep
  simp only [h2, cutValueF_id hao]

theorem pdtLoopF_id (hao : ∀ l, (ao l).Perm l) (pmf : ℕ → (ℕ → YPair) → Outcome (List CSet × List ℚ)) (g : Digraph)
    (k i : ℕ) (st : PDTState) : pdtLoopF id ao pmf g k i st = pdtLoop pmf g k i st := by
  induction k generalizing i st with
  | zero => rfl
  | succ k ih => unfold pdtLoopF pdtLoop; simp only [pdtStepF_id hao, ih]

end PSP.Theory
