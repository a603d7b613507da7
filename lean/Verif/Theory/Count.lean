import Verif.Model.Count
import Verif.Theory.Partition

/-!
# Counting flow computations: forgetting the counter, and bounds
-/

namespace PSP.Theory

open PSP.Spec PSP.Model

/-! ### forgetting the counter -/

@[simp] theorem uncount_ok {α : Type} (x : α × ℕ) : uncount (.ok x) = .ok x.1 := rfl
@[simp] theorem uncount_exc {α : Type} (e : String) : uncount (.exc e : Outcome (α × ℕ)) = .exc e := rfl
@[simp] theorem uncount_ub {α : Type} (e : String) : uncount (.ub e : Outcome (α × ℕ)) = .ub e := rfl
@[simp] theorem uncount_nan {α : Type} : uncount (.nan : Outcome (α × ℕ)) = .nan := rfl
@[simp] theorem uncount_fuel {α : Type} : uncount (.fuel : Outcome (α × ℕ)) = .fuel := rfl

theorem uncount_bind {α β : Type} (x : Outcome (α × ℕ)) (f : α × ℕ → Outcome (β × ℕ)) (F : α → Outcome β)
    (h : ∀ a, uncount (f a) = F a.1) : uncount (x >>= f) = uncount x >>= F := by
  cases x <;> first | rfl | exact h _

theorem uncount_bind' {α β : Type} (x : Outcome α) (f : α → Outcome (β × ℕ)) :
    uncount (x >>= f) = x >>= fun a => uncount (f a) := by
  cases x <;> rfl

theorem uncount_same {α : Type} (x : Outcome (α × ℕ)) (h : α × ℕ → ℕ) :
    uncount (x >>= fun a => .ok (a.1, h a)) = uncount x := by
  cases x <;> rfl

theorem runLoopIC_eq (S : FlowSolver) (arcs : List Arc) (lam : ℚ) (rest : List ℕ) :
    ∀ done xl P, runLoopIC S arcs lam done rest xl P = (runLoopI S arcs lam done rest xl P, rest.length) := by
  induction rest with
  | nil => intro done xl P; rfl
  | cons l rest ih =>
    intro done xl P
    simp only [runLoopIC, runLoopI, ih, List.length_cons]
    rw [Nat.add_comm]

theorem dilworthIC_eq (S : FlowSolver) (arcs : List Arc) (lam : ℚ) (ns : List ℕ) :
    dilworthIC S arcs lam ns = (dilworthI S arcs lam ns, ns.length) := by
  simp only [dilworthIC, runLoopIC_eq, dilworthI]

theorem hpspBlocksC_uncount (ε : ℚ) {splitC : Digraph → HState → ℕ → CSet → Outcome ((Digraph × HState) × ℕ)}
    {split : Digraph → HState → ℕ → CSet → Outcome (Digraph × HState)}
    (h : ∀ g st s c, uncount (splitC g st s c) = split g st s c) (Bs : List CSet) :
    ∀ g st newS, uncount (hpspBlocksC ε splitC Bs g st newS) = hpspBlocks ε split Bs g st newS := by
  induction Bs with
  | nil => intro g st newS; rfl
  | cons B Bs ih =>
    intro g st newS
    rw [hpspBlocksC, hpspBlocks]
    by_cases hc : B.card = 1
    · rw [if_pos hc, if_pos hc, ih]
    · rw [if_neg hc, if_neg hc, ← h]
      refine uncount_bind _ _ _ fun x => ?_
      simp only [Outcome.pure_eq]
      rw [uncount_same, ih]

theorem hpspSplitC_uncount (S : FlowSolver) (ε : ℚ) (ord : Partition → List CSet) (k : ℕ) :
    ∀ g st s c, uncount (hpspSplitC S ε ord k g st s c) = hpspSplit S ε ord k g st s c := by
  induction k with
  | zero => intro g st s c; rfl
  | succ k ih =>
    intro g st s c
    rw [hpspSplitC, hpspSplit]
    simp only [dilworthIC_eq]
    split_ifs
    · rfl
    · rfl
    · rfl
    · rw [← hpspBlocksC_uncount ε ih]
      refine uncount_bind _ _ _ fun x => ?_
      simp only [Outcome.pure_eq]
      rw [uncount_same, ih]

theorem hpspRunC_uncount (S : FlowSolver) (ε : ℚ) (ord : Partition → List CSet) (g : Digraph) :
    uncount (hpspRunC S ε ord g) = hpspRun S ε ord g := by
  unfold hpspRunC hpspRun
  dsimp only
  split_ifs
  · rfl
  · rw [← hpspSplitC_uncount]
    refine uncount_bind _ _ _ fun x => ?_
    rw [uncount_bind']
    rfl

theorem pspiBlocksC_uncount (ε : ℚ)
    {splitC : Digraph → List PTree → Outcome ((Digraph × Option ℚ × List PTree) × ℕ)}
    {split : Digraph → List PTree → Outcome (Digraph × Option ℚ × List PTree)}
    (h : ∀ g c, uncount (splitC g c) = split g c) (Bs : List CSet) :
    ∀ g ch, uncount (pspiBlocksC ε splitC Bs g ch) = pspiBlocks ε split Bs g ch := by
  induction Bs with
  | nil => intro g ch; rfl
  | cons B Bs ih =>
    intro g ch
    rw [pspiBlocksC, pspiBlocks]
    by_cases hc : B.card = 1
    · rw [if_pos hc, if_pos hc, ih]
    · rw [if_neg hc, if_neg hc]
      dsimp only
      rw [← h]
      refine uncount_bind _ _ _ fun x => ?_
      simp only [Outcome.pure_eq]
      rw [uncount_same, ih]

theorem pspiSplitC_uncount (S : FlowSolver) (ε : ℚ) (ord : Partition → List CSet) (k : ℕ) :
    ∀ g c, uncount (pspiSplitC S ε ord k g c) = pspiSplit S ε ord k g c := by
  induction k with
  | zero => intro g c; rfl
  | succ k ih =>
    intro g c
    rw [pspiSplitC, pspiSplit]
    simp only [dilworthIC_eq]
    split_ifs
    · rfl
    · rfl
    · rfl
    · rw [← pspiBlocksC_uncount ε ih]
      refine uncount_bind _ _ _ fun x => ?_
      simp only [Outcome.pure_eq]
      rw [uncount_same, ih]

theorem pspiRunC_uncount (S : FlowSolver) (ε : ℚ) (ord : Partition → List CSet) (g : Digraph) :
    uncount (pspiRunC S ε ord g) = pspiRun S ε ord g := by
  unfold pspiRunC pspiRun
  dsimp only
  split_ifs
  · rfl
  · rw [← pspiSplitC_uncount]
    refine uncount_bind _ _ _ fun x => ?_
    rw [uncount_bind']
    rfl

theorem runLoopDTC_uncount (S : FlowSolver) (g : Digraph) (lam : ℚ) (k : ℕ) :
    ∀ xl P, uncount (runLoopDTC S g lam k xl P) = runLoopDT S g lam k xl P := by
  induction k with
  | zero => intro xl P; rfl
  | succ k ih =>
    intro xl P
    rw [runLoopDTC, runLoopDT, uncount_bind']
    congr 1
    funext r
    simp only [Outcome.pure_eq]
    rw [uncount_same, ih]

theorem dilworthDTC_uncount (S : FlowSolver) (g : Digraph) (lam : ℚ) :
    uncount (dilworthDTC S g lam) = dilworthDT S g lam := by
  unfold dilworthDTC dilworthDT
  rw [← runLoopDTC_uncount]
  exact uncount_bind _ _ _ fun b => rfl

theorem dtSplitC_uncount (S : FlowSolver) (ε : ℚ) (g : Digraph) (k : ℕ) :
    ∀ Q P, uncount (dtSplitC S ε g k Q P) = dtSplit S ε g k Q P := by
  induction k with
  | zero => intro Q P; rfl
  | succ k ih =>
    intro Q P
    rw [dtSplitC, dtSplit]
    split_ifs with h1
    · rfl
    · rw [← dilworthDTC_uncount]
      refine uncount_bind _ _ _ fun r => ?_
      split_ifs
      · rfl
      · rw [← ih]
        refine uncount_bind _ _ _ fun a => ?_
        rw [← ih]
        exact uncount_bind _ _ _ fun b => rfl

theorem dtRunC_uncount (S : FlowSolver) (ε : ℚ) (g : Digraph) :
    uncount (dtRunC S ε g) = dtRun S ε g := by
  unfold dtRunC dtRun
  dsimp only
  rw [← dtSplitC_uncount]
  exact uncount_bind _ _ _ fun b => rfl

theorem pmfSliceC_uncount (W : WarmSolver) (ε : ℚ) (arcs : List Arc) (n j : ℕ) (y : ℕ → YPair) (k : ℕ) :
    ∀ Tl Tr f l1 l3, uncount (pmfSliceC W ε arcs n j y k Tl Tr f l1 l3) =
      pmfSlice W ε arcs n j y k Tl Tr f l1 l3 := by
  induction k with
  | zero => intro Tl Tr f l1 l3; rfl
  | succ k ih =>
    intro Tl Tr f l1 l3
    rw [pmfSliceC, pmfSlice]
    dsimp only
    rw [uncount_bind']
    congr 1
    funext lam2
    split_ifs
    · rfl
    · rfl
    · rw [← ih]
      refine uncount_bind _ _ _ fun a => ?_
      rw [← ih]
      exact uncount_bind _ _ _ fun b => rfl
    · rfl

theorem pmfRunC_uncount (W : WarmSolver) (ε : ℚ) (g : Digraph) (j : ℕ) (y : ℕ → YPair) :
    uncount (pmfRunC W ε g j y) = pmfRun W ε g j y := by
  unfold pmfRunC pmfRun pmfRunIds
  dsimp only
  split_ifs
  · rw [← pmfSliceC_uncount]
    exact uncount_bind _ _ _ fun b => rfl
  · rfl

theorem pdtStepC_uncount {pmfC : ℕ → (ℕ → YPair) → Outcome ((List CSet × List ℚ) × ℕ)}
    {pmf : ℕ → (ℕ → YPair) → Outcome (List CSet × List ℚ)} (h : ∀ j y, uncount (pmfC j y) = pmf j y)
    (g : Digraph) (j : ℕ) (st : PDTState) : uncount (pdtStepC pmfC g j st) = pdtStep pmf g j st := by
  unfold pdtStepC pdtStep
  rw [← h]
  refine uncount_bind _ _ _ fun r => ?_
  rw [uncount_bind']
  congr 1
  funext y
  split_ifs <;> rfl

theorem pdtLoopC_uncount {pmfC : ℕ → (ℕ → YPair) → Outcome ((List CSet × List ℚ) × ℕ)}
    {pmf : ℕ → (ℕ → YPair) → Outcome (List CSet × List ℚ)} (h : ∀ j y, uncount (pmfC j y) = pmf j y)
    (g : Digraph) (k : ℕ) : ∀ i st, uncount (pdtLoopC pmfC g k i st) = pdtLoop pmf g k i st := by
  induction k with
  | zero => intro i st; rfl
  | succ k ih =>
    intro i st
    rw [pdtLoopC, pdtLoop, ← pdtStepC_uncount h]
    refine uncount_bind _ _ _ fun x => ?_
    simp only [Outcome.pure_eq]
    rw [uncount_same, ih]

theorem pdtRunWithC_uncount {pmfC : ℕ → (ℕ → YPair) → Outcome ((List CSet × List ℚ) × ℕ)}
    {pmf : ℕ → (ℕ → YPair) → Outcome (List CSet × List ℚ)} (h : ∀ j y, uncount (pmfC j y) = pmf j y)
    (g : Digraph) : uncount (pdtRunWithC pmfC g) =
      (pdtRunWith pmf g fun _ => (0, none)) >>= fun r => .ok r.1 := by
  unfold pdtRunWithC pdtRunWith
  split_ifs with h0
  · rfl
  · rw [← pdtLoopC_uncount h, Outcome.bind_assoc]
    refine uncount_bind _ _ _ fun st => ?_
    dsimp only
    split_ifs <;> rfl

theorem pdtRunC_uncount (W : WarmSolver) (ε : ℚ) (g : Digraph) :
    uncount (pdtRunC W ε g) = pdtRun W ε g := pdtRunWithC_uncount (pmfRunC_uncount W ε g) g

theorem pmfrSliceC_uncount (S : FlowSolver) (R : SrcSolver) (ε : ℚ) (arcs : List Arc) (j : ℕ) (y : ℕ → YPair)
    (finish : CSet → CSet → Finish) (k : ℕ) :
    ∀ G Tl Tr l1 l3 c, uncount (pmfrSliceC S R ε arcs j y finish k G Tl Tr l1 l3 c) =
      pmfrSlice S R ε arcs j y finish k G Tl Tr l1 l3 c := by
  induction k with
  | zero => intro G Tl Tr l1 l3 c; rfl
  | succ k ih =>
    intro G Tl Tr l1 l3 c
    rw [pmfrSliceC, pmfrSlice]
    dsimp only
    rw [uncount_bind']
    congr 1
    funext lam2
    split_ifs
    all_goals first
      | rfl
      | (rw [← ih]
         refine uncount_bind _ _ _ fun a => ?_
         rw [← ih]
         exact uncount_bind _ _ _ fun b => rfl)

theorem pmfrRunC_uncount (S : FlowSolver) (R : SrcSolver) (ε : ℚ) (g : Digraph)
    (finish : ℕ → CSet → CSet → Finish) (j : ℕ) (y : ℕ → YPair) :
    uncount (pmfrRunC S R ε g finish j y) = pmfrRun S R ε g finish j y := by
  unfold pmfrRunC pmfrRun
  dsimp only
  split_ifs
  · rw [← pmfrSliceC_uncount]
    exact uncount_bind _ _ _ fun b => rfl
  · rfl

theorem pdtrRunC_uncount (S : FlowSolver) (R : SrcSolver) (ε : ℚ) (finish : ℕ → CSet → CSet → Finish)
    (g : Digraph) : uncount (pdtrRunC S R ε finish g) = pdtrRun S R ε finish g :=
  pdtRunWithC_uncount (pmfrRunC_uncount S R ε g finish) g

end PSP.Theory
