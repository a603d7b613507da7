import Verif.Theory.PMFRRun
import Verif.Theory.PDTExtra

/-!
# `PDT_R` on the graph of an input, runs that divide by zero, and a solver for the reversed network
-/

namespace PSP.Theory

open PSP.Spec PSP.Model

variable {E : List Arc} {ε : ℚ} {j : ℕ} {y : ℕ → YPair} {lam : ℚ}

theorem first_cut {S : FlowSolver} (hS : S.Minimal) {g : Digraph} (hg : PGood g.arcs ε) :
    LeastAt g.arcs j y lam0 (S.sinkSide ⟨Finset.range j, updateDig y lam0 (fun i => (0, sinkCapacity g.arcs j i))
      ((pmfArcs ε g.arcs j).map (digArc g.arcs j))⟩) := by
  set base : ℕ → ℚ × ℚ := fun i => (0, sinkCapacity g.arcs j i) with hbase
  have hbn : ∀ i ∈ Finset.range j, 0 ≤ (base i).1 ∧ 0 ≤ (base i).2 := fun i _ =>
    ⟨le_rfl, sinkCapacity_nonneg hg.nonneg i⟩
  have hi0 := dig_inv (j := j) hg
  have hmk : RGood g.arcs j (Finset.range j) ∅
      ⟨Finset.range j, (pmfArcs ε g.arcs j).map (digArc g.arcs j), base⟩ := by
    refine ⟨Finset.empty_subset _, subset_rfl, by simp, by simpa using hi0, ?_⟩
    intro i hi
    have := Finset.mem_range.1 (Finset.sdiff_subset hi)
    exact base_run hg this
  have hi1 := updateDig_inv (y := y) (lam := lam0) hi0 hbn
  have hleast := (result_least (Xr := ∅) (Xl := Finset.range j) hS hg hmk subset_rfl subset_rfl
    (fun T hT => ⟨Finset.empty_subset _, hT.sub⟩) (left_ok hS hi1.nonneg)).1
  rwa [Finset.union_empty] at hleast

theorem pmfrRun_nan {S : FlowSolver} (R : SrcSolver) (hS : S.Minimal) {g : Digraph} (hg : PGood g.arcs ε)
    (finish : ℕ → CSet → CSet → Finish) (hnodes : ∀ i < j + 1, i ∈ g.nodes)
    (hmin : MinAt g.arcs j y lam0 ∅) : pmfrRun S R ε g finish j y = .nan := by
  unfold pmfrRun
  rw [if_neg (by
    push Not
    intro i hi
    exact hnodes i (List.mem_range.1 hi))]
  dsimp only
  have hleast := first_cut (j := j) (y := y) hS hg
  have hX : S.sinkSide ⟨Finset.range j, updateDig y (-1 / 10) (fun i => (0, sinkCapacity g.arcs j i))
      ((pmfArcs ε g.arcs j).map (digArc g.arcs j))⟩ = ∅ := by
    apply Finset.subset_empty.1
    apply hleast.least ∅ (by simp)
    exact le_antisymm (hmin.le _ hleast.sub) (hleast.le _ (by simp))
  rw [hX]
  unfold pmfrSlice
  have hps : ((List.range (j + 1)).filter fun i => i ∈ (insert j ∅ : Finset ℕ) ∧ i ∉ ({j} : Finset ℕ)) =
      [] := by
    rw [List.filter_eq_nil_iff]
    simp
  rw [hps]
  simp [computeLambda, turningPoints, divO]

theorem pmfrRun_inputSpec {S : FlowSolver} {R : SrcSolver} (hS : S.Minimal) (hR : R.Minimal) {n : ℕ}
    {E : List Arc} (hv : ValidInput n E) (hε : 0 < ε) (finish : ℕ → CSet → CSet → Finish) :
    PmfSpec (pmfrRun S R ε (inputGraph ε n E) finish) ε (inputGraph ε n E).arcs n :=
  pmfrRun_pmfSpec hS hR (inputGraph_pgood hv hε)
    (fun i hi => by rw [(inputGraph_good (ε := ε) hv).nodes]; exact List.mem_range.2 hi)
    (inputGraph_good (ε := ε) hv).countNodes finish

theorem pdtr_input {S : FlowSolver} {R : SrcSolver} (hS : S.Minimal) (hR : R.Minimal) {n : ℕ} {E : List Arc}
    (hv : ValidInput n E) (hn : 2 ≤ n) (hf : PdtTolerance ε n E) (finish : ℕ → CSet → CSet → Finish) :
    ∃ r, pdtrRun S R ε finish (inputGraph ε n E) = .ok r ∧
      IsPrincipalSequence E (Finset.range n) r.psp r.cv := by
  obtain ⟨r, y, h1, h2⟩ := pdtWith_input hv hn hf (pmfrRun_inputSpec hS hR hv hf.pos finish)
  refine ⟨r, ?_, h2⟩
  unfold pdtrRun pdtrRunFrom
  rw [h1]
  rfl

/-- **The second run** of a `PDT_R` object divides zero by zero, for every graph. -/
theorem pdtr_rerun {S : FlowSolver} {R : SrcSolver} (hS : S.Minimal) (hR : R.Minimal) {n : ℕ} {E : List Arc}
    (hv : ValidInput n E) (hn : 2 ≤ n) (hf : PdtTolerance ε n E) (finish : ℕ → CSet → CSet → Finish) :
    ∃ r y, pdtrRunFrom S R ε finish (inputGraph ε n E) (fun _ => (0, none)) = .ok (r, y) ∧
      pdtrRunFrom S R ε finish (inputGraph ε n E) y = .nan :=
  pdtWith_rerun hv hn hf (pmfrRun_inputSpec hS hR hv hf.pos finish) fun y hmin =>
    pmfrRun_nan R hS (inputGraph_pgood hv hf.pos) finish
      (fun i hi => by
        rw [(inputGraph_good (ε := ε) hv).nodes]; exact List.mem_range.2 (by omega)) hmin

/-! ### a solver -/

/-- The network with its largest sink side turned into a smallest source side. -/
def bruteSrc : SrcSolver where
  flowValue := bruteValue
  minCutSource N v := decide (∀ X ∈ N.verts.powerset, N.cutCap X = bruteValue N → v ∉ X)

theorem bruteSrc_side (N : Net) (v : ℕ) : v ∈ bruteSrc.srcSide N ↔
    v ∈ N.verts ∧ ∀ X ⊆ N.verts, N.cutCap X = bruteValue N → v ∉ X := by
  unfold SrcSolver.srcSide bruteSrc
  simp only [Finset.mem_filter, decide_eq_true_eq, Finset.mem_powerset]

/-- Some minimum cut contains all nodes contained in some minimum cut. -/
theorem exists_min_cut_containing {N : Net} (hN : N.Nonneg) (W : Finset ℕ) :
    (∀ v ∈ W, ∃ X ⊆ N.verts, N.cutCap X = bruteValue N ∧ v ∈ X) →
    ∃ X ⊆ N.verts, N.cutCap X = bruteValue N ∧ W ⊆ X := by
  induction W using Finset.induction_on with
  | empty =>
    intro _
    obtain ⟨X, hX, h⟩ := brute_attained N
    exact ⟨X, hX, h, by simp⟩
  | insert a W _ ih =>
    intro h
    obtain ⟨X, hX, hXv, hXW⟩ := ih fun v hv => h v (Finset.mem_insert_of_mem hv)
    obtain ⟨Y, hY, hYv, hYa⟩ := h a (Finset.mem_insert_self _ _)
    refine ⟨X ∪ Y, Finset.union_subset hX hY, ?_, ?_⟩
    · have h1 := cutCap_submodular hN X Y
      have h2 := brute_le N (Finset.union_subset hX hY)
      have h3 := brute_le N (X := X ∩ Y) (Finset.inter_subset_left.trans hX)
      linarith
    · intro v hv
      rcases Finset.mem_insert.1 hv with rfl | hv
      · exact Finset.mem_union_right _ hYa
      · exact Finset.mem_union_left _ (hXW hv)

/-- The assumptions on the solver of the reversed network are satisfiable. -/
theorem bruteSrc_minimal : bruteSrc.Minimal where
  value_eq N hN := by
    obtain ⟨X, hX, hXv, hXd⟩ := exists_min_cut_containing hN (N.verts \ bruteSrc.srcSide N) (by
      intro v hv
      rw [Finset.mem_sdiff, bruteSrc_side] at hv
      push Not at hv
      exact hv.2 hv.1)
    have : N.verts \ bruteSrc.srcSide N = X := by
      apply Finset.Subset.antisymm hXd
      intro v hv
      rw [Finset.mem_sdiff]
      exact ⟨hX hv, fun h => ((bruteSrc_side N v).1 h).2 X hX hXv hv⟩
    rw [this, hXv]
    rfl
  le_cut N _ X hX := brute_le N hX
  minimal N _ X hX hv := by
    intro v hv'
    have := (bruteSrc_side N v).1 hv'
    exact Finset.mem_sdiff.2 ⟨this.1, this.2 X hX hv⟩

end PSP.Theory
