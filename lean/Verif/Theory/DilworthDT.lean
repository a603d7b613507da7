import Verif.Theory.DilworthRun

/-!
# `submodular::DilworthTruncation::run` (dt.cpp) computes what `psp::DilworthTruncation::run` does
-/

namespace PSP.Theory

open PSP.Spec PSP.Model

theorem runLoopDT_eq (S : FlowSolver) (g : Digraph) (lam : ℚ) {n : ℕ}
    (hnodes : g.nodes = List.range n) (hlow : ∀ e ∈ g.arcs, e.src < e.dst) (k : ℕ) :
    ∀ (xl : List ℚ) (P : Partition), xl.length + k ≤ n →
      runLoopDT S g lam k xl P =
        .ok (runLoopI S g.arcs lam (List.range xl.length) (List.range' xl.length k) xl P) := by
  induction k with
  | zero => intro xl P _; simp [runLoopDT, runLoopI]
  | succ k ih =>
    intro xl P hk
    have h1 : ∀ i ∈ List.range (xl.length + 1), i ∈ g.nodes := by
      intro i hi
      rw [hnodes, List.mem_range]
      rw [List.mem_range] at hi
      omega
    have h2 : ¬ ∃ a ∈ g.arcs, a.src = xl.length ∧ a.dst = xl.length := by
      rintro ⟨a, ha, h⟩
      have := hlow a ha
      omega
    have h3 : minimizeDT S g lam xl =
        .ok (minimizeI S g.arcs lam (List.range xl.length) xl.length xl) := by
      unfold minimizeDT minimizeI
      simp only [h2, if_false]
      rw [if_neg (by push Not; exact h1)]
    conv_lhs => unfold runLoopDT
    rw [h3]
    simp only [Outcome.ok_bind]
    rw [ih _ _ (by simp; omega)]
    conv_rhs => rw [List.range'_succ]; unfold runLoopI
    congr 2
    · simp [List.range_succ]
    · simp

theorem dilworthDT_eq (S : FlowSolver) (g : Digraph) (lam : ℚ) {n : ℕ}
    (hnodes : g.nodes = List.range n) (hlow : ∀ e ∈ g.arcs, e.src < e.dst) :
    dilworthDT S g lam = .ok (dilworthI S g.arcs lam g.nodes) := by
  unfold dilworthDT Digraph.countNodes
  have hl : g.nodes.length = n := by rw [hnodes, List.length_range]
  rw [hl, runLoopDT_eq S g lam hnodes hlow n [] ∅ (by simp)]
  simp only [Outcome.ok_bind, Outcome.pure_eq, List.length_nil, List.range_zero]
  unfold dilworthI
  rw [hnodes, List.range_eq_range']

/-- The graph on nodes `0..n-1`, as `make_dgraph` builds it. -/
structure GoodDigraph (g : Digraph) (n : ℕ) : Prop where
  nodes : g.nodes = List.range n
  good : GoodGraph g.arcs (Finset.range n)

theorem GoodDigraph.countNodes {g : Digraph} {n : ℕ} (h : GoodDigraph g n) : g.countNodes = n := by
  simp [Digraph.countNodes, h.nodes]

/-- Correctness of the truncation of dt.cpp. -/
theorem dilworthDT_correct {S : FlowSolver} (hS : S.Correct) {g : Digraph} {n : ℕ}
    (hg : GoodDigraph g n) (lam : ℚ) :
    ∃ P, dilworthDT S g lam = .ok (cost g.arcs lam P, P) ∧
      IsOptimal g.arcs (Finset.range n) lam P ∧
      (S.Minimal → ∀ R, IsOptimal g.arcs (Finset.range n) lam R → Refines P R) := by
  have hfin : g.nodes.toFinset = Finset.range n := by
    rw [hg.nodes]; ext v; simp
  have hc := dilworthI_correct hS (ns := g.nodes) (by
      rw [hg.nodes]; exact List.pairwise_lt_range) (by rw [hfin]; exact hg.good) lam
  rw [hfin] at hc
  refine ⟨(dilworthI S g.arcs lam g.nodes).2, ?_, hc.1, hc.2.2⟩
  rw [dilworthDT_eq S g lam hg.nodes hg.good.lowHigh, ← hc.2.1]

end PSP.Theory
