import Verif.Props.AggAnySF
import Verif.Theory.RoundedFunctors

/-!
# Properties: `AIC` on hypergraphs and finite linear sources in floating-point arithmetic (C89)
-/

namespace PSP.Props

open PSP.Model PSP.Spec PSP.Theory

/-- All calls of `min_norm_base` in the states that `agglomerate` reaches end by the test of optimality, none of those for
two or more elements with the origin. -/
def AllOptimalF (fl : ℚ → ℚ) (N : NumericsF) (f : SF) (tol eps : ℚ) (fuel : ℕ) : Prop :=
  ∀ h L, Reached (agglomerateF fl (mnbOfF fl N tol eps fuel) f tol) (HC.new f.size) h → h.getPartition ⊥ = .ok L →
    AllCertified fl N f tol eps fuel L

theorem getD_of_all {Q : ℚ → Prop} {M : List (List ℚ)} (h0 : Q 0) (h : ∀ row ∈ M, ∀ x ∈ row, Q x) (r c : ℕ) :
    Q ((M.getD r []).getD c 0) := by
  rw [List.getD_eq_getElem?_getD, List.getD_eq_getElem?_getD]
  cases hr : M[r]? with
  | none => simpa using h0
  | some row =>
    rw [Option.getD_some]
    cases hc : row[c]? with
    | none => simpa using h0
    | some x => exact h row (List.mem_of_getElem? hr) x (List.mem_of_getElem? hc)

/-- `AIC` on a hypergraph with weights that are not negative, in floating-point arithmetic with `p` digits, for any linear
solver that returns numbers of the format below a limit `K`; `W` bounds the sum of all weights. The loop goes on for ever,
or the partitions are within `aggRunError` of the least cost between their critical values. Not covered: runs where a call
of `min_norm_base` ended otherwise; negative weights; and that the loop ends. -/
theorem C89_hypergraph_partial {p : ℕ} {fl : ℚ → ℚ} (hfl : FloatingPoint p fl) {M : List (List ℚ)} {cols : ℕ}
    (hn : 0 < M.length) (h0 : ∀ row ∈ M, ∀ x ∈ row, 0 ≤ x) (hfix : ∀ row ∈ M, ∀ x ∈ row, fl x = x) {N : Numerics}
    (hN : PlainNumerics N) {K : ℚ} (hK : FormatSolver fl N K) (hKp : 4 * (M.length + 1) * K ≤ 4 ^ p)
    (hc : aggError p cols M.length ≤ 1 / 64) {W tol eps δ : ℚ}
    (hW : ∑ v ∈ Finset.range M.length, weightMax M cols {v} ≤ W) (hWp : 4 / 2 ^ p ≤ W)
    (heps : 4 / 2 ^ p ≤ eps) (htol : 4 / 2 ^ p ≤ tol) (htol1 : tol ≤ 1) (hr : 256 * M.length * W ^ 2 ≤ 4 ^ p) (hδ : 0 ≤ δ)
    (hδ2 : (1 + 8 * aggError p cols M.length) * tol + 90 * M.length * aggError p cols M.length * W ^ 2 ≤ δ ^ 2)
    (ht : W + δ + tol ≤ 2 ^ p * tol) {fuel : ℕ}
    (hcert : AllOptimalF fl (N.seqF fl) (hypergraphEntropyF fl M cols) tol eps fuel) :
    (∀ k, aggLoopF fl (mnbOfF fl (N.seqF fl) tol eps fuel) (hypergraphEntropyF fl M cols) tol k (HC.new M.length)
      [singletons (Finset.range M.length)] [] = .fuel) ∨
    ∃ ps cv, aicRunF fl (mnbOfF fl (N.seqF fl) tol eps fuel) (hypergraphEntropyF fl M cols) tol = .ok (ps, cv) ∧
      IsApproximateSequenceSF (weightMax M cols) (Finset.range M.length) (aggRunError M.length (2 * tol) δ) ps cv := by
  have h2 : (0 : ℚ) < 2 ^ p := by positivity
  have hW8 := (close_all hfl hN hK hKp hc hn hWp heps htol hr).2
  have hW0 : 0 ≤ W := le_trans (by positivity) hWp
  have hz : fl 0 = 0 := by simpa using (FloatingPoint.rounds hfl).int 0 (by simp)
  have hf := hypergraph_nearFunctor (FloatingPoint.sums hfl) (getD_of_all (Q := fun x => 0 ≤ x) le_rfl h0)
    (getD_of_all (Q := fun x => fl x = x) hz hfix) hW (by linarith) (by
      unfold aggError at hc
      rw [div_eq_mul_inv] at hc
      have : (0 : ℚ) ≤ (M.length : ℚ) * (2 ^ p)⁻¹ := by positivity
      have : (0 : ℚ) < (2 ^ p)⁻¹ := by positivity
      nlinarith)
  exact aicRunF_near hfl (f := hypergraphEntropyF fl M cols) hn hf (weightMax_intersecting M cols _) hN hK hKp hc hWp heps
    htol htol1 hr hδ hδ2 ht hcert

/-- The same for a finite linear source over any field; `unit` is the number `k log2 p` as the code computes it, which is
at least 1. -/
theorem C89_linear_partial {p : ℕ} {fl : ℚ → ℚ} (hfl : FloatingPoint p fl) {F : Type} [Field F] [DecidableEq F] {unit : ℚ}
    (hu : 1 ≤ unit) {cols : ℕ} {M : List (List (List ℤ))} (hM : ∀ A ∈ M, ∀ r ∈ A, r.length = cols) (hn : 0 < M.length)
    {N : Numerics} (hN : PlainNumerics N) {K : ℚ} (hK : FormatSolver fl N K) (hKp : 4 * (M.length + 1) * K ≤ 4 ^ p)
    (hc : aggError p 1 M.length ≤ 1 / 64) {W tol eps δ : ℚ}
    (hW : ∑ v ∈ Finset.range M.length, unit * rowRank F cols M {v} ≤ W) (hWp : 4 / 2 ^ p ≤ W)
    (heps : 4 / 2 ^ p ≤ eps) (htol : 4 / 2 ^ p ≤ tol) (htol1 : tol ≤ 1) (hr : 256 * M.length * W ^ 2 ≤ 4 ^ p) (hδ : 0 ≤ δ)
    (hδ2 : (1 + 8 * aggError p 1 M.length) * tol + 90 * M.length * aggError p 1 M.length * W ^ 2 ≤ δ ^ 2)
    (ht : W + δ + tol ≤ 2 ^ p * tol) {fuel : ℕ}
    (hcert : AllOptimalF fl (N.seqF fl) (finiteLinearF F fl unit cols M) tol eps fuel) :
    (∀ k, aggLoopF fl (mnbOfF fl (N.seqF fl) tol eps fuel) (finiteLinearF F fl unit cols M) tol k (HC.new M.length)
      [singletons (Finset.range M.length)] [] = .fuel) ∨
    ∃ ps cv, aicRunF fl (mnbOfF fl (N.seqF fl) tol eps fuel) (finiteLinearF F fl unit cols M) tol = .ok (ps, cv) ∧
      IsApproximateSequenceSF (fun B => unit * rowRank F cols M B) (Finset.range M.length)
        (aggRunError M.length (2 * tol) δ) ps cv := by
  have h2 : (0 : ℚ) < 2 ^ p := by positivity
  have hW0 : 0 ≤ W := le_trans (by positivity) hWp
  have hn1 : (1 : ℚ) ≤ M.length := by exact_mod_cast hn
  have hWR : 2 * W ≤ 2 ^ p := by
    refine abs_le_of_sq_le_sq' ?_ h2.le |>.2
    have h4 : ((2 : ℚ) ^ p) ^ 2 = 4 ^ p := by rw [← pow_mul, mul_comm, pow_mul]; norm_num
    rw [h4]
    have : 256 * 1 * W ^ 2 ≤ 256 * M.length * W ^ 2 :=
      mul_le_mul_of_nonneg_right (mul_le_mul_of_nonneg_left hn1 (by norm_num)) (sq_nonneg W)
    nlinarith [sq_nonneg W]
  exact aicRunF_near hfl (f := finiteLinearF F fl unit cols M) (m := 1) hn (linear_nearFunctor hfl hu hM hW hWR)
    (rowRank_intersecting (by linarith) cols M _) hN hK hKp hc hWp heps
    htol htol1 hr hδ hδ2 ht hcert

/-! ### Runs -/

section example_runs

theorem aicRunF_never {f : SF} (hn : 0 < f.size) {fl : ℚ → ℚ} {mnb : SF → Outcome (List ℚ)} {tol : ℚ}
    (h : ∀ k, aggLoopF fl mnb f tol k (HC.new f.size) [singletons (Finset.range f.size)] [] = .fuel) :
    aicRunF fl mnb f tol = .fuel := by
  obtain ⟨L, hL1, -, hL2⟩ := new_coarsest hn
  unfold aicRunF
  dsimp only
  rw [hL1]
  simp only [Outcome.ok_bind, hL2]
  exact h _

/-- Three nodes and three hyperedges with the weights 1/3, 2/7, 2, 1, 1/2, rounded to double. -/
def doubleWeights : List (List ℚ) := [[roundDouble (1 / 3), 0, 0], [1, roundDouble (2 / 7), 0], [1, 2, 1 / 2]]

def doubleHypergraph : SF := hypergraphEntropyF roundDouble doubleWeights 3

def doubleHypergraphStep : HC → Outcome (HC × Bool) :=
  agglomerateF roundDouble (mnbOfF roundDouble (gaussDouble.seqF roundDouble) runTol runEps 50) doubleHypergraph runTol

private instance : Fact (Nat.Prime 3) := ⟨Nat.prime_three⟩

/-- Three sources over the field with three elements, the last with two components; `unit` is `log2 3` in double
precision. -/
def doubleMatrices : List (List (List ℤ)) := [[[1, 0, 0]], [[0, 1, 0]], [[1, 2, 0], [0, 0, 1]]]

def log2Three : ℚ := roundDouble (15849625007211562 / 10 ^ 16)

def doubleSource : SF := finiteLinearF (ZMod 3) roundDouble log2Three 3 doubleMatrices

def doubleSourceStep : HC → Outcome (HC × Bool) :=
  agglomerateF roundDouble (mnbOfF roundDouble (gaussDouble.seqF roundDouble) runTol runEps 50) doubleSource runTol

theorem doubleHypergraph_states {h : HC} {L : List (List ℕ)} (hr : Reached doubleHypergraphStep (HC.new 3) h)
    (hL : h.getPartition ⊥ = .ok L) : L = [[0], [1], [2]] ∨ L = [[0], [1, 2]] ∨ L = [[0, 1, 2]] := by
  rcases reached_cases hr with rfl | ⟨h1, k1, hr⟩
  · rw [show (HC.new 3).getPartition ⊥ = .ok [[0], [1], [2]] by decide +kernel] at hL
    cases hL; exact .inl rfl
  rw [step_of_stepMoves (step := doubleHypergraphStep) (h := HC.new 3) (b := true) (by decide +kernel)] at k1
  cases k1
  rcases reached_cases hr with rfl | ⟨h1, k1, hr⟩
  · rw [show (stepNext doubleHypergraphStep (HC.new 3)).getPartition ⊥ = .ok [[0], [1, 2]] by decide +kernel] at hL
    cases hL; exact .inr (.inl rfl)
  rw [step_of_stepMoves (step := doubleHypergraphStep) (h := stepNext doubleHypergraphStep (HC.new 3)) (b := true)
    (by decide +kernel)] at k1
  cases k1
  rcases reached_cases hr with rfl | ⟨h1, k1, hr⟩
  · rw [show (stepNext doubleHypergraphStep (stepNext doubleHypergraphStep (HC.new 3))).getPartition ⊥ = .ok [[0, 1, 2]]
      by decide +kernel] at hL
    cases hL; exact .inr (.inr rfl)
  rw [step_of_stepMoves (step := doubleHypergraphStep)
    (h := stepNext doubleHypergraphStep (stepNext doubleHypergraphStep (HC.new 3))) (b := false) (by decide +kernel)] at k1
  cases k1

theorem doubleSource_states {h : HC} {L : List (List ℕ)} (hr : Reached doubleSourceStep (HC.new 3) h)
    (hL : h.getPartition ⊥ = .ok L) : L = [[0], [1], [2]] ∨ L = [[0, 2, 1]] := by
  rcases reached_cases hr with rfl | ⟨h1, k1, hr⟩
  · rw [show (HC.new 3).getPartition ⊥ = .ok [[0], [1], [2]] by decide +kernel] at hL
    cases hL; exact .inl rfl
  rw [step_of_stepMoves (step := doubleSourceStep) (h := HC.new 3) (b := true) (by decide +kernel)] at k1
  cases k1
  rcases reached_cases hr with rfl | ⟨h1, k1, hr⟩
  · rw [show (stepNext doubleSourceStep (HC.new 3)).getPartition ⊥ = .ok [[0, 2, 1]] by decide +kernel] at hL
    cases hL; exact .inr rfl
  rw [step_of_stepMoves (step := doubleSourceStep) (h := stepNext doubleSourceStep (HC.new 3)) (b := false)
    (by decide +kernel)] at k1
  cases k1

theorem doubleHypergraph_optimal :
    AllOptimalF roundDouble (gaussDouble.seqF roundDouble) doubleHypergraph runTol runEps 50 := by
  intro h L hr hL j h1 hj
  rcases doubleHypergraph_states hr hL with rfl | rfl | rfl <;> simp only [List.length_cons, List.length_nil] at hj <;>
    interval_cases j
  · exact ⟨_, minNormBaseF_single rfl, fun h => by omega⟩
  · exact certified_of_point (by decide +kernel)
  · exact ⟨_, minNormBaseF_single rfl, fun h => by omega⟩

theorem doubleSource_optimal :
    AllOptimalF roundDouble (gaussDouble.seqF roundDouble) doubleSource runTol runEps 50 := by
  intro h L hr hL j h1 hj
  rcases doubleSource_states hr hL with rfl | rfl <;> simp only [List.length_cons, List.length_nil] at hj <;>
    interval_cases j
  · exact ⟨_, minNormBaseF_single rfl, fun h => by omega⟩
  · exact certified_of_point (by decide +kernel)

/-- A run with `double` and the tolerances of the code that meets the assumptions of `C89_hypergraph_partial`. -/
theorem doubleHypergraph_run : ∃ ps cv,
    aicRunF roundDouble (mnbOfF roundDouble (gaussDouble.seqF roundDouble) runTol runEps 50) doubleHypergraph runTol =
      .ok (ps, cv) ∧ ps = [{{0, 1, 2}}, {{0}, {1, 2}}, {{0}, {1}, {2}}] ∧
      IsApproximateSequenceSF (weightMax doubleWeights 3) (Finset.range 3) (1 / 8) ps cv := by
  have hok : (aicRunF roundDouble (mnbOfF roundDouble (gaussDouble.seqF roundDouble) runTol runEps 50) doubleHypergraph
      runTol >>= fun r => pure r.1) = .ok [{{0, 1, 2}}, {{0}, {1, 2}}, {{0}, {1}, {2}}] := by decide +kernel
  rcases C89_hypergraph_partial (N := gaussDouble) (fl := roundDouble) (p := 53) (M := doubleWeights) (cols := 3)
    (tol := runTol) (eps := runEps) (δ := 1 / 999) (fuel := 50) (K := 2 ^ 90) (W := 6) roundDouble_spec (by decide)
    (by decide +kernel) (by decide +kernel) gaussDouble_plain gaussDouble_format (by norm_num [doubleWeights])
    (by decide +kernel) (by decide +kernel) (by norm_num) (by decide +kernel) (by decide +kernel) (by decide +kernel)
    (by norm_num [doubleWeights]) (by norm_num) (by decide +kernel) (by decide +kernel) doubleHypergraph_optimal
    with h | ⟨ps, cv, h1, h2⟩
  · exfalso
    rw [aicRunF_never (f := doubleHypergraph) (by decide) h] at hok
    cases hok
  · have h1' : aicRunF roundDouble (mnbOfF roundDouble (gaussDouble.seqF roundDouble) runTol runEps 50) doubleHypergraph
      runTol = .ok (ps, cv) := h1
    rw [h1'] at hok
    refine ⟨ps, cv, h1', by cases hok; rfl, h2.length, h2.first, h2.last, h2.refine, h2.nondecreasing,
      fun i P lam a b c => ?_⟩
    exact near_monoSF (h2.optimal i P lam a b c) (by decide +kernel)

/-- A run that meets the assumptions of `C89_linear_partial`. -/
theorem doubleSource_run : ∃ ps cv,
    aicRunF roundDouble (mnbOfF roundDouble (gaussDouble.seqF roundDouble) runTol runEps 50) doubleSource runTol =
      .ok (ps, cv) ∧ ps = [{{0, 1, 2}}, {{0}, {1}, {2}}] ∧
      IsApproximateSequenceSF (fun B => log2Three * rowRank (ZMod 3) 3 doubleMatrices B) (Finset.range 3) (1 / 8) ps cv := by
  have hok : (aicRunF roundDouble (mnbOfF roundDouble (gaussDouble.seqF roundDouble) runTol runEps 50) doubleSource
      runTol >>= fun r => pure r.1) = .ok [{{0, 1, 2}}, {{0}, {1}, {2}}] := by decide +kernel
  have hM : ∀ A ∈ doubleMatrices, ∀ r ∈ A, r.length = 3 := by decide
  have hW : ∑ v ∈ Finset.range doubleMatrices.length, log2Three * rowRank (ZMod 3) 3 doubleMatrices {v} ≤ 8 := by
    have hv : ∀ v, log2Three * (rowRank (ZMod 3) 3 doubleMatrices {v} : ℚ) =
        (finiteLinear (ZMod 3) log2Three 3 doubleMatrices).val [v] := fun v => by
      rw [C49_value hM]; rfl
    simp only [hv]
    decide +kernel
  rcases C89_linear_partial (F := ZMod 3) (N := gaussDouble) (fl := roundDouble) (p := 53) (M := doubleMatrices) (cols := 3)
    (unit := log2Three) (tol := runTol) (eps := runEps) (δ := 1 / 999) (fuel := 50) (K := 2 ^ 90) (W := 8) roundDouble_spec
    (by decide +kernel) hM (by decide) gaussDouble_plain gaussDouble_format (by norm_num [doubleMatrices])
    (by decide +kernel) hW (by norm_num) (by decide +kernel) (by decide +kernel) (by decide +kernel)
    (by norm_num [doubleMatrices]) (by norm_num) (by decide +kernel) (by decide +kernel) doubleSource_optimal
    with h | ⟨ps, cv, h1, h2⟩
  · exfalso
    rw [aicRunF_never (f := doubleSource) (by decide) h] at hok
    cases hok
  · have h1' : aicRunF roundDouble (mnbOfF roundDouble (gaussDouble.seqF roundDouble) runTol runEps 50) doubleSource
      runTol = .ok (ps, cv) := h1
    rw [h1'] at hok
    refine ⟨ps, cv, h1', by cases hok; rfl, h2.length, h2.first, h2.last, h2.refine, h2.nondecreasing,
      fun i P lam a b c => ?_⟩
    exact near_monoSF (h2.optimal i P lam a b c) (by decide +kernel)

end example_runs

end PSP.Props
