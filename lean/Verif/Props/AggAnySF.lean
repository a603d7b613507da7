import Verif.Props.AggAny
import Verif.Props.FLS

/-!
# Properties: `AIC` with any tolerances on hypergraphs, finite linear sources and other functors (C88)
-/

namespace PSP.Props

open PSP.Model PSP.Spec PSP.Theory

/-- All calls of `min_norm_base` in the states that `agglomerate` reaches end by the test of optimality. -/
def AllOptimal (N : Numerics) (f : SF) (tol eps : ℚ) (fuel : ℕ) : Prop :=
  ∀ h L, Reached (agglomerate (mnbOfL codeFactor N tol eps fuel) f tol) (HC.new f.size) h → h.getPartition ⊥ = .ok L →
    ∀ j, 1 ≤ j → j < L.length → ∃ x, minNormBaseL codeFactor N (sfJoin (sfContract f L) j) tol eps fuel = .ok (x, true)

/-- `AIC` with any functor that computes a set function which is submodular on intersecting sets, with tolerances as
large as one likes: the loop `while (agglomerate(…))` goes on for ever, or it builds a sequence of partitions from the
coarsest to the finest whose critical values are not decreasing, and every partition is, for all parameters between its
critical values, within `aggRunError` of the least cost. Not covered: runs where a call of `min_norm_base` ended otherwise;
rounding; and that the loop ends. -/
theorem C88_functor_partial {f : SF} {φ : Finset ℕ → ℚ} (hf : ∀ B : List ℕ, B.Nodup → B ≠ [] → (∀ b ∈ B, b < f.size) →
      f.val B = φ B.toFinset) (hn : 0 < f.size) (hφ : Intersecting (Finset.range f.size) φ)
    {N : Numerics} (hN : ∀ j, ExactNumerics N j) {tol eps δ : ℚ} {fuel : ℕ} (heps : 0 < eps) (hsmall : f.size * eps < 1)
    (htol : 0 < tol) (hδ : 0 ≤ δ) (hδ2 : tol ≤ δ ^ 2) (hcert : AllOptimal N f tol eps fuel) :
    (∀ k, aggLoop (mnbOfL codeFactor N tol eps fuel) f tol k (HC.new f.size) [singletons (Finset.range f.size)] [] =
      .fuel) ∨
    ∃ ps cv, aggRunSF (mnbOfL codeFactor N tol eps fuel) f tol = .ok (ps, cv) ∧
      IsApproximateSequenceSF φ (Finset.range f.size) (aggRunError f.size tol δ) ps cv :=
  aggRunSF_near hf hn hφ hN heps hsmall htol hδ hδ2 hcert

/-- A hypergraph given by its matrix of weights, which may be negative. -/
theorem C88_hypergraph_partial {M : List (List ℚ)} (cols : ℕ) (hn : 0 < M.length)
    {N : Numerics} (hN : ∀ j, ExactNumerics N j) {tol eps δ : ℚ} {fuel : ℕ} (heps : 0 < eps) (hsmall : M.length * eps < 1)
    (htol : 0 < tol) (hδ : 0 ≤ δ) (hδ2 : tol ≤ δ ^ 2) (hcert : AllOptimal N (hypergraphEntropy M cols) tol eps fuel) :
    (∀ k, aggLoop (mnbOfL codeFactor N tol eps fuel) (hypergraphEntropy M cols) tol k (HC.new M.length)
      [singletons (Finset.range M.length)] [] = .fuel) ∨
    ∃ ps cv, aggRunSF (mnbOfL codeFactor N tol eps fuel) (hypergraphEntropy M cols) tol = .ok (ps, cv) ∧
      IsApproximateSequenceSF (weightMax M cols) (Finset.range M.length) (aggRunError M.length tol δ) ps cv :=
  C88_functor_partial (f := hypergraphEntropy M cols) (fun _ _ hB _ => hypergraphEntropy_val M cols hB) hn
    (weightMax_intersecting M cols _) hN heps hsmall htol hδ hδ2 hcert

/-- A finite linear source over any field. -/
theorem C88_linear_partial {F : Type} [Field F] [DecidableEq F] {unit : ℚ} (hu : 0 ≤ unit) {cols : ℕ}
    {M : List (List (List ℤ))} (hM : ∀ A ∈ M, ∀ r ∈ A, r.length = cols) (hn : 0 < M.length)
    {N : Numerics} (hN : ∀ j, ExactNumerics N j) {tol eps δ : ℚ} {fuel : ℕ} (heps : 0 < eps) (hsmall : M.length * eps < 1)
    (htol : 0 < tol) (hδ : 0 ≤ δ) (hδ2 : tol ≤ δ ^ 2) (hcert : AllOptimal N (finiteLinear F unit cols M) tol eps fuel) :
    (∀ k, aggLoop (mnbOfL codeFactor N tol eps fuel) (finiteLinear F unit cols M) tol k (HC.new M.length)
      [singletons (Finset.range M.length)] [] = .fuel) ∨
    ∃ ps cv, aggRunSF (mnbOfL codeFactor N tol eps fuel) (finiteLinear F unit cols M) tol = .ok (ps, cv) ∧
      IsApproximateSequenceSF (fun B => unit * rowRank F cols M B) (Finset.range M.length) (aggRunError M.length tol δ)
        ps cv :=
  C88_functor_partial (f := finiteLinear F unit cols M) (fun _ _ _ _ => C49_value hM _) hn
    (rowRank_intersecting hu cols M _) hN heps hsmall htol hδ hδ2 hcert

/-! ### Runs -/

section example_runs

theorem aggRunSF_never {f : SF} (hn : 0 < f.size) {mnb : SF → Outcome (List ℚ)} {tol : ℚ}
    (h : ∀ k, aggLoop mnb f tol k (HC.new f.size) [singletons (Finset.range f.size)] [] = .fuel) :
    aggRunSF mnb f tol = .fuel := by
  obtain ⟨L, hL1, -, hL2⟩ := new_coarsest hn
  unfold aggRunSF
  dsimp only
  rw [hL1]
  simp only [Outcome.ok_bind, hL2]
  exact h _

/-- Three nodes and three hyperedges. -/
def someHypergraph : SF := hypergraphEntropy [[1 / 3, 0, -1], [1, 2 / 7, -1], [1, 2, 1 / 2]] 3

def hypergraphStep : HC → Outcome (HC × Bool) :=
  agglomerate (mnbOfL scaledFactor gaussNumerics (1 / 10 ^ 6) (1 / 10 ^ 15) 50) someHypergraph (1 / 10 ^ 6)

theorem hypergraph_states {h : HC} {L : List (List ℕ)} (hr : Reached hypergraphStep (HC.new 3) h)
    (hL : h.getPartition ⊥ = .ok L) : L = [[0], [1], [2]] ∨ L = [[0], [1, 2]] ∨ L = [[0, 1, 2]] := by
  rcases reached_cases hr with rfl | ⟨h1, k1, hr⟩
  · rw [show (HC.new 3).getPartition ⊥ = .ok [[0], [1], [2]] by decide +kernel] at hL
    cases hL; exact .inl rfl
  rw [step_of_stepMoves (step := hypergraphStep) (h := HC.new 3) (b := true) (by decide +kernel)] at k1
  cases k1
  rcases reached_cases hr with rfl | ⟨h1, k1, hr⟩
  · rw [show (stepNext hypergraphStep (HC.new 3)).getPartition ⊥ = .ok [[0], [1, 2]] by decide +kernel] at hL
    cases hL; exact .inr (.inl rfl)
  rw [step_of_stepMoves (step := hypergraphStep) (h := stepNext hypergraphStep (HC.new 3)) (b := true)
    (by decide +kernel)] at k1
  cases k1
  rcases reached_cases hr with rfl | ⟨h1, k1, hr⟩
  · rw [show (stepNext hypergraphStep (stepNext hypergraphStep (HC.new 3))).getPartition ⊥ = .ok [[0, 1, 2]]
      by decide +kernel] at hL
    cases hL; exact .inr (.inr rfl)
  rw [step_of_stepMoves (step := hypergraphStep) (h := stepNext hypergraphStep (stepNext hypergraphStep (HC.new 3)))
    (b := false) (by decide +kernel)] at k1
  cases k1

theorem hypergraph_optimal : AllOptimal gaussNumerics someHypergraph (1 / 10 ^ 6) (1 / 10 ^ 15) 50 := by
  intro h L hr hL j h1 hj
  rw [mnbOfL_sim codeFactor_sim] at hr
  rw [minNormBaseL_sim codeFactor_sim]
  rcases hypergraph_states hr hL with rfl | rfl | rfl <;> simp only [List.length_cons, List.length_nil] at hj <;>
    interval_cases j <;> exact ok_certified (by decide +kernel)

/-- The assumptions of `C88_hypergraph_partial` with a negative weight. -/
theorem hypergraph_run : ∃ ps cv, aggRunSF (mnbOfL codeFactor gaussNumerics (1 / 10 ^ 6) (1 / 10 ^ 15) 50) someHypergraph
      (1 / 10 ^ 6) = .ok (ps, cv) ∧ ps = [{{0, 1, 2}}, {{0}, {1, 2}}, {{0}, {1}, {2}}] ∧ cv = [-2 / 3, 2 / 7] ∧
    IsApproximateSequenceSF (weightMax [[1 / 3, 0, -1], [1, 2 / 7, -1], [1, 2, 1 / 2]] 3) (Finset.range 3) (1 / 10) ps cv := by
  have hok : aggRunSF (mnbOfL codeFactor gaussNumerics (1 / 10 ^ 6) (1 / 10 ^ 15) 50) someHypergraph
      (1 / 10 ^ 6) = .ok ([{{0, 1, 2}}, {{0}, {1, 2}}, {{0}, {1}, {2}}], [-2 / 3, 2 / 7]) := by
    rw [mnbOfL_sim codeFactor_sim]
    decide +kernel
  rcases C88_hypergraph_partial (N := gaussNumerics) (M := [[1 / 3, 0, -1], [1, 2 / 7, -1], [1, 2, 1 / 2]]) 3
    (tol := 1 / 10 ^ 6) (eps := 1 / 10 ^ 15) (δ := 1 / 1000) (fuel := 50) (by simp) gaussNumerics_exact (by norm_num)
    (by norm_num) (by norm_num) (by norm_num) (by norm_num) hypergraph_optimal with h | ⟨ps, cv, h1, h2⟩
  · exfalso
    rw [aggRunSF_never (f := someHypergraph) (by decide) h] at hok
    cases hok
  · have h3 := h1
    rw [show hypergraphEntropy [[1 / 3, 0, -1], [1, 2 / 7, -1], [1, 2, 1 / 2]] 3 = someHypergraph from rfl, hok] at h3
    cases h3
    refine ⟨_, _, hok, rfl, rfl, h2.length, h2.first, h2.last, h2.refine, h2.nondecreasing, fun i P lam a b c => ?_⟩
    exact near_monoSF (h2.optimal i P lam a b c) (by decide +kernel)

private instance : Fact (Nat.Prime 2) := ⟨Nat.prime_two⟩

/-- Three sources over the field with two elements, the last with two components. -/
def someSource : SF := finiteLinear (ZMod 2) 1 3 [[[1, 0, 0]], [[0, 1, 0]], [[1, 1, 0], [0, 0, 1]]]

def sourceStep : HC → Outcome (HC × Bool) :=
  agglomerate (mnbOfL scaledFactor gaussNumerics (1 / 10 ^ 6) (1 / 10 ^ 15) 50) someSource (1 / 10 ^ 6)

theorem source_states {h : HC} {L : List (List ℕ)} (hr : Reached sourceStep (HC.new 3) h)
    (hL : h.getPartition ⊥ = .ok L) : L = [[0], [1], [2]] ∨ L = [[0, 2, 1]] := by
  rcases reached_cases hr with rfl | ⟨h1, k1, hr⟩
  · rw [show (HC.new 3).getPartition ⊥ = .ok [[0], [1], [2]] by decide +kernel] at hL
    cases hL; exact .inl rfl
  rw [step_of_stepMoves (step := sourceStep) (h := HC.new 3) (b := true) (by decide +kernel)] at k1
  cases k1
  rcases reached_cases hr with rfl | ⟨h1, k1, hr⟩
  · rw [show (stepNext sourceStep (HC.new 3)).getPartition ⊥ = .ok [[0, 2, 1]] by decide +kernel] at hL
    cases hL; exact .inr rfl
  rw [step_of_stepMoves (step := sourceStep) (h := stepNext sourceStep (HC.new 3)) (b := false) (by decide +kernel)] at k1
  cases k1

/-- The assumptions of `C88_linear_partial`. -/
theorem source_run : ∃ ps cv, aggRunSF (mnbOfL codeFactor gaussNumerics (1 / 10 ^ 6) (1 / 10 ^ 15) 50) someSource
      (1 / 10 ^ 6) = .ok (ps, cv) ∧ ps = [{{0, 1, 2}}, {{0}, {1}, {2}}] ∧
    IsApproximateSequenceSF (fun B => 1 * rowRank (ZMod 2) 3 [[[1, 0, 0]], [[0, 1, 0]], [[1, 1, 0], [0, 0, 1]]] B)
      (Finset.range 3) (1 / 10) ps cv := by
  have hok : (aggRunSF (mnbOfL codeFactor gaussNumerics (1 / 10 ^ 6) (1 / 10 ^ 15) 50) someSource
      (1 / 10 ^ 6) >>= fun r => pure r.1) = .ok [{{0, 1, 2}}, {{0}, {1}, {2}}] := by
    rw [mnbOfL_sim codeFactor_sim]
    decide +kernel
  rcases C88_linear_partial (F := ZMod 2) (N := gaussNumerics) (unit := 1) (cols := 3)
    (M := [[[1, 0, 0]], [[0, 1, 0]], [[1, 1, 0], [0, 0, 1]]])
    (tol := 1 / 10 ^ 6) (eps := 1 / 10 ^ 15) (δ := 1 / 1000) (fuel := 50) (by norm_num) (by simp) (by simp)
    gaussNumerics_exact (by norm_num) (by norm_num) (by norm_num) (by norm_num) (by norm_num) (by
      intro h L hr hL j h1 hj
      rw [mnbOfL_sim codeFactor_sim] at hr
      rw [minNormBaseL_sim codeFactor_sim]
      rcases source_states hr hL with rfl | rfl <;> simp only [List.length_cons, List.length_nil] at hj <;>
        interval_cases j <;> exact ok_certified (by decide +kernel)) with h | ⟨ps, cv, h1, h2⟩
  · exfalso
    rw [aggRunSF_never (f := someSource) (by decide) h] at hok
    cases hok
  · have h1' : aggRunSF (mnbOfL codeFactor gaussNumerics (1 / 10 ^ 6) (1 / 10 ^ 15) 50) someSource (1 / 10 ^ 6) =
      .ok (ps, cv) := h1
    rw [h1'] at hok
    refine ⟨ps, cv, h1', by cases hok; rfl, h2.length, h2.first, h2.last, h2.refine, h2.nondecreasing,
      fun i P lam a b c => ?_⟩
    exact near_monoSF (h2.optimal i P lam a b c) (by decide +kernel)

end example_runs

end PSP.Props
