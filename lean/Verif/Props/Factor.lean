import Verif.Theory.FactorAgg
import Verif.Props.AIC

/-!
# The factor `L` of `min_norm_base` and its exception (C76)
-/

namespace PSP.Props

open PSP.Spec PSP.Model PSP.Theory

/-- The text of the exception of AIC.hpp:106. -/
def higherTolerance : String := "Try to set a higher functional tolerance."

/-! ### what the factor can change -/

/-- Whatever the solver, the sort and the function do: with the factor of the code `min_norm_base` does what it does
without the test, or it throws the exception of the test, or the factor contains a division by zero. -/
theorem C76_nothing_else (N : Numerics) (f : SF) (tol eps : ℚ) (fuel : ℕ) :
    minNormBaseL codeFactor N f tol eps fuel = minNormBase N.quiet f tol eps fuel ∨
      minNormBaseL codeFactor N f tol eps fuel = .nan ∨
      minNormBaseL codeFactor N f tol eps fuel = .exc higherTolerance := by
  rw [minNormBaseL_sim codeFactor_sim]
  exact minNormBaseL_mild scaled_mild N f tol eps fuel

/-! ### the exception with exact arithmetic -/

/-- Five nodes; weights 1 and 3. -/
def throwArcs : List Arc := [⟨0, 2, 3⟩, ⟨0, 3, 1⟩, ⟨0, 4, 1⟩, ⟨1, 2, 1⟩, ⟨1, 3, 1⟩]

theorem throwArcs_valid : ValidInput 5 throwArcs := by decide +kernel

/-- With exact arithmetic, an exact solver and the constants of `agglomerate()` (AIC.hpp:299), `agg_psp` throws on a
valid graph with five nodes. Without the test the same run gives the principal sequence. -/
theorem C76_agg_psp_violated : (∀ n, ExactNumerics gaussNumerics n) ∧ ∃ E : List Arc, ValidInput 5 E ∧
    aggRun (mnbOfL codeFactor gaussNumerics (1 / 10 ^ 6) (1 / 10 ^ 15) 50) ⟨List.range 5, E⟩ (1 / 10 ^ 6) =
      .exc higherTolerance ∧
    ∃ ps cv, aggRun (mnbOf gaussNumerics (1 / 10 ^ 6) (1 / 10 ^ 15) 50) ⟨List.range 5, E⟩ (1 / 10 ^ 6) =
      .ok (ps, cv) ∧ IsPrincipalSequence E (Finset.range 5) ps cv := by
  refine ⟨gaussNumerics_exact, throwArcs, throwArcs_valid, ?_,
    [{{0, 1, 2, 3, 4}}, {{0, 1, 2, 3}, {4}}, {{0, 2}, {1}, {3}, {4}}, {{0}, {1}, {2}, {3}, {4}}], [1, 3 / 2, 3],
    by decide +kernel, ?_⟩
  · rw [mnbOfL_sim codeFactor_sim]
    decide +kernel
  · have hf : FineTolerance lemonEps 5 throwArcs := by
      refine ⟨1, by norm_num, fun e he => ?_, by norm_num [lemonEps], by norm_num [lemonEps]⟩
      simp only [throwArcs, List.mem_cons, List.not_mem_nil, or_false] at he
      rcases he with rfl | rfl | rfl | rfl | rfl
      · exact ⟨3, by norm_num⟩
      all_goals exact ⟨1, by norm_num⟩
    obtain ⟨r, h, hp⟩ := C01_dt_exact bruteSolver_minimal throwArcs_valid (by norm_num) hf
    have h' : (makeDgraph lemonEps 5 throwArcs >>= dtRun bruteSolver lemonEps) =
        .ok ⟨[{{0, 1, 2, 3, 4}}, {{0, 1, 2, 3}, {4}}, {{0, 2}, {1}, {3}, {4}}, {{0}, {1}, {2}, {3}, {4}}],
          [1, 3 / 2, 3]⟩ := by decide +kernel
    rw [h'] at h
    cases h
    exact hp

/-- Through the class `PSP` compiled with `AGG`. -/
theorem C76_run_once_violated : ∃ E : List Arc, ValidInput 5 E ∧
    runOnceAGG exEnv (mnbOfL codeFactor gaussNumerics (1 / 10 ^ 6) (1 / 10 ^ 15) 50) (1 / 10 ^ 6) exSched 5 E
      "agg_psp" = .exc higherTolerance := by
  refine ⟨throwArcs, throwArcs_valid, ?_⟩
  rw [mnbOfL_sim codeFactor_sim]
  decide +kernel

/-- A single call: the points of the last cluster of that graph. -/
theorem C76_min_norm_base_violated : ∃ f φ, Computes f φ ∧ Submodular (Finset.range f.size) φ ∧ f.size = 4 ∧
    minNormBaseL codeFactor gaussNumerics f (1 / 10 ^ 6) (1 / 10 ^ 15) 50 = .exc higherTolerance := by
  have hc : IsClustering 5 (fun a b => a = b) [[0], [1], [2], [3], [4]] := by
    refine ⟨by decide, by decide, fun v => ?_, ?_⟩
    · simp only [List.flatten_cons, List.flatten_nil, List.append_nil, List.cons_append, List.nil_append,
        List.mem_cons, List.not_mem_nil, or_false]
      omega
    · intro u v hu hv
      interval_cases u <;> interval_cases v <;> decide
  obtain ⟨h1, h2, -⟩ := join_computes (f := digraphEntropy ⟨List.range 5, throwArcs⟩)
    (represents_digraph (by decide +kernel)) (incident_intersecting throwArcs_valid.nonneg _) hc
    (j := 4) (by decide)
  refine ⟨_, _, h1, h2, rfl, ?_⟩
  rw [minNormBaseL_sim codeFactor_sim]
  decide +kernel

/-! ### where it cannot occur -/

theorem minorCycles_exc (N : Numerics) (n : ℕ) (eps : ℚ) (t : String) : ∀ (fuel : ℕ) (Q : List (List ℚ))
    (w : List ℚ), minorCycles N n eps fuel Q w ≠ .exc t := by
  intro fuel
  induction fuel with
  | zero => intro Q w h; cases h
  | succ fuel ih =>
    intro Q w
    unfold minorCycles
    dsimp only
    split
    · intro h; cases h
    split
    · intro h; cases h
    split
    · intro h; cases h
    · exact ih _ _

theorem edmondsGreedy_exc (f : SF) (w : List ℚ) (idx : List ℕ) : edmondsGreedy f w idx ≠ .exc higherTolerance := by
  unfold edmondsGreedy
  split
  · intro h
    have := Outcome.exc.inj h
    exact absurd this (by decide)
  · intro h; cases h

theorem majorCycles_quiet_exc (N : Numerics) (f : SF) (tol eps : ℚ) : ∀ (fuel : ℕ) (Q : List (List ℚ))
    (w x : List ℚ) (prev : Option ℚ) (stuck : ℕ),
    majorCycles N.quiet f tol eps fuel Q w x prev stuck ≠ .exc higherTolerance := by
  intro fuel
  induction fuel with
  | zero => intro Q w x prev stuck h; cases h
  | succ fuel ih =>
    intro Q w x prev stuck
    unfold majorCycles
    have h1 := edmondsGreedy_exc f x (N.quiet.sort x)
    cases hg : edmondsGreedy f x (N.quiet.sort x) with
    | exc s => rw [hg] at h1; exact fun h => h1 (by cases h; rfl)
    | ub s => intro h; cases h
    | nan => intro h; cases h
    | fuel => intro h; cases h
    | ok q =>
    simp only [Outcome.ok_bind]
    split
    · intro h; cases h
    generalize (if isStuck prev |dot x q - dot x x| = true then stuck + 1 else 0) = st
    split
    · intro h; cases h
    split
    · intro h; cases h
    have h2 := minorCycles_exc N.quiet f.size eps higherTolerance (Q.length + 2) (Q ++ [q]) w
    have hth : N.quiet.throws fuel (Q ++ [q]) = false := rfl
    rw [hth]
    simp only [Bool.false_eq_true, if_false]
    cases hm : minorCycles N.quiet f.size eps (Q.length + 2) (Q ++ [q]) w with
    | exc s => rw [hm] at h2; exact fun h => h2 (by cases h; rfl)
    | ub s => intro h; cases h
    | nan => intro h; cases h
    | fuel => intro h; cases h
    | ok r => exact ih _ _ _ _ _

theorem minNormBase_quiet_exc (N : Numerics) (f : SF) (tol eps : ℚ) (fuel : ℕ) :
    minNormBase N.quiet f tol eps fuel ≠ .exc higherTolerance := by
  unfold minNormBase
  split
  · intro h; cases h
  split
  · intro h; cases h
  dsimp only
  have h1 := edmondsGreedy_exc f (List.replicate f.size 1) (N.quiet.sort (List.replicate f.size 1))
  cases hg : edmondsGreedy f (List.replicate f.size 1) (N.quiet.sort (List.replicate f.size 1)) with
  | exc s => rw [hg] at h1; exact fun h => h1 (by cases h; rfl)
  | ub s => intro h; cases h
  | nan => intro h; cases h
  | fuel => intro h; cases h
  | ok q => exact majorCycles_quiet_exc N f tol eps fuel _ _ _ _ _

/-- As long as no minor cycle of the call removes two columns at once (the monitor `singleFactor` stops there), the
exception does not occur: the call does what it does without the test. For every precision and number of cycles. -/
theorem C76_min_norm_base_partial {N : Numerics} {f : SF} {φ : Finset ℕ → ℚ} (hN : ExactNumerics N f.size)
    (hf : Computes f φ) (hφ : Submodular (Finset.range f.size) φ) {tol : ℚ} (htol : 0 < tol) (eps : ℚ) (fuel : ℕ)
    (hm : minNormBaseL singleFactor N f tol eps fuel ≠ .exc "two columns") :
    minNormBaseL codeFactor N f tol eps fuel = minNormBase N.quiet f tol eps fuel ∧
      minNormBaseL codeFactor N f tol eps fuel ≠ .exc higherTolerance := by
  have h := ((minNormBaseL_single (eps := eps) hN hf hφ htol fuel).resolve_left hm).2
  rw [minNormBaseL_sim codeFactor_sim, h]
  exact ⟨rfl, minNormBase_quiet_exc N f tol eps fuel⟩

/-- On at most three elements it never occurs. -/
theorem C76_three {N : Numerics} {f : SF} {φ : Finset ℕ → ℚ} (hN : ExactNumerics N f.size) (hn3 : f.size ≤ 3)
    (hf : Computes f φ) (hφ : Submodular (Finset.range f.size) φ) :
    ∃ e : ℚ, 0 < e ∧ ∀ eps tol fuel, 0 < eps → eps ≤ e → 0 < tol →
      minNormBaseL codeFactor N f tol eps fuel = minNormBase N.quiet f tol eps fuel := by
  obtain ⟨e, he, h⟩ := minNormBaseL_small hN hn3 hf hφ
  refine ⟨e, he, fun eps tol fuel h1 h2 h3 => ?_⟩
  rw [minNormBaseL_sim codeFactor_sim]
  exact h eps tol fuel h1 h2 h3

/-- If no minor cycle of the run removes two columns at once, `agg_psp` with the factor of the code does what it does
without the test. -/
theorem C76_agg_psp_same_partial {N : Numerics} (hN : ∀ n, ExactNumerics N n) {n : ℕ} {E : List Arc} (hn : 0 < n)
    (hE : ∀ a ∈ E, a.src < a.dst ∧ a.dst < n) (h0 : NonnegE E) {tol : ℚ} (htol : 0 < tol) (eps : ℚ) (fuel : ℕ)
    (hm : aggRun (mnbOfL singleFactor N tol eps fuel) ⟨List.range n, E⟩ tol ≠ .exc "two columns") :
    aggRun (mnbOfL codeFactor N tol eps fuel) ⟨List.range n, E⟩ tol =
      aggRun (mnbOf N.quiet tol eps fuel) ⟨List.range n, E⟩ tol :=
  (aggRunSF_single hN (represents_digraph hE) (by rw [digraph_size]; exact hn) (incident_intersecting h0 _) htol eps
    fuel).resolve_left hm

/-- Then `agg_psp` returns the principal sequence. -/
theorem C76_agg_psp_partial {N : Numerics} (hN : ∀ n, ExactNumerics N n) {n : ℕ} {E : List Arc} (hn : 0 < n)
    (hE : ∀ a ∈ E, a.src < a.dst ∧ a.dst < n) (h0 : NonnegE E) :
    ∃ e t0 : ℚ, ∃ K : ℕ, 0 < e ∧ 0 < t0 ∧ ∀ eps tol fuel, 0 < eps → eps ≤ e → 0 < tol → tol ≤ t0 →
      K ≤ fuel → NeverStuck N.quiet ⟨List.range n, E⟩ tol eps fuel →
      aggRun (mnbOfL singleFactor N tol eps fuel) ⟨List.range n, E⟩ tol ≠ .exc "two columns" →
      ∃ ps cv, aggRun (mnbOfL codeFactor N tol eps fuel) ⟨List.range n, E⟩ tol = .ok (ps, cv) ∧
        IsPrincipalSequence E (Finset.range n) ps cv := by
  obtain ⟨e, t0, K, he, ht0, h⟩ := C43_agg_psp (N := N.quiet) (fun n => ⟨(hN n).sort, (hN n).solve⟩)
    (fun _ _ => rfl) hn hE h0
  refine ⟨e, t0, K, he, ht0, fun eps tol fuel h1 h2 h3 h4 h5 h6 hm => ?_⟩
  rw [C76_agg_psp_same_partial hN hn hE h0 h3 eps fuel hm]
  exact h eps tol fuel h1 h2 h3 h4 h5 h6

/-- On at most four nodes nothing has to be assumed: with the factor of the code and an exact solver `agg_psp`
returns the principal sequence. -/
theorem C76_agg_psp_four {N : Numerics} (hN : ∀ n, ExactNumerics N n) {n : ℕ} {E : List Arc} (hn : 0 < n)
    (hn4 : n ≤ 4) (hE : ∀ a ∈ E, a.src < a.dst ∧ a.dst < n) (h0 : NonnegE E) :
    ∃ e t0 : ℚ, ∃ K : ℕ, 0 < e ∧ 0 < t0 ∧ ∀ eps tol fuel, 0 < eps → eps ≤ e → 0 < tol → tol ≤ t0 →
      K ≤ fuel → ∃ ps cv, aggRun (mnbOfL codeFactor N tol eps fuel) ⟨List.range n, E⟩ tol = .ok (ps, cv) ∧
        IsPrincipalSequence E (Finset.range n) ps cv := by
  have hs := digraph_size n E
  obtain ⟨e, t0, K, he, ht0, h⟩ := aggRunSF_factor_small hN (represents_digraph hE) (by rw [hs]; exact hn)
    (incident_intersecting h0 _) (by rw [hs]; exact hn4)
  refine ⟨e, t0, K, he, ht0, fun eps tol fuel h1 h2 h3 h4 h5 => ?_⟩
  obtain ⟨ps, cv, h7, h8⟩ := h eps tol fuel h1 h2 h3 h4 h5
  rw [hs] at h8
  exact ⟨ps, cv, h7, (principalSF_iff (within_of hE)).1 h8⟩

/-- The same for hypergraphs with at most four nodes. -/
theorem C76_aic_four {N : Numerics} (hN : ∀ n, ExactNumerics N n) {M : List (List ℚ)} (cols : ℕ)
    (hn : 0 < M.length) (hn4 : M.length ≤ 4) :
    ∃ e t0 : ℚ, ∃ K : ℕ, 0 < e ∧ 0 < t0 ∧ ∀ eps tol fuel, 0 < eps → eps ≤ e → 0 < tol → tol ≤ t0 →
      K ≤ fuel →
      ∃ ps cv, aggRunSF (mnbOfL codeFactor N tol eps fuel) (hypergraphEntropy M cols) tol = .ok (ps, cv) ∧
        IsPrincipalSequenceSF (weightMax M cols) (Finset.range M.length) ps cv :=
  aggRunSF_factor_small hN (f := hypergraphEntropy M cols)
    (fun _ _ hB _ => hypergraphEntropy_val M cols hB) hn (weightMax_intersecting M cols _) hn4

/-- Six nodes; the run removes no two columns at once and ends with the critical values 1, 3, 4, 5. -/
example : ∃ ps, aggRun (mnbOfL codeFactor gaussNumerics (1 / 10 ^ 6) (1 / 10 ^ 15) 50)
    ⟨List.range 6, [⟨0, 1, 1⟩, ⟨0, 2, 2⟩, ⟨1, 2, 3⟩, ⟨2, 3, 1⟩, ⟨3, 4, 2⟩, ⟨3, 5, 2⟩, ⟨4, 5, 5⟩]⟩ (1 / 10 ^ 6) =
      .ok (ps, [1, 3, 4, 5]) := by
  rw [C76_agg_psp_same_partial gaussNumerics_exact (by norm_num) (by decide +kernel)
    (by unfold NonnegE; decide +kernel) (by norm_num) _ _ (by decide +kernel)]
  exact ⟨[{{0, 1, 2, 3, 4, 5}}, {{0, 1, 2}, {3, 4, 5}}, {{0}, {1}, {2}, {3, 4, 5}}, {{0}, {1}, {2}, {3}, {4, 5}},
    {{0}, {1}, {2}, {3}, {4}, {5}}], by decide +kernel⟩

example : ∃ eps tol : ℚ, ∃ fuel ps cv, 0 < tol ∧
    aggRun (mnbOfL codeFactor gaussNumerics tol eps fuel) ⟨List.range 4, exArcs⟩ tol = .ok (ps, cv) ∧
    IsPrincipalSequence exArcs (Finset.range 4) ps cv := by
  obtain ⟨e, t0, K, he, ht0, h⟩ := C76_agg_psp_four gaussNumerics_exact (n := 4) (E := exArcs) (by norm_num) le_rfl
    (by decide +kernel) exArcs_valid.nonneg
  obtain ⟨ps, cv, h1, h2⟩ := h e t0 K he le_rfl ht0 le_rfl le_rfl
  exact ⟨e, t0, K, ps, cv, ht0, h1, h2⟩

end PSP.Props
