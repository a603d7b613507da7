import Verif.Props.RoundedRun
import Verif.Props.PDTApprox
import Verif.Theory.AggApprox
import Verif.Model.RoundedFunctors

/-!
# Properties: the result of `agg_psp` for any weights (C87)
-/

namespace PSP.Props

open PSP.Model PSP.Spec PSP.Theory

/-- The bound for the error of the partitions: `δ` bounds the error of the points of `min_norm_base`, `tol` is how far
coordinates may be apart that are taken as equal. -/
def aggRunError (n : ℕ) (tol δ : ℚ) : ℚ := n ^ 3 * (tol + 2 * δ) + (4 * n ^ 2 + n) * δ

theorem runError_eq (n : ℕ) (tol δ : ℚ) : runError n tol δ = aggRunError n tol δ := by
  unfold runError roundError aggRunError
  ring

theorem abs_le_of_sum_sq {j i : ℕ} {d : ℕ → ℚ} {B δ : ℚ} (hδ : 0 ≤ δ) (h : ∑ i ∈ Finset.range j, d i ^ 2 ≤ B)
    (hB : B ≤ δ ^ 2) (hi : i < j) : |d i| ≤ δ := by
  have h1 : d i ^ 2 ≤ ∑ i ∈ Finset.range j, d i ^ 2 :=
    Finset.single_le_sum (f := fun i => d i ^ 2) (fun _ _ => sq_nonneg _) (Finset.mem_range.2 hi)
  exact abs_le_of_sq_le_sq (h1.trans (h.trans hB)) hδ

/-- `AIC` in floating-point arithmetic with any functor whose values are nearly precise. -/
theorem aicRunF_near {p m : ℕ} {fl : ℚ → ℚ} (hfl : FloatingPoint p fl) {f : SF} (hn : 0 < f.size) {φ : Finset ℕ → ℚ}
    {W : ℚ} (hf : NearFunctor fl f φ f.size m (2 ^ p)⁻¹ W) (hh : Intersecting (Finset.range f.size) φ) {N : Numerics}
    (hN : PlainNumerics N) {K : ℚ} (hK : FormatSolver fl N K) (hKp : 4 * (f.size + 1) * K ≤ 4 ^ p)
    (hc : aggError p m f.size ≤ 1 / 64) {tol eps δ : ℚ} (hWp : 4 / 2 ^ p ≤ W)
    (heps : 4 / 2 ^ p ≤ eps) (htol : 4 / 2 ^ p ≤ tol) (htol1 : tol ≤ 1) (hr : 256 * f.size * W ^ 2 ≤ 4 ^ p) (hδ : 0 ≤ δ)
    (hδ2 : (1 + 8 * aggError p m f.size) * tol + 90 * f.size * aggError p m f.size * W ^ 2 ≤ δ ^ 2)
    (ht : W + δ + tol ≤ 2 ^ p * tol) {fuel : ℕ}
    (hcert : ∀ h L, Reached (agglomerateF fl (mnbOfF fl (N.seqF fl) tol eps fuel) f tol) (HC.new f.size) h →
      h.getPartition ⊥ = .ok L → AllCertified fl (N.seqF fl) f tol eps fuel L) :
    (∀ k, aggLoopF fl (mnbOfF fl (N.seqF fl) tol eps fuel) f tol k (HC.new f.size)
      [singletons (Finset.range f.size)] [] = .fuel) ∨
    ∃ ps cv, aicRunF fl (mnbOfF fl (N.seqF fl) tol eps fuel) f tol = .ok (ps, cv) ∧
      IsApproximateSequenceSF φ (Finset.range f.size) (aggRunError f.size (2 * tol) δ) ps cv := by
  have h2 : (0 : ℚ) < 2 ^ p := by positivity
  have ht0 : 0 < tol := lt_of_lt_of_le (by positivity) htol
  obtain ⟨hcl, hW8⟩ := close_all hfl hN hK hKp hc hn hWp heps htol hr
  have hwithin : WithinError (mnbOfF fl (N.seqF fl) tol eps fuel) (sfContractF fl f) (fun g => fl (-g + tol)) φ f.size (2 * tol) δ
      (AllCertified fl (N.seqF fl) f tol eps fuel) := by
    refine ⟨fun L rel j hD hL hj1 hj => ?_, fun L rel j y i g hL hi hj hy hg => ?_⟩
    · obtain ⟨x, hx, hne⟩ := hD j hj1 hj
      obtain ⟨y, hy⟩ := exists_minNorm ((clustering_blocks hL).joinFn_submodular hh hj)
      obtain ⟨h3, h4⟩ := functor_call_close (FloatingPoint.sums hfl) hf hh hL hW8 hcl
        (by rw [aggError, div_eq_mul_inv]) hc ht0.le hj1 hj hx hne hy
      exact ⟨x, y, bind_fst_ok hx, h3, hy, fun i hi => abs_le_of_sum_sq (d := fun i => x.getD i 0 - y i) hδ h4 hδ2 hi⟩
    · have hy' : |y i| ≤ W := inBase_bound hy.1
        (functor_joinFn_range hf (clustering_blocks hL) hj) hi
      have hx : |-g + tol| ≤ W + δ + tol := by
        rw [abs_le] at hg hy' ⊢
        constructor <;> linarith [hg.1, hg.2, hy'.1, hy'.2]
      have hu : (2 ^ p : ℚ)⁻¹ * (W + δ + tol) ≤ tol := by
        rw [inv_mul_le_iff₀ h2]
        exact ht
      have h1p : (1 : ℚ) ≤ 2 ^ p := one_le_pow₀ (by norm_num)
      have h4 : 4 * (2 ^ p : ℚ)⁻¹ ≤ W := by rwa [← div_eq_mul_inv]
      have h5 : (0 : ℚ) < (2 ^ p)⁻¹ := by positivity
      have hr := (FloatingPoint.rounds hfl).rel' (-g + tol) (by
        have h3 : (2 ^ p : ℚ)⁻¹ * |-g + tol| ≤ (2 ^ p)⁻¹ * (W + δ + tol) := mul_le_mul_of_nonneg_left hx h5.le
        linarith)
      have hmax : max |-g + tol| (2 ^ p : ℚ)⁻¹ ≤ W + δ + tol := max_le hx (by linarith)
      have hr2 := abs_le.1 (hr.trans ((mul_le_mul_of_nonneg_left hmax h5.le).trans hu))
      constructor <;> linarith [hr2.1, hr2.2]
  obtain ⟨L, hL1, -, hL2⟩ := new_coarsest hn
  have hrun := runWith_near hn hh hδ (by linarith) hwithin (fun hc hr L hL => hcert hc L hr hL) (f.size + 1)
  rw [← aggLoopF_with] at hrun
  rcases (C78_ends_or_never fl (mnbOfF fl (N.seqF fl) tol eps fuel) f tol f.size [singletons (Finset.range f.size)] []).2 with h3 |
    ⟨o, h3, h4⟩
  · exact .inl h3
  · right
    rcases hrun with h5 | ⟨ps, cv, h5, h6⟩
    · rw [h4 _ (by omega)] at h5
      exact absurd h5 h3
    · refine ⟨ps, cv, ?_, runError_eq f.size _ _ ▸ h6⟩
      unfold aicRunF
      dsimp only
      rw [hL1]
      simp only [Outcome.ok_bind, hL2]
      exact h5

/-- `agg_psp` in floating-point arithmetic with `p` digits, for any weights and any linear solver that returns numbers of
the format below a limit `K`. If in all states that are reached all calls of `min_norm_base` end by the test of optimality,
none with the origin, then there are two possibilities: `run` goes on for ever (this happens, C78), or it returns a sequence
of partitions from the coarsest to the finest whose critical values are not decreasing, and every partition is, for all
parameters between its critical values, within `aggRunError` of the least cost. The error `δ` is about the root of the
tolerance; for `double` the constants of the code are `tol = 10⁻⁶` and `eps = 10⁻¹⁵`. Not covered: runs where a call ended
otherwise; and that `run` ends. -/
theorem C87_run_partial {p n : ℕ} {fl : ℚ → ℚ} (hfl : FloatingPoint p fl) {ai ao : List Arc → List Arc}
    (hai : ∀ l, (ai l).Perm l) (hao : ∀ l, (ao l).Perm l) (hn : 0 < n) {E : List Arc}
    (hE : ∀ a ∈ E, a.src < a.dst ∧ a.dst < n) (h0 : NonnegE E) (hfix : ∀ a ∈ E, fl a.cap = a.cap) {N : Numerics}
    (hN : PlainNumerics N) {K : ℚ} (hK : FormatSolver fl N K) (hKp : 4 * (n + 1) * K ≤ 4 ^ p)
    (hc : aggError p E.length n ≤ 1 / 64) {W tol eps δ : ℚ} (hW : (E.map Arc.cap).sum ≤ W) (hWp : 4 / 2 ^ p ≤ W)
    (heps : 4 / 2 ^ p ≤ eps) (htol : 4 / 2 ^ p ≤ tol) (htol1 : tol ≤ 1) (hr : 256 * n * W ^ 2 ≤ 4 ^ p) (hδ : 0 ≤ δ)
    (hδ2 : (1 + 8 * aggError p E.length n) * tol + 90 * n * aggError p E.length n * W ^ 2 ≤ δ ^ 2)
    (ht : W + δ + tol ≤ 2 ^ p * tol) {fuel : ℕ}
    (hcert : ∀ h L, Reached (agglomerateF fl (mnbOfF fl (N.seqF fl) tol eps fuel)
        (digraphEntropyF fl ai ao ⟨List.range n, E⟩) tol) (HC.new n) h → h.getPartition ⊥ = .ok L →
      AllCertified fl (N.seqF fl) (digraphEntropyF fl ai ao ⟨List.range n, E⟩) tol eps fuel L) :
    (∀ k, aggLoopF fl (mnbOfF fl (N.seqF fl) tol eps fuel) (digraphEntropyF fl ai ao ⟨List.range n, E⟩) tol k (HC.new n)
      [singletons (Finset.range n)] [] = .fuel) ∨
    ∃ ps cv, aggRunF fl ai ao (mnbOfF fl (N.seqF fl) tol eps fuel) ⟨List.range n, E⟩ tol = .ok (ps, cv) ∧
      IsApproximateSequence E (Finset.range n) (aggRunError n (2 * tol) δ) ps cv := by
  have h2 : (0 : ℚ) < 2 ^ p := by positivity
  have hs : (digraphEntropyF fl ai ao ⟨List.range n, E⟩).size = n := by simp [digraphEntropyF, Digraph.countNodes]
  have hW8 := (close_all hfl hN hK hKp hc hn hWp heps htol hr).2
  have hW0 : 0 ≤ W := ((incident_nonneg h0 ∅).trans (incident_le h0 ∅)).trans hW
  have hf := digraph_nearFunctor (FloatingPoint.sums hfl) hai hao (n := n) (fun a ha => (hE a ha).1) h0 hfix hW
    (by linarith) (by
      unfold aggError at hc
      rw [div_eq_mul_inv] at hc
      have : (0 : ℚ) ≤ (n : ℚ) * (2 ^ p)⁻¹ := by positivity
      have : (0 : ℚ) < (2 ^ p)⁻¹ := by positivity
      nlinarith)
  have h := aicRunF_near hfl (f := digraphEntropyF fl ai ao ⟨List.range n, E⟩) (m := E.length) (tol := tol) (eps := eps)
    (δ := δ) (fuel := fuel) (by rw [hs]; exact hn) (by rw [hs]; exact hf) (incident_intersecting h0 _) hN hK
    (by rw [hs]; exact hKp) (by rw [hs]; exact hc) hWp heps htol htol1 (by rw [hs]; exact hr) hδ (by rw [hs]; exact hδ2) ht
    (by rw [hs]; exact hcert)
  rw [hs] at h
  rcases h with h | ⟨ps, cv, h3, h4⟩
  · exact .inl h
  · refine .inr ⟨ps, cv, h3, approx_of_incident (fun e he => ?_) h4⟩
    have := hE e he
    constructor <;> rw [Finset.mem_range] <;> omega

/-- `AIC` on any functor that represents a set function which is submodular on intersecting sets: without rounding, with an
exact solver and a precision `eps` below `1 / n`. -/
theorem aggRunSF_near {f : SF} {φ : Finset ℕ → ℚ} (hf : Represents f φ) (hn : 0 < f.size)
    (hh : Intersecting (Finset.range f.size) φ)
    {N : Numerics} (hN : ∀ j, ExactNumerics N j) {tol eps δ : ℚ} {fuel : ℕ} (heps : 0 < eps) (hsmall : f.size * eps < 1)
    (htol : 0 < tol) (hδ : 0 ≤ δ) (hδ2 : tol ≤ δ ^ 2)
    (hcert : ∀ h L, Reached (agglomerate (mnbOfL codeFactor N tol eps fuel) f tol) (HC.new f.size) h →
      h.getPartition ⊥ = .ok L → ∀ j, 1 ≤ j → j < L.length →
      ∃ x, minNormBaseL codeFactor N (sfJoin (sfContract f L) j) tol eps fuel = .ok (x, true)) :
    (∀ k, aggLoop (mnbOfL codeFactor N tol eps fuel) f tol k (HC.new f.size) [singletons (Finset.range f.size)] [] =
      .fuel) ∨
    ∃ ps cv, aggRunSF (mnbOfL codeFactor N tol eps fuel) f tol = .ok (ps, cv) ∧
      IsApproximateSequenceSF φ (Finset.range f.size) (aggRunError f.size tol δ) ps cv := by
  have hwithin : WithinError (mnbOfL codeFactor N tol eps fuel) (sfContract f) (fun g => -g + tol) φ f.size tol δ
      (fun L => ∀ j, 1 ≤ j → j < L.length → ∃ x, minNormBaseL codeFactor N (sfJoin (sfContract f L) j) tol eps fuel =
        .ok (x, true)) := by
    refine ⟨fun L rel j hD hL hj1 hj => ?_, fun L rel j y i g hL hi hj hy hg => ⟨by linarith, le_rfl⟩⟩
    obtain ⟨x, hx⟩ := hD j hj1 hj
    obtain ⟨y, hy⟩ := exists_minNorm ((clustering_blocks hL).joinFn_submodular hh hj)
    refine ⟨x, y, bind_fst_ok hx, ?_⟩
    obtain ⟨hF, hsub, hlen⟩ := join_computes (f := f) (h := φ) hf hh hL hj
    rcases Nat.lt_or_ge j 2 with hj3 | hj3
    · have hj' : j = 1 := by omega
      subst hj'
      have h4 : minNormBaseL codeFactor N (sfJoin (sfContract f L) 1) tol eps fuel =
          .ok ([(sfJoin (sfContract f L) 1).val [0]], true) := rfl
      rw [h4] at hx
      cases hx
      have h5 := hF [0] (by simp) (by simp [sfJoin])
      have h6 := hy.1.1
      rw [joinFn_empty, sub_zero] at h6
      refine ⟨rfl, hy, fun i hi => ?_⟩
      have hi0 : i = 0 := by omega
      subst hi0
      simp only [List.getD_cons_zero, Finset.range_one, List.toFinset_cons, List.toFinset_nil,
        insert_empty_eq, Finset.sum_singleton] at h5 h6 ⊢
      rw [h5, h6, sub_self, abs_zero]
      exact hδ
    · have hjn : (j : ℚ) ≤ f.size := by exact_mod_cast hj.le.trans hlen
      obtain ⟨h4, -, h5⟩ := C77_exact_solver_factor
        (f := sfJoin (sfContract f L) j) (hN _) hj3 hF hsub heps
        (lt_of_le_of_lt (mul_le_mul_of_nonneg_right hjn heps.le) hsmall) htol hx
      exact ⟨h4, hy, fun i hi => abs_le_of_sum_sq (d := fun i => x.getD i 0 - y i) hδ (h5 rfl y hy) hδ2 hi⟩
  obtain ⟨L, hL1, -, hL2⟩ := new_coarsest hn
  have hrun := runWith_near hn hh hδ htol.le hwithin (fun hc hr L hL => hcert hc L hr hL) (f.size + 1)
  rw [← aggLoop_with] at hrun
  rcases (C78_ends_or_never id (mnbOfL codeFactor N tol eps fuel) f tol f.size [singletons (Finset.range f.size)] []).1 with h3 |
    ⟨o, h3, h4⟩
  · exact .inl h3
  · right
    rcases hrun with h5 | ⟨ps, cv, h5, h6⟩
    · rw [h4 _ (by omega)] at h5
      exact absurd h5 h3
    · refine ⟨ps, cv, ?_, runError_eq f.size _ _ ▸ h6⟩
      unfold aggRunSF
      dsimp only
      rw [hL1]
      simp only [Outcome.ok_bind, hL2]
      exact h5

/-- Without rounding, with an exact solver and a precision `eps` below `1 / n`. -/
theorem C87_exact_partial {n : ℕ} (hn : 0 < n) {E : List Arc} (hE : ∀ a ∈ E, a.src < a.dst ∧ a.dst < n) (h0 : NonnegE E)
    {N : Numerics} (hN : ∀ j, ExactNumerics N j) {tol eps δ : ℚ} {fuel : ℕ} (heps : 0 < eps) (hsmall : n * eps < 1)
    (htol : 0 < tol) (hδ : 0 ≤ δ) (hδ2 : tol ≤ δ ^ 2)
    (hcert : ∀ h L, Reached (agglomerate (mnbOfL codeFactor N tol eps fuel) (digraphEntropy ⟨List.range n, E⟩) tol)
        (HC.new n) h → h.getPartition ⊥ = .ok L → ∀ j, 1 ≤ j → j < L.length → ∃ x, minNormBaseL codeFactor N
      (sfJoin (sfContract (digraphEntropy ⟨List.range n, E⟩) L) j) tol eps fuel = .ok (x, true)) :
    (∀ k, aggLoop (mnbOfL codeFactor N tol eps fuel) (digraphEntropy ⟨List.range n, E⟩) tol k (HC.new n)
      [singletons (Finset.range n)] [] = .fuel) ∨
    ∃ ps cv, aggRun (mnbOfL codeFactor N tol eps fuel) ⟨List.range n, E⟩ tol = .ok (ps, cv) ∧
      IsApproximateSequence E (Finset.range n) (aggRunError n tol δ) ps cv := by
  have hs : (digraphEntropy ⟨List.range n, E⟩).size = n := digraph_size n E
  have h := aggRunSF_near (f := digraphEntropy ⟨List.range n, E⟩) (represents_digraph hE) (by rw [hs]; exact hn)
    (incident_intersecting h0 _) hN heps (by rw [hs]; exact hsmall) htol hδ hδ2 (fuel := fuel) (by rw [hs]; exact hcert)
  rw [hs] at h
  rcases h with h | ⟨ps, cv, h1, h2⟩
  · exact .inl h
  · refine .inr ⟨ps, cv, h1, approx_of_incident (fun e he => ?_) h2⟩
    have := hE e he
    constructor <;> rw [Finset.mem_range] <;> omega

theorem aggRun_never {n : ℕ} (hn : 0 < n) {E : List Arc} {mnb : SF → Outcome (List ℚ)} {tol : ℚ}
    (h : ∀ k, aggLoop mnb (digraphEntropy ⟨List.range n, E⟩) tol k (HC.new n) [singletons (Finset.range n)] [] = .fuel) :
    aggRun mnb ⟨List.range n, E⟩ tol = .fuel := by
  obtain ⟨L, hL1, -, hL2⟩ := new_coarsest hn
  unfold aggRun aggRunSF
  dsimp only
  rw [digraph_size n E, hL1]
  simp only [Outcome.ok_bind, hL2]
  exact h _

theorem aggRunF_never {n : ℕ} (hn : 0 < n) {E : List Arc} {fl : ℚ → ℚ} {ai ao : List Arc → List Arc}
    {mnb : SF → Outcome (List ℚ)} {tol : ℚ}
    (h : ∀ k, aggLoopF fl mnb (digraphEntropyF fl ai ao ⟨List.range n, E⟩) tol k (HC.new n)
      [singletons (Finset.range n)] [] = .fuel) :
    aggRunF fl ai ao mnb ⟨List.range n, E⟩ tol = .fuel := by
  obtain ⟨L, hL1, -, hL2⟩ := new_coarsest hn
  unfold aggRunF
  dsimp only
  rw [show Digraph.countNodes ⟨List.range n, E⟩ = n by simp [Digraph.countNodes], hL1]
  simp only [Outcome.ok_bind, hL2]
  exact h _

/-! ### A run -/

section example_run

/-- Weights 1/3, 2/7, 1/10, 1/3 in double precision. -/
def anyArcs : List Arc := fractionArcs.map fun a => { a with cap := roundDouble a.cap }

theorem anyArcs_valid : ValidInput 4 anyArcs := by decide +kernel

def anyFn : SF := digraphEntropyF roundDouble id id ⟨List.range 4, anyArcs⟩

/-- `agglomerate` with `double`. -/
def anyStep : HC → Outcome (HC × Bool) :=
  agglomerateF roundDouble (mnbOfF roundDouble (gaussDouble.seqF roundDouble) runTol runEps 50) anyFn runTol

def stepNext (step : HC → Outcome (HC × Bool)) (h : HC) : HC := match step h with | .ok (h', _) => h' | _ => h

def stepMoves (step : HC → Outcome (HC × Bool)) (h : HC) (b : Bool) : Bool :=
  match step h with | .ok (_, b') => b' == b | _ => false

theorem step_of_stepMoves {step : HC → Outcome (HC × Bool)} {h : HC} {b : Bool} (hm : stepMoves step h b = true) :
    step h = .ok (stepNext step h, b) := by
  unfold stepMoves at hm
  unfold stepNext
  cases hs : step h with
  | ok p =>
    rw [hs] at hm
    obtain ⟨h', b'⟩ := p
    have : b' = b := by simpa using hm
    rw [this]
  | _ => rw [hs] at hm; simp at hm

/-- The reached states. -/
theorem any_states {h : HC} {L : List (List ℕ)} (hr : Reached anyStep (HC.new 4) h) (hL : h.getPartition ⊥ = .ok L) :
    L = [[0], [1], [2], [3]] ∨ L = [[0, 2, 1], [3]] ∨ L = [[0, 2, 1, 3]] := by
  rcases reached_cases hr with rfl | ⟨h1, k1, hr⟩
  · rw [show (HC.new 4).getPartition ⊥ = .ok [[0], [1], [2], [3]] by decide +kernel] at hL
    cases hL; exact .inl rfl
  rw [step_of_stepMoves (step := anyStep) (h := HC.new 4) (b := true) (by decide +kernel)] at k1
  cases k1
  rcases reached_cases hr with rfl | ⟨h1, k1, hr⟩
  · rw [show (stepNext anyStep (HC.new 4)).getPartition ⊥ = .ok [[0, 2, 1], [3]] by decide +kernel] at hL
    cases hL; exact .inr (.inl rfl)
  rw [step_of_stepMoves (step := anyStep) (h := stepNext anyStep (HC.new 4)) (b := true) (by decide +kernel)] at k1
  cases k1
  rcases reached_cases hr with rfl | ⟨h1, k1, hr⟩
  · rw [show (stepNext anyStep (stepNext anyStep (HC.new 4))).getPartition ⊥ = .ok [[0, 2, 1, 3]] by decide +kernel] at hL
    cases hL; exact .inr (.inr rfl)
  rw [step_of_stepMoves (step := anyStep) (h := stepNext anyStep (stepNext anyStep (HC.new 4))) (b := false) (by decide +kernel)] at k1
  cases k1

/-- One call, if it has a certificate. -/
def certifiedPoint (f : SF) (L : List (List ℕ)) (j : ℕ) : Option (List ℚ) :=
  match minNormBaseF roundDouble (gaussDouble.seqF roundDouble) (sfJoin (sfContractF roundDouble f L) j) runTol runEps 50 with
  | .ok (x, true) => if x = List.replicate j 0 then none else some x
  | _ => none

theorem certified_of_point {f : SF} {L : List (List ℕ)} {j : ℕ} (h : (certifiedPoint f L j).isSome = true) :
    ∃ x, minNormBaseF roundDouble (gaussDouble.seqF roundDouble) (sfJoin (sfContractF roundDouble f L) j) runTol runEps 50 =
      .ok (x, true) ∧ (2 ≤ j → x ≠ List.replicate j 0) := by
  unfold certifiedPoint at h
  split at h
  · rename_i x hx
    split at h
    · simp at h
    · rename_i hne
      exact ⟨x, hx, fun _ => hne⟩
  · simp at h

theorem any_certified {L : List (List ℕ)} (hL : L = [[0], [1], [2], [3]] ∨ L = [[0, 2, 1], [3]] ∨ L = [[0, 2, 1, 3]]) :
    AllCertified roundDouble (gaussDouble.seqF roundDouble) anyFn runTol runEps 50 L := by
  intro j h1 hj
  rcases hL with rfl | rfl | rfl <;> simp only [List.length_cons, List.length_nil] at hj
  · rcases Nat.lt_or_ge j 2 with h2 | h2
    · have : j = 1 := by omega
      subst this
      exact ⟨_, minNormBaseF_single rfl, fun h => by omega⟩
    · interval_cases j
      · exact certified_of_point (by decide +kernel)
      · exact certified_of_point (by decide +kernel)
  · have : j = 1 := by omega
    subst this
    exact ⟨_, minNormBaseF_single rfl, fun h => by omega⟩
  · omega

/-- A run of `agg_psp` with `double` and the tolerances of the code that meets the assumptions of `C87_run_partial`: it ends,
and its partitions are the ones of the principal sequence of these weights. -/
theorem any_run : ∃ ps cv, aggRunF roundDouble id id (mnbOfF roundDouble (gaussDouble.seqF roundDouble) runTol runEps 50)
      ⟨List.range 4, anyArcs⟩ runTol = .ok (ps, cv) ∧ ps = [{{0, 1, 2, 3}}, {{0, 1, 2}, {3}}, {{0}, {1}, {2}, {3}}] ∧
      IsApproximateSequence anyArcs (Finset.range 4) (1 / 4) ps cv := by
  have hok : ((aggRunF roundDouble id id (mnbOfF roundDouble (gaussDouble.seqF roundDouble) runTol runEps 50)
      ⟨List.range 4, anyArcs⟩ runTol) >>= fun r => pure r.1) =
      .ok [{{0, 1, 2, 3}}, {{0, 1, 2}, {3}}, {{0}, {1}, {2}, {3}}] := by decide +kernel
  rcases C87_run_partial (N := gaussDouble) (fl := roundDouble) (p := 53) (n := 4) (ai := id)
    (ao := id) (E := anyArcs) (tol := runTol) (eps := runEps) (δ := 1 / 999) (fuel := 50) (K := 2 ^ 90)
    (W := 2) roundDouble_spec (fun _ => .refl _) (fun _ => .refl _) (by norm_num) anyArcs_valid.lowHigh
    anyArcs_valid.nonneg (by decide +kernel) gaussDouble_plain gaussDouble_format (by norm_num) (by decide +kernel)
    (by decide +kernel) (by norm_num) (by decide +kernel) (by decide +kernel) (by decide +kernel) (by norm_num) (by norm_num)
    (by decide +kernel) (by decide +kernel) (fun h L hr hL => any_certified (any_states hr hL)) with h | ⟨ps, cv, h1, h2⟩
  · exfalso
    rw [aggRunF_never (by norm_num) h] at hok
    cases hok
  · rw [h1] at hok
    refine ⟨ps, cv, h1, by cases hok; rfl, ?_⟩
    refine ⟨h2.length, h2.first, h2.last, h2.refine, h2.nondecreasing, fun i P lam a b c => ?_⟩
    exact near_mono (h2.optimal i P lam a b c) (by decide +kernel)

/-- The same without rounding. -/
def exactStep : HC → Outcome (HC × Bool) :=
  agglomerate (mnbOfL scaledFactor gaussNumerics (1 / 10 ^ 6) (1 / 10 ^ 15) 50) (digraphEntropy ⟨List.range 4, fractionArcs⟩) (1 / 10 ^ 6)

theorem exact_states {h : HC} {L : List (List ℕ)} (hr : Reached exactStep (HC.new 4) h) (hL : h.getPartition ⊥ = .ok L) :
    L = [[0], [1], [2], [3]] ∨ L = [[0, 2, 1], [3]] ∨ L = [[0, 2, 1, 3]] := by
  rcases reached_cases hr with rfl | ⟨h1, k1, hr⟩
  · rw [show (HC.new 4).getPartition ⊥ = .ok [[0], [1], [2], [3]] by decide +kernel] at hL
    cases hL; exact .inl rfl
  rw [step_of_stepMoves (step := exactStep) (h := HC.new 4) (b := true) (by decide +kernel)] at k1
  cases k1
  rcases reached_cases hr with rfl | ⟨h1, k1, hr⟩
  · rw [show (stepNext exactStep (HC.new 4)).getPartition ⊥ = .ok [[0, 2, 1], [3]] by decide +kernel] at hL
    cases hL; exact .inr (.inl rfl)
  rw [step_of_stepMoves (step := exactStep) (h := stepNext exactStep (HC.new 4)) (b := true) (by decide +kernel)] at k1
  cases k1
  rcases reached_cases hr with rfl | ⟨h1, k1, hr⟩
  · rw [show (stepNext exactStep (stepNext exactStep (HC.new 4))).getPartition ⊥ = .ok [[0, 2, 1, 3]] by decide +kernel] at hL
    cases hL; exact .inr (.inr rfl)
  rw [step_of_stepMoves (step := exactStep) (h := stepNext exactStep (stepNext exactStep (HC.new 4))) (b := false) (by decide +kernel)] at k1
  cases k1

theorem ok_certified {o : Outcome (List ℚ × Bool)} (h : (o >>= fun r => pure r.2) = .ok true) : ∃ x, o = .ok (x, true) := by
  cases o with
  | ok r =>
    obtain ⟨x, b⟩ := r
    cases h
    exact ⟨x, rfl⟩
  | _ => cases h

/-- The assumptions of `C87_exact_partial` on a graph. -/
theorem exact_run : aggRun (mnbOfL codeFactor gaussNumerics (1 / 10 ^ 6) (1 / 10 ^ 15) 50) ⟨List.range 4, fractionArcs⟩
      (1 / 10 ^ 6) = .ok ([{{0, 1, 2, 3}}, {{0, 1, 2}, {3}}, {{0}, {1}, {2}, {3}}], [1 / 3, 151 / 420]) ∧
    IsApproximateSequence fractionArcs (Finset.range 4) (1 / 4)
      [{{0, 1, 2, 3}}, {{0, 1, 2}, {3}}, {{0}, {1}, {2}, {3}}] [1 / 3, 151 / 420] := by
  have hok : aggRun (mnbOfL codeFactor gaussNumerics (1 / 10 ^ 6) (1 / 10 ^ 15) 50) ⟨List.range 4, fractionArcs⟩
      (1 / 10 ^ 6) = .ok ([{{0, 1, 2, 3}}, {{0, 1, 2}, {3}}, {{0}, {1}, {2}, {3}}], [1 / 3, 151 / 420]) := by
    rw [mnbOfL_sim codeFactor_sim]
    decide +kernel
  refine ⟨hok, ?_⟩
  have hv : ValidInput 4 fractionArcs := by decide +kernel
  rcases C87_exact_partial (N := gaussNumerics) (n := 4) (E := fractionArcs) (tol := 1 / 10 ^ 6) (eps := 1 / 10 ^ 15)
    (δ := 1 / 1000) (fuel := 50) (by norm_num) hv.lowHigh hv.nonneg gaussNumerics_exact (by norm_num)
    (by norm_num) (by norm_num) (by norm_num) (by norm_num) (by
      intro h L hr hL j h1 hj
      rw [mnbOfL_sim codeFactor_sim] at hr
      rw [minNormBaseL_sim codeFactor_sim]
      rcases exact_states hr hL with rfl | rfl | rfl <;> simp only [List.length_cons, List.length_nil] at hj <;>
        interval_cases j <;> exact ok_certified (by decide +kernel)) with h | ⟨ps, cv, h1, h2⟩
  · exfalso
    rw [aggRun_never (by norm_num) h] at hok
    cases hok
  · rw [h1] at hok
    cases hok
    refine ⟨h2.length, h2.first, h2.last, h2.refine, h2.nondecreasing, fun i P lam a b c => ?_⟩
    exact near_mono (h2.optimal i P lam a b c) (by decide +kernel)

end example_run

end PSP.Props
