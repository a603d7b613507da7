import Verif.Props.RoundedAIC
import Verif.Theory.PreciseSolver

/-!
# Properties: all partitions of `agg_psp` in floating-point arithmetic (C86)
-/

namespace PSP.Props

open PSP.Model PSP.Spec PSP.Theory

/-- How far the coordinates of the points of `min_norm_base` can be from the exact ones: `κ` is the error of the linear
solver, `W` a bound for the total weight. -/
def pointError (p n : ℕ) (κ W : ℚ) : ℚ := (3 * κ + 32 * (n + 1) / 2 ^ p) * W

/-- `agg_psp` in floating-point arithmetic with `p` digits, for weights that are integers. The linear solver is within a
relative error `κ`; the tolerance is above the errors of rounding, and below the distance `e` from the minimum norm bases to
the projections for other corrals (`C86_gap`: there is such a distance for every graph). If all calls of `min_norm_base`
ended by the test of optimality, none with the origin, the partitions are exactly those of the principal sequence, and the
critical values are as precise as the solver. Not covered: weights that are no integers, runs where a call ended otherwise
(C78), and that a solver has an error `κ`. -/
theorem C86_run_partial {p n : ℕ} {fl : ℚ → ℚ} (hfl : FloatingPoint p fl) {ai ao : List Arc → List Arc}
    (hai : ∀ l, (ai l).Perm l) (hao : ∀ l, (ao l).Perm l) (hn : 0 < n) {E : List Arc}
    (hE : ∀ a ∈ E, a.src < a.dst ∧ a.dst < n) (h0 : NonnegE E) (hint : ∀ a ∈ E, ∃ k : ℤ, a.cap = k) {N : Numerics}
    (hN : PlainNumerics N) {K : ℚ} (hK : FormatSolver fl N K) (hKp : 4 * (n + 1) * K ≤ 4 ^ p)
    (hc : aggError p E.length n ≤ 1 / 64) {W tol eps κ e : ℚ} (hW1 : 1 ≤ W) (hW : (E.map Arc.cap).sum ≤ W)
    (heps : 4 / 2 ^ p ≤ eps) (hs : ∀ j ≤ n, SolvesClosely N.solve κ W j) (hκ0 : 0 ≤ κ) (hκ : κ ≤ 1 / 8)
    (ht : 4 * pointError p n κ W ≤ tol) (ht2 : 90 * n * aggError p E.length n * W ^ 2 ≤ tol)
    (htn : 4 * tol * n ^ 2 ≤ 1) (hte : 6 * tol ≤ e) {fuel : ℕ}
    (hcert : ∀ h L, Reached (agglomerateF fl (mnbOfF fl (N.seqF fl) tol eps fuel)
        (digraphEntropyF fl ai ao ⟨List.range n, E⟩) tol) (HC.new n) h → h.getPartition ⊥ = .ok L →
      CorralGap E L e ∧ AllCertified fl (N.seqF fl) (digraphEntropyF fl ai ao ⟨List.range n, E⟩) tol eps fuel L) :
    ∃ ps cv cv', aggRunF fl ai ao (mnbOfF fl (N.seqF fl) tol eps fuel) ⟨List.range n, E⟩ tol = .ok (ps, cv') ∧
      IsPrincipalSequence E (Finset.range n) ps cv ∧
      List.Forall₂ (fun a b => |a - b| ≤ pointError p n κ W) cv' cv := by
  have h2 : (0 : ℚ) < 2 ^ p := by positivity
  have hm : (0 : ℚ) ≤ E.length := Nat.cast_nonneg _
  have hn1 : (1 : ℚ) ≤ n := by exact_mod_cast hn
  have hc' := hc
  unfold aggError at hc'
  rw [div_le_div_iff₀ h2 (by norm_num)] at hc'
  have h512 : (512 : ℚ) ≤ 2 ^ p := by linarith
  have h4 : (4 : ℚ) ^ p = 2 ^ p * 2 ^ p := by rw [← mul_pow]; norm_num
  have h5 : 512 * (2 : ℚ) ^ p ≤ 4 ^ p := by rw [h4]; exact mul_le_mul_of_nonneg_right h512 h2.le
  have ht0 : 0 ≤ tol := le_trans (by unfold aggError; positivity) ht2
  have ht1 : tol ≤ 1 := by
    have : tol * 1 ≤ tol * n ^ 2 := mul_le_mul_of_nonneg_left (one_le_pow₀ hn1) ht0
    linarith
  have hsq : W ≤ W ^ 2 := by nlinarith
  -- the weights are small
  have hcW : 1080 * (n * W ^ 2) ≤ 2 ^ p * tol := by
    have h6 : 12 ≤ 4 * ((E.length : ℚ) + n + 2) := by linarith
    have h7 : aggError p E.length n * 2 ^ p = 4 * ((E.length : ℚ) + n + 2) := by unfold aggError; field_simp
    have h8 := mul_le_mul_of_nonneg_left ht2 h2.le
    have h9 : 12 * (90 * (n * W ^ 2)) ≤ 4 * ((E.length : ℚ) + n + 2) * (90 * (n * W ^ 2)) :=
      mul_le_mul_of_nonneg_right h6 (by positivity)
    rw [← h7] at h9
    linarith
  have hnW : (n : ℚ) * W ^ 2 ≥ W ^ 2 := le_mul_of_one_le_left (sq_nonneg W) hn1
  have hpt : (2 : ℚ) ^ p * tol ≤ 2 ^ p * 1 := mul_le_mul_of_nonneg_left ht1 h2.le
  have h4W : 4 / 2 ^ p ≤ tol := by
    rw [div_le_iff₀ h2]
    nlinarith
  have hr : 256 * (n : ℚ) * W ^ 2 ≤ 4 ^ p := by nlinarith
  obtain ⟨hcl, hW8⟩ := close_all hfl hN hK hKp hc hn (by rw [div_le_iff₀ h2]; nlinarith) heps h4W hr
  have hK0 : ∀ j ≤ n, 4 * ((j : ℚ) + 1) * K ≤ 4 ^ p := by
    intro j hj
    have hjn : (j : ℚ) ≤ n := by exact_mod_cast hj
    have hj0 : (0 : ℚ) ≤ j := j.cast_nonneg
    rcases le_total 0 K with h0 | h0
    · exact (mul_le_mul_of_nonneg_right (by linarith) h0).trans hKp
    · exact (mul_nonpos_of_nonneg_of_nonpos (by positivity) h0).trans (by positivity)
  have hprec : ∀ j ≤ n, PreciseFor fl (N.seqF fl) eps (pointError p n κ W) W j := by
    intro j hj Q hQ hq hl hd hv v hp i hi
    have hjn : (j : ℚ) ≤ n := by exact_mod_cast hj
    have hj0 : (0 : ℚ) ≤ j := j.cast_nonneg
    have hcn := C77_sequential (n := j) hfl hN hK (hK0 j hj) (by linarith)
    refine (preciseFor_of_solver hcn (hs j hj) hκ hW1 (by linarith) ?_ (le_trans (by positivity) heps) Q hQ hq hl hd hv v
      hp i hi).trans ?_
    · have h6 : ((j : ℚ) + 1) * (1 / 2 ^ p) ≤ 1 := by
        rw [mul_one_div, div_le_one h2]
        linarith
      have h7 : (0 : ℚ) ≤ 4 * (j + 1) / 2 ^ p := by positivity
      calc _ = 4 * ((j : ℚ) + 1) / 2 ^ p * ((j + 1) * (1 / 2 ^ p)) := by ring
        _ ≤ _ := mul_le_of_le_one_right h7 h6
    · unfold pointError
      refine mul_le_mul_of_nonneg_right ?_ (by linarith)
      have : 8 * (4 * ((j : ℚ) + 1) / 2 ^ p) ≤ 32 * (n + 1) / 2 ^ p := by
        rw [← mul_div_assoc]
        exact div_le_div_of_nonneg_right (by linarith) h2.le
      linarith
  refine aggRunF_spec hfl hai hao hn hE h0 (fun a ha => ?_) hW1 hW (by nlinarith) hW8 hcl
    (by rw [aggError, div_eq_mul_inv]) hc (by unfold pointError; positivity) hprec ht ht2 htn hte hcert
  exact hint a ha

/-- For every graph there is a distance `e` as in `C86_run_partial`, for all states of `agg_psp`. -/
theorem C86_gap {E : List Arc} (h0 : NonnegE E) (n : ℕ) :
    ∃ e, 0 < e ∧ ∀ R L, IsClustering n R L → CorralGap E L e := exists_corralGap h0 n

/-- A solver that returns an exact solution, limited to `K` and rounded, has a relative error of a few units of the last
digit, if the total weight is not above about the square root of the largest integers. -/
theorem C86_rounded_solver {p n : ℕ} {fl : ℚ → ℚ} (hfl : FloatingPoint p fl) {K W : ℚ} (hK : 1 ≤ K)
    {solve : List (List ℚ) → List ℚ} (hW : (n + 1) * (1 + n * W ^ 2) ≤ 2 ^ p)
    (hs : ∀ Q : List (List ℚ), Q ≠ [] → (∀ q ∈ Q, q.length = n) →
      ∃ r, Solves n Q r ∧ solve Q = r.map fun a => fl (max (-K) (min K a))) :
    SolvesClosely solve (2 / 2 ^ p) W n := by
  have h2 : (0 : ℚ) < 2 ^ p := by positivity
  have h1 : (1 : ℚ) ≤ 2 ^ p := one_le_pow₀ (by norm_num)
  have := solvesClosely_of_rounded (FloatingPoint.rounds hfl) (v := (2 ^ p)⁻¹) (M := 2 ^ p) (W := W) (n := n) (solve := solve)
    (by positivity) ((inv_le_one_of_one_le₀ h1).trans h1) hK (by
      rw [mul_right_comm, ← div_eq_mul_inv, div_le_one h2]
      exact hW) hs
  rwa [← div_eq_mul_inv] at this

/-! ### A run -/

section example_run

def runTol : ℚ := roundDouble (1 / 10 ^ 6)
def runEps : ℚ := roundDouble (1 / 10 ^ 15)
def runFn : SF := digraphEntropyF roundDouble id id ⟨List.range 4, exArcs⟩

/-- `agglomerate` with `double`. -/
def runStep : HC → Outcome (HC × Bool) :=
  agglomerateF roundDouble (mnbOfF roundDouble (gaussDouble.seqF roundDouble) runTol runEps 50) runFn runTol

def nextState (h : HC) : HC := match runStep h with | .ok (h', _) => h' | _ => h

def moves (h : HC) (b : Bool) : Bool := match runStep h with | .ok (_, b') => b' == b | _ => false

theorem step_of_moves {h : HC} {b : Bool} (hm : moves h b = true) : runStep h = .ok (nextState h, b) := by
  unfold moves at hm
  unfold nextState
  cases hs : runStep h with
  | ok p =>
    rw [hs] at hm
    obtain ⟨h', b'⟩ := p
    have : b' = b := by simpa using hm
    rw [this]
  | _ => rw [hs] at hm; simp at hm

theorem reached_cases {step : HC → Outcome (HC × Bool)} {h0 h : HC} (hr : Reached step h0 h) :
    h = h0 ∨ ∃ h1, step h0 = .ok (h1, true) ∧ Reached step h1 h := by
  induction hr with
  | start => exact .inl rfl
  | next hr hs ih =>
    rcases ih with rfl | ⟨h1, k1, k2⟩
    · exact .inr ⟨_, hs, .start⟩
    · exact .inr ⟨h1, k1, .next k2 hs⟩

/-- Lists of length `k`. -/
def listsLen (G : List (List ℚ)) : ℕ → List (List (List ℚ))
  | 0 => [[]]
  | k + 1 => (listsLen G k).flatMap fun Q => G.map fun q => q :: Q

theorem mem_listsLen {G : List (List ℚ)} : ∀ {k : ℕ} {Q : List (List ℚ)}, Q.length = k → (∀ q ∈ Q, q ∈ G) →
    Q ∈ listsLen G k
  | 0, Q, hk, _ => by rw [List.length_eq_zero_iff.1 hk]; simp [listsLen]
  | k + 1, [], hk, _ => by simp at hk
  | k + 1, q :: Q, hk, hG => by
    refine List.mem_flatMap.2 ⟨Q, mem_listsLen (by simpa using hk) fun p hp => hG p (by simp [hp]), ?_⟩
    exact List.mem_map_of_mem (hG q (by simp))

/-- The projection, by elimination. -/
def projPoint (j : ℕ) (Q : List (List ℚ)) : List ℚ := combine j Q (normalised (gaussSolve Q))

theorem minNorm_eq {V : Finset ℕ} {φ : Finset ℕ → ℚ} {x y : ℕ → ℚ} (hx : IsMinNorm V φ x) (hy : IsMinNorm V φ y) :
    ∀ i ∈ V, x i = y i := by
  have h1 := hx.2 y hy.1
  have h2 := hy.2 x hx.1
  have h3 : ∑ i ∈ V, (x i - y i) ^ 2 = (Spec.inner V x x - Spec.inner V x y) + (Spec.inner V y y - Spec.inner V y x) := by
    unfold Spec.inner
    rw [← Finset.sum_sub_distrib, ← Finset.sum_sub_distrib, ← Finset.sum_add_distrib]
    exact Finset.sum_congr rfl fun i _ => by ring
  have h4 : ∑ i ∈ V, (x i - y i) ^ 2 = 0 := le_antisymm (by linarith) (Finset.sum_nonneg fun i _ => sq_nonneg _)
  intro i hi
  have h5 := (Finset.sum_eq_zero_iff_of_nonneg fun i _ => sq_nonneg _).1 h4 i hi
  exact sub_eq_zero.1 (pow_eq_zero_iff two_ne_zero |>.1 h5)

/-- What has to be checked for one function. -/
theorem gap_of_check {E : List Arc} {L : List (List ℕ)} {j : ℕ} {G : List (List ℚ)} {y0 : List ℚ} {e : ℚ}
    (hsub : Submodular (Finset.range j) (joinFn (incident E) (blockAt L) j)) (hy0 : y0.length = j)
    (hG : ∀ idx ∈ (List.range j).permutations', greedyPoint (pureSF j (joinFn (incident E) (blockAt L) j)) idx ∈ G)
    (hbase : ∑ i ∈ Finset.range j, y0.getD i 0 = joinFn (incident E) (blockAt L) j (Finset.range j))
    (hle : ∀ S ∈ (Finset.range j).powerset, ∑ i ∈ S, y0.getD i 0 ≤ joinFn (incident E) (blockAt L) j S)
    (hmin : ∀ q ∈ G, ∑ i ∈ Finset.range j, y0.getD i 0 * y0.getD i 0 ≤ ∑ i ∈ Finset.range j, y0.getD i 0 * q.getD i 0)
    (hgap : ∀ k ∈ List.range (j + 2), ∀ Q ∈ listsLen G k, k = 0 ∨ projPoint j Q = y0 ∨
      e < ∑ i ∈ Finset.range j, ((projPoint j Q).getD i 0 - y0.getD i 0) ^ 2) :
    ∀ Q v y, Q ≠ [] → (∀ q ∈ Q, q ∈ greedyPoints (pureSF j (joinFn (incident E) (blockAt L) j))) → Q.length ≤ j + 1 →
      Proj j Q v → IsMinNorm (Finset.range j) (joinFn (incident E) (blockAt L) j) y →
      ∑ i ∈ Finset.range j, ((combine j Q v).getD i 0 - y i) ^ 2 ≤ e → ∀ i < j, (combine j Q v).getD i 0 = y i := by
  intro Q v y hQ hQG hl hp hy hd i hi
  set φ := joinFn (incident E) (blockAt L) j with hφ
  have hcomp := pureSF_computes j φ
  have hin : InBase (Finset.range j) φ fun i => y0.getD i 0 := by
    refine ⟨?_, fun S hS => ?_⟩
    · rw [hbase, hφ, joinFn_empty, sub_zero]
    · rw [show φ ∅ = 0 from joinFn_empty j, sub_zero]
      exact hle S (Finset.mem_powerset.2 hS)
  have hgm : ∀ q ∈ greedyPoints (pureSF j φ), q ∈ G := fun q hq => by
    obtain ⟨idx, hidx, rfl⟩ := Finset.mem_image.1 hq
    rw [List.mem_toFinset, List.mem_permutations] at hidx
    exact hG idx (List.mem_permutations'.2 hidx)
  have hy0min : IsMinNorm (Finset.range j) φ fun i => y0.getD i 0 := by
    refine ⟨hin, fun z hz => ?_⟩
    have hs : AscendingIndexes y0 (sortIdx y0) := sortIdx_spec y0
    refine le_trans ?_ (greedy_min hcomp hsub (x := y0) hy0 hs hz)
    exact hmin _ (hgm _ (greedyPoint_mem (f := pureSF j φ) hy0 hs))
  have hyy : ∀ i < j, y i = y0.getD i 0 := fun i hi => minNorm_eq hy hy0min i (Finset.mem_range.2 hi)
  have hlen : ∀ q ∈ Q, q.length = j := fun q hq => (greedyPoints_spec hcomp hsub (hQG q hq)).1
  have hpr : ∀ i < j, (combine j Q v).getD i 0 = (projPoint j Q).getD i 0 := fun i hi =>
    hp.unique ((gaussSolve_spec hlen).proj hQ hlen) hlen hi
  have hsum : ∑ i ∈ Finset.range j, ((projPoint j Q).getD i 0 - y0.getD i 0) ^ 2 ≤ e := by
    refine le_trans (le_of_eq ?_) hd
    refine Finset.sum_congr rfl fun i hi => ?_
    rw [hpr i (Finset.mem_range.1 hi), hyy i (Finset.mem_range.1 hi)]
  rcases hgap Q.length (List.mem_range.2 (by omega)) Q (mem_listsLen rfl fun q hq => hgm q (hQG q hq)) with h | h | h
  · exact absurd (List.length_eq_zero_iff.1 h) hQ
  · rw [hpr i hi, h, hyy i hi]
  · linarith

/-- The reached states. -/
theorem run_states {h : HC} {L : List (List ℕ)} (hr : Reached runStep (HC.new 4) h) (hL : h.getPartition ⊥ = .ok L) :
    L ∈ [[[0], [1], [2], [3]], [[0, 1], [2], [3]], [[0, 1], [2, 3]], [[0, 1, 2, 3]]] := by
  rcases reached_cases hr with rfl | ⟨h1, k1, hr⟩
  · rw [show (HC.new 4).getPartition ⊥ = .ok [[0], [1], [2], [3]] by decide +kernel] at hL
    cases hL; decide
  rw [step_of_moves (h := HC.new 4) (b := true) (by decide +kernel)] at k1
  cases k1
  rcases reached_cases hr with rfl | ⟨h1, k1, hr⟩
  · rw [show (nextState (HC.new 4)).getPartition ⊥ = .ok [[0, 1], [2], [3]] by decide +kernel] at hL
    cases hL; decide
  rw [step_of_moves (h := nextState (HC.new 4)) (b := true) (by decide +kernel)] at k1
  cases k1
  rcases reached_cases hr with rfl | ⟨h1, k1, hr⟩
  · rw [show (nextState (nextState (HC.new 4))).getPartition ⊥ = .ok [[0, 1], [2, 3]] by decide +kernel] at hL
    cases hL; decide
  rw [step_of_moves (h := nextState (nextState (HC.new 4))) (b := true) (by decide +kernel)] at k1
  cases k1
  rcases reached_cases hr with rfl | ⟨h1, k1, hr⟩
  · rw [show (nextState (nextState (nextState (HC.new 4)))).getPartition ⊥ = .ok [[0, 1, 2, 3]] by decide +kernel] at hL
    cases hL; decide
  rw [step_of_moves (h := nextState (nextState (nextState (HC.new 4)))) (b := false) (by decide +kernel)] at k1
  cases k1

theorem run_gap {L : List (List ℕ)} (hL : L ∈ [[[0], [1], [2], [3]], [[0, 1], [2], [3]], [[0, 1], [2, 3]], [[0, 1, 2, 3]]]) :
    CorralGap exArcs L (1 / 1000) := by
  have h0 := exArcs_valid.nonneg
  intro j h2 hj
  have hsub : Submodular (Finset.range j) (joinFn (incident exArcs) (blockAt L) j) := by
    have hcl : ∀ L ∈ [[[0], [1], [2], [3]], [[0, 1], [2], [3]], [[0, 1], [2, 3]], [[0, 1, 2, 3]]],
        IsClustering 4 (fun u v => ∃ B ∈ L, u ∈ B ∧ v ∈ B) L := by
      intro L hL
      refine ⟨?_, ?_, ?_, fun u v _ _ => Iff.rfl⟩
      · revert hL; revert L; decide
      · revert hL; revert L; decide
      · intro v
        simp only [List.mem_cons, List.not_mem_nil, or_false] at hL
        rcases hL with rfl | rfl | rfl | rfl <;> simp <;> omega
    exact (clustering_blocks (hcl L hL)).joinFn_submodular (incident_intersecting h0 _) hj
  simp only [List.mem_cons, List.not_mem_nil, or_false] at hL
  rcases hL with rfl | rfl | rfl | rfl <;> simp only [List.length_cons, List.length_nil] at hj <;> interval_cases j
  · exact gap_of_check (G := [[0, -6], [-5, -1]]) (y0 := [-3, -3]) hsub rfl (by decide +kernel) (by decide +kernel)
      (by decide +kernel) (by decide +kernel) (by decide +kernel)
  · exact gap_of_check (G := [[-2, -5, -5], [-7, 0, -5], [-7, -1, -4], [-2, -6, -4]]) (y0 := [-4, -4, -4]) hsub rfl
      (by decide +kernel) (by decide +kernel) (by decide +kernel) (by decide +kernel) (by decide +kernel)
  · exact gap_of_check (G := [[-2, -5], [-3, -4]]) (y0 := [-3, -4]) hsub rfl (by decide +kernel) (by decide +kernel)
      (by decide +kernel) (by decide +kernel) (by decide +kernel)

theorem run_certified {L : List (List ℕ)}
    (hL : L ∈ [[[0], [1], [2], [3]], [[0, 1], [2], [3]], [[0, 1], [2, 3]], [[0, 1, 2, 3]]]) :
    AllCertified roundDouble (gaussDouble.seqF roundDouble) runFn runTol runEps 50 L := by
  intro j h1 hj
  simp only [List.mem_cons, List.not_mem_nil, or_false] at hL
  rcases hL with rfl | rfl | rfl | rfl <;> simp only [List.length_cons, List.length_nil] at hj <;> interval_cases j
  · exact ⟨_, minNormBaseF_single rfl, fun h => by omega⟩
  · exact ⟨[-3 - 1 / 2 ^ 51, -3 - 1 / 2 ^ 51], by decide +kernel, fun _ => by decide +kernel⟩
  · exact ⟨[-4, -4 + 1 / 2 ^ 50, -4 + 1 / 2 ^ 51], by decide +kernel, fun _ => by decide +kernel⟩
  · exact ⟨_, minNormBaseF_single rfl, fun h => by omega⟩
  · exact ⟨[-3, -4], by decide +kernel, fun _ => by decide +kernel⟩
  · exact ⟨_, minNormBaseF_single rfl, fun h => by omega⟩

theorem gaussDouble_closely {n : ℕ} {W : ℚ} (hW : (n + 1) * (1 + n * W ^ 2) ≤ 2 ^ 53) :
    SolvesClosely gaussDouble.solve (2 / 2 ^ 53) W n :=
  C86_rounded_solver roundDouble_spec (K := 2 ^ 90) (by norm_num) hW fun Q _ hlen => ⟨gaussSolve Q, gaussSolve_spec hlen, rfl⟩

/-- A run of `agg_psp` with `double` and the tolerances of the code that meets all the assumptions of `C86_run_partial`. -/
theorem run_exact : ∃ ps cv cv', aggRunF roundDouble id id (mnbOfF roundDouble (gaussDouble.seqF roundDouble) runTol runEps 50)
      ⟨List.range 4, exArcs⟩ runTol = .ok (ps, cv') ∧ IsPrincipalSequence exArcs (Finset.range 4) ps cv ∧
      List.Forall₂ (fun a b => |a - b| ≤ 1 / 10 ^ 12) cv' cv := by
  obtain ⟨ps, cv, cv', h1, h2, h3⟩ := C86_run_partial (N := gaussDouble) (fl := roundDouble) (p := 53) (n := 4) (ai := id)
    (ao := id) (E := exArcs) (tol := runTol) (eps := runEps) (κ := 2 / 2 ^ 53) (e := 1 / 1000) (fuel := 50) (K := 2 ^ 90)
    (W := 12) roundDouble_spec (fun _ => .refl _) (fun _ => .refl _) (by norm_num) exArcs_valid.lowHigh exArcs_valid.nonneg
    (by
      intro a ha
      simp only [exArcs, List.mem_cons, List.not_mem_nil, or_false] at ha
      rcases ha with rfl | rfl | rfl | rfl
      · exact ⟨5, rfl⟩
      · exact ⟨1, rfl⟩
      · exact ⟨4, rfl⟩
      · exact ⟨2, rfl⟩)
    gaussDouble_plain gaussDouble_format (by norm_num) (by decide +kernel) (by norm_num) (by decide +kernel)
    (by decide +kernel) (fun j hj => gaussDouble_closely (by
      have : (j : ℚ) ≤ 4 := by exact_mod_cast hj
      have : (0 : ℚ) ≤ j := j.cast_nonneg
      nlinarith))
    (by norm_num) (by norm_num) (by decide +kernel) (by decide +kernel) (by decide +kernel) (by decide +kernel)
    fun h L hr hL => ⟨run_gap (run_states hr hL), run_certified (run_states hr hL)⟩
  refine ⟨ps, cv, cv', h1, h2, h3.imp fun a b h => h.trans (by unfold pointError; norm_num)⟩

end example_run

end PSP.Props
