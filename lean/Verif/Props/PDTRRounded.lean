import Verif.Theory.RoundedPDTR
import Verif.Theory.RoundedIdR
import Verif.Props.PDTException

/-!
# Properties: `pdt_r` in floating-point arithmetic (C75)

`pdt_r` computes with `double` values, and which of its threads deliver is not determined. How far can its result be from
the principal sequence, and can it depend on the threads?
-/

namespace PSP.Props

open PSP.Spec PSP.Model PSP.Theory

/-- Without rounding, the model of this section is the model of C38. -/
theorem C75_exact {ao io : List Arc → List Arc} {no : List NArc → List NArc} (hao : ∀ l, (ao l).Perm l)
    (hio : ∀ l, (io l).Perm l) (hno : ∀ l, (no l).Perm l) (S : FlowSolver) (R : SrcSolver) (ε : ℚ)
    (finish : ℕ → CSet → CSet → Finish) (g : Digraph) :
    pdtrRunF id ao io no S R ε finish g = pdtrRun S R ε finish g :=
  pdtrRunF_id hao hio hno S R ε finish g

/-! ### the bound -/

theorem bruteWarm_least {v : ℚ} (hv : 0 ≤ v) : WarmLeast bruteWarm v where
  le_cut := (WarmSolver.Minimal.least' bruteWarm_minimal).le_cut
  least := (WarmSolver.Minimal.least' bruteWarm_minimal).least
  value N init hN hi := by
    have h1 := (WarmSolver.Minimal.least' bruteWarm_minimal).value N init hN hi
    have h2 : 0 ≤ N.cutCap (bruteWarm.sinkSide N init) := by
      unfold Net.cutCap
      exact List.sum_nonneg (by
        intro x hx
        obtain ⟨a, ha, rfl⟩ := List.mem_map.1 hx
        split
        · exact hN a ha
        · exact le_rfl)
    rw [zero_mul] at h1
    exact h1.trans (mul_nonneg hv h2)
  flow := (WarmSolver.Minimal.least' bruteWarm_minimal).flow

/-- For all weights and whichever threads deliver, `pdt_r` in floating-point arithmetic either throws the exception
"lambda value mismatch" or returns a sequence of ever finer partitions from the coarsest to the finest that are optimal up
to an error of `13 n (n + 2) ^ 2 eps` between the reported critical values: the same bound as for `pdt` (C66). Missing for
the full claim: that the sequence is the principal sequence, that no exception occurs and that the result does not depend
on the threads; all three are false (`C75_pdt_r_violated`, `C75_exception_violated`, `C75_threads_violated`,
`C75_partitions_violated`). -/
theorem C75_pdt_r_approx_partial {p n : ℕ} {fl : ℚ → ℚ} (hfl : FloatingPoint p fl) {S : FlowSolver} {R : SrcSolver}
    {E : List Arc} {W v eps : ℚ} (hS : FlowLeast S v) (hR : SrcLeast R v) {ao io : List Arc → List Arc}
    (hao : ∀ l, (ao l).Perm l) (hio : ∀ l, (io l).Perm l) {no : List NArc → List NArc} (hno : ∀ l, (no l).Perm l)
    (finish : ℕ → CSet → CSet → Finish) (hv : ValidInput n E) (hn : 1 ≤ n) (hf : PdtRoundingFine p n E W v eps) :
    (makeDgraph eps n E >>= pdtrRunF fl ao io no S R eps finish) = .exc "lambda value mismatch" ∨
    ∃ r, (makeDgraph eps n E >>= pdtrRunF fl ao io no S R eps finish) = .ok r ∧
      IsApproximateSequence E (Finset.range n) (13 * errorFactor n * eps) r.psp r.cv := by
  rw [makeDgraph_valid hv, Outcome.ok_bind]
  rcases pdtrRunF_spec hS hR hio (inputGraph_good hv) hn (hf.setup hfl (bruteWarm_least hf.solver) hao hno hv hn) finish with
    ⟨r, h1, h2⟩ | ⟨_, h1⟩
  · exact Or.inr ⟨r, h1, approx_factor hv hf.pos h2⟩
  · exact Or.inl h1

/-- If moreover all weights are multiples of `u` and `13 n^2 (n - 1) (n + 2)^2 eps < u` (for LEMON's tolerance and integer
weights: at most 59 nodes), the partitions are exactly optimal: those of a weak principal sequence, whose critical values
differ from the reported ones by at most the error. If no optimal partition lies strictly between others, it is the
principal sequence. -/
theorem C75_pdt_r_weak_partial {p n : ℕ} {fl : ℚ → ℚ} (hfl : FloatingPoint p fl) {S : FlowSolver} {R : SrcSolver}
    {E : List Arc} {W v eps : ℚ} (hS : FlowLeast S v) (hR : SrcLeast R v) {ao io : List Arc → List Arc}
    (hao : ∀ l, (ao l).Perm l) (hio : ∀ l, (io l).Perm l) {no : List NArc → List NArc} (hno : ∀ l, (no l).Perm l)
    (finish : ℕ → CSet → CSet → Finish) (hv : ValidInput n E) (hn : 1 ≤ n) (hf : PdtRoundingFine p n E W v eps) {u : ℚ}
    (hu : 0 < u) (hE : ∀ e ∈ E, ∃ k : ℤ, e.cap = k * u) (hfu : n * (n - 1) * (13 * errorFactor n * eps) < u) :
    (makeDgraph eps n E >>= pdtrRunF fl ao io no S R eps finish) = .exc "lambda value mismatch" ∨
    ∃ r, ∃ cv : List ℚ, (makeDgraph eps n E >>= pdtrRunF fl ao io no S R eps finish) = .ok r ∧
      IsWeakPrincipalSequence E (Finset.range n) r.psp cv ∧
      List.Forall₂ (fun c c' => |c - c'| ≤ 13 * errorFactor n * eps) r.cv cv ∧
      (NoBetween E (Finset.range n) → IsPrincipalSequence E (Finset.range n) r.psp cv) := by
  rcases C75_pdt_r_approx_partial hfl hS hR hao hio hno finish hv hn hf with h | ⟨r, h1, h2⟩
  · exact Or.inl h
  · obtain ⟨cv, h3, h4⟩ := approx_weak hu hE hv.nonneg (fun e he => by
        have := hv.lowHigh e he
        constructor <;> rw [Finset.mem_range] <;> omega) ⟨0, Finset.mem_range.2 hn⟩
      (by rw [Finset.card_range]; exact hfu) h2
    exact Or.inr ⟨r, cv, h1, h3, h4, fun hnb => h3.of_noBetween hv.nonneg hnb⟩

/-- Runs that end normally return the same partitions, whichever threads deliver, if no optimal partition lies strictly
between others; the critical values differ by at most twice the error. -/
theorem C75_threads_partial {p n : ℕ} {fl : ℚ → ℚ} (hfl : FloatingPoint p fl) {S : FlowSolver} {R : SrcSolver}
    {E : List Arc} {W v eps : ℚ} (hS : FlowLeast S v) (hR : SrcLeast R v) {ao io : List Arc → List Arc}
    (hao : ∀ l, (ao l).Perm l) (hio : ∀ l, (io l).Perm l) {no : List NArc → List NArc} (hno : ∀ l, (no l).Perm l)
    (hv : ValidInput n E) (hn : 1 ≤ n) (hf : PdtRoundingFine p n E W v eps) {u : ℚ}
    (hu : 0 < u) (hE : ∀ e ∈ E, ∃ k : ℤ, e.cap = k * u) (hfu : n * (n - 1) * (13 * errorFactor n * eps) < u)
    (hnb : NoBetween E (Finset.range n)) {finish finish' : ℕ → CSet → CSet → Finish} {r r' : PSPOut}
    (h : (makeDgraph eps n E >>= pdtrRunF fl ao io no S R eps finish) = .ok r)
    (h' : (makeDgraph eps n E >>= pdtrRunF fl ao io no S R eps finish') = .ok r') :
    r.psp = r'.psp ∧ List.Forall₂ (fun c c' => |c - c'| ≤ 2 * (13 * errorFactor n * eps)) r.cv r'.cv := by
  have key : ∀ {finish : ℕ → CSet → CSet → Finish} {r : PSPOut},
      (makeDgraph eps n E >>= pdtrRunF fl ao io no S R eps finish) = .ok r →
      ∃ cv, IsPrincipalSequence E (Finset.range n) r.psp cv ∧
        List.Forall₂ (fun c c' => |c - c'| ≤ 13 * errorFactor n * eps) r.cv cv := by
    intro finish r h
    rcases C75_pdt_r_weak_partial hfl hS hR hao hio hno finish hv hn hf hu hE hfu with h1 | ⟨r1, cv, h1, _, h2, h3⟩
    · rw [h] at h1; cases h1
    · rw [h] at h1
      cases h1
      exact ⟨cv, h3 hnb, h2⟩
  obtain ⟨cv, a1, a2⟩ := key h
  obtain ⟨cv', b1, b2⟩ := key h'
  obtain ⟨e1, e2⟩ := a1.eq hv.nonneg b1
  subst e2
  refine ⟨e1, ?_⟩
  have : ∀ {l m c : List ℚ}, List.Forall₂ (fun c c' => |c - c'| ≤ 13 * errorFactor n * eps) l c →
      List.Forall₂ (fun c c' => |c - c'| ≤ 13 * errorFactor n * eps) m c →
      List.Forall₂ (fun c c' => |c - c'| ≤ 2 * (13 * errorFactor n * eps)) l m := by
    intro l m c h1
    induction h1 generalizing m with
    | nil => intro h2; cases h2; exact .nil
    | cons hx _ ih =>
      intro h2
      cases h2 with
      | cons hy h2 =>
        refine .cons ?_ (ih h2)
        rw [abs_le] at *
        constructor <;> linarith
  exact this a2 b2

/-! ### solvers -/

/-- A correct solver that reports minimal cuts and whose value is rounded. -/
def roundedFlow (p : ℕ) : FlowSolver := ⟨fun N => roundNear p (bruteSolver.flowValue N), bruteSolver.minCut⟩

theorem roundedFlow_scan (p : ℕ) :
    roundedFlow p = ⟨fun N => roundNear p (scanSolver.flowValue N), scanSolver.minCut⟩ := by
  rw [scanSolver_eq]
  rfl

theorem roundedFlow_least {p : ℕ} (hp : 1 ≤ p) : FlowLeast (roundedFlow p) (2 ^ p)⁻¹ where
  le_cut N hN := (roundedWarm_least hp).le_cut N none hN (by simp)
  least N hN := (roundedWarm_least hp).least N none hN (by simp)
  value N hN := (roundedWarm_least hp).value N none hN (by simp)

/-- A minimal source side is a minimal sink side of the reversed network. (Nodes that do not occur in the network count as
the source.) -/
def closeNet (N : Net) : Net :=
  let f : NV → NV := fun x => match x with
    | .v i => if i ∈ N.verts then .v i else .src
    | x => x
  ⟨N.verts, N.arcs.map fun e => ⟨f e.a, f e.b, e.cap⟩⟩

def revSolver (S : FlowSolver) : SrcSolver :=
  ⟨fun N => S.flowValue (closeNet N).rev, fun N i => !S.minCut (closeNet N).rev i⟩

theorem closeNet_cut {N : Net} {X : Finset ℕ} (hX : X ⊆ N.verts) : (closeNet N).cutCap X = N.cutCap X := by
  unfold Net.cutCap closeNet
  rw [List.map_map]
  congr 1
  apply List.map_congr_left
  intro e _
  have : ∀ x : NV, (match x with
      | .v i => if i ∈ N.verts then NV.v i else .src
      | x => x).onSink X = x.onSink X := by
    intro x
    cases x with
    | src => rfl
    | snk => rfl
    | v i =>
      by_cases hi : i ∈ N.verts
      · simp [hi]
      · have : i ∉ X := fun h => hi (hX h)
        simp [hi, NV.onSink, this]
  simp only [Function.comp_apply, this]

theorem revSolver_least {S : FlowSolver} {v : ℚ} (hS : FlowLeast S v) : SrcLeast (revSolver S) v := by
  have hside : ∀ N, (revSolver S).srcSide N = S.sinkSide (closeNet N).rev := by
    intro N
    unfold SrcSolver.srcSide FlowSolver.sinkSide revSolver
    simp [closeNet, Net.rev]
  have hnn : ∀ N : Net, N.Nonneg → (closeNet N).rev.Nonneg := by
    intro N hN e he
    obtain ⟨e', he', rfl⟩ := List.mem_map.1 he
    obtain ⟨e'', he'', rfl⟩ := List.mem_map.1 he'
    exact hN e'' he''
  have hsub : ∀ N, S.sinkSide (closeNet N).rev ⊆ N.verts := fun N => Finset.filter_subset _ _
  have hc : ∀ N : Net, ∀ X ⊆ N.verts, (closeNet N).rev.cutCap (N.verts \ X) = N.cutCap X := by
    intro N X hX
    rw [← closeNet_cut hX]
    have hf : ∀ (x : NV) (i : ℕ), (match x with
      | .v i => if i ∈ N.verts then NV.v i else .src
      | x => x) = .v i → i ∈ N.verts := by
      intro x i h
      cases x with
      | src => cases h
      | snk => cases h
      | v k =>
        simp only at h
        split at h
        · cases h; assumption
        · cases h
    refine rev_cut (N := closeNet N) ?_ ?_ X
    · intro e he i hi
      obtain ⟨e', _, rfl⟩ := List.mem_map.1 he
      exact hf _ i hi
    · intro e he i hi
      obtain ⟨e', _, rfl⟩ := List.mem_map.1 he
      exact hf _ i hi
  have hcut : ∀ N : Net, N.cutCap (N.verts \ (revSolver S).srcSide N) =
      (closeNet N).rev.cutCap (S.sinkSide (closeNet N).rev) := by
    intro N
    rw [hside, ← hc N _ Finset.sdiff_subset, Finset.sdiff_sdiff_eq_self (hsub N)]
  refine ⟨?_, ?_, ?_⟩
  · intro N hN X hX
    rw [hcut, ← hc N X hX]
    exact hS.le_cut _ (hnn N hN) _ Finset.sdiff_subset
  · intro N hN X hX he
    rw [hcut, ← hc N X hX] at he
    rw [hside]
    exact hS.least _ (hnn N hN) _ Finset.sdiff_subset he
  · intro N hN
    rw [hcut]
    exact hS.value _ (hnn N hN)

/-! ### examples -/

example (finish : ℕ → CSet → CSet → Finish) := C75_pdt_r_weak_partial roundDouble_spec
  (roundedFlow_least (by norm_num)) (revSolver_least (roundedFlow_least (by norm_num))) (fun l => List.reverse_perm l)
  (fun l => List.reverse_perm l) (fun l => List.reverse_perm l) finish exArcs_valid (by norm_num) exArcs_pdtRounding
  one_pos (fun e he => by obtain ⟨k, hk⟩ := exArcs_rounding.integer e he; exact ⟨k, by rw [hk, mul_one]⟩)
  (errorFactor_lemon_integer (by norm_num))

example {finish finish' : ℕ → CSet → CSet → Finish} {r r' : PSPOut} :=
  C75_threads_partial (r := r) (r' := r') (finish := finish) (finish' := finish') roundDouble_spec
  (roundedFlow_least (by norm_num)) (revSolver_least (roundedFlow_least (by norm_num))) (fun l => List.reverse_perm l)
  (fun l => List.reverse_perm l) (fun l => List.reverse_perm l) exArcs_valid (by norm_num) exArcs_pdtRounding
  one_pos (fun e he => by obtain ⟨k, hk⟩ := exArcs_rounding.integer e he; exact ⟨k, by rw [hk, mul_one]⟩)
  (errorFactor_lemon_integer (by norm_num)) exArcs_noBetween

example (finish : ℕ → CSet → CSet → Finish) := C75_pdt_r_approx_partial roundDouble_spec
  (roundedFlow_least (by norm_num)) (revSolver_least (roundedFlow_least (by norm_num))) (fun l => List.reverse_perm l)
  (fun l => List.reverse_perm l) (fun l => List.reverse_perm l) finish (n := 4) (E := fractionArcs) (by decide +kernel)
  (by norm_num) fractionArcs_pdtRounding

/-! ### what rounding does -/

/-- `pdt_r` with `double` values, as in the examples. -/
def doubleRun (n : ℕ) (E : List Arc) (finish : ℕ → CSet → CSet → Finish) : Outcome PSPOut :=
  makeDgraph lemonEps n E >>= pdtrRunF roundDouble List.reverse List.reverse List.reverse (roundedFlow 53)
    (revSolver (roundedFlow 53)) lemonEps finish

/-- Unit weights for which the result is not the principal sequence, whichever thread always delivers first (compare
`C66_pdt_violated`): one critical value is reported twice, with an additional partition in between. -/
theorem C75_pdt_r_violated : ∃ n E, ValidInput n E ∧ (∀ e ∈ E, e.cap = 1) ∧ ∀ c ∈ [Finish.left, .right],
    ∃ r, doubleRun n E (fun _ _ _ => c) = .ok r ∧ ∀ cv, ¬ IsPrincipalSequence E (Finset.range n) r.psp cv := by
  have hv : ValidInput 6 pdtRoundArcs := by decide +kernel
  refine ⟨6, pdtRoundArcs, hv, pdtRoundArcs_unit, ?_⟩
  have hrun : ∀ c ∈ [Finish.left, .right], doubleRun 6 pdtRoundArcs (fun _ _ _ => c) =
      .ok ⟨[{{0, 1, 2, 3, 4, 5}}, {{0, 2, 3, 4, 5}, {1}}, {{0, 2, 3, 4}, {1}, {5}}, {{0}, {1}, {2}, {3}, {4}, {5}}],
        [1, 1 + 1 / 2 ^ 51, roundDouble (5 / 3) - 1 / 2 ^ 52]⟩ := by
    unfold doubleRun
    rw [roundedFlow_scan]
    decide +kernel
  intro c hc
  refine ⟨_, hrun c hc, fun cv h => ?_⟩
  obtain ⟨r, h1, h2⟩ := C03_pdt bruteWarm_minimal hv (by norm_num) (integer_weights_pdt (by norm_num) pdtRoundArcs_integer)
  rw [pdtRoundArcs_exact] at h1
  cases h1
  have := (h.eq hv.nonneg h2).1
  revert this
  decide

/-- The exception can occur too. -/
theorem C75_exception_violated : ∃ n E W, ValidInput n E ∧ (∀ e ∈ E, roundDouble e.cap = e.cap) ∧
    PdtRoundingFine 53 n E W (2 ^ 53)⁻¹ lemonEps ∧ ∀ c ∈ [Finish.left, .right],
    doubleRun n E (fun _ _ _ => c) = .exc "lambda value mismatch" := by
  refine ⟨6, mismatchArcs, 9, mismatchArcs_valid, by decide +kernel, mismatchArcs_rounding, ?_⟩
  unfold doubleRun
  rw [roundedFlow_scan]
  decide +kernel

/-- Six edges with weights between 0.2 and 0.9. -/
def threadArcs : List Arc :=
  [⟨4, 5, roundDouble (6 / 10)⟩, ⟨0, 2, roundDouble (2 / 10)⟩, ⟨0, 1, roundDouble (5 / 10)⟩,
    ⟨1, 2, roundDouble (9 / 10)⟩, ⟨1, 5, roundDouble (9 / 10)⟩, ⟨1, 3, roundDouble (7 / 10)⟩]

theorem threadArcs_rounding : PdtRoundingFine 53 6 threadArcs 4 (2 ^ 53)⁻¹ lemonEps where
  total := by decide +kernel
  solver := by positivity
  pos := by norm_num [lemonEps]
  below := by norm_num [lemonEps]
  above := errorFactor_lemon (by norm_num)

/-- The result depends on the threads: the first critical value is the `double` nearest to 0.6 if the right thread always
delivers first, and the next smaller one if the left thread does (compare C38). -/
theorem C75_threads_violated : ∃ n E W, ValidInput n E ∧ PdtRoundingFine 53 n E W (2 ^ 53)⁻¹ lemonEps ∧
    ∃ r r', doubleRun n E (fun _ _ _ => .left) = .ok r ∧ doubleRun n E (fun _ _ _ => .right) = .ok r' ∧
      r.psp = r'.psp ∧ r.cv ≠ r'.cv := by
  refine ⟨6, threadArcs, 4, by decide +kernel, threadArcs_rounding,
    ⟨[{{0, 1, 2, 3, 4, 5}}, {{0, 1, 2, 3, 5}, {4}}, {{0}, {1, 2, 5}, {3}, {4}}, {{0}, {1}, {2}, {3}, {4}, {5}}],
      [2702159776422297 / 2 ^ 52, 3152519739159347 / 2 ^ 52, 4053239664633447 / 2 ^ 52]⟩,
    ⟨[{{0, 1, 2, 3, 4, 5}}, {{0, 1, 2, 3, 5}, {4}}, {{0}, {1, 2, 5}, {3}, {4}}, {{0}, {1}, {2}, {3}, {4}, {5}}],
      [5404319552844595 / 2 ^ 53, 3152519739159347 / 2 ^ 52, 4053239664633447 / 2 ^ 52]⟩, ?_, ?_, rfl, by decide +kernel⟩
  · unfold doubleRun
    rw [roundedFlow_scan]
    decide +kernel
  · unfold doubleRun
    rw [roundedFlow_scan]
    decide +kernel

/-- A tree with the weights 0.1 and 0.2, and a node without edges. -/
def forkArcs : List Arc :=
  [⟨1, 2, roundDouble (2 / 10)⟩, ⟨4, 6, roundDouble (1 / 10)⟩, ⟨0, 2, roundDouble (1 / 10)⟩,
    ⟨3, 6, roundDouble (2 / 10)⟩, ⟨2, 3, roundDouble (2 / 10)⟩]

theorem forkArcs_rounding : PdtRoundingFine 53 7 forkArcs 1 (2 ^ 53)⁻¹ lemonEps where
  total := by decide +kernel
  solver := by positivity
  pos := by norm_num [lemonEps]
  below := by norm_num [lemonEps]
  above := errorFactor_lemon (by norm_num)

/-- The partitions depend on the threads as well, even their number: five if the left thread always delivers first, six if
the right thread does, and neither list contains the other. -/
theorem C75_partitions_violated : ∃ n E W, ValidInput n E ∧ PdtRoundingFine 53 n E W (2 ^ 53)⁻¹ lemonEps ∧
    ∃ r r', doubleRun n E (fun _ _ _ => .left) = .ok r ∧ doubleRun n E (fun _ _ _ => .right) = .ok r' ∧
      r.psp.length ≠ r'.psp.length ∧ ¬ r.psp ⊆ r'.psp ∧ ¬ r'.psp ⊆ r.psp := by
  refine ⟨7, forkArcs, 1, by decide +kernel, forkArcs_rounding,
    ⟨[{{0, 1, 2, 3, 4, 5, 6}}, {{0, 1, 2, 3, 4, 6}, {5}}, {{0, 1, 2, 3, 6}, {4}, {5}}, {{0}, {1, 2, 3, 6}, {4}, {5}},
      {{0}, {1}, {2}, {3}, {4}, {5}, {6}}],
      [0, 7205759403792792 / 2 ^ 56, 7205759403792794 / 2 ^ 56, 14411518807585590 / 2 ^ 56]⟩,
    ⟨[{{0, 1, 2, 3, 4, 5, 6}}, {{0, 1, 2, 3, 4, 6}, {5}}, {{0}, {1, 2, 3, 4, 6}, {5}}, {{0}, {1, 2, 3, 6}, {4}, {5}},
      {{0}, {1, 2}, {3}, {4}, {5}, {6}}, {{0}, {1}, {2}, {3}, {4}, {5}, {6}}],
      [0, 7205759403792794 / 2 ^ 56, 7205759403792796 / 2 ^ 56, 14411518807585588 / 2 ^ 56, 14411518807585590 / 2 ^ 56]⟩,
    ?_, ?_, by decide, by decide +kernel, by decide +kernel⟩
  · unfold doubleRun
    rw [roundedFlow_scan]
    decide +kernel
  · unfold doubleRun
    rw [roundedFlow_scan]
    decide +kernel

end PSP.Props
