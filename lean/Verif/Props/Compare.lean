import Verif.Props.AggAny
import Verif.Theory.CompareSpectrum
import Verif.Props.Spectrum
import Verif.Props.DTApprox
import Verif.Props.PDTRRounded
import Verif.Props.PSPIRoundedApprox

/-!
# Properties: comparing the results for two graphs (C80 – C83)

The claims of this file relate two runs: on a graph and a heavier one, a graph and a part of it, a graph and a version of
it with measurement errors in the weights, or the same graph with two methods, tolerances or roundings.
-/

namespace PSP.Props

open PSP.Model PSP.Spec PSP.Theory

/-- A result on which the claims are based: the run of some method of class `PSP`. -/
theorem run_weak {e : Env} (he : EnvGood e) {s : Schedule} {n : ℕ} {E : List Arc} (hv : ValidInput n E) (hn : 2 ≤ n)
    (hf : PdtTolerance e.eps n E) {m : String} (hm : m ∈ methods) {r : PSPOut} (hr : runOnce e s n E m = .ok r) :
    IsWeakPrincipalSequence E (Finset.range n) r.psp r.cv := by
  obtain ⟨r', h1, h2⟩ := runOnce_weak he s hv hn hf hm
  rw [hr] at h1
  cases h1
  exact h2

/-! ### C80: more weight or more nodes -/

/-- If a graph is contained in another one, with weights that are at least as large, then nodes that are together at a
threshold in the first graph are also together in the second, whichever methods are used for the two. -/
theorem C80_contained {e e' : Env} (he : EnvGood e) (he' : EnvGood e') {s s' : Schedule} {k n : ℕ} {E E' : List Arc}
    (hv : ValidInput k E) (hv' : ValidInput n E') (hk : 2 ≤ k) (hn : 2 ≤ n) (hf : PdtTolerance e.eps k E)
    (hf' : PdtTolerance e'.eps n E') {m m' : String} (hm : m ∈ methods) (hm' : m' ∈ methods) {r r' : PSPOut}
    (hr : runOnce e s k E m = .ok r) (hr' : runOnce e' s' n E' m' = .ok r') {φ : ℕ → ℕ} (hφ : IsEmbedding k n φ)
    (hw : ∀ u < k, ∀ v < k, u ≠ v → between E u v ≤ between E' (φ u) (φ v)) {γ : ℚ} {u v : ℕ}
    (h : Same (clustersAt r.psp r.cv γ) u v) : Same (clustersAt r'.psp r'.cv γ) (φ u) (φ v) :=
  clusters_embed (valid_no_loops hv) (valid_no_loops hv') hv.nonneg hv'.nonneg (ValidInput.within hv)
    (ValidInput.within hv') (run_weak he hv hk hf hm hr) (run_weak he' hv' hn hf' hm' hr') hφ hw h

/-- The same for two graphs on the same nodes. -/
theorem C80_heavier {e e' : Env} (he : EnvGood e) (he' : EnvGood e') {s s' : Schedule} {n : ℕ} {E E' : List Arc}
    (hv : ValidInput n E) (hv' : ValidInput n E') (hn : 2 ≤ n) (hf : PdtTolerance e.eps n E)
    (hf' : PdtTolerance e'.eps n E') {m m' : String} (hm : m ∈ methods) (hm' : m' ∈ methods) {r r' : PSPOut}
    (hr : runOnce e s n E m = .ok r) (hr' : runOnce e' s' n E' m' = .ok r')
    (hw : ∀ u < n, ∀ v < n, u ≠ v → between E u v ≤ between E' u v) (γ : ℚ) :
    ∀ u v, Same (clustersAt r.psp r.cv γ) u v → Same (clustersAt r'.psp r'.cv γ) u v := fun _ _ h =>
  C80_contained he he' hv hv' hn hn hf hf' hm hm' hr hr' (φ := id) ⟨fun _ h => h, fun _ _ _ _ h => h⟩ hw h

/-- Renaming the nodes renames the clusters, and nothing else; the order of the arcs does not matter. -/
theorem C80_rename {e e' : Env} (he : EnvGood e) (he' : EnvGood e') {s s' : Schedule} {n : ℕ} {E E' : List Arc}
    (hv : ValidInput n E) (hv' : ValidInput n E') (hn : 2 ≤ n) (hf : PdtTolerance e.eps n E)
    (hf' : PdtTolerance e'.eps n E') {m m' : String} (hm : m ∈ methods) (hm' : m' ∈ methods) {r r' : PSPOut}
    (hr : runOnce e s n E m = .ok r) (hr' : runOnce e' s' n E' m' = .ok r') {φ : ℕ → ℕ} (hφ : IsEmbedding n n φ)
    (hw : ∀ u < n, ∀ v < n, u ≠ v → between E u v = between E' (φ u) (φ v)) (γ : ℚ) {u v : ℕ} (hu : u < n) (hv0 : v < n) :
    Same (clustersAt r.psp r.cv γ) u v ↔ Same (clustersAt r'.psp r'.cv γ) (φ u) (φ v) := by
  refine ⟨fun h => C80_contained he he' hv hv' hn hn hf hf' hm hm' hr hr' hφ (fun u hu v hv h => (hw u hu v hv h).le) h,
    fun h => ?_⟩
  have hsurj : ∀ y < n, ∃ x < n, φ x = y := by
    intro y hy
    have h1 : (Finset.range n).image φ = Finset.range n := by
      refine Finset.eq_of_subset_of_card_le ?_ ?_
      · intro x hx
        obtain ⟨z, hz, rfl⟩ := Finset.mem_image.1 hx
        exact Finset.mem_range.2 (hφ.1 z (Finset.mem_range.1 hz))
      · rw [Finset.card_image_of_injOn]
        intro a ha b hb hab
        exact hφ.2 a (by simpa using ha) b (by simpa using hb) hab
    have h2 : y ∈ (Finset.range n).image φ := by rw [h1]; exact Finset.mem_range.2 hy
    obtain ⟨x, hx, hxy⟩ := Finset.mem_image.1 h2
    exact ⟨x, Finset.mem_range.1 hx, hxy⟩
  choose! ψ hψ1 hψ2 using hsurj
  have hψφ : ∀ x < n, ψ (φ x) = x := fun x hx =>
    hφ.2 _ (hψ1 _ (hφ.1 x hx)) _ hx (hψ2 _ (hφ.1 x hx))
  have := C80_contained he' he hv' hv hn hn hf' hf hm' hm hr' hr (φ := ψ)
    ⟨hψ1, fun a ha b hb hab => by rw [← hψ2 a ha, ← hψ2 b hb, hab]⟩ (fun a ha b hb hab => by
      rw [hw _ (hψ1 a ha) _ (hψ1 b hb) (fun hc => hab (by rw [← hψ2 a ha, ← hψ2 b hb, hc])), hψ2 a ha, hψ2 b hb]) h
  rwa [hψφ u hu, hψφ v hv0] at this

/-- `exArcs` with less weight. -/
def lightArcs : List Arc := [⟨0, 1, 3⟩, ⟨2, 3, 4⟩, ⟨0, 3, 1⟩]

theorem lightArcs_valid : ValidInput 4 lightArcs := by decide +kernel

theorem lightArcs_tolerance : PdtTolerance exEnv.eps 4 lightArcs := by
  refine integer_weights_pdt (by norm_num) fun e he => ?_
  simp only [lightArcs, List.mem_cons, List.not_mem_nil, or_false] at he
  rcases he with rfl | rfl | rfl
  · exact ⟨3, by norm_num⟩
  · exact ⟨4, by norm_num⟩
  · exact ⟨1, by norm_num⟩

theorem lightArcs_run : ∀ m ∈ methods, runOnce exEnv exSched 4 lightArcs m =
    .ok ⟨[{{0, 1, 2, 3}}, {{0, 1}, {2, 3}}, {{0}, {1}, {2, 3}}, {{0}, {1}, {2}, {3}}], [1, 3, 4]⟩ := by
  decide +kernel

theorem exArcs_run : ∀ m ∈ methods, runOnce exEnv exSched 4 exArcs m =
    .ok ⟨[{{0, 1, 2, 3}}, {{0, 1}, {2, 3}}, {{0, 1}, {2}, {3}}, {{0}, {1}, {2}, {3}}], [3, 4, 5]⟩ := by
  decide +kernel

theorem lightArcs_le : ∀ u < 4, ∀ v < 4, u ≠ v → between lightArcs u v ≤ between exArcs u v := by decide +kernel

example := C80_heavier exEnv_good exEnv_good lightArcs_valid exArcs_valid (by norm_num) lightArcs_tolerance
  exEnv_tolerance (m := "dt") (m' := "psp_i") (by simp [methods]) (by simp [methods])
  (lightArcs_run _ (by simp [methods])) (exArcs_run _ (by simp [methods])) lightArcs_le

/-- The clusters of the two graphs at the threshold 2. -/
example : clustersAt [{{0, 1, 2, 3}}, {{0, 1}, {2, 3}}, {{0}, {1}, {2, 3}}, {{0}, {1}, {2}, {3}}] [1, 3, 4] 2 =
    {{0, 1}, {2, 3}} ∧
    clustersAt [{{0, 1, 2, 3}}, {{0, 1}, {2, 3}}, {{0, 1}, {2}, {3}}, {{0}, {1}, {2}, {3}}] [3, 4, 5] 2 =
    {{0, 1, 2, 3}} := by decide +kernel

/-- `exArcs` with the nodes in the opposite order. -/
def turnedArcs : List Arc := [⟨0, 3, 2⟩, ⟨0, 1, 4⟩, ⟨2, 3, 5⟩, ⟨1, 2, 1⟩]

theorem turnedArcs_tolerance : PdtTolerance exEnv.eps 4 turnedArcs := by
  refine integer_weights_pdt (by norm_num) fun e he => ?_
  simp only [turnedArcs, List.mem_cons, List.not_mem_nil, or_false] at he
  rcases he with rfl | rfl | rfl | rfl
  · exact ⟨2, by norm_num⟩
  · exact ⟨4, by norm_num⟩
  · exact ⟨5, by norm_num⟩
  · exact ⟨1, by norm_num⟩

example {r r' : PSPOut} (hr : runOnce exEnv exSched 4 exArcs "hpsp" = .ok r)
    (hr' : runOnce exEnv exSched 4 turnedArcs "pdt_r" = .ok r') (γ : ℚ) :
    Same (clustersAt r.psp r.cv γ) 0 2 ↔ Same (clustersAt r'.psp r'.cv γ) 3 1 :=
  C80_rename exEnv_good exEnv_good exArcs_valid (by decide +kernel) (by norm_num) exEnv_tolerance turnedArcs_tolerance
    (m := "hpsp") (m' := "pdt_r") (by simp [methods]) (by simp [methods]) hr hr' (φ := fun u => 3 - u)
    ⟨by decide +kernel, by decide +kernel⟩ (by decide +kernel) γ (u := 0) (v := 2) (by norm_num) (by norm_num)

/-! ### C81: the critical values -/

/-- Adding weight raises every critical value (counted with multiplicities) or leaves it. -/
theorem C81_monotone {e e' : Env} (he : EnvGood e) (he' : EnvGood e') {s s' : Schedule} {n : ℕ} {E E' : List Arc}
    (hv : ValidInput n E) (hv' : ValidInput n E') (hn : 2 ≤ n) (hf : PdtTolerance e.eps n E)
    (hf' : PdtTolerance e'.eps n E') {m m' : String} (hm : m ∈ methods) (hm' : m' ∈ methods) {r r' : PSPOut}
    (hr : runOnce e s n E m = .ok r) (hr' : runOnce e' s' n E' m' = .ok r')
    (hw : ∀ u < n, ∀ v < n, u ≠ v → between E u v ≤ between E' u v) :
    (spectrum r.psp r.cv).length = n - 1 ∧ List.Forall₂ (· ≤ ·) (spectrum r.psp r.cv) (spectrum r'.psp r'.cv) := by
  have h1 := run_weak he hv hn hf hm hr
  have h2 := spectrum_length _ _ _ _ h1.length (weak_counts h1 (range_nonempty hn)).1 h1.first h1.last
  rw [card_singletons, Finset.card_range, Finset.card_singleton] at h2
  exact ⟨by omega, spectrum_mono (valid_no_loops hv) (valid_no_loops hv') hv.nonneg hv'.nonneg (ValidInput.within hv)
    (ValidInput.within hv') (by omega) h1 (run_weak he' hv' hn hf' hm' hr') hw⟩

/-- The changes of all critical values together are at most the changes of all weights together. -/
theorem C81_stable {e e' : Env} (he : EnvGood e) (he' : EnvGood e') {s s' : Schedule} {n : ℕ} {E E' : List Arc}
    (hv : ValidInput n E) (hv' : ValidInput n E') (hn : 2 ≤ n) (hf : PdtTolerance e.eps n E)
    (hf' : PdtTolerance e'.eps n E') {m m' : String} (hm : m ∈ methods) (hm' : m' ∈ methods) {r r' : PSPOut}
    (hr : runOnce e s n E m = .ok r) (hr' : runOnce e' s' n E' m' = .ok r') :
    (List.zipWith (fun a b => |a - b|) (spectrum r.psp r.cv) (spectrum r'.psp r'.cv)).sum ≤ weightDistance n E E' := by
  obtain ⟨e0, h0, ht⟩ := pdtTolerance_eventually n (meetArcs n E E')
  obtain ⟨r0, _, h2⟩ := C01_dt_exact bruteSolver_minimal (meetArcs_valid hv.nonneg hv'.nonneg) hn
    ((ht (e0 / 2) (by linarith) (by linarith)).fine (by omega))
  exact spectrum_stable (valid_no_loops hv) (valid_no_loops hv') hv.nonneg hv'.nonneg (ValidInput.within hv)
    (ValidInput.within hv') (by omega) h2.weak (run_weak he hv hn hf hm hr) (run_weak he' hv' hn hf' hm' hr')

example := C81_monotone exEnv_good exEnv_good lightArcs_valid exArcs_valid (by norm_num) lightArcs_tolerance
  exEnv_tolerance (m := "dt") (m' := "psp_i") (by simp [methods]) (by simp [methods])
  (lightArcs_run _ (by simp [methods])) (exArcs_run _ (by simp [methods])) lightArcs_le

/-- Here the bound is reached: the critical values 1, 3, 4 change to 3, 4, 5, and the weights by 2, 1 and 1. -/
example : (List.zipWith (fun a b => |a - b|) [1, 3, 4] [3, 4, 5] : List ℚ).sum = weightDistance 4 lightArcs exArcs := by
  decide +kernel

example := C81_stable exEnv_good exEnv_good lightArcs_valid exArcs_valid (by norm_num) lightArcs_tolerance
  exEnv_tolerance (m := "dt") (m' := "psp_i") (by simp [methods]) (by simp [methods])
  (lightArcs_run _ (by simp [methods])) (exArcs_run _ (by simp [methods]))

/-! ### C82: parts without edges between them -/

/-- A part of a graph that has no edges to the rest can be clustered alone: at every threshold that is not negative, the
clusters of its nodes in the whole graph are those in the part, so that no cluster contains nodes of two parts. -/
theorem C82_part {e e' : Env} (he : EnvGood e) (he' : EnvGood e') {s s' : Schedule} {k n : ℕ} {E E' : List Arc}
    (hv : ValidInput k E) (hv' : ValidInput n E') (hk : 2 ≤ k) (hn : 2 ≤ n) (hf : PdtTolerance e.eps k E)
    (hf' : PdtTolerance e'.eps n E') {m m' : String} (hm : m ∈ methods) (hm' : m' ∈ methods) {r r' : PSPOut}
    (hr : runOnce e s k E m = .ok r) (hr' : runOnce e' s' n E' m' = .ok r') {φ : ℕ → ℕ} (hφ : IsEmbedding k n φ)
    (hw : ∀ u < k, ∀ v < k, u ≠ v → between E u v = between E' (φ u) (φ v))
    (h0 : ∀ u < k, ∀ y < n, (∀ v < k, φ v ≠ y) → between E' (φ u) y = 0) {γ : ℚ} (hγ : 0 ≤ γ) {u y : ℕ} (hu : u < k) :
    Same (clustersAt r'.psp r'.cv γ) (φ u) y ↔ ∃ v < k, φ v = y ∧ Same (clustersAt r.psp r.cv γ) u v :=
  clusters_part (valid_no_loops hv) (valid_no_loops hv') hv.nonneg hv'.nonneg (ValidInput.within hv)
    (ValidInput.within hv') (run_weak he hv hk hf hm hr) (run_weak he' hv' hn hf' hm' hr') hφ hw h0 hγ hu

/-- A path of three nodes. -/
def partArcs : List Arc := [⟨0, 1, 3⟩, ⟨1, 2, 1⟩]

/-- The same path on the nodes 0, 2 and 4, and an edge between the nodes 1 and 3. -/
def apartArcs : List Arc := [⟨0, 2, 3⟩, ⟨1, 3, 2⟩, ⟨2, 4, 1⟩]

theorem partArcs_tolerance : PdtTolerance exEnv.eps 3 partArcs := by
  refine integer_weights_pdt (by norm_num) fun e he => ?_
  simp only [partArcs, List.mem_cons, List.not_mem_nil, or_false] at he
  rcases he with rfl | rfl
  · exact ⟨3, by norm_num⟩
  · exact ⟨1, by norm_num⟩

theorem apartArcs_tolerance : PdtTolerance exEnv.eps 5 apartArcs := by
  refine integer_weights_pdt (by norm_num) fun e he => ?_
  simp only [apartArcs, List.mem_cons, List.not_mem_nil, or_false] at he
  rcases he with rfl | rfl | rfl
  · exact ⟨3, by norm_num⟩
  · exact ⟨2, by norm_num⟩
  · exact ⟨1, by norm_num⟩

example {r r' : PSPOut} (hr : runOnce exEnv exSched 3 partArcs "dt" = .ok r)
    (hr' : runOnce exEnv exSched 5 apartArcs "hpsp" = .ok r') (y : ℕ) :
    Same (clustersAt r'.psp r'.cv 2) 2 y ↔ ∃ v < 3, 2 * v = y ∧ Same (clustersAt r.psp r.cv 2) 1 v :=
  C82_part exEnv_good exEnv_good (by decide +kernel) (by decide +kernel) (by norm_num) (by norm_num) partArcs_tolerance
    apartArcs_tolerance (m := "dt") (m' := "hpsp") (by simp [methods]) (by simp [methods]) hr hr' (φ := fun u => 2 * u)
    ⟨by decide +kernel, by decide +kernel⟩ (by decide +kernel) (by decide +kernel) (γ := 2) (by norm_num) (u := 1)
    (by norm_num)

/-- Below zero everything is one cluster, so the two parts are together. -/
example : (runOnce exEnv exSched 5 apartArcs "dt" >>= fun r =>
    pure (clustersAt r.psp r.cv (-1), clustersAt r.psp r.cv 0)) = .ok ({{0, 1, 2, 3, 4}}, {{0, 2, 4}, {1, 3}}) := by
  decide +kernel

/-! ### C83: runs with tolerances and rounding errors -/

/-- The runs for which a bound `C` of the error is known: all methods in exact arithmetic, with any tolerance for `dt`,
`psp_i` and `hpsp` and a moderate one for `pdt` and `pdt_r`, and all but `hpsp` in floating-point arithmetic; the runs of
`agg_psp` that ended and whose calls of `min_norm_base` ended by the test of optimality. `Ps` and `cv`
are the partitions and critical values that the run returns; those of `psp_i` in floating-point arithmetic are sorted. -/
inductive RunResult (n : ℕ) (E : List Arc) : ℚ → List Partition → List ℚ → Prop
  | dt {S : FlowSolver} {eps : ℚ} {r : PSPOut} (hS : S.Correct) (heps : 0 < eps)
      (h : (makeDgraph eps n E >>= dtRun S eps) = .ok r) : RunResult n E (2 * eps + E.length * eps) r.psp r.cv
  | pspi {S : FlowSolver} {ord : Partition → List CSet} {eps : ℚ} {g : Digraph} {r : PSPOut} (hS : S.Correct)
      (hord : Enumerates ord) (heps : 0 < eps) (h : (makeDgraph eps n E >>= pspiRun S eps ord) = .ok (g, r)) :
      RunResult n E ((n - 1) * eps + E.length * eps) r.psp r.cv
  | hpsp {S : FlowSolver} {ord : Partition → List CSet} {eps : ℚ} {g : Digraph} {r : PSPOut} (hS : S.Minimal)
      (hord : Enumerates ord) (heps : 0 < eps) (h : (makeDgraph eps n E >>= hpspRun S eps ord) = .ok (g, r)) :
      RunResult n E ((n - 1) * eps + E.length * eps) r.psp r.cv
  | pdt {W : WarmSolver} {eps : ℚ} {r : PSPOut} (hW : W.Minimal) (heps : 0 < eps) (hf : 240 * errorFactor n * eps ≤ 1)
      (h : (makeDgraph eps n E >>= pdtRun W eps) = .ok r) : RunResult n E (13 * errorFactor n * eps) r.psp r.cv
  | pdtr {S : FlowSolver} {R : SrcSolver} {finish : ℕ → CSet → CSet → Finish} {eps : ℚ} {r : PSPOut} (hS : S.Minimal)
      (hR : R.Minimal) (heps : 0 < eps) (hf : 240 * errorFactor n * eps ≤ 1)
      (h : (makeDgraph eps n E >>= pdtrRun S R eps finish) = .ok r) : RunResult n E (13 * errorFactor n * eps) r.psp r.cv
  | dtF {p : ℕ} {fl : ℚ → ℚ} {S : FlowSolver} {W δ eps : ℚ} {ord : Partition → List CSet} {ao : List Arc → List Arc}
      {r : PSPOut} (hfl : FloatingPoint p fl) (hS : S.Approx δ (7 * W) n) (hord : Enumerates ord)
      (hao : ∀ l, (ao l).Perm l) (hf : DtRoundingFine p n E W δ eps)
      (h : (makeDgraph eps n E >>= dtRunF fl ao ord S eps) = .ok r) : RunResult n E (2 * eps + E.length * eps) r.psp r.cv
  | pspiF {p : ℕ} {fl : ℚ → ℚ} {S : FlowSolver} {W δ eps : ℚ} {ord : Partition → List CSet} {ao : List Arc → List Arc}
      {g : Digraph} {r : PSPOut} (hfl : FloatingPoint p fl) (hex : eps ≤ fl eps) (hS : S.Approx δ (7 * W) n)
      (hord : Enumerates ord) (hao : ∀ l, (ao l).Perm l) (hf : PspiRoundingFine p n E W δ eps)
      (h : (makeDgraph eps n E >>= pspiRunF fl ao S eps ord) = .ok (g, r)) :
      RunResult n E ((n - 1) * eps + pspiError p n W δ + E.length * eps) r.psp (r.cv.insertionSort (· ≤ ·))
  | pdtF {p : ℕ} {fl : ℚ → ℚ} {S : WarmSolver} {W v eps : ℚ} {ao : List Arc → List Arc} {no : List NArc → List NArc}
      {r : PSPOut} (hfl : FloatingPoint p fl) (hS : WarmLeast S v) (hao : ∀ l, (ao l).Perm l) (hno : ∀ l, (no l).Perm l)
      (hf : PdtRoundingFine p n E W v eps) (h : (makeDgraph eps n E >>= pdtRunF fl ao no S eps) = .ok r) :
      RunResult n E (13 * errorFactor n * eps) r.psp r.cv
  | pdtrF {p : ℕ} {fl : ℚ → ℚ} {S : FlowSolver} {R : SrcSolver} {W v eps : ℚ} {ao io : List Arc → List Arc}
      {no : List NArc → List NArc} {finish : ℕ → CSet → CSet → Finish} {r : PSPOut} (hfl : FloatingPoint p fl)
      (hS : FlowLeast S v) (hR : SrcLeast R v) (hao : ∀ l, (ao l).Perm l) (hio : ∀ l, (io l).Perm l)
      (hno : ∀ l, (no l).Perm l) (hf : PdtRoundingFine p n E W v eps)
      (h : (makeDgraph eps n E >>= pdtrRunF fl ao io no S R eps finish) = .ok r) :
      RunResult n E (13 * errorFactor n * eps) r.psp r.cv
  | agg {N : Numerics} {tol eps δ : ℚ} {fuel : ℕ} {ps : List Partition} {cv : List ℚ} (hN : ∀ j, ExactNumerics N j)
      (heps : 0 < eps) (hsmall : n * eps < 1) (htol : 0 < tol) (hδ : 0 ≤ δ) (hδ2 : tol ≤ δ ^ 2)
      (hcert : ∀ h L, Reached (agglomerate (mnbOfL codeFactor N tol eps fuel) (digraphEntropy ⟨List.range n, E⟩) tol)
        (HC.new n) h → h.getPartition ⊥ = .ok L → ∀ j, 1 ≤ j → j < L.length → ∃ x, minNormBaseL codeFactor N
          (sfJoin (sfContract (digraphEntropy ⟨List.range n, E⟩) L) j) tol eps fuel = .ok (x, true))
      (h : aggRun (mnbOfL codeFactor N tol eps fuel) ⟨List.range n, E⟩ tol = .ok (ps, cv)) :
      RunResult n E (aggRunError n tol δ) ps cv
  | aggF {p : ℕ} {fl : ℚ → ℚ} {ai ao : List Arc → List Arc} {N : Numerics} {K W tol eps δ : ℚ} {fuel : ℕ}
      {ps : List Partition} {cv : List ℚ} (hfl : FloatingPoint p fl) (hai : ∀ l, (ai l).Perm l) (hao : ∀ l, (ao l).Perm l)
      (hfix : ∀ a ∈ E, fl a.cap = a.cap) (hN : PlainNumerics N) (hK : FormatSolver fl N K)
      (hKp : 4 * (n + 1) * K ≤ 4 ^ p) (hc : aggError p E.length n ≤ 1 / 64) (hW : (E.map Arc.cap).sum ≤ W)
      (hWp : 4 / 2 ^ p ≤ W) (heps : 4 / 2 ^ p ≤ eps) (htol : 4 / 2 ^ p ≤ tol) (htol1 : tol ≤ 1)
      (hr : 256 * n * W ^ 2 ≤ 4 ^ p) (hδ : 0 ≤ δ)
      (hδ2 : (1 + 8 * aggError p E.length n) * tol + 90 * n * aggError p E.length n * W ^ 2 ≤ δ ^ 2)
      (ht : W + δ + tol ≤ 2 ^ p * tol)
      (hcert : ∀ h L, Reached (agglomerateF fl (mnbOfF fl (N.seqF fl) tol eps fuel)
        (digraphEntropyF fl ai ao ⟨List.range n, E⟩) tol) (HC.new n) h → h.getPartition ⊥ = .ok L →
          AllCertified fl (N.seqF fl) (digraphEntropyF fl ai ao ⟨List.range n, E⟩) tol eps fuel L)
      (h : aggRunF fl ai ao (mnbOfF fl (N.seqF fl) tol eps fuel) ⟨List.range n, E⟩ tol = .ok (ps, cv)) :
      RunResult n E (aggRunError n (2 * tol) δ) ps cv

theorem RunResult.approx {n : ℕ} {E : List Arc} {C : ℚ} {Ps : List Partition} {cv : List ℚ} (hv : ValidInput n E)
    (hn : 2 ≤ n) (h : RunResult n E C Ps cv) : IsApproximateSequence E (Finset.range n) C Ps cv := by
  cases h with
  | dt hS heps h =>
    obtain ⟨r, h1, h2⟩ := C70_dt_exact hS hv hn heps
    rw [h] at h1; cases h1; exact h2
  | pspi hS hord heps h =>
    obtain ⟨g, r, h1, h2⟩ := C71_pspi_approx hS hord hv hn heps
    rw [h] at h1; cases h1; exact h2
  | hpsp hS hord heps h =>
    obtain ⟨g, r, h1, h2⟩ := C71_hpsp_approx hS hord hv hn heps
    rw [h] at h1; cases h1; exact h2
  | pdt hW heps hf h =>
    obtain ⟨r, h1, h2⟩ := C67_pdt_approx hW heps hv (by omega) hf
    rw [h] at h1; cases h1; exact h2
  | pdtr hS hR heps hf h =>
    obtain ⟨r, h1, h2⟩ := C67_pdt_r_approx hS hR _ heps hv (by omega) hf
    rw [h] at h1; cases h1; exact h2
  | dtF hfl hS hord hao hf h =>
    obtain ⟨r, h1, h2⟩ := C70_dt_approx hfl hS hord hao hv hn hf
    rw [h] at h1; cases h1; exact h2
  | pspiF hfl hex hS hord hao hf h =>
    obtain ⟨g, r, h1, h2, _⟩ := C72_pspi_approx_partial hfl hex hS hord hao hv hn hf
    rw [h] at h1; cases h1; exact h2
  | pdtF hfl hS hao hno hf h =>
    rcases C66_pdt_approx_partial hfl hS hao hno hv (by omega) hf with h1 | ⟨r, h1, h2⟩
    · rw [h] at h1; cases h1
    · rw [h] at h1; cases h1; exact h2
  | pdtrF hfl hS hR hao hio hno hf h =>
    rcases C75_pdt_r_approx_partial hfl hS hR hao hio hno _ hv (by omega) hf with h1 | ⟨r, h1, h2⟩
    · rw [h] at h1; cases h1
    · rw [h] at h1; cases h1; exact h2
  | agg hN heps hsmall htol hδ hδ2 hcert h =>
    have hpos : 0 < n := by omega
    rcases C87_exact_partial hpos hv.lowHigh hv.nonneg hN heps hsmall htol hδ hδ2 hcert with h1 | ⟨ps, cv, h1, h2⟩
    · rw [aggRun_never hpos h1] at h; cases h
    · rw [h] at h1; cases h1; exact h2
  | aggF hfl hai hao hfix hN hK hKp hc hW hWp heps htol htol1 hr hδ hδ2 ht hcert h =>
    have hpos : 0 < n := by omega
    rcases C87_run_partial hfl hai hao hpos hv.lowHigh hv.nonneg hfix hN hK hKp hc hW hWp heps htol htol1 hr hδ hδ2 ht
      hcert with h1 | ⟨ps, cv, h1, h2⟩
    · rw [aggRunF_never hpos h1] at h; cases h
    · rw [h] at h1; cases h1; exact h2

/-- The clusters of two runs: nodes that are together in the second run at a threshold are together in the first run at
every threshold that is lower by more than the errors of the two runs and the excess of the weights of the second graph. -/
theorem C83_clusters {n : ℕ} {E E' : List Arc} (hv : ValidInput n E) (hv' : ValidInput n E') (hn : 2 ≤ n) {C C' : ℚ}
    {Ps Ps' : List Partition} {cv cv' : List ℚ} (h : RunResult n E C Ps cv) (h' : RunResult n E' C' Ps' cv') {γ γ' : ℚ}
    (hlt : γ + (C + C' + weightExcess n E' E) < γ') :
    ∀ u v, Same (clustersAt Ps' cv' γ') u v → Same (clustersAt Ps cv γ) u v := fun _ _ hs =>
  (approx_clusters_refine (valid_no_loops hv) (valid_no_loops hv') hv'.nonneg (ValidInput.within hv)
    (ValidInput.within hv') (h.approx hv hn) (h'.approx hv' hn) hlt).same hs

/-- The critical values of two runs: each is larger than its counterpart by at most the errors of the two runs and the
excess of the weights. -/
theorem C83_values {n : ℕ} {E E' : List Arc} (hv : ValidInput n E) (hv' : ValidInput n E') (hn : 2 ≤ n) {C C' : ℚ}
    {Ps Ps' : List Partition} {cv cv' : List ℚ} (h : RunResult n E C Ps cv) (h' : RunResult n E' C' Ps' cv') :
    (spectrum Ps cv).length = n - 1 ∧ List.Forall₂ (fun a b => a ≤ b + (C + C' + weightExcess n E E') ∧
      b ≤ a + (C + C' + weightExcess n E' E)) (spectrum Ps cv) (spectrum Ps' cv') := by
  have h1 := h.approx hv hn
  have h1' := h'.approx hv' hn
  have h2 := spectrum_length _ _ _ _ h1.length (approx_counts h1).2 h1.first h1.last
  rw [card_singletons, Finset.card_range, Finset.card_singleton] at h2
  refine ⟨by omega, ?_⟩
  have a := approx_spectrum (valid_no_loops hv) (valid_no_loops hv') hv'.nonneg (ValidInput.within hv)
    (ValidInput.within hv') h1 h1'
  have b := approx_spectrum (valid_no_loops hv') (valid_no_loops hv) hv.nonneg (ValidInput.within hv')
    (ValidInput.within hv) h1' h1
  rw [List.forall₂_iff_get] at a b ⊢
  refine ⟨a.1, fun i hi hi' => ⟨?_, a.2 i hi hi'⟩⟩
  have := b.2 i hi' hi
  linarith

/-- `dt` in double precision with a solver that is not exact, and `hpsp` without rounding with a tolerance of 1/100. -/
example {r r' : PSPOut} {g : Digraph} (h : (makeDgraph lemonEps 4 fractionArcs >>=
      dtRunF roundDouble List.reverse exOrd (offSolver (2 ^ 53)⁻¹) lemonEps) = .ok r)
    (h' : (makeDgraph (1 / 100) 4 exArcs >>= hpspRun bruteSolver (1 / 100) exOrd) = .ok (g, r')) :=
  C83_values fractionArcs_valid exArcs_valid (by norm_num)
    (.dtF roundDouble_spec (offSolver_approx (by positivity) _ _) exOrd_enumerates
      (fun l => List.reverse_perm l) fractionArcs_dtRounding h)
    (.hpsp bruteSolver_minimal exOrd_enumerates (by norm_num) h')

example : (makeDgraph (1 / 100) 4 exArcs >>= hpspRun bruteSolver (1 / 100) exOrd >>= fun r => pure r.2.cv) =
    .ok [3, 4, 5] := by decide +kernel

/-- `dt` without rounding and `agg_psp` in double precision. -/
example {r : PSPOut} (h : (makeDgraph lemonEps 4 anyArcs >>= dtRun bruteSolver lemonEps) = .ok r) {ps : List Partition}
    {cv : List ℚ} (h' : aggRunF roundDouble id id (mnbOfF roundDouble (gaussDouble.seqF roundDouble) runTol runEps 50)
      ⟨List.range 4, anyArcs⟩ runTol = .ok (ps, cv)) :=
  C83_values anyArcs_valid anyArcs_valid (by norm_num)
    (.dt bruteSolver_minimal.toCorrect (by norm_num [lemonEps]) h)
    (.aggF (δ := 1 / 999) (K := 2 ^ 90) (W := 2) roundDouble_spec (fun _ => .refl _) (fun _ => .refl _) (by decide +kernel)
      gaussDouble_plain gaussDouble_format (by norm_num) (by decide +kernel) (by decide +kernel) (by norm_num)
      (by decide +kernel) (by decide +kernel) (by decide +kernel) (by norm_num) (by norm_num) (by decide +kernel)
      (by decide +kernel) (fun h L hr hL => any_certified (any_states hr hL)) h')

/-- Two runs of `pdt` and `psp_i` on `exArcs` and a graph with a little less weight: the clusters at the threshold `9 / 2`
of the first are within those at the threshold 4 of the second. -/
example {r r' : PSPOut} {g : Digraph} (h : (makeDgraph lemonEps 4 [⟨0, 1, 49 / 10⟩, ⟨1, 2, 1⟩, ⟨2, 3, 4⟩, ⟨0, 3, 2⟩] >>=
      pspiRun bruteSolver lemonEps exOrd) = .ok (g, r)) (h' : (makeDgraph lemonEps 4 exArcs >>= pdtRun bruteWarm lemonEps) =
        .ok r') : ∀ u v, Same (clustersAt r'.psp r'.cv (9 / 2)) u v → Same (clustersAt r.psp r.cv 4) u v := by
  have hx : weightExcess 4 exArcs [⟨0, 1, 49 / 10⟩, ⟨1, 2, 1⟩, ⟨2, 3, 4⟩, ⟨0, 3, 2⟩] = 1 / 10 := by decide +kernel
  refine C83_clusters (by decide +kernel) exArcs_valid (by norm_num)
    (.pspi bruteSolver_minimal.toCorrect exOrd_enumerates (by norm_num [lemonEps]) h)
    (.pdt bruteWarm_minimal (by norm_num [lemonEps]) (by norm_num [lemonEps, errorFactor, Nat.factorial]) h') ?_
  rw [hx]
  norm_num [lemonEps, errorFactor, Nat.factorial]

end PSP.Props
