import Verif.Props.Compare
import Verif.Theory.Merge

/-!
# Properties: looking into clusters and merging clusters (C94)

A user who has the clusters at a threshold may continue with smaller graphs: above the threshold with one cluster alone,
below the threshold with one node for every cluster.
-/

namespace PSP.Props

open PSP.Model PSP.Spec PSP.Theory

/-- Above a threshold, a cluster (or the union of several clusters) at the threshold can be clustered alone: its clusters in
the whole graph are those of the graph that consists of its nodes and the edges between them. The first run is the one on
the part, `φ` numbers its nodes, and `hc` says that it is a union of clusters at `γ₀`. -/
theorem C94_inside {e e' : Env} (he : EnvGood e) (he' : EnvGood e') {s s' : Schedule} {k n : ℕ} {E E' : List Arc}
    (hv : ValidInput k E) (hv' : ValidInput n E') (hk : 2 ≤ k) (hn : 2 ≤ n) (hf : PdtTolerance e.eps k E)
    (hf' : PdtTolerance e'.eps n E') {m m' : String} (hm : m ∈ methods) (hm' : m' ∈ methods) {r r' : PSPOut}
    (hr : runOnce e s k E m = .ok r) (hr' : runOnce e' s' n E' m' = .ok r') {φ : ℕ → ℕ} (hφ : IsEmbedding k n φ)
    (hw : ∀ u < k, ∀ v < k, u ≠ v → between E u v = between E' (φ u) (φ v)) {γ₀ γ : ℚ}
    (hc : ∀ u < k, ∀ y, Same (clustersAt r'.psp r'.cv γ₀) (φ u) y → ∃ v < k, φ v = y) (hγ : γ₀ ≤ γ) {u y : ℕ}
    (hu : u < k) :
    Same (clustersAt r'.psp r'.cv γ) (φ u) y ↔ ∃ v < k, φ v = y ∧ Same (clustersAt r.psp r.cv γ) u v :=
  clusters_inside (valid_no_loops hv) (valid_no_loops hv') hv.nonneg hv'.nonneg (ValidInput.within hv)
    (ValidInput.within hv') (run_weak he hv hk hf hm hr) (run_weak he' hv' hn hf' hm' hr') hφ hw hc hγ hu

/-- Up to a threshold, nodes that are in the same cluster at the threshold can be merged to one node (adding up the weights
of the edges between merged nodes): two nodes are together in the whole graph if and only if the nodes they are merged to
are together in the smaller graph. The first run is the one on the whole graph. -/
theorem C94_merged {e e' : Env} (he : EnvGood e) (he' : EnvGood e') {s s' : Schedule} {n k : ℕ} {E E' : List Arc}
    (hv : ValidInput n E) (hv' : ValidInput k E') (hn : 2 ≤ n) (hk : 2 ≤ k) (hf : PdtTolerance e.eps n E)
    (hf' : PdtTolerance e'.eps k E') {m m' : String} (hm : m ∈ methods) (hm' : m' ∈ methods) {r r' : PSPOut}
    (hr : runOnce e s n E m = .ok r) (hr' : runOnce e' s' k E' m' = .ok r') {π : ℕ → ℕ} (hπ : IsMerging n k π)
    (hw : ∀ a < k, ∀ b < k, a ≠ b → between E' a b = mergedWeight n E π a b) {γ₀ γ : ℚ}
    (hc : ∀ u < n, ∀ v < n, π u = π v → Same (clustersAt r.psp r.cv γ₀) u v) (hγ : γ ≤ γ₀) {u v : ℕ} (hu : u < n)
    (hv0 : v < n) : Same (clustersAt r.psp r.cv γ) u v ↔ Same (clustersAt r'.psp r'.cv γ) (π u) (π v) :=
  clusters_merged (valid_no_loops hv) (valid_no_loops hv') hv.nonneg hv'.nonneg (ValidInput.within hv)
    (ValidInput.within hv') (run_weak he hv hn hf hm hr) (run_weak he' hv' hk hf' hm' hr') hπ hw hc hγ hu hv0

/-! ### examples -/

/-- A triangle with a tail of two nodes. -/
def tailArcs : List Arc := [⟨0, 1, 3⟩, ⟨0, 2, 2⟩, ⟨1, 2, 2⟩, ⟨2, 3, 1⟩, ⟨3, 4, 2⟩]

/-- The triangle alone. -/
def headArcs : List Arc := [⟨0, 1, 3⟩, ⟨0, 2, 2⟩, ⟨1, 2, 2⟩]

/-- The triangle merged to a node. -/
def shrunkArcs : List Arc := [⟨0, 1, 1⟩, ⟨1, 2, 2⟩]

theorem tailArcs_tolerance : PdtTolerance exEnv.eps 5 tailArcs := by
  refine integer_weights_pdt (by norm_num) fun e he => ?_
  simp only [tailArcs, List.mem_cons, List.not_mem_nil, or_false] at he
  rcases he with rfl | rfl | rfl | rfl | rfl
  · exact ⟨3, by norm_num⟩
  · exact ⟨2, by norm_num⟩
  · exact ⟨2, by norm_num⟩
  · exact ⟨1, by norm_num⟩
  · exact ⟨2, by norm_num⟩

theorem headArcs_tolerance : PdtTolerance exEnv.eps 3 headArcs := by
  refine integer_weights_pdt (by norm_num) fun e he => ?_
  simp only [headArcs, List.mem_cons, List.not_mem_nil, or_false] at he
  rcases he with rfl | rfl | rfl
  · exact ⟨3, by norm_num⟩
  · exact ⟨2, by norm_num⟩
  · exact ⟨2, by norm_num⟩

theorem shrunkArcs_tolerance : PdtTolerance exEnv.eps 3 shrunkArcs := by
  refine integer_weights_pdt (by norm_num) fun e he => ?_
  simp only [shrunkArcs, List.mem_cons, List.not_mem_nil, or_false] at he
  rcases he with rfl | rfl
  · exact ⟨1, by norm_num⟩
  · exact ⟨2, by norm_num⟩

/-- The clusters of the triangle with the tail. -/
theorem tail_clusters : (runOnce exEnv exSched 5 tailArcs "dt" >>= fun r => pure (clustersAt r.psp r.cv 0,
    clustersAt r.psp r.cv 1, clustersAt r.psp r.cv 3)) = .ok ({{0, 1, 2, 3, 4}}, {{0, 1, 2}, {3, 4}},
      {{0, 1, 2}, {3}, {4}}) := by
  decide +kernel

theorem tail_at {r : PSPOut} (hr : runOnce exEnv exSched 5 tailArcs "dt" = .ok r) :
    clustersAt r.psp r.cv 1 = {{0, 1, 2}, {3, 4}} ∧ clustersAt r.psp r.cv 3 = {{0, 1, 2}, {3}, {4}} := by
  have h := tail_clusters
  rw [hr, Outcome.ok_bind, Outcome.pure_eq] at h
  simp only [Outcome.ok.injEq, Prod.mk.injEq] at h
  exact h.2

/-- Within the triangle, from threshold 1 on. -/
example {r r' : PSPOut} (hr : runOnce exEnv exSched 3 headArcs "hpsp" = .ok r)
    (hr' : runOnce exEnv exSched 5 tailArcs "dt" = .ok r') {γ : ℚ} (hγ : 1 ≤ γ) (y : ℕ) :
    Same (clustersAt r'.psp r'.cv γ) 2 y ↔ ∃ v < 3, v = y ∧ Same (clustersAt r.psp r.cv γ) 2 v :=
  C94_inside exEnv_good exEnv_good (by decide +kernel) (by decide +kernel) (by norm_num) (by norm_num) headArcs_tolerance
    tailArcs_tolerance (m := "hpsp") (m' := "dt") (by simp [methods]) (by simp [methods]) hr hr' (φ := id)
    ⟨by decide +kernel, by decide +kernel⟩ (by decide +kernel) (γ₀ := 1)
    (by
      rw [(tail_at hr').1]
      rintro u hu y ⟨B, hB, h1, h2⟩
      simp only [Finset.mem_insert, Finset.mem_singleton] at hB
      rcases hB with rfl | rfl
      · simp only [Finset.mem_insert, Finset.mem_singleton] at h2
        exact ⟨y, by omega, rfl⟩
      · simp only [Finset.mem_insert, Finset.mem_singleton, id] at h1
        omega) hγ (u := 2) (by norm_num)

/-- Up to threshold 3 the triangle can be a node. -/
example {r r' : PSPOut} (hr : runOnce exEnv exSched 5 tailArcs "dt" = .ok r)
    (hr' : runOnce exEnv exSched 3 shrunkArcs "pdt" = .ok r') {γ : ℚ} (hγ : γ ≤ 3) {u v : ℕ} (hu : u < 5) (hv : v < 5) :
    Same (clustersAt r.psp r.cv γ) u v ↔ Same (clustersAt r'.psp r'.cv γ) (u - 2) (v - 2) :=
  C94_merged exEnv_good exEnv_good (by decide +kernel) (by decide +kernel) (by norm_num) (by norm_num) tailArcs_tolerance
    shrunkArcs_tolerance (m := "dt") (m' := "pdt") (by simp [methods]) (by simp [methods]) hr hr' (π := fun u => u - 2)
    ⟨by decide +kernel, by decide +kernel⟩ (by decide +kernel) (γ₀ := 3) (by rw [(tail_at hr).2]; decide +kernel) hγ hu hv

/-- Below the threshold of the cluster the part alone has other clusters than the whole graph: the nodes 0 and 3 are
together at 0 in the whole graph. -/
example {r : PSPOut} (hr : runOnce exEnv exSched 5 tailArcs "dt" = .ok r) : Same (clustersAt r.psp r.cv 0) 0 3 := by
  have h := tail_clusters
  rw [hr, Outcome.ok_bind, Outcome.pure_eq] at h
  simp only [Outcome.ok.injEq, Prod.mk.injEq] at h
  rw [h.1]
  decide +kernel

end PSP.Props
