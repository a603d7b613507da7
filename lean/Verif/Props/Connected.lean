import Verif.Theory.Connected
import Verif.Props.Cuts
import Verif.Props.ChowLiu
import Verif.Props.SharedNear

/-!
# C98: connected components
-/

namespace PSP.Props

open PSP.Model PSP.Spec PSP.Theory Relation

/-- **C98**. For every method and every threshold that is not negative, each cluster is connected: any two of its nodes are
joined by a path of edges of positive weight inside the cluster. -/
theorem C98_clusters {e : Env} (he : EnvGood e) (s : Schedule) {n : ℕ} {E : List Arc} (hv : ValidInput n E) (hn : 2 ≤ n)
    (hf : PdtTolerance e.eps n E) {m : String} (hm : m ∈ methods) :
    ∃ r, runOnce e s n E m = .ok r ∧ ∀ γ : ℚ, 0 ≤ γ → ∃ P, r.psp[r.cv.countP fun c => decide (c ≤ γ)]? = some P ∧
      ∀ B ∈ P, ∀ u ∈ B, ∀ v ∈ B, ConnectedIn E B u v := by
  obtain ⟨r, h1, h2⟩ := runOnce_weak he s hv hn hf hm
  refine ⟨r, h1, fun γ hγ => ?_⟩
  obtain ⟨P, hP, -, lam, hlt, h4⟩ := weak_at h2 γ
  exact ⟨P, hP, fun B hB u hu v hv' =>
    block_connected hv.nonneg (ValidInput.within hv) (lt_of_le_of_lt hγ hlt) h4 hB hu hv'⟩

/-- **C98**. The clusters at the threshold zero are the connected components of the graph. -/
theorem C98_components {e : Env} (he : EnvGood e) (s : Schedule) {n : ℕ} {E : List Arc} (hv : ValidInput n E) (hn : 2 ≤ n)
    (hf : PdtTolerance e.eps n E) {m : String} (hm : m ∈ methods) :
    ∃ r P, runOnce e s n E m = .ok r ∧ r.psp[r.cv.countP fun c => decide (c ≤ 0)]? = some P ∧
      ∀ u < n, ∀ v < n, (Same P u v ↔ ConnectedIn E (Finset.range n) u v) := by
  obtain ⟨r, h1, h2⟩ := runOnce_weak he s hv hn hf hm
  have hW := ValidInput.within hv
  obtain ⟨P, hP, h3, lam, hlt, h4⟩ := weak_at h2 0
  refine ⟨r, P, h1, hP, fun u hu v _ => ⟨?_, fun h => ?_⟩⟩
  · rintro ⟨B, hB, huB, hvB⟩
    exact ConnectedIn.mono (h3.1.subset hB) (block_connected hv.nonneg hW hlt h4 hB huB hvB)
  · rcases same_of_connected hv.nonneg hW h3 h with rfl | h
    · exact h3.1.same_self (Finset.mem_range.2 hu)
    · exact h

/-- **C98**. The first critical value is positive if and only if the graph is connected. -/
theorem C98_first {e : Env} (he : EnvGood e) (s : Schedule) {n : ℕ} {E : List Arc} (hv : ValidInput n E) (hn : 2 ≤ n)
    (hf : PdtTolerance e.eps n E) {m : String} (hm : m ∈ methods) :
    ∃ r a, runOnce e s n E m = .ok r ∧ r.cv.head? = some a ∧
      (0 < a ↔ ∀ u < n, ∀ v < n, ConnectedIn E (Finset.range n) u v) := by
  obtain ⟨r, a, b, h1, ha, -⟩ := C57_ends he s hv hn hf hm
  obtain ⟨r', h1', h2⟩ := runOnce_weak he s hv hn hf hm
  rw [h1] at h1'
  cases h1'
  obtain ⟨r', P, h1', hP, h3⟩ := C98_components he s hv hn hf hm
  rw [h1] at h1'
  cases h1'
  have h0 : r.psp[0]? = some {Finset.range n} := by rw [← List.head?_eq_getElem?, h2.first]
  have ha0 : r.cv[0]? = some a := by rw [← List.head?_eq_getElem?, ha]
  refine ⟨r, a, h1, ha, fun hpos u hu v hv' => ?_, fun hc => ?_⟩
  · have hz : (r.cv.countP fun c => decide (c ≤ 0)) = 0 := by
      by_contra hne
      have := (countP_sorted h2.nondecreasing 0 a ha0).1 (Nat.pos_of_ne_zero hne)
      linarith
    rw [hz, h0] at hP
    cases hP
    exact (h3 u hu v hv').1
      ⟨_, Finset.mem_singleton_self _, Finset.mem_range.2 hu, Finset.mem_range.2 hv'⟩
  · by_contra hle
    have hpos := (countP_sorted h2.nondecreasing 0 a ha0).2 (not_lt.1 hle)
    obtain ⟨hsort, -, hparts⟩ := weak_counts h2 (range_nonempty hn)
    have hpart : IsPartition (Finset.range n) P := hparts P (List.mem_of_getElem? hP)
    obtain ⟨hlt, hPe⟩ := List.getElem?_eq_some_iff.1 hP
    have h4 := List.pairwise_iff_getElem.1 hsort 0 _ (by rw [List.length_map]; omega)
      (by rw [List.length_map]; exact hlt) hpos
    obtain ⟨hlt0, h5⟩ := List.getElem?_eq_some_iff.1 h0
    rw [List.getElem_map, List.getElem_map, hPe, h5, Finset.card_singleton] at h4
    obtain ⟨B, hB, C, hC, hne⟩ := Finset.one_lt_card.1 h4
    obtain ⟨u, hu⟩ := hpart.nonempty hB
    obtain ⟨v, hv'⟩ := hpart.nonempty hC
    have hun := Finset.mem_range.1 (hpart.subset hB hu)
    have hvn := Finset.mem_range.1 (hpart.subset hC hv')
    obtain ⟨D, hD, huD, hvD⟩ := (h3 u hun v hvn).2 (hc u hun v hvn)
    have e1 := hpart.eq_of_mem hB hD hu huD
    have e2 := hpart.eq_of_mem hC hD hv' hvD
    exact hne (e1.trans e2.symm)

/-- **C98**. For any run of C83 with the error `C`: at a threshold above `C` every cluster is connected. -/
theorem C98_near_clusters {n : ℕ} {E : List Arc} (hv : ValidInput n E) (hn : 2 ≤ n) {C : ℚ} {Ps : List Partition}
    {cv : List ℚ} (h : RunResult n E C Ps cv) {γ : ℚ} (hγ : C < γ) :
    ∀ B ∈ clustersAt Ps cv γ, ∀ u ∈ B, ∀ v ∈ B, ConnectedIn E B u v := by
  have h1 := nearSF_of_near (ValidInput.within hv) (approx_clustersAt (h.approx hv hn) γ)
  intro B hB u hu v hv'
  exact holds_connected (lam := (γ - C) / 2) hv.nonneg (by linarith)
    (sharesMore_incident.1 (near_block_shares h1 (by linarith) hB)) hu hv'

/-- **C98**. If moreover every edge weighs nothing or more than `γ + C`, the clusters are the connected components. -/
theorem C98_near_components {n : ℕ} {E : List Arc} (hv : ValidInput n E) (hn : 2 ≤ n) {C : ℚ} {Ps : List Partition}
    {cv : List ℚ} (h : RunResult n E C Ps cv) {γ : ℚ} (hγ : C < γ) (hw : ∀ e ∈ E, e.cap = 0 ∨ γ + C < e.cap) :
    ∀ u < n, ∀ v < n, (Same (clustersAt Ps cv γ) u v ↔ ConnectedIn E (Finset.range n) u v) := by
  have hpart := (approx_clustersAt (h.approx hv hn) γ).1
  intro u hu v _
  constructor
  · rintro ⟨B, hB, huB, hvB⟩
    exact ConnectedIn.mono (hpart.subset hB) (C98_near_clusters hv hn h hγ B hB u huB v hvB)
  · intro hc
    refine (same_of_eqvGen hpart ?_ hc).elim (fun h' => h' ▸ hpart.same_self (Finset.mem_range.2 hu)) id
    rintro x y ⟨hx, hy, e, he, rfl, rfl, hpos⟩
    refine (C97_graph hv hn h γ).1 ⟨{e.src, e.dst}, ?_, by simp, by simp,
      edge_holds hv.nonneg he (valid_no_loops hv e he) ((hw e he).resolve_left hpos.ne')⟩
    intro z hz
    rcases Finset.mem_insert.1 hz with rfl | hz
    · exact hx
    · rw [Finset.mem_singleton] at hz
      exact hz ▸ hy

/-! ### Examples -/

/-- Two edges without a common end: the components are found at the first critical value, which is zero. -/
def pairsArcs : List Arc := [⟨0, 1, 3⟩, ⟨2, 3, 4⟩]

theorem pairsArcs_valid : ValidInput 4 pairsArcs := by decide +kernel

theorem pairsArcs_tolerance : PdtTolerance exEnv.eps 4 pairsArcs := by
  refine ⟨1 / 10, by norm_num, ?_, ⟨1, by norm_num⟩, ?_, ?_⟩
  · intro e he
    simp only [pairsArcs, List.mem_cons, List.not_mem_nil, or_false] at he
    rcases he with rfl | rfl
    · exact ⟨30, by norm_num⟩
    · exact ⟨40, by norm_num⟩
  · decide +kernel
  · decide +kernel

example : runOnce exEnv exSched 4 pairsArcs "dt" =
    .ok ⟨[{{0, 1, 2, 3}}, {{0, 1}, {2, 3}}, {{0}, {1}, {2, 3}}, {{0}, {1}, {2}, {3}}], [0, 3, 4]⟩ := by decide +kernel

example := C98_components exEnv_good exSched pairsArcs_valid (by norm_num) pairsArcs_tolerance (m := "pdt")
  (by simp [methods])

/-- This graph is not connected. -/
example : ¬ ∀ u < 4, ∀ v < 4, ConnectedIn pairsArcs (Finset.range 4) u v := by
  obtain ⟨r, a, h1, ha, h2⟩ := C98_first exEnv_good exSched pairsArcs_valid (by norm_num) pairsArcs_tolerance
    (m := "dt") (by simp [methods])
  have h3 : runOnce exEnv exSched 4 pairsArcs "dt" =
    .ok ⟨[{{0, 1, 2, 3}}, {{0, 1}, {2, 3}}, {{0}, {1}, {2, 3}}, {{0}, {1}, {2}, {3}}], [0, 3, 4]⟩ := by decide +kernel
  rw [h1] at h3
  cases h3
  cases ha
  rw [← h2]
  exact lt_irrefl 0

/-- The graph of the other examples is connected, because its first critical value is 3. -/
example : ∀ u < 4, ∀ v < 4, ConnectedIn exArcs (Finset.range 4) u v := by
  obtain ⟨r, a, h1, ha, h2⟩ := C98_first exEnv_good exSched exArcs_valid (by norm_num) exEnv_tolerance
    (m := "dt") (by simp [methods])
  obtain ⟨r', a', b', h3, h4, -, h5, -⟩ := C95_bounds exEnv_good exSched exArcs_valid (by norm_num) exEnv_tolerance
    (m := "dt") (by simp [methods]) exArcs_minCut exArcs_maxDegree
  rw [h1] at h3
  cases h3
  rw [ha] at h4
  cases h4
  refine h2.1 ?_
  norm_num at h5
  linarith

/-- `dt` in double precision with a solver that is not exact: its clusters at the threshold 1/100 are connected. -/
example {r : PSPOut} (h : (makeDgraph lemonEps 4 fractionArcs >>=
    dtRunF roundDouble List.reverse exOrd (offSolver (2 ^ 53)⁻¹) lemonEps) = .ok r) :
    ∀ B ∈ clustersAt r.psp r.cv (1 / 100), ∀ u ∈ B, ∀ v ∈ B, ConnectedIn fractionArcs B u v :=
  C98_near_clusters fractionArcs_valid (by norm_num)
    (.dtF roundDouble_spec (offSolver_approx (by positivity) _ _) exOrd_enumerates
      (fun l => List.reverse_perm l) fractionArcs_dtRounding h) (by decide +kernel)

/-- They are even the components. -/
example {r : PSPOut} (h : (makeDgraph lemonEps 4 fractionArcs >>=
    dtRunF roundDouble List.reverse exOrd (offSolver (2 ^ 53)⁻¹) lemonEps) = .ok r) :
    ∀ u < 4, ∀ v < 4, (Same (clustersAt r.psp r.cv (1 / 100)) u v ↔ ConnectedIn fractionArcs (Finset.range 4) u v) :=
  C98_near_components fractionArcs_valid (by norm_num)
    (.dtF roundDouble_spec (offSolver_approx (by positivity) _ _) exOrd_enumerates
      (fun l => List.reverse_perm l) fractionArcs_dtRounding h) (by decide +kernel) (by decide +kernel)

end PSP.Props
