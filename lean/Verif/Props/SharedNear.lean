import Verif.Props.Shared
import Verif.Props.AggAnyFunctorF
import Verif.Props.Compare

/-!
# C97: AIC in floating-point arithmetic clusters by shared information up to an error
-/

namespace PSP.Props

open PSP.Model PSP.Spec PSP.Theory

/-- The answers of the object `h` in terms of the information `φ` of the sets of points, up to the error `C`. -/
structure AnswersNear (n : ℕ) (h : HC) (φ : Finset ℕ → ℚ) (C : ℚ) : Prop where
  /-- `getCluster(i, γ)` contains every set that contains `i` and shares more than `γ + C`; and its points lie together with
  `i` in sets that share more than any number below `γ - C`. -/
  cluster : ∀ (γ : ℚ) (i : ℕ), i < n → ∃ D, h.getCluster i (γ : ℚ) = .ok D ∧ D.Nodup ∧
    (∀ S ⊆ Finset.range n, i ∈ S → SharesMore φ (γ + C) S → ∀ v ∈ S, v ∈ D) ∧
    ∀ v ∈ D, ∀ γ' < γ - C, ∃ S ⊆ Finset.range n, i ∈ S ∧ v ∈ S ∧ SharesMore φ γ' S
  /-- `similarity(i, j)` is within `C` of the most that a set containing `i` and `j` shares. -/
  similarity : ∀ i j, i < n → j < n → i ≠ j → ∃ c : ℚ, h.similarity i j = .ok ((c : WithBot ℚ) : WithTop (WithBot ℚ)) ∧
    (∀ γ < c - C, ∃ S ⊆ Finset.range n, i ∈ S ∧ j ∈ S ∧ SharesMore φ γ S) ∧
    ∀ γ, (∃ S ⊆ Finset.range n, i ∈ S ∧ j ∈ S ∧ SharesMore φ γ S) → γ < c + C

/-- An object that answers according to a sequence of partitions within `C` of the optimum. -/
theorem C97_object {n : ℕ} {o : HC} {ps : List Partition} {cv : List ℚ} (ho : Answers n o ps cv) {φ : Finset ℕ → ℚ} {C : ℚ}
    (hφ : Intersecting (Finset.range n) φ) (hs : IsApproximateSequenceSF φ (Finset.range n) C ps cv) :
    AnswersNear n o φ C := by
  have hopt : ∀ (γ : ℚ) P, PartitionAt ps cv (γ : ℚ) P → IsNearOptimalSF φ (Finset.range n) C γ P := by
    rintro γ P ⟨i, h1, h2⟩
    have h3 : ∀ (j : ℕ) (c : ℚ), cv[j]? = some c → (j < i ↔ c ≤ γ) := fun j c hj =>
      (h2 j c hj).trans WithBot.coe_le_coe
    exact hs.optimal i P γ h1 (fun j c hj hji => (h3 j c hj).1 hji) fun j c hj hij =>
      (not_le.1 fun hc => by have := (h3 j c hj).2 hc; omega).le
  refine ⟨fun γ i hi => ?_, fun i j hi hj hij => ?_⟩
  · obtain ⟨D, P, h1, h2, h3, h4, h5⟩ := ho.cluster (γ : ℚ) i hi
    have hP := hopt γ P h2
    refine ⟨D, h1, h3, fun S hS hiS hSh v hv => ?_, fun v hv γ' hγ' => ?_⟩
    · obtain ⟨B, hB, hiB, hvB⟩ := near_same hφ hP hS hSh hiS hv
      rw [← hP.1.eq_of_mem h5 hB (List.mem_toFinset.2 h4) hiB] at hvB
      simpa using hvB
    · exact ⟨_, hP.1.subset h5, by simpa using h4, by simpa using hv, near_block_shares hP hγ' h5⟩
  · obtain ⟨c, -, h1, h2⟩ := ho.similarity i j hi hj hij
    refine ⟨c, h1, fun γ hγ => ?_, ?_⟩
    · obtain ⟨L, -, -, -, h3⟩ := ho.partition (((γ + C + c) / 2 : ℚ) : WithBot ℚ)
      have hP := hopt _ _ h3
      obtain ⟨B, hB, hiB, hjB⟩ := (h2 _ _ h3).2 (WithBot.coe_lt_coe.2 (by linarith))
      exact ⟨B, hP.1.subset hB, hiB, hjB, near_block_shares hP (by linarith) hB⟩
    · rintro γ ⟨S, hS, hiS, hjS, hSh⟩
      by_contra hcon
      obtain ⟨L, -, -, -, h3⟩ := ho.partition (c : WithBot ℚ)
      have hP := hopt _ _ h3
      have := near_same hφ hP hS (fun Q hQ hQ2 => (mul_le_mul_of_nonneg_right (not_lt.1 hcon)
        (card_sub_one_pos hQ2).le).trans_lt (hSh Q hQ hQ2)) hiS hjS
      exact lt_irrefl _ ((h2 _ _ h3).1 this)

/-- A whole program in floating-point arithmetic: agglomerate a hypergraph, and if this ends, ask the object. The hypotheses
are those of `C89_hypergraph_partial`; what is missing is what is missing there. -/
theorem C97_hypergraph_partial {p : ℕ} {fl : ℚ → ℚ} (hfl : FloatingPoint p fl) {M : List (List ℚ)} {cols : ℕ}
    (hn : 0 < M.length) (h0 : ∀ row ∈ M, ∀ x ∈ row, 0 ≤ x) (hfix : ∀ row ∈ M, ∀ x ∈ row, fl x = x) {N : Numerics}
    (hN : PlainNumerics N) {K : ℚ} (hK : FormatSolver fl N K) (hKp : 4 * (M.length + 1) * K ≤ 4 ^ p)
    (hc : aggError p cols M.length ≤ 1 / 64) {W tol eps δ : ℚ}
    (hW : ∑ v ∈ Finset.range M.length, weightMax M cols {v} ≤ W) (hWp : 4 / 2 ^ p ≤ W)
    (heps : 4 / 2 ^ p ≤ eps) (htol : 4 / 2 ^ p ≤ tol) (htol1 : tol ≤ 1) (hr : 256 * M.length * W ^ 2 ≤ 4 ^ p) (hδ : 0 ≤ δ)
    (hδ2 : (1 + 8 * aggError p cols M.length) * tol + 90 * M.length * aggError p cols M.length * W ^ 2 ≤ δ ^ 2)
    (ht : W + δ + tol ≤ 2 ^ p * tol) {fuel : ℕ}
    (hcert : AllOptimalF fl (N.seqF fl) (hypergraphEntropyF fl M cols) tol eps fuel) :
    (∀ k, aggLoopF fl (mnbOfF fl (N.seqF fl) tol eps fuel) (hypergraphEntropyF fl M cols) tol k (HC.new M.length)
      [singletons (Finset.range M.length)] [] = .fuel) ∨
    ∃ o, aicObjectF fl (mnbOfF fl (N.seqF fl) tol eps fuel) (hypergraphEntropyF fl M cols) tol (M.length + 1)
        (HC.new M.length) = .ok o ∧ AnswersNear M.length o (weightMax M cols) (aggRunError M.length (2 * tol) δ) := by
  rcases C89_hypergraph_partial hfl hn h0 hfix hN hK hKp hc hW hWp heps htol htol1 hr hδ hδ2 ht hcert with
    h | ⟨ps, cv, hrun, hps⟩
  · exact .inl h
  · obtain ⟨o, ho, hans⟩ := C93_queries _ _ (hypergraphEntropyF fl M cols) hn tol hrun
    exact .inr ⟨o, ho, C97_object hans (weightMax_intersecting M cols _) hps⟩

/-- The same for a finite linear source. -/
theorem C97_sources_partial {p : ℕ} {fl : ℚ → ℚ} (hfl : FloatingPoint p fl) {F : Type} [Field F] [DecidableEq F] {unit : ℚ}
    (hu : 1 ≤ unit) {cols : ℕ} {M : List (List (List ℤ))} (hM : ∀ A ∈ M, ∀ r ∈ A, r.length = cols) (hn : 0 < M.length)
    {N : Numerics} (hN : PlainNumerics N) {K : ℚ} (hK : FormatSolver fl N K) (hKp : 4 * (M.length + 1) * K ≤ 4 ^ p)
    (hc : aggError p 1 M.length ≤ 1 / 64) {W tol eps δ : ℚ}
    (hW : ∑ v ∈ Finset.range M.length, unit * rowRank F cols M {v} ≤ W) (hWp : 4 / 2 ^ p ≤ W)
    (heps : 4 / 2 ^ p ≤ eps) (htol : 4 / 2 ^ p ≤ tol) (htol1 : tol ≤ 1) (hr : 256 * M.length * W ^ 2 ≤ 4 ^ p) (hδ : 0 ≤ δ)
    (hδ2 : (1 + 8 * aggError p 1 M.length) * tol + 90 * M.length * aggError p 1 M.length * W ^ 2 ≤ δ ^ 2)
    (ht : W + δ + tol ≤ 2 ^ p * tol) {fuel : ℕ}
    (hcert : AllOptimalF fl (N.seqF fl) (finiteLinearF F fl unit cols M) tol eps fuel) :
    (∀ k, aggLoopF fl (mnbOfF fl (N.seqF fl) tol eps fuel) (finiteLinearF F fl unit cols M) tol k (HC.new M.length)
      [singletons (Finset.range M.length)] [] = .fuel) ∨
    ∃ o, aicObjectF fl (mnbOfF fl (N.seqF fl) tol eps fuel) (finiteLinearF F fl unit cols M) tol (M.length + 1)
        (HC.new M.length) = .ok o ∧
      AnswersNear M.length o (fun B => unit * rowRank F cols M B) (aggRunError M.length (2 * tol) δ) := by
  rcases C89_linear_partial hfl hu hM hn hN hK hKp hc hW hWp heps htol htol1 hr hδ hδ2 ht hcert with
    h | ⟨ps, cv, hrun, hps⟩
  · exact .inl h
  · obtain ⟨o, ho, hans⟩ := C93_queries _ _ (finiteLinearF F fl unit cols M) hn tol hrun
    exact .inr ⟨o, ho, C97_object hans (rowRank_intersecting (by linarith) cols M _) hps⟩

/-- Runs with `double` and the tolerances of the code; the error is at most 1/8. -/
example : ∃ o, doubleObject = .ok o ∧ AnswersNear 3 o (weightMax doubleWeights 3) (1 / 8) := by
  obtain ⟨ps, cv, h1, _, h3⟩ := doubleHypergraph_run
  obtain ⟨o, k1, k2⟩ := C93_queries _ _ doubleHypergraph (by decide) _ h1
  exact ⟨o, k1, C97_object k2 (weightMax_intersecting _ _ _) h3⟩

/-- What the points of the larger cluster share, and their similarity, which differs in the last digits. -/
example : common (weightMax doubleWeights 3) {1, 2} {{1}, {2}} = 11580684756095561 / 2 ^ 53 ∧
    (do let o ← doubleObject; o.similarity 1 2) = .ok ((2895171189023889 / 2 ^ 51 : ℚ) : WithBot ℚ) := by decide +kernel

/-- For graphs, any run of C83 (the methods `dt`, `pdt`, `pdt_r`, `psp_i`, `hpsp` and `agg_psp` with tolerances, all but
`hpsp` also with rounding): a set that holds together at the threshold plus the error lies in one cluster, and nodes of a
common cluster lie in a set that holds together at the threshold minus the error. -/
theorem C97_graph {n : ℕ} {E : List Arc} (hv : ValidInput n E) (hn : 2 ≤ n) {C : ℚ} {Ps : List Partition} {cv : List ℚ}
    (h : RunResult n E C Ps cv) (γ : ℚ) {u v : ℕ} :
    ((∃ S ⊆ Finset.range n, u ∈ S ∧ v ∈ S ∧ HoldsTogether E (γ + C) S) → Same (clustersAt Ps cv γ) u v) ∧
    (Same (clustersAt Ps cv γ) u v → ∀ γ' < γ - C, ∃ S ⊆ Finset.range n, u ∈ S ∧ v ∈ S ∧ HoldsTogether E γ' S) := by
  have h1 := nearSF_of_near (ValidInput.within hv) (approx_clustersAt (h.approx hv hn) γ)
  constructor
  · rintro ⟨S, hS, hu, hv', hh⟩
    exact near_same (incident_intersecting hv.nonneg _) h1 hS (sharesMore_incident.2 hh) hu hv'
  · rintro ⟨B, hB, hu, hv'⟩ γ' hγ
    exact ⟨B, h1.1.subset hB, hu, hv', sharesMore_incident.1 (near_block_shares h1 hγ hB)⟩

/-- `dt` in double precision with a solver that is not exact. -/
example {r : PSPOut} (h : (makeDgraph lemonEps 4 fractionArcs >>=
    dtRunF roundDouble List.reverse exOrd (offSolver (2 ^ 53)⁻¹) lemonEps) = .ok r) (γ : ℚ) (u v : ℕ) :=
  C97_graph (u := u) (v := v) fractionArcs_valid (by norm_num)
    (.dtF roundDouble_spec (offSolver_approx (by positivity) _ _) exOrd_enumerates
      (fun l => List.reverse_perm l) fractionArcs_dtRounding h) γ

end PSP.Props
