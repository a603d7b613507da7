import Verif.Theory.Shared
import Verif.Props.AICQueries
import Verif.Props.FLS

/-!
# C96: AIC clusters by shared information
-/

namespace PSP.Props

open PSP.Model PSP.Spec PSP.Theory

/-- The answers of the object `h` in terms of the information `φ` of the sets of points. -/
structure AnswersShared (n : ℕ) (h : HC) (φ : Finset ℕ → ℚ) : Prop where
  /-- `getCluster(i, γ)` lists the points that lie together with `i` in a set sharing more than `γ`. -/
  cluster : ∀ (γ : ℚ) (i : ℕ), i < n → ∃ D, h.getCluster i (γ : ℚ) = .ok D ∧ D.Nodup ∧
    ∀ v, v ∈ D ↔ ∃ S ⊆ Finset.range n, i ∈ S ∧ v ∈ S ∧ SharesMore φ γ S
  /-- `similarity(i, j)` is the most that a set containing `i` and `j` shares. -/
  similarity : ∀ i j, i < n → j < n → i ≠ j → ∃ c : ℚ, h.similarity i j = .ok ((c : WithBot ℚ) : WithTop (WithBot ℚ)) ∧
    ∀ γ : ℚ, γ < c ↔ ∃ S ⊆ Finset.range n, i ∈ S ∧ j ∈ S ∧ SharesMore φ γ S
  /-- The smallest critical value is the information shared by all points. -/
  smallest : 2 ≤ n → ∃ c, h.getCriticalValues.getLast? = some c ∧ IsLeast
    {x | ∃ P, IsPartition (Finset.range n) P ∧ 2 ≤ P.card ∧ x = common φ (Finset.range n) P / ((P.card : ℚ) - 1)} c
  /-- The largest one is the largest total correlation per additional point. -/
  largest : 2 ≤ n → ∃ c, h.getCriticalValues.head? = some c ∧ IsGreatest
    {x | ∃ S ⊆ Finset.range n, 2 ≤ S.card ∧ x = common φ S (singletons S) / ((S.card : ℚ) - 1)} c

/-- An object that answers according to the principal sequence of an intersecting submodular function. -/
theorem C96_object {n : ℕ} {o : HC} {ps : List Partition} {cv : List ℚ} (ho : Answers n o ps cv) {φ : Finset ℕ → ℚ}
    (hφ : Intersecting (Finset.range n) φ) (hs : IsPrincipalSequenceSF φ (Finset.range n) ps cv) : AnswersShared n o φ := by
  have hcl : ∀ (γ : ℚ) P, PartitionAt ps cv (γ : ℚ) P → ∀ u v,
      (Same P u v ↔ ∃ S ⊆ Finset.range n, u ∈ S ∧ v ∈ S ∧ SharesMore φ γ S) := by
    rintro γ P ⟨i, h1, h2⟩ u v
    have h3 : ∀ (j : ℕ) (c : ℚ), cv[j]? = some c → (j < i ↔ c ≤ γ) := fun j c hj =>
      (h2 j c hj).trans WithBot.coe_le_coe
    exact sf_cluster hφ hs h1 (fun j c hj hji => (h3 j c hj).1 hji) fun j c hj hij =>
      not_le.1 fun hc => by have := (h3 j c hj).2 hc; omega
  have hc := sf_clusters hφ hs
  have hne : 2 ≤ n → cv ≠ [] := fun h2 => hc.some_value (by rwa [Finset.card_range])
  have hmono := hs.increasing.imp (fun h => le_of_lt h)
  obtain ⟨hsort, hmem⟩ := ho.values
  refine ⟨fun γ i hi => ?_, fun i j hi hj hij => ?_, fun h2 => ?_, fun h2 => ?_⟩
  · obtain ⟨D, P, h1, h2, h3, h4, h5⟩ := ho.cluster (γ : ℚ) i hi
    refine ⟨D, h1, h3, fun v => ?_⟩
    rw [← hcl γ P h2]
    have hP : IsPartition (Finset.range n) P := by
      obtain ⟨k, h6, h7⟩ := h2
      refine (hs.optimal k P γ h6 (fun j c hj hji => WithBot.coe_le_coe.1 ((h7 j c hj).1 hji)) fun j c hj hij => ?_).1
      by_contra hcon
      have := (h7 j c hj).2 (WithBot.coe_le_coe.2 (not_le.1 hcon).le)
      omega
    refine ⟨fun hv => ⟨_, h5, by simpa using h4, by simpa using hv⟩, ?_⟩
    rintro ⟨B, hB, hiB, hvB⟩
    rw [← hP.eq_of_mem h5 hB (List.mem_toFinset.2 h4) hiB] at hvB
    simpa using hvB
  · obtain ⟨c, -, h1, h2⟩ := ho.similarity i j hi hj hij
    refine ⟨c, h1, fun γ => ?_⟩
    obtain ⟨L, -, -, -, h3⟩ := ho.partition (γ : ℚ)
    rw [← hcl γ _ h3, h2 _ _ h3, WithBot.coe_lt_coe]
  · obtain ⟨c, hcv⟩ : ∃ c, cv.head? = some c := ⟨cv.head (hne h2), List.head?_eq_some_head _⟩
    refine ⟨c, ?_, hc.first c hcv⟩
    have hin : c ∈ o.getCriticalValues := (hmem c).2 (List.mem_of_mem_head? hcv)
    have hg : o.getCriticalValues ≠ [] := List.ne_nil_of_mem hin
    rw [List.getLast?_eq_some_getLast hg]
    congr 1
    refine le_antisymm ?_ ?_
    · rcases List.mem_iff_getElem.1 hin with ⟨k, hk, hkc⟩
      rw [List.getLast_eq_getElem, ← hkc]
      rcases Nat.lt_or_ge k (o.getCriticalValues.length - 1) with hlt | hge
      · exact (List.pairwise_iff_getElem.1 hsort k _ hk (by omega) hlt).le
      · exact le_of_eq (by congr 1; omega)
    · have hl := (hmem _).1 (List.getLast_mem hg)
      cases cv with
      | nil => simp at hcv
      | cons a t =>
        simp only [List.head?_cons, Option.some.injEq] at hcv
        subst hcv
        rcases List.mem_cons.1 hl with h | h
        · rw [h]
        · exact (List.pairwise_cons.1 hmono).1 _ h
  · obtain ⟨c, hcv⟩ : ∃ c, cv.getLast? = some c := ⟨cv.getLast (hne h2), List.getLast?_eq_some_getLast _⟩
    refine ⟨c, ?_, hc.last c hcv⟩
    have hin : c ∈ o.getCriticalValues := (hmem c).2 (List.mem_of_getLast? hcv)
    have hg : o.getCriticalValues ≠ [] := List.ne_nil_of_mem hin
    rw [List.head?_eq_some_head hg]
    congr 1
    refine le_antisymm ?_ ?_
    · have hl := (hmem _).1 (List.head_mem hg)
      rcases List.mem_iff_getElem.1 hl with ⟨k, hk, hkc⟩
      rw [List.getLast?_eq_getElem?] at hcv
      rw [← hkc]
      exact getElem?_mono hmono (List.getElem?_eq_getElem hk) hcv (by omega)
    · generalize hC : o.getCriticalValues = C at hin hg hsort
      cases C with
      | nil => simp at hg
      | cons a t =>
        rcases List.mem_cons.1 hin with h | h
        · rw [h]; simp
        · exact ((List.pairwise_cons.1 hsort).1 _ h).le

/-- A whole program for hypergraphs: agglomerate with an exact solver and small tolerances, then ask the object. The proviso
is that of `C45_aic`. -/
theorem C96_hypergraph {N : Numerics} (hN : ∀ n, ExactNumerics N n) (hth : ∀ k Q, N.throws k Q = false)
    {M : List (List ℚ)} (cols : ℕ) (hn : 0 < M.length) :
    ∃ e t0 : ℚ, ∃ K : ℕ, 0 < e ∧ 0 < t0 ∧ ∀ eps tol fuel, 0 < eps → eps ≤ e → 0 < tol → tol ≤ t0 →
      K ≤ fuel → (∀ L R j, IsClustering M.length R L → j < L.length →
        NotStuck N (sfJoin (sfContract (hypergraphEntropy M cols) L) j) tol eps fuel) →
      ∃ o ps cv, aicObject (mnbOf N tol eps fuel) (hypergraphEntropy M cols) tol (M.length + 1) (HC.new M.length) = .ok o ∧
        AnswersShared M.length o (weightMax M cols) ∧
        aggRunSF (mnbOf N tol eps fuel) (hypergraphEntropy M cols) tol = .ok (ps, cv) ∧
        AreClusters (weightMax M cols) (Finset.range M.length) ps cv := by
  obtain ⟨e, t0, K, he, ht, h⟩ := C45_aic hN hth cols hn
  refine ⟨e, t0, K, he, ht, fun eps tol fuel h1 h2 h3 h4 h5 h6 => ?_⟩
  obtain ⟨ps, cv, hrun, hps⟩ := h eps tol fuel h1 h2 h3 h4 h5 h6
  obtain ⟨o, ho, hans⟩ := C93_queries_exact _ (hypergraphEntropy M cols) hn tol hrun
  exact ⟨o, ps, cv, ho, C96_object hans (weightMax_intersecting M cols _) hps, hrun,
    sf_clusters (weightMax_intersecting M cols _) hps⟩

/-- With at most four nodes the proviso is not needed. -/
theorem C96_hypergraph_four {N : Numerics} (hN : ∀ n, ExactNumerics N n) (hth : ∀ k Q, N.throws k Q = false)
    {M : List (List ℚ)} (cols : ℕ) (hn : 0 < M.length) (hn4 : M.length ≤ 4) :
    ∃ e t0 : ℚ, ∃ K : ℕ, 0 < e ∧ 0 < t0 ∧ ∀ eps tol fuel, 0 < eps → eps ≤ e → 0 < tol → tol ≤ t0 → K ≤ fuel →
      ∃ o ps cv, aicObject (mnbOf N tol eps fuel) (hypergraphEntropy M cols) tol (M.length + 1) (HC.new M.length) = .ok o ∧
        AnswersShared M.length o (weightMax M cols) ∧
        aggRunSF (mnbOf N tol eps fuel) (hypergraphEntropy M cols) tol = .ok (ps, cv) ∧
        AreClusters (weightMax M cols) (Finset.range M.length) ps cv := by
  obtain ⟨e, t0, K, he, ht, h⟩ := C45_aic_four hN hth cols hn hn4
  refine ⟨e, t0, K, he, ht, fun eps tol fuel h1 h2 h3 h4 h5 => ?_⟩
  obtain ⟨ps, cv, hrun, hps⟩ := h eps tol fuel h1 h2 h3 h4 h5
  obtain ⟨o, ho, hans⟩ := C93_queries_exact _ (hypergraphEntropy M cols) hn tol hrun
  exact ⟨o, ps, cv, ho, C96_object hans (weightMax_intersecting M cols _) hps, hrun,
    sf_clusters (weightMax_intersecting M cols _) hps⟩

variable {F : Type} [Field F] [DecidableEq F]

/-- The same for finite linear sources, with the proviso of `C49_aic`. -/
theorem C96_sources {N : Numerics} (hN : ∀ n, ExactNumerics N n) (hth : ∀ k Q, N.throws k Q = false)
    {unit : ℚ} (hu : 0 ≤ unit) {cols : ℕ} {M : List (List (List ℤ))}
    (hM : ∀ A ∈ M, ∀ r ∈ A, r.length = cols) (hn : 0 < M.length) :
    ∃ e t0 : ℚ, ∃ K : ℕ, 0 < e ∧ 0 < t0 ∧ ∀ eps tol fuel, 0 < eps → eps ≤ e → 0 < tol → tol ≤ t0 →
      K ≤ fuel → (∀ L R j, IsClustering M.length R L → j < L.length →
        NotStuck N (sfJoin (sfContract (finiteLinear F unit cols M) L) j) tol eps fuel) →
      ∃ o ps cv, aicObject (mnbOf N tol eps fuel) (finiteLinear F unit cols M) tol (M.length + 1) (HC.new M.length) = .ok o ∧
        AnswersShared M.length o (fun B => unit * rowRank F cols M B) ∧
        aggRunSF (mnbOf N tol eps fuel) (finiteLinear F unit cols M) tol = .ok (ps, cv) ∧
        AreClusters (fun B => unit * rowRank F cols M B) (Finset.range M.length) ps cv := by
  obtain ⟨e, t0, K, he, ht, h⟩ := C49_aic (F := F) hN hth hu hM hn
  refine ⟨e, t0, K, he, ht, fun eps tol fuel h1 h2 h3 h4 h5 h6 => ?_⟩
  obtain ⟨ps, cv, hrun, hps⟩ := h eps tol fuel h1 h2 h3 h4 h5 h6
  obtain ⟨o, ho, hans⟩ := C93_queries_exact _ (finiteLinear F unit cols M) hn tol hrun
  exact ⟨o, ps, cv, ho, C96_object hans (rowRank_intersecting hu cols M _) hps, hrun,
    sf_clusters (rowRank_intersecting hu cols M _) hps⟩

/-- With at most four sources the proviso is not needed. -/
theorem C96_sources_four {N : Numerics} (hN : ∀ n, ExactNumerics N n) (hth : ∀ k Q, N.throws k Q = false)
    {unit : ℚ} (hu : 0 ≤ unit) {cols : ℕ} {M : List (List (List ℤ))}
    (hM : ∀ A ∈ M, ∀ r ∈ A, r.length = cols) (hn : 0 < M.length) (hn4 : M.length ≤ 4) :
    ∃ e t0 : ℚ, ∃ K : ℕ, 0 < e ∧ 0 < t0 ∧ ∀ eps tol fuel, 0 < eps → eps ≤ e → 0 < tol → tol ≤ t0 → K ≤ fuel →
      ∃ o ps cv, aicObject (mnbOf N tol eps fuel) (finiteLinear F unit cols M) tol (M.length + 1) (HC.new M.length) = .ok o ∧
        AnswersShared M.length o (fun B => unit * rowRank F cols M B) ∧
        aggRunSF (mnbOf N tol eps fuel) (finiteLinear F unit cols M) tol = .ok (ps, cv) ∧
        AreClusters (fun B => unit * rowRank F cols M B) (Finset.range M.length) ps cv := by
  obtain ⟨e, t0, K, he, ht, h⟩ := C49_aic_four (F := F) hN hth hu hM hn hn4
  refine ⟨e, t0, K, he, ht, fun eps tol fuel h1 h2 h3 h4 h5 => ?_⟩
  obtain ⟨ps, cv, hrun, hps⟩ := h eps tol fuel h1 h2 h3 h4 h5
  obtain ⟨o, ho, hans⟩ := C93_queries_exact _ (finiteLinear F unit cols M) hn tol hrun
  exact ⟨o, ps, cv, ho, C96_object hans (rowRank_intersecting hu cols M _) hps, hrun,
    sf_clusters (rowRank_intersecting hu cols M _) hps⟩

/-- Three nodes and two hyperedges, the heavier one through the last two nodes: all three nodes share 1, these two share 3. -/
def sharedHypergraph : List (List ℚ) := [[1, 0], [1, 2], [1, 2]]

example : common (weightMax sharedHypergraph 2) {0, 1, 2} {{0}, {1, 2}} = 1 ∧
    common (weightMax sharedHypergraph 2) {1, 2} {{1}, {2}} = 3 := by decide +kernel

/-- The object in this case. -/
def sharedObject : Outcome HC :=
  aicObject (mnbOf gaussNumerics (1 / 10 ^ 6) (1 / 10 ^ 15) 50) (hypergraphEntropy sharedHypergraph 2) (1 / 10 ^ 6) 4 (HC.new 3)

example : (do let o ← sharedObject; o.getCluster 1 ((2 : ℚ) : WithBot ℚ)) = .ok [1, 2] ∧
    (do let o ← sharedObject; o.similarity 1 2) = .ok ((3 : ℚ) : WithBot ℚ) ∧
    (do let o ← sharedObject; o.similarity 0 2) = .ok ((1 : ℚ) : WithBot ℚ) ∧
    (do let o ← sharedObject; return o.getCriticalValues) = Outcome.ok [3, 1] := by decide +kernel

/-- The theorem applies to it. -/
example : ∃ e t0 : ℚ, ∃ K : ℕ, 0 < e ∧ 0 < t0 ∧ ∀ eps tol fuel, 0 < eps → eps ≤ e → 0 < tol → tol ≤ t0 → K ≤ fuel →
    ∃ o, aicObject (mnbOf gaussNumerics tol eps fuel) (hypergraphEntropy sharedHypergraph 2) tol 4 (HC.new 3) = .ok o ∧
      AnswersShared 3 o (weightMax sharedHypergraph 2) := by
  obtain ⟨e, t0, K, he, ht, h⟩ := C96_hypergraph_four (M := sharedHypergraph) gaussNumerics_exact
    (fun _ _ => rfl) 2 (by decide) (by decide)
  refine ⟨e, t0, K, he, ht, fun eps tol fuel h1 h2 h3 h4 h5 => ?_⟩
  obtain ⟨o, _, _, k1, k2, _⟩ := h eps tol fuel h1 h2 h3 h4 h5
  exact ⟨o, k1, k2⟩

end PSP.Props
