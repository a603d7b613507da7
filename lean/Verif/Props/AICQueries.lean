import Verif.Theory.AICQueries
import Verif.Spec.ApproxSF
import Verif.Props.AggShape

/-!
# C93: what the `AIC` object answers after agglomeration
-/

namespace PSP.Props

open PSP.Model PSP.Spec PSP.Theory

/-- The answers of the object `h` at every threshold are those of the sequence `Ps` with the values `cv`. -/
structure Answers (n : ℕ) (h : HC) (Ps : List Partition) (cv : List ℚ) : Prop where
  /-- `getPartition`: every block once, and every point once. -/
  partition : ∀ gam, ∃ L, h.getPartition gam = .ok L ∧ L.flatten.Nodup ∧ (toPartition L).card = L.length ∧
    PartitionAt Ps cv gam (toPartition L)
  /-- `getCluster`: the block of `i`. -/
  cluster : ∀ gam i, i < n → ∃ D P, h.getCluster i gam = .ok D ∧ PartitionAt Ps cv gam P ∧ D.Nodup ∧ i ∈ D ∧ D.toFinset ∈ P
  /-- `getCriticalValues`: every value once, in descending order. -/
  values : h.getCriticalValues.Pairwise (· > ·) ∧ ∀ c, c ∈ h.getCriticalValues ↔ c ∈ cv
  /-- `similarity`: the value up to which the points are in the same block. -/
  similarity : ∀ i j, i < n → j < n → i ≠ j → ∃ c ∈ cv, h.similarity i j = .ok ((c : WithBot ℚ) : WithTop (WithBot ℚ)) ∧
    ∀ gam P, PartitionAt Ps cv gam P → (Same P i j ↔ gam < (c : WithBot ℚ))

theorem answers_of_state {n : ℕ} (hn : 0 < n) {h : HC} {A : List Link} {Ps : List Partition} {cv : List ℚ}
    (st : QueryState n h A Ps cv) (hs : IsHierarchy (Finset.range n) Ps cv) : Answers n h Ps cv := by
  have hvals : ∀ c, c ∈ h.gamma ↔ c ∈ cv := fun c => (st.inv.mem c).trans (st.links c)
  have hsame : ∀ gam P, PartitionAt Ps cv gam P → ∀ v w, v < n → w < n → (Same P v w ↔ FJ h gam v w) := by
    intro gam P hP v w hv hw
    obtain ⟨Q, k1, -, k2⟩ := st.at_ gam
    rw [PartitionAt.unique hs.length hP k1, k2 v w hv hw, st.inv.fj]
  refine ⟨fun gam => ?_, fun gam i hi => ?_, ⟨st.inv.sorted, hvals⟩, fun i j hi hj hij => ?_⟩
  · obtain ⟨L, h1, h2, h3⟩ := st.getPartition hn gam
    exact ⟨L, h1, h2.once, by rw [toPartition_eq]; exact (clustering_blocks (h2.congr (st.inv.fj gam))).card, h3⟩
  · obtain ⟨D, h1, h2⟩ := getCluster_spec st.inv.forest (by rw [st.size]; exact hi) gam
    obtain ⟨P, k1, k2, k3⟩ := st.at_ gam
    have hin : ∀ v, v ∈ D ↔ Same P i v := by
      intro v
      rw [h2.mem, st.inv.fj]
      by_cases hv : v < n
      · exact (k3 i v hi hv).symm
      · refine iff_of_false (fun hh => ?_) fun hh => hv (Finset.mem_range.1 (hh.mem_right k2))
        have hout : ∀ x y, Joined A gam x y → (x < n ↔ y < n) := by
          intro x y hxy
          induction hxy with
          | rel x y hr =>
            obtain ⟨a, ha, rfl, rfl, -⟩ := hr
            have := st.inv.range a ha
            rw [st.size] at this
            exact iff_of_true this.1 this.2
          | refl => exact Iff.rfl
          | symm _ _ _ ih => exact ih.symm
          | trans _ _ _ _ _ ih1 ih2 => exact ih1.trans ih2
        exact hv ((hout i v hh).1 hi)
    obtain ⟨B, hB, hiB, -⟩ := k2.same_self (Finset.mem_range.2 hi)
    have hDB : D.toFinset = B := by
      ext v
      rw [List.mem_toFinset, hin]
      refine ⟨fun ⟨C, hC, hiC, hvC⟩ => ?_, fun hv => ⟨B, hB, hiB, hv⟩⟩
      rwa [k2.eq_of_mem hB hC hiB hiC]
    exact ⟨D, P, h1, k1, h2.nodup, (hin i).2 ⟨B, hB, hiB, hiB⟩, by rw [hDB]; exact hB⟩
  · obtain ⟨s, h1, h2⟩ := similarity_spec st.inv.forest (by rw [st.size]; exact hi) (by rw [st.size]; exact hj) hij
    have htop : PartitionAt Ps cv ⊥ {Finset.range n} := by
      refine ⟨0, ?_, fun j c _ => iff_of_false (by omega) (by simp)⟩
      rw [← List.head?_eq_getElem?]; exact hs.first
    rcases h2 with ⟨hno, -⟩ | ⟨w, rfl, h3, x, h4, h5⟩
    · exact absurd ((hsame _ _ htop i j hi hj).1 ⟨_, Finset.mem_singleton_self _, Finset.mem_range.2 hi,
        Finset.mem_range.2 hj⟩) hno
    · refine ⟨w, ?_, h1, fun gam P hP => (hsame gam P hP i j hi hj).trans (h3 gam)⟩
      obtain ⟨g, hg, hgx⟩ := st.inv.values x h4
      rw [h5] at hgx
      rw [WithBot.coe_inj.1 hgx]
      exact (hvals g).1 hg

/-- If `Agglomerative_PSP::run` with any functor, `min_norm_base`, tolerance and rounding returns the partitions `ps` and the
values `cv`, then its `AIC` object is in a state whose queries answer according to `ps` and `cv`. -/
theorem C93_queries (fl : ℚ → ℚ) (mnb : SF → Outcome (List ℚ)) (f : SF) (hn : 0 < f.size) (tol : ℚ) {ps : List Partition}
    {cv : List ℚ} (h : aicRunF fl mnb f tol = .ok (ps, cv)) :
    ∃ o, aicObjectF fl mnb f tol (f.size + 1) (HC.new f.size) = .ok o ∧ Answers f.size o ps cv := by
  have hs := C92_hierarchy fl mnb f hn tol h
  obtain ⟨L, hL1, -, hL2⟩ := new_coarsest hn
  unfold aicRunF at h
  dsimp only at h
  rw [hL1, Outcome.ok_bind, hL2, aggLoopF_with] at h
  obtain ⟨o, A, h1, h2⟩ := runWith_queries hn (agglomerateWith_mergesOnly hn _ _ _) _ h
  exact ⟨o, by rw [aicObjectF_with]; exact h1, answers_of_state hn h2 hs⟩

/-- The same without rounding. -/
theorem C93_queries_exact (mnb : SF → Outcome (List ℚ)) (f : SF) (hn : 0 < f.size) (tol : ℚ) {ps : List Partition}
    {cv : List ℚ} (h : aggRunSF mnb f tol = .ok (ps, cv)) :
    ∃ o, aicObject mnb f tol (f.size + 1) (HC.new f.size) = .ok o ∧ Answers f.size o ps cv := by
  have hs := C92_hierarchy_exact mnb f hn tol h
  obtain ⟨L, hL1, -, hL2⟩ := new_coarsest hn
  unfold aggRunSF at h
  dsimp only at h
  rw [hL1, Outcome.ok_bind, hL2, aggLoop_with] at h
  obtain ⟨o, A, h1, h2⟩ := runWith_queries hn (agglomerateWith_mergesOnly hn _ _ _) _ h
  exact ⟨o, by rw [aicObject_with]; exact h1, answers_of_state hn h2 hs⟩

/-- When the sequence is the principal sequence of partitions of `φ`, `getPartition(γ)` returns the optimal partition at `γ`
that has the most blocks, and no other optimal partition has as many. -/
theorem C93_optimal {n : ℕ} {o : HC} {ps : List Partition} {cv : List ℚ} (ho : Answers n o ps cv) {φ : Finset ℕ → ℚ}
    (hs : IsPrincipalSequenceSF φ (Finset.range n) ps cv) (γ : ℚ) :
    ∃ L, o.getPartition (γ : ℚ) = .ok L ∧ IsOptimalSF φ (Finset.range n) γ (toPartition L) ∧
      ∀ R, IsOptimalSF φ (Finset.range n) γ R → R.card ≤ L.length ∧ (R.card = L.length → R = toPartition L) := by
  obtain ⟨L, h1, -, hcard, i, h2, h3⟩ := ho.partition (γ : ℚ)
  have h3' : ∀ (j : ℕ) (c : ℚ), cv[j]? = some c → (j < i ↔ c ≤ γ) := fun j c hj =>
    (h3 j c hj).trans WithBot.coe_le_coe
  have hopt : IsOptimalSF φ (Finset.range n) γ (toPartition L) := hs.optimal i _ γ h2
    (fun j c hj hji => (h3' j c hj).1 hji) fun j c hj hij => (not_le.1 fun hc => by have := (h3' j c hj).2 hc; omega).le
  -- a threshold above `γ` and below the next value
  obtain ⟨γ', hγ, hnext⟩ : ∃ γ', γ < γ' ∧ ∀ (j : ℕ) (c : ℚ), cv[j]? = some c → i ≤ j → γ' < c := by
    have hgt : ∀ (j : ℕ) (c : ℚ), cv[j]? = some c → i ≤ j → γ < c := fun j c hj hij =>
      not_le.1 fun hc => by have := (h3' j c hj).2 hc; omega
    by_cases hi : i < cv.length
    · have := hgt i cv[i] (List.getElem?_eq_getElem hi) le_rfl
      refine ⟨(γ + cv[i]) / 2, by linarith, fun j c hj hij => ?_⟩
      obtain ⟨hj1, rfl⟩ := List.getElem?_eq_some_iff.1 hj
      rcases hij.eq_or_lt with rfl | e
      · linarith
      · have := List.pairwise_iff_getElem.1 hs.increasing _ _ hi hj1 e
        linarith
    · refine ⟨γ + 1, by linarith, fun j c hj hij => ?_⟩
      obtain ⟨hj1, -⟩ := List.getElem?_eq_some_iff.1 hj
      omega
  have huniq := hs.unique i _ γ' h2 (fun j c hj hji => ((h3' j c hj).1 hji).trans_lt hγ) hnext
  have hopt' : IsOptimalSF φ (Finset.range n) γ' (toPartition L) := hs.optimal i _ γ' h2
    (fun j c hj hji => ((h3' j c hj).1 hji).trans hγ.le) fun j c hj hij => (hnext j c hj hij).le
  have hcost : ∀ R : Partition, costSF φ γ' R = costSF φ γ R - (γ' - γ) * R.card := by
    intro R
    unfold costSF
    rw [Finset.sum_sub_distrib, Finset.sum_sub_distrib, Finset.sum_const, Finset.sum_const, nsmul_eq_mul, nsmul_eq_mul]
    ring
  have hmany : ∀ R, IsOptimalSF φ (Finset.range n) γ R → (toPartition L).card ≤ R.card → R = toPartition L := by
    intro R hR hc
    refine huniq R ⟨hR.1, fun S hS => ?_⟩
    have h5 := hopt'.2 S hS
    have h6 := hR.2 _ hopt.1
    have hc' : ((toPartition L).card : ℚ) ≤ R.card := by exact_mod_cast hc
    have h7 : (γ' - γ) * ((toPartition L).card : ℚ) ≤ (γ' - γ) * R.card := mul_le_mul_of_nonneg_left hc' (by linarith)
    rw [hcost] at h5 ⊢
    linarith
  refine ⟨L, h1, hopt, fun R hR => ?_⟩
  rw [← hcard]
  refine ⟨?_, fun he => hmany R hR he.ge⟩
  by_contra hlt
  rw [not_le] at hlt
  have := hmany R hR hlt.le
  rw [this] at hlt
  exact lt_irrefl _ hlt

/-- When the sequence is within `C` of the optimum, so is `getPartition(γ)`. -/
theorem C93_near {n : ℕ} {o : HC} {ps : List Partition} {cv : List ℚ} (ho : Answers n o ps cv) {φ : Finset ℕ → ℚ} {C : ℚ}
    (hs : IsApproximateSequenceSF φ (Finset.range n) C ps cv) (γ : ℚ) :
    ∃ L, o.getPartition (γ : ℚ) = .ok L ∧ IsNearOptimalSF φ (Finset.range n) C γ (toPartition L) := by
  obtain ⟨L, h1, -, -, i, h2, h3⟩ := ho.partition (γ : ℚ)
  have h3' : ∀ (j : ℕ) (c : ℚ), cv[j]? = some c → (j < i ↔ c ≤ γ) := fun j c hj =>
    (h3 j c hj).trans WithBot.coe_le_coe
  exact ⟨L, h1, hs.optimal i _ γ h2 (fun j c hj hji => (h3' j c hj).1 hji) fun j c hj hij =>
    (not_le.1 fun hc => by have := (h3' j c hj).2 hc; omega).le⟩

/-- `Agglomerative_PSP::run` on a digraph. -/
theorem C93_digraph (fl : ℚ → ℚ) (ai ao : List Arc → List Arc) (mnb : SF → Outcome (List ℚ)) {n : ℕ} (hn : 0 < n)
    (E : List Arc) (tol : ℚ) {ps : List Partition} {cv : List ℚ}
    (h : aggRunF fl ai ao mnb ⟨List.range n, E⟩ tol = .ok (ps, cv)) :
    ∃ o, aicObjectF fl mnb (digraphEntropyF fl ai ao ⟨List.range n, E⟩) tol (n + 1) (HC.new n) = .ok o ∧
      Answers n o ps cv := by
  have hs : (digraphEntropyF fl ai ao ⟨List.range n, E⟩).size = n := by simp [digraphEntropyF, Digraph.countNodes]
  have := C93_queries fl mnb (digraphEntropyF fl ai ao ⟨List.range n, E⟩) (by rw [hs]; exact hn) tol h
  rwa [hs] at this

/-- A whole program: a hypergraph with at most 4 nodes, agglomerated with an exact solver and small tolerances. At every
threshold `γ` the clusters that are read from the object afterwards are the optimal partition with the most blocks. -/
theorem C93_hypergraph_four {N : Numerics} (hN : ∀ n, ExactNumerics N n) (hth : ∀ k Q, N.throws k Q = false)
    {M : List (List ℚ)} (cols : ℕ) (hn : 0 < M.length) (hn4 : M.length ≤ 4) :
    ∃ e t0 : ℚ, ∃ K : ℕ, 0 < e ∧ 0 < t0 ∧ ∀ eps tol fuel, 0 < eps → eps ≤ e → 0 < tol → tol ≤ t0 → K ≤ fuel →
      ∃ o, aicObject (mnbOf N tol eps fuel) (hypergraphEntropy M cols) tol (M.length + 1) (HC.new M.length) = .ok o ∧
        ∀ γ : ℚ, ∃ L, o.getPartition (γ : ℚ) = .ok L ∧ IsOptimalSF (weightMax M cols) (Finset.range M.length) γ (toPartition L) ∧
          ∀ R, IsOptimalSF (weightMax M cols) (Finset.range M.length) γ R →
            R.card ≤ L.length ∧ (R.card = L.length → R = toPartition L) := by
  obtain ⟨e, t0, K, he, ht, h⟩ := C45_aic_four hN hth cols hn hn4
  refine ⟨e, t0, K, he, ht, fun eps tol fuel h1 h2 h3 h4 h5 => ?_⟩
  obtain ⟨ps, cv, hrun, hps⟩ := h eps tol fuel h1 h2 h3 h4 h5
  obtain ⟨o, ho, hans⟩ := C93_queries_exact _ (hypergraphEntropy M cols) hn tol hrun
  exact ⟨o, ho, fun γ => C93_optimal hans hps γ⟩

/-- The object of `doubleHypergraph_run`. -/
def doubleObject : Outcome HC :=
  aicObjectF roundDouble (mnbOfF roundDouble (gaussDouble.seqF roundDouble) runTol runEps 50) doubleHypergraph runTol 4 (HC.new 3)

/-- Its critical values are about 1.286 and 0.333. -/
example : (do let o ← doubleObject; o.getPartition ((2 : ℚ) : WithBot ℚ)) = .ok [[0], [1], [2]] := by decide +kernel
example : (do let o ← doubleObject; o.getPartition ((1 : ℚ) : WithBot ℚ)) = .ok [[0], [1, 2]] := by decide +kernel
example : (do let o ← doubleObject; o.getCluster 2 ((1 : ℚ) : WithBot ℚ)) = .ok [2, 1] := by decide +kernel
example : (do let o ← doubleObject; return o.getCriticalValues) =
    Outcome.ok [2895171189023889 / 2 ^ 51, 750599937895083 / 2 ^ 51] := by decide +kernel
example : (do let o ← doubleObject; o.similarity 0 1) =
    .ok ((750599937895083 / 2 ^ 51 : ℚ) : WithBot ℚ) := by decide +kernel

/-- The hypotheses of `C93_queries` and `C93_near` hold for it. -/
example : ∃ o ps cv, doubleObject = .ok o ∧ Answers 3 o ps cv ∧ ps = [{{0, 1, 2}}, {{0}, {1, 2}}, {{0}, {1}, {2}}] ∧
    ∀ γ : ℚ, ∃ L, o.getPartition (γ : ℚ) = .ok L ∧
      IsNearOptimalSF (weightMax doubleWeights 3) (Finset.range 3) (1 / 8) γ (toPartition L) := by
  obtain ⟨ps, cv, h1, h2, h3⟩ := doubleHypergraph_run
  obtain ⟨o, k1, k2⟩ := C93_queries _ _ doubleHypergraph (by decide) _ h1
  exact ⟨o, ps, cv, k1, k2, h2, fun γ => C93_near k2 h3 γ⟩

end PSP.Props
