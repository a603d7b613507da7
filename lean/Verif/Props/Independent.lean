import Verif.Theory.Independent
import Verif.Props.SharedNear

/-!
# C100: the clusters of AIC at the threshold 0 are the finest independent parts
-/

namespace PSP.Props

open PSP.Model PSP.Spec PSP.Theory

/-- The answers of the object `h` about independence. -/
structure AnswersIndependent (n : ℕ) (h : HC) (φ : Finset ℕ → ℚ) : Prop where
  /-- `getPartition(0)` lists the finest independent parts, each once. -/
  partition : ∃ L, h.getPartition ((0 : ℚ) : WithBot ℚ) = .ok L ∧ (toPartition L).card = L.length ∧
    IsFinestIndependent φ (Finset.range n) (toPartition L)
  /-- `similarity(i, j)` is positive if and only if no division into independent parts separates `i` and `j`. -/
  similarity : ∀ i j, i < n → j < n → i ≠ j → ∃ c : ℚ, h.similarity i j = .ok ((c : WithBot ℚ) : WithTop (WithBot ℚ)) ∧
    (0 < c ↔ ∀ Q, AreIndependent φ (Finset.range n) Q → Same Q i j)
  /-- All critical values are nonnegative. -/
  nonneg : ∀ c ∈ h.getCriticalValues, 0 ≤ c
  /-- They are all positive if and only if the points cannot be divided into independent parts. -/
  positive : (∀ c ∈ h.getCriticalValues, 0 < c) ↔ ∀ Q, AreIndependent φ (Finset.range n) Q → Q = {Finset.range n}

theorem C100_object {n : ℕ} (hn : 0 < n) {o : HC} {ps : List Partition} {cv : List ℚ} (ho : Answers n o ps cv)
    {φ : Finset ℕ → ℚ} (hφ : Intersecting (Finset.range n) φ) (hsub : Subadditive φ)
    (hs : IsPrincipalSequenceSF φ (Finset.range n) ps cv) : AnswersIndependent n o φ := by
  have hV : (Finset.range n).Nonempty := ⟨0, Finset.mem_range.2 hn⟩
  obtain ⟨L, h1, -, hcard, hat⟩ := ho.partition ((0 : ℚ) : WithBot ℚ)
  obtain ⟨i, h2, h3⟩ := id hat
  have h3' : ∀ (j : ℕ) (c : ℚ), cv[j]? = some c → (j < i ↔ c ≤ 0) := fun j c hj =>
    (h3 j c hj).trans WithBot.coe_le_coe
  have hgt : ∀ (j : ℕ) (c : ℚ), cv[j]? = some c → i ≤ j → 0 < c := fun j c hj hij =>
    not_le.1 fun hc => by have := (h3' j c hj).2 hc; omega
  have hopt : IsOptimalSF φ (Finset.range n) 0 (toPartition L) := hs.optimal i _ 0 h2
    (fun j c hj hji => (h3' j c hj).1 hji) fun j c hj hij => (hgt j c hj hij).le
  have hfin : IsFinestIndependent φ (Finset.range n) (toPartition L) := by
    refine ⟨(independent_iff hsub hV).2 hopt, fun Q hQ => refines_of_same hopt.1 hQ.1 fun u v huv => ?_⟩
    obtain ⟨S, hS, hu, hv, hsh⟩ := (sf_cluster hφ hs h2 (fun j c hj hji => (h3' j c hj).1 hji) hgt).1 huv
    have hQo := (independent_iff hsub hV).1 hQ
    exact near_same (C := 0) (lam := 0) hφ ⟨hQo.1, fun R hR => by have := hQo.2 R hR; linarith⟩ hS (by simpa using hsh) hu hv
  have hnn : ∀ c ∈ cv, 0 ≤ c := by
    intro c hc
    have hc2 := sf_clusters hφ hs
    obtain ⟨d, hd⟩ : ∃ d, cv.head? = some d := ⟨cv.head (List.ne_nil_of_mem hc), List.head?_eq_some_head _⟩
    obtain ⟨P, hP, hP2, hx⟩ := (hc2.first d hd).1
    have hd0 : 0 ≤ d := by
      rw [hx]
      refine div_nonneg ?_ (card_sub_one_pos hP2).le
      have := Subadditive.common_nonneg hsub hP
      unfold common
      linarith
    have hinc := hs.increasing
    cases cv with
    | nil => simp at hc
    | cons a t =>
      simp only [List.head?_cons, Option.some.injEq] at hd
      subst hd
      rcases List.mem_cons.1 hc with h | h
      · rw [h]; exact hd0
      · exact hd0.trans ((List.pairwise_cons.1 hinc).1 _ h).le
  refine ⟨⟨L, h1, hcard, hfin⟩, fun a b ha hb hab => ?_, fun c hc => hnn c ((ho.values.2 c).1 hc), ?_⟩
  · obtain ⟨c, -, k1, k2⟩ := ho.similarity a b ha hb hab
    refine ⟨c, k1, ?_⟩
    rw [← WithBot.coe_lt_coe, ← k2 _ _ hat]
    exact ⟨fun h Q hQ => (hfin.2 Q hQ).same h, fun h => h _ hfin.1⟩
  · constructor
    · intro hpos Q hQ
      have hi0 : i = 0 := by
        by_contra hne
        have hl := (List.getElem?_eq_some_iff.1 h2).1
        have hlen := hs.length
        have h0 : 0 < cv.length := by omega
        have := (h3' 0 _ (List.getElem?_eq_getElem h0)).1 (by omega)
        exact absurd this (not_le.2 (hpos _ ((ho.values.2 _).2 (List.getElem_mem h0))))
      have hLV : toPartition L = {Finset.range n} := by
        have := hs.first
        rw [List.head?_eq_getElem?] at this
        rw [hi0, this] at h2
        exact (Option.some.inj h2).symm
      refine Refines.antisymm hQ.1 (isPartition_single hV) (fun B hB => ⟨_, Finset.mem_singleton_self _, (hQ.1.1 B hB).2⟩) ?_
      rw [← hLV]
      exact hfin.2 Q hQ
    · intro h c hc
      have hLV := h _ hfin.1
      obtain ⟨j, hj⟩ := List.mem_iff_getElem?.1 ((ho.values.2 c).1 hc)
      refine hgt j c hj ?_
      -- the first partition is the only one with one block
      by_contra hcon
      have hf := hs.first
      rw [List.head?_eq_getElem?] at hf
      have hl := (List.getElem?_eq_some_iff.1 h2)
      have hl0 := (List.getElem?_eq_some_iff.1 hf)
      obtain ⟨hl1, hl2⟩ := hl
      obtain ⟨hl3, hl4⟩ := hl0
      have := List.pairwise_iff_getElem.1 hs.refine 0 i hl3 hl1 (by omega)
      exact this.2 (by rw [hl2, hl4, hLV])

/-- A whole program for hypergraphs with nonnegative weights. The proviso is that of `C45_aic`. -/
theorem C100_hypergraph {N : Numerics} (hN : ∀ n, ExactNumerics N n) (hth : ∀ k Q, N.throws k Q = false)
    {M : List (List ℚ)} (cols : ℕ) (hn : 0 < M.length) (h0 : ∀ r c, 0 ≤ (M.getD r []).getD c 0) :
    ∃ e t0 : ℚ, ∃ K : ℕ, 0 < e ∧ 0 < t0 ∧ ∀ eps tol fuel, 0 < eps → eps ≤ e → 0 < tol → tol ≤ t0 →
      K ≤ fuel → (∀ L R j, IsClustering M.length R L → j < L.length →
        NotStuck N (sfJoin (sfContract (hypergraphEntropy M cols) L) j) tol eps fuel) →
      ∃ o, aicObject (mnbOf N tol eps fuel) (hypergraphEntropy M cols) tol (M.length + 1) (HC.new M.length) = .ok o ∧
        AnswersIndependent M.length o (weightMax M cols) := by
  obtain ⟨e, t0, K, he, ht, h⟩ := C45_aic hN hth cols hn
  refine ⟨e, t0, K, he, ht, fun eps tol fuel h1 h2 h3 h4 h5 h6 => ?_⟩
  obtain ⟨ps, cv, hrun, hps⟩ := h eps tol fuel h1 h2 h3 h4 h5 h6
  obtain ⟨o, ho, hans⟩ := C93_queries_exact _ (hypergraphEntropy M cols) hn tol hrun
  exact ⟨o, ho, C100_object hn hans (weightMax_intersecting M cols _) (subadditive_weightMax h0) hps⟩

/-- With at most four nodes the proviso is not needed. -/
theorem C100_hypergraph_four {N : Numerics} (hN : ∀ n, ExactNumerics N n) (hth : ∀ k Q, N.throws k Q = false)
    {M : List (List ℚ)} (cols : ℕ) (hn : 0 < M.length) (hn4 : M.length ≤ 4) (h0 : ∀ r c, 0 ≤ (M.getD r []).getD c 0) :
    ∃ e t0 : ℚ, ∃ K : ℕ, 0 < e ∧ 0 < t0 ∧ ∀ eps tol fuel, 0 < eps → eps ≤ e → 0 < tol → tol ≤ t0 → K ≤ fuel →
      ∃ o, aicObject (mnbOf N tol eps fuel) (hypergraphEntropy M cols) tol (M.length + 1) (HC.new M.length) = .ok o ∧
        AnswersIndependent M.length o (weightMax M cols) := by
  obtain ⟨e, t0, K, he, ht, h⟩ := C45_aic_four hN hth cols hn hn4
  refine ⟨e, t0, K, he, ht, fun eps tol fuel h1 h2 h3 h4 h5 => ?_⟩
  obtain ⟨ps, cv, hrun, hps⟩ := h eps tol fuel h1 h2 h3 h4 h5
  obtain ⟨o, ho, hans⟩ := C93_queries_exact _ (hypergraphEntropy M cols) hn tol hrun
  exact ⟨o, ho, C100_object hn hans (weightMax_intersecting M cols _) (subadditive_weightMax h0) hps⟩

variable {F : Type} [Field F] [DecidableEq F]

/-- The same for finite linear sources: the parts are independent if the row spaces are. The proviso is that of `C49_aic`. -/
theorem C100_sources {N : Numerics} (hN : ∀ n, ExactNumerics N n) (hth : ∀ k Q, N.throws k Q = false)
    {unit : ℚ} (hu : 0 ≤ unit) {cols : ℕ} {M : List (List (List ℤ))}
    (hM : ∀ A ∈ M, ∀ r ∈ A, r.length = cols) (hn : 0 < M.length) :
    ∃ e t0 : ℚ, ∃ K : ℕ, 0 < e ∧ 0 < t0 ∧ ∀ eps tol fuel, 0 < eps → eps ≤ e → 0 < tol → tol ≤ t0 →
      K ≤ fuel → (∀ L R j, IsClustering M.length R L → j < L.length →
        NotStuck N (sfJoin (sfContract (finiteLinear F unit cols M) L) j) tol eps fuel) →
      ∃ o, aicObject (mnbOf N tol eps fuel) (finiteLinear F unit cols M) tol (M.length + 1) (HC.new M.length) = .ok o ∧
        AnswersIndependent M.length o (fun B => unit * rowRank F cols M B) := by
  obtain ⟨e, t0, K, he, ht, h⟩ := C49_aic (F := F) hN hth hu hM hn
  refine ⟨e, t0, K, he, ht, fun eps tol fuel h1 h2 h3 h4 h5 h6 => ?_⟩
  obtain ⟨ps, cv, hrun, hps⟩ := h eps tol fuel h1 h2 h3 h4 h5 h6
  obtain ⟨o, ho, hans⟩ := C93_queries_exact _ (finiteLinear F unit cols M) hn tol hrun
  exact ⟨o, ho, C100_object hn hans (rowRank_intersecting hu cols M _) (subadditive_rowRank hu cols M) hps⟩

/-- With at most four sources the proviso is not needed. -/
theorem C100_sources_four {N : Numerics} (hN : ∀ n, ExactNumerics N n) (hth : ∀ k Q, N.throws k Q = false)
    {unit : ℚ} (hu : 0 ≤ unit) {cols : ℕ} {M : List (List (List ℤ))}
    (hM : ∀ A ∈ M, ∀ r ∈ A, r.length = cols) (hn : 0 < M.length) (hn4 : M.length ≤ 4) :
    ∃ e t0 : ℚ, ∃ K : ℕ, 0 < e ∧ 0 < t0 ∧ ∀ eps tol fuel, 0 < eps → eps ≤ e → 0 < tol → tol ≤ t0 → K ≤ fuel →
      ∃ o, aicObject (mnbOf N tol eps fuel) (finiteLinear F unit cols M) tol (M.length + 1) (HC.new M.length) = .ok o ∧
        AnswersIndependent M.length o (fun B => unit * rowRank F cols M B) := by
  obtain ⟨e, t0, K, he, ht, h⟩ := C49_aic_four (F := F) hN hth hu hM hn hn4
  refine ⟨e, t0, K, he, ht, fun eps tol fuel h1 h2 h3 h4 h5 => ?_⟩
  obtain ⟨ps, cv, hrun, hps⟩ := h eps tol fuel h1 h2 h3 h4 h5
  obtain ⟨o, ho, hans⟩ := C93_queries_exact _ (finiteLinear F unit cols M) hn tol hrun
  exact ⟨o, ho, C100_object hn hans (rowRank_intersecting hu cols M _) (subadditive_rowRank hu cols M) hps⟩

/-- In floating-point arithmetic, with the error `C` of C97: a cluster at a threshold above `C` lies in one part of every
division into independent parts, and points of different parts have similarity at most `C`. -/
theorem C100_near {n : ℕ} {o : HC} {φ : Finset ℕ → ℚ} {C : ℚ} (ho : AnswersNear n o φ C)
    (hφ : Intersecting (Finset.range n) φ) (hsub : Subadditive φ) {Q : Partition} (hQ : AreIndependent φ (Finset.range n) Q) :
    (∀ γ : ℚ, C < γ → ∀ i < n, ∃ D, o.getCluster i (γ : ℚ) = .ok D ∧ ∀ v ∈ D, Same Q i v) ∧
    ∀ i j, i < n → j < n → ¬ Same Q i j →
      ∃ c : ℚ, o.similarity i j = .ok ((c : WithBot ℚ) : WithTop (WithBot ℚ)) ∧ c ≤ C := by
  have hone : ∀ u v, (∃ S ⊆ Finset.range n, u ∈ S ∧ v ∈ S ∧ SharesMore φ 0 S) → Same Q u v := by
    rintro u v ⟨S, hS, hu, hv, hsh⟩
    have hQo := (independent_iff hsub ⟨u, hS hu⟩).1 hQ
    exact near_same (C := 0) (lam := 0) hφ ⟨hQo.1, fun R hR => by have := hQo.2 R hR; linarith⟩ hS (by simpa using hsh) hu hv
  refine ⟨fun γ hγ i hi => ?_, fun i j hi hj hij => ?_⟩
  · obtain ⟨D, h1, -, -, h2⟩ := ho.cluster γ i hi
    exact ⟨D, h1, fun v hv => hone i v (h2 v hv 0 (by linarith))⟩
  · have hne : i ≠ j := by
      rintro rfl
      exact hij (hQ.1.same_self (Finset.mem_range.2 hi))
    obtain ⟨c, h1, h2, -⟩ := ho.similarity i j hi hj hne
    refine ⟨c, h1, ?_⟩
    by_contra hcon
    exact hij (hone i j (h2 0 (by linarith)))

/-- Three nodes, one hyperedge through the last two and one at the first node only: the first node is independent. -/
def apartHypergraph : List (List ℚ) := [[1, 0], [0, 2], [0, 2]]

/-- The object in this case. -/
def apartObject : Outcome HC :=
  aicObject (mnbOf gaussNumerics (1 / 10 ^ 6) (1 / 10 ^ 15) 50) (hypergraphEntropy apartHypergraph 2) (1 / 10 ^ 6) 4 (HC.new 3)

example : (do let o ← apartObject; return o.getCriticalValues) = Outcome.ok [2, 0] ∧
    (do let o ← apartObject; let L ← o.getPartition ((0 : ℚ) : WithBot ℚ); return toPartition L) = Outcome.ok {{0}, {1, 2}} ∧
    (do let o ← apartObject; o.similarity 0 2) = .ok ((0 : ℚ) : WithBot ℚ) := by decide +kernel

example : ∑ C ∈ ({{0}, {1, 2}} : Finset (Finset ℕ)), weightMax apartHypergraph 2 C = weightMax apartHypergraph 2 {0, 1, 2} ∧
    ∑ C ∈ ({{0}, {1}, {2}} : Finset (Finset ℕ)), weightMax apartHypergraph 2 C ≠ weightMax apartHypergraph 2 {0, 1, 2} := by
  decide +kernel

/-- In floating-point arithmetic with an error of at most 1/8 the first node has similarity at most 1/8 to the last one. -/
example {o : HC} (ho : AnswersNear 3 o (weightMax apartHypergraph 2) (1 / 8)) :
    ∃ c : ℚ, o.similarity 0 2 = .ok ((c : WithBot ℚ) : WithTop (WithBot ℚ)) ∧ c ≤ 1 / 8 := by
  have h0 : ∀ r c, 0 ≤ (apartHypergraph.getD r []).getD c 0 := fun r c => by
    rcases r with _ | _ | _ | r <;> rcases c with _ | _ | c <;> simp [apartHypergraph]
  refine (C100_near ho (weightMax_intersecting _ _ _) (subadditive_weightMax h0) (Q := {{0}, {1, 2}}) ⟨⟨by decide, ?_⟩,
    by decide +kernel⟩).2 0 2 (by decide) (by decide) (by decide)
  intro v hv
  have : v = 0 ∨ v = 1 ∨ v = 2 := by have := Finset.mem_range.1 hv; omega
  rcases this with rfl | rfl | rfl
  · exact ⟨{0}, by decide, by simp⟩
  · exact ⟨{1, 2}, by decide, by simp⟩
  · exact ⟨{1, 2}, by decide, by simp⟩

/-- The theorem applies to it. -/
example : ∃ e t0 : ℚ, ∃ K : ℕ, 0 < e ∧ 0 < t0 ∧ ∀ eps tol fuel, 0 < eps → eps ≤ e → 0 < tol → tol ≤ t0 → K ≤ fuel →
    ∃ o, aicObject (mnbOf gaussNumerics tol eps fuel) (hypergraphEntropy apartHypergraph 2) tol 4 (HC.new 3) = .ok o ∧
      AnswersIndependent 3 o (weightMax apartHypergraph 2) := by
  refine C100_hypergraph_four (M := apartHypergraph) gaussNumerics_exact (fun _ _ => rfl) 2 (by decide) (by decide) fun r c => ?_
  rcases r with _ | _ | _ | r <;> rcases c with _ | _ | c <;> simp [apartHypergraph]

end PSP.Props
