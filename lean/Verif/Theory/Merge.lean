import Verif.Theory.Compare

/-!
# Merging nodes that are in the same cluster
-/

namespace PSP.Theory

open PSP.Spec

variable {E E' : List Arc} {V : Finset ℕ} {Ps Ps' : List (Finset (Finset ℕ))} {cv cv' : List ℚ}

/-- The clusters at a threshold are the finest cheapest partition. -/
theorem clustersAt_optimal (hE : NonnegE E) (h : IsWeakPrincipalSequence E V Ps cv) (γ : ℚ) :
    IsOptimal E V γ (clustersAt Ps cv γ) ∧ ∀ R, IsOptimal E V γ R → Refines (clustersAt Ps cv γ) R := by
  have h0 := clustersAt_get h.length γ
  have h1 : ∀ j c, cv[j]? = some c → j < (cv.countP fun c => decide (c ≤ γ)) → c ≤ γ :=
    fun j c hj hlt => (countP_sorted h.nondecreasing j c hj).1 hlt
  have h2 : ∀ j c, cv[j]? = some c → (cv.countP fun c => decide (c ≤ γ)) ≤ j → γ < c := by
    intro j c hj hle
    by_contra hcon
    have := (countP_sorted h.nondecreasing j c hj).2 (not_lt.1 hcon)
    omega
  obtain ⟨m, hm, hm2⟩ : ∃ m, γ < m ∧ ∀ j c, cv[j]? = some c → (cv.countP fun c => decide (c ≤ γ)) ≤ j → m ≤ c := by
    by_cases hlt : (cv.countP fun c => decide (c ≤ γ)) < cv.length
    · have hp : cv[cv.countP fun c => decide (c ≤ γ)]? = some (cv[cv.countP fun c => decide (c ≤ γ)]'hlt) :=
        List.getElem?_eq_getElem _
      exact ⟨_, h2 _ _ hp le_rfl, fun j c hj hij => getElem?_mono h.nondecreasing hp hj hij⟩
    · refine ⟨γ + 1, by linarith, fun j c hj hij => ?_⟩
      have := (List.getElem?_eq_some_iff.1 hj).1
      omega
  refine ⟨h.optimal _ _ γ h0 h1 fun j c hj hji => (h2 j c hj hji).le, fun R hR => hR.refines hE (l2 := m) ?_ hm⟩
  exact h.optimal _ _ m h0 (fun j c hj hji => (h1 j c hj hji).trans hm.le) hm2

theorem clustersAt_mono (hE : NonnegE E) (h : IsWeakPrincipalSequence E V Ps cv) (hW : Within E V) {γ γ' : ℚ}
    (hγ : γ' ≤ γ) {u v : ℕ} (hs : Same (clustersAt Ps cv γ) u v) : Same (clustersAt Ps cv γ') u v := by
  obtain ⟨S, h1, h2, h3, h4⟩ := (same_clustersAt hE hW h γ).1 hs
  exact (same_clustersAt hE hW h γ').2 ⟨S, h1, h2, h3, holds_mono h4 hγ⟩

/-- The preimages of the blocks. -/
def mergePull (n : ℕ) (π : ℕ → ℕ) (Q : Finset (Finset ℕ)) : Finset (Finset ℕ) :=
  Q.image fun B => (Finset.range n).filter fun u => π u ∈ B

theorem same_mergePull {n : ℕ} {π : ℕ → ℕ} {Q : Finset (Finset ℕ)} {u v : ℕ} (hu : u < n) (hv : v < n) :
    Same (mergePull n π Q) u v ↔ Same Q (π u) (π v) := by
  constructor
  · rintro ⟨C, hC, h1, h2⟩
    obtain ⟨B, hB, rfl⟩ := Finset.mem_image.1 hC
    exact ⟨B, hB, (Finset.mem_filter.1 h1).2, (Finset.mem_filter.1 h2).2⟩
  · rintro ⟨B, hB, h1, h2⟩
    exact ⟨_, Finset.mem_image_of_mem _ hB, Finset.mem_filter.2 ⟨Finset.mem_range.2 hu, h1⟩,
      Finset.mem_filter.2 ⟨Finset.mem_range.2 hv, h2⟩⟩

theorem image_merging {n k : ℕ} {π : ℕ → ℕ} (hπ : IsMerging n k π) : (Finset.range n).image π = Finset.range k := by
  ext a
  simp only [Finset.mem_image, Finset.mem_range]
  exact ⟨fun ⟨u, hu, h⟩ => h ▸ hπ.1 u hu, fun h => hπ.2 a h⟩

/-- Partitions of the merged nodes cost as much as the partitions of the nodes that they come from. -/
theorem crossWeight_mergePull {n k : ℕ} {π : ℕ → ℕ} (hπ : IsMerging n k π) (hl : ∀ e ∈ E, e.src ≠ e.dst)
    (hl' : ∀ e ∈ E', e.src ≠ e.dst) (hW : Within E (Finset.range n)) (hW' : Within E' (Finset.range k))
    (hw : ∀ a < k, ∀ b < k, a ≠ b → between E' a b = mergedWeight n E π a b) {Q : Finset (Finset ℕ)}
    (hQ : IsPartition (Finset.range k) Q) : crossWeight E (mergePull n π Q) = crossWeight E' Q := by
  have hself : ∀ a < k, Same Q a a := by
    intro a ha
    obtain ⟨B, hB, h1⟩ := hQ.exists_block (Finset.mem_range.2 ha)
    exact ⟨B, hB, h1, h1⟩
  have h1 := crossWeight_pairs hl hW (mergePull n π Q)
  have h2 := crossWeight_pairs hl' hW' Q
  have e1 : ∑ p ∈ (Finset.range n).offDiag, (if ¬ Same (mergePull n π Q) p.1 p.2 then between E p.1 p.2 else 0) =
      ∑ u ∈ Finset.range n, ∑ v ∈ Finset.range n, (if ¬ Same Q (π u) (π v) then between E u v else 0) := by
    rw [← Finset.sum_product']
    refine Finset.sum_subset_zero_on_sdiff (fun p hp => Finset.mem_product.2 ⟨(Finset.mem_offDiag.1 hp).1, (Finset.mem_offDiag.1 hp).2.1⟩) ?_ ?_
    · intro p hp
      obtain ⟨p1, p2⟩ := Finset.mem_sdiff.1 hp
      obtain ⟨p3, p4⟩ := Finset.mem_product.1 p1
      have : p.1 = p.2 := by
        by_contra hne
        exact p2 (Finset.mem_offDiag.2 ⟨p3, p4, hne⟩)
      rw [this, if_neg (not_not.2 (hself _ (hπ.1 _ (Finset.mem_range.1 p4))))]
    · intro p hp
      obtain ⟨p1, p2, -⟩ := Finset.mem_offDiag.1 hp
      simp only [same_mergePull (Finset.mem_range.1 p1) (Finset.mem_range.1 p2)]
  have e2 : ∑ p ∈ (Finset.range k).offDiag, (if ¬ Same Q p.1 p.2 then between E' p.1 p.2 else 0) =
      ∑ a ∈ Finset.range k, ∑ b ∈ Finset.range k, (if ¬ Same Q a b then mergedWeight n E π a b else 0) := by
    rw [← Finset.sum_product']
    refine Finset.sum_subset_zero_on_sdiff (fun p hp => Finset.mem_product.2 ⟨(Finset.mem_offDiag.1 hp).1, (Finset.mem_offDiag.1 hp).2.1⟩) ?_ ?_
    · intro p hp
      obtain ⟨p1, p2⟩ := Finset.mem_sdiff.1 hp
      obtain ⟨p3, p4⟩ := Finset.mem_product.1 p1
      have : p.1 = p.2 := by
        by_contra hne
        exact p2 (Finset.mem_offDiag.2 ⟨p3, p4, hne⟩)
      rw [this, if_neg (not_not.2 (hself _ (Finset.mem_range.1 p4)))]
    · intro p hp
      obtain ⟨p1, p2, p3⟩ := Finset.mem_offDiag.1 hp
      rw [hw _ (Finset.mem_range.1 p1) _ (Finset.mem_range.1 p2) p3]
  have e3 : ∑ u ∈ Finset.range n, ∑ v ∈ Finset.range n, (if ¬ Same Q (π u) (π v) then between E u v else 0) =
      ∑ a ∈ Finset.range k, ∑ b ∈ Finset.range k, (if ¬ Same Q a b then mergedWeight n E π a b else 0) := by
    rw [← Finset.sum_fiberwise_of_maps_to (g := π) (t := Finset.range k)
      (fun u hu => Finset.mem_range.2 (hπ.1 u (Finset.mem_range.1 hu)))]
    refine Finset.sum_congr rfl fun a _ => ?_
    have : ∀ u ∈ (Finset.range n).filter (fun u => π u = a),
        ∑ v ∈ Finset.range n, (if ¬ Same Q (π u) (π v) then between E u v else 0) =
        ∑ b ∈ Finset.range k, ∑ v ∈ (Finset.range n).filter (fun v => π v = b),
          (if ¬ Same Q a b then between E u v else 0) := by
      intro u hu
      rw [← Finset.sum_fiberwise_of_maps_to (g := π) (t := Finset.range k)
        (fun v hv => Finset.mem_range.2 (hπ.1 v (Finset.mem_range.1 hv)))]
      refine Finset.sum_congr rfl fun b _ => Finset.sum_congr rfl fun v hv => ?_
      rw [(Finset.mem_filter.1 hu).2, (Finset.mem_filter.1 hv).2]
    rw [Finset.sum_congr rfl this, Finset.sum_comm]
    refine Finset.sum_congr rfl fun b _ => ?_
    by_cases hs : Same Q a b
    · simp [hs]
    · simp only [hs, not_false_eq_true, if_true]
      rfl
  rw [e1, e3] at h1
  rw [e2] at h2
  linarith

theorem mergePull_isPartition {n k : ℕ} {π : ℕ → ℕ} (hπ : IsMerging n k π) {Q : Finset (Finset ℕ)}
    (hQ : IsPartition (Finset.range k) Q) :
    IsPartition (Finset.range n) (mergePull n π Q) ∧ (mergePull n π Q).card = Q.card := by
  rw [← image_merging hπ] at hQ
  have := pullback_partition hQ
  exact ⟨this.1, this.2.1⟩

/-- A partition that does not separate merged nodes comes from one of the merged nodes. -/
theorem exists_mergePull {n k : ℕ} {π : ℕ → ℕ} (hπ : IsMerging n k π) {R : Finset (Finset ℕ)}
    (hR : IsPartition (Finset.range n) R) (hs : ∀ u < n, ∀ v < n, π u = π v → Same R u v) :
    IsPartition (Finset.range k) (R.image fun B => B.image π) ∧ mergePull n π (R.image fun B => B.image π) = R := by
  have key : ∀ B ∈ R, ∀ u < n, π u ∈ B.image π ↔ u ∈ B := by
    intro B hB u hu
    constructor
    · intro h
      obtain ⟨v, hv, hvu⟩ := Finset.mem_image.1 h
      obtain ⟨C, hC, c1, c2⟩ := hs v (Finset.mem_range.1 (hR.subset hB hv)) u hu hvu
      rwa [hR.eq_of_mem hB hC hv c1]
    · exact Finset.mem_image_of_mem π
  refine ⟨⟨?_, ?_⟩, ?_⟩
  · intro C hC
    obtain ⟨B, hB, rfl⟩ := Finset.mem_image.1 hC
    refine ⟨(hR.nonempty hB).image π, ?_⟩
    intro a ha
    obtain ⟨u, hu, rfl⟩ := Finset.mem_image.1 ha
    exact Finset.mem_range.2 (hπ.1 u (Finset.mem_range.1 (hR.subset hB hu)))
  · intro a ha
    obtain ⟨u, hu, rfl⟩ := hπ.2 a (Finset.mem_range.1 ha)
    obtain ⟨B, hB, huB⟩ := hR.exists_block (Finset.mem_range.2 hu)
    refine ⟨B.image π, ⟨Finset.mem_image_of_mem _ hB, Finset.mem_image_of_mem π huB⟩, ?_⟩
    rintro C ⟨hC, huC⟩
    obtain ⟨B', hB', rfl⟩ := Finset.mem_image.1 hC
    rw [hR.eq_of_mem hB' hB ((key B' hB' u hu).1 huC) huB]
  · unfold mergePull
    rw [Finset.image_image]
    conv_rhs => rw [← Finset.image_id (s := R)]
    refine Finset.image_congr fun B hB => ?_
    ext u
    simp only [Function.comp, Finset.mem_filter, id]
    constructor
    · rintro ⟨h1, h2⟩
      exact (key B hB u (Finset.mem_range.1 h1)).1 h2
    · intro h1
      have h2 := hR.subset hB h1
      exact ⟨h2, (key B hB u (Finset.mem_range.1 h2)).2 h1⟩

/-- Nodes that are together at a threshold can be merged without changing the clusters up to the threshold. -/
theorem clusters_merged {n k : ℕ} (hl : ∀ e ∈ E, e.src ≠ e.dst) (hl' : ∀ e ∈ E', e.src ≠ e.dst) (hE : NonnegE E)
    (hE' : NonnegE E') (hW : Within E (Finset.range n)) (hW' : Within E' (Finset.range k))
    (h : IsWeakPrincipalSequence E (Finset.range n) Ps cv) (h' : IsWeakPrincipalSequence E' (Finset.range k) Ps' cv')
    {π : ℕ → ℕ} (hπ : IsMerging n k π) (hw : ∀ a < k, ∀ b < k, a ≠ b → between E' a b = mergedWeight n E π a b)
    {γ₀ γ : ℚ} (hc : ∀ u < n, ∀ v < n, π u = π v → Same (clustersAt Ps cv γ₀) u v) (hγ : γ ≤ γ₀) {u v : ℕ} (hu : u < n)
    (hv : v < n) : Same (clustersAt Ps cv γ) u v ↔ Same (clustersAt Ps' cv' γ) (π u) (π v) := by
  obtain ⟨hR, hRf⟩ := clustersAt_optimal hE h γ
  obtain ⟨hP, hPf⟩ := clustersAt_optimal hE' h' γ
  obtain ⟨p1, p2⟩ := exists_mergePull hπ hR.1 fun u hu v hv huv => clustersAt_mono hE h hW hγ (hc u hu v hv huv)
  have hcost : ∀ Q, IsPartition (Finset.range k) Q → cost E γ (mergePull n π Q) = cost E' γ Q := by
    intro Q hQ
    unfold cost
    rw [crossWeight_mergePull hπ hl hl' hW hW' hw hQ, (mergePull_isPartition hπ hQ).2]
  have c1 := hcost _ p1
  rw [p2] at c1
  have o1 : IsOptimal E (Finset.range n) γ (mergePull n π (clustersAt Ps' cv' γ)) := by
    refine ⟨(mergePull_isPartition hπ hP.1).1, fun T hT => ?_⟩
    rw [hcost _ hP.1]
    exact ((hP.2 _ p1).trans_eq c1.symm).trans (hR.2 T hT)
  have o2 : IsOptimal E' (Finset.range k) γ ((clustersAt Ps cv γ).image fun B => B.image π) := by
    refine ⟨p1, fun T hT => ?_⟩
    rw [← c1, ← hcost T hT]
    exact hR.2 _ (mergePull_isPartition hπ hT).1
  constructor
  · intro hs
    exact (same_mergePull hu hv).1 ((hRf _ o1).same hs)
  · intro hs
    have := (same_mergePull hu hv).2 ((hPf _ o2).same hs)
    rwa [p2] at this

end PSP.Theory
