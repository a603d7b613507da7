import Verif.Theory.RoundedRound

/-!
# Which clusters a round of `agg_psp` merges, in terms of the points that `min_norm_base` returned
-/

namespace PSP.Theory

open PSP.Model PSP.Spec

variable {n : ℕ} {R : ℕ → ℕ → Prop} {L : List (List ℕ)} {fl : ℚ → ℚ}

theorem mem_aicMergesF {xs : List (List ℚ)} {tol g : ℚ} {l : Link} :
    l ∈ aicMergesF fl L xs tol g ↔ ∃ j i, j < L.length ∧ i < j ∧ (xs.getD (j - 1) []).getD i 0 ≤ fl (-g + tol) ∧
      l = ⟨(L.getD j []).headD 0, (L.getD i []).headD 0, g⟩ := by
  unfold aicMergesF
  simp only [List.mem_flatMap, List.mem_filterMap, List.mem_range]
  constructor
  · rintro ⟨j, hj, i, hi, h⟩
    split at h
    · rename_i hc
      cases h
      exact ⟨j, i, hj, hi, hc, rfl⟩
    · cases h
  · rintro ⟨j, i, hj, hi, hc, rfl⟩
    exact ⟨j, hj, i, hi, by rw [if_pos hc]⟩

/-- The heads of the clusters determine them. -/
theorem head_inj (hL : IsClustering n R L) {i j : ℕ} (hi : i < L.length) (hj : j < L.length)
    (h : (L.getD i []).headD 0 = (L.getD j []).headD 0) : i = j :=
  (clustering_blocks hL).disjoint i j _ hi hj (clustering_head hL hi) (h ▸ clustering_head hL hj)

theorem agglomerateF_links {mnb : SF → Outcome (List ℚ)} {f : SF} {tol : ℚ} {hcl : HC} (hP : hcl.getPartition ⊥ = .ok L)
    (hL : IsClustering n R L) (hk : 2 ≤ L.length) {x : ℕ → List ℚ}
    (hx : ∀ j, 1 ≤ j → j < L.length → mnb (sfJoin (sfContractF fl f L) j) = .ok (x j) ∧ (x j).length = j) :
    ∃ (value : ℚ) (links : List Link),
      agglomerateF fl mnb f tol hcl = (do let h' ← hcl.mergeAll links; return (h', true)) ∧
      (∀ j i, j < L.length → i < j → -value ≤ (x j).getD i 0) ∧
      (∃ j i, j < L.length ∧ i < j ∧ (x j).getD i 0 = -value) ∧
      ∀ l, l ∈ links ↔ ∃ j i, j < L.length ∧ i < j ∧ (x j).getD i 0 ≤ fl (-value + tol) ∧
        l = ⟨(L.getD j []).headD 0, (L.getD i []).headD 0, value⟩ := by
  obtain ⟨xs, hxs, hall⟩ := aicPoints_spec (mnb := mnb) (F := sfContractF fl f L) (Q := fun j z => z = x j)
    ((List.range L.length).drop 1) (by
      intro j hj
      have hjk : 1 ≤ j ∧ j < L.length := by
        rw [List.range_eq_range', List.drop_range', List.mem_range'_1] at hj
        omega
      exact ⟨x j, (hx j hjk.1 hjk.2).1, rfl⟩)
  have hxslen : xs.length = L.length - 1 := by
    rw [← hall.length_eq]; simp
  have hget : ∀ j, 1 ≤ j → j < L.length → xs.getD (j - 1) [] = x j := by
    intro j hj1 hjk
    have hlt : j - 1 < xs.length := by omega
    have hlt' : j - 1 < ((List.range L.length).drop 1).length := by simp; omega
    have := List.forall₂_iff_get.1 hall |>.2 (j - 1) hlt' hlt
    simp only [List.get_eq_getElem, List.getElem_drop, List.getElem_range] at this
    have e : 1 + (j - 1) = j := by omega
    rw [e] at this
    rw [List.getD_eq_getElem _ _ hlt]
    exact this
  have hgetx : ∀ z ∈ xs, ∃ j, 1 ≤ j ∧ j < L.length ∧ z = x j := by
    intro z hz
    obtain ⟨m, hm, rfl⟩ := List.mem_iff_getElem.1 hz
    refine ⟨m + 1, by omega, by omega, ?_⟩
    rw [← hget (m + 1) (by omega) (by omega), Nat.add_sub_cancel, List.getD_eq_getElem _ _ hm]
  obtain ⟨g, hg, hle, z, hz, hatt⟩ := aicGamma_spec (xs := xs) (by
    intro h; rw [h] at hxslen; simp at hxslen; omega)
  refine ⟨g, aicMergesF fl L xs tol g, ?_, ?_, ?_, ?_⟩
  · unfold agglomerateF
    rw [hP]
    simp only [Outcome.ok_bind]
    rw [if_neg (by omega), hxs]
    simp only [Outcome.ok_bind]
    rw [hg]
  · intro j i hj hi
    have hl := (hx j (by omega) hj).2
    have h1 := hle (x j) (by
      rw [← hget j (by omega) hj, List.getD_eq_getElem _ _ (by omega)]
      exact List.getElem_mem _)
    have h2 := minCoeff_le (x j) ((x j).getD i 0) (by
      rw [List.getD_eq_getElem _ _ (by omega)]
      exact List.getElem_mem _)
    linarith
  · obtain ⟨j, h1, h2, rfl⟩ := hgetx z hz
    have hl := (hx j h1 h2).2
    obtain ⟨i, hi, hmi⟩ := List.mem_iff_getElem.1 (minCoeff_mem (x j) (by intro h; rw [h] at hl; simp at hl; omega))
    refine ⟨j, i, h2, by omega, ?_⟩
    rw [List.getD_eq_getElem _ _ hi, hmi, hatt, neg_neg]
  · intro l
    rw [mem_aicMergesF]
    constructor
    · rintro ⟨j, i, h1, h2, h3, h4⟩
      exact ⟨j, i, h1, h2, by rwa [hget j (by omega) h1] at h3, h4⟩
    · rintro ⟨j, i, h1, h2, h3, h4⟩
      exact ⟨j, i, h1, h2, by rwa [hget j (by omega) h1], h4⟩

end PSP.Theory
