import Verif.Theory.GetPSPOrder
import Verif.Theory.Tree

/-!
# C69: the experimental script for trees
-/

namespace PSP.Props

open PSP.Spec PSP.Model PSP.Theory

/-- **C69** (`_partial`: stars only). If all nodes hang on the root, and the weight given for the root is at most the
others, `get_psp` returns the principal sequence of the tree, every partition without repeated blocks. For deeper trees
the partitions may be wrong (`C69_lost_violated`, `C69_overlap_violated`). -/
theorem C69_star_partial {n : ℕ} (hn : 0 < n) {K : List ℕ} {W : List ℚ} (hlK : K.length = n) (hlW : W.length = n)
    (hK : ∀ k ∈ K, k = 0) (hroot : ∀ x ∈ W, W.getD 0 0 ≤ x) (hnn : ∀ x ∈ W.tail, 0 ≤ x) {fuel : ℕ} (hf : n ≤ fuel) :
    ∃ L Q, getPsp fuel n K W = .ok (L, Q) ∧ (∀ P ∈ Q, P.Nodup) ∧
      IsPrincipalSequence (treeEdges n K W) (Finset.range n) (Q.map List.toFinset) L := by
  obtain ⟨m, rfl⟩ : ∃ m, n = m + 1 := ⟨n - 1, by omega⟩
  have hK0 : ∀ j < m + 1, K[j]? = some 0 := by
    intro j hj
    rw [List.getElem?_eq_getElem (by omega), hK _ (List.getElem_mem _)]
  have hW0 : ∀ j < m + 1, W[j]? = some (W.getD j 0) := by
    intro j hj
    rw [List.getD_eq_getElem?_getD, List.getElem?_eq_getElem (by omega)]
    rfl
  have hmem : ∀ j < m + 1, W.getD j 0 ∈ W := fun j hj => List.mem_of_getElem? (hW0 j hj)
  have htail : ∀ j < m + 1, 0 < j → W.getD j 0 ∈ W.tail := by
    intro j hj h0
    refine List.mem_of_getElem? (i := j - 1) ?_
    rw [List.getElem?_tail, Nat.sub_add_cancel h0]
    exact hW0 j hj
  have hE : treeEdges (m + 1) K W = starE m fun j => W.getD j 0 := by
    unfold treeEdges starE
    rw [Nat.add_sub_cancel]
    refine List.map_congr_left fun i hi => ?_
    rw [List.mem_range] at hi
    have : K.getD (i + 1) 0 = 0 := by rw [List.getD_eq_getElem?_getD, hK0 (i + 1) (by omega)]; rfl
    rw [this]
  rw [hE]
  exact getPsp_star hK0 hW0 (fun j hj _ => hroot _ (hmem j hj)) (fun j hj h0 => hnn _ (htail j hj h0)) (by omega)

/-- The example of `test_1` meets the hypotheses. -/
example : ∃ L Q, getPsp 4 4 [0, 0, 0, 0] [2, 5, 4, 2] = .ok (L, Q) ∧ (∀ P ∈ Q, P.Nodup) ∧
    IsPrincipalSequence (treeEdges 4 [0, 0, 0, 0] [2, 5, 4, 2]) (Finset.range 4) (Q.map List.toFinset) L :=
  C69_star_partial (n := 4) (K := [0, 0, 0, 0]) (W := [2, 5, 4, 2]) (by decide) rfl rfl (by decide) (by decide +kernel) (by decide +kernel) le_rfl

/-- **C69** (`_partial`: the values only). For every tree, if the weight given for the root is at most the others,
`get_psp` ends without an error, and the list of values it returns is increasing and consists of the critical values of
the tree. -/
theorem C69_values_partial {n : ℕ} (hn : 0 < n) {K : List ℕ} {W : List ℚ} (hK : IsTree n K) (hlW : W.length = n)
    (hroot : ∀ x ∈ W, W.getD 0 0 ≤ x) (hnn : ∀ x ∈ W.tail, 0 ≤ x) {fuel : ℕ} (hf : n ≤ fuel) :
    ∃ L Q, getPsp fuel n K W = .ok (L, Q) ∧ L.Pairwise (· < ·) ∧ Q.length = L.length + 1 ∧
      ∀ c, c ∈ L ↔ IsCritical (treeEdges n K W) (Finset.range n) c := by
  obtain ⟨m, rfl⟩ : ∃ m, n = m + 1 := ⟨n - 1, by omega⟩
  have hW0 : ∀ j < m + 1, W[j]? = some (W.getD j 0) := by
    intro j hj
    rw [List.getD_eq_getElem?_getD, List.getElem?_eq_getElem (by omega)]
    rfl
  have hmem : ∀ j < m + 1, W.getD j 0 ∈ W := fun j hj => List.mem_of_getElem? (hW0 j hj)
  have htail : ∀ j < m + 1, 0 < j → W.getD j 0 ∈ W.tail := by
    intro j hj h0
    refine List.mem_of_getElem? (i := j - 1) ?_
    rw [List.getElem?_tail, Nat.sub_add_cancel h0]
    exact hW0 j hj
  have hnn' : ∀ j ∈ Finset.Icc 1 m, 0 ≤ W.getD j 0 := fun j hj => by
    rw [Finset.mem_Icc] at hj
    exact hnn _ (htail j (by omega) (by omega))
  have hp : ∀ j ∈ Finset.Icc 1 m, K.getD j 0 < j := fun j hj => by
    rw [Finset.mem_Icc] at hj
    exact hK.2 j (by omega) (by omega)
  obtain ⟨C, L, Q, h1, h2, h3, h4, h5⟩ := pyLoop_values (K := K) (W := W) (w := fun j => W.getD j 0) hK.1.ge hW0
    (by
      intro a ha b hb h1 h2
      by_contra hab
      rcases Nat.eq_zero_or_pos a with h0 | h0
      · have := hnn _ (htail b hb (by omega))
        linarith
      · have := hnn _ (htail a ha h0)
        linarith)
    (fun j hj _ => hroot _ (hmem j hj)) fuel (C := List.range (m + 1)) (L := [])
    ⟨fun i hi => List.mem_range.1 hi, List.nodup_range, fun _ _ c hc => (by cases hc),
      fun i hi hiC => absurd (List.mem_range.2 hi) hiC, fun c hc => (by cases hc), List.Pairwise.nil⟩
    (by rw [List.length_range]; omega) [] [(List.range (m + 1)).map fun i => {i}]
  refine ⟨L, Q, h1, h3.increasing, by simpa using h4, fun c => ?_⟩
  have hcrit := tree_critical hp hnn' c
  have hE : treeEdges (m + 1) K W = treeE m (fun j => K.getD j 0) fun j => W.getD j 0 := rfl
  rw [hE, hcrit]
  constructor
  · intro hc
    obtain ⟨i, hi, hi0, hci⟩ := h3.value c hc
    exact ⟨i, Finset.mem_Icc.2 ⟨by omega, by omega⟩, hci.symm⟩
  · rintro ⟨j, hj, rfl⟩
    rw [Finset.mem_Icc] at hj
    refine h3.done j (by omega) fun hjC => ?_
    have hC : C = [j] := by
      match C, hjC, h2 with
      | [x], hx, _ => rw [List.mem_singleton] at hx; rw [hx]
    have h0 : W.getD 0 0 ∈ L := h3.done 0 (by omega) (by rw [hC]; simp; omega)
    have := h3.low j hjC _ h0
    have h' := hroot _ (hmem j (by omega))
    exact absurd this (not_lt.2 h')

/-- A tree for which the partitions are wrong meets the hypotheses. -/
example : ∃ L Q, getPsp 4 4 [0, 0, 0, 2] [1, 1, 5, 9] = .ok (L, Q) ∧ L.Pairwise (· < ·) ∧ Q.length = L.length + 1 ∧
    ∀ c, c ∈ L ↔ IsCritical (treeEdges 4 [0, 0, 0, 2] [1, 1, 5, 9]) (Finset.range 4) c :=
  C69_values_partial (n := 4) (K := [0, 0, 0, 2]) (W := [1, 1, 5, 9]) (by decide) (by decide) rfl (by decide +kernel) (by decide +kernel) le_rfl

/-- **C69** (`_partial`: exactly the trees on which the script is right). For every tree whose root has the parent `0`, and
the weight given for the root at most the others, `get_psp` returns the principal sequence of the tree if and only if the
tree is `Orderly`. -/
theorem C69_tree_partial {n : ℕ} (hn : 0 < n) {K : List ℕ} {W : List ℚ} (hK : IsTree n K) (hK0 : K.getD 0 0 = 0)
    (hlW : W.length = n) (hroot : ∀ x ∈ W, W.getD 0 0 ≤ x) (hnn : ∀ x ∈ W.tail, 0 ≤ x) {fuel : ℕ} (hf : n ≤ fuel) :
    (∃ L Q, getPsp fuel n K W = .ok (L, Q) ∧ (∀ P ∈ Q, P.Nodup) ∧
      IsPrincipalSequence (treeEdges n K W) (Finset.range n) (Q.map List.toFinset) L) ↔ Orderly n K W := by
  obtain ⟨m, rfl⟩ : ∃ m, n = m + 1 := ⟨n - 1, by omega⟩
  have hW0 : ∀ j < m + 1, W[j]? = some (W.getD j 0) := by
    intro j hj
    rw [List.getD_eq_getElem?_getD, List.getElem?_eq_getElem (by omega)]
    rfl
  have hKj : ∀ j < m + 1, K[j]? = some (K.getD j 0) := by
    intro j hj
    rw [List.getD_eq_getElem?_getD, List.getElem?_eq_getElem (by rw [hK.1]; exact hj)]
    rfl
  have hmem : ∀ j < m + 1, W.getD j 0 ∈ W := fun j hj => List.mem_of_getElem? (hW0 j hj)
  have htail : ∀ j < m + 1, 0 < j → W.getD j 0 ∈ W.tail := by
    intro j hj h0
    refine List.mem_of_getElem? (i := j - 1) ?_
    rw [List.getElem?_tail, Nat.sub_add_cancel h0]
    exact hW0 j hj
  have hnn' : ∀ j ∈ Finset.Icc 1 m, 0 ≤ W.getD j 0 := fun j hj => by
    rw [Finset.mem_Icc] at hj
    exact hnn _ (htail j (by omega) (by omega))
  have hp : ∀ j ∈ Finset.Icc 1 m, K.getD j 0 < j := fun j hj => by
    rw [Finset.mem_Icc] at hj
    exact hK.2 j (by omega) (by omega)
  have hE : treeEdges (m + 1) K W = treeE m (fun j => K.getD j 0) fun j => W.getD j 0 := rfl
  have ho : Orderly (m + 1) K W ↔ OrderlyAt m (fun j => K.getD j 0) fun j => W.getD j 0 := by
    constructor
    · intro h j hj
      rw [Finset.mem_Icc] at hj
      refine ⟨(h j (by omega) (by omega)).1, ?_⟩
      rintro ⟨i, hi, hij⟩
      rw [Finset.mem_Icc] at hi
      exact (h j (by omega) (by omega)).2 ⟨i, by omega, by omega, hij⟩
    · intro h j hj hj0
      have h' := h j (Finset.mem_Icc.2 ⟨hj0, by omega⟩)
      refine ⟨h'.1, ?_⟩
      rintro ⟨i, hi, hi0, hij⟩
      exact h'.2 ⟨i, Finset.mem_Icc.2 ⟨hi0, by omega⟩, hij⟩
  rw [hE, ho]
  constructor
  · rintro ⟨L, Q, h1, -, h3⟩
    exact getPsp_orderly hp hK0 hKj hW0 (fun j hj _ => hroot _ (hmem j hj)) h1 h3.first
  · intro h
    exact getPsp_tree hp hK0 hKj hW0 h (fun j hj _ => hroot _ (hmem j hj)) hnn' (by omega)

/-- The example of `test_2` is orderly: node `2` has a child, and node `1` comes before it. -/
example : ∃ L Q, getPsp 4 4 [0, 0, 0, 2] [9/10, 1, 9/10, 2] = .ok (L, Q) ∧ (∀ P ∈ Q, P.Nodup) ∧
    IsPrincipalSequence (treeEdges 4 [0, 0, 0, 2] [9/10, 1, 9/10, 2]) (Finset.range 4) (Q.map List.toFinset) L :=
  (C69_tree_partial (n := 4) (K := [0, 0, 0, 2]) (W := [9/10, 1, 9/10, 2]) (by decide) (by decide) rfl rfl
    (by decide +kernel) (by decide +kernel) le_rfl).2 (by decide +kernel)

/-- This path is not orderly: nothing comes before the node below the root. -/
example : ¬ ∃ L Q, getPsp 3 3 [0, 0, 1] [0, 1, 2] = .ok (L, Q) ∧ (∀ P ∈ Q, P.Nodup) ∧
    IsPrincipalSequence (treeEdges 3 [0, 0, 1] [0, 1, 2]) (Finset.range 3) (Q.map List.toFinset) L :=
  fun h => absurd ((C69_tree_partial (n := 3) (K := [0, 0, 1]) (W := [0, 1, 2]) (by decide) (by decide) rfl rfl
    (by decide +kernel) (by decide +kernel) le_rfl).1 h) (by decide +kernel)

/-- **C69 violated**: when a node that already has a group is merged into its parent, the parent itself is forgotten
(`D[K[j]] = D[j]`, get_psp.py:19). Here node `2` with its child `3` is merged into the root; the root stays alone, even in
the last partition, which should be the whole set. The parents are numbered below their children, and no edge is lighter
than the one above it. -/
theorem C69_lost_violated : IsTree 4 [0, 0, 0, 2] ∧
    getPsp 4 4 [0, 0, 0, 2] [1, 1, 5, 9] =
      .ok ([1, 5, 9], [[{1, 2, 3}, {0}], [{2, 3}, {0}, {1}], [{2, 3}, {0}, {1}], [{0}, {1}, {2}, {3}]]) ∧
    ¬ IsPrincipalSequence (treeEdges 4 [0, 0, 0, 2] [1, 1, 5, 9]) (Finset.range 4)
      (([[{1, 2, 3}, {0}], [{2, 3}, {0}, {1}], [{2, 3}, {0}, {1}], [{0}, {1}, {2}, {3}]] : List (List CSet)).map
        List.toFinset) [1, 5, 9] := by
  refine ⟨by decide, by decide +kernel, fun h => ?_⟩
  have := h.first
  revert this
  decide

/-- **C69 violated**: when a node is merged into a parent that was already merged into its own parent, a second group with
that parent is made. The result is not a partition: node `1` is in two blocks. -/
theorem C69_overlap_violated : IsTree 3 [0, 0, 1] ∧
    getPsp 3 3 [0, 0, 1] [1, 5, 3] = .ok ([3, 5], [[{0, 1}, {1, 2}], [{0, 1}, {2}], [{0}, {1}, {2}]]) ∧
    ¬ IsPartition (Finset.range 3) {{0, 1}, {1, 2}} := by
  refine ⟨by decide, by decide +kernel, fun h => ?_⟩
  have := h.eq_of_mem (B := {0, 1}) (C := {1, 2}) (by decide) (by decide) (v := 1) (by decide) (by decide)
  revert this
  decide

/-- **C69 violated**: the weight given for the root, which belongs to no edge, must not be above the others. Otherwise a
value that is not critical is returned, and a node is missing from all blocks. -/
theorem C69_root_violated : IsTree 3 [0, 0, 0] ∧
    getPsp 3 3 [0, 0, 0] [7, 2, 3] = .ok ([3, 7], [[{0, 2}], [{0}, {1}, {2}], [{0}, {1}, {2}]]) ∧
    ¬ IsPartition (Finset.range 3) {{0, 2}} ∧ ¬ IsCritical (treeEdges 3 [0, 0, 0] [7, 2, 3]) (Finset.range 3) 7 := by
  refine ⟨by decide, by decide +kernel, fun h => ?_, fun h => ?_⟩
  · obtain ⟨B, hB, h1⟩ := h.exists_block (v := 1) (by decide)
    rw [Finset.mem_singleton] at hB
    subst hB
    revert h1
    decide
  · have hE : treeEdges 3 [0, 0, 0] [7, 2, 3] =
      treeE 2 (fun j => [0, 0, 0].getD j 0) fun j => ([7, 2, 3] : List ℚ).getD j 0 := rfl
    rw [hE, tree_critical (by decide) (by decide +kernel)] at h
    revert h
    decide +kernel

/-- **C69 violated**: if two weights are below `-1` (the initial value of `gamma`), the loop never
ends: no number of iterations is enough. -/
theorem C69_forever_violated {n : ℕ} {K : List ℕ} {W : List ℚ} (hlK : K.length = n) (hlW : W.length = n) {a b : ℕ}
    (hab : a < b) (hb : b < n) (ha1 : W.getD a 0 < -1) (hb1 : W.getD b 0 < -1) (fuel : ℕ) :
    getPsp fuel n K W = .fuel := by
  refine pyLoop_forever (w := fun j => W.getD j 0) hlK.ge ?_ hab.ne ha1 hb1 fuel (fun i hi => List.mem_range.1 hi)
    (List.mem_range.2 (by omega)) (List.mem_range.2 hb) _ _ _
  intro j hj
  rw [List.getD_eq_getElem?_getD, List.getElem?_eq_getElem (by omega)]
  rfl

example (fuel : ℕ) : getPsp fuel 2 [0, 0] [-2, -3] = .fuel :=
  C69_forever_violated (n := 2) rfl rfl (a := 0) (b := 1) (by decide) (by decide) (by decide +kernel)
    (by decide +kernel) fuel

end PSP.Props
