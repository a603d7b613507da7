import Verif.Theory.WolfeAgg

/-!
# The entropy functions
-/

namespace PSP.Theory

open PSP.Model PSP.Spec

/-- For arcs from low to high ids `DigraphEntropy` is the weight of the arcs that touch the set. -/
theorem digraphEntropy_val {g : Digraph} (hg : ∀ a ∈ g.arcs, a.src < a.dst) {B : List ℕ}
    (hB : B.Nodup) : (digraphEntropy g).val B = incident g.arcs B.toFinset := by
  simp only [digraphEntropy]
  rw [sum_list_eq hB]
  unfold incident
  generalize g.arcs = E at hg
  induction E with
  | nil => simp
  | cons e E ih =>
    have ih' := ih fun a ha => hg a (by simp [ha])
    have he := hg e (by simp)
    simp only [List.map_cons, List.sum_cons] at ih' ⊢
    rw [← ih']
    have : ∀ b ∈ B.toFinset,
        ((if e.dst = b ∧ ¬ (e.src < b ∧ e.src ∈ B) then e.cap else 0) +
          (E.map fun a => if a.dst = b ∧ ¬ (a.src < b ∧ a.src ∈ B) then a.cap else 0).sum +
        ((if e.src = b then e.cap else 0) + (E.map fun a => if a.src = b then a.cap else 0).sum)) =
        ((if e.dst = b then (if e.src ∈ B then 0 else e.cap) else 0) +
          (if e.src = b then e.cap else 0)) +
        ((E.map fun a => if a.dst = b ∧ ¬ (a.src < b ∧ a.src ∈ B) then a.cap else 0).sum +
          (E.map fun a => if a.src = b then a.cap else 0).sum) := by
      intro b _
      have : (if e.dst = b ∧ ¬ (e.src < b ∧ e.src ∈ B) then e.cap else 0) =
          (if e.dst = b then (if e.src ∈ B then 0 else e.cap) else 0) := by
        by_cases h1 : e.dst = b
        · subst h1
          by_cases h2 : e.src ∈ B
          · simp [h2, he]
          · simp [h2]
        · simp [h1]
      rw [this]; ring
    rw [Finset.sum_congr rfl this, Finset.sum_add_distrib, Finset.sum_add_distrib,
      Finset.sum_ite_eq, Finset.sum_ite_eq]
    congr 1
    by_cases h1 : e.src ∈ B <;> by_cases h2 : e.dst ∈ B <;> simp [h1, h2]

theorem maxCoeff_spec : ∀ l : List ℚ, l ≠ [] → maxCoeff l ∈ l ∧ ∀ a ∈ l, a ≤ maxCoeff l := by
  intro l
  induction l with
  | nil => intro h; exact absurd rfl h
  | cons b l ih =>
    intro _
    cases l with
    | nil => simp [maxCoeff]
    | cons c l =>
      obtain ⟨h1, h2⟩ := ih (by simp)
      simp only [maxCoeff]
      constructor
      · rcases max_choice b (maxCoeff (c :: l)) with h | h
        · rw [h]; simp
        · rw [h]; exact List.mem_cons_of_mem _ h1
      · intro a ha
        rcases List.mem_cons.1 ha with rfl | ha
        · exact le_max_left _ _
        · exact (h2 a ha).trans (le_max_right _ _)

theorem hypergraphEntropy_val (M : List (List ℚ)) (cols : ℕ) {B : List ℕ} (hB : B ≠ []) :
    (hypergraphEntropy M cols).val B = weightMax M cols B.toFinset := by
  unfold weightMax hypergraphEntropy
  have hne : B.toFinset.Nonempty := List.toFinset_nonempty_iff _ |>.2 hB
  rw [dif_pos hne]
  simp only
  rw [← List.sum_toFinset _ List.nodup_range, List.toFinset_range]
  apply Finset.sum_congr rfl
  intro c _
  obtain ⟨h1, h2⟩ := maxCoeff_spec (B.map fun r => (M.getD r []).getD c 0) (by simpa using hB)
  apply le_antisymm
  · obtain ⟨r, hr, he⟩ := List.mem_map.1 h1
    rw [← he]
    exact Finset.le_sup' (fun r => (M.getD r []).getD c 0) (List.mem_toFinset.2 hr)
  · apply Finset.sup'_le
    intro r hr
    exact h2 _ (List.mem_map.2 ⟨r, List.mem_toFinset.1 hr, rfl⟩)

/-- The maximum is submodular on intersecting sets. -/
theorem weightMax_intersecting (M : List (List ℚ)) (cols : ℕ) (V : Finset ℕ) :
    Intersecting V (weightMax M cols) := by
  intro S T _ _ hST
  have hS : S.Nonempty := hST.mono Finset.inter_subset_left
  have hT : T.Nonempty := hST.mono Finset.inter_subset_right
  have hU : (S ∪ T).Nonempty := hS.mono Finset.subset_union_left
  unfold weightMax
  rw [dif_pos hS, dif_pos hT, dif_pos hU, dif_pos hST, ← Finset.sum_add_distrib,
    ← Finset.sum_add_distrib]
  apply Finset.sum_le_sum
  intro c _
  set g : ℕ → ℚ := fun r => (M.getD r []).getD c 0
  have h1 : (S ∩ T).sup' hST g ≤ S.sup' hS g :=
    Finset.sup'_mono g Finset.inter_subset_left hST
  have h2 : (S ∩ T).sup' hST g ≤ T.sup' hT g :=
    Finset.sup'_mono g Finset.inter_subset_right hST
  have h3 : (S ∪ T).sup' hU g ≤ max (S.sup' hS g) (T.sup' hT g) := by
    apply Finset.sup'_le
    intro b hb
    rcases Finset.mem_union.1 hb with hb | hb
    · exact (Finset.le_sup' g hb).trans (le_max_left _ _)
    · exact (Finset.le_sup' g hb).trans (le_max_right _ _)
  rcases max_choice (S.sup' hS g) (T.sup' hT g) with h | h <;> rw [h] at h3 <;> linarith

end PSP.Theory
