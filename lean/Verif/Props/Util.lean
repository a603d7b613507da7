import Verif.Theory.Util

/-!
# Properties of `digraph_contract` and `digraph_copy` (C47, C48)
-/

namespace PSP.Props

open PSP.Spec PSP.Model PSP.Theory

/-! ### C47: `digraph_contract`

Full property: the capacity between any two sets of nodes of the contracted graph is the capacity between
the sets of old nodes they stand for, and there is at most one arc from a node to another that touches the
new node. Both parts are violated. -/

/-- The path 0 → 1 → 2: contracting {0, 2} loses the arc from 1 to 2, although arcs go from lower to
higher ids as in every graph built by `PSP`. -/
theorem C47_two_way_violated : ∃ g', digraphContract (1 / 10 ^ 10) ⟨[0, 1, 2], [⟨0, 1, 1⟩, ⟨1, 2, 5⟩]⟩ {0, 2} 0 =
      .ok g' ∧ g'.nodes = [0, 1] ∧ capFromTo [⟨0, 1, 1⟩, ⟨1, 2, 5⟩] {1} {0, 2} = 5 ∧
      capFromTo g'.arcs {1} {0} = 0 :=
  ⟨⟨[0, 1], [⟨0, 1, 1⟩]⟩, by decide +kernel, rfl, by decide +kernel, by decide +kernel⟩

/-- In general: whenever there is capacity from `S` to `v`, all capacity from `v` to `S` is lost. -/
theorem C47_lost {ε : ℚ} {g : Digraph} (hn : g.nodes.Nodup) {S : Finset ℕ} {i : ℕ} (hiS : i ∈ S)
    (hi : i ∈ g.nodes) {j : ℕ} (hj : j ∈ g.nodes) (hjS : j ∈ S) (hji : j ≠ i) {v : ℕ} (hv : v ∈ g.nodes)
    (hvS : v ∉ S) (hout : capFromTo g.arcs S {v} > ε) :
    ∃ g', digraphContract ε g S i = .ok g' ∧ capFromTo g'.arcs {v} {i} = 0 := by
  refine ⟨_, digraphContract_eq hi hj hjS hji, ?_⟩
  rw [(contract_cap hn hiS hi hj hjS hji (digraphContract_eq hi hj hjS hji)).2.2.2 v hv hvS, if_pos hout]

/-- If `S` has only one node in the graph, parallel arcs stay. -/
theorem C47_duplicates_violated :
    digraphContract (1 / 10 ^ 10) ⟨[0, 1], [⟨0, 1, 1⟩, ⟨0, 1, 1⟩]⟩ {0} 0 =
      .ok ⟨[0, 1], [⟨0, 1, 1⟩, ⟨0, 1, 1⟩]⟩ := by decide +kernel

/-- If no node has arcs both from and to `S`, and every capacity is 0 or above the tolerance, capacities
between disjoint sets of nodes are kept. Missing from the full property: nodes with arcs in both
directions (see `C47_lost`). -/
theorem C47_contract_partial {ε : ℚ} {g : Digraph} (hn : g.nodes.Nodup)
    (hw : ∀ a ∈ g.arcs, a.src ∈ g.nodes ∧ a.dst ∈ g.nodes) (h0 : 0 ≤ ε)
    (hc : ∀ a ∈ g.arcs, a.cap = 0 ∨ ε < a.cap) {S : Finset ℕ} {i : ℕ} (hiS : i ∈ S) (hi : i ∈ g.nodes)
    (hone : ∀ v ∈ g.nodes, v ∉ S → capFromTo g.arcs S {v} = 0 ∨ capFromTo g.arcs {v} S = 0) :
    ∃ g', digraphContract ε g S i = .ok g' ∧
      g'.nodes = g.nodes.filter (fun v => v ∈ S → v = i) ∧
      (∀ a ∈ g'.arcs, a.src ∈ g'.nodes ∧ a.dst ∈ g'.nodes) ∧
      ∀ A B : Finset ℕ, A ⊆ g'.nodes.toFinset → B ⊆ g'.nodes.toFinset → Disjoint A B →
        capFromTo g'.arcs A B = capFromTo g.arcs (uncontract S i A) (uncontract S i B) := by
  by_cases hs : ∀ j ∈ g.nodes, j ∈ S → j = i
  · refine ⟨g, by unfold digraphContract; rw [if_pos hs], ?_, hw, ?_⟩
    · symm
      rw [List.filter_eq_self]
      intro v hv; exact decide_eq_true (hs v hv)
    · intro A B hA hB _
      apply capFromTo_congr
      intro a ha
      have key : ∀ (C : Finset ℕ) (v : ℕ), v ∈ g.nodes → (v ∈ C ↔ v ∈ uncontract S i C) := by
        intro C v hv
        unfold uncontract
        split
        · rename_i hiC
          rw [Finset.mem_union]
          exact ⟨Or.inl, fun h => h.elim id fun h => hs v hv h ▸ hiC⟩
        · rfl
      rw [key A _ (hw a ha).1, key B _ (hw a ha).2]
  · push Not at hs
    obtain ⟨j, hj, hjS, hji⟩ := hs
    refine ⟨_, digraphContract_eq hi hj hjS hji, ?_, ?_, ?_⟩
    · apply List.filter_congr
      intro v _
      simp only [decide_eq_decide]
      tauto
    · intro a ha
      have hmem : ∀ v, v ∈ g.nodes.filter (fun v => ¬ (v ∈ S ∧ v ≠ i)) ↔ v ∈ g.nodes ∧ ¬ (v ∈ S ∧ v ≠ i) := by
        intro v; rw [List.mem_filter, decide_eq_true_eq]
      rw [hmem, hmem]
      rcases List.mem_append.1 ha with ha | ha
      · have h1 := List.mem_filter.1 ha
        have h2 := h1.2
        simp only [decide_eq_true_eq] at h2
        exact ⟨⟨(hw a h1.1).1, h2.2.1⟩, (hw a h1.1).2, h2.2.2⟩
      · obtain ⟨v, hv, hvS, h | h⟩ := mem_utilArcs ha
        · rw [h.1, h.2]; exact ⟨⟨hi, fun h => h.2 rfl⟩, hv, fun h => hvS h.1⟩
        · rw [h.1, h.2]; exact ⟨⟨hv, fun h => hvS h.1⟩, hi, fun h => h.2 rfl⟩
    · intro A B hA hB hAB
      obtain ⟨_, h1, h2, h3⟩ := contract_cap hn hiS hi hj hjS hji (digraphContract_eq (ε := ε) hi hj hjS hji)
      set g' : Digraph :=
        { nodes := g.nodes.filter fun v => ¬ (v ∈ S ∧ v ≠ i)
          arcs := (g.arcs.filter fun a => ¬ (a.src = i ∨ a.dst = i) ∧
            ¬ (a.src ∈ S ∧ a.src ≠ i) ∧ ¬ (a.dst ∈ S ∧ a.dst ≠ i)) ++ utilArcs ε g S i } with hg'
      have hnn : ∀ a ∈ g.arcs, 0 ≤ a.cap := fun a ha => by rcases hc a ha with h | h <;> linarith
      have hout : ∀ v ∈ g.nodes, v ∉ S → capFromTo g'.arcs {i} {v} = capFromTo g.arcs S {v} := by
        intro v hv hvS
        rw [h2 v hv hvS]
        rcases capFromTo_fine h0 hc S {v} with h | h
        · rw [h, ite_self]
        · rw [if_pos h]
      have hin : ∀ v ∈ g.nodes, v ∉ S → capFromTo g'.arcs {v} {i} = capFromTo g.arcs {v} S := by
        intro v hv hvS
        rw [h3 v hv hvS]
        rcases hone v hv hvS with h | h
        · rw [if_neg (by rw [h]; exact not_lt.2 h0), abs_of_nonneg (capFromTo_nonneg hnn _ _)]
          rcases capFromTo_fine h0 hc {v} S with h | h
          · rw [h, ite_self]
          · rw [if_pos h]
        · rw [h]; simp
      have hmem : ∀ {C : Finset ℕ}, C ⊆ g'.nodes.toFinset → ∀ v ∈ C, v ∈ g.nodes ∧ (v ∉ S ∨ v = i) := by
        intro C hC v hv
        have := hC hv
        simp only [hg', List.mem_toFinset, List.mem_filter, decide_eq_true_eq] at this
        exact ⟨this.1, by tauto⟩
      have hsplit : ∀ {C : Finset ℕ}, C ⊆ g'.nodes.toFinset → i ∉ C → ∀ v ∈ C, v ∈ g.nodes ∧ v ∉ S := by
        intro C hC hiC v hv
        have := hmem hC v hv
        refine ⟨this.1, this.2.elim id fun h => absurd (h ▸ hv) hiC⟩
      have hun : ∀ {C : Finset ℕ}, C ⊆ g'.nodes.toFinset → i ∈ C →
          uncontract S i C = (C.erase i) ∪ S ∧ Disjoint (C.erase i) S := by
        intro C hC hiC
        unfold uncontract
        rw [if_pos hiC]
        constructor
        · ext v
          simp only [Finset.mem_union, Finset.mem_erase]
          constructor
          · rintro (h | h)
            · by_cases hvi : v = i
              · right; rw [hvi]; exact hiS
              · exact .inl ⟨hvi, h⟩
            · exact .inr h
          · rintro (h | h)
            · exact .inl h.2
            · exact .inr h
        · rw [Finset.disjoint_left]
          intro v hv
          rw [Finset.mem_erase] at hv
          exact ((hmem hC v hv.2).2).resolve_right hv.1
      by_cases hiA : i ∈ A
      · have hiB : i ∉ B := Finset.disjoint_left.1 hAB hiA
        obtain ⟨e1, e2⟩ := hun hA hiA
        rw [e1, uncontract, if_neg hiB, capFromTo_sum, capFromTo_sum g.arcs, Finset.sum_union e2,
          ← Finset.add_sum_erase A _ hiA, add_comm]
        congr 1
        · apply Finset.sum_congr rfl
          intro u hu
          apply Finset.sum_congr rfl
          intro v hv
          exact h1 u v (Finset.disjoint_left.1 e2 hu) (hsplit hB hiB v hv).2
        · rw [← capFromTo_sum, Finset.sum_congr rfl fun v hv => hout v (hsplit hB hiB v hv).1 (hsplit hB hiB v hv).2]
          rw [capFromTo_sum, Finset.sum_comm]
          apply Finset.sum_congr rfl
          intro v _
          rw [capFromTo_sum]
          simp
      · by_cases hiB : i ∈ B
        · obtain ⟨e1, e2⟩ := hun hB hiB
          rw [e1, uncontract, if_neg hiA, capFromTo_sum, capFromTo_sum g.arcs]
          apply Finset.sum_congr rfl
          intro u hu
          obtain ⟨hu1, hu2⟩ := hsplit hA hiA u hu
          rw [Finset.sum_union e2, ← Finset.add_sum_erase B _ hiB, add_comm]
          congr 1
          · apply Finset.sum_congr rfl
            intro v hv
            exact h1 u v hu2 (Finset.disjoint_left.1 e2 hv)
          · rw [hin u hu1 hu2, capFromTo_sum]
            simp
        · rw [uncontract, uncontract, if_neg hiA, if_neg hiB, capFromTo_sum, capFromTo_sum g.arcs]
          apply Finset.sum_congr rfl
          intro u hu
          apply Finset.sum_congr rfl
          intro v hv
          exact h1 u v (hsplit hA hiA u hu).2 (hsplit hB hiB v hv).2

/-- The test of /repo (test_utility.h): four nodes, {1, 2, 3} contracted to 2. -/
example : digraphContract (1 / 10 ^ 10) ⟨[0, 1, 2, 3], [⟨0, 1, 1⟩, ⟨0, 2, 1 / 2⟩, ⟨0, 3, 1⟩, ⟨1, 2, 3⟩]⟩ {1, 2, 3} 2 =
    .ok ⟨[0, 2], [⟨0, 2, 5 / 2⟩]⟩ := by decide +kernel

/-- It meets the hypotheses of `C47_contract_partial`. -/
example : ∃ g', digraphContract (1 / 10 ^ 10)
    ⟨[0, 1, 2, 3], [⟨0, 1, 1⟩, ⟨0, 2, 1 / 2⟩, ⟨0, 3, 1⟩, ⟨1, 2, 3⟩]⟩ {1, 2, 3} 2 = .ok g' ∧
    capFromTo g'.arcs {0} {2} =
      capFromTo [⟨0, 1, 1⟩, ⟨0, 2, 1 / 2⟩, ⟨0, 3, 1⟩, ⟨1, 2, 3⟩] {0} (uncontract {1, 2, 3} 2 {2}) := by
  obtain ⟨g', h, hn, _, hc⟩ := C47_contract_partial (ε := 1 / 10 ^ 10)
    (g := ⟨[0, 1, 2, 3], [⟨0, 1, 1⟩, ⟨0, 2, 1 / 2⟩, ⟨0, 3, 1⟩, ⟨1, 2, 3⟩]⟩) (S := {1, 2, 3}) (i := 2)
    (by decide) (by decide) (by norm_num) (by decide +kernel) (by decide) (by decide) (by decide +kernel)
  refine ⟨g', h, hc {0} {2} ?_ ?_ (by decide)⟩ <;> rw [hn] <;> decide

/-! ### C48: `digraph_copy`

Full property: the copy has the same nodes and arcs. Violated if two or more ids are missing in the old
graph. -/

/-- What `digraph_copy` does: it ends; the arcs are the same; of the ids that are missing in the old graph
only the largest is missing in the copy. -/
theorem C48_copy (m : Mem) : ∃ g', digraphCopy m = .ok g' ∧ g'.arcs = m.arcs ∧
    ∀ v, v ∈ g'.nodes ↔ v < m.ids ∧ (v ∉ m.nodes → ∃ u, v < u ∧ u < m.ids ∧ u ∉ m.nodes) := by
  classical
  by_cases h : ∀ v < m.ids, v ∈ m.nodes
  · refine ⟨_, digraphCopy_all h, rfl, fun v => ?_⟩
    simp only [List.mem_range]
    exact ⟨fun hv => ⟨hv, fun hn => absurd (h v hv) hn⟩, fun hv => hv.1⟩
  · push Not at h
    obtain ⟨v0, hv0, hm0⟩ := h
    have hne : ((Finset.range m.ids).filter fun v => v ∉ m.nodes).Nonempty := ⟨v0, by simp [hv0, hm0]⟩
    obtain ⟨hb1, hb2⟩ := Finset.mem_filter.1 (Finset.max'_mem _ hne)
    have hmax : ∀ u < m.ids, u ∉ m.nodes → u ≤ Finset.max' _ hne := fun u hu hn =>
      Finset.le_max' _ _ (by simp [hu, hn])
    generalize Finset.max' _ hne = b at hb1 hb2 hmax
    rw [Finset.mem_range] at hb1
    refine ⟨_, digraphCopy_missing hb1 hb2 fun u hu hlt => ?_, rfl, fun v => ?_⟩
    · by_contra hn; exact absurd (hmax u hu hn) (by omega)
    · simp only [List.mem_filter, List.mem_range, decide_eq_true_eq]
      constructor
      · rintro ⟨hv, hvb⟩
        refine ⟨hv, fun hn => ⟨b, ?_, hb1, hb2⟩⟩
        have := hmax v hv hn; omega
      · rintro ⟨hv, hvb⟩
        refine ⟨hv, ?_⟩
        rintro rfl
        obtain ⟨u, h1, h2, h3⟩ := hvb hb2
        have := hmax u h2 h3; omega

/-- The copy is right if at most one id is missing. -/
theorem C48_copy_partial {m : Mem} (hm : ∀ v ∈ m.nodes, v < m.ids)
    (h1 : ∀ u v, u < m.ids → v < m.ids → u ∉ m.nodes → v ∉ m.nodes → u = v) :
    ∃ g', digraphCopy m = .ok g' ∧ g'.arcs = m.arcs ∧ ∀ v, v ∈ g'.nodes ↔ v ∈ m.nodes := by
  obtain ⟨g', hg, ha, hv⟩ := C48_copy m
  refine ⟨g', hg, ha, fun v => ?_⟩
  rw [hv]
  constructor
  · rintro ⟨h2, h3⟩
    by_contra hn
    obtain ⟨u, h4, h5, h6⟩ := h3 hn
    have := h1 u v h5 h2 h6 hn; omega
  · exact fun h => ⟨hm v h, fun hn => absurd h hn⟩

/-- With two or more missing ids the copy always has nodes that the old graph has not. -/
theorem C48_copy_violated {m : Mem} {u v : ℕ} (hu : u < m.ids) (hv : v < m.ids) (huv : u ≠ v)
    (hum : u ∉ m.nodes) (hvm : v ∉ m.nodes) :
    ∃ g', digraphCopy m = .ok g' ∧ ∃ w ∈ g'.nodes, w ∉ m.nodes := by
  obtain ⟨g', hg, _, hw⟩ := C48_copy m
  refine ⟨g', hg, ?_⟩
  rcases lt_or_gt_of_ne huv with h | h
  · exact ⟨u, (hw u).2 ⟨hu, fun _ => ⟨v, h, hv, hvm⟩⟩, hum⟩
  · exact ⟨v, (hw v).2 ⟨hv, fun _ => ⟨u, h, hu, hum⟩⟩, hvm⟩

/-- The test of /repo: one node of three is erased. -/
example : digraphCopy ((⟨[0, 1, 2], [⟨0, 1, 3⟩, ⟨0, 2, 4⟩], [], 3⟩ : Mem).erase 1) =
    .ok ⟨[0, 2], [⟨0, 2, 4⟩]⟩ := by decide +kernel

/-- Two nodes of four are erased; the copy has three nodes. -/
example : digraphCopy (((⟨[0, 1, 2, 3], [⟨0, 3, 4⟩], [], 4⟩ : Mem).erase 1).erase 2) =
    .ok ⟨[0, 1, 3], [⟨0, 3, 4⟩]⟩ := by decide +kernel

end PSP.Props
