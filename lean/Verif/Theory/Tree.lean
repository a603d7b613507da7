import Mathlib.Data.Finset.Max
import Verif.Spec.Tree
import Verif.Theory.CountStar

/-!
# Critical values of a tree
-/

namespace PSP.Theory

open PSP.Spec PSP.Model

variable {m : ℕ} {p : ℕ → ℕ} {w : ℕ → ℚ} {S : Finset ℕ}

/-- The edges of a tree with the parents `p` and the weights `w`. -/
def treeE (m : ℕ) (p : ℕ → ℕ) (w : ℕ → ℚ) : List Arc := (List.range m).map fun i => ⟨p (i + 1), i + 1, w (i + 1)⟩

/-- The nodes whose edge to the parent is broken by a partition. -/
def brokenAt (m : ℕ) (p : ℕ → ℕ) (P : Finset (Finset ℕ)) : Finset ℕ :=
  (Finset.Icc 1 m).filter fun i => ¬ Same P (p i) i

theorem crossWeight_treeE (P : Finset (Finset ℕ)) : crossWeight (treeE m p w) P = ∑ i ∈ brokenAt m p P, w i := by
  unfold crossWeight treeE brokenAt
  rw [List.map_map, Finset.sum_filter, ← list_sum_range_succ]
  congr 1
  refine List.map_congr_left fun i _ => ?_
  simp only [Function.comp, ite_not]

theorem card_tree_le (hp : ∀ j ∈ Finset.Icc 1 m, p j < j) {R : Finset (Finset ℕ)}
    (hR : IsPartition (Finset.range (m + 1)) R) : R.card ≤ (brokenAt m p R).card + 1 := by
  have h1 : (R.filter fun B => 0 ∈ B).card ≤ 1 := by
    rw [Finset.card_le_one]
    intro A hA B hB
    rw [Finset.mem_filter] at hA hB
    exact hR.eq_of_mem hA.1 hB.1 hA.2 hB.2
  have h2 : (R.filter fun B => ¬ 0 ∈ B).card ≤ (brokenAt m p R).card := by
    refine Finset.card_le_card_of_injOn (fun B => if h : B.Nonempty then B.min' h else 0) ?_ ?_
    · intro B hB
      rw [Finset.coe_filter, Set.mem_ofPred_eq] at hB
      have hne := hR.nonempty hB.1
      have hf := B.min'_mem hne
      have hr := Finset.mem_range.1 (hR.subset hB.1 hf)
      simp only [dif_pos hne]
      have h0 : 0 < B.min' hne := by
        rcases Nat.eq_zero_or_pos (B.min' hne) with h | h
        · rw [h] at hf
          exact absurd hf hB.2
        · exact h
      have hI : B.min' hne ∈ Finset.Icc 1 m := Finset.mem_Icc.2 ⟨h0, by omega⟩
      rw [Finset.mem_coe, brokenAt, Finset.mem_filter]
      refine ⟨hI, ?_⟩
      rintro ⟨C, hC, hpC, hfC⟩
      rw [hR.eq_of_mem hC hB.1 hfC hf] at hpC
      exact absurd (B.min'_le _ hpC) (not_le.2 (hp _ hI))
    · intro A hA B hB h
      rw [Finset.coe_filter, Set.mem_ofPred_eq] at hA hB
      have hneA := hR.nonempty hA.1
      have hneB := hR.nonempty hB.1
      simp only [dif_pos hneA, dif_pos hneB] at h
      refine hR.eq_of_mem hA.1 hB.1 (A.min'_mem hneA) ?_
      rw [h]
      exact B.min'_mem hneB
  have := Finset.card_filter_add_card_filter_not (s := R) (fun B => 0 ∈ B)
  omega

/-- The highest node reached from `j` without using an edge between a node of `S` and its parent. -/
def topOf (p : ℕ → ℕ) (S : Finset ℕ) (j : ℕ) : ℕ := if _h : j ∉ S ∧ p j < j then topOf p S (p j) else j
termination_by j
decreasing_by exact _h.2

theorem topOf_le (p : ℕ → ℕ) (S : Finset ℕ) (j : ℕ) : topOf p S j ≤ j := by
  induction j using Nat.strong_induction_on with
  | _ j ih =>
    rw [topOf]
    split_ifs with h
    · exact (ih _ h.2).trans h.2.le
    · exact le_rfl

theorem topOf_fix (p : ℕ → ℕ) (S : Finset ℕ) (j : ℕ) : ¬ (topOf p S j ∉ S ∧ p (topOf p S j) < topOf p S j) := by
  induction j using Nat.strong_induction_on with
  | _ j ih =>
    rw [topOf]
    split_ifs with h
    · exact ih _ h.2
    · exact h

theorem topOf_of_fix {j : ℕ} (h : ¬ (j ∉ S ∧ p j < j)) : topOf p S j = j := by rw [topOf, dif_neg h]

/-- The components left when the edges between the nodes of `S` and their parents are removed. -/
def treePart (m : ℕ) (p : ℕ → ℕ) (S : Finset ℕ) : Finset (Finset ℕ) :=
  ((Finset.range (m + 1)).image (topOf p S)).image fun r => (Finset.range (m + 1)).filter fun i => topOf p S i = r

theorem mem_treePart {B : Finset ℕ} : B ∈ treePart m p S ↔
    ∃ i < m + 1, B = (Finset.range (m + 1)).filter fun k => topOf p S k = topOf p S i := by
  simp only [treePart, Finset.mem_image, Finset.mem_range]
  constructor
  · rintro ⟨r, ⟨i, hi, rfl⟩, rfl⟩
    exact ⟨i, hi, rfl⟩
  · rintro ⟨i, hi, rfl⟩
    exact ⟨_, ⟨i, hi, rfl⟩, rfl⟩

theorem treePart_partition : IsPartition (Finset.range (m + 1)) (treePart m p S) := by
  constructor
  · intro B hB
    obtain ⟨i, hi, rfl⟩ := mem_treePart.1 hB
    exact ⟨⟨i, by simp [hi]⟩, Finset.filter_subset _ _⟩
  · intro v hv
    refine ⟨_, ⟨mem_treePart.2 ⟨v, Finset.mem_range.1 hv, rfl⟩, by simpa using hv⟩, ?_⟩
    rintro B ⟨hB, hvB⟩
    obtain ⟨i, hi, rfl⟩ := mem_treePart.1 hB
    rw [Finset.mem_filter] at hvB
    rw [hvB.2]

theorem treePart_same {u v : ℕ} (hu : u < m + 1) (hv : v < m + 1) :
    Same (treePart m p S) u v ↔ topOf p S u = topOf p S v := by
  constructor
  · rintro ⟨B, hB, h1, h2⟩
    obtain ⟨i, hi, rfl⟩ := mem_treePart.1 hB
    rw [Finset.mem_filter] at h1 h2
    rw [h1.2, h2.2]
  · intro h
    exact ⟨_, mem_treePart.2 ⟨v, hv, rfl⟩, by simp [hu, h], by simp [hv]⟩

theorem treePart_broken (hp : ∀ j ∈ Finset.Icc 1 m, p j < j) (hS : S ⊆ Finset.Icc 1 m) :
    brokenAt m p (treePart m p S) = S := by
  ext j
  rw [brokenAt, Finset.mem_filter]
  constructor
  · rintro ⟨hj, h⟩
    by_contra hjS
    have hpj := hp j hj
    rw [Finset.mem_Icc] at hj
    rw [treePart_same (by omega) (by omega)] at h
    apply h
    conv_rhs => rw [topOf, dif_pos ⟨hjS, hpj⟩]
  · intro hjS
    have hj := hS hjS
    have hpj := hp j hj
    refine ⟨hj, ?_⟩
    rw [Finset.mem_Icc] at hj
    rw [treePart_same (by omega) (by omega), topOf_of_fix (j := j) (fun h => h.1 hjS)]
    have := topOf_le p S (p j)
    omega

theorem treePart_card (hp : ∀ j ∈ Finset.Icc 1 m, p j < j) (hS : S ⊆ Finset.Icc 1 m) :
    (treePart m p S).card = S.card + 1 := by
  refine le_antisymm ?_ ?_
  · have := card_tree_le hp (treePart_partition (m := m) (p := p) (S := S))
    rwa [treePart_broken hp hS] at this
  · have h0 : 0 ∉ S := fun h => by
      have := Finset.mem_Icc.1 (hS h)
      omega
    rw [← Finset.card_insert_of_notMem h0]
    refine Finset.card_le_card_of_injOn
      (fun i => (Finset.range (m + 1)).filter fun k => topOf p S k = topOf p S i) ?_ ?_
    · intro i hi
      refine mem_treePart.2 ⟨i, ?_, rfl⟩
      rcases Finset.mem_insert.1 hi with rfl | hi
      · omega
      · have := Finset.mem_Icc.1 (hS hi)
        omega
    · intro a ha b hb hab
      have hfix : ∀ c ∈ insert 0 S, topOf p S c = c ∧ c < m + 1 := by
        intro c hc
        rcases Finset.mem_insert.1 hc with rfl | hc
        · exact ⟨topOf_of_fix (by omega), by omega⟩
        · have := Finset.mem_Icc.1 (hS hc)
          exact ⟨topOf_of_fix (fun h => h.1 hc), by omega⟩
      have hb' := hfix b hb
      have ha' := hfix a ha
      have : a ∈ (Finset.range (m + 1)).filter fun k => topOf p S k = topOf p S a := by simp [ha'.2]
      have hab' : (Finset.range (m + 1)).filter (fun k => topOf p S k = topOf p S a) =
        (Finset.range (m + 1)).filter fun k => topOf p S k = topOf p S b := hab
      rw [hab', Finset.mem_filter, ha'.1, hb'.1] at this
      exact this.2

theorem treePart_optimal (hp : ∀ j ∈ Finset.Icc 1 m, p j < j) (hS : S ⊆ Finset.Icc 1 m) {lam : ℚ}
    (h1 : ∀ i ∈ Finset.Icc 1 m, w i < lam → i ∈ S) (h2 : ∀ i ∈ S, w i ≤ lam) (hlam : 0 ≤ lam) :
    IsOptimal (treeE m p w) (Finset.range (m + 1)) lam (treePart m p S) := by
  refine ⟨treePart_partition, fun R hR => ?_⟩
  have hc' : (R.card : ℚ) ≤ (brokenAt m p R).card + 1 := by exact_mod_cast card_tree_le hp hR
  have hle : ∑ i ∈ S, (w i - lam) ≤ ∑ i ∈ brokenAt m p R, (w i - lam) := by
    have e : S = (Finset.Icc 1 m).filter fun i => i ∈ S := by
      ext i
      rw [Finset.mem_filter]
      exact ⟨fun h => ⟨hS h, h⟩, fun h => h.2⟩
    rw [e, brokenAt, Finset.sum_filter, Finset.sum_filter]
    refine Finset.sum_le_sum fun i hi => ?_
    by_cases hiS : i ∈ S
    · rw [if_pos hiS]
      have := h2 i hiS
      split_ifs <;> linarith
    · rw [if_neg hiS]
      have : lam ≤ w i := le_of_not_gt fun h => hiS (h1 i hi h)
      split_ifs <;> linarith
  unfold cost
  rw [crossWeight_treeE, crossWeight_treeE, treePart_broken hp hS, treePart_card hp hS]
  rw [Finset.sum_sub_distrib, Finset.sum_sub_distrib, Finset.sum_const, Finset.sum_const, nsmul_eq_mul,
    nsmul_eq_mul] at hle
  push_cast
  nlinarith [mul_le_mul_of_nonneg_left hc' hlam]

theorem treeE_within (hp : ∀ j ∈ Finset.Icc 1 m, p j < j) : Within (treeE m p w) (Finset.range (m + 1)) := by
  intro e he
  obtain ⟨i, hi, rfl⟩ := List.mem_map.1 he
  rw [List.mem_range] at hi
  have := hp (i + 1) (Finset.mem_Icc.2 ⟨by omega, by omega⟩)
  simp only [Finset.mem_range]
  omega

theorem treeE_nonneg (hnn : ∀ j ∈ Finset.Icc 1 m, 0 ≤ w j) : NonnegE (treeE m p w) := by
  intro e he
  obtain ⟨i, hi, rfl⟩ := List.mem_map.1 he
  rw [List.mem_range] at hi
  exact hnn (i + 1) (Finset.mem_Icc.2 ⟨by omega, by omega⟩)

/-- The critical values of a tree are its weights. -/
theorem tree_critical (hp : ∀ j ∈ Finset.Icc 1 m, p j < j) (hnn : ∀ j ∈ Finset.Icc 1 m, 0 ≤ w j) (c : ℚ) :
    IsCritical (treeE m p w) (Finset.range (m + 1)) c ↔ ∃ j ∈ Finset.Icc 1 m, w j = c := by
  have hE := treeE_nonneg (p := p) hnn
  have hW := treeE_within (w := w) hp
  have hV : (Finset.range (m + 1)).Nonempty := ⟨0, by simp⟩
  constructor
  · rintro ⟨P, Q, hP, hQ, hne⟩
    by_contra hno
    push Not at hno
    apply hne
    set S := (Finset.Icc 1 m).filter fun i => w i < c with hS
    have hSI : S ⊆ Finset.Icc 1 m := Finset.filter_subset _ _
    suffices h : ∃ A, ∃ l1 l2, l1 < c ∧ c < l2 ∧ IsOptimal (treeE m p w) (Finset.range (m + 1)) l1 A ∧
        IsOptimal (treeE m p w) (Finset.range (m + 1)) l2 A by
      obtain ⟨A, l1, l2, hl1, hl2, hA1, hA2⟩ := h
      have hall : ∀ R, IsOptimal (treeE m p w) (Finset.range (m + 1)) c R → R = A := fun R hR =>
        Refines.antisymm hR.1 hA1.1 (IsOptimal.refines hE hA1 hR hl1) (IsOptimal.refines hE hR hA2 hl2)
      rw [hall P hP, hall Q hQ]
    by_cases hc : c < 0
    · exact ⟨{Finset.range (m + 1)}, c - 1, 0, by linarith, hc, isOptimal_single hE hW hV (by linarith),
        isOptimal_single hE hW hV le_rfl⟩
    · push Not at hc
      -- a distance to all weights
      obtain ⟨δ, hδ, hδ'⟩ : ∃ δ : ℚ, 0 < δ ∧ ∀ j ∈ Finset.Icc 1 m, δ ≤ |w j - c| := by
        by_cases hm : (Finset.Icc 1 m).Nonempty
        · obtain ⟨j, hj, hmin⟩ := Finset.exists_min_image (Finset.Icc 1 m) (fun j => |w j - c|) hm
          exact ⟨|w j - c|, abs_pos.2 (sub_ne_zero.2 (hno j hj)), hmin⟩
        · rw [Finset.not_nonempty_iff_eq_empty] at hm
          exact ⟨1, one_pos, by simp [hm]⟩
      have hup : IsOptimal (treeE m p w) (Finset.range (m + 1)) (c + δ) (treePart m p S) := by
        refine treePart_optimal hp hSI ?_ ?_ (by linarith)
        · intro i hi hlt
          rw [hS, Finset.mem_filter]
          refine ⟨hi, lt_of_not_ge fun h => ?_⟩
          have := hδ' i hi
          rw [abs_of_nonneg (by linarith)] at this
          linarith
        · intro i hi
          rw [hS, Finset.mem_filter] at hi
          linarith
      rcases hc.eq_or_lt with hc0 | hc0
      · have hSe : S = ∅ := by
          rw [hS, Finset.filter_eq_empty_iff]
          intro i hi
          exact not_lt.2 (hc0 ▸ hnn i hi)
        have hone : treePart m p S = {Finset.range (m + 1)} :=
          treePart_partition.eq_single_of_card (by rw [treePart_card hp hSI, hSe]; rfl)
        rw [hone] at hup
        exact ⟨_, c - 1, c + δ, by linarith, by linarith, isOptimal_single hE hW hV (by linarith), hup⟩
      · refine ⟨treePart m p S, max 0 (c - δ), c + δ, max_lt hc0 (by linarith), by linarith, ?_, hup⟩
        refine treePart_optimal hp hSI ?_ ?_ (le_max_left _ _)
        · intro i hi hlt
          rw [hS, Finset.mem_filter]
          exact ⟨hi, hlt.trans (max_lt hc0 (by linarith))⟩
        · intro i hi
          rw [hS, Finset.mem_filter] at hi
          have := hδ' i hi.1
          rw [abs_of_neg (by linarith [hi.2])] at this
          exact le_max_of_le_right (by linarith)
  · rintro ⟨j, hj, rfl⟩
    have h1 : (Finset.Icc 1 m).filter (fun i => w i < w j) ⊆ Finset.Icc 1 m := Finset.filter_subset _ _
    have h2 : (Finset.Icc 1 m).filter (fun i => w i ≤ w j) ⊆ Finset.Icc 1 m := Finset.filter_subset _ _
    refine ⟨treePart m p _, treePart m p _, treePart_optimal hp h1 ?_ ?_ (hnn j hj),
      treePart_optimal hp h2 ?_ ?_ (hnn j hj), ?_⟩
    · exact fun i hi h => Finset.mem_filter.2 ⟨hi, h⟩
    · exact fun i hi => (Finset.mem_filter.1 hi).2.le
    · exact fun i hi h => Finset.mem_filter.2 ⟨hi, h.le⟩
    · exact fun i hi => (Finset.mem_filter.1 hi).2
    · intro he
      have hb := treePart_broken hp h1
      rw [he, treePart_broken hp h2] at hb
      have : j ∈ (Finset.Icc 1 m).filter fun i => w i ≤ w j := Finset.mem_filter.2 ⟨hj, le_rfl⟩
      rw [hb, Finset.mem_filter] at this
      exact lt_irrefl _ this.2

end PSP.Theory
