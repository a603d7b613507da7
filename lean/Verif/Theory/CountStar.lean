import Mathlib.Data.Nat.Factorial.Basic
import Mathlib.Algebra.Order.BigOperators.Ring.Finset
import Mathlib.Order.Interval.Finset.Nat
import Mathlib.Algebra.BigOperators.Intervals
import Verif.Theory.CountBound

/-!
# Stars with fast growing weights

On these graphs `PSP_I` and `HPSP` split off one node at a time.
-/

namespace PSP.Theory

open PSP.Spec PSP.Model
open scoped Nat

/-- The star with centre `0` and leaves `1, …, m`, the arc to leaf `i` having weight `K (i+1)!`. -/
def starArcs (K m : ℕ) : List Arc := (List.range m).map fun i => ⟨0, i + 1, ((K * (i + 2)! : ℕ) : ℚ)⟩

/-- The graph of the star. -/
def starG (K m : ℕ) : Digraph := ⟨List.range (m + 1), starArcs K m⟩

/-- Its heaviest arc contracted. -/
def starPart (m : ℕ) : Finset (Finset ℕ) := insert {0, m} ((Finset.Ico 1 m).image fun i => {i})

variable {K : ℕ}

theorem mem_starArcs {m : ℕ} {e : Arc} :
    e ∈ starArcs K m ↔ ∃ i, i < m ∧ e = ⟨0, i + 1, ((K * (i + 2)! : ℕ) : ℚ)⟩ := by
  simp only [starArcs, List.mem_map, List.mem_range]
  constructor
  · rintro ⟨i, h, rfl⟩; exact ⟨i, h, rfl⟩
  · rintro ⟨i, h, rfl⟩; exact ⟨i, h, rfl⟩

theorem starArcs_good (K m : ℕ) : GoodGraph (starArcs K m) (Finset.range (m + 1)) where
  lowHigh := by
    intro e he
    obtain ⟨i, h, rfl⟩ := mem_starArcs.1 he
    exact Nat.succ_pos i
  within := by
    intro e he
    obtain ⟨i, h, rfl⟩ := mem_starArcs.1 he
    exact ⟨Finset.mem_range.2 (Nat.succ_pos m), Finset.mem_range.2 (by dsimp only; omega)⟩
  simple := by
    unfold SimpleE starArcs
    rw [List.pairwise_map]
    refine (List.pairwise_lt_range (n := m)).imp ?_
    intro a b h1 h2
    have := h2.2
    dsimp only at this
    omega
  nonneg := by
    intro e he
    obtain ⟨i, h, rfl⟩ := mem_starArcs.1 he
    exact Nat.cast_nonneg _

theorem starPart_partition {m : ℕ} (hm : 1 ≤ m) : IsPartition (Finset.range (m + 1)) (starPart m) := by
  rw [isPartition_iff]
  simp only [starPart, Finset.mem_insert, Finset.mem_image, Finset.mem_Ico]
  refine ⟨?_, ?_, ?_⟩
  · rintro B (rfl | ⟨i, hi, rfl⟩)
    · refine ⟨⟨0, by simp⟩, ?_⟩
      intro v hv
      simp only [Finset.mem_insert, Finset.mem_singleton] at hv
      rw [Finset.mem_range]
      omega
    · refine ⟨⟨i, by simp⟩, ?_⟩
      intro v hv
      rw [Finset.mem_singleton] at hv
      rw [Finset.mem_range]
      omega
  · intro v hv
    rw [Finset.mem_range] at hv
    by_cases h : v = 0 ∨ v = m
    · exact ⟨_, Or.inl rfl, by simpa using h⟩
    · exact ⟨{v}, Or.inr ⟨v, by omega, rfl⟩, by simp⟩
  · rintro B (rfl | ⟨i, hi, rfl⟩) C (rfl | ⟨j, hj, rfl⟩) v h1 h2
    · rfl
    · simp only [Finset.mem_insert, Finset.mem_singleton] at h1 h2
      omega
    · simp only [Finset.mem_insert, Finset.mem_singleton] at h1 h2
      omega
    · rw [Finset.mem_singleton] at h1 h2
      rw [← h1, h2]

theorem list_sum_range_succ (m : ℕ) (f : ℕ → ℚ) :
    ((List.range m).map fun i => f (i + 1)).sum = ∑ i ∈ Finset.Icc 1 m, f i := by
  induction m with
  | zero => simp
  | succ m ih =>
    rw [List.range_succ, List.map_append, List.sum_append, ih, Finset.sum_Icc_succ_top (by omega)]
    simp

theorem crossWeight_star (m : ℕ) (P : Finset (Finset ℕ)) : crossWeight (starArcs K m) P =
    ∑ i ∈ (Finset.Icc 1 m).filter fun i => ¬ Same P 0 i, ((K * (i + 1)! : ℕ) : ℚ) := by
  unfold crossWeight starArcs
  rw [List.map_map, Finset.sum_filter, ← list_sum_range_succ]
  congr 1
  refine List.map_congr_left fun i _ => ?_
  simp only [Function.comp, ite_not]

theorem card_star_le {m : ℕ} {R : Finset (Finset ℕ)} (hR : IsPartition (Finset.range (m + 1)) R) :
    R.card ≤ ((Finset.Icc 1 m).filter fun i => ¬ Same R 0 i).card + 1 := by
  have h1 : (R.filter fun B => 0 ∈ B).card ≤ 1 := by
    rw [Finset.card_le_one]
    intro A hA B hB
    rw [Finset.mem_filter] at hA hB
    exact hR.eq_of_mem hA.1 hB.1 hA.2 hB.2
  have h2 : (R.filter fun B => ¬ 0 ∈ B).card ≤ ((Finset.Icc 1 m).filter fun i => ¬ Same R 0 i).card := by
    refine Finset.card_le_card_of_injOn firstElem ?_ ?_
    · intro B hB
      rw [Finset.coe_filter, Set.mem_ofPred_eq] at hB
      have hf := firstElem_mem (hR.nonempty hB.1)
      have hr := Finset.mem_range.1 (hR.subset hB.1 hf)
      rw [Finset.mem_coe, Finset.mem_filter, Finset.mem_Icc]
      refine ⟨⟨?_, by omega⟩, ?_⟩
      · rcases Nat.eq_zero_or_pos (firstElem B) with h | h
        · rw [h] at hf
          exact absurd hf hB.2
        · exact h
      · rintro ⟨C, hC, h0, hfC⟩
        rw [hR.eq_of_mem hC hB.1 hfC hf] at h0
        exact hB.2 h0
    · intro A hA B hB h
      rw [Finset.coe_filter, Set.mem_ofPred_eq] at hA hB
      refine hR.eq_of_mem hA.1 hB.1 (firstElem_mem (hR.nonempty hA.1)) ?_
      rw [h]
      exact firstElem_mem (hR.nonempty hB.1)
  have := Finset.card_filter_add_card_filter_not (s := R) (fun B => 0 ∈ B)
  omega

theorem starPart_same {m : ℕ} (hm : 1 ≤ m) :
    ((Finset.Icc 1 m).filter fun i => ¬ Same (starPart m) 0 i) = Finset.Ico 1 m := by
  ext i
  rw [Finset.mem_filter, Finset.mem_Icc, Finset.mem_Ico]
  have hs : Same (starPart m) 0 i ↔ ∃ B : Finset ℕ, (B = {0, m} ∨ ∃ j, (1 ≤ j ∧ j < m) ∧ {j} = B) ∧ 0 ∈ B ∧ i ∈ B := by
    simp only [Same, starPart, Finset.mem_insert, Finset.mem_image, Finset.mem_Ico]
  rw [hs]
  constructor
  · rintro ⟨⟨h1, h2⟩, h3⟩
    refine ⟨h1, lt_of_le_of_ne h2 ?_⟩
    rintro rfl
    exact h3 ⟨{0, i}, Or.inl rfl, by simp, by simp⟩
  · rintro ⟨h1, h2⟩
    refine ⟨⟨h1, h2.le⟩, ?_⟩
    rintro ⟨B, rfl | ⟨j, hj, rfl⟩, h3, h4⟩
    · simp only [Finset.mem_insert, Finset.mem_singleton] at h4
      omega
    · rw [Finset.mem_singleton] at h3
      omega

theorem starPart_card {m : ℕ} (hm : 1 ≤ m) : (starPart m).card = m := by
  unfold starPart
  rw [Finset.card_insert_of_notMem, Finset.card_image_of_injective _ Finset.singleton_injective, Nat.card_Ico]
  · omega
  · rw [Finset.mem_image]
    rintro ⟨i, hi, h⟩
    have h0 : 0 ∈ ({i} : Finset ℕ) := by rw [h]; simp
    rw [Finset.mem_singleton] at h0
    rw [Finset.mem_Ico] at hi
    omega

theorem starPart_cost {m : ℕ} (hm : 1 ≤ m) (lam : ℚ) :
    cost (starArcs K m) lam (starPart m) = ∑ i ∈ Finset.Ico 1 m, (((K * (i + 1)! : ℕ) : ℚ) - lam) - lam := by
  unfold cost
  rw [crossWeight_star, starPart_same hm, starPart_card hm, Finset.sum_sub_distrib, Finset.sum_const,
    Nat.card_Ico, nsmul_eq_mul, Nat.cast_sub hm]
  push_cast
  ring

theorem starPart_optimal {m : ℕ} (hm : 1 ≤ m) {lam : ℚ} (h1 : ((K * m ! : ℕ) : ℚ) ≤ lam)
    (h2 : lam ≤ ((K * (m + 1)! : ℕ) : ℚ)) : IsOptimal (starArcs K m) (Finset.range (m + 1)) lam (starPart m) := by
  refine ⟨starPart_partition hm, fun R hR => ?_⟩
  rw [starPart_cost hm]
  have h0 : (0 : ℚ) ≤ lam := le_trans (Nat.cast_nonneg _) h1
  have hc := card_star_le hR
  set D := (Finset.Icc 1 m).filter fun i => ¬ Same R 0 i with hD
  have h3 : ∑ i ∈ D, (((K * (i + 1)! : ℕ) : ℚ) - lam) - lam ≤ cost (starArcs K m) lam R := by
    unfold cost
    rw [crossWeight_star, ← hD, Finset.sum_sub_distrib, Finset.sum_const, nsmul_eq_mul]
    have : (R.card : ℚ) ≤ D.card + 1 := by exact_mod_cast hc
    nlinarith
  refine le_trans ?_ h3
  have h4 : ∑ i ∈ Finset.Ico 1 m, (((K * (i + 1)! : ℕ) : ℚ) - lam) ≤ ∑ i ∈ D, (((K * (i + 1)! : ℕ) : ℚ) - lam) := by
    rw [← Finset.sum_sdiff_le_sum_sdiff]
    refine le_trans (Finset.sum_nonpos ?_) (Finset.sum_nonneg ?_)
    · intro i hi
      rw [Finset.mem_sdiff, Finset.mem_Ico] at hi
      have : (i + 1)! ≤ m ! := Nat.factorial_le (by omega)
      have : ((K * (i + 1)! : ℕ) : ℚ) ≤ ((K * m ! : ℕ) : ℚ) := by
        exact_mod_cast Nat.mul_le_mul_left K this
      linarith
    · intro i hi
      rw [Finset.mem_sdiff, Finset.mem_Ico, hD, Finset.mem_filter, Finset.mem_Icc] at hi
      have : i = m := by omega
      subst this
      linarith
  linarith

theorem star_total (m : ℕ) : weightTotal (starArcs K m) (List.range (m + 1)) =
    ∑ i ∈ Finset.Icc 1 m, ((K * (i + 1)! : ℕ) : ℚ) := by
  unfold weightTotal
  rw [List.filter_eq_self.2, ← list_sum_range_succ, starArcs, List.map_map]
  · rfl
  · intro e he
    obtain ⟨i, h, rfl⟩ := mem_starArcs.1 he
    simp only [List.mem_range, decide_eq_true_eq]
    omega

/-- The weight per leaf. -/
def starMean (K m : ℕ) : ℚ := weightTotal (starArcs K m) (List.range (m + 1)) / ((m + 1 : ℕ) - 1 : ℚ)

theorem starMean_mul {m : ℕ} (hm : 1 ≤ m) : m * starMean K m = ∑ i ∈ Finset.Icc 1 m, ((K * (i + 1)! : ℕ) : ℚ) := by
  unfold starMean
  rw [star_total]
  have : (m : ℚ) ≠ 0 := by exact_mod_cast (by omega : m ≠ 0)
  push_cast
  rw [add_sub_cancel_right, mul_div_cancel₀ _ this]

theorem starMean_gt (hK : 1 ≤ K) {m : ℕ} (hm : 1 ≤ m) : ((K * m ! : ℕ) : ℚ) < starMean K m := by
  have h1 := starMean_mul (K := K) hm
  have h2 : ((K * (m + 1)! : ℕ) : ℚ) ≤ ∑ i ∈ Finset.Icc 1 m, ((K * (i + 1)! : ℕ) : ℚ) :=
    Finset.single_le_sum (f := fun i => ((K * (i + 1)! : ℕ) : ℚ)) (fun _ _ => Nat.cast_nonneg _)
      (Finset.mem_Icc.2 ⟨hm, le_rfl⟩)
  rw [Nat.factorial_succ] at h2
  have h3 : (0 : ℚ) < (K * m ! : ℕ) := by exact_mod_cast Nat.mul_pos hK (Nat.factorial_pos m)
  rw [show K * ((m + 1) * m !) = (m + 1) * (K * m !) by ring] at h2
  rw [← h1] at h2
  generalize K * m ! = F at h2 h3 ⊢
  push_cast at h2
  have h4 : (1 : ℚ) ≤ m := by exact_mod_cast hm
  by_contra h
  push Not at h
  nlinarith

theorem starMean_lt (hK : 1 ≤ K) {m : ℕ} (hm : 2 ≤ m) : starMean K m + 1 ≤ ((K * (m + 1)! : ℕ) : ℚ) := by
  have h1 := starMean_mul (K := K) (m := m) (by omega)
  obtain ⟨m, rfl⟩ : ∃ k, m = k + 1 := ⟨m - 1, by omega⟩
  rw [Finset.sum_Icc_succ_top (by omega)] at h1
  have h2 : ∑ i ∈ Finset.Icc 1 m, ((K * (i + 1)! : ℕ) : ℚ) ≤ m * ((K * (m + 1)! : ℕ) : ℚ) := by
    have : ∑ i ∈ Finset.Icc 1 m, ((K * (i + 1)! : ℕ) : ℚ) ≤ ∑ i ∈ Finset.Icc 1 m, ((K * (m + 1)! : ℕ) : ℚ) := by
      refine Finset.sum_le_sum fun i hi => ?_
      rw [Finset.mem_Icc] at hi
      exact_mod_cast Nat.mul_le_mul_left K (Nat.factorial_le (by omega))
    rw [Finset.sum_const, Nat.card_Icc, nsmul_eq_mul, Nat.add_sub_cancel] at this
    exact this
  rw [Nat.factorial_succ (m + 1), show K * ((m + 1 + 1) * (m + 1)!) = (m + 1 + 1) * (K * (m + 1)!) by ring] at h1 ⊢
  have h3 : (2 : ℚ) ≤ (K * (m + 1)! : ℕ) := by
    have : 1 * 2 ! ≤ K * (m + 1)! := Nat.mul_le_mul hK (Nat.factorial_le (by omega))
    exact_mod_cast this
  generalize K * (m + 1)! = F at h1 h2 h3 ⊢
  have h4 : (1 : ℚ) ≤ m := by exact_mod_cast (by omega : 1 ≤ m)
  push_cast at h1 h2 h3 ⊢
  by_contra h
  push Not at h
  have h5 : ((m : ℚ) + 1) * ((m + 1 + 1) * (F : ℚ)) < (m + 1) * (starMean K (m + 1) + 1) :=
    mul_lt_mul_of_pos_left h (by linarith)
  have h6 : (m * (m + 1) : ℚ) * 2 ≤ m * (m + 1) * (F : ℚ) :=
    mul_le_mul_of_nonneg_left h3 (by positivity)
  have h7 : (m : ℚ) + 1 ≤ m * (m + 1) := by nlinarith
  nlinarith

/-- The truncation of a star at its mean. -/
theorem star_dilworth (hK : 1 ≤ K) {S : FlowSolver} (hS : S.Correct) {m : ℕ} (hm : 2 ≤ m) :
    (dilworthI S (starArcs K m) (starMean K m) (List.range (m + 1))).2 = starPart m ∧
      (dilworthI S (starArcs K m) (starMean K m) (List.range (m + 1))).1 ≤ -starMean K m - 1 := by
  have hG := starArcs_good K m
  have hr : (List.range (m + 1)).toFinset = Finset.range (m + 1) := by
    ext; simp
  obtain ⟨h1, h2, -⟩ := dilworthI_correct hS (List.pairwise_lt_range (n := m + 1)) (by rw [hr]; exact hG) (starMean K m)
  rw [hr] at h1
  have g1 := starMean_gt hK (m := m) (by omega)
  have g2 := starMean_lt hK hm
  have hu : (dilworthI S (starArcs K m) (starMean K m) (List.range (m + 1))).2 = starPart m :=
    Refines.antisymm h1.1 (starPart_partition (by omega))
      ((starPart_optimal (by omega) le_rfl (by linarith)).refines hG.nonneg h1 g1)
      (h1.refines hG.nonneg (starPart_optimal (by omega) (by linarith) le_rfl) (by linarith))
  refine ⟨hu, ?_⟩
  rw [h2, hu, starPart_cost (by omega), Finset.sum_sub_distrib, Finset.sum_const, Nat.card_Ico, nsmul_eq_mul,
    Nat.cast_sub (by omega)]
  have h3 := starMean_mul (K := K) (m := m) (by omega)
  obtain ⟨m, rfl⟩ : ∃ k, m = k + 1 := ⟨m - 1, by omega⟩
  rw [Finset.sum_Icc_succ_top (by omega)] at h3
  have h4 : Finset.Ico 1 (m + 1) = Finset.Icc 1 m := by ext; simp
  rw [h4]
  push_cast at h3 g2 ⊢
  linarith

/-- Contracting the heaviest arc gives the smaller star. -/
theorem star_contract (hK : 1 ≤ K) {ε : ℚ} (hε : ε ≤ 1) (m : ℕ) : contract ε (starG K (m + 1)) {0, m + 1} 0 = starG K m := by
  have hcap : ∀ v, v ∉ ({0, m + 1} : Finset ℕ) → v < m + 2 →
      capacityTo (starArcs K (m + 1)) {0, m + 1} v = ((K * (v + 1)! : ℕ) : ℚ) := by
    intro v hv hvm
    simp only [Finset.mem_insert, Finset.mem_singleton, not_or] at hv
    unfold capacityTo starArcs
    rw [List.map_map]
    have : ((List.range (m + 1)).map ((fun a : Arc =>
        if a.src ∈ ({0, m + 1} : Finset ℕ) ∧ a.dst ∉ ({0, m + 1} : Finset ℕ) then (if a.dst = v then a.cap else 0)
        else if a.src ∉ ({0, m + 1} : Finset ℕ) ∧ a.dst ∈ ({0, m + 1} : Finset ℕ) then
          (if a.src = v then a.cap else 0) else 0) ∘ fun i => ⟨0, i + 1, ((K * (i + 2)! : ℕ) : ℚ)⟩)) =
        (List.range (m + 1)).map fun i => if i + 1 = v then ((K * (i + 1 + 1)! : ℕ) : ℚ) else 0 := by
      refine List.map_congr_left fun i _ => ?_
      simp only [Function.comp, Finset.mem_insert, Finset.mem_singleton, true_or, not_true, false_and, if_false,
        true_and]
      by_cases h : i + 1 = v
      · rw [if_pos (by omega)]
      · rw [if_neg h, ite_self]
    rw [this, list_sum_range_succ (m + 1) fun i => if i = v then ((K * (i + 1)! : ℕ) : ℚ) else 0,
      Finset.sum_ite_eq', if_pos (by rw [Finset.mem_Icc]; omega)]
  unfold contract starG
  congr 1
  · rw [List.range_succ, List.filter_append, List.filter_eq_self.2, List.filter_cons_of_neg, List.filter_nil,
      List.append_nil]
    · simp
    · intro v hv
      rw [List.mem_range] at hv
      simp only [Finset.mem_insert, Finset.mem_singleton, decide_eq_true_eq]
      omega
  · have h1 : ((starArcs K (m + 1)).filter fun a => ¬ (a.src = 0 ∨ a.dst = 0) ∧
        ¬ (a.src ∈ ({0, m + 1} : Finset ℕ) ∧ a.src ≠ 0) ∧ ¬ (a.dst ∈ ({0, m + 1} : Finset ℕ) ∧ a.dst ≠ 0)) = [] := by
      rw [List.filter_eq_nil_iff]
      intro e he
      obtain ⟨i, h, rfl⟩ := mem_starArcs.1 he
      simp
    rw [h1, List.nil_append]
    dsimp only
    rw [List.Pairwise.insertionSort_eq (List.pairwise_le_range), List.range_succ, List.filterMap_append]
    have h2 : ∀ v, v ∈ ({0, m + 1} : Finset ℕ) → contractArc ε (starArcs K (m + 1)) {0, m + 1} 0 v = none := by
      intro v hv
      unfold contractArc
      dsimp only
      rw [if_pos (Or.inl hv)]
    have h3 : List.filterMap (contractArc ε (starArcs K (m + 1)) {0, m + 1} 0) [m + 1] = [] := by
      rw [List.filterMap_cons_none (h2 _ (by simp))]
      rfl
    rw [h3, List.append_nil, List.range_succ_eq_map, List.filterMap_cons_none (h2 _ (by simp)), List.filterMap_map,
      show starArcs K m = _ from (List.filterMap_eq_map (f := fun i => (⟨0, i + 1, ((K * (i + 2)! : ℕ) : ℚ)⟩ : Arc))
        ▸ rfl : _ = List.filterMap (some ∘ fun i => (⟨0, i + 1, ((K * (i + 2)! : ℕ) : ℚ)⟩ : Arc)) (List.range m))]
    refine List.filterMap_congr fun v hv => ?_
    rw [List.mem_range] at hv
    simp only [Function.comp]
    have hn : v + 1 ∉ ({0, m + 1} : Finset ℕ) := by
      simp only [Finset.mem_insert, Finset.mem_singleton]
      omega
    unfold contractArc
    dsimp only
    rw [hcap _ hn (by omega)]
    have h4 : (1 : ℚ) ≤ ((K * (v + 1 + 1)! : ℕ) : ℚ) := by
      exact_mod_cast Nat.mul_pos hK (Nat.factorial_pos _)
    have h5 : |((K * (v + 1 + 1)! : ℕ) : ℚ)| = ((K * (v + 1 + 1)! : ℕ) : ℚ) := abs_of_nonneg (by linarith)
    rw [h5, if_neg, if_pos (Nat.succ_pos v)]
    rintro (h | h)
    · exact hn h
    · linarith

/-! ### the runs -/

theorem hpspBlocksC_skip {ε : ℚ} {split : Digraph → HState → ℕ → CSet → Outcome ((Digraph × HState) × ℕ)}
    {L : List CSet} (h : ∀ B ∈ L, B.card = 1) :
    ∀ rest g st newS, hpspBlocksC ε split (L ++ rest) g st newS = hpspBlocksC ε split rest g st (newS ∪ firsts L) := by
  induction L with
  | nil => intro rest g st newS; simp [firsts]
  | cons B L ih =>
    intro rest g st newS
    rw [List.cons_append, hpspBlocksC, if_pos (h B (by simp)), ih (fun C hC => h C (by simp [hC]))]
    congr 1
    ext v
    simp only [Finset.mem_union, Finset.mem_insert, mem_firsts, List.mem_cons, exists_eq_or_imp]
    tauto

theorem pspiBlocksC_skip {ε : ℚ} {split : Digraph → List PTree → Outcome ((Digraph × Option ℚ × List PTree) × ℕ)}
    {L : List CSet} (h : ∀ B ∈ L, B.card = 1) :
    ∀ rest g ch, pspiBlocksC ε split (L ++ rest) g ch = pspiBlocksC ε split rest g ch := by
  induction L with
  | nil => intro rest g ch; rfl
  | cons B L ih =>
    intro rest g ch
    rw [List.cons_append, pspiBlocksC, if_pos (h B (by simp)), ih (fun C hC => h C (by simp [hC]))]

/-- How the blocks of the truncation are enumerated. -/
theorem star_order {ord : Partition → List CSet} (hord : Enumerates ord) (m : ℕ) :
    ∃ L1 L2, ord (starPart m) = L1 ++ {0, m} :: L2 ∧ (∀ B ∈ L1, B.card = 1) ∧ (∀ B ∈ L2, B.card = 1) := by
  obtain ⟨h1, h2⟩ := hord (starPart m)
  have h3 : ({0, m} : Finset ℕ) ∈ ord (starPart m) := by
    rw [← List.mem_toFinset, h2]
    simp [starPart]
  obtain ⟨L1, L2, h4⟩ := List.append_of_mem h3
  rw [h4] at h1
  have h5 := List.nodup_middle.1 h1
  rw [List.nodup_cons, List.mem_append, not_or] at h5
  have h6 : ∀ B ∈ ord (starPart m), B ≠ {0, m} → B.card = 1 := by
    intro B hB hne
    rw [← List.mem_toFinset, h2, starPart, Finset.mem_insert, Finset.mem_image] at hB
    obtain h | ⟨i, -, rfl⟩ := hB
    · exact absurd h hne
    · exact Finset.card_singleton i
  refine ⟨L1, L2, h4, fun B hB => h6 B (by rw [h4]; simp [hB]) ?_, fun B hB => h6 B (by rw [h4]; simp [hB]) ?_⟩
  · rintro rfl; exact h5.1.1 hB
  · rintro rfl; exact h5.1.2 hB

theorem star_firsts {ord : Partition → List CSet} (hord : Enumerates ord) {m : ℕ} (hm : 1 ≤ m) :
    firsts (ord (starPart m)) = Finset.range m := by
  obtain ⟨h1, h2⟩ := hord (starPart m)
  ext v
  rw [mem_firsts, Finset.mem_range]
  have h0 : firstElem ({0, m} : Finset ℕ) = 0 := Nat.le_zero.1 (firstElem_le (by simp))
  have h3 : ∀ i, firstElem ({i} : Finset ℕ) = i := fun i => by
    have := firstElem_mem (B := {i}) ⟨i, by simp⟩
    simpa using this
  have hmem : ∀ B, B ∈ ord (starPart m) ↔ B = {0, m} ∨ ∃ i, (1 ≤ i ∧ i < m) ∧ {i} = B := by
    intro B
    rw [← List.mem_toFinset, h2, starPart, Finset.mem_insert, Finset.mem_image]
    simp only [Finset.mem_Ico]
  constructor
  · rintro ⟨B, hB, rfl⟩
    rw [hmem] at hB
    obtain rfl | ⟨i, hi, rfl⟩ := hB
    · rw [h0]; omega
    · rw [h3]; exact hi.2
  · intro hv
    rcases Nat.eq_zero_or_pos v with rfl | hp
    · exact ⟨{0, m}, (hmem _).2 (Or.inl rfl), h0⟩
    · exact ⟨{v}, (hmem _).2 (Or.inr ⟨v, ⟨hp, hv⟩, rfl⟩), h3 v⟩

theorem star_subNodes (K m : ℕ) : subNodes (starG K m) (Finset.range (m + 1)) = List.range (m + 1) := by
  unfold subNodes starG
  exact List.filter_eq_self.2 (by simp)

theorem star_not_done (hK : 1 ≤ K) {S : FlowSolver} (hS : S.Correct) {ε : ℚ} (hε : ε < 1) {m : ℕ} (hm : 2 ≤ m) :
    ¬ splitDone ε (starMean K m) (m + 1) (dilworthI S (starArcs K m) (starMean K m) (List.range (m + 1))) = true := by
  obtain ⟨h1, h2⟩ := star_dilworth hK hS hm
  simp only [splitDone, decide_eq_true_eq, not_not]
  rw [h1, starPart_card (by omega)]
  exact ⟨by omega, by omega, by linarith⟩

theorem flowBound_succ {m : ℕ} (hm : 1 ≤ m) : flowBound (m + 1) = m + 2 + flowBound m := by
  have h1 := flowBound_two m hm
  have h2 := flowBound_two (m + 1) (by omega)
  nlinarith

theorem star_hpsp (hK : 1 ≤ K) {S : FlowSolver} (hS : S.Correct) {ε : ℚ} (hε : ε < 1) {ord : Partition → List CSet}
    (hord : Enumerates ord) (m : ℕ) : ∀ k st s, m + 2 ≤ k →
      ∃ r, hpspSplitC S ε ord k (starG K (m + 1)) st s (Finset.range (m + 2)) = .ok r ∧ r.2 = flowBound (m + 1) := by
  induction m with
  | zero =>
    intro k st s hk
    obtain ⟨k, rfl⟩ : ∃ i, k = i + 1 := ⟨k - 1, by omega⟩
    rw [hpspSplitC, Finset.card_range, if_neg (by omega), if_pos rfl]
    exact ⟨_, rfl, rfl⟩
  | succ m ih =>
    intro k st s hk
    obtain ⟨k, rfl⟩ : ∃ i, k = i + 1 := ⟨k - 1, by omega⟩
    rw [hpspSplitC]
    simp only [Finset.card_range, dilworthIC_eq]
    rw [if_neg (by omega), if_neg (by omega)]
    have hsub := star_subNodes K (m + 2)
    have hγ : weightTotal (starG K (m + 2)).arcs (subNodes (starG K (m + 2)) (Finset.range (m + 1 + 2))) /
        (((m + 1 + 2 : ℕ) : ℚ) - 1) = starMean K (m + 2) := by
      rw [hsub]; rfl
    rw [show m + 1 + 1 = m + 2 from rfl, hγ, hsub, show (starG K (m + 2)).arcs = starArcs K (m + 2) from rfl]
    rw [if_neg (star_not_done hK hS hε (by omega)), (star_dilworth hK hS (by omega)).1]
    obtain ⟨L1, L2, ho, hL1, hL2⟩ := star_order hord (m + 2)
    have hf := star_firsts hord (m := m + 2) (by omega)
    have h0 : firstElem ({0, m + 2} : Finset ℕ) = 0 := Nat.le_zero.1 (firstElem_le (by simp))
    have hc : ({0, m + 2} : Finset ℕ).card = 2 := Finset.card_pair (by omega)
    have hblocks : ∃ st', hpspBlocksC ε (hpspSplitC S ε ord k) (ord (starPart (m + 2))) (starG K (m + 2)) st ∅ =
        .ok ((starG K (m + 1), st', Finset.range (m + 2)), 0) := by
      obtain ⟨k, rfl⟩ : ∃ i, k = i + 1 := ⟨k - 1, by omega⟩
      rw [ho, hpspBlocksC_skip hL1, hpspBlocksC, if_neg (by omega), h0, hpspSplitC, if_neg (by omega), if_pos hc]
      simp only [Outcome.ok_bind, Outcome.pure_eq]
      rw [star_contract hK hε.le]
      have := hpspBlocksC_skip (ε := ε) (split := hpspSplitC S ε ord (k + 1)) hL2 []
      rw [List.append_nil] at this
      rw [this, hpspBlocksC]
      have hset : insert 0 (∅ ∪ firsts L1) ∪ firsts L2 = Finset.range (m + 2) := by
        rw [← hf, ho]
        ext v
        simp only [Finset.mem_union, Finset.mem_insert, mem_firsts, List.mem_append, List.mem_cons,
          Finset.notMem_empty, false_or, or_and_right, exists_or, exists_eq_left, h0]
        rw [eq_comm (a := v), or_comm (a := 0 = v), or_assoc]
      simp only [Outcome.ok_bind]
      rw [hset]
      exact ⟨_, rfl⟩
    obtain ⟨st', hst⟩ := hblocks
    obtain ⟨r, r1, r2⟩ := ih k st' s (by omega)
    rw [hst, Outcome.ok_bind, r1]
    refine ⟨(r.1, (List.range (m + 3)).length + 0 + r.2), rfl, ?_⟩
    rw [r2, flowBound_succ (m := m + 1) (by omega), List.length_range]

theorem star_pspi (hK : 1 ≤ K) {S : FlowSolver} (hS : S.Correct) {ε : ℚ} (hε : ε < 1) {ord : Partition → List CSet}
    (hord : Enumerates ord) (m : ℕ) : ∀ k ch, m + 2 ≤ k → Stand (starG K (m + 1)) ch (Finset.range (m + 2)) →
      ∃ r, pspiSplitC S ε ord k (starG K (m + 1)) ch = .ok r ∧ r.2 = flowBound (m + 1) := by
  induction m with
  | zero =>
    intro k ch hk hs
    obtain ⟨k, rfl⟩ : ∃ i, k = i + 1 := ⟨k - 1, by omega⟩
    have hl := hs.length
    rw [Finset.card_range] at hl
    rw [pspiSplitC, hl]
    dsimp only
    rw [if_neg (by omega), if_pos rfl]
    exact ⟨_, rfl, rfl⟩
  | succ m ih =>
    intro k ch hk hs
    obtain ⟨k, rfl⟩ : ∃ i, k = i + 1 := ⟨k - 1, by omega⟩
    have hl := hs.length
    rw [Finset.card_range] at hl
    rw [pspiSplitC]
    simp only [dilworthIC_eq, hs.ids, hl]
    rw [if_neg (by omega), if_neg (by omega)]
    have hsub := star_subNodes K (m + 2)
    have hγ : weightTotal (starG K (m + 2)).arcs (subNodes (starG K (m + 2)) (Finset.range (m + 1 + 2))) /
        (((m + 1 + 2 : ℕ) : ℚ) - 1) = starMean K (m + 2) := by
      rw [hsub]; rfl
    rw [show m + 1 + 1 = m + 2 from rfl] at hs ⊢
    rw [hγ, hsub, show (starG K (m + 2)).arcs = starArcs K (m + 2) from rfl]
    rw [if_neg (star_not_done hK hS hε (by omega)), (star_dilworth hK hS (by omega)).1]
    obtain ⟨L1, L2, ho, hL1, hL2⟩ := star_order hord (m + 2)
    have h0 : firstElem ({0, m + 2} : Finset ℕ) = 0 := Nat.le_zero.1 (firstElem_le (by simp))
    have hc : ({0, m + 2} : Finset ℕ).card = 2 := Finset.card_pair (by omega)
    have hsubset : ({0, m + 2} : Finset ℕ) ⊆ Finset.range (m + 1 + 2) := by
      intro v hv
      simp only [Finset.mem_insert, Finset.mem_singleton] at hv
      rw [Finset.mem_range]
      omega
    have hblocks : ∃ ch', pspiBlocksC ε (pspiSplitC S ε ord k) (ord (starPart (m + 2))) (starG K (m + 2)) ch =
        .ok ((starG K (m + 1), ch'), 0) ∧ Stand (starG K (m + 1)) ch' (Finset.range (m + 2)) := by
      obtain ⟨k, rfl⟩ : ∃ i, k = i + 1 := ⟨k - 1, by omega⟩
      have hfl := (hs.filter hsubset).length
      rw [hc] at hfl
      rw [ho, pspiBlocksC_skip hL1, pspiBlocksC, if_neg (by omega), h0]
      dsimp only
      rw [pspiSplitC]
      dsimp only
      rw [if_neg (by omega), if_pos hfl]
      simp only [Outcome.ok_bind, Outcome.pure_eq]
      rw [star_contract hK hε.le]
      have := pspiBlocksC_skip (ε := ε) (split := pspiSplitC S ε ord (k + 1)) hL2 []
      rw [List.append_nil] at this
      rw [this, pspiBlocksC]
      refine ⟨_, rfl, ?_⟩
      have hj := hs.join (g' := starG K (m + 1)) hsubset ⟨0, by simp⟩ (fun v hv h => by
        rw [h0] at h
        have h2 := Finset.mem_range.1 hv
        have : v ≠ m + 2 := by
          rintro rfl
          have := h (by simp)
          omega
        exact List.mem_range.2 (by omega))
      rw [h0, show insert 0 (Finset.range (m + 1 + 2) \ {0, m + 2}) = Finset.range (m + 2) from ?_] at hj
      · exact hj _ _
      · ext v
        simp only [Finset.mem_insert, Finset.mem_sdiff, Finset.mem_range, Finset.mem_singleton]
        omega
    obtain ⟨ch', h1, h2⟩ := hblocks
    obtain ⟨r, r1, r2⟩ := ih k ch' (by omega) h2
    rw [h1, Outcome.ok_bind, r1]
    refine ⟨(r.1, (List.range (m + 3)).length + 0 + r.2), rfl, ?_⟩
    rw [r2, flowBound_succ (m := m + 1) (by omega), List.length_range]

end PSP.Theory
