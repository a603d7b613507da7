import Verif.Theory.NearSF
import Verif.Theory.RoundedRound

/-!
# Nearly optimal partitions and their coarser ones
-/

namespace PSP.Theory

open PSP.Model PSP.Spec

variable {φ : Finset ℕ → ℚ} {V : Finset ℕ}

/-- The cost of two partitions, one of which takes in a block `B` of the other one, which is split. -/
theorem cost_uncross (hφ : Intersecting V φ) {P Q : Partition} (hP : IsPartition V P) (hQ : IsPartition V Q) {B : Finset ℕ}
    (hB : B ∈ Q) (lam : ℚ) : costSF φ lam (expand P B) + costSF φ lam (splitBlock Q P B) ≤ costSF φ lam P + costSF φ lam Q ∧
      (expand P B).card + (splitBlock Q P B).card = P.card + Q.card := by
  have h1 := card_expand (P := P) (hQ.nonempty hB)
  have h2 := card_splitBlock hQ hP hB
  have h3 : (expand P B).card + (splitBlock Q P B).card = P.card + Q.card := by omega
  refine ⟨?_, h3⟩
  have h4 := uncross_meeting hφ hP (hQ.subset hB)
  have h5 := sum_expand (P := P) (h := φ) (hQ.nonempty hB)
  have h6 := sum_splitBlock (h := φ) hQ hP hB
  have h7 : ((expand P B).card : ℚ) + (splitBlock Q P B).card = P.card + Q.card := by exact_mod_cast h3
  rw [costSF_eq, costSF_eq, costSF_eq, costSF_eq]
  have h8 : lam * ((expand P B).card : ℚ) + lam * (splitBlock Q P B).card = lam * P.card + lam * Q.card := by
    rw [← mul_add, h7, mul_add]
  linarith

theorem mem_splitBlock {P Q : Partition} {B C : Finset ℕ} :
    C ∈ splitBlock Q P B ↔ (C ≠ B ∧ C ∈ Q) ∨ ∃ A ∈ P, ¬ Disjoint A B ∧ A ∩ B = C := by
  simp [splitBlock, mem_meeting, and_assoc]

/-- Two partitions have a common coarser one, and another partition, which are together not more expensive. -/
theorem exists_join (hφ : Intersecting V φ) {P R : Partition} (hP : IsPartition V P) (hR : IsPartition V R) :
    ∃ J Q, IsPartition V J ∧ IsPartition V Q ∧ Refines P J ∧ P.card ≤ Q.card ∧
      ∀ lam, costSF φ lam J + costSF φ lam Q ≤ costSF φ lam P + costSF φ lam R := by
  have key : ∀ S : Finset (Finset ℕ), S ⊆ R → ∃ J Q, IsPartition V J ∧ IsPartition V Q ∧ Refines P J ∧
      (∀ B ∈ S, ∃ A ∈ J, B ⊆ A) ∧ (∀ B ∈ R, B ∉ S → B ∈ Q) ∧ J.card + Q.card = P.card + R.card ∧
      ∀ lam, costSF φ lam J + costSF φ lam Q ≤ costSF φ lam P + costSF φ lam R := by
    intro S
    induction S using Finset.induction_on with
    | empty =>
      intro _
      exact ⟨P, R, hP, hR, Refines.refl P, by simp, fun B hB _ => hB, rfl, fun _ => le_rfl⟩
    | insert B S hBS ih =>
      intro hS
      obtain ⟨J, Q, hJ, hQ, hPJ, h1, h2, h3, h4⟩ := ih fun A hA => hS (Finset.mem_insert_of_mem hA)
      have hBR := hS (Finset.mem_insert_self _ _)
      have hBQ := h2 B hBR hBS
      have hc := fun lam => cost_uncross (φ := φ) hφ hJ hQ hBQ lam
      refine ⟨expand J B, splitBlock Q J B, expand_isPartition' hJ (hR.nonempty hBR) (hR.subset hBR),
        splitBlock_isPartition hQ hJ hBQ, hPJ.trans (refines_expand J B), ?_, ?_, ?_, ?_⟩
      · intro A hA
        rcases Finset.mem_insert.1 hA with rfl | hA
        · exact ⟨_, bigBlock_mem_expand, subset_bigBlock⟩
        · obtain ⟨D, hD, hAD⟩ := h1 A hA
          obtain ⟨F, hF, hDF⟩ := refines_expand J B D hD
          exact ⟨F, hF, hAD.trans hDF⟩
      · intro A hA hAS
        rw [Finset.mem_insert, not_or] at hAS
        exact mem_splitBlock.2 (.inl ⟨hAS.1, h2 A hA hAS.2⟩)
      · rw [(hc 0).2, h3]
      · intro lam
        exact (hc lam).1.trans (h4 lam)
  obtain ⟨J, Q, hJ, hQ, hPJ, h1, -, h3, h4⟩ := key R subset_rfl
  have h5 := Refines.card_le hR hJ h1
  exact ⟨J, Q, hJ, hQ, hPJ, by omega, h4⟩

/-- A partition that is nearly optimal for `l`, and for `m` not more expensive than any coarser one, is nearly optimal for
`m`; there is no limit to how far `m` is below `l`. -/
theorem near_of_coarser (hφ : Intersecting V φ) {e l m σ : ℚ} {P : Partition} (h : IsNearOptimalSF φ V e l P) (hσ : 0 ≤ σ)
    (hm : m ≤ l + σ) (hc : ∀ R, IsPartition V R → Refines P R → costSF φ m P ≤ costSF φ m R) :
    IsNearOptimalSF φ V (e + σ * V.card) m P := by
  refine ⟨h.1, fun R hR => ?_⟩
  obtain ⟨J, Q, hJ, hQ, hPJ, hcard, hcost⟩ := exists_join hφ h.1 hR
  have h1 := hc J hJ hPJ
  have h2 := hcost m
  have h3 := h.2 Q hQ
  have h4 := cost_shiftSF (φ := φ) (l := l) (m := m) P Q
  have h5 : (P.card : ℚ) ≤ Q.card := by exact_mod_cast hcard
  have h6 : (Q.card : ℚ) ≤ V.card := by exact_mod_cast hQ.card_le
  have h7 : (0 : ℚ) ≤ P.card := Nat.cast_nonneg _
  have h8 : (m - l) * ((Q.card : ℚ) - P.card) ≤ σ * V.card :=
    (mul_le_mul_of_nonneg_right (by linarith : m - l ≤ σ) (by linarith)).trans
      (mul_le_mul_of_nonneg_left (by linarith) hσ)
  have h9 : (m - l) * ((P.card : ℚ) - Q.card) = -((m - l) * ((Q.card : ℚ) - P.card)) := by ring
  linarith

/-- If no coarser partition is cheaper than `P`, merges that are expensive by at most `d` each can all be made together. -/
theorem merge_together (hφ : Intersecting V φ) {g d : ℚ} {P : Partition} (hP : IsPartition V P)
    (hc : ∀ R, IsPartition V R → Refines P R → costSF φ g P ≤ costSF φ g R) (U : ℕ → Finset ℕ) :
    ∀ k : ℕ, (∀ j, j < k → ∃ Q, IsPartition V Q ∧ Refines P Q ∧ U j ∈ Q ∧ costSF φ g Q ≤ costSF φ g P + d) →
    ∃ J, IsPartition V J ∧ Refines P J ∧ (∀ j, j < k → ∃ A ∈ J, U j ⊆ A) ∧ costSF φ g J ≤ costSF φ g P + k * d := by
  intro k
  induction k with
  | zero => intro _; exact ⟨P, hP, Refines.refl P, by simp, by simp⟩
  | succ k ih =>
    intro hU
    obtain ⟨J, hJ, hPJ, h1, h2⟩ := ih fun j hj => hU j (by omega)
    obtain ⟨Q, hQ, hPQ, hUQ, h3⟩ := hU k (by omega)
    have h4 := (cost_uncross hφ hJ hQ hUQ g).1
    have hPs : Refines P (splitBlock Q J (U k)) := by
      intro B hB
      obtain ⟨D, hD, hBD⟩ := hPQ B hB
      by_cases hDU : D = U k
      · subst hDU
        obtain ⟨A, hA, hBA⟩ := hPJ B hB
        obtain ⟨v, hv⟩ := hP.nonempty hB
        exact ⟨A ∩ U k, mem_splitBlock.2 (.inr ⟨A, hA, Finset.not_disjoint_iff.2 ⟨v, hBA hv, hBD hv⟩, rfl⟩),
          Finset.subset_inter hBA hBD⟩
      · exact ⟨D, mem_splitBlock.2 (.inl ⟨hDU, hD⟩), hBD⟩
    have h5 := hc _ (splitBlock_isPartition hQ hJ hUQ) hPs
    refine ⟨expand J (U k), expand_isPartition' hJ (hQ.nonempty hUQ) (hQ.subset hUQ), hPJ.trans (refines_expand J _), ?_, ?_⟩
    · intro j hj
      rcases Nat.lt_succ_iff_lt_or_eq.1 hj with hj | rfl
      · obtain ⟨D, hD, hAD⟩ := h1 j hj
        obtain ⟨F, hF, hDF⟩ := refines_expand J (U k) D hD
        exact ⟨F, hF, hAD.trans hDF⟩
      · exact ⟨_, bigBlock_mem_expand, subset_bigBlock⟩
    · push_cast
      linarith

/-- The next partition of a run: no coarser one is cheaper for `m`, and some coarser one is nearly as cheap as a nearly
optimal partition. -/
theorem near_next {e l m σ d : ℚ} {P P' J : Partition} (h : IsNearOptimalSF φ V e l P) (hP' : IsPartition V P') (hσ : 0 ≤ σ)
    (hm : m ≤ l + σ) (hc : ∀ lam, m ≤ lam → ∀ R, IsPartition V R → Refines P' R → costSF φ lam P' ≤ costSF φ lam R)
    (hJ : IsPartition V J) (hPJ : Refines P' J) (hJd : costSF φ l J ≤ costSF φ l P + d) :
    IsNearOptimalSF φ V (e + d + σ * V.card) l P' := by
  refine ⟨hP', fun R hR => ?_⟩
  have h1 := hc (l + σ) hm J hJ hPJ
  have h2 := h.2 R hR
  have h3 := cost_shiftSF (φ := φ) (l := l) (m := l + σ) P' J
  have h4 : (P'.card : ℚ) ≤ V.card := by exact_mod_cast hP'.card_le
  have h5 : (0 : ℚ) ≤ J.card := Nat.cast_nonneg _
  have h6 : σ * ((P'.card : ℚ) - J.card) ≤ σ * V.card := mul_le_mul_of_nonneg_left (by linarith) hσ
  have h7 : (l + σ - l) * ((P'.card : ℚ) - J.card) = σ * ((P'.card : ℚ) - J.card) := by ring
  linarith

end PSP.Theory
