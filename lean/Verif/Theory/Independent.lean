import Verif.Spec.Independent
import Verif.Theory.Shared
import Verif.Theory.RoundedFunctors
import Verif.Theory.FLS

/-!
# Independent parts are the cheapest partitions at the threshold 0
-/

namespace PSP.Theory

open PSP.Spec

variable {φ : Finset ℕ → ℚ} {V : Finset ℕ} {P Q : Finset (Finset ℕ)}

theorem Subadditive.biUnion (h : Subadditive φ) (P : Finset (Finset ℕ)) : φ (P.biUnion id) ≤ ∑ C ∈ P, φ C := by
  classical
  induction P using Finset.induction_on with
  | empty => simp [h.1]
  | insert B P hB ih =>
    rw [Finset.biUnion_insert, Finset.sum_insert hB]
    have := h.2 (id B) (P.biUnion id)
    simp only [id] at this ih ⊢
    linarith

theorem Subadditive.common_nonneg (h : Subadditive φ) (hP : IsPartition V P) : φ V ≤ ∑ C ∈ P, φ C := by
  have hV : P.biUnion id = V := by
    ext v
    rw [Finset.mem_biUnion]
    exact ⟨fun ⟨B, hB, hv⟩ => (hP.1 B hB).2 hv, fun hv => (hP.exists_block hv).imp fun B hB => hB⟩
  simpa [hV] using Subadditive.biUnion h P

/-- The partitions into independent parts are the cheapest partitions at the threshold 0. -/
theorem independent_iff (h : Subadditive φ) (hV : V.Nonempty) : AreIndependent φ V P ↔ IsOptimalSF φ V 0 P := by
  constructor
  · rintro ⟨h1, h2⟩
    refine ⟨h1, fun R hR => ?_⟩
    have := Subadditive.common_nonneg h hR
    rw [costSF_eq, costSF_eq]
    linarith
  · rintro ⟨h1, h2⟩
    refine ⟨h1, le_antisymm ?_ (Subadditive.common_nonneg h h1)⟩
    have := h2 _ (isPartition_single hV)
    rw [costSF_eq, costSF_eq] at this
    simpa using this

theorem subadditive_weightMax {M : List (List ℚ)} {cols : ℕ} (h0 : ∀ r c, 0 ≤ (M.getD r []).getD c 0) :
    Subadditive (weightMax M cols) :=
  ⟨by simp [weightMax], weightMax_subadditive h0⟩

theorem subadditive_rowRank {F : Type} [Field F] {unit : ℚ} (hu : 0 ≤ unit) (cols : ℕ) (M : List (List (List ℤ))) :
    Subadditive fun B => unit * rowRank F cols M B := by
  refine ⟨by simp [rowRank_empty], fun S T => ?_⟩
  have h1 := rowRank_submodular (F := F) cols M S T
  have h2 : (rowRank F cols M (S ∪ T) : ℚ) ≤ rowRank F cols M S + rowRank F cols M T := by
    exact_mod_cast (Nat.le_add_right _ _).trans h1
  have := mul_le_mul_of_nonneg_left h2 hu
  simpa [mul_add] using this

end PSP.Theory
