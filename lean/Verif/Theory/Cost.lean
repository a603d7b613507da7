import Mathlib.Algebra.BigOperators.Group.List.Basic
import Mathlib.Algebra.Order.BigOperators.Group.List
import Mathlib.Tactic.NormNum
import Mathlib.Tactic.FieldSimp
import Verif.Theory.Partition

/-!
# Costs of partitions: uncrossing, monotonicity of minimisers in `λ`
-/

namespace PSP.Spec

open PSP.Model (expand getCutValue getPartitionValue)

variable {V U : Finset ℕ} {P Q R : Finset (Finset ℕ)} {E : List Arc}

/-- All weights are nonnegative. -/
def NonnegE (E : List Arc) : Prop := ∀ e ∈ E, 0 ≤ e.cap

/-- All end points lie in `V`. -/
def Within (E : List Arc) (V : Finset ℕ) : Prop := ∀ e ∈ E, e.src ∈ V ∧ e.dst ∈ V

theorem crossWeight_nonneg (hE : NonnegE E) (P : Finset (Finset ℕ)) : 0 ≤ crossWeight E P := by
  unfold crossWeight
  apply List.sum_nonneg
  intro x hx
  rw [List.mem_map] at hx
  obtain ⟨e, he, rfl⟩ := hx
  split
  · exact le_rfl
  · exact hE e he

theorem crossWeight_single (hW : Within E V) : crossWeight E {V} = 0 := by
  unfold crossWeight
  apply List.sum_eq_zero
  intro x hx
  rw [List.mem_map] at hx
  obtain ⟨e, he, rfl⟩ := hx
  rw [if_pos]
  exact ⟨V, by simp, (hW e he).1, (hW e he).2⟩

theorem crossWeight_mono (hE : NonnegE E) (h : Refines P Q) : crossWeight E Q ≤ crossWeight E P := by
  unfold crossWeight
  apply List.sum_le_sum
  intro e he
  by_cases h1 : Same P e.src e.dst
  · rw [if_pos h1, if_pos (h.same h1)]
  · rw [if_neg h1]
    split
    · exact hE e he
    · exact le_rfl

theorem crossWeight_uncross (hE : NonnegE E) {B : Finset ℕ} (hB : B ∈ Q) :
    crossWeight E (splitBlock Q P B) + crossWeight E (expand P B) ≤
      crossWeight E P + crossWeight E Q := by
  unfold crossWeight
  rw [← List.sum_map_add, ← List.sum_map_add]
  apply List.sum_le_sum
  intro e he
  have hc := hE e he
  have h1 : Same P e.src e.dst → Same (expand P B) e.src e.dst := (refines_expand P B).same
  have h2 : Same P e.src e.dst → Same Q e.src e.dst → Same (splitBlock Q P B) e.src e.dst := by
    rintro ⟨A, hA, hu, hv⟩ ⟨C, hC, hu', hv'⟩
    by_cases hCB : C = B
    · subst hCB
      refine ⟨A ∩ C, ?_, Finset.mem_inter.2 ⟨hu, hu'⟩, Finset.mem_inter.2 ⟨hv, hv'⟩⟩
      unfold splitBlock
      apply Finset.mem_union_right
      exact Finset.mem_image_of_mem (fun A => A ∩ C)
        (mem_meeting.2 ⟨hA, Finset.not_disjoint_iff.2 ⟨_, hu, hu'⟩⟩)
    · refine ⟨C, ?_, hu', hv'⟩
      unfold splitBlock
      exact Finset.mem_union_left _ (Finset.mem_erase.2 ⟨hCB, hC⟩)
  have h3 : Same Q e.src e.dst →
      Same (splitBlock Q P B) e.src e.dst ∨ Same (expand P B) e.src e.dst := by
    rintro ⟨C, hC, hu', hv'⟩
    by_cases hCB : C = B
    · subst hCB
      exact Or.inr ⟨_, bigBlock_mem_expand, subset_bigBlock hu', subset_bigBlock hv'⟩
    · refine Or.inl ⟨C, ?_, hu', hv'⟩
      unfold splitBlock
      exact Finset.mem_union_left _ (Finset.mem_erase.2 ⟨hCB, hC⟩)
  by_cases hp : Same P e.src e.dst <;> by_cases hq : Same Q e.src e.dst
  · rw [if_pos hp, if_pos hq, if_pos (h1 hp), if_pos (h2 hp hq)]
  · rw [if_pos hp, if_neg hq, if_pos (h1 hp)]
    split <;> linarith
  · rw [if_neg hp, if_pos hq]
    rcases h3 hq with h | h
    · rw [if_pos h]; split <;> linarith
    · rw [if_pos h]; split <;> linarith
  · rw [if_neg hp, if_neg hq]
    split <;> split <;> linarith

/-- Minimisers are nested: a minimiser at a larger parameter refines every minimiser at a smaller
one. -/
theorem IsOptimal.refines (hE : NonnegE E) {l1 l2 : ℚ} (hP : IsOptimal E V l1 P)
    (hQ : IsOptimal E V l2 Q) (hlt : l1 < l2) : Refines Q P := by
  intro B hB
  have hBne := hQ.1.nonempty hB
  have hBV := hQ.1.subset hB
  have e1 := hP.2 _ (expand_isPartition' hP.1 hBne hBV)
  have e2 := hQ.2 _ (splitBlock_isPartition hQ.1 hP.1 hB)
  have c1 := card_expand (P := P) hBne
  have c2 := card_splitBlock hQ.1 hP.1 hB
  have hu := crossWeight_uncross (P := P) (Q := Q) hE hB
  unfold cost at e1 e2
  have c1' : ((expand P B).card : ℚ) = P.card + 1 - (meeting P B).card := by
    have : ((expand P B).card : ℚ) + (meeting P B).card = P.card + 1 := by exact_mod_cast c1
    linarith
  have c2' : ((splitBlock Q P B).card : ℚ) = Q.card + (meeting P B).card - 1 := by
    have : ((splitBlock Q P B).card : ℚ) + 1 = Q.card + (meeting P B).card := by exact_mod_cast c2
    linarith
  rw [c1'] at e1
  rw [c2'] at e2
  have key : (l2 - l1) * ((meeting P B).card - 1 : ℚ) ≤ 0 := by nlinarith
  have hm : (meeting P B).card ≤ 1 := by
    by_contra hcon
    have h2 : (2 : ℚ) ≤ (meeting P B).card := by
      have : 2 ≤ (meeting P B).card := by omega
      exact_mod_cast this
    nlinarith
  obtain ⟨v, hv⟩ := hBne
  obtain ⟨A, hA, hvA⟩ := hP.1.exists_block (hBV hv)
  refine ⟨A, hA, fun w hw => ?_⟩
  obtain ⟨A', hA', hwA'⟩ := hP.1.exists_block (hBV hw)
  have m1 : A ∈ meeting P B := mem_meeting.2 ⟨hA, Finset.not_disjoint_iff.2 ⟨v, hvA, hv⟩⟩
  have m2 : A' ∈ meeting P B := mem_meeting.2 ⟨hA', Finset.not_disjoint_iff.2 ⟨w, hwA', hw⟩⟩
  rw [Finset.card_le_one.1 hm A m1 A' m2]
  exact hwA'

theorem IsOptimal.card_le (hE : NonnegE E) {l1 l2 : ℚ} (hP : IsOptimal E V l1 P)
    (hQ : IsOptimal E V l2 Q) (hlt : l1 < l2) : P.card ≤ Q.card :=
  (hP.refines hE hQ hlt).card_le hQ.1 hP.1

/-! ### cut values -/

theorem cutValue_nonneg (hE : NonnegE E) (S : Finset ℕ) : 0 ≤ getCutValue E S := by
  unfold getCutValue
  apply List.sum_nonneg
  intro x hx
  rw [List.mem_map] at hx
  obtain ⟨e, he, rfl⟩ := hx
  split
  · exact hE e he
  · exact le_rfl

theorem cutValue_submodular (hE : NonnegE E) (S T : Finset ℕ) :
    getCutValue E (S ∪ T) + getCutValue E (S ∩ T) ≤ getCutValue E S + getCutValue E T := by
  unfold getCutValue
  rw [← List.sum_map_add, ← List.sum_map_add]
  apply List.sum_le_sum
  intro e he
  have hc := hE e he
  by_cases h1 : e.src ∈ S <;> by_cases h2 : e.src ∈ T <;> by_cases h3 : e.dst ∈ S <;>
    by_cases h4 : e.dst ∈ T <;> simp [h1, h2, h3, h4, hc]

/-- The sum of the in-cuts of the blocks is the crossing weight (property C10). -/
theorem partitionValue_eq_crossWeight (hW : ∀ e ∈ E, e.dst ∈ V) (hP : IsPartition V P) :
    getPartitionValue E P = crossWeight E P := by
  unfold getPartitionValue getCutValue crossWeight
  induction E with
  | nil => simp
  | cons e E ih =>
    simp only [List.map_cons, List.sum_cons]
    rw [Finset.sum_add_distrib, ih (fun e he => hW e (List.mem_cons_of_mem _ he))]
    congr 1
    obtain ⟨B, hB, hdB⟩ := hP.exists_block (hW e List.mem_cons_self)
    rw [Finset.sum_eq_single B]
    · by_cases hs : Same P e.src e.dst
      · rw [if_pos hs, if_neg]
        rintro ⟨h1, _⟩
        obtain ⟨C, hC, hu, hv⟩ := hs
        rw [hP.eq_of_mem hB hC hdB hv] at h1
        exact h1 hu
      · rw [if_neg hs, if_pos]
        exact ⟨fun h1 => hs ⟨B, hB, h1, hdB⟩, hdB⟩
    · intro C hC hne
      rw [if_neg]
      rintro ⟨_, h2⟩
      exact hne (hP.eq_of_mem hC hB h2 hdB)
    · intro h; exact absurd hB h

end PSP.Spec
