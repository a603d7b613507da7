import Verif.Theory.FLS
import Verif.Theory.Gauss
import Verif.Theory.WolfeStuck

/-!
# Properties of `FiniteLinearEntropy` (C49)
-/

namespace PSP.Props

open PSP.Spec PSP.Model PSP.Theory

variable {F : Type} [Field F] [DecidableEq F]

/-! ### C49: finite linear sources -/

/-- The value of a list is the unit `k log2 p` times the dimension of the space spanned by the rows of its
elements; order and repetitions do not matter. -/
theorem C49_value {unit : ℚ} {cols : ℕ} {M : List (List (List ℤ))}
    (hM : ∀ A ∈ M, ∀ r ∈ A, r.length = cols) (B : List ℕ) :
    (finiteLinear F unit cols M).val B = unit * rowRank F cols M B.toFinset :=
  finiteLinear_val hM B

/-- It is 0 on the empty list, monotone and submodular. -/
theorem C49_entropy {unit : ℚ} (hu : 0 ≤ unit) {cols : ℕ} {M : List (List (List ℤ))}
    (hM : ∀ A ∈ M, ∀ r ∈ A, r.length = cols) :
    (finiteLinear F unit cols M).val [] = 0 ∧
    (∀ B C : List ℕ, B ⊆ C → (finiteLinear F unit cols M).val B ≤ (finiteLinear F unit cols M).val C) ∧
    (∀ B C D I : List ℕ, (∀ v, v ∈ D ↔ v ∈ B ∨ v ∈ C) → (∀ v, v ∈ I ↔ v ∈ B ∧ v ∈ C) →
      (finiteLinear F unit cols M).val D + (finiteLinear F unit cols M).val I ≤
        (finiteLinear F unit cols M).val B + (finiteLinear F unit cols M).val C) := by
  refine ⟨?_, ?_, ?_⟩
  · rw [C49_value hM, List.toFinset_nil, rowRank_empty]; simp
  · intro B C h
    rw [C49_value hM, C49_value hM]
    apply mul_le_mul_of_nonneg_left _ hu
    exact_mod_cast rowRank_mono cols M fun b hb => List.mem_toFinset.2 (h (List.mem_toFinset.1 hb))
  · intro B C D I hD hI
    have e1 : D.toFinset = B.toFinset ∪ C.toFinset := by ext v; simp [hD]
    have e2 : I.toFinset = B.toFinset ∩ C.toFinset := by ext v; simp [hI]
    simp only [C49_value hM]
    rw [e1, e2, ← mul_add, ← mul_add]
    apply mul_le_mul_of_nonneg_left _ hu
    exact_mod_cast rowRank_submodular cols M B.toFinset C.toFinset

omit [DecidableEq F] in
theorem rowRank_intersecting {unit : ℚ} (hu : 0 ≤ unit) (cols : ℕ) (M : List (List (List ℤ))) (V : Finset ℕ) :
    Intersecting V fun B => unit * rowRank F cols M B := by
  intro S T _ _ _
  simp only
  rw [← mul_add, ← mul_add]
  apply mul_le_mul_of_nonneg_left _ hu
  exact_mod_cast rowRank_submodular cols M S T

/-- `AIC` on a finite linear source builds the principal sequence of its entropy, if no call of
`min_norm_base` is ended by its counter of stuck cycles. -/
theorem C49_aic {N : Numerics} (hN : ∀ n, ExactNumerics N n) (hth : ∀ k Q, N.throws k Q = false)
    {unit : ℚ} (hu : 0 ≤ unit) {cols : ℕ} {M : List (List (List ℤ))}
    (hM : ∀ A ∈ M, ∀ r ∈ A, r.length = cols) (hn : 0 < M.length) :
    ∃ e t0 : ℚ, ∃ K : ℕ, 0 < e ∧ 0 < t0 ∧ ∀ eps tol fuel, 0 < eps → eps ≤ e → 0 < tol → tol ≤ t0 →
      K ≤ fuel → (∀ L R j, IsClustering M.length R L → j < L.length →
        NotStuck N (sfJoin (sfContract (finiteLinear F unit cols M) L) j) tol eps fuel) →
      ∃ ps cv, aggRunSF (mnbOf N tol eps fuel) (finiteLinear F unit cols M) tol = .ok (ps, cv) ∧
        IsPrincipalSequenceSF (fun B => unit * rowRank F cols M B) (Finset.range M.length) ps cv :=
  aggRunSF_exact hN hth (f := finiteLinear F unit cols M) (fun _ _ _ _ => C49_value hM _) hn
    (rowRank_intersecting hu cols M _)

/-- With at most four sources the proviso is not needed. -/
theorem C49_aic_four {N : Numerics} (hN : ∀ n, ExactNumerics N n) (hth : ∀ k Q, N.throws k Q = false)
    {unit : ℚ} (hu : 0 ≤ unit) {cols : ℕ} {M : List (List (List ℤ))}
    (hM : ∀ A ∈ M, ∀ r ∈ A, r.length = cols) (hn : 0 < M.length) (hn4 : M.length ≤ 4) :
    ∃ e t0 : ℚ, ∃ K : ℕ, 0 < e ∧ 0 < t0 ∧ ∀ eps tol fuel, 0 < eps → eps ≤ e → 0 < tol → tol ≤ t0 →
      K ≤ fuel →
      ∃ ps cv, aggRunSF (mnbOf N tol eps fuel) (finiteLinear F unit cols M) tol = .ok (ps, cv) ∧
        IsPrincipalSequenceSF (fun B => unit * rowRank F cols M B) (Finset.range M.length) ps cv := by
  obtain ⟨e, t0, K, he, ht0, h⟩ := C49_aic (F := F) hN hth hu hM hn
  obtain ⟨e', he', h'⟩ := notStuck_small hN hth (f := finiteLinear F unit cols M)
    (fun _ _ _ _ => C49_value hM _) (rowRank_intersecting hu cols M _) hn4
  exact ⟨min e e', t0, K, lt_min he he', ht0, fun eps tol fuel h1 h2 h3 h4 h5 =>
    h eps tol fuel h1 (h2.trans (min_le_left _ _)) h3 h4 h5
      (h' eps tol fuel h1 (h2.trans (min_le_right _ _)) h3)⟩

private instance : Fact (Nat.Prime 2) := ⟨Nat.prime_two⟩

/-- Over the field with two elements the sum of two rows is dependent on them. -/
example : (finiteLinear (ZMod 2) 1 3 [[[1, 0, 1]], [[0, 1, 1]], [[1, 1, 2]]]).val [2, 0, 1] = 2 ∧
    (finiteLinear ℚ 1 3 [[[1, 0, 1]], [[0, 1, 1]], [[1, 1, -2]]]).val [2, 0, 1] = 3 := by decide +kernel

/-- Three sources over the field with two elements, the last with two components. -/
example : aggRunSF (mnbOf gaussNumerics (1 / 10 ^ 6) (1 / 10 ^ 15) 50)
    (finiteLinear (ZMod 2) 1 3 [[[1, 0, 0]], [[0, 1, 0]], [[1, 1, 0], [0, 0, 1]]]) (1 / 10 ^ 6) =
    .ok ([{{0, 1, 2}}, {{0}, {1}, {2}}], [1 / 2]) := by decide +kernel

end PSP.Props
