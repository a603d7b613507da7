import Verif.Theory.WolfeAgg

/-!
# The minimum norm base exists
-/

namespace PSP.Theory

open PSP.Model PSP.Spec

theorem rank_lt {N : Numerics} {f : SF} {x x' : List ℚ} (hx' : x' ∈ candidates N f) (h : dot x' x' < dot x x) :
    rank N f x' < rank N f x := by
  apply Finset.card_lt_card
  rw [Finset.ssubset_iff_of_subset]
  · refine ⟨dot x' x', ?_, ?_⟩
    · rw [Finset.mem_filter]
      exact ⟨Finset.mem_image.2 ⟨_, hx', rfl⟩, h⟩
    · rw [Finset.mem_filter]
      exact fun h => absurd h.2 (lt_irrefl _)
  · intro a ha
    rw [Finset.mem_filter] at ha ⊢
    exact ⟨ha.1, ha.2.trans h⟩

theorem exists_minNorm {n : ℕ} {φ : Finset ℕ → ℚ} (hφ : Submodular (Finset.range n) φ) :
    ∃ y, IsMinNorm (Finset.range n) φ y := by
  rcases Nat.lt_or_ge n 2 with hn | hn
  · have key : ∀ y, InBase (Finset.range n) φ y → y 0 = φ (Finset.range n) - φ ∅ ∨ n = 0 := by
      intro y hy
      rcases Nat.lt_or_ge n 1 with h | h
      · right; omega
      · left
        have : n = 1 := by omega
        subst this
        have := hy.1
        simpa using this
    have hb : InBase (Finset.range n) φ fun _ => φ (Finset.range n) - φ ∅ := by
      interval_cases n
      · exact ⟨by simp, fun S hS => by
          rw [Finset.range_zero, Finset.subset_empty] at hS
          simp [hS]⟩
      · refine ⟨by simp, fun S hS => ?_⟩
        rw [Finset.range_one, Finset.subset_singleton_iff] at hS
        rcases hS with rfl | rfl <;> simp
    refine ⟨_, hb, fun y hy => ?_⟩
    rcases key y hy with h | h
    · have h1 : n = 1 ∨ n = 0 := by omega
      rcases h1 with rfl | rfl
      · simp [Spec.inner, h]
      · simp [Spec.inner]
    · subst h; simp [Spec.inner]
  · obtain ⟨N, hN, -⟩ := exists_exact
    let f : SF := ⟨n, fun B => φ B.toFinset⟩
    have hf : Computes f φ := fun B _ _ => rfl
    have hφ' : Submodular (Finset.range f.size) φ := hφ
    obtain ⟨e, he, hsm⟩ := exists_smallEps (vOf N) (reach (vOf N) (starts N f) (f.size + 1))
    have hs := hsm e le_rfl
    obtain ⟨x0, hI, -⟩ := minNormBase_start (tol := 1) (hN f.size) hn hf hφ' hs 0
    have main : ∀ (r : ℕ) (Q : List (List ℚ)) (w x : List ℚ), rank N f x = r → MajInv N f e Q w x →
        ∃ y, IsMinNorm (Finset.range n) φ y := by
      intro r
      induction r using Nat.strong_induction_on with
      | _ r ih =>
        intro Q w x hr hI
        have hxl : x.length = f.size := by rw [hI.point]; exact combine_length _ _ _
        have hsort := (hN f.size).sort x hxl
        by_cases hgap : dot x (greedyPoint f (N.sort x)) < dot x x
        · obtain ⟨Q', w', x', -, h2, h3, h4⟩ := majorStep_spec (hN f.size) (show 0 < n by omega) hf hφ' he hs hI hgap
          exact ih _ (hr ▸ rank_lt h3 h4) Q' w' x' rfl h2
        · refine ⟨fun i => x.getD i 0, hI.base (hN f.size) hf hφ' he, fun y hy => ?_⟩
          have h1 := greedy_min hf hφ' hxl hsort hy
          rw [not_lt, dot_inner hxl hxl, dot_inner hxl (greedyPoints_spec hf hφ' (greedyPoint_mem hxl hsort)).1] at hgap
          exact hgap.trans h1
    exact main _ _ _ _ rfl hI

end PSP.Theory
