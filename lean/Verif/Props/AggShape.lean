import Verif.Theory.AggShape
import Verif.Props.AggAnyFunctorF

/-!
# C92: the shape of the result of `agg_psp` and `AIC`, whatever `min_norm_base` returns
-/

namespace PSP.Props

open PSP.Model PSP.Spec PSP.Theory

/-- `AIC` with any functor and any function in place of `min_norm_base`, any tolerance and any rounding: if the run returns,
the result is a hierarchy from the coarsest to the finest partition. -/
theorem C92_hierarchy (fl : ℚ → ℚ) (mnb : SF → Outcome (List ℚ)) (f : SF) (hn : 0 < f.size) (tol : ℚ) {ps : List Partition}
    {cv : List ℚ} (h : aicRunF fl mnb f tol = .ok (ps, cv)) : IsHierarchy (Finset.range f.size) ps cv := by
  obtain ⟨L, hL1, -, hL2⟩ := new_coarsest hn
  unfold aicRunF at h
  dsimp only at h
  rw [hL1, Outcome.ok_bind, hL2, aggLoopF_with] at h
  exact runWith_shape hn (agglomerateWith_mergesOnly hn _ _ _) _ h

/-- The same without rounding. -/
theorem C92_hierarchy_exact (mnb : SF → Outcome (List ℚ)) (f : SF) (hn : 0 < f.size) (tol : ℚ) {ps : List Partition}
    {cv : List ℚ} (h : aggRunSF mnb f tol = .ok (ps, cv)) : IsHierarchy (Finset.range f.size) ps cv := by
  obtain ⟨L, hL1, -, hL2⟩ := new_coarsest hn
  unfold aggRunSF at h
  dsimp only at h
  rw [hL1, Outcome.ok_bind, hL2, aggLoop_with] at h
  exact runWith_shape hn (agglomerateWith_mergesOnly hn _ _ _) _ h

/-- `Agglomerative_PSP::run` on any digraph with `n` nodes, with and without rounding. -/
theorem C92_digraph (fl : ℚ → ℚ) (ai ao : List Arc → List Arc) (mnb : SF → Outcome (List ℚ)) {n : ℕ} (hn : 0 < n)
    (E : List Arc) (tol : ℚ) {ps : List Partition} {cv : List ℚ}
    (h : aggRunF fl ai ao mnb ⟨List.range n, E⟩ tol = .ok (ps, cv) ∨ aggRun mnb ⟨List.range n, E⟩ tol = .ok (ps, cv)) :
    IsHierarchy (Finset.range n) ps cv := by
  have hs : (digraphEntropyF fl ai ao ⟨List.range n, E⟩).size = n := by simp [digraphEntropyF, Digraph.countNodes]
  have hs' : (digraphEntropy ⟨List.range n, E⟩).size = n := by simp [digraphEntropy, Digraph.countNodes]
  rcases h with h | h
  · have := C92_hierarchy fl mnb (digraphEntropyF fl ai ao ⟨List.range n, E⟩) (by rw [hs]; exact hn) tol h
    rwa [hs] at this
  · have := C92_hierarchy_exact mnb (digraphEntropy ⟨List.range n, E⟩) (by rw [hs']; exact hn) tol h
    rwa [hs'] at this

/-- A rounding that is monotone, leaves rounded numbers as they are, and leaves 0 as it is. -/
structure PlainRounding (fl : ℚ → ℚ) : Prop where
  mono : Monotone fl
  idem : ∀ a, fl (fl a) = fl a
  zero : fl 0 = 0

theorem plain_id : PlainRounding id := ⟨monotone_id, fun _ => rfl, rfl⟩

theorem plain_double : PlainRounding roundDouble := by
  have h (y : ℚ) (hy : RepresentableFrom 53 1074 y) : roundDouble y = y := by
    have := (roundFrom_spec (p := 53) (low := 1074) (by norm_num) y).2 y hy
    rw [sub_self, abs_zero] at this
    exact sub_eq_zero.1 (abs_eq_zero.1 (le_antisymm this (abs_nonneg _)))
  exact ⟨roundDouble_inRange.1, fun a => h _ (roundFrom_spec (p := 53) (low := 1074) (by norm_num) a).1,
    h 0 ⟨0, 0, by norm_num, by norm_num, by norm_num⟩⟩

/-- `AIC` with the `min_norm_base` of the code, any linear solver, any sort, any functor, tolerances `tol ≥ 0` and any `eps`:
the run goes on for ever, or some call of `min_norm_base` in it does not return (its exception, a division by zero, ...), or
the result is a hierarchy. In particular the vector of critical values is never empty when its last entry is read. -/
theorem C92_outcomes {fl : ℚ → ℚ} (hfl : PlainRounding fl) (N : Numerics) (f : SF) (hn : 0 < f.size) {tol : ℚ} (htol : 0 ≤ tol)
    (eps : ℚ) (fuel : ℕ) :
    (∀ k, aggLoopF fl (mnbOfF fl (N.seqF fl) tol eps fuel) f tol k (HC.new f.size)
      [singletons (Finset.range f.size)] [] = .fuel) ∨
    (∃ h L j, Reached (agglomerateF fl (mnbOfF fl (N.seqF fl) tol eps fuel) f tol) (HC.new f.size) h ∧
      h.getPartition ⊥ = .ok L ∧ 1 ≤ j ∧ j < L.length ∧
      ∀ r, minNormBaseF fl (N.seqF fl) (sfJoin (sfContractF fl f L) j) tol eps fuel ≠ .ok r) ∨
    ∃ ps cv, aicRunF fl (mnbOfF fl (N.seqF fl) tol eps fuel) f tol = .ok (ps, cv) ∧
      IsHierarchy (Finset.range f.size) ps cv := by
  by_cases hfail : SomeCallFails (mnbOfF fl (N.seqF fl) tol eps fuel) (sfContractF fl f)
      (agglomerateWith (mnbOfF fl (N.seqF fl) tol eps fuel) (sfContractF fl f) fun g => fl (-g + tol)) f.size
  · obtain ⟨h, L, j, h1, h2, h3, h4, h5⟩ := hfail
    refine .inr (.inl ⟨h, L, j, h1, h2, h3, h4, fun r hr => ?_⟩)
    apply h5 r.1
    unfold mnbOfF
    rw [hr]
    rfl
  have hpts : ∀ (L : List (List ℕ)) (j : ℕ) (x : List ℚ), 1 ≤ j → j < L.length →
      mnbOfF fl (N.seqF fl) tol eps fuel (sfJoin (sfContractF fl f L) j) = .ok x →
      x.length = j ∧ ∀ a ∈ x, a ≤ fl (-(-a) + tol) := by
    intro L j x _ _ hx
    obtain ⟨h1, h2⟩ := mnbOfF_fixed hfl.idem hfl.zero N (by simp only [sfJoin, sfContractF]; exact hfl.idem _) hx
    refine ⟨h1, fun a ha => ?_⟩
    rw [neg_neg]
    calc a = fl a := (h2 a ha).symm
      _ ≤ fl (a + tol) := hfl.mono (by linarith)
  rcases (C78_ends_or_never fl (mnbOfF fl (N.seqF fl) tol eps fuel) f tol f.size [singletons (Finset.range f.size)] []).2 with h |
    ⟨o, ho, h⟩
  · exact .inl h
  · right; right
    have hrun := loopWith_outcome hn hpts hfail (f.size + 1) _ _ [singletons (Finset.range f.size)] [] (HCInv.new _) rfl .start
    rw [← aggLoopF_with] at hrun
    rcases hrun with hrun | ⟨⟨ps, cv⟩, hrun⟩
    · rw [h _ (by omega)] at hrun
      exact absurd hrun ho
    · obtain ⟨L, hL1, -, hL2⟩ := new_coarsest hn
      have h4 : aicRunF fl (mnbOfF fl (N.seqF fl) tol eps fuel) f tol = .ok (ps, cv) := by
        unfold aicRunF
        dsimp only
        rw [hL1, Outcome.ok_bind, hL2]
        exact hrun
      exact ⟨ps, cv, h4, C92_hierarchy _ _ f hn tol h4⟩

/-- A stand-in for `min_norm_base` that has nothing to do with the functor. -/
def wrongPoints (f : SF) : Outcome (List ℚ) := .ok ((List.range f.size).map fun i => if i + 1 = f.size then -2 / f.size else 1)

/-- With it a path whose edges weigh 1, 2 and 3 gets a hierarchy that is not its principal sequence, which has the values 1,
2 and 3. -/
example : aggRun wrongPoints ⟨List.range 4, [⟨0, 1, 1⟩, ⟨1, 2, 2⟩, ⟨2, 3, 3⟩]⟩ (1 / 10 ^ 6) =
      .ok ([{{0, 1, 2, 3}}, {{0, 1, 2}, {3}}, {{0, 1}, {2}, {3}}, {{0}, {1}, {2}, {3}}], [2, 2, 2]) ∧
    IsHierarchy (Finset.range 4) [{{0, 1, 2, 3}}, {{0, 1, 2}, {3}}, {{0, 1}, {2}, {3}}, {{0}, {1}, {2}, {3}}] [2, 2, 2] := by
  have h : aggRun wrongPoints ⟨List.range 4, [⟨0, 1, 1⟩, ⟨1, 2, 2⟩, ⟨2, 3, 3⟩]⟩ (1 / 10 ^ 6) =
      .ok ([{{0, 1, 2, 3}}, {{0, 1, 2}, {3}}, {{0, 1}, {2}, {3}}, {{0}, {1}, {2}, {3}}], [2, 2, 2]) := by decide +kernel
  exact ⟨h, C92_digraph id id id _ (by norm_num) _ _ (.inr h)⟩

/-- All three outcomes of `C92_outcomes` occur: `doubleHypergraph_run` and `any_run` return, `C78_cycle_double_violated` goes
on for ever, and here the solver returns zeros, so that `min_norm_base` divides by zero. -/
def zeroSolver : Numerics := ⟨sortIdx, fun Q => Q.map fun _ => 0, fun _ _ => false⟩

example : aicRunF roundDouble (mnbOfF roundDouble (zeroSolver.seqF roundDouble) runTol runEps 50) anyFn runTol = .nan := by
  decide +kernel

end PSP.Props
