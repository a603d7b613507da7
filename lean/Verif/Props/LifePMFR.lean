import Verif.Theory.LifePMFR
import Verif.Props.PMFRWarm

/-!
# C62: the objects of `pdt_r`

Property C62: `PDT_R::run` deletes each of the objects that it creates, once, and nothing else, whatever the order in
which the threads end. The code has two ways to fail, depending on who owns an elevator that a solver made itself: if
the destructor of the solver deletes it, every run deletes an object twice; if not, an interrupted thread can leave
its elevator behind.
-/

namespace PSP.Props

open PSP.Model PSP.Theory PSP.Spec

/-- **C62 (part)**: if solvers do not delete their elevators, then no run uses or deletes an object that does not exist,
nothing that existed before is deleted, and the result is what it is without regard to the heap. Missing: nothing
remains, and solvers that delete their elevators. -/
theorem C62_partial (W Q : HLSolver) (eps : ℚ) (sched : ℕ → CSet → CSet → Finish × Bool) (g : Digraph) (hp : Heap)
    (hw : ∀ a ∈ hp.live, a < hp.next) :
    (pdtrRunM false W Q eps sched g hp).2 = pdtrRunW W Q eps sched g ∧
      hp.live ⊆ (pdtrRunM false W Q eps sched g hp).1.live :=
  have h := pdtrRunM_ends (W := W) (Q := Q) (ε := eps) (sched := sched) (g := g) hw
  ⟨h.out, fun a ha => h.keep a ha (by simp)⟩

/-- **C62 (part)**: if, besides, no thread is interrupted after it called `init`, then a run that returns leaves exactly
the objects that existed before. Missing: threads interrupted later, and exceptions (where the two elevators of
`PMF_R::run` remain). -/
theorem C62_clean_partial (W Q : HLSolver) (eps : ℚ) (sched : ℕ → CSet → CSet → Finish × Bool)
    (hs : ∀ j Tl Tr, (sched j Tl Tr).1 = .both ∨ (sched j Tl Tr).2 = false) (g : Digraph) (hp hp' : Heap)
    (hw : ∀ a ∈ hp.live, a < hp.next) (r : PSPOut) (hr : pdtrRunM false W Q eps sched g hp = (hp', .ok r)) :
    hp'.live = hp.live := by
  have h := pdtrRunM_ends (W := W) (Q := Q) (ε := eps) (sched := sched) (g := g) hw
  rw [hr] at h
  ext a
  have := h.clean hs r h.out.symm a
  simpa using this

/-- **C62 (part)**: both together for valid graphs and solvers that work from any starting point. -/
theorem C62_input_partial {W Q : HLSolver} (hW : W.LeastSink AnyStart) (hQ : Q.LeastSource AnyStart) {eps : ℚ}
    {n : ℕ} {E : List Arc} (hv : ValidInput n E) (hn : 2 ≤ n) (hf : PdtTolerance eps n E)
    {sched : ℕ → CSet → CSet → Finish × Bool}
    (hs : ∀ j Tl Tr, (sched j Tl Tr).1 = .both ∨ (sched j Tl Tr).2 = false) {g : Digraph}
    (hg : makeDgraph eps n E = .ok g) (hp : Heap) (hw : ∀ a ∈ hp.live, a < hp.next) :
    ∃ hp' r, pdtrRunM false W Q eps sched g hp = (hp', .ok r) ∧
      IsPrincipalSequence E (Finset.range n) r.psp r.cv ∧ hp'.live = hp.live := by
  obtain ⟨r, h1, h2⟩ := C52_warm_partial hW hQ hv hn hf sched
  rw [hg, Outcome.ok_bind] at h1
  rcases hr : pdtrRunM false W Q eps sched g hp with ⟨hp', o⟩
  have h3 := (C62_partial W Q eps sched g hp hw).1
  rw [hr, h1] at h3
  simp only at h3
  subst h3
  exact ⟨hp', r, rfl, h2, C62_clean_partial W Q eps sched hs g hp hp' hw r hr⟩

/-- **C62 is violated by every run, if solvers delete their elevators** (as LEMON's `Preflow` does): for every graph with
at least two nodes, `pdt_r` ends in undefined behaviour. `PMF_R::run` deletes the elevators of its two solvers, and
then the solvers end (pmf_r.cpp:168-173). -/
theorem C62_own_violated {W Q : HLSolver} (hW : W.LeastSink AnyStart) (hQ : Q.LeastSource AnyStart) {eps : ℚ}
    {n : ℕ} {E : List Arc} (hv : ValidInput n E) (hn : 2 ≤ n) (hf : PdtTolerance eps n E)
    (sched : ℕ → CSet → CSet → Finish × Bool) {g : Digraph} (hg : makeDgraph eps n E = .ok g) (hp : Heap) :
    ∃ s, (pdtrRunM true W Q eps sched g hp).2 = .ub s := by
  obtain ⟨r, h1, _⟩ := C52_warm_partial hW hQ hv hn hf sched
  rw [hg, Outcome.ok_bind] at h1
  rcases pdtrRunM_ub (own := true) (W := W) (Q := Q) (ε := eps) (sched := sched) (g := g) hp with h | h
  · exact h
  · refine absurd (Prod.ext (x := pdtrRunM true W Q eps sched g hp)
      (y := ((pdtrRunM true W Q eps sched g hp).1, .ok r)) rfl (h.trans h1)) (pdtrRunM_own ?_ hp _ r)
    rw [makeDgraph_valid hv] at hg
    cases hg
    simpa [Digraph.countNodes, inputGraph] using hn

/-- The graph of the examples. -/
def lifeGraph : Digraph := ⟨List.range 4, warmStar⟩

theorem warmStar_fine : PdtTolerance lemonEps 4 warmStar := by
  refine ⟨1 / 10, by norm_num, ?_, ⟨1, by norm_num⟩, by norm_num [lemonEps], ?_⟩
  · intro e he
    simp only [warmStar, List.mem_cons, List.not_mem_nil, or_false] at he
    rcases he with rfl | rfl | rfl
    · exact ⟨10, by norm_num⟩
    · exact ⟨20, by norm_num⟩
    · exact ⟨100, by norm_num⟩
  · norm_num [lemonEps, Nat.superFactorial, Nat.factorial]

theorem lifeRun :
    (pdtrRunM false (bruteSink fun _ _ => false) (bruteSource fun _ _ => false) lemonEps (fun _ _ _ => (.left, true))
      lifeGraph ⟨0, ∅⟩).2 =
        .ok ⟨[{{0, 1, 2, 3}}, {{0}, {1, 2, 3}}, {{0}, {1}, {2, 3}}, {{0}, {1}, {2}, {3}}], [1, 2, 10]⟩ ∧
    (pdtrRunM false (bruteSink fun _ _ => false) (bruteSource fun _ _ => false) lemonEps (fun _ _ _ => (.left, true))
      lifeGraph ⟨0, ∅⟩).1.live.card = 2 := by decide +kernel

/-- **C62 is violated otherwise**: if solvers do not delete their elevators, then one remains for every thread that is
interrupted after `init` in a call that contracts the graph. -/
theorem C62_leak_violated : ∃ (W Q : HLSolver) (sched : ℕ → CSet → CSet → Finish × Bool), W.LeastSink AnyStart ∧
    Q.LeastSource AnyStart ∧ ValidInput 4 warmStar ∧ PdtTolerance lemonEps 4 warmStar ∧
    makeDgraph lemonEps 4 warmStar = .ok lifeGraph ∧
    ∃ hp' r, pdtrRunM false W Q lemonEps sched lifeGraph ⟨0, ∅⟩ = (hp', .ok r) ∧ r.cv = [1, 2, 10] ∧
      hp'.live.card = 2 := by
  refine ⟨bruteSink fun _ _ => false, bruteSource fun _ _ => false, fun _ _ _ => (.left, true),
    bruteSink_leastSink fun _ _ _ => rfl, bruteSource_leastSource fun _ _ _ => rfl, by decide +kernel, warmStar_fine,
    by decide +kernel, _, _, Prod.ext rfl lifeRun.1, rfl, lifeRun.2⟩

/-- The hypotheses of the theorems above hold in this example: both threads deliver. -/
example : ∃ hp' r, pdtrRunM false (bruteSink fun _ _ => false) (bruteSource fun _ _ => false) lemonEps
    (fun _ _ _ => (.both, false)) lifeGraph ⟨0, ∅⟩ = (hp', .ok r) ∧
      IsPrincipalSequence warmStar (Finset.range 4) r.psp r.cv ∧ hp'.live = ∅ :=
  C62_input_partial (bruteSink_leastSink fun _ _ _ => rfl) (bruteSource_leastSource fun _ _ _ => rfl)
    (by decide +kernel) (by norm_num) warmStar_fine (fun _ _ _ => Or.inl rfl) (by decide +kernel) ⟨0, ∅⟩ (by simp)

/-- The same run with solvers that delete their elevators. -/
example : (pdtrRunM true (bruteSink fun _ _ => false) (bruteSource fun _ _ => false) lemonEps
    (fun _ _ _ => (.both, false)) lifeGraph ⟨0, ∅⟩).2 = .ub "object deleted twice" := by decide +kernel

end PSP.Props
