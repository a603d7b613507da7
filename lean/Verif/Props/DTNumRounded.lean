import Verif.Theory.DTNumRounded
import Verif.Props.DTApprox
import Verif.Props.PSPIOrder

/-!
# Properties: `DT::run(k)` in floating-point arithmetic (C74)

C13 states what `DT::run(k)` returns without rounding errors. With rounding, and weights that are not too large, it is
consistent with `DT::run()`. With larger weights, for which `DT::run()` still ends, it can run forever.
-/

namespace PSP.Props

open PSP.Spec PSP.Model PSP.Theory

/-- There is room between neighbours of a sorted list. -/
theorem exists_between_le {cv : List ℚ} (h : cv.Pairwise (· ≤ ·)) {i : ℕ} (hi : i ≤ cv.length) :
    ∃ lam, (∀ j c, cv[j]? = some c → j < i → c ≤ lam) ∧ (∀ j c, cv[j]? = some c → i ≤ j → lam ≤ c) := by
  rcases Nat.lt_or_ge i cv.length with hl | hl
  · have hp : cv[i]? = some (cv[i]'hl) := List.getElem?_eq_getElem _
    exact ⟨cv[i], fun j c hj hji => getElem?_mono h hj hp hji.le, fun j c hj hji => getElem?_mono h hp hj hji⟩
  · obtain ⟨lam, hlam⟩ := (cv.toFinset).exists_le
    refine ⟨lam, fun j c hj _ => hlam c (List.mem_toFinset.2 (List.mem_of_getElem? hj)), fun j c hj hij => ?_⟩
    rw [List.getElem?_eq_none (by omega)] at hj
    simp at hj

/-- In a sequence of ever finer partitions the number of blocks decides which one is finer. -/
theorem approx_refines {E : List Arc} {V : Finset ℕ} {C : ℚ} {Ps : List Partition} {cv : List ℚ} (hV : V.Nonempty)
    (h : IsApproximateSequence E V C Ps cv) {P Q : Partition} (hP : P ∈ Ps) (hQ : Q ∈ Ps) (hc : P.card ≤ Q.card) :
    Refines Q P := by
  have hpart : ∀ R ∈ Ps, IsPartition V R := by
    intro R hR
    obtain ⟨i, hi, rfl⟩ := List.mem_iff_getElem.1 hR
    have hlen := h.length
    obtain ⟨lam, h1, h2⟩ := exists_between_le h.nondecreasing (i := i) (by omega)
    exact (h.optimal i _ lam (List.getElem?_eq_getElem hi) h1 h2).1
  obtain ⟨i, hi, rfl⟩ := List.mem_iff_getElem.1 hP
  obtain ⟨j, hj, rfl⟩ := List.mem_iff_getElem.1 hQ
  rcases lt_trichotomy i j with hij | rfl | hij
  · exact (List.pairwise_iff_getElem.1 h.refine i j hi hj hij).1
  · exact Refines.refl _
  · have := List.pairwise_iff_getElem.1 h.refine j i hj hi hij
    have := this.1.card_lt (hpart _ hP) (hpart _ hQ) this.2
    omega

/-- **C74.** For all weights, `DT::run(k)` in floating-point arithmetic ends normally, at a depth of at most `n`, with a
partition that `DT::run()` returns for the same graph: the coarsest one with at least `k` blocks, other than the coarsest
partition of all; the finest partition if `k > n`. -/
theorem C74_dtnum_rounded {p n : ℕ} {fl : ℚ → ℚ} (hfl : FloatingPoint p fl) {S : FlowSolver} {E : List Arc}
    {W δ eps : ℚ} (hS : S.Approx δ (7 * W) n) {ord : Partition → List CSet} (hord : Enumerates ord)
    {ao : List Arc → List Arc} (hao : ∀ l, (ao l).Perm l) (hv : ValidInput n E) (hn : 2 ≤ n)
    (hf : DtRoundingFine p n E W δ eps) (k : ℤ) :
    ∃ r R, (makeDgraph eps n E >>= dtRunF fl ao ord S eps) = .ok r ∧
      (∀ d, n ≤ d → (makeDgraph eps n E >>= dtRunNumF fl ao ord S eps k d) = .ok R) ∧
      IsApproximateSequence E (Finset.range n) (2 * eps + E.length * eps) r.psp r.cv ∧
      R ∈ r.psp ∧ R ≠ {Finset.range n} ∧ (k ≤ n → k ≤ R.card) ∧ ((n : ℤ) < k → R = singletons (Finset.range n)) ∧
      ∀ T ∈ r.psp, k ≤ T.card → T ≠ {Finset.range n} → Refines T R := by
  have hV : (Finset.range n).Nonempty := ⟨0, by simp; omega⟩
  obtain ⟨r, R, h1, h2, h3, h4, h5, h6, h7⟩ := dtRunNumF_near (hf.setup hfl hS hord hao hv hn) k
  have hap := approx_input hf.pos.le hv.nonneg h3
  have hpart : ∀ T ∈ r.psp, IsPartition (Finset.range n) T := by
    intro T hT
    obtain ⟨i, hi, rfl⟩ := List.mem_iff_getElem.1 hT
    have hlen := hap.length
    obtain ⟨lam, h1, h2⟩ := exists_between_le hap.nondecreasing (i := i) (by omega)
    exact (hap.optimal i _ lam (List.getElem?_eq_getElem hi) h1 h2).1
  have hRn : R.card ≤ n := by simpa using (hpart R h4).card_le
  refine ⟨r, R, by rw [makeDgraph_valid hv, Outcome.ok_bind, h1],
    fun d hd => by rw [makeDgraph_valid hv, Outcome.ok_bind, h2 d hd], hap, h4, ?_, fun hk => ?_, fun hk => ?_,
    fun T hT hTk hTV => ?_⟩
  · rintro rfl
    simp at h5
  · rcases h6 with h | h
    · exact h
    · have : (n : ℤ) ≤ R.card := by exact_mod_cast h
      exact hk.trans this
  · have hc : R.card = n := by omega
    have hl : singletons (Finset.range n) ∈ r.psp := List.mem_of_getLast? hap.last
    exact (Refines.antisymm (hpart R h4) (hpart _ hl) (approx_refines hV hap hl h4 (by
      rw [card_singletons, Finset.card_range, hc])) (singletons_refines (hpart R h4)))
  · have hT1 : 1 < T.card := by
      by_contra hcon
      have := (hpart T hT).card_pos hV
      exact hTV ((hpart T hT).eq_single_of_card (by omega))
    exact approx_refines hV hap h4 hT (h7 T hT hT1 hTk)

/-- The principal sequence is contained in every weak one. -/
theorem principal_mem_weak {E : List Arc} {V : Finset ℕ} {Ps Ps' : List Partition} {cv cv' : List ℚ} (hE : NonnegE E)
    (h : IsPrincipalSequence E V Ps cv) (h' : IsWeakPrincipalSequence E V Ps' cv') {T : Partition} (hT : T ∈ Ps) :
    T ∈ Ps' := by
  obtain ⟨i, hi, rfl⟩ := List.mem_iff_getElem.1 hT
  have hlen := h.length
  obtain ⟨lam, h1, h2⟩ := exists_strictly_between h.increasing (i := i) (by omega)
  have hgi : Ps[i]? = some (Ps[i]'hi) := List.getElem?_eq_getElem _
  have hopt := h.optimal i _ lam hgi (fun j c hj hji => le_of_lt (h1 j c hj hji))
    (fun j c hj hji => le_of_lt (h2 j c hj hji))
  refine h'.mem_of_unique hE hopt ?_
  rintro ⟨A, B, hA, hB, hne⟩
  exact hne ((h.unique i _ lam hgi h1 h2 A hA).trans (h.unique i _ lam hgi h1 h2 B hB).symm)

/-- If the weights are multiples of `u`, and `u` is large compared with the tolerance, the result of `DT::run(k)` is an
optimal partition with at least `k` blocks, and every partition of the principal sequence with at least `k` blocks refines
it. If no optimal partition lies strictly between others, it belongs to the principal sequence. -/
theorem C74_dtnum_grid {p n : ℕ} {fl : ℚ → ℚ} (hfl : FloatingPoint p fl) {S : FlowSolver} {E : List Arc}
    {W δ eps : ℚ} (hS : S.Approx δ (7 * W) n) {ord : Partition → List CSet} (hord : Enumerates ord)
    {ao : List Arc → List Arc} (hao : ∀ l, (ao l).Perm l) (hv : ValidInput n E) (hn : 2 ≤ n)
    (hf : DtRoundingFine p n E W δ eps) {u : ℚ} (hu : 0 < u) (hE : ∀ e ∈ E, ∃ k : ℤ, e.cap = k * u)
    (hfu : n * (n - 1) * (2 * eps + E.length * eps) < u) (k : ℤ)
    {Ps : List Partition} {cv : List ℚ} (hP : IsPrincipalSequence E (Finset.range n) Ps cv) :
    ∃ R, (∀ d, n ≤ d → (makeDgraph eps n E >>= dtRunNumF fl ao ord S eps k d) = .ok R) ∧
      (∃ lam, IsOptimal E (Finset.range n) lam R) ∧ R ≠ {Finset.range n} ∧
      (k ≤ n → k ≤ R.card) ∧ ((n : ℤ) < k → R = singletons (Finset.range n)) ∧
      (∀ T ∈ Ps, k ≤ T.card → T ≠ {Finset.range n} → Refines T R) ∧
      (NoBetween E (Finset.range n) → R ∈ Ps) := by
  obtain ⟨r, R, h1, h2, h3, h4, h5, h6, h7, h8⟩ := C74_dtnum_rounded hfl hS hord hao hv hn hf k
  obtain ⟨cv', h9, -⟩ := approx_weak hu hE hv.nonneg (ValidInput.within hv) ⟨0, by simp; omega⟩
    (by rw [Finset.card_range]; exact hfu) h3
  refine ⟨R, h2, ?_, h5, h6, h7, fun T hT => h8 T (principal_mem_weak hv.nonneg hP h9 hT), fun hnb => ?_⟩
  · obtain ⟨i, hi, rfl⟩ := List.mem_iff_getElem.1 h4
    have hlen := h9.length
    obtain ⟨lam, a1, a2⟩ := exists_between_le h9.nondecreasing (i := i) (by omega)
    exact ⟨lam, h9.optimal i _ lam (List.getElem?_eq_getElem hi) a1 a2⟩
  · rw [((h9.of_noBetween hv.nonneg hnb).eq hv.nonneg hP).1] at h4
    exact h4

/-! ### the model with exact arithmetic is the model of C13 -/

theorem dilworthDTF_id (S : FlowSolver) (g : Digraph) (lam : ℚ) : dilworthDTF id S g lam = dilworthDT S g lam := by
  have hmin : ∀ xl, minimizeDTF id S g lam xl = minimizeDT S g lam xl := by
    intro xl
    unfold minimizeDTF minimizeDT dilworthNetF dilworthNet constDifferenceF constDifference
    simp only [terminalArcsF_id, flSum_id, id]
  have hloop : ∀ k xl P, runLoopDTF id S g lam k xl P = runLoopDT S g lam k xl P := by
    intro k
    induction k with
    | zero => intro xl P; rfl
    | succ k ih =>
      intro xl P
      unfold runLoopDTF runLoopDT
      rw [hmin]
      simp only [ih]
  unfold dilworthDTF dilworthDT
  simp only [hloop, flSum_id, zero_add]

/-- Without rounding the model is that of C13. -/
theorem C74_exact (S : FlowSolver) (ε : ℚ) {ord : Partition → List CSet} (hord : Enumerates ord) {ao : List Arc → List Arc}
    (hao : ∀ l, (ao l).Perm l) (g : Digraph) (num : ℤ) :
    dtRunNumF id ao ord S ε num g.countNodes g = dtRunNum S ε g num := by
  have hsplit : ∀ k Q P, dtSplitNumF id ao ord S ε g num k Q P = dtSplitNum S ε g num k Q P := by
    intro k
    induction k with
    | zero => intro Q P; rfl
    | succ k ih =>
      intro Q P
      have hγ : gammaF id ao ord g Q P = gammaApos g Q P := by
        unfold gammaF gammaApos; simp only [partitionValueF_id hord hao, id]
      have hh : hF id ao ord g Q P = hApos g Q P := by
        unfold hF hApos; simp only [partitionValueF_id hord hao, id]
      unfold dtSplitNumF dtSplitNum
      rw [hγ, hh, dilworthDTF_id]
      simp only [ih, id]
  unfold dtRunNumF dtRunNum
  simp only [hsplit]

/-! ### large weights -/

/-- A triangle. -/
def triangleArcs : List Arc := [⟨0, 1, 700000⟩, ⟨0, 2, 700000⟩, ⟨1, 2, 700000⟩]

/-- The graph that is built for it. -/
def triangleGraph : Digraph := ⟨[0, 1, 2], triangleArcs⟩

theorem triangle_graph : makeDgraph lemonEps 3 triangleArcs = .ok triangleGraph := by decide +kernel

/-- One step of the recursion: the truncation finds nothing better, but as the tolerance is lost when it is subtracted from
`-1050000`, the value it returns is not considered large enough. -/
theorem triangle_step : dilworthDTF roundDouble (roundedSolver 53) triangleGraph
      (gammaF roundDouble lemonOrder exOrd triangleGraph {{0, 1, 2}} {{0}, {1}, {2}}) =
        .ok (-1050000, {{0}, {1}, {2}}) ∧
    roundDouble (hF roundDouble lemonOrder exOrd triangleGraph {{0, 1, 2}} {{0}, {1}, {2}} - lemonEps) = -1050000 := by
  constructor <;> decide +kernel

/-- **C74** needs the bound on the weights: for the triangle with weights 700000 the calls of `DT::run(2)` in `double`
arithmetic go deeper than any bound, and `DT::run(4)` throws an exception, with a flow solver that reports minimal cuts and
rounds only the value. `DT::run()` ends with the principal sequence. -/
theorem C74_large_violated : ∃ n E, ValidInput n E ∧ (∀ e ∈ E, e.cap = 700000) ∧
    (∀ d, (makeDgraph lemonEps n E >>= dtRunNumF roundDouble lemonOrder exOrd (roundedSolver 53) lemonEps 2 d) = .fuel) ∧
    (∀ d, 2 ≤ d → ∃ msg, (makeDgraph lemonEps n E >>= dtRunNumF roundDouble lemonOrder exOrd (roundedSolver 53) lemonEps 4 d) =
      .exc msg) ∧
    (makeDgraph lemonEps n E >>= dtRunF roundDouble lemonOrder exOrd (roundedSolver 53) lemonEps) =
      .ok ⟨[{{0, 1, 2}}, {{0}, {1}, {2}}], [1050000]⟩ ∧
    IsPrincipalSequence E (Finset.range n) [{{0, 1, 2}}, {{0}, {1}, {2}}] [1050000] := by
  have hv : ValidInput 3 triangleArcs := by decide +kernel
  have hd : ({makeDense triangleGraph.countNodes} : Partition) = {{0, 1, 2}} := by decide +kernel
  have hm : makeFine triangleGraph.countNodes = {{0}, {1}, {2}} := by decide +kernel
  have hc : ¬ (({{0, 1, 2}} : Partition).card = ({{0}, {1}, {2}} : Partition).card) := by decide
  have step : ∀ k d, dtSplitNumF roundDouble lemonOrder exOrd (roundedSolver 53) lemonEps triangleGraph k (d + 1)
      {{0, 1, 2}} {{0}, {1}, {2}} = if (3 : ℤ) = k then .ok {{0}, {1}, {2}}
        else if (3 : ℤ) < k then dtSplitNumF roundDouble lemonOrder exOrd (roundedSolver 53) lemonEps triangleGraph k d
          {{0}, {1}, {2}} {{0}, {1}, {2}}
        else dtSplitNumF roundDouble lemonOrder exOrd (roundedSolver 53) lemonEps triangleGraph k d
          {{0, 1, 2}} {{0}, {1}, {2}} := by
    intro k d
    rw [dtSplitNumF, if_neg hc, triangle_step.1]
    simp only [Outcome.ok_bind, triangle_step.2, lt_irrefl, if_false, gt_iff_lt, Outcome.pure_eq]
    rfl
  refine ⟨3, triangleArcs, hv, by decide +kernel, fun d => ?_, fun d hd2 => ?_, by decide +kernel, ?_⟩
  · rw [triangle_graph, Outcome.ok_bind, dtRunNumF, hd, hm]
    induction d with
    | zero => rfl
    | succ d ih =>
      rw [step, if_neg (by norm_num), if_neg (by norm_num)]
      exact ih
  · obtain ⟨d, rfl⟩ : ∃ d', d = d' + 1 + 1 := ⟨d - 2, by omega⟩
    refine ⟨"Q and P have the same size", ?_⟩
    rw [triangle_graph, Outcome.ok_bind, dtRunNumF, hd, hm, step, if_neg (by norm_num), if_pos (by norm_num), dtSplitNumF,
      if_pos rfl]
  · obtain ⟨r, h, hp⟩ := C01_dt_exact bruteSolver_minimal hv (by norm_num)
      (integer_weights_fine (by norm_num) (E := triangleArcs) fun e he => by
        have : e.cap = 700000 := by revert e; decide +kernel
        exact ⟨700000, by rw [this]; norm_num⟩)
    have hr : (makeDgraph lemonEps 3 triangleArcs >>= dtRun bruteSolver lemonEps) =
        .ok ⟨[{{0, 1, 2}}, {{0}, {1}, {2}}], [1050000]⟩ := by decide +kernel
    rw [hr] at h
    injection h with h
    rw [← h] at hp
    exact hp

/-! ### examples -/

/-- Weights that are no `double` values, a solver that is wrong by up to `2 ^ -53`. -/
example := C74_dtnum_rounded roundDouble_spec (offSolver_approx (by positivity) _ _)
  exOrd_enumerates List.reverse_perm fractionArcs_valid (by norm_num) fractionArcs_dtRounding 3

theorem exArcs_dtRounding : DtRoundingFine 53 4 exArcs 12 (2 ^ 53)⁻¹ lemonEps where
  total := by norm_num [exArcs]
  one := by norm_num
  solver := by positivity
  pos := by norm_num [lemonEps]
  below := by norm_num [lemonEps]
  above := by norm_num [lemonEps]

example {Ps cv} := C74_dtnum_grid roundDouble_spec (offSolver_approx (by positivity) _ _)
  exOrd_enumerates List.reverse_perm exArcs_valid (by norm_num) exArcs_dtRounding (u := 1) (by norm_num)
  (by intro e he
      simp only [exArcs, List.mem_cons, List.not_mem_nil, or_false] at he
      rcases he with rfl | rfl | rfl | rfl
      · exact ⟨5, by norm_num⟩
      · exact ⟨1, by norm_num⟩
      · exact ⟨4, by norm_num⟩
      · exact ⟨2, by norm_num⟩)
  (by norm_num [exArcs, lemonEps]) 3 (Ps := Ps) (cv := cv)

example : [-3, 1, 2, 3, 4, 9].map (fun k => makeDgraph lemonEps 4 exArcs >>=
      dtRunNumF roundDouble lemonOrder exOrd (roundedSolver 53) lemonEps k 4) =
    [.ok {{0, 1}, {2, 3}}, .ok {{0, 1}, {2, 3}}, .ok {{0, 1}, {2, 3}}, .ok {{0, 1}, {2}, {3}},
     .ok {{0}, {1}, {2}, {3}}, .ok {{0}, {1}, {2}, {3}}] := by
  decide +kernel

end PSP.Props
