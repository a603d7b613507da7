import Verif.Theory.RoundedDT
import Verif.Theory.RoundNear
import Verif.Theory.ApproxSeq
import Verif.Props.PSPI

/-!
# Floating-point arithmetic in `dt` (C63)
-/

namespace PSP.Props

open PSP.Spec PSP.Model PSP.Theory

/-- Conditions under which rounding errors cannot change a decision: `n` nodes, integer weights of total at most `W`,
`p` binary digits, solver error `δ`, tolerance `eps`. -/
structure RoundingFine (p n : ℕ) (E : List Arc) (W δ eps : ℚ) : Prop where
  integer : ∀ e ∈ E, ∃ k : ℤ, e.cap = k
  total : (E.map (·.cap)).sum ≤ W
  one : 1 ≤ W
  solver : 0 ≤ δ
  below : 2 * n * δ + 60 * n ^ 2 * W / 2 ^ p < eps
  above : 2 * n * eps ≤ 1

theorem RoundingFine.small {S : FlowSolver} {fl : ℚ → ℚ} {p n : ℕ} {E : List Arc} {W δ eps : ℚ}
    (hf : RoundingFine p n E W δ eps) (hfl : FloatingPoint p fl) (hS : S.Approx δ (7 * W) n) (hn : 2 ≤ n)
    (hv : ValidInput n E) :
    Small S fl (inputGraph eps n E).arcs n (2 ^ p)⁻¹ (2 ^ p) δ W (δ + 20 * n * (2 ^ p)⁻¹ * W) ∧
    IntegerCaps (inputGraph eps n E).arcs ∧ n * W ≤ 2 ^ p ∧
    2 * n * δ + 60 * (n * n * (2 ^ p)⁻¹ * W) < eps ∧ FineTolerance eps n E := by
  have hnq : (2 : ℚ) ≤ n := by exact_mod_cast hn
  have hp : (0 : ℚ) < 2 ^ p := by positivity
  have hW := hf.one
  have hδ := hf.solver
  have hb : 2 * n * δ + 60 * (n * n * (2 ^ p)⁻¹ * W) < eps := by
    have := hf.below
    have e : 60 * (n * n * (2 ^ p)⁻¹ * W) = 60 * (n : ℚ) ^ 2 * W / 2 ^ p := by field_simp
    rw [e]; exact this
  have ha := hf.above
  have hi : IntegerCaps (inputGraph eps n E).arcs := fun e he => hf.integer e (List.mem_filter.1 he).1
  have hu : (0 : ℚ) < (2 ^ p)⁻¹ := by positivity
  have hnuW : 0 < n * (2 ^ p)⁻¹ * W := by positivity
  have hn2 : n * (2 ^ p)⁻¹ * W ≤ n * n * (2 ^ p)⁻¹ * W := by nlinarith
  have heps : eps ≤ 1 := by nlinarith
  have heps0 : 0 < eps := by nlinarith
  have hnδ : 0 ≤ n * δ := by positivity
  have hne : n * (δ + 20 * n * (2 ^ p)⁻¹ * W) ≤ 1 := by
    have e : n * (δ + 20 * n * (2 ^ p)⁻¹ * W) = n * δ + 20 * (n * n * (2 ^ p)⁻¹ * W) := by ring
    rw [e]; linarith
  have hnW : n * W ≤ 2 ^ p := by
    have h1 : n * (2 ^ p)⁻¹ * W ≤ 1 := by linarith
    have h2 : n * (2 ^ p)⁻¹ * W = n * W / 2 ^ p := by field_simp
    rw [h2, div_le_one hp] at h1
    exact h1
  refine ⟨⟨hfl |> FloatingPoint.rounds, hS, hδ, hW, ?_, by omega, rfl, hne⟩, hi, hnW, hb, ?_⟩
  · refine le_trans ?_ hf.total
    unfold totalCap inputGraph
    have hnn := hv.nonneg
    clear hi hf
    induction E with
    | nil => simp
    | cons a E ih =>
      have ih := ih ⟨fun e he => hv.lowHigh e (List.mem_cons_of_mem _ he), (List.pairwise_cons.1 hv.simple).2,
        fun e he => hv.nonneg e (List.mem_cons_of_mem _ he)⟩ fun e he => hnn e (List.mem_cons_of_mem _ he)
      have h0 := hnn a List.mem_cons_self
      simp only at ih ⊢
      by_cases h : eps < a.cap
      · simp [h]; exact ih
      · rw [List.filter_cons_of_neg (by simpa using h), List.map_cons, List.sum_cons]
        linarith
  · refine ⟨1, one_pos, fun e he => ?_, heps0, by nlinarith⟩
    obtain ⟨k, hk⟩ := hf.integer e he
    exact ⟨k, by rw [hk, mul_one]⟩

/-- With integer weights, `dt` in floating-point arithmetic returns a sequence of partitions that is exactly right, and its
critical values are the exact ones, each rounded once. (A critical value may be repeated, with additional optimal
partitions in between: `dropTies` removes them.) -/
theorem C63_dt_rounded {p n : ℕ} {fl : ℚ → ℚ} (hfl : FloatingPoint p fl) {S : FlowSolver} {E : List Arc}
    {W δ eps : ℚ} (hS : S.Approx δ (7 * W) n) {ord : Partition → List CSet} (hord : Enumerates ord)
    {ao : List Arc → List Arc} (hao : ∀ l, (ao l).Perm l) (hv : ValidInput n E) (hn : 2 ≤ n) (hf : RoundingFine p n E W δ eps) :
    ∃ ps cv, (makeDgraph eps n E >>= dtRunF fl ao ord S eps) = .ok ⟨ps, cv.map fl⟩ ∧
      IsWeakPrincipalSequence E (Finset.range n) ps cv ∧
      IsPrincipalSequence E (Finset.range n) (dropTies ps cv).1 (dropTies ps cv).2 ∧
      (∀ lam, lam ∈ cv ↔ IsCritical E (Finset.range n) lam) := by
  obtain ⟨H, hi, hM, hb, hft⟩ := hf.small hfl hS hn hv
  have hgood := inputGraph_good (ε := eps) hv
  have hV : (Finset.range n).Nonempty := ⟨0, by simp; omega⟩
  obtain ⟨s, c, hrun, hl⟩ := dtRunF_spec H hgood hn hi hM hb hf.above hord hao
  have hnq : (2 : ℚ) ≤ n := by exact_mod_cast hn
  have hle : 1 / (n : ℚ) * (((Finset.range n).card : ℚ) - 1) ≤ 1 := by
    rw [Finset.card_range, div_mul_eq_mul_div, div_le_one (by linarith)]
    linarith
  have hlinked := hl.linked hgood.good.nonneg one_pos hi.granular hV hle (by positivity)
  set t := s ++ [(c, W, singletons (Finset.range n))] with ht
  have h1 : (t.map fun x => (x.1, x.2.2)).map Prod.snd = t.map (·.2.2) := by simp
  have h2 : (t.map fun x => (x.1, x.2.2)).map Prod.fst = t.map (·.1) := by simp
  have hlast : lastOf {Finset.range n} (t.map fun x => (x.1, x.2.2)) = singletons (Finset.range n) := by
    rw [ht, List.map_append, lastOf_append]; rfl
  have hweak : IsWeakPrincipalSequence E (Finset.range n) ({Finset.range n} :: t.map (·.2.2)) (t.map (·.1)) := by
    apply weak_input hv hn hft
    have := hlinked.weak hgood.good.nonneg hgood.good.within hV hlast
    rwa [h1, h2] at this
  refine ⟨_, _, by rw [makeDgraph_valid hv, Outcome.ok_bind, hrun], hweak, ?_, fun lam => hweak.mem_iff hv.nonneg lam⟩
  exact hweak.dropTies hv.nonneg (ValidInput.within hv) hV

/-- If no optimal partition lies strictly between others, `dt` in floating-point arithmetic returns the principal sequence,
with each critical value rounded once. -/
theorem C63_dt_no_between {p n : ℕ} {fl : ℚ → ℚ} (hfl : FloatingPoint p fl) {S : FlowSolver} {E : List Arc}
    {W δ eps : ℚ} (hS : S.Approx δ (7 * W) n) {ord : Partition → List CSet} (hord : Enumerates ord)
    {ao : List Arc → List Arc} (hao : ∀ l, (ao l).Perm l) (hv : ValidInput n E) (hn : 2 ≤ n)
    (hf : RoundingFine p n E W δ eps) (hnb : NoBetween E (Finset.range n)) :
    ∃ ps cv, (makeDgraph eps n E >>= dtRunF fl ao ord S eps) = .ok ⟨ps, cv.map fl⟩ ∧
      IsPrincipalSequence E (Finset.range n) ps cv := by
  obtain ⟨ps, cv, h1, h2, _⟩ := C63_dt_rounded hfl hS hord hao hv hn hf
  exact ⟨ps, cv, h1, h2.of_noBetween hv.nonneg hnb⟩

/-- Neighbours in a weak principal sequence. -/
theorem linked_neighbour {E : List Arc} {V : Finset ℕ} {A : Partition} {t : List (ℚ × Partition)} (h : Linked E V A t) :
    ∀ c ∈ t.map Prod.fst, ∃ P Q, IsOptimal E V c P ∧ IsOptimal E V c Q ∧ Refines Q P ∧ Q ≠ P := by
  induction t generalizing A with
  | nil => simp
  | cons cb t ih =>
    obtain ⟨c, B⟩ := cb
    intro c' hc'
    rcases List.mem_cons.1 hc' with h' | h'
    · rw [h']; exact ⟨A, B, h.1, h.2.1, h.2.2.1.1, h.2.2.1.2⟩
    · exact ih h.2.2.2 c' h'

/-- Each reported critical value has a relative error of at most `2 ^ -p`, and values do not change their order. -/
theorem C63_values {p n : ℕ} {fl : ℚ → ℚ} (hfl : FloatingPoint p fl) {E : List Arc} {W δ eps : ℚ} (hv : ValidInput n E)
    (hn : 2 ≤ n) (hf : RoundingFine p n E W δ eps) {ps : List Partition} {cv : List ℚ}
    (hw : IsWeakPrincipalSequence E (Finset.range n) ps cv) :
    (cv.map fl).Pairwise (· ≤ ·) ∧ ∀ c ∈ cv, |fl c - c| ≤ c / 2 ^ p := by
  have h := FloatingPoint.rounds hfl
  refine ⟨hw.nondecreasing.map fl fun a b hab => h.mono hab, fun c hc => ?_⟩
  obtain ⟨t, -, rfl, hl, -⟩ := hw.linked
  obtain ⟨P, Q, hP, hQ, hr, hne⟩ := linked_neighbour hl c hc
  have hp : (0 : ℚ) < 2 ^ p := by positivity
  have hone : (1 : ℚ) ≤ 2 ^ p := one_le_pow₀ (by norm_num)
  have hnq : (2 : ℚ) ≤ n := by exact_mod_cast hn
  have hW := hf.one
  -- the size of the numbers
  have hnW : n * W ≤ 2 ^ p := by
    have h1 := hf.below
    have h2 := hf.above
    have h3 : 0 ≤ n * δ := mul_nonneg (by linarith) hf.solver
    have h4 : 60 * (n : ℚ) ^ 2 * W / 2 ^ p < 1 := by nlinarith
    rw [div_lt_one hp] at h4
    have h5 : 0 ≤ n * W := by positivity
    nlinarith
  have hcard := hr.card_lt hQ.1 hP.1 hne
  have hQn := hQ.1.card_le
  rw [Finset.card_range] at hQn
  have hd1 : (1 : ℚ) ≤ (Q.card : ℚ) - P.card := by
    have : (P.card : ℚ) + 1 ≤ Q.card := by exact_mod_cast hcard
    linarith
  have hdn : (Q.card : ℚ) - P.card ≤ n := by
    have h1 : (Q.card : ℚ) ≤ n := by exact_mod_cast hQn
    have h2 : (0 : ℚ) ≤ P.card := Nat.cast_nonneg _
    linarith
  have hbal : c * ((Q.card : ℚ) - P.card) = crossWeight E Q - crossWeight E P := by
    have h1 := hP.2 Q hQ.1
    have h2 := hQ.2 P hP.1
    unfold cost at h1 h2
    linarith
  have hmono := crossWeight_mono hv.nonneg hr
  have hle := (crossWeight_le_total hv.nonneg Q).2
  have h0 := (crossWeight_le_total hv.nonneg P).1
  have htot : totalCap E ≤ W := hf.total
  have hc0 : 0 ≤ c := by
    by_contra hlt
    push Not at hlt
    have : c * ((Q.card : ℚ) - P.card) < 0 := mul_neg_of_neg_of_pos hlt (by linarith)
    linarith
  have hcW : c ≤ W := by nlinarith
  rcases eq_or_lt_of_le hc0 with rfl | hpos
  · rw [h.zero]; simp
  · obtain ⟨k, hk⟩ := crossWeight_multiple (u := 1) (fun e he => by
      obtain ⟨k, hk⟩ := hf.integer e he
      exact ⟨k, by rw [hk, mul_one]⟩) Q
    obtain ⟨k', hk'⟩ := crossWeight_multiple (u := 1) (fun e he => by
      obtain ⟨k, hk⟩ := hf.integer e he
      exact ⟨k, by rw [hk, mul_one]⟩) P
    have hge : 1 ≤ c * ((Q.card : ℚ) - P.card) := by
      have hp0 : 0 < c * ((Q.card : ℚ) - P.card) := mul_pos hpos (by linarith)
      rw [hbal, hk, hk', mul_one, mul_one, ← Int.cast_sub] at hp0 ⊢
      have : 0 < k - k' := by exact_mod_cast hp0
      exact_mod_cast this
    have hcn : 1 ≤ c * n := hge.trans (mul_le_mul_of_nonneg_left hdn hc0)
    have hnp : (n : ℚ) ≤ 2 ^ p := by nlinarith
    have := h.rel (x := c) (by
      rw [abs_of_pos hpos, inv_le_iff_one_le_mul₀ hp, mul_comm]
      exact hcn.trans (by rw [mul_comm]; exact mul_le_mul_of_nonneg_right hnp hc0)) (by
      rw [abs_of_pos hpos, inv_mul_le_iff₀ hp]
      nlinarith)
    rwa [abs_of_pos hpos, inv_mul_eq_div] at this

/-! ### the model with exact arithmetic is the model of `DT` -/

theorem partitionValueF_id {ord : Partition → List CSet} (hord : Enumerates ord) {ao : List Arc → List Arc} (hao : ∀ l, (ao l).Perm l) (E : List Arc) (P : Partition) :
    partitionValueF id ao ord E P = getPartitionValue E P := by
  have h : cutValueF id ao E = getCutValue E := by
    funext X
    unfold cutValueF getCutValue
    rw [flSum_id, zero_add, sum_filter_map, ((hao E).map _).sum_eq]
    simp
  unfold partitionValueF
  rw [flSum_id, zero_add, h, ← List.sum_toFinset (getCutValue E) (hord P).1, (hord P).2]
  rfl

theorem terminalArcsF_id (c : ℕ → ℚ) (ns : List ℕ) (xl : List ℚ) : terminalArcsF id c ns xl = terminalArcs c ns xl := by
  induction ns generalizing xl with
  | nil => simp [terminalArcsF, terminalArcs]
  | cons i ns ih =>
    cases xl with
    | nil => simp [terminalArcsF, terminalArcs]
    | cons x xl => simp [terminalArcsF, terminalArcs, ih]

/-- Without rounding the model is that of `dt` (C01). -/
theorem C63_exact (S : FlowSolver) (ε : ℚ) {ord : Partition → List CSet} (hord : Enumerates ord) {ao : List Arc → List Arc} (hao : ∀ l, (ao l).Perm l) (g : Digraph) :
    dtRunF id ao ord S ε g = dtRun S ε g := by
  have hmin : ∀ lam xl, minimizeDTF id S g lam xl = minimizeDT S g lam xl := by
    intro lam xl
    unfold minimizeDTF minimizeDT dilworthNetF dilworthNet constDifferenceF constDifference
    simp only [terminalArcsF_id, flSum_id, id]
  have hloop : ∀ lam k xl P, runLoopDTF id S g lam k xl P = runLoopDT S g lam k xl P := by
    intro lam k
    induction k with
    | zero => intro xl P; rfl
    | succ k ih =>
      intro xl P
      unfold runLoopDTF runLoopDT
      rw [hmin]
      simp only [ih]
  have hdil : ∀ lam, dilworthDTF id S g lam = dilworthDT S g lam := by
    intro lam
    unfold dilworthDTF dilworthDT
    simp only [hloop, flSum_id, zero_add]
  have hsplit : ∀ k Q P, dtSplitF id ao ord S ε g k Q P = dtSplit S ε g k Q P >>= fun r => pure (r.cv, r.psp) := by
    intro k
    induction k with
    | zero => intro Q P; rfl
    | succ k ih =>
      intro Q P
      have hγ : gammaF id ao ord g Q P = gammaApos g Q P := by
        unfold gammaF gammaApos; simp only [partitionValueF_id hord hao, id]
      have hh : hF id ao ord g Q P = hApos g Q P := by
        unfold hF hApos; simp only [partitionValueF_id hord hao, id]
      unfold dtSplitF dtSplit
      rw [hγ, hh, hdil]
      split
      · rfl
      · rw [Outcome.bind_assoc]
        congr 1
        funext r
        simp only [id]
        split
        · rfl
        · simp only [ih, Outcome.bind_assoc, Outcome.pure_eq, Outcome.ok_bind]
  unfold dtRunF dtRun
  simp only [hsplit, Outcome.bind_assoc, Outcome.pure_eq, Outcome.ok_bind]

/-! ### examples -/

/-- A correct solver is one with error 0. -/
theorem correct_approx {S : FlowSolver} (hS : S.Correct) (C : ℚ) (n : ℕ) : S.Approx 0 C n where
  le_cut N h _ _ X hX := by rw [add_zero]; exact hS.le_cut N h X hX
  cut_le N h _ _ := by rw [add_zero, hS.value_eq N h]

/-- A solver whose values are too large by `δ`. -/
def offSolver (δ : ℚ) : FlowSolver := ⟨fun N => bruteSolver.flowValue N + δ, bruteSolver.minCut⟩

theorem offSolver_approx {δ : ℚ} (h : 0 ≤ δ) (C : ℚ) (n : ℕ) : (offSolver δ).Approx δ C n where
  le_cut N hN _ _ X hX := add_le_add_left (bruteSolver_minimal.toCorrect.le_cut N hN X hX) δ
  cut_le N hN _ _ := by
    have := bruteSolver_minimal.toCorrect.value_eq N hN
    show N.cutCap (bruteSolver.sinkSide N) ≤ bruteSolver.flowValue N + δ + δ
    rw [← this]; linarith

/-- The example of C01 with the 53 binary digits of `double` and the tolerance of LEMON. -/
theorem exArcs_rounding : RoundingFine 53 4 exArcs 12 (1 / 100000000000000) lemonEps where
  integer := by
    intro e he
    simp only [exArcs, List.mem_cons, List.not_mem_nil, or_false] at he
    rcases he with rfl | rfl | rfl | rfl
    · exact ⟨5, by norm_num⟩
    · exact ⟨1, by norm_num⟩
    · exact ⟨4, by norm_num⟩
    · exact ⟨2, by norm_num⟩
  total := by norm_num [exArcs]
  one := by norm_num
  solver := by norm_num
  below := by norm_num [lemonEps]
  above := by norm_num [lemonEps]

example := C63_dt_rounded roundDouble_spec
  (offSolver_approx (δ := 1 / 100000000000000) (by norm_num) _ _) exOrd_enumerates List.reverse_perm exArcs_valid (by norm_num)
  exArcs_rounding

/-- A run in which the critical value `22/3` is rounded. -/
def thirdArcs : List Arc := [⟨0, 1, 5⟩, ⟨1, 2, 6⟩, ⟨2, 3, 5⟩, ⟨0, 3, 6⟩]

example : (makeDgraph lemonEps 4 thirdArcs >>= dtRunF roundDouble List.reverse exOrd (offSolver (1 / 100000000000000)) lemonEps) =
    .ok ⟨[{{0, 1, 2, 3}}, {{0}, {1}, {2}, {3}}], [roundDouble (22 / 3)]⟩ := by
  decide +kernel
example : roundDouble (22 / 3) = 8256599316845909 / 2 ^ 50 ∧ roundDouble (22 / 3) ≠ 22 / 3 := by decide +kernel

/-! ### large weights -/

/-- A path with two edges whose weights are integers below `2 ^ 53`, hence exact as `double` values. -/
def largeArcs : List Arc := [⟨0, 1, 2 ^ 52 + 1⟩, ⟨1, 2, 2 ^ 52 + 2⟩]

/-- A correct solver whose value is rounded. -/
def roundedSolver (p : ℕ) : FlowSolver := ⟨fun N => roundNear p (bruteSolver.flowValue N), bruteSolver.minCut⟩

/-- The bound on the weights is needed: for integer weights that are exact as `double` values `dt` can lose partitions of
the principal sequence, although the solver makes a single rounding error and the exact run is right. -/
theorem C63_large_violated : ∃ n E, ValidInput n E ∧ (∀ e ∈ E, ∃ k : ℤ, e.cap = k ∧ |k| ≤ 2 ^ 53) ∧
    (makeDgraph lemonEps n E >>= dtRunF roundDouble List.reverse exOrd (roundedSolver 53) lemonEps) =
      .ok ⟨[{{0, 1, 2}}, {{0}, {1}, {2}}], [2 ^ 52 + 2]⟩ ∧
    IsPrincipalSequence E (Finset.range n) [{{0, 1, 2}}, {{0}, {1, 2}}, {{0}, {1}, {2}}] [2 ^ 52 + 1, 2 ^ 52 + 2] := by
  have hint : ∀ e ∈ largeArcs, ∃ k : ℤ, e.cap = k ∧ |k| ≤ 2 ^ 53 := by
    intro e he
    simp only [largeArcs, List.mem_cons, List.not_mem_nil, or_false] at he
    rcases he with rfl | rfl
    · exact ⟨2 ^ 52 + 1, by norm_num, by norm_num⟩
    · exact ⟨2 ^ 52 + 2, by norm_num, by norm_num⟩
  have hv : ValidInput 3 largeArcs := by decide +kernel
  refine ⟨3, largeArcs, hv, hint, by decide +kernel, ?_⟩
  obtain ⟨r, h, hp⟩ := C01_dt_exact bruteSolver_minimal hv (by norm_num)
    (integer_weights_fine (by norm_num) fun e he => ⟨_, (hint e he).choose_spec.1⟩)
  have hr : (makeDgraph lemonEps 3 largeArcs >>= dtRun bruteSolver lemonEps) =
      .ok ⟨[{{0, 1, 2}}, {{0}, {1, 2}}, {{0}, {1}, {2}}], [2 ^ 52 + 1, 2 ^ 52 + 2]⟩ := by decide +kernel
  rw [hr] at h
  injection h with h
  rw [← h] at hp
  exact hp

end PSP.Props
