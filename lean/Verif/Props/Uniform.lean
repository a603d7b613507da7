import Verif.Theory.Uniform
import Verif.Props.Cuts
import Verif.Props.SharedNear

/-!
# C99: graphs without clusters
-/

namespace PSP.Props

open PSP.Model PSP.Spec PSP.Theory

theorem cv_all {n : ℕ} {E : List Arc} (hv : ValidInput n E) (hn : 2 ≤ n) {Ps : List Partition} {cv : List ℚ}
    (h2 : IsWeakPrincipalSequence E (Finset.range n) Ps cv) (h : NoDenserPart E (Finset.range n)) :
    ∀ c ∈ cv, c = meanDensity E (Finset.range n) := by
  have hW := ValidInput.within hv
  have hV : 2 ≤ (Finset.range n).card := by rwa [Finset.card_range]
  intro c hc
  obtain ⟨i, hi, rfl⟩ := List.getElem_of_mem hc
  have hne : cv ≠ [] := List.ne_nil_of_mem hc
  have ha := List.head?_eq_some_head hne
  have hb := List.getLast?_eq_some_getLast hne
  obtain ⟨-, P, f2, f3, f4⟩ := weak_first h2 hW ha
  obtain ⟨-, S, l2, l3, l4⟩ := weak_last h2 hW (valid_no_loops hv) hb
  have hP : (2 : ℚ) ≤ P.card := by exact_mod_cast f3
  have hS : (2 : ℚ) ≤ S.card := by exact_mod_cast l3
  have h3 := cross_ge hW (valid_no_loops hv) hV h f2
  have h4 := h S l2 l3
  rw [l4, mul_div_cancel_right₀ _ (by linarith)] at h4
  rw [← f4] at h3
  have h5 := le_of_mul_le_mul_right h3 (by linarith)
  have h6 : cv.head hne ≤ cv[i] := by
    rw [List.head_eq_getElem]
    rcases Nat.eq_zero_or_pos i with rfl | hi'
    · exact le_rfl
    · exact List.pairwise_iff_getElem.1 h2.nondecreasing 0 i (by omega) hi hi'
  have h7 : cv[i] ≤ cv.getLast hne := by
    rw [List.getLast_eq_getElem]
    rcases Nat.lt_or_ge i (cv.length - 1) with hi' | hi'
    · exact List.pairwise_iff_getElem.1 h2.nondecreasing i _ hi (by omega) hi'
    · exact le_of_eq (by congr 1; omega)
  linarith

/-- **C99**. All critical values of a run are equal, namely to the mean density of the graph, if and only if no set of nodes
is denser than the graph. -/
theorem C99_equal {e : Env} (he : EnvGood e) (s : Schedule) {n : ℕ} {E : List Arc} (hv : ValidInput n E) (hn : 2 ≤ n)
    (hf : PdtTolerance e.eps n E) {m : String} (hm : m ∈ methods) :
    ∃ r, runOnce e s n E m = .ok r ∧
      ((∀ c ∈ r.cv, c = meanDensity E (Finset.range n)) ↔ NoDenserPart E (Finset.range n)) := by
  obtain ⟨r, a, b, h1, -, hb, -, hg⟩ := C57_ends he s hv hn hf hm
  obtain ⟨r', h1', h2⟩ := runOnce_weak he s hv hn hf hm
  rw [h1] at h1'
  cases h1'
  refine ⟨r, h1, fun h S hS hS2 => ?_, cv_all hv hn h2⟩
  rw [← h b (List.mem_of_getLast? hb)]
  exact hg.2 ⟨S, hS, hS2, rfl⟩

/-- A sequence with one critical value. -/
theorem two_of_one {n : ℕ} {E : List Arc} {r : PSPOut} (h2 : IsWeakPrincipalSequence E (Finset.range n) r.psp r.cv) {d : ℚ}
    (h : r.cv = [d]) : r = ⟨[{Finset.range n}, singletons (Finset.range n)], [d]⟩ := by
  have hlen := h2.length
  rw [h] at hlen
  obtain ⟨P, Q, hPQ⟩ := List.length_eq_two.1 hlen
  have h3 := h2.first
  have h4 := h2.last
  rw [hPQ] at h3 h4
  simp only [List.head?_cons, Option.some.injEq, List.getLast?_cons_cons, List.getLast?_singleton] at h3 h4
  obtain ⟨psp, cv⟩ := r
  simp only at h hPQ
  rw [h, hPQ, h3, h4]

theorem cv_ne_nil {n : ℕ} (hn : 2 ≤ n) {E : List Arc} {Ps : List Partition} {cv : List ℚ}
    (h2 : IsWeakPrincipalSequence E (Finset.range n) Ps cv) : cv ≠ [] := by
  intro h0
  have hlen := h2.length
  have hf1 := h2.first
  have hl := h2.last
  obtain ⟨P, hP⟩ : ∃ P, Ps = [P] := List.length_eq_one_iff.1 (by rw [hlen, h0]; rfl)
  rw [hP] at hf1 hl
  simp only [List.head?_cons, Option.some.injEq, List.getLast?_singleton] at hf1 hl
  have := congrArg Finset.card (hf1.symm.trans hl)
  rw [card_singletons, Finset.card_range, Finset.card_singleton] at this
  omega

/-- **C99**. The methods `dt`, `pdt`, `pdt_r` and `hpsp` return nothing but the two trivial partitions, with the mean density
as the critical value, if and only if no set of nodes is denser than the graph. -/
theorem C99_trivial {e : Env} (he : EnvGood e) (s : Schedule) {n : ℕ} {E : List Arc} (hv : ValidInput n E) (hn : 2 ≤ n)
    (hf : PdtTolerance e.eps n E) {m : String} (hm : m ∈ exactMethods) :
    runOnce e s n E m = .ok ⟨[{Finset.range n}, singletons (Finset.range n)], [meanDensity E (Finset.range n)]⟩ ↔
      NoDenserPart E (Finset.range n) := by
  have hm' : m ∈ methods := by
    simp only [exactMethods, methods, List.mem_cons, List.not_mem_nil, or_false] at hm ⊢
    tauto
  obtain ⟨r, h1, h2⟩ := runOnce_exact he s hv hn hf hm
  obtain ⟨r', h1', h3⟩ := C99_equal he s hv hn hf hm'
  rw [h1] at h1'
  cases h1'
  rw [h1, ← h3]
  constructor
  · intro h
    cases h
    simp
  · intro h
    congr 1
    refine two_of_one h2.weak ?_
    have hinc := h2.increasing
    have hne := cv_ne_nil hn h2.weak
    match hcv : r.cv with
    | [] => exact absurd hcv hne
    | [c] => rw [h c (by rw [hcv]; simp)]
    | c :: c' :: t =>
      rw [hcv] at hinc
      have := List.rel_of_pairwise_cons hinc (List.mem_cons_self (a := c') (l := t))
      rw [h c (by rw [hcv]; simp), h c' (by rw [hcv]; simp)] at this
      exact absurd this (lt_irrefl _)

/-- **C99**. If every proper set of nodes is less dense than the graph, this holds for all methods, whatever the flow solver
does with ties. -/
theorem C99_strict {e : Env} (he : EnvGood e) (s : Schedule) {n : ℕ} {E : List Arc} (hv : ValidInput n E) (hn : 2 ≤ n)
    (hf : PdtTolerance e.eps n E) {m : String} (hm : m ∈ methods) (h : PartsLessDense E (Finset.range n)) :
    runOnce e s n E m = .ok ⟨[{Finset.range n}, singletons (Finset.range n)], [meanDensity E (Finset.range n)]⟩ := by
  have hW := ValidInput.within hv
  have hV : 2 ≤ (Finset.range n).card := by rwa [Finset.card_range]
  have hnd := PartsLessDense.noDenser hW h
  obtain ⟨r, h1, h2⟩ := runOnce_weak he s hv hn hf hm
  have hall := cv_all hv hn h2 hnd
  rw [h1]
  congr 1
  refine two_of_one h2 ?_
  have hne := cv_ne_nil hn h2
  have htriv : ∀ P ∈ r.psp, P = {Finset.range n} ∨ P = singletons (Finset.range n) := by
    intro P hP
    by_contra hcon
    push Not at hcon
    obtain ⟨i, hi, rfl⟩ := List.getElem_of_mem hP
    have h3 := h2.optimal i _ (meanDensity E (Finset.range n)) (List.getElem?_eq_getElem hi)
      (fun j c hj _ => (hall c (List.mem_of_getElem? hj)).le) fun j c hj _ => (hall c (List.mem_of_getElem? hj)).ge
    have h4 := cross_gt hW (valid_no_loops hv) hV hnd h h3.1 hcon.1 hcon.2
    have h5 := h3.2 _ (isPartition_single (range_nonempty hn))
    unfold cost at h5
    rw [crossWeight_single hW, Finset.card_singleton] at h5
    push_cast at h5
    linarith
  have hnodup : r.psp.Nodup := (List.pairwise_map.1 (weak_counts h2 (range_nonempty hn)).1).imp
    fun {a b} hab he' => (he' ▸ hab).ne rfl
  have hle : r.psp.length ≤ 2 := by
    rw [← List.toFinset_card_of_nodup hnodup]
    refine (Finset.card_le_card (t := {{Finset.range n}, singletons (Finset.range n)}) fun P hP => ?_).trans
      Finset.card_le_two
    simpa using htriv P (List.mem_toFinset.1 hP)
  have hlen := h2.length
  match hcv : r.cv with
  | [] => exact absurd hcv hne
  | [c] => rw [hall c (by rw [hcv]; simp)]
  | c :: c' :: t =>
    rw [hcv] at hlen
    simp only [List.length_cons] at hlen
    omega

/-- **C99**. In the complete graph with equal weights `w > 0` every method finds no clusters; the critical value is
`n w / 2`. -/
theorem C99_complete {e : Env} (he : EnvGood e) (s : Schedule) {n : ℕ} (hn : 2 ≤ n) {w : ℚ} (hw : 0 < w)
    (hf : PdtTolerance e.eps n (completeArcs n w)) {m : String} (hm : m ∈ methods) :
    runOnce e s n (completeArcs n w) m = .ok ⟨[{Finset.range n}, singletons (Finset.range n)], [n * w / 2]⟩ := by
  rw [C99_strict he s (complete_valid hw.le n) hn hf hm (complete_lessDense hw hn), complete_density w hn]

/-- **C99**. Any run of C83 with the error `C` on a graph without denser part: below the mean density minus `C` all nodes are
together, above the mean density plus `C` all are apart. -/
theorem C99_near {n : ℕ} {E : List Arc} (hv : ValidInput n E) (hn : 2 ≤ n) {C : ℚ} {Ps : List Partition} {cv : List ℚ}
    (h : RunResult n E C Ps cv) (hd : NoDenserPart E (Finset.range n)) (γ : ℚ) {u v : ℕ} (hu : u < n) (hv' : v < n) :
    (γ + C < meanDensity E (Finset.range n) → Same (clustersAt Ps cv γ) u v) ∧
    (meanDensity E (Finset.range n) < γ - C → Same (clustersAt Ps cv γ) u v → u = v) := by
  have hW := ValidInput.within hv
  have hV : 2 ≤ (Finset.range n).card := by rwa [Finset.card_range]
  constructor
  · intro hγ
    refine (C97_graph hv hn h γ).1 ⟨Finset.range n, Finset.Subset.refl _, Finset.mem_range.2 hu, Finset.mem_range.2 hv', ?_⟩
    intro Q hQ h2
    have h3 := cross_ge hW (valid_no_loops hv) hV hd hQ
    have hq : (2 : ℚ) ≤ Q.card := by exact_mod_cast h2
    rw [brokenWeight_eq, induced_self hW]
    exact lt_of_lt_of_le (mul_lt_mul_of_pos_right hγ (by linarith)) h3
  · intro hγ hs
    by_contra huv
    obtain ⟨S, hS, h1, h2, h3⟩ := (C97_graph hv hn h γ).2 hs _ hγ
    have hS2 : 2 ≤ S.card := Finset.one_lt_card.2 ⟨u, h1, v, h2, huv⟩
    have h4 := h3 (singletons S) (isPartition_singletons S) (by rwa [card_singletons])
    rw [card_singletons, brokenWeight_eq, ← insideWeight_eq (valid_no_loops hv)] at h4
    exact absurd (inside_le (valid_no_loops hv) hd hS ⟨u, h1⟩) (not_le.2 h4)

/-! ### Examples -/

theorem complete_tolerance : PdtTolerance exEnv.eps 5 (completeArcs 5 3) :=
  integer_weights_pdt (by norm_num) fun e he => ⟨3, by rw [(complete_mem he).2.2]; norm_num⟩

example : runOnce exEnv exSched 5 (completeArcs 5 3) "psp_i" = .ok ⟨[{{0, 1, 2, 3, 4}}, {{0}, {1}, {2}, {3}, {4}}], [15 / 2]⟩ := by
  rw [C99_complete exEnv_good exSched (by norm_num) (by norm_num) complete_tolerance (by simp [methods])]
  decide +kernel

/-- A cycle with equal weights. -/
example : PartsLessDense squareArcs (Finset.range 4) := by
  have h : ∀ S ∈ (Finset.range 4).powerset, S ≠ Finset.range 4 → 2 ≤ S.card →
      insideWeight squareArcs S / ((S.card : ℚ) - 1) < meanDensity squareArcs (Finset.range 4) := by decide +kernel
  exact fun S hS h2 => h S (Finset.mem_powerset.2 hS.1) hS.ne h2

/-- A path with equal weights has no denser part, but its parts are as dense as the whole. -/
example : NoDenserPart [⟨0, 1, 3⟩, ⟨1, 2, 3⟩] (Finset.range 3) ∧ ¬ PartsLessDense [⟨0, 1, 3⟩, ⟨1, 2, 3⟩] (Finset.range 3) := by
  have h : ∀ S ∈ (Finset.range 3).powerset, 2 ≤ S.card →
      insideWeight [⟨0, 1, 3⟩, ⟨1, 2, 3⟩] S / ((S.card : ℚ) - 1) ≤ meanDensity [⟨0, 1, 3⟩, ⟨1, 2, 3⟩] (Finset.range 3) := by
    decide +kernel
  refine ⟨fun S hS h2 => h S (Finset.mem_powerset.2 hS) h2, fun hp => ?_⟩
  exact absurd (hp {0, 1} (by decide) (by decide)) (by decide +kernel)

/-- The graph of the other examples has a denser part. -/
example : ¬ NoDenserPart exArcs (Finset.range 4) := fun h => absurd (h {0, 1} (by decide) (by decide)) (by decide +kernel)

/-- `dt` with the tolerance of LEMON and any flow solver that reports minimum cuts, on a cycle with equal weights. -/
example {S : FlowSolver} (hS : S.Correct) {r : PSPOut} (h : (makeDgraph lemonEps 4 squareArcs >>= dtRun S lemonEps) = .ok r) :
    ∀ u < 4, ∀ v < 4, Same (clustersAt r.psp r.cv (39 / 10)) u v ∧ (Same (clustersAt r.psp r.cv (41 / 10)) u v → u = v) := by
  intro u hu v hv
  have hd : ∀ S ∈ (Finset.range 4).powerset, 2 ≤ S.card →
      insideWeight squareArcs S / ((S.card : ℚ) - 1) ≤ meanDensity squareArcs (Finset.range 4) := by decide +kernel
  have hd' : NoDenserPart squareArcs (Finset.range 4) := fun S hS h2 => hd S (Finset.mem_powerset.2 hS) h2
  have hr : RunResult 4 squareArcs _ r.psp r.cv := .dt hS (by decide +kernel) h
  exact ⟨(C99_near (by decide +kernel) (by norm_num) hr hd' _ hu hv).1 (by decide +kernel),
    (C99_near (by decide +kernel) (by norm_num) hr hd' _ hu hv).2 (by decide +kernel)⟩

end PSP.Props
