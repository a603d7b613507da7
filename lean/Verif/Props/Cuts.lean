import Verif.Theory.Cuts
import Verif.Props.Spectrum

/-!
# C95: critical values, cuts and degrees
-/

namespace PSP.Props

open PSP.Model PSP.Spec PSP.Theory

/-- **C95**. With `x` the lightest cut of the graph with `n` nodes, the first critical value `a` of every method satisfies
`n x / (2 (n - 1)) ≤ a ≤ x`, so it is more than half the lightest cut and at most the lightest cut. With `y` the largest
degree, the last critical value is at least every weight and at most `y`. -/
theorem C95_bounds {e : Env} (he : EnvGood e) (s : Schedule) {n : ℕ} {E : List Arc} (hv : ValidInput n E) (hn : 2 ≤ n)
    (hf : PdtTolerance e.eps n E) {m : String} (hm : m ∈ methods) {x y : ℚ} (hx : IsMinCut E (Finset.range n) x)
    (hy : IsMaxDegree E (Finset.range n) y) :
    ∃ r a b, runOnce e s n E m = .ok r ∧ r.cv.head? = some a ∧ r.cv.getLast? = some b ∧
      x * n ≤ 2 * ((n : ℚ) - 1) * a ∧ a ≤ x ∧ (∀ d ∈ E, d.cap ≤ b) ∧ b ≤ y := by
  obtain ⟨r, a, b, h1, ha, hb, -, -⟩ := C57_ends he s hv hn hf hm
  obtain ⟨r', h1', h2⟩ := runOnce_weak he s hv hn hf hm
  rw [h1] at h1'
  cases h1'
  have hW := ValidInput.within hv
  refine ⟨r, a, b, h1, ha, hb, ?_, ?_, fun d hd => weak_edge_le_last h2 hv.nonneg hW (valid_no_loops hv) hb hd, ?_⟩
  · have := weak_cut_le_first h2 hv.nonneg hW ha fun S hS hne => hx.2 ⟨S, hS, hne, rfl⟩
    rwa [Finset.card_range] at this
  · obtain ⟨S, hS, hne, rfl⟩ := hx.1
    exact weak_first_le_cut h2 hW ha hS hne
  · exact weak_last_le_degree h2 hv.nonneg hW (valid_no_loops hv) hb fun v hv' => hy.2 ⟨v, hv', rfl⟩

/-- **C95**. At every threshold, a node whose degree is not above it is alone. -/
theorem C95_alone {e : Env} (he : EnvGood e) (s : Schedule) {n : ℕ} {E : List Arc} (hv : ValidInput n E) (hn : 2 ≤ n)
    (hf : PdtTolerance e.eps n E) {m : String} (hm : m ∈ methods) :
    ∃ r, runOnce e s n E m = .ok r ∧ ∀ (γ : ℚ) (u : ℕ), u < n → boundaryWeight E {u} ≤ γ →
      ∃ P, r.psp[r.cv.countP fun c => decide (c ≤ γ)]? = some P ∧ {u} ∈ P := by
  obtain ⟨r, h1, h2⟩ := C58_clusters he s hv hn hf hm
  obtain ⟨r', h1', h3⟩ := runOnce_weak he s hv hn hf hm
  rw [h1] at h1'
  cases h1'
  refine ⟨r, h1, fun γ u hu hd => ?_⟩
  obtain ⟨P, hP, hsame⟩ := h2 γ
  refine ⟨P, hP, ?_⟩
  have hpart : IsPartition (Finset.range n) P := (weak_counts h3 (range_nonempty hn)).2.2 P (List.mem_of_getElem? hP)
  obtain ⟨B, hB, huB⟩ := hpart.exists_block (Finset.mem_range.2 hu)
  have : B = {u} := by
    refine Finset.eq_singleton_iff_unique_mem.2 ⟨huB, fun v hvB => ?_⟩
    by_contra huv
    obtain ⟨S, -, h4, h5, h6⟩ := (hsame u v).1 ⟨B, hB, huB, hvB⟩
    exact absurd (degree_of_holds hv.nonneg h6 h4 h5 huv) (not_lt.2 hd)
  exact this ▸ hB

/-- **C95**. At a threshold from the lightest cut `x` on, the nodes are not all together; below `n x / (2 (n - 1))`, in
particular up to half the lightest cut, they are, if `x` is positive. -/
theorem C95_whole {e : Env} (he : EnvGood e) (s : Schedule) {n : ℕ} {E : List Arc} (hv : ValidInput n E) (hn : 2 ≤ n)
    (hf : PdtTolerance e.eps n E) {m : String} (hm : m ∈ methods) {x : ℚ} (hx : IsMinCut E (Finset.range n) x) :
    ∃ r, runOnce e s n E m = .ok r ∧ ∀ γ : ℚ, ∃ P, r.psp[r.cv.countP fun c => decide (c ≤ γ)]? = some P ∧
      (2 * ((n : ℚ) - 1) * γ < x * n → P = {Finset.range n}) ∧ (x ≤ γ → P ≠ {Finset.range n}) := by
  obtain ⟨r, a, b, h1, ha, -⟩ := C57_ends he s hv hn hf hm
  obtain ⟨r', h1', h2⟩ := runOnce_weak he s hv hn hf hm
  rw [h1] at h1'
  cases h1'
  have hW := ValidInput.within hv
  have hle := weak_cut_le_first h2 hv.nonneg hW ha fun S hS hne => hx.2 ⟨S, hS, hne, rfl⟩
  rw [Finset.card_range] at hle
  have hge : a ≤ x := by
    obtain ⟨S, hS, hne, rfl⟩ := hx.1
    exact weak_first_le_cut h2 hW ha hS hne
  have hn' : (2 : ℚ) ≤ n := by exact_mod_cast hn
  have h0 : r.psp[0]? = some {Finset.range n} := by rw [← List.head?_eq_getElem?, h2.first]
  have ha0 : r.cv[0]? = some a := by rw [← List.head?_eq_getElem?, ha]
  refine ⟨r, h1, fun γ => ?_⟩
  have hlt : (r.cv.countP fun c => decide (c ≤ γ)) < r.psp.length := by
    have := h2.length
    have := List.countP_le_length (p := fun c => decide (c ≤ γ)) (l := r.cv)
    omega
  refine ⟨_, List.getElem?_eq_getElem hlt, fun hγ => ?_, fun hγ => ?_⟩
  · have hγa : γ < a := by
      by_contra hcon
      nlinarith
    have hz : (r.cv.countP fun c => decide (c ≤ γ)) = 0 := by
      by_contra hpos
      have := (countP_sorted h2.nondecreasing 0 a ha0).1 (Nat.pos_of_ne_zero hpos)
      linarith
    rw [← Option.some_inj, ← List.getElem?_eq_getElem, hz, h0]
  · have hpos : 0 < r.cv.countP fun c => decide (c ≤ γ) :=
      (countP_sorted h2.nondecreasing 0 a ha0).2 (hge.trans hγ)
    have hsort := (weak_counts h2 (range_nonempty hn)).1
    intro he'
    have h4 := List.pairwise_iff_getElem.1 hsort 0 _ (by rw [List.length_map]; omega)
      (by rw [List.length_map]; exact hlt) hpos
    rw [List.getElem_map, List.getElem_map, he'] at h4
    have h5 : r.psp[0]'(by omega) = {Finset.range n} := by
      rw [← Option.some_inj, ← List.getElem?_eq_getElem, h0]
    rw [h5] at h4
    exact lt_irrefl _ h4

/-! ### Examples -/

theorem exArcs_minCut : IsMinCut exArcs (Finset.range 4) 3 := by
  have h : ∀ S ∈ (Finset.range 4).powerset, S ≠ Finset.range 4 → S.Nonempty → 3 ≤ boundaryWeight exArcs S := by
    decide +kernel
  refine ⟨⟨{0, 1}, by decide, by decide, by decide +kernel⟩, ?_⟩
  rintro y ⟨S, hS, hne, rfl⟩
  exact h S (Finset.mem_powerset.2 hS.1) hS.ne hne

theorem exArcs_maxDegree : IsMaxDegree exArcs (Finset.range 4) 7 := by
  have h : ∀ v ∈ Finset.range 4, boundaryWeight exArcs {v} ≤ 7 := by decide +kernel
  refine ⟨⟨0, by decide, by decide +kernel⟩, ?_⟩
  rintro y ⟨v, hv, rfl⟩
  exact h v hv

example := C95_bounds exEnv_good exSched exArcs_valid (by norm_num) exEnv_tolerance (m := "psp_i") (by simp [methods])
  exArcs_minCut exArcs_maxDegree

/-- Node 2 has the degree 5, and at the threshold 5 it is alone. -/
example : ∃ r, runOnce exEnv exSched 4 exArcs "dt" = .ok r ∧
    ∃ P, r.psp[r.cv.countP fun c => decide (c ≤ 5)]? = some P ∧ {2} ∈ P := by
  obtain ⟨r, h1, h2⟩ := C95_alone exEnv_good exSched exArcs_valid (by norm_num) exEnv_tolerance (m := "dt")
    (by simp [methods])
  exact ⟨r, h1, h2 5 2 (by norm_num) (by decide +kernel)⟩

/-- The bounds of `C95_whole` for this graph are 2 and 3. -/
example : ∃ r, runOnce exEnv exSched 4 exArcs "hpsp" = .ok r ∧
    ∃ P, r.psp[r.cv.countP fun c => decide (c ≤ 3 / 2)]? = some P ∧ P = {Finset.range 4} := by
  obtain ⟨r, h1, h2⟩ := C95_whole exEnv_good exSched exArcs_valid (by norm_num) exEnv_tolerance (m := "hpsp")
    (by simp [methods]) exArcs_minCut
  obtain ⟨P, h3, h4, -⟩ := h2 (3 / 2)
  exact ⟨r, h1, P, h3, h4 (by norm_num)⟩

/-- A cycle with equal weights. -/
def squareArcs : List Arc := [⟨0, 1, 3⟩, ⟨1, 2, 3⟩, ⟨2, 3, 3⟩, ⟨0, 3, 3⟩]

/-- The lower bound for the first critical value is sharp: for a cycle it is reached. Also the last critical value can be
the largest degree (a single edge), so no bound can be improved. -/
theorem C95_sharp : (ValidInput 4 squareArcs ∧ IsMinCut squareArcs (Finset.range 4) 6 ∧
      (∃ P Q, runOnce exEnv exSched 4 squareArcs "dt" = .ok ⟨[P, Q], [4]⟩) ∧ (6 * (4 : ℕ) : ℚ) = 2 * ((4 : ℕ) - 1) * 4) ∧
    ValidInput 2 [⟨0, 1, 3⟩] ∧ IsMaxDegree [⟨0, 1, 3⟩] (Finset.range 2) 3 ∧ IsMinCut [⟨0, 1, 3⟩] (Finset.range 2) 3 ∧
      ∃ P Q, runOnce exEnv exSched 2 [⟨0, 1, 3⟩] "dt" = .ok ⟨[P, Q], [3]⟩ := by
  have h1 : ∀ S ∈ (Finset.range 4).powerset, S ≠ Finset.range 4 → S.Nonempty → 6 ≤ boundaryWeight squareArcs S := by
    decide +kernel
  have h2 : ∀ S ∈ (Finset.range 2).powerset, S ≠ Finset.range 2 → S.Nonempty →
      3 ≤ boundaryWeight [⟨0, 1, 3⟩] S := by decide +kernel
  have h3 : ∀ v ∈ Finset.range 2, boundaryWeight [⟨0, 1, 3⟩] {v} ≤ 3 := by decide +kernel
  refine ⟨⟨by decide +kernel, ⟨⟨{0}, by decide, by decide, by decide +kernel⟩, ?_⟩,
    ⟨{{0, 1, 2, 3}}, {{0}, {1}, {2}, {3}}, by decide +kernel⟩, by norm_num⟩, by decide +kernel,
    ⟨⟨0, by decide, by decide +kernel⟩, ?_⟩, ⟨⟨{0}, by decide, by decide, by decide +kernel⟩, ?_⟩,
    ⟨{{0, 1}}, {{0}, {1}}, by decide +kernel⟩⟩
  · rintro y ⟨S, hS, hne, rfl⟩
    exact h1 S (Finset.mem_powerset.2 hS.1) hS.ne hne
  · rintro y ⟨v, hv, rfl⟩
    exact h3 v hv
  · rintro y ⟨S, hS, hne, rfl⟩
    exact h2 S (Finset.mem_powerset.2 hS.1) hS.ne hne

end PSP.Props
