import Verif.Theory.Spectrum
import Verif.Props.PSP

/-!
# What the result says about the graph (C56 – C58)
-/

namespace PSP.Props

open PSP.Model PSP.Spec PSP.Theory

theorem valid_no_loops {n : ℕ} {E : List Arc} (hv : ValidInput n E) : ∀ e ∈ E, e.src ≠ e.dst :=
  fun e he => (hv.lowHigh e he).1.ne

theorem range_nonempty {n : ℕ} (hn : 2 ≤ n) : (Finset.range n).Nonempty := ⟨0, by simp; omega⟩

/-- Every method returns partitions with ever more blocks, at most `n` of them, so at most `n - 1` critical
values; and the critical values, each taken as often as there are additional blocks, add up to the total
weight of the graph. -/
theorem C56_counts {e : Env} (he : EnvGood e) (s : Schedule) {n : ℕ} {E : List Arc} (hv : ValidInput n E)
    (hn : 2 ≤ n) (hf : PdtTolerance e.eps n E) {m : String} (hm : m ∈ methods) :
    ∃ r, runOnce e s n E m = .ok r ∧ (∀ P ∈ r.psp, IsPartition (Finset.range n) P) ∧
      (r.psp.map Finset.card).Pairwise (· < ·) ∧ r.psp.length ≤ n ∧ r.cv.length + 1 ≤ n ∧
      stepSum r.psp r.cv = totalWeight E := by
  obtain ⟨r, h1, h2⟩ := runOnce_weak he s hv hn hf hm
  obtain ⟨h3, h4, h5⟩ := weak_counts h2 (range_nonempty hn)
  rw [Finset.card_range] at h4
  exact ⟨r, h1, h5, h3, h4, h2.length ▸ h4,
    weak_total h2 (ValidInput.within hv) (valid_no_loops hv)⟩

example : ∃ r, runOnce exEnv exSched 4 exArcs "hpsp" = .ok r ∧ stepSum r.psp r.cv = 12 := by
  obtain ⟨r, h1, _, _, _, _, h2⟩ := C56_counts exEnv_good exSched exArcs_valid (by norm_num) exEnv_tolerance
    (m := "hpsp") (by simp [methods])
  exact ⟨r, h1, by rw [h2]; decide +kernel⟩

/-- The first critical value is the strength of the graph: breaking it into `k` pieces cuts edges of total
weight at least that value times `k - 1`, and some way of breaking it cuts no more. The last critical value
is the density of the densest set: the edges inside a set of `k` nodes have total weight at most that value
times `k - 1`, and some set of at least two nodes reaches it. -/
theorem C57_ends {e : Env} (he : EnvGood e) (s : Schedule) {n : ℕ} {E : List Arc} (hv : ValidInput n E)
    (hn : 2 ≤ n) (hf : PdtTolerance e.eps n E) {m : String} (hm : m ∈ methods) :
    ∃ r a b, runOnce e s n E m = .ok r ∧ r.cv.head? = some a ∧ r.cv.getLast? = some b ∧
      IsLeast {x | ∃ P, IsPartition (Finset.range n) P ∧ 2 ≤ P.card ∧
        x = crossWeight E P / ((P.card : ℚ) - 1)} a ∧
      IsGreatest {x | ∃ S ⊆ Finset.range n, 2 ≤ S.card ∧ x = insideWeight E S / ((S.card : ℚ) - 1)} b := by
  obtain ⟨r, h1, h2⟩ := runOnce_weak he s hv hn hf hm
  have hne : r.cv ≠ [] := by
    intro h0
    have hlen := h2.length
    have hf1 := h2.first
    have hl := h2.last
    obtain ⟨P, hP⟩ : ∃ P, r.psp = [P] := List.length_eq_one_iff.1 (by rw [hlen, h0]; rfl)
    rw [hP] at hf1 hl
    simp only [List.head?_cons, Option.some.injEq, List.getLast?_singleton] at hf1 hl
    have := congrArg Finset.card (hf1.symm.trans hl)
    rw [card_singletons, Finset.card_range, Finset.card_singleton] at this
    omega
  obtain ⟨a, ha⟩ : ∃ a, r.cv.head? = some a := ⟨_, List.head?_eq_some_head hne⟩
  obtain ⟨b, hb⟩ : ∃ b, r.cv.getLast? = some b := ⟨_, List.getLast?_eq_some_getLast hne⟩
  have hpos : ∀ k : ℕ, 2 ≤ k → (0 : ℚ) < (k : ℚ) - 1 := by
    intro k hk
    have : (2 : ℚ) ≤ k := by exact_mod_cast hk
    linarith
  obtain ⟨f1, P, f2, f3, f4⟩ := weak_first h2 (ValidInput.within hv) ha
  obtain ⟨l1, S, l2, l3, l4⟩ := weak_last h2 (ValidInput.within hv) (valid_no_loops hv) hb
  refine ⟨r, a, b, h1, ha, hb, ⟨⟨P, f2, f3, ?_⟩, ?_⟩, ⟨⟨S, l2, l3, ?_⟩, ?_⟩⟩
  · rw [← f4, mul_div_cancel_right₀ _ (hpos _ f3).ne']
  · rintro x ⟨Q, q1, q2, rfl⟩
    rw [le_div_iff₀ (hpos _ q2)]
    exact f1 Q q1
  · rw [l4, mul_div_cancel_right₀ _ (hpos _ l3).ne']
  · rintro x ⟨T, t1, t2, rfl⟩
    rw [div_le_iff₀ (hpos _ t2)]
    exact l1 T t1 (Finset.card_pos.1 (by omega))

example : ∃ r, runOnce exEnv exSched 4 exArcs "pdt" = .ok r ∧ r.cv.head? = some 3 ∧ r.cv.getLast? = some 5 :=
  ⟨⟨[{{0, 1, 2, 3}}, {{0, 1}, {2, 3}}, {{0, 1}, {2}, {3}}, {{0}, {1}, {2}, {3}}], [3, 4, 5]⟩,
    by decide +kernel, rfl, rfl⟩

/-- The clusters at every threshold `γ`: in the partition whose number is the number of critical values up to
`γ`, two nodes are together exactly if some set of nodes containing both cannot be broken into `k` pieces at
a price of `γ (k - 1)`. -/
theorem C58_clusters {e : Env} (he : EnvGood e) (s : Schedule) {n : ℕ} {E : List Arc} (hv : ValidInput n E)
    (hn : 2 ≤ n) (hf : PdtTolerance e.eps n E) {m : String} (hm : m ∈ methods) :
    ∃ r, runOnce e s n E m = .ok r ∧ ∀ γ : ℚ, ∃ P, r.psp[r.cv.countP fun c => decide (c ≤ γ)]? = some P ∧
      ∀ u v, Same P u v ↔ ∃ S ⊆ Finset.range n, u ∈ S ∧ v ∈ S ∧ HoldsTogether E γ S := by
  obtain ⟨r, h1, h2⟩ := runOnce_weak he s hv hn hf hm
  refine ⟨r, h1, fun γ => ?_⟩
  have hlt : (r.cv.countP fun c => decide (c ≤ γ)) < r.psp.length := by
    have := h2.length
    have := List.countP_le_length (p := fun c => decide (c ≤ γ)) (l := r.cv)
    omega
  refine ⟨r.psp[r.cv.countP fun c => decide (c ≤ γ)]'hlt, List.getElem?_eq_getElem _, fun u v => ?_⟩
  refine weak_cluster hv.nonneg (ValidInput.within hv) h2 (List.getElem?_eq_getElem hlt) ?_ ?_
  · exact fun j c hj hlt => (countP_sorted h2.nondecreasing j c hj).1 hlt
  · intro j c hj hle
    by_contra hcon
    have := (countP_sorted h2.nondecreasing j c hj).2 (not_lt.1 hcon)
    omega

/-- At the threshold 3 the nodes 2 and 3 of the example are together, 0 and 2 are not. -/
example : (∃ S ⊆ Finset.range 4, 2 ∈ S ∧ 3 ∈ S ∧ HoldsTogether exArcs 3 S) ∧
    ¬ ∃ S ⊆ Finset.range 4, 0 ∈ S ∧ 2 ∈ S ∧ HoldsTogether exArcs 3 S := by
  obtain ⟨r, h1, h2⟩ := C58_clusters exEnv_good exSched exArcs_valid (by norm_num) exEnv_tolerance (m := "dt")
    (by simp [methods])
  have h3 : runOnce exEnv exSched 4 exArcs "dt" = .ok ⟨[{{0, 1, 2, 3}}, {{0, 1}, {2, 3}}, {{0, 1}, {2}, {3}},
    {{0}, {1}, {2}, {3}}], [3, 4, 5]⟩ := by decide +kernel
  rw [h3] at h1
  cases h1
  obtain ⟨P, h4, h5⟩ := h2 3
  have h6 : P = {{0, 1}, {2, 3}} := by
    have h7 : ([{{0, 1, 2, 3}}, {{0, 1}, {2, 3}}, {{0, 1}, {2}, {3}}, {{0}, {1}, {2}, {3}}] :
        List Partition)[List.countP (fun c => decide (c ≤ 3)) ([3, 4, 5] : List ℚ)]? =
          some {{0, 1}, {2, 3}} := by decide +kernel
    exact Option.some.inj (h4.symm.trans h7)
  rw [← h5 2 3, ← h5 0 2, h6]
  decide +kernel

end PSP.Props
