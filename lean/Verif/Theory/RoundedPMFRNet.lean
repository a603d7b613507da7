import Verif.Model.RoundedPMFR
import Verif.Theory.PMFRRun
import Verif.Theory.RoundedSlice

/-!
# The networks of `PMF_R` with rounded capacities
-/

namespace PSP.Theory

open PSP.Spec PSP.Model

variable {E : List Arc} {ε : ℚ} {j n : ℕ} {y : ℕ → YPair} {lam : ℚ} {X V Xl Xr A B : Finset ℕ} {fl : ℚ → ℚ} {r H v : ℚ}
  {arcs : List NArc} {base : ℕ → ℚ × ℚ} {σ τ σ' τ' : ℕ → ℚ} {ao io : List Arc → List Arc}
  {no : List NArc → List NArc} {W : WarmSolver}

/-! ### capacity of a cut -/

/-- The part of the capacity of a cut that depends on the cut. -/
def gObj (E : List Arc) (V : Finset ℕ) (σ τ : ℕ → ℚ) (X : Finset ℕ) : ℚ :=
  getCutValue (E.filter fun a => a.src ∈ V ∧ a.dst ∈ V) X + ∑ i ∈ V, if i ∈ X then σ i else τ i

theorem setDig_cut_eq (h : RInv E V arcs) (U : Finset ℕ) :
    (Net.mk U (setDig σ τ arcs)).cutCap X = gObj E V σ τ X + stSum arcs := by
  rw [setDig_cut σ τ h.left h.right, h.inner]
  unfold gObj getCutValue
  have : ∑ i ∈ V, (if i ∈ X then σ i else τ i) = ∑ i ∈ V, (cntS arcs i : ℚ) * (if i ∈ X then σ i else 0) +
      ∑ i ∈ V, (cntT arcs i : ℚ) * (if i ∈ X then 0 else τ i) := by
    rw [← Finset.sum_add_distrib]
    apply Finset.sum_congr rfl
    intro i hi
    rw [h.source i hi, h.sink i hi]
    by_cases hX : i ∈ X <;> simp [hX]
  rw [this]
  ring

theorem nonnegE_filter (hE : NonnegE E) (p : Arc → Bool) : NonnegE (E.filter p) :=
  fun e he => hE e (List.mem_filter.1 he).1

theorem gObj_submodular (hE : NonnegE E) (A B : Finset ℕ) :
    gObj E V σ τ (A ∪ B) + gObj E V σ τ (A ∩ B) ≤ gObj E V σ τ A + gObj E V σ τ B := by
  have h1 := cutValue_submodular (nonnegE_filter hE fun a => decide (a.src ∈ V ∧ a.dst ∈ V)) A B
  have h2 : ∑ i ∈ V, (if i ∈ A ∪ B then σ i else τ i) + ∑ i ∈ V, (if i ∈ A ∩ B then σ i else τ i) =
      ∑ i ∈ V, (if i ∈ A then σ i else τ i) + ∑ i ∈ V, (if i ∈ B then σ i else τ i) := by
    rw [← Finset.sum_add_distrib, ← Finset.sum_add_distrib]
    apply Finset.sum_congr rfl
    intro i _
    by_cases hA : i ∈ A <;> by_cases hB : i ∈ B <;> simp [hA, hB, add_comm]
  unfold gObj
  linarith

theorem gObj_mono (hσ : ∀ i ∈ V, σ i ≤ σ' i) (hτ : ∀ i ∈ V, τ' i ≤ τ i) (hBA : B ⊆ A) :
    gObj E V σ τ A - gObj E V σ τ B ≤ gObj E V σ' τ' A - gObj E V σ' τ' B := by
  have : ∑ i ∈ V, (if i ∈ A then σ i else τ i) + ∑ i ∈ V, (if i ∈ B then σ' i else τ' i) ≤
      ∑ i ∈ V, (if i ∈ A then σ' i else τ' i) + ∑ i ∈ V, (if i ∈ B then σ i else τ i) := by
    rw [← Finset.sum_add_distrib, ← Finset.sum_add_distrib]
    apply Finset.sum_le_sum
    intro i hi
    have h1 := hσ i hi
    have h2 := hτ i hi
    by_cases hA : i ∈ A
    · by_cases hB : i ∈ B
      · simp only [hA, hB, if_true]; linarith
      · simp only [hA, hB, if_true, if_false]; linarith
    · have hB : i ∉ B := fun h => hA (hBA h)
      simp only [hA, hB, if_false]; linarith
  unfold gObj
  linarith

/-- The least minimiser of `o` among the subsets of `V`. -/
structure VLeast (o : Finset ℕ → ℚ) (V X : Finset ℕ) : Prop where
  sub : X ⊆ V
  le : ∀ Z ⊆ V, o X ≤ o Z
  least : ∀ Z ⊆ V, o Z ≤ o X → X ⊆ Z

theorem VLeast.subset (hE : NonnegE E) (hσ : ∀ i ∈ V, σ i ≤ σ' i) (hτ : ∀ i ∈ V, τ' i ≤ τ i)
    (hA : VLeast (gObj E V σ τ) V A) (hB : VLeast (gObj E V σ' τ') V B) : B ⊆ A := by
  have hsub := gObj_submodular (V := V) (σ := σ') (τ := τ') hE A B
  have hmono := gObj_mono (E := E) hσ hτ (Finset.subset_union_left : A ⊆ A ∪ B)
  have h1 := hA.le (A ∪ B) (Finset.union_subset hA.sub hB.sub)
  have h2 := hB.least (A ∩ B) (Finset.inter_subset_left.trans hA.sub) (by linarith)
  exact h2.trans Finset.inter_subset_left

/-! ### the capacities -/

/-- Capacity of the arc from the source to `i` after `update_dig`. -/
def srcRF (fl : ℚ → ℚ) (y : ℕ → YPair) (base : ℕ → ℚ × ℚ) (lam : ℚ) (i : ℕ) : ℚ := fl (srcF fl y lam i + (base i).1)

/-- Capacity of the arc from `i` to the sink after `update_dig`. -/
def snkRF (fl : ℚ → ℚ) (y : ℕ → YPair) (base : ℕ → ℚ × ℚ) (lam : ℚ) (i : ℕ) : ℚ :=
  fl ((base i).2 + max 0 (yValF fl lam (y i)))

theorem updateDigF_eq (fl : ℚ → ℚ) (y : ℕ → YPair) (lam : ℚ) (base : ℕ → ℚ × ℚ) (arcs : List NArc) :
    updateDigF fl y lam base arcs = setDig (srcRF fl y base lam) (snkRF fl y base lam) arcs := by
  unfold updateDigF setDig
  apply List.map_congr_left
  rintro ⟨a, b, c⟩ _
  cases a <;> cases b <;> rfl

theorem srcRF_mono (hm : Monotone fl) {l m : ℚ} (h : l ≤ m) (y : ℕ → YPair) (base : ℕ → ℚ × ℚ) (i : ℕ) :
    srcRF fl y base l i ≤ srcRF fl y base m i := by
  have := srcF_mono hm h y i
  unfold srcRF
  exact hm (by linarith)

theorem snkRF_anti (hm : Monotone fl) {l m : ℚ} (h : l ≤ m) (y : ℕ → YPair) (base : ℕ → ℚ × ℚ) (i : ℕ) :
    snkRF fl y base m i ≤ snkRF fl y base l i := by
  have := max_le_max (le_refl (0 : ℚ)) (yValF_anti hm h (y i))
  unfold snkRF
  exact hm (by linarith)

theorem fl_nonneg (h : RErr fl r H) {x : ℚ} (hx : 0 ≤ x) : 0 ≤ fl x := by
  have := h.mono hx
  rwa [h.zero] at this

theorem srcF_eq (fl : ℚ → ℚ) (y : ℕ → YPair) (lam : ℚ) (i : ℕ) : srcF fl y lam i = max 0 (-yValF fl lam (y i)) := by
  unfold srcF
  split
  · rename_i hlt; rw [max_eq_right (by linarith)]
  · rename_i hlt; rw [max_eq_left (by linarith)]

/-! ### the base -/

/-- The base of a network up to rounding errors. -/
structure BaseOk (E : List Arc) (j : ℕ) (c : ℚ) (A B : Finset ℕ) (base : ℕ → ℚ × ℚ) : Prop where
  nonneg : ∀ i ∈ A \ B, 0 ≤ (base i).1 ∧ 0 ≤ (base i).2
  fst : ∀ i ∈ A \ B, |(base i).1 - (newBase E (Finset.range (j + 2) \ insert j A) (insert j B) i).1| ≤ c
  snd : ∀ i ∈ A \ B, |(base i).2 - (newBase E (Finset.range (j + 2) \ insert j A) (insert j B) i).2| ≤ c

theorem newBase_fst_le (hg : PGood E ε) (S T : Finset ℕ) (i : ℕ) : (newBase E S T i).1 ≤ getCutValue E {i} := by
  unfold newBase getCutValue
  apply List.sum_le_sum
  intro a ha
  have h1 := hg.lowHigh a ha
  have h2 := hg.nonneg a ha
  simp only [Finset.mem_singleton]
  by_cases h : a.dst = i
  · have : ¬ a.src = i := by omega
    simp only [h, this, true_and, not_false_eq_true, and_self, if_true]
    split <;> linarith
  · simp [h]

theorem newBase_snd_le (hg : PGood E ε) (S : Finset ℕ) {T : Finset ℕ} {i : ℕ} (hi : i ∉ T) :
    (newBase E S T i).2 ≤ getCutValue E T := by
  unfold newBase getCutValue
  apply List.sum_le_sum
  intro a ha
  have h2 := hg.nonneg a ha
  by_cases h : a.src = i ∧ a.dst ∈ T
  · rw [if_pos h, if_pos ⟨by rw [h.1]; exact hi, h.2⟩]
  · rw [if_neg h]
    split <;> linarith

/-- A node has few incoming arcs. -/
theorem in_count (hg : PGood E ε) (i : ℕ) (p : Arc → Prop) [DecidablePred p] :
    (E.filter fun a => decide (a.dst = i ∧ p a)).length ≤ i := by
  have h1 : ((E.filter fun a => decide (a.dst = i ∧ p a)).map Arc.src).Nodup := by
    unfold List.Nodup
    rw [List.pairwise_map]
    have := hg.simple.filter fun a => decide (a.dst = i ∧ p a)
    refine this.imp_of_mem ?_
    intro a b ha hb hab he
    have ha := (List.mem_filter.1 ha).2
    have hb := (List.mem_filter.1 hb).2
    simp only [decide_eq_true_eq] at ha hb
    exact hab ⟨he, ha.1.trans hb.1.symm⟩
  have h2 : ((E.filter fun a => decide (a.dst = i ∧ p a)).map Arc.src).toFinset ⊆ Finset.range i := by
    intro x hx
    rw [List.mem_toFinset, List.mem_map] at hx
    obtain ⟨a, ha, rfl⟩ := hx
    obtain ⟨ha, hb⟩ := List.mem_filter.1 ha
    simp only [decide_eq_true_eq] at hb
    have := hg.lowHigh a ha
    exact Finset.mem_range.2 (by omega)
  have h3 := Finset.card_le_card h2
  rwa [List.toFinset_card_of_nodup h1, Finset.card_range, List.length_map] at h3

/-- A node has few arcs to a set. -/
theorem out_count (hg : PGood E ε) (i : ℕ) (T : Finset ℕ) :
    (E.filter fun a => decide (a.src = i ∧ a.dst ∈ T)).length ≤ T.card := by
  have h1 : ((E.filter fun a => decide (a.src = i ∧ a.dst ∈ T)).map Arc.dst).Nodup := by
    unfold List.Nodup
    rw [List.pairwise_map]
    have := hg.simple.filter fun a => decide (a.src = i ∧ a.dst ∈ T)
    refine this.imp_of_mem ?_
    intro a b ha hb hab he
    have ha := (List.mem_filter.1 ha).2
    have hb := (List.mem_filter.1 hb).2
    simp only [decide_eq_true_eq] at ha hb
    exact hab ⟨ha.1.trans hb.1.symm, he⟩
  have h2 : ((E.filter fun a => decide (a.src = i ∧ a.dst ∈ T)).map Arc.dst).toFinset ⊆ T := by
    intro x hx
    rw [List.mem_toFinset, List.mem_map] at hx
    obtain ⟨a, ha, rfl⟩ := hx
    have hb := (List.mem_filter.1 ha).2
    simp only [decide_eq_true_eq] at hb
    exact hb.2
  have h3 := Finset.card_le_card h2
  rwa [List.toFinset_card_of_nodup h1, List.length_map] at h3

theorem flSum_nonneg (h : RErr fl r H) : ∀ (L : List ℚ) (s : ℚ), 0 ≤ s → (∀ x ∈ L, 0 ≤ x) → 0 ≤ flSum fl s L := by
  intro L
  induction L with
  | nil => intro s hs _; exact hs
  | cons x L ih =>
    intro s hs hL
    have e : flSum fl s (x :: L) = flSum fl (fl (s + x)) L := rfl
    rw [e]
    exact ih _ (fl_nonneg h (add_nonneg hs (hL x (by simp)))) fun z hz => hL z (by simp [hz])

/-- Error of a sum of nonnegative numbers. -/
theorem flSum_close (h : RErr fl r H) {L : List ℚ} (hL : ∀ x ∈ L, 0 ≤ x) {m N : ℚ} (hN : 1 ≤ N) (hNH : N * r ≤ H)
    (hlen : (L.length : ℚ) ≤ m) (hb : L.sum + m * (N * r) ≤ N * H) : |flSum fl 0 L - L.sum| ≤ m * (N * r) := by
  have hr := h.nonneg
  have habs : (L.map abs).sum = L.sum := by
    congr 1
    conv_rhs => rw [← List.map_id L]
    exact List.map_congr_left fun x hx => abs_of_nonneg (hL x hx)
  have hm := mul_le_mul_of_nonneg_right hlen (mul_nonneg (zero_le_one.trans hN) hr)
  have := h.flSum_err (N := N) hN hNH L 0 (by
    rw [abs_zero, habs]
    linarith)
  rw [zero_add] at this
  linarith

theorem newBaseF_ok (h : RSetup fl ao no W v ε r H E n j y) (hio : ∀ l, (io l).Perm l) (hA : A ⊆ Finset.range j)
    (hBA : B ⊆ A) :
    BaseOk E j (n * r) A B (newBaseF fl io E (Finset.range (j + 2) \ insert j A) (insert j B)) := by
  obtain ⟨n1, n2, n3, hr, n5, n6, n7, n8, n9, n10, n11⟩ := h.nums
  have hH1 := h.H1
  have hε1 := h.ε1
  set S := Finset.range (j + 2) \ insert j A with hS
  set T := insert j B with hT
  have hnn : ∀ p : Arc → Bool, ∀ x ∈ ((io E).filter p).map Arc.cap, 0 ≤ x := by
    intro p x hx
    obtain ⟨a, ha, rfl⟩ := List.mem_map.1 hx
    exact h.good.nonneg a ((hio E).mem_iff.1 (List.mem_filter.1 ha).1)
  have hsum : ∀ p : Arc → Prop, [DecidablePred p] → (((io E).filter fun a => decide (p a)).map Arc.cap).sum =
      (E.map fun a => if p a then a.cap else 0).sum := by
    intro p _
    have : (((io E).filter fun a => decide (p a)).map Arc.cap).Perm ((E.filter fun a => decide (p a)).map Arc.cap) :=
      ((hio E).filter _).map _
    rw [this.sum_eq, sum_filter_map]
    simp
  have hlen : ∀ p : Arc → Bool, (((io E).filter p).map Arc.cap).length = (E.filter p).length := by
    intro p
    rw [List.length_map]
    exact ((hio E).filter p).length_eq
  refine ⟨?_, ?_, ?_⟩
  · intro i _
    exact ⟨flSum_nonneg h.err _ _ le_rfl (hnn _), flSum_nonneg h.err _ _ le_rfl (hnn _)⟩
  · intro i hi
    have hij := Finset.mem_range.1 (hA (Finset.mem_sdiff.1 hi).1)
    have h1 := newBase_fst_le h.good S T i
    have h2 := h.cut {i}
    have := flSum_close h.err (hnn fun a => decide (a.dst = i ∧ a.src ∈ S)) (m := n) (N := 1) le_rfl (by linarith) (by
      rw [hlen]
      have := in_count h.good i fun a => a.src ∈ S
      have hn : i ≤ n := by have := h.jn; omega
      exact_mod_cast this.trans hn) (by
      rw [hsum, one_mul, one_mul]
      have e : (newBase E S T i).1 = (E.map fun a => if a.dst = i ∧ a.src ∈ S then a.cap else 0).sum := rfl
      rw [← e]
      linarith)
    rw [hsum, one_mul] at this
    exact this
  · intro i hi
    have hi' := Finset.mem_sdiff.1 hi
    have hij := Finset.mem_range.1 (hA hi'.1)
    have hiT : i ∉ T := by
      rw [hT, Finset.mem_insert]
      rintro (h | h)
      · omega
      · exact hi'.2 h
    have h1 := newBase_snd_le h.good S hiT
    have h2 := h.cut T
    have := flSum_close h.err (hnn fun a => decide (a.src = i ∧ a.dst ∈ T)) (m := n) (N := 1) le_rfl (by linarith) (by
      rw [hlen]
      have := out_count h.good i T
      have hc : T.card ≤ n := by
        have h3 : T ⊆ Finset.range (j + 1) := by
          intro x hx
          rcases Finset.mem_insert.1 hx with rfl | hx
          · simp
          · have := Finset.mem_range.1 (hA (hBA hx))
            exact Finset.mem_range.2 (by omega)
        have := Finset.card_le_card h3
        rw [Finset.card_range] at this
        have := h.jn
        omega
      exact_mod_cast this.trans hc) (by
      rw [hsum, one_mul, one_mul]
      have e : (newBase E S T i).2 = (E.map fun a => if a.src = i ∧ a.dst ∈ T then a.cap else 0).sum := rfl
      rw [← e]
      linarith)
    rw [hsum, one_mul] at this
    exact this

/-- Bounds of the base. -/
theorem BaseOk.le (h : RSetup fl ao no W v ε r H E n j y) (hA : A ⊆ Finset.range j) (hb : BaseOk E j (n * r) A B base)
    {i : ℕ} (hi : i ∈ A \ B) : (base i).1 ≤ H ∧ (base i).2 ≤ H := by
  obtain ⟨n1, n2, n3, hr, n5, n6, n7, n8, n9, n10, n11⟩ := h.nums
  have hε1 := h.ε1
  have hi' := Finset.mem_sdiff.1 hi
  have hij := Finset.mem_range.1 (hA hi'.1)
  have hiT : i ∉ insert j B := by
    rw [Finset.mem_insert]
    rintro (h | h)
    · omega
    · exact hi'.2 h
  have h1 := newBase_fst_le h.good (Finset.range (j + 2) \ insert j A) (insert j B) i
  have h2 := newBase_snd_le h.good (Finset.range (j + 2) \ insert j A) hiT
  have h3 := h.cut {i}
  have h4 := h.cut (insert j B)
  have h5 := abs_le.1 (hb.fst i hi)
  have h6 := abs_le.1 (hb.snd i hi)
  constructor <;> linarith

/-- Bounds of the capacities. -/
theorem caps_bound (h : RSetup fl ao no W v ε r H E n j y) (hA : A ⊆ Finset.range j) (hb : BaseOk E j (n * r) A B base)
    (hl : -1 ≤ lam) (hl2 : lam ≤ 6 * H) {i : ℕ} (hi : i ∈ A \ B) :
    (0 ≤ srcRF fl y base lam i ∧ 0 ≤ snkRF fl y base lam i) ∧ srcRF fl y base lam i ≤ 9 * H ∧
      snkRF fl y base lam i ≤ 9 * H := by
  obtain ⟨n1, n2, n3, hr, n5, n6, n7, n8, n9, n10, n11⟩ := h.nums
  have hH1 := h.H1
  have hε1 := h.ε1
  obtain ⟨b1, b2⟩ := hb.nonneg i hi
  obtain ⟨b3, b4⟩ := hb.le h hA hi
  have hij := Finset.mem_range.1 (hA (Finset.mem_sdiff.1 hi).1)
  have hyb := h.bound i hij
  have ha : |(y i).1 - lam| ≤ 7 * H := by
    have := abs_le.1 hyb.1
    rw [abs_le]; constructor <;> linarith
  have hy := abs_le.1 (yValF_err h.err ha)
  have hyv : |yVal lam (y i)| ≤ 7 * H :=
    yVal_abs (a := (y i).1) (b := (y i).2) (d := 4 * H) ha hyb.2 (by linarith)
  have hyv := abs_le.1 hyv
  have h1 : 0 ≤ srcF fl y lam i := srcF_nonneg _ _ _ _
  have h2 : srcF fl y lam i ≤ 7 * H + 7 * r := by
    rw [srcF_eq]
    exact max_le (by linarith) (by linarith)
  have h3 : 0 ≤ max 0 (yValF fl lam (y i)) := le_max_left _ _
  have h4 : max 0 (yValF fl lam (y i)) ≤ 7 * H + 7 * r := max_le (by linarith) (by linarith)
  have e1 := h.err.err 9 (srcF fl y lam i + (base i).1) (by rw [abs_le]; constructor <;> linarith)
  have e2 := h.err.err 9 ((base i).2 + max 0 (yValF fl lam (y i))) (by rw [abs_le]; constructor <;> linarith)
  rw [abs_le] at e1 e2
  unfold srcRF snkRF
  refine ⟨⟨fl_nonneg h.err (by linarith), fl_nonneg h.err (by linarith)⟩, by linarith, by linarith⟩

/-- Errors of the capacities. -/
theorem caps_close (h : RSetup fl ao no W v ε r H E n j y) (hA : A ⊆ Finset.range j) (hb : BaseOk E j (n * r) A B base)
    (hl : -1 ≤ lam) (hl2 : lam ≤ 2 * H) {i : ℕ} (hi : i ∈ A \ B) :
    |srcRF fl y base lam i - srcCap y lam (newBase E (Finset.range (j + 2) \ insert j A) (insert j B)) i| ≤
        n * r + 9 * r ∧
      |snkRF fl y base lam i - snkCap y lam (newBase E (Finset.range (j + 2) \ insert j A) (insert j B)) i| ≤
        n * r + 9 * r := by
  obtain ⟨n1, n2, n3, hr, n5, n6, n7, n8, n9, n10, n11⟩ := h.nums
  have hH1 := h.H1
  have hε1 := h.ε1
  obtain ⟨b1, b2⟩ := hb.nonneg i hi
  obtain ⟨b3, b4⟩ := hb.le h hA hi
  have b5 := abs_le.1 (hb.fst i hi)
  have b6 := abs_le.1 (hb.snd i hi)
  have hij := Finset.mem_range.1 (hA (Finset.mem_sdiff.1 hi).1)
  have hyb := h.bound i hij
  have ha : |(y i).1 - lam| ≤ 3 * H := by
    have := abs_le.1 hyb.1
    rw [abs_le]; constructor <;> linarith
  have hy := yValF_err h.err ha
  have hyv : |yVal lam (y i)| ≤ 4 * H :=
    yVal_abs (a := (y i).1) (b := (y i).2) (d := 4 * H) (by linarith) hyb.2 le_rfl
  have hyv := abs_le.1 hyv
  have h1 := max_diff_le (a := -yValF fl lam (y i)) (b := -yVal lam (y i)) (c := 3 * r) (by
    rw [neg_sub_neg, abs_sub_comm]; exact hy)
  have h2 := max_diff_le hy
  have h3 : 0 ≤ max 0 (-yVal lam (y i)) := le_max_left _ _
  have h4 : 0 ≤ max 0 (yVal lam (y i)) := le_max_left _ _
  have h5 : max 0 (-yVal lam (y i)) ≤ 4 * H := max_le (by linarith) (by linarith)
  have h6 : max 0 (yVal lam (y i)) ≤ 4 * H := max_le (by linarith) (by linarith)
  have e3 : (if yVal lam (y i) < 0 then -yVal lam (y i) else 0) = max 0 (-yVal lam (y i)) := by
    split
    · rw [max_eq_right (by linarith)]
    · rw [max_eq_left (by linarith)]
  rw [abs_le] at h1 h2
  have e1 := h.err.err 6 (srcF fl y lam i + (base i).1) (by
    rw [srcF_eq, abs_le]; constructor <;> linarith)
  have e2 := h.err.err 6 ((base i).2 + max 0 (yValF fl lam (y i))) (by rw [abs_le]; constructor <;> linarith)
  unfold srcRF snkRF srcCap snkCap
  rw [e3]
  rw [srcF_eq] at e1 ⊢
  rw [abs_le] at e1 e2
  constructor
  · rw [abs_le]; constructor <;> linarith
  · rw [abs_le]; constructor <;> linarith

/-- The rounded capacity of a cut is close to the exact objective, up to a constant. -/
theorem gObj_close (h : RSetup fl ao no W v ε r H E n j y) (hinv : RInv E (A \ B) arcs) (hBA : B ⊆ A)
    (hA : A ⊆ Finset.range j) (hb : BaseOk E j (n * r) A B base) (hl : -1 ≤ lam) (hl2 : lam ≤ 2 * H) :
    ∃ c, ∀ X ⊆ A \ B, |gObj E (A \ B) (srcRF fl y base lam) (snkRF fl y base lam) X - (obj E j y lam (B ∪ X) + c)| ≤
      3 * (n * n * r) := by
  obtain ⟨n1, n2, n3, hr, n5, n6, n7, n8, n9, n10, n11⟩ := h.nums
  set nb := newBase E (Finset.range (j + 2) \ insert j A) (insert j B) with hnb
  refine ⟨rConst E j y lam A B arcs - stSum arcs, fun X hX => ?_⟩
  have hG : RGood E j A B ⟨A \ B, arcs, nb⟩ := ⟨hBA, hA, rfl, hinv, fun i _ => rfl⟩
  have h1 := rcut (y := y) (lam := lam) h.good hG hX ∅
  dsimp only at h1
  rw [updateDig_eq, setDig_cut_eq hinv] at h1
  have h2 : obj E j y lam (B ∪ X) + (rConst E j y lam A B arcs - stSum arcs) =
      gObj E (A \ B) (srcCap y lam nb) (snkCap y lam nb) X := by linarith
  rw [h2]
  unfold gObj
  rw [add_sub_add_left_eq_sub, ← Finset.sum_sub_distrib]
  refine (Finset.abs_sum_le_sum_abs _ _).trans ?_
  have h3 : ∑ i ∈ A \ B, |(if i ∈ X then srcRF fl y base lam i else snkRF fl y base lam i) -
      (if i ∈ X then srcCap y lam nb i else snkCap y lam nb i)| ≤ ∑ i ∈ A \ B, (n * r + 9 * r) := by
    apply Finset.sum_le_sum
    intro i hi
    obtain ⟨c1, c2⟩ := caps_close h hA hb hl hl2 hi
    by_cases hX : i ∈ X
    · simp only [hX, if_true]; exact c1
    · simp only [hX, if_false]; exact c2
  refine h3.trans ?_
  rw [Finset.sum_const, nsmul_eq_mul]
  have h4 : (A \ B).card ≤ j := by
    have := Finset.card_le_card (Finset.sdiff_subset.trans hA : A \ B ⊆ Finset.range j)
    rwa [Finset.card_range] at this
  have h5 : ((A \ B).card : ℚ) ≤ n - 1 := by
    have : ((A \ B).card : ℚ) ≤ j := by exact_mod_cast h4
    linarith
  have h6 : ((A \ B).card : ℚ) * (n * r + 9 * r) ≤ (n - 1) * (n * r + 9 * r) :=
    mul_le_mul_of_nonneg_right h5 (by linarith)
  have h7 : (0 : ℚ) ≤ (2 * (n * n) - 8 * n + 9) * r := by
    apply mul_nonneg _ hr
    nlinarith [sq_nonneg ((n : ℚ) - 2)]
  nlinarith

/-! ### the arcs of a network -/

/-- Bounds for the arcs of a network on `V`. -/
structure RArcs (E : List Arc) (j n : ℕ) (H : ℚ) (V : Finset ℕ) (arcs : List NArc) : Prop where
  inv : RInv E V arcs
  st : stSum arcs ≤ 11 * H * (j - V.card)
  src : ∀ e ∈ arcs, ∀ i, e.a = .src → e.b = .v i → e.cap ≤ 9 * H
  snk : ∀ e ∈ arcs, ∀ i, e.a = .v i → e.b = .snk → e.cap ≤ 9 * H
  len : (arcs.length : ℚ) ≤ 3 * (n * n)

theorem setDig_stSum (σ τ : ℕ → ℚ) (arcs : List NArc) : stSum (setDig σ τ arcs) = stSum arcs := by
  unfold stSum setDig
  rw [List.map_map]
  congr 1
  apply List.map_congr_left
  rintro ⟨a, b, c⟩ _
  cases a <;> cases b <;> simp [setArc]

theorem stSum_nonneg (h : RInv E V arcs) : 0 ≤ stSum arcs := by
  apply List.sum_nonneg
  intro z hz
  obtain ⟨e, he, rfl⟩ := List.mem_map.1 hz
  split
  · exact h.nonneg e he
  · exact le_rfl

theorem setDig_arcs (hinv : RInv E V arcs) (hst : stSum arcs ≤ 11 * H * (j - V.card))
    (hlen : (arcs.length : ℚ) ≤ 3 * (n * n)) (h0 : ∀ i ∈ V, 0 ≤ σ i ∧ 0 ≤ τ i)
    (h9 : ∀ i ∈ V, σ i ≤ 9 * H ∧ τ i ≤ 9 * H) : RArcs E j n H V (setDig σ τ arcs) := by
  have hi := setDig_inv hinv h0
  refine ⟨hi, by rwa [setDig_stSum], ?_, ?_, by unfold setDig; rwa [List.length_map]⟩
  · intro e he i ha hb
    have hiV := hi.right e he i hb
    obtain ⟨⟨a, b, c⟩, _, rfl⟩ := List.mem_map.1 he
    cases a <;> cases b <;> simp only [setArc, reduceCtorEq, NV.v.injEq] at ha hb ⊢
    subst hb
    exact (h9 _ hiV).1
  · intro e he i ha hb
    have hiV := hi.left e he i ha
    obtain ⟨⟨a, b, c⟩, _, rfl⟩ := List.mem_map.1 he
    cases a <;> cases b <;> simp only [setArc, reduceCtorEq, NV.v.injEq] at ha hb ⊢
    subst ha
    exact (h9 _ hiV).2

theorem inner_cut_le (h : RSetup fl ao no W v ε r H E n j y) (V X : Finset ℕ) :
    0 ≤ getCutValue (E.filter fun a => a.src ∈ V ∧ a.dst ∈ V) X ∧
      getCutValue (E.filter fun a => a.src ∈ V ∧ a.dst ∈ V) X ≤ H := by
  have h1 := h.cut X
  refine ⟨cutValue_nonneg (nonnegE_filter h.good.nonneg _) X, ?_⟩
  have : getCutValue (E.filter fun a => a.src ∈ V ∧ a.dst ∈ V) X ≤ getCutValue E X := by
    unfold getCutValue
    rw [sum_filter_map]
    apply List.sum_le_sum
    intro a ha
    have := h.good.nonneg a ha
    split
    · exact le_rfl
    · split <;> linarith
  linarith

theorem gObj_bound (h : RSetup fl ao no W v ε r H E n j y) (h9 : ∀ i ∈ V, σ i ≤ 9 * H ∧ τ i ≤ 9 * H)
    (h0 : ∀ i ∈ V, 0 ≤ σ i ∧ 0 ≤ τ i) (X : Finset ℕ) :
    0 ≤ gObj E V σ τ X ∧ gObj E V σ τ X ≤ H + 9 * H * V.card := by
  obtain ⟨h1, h2⟩ := inner_cut_le h V X
  have h3 : ∑ i ∈ V, (if i ∈ X then σ i else τ i) ≤ ∑ _i ∈ V, 9 * H := by
    apply Finset.sum_le_sum
    intro i hi
    obtain ⟨h4, h5⟩ := h9 i hi
    split <;> assumption
  have h4 : 0 ≤ ∑ i ∈ V, (if i ∈ X then σ i else τ i) := by
    apply Finset.sum_nonneg
    intro i hi
    obtain ⟨h4, h5⟩ := h0 i hi
    split <;> assumption
  rw [Finset.sum_const, nsmul_eq_mul] at h3
  unfold gObj
  constructor <;> linarith

theorem card_le_j (hV : V ⊆ Finset.range j) : (V.card : ℚ) ≤ j := by
  have := Finset.card_le_card hV
  rw [Finset.card_range] at this
  exact_mod_cast this

/-- Capacity of any cut. -/
theorem cut_bound (h : RSetup fl ao no W v ε r H E n j y) (hV : V ⊆ Finset.range j) (hinv : RInv E V arcs)
    (hst : stSum arcs ≤ 11 * H * (j - V.card)) (h9 : ∀ i ∈ V, σ i ≤ 9 * H ∧ τ i ≤ 9 * H)
    (h0 : ∀ i ∈ V, 0 ≤ σ i ∧ 0 ≤ τ i) (U X : Finset ℕ) :
    0 ≤ (Net.mk U (setDig σ τ arcs)).cutCap X ∧ (Net.mk U (setDig σ τ arcs)).cutCap X ≤ 12 * j * H := by
  obtain ⟨n1, n2, n3, hr, n5, n6, n7, n8, n9, n10, n11⟩ := h.nums
  have hH1 := h.H1
  rw [setDig_cut_eq hinv]
  obtain ⟨h1, h2⟩ := gObj_bound h h9 h0 X
  have h3 := stSum_nonneg hinv
  have h4 := card_le_j hV
  have h5 : (0 : ℚ) ≤ V.card := by positivity
  have h6 : 0 ≤ H * V.card := mul_nonneg (by linarith) h5
  have h7 : H ≤ H * j := by nlinarith
  refine ⟨by linarith, by linarith⟩

/-- Error of `get_cut_value` on a network. -/
theorem netCutF_close (h : RSetup fl ao no W v ε r H E n j y) (hinv : RInv E V arcs)
    (hlen : (arcs.length : ℚ) ≤ 3 * (n * n)) {U : Finset ℕ} (hc : (Net.mk U arcs).cutCap X ≤ 12 * j * H) :
    |netCutF fl no arcs X - (Net.mk U arcs).cutCap X| ≤ 39 * (n * n * n * r) := by
  obtain ⟨n1, n2, n3, hr, n5, n6, n7, n8, n9, n10, n11⟩ := h.nums
  have hH1 := h.H1
  have hε1 := h.ε1
  unfold netCutF
  set L := ((no arcs).filter fun e => decide (e.a.onSink X = false ∧ e.b.onSink X = true)).map (·.cap) with hL
  have hsum : L.sum = (Net.mk U arcs).cutCap X := by
    have hp : L.Perm ((arcs.filter fun e => decide (e.a.onSink X = false ∧ e.b.onSink X = true)).map (·.cap)) :=
      ((h.perm arcs).filter _).map _
    rw [hp.sum_eq, sum_filter_map]
    unfold Net.cutCap
    congr 1
    apply List.map_congr_left
    intro e _
    simp
  have hnn : ∀ x ∈ L, 0 ≤ x := by
    intro x hx
    obtain ⟨e, he, rfl⟩ := List.mem_map.1 hx
    exact hinv.nonneg e ((h.perm arcs).mem_iff.1 (List.mem_filter.1 he).1)
  have hl : (L.length : ℚ) ≤ 3 * (n * n) := by
    refine le_trans ?_ hlen
    have : L.length ≤ arcs.length := by
      rw [hL, List.length_map]
      exact (List.length_filter_le _ _).trans (h.perm arcs).length_eq.le
    exact_mod_cast this
  have hm : (3 * (n * n) : ℚ) * (13 * j * r) ≤ 39 * (n * n * n * r) := by
    have : (j : ℚ) * (n * n * r) ≤ n * (n * n * r) := mul_le_mul_of_nonneg_right (by linarith) n11
    linarith
  have hjH : H ≤ j * H := by nlinarith
  have := flSum_close h.err hnn (m := 3 * (n * n)) (N := 13 * j) (by linarith) (by nlinarith) hl (by rw [hsum]; linarith)
  rw [hsum] at this
  exact this.trans hm

theorem arcSumF_nonneg (h : RSetup fl ao no W v ε r H E n j y) (hinv : RInv E V arcs) (p : NArc → Bool) :
    0 ≤ arcSumF fl no ε arcs p := by
  apply flSum_nonneg h.err _ _ le_rfl
  intro x hx
  obtain ⟨e, he, rfl⟩ := List.mem_map.1 hx
  exact hinv.nonneg e ((h.perm arcs).mem_iff.1 (List.mem_filter.1 he).1)

/-- **`contract`** keeps the bounds. -/
theorem contract_arcs (h : RSetup fl ao no W v ε r H E n j y) (ha : RArcs E j n H V arcs) (hV : V ⊆ Finset.range j)
    (hlr : Xr ⊆ Xl) (hlj : Xl ⊆ Finset.range j) (hsub : Xl \ Xr ⊆ V) (hlt : (Xl \ Xr).card < V.card) :
    let N := contractRWith (arcSumF fl no ε arcs) ε j (Finset.range (j + 2) \ insert j Xl) (insert j Xr) arcs
    RInv E (Xl \ Xr) N ∧ stSum N ≤ 11 * H * (j - (Xl \ Xr).card) ∧ (N.length : ℚ) ≤ 3 * (n * n) := by
  obtain ⟨n1, n2, n3, hr, n5, n6, n7, n8, n9, n10, n11⟩ := h.nums
  have hH1 := h.H1
  have hε1 := h.ε1
  obtain ⟨c1, c2, c3⟩ := contractRWith_inv (arcSumF_nonneg h ha.inv) h.good.cap ha.inv hV hlr hlj hsub
  refine ⟨c1, ?_, ?_⟩
  swap
  · have h1 := h.len
    have h2 := h.jn
    have h3 : (contractRWith (arcSumF fl no ε arcs) ε j (Finset.range (j + 2) \ insert j Xl) (insert j Xr) arcs).length ≤
        n * n + 2 + 4 * j := by omega
    have h4 : ((contractRWith (arcSumF fl no ε arcs) ε j (Finset.range (j + 2) \ insert j Xl) (insert j Xr)
        arcs).length : ℚ) ≤ n * n + 2 + 4 * j := by exact_mod_cast h3
    refine h4.trans ?_
    nlinarith [sq_nonneg ((n : ℚ) - 1)]
  rw [c2]
  set p : NArc → Bool := fun e =>
      decide (nvId j e.a ∈ Finset.range (j + 2) \ insert j Xl) && decide (nvId j e.b ∈ insert j Xr) with hp
  unfold arcSumF
  set L := ((no arcs).filter fun e => decide (¬ e.cap < ε ∧ p e = true)).map (·.cap) with hL
  have hnn : ∀ x ∈ L, 0 ≤ x := by
    intro x hx
    obtain ⟨e, he, rfl⟩ := List.mem_map.1 hx
    exact ha.inv.nonneg e ((h.perm arcs).mem_iff.1 (List.mem_filter.1 he).1)
  set σ : ℕ → ℚ := fun _ => 9 * H with hσ
  set τ : ℕ → ℚ := fun i => if i ∈ Xl then 0 else 9 * H with hτ
  have hτ0 : ∀ i, 0 ≤ τ i := by
    intro i
    simp only [hτ]
    split <;> linarith
  have hsum : L.sum ≤ (Net.mk ∅ (setDig σ τ arcs)).cutCap Xr := by
    have hpm : L.Perm ((arcs.filter fun e => decide (¬ e.cap < ε ∧ p e = true)).map (·.cap)) :=
      ((h.perm arcs).filter _).map _
    rw [hpm.sum_eq, sum_filter_map]
    unfold Net.cutCap setDig
    rw [List.map_map]
    apply List.sum_le_sum
    intro e he
    have hcap := ha.inv.nonneg e he
    have hsrc := ha.src e he
    have hsnk := ha.snk e he
    have hnn' : 0 ≤ (setArc σ τ e).cap := by
      obtain ⟨a, b, c⟩ := e
      cases a <;> cases b <;> simp only [setArc] <;> first | exact hcap | exact hτ0 _ | (simp only [hσ]; linarith)
    by_cases hpe : p e = true
    · simp only [hp, Bool.and_eq_true, decide_eq_true_eq, mem_S, Finset.mem_insert] at hpe
      obtain ⟨⟨_, hp1, hp2⟩, hp3⟩ := hpe
      have hl := ha.inv.left e he
      have hrr := ha.inv.right e he
      have hcut : e.a.onSink Xr = false ∧ e.b.onSink Xr = true := by
        constructor
        · cases hea : e.a with
          | src => rfl
          | snk => rw [hea] at hp1; exact absurd rfl hp1
          | v i =>
            rw [hea] at hp2
            simp only [nvId] at hp2
            simp only [NV.onSink, decide_eq_false_iff_not]
            exact fun h' => hp2 (hlr h')
        · cases heb : e.b with
          | src =>
            rw [heb] at hp3
            simp only [nvId] at hp3
            rcases hp3 with h' | h'
            · omega
            · have := Finset.mem_range.1 (hlj (hlr h')); omega
          | snk => rfl
          | v i =>
            rw [heb] at hp3
            simp only [nvId] at hp3
            have hi := Finset.mem_range.1 (hV (hrr i heb))
            rcases hp3 with h' | h'
            · omega
            · simp only [NV.onSink, decide_eq_true_eq]; exact h'
      have hle : e.cap ≤ (setArc σ τ e).cap := by
        obtain ⟨a, b, c⟩ := e
        cases a <;> cases b <;> simp only [setArc] <;> try exact le_rfl
        · exact hsrc _ rfl rfl
        · rename_i i
          simp only [nvId] at hp2
          simp only [hτ, hp2, if_false]
          exact hsnk _ rfl rfl
      obtain ⟨e1, e2, _⟩ := setArc_ab σ τ e
      simp only [Function.comp, e1, e2]
      rw [if_pos hcut]
      split
      · exact hle
      · exact hnn'
    · have : ¬ decide (¬ e.cap < ε ∧ p e = true) = true := by simp [hpe]
      rw [if_neg this]
      simp only [Function.comp]
      split
      · exact hnn'
      · exact le_rfl
  rw [setDig_cut_eq ha.inv] at hsum
  have hg : gObj E V σ τ Xr ≤ H + 9 * H * (V.card - (Xl \ Xr).card) := by
    obtain ⟨_, h2⟩ := inner_cut_le h V Xr
    have h3 : ∑ i ∈ V, (if i ∈ Xr then σ i else τ i) = ∑ i ∈ V, if i ∈ Xl \ Xr then 0 else 9 * H := by
      apply Finset.sum_congr rfl
      intro i _
      by_cases hr' : i ∈ Xr
      · simp [hr', hσ]
      · by_cases hl' : i ∈ Xl <;> simp [hr', hl', hτ]
    have h4 : ∑ i ∈ V, (if i ∈ Xl \ Xr then 0 else 9 * H) = 9 * H * (V.card - (Xl \ Xr).card) := by
      rw [Finset.sum_ite, Finset.sum_const_zero, zero_add, Finset.sum_const, nsmul_eq_mul]
      have h5 : V.filter (fun i => i ∉ Xl \ Xr) = V \ (Xl \ Xr) := by
        ext i; simp only [Finset.mem_filter, Finset.mem_sdiff]
      rw [h5, Finset.card_sdiff_of_subset hsub, Nat.cast_sub (Finset.card_le_card hsub)]
      ring
    unfold gObj
    rw [h3, h4]
    linarith
  have hst := ha.st
  have hVj := card_le_j hV
  have hlt' : ((Xl \ Xr).card : ℚ) + 1 ≤ V.card := by exact_mod_cast hlt
  have hc0 : (0 : ℚ) ≤ (Xl \ Xr).card := by positivity
  have hx1 : H ≤ H * (V.card - (Xl \ Xr).card) := by nlinarith
  have hx2 : 0 ≤ H * (Xl \ Xr).card := mul_nonneg (by linarith) hc0
  have hl : (L.length : ℚ) ≤ 3 * (n * n) := by
    refine le_trans ?_ ha.len
    have : L.length ≤ arcs.length := by
      rw [hL, List.length_map]
      exact (List.length_filter_le _ _).trans (h.perm arcs).length_eq.le
    exact_mod_cast this
  have hm : (3 * (n * n) : ℚ) * (13 * j * r) ≤ 39 * (n * n * n * r) := by
    have : (j : ℚ) * (n * n * r) ≤ n * (n * n * r) := mul_le_mul_of_nonneg_right (by linarith) n11
    linarith
  have hjH : H ≤ j * H := by nlinarith
  have hb : L.sum + 3 * (n * n) * (13 * j * r) ≤ 13 * j * H := by linarith
  have := abs_le.1 (flSum_close h.err hnn (m := 3 * (n * n)) (N := 13 * j) (by linarith) (by nlinarith) hl hb)
  linarith

end PSP.Theory
