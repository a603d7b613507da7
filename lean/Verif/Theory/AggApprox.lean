import Verif.Theory.NearCoarser
import Verif.Theory.AggStuck
import Verif.Theory.AggRounded

/-!
# `agg_psp` with any weights: what it returns when it ends
-/

namespace PSP.Theory

open PSP.Model PSP.Spec
open Relation (EqvGen)

/-! ### the merges of a round -/

section level

variable {h : Finset ℕ → ℚ} {V : Finset ℕ} {k : ℕ} {C : ℕ → Finset ℕ} {y : ℕ → ℕ → ℚ} {gam τ : ℚ}

/-- Merging `j` with all blocks whose coordinates are within `τ` of the smallest one. -/
theorem Round.level_price (hr : Round h k C y gam) (hb : Blocks V k C) (hh : Intersecting V h) (hτ : 0 ≤ τ) {j : ℕ}
    (hj : j < k) : price h C gam (insert j ((Finset.range j).filter fun i => y j i ≤ -gam + τ)) ≤ τ * k := by
  rcases Nat.eq_zero_or_pos j with rfl | hj1
  · simp only [Finset.range_zero, Finset.filter_empty]
    rw [show insert 0 (∅ : Finset ℕ) = {0} from rfl, price_single]
    positivity
  set S := (Finset.range j).filter fun i => y j i ≤ -gam + τ with hS
  have hSj : S ⊆ Finset.range j := Finset.filter_subset _ _
  rw [joinFn_price hSj]
  have hl := level_tight (hb.joinFn_submodular hh hj) (hr.base j hj1 hj) (-gam + τ)
  rw [← hS, joinFn_empty, sub_zero] at hl
  rw [← hl]
  have h1 : ∑ i ∈ S, y j i ≤ ∑ i ∈ S, (-gam + τ) := Finset.sum_le_sum fun i hi => (Finset.mem_filter.1 hi).2
  rw [Finset.sum_const, nsmul_eq_mul] at h1
  have h2 : (S.card : ℚ) ≤ k := by
    have := Finset.card_le_card hSj
    rw [Finset.card_range] at this
    exact_mod_cast this.trans hj.le
  have h3 := mul_le_mul_of_nonneg_left h2 hτ
  linarith

end level

variable {φ : Finset ℕ → ℚ} {n : ℕ} {tol δ : ℚ} {mnb : SF → Outcome (List ℚ)} {contract : List (List ℕ) → SF} {thr : ℚ → ℚ}
  {D : List (List ℕ) → Prop}

/-- The points for the clusterings `D` are within `δ` of the minimum norm bases, and the threshold exceeds the smallest
coordinate by at most `tol`. -/
structure WithinError (mnb : SF → Outcome (List ℚ)) (contract : List (List ℕ) → SF) (thr : ℚ → ℚ) (φ : Finset ℕ → ℚ) (n : ℕ)
    (tol δ : ℚ) (D : List (List ℕ) → Prop) : Prop where
  point : ∀ L R j, D L → IsClustering n R L → 1 ≤ j → j < L.length → ∃ x y, mnb (sfJoin (contract L) j) = .ok x ∧
    x.length = j ∧ IsMinNorm (Finset.range j) (joinFn φ (blockAt L) j) y ∧ ∀ i, i < j → |x.getD i 0 - y i| ≤ δ
  thr : ∀ L R j y i g, IsClustering n R L → i < j → j < L.length →
    IsMinNorm (Finset.range j) (joinFn φ (blockAt L) j) y → |g - -(y i)| ≤ δ → -g ≤ thr g ∧ thr g ≤ -g + tol

/-- One call of `agglomerate`: from a partition `P` into at least two clusters it finds a value near the exact one; it is
stuck if the value is above the last one; otherwise it goes on to a coarser partition, and for the exact value some
partition coarser than this one is nearly as cheap as `P`. -/
theorem agglomerateWith_near (hn : 0 < n) (hφ : Intersecting (Finset.range n) φ) (hδ : 0 ≤ δ)
    (htol : 0 ≤ tol) (hm : WithinError mnb contract thr φ n tol δ D) {hc : HC} {A : List Link}
    {P : Partition} (hinv : HCInv hc A) (hsize : hc.n = n)
    (hsame : ∀ v w, v < n → w < n → (Same P v w ↔ Joined A ⊥ v w)) (hpart : IsPartition (Finset.range n) P)
    (hD : ∀ L, hc.getPartition ⊥ = .ok L → D L) :
    (agglomerateWith mnb contract thr hc = .ok (hc, false) ∧ P = {Finset.range n}) ∨
    ∃ g gam, |g - gam| ≤ δ ∧ (∀ lam, gam ≤ lam ↔ ∀ R, IsPartition (Finset.range n) R → Refines P R →
        costSF φ lam P ≤ costSF φ lam R) ∧
      ((∃ b ∈ hc.gamma.getLast?, b < g ∧ agglomerateWith mnb contract thr hc = .ok (hc, true)) ∨
        ∃ hc' A' L' J, agglomerateWith mnb contract thr hc = .ok (hc', true) ∧ hc'.getCoarsestPartition = .ok L' ∧
          hc'.gamma.getLast? = some g ∧ HCInv hc' A' ∧ hc'.n = n ∧ IsPartition (Finset.range n) (toPartition L') ∧
          (∀ v w, v < n → w < n → (Same (toPartition L') v w ↔ Joined A' ⊥ v w)) ∧
          (∀ b ∈ hc.gamma.getLast?, g ≤ b) ∧
          Refines P (toPartition L') ∧ P ≠ toPartition L' ∧ IsPartition (Finset.range n) J ∧
          Refines (toPartition L') J ∧ costSF φ gam J ≤ costSF φ gam P + n * ((tol + 2 * δ) * n)) := by
  set V := Finset.range n with hV
  have hh : Intersecting V φ := hφ
  obtain ⟨L, hL1, hL2⟩ := getPartition_spec hinv.forest (by rw [hsize]; exact hn) ⊥
  rw [hsize] at hL2
  have hL3 := hL2.congr (hinv.fj ⊥)
  have hPL : toPartition L = P := eq_of_same (clustering_partition hL3) hpart fun v w => by
    by_cases hv : v < n
    · by_cases hw : w < n
      · rw [clustering_same hL3 hv hw, hsame v w hv hw]
      · constructor
        · intro hh'
          exact absurd (Finset.mem_range.1 (hh'.mem_right (clustering_partition hL3))) hw
        · intro hh'; exact absurd (Finset.mem_range.1 (hh'.mem_right hpart)) hw
    · constructor
      · intro hh'
        exact absurd (Finset.mem_range.1 (hh'.mem_left (clustering_partition hL3))) hv
      · intro hh'; exact absurd (Finset.mem_range.1 (hh'.mem_left hpart)) hv
  have hb := clustering_blocks hL3
  set k := L.length with hk
  set C := blockAt L with hC
  have hPC : blockSet k C = P := by rw [← hPL, toPartition_eq]
  have hcard : P.card = k := by rw [← hPC]; exact hb.card
  have hVne : V.Nonempty := ⟨0, Finset.mem_range.2 hn⟩
  by_cases hk1 : k ≤ 1
  · left
    constructor
    · unfold agglomerateWith
      rw [hL1]
      simp only [Outcome.ok_bind, ← hk, if_pos hk1, Outcome.pure_eq]
    · have := hpart.card_pos hVne
      exact hpart.eq_single_of_card (by omega)
  right
  rw [not_le] at hk1
  have hkn : k ≤ n := by
    have := hpart.card_le
    rw [hcard, Finset.card_range] at this
    exact this
  -- the points
  have hpts : ∀ j ∈ (List.range k).drop 1, ∃ x, mnb (sfJoin (contract L) j) = .ok x ∧
      (x.length = j ∧ ∃ y, IsMinNorm (Finset.range j) (joinFn φ C j) y ∧
        ∀ i, i < j → |x.getD i 0 - y i| ≤ δ) := by
    intro j hj
    have hjk : 1 ≤ j ∧ j < k := by
      rw [List.range_eq_range', List.drop_range', List.mem_range'_1] at hj
      omega
    obtain ⟨x, y, h1, h2, h3, h4⟩ := hm.point L _ j (hD L hL1) hL3 hjk.1 hjk.2
    exact ⟨x, h1, h2, y, h3, h4⟩
  obtain ⟨xs, hxs, hall⟩ := aicPoints_spec _ hpts
  have hxslen : xs.length = k - 1 := by
    rw [← hall.length_eq]; simp
  have hget : ∀ j, 1 ≤ j → j < k → (xs.getD (j - 1) []).length = j ∧
      ∃ y, IsMinNorm (Finset.range j) (joinFn φ C j) y ∧
        ∀ i, i < j → |(xs.getD (j - 1) []).getD i 0 - y i| ≤ δ := by
    intro j hj1 hjk
    have hlt : j - 1 < xs.length := by omega
    have hlt' : j - 1 < ((List.range k).drop 1).length := by simp; omega
    have := List.forall₂_iff_get.1 hall |>.2 (j - 1) hlt' hlt
    simp only [List.get_eq_getElem, List.getElem_drop, List.getElem_range] at this
    have e : 1 + (j - 1) = j := by omega
    rw [e] at this
    rw [List.getD_eq_getElem _ _ hlt]
    exact this
  have hgetx : ∀ x ∈ xs, ∃ j, 1 ≤ j ∧ j < k ∧ x = xs.getD (j - 1) [] := by
    intro x hx
    obtain ⟨i, hi, rfl⟩ := List.mem_iff_getElem.1 hx
    refine ⟨i + 1, by omega, by omega, ?_⟩
    rw [Nat.add_sub_cancel, List.getD_eq_getElem _ _ hi]
  choose! y hy1 hy2 using fun j (hj : 1 ≤ j ∧ j < k) => (hget j hj.1 hj.2).2
  -- the exact critical value
  have hpairs : (((Finset.range k) ×ˢ (Finset.range k)).filter fun p => p.2 < p.1).Nonempty :=
    ⟨(1, 0), by simp; omega⟩
  obtain ⟨⟨j0, i0⟩, hji0, hmin⟩ := Finset.exists_min_image _ (fun p => y p.1 p.2) hpairs
  simp only [Finset.mem_filter, Finset.mem_product, Finset.mem_range] at hji0 hmin
  set gam := -(y j0 i0) with hgam
  have hbound : ∀ j i, j < k → i < j → -gam ≤ y j i := by
    intro j i hj hi
    rw [hgam, neg_neg]
    exact hmin (j, i) ⟨⟨hj, hi.trans hj⟩, hi⟩
  have hround : Round φ k C y gam :=
    ⟨fun j h1 h2 => hy1 j ⟨h1, h2⟩, hbound, j0, i0, hji0.1.1, hji0.2, by rw [hgam, neg_neg]⟩
  have hmerge : ∀ lam, gam ≤ lam ↔ ∀ R, IsPartition V R → Refines P R → costSF φ lam P ≤ costSF φ lam R := by
    intro lam
    rw [hround.mergeValue hb hh lam, hPC]
  -- the computed critical value
  have hxsne : xs ≠ [] := by
    intro he; rw [he] at hxslen; simp at hxslen; omega
  obtain ⟨g, hg1, hg2, x0, hx0, hg3⟩ := aicGamma_spec hxsne
  have hentry : ∀ j i, 1 ≤ j → j < k → i < j →
      (xs.getD (j - 1) []).getD i 0 ∈ xs.getD (j - 1) [] := by
    intro j i h1 h2 h3
    rw [List.getD_eq_getElem _ 0 (by rw [(hget j h1 h2).1]; exact h3)]
    exact List.getElem_mem _
  have hxsmem : ∀ j, 1 ≤ j → j < k → xs.getD (j - 1) [] ∈ xs := by
    intro j h1 h2
    exact getD_mem (by omega)
  obtain ⟨j1, i1, hj1, hi1, hxg⟩ : ∃ j i, j < k ∧ i < j ∧ (xs.getD (j - 1) []).getD i 0 = -g := by
    obtain ⟨j, h1, h2, rfl⟩ := hgetx x0 hx0
    have hne : xs.getD (j - 1) [] ≠ [] := by
      intro he
      have := (hget j h1 h2).1
      rw [he] at this; simp at this; omega
    obtain ⟨i, hi, he⟩ := List.mem_iff_getElem.1 (minCoeff_mem _ hne)
    have hij : i < j := by rw [(hget j h1 h2).1] at hi; exact hi
    refine ⟨j, i, h2, hij, ?_⟩
    rw [List.getD_eq_getElem _ 0 hi, he, hg3, neg_neg]
  have habs : |g - gam| ≤ δ := by
    rw [abs_le]
    constructor
    · have hj1 : 1 ≤ j0 := by omega
      have h1 := hg2 _ (hxsmem j0 hj1 hji0.1.1)
      have h2 := minCoeff_le _ _ (hentry j0 i0 hj1 hji0.1.1 hji0.2)
      have h3 := (abs_le.1 (hy2 j0 ⟨hj1, hji0.1.1⟩ i0 hji0.2)).2
      rw [hgam]; linarith
    · have h3 := (abs_le.1 (hy2 j1 ⟨by omega, hj1⟩ i1 hi1)).1
      have h4 := hbound j1 i1 hj1 hi1
      rw [hxg] at h3
      linarith
  obtain ⟨ha1, ha2⟩ := abs_le.1 habs
  obtain ⟨ht1, ht2⟩ := hm.thr L _ j0 (y j0) i0 g hL3 hji0.2 hji0.1.1 (hy1 j0 ⟨by omega, hji0.1.1⟩) habs
  -- the merges
  set cs := mergesAt L xs thr g with hcs
  have hcsmem : ∀ c ∈ cs, ∃ j i, j < k ∧ i < j ∧ y j i ≤ -gam + (tol + 2 * δ) ∧
      c = ⟨(L.getD j []).headD 0, (L.getD i []).headD 0, g⟩ := by
    intro c hc'
    obtain ⟨j, i, h1, h2, h3, h4⟩ := mem_mergesAt.1 (hcs ▸ hc')
    refine ⟨j, i, h1, h2, ?_, h4⟩
    have := (abs_le.1 (hy2 j ⟨by omega, h1⟩ i h2)).1
    linarith
  have hlink : (⟨(L.getD j1 []).headD 0, (L.getD i1 []).headD 0, g⟩ : Link) ∈ cs :=
    hcs ▸ mem_mergesAt.2 ⟨j1, i1, hj1, hi1, by rw [hxg]; exact ht1, rfl⟩
  have hheadlt : ∀ i, i < k → (L.getD i []).headD 0 < n := fun i hi =>
    Finset.mem_range.1 (hb.subset hi (clustering_head hL3 hi))
  have hrange : InRange n cs := by
    intro c hc'
    obtain ⟨j, i, h1, h2, -, rfl⟩ := hcsmem c hc'
    exact ⟨hheadlt j h1, hheadlt i (h2.trans h1)⟩
  obtain ⟨hc', hc1, hc2, hc3⟩ := mergeAll_from cs hinv hsize hrange
  have hval : ∀ c ∈ cs, c.val = g := by
    intro c hc'
    obtain ⟨j, i, -, -, -, rfl⟩ := hcsmem c hc'
    rfl
  have hstep : agglomerateWith mnb contract thr hc = .ok (hc', true) := by
    unfold agglomerateWith
    rw [hL1]
    simp only [Outcome.ok_bind, ← hk, if_neg (not_le.2 hk1), hxs, hg1, Outcome.pure_eq]
    show (do let h' ← hc.mergeAll (mergesAt L xs thr g); Outcome.ok (h', true)) = _
    rw [← hcs, hc1]
    rfl
  refine ⟨g, gam, habs, hmerge, ?_⟩
  by_cases hstuck : ∃ b ∈ hc.gamma.getLast?, b < g
  · left
    obtain ⟨b, hb1, hb2⟩ := hstuck
    refine ⟨b, hb1, hb2, ?_⟩
    rw [hstep]
    have := mergeAll_refused hinv hsize hb1 hb2 cs hrange hval
    rw [hc1] at this
    cases this
    rfl
  right
  have hAabove : ∀ a ∈ A, g ≤ a.val := by
    intro a ha
    have hmemb := (hinv.mem a.val).2 ⟨a, ha, rfl⟩
    obtain ⟨b, hbl⟩ : ∃ b, b ∈ hc.gamma.getLast? := by
      cases hgl : hc.gamma.getLast? with
      | none => rw [List.getLast?_eq_none_iff] at hgl; rw [hgl] at hmemb; simp at hmemb
      | some b => exact ⟨b, rfl⟩
    refine le_trans ?_ (hinv.last b hbl a ha)
    by_contra hlt
    exact hstuck ⟨b, hbl, not_le.1 hlt⟩
  have hjoin := joined_acceptedFrom cs A (fun a ha c hc' => by rw [hval c hc']; exact hAabove a ha)
    (List.pairwise_of_forall_mem_list fun a ha b hb' => by rw [hval a ha, hval b hb'])
  obtain ⟨L', hL1', hL2'⟩ := getPartition_spec hc3.forest (by rw [hc2]; exact hn) ⊥
  rw [hc2] at hL2'
  have hL3' := hL2'.congr (hc3.fj ⊥)
  have hP' := clustering_partition hL3'
  have hsame' : ∀ v w, v < n → w < n → (Same (toPartition L') v w ↔ Joined (A ++ cs) ⊥ v w) := by
    intro v w hv hw
    rw [clustering_same hL3' hv hw, hjoin]
  have hPP' : Refines P (toPartition L') := by
    apply refines_of_same hpart hP'
    intro u v huv
    have hu := Finset.mem_range.1 (huv.mem_left hpart)
    have hv := Finset.mem_range.1 (huv.mem_right hpart)
    rw [hsame' u v hu hv]
    exact eqvGen_imp (fun x z ⟨c, h1, h2⟩ => EqvGen.rel _ _ ⟨c, List.mem_append_left _ h1, h2⟩) _ _
      ((hsame u v hu hv).1 huv)
  have hPne : P ≠ toPartition L' := by
    intro he
    have h1 : Same P ((L.getD j1 []).headD 0) ((L.getD i1 []).headD 0) := by
      rw [he, hsame' _ _ (hheadlt _ hj1) (hheadlt _ (hi1.trans hj1))]
      exact EqvGen.rel _ _ ⟨_, List.mem_append_right _ hlink, rfl, rfl, WithBot.bot_lt_coe _⟩
    rw [← hPC] at h1
    obtain ⟨l, hl, h2, h3⟩ := same_blockSet.1 h1
    have e1 := hb.disjoint _ _ _ hl hj1 h2 (clustering_head hL3 hj1)
    have e2 := hb.disjoint _ _ _ hl (hi1.trans hj1) h3 (clustering_head hL3 (hi1.trans hj1))
    omega
  -- the last value
  obtain ⟨hsub1, hsub2⟩ := acceptedFrom_sub cs A
  have hnew : ∃ a ∈ acceptedFrom A cs, a.val = g := by
    by_contra hno
    apply hPne
    apply eq_of_same hpart hP'
    intro v w
    by_cases hv : v < n
    · by_cases hw : w < n
      · rw [hsame v w hv hw, clustering_same hL3' hv hw]
        refine eqvGen_congr ?_ ?_ v w
        · rintro a b ⟨c, h1, h2⟩; exact EqvGen.rel _ _ ⟨c, hsub1 c h1, h2⟩
        · rintro a b ⟨c, h1, h2⟩
          rcases hsub2 c h1 with h3 | h3
          · exact EqvGen.rel _ _ ⟨c, h3, h2⟩
          · exact absurd ⟨c, h1, hval c h3⟩ hno
      · constructor
        · intro hh'; exact absurd (Finset.mem_range.1 (hh'.mem_right hpart)) hw
        · intro hh'; exact absurd (Finset.mem_range.1 (hh'.mem_right hP')) hw
    · constructor
      · intro hh'; exact absurd (Finset.mem_range.1 (hh'.mem_left hpart)) hv
      · intro hh'; exact absurd (Finset.mem_range.1 (hh'.mem_left hP')) hv
  have hlast : hc'.gamma.getLast? = some g := by
    obtain ⟨a, ha, hag⟩ := hnew
    have hgm : g ∈ hc'.gamma := (hc3.mem g).2 ⟨a, ha, hag⟩
    obtain ⟨l, hl⟩ : ∃ l, hc'.gamma.getLast? = some l := by
      cases hgl : hc'.gamma.getLast? with
      | none => rw [List.getLast?_eq_none_iff] at hgl; rw [hgl] at hgm; simp at hgm
      | some l => exact ⟨l, rfl⟩
    have h1 := hc3.last l hl a ha
    obtain ⟨b, hb', hbl⟩ := (hc3.mem l).1 (List.mem_of_getLast? hl)
    rw [hl]
    rcases hsub2 b hb' with h2 | h2
    · have := hAabove b h2
      rw [hag] at h1
      rw [le_antisymm h1 (hbl ▸ this)]
    · rw [← hbl, hval b h2]
  -- a partition that is nearly as cheap
  have hτ : 0 ≤ tol + 2 * δ := by linarith
  set T : ℕ → Finset ℕ := fun j => insert j ((Finset.range j).filter fun i => y j i ≤ -gam + (tol + 2 * δ)) with hT
  have hTk : ∀ j, j < k → T j ⊆ Finset.range k := fun j hj => insert_subset_range hj (Finset.filter_subset _ _)
  have hTne : ∀ j, (T j).Nonempty := fun j => ⟨j, Finset.mem_insert_self _ _⟩
  obtain ⟨J, hJ, hPJ, hJU, hJc⟩ := merge_together (d := (tol + 2 * δ) * n) hh hpart
    (fun R hR hPR => (hmerge gam).1 le_rfl R hR hPR) (fun j => (T j).biUnion C) k (by
      intro j hj
      have hQ := mergeSet_partition hb (hTk j hj) (hTne j)
      refine ⟨mergeSet k C (T j), hQ, hPC ▸ mergeSet_refines, Finset.mem_insert_self _ _, ?_⟩
      have h1 := mergeSet_cost (h := φ) hb (hTk j hj) (hTne j) gam
      rw [hPC] at h1
      have h2 := hround.level_price hb hh hτ hj
      have h3 : (tol + 2 * δ) * (k : ℚ) ≤ (tol + 2 * δ) * n := mul_le_mul_of_nonneg_left (by exact_mod_cast hkn) hτ
      linarith)
  have hJref : Refines (toPartition L') J := by
    apply refines_of_same hP' hJ
    intro u v huv
    have hu := Finset.mem_range.1 (huv.mem_left hP')
    have hv := Finset.mem_range.1 (huv.mem_right hP')
    have hj := (hsame' u v hu hv).1 huv
    have key : ∀ a b, Joined (A ++ cs) ⊥ a b → a = b ∨ Same J a b := by
      intro a b hab
      induction hab with
      | rel a b hab =>
        right
        obtain ⟨c, hcm, rfl, rfl, -⟩ := hab
        rcases List.mem_append.1 hcm with hcm | hcm
        · obtain ⟨r1, r2⟩ := hinv.range c hcm
          rw [hsize] at r1 r2
          exact hPJ.same ((hsame _ _ r1 r2).2 (EqvGen.rel _ _ ⟨c, hcm, rfl, rfl, WithBot.bot_lt_coe _⟩))
        · obtain ⟨j, i, h1, h2, h3, rfl⟩ := hcsmem c hcm
          obtain ⟨B, hB, hUB⟩ := hJU j h1
          refine ⟨B, hB, hUB ?_, hUB ?_⟩
          · exact Finset.mem_biUnion.2 ⟨j, Finset.mem_insert_self _ _, clustering_head hL3 h1⟩
          · exact Finset.mem_biUnion.2 ⟨i, Finset.mem_insert_of_mem (Finset.mem_filter.2 ⟨Finset.mem_range.2 h2, h3⟩),
              clustering_head hL3 (h2.trans h1)⟩
      | refl a => exact .inl rfl
      | symm a b _ ih =>
        rcases ih with rfl | ⟨B, hB, h1, h2⟩
        · exact .inl rfl
        · exact .inr ⟨B, hB, h2, h1⟩
      | trans a b c _ _ ih1 ih2 =>
        rcases ih1 with rfl | ⟨B, hB, h1, h2⟩
        · exact ih2
        · rcases ih2 with rfl | ⟨B', hB', h3, h4⟩
          · exact .inr ⟨B, hB, h1, h2⟩
          · rw [← hJ.eq_of_mem hB hB' h2 h3] at h4
            exact .inr ⟨B, hB, h1, h4⟩
    rcases key u v hj with rfl | h1
    · obtain ⟨B, hB, huB⟩ := hJ.exists_block (Finset.mem_range.2 hu)
      exact ⟨B, hB, huB, huB⟩
    · exact h1
  refine ⟨hc', acceptedFrom A cs, L', J, hstep, hL1', hlast, hc3, hc2, hP', ?_,
    fun b hb' => not_lt.1 fun hlt => hstuck ⟨b, hb', hlt⟩, hPP', hPne, hJ, hJref, ?_⟩
  · intro v w hv hw
    exact clustering_same hL3' hv hw
  · have h1 : (k : ℚ) * ((tol + 2 * δ) * n) ≤ n * ((tol + 2 * δ) * n) :=
      mul_le_mul_of_nonneg_right (by exact_mod_cast hkn) (mul_nonneg hτ (Nat.cast_nonneg _))
    linarith

/-! ### the loop -/

/-- What a round may add to the error. -/
def roundError (n : ℕ) (tol δ : ℚ) : ℚ := n * ((tol + 2 * δ) * n) + 2 * δ * n + 2 * δ * n

theorem roundError_nonneg (htol : 0 ≤ tol) (hδ : 0 ≤ δ) : 0 ≤ roundError n tol δ := by
  unfold roundError
  positivity

/-- The error of all rounds. -/
def runError (n : ℕ) (tol δ : ℚ) : ℚ := n * roundError n tol δ + δ * n

/-- The state of the run: the clusters, and below them the earlier partitions with the values that were found from
them. -/
structure NearState (φ : Finset ℕ → ℚ) (n : ℕ) (tol δ : ℚ) (hc : HC) (A : List Link) (P : Partition)
    (t : List (ℚ × ℚ × Partition)) : Prop where
  inv : HCInv hc A
  size : hc.n = n
  same : ∀ v w, v < n → w < n → (Same P v w ↔ Joined A ⊥ v w)
  part : IsPartition (Finset.range n) P
  count : P.card + t.length ≤ n
  start : t = [] → P = singletons (Finset.range n)
  last : t ≠ [] → (t.map (·.2.2)).getLast? = some (singletons (Finset.range n))
  top : ∀ g b P0 t', t = (g, b, P0) :: t' → b = g ∧ hc.gamma.getLast? = some g ∧ Finer P P0 ∧
    NChainSF φ (Finset.range n) (runError n tol δ) 0 g P0 t' ∧
    ∃ gam J, |g - gam| ≤ δ ∧ IsNearOptimalSF φ (Finset.range n) (t'.length * roundError n tol δ) gam P0 ∧
      IsPartition (Finset.range n) J ∧ Refines P J ∧ costSF φ gam J ≤ costSF φ gam P0 + n * ((tol + 2 * δ) * n)

section state

variable {hc : HC} {A : List Link} {P : Partition} {t : List (ℚ × ℚ × Partition)}

/-- The partition of the state is nearly optimal at the exact value it was found with, if the next exact value is not much
larger. -/
theorem NearState.near_top (hs : NearState φ n tol δ hc A P t) (hδ : 0 ≤ δ) (htol : 0 ≤ tol) {g b : ℚ} {P0 : Partition}
    {t' : List (ℚ × ℚ × Partition)} (ht : t = (g, b, P0) :: t') {m : ℚ} (hm : m ≤ g + δ)
    (hcoarse : ∀ lam, m ≤ lam → ∀ R, IsPartition (Finset.range n) R → Refines P R → costSF φ lam P ≤ costSF φ lam R) :
    ∃ gam, |g - gam| ≤ δ ∧
      IsNearOptimalSF φ (Finset.range n) (t'.length * roundError n tol δ + n * ((tol + 2 * δ) * n) + 2 * δ * n) gam P ∧
      NChainSF φ (Finset.range n) (runError n tol δ) 0 g P t := by
  obtain ⟨rfl, hlast, hfiner, hchain, gam, J, h1, h2, h3, h4, h5⟩ := hs.top g b P0 t' ht
  obtain ⟨ha1, ha2⟩ := abs_le.1 h1
  have h6 := near_next h2 hs.part (σ := 2 * δ) (by linarith) (m := m) (by linarith) hcoarse h3 h4 h5
  rw [Finset.card_range] at h6
  have hD := roundError_nonneg (n := n) htol hδ
  have hlen : (t'.length : ℚ) + 1 ≤ n := by
    have := hs.count
    rw [ht, List.length_cons] at this
    have h7 : t'.length + 1 ≤ n := by omega
    exact_mod_cast h7
  have h7 : ((t'.length : ℚ) + 1) * roundError n tol δ ≤ n * roundError n tol δ := mul_le_mul_of_nonneg_right hlen hD
  have h8 : 0 ≤ 2 * δ * (n : ℚ) := by positivity
  have e : roundError n tol δ = n * ((tol + 2 * δ) * n) + 2 * δ * n + 2 * δ * n := rfl
  have e' : runError n tol δ = n * roundError n tol δ + δ * n := rfl
  refine ⟨gam, h1, h6, ?_⟩
  rw [ht]
  refine ⟨le_rfl, by simp, by simp, ?_, ?_, hfiner, hchain⟩
  · have := near_shiftSF h6 h1
    rw [Finset.card_range] at this
    exact near_monoSF this (by linarith)
  · have := near_shiftSF h2 h1
    rw [Finset.card_range] at this
    exact near_monoSF this (by linarith)

end state

theorem refines_top {V : Finset ℕ} (hV : V.Nonempty) {R : Partition} (hR : IsPartition V R) (h : Refines {V} R) : R = {V} := by
  obtain ⟨A, hA, hVA⟩ := h V (Finset.mem_singleton_self V)
  have : A = V := Finset.Subset.antisymm (hR.subset hA) hVA
  subst this
  ext B
  rw [Finset.mem_singleton]
  constructor
  · intro hB
    obtain ⟨v, hv⟩ := hR.nonempty hB
    exact hR.eq_of_mem hB hA hv (hR.subset hB hv)
  · rintro rfl; exact hA

/-- The loop never ends, or returns nearly optimal partitions. -/
theorem loopWith_near (hn : 0 < n) (hφ : Intersecting (Finset.range n) φ) (hδ : 0 ≤ δ)
    (htol : 0 ≤ tol) (hm : WithinError mnb contract thr φ n tol δ D) :
    ∀ (fuel : ℕ) (hc : HC) (A : List Link) (P : Partition) (t : List (ℚ × ℚ × Partition)),
      NearState φ n tol δ hc A P t →
      (∀ hc', Reached (agglomerateWith mnb contract thr) hc hc' → ∀ L, hc'.getPartition ⊥ = .ok L → D L) →
      loopWith (agglomerateWith mnb contract thr) fuel hc (P :: t.map (·.2.2)) (t.map (·.1)) = .fuel ∨
      ∃ ps cv, loopWith (agglomerateWith mnb contract thr) fuel hc (P :: t.map (·.2.2)) (t.map (·.1)) = .ok (ps, cv) ∧
        IsApproximateSequenceSF φ (Finset.range n) (runError n tol δ) ps cv := by
  intro fuel
  induction fuel with
  | zero => intro hc A P t _ _; exact .inl rfl
  | succ fuel ih =>
    intro hc A P t hs hD
    have hVne : (Finset.range n).Nonempty := ⟨0, Finset.mem_range.2 hn⟩
    rcases agglomerateWith_near hn hφ hδ htol hm hs.inv hs.size hs.same hs.part (hD hc .start) with ⟨h1, h2⟩ |
      ⟨g, gam, habs, hmerge, ⟨b, hb, hlt, h1⟩ | ⟨hc', A', L', J, h1, h2, h3, h4, h5, h6, h7, h8, h9, h10, h11, h12, h13⟩⟩
    · -- the end
      have hres : loopWith (agglomerateWith mnb contract thr) (fuel + 1) hc (P :: t.map (·.2.2)) (t.map (·.1)) =
          .ok (P :: t.map (·.2.2), t.map (·.1)) := by
        simp only [loopWith, h1, Outcome.ok_bind]
        rfl
      refine .inr ⟨_, _, hres, ?_⟩
      have htriv : ∀ (m : ℚ) lam, m ≤ lam → ∀ R, IsPartition (Finset.range n) R → Refines P R →
          costSF φ lam P ≤ costSF φ lam R := by
        intro m lam _ R hR hPR
        rw [h2] at hPR ⊢
        rw [refines_top hVne hR hPR]
      have hpos : 0 ≤ runError n tol δ := by
        have := roundError_nonneg (n := n) htol hδ
        unfold runError
        positivity
      cases t with
      | nil =>
        have hPs := hs.start rfl
        refine ⟨rfl, by rw [h2]; rfl, by rw [hPs]; rfl, by simp, by simp, ?_⟩
        intro i Q lam hi _ _
        have hi0 : i = 0 := by
          have := (List.getElem?_eq_some_iff.1 hi).1
          simpa using this
        subst hi0
        have hQ : P = Q := by simpa using hi
        subst hQ
        refine ⟨hs.part, fun R hR => ?_⟩
        have hc1 : (Finset.range n).card = 1 := by
          have := card_singletons (Finset.range n)
          rw [← hPs, h2, Finset.card_singleton] at this
          exact this.symm
        have hR1 : R = {Finset.range n} := by
          have h3 := hR.card_le
          have h4 := hR.card_pos hVne
          exact hR.eq_single_of_card (by omega)
        rw [hR1, ← h2]
        linarith
      | cons x t' =>
        obtain ⟨g, b, P0⟩ := x
        obtain ⟨gam, -, -, hchain⟩ := hs.near_top hδ htol rfl (m := g) (by linarith) (htriv g)
        rw [h2] at hchain ⊢
        have := hchain.approx hVne le_rfl (by simp) (hs.last (by simp))
        rw [mul_zero, zero_mul, add_zero] at this
        have hsorted : (((g, b, P0) :: t').map (·.1)).Pairwise (· ≤ ·) := by
          have hc1 := hchain.clamped_close le_rfl
          have hc2 := hchain.clamped_sorted.1
          have : ((g, b, P0) :: t').map (·.1) = clamped g ((g, b, P0) :: t') := by
            apply List.forall₂_eq_eq_eq ▸ hc1.imp fun x y hxy => ?_
            exact sub_eq_zero.1 (abs_eq_zero.1 (le_antisymm hxy (abs_nonneg _)))
          rw [this]
          exact hc2
        rw [hsorted.insertionSort_eq] at this
        exact this
    · -- stuck
      left
      obtain ⟨L, hL, -⟩ := getPartition_spec hs.inv.forest (by rw [hs.size]; exact hn) ⊥
      have hL' : hc.getCoarsestPartition = .ok L := hL
      have hb' : hc.getCriticalValues.getLast? = some b := hb
      have hfe : ∀ (k : ℕ) (ps : List Partition) (cv : List ℚ),
          loopWith (agglomerateWith mnb contract thr) k hc ps cv = .fuel := by
        intro k
        induction k with
        | zero => intro ps cv; rfl
        | succ k ih =>
          intro ps cv
          simp only [loopWith, h1, Outcome.ok_bind, if_true, hL', hb']
          exact ih _ _
      exact hfe _ _ _
    · have h3' : hc'.getCriticalValues.getLast? = some g := h3
      simp only [loopWith, h1, Outcome.ok_bind, if_true, h2, h3']
      have hcoarse : ∀ lam, gam ≤ lam → ∀ R, IsPartition (Finset.range n) R → Refines P R → costSF φ lam P ≤ costSF φ lam R :=
        fun lam hl R hR hPR => (hmerge lam).1 hl R hR hPR
      obtain ⟨ha1, ha2⟩ := abs_le.1 habs
      have hfin : Finer (toPartition L') P := ⟨h9, h10⟩
      refine ih hc' A' (toPartition L') ((g, g, P) :: t) ⟨h4, h5, h7, h6, ?_, by simp, ?_, ?_⟩
        (fun hc'' hr => hD hc'' (hr.trans_next h1))
      · have := Refines.card_lt hs.part h6 h9 h10
        have := hs.count
        rw [List.length_cons]
        omega
      · intro _
        cases t with
        | nil => rw [hs.start rfl]; rfl
        | cons x t' =>
          have := hs.last (by simp)
          rw [List.map_cons, List.getLast?_cons, this]
          rfl
      · intro g' b' P0' t'' he
        cases he
        refine ⟨rfl, h3, hfin, ?_, gam, J, habs, ?_, h11, h12, h13⟩
        · cases t with
          | nil => trivial
          | cons x t' =>
            obtain ⟨g0, b0, P0⟩ := x
            obtain ⟨hbg, hl, -⟩ := hs.top g0 b0 P0 t' rfl
            have hgg := h8 g0 hl
            obtain ⟨gam0, k1, k2, k3⟩ := hs.near_top hδ htol rfl (m := gam) (by linarith) hcoarse
            obtain ⟨m1, m2, m3, m4⟩ := k3
            refine ⟨by rw [hbg]; exact hgg, ?_, m3, m4⟩
            show g - 0 ≤ g0
            linarith
        · cases t with
          | nil =>
            refine ⟨hs.part, fun R hR => ?_⟩
            have : Refines P R := by
              rw [hs.start rfl]
              exact singletons_refines hR
            have := hcoarse gam le_rfl R hR this
            simpa using this
          | cons x t' =>
            obtain ⟨g0, b0, P0⟩ := x
            obtain ⟨hbg, hl, -⟩ := hs.top g0 b0 P0 t' rfl
            have hgg := h8 g0 hl
            obtain ⟨gam0, k1, k2, -⟩ := hs.near_top hδ htol rfl (m := gam) (by linarith) hcoarse
            obtain ⟨d1, d2⟩ := abs_le.1 k1
            have := near_of_coarser hφ k2 (σ := 2 * δ) (m := gam) (by linarith) (by linarith) (hcoarse gam le_rfl)
            rw [Finset.card_range] at this
            refine near_monoSF this (le_of_eq ?_)
            rw [List.length_cons]
            push_cast
            unfold roundError
            ring

/-- The clusters at the beginning. -/
theorem new_coarsest (hn : 0 < n) : ∃ L, (HC.new n).getCoarsestPartition = .ok L ∧ IsClustering n (Joined [] ⊥) L ∧
    toPartition L = singletons (Finset.range n) := by
  have hinv := HCInv.new n
  obtain ⟨L, hL1, hL2⟩ := getPartition_spec hinv.forest (show 0 < (HC.new n).n from hn) ⊥
  have hL3 : IsClustering n (Joined [] ⊥) L := hL2.congr (hinv.fj ⊥)
  have hpart := clustering_partition hL3
  refine ⟨L, hL1, hL3, ?_⟩
  apply eq_of_same hpart (isPartition_singletons _)
  intro v w
  by_cases hv : v < n
  · rw [same_singletons (Finset.mem_range.2 hv)]
    by_cases hw : w < n
    · rw [clustering_same hL3 hv hw, joined_nil]
    · constructor
      · intro hh'; exact absurd (Finset.mem_range.1 (hh'.mem_right hpart)) hw
      · intro he; omega
  · constructor
    · intro hh'
      exact absurd (Finset.mem_range.1 (hh'.mem_left hpart)) hv
    · intro hh'
      exact absurd (Finset.mem_range.1 (hh'.mem_left (isPartition_singletons _))) hv

/-- The whole run. -/
theorem runWith_near (hn : 0 < n) (hφ : Intersecting (Finset.range n) φ) (hδ : 0 ≤ δ)
    (htol : 0 ≤ tol) (hm : WithinError mnb contract thr φ n tol δ D)
    (hD : ∀ hc, Reached (agglomerateWith mnb contract thr) (HC.new n) hc → ∀ L, hc.getPartition ⊥ = .ok L → D L)
    (fuel : ℕ) :
    loopWith (agglomerateWith mnb contract thr) fuel (HC.new n) [singletons (Finset.range n)] [] = .fuel ∨
    ∃ ps cv, loopWith (agglomerateWith mnb contract thr) fuel (HC.new n) [singletons (Finset.range n)] [] = .ok (ps, cv) ∧
      IsApproximateSequenceSF φ (Finset.range n) (runError n tol δ) ps cv := by
  obtain ⟨L, hL1, hL3, hfine⟩ := new_coarsest hn
  refine loopWith_near hn hφ hδ htol hm fuel _ _ _ [] ⟨HCInv.new n, rfl, fun v w hv hw => ?_, isPartition_singletons _, ?_,
    fun _ => rfl, by simp, by simp⟩ hD
  · rw [← hfine]; exact clustering_same hL3 hv hw
  · rw [card_singletons, Finset.card_range]; simp

/-- A digraph: the cost under the set function is the cost of the arcs up to a constant. -/
theorem approx_of_incident {E : List Arc} {V : Finset ℕ} (hW : Within E V) {C : ℚ} {Ps : List Partition} {cv : List ℚ}
    (h : IsApproximateSequenceSF (incident E) V C Ps cv) : IsApproximateSequence E V C Ps cv := by
  refine ⟨h.length, h.first, h.last, h.refine, h.nondecreasing, fun i P lam a b c => ?_⟩
  obtain ⟨h1, h2⟩ := h.optimal i P lam a b c
  refine ⟨h1, fun R hR => ?_⟩
  have h3 := h2 R hR
  rw [costSF_eq, costSF_eq, sum_incident hW h1, sum_incident hW hR] at h3
  unfold cost
  linarith

end PSP.Theory
