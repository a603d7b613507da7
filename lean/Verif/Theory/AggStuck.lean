import Verif.Theory.AggEnds
import Verif.Theory.AICRun

/-!
# When a round of `agg_psp` merges nothing
-/

namespace PSP.Theory

open PSP.Model PSP.Spec

/-- Values above the last critical value are refused. -/
theorem mergeAll_refused {n : ℕ} {h : HC} {A : List Link} {g b : ℚ} (hv : HCInv h A) (hn : h.n = n)
    (hb : b ∈ h.gamma.getLast?) (hlt : b < g) : ∀ cs : List Link, InRange n cs → (∀ c ∈ cs, c.val = g) →
    h.mergeAll cs = .ok h := by
  intro cs
  induction cs with
  | nil => intro _ _; rfl
  | cons c cs ih =>
    intro hr hval
    obtain ⟨h', h1, -, -⟩ := merge_spec hv c.val (hn ▸ (hr c (by simp)).1) (hn ▸ (hr c (by simp)).2)
    have hna : ¬ Accepts A ⟨c.i, c.j, c.val⟩ := by
      rintro ⟨-, h2⟩
      obtain ⟨a, ha, hag⟩ := (hv.mem b).1 (HCInv.getLast_mem hb)
      have := h2 a ha
      rw [hval c (by simp), hag] at this
      exact absurd this (not_le.2 hlt)
    have h3 : h' = h := by
      have h4 := h1
      unfold HC.merge at h4
      obtain ⟨x, hx, h4⟩ := Outcome.bind_eq_ok h4
      obtain ⟨y, hy, h4⟩ := Outcome.bind_eq_ok h4
      simp only [Outcome.pure_eq] at h4
      rw [if_pos] at h4
      · exact (congrArg Prod.fst (Outcome.ok.inj h4)).symm
      · right
        rintro (h5 | ⟨b', hb', h5⟩)
        · rw [h5] at hb; simp at hb
        · rw [Option.mem_unique hb' hb, hval c (by simp)] at h5
          exact absurd h5 (not_le.2 hlt)
    unfold HC.mergeAll
    rw [h1, h3]
    exact ih (fun c hc => hr c (by simp [hc])) (fun c hc => hval c (by simp [hc]))

variable {mnb : SF → Outcome (List ℚ)} {f : SF} {tol : ℚ} {n : ℕ} {h : HC} {A : List Link} {L : List (List ℕ)}

/-- A round merges nothing if and only if its value is above the last critical value. -/
theorem agglomerate_stuck_iff (hv : HCInv h A) (hn : h.n = f.size) (htol : 0 ≤ tol)
    (hm : ∀ j, 1 ≤ j → j < L.length → ∃ x, mnb (sfJoin (sfContract f L) j) = .ok x ∧ x.length = j)
    (hL : h.getPartition ⊥ = .ok L) (hk : 2 ≤ L.length) :
    ∃ xs g h', aicPoints mnb (sfContract f L) ((List.range L.length).drop 1) = .ok xs ∧
      aicGamma xs = ((g : ℚ) : WithBot ℚ) ∧ agglomerate mnb f tol h = .ok (h', true) ∧
      (h' = h ↔ ∃ b ∈ h.getCriticalValues.getLast?, b < g) := by
  have hpos : 0 < f.size := by
    rcases Nat.eq_zero_or_pos f.size with h0 | h0
    · exfalso
      unfold HC.getPartition at hL
      rw [hn, h0] at hL
      simp [HC.LinkList.new] at hL
    · exact h0
  obtain ⟨L0, hL1, hL2⟩ := getPartition_spec hv.forest (by rw [hn]; exact hpos) ⊥
  rw [hL] at hL1
  cases hL1
  rw [hn] at hL2
  have hL3 := hL2.congr (hv.fj ⊥)
  have hb := clustering_blocks hL3
  have hpts : ∀ j ∈ (List.range L.length).drop 1, ∃ x, mnb (sfJoin (sfContract f L) j) = .ok x ∧ x.length = j := by
    intro j hj
    have hjk : 1 ≤ j ∧ j < L.length := by
      rw [List.range_eq_range', List.drop_range', List.mem_range'_1] at hj
      omega
    exact hm j hjk.1 hjk.2
  obtain ⟨xs, hxs, hall⟩ := aicPoints_spec _ hpts
  have hxslen : xs.length = L.length - 1 := by
    rw [← hall.length_eq]; simp
  have hget : ∀ j, 1 ≤ j → j < L.length → (xs.getD (j - 1) []).length = j := by
    intro j hj1 hjk
    have hlt : j - 1 < xs.length := by omega
    have hlt' : j - 1 < ((List.range L.length).drop 1).length := by simp; omega
    have := List.forall₂_iff_get.1 hall |>.2 (j - 1) hlt' hlt
    simp only [List.get_eq_getElem, List.getElem_drop, List.getElem_range] at this
    rw [List.getD_eq_getElem?_getD, List.getElem?_eq_getElem hlt, Option.getD_some]
    omega
  obtain ⟨g, hg, -, x, hx, hgx⟩ := aicGamma_spec (xs := xs) (by
    intro h; rw [h] at hxslen; simp at hxslen; omega)
  obtain ⟨m, hm1, hm2⟩ := List.mem_iff_getElem.1 hx
  have hmem : minCoeff x ∈ x := by
    apply minCoeff_mem
    intro h0
    have := hget (m + 1) (by omega) (by omega)
    rw [Nat.add_sub_cancel, List.getD_eq_getElem?_getD, List.getElem?_eq_getElem hm1, Option.getD_some, hm2, h0] at this
    simp at this
  obtain ⟨i, hi1, hi2⟩ := List.mem_iff_getElem.1 hmem
  have hxm : xs.getD m [] = x := by
    rw [List.getD_eq_getElem?_getD, List.getElem?_eq_getElem hm1, Option.getD_some, hm2]
  have him : i < m + 1 := by
    have := hget (m + 1) (by omega) (by omega)
    rw [Nat.add_sub_cancel, hxm] at this
    omega
  have hheadlt : ∀ i, i < L.length → (L.getD i []).headD 0 < f.size := fun i hi =>
    Finset.mem_range.1 (hb.subset hi (clustering_head hL3 hi))
  have hrange : InRange f.size (aicMerges L xs tol g) := by
    intro c hc
    obtain ⟨j, i, h1, h2, -, rfl⟩ := mem_aicMerges.1 hc
    exact ⟨hheadlt j h1, hheadlt i (h2.trans h1)⟩
  have hval : ∀ c ∈ aicMerges L xs tol g, c.val = g := by
    intro c hc
    obtain ⟨j, i, -, -, -, rfl⟩ := mem_aicMerges.1 hc
    rfl
  have hc0 : (⟨(L.getD (m + 1) []).headD 0, (L.getD i []).headD 0, g⟩ : Link) ∈ aicMerges L xs tol g := by
    refine mem_aicMerges.2 ⟨m + 1, i, by omega, him, ?_, rfl⟩
    rw [Nat.add_sub_cancel, hxm, List.getD_eq_getElem?_getD, List.getElem?_eq_getElem hi1, Option.getD_some, hi2, hgx]
    linarith
  obtain ⟨h', k1, k2, k3⟩ := mergeAll_from _ hv hn hrange
  refine ⟨xs, g, h', hxs, hg, ?_, ?_⟩
  · unfold agglomerate
    rw [hL]
    simp only [Outcome.ok_bind]
    rw [if_neg (by omega), hxs]
    simp only [Outcome.ok_bind]
    rw [hg]
    show (do let h' ← h.mergeAll (aicMerges L xs tol g); Outcome.ok (h', true)) = _
    rw [k1]
    rfl
  · constructor
    · intro he
      by_contra hcon
      have hle : ∀ a ∈ A, g ≤ a.val := by
        intro a ha
        have hmemb := (hv.mem a.val).2 ⟨a, ha, rfl⟩
        obtain ⟨b, hbl⟩ : ∃ b, b ∈ h.gamma.getLast? := by
          cases hgl : h.gamma.getLast? with
          | none => rw [List.getLast?_eq_none_iff] at hgl; rw [hgl] at hmemb; simp at hmemb
          | some b => exact ⟨b, rfl⟩
        refine le_trans ?_ (hv.last b hbl a ha)
        by_contra hlt
        exact hcon ⟨b, hbl, not_le.1 hlt⟩
      have hjoin := joined_acceptedFrom (aicMerges L xs tol g) A (fun a ha c hc' => by rw [hval c hc']; exact hle a ha)
        (List.pairwise_of_forall_mem_list fun a ha b hb' => by rw [hval a ha, hval b hb'])
      have hJ : Joined A ⊥ ((L.getD (m + 1) []).headD 0) ((L.getD i []).headD 0) := by
        rw [he] at k3
        rw [← hv.fj, k3.fj, hjoin]
        exact Relation.EqvGen.rel _ _ ⟨_, List.mem_append_right _ hc0, rfl, rfl, WithBot.bot_lt_coe _⟩
      have hm1L : m + 1 < L.length := by omega
      obtain ⟨B, hB, hB1, hB2⟩ := (hL3.together _ _ (hheadlt _ hm1L) (hheadlt _ (him.trans hm1L))).2 hJ
      obtain ⟨q, hq1, hq2⟩ := List.mem_iff_getElem.1 hB
      have hBq : ∀ v, v ∈ B → v ∈ blockAt L q := by
        intro v hv
        unfold blockAt
        rw [List.getD_eq_getElem?_getD, List.getElem?_eq_getElem hq1, Option.getD_some, hq2]
        exact List.mem_toFinset.2 hv
      have e1 := hb.disjoint _ _ _ hq1 hm1L (hBq _ hB1) (clustering_head hL3 hm1L)
      have e2 := hb.disjoint _ _ _ hq1 (him.trans hm1L) (hBq _ hB2) (clustering_head hL3 (him.trans hm1L))
      omega
    · rintro ⟨b, hb1, hb2⟩
      have := mergeAll_refused hv hn hb1 hb2 _ hrange hval
      rw [this] at k1
      cases k1
      rfl

end PSP.Theory
