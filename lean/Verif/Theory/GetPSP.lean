import Verif.Model.GetPSP
import Verif.Spec.Tree
import Verif.Theory.CountStar

/-!
# `get_psp` on stars
-/

namespace PSP.Theory

open PSP.Spec PSP.Model

/-- The partition of `0..m` into `T` and singletons. -/
def starBlocks (m : ℕ) (T : Finset ℕ) : Finset (Finset ℕ) :=
  insert T ((Finset.range (m + 1) \ T).image fun i => {i})

variable {m : ℕ} {T : Finset ℕ} {w : ℕ → ℚ}

/-- A star with centre `0`. -/
def starE (m : ℕ) (w : ℕ → ℚ) : List Arc := (List.range m).map fun i => ⟨0, i + 1, w (i + 1)⟩

theorem crossWeight_starE (m : ℕ) (w : ℕ → ℚ) (P : Finset (Finset ℕ)) : crossWeight (starE m w) P =
    ∑ i ∈ (Finset.Icc 1 m).filter fun i => ¬ Same P 0 i, w i := by
  unfold crossWeight starE
  rw [List.map_map, Finset.sum_filter, ← list_sum_range_succ]
  congr 1
  refine List.map_congr_left fun i _ => ?_
  simp only [Function.comp, ite_not]

theorem starBlocks_partition (h0 : 0 ∈ T) (hT : T ⊆ Finset.range (m + 1)) :
    IsPartition (Finset.range (m + 1)) (starBlocks m T) := by
  constructor
  · intro B hB
    rcases Finset.mem_insert.1 hB with rfl | hB
    · exact ⟨⟨0, h0⟩, hT⟩
    · obtain ⟨i, hi, rfl⟩ := Finset.mem_image.1 hB
      exact ⟨⟨i, by simp⟩, by simpa using (Finset.mem_sdiff.1 hi).1⟩
  · intro v hv
    by_cases hvT : v ∈ T
    · refine ⟨T, ⟨Finset.mem_insert_self _ _, hvT⟩, ?_⟩
      rintro B ⟨hB, hvB⟩
      rcases Finset.mem_insert.1 hB with rfl | hB
      · rfl
      · obtain ⟨i, hi, rfl⟩ := Finset.mem_image.1 hB
        rw [Finset.mem_singleton] at hvB
        subst hvB
        exact absurd hvT (Finset.mem_sdiff.1 hi).2
    · refine ⟨{v}, ⟨Finset.mem_insert_of_mem (Finset.mem_image.2 ⟨v, Finset.mem_sdiff.2 ⟨hv, hvT⟩, rfl⟩),
        by simp⟩, ?_⟩
      rintro B ⟨hB, hvB⟩
      rcases Finset.mem_insert.1 hB with rfl | hB
      · exact absurd hvB hvT
      · obtain ⟨i, hi, rfl⟩ := Finset.mem_image.1 hB
        rw [Finset.mem_singleton] at hvB
        rw [hvB]

theorem starBlocks_same (h0 : 0 ∈ T) (hT : T ⊆ Finset.range (m + 1)) (i : ℕ) :
    Same (starBlocks m T) 0 i ↔ i ∈ T := by
  constructor
  · rintro ⟨B, hB, h1, h2⟩
    rcases Finset.mem_insert.1 hB with rfl | hB
    · exact h2
    · obtain ⟨k, hk, rfl⟩ := Finset.mem_image.1 hB
      rw [Finset.mem_singleton] at h1
      subst h1
      exact absurd h0 (Finset.mem_sdiff.1 hk).2
  · exact fun h => ⟨T, Finset.mem_insert_self _ _, h0, h⟩

theorem starBlocks_card (h0 : 0 ∈ T) :
    (starBlocks m T).card = (Finset.range (m + 1) \ T).card + 1 := by
  unfold starBlocks
  rw [Finset.card_insert_of_notMem, Finset.card_image_of_injective _ Finset.singleton_injective]
  rw [Finset.mem_image]
  rintro ⟨i, hi, h⟩
  rw [← h, Finset.mem_singleton] at h0
  subst h0
  have : 0 ∈ T := by rw [← h]; simp
  exact (Finset.mem_sdiff.1 hi).2 this

theorem starBlocks_cost (h0 : 0 ∈ T) (hT : T ⊆ Finset.range (m + 1)) (lam : ℚ) :
    cost (starE m w) lam (starBlocks m T) = ∑ i ∈ (Finset.Icc 1 m).filter fun i => i ∉ T, (w i - lam) - lam := by
  have h : Finset.range (m + 1) \ T = (Finset.Icc 1 m).filter fun i => i ∉ T := by
    ext i
    rw [Finset.mem_sdiff, Finset.mem_range, Finset.mem_filter, Finset.mem_Icc]
    constructor
    · rintro ⟨h1, h2⟩
      refine ⟨⟨?_, by omega⟩, h2⟩
      rcases Nat.eq_zero_or_pos i with h | h
      · subst h; exact absurd h0 h2
      · exact h
    · rintro ⟨⟨_, h1⟩, h2⟩
      exact ⟨by omega, h2⟩
  unfold cost
  rw [crossWeight_starE, starBlocks_card h0, h, Finset.sum_sub_distrib, Finset.sum_const, nsmul_eq_mul]
  simp only [starBlocks_same h0 hT]
  push_cast
  ring

/-- `T` may contain only end points of edges of weight at least `lam`, and must contain those above `lam`. -/
theorem starBlocks_optimal (h0 : 0 ∈ T) (hT : T ⊆ Finset.range (m + 1)) {lam : ℚ}
    (h1 : ∀ i ∈ Finset.Icc 1 m, lam < w i → i ∈ T) (h2 : ∀ i ∈ T, i ≠ 0 → lam ≤ w i)
    (hlam : 0 ≤ lam) : IsOptimal (starE m w) (Finset.range (m + 1)) lam (starBlocks m T) := by
  refine ⟨starBlocks_partition h0 hT, fun R hR => ?_⟩
  rw [starBlocks_cost h0 hT]
  have hc := card_star_le hR
  have hc' : (R.card : ℚ) ≤ ((Finset.Icc 1 m).filter fun i => ¬ Same R 0 i).card + 1 := by exact_mod_cast hc
  have hle : ∑ i ∈ (Finset.Icc 1 m).filter fun i => i ∉ T, (w i - lam) ≤
      ∑ i ∈ (Finset.Icc 1 m).filter fun i => ¬ Same R 0 i, (w i - lam) := by
    rw [Finset.sum_filter, Finset.sum_filter]
    refine Finset.sum_le_sum fun i hi => ?_
    by_cases hiT : i ∈ T
    · rw [if_neg (not_not.2 hiT)]
      have := h2 i hiT (by rw [Finset.mem_Icc] at hi; omega)
      split_ifs <;> linarith
    · rw [if_pos hiT]
      have : w i ≤ lam := le_of_not_gt fun h => hiT (h1 i hi h)
      split_ifs <;> linarith
  unfold cost
  rw [crossWeight_starE]
  rw [Finset.sum_sub_distrib (s := (Finset.Icc 1 m).filter fun i => ¬ Same R 0 i), Finset.sum_const, nsmul_eq_mul]
    at hle
  nlinarith [mul_le_mul_of_nonneg_left hc' hlam]

theorem starBlocks_refines {T' : Finset ℕ} (h : T' ⊆ T) :
    Refines (starBlocks m T') (starBlocks m T) := by
  intro B hB
  rcases Finset.mem_insert.1 hB with rfl | hB
  · exact ⟨T, Finset.mem_insert_self _ _, h⟩
  · obtain ⟨i, hi, rfl⟩ := Finset.mem_image.1 hB
    by_cases hiT : i ∈ T
    · exact ⟨T, Finset.mem_insert_self _ _, by simpa using hiT⟩
    · exact ⟨{i}, Finset.mem_insert_of_mem (Finset.mem_image.2
        ⟨i, Finset.mem_sdiff.2 ⟨(Finset.mem_sdiff.1 hi).1, hiT⟩, rfl⟩), subset_rfl⟩

theorem starBlocks_ne {T' : Finset ℕ} (h0 : 0 ∈ T') (h : T' ⊂ T) (hT : T ⊆ Finset.range (m + 1)) :
    starBlocks m T' ≠ starBlocks m T := by
  intro he
  obtain ⟨i, hi, hi'⟩ := Finset.exists_of_ssubset h
  exact hi' ((starBlocks_same h0 (h.subset.trans hT) i).1 (he ▸ (starBlocks_same (h.subset h0) hT i).2 hi))

/-! ### the loops of the script -/

variable {K : List ℕ} {W : List ℚ}

theorem pyGamma_spec (hW : ∀ j < m + 1, W[j]? = some (w j)) {C : List ℕ} (hC : ∀ i ∈ C, i < m + 1) (g : ℚ) :
    ∃ γ, pyGamma W C g = .ok γ ∧ g ≤ γ ∧ (∀ i ∈ C, w i ≤ γ) ∧ (γ = g ∨ ∃ i ∈ C, γ = w i) := by
  induction C generalizing g with
  | nil => exact ⟨g, rfl, le_rfl, by simp, Or.inl rfl⟩
  | cons i C ih =>
    obtain ⟨γ, h1, h2, h3, h4⟩ := ih (fun k hk => hC k (List.mem_cons_of_mem _ hk)) (if g < w i then w i else g)
    refine ⟨γ, ?_, ?_, ?_, ?_⟩
    · simp only [pyGamma, pyGet, hW i (hC i List.mem_cons_self), Outcome.ok_bind]
      exact h1
    · split_ifs at h2 with h
      · exact h.le.trans h2
      · exact h2
    · intro k hk
      rcases List.mem_cons.1 hk with rfl | hk
      · split_ifs at h2 with h
        · exact h2
        · exact (not_lt.1 h).trans h2
      · exact h3 k hk
    · rcases h4 with h4 | ⟨k, hk, h4⟩
      · split_ifs at h4
        · exact Or.inr ⟨i, List.mem_cons_self, h4⟩
        · exact Or.inl h4
      · exact Or.inr ⟨k, List.mem_cons_of_mem _ hk, h4⟩

theorem pyJoin_star (l : List ℕ) (j : ℕ) :
    pyJoin [(0, l)] j 0 = [(0, l ++ if j = 0 then [] else [j])] := by
  by_cases hj : j = 0
  · subst hj
    simp [pyJoin, PyDict.get]
  · have : ¬ (0 = j) := fun h => hj h.symm
    simp [pyJoin, PyDict.get, PyDict.set, hj, this]

theorem pyJoin_star_nil (j : ℕ) : pyJoin [] j 0 = [(0, [j, 0])] := by
  simp [pyJoin, PyDict.get, PyDict.set]

theorem pyMergeLoop_star (hK : ∀ j < m + 1, K[j]? = some 0) (hW : ∀ j < m + 1, W[j]? = some (w j)) (γ : ℚ)
    {C : List ℕ} (hC : ∀ i ∈ C, i < m + 1) (l acc : List ℕ) :
    pyMergeLoop K W γ C [(0, l)] acc =
      .ok ([(0, l ++ C.filter fun i => ¬ w i < γ ∧ i ≠ 0)], acc ++ C.filter fun i => w i < γ) := by
  induction C generalizing l acc with
  | nil => simp [pyMergeLoop]
  | cons j C ih =>
    have hj := hC j List.mem_cons_self
    have hC' : ∀ i ∈ C, i < m + 1 := fun k hk => hC k (List.mem_cons_of_mem _ hk)
    simp only [pyMergeLoop, pyGet, hW j hj, hK j hj, Outcome.ok_bind]
    by_cases h : w j < γ
    · rw [if_pos h, ih hC']
      simp [h]
    · rw [if_neg h, pyJoin_star, ih hC']
      rcases eq_or_ne j 0 with rfl | h0
      · simp [h]
      · simp [not_lt.1 h, h, h0, List.filter_cons]

theorem pyMergeLoop_star_nil (hK : ∀ j < m + 1, K[j]? = some 0) (hW : ∀ j < m + 1, W[j]? = some (w j)) (γ : ℚ)
    {C : List ℕ} (hC : ∀ i ∈ C, i < m + 1) (acc : List ℕ) (hne : ∃ i ∈ C, ¬ w i < γ) :
    ∃ (A B : List ℕ) (j : ℕ), C = A ++ j :: B ∧ (∀ i ∈ A, w i < γ) ∧ ¬ w j < γ ∧
    pyMergeLoop K W γ C [] acc =
      .ok ([(0, [j, 0] ++ B.filter fun i => ¬ w i < γ ∧ i ≠ 0)], acc ++ C.filter fun i => w i < γ) := by
  induction C generalizing acc with
  | nil => obtain ⟨i, hi, _⟩ := hne; cases hi
  | cons j C ih =>
    have hj := hC j List.mem_cons_self
    have hC' : ∀ i ∈ C, i < m + 1 := fun k hk => hC k (List.mem_cons_of_mem _ hk)
    simp only [pyMergeLoop, pyGet, hW j hj, hK j hj, Outcome.ok_bind]
    by_cases h : w j < γ
    · obtain ⟨i, hi, hi'⟩ := hne
      rcases List.mem_cons.1 hi with rfl | hi
      · exact absurd h hi'
      obtain ⟨A, B, k, h1, h2, h3, h4⟩ := ih hC' (acc ++ [j]) ⟨i, hi, hi'⟩
      refine ⟨j :: A, B, k, by rw [h1]; rfl, ?_, h3, ?_⟩
      · intro x hx
        rcases List.mem_cons.1 hx with rfl | hx
        · exact h
        · exact h2 x hx
      · rw [if_pos h, h4]
        simp [h]
    · refine ⟨[], C, j, rfl, by simp, h, ?_⟩
      rw [if_neg h, pyJoin_star_nil, pyMergeLoop_star hK hW γ hC']
      simp [h]

theorem pyBlocks_star {l : List ℕ} (hl : l.toFinset ⊆ Finset.range (m + 1)) (h0 : 0 ∈ l)
    (h : l.Nodup ∨ l.toFinset = Finset.range (m + 1)) :
    (pyBlocks (m + 1) [(0, l)]).Nodup ∧ (pyBlocks (m + 1) [(0, l)]).toFinset = starBlocks m l.toFinset := by
  have hs : pyBlocks (m + 1) [(0, l)] = l.toFinset ::
      ((List.range (m + 1)).filter fun i => i ∉ l).map fun i => ({i} : Finset ℕ) := by
    simp only [pyBlocks, List.map_cons, List.map_nil, List.flatten_cons, List.flatten_nil, List.append_nil]
    by_cases hlen : l.length < m + 1
    · rw [if_pos hlen]; rfl
    · rw [if_neg hlen]
      have hfull : l.toFinset = Finset.range (m + 1) := by
        rcases h with h | h
        · refine Finset.eq_of_subset_of_card_le hl ?_
          rw [List.toFinset_card_of_nodup h, Finset.card_range]
          omega
        · exact h
      have hnil : ((List.range (m + 1)).filter fun i => i ∉ l) = [] := by
        rw [List.filter_eq_nil_iff]
        intro i hi
        have : i ∈ l.toFinset := by rw [hfull]; simpa using hi
        simpa using this
      rw [hnil]; rfl
  rw [hs]
  constructor
  · rw [List.nodup_cons]
    constructor
    · rw [List.mem_map]
      rintro ⟨i, hi, he⟩
      have h0' : 0 ∈ l.toFinset := by simpa using h0
      rw [← he, Finset.mem_singleton] at h0'
      subst h0'
      simp [h0] at hi
    · exact ((List.nodup_range).filter _).map Finset.singleton_injective
  · rw [List.toFinset_cons]
    unfold starBlocks
    congr 1
    ext B
    simp

/-- What is known between two iterations. -/
structure StarInv (m : ℕ) (w : ℕ → ℚ) (C : List ℕ) (D : PyDict) (L : List ℚ) (Q : List (List CSet)) : Prop where
  lt : ∀ i ∈ C, i < m + 1
  nodup : C.Nodup
  root : 0 ∈ C ∨ C = []
  dict : (D = [] ∧ C = List.range (m + 1)) ∨ ∃ l, D = [(0, l)] ∧
    l.toFinset = insert 0 (Finset.range (m + 1) \ C.toFinset) ∧ (C = [] ∨ l.Nodup)
  blocks : ∀ P ∈ Q, P.Nodup
  low : ∀ i ∈ C, ∀ c ∈ L, w i < c
  heavy : ∀ i < m + 1, i ∉ C → i ≠ 0 → ∀ j ∈ C, w j < w i
  chain : ∃ t, Q.map List.toFinset = starBlocks m (insert 0 (Finset.range (m + 1) \ C.toFinset)) :: t.map Prod.snd ∧
    L = t.map Prod.fst ∧
    Linked (starE m w) (Finset.range (m + 1)) (starBlocks m (insert 0 (Finset.range (m + 1) \ C.toFinset))) t ∧
    lastOf (starBlocks m (insert 0 (Finset.range (m + 1) \ C.toFinset))) t = singletons (Finset.range (m + 1)) ∧
    L.Pairwise (· < ·)

theorem StarInv.step (hK : ∀ j < m + 1, K[j]? = some 0) (hW : ∀ j < m + 1, W[j]? = some (w j))
    (hroot : ∀ j < m + 1, 0 < j → w 0 ≤ w j) (hnn : ∀ j < m + 1, 0 < j → 0 ≤ w j)
    {C : List ℕ} {D : PyDict} {L : List ℚ} {Q : List (List CSet)} (h : StarInv m w C D L Q) (hlen : 1 < C.length) :
    ∃ γ C' D', pyGamma W C (-1) = .ok γ ∧ pyMergeLoop K W γ C D [] = .ok (D', C') ∧ C'.length < C.length ∧
      StarInv m w C' D' (γ :: L) (pyBlocks (m + 1) D' :: Q) := by
  obtain ⟨γ, g1, g2, g3, g4⟩ := pyGamma_spec hW h.lt (-1)
  -- a node other than the root
  obtain ⟨a, ha, ha0⟩ : ∃ a ∈ C, a ≠ 0 := by
    by_contra hno
    push Not at hno
    have hsub : C ⊆ [0] := fun x hx => by simpa using hno x hx
    have := (h.nodup.subperm hsub).length_le
    simp at this
    omega
  have hγ0 : 0 ≤ γ := (hnn a (h.lt a ha) (Nat.pos_of_ne_zero ha0)).trans (g3 a ha)
  obtain ⟨b, hb, hbγ⟩ : ∃ b ∈ C, γ = w b := by
    rcases g4 with g4 | g4
    · linarith
    · exact g4
  -- a node with the largest weight, not the root
  obtain ⟨b, hb, hbγ, hb0⟩ : ∃ b ∈ C, γ = w b ∧ b ≠ 0 := by
    rcases eq_or_ne b 0 with rfl | hb0
    · exact ⟨a, ha, le_antisymm (hbγ ▸ hroot a (h.lt a ha) (Nat.pos_of_ne_zero ha0)) (g3 a ha), ha0⟩
    · exact ⟨b, hb, hbγ, hb0⟩
  have h0C : 0 ∈ C := by
    rcases h.root with h' | h'
    · exact h'
    · rw [h'] at hb; cases hb
  set C' := C.filter fun i => w i < γ with hC'
  have hmem : ∀ i, i ∈ C' ↔ i ∈ C ∧ w i < γ := by simp [hC']
  have hroot' : 0 ∈ C' ∨ C' = [] := by
    by_cases hw : w 0 < γ
    · exact Or.inl ((hmem 0).2 ⟨h0C, hw⟩)
    · refine Or.inr (List.eq_nil_iff_forall_not_mem.2 fun i hi => ?_)
      have hi' := (hmem i).1 hi
      rcases eq_or_ne i 0 with rfl | hi0
      · exact hw hi'.2
      · exact hw ((hroot i (h.lt i hi'.1) (Nat.pos_of_ne_zero hi0)).trans_lt hi'.2)
  obtain ⟨l, hrun, hl, hnd⟩ : ∃ l, pyMergeLoop K W γ C D [] = .ok ([(0, l)], C') ∧
      l.toFinset = insert 0 (Finset.range (m + 1) \ C'.toFinset) ∧ (C' = [] ∨ l.Nodup) := by
    rcases h.dict with ⟨rfl, hfull⟩ | ⟨l, rfl, hl, hnd⟩
    · obtain ⟨A, B, j, e1, e2, e3, e4⟩ := pyMergeLoop_star_nil hK hW γ h.lt [] ⟨b, hb, by rw [hbγ]; exact lt_irrefl _⟩
      refine ⟨_, by rw [e4, List.nil_append], ?_, ?_⟩
      · ext i
        simp only [List.toFinset_append, List.toFinset_cons, List.toFinset_nil, Finset.mem_union, Finset.mem_insert,
          List.mem_toFinset, List.mem_filter, Finset.mem_sdiff, Finset.mem_range, hmem, decide_eq_true_eq]
        have hiC : i ∈ C ↔ i < m + 1 := by rw [hfull, List.mem_range]
        have hiA : i ∈ C ↔ i ∈ A ∨ i = j ∨ i ∈ B := by rw [e1]; simp
        constructor
        · rintro ((rfl | rfl | hi) | ⟨hi, hi1, hi2⟩)
          · exact Or.inr ⟨hiC.1 (hiA.2 (Or.inr (Or.inl rfl))), fun hh => e3 hh.2⟩
          · exact Or.inl rfl
          · simp at hi
          · exact Or.inr ⟨hiC.1 (hiA.2 (Or.inr (Or.inr hi))), fun hh => hi1 hh.2⟩
        · rintro (rfl | ⟨hi, hi'⟩)
          · exact Or.inl (Or.inr (Or.inl rfl))
          · have hiw : ¬ w i < γ := fun hh => hi' ⟨hiC.2 hi, hh⟩
            rcases hiA.1 (hiC.2 hi) with hA | rfl | hB
            · exact absurd (e2 i hA) hiw
            · exact Or.inl (Or.inl rfl)
            · rcases eq_or_ne i 0 with rfl | hi0
              · exact Or.inl (Or.inr (Or.inl rfl))
              · exact Or.inr ⟨hB, hiw, hi0⟩
      · rcases hroot' with hr | hr
        · right
          have hw0 := ((hmem 0).1 hr).2
          have hj0 : j ≠ 0 := by rintro rfl; exact e3 hw0
          have hnodup := h.nodup
          rw [e1, List.nodup_append] at hnodup
          have hjB := List.nodup_cons.1 hnodup.2.1
          simp only [List.cons_append, List.nil_append, List.nodup_cons, List.mem_cons, List.mem_filter,
            decide_eq_true_eq]
          refine ⟨?_, ?_, hjB.2.filter _⟩
          · rintro (h' | h')
            · exact hj0 h'
            · exact hjB.1 h'.1
          · rintro ⟨_, _, h'⟩
            exact h' rfl
        · exact Or.inl hr
    · refine ⟨_, by rw [pyMergeLoop_star hK hW γ h.lt, List.nil_append], ?_, ?_⟩
      · ext i
        simp only [List.toFinset_append, Finset.mem_union, hl, Finset.mem_insert,
          List.mem_toFinset, List.mem_filter, Finset.mem_sdiff, Finset.mem_range, hmem, decide_eq_true_eq]
        constructor
        · rintro ((rfl | ⟨hi, hi'⟩) | ⟨hi, hi1, hi2⟩)
          · exact Or.inl rfl
          · exact Or.inr ⟨hi, fun hh => hi' hh.1⟩
          · exact Or.inr ⟨h.lt i hi, fun hh => hi1 hh.2⟩
        · rintro (rfl | ⟨hi, hi'⟩)
          · exact Or.inl (Or.inl rfl)
          · by_cases hiC : i ∈ C
            · rcases eq_or_ne i 0 with rfl | hi0
              · exact Or.inl (Or.inl rfl)
              · exact Or.inr ⟨hiC, fun hh => hi' ⟨hiC, hh⟩, hi0⟩
            · exact Or.inl (Or.inr ⟨hi, hiC⟩)
      · right
        have hlnd : l.Nodup := by
          rcases hnd with h' | h'
          · rw [h'] at hb; cases hb
          · exact h'
        rw [List.nodup_append]
        refine ⟨hlnd, h.nodup.filter _, ?_⟩
        rintro x hx y hy rfl
        rw [List.mem_filter, decide_eq_true_eq] at hy
        have : x ∈ l.toFinset := List.mem_toFinset.2 hx
        rw [hl, Finset.mem_insert, Finset.mem_sdiff, List.mem_toFinset] at this
        rcases this with h' | h'
        · exact hy.2.2 h'
        · exact h'.2 hy.1
  have hlsub : l.toFinset ⊆ Finset.range (m + 1) := by
    rw [hl]
    intro i hi
    rcases Finset.mem_insert.1 hi with rfl | hi
    · simp
    · exact (Finset.mem_sdiff.1 hi).1
  have h0l : 0 ∈ l := by
    rw [← List.mem_toFinset, hl]; exact Finset.mem_insert_self _ _
  have hblocks := pyBlocks_star hlsub h0l (by
    rcases hnd with h' | h'
    · right
      rw [hl, h']
      ext i
      simp only [List.toFinset_nil, Finset.sdiff_empty, Finset.mem_insert, Finset.mem_range]
      omega
    · exact Or.inl h')
  refine ⟨γ, C', [(0, l)], g1, hrun, ?_, ?_⟩
  · rw [hC', List.length_filter_lt_length_iff_exists]
    exact ⟨b, hb, by simp [hbγ]⟩
  obtain ⟨t, t1, t2, t3, t4, t5⟩ := h.chain
  have hT0 : ∀ S : Finset ℕ, insert 0 (Finset.range (m + 1) \ S) ⊆ Finset.range (m + 1) := by
    intro S i hi
    rcases Finset.mem_insert.1 hi with rfl | hi
    · simp
    · exact (Finset.mem_sdiff.1 hi).1
  refine ⟨fun i hi => h.lt i ((hmem i).1 hi).1, h.nodup.filter _, hroot', Or.inr ⟨l, rfl, hl, hnd⟩, ?_, ?_, ?_, ?_⟩
  · intro P hP
    rcases List.mem_cons.1 hP with rfl | hP
    · exact hblocks.1
    · exact h.blocks P hP
  · intro i hi c hc
    rcases List.mem_cons.1 hc with rfl | hc
    · exact ((hmem i).1 hi).2
    · exact h.low i ((hmem i).1 hi).1 c hc
  · intro i hi hiC hi0 j hj
    have hj' := (hmem j).1 hj
    by_cases hiC0 : i ∈ C
    · exact hj'.2.trans_le (not_lt.1 fun hh => hiC ((hmem i).2 ⟨hiC0, hh⟩))
    · exact h.heavy i hi hiC0 hi0 j hj'.1
  · have hsub : C'.toFinset ⊆ C.toFinset := by
      intro i hi
      rw [List.mem_toFinset] at hi ⊢
      exact ((hmem i).1 hi).1
    have hss : insert 0 (Finset.range (m + 1) \ C.toFinset) ⊂ insert 0 (Finset.range (m + 1) \ C'.toFinset) := by
      refine Finset.ssubset_iff_of_subset (Finset.insert_subset_insert _ (Finset.sdiff_subset_sdiff subset_rfl hsub))
        |>.2 ⟨b, ?_, ?_⟩
      · refine Finset.mem_insert_of_mem (Finset.mem_sdiff.2 ⟨Finset.mem_range.2 (h.lt b hb), ?_⟩)
        rw [List.mem_toFinset, hmem]
        exact fun hh => lt_irrefl _ (hbγ ▸ hh.2)
      · rw [Finset.mem_insert, Finset.mem_sdiff, List.mem_toFinset]
        rintro (h' | h')
        · exact hb0 h'
        · exact h'.2 hb
    refine ⟨(γ, starBlocks m (insert 0 (Finset.range (m + 1) \ C.toFinset))) :: t, ?_, ?_, ⟨?_, ?_, ⟨?_, ?_⟩, t3⟩, t4,
      ?_⟩
    · rw [List.map_cons, hblocks.2, hl, t1]; rfl
    · rw [t2]; rfl
    · refine starBlocks_optimal (Finset.mem_insert_self _ _) (hT0 _) ?_ ?_ hγ0
      · intro i hi hlt
        rw [Finset.mem_Icc] at hi
        refine Finset.mem_insert_of_mem (Finset.mem_sdiff.2 ⟨Finset.mem_range.2 (by omega), ?_⟩)
        rw [List.mem_toFinset, hmem]
        exact fun hh => absurd (hh.2.trans hlt) (lt_irrefl _)
      · intro i hi hi0
        rw [Finset.mem_insert, Finset.mem_sdiff, List.mem_toFinset, Finset.mem_range, hmem] at hi
        rcases hi with h' | h'
        · exact absurd h' hi0
        · by_cases hiC : i ∈ C
          · exact not_lt.1 fun hh => h'.2 ⟨hiC, hh⟩
          · rw [hbγ]; exact (h.heavy i h'.1 hiC hi0 b hb).le
    · refine starBlocks_optimal (Finset.mem_insert_self _ _) (hT0 _) ?_ ?_ hγ0
      · intro i hi hlt
        rw [Finset.mem_Icc] at hi
        refine Finset.mem_insert_of_mem (Finset.mem_sdiff.2 ⟨Finset.mem_range.2 (by omega), ?_⟩)
        rw [List.mem_toFinset]
        exact fun hh => absurd (g3 i hh) (not_le.2 hlt)
      · intro i hi hi0
        rw [Finset.mem_insert, Finset.mem_sdiff, List.mem_toFinset, Finset.mem_range] at hi
        rcases hi with h' | h'
        · exact absurd h' hi0
        · rw [hbγ]; exact (h.heavy i h'.1 h'.2 hi0 b hb).le
    · exact starBlocks_refines hss.subset
    · exact starBlocks_ne (Finset.mem_insert_self _ _) hss (hT0 _)
    · rw [List.pairwise_cons]
      refine ⟨fun c hc => ?_, t5⟩
      rw [hbγ]
      exact h.low b hb c hc

theorem StarInv.start (m : ℕ) (w : ℕ → ℚ) :
    StarInv m w (List.range (m + 1)) [] [] [(List.range (m + 1)).map fun i => {i}] where
  lt i hi := List.mem_range.1 hi
  nodup := List.nodup_range
  root := Or.inl (by simp)
  dict := Or.inl ⟨rfl, rfl⟩
  blocks P hP := by
    rw [List.mem_singleton] at hP
    rw [hP]
    exact List.nodup_range.map Finset.singleton_injective
  low _ _ c hc := by cases hc
  heavy i hi hiC := absurd (List.mem_range.2 hi) hiC
  chain := by
    have h : starBlocks m (insert 0 (Finset.range (m + 1) \ (List.range (m + 1)).toFinset)) =
        singletons (Finset.range (m + 1)) := by
      ext B
      simp only [starBlocks, singletons, Finset.mem_insert, Finset.mem_image, Finset.mem_sdiff, Finset.mem_range,
        List.toFinset_range, sdiff_self, Finset.bot_eq_empty, insert_empty_eq, Finset.mem_singleton]
      constructor
      · rintro (rfl | ⟨i, hi, rfl⟩)
        · exact ⟨0, by omega, rfl⟩
        · exact ⟨i, hi.1, rfl⟩
      · rintro ⟨i, hi, rfl⟩
        rcases eq_or_ne i 0 with rfl | h0
        · exact Or.inl rfl
        · exact Or.inr ⟨i, ⟨hi, h0⟩, rfl⟩
    refine ⟨[], ?_, rfl, trivial, ?_, List.Pairwise.nil⟩
    · rw [h]
      simp only [List.map_cons, List.map_nil]
      congr 1
    · exact h

theorem pyLoop_star (hK : ∀ j < m + 1, K[j]? = some 0) (hW : ∀ j < m + 1, W[j]? = some (w j))
    (hroot : ∀ j < m + 1, 0 < j → w 0 ≤ w j) (hnn : ∀ j < m + 1, 0 < j → 0 ≤ w j) (fuel : ℕ)
    {C : List ℕ} {D : PyDict} {L : List ℚ} {Q : List (List CSet)} (h : StarInv m w C D L Q)
    (hf : C.length ≤ fuel + 1) :
    ∃ C' D' L' Q', pyLoop (m + 1) K W fuel C D L Q = .ok (L', Q') ∧ C'.length ≤ 1 ∧ StarInv m w C' D' L' Q' := by
  induction fuel generalizing C D L Q with
  | zero =>
    refine ⟨C, D, L, Q, ?_, by omega, h⟩
    rw [pyLoop, if_neg (by omega)]
  | succ fuel ih =>
    by_cases hlen : 1 < C.length
    · obtain ⟨γ, C', D', h1, h2, h3, h4⟩ := h.step hK hW hroot hnn hlen
      obtain ⟨C'', D'', L', Q', e1, e2, e3⟩ := ih h4 (by omega)
      refine ⟨C'', D'', L', Q', ?_, e2, e3⟩
      rw [pyLoop, if_pos hlen, h1, Outcome.ok_bind, h2, Outcome.ok_bind]
      exact e1
    · refine ⟨C, D, L, Q, ?_, by omega, h⟩
      rw [pyLoop, if_neg hlen]

theorem starE_within (m : ℕ) (w : ℕ → ℚ) : Within (starE m w) (Finset.range (m + 1)) := by
  intro e he
  obtain ⟨i, hi, rfl⟩ := List.mem_map.1 he
  rw [List.mem_range] at hi
  simp
  omega

theorem getPsp_star (hK : ∀ j < m + 1, K[j]? = some 0) (hW : ∀ j < m + 1, W[j]? = some (w j))
    (hroot : ∀ j < m + 1, 0 < j → w 0 ≤ w j) (hnn : ∀ j < m + 1, 0 < j → 0 ≤ w j) {fuel : ℕ} (hf : m ≤ fuel) :
    ∃ L Q, getPsp fuel (m + 1) K W = .ok (L, Q) ∧ (∀ P ∈ Q, P.Nodup) ∧
      IsPrincipalSequence (starE m w) (Finset.range (m + 1)) (Q.map List.toFinset) L := by
  obtain ⟨C, D, L, Q, h1, h2, h3⟩ := pyLoop_star hK hW hroot hnn fuel (StarInv.start m w)
    (by rw [List.length_range]; omega)
  refine ⟨L, Q, h1, h3.blocks, ?_⟩
  obtain ⟨t, t1, t2, t3, t4, t5⟩ := h3.chain
  have hT : insert 0 (Finset.range (m + 1) \ C.toFinset) = Finset.range (m + 1) := by
    have hC : C = [] ∨ C = [0] := by
      rcases h3.root with h | h
      · right
        obtain ⟨a, rfl⟩ := List.length_eq_one_iff.1 (show C.length = 1 by
          have := List.length_pos_of_mem h; omega)
        rw [List.mem_singleton] at h
        rw [h]
      · exact Or.inl h
    ext i
    rcases hC with rfl | rfl
    · simp
    · simp only [Finset.mem_insert, Finset.mem_sdiff, Finset.mem_range, List.toFinset_cons, List.toFinset_nil,
        insert_empty_eq, Finset.mem_singleton]
      omega
  have hS : starBlocks m (Finset.range (m + 1)) = {Finset.range (m + 1)} := by
    simp [starBlocks]
  rw [hT, hS] at t1 t3 t4
  rw [t1, t2]
  rw [t2] at t5
  refine Linked.strict ?_ (starE_within m w) ⟨0, by simp⟩ t3 t4 t5
  intro e he
  obtain ⟨i, hi, rfl⟩ := List.mem_map.1 he
  rw [List.mem_range] at hi
  exact hnn (i + 1) (by omega) (by omega)

/-! ### any parents -/

theorem pyMergeLoop_any {n : ℕ} (hK : n ≤ K.length) (hW : ∀ j < n, W[j]? = some (w j)) (γ : ℚ)
    {C : List ℕ} (hC : ∀ i ∈ C, i < n) (D : PyDict) (acc : List ℕ) :
    ∃ D', pyMergeLoop K W γ C D acc = .ok (D', acc ++ C.filter fun i => w i < γ) := by
  induction C generalizing D acc with
  | nil => exact ⟨D, by simp [pyMergeLoop]⟩
  | cons j C ih =>
    have hj := hC j List.mem_cons_self
    have hC' : ∀ i ∈ C, i < n := fun k hk => hC k (List.mem_cons_of_mem _ hk)
    have hKj : K[j]? = some K[j] := List.getElem?_eq_getElem (by omega)
    simp only [pyMergeLoop, pyGet, hW j hj, hKj, Outcome.ok_bind]
    by_cases h : w j < γ
    · rw [if_pos h]
      obtain ⟨D', h'⟩ := ih hC' D (acc ++ [j])
      exact ⟨D', by rw [h']; simp [h]⟩
    · rw [if_neg h]
      obtain ⟨D', h'⟩ := ih hC' (pyJoin D j K[j]) acc
      exact ⟨D', by rw [h']; simp [h]⟩

/-- If two weights are below `-1` the loop never ends. -/
theorem pyLoop_forever {n : ℕ} (hK : n ≤ K.length) (hW : ∀ j < n, W[j]? = some (w j)) {a b : ℕ} (hab : a ≠ b)
    (ha : w a < -1) (hb : w b < -1) (fuel : ℕ) {C : List ℕ} (hC : ∀ i ∈ C, i < n) (haC : a ∈ C) (hbC : b ∈ C)
    (D : PyDict) (L : List ℚ) (Q : List (List CSet)) : pyLoop n K W fuel C D L Q = .fuel := by
  have hlen : 1 < C.length := by
    have hsub : [a, b] ⊆ C := by
      intro x hx
      simp only [List.mem_cons, List.not_mem_nil, or_false] at hx
      rcases hx with rfl | rfl <;> assumption
    exact ((show [a, b].Nodup by simp [hab]).subperm hsub).length_le
  induction fuel generalizing C D L Q with
  | zero => rw [pyLoop, if_pos hlen]
  | succ fuel ih =>
    obtain ⟨k, rfl⟩ : ∃ k, n = k + 1 := ⟨n - 1, by have := hC a haC; omega⟩
    obtain ⟨γ, g1, g2, g3, g4⟩ := pyGamma_spec hW hC (-1)
    obtain ⟨D', h'⟩ := pyMergeLoop_any hK hW γ hC D []
    rw [pyLoop, if_pos hlen, g1, Outcome.ok_bind, h', Outcome.ok_bind, List.nil_append]
    have haC' : a ∈ C.filter fun i => w i < γ := by simp [haC, ha.trans_le g2]
    have hbC' : b ∈ C.filter fun i => w i < γ := by simp [hbC, hb.trans_le g2]
    refine ih (fun i hi => hC i (List.mem_filter.1 hi).1) haC' hbC' _ _ _ ?_
    have hsub : [a, b] ⊆ C.filter fun i => w i < γ := by
      intro x hx
      simp only [List.mem_cons, List.not_mem_nil, or_false] at hx
      rcases hx with rfl | rfl <;> assumption
    exact ((show [a, b].Nodup by simp [hab]).subperm hsub).length_le

/-- What is known about the values between two iterations, whatever the parents. -/
structure ValInv (n : ℕ) (w : ℕ → ℚ) (C : List ℕ) (L : List ℚ) : Prop where
  lt : ∀ i ∈ C, i < n
  nodup : C.Nodup
  low : ∀ i ∈ C, ∀ c ∈ L, w i < c
  done : ∀ i < n, i ∉ C → w i ∈ L
  value : ∀ c ∈ L, ∃ i < n, i ≠ 0 ∧ c = w i
  increasing : L.Pairwise (· < ·)

theorem pyLoop_values {n : ℕ} (hK : n ≤ K.length) (hW : ∀ j < n, W[j]? = some (w j))
    (hlow : ∀ a < n, ∀ b < n, w a < -1 → w b < -1 → a = b) (hroot : ∀ j < n, 0 < j → w 0 ≤ w j) (fuel : ℕ)
    {C : List ℕ} {L : List ℚ} (h : ValInv n w C L) (hf : C.length ≤ fuel + 1) (D : PyDict) (Q : List (List CSet)) :
    ∃ C' L' Q', pyLoop n K W fuel C D L Q = .ok (L', Q') ∧ C'.length ≤ 1 ∧ ValInv n w C' L' ∧
      Q'.length = L'.length - L.length + Q.length ∧ L.length ≤ L'.length := by
  induction fuel generalizing C L D Q with
  | zero => exact ⟨C, L, Q, by rw [pyLoop, if_neg (by omega)], by omega, h, by omega, le_rfl⟩
  | succ fuel ih =>
    by_cases hlen : 1 < C.length
    · obtain ⟨x, y, hx, hy, hxy⟩ : ∃ x y, x ∈ C ∧ y ∈ C ∧ x ≠ y := by
        obtain ⟨x, y, t, rfl⟩ : ∃ x y t, C = x :: y :: t := by
          match C, hlen with
          | x :: y :: t, _ => exact ⟨x, y, t, rfl⟩
        refine ⟨x, y, by simp, by simp, ?_⟩
        have := (List.nodup_cons.1 h.nodup).1
        rintro rfl
        simp at this
      have hxn := h.lt x hx
      obtain ⟨k, rfl⟩ : ∃ k, n = k + 1 := ⟨n - 1, by omega⟩
      obtain ⟨γ, g1, g2, g3, g4⟩ := pyGamma_spec hW h.lt (-1)
      obtain ⟨b, hb, hbγ⟩ : ∃ b ∈ C, γ = w b := by
        rcases g4 with g4 | g4
        · by_cases hwx : w x < -1
          · have hwy : ¬ w y < -1 := fun hh => hxy (hlow x (h.lt x hx) y (h.lt y hy) hwx hh)
            exact ⟨y, hy, le_antisymm (g4 ▸ not_lt.1 hwy) (g3 y hy)⟩
          · exact ⟨x, hx, le_antisymm (g4 ▸ not_lt.1 hwx) (g3 x hx)⟩
        · exact g4
      obtain ⟨b, hb, hbγ, hb0⟩ : ∃ b ∈ C, γ = w b ∧ b ≠ 0 := by
        rcases eq_or_ne b 0 with rfl | hb0
        · obtain ⟨a, ha, ha0⟩ : ∃ a ∈ C, a ≠ 0 := by
            by_cases h0 : x = 0
            · exact ⟨y, hy, fun h' => hxy (h0.trans h'.symm)⟩
            · exact ⟨x, hx, h0⟩
          exact ⟨a, ha, le_antisymm (hbγ ▸ hroot a (h.lt a ha) (Nat.pos_of_ne_zero ha0)) (g3 a ha), ha0⟩
        · exact ⟨b, hb, hbγ, hb0⟩
      obtain ⟨D', h'⟩ := pyMergeLoop_any hK hW γ h.lt D []
      have hlt : (C.filter fun i => w i < γ).length < C.length := by
        rw [List.length_filter_lt_length_iff_exists]
        exact ⟨b, hb, by simp [hbγ]⟩
      have hinv : ValInv (k + 1) w (C.filter fun i => w i < γ) (γ :: L) := by
        refine ⟨fun i hi => h.lt i (List.mem_filter.1 hi).1, h.nodup.filter _, ?_, ?_, ?_, ?_⟩
        · intro i hi c hc
          rw [List.mem_filter, decide_eq_true_eq] at hi
          rcases List.mem_cons.1 hc with rfl | hc
          · exact hi.2
          · exact h.low i hi.1 c hc
        · intro i hi hiC
          by_cases hiC0 : i ∈ C
          · have : ¬ w i < γ := fun hh => hiC (List.mem_filter.2 ⟨hiC0, by simpa using hh⟩)
            rw [le_antisymm (g3 i hiC0) (not_lt.1 this)]
            exact List.mem_cons_self
          · exact List.mem_cons_of_mem _ (h.done i hi hiC0)
        · intro c hc
          rcases List.mem_cons.1 hc with rfl | hc
          · exact ⟨b, h.lt b hb, hb0, hbγ⟩
          · exact h.value c hc
        · exact List.pairwise_cons.2 ⟨fun c hc => hbγ ▸ h.low b hb c hc, h.increasing⟩
      obtain ⟨C', L', Q', e1, e2, e3, e4, e5⟩ := ih hinv (by omega) D' (pyBlocks (k + 1) D' :: Q)
      refine ⟨C', L', Q', ?_, e2, e3, ?_, ?_⟩
      · rw [pyLoop, if_pos hlen, g1, Outcome.ok_bind, h', Outcome.ok_bind, List.nil_append]
        exact e1
      · simp only [List.length_cons] at e4 e5
        omega
      · simp only [List.length_cons] at e5
        omega
    · exact ⟨C, L, Q, by rw [pyLoop, if_neg hlen], by omega, h, by omega, le_rfl⟩

end PSP.Theory
