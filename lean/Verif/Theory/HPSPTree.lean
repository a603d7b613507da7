import Verif.Theory.PSPISplit

/-!
# Threshold partitions of the tree described by the arrays of `HPSP`
-/

namespace PSP.Theory

open PSP.Spec PSP.Model

variable {E : List Arc} {M : Prop} {st : HState} {t : PTree}

theorem firstElem_eq_of_subset {A B : Finset ℕ} (hAB : A ⊆ B) (h : firstElem B ∈ A) :
    firstElem A = firstElem B :=
  le_antisymm (firstElem_le h) (firstElem_le (hAB (firstElem_mem ⟨_, h⟩)))

/-- The arrays: the link of an element other than the least one goes down, stays inside, and the values
grow along the links. -/
theorem enc_chain (hg : Good M E t) (he : Enc st t) : ∀ v ∈ t.K, v ≠ firstElem t.K →
    st.K v ∈ t.K ∧ st.K v < v ∧ (∃ m, t.val = some m ∧ m ≤ st.W v) ∧
      (M → st.K v ≠ firstElem t.K → st.W (st.K v) < st.W v) := by
  induction hg with
  | leaf v =>
    intro w hw hne
    exfalso
    apply hne
    have h1 : w = v := by simpa [PTree.K] using hw
    have h2 : firstElem (PTree.leaf {v}).K ∈ ({v} : Finset ℕ) := firstElem_mem (by simp [PTree.K])
    rw [h1, Finset.mem_singleton.1 h2]
  | node K l ch hch hval hlen hnd hopt htop ih =>
    cases he with
    | node _ _ _ henc hv =>
    intro v hvK hne
    simp only [PTree.K] at hvK hne ⊢
    obtain ⟨A, hA, hvA⟩ := hopt.1.exists_block hvK
    have hAK := hopt.1.subset hA
    obtain ⟨c, hc, rfl⟩ := List.mem_map.1 (List.mem_toFinset.1 hA)
    have hKne : K.Nonempty := ⟨v, hvK⟩
    by_cases hfc : v = firstElem c.K
    · obtain ⟨h1, h2⟩ := hv c hc (by rw [← hfc]; exact hne)
      rw [← hfc] at h1 h2
      refine ⟨h2 ▸ firstElem_mem hKne, ?_, ⟨l, rfl, h1.ge⟩, fun _ h => absurd h2 h⟩
      rw [h2]
      exact lt_of_le_of_ne (firstElem_le hvK) (Ne.symm hne)
    · obtain ⟨h1, h2, ⟨m, hm, hmv⟩, h4⟩ := ih c hc (henc c hc) v hvA hfc
      obtain ⟨h5, h6⟩ := hval c hc m hm
      refine ⟨hAK h1, h2, ⟨l, rfl, h5.trans hmv⟩, fun hM hk => ?_⟩
      by_cases hkc : st.K v = firstElem c.K
      · rw [hkc] at hk ⊢
        rw [(hv c hc hk).1]
        exact lt_of_lt_of_le (h6 hM) hmv
      · exact h4 hM hkc

/-- The partition of `A` at threshold `mu`. -/
structure Thr (E : List Arc) (st : HState) (A : Finset ℕ) (mu : ℚ) (P : Partition) : Prop where
  part : IsPartition A P
  mins : ∀ v, (∃ B ∈ P, firstElem B = v) ↔ v ∈ A ∧ (v = firstElem A ∨ st.W v < mu)
  same : ∀ v ∈ A, v ≠ firstElem A → mu ≤ st.W v → Same P v (st.K v)
  opt : ∀ lam, lam ≤ mu → (∀ v ∈ A, v ≠ firstElem A → st.W v < mu → st.W v ≤ lam) →
    IsOptimal (induced E A) A lam P

theorem thr_whole {mu : ℚ} (hg : Good M E t) (he : Enc st t) (hval : ∀ m, t.val = some m → mu ≤ m) :
    Thr E st t.K mu {t.K} := by
  have hne := hg.nonempty
  have hchain := enc_chain hg he
  have hW : ∀ v ∈ t.K, v ≠ firstElem t.K → mu ≤ st.W v := by
    intro v hv hvne
    obtain ⟨_, _, ⟨m, hm, hmv⟩, _⟩ := hchain v hv hvne
    exact (hval m hm).trans hmv
  refine ⟨isPartition_single hne, ?_, ?_, ?_⟩
  · intro v
    constructor
    · rintro ⟨B, hB, rfl⟩
      rw [Finset.mem_singleton.1 hB]
      exact ⟨firstElem_mem hne, Or.inl rfl⟩
    · rintro ⟨hv, h⟩
      refine ⟨t.K, by simp, ?_⟩
      by_contra hvne
      rcases h with h | h
      · exact hvne h.symm
      · exact absurd h (not_lt.2 (hW v hv (Ne.symm hvne)))
  · intro v hv hvne _
    exact ⟨t.K, by simp, hv, (hchain v hv hvne).1⟩
  · intro lam hle _
    exact hg.single fun m hm => hle.trans (hval m hm)

theorem exists_thr (hE : NonnegE E) (hg : Good M E t) (he : Enc st t) (mu : ℚ) :
    ∃ P, Thr E st t.K mu P := by
  induction hg with
  | leaf v => exact ⟨_, thr_whole (Good.leaf (M := M) v) he fun m hm => by simp [PTree.val] at hm⟩
  | node K l ch hch hval hlen hnd hopt htop ih =>
    by_cases hl : mu ≤ l
    · exact ⟨_, thr_whole (Good.node K l ch hch hval hlen hnd hopt htop) he fun m hm => by
        simp only [PTree.val, Option.some.injEq] at hm; rwa [← hm]⟩
    push Not at hl
    cases he with
    | node _ _ _ henc hv =>
    simp only [PTree.K]
    set S := (ch.map PTree.K).toFinset with hS
    have hmemS : ∀ A, A ∈ S ↔ ∃ c ∈ ch, c.K = A := by
      intro A; rw [hS, List.mem_toFinset, List.mem_map]
    have hex : ∀ A : Finset ℕ, ∃ P, A ∈ S → Thr E st A mu P := by
      intro A
      by_cases hA : A ∈ S
      · obtain ⟨c, hc, rfl⟩ := (hmemS A).1 hA
        obtain ⟨P, hP⟩ := ih c hc (henc c hc)
        exact ⟨P, fun _ => hP⟩
      · exact ⟨∅, fun h => absurd h hA⟩
    choose Q hQ using hex
    -- the children
    have hfirst : ∀ A ∈ S, firstElem A ≠ firstElem K → st.W (firstElem A) = l := by
      intro A hA hAne
      obtain ⟨c, hc, rfl⟩ := (hmemS A).1 hA
      exact (hv c hc hAne).1
    refine ⟨S.biUnion Q, biUnion_isPartition hopt.1 fun B hB => (hQ B hB).part, ?_, ?_, ?_⟩
    · intro v
      constructor
      · rintro ⟨B, hB, rfl⟩
        obtain ⟨A, hA, hBA⟩ := Finset.mem_biUnion.1 hB
        obtain ⟨h1, h2⟩ := ((hQ A hA).mins (firstElem B)).1 ⟨B, hBA, rfl⟩
        refine ⟨hopt.1.subset hA h1, ?_⟩
        rcases h2 with h2 | h2
        · by_cases h3 : firstElem A = firstElem K
          · exact Or.inl (h2.trans h3)
          · right; rw [h2, hfirst A hA h3]; exact hl
        · exact Or.inr h2
      · rintro ⟨hvK, h⟩
        obtain ⟨A, hA, hvA⟩ := hopt.1.exists_block hvK
        have : v = firstElem A ∨ st.W v < mu := by
          rcases h with rfl | h
          · exact Or.inl (firstElem_eq_of_subset (hopt.1.subset hA) hvA).symm
          · exact Or.inr h
        obtain ⟨B, hB, hBv⟩ := ((hQ A hA).mins v).2 ⟨hvA, this⟩
        exact ⟨B, Finset.mem_biUnion.2 ⟨A, hA, hB⟩, hBv⟩
    · intro v hvK hvne hle
      obtain ⟨A, hA, hvA⟩ := hopt.1.exists_block hvK
      have hvA' : v ≠ firstElem A := by
        rintro rfl
        rw [hfirst A hA hvne] at hle
        exact absurd hl (not_lt.2 hle)
      obtain ⟨B, hB, h1, h2⟩ := (hQ A hA).same v hvA hvA' hle
      exact ⟨B, Finset.mem_biUnion.2 ⟨A, hA, hB⟩, h1, h2⟩
    · intro lam hle hlam
      have hll : l ≤ lam := by
        -- some child does not contain the least element
        have hex : ∃ A ∈ S, firstElem A ≠ firstElem K := by
          by_contra hno
          push Not at hno
          have hcard : S.card = ch.length := by
            rw [hS, List.toFinset_card_of_nodup hnd, List.length_map]
          have : S.card ≤ 1 := Finset.card_le_one.2 fun A hA B hB => by
            have e1 := hno A hA
            have e2 := hno B hB
            have m1 := firstElem_mem (hopt.1.nonempty hA)
            have m2 := firstElem_mem (hopt.1.nonempty hB)
            rw [e1] at m1
            rw [e2] at m2
            exact hopt.1.eq_of_mem hA hB m1 m2
          omega
        obtain ⟨A, hA, hAne⟩ := hex
        have hAK := hopt.1.subset hA (firstElem_mem (hopt.1.nonempty hA))
        have := hlam _ hAK hAne (by rw [hfirst A hA hAne]; exact hl)
        rwa [hfirst A hA hAne] at this
      apply hopt.glue (induced_nonneg hE _) (induced_within E K) hll
      intro A hA
      rw [induced_induced (hopt.1.subset hA)]
      apply (hQ A hA).opt lam hle
      intro v hvA hvne hlt
      have hvK := hopt.1.subset hA hvA
      by_cases hvf : v = firstElem K
      · exfalso
        apply hvne
        rw [hvf] at hvA ⊢
        exact (firstElem_eq_of_subset (hopt.1.subset hA) hvA).symm
      · exact hlam v hvK hvf hlt

end PSP.Theory
