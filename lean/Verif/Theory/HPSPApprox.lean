import Verif.Theory.HPSPRun
import Verif.Theory.PSPIApprox

/-!
# `HPSP` with a tolerance, for arbitrary weights
-/

namespace PSP.Theory

open PSP.Spec PSP.Model

variable {E : List Arc} {V : Finset ℕ} {P Q : Partition} {D : DMap} {st : HState} {K : ℕ → ℕ} {n : ℕ} {M : Prop}
  {t : PTree} {ε lam : ℚ}

/-- Gluing partitions of the blocks that are optimal among the coarser ones. -/
theorem RelOpt.glue {δ : ℚ} (hE : NonnegE E) (hW : Within E V) (h : RelOpt E V P δ lam P)
    {X : Finset ℕ → Partition} {e : Finset ℕ → ℚ} (hX : ∀ A ∈ P, RelOpt E A (X A) (e A) lam (X A)) :
    RelOpt E V (P.biUnion X) (δ + ∑ A ∈ P, e A) lam (P.biUnion X) := by
  refine ⟨biUnion_isPartition h.1 fun A hA => (hX A hA).1, fun R hR hr => ?_⟩
  rw [induced_self hW, cost_biUnion hW h.1 (fun A hA => (hX A hA).1) lam]
  have gen : ∀ G : Finset (Finset ℕ), G ⊆ P → ∃ R', IsPartition V R' ∧ Refines R R' ∧ Refines G R' ∧
      cost E lam R' + ∑ A ∈ G, (cost (induced E A) lam (X A) + lam) ≤ cost E lam R + ∑ A ∈ G, e A := by
    intro G
    induction G using Finset.induction_on with
    | empty => intro _; exact ⟨R, hR, Refines.refl R, fun B hB => absurd hB (by simp), by simp⟩
    | insert A G hA ih =>
      intro hs
      obtain ⟨R', h1, h2, h3, h4⟩ := ih ((Finset.subset_insert _ _).trans hs)
      have hAP := hs (Finset.mem_insert_self _ _)
      have hAne := h.1.nonempty hAP
      have hAV := h.1.subset hAP
      obtain ⟨h5, h6⟩ := cost_expand_add hE hW lam hAne hAV h1
      rw [cost_whole] at h6
      have h7 : Refines (X A) (cut R' A) := refines_cut (hX A hAP).1 fun B hB => by
        obtain ⟨B1, hB1, hs1⟩ := hr B (Finset.mem_biUnion.2 ⟨A, hAP, hB⟩)
        obtain ⟨B2, hB2, hs2⟩ := h2 B1 hB1
        exact ⟨B2, hB2, hs1.trans hs2⟩
      have h8 := (hX A hAP).2 _ h5 h7
      refine ⟨Model.expand R' A, expand_isPartition' h1 hAne hAV, h2.trans (refines_expand R' A), ?_, ?_⟩
      · intro B hB
        rcases Finset.mem_insert.1 hB with rfl | hB
        · exact ⟨_, bigBlock_mem_expand, subset_bigBlock⟩
        · exact (h3.trans (refines_expand R' A)) B hB
      · rw [Finset.sum_insert hA, Finset.sum_insert hA]
        linarith
  obtain ⟨R', h1, _, h3, h4⟩ := gen P subset_rfl
  have h5 := h.2 R' h1 h3
  rw [induced_self hW] at h5
  have e2 := cost_glue hW h.1 h.1 (Refines.refl P) lam
  have e3 : ∑ B ∈ P, cost (induced E B) lam (Spec.part P B) = ∑ B ∈ P, -lam :=
    Finset.sum_congr rfl fun B hB => by rw [part_self h.1 hB, cost_whole]
  rw [e3] at e2
  rw [Finset.sum_add_distrib] at h4
  simp only [Finset.sum_neg_distrib] at e2
  linarith

/-- The arrays: the link of an element other than the least one goes down, stays inside, and the values
grow along the links. -/
theorem enc_chainA (hg : GoodA M ε E t) (he : Enc st t) : ∀ v ∈ t.K, v ≠ firstElem t.K →
    st.K v ∈ t.K ∧ st.K v < v ∧ (∃ m, t.val = some m ∧ m ≤ st.W v) ∧
      (M → st.K v ≠ firstElem t.K → st.W (st.K v) < st.W v) := by
  induction hg with
  | leaf v =>
    intro w hw hne
    exfalso
    apply hne
    have h1 : w = v := by simpa [PTree.K] using hw
    have h2 : firstElem (PTree.leaf {v}).K ∈ ({v} : Finset ℕ) := firstElem_mem (by simp [PTree.K])
    rw [h1, Finset.mem_singleton.1 h2]
  | node K l ch hch hval hlen hnd hne hopt hbal ih =>
    cases he with
    | node _ _ _ henc hv =>
    intro v hvK hvne
    simp only [PTree.K] at hvK hvne ⊢
    obtain ⟨A, hA, hvA⟩ := hopt.1.exists_block hvK
    have hAK := hopt.1.subset hA
    obtain ⟨c, hc, rfl⟩ := List.mem_map.1 (List.mem_toFinset.1 hA)
    have hKne : K.Nonempty := ⟨v, hvK⟩
    by_cases hfc : v = firstElem c.K
    · obtain ⟨h1, h2⟩ := hv c hc (by rw [← hfc]; exact hvne)
      rw [← hfc] at h1 h2
      refine ⟨h2 ▸ firstElem_mem hKne, ?_, ⟨l, rfl, h1.ge⟩, fun _ h => absurd h2 h⟩
      rw [h2]
      exact lt_of_le_of_ne (firstElem_le hvK) (Ne.symm hvne)
    · obtain ⟨h1, h2, ⟨m, hm, hmv⟩, h4⟩ := ih c hc (henc c hc) v hvA hfc
      obtain ⟨h5, h6⟩ := hval c hc m hm
      refine ⟨hAK h1, h2, ⟨l, rfl, h5.trans hmv⟩, fun hM hk => ?_⟩
      by_cases hkc : st.K v = firstElem c.K
      · rw [hkc] at hk ⊢
        rw [(hv c hc hk).1]
        exact lt_of_lt_of_le (h6 hM) hmv
      · exact h4 hM hkc

/-- The partition of `A` at threshold `mu`. -/
structure ThrA (ε : ℚ) (E : List Arc) (st : HState) (A : Finset ℕ) (mu : ℚ) (P : Partition) : Prop where
  part : IsPartition A P
  mins : ∀ v, (∃ B ∈ P, firstElem B = v) ↔ v ∈ A ∧ (v = firstElem A ∨ st.W v < mu)
  same : ∀ v ∈ A, v ≠ firstElem A → mu ≤ st.W v → Same P v (st.K v)
  opt : ∀ lam, lam ≤ mu → (∀ v ∈ A, v ≠ firstElem A → st.W v < mu → st.W v ≤ lam) →
    RelOpt E A P (((P.card : ℚ) - 1) * ε) lam P ∧
      ∀ B ∈ P, IsNearOptimal (induced E B) B (((B.card : ℚ) - 1) * ε) lam {B}

theorem thr_wholeA {mu : ℚ} (hE : NonnegE E) (hε : 0 ≤ ε) (hg : GoodA M ε E t) (he : Enc st t) (hval : ∀ m, t.val = some m → mu ≤ m) :
    ThrA ε E st t.K mu {t.K} := by
  have hne := hg.nonempty
  have hchain := enc_chainA hg he
  have hW : ∀ v ∈ t.K, v ≠ firstElem t.K → mu ≤ st.W v := by
    intro v hv hvne
    obtain ⟨_, _, ⟨m, hm, hmv⟩, _⟩ := hchain v hv hvne
    exact (hval m hm).trans hmv
  refine ⟨isPartition_single hne, ?_, ?_, ?_⟩
  · intro v
    constructor
    · rintro ⟨B, hB, rfl⟩
      rw [Finset.mem_singleton.1 hB]
      exact ⟨firstElem_mem hne, Or.inl rfl⟩
    · rintro ⟨hv, h⟩
      refine ⟨t.K, by simp, ?_⟩
      by_contra hvne
      rcases h with h | h
      · exact hvne h.symm
      · exact absurd h (not_lt.2 (hW v hv (Ne.symm hvne)))
  · intro v hv hvne _
    exact ⟨t.K, by simp, hv, (hchain v hv hvne).1⟩
  · intro lam hle _
    have h1 := hg.single hE hε fun m hm => hle.trans (hval m hm)
    refine ⟨⟨h1.1, fun R hR hr => ?_⟩, fun B hB => by rw [Finset.mem_singleton.1 hB]; exact h1⟩
    have : R = {t.K} := by
      obtain ⟨A, hA, hs⟩ := hr t.K (Finset.mem_singleton_self _)
      have hAV : A = t.K := Finset.Subset.antisymm (hR.subset hA) hs
      apply Finset.eq_singleton_iff_unique_mem.2
      refine ⟨hAV ▸ hA, fun B hB => ?_⟩
      obtain ⟨b, hb⟩ := hR.nonempty hB
      rw [← hAV]
      exact hR.eq_of_mem hB hA hb (hs (hR.subset hB hb))
    rw [this]; simp

theorem exists_thrA (hE : NonnegE E) (hε : 0 ≤ ε) (hg : GoodA M ε E t) (he : Enc st t) (mu : ℚ) :
    ∃ P, ThrA ε E st t.K mu P := by
  induction hg with
  | leaf v => exact ⟨_, thr_wholeA hE hε (GoodA.leaf (M := M) v) he fun m hm => by simp [PTree.val] at hm⟩
  | node K l ch hch hval hlen hnd hne hopt hbal ih =>
    by_cases hl : mu ≤ l
    · exact ⟨_, thr_wholeA hE hε (GoodA.node K l ch hch hval hlen hnd hne hopt hbal) he fun m hm => by
        simp only [PTree.val, Option.some.injEq] at hm; rwa [← hm]⟩
    push Not at hl
    cases he with
    | node _ _ _ henc hv =>
    simp only [PTree.K]
    set S := (ch.map PTree.K).toFinset with hS
    have hmemS : ∀ A, A ∈ S ↔ ∃ c ∈ ch, c.K = A := by
      intro A; rw [hS, List.mem_toFinset, List.mem_map]
    have hex : ∀ A : Finset ℕ, ∃ P, A ∈ S → ThrA ε E st A mu P := by
      intro A
      by_cases hA : A ∈ S
      · obtain ⟨c, hc, rfl⟩ := (hmemS A).1 hA
        obtain ⟨P, hP⟩ := ih c hc (henc c hc)
        exact ⟨P, fun _ => hP⟩
      · exact ⟨∅, fun h => absurd h hA⟩
    choose Q hQ using hex
    -- the children
    have hfirst : ∀ A ∈ S, firstElem A ≠ firstElem K → st.W (firstElem A) = l := by
      intro A hA hAne
      obtain ⟨c, hc, rfl⟩ := (hmemS A).1 hA
      exact (hv c hc hAne).1
    refine ⟨S.biUnion Q, biUnion_isPartition hopt.1 fun B hB => (hQ B hB).part, ?_, ?_, ?_⟩
    · intro v
      constructor
      · rintro ⟨B, hB, rfl⟩
        obtain ⟨A, hA, hBA⟩ := Finset.mem_biUnion.1 hB
        obtain ⟨h1, h2⟩ := ((hQ A hA).mins (firstElem B)).1 ⟨B, hBA, rfl⟩
        refine ⟨hopt.1.subset hA h1, ?_⟩
        rcases h2 with h2 | h2
        · by_cases h3 : firstElem A = firstElem K
          · exact Or.inl (h2.trans h3)
          · right; rw [h2, hfirst A hA h3]; exact hl
        · exact Or.inr h2
      · rintro ⟨hvK, h⟩
        obtain ⟨A, hA, hvA⟩ := hopt.1.exists_block hvK
        have : v = firstElem A ∨ st.W v < mu := by
          rcases h with rfl | h
          · exact Or.inl (firstElem_eq_of_subset (hopt.1.subset hA) hvA).symm
          · exact Or.inr h
        obtain ⟨B, hB, hBv⟩ := ((hQ A hA).mins v).2 ⟨hvA, this⟩
        exact ⟨B, Finset.mem_biUnion.2 ⟨A, hA, hB⟩, hBv⟩
    · intro v hvK hvne hle
      obtain ⟨A, hA, hvA⟩ := hopt.1.exists_block hvK
      have hvA' : v ≠ firstElem A := by
        rintro rfl
        rw [hfirst A hA hvne] at hle
        exact absurd hl (not_lt.2 hle)
      obtain ⟨B, hB, h1, h2⟩ := (hQ A hA).same v hvA hvA' hle
      exact ⟨B, Finset.mem_biUnion.2 ⟨A, hA, hB⟩, h1, h2⟩
    · intro lam hle hlam
      have hll : l ≤ lam := by
        -- some child does not contain the least element
        have hex : ∃ A ∈ S, firstElem A ≠ firstElem K := by
          by_contra hno
          push Not at hno
          have hcard : S.card = ch.length := by
            rw [hS, List.toFinset_card_of_nodup hnd, List.length_map]
          have : S.card ≤ 1 := Finset.card_le_one.2 fun A hA B hB => by
            have e1 := hno A hA
            have e2 := hno B hB
            have m1 := firstElem_mem (hopt.1.nonempty hA)
            have m2 := firstElem_mem (hopt.1.nonempty hB)
            rw [e1] at m1
            rw [e2] at m2
            exact hopt.1.eq_of_mem hA hB m1 m2
          omega
        obtain ⟨A, hA, hAne⟩ := hex
        have hAK := hopt.1.subset hA (firstElem_mem (hopt.1.nonempty hA))
        have := hlam _ hAK hAne (by rw [hfirst A hA hAne]; exact hl)
        rwa [hfirst A hA hAne] at this
      have hsub : ∀ A ∈ S, RelOpt E A (Q A) ((((Q A).card : ℚ) - 1) * ε) lam (Q A) ∧
          ∀ B ∈ Q A, IsNearOptimal (induced E B) B (((B.card : ℚ) - 1) * ε) lam {B} := by
        intro A hA
        apply (hQ A hA).opt lam hle
        intro v hvA hvne hlt
        have hvK := hopt.1.subset hA hvA
        by_cases hvf : v = firstElem K
        · exfalso
          apply hvne
          rw [hvf] at hvA ⊢
          exact (firstElem_eq_of_subset (hopt.1.subset hA) hvA).symm
        · exact hlam v hvK hvf hlt
      refine ⟨?_, fun B hB => ?_⟩
      · have h0 : RelOpt (induced E K) K S ε lam S := by
          have := hopt.raise hll
          refine ⟨this.1, fun R hR hr => ?_⟩
          rw [induced_self (induced_within E K)]
          exact this.2 R hR hr
        have h1 := h0.glue (induced_nonneg hE K) (induced_within E K) (X := Q)
          (e := fun A => (((Q A).card : ℚ) - 1) * ε) fun A hA => by
            have h2 := (hsub A hA).1
            refine ⟨h2.1, fun R hR hr => ?_⟩
            rw [induced_induced (hopt.1.subset hA)]
            exact h2.2 R hR hr
        have hcard : ((S.biUnion Q).card : ℚ) = ∑ A ∈ S, ((Q A).card : ℚ) := by
          rw [Finset.card_biUnion]
          · push_cast; rfl
          · intro A hA B hB hAB
            rw [Function.onFun, Finset.disjoint_left]
            intro X hXA hXB
            obtain ⟨v, hv⟩ := (hQ A hA).part.nonempty hXA
            exact hAB (hopt.1.eq_of_mem hA hB ((hQ A hA).part.subset hXA hv) ((hQ B hB).part.subset hXB hv))
        have hS2 : (2 : ℚ) ≤ S.card := by
          rw [hS, List.toFinset_card_of_nodup hnd, List.length_map]; exact_mod_cast hlen
        refine ⟨h1.1, fun R hR hr => ?_⟩
        have h3 := h1.2 R hR hr
        rw [induced_self (induced_within E K), ← Finset.sum_mul, Finset.sum_sub_distrib, ← hcard] at h3
        simp only [Finset.sum_const, nsmul_eq_mul, mul_one] at h3
        nlinarith
      · obtain ⟨A, hA, hBA⟩ := Finset.mem_biUnion.1 hB
        exact (hsub A hA).2 B hBA

theorem NChain.lower {C σ a a' : ℚ} {s : List (ℚ × ℚ × Partition)} (h : NChain E V C σ a P s) (hle : a' ≤ a) :
    NChain E V C σ a' P s := by
  cases s with
  | nil => trivial
  | cons x s =>
    obtain ⟨k1, k2, k3⟩ := h
    exact ⟨hle.trans k1, by linarith, k3⟩

theorem ThrA.minsOf {A : Finset ℕ} {mu : ℚ} (h : ThrA ε E st A mu P) :
    minsOf P = A.filter fun v => v = firstElem A ∨ st.W v < mu := by
  ext v
  unfold Theory.minsOf
  rw [Finset.mem_image, Finset.mem_filter, h.mins v]

theorem ThrA.refines {A : Finset ℕ} {mu nu : ℚ} (hP : ThrA ε E st A mu P) (hQ : ThrA ε E st A nu Q)
    (hle : nu ≤ mu) (hdown : ∀ v ∈ A, v ≠ firstElem A → st.K v < v) : Refines P Q := by
  have key : ∀ v, ∀ B ∈ P, v ∈ B → Same Q v (firstElem B) := by
    intro v
    induction v using Nat.strong_induction_on with
    | _ v ih =>
      intro B hB hv
      have hvA := hP.part.subset hB hv
      by_cases hvm : v = firstElem B
      · obtain ⟨C, hC, hvC⟩ := hQ.part.exists_block hvA
        exact ⟨C, hC, hvC, hvm ▸ hvC⟩
      · have hnot : ¬ (v = firstElem A ∨ st.W v < mu) := by
          intro h
          obtain ⟨B', hB', he⟩ := (hP.mins v).2 ⟨hvA, h⟩
          have := hP.part.eq_of_mem hB' hB (he ▸ firstElem_mem (hP.part.nonempty hB')) hv
          exact hvm (by rw [← this, he])
        push Not at hnot
        obtain ⟨B', hB', h1, h2⟩ := hP.same v hvA hnot.1 hnot.2
        obtain rfl := hP.part.eq_of_mem hB' hB h1 hv
        obtain ⟨C, hC, c1, c2⟩ := ih _ (hdown v hvA hnot.1) B' hB h2
        obtain ⟨C', hC', c3, c4⟩ := hQ.same v hvA hnot.1 (hle.trans hnot.2)
        obtain rfl := hQ.part.eq_of_mem hC hC' c1 c4
        exact ⟨C, hC, c3, c2⟩
  intro B hB
  obtain ⟨C, hC, _, hf⟩ := key _ B hB (firstElem_mem (hP.part.nonempty hB))
  refine ⟨C, hC, fun v hv => ?_⟩
  obtain ⟨C', hC', h1, h2⟩ := key v B hB hv
  rwa [hQ.part.eq_of_mem hC' hC h2 hf] at h1

/-- What is known about the arrays after `split`; the values only grow strictly along the links if the
cuts were the minimal ones (`M`). -/
structure ArraysA (M : Prop) (ε : ℚ) (E : List Arc) (n : ℕ) (st : HState) (l : ℚ) : Prop where
  zeroK : st.K 0 = 0
  zeroW : st.W 0 = l
  nonneg : 0 ≤ l
  two : ∃ v < n, v ≠ 0 ∧ st.W v = l
  down : ∀ v < n, v ≠ 0 → st.K v < v
  ge : ∀ v < n, l ≤ st.W v
  grow : M → ∀ v < n, v ≠ 0 → st.K v ≠ 0 → st.W (st.K v) < st.W v
  thr : ∀ mu, ∃ P, ThrA ε E st (Finset.range n) mu P

theorem mergeLoop_near {M : Prop} {l : ℚ} (hn : 0 < n) (hE : NonnegE E) (hε : 0 ≤ ε) (hW : Within E (Finset.range n)) (ha : ArraysA M ε E n st l) (k : ℕ) :
    ∀ (mu : ℚ) (C : List ℕ) (D : DMap) (P : Partition) (psp : List Partition)
      (t : List (ℚ × Partition)), C = (List.range n).filter (fun v => st.W v < mu) → C.length + 1 ≤ k →
      ThrA ε E st (Finset.range n) mu P → (M → DEnc P D) →
      (M → psp ++ [makeFine n] = P :: t.map Prod.snd) → psp.length = t.length →
      NChain E (Finset.range n) (((n : ℚ) - 1) * ε) 0 mu P (t.map fun x => (x.1, x.1, x.2)) → lastOf P t = singletons (Finset.range n) →
      (t.map Prod.fst).Pairwise (· < ·) → (∀ c ∈ t.map Prod.fst, mu ≤ c) →
      ∃ t', ∃ psp', mergeLoop n st k C D psp (t.map Prod.fst) = .ok (psp', t'.map Prod.fst) ∧
        (M → psp' ++ [makeFine n] = {Finset.range n} :: t'.map Prod.snd) ∧ psp'.length = t'.length ∧
        (∃ a, NChain E (Finset.range n) (((n : ℚ) - 1) * ε) 0 a {Finset.range n} (t'.map fun x => (x.1, x.1, x.2))) ∧
        lastOf {Finset.range n} t' = singletons (Finset.range n) ∧
        (t'.map Prod.fst).Pairwise (· < ·) := by
  have hf0 := firstElem_range hn
  induction k with
  | zero => intro mu C D P psp t _ hk; omega
  | succ k ih =>
    intro mu C D P psp t hC hk hP hD hpsp hpl hlk hls hinc hge
    have hmemC : ∀ v, v ∈ C ↔ v < n ∧ st.W v < mu := by
      intro v; rw [hC, List.mem_filter]; simp
    have hCnd : C.Nodup := by rw [hC]; exact List.nodup_range.filter _
    obtain ⟨v1, hv1n, hv10, hv1W⟩ := ha.two
    unfold mergeLoop
    by_cases hlen : C.length ≤ 1
    · rw [if_pos hlen]
      have hmul : mu ≤ l := by
        by_contra hlt
        push Not at hlt
        have h0 : 0 ∈ C := (hmemC 0).2 ⟨hn, by rw [ha.zeroW]; exact hlt⟩
        have h1 : v1 ∈ C := (hmemC v1).2 ⟨hv1n, by rw [hv1W]; exact hlt⟩
        have hle : ({0, v1} : Finset ℕ) ⊆ C.toFinset := by
          intro x hx
          rw [List.mem_toFinset]
          rcases Finset.mem_insert.1 hx with rfl | hx
          · exact h0
          · rw [Finset.mem_singleton.1 hx]; exact h1
        have := Finset.card_le_card hle
        rw [Finset.card_pair (Ne.symm hv10), List.toFinset_card_of_nodup hCnd] at this
        omega
      have hPeq : P = {Finset.range n} := by
        apply hP.part.eq_single_of_card
        rw [← card_minsOf hP.part, hP.minsOf, Finset.card_eq_one]
        refine ⟨0, ?_⟩
        ext v
        rw [Finset.mem_filter, Finset.mem_singleton, hf0, Finset.mem_range]
        constructor
        · rintro ⟨hv, h | h⟩
          · exact h
          · exact absurd h (not_lt.2 (hmul.trans (ha.ge v hv)))
        · rintro rfl; exact ⟨hn, Or.inl rfl⟩
      subst hPeq
      exact ⟨t, psp, rfl, hpsp, hpl, ⟨mu, hlk⟩, hls, hinc⟩
    · rw [if_neg hlen]
      have hCne : C ≠ [] := by rintro rfl; simp at hlen
      obtain ⟨⟨w, hwC, hwγ⟩, hmax⟩ := mergeGamma_spec (W := st.W) hCne
        (fun v hv => ha.nonneg.trans (ha.ge v ((hmemC v).1 hv).1))
      simp only
      set γ := mergeGamma st.W C with hγ
      have hwn := ((hmemC w).1 hwC).1
      have hγmu : γ < mu := hwγ ▸ ((hmemC w).1 hwC).2
      have hlγ : l ≤ γ := hwγ ▸ ha.ge w hwn
      have hle : ∀ v < n, st.W v < mu → st.W v ≤ γ := fun v hv h => hmax v ((hmemC v).2 ⟨hv, h⟩)
      obtain ⟨Q, hQ⟩ := ha.thr γ
      have hPQ : Refines P Q := hP.refines hQ hγmu.le (fun v hv hne => by
        rw [hf0] at hne; exact ha.down v (by simpa using hv) hne)
      -- some element other than 0 leaves
      obtain ⟨x, hxn, hx0, hxW⟩ : ∃ x < n, x ≠ 0 ∧ st.W x = γ := by
        by_cases hw0 : w = 0
        · refine ⟨v1, hv1n, hv10, ?_⟩
          rw [hv1W, ← hwγ, hw0, ha.zeroW]
        · exact ⟨w, hwn, hw0, hwγ⟩
      have hmP := hP.minsOf
      have hmQ := hQ.minsOf
      rw [hf0] at hmP hmQ
      have hne : P ≠ Q := by
        rintro rfl
        have h1 : x ∈ minsOf P := by
          rw [hmP, Finset.mem_filter]; exact ⟨by simpa using hxn, Or.inr (hxW ▸ hγmu)⟩
        rw [hmQ, Finset.mem_filter] at h1
        rcases h1.2 with h | h
        · exact hx0 h
        · rw [hxW] at h; exact lt_irrefl _ h
      have hoP : IsNearOptimal E (Finset.range n) (((n : ℚ) - 1) * ε) γ P := by
        obtain ⟨o1, o2⟩ := hP.opt γ hγmu.le fun v hv _ h => hle v (by simpa using hv) h
        have := o1.near hE hW hε (by linarith) o2
        rwa [Finset.card_range] at this
      have hoQ : IsNearOptimal E (Finset.range n) (((n : ℚ) - 1) * ε) γ Q := by
        obtain ⟨o1, o2⟩ := hQ.opt γ le_rfl fun v _ _ h => h.le
        have := o1.near hE hW hε (by linarith) o2
        rwa [Finset.card_range] at this
      set F := C.filter fun j => st.W j = γ with hF
      have hmemF : ∀ v, v ∈ F ↔ v < n ∧ st.W v = γ := by
        intro v
        rw [hF, List.mem_filter, hmemC]
        simp only [decide_eq_true_eq]
        exact ⟨fun h => ⟨h.1.1, h.2⟩, fun h => ⟨⟨h.1, h.2 ▸ hγmu⟩, h.2⟩⟩
      have hmerge : M → DEnc Q (mergeD st.W st.K γ C D) ∧
          mergePartition n (mergeD st.W st.K γ C D) = Q := by
        intro hM
        obtain ⟨P', hP', hr', hD', hm'⟩ := mergeFold (γ := γ) ha.zeroK hn ha.down hQ.part
          (fun v hv h0 hWv => hQ.same v (by simpa using hv) (by rw [hf0]; exact h0) hWv.ge)
          (ha.grow hM) F P D (hCnd.filter _) (fun v hv => (hmemF v).1 hv) hP.part hPQ (hD hM)
          (fun v hv h => by
            rw [hmP, Finset.mem_filter]
            refine ⟨by simpa using hv, ?_⟩
            rcases h with h | h | h
            · exact Or.inl h
            · exact Or.inr (h.trans hγmu)
            · exact Or.inr (((hmemF v).1 h).2 ▸ hγmu))
        have hmins : minsOf P' = minsOf Q := by
          rw [hm', hmP, hmQ]
          ext v
          simp only [Finset.mem_filter, Finset.mem_range, hmemF]
          constructor
          · rintro ⟨⟨hv, h1⟩, h2⟩
            refine ⟨hv, ?_⟩
            rcases h2 with h2 | h2
            · exact Or.inl h2
            · refine h1.imp id fun h1 => lt_of_le_of_ne (hle v hv h1) fun h3 => h2 ⟨hv, h3⟩
          · rintro ⟨hv, h⟩
            exact ⟨⟨hv, h.imp id fun h => h.trans hγmu⟩, h.imp id fun h h3 => h.ne h3.2⟩
        have hPQ' : P' = Q := by
          by_contra hcon
          have h1 := hr'.card_lt hP' hQ.part hcon
          rw [← card_minsOf hP', ← card_minsOf hQ.part, hmins] at h1
          exact lt_irrefl _ h1
        subst hPQ'
        exact ⟨hD', mergePartition_eq hP' hD'⟩
      have hCnew : (C.filter fun j => ¬ st.W j = γ) = (List.range n).filter fun v => st.W v < γ := by
        rw [hC, List.filter_filter]
        apply List.filter_congr
        intro v hv
        have hv : v < n := by simpa using hv
        simp only [← Bool.decide_and, decide_eq_decide]
        constructor
        · rintro ⟨h1, h2⟩; exact lt_of_le_of_ne (hle v hv h2) h1
        · intro h; exact ⟨h.ne, h.trans hγmu⟩
      have hlt : (C.filter fun j => ¬ st.W j = γ).length < C.length := by
        apply lt_of_le_of_ne (List.length_filter_le _ _)
        intro h
        have := List.length_filter_eq_length_iff.1 h w hwC
        simp [hwγ] at this
      exact ih γ _ _ Q (_ :: psp) ((γ, P) :: t) hCnew (by omega) hQ (fun hM => (hmerge hM).1)
        (fun hM => by rw [List.cons_append, hpsp hM, (hmerge hM).2]; rfl) (by simp [hpl])
        ⟨le_rfl, by simp, by simp, hoQ, hoP, ⟨hPQ, hne⟩, hlk.lower hγmu.le⟩ hls
        (by
          rw [List.map_cons, List.pairwise_cons]
          exact ⟨fun c hc => lt_of_lt_of_le hγmu (hge c hc), hinc⟩)
        (by
          intro c hc
          rw [List.map_cons] at hc
          rcases List.mem_cons.1 hc with rfl | hc
          · exact le_rfl
          · exact hγmu.le.trans (hge c hc))

theorem pspConstruct_near {M : Prop} {l : ℚ} (hn : 0 < n) (hE : NonnegE E) (hε : 0 ≤ ε) (hW : Within E (Finset.range n))
    (ha : ArraysA M ε E n st l) :
    ∃ t psp, pspConstruct n st = .ok ⟨psp, t.map Prod.fst⟩ ∧
      (M → psp = {Finset.range n} :: t.map Prod.snd) ∧ psp.length = t.length + 1 ∧
      (∃ a, NChain E (Finset.range n) (((n : ℚ) - 1) * ε) 0 a {Finset.range n} (t.map fun x => (x.1, x.1, x.2))) ∧
      lastOf {Finset.range n} t = singletons (Finset.range n) ∧ (t.map Prod.fst).Pairwise (· < ·) := by
  -- a threshold above all values
  obtain ⟨mu, hmu⟩ : ∃ mu, ∀ v < n, st.W v < mu := by
    refine ⟨((List.range n).map fun v => |st.W v|).sum + 1, fun v hv => ?_⟩
    have h1 : |st.W v| ≤ ((List.range n).map fun v => |st.W v|).sum :=
      List.single_le_sum (by
        intro x hx
        obtain ⟨w, _, rfl⟩ := List.mem_map.1 hx
        exact abs_nonneg _) _ (List.mem_map.2 ⟨v, by simpa using hv, rfl⟩)
    have := le_abs_self (st.W v)
    linarith
  obtain ⟨P, hP⟩ := ha.thr mu
  have hsing : P = singletons (Finset.range n) := by
    apply hP.part.eq_singletons_of_card
    rw [← card_minsOf hP.part, hP.minsOf]
    congr 1
    rw [Finset.filter_eq_self]
    intro v hv
    exact Or.inr (hmu v (by simpa using hv))
  have hfine : makeFine n = singletons (Finset.range n) := rfl
  have hD : DEnc P (fun _ => none) := by
    refine ⟨fun B hB => Or.inl ⟨rfl, ?_⟩, fun _ _ => rfl⟩
    rw [hsing] at hB
    obtain ⟨v, _, rfl⟩ := Finset.mem_image.1 hB
    have := firstElem_mem (B := {v}) (by simp)
    rw [Finset.mem_singleton.1 this]
  obtain ⟨t', psp', h1, h2, h2', h3, h4, h5⟩ := mergeLoop_near hn hE hε hW ha (n + 1) mu (List.range n)
    (fun _ => none) P [] [] (by
      symm
      rw [List.filter_eq_self]
      intro v hv
      simpa using hmu v (by simpa using hv)) (by simp) hP (fun _ => hD)
    (fun _ => by simp [hsing, hfine]) rfl trivial hsing (by simp) (by simp)
  refine ⟨t', psp' ++ [makeFine n], ?_, h2, by simp [h2'], h3, h4, h5⟩
  unfold pspConstruct
  simp only [List.map_nil] at h1
  rw [h1, Outcome.ok_bind]
  rfl

/-- The arrays of `HPSP` after `split`, with any way to decide. -/
theorem hpspSplitO_near {dec : Decide} {u : ℚ} {g : Digraph} (hn : 2 ≤ n) (hg : GoodDigraph g n)
    (hdec : DecideNear M dec g.arcs (Finset.range n) u ε) {ord : Partition → List CSet}
    (hord : Enumerates ord) (hε : 0 < ε) (hu : 0 < u) (hgr : Granular u g.arcs) (hlow : ∀ e ∈ g.arcs, ε ≤ e.cap) :
    ∃ g' ch l st, hpspSplitO dec ε ord (n + 1) g ⟨fun _ => 0, fun _ => 0⟩ 0 (Finset.range n) = .ok (g', st) ∧
      GoodA M ε g.arcs (.node (Finset.range n) (some l) ch) ∧ Enc st (.node (Finset.range n) (some l) ch) ∧
      ArraysA M ε g.arcs n st l := by
  obtain ⟨g', ch', l, he, hgood, hsim⟩ := splitO_near hn hg hdec hord hε hu hgr hlow
  set V := Finset.range n with hV
  have hE := hg.good.nonneg
  have hW := hg.good.within
  have hf0 : firstElem V = 0 := firstElem_range (by omega)
  obtain ⟨st', hsp, henc, hW0, hK0, _⟩ := hsim ⟨fun _ => 0, fun _ => 0⟩ (fun c hc => by
    obtain ⟨i, _, rfl⟩ := List.mem_map.1 hc
    exact Enc.leaf _)
  rw [hf0] at hsp hW0 hK0
  have hchain := enc_chainA hgood henc
  simp only [PTree.K, PTree.val, hf0] at hchain
  have hge : ∀ v < n, v ≠ 0 → l ≤ st'.W v := by
    intro v hv h0
    obtain ⟨_, _, ⟨m, hm, hmv⟩, _⟩ := hchain v (by simpa [hV] using hv) h0
    rw [Option.some.injEq] at hm
    rw [hm]; exact hmv
  have ha : ArraysA M ε g.arcs n st' l := by
    refine ⟨hK0, hW0, ?_, ?_, ?_, ?_, ?_, ?_⟩
    · cases hgood with
      | node K l ch _ _ hlen hnd hne hopt hc =>
        have hcard : (2 : ℚ) ≤ (ch'.map PTree.K).toFinset.card := by
          rw [List.toFinset_card_of_nodup hnd, List.length_map]; exact_mod_cast hlen
        have hnn := crossWeight_nonneg (induced_nonneg hE V) (ch'.map PTree.K).toFinset
        unfold cost at hc
        by_contra hneg
        push Not at hneg
        nlinarith
    · cases hgood with
      | node K l ch _ _ hlen hnd hne hopt hc =>
        cases henc with
        | node _ _ _ _ hv =>
        -- a child whose least element is not 0
        obtain ⟨c, hc, hcne⟩ : ∃ c ∈ ch', firstElem c.K ≠ 0 := by
          by_contra hcon
          push Not at hcon
          have h1 : (ch'.map PTree.K).toFinset.card ≤ 1 := by
            rw [Finset.card_le_one]
            intro A hA B hB
            apply IsPartition.eq_of_firstElem hopt.1 hA hB
            obtain ⟨a, ha, rfl⟩ := List.mem_map.1 (List.mem_toFinset.1 hA)
            obtain ⟨b, hb, rfl⟩ := List.mem_map.1 (List.mem_toFinset.1 hB)
            rw [hcon a ha, hcon b hb]
          rw [List.toFinset_card_of_nodup hnd, List.length_map] at h1
          omega
        have hcm : c.K ∈ (ch'.map PTree.K).toFinset := List.mem_toFinset.2 (List.mem_map_of_mem hc)
        have := hopt.1.subset hcm (firstElem_mem (hopt.1.nonempty hcm))
        exact ⟨firstElem c.K, by simpa [hV] using this, hcne, (hv c hc (by rw [hf0]; exact hcne)).1⟩
    · intro v hv h0; exact (hchain v (by simpa [hV] using hv) h0).2.1
    · intro v hv
      by_cases h0 : v = 0
      · rw [h0, hW0]
      · exact hge v hv h0
    · intro hM v hv h0 hk; exact (hchain v (by simpa [hV] using hv) h0).2.2.2 hM hk
    · intro mu; exact exists_thrA hE hε.le hgood henc mu
  exact ⟨g', ch', l, st', hsp, hgood, henc, ha⟩

theorem hpspRun_near {S : FlowSolver} (hS : S.Minimal) {ord : Partition → List CSet}
    (hord : Enumerates ord) {g : Digraph} (hn : 2 ≤ n) (hg : GoodDigraph g n) (hε : 0 < ε)
    (hlow : ∀ e ∈ g.arcs, ε ≤ e.cap) :
    ∃ g' r, hpspRun S ε ord g = .ok (g', r) ∧
      IsApproximateSequence g.arcs (Finset.range n) (((n : ℚ) - 1) * ε) r.psp r.cv := by
  obtain ⟨u, hu, hgr⟩ := exists_granular g.arcs
  have hcn : g.countNodes = n := by rw [Digraph.countNodes, hg.nodes, List.length_range]
  obtain ⟨g', ch, l, st, hsp, _, _, ha⟩ := hpspSplitO_near hn hg
    (decideI_near (E := g.arcs) (V := Finset.range n) hS.toCorrect hε.le) hord hε hu hgr hlow
  obtain ⟨t, psp, ht, hpsp, hlen, ⟨a, hlk⟩, hls, hinc⟩ := pspConstruct_near (by omega) hg.good.nonneg hε.le
    hg.good.within ha
  refine ⟨g', ⟨_, _⟩, ?_, chain_approx (by simpa using hn) hlk hls⟩
  unfold hpspRun
  simp only [hcn]
  rw [if_neg (by omega), show makeDense n = Finset.range n from rfl, hpspSplit_eq, hsp, Outcome.ok_bind]
  simp only
  rw [ht, hpsp hS]
  rfl

end PSP.Theory
