import Verif.Theory.PSPIRun
import Verif.Theory.SortedApprox

/-!
# Trees that describe a principal sequence up to an error
-/

namespace PSP.Theory

open PSP.Spec PSP.Model

variable {E : List Arc} {V K G : Finset ℕ} {P Q R C S0 : Partition} {u ε δ lam : ℚ} {M F : Prop}

/-! ### merging a set -/

/-- The traces of the blocks of `P` on `G`. -/
def cut (P : Partition) (G : Finset ℕ) : Partition := (meeting P G).image fun A => A ∩ G

theorem mem_cut {B : Finset ℕ} : B ∈ cut P G ↔ ∃ A ∈ P, ¬ Disjoint A G ∧ A ∩ G = B := by
  simp [cut, mem_meeting, and_assoc]

/-- Merging all blocks that meet `G` saves what `G` saves when its traces are merged. -/
theorem cost_expand_add (hE : NonnegE E) (hW : Within E V) (lam : ℚ) (hG : G.Nonempty) (hGV : G ⊆ V)
    (hP : IsPartition V P) : IsPartition G (cut P G) ∧
      cost E lam (expand P G) + cost (induced E G) lam (cut P G) ≤ cost E lam P + cost (induced E G) lam {G} := by
  set Q0 : Finset (Finset ℕ) := insert G (singletons (V \ G)) with hQ0
  have hQ0p : IsPartition V Q0 := by
    rw [isPartition_iff]
    refine ⟨?_, ?_, ?_⟩
    · intro B hB
      rcases Finset.mem_insert.1 hB with rfl | hB
      · exact ⟨hG, hGV⟩
      · have := isPartition_singletons (V \ G)
        exact ⟨this.nonempty hB, (this.subset hB).trans Finset.sdiff_subset⟩
    · intro v hv
      by_cases hvG : v ∈ G
      · exact ⟨G, by simp [hQ0], hvG⟩
      · exact ⟨{v}, by simp [hQ0, singletons, hv, hvG], by simp⟩
    · have hs := isPartition_singletons (V \ G)
      intro B hB C hC v hv hv'
      rcases Finset.mem_insert.1 hB with rfl | hB <;> rcases Finset.mem_insert.1 hC with rfl | hC
      · rfl
      · exact absurd hv (Finset.mem_sdiff.1 (hs.subset hC hv')).2
      · exact absurd hv' (Finset.mem_sdiff.1 (hs.subset hB hv)).2
      · exact hs.eq_of_mem hB hC hv hv'
  have hGQ : G ∈ Q0 := by simp [hQ0]
  have h1 := crossWeight_uncross (P := P) hE hGQ
  have hsp := splitBlock_isPartition hQ0p hP hGQ
  have href : Refines (splitBlock Q0 P G) Q0 := by
    intro B hB
    rcases Finset.mem_union.1 hB with hB | hB
    · exact ⟨B, Finset.mem_of_mem_erase hB, subset_rfl⟩
    · obtain ⟨A, _, rfl⟩ := Finset.mem_image.1 hB
      exact ⟨G, hGQ, Finset.inter_subset_right⟩
  have hcut : Spec.part (splitBlock Q0 P G) G = cut P G := by
    ext B
    rw [mem_part]
    unfold splitBlock
    rw [Finset.mem_union]
    constructor
    · rintro ⟨hB | hB, hs⟩
      · exfalso
        have hB' := Finset.mem_erase.1 hB
        obtain ⟨v, hv⟩ := hQ0p.nonempty hB'.2
        exact hB'.1 (hQ0p.eq_of_mem hB'.2 hGQ hv (hs hv))
      · exact hB
    · intro hB
      refine ⟨Or.inr hB, ?_⟩
      obtain ⟨A, _, _, rfl⟩ := mem_cut.1 hB
      exact Finset.inter_subset_right
  have hc1 := cost_glue hW hQ0p hsp href lam
  have hc0 := cost_glue hW hQ0p hQ0p (Refines.refl _) lam
  rw [← Finset.add_sum_erase _ _ hGQ] at hc1 hc0
  have hrest : ∑ C ∈ Q0.erase G, cost (induced E C) lam (Spec.part (splitBlock Q0 P G) C) =
      ∑ C ∈ Q0.erase G, cost (induced E C) lam (Spec.part Q0 C) := by
    apply Finset.sum_congr rfl
    intro C hC
    congr 1
    rw [part_self hQ0p (Finset.mem_of_mem_erase hC), part_self hsp]
    exact Finset.mem_union.2 (Or.inl hC)
  rw [part_self hQ0p hGQ] at hc0
  have hk1 := card_splitBlock hQ0p hP hGQ
  have hk2 := card_expand (P := P) hG
  have hk1' : ((splitBlock Q0 P G).card : ℚ) + 1 = Q0.card + (meeting P G).card := by
    exact_mod_cast hk1
  have hk2' : ((expand P G).card : ℚ) + (meeting P G).card = P.card + 1 := by exact_mod_cast hk2
  refine ⟨hcut ▸ part_isPartition hQ0p hsp href hGQ, ?_⟩
  rw [← hcut]
  have e1 : cost E lam (splitBlock Q0 P G) - cost E lam Q0 =
      cost (induced E G) lam (Spec.part (splitBlock Q0 P G) G) - cost (induced E G) lam {G} := by
    rw [hc1, hc0, hrest]; ring
  have e2 : lam * ((splitBlock Q0 P G).card : ℚ) + lam * ((expand P G).card : ℚ) =
      lam * P.card + lam * Q0.card := by
    rw [← mul_add, ← mul_add]; congr 1; linarith
  have e3 : cost E lam (expand P G) + cost E lam (splitBlock Q0 P G) ≤ cost E lam P + cost E lam Q0 := by
    unfold cost; linarith
  linarith

/-- The trace of a partition of `V` that is coarser than `C` on `G` is coarser than `C`. -/
theorem refines_cut (hC : IsPartition G C) (h : Refines C P) : Refines C (cut P G) := by
  intro B hB
  obtain ⟨A, hA, hBA⟩ := h B hB
  obtain ⟨v, hv⟩ := hC.nonempty hB
  refine ⟨A ∩ G, mem_cut.2 ⟨A, hA, Finset.not_disjoint_iff.2 ⟨v, hBA hv, hC.subset hB hv⟩, rfl⟩, ?_⟩
  exact Finset.subset_inter hBA (hC.subset hB)

/-- A family of sets that each nearly want to stay together can be merged at little cost. -/
theorem exists_coarser_near (hE : NonnegE E) (hW : Within E V) {lam : ℚ} (e : Finset ℕ → ℚ) (G : Finset (Finset ℕ))
    (hG : ∀ A ∈ G, A.Nonempty ∧ A ⊆ V ∧ IsNearOptimal (induced E A) A (e A) lam {A})
    (hP : IsPartition V P) :
    ∃ R, IsPartition V R ∧ cost E lam R ≤ cost E lam P + ∑ A ∈ G, e A ∧ Refines G R := by
  induction G using Finset.induction_on with
  | empty => exact ⟨P, hP, by simp, fun B hB => absurd hB (by simp)⟩
  | insert A G hA ih =>
    obtain ⟨R, hR, hc, hr⟩ := ih fun B hB => hG B (Finset.mem_insert_of_mem hB)
    obtain ⟨h1, h2, h3⟩ := hG A (Finset.mem_insert_self _ _)
    obtain ⟨h4, h5⟩ := cost_expand_add hE hW lam h1 h2 hR
    have h6 := h3.2 _ h4
    refine ⟨expand R A, expand_isPartition' hR h1 h2, ?_, ?_⟩
    · rw [Finset.sum_insert hA]; linarith
    · intro B hB
      rcases Finset.mem_insert.1 hB with rfl | hB
      · exact ⟨_, bigBlock_mem_expand, subset_bigBlock⟩
      · exact (Refines.trans hr (refines_expand R A)) B hB

/-! ### optimality among the partitions coarser than a given one -/

/-- `P` is, up to `δ`, cheapest among the partitions of `K` that `S0` refines. -/
def RelOpt (E : List Arc) (K : Finset ℕ) (S0 : Partition) (δ lam : ℚ) (P : Partition) : Prop :=
  IsPartition K P ∧ ∀ R, IsPartition K R → Refines S0 R → cost (induced E K) lam P ≤ cost (induced E K) lam R + δ

theorem cost_whole (E : List Arc) (K : Finset ℕ) (lam : ℚ) : cost (induced E K) lam {K} = -lam := by
  unfold cost
  rw [crossWeight_single (induced_within _ _), Finset.card_singleton]
  push_cast
  ring

theorem RelOpt.mono {S1 : Partition} (h : RelOpt E K S0 δ lam P) (hs : Refines S0 S1) : RelOpt E K S1 δ lam P :=
  ⟨h.1, fun R hR hr => h.2 R hR (hs.trans hr)⟩

/-- Above the parameter, a partition stays optimal among the coarser ones. -/
theorem RelOpt.raise (h : RelOpt E K P δ lam P) {mu : ℚ} (hle : lam ≤ mu) : RelOpt E K P δ mu P := by
  refine ⟨h.1, fun R hR hr => ?_⟩
  have h1 := h.2 R hR hr
  have h2 := cost_shift (E := induced E K) (l := lam) (m := mu) P R
  have h3 : (R.card : ℚ) ≤ P.card := by exact_mod_cast hr.card_le h.1 hR
  nlinarith

/-! ### trees -/

/-- Like `Good`, but the partition into the children's sets need only be within `ε` of the optimum, and only among the
partitions that do not cut these sets; its cost equals that of the whole set. -/
inductive GoodA (M : Prop) (ε : ℚ) (E : List Arc) : PTree → Prop
  | leaf (v : ℕ) : GoodA M ε E (.leaf {v})
  | node (K : CSet) (l : ℚ) (ch : List PTree) (hch : ∀ c ∈ ch, GoodA M ε E c)
      (hval : ∀ c ∈ ch, ∀ m, c.val = some m → l ≤ m ∧ (M → l < m)) (hlen : 2 ≤ ch.length)
      (hnd : (ch.map PTree.K).Nodup) (hne : K.Nonempty)
      (hopt : RelOpt E K (ch.map PTree.K).toFinset ε l (ch.map PTree.K).toFinset)
      (hbal : cost (induced E K) l (ch.map PTree.K).toFinset = -l) : GoodA M ε E (.node K (some l) ch)

theorem GoodA.nonempty {t : PTree} (h : GoodA M ε E t) : t.K.Nonempty := by
  cases h with
  | leaf v => exact ⟨v, by simp [PTree.K]⟩
  | node K l ch _ _ _ _ hne _ _ => exact hne

/-- Below its value, the set of a good tree nearly wants to stay together. -/
theorem GoodA.single (hE : NonnegE E) (hε : 0 ≤ ε) {t : PTree} (h : GoodA M ε E t) :
    ∀ {lam : ℚ}, (∀ m, t.val = some m → lam ≤ m) →
      IsNearOptimal (induced E t.K) t.K (((t.K.card : ℚ) - 1) * ε) lam {t.K} := by
  induction h with
  | leaf v =>
    intro lam _
    have := isOptimal_singleton (induced E {v}) v lam
    exact ⟨this.1, fun R hR => by simpa [PTree.K] using this.2 R hR⟩
  | node K l ch hch hval hlen hnd hne hopt hbal ih =>
    intro lam hle
    have hle := hle l rfl
    simp only [PTree.K]
    refine ⟨isPartition_single hne, fun R hR => ?_⟩
    set C := (ch.map PTree.K).toFinset with hC
    obtain ⟨R', hR', hc, hr⟩ := exists_coarser_near (induced_nonneg hE K) (induced_within E K) (lam := lam)
      (fun A => ((A.card : ℚ) - 1) * ε) C (fun A hA => by
        obtain ⟨c, hc, rfl⟩ := List.mem_map.1 (List.mem_toFinset.1 hA)
        refine ⟨hopt.1.nonempty hA, hopt.1.subset hA, ?_⟩
        rw [induced_induced (hopt.1.subset hA)]
        exact ih c hc fun m hm => hle.trans (hval c hc m hm).1) hR
    have hsum : ∑ A ∈ C, ((A.card : ℚ) - 1) * ε = ((K.card : ℚ) - C.card) * ε := by
      rw [← Finset.sum_mul, Finset.sum_sub_distrib]
      have h1 : ∑ A ∈ C, (A.card : ℚ) = K.card := by
        have := hopt.1.sum_blocks fun _ => (1 : ℚ)
        simpa using this
      rw [h1]; simp
    have hcard : (2 : ℚ) ≤ C.card := by
      rw [hC, List.toFinset_card_of_nodup hnd, List.length_map]; exact_mod_cast hlen
    have h1 := hopt.2 R' hR' hr
    rw [hbal] at h1
    have h2 := cost_shift (E := induced E K) (l := l) (m := lam) {K} R'
    rw [cost_whole, cost_whole, Finset.card_singleton] at h2
    have h3 : (1 : ℚ) ≤ R'.card := by exact_mod_cast hR'.card_pos hne
    rw [cost_whole]
    rw [hsum] at hc
    push_cast at h2
    nlinarith

/-- The value of a tree node over a block of a partition that is optimal among the partitions coarser than `S0`. -/
theorem value_ge {γ l : ℚ} (hPP : RelOpt E K S0 0 γ P) (hS : Refines S0 P)
    (hfin : F → ∀ R, IsPartition K R → Refines S0 R → cost (induced E K) γ R ≤ cost (induced E K) γ P → Refines P R)
    {A : Finset ℕ} (hA : A ∈ P) (hC : IsPartition A C) (hSC : ∀ D ∈ S0, D ⊆ A → ∃ B ∈ C, D ⊆ B) (h2 : 2 ≤ C.card)
    (hS0 : ∀ D ∈ S0, D.Nonempty) (hbal : cost (induced E A) l C = -l) : γ ≤ l ∧ (F → γ < l) := by
  set R : Partition := P.biUnion fun B => if B = A then C else {B} with hR
  have hQ : ∀ B ∈ P, IsPartition B (if B = A then C else {B}) := by
    intro B hB
    by_cases h : B = A
    · rw [if_pos h, h]; exact hC
    · rw [if_neg h]; exact isPartition_single (hPP.1.nonempty hB)
  have hRp : IsPartition K R := biUnion_isPartition hPP.1 hQ
  have hRr : Refines S0 R := by
    intro D hD
    obtain ⟨B, hB, hDB⟩ := hS D hD
    by_cases h : B = A
    · subst h
      obtain ⟨B', hB', hDB'⟩ := hSC D hD hDB
      exact ⟨B', Finset.mem_biUnion.2 ⟨B, hB, by simpa using hB'⟩, hDB'⟩
    · exact ⟨B, Finset.mem_biUnion.2 ⟨B, hB, by simp [h]⟩, hDB⟩
  have hKW := induced_within E K
  have hcost : cost (induced E K) γ R - cost (induced E K) γ P = (l - γ) * ((C.card : ℚ) - 1) := by
    have e1 := cost_biUnion hKW hPP.1 hQ γ
    have e2 := cost_glue hKW hPP.1 hPP.1 (Refines.refl P) γ
    rw [← Finset.add_sum_erase _ _ hA, if_pos rfl] at e1
    rw [← Finset.add_sum_erase _ _ hA, part_self hPP.1 hA] at e2
    have e3 : ∑ B ∈ P.erase A, cost (induced (induced E K) B) γ (if B = A then C else {B}) =
        ∑ B ∈ P.erase A, cost (induced (induced E K) B) γ (Spec.part P B) := by
      apply Finset.sum_congr rfl
      intro B hB
      rw [if_neg (Finset.ne_of_mem_erase hB), part_self hPP.1 (Finset.mem_of_mem_erase hB)]
    rw [e3] at e1
    rw [induced_induced (hPP.1.subset hA)] at e1 e2
    rw [cost_whole] at e2
    have e4 : cost (induced E A) γ C = -l + (l - γ) * C.card := by
      rw [← hbal]; unfold cost; ring
    rw [← hR, e4] at e1
    rw [e1, e2]; ring
  have hc2 : (0 : ℚ) < (C.card : ℚ) - 1 := by
    have : (2 : ℚ) ≤ C.card := by exact_mod_cast h2
    linarith
  have hle : γ ≤ l := by
    have := hPP.2 R hRp hRr
    by_contra hlt
    push Not at hlt
    nlinarith
  refine ⟨hle, fun hF => lt_of_le_of_ne hle ?_⟩
  rintro rfl
  obtain ⟨D, hD, hAD⟩ := hfin hF R hRp hRr (by linarith) A hA
  obtain ⟨B, hB, hDB⟩ := Finset.mem_biUnion.1 hD
  obtain ⟨v, hv⟩ := hPP.1.nonempty hA
  have hDsub := (hQ B hB).subset hDB
  have hBA : B = A := hPP.1.eq_of_mem hB hA (hDsub (hAD hv)) hv
  subst hBA
  rw [if_pos rfl] at hDB
  have hDA : D = B := Finset.Subset.antisymm hDsub hAD
  have : C = {B} := by
    ext X
    rw [Finset.mem_singleton]
    constructor
    · intro hX
      obtain ⟨w, hw⟩ := hC.nonempty hX
      rw [← hDA]
      exact hC.eq_of_mem hX hDB hw (hAD (hC.subset hX hw))
    · rintro rfl; rwa [← hDA]
  rw [this, Finset.card_singleton] at h2
  omega

/-! ### expanding a node of the tree -/

/-- Replacing a block by the children of its tree node. -/
theorem RelOpt.expand {N l : ℚ} (hE : NonnegE E) (hW : Within E V) (h : RelOpt E V P (N * ε) lam P) (hKP : K ∈ P)
    (hle : l ≤ lam) (hopt : RelOpt E K C ε l C) :
    RelOpt E V (P.biUnion fun B => if B = K then C else {B}) ((N + 1) * ε) lam
      (P.biUnion fun B => if B = K then C else {B}) := by
  set P' : Partition := P.biUnion fun B => if B = K then C else {B} with hP'
  have hQ : ∀ B ∈ P, IsPartition B (if B = K then C else {B}) := by
    intro B hB
    by_cases h' : B = K
    · rw [if_pos h', h']; exact hopt.1
    · rw [if_neg h']; exact isPartition_single (h.1.nonempty hB)
  have hKne := h.1.nonempty hKP
  have hKV := h.1.subset hKP
  refine ⟨biUnion_isPartition h.1 hQ, fun R hR hr => ?_⟩
  rw [induced_self hW]
  -- the cost of the new partition
  have hcost : cost E lam P' = cost E lam P + (cost (induced E K) lam C + lam) := by
    have e1 := cost_biUnion hW h.1 hQ lam
    have e2 := cost_glue hW h.1 h.1 (Refines.refl P) lam
    rw [← Finset.add_sum_erase _ _ hKP, if_pos rfl] at e1
    rw [← Finset.add_sum_erase _ _ hKP, part_self h.1 hKP, cost_whole] at e2
    have e3 : ∑ B ∈ P.erase K, cost (induced E B) lam (if B = K then C else {B}) =
        ∑ B ∈ P.erase K, cost (induced E B) lam (Spec.part P B) := by
      apply Finset.sum_congr rfl
      intro B hB
      rw [if_neg (Finset.ne_of_mem_erase hB), part_self h.1 (Finset.mem_of_mem_erase hB)]
    rw [e3] at e1
    rw [← hP'] at e1
    rw [e1, e2]; ring
  have hcP' : ∀ B ∈ C, B ∈ P' := fun B hB => Finset.mem_biUnion.2 ⟨K, hKP, by simpa using hB⟩
  -- merge the set of the node
  obtain ⟨h1, h2⟩ := cost_expand_add hE hW lam hKne hKV hR
  rw [cost_whole] at h2
  have h3 : Refines P (Model.expand R K) := by
    intro B hB
    by_cases h' : B = K
    · subst h'; exact ⟨_, bigBlock_mem_expand, subset_bigBlock⟩
    · have hB' : B ∈ P' := Finset.mem_biUnion.2 ⟨B, hB, by simp [h']⟩
      exact (hr.trans (refines_expand R K)) B hB'
  have h4 := h.2 _ (expand_isPartition' hR hKne hKV) h3
  rw [induced_self hW] at h4
  have h5 : Refines C (cut R K) := refines_cut hopt.1 fun B hB => hr B (hcP' B hB)
  have h6 := hopt.2 _ h1 h5
  have h7 : ((cut R K).card : ℚ) ≤ C.card := by exact_mod_cast h5.card_le hopt.1 h1
  have h8 := cost_shift (E := induced E K) (l := l) (m := lam) C (cut R K)
  nlinarith

/-- If all blocks of `P` nearly want to stay together, optimality among the coarser partitions is enough. -/
theorem RelOpt.near {N : ℚ} (hE : NonnegE E) (hW : Within E V) (hε : 0 ≤ ε) (h : RelOpt E V P (N * ε) lam P)
    (hN : N + 1 ≤ P.card)
    (hb : ∀ A ∈ P, IsNearOptimal (induced E A) A (((A.card : ℚ) - 1) * ε) lam {A}) :
    IsNearOptimal E V (((V.card : ℚ) - 1) * ε) lam P := by
  refine ⟨h.1, fun R hR => ?_⟩
  obtain ⟨R', hR', hc, hr⟩ := exists_coarser_near hE hW (lam := lam) (fun A => ((A.card : ℚ) - 1) * ε) P
    (fun A hA => ⟨h.1.nonempty hA, h.1.subset hA, hb A hA⟩) hR
  have hsum : ∑ A ∈ P, ((A.card : ℚ) - 1) * ε = ((V.card : ℚ) - P.card) * ε := by
    rw [← Finset.sum_mul, Finset.sum_sub_distrib]
    have h1 : ∑ A ∈ P, (A.card : ℚ) = V.card := by
      have := h.1.sum_blocks fun _ => (1 : ℚ)
      simpa using this
    rw [h1]; simp
  have h1 := h.2 R' hR' hr
  rw [induced_self hW] at h1
  rw [hsum] at hc
  nlinarith

/-! ### the queue -/

/-- Invariant of the queue, `N` steps after its start. -/
structure QInvA (M : Prop) (ε : ℚ) (E : List Arc) (V : Finset ℕ) (lam : ℚ) (N : ℕ) (q : List PTree) : Prop where
  nodup : (q.map PTree.K).Nodup
  opt : RelOpt E V (shown q) (N * ε) lam (shown q)
  good : ∀ t ∈ q, GoodA M ε E t
  ge : ∀ t ∈ q, ∀ m, t.val = some m → lam ≤ m
  dec : Decreasing q
  steps : N + 1 ≤ q.length

theorem QInvA.card {N : ℕ} {q : List PTree} (h : QInvA M ε E V lam N q) : (shown q).card = q.length := by
  unfold shown
  rw [List.toFinset_card_of_nodup h.nodup, List.length_map]

theorem QInvA.near (hE : NonnegE E) (hW : Within E V) (hε : 0 ≤ ε) {N : ℕ} {q : List PTree} {mu : ℚ}
    (h : QInvA M ε E V lam N q) (hle : lam ≤ mu) (hge : ∀ t ∈ q, ∀ m, t.val = some m → mu ≤ m) :
    IsNearOptimal E V (((V.card : ℚ) - 1) * ε) mu (shown q) := by
  refine (h.opt.raise hle).near hE hW hε ?_ ?_
  · rw [h.card]; exact_mod_cast h.steps
  · intro A hA
    obtain ⟨s, hs, rfl⟩ := List.mem_map.1 (List.mem_toFinset.1 hA)
    exact (h.good s hs).single hE hε fun m hm => hge s hs m hm

theorem queueLoop_near (hE : NonnegE E) (hW : Within E V) (hV : V.Nonempty) (hε : 0 ≤ ε) (k : ℕ) :
    ∀ (lam : ℚ) (N : ℕ) (q : List PTree), QInvA M ε E V lam N q → V.card + 1 ≤ k + q.length →
      ∃ t : List (ℚ × Partition), queueLoop k q = .ok (shown q :: t.map Prod.snd, t.map Prod.fst) ∧
        NChain E V (((V.card : ℚ) - 1) * ε) 0 lam (shown q) (t.map fun x => (x.1, x.1, x.2)) ∧
        lastOf (shown q) t = singletons V := by
  induction k with
  | zero =>
    intro lam N q h hk
    have := h.opt.1.card_le
    rw [h.card] at this
    omega
  | succ k ih =>
    intro lam N q h hk
    have hqne : q ≠ [] := by
      rintro rfl
      have := h.opt.1.card_pos hV
      rw [h.card] at this
      simp at this
    obtain ⟨q0, t, rfl⟩ := List.eq_nil_or_concat q |>.resolve_left hqne
    rw [List.concat_eq_append] at *
    have hlast : (q0 ++ [t]).getLast? = some t := by simp
    have htm : t ∈ q0 ++ [t] := by simp
    have hgt := h.good t htm
    have hmin : ∀ s ∈ q0 ++ [t], valLt s.val t.val = false := by
      intro s hs
      rcases List.mem_append.1 hs with hs | hs
      · exact (List.pairwise_append.1 h.dec).2.2 s hs t (by simp)
      · rw [List.mem_singleton.1 hs, ← Bool.not_eq_true, valLt_iff]
        rintro ⟨x, hx, hx'⟩
        exact lt_irrefl x (hx' x hx)
    unfold queueLoop
    simp only [hlast]
    cases hv : t.val with
    | none =>
      refine ⟨[], rfl, trivial, ?_⟩
      show shown (q0 ++ [t]) = singletons V
      apply singletons_of_refines h.opt.1
      intro B hB
      obtain ⟨s, hs, rfl⟩ := List.mem_map.1 (List.mem_toFinset.1 hB)
      have hsn := hmin s hs
      rw [hv, ← Bool.not_eq_true, valLt_iff] at hsn
      cases hg : h.good s hs with
      | leaf v =>
        refine ⟨{v}, Finset.mem_image_of_mem _ ?_, subset_rfl⟩
        exact h.opt.1.subset hB (by simp [PTree.K])
      | node K l ch _ _ _ _ _ _ _ =>
        exact absurd ⟨l, rfl, by simp⟩ hsn
    | some l =>
      cases hgt with
      | leaf v => simp [PTree.val] at hv
      | node K l' ch hch hval hlen hnd hne hopt hbal =>
        simp only [PTree.val, Option.some.injEq] at hv
        subst hv
        have hge : ∀ s ∈ q0 ++ [PTree.node K (some l') ch], ∀ m, s.val = some m → l' ≤ m := by
          intro s hs m hm
          have := hmin s hs
          rw [hm, ← Bool.not_eq_true, valLt_iff] at this
          by_contra hlt
          push Not at hlt
          apply this
          refine ⟨m, rfl, fun y hy => ?_⟩
          simp only [PTree.val, Option.some.injEq] at hy
          rw [← hy]; exact hlt
        set q1 := q0 ++ [PTree.node K (some l') ch] with hq1
        have hKm : K ∈ shown q1 := List.mem_toFinset.2 (List.mem_map.2 ⟨_, htm, rfl⟩)
        have hlaml : lam ≤ l' := h.ge _ htm l' rfl
        have ho1 : IsNearOptimal E V (((V.card : ℚ) - 1) * ε) l' (shown q1) := h.near hE hW hε hlaml hge
        have hq0n : K ∉ q0.map PTree.K := by
          have hn := h.nodup
          rw [List.map_append, List.nodup_append] at hn
          intro hm
          exact hn.2.2 K hm K (by simp [PTree.K]) rfl
        have hdec0 : Decreasing q0 := (List.pairwise_append.1 h.dec).1
        obtain ⟨hperm, hdec'⟩ := foldl_insert ch q0 hdec0
        set q' := ch.foldl (fun q c => queueInsert c q) q0 with hq'
        have hdrop : q1.dropLast = q0 := by rw [hq1]; simp
        have hshown : shown q' =
            (shown q1).biUnion fun C => if C = K then (ch.map PTree.K).toFinset else {C} := by
          ext A
          have hmem : A ∈ shown q' ↔ A ∈ ch.map PTree.K ∨ A ∈ q0.map PTree.K := by
            unfold shown
            rw [List.mem_toFinset, (hperm.map PTree.K).mem_iff, List.map_append, List.mem_append]
          have hmem1 : ∀ C, C ∈ shown q1 ↔ C ∈ q0.map PTree.K ∨ C = K := by
            intro C
            unfold shown
            rw [List.mem_toFinset, hq1, List.map_append, List.mem_append]
            simp [PTree.K]
          rw [hmem, Finset.mem_biUnion]
          constructor
          · rintro (hA | hA)
            · exact ⟨K, hKm, by simpa using hA⟩
            · refine ⟨A, (hmem1 A).2 (Or.inl hA), ?_⟩
              have hAK : A ≠ K := by rintro rfl; exact hq0n hA
              rw [if_neg hAK]; simp
          · rintro ⟨C, hC, hA⟩
            by_cases hCK : C = K
            · rw [if_pos hCK] at hA; exact Or.inl (List.mem_toFinset.1 hA)
            · rw [if_neg hCK, Finset.mem_singleton] at hA
              rw [hA]
              exact Or.inr (((hmem1 C).1 hC).resolve_right hCK)
        have hQp : ∀ C ∈ shown q1, IsPartition C (if C = K then (ch.map PTree.K).toFinset else {C}) := by
          intro C hC
          by_cases hCK : C = K
          · rw [if_pos hCK, hCK]; exact hopt.1
          · rw [if_neg hCK]; exact isPartition_single (h.opt.1.nonempty hC)
        have ho2 : RelOpt E V (shown q') (((N + 1 : ℕ) : ℚ) * ε) l' (shown q') := by
          rw [hshown]
          push_cast
          exact (h.opt.raise hlaml).expand hE hW hKm le_rfl hopt
        have hnd' : (q'.map PTree.K).Nodup := by
          rw [(hperm.map PTree.K).nodup_iff, List.map_append, List.nodup_append]
          have hn := h.nodup
          rw [List.map_append, List.nodup_append] at hn
          refine ⟨hnd, hn.1, ?_⟩
          rintro A hA B hB rfl
          have hAK := hopt.1.subset (List.mem_toFinset.2 hA)
          obtain ⟨v, hv⟩ := hopt.1.nonempty (List.mem_toFinset.2 hA)
          have hAq : A ∈ shown q1 := List.mem_toFinset.2 (by
            rw [List.map_append, List.mem_append]; exact Or.inl hB)
          exact hq0n (ho1.1.eq_of_mem hAq hKm hv (hAK hv) ▸ hB)
        have hlen' : q'.length = ch.length + q0.length := by rw [hperm.length_eq, List.length_append]
        have hl1 : q1.length = q0.length + 1 := by rw [hq1]; simp
        have hinv : QInvA M ε E V l' (N + 1) q' := by
          refine ⟨hnd', ho2, ?_, ?_, hdec', ?_⟩
          · intro s hs
            rcases List.mem_append.1 (hperm.mem_iff.1 hs) with hs | hs
            · exact hch s hs
            · exact h.good s (by rw [hq1]; simp [hs])
          · intro s hs m hm
            rcases List.mem_append.1 (hperm.mem_iff.1 hs) with hs | hs
            · exact (hval s hs m hm).1
            · exact hge s (by rw [hq1]; simp [hs]) m hm
          · have := h.steps
            omega
        obtain ⟨t, ht, hlk, hls⟩ := ih l' (N + 1) q' hinv (by omega)
        refine ⟨(l', shown q') :: t, ?_, ?_, hls⟩
        · show (do
            let x ← queueLoop k (List.foldl (fun q c => queueInsert c q) q1.dropLast ch)
            pure ((q1.map PTree.K).toFinset :: x.1, l' :: x.2)) = _
          rw [hdrop, ← hq', ht]
          rfl
        · refine ⟨hlaml, by simpa using hlaml, by simp, ho1, ?_, ⟨?_, ?_⟩, hlk⟩
          · exact hinv.near hE hW hε le_rfl hinv.ge
          · show Refines (shown q') (shown q1)
            rw [hshown]; exact biUnion_refines hQp
          · intro he
            have h1 := hinv.card
            have h2 := h.card
            rw [show shown q' = shown q1 from he] at h1
            omega

end PSP.Theory
