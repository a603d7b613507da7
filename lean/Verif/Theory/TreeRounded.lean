import Verif.Theory.TreeApprox

/-!
# Trees whose values are only nearly ordered
-/

namespace PSP.Theory

open PSP.Spec PSP.Model

variable {E : List Arc} {V K G : Finset ℕ} {P Q R C S0 : Partition} {τ β ε δ lam : ℚ}

/-- Like `GoodA`, but the values of the children may be smaller than the value of the node by up to `τ`, and the cost of the
children's sets may differ from that of the whole set by `β`. -/
inductive GoodF (τ β ε : ℚ) (E : List Arc) : PTree → Prop
  | leaf (v : ℕ) : GoodF τ β ε E (.leaf {v})
  | node (K : CSet) (l : ℚ) (ch : List PTree) (hch : ∀ c ∈ ch, GoodF τ β ε E c)
      (hval : ∀ c ∈ ch, ∀ m, c.val = some m → l - τ ≤ m) (hlen : 2 ≤ ch.length)
      (hnd : (ch.map PTree.K).Nodup) (hne : K.Nonempty)
      (hopt : RelOpt E K (ch.map PTree.K).toFinset ε l (ch.map PTree.K).toFinset)
      (hbal : |cost (induced E K) l (ch.map PTree.K).toFinset + l| ≤ β) : GoodF τ β ε E (.node K (some l) ch)

theorem GoodF.nonempty {t : PTree} (h : GoodF τ β ε E t) : t.K.Nonempty := by
  cases h with
  | leaf v => exact ⟨v, by simp [PTree.K]⟩
  | node K l ch _ _ _ _ hne _ _ => exact hne

theorem GoodF.shape {K : CSet} {l : ℚ} {ch : List PTree} (h : GoodF τ β ε E (.node K (some l) ch)) :
    2 ≤ ch.length ∧ (ch.map PTree.K).Nodup ∧ IsPartition K (ch.map PTree.K).toFinset ∧
      |cost (induced E K) l (ch.map PTree.K).toFinset + l| ≤ β := by
  cases h with
  | node _ _ _ _ _ hlen hnd _ hopt hbal => exact ⟨hlen, hnd, hopt.1, hbal⟩

/-- A block of a partition with at least two blocks is smaller than the whole set. -/
theorem card_block_lt (hC : IsPartition K C) (h2 : 2 ≤ C.card) {A : Finset ℕ} (hA : A ∈ C) : A.card + 1 ≤ K.card := by
  obtain ⟨B, hB, hBA⟩ := Finset.exists_mem_ne h2 A
  obtain ⟨v, hv⟩ := hC.nonempty hB
  have hvA : v ∉ A := fun h => hBA (hC.eq_of_mem hB hA hv h)
  have : A ⊂ K := Finset.ssubset_iff_subset_ne.2 ⟨hC.subset hA, fun he => hvA (he ▸ hC.subset hB hv)⟩
  exact Finset.card_lt_card this

theorem sum_card_mul (hC : IsPartition K C) (D : ℚ) :
    ∑ A ∈ C, ((A.card : ℚ) - 1) * D = ((K.card : ℚ) - C.card) * D := by
  rw [← Finset.sum_mul, Finset.sum_sub_distrib]
  have h1 : ∑ A ∈ C, (A.card : ℚ) = K.card := by
    have := hC.sum_blocks fun _ => (1 : ℚ)
    simpa using this
  rw [h1]; simp

/-- Up to `a` above its value, the set of a good tree nearly wants to stay together. -/
theorem GoodF.single (hE : NonnegE E) (hτ : 0 ≤ τ) (hβ : 0 ≤ β) (hε : 0 ≤ ε) {t : PTree} (h : GoodF τ β ε E t) :
    ∀ {lam a : ℚ}, 0 ≤ a → (∀ m, t.val = some m → lam ≤ m + a) →
      IsNearOptimal (induced E t.K) t.K (((t.K.card : ℚ) - 1) * (ε + β + a + t.K.card * τ)) lam {t.K} := by
  induction h with
  | leaf v =>
    intro lam a _ _
    have := isOptimal_singleton (induced E {v}) v lam
    exact ⟨this.1, fun R hR => by simpa [PTree.K] using this.2 R hR⟩
  | node K l ch hch hval hlen hnd hne hopt hbal ih =>
    intro lam a ha hle
    have hle := hle l rfl
    simp only [PTree.K]
    refine ⟨isPartition_single hne, fun R hR => ?_⟩
    set C := (ch.map PTree.K).toFinset with hC
    have hcard2 : 2 ≤ C.card := by
      rw [hC, List.toFinset_card_of_nodup hnd, List.length_map]; exact hlen
    set D := ε + β + a + K.card * τ with hD
    obtain ⟨R', hR', hc, hr⟩ := exists_coarser_near (induced_nonneg hE K) (induced_within E K) (lam := lam)
      (fun A => ((A.card : ℚ) - 1) * D) C (fun A hA => by
        obtain ⟨c, hc, rfl⟩ := List.mem_map.1 (List.mem_toFinset.1 hA)
        refine ⟨hopt.1.nonempty hA, hopt.1.subset hA, ?_⟩
        rw [induced_induced (hopt.1.subset hA)]
        refine near_mono (ih c hc (a := a + τ) (by linarith) fun m hm => by have := hval c hc m hm; linarith) ?_
        have h1 : (1 : ℚ) ≤ c.K.card := by exact_mod_cast Finset.card_pos.2 (hopt.1.nonempty hA)
        have h2 : (c.K.card : ℚ) + 1 ≤ K.card := by exact_mod_cast card_block_lt hopt.1 hcard2 hA
        apply mul_le_mul_of_nonneg_left _ (by linarith)
        rw [hD]
        nlinarith) hR
    rw [sum_card_mul hopt.1] at hc
    have hcard : (2 : ℚ) ≤ C.card := by exact_mod_cast hcard2
    have h1 := hopt.2 R' hR' hr
    have h2 := cost_shift (E := induced E K) (l := l) (m := lam) {K} R'
    rw [cost_whole, cost_whole, Finset.card_singleton] at h2
    have h3 : (1 : ℚ) ≤ R'.card := by exact_mod_cast hR'.card_pos hne
    have h4 : (R'.card : ℚ) ≤ C.card := by exact_mod_cast hr.card_le hopt.1 hR'
    have hb := abs_le.1 hbal
    rw [cost_whole]
    push_cast at h2
    have h5 : (lam - l) * ((R'.card : ℚ) - 1) ≤ a * ((C.card : ℚ) - 1) := by
      have e1 : (lam - l) * ((R'.card : ℚ) - 1) ≤ a * ((R'.card : ℚ) - 1) :=
        mul_le_mul_of_nonneg_right (by linarith) (by linarith)
      have e2 : a * ((R'.card : ℚ) - 1) ≤ a * ((C.card : ℚ) - 1) := mul_le_mul_of_nonneg_left (by linarith) ha
      linarith
    have h6 : ε + β + a * ((C.card : ℚ) - 1) ≤ ((C.card : ℚ) - 1) * D := by
      have e1 : (0 : ℚ) ≤ K.card * τ := by positivity
      have e2 : (0 : ℚ) ≤ ((C.card : ℚ) - 1) * (K.card * τ) := mul_nonneg (by linarith) e1
      have e3 : ε + β ≤ ((C.card : ℚ) - 1) * (ε + β) := by nlinarith
      rw [hD]
      nlinarith
    have h7 : ((K.card : ℚ) - C.card) * D = ((K.card : ℚ) - 1) * D - ((C.card : ℚ) - 1) * D := by ring
    linarith

/-- The value of a tree node over a block of a partition that is nearly optimal among the partitions coarser than `S0`. -/
theorem value_near {γ l ρ : ℚ} (hPP : RelOpt E K S0 ρ γ P) (hS : Refines S0 P) {A : Finset ℕ} (hA : A ∈ P)
    (hC : IsPartition A C) (hSC : ∀ D ∈ S0, D ⊆ A → ∃ B ∈ C, D ⊆ B) (h2 : 2 ≤ C.card)
    (hbal : |cost (induced E A) l C + l| ≤ β) : γ - (ρ + β) ≤ l := by
  set R : Partition := P.biUnion fun B => if B = A then C else {B} with hR
  have hQ : ∀ B ∈ P, IsPartition B (if B = A then C else {B}) := by
    intro B hB
    by_cases h : B = A
    · rw [if_pos h, h]; exact hC
    · rw [if_neg h]; exact isPartition_single (hPP.1.nonempty hB)
  have hRp : IsPartition K R := biUnion_isPartition hPP.1 hQ
  have hRr : Refines S0 R := by
    intro D hD
    obtain ⟨B, hB, hDB⟩ := hS D hD
    by_cases h : B = A
    · subst h
      obtain ⟨B', hB', hDB'⟩ := hSC D hD hDB
      exact ⟨B', Finset.mem_biUnion.2 ⟨B, hB, by simpa using hB'⟩, hDB'⟩
    · exact ⟨B, Finset.mem_biUnion.2 ⟨B, hB, by simp [h]⟩, hDB⟩
  have hKW := induced_within E K
  have hcost : cost (induced E K) γ R - cost (induced E K) γ P =
      (cost (induced E A) l C + l) + (l - γ) * ((C.card : ℚ) - 1) := by
    have e1 := cost_biUnion hKW hPP.1 hQ γ
    have e2 := cost_glue hKW hPP.1 hPP.1 (Refines.refl P) γ
    rw [← Finset.add_sum_erase _ _ hA, if_pos rfl] at e1
    rw [← Finset.add_sum_erase _ _ hA, part_self hPP.1 hA] at e2
    have e3 : ∑ B ∈ P.erase A, cost (induced (induced E K) B) γ (if B = A then C else {B}) =
        ∑ B ∈ P.erase A, cost (induced (induced E K) B) γ (Spec.part P B) := by
      apply Finset.sum_congr rfl
      intro B hB
      rw [if_neg (Finset.ne_of_mem_erase hB), part_self hPP.1 (Finset.mem_of_mem_erase hB)]
    rw [e3] at e1
    rw [induced_induced (hPP.1.subset hA)] at e1 e2
    rw [cost_whole] at e2
    have e4 : cost (induced E A) γ C = cost (induced E A) l C + (l - γ) * C.card := by
      unfold cost; ring
    rw [← hR, e4] at e1
    rw [e1, e2]; ring
  have hc2 : (1 : ℚ) ≤ (C.card : ℚ) - 1 := by
    have : (2 : ℚ) ≤ C.card := by exact_mod_cast h2
    linarith
  have h1 := hPP.2 R hRp hRr
  have h3 := (abs_le.1 hbal).2
  by_contra hlt
  push Not at hlt
  have hβ := (abs_nonneg _).trans hbal
  have hρ : 0 ≤ ρ := by have := hPP.2 P hPP.1 hS; linarith
  nlinarith

/-- The restriction of a partition that is nearly optimal among the partitions coarser than `S0`. -/
theorem RelOpt.part {ρ : ℚ} (h : RelOpt E K S0 ρ lam S0) (hP : IsPartition K P) (hS : Refines S0 P) {A : Finset ℕ}
    (hA : A ∈ P) : RelOpt E A (Spec.part S0 A) ρ lam (Spec.part S0 A) := by
  refine ⟨part_isPartition hP h.1 hS hA, fun X hX hr => ?_⟩
  have hKW := induced_within E K
  have hQ : ∀ B ∈ P, IsPartition B (if B = A then X else Spec.part S0 B) := by
    intro B hB
    by_cases hBA : B = A
    · rw [if_pos hBA, hBA]; exact hX
    · rw [if_neg hBA]; exact part_isPartition hP h.1 hS hB
  have h1 := h.2 _ (biUnion_isPartition hP hQ) (by
    intro D hD
    obtain ⟨B, hB, hDB⟩ := hS D hD
    by_cases hBA : B = A
    · subst hBA
      obtain ⟨D', hD', hs⟩ := hr D (mem_part.2 ⟨hD, hDB⟩)
      exact ⟨D', Finset.mem_biUnion.2 ⟨B, hB, by simpa using hD'⟩, hs⟩
    · exact ⟨D, Finset.mem_biUnion.2 ⟨B, hB, by simpa [hBA] using mem_part.2 ⟨hD, hDB⟩⟩, subset_rfl⟩)
  rw [cost_biUnion hKW hP hQ, cost_glue hKW hP h.1 hS, ← Finset.add_sum_erase _ _ hA,
    ← Finset.add_sum_erase _ _ hA, if_pos rfl] at h1
  have h2 : ∑ B ∈ P.erase A, cost (induced (induced E K) B) lam (if B = A then X else Spec.part S0 B) =
      ∑ B ∈ P.erase A, cost (induced (induced E K) B) lam (Spec.part S0 B) := by
    apply Finset.sum_congr rfl
    intro B hB
    rw [if_neg (Finset.ne_of_mem_erase hB)]
  rw [h2, induced_induced (hP.subset hA)] at h1
  linarith

/-- A small change of the parameter. -/
theorem RelOpt.shift {N σ mu : ℚ} (hV : V.Nonempty) (h : RelOpt E V P (N * ε) lam P) (hN : N + 1 ≤ P.card) (hε : 0 ≤ ε)
    (hσ : 0 ≤ σ) (hm : lam - σ ≤ mu) : RelOpt E V P (((P.card : ℚ) - 1) * (ε + σ)) mu P := by
  refine ⟨h.1, fun R hR hr => ?_⟩
  have h1 := h.2 R hR hr
  have h2 := cost_shift (E := induced E V) (l := lam) (m := mu) P R
  have h3 : (R.card : ℚ) ≤ P.card := by exact_mod_cast hr.card_le h.1 hR
  have h4 : (1 : ℚ) ≤ R.card := by exact_mod_cast hR.card_pos hV
  have h5 : (lam - mu) * ((P.card : ℚ) - R.card) ≤ σ * ((P.card : ℚ) - R.card) :=
    mul_le_mul_of_nonneg_right (by linarith) (by linarith)
  have h6 : σ * ((P.card : ℚ) - R.card) ≤ σ * ((P.card : ℚ) - 1) := mul_le_mul_of_nonneg_left (by linarith) hσ
  have h7 : N * ε ≤ ((P.card : ℚ) - 1) * ε := mul_le_mul_of_nonneg_right (by linarith) hε
  nlinarith

/-! ### the queue -/

/-- Invariant of the queue, `N` steps after its start; `lam` is the largest value so far. -/
structure QInvF (τ β ε : ℚ) (E : List Arc) (V : Finset ℕ) (lam : ℚ) (N : ℕ) (q : List PTree) : Prop where
  nodup : (q.map PTree.K).Nodup
  opt : RelOpt E V (shown q) (N * ε) lam (shown q)
  good : ∀ t ∈ q, GoodF τ β ε E t
  ge : ∀ t ∈ q, ∀ m, t.val = some m → lam - ((V.card : ℚ) - t.K.card) * τ ≤ m
  dec : Decreasing q
  steps : N + 1 ≤ q.length

theorem QInvF.card {N : ℕ} {q : List PTree} (h : QInvF τ β ε E V lam N q) : (shown q).card = q.length := by
  unfold shown
  rw [List.toFinset_card_of_nodup h.nodup, List.length_map]

theorem QInvF.near (hE : NonnegE E) (hW : Within E V) (hV : V.Nonempty) (hτ : 0 ≤ τ) (hβ : 0 ≤ β) (hε : 0 ≤ ε) {N : ℕ}
    {q : List PTree} {mu : ℚ} (h : QInvF τ β ε E V lam N q) (hle : lam - V.card * τ ≤ mu)
    (hge : ∀ t ∈ q, ∀ m, t.val = some m → mu ≤ m + τ) :
    IsNearOptimal E V (((V.card : ℚ) - 1) * (ε + β + (V.card + 1) * τ)) mu (shown q) := by
  have hn : (0 : ℚ) ≤ V.card := Nat.cast_nonneg _
  set D := ε + β + (V.card + 1) * τ with hD
  have h1 := h.opt.shift hV (σ := V.card * τ) (by rw [h.card]; exact_mod_cast h.steps) hε (by positivity) hle
  have hq : (1 : ℚ) ≤ (shown q).card := by exact_mod_cast h.opt.1.card_pos hV
  have h2 : RelOpt E V (shown q) ((((shown q).card : ℚ) - 1) * D) mu (shown q) := by
    refine ⟨h1.1, fun R hR hr => (h1.2 R hR hr).trans ?_⟩
    have : (((shown q).card : ℚ) - 1) * (ε + V.card * τ) ≤ (((shown q).card : ℚ) - 1) * D := by
      apply mul_le_mul_of_nonneg_left _ (by linarith)
      rw [hD]
      linarith
    linarith
  refine h2.near hE hW (by rw [hD]; positivity) (by linarith) ?_
  intro A hA
  obtain ⟨s, hs, rfl⟩ := List.mem_map.1 (List.mem_toFinset.1 hA)
  refine near_mono ((h.good s hs).single hE hτ hβ hε (a := τ) hτ fun m hm => hge s hs m hm) ?_
  have h3 : (1 : ℚ) ≤ s.K.card := by exact_mod_cast Finset.card_pos.2 (h.opt.1.nonempty hA)
  have h4 : (s.K.card : ℚ) ≤ V.card := by exact_mod_cast Finset.card_le_card (h.opt.1.subset hA)
  apply mul_le_mul_of_nonneg_left _ (by linarith)
  rw [hD]
  nlinarith

theorem queueLoop_nearF (hE : NonnegE E) (hW : Within E V) (hV : V.Nonempty) (hτ : 0 ≤ τ) (hβ : 0 ≤ β) (hε : 0 ≤ ε)
    (k : ℕ) : ∀ (lam : ℚ) (N : ℕ) (q : List PTree), QInvF τ β ε E V lam N q → V.card + 1 ≤ k + q.length →
      ∃ t : List (ℚ × ℚ × Partition), queueLoop k q = .ok (shown q :: t.map (·.2.2), t.map (·.1)) ∧
        NChain E V (((V.card : ℚ) - 1) * (ε + β + (V.card + 1) * τ)) (V.card * τ) lam (shown q) t ∧
        (shown q :: t.map (·.2.2)).getLast? = some (singletons V) := by
  induction k with
  | zero =>
    intro lam N q h hk
    have := h.opt.1.card_le
    rw [h.card] at this
    omega
  | succ k ih =>
    intro lam N q h hk
    have hqne : q ≠ [] := by
      rintro rfl
      have := h.opt.1.card_pos hV
      rw [h.card] at this
      simp at this
    obtain ⟨q0, t, rfl⟩ := List.eq_nil_or_concat q |>.resolve_left hqne
    rw [List.concat_eq_append] at *
    have hlast : (q0 ++ [t]).getLast? = some t := by simp
    have htm : t ∈ q0 ++ [t] := by simp
    have hgt := h.good t htm
    have hmin : ∀ s ∈ q0 ++ [t], valLt s.val t.val = false := by
      intro s hs
      rcases List.mem_append.1 hs with hs | hs
      · exact (List.pairwise_append.1 h.dec).2.2 s hs t (by simp)
      · rw [List.mem_singleton.1 hs, ← Bool.not_eq_true, valLt_iff]
        rintro ⟨x, hx, hx'⟩
        exact lt_irrefl x (hx' x hx)
    unfold queueLoop
    simp only [hlast]
    cases hv : t.val with
    | none =>
      refine ⟨[], rfl, trivial, ?_⟩
      show some (shown (q0 ++ [t])) = some (singletons V)
      congr 1
      apply singletons_of_refines h.opt.1
      intro B hB
      obtain ⟨s, hs, rfl⟩ := List.mem_map.1 (List.mem_toFinset.1 hB)
      have hsn := hmin s hs
      rw [hv, ← Bool.not_eq_true, valLt_iff] at hsn
      cases hg : h.good s hs with
      | leaf v =>
        refine ⟨{v}, Finset.mem_image_of_mem _ ?_, subset_rfl⟩
        exact h.opt.1.subset hB (by simp [PTree.K])
      | node K l ch _ _ _ _ _ _ _ =>
        exact absurd ⟨l, rfl, by simp⟩ hsn
    | some l =>
      cases hgt with
      | leaf v => simp [PTree.val] at hv
      | node K l' ch hch hval hlen hnd hne hopt hbal =>
        simp only [PTree.val, Option.some.injEq] at hv
        subst hv
        have hge : ∀ s ∈ q0 ++ [PTree.node K (some l') ch], ∀ m, s.val = some m → l' ≤ m := by
          intro s hs m hm
          have := hmin s hs
          rw [hm, ← Bool.not_eq_true, valLt_iff] at this
          by_contra hlt
          push Not at hlt
          apply this
          refine ⟨m, rfl, fun y hy => ?_⟩
          simp only [PTree.val, Option.some.injEq] at hy
          rw [← hy]; exact hlt
        set q1 := q0 ++ [PTree.node K (some l') ch] with hq1
        have hKm : K ∈ shown q1 := List.mem_toFinset.2 (List.mem_map.2 ⟨_, htm, rfl⟩)
        have hKV : (K.card : ℚ) ≤ V.card := by exact_mod_cast Finset.card_le_card (h.opt.1.subset hKm)
        have hlaml : lam - ((V.card : ℚ) - K.card) * τ ≤ l' := h.ge _ htm l' rfl
        have hK0 : (0 : ℚ) ≤ K.card * τ := by positivity
        have hlaml' : lam - V.card * τ ≤ l' := by linarith
        have ho1 := h.near hE hW hV hτ hβ hε hlaml' (fun s hs m hm => by have := hge s hs m hm; linarith)
        have hq0n : K ∉ q0.map PTree.K := by
          have hn := h.nodup
          rw [List.map_append, List.nodup_append] at hn
          intro hm
          exact hn.2.2 K hm K (by simp [PTree.K]) rfl
        have hdec0 : Decreasing q0 := (List.pairwise_append.1 h.dec).1
        obtain ⟨hperm, hdec'⟩ := foldl_insert ch q0 hdec0
        set q' := ch.foldl (fun q c => queueInsert c q) q0 with hq'
        have hdrop : q1.dropLast = q0 := by rw [hq1]; simp
        have hshown : shown q' =
            (shown q1).biUnion fun C => if C = K then (ch.map PTree.K).toFinset else {C} := by
          ext A
          have hmem : A ∈ shown q' ↔ A ∈ ch.map PTree.K ∨ A ∈ q0.map PTree.K := by
            unfold shown
            rw [List.mem_toFinset, (hperm.map PTree.K).mem_iff, List.map_append, List.mem_append]
          have hmem1 : ∀ C, C ∈ shown q1 ↔ C ∈ q0.map PTree.K ∨ C = K := by
            intro C
            unfold shown
            rw [List.mem_toFinset, hq1, List.map_append, List.mem_append]
            simp [PTree.K]
          rw [hmem, Finset.mem_biUnion]
          constructor
          · rintro (hA | hA)
            · exact ⟨K, hKm, by simpa using hA⟩
            · refine ⟨A, (hmem1 A).2 (Or.inl hA), ?_⟩
              have hAK : A ≠ K := by rintro rfl; exact hq0n hA
              rw [if_neg hAK]; simp
          · rintro ⟨C, hC, hA⟩
            by_cases hCK : C = K
            · rw [if_pos hCK] at hA; exact Or.inl (List.mem_toFinset.1 hA)
            · rw [if_neg hCK, Finset.mem_singleton] at hA
              rw [hA]
              exact Or.inr (((hmem1 C).1 hC).resolve_right hCK)
        have hQp : ∀ C ∈ shown q1, IsPartition C (if C = K then (ch.map PTree.K).toFinset else {C}) := by
          intro C hC
          by_cases hCK : C = K
          · rw [if_pos hCK, hCK]; exact hopt.1
          · rw [if_neg hCK]; exact isPartition_single (h.opt.1.nonempty hC)
        set b := max lam l' with hb
        have hlb : lam ≤ b := le_max_left _ _
        have hlb' : l' ≤ b := le_max_right _ _
        have ho2 : RelOpt E V (shown q') (((N + 1 : ℕ) : ℚ) * ε) b (shown q') := by
          rw [hshown]
          push_cast
          exact (h.opt.raise hlb).expand hE hW hKm hlb' hopt
        have hnd' : (q'.map PTree.K).Nodup := by
          rw [(hperm.map PTree.K).nodup_iff, List.map_append, List.nodup_append]
          have hn := h.nodup
          rw [List.map_append, List.nodup_append] at hn
          refine ⟨hnd, hn.1, ?_⟩
          rintro A hA B hB rfl
          have hAK := hopt.1.subset (List.mem_toFinset.2 hA)
          obtain ⟨v, hv⟩ := hopt.1.nonempty (List.mem_toFinset.2 hA)
          have hAq : A ∈ shown q1 := List.mem_toFinset.2 (by
            rw [List.map_append, List.mem_append]; exact Or.inl hB)
          exact hq0n (ho1.1.eq_of_mem hAq hKm hv (hAK hv) ▸ hB)
        have hlen' : q'.length = ch.length + q0.length := by rw [hperm.length_eq, List.length_append]
        have hl1 : q1.length = q0.length + 1 := by rw [hq1]; simp
        have hcard2 : 2 ≤ (ch.map PTree.K).toFinset.card := by
          rw [List.toFinset_card_of_nodup hnd, List.length_map]; exact hlen
        have hinv : QInvF τ β ε E V b (N + 1) q' := by
          refine ⟨hnd', ho2, ?_, ?_, hdec', ?_⟩
          · intro s hs
            rcases List.mem_append.1 (hperm.mem_iff.1 hs) with hs | hs
            · exact hch s hs
            · exact h.good s (by rw [hq1]; simp [hs])
          · intro s hs m hm
            rcases List.mem_append.1 (hperm.mem_iff.1 hs) with hs | hs
            · have h1 := hval s hs m hm
              have h2 : (s.K.card : ℚ) + 1 ≤ K.card := by
                exact_mod_cast card_block_lt hopt.1 hcard2 (List.mem_toFinset.2 (List.mem_map_of_mem hs))
              have h3 : 0 ≤ ((K.card : ℚ) - (s.K.card + 1)) * τ := mul_nonneg (by linarith) hτ
              have h4 : 0 ≤ ((V.card : ℚ) - K.card) * τ := mul_nonneg (by linarith) hτ
              have : b ≤ m + ((V.card : ℚ) - s.K.card) * τ := max_le (by linarith) (by linarith)
              linarith
            · have hs1 : s ∈ q1 := by rw [hq1]; simp [hs]
              have h1 := hge s hs1 m hm
              have h2 := h.ge s hs1 m hm
              have h3 : (s.K.card : ℚ) ≤ V.card := by
                have : s.K ∈ shown q1 := List.mem_toFinset.2 (List.mem_map_of_mem hs1)
                exact_mod_cast Finset.card_le_card (h.opt.1.subset this)
              have h4 : 0 ≤ ((V.card : ℚ) - s.K.card) * τ := mul_nonneg (by linarith) hτ
              have : b ≤ m + ((V.card : ℚ) - s.K.card) * τ := max_le (by linarith) (by linarith)
              linarith
          · have := h.steps
            omega
        obtain ⟨t, ht, hlk, hls⟩ := ih b (N + 1) q' hinv (by omega)
        refine ⟨(l', b, shown q') :: t, ?_, ?_, ?_⟩
        · show (do
            let x ← queueLoop k (List.foldl (fun q c => queueInsert c q) q1.dropLast ch)
            pure ((q1.map PTree.K).toFinset :: x.1, l' :: x.2)) = _
          rw [hdrop, ← hq', ht]
          rfl
        · have hVτ : (0 : ℚ) ≤ V.card * τ := by positivity
          refine ⟨hlb, hlaml', by linarith, ho1, ?_, ⟨?_, ?_⟩, hlk⟩
          · refine hinv.near hE hW hV hτ hβ hε ?_ ?_
            · have : b ≤ l' + V.card * τ := max_le (by linarith) (by linarith)
              linarith
            · intro s hs m hm
              rcases List.mem_append.1 (hperm.mem_iff.1 hs) with hs | hs
              · have := hval s hs m hm; linarith
              · have := hge s (by rw [hq1]; simp [hs]) m hm; linarith
          · show Refines (shown q') (shown q1)
            rw [hshown]; exact biUnion_refines hQp
          · intro he
            have h1 := hinv.card
            have h2 := h.card
            rw [show shown q' = shown q1 from he] at h1
            omega
        · rw [List.map_cons, List.getLast?_cons_cons]; exact hls

/-- The queue on a tree that is right up to errors. -/
theorem queue_nearF {n : ℕ} (hn : 2 ≤ n) {l : ℚ} {ch : List PTree} (hE : NonnegE E) (hW : Within E (Finset.range n))
    (hτ : 0 ≤ τ) (hβ : 0 ≤ β) (hε : 0 ≤ ε) (hgood : GoodF τ β ε E (.node (Finset.range n) (some l) ch)) :
    ∃ psp cv, queueLoop (2 * n) [PTree.node (Finset.range n) (some l) ch] = .ok (psp, cv) ∧
      IsApproximateSequence E (Finset.range n) (((n : ℚ) - 1) * (ε + β + (n + 1) * τ) + 2 * (n * τ) * n) psp
        (cv.insertionSort (· ≤ ·)) ∧
      List.Forall₂ (fun x y => |x - y| ≤ 2 * (n * τ)) cv (cv.insertionSort (· ≤ ·)) := by
  set V := Finset.range n with hV
  have hVc : V.card = n := by simp [hV]
  have hVne : V.Nonempty := Finset.card_pos.1 (by omega)
  have hsh : shown [PTree.node V (some l) ch] = {V} := by simp [shown, PTree.K]
  have hq : QInvF τ β ε E V l 0 [.node V (some l) ch] := by
    refine ⟨by simp, ?_, ?_, ?_, List.pairwise_singleton _ _, by simp⟩
    · rw [hsh]
      refine ⟨isPartition_single hVne, fun R hR hr => ?_⟩
      have : R = {V} := by
        obtain ⟨A, hA, hs⟩ := hr V (Finset.mem_singleton_self V)
        have hAV : A = V := Finset.Subset.antisymm (hR.subset hA) hs
        subst hAV
        apply Finset.eq_singleton_iff_unique_mem.2
        refine ⟨hA, fun B hB => ?_⟩
        obtain ⟨b, hb⟩ := hR.nonempty hB
        exact hR.eq_of_mem hB hA hb (hR.subset hB hb)
      rw [this]; simp
    · intro t ht; rw [List.mem_singleton.1 ht]; exact hgood
    · intro t ht m hm
      rw [List.mem_singleton.1 ht] at hm ⊢
      simp only [PTree.val, Option.some.injEq] at hm
      simp [PTree.K, hm]
  obtain ⟨t, ht, hlk, hls⟩ := queueLoop_nearF hE hW hVne hτ hβ hε (2 * n) l 0 _ hq (by
    rw [hVc]; simp; omega)
  rw [hsh] at ht hlk hls
  rw [hVc] at hlk
  have htne : t ≠ [] := by
    rintro rfl
    simp only [List.map_nil, List.getLast?_singleton, Option.some.injEq] at hls
    have := congrArg Finset.card hls
    rw [Finset.card_singleton, card_singletons] at this
    omega
  have hσ : (0 : ℚ) ≤ n * τ := by positivity
  refine ⟨_, _, ht, ?_, ?_⟩
  · have := NChain.approx hVne hσ htne hlk (by
      obtain ⟨s, x, rfl⟩ : ∃ s x, t = s ++ [x] := ⟨_, _, (List.dropLast_append_getLast htne).symm⟩
      simpa [List.getLast?_cons] using hls)
    rwa [hVc] at this
  · have h1 := hlk.clamped_close hσ
    have h2 := insertionSort_close h1 hlk.clamped_sorted.1
    refine List.forall₂_iff_get.2 ⟨by simp, fun i a b => ?_⟩
    have hc : i < (clamped l t).length := by rw [← h1.length_eq]; exact a
    have d1 := abs_le.1 ((List.forall₂_iff_get.1 h1).2 i a hc)
    have d2 := abs_le.1 ((List.forall₂_iff_get.1 h2).2 i b hc)
    rw [abs_le]
    constructor <;> linarith

end PSP.Theory
