import Verif.Theory.RoundedAICSeq

/-!
# The functors handed to `min_norm_base` by `agg_psp`, in floating-point arithmetic
-/

namespace PSP.Theory

open PSP.Model PSP.Spec

variable {fl : ℚ → ℚ} {u M : ℚ} {E : List Arc}

theorem sum_filter_map_ent (p : Arc → Prop) [DecidablePred p] (c : Arc → ℚ) (l : List Arc) :
    ((l.filter fun a => p a).map c).sum = (l.map fun a => if p a then c a else 0).sum := by
  induction l with
  | nil => rfl
  | cons a l ih =>
    by_cases h : p a
    · simp [h, ih]
    · simp [h, ih]

theorem sum_flatMap_list {α : Type} (g : α → List ℚ) (l : List α) :
    (l.flatMap g).sum = (l.map fun a => (g a).sum).sum := by
  induction l with
  | nil => rfl
  | cons a l ih => simp [ih]

theorem entropyTerms_sum {ai ao : List Arc → List Arc} (hai : ∀ l, (ai l).Perm l) (hao : ∀ l, (ao l).Perm l)
    (c : Arc → ℚ) (E : List Arc) (B : List ℕ) :
    (B.flatMap fun b => ((ai E).filter fun a => a.dst = b ∧ ¬ (a.src < b ∧ a.src ∈ B)).map c ++
      ((ao E).filter fun a => a.src = b).map c).sum =
    (B.map fun b => (E.map fun a => if a.dst = b ∧ ¬ (a.src < b ∧ a.src ∈ B) then c a else 0).sum +
      (E.map fun a => if a.src = b then c a else 0).sum).sum := by
  rw [sum_flatMap_list]
  congr 1
  refine List.map_congr_left fun b _ => ?_
  rw [List.sum_append]
  congr 1
  · rw [← sum_filter_map_ent]
    exact (((hai E).filter _).map _).sum_eq
  · rw [← sum_filter_map_ent]
    exact (((hao E).filter _).map _).sum_eq

/-- `E` with all weights 1. -/
def unitArcs (E : List Arc) : List Arc := E.map fun a => ⟨a.src, a.dst, 1⟩

theorem entropyTerms_facts {ai ao : List Arc → List Arc} (hai : ∀ l, (ai l).Perm l) (hao : ∀ l, (ao l).Perm l)
    {V : List ℕ} (hE : ∀ a ∈ E, a.src < a.dst) (h0 : NonnegE E) {B : List ℕ} (hB : B.Nodup) :
    (entropyTerms ai ao ⟨V, E⟩ B).sum = incident E B.toFinset ∧
    (∀ x ∈ entropyTerms ai ao ⟨V, E⟩ B, 0 ≤ x ∧ ∃ a ∈ E, x = a.cap) ∧
    (entropyTerms ai ao ⟨V, E⟩ B).length ≤ E.length := by
  refine ⟨?_, ?_, ?_⟩
  · unfold entropyTerms
    rw [entropyTerms_sum hai hao]
    exact digraphEntropy_val (g := ⟨V, E⟩) hE hB
  · intro x hx
    obtain ⟨b, -, hx⟩ := List.mem_flatMap.1 hx
    rcases List.mem_append.1 hx with hx | hx
    · obtain ⟨a, ha, rfl⟩ := List.mem_map.1 hx
      have := (hai E).mem_iff.1 (List.mem_filter.1 ha).1
      exact ⟨h0 a this, a, this, rfl⟩
    · obtain ⟨a, ha, rfl⟩ := List.mem_map.1 hx
      have := (hao E).mem_iff.1 (List.mem_filter.1 ha).1
      exact ⟨h0 a this, a, this, rfl⟩
  · have e1 : ((entropyTerms ai ao ⟨V, E⟩ B).length : ℚ) =
        (B.flatMap fun b => ((ai E).filter fun a => a.dst = b ∧ ¬ (a.src < b ∧ a.src ∈ B)).map (fun _ => (1 : ℚ)) ++
          ((ao E).filter fun a => a.src = b).map fun _ => (1 : ℚ)).sum := by
      have : ∀ l : List ℚ, (l.length : ℚ) = (l.map fun _ => (1 : ℚ)).sum := by
        intro l
        induction l with
        | nil => simp
        | cons a l ih => simp; ring
      rw [this]
      unfold entropyTerms
      rw [List.map_flatMap]
      simp only [List.map_append, List.map_map, Function.comp_def]
    rw [entropyTerms_sum hai hao] at e1
    have e2 := digraphEntropy_val (g := ⟨V, unitArcs E⟩) (by
      intro a ha
      obtain ⟨b, hb, rfl⟩ := List.mem_map.1 ha
      exact hE b hb) hB
    have e3 : (digraphEntropy ⟨V, unitArcs E⟩).val B = (entropyTerms ai ao ⟨V, E⟩ B).length := by
      rw [e1]
      simp only [digraphEntropy, unitArcs, List.map_map, Function.comp_def]
    have e4 : incident (unitArcs E) B.toFinset ≤ E.length := by
      unfold incident unitArcs
      rw [List.map_map]
      clear e1 e2 e3 hE h0 
      induction E with
      | nil => simp
      | cons a E ih =>
        rw [List.map_cons, List.sum_cons, List.length_cons]
        push_cast
        have : ((fun e : Arc => if e.src ∈ B.toFinset ∨ e.dst ∈ B.toFinset then e.cap else 0) ∘
          fun a : Arc => (⟨a.src, a.dst, 1⟩ : Arc)) a ≤ 1 := by
          simp only [Function.comp]
          split_ifs <;> norm_num
        linarith
    rw [← e2, e3] at e4
    exact_mod_cast e4

/-- The value that `DigraphEntropy` returns. -/
theorem digraphEntropyF_near (h : Sums fl u M) {ai ao : List Arc → List Arc} (hai : ∀ l, (ai l).Perm l)
    (hao : ∀ l, (ao l).Perm l) {V : List ℕ} (hE : ∀ a ∈ E, a.src < a.dst) (h0 : NonnegE E)
    (hfix : ∀ a ∈ E, fl a.cap = a.cap) (hm : 2 * (E.length : ℚ) * u ≤ 1) {B : List ℕ} (hB : B.Nodup)
    (hM : 2 * incident E B.toFinset ≤ M) :
    |(digraphEntropyF fl ai ao ⟨V, E⟩).val B - incident E B.toFinset| ≤
      2 * E.length * u * incident E B.toFinset ∧
    fl ((digraphEntropyF fl ai ao ⟨V, E⟩).val B) = (digraphEntropyF fl ai ao ⟨V, E⟩).val B := by
  obtain ⟨h1, h2, h3⟩ := entropyTerms_facts hai hao (V := V) hE h0 hB
  have := h.flSum_err' hm h3 (fun x hx => by
    obtain ⟨a, ha, rfl⟩ := (h2 x hx).2
    exact hfix a ha) (B := incident E B.toFinset) (by
    rw [← h1]
    exact le_of_eq (congrArg _ ((List.map_congr_left fun x hx => abs_of_nonneg (h2 x hx).1).trans (List.map_id _)))) hM
  rw [h1] at this
  exact this

theorem incident_nonneg (h0 : NonnegE E) (S : Finset ℕ) : 0 ≤ incident E S := by
  rw [← incident_empty E]
  exact incident_mono h0 (Finset.empty_subset _)

theorem incident_le (h0 : NonnegE E) (S : Finset ℕ) : incident E S ≤ (E.map Arc.cap).sum := by
  unfold incident
  exact List.sum_le_sum fun e he => by
    have := h0 e he
    split_ifs <;> linarith

/-- An edge touches at most two blocks. -/
theorem sum_incident_blocks (h0 : NonnegE E) {V : Finset ℕ} {k : ℕ} {C : ℕ → Finset ℕ} (hb : Blocks V k C)
    {T : Finset ℕ} (hT : T ⊆ Finset.range k) :
    incident E (T.biUnion C) ≤ ∑ i ∈ T, incident E (C i) ∧
      ∑ i ∈ T, incident E (C i) ≤ incident E (T.biUnion C) + (E.map Arc.cap).sum := by
  induction E with
  | nil => simp [incident]
  | cons e E ih =>
    obtain ⟨ih1, ih2⟩ := ih fun a ha => h0 a (List.mem_cons_of_mem _ ha)
    have he := h0 e List.mem_cons_self
    have hc : ∀ S, incident (e :: E) S = (if e.src ∈ S ∨ e.dst ∈ S then e.cap else 0) + incident E S := by
      intro S; simp [incident]
    simp only [hc, Finset.sum_add_distrib, List.map_cons, List.sum_cons]
    have one : ∀ v, ∑ i ∈ T, (if v ∈ C i then e.cap else 0) = if v ∈ T.biUnion C then e.cap else 0 := by
      intro v
      by_cases hv : v ∈ T.biUnion C
      · obtain ⟨i, hi, hvi⟩ := Finset.mem_biUnion.1 hv
        rw [if_pos hv, Finset.sum_eq_single i]
        · rw [if_pos hvi]
        · intro j hj hne
          refine if_neg fun hvj => hne ?_
          exact hb.disjoint j i v (Finset.mem_range.1 (hT hj)) (Finset.mem_range.1 (hT hi)) hvj hvi
        · intro hn; exact absurd hi hn
      · rw [if_neg hv]
        refine Finset.sum_eq_zero fun i hi => if_neg fun hvi => hv (Finset.mem_biUnion.2 ⟨i, hi, hvi⟩)
    have up : ∑ i ∈ T, (if e.src ∈ C i ∨ e.dst ∈ C i then e.cap else 0) ≤
        ∑ i ∈ T, (if e.src ∈ C i then e.cap else 0) + ∑ i ∈ T, (if e.dst ∈ C i then e.cap else 0) := by
      rw [← Finset.sum_add_distrib]
      refine Finset.sum_le_sum fun i _ => ?_
      by_cases h1 : e.src ∈ C i <;> by_cases h2 : e.dst ∈ C i <;> simp [h1, h2, he]
    have lo1 : ∑ i ∈ T, (if e.src ∈ C i then e.cap else 0) ≤
        ∑ i ∈ T, (if e.src ∈ C i ∨ e.dst ∈ C i then e.cap else 0) := Finset.sum_le_sum fun i _ => by
      by_cases h1 : e.src ∈ C i <;> by_cases h2 : e.dst ∈ C i <;> simp [h1, h2, he]
    have lo2 : ∑ i ∈ T, (if e.dst ∈ C i then e.cap else 0) ≤
        ∑ i ∈ T, (if e.src ∈ C i ∨ e.dst ∈ C i then e.cap else 0) := Finset.sum_le_sum fun i _ => by
      by_cases h1 : e.src ∈ C i <;> by_cases h2 : e.dst ∈ C i <;> simp [h1, h2, he]
    rw [one, one] at up
    rw [one] at lo1 lo2
    have cs : ∀ P Q : Prop, [Decidable P] → [Decidable Q] → (if P ∨ Q then e.cap else 0) ≤
        max (if P then e.cap else 0) (if Q then e.cap else 0) := by
      intro P Q _ _
      by_cases hP : P <;> by_cases hQ : Q <;> simp [hP, hQ, he]
    have cs' : ∀ P Q : Prop, [Decidable P] → [Decidable Q] → (if P then e.cap else 0) + (if Q then e.cap else 0) ≤
        (if P ∨ Q then e.cap else 0) + e.cap := by
      intro P Q _ _
      by_cases hP : P <;> by_cases hQ : Q <;> simp [hP, hQ, he]
    have c1 := cs (e.src ∈ T.biUnion C) (e.dst ∈ T.biUnion C)
    have c2 := cs' (e.src ∈ T.biUnion C) (e.dst ∈ T.biUnion C)
    constructor
    · have := c1.trans (max_le lo1 lo2)
      linarith
    · linarith

/-- The functor `f` returns numbers of the format, which are the values of `φ` up to a relative error of `2 * m` units; the
values on disjoint sets are limited by `W`. -/
structure NearFunctor (fl : ℚ → ℚ) (f : SF) (φ : Finset ℕ → ℚ) (n m : ℕ) (u W : ℚ) : Prop where
  nonneg : ∀ S, S ⊆ Finset.range n → 0 ≤ φ S
  le : ∀ S, S ⊆ Finset.range n → φ S ≤ W
  near : ∀ B : List ℕ, B.Nodup → B ≠ [] → (∀ b ∈ B, b < n) →
    |f.val B - φ B.toFinset| ≤ 2 * m * u * φ B.toFinset ∧ fl (f.val B) = f.val B
  blocks : ∀ k C T, Blocks (Finset.range n) k C → T ⊆ Finset.range k → T.Nonempty →
    φ (T.biUnion C) ≤ ∑ i ∈ T, φ (C i) ∧ ∑ i ∈ T, φ (C i) ≤ φ (T.biUnion C) + W

section functor

variable {f : SF} {φ : Finset ℕ → ℚ} {n m : ℕ} {W : ℚ}

/-- The functor of round `j` computes `joinFn` up to a small error. -/
theorem functor_join_near (h : Sums fl u M) (hf : NearFunctor fl f φ n m u W) (hWM : 8 * W ≤ M) {R : ℕ → ℕ → Prop}
    {L : List (List ℕ)} (hc : IsClustering n R L) (hLn : L.length ≤ n)
    (hs : 256 * ((m : ℚ) + n + 2) * u ≤ 1) {j : ℕ} (hj : j < L.length) :
    NearlyComputes (sfJoin (sfContractF fl f L) j) (joinFn φ (blockAt L) j) (8 * (m + n + 2) * u * W) ∧
    FormatValues fl (sfJoin (sfContractF fl f L) j) (4 * W) := by
  rw [NearlyComputes, FormatValues, ← forall_and]
  intro B
  rw [← imp_and]
  intro hB
  rw [← imp_and]
  intro hBj'
  have hBj : ∀ b ∈ B, b < j := hBj'
  clear hBj'
  have hu := h.nonneg
  have hm0 : (0 : ℚ) ≤ m := m.cast_nonneg
  have hW0 : 0 ≤ W := (hf.nonneg ∅ (Finset.empty_subset _)).trans (hf.le ∅ (Finset.empty_subset _))
  have hn0 : (0 : ℚ) ≤ n := n.cast_nonneg
  have hmu : 0 ≤ m * u := mul_nonneg hm0 hu
  have hnu : 0 ≤ n * u := mul_nonneg hn0 hu
  have hmu1 : 2 * m * u ≤ 1 := by nlinarith
  have hmap : B.map (fun b => if b < j then b else 0) = B := by
    conv_rhs => rw [← List.map_id B]
    exact List.map_congr_left fun b hb => if_pos (hBj b hb)
  have hBL : ∀ b ∈ B ++ [j], b < L.length := by
    intro b hb
    rcases List.mem_append.1 hb with hb | hb
    · exact (hBj b hb).trans hj
    · rw [List.mem_singleton] at hb; omega
  have hnd : (B ++ [j]).Nodup := by
    rw [List.nodup_append]
    refine ⟨hB, by simp, ?_⟩
    intro a ha b hb
    rw [List.mem_singleton] at hb
    have := hBj a ha
    omega
  have hset : (B ++ [j]).toFinset = insert j B.toFinset := by
    ext v; simp
  have hTk : insert j B.toFinset ⊆ Finset.range L.length := by
    intro i hi
    rw [← hset, List.mem_toFinset] at hi
    exact Finset.mem_range.2 (hBL i hi)
  have hbl := clustering_blocks hc
  have hsub : ∀ i, i < L.length → blockAt L i ⊆ Finset.range n := fun i hi => hbl.subset hi
  have hUn : (insert j B.toFinset).biUnion (blockAt L) ⊆ Finset.range n :=
    Finset.biUnion_subset.2 fun i hi => hsub i (Finset.mem_range.1 (hTk hi))
  obtain ⟨s1, s2⟩ := hf.blocks _ _ _ hbl hTk ⟨j, Finset.mem_insert_self _ _⟩
  -- the value of the union
  set U := φ ((insert j B.toFinset).biUnion (blockAt L)) with hU
  have hmem : ∀ l : List ℕ, l.toFinset ⊆ Finset.range n → ∀ b ∈ l, b < n := fun l hl b hb =>
    Finset.mem_range.1 (hl (List.mem_toFinset.2 hb))
  have hU1 : U ≤ W := hf.le _ hUn
  have hU0 : 0 ≤ U := hf.nonneg _ hUn
  have hneL : ∀ b, b < L.length → L.getD b [] ≠ [] := fun b hb => hc.nonempty _ (getD_mem hb)
  obtain ⟨v1, fixA⟩ : |f.val ((B ++ [j]).flatMap fun i => L.getD i []) - U| ≤ 2 * m * u * W ∧
      fl (f.val ((B ++ [j]).flatMap fun i => L.getD i [])) = f.val ((B ++ [j]).flatMap fun i => L.getD i []) := by
    have := hf.near _ (nodup_flatMap_blocks hc.once hnd hBL) (by
      rw [List.flatMap_append]
      simpa using fun _ => hneL j hj) (hmem _ (by rw [toFinset_flatMap_blocks, hset]; exact hUn))
    rw [toFinset_flatMap_blocks, hset] at this
    refine ⟨this.1.trans ?_, this.2⟩
    exact mul_le_mul_of_nonneg_left hU1 (by positivity)
  -- the values of the blocks
  have hone : ∀ b ∈ B ++ [j], |f.val (L.getD b []) - φ (blockAt L b)| ≤
      2 * m * u * φ (blockAt L b) ∧ fl (f.val (L.getD b [])) = f.val (L.getD b []) := fun b hb =>
    hf.near _ ((List.nodup_flatten.1 hc.once).1 _ (getD_mem (hBL b hb))) (hneL b (hBL b hb))
      (hmem _ (hsub b (hBL b hb)))
  set S := ∑ i ∈ insert j B.toFinset, φ (blockAt L i) with hS
  have hSl : ((B ++ [j]).map fun b => φ (blockAt L b)).sum = S := by
    rw [sum_list_eq hnd, hset]
  have hS2 : S ≤ 2 * W := by linarith
  have key : ∀ l : List ℕ, (∀ b ∈ l, b ∈ B ++ [j]) →
      |(l.map fun b => f.val (L.getD b [])).sum - (l.map fun b => φ (blockAt L b)).sum| ≤
        2 * m * u * (l.map fun b => φ (blockAt L b)).sum ∧
      ((l.map fun b => f.val (L.getD b [])).map abs).sum ≤
        (1 + 2 * m * u) * (l.map fun b => φ (blockAt L b)).sum := by
    intro l
    induction l with
    | nil => intro _; simp
    | cons b l ih =>
      intro hl
      obtain ⟨k1, k2⟩ := ih fun c hc => hl c (List.mem_cons_of_mem _ hc)
      have k3 := (hone b (hl b List.mem_cons_self)).1
      simp only [List.map_cons, List.sum_cons]
      constructor
      · rw [add_sub_add_comm]
        refine (abs_add_le _ _).trans ?_
        linarith
      · have k4 := abs_sub_abs_le_abs_sub (f.val (L.getD b [])) (φ (blockAt L b))
        rw [abs_of_nonneg (hf.nonneg _ (hsub b (hBL b (hl b List.mem_cons_self))))] at k4
        linarith
  obtain ⟨k1, k2⟩ := key (B ++ [j]) fun b hb => hb
  rw [hSl] at k1 k2
  have hlen : ((B ++ [j]).map fun b => f.val (L.getD b [])).length ≤ n := by
    rw [List.length_map]
    refine le_trans ?_ hLn
    have := Finset.card_le_card hTk
    rw [← hset, List.toFinset_card_of_nodup hnd, Finset.card_range] at this
    exact this
  obtain ⟨v2, fixD⟩ := h.flSum_err' (n := n) (by nlinarith) hlen (fun x hx => by
    obtain ⟨b, hb, rfl⟩ := List.mem_map.1 hx
    exact (hone b hb).2) (B := 4 * W) (by
    refine k2.trans ?_
    have hS0 : 0 ≤ S := hU0.trans s1
    nlinarith) (by linarith)
  -- together
  show |(sfContractF fl f L).val (B.map (fun b => if b < j then b else 0) ++ [j]) - _| ≤ _ ∧
    fl ((sfContractF fl f L).val (B.map (fun b => if b < j then b else 0) ++ [j])) =
      (sfContractF fl f L).val (B.map (fun b => if b < j then b else 0) ++ [j]) ∧
    |(sfContractF fl f L).val (B.map (fun b => if b < j then b else 0) ++ [j])| ≤ _
  rw [hmap]
  unfold joinFn
  rw [← hU, ← hS]
  simp only [sfContractF]
  set A := f.val ((B ++ [j]).flatMap fun i => L.getD i [])
  set D := flSum fl 0 ((B ++ [j]).map fun i => f.val (L.getD i []))
  have v3 : |D - S| ≤ 8 * n * u * W + 4 * m * u * W := by
    have := abs_sub_le D ((B ++ [j]).map fun b => f.val (L.getD b [])).sum S
    have k3 : 2 * m * u * S ≤ 2 * m * u * (2 * W) := mul_le_mul_of_nonneg_left hS2 (by positivity)
    linarith
  have v4 : |(A - D) - (U - S)| ≤ 6 * m * u * W + 8 * n * u * W := by
    rw [abs_le] at v1 v3 ⊢
    constructor <;> linarith [v1.1, v1.2, v3.1, v3.2]
  have v5 : |U - S| ≤ W := by
    rw [abs_le]
    constructor <;> linarith
  have hA1 : |A| ≤ 2 * W := by
    have := abs_sub_abs_le_abs_sub A U
    rw [abs_of_nonneg hU0] at this
    have := mul_le_mul_of_nonneg_right hmu1 hW0
    linarith
  have hD1 : |D| ≤ 4 * W := by
    have := abs_sub_abs_le_abs_sub D S
    rw [abs_of_nonneg (hU0.trans s1)] at this
    have e : (8 * n + 4 * m) * u ≤ 1 := by nlinarith
    have := mul_le_mul_of_nonneg_right e hW0
    linarith
  have v6 := h.sub fixA fixD (by linarith) (by linarith)
  have hx : (6 * m + 8 * n) * u ≤ 1 := by nlinarith
  have v7 : |A - D| ≤ 2 * W := by
    have := abs_sub_abs_le_abs_sub (A - D) (U - S)
    have e : 6 * m * u * W + 8 * n * u * W = (6 * m + 8 * n) * u * W := by ring
    have := mul_le_mul_of_nonneg_right hx hW0
    linarith
  have v8 := abs_sub_le (fl (A - D)) (A - D) (U - S)
  have v9 : u * |A - D| ≤ u * (2 * W) := mul_le_mul_of_nonneg_left v7 hu
  have e : 8 * (m + n + 2) * u * W = 8 * m * u * W + 8 * n * u * W + 16 * (u * W) := by ring
  rw [e]
  have e1 : 0 ≤ m * u * W := mul_nonneg hmu hW0
  have e2 : 0 ≤ u * W := mul_nonneg hu hW0
  refine ⟨by linarith, h.sub_fixed (by linarith) (by linarith), ?_⟩
  have w1 := abs_sub_abs_le_abs_sub (fl (A - D)) (A - D)
  have hu1 : u ≤ 1 := by nlinarith
  have w2 : u * |A - D| ≤ 1 * |A - D| := mul_le_mul_of_nonneg_right hu1 (abs_nonneg _)
  linarith

/-- The values of `joinFn` differ by at most `W`. -/
theorem functor_joinFn_range (hf : NearFunctor fl f φ n m u W) {k : ℕ} {C : ℕ → Finset ℕ}
    (hb : Blocks (Finset.range n) k C) {j : ℕ} (hj : j < k) (S T : Finset ℕ) (hS : S ⊆ Finset.range j)
    (hT : T ⊆ Finset.range j) : |joinFn φ C j S - joinFn φ C j T| ≤ W := by
  obtain ⟨s1, s2⟩ := hf.blocks _ _ _ hb (insert_subset_range hj hS) ⟨j, Finset.mem_insert_self _ _⟩
  obtain ⟨t1, t2⟩ := hf.blocks _ _ _ hb (insert_subset_range hj hT) ⟨j, Finset.mem_insert_self _ _⟩
  unfold joinFn
  rw [abs_le]
  constructor <;> linarith

end functor

/-- `DigraphEntropy`. -/
theorem digraph_nearFunctor (h : Sums fl u M) {ai ao : List Arc → List Arc} (hai : ∀ l, (ai l).Perm l)
    (hao : ∀ l, (ao l).Perm l) {n : ℕ} (hE : ∀ a ∈ E, a.src < a.dst) (h0 : NonnegE E)
    (hfix : ∀ a ∈ E, fl a.cap = a.cap) {W : ℚ} (hW : (E.map Arc.cap).sum ≤ W) (hWM : 2 * W ≤ M)
    (hm : 2 * (E.length : ℚ) * u ≤ 1) :
    NearFunctor fl (digraphEntropyF fl ai ao ⟨List.range n, E⟩) (incident E) n E.length u W where
  nonneg S _ := incident_nonneg h0 S
  le S _ := (incident_le h0 S).trans hW
  near B hB _ _ := digraphEntropyF_near h hai hao hE h0 hfix hm hB (by linarith [incident_le h0 B.toFinset])
  blocks k C T hb hT _ := by
    obtain ⟨h1, h2⟩ := sum_incident_blocks h0 hb hT
    exact ⟨h1, by linarith⟩

/-- The values of `joinFn` differ by at most the total weight. -/
theorem joinFn_range (h0 : NonnegE E) {V : Finset ℕ} {k : ℕ} {C : ℕ → Finset ℕ} (hb : Blocks V k C) {j : ℕ}
    (hj : j < k) (S T : Finset ℕ) (hS : S ⊆ Finset.range j) (hT : T ⊆ Finset.range j) :
    |joinFn (incident E) C j S - joinFn (incident E) C j T| ≤ (E.map Arc.cap).sum := by
  obtain ⟨s1, s2⟩ := sum_incident_blocks h0 hb (insert_subset_range hj hS)
  obtain ⟨t1, t2⟩ := sum_incident_blocks h0 hb (insert_subset_range hj hT)
  unfold joinFn
  rw [abs_le]
  constructor <;> linarith

end PSP.Theory
