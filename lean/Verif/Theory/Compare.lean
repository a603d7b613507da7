import Verif.Spec.Compare
import Verif.Spec.Approx
import Verif.Theory.Spectrum
import Mathlib.Data.List.GetD
import Mathlib.Data.Finset.Prod
import Mathlib.Algebra.BigOperators.Ring.Finset
import Mathlib.Algebra.Order.BigOperators.Group.Finset

/-!
# Comparing principal sequences of two graphs
-/

namespace PSP.Theory

open PSP.Spec

variable {E E' : List Arc} {V : Finset ℕ} {Ps Ps' : List (Finset (Finset ℕ))} {cv cv' : List ℚ}

/-! ### weights as sums over pairs of nodes -/

theorem between_comm (E : List Arc) (u v : ℕ) : between E u v = between E v u := by
  unfold between
  congr 1
  refine List.map_congr_left fun e _ => ?_
  simp only [or_comm]

theorem between_nonneg (hE : NonnegE E) (u v : ℕ) : 0 ≤ between E u v := by
  refine List.sum_nonneg fun x hx => ?_
  obtain ⟨e, he, rfl⟩ := List.mem_map.1 hx
  split
  · exact hE e he
  · exact le_rfl

/-- A sum over all ordered pairs counts every edge twice. -/
theorem sum_between (hl : ∀ e ∈ E, e.src ≠ e.dst) (S : Finset ℕ) (q : ℕ → ℕ → Prop) [DecidableRel q]
    (hq : ∀ u v, q u v → q v u) :
    ∑ p ∈ S.offDiag, (if q p.1 p.2 then between E p.1 p.2 else 0) =
      2 * (E.map fun e => if (e.src ∈ S ∧ e.dst ∈ S) ∧ q e.src e.dst then e.cap else 0).sum := by
  induction E with
  | nil => simp [between]
  | cons e E ih =>
    have h0 : ∀ p : ℕ × ℕ, (if q p.1 p.2 then between (e :: E) p.1 p.2 else 0) =
        (if (e.src, e.dst) = p then (if q e.src e.dst then e.cap else 0) else 0) +
        (if (e.dst, e.src) = p then (if q e.src e.dst then e.cap else 0) else 0) +
        (if q p.1 p.2 then between E p.1 p.2 else 0) := by
      intro p
      have hne := hl e (by simp)
      have h1 : between (e :: E) p.1 p.2 =
          (if (e.src = p.1 ∧ e.dst = p.2) ∨ (e.src = p.2 ∧ e.dst = p.1) then e.cap else 0) + between E p.1 p.2 := by
        simp [between]
      rw [h1]
      obtain ⟨a, b⟩ := p
      simp only [Prod.mk.injEq]
      by_cases c1 : e.src = a ∧ e.dst = b
      · obtain ⟨rfl, rfl⟩ := c1
        have : ¬ (e.dst = e.src ∧ e.src = e.dst) := fun h => hne h.2
        simp only [and_self, true_or, if_true, this, if_false, add_zero]
        split <;> simp
      · by_cases c2 : e.dst = a ∧ e.src = b
        · obtain ⟨rfl, rfl⟩ := c2
          have hs : q e.dst e.src ↔ q e.src e.dst := ⟨hq _ _, hq _ _⟩
          have : ¬ (e.src = e.dst ∧ e.dst = e.src) := fun h => hne h.1
          simp only [and_self, or_true, if_true, this, if_false, zero_add, hs]
          split <;> simp
        · have c3 : ¬ (e.src = b ∧ e.dst = a) := fun h => c2 ⟨h.2, h.1⟩
          simp only [c1, c2, c3, or_self, if_false, zero_add]
    rw [Finset.sum_congr rfl fun p _ => h0 p, Finset.sum_add_distrib, Finset.sum_add_distrib,
      ih fun e he => hl e (by simp [he]), Finset.sum_ite_eq, Finset.sum_ite_eq]
    have hne := hl e (by simp)
    simp only [Finset.mem_offDiag, List.map_cons, List.sum_cons]
    by_cases c1 : e.src ∈ S ∧ e.dst ∈ S
    · by_cases c2 : q e.src e.dst
      · simp only [c1, c2, hne, hne.symm, ne_eq, not_false_eq_true, and_self, if_true]
        ring
      · simp [c2]
    · have c2 : ¬ (e.dst ∈ S ∧ e.src ∈ S ∧ e.dst ≠ e.src) := fun h => c1 ⟨h.2.1, h.1⟩
      have c3 : ¬ (e.src ∈ S ∧ e.dst ∈ S ∧ e.src ≠ e.dst) := fun h => c1 ⟨h.1, h.2.1⟩
      simp [c1, c2, c3]

theorem brokenWeight_pairs (hl : ∀ e ∈ E, e.src ≠ e.dst) (S : Finset ℕ) (Q : Finset (Finset ℕ)) :
    2 * brokenWeight E S Q = ∑ p ∈ S.offDiag, (if ¬ Same Q p.1 p.2 then between E p.1 p.2 else 0) :=
  (sum_between hl S (fun u v => ¬ Same Q u v) (fun _ _ h h' => h h'.symm)).symm

theorem crossWeight_pairs (hl : ∀ e ∈ E, e.src ≠ e.dst) (hW : Within E V) (P : Finset (Finset ℕ)) :
    2 * crossWeight E P = ∑ p ∈ V.offDiag, (if ¬ Same P p.1 p.2 then between E p.1 p.2 else 0) := by
  rw [← brokenWeight_pairs hl]
  congr 1
  unfold crossWeight brokenWeight
  congr 1
  refine List.map_congr_left fun e he => ?_
  by_cases h : Same P e.src e.dst <;> simp [h, hW e he]

theorem sum_offDiag_pairs (n : ℕ) (f : ℕ → ℕ → ℚ) (hf : ∀ u v, f u v = f v u) :
    ∑ p ∈ (Finset.range n).offDiag, f p.1 p.2 =
      2 * ∑ p ∈ (Finset.range n ×ˢ Finset.range n).filter fun p => p.1 < p.2, f p.1 p.2 := by
  have h1 : (Finset.range n).offDiag = ((Finset.range n ×ˢ Finset.range n).filter fun p => p.1 < p.2) ∪
      ((Finset.range n ×ˢ Finset.range n).filter fun p => p.2 < p.1) := by
    ext p
    simp only [Finset.mem_offDiag, Finset.mem_union, Finset.mem_filter, Finset.mem_product]
    constructor
    · rintro ⟨a, b, c⟩
      rcases lt_or_gt_of_ne c with h | h
      · exact Or.inl ⟨⟨a, b⟩, h⟩
      · exact Or.inr ⟨⟨a, b⟩, h⟩
    · rintro (⟨⟨a, b⟩, c⟩ | ⟨⟨a, b⟩, c⟩)
      · exact ⟨a, b, c.ne⟩
      · exact ⟨a, b, c.ne'⟩
  have h2 : ∑ p ∈ (Finset.range n ×ˢ Finset.range n).filter (fun p => p.2 < p.1), f p.1 p.2 =
      ∑ p ∈ (Finset.range n ×ˢ Finset.range n).filter (fun p => p.1 < p.2), f p.1 p.2 := by
    refine Finset.sum_nbij' Prod.swap Prod.swap ?_ ?_ (fun _ _ => rfl) (fun _ _ => rfl) (fun p _ => hf _ _)
    · intro p hp
      simp only [Finset.mem_filter, Finset.mem_product, Prod.fst_swap, Prod.snd_swap] at hp ⊢
      exact ⟨hp.1.symm, hp.2⟩
    · intro p hp
      simp only [Finset.mem_filter, Finset.mem_product, Prod.fst_swap, Prod.snd_swap] at hp ⊢
      exact ⟨hp.1.symm, hp.2⟩
  rw [h1, Finset.sum_union, h2]
  · ring
  · rw [Finset.disjoint_filter]
    intro p _ h h'
    omega

/-- The difference of two crossing weights changes by at most the sum of the changes of the weights. -/
theorem crossWeight_change {n : ℕ} (hl : ∀ e ∈ E, e.src ≠ e.dst) (hl' : ∀ e ∈ E', e.src ≠ e.dst)
    (hW : Within E (Finset.range n)) (hW' : Within E' (Finset.range n)) (P Q : Finset (Finset ℕ)) :
    crossWeight E P - crossWeight E Q - (crossWeight E' P - crossWeight E' Q) ≤ weightDistance n E E' := by
  have h1 := crossWeight_pairs hl hW P
  have h2 := crossWeight_pairs hl hW Q
  have h3 := crossWeight_pairs hl' hW' P
  have h4 := crossWeight_pairs hl' hW' Q
  have h5 := sum_offDiag_pairs n (fun u v => |between E u v - between E' u v|)
    (fun u v => by rw [between_comm E, between_comm E'])
  unfold weightDistance
  have h6 : 2 * (crossWeight E P - crossWeight E Q - (crossWeight E' P - crossWeight E' Q)) ≤
      ∑ p ∈ (Finset.range n).offDiag, |between E p.1 p.2 - between E' p.1 p.2| := by
    rw [mul_sub, mul_sub, mul_sub, h1, h2, h3, h4, ← Finset.sum_sub_distrib, ← Finset.sum_sub_distrib,
      ← Finset.sum_sub_distrib]
    refine Finset.sum_le_sum fun p _ => ?_
    have a := le_abs_self (between E p.1 p.2 - between E' p.1 p.2)
    have b := neg_abs_le (between E p.1 p.2 - between E' p.1 p.2)
    split <;> split <;> linarith [abs_nonneg (between E p.1 p.2 - between E' p.1 p.2)]
  linarith

/-! ### the clusters at a threshold -/

theorem clustersAt_get (hlen : Ps.length = cv.length + 1) (γ : ℚ) :
    Ps[cv.countP fun c => decide (c ≤ γ)]? = some (clustersAt Ps cv γ) := by
  have hlt : (cv.countP fun c => decide (c ≤ γ)) < Ps.length := by
    have := List.countP_le_length (p := fun c => decide (c ≤ γ)) (l := cv)
    omega
  unfold clustersAt
  rw [List.getD_eq_getElem _ _ hlt, List.getElem?_eq_getElem hlt]

theorem same_clustersAt (hE : NonnegE E) (hW : Within E V) (h : IsWeakPrincipalSequence E V Ps cv) (γ : ℚ) {u v : ℕ} :
    Same (clustersAt Ps cv γ) u v ↔ ∃ S ⊆ V, u ∈ S ∧ v ∈ S ∧ HoldsTogether E γ S := by
  refine weak_cluster hE hW h (clustersAt_get h.length γ) ?_ ?_
  · exact fun j c hj hlt => (countP_sorted h.nondecreasing j c hj).1 hlt
  · intro j c hj hle
    by_contra hcon
    have := (countP_sorted h.nondecreasing j c hj).2 (not_lt.1 hcon)
    omega

theorem clustersAt_mem (hlen : Ps.length = cv.length + 1) (γ : ℚ) : clustersAt Ps cv γ ∈ Ps :=
  List.mem_of_getElem? (clustersAt_get hlen γ)

/-! ### embeddings -/

theorem pullback_partition {S : Finset ℕ} {φ : ℕ → ℕ} {Q : Finset (Finset ℕ)} (hQ : IsPartition (S.image φ) Q) :
    IsPartition S (Q.image fun B => S.filter fun u => φ u ∈ B) ∧
      (Q.image fun B => S.filter fun u => φ u ∈ B).card = Q.card ∧
      ∀ u ∈ S, ∀ v ∈ S, Same (Q.image fun B => S.filter fun u => φ u ∈ B) u v → Same Q (φ u) (φ v) := by
  have hne : ∀ B ∈ Q, ∃ u ∈ S, φ u ∈ B := by
    intro B hB
    obtain ⟨x, hx⟩ := hQ.nonempty hB
    obtain ⟨u, hu, rfl⟩ := Finset.mem_image.1 (hQ.subset hB hx)
    exact ⟨u, hu, hx⟩
  refine ⟨⟨?_, ?_⟩, ?_, ?_⟩
  · intro C hC
    obtain ⟨B, hB, rfl⟩ := Finset.mem_image.1 hC
    obtain ⟨u, hu, hx⟩ := hne B hB
    exact ⟨⟨u, Finset.mem_filter.2 ⟨hu, hx⟩⟩, Finset.filter_subset _ _⟩
  · intro v hv
    obtain ⟨B, hB, hvB⟩ := hQ.exists_block (Finset.mem_image_of_mem φ hv)
    refine ⟨_, ⟨Finset.mem_image_of_mem _ hB, Finset.mem_filter.2 ⟨hv, hvB⟩⟩, ?_⟩
    rintro C ⟨hC, hvC⟩
    obtain ⟨B', hB', rfl⟩ := Finset.mem_image.1 hC
    rw [hQ.eq_of_mem hB' hB (Finset.mem_filter.1 hvC).2 hvB]
  · refine Finset.card_image_of_injOn ?_
    intro B hB C hC hBC
    obtain ⟨u, hu, hx⟩ := hne B hB
    have : u ∈ S.filter fun u => φ u ∈ C := by
      have h0 : u ∈ S.filter fun u => φ u ∈ B := Finset.mem_filter.2 ⟨hu, hx⟩
      dsimp only at hBC
      rwa [hBC] at h0
    exact hQ.eq_of_mem hB hC hx (Finset.mem_filter.1 this).2
  · rintro u hu v hv ⟨C, hC, h1, h2⟩
    obtain ⟨B, hB, rfl⟩ := Finset.mem_image.1 hC
    exact ⟨B, hB, (Finset.mem_filter.1 h1).2, (Finset.mem_filter.1 h2).2⟩

theorem holds_embed (hl : ∀ e ∈ E, e.src ≠ e.dst) (hl' : ∀ e ∈ E', e.src ≠ e.dst) (hE' : NonnegE E')
    {S : Finset ℕ} {φ : ℕ → ℕ}
    (hφ : ∀ u ∈ S, ∀ v ∈ S, φ u = φ v → u = v) (hw : ∀ u ∈ S, ∀ v ∈ S, u ≠ v → between E u v ≤ between E' (φ u) (φ v))
    {γ : ℚ} (h : HoldsTogether E γ S) : HoldsTogether E' γ (S.image φ) := by
  intro Q hQ hQ2
  obtain ⟨h1, h2, h3⟩ := pullback_partition hQ
  have h4 := h _ h1 (by omega)
  rw [h2] at h4
  refine h4.trans_le ?_
  have h5 := brokenWeight_pairs hl S (Q.image fun B => S.filter fun u => φ u ∈ B)
  have h6 := brokenWeight_pairs hl' (S.image φ) Q
  have h7 : (S.image φ).offDiag = S.offDiag.image fun p => (φ p.1, φ p.2) := by
    ext ⟨a, b⟩
    simp only [Finset.mem_offDiag, Finset.mem_image, Prod.mk.injEq, Prod.exists]
    constructor
    · rintro ⟨⟨u, hu, rfl⟩, ⟨v, hv, rfl⟩, hne⟩
      exact ⟨u, v, ⟨hu, hv, fun h => hne (by rw [h])⟩, rfl, rfl⟩
    · rintro ⟨u, v, ⟨hu, hv, hne⟩, rfl, rfl⟩
      exact ⟨⟨u, hu, rfl⟩, ⟨v, hv, rfl⟩, fun h => hne (hφ u hu v hv h)⟩
  rw [h7, Finset.sum_image] at h6
  · have : 2 * brokenWeight E S (Q.image fun B => S.filter fun u => φ u ∈ B) ≤ 2 * brokenWeight E' (S.image φ) Q := by
      rw [h5, h6]
      refine Finset.sum_le_sum fun p hp => ?_
      obtain ⟨p1, p2, p3⟩ := Finset.mem_offDiag.1 hp
      by_cases hs : Same (Q.image fun B => S.filter fun u => φ u ∈ B) p.1 p.2
      · rw [if_neg (not_not.2 hs)]
        split
        · exact between_nonneg hE' _ _
        · exact le_rfl
      · rw [if_pos hs]
        have : ¬ Same Q (φ p.1) (φ p.2) := by
          rintro ⟨B, hB, b1, b2⟩
          exact hs ⟨_, Finset.mem_image_of_mem _ hB, Finset.mem_filter.2 ⟨p1, b1⟩, Finset.mem_filter.2 ⟨p2, b2⟩⟩
        rw [if_pos this]
        exact hw _ p1 _ p2 p3
    linarith
  · intro p hp q hq hpq
    obtain ⟨p1, p2, -⟩ := Finset.mem_offDiag.1 hp
    obtain ⟨q1, q2, -⟩ := Finset.mem_offDiag.1 hq
    simp only [Prod.mk.injEq] at hpq
    exact Prod.ext (hφ _ p1 _ q1 hpq.1) (hφ _ p2 _ q2 hpq.2)

theorem clusters_embed {k n : ℕ} (hl : ∀ e ∈ E, e.src ≠ e.dst) (hl' : ∀ e ∈ E', e.src ≠ e.dst) (hE : NonnegE E)
    (hE' : NonnegE E') (hW : Within E (Finset.range k)) (hW' : Within E' (Finset.range n))
    (h : IsWeakPrincipalSequence E (Finset.range k) Ps cv) (h' : IsWeakPrincipalSequence E' (Finset.range n) Ps' cv')
    {φ : ℕ → ℕ} (hφ : IsEmbedding k n φ) (hw : ∀ u < k, ∀ v < k, u ≠ v → between E u v ≤ between E' (φ u) (φ v)) {γ : ℚ}
    {u v : ℕ} (hs : Same (clustersAt Ps cv γ) u v) : Same (clustersAt Ps' cv' γ) (φ u) (φ v) := by
  obtain ⟨S, hS, hu, hv, hh⟩ := (same_clustersAt hE hW h γ).1 hs
  have hS' : ∀ u ∈ S, u < k := fun u hu => Finset.mem_range.1 (hS hu)
  refine (same_clustersAt hE' hW' h' γ).2 ⟨S.image φ, ?_, Finset.mem_image_of_mem _ hu, Finset.mem_image_of_mem _ hv,
    holds_embed hl hl' hE' (fun u hu v hv => hφ.2 u (hS' u hu) v (hS' v hv))
      (fun u hu v hv => hw u (hS' u hu) v (hS' v hv)) hh⟩
  intro x hx
  obtain ⟨y, hy, rfl⟩ := Finset.mem_image.1 hx
  exact Finset.mem_range.2 (hφ.1 y (hS' y hy))

/-! ### separate parts -/

/-- A set that holds together at a threshold of at least zero is not spread over parts without edges between them. -/
theorem holds_one_part (hl : ∀ e ∈ E, e.src ≠ e.dst) {S A : Finset ℕ} {γ : ℚ} (hγ : 0 ≤ γ) (h : HoldsTogether E γ S)
    (h0 : ∀ u ∈ S, ∀ v ∈ S, u ∈ A → v ∉ A → between E u v = 0) : S ⊆ A ∨ Disjoint S A := by
  by_contra hcon
  rw [not_or] at hcon
  obtain ⟨c1, c2⟩ := hcon
  obtain ⟨x, hx, hxA⟩ := Finset.not_subset.1 c1
  obtain ⟨y, hy, hyA⟩ := Finset.not_disjoint_iff.1 c2
  have hp : IsPartition S {S ∩ A, S \ A} := by
    refine ⟨?_, ?_⟩
    · intro B hB
      rw [Finset.mem_insert, Finset.mem_singleton] at hB
      rcases hB with rfl | rfl
      · exact ⟨⟨y, Finset.mem_inter.2 ⟨hy, hyA⟩⟩, Finset.inter_subset_left⟩
      · exact ⟨⟨x, Finset.mem_sdiff.2 ⟨hx, hxA⟩⟩, Finset.sdiff_subset⟩
    · intro v hv
      by_cases hvA : v ∈ A
      · refine ⟨S ∩ A, ⟨by simp, Finset.mem_inter.2 ⟨hv, hvA⟩⟩, ?_⟩
        rintro C ⟨hC, hvC⟩
        rw [Finset.mem_insert, Finset.mem_singleton] at hC
        rcases hC with rfl | rfl
        · rfl
        · exact absurd hvA (Finset.mem_sdiff.1 hvC).2
      · refine ⟨S \ A, ⟨by simp, Finset.mem_sdiff.2 ⟨hv, hvA⟩⟩, ?_⟩
        rintro C ⟨hC, hvC⟩
        rw [Finset.mem_insert, Finset.mem_singleton] at hC
        rcases hC with rfl | rfl
        · exact absurd (Finset.mem_inter.1 hvC).2 hvA
        · rfl
  have hne : S ∩ A ≠ S \ A := by
    intro he
    have : y ∈ S \ A := he ▸ Finset.mem_inter.2 ⟨hy, hyA⟩
    exact (Finset.mem_sdiff.1 this).2 hyA
  have hcard : ({S ∩ A, S \ A} : Finset (Finset ℕ)).card = 2 := Finset.card_pair hne
  have h1 := h _ hp (by omega)
  have h2 := brokenWeight_pairs hl S {S ∩ A, S \ A}
  have h3 : ∑ p ∈ S.offDiag, (if ¬ Same {S ∩ A, S \ A} p.1 p.2 then between E p.1 p.2 else 0) = 0 := by
    refine Finset.sum_eq_zero fun p hp => ?_
    obtain ⟨p1, p2, -⟩ := Finset.mem_offDiag.1 hp
    split
    · next hs =>
      by_cases a : p.1 ∈ A
      · by_cases b : p.2 ∈ A
        · exact absurd ⟨S ∩ A, by simp, Finset.mem_inter.2 ⟨p1, a⟩, Finset.mem_inter.2 ⟨p2, b⟩⟩ hs
        · exact h0 _ p1 _ p2 a b
      · by_cases b : p.2 ∈ A
        · rw [between_comm]
          exact h0 _ p2 _ p1 b a
        · exact absurd ⟨S \ A, by simp, Finset.mem_sdiff.2 ⟨p1, a⟩, Finset.mem_sdiff.2 ⟨p2, b⟩⟩ hs
    · rfl
  rw [hcard] at h1
  rw [h3] at h2
  push_cast at h1
  linarith

/-- The clusters of the nodes of a part are those of the part alone, if no set that holds together meets both the part and
the rest. -/
theorem clusters_within {k n : ℕ} (hl : ∀ e ∈ E, e.src ≠ e.dst) (hl' : ∀ e ∈ E', e.src ≠ e.dst) (hE : NonnegE E)
    (hE' : NonnegE E') (hW : Within E (Finset.range k)) (hW' : Within E' (Finset.range n))
    (h : IsWeakPrincipalSequence E (Finset.range k) Ps cv) (h' : IsWeakPrincipalSequence E' (Finset.range n) Ps' cv')
    {φ : ℕ → ℕ} (hφ : IsEmbedding k n φ) (hw : ∀ u < k, ∀ v < k, u ≠ v → between E u v = between E' (φ u) (φ v)) {γ : ℚ}
    {u y : ℕ} (hu : u < k)
    (hin : ∀ S ⊆ Finset.range n, φ u ∈ S → HoldsTogether E' γ S → S ⊆ (Finset.range k).image φ) :
    Same (clustersAt Ps' cv' γ) (φ u) y ↔ ∃ v < k, φ v = y ∧ Same (clustersAt Ps cv γ) u v := by
  constructor
  · intro hs
    obtain ⟨S, hS, huS, hyS, hh⟩ := (same_clustersAt hE' hW' h' γ).1 hs
    have h2 := hin S hS huS hh
    obtain ⟨v, hv, rfl⟩ := Finset.mem_image.1 (h2 hyS)
    refine ⟨v, Finset.mem_range.1 hv, rfl, ?_⟩
    -- the inverse map
    have hinv : ∀ a ∈ S, ∃ x < k, φ x = a := by
      intro a ha
      obtain ⟨x, hx, rfl⟩ := Finset.mem_image.1 (h2 ha)
      exact ⟨x, Finset.mem_range.1 hx, rfl⟩
    classical
    let ψ : ℕ → ℕ := fun a => if ha : ∃ x < k, φ x = a then ha.choose else 0
    have hψ : ∀ x < k, ψ (φ x) = x := by
      intro x hx
      have he : ∃ x' < k, φ x' = φ x := ⟨x, hx, rfl⟩
      show (if ha : ∃ x' < k, φ x' = φ x then ha.choose else 0) = x
      rw [dif_pos he]
      exact hφ.2 _ he.choose_spec.1 x hx he.choose_spec.2
    refine (same_clustersAt hE hW h γ).2 ⟨S.image ψ, ?_, ?_, ?_, holds_embed hl' hl hE ?_ ?_ hh⟩
    · intro b hb
      obtain ⟨a, ha, rfl⟩ := Finset.mem_image.1 hb
      obtain ⟨x, hx, rfl⟩ := hinv a ha
      rw [hψ x hx]
      exact Finset.mem_range.2 hx
    · exact Finset.mem_image.2 ⟨φ u, huS, hψ u hu⟩
    · exact Finset.mem_image.2 ⟨φ v, hyS, hψ v (Finset.mem_range.1 hv)⟩
    · intro a ha b hb hab
      obtain ⟨x, hx, rfl⟩ := hinv a ha
      obtain ⟨y, hy, rfl⟩ := hinv b hb
      rw [hψ x hx, hψ y hy] at hab
      rw [hab]
    · intro a ha b hb hne
      obtain ⟨x, hx, rfl⟩ := hinv a ha
      obtain ⟨y, hy, rfl⟩ := hinv b hb
      rw [hψ x hx, hψ y hy]
      exact (hw x hx y hy fun h => hne (by rw [h])).ge
  · rintro ⟨v, hv, rfl, hs⟩
    exact clusters_embed hl hl' hE hE' hW hW' h h' hφ (fun a ha b hb hab => (hw a ha b hb hab).le) hs

theorem clusters_part {k n : ℕ} (hl : ∀ e ∈ E, e.src ≠ e.dst) (hl' : ∀ e ∈ E', e.src ≠ e.dst) (hE : NonnegE E)
    (hE' : NonnegE E') (hW : Within E (Finset.range k)) (hW' : Within E' (Finset.range n))
    (h : IsWeakPrincipalSequence E (Finset.range k) Ps cv) (h' : IsWeakPrincipalSequence E' (Finset.range n) Ps' cv')
    {φ : ℕ → ℕ} (hφ : IsEmbedding k n φ) (hw : ∀ u < k, ∀ v < k, u ≠ v → between E u v = between E' (φ u) (φ v))
    (h0 : ∀ u < k, ∀ y < n, (∀ v < k, φ v ≠ y) → between E' (φ u) y = 0) {γ : ℚ} (hγ : 0 ≤ γ) {u y : ℕ} (hu : u < k) :
    Same (clustersAt Ps' cv' γ) (φ u) y ↔ ∃ v < k, φ v = y ∧ Same (clustersAt Ps cv γ) u v := by
  refine clusters_within hl hl' hE hE' hW hW' h h' hφ hw hu fun S hS huS hh => ?_
  have h1 := holds_one_part hl' (A := (Finset.range k).image φ) hγ hh (by
    intro a ha b hb haA hbA
    obtain ⟨x, hx, rfl⟩ := Finset.mem_image.1 haA
    refine h0 x (Finset.mem_range.1 hx) b (Finset.mem_range.1 (hS hb)) fun v hv hvb => hbA ?_
    exact Finset.mem_image.2 ⟨v, Finset.mem_range.2 hv, hvb⟩)
  rcases h1 with h1 | h1
  · exact h1
  · exact absurd (Finset.mem_image_of_mem φ (Finset.mem_range.2 hu)) (Finset.disjoint_left.1 h1 huS)

/-! ### inside a cluster -/

theorem holds_mono {S : Finset ℕ} {γ γ' : ℚ} (h : HoldsTogether E γ S) (hγ : γ' ≤ γ) : HoldsTogether E γ' S := by
  intro Q hQ hQ2
  have hq : (2 : ℚ) ≤ Q.card := by exact_mod_cast hQ2
  have := h Q hQ hQ2
  nlinarith

/-- Above a threshold, a union of clusters at the threshold can be looked at alone. -/
theorem clusters_inside {k n : ℕ} (hl : ∀ e ∈ E, e.src ≠ e.dst) (hl' : ∀ e ∈ E', e.src ≠ e.dst) (hE : NonnegE E)
    (hE' : NonnegE E') (hW : Within E (Finset.range k)) (hW' : Within E' (Finset.range n))
    (h : IsWeakPrincipalSequence E (Finset.range k) Ps cv) (h' : IsWeakPrincipalSequence E' (Finset.range n) Ps' cv')
    {φ : ℕ → ℕ} (hφ : IsEmbedding k n φ) (hw : ∀ u < k, ∀ v < k, u ≠ v → between E u v = between E' (φ u) (φ v))
    {γ₀ γ : ℚ} (hc : ∀ u < k, ∀ y, Same (clustersAt Ps' cv' γ₀) (φ u) y → ∃ v < k, φ v = y) (hγ : γ₀ ≤ γ) {u y : ℕ}
    (hu : u < k) :
    Same (clustersAt Ps' cv' γ) (φ u) y ↔ ∃ v < k, φ v = y ∧ Same (clustersAt Ps cv γ) u v := by
  refine clusters_within hl hl' hE hE' hW hW' h h' hφ hw hu fun S hS huS hh x hx => ?_
  obtain ⟨v, hv, rfl⟩ := hc u hu x ((same_clustersAt hE' hW' h' γ₀).2 ⟨S, hS, huS, hx, holds_mono hh hγ⟩)
  exact Finset.mem_image_of_mem φ (Finset.mem_range.2 hv)

end PSP.Theory
