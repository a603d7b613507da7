import Verif.Theory.Compare
import Verif.Theory.PDTExtra

/-!
# Comparing the critical values of two graphs
-/

namespace PSP.Theory

open PSP.Spec

variable {E E' : List Arc} {V : Finset ℕ} {Ps Ps' : List (Finset (Finset ℕ))} {cv cv' : List ℚ}

/-! ### the list of critical values with multiplicities -/

theorem spectrum_cons (P Q : Finset (Finset ℕ)) (Ps : List (Finset (Finset ℕ))) (c : ℚ) (cv : List ℚ) :
    spectrum (P :: Q :: Ps) (c :: cv) = List.replicate (Q.card - P.card) c ++ spectrum (Q :: Ps) cv := rfl

theorem spectrum_mem : ∀ (Ps : List (Finset (Finset ℕ))) (cv : List ℚ), ∀ x ∈ spectrum Ps cv, x ∈ cv
  | [], cv => by simp [spectrum]
  | [P], cv => by cases cv <;> simp [spectrum]
  | P :: Q :: Ps, [] => by simp [spectrum]
  | P :: Q :: Ps, c :: cv => by
    intro x hx
    rw [spectrum_cons, List.mem_append] at hx
    rcases hx with hx | hx
    · exact List.mem_cons.2 (Or.inl (List.eq_of_mem_replicate hx))
    · exact List.mem_cons_of_mem _ (spectrum_mem (Q :: Ps) cv x hx)

theorem spectrum_sorted : ∀ (Ps : List (Finset (Finset ℕ))) (cv : List ℚ), cv.Pairwise (· ≤ ·) →
    (spectrum Ps cv).Pairwise (· ≤ ·)
  | [], cv => by simp [spectrum]
  | [P], cv => by cases cv <;> simp [spectrum]
  | P :: Q :: Ps, [] => by simp [spectrum]
  | P :: Q :: Ps, c :: cv => by
    intro h
    rw [List.pairwise_cons] at h
    rw [spectrum_cons, List.pairwise_append]
    refine ⟨List.pairwise_replicate.2 (Or.inr le_rfl), spectrum_sorted _ _ h.2, fun a ha b hb => ?_⟩
    rw [List.eq_of_mem_replicate ha]
    exact h.1 b (spectrum_mem _ _ b hb)

/-- The length of the list. -/
theorem spectrum_length : ∀ (Ps : List (Finset (Finset ℕ))) (cv : List ℚ) (P L : Finset (Finset ℕ)),
    Ps.length = cv.length + 1 → (Ps.map Finset.card).Pairwise (· < ·) → Ps.head? = some P → Ps.getLast? = some L →
    P.card + (spectrum Ps cv).length = L.card
  | [], _, _, _ => by simp
  | [A], cv, P, L => by
    intro h _ h1 h2
    simp only [List.head?_cons, Option.some.injEq, List.getLast?_singleton] at h1 h2
    subst h1 h2
    cases cv <;> simp_all [spectrum]
  | A :: B :: Ps, [], P, L => by simp
  | A :: B :: Ps, c :: cv, P, L => by
    intro h hp h1 h2
    simp only [List.head?_cons, Option.some.injEq] at h1
    subst h1
    rw [List.map_cons, List.pairwise_cons] at hp
    have h3 := spectrum_length (B :: Ps) cv B L (by simpa using h) hp.2 rfl (by simpa [List.getLast?_cons_cons] using h2)
    have h4 := hp.1 B.card (by simp)
    rw [spectrum_cons, List.length_append, List.length_replicate]
    omega

theorem spectrum_sum : ∀ (Ps : List (Finset (Finset ℕ))) (cv : List ℚ), (Ps.map Finset.card).Pairwise (· < ·) →
    (spectrum Ps cv).sum = stepSum Ps cv
  | [], cv => by simp [spectrum, stepSum]
  | [P], cv => by cases cv <;> simp [spectrum, stepSum]
  | P :: Q :: Ps, [] => by simp [spectrum, stepSum]
  | P :: Q :: Ps, c :: cv => by
    intro hp
    rw [List.map_cons, List.pairwise_cons] at hp
    have h4 := hp.1 Q.card (by simp)
    rw [spectrum_cons, List.sum_append, List.sum_replicate, spectrum_sum _ _ hp.2, stepSum, nsmul_eq_mul,
      Nat.cast_sub h4.le]
    ring

/-- The number of clusters at a threshold. -/
theorem card_clustersAt (γ : ℚ) : ∀ (Ps : List (Finset (Finset ℕ))) (cv : List ℚ) (P : Finset (Finset ℕ)),
    Ps.length = cv.length + 1 → (Ps.map Finset.card).Pairwise (· < ·) → cv.Pairwise (· ≤ ·) → Ps.head? = some P →
    (clustersAt Ps cv γ).card = P.card + (spectrum Ps cv).countP fun c => decide (c ≤ γ)
  | [], _, _ => by simp
  | [A], cv, P => by
    intro h _ _ h1
    simp only [List.head?_cons, Option.some.injEq] at h1
    subst h1
    cases cv with
    | nil => simp [spectrum, clustersAt]
    | cons => simp at h
  | A :: B :: Ps, [], P => by simp
  | A :: B :: Ps, c :: cv, P => by
    intro h hp hs h1
    simp only [List.head?_cons, Option.some.injEq] at h1
    subst h1
    rw [List.map_cons, List.pairwise_cons] at hp
    rw [List.pairwise_cons] at hs
    have h3 := card_clustersAt γ (B :: Ps) cv B (by simpa using h) hp.2 hs.2 rfl
    have h4 := hp.1 B.card (by simp)
    rw [spectrum_cons, List.countP_append]
    by_cases hc : c ≤ γ
    · have h5 : clustersAt (A :: B :: Ps) (c :: cv) γ = clustersAt (B :: Ps) cv γ := by
        unfold clustersAt
        rw [List.countP_cons_of_pos (by simpa using hc), List.getD_cons_succ]
      rw [h5, h3, List.countP_replicate, if_pos (by simpa using hc)]
      omega
    · have h6 : ∀ x ∈ cv, ¬ x ≤ γ := fun x hx hle => hc ((hs.1 x hx).trans hle)
      have h7 : cv.countP (fun c => decide (c ≤ γ)) = 0 := by
        rw [List.countP_eq_zero]
        intro x hx
        simpa using h6 x hx
      have h8 : (spectrum (B :: Ps) cv).countP (fun c => decide (c ≤ γ)) = 0 := by
        rw [List.countP_eq_zero]
        intro x hx
        simpa using h6 x (spectrum_mem _ _ x hx)
      have h5 : clustersAt (A :: B :: Ps) (c :: cv) γ = A := by
        unfold clustersAt
        rw [List.countP_cons_of_neg (by simpa using hc), h7, List.getD_cons_zero]
      rw [h5, h8, List.countP_replicate, if_neg (by simpa using hc)]
      simp

/-- Every entry is the critical value between a partition with few and one with many blocks. -/
theorem spectrum_entry : ∀ (Ps : List (Finset (Finset ℕ))) (cv : List ℚ) (P : Finset (Finset ℕ)),
    (Ps.map Finset.card).Pairwise (· < ·) → Ps.head? = some P → ∀ (i : ℕ) (x : ℚ), (spectrum Ps cv)[i]? = some x →
    ∃ (j : ℕ) (A B : Finset (Finset ℕ)), Ps[j]? = some A ∧ Ps[j + 1]? = some B ∧ cv[j]? = some x ∧
      A.card ≤ P.card + i ∧ P.card + i < B.card
  | [], cv, P => by simp
  | [A], cv, P => by cases cv <;> simp [spectrum]
  | A :: B :: Ps, [], P => by simp [spectrum]
  | A :: B :: Ps, c :: cv, P => by
    intro hp h1 i x hx
    simp only [List.head?_cons, Option.some.injEq] at h1
    subst h1
    rw [List.map_cons, List.pairwise_cons] at hp
    have h4 := hp.1 B.card (by simp)
    rw [spectrum_cons] at hx
    by_cases hi : i < B.card - A.card
    · rw [List.getElem?_append_left (by simpa using hi), List.getElem?_replicate, if_pos hi] at hx
      cases hx
      exact ⟨0, A, B, rfl, rfl, rfl, by omega, by omega⟩
    · rw [List.getElem?_append_right (by simpa using hi), List.length_replicate] at hx
      obtain ⟨j, A', B', j1, j2, j3, j4, j5⟩ := spectrum_entry (B :: Ps) cv B hp.2 rfl _ x hx
      exact ⟨j + 1, A', B', j1, j2, j3, by omega, by omega⟩

/-- Sorted lists are compared by counting. -/
theorem sorted_le_of_counts {a b : List ℚ} (ha : a.Pairwise (· ≤ ·)) (hb : b.Pairwise (· ≤ ·)) (hl : a.length = b.length)
    (h : ∀ γ : ℚ, b.countP (fun c => decide (c ≤ γ)) ≤ a.countP (fun c => decide (c ≤ γ))) :
    List.Forall₂ (· ≤ ·) a b := by
  rw [List.forall₂_iff_get]
  refine ⟨hl, fun i hi hi' => ?_⟩
  simp only [List.get_eq_getElem]
  have h1 := (countP_sorted (γ := b[i]) hb i b[i] (List.getElem?_eq_getElem _)).2 le_rfl
  exact (countP_sorted (γ := b[i]) ha i a[i] (List.getElem?_eq_getElem _)).1 (h1.trans_le (h _))

/-! ### approximate sequences -/

theorem weightDistance_comm (n : ℕ) (E E' : List Arc) : weightDistance n E E' = weightDistance n E' E := by
  unfold weightDistance
  exact Finset.sum_congr rfl fun p _ => abs_sub_comm _ _

theorem weightExcess_nonneg (n : ℕ) (E E' : List Arc) : 0 ≤ weightExcess n E E' :=
  Finset.sum_nonneg fun _ _ => le_max_left _ _

theorem weightExcess_le (n : ℕ) (E E' : List Arc) : weightExcess n E E' ≤ weightDistance n E E' :=
  Finset.sum_le_sum fun _ _ => max_le (abs_nonneg _) (le_abs_self _)

theorem weightExcess_zero {n : ℕ} (h : ∀ u < n, ∀ v < n, u ≠ v → between E u v ≤ between E' u v) :
    weightExcess n E E' = 0 := by
  refine Finset.sum_eq_zero fun p hp => ?_
  obtain ⟨p1, p2⟩ := Finset.mem_filter.1 hp
  obtain ⟨p3, p4⟩ := Finset.mem_product.1 p1
  have := h p.1 (Finset.mem_range.1 p3) p.2 (Finset.mem_range.1 p4) p2.ne
  exact max_eq_left (by linarith)

/-- The weight of the edges that are cut by `P` but not by a coarser partition. -/
theorem crossWeight_excess {n : ℕ} (hl : ∀ e ∈ E, e.src ≠ e.dst) (hl' : ∀ e ∈ E', e.src ≠ e.dst)
    (hW : Within E (Finset.range n)) (hW' : Within E' (Finset.range n)) {P Q : Finset (Finset ℕ)} (hPQ : Refines P Q) :
    crossWeight E P - crossWeight E Q - (crossWeight E' P - crossWeight E' Q) ≤ weightExcess n E E' := by
  have h1 := crossWeight_pairs hl hW P
  have h2 := crossWeight_pairs hl hW Q
  have h3 := crossWeight_pairs hl' hW' P
  have h4 := crossWeight_pairs hl' hW' Q
  have h5 := sum_offDiag_pairs n (fun u v => max 0 (between E u v - between E' u v))
    (fun u v => by rw [between_comm E, between_comm E'])
  unfold weightExcess
  have h6 : 2 * (crossWeight E P - crossWeight E Q - (crossWeight E' P - crossWeight E' Q)) ≤
      ∑ p ∈ (Finset.range n).offDiag, max 0 (between E p.1 p.2 - between E' p.1 p.2) := by
    rw [mul_sub, mul_sub, mul_sub, h1, h2, h3, h4, ← Finset.sum_sub_distrib, ← Finset.sum_sub_distrib,
      ← Finset.sum_sub_distrib]
    refine Finset.sum_le_sum fun p _ => ?_
    have a := le_max_left 0 (between E p.1 p.2 - between E' p.1 p.2)
    have b := le_max_right 0 (between E p.1 p.2 - between E' p.1 p.2)
    by_cases c1 : Same P p.1 p.2
    · rw [if_neg (not_not.2 c1), if_neg (not_not.2 (hPQ.same c1)), if_neg (not_not.2 c1),
        if_neg (not_not.2 (hPQ.same c1))]
      linarith
    · rw [if_pos c1, if_pos c1]
      split <;> linarith
  linarith

/-- Partitions that are optimal up to an error, for two graphs: at a parameter that is larger by more than the errors, the
partition is finer. -/
theorem near_refines_two {n : ℕ} {C C' l l' : ℚ} {P Q : Finset (Finset ℕ)} (hl : ∀ e ∈ E, e.src ≠ e.dst)
    (hl' : ∀ e ∈ E', e.src ≠ e.dst) (hE' : NonnegE E') (hW : Within E (Finset.range n))
    (hW' : Within E' (Finset.range n)) (hP : IsNearOptimal E (Finset.range n) C l P)
    (hQ : IsNearOptimal E' (Finset.range n) C' l' Q) (hlt : l + (C + C' + weightExcess n E' E) < l') : Refines Q P := by
  intro B hB
  have hBne := hQ.1.nonempty hB
  have hBV := hQ.1.subset hB
  have e1 := hP.2 _ (expand_isPartition' hP.1 hBne hBV)
  have e2 := hQ.2 _ (splitBlock_isPartition hQ.1 hP.1 hB)
  have c1 := card_expand (P := P) hBne
  have c2 := card_splitBlock hQ.1 hP.1 hB
  have hu := crossWeight_uncross (P := P) (Q := Q) hE' hB
  have hx := crossWeight_excess hl' hl hW' hW (refines_expand P B)
  have hC : 0 ≤ C := by have := hP.2 P hP.1; linarith
  have hC' : 0 ≤ C' := by have := hQ.2 Q hQ.1; linarith
  have hD := weightExcess_nonneg n E' E
  unfold cost at e1 e2
  have c1' : ((Model.expand P B).card : ℚ) = P.card + 1 - (meeting P B).card := by
    have : ((Model.expand P B).card : ℚ) + (meeting P B).card = P.card + 1 := by exact_mod_cast c1
    linarith
  have c2' : ((splitBlock Q P B).card : ℚ) = Q.card + (meeting P B).card - 1 := by
    have : ((splitBlock Q P B).card : ℚ) + 1 = Q.card + (meeting P B).card := by exact_mod_cast c2
    linarith
  rw [c1'] at e1
  rw [c2'] at e2
  have key : (l' - l) * ((meeting P B).card - 1 : ℚ) ≤ C + C' + weightExcess n E' E := by linarith
  have hm : (meeting P B).card ≤ 1 := by
    by_contra hcon
    have h2 : (2 : ℚ) ≤ (meeting P B).card := by
      have : 2 ≤ (meeting P B).card := by omega
      exact_mod_cast this
    nlinarith
  obtain ⟨v, hv⟩ := hBne
  obtain ⟨A, hA, hvA⟩ := hP.1.exists_block (hBV hv)
  refine ⟨A, hA, fun w hw => ?_⟩
  obtain ⟨A', hA', hwA'⟩ := hP.1.exists_block (hBV hw)
  have m1 : A ∈ meeting P B := mem_meeting.2 ⟨hA, Finset.not_disjoint_iff.2 ⟨v, hvA, hv⟩⟩
  have m2 : A' ∈ meeting P B := mem_meeting.2 ⟨hA', Finset.not_disjoint_iff.2 ⟨w, hwA', hw⟩⟩
  rw [Finset.card_le_one.1 hm A m1 A' m2]
  exact hwA'

theorem approx_clustersAt {C : ℚ} (h : IsApproximateSequence E V C Ps cv) (γ : ℚ) :
    IsNearOptimal E V C γ (clustersAt Ps cv γ) := by
  refine h.optimal _ _ γ (clustersAt_get h.length γ) ?_ ?_
  · exact fun j c hj hlt => (countP_sorted h.nondecreasing j c hj).1 hlt
  · intro j c hj hle
    by_contra hcon
    have := (countP_sorted h.nondecreasing j c hj).2 (not_le.1 hcon).le
    omega

theorem approx_counts {C : ℚ} (h : IsApproximateSequence E V C Ps cv) :
    (∀ P ∈ Ps, IsPartition V P) ∧ (Ps.map Finset.card).Pairwise (· < ·) := by
  have hp : ∀ P ∈ Ps, IsPartition V P := by
    intro P hP
    obtain ⟨i, hi, rfl⟩ := List.getElem_of_mem hP
    obtain ⟨lam, h1, h2⟩ : ∃ lam, (∀ j c, cv[j]? = some c → j < i → c ≤ lam) ∧
        ∀ j c, cv[j]? = some c → i ≤ j → lam ≤ c := by
      by_cases hlt : i < cv.length
      · have he : cv[i]? = some (cv[i]'hlt) := List.getElem?_eq_getElem _
        exact ⟨cv[i]'hlt, fun j c hj hji => getElem?_mono h.nondecreasing hj he hji.le,
          fun j c hj hij => getElem?_mono h.nondecreasing he hj hij⟩
      · rcases Nat.eq_zero_or_pos cv.length with h0 | h0
        · have h0' : cv = [] := List.length_eq_zero_iff.1 h0
          exact ⟨0, by simp [h0'], by simp [h0']⟩
        · have he : cv[cv.length - 1]? = some (cv[cv.length - 1]'(by omega)) := List.getElem?_eq_getElem _
          refine ⟨cv[cv.length - 1]'(by omega), fun j c hj _ => getElem?_mono h.nondecreasing hj he ?_,
            fun j c hj hij => ?_⟩
          · have := (List.getElem?_eq_some_iff.1 hj).1
            omega
          · have := (List.getElem?_eq_some_iff.1 hj).1
            omega
    exact (h.optimal i _ lam (List.getElem?_eq_getElem hi) h1 h2).1
  refine ⟨hp, List.pairwise_map.2 ?_⟩
  refine h.refine.imp_of_mem ?_
  intro P Q hP hQ hPQ
  exact hPQ.1.card_lt (hp Q hQ) (hp P hP) hPQ.2

theorem approx_clusters_refine {n : ℕ} {C C' γ γ' : ℚ} (hl : ∀ e ∈ E, e.src ≠ e.dst) (hl' : ∀ e ∈ E', e.src ≠ e.dst)
    (hE' : NonnegE E') (hW : Within E (Finset.range n)) (hW' : Within E' (Finset.range n))
    (h : IsApproximateSequence E (Finset.range n) C Ps cv) (h' : IsApproximateSequence E' (Finset.range n) C' Ps' cv')
    (hlt : γ + (C + C' + weightExcess n E' E) < γ') : Refines (clustersAt Ps' cv' γ') (clustersAt Ps cv γ) :=
  near_refines_two hl hl' hE' hW hW' (approx_clustersAt h γ) (approx_clustersAt h' γ') hlt

/-- The critical values of two approximate sequences for two graphs. -/
theorem approx_spectrum {n : ℕ} {C C' : ℚ} (hl : ∀ e ∈ E, e.src ≠ e.dst) (hl' : ∀ e ∈ E', e.src ≠ e.dst)
    (hE' : NonnegE E') (hW : Within E (Finset.range n)) (hW' : Within E' (Finset.range n))
    (h : IsApproximateSequence E (Finset.range n) C Ps cv) (h' : IsApproximateSequence E' (Finset.range n) C' Ps' cv') :
    List.Forall₂ (fun a b => b ≤ a + (C + C' + weightExcess n E' E)) (spectrum Ps cv) (spectrum Ps' cv') := by
  obtain ⟨p1, p2⟩ := approx_counts h
  obtain ⟨q1, q2⟩ := approx_counts h'
  have hlen := spectrum_length Ps cv _ _ h.length p2 h.first h.last
  have hlen' := spectrum_length Ps' cv' _ _ h'.length q2 h'.first h'.last
  rw [List.forall₂_iff_get]
  refine ⟨by omega, fun i hi hi' => ?_⟩
  simp only [List.get_eq_getElem]
  set a := (spectrum Ps cv)[i] with ha
  set b := (spectrum Ps' cv')[i] with hb
  by_contra hcon
  rw [not_le] at hcon
  obtain ⟨γ', g1, g2⟩ := exists_between hcon
  have m1 := p1 _ (clustersAt_mem h.length a)
  have m2 := q1 _ (clustersAt_mem h'.length γ')
  have h3 := Refines.card_le m2 m1 (approx_clusters_refine hl hl' hE' hW hW' h h' g1)
  have c1 := card_clustersAt a Ps cv _ h.length p2 h.nondecreasing h.first
  have c2 := card_clustersAt γ' Ps' cv' _ h'.length q2 h'.nondecreasing h'.first
  have c3 := (countP_sorted (γ := a) (spectrum_sorted _ _ h.nondecreasing) i a (List.getElem?_eq_getElem hi)).2 le_rfl
  rw [Finset.card_singleton] at c1 c2
  have c4 := (countP_sorted (γ := γ') (spectrum_sorted _ _ h'.nondecreasing) i b (List.getElem?_eq_getElem hi')).1
    (by omega)
  linarith

theorem IsWeakPrincipalSequence.approx (h : IsWeakPrincipalSequence E V Ps cv) : IsApproximateSequence E V 0 Ps cv :=
  ⟨h.length, h.first, h.last, h.refine, h.nondecreasing, fun i P lam hi h1 h2 =>
    ⟨(h.optimal i P lam hi h1 h2).1, fun R hR => by rw [add_zero]; exact (h.optimal i P lam hi h1 h2).2 R hR⟩⟩

/-! ### heavier graphs -/

theorem spectrum_mono {n : ℕ} (hl : ∀ e ∈ E, e.src ≠ e.dst) (hl' : ∀ e ∈ E', e.src ≠ e.dst) (hE : NonnegE E)
    (hE' : NonnegE E') (hW : Within E (Finset.range n)) (hW' : Within E' (Finset.range n)) (hn : 0 < n)
    (h : IsWeakPrincipalSequence E (Finset.range n) Ps cv) (h' : IsWeakPrincipalSequence E' (Finset.range n) Ps' cv')
    (hw : ∀ u < n, ∀ v < n, u ≠ v → between E u v ≤ between E' u v) :
    List.Forall₂ (· ≤ ·) (spectrum Ps cv) (spectrum Ps' cv') := by
  have hV : (Finset.range n).Nonempty := ⟨0, Finset.mem_range.2 hn⟩
  obtain ⟨p2, -, p1⟩ := weak_counts h hV
  obtain ⟨q2, -, q1⟩ := weak_counts h' hV
  have hlen := spectrum_length Ps cv _ _ h.length p2 h.first h.last
  have hlen' := spectrum_length Ps' cv' _ _ h'.length q2 h'.first h'.last
  refine sorted_le_of_counts (spectrum_sorted _ _ h.nondecreasing) (spectrum_sorted _ _ h'.nondecreasing) (by omega)
    fun γ => ?_
  have c1 := card_clustersAt γ Ps cv _ h.length p2 h.nondecreasing h.first
  have c2 := card_clustersAt γ Ps' cv' _ h'.length q2 h'.nondecreasing h'.first
  have m1 := p1 _ (clustersAt_mem h.length γ)
  have m2 := q1 _ (clustersAt_mem h'.length γ)
  have := Refines.card_le m1 m2 (refines_of_same m1 m2 fun u v huv =>
    clusters_embed (φ := id) hl hl' hE hE' hW hW' h h' ⟨fun u hu => hu, fun u _ v _ h => h⟩ hw huv)
  rw [Finset.card_singleton] at c1 c2
  omega

/-! ### the lighter of two graphs -/

/-- Between any two nodes the smaller of the two weights. -/
def meetArcs (n : ℕ) (E E' : List Arc) : List Arc :=
  (List.range n).flatMap fun v => (List.range v).map fun u => ⟨u, v, min (between E u v) (between E' u v)⟩

theorem mem_meetArcs {n : ℕ} {e : Arc} : e ∈ meetArcs n E E' ↔
    e.src < e.dst ∧ e.dst < n ∧ e.cap = min (between E e.src e.dst) (between E' e.src e.dst) := by
  obtain ⟨a, b, c⟩ := e
  simp only [meetArcs, List.mem_flatMap, List.mem_map, List.mem_range, Arc.mk.injEq]
  constructor
  · rintro ⟨v, hv, u, hu, rfl, rfl, rfl⟩
    exact ⟨hu, hv, rfl⟩
  · rintro ⟨h1, h2, h3⟩
    exact ⟨b, h2, a, h1, rfl, rfl, h3.symm⟩

theorem between_zero {u v : ℕ} (h : ∀ e ∈ E, ¬ ((e.src = u ∧ e.dst = v) ∨ (e.src = v ∧ e.dst = u))) :
    between E u v = 0 := by
  refine List.sum_eq_zero fun x hx => ?_
  obtain ⟨e, he, rfl⟩ := List.mem_map.1 hx
  rw [if_neg (h e he)]

theorem between_of_mem (hs : E.Pairwise fun a b => ¬ (a.src = b.src ∧ a.dst = b.dst)) (hl : ∀ e ∈ E, e.src < e.dst)
    {e : Arc} (he : e ∈ E) : between E e.src e.dst = e.cap := by
  induction E with
  | nil => simp at he
  | cons a E ih =>
    rw [List.pairwise_cons] at hs
    have h1 : between (a :: E) e.src e.dst =
        (if (a.src = e.src ∧ a.dst = e.dst) ∨ (a.src = e.dst ∧ a.dst = e.src) then a.cap else 0) +
          between E e.src e.dst := by simp [between]
    have h2 := hl a (by simp)
    have h3 := hl e he
    rcases List.mem_cons.1 he with rfl | he
    · rw [h1, if_pos (Or.inl ⟨rfl, rfl⟩), between_zero, add_zero]
      intro b hb
      have h4 := hl b (by simp [hb])
      rintro (h | h)
      · exact hs.1 b hb ⟨h.1.symm, h.2.symm⟩
      · omega
    · rw [h1, if_neg, zero_add, ih hs.2 (fun e he => hl e (by simp [he])) he]
      rintro (h | h)
      · exact hs.1 e he h
      · omega

theorem meetArcs_valid {n : ℕ} (hE : NonnegE E) (hE' : NonnegE E') : ValidInput n (meetArcs n E E') where
  lowHigh e he := ⟨(mem_meetArcs.1 he).1, (mem_meetArcs.1 he).2.1⟩
  simple := by
    unfold meetArcs
    rw [List.pairwise_flatMap]
    refine ⟨fun v _ => ?_, ?_⟩
    · rw [List.pairwise_map]
      exact (List.nodup_range (n := v)).imp fun h h' => h h'.1
    · refine (List.nodup_range (n := n)).imp fun h x hx y hy h' => ?_
      obtain ⟨u, -, rfl⟩ := List.mem_map.1 hx
      obtain ⟨u', -, rfl⟩ := List.mem_map.1 hy
      exact h h'.2
  nonneg e he := by
    rw [(mem_meetArcs.1 he).2.2]
    exact le_min (between_nonneg hE _ _) (between_nonneg hE' _ _)

theorem between_meetArcs {n : ℕ} (hE : NonnegE E) (hE' : NonnegE E') {u v : ℕ} (hu : u < n) (hv : v < n) (huv : u ≠ v) :
    between (meetArcs n E E') u v = min (between E u v) (between E' u v) := by
  have hval := meetArcs_valid (n := n) hE hE'
  have key : ∀ {u v : ℕ}, u < v → v < n → between (meetArcs n E E') u v = min (between E u v) (between E' u v) := by
    intro u v huv hv
    exact between_of_mem hval.simple (fun e he => (hval.lowHigh e he).1)
      (e := ⟨u, v, min (between E u v) (between E' u v)⟩) (mem_meetArcs.2 ⟨huv, hv, rfl⟩)
  rcases lt_or_gt_of_ne huv with h | h
  · exact key h hv
  · rw [between_comm, between_comm E, between_comm E']
    exact key h hu

theorem totalWeight_pairs {n : ℕ} (hl : ∀ e ∈ E, e.src ≠ e.dst) (hW : Within E (Finset.range n)) :
    totalWeight E = ∑ p ∈ (Finset.range n ×ˢ Finset.range n).filter fun p => p.1 < p.2, between E p.1 p.2 := by
  have h1 := sum_between hl (Finset.range n) (fun _ _ => True) (fun _ _ h => h)
  simp only [if_true, and_true] at h1
  rw [sum_offDiag_pairs n (between E) (between_comm E)] at h1
  have h2 : (E.map fun e => if e.src ∈ Finset.range n ∧ e.dst ∈ Finset.range n then e.cap else 0).sum =
      totalWeight E := by
    unfold totalWeight
    congr 1
    exact List.map_congr_left fun e he => by rw [if_pos (hW e he)]
  rw [h2] at h1
  linarith

/-- The sum of the changes of the critical values. -/
theorem spectrum_stable {n : ℕ} (hl : ∀ e ∈ E, e.src ≠ e.dst) (hl' : ∀ e ∈ E', e.src ≠ e.dst) (hE : NonnegE E)
    (hE' : NonnegE E') (hW : Within E (Finset.range n)) (hW' : Within E' (Finset.range n)) (hn : 0 < n)
    {Ps0 : List (Finset (Finset ℕ))} {cv0 : List ℚ}
    (h0 : IsWeakPrincipalSequence (meetArcs n E E') (Finset.range n) Ps0 cv0)
    (h : IsWeakPrincipalSequence E (Finset.range n) Ps cv) (h' : IsWeakPrincipalSequence E' (Finset.range n) Ps' cv') :
    (List.zipWith (fun a b => |a - b|) (spectrum Ps cv) (spectrum Ps' cv')).sum ≤ weightDistance n E E' := by
  have hv := meetArcs_valid (n := n) hE hE'
  have hl0 : ∀ e ∈ meetArcs n E E', e.src ≠ e.dst := fun e he => (hv.lowHigh e he).1.ne
  have hW0 : Within (meetArcs n E E') (Finset.range n) := fun e he => by
    have := hv.lowHigh e he
    exact ⟨Finset.mem_range.2 (by omega), Finset.mem_range.2 this.2⟩
  have m1 := spectrum_mono hl0 hl hv.nonneg hE hW0 hW hn h0 h fun u hu v hv huv => by
    rw [between_meetArcs hE hE' hu hv huv]; exact min_le_left _ _
  have m2 := spectrum_mono hl0 hl' hv.nonneg hE' hW0 hW' hn h0 h' fun u hu v hv huv => by
    rw [between_meetArcs hE hE' hu hv huv]; exact min_le_right _ _
  have hV : (Finset.range n).Nonempty := ⟨0, Finset.mem_range.2 hn⟩
  have s0 := (spectrum_sum Ps0 cv0 (weak_counts h0 hV).1).trans (weak_total h0 hW0 hl0)
  have s1 := (spectrum_sum Ps cv (weak_counts h hV).1).trans (weak_total h hW hl)
  have s2 := (spectrum_sum Ps' cv' (weak_counts h' hV).1).trans (weak_total h' hW' hl')
  have key : ∀ a b c : List ℚ, List.Forall₂ (· ≤ ·) a b → List.Forall₂ (· ≤ ·) a c →
      (List.zipWith (fun x y => |x - y|) b c).sum ≤ b.sum + c.sum - 2 * a.sum := by
    intro a b c hab
    induction hab generalizing c with
    | nil => intro hac; cases hac; simp
    | cons h1 h2 ih =>
      rename_i x y a b
      intro hac
      cases hac with
      | cons h3 h4 =>
        rename_i z c
        have := ih c h4
        simp only [List.zipWith_cons_cons, List.sum_cons]
        have : |y - z| ≤ y + z - 2 * x := abs_le.2 ⟨by linarith, by linarith⟩
        linarith
  refine (key _ _ _ m1 m2).trans ?_
  rw [s0, s1, s2, totalWeight_pairs hl hW, totalWeight_pairs hl' hW', totalWeight_pairs hl0 hW0, weightDistance,
    Finset.mul_sum, ← Finset.sum_add_distrib, ← Finset.sum_sub_distrib]
  refine (Finset.sum_le_sum fun p hp => ?_)
  obtain ⟨p1, p2⟩ := Finset.mem_filter.1 hp
  obtain ⟨p3, p4⟩ := Finset.mem_product.1 p1
  rw [between_meetArcs hE hE' (Finset.mem_range.1 p3) (Finset.mem_range.1 p4) p2.ne]
  rcases le_total (between E p.1 p.2) (between E' p.1 p.2) with h | h
  · rw [min_eq_left h, abs_of_nonpos (by linarith)]; linarith
  · rw [min_eq_right h, abs_of_nonneg (by linarith)]; linarith

end PSP.Theory
