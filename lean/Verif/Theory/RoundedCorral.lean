import Verif.Theory.IntegerValues

/-!
# `min_norm_base` in floating-point arithmetic with a precise linear solver
-/

namespace PSP.Theory

open PSP.Model PSP.Spec

/-- For vectors of integers up to `W`: when all the weights that the code computes for a corral are above the precision, the
point computed from them is within `ρ` of the projection of the origin to the affine hull. -/
def PreciseFor (fl : ℚ → ℚ) (N : NumericsF) (eps ρ W : ℚ) (n : ℕ) : Prop :=
  ∀ Q : List (List ℚ), Q ≠ [] → (∀ q ∈ Q, IntVec n W q) → Q.length ≤ n + 1 →
    N.dot (List.replicate Q.length 1) (N.solve Q) ≠ 0 →
    (∀ a ∈ N.solve Q, eps < fl (a / N.dot (List.replicate Q.length 1) (N.solve Q))) →
    ∀ v, Proj n Q v → ∀ i < n,
      |(N.comb n Q ((N.solve Q).map fun a => fl (a / N.dot (List.replicate Q.length 1) (N.solve Q)))).getD i 0 -
        (combine n Q v).getD i 0| ≤ ρ

section proj

variable {n : ℕ} {Q : List (List ℚ)}

theorem exists_proj (hQ : Q ≠ []) (hlen : ∀ q ∈ Q, q.length = n) : ∃ v, Proj n Q v := by
  obtain ⟨r, hr⟩ := exists_solves Q hlen
  exact ⟨_, hr.proj hQ hlen⟩

/-- The point does not depend on the coordinates. -/
theorem Proj.unique {v v' : List ℚ} (h : Proj n Q v) (h' : Proj n Q v') (hlen : ∀ q ∈ Q, q.length = n) {i : ℕ}
    (hi : i < n) : (combine n Q v).getD i 0 = (combine n Q v').getD i 0 := by
  have h1 := h.dot_eq hlen h'.length h'.sum
  have h2 := h'.dot_eq hlen h.length h.sum
  have h3 := dot_sub_sq (combine_length n Q v) (combine_length n Q v')
  rw [dot_comm (combine n Q v') (combine n Q v)] at h1
  have h4 : ∑ i ∈ Finset.range n, ((combine n Q v).getD i 0 - (combine n Q v').getD i 0) ^ 2 = 0 := by
    rw [← h3]; linarith
  have h5 := (Finset.sum_eq_zero_iff_of_nonneg fun i _ => sq_nonneg _).1 h4 i (Finset.mem_range.2 hi)
  exact sub_eq_zero.1 (pow_eq_zero_iff two_ne_zero |>.1 h5)

theorem proj_single {q : List ℚ} (hq : q.length = n) : Proj n [q] [1] ∧ ∀ i < n, (combine n [q] [1]).getD i 0 = q.getD i 0 := by
  have e : ∀ i < n, (combine n [q] [1]).getD i 0 = q.getD i 0 := fun i hi => by
    rw [combine_getD _ _ hi]; simp
  refine ⟨⟨rfl, by simp, fun p hp => ?_⟩, e⟩
  rw [List.mem_singleton.1 hp, dot_eq _ _ n (combine_length _ _ _) hq,
    dot_eq _ _ n (combine_length _ _ _) (combine_length _ _ _)]
  exact Finset.sum_congr rfl fun i hi => by rw [e i (Finset.mem_range.1 hi)]

end proj

variable {fl : ℚ → ℚ} {N : NumericsF} {n : ℕ} {eps ρ W : ℚ}

/-- How the minor cycles end. -/
theorem minorCyclesF_corral (hs : ∀ Q, (N.solve Q).length = Q.length) (hnil : N.comb n [] [] = List.replicate n 0) :
    ∀ (k : ℕ) (Q : List (List ℚ)) (w : List ℚ) {Q' : List (List ℚ)} {w' x' : List ℚ},
    minorCyclesF fl N n eps k Q w = .ok (Q', w', x') → (∀ q ∈ Q', q ∈ Q) ∧ Q'.length ≤ Q.length ∧
      (Q' = [] ∧ x' = List.replicate n 0 ∨ Q' ≠ [] ∧
        N.dot (List.replicate Q'.length 1) (N.solve Q') ≠ 0 ∧
        (∀ a ∈ N.solve Q', eps < fl (a / N.dot (List.replicate Q'.length 1) (N.solve Q'))) ∧
        x' = N.comb n Q' ((N.solve Q').map fun a => fl (a / N.dot (List.replicate Q'.length 1) (N.solve Q')))) := by
  intro k
  induction k with
  | zero => intro Q w Q' w' x' h; simp [minorCyclesF] at h
  | succ k ih =>
    intro Q w Q' w' x' h
    unfold minorCyclesF at h
    dsimp only at h
    split at h
    · cases h
    · rename_i h0
      split at h
      · rename_i hv
        cases h
        refine ⟨fun q hq => hq, le_rfl, ?_⟩
        by_cases hQ : Q = []
        · left
          subst hQ
          have : N.solve [] = [] := List.length_eq_zero_iff.1 (hs [])
          rw [this, List.map_nil]
          exact ⟨rfl, hnil⟩
        · right
          refine ⟨hQ, fun e => h0 ⟨hQ, e⟩, fun a ha => ?_, rfl⟩
          by_contra hn
          exact hv ⟨_, List.mem_map_of_mem ha, not_lt.1 hn⟩
      · split at h
        · cases h
        · obtain ⟨h1, h2, h3⟩ := ih _ _ h
          refine ⟨fun q hq => ?_, h2.trans ?_, h3⟩
          · obtain ⟨p, hp, rfl⟩ := List.mem_map.1 (h1 q hq)
            exact (List.of_mem_zip (List.mem_filter.1 hp).1).1
          · rw [List.length_map]
            refine (List.length_filter_le _ _).trans ?_
            rw [List.length_zip]
            exact min_le_left _ _

/-- The point of an empty corral, or near the projection for a corral of points of `G`. -/
def NearCorral (n : ℕ) (G : Finset (List ℚ)) (ρ : ℚ) (x : List ℚ) : Prop :=
  x.length = n ∧ (x = List.replicate n 0 ∨ ∃ Q v, Q ≠ [] ∧ (∀ q ∈ Q, q ∈ G) ∧ Q.length ≤ n + 1 ∧ Proj n Q v ∧
    ∀ i < n, |x.getD i 0 - (combine n Q v).getD i 0| ≤ ρ)

variable {f : SF} {φ : Finset ℕ → ℚ} {B M tol : ℚ}

theorem majorCyclesF_corral (hfl : ExactInts fl B) (hMB : M ≤ B) (hMW : M ≤ W) (hf : Computes f φ)
    (hi : ∀ S, Integral (φ S)) (hφ : Submodular (Finset.range f.size) φ)
    (hM : ∀ S T, S ⊆ Finset.range f.size → T ⊆ Finset.range f.size → |φ S - φ T| ≤ M)
    (hs : ∀ Q, (N.solve Q).length = Q.length) (hnil : N.comb f.size [] [] = List.replicate f.size 0)
    (hcl : ∀ Q w, (N.comb f.size Q w).length = f.size)
    (hsort : ∀ x : List ℚ, x.length = f.size → AscendingIndexes x (N.sort x))
    (hp : PreciseFor fl N eps ρ W f.size) :
    ∀ (k : ℕ) (Q : List (List ℚ)) (w x : List ℚ) (prev : Option ℚ) (stuck : ℕ) {x' : List ℚ} {b : Bool},
    (∀ q ∈ Q, q ∈ greedyPoints (pureSF f.size φ)) → NearCorral f.size (greedyPoints (pureSF f.size φ)) ρ x →
    majorCyclesF fl N f tol eps k Q w x prev stuck = .ok (x', b) →
    NearCorral f.size (greedyPoints (pureSF f.size φ)) ρ x' := by
  intro k
  induction k with
  | zero => intro Q w x prev stuck x' b _ _ h; simp [majorCyclesF] at h
  | succ k ih =>
    intro Q w x prev stuck x' b hQ hx h
    have hq := edmondsGreedyF_exact hfl hMB hf hi hM hx.1 (hsort x hx.1)
    have hqm : greedyPoint (pureSF f.size φ) (N.sort x) ∈ greedyPoints (pureSF f.size φ) :=
      greedyPoint_mem (f := pureSF f.size φ) hx.1 (hsort x hx.1)
    generalize greedyPoint (pureSF f.size φ) (N.sort x) = q at hq hqm
    unfold majorCyclesF at h
    rw [hq, Outcome.ok_bind] at h
    dsimp only at h
    generalize (if isStuck prev |fl (N.dot x q - N.dot x x)| then stuck + 1 else 0) = st at h
    split at h
    · cases h
      exact hx
    · split at h
      · cases h
        exact hx
      · split at h
        · cases h
        · rename_i hn
          split at h
          · cases h
          · obtain ⟨⟨Q', w', x1⟩, hm, h⟩ := Outcome.bind_eq_ok h
            have hQ1 : ∀ p ∈ Q ++ [q], p ∈ greedyPoints (pureSF f.size φ) := by
              intro p hp
              rcases List.mem_append.1 hp with hp | hp
              · exact hQ p hp
              · rw [List.mem_singleton.1 hp]
                exact hqm
            obtain ⟨h1, h2, h3⟩ := minorCyclesF_corral hs hnil _ _ _ hm
            have hQ' : ∀ p ∈ Q', p ∈ greedyPoints (pureSF f.size φ) := fun p hp => hQ1 p (h1 p hp)
            have hint : ∀ p ∈ Q', IntVec f.size W p := fun p hp => by
              have := greedyPoints_int hi hφ hM (hQ' p hp)
              exact ⟨this.1, fun i hi => ⟨(this.2 i hi).1, (this.2 i hi).2.trans hMW⟩⟩
            have hl : Q'.length ≤ f.size + 1 := by
              rw [List.length_append, List.length_singleton] at h2
              omega
            refine ih _ _ _ _ _ hQ' ?_ h
            rcases h3 with ⟨-, rfl⟩ | ⟨k1, k2, k3, rfl⟩
            · exact ⟨by simp, .inl rfl⟩
            · obtain ⟨v, hv⟩ := exists_proj k1 fun p hp => (hint p hp).1
              exact ⟨hcl _ _, .inr ⟨Q', v, k1, hQ', hl, hv, hp Q' k1 hint hl k2 k3 v hv⟩⟩

theorem minNormBaseF_corral {fuel : ℕ} (hfl : ExactInts fl B) (hMB : M ≤ B) (hMW : M ≤ W) (hf : Computes f φ)
    (hi : ∀ S, Integral (φ S)) (hφ : Submodular (Finset.range f.size) φ)
    (hM : ∀ S T, S ⊆ Finset.range f.size → T ⊆ Finset.range f.size → |φ S - φ T| ≤ M)
    (hs : ∀ Q, (N.solve Q).length = Q.length) (hnil : N.comb f.size [] [] = List.replicate f.size 0)
    (hcl : ∀ Q w, (N.comb f.size Q w).length = f.size)
    (hsort : ∀ x : List ℚ, x.length = f.size → AscendingIndexes x (N.sort x))
    (hp : PreciseFor fl N eps ρ W f.size) (hρ : 0 ≤ ρ) (hn : 2 ≤ f.size) {x : List ℚ} {b : Bool}
    (h : minNormBaseF fl N f tol eps fuel = .ok (x, b)) :
    NearCorral f.size (greedyPoints (pureSF f.size φ)) ρ x := by
  unfold minNormBaseF at h
  rw [if_neg (by omega), if_neg (by omega)] at h
  dsimp only at h
  have hl : (List.replicate f.size (1 : ℚ)).length = f.size := by simp
  have hq := edmondsGreedyF_exact hfl hMB hf hi hM hl (hsort _ hl)
  have hqm : greedyPoint (pureSF f.size φ) (N.sort (List.replicate f.size 1)) ∈ greedyPoints (pureSF f.size φ) :=
    greedyPoint_mem (f := pureSF f.size φ) hl (hsort _ hl)
  rw [hq, Outcome.ok_bind] at h
  generalize greedyPoint (pureSF f.size φ) (N.sort (List.replicate f.size 1)) = q at h hqm
  have hql : q.length = f.size := (greedyPoints_spec (pureSF_computes _ _) hφ hqm).1
  refine majorCyclesF_corral hfl hMB hMW hf hi hφ hM hs hnil hcl hsort hp _ _ _ _ _ _ ?_ ?_ h
  · intro p hp
    rw [List.mem_singleton.1 hp]
    exact hqm
  · obtain ⟨h1, h2⟩ := proj_single hql
    refine ⟨hql, .inr ⟨[q], [1], by simp, fun p hp => by rw [List.mem_singleton.1 hp]; exact hqm, by simp, h1, ?_⟩⟩
    intro i hi
    rw [h2 i hi, sub_self, abs_zero]
    exact hρ

/-- Points of corrals other than the minimum norm base keep a distance. -/
theorem corral_gap (n : ℕ) (φ : Finset ℕ → ℚ) (hφ : Submodular (Finset.range n) φ) : ∃ e : ℚ, 0 < e ∧
    ∀ Q v y, Q ≠ [] → (∀ q ∈ Q, q ∈ greedyPoints (pureSF n φ)) → Q.length ≤ n + 1 → Proj n Q v →
      IsMinNorm (Finset.range n) φ y → ∑ i ∈ Finset.range n, ((combine n Q v).getD i 0 - y i) ^ 2 ≤ e →
      ∀ i < n, (combine n Q v).getD i 0 = y i := by
  obtain ⟨N', hN', -⟩ := exists_exact
  obtain ⟨y0, hy0⟩ := exists_minNorm hφ
  obtain ⟨e, he, hbelow⟩ := exists_below (((listsOf (greedyPoints (pureSF n φ)) (n + 1)).image (pointOf N' n)).image
    fun z => ∑ i ∈ Finset.range n, (z.getD i 0 - y0 i) ^ 2)
  refine ⟨e, he, fun Q v y hQ hmem hl hv hy hle => ?_⟩
  have hlen : ∀ q ∈ Q, q.length = n := fun q hq => (greedyPoints_spec (pureSF_computes n φ) hφ (hmem q hq)).1
  have hproj : Proj n Q (vOf N' Q) := ((hN' n).solve Q hQ hlen).proj hQ hlen
  have hyy : ∀ i ∈ Finset.range n, y0 i = y i := by
    have := near_dist hy0.1 (tol := 0) (fun z hz => by rw [add_zero]; exact hy0.2 z hz) hy
    have h0 := (Finset.sum_eq_zero_iff_of_nonneg fun i _ => sq_nonneg (y0 i - y i)).1
      (le_antisymm this (Finset.sum_nonneg fun i _ => sq_nonneg _))
    exact fun i hi => sub_eq_zero.1 (pow_eq_zero_iff two_ne_zero |>.1 (h0 i hi))
  have e1 : ∑ i ∈ Finset.range n, ((combine n Q v).getD i 0 - y i) ^ 2 =
      ∑ i ∈ Finset.range n, ((pointOf N' n Q).getD i 0 - y0 i) ^ 2 := by
    refine Finset.sum_congr rfl fun i hi => ?_
    rw [hv.unique hproj hlen (Finset.mem_range.1 hi), hyy i hi]
    rfl
  have h0 : ∑ i ∈ Finset.range n, ((combine n Q v).getD i 0 - y i) ^ 2 = 0 := by
    by_contra hne
    have hpos := lt_of_le_of_ne (Finset.sum_nonneg fun i _ => sq_nonneg ((combine n Q v).getD i 0 - y i)) (Ne.symm hne)
    have := hbelow _ (Finset.mem_image.2 ⟨pointOf N' n Q, Finset.mem_image.2 ⟨Q, mem_listsOf hmem hl, rfl⟩, rfl⟩)
      (e1 ▸ hpos)
    rw [← e1] at this
    linarith
  intro i hi
  have := (Finset.sum_eq_zero_iff_of_nonneg fun i _ => sq_nonneg ((combine n Q v).getD i 0 - y i)).1 h0 i
    (Finset.mem_range.2 hi)
  exact sub_eq_zero.1 (pow_eq_zero_iff two_ne_zero |>.1 this)

/-- A certified point near the point of a corral is near the minimum norm base. -/
theorem near_of_corral {e D : ℚ} {x : List ℚ} {y : ℕ → ℚ} (hρ : 0 ≤ ρ)
    (hgap : ∀ Q v y, Q ≠ [] → (∀ q ∈ Q, q ∈ greedyPoints (pureSF n φ)) → Q.length ≤ n + 1 → Proj n Q v →
      IsMinNorm (Finset.range n) φ y → ∑ i ∈ Finset.range n, ((combine n Q v).getD i 0 - y i) ^ 2 ≤ e →
      ∀ i < n, (combine n Q v).getD i 0 = y i)
    (hx : NearCorral n (greedyPoints (pureSF n φ)) ρ x) (hne : x ≠ List.replicate n 0)
    (hy : IsMinNorm (Finset.range n) φ y) (hD : ∑ i ∈ Finset.range n, (x.getD i 0 - y i) ^ 2 ≤ D)
    (he : 2 * D + 2 * n * ρ ^ 2 ≤ e) : ∀ i < n, |x.getD i 0 - y i| ≤ ρ := by
  obtain ⟨-, h | ⟨Q, v, h1, h2, h3, h4, h5⟩⟩ := hx
  · exact absurd h hne
  have key := hgap Q v y h1 h2 h3 h4 hy (by
    refine le_trans ?_ he
    have h6 : ∑ i ∈ Finset.range n, ((combine n Q v).getD i 0 - y i) ^ 2 ≤
        ∑ i ∈ Finset.range n, (2 * (x.getD i 0 - y i) ^ 2 + 2 * ρ ^ 2) := by
      refine Finset.sum_le_sum fun i hi => ?_
      have h7 := h5 i (Finset.mem_range.1 hi)
      have h8 : (x.getD i 0 - (combine n Q v).getD i 0) ^ 2 ≤ ρ ^ 2 := sq_le_sq' (abs_le.1 h7).1 (abs_le.1 h7).2
      nlinarith [sq_nonneg (x.getD i 0 - y i + (x.getD i 0 - (combine n Q v).getD i 0))]
    refine h6.trans ?_
    rw [Finset.sum_add_distrib, ← Finset.mul_sum, Finset.sum_const, Finset.card_range, nsmul_eq_mul]
    linarith)
  intro i hi
  rw [← key i hi]
  exact h5 i hi

end PSP.Theory
