import Verif.Theory.RoundedCorral

/-!
# All rounds of `agg_psp` in floating-point arithmetic, for integral weights and a precise linear solver
-/

namespace PSP.Theory

open PSP.Model PSP.Spec

theorem agglomerateF_with (fl : ℚ → ℚ) (mnb : SF → Outcome (List ℚ)) (f : SF) (tol : ℚ) (h : HC) :
    agglomerateF fl mnb f tol h = agglomerateWith mnb (sfContractF fl f) (fun g => fl (-g + tol)) h := rfl

theorem aggLoopF_with (fl : ℚ → ℚ) (mnb : SF → Outcome (List ℚ)) (f : SF) (tol : ℚ) : ∀ (k : ℕ) (h : HC)
    (ps : List Partition) (cv : List ℚ), aggLoopF fl mnb f tol k h ps cv =
      loopWith (agglomerateWith mnb (sfContractF fl f) fun g => fl (-g + tol)) k h ps cv := by
  intro k
  induction k with
  | zero => intros; rfl
  | succ k ih =>
    intro h ps cv
    simp only [aggLoopF, loopWith, ih, agglomerateF_with]
    rfl

/-- For the functions of the round with clusters `L`: the projection of the origin to the affine hull of some results of
`edmonds_greedy` is the minimum norm base, or its squared distance to the minimum norm base is above `e`. -/
def CorralGap (E : List Arc) (L : List (List ℕ)) (e : ℚ) : Prop :=
  ∀ j, 2 ≤ j → j < L.length → ∀ Q v y, Q ≠ [] →
    (∀ q ∈ Q, q ∈ greedyPoints (pureSF j (joinFn (incident E) (blockAt L) j))) → Q.length ≤ j + 1 → Proj j Q v →
    IsMinNorm (Finset.range j) (joinFn (incident E) (blockAt L) j) y →
    ∑ i ∈ Finset.range j, ((combine j Q v).getD i 0 - y i) ^ 2 ≤ e → ∀ i < j, (combine j Q v).getD i 0 = y i

theorem exists_corralGap {E : List Arc} (h0 : NonnegE E) (n : ℕ) : ∃ e, 0 < e ∧ ∀ R L, IsClustering n R L → CorralGap E L e := by
  have key : ∀ S : Finset (List (List ℕ) × ℕ), ∃ e : ℚ, 0 < e ∧ ∀ p ∈ S, ∀ R, IsClustering n R p.1 → p.2 < p.1.length →
      ∀ Q v y, Q ≠ [] → (∀ q ∈ Q, q ∈ greedyPoints (pureSF p.2 (joinFn (incident E) (blockAt p.1) p.2))) →
      Q.length ≤ p.2 + 1 → Proj p.2 Q v → IsMinNorm (Finset.range p.2) (joinFn (incident E) (blockAt p.1) p.2) y →
      ∑ i ∈ Finset.range p.2, ((combine p.2 Q v).getD i 0 - y i) ^ 2 ≤ e →
      ∀ i < p.2, (combine p.2 Q v).getD i 0 = y i := by
    intro S
    induction S using Finset.induction_on with
    | empty => exact ⟨1, by norm_num, by simp⟩
    | insert a S _ ih =>
      obtain ⟨e, he, h⟩ := ih
      by_cases hsub : Submodular (Finset.range a.2) (joinFn (incident E) (blockAt a.1) a.2)
      · obtain ⟨e', he', h'⟩ := corral_gap a.2 (joinFn (incident E) (blockAt a.1) a.2) hsub
        refine ⟨min e e', lt_min he he', fun p hp R hR hl Q v y h1 h2 h3 h4 h5 h6 => ?_⟩
        rcases Finset.mem_insert.1 hp with rfl | hp
        · exact h' Q v y h1 h2 h3 h4 h5 (h6.trans (min_le_right _ _))
        · exact h p hp R hR hl Q v y h1 h2 h3 h4 h5 (h6.trans (min_le_left _ _))
      · refine ⟨e, he, fun p hp R hR hl => ?_⟩
        rcases Finset.mem_insert.1 hp with rfl | hp
        · exact absurd ((clustering_blocks hR).joinFn_submodular (incident_intersecting h0 _) hl) hsub
        · exact h p hp R hR hl
  obtain ⟨e, he, h⟩ := key ((listsOf (listsOf (Finset.range n) n) n) ×ˢ Finset.range n)
  refine ⟨e, he, fun R L hL j _ hj => h (L, j) ?_ R hL hj⟩
  refine Finset.mem_product.2 ⟨clustering_mem hL, Finset.mem_range.2 ?_⟩
  have := clustering_length_le hL
  simp only
  omega

variable {fl : ℚ → ℚ} {N : NumericsF} {E : List Arc} {n p : ℕ} {ai ao : List Arc → List Arc} {c R W eps tol ρ e : ℚ}

/-- The point of one call of `min_norm_base`. -/
theorem call_near {fuel : ℕ} (hfl : FloatingPoint p fl) (hai : ∀ l, (ai l).Perm l) (hao : ∀ l, (ao l).Perm l)
    (hE : ∀ a ∈ E, a.src < a.dst) (h0 : NonnegE E) (hint : ∀ a ∈ E, Integral a.cap)
    (hW : (E.map Arc.cap).sum ≤ W) (hWp : 2 * W ≤ 2 ^ p) (hW4 : 8 * W ≤ 4 ^ p / 2)
    (hN : CloseUpTo fl N c R W eps tol n) (hc : c = 4 * (E.length + n + 2) * (2 ^ p)⁻¹) (hc1 : c ≤ 1 / 64)
    (htol : 0 ≤ tol) (hρ : 0 ≤ ρ) (hprec : ∀ j ≤ n, PreciseFor fl N eps ρ W j) (he : 2 * ((1 + 8 * c) * tol + 90 * n * c * W ^ 2) + 2 * n * ρ ^ 2 ≤ e)
    {rel : ℕ → ℕ → Prop} {L : List (List ℕ)} (hL : IsClustering n rel L) (hgap : CorralGap E L e) {j : ℕ} (hj1 : 1 ≤ j) (hj : j < L.length)
    {x : List ℚ} (hx : minNormBaseF fl N (sfJoin (sfContractF fl (digraphEntropyF fl ai ao ⟨List.range n, E⟩) L) j)
      tol eps fuel = .ok (x, true)) (hne : 2 ≤ j → x ≠ List.replicate j 0) {y : ℕ → ℚ}
    (hy : IsMinNorm (Finset.range j) (joinFn (incident E) (blockAt L) j) y) :
    x.length = j ∧ ∀ i < j, |x.getD i 0 - y i| ≤ ρ := by
  have hex := Rounds.exactInts (FloatingPoint.rounds hfl)
  have hcap : ∀ a ∈ E, fl a.cap = a.cap := fun a ha => hex _ (hint a ha) (by
    rw [abs_of_nonneg (h0 a ha)]
    have := List.single_le_sum (l := E.map Arc.cap) (fun b hb => by
      obtain ⟨a, ha, rfl⟩ := List.mem_map.1 hb
      exact h0 a ha) _ (List.mem_map_of_mem ha)
    have := h0 a ha
    linarith)
  obtain ⟨h1, h2⟩ := call_close (FloatingPoint.sums hfl) hai hao hE h0 hcap hL hW hW4 hN hc hc1 htol hj1 hj hx hne hy
  refine ⟨h1, ?_⟩
  have hb := clustering_blocks hL
  have hLn := clustering_length_le hL
  have hcomp := join_exact hex hai hao hE h0 hint (by linarith : 2 * (E.map Arc.cap).sum ≤ 2 ^ p) hL hj
  set F := sfJoin (sfContractF fl (digraphEntropyF fl ai ao ⟨List.range n, E⟩) L) j with hF
  have hFs : F.size = j := rfl
  rcases Nat.lt_or_ge j 2 with hj2 | hj2
  · have hj' : j = 1 := by omega
    rw [minNormBaseF_single (by rw [hFs, hj'])] at hx
    cases hx
    intro i hi
    have hi0 : i = 0 := by omega
    have k1 := hcomp [0] (by simp) (by simp [hFs, hj'])
    have k2 := hy.1.1
    rw [joinFn_empty, sub_zero] at k2
    subst hj' hi0
    simp only [Finset.range_one, Finset.sum_singleton, List.toFinset_cons, List.toFinset_nil, insert_empty_eq] at k1 k2
    rw [List.getD_cons_zero, k1, k2, sub_self, abs_zero]
    exact hρ
  · obtain ⟨g, u, d, -, hNj, -⟩ := hN.close j (hj.le.trans hLn)
    have hsub := hb.joinFn_submodular (incident_intersecting h0 (Finset.range n)) hj
    have hcor := minNormBaseF_corral (f := F) (M := W) (W := W) hex (by
        have := (incident_nonneg h0 ∅).trans (incident_le h0 ∅)
        linarith) le_rfl hcomp (fun S => joinFn_integral hint _ _ _) hsub
      (fun S T hS hT => (joinFn_range h0 hb hj S T hS hT).trans hW) hNj.solve hNj.comb_nil hNj.comb_length hNj.sort
      (hprec j (hj.le.trans hLn)) hρ hj2 hx
    refine near_of_corral hρ (hgap j hj2 hj) hcor (hne hj2) hy h2 (le_trans ?_ he)
    have hjn : (j : ℚ) ≤ n := by exact_mod_cast (hj.le.trans hLn)
    have : 2 * (j : ℚ) * ρ ^ 2 ≤ 2 * n * ρ ^ 2 := mul_le_mul_of_nonneg_right (by linarith) (sq_nonneg ρ)
    linarith

/-- All rounds. -/
theorem aggRunF_spec {fuel : ℕ} (hfl : FloatingPoint p fl) (hai : ∀ l, (ai l).Perm l) (hao : ∀ l, (ao l).Perm l)
    (hn : 0 < n) (hE : ∀ a ∈ E, a.src < a.dst ∧ a.dst < n) (h0 : NonnegE E) (hint : ∀ a ∈ E, Integral a.cap)
    (hW1 : 1 ≤ W) (hW : (E.map Arc.cap).sum ≤ W) (hWp : 2 * W ≤ 2 ^ p) (hW4 : 8 * W ≤ 4 ^ p / 2)
    (hN : CloseUpTo fl N c R W eps tol n) (hc : c = 4 * (E.length + n + 2) * (2 ^ p)⁻¹) (hc1 : c ≤ 1 / 64)
    (hρ : 0 ≤ ρ) (hprec : ∀ j ≤ n, PreciseFor fl N eps ρ W j) (hρt : 4 * ρ ≤ tol) (hct : 90 * n * c * W ^ 2 ≤ tol) (ht1 : 4 * tol * n ^ 2 ≤ 1) (hte : 6 * tol ≤ e)
    (hcert : ∀ h L, Reached (agglomerateF fl (mnbOfF fl N tol eps fuel) (digraphEntropyF fl ai ao ⟨List.range n, E⟩) tol)
        (HC.new n) h → h.getPartition ⊥ = .ok L → CorralGap E L e ∧
      AllCertified fl N (digraphEntropyF fl ai ao ⟨List.range n, E⟩) tol eps fuel L) :
    ∃ ps cv cv', aggRunF fl ai ao (mnbOfF fl N tol eps fuel) ⟨List.range n, E⟩ tol = .ok (ps, cv') ∧
      IsPrincipalSequence E (Finset.range n) ps cv ∧ List.Forall₂ (fun a b => |a - b| ≤ ρ) cv' cv := by
  have hn1 : (1 : ℚ) ≤ n := by exact_mod_cast hn
  have hn2 : (1 : ℚ) ≤ (n : ℚ) ^ 2 := one_le_pow₀ hn1
  have htol : 0 ≤ tol := by linarith
  have ht4 : 4 * tol ≤ 1 := by nlinarith
  have h2p : (0 : ℚ) < (2 ^ p)⁻¹ := by positivity
  have hm0 : (0 : ℚ) ≤ E.length := Nat.cast_nonneg _
  have hcu : 12 * (2 ^ p : ℚ)⁻¹ ≤ c := by
    rw [hc]
    exact mul_le_mul_of_nonneg_right (by linarith) h2p.le
  have hc0 : 0 ≤ c := by linarith
  have hcW : 90 * (c * W) ≤ tol := by
    have h1 : c * W ≤ c * W ^ 2 := mul_le_mul_of_nonneg_left (by nlinarith) hc0
    have h2 : c * W ^ 2 ≤ n * (c * W ^ 2) := le_mul_of_one_le_left (by positivity) hn1
    have e1 : 90 * (n : ℚ) * c * W ^ 2 = 90 * (n * (c * W ^ 2)) := by ring
    rw [e1] at hct
    linarith
  have he : 2 * ((1 + 8 * c) * tol + 90 * n * c * W ^ 2) + 2 * n * ρ ^ 2 ≤ e := by
    have h1 : 8 * c * tol ≤ 1 / 8 * tol := mul_le_mul_of_nonneg_right (by linarith) htol
    have h2 : ρ ^ 2 ≤ tol / 4 * (tol / 4) := by nlinarith
    have h3 : 2 * (n : ℚ) * ρ ^ 2 ≤ 2 * n * (tol / 4 * (tol / 4)) := mul_le_mul_of_nonneg_left h2 (by linarith)
    have h4 : (n : ℚ) * tol ≤ n ^ 2 * tol := mul_le_mul_of_nonneg_right (by nlinarith) htol
    have h5 : (n : ℚ) * tol * tol ≤ 1 / 4 * tol := mul_le_mul_of_nonneg_right (by linarith) htol
    linarith
  have hh := incident_intersecting h0 (Finset.range n)
  have htolerance : AggTolerance (incident E) n (2 * tol) ρ 1 := by
    refine ⟨fun S _ _ => ?_, hρ, by linarith, ?_⟩
    · obtain ⟨k, hk⟩ := incident_integral hint S
      exact ⟨k, by rw [hk, mul_one]⟩
    · rcases eq_or_lt_of_le htol with h | h
      · have : ρ = 0 := by linarith
        rw [← h, this]; norm_num
      · have h1 : (2 * tol + 2 * ρ) * (n : ℚ) ^ 2 ≤ 5 / 2 * tol * n ^ 2 :=
          mul_le_mul_of_nonneg_right (by linarith) (by positivity)
        have h2 : 0 < tol * (n : ℚ) ^ 2 := by positivity
        linarith
  have hbound : ∀ L rel j y i, IsClustering n rel L → i < j → j < L.length →
      IsMinNorm (Finset.range j) (joinFn (incident E) (blockAt L) j) y → |y i| ≤ W := by
    intro L rel j y i hL hi hj hy
    exact inBase_bound hy.1 (fun S T hS hT => (joinFn_range h0 (clustering_blocks hL) hj S T hS hT).trans hW) hi
  set f := digraphEntropyF fl ai ao ⟨List.range n, E⟩ with hf
  have hclose : Close (mnbOfF fl N tol eps fuel) (sfContractF fl f) (fun g => fl (-g + tol)) (incident E) n (2 * tol) ρ
      fun L => CorralGap E L e ∧ AllCertified fl N f tol eps fuel L := by
    refine ⟨fun L rel j hD hL hj1 hj => ?_, fun L rel j y i g hL hi hj hy hg => ?_⟩
    · obtain ⟨x, hx, hne⟩ := hD.2 j hj1 hj
      obtain ⟨y, hy⟩ := exists_minNorm ((clustering_blocks hL).joinFn_submodular hh hj)
      obtain ⟨h1, h2⟩ := call_near hfl hai hao (fun a ha => (hE a ha).1) h0 hint hW hWp hW4 hN hc hc1 htol hρ hprec he hL
        hD.1 hj1 hj hx hne hy
      exact ⟨x, y, bind_fst_ok hx, h1, hy, h2⟩
    · have hy' := hbound L rel j y i hL hi hj hy
      have hx : |-g + tol| ≤ W + 1 := by
        rw [abs_le] at hg hy' ⊢
        constructor <;> linarith [hg.1, hg.2, hy'.1, hy'.2]
      have hu1 : (2 ^ p : ℚ)⁻¹ ≤ 1 := by linarith
      have hr := (FloatingPoint.rounds hfl).rel' (-g + tol) (by
        have h1 : (2 ^ p : ℚ)⁻¹ * |-g + tol| ≤ 1 * |-g + tol| := mul_le_mul_of_nonneg_right hu1 (abs_nonneg _)
        linarith)
      have hmax : max |-g + tol| (2 ^ p : ℚ)⁻¹ ≤ 2 * W := max_le (by linarith) (by linarith)
      have hr2 : |fl (-g + tol) - (-g + tol)| ≤ tol / 4 := by
        refine hr.trans ((mul_le_mul_of_nonneg_left hmax h2p.le).trans ?_)
        have : 12 * (2 ^ p : ℚ)⁻¹ * W ≤ c * W := mul_le_mul_of_nonneg_right hcu (by linarith)
        linarith
      rw [abs_le] at hr2
      constructor <;> linarith [hr2.1, hr2.2]
  obtain ⟨ps, cv, cv', h1, h2, h3⟩ := runWith_spec hn hh htolerance hclose fun hc hr L hL => hcert hc L hr hL
  refine ⟨ps, cv, cv', ?_, (principalSF_iff ?_).1 h2, h3⟩
  · unfold aggRunF
    have hcount : Digraph.countNodes ⟨List.range n, E⟩ = n := by simp [Digraph.countNodes]
    rw [hcount]
    simp only [aggLoopF_with]
    exact h1
  · intro a ha
    have := hE a ha
    constructor <;> rw [Finset.mem_range] <;> omega

end PSP.Theory
