import Verif.Theory.WolfeMajor
import Verif.Theory.AICRun
import Mathlib.LinearAlgebra.Matrix.Rank

/-!
# Exact numerics exist; `min_norm_base` inside `agglomerate`
-/

namespace PSP.Theory

open PSP.Model PSP.Spec

/-! ### The linear system always has a solution -/

theorem zipWith_ofFn_sum {k : ℕ} (Q : List (List ℚ)) (hQ : Q.length = k) (g : List ℚ → ℚ → ℚ)
    (r : Fin k → ℚ) : (List.zipWith g Q (List.ofFn r)).sum =
      ∑ j : Fin k, g (Q.get (j.cast hQ.symm)) (r j) := by
  rw [← List.sum_ofFn]
  congr 1
  apply List.ext_getElem
  · simp [hQ]
  · intro i h1 h2
    simp

theorem exists_solves {n : ℕ} (Q : List (List ℚ)) (hlen : ∀ q ∈ Q, q.length = n) :
    ∃ r, Solves n Q r := by
  let B : Matrix (Option (Fin n)) (Fin Q.length) ℚ := fun a j =>
    match a with
    | none => 1
    | some i => (Q.get j).getD i 0
  have hB0 : ∀ j, B none j = 1 := fun _ => rfl
  have hB1 : ∀ i j, B (some i) j = (Q.get j).getD i 0 := fun _ _ => rfl
  clear_value B
  have hr : LinearMap.range (B.transpose * B).mulVecLin = LinearMap.range B.transpose.mulVecLin := by
    apply Submodule.eq_of_le_of_finrank_eq
    · rintro _ ⟨v, rfl⟩
      exact ⟨B.mulVec v, by simp⟩
    · have h1 : (B.transpose * B).rank = B.transpose.rank := by
        rw [Matrix.rank_transpose_mul_self, Matrix.rank_transpose]
      exact h1
  have he : (fun _ => (1 : ℚ)) ∈ LinearMap.range B.transpose.mulVecLin := by
    refine ⟨Pi.single none 1, ?_⟩
    funext j
    simp [Matrix.mulVec, dotProduct, Fintype.sum_option, hB0]
  rw [← hr] at he
  obtain ⟨r, hr⟩ := he
  refine ⟨List.ofFn r, by simp, ?_⟩
  intro q hq
  obtain ⟨j, hj, rfl⟩ := List.mem_iff_getElem.1 hq
  have h1 := congrFun hr ⟨j, hj⟩
  rw [dot_eq _ _ n (combine_length _ _ _) (hlen _ hq), List.sum_ofFn]
  rw [← h1]
  simp only [Matrix.mulVecLin_apply]
  rw [← Matrix.mulVec_mulVec]
  simp only [Matrix.mulVec, dotProduct, Matrix.transpose_apply, Fintype.sum_option, hB0, hB1]
  rw [Finset.sum_range]
  congr 1
  · simp
  · apply Finset.sum_congr rfl
    intro i _
    rw [combine_getD _ _ i.2, zipWith_ofFn_sum Q rfl]
    simp [mul_comm]

/-- A sort of the indices. -/
def sortIdx (w : List ℚ) : List ℕ := (List.range w.length).insertionSort fun a b => w.getD a 0 ≤ w.getD b 0

theorem sortIdx_spec (w : List ℚ) : AscendingIndexes w (sortIdx w) := by
  refine ⟨List.perm_insertionSort _ _, ?_⟩
  rw [List.pairwise_map]
  have : Std.Total fun a b : ℕ => w.getD a 0 ≤ w.getD b 0 := ⟨fun a b => le_total _ _⟩
  have : IsTrans ℕ fun a b => w.getD a 0 ≤ w.getD b 0 := ⟨fun a b c => le_trans⟩
  exact List.pairwise_insertionSort _ _

/-- Exact numerics exist for all sizes at once. -/
theorem exists_exact : ∃ N : Numerics, (∀ n, ExactNumerics N n) ∧ ∀ k Q, N.throws k Q = false := by
  classical
  refine ⟨⟨sortIdx, fun Q => if h : ∃ n r, Solves n Q r ∧ ∀ q ∈ Q, q.length = n then
    (Classical.choose_spec h).choose else [], fun _ _ => false⟩, fun n => ⟨fun x _ => sortIdx_spec x,
      ?_⟩, fun _ _ => rfl⟩
  intro Q hQ hlen
  obtain ⟨r, hr⟩ := exists_solves Q hlen
  have hex : ∃ n r, Solves n Q r ∧ ∀ q ∈ Q, q.length = n := ⟨n, r, hr, hlen⟩
  simp only
  rw [dif_pos hex]
  have h1 := (Classical.choose_spec hex).choose_spec
  obtain ⟨q, hq⟩ := List.exists_mem_of_ne_nil _ hQ
  have hn : Classical.choose hex = n := by rw [← h1.2 q hq, hlen q hq]
  have h2 := h1.1
  generalize hc : (Classical.choose_spec hex).choose = r' at h2
  rw [hn] at h2
  exact h2

/-! ### Accuracy -/

/-- The distance to the minimum norm base, from the optimality test. -/
theorem near_dist {V : Finset ℕ} {φ : Finset ℕ → ℚ} {x y : ℕ → ℚ} {tol : ℚ}
    (hx : InBase V φ x) (hnear : ∀ z, InBase V φ z → Spec.inner V x x ≤ Spec.inner V x z + tol)
    (hy : IsMinNorm V φ y) : ∑ i ∈ V, (x i - y i) ^ 2 ≤ tol := by
  have h1 := hnear y hy.1
  have h2 := hy.2 x hx
  have h3 : ∑ i ∈ V, (x i - y i) ^ 2 = Spec.inner V x x - 2 * Spec.inner V x y + Spec.inner V y y := by
    unfold Spec.inner
    rw [Finset.mul_sum, ← Finset.sum_sub_distrib, ← Finset.sum_add_distrib]
    exact Finset.sum_congr rfl fun i _ => by ring
  have h4 : Spec.inner V y x = Spec.inner V x y := Finset.sum_congr rfl fun i _ => mul_comm _ _
  linarith

/-- The stuck counter never ends a call of `min_norm_base` for `F`. -/
def NotStuck (N : Numerics) (F : SF) (tol eps : ℚ) (fuel : ℕ) : Prop :=
  ∀ x flag, minNormBase N F tol eps fuel = .ok (x, flag) → flag = true

theorem accurate_zero {N : Numerics} {F : SF} (hN : ExactNumerics N F.size)
    (hth : ∀ k Q, N.throws k Q = false) :
    ∃ e t0 : ℚ, ∃ K : ℕ, 0 < e ∧ 0 < t0 ∧ ∀ eps tol fuel, 0 < eps → eps ≤ e → 0 < tol → tol ≤ t0 →
      K ≤ fuel → NotStuck N F tol eps fuel → Accurate 0 F (mnbOf N tol eps fuel F) := by
  by_cases hsub : ∃ φ, Computes F φ ∧ Submodular (Finset.range F.size) φ
  swap
  · exact ⟨1, 1, 0, by norm_num, by norm_num, fun _ _ _ _ _ _ _ _ _ φ _ h1 _ h2 =>
      absurd ⟨φ, h1, h2⟩ hsub⟩
  obtain ⟨φ, hF, hφ⟩ := hsub
  -- two functions computed by the same functor agree
  have hsame : ∀ ψ, Computes F ψ → ∀ S, S ⊆ Finset.range F.size → ψ S = φ S := by
    intro ψ hψ S hS
    obtain ⟨l, hl, hlS⟩ : ∃ l : List ℕ, l.Nodup ∧ l.toFinset = S :=
      ⟨S.toList, S.nodup_toList, S.toList_toFinset⟩
    have hlt : ∀ b ∈ l, b < F.size := fun b hb =>
      Finset.mem_range.1 (hS (by rw [← hlS]; simpa using hb))
    rw [← hlS, ← hψ l hl hlt, hF l hl hlt]
  by_cases h1 : F.size = 1
  · refine ⟨1, 1, 0, by norm_num, by norm_num, fun eps tol fuel _ _ _ _ _ _ ψ _ hψ h0 _ => ?_⟩
    have hrun : mnbOf N tol eps fuel F = .ok [F.val [0]] := by
      unfold mnbOf minNormBase
      rw [if_neg (by omega), if_pos h1]
      rfl
    have hval : F.val [0] = ψ {0} := by
      rw [hψ [0] (by simp) (by simp [h1])]; rfl
    refine ⟨[F.val [0]], fun _ => ψ {0}, hrun, by simp [h1], ⟨⟨?_, ?_⟩, ?_⟩, ?_⟩
    · rw [h1, h0]; simp
    · intro S hS
      rw [h1, Finset.range_one, Finset.subset_singleton_iff] at hS
      rcases hS with rfl | rfl
      · simp
      · rw [h0]; simp
    · intro y hy
      have := hy.1
      rw [h1, h0] at this
      simp only [Finset.range_one, Finset.sum_singleton, sub_zero] at this
      unfold Spec.inner
      rw [h1]
      simp only [Finset.range_one, Finset.sum_singleton]
      rw [this]
    · intro i hi
      have : i = 0 := by omega
      subst this
      simp [hval]
  by_cases h2 : F.size = 0
  · exact ⟨1, 1, 0, by norm_num, by norm_num, fun _ _ _ _ _ _ _ _ _ ψ h _ _ _ => absurd h (by omega)⟩
  obtain ⟨e, t0, he, ht0, hspec⟩ := minNormBase_spec hN (by omega) hF hφ
  refine ⟨e, t0, (candidates N F).card + 1, he, ht0, fun eps tol fuel he1 he2 ht1 ht2 hK hst ψ _ hψ _ _ => ?_⟩
  rcases hspec eps tol fuel he1 he2 ht1 hK with ⟨x, flag, hr, hres, hmin⟩ | ⟨-, k, Q, hk⟩
  swap
  · rw [hth] at hk; simp at hk
  have hm := hmin (hst x flag hr) ht2
  refine ⟨x, fun i => x.getD i 0, ?_, hres.length, ?_, fun i _ => by simp⟩
  · unfold mnbOf; rw [hr]; rfl
  · have hb : ∀ z, InBase (Finset.range F.size) ψ z ↔ InBase (Finset.range F.size) φ z := by
      intro z
      unfold InBase
      rw [hsame ψ hψ _ (Finset.Subset.refl _), hsame ψ hψ ∅ (Finset.empty_subset _)]
      refine and_congr_right fun _ => forall_congr' fun S => imp_congr_right fun hS => ?_
      rw [hsame ψ hψ S hS]
    exact ⟨(hb _).2 hm.1, fun y hy => hm.2 y ((hb y).1 hy)⟩

/-! ### A common threshold for all functions that `agglomerate` meets -/

theorem common_threshold {N : Numerics} (hN : ∀ n, ExactNumerics N n)
    (hth : ∀ k Q, N.throws k Q = false) (S : Finset (List (List ℕ) × ℕ)) (f : SF) :
    ∃ e t0 : ℚ, ∃ K : ℕ, 0 < e ∧ 0 < t0 ∧ ∀ eps tol fuel, 0 < eps → eps ≤ e → 0 < tol → tol ≤ t0 →
      K ≤ fuel → ∀ p ∈ S, NotStuck N (sfJoin (sfContract f p.1) p.2) tol eps fuel →
        Accurate 0 (sfJoin (sfContract f p.1) p.2)
          (mnbOf N tol eps fuel (sfJoin (sfContract f p.1) p.2)) := by
  induction S using Finset.induction_on with
  | empty => exact ⟨1, 1, 0, by norm_num, by norm_num, by simp⟩
  | insert a S _ ih =>
    obtain ⟨e, t0, K, he, ht, h⟩ := ih
    obtain ⟨e', t0', K', he', ht', h'⟩ := accurate_zero (F := sfJoin (sfContract f a.1) a.2) (hN _) hth
    refine ⟨min e e', min t0 t0', max K K', lt_min he he', lt_min ht ht', ?_⟩
    intro eps tol fuel h1 h2 h3 h4 h5 p hp hst
    rcases Finset.mem_insert.1 hp with rfl | hp
    · exact h' eps tol fuel h1 (h2.trans (min_le_right _ _)) h3 (h4.trans (min_le_right _ _))
        ((le_max_right _ _).trans h5) hst
    · exact h eps tol fuel h1 (h2.trans (min_le_left _ _)) h3 (h4.trans (min_le_left _ _))
        ((le_max_left _ _).trans h5) p hp hst

theorem clustering_mem {n : ℕ} {R : ℕ → ℕ → Prop} {L : List (List ℕ)} (hc : IsClustering n R L) :
    L ∈ listsOf (listsOf (Finset.range n) n) n := by
  have hsub : ∀ B ∈ L, ∀ v ∈ B, v < n := fun B hB v hv =>
    (hc.all v).1 (List.mem_flatten.2 ⟨B, hB, hv⟩)
  apply mem_listsOf
  · intro B hB
    apply mem_listsOf
    · intro v hv; exact Finset.mem_range.2 (hsub B hB v hv)
    · have hnd := (List.nodup_flatten.1 hc.once).1 B hB
      rw [← List.toFinset_card_of_nodup hnd]
      calc B.toFinset.card ≤ (Finset.range n).card := Finset.card_le_card fun v hv =>
            Finset.mem_range.2 (hsub B hB v (List.mem_toFinset.1 hv))
        _ = n := Finset.card_range n
  · have hb := clustering_blocks hc
    have h1 := hb.card
    have h2 := hb.partition.card_le
    rw [Finset.card_range] at h2
    omega

/-- Rational values have a common unit. -/
theorem exists_unit (h : Finset ℕ → ℚ) (S : Finset (Finset ℕ)) :
    ∃ u : ℚ, 0 < u ∧ ∀ B ∈ S, ∃ k : ℤ, h B = k * u := by
  induction S using Finset.induction_on with
  | empty => exact ⟨1, by norm_num, by simp⟩
  | insert B S _ ih =>
    obtain ⟨u, hu, hS⟩ := ih
    have hd : (0 : ℚ) < (h B / u).den := by exact_mod_cast (h B / u).den_pos
    refine ⟨u / (h B / u).den, div_pos hu hd, ?_⟩
    intro T hT
    rcases Finset.mem_insert.1 hT with rfl | hT
    · refine ⟨(h T / u).num, ?_⟩
      have e : h T / u = (h T / u).num / (h T / u).den := (Rat.num_div_den _).symm
      rw [div_eq_iff hu.ne'] at e
      rw [mul_div_assoc', mul_comm, mul_div_assoc, mul_comm]
      conv_lhs => rw [e]
    · obtain ⟨k, hk⟩ := hS T hT
      refine ⟨k * (h B / u).den, ?_⟩
      rw [hk]
      push_cast
      field_simp

/-- With exact numerics and small enough tolerances `run` returns the principal sequence, for every procedure that
agrees with `min_norm_base` on the calls. -/
theorem aggRunSF_exact' {N : Numerics} (hN : ∀ n, ExactNumerics N n)
    (hth : ∀ k Q, N.throws k Q = false) {f : SF} {h : Finset ℕ → ℚ} (hf : Represents f h)
    (hn : 0 < f.size) (hh : Intersecting (Finset.range f.size) h) :
    ∃ e t0 : ℚ, ∃ K : ℕ, 0 < e ∧ 0 < t0 ∧ ∀ eps tol fuel, 0 < eps → eps ≤ e → 0 < tol → tol ≤ t0 →
      K ≤ fuel → (∀ L R j, IsClustering f.size R L → j < L.length →
        NotStuck N (sfJoin (sfContract f L) j) tol eps fuel) → ∀ mnb : SF → Outcome (List ℚ),
      (∀ L R j, IsClustering f.size R L → j < L.length →
        mnb (sfJoin (sfContract f L) j) = mnbOf N tol eps fuel (sfJoin (sfContract f L) j)) →
      ∃ ps cv, aggRunSF mnb f tol = .ok (ps, cv) ∧
        IsPrincipalSequenceSF h (Finset.range f.size) ps cv := by
  obtain ⟨e, t0, K, he, ht, hspec⟩ := common_threshold hN hth
    ((listsOf (listsOf (Finset.range f.size) f.size) f.size) ×ˢ Finset.range f.size) f
  obtain ⟨u, hu, hgrid⟩ := exists_unit h (Finset.range f.size).powerset
  have hn2 : (0 : ℚ) < (f.size : ℚ) ^ 2 := by
    have : (0 : ℚ) < f.size := by exact_mod_cast hn
    positivity
  refine ⟨e, min t0 (u / (2 * (f.size : ℚ) ^ 2)), K, he, lt_min ht (by positivity), ?_⟩
  intro eps tol fuel h1 h2 h3 h4 h5 hst mnb hmnb
  have htol : AggTolerance h f.size tol 0 u := by
    refine ⟨fun S hS _ => hgrid S (Finset.mem_powerset.2 hS), le_rfl, by linarith, ?_⟩
    have : tol ≤ u / (2 * (f.size : ℚ) ^ 2) := h4.trans (min_le_right _ _)
    rw [le_div_iff₀ (by positivity)] at this
    have h6 : 0 < tol * (f.size : ℚ) ^ 2 := mul_pos h3 hn2
    nlinarith
  obtain ⟨ps, cv, cv', k1, k2, k3⟩ := aggRunSF_spec (mnb := mnb) hf rfl hn hh htol (by
    intro L R j hL hj
    rw [hmnb L R j hL hj]
    refine hspec eps tol fuel h1 h2 h3 (h4.trans (min_le_left _ _)) h5 (L, j) ?_ (hst L R j hL hj)
    refine Finset.mem_product.2 ⟨clustering_mem hL, Finset.mem_range.2 ?_⟩
    have hb := clustering_blocks hL
    have e1 := hb.card
    have e2 := hb.partition.card_le
    rw [Finset.card_range] at e2
    simp only
    omega)
  have : cv' = cv := by
    have hforall := k3
    clear k1 k2 k3
    induction hforall with
    | nil => rfl
    | cons hab _ ih =>
      rw [ih]
      congr 1
      exact sub_eq_zero.1 (abs_eq_zero.1 (le_antisymm hab (abs_nonneg _)))
  subst this
  exact ⟨ps, cv', k1, k2⟩

/-- With exact numerics and small enough tolerances `run` returns the principal sequence. -/
theorem aggRunSF_exact {N : Numerics} (hN : ∀ n, ExactNumerics N n)
    (hth : ∀ k Q, N.throws k Q = false) {f : SF} {h : Finset ℕ → ℚ} (hf : Represents f h)
    (hn : 0 < f.size) (hh : Intersecting (Finset.range f.size) h) :
    ∃ e t0 : ℚ, ∃ K : ℕ, 0 < e ∧ 0 < t0 ∧ ∀ eps tol fuel, 0 < eps → eps ≤ e → 0 < tol → tol ≤ t0 →
      K ≤ fuel → (∀ L R j, IsClustering f.size R L → j < L.length →
        NotStuck N (sfJoin (sfContract f L) j) tol eps fuel) →
      ∃ ps cv, aggRunSF (mnbOf N tol eps fuel) f tol = .ok (ps, cv) ∧
        IsPrincipalSequenceSF h (Finset.range f.size) ps cv := by
  obtain ⟨e, t0, K, he, ht0, hk⟩ := aggRunSF_exact' hN hth hf hn hh
  exact ⟨e, t0, K, he, ht0, fun eps tol fuel h1 h2 h3 h4 h5 h6 => hk eps tol fuel h1 h2 h3 h4 h5 h6 _
    fun _ _ _ _ _ => rfl⟩

end PSP.Theory
