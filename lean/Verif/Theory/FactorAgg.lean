import Verif.Theory.FactorSmall
import Verif.Theory.WolfeStuck

/-!
# `agg_psp` with the factor `L` of `min_norm_base`
-/

namespace PSP.Theory

open PSP.Model PSP.Spec

variable {N : Numerics} {f : SF} {h : Finset ℕ → ℚ}

theorem mnbOfL_eq {F : SF} {tol eps : ℚ} {fuel : ℕ}
    (hr : minNormBaseL scaledFactor N F tol eps fuel = minNormBase N.quiet F tol eps fuel) :
    mnbOfL codeFactor N tol eps fuel F = mnbOf N.quiet tol eps fuel F := by
  rw [mnbOfL_sim codeFactor_sim]
  unfold mnbOfL mnbOf
  rw [hr]

/-- A call made by `agg_psp`. -/
theorem join_computes {L : List (List ℕ)} {R : ℕ → ℕ → Prop} {j : ℕ} (hf : Represents f h)
    (hh : Intersecting (Finset.range f.size) h) (hL : IsClustering f.size R L) (hj : j < L.length) :
    Computes (sfJoin (sfContract f L) j) (joinFn h (blockAt L) j) ∧
      Submodular (Finset.range (sfJoin (sfContract f L) j).size) (joinFn h (blockAt L) j) ∧ L.length ≤ f.size := by
  have hb := clustering_blocks hL
  refine ⟨fun B hB hBj => sfJoin_val hf hL hj hB hBj, hb.joinFn_submodular hh hj, ?_⟩
  have e1 := hb.card
  have e2 := hb.partition.card_le
  rw [Finset.card_range] at e2
  omega

/-! ### following a run with a monitor -/

section watch

variable {w a b : SF → Outcome (List ℚ)} {s : String} {tol : ℚ}

theorem aicPoints_watch {F : SF} : ∀ js : List ℕ,
    (∀ j ∈ js, w (sfJoin F j) = .exc s ∨ (w (sfJoin F j) = b (sfJoin F j) ∧ a (sfJoin F j) = b (sfJoin F j))) →
    aicPoints w F js = .exc s ∨ (aicPoints w F js = aicPoints b F js ∧ aicPoints a F js = aicPoints b F js) := by
  intro js
  induction js with
  | nil => intro _; exact Or.inr ⟨rfl, rfl⟩
  | cons j js ih =>
    intro hj
    simp only [aicPoints]
    rcases hj j (by simp) with h1 | ⟨h1, h2⟩
    · rw [h1]; exact Or.inl rfl
    rw [h1, h2]
    rcases ih fun i hi => hj i (by simp [hi]) with h3 | ⟨h3, h4⟩
    · rw [h3]
      cases hb : b (sfJoin F j) with
      | ok x => exact Or.inl rfl
      | exc t => exact Or.inr ⟨rfl, rfl⟩
      | ub t => exact Or.inr ⟨rfl, rfl⟩
      | nan => exact Or.inr ⟨rfl, rfl⟩
      | fuel => exact Or.inr ⟨rfl, rfl⟩
    · rw [h3, h4]; exact Or.inr ⟨rfl, rfl⟩

/-- The merges of `agglomerate` keep a forest, whatever the points are. -/
theorem agglomerate_watch (hn : 0 < f.size) {hc : HC} {A : List Link} (hv : HCInv hc A) (hsz : hc.n = f.size)
    (hw : ∀ L R j, IsClustering f.size R L → j < L.length → w (sfJoin (sfContract f L) j) = .exc s ∨
      (w (sfJoin (sfContract f L) j) = b (sfJoin (sfContract f L) j) ∧
        a (sfJoin (sfContract f L) j) = b (sfJoin (sfContract f L) j))) :
    (agglomerate w f tol hc = .exc s ∨
      (agglomerate w f tol hc = agglomerate b f tol hc ∧ agglomerate a f tol hc = agglomerate b f tol hc)) ∧
    ∀ r, agglomerate b f tol hc = .ok r → ∃ A', HCInv r.1 A' ∧ r.1.n = f.size := by
  obtain ⟨L, hL1, hL2⟩ := getPartition_spec hv.forest (by rw [hsz]; exact hn) ⊥
  rw [hsz] at hL2
  unfold agglomerate
  rw [hL1]
  simp only [Outcome.ok_bind]
  split
  · refine ⟨Or.inr ⟨rfl, rfl⟩, ?_⟩
    rintro r hr
    cases hr
    exact ⟨A, hv, hsz⟩
  constructor
  · rcases aicPoints_watch (w := w) (a := a) (b := b) (s := s) (F := sfContract f L) ((List.range L.length).drop 1)
      (fun j hj => hw L _ j hL2 (List.mem_range.1 (List.mem_of_mem_drop hj))) with h | ⟨h1, h2⟩
    · rw [h]; exact Or.inl rfl
    · rw [h1, h2]; exact Or.inr ⟨rfl, rfl⟩
  · intro r hr
    obtain ⟨xs, -, hr⟩ := Outcome.bind_eq_ok hr
    cases hg : aicGamma xs with
    | bot =>
      rw [hg] at hr
      cases hr
      exact ⟨A, hv, hsz⟩
    | coe g =>
      rw [hg] at hr
      obtain ⟨h', hm, hr⟩ := Outcome.bind_eq_ok hr
      have hin : InRange f.size (aicMerges L xs tol g) := by
        intro c hc'
        obtain ⟨j, i, hj, hi, -, rfl⟩ := mem_aicMerges.1 hc'
        have key : ∀ i, i < L.length → (L.getD i []).headD 0 < f.size := by
          intro i hi
          have hm := getD_mem hi
          exact (hL2.all _).1 (List.mem_flatten.2 ⟨_, hm, headD_mem (hL2.nonempty _ hm)⟩)
        exact ⟨key j hj, key i (hi.trans hj)⟩
      obtain ⟨h2, k1, k2, k3⟩ := mergeAll_from _ hv hsz hin
      rw [k1] at hm
      cases hm
      cases hr
      exact ⟨_, k3, k2⟩

theorem aggLoop_watch (hn : 0 < f.size)
    (hw : ∀ L R j, IsClustering f.size R L → j < L.length → w (sfJoin (sfContract f L) j) = .exc s ∨
      (w (sfJoin (sfContract f L) j) = b (sfJoin (sfContract f L) j) ∧
        a (sfJoin (sfContract f L) j) = b (sfJoin (sfContract f L) j))) :
    ∀ (k : ℕ) (hc : HC) (A : List Link) (ps : List Partition) (cv : List ℚ), HCInv hc A → hc.n = f.size →
    aggLoop w f tol k hc ps cv = .exc s ∨ (aggLoop w f tol k hc ps cv = aggLoop b f tol k hc ps cv ∧
      aggLoop a f tol k hc ps cv = aggLoop b f tol k hc ps cv) := by
  intro k
  induction k with
  | zero => intro hc A ps cv _ _; exact Or.inr ⟨rfl, rfl⟩
  | succ k ih =>
    intro hc A ps cv hv hsz
    obtain ⟨h1, h2⟩ := agglomerate_watch (tol := tol) hn hv hsz hw
    simp only [aggLoop]
    rcases h1 with h1 | ⟨h1, h3⟩
    · rw [h1]; exact Or.inl rfl
    rw [h1, h3]
    cases hb : agglomerate b f tol hc with
    | exc t => exact Or.inr ⟨rfl, rfl⟩
    | ub t => exact Or.inr ⟨rfl, rfl⟩
    | nan => exact Or.inr ⟨rfl, rfl⟩
    | fuel => exact Or.inr ⟨rfl, rfl⟩
    | ok r =>
      obtain ⟨h', more⟩ := r
      obtain ⟨A', hv', hsz'⟩ := h2 _ hb
      simp only [Outcome.ok_bind]
      cases more with
      | false => exact Or.inr ⟨rfl, rfl⟩
      | true =>
        simp only [if_true]
        cases h'.getCoarsestPartition with
        | exc t => exact Or.inr ⟨rfl, rfl⟩
        | ub t => exact Or.inr ⟨rfl, rfl⟩
        | nan => exact Or.inr ⟨rfl, rfl⟩
        | fuel => exact Or.inr ⟨rfl, rfl⟩
        | ok P =>
          simp only [Outcome.ok_bind]
          cases h'.getCriticalValues.getLast? with
          | none => exact Or.inr ⟨rfl, rfl⟩
          | some c => exact ih h' A' _ _ hv' hsz'

theorem aggRunSF_watch (hn : 0 < f.size)
    (hw : ∀ L R j, IsClustering f.size R L → j < L.length → w (sfJoin (sfContract f L) j) = .exc s ∨
      (w (sfJoin (sfContract f L) j) = b (sfJoin (sfContract f L) j) ∧
        a (sfJoin (sfContract f L) j) = b (sfJoin (sfContract f L) j))) :
    aggRunSF w f tol = .exc s ∨ (aggRunSF w f tol = aggRunSF b f tol ∧ aggRunSF a f tol = aggRunSF b f tol) := by
  unfold aggRunSF
  dsimp only
  cases (HC.new f.size).getCoarsestPartition with
  | exc t => exact Or.inr ⟨rfl, rfl⟩
  | ub t => exact Or.inr ⟨rfl, rfl⟩
  | nan => exact Or.inr ⟨rfl, rfl⟩
  | fuel => exact Or.inr ⟨rfl, rfl⟩
  | ok P => exact aggLoop_watch hn hw _ _ _ _ _ (HCInv.new f.size) rfl

end watch

/-- If no minor cycle of the run removes two columns, `agg_psp` with the factor of the code is `agg_psp` without the
exception. -/
theorem aggRunSF_single (hN : ∀ n, ExactNumerics N n) (hf : Represents f h) (hn : 0 < f.size)
    (hh : Intersecting (Finset.range f.size) h) {tol : ℚ} (htol : 0 < tol) (eps : ℚ) (fuel : ℕ) :
    aggRunSF (mnbOfL singleFactor N tol eps fuel) f tol = .exc "two columns" ∨
      aggRunSF (mnbOfL codeFactor N tol eps fuel) f tol = aggRunSF (mnbOf N.quiet tol eps fuel) f tol := by
  refine (aggRunSF_watch (s := "two columns") hn ?_).imp_right And.right
  intro L R j hL hj
  obtain ⟨hc, hs, -⟩ := join_computes hf hh hL hj
  rcases minNormBaseL_single (eps := eps) (hN _) hc hs htol fuel with h1 | ⟨h1, h2⟩
  · left
    unfold mnbOfL
    rw [h1]
    rfl
  · right
    refine ⟨?_, mnbOfL_eq h2⟩
    unfold mnbOfL mnbOf
    rw [h1]

/-- Whatever the numerical environment: the result is that without the exception, or the exception. -/
theorem mnbOfL_mild {N : Numerics} {tol eps : ℚ} {fuel : ℕ} {F : SF} :
    mnbOfL codeFactor N tol eps fuel F = mnbOf N.quiet tol eps fuel F ∨ mnbOfL codeFactor N tol eps fuel F = .nan ∨
      mnbOfL codeFactor N tol eps fuel F = .exc "Try to set a higher functional tolerance." := by
  rw [mnbOfL_sim codeFactor_sim]
  unfold mnbOfL mnbOf
  rcases minNormBaseL_mild scaled_mild N F tol eps fuel with h | h | h
  · rw [h]; exact Or.inl rfl
  · rw [h]; exact Or.inr (Or.inl rfl)
  · rw [h]; exact Or.inr (Or.inr rfl)

/-- On at most four elements nothing has to be assumed. -/
theorem aggRunSF_factor_small (hN : ∀ n, ExactNumerics N n) (hf : Represents f h) (hn : 0 < f.size)
    (hh : Intersecting (Finset.range f.size) h) (hs : f.size ≤ 4) :
    ∃ e t0 : ℚ, ∃ K : ℕ, 0 < e ∧ 0 < t0 ∧ ∀ eps tol fuel, 0 < eps → eps ≤ e → 0 < tol → tol ≤ t0 → K ≤ fuel →
      ∃ ps cv, aggRunSF (mnbOfL codeFactor N tol eps fuel) f tol = .ok (ps, cv) ∧
        IsPrincipalSequenceSF h (Finset.range f.size) ps cv := by
  have hNq : ∀ n, ExactNumerics N.quiet n := fun n => ⟨(hN n).sort, (hN n).solve⟩
  have key : ∀ S : Finset (List (List ℕ) × ℕ), ∃ e : ℚ, 0 < e ∧ ∀ eps tol fuel, 0 < eps → eps ≤ e →
      0 < tol → ∀ p ∈ S, ∀ R, IsClustering f.size R p.1 → p.2 < p.1.length →
      mnbOfL codeFactor N tol eps fuel (sfJoin (sfContract f p.1) p.2) =
        mnbOf N.quiet tol eps fuel (sfJoin (sfContract f p.1) p.2) := by
    intro S
    induction S using Finset.induction_on with
    | empty => exact ⟨1, by norm_num, by simp⟩
    | insert a S _ ih =>
      obtain ⟨e, he, ih⟩ := ih
      by_cases ha : ∃ R, IsClustering f.size R a.1 ∧ a.2 < a.1.length
      · obtain ⟨R, hR, haj⟩ := ha
        obtain ⟨hc, hsub, hle⟩ := join_computes hf hh hR haj
        obtain ⟨e', he', h'⟩ := minNormBaseL_small (hN _) (by show a.2 ≤ 3; omega) hc hsub
        refine ⟨min e e', lt_min he he', ?_⟩
        intro eps tol fuel h1 h2 h3 p hp R' hR' hpj
        rcases Finset.mem_insert.1 hp with rfl | hp
        · exact mnbOfL_eq (h' eps tol fuel h1 (h2.trans (min_le_right _ _)) h3)
        · exact ih eps tol fuel h1 (h2.trans (min_le_left _ _)) h3 p hp R' hR' hpj
      · refine ⟨e, he, ?_⟩
        intro eps tol fuel h1 h2 h3 p hp R' hR' hpj
        rcases Finset.mem_insert.1 hp with rfl | hp
        · exact absurd ⟨R', hR', hpj⟩ ha
        · exact ih eps tol fuel h1 h2 h3 p hp R' hR' hpj
  obtain ⟨e1, he1, hk⟩ := key ((listsOf (listsOf (Finset.range f.size) f.size) f.size) ×ˢ Finset.range f.size)
  obtain ⟨e2, he2, hst⟩ := notStuck_small hNq (fun _ _ => rfl) hf hh hs
  obtain ⟨e, t0, K, he, ht0, hx⟩ := aggRunSF_exact' hNq (fun _ _ => rfl) hf hn hh
  refine ⟨min e (min e1 e2), t0, K, lt_min he (lt_min he1 he2), ht0, fun eps tol fuel h1 h2 h3 h4 h5 =>
    hx eps tol fuel h1 (h2.trans (min_le_left _ _)) h3 h4 h5
      (hst eps tol fuel h1 (h2.trans ((min_le_right _ _).trans (min_le_right _ _))) h3) _ ?_⟩
  intro L R j hL hj
  refine hk eps tol fuel h1 (h2.trans ((min_le_right _ _).trans (min_le_left _ _))) h3 (L, j) ?_ R hL hj
  refine Finset.mem_product.2 ⟨clustering_mem hL, Finset.mem_range.2 ?_⟩
  have := (join_computes hf hh hL hj).2.2
  simp only
  omega

end PSP.Theory
