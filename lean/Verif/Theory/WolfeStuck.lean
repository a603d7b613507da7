import Verif.Theory.WolfeAgg

/-!
# `min_norm_base`: when the stuck counter cannot end the loop
-/

namespace PSP.Theory

open PSP.Model PSP.Spec

variable {N : Numerics} {f : SF} {φ : Finset ℕ → ℚ} {tol eps : ℚ}

/-- A hundred major cycles are too few for the stuck counter. -/
theorem majorCycles_flag : ∀ (fuel : ℕ) (Q : List (List ℚ)) (w x : List ℚ) (prev : Option ℚ)
    (stuck : ℕ) (r : List ℚ) (flag : Bool), fuel + stuck ≤ 100 →
    majorCycles N f tol eps fuel Q w x prev stuck = .ok (r, flag) → flag = true := by
  intro fuel
  induction fuel with
  | zero => intro Q w x prev stuck r flag _ h; simp [majorCycles] at h
  | succ fuel ih =>
    intro Q w x prev stuck r flag hf h
    unfold majorCycles at h
    obtain ⟨q, -, h⟩ := Outcome.bind_eq_ok h
    simp only at h
    set opt := |dot x q - dot x x|
    by_cases h1 : opt < tol
    · rw [if_pos h1] at h
      simp only [Outcome.pure_eq, Outcome.ok.injEq, Prod.mk.injEq] at h
      exact h.2.symm
    rw [if_neg h1] at h
    have hst : (if isStuck prev opt = true then stuck + 1 else 0) ≤ stuck + 1 := by
      split_ifs <;> omega
    rw [if_neg (fun hc => absurd hc.2 (by omega))] at h
    by_cases h3 : f.size < Q.length
    · rw [if_pos h3] at h; cases h
    rw [if_neg h3] at h
    by_cases h4 : N.throws fuel (Q ++ [q]) = true
    · rw [if_pos h4] at h; cases h
    rw [if_neg h4] at h
    obtain ⟨⟨Q', w', x'⟩, -, h⟩ := Outcome.bind_eq_ok h
    exact ih Q' w' x' _ _ r flag (by omega) h

/-- More fuel does not change a result. -/
theorem majorCycles_mono (hth : ∀ k Q, N.throws k Q = false) : ∀ (fuel fuel' : ℕ)
    (Q : List (List ℚ)) (w x : List ℚ) (prev : Option ℚ) (stuck : ℕ) (r : List ℚ × Bool),
    fuel ≤ fuel' → majorCycles N f tol eps fuel Q w x prev stuck = .ok r →
    majorCycles N f tol eps fuel' Q w x prev stuck = .ok r := by
  intro fuel
  induction fuel with
  | zero => intro fuel' Q w x prev stuck r _ h; simp [majorCycles] at h
  | succ fuel ih =>
    intro fuel' Q w x prev stuck r hle h
    obtain ⟨m, rfl⟩ : ∃ m, fuel' = m + 1 := ⟨fuel' - 1, by omega⟩
    unfold majorCycles at h ⊢
    obtain ⟨q, hq, h⟩ := Outcome.bind_eq_ok h
    rw [hq]
    simp only [Outcome.ok_bind, hth, Bool.false_eq_true, if_false] at h ⊢
    set opt := |dot x q - dot x x|
    by_cases h1 : opt < tol
    · rw [if_pos h1] at h ⊢; exact h
    rw [if_neg h1] at h ⊢
    by_cases h2 : isStuck prev opt = true ∧ (if isStuck prev opt = true then stuck + 1 else 0) > 100
    · rw [if_pos h2] at h ⊢; exact h
    rw [if_neg h2] at h ⊢
    by_cases h3 : f.size < Q.length
    · rw [if_pos h3] at h; cases h
    rw [if_neg h3] at h ⊢
    obtain ⟨p, hp, h⟩ := Outcome.bind_eq_ok h
    rw [hp]
    simp only [Outcome.ok_bind]
    exact ih m _ _ _ _ _ r (by omega) h

theorem minNormBase_mono (hth : ∀ k Q, N.throws k Q = false) {fuel fuel' : ℕ} (hle : fuel ≤ fuel')
    {r : List ℚ × Bool} (h : minNormBase N f tol eps fuel = .ok r) :
    minNormBase N f tol eps fuel' = .ok r := by
  unfold minNormBase at h ⊢
  by_cases h1 : f.size < 1
  · rw [if_pos h1] at h ⊢; exact h
  rw [if_neg h1] at h ⊢
  by_cases h2 : f.size = 1
  · rw [if_pos h2] at h ⊢; exact h
  rw [if_neg h2] at h ⊢
  obtain ⟨x, hx, h⟩ := Outcome.bind_eq_ok h
  dsimp only
  rw [hx]
  exact majorCycles_mono hth fuel fuel' _ _ _ _ _ r hle h

theorem notStuck_of_le {fuel : ℕ} (hf : fuel ≤ 100) : NotStuck N f tol eps fuel := by
  intro x flag h
  unfold minNormBase at h
  by_cases h1 : f.size < 1
  · rw [if_pos h1] at h
    simp only [Outcome.ok.injEq, Prod.mk.injEq] at h
    exact h.2.symm
  rw [if_neg h1] at h
  by_cases h2 : f.size = 1
  · rw [if_pos h2] at h
    simp only [Outcome.ok.injEq, Prod.mk.injEq] at h
    exact h.2.symm
  rw [if_neg h2] at h
  obtain ⟨x, hx, h⟩ := Outcome.bind_eq_ok h
  exact majorCycles_flag fuel _ _ _ _ _ _ _ (by omega) h

/-- With fewer than 100 corral points the stuck counter never fires, whatever the fuel. -/
theorem notStuck_of_few (hN : ExactNumerics N f.size) (hth : ∀ k Q, N.throws k Q = false)
    (hf : Computes f φ) (hφ : Submodular (Finset.range f.size) φ)
    (hfew : (candidates N f).card < 100) :
    ∃ e : ℚ, 0 < e ∧ ∀ eps tol fuel, 0 < eps → eps ≤ e → 0 < tol → NotStuck N f tol eps fuel := by
  by_cases hn : f.size < 2
  · refine ⟨1, by norm_num, fun eps tol fuel _ _ _ x flag h => ?_⟩
    unfold minNormBase at h
    by_cases h1 : f.size < 1
    · rw [if_pos h1] at h
      simp only [Outcome.ok.injEq, Prod.mk.injEq] at h
      exact h.2.symm
    rw [if_neg h1, if_pos (by omega)] at h
    simp only [Outcome.ok.injEq, Prod.mk.injEq] at h
    exact h.2.symm
  obtain ⟨e, t0, he, -, hspec⟩ := minNormBase_spec hN (by omega) hf hφ
  refine ⟨e, he, fun eps tol fuel h1 h2 h3 x flag h => ?_⟩
  rcases hspec eps tol 100 h1 h2 h3 hfew with ⟨x', flag', hr, -, -⟩ | ⟨-, k, Q, hk⟩
  · have hflag := notStuck_of_le le_rfl x' flag' hr
    rcases Nat.le_total fuel 100 with hle | hle
    · exact notStuck_of_le hle x flag h
    · have := minNormBase_mono hth hle hr
      rw [this] at h
      simp only [Outcome.ok.injEq, Prod.mk.injEq] at h
      rw [← h.2]; exact hflag
  · rw [hth] at hk; simp at hk

/-- The point of a corral depends only on the set of its vertices. -/
theorem pointOf_congr {n : ℕ} (hN : ExactNumerics N n) {Q Q' : List (List ℚ)}
    (hlen : ∀ q ∈ Q, q.length = n) (h : ∀ q, q ∈ Q ↔ q ∈ Q') : pointOf N n Q = pointOf N n Q' := by
  by_cases hQ : Q = []
  · subst hQ
    have : Q' = [] := List.eq_nil_iff_forall_not_mem.2 fun q hq => by simpa using (h q).2 hq
    rw [this]
  have hQ' : Q' ≠ [] := by
    obtain ⟨q, hq⟩ := List.exists_mem_of_ne_nil Q hQ
    exact List.ne_nil_of_mem ((h q).1 hq)
  have hlen' : ∀ q ∈ Q', q.length = n := fun q hq => hlen q ((h q).2 hq)
  have hp : Proj n Q (vOf N Q) := (hN.solve Q hQ hlen).proj hQ hlen
  have hp' : Proj n Q' (vOf N Q') := (hN.solve Q' hQ' hlen').proj hQ' hlen'
  have e1 : dot (pointOf N n Q) (pointOf N n Q') = dot (pointOf N n Q') (pointOf N n Q') := by
    unfold pointOf
    rw [dot_combine Q _ _ hlen (combine_length _ _ _), cmb_const Q _ hp.length.symm
      (c := dot (combine n Q' (vOf N Q')) (combine n Q' (vOf N Q')))]
    · rw [show (vOf N Q).sum = 1 from hp.sum, mul_one]
    · intro q hq
      rw [dot_comm]
      exact hp'.orth q ((h q).1 hq)
  have e2 : dot (pointOf N n Q') (pointOf N n Q) = dot (pointOf N n Q) (pointOf N n Q) := by
    unfold pointOf
    rw [dot_combine Q' _ _ hlen' (combine_length _ _ _), cmb_const Q' _ hp'.length.symm
      (c := dot (combine n Q (vOf N Q)) (combine n Q (vOf N Q)))]
    · rw [show (vOf N Q').sum = 1 from hp'.sum, mul_one]
    · intro q hq
      rw [dot_comm]
      exact hp.orth q ((h q).2 hq)
  have hl : (pointOf N n Q).length = n := combine_length _ _ _
  have hl' : (pointOf N n Q').length = n := combine_length _ _ _
  have h3 := dot_sub_sq hl hl'
  rw [dot_comm] at e2
  rw [e1, ← e2, e1] at h3
  have h0 := (Finset.sum_eq_zero_iff_of_nonneg fun i _ => sq_nonneg _).1
    (h3.symm.trans (by ring))
  apply List.ext_getElem (hl.trans hl'.symm)
  intro i hi hi'
  have := h0 i (Finset.mem_range.2 (hl ▸ hi))
  rw [List.getD_eq_getElem _ _ hi, List.getD_eq_getElem _ _ hi'] at this
  have := pow_eq_zero_iff (two_ne_zero) |>.1 this
  linarith

theorem mem_of_mem_listsOf {α : Type} [DecidableEq α] {G : Finset α} : ∀ {k : ℕ} {Q : List α},
    Q ∈ listsOf G k → ∀ q ∈ Q, q ∈ G := by
  intro k
  induction k with
  | zero => intro Q h; rw [listsOf, Finset.mem_singleton] at h; subst h; simp
  | succ k ih =>
    intro Q h
    rw [listsOf, Finset.mem_insert] at h
    rcases h with rfl | h
    · simp
    · obtain ⟨⟨a, l⟩, hp, rfl⟩ := Finset.mem_image.1 h
      obtain ⟨ha, hl⟩ := Finset.mem_product.1 hp
      intro q hq
      rcases List.mem_cons.1 hq with rfl | hq
      · exact ha
      · exact ih hl q hq

/-- Functions on at most three elements have few corrals. -/
theorem few_of_size (hN : ExactNumerics N f.size) (hs : f.size ≤ 3) : (candidates N f).card < 100 := by
  classical
  have hG : (greedyPoints f).card ≤ 6 := by
    unfold greedyPoints
    refine Finset.card_image_le.trans ((List.toFinset_card_le _).trans ?_)
    rw [List.length_permutations, List.length_range]
    exact (Nat.factorial_le hs).trans (by decide)
  have hsub : candidates N f ⊆ (greedyPoints f).powerset.image fun s => pointOf N f.size s.toList := by
    intro x hx
    obtain ⟨Q, hQ, rfl⟩ := Finset.mem_image.1 hx
    have hmem := mem_of_mem_listsOf hQ
    refine Finset.mem_image.2 ⟨Q.toFinset, Finset.mem_powerset.2 fun q hq =>
      hmem q (List.mem_toFinset.1 hq), ?_⟩
    symm
    apply pointOf_congr hN
    · intro q hq
      obtain ⟨idx, -, rfl⟩ := Finset.mem_image.1 (hmem q hq)
      simp [greedyPoint]
    · intro q; simp
  refine lt_of_le_of_lt ((Finset.card_le_card hsub).trans Finset.card_image_le) ?_
  rw [Finset.card_powerset]
  exact lt_of_le_of_lt (Nat.pow_le_pow_right (by norm_num) hG) (by norm_num)

/-- For at most four elements no call of `min_norm_base` in `agglomerate` gets stuck. -/
theorem notStuck_small (hN : ∀ n, ExactNumerics N n) (hth : ∀ k Q, N.throws k Q = false)
    {h : Finset ℕ → ℚ} (hf : Represents f h) (hh : Intersecting (Finset.range f.size) h)
    (hs : f.size ≤ 4) :
    ∃ e : ℚ, 0 < e ∧ ∀ eps tol fuel, 0 < eps → eps ≤ e → 0 < tol → ∀ L R j,
      IsClustering f.size R L → j < L.length → NotStuck N (sfJoin (sfContract f L) j) tol eps fuel := by
  have key : ∀ S : Finset (List (List ℕ) × ℕ), ∃ e : ℚ, 0 < e ∧ ∀ eps tol fuel, 0 < eps → eps ≤ e →
      0 < tol → ∀ p ∈ S, ∀ R, IsClustering f.size R p.1 → p.2 < p.1.length →
      NotStuck N (sfJoin (sfContract f p.1) p.2) tol eps fuel := by
    intro S
    induction S using Finset.induction_on with
    | empty => exact ⟨1, by norm_num, by simp⟩
    | insert a S _ ih =>
      obtain ⟨e, he, ih⟩ := ih
      by_cases ha : ∃ R, IsClustering f.size R a.1 ∧ a.2 < a.1.length
      · obtain ⟨R, hR, haj⟩ := ha
        have hb := clustering_blocks hR
        have e1 := hb.card
        have e2 := hb.partition.card_le
        rw [Finset.card_range] at e2
        obtain ⟨e', he', h'⟩ := notStuck_of_few (f := sfJoin (sfContract f a.1) a.2)
          (φ := joinFn h (blockAt a.1) a.2) (hN _) hth
          (fun B hB hBj => sfJoin_val hf hR haj hB hBj) (hb.joinFn_submodular hh haj)
          (few_of_size (hN _) (by show a.2 ≤ 3; omega))
        refine ⟨min e e', lt_min he he', ?_⟩
        intro eps tol fuel h1 h2 h3 p hp R' hR' hpj
        rcases Finset.mem_insert.1 hp with rfl | hp
        · exact h' eps tol fuel h1 (h2.trans (min_le_right _ _)) h3
        · exact ih eps tol fuel h1 (h2.trans (min_le_left _ _)) h3 p hp R' hR' hpj
      · refine ⟨e, he, ?_⟩
        intro eps tol fuel h1 h2 h3 p hp R' hR' hpj
        rcases Finset.mem_insert.1 hp with rfl | hp
        · exact absurd ⟨R', hR', hpj⟩ ha
        · exact ih eps tol fuel h1 h2 h3 p hp R' hR' hpj
  obtain ⟨e, he, hk⟩ := key
    ((listsOf (listsOf (Finset.range f.size) f.size) f.size) ×ˢ Finset.range f.size)
  refine ⟨e, he, fun eps tol fuel h1 h2 h3 L R j hL hj => ?_⟩
  refine hk eps tol fuel h1 h2 h3 (L, j) ?_ R hL hj
  refine Finset.mem_product.2 ⟨clustering_mem hL, Finset.mem_range.2 ?_⟩
  have hb := clustering_blocks hL
  have e1 := hb.card
  have e2 := hb.partition.card_le
  rw [Finset.card_range] at e2
  simp only
  omega

end PSP.Theory
