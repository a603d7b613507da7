import Verif.Theory.Unique

/-!
# Effect of permuting the edges and of scaling the weights
-/

namespace PSP.Spec

variable {E E' : List Arc} {V : Finset ℕ} {Ps : List (Finset (Finset ℕ))} {cv : List ℚ}

/-- The edges with all weights multiplied by `c`. -/
def scale (c : ℚ) (E : List Arc) : List Arc := E.map fun e => { e with cap := c * e.cap }

theorem crossWeight_perm (h : E.Perm E') (P : Finset (Finset ℕ)) :
    crossWeight E P = crossWeight E' P := (h.map _).sum_eq

theorem isOptimal_perm (h : E.Perm E') (lam : ℚ) (P : Finset (Finset ℕ)) :
    IsOptimal E V lam P ↔ IsOptimal E' V lam P := by
  unfold IsOptimal cost
  simp only [crossWeight_perm h]

theorem crossWeight_scale (c : ℚ) (E : List Arc) (P : Finset (Finset ℕ)) :
    crossWeight (scale c E) P = c * crossWeight E P := by
  unfold crossWeight scale
  induction E with
  | nil => simp
  | cons e E ih =>
    simp only [List.map_cons, List.sum_cons, ih]
    split <;> ring

theorem isOptimal_scale {c : ℚ} (hc : 0 < c) (lam : ℚ) (P : Finset (Finset ℕ)) :
    IsOptimal (scale c E) V (c * lam) P ↔ IsOptimal E V lam P := by
  have key : ∀ R, cost (scale c E) (c * lam) R = c * cost E lam R := by
    intro R; unfold cost; rw [crossWeight_scale]; ring
  unfold IsOptimal
  simp only [key, mul_le_mul_iff_right₀ hc]

theorem IsPrincipalSequence.scale {c : ℚ} (hc : 0 < c) (h : IsPrincipalSequence E V Ps cv) :
    IsPrincipalSequence (scale c E) V Ps (cv.map (c * ·)) where
  length := by simp [h.length]
  first := h.first
  last := h.last
  refine := h.refine
  increasing := List.pairwise_map.2 (h.increasing.imp fun hab => mul_lt_mul_of_pos_left hab hc)
  optimal i P lam hi h1 h2 := by
    have hl : lam = c * (lam / c) := by field_simp
    rw [hl, isOptimal_scale hc]
    apply h.optimal i P _ hi
    · intro j d hj hji
      rw [le_div_iff₀ hc, mul_comm]
      exact h1 j (c * d) (by simp [hj]) hji
    · intro j d hj hji
      rw [div_le_iff₀ hc, mul_comm]
      exact h2 j (c * d) (by simp [hj]) hji
  unique i P lam hi h1 h2 R hR := by
    have hl : lam = c * (lam / c) := by field_simp
    rw [hl, isOptimal_scale hc] at hR
    apply h.unique i P _ hi _ _ R hR
    · intro j d hj hji
      rw [lt_div_iff₀ hc, mul_comm]
      exact h1 j (c * d) (by simp [hj]) hji
    · intro j d hj hji
      rw [div_lt_iff₀ hc, mul_comm]
      exact h2 j (c * d) (by simp [hj]) hji

theorem ValidInput.perm {n : ℕ} (h : E.Perm E') (hv : ValidInput n E) : ValidInput n E' where
  lowHigh e he := hv.lowHigh e (h.symm.subset he)
  simple := (h.pairwise_iff (fun hab hba => hab ⟨hba.1.symm, hba.2.symm⟩)).1 hv.simple
  nonneg e he := hv.nonneg e (h.symm.subset he)

theorem FineTolerance.perm {n : ℕ} {eps : ℚ} (h : E.Perm E') (hf : FineTolerance eps n E) :
    FineTolerance eps n E' := by
  obtain ⟨u, hu, hg, h1, h2⟩ := hf
  exact ⟨u, hu, fun e he => hg e (h.symm.subset he), h1, h2⟩

theorem ValidInput.scale {n : ℕ} {c : ℚ} (hc : 0 < c) (hv : ValidInput n E) :
    ValidInput n (scale c E) where
  lowHigh e he := by
    obtain ⟨a, ha, rfl⟩ := List.mem_map.1 he
    exact hv.lowHigh a ha
  simple := List.pairwise_map.2 hv.simple
  nonneg e he := by
    obtain ⟨a, ha, rfl⟩ := List.mem_map.1 he
    exact mul_nonneg (le_of_lt hc) (hv.nonneg a ha)

end PSP.Spec
