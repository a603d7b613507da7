import Verif.Theory.Ties
import Verif.Theory.Construct

/-!
# Graphs in which no optimal partition lies strictly between the finest and the coarsest
-/

namespace PSP.Spec

open PSP.Theory PSP.Model

variable {E : List Arc} {V : Finset ℕ} {Ps : List (Finset (Finset ℕ))} {cv : List ℚ}

theorem Linked.increasing_of_noBetween (hnb : NoBetween E V) {A : Finset (Finset ℕ)}
    {t : List (ℚ × Finset (Finset ℕ))} (h : Linked E V A t)
    (hle : (t.map Prod.fst).Pairwise (· ≤ ·)) : (t.map Prod.fst).Pairwise (· < ·) := by
  induction t generalizing A with
  | nil => simp
  | cons x t ih =>
    obtain ⟨c, B⟩ := x
    obtain ⟨hA, hB, ⟨hr, hne⟩, ht⟩ := h
    rw [List.map_cons, List.pairwise_cons] at hle
    have ih' := ih ht hle.2
    rw [List.map_cons, List.pairwise_cons]
    refine ⟨?_, ih'⟩
    cases t with
    | nil => simp
    | cons y t =>
      obtain ⟨d, C⟩ := y
      obtain ⟨hB', hC, ⟨hr', hne'⟩, -⟩ := ht
      have hcd : c < d := by
        refine lt_of_le_of_ne (hle.1 d (by simp)) ?_
        rintro rfl
        rcases hnb c B hB with hf | hf
        · exact hne' (Refines.antisymm hC.1 hB.1 hr' (hf C hC))
        · exact hne (Refines.antisymm hB.1 hA.1 hr (hf A hA))
      intro x hx
      rw [List.map_cons, List.mem_cons] at hx
      rcases hx with rfl | hx
      · exact hcd
      · rw [List.map_cons, List.pairwise_cons] at ih'
        exact hcd.trans (ih'.1 x hx)

/-- If no optimal partition lies strictly between others, a weak principal sequence is the principal
sequence. -/
theorem IsWeakPrincipalSequence.of_noBetween (hE : NonnegE E) (h : IsWeakPrincipalSequence E V Ps cv)
    (hnb : NoBetween E V) : IsPrincipalSequence E V Ps cv := by
  refine h.strict hE ?_
  have hnd := h.nondecreasing
  obtain ⟨t, -, rfl, hl, -⟩ := h.linked
  exact hl.increasing_of_noBetween hnb hnd

/-- Every partition that is optimal at a critical value lies between the two neighbours in the principal
sequence. -/
theorem IsPrincipalSequence.between (hE : NonnegE E) (h : IsPrincipalSequence E V Ps cv) {k : ℕ} {lam : ℚ}
    (hk : cv[k]? = some lam) : ∃ A B, Ps[k]? = some A ∧ Ps[k+1]? = some B ∧ IsOptimal E V lam A ∧
      IsOptimal E V lam B ∧ ∀ R, IsOptimal E V lam R → Refines R A ∧ Refines B R := by
  have hw := h.weak
  have hlen := h.length
  have hkl : k < cv.length := (List.getElem?_eq_some_iff.1 hk).1
  have hA : Ps[k]? = some (Ps[k]'(by omega)) := List.getElem?_eq_getElem _
  have hB : Ps[k+1]? = some (Ps[k+1]'(by omega)) := List.getElem?_eq_getElem _
  refine ⟨_, _, hA, hB, ?_, ?_, fun R hR => ⟨?_, ?_⟩⟩
  · exact h.optimal k _ _ hA
      (fun j c hj hji => getElem?_mono hw.nondecreasing hj hk (by omega))
      (fun j c hj hji => getElem?_mono hw.nondecreasing hk hj (by omega))
  · exact h.optimal (k+1) _ _ hB
      (fun j c hj hji => getElem?_mono hw.nondecreasing hj hk (by omega))
      (fun j c hj hji => getElem?_mono hw.nondecreasing hk hj (by omega))
  · by_cases h0 : k = 0
    · subst h0
      have hf := h.first
      rw [List.head?_eq_getElem?, hA] at hf
      rw [Option.some.inj hf]
      exact refines_single hR.1
    · have hlt : k - 1 < cv.length := by omega
      have hp : cv[k-1]? = some (cv[k-1]'hlt) := List.getElem?_eq_getElem _
      have hopt : IsOptimal E V (cv[k-1]'hlt) (Ps[k]'(by omega)) := h.optimal k _ _ hA
        (fun j c hj hji => getElem?_mono hw.nondecreasing hj hp (by omega))
        (fun j c hj hji => getElem?_mono hw.nondecreasing hp hj (by omega))
      refine hopt.refines hE hR ?_
      have := List.pairwise_iff_getElem.1 h.increasing (k-1) k hlt hkl (by omega)
      rw [List.getElem?_eq_getElem hkl, Option.some.injEq] at hk
      rwa [hk] at this
  · by_cases h0 : k + 1 = cv.length
    · have hl := h.last
      rw [List.getLast?_eq_getElem?, hlen] at hl
      simp only [Nat.add_sub_cancel] at hl
      rw [← h0, hB] at hl
      rw [Option.some.inj hl]
      exact singletons_refines hR.1
    · have hlt : k + 1 < cv.length := by omega
      have hp : cv[k+1]? = some (cv[k+1]'hlt) := List.getElem?_eq_getElem _
      have hopt : IsOptimal E V (cv[k+1]'hlt) (Ps[k+1]'(by omega)) := h.optimal (k+1) _ _ hB
        (fun j c hj hji => getElem?_mono hw.nondecreasing hj hp (by omega))
        (fun j c hj hji => getElem?_mono hw.nondecreasing hp hj (by omega))
      refine hR.refines hE hopt ?_
      have := List.pairwise_iff_getElem.1 h.increasing k (k+1) hkl hlt (by omega)
      rw [List.getElem?_eq_getElem hkl, Option.some.injEq] at hk
      rwa [hk] at this

/-- When each partition of the principal sequence has only one block more than the one before, no optimal
partition lies strictly between others. -/
theorem IsPrincipalSequence.noBetween (hE : NonnegE E) (h : IsPrincipalSequence E V Ps cv)
    (hcard : ∀ k A B, Ps[k]? = some A → Ps[k+1]? = some B → B.card ≤ A.card + 1) : NoBetween E V := by
  intro lam P hP
  by_cases hm : lam ∈ cv
  · obtain ⟨k, hk⟩ := List.mem_iff_getElem?.1 hm
    obtain ⟨A, B, hA, hB, hoA, hoB, hR⟩ := h.between hE hk
    have h1 := hR P hP
    have hc := hcard k A B hA hB
    have hc1 := h1.1.card_le hP.1 hoA.1
    have hc2 := h1.2.card_le hoB.1 hP.1
    by_cases he : P.card = A.card
    · right
      intro R hRo
      rw [h1.1.eq_of_card hP.1 hoA.1 (by omega)]
      exact (hR R hRo).1
    · left
      intro R hRo
      rw [← h1.2.eq_of_card hoB.1 hP.1 (by omega)]
      exact (hR R hRo).2
  · left
    intro R hRo
    by_cases he : P = R
    · rw [he]; exact fun B hB => ⟨B, hB, le_rfl⟩
    · exact absurd ((h.weak.mem_iff hE lam).2 ⟨P, R, hP, hRo, he⟩) hm

end PSP.Spec

namespace PSP.Theory

open PSP.Spec PSP.Model

theorem noBetween_input {eps : ℚ} {n : ℕ} {E : List Arc} (hv : ValidInput n E) (hn : 2 ≤ n)
    (hf : FineTolerance eps n E) (h : NoBetween E (Finset.range n)) :
    NoBetween (inputGraph eps n E).arcs (Finset.range n) := by
  intro lam P hP
  rcases h lam P ((isOptimal_input hv hn hf lam P).1 hP) with h | h
  · exact Or.inl fun R hR => h R ((isOptimal_input hv hn hf lam R).1 hR)
  · exact Or.inr fun R hR => h R ((isOptimal_input hv hn hf lam R).1 hR)

end PSP.Theory
