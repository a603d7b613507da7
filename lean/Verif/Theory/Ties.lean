import Verif.Theory.Unique

/-!
# Removing repeated critical values
-/

namespace PSP.Spec

variable {E : List Arc} {V : Finset ℕ} {A : Finset (Finset ℕ)} {Ps : List (Finset (Finset ℕ))}
  {cv : List ℚ} {t : List (ℚ × Finset (Finset ℕ))}

/-- A chain is linked if all neighbours are. -/
theorem linked_of_neighbours (h : ∀ (i : ℕ) (c : ℚ) (B : Finset (Finset ℕ)), t[i]? = some (c, B) → ∃ A',
    (A :: t.map Prod.snd)[i]? = some A' ∧ IsOptimal E V c A' ∧ IsOptimal E V c B ∧
      Refines B A' ∧ B ≠ A') : Linked E V A t := by
  induction t generalizing A with
  | nil => trivial
  | cons cb t ih =>
    obtain ⟨c, B⟩ := cb
    obtain ⟨A', h0, h1, h2, h3⟩ := h 0 c B rfl
    simp only [List.getElem?_cons_zero, Option.some.injEq] at h0
    subst h0
    refine ⟨h1, h2, h3, ih fun i c' B' hi => ?_⟩
    obtain ⟨A', h0, h4⟩ := h (i + 1) c' B' (by simpa using hi)
    exact ⟨A', by simpa using h0, h4⟩

theorem IsWeakPrincipalSequence.linked (h : IsWeakPrincipalSequence E V Ps cv) :
    ∃ t, Ps = {V} :: t.map Prod.snd ∧ cv = t.map Prod.fst ∧ Linked E V {V} t ∧
      lastOf {V} t = singletons V := by
  obtain ⟨ps, rfl⟩ : ∃ ps, Ps = {V} :: ps := by
    have := h.first
    cases Ps with
    | nil => simp at this
    | cons a ps => simp at this; exact ⟨ps, by rw [this]⟩
  have hlen : ps.length = cv.length := by have := h.length; simpa using this
  have e1 : (cv.zip ps).map Prod.snd = ps := List.map_snd_zip (by omega)
  have e2 : (cv.zip ps).map Prod.fst = cv := List.map_fst_zip (by omega)
  refine ⟨cv.zip ps, by rw [e1], e2.symm, ?_, ?_⟩
  · apply linked_of_neighbours
    intro i c B hi
    rw [List.getElem?_zip_eq_some] at hi
    obtain ⟨hc, hB⟩ := hi
    rw [e1]
    have hil : i < cv.length := (List.getElem?_eq_some_iff.1 hc).1
    have hg : ({V} :: ps)[i]? = some (({V} :: ps)[i]'(by simp; omega)) := List.getElem?_eq_getElem _
    have hB' : ({V} :: ps)[i+1]? = some B := by simpa using hB
    refine ⟨_, hg, ?_, ?_, ?_⟩
    · exact h.optimal i _ c hg
        (fun j c' hj hji => getElem?_mono h.nondecreasing hj hc (by omega))
        (fun j c' hj hji => getElem?_mono h.nondecreasing hc hj (by omega))
    · exact h.optimal (i+1) _ c hB'
        (fun j c' hj hji => getElem?_mono h.nondecreasing hj hc (by omega))
        (fun j c' hj hji => getElem?_mono h.nondecreasing hc hj (by omega))
    · obtain ⟨h1, h2⟩ := List.getElem?_eq_some_iff.1 hB'
      rw [← h2]
      exact List.pairwise_iff_getElem.1 h.refine i (i+1) (by simp; omega) h1 (by omega)
  · have := h.last
    rw [← e1, getLast?_linked] at this
    simpa using this

/-- `dropTies` on chains. -/
def dropT : List (ℚ × Finset (Finset ℕ)) → List (ℚ × Finset (Finset ℕ))
  | a :: b :: t => if a.1 = b.1 then dropT (b :: t) else a :: dropT (b :: t)
  | t => t

theorem dropTies_eq (A : Finset (Finset ℕ)) (t : List (ℚ × Finset (Finset ℕ))) :
    dropTies (A :: t.map Prod.snd) (t.map Prod.fst) =
      (A :: (dropT t).map Prod.snd, (dropT t).map Prod.fst) := by
  induction t generalizing A with
  | nil => simp [dropTies, dropT]
  | cons a t ih =>
    cases t with
    | nil => simp [dropTies, dropT]
    | cons b t =>
      simp only [List.map_cons] at ih ⊢
      rw [dropTies, dropT]
      by_cases h : a.1 = b.1
      · rw [if_pos h, if_pos h, ih]
      · rw [if_neg h, if_neg h, ih]
        simp

theorem dropT_ne_nil (b : ℚ × Finset (Finset ℕ)) (t : List (ℚ × Finset (Finset ℕ))) :
    ∃ B t', dropT (b :: t) = (b.1, B) :: t' := by
  induction t generalizing b with
  | nil => exact ⟨b.2, [], by simp [dropT]⟩
  | cons c t ih =>
    rw [dropT]
    by_cases h : b.1 = c.1
    · rw [if_pos h, h]; exact ih c
    · rw [if_neg h]; exact ⟨_, _, rfl⟩

theorem dropT_linked (hA : IsPartition V A) (h : Linked E V A t) : Linked E V A (dropT t) := by
  induction t generalizing A with
  | nil => trivial
  | cons a t ih =>
    cases t with
    | nil => simpa [dropT] using h
    | cons b t =>
      rw [dropT]
      obtain ⟨c, B⟩ := a
      obtain ⟨d, D⟩ := b
      by_cases hcd : c = d
      · rw [if_pos hcd]
        subst hcd
        obtain ⟨h1, h2, h3, h4, h5, h6, h7⟩ := h
        apply ih hA
        refine ⟨h1, h5, ⟨h6.1.trans h3.1, ?_⟩, h7⟩
        rintro rfl
        exact h3.2 (Refines.antisymm h2.1 h5.1 h3.1 h6.1)
      · rw [if_neg hcd]
        exact ⟨h.1, h.2.1, h.2.2.1, ih h.2.1.1 h.2.2.2⟩

theorem lastOf_dropT (A : Finset (Finset ℕ)) (t : List (ℚ × Finset (Finset ℕ))) :
    lastOf A (dropT t) = lastOf A t := by
  induction t generalizing A with
  | nil => rfl
  | cons a t ih =>
    cases t with
    | nil => rfl
    | cons b t =>
      rw [dropT]
      by_cases hcd : a.1 = b.1
      · rw [if_pos hcd, ih]; rfl
      · rw [if_neg hcd]; exact ih _

theorem mem_dropT {x : ℚ × Finset (Finset ℕ)} (h : x ∈ dropT t) : x ∈ t := by
  induction t with
  | nil => exact h
  | cons a t ih =>
    cases t with
    | nil => exact h
    | cons b t =>
      rw [dropT] at h
      by_cases hcd : a.1 = b.1
      · rw [if_pos hcd] at h; exact List.mem_cons_of_mem _ (ih h)
      · rw [if_neg hcd] at h
        rcases List.mem_cons.1 h with rfl | h
        · exact List.mem_cons_self
        · exact List.mem_cons_of_mem _ (ih h)

theorem dropT_increasing (h : (t.map Prod.fst).Pairwise (· ≤ ·)) :
    ((dropT t).map Prod.fst).Pairwise (· < ·) := by
  induction t with
  | nil => simp [dropT]
  | cons a t ih =>
    cases t with
    | nil => simp [dropT]
    | cons b t =>
      rw [dropT]
      have ht := (List.pairwise_cons.1 h).2
      by_cases hcd : a.1 = b.1
      · rw [if_pos hcd]; exact ih ht
      · rw [if_neg hcd, List.map_cons, List.pairwise_cons]
        refine ⟨fun c hc => ?_, ih ht⟩
        obtain ⟨x, hx, rfl⟩ := List.mem_map.1 hc
        have hab : a.1 < b.1 := lt_of_le_of_ne ((List.pairwise_cons.1 h).1 _ (by simp)) hcd
        have hbx : b.1 ≤ x.1 := by
          rcases List.mem_cons.1 (mem_dropT hx) with rfl | hx'
          · exact le_rfl
          · exact (List.pairwise_cons.1 ht).1 _ (List.mem_map_of_mem hx')
        exact lt_of_lt_of_le hab hbx

/-- Removing the ties of a weak principal sequence gives the principal sequence. -/
theorem IsWeakPrincipalSequence.dropTies (hE : NonnegE E) (hW : Within E V) (hV : V.Nonempty)
    (h : IsWeakPrincipalSequence E V Ps cv) :
    IsPrincipalSequence E V (dropTies Ps cv).1 (dropTies Ps cv).2 := by
  have hnd := h.nondecreasing
  obtain ⟨t, rfl, rfl, hl, hlast⟩ := h.linked
  rw [dropTies_eq]
  exact (dropT_linked (isPartition_single hV) hl).strict hE hW hV (by rw [lastOf_dropT, hlast])
    (dropT_increasing hnd)

/-- Without ties nothing is removed. -/
theorem dropTies_self (hinc : cv.Pairwise (· < ·)) : Spec.dropTies Ps cv = (Ps, cv) := by
  induction cv generalizing Ps with
  | nil => unfold Spec.dropTies; split <;> simp_all
  | cons a cv ih =>
    cases cv with
    | nil => unfold Spec.dropTies; split <;> simp_all
    | cons b cv =>
      match Ps with
      | [] => unfold Spec.dropTies; rfl
      | [P] => unfold Spec.dropTies; rfl
      | P :: Q :: Ps =>
        rw [Spec.dropTies]
        have hab := (List.pairwise_cons.1 hinc).1 b (by simp)
        rw [if_neg (ne_of_lt hab), ih (List.pairwise_cons.1 hinc).2]

end PSP.Spec
