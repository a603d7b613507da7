import Verif.Theory.Sequence

/-!
# Principal sequences are unique; what weak principal sequences determine
-/

namespace PSP.Spec

variable {E : List Arc} {V : Finset ℕ} {Ps Ps' : List (Finset (Finset ℕ))} {cv cv' : List ℚ}

/-- Position of a parameter in a nondecreasing list. -/
theorem exists_position {cv : List ℚ} (h : cv.Pairwise (· ≤ ·)) (lam : ℚ) :
    ∃ i ≤ cv.length, (∀ j c, cv[j]? = some c → j < i → c < lam) ∧
      (∀ j c, cv[j]? = some c → i ≤ j → lam ≤ c) := by
  induction cv with
  | nil => exact ⟨0, le_rfl, by simp, by simp⟩
  | cons a cv ih =>
    by_cases ha : a < lam
    · obtain ⟨i, hi, h1, h2⟩ := ih (List.pairwise_cons.1 h).2
      refine ⟨i + 1, by simpa using hi, ?_, ?_⟩
      · intro j c hj hji
        cases j with
        | zero => simp at hj; rw [← hj]; exact ha
        | succ j => exact h1 j c (by simpa using hj) (by omega)
      · intro j c hj hji
        cases j with
        | zero => omega
        | succ j => exact h2 j c (by simpa using hj) (by omega)
    · refine ⟨0, Nat.zero_le _, by simp, ?_⟩
      intro j c hj _
      have hm : c ∈ a :: cv := List.mem_of_getElem? hj
      rcases List.mem_cons.1 hm with rfl | hm
      · exact not_lt.1 ha
      · exact (not_lt.1 ha).trans ((List.pairwise_cons.1 h).1 c hm)

/-- A strictly increasing list leaves room strictly between neighbours. -/
theorem exists_strictly_between {cv : List ℚ} (h : cv.Pairwise (· < ·)) {i : ℕ}
    (hi : i ≤ cv.length) : ∃ lam, (∀ j c, cv[j]? = some c → j < i → c < lam) ∧
      (∀ j c, cv[j]? = some c → i ≤ j → lam < c) := by
  have hmono : ∀ {j k : ℕ} {c d : ℚ}, cv[j]? = some c → cv[k]? = some d → j < k → c < d := by
    intro j k c d hj hk hjk
    rw [List.getElem?_eq_some_iff] at hj hk
    obtain ⟨hj, rfl⟩ := hj
    obtain ⟨hk, rfl⟩ := hk
    exact List.pairwise_iff_getElem.1 h j k hj hk hjk
  by_cases h0 : i = 0
  · subst h0
    by_cases hl : cv.length = 0
    · refine ⟨0, by simp, ?_⟩
      intro j c hj _
      rw [List.getElem?_eq_none (by omega)] at hj; simp at hj
    · have h0' : cv[0]? = some (cv[0]'(by omega)) := List.getElem?_eq_getElem _
      refine ⟨cv[0]'(by omega) - 1, by simp, ?_⟩
      intro j c hj _
      rcases Nat.eq_zero_or_pos j with rfl | hjp
      · rw [h0'] at hj; simp at hj; linarith
      · have := hmono h0' hj hjp; linarith
  · have hlt : i - 1 < cv.length := by omega
    have hp : cv[i-1]? = some (cv[i-1]'hlt) := List.getElem?_eq_getElem _
    have hlow : ∀ j c, cv[j]? = some c → j < i → c ≤ cv[i-1]'hlt := by
      intro j c hj hji
      rcases Nat.lt_or_ge j (i-1) with h' | h'
      · exact le_of_lt (hmono hj hp h')
      · have : j = i - 1 := by omega
        subst this
        rw [hp] at hj; simp at hj; rw [hj]
    by_cases hl : i = cv.length
    · refine ⟨cv[i-1]'hlt + 1, fun j c hj hji => by linarith [hlow j c hj hji], ?_⟩
      intro j c hj hij
      rw [List.getElem?_eq_none (by omega)] at hj; simp at hj
    · have hlt' : i < cv.length := by omega
      have hq : cv[i]? = some (cv[i]'hlt') := List.getElem?_eq_getElem _
      have hpq := hmono hp hq (by omega)
      refine ⟨(cv[i-1]'hlt + cv[i]'hlt') / 2, fun j c hj hji => by linarith [hlow j c hj hji], ?_⟩
      intro j c hj hij
      rcases Nat.eq_or_lt_of_le hij with rfl | h'
      · rw [hq] at hj; simp at hj; linarith
      · have := hmono hq hj h'; linarith

theorem IsPrincipalSequence.weak (h : IsPrincipalSequence E V Ps cv) :
    IsWeakPrincipalSequence E V Ps cv where
  length := h.length
  first := h.first
  last := h.last
  refine := h.refine
  nondecreasing := h.increasing.imp le_of_lt
  optimal := h.optimal

theorem getElem?_mono {cv : List ℚ} (h : cv.Pairwise (· ≤ ·)) {j k : ℕ} {c d : ℚ}
    (hj : cv[j]? = some c) (hk : cv[k]? = some d) (hjk : j ≤ k) : c ≤ d := by
  rcases Nat.eq_or_lt_of_le hjk with rfl | hlt
  · rw [hj] at hk; simp at hk; rw [hk]
  · rw [List.getElem?_eq_some_iff] at hj hk
    obtain ⟨hj, rfl⟩ := hj
    obtain ⟨hk, rfl⟩ := hk
    exact List.pairwise_iff_getElem.1 h j k hj hk hlt

/-- In a weak principal sequence every partition is the only optimal one strictly between the
neighbouring critical values. -/
theorem IsWeakPrincipalSequence.unique (hE : NonnegE E) (h : IsWeakPrincipalSequence E V Ps cv)
    {i : ℕ} {P : Finset (Finset ℕ)} {lam : ℚ} (hi : Ps[i]? = some P)
    (h1 : ∀ j c, cv[j]? = some c → j < i → c < lam)
    (h2 : ∀ j c, cv[j]? = some c → i ≤ j → lam < c)
    {R : Finset (Finset ℕ)} (hR : IsOptimal E V lam R) : R = P := by
  have hP : IsOptimal E V lam P :=
    h.optimal i P lam hi (fun j c hj hji => le_of_lt (h1 j c hj hji))
      (fun j c hj hji => le_of_lt (h2 j c hj hji))
  have hil : i < Ps.length := by
    rw [List.getElem?_eq_some_iff] at hi; exact hi.1
  have hlen := h.length
  apply Refines.antisymm hR.1 hP.1
  · by_cases h0 : i = 0
    · subst h0
      have hf := h.first
      rw [← List.head?_eq_getElem?, hf] at hi
      simp at hi
      subst hi
      exact refines_single hR.1
    · have hlt : i - 1 < cv.length := by omega
      have hp : cv[i-1]? = some (cv[i-1]'hlt) := List.getElem?_eq_getElem _
      have hopt : IsOptimal E V (cv[i-1]'hlt) P := h.optimal i P _ hi
        (fun j c hj hji => getElem?_mono h.nondecreasing hj hp (by omega))
        (fun j c hj hji => getElem?_mono h.nondecreasing hp hj (by omega))
      exact hopt.refines hE hR (h1 _ _ hp (by omega))
  · by_cases h0 : i = cv.length
    · have hl := h.last
      rw [List.getLast?_eq_getElem?, hlen] at hl
      simp only [Nat.add_sub_cancel] at hl
      rw [← h0, hi] at hl
      simp at hl
      subst hl
      exact singletons_refines hR.1
    · have hlt : i < cv.length := by omega
      have hp : cv[i]? = some (cv[i]'hlt) := List.getElem?_eq_getElem _
      have hopt : IsOptimal E V (cv[i]'hlt) P := h.optimal i P _ hi
        (fun j c hj hji => getElem?_mono h.nondecreasing hj hp (by omega))
        (fun j c hj hji => getElem?_mono h.nondecreasing hp hj (by omega))
      exact hR.refines hE hopt (h2 _ _ hp le_rfl)

/-- The values in a weak principal sequence are exactly the critical parameters. -/
theorem IsWeakPrincipalSequence.mem_iff (hE : NonnegE E) (h : IsWeakPrincipalSequence E V Ps cv)
    (lam : ℚ) : lam ∈ cv ↔ IsCritical E V lam := by
  have hlen := h.length
  constructor
  · intro hm
    obtain ⟨k, hk, rfl⟩ := List.mem_iff_getElem.1 hm
    have hp : cv[k]? = some (cv[k]'hk) := List.getElem?_eq_getElem _
    have h1 : Ps[k]? = some (Ps[k]'(by omega)) := List.getElem?_eq_getElem _
    have h2 : Ps[k+1]? = some (Ps[k+1]'(by omega)) := List.getElem?_eq_getElem _
    refine ⟨Ps[k]'(by omega), Ps[k+1]'(by omega), ?_, ?_, ?_⟩
    · exact h.optimal k _ _ h1
        (fun j c hj hji => getElem?_mono h.nondecreasing hj hp (by omega))
        (fun j c hj hji => getElem?_mono h.nondecreasing hp hj (by omega))
    · exact h.optimal (k+1) _ _ h2
        (fun j c hj hji => getElem?_mono h.nondecreasing hj hp (by omega))
        (fun j c hj hji => getElem?_mono h.nondecreasing hp hj (by omega))
    · exact fun he => (List.pairwise_iff_getElem.1 h.refine k (k+1) (by omega) (by omega)
        (by omega)).2 he.symm
  · rintro ⟨P, Q, hP, hQ, hne⟩
    by_contra hm
    obtain ⟨i, hi, h1, h2⟩ := exists_position h.nondecreasing lam
    have h2' : ∀ j c, cv[j]? = some c → i ≤ j → lam < c := by
      intro j c hj hij
      refine lt_of_le_of_ne (h2 j c hj hij) ?_
      rintro rfl
      exact hm (List.mem_of_getElem? hj)
    have hg : Ps[i]? = some (Ps[i]'(by omega)) := List.getElem?_eq_getElem _
    exact hne ((h.unique hE hg h1 h2' hP).trans (h.unique hE hg h1 h2' hQ).symm)

/-- Every partition that is the only optimal one at some parameter occurs. -/
theorem IsWeakPrincipalSequence.mem_of_unique (hE : NonnegE E)
    (h : IsWeakPrincipalSequence E V Ps cv) {lam : ℚ} {P : Finset (Finset ℕ)}
    (hP : IsOptimal E V lam P) (hu : ¬ IsCritical E V lam) : P ∈ Ps := by
  have hlen := h.length
  rw [← h.mem_iff hE] at hu
  obtain ⟨i, hi, h1, h2⟩ := exists_position h.nondecreasing lam
  have h2' : ∀ j c, cv[j]? = some c → i ≤ j → lam < c := by
    intro j c hj hij
    refine lt_of_le_of_ne (h2 j c hj hij) ?_
    rintro rfl
    exact hu (List.mem_of_getElem? hj)
  have hg : Ps[i]? = some (Ps[i]'(by omega)) := List.getElem?_eq_getElem _
  rw [h.unique hE hg h1 h2' hP]
  exact List.getElem_mem _

/-- A weak principal sequence without repeated values is the principal sequence. -/
theorem IsWeakPrincipalSequence.strict (hE : NonnegE E) (h : IsWeakPrincipalSequence E V Ps cv)
    (hinc : cv.Pairwise (· < ·)) : IsPrincipalSequence E V Ps cv where
  length := h.length
  first := h.first
  last := h.last
  refine := h.refine
  increasing := hinc
  optimal := h.optimal
  unique _ _ _ hi h1 h2 _ hR := h.unique hE hi h1 h2 hR

/-- A graph has only one principal sequence; more generally, two graphs with the same optimal
partitions have the same one. -/
theorem IsPrincipalSequence.eq_of_optimal_iff {E' : List Arc} (hE : NonnegE E) (hE' : NonnegE E')
    (hopt : ∀ lam P, IsOptimal E V lam P ↔ IsOptimal E' V lam P)
    (h : IsPrincipalSequence E V Ps cv) (h' : IsPrincipalSequence E' V Ps' cv') :
    Ps = Ps' ∧ cv = cv' := by
  have hcv : cv = cv' := by
    have hmem : ∀ lam, lam ∈ cv ↔ lam ∈ cv' := by
      intro lam
      rw [h.weak.mem_iff hE, h'.weak.mem_iff hE']
      simp only [IsCritical, hopt]
    apply List.Perm.eq_of_pairwise' (r := fun a b : ℚ => a ≤ b)
      (h.increasing.imp le_of_lt) (h'.increasing.imp le_of_lt)
    exact (List.perm_ext_iff_of_nodup (h.increasing.imp ne_of_lt) (h'.increasing.imp ne_of_lt)).2
      hmem
  subst hcv
  refine ⟨?_, rfl⟩
  have hl := h.length
  have hl' := h'.length
  apply List.ext_getElem (by omega)
  intro i hi hi'
  obtain ⟨lam, h1, h2⟩ := exists_strictly_between h.increasing (i := i) (by omega)
  have hg : Ps[i]? = some (Ps[i]'hi) := List.getElem?_eq_getElem _
  have hg' : Ps'[i]? = some (Ps'[i]'hi') := List.getElem?_eq_getElem _
  have hP : IsOptimal E V lam (Ps[i]'hi) :=
    h.optimal i _ lam hg (fun j c hj hji => le_of_lt (h1 j c hj hji))
      (fun j c hj hji => le_of_lt (h2 j c hj hji))
  exact h'.unique i _ lam hg' h1 h2 _ ((hopt _ _).1 hP)

theorem IsPrincipalSequence.eq (hE : NonnegE E) (h : IsPrincipalSequence E V Ps cv)
    (h' : IsPrincipalSequence E V Ps' cv') : Ps = Ps' ∧ cv = cv' :=
  h.eq_of_optimal_iff hE hE (fun _ _ => Iff.rfl) h'

end PSP.Spec
