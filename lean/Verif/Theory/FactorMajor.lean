import Verif.Theory.FactorDelete
import Verif.Theory.WolfeMajor

/-!
# `min_norm_base` with the factor `L`: what it adds to the results
-/

namespace PSP.Theory

open PSP.Model PSP.Spec

/-! ### nothing but the exception and divisions by zero -/

/-- The operations on `L` end normally, with the exception, or with a division by zero. -/
structure Mild {Λ : Type} (F : FactorOps Λ) : Prop where
  append : ∀ L k b c, (∃ L', F.append L k b c = .ok L') ∨ F.append L k b c = .nan ∨
    F.append L k b c = .exc "Try to set a higher functional tolerance."
  delete : ∀ L del, (∃ L', F.delete L del = .ok L') ∨ F.delete L del = .nan

theorem scaled_mild : Mild scaledFactor where
  append S k b c := by
    simp only [scaledFactor]
    split
    · exact Or.inr (Or.inl rfl)
    · split
      · exact Or.inr (Or.inr rfl)
      · exact Or.inl ⟨_, rfl⟩
  delete S del := by
    have h1 : ∀ k m j S, (∃ S', rotateFromS k m j S = .ok S') ∨ rotateFromS k m j S = .nan := by
      intro k m
      induction m with
      | zero => intro j S; exact Or.inl ⟨S, rfl⟩
      | succ m ih =>
        intro j S
        rw [rotateFromS]
        split
        · exact Or.inr rfl
        · exact ih _ _
    have h2 : ∀ l S, (∃ S', rotateAllS del l S = .ok S') ∨ rotateAllS del l S = .nan := by
      intro l
      induction l with
      | nil => intro S; exact Or.inl ⟨S, rfl⟩
      | cons i l ih =>
        intro S
        rw [rotateAllS]
        split
        · rcases h1 del.length (del.length - 1 - i) i S with ⟨S', h⟩ | h
          · rw [h]; exact ih S'
          · rw [h]; exact Or.inr rfl
        · exact ih S
    rcases h2 (List.range del.length) S with ⟨S', h⟩ | h
    · left
      refine ⟨⟨(kept del).map fun i => S'.u.getD i [], S'.d⟩, ?_⟩
      show (rotateAllS del (List.range del.length) S >>= _) = _
      rw [h]
      rfl
    · right
      show (rotateAllS del (List.range del.length) S >>= _) = _
      rw [h]
      rfl

section
variable {Λ : Type} {F : FactorOps Λ}

theorem minorCycles_quiet (N : Numerics) (n : ℕ) (eps : ℚ) : ∀ (fuel : ℕ) (Q : List (List ℚ)) (w : List ℚ),
    minorCycles N.quiet n eps fuel Q w = minorCycles N n eps fuel Q w := by
  intro fuel
  induction fuel with
  | zero => intro Q w; rfl
  | succ fuel ih =>
    intro Q w
    unfold minorCycles
    have hs : N.quiet.solve = N.solve := rfl
    simp only [hs, ih]

/-- Same corral, weights and point. -/
def SameState {Λ : Type} (p : List (List ℚ) × List ℚ × List ℚ × Λ) (p' : List (List ℚ) × List ℚ × List ℚ) : Prop :=
  p.1 = p'.1 ∧ p.2.1 = p'.2.1 ∧ p.2.2.1 = p'.2.2

theorem minorCyclesL_mild (hF : Mild F) (N : Numerics) (n : ℕ) (eps : ℚ) : ∀ (fuel : ℕ)
    (Q : List (List ℚ)) (w : List ℚ) (L : Λ),
    OutRel SameState (minorCyclesL F N n eps fuel Q w L) (minorCycles N n eps fuel Q w) ∨
      minorCyclesL F N n eps fuel Q w L = .nan := by
  intro fuel
  induction fuel with
  | zero => intro Q w L; exact Or.inl .fuel
  | succ fuel ih =>
    intro Q w L
    unfold minorCyclesL minorCycles
    dsimp only
    split
    · exact Or.inl .nan
    split
    · exact Or.inl (.ok ⟨rfl, rfl, rfl⟩)
    split
    · exact Or.inl (.ub _)
    set w1 := List.zipWith (fun a b => (1 - theta eps (w.take Q.length) ((N.solve Q).map fun a => a / (N.solve Q).sum)) *
      a + theta eps (w.take Q.length) ((N.solve Q).map fun a => a / (N.solve Q).sum) * b)
      (w.take Q.length) ((N.solve Q).map fun a => a / (N.solve Q).sum)
    rcases hF.delete L (w1.map fun a => decide (a ≤ eps)) with ⟨L', h⟩ | h
    · rw [h]
      exact ih _ _ L'
    · rw [h]
      exact Or.inr rfl

theorem majorCyclesL_mild (hF : Mild F) (N : Numerics) (f : SF) (tol eps : ℚ) : ∀ (fuel : ℕ)
    (Q : List (List ℚ)) (w x : List ℚ) (prev : Option ℚ) (stuck : ℕ) (L : Λ),
    majorCyclesL F N f tol eps fuel Q w x prev stuck L = majorCycles N.quiet f tol eps fuel Q w x prev stuck ∨
      majorCyclesL F N f tol eps fuel Q w x prev stuck L = .nan ∨
      majorCyclesL F N f tol eps fuel Q w x prev stuck L = .exc "Try to set a higher functional tolerance." := by
  intro fuel
  induction fuel with
  | zero => intro Q w x prev stuck L; exact Or.inl rfl
  | succ fuel ih =>
    intro Q w x prev stuck L
    unfold majorCyclesL majorCycles
    have hsort : N.quiet.sort = N.sort := rfl
    rw [hsort]
    cases edmondsGreedy f x (N.sort x) with
    | exc s => exact Or.inl rfl
    | ub s => exact Or.inl rfl
    | nan => exact Or.inl rfl
    | fuel => exact Or.inl rfl
    | ok q =>
      simp only [Outcome.ok_bind]
      split
      · exact Or.inl rfl
      generalize (if isStuck prev |dot x q - dot x x| = true then stuck + 1 else 0) = st
      split
      · exact Or.inl rfl
      split
      · exact Or.inl rfl
      have hth : N.quiet.throws fuel (Q ++ [q]) = false := rfl
      rw [hth]
      simp only [Bool.false_eq_true, if_false]
      have hmin : minorCycles N.quiet f.size eps (Q.length + 2) (Q ++ [q]) w =
          minorCycles N f.size eps (Q.length + 2) (Q ++ [q]) w := minorCycles_quiet _ _ _ _ _ _
      rcases hF.append L Q.length (Q.map fun p => 1 + dot p q) (1 + dot q q) with ⟨L', h⟩ | h | h
      · rw [h]
        simp only [Outcome.ok_bind]
        rcases minorCyclesL_mild hF N f.size eps (Q.length + 2) (Q ++ [q]) w L' with h2 | h2
        · rw [hmin]
          generalize minorCyclesL F N f.size eps (Q.length + 2) (Q ++ [q]) w L' = o at h2
          generalize minorCycles N f.size eps (Q.length + 2) (Q ++ [q]) w = o' at h2
          cases h2 with
          | @ok p p' hp =>
            obtain ⟨Q1, w1, x1, L1⟩ := p
            obtain ⟨Q2, w2, x2⟩ := p'
            obtain ⟨h3, h4, h5⟩ := hp
            dsimp only at h3 h4 h5
            subst h3 h4 h5
            exact ih _ _ _ _ _ L1
          | exc s => exact Or.inl rfl
          | ub s => exact Or.inl rfl
          | nan => exact Or.inl rfl
          | fuel => exact Or.inl rfl
        · rw [h2]
          exact Or.inr (Or.inl rfl)
      · rw [h]
        exact Or.inr (Or.inl rfl)
      · rw [h]
        exact Or.inr (Or.inr rfl)

theorem minNormBaseL_mild (hF : Mild F) (N : Numerics) (f : SF) (tol eps : ℚ) (fuel : ℕ) :
    minNormBaseL F N f tol eps fuel = minNormBase N.quiet f tol eps fuel ∨
      minNormBaseL F N f tol eps fuel = .nan ∨
      minNormBaseL F N f tol eps fuel = .exc "Try to set a higher functional tolerance." := by
  unfold minNormBaseL minNormBase
  split
  · exact Or.inl rfl
  split
  · exact Or.inl rfl
  dsimp only
  have hsort : N.quiet.sort = N.sort := rfl
  rw [hsort]
  cases edmondsGreedy f (List.replicate f.size 1) (N.sort (List.replicate f.size 1)) with
  | exc s => exact Or.inl rfl
  | ub s => exact Or.inl rfl
  | nan => exact Or.inl rfl
  | fuel => exact Or.inl rfl
  | ok x =>
    simp only [Outcome.ok_bind]
    exact majorCyclesL_mild hF N f tol eps fuel _ _ _ _ _ _

end

/-! ### one column at a time -/

theorem count_marked (eps : ℚ) (w : List ℚ) :
    (kept (w.map fun a => decide (a ≤ eps))).length + (w.map fun a => decide (a ≤ eps)).count true = w.length := by
  rw [kept_length]
  induction w with
  | nil => simp
  | cons a w ih =>
    by_cases ha : a ≤ eps
    · simp only [List.map_cons, ha, decide_true, List.count_cons_self, List.length_cons]
      simp only [List.filter_cons, Bool.not_true, Bool.false_eq_true, if_false]
      omega
    · simp only [List.map_cons, ha, decide_false, List.length_cons]
      rw [List.count_cons_of_ne (by simp)]
      simp only [List.filter_cons, Bool.not_false, if_true, List.length_cons]
      omega

theorem minorCyclesL_single {N : Numerics} {n : ℕ} {eps : ℚ} (hN : ∀ Q : List (List ℚ), Q ≠ [] →
      (∀ q ∈ Q, q.length = n) → Solves n Q (N.solve Q)) : ∀ (fuel : ℕ) (Q : List (List ℚ)) (w : List ℚ) (S : Scaled),
    Gram Q S → (∀ q ∈ Q, q.length = n) → Q.length ≤ w.length →
    minorCyclesL singleFactor N n eps fuel Q w () = .exc "two columns" ∨
    OutRel (fun p p' => SameState p p' ∧ Gram p.1 p.2.2.2 ∧ p.1.Sublist Q ∧ w.length ≤ p.2.1.length ∧
      p.2.2.1 = combine n p.1 (normalised (N.solve p.1)))
      (minorCyclesL scaledFactor N n eps fuel Q w S) (minorCycles N n eps fuel Q w) := by
  intro fuel
  induction fuel with
  | zero => intro Q w S _ _ _; exact Or.inr .fuel
  | succ fuel ih =>
    intro Q w S hG hlen hw
    have htl : (w.take Q.length).length = Q.length := by rw [List.length_take]; omega
    have hvl : Q ≠ [] → ((N.solve Q).map fun a => a / (N.solve Q).sum).length = Q.length := by
      intro hne
      exact ((hN Q hne hlen).proj hne hlen).length
    unfold minorCyclesL minorCycles
    dsimp only
    split
    · exact Or.inr .nan
    split
    · refine Or.inr (.ok ⟨⟨rfl, rfl, rfl⟩, hG, List.Sublist.refl _, ?_, rfl⟩)
      rw [List.length_append, List.length_drop]
      by_cases hne : Q = []
      · subst hne; simp
      · rw [hvl hne]; omega
    split
    · exact Or.inr (.ub _)
    set v := (N.solve Q).map fun a => a / (N.solve Q).sum with hv
    set w1 := List.zipWith (fun a b => (1 - theta eps (w.take Q.length) v) * a + theta eps (w.take Q.length) v * b)
      (w.take Q.length) v with hw1
    have hl : w1.length = Q.length := by
      rw [hw1, List.length_zipWith, htl]
      by_cases hne : Q = []
      · subst hne; simp
      · rw [hvl hne]; simp
    have hkeep := keep_eq eps w1 Q hl.le
    set del := w1.map fun a => decide (a ≤ eps) with hdel
    show (singleFactor.delete () del >>= fun L' => minorCyclesL singleFactor N n eps fuel _ _ L') = _ ∨ _
    by_cases hc : 2 ≤ del.count true
    · left
      have : singleFactor.delete () del = .exc "two columns" := if_pos hc
      rw [this]
      rfl
    · have h1 : singleFactor.delete () del = .ok () := if_neg hc
      rw [h1]
      simp only [Outcome.ok_bind]
      obtain ⟨S', h2, h3⟩ := hG.delete (by rw [hdel, List.length_map, hl] : del.length = Q.length) (by omega)
      rw [h2]
      simp only [Outcome.ok_bind]
      set keep := (List.zip Q w1).filter fun p => ¬ p.2 ≤ eps with hkeepdef
      have hsub : (keep.map Prod.fst).Sublist Q := by
        have : (List.zip Q w1).map Prod.fst = Q := List.map_fst_zip hl.ge
        conv_rhs => rw [← this]
        exact List.filter_sublist.map _
      have hkl : keep.length ≤ w1.length := by
        have := hsub.length_le
        rw [List.length_map] at this
        omega
      have hwlen : (keep.map Prod.snd ++ w1.drop (keep.map Prod.snd).length ++ w.drop Q.length).length = w.length := by
        simp only [List.length_append, List.length_map, List.length_drop]
        omega
      rcases ih (keep.map Prod.fst) (keep.map Prod.snd ++ w1.drop (keep.map Prod.snd).length ++ w.drop Q.length) S'
        (by rw [hkeep]; exact h3) (fun q hq => hlen q (hsub.subset hq))
        (by rw [hwlen]; exact hsub.length_le.trans hw) with h | h
      · exact Or.inl h
      · right
        generalize minorCyclesL scaledFactor N n eps fuel (keep.map Prod.fst)
          (keep.map Prod.snd ++ w1.drop (keep.map Prod.snd).length ++ w.drop Q.length) S' = o at h ⊢
        generalize minorCycles N n eps fuel (keep.map Prod.fst)
          (keep.map Prod.snd ++ w1.drop (keep.map Prod.snd).length ++ w.drop Q.length) = o' at h ⊢
        cases h with
        | ok hp => exact .ok ⟨hp.1, hp.2.1, hp.2.2.1.trans hsub, by rw [← hwlen]; exact hp.2.2.2.1, hp.2.2.2.2⟩
        | exc s => exact .exc s
        | ub s => exact .ub s
        | nan => exact .nan
        | fuel => exact .fuel

theorem minorCyclesL_unit (N : Numerics) (n : ℕ) (eps : ℚ) : ∀ (fuel : ℕ) (Q : List (List ℚ)) (w : List ℚ),
    minorCyclesL singleFactor N n eps fuel Q w () = .exc "two columns" ∨
    OutRel SameState (minorCyclesL singleFactor N n eps fuel Q w ()) (minorCycles N n eps fuel Q w) := by
  intro fuel
  induction fuel with
  | zero => intro Q w; exact Or.inr .fuel
  | succ fuel ih =>
    intro Q w
    unfold minorCyclesL minorCycles
    dsimp only
    split
    · exact Or.inr .nan
    split
    · exact Or.inr (.ok ⟨rfl, rfl, rfl⟩)
    split
    · exact Or.inr (.ub _)
    set del := (List.zipWith (fun a b => (1 - theta eps (w.take Q.length) ((N.solve Q).map fun a => a / (N.solve Q).sum)) *
      a + theta eps (w.take Q.length) ((N.solve Q).map fun a => a / (N.solve Q).sum) * b)
      (w.take Q.length) ((N.solve Q).map fun a => a / (N.solve Q).sum)).map fun a => decide (a ≤ eps)
    by_cases hc : 2 ≤ del.count true
    · left
      have : singleFactor.delete () del = .exc "two columns" := if_pos hc
      rw [this]
      rfl
    · have h1 : singleFactor.delete () del = .ok () := if_neg hc
      rw [h1]
      exact ih _ _

theorem combine_nil (n : ℕ) (w y : List ℚ) (hy : y.length = n) : dot (combine n [] w) y = 0 := by
  rw [dot_combine _ _ _ (by simp) hy, cmb_nil_left]

/-- What holds before each major cycle, for every precision. -/
structure PlainInv (N : Numerics) (f : SF) (Q : List (List ℚ)) (w x : List ℚ) (S : Scaled) : Prop where
  mem : ∀ q ∈ Q, q ∈ greedyPoints f
  indep : Indep f.size Q
  point : x = combine f.size Q (normalised (N.solve Q))
  weights : f.size + 1 ≤ w.length
  gram : Gram Q S

variable {N : Numerics} {f : SF} {φ : Finset ℕ → ℚ} {eps tol : ℚ}

theorem majorCyclesL_single (hN : ExactNumerics N f.size) (hn : 0 < f.size) (hf : Computes f φ)
    (hφ : Submodular (Finset.range f.size) φ) (htol : 0 < tol) : ∀ (fuel : ℕ)
    (Q : List (List ℚ)) (w x : List ℚ) (prev : Option ℚ) (stuck : ℕ) (S : Scaled), PlainInv N f Q w x S →
    majorCyclesL singleFactor N f tol eps fuel Q w x prev stuck () = .exc "two columns" ∨
    majorCyclesL singleFactor N f tol eps fuel Q w x prev stuck () =
        majorCycles N.quiet f tol eps fuel Q w x prev stuck ∧
      majorCyclesL scaledFactor N f tol eps fuel Q w x prev stuck S =
        majorCycles N.quiet f tol eps fuel Q w x prev stuck := by
  intro fuel
  induction fuel with
  | zero => intro Q w x prev stuck S _; exact Or.inr ⟨rfl, rfl⟩
  | succ fuel ih =>
    intro Q w x prev stuck S hI
    have hlen : ∀ q ∈ Q, q.length = f.size := fun q hq => (greedyPoints_spec hf hφ (hI.mem q hq)).1
    have hxl : x.length = f.size := by rw [hI.point]; exact combine_length _ _ _
    have hsort := hN.sort x hxl
    set q := greedyPoint f (N.sort x) with hq
    have hqm : q ∈ greedyPoints f := greedyPoint_mem hxl hsort
    obtain ⟨hql, hqb⟩ := greedyPoints_spec hf hφ hqm
    have hgreedy : edmondsGreedy f x (N.sort x) = .ok q := by
      unfold edmondsGreedy
      rw [if_neg (by rw [hxl]; simp)]
      rfl
    unfold majorCyclesL majorCycles
    have hs : N.quiet.sort = N.sort := rfl
    rw [hs, hgreedy]
    simp only [Outcome.ok_bind]
    by_cases hopt : |dot x q - dot x x| < tol
    · rw [if_pos hopt, if_pos hopt, if_pos hopt]
      exact Or.inr ⟨rfl, rfl⟩
    rw [if_neg hopt, if_neg hopt, if_neg hopt]
    generalize (if isStuck prev |dot x q - dot x x| = true then stuck + 1 else 0) = st
    split
    · exact Or.inr ⟨rfl, rfl⟩
    rw [if_neg (not_lt.2 hI.indep.length_le), if_neg (not_lt.2 hI.indep.length_le),
      if_neg (not_lt.2 hI.indep.length_le)]
    have hth : N.quiet.throws fuel (Q ++ [q]) = false := rfl
    rw [hth]
    simp only [Bool.false_eq_true, if_false]
    have hQne : Q ≠ [] := by
      rintro rfl
      apply hopt
      rw [hI.point, combine_nil _ _ _ hql, combine_nil _ _ _ (combine_length _ _ _)]
      simpa using htol
    have hproj := (hN.solve Q hQne hlen).proj hQne hlen
    have hind : Indep f.size (Q ++ [q]) := by
      refine hI.indep.snoc hn hxl (c := φ (Finset.range f.size) - φ ∅) (d := dot x x) ?_ hql hqb.1 ?_
      · intro p hp
        obtain ⟨h1, h2⟩ := greedyPoints_spec hf hφ (hI.mem p hp)
        refine ⟨h1, h2.1, ?_⟩
        rw [hI.point]
        exact hproj.orth p hp
      · intro h
        apply hopt
        rw [h, sub_self]
        simpa using htol
    have hlen' : ∀ p ∈ Q ++ [q], p.length = f.size := by
      intro p hp
      rcases List.mem_append.1 hp with hp | hp
      · exact hlen p hp
      · rw [List.mem_singleton] at hp; rw [hp]; exact hql
    obtain ⟨S1, ha, hG1⟩ := hI.gram.append hlen' hind
    have ha' : singleFactor.append () Q.length (Q.map fun p => 1 + dot p q) (1 + dot q q) = .ok () := rfl
    rw [ha, ha', minorCycles_quiet]
    simp only [Outcome.ok_bind]
    rcases minorCyclesL_single (eps := eps) hN.solve (Q.length + 2) (Q ++ [q]) w S1 hG1 hlen'
      (hind.length_le.trans (by have := hI.weights; omega)) with h | h
    · left
      rw [h]
      rfl
    · have hU := minorCyclesL_unit N f.size eps (Q.length + 2) (Q ++ [q]) w
      generalize minorCyclesL scaledFactor N f.size eps (Q.length + 2) (Q ++ [q]) w S1 = o at h ⊢
      generalize minorCycles N f.size eps (Q.length + 2) (Q ++ [q]) w = o' at h hU ⊢
      generalize minorCyclesL singleFactor N f.size eps (Q.length + 2) (Q ++ [q]) w () = o'' at hU ⊢
      rcases hU with hU | hU
      · rw [hU]; exact Or.inl rfl
      cases h with
      | exc s => cases hU; exact Or.inr ⟨rfl, rfl⟩
      | ub s => cases hU; exact Or.inr ⟨rfl, rfl⟩
      | nan => cases hU; exact Or.inr ⟨rfl, rfl⟩
      | fuel => cases hU; exact Or.inr ⟨rfl, rfl⟩
      | @ok p p' hp =>
        obtain ⟨Q1, w1, x1, T1⟩ := p
        obtain ⟨Q2, w2, x2⟩ := p'
        obtain ⟨⟨h3, h4, h5⟩, h6, h7, h8, h9⟩ := hp
        dsimp only at h3 h4 h5 h6 h7 h8 h9
        subst h3 h4 h5
        obtain ⟨p'', rfl, k1, k2, k3⟩ : ∃ p'', o'' = .ok p'' ∧ p''.1 = Q1 ∧ p''.2.1 = w1 ∧ p''.2.2.1 = x1 := by
          cases hU with
          | ok h => exact ⟨_, rfl, h.1, h.2.1, h.2.2⟩
        obtain ⟨Q3, w3, x3, u⟩ := p''
        dsimp only at k1 k2 k3
        subst k1 k2 k3
        refine ih _ _ _ _ _ T1 ⟨?_, hind.sublist h7, h9, hI.weights.trans h8, h6⟩
        intro p hp
        rcases List.mem_append.1 (h7.subset hp) with hp | hp
        · exact hI.mem p hp
        · rw [List.mem_singleton] at hp; rw [hp]; exact hqm

theorem point_single {n : ℕ} (hN : ExactNumerics N n) {x : List ℚ} (hx : x.length = n) :
    normalised (N.solve [x]) = [1] ∧ combine n [x] (normalised (N.solve [x])) = x := by
  have hlen1 : ∀ q ∈ [x], q.length = n := by
    intro q hq; rw [List.mem_singleton] at hq; rw [hq]; exact hx
  have hproj := (hN.solve [x] (by simp) hlen1).proj (by simp) hlen1
  have hv1 : normalised (N.solve [x]) = [1] := by
    obtain ⟨a, ha⟩ : ∃ a, normalised (N.solve [x]) = [a] := by
      have := hproj.length
      simp only [List.length_singleton] at this
      exact List.length_eq_one_iff.1 this
    have hs := hproj.sum
    rw [ha] at hs ⊢
    simp only [List.sum_cons, List.sum_nil, add_zero] at hs
    rw [hs]
  refine ⟨hv1, ?_⟩
  rw [hv1]
  apply List.ext_getElem
  · rw [combine_length, hx]
  · intro i h1 h2
    rw [combine_length] at h1
    rw [← List.getD_eq_getElem _ 0 (by rw [combine_length]; exact h1), combine_getD _ _ h1,
      ← List.getD_eq_getElem x 0 h2]
    simp

/-- As long as no minor cycle removes two columns, neither `L` nor the monitor changes anything. -/
theorem minNormBaseL_single (hN : ExactNumerics N f.size) (hf : Computes f φ)
    (hφ : Submodular (Finset.range f.size) φ) (htol : 0 < tol) (fuel : ℕ) :
    minNormBaseL singleFactor N f tol eps fuel = .exc "two columns" ∨
    minNormBaseL singleFactor N f tol eps fuel = minNormBase N.quiet f tol eps fuel ∧
      minNormBaseL scaledFactor N f tol eps fuel = minNormBase N.quiet f tol eps fuel := by
  unfold minNormBaseL minNormBase
  split
  · exact Or.inr ⟨rfl, rfl⟩
  split
  · exact Or.inr ⟨rfl, rfl⟩
  next h1 h2 =>
  dsimp only
  have hol : (List.replicate f.size (1 : ℚ)).length = f.size := by simp
  have hos := hN.sort _ hol
  set x0 := greedyPoint f (N.sort (List.replicate f.size 1)) with hx0
  have hx0m : x0 ∈ greedyPoints f := greedyPoint_mem hol hos
  obtain ⟨hx0l, hx0b⟩ := greedyPoints_spec hf hφ hx0m
  have hgreedy : edmondsGreedy f (List.replicate f.size 1) (N.sort (List.replicate f.size 1)) = .ok x0 := by
    unfold edmondsGreedy
    rw [if_neg (by rw [hol]; simp)]
    rfl
  have hs : N.quiet.sort = N.sort := rfl
  rw [hs, hgreedy]
  simp only [Outcome.ok_bind]
  refine majorCyclesL_single hN (by omega) hf hφ htol fuel _ _ _ _ _ _ ⟨by simpa using hx0m,
    indep_single (by omega) _, (point_single hN hx0l).2.symm, by simp, Gram.init x0⟩

end PSP.Theory
