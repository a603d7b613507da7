import Verif.Theory.FactorScaled

/-!
# `min_norm_base`: the rational representation of the factor simulates the code
-/

namespace PSP.Theory

open PSP.Model

/-- Two outcomes of the same kind, with related values. -/
inductive OutRel {α β : Type} (R : α → β → Prop) : Outcome α → Outcome β → Prop
  | ok {a b} (h : R a b) : OutRel R (.ok a) (.ok b)
  | exc (s) : OutRel R (.exc s) (.exc s)
  | ub (s) : OutRel R (.ub s) (.ub s)
  | nan : OutRel R .nan .nan
  | fuel : OutRel R .fuel .fuel

theorem OutRel.bind {α β γ δ : Type} {R : α → β → Prop} {S : γ → δ → Prop} {x : Outcome α} {y : Outcome β}
    {f : α → Outcome γ} {g : β → Outcome δ} (h : OutRel R x y) (hf : ∀ a b, R a b → OutRel S (f a) (g b)) :
    OutRel S (x >>= f) (y >>= g) := by
  cases h with
  | ok h => exact hf _ _ h
  | exc s => exact .exc s
  | ub s => exact .ub s
  | nan => exact .nan
  | fuel => exact .fuel

theorem OutRel.refl {α : Type} {R : α → α → Prop} (h : ∀ a, R a a) (x : Outcome α) : OutRel R x x := by
  cases x with
  | ok a => exact .ok (h a)
  | exc s => exact .exc s
  | ub s => exact .ub s
  | nan => exact .nan
  | fuel => exact .fuel

theorem OutRel.eq {α : Type} {x y : Outcome α} (h : OutRel Eq x y) : x = y := by
  cases h with
  | ok h => rw [h]
  | _ => rfl

/-- `R k` relates two representations of a factor with `k` rows. -/
structure FactorSim {Λ Λ' : Type} (F : FactorOps Λ) (G : FactorOps Λ') (R : ℕ → Λ → Λ' → Prop) : Prop where
  init : ∀ c, 0 ≤ c → R 1 (F.init c) (G.init c)
  mono : ∀ {m k a b}, m ≤ k → R k a b → R m a b
  append : ∀ {k a b} v c, R k a b → OutRel (R (k + 1)) (F.append a k v c) (G.append b k v c)
  delete : ∀ {a b} del, R del.length a b → OutRel (R (kept del).length) (F.delete a del) (G.delete b del)

theorem kept_length : ∀ del : List Bool, (kept del).length = (del.filter fun b => !b).length := by
  intro del
  induction del using List.reverseRecOn with
  | nil => rfl
  | append_singleton l b ih =>
    unfold kept at ih ⊢
    rw [List.length_append, List.length_singleton, List.range_succ, List.filter_append, List.length_append,
      List.filter_append, List.length_append, ← ih]
    congr 1
    · congr 1
      apply List.filter_congr
      intro i hi
      rw [List.mem_range] at hi
      rw [List.getD_append _ _ _ _ hi]
    · have : (l ++ [b]).getD l.length false = b := by simp [List.getD_eq_getElem?_getD]
      cases b <;> simp

theorem keep_length (Q : List (List ℚ)) (w : List ℚ) (eps : ℚ) (h : w.length ≤ Q.length) :
    ((List.zip Q w).filter fun p => ¬ p.2 ≤ eps).length = (kept (w.map fun a => decide (a ≤ eps))).length := by
  rw [kept_length]
  induction w generalizing Q with
  | nil => simp
  | cons a w ih =>
    cases Q with
    | nil => simp at h
    | cons q Q =>
      have := ih Q (by simpa using h)
      by_cases ha : a ≤ eps
      · simpa [ha] using this
      · rw [not_le] at ha
        simpa [ha, not_le.2 ha] using this

section
variable {Λ Λ' : Type} {F : FactorOps Λ} {G : FactorOps Λ'} {R : ℕ → Λ → Λ' → Prop}

theorem minorCyclesL_sim (hs : FactorSim F G R) (N : Numerics) (n : ℕ) (eps : ℚ) : ∀ (fuel : ℕ)
    (Q : List (List ℚ)) (w : List ℚ) (a : Λ) (b : Λ'), R Q.length a b →
    OutRel (fun p p' => p.1 = p'.1 ∧ p.2.1 = p'.2.1 ∧ p.2.2.1 = p'.2.2.1 ∧ R p.1.length p.2.2.2 p'.2.2.2)
      (minorCyclesL F N n eps fuel Q w a) (minorCyclesL G N n eps fuel Q w b) := by
  intro fuel
  induction fuel with
  | zero => intro Q w a b _; exact .fuel
  | succ fuel ih =>
    intro Q w a b h
    unfold minorCyclesL
    dsimp only
    split
    · exact .nan
    split
    · exact .ok ⟨rfl, rfl, rfl, h⟩
    split
    · exact .ub _
    set v := (N.solve Q).map fun a => a / (N.solve Q).sum
    set w1 := List.zipWith (fun a b => (1 - theta eps (w.take Q.length) v) * a + theta eps (w.take Q.length) v * b)
      (w.take Q.length) v with hw1
    have hl : w1.length ≤ Q.length := by
      rw [hw1, List.length_zipWith, List.length_take]
      omega
    refine (hs.delete (w1.map fun a => decide (a ≤ eps)) (hs.mono (by simpa using hl) h)).bind fun a' b' h' => ?_
    refine ih _ _ a' b' ?_
    rw [List.length_map, keep_length Q w1 eps hl]
    exact h'

theorem majorCyclesL_sim (hs : FactorSim F G R) (N : Numerics) (f : SF) (tol eps : ℚ) : ∀ (fuel : ℕ)
    (Q : List (List ℚ)) (w x : List ℚ) (prev : Option ℚ) (stuck : ℕ) (a : Λ) (b : Λ'), R Q.length a b →
    majorCyclesL F N f tol eps fuel Q w x prev stuck a = majorCyclesL G N f tol eps fuel Q w x prev stuck b := by
  intro fuel
  induction fuel with
  | zero => intro Q w x prev stuck a b _; rfl
  | succ fuel ih =>
    intro Q w x prev stuck a b h
    unfold majorCyclesL
    cases edmondsGreedy f x (N.sort x) with
    | exc s => rfl
    | ub s => rfl
    | nan => rfl
    | fuel => rfl
    | ok q =>
      simp only [Outcome.ok_bind]
      split
      · rfl
      generalize (if isStuck prev |dot x q - dot x x| = true then stuck + 1 else 0) = st
      split
      · rfl
      split
      · rfl
      apply OutRel.eq
      refine (hs.append _ _ h).bind fun a' b' h' => ?_
      refine (minorCyclesL_sim hs N f.size eps (Q.length + 2) (Q ++ [q]) w a' b'
        (by rw [List.length_append]; exact h')).bind fun p p' hp => ?_
      obtain ⟨Q1, w1, x1, a1⟩ := p
      obtain ⟨Q2, w2, x2, b1⟩ := p'
      obtain ⟨h1, h2, h3, h4⟩ := hp
      dsimp only at h1 h2 h3 h4 ⊢
      subst h1 h2 h3
      rw [ih _ _ _ _ _ a1 b1 h4]
      exact OutRel.refl (fun _ => rfl) _

theorem dot_self_nonneg (x : List ℚ) : 0 ≤ dot x x := by
  induction x with
  | nil => simp [dot]
  | cons a x ih =>
    unfold dot at ih ⊢
    simp only [List.zipWith_cons_cons, List.sum_cons]
    nlinarith [mul_self_nonneg a]

theorem minNormBaseL_sim (hs : FactorSim F G R) (N : Numerics) (f : SF) (tol eps : ℚ) (fuel : ℕ) :
    minNormBaseL F N f tol eps fuel = minNormBaseL G N f tol eps fuel := by
  unfold minNormBaseL
  split
  · rfl
  split
  · rfl
  dsimp only
  cases edmondsGreedy f (List.replicate f.size 1) (N.sort (List.replicate f.size 1)) with
  | exc s => rfl
  | ub s => rfl
  | nan => rfl
  | fuel => rfl
  | ok x =>
    simp only [Outcome.ok_bind]
    exact majorCyclesL_sim hs N f tol eps fuel _ _ _ _ _ _ _ (hs.init _ (by linarith [dot_self_nonneg x]))

theorem mnbOfL_sim (hs : FactorSim F G R) (N : Numerics) (tol eps : ℚ) (fuel : ℕ) :
    mnbOfL F N tol eps fuel = mnbOfL G N tol eps fuel := by
  funext f
  unfold mnbOfL
  rw [minNormBaseL_sim hs]

end

end PSP.Theory
