import Verif.Theory.DTApprox

/-!
# `DT::run(partition_num)` with rounded arithmetic
-/

namespace PSP.Theory

open PSP.Spec PSP.Model

namespace DSetup

variable {S : FlowSolver} {fl : ℚ → ℚ} {ao : List Arc → List Arc} {ord : Partition → List CSet} {g : Digraph} {n : ℕ}
  {u M δ W e ε : ℚ}

/-- What holds of the two partitions between which `DT::split` looks for others. -/
structure Between (fl : ℚ → ℚ) (ao : List Arc → List Arc) (ord : Partition → List CSet) (g : Digraph) (n : ℕ) (W η σ a b : ℚ)
    (Q P : Partition) : Prop where
  left : IsNearOptimal g.arcs (Finset.range n) η a Q
  right : IsNearOptimal g.arcs (Finset.range n) η b P
  nonneg : 0 ≤ a
  le : b ≤ W
  apart : η + σ < b - a
  low : ∀ R, IsPartition (Finset.range n) R → Q.card < R.card → 0 ≤ gammaF fl ao ord g Q R
  lt : Q.card < P.card

set_option maxHeartbeats 1000000 in
/-- If the truncation finds something better, its result lies strictly between the two partitions. -/
theorem next (h : DSetup S fl ao ord g n u M δ W e ε) {η σ : ℚ} (hη : η = 3 * (n * δ) + 60 * (n * n * u * W))
    (hσ : σ = η + 10 * (n * n * u * W)) {a b : ℚ} {Q P : Partition} (hb : Between fl ao ord g n W η σ a b Q P) :
    ∃ m T, dilworthDTF fl S g (gammaF fl ao ord g Q P) = .ok (m, T) ∧
      (¬ m > fl (hF fl ao ord g Q P - ε) → Between fl ao ord g n W η σ a (gammaF fl ao ord g Q P) Q T ∧
        Between fl ao ord g n W η σ (gammaF fl ao ord g Q P) b T P) := by
  obtain ⟨n1, hu, hW, hδ, huW, z1, z2, z3, d1, d2, hz, hne⟩ := h.nums
  have hε := h.pos
  have hε1 := h.le
  have hbelow := h.below
  have hη0 : 0 ≤ η := by rw [hη]; linarith
  have hησ : η ≤ σ := by rw [hσ]; linarith
  have hσ0 : 0 ≤ σ := hη0.trans hησ
  have hnη : n * η = 3 * (n * n * δ) + 60 * (n * n * n * u * W) := by rw [hη]; ring
  have hnσ : n * σ = 3 * (n * n * δ) + 70 * (n * n * n * u * W) := by rw [hσ, hη]; ring
  have hη1 : 2 * η ≤ n * η := mul_le_mul_of_nonneg_right n1 hη0
  have hσ1 : 2 * σ ≤ n * σ := mul_le_mul_of_nonneg_right n1 (hη0.trans hησ)
  have hE := h.good.good.nonneg
  -- slopes
  have slope : ∀ (a : ℚ) (Q R : Partition), IsNearOptimal g.arcs (Finset.range n) η a Q → IsPartition (Finset.range n) R →
      Q.card < R.card → a - σ ≤ gammaF fl ao ord g Q R := by
    intro a Q R hQ hR hc
    have e1 := abs_le.1 (h.gamma_err hQ.1 hR hc)
    have e2 := (gammaApos_eq h.good hQ.1 hR hc).1
    have e3 := hQ.2 R hR
    have hd : (1 : ℚ) ≤ (R.card : ℚ) - Q.card := by
      have : ((Q.card + 1 : ℕ) : ℚ) ≤ R.card := by exact_mod_cast hc
      push_cast at this
      linarith
    have e4 := cost_shift (E := g.arcs) (l := gammaApos g Q R) (m := a) Q R
    have : a - η ≤ gammaApos g Q R := by
      by_contra hlt
      push Not at hlt
      have : η * 1 ≤ η * ((R.card : ℚ) - Q.card) := mul_le_mul_of_nonneg_left hd hη0
      nlinarith
    linarith
  have slope' : ∀ (b : ℚ) (R P : Partition), IsNearOptimal g.arcs (Finset.range n) η b P → IsPartition (Finset.range n) R →
      R.card < P.card → gammaF fl ao ord g R P ≤ b + σ := by
    intro b R P hP hR hc
    have e1 := abs_le.1 (h.gamma_err hR hP.1 hc)
    have e2 := (gammaApos_eq h.good hR hP.1 hc).1
    have e3 := hP.2 R hR
    have hd : (1 : ℚ) ≤ (P.card : ℚ) - R.card := by
      have : ((R.card + 1 : ℕ) : ℚ) ≤ P.card := by exact_mod_cast hc
      push_cast at this
      linarith
    have e4 := cost_shift (E := g.arcs) (l := gammaApos g R P) (m := b) P R
    have : gammaApos g R P ≤ b + η := by
      by_contra hlt
      push Not at hlt
      have : η * 1 ≤ η * ((P.card : ℚ) - R.card) := mul_le_mul_of_nonneg_left hd hη0
      nlinarith
    linarith
  obtain ⟨hQ, hP, h0a, hbW, hab, hlow, hc⟩ := hb
  have hg1 := slope a Q P hQ hP.1 hc
  have hg2 := slope' b Q P hP hQ.1 hc
  obtain ⟨m, T, hrun, hT, hbase, hmore⟩ := h.step hQ.1 hP.1 hc rfl (hlow P hP.1 hc) (by linarith)
  rw [← hη] at hT
  set lam := gammaF fl ao ord g Q P with hlam
  have hTn : (T.card : ℚ) ≤ n := by exact_mod_cast (by simpa using hT.1.card_le : T.card ≤ n)
  have hQn : (Q.card : ℚ) ≤ n := by exact_mod_cast (by simpa using hQ.1.card_le : Q.card ≤ n)
  have hT0 : (0 : ℚ) ≤ T.card := Nat.cast_nonneg _
  have hQ0 : (0 : ℚ) ≤ Q.card := Nat.cast_nonneg _
  have hPn : (P.card : ℚ) ≤ n := by exact_mod_cast (by simpa using hP.1.card_le : P.card ≤ n)
  have hP0 : (0 : ℚ) ≤ P.card := Nat.cast_nonneg _
  have sQ := cost_shift (E := g.arcs) (l := lam) (m := a) T Q
  have sP := cost_shift (E := g.arcs) (l := lam) (m := b) T P
  have oQ := hQ.2 T hT.1
  have oP := hP.2 T hT.1
  -- `Q` and `P` have nearly the same cost at the computed parameter
  have hγ := (gammaApos_eq h.good hQ.1 hP.1 hc).1
  have herr := h.gamma_err hQ.1 hP.1 hc
  rw [← hlam] at herr
  have hcl : |cost g.arcs lam P - cost g.arcs lam Q| ≤ 10 * (n * n * n * u * W) := by
    have e := cost_shift (E := g.arcs) (l := gammaApos g Q P) (m := lam) P Q
    rw [e, hγ, sub_self, zero_sub, abs_neg, abs_mul]
    have : |(P.card : ℚ) - Q.card| ≤ n := by rw [abs_le]; constructor <;> linarith
    have := mul_le_mul herr this (abs_nonneg _) (by linarith)
    linarith
  have hcl := abs_le.1 hcl
  refine ⟨m, T, hrun, fun hm => ?_⟩
  have hne1 : Q.card ≠ T.card := by
    intro hm'
    rw [hm', sub_self, mul_zero] at sQ
    have := (hmore hm).1
    linarith
  have hne2 : P.card ≠ T.card := by
    intro hm'
    rw [hm', sub_self, mul_zero] at sP
    have := (hmore hm).2
    linarith
  obtain ⟨m1, m2⟩ := hmore hm
  -- more blocks than `Q`
  have hc1 : Q.card < T.card := by
    rcases lt_trichotomy Q.card T.card with h' | h' | h'
    · exact h'
    · exact absurd h' hne1
    · exfalso
      have hd : (T.card : ℚ) ≤ Q.card := by exact_mod_cast h'.le
      have : (a - lam) * ((Q.card : ℚ) - T.card) ≤ σ * n := by
        rcases le_total a lam with h1 | h1
        · have := mul_nonneg (by linarith : (0 : ℚ) ≤ lam - a) (by linarith : (0 : ℚ) ≤ (Q.card : ℚ) - T.card)
          have : 0 ≤ σ * n := by positivity
          linarith
        · exact mul_le_mul (by linarith) (by linarith) (by linarith) (by linarith)
      linarith
  have hc2 : T.card < P.card := by
    rcases lt_trichotomy T.card P.card with h' | h' | h'
    · exact h'
    · exact absurd h'.symm hne2
    · exfalso
      have hd : (P.card : ℚ) ≤ T.card := by exact_mod_cast h'.le
      have : (lam - b) * ((T.card : ℚ) - P.card) ≤ σ * n := by
        rcases le_total lam b with h1 | h1
        · have := mul_nonneg (by linarith : (0 : ℚ) ≤ b - lam) (by linarith : (0 : ℚ) ≤ (T.card : ℚ) - P.card)
          have : 0 ≤ σ * n := by positivity
          linarith
        · exact mul_le_mul (by linarith) (by linarith) (by linarith) (by linarith)
      linarith
  have q1 : (Q.card : ℚ) < T.card := by exact_mod_cast hc1
  have q2 : (T.card : ℚ) < P.card := by exact_mod_cast hc2
  -- the parameters are far apart
  have g1 : η + σ < lam - a := by
    by_contra hcon
    have : (lam - a) * ((T.card : ℚ) - Q.card) ≤ (η + σ) * n := by
      rcases le_total a lam with h1 | h1
      · exact mul_le_mul (not_lt.1 hcon) (by linarith) (by linarith) (by linarith)
      · have := mul_nonneg (by linarith : (0 : ℚ) ≤ a - lam) (by linarith : (0 : ℚ) ≤ (T.card : ℚ) - Q.card)
        have : 0 ≤ (η + σ) * n := by positivity
        linarith
    linarith
  have g2 : η + σ < b - lam := by
    by_contra hcon
    have : (b - lam) * ((P.card : ℚ) - T.card) ≤ (η + σ) * n := by
      rcases le_total lam b with h1 | h1
      · exact mul_le_mul (not_lt.1 hcon) (by linarith) (by linarith) (by linarith)
      · have := mul_nonneg (by linarith : (0 : ℚ) ≤ lam - b) (by linarith : (0 : ℚ) ≤ (P.card : ℚ) - T.card)
        have : 0 ≤ (η + σ) * n := by positivity
        linarith
    linarith
  exact ⟨⟨hQ, hT, h0a, by linarith, g1, hlow, hc1⟩, ⟨hT, hP, by linarith, hbW, g2,
    fun R hR hcR => by have := slope lam T R hT hR hcR; linarith, hc2⟩⟩

/-- The partitions that `DT::split` finds lie strictly between the two given ones. -/
theorem split_card (h : DSetup S fl ao ord g n u M δ W e ε) {η σ : ℚ} (hη : η = 3 * (n * δ) + 60 * (n * n * u * W))
    (hσ : σ = η + 10 * (n * n * u * W)) (k : ℕ) :
    ∀ (a b : ℚ) (Q P : Partition), Between fl ao ord g n W η σ a b Q P → P.card ≤ Q.card + k →
      ∃ r, dtSplitF fl ao ord S ε g k Q P = .ok r ∧ ∀ X ∈ r.2, Q.card < X.card ∧ X.card < P.card := by
  induction k with
  | zero => intro a b Q P hb h2; have := hb.lt; omega
  | succ k ih =>
    intro a b Q P hb hk
    have hc := hb.lt
    obtain ⟨m, T, hrun, hnext⟩ := h.next hη hσ hb
    unfold dtSplitF
    rw [if_neg (by omega), hrun]
    simp only [Outcome.ok_bind, Outcome.pure_eq]
    by_cases hm : m > fl (hF fl ao ord g Q P - ε)
    · rw [if_pos (Or.inl hm)]
      exact ⟨_, rfl, by simp⟩
    · obtain ⟨h1, h2⟩ := hnext hm
      have c1 := h1.lt
      have c2 := h2.lt
      rw [if_neg (by rintro (h | h | h) <;> [exact hm h; omega; omega])]
      obtain ⟨r1, e1, p1⟩ := ih _ _ Q T h1 (by omega)
      obtain ⟨r2, e2, p2⟩ := ih _ _ T P h2 (by omega)
      rw [e1, e2]
      refine ⟨_, rfl, fun X hX => ?_⟩
      simp only [List.mem_cons, List.mem_append] at hX
      rcases hX with rfl | hX | hX
      · exact ⟨c1, c2⟩
      · have := p1 X hX; omega
      · have := p2 X hX; omega

/-- `DT::split(Q, P, num)` returns one of the partitions of `DT::split(Q, P)`. -/
theorem splitNum (h : DSetup S fl ao ord g n u M δ W e ε) {η σ : ℚ} (hη : η = 3 * (n * δ) + 60 * (n * n * u * W))
    (hσ : σ = η + 10 * (n * n * u * W)) (num : ℤ) (k : ℕ) :
    ∀ (a b : ℚ) (Q P : Partition), Between fl ao ord g n W η σ a b Q P → P.card ≤ Q.card + k →
      ((Q.card : ℤ) < num ∨ Q.card ≤ 1) → (num ≤ P.card ∨ n ≤ P.card) →
      ∃ r R, dtSplitF fl ao ord S ε g k Q P = .ok r ∧ (∀ d, k ≤ d → dtSplitNumF fl ao ord S ε g num d Q P = .ok R) ∧
        (R = P ∨ R ∈ r.2) ∧ Q.card < R.card ∧ R.card ≤ P.card ∧ (num ≤ R.card ∨ n ≤ R.card) ∧
        ∀ X ∈ r.2, num ≤ X.card → R.card ≤ X.card := by
  induction k with
  | zero => intro a b Q P hb h2; have := hb.lt; omega
  | succ k ih =>
    intro a b Q P hb hk hQn hPn
    have hc := hb.lt
    obtain ⟨m, T, hrun, hnext⟩ := h.next hη hσ hb
    have hstep : ∀ d, k + 1 ≤ d → ∃ d', k ≤ d' ∧ d = d' + 1 := fun d hd => ⟨d - 1, by omega, by omega⟩
    unfold dtSplitF
    rw [if_neg (by omega), hrun]
    simp only [Outcome.ok_bind, Outcome.pure_eq]
    by_cases hm : m > fl (hF fl ao ord g Q P - ε)
    · rw [if_pos (Or.inl hm)]
      refine ⟨_, P, rfl, fun d hd => ?_, Or.inl rfl, hc, le_rfl, hPn, by simp⟩
      obtain ⟨d, _, rfl⟩ := hstep d hd
      unfold dtSplitNumF
      rw [if_neg (by omega), hrun]
      simp only [Outcome.ok_bind, Outcome.pure_eq]
      rw [if_pos hm]
    · obtain ⟨h1, h2⟩ := hnext hm
      have c1 := h1.lt
      have c2 := h2.lt
      rw [if_neg (by rintro (h | h | h) <;> [exact hm h; omega; omega])]
      have hone : ∀ d, dtSplitNumF fl ao ord S ε g num (d + 1) Q P =
          if (T.card : ℤ) = num then .ok T
          else if (T.card : ℤ) < num then dtSplitNumF fl ao ord S ε g num d T P
          else dtSplitNumF fl ao ord S ε g num d Q T := by
        intro d
        rw [dtSplitNumF, if_neg (by omega), hrun]
        simp only [Outcome.ok_bind, Outcome.pure_eq]
        rw [if_neg hm]
      obtain ⟨r1, e1, p1⟩ := h.split_card hη hσ k _ _ Q T h1 (by omega)
      obtain ⟨r2, e2, p2⟩ := h.split_card hη hσ k _ _ T P h2 (by omega)
      by_cases heq : (T.card : ℤ) = num
      · rw [e1, e2]
        refine ⟨_, T, rfl, fun d hd => ?_, Or.inr (by simp), c1, c2.le, Or.inl heq.ge, fun X hX hXn => ?_⟩
        · obtain ⟨d, _, rfl⟩ := hstep d hd
          rw [hone, if_pos heq]
        · omega
      by_cases hlt : (T.card : ℤ) < num
      · obtain ⟨r, R, e, eR, i1, i2, i3, i4, i5⟩ := ih _ _ T P h2 (by omega) (Or.inl hlt) hPn
        rw [e2] at e
        cases e
        rw [e1, e2]
        refine ⟨_, R, rfl, fun d hd => ?_, ?_, by omega, i3, i4, fun X hX hXn => ?_⟩
        · obtain ⟨d, hd, rfl⟩ := hstep d hd
          rw [hone, if_neg heq, if_pos hlt, eR d (by omega)]
        · rcases i1 with h | h
          · exact Or.inl h
          · exact Or.inr (by simp [h])
        · simp only [List.mem_cons, List.mem_append] at hX
          rcases hX with rfl | hX | hX
          · omega
          · have := p1 X hX; omega
          · exact i5 X hX hXn
      · obtain ⟨r, R, e, eR, i1, i2, i3, i4, i5⟩ := ih _ _ Q T h1 (by omega) hQn (Or.inl (by omega))
        rw [e1] at e
        cases e
        rw [e1, e2]
        refine ⟨_, R, rfl, fun d hd => ?_, ?_, i2, by omega, i4, fun X hX hXn => ?_⟩
        · obtain ⟨d, hd, rfl⟩ := hstep d hd
          rw [hone, if_neg heq, if_neg hlt, eR d (by omega)]
        · rcases i1 with h | h
          · exact Or.inr (by simp [h])
          · exact Or.inr (by simp [h])
        · simp only [List.mem_cons, List.mem_append] at hX
          rcases hX with rfl | hX | hX
          · exact i3
          · exact i5 X hX hXn
          · have := p2 X hX; omega

end DSetup

/-- `DT::run(num)` with rounded arithmetic returns one of the partitions that `DT::run()` returns. -/
theorem dtRunNumF_near {S : FlowSolver} {fl : ℚ → ℚ} {ao : List Arc → List Arc} {ord : Partition → List CSet}
    {g : Digraph} {n : ℕ} {u M δ W e ε : ℚ} (h : DSetup S fl ao ord g n u M δ W e ε) (num : ℤ) :
    ∃ r R, dtRunF fl ao ord S ε g = .ok r ∧ (∀ d, n ≤ d → dtRunNumF fl ao ord S ε num d g = .ok R) ∧
      IsApproximateSequence g.arcs (Finset.range n) (2 * ε) r.psp r.cv ∧
      R ∈ r.psp ∧ 1 < R.card ∧ (num ≤ R.card ∨ n ≤ R.card) ∧
      ∀ T ∈ r.psp, 1 < T.card → num ≤ T.card → R.card ≤ T.card := by
  obtain ⟨n1, hu, hW, hδ, huW, z1, z2, z3, d1, d2, hz, hne⟩ := h.nums
  have hn := h.two
  have hε1 := h.le
  have hε0 := h.pos
  have hbelow := h.below
  have hg := h.good
  have hV : (Finset.range n).Nonempty := ⟨0, by simp; omega⟩
  have hcard : (singletons (Finset.range n)).card = n := by rw [card_singletons, Finset.card_range]
  have o1 := isOptimal_single hg.good.nonneg hg.good.within hV (lam := 0) le_rfl
  have o2 := isOptimal_singletons hg.good.nonneg (lam := W)
    ((crossWeight_le_total hg.good.nonneg (singletons (Finset.range n))).2.trans h.small.total)
  have hη0 : 0 ≤ 3 * (n * δ) + 60 * (n * n * u * W) := by linarith
  obtain ⟨r, R, e, eR, i1, i2, i3, i4, i5⟩ := h.splitNum rfl rfl num n 0 W {Finset.range n}
    (singletons (Finset.range n)) ⟨⟨o1.1, fun R hR => (o1.2 R hR).trans (by linarith)⟩,
    ⟨o2.1, fun R hR => (o2.2 R hR).trans (by linarith)⟩, le_rfl, le_rfl,
    by linarith, fun R _ hc => h.start hc, by rw [hcard]; simp; omega⟩ (by rw [hcard]; simp) (by simp)
    (by rw [hcard]; simp)
  obtain ⟨r', e', hap⟩ := dtRunF_near h
  have hmem : ∀ T, T ∈ r'.psp ↔ T = {Finset.range n} ∨ T = singletons (Finset.range n) ∨ T ∈ r.2 := by
    intro T
    unfold dtRunF at e'
    rw [hg.countNodes] at e'
    simp only [makeFine_eq, makeDense] at e'
    rw [e] at e'
    simp only [Outcome.ok_bind, Outcome.pure_eq] at e'
    cases e'
    simp only [(List.perm_insertionSort _ _).mem_iff, List.mem_cons]
  refine ⟨r', R, e', fun d hd => ?_, hap, (hmem R).2 (Or.inr i1), by simpa using i2, i4, fun T hT h1 hTn => ?_⟩
  · unfold dtRunNumF
    rw [hg.countNodes]
    exact eR d hd
  · rcases (hmem T).1 hT with rfl | rfl | hT
    · simp at h1
    · exact i3
    · exact i5 T hT hTn

end PSP.Theory
