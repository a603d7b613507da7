import Verif.Theory.FactorMajor

/-!
# `min_norm_base` with the factor `L` on at most three elements
-/

namespace PSP.Theory

open PSP.Model PSP.Spec

variable {N : Numerics} {f : SF} {φ : Finset ℕ → ℚ} {eps tol : ℚ}

/-- Deleting the first two of three columns does not divide by zero. -/
theorem delete_three {Q : List (List ℚ)} {S : Scaled} (hG : Gram Q S) (hl : Q.length = 3) :
    ∃ S', scaledFactor.delete S [true, true, false] = .ok S' := by
  obtain ⟨S1, h1, hP⟩ := Pass.from 2 0 S (hl ▸ hG.pass 0) le_rfl (by omega)
  have hz := hP.zero 2 (by omega) (by omega) (by omega)
  have hc : 0 < S1.uu 2 1 * S1.uu 2 1 * S1.dd 1 + S1.uu 2 2 * S1.uu 2 2 * S1.dd 2 := by
    have h1 := mul_self_pos.2 hz.2
    have h2 := mul_pos h1 (hP.pos 1 (by omega))
    rw [hz.1]
    simp only [Nat.add_one_sub_one] at h2
    linarith
  have h2 : rotateFromS 3 1 1 S1 = .ok (rotateS 3 1 S1) := by
    rw [rotateFromS, if_neg hc.ne']
    rfl
  have h3 : rotateAllS [true, true, false] (List.range 3) S = .ok (rotateS 3 1 S1) := by
    show (rotateFromS 3 2 0 S >>= fun S' => rotateFromS 3 1 1 S' >>= fun S'' => Outcome.ok S'') = _
    rw [h1]
    show (rotateFromS 3 1 1 S1 >>= fun S'' => Outcome.ok S'') = _
    rw [h2]
    rfl
  refine ⟨⟨(kept [true, true, false]).map fun i => (rotateS 3 1 S1).u.getD i [], (rotateS 3 1 S1).d⟩, ?_⟩
  show (rotateAllS [true, true, false] (List.range 3) S >>= _) = _
  rw [h3]
  rfl

section
variable {n : ℕ}

/-- The minor cycle in the form used below. -/
theorem minor_unfold {Λ : Type} (F : FactorOps Λ) {Q : List (List ℚ)} {w rest : List ℚ} (hl : w.length = Q.length)
    (hsum : (N.solve Q).sum ≠ 0) (hQ : Q.length ≤ n) (hall : ∃ a ∈ normalised (N.solve Q), a ≤ eps) {w1 : List ℚ}
    (hw1 : w1 = mix (theta eps w (normalised (N.solve Q))) w (normalised (N.solve Q))) (fuel : ℕ) (L : Λ) :
    minorCyclesL F N n eps (fuel + 1) Q (w ++ rest) L =
      F.delete L (w1.map fun a => decide (a ≤ eps)) >>= fun L' => minorCyclesL F N n eps fuel
        (((List.zip Q w1).filter fun p => ¬ p.2 ≤ eps).map Prod.fst)
        (((List.zip Q w1).filter fun p => ¬ p.2 ≤ eps).map Prod.snd ++
          w1.drop (((List.zip Q w1).filter fun p => ¬ p.2 ≤ eps).map Prod.snd).length ++ rest) L' := by
  have htake : (w ++ rest).take Q.length = w := by rw [← hl, List.take_left]
  have hdrop : (w ++ rest).drop Q.length = rest := by rw [← hl, List.drop_left]
  rw [minorCyclesL]
  simp only []
  rw [if_neg (fun hc => hsum hc.2), htake, hdrop]
  show (if ¬ ∃ a ∈ normalised (N.solve Q), a ≤ eps then _ else _) = _
  rw [if_neg (not_not.2 hall)]
  show (if n < Q.length ∧ _ then _ else _) = _
  rw [if_neg (fun hc => absurd hQ (by omega))]
  subst hw1
  rfl

theorem minor_stop {Λ : Type} (F : FactorOps Λ) {Q : List (List ℚ)} {w rest : List ℚ} (hl : w.length = Q.length)
    (hsum : (N.solve Q).sum ≠ 0) (hall : ¬ ∃ a ∈ normalised (N.solve Q), a ≤ eps) (fuel : ℕ) (L : Λ) :
    minorCyclesL F N n eps (fuel + 1) Q (w ++ rest) L =
      .ok (Q, normalised (N.solve Q) ++ rest, combine n Q (normalised (N.solve Q)), L) := by
  have hdrop : (w ++ rest).drop Q.length = rest := by rw [← hl, List.drop_left]
  rw [minorCyclesL]
  simp only []
  rw [if_neg (fun hc => hsum hc.2), hdrop]
  show (if ¬ ∃ a ∈ normalised (N.solve Q), a ≤ eps then _ else _) = _
  rw [if_pos hall]
  rfl

variable (hN : ∀ Q : List (List ℚ), Q ≠ [] → (∀ q ∈ Q, q.length = n) → Solves n Q (N.solve Q)) (heps : 0 < eps)
  {x : List ℚ} {R : Finset (List (List ℚ) × List ℚ)} {K : ℕ}
  (hsmall : SmallEps (fun Q => normalised (N.solve Q)) (reach (fun Q => normalised (N.solve Q)) R K) eps)
include hN heps hsmall

/-- With at most one old column, no minor cycle removes two. -/
theorem minor_one : ∀ (fuel m : ℕ) (Q0 : List (List ℚ)) (q w0 : List ℚ) (s0 s : ℚ) (rest : List ℚ),
    MInv n x Q0 q w0 s0 s rest → Indep n (Q0 ++ [q]) →
    (Q0 ++ [q], w0 ++ [s0]) ∈ reach (fun Q => normalised (N.solve Q)) R m → m + Q0.length ≤ K → Q0.length ≤ 1 →
    minorCyclesL singleFactor N n eps fuel (Q0 ++ [q]) (w0 ++ [s] ++ rest) () ≠ .exc "two columns" := by
  intro fuel
  induction fuel with
  | zero => intro m Q0 q w0 s0 s rest _ _ _ _ _ h; cases h
  | succ fuel ih =>
    intro m Q0 q w0 s0 s rest hI hind hreach hm h1
    obtain ⟨hsum, -, hstep⟩ := minorStep_spec hN heps hsmall hI hreach hm
    have hl : (w0 ++ [s]).length = (Q0 ++ [q]).length := by simp [hI.wlen]
    by_cases hall : ∃ a ∈ normalised (N.solve (Q0 ++ [q])), a ≤ eps
    swap
    · rw [minor_stop _ hl hsum hall]
      intro h; cases h
    obtain ⟨t, w1, m0, keep0, s1, s1', ht, ht1, hw1, hw1m, hm0, hs1, hk0, hkeep, hsubl, hlt, -, hI', hreach'⟩ :=
      hstep hall
    rw [minor_unfold _ hl hsum hind.length_le hall (ht ▸ hw1)]
    have hdel : singleFactor.delete () (w1.map fun a => decide (a ≤ eps)) = .ok () := by
      apply if_neg
      have hc : (w1.map fun a => decide (a ≤ eps)).count true ≤ 1 := by
        rw [hw1m, List.map_append, List.count_append, List.map_singleton, decide_eq_false (not_le.2 hs1)]
        have := List.count_le_length (a := true) (l := m0.map fun a => decide (a ≤ eps))
        rw [List.length_map] at this
        have h0 : List.count true [false] = 0 := rfl
        omega
      omega
    rw [hdel, hkeep]
    simp only [Outcome.ok_bind, List.map_append, List.map_cons, List.map_nil]
    have := ih (m + 1) _ q _ _ _ _ hI' (hind.sublist (hsubl.append (List.Sublist.refl _))) hreach'
      (by rw [List.length_map]; omega) (by rw [List.length_map]; omega)
    rw [← List.append_assoc] at this
    exact this

/-- With two old columns, a minor cycle that removes two removes them, and then the new column is the result. -/
theorem minor_two {fuel m : ℕ} {Q0 : List (List ℚ)} {q w0 : List ℚ} {s0 s : ℚ} {rest : List ℚ}
    (hI : MInv n x Q0 q w0 s0 s rest) (hind : Indep n (Q0 ++ [q]))
    (hreach : (Q0 ++ [q], w0 ++ [s0]) ∈ reach (fun Q => normalised (N.solve Q)) R m) (hm : m + Q0.length ≤ K)
    (h2 : Q0.length = 2) {S : Scaled} (hG : Gram (Q0 ++ [q]) S)
    (htwo : minorCyclesL singleFactor N n eps (fuel + 2) (Q0 ++ [q]) (w0 ++ [s] ++ rest) () = .exc "two columns") :
    (∃ w' S', minorCyclesL scaledFactor N n eps (fuel + 2) (Q0 ++ [q]) (w0 ++ [s] ++ rest) S =
      .ok ([q], w', combine n [q] (normalised (N.solve [q])), S')) ∧
    ∃ t : ℚ, t ≤ 1 ∧ ∀ p : List ℚ, p.length = n → dot q p = (1 - t) * dot (combine n (Q0 ++ [q]) (w0 ++ [s0])) p +
      t * dot (combine n (Q0 ++ [q]) (normalised (N.solve (Q0 ++ [q])))) p := by
  obtain ⟨hsum, -, hstep⟩ := minorStep_spec hN heps hsmall hI hreach hm
  have hl : (w0 ++ [s]).length = (Q0 ++ [q]).length := by simp [hI.wlen]
  by_cases hall : ∃ a ∈ normalised (N.solve (Q0 ++ [q])), a ≤ eps
  swap
  · rw [minor_stop _ hl hsum hall] at htwo
    cases htwo
  obtain ⟨t, w1, m0, keep0, s1, s1', ht, ht1, hw1, hw1m, hm0, hs1, hk0, hkeep, hsubl, hlt, hz, hI', hreach'⟩ :=
    hstep hall
  have hind' := hind.sublist (hsubl.append (List.Sublist.refl [q]))
  rw [minor_unfold _ hl hsum hind.length_le hall (ht ▸ hw1)] at htwo
  by_cases hk : keep0 = []
  swap
  · -- a single column is removed, and later at most one old column is left
    exfalso
    have hdel : singleFactor.delete () (w1.map fun a => decide (a ≤ eps)) = .ok () := by
      apply if_neg
      have hcm := count_marked eps w1
      rw [← keep_length (Q0 ++ [q]) w1 eps (by rw [hw1m]; simp [hm0]), hkeep, hw1m] at hcm
      have hkl : 0 < keep0.length := List.length_pos_iff.2 hk
      simp only [List.length_append, List.length_singleton] at hcm
      rw [← hw1m] at hcm
      omega
    rw [hdel, hkeep] at htwo
    simp only [Outcome.ok_bind, List.map_append, List.map_cons, List.map_nil] at htwo
    have := minor_one hN heps hsmall (fuel + 1) (m + 1) _ q _ _ _ _ hI' hind' hreach'
      (by rw [List.length_map]; omega) (by rw [List.length_map]; omega)
    rw [← List.append_assoc] at this
    exact this htwo
  subst hk
  have hq1 : q.length = n := hI.len q (by simp)
  constructor
  · rw [minor_unfold _ hl hsum hind.length_le hall (ht ▸ hw1)]
    have hdel : (w1.map fun a => decide (a ≤ eps)) = [true, true, false] := by
      obtain ⟨a, b, rfl⟩ : ∃ a b, m0 = [a, b] := List.length_eq_two.1 (hm0.trans h2)
      obtain ⟨p1, p2, rfl⟩ : ∃ p1 p2, Q0 = [p1, p2] := List.length_eq_two.1 h2
      have hk' : ∀ z ∈ List.zip [p1, p2] [a, b], z.2 ≤ eps := by
        intro z hz
        have := List.filter_eq_nil_iff.1 hk0.symm z hz
        simpa using this
      have ha : a ≤ eps := hk' (p1, a) (by simp)
      have hb : b ≤ eps := hk' (p2, b) (by simp)
      rw [hw1m]
      simp only [List.cons_append, List.nil_append, List.map_cons, List.map_nil, ha, hb, not_le.2 hs1, decide_true,
        decide_false]
    rw [hdel]
    obtain ⟨S', hS'⟩ := delete_three hG (by simp [h2])
    rw [hS', hkeep]
    simp only [Outcome.ok_bind, List.nil_append, List.map_cons, List.map_nil]
    have hsol := hN [q] (by simp) (by simpa using hq1)
    have hne := hsol.sum_ne (by simp) (by simpa using hq1)
    have hproj := hsol.proj (by simp) (by simpa using hq1)
    have hall' : ¬ ∃ a ∈ normalised (N.solve [q]), a ≤ eps := by
      rintro ⟨a, ha, hae⟩
      have hlen1 := hproj.length
      have hs1 := hproj.sum
      obtain ⟨b, hb⟩ := List.length_eq_one_iff.1 hlen1
      rw [hb] at hs1 ha
      simp only [List.sum_cons, List.sum_nil, add_zero] at hs1
      simp only [List.mem_singleton] at ha
      subst ha hs1
      have := (hsmall _ (reach_mono _ _ (by omega : m + 1 ≤ K) hreach')).1 1
      simp only [List.map_nil, List.nil_append] at this
      rw [hb] at this
      exact absurd (this (by simp) (by norm_num)) (not_lt.2 hae)
    have := minor_stop (n := n) (eps := eps) scaledFactor (w := [s1'])
      (rest := w1.drop [s1'].length ++ rest) (Q := [q]) rfl hne hall' fuel S'
    rw [← List.append_assoc] at this
    exact ⟨_, S', this⟩
  · refine ⟨t, ht1, fun p hp => ?_⟩
    rw [← hz p hp]
    have hs := hI'.sum
    simp only [List.map_nil, List.sum_nil, zero_add] at hs
    rw [hs]
    simp only [List.map_nil, List.nil_append]
    rw [dot_combine _ _ _ (by simpa using hq1) hp]
    simp [cmb]

end

theorem majorCyclesL_small (hN : ExactNumerics N f.size) (hn : 0 < f.size) (hn3 : f.size ≤ 3) (hf : Computes f φ)
    (hφ : Submodular (Finset.range f.size) φ) (heps : 0 < eps) (htol : 0 < tol)
    (hsmall : SmallEps (vOf N) (reach (vOf N) (starts N f) (f.size + 1)) eps) : ∀ (fuel : ℕ)
    (Q : List (List ℚ)) (w x : List ℚ) (prev : Option ℚ) (stuck : ℕ) (S : Scaled), MajInv N f eps Q w x → Gram Q S →
    majorCyclesL scaledFactor N f tol eps fuel Q w x prev stuck S =
      majorCycles N.quiet f tol eps fuel Q w x prev stuck := by
  intro fuel
  induction fuel with
  | zero => intro Q w x prev stuck S _ _; rfl
  | succ fuel ih =>
    intro Q w x prev stuck S hI hG
    have hlen : ∀ q ∈ Q, q.length = f.size := fun q hq => (greedyPoints_spec hf hφ (hI.mem q hq)).1
    have hbase := hI.base hN hf hφ heps
    have hxl : x.length = f.size := by rw [hI.point]; exact combine_length _ _ _
    have hsort := hN.sort x hxl
    have hmin := greedy_min hf hφ hxl hsort hbase
    have hqm : greedyPoint f (N.sort x) ∈ greedyPoints f := greedyPoint_mem hxl hsort
    have hgreedyOf : ∀ z : List ℚ, z.length = f.size → edmondsGreedy f z (N.sort z) = .ok (greedyPoint f (N.sort z)) := by
      intro z hz
      unfold edmondsGreedy
      rw [if_neg (by rw [hz]; simp)]
      rfl
    obtain ⟨hql, hqb⟩ := greedyPoints_spec hf hφ hqm
    rw [← dot_inner hxl hql, ← dot_inner hxl hxl] at hmin
    unfold majorCyclesL majorCycles
    have hs : N.quiet.sort = N.sort := rfl
    rw [hs, hgreedyOf x hxl]
    simp only [Outcome.ok_bind]
    by_cases hopt : |dot x (greedyPoint f (N.sort x)) - dot x x| < tol
    · rw [if_pos hopt, if_pos hopt]
    rw [if_neg hopt, if_neg hopt]
    generalize (if isStuck prev |dot x (greedyPoint f (N.sort x)) - dot x x| = true then stuck + 1 else 0) = st
    split
    · rfl
    rw [if_neg (not_lt.2 hI.indep.length_le), if_neg (not_lt.2 hI.indep.length_le)]
    have hth : N.quiet.throws fuel (Q ++ [greedyPoint f (N.sort x)]) = false := rfl
    rw [hth]
    simp only [Bool.false_eq_true, if_false]
    have hgap : dot x (greedyPoint f (N.sort x)) < dot x x := by
      refine lt_of_le_of_ne hmin fun h => hopt ?_
      rw [h, sub_self]
      simpa using htol
    obtain ⟨s, rest, hw, hrl, -, hM, hsame, hind, hstart⟩ := hI.start hN hn hf hφ heps hgap
    obtain ⟨Q', w', x', hrun, hI', -, -⟩ := majorStep_spec hN hn hf hφ heps hsmall hI hgap
    set q := greedyPoint f (N.sort x) with hq
    obtain ⟨S1, ha, hG1⟩ := hG.append hM.len hind
    rw [ha, minorCycles_quiet, hrun]
    simp only [Outcome.ok_bind]
    have hQlen : Q.length + 1 ≤ f.size := by simpa using hind.length_le
    rcases minorCyclesL_single (eps := eps) hN.solve (Q.length + 2) (Q ++ [q]) w S1 hG1 hM.len
      (by rw [hw]; simp [hM.wlen]) with h | h
    · -- two columns at once
      by_cases h1 : Q.length ≤ 1
      · exfalso
        rw [hw] at h
        exact minor_one hN.solve heps hsmall _ 0 Q q (vOf N Q) 0 s rest hM hind hstart (by omega) h1 h
      have h2 : Q.length = 2 := by omega
      rw [hw] at h hrun ⊢
      obtain ⟨⟨w2, S2, hr⟩, t, ht1, hz⟩ := minor_two hN.solve heps hsmall hM hind hstart (by omega) h2 hG1
        (fuel := Q.length) h
      have hpt : combine f.size [q] (normalised (N.solve [q])) = q := (point_single hN hql).2
      rw [hpt] at hr
      rw [hr]
      simp only [Outcome.ok_bind]
      have hsame' := minorCyclesL_mild scaled_mild N f.size eps (Q.length + 2) (Q ++ [q]) (vOf N Q ++ [s] ++ rest) S1
      rw [hr, hrun] at hsame'
      have hst : SameState ([q], w2, q, S2) (Q', w', x') := by
        rcases hsame' with h | h
        · cases h with
          | ok h => exact h
        · cases h
      obtain ⟨e1, e2, e3⟩ := hst
      dsimp only at e1 e2 e3
      subst e1 e2 e3
      -- the new column is optimal
      cases fuel with
      | zero => rfl
      | succ fuel =>
        unfold majorCyclesL majorCycles
        rw [hs, hgreedyOf q hql]
        simp only [Outcome.ok_bind]
        have hq'm : greedyPoint f (N.sort q) ∈ greedyPoints f := greedyPoint_mem hql (hN.sort q hql)
        have hq' := greedyPoints_spec hf hφ hq'm
        have hm1 := greedy_min hf hφ hql (hN.sort q hql) hqb
        have hm2 := greedy_min hf hφ hxl hsort hq'.2
        rw [← dot_inner hql hq'.1, ← dot_inner hql hql] at hm1
        rw [← hq, ← dot_inner hxl hql, ← dot_inner hxl hq'.1] at hm2
        have hproj := (hN.solve (Q ++ [q]) (by simp) hM.len).proj (by simp) hM.len
        set y := combine f.size (Q ++ [q]) (normalised (N.solve (Q ++ [q]))) with hy
        have hyl : y.length = f.size := combine_length _ _ _
        have hyq' : dot y (greedyPoint f (N.sort q)) = dot y y := by
          by_contra hne
          have hI4 := hind.snoc hn hyl (c := φ (Finset.range f.size) - φ ∅) (d := dot y y) (fun p hp => by
            have hpm : p ∈ greedyPoints f := by
              rcases List.mem_append.1 hp with hp | hp
              · exact hI.mem p hp
              · rw [List.mem_singleton] at hp; rw [hp]; exact hqm
            obtain ⟨k1, k2⟩ := greedyPoints_spec hf hφ hpm
            exact ⟨k1, k2.1, hproj.orth p hp⟩) hq'.1 hq'.2.1 hne
          have := hI4.length_le
          simp only [List.length_append, List.length_singleton] at this
          omega
        have hyq : dot y q = dot y y := hproj.orth q (by simp)
        have e1 := hz _ hq'.1
        have e2 := hz q hql
        rw [hsame _ hq'.1, hyq'] at e1
        rw [hsame _ hql, hyq] at e2
        have hge : dot q q ≤ dot q (greedyPoint f (N.sort q)) := by
          rw [e1, e2]
          have := mul_le_mul_of_nonneg_left hm2 (by linarith : (0 : ℚ) ≤ 1 - t)
          linarith
        have h0 : dot q (greedyPoint f (N.sort q)) - dot q q = 0 := by linarith
        rw [h0, abs_zero, if_pos htol, if_pos htol]
    · rw [hrun] at h
      generalize minorCyclesL scaledFactor N f.size eps (Q.length + 2) (Q ++ [q]) w S1 = o at h ⊢
      obtain ⟨p, rfl, ⟨k1, k2, k3⟩, k4⟩ : ∃ p, o = .ok p ∧ SameState p (Q', w', x') ∧ Gram p.1 p.2.2.2 := by
        cases h with
        | ok h => exact ⟨_, rfl, h.1, h.2.1⟩
      obtain ⟨Q1, w1, x1, T1⟩ := p
      dsimp only at k1 k2 k3 k4
      subst k1 k2 k3
      exact ih _ _ _ _ _ T1 hI' k4

/-- On at most three elements `L` changes nothing. -/
theorem minNormBaseL_small (hN : ExactNumerics N f.size) (hn3 : f.size ≤ 3) (hf : Computes f φ)
    (hφ : Submodular (Finset.range f.size) φ) :
    ∃ e : ℚ, 0 < e ∧ ∀ eps tol fuel, 0 < eps → eps ≤ e → 0 < tol →
      minNormBaseL scaledFactor N f tol eps fuel = minNormBase N.quiet f tol eps fuel := by
  obtain ⟨e, he, hsm⟩ := exists_smallEps (vOf N) (reach (vOf N) (starts N f) (f.size + 1))
  refine ⟨e, he, fun eps tol fuel heps hle htol => ?_⟩
  by_cases hn : f.size < 2
  · unfold minNormBaseL minNormBase
    by_cases h0 : f.size < 1
    · rw [if_pos h0, if_pos h0]
    · rw [if_neg h0, if_neg h0, if_pos (by omega), if_pos (by omega)]
  have hsmall := hsm eps hle
  have hNq : ExactNumerics N.quiet f.size := ⟨hN.sort, hN.solve⟩
  obtain ⟨x0, hI, hrun, hgr⟩ := minNormBase_start' (tol := tol) hNq (by omega) hf hφ (eps := eps) hsmall fuel
  rw [hrun]
  unfold minNormBaseL
  rw [if_neg (by omega), if_neg (by omega)]
  dsimp only
  have hs : N.quiet.sort = N.sort := rfl
  rw [hs] at hgr
  rw [hgr]
  simp only [Outcome.ok_bind]
  exact majorCyclesL_small hN (by omega) hn3 hf hφ heps htol hsmall fuel _ _ _ _ _ _
    ⟨hI.ne, hI.mem, hI.indep, hI.point, hI.pos, hI.weights⟩ (Gram.init x0)

end PSP.Theory
