import Verif.Theory.WolfeMajor
import Verif.Theory.WolfeAgg

/-!
# `min_norm_base` with an exact solver and any precision `eps` below `1 / n`

The corral never becomes empty, whatever the function: the weights are nonnegative and sum to at least one, less what
was deleted. (Nothing is said about the number of major cycles.)
-/

namespace PSP.Theory

open PSP.Model PSP.Spec

variable {N : Numerics} {n : ℕ} {eps : ℚ}

theorem sum_le_filter (e : ℚ) : ∀ (Q : List (List ℚ)) (w : List ℚ), Q.length = w.length →
    w.sum ≤ (((List.zip Q w).filter fun p => ¬ p.2 ≤ e).map Prod.snd).sum +
      e * (Q.length - ((List.zip Q w).filter fun p => ¬ p.2 ≤ e).length : ℚ) := by
  intro Q
  induction Q with
  | nil =>
    intro w h
    have : w = [] := List.eq_nil_of_length_eq_zero h.symm
    subst this; simp
  | cons q Q ih =>
    intro w hl
    cases w with
    | nil => simp at hl
    | cons a w =>
      have ih' := ih w (by simpa using hl)
      rw [List.zip_cons_cons, List.filter_cons, List.sum_cons]
      by_cases hp : a ≤ e
      · rw [if_neg (by simpa using hp)]
        push_cast [List.length_cons]
        nlinarith
      · rw [if_pos (by simpa using hp), List.map_cons, List.sum_cons]
        push_cast [List.length_cons]
        linarith

theorem sum_le_card {e : ℚ} : ∀ (w : List ℚ), (∀ a ∈ w, a ≤ e) → w.sum ≤ w.length * e
  | [], _ => by simp
  | a :: w, h => by
    have h1 := sum_le_card w fun b hb => h b (by simp [hb])
    have h2 := h a (by simp)
    rw [List.sum_cons, List.length_cons]
    push_cast
    linarith

/-- One step: the weights stay nonnegative, and a column is deleted. -/
theorem step_safe (heps : 0 < eps) {w v : List ℚ} (hl : w.length = v.length) (hw : ∀ a ∈ w, 0 ≤ a)
    (hsafe : ∀ p ∈ List.zip w v, eps ≤ p.1 ∨ 0 ≤ p.2) (hv : ∃ a ∈ v, a ≤ eps) :
    0 ≤ theta eps w v ∧ theta eps w v ≤ 1 ∧ (∀ a ∈ mix (theta eps w v) w v, 0 ≤ a) ∧
      ∃ a ∈ mix (theta eps w v) w v, a ≤ eps := by
  obtain ⟨h1, h2, h3⟩ := theta_spec eps w v
  set t := theta eps w v
  have h0 : 0 ≤ t := by
    rcases h3 with h | ⟨p, hp, hpe, h⟩
    · rw [h]; norm_num
    · rw [h]
      exact div_nonneg (hw _ (List.of_mem_zip hp).1) (by linarith)
  refine ⟨h0, h1, fun a ha => ?_, ?_⟩
  · obtain ⟨p, hp, rfl⟩ := mem_mix.1 ha
    have hp1 := hw _ (List.of_mem_zip hp).1
    by_cases hd : p.1 - p.2 ≥ eps
    · have h4 := h2 p hp hd
      rw [le_div_iff₀ (by linarith)] at h4
      nlinarith
    · rcases hsafe p hp with h | h
      · nlinarith
      · nlinarith
  · rcases h3 with h | ⟨p, hp, hpe, h⟩
    · obtain ⟨a, ha, hae⟩ := hv
      obtain ⟨b, hb, hz⟩ := exists_zip hl ha
      exact ⟨_, mem_mix.2 ⟨_, hz, rfl⟩, by rw [h]; simpa using hae⟩
    · refine ⟨_, mem_mix.2 ⟨p, hp, rfl⟩, ?_⟩
      have hd : p.1 - p.2 ≠ 0 := by
        intro h4
        rw [h4] at hpe
        linarith
      have : (1 - t) * p.1 + t * p.2 = 0 := by
        rw [h]
        field_simp
        ring
      rw [this]
      exact heps.le

theorem minorCycles_safe (hN : ∀ Q : List (List ℚ), Q ≠ [] → (∀ q ∈ Q, q.length = n) → Solves n Q (N.solve Q))
    (heps : 0 < eps) {m : ℕ} (hm : m * eps < 1) (hmn : m ≤ n) :
    ∀ (k : ℕ) (Q : List (List ℚ)) (w : List ℚ), Q ≠ [] → (∀ q ∈ Q, q.length = n) → Q.length ≤ m →
      Q.length ≤ w.length → (∀ a ∈ w, 0 ≤ a) →
      (∀ p ∈ List.zip (w.take Q.length) (vOf N Q), eps ≤ p.1 ∨ 0 ≤ p.2) →
      1 ≤ (w.take Q.length).sum + eps * (m - Q.length) → Q.length < k →
      ∃ Q' rest', minorCycles N n eps k Q w = .ok (Q', vOf N Q' ++ rest', pointOf N n Q') ∧ Q'.Sublist Q ∧
        Q' ≠ [] ∧ (∀ a ∈ vOf N Q', eps < a) ∧ (∀ a ∈ rest', 0 ≤ a) ∧ Q'.length + rest'.length = w.length := by
  intro k
  induction k with
  | zero => intro Q w _ _ _ _ _ _ _ h; omega
  | succ k ih =>
    intro Q w hQ hlen hQm hQw hw hsafe hsum hk
    have hsol := hN Q hQ hlen
    have hs := hsol.sum_ne hQ hlen
    have hproj := hsol.proj hQ hlen
    have hvl : (vOf N Q).length = Q.length := hproj.length
    have htl : (w.take Q.length).length = Q.length := by rw [List.length_take]; omega
    unfold minorCycles
    rw [if_neg (by simp [hs])]
    simp only
    have hv : (N.solve Q).map (fun a => a / (N.solve Q).sum) = vOf N Q := rfl
    rw [hv]
    by_cases hall : ∃ a ∈ vOf N Q, a ≤ eps
    · rw [if_neg (not_not.2 hall), if_neg (by omega)]
      obtain ⟨t0, t1, hpos, b, hb, hbe⟩ := step_safe heps (htl.trans hvl.symm)
        (fun a ha => hw a (List.mem_of_mem_take ha)) hsafe hall
      set t := theta eps (w.take Q.length) (vOf N Q) with ht
      have hmix : List.zipWith (fun a b => (1 - t) * a + t * b) (w.take Q.length) (vOf N Q) =
          mix t (w.take Q.length) (vOf N Q) := rfl
      rw [hmix]
      set w1 := mix t (w.take Q.length) (vOf N Q) with hw1
      have hw1l : w1.length = Q.length := by rw [hw1, mix, List.length_zipWith, htl, hvl, min_self]
      have hw1s : 1 ≤ w1.sum + eps * (m - Q.length) := by
        rw [hw1, mix, sum_mix t _ _ (htl.trans hvl.symm)]
        have h1 : (vOf N Q).sum = 1 := hproj.sum
        rw [h1]
        have h2 : (0 : ℚ) ≤ eps * (m - Q.length) :=
          mul_nonneg heps.le (by have : (Q.length : ℚ) ≤ m := by exact_mod_cast hQm
                                 linarith)
        nlinarith
      set keep := (List.zip Q w1).filter fun p => ¬ p.2 ≤ eps with hkeep
      have hkl : keep.length < Q.length := by
        obtain ⟨q, hq, hz⟩ := exists_zip hw1l.symm hb
        have h1 : (List.zip Q w1).length = Q.length := by rw [List.length_zip, hw1l, min_self]
        rw [← h1]
        refine lt_of_le_of_ne (List.length_filter_le _ _) fun h => ?_
        have := List.length_filter_eq_length_iff.1 h (q, b) hz
        simp only [decide_eq_true_eq] at this
        exact this hbe
      have hks := sum_le_filter eps Q w1 hw1l.symm
      rw [← hkeep] at hks
      have hkne : keep ≠ [] := by
        intro h
        rw [h] at hks
        simp only [List.map_nil, List.sum_nil, List.length_nil, Nat.cast_zero, sub_zero, zero_add] at hks
        nlinarith
      have hsub : (keep.map Prod.fst).Sublist Q := by
        have h1 := (List.filter_sublist (l := List.zip Q w1) (p := fun p => decide ¬ p.2 ≤ eps)).map Prod.fst
        rwa [List.map_fst_zip (by omega)] at h1
      have hkgt : ∀ a ∈ keep.map Prod.snd, eps < a := by
        intro a ha
        obtain ⟨p, hp, rfl⟩ := List.mem_map.1 ha
        have := (List.mem_filter.1 hp).2
        simpa using this
      have h1l : (keep.map Prod.fst).length = keep.length := List.length_map _
      have h2l : (keep.map Prod.snd).length = keep.length := List.length_map _
      have htake : (keep.map Prod.snd ++ w1.drop (keep.map Prod.snd).length ++ w.drop Q.length).take
          (keep.map Prod.fst).length = keep.map Prod.snd := by
        rw [List.append_assoc, List.take_append_of_le_length (by omega), h1l, ← h2l, List.take_length]
      obtain ⟨Q', rest', k1, k2, k3, k4, k5, k6⟩ := ih (keep.map Prod.fst)
        (keep.map Prod.snd ++ w1.drop (keep.map Prod.snd).length ++ w.drop Q.length)
        (by simpa using hkne) (fun q hq => hlen q (hsub.subset hq)) (by omega)
        (by rw [List.length_append, List.length_append]; omega)
        (by
          intro a ha
          rcases List.mem_append.1 ha with ha | ha
          · rcases List.mem_append.1 ha with ha | ha
            · exact heps.le.trans (hkgt a ha).le
            · exact hpos a (List.mem_of_mem_drop ha)
          · exact hw a (List.mem_of_mem_drop ha))
        (by
          intro p hp
          rw [htake] at hp
          exact Or.inl (hkgt _ (List.of_mem_zip hp).1).le)
        (by rw [htake, h1l]; linarith)
        (by omega)
      refine ⟨Q', rest', k1, k2.trans hsub, k3, k4, k5, ?_⟩
      rw [k6]
      simp only [List.length_append, List.length_drop]
      omega
    · rw [if_pos hall]
      refine ⟨Q, w.drop Q.length, rfl, List.Sublist.refl _, hQ, ?_, fun a ha => hw a (List.mem_of_mem_drop ha), ?_⟩
      · intro a ha
        by_contra h
        exact hall ⟨a, ha, not_lt.1 h⟩
      · rw [List.length_drop]; omega

variable {f : SF} {φ : Finset ℕ → ℚ} {tol : ℚ}

/-- The coefficient of a new column is positive. -/
theorem MInv.new_pos (hN : ∀ Q : List (List ℚ), Q ≠ [] → (∀ q ∈ Q, q.length = n) → Solves n Q (N.solve Q))
    {x : List ℚ} {Q0 : List (List ℚ)} {q w0 : List ℚ} {s0 s : ℚ} {rest : List ℚ} (hI : MInv n x Q0 q w0 s0 s rest) :
    ∃ v0 vn, vOf N (Q0 ++ [q]) = v0 ++ [vn] ∧ v0.length = Q0.length ∧ 0 < vn := by
  have hQne : Q0 ++ [q] ≠ [] := by simp
  have hproj := (hN _ hQne hI.len).proj hQne hI.len
  have hvl : (vOf N (Q0 ++ [q])).length = Q0.length + 1 := by rw [vOf, hproj.length]; simp
  obtain ⟨v0, vn, hv0, hv0l⟩ := split_last hvl
  refine ⟨v0, vn, hv0, hv0l, ?_⟩
  rw [vOf] at hv0
  rw [hv0] at hproj
  set y := combine n (Q0 ++ [q]) (v0 ++ [vn]) with hy
  have hyl : y.length = n := combine_length _ _ _
  have hxy : dot x y = dot x x - vn * (dot x x - dot x q) := by
    rw [dot_comm, hy, dot_combine _ _ _ hI.len hI.xlen,
      cmb_append (by rw [hv0l]), cmb_const Q0 v0 (by rw [hv0l]) (c := dot x x)
        (fun p hp => by rw [dot_comm]; exact hI.orth p hp), cmb_cons, cmb_nil_left]
    have hs := hproj.sum
    simp only [List.sum_append, List.sum_cons, List.sum_nil] at hs
    have : v0.sum = 1 - vn := by linarith
    rw [this, dot_comm q x]; ring
  have hwsl : (w0 ++ [s0]).length = (Q0 ++ [q]).length := by simp [hI.wlen]
  have hwss : (w0 ++ [s0]).sum = 1 := by simp [hI.sum]
  have hyz := hproj.le hI.len hwsl hwss
  rw [← hy] at hyz
  have hzx : dot (combine n (Q0 ++ [q]) (w0 ++ [s0])) (combine n (Q0 ++ [q]) (w0 ++ [s0])) ≤ dot x x := by
    rcases hI.near with h | h
    · rw [h _ (combine_length _ _ _), dot_comm, h x hI.xlen]
    · exact h.le
  by_contra hle
  rw [not_lt] at hle
  have hg := hI.gap
  have hge : dot x x ≤ dot x y := by rw [hxy]; nlinarith
  have hn := dot_sub_nonneg hI.xlen hyl
  have h0 := dot_sub_zero hI.xlen hyl (by linarith) (hI.len q (by simp))
  have h0'' := dot_sub_zero hI.xlen hyl (by linarith) hyl
  have e1 := hproj.orth q (by simp)
  rw [← hy] at e1
  rw [e1] at h0
  linarith

/-- One pass of the minor cycles keeps the invariant. -/
theorem majorStep_safe (hN : ExactNumerics N f.size) (hn : 0 < f.size) (hf : Computes f φ)
    (hφ : Submodular (Finset.range f.size) φ) (heps : 0 < eps) (hsmall : f.size * eps < 1)
    {Q : List (List ℚ)} {w x : List ℚ} (hI : MajInv N f eps Q w x)
    (hgap : dot x (greedyPoint f (N.sort x)) < dot x x) :
    ∃ Q' w' x', minorCycles N f.size eps (Q.length + 2) (Q ++ [greedyPoint f (N.sort x)]) w =
        .ok (Q', w', x') ∧ MajInv N f eps Q' w' x' := by
  obtain ⟨s, rest, hw', hrl, hqm, hM, -, hind, -⟩ := hI.start hN hn hf hφ heps hgap
  set q := greedyPoint f (N.sort x) with hq
  have hQn := hind.length_le
  obtain ⟨v0, vn, hv, hv0, hvn⟩ := hM.new_pos hN.solve
  have hlen1 : ∀ p ∈ Q, p.length = f.size := fun p hp => hM.len p (by simp [hp])
  have hvs : (vOf N Q).sum = 1 := ((hN.solve Q hI.ne hlen1).proj hI.ne hlen1).sum
  have hvl : (vOf N Q).length = Q.length := hM.wlen
  have hl : (Q ++ [q]).length = Q.length + 1 := by simp
  rw [hl] at hQn
  have htake : w.take (Q ++ [q]).length = vOf N Q ++ [s] := by
    rw [hw', hl, List.take_append_of_le_length (by simp [hvl]), ← hvl]
    exact List.take_of_length_le (by simp)
  have hwl : w.length = f.size + 1 := by
    rw [hw', List.length_append, List.length_append, hvl]
    simpa using hrl
  obtain ⟨Q', rest', k1, k2, k3, k4, k5, k6⟩ := minorCycles_safe hN.solve heps hsmall le_rfl (Q.length + 2)
    (Q ++ [q]) w (by simp) hM.len (by omega) (by omega)
    (by
      rw [hw']
      intro a ha
      rcases List.mem_append.1 ha with ha | ha
      · rcases List.mem_append.1 ha with ha | ha
        · exact (hM.wpos a ha).le
        · rw [List.mem_singleton.1 ha]; exact hM.stale
      · exact hM.left a ha)
    (by
      rw [htake, hv, List.zip_append (by rw [hvl, hv0])]
      intro p hp
      rcases List.mem_append.1 hp with hp | hp
      · exact Or.inl (hI.pos _ (List.of_mem_zip hp).1).le
      · simp only [List.zip_cons_cons, List.zip_nil_right, List.mem_singleton] at hp
        subst hp
        exact Or.inr hvn.le)
    (by
      rw [htake, hl, List.sum_append, hvs]
      have h1 : (0 : ℚ) ≤ eps * (f.size - (Q.length + 1 : ℕ)) :=
        mul_nonneg heps.le (by have : ((Q.length + 1 : ℕ) : ℚ) ≤ f.size := by exact_mod_cast hQn
                               linarith)
      have h2 : 0 ≤ [s].sum := by simpa using hM.stale
      linarith)
    (by omega)
  refine ⟨Q', _, _, k1, k3, ?_, hind.sublist k2, rfl, k4, rest', rfl, k5, by omega⟩
  intro p hp
  rcases List.mem_append.1 (k2.subset hp) with hp | hp
  · exact hI.mem p hp
  · rw [List.mem_singleton] at hp; rw [hp]; exact hqm

theorem majorCycles_safe (hN : ExactNumerics N f.size) (hn : 0 < f.size) (hf : Computes f φ)
    (hφ : Submodular (Finset.range f.size) φ) (heps : 0 < eps) (hsmall : f.size * eps < 1) (htol : 0 < tol) :
    ∀ (fuel : ℕ) (Q : List (List ℚ)) (w x : List ℚ) (prev : Option ℚ) (stuck : ℕ), MajInv N f eps Q w x →
      (∃ x' flag, majorCycles N f tol eps fuel Q w x prev stuck = .ok (x', flag) ∧ Result N f φ tol x' flag) ∨
      (majorCycles N f tol eps fuel Q w x prev stuck = .exc "Try to set a higher functional tolerance." ∧
        ∃ k Q', N.throws k Q' = true) ∨
      majorCycles N f tol eps fuel Q w x prev stuck = .fuel := by
  intro fuel
  induction fuel with
  | zero => intro Q w x prev stuck _; exact Or.inr (Or.inr rfl)
  | succ fuel ih =>
    intro Q w x prev stuck hI
    have hxl : x.length = f.size := by rw [hI.point]; exact combine_length _ _ _
    have hbase := hI.base hN hf hφ heps
    have hsort := hN.sort x hxl
    set q := greedyPoint f (N.sort x) with hq
    have hqm : q ∈ greedyPoints f := greedyPoint_mem hxl hsort
    obtain ⟨hql, hqb⟩ := greedyPoints_spec hf hφ hqm
    have hmin := greedy_min hf hφ hxl hsort hbase
    rw [← dot_inner hxl hql, ← dot_inner hxl hxl] at hmin
    have hQn := hI.indep.length_le
    have hcand : x ∈ candidates N f :=
      Finset.mem_image.2 ⟨Q, mem_listsOf hI.mem hQn, hI.point.symm⟩
    have hgreedy : edmondsGreedy f x (N.sort x) = .ok q := by
      unfold edmondsGreedy
      rw [if_neg (by rw [hxl]; simp)]
      rfl
    have habs : |dot x q - dot x x| = dot x x - dot x q := by
      rw [abs_of_nonpos (by linarith)]; ring
    unfold majorCycles
    rw [hgreedy]
    simp only [Outcome.ok_bind]
    rw [habs]
    by_cases hopt : dot x x - dot x q < tol
    · rw [if_pos hopt]
      exact Or.inl ⟨x, true, rfl, hxl, hcand, hbase, fun _ => hopt⟩
    rw [if_neg hopt]
    by_cases hst : isStuck prev (dot x x - dot x q) = true ∧
        (if isStuck prev (dot x x - dot x q) = true then stuck + 1 else 0) > 100
    · rw [if_pos hst]
      exact Or.inl ⟨x, false, rfl, hxl, hcand, hbase, by simp⟩
    rw [if_neg hst, if_neg (by omega)]
    by_cases hthrow : N.throws fuel (Q ++ [q]) = true
    · right; left
      rw [if_pos hthrow]
      exact ⟨rfl, _, _, hthrow⟩
    rw [if_neg hthrow]
    obtain ⟨Q', w', x', k1, hI'⟩ := majorStep_safe hN hn hf hφ heps hsmall hI (by linarith)
    rw [k1]
    simp only [Outcome.ok_bind]
    exact ih Q' _ _ _ _ hI'

/-- With an exact solver and `n * eps < 1`, `min_norm_base` returns a base, throws, or has not ended yet. -/
theorem minNormBase_safe (hN : ExactNumerics N f.size) (hn : 2 ≤ f.size) (hf : Computes f φ)
    (hφ : Submodular (Finset.range f.size) φ) (heps : 0 < eps) (hsmall : f.size * eps < 1) (htol : 0 < tol)
    (fuel : ℕ) :
    (∃ x flag, minNormBase N f tol eps fuel = .ok (x, flag) ∧ Result N f φ tol x flag) ∨
    (minNormBase N f tol eps fuel = .exc "Try to set a higher functional tolerance." ∧
      ∃ k Q, N.throws k Q = true) ∨
    minNormBase N f tol eps fuel = .fuel := by
  obtain ⟨x0, -, -, hI, hrun, -⟩ := minNormBase_begin (tol := tol) (eps := eps) hN hn hf hφ fuel
  rw [hrun]
  refine majorCycles_safe hN (by omega) hf hφ heps hsmall htol fuel _ _ _ _ _ (hI ?_)
  have h2 : (2 : ℚ) ≤ f.size := by exact_mod_cast hn
  nlinarith

end PSP.Theory
