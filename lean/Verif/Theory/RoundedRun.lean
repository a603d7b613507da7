import Verif.Theory.RoundedSlice
import Verif.Theory.ApproxMerge

/-!
# `PMF::run` with rounded arithmetic
-/

namespace PSP.Theory

open PSP.Spec PSP.Model

variable {E : List Arc} {ε : ℚ} {j : ℕ} {y : ℕ → YPair} {lam : ℚ} {X : Finset ℕ} {fl : ℚ → ℚ} {r H : ℚ}
  {ao : List Arc → List Arc} {no : List NArc → List NArc} {W : WarmSolver} {v : ℚ} {n : ℕ}

/-! ### sorting a list that is almost sorted -/

theorem sorted_le_of_count {s : List ℚ} (hs : s.Pairwise (· ≤ ·)) {x : ℚ} {i : ℕ} (hi : i < s.length)
    (hc : i < s.countP fun a => decide (a ≤ x)) : s[i] ≤ x := by
  by_contra hlt
  have hlt := not_le.1 hlt
  have hge : ∀ a ∈ s.drop i, x < a := by
    intro a ha
    obtain ⟨k, hk, rfl⟩ := List.mem_iff_getElem.1 ha
    rw [List.getElem_drop]
    rcases Nat.eq_zero_or_pos k with h0 | h0
    · subst h0; simpa using hlt
    · exact hlt.trans_le (List.pairwise_iff_getElem.1 hs i (i + k) hi (by
        rw [List.length_drop] at hk; omega) (by omega))
  have h1 : (s.drop i).countP (fun a => decide (a ≤ x)) = 0 := by
    rw [List.countP_eq_zero]
    intro a ha
    simpa using hge a ha
  have h2 : s.countP (fun a => decide (a ≤ x)) = (s.take i).countP (fun a => decide (a ≤ x)) +
      (s.drop i).countP (fun a => decide (a ≤ x)) := by
    rw [← List.countP_append, List.take_append_drop]
  have h3 : (s.take i).countP (fun a => decide (a ≤ x)) ≤ i :=
    List.countP_le_length.trans (by rw [List.length_take]; omega)
  omega

theorem sorted_ge_of_count {s : List ℚ} (hs : s.Pairwise (· ≤ ·)) {x : ℚ} {i : ℕ} (hi : i < s.length)
    (hc : s.length < s.countP (fun a => decide (x ≤ a)) + (i + 1)) : x ≤ s[i] := by
  by_contra hlt
  have hlt := not_le.1 hlt
  have hle : ∀ a ∈ s.take (i + 1), a < x := by
    intro a ha
    obtain ⟨k, hk, rfl⟩ := List.mem_iff_getElem.1 ha
    rw [List.length_take] at hk
    rw [List.getElem_take]
    rcases Nat.lt_or_ge k i with h0 | h0
    · exact (List.pairwise_iff_getElem.1 hs k i (by omega) hi h0).trans_lt hlt
    · have : k = i := by omega
      subst this
      exact hlt
  have h1 : (s.take (i + 1)).countP (fun a => decide (x ≤ a)) = 0 := by
    rw [List.countP_eq_zero]
    intro a ha
    simpa using hle a ha
  have h2 : s.countP (fun a => decide (x ≤ a)) = (s.take (i + 1)).countP (fun a => decide (x ≤ a)) +
      (s.drop (i + 1)).countP (fun a => decide (x ≤ a)) := by
    rw [← List.countP_append, List.take_append_drop]
  have h3 : (s.drop (i + 1)).countP (fun a => decide (x ≤ a)) ≤ s.length - (i + 1) :=
    List.countP_le_length.trans (by rw [List.length_drop])
  omega

/-- Sorting moves every value by at most `c`. -/
theorem sort_moves {s t : List ℚ} {c : ℚ} (hc : 0 ≤ c) (hs : s.Pairwise (· ≤ ·)) (hp : s.Perm t)
    (ht : t.Pairwise fun a b => a ≤ b + c) : List.Forall₂ (fun a b => a ≤ b + c ∧ b ≤ a + c) s t := by
  rw [List.forall₂_iff_get]
  refine ⟨hp.length_eq, fun i h1 h2 => ?_⟩
  simp only [List.get_eq_getElem]
  constructor
  · apply sorted_le_of_count hs h1
    rw [hp.countP_eq]
    have h4 : (t.take (i + 1)).countP (fun a => decide (a ≤ t[i] + c)) = (t.take (i + 1)).length := by
      rw [List.countP_eq_length]
      intro a ha
      obtain ⟨k, hk, rfl⟩ := List.mem_iff_getElem.1 ha
      rw [List.length_take] at hk
      rw [List.getElem_take]
      simp only [decide_eq_true_eq]
      rcases Nat.lt_or_ge k i with h0 | h0
      · exact List.pairwise_iff_getElem.1 ht k i (by omega) h2 h0
      · have : k = i := by omega
        subst this
        linarith
    have h5 : (t.take (i + 1)).countP (fun a => decide (a ≤ t[i] + c)) ≤ t.countP fun a => decide (a ≤ t[i] + c) :=
      (List.take_sublist _ _).countP_le
    rw [List.length_take] at h4
    omega
  · have := sorted_ge_of_count (x := t[i] - c) hs h1 (by
      rw [hp.countP_eq, hp.length_eq]
      have h4 : (t.drop i).countP (fun a => decide (t[i] - c ≤ a)) = (t.drop i).length := by
        rw [List.countP_eq_length]
        intro a ha
        obtain ⟨k, hk, rfl⟩ := List.mem_iff_getElem.1 ha
        rw [List.length_drop] at hk
        rw [List.getElem_drop]
        simp only [decide_eq_true_eq]
        rcases Nat.eq_zero_or_pos k with h0 | h0
        · subst h0
          simp only [Nat.add_zero]
          linarith
        · have := List.pairwise_iff_getElem.1 ht i (i + k) h2 (by omega) (by omega)
          linarith
      have h5 : (t.drop i).countP (fun a => decide (t[i] - c ≤ a)) ≤ t.countP fun a => decide (t[i] - c ≤ a) :=
        (List.drop_sublist _ _).countP_le
      rw [List.length_drop] at h4
      omega)
    linarith

/-! ### the run -/

/-- The rounded start value (`init_lambda`). -/
def startF (fl : ℚ → ℚ) : ℚ := fl (-1 / 10)

/-- Lower end of the range of parameters. -/
def lowF (fl : ℚ → ℚ) (ε : ℚ) : ℚ := startF fl - 11 / 10 * ε

theorem startF_bounds (h : RSetup fl ao no W v ε r H E n j y) : -11 / 100 ≤ startF fl ∧ startF fl ≤ -9 / 100 := by
  obtain ⟨n1, n2, n3, hr, n5, n6, n7, n8, n9, n10, n11⟩ := h.nums
  have hH1 := h.H1
  have hε1 := h.ε1
  have h1 := h.err.err 1 (-1 / 10) (by
    rw [abs_le]; constructor <;> linarith)
  unfold startF
  rw [abs_le] at h1
  constructor <;> linarith

/-- The result of `PMF::run`. -/
structure RRunSpec (E : List Arc) (j : ℕ) (y : ℕ → YPair) (e a0 top : ℚ) (X0 : Finset ℕ)
    (t : List (ℚ × Finset ℕ)) : Prop where
  near : NearAt E j y e a0 X0
  chain : AChain E j y e X0 t
  last : slast X0 t = ∅
  lo : ∀ c ∈ t.map Prod.fst, a0 ≤ c
  top : ∀ c ∈ t.map Prod.fst, c ≤ top
  inc : (t.map Prod.fst).Pairwise (· ≤ ·)

theorem slast_zip (A : Finset ℕ) {s : List ℚ} {t : List (ℚ × Finset ℕ)} (h : s.length = t.length) :
    slast A (s.zip (t.map Prod.snd)) = slast A t := by
  induction t generalizing A s with
  | nil => simp [slast]
  | cons cb t ih =>
    cases s with
    | nil => simp at h
    | cons a s =>
      obtain ⟨c, B⟩ := cb
      exact ih B (by simpa using h)

/-- Sorting the results of the first call of `slice`. -/
theorem run_of_slice (h : RSetup fl ao no W v ε r H E n j y) {X0 : Finset ℕ}
    (hnear : NearAt E j y (12 * (n * n * n * r)) (startF fl) X0) {lam3 : Option ℚ} {sets : List CSet} {lams : List ℚ}
    {t : List (ℚ × Finset ℕ)}
    (hs : RSpec E j y ((11 / 10 * j + 12) * ε) (11 / 10 * ε) (2 * H) X0 ∅ (startF fl) lam3 sets lams t) :
    ∃ X1 t1, (((insert j X0 :: {j} :: sets).insertionSort (fun A B => B ⊆ A), lams.insertionSort (· ≤ ·)) :
        List CSet × List ℚ) = ((X1 :: t1.map Prod.snd).map (insert j), t1.map Prod.fst) ∧
      RRunSpec E j y (4 * (n + 2) * ε) (lowF fl ε) (2 * H) X1 t1 := by
  obtain ⟨n1, n2, n3, hr, n5, n6, n7, n8, n9, n10, n11⟩ := h.nums
  have hH1 := h.H1
  have hε1 := h.ε1
  have hε0 := h.good.pos
  obtain ⟨s1, s2⟩ := startF_bounds h
  have hp1 := List.perm_insertionSort (· ≤ ·) lams
  have hsort := List.pairwise_insertionSort (· ≤ ·) lams
  set s := lams.insertionSort (· ≤ ·) with hsdef
  have hperm : s.Perm (t.map Prod.fst) := hp1.trans hs.lams
  have hmv := sort_moves (c := 2 * (11 / 10 * ε)) (by linarith) hsort hperm hs.inc
  have hlen : s.length = t.length := by simpa using hperm.length_eq
  have hfst : (s.zip (t.map Prod.snd)).map Prod.fst = s := List.map_fst_zip (by simp [hlen])
  have hsnd : (s.zip (t.map Prod.snd)).map Prod.snd = t.map Prod.snd := List.map_snd_zip (by simp [hlen])
  have hjε : (j : ℚ) * ε + ε ≤ n * ε := by nlinarith
  have hjr : (j : ℚ) * r ≤ n * r := mul_le_mul_of_nonneg_right (by linarith) hr
  have hnε : 2 * ε ≤ n * ε := by nlinarith
  refine ⟨X0, s.zip (t.map Prod.snd), ?_, ?_⟩
  · rw [hfst, hsnd]
    congr 1
    apply sort_chain
    · have e := slast_eq X0 hs.ne
      rw [hs.last] at e
      rw [e, List.map_cons, List.map_append]
      refine List.Perm.cons _ ?_
      refine (List.Perm.cons _ hs.sets).trans ?_
      simp only [List.map_cons, List.map_nil, insert_empty_eq]
      exact (List.perm_append_comm (l₁ := [({j} : Finset ℕ)]))
    · rw [List.pairwise_map]
      refine (hs.chain.pairwise.imp_of_mem ?_)
      intro a b ha hb hab
      have hjn : ∀ Z ∈ X0 :: t.map Prod.snd, j ∉ Z := by
        intro Z hZ hj
        rcases List.mem_cons.1 hZ with rfl | hZ
        · simpa using hnear.sub hj
        · simpa using hs.chain.mem_range Z hZ hj
      refine ⟨Finset.insert_subset_insert _ hab.1, fun h => hab.2 ?_⟩
      intro v hv
      have := h (Finset.mem_insert_of_mem hv)
      rcases Finset.mem_insert.1 this with h' | h'
      · exact absurd (h' ▸ hv) (hjn a ha)
      · exact h'
  · refine ⟨?_, ?_, ?_, ?_, ?_, ?_⟩
    · refine (hnear.move (m := lowF fl ε) (c := 11 / 10 * ε) ?_ ?_).mono (by linarith)
      · unfold lowF; linarith
      · unfold lowF; linarith
    · have hc := hs.chain.move hmv
      have hmono : ∀ {A : Finset ℕ} {u : List (ℚ × Finset ℕ)} {e e' : ℚ}, e ≤ e' → AChain E j y e A u →
          AChain E j y e' A u := by
        intro A u e e' he
        induction u generalizing A with
        | nil => exact fun _ => trivial
        | cons cb u ih =>
          rintro ⟨h1, h2, h3, h4⟩
          exact ⟨h1.mono he, h2.mono he, h3, ih h4⟩
      exact hmono (by linarith) hc
    · rw [slast_zip X0 hlen, hs.last]
    · rw [hfst]
      intro c hc
      exact hs.lo c (hperm.mem_iff.1 hc)
    · rw [hfst]
      intro c hc
      exact hs.top c (hperm.mem_iff.1 hc)
    · rw [hfst]
      exact hsort

/-- **`PMF::run`** with rounded arithmetic. -/
theorem pmfRunF_spec {g : Digraph} (h : RSetup fl ao no W v ε r H g.arcs n j y) (hn : g.countNodes = n)
    (hnodes : ∀ i < j + 1, i ∈ g.nodes)
    (hneg : ∃ Z ⊆ Finset.range j, obj g.arcs j y (startF fl) Z + 18 * (j * r) < obj g.arcs j y (startF fl) ∅) :
    OkOr (fl = id) (pmfRunF fl ao no W ε g j y) fun o => ∃ X0 t,
      o = ((X0 :: t.map Prod.snd).map (insert j), t.map Prod.fst) ∧
      RRunSpec g.arcs j y (4 * (n + 2) * ε) (lowF fl ε) (2 * H) X0 t := by
  obtain ⟨n1, n2, n3, hr, n5, n6, n7, n8, n9, n10, n11⟩ := h.nums
  have hH1 := h.H1
  have hε1 := h.ε1
  have hε0 := h.good.pos
  obtain ⟨s1, s2⟩ := startF_bounds h
  unfold pmfRunF
  rw [if_neg (by
    push Not
    intro i hi
    exact hnodes i (List.mem_range.1 hi))]
  dsimp only
  rw [hn]
  change OkOr (fl = id) (pmfSliceF fl ao no W ε g.arcs n j y (j + 1)
    (pmfSide W (pmfNetF fl ε g.arcs j y (startF fl)) none j) {j}
    (W.run (pmfNetF fl ε g.arcs j y (startF fl)) none).flow (startF fl) none >>= _) _
  have hleast := warm_least (lam := startF fl) (init := none) h (by simp)
  have hflow := h.solver.flow (pmfNetF fl ε g.arcs j y (startF fl)) none (pmfNetF_nonneg h.err h.good _) (by simp)
  unfold pmfSide
  set X0 := W.sinkSide (pmfNetF fl ε g.arcs j y (startF fl)) none with hX0
  have hnear := hleast.near h (by linarith) (by linarith)
  have hne : (∅ : Finset ℕ) ⊂ X0 := by
    rw [Finset.empty_ssubset, Finset.nonempty_iff_ne_empty]
    intro h0
    obtain ⟨Z, hZ, hneg⟩ := hneg
    have := hnear.le Z hZ
    rw [h0] at this
    linarith
  have hs := pmfSliceF_spec h (j + 1) X0 ∅ _ (startF fl) none
    (by
      have := Finset.card_le_card hleast.sub
      rw [Finset.card_range] at this
      simp; omega) ⟨hne, hleast, by linarith, by linarith, by simp, by simp⟩ hflow
  rw [insert_empty_eq] at hs
  refine hs.bind ?_
  rintro ⟨sets, lams⟩ ⟨t, hs⟩
  refine Or.inl ⟨_, rfl, ?_⟩
  have hjr : (j : ℚ) * r ≤ n * r := mul_le_mul_of_nonneg_right (by linarith) hr
  exact run_of_slice h (hnear.mono (by linarith)) hs

end PSP.Theory
