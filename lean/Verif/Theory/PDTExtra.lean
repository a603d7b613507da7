import Mathlib.Algebra.Order.Floor.Ring
import Verif.Spec.PDT
import Verif.Theory.PDTFinal
import Verif.Theory.Brute

/-!
# More on `pdt`: tolerances, solvers, warm starts, a second run
-/

namespace PSP.Theory

open PSP.Spec PSP.Model
open scoped Nat

variable {E : List Arc} {ε : ℚ} {j : ℕ} {y : ℕ → YPair} {X A B : Finset ℕ} {l m : ℚ}
  {t : List (ℚ × Finset ℕ)}

/-! ### the specification in terms of the theory -/

theorem pwl_eq (p : YPair) (lam : ℚ) : pwl p lam = yVal lam p := by
  obtain ⟨a, b⟩ := p
  cases b <;> rfl

theorem pwlSum_eq (ps : List YPair) (lam : ℚ) : pwlSum ps lam = ySum ps lam := by
  unfold pwlSum ySum
  simp only [pwl_eq]

theorem inWeight_eq (S : Finset ℕ) : inWeight E S = getCutValue E S := by
  unfold inWeight getCutValue
  congr 2
  funext e
  simp only [and_comm]

theorem paramObj_eq (h : j ∉ X) (lam : ℚ) : paramObj E y lam j (insert j X) = obj E j y lam X := by
  unfold paramObj obj
  rw [inWeight_eq, Finset.erase_insert h]
  simp only [pwl_eq]
  rfl

theorem isParamMin_iff (h : j ∉ X) (lam : ℚ) :
    IsParamMin E y lam j (insert j X) ↔ MinAt E j y lam X := by
  constructor
  · rintro ⟨⟨h1, h2⟩, h3⟩
    refine ⟨fun v hv => ?_, fun Z hZ => ?_⟩
    · have := Finset.mem_range.1 (h2 (Finset.mem_insert_of_mem hv))
      have hvj : v ≠ j := fun h' => h (h' ▸ hv)
      exact Finset.mem_range.2 (by omega)
    · have hjZ : j ∉ Z := fun h' => by simpa using hZ h'
      have := h3 (insert j Z) (Finset.mem_insert_self _ _) (by
        rw [Finset.range_add_one]; exact Finset.insert_subset_insert _ hZ)
      rwa [paramObj_eq h, paramObj_eq hjZ] at this
  · intro hm
    refine ⟨⟨Finset.mem_insert_self _ _, ?_⟩, fun R hjR hR => ?_⟩
    · rw [Finset.range_add_one]; exact Finset.insert_subset_insert _ hm.sub
    · have hR' : R.erase j ⊆ Finset.range j := by
        intro v hv
        have hv := Finset.mem_erase.1 hv
        have := Finset.mem_range.1 (hR hv.2)
        have := hv.1
        exact Finset.mem_range.2 (by omega)
      have := hm.le _ hR'
      rw [← paramObj_eq h, ← paramObj_eq (Finset.notMem_erase j R), Finset.insert_erase hjR] at this
      exact this

/-! ### the tolerance -/

theorem sf_pos (n : ℕ) : 0 < sf n := by
  induction n with
  | zero => simp
  | succ n ih => rw [Nat.superFactorial_succ]; exact Nat.mul_pos (Nat.factorial_pos _) ih

theorem le_sf (n : ℕ) : n ≤ sf n := by
  cases n with
  | zero => simp
  | succ n =>
    rw [Nat.superFactorial_succ]
    exact (Nat.self_le_factorial _).trans (Nat.le_mul_of_pos_right _ (sf_pos n))

theorem _root_.PSP.Spec.PdtTolerance.fine {n : ℕ} (hn : 0 < n) (h : PdtTolerance ε n E) : FineTolerance ε n E := by
  obtain ⟨u, hu, hg, _, hε, hlt⟩ := h
  refine ⟨u, hu, hg, hε, lt_of_le_of_lt ?_ hlt⟩
  have h1 : ((n : ℚ) - 1) ≤ (sf (n - 1) : ℕ) := by
    have := le_sf (n - 1)
    have h2 : ((n - 1 : ℕ) : ℚ) = (n : ℚ) - 1 := by
      rw [Nat.cast_sub hn]; simp
    rw [← h2]
    exact_mod_cast this
  have h2 : (0 : ℚ) ≤ (sf (n - 1) : ℕ) := by positivity
  nlinarith

/-- Every list of weights has a common denominator. -/
theorem common_denominator (E : List Arc) :
    ∃ D : ℕ, 0 < D ∧ ∀ e ∈ E, ∃ k : ℤ, e.cap = k * (1 / (D : ℚ)) := by
  induction E with
  | nil => exact ⟨1, one_pos, by simp⟩
  | cons e E ih =>
    obtain ⟨D, hD, h⟩ := ih
    refine ⟨D * e.cap.den, Nat.mul_pos hD e.cap.den_pos, ?_⟩
    intro a ha
    have hD' : (D : ℚ) ≠ 0 := by exact_mod_cast hD.ne'
    have hd' : (e.cap.den : ℚ) ≠ 0 := by exact_mod_cast e.cap.den_ne_zero
    rcases List.mem_cons.1 ha with rfl | ha
    · refine ⟨a.cap.num * D, ?_⟩
      push_cast
      have := Rat.num_div_den a.cap
      rw [eq_comm, mul_one_div, mul_comm (D : ℚ), mul_div_mul_right _ _ hD']
      exact this
    · obtain ⟨k, hk⟩ := h a ha
      refine ⟨k * e.cap.den, ?_⟩
      rw [hk]
      push_cast
      field_simp

theorem pdtTolerance_eventually (n : ℕ) (E : List Arc) :
    ∃ e0 : ℚ, 0 < e0 ∧ ∀ eps, 0 < eps → eps < e0 → PdtTolerance eps n E := by
  obtain ⟨D, hD, h⟩ := common_denominator E
  have hD' : (0 : ℚ) < D := by exact_mod_cast hD
  have hs : (0 : ℚ) < (sf (n - 1) : ℕ) := by exact_mod_cast sf_pos _
  refine ⟨1 / (10 * D) / (10 * (sf (n - 1) : ℕ)), by positivity, fun eps h0 h1 => ?_⟩
  refine ⟨1 / (10 * D), by positivity, ?_, ⟨D, by push_cast; field_simp⟩, h0, ?_⟩
  · intro e he
    obtain ⟨k, hk⟩ := h e he
    refine ⟨k * 10, ?_⟩
    rw [hk]
    push_cast
    field_simp
  · rw [lt_div_iff₀ (by positivity)] at h1
    linarith

theorem inputGraph_pgood {n : ℕ} {E : List Arc} (hv : ValidInput n E) (hε : 0 < ε) :
    PGood (inputGraph ε n E).arcs ε :=
  ⟨(inputGraph_good (ε := ε) hv).good.lowHigh, (inputGraph_good (ε := ε) hv).good.simple, hε, fun e he => by
    have := (List.mem_filter.1 he).2
    simp only [decide_eq_true_eq] at this
    exact this.le⟩

theorem gran_lam0 {u : ℚ} (h : ∃ k : ℤ, 1 / 10 = k * u) : Gran u lam0 := by
  obtain ⟨k, hk⟩ := h
  refine ⟨-k, ?_⟩
  unfold lam0
  push_cast
  rw [neg_mul, ← hk]
  norm_num

/-- The loop of `pdt` with any parametric flow meeting `PmfSpec`. -/
theorem pdtWith_input {pmf : ℕ → (ℕ → YPair) → Outcome (List CSet × List ℚ)} {n : ℕ} {E : List Arc}
    (hv : ValidInput n E) (hn : 2 ≤ n) (hf : PdtTolerance ε n E)
    (hpmf : PmfSpec pmf ε (inputGraph ε n E).arcs n) :
    ∃ r y, pdtRunWith pmf (inputGraph ε n E) (fun _ => (0, none)) = .ok (r, y) ∧
      IsPrincipalSequence E (Finset.range n) r.psp r.cv := by
  have hfine := hf.fine (by omega)
  obtain ⟨u, hu, hg, hk, hε, hlt⟩ := hf
  obtain ⟨r, y, h1, h2⟩ := pdtRunWith_spec hpmf (inputGraph_good (ε := ε) hv) (by omega)
    (inputGraph_pgood hv hε) hu (fun e he => hg e (List.mem_filter.1 he).1) (gran_lam0 hk) hlt
  exact ⟨r, y, h1, strict_input hv hn hfine h2⟩

theorem pmfRun_inputSpec {W : WarmSolver} (hW : W.Minimal) {n : ℕ} {E : List Arc} (hv : ValidInput n E)
    (hε : 0 < ε) : PmfSpec (pmfRun W ε (inputGraph ε n E)) ε (inputGraph ε n E).arcs n :=
  pmfRun_pmfSpec hW (inputGraph_pgood hv hε)
    (fun i hi => by rw [(inputGraph_good (ε := ε) hv).nodes]; exact List.mem_range.2 hi)
    (inputGraph_good (ε := ε) hv).countNodes

theorem _root_.PSP.Spec.PdtTolerance.pos {n : ℕ} (h : PdtTolerance ε n E) : 0 < ε := by
  obtain ⟨_, _, _, _, hε, _⟩ := h
  exact hε

theorem pdt_input {W : WarmSolver} (hW : W.Minimal) {n : ℕ} {E : List Arc} (hv : ValidInput n E)
    (hn : 2 ≤ n) (hf : PdtTolerance ε n E) :
    ∃ r, pdtRun W ε (inputGraph ε n E) = .ok r ∧ IsPrincipalSequence E (Finset.range n) r.psp r.cv := by
  obtain ⟨r, y, h1, h2⟩ := pdtWith_input hv hn hf (pmfRun_inputSpec hW hv hf.pos)
  refine ⟨r, ?_, h2⟩
  unfold pdtRun pdtRunFrom
  rw [h1]
  rfl

/-- What `RunSpec` says about the lists returned by the parametric flow. -/
theorem run_conclusion {d : ℚ} {t : List (ℚ × Finset ℕ)} {X0 : Finset ℕ} (hg : PGood E ε)
    (hs : RunSpec E j y d X0 t) :
    let Ts := (X0 :: t.map Prod.snd).map (insert j)
    let ls := t.map Prod.fst
    Ts.length = ls.length + 1 ∧
      Ts.getLast? = some {j} ∧ Ts.Pairwise (fun A B => B ⊂ A) ∧ ls.Pairwise (· < ·) ∧
      (∀ c ∈ ls, -1 / 10 < c) ∧
      ∀ (k : ℕ) (T : Finset ℕ) (lam : ℚ), Ts[k]? = some T → -1 / 10 ≤ lam →
        (∀ (i : ℕ) (c : ℚ), ls[i]? = some c → i < k → c ≤ lam) →
        (∀ (i : ℕ) (c : ℚ), ls[i]? = some c → k ≤ i → lam ≤ c) → IsParamMin E y lam j T := by
  have hjX : ∀ Z ∈ X0 :: t.map Prod.snd, j ∉ Z := by
    intro Z hZ hj
    rcases List.mem_cons.1 hZ with rfl | hZ
    · simpa using hs.least.sub hj
    · simpa using hs.chain.mem_range Z hZ hj
  refine ⟨by simp, ?_, ?_, hs.inc, hs.lo, ?_⟩
  · have e := slast_eq X0 hs.ne
    rw [hs.last] at e
    rw [e, List.map_cons, List.map_append, List.map_singleton, ← List.cons_append,
      List.getLast?_concat]
    rfl
  · rw [List.pairwise_map]
    refine hs.chain.pairwise.imp_of_mem fun {a b} ha _ hab => ?_
    refine ⟨Finset.insert_subset_insert _ hab.1, fun h => hab.2 fun v hv => ?_⟩
    rcases Finset.mem_insert.1 (h (Finset.mem_insert_of_mem hv)) with h' | h'
    · exact absurd (h' ▸ hv) (hjX a ha)
    · exact h'
  · intro k T lam hk hlam h1 h2
    rw [List.getElem?_map, Option.map_eq_some_iff] at hk
    obtain ⟨Z, hZ, rfl⟩ := hk
    have hint := hs.chain.intervals hg.nonneg hs.last hs.least.toMinAt hs.lo hs.inc
    rw [isParamMin_iff (hjX Z (List.mem_of_getElem? hZ))]
    exact (hint.get (by simp) k Z lam hZ hlam h1 h2).min

/-- If `{j}` is not optimal at the start, there is a better set. -/
theorem exists_better (h : ¬ IsParamMin E y (-1 / 10) j {j}) :
    ∃ Z ⊆ Finset.range j, obj E j y lam0 Z < obj E j y lam0 ∅ := by
  by_contra hno
  push Not at hno
  apply h
  rw [show ({j} : Finset ℕ) = insert j ∅ from rfl, isParamMin_iff (by simp)]
  exact ⟨by simp, hno⟩

/-! ### a solver -/

/-- The brute-force solver with a warm start it ignores. -/
def bruteWarm : WarmSolver :=
  ⟨fun N _ => ⟨bruteValue N, bruteSolver.minCut N, N.arcs.map fun _ => 0⟩⟩

theorem zero_preflow {N : Net} (hN : N.Nonneg) : IsPreflow N (N.arcs.map fun _ => 0) where
  length := by simp
  bounds e he := by
    have h1 := (List.of_mem_zip he).1
    have h2 := (List.of_mem_zip he).2
    rw [List.mem_map] at h2
    obtain ⟨_, _, h2⟩ := h2
    rw [← h2]
    exact ⟨le_rfl, hN _ h1⟩
  excess x _ := by
    unfold excess
    apply le_of_eq
    symm
    apply List.sum_eq_zero
    intro q hq
    rw [List.mem_map] at hq
    obtain ⟨e, he, rfl⟩ := hq
    have h2 := (List.of_mem_zip he).2
    rw [List.mem_map] at h2
    obtain ⟨_, _, h2⟩ := h2
    rw [← h2]
    simp

theorem bruteWarm_side (N : Net) (i : Option (List ℚ)) :
    bruteWarm.sinkSide N i = bruteSolver.sinkSide N := rfl

theorem bruteWarm_minimal : bruteWarm.Minimal where
  value_eq N _ hN _ := bruteSolver_minimal.value_eq N hN
  le_cut N _ hN _ := bruteSolver_minimal.le_cut N hN
  flow _ _ hN _ := zero_preflow hN
  minimal N _ hN _ := bruteSolver_minimal.minimal N hN

/-- The brute-force solver except that on one network it reports another minimum cut. -/
def tieWarm (N0 : Net) (X0 : Finset ℕ) : WarmSolver :=
  ⟨fun N _ => ⟨bruteValue N, (tieSolver N0 X0).minCut N, N.arcs.map fun _ => 0⟩⟩

theorem tieWarm_correct {N0 : Net} {X0 : Finset ℕ} (hX : X0 ⊆ N0.verts)
    (h : N0.cutCap X0 = bruteValue N0) : (tieWarm N0 X0).Correct where
  value_eq N _ hN _ := (tieSolver_correct hX h).value_eq N hN
  le_cut N _ hN _ := (tieSolver_correct hX h).le_cut N hN
  flow _ _ hN _ := zero_preflow hN

/-! ### the solver is only ever started from preflows -/

/-- Two solvers that behave alike whenever they are started as their interface allows. -/
def AgreeOnPreflows (W W' : WarmSolver) : Prop :=
  ∀ N init, N.Nonneg → (∀ f, init = some f → IsPreflow N f) → W.run N init = W'.run N init

theorem pmfSlice_agree {W W' : WarmSolver} (hWW : AgreeOnPreflows W W') {n : ℕ} (hg : PGood E ε)
    (k : ℕ) : ∀ (Tl Tr : CSet) (f : List ℚ) (lam1 : ℚ) (lam3 : Option ℚ),
      IsPreflow (pmfNet ε E j y lam1) f →
      pmfSlice W ε E n j y k Tl Tr f lam1 lam3 = pmfSlice W' ε E n j y k Tl Tr f lam1 lam3 := by
  induction k with
  | zero => intros; rfl
  | succ k ih =>
    intro Tl Tr f lam1 lam3 hf
    unfold pmfSlice
    dsimp only
    congr 1
    funext lam2
    by_cases h1 : ¬ tolDifferent ε lam2 lam1 ∨ ¬ tolDifferentO ε lam2 lam3
    · rw [if_pos h1, if_pos h1]
    · rw [if_neg h1, if_neg h1]
      by_cases h2 : lam2 < lam1 ∨ (∃ l ∈ lam3, l < lam2)
      · rw [if_pos h2, if_pos h2]
      · rw [if_neg h2, if_neg h2]
        have hle : lam1 ≤ lam2 := not_lt.1 fun h => h2 (Or.inl h)
        have hf' := modifyFlow_preflow hg hle hf
        have hr := hWW (pmfNet ε E j y lam2)
          (some (modifyFlow E j y lam2 (pmfArcs ε E j) f)) (pmfNet_nonneg hg) (by
            rintro _ ⟨⟩; exact hf')
        have hs : pmfSide W (pmfNet ε E j y lam2) (some (modifyFlow E j y lam2 (pmfArcs ε E j) f)) j =
            pmfSide W' (pmfNet ε E j y lam2) (some (modifyFlow E j y lam2 (pmfArcs ε E j) f)) j := by
          unfold pmfSide WarmSolver.sinkSide
          rw [hr]
        rw [hr, hs]
        rw [ih Tl _ f lam1 _ hf, ih _ Tr _ lam2 _ hf']

theorem pmfRun_agree {W W' : WarmSolver} (hW : W.Correct) (hWW : AgreeOnPreflows W W') {g : Digraph}
    (hg : PGood g.arcs ε) (j : ℕ) (y : ℕ → YPair) : pmfRun W ε g j y = pmfRun W' ε g j y := by
  unfold pmfRun pmfRunIds
  split
  · rfl
  · dsimp only
    have hr := hWW (pmfNet ε g.arcs j y (-1 / 10)) none (pmfNet_nonneg hg) (by simp)
    have hs : pmfSide W (pmfNet ε g.arcs j y (-1 / 10)) none j =
        pmfSide W' (pmfNet ε g.arcs j y (-1 / 10)) none j := by
      unfold pmfSide WarmSolver.sinkSide
      rw [hr]
    have hflow := hW.flow (pmfNet ε g.arcs j y (-1 / 10)) none (pmfNet_nonneg hg) (by simp)
    rw [← hr, ← hs, pmfSlice_agree hWW hg _ _ _ _ _ _ hflow]

theorem pdtLoop_agree {W W' : WarmSolver} (hW : W.Correct) (hWW : AgreeOnPreflows W W') {g : Digraph}
    (hg : PGood g.arcs ε) (k : ℕ) : ∀ i st, pdtLoop (pmfRun W ε g) g k i st = pdtLoop (pmfRun W' ε g) g k i st := by
  induction k with
  | zero => intros; rfl
  | succ k ih =>
    intro i st
    unfold pdtLoop pdtStep
    rw [pmfRun_agree hW hWW hg]
    congr 1
    funext st'
    exact ih _ _

theorem pdtRunFrom_agree {W W' : WarmSolver} (hW : W.Correct) (hWW : AgreeOnPreflows W W') {g : Digraph}
    (hg : PGood g.arcs ε) (y : ℕ → YPair) : pdtRunFrom W ε g y = pdtRunFrom W' ε g y := by
  unfold pdtRunFrom pdtRunWith
  rw [pdtLoop_agree hW hWW hg]

/-! ### running twice -/

/-- If `{j}` alone is optimal at the start value, `PMF::run` divides zero by zero. -/
theorem pmfRun_nan {W : WarmSolver} (hW : W.Minimal) {g : Digraph} (hg : PGood g.arcs ε)
    (hnodes : ∀ i < j + 1, i ∈ g.nodes) (hmin : MinAt g.arcs j y lam0 ∅) :
    pmfRun W ε g j y = .nan := by
  unfold pmfRun pmfRunIds
  rw [if_neg (by
    push Not
    intro i hi
    exact hnodes i (List.mem_range.1 hi))]
  dsimp only
  obtain ⟨_, _, hleast⟩ := warm_min (W := W) (j := j) (y := y) (l := lam0) (init := none)
    hW.toCorrect hg (by simp)
  have hleast := hleast hW
  have hX : W.sinkSide (pmfNet ε g.arcs j y lam0) none = ∅ := by
    apply Finset.subset_empty.1
    apply hleast.least ∅ (by simp)
    exact le_antisymm (hmin.le _ hleast.sub) (hleast.le _ (by simp))
  have hT : pmfSide W (pmfNet ε g.arcs j y (-1 / 10)) none j = {j} := by
    unfold pmfSide
    rw [show (-1 / 10 : ℚ) = lam0 from rfl, hX]
    rfl
  rw [hT]
  unfold pmfSlice
  have hps : ((List.range (g.countNodes - 1)).filter fun i => i ∈ ({j} : Finset ℕ) ∧ i ∉ ({j} : Finset ℕ)) =
      [] := by
    rw [List.filter_eq_nil_iff]
    simp
  rw [hps]
  simp [computeLambda, turningPoints, divO]

theorem pdtUpdates_stop {ts : List CSet} {ls : List ℚ} {y z : ℕ → YPair} {k : ℕ}
    (h : pdtUpdates ts ls y k = .ok z) (u : ℕ) : z u = y u ∨ ∃ l, z u = stopAt (y u) l := by
  induction k generalizing z with
  | zero =>
    cases h
    exact Or.inl rfl
  | succ k ih =>
    unfold pdtUpdates at h
    obtain ⟨z1, h1, h⟩ := Outcome.bind_eq_ok h
    obtain ⟨p, h2, h⟩ := Outcome.bind_eq_ok h
    cases h
    by_cases hu : u = k
    · subst hu
      rw [Function.update_self]
      unfold pdtUpdate at h2
      split at h2
      · cases h2; exact Or.inl rfl
      · split at h2
        · cases h2
        · rename_i l _
          cases h2
          exact Or.inr ⟨l, rfl⟩
    · rw [Function.update_of_ne hu]
      exact ih h1

/-- Node 0 stops at `w` or later. -/
def Stopped (w : ℚ) (p : YPair) : Prop := p.1 = 0 ∧ ∃ b, p.2 = some b ∧ b ≤ -w

theorem Stopped.stopAt {w l : ℚ} {p : YPair} (h : Stopped w p) : Stopped w (stopAt p l) := by
  obtain ⟨a, b⟩ := p
  obtain ⟨h1, b', h2, h3⟩ := h
  dsimp only at h1 h2
  subst h1; subst h2
  unfold Theory.stopAt
  dsimp only
  split
  · rename_i h
    exact ⟨rfl, 0 - l, rfl, by linarith⟩
  · exact ⟨rfl, b', rfl, h3⟩

theorem pdtStep_stopped {pmf : ℕ → (ℕ → YPair) → Outcome (List CSet × List ℚ)} {g : Digraph}
    {st st' : PDTState} {w : ℚ} (hj : 0 < j) (h : pdtStep pmf g j st = .ok st') (hs : Stopped w (st.y 0)) : Stopped w (st'.y 0) := by
  unfold pdtStep at h
  obtain ⟨r, h1, h⟩ := Outcome.bind_eq_ok h
  obtain ⟨z, h2, h⟩ := Outcome.bind_eq_ok h
  split at h
  · cases h
  · cases h
    dsimp only
    rw [Function.update_of_ne (by omega)]
    rcases pdtUpdates_stop h2 0 with h' | ⟨l, h'⟩
    · rw [h']; exact hs
    · rw [h']; exact hs.stopAt

theorem pdtLoop_stopped {pmf : ℕ → (ℕ → YPair) → Outcome (List CSet × List ℚ)} {g : Digraph} {w : ℚ}
    (k : ℕ) : ∀ (i : ℕ) (st st' : PDTState),
    0 < i → pdtLoop pmf g k i st = .ok st' → Stopped w (st.y 0) → Stopped w (st'.y 0) := by
  induction k with
  | zero => intro i st st' _ h hs; cases h; exact hs
  | succ k ih =>
    intro i st st' hi h hs
    unfold pdtLoop at h
    obtain ⟨s1, h1, h⟩ := Outcome.bind_eq_ok h
    exact ih _ _ _ (by omega) h (pdtStep_stopped hi h1 hs)

theorem obj_zero (lam : ℚ) (hlh : ∀ e ∈ E, e.src < e.dst) :
    obj E 1 y lam {0} = - yVal lam (y 0) := by
  unfold obj
  have : insert 1 ({0} : Finset ℕ) = Finset.range 2 := by decide
  rw [this, cut_range hlh]
  simp [vsum, yAt]

theorem obj_one (lam : ℚ) : obj E 1 y lam ∅ = getCutValue E {1} := by
  unfold obj
  simp [vsum]

theorem subset_one (h : X ⊆ Finset.range 1) : X = ∅ ∨ X = {0} := by
  rw [Finset.range_one] at h
  exact Finset.subset_singleton_iff.1 h

/-- Iteration 1 of the first run stops node 0 at the weight between nodes 0 and 1. -/
theorem pdtStep_one {pmf : ℕ → (ℕ → YPair) → Outcome (List CSet × List ℚ)} {g : Digraph} {n : ℕ}
    (hpmf : PmfSpec pmf ε g.arcs n) (hg : PGood g.arcs ε) (hn : 2 ≤ n) {d : ℚ} (hd : 0 < d) (hεd : 10 * ε < d)
    (hE : ∀ e ∈ g.arcs, Gran d e.cap) (h0 : Gran d lam0) {st st' : PDTState} (hy' : st.y = fun _ => (0, none))
    (h : pdtStep pmf g 1 st = .ok st') : Stopped (getCutValue g.arcs {1}) (st'.y 0) := by
  have hy : st.y 0 = (0, none) := by rw [hy']
  have hneg : obj g.arcs 1 st.y lam0 {0} < obj g.arcs 1 st.y lam0 ∅ := by
    rw [obj_zero _ hg.lowHigh, obj_one, hy]
    have := cutValue_nonneg hg.nonneg {1}
    simp only [yVal, minO, lam0]
    linarith
  obtain ⟨X0, t, hrun, hs⟩ := hpmf 1 one_pos (by omega) d hd (by simpa using hεd) hE h0 st.y
    (fun i => by rw [hy']; exact ⟨Gran.zero _, by simp⟩) ⟨{0}, by simp, hneg⟩
  have hX0 : X0 = {0} := by
    rcases subset_one hs.least.sub with h' | h'
    · exfalso
      have := hs.least.le {0} (by simp)
      rw [h'] at this
      linarith
    · exact h'
  subst hX0
  obtain ⟨z, hz, hzin, _⟩ := pdtUpdates_spec hs.chain hs.last 1 le_rfl
  have hz0 := hzin 0 one_pos (by simp)
  unfold pdtStep at h
  rw [hrun] at h
  simp only [Outcome.ok_bind] at h
  rw [hz] at h
  simp only [Outcome.ok_bind] at h
  rw [if_neg (by simp)] at h
  cases h
  dsimp only
  rw [Function.update_of_ne (by omega), hz0, hy]
  -- the parameter at which node 0 leaves
  have hleave : leave t 0 = getCutValue g.arcs {1} := by
    have hch := hs.chain
    have hne := hs.ne
    cases t with
    | nil => exact absurd rfl hne
    | cons cb t =>
      obtain ⟨c, B⟩ := cb
      have hB : B = ∅ := by
        rcases subset_one hch.2.1.sub with h' | h'
        · exact h'
        · exact absurd hch.2.2.1 (by rw [h']; exact fun h'' => h''.2 subset_rfl)
      subst hB
      have heq := hch.1.obj_eq hch.2.1
      rw [obj_zero _ hg.lowHigh, obj_one, hy] at heq
      simp only [yVal, minO] at heq
      simp only [leave, Finset.notMem_empty, if_false]
      linarith
  rw [hleave]
  exact ⟨rfl, 0 - getCutValue g.arcs {1}, rfl, by linarith⟩

/-- The second run of a `PDT` or `PDT_R` object, for every graph. -/
theorem pdtWith_rerun {pmf : ℕ → (ℕ → YPair) → Outcome (List CSet × List ℚ)} {n : ℕ} {E : List Arc}
    (hv : ValidInput n E) (hn : 2 ≤ n) (hf : PdtTolerance ε n E)
    (hpmf : PmfSpec pmf ε (inputGraph ε n E).arcs n)
    (hnan : ∀ y, MinAt (inputGraph ε n E).arcs 1 y lam0 ∅ → pmf 1 y = .nan) :
    ∃ r y, pdtRunWith pmf (inputGraph ε n E) (fun _ => (0, none)) = .ok (r, y) ∧
      pdtRunWith pmf (inputGraph ε n E) y = .nan := by
  obtain ⟨r, y, h1, _⟩ := pdtWith_input hv hn hf hpmf
  refine ⟨_, y, h1, ?_⟩
  obtain ⟨u, hu, hgr, hk, hε, hlt⟩ := hf
  have hgd := inputGraph_good (ε := ε) hv
  have hpg := inputGraph_pgood hv hε
  have hcn : (inputGraph ε n E).countNodes = n := hgd.countNodes
  have hεu : 10 * ε < u := by
    have : (1 : ℚ) ≤ (sf (n - 1) : ℕ) := by exact_mod_cast sf_pos _
    nlinarith
  obtain ⟨m, rfl⟩ : ∃ m, n = m + 2 := ⟨n - 2, by omega⟩
  have hst : Stopped (getCutValue (inputGraph ε (m + 2) E).arcs {1}) (y 0) := by
    unfold pdtRunWith at h1
    rw [hcn, if_neg (by omega)] at h1
    obtain ⟨st, h3, h4⟩ := Outcome.bind_eq_ok h1
    have hy : st.y = y := by
      dsimp only at h4
      split at h4
      · cases h4
      · cases h4; rfl
    rw [← hy]
    rw [show m + 2 - 1 = m + 1 by omega] at h3
    unfold pdtLoop at h3
    obtain ⟨s1, h5, h6⟩ := Outcome.bind_eq_ok h3
    exact pdtLoop_stopped _ _ _ _ (by omega) h6 (pdtStep_one hpmf hpg (by omega) hu hεu
      (fun e he => hgr e (List.mem_filter.1 he).1) (gran_lam0 hk) rfl h5)
  have hmin : MinAt (inputGraph ε (m + 2) E).arcs 1 y lam0 ∅ := by
    refine ⟨by simp, fun Z hZ => ?_⟩
    rcases subset_one hZ with rfl | rfl
    · exact le_rfl
    · rw [obj_zero _ hpg.lowHigh, obj_one]
      obtain ⟨h1, b, h2, h3⟩ := hst
      have : yVal lam0 (y 0) ≤ b := by
        unfold yVal
        rw [h2]
        exact min_le_right _ _
      linarith
  unfold pdtRunWith
  rw [hcn, if_neg (by omega), show m + 2 - 1 = m + 1 by omega]
  unfold pdtLoop pdtStep
  rw [hnan y hmin]
  rfl

/-- **The second run** of a `PDT` object divides zero by zero, for every graph. -/
theorem pdt_rerun {W : WarmSolver} (hW : W.Minimal) {n : ℕ} {E : List Arc} (hv : ValidInput n E)
    (hn : 2 ≤ n) (hf : PdtTolerance ε n E) :
    ∃ r y, pdtRunFrom W ε (inputGraph ε n E) (fun _ => (0, none)) = .ok (r, y) ∧
      pdtRunFrom W ε (inputGraph ε n E) y = .nan :=
  pdtWith_rerun hv hn hf (pmfRun_inputSpec hW hv hf.pos) fun y hmin =>
    pmfRun_nan hW (inputGraph_pgood hv hf.pos)
      (fun i hi => by
        rw [(inputGraph_good (ε := ε) hv).nodes]; exact List.mem_range.2 (by omega)) hmin

end PSP.Theory
