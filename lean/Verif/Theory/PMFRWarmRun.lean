import Verif.Theory.PMFRWarm
import Verif.Theory.PDTRExtra

/-!
# `PMF_R::run` and `PDT_R::run` with starting points
-/

namespace PSP.Theory

open PSP.Spec PSP.Model
open scoped Nat

variable {E : List Arc} {ε : ℚ} {j : ℕ} {y : ℕ → YPair}

theorem dig_strict (hs : ∀ e ∈ E, ε < e.cap) : RStrict ε ((pmfArcs ε E j).map (digArc E j)) := by
  intro e he i hi
  obtain ⟨p, hp, rfl⟩ := List.mem_map.1 he
  cases p with
  | sink k => simp [digArc] at hi
  | source k => simp [digArc] at hi
  | inner s t c =>
    unfold pmfArcs at hp
    rcases List.mem_append.1 hp with hp | hp
    · rcases List.mem_append.1 hp with hp | hp
      · obtain ⟨a, ha, h⟩ := List.mem_map.1 hp
        split at h
        · cases h
        · cases h
          exact hs a (List.mem_filter.1 ha).1
      · obtain ⟨k, _, h⟩ := List.mem_map.1 hp
        cases h
    · obtain ⟨k, _, h⟩ := List.mem_map.1 hp
      cases h

/-- Weights on a grid coarser than the tolerance exceed the tolerance. -/
theorem strict_of_gran {E : List Arc} (hg : PGood E ε) {d : ℚ} {L : ℕ} (hd : 0 < d) (hL : L ≠ 0)
    (hεd : 10 * ε < d / L) (hE : ∀ e ∈ E, Gran d e.cap) : ∀ e ∈ E, ε < e.cap := by
  intro e he
  have h1 := (hE e he).le_of_pos hd (hg.pos.trans_le (hg.cap e he))
  have h2 : d / L ≤ d := by
    have h3 : (1 : ℚ) ≤ L := by exact_mod_cast Nat.one_le_iff_ne_zero.2 hL
    rw [div_le_iff₀ (by linarith)]
    nlinarith
  have := hg.pos
  linarith

/-- **`PMF_R::run` with its starting points** computes what it computes without them. -/
theorem pmfrRunW_eq {S : FlowSolver} {R : SrcSolver} {W Q : HLSolver} (hS : S.Minimal) (hR : R.Minimal)
    {m : SchedMode} (hW : W.LeastSink m.okW) (hQ : Q.LeastSource m.okQ) {g : Digraph}
    (hg : PGood g.arcs ε) {sched : ℕ → CSet → CSet → Finish × Bool} (hm : m.Allows (sched j)) (hjn : j < g.countNodes)
    (hstr : ∀ e ∈ g.arcs, ε < e.cap) :
    pmfrRunW W Q ε g sched j y = pmfrRun S R ε g (fun j A B => (sched j A B).1) j y := by
  unfold pmfrRunW pmfrRun
  split
  · rfl
  dsimp only
  set base : ℕ → ℚ × ℚ := fun i => (0, sinkCapacity g.arcs j i) with hbase
  set dig0 := (pmfArcs ε g.arcs j).map (digArc g.arcs j) with hdig0
  have hbn : ∀ i ∈ Finset.range j, 0 ≤ (base i).1 ∧ 0 ≤ (base i).2 := fun i _ =>
    ⟨le_rfl, sinkCapacity_nonneg hg.nonneg i⟩
  have hmk : ∀ as, RInv g.arcs (Finset.range j) as →
      RGood g.arcs j (Finset.range j) ∅ ⟨Finset.range j, as, base⟩ := by
    intro as has
    refine ⟨Finset.empty_subset _, subset_rfl, by simp, by simpa using has, ?_⟩
    intro i hi
    have := Finset.mem_range.1 (Finset.sdiff_subset hi)
    exact base_run hg this
  have hi0 := dig_inv (j := j) hg
  rw [← hdig0] at hi0
  have hs0 := dig_strict (j := j) hstr
  rw [← hdig0] at hs0
  have hi1 := updateDig_inv (y := y) (lam := lam0) hi0 hbn
  set lam3 := lambda3 g.arcs j y g.countNodes with hlam3
  have hi3 := updateDig_inv (y := y) (lam := lam3) hi1 hbn
  have hP1 : (Net.mk (Finset.range j) (updateDig y lam0 base dig0)).Proper :=
    ⟨hi1.nonneg, hi1.left, hi1.right⟩
  have hP3 : (Net.mk (Finset.range j) (updateDig y lam3 base (updateDig y lam0 base dig0))).Proper :=
    ⟨hi3.nonneg, hi3.left, hi3.right⟩
  have hnone : ∀ N : Net, ∀ t : HLStart, (none : Option HLStart) = some t → m.okW N t := by simp
  have hnone' : ∀ N : Net, ∀ t : HLStart, (none : Option HLStart) = some t → m.okQ N t := by simp
  -- the first cut
  have hres0 : ResultOk ⟨Finset.range j, updateDig y lam0 base dig0⟩ (S.sinkSide _) (S.flowValue _) :=
    left_ok hS hi1.nonneg
  have hleast := (result_least (Xr := ∅) (Xl := Finset.range j) hS hg (hmk dig0 hi0) subset_rfl subset_rfl
    (fun T hT => ⟨Finset.empty_subset _, hT.sub⟩) hres0).1
  rw [Finset.union_empty] at hleast
  have hresW := HL_left_ok hW hP1 (hnone _)
  obtain ⟨hu1, hu2⟩ := hresW.unique hres0
  change (pmfrSliceW W Q ε g.arcs j y (sched j) (j + 1) ⟨Finset.range j, updateDig y lam3 base
    (updateDig y lam0 base dig0), base⟩
    (insert j (W.sinkSide ⟨Finset.range j, updateDig y lam0 base dig0⟩ none)) {j}
    ⟨(W.run ⟨Finset.range j, updateDig y lam0 base dig0⟩ none).flow,
      (Q.run (Net.rev ⟨Finset.range j, updateDig y lam3 base (updateDig y lam0 base dig0)⟩) none).flow,
        some (Finset.range j), some (Finset.range j)⟩ lam0 lam3 false >>= _) =
    (pmfrSlice S R ε g.arcs j y (fun A B => (sched j A B).1) (j + 1) ⟨Finset.range j, updateDig y lam3 base
    (updateDig y lam0 base dig0), base⟩
    (insert j (S.sinkSide ⟨Finset.range j, updateDig y lam0 base dig0⟩)) {j} lam0 lam3 false >>= _)
  rw [hu1]
  have hX0s : S.sinkSide ⟨Finset.range j, updateDig y lam0 base dig0⟩ ∩ Finset.range j =
      S.sinkSide ⟨Finset.range j, updateDig y lam0 base dig0⟩ :=
    Finset.inter_eq_left.2 hres0.sub
  have hfl : FInv y base lam0 dig0 (S.sinkSide ⟨Finset.range j, updateDig y lam0 base dig0⟩)
      (W.run ⟨Finset.range j, updateDig y lam0 base dig0⟩ none).flow := by
    refine flow_FInv hi0 rfl (Finset.range j) (hW.flow _ _ hP1 (hnone _)) ?_
    rw [hX0s]
    refine IsFlow.slack (hW.flow _ _ hP1 (hnone _)) ?_
    rw [hW.flow_value _ _ hP1 (hnone _), hu2, hres0.value_eq]
  have hemp := lambda3_empty (y := y) hg hjn
  rw [← hlam3] at hemp
  have hfr : FInv y base lam3 dig0 ∅ (Q.run (Net.rev ⟨Finset.range j,
      updateDig y lam3 base (updateDig y lam0 base dig0)⟩) none).flow := by
    have hq := hQ.flow _ _ (Proper_rev hP3) (hnone' _)
    have hv := hQ.flow_value _ _ (Proper_rev hP3) (hnone' _)
    have hr := HL_right_ok hQ hP3 (hnone' _)
    have hcut : (Net.mk (Finset.range j) (updateDig y lam3 base (updateDig y lam0 base dig0))).cutCap ∅ =
        (Q.run (Net.rev ⟨Finset.range j, updateDig y lam3 base (updateDig y lam0 base dig0)⟩) none).value := by
      have hc := fun Z hZ => rcut (y := y) (lam := lam3) hg (hmk _ hi1) (X := Z) hZ (Finset.range j)
      simp only [Finset.sdiff_empty, Finset.empty_union] at hc
      apply le_antisymm
      · rw [hr.value_eq, hc _ (Finset.empty_subset _), hc _ hr.sub]
        have := hemp.le _ hr.sub
        linarith
      · exact hr.le _ (Finset.empty_subset _)
    rw [updateDig_twice] at hq hv hcut ⊢
    refine flow_FInv hi0 (X := ∅) (by simp) (Finset.range j) (IsFlow_rev hq) ?_
    have hi3' := updateDig_inv (y := y) (lam := lam3) hi0 hbn
    exact slack_rev hi3'.left hi3'.right hq (hcut.trans hv.symm)
  set X0 := S.sinkSide ⟨Finset.range j, updateDig y lam0 base dig0⟩ with hX0
  have hmin := hleast.toMinAt
  have key := pmfrSliceW_eq hS hR hW hQ hg hm (j + 1) X0 ∅ (Finset.range j) ∅ ⟨Finset.range j, updateDig y lam3 base
    (updateDig y lam0 base dig0), base⟩ ⟨(W.run ⟨Finset.range j, updateDig y lam0 base dig0⟩ none).flow,
      (Q.run (Net.rev ⟨Finset.range j, updateDig y lam3 base (updateDig y lam0 base dig0)⟩) none).flow,
        some (Finset.range j), some (Finset.range j)⟩ lam0 lam3 false
    hleast hemp (Finset.empty_subset _)
    (hmk _ hi3) ((RStrict.update _).2 ((RStrict.update _).2 hs0)) subset_rfl hmin.sub
    ((FInv.update _).2 ((FInv.update _).2 hfl)) ((FInv.update _).2 ((FInv.update _).2 hfr)) (by
      cases m with
      | any => trivial
      | _ => exact fun _ s hs => (Option.some.inj hs).symm)
  rw [insert_empty_eq] at key
  rw [key]
  rw [show (-1 / 10 : ℚ) = lam0 from rfl, hu1]

theorem pmfrRunW_pmfSpec {S : FlowSolver} {R : SrcSolver} {W Q : HLSolver} (hS : S.Minimal) (hR : R.Minimal)
    {m : SchedMode} (hW : W.LeastSink m.okW) (hQ : Q.LeastSource m.okQ) {g : Digraph}
    (hg : PGood g.arcs ε) {n : ℕ} (hnodes : ∀ i < n, i ∈ g.nodes) (hn : g.countNodes = n)
    {sched : ℕ → CSet → CSet → Finish × Bool} (hm : ∀ j, m.Allows (sched j)) : PmfSpec (pmfrRunW W Q ε g sched) ε g.arcs n := by
  intro j h1 hjn d hd hεd hE h0 y hy hneg
  have hL : j ! ≠ 0 := Nat.factorial_ne_zero j
  rw [pmfrRunW_eq hS hR hW hQ hg (hm j) (by rw [hn]; exact hjn) (strict_of_gran hg hd hL hεd hE)]
  exact pmfrRun_pmfSpec hS hR hg hnodes hn _ j h1 hjn d hd hεd hE h0 y hy hneg

/-- **`PDT_R::run`** with its starting points on the graph of an input. -/
theorem pdtrW_input {S : FlowSolver} {R : SrcSolver} {W Q : HLSolver} (hS : S.Minimal) (hR : R.Minimal)
    {m : SchedMode} (hW : W.LeastSink m.okW) (hQ : Q.LeastSource m.okQ) {n : ℕ} {E : List Arc}
    (hv : ValidInput n E) (hn : 2 ≤ n) (hf : PdtTolerance ε n E)
    {sched : ℕ → CSet → CSet → Finish × Bool} (hm : ∀ j, m.Allows (sched j)) :
    ∃ r, pdtrRunW W Q ε sched (inputGraph ε n E) = .ok r ∧
      IsPrincipalSequence E (Finset.range n) r.psp r.cv := by
  obtain ⟨r, y, h1, h2⟩ := pdtWith_input hv hn hf (pmfrRunW_pmfSpec hS hR hW hQ (inputGraph_pgood hv hf.pos)
    (fun i hi => by rw [(inputGraph_good (ε := ε) hv).nodes]; exact List.mem_range.2 hi)
    (inputGraph_good (ε := ε) hv).countNodes hm)
  refine ⟨r, ?_, h2⟩
  unfold pdtrRunW pdtrRunFromW
  rw [h1]
  rfl

/-! ### a thread that never delivers does not matter -/

theorem pmfrSliceW_left {W Q Q' : HLSolver} {arcs : List Arc} {sched : CSet → CSet → Finish × Bool}
    (hs : ∀ A B, (sched A B).1 = .left) : ∀ (k : ℕ) (G : RNet) (Tl Tr : CSet) (l r r' : List ℚ)
      (le re re' : Option (Finset ℕ)) (lam1 lam3 : ℚ) (c : Bool),
    pmfrSliceW W Q ε arcs j y sched k G Tl Tr ⟨l, r, le, re⟩ lam1 lam3 c =
      pmfrSliceW W Q' ε arcs j y sched k G Tl Tr ⟨l, r', le, re'⟩ lam1 lam3 c := by
  intro k
  induction k with
  | zero => intros; rfl
  | succ k ih =>
    intro G Tl Tr l r r' le re re' lam1 lam3 c
    rw [pmfrSliceW, pmfrSliceW]
    dsimp only
    unfold leftStart
    have hc : ∀ X : Finset ℕ, ((insert j X).card = 0) = False := by simp
    simp only [hs, Finish.leftDone, if_true, hc, if_false, ne_eq, not_false_eq_true, decide_true]
    generalize (if c = true then none else le) = el
    congr 1
    funext lam2
    split
    · rfl
    split
    · rfl
    split
    · refine congrArg₂ Bind.bind (ih ..) (funext fun a => ?_)
      exact congrArg₂ Bind.bind (ih ..) rfl
    · rfl

theorem pmfrSliceW_right {W W' Q : HLSolver} {arcs : List Arc} {sched : CSet → CSet → Finish × Bool}
    (hs : ∀ A B, (sched A B).1 = .right) : ∀ (k : ℕ) (G : RNet) (Tl Tr : CSet) (l l' r : List ℚ)
      (le le' re : Option (Finset ℕ)) (lam1 lam3 : ℚ) (c : Bool),
    pmfrSliceW W Q ε arcs j y sched k G Tl Tr ⟨l, r, le, re⟩ lam1 lam3 c =
      pmfrSliceW W' Q ε arcs j y sched k G Tl Tr ⟨l', r, le', re⟩ lam1 lam3 c := by
  intro k
  induction k with
  | zero => intros; rfl
  | succ k ih =>
    intro G Tl Tr l l' r le le' re lam1 lam3 c
    rw [pmfrSliceW, pmfrSliceW]
    dsimp only
    unfold rightStart
    simp only [hs, Finish.leftDone, Bool.false_eq_true, if_false, Finset.card_empty, if_true, reduceCtorEq]
    generalize (if c = true then none else re) = er
    congr 1
    funext lam2
    split
    · rfl
    split
    · rfl
    split
    · refine congrArg₂ Bind.bind (ih ..) (funext fun a => ?_)
      exact congrArg₂ Bind.bind (ih ..) rfl
    · rfl

/-- If only the left thread ever delivers, `PMF_R::run` does not depend on the other solver. -/
theorem pmfrRunW_left (W Q Q' : HLSolver) {g : Digraph} {sched : ℕ → CSet → CSet → Finish × Bool}
    (hs : ∀ j A B, (sched j A B).1 = .left) : pmfrRunW W Q ε g sched = pmfrRunW W Q' ε g sched := by
  funext j y
  unfold pmfrRunW
  dsimp only
  split
  · rfl
  · exact congrArg₂ Bind.bind (pmfrSliceW_left (hs j) ..) rfl

theorem inputGraph_strict (ε : ℚ) (n : ℕ) (E : List Arc) : ∀ e ∈ (inputGraph ε n E).arcs, ε < e.cap := by
  intro e he
  have := (List.mem_filter.1 he).2
  simpa using this

/-- **`PDT_R::run`** with its starting points and without them. -/
theorem pdtrRunW_eq {S : FlowSolver} {R : SrcSolver} {W Q : HLSolver} (hS : S.Minimal) (hR : R.Minimal)
    {m : SchedMode} (hW : W.LeastSink m.okW) (hQ : Q.LeastSource m.okQ) {g : Digraph} (hg : PGood g.arcs ε)
    (hstr : ∀ e ∈ g.arcs, ε < e.cap) {sched : ℕ → CSet → CSet → Finish × Bool} (hm : ∀ j, m.Allows (sched j))
    (finish : ℕ → CSet → CSet → Finish) : pdtrRunW W Q ε sched g = pdtrRun S R ε finish g := by
  unfold pdtrRunW pdtrRunFromW pdtrRun pdtrRunFrom
  rw [pdtRunWith_same fun j hj y => (pmfrRunW_eq hS hR hW hQ hg (hm j) hj hstr).trans
    (pmfrRun_same hS hR hS hR hg hj _ finish)]

end PSP.Theory
