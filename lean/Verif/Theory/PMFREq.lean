import Verif.Theory.PMFRRun
import Verif.Theory.PDTExtra

/-!
# `PMF_R::slice` and `PMF::slice` agree

With the same values of `lambda_1` and `lambda_3`, a call of `PMF_R::slice` gives the same sets and values as a call of
`PMF::slice`, for all weights and tolerances and whichever threads deliver.
-/

namespace PSP.Theory

open PSP.Spec PSP.Model

variable {E : List Arc} {ε : ℚ} {j : ℕ} {y : ℕ → YPair} {lam : ℚ} {X V Xl Xr Xlc Xrc : Finset ℕ}
  {arcs : List NArc}

theorem range_filter_le {p : ℕ → Bool} (hp : ∀ i, p i = true → i < j) {m : ℕ} (hm : j ≤ m) :
    (List.range m).filter p = (List.range j).filter p := by
  obtain ⟨d, rfl⟩ := Nat.exists_eq_add_of_le hm
  rw [List.range_add, List.filter_append, List.append_right_eq_self, List.filter_eq_nil_iff]
  intro i hi hpi
  obtain ⟨k, _, rfl⟩ := List.mem_map.1 hi
  have := hp _ hpi
  omega

theorem pmfrSlice_eq {S : FlowSolver} {R : SrcSolver} (hS : S.Minimal) (hR : R.Minimal) {W : WarmSolver}
    (hW : W.Minimal) (hg : PGood E ε) {finish : CSet → CSet → Finish} {n : ℕ} (hjn : j < n) :
    ∀ (k : ℕ) (Xl Xr Xlc Xrc : Finset ℕ) (G : RNet) (f : List ℚ) (lam1 lam3 : ℚ) (c : Bool),
    LeastAt E j y lam1 Xl → LeastAt E j y lam3 Xr → Xr ⊆ Xl → RGood E j Xlc Xrc G → Xrc ⊆ Xr → Xl ⊆ Xlc →
    IsPreflow (pmfNet ε E j y lam1) f →
    (pmfrSlice S R ε E j y finish k G (insert j Xl) (insert j Xr) lam1 lam3 c >>= fun o => pure (o.1, o.2.1)) =
        pmfSlice W ε E n j y k (insert j Xl) (insert j Xr) f lam1 (some lam3) ∧
      ∀ o, pmfrSlice S R ε E j y finish k G (insert j Xl) (insert j Xr) lam1 lam3 c = .ok o →
        RGood E j Xlc Xrc ⟨G.verts, o.2.2, G.base⟩ := by
  have hε0 := hg.pos
  have hEn := hg.nonneg
  intro k
  induction k with
  | zero =>
    intro Xl Xr Xlc Xrc G f lam1 lam3 c _ _ _ _ _ _ _
    exact ⟨rfl, fun o h => by simp [pmfrSlice] at h⟩
  | succ k ih =>
    intro Xl Xr Xlc Xrc G f lam1 lam3 c hXlL hXrL hsub hG hrr hll hf
    have hXl := hXlL.sub
    have hXr := hXrL.sub
    have hjl : j ∉ Xl := fun h => by simpa using hXl h
    have hjr : j ∉ Xr := fun h => by simpa using hXr h
    have hlist : ∀ m, j ≤ m → (List.range m).filter (fun i => decide (i ∈ insert j Xl ∧ i ∉ insert j Xr)) =
        (List.range j).filter (fun i => decide (i ∈ insert j Xl ∧ i ∉ insert j Xr)) := by
      intro m hm
      refine range_filter_le (fun i hi => ?_) hm
      simp only [decide_eq_true_eq, Finset.mem_insert, not_or] at hi
      exact Finset.mem_range.1 (hXl (hi.1.resolve_left hi.2.1))
    unfold pmfrSlice pmfSlice
    dsimp only
    rw [hlist (j + 1) (by omega), hlist (n - 1) (by omega)]
    cases hc : computeLambda ε (((List.range j).filter (fun i => decide (i ∈ insert j Xl ∧ i ∉ insert j Xr))).map y)
      (getCutValue E (insert j Xl) - getCutValue E (insert j Xr)) with
    | ok lam2 =>
      simp only [Outcome.ok_bind]
      have hO : tolDifferentO ε lam2 (some lam3) = tolDifferent ε lam2 lam3 := rfl
      by_cases hd : ¬ tolDifferent ε lam2 lam1 = true ∨ ¬ tolDifferent ε lam2 lam3 = true
      · rw [if_pos hd, if_pos (by rw [hO]; exact hd)]
        exact ⟨rfl, fun o h => by cases h; exact hG⟩
      have hd' : ¬ (¬ tolDifferent ε lam2 lam1 = true ∨ ¬ tolDifferentO ε lam2 (some lam3) = true) := hd
      rw [if_neg hd, if_neg hd']
      by_cases hm : lam2 < lam1 ∨ lam3 < lam2
      · rw [if_pos hm, if_pos (c := lam2 < lam1 ∨ ∃ l ∈ some lam3, l < lam2) (by simpa using hm)]
        exact ⟨rfl, fun o h => by cases h⟩
      rw [if_neg hm, if_neg (c := lam2 < lam1 ∨ ∃ l ∈ some lam3, l < lam2) (by simpa using hm)]
      push Not at hm
      obtain ⟨h12, h23⟩ := hm
      -- the single thread
      have hpf := modifyFlow_preflow hg h12 hf
      set f' := modifyFlow E j y lam2 (pmfArcs ε E j) f with hf'
      obtain ⟨hmin, hvalW, hleastW⟩ := warm_min (W := W) (l := lam2) (init := some f') hW.toCorrect hg (by
        intro g hg'; cases hg'; exact hpf)
      have hleastW := hleastW hW
      have horigW : pmfCut ε E j y lam2 (insert j Xr) = obj E j y lam2 Xr +
          ((List.range j).map fun i => max 0 (yAt y lam2 i)).sum := by
        unfold pmfCut
        rw [Finset.erase_insert hjr, pmfNet_cutCap hg hXr]
        rfl
      -- the two threads
      obtain ⟨Yl, Yr, hYr, hYl, hH, hctx, G', hG', hHe⟩ :=
        sliceNet_good (y := y) (lam := lam2) hg hG hrr hsub hll c
      set H := sliceNet ε E j y G (insert j Xl) (insert j Xr) lam2 c with hHdef
      have hNe : (⟨H.verts, H.arcs⟩ : Net) = ⟨G'.verts, updateDig y lam2 G'.base G'.arcs⟩ := by rw [hHe]
      have hbet : ∀ T, LeastAt E j y lam2 T → Xr ⊆ T ∧ T ⊆ Xl := fun T hT =>
        ⟨hXrL.subset hEn hT.toMinAt h23, hT.subset hEn hXlL.toMinAt h12⟩
      have hNN : (⟨H.verts, H.arcs⟩ : Net).Nonneg := hH.inv.nonneg
      have hNl : ∀ e ∈ H.arcs, ∀ i, e.a = .v i → i ∈ H.verts := by rw [hH.verts]; exact hH.inv.left
      have hNr : ∀ e ∈ H.arcs, ∀ i, e.b = .v i → i ∈ H.verts := by rw [hH.verts]; exact hH.inv.right
      have hres : ∃ X value, ResultOk ⟨H.verts, H.arcs⟩ X value ∧
          (if (leftResult S j ⟨H.verts, H.arcs⟩ (finish (insert j Xl) (insert j Xr))).1.card = 0 then
            rightResult R j ⟨H.verts, H.arcs⟩ (finish (insert j Xl) (insert j Xr))
          else leftResult S j ⟨H.verts, H.arcs⟩ (finish (insert j Xl) (insert j Xr))) =
            (insert j X, value) := by
        have hl := left_ok hS hNN
        have hr := right_ok hR hNN hNl hNr
        cases hf : finish (insert j Xl) (insert j Xr) with
        | left => exact ⟨_, _, hl, by simp [leftResult, Finish.leftDone]⟩
        | right => exact ⟨_, _, hr, by simp [leftResult, rightResult, Finish.leftDone]⟩
        | both => exact ⟨_, _, hl, by simp [leftResult, Finish.leftDone]⟩
      obtain ⟨X, value, hres, hre⟩ := hres
      simp only [hre]
      rw [hNe] at hres
      obtain ⟨hleast, hval⟩ := result_least hS hg hG' hYr hYl hbet hres
      have horig : (⟨H.verts, H.arcs⟩ : Net).cutCap ((insert j Xr).erase j) = obj E j y lam2 Xr +
          rConst E j y lam2 Yl Yr G'.arcs := by
        rw [Finset.erase_insert hjr, cut_inter hH.inv, hNe]
        rw [rcut (y := y) (lam := lam2) hg hG' Finset.inter_subset_right]
        have : Yr ∪ Xr ∩ (Yl \ Yr) = Xr := by
          ext v
          simp only [Finset.mem_union, Finset.mem_inter, Finset.mem_sdiff]
          constructor
          · rintro (h | h)
            · exact hYr h
            · exact h.1
          · intro h
            by_cases hv : v ∈ Yr
            · exact Or.inl hv
            · exact Or.inr ⟨h, hYl (hsub h), hv⟩
        rw [this]
      have hTe : W.sinkSide (pmfNet ε E j y lam2) (some f') = X ∪ Xr := by
        apply Finset.Subset.antisymm
        · exact hleastW.subset hEn hleast.toMinAt le_rfl
        · exact hleast.subset hEn hleastW.toMinAt le_rfl
      unfold pmfSide
      rw [horig, hval, horigW, hvalW, hTe]
      have hun : insert j X ∪ insert j Xr = insert j (X ∪ Xr) := by
        rw [Finset.insert_union_distrib]
      rw [hun]
      set T := X ∪ Xr with hTdef
      set L := leftResult S j ⟨H.verts, H.arcs⟩ (finish (insert j Xl) (insert j Xr)) with hL
      obtain ⟨hrT, hTl⟩ := hbet T hleast
      have hcond : (insert j T ≠ insert j Xr ∧ insert j T ≠ insert j Xl ∧
          obj E j y lam2 T + rConst E j y lam2 Yl Yr G'.arcs <
            obj E j y lam2 Xr + rConst E j y lam2 Yl Yr G'.arcs - 10 * ε) ↔
          (insert j T ≠ insert j Xr ∧ insert j T ≠ insert j Xl ∧
          obj E j y lam2 T + ((List.range j).map fun i => max 0 (yAt y lam2 i)).sum <
            obj E j y lam2 Xr + ((List.range j).map fun i => max 0 (yAt y lam2 i)).sum - 10 * ε) := by
        refine and_congr Iff.rfl (and_congr Iff.rfl ?_)
        constructor <;> intro h <;> linarith
      by_cases hcd : insert j T ≠ insert j Xr ∧ insert j T ≠ insert j Xl ∧
          obj E j y lam2 T + rConst E j y lam2 Yl Yr G'.arcs <
            obj E j y lam2 Xr + rConst E j y lam2 Yl Yr G'.arcs - 10 * ε
      · rw [if_pos hcd, if_pos (hcond.1 hcd)]
        obtain ⟨ea, ga⟩ := ih Xl T Yl Yr H f lam1 lam2 (decide (L.1.card ≠ 0)) hXlL hleast hTl hH (hYr.trans hrT) hYl hf
        cases ha : pmfrSlice S R ε E j y finish k H (insert j Xl) (insert j T) lam1 lam2 (decide (L.1.card ≠ 0)) with
        | ok a =>
          rw [ha] at ea ga
          obtain ⟨eb, gb⟩ := ih T Xr Yl Yr ⟨H.verts, a.2.2, H.base⟩ f' lam2 lam3 (decide (L.1.card = 0)) hleast hXrL hrT
            (ga a rfl) hYr (hTl.trans hYl) hpf
          rw [← ea, ← eb]
          simp only [Outcome.ok_bind, Outcome.pure_eq]
          cases hb : pmfrSlice S R ε E j y finish k ⟨H.verts, a.2.2, H.base⟩ (insert j T) (insert j Xr) lam2 lam3
              (decide (L.1.card = 0)) with
          | ok b =>
            refine ⟨rfl, fun o ho => ?_⟩
            cases ho
            cases c with
            | true => exact hG
            | false =>
              obtain ⟨h1, h2⟩ := hctx rfl
              have := gb b hb
              rw [h1, h2] at this
              exact this
          | _ => exact ⟨rfl, fun o ho => by cases ho⟩
        | _ =>
          rw [ha] at ea
          rw [← ea]
          exact ⟨rfl, fun o ho => by cases ho⟩
      · rw [if_neg hcd, if_neg fun h => hcd (hcond.2 h)]
        refine ⟨rfl, fun o ho => ?_⟩
        cases ho
        cases c with
        | true => exact hG
        | false =>
          obtain ⟨h1, h2⟩ := hctx rfl
          rw [h1, h2] at hH
          exact hH
    | _ => exact ⟨rfl, fun o h => by cases h⟩

/-- The arcs handed back by `slice`. -/
theorem pmfrSlice_good {S : FlowSolver} {R : SrcSolver} (hS : S.Minimal) (hR : R.Minimal) (hg : PGood E ε)
    {finish : CSet → CSet → Finish} {k : ℕ} {G : RNet} {lam1 lam3 : ℚ} {c : Bool}
    (hl : LeastAt E j y lam1 Xl) (hr : LeastAt E j y lam3 Xr) (hsub : Xr ⊆ Xl) (hG : RGood E j Xlc Xrc G)
    (hrr : Xrc ⊆ Xr) (hll : Xl ⊆ Xlc) {o : List CSet × List ℚ × List NArc}
    (h : pmfrSlice S R ε E j y finish k G (insert j Xl) (insert j Xr) lam1 lam3 c = .ok o) :
    RGood E j Xlc Xrc ⟨G.verts, o.2.2, G.base⟩ :=
  (pmfrSlice_eq hS hR bruteWarm_minimal hg (Nat.lt_succ_self j) k Xl Xr Xlc Xrc G _ lam1 lam3 c hl hr hsub hG hrr hll
    (bruteWarm_minimal.flow (pmfNet ε E j y lam1) none (pmfNet_nonneg hg) (by simp))).2 o h

/-- **`PMF_R::run`** does not depend on the threads that deliver, nor on the solvers. -/
theorem pmfrRun_same {S S' : FlowSolver} {R R' : SrcSolver} (hS : S.Minimal) (hR : R.Minimal) (hS' : S'.Minimal)
    (hR' : R'.Minimal) {g : Digraph} (hg : PGood g.arcs ε) (hjn : j < g.countNodes)
    (finish finish' : ℕ → CSet → CSet → Finish) : pmfrRun S R ε g finish j y = pmfrRun S' R' ε g finish' j y := by
  unfold pmfrRun
  split
  · rfl
  dsimp only
  set base : ℕ → ℚ × ℚ := fun i => (0, sinkCapacity g.arcs j i) with hbase
  set dig0 := (pmfArcs ε g.arcs j).map (digArc g.arcs j) with hdig0
  have hbn : ∀ i ∈ Finset.range j, 0 ≤ (base i).1 ∧ 0 ≤ (base i).2 := fun i _ =>
    ⟨le_rfl, sinkCapacity_nonneg hg.nonneg i⟩
  have hmk : ∀ as, RInv g.arcs (Finset.range j) as →
      RGood g.arcs j (Finset.range j) ∅ ⟨Finset.range j, as, base⟩ := by
    intro as has
    refine ⟨Finset.empty_subset _, subset_rfl, by simp, by simpa using has, ?_⟩
    intro i hi
    have := Finset.mem_range.1 (Finset.sdiff_subset hi)
    exact base_run hg this
  have hi0 := dig_inv (j := j) hg
  rw [← hdig0] at hi0
  have hi1 := updateDig_inv (y := y) (lam := lam0) hi0 hbn
  set lam3 := lambda3 g.arcs j y g.countNodes with hlam3
  have hi3 := updateDig_inv (y := y) (lam := lam3) hi1 hbn
  have hleast : ∀ {S : FlowSolver}, S.Minimal →
      LeastAt g.arcs j y lam0 (S.sinkSide ⟨Finset.range j, updateDig y lam0 base dig0⟩) := by
    intro S hS
    have := (result_least (Xr := ∅) (Xl := Finset.range j) hS hg (hmk dig0 hi0) subset_rfl subset_rfl
      (fun T hT => ⟨Finset.empty_subset _, hT.sub⟩) (left_ok hS hi1.nonneg)).1
    rwa [Finset.union_empty] at this
  have h1 := hleast hS
  have h2 := hleast hS'
  have hX : S.sinkSide ⟨Finset.range j, updateDig y lam0 base dig0⟩ =
      S'.sinkSide ⟨Finset.range j, updateDig y lam0 base dig0⟩ :=
    Finset.Subset.antisymm (h1.subset hg.nonneg h2.toMinAt le_rfl) (h2.subset hg.nonneg h1.toMinAt le_rfl)
  change (pmfrSlice S R ε g.arcs j y (finish j) (j + 1) ⟨Finset.range j, updateDig y lam3 base
      (updateDig y lam0 base dig0), base⟩ (insert j (S.sinkSide ⟨Finset.range j, updateDig y lam0 base dig0⟩)) {j} lam0
      lam3 false >>= _) =
    (pmfrSlice S' R' ε g.arcs j y (finish' j) (j + 1) ⟨Finset.range j, updateDig y lam3 base
      (updateDig y lam0 base dig0), base⟩ (insert j (S'.sinkSide ⟨Finset.range j, updateDig y lam0 base dig0⟩)) {j} lam0
      lam3 false >>= _)
  rw [hX]
  set X0 := S'.sinkSide ⟨Finset.range j, updateDig y lam0 base dig0⟩ with hX0
  have hslice := fun {S : FlowSolver} {R : SrcSolver} (hS : S.Minimal) (hR : R.Minimal)
    (finish : CSet → CSet → Finish) => (pmfrSlice_eq hS hR bruteWarm_minimal hg (finish := finish)
    (Nat.lt_succ_self j) (j + 1) X0 ∅ (Finset.range j) ∅
    ⟨Finset.range j, updateDig y lam3 base (updateDig y lam0 base dig0), base⟩ _ lam0 lam3 false h2
    (lambda3_empty hg hjn) (Finset.empty_subset _) (hmk _ hi3) subset_rfl h2.sub
    (bruteWarm_minimal.flow (pmfNet ε g.arcs j y lam0) none (pmfNet_nonneg hg) (by simp))).1
  have heq := (hslice hS hR (finish j)).trans (hslice hS' hR' (finish' j)).symm
  rw [insert_empty_eq] at heq
  have hmap := congrArg (fun o : Outcome (List CSet × List ℚ) => o >>= fun s =>
    pure ((insert j X0 :: {j} :: s.1).insertionSort (fun A B => B ⊆ A), s.2.insertionSort (· ≤ ·))) heq
  simp only [Outcome.bind_assoc, Outcome.ok_bind, Outcome.pure_eq] at hmap
  rw [show (-1 / 10 : ℚ) = lam0 from rfl, hX]
  exact hmap

/-- `PDT::run` and `PDT_R::run` only ask for the nodes of the graph. -/
theorem pdtLoop_same {pmf pmf' : ℕ → (ℕ → YPair) → Outcome (List CSet × List ℚ)} {g : Digraph} {n : ℕ}
    (h : ∀ j < n, ∀ y, pmf j y = pmf' j y) :
    ∀ (k i : ℕ) (st : PDTState), i + k ≤ n → pdtLoop pmf g k i st = pdtLoop pmf' g k i st := by
  intro k
  induction k with
  | zero => intros; rfl
  | succ k ih =>
    intro i st hi
    unfold pdtLoop
    have hstep : pdtStep pmf g i st = pdtStep pmf' g i st := by
      unfold pdtStep
      rw [h i (by omega)]
    rw [hstep]
    congr 1
    funext st'
    exact ih (i + 1) st' (by omega)

theorem pdtRunWith_same {pmf pmf' : ℕ → (ℕ → YPair) → Outcome (List CSet × List ℚ)} {g : Digraph}
    (h : ∀ j < g.countNodes, ∀ y, pmf j y = pmf' j y) (y : ℕ → YPair) :
    pdtRunWith pmf g y = pdtRunWith pmf' g y := by
  unfold pdtRunWith
  split
  · rfl
  · rw [pdtLoop_same h _ _ _ (by omega)]

end PSP.Theory
