import Verif.Theory.PMFREq
import Verif.Theory.RoundedPDTFinal
import Verif.Theory.RoundedId

/-!
# The error of `PDT_R::run` with exact arithmetic
-/

namespace PSP.Theory

open PSP.Spec PSP.Model

variable {E : List Arc} {ε : ℚ} {j : ℕ} {y : ℕ → YPair} {lam : ℚ} {H : ℚ} {W : WarmSolver} {n : ℕ} {X : Finset ℕ}

theorem objF_id (hg : PGood E ε) {Z : Finset ℕ} (hZ : Z ⊆ Finset.range j) :
    objF id ε E j y lam Z = obj E j y lam Z + ((List.range j).map fun i => max 0 (yAt y lam i)).sum := by
  unfold objF
  rw [pmfNetF_id, pmfNet_cutCap hg hZ]
  rfl

theorem LeastAt.oleast (hg : PGood E ε) (h : LeastAt E j y lam X) : OLeast (objF id ε E j y lam) j X := by
  refine ⟨h.sub, fun Z hZ => ?_, fun Z hZ hle => ?_⟩
  · rw [objF_id hg hZ, objF_id hg h.sub]
    linarith [h.le Z hZ]
  · rw [objF_id hg hZ, objF_id hg h.sub] at hle
    exact h.least Z hZ (le_antisymm (by linarith) (h.le Z hZ))

/-- **`PMF_R::run`** for arbitrary weights. -/
theorem pmfrRun_near {S : FlowSolver} {R : SrcSolver} (hS : S.Minimal) (hR : R.Minimal) (hW : W.Minimal) {g : Digraph}
    {finish : ℕ → CSet → CSet → Finish} (h : RSetup id id id W 0 ε 0 H g.arcs n j y) (hn : g.countNodes = n)
    (hnodes : ∀ i < j + 1, i ∈ g.nodes) (hlam : lambda3 g.arcs j y n ≤ 2 * H)
    (hneg : ∃ Z ⊆ Finset.range j, obj g.arcs j y lam0 Z < obj g.arcs j y lam0 ∅) :
    OkOr (id = (id : ℚ → ℚ)) (pmfrRun S R ε g finish j y) fun o => ∃ X0 t,
      o = ((X0 :: t.map Prod.snd).map (insert j), t.map Prod.fst) ∧
      RRunSpec g.arcs j y (4 * (n + 2) * ε) (lowF id ε) (2 * H) X0 t := by
  have hg := h.good
  unfold pmfrRun
  rw [if_neg (by
    push Not
    intro i hi
    exact hnodes i (List.mem_range.1 hi))]
  dsimp only
  rw [hn]
  set base : ℕ → ℚ × ℚ := fun i => (0, sinkCapacity g.arcs j i) with hbase
  set dig0 := (pmfArcs ε g.arcs j).map (digArc g.arcs j) with hdig0
  have hbn : ∀ i ∈ Finset.range j, 0 ≤ (base i).1 ∧ 0 ≤ (base i).2 := fun i _ =>
    ⟨le_rfl, sinkCapacity_nonneg hg.nonneg i⟩
  have hmk : ∀ as, RInv g.arcs (Finset.range j) as →
      RGood g.arcs j (Finset.range j) ∅ ⟨Finset.range j, as, base⟩ := by
    intro as has
    refine ⟨Finset.empty_subset _, subset_rfl, by simp, by simpa using has, ?_⟩
    intro i hi
    have := Finset.mem_range.1 (Finset.sdiff_subset hi)
    exact base_run hg this
  have hi0 := dig_inv (j := j) hg
  rw [← hdig0] at hi0
  have hi1 := updateDig_inv (y := y) (lam := lam0) hi0 hbn
  set lam3 := lambda3 g.arcs j y n with hlam3
  have hi3 := updateDig_inv (y := y) (lam := lam3) hi1 hbn
  -- the first cut
  have hres0 : ResultOk ⟨Finset.range j, updateDig y lam0 base dig0⟩ (S.sinkSide _) (S.flowValue _) :=
    left_ok hS hi1.nonneg
  have hleast := (result_least (Xr := ∅) (Xl := Finset.range j) hS hg (hmk dig0 hi0) subset_rfl subset_rfl
    (fun T hT => ⟨Finset.empty_subset _, hT.sub⟩) hres0).1
  rw [Finset.union_empty] at hleast
  change OkOr _ (pmfrSlice S R ε g.arcs j y (finish j) (j + 1) ⟨Finset.range j, updateDig y lam3 base
    (updateDig y lam0 base dig0), base⟩
    (insert j (S.sinkSide ⟨Finset.range j, updateDig y lam0 base dig0⟩)) {j} lam0 lam3 false >>= _) _
  set X0 := S.sinkSide ⟨Finset.range j, updateDig y lam0 base dig0⟩ with hX0
  have hmin := hleast.toMinAt
  have hne : (∅ : Finset ℕ) ⊂ X0 := by
    rw [Finset.empty_ssubset, Finset.nonempty_iff_ne_empty]
    intro h
    obtain ⟨Z, hZ, hneg⟩ := hneg
    have := hmin.le Z hZ
    rw [h] at this
    linarith
  have hge : (0 : ℚ) ≤ lam3 := by
    rw [hlam3, lambda3_eq]
    exact foldl_ge _ (fun l a => (lambda3Step_ge l a).1) _ _
  have hflow := h.solver.flow (pmfNet ε g.arcs j y lam0) none (pmfNet_nonneg hg) (by simp)
  have hempty : LeastAt g.arcs j y lam3 ∅ := lambda3_empty hg h.jn
  obtain ⟨heq, _⟩ := pmfrSlice_eq hS hR hW hg (finish := finish j) h.jn (j + 1) X0 ∅ (Finset.range j) ∅
    ⟨Finset.range j, updateDig y lam3 base (updateDig y lam0 base dig0), base⟩ _ lam0 lam3 false hleast hempty
    (Finset.empty_subset _) (hmk _ hi3) subset_rfl hmin.sub hflow
  have hstart : startF id = lam0 := rfl
  have hH1 := h.H1
  have hs := pmfSliceF_spec h (j + 1) X0 ∅ _ lam0 (some lam3)
    (by
      have := Finset.card_le_card hmin.sub
      rw [Finset.card_range] at this
      simp; omega)
    ⟨hne, hleast.oleast hg, by norm_num [lam0], by unfold lam0; linarith, by
      intro l hl
      cases hl
      exact ⟨hempty.oleast hg, by unfold lam0; linarith, hlam⟩, by simp⟩
    (by rw [pmfNetF_id]; exact hflow)
  rw [pmfSliceF_id (ao := id) (no := id) (fun l => List.Perm.refl _) (fun l => List.Perm.refl _), ← heq] at hs
  rw [insert_empty_eq] at hs
  cases hr : pmfrSlice S R ε g.arcs j y (finish j) (j + 1) ⟨Finset.range j, updateDig y lam3 base
    (updateDig y lam0 base dig0), base⟩ (insert j X0) {j} lam0 lam3 false with
  | ok o =>
    rw [hr] at hs
    rcases hs with ⟨_, he, t, hs⟩ | ⟨h1, _⟩
    · cases he
      exact Or.inl ⟨_, rfl, run_of_slice h (((hleast.oleast hg).near h (by norm_num [lam0])
        (by unfold lam0; linarith)).mono (by simp)) hs⟩
    · exact absurd rfl h1
  | _ =>
    rw [hr] at hs
    rcases hs with ⟨_, he, _⟩ | ⟨h1, _⟩
    · cases he
    · exact absurd rfl h1

theorem PSetup.enlarge (hs : PSetup id id id W 0 ε 0 H E n) {H' : ℚ} (h : H ≤ H') :
    PSetup id id id W 0 ε 0 H' E n :=
  { hs with
    err := ⟨le_rfl, by linarith [hs.H1], rfl, fun c x _ _ _ => by simp, monotone_id⟩
    H1 := hs.H1.trans h
    cut := fun S => (hs.cut S).trans h
    cap := fun e he => (hs.cap e he).trans h
    small := by have := hs.small; simpa using this }

theorem YBound.enlarge {p : YPair} (hp : YBound H p) {H' : ℚ} (h : H ≤ H') : YBound H' p := by
  obtain ⟨h1, h2⟩ := hp
  exact ⟨h1.trans h, fun b hb => (h2 b hb).trans (by linarith)⟩

theorem RPInv.enlarge {a0 : ℚ} {st : PDTState} (hp : RPInv E n j ε 0 H a0 st) {H' : ℚ} (h : H ≤ H') :
    RPInv E n j ε 0 H' a0 st :=
  ⟨fun i hi => (hp.bound i hi).enlarge h, hp.chain, hp.finer⟩

theorem pdtrLoop_near {S : FlowSolver} {R : SrcSolver} (hS : S.Minimal) (hR : R.Minimal) (hW : W.Minimal) {g : Digraph}
    {finish : ℕ → CSet → CSet → Finish} (hn : g.countNodes = n) (hnodes : ∀ i < n, i ∈ g.nodes) :
    ∀ (k i : ℕ) (H : ℚ) (st : PDTState), 0 < i → i + k = n → PSetup id id id W 0 ε 0 H g.arcs n →
    RPInv g.arcs n i ε 0 H (lowF id ε) st →
    OkOr (id = (id : ℚ → ℚ)) (pdtLoopF id id (pmfrRun S R ε g finish) g k i st) fun st' =>
      ∃ H', RPInv g.arcs n n ε 0 H' (lowF id ε) st' := by
  intro k
  induction k with
  | zero =>
    intro i H st hi hin hs h
    obtain rfl : i = n := by omega
    exact Or.inl ⟨_, rfl, H, h⟩
  | succ k ih =>
    intro i H st hi hin hs h
    unfold pdtLoopF
    set H' := max H (lambda3 g.arcs i st.y n) with hH'
    have hs' := hs.enlarge (le_max_left _ _ : H ≤ H')
    have h' := h.enlarge (le_max_left _ _ : H ≤ H')
    have hset := hs'.rsetup (by omega : i < n) hi h'.bound
    refine (pdtStepF_spec hs' hi (by omega) h' (pmfrRun_near hS hR hW hset hn (fun u hu => hnodes u (by omega)) ?_
      ?_)).bind fun st' h'' => ih (i + 1) H' st' (by omega) (by omega) hs' h''
    · have := hs'.H1
      linarith [le_max_right H (lambda3 g.arcs i st.y n)]
    · refine ⟨_, subset_rfl, ?_⟩
      have := h'.neg hs' hi (by omega)
      rw [mul_zero, mul_zero, add_zero] at this
      exact this

/-- **`PDT_R::run`** for arbitrary weights. -/
theorem pdtrRun_near {S : FlowSolver} {R : SrcSolver} (hS : S.Minimal) (hR : R.Minimal) (hW : W.Minimal) {g : Digraph}
    {finish : ℕ → CSet → CSet → Finish} (hgd : GoodDigraph g n) (hn : 0 < n)
    (hs : PSetup id id id W 0 ε 0 H g.arcs n) :
    ∃ o, pdtrRun S R ε finish g = .ok o ∧
      IsApproximateSequence g.arcs (Finset.range n) (12 * (n * (n + 2) * (n + 2) * ε)) o.psp o.cv := by
  have hcn : g.countNodes = n := hgd.countNodes
  have hl := pdtrLoop_near (finish := finish) hS hR hW hcn (fun i hi => by rw [hgd.nodes]; exact List.mem_range.2 hi)
    (n - 1) 1 H _ Nat.one_pos (by omega) hs (rpinv_init hs hn _)
  rcases hl with ⟨st, he, H', hst⟩ | ⟨h1, _⟩
  swap
  · exact absurd rfl h1
  rw [pdtLoopF_id (ao := id) fun l => List.Perm.refl _] at he
  obtain ⟨Ps, cv, h1, h2, happ⟩ := hst.result hgd hn hs
  refine ⟨⟨Ps, cv⟩, ?_, happ⟩
  unfold pdtrRun pdtrRunFrom pdtRunWith
  rw [if_neg (by omega), hcn, he]
  simp only [Outcome.ok_bind]
  rw [h1, h2, if_neg (by simp)]
  simp

end PSP.Theory
