import Verif.Theory.RoundedQueue
import Verif.Props.Rounded
import Verif.Props.HPSP

/-!
# Floating-point arithmetic in `psp_i` and `hpsp` (C64, C65)
-/

namespace PSP.Props

open PSP.Spec PSP.Model PSP.Theory

/-- With integer weights, `psp_i` in floating-point arithmetic returns a sequence of partitions that is exactly right, and
its critical values are the exact ones, each rounded once. (As without rounding, see C06, a critical value may be repeated,
with additional optimal partitions in between: `dropTies` removes them.) -/
theorem C64_pspi_rounded {p n : ℕ} {fl : ℚ → ℚ} (hfl : FloatingPoint p fl) {S : FlowSolver} {E : List Arc}
    {W δ eps : ℚ} (hS : S.Approx δ (7 * W) n) {ord : Partition → List CSet} (hord : Enumerates ord)
    {ao : List Arc → List Arc} (hao : ∀ l, (ao l).Perm l) (hv : ValidInput n E) (hn : 2 ≤ n)
    (hf : RoundingFine p n E W δ eps) :
    ∃ g' ps cv, (makeDgraph eps n E >>= pspiRunF fl ao S eps ord) = .ok (g', ⟨ps, cv.map fl⟩) ∧
      IsWeakPrincipalSequence E (Finset.range n) ps cv ∧
      IsPrincipalSequence E (Finset.range n) (dropTies ps cv).1 (dropTies ps cv).2 ∧
      (∀ lam, lam ∈ cv ↔ IsCritical E (Finset.range n) lam) := by
  obtain ⟨H, hi, hM, hb, hft⟩ := hf.small hfl hS hn hv
  have hgood := inputGraph_good (ε := eps) hv
  have hV : (Finset.range n).Nonempty := ⟨0, by simp; omega⟩
  obtain ⟨g', t, hrun, hl, hlast⟩ := pspiRunF_spec H hgood hn hi hM hb hf.above hord hao
  have hweak := weak_input hv hn hft (hl.weak hgood.good.nonneg hgood.good.within hV hlast)
  exact ⟨g', _, _, by rw [makeDgraph_valid hv, Outcome.ok_bind, hrun], hweak,
    hweak.dropTies hv.nonneg (ValidInput.within hv) hV, fun lam => hweak.mem_iff hv.nonneg lam⟩

/-- If no optimal partition lies strictly between others, `psp_i` in floating-point arithmetic returns the principal
sequence, with each critical value rounded once. -/
theorem C64_pspi_no_between {p n : ℕ} {fl : ℚ → ℚ} (hfl : FloatingPoint p fl) {S : FlowSolver} {E : List Arc}
    {W δ eps : ℚ} (hS : S.Approx δ (7 * W) n) {ord : Partition → List CSet} (hord : Enumerates ord)
    {ao : List Arc → List Arc} (hao : ∀ l, (ao l).Perm l) (hv : ValidInput n E) (hn : 2 ≤ n)
    (hf : RoundingFine p n E W δ eps) (hnb : NoBetween E (Finset.range n)) :
    ∃ g' ps cv, (makeDgraph eps n E >>= pspiRunF fl ao S eps ord) = .ok (g', ⟨ps, cv.map fl⟩) ∧
      IsPrincipalSequence E (Finset.range n) ps cv := by
  obtain ⟨g', ps, cv, h1, h2, _⟩ := C64_pspi_rounded hfl hS hord hao hv hn hf
  exact ⟨g', ps, cv, h1, h2.of_noBetween hv.nonneg hnb⟩

/-- With integer weights, `hpsp` in floating-point arithmetic ends normally; its critical values are exactly the critical
parameters, each rounded once, and no two of them become equal; there is one partition more than critical values. The
partitions themselves can be wrong, see `C65_hpsp_violated`. -/
theorem C65_hpsp_values_partial {p n : ℕ} {fl : ℚ → ℚ} (hfl : FloatingPoint p fl) {S : FlowSolver} {E : List Arc}
    {W δ eps : ℚ} (hS : S.Approx δ (7 * W) n) {ord : Partition → List CSet} (hord : Enumerates ord)
    {ao : List Arc → List Arc} (hao : ∀ l, (ao l).Perm l) (hv : ValidInput n E) (hn : 2 ≤ n)
    (hf : RoundingFine p n E W δ eps) :
    ∃ g' ps, ∃ cv : List ℚ, (makeDgraph eps n E >>= hpspRunF fl ao S eps ord) = .ok (g', ⟨ps, cv.map fl⟩) ∧
      ps.length = cv.length + 1 ∧ cv.Pairwise (· < ·) ∧ (cv.map fl).Pairwise (· < ·) ∧
      (∀ lam, lam ∈ cv ↔ IsCritical E (Finset.range n) lam) := by
  obtain ⟨H, hi, hM, hb, hft⟩ := hf.small hfl hS hn hv
  have hgood := inputGraph_good (ε := eps) hv
  have hV : (Finset.range n).Nonempty := ⟨0, by simp; omega⟩
  obtain ⟨g', t, psp, hrun, hlen, _, hl, hlast, hinc, hincF⟩ := hpspRunF_spec H hgood hn hi hM hb hf.above hord hao
  have hps := strict_input hv hn hft (hl.strict hgood.good.nonneg hgood.good.within hV hlast hinc)
  exact ⟨g', psp, _, by rw [makeDgraph_valid hv, Outcome.ok_bind, hrun], by simpa using hlen, hinc, hincF,
    fun lam => hps.weak.mem_iff hv.nonneg lam⟩

/-- If moreover no optimal partition lies strictly between others, the partitions are right as well: `hpsp` in
floating-point arithmetic returns the principal sequence, with each critical value rounded once. Missing for the full
claim: the graphs with such partitions, for which it is false. -/
theorem C65_hpsp_no_between_partial {p n : ℕ} {fl : ℚ → ℚ} (hfl : FloatingPoint p fl) {S : FlowSolver} {E : List Arc}
    {W δ eps : ℚ} (hS : S.Approx δ (7 * W) n) {ord : Partition → List CSet} (hord : Enumerates ord)
    {ao : List Arc → List Arc} (hao : ∀ l, (ao l).Perm l) (hv : ValidInput n E) (hn : 2 ≤ n)
    (hf : RoundingFine p n E W δ eps) (hnb : NoBetween E (Finset.range n)) :
    ∃ g' ps, ∃ cv : List ℚ, (makeDgraph eps n E >>= hpspRunF fl ao S eps ord) = .ok (g', ⟨ps, cv.map fl⟩) ∧
      IsPrincipalSequence E (Finset.range n) ps cv ∧ (cv.map fl).Pairwise (· < ·) := by
  obtain ⟨H, hi, hM, hb, hft⟩ := hf.small hfl hS hn hv
  have hgood := inputGraph_good (ε := eps) hv
  have hV : (Finset.range n).Nonempty := ⟨0, by simp; omega⟩
  obtain ⟨g', t, psp, hrun, -, hpsp, hl, hlast, hinc, hincF⟩ := hpspRunF_spec H hgood hn hi hM hb hf.above hord hao
  have hps := strict_input hv hn hft (hl.strict hgood.good.nonneg hgood.good.within hV hlast hinc)
  rw [← hpsp (noBetween_input hv hn hft hnb)] at hps
  exact ⟨g', psp, _, by rw [makeDgraph_valid hv, Outcome.ok_bind, hrun], hps, hincF⟩

/-! ### the models with exact arithmetic are the models of `PSP_I` and `HPSP` -/

section Exact

variable {ao : List Arc → List Arc}

theorem capacityToF_id (hao : ∀ l, (ao l).Perm l) (E : List Arc) (S : CSet) (v : ℕ) :
    capacityToF id ao E S v = capacityTo E S v := by
  unfold capacityToF
  rw [flSum_id, zero_add, capacityTo_sum, sum_filter_map, ((hao E).map _).sum_eq]
  simp

theorem contractF_id (hao : ∀ l, (ao l).Perm l) (ε : ℚ) (g : Digraph) (S : CSet) (i : ℕ) :
    contractF id ao ε g S i = contract ε g S i := by
  have h : contractArcF id ao ε g.arcs S i = contractArc ε g.arcs S i := by
    funext v
    unfold contractArcF contractArc
    rw [capacityToF_id hao]
  unfold contractF contract
  rw [h]

theorem splitGammaF_id (hao : ∀ l, (ao l).Perm l) (E : List Arc) (ns : List ℕ) (m : ℕ) :
    splitGammaF id ao E ns m = weightTotal E ns / ((m : ℚ) - 1) := by
  unfold splitGammaF weightTotalF weightTotal
  rw [flSum_id, zero_add, sum_filter_map, ((hao E).map _).sum_eq, sum_filter_map]
  simp

theorem dilworthIF_id (S : FlowSolver) (E : List Arc) (lam : ℚ) (ns : List ℕ) :
    dilworthIF id S E lam ns = dilworthI S E lam ns := by
  have hmin : ∀ done l xl, minimizeIF id S E lam done l xl = minimizeI S E lam done l xl := by
    intro done l xl
    unfold minimizeIF minimizeI dilworthNetF dilworthNet constDifferenceF constDifference
    simp only [terminalArcsF_id, flSum_id, id]
  have hloop : ∀ rest done xl P, runLoopIF id S E lam done rest xl P = runLoopI S E lam done rest xl P := by
    intro rest
    induction rest with
    | nil => intro done xl P; rfl
    | cons l rest ih =>
      intro done xl P
      unfold runLoopIF runLoopI
      rw [hmin]
      exact ih _ _ _
  unfold dilworthIF dilworthI
  simp only [hloop, flSum_id, zero_add]

theorem splitDoneF_id (ε γ : ℚ) (m : ℕ) (r : ℚ × Partition) : splitDoneF id ε γ m r = splitDone ε γ m r := rfl

theorem pspiBlocksF_id (hao : ∀ l, (ao l).Perm l) (ε : ℚ)
    (split : Digraph → List PTree → Outcome (Digraph × Option ℚ × List PTree)) (Bs : List CSet) :
    ∀ g ch, pspiBlocksF id ao ε split Bs g ch = pspiBlocks ε split Bs g ch := by
  induction Bs with
  | nil => intro g ch; rfl
  | cons B Bs ih =>
    intro g ch
    unfold pspiBlocksF pspiBlocks
    simp only [ih, contractF_id hao]

theorem hpspBlocksF_id (hao : ∀ l, (ao l).Perm l) (ε : ℚ)
    (split : Digraph → HState → ℕ → CSet → Outcome (Digraph × HState)) (Bs : List CSet) :
    ∀ g st N, hpspBlocksF id ao ε split Bs g st N = hpspBlocks ε split Bs g st N := by
  induction Bs with
  | nil => intro g st N; rfl
  | cons B Bs ih =>
    intro g st N
    unfold hpspBlocksF hpspBlocks
    simp only [ih, contractF_id hao]

/-- Without rounding the models are those of `psp_i` (C05, C06) and `hpsp` (C04). -/
theorem C64_exact (S : FlowSolver) (ε : ℚ) (ord : Partition → List CSet) (hao : ∀ l, (ao l).Perm l) (g : Digraph) :
    pspiRunF id ao S ε ord g = pspiRun S ε ord g ∧ hpspRunF id ao S ε ord g = hpspRun S ε ord g := by
  have h1 : ∀ k g ch, pspiSplitF id ao S ε ord k g ch = pspiSplit S ε ord k g ch := by
    intro k
    induction k with
    | zero => intro g ch; rfl
    | succ k ih =>
      intro g ch
      have : pspiSplitF id ao S ε ord k = pspiSplit S ε ord k := by funext g ch; exact ih g ch
      unfold pspiSplitF pspiSplit
      simp only [this, splitGammaF_id hao, dilworthIF_id, splitDoneF_id, pspiBlocksF_id hao]
  have h2 : ∀ k g st s C, hpspSplitF id ao S ε ord k g st s C = hpspSplit S ε ord k g st s C := by
    intro k
    induction k with
    | zero => intro g st s C; rfl
    | succ k ih =>
      intro g st s C
      have : hpspSplitF id ao S ε ord k = hpspSplit S ε ord k := by funext g st s C; exact ih g st s C
      unfold hpspSplitF hpspSplit
      simp only [this, splitGammaF_id hao, dilworthIF_id, splitDoneF_id, hpspBlocksF_id hao]
  constructor
  · unfold pspiRunF pspiRun; simp only [h1]
  · unfold hpspRunF hpspRun; simp only [h2]

end Exact

/-! ### examples -/

example := C64_pspi_rounded roundDouble_spec
  (offSolver_approx (δ := 1 / 100000000000000) (by norm_num) _ _) exOrd_enumerates List.reverse_perm exArcs_valid (by norm_num)
  exArcs_rounding

example := C65_hpsp_values_partial roundDouble_spec
  (offSolver_approx (δ := 1 / 100000000000000) (by norm_num) _ _) exOrd_enumerates List.reverse_perm exArcs_valid (by norm_num)
  exArcs_rounding

example := C65_hpsp_no_between_partial roundDouble_spec
  (offSolver_approx (δ := 1 / 100000000000000) (by norm_num) _ _) exOrd_enumerates List.reverse_perm exArcs_valid (by norm_num)
  exArcs_rounding exArcs_noBetween

example := C64_pspi_no_between roundDouble_spec
  (offSolver_approx (δ := 1 / 100000000000000) (by norm_num) _ _) exOrd_enumerates List.reverse_perm exArcs_valid (by norm_num)
  exArcs_rounding exArcs_noBetween

example := C63_dt_no_between roundDouble_spec
  (offSolver_approx (δ := 1 / 100000000000000) (by norm_num) _ _) exOrd_enumerates List.reverse_perm exArcs_valid (by norm_num)
  exArcs_rounding exArcs_noBetween

/-- Runs in which the critical value `22/3` is rounded. -/
example : (makeDgraph lemonEps 4 thirdArcs >>= fun g =>
      pspiRunF roundDouble List.reverse (offSolver (1 / 100000000000000)) lemonEps exOrd g >>= fun r => pure r.2) =
    .ok ⟨[{{0, 1, 2, 3}}, {{0}, {1}, {2}, {3}}], [roundDouble (22 / 3)]⟩ := by
  decide +kernel
example : (makeDgraph lemonEps 4 thirdArcs >>= fun g =>
      hpspRunF roundDouble List.reverse (offSolver (1 / 100000000000000)) lemonEps exOrd g >>= fun r => pure r.2) =
    .ok ⟨[{{0, 1, 2, 3}}, {{0}, {1}, {2}, {3}}], [roundDouble (22 / 3)]⟩ := by
  decide +kernel

/-! ### rounding makes `hpsp` return wrong partitions

A brute-force solver that the kernel can run on ten nodes. -/

def onSinkL (X : List ℕ) : NV → Bool
  | .src => false
  | .snk => true
  | .v i => X.any (Nat.beq i)

def cutCapL (X : List ℕ) : List NArc → ℚ
  | [] => 0
  | e :: es =>
    if onSinkL X e.a then cutCapL X es else if onSinkL X e.b then e.cap + cutCapL X es else cutCapL X es

/-- The smallest capacity of a cut whose sink side is `X` and some of the nodes `vs`, and the nodes in the sink sides of all
such cuts of this capacity. -/
def scanCuts (N : Net) : List ℕ → List ℕ → ℚ × List ℕ
  | [], X => (cutCapL X N.arcs, X)
  | v :: vs, X =>
    let a := scanCuts N vs X
    let b := scanCuts N vs (v :: X)
    if a.1 < b.1 then a else if b.1 < a.1 then b else (a.1, a.2.filter fun i => b.2.any (Nat.beq i))

def vertList (N : Net) : List ℕ := (List.range (N.verts.sup id + 1)).filter fun i => decide (i ∈ N.verts)

def scanSolver : FlowSolver where
  flowValue N := (scanCuts N (vertList N) []).1
  minCut N v := !((scanCuts N (vertList N) []).2.any (Nat.beq v))

theorem any_beq (X : List ℕ) (i : ℕ) : X.any (Nat.beq i) = true ↔ i ∈ X.toFinset := by
  rw [List.any_eq_true, List.mem_toFinset]
  constructor
  · rintro ⟨x, hx, h⟩
    have := Nat.eq_of_beq_eq_true h
    exact this ▸ hx
  · intro h
    exact ⟨i, h, Nat.beq_refl i⟩

theorem onSinkL_eq (X : List ℕ) (v : NV) : onSinkL X v = v.onSink X.toFinset := by
  cases v with
  | src => rfl
  | snk => rfl
  | v i =>
    have h := any_beq X i
    simp only [onSinkL, NV.onSink]
    by_cases hi : i ∈ X.toFinset
    · rw [h.2 hi, decide_eq_true hi]
    · rw [decide_eq_false hi]
      exact Bool.eq_false_iff.2 fun h' => hi (h.1 h')

theorem cutCapL_eq (N : Net) (X : List ℕ) : cutCapL X N.arcs = N.cutCap X.toFinset := by
  obtain ⟨V, arcs⟩ := N
  unfold Net.cutCap
  induction arcs with
  | nil => rfl
  | cons e es ih =>
    simp only [cutCapL, List.map_cons, List.sum_cons, onSinkL_eq] at ih ⊢
    rw [ih]
    cases e.a.onSink X.toFinset <;> cases e.b.onSink X.toFinset <;> simp

theorem scanCuts_spec (N : Net) (vs : List ℕ) : ∀ X : List ℕ,
    (∀ Y ⊆ vs.toFinset, (scanCuts N vs X).1 ≤ N.cutCap (X.toFinset ∪ Y)) ∧
    (∃ Y ⊆ vs.toFinset, (scanCuts N vs X).1 = N.cutCap (X.toFinset ∪ Y)) ∧
    ∀ i, i ∈ (scanCuts N vs X).2 ↔
      ∀ Y ⊆ vs.toFinset, N.cutCap (X.toFinset ∪ Y) = (scanCuts N vs X).1 → i ∈ X.toFinset ∪ Y := by
  induction vs with
  | nil =>
    intro X
    simp only [scanCuts, cutCapL_eq, List.toFinset_nil, Finset.subset_empty, forall_eq, exists_eq_left,
      Finset.union_empty, le_refl, true_and, List.mem_toFinset, forall_true_left, implies_true]
  | cons v vs ih =>
    intro X
    obtain ⟨a1, a2, a3⟩ := ih X
    obtain ⟨b1, b2, b3⟩ := ih (v :: X)
    set a := scanCuts N vs X with ha
    set b := scanCuts N vs (v :: X) with hb
    have hX : ∀ Y, (v :: X).toFinset ∪ Y = X.toFinset ∪ insert v Y := by
      intro Y; ext i; simp only [List.toFinset_cons, Finset.mem_union, Finset.mem_insert]; tauto
    simp only [hX] at b1 b2 b3
    have hsub : ∀ Y, Y ⊆ (v :: vs).toFinset → Y ⊆ vs.toFinset ∨ ∃ Z ⊆ vs.toFinset, insert v Z = Y := by
      intro Y hY
      rw [List.toFinset_cons] at hY
      by_cases hvY : v ∈ Y
      · right
        refine ⟨Y.erase v, fun i hi => ?_, Finset.insert_erase hvY⟩
        have h1 := hY (Finset.mem_of_mem_erase hi)
        rw [Finset.mem_insert] at h1
        exact h1.resolve_left (Finset.ne_of_mem_erase hi)
      · left
        intro i hi
        have h1 := hY hi
        rw [Finset.mem_insert] at h1
        refine h1.resolve_left ?_
        rintro rfl; exact hvY hi
    have hin1 : ∀ Y, Y ⊆ vs.toFinset → Y ⊆ (v :: vs).toFinset := fun Y hY =>
      hY.trans (by rw [List.toFinset_cons]; exact Finset.subset_insert _ _)
    have hin2 : ∀ Y, Y ⊆ vs.toFinset → insert v Y ⊆ (v :: vs).toFinset := fun Y hY => by
      rw [List.toFinset_cons]; exact Finset.insert_subset_insert _ hY
    have hstep : scanCuts N (v :: vs) X =
        if a.1 < b.1 then a else if b.1 < a.1 then b else (a.1, a.2.filter fun i => b.2.any (Nat.beq i)) := by
      rw [ha, hb]; rfl
    rw [hstep]
    split
    · next hlt =>
      refine ⟨fun Y hY => ?_, ?_, fun i => ?_⟩
      · rcases hsub Y hY with h | ⟨Z, hZ, rfl⟩
        · exact a1 Y h
        · exact hlt.le.trans (b1 Z hZ)
      · obtain ⟨Y, hY, h⟩ := a2; exact ⟨Y, hin1 Y hY, h⟩
      · rw [a3 i]
        constructor
        · intro h Y hY he
          rcases hsub Y hY with h' | ⟨Z, hZ, rfl⟩
          · exact h Y h' he
          · exact absurd (b1 Z hZ) (by rw [he]; exact not_le.2 hlt)
        · intro h Y hY he; exact h Y (hin1 Y hY) he
    · next hnlt =>
      split
      · next hlt =>
        refine ⟨fun Y hY => ?_, ?_, fun i => ?_⟩
        · rcases hsub Y hY with h | ⟨Z, hZ, rfl⟩
          · exact hlt.le.trans (a1 Y h)
          · exact b1 Z hZ
        · obtain ⟨Y, hY, h⟩ := b2; exact ⟨_, hin2 Y hY, h⟩
        · rw [b3 i]
          constructor
          · intro h Y hY he
            rcases hsub Y hY with h' | ⟨Z, hZ, rfl⟩
            · exact absurd (a1 Y h') (by rw [he]; exact not_le.2 hlt)
            · exact h Z hZ he
          · intro h Y hY he; exact h _ (hin2 Y hY) he
      · next hnlt' =>
        have heq : a.1 = b.1 := le_antisymm (not_lt.1 hnlt') (not_lt.1 hnlt)
        refine ⟨fun Y hY => ?_, ?_, fun i => ?_⟩
        · rcases hsub Y hY with h | ⟨Z, hZ, rfl⟩
          · exact a1 Y h
          · exact heq.le.trans (b1 Z hZ)
        · obtain ⟨Y, hY, h⟩ := a2; exact ⟨Y, hin1 Y hY, h⟩
        · rw [List.mem_filter, any_beq, List.mem_toFinset, a3 i, b3 i]
          constructor
          · rintro ⟨h1, h2⟩ Y hY he
            rcases hsub Y hY with h' | ⟨Z, hZ, rfl⟩
            · exact h1 Y h' he
            · exact h2 Z hZ (he.trans heq)
          · intro h
            exact ⟨fun Y hY he => h Y (hin1 Y hY) he, fun Y hY he => h _ (hin2 Y hY) (he.trans heq.symm)⟩

theorem vertList_toFinset (N : Net) : (vertList N).toFinset = N.verts := by
  ext i
  simp only [vertList, List.mem_toFinset, List.mem_filter, List.mem_range, decide_eq_true_eq]
  refine ⟨fun h => h.2, fun h => ⟨?_, h⟩⟩
  have : id i ≤ N.verts.sup id := Finset.le_sup h
  simp only [id] at this
  omega

/-- It is the brute-force solver. -/
theorem scanSolver_eq : scanSolver = bruteSolver := by
  have key : ∀ N : Net, (scanCuts N (vertList N) []).1 = bruteValue N := by
    intro N
    obtain ⟨h1, ⟨Y, hY, h2⟩, _⟩ := scanCuts_spec N (vertList N) []
    simp only [vertList_toFinset, List.toFinset_nil, Finset.empty_union] at h1 hY h2
    apply le_antisymm
    · apply Finset.le_min'
      intro c hc
      obtain ⟨X, hX, rfl⟩ := Finset.mem_image.1 hc
      exact h1 X (Finset.mem_powerset.1 hX)
    · rw [h2]
      exact Finset.min'_le _ _ (Finset.mem_image_of_mem _ (Finset.mem_powerset.2 hY))
  have h2 : scanSolver.minCut = bruteSolver.minCut := by
    funext N v
    obtain ⟨_, _, h3⟩ := scanCuts_spec N (vertList N) []
    simp only [vertList_toFinset, List.toFinset_nil, Finset.empty_union, key] at h3
    have h4 : (scanCuts N (vertList N) []).2.any (Nat.beq v) = true ↔
        ∀ Y ⊆ N.verts, N.cutCap Y = bruteValue N → v ∈ Y := by
      rw [any_beq, List.mem_toFinset, h3]
    show (!(scanCuts N (vertList N) []).2.any (Nat.beq v)) =
      decide (∃ X ∈ N.verts.powerset, N.cutCap X = bruteValue N ∧ v ∉ X)
    by_cases h : (scanCuts N (vertList N) []).2.any (Nat.beq v) = true
    · rw [h, Bool.not_true, eq_comm, decide_eq_false_iff_not]
      rintro ⟨X, hX, hc, hv⟩
      exact hv (h4.1 h X (Finset.mem_powerset.1 hX) hc)
    · rw [Bool.not_eq_true] at h
      rw [h, Bool.not_false, eq_comm, decide_eq_true_iff]
      by_contra hno
      apply Bool.eq_false_iff.1 h
      rw [h4]
      intro Y hY hc
      by_contra hv
      exact hno ⟨Y, Finset.mem_powerset.2 hY, hc, hv⟩
  have h1 : scanSolver.flowValue = bruteSolver.flowValue := funext key
  calc scanSolver = ⟨scanSolver.flowValue, scanSolver.minCut⟩ := rfl
    _ = bruteSolver := by rw [h1, h2]

/-- Two cycles of length 4 with a common node 4, an edge between 8 and 9, and a node without edges. -/
def hpspRoundArcs : List Arc := [⟨2, 5, 1⟩, ⟨0, 4, 1⟩, ⟨1, 2, 1⟩, ⟨8, 9, 4⟩, ⟨6, 7, 1⟩, ⟨0, 6, 1⟩, ⟨4, 7, 1⟩,
  ⟨1, 4, 1⟩, ⟨4, 5, 1⟩]

theorem hpspRoundArcs_integer : ∀ e ∈ hpspRoundArcs, ∃ k : ℤ, e.cap = k ∧ |k| ≤ 4 := by
  intro e he
  simp only [hpspRoundArcs, List.mem_cons, List.not_mem_nil, or_false] at he
  rcases he with rfl | rfl | rfl | rfl | rfl | rfl | rfl | rfl | rfl
  case inr.inr.inr.inl => exact ⟨4, by norm_num, by norm_num⟩
  all_goals exact ⟨1, by norm_num, by norm_num⟩

theorem hpspRoundArcs_rounding : RoundingFine 53 10 hpspRoundArcs 12 (1 / 1000000000000000) lemonEps where
  integer e he := let ⟨k, h, _⟩ := hpspRoundArcs_integer e he; ⟨k, h⟩
  total := by norm_num [hpspRoundArcs]
  one := by norm_num
  solver := by norm_num
  below := by norm_num [lemonEps]
  above := by norm_num [lemonEps]

/-- The minimum cuts found by trying all sets, with a rounded value. -/
theorem roundedSolver_scan (p : ℕ) :
    roundedSolver p = ⟨fun N => roundNear p (scanSolver.flowValue N), scanSolver.minCut⟩ := by
  rw [scanSolver_eq]
  rfl

/-- Small integer weights do not protect the partitions of `hpsp` from rounding: in `double` arithmetic, with a flow
solver that reports minimal cuts and rounds only the value, it can return blocks that overlap. (Without rounding it
returns the principal sequence, by C04, and so does `psp_i` with rounding, by `C64_pspi_rounded`.) -/
theorem C65_hpsp_violated : ∃ n E, ValidInput n E ∧ 2 ≤ n ∧ (∀ e ∈ E, ∃ k : ℤ, e.cap = k ∧ |k| ≤ 4) ∧
    RoundingFine 53 n E 12 (1 / 1000000000000000) lemonEps ∧
    ∃ g' r, (makeDgraph lemonEps n E >>= hpspRunF roundDouble List.reverse (roundedSolver 53) lemonEps exOrd) =
      .ok (g', r) ∧ ∃ P ∈ r.psp, ¬ IsPartition (Finset.range n) P := by
  have hrun : (makeDgraph lemonEps 10 hpspRoundArcs >>= fun g =>
      hpspRunF roundDouble List.reverse (roundedSolver 53) lemonEps exOrd g >>= fun r => pure r.2) =
      .ok ⟨[{{1, 2, 4, 5}, {0, 1, 3, 6, 7, 8, 9}}, {{3}, {1, 2, 4, 5}, {0, 1, 6, 7}, {8, 9}},
        {{0}, {1}, {2}, {3}, {4}, {5}, {6}, {7}, {8, 9}},
        {{0}, {1}, {2}, {3}, {4}, {5}, {6}, {7}, {8}, {9}}], [0, 6004799503160661 / 4503599627370496, 4]⟩ := by
    rw [roundedSolver_scan]
    decide +kernel
  rw [← Outcome.bind_assoc] at hrun
  obtain ⟨⟨g', r⟩, hx, hx'⟩ := Outcome.bind_eq_ok hrun
  cases hx'
  refine ⟨10, hpspRoundArcs, by decide +kernel, by norm_num, hpspRoundArcs_integer, hpspRoundArcs_rounding, g', _, hx,
    {{1, 2, 4, 5}, {0, 1, 3, 6, 7, 8, 9}}, by simp, ?_⟩
  intro h
  have := h.eq_of_mem (B := {1, 2, 4, 5}) (C := {0, 1, 3, 6, 7, 8, 9}) (v := 1) (by simp) (by simp) (by simp) (by simp)
  revert this
  decide

end PSP.Props
