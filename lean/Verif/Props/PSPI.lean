import Verif.Theory.PSPIRun
import Verif.Theory.Construct
import Verif.Theory.Ties
import Verif.Props.DT
import Verif.Theory.Brute
import Mathlib.Combinatorics.Colex
import Mathlib.Data.List.Sort

/-!
# Properties of the default method `psp_i` (C05, C06, C27)
-/

namespace PSP.Props

open PSP.Spec PSP.Model PSP.Theory

/-! ### C27: contraction -/

/-- The partition of the old node set obtained from a partition of the contracted node set by putting
the nodes of `S` back to their representative `i`. -/
def expandAt (S : Finset ℕ) (i : ℕ) (Q : Partition) : Partition :=
  Q.image fun B => if i ∈ B then B ∪ S else B

theorem C27_contract {eps : ℚ} {E : List Arc} {V : List ℕ}
    (hV : V.Pairwise (· < ·))
    (hlh : ∀ e ∈ E, e.src < e.dst ∧ e.src ∈ V ∧ e.dst ∈ V)
    (hsimple : E.Pairwise fun a b => ¬ (a.src = b.src ∧ a.dst = b.dst))
    (hnn : ∀ e ∈ E, 0 ≤ e.cap) {u : ℚ} (hu : ∀ e ∈ E, ∃ k : ℤ, e.cap = k * u)
    (heps : 0 < eps) (hle : eps ≤ u) {S : Finset ℕ} {i : ℕ} (hS : S ⊆ V.toFinset) (hi : i ∈ S)
    (hmin : ∀ j ∈ S, i ≤ j) :
    let g' := contract eps ⟨V, E⟩ S i
    g'.nodes = V.filter (fun v => v ∈ S → v = i) ∧
    (∀ e ∈ g'.arcs, e.src < e.dst ∧ e.src ∈ g'.nodes ∧ e.dst ∈ g'.nodes ∧ 0 ≤ e.cap) ∧
    (g'.arcs.Pairwise fun a b => ¬ (a.src = b.src ∧ a.dst = b.dst)) ∧
    ∀ Q, IsPartition g'.nodes.toFinset Q →
      IsPartition V.toFinset (expandAt S i Q) ∧ (expandAt S i Q).card = Q.card ∧
      crossWeight g'.arcs Q = crossWeight E (expandAt S i Q) := by
  intro g'
  have hW : Within E V.toFinset := fun e he => by
    have := hlh e he; simp [this.2.1, this.2.2]
  have hr0 : Rep E V.toFinset u ⟨V, E⟩ id :=
    { sorted := hV
      good := ⟨fun e he => (hlh e he).1, hW, hsimple, hnn⟩
      gran := hu
      sub := fun i hi => List.mem_toFinset.2 hi
      fix := fun _ _ => rfl
      maps := fun v hv => List.mem_toFinset.1 hv
      le := fun _ _ => le_rfl
      weight := fun _ _ _ _ _ => rfl }
  have hr := hr0.contract hW hle heps hi (List.mem_toFinset.1 (hS hi)) hmin
  have hnodes : g'.nodes = V.filter (fun v => v ∈ S → v = i) := by
    show (contract eps ⟨V, E⟩ S i).nodes = _
    unfold contract
    apply List.filter_congr
    intro v _
    simp only [decide_eq_decide]
    tauto
  refine ⟨hnodes, fun e he => ⟨hr.good.lowHigh e he, ?_, ?_, hr.good.nonneg e he⟩, hr.good.simple, ?_⟩
  · exact List.mem_toFinset.1 (hr.good.within e he).1
  · exact List.mem_toFinset.1 (hr.good.within e he).2
  intro Q hQ
  have hon := hr.onto (I := g'.nodes.toFinset) subset_rfl
  have hexp : expandAt S i Q = pull (collapse S i id) V.toFinset Q := by
    unfold expandAt pull
    apply Finset.image_congr
    intro B hB
    have hBn := hQ.subset hB
    ext v
    rw [mem_pullB]
    have hmem : ∀ w, w ∈ B → w ∈ V ∧ (w ∈ S → w = i) := by
      intro w hw
      have := List.mem_toFinset.1 (hBn hw)
      rw [hnodes, List.mem_filter] at this
      exact ⟨this.1, of_decide_eq_true this.2⟩
    have hcol : collapse S i id v = if v ∈ S then i else v := rfl
    rw [hcol]
    by_cases hvS : v ∈ S
    · rw [if_pos hvS]
      by_cases hiB : i ∈ B
      · simp [hiB, hvS, List.mem_toFinset.1 (hS hvS)]
      · simp only [hiB, if_false, and_false, iff_false]
        intro hvB
        exact hiB ((hmem v hvB).2 hvS ▸ hvB)
    · rw [if_neg hvS]
      by_cases hiB : i ∈ B
      · simp only [hiB, if_true, Finset.mem_union, hvS, or_false]
        exact ⟨fun h => ⟨List.mem_toFinset.2 (hmem v h).1, h⟩, fun h => h.2⟩
      · simp only [hiB, if_false]
        exact ⟨fun h => ⟨List.mem_toFinset.2 (hmem v h).1, h⟩, fun h => h.2⟩
  have hpV : pullB (collapse S i id) V.toFinset g'.nodes.toFinset = V.toFinset := by
    ext v
    rw [mem_pullB]
    exact ⟨fun h => h.1, fun h => ⟨h, List.mem_toFinset.2 (hr.maps v h)⟩⟩
  rw [hexp]
  refine ⟨?_, card_pull hon hQ, ?_⟩
  · have := pull_isPartition hon hQ
    rwa [hpV] at this
  · have := hr.cross hW (I := g'.nodes.toFinset) subset_rfl hQ
    rw [hpV, induced_self hW, induced_self hr.good.within] at this
    exact this

/-- Contracting two nodes of the example. -/
example : contract lemonEps ⟨List.range 4, exArcs⟩ {0, 3} 0 =
    ⟨[0, 1, 2], [⟨1, 2, 1⟩, ⟨0, 1, 5⟩, ⟨0, 2, 4⟩]⟩ := by decide +kernel

/-! ### C05: the default method -/

theorem pspi_input {S : FlowSolver} (hS : S.Correct) {ord : Partition → List CSet}
    (hord : Enumerates ord) {eps : ℚ} {n : ℕ} {E : List Arc}
    (hv : ValidInput n E) (hn : 2 ≤ n) (hf : FineTolerance eps n E) :
    ∃ g' r, pspiRun S eps ord (inputGraph eps n E) = .ok (g', r) ∧
      IsWeakPrincipalSequence E (Finset.range n) r.psp r.cv := by
  have hf' := hf
  obtain ⟨u, hu, hg, hε, hlt⟩ := hf'
  have hgood := inputGraph_good (ε := eps) hv
  have hV : (Finset.range n).Nonempty := ⟨0, by simp; omega⟩
  obtain ⟨g', t, hrun, hl, hlast⟩ := pspiRun_spec hS hord hn hgood hε
    (granular_input (ε := eps) (n := n) hg) hlt
  exact ⟨g', _, hrun, weak_input hv hn hf (hl.weak hgood.good.nonneg hgood.good.within hV hlast)⟩

/-- Whatever minimum cuts the flow solver reports and in whatever order the blocks of a partition are
visited, the default method terminates normally and returns nested optimal partitions from `{V}` to
the singletons, with critical values that never decrease. -/
theorem C05_pspi {S : FlowSolver} (hS : S.Correct) {ord : Partition → List CSet}
    (hord : Enumerates ord) {eps : ℚ} {n : ℕ} {E : List Arc}
    (hv : ValidInput n E) (hn : 2 ≤ n) (hf : FineTolerance eps n E) :
    ∃ g' r, (makeDgraph eps n E >>= pspiRun S eps ord) = .ok (g', r) ∧
      IsWeakPrincipalSequence E (Finset.range n) r.psp r.cv := by
  obtain ⟨g', r, h1, h2⟩ := pspi_input hS hord hv hn hf
  exact ⟨g', r, by rw [makeDgraph_valid hv, Outcome.ok_bind, h1], h2⟩

/-- A binary code of a set; sorting by it gives an order of enumeration for the examples. -/
def setCode (B : CSet) : ℕ := ∑ i ∈ B, 2 ^ i

theorem setCode_injective : Function.Injective setCode := Finset.equivBitIndices.symm.injective

instance : DecidableRel fun a b : CSet => setCode a ≤ setCode b := fun _ _ => inferInstance
instance : IsTrans CSet fun a b => setCode a ≤ setCode b := ⟨fun _ _ _ => le_trans⟩
instance : Std.Antisymm (α := CSet) fun a b => setCode a ≤ setCode b :=
  ⟨fun _ _ h1 h2 => setCode_injective (le_antisymm h1 h2)⟩
instance : Std.Total (α := CSet) fun a b => setCode a ≤ setCode b := ⟨fun _ _ => le_total _ _⟩

def exOrd (P : Partition) : List CSet :=
  Quot.liftOn P.val (List.insertionSort fun a b : CSet => setCode a ≤ setCode b) fun a b h =>
    List.Perm.eq_of_pairwise' (r := fun a b : CSet => setCode a ≤ setCode b)
      (List.pairwise_insertionSort _ _) (List.pairwise_insertionSort _ _)
      ((List.perm_insertionSort _ _).trans (h.trans (List.perm_insertionSort _ _).symm))

theorem exOrd_enumerates : Enumerates exOrd := by
  intro P
  obtain ⟨⟨l⟩, hnd⟩ := P
  have hnd' : l.Nodup := hnd
  have hp := List.perm_insertionSort (fun a b : CSet => setCode a ≤ setCode b) l
  refine ⟨hp.nodup_iff.2 hnd', ?_⟩
  ext B
  rw [List.mem_toFinset]
  exact hp.mem_iff

example : exOrd {{1, 3}, {0}, {2, 4}} = [{0}, {1, 3}, {2, 4}] := by decide +kernel

example : (makeDgraph lemonEps 4 exArcs >>= fun g => pspiRun bruteSolver lemonEps exOrd g >>=
      fun r => pure r.2) =
    .ok ⟨[{{0, 1, 2, 3}}, {{0, 1}, {2, 3}}, {{0, 1}, {2}, {3}}, {{0}, {1}, {2}, {3}}], [3, 4, 5]⟩ := by
  decide +kernel

/-! ### C06: ties -/

/-- The returned lists determine the principal sequence: the values are exactly the critical
parameters, and after removing repeated critical values the result *is* the principal sequence. The
expectation that no value is repeated (and that the result equals that of `dt`) is wrong, see
`C06_ties_violated`. -/
theorem C06_pspi_partial {S : FlowSolver} (hS : S.Correct) {ord : Partition → List CSet}
    (hord : Enumerates ord) {eps : ℚ} {n : ℕ} {E : List Arc}
    (hv : ValidInput n E) (hn : 2 ≤ n) (hf : FineTolerance eps n E) :
    ∃ g' r, (makeDgraph eps n E >>= pspiRun S eps ord) = .ok (g', r) ∧
      (∀ lam, lam ∈ r.cv ↔ IsCritical E (Finset.range n) lam) ∧
      IsPrincipalSequence E (Finset.range n) (dropTies r.psp r.cv).1 (dropTies r.psp r.cv).2 ∧
      (r.cv.Pairwise (· < ·) → IsPrincipalSequence E (Finset.range n) r.psp r.cv) := by
  obtain ⟨g', r, h1, h2⟩ := C05_pspi hS hord hv hn hf
  have hV : (Finset.range n).Nonempty := ⟨0, by simp; omega⟩
  exact ⟨g', r, h1, fun lam => h2.mem_iff hv.nonneg lam,
    h2.dropTies hv.nonneg (ValidInput.within hv) hV, fun h => h2.strict hv.nonneg h⟩

/-- When no optimal partition lies strictly between others, `psp_i` returns the principal sequence. -/
theorem C06_pspi_no_between {S : FlowSolver} (hS : S.Correct) {ord : Partition → List CSet}
    (hord : Enumerates ord) {eps : ℚ} {n : ℕ} {E : List Arc} (hv : ValidInput n E) (hn : 2 ≤ n)
    (hf : FineTolerance eps n E) (hnb : NoBetween E (Finset.range n)) :
    ∃ g' r, (makeDgraph eps n E >>= pspiRun S eps ord) = .ok (g', r) ∧
      IsPrincipalSequence E (Finset.range n) r.psp r.cv := by
  obtain ⟨g', r, h1, h2⟩ := C05_pspi hS hord hv hn hf
  exact ⟨g', r, h1, h2.of_noBetween hv.nonneg hnb⟩

example := C06_pspi_no_between bruteSolver_minimal.toCorrect exOrd_enumerates exArcs_valid (by norm_num) exArcs_fine
  exArcs_noBetween

/-- The same holds for `dt` with a flow solver whose cuts are not the minimal ones. -/
theorem C01_dt_dropTies {S : FlowSolver} (hS : S.Correct) {eps : ℚ} {n : ℕ} {E : List Arc}
    (hv : ValidInput n E) (hn : 2 ≤ n) (hf : FineTolerance eps n E) :
    ∃ r, (makeDgraph eps n E >>= dtRun S eps) = .ok r ∧
      (∀ lam, lam ∈ r.cv ↔ IsCritical E (Finset.range n) lam) ∧
      IsPrincipalSequence E (Finset.range n) (dropTies r.psp r.cv).1 (dropTies r.psp r.cv).2 := by
  obtain ⟨r, h1, h2⟩ := C01_dt_any_cut hS hv hn hf
  have hV : (Finset.range n).Nonempty := ⟨0, by simp; omega⟩
  exact ⟨r, h1, fun lam => h2.mem_iff hv.nonneg lam,
    h2.dropTies hv.nonneg (ValidInput.within hv) hV⟩

/-- Two separate edges of the same weight. -/
def tieArcs : List Arc := [⟨0, 1, 1⟩, ⟨2, 3, 1⟩]

theorem tieArcs_valid : ValidInput 4 tieArcs := by decide +kernel

theorem tieArcs_fine : FineTolerance lemonEps 4 tieArcs :=
  integer_weights_fine (by norm_num) fun e he => ⟨1, by
    simp only [tieArcs, List.mem_cons, List.not_mem_nil, or_false] at he
    rcases he with rfl | rfl <;> norm_num⟩

theorem tie_runs : (makeDgraph lemonEps 4 tieArcs >>= fun g => pspiRun bruteSolver lemonEps exOrd g >>=
      fun r => pure r.2) =
    .ok ⟨[{{0, 1, 2, 3}}, {{0, 1}, {2, 3}}, {{0}, {1}, {2, 3}}, {{0}, {1}, {2}, {3}}], [0, 1, 1]⟩ ∧
    (makeDgraph lemonEps 4 tieArcs >>= dtRun bruteSolver lemonEps) =
    .ok ⟨[{{0, 1, 2, 3}}, {{0, 1}, {2, 3}}, {{0}, {1}, {2}, {3}}], [0, 1]⟩ := by
  constructor <;> decide +kernel

/-- The default method returns a critical value twice (and one partition too many) on a graph with two
separate equal edges, although the flow solver is the best possible one: its critical values are not
strictly increasing and its result differs from that of `dt`. -/
theorem C06_ties_violated : ∃ n E eps, ValidInput n E ∧ 2 ≤ n ∧ FineTolerance eps n E ∧
    ∃ S : FlowSolver, S.Minimal ∧ ∃ ord, Enumerates ord ∧ ∃ g' r r',
      (makeDgraph eps n E >>= pspiRun S eps ord) = .ok (g', r) ∧
      (makeDgraph eps n E >>= dtRun S eps) = .ok r' ∧
      ¬ r.cv.Pairwise (· < ·) ∧ r.cv ≠ r'.cv ∧ r.psp ≠ r'.psp := by
  refine ⟨4, tieArcs, lemonEps, tieArcs_valid, by norm_num, tieArcs_fine, bruteSolver,
    bruteSolver_minimal, exOrd, exOrd_enumerates, ?_⟩
  obtain ⟨h1, h2⟩ := tie_runs
  rw [← Outcome.bind_assoc] at h1
  obtain ⟨⟨g', r⟩, hx, hx'⟩ := Outcome.bind_eq_ok h1
  refine ⟨g', r, _, hx, h2, ?_⟩
  cases hx'
  refine ⟨by decide +kernel, by decide +kernel, ?_⟩
  intro h
  have := congrArg List.length h
  simp at this

/-- What remains true on this graph: removing the repeated value gives the result of `dt`. -/
example : dropTies [{{0, 1, 2, 3}}, {{0, 1}, {2, 3}}, {{0}, {1}, {2, 3}}, {{0}, {1}, {2}, {3}}]
    [0, 1, 1] = ([{{0, 1, 2, 3}}, {{0, 1}, {2, 3}}, {{0}, {1}, {2}, {3}}], [0, 1]) := by
  decide +kernel

/-! ### `dt` needs extremal cuts to avoid repeated values -/

def dtTieArcs : List Arc := [⟨0, 1, 3⟩, ⟨2, 3, 1⟩, ⟨4, 5, 1⟩]

/-- The network of the last step of the truncation at `λ = 1`, where `{4}` is a minimum cut that is
neither the smallest nor the largest. -/
def dtTieNet : Net := dilworthNet dtTieArcs (sinkCost dtTieArcs (List.range 5) 5) (List.range 5)
  [-1, 0, -1, 0, -1]

/-- A correct flow solver that does not report minimal sink sides can make `dt` return a critical
value twice, so the hypothesis on the cuts in `C01_dt_exact` cannot be dropped. -/
theorem C01_needs_minimal_cuts : ∃ S : FlowSolver, S.Correct ∧ ∃ n E eps, ValidInput n E ∧ 2 ≤ n ∧
    FineTolerance eps n E ∧ ∃ r, (makeDgraph eps n E >>= dtRun S eps) = .ok r ∧
      r.cv = [0, 1, 1, 3] := by
  refine ⟨tieSolver dtTieNet {4}, tieSolver_correct (by decide +kernel) (by decide +kernel), 6,
    dtTieArcs, lemonEps, by decide +kernel, by norm_num, integer_weights_fine (by norm_num) ?_,
    ⟨[{{0, 1, 2, 3, 4, 5}}, {{0, 1}, {2, 3}, {4, 5}}, {{0, 1}, {2}, {3}, {4, 5}},
      {{0, 1}, {2}, {3}, {4}, {5}}, {{0}, {1}, {2}, {3}, {4}, {5}}], [0, 1, 1, 3]⟩,
      by decide +kernel, rfl⟩
  intro e he
  simp only [dtTieArcs, List.mem_cons, List.not_mem_nil, or_false] at he
  rcases he with rfl | rfl | rfl
  · exact ⟨3, by norm_num⟩
  · exact ⟨1, by norm_num⟩
  · exact ⟨1, by norm_num⟩

end PSP.Props
