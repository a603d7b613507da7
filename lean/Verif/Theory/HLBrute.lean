import Verif.Theory.PMFRWarmRun
import Verif.Theory.MaxFlow
import Verif.Theory.Brute
import Verif.Theory.PDTRExtra

/-!
# Solvers for `PMF_R` with starting points

They ignore the starting point, unless it is one of the `bad` ones: then they return nonsense.
-/

namespace PSP.Theory

open PSP.Spec PSP.Model

/-- A path of the residual network to the sink: arcs by index, with their direction. -/
def ffPath (arcs : List ((NArc × ℚ) × ℕ)) : ℕ → NV → List NV → Option (List (ℕ × Bool))
  | 0, _, _ => none
  | k + 1, x, seen =>
    (arcs.findSome? fun e =>
      if e.1.1.a = x ∧ e.1.2 < e.1.1.cap ∧ e.1.1.b ≠ .snk ∧ e.1.1.b ∉ seen then
        (ffPath arcs k e.1.1.b (x :: seen)).map ((e.2, true) :: ·)
      else if e.1.1.b = x ∧ (0 : ℚ) < e.1.2 ∧ e.1.1.a ≠ .snk ∧ e.1.1.a ∉ seen then
        (ffPath arcs k e.1.1.a (x :: seen)).map ((e.2, false) :: ·)
      else none).or
    (arcs.findSome? fun e =>
      if e.1.1.a = x ∧ e.1.2 < e.1.1.cap ∧ e.1.1.b = .snk then some [(e.2, true)] else none)

/-- The residual capacity of an arc of a path. -/
def ffResidual (arcs : List (NArc × ℚ)) (e : ℕ × Bool) : ℚ :=
  match arcs[e.1]? with
  | some z => if e.2 then z.1.cap - z.2 else z.2
  | none => 0

/-- The flow after sending as much as possible along a path. -/
def ffAugment (arcs : List (NArc × ℚ)) (p : List (ℕ × Bool)) : List ℚ :=
  let rs := p.map (ffResidual arcs)
  let d := rs.foldl min (rs.headD 0)
  arcs.zipIdx.map fun z =>
    if (z.2, true) ∈ p then z.1.2 + d else if (z.2, false) ∈ p then z.1.2 - d else z.1.2

def ffLoop (N : Net) : ℕ → List ℚ → List ℚ
  | 0, f => f
  | k + 1, f => match ffPath (N.arcs.zip f).zipIdx.reverse (N.verts.card + 2) .src [] with
    | some p => ffLoop N k (ffAugment (N.arcs.zip f) p)
    | none => f

/-- Augmenting paths, for a limited number of rounds. -/
def ffFlow (N : Net) : List ℚ := ffLoop N (N.verts.card * N.arcs.length + 1) (N.arcs.map fun _ => 0)

/-- Is this a maximum flow? -/
def isMaxFlow (N : Net) (f : List ℚ) : Bool :=
  decide (f.length = N.arcs.length ∧ (∀ e ∈ N.arcs.zip f, 0 ≤ e.2 ∧ e.2 ≤ e.1.cap) ∧
    (∀ i ∈ N.verts, excess N.arcs f (.v i) = 0) ∧ excess N.arcs f .snk = bruteValue N)

theorem isMaxFlow_spec {N : Net} (hN : N.Proper) {f : List ℚ} (h : isMaxFlow N f = true) :
    IsFlow N f ∧ excess N.arcs f .snk = bruteValue N := by
  unfold isMaxFlow at h
  rw [decide_eq_true_eq] at h
  obtain ⟨h1, h2, h3, h4⟩ := h
  refine ⟨⟨h1, h2, fun i => ?_⟩, h4⟩
  by_cases hi : i ∈ N.verts
  · exact h3 i hi
  · unfold excess
    apply List.sum_eq_zero
    intro x hx
    obtain ⟨e, he, rfl⟩ := List.mem_map.1 hx
    have he' := (List.of_mem_zip he).1
    rw [if_neg fun h => hi (hN.head _ he' _ h), if_neg fun h => hi (hN.tail _ he' _ h)]
    simp

theorem exists_brute_flow {N : Net} (hN : N.Proper) :
    ∃ f, IsFlow N f ∧ excess N.arcs f .snk = bruteValue N := by
  obtain ⟨f, hf, X, hX, h⟩ := exists_maxflow hN
  refine ⟨f, hf, le_antisymm ?_ ?_⟩
  · obtain ⟨Y, hY, hv⟩ := brute_attained N
    rw [← hv]
    exact IsFlow.le_cut hf Y
  · rw [← h]
    exact brute_le N hX

open Classical in
/-- The flow found by augmenting paths if it is a maximum flow, otherwise any maximum flow. -/
noncomputable def bruteFlow (N : Net) : List ℚ :=
  if isMaxFlow N (ffFlow N) then ffFlow N
  else if h : N.Proper then (exists_brute_flow h).choose else []

theorem bruteFlow_spec {N : Net} (hN : N.Proper) :
    IsFlow N (bruteFlow N) ∧ excess N.arcs (bruteFlow N) .snk = bruteValue N := by
  unfold bruteFlow
  split
  · rename_i h
    exact isMaxFlow_spec hN h
  · exact (exists_brute_flow hN).choose_spec

/-- Is the starting point one of the bad ones? -/
def badStart (bad : Net → HLStart → Bool) (N : Net) : Option HLStart → Bool
  | none => false
  | some t => bad N t

/-- Reports the smallest sink side. -/
noncomputable def bruteSink (bad : Net → HLStart → Bool) : HLSolver where
  run N s := if badStart bad N s then ⟨0, fun _ => false, N.arcs.map fun _ => 0⟩
    else ⟨bruteValue N, bruteSolver.minCut N, bruteFlow N⟩

/-- Reports the smallest source side. -/
noncomputable def bruteSource (bad : Net → HLStart → Bool) : HLSolver where
  run N s := if badStart bad N s then ⟨0, fun _ => true, N.arcs.map fun _ => 0⟩
    else ⟨bruteValue N, bruteSrc.minCutSource N, bruteFlow N⟩

variable {bad : Net → HLStart → Bool} {ok : Net → HLStart → Prop}

theorem badStart_false (h : ∀ N t, ok N t → bad N t = false) {N : Net} {s : Option HLStart}
    (hs : ∀ t, s = some t → ok N t) : badStart bad N s = false := by
  cases s with
  | none => rfl
  | some t => exact h N t (hs t rfl)

theorem bruteSink_leastSink (h : ∀ N t, ok N t → bad N t = false) : (bruteSink bad).LeastSink ok := by
  have hrun : ∀ N s, (∀ t, s = some t → ok N t) → (bruteSink bad).run N s =
      ⟨bruteValue N, bruteSolver.minCut N, bruteFlow N⟩ := by
    intro N s hs
    unfold bruteSink
    simp [badStart_false h hs]
  have hside : ∀ N s, (∀ t, s = some t → ok N t) → (bruteSink bad).sinkSide N s = bruteSolver.sinkSide N := by
    intro N s hs
    unfold HLSolver.sinkSide FlowSolver.sinkSide
    rw [hrun N s hs]
  exact
    { value_eq := fun N s hN hs => by
        rw [hside N s hs, hrun N s hs]
        exact bruteSolver_minimal.value_eq N hN.nonneg
      flow := fun N s hN hs => by
        rw [hrun N s hs]
        exact (bruteFlow_spec hN).1
      flow_value := fun N s hN hs => by
        rw [hrun N s hs]
        exact (bruteFlow_spec hN).2
      least := fun N s hN hs X hX hv => by
        rw [hrun N s hs] at hv
        rw [hside N s hs]
        exact bruteSolver_minimal.minimal N hN.nonneg X hX hv }

theorem bruteSource_leastSource (h : ∀ N t, ok N t → bad N t = false) :
    (bruteSource bad).LeastSource ok := by
  have hrun : ∀ N s, (∀ t, s = some t → ok N t) → (bruteSource bad).run N s =
      ⟨bruteValue N, bruteSrc.minCutSource N, bruteFlow N⟩ := by
    intro N s hs
    unfold bruteSource
    simp [badStart_false h hs]
  have hside : ∀ N s, (∀ t, s = some t → ok N t) → (bruteSource bad).srcSide N s = bruteSrc.srcSide N := by
    intro N s hs
    unfold HLSolver.srcSide SrcSolver.srcSide
    rw [hrun N s hs]
  have hsink : ∀ N s, (∀ t, s = some t → ok N t) →
      (bruteSource bad).sinkSide N s = N.verts \ bruteSrc.srcSide N := by
    intro N s hs
    unfold HLSolver.sinkSide SrcSolver.srcSide
    rw [hrun N s hs]
    ext v
    simp only [Finset.mem_filter, Finset.mem_sdiff, not_and, Bool.not_eq_true]
    constructor
    · rintro ⟨h1, h2⟩
      exact ⟨h1, fun _ => h2⟩
    · rintro ⟨h1, h2⟩
      exact ⟨h1, h2 h1⟩
  exact
    { value_eq := fun N s hN hs => by
        rw [hsink N s hs, hrun N s hs]
        exact bruteSrc_minimal.value_eq N hN.nonneg
      flow := fun N s hN hs => by
        rw [hrun N s hs]
        exact (bruteFlow_spec hN).1
      flow_value := fun N s hN hs => by
        rw [hrun N s hs]
        exact (bruteFlow_spec hN).2
      least := fun N s hN hs X hX hv => by
        rw [hrun N s hs] at hv
        rw [hside N s hs]
        exact bruteSrc_minimal.minimal N hN.nonneg X hX hv }

/-! ### only one thread delivers -/

/-- The solver without its starting points. -/
def HLcold (W : HLSolver) : HLSolver := ⟨fun N _ => W.run N none⟩

theorem HLcold_leastSink {W : HLSolver} (h : W.LeastSink ok) {ok' : Net → HLStart → Prop} :
    (HLcold W).LeastSink ok' where
  value_eq N _ hN _ := h.value_eq N none hN (by simp)
  flow N _ hN _ := h.flow N none hN (by simp)
  flow_value N _ hN _ := h.flow_value N none hN (by simp)
  least N _ hN _ := h.least N none hN (by simp)

/-- If only the right thread ever delivers, `PMF_R::run` uses the other solver for the first cut only. -/
theorem pmfrRunW_right (W Q : HLSolver) {ε : ℚ} {g : Digraph} {sched : ℕ → CSet → CSet → Finish × Bool}
    (hs : ∀ j A B, (sched j A B).1 = .right) : pmfrRunW W Q ε g sched = pmfrRunW (HLcold W) Q ε g sched := by
  funext j y
  unfold pmfrRunW
  dsimp only
  split
  · rfl
  · exact congrArg₂ Bind.bind (pmfrSliceW_right (hs j) ..) rfl

end PSP.Theory
