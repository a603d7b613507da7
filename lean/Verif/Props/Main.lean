import Verif.Model.Main
import Verif.Model.Agg
import Verif.Props.PSP
import Verif.Theory.Spectrum

/-!
# The graph of a caller, the command line program and the example program (C53 – C55)
-/

namespace PSP.Props

open PSP.Model PSP.Spec PSP.Theory

/-! ### C53: an object made from a graph -/

/-- What a user sees of an object made from a graph of their own, run once. -/
def runGraph (e : Env) (s : Schedule) (m : Mem) (method : String) : Outcome PSPOut := do
  ((PSPObj.newGraph m).run e s method).2
  return ⟨((PSPObj.newGraph m).run e s method).1.getPartitions,
    ((PSPObj.newGraph m).run e s method).1.getCriticalValues⟩

theorem newGraph_of {e : Env} {s : Schedule} {m : Mem} {method : String} {r : PSPOut}
    (h1 : ((PSPObj.newGraph m).run e s method).2 = .ok ())
    (h2 : ((PSPObj.newGraph m).run e s method).1.psp = r.psp)
    (h3 : ((PSPObj.newGraph m).run e s method).1.gamma = r.cv) : runGraph e s m method = .ok r := by
  unfold runGraph
  rw [h1, Outcome.ok_bind]
  unfold PSPObj.getPartitions PSPObj.getCriticalValues
  rw [h2, h3]
  rfl

theorem good_raw {n : ℕ} {E : List Arc} (hv : ValidInput n E) : GoodDigraph ⟨List.range n, E⟩ n :=
  ⟨rfl, ⟨fun e he => (hv.lowHigh e he).1, ValidInput.within hv, hv.simple, hv.nonneg⟩⟩

theorem dt_raw {S : FlowSolver} (hS : S.Minimal) {ε : ℚ} {n : ℕ} {E : List Arc}
    (hv : ValidInput n E) (hn : 2 ≤ n) (hf : FineTolerance ε n E) :
    ∃ r, dtRun S ε ⟨List.range n, E⟩ = .ok r ∧ IsPrincipalSequence E (Finset.range n) r.psp r.cv := by
  obtain ⟨u, hu, hg, hε, hlt⟩ := hf
  have hgood := good_raw hv
  have h0 := crossWeight_nonneg hgood.good.nonneg (singletons (Finset.range n))
  have hV : (Finset.range n).Nonempty := ⟨0, by simp; omega⟩
  obtain ⟨s, c, hrun, hl⟩ := dtRun_spec hS.toCorrect hgood hn hε (-1) _ (by norm_num) le_rfl
    (lt_of_lt_of_le (by norm_num) h0)
  have hle : ε * (((Finset.range n).card : ℚ) - 1) ≤ u := by simpa using le_of_lt hlt
  have hlinked := hl.linked hgood.good.nonneg hu hg hV hle hε
  set t := s ++ [(c, crossWeight E (singletons (Finset.range n)), singletons (Finset.range n))] with ht
  have h1 : (t.map fun x => (x.1, x.2.2)).map Prod.snd = t.map (·.2.2) := by simp
  have h2 : (t.map fun x => (x.1, x.2.2)).map Prod.fst = t.map (·.1) := by simp
  have hlast : lastOf {Finset.range n} (t.map fun x => (x.1, x.2.2)) = singletons (Finset.range n) := by
    rw [ht, List.map_append, lastOf_append]; rfl
  refine ⟨_, hrun, ?_⟩
  have := hlinked.strict hgood.good.nonneg hgood.good.within hV hlast (by
    rw [h2]; exact hl.increasing hu hg hV hle hε hS)
  rwa [h1, h2] at this

/-- `dt` and `hpsp` return the principal sequence of the graph of the caller, whose edges may have weight
zero; `psp_i` returns it up to repeated critical values. -/
theorem C53_graph_plain {e : Env} (he : EnvGood e) (s : Schedule) {m : Mem} (hw : MemWF m) {n : ℕ}
    {E : List Arc} (hm : m.graph = ⟨List.range n, E⟩) (hv : ValidInput n E) (hn : 2 ≤ n)
    (hf : FineTolerance e.eps n E) :
    (∀ method ∈ ["dt", "hpsp"], ∃ r, runGraph e s m method = .ok r ∧
      IsPrincipalSequence E (Finset.range n) r.psp r.cv) ∧
    ∃ r, runGraph e s m "psp_i" = .ok r ∧ IsWeakPrincipalSequence E (Finset.range n) r.psp r.cv := by
  have hV : (Finset.range n).Nonempty := ⟨0, by simp; omega⟩
  have hgood := good_raw hv
  obtain ⟨u, hu, hg, hε, hlt⟩ := id hf
  refine ⟨fun method hmeth => ?_, ?_⟩
  · simp only [List.mem_cons, List.not_mem_nil, or_false] at hmeth
    rcases hmeth with rfl | rfl
    · obtain ⟨r, h1, h2⟩ := dt_raw he.flow hv hn hf
      refine ⟨r, ?_, h2⟩
      obtain ⟨m1, _, _, _, h3⟩ := dtRunMem_sim e.S e.eps hw
      have h4 : (PSPObj.newGraph m).run e s "dt" = (PSPObj.newGraph m).finish (dtRunMem e.S e.eps m) := rfl
      rw [h3, hm, h1] at h4
      exact newGraph_of (by rw [h4]; rfl) (by rw [h4]; rfl) (by rw [h4]; rfl)
    · obtain ⟨g', t, psp, hrun, hpsp, hlen, hl, hlast, hinc⟩ := hpspRun_spec he.flow.toCorrect he.enum hn
        hgood hε hg hlt
      have h4 : (PSPObj.newGraph m).run e s "hpsp" = (PSPObj.newGraph m).finish
        (hpspRun e.S e.eps e.ord m.graph >>= fun r => pure (m.contracted r.1, r.2)) := rfl
      rw [hm, hrun] at h4
      refine ⟨⟨psp, t.map Prod.fst⟩, newGraph_of (by rw [h4]; rfl) (by rw [h4]; rfl) (by rw [h4]; rfl), ?_⟩
      rw [hpsp (Or.inl he.flow)]
      exact hl.strict hgood.good.nonneg hgood.good.within hV hlast hinc
  · obtain ⟨g', t, hrun, hl, hlast⟩ := pspiRun_spec he.flow.toCorrect he.enum hn hgood hε hg hlt
    have h4 : (PSPObj.newGraph m).run e s "psp_i" = (PSPObj.newGraph m).finish
      (pspiRun e.S e.eps e.ord m.graph >>= fun r => pure (m.contracted r.1, r.2)) := rfl
    rw [hm, hrun] at h4
    exact ⟨⟨{Finset.range n} :: t.map Prod.snd, t.map Prod.fst⟩,
      newGraph_of (by rw [h4]; rfl) (by rw [h4]; rfl) (by rw [h4]; rfl),
      hl.weak hgood.good.nonneg hgood.good.within hV hlast⟩

/-- Below the tolerance there are only the zeros. -/
theorem inputGraph_positive {eps : ℚ} {n : ℕ} {E : List Arc} (hf : PdtTolerance eps n E)
    (hpos : ∀ a ∈ E, 0 < a.cap) : inputGraph eps n E = ⟨List.range n, E⟩ := by
  obtain ⟨u, hu, hg, _, he, hlt⟩ := hf
  unfold inputGraph
  congr 1
  rw [List.filter_eq_self]
  intro a ha
  obtain ⟨k, hk⟩ := hg a ha
  have h1 := hpos a ha
  rw [hk] at h1
  have hk1 : (1 : ℚ) ≤ k := by
    have : 0 < (k : ℚ) := pos_of_mul_pos_left h1 hu.le
    exact_mod_cast this
  have hs : (1 : ℚ) ≤ (Nat.superFactorial (n - 1) : ℚ) := by
    have : 1 ≤ Nat.superFactorial (n - 1) := by
      have h : ∀ k, 0 < Nat.superFactorial k := by
        intro k
        induction k with
        | zero => simp
        | succ k ih => rw [Nat.superFactorial_succ]; exact Nat.mul_pos (Nat.factorial_pos _) ih
      exact h _
    exact_mod_cast this
  rw [decide_eq_true_iff, hk]
  nlinarith

/-- With positive weights the object made from the graph behaves like the one made from the list of its
edges, for every method, also in how it ends. -/
theorem C53_same {e : Env} (s : Schedule) {m : Mem} (hw : MemWF m) {n : ℕ} {E : List Arc}
    (hm : m.graph = ⟨List.range n, E⟩) (hv : ValidInput n E) (hf : PdtTolerance e.eps n E)
    (hpos : ∀ a ∈ E, 0 < a.cap) {method : String} (hmeth : method ∈ methods) :
    runGraph e s m method = runOnce e s n E method := by
  obtain ⟨o, ho, hg⟩ := new_input (eps := e.eps) hv
  obtain ⟨h1, h2⟩ := run_result e s hmeth (o := PSPObj.newGraph m) (o' := o) hw (new_wf ho).1
    (by rw [hg, inputGraph_positive hf hpos]; exact hm)
  unfold runOnce runGraph
  rw [ho, Outcome.ok_bind, ← h1]
  unfold PSPObj.getPartitions PSPObj.getCriticalValues
  cases h : ((PSPObj.newGraph m).run e s method).2 with
  | ok x =>
    cases x
    obtain ⟨h3, h4⟩ := h2 h
    rw [h3, h4]
  | _ => rfl

/-- **Partial**: every method returns the principal sequence (`psp_i` up to repeated critical values) of the
graph of the caller if the weights are positive. Missing: weights zero with `pdt` and `pdt_r`, see
`C53_zero_violated`. -/
theorem C53_graph_partial {e : Env} (he : EnvGood e) (s : Schedule) {m : Mem} (hw : MemWF m) {n : ℕ}
    {E : List Arc} (hm : m.graph = ⟨List.range n, E⟩) (hv : ValidInput n E) (hn : 2 ≤ n)
    (hf : PdtTolerance e.eps n E) (hpos : ∀ a ∈ E, 0 < a.cap) {method : String} (hmeth : method ∈ methods) :
    ∃ r, runGraph e s m method = .ok r ∧ IsWeakPrincipalSequence E (Finset.range n) r.psp r.cv ∧
      (method ∈ exactMethods → IsPrincipalSequence E (Finset.range n) r.psp r.cv) := by
  rw [C53_same s hw hm hv hf hpos hmeth]
  obtain ⟨r, h1, h2⟩ := runOnce_weak he s hv hn hf hmeth
  refine ⟨r, h1, h2, fun hx => ?_⟩
  obtain ⟨r', h1', h2'⟩ := runOnce_exact he s hv hn hf hx
  rw [h1] at h1'
  cases h1'
  exact h2'

/-- The graph of the examples as a graph of a caller. -/
def exMem : Mem := ⟨List.range 4, exArcs, [], 4⟩

theorem exMem_wf : MemWF exMem := by
  refine ⟨fun a ha => ?_, fun v hv => ?_, fun v hv => ?_, ?_, ?_⟩
  · revert a; decide +kernel
  · exact List.mem_range.1 hv
  · simp [exMem] at hv
  · simp [exMem]
  · exact List.nodup_range

example : ∃ r, runGraph exEnv exSched exMem "pdt_r" = .ok r ∧
    IsPrincipalSequence exArcs (Finset.range 4) r.psp r.cv := by
  obtain ⟨r, h1, _, h2⟩ := C53_graph_partial exEnv_good exSched exMem_wf (n := 4) (E := exArcs) rfl exArcs_valid
    (by norm_num) exEnv_tolerance (by decide +kernel) (method := "pdt_r") (by simp [methods])
  exact ⟨r, h1, h2 (by simp [exactMethods])⟩

/-- A graph with an edge of weight zero. -/
def zeroArcs : List Arc := [⟨0, 2, 4⟩, ⟨1, 3, 2⟩, ⟨2, 3, 0⟩]

/-- The graph as a graph of a caller. -/
def zeroMem : Mem := ⟨List.range 4, zeroArcs, [], 4⟩

theorem zeroArcs_valid : ValidInput 4 zeroArcs := by decide +kernel

theorem zeroArcs_tolerance : PdtTolerance exEnv.eps 4 zeroArcs := by
  refine integer_weights_pdt (by norm_num) fun e he => ?_
  simp only [zeroArcs, List.mem_cons, List.not_mem_nil, or_false] at he
  rcases he with rfl | rfl | rfl
  · exact ⟨4, by norm_num⟩
  · exact ⟨2, by norm_num⟩
  · exact ⟨0, by norm_num⟩

theorem zeroMem_wf : MemWF zeroMem := by
  refine ⟨fun a ha => ?_, fun v hv => ?_, fun v hv => ?_, ?_, ?_⟩
  · revert a; decide +kernel
  · exact List.mem_range.1 hv
  · simp [zeroMem] at hv
  · simp [zeroMem]
  · exact List.nodup_range

example : ∃ r, runGraph exEnv exSched zeroMem "hpsp" = .ok r ∧
    IsPrincipalSequence zeroArcs (Finset.range 4) r.psp r.cv :=
  (C53_graph_plain exEnv_good exSched zeroMem_wf rfl zeroArcs_valid (by norm_num)
    (zeroArcs_tolerance.fine (by norm_num))).1 "hpsp" (by simp)

/-- An edge of weight zero in a graph of the caller is copied into the network of `PMF` and `PMF_R`, and as
its weight is below the tolerance a second arc to the sink is added; both get the capacity that one should
have. On this graph `pdt` and `pdt_r` return critical values that are not critical and leave out a partition,
whereas `dt` returns the principal sequence; and both return it if the object is made from the list of
edges. -/
theorem C53_zero_violated : ∃ e : Env, EnvGood e ∧ ∃ (n : ℕ) (E : List Arc) (m : Mem), MemWF m ∧
    m.graph = ⟨List.range n, E⟩ ∧ ValidInput n E ∧ 2 ≤ n ∧ PdtTolerance e.eps n E ∧
    ∀ method ∈ ["pdt", "pdt_r"], ∃ r, runGraph e exSched m method = .ok r ∧
      ¬ IsWeakPrincipalSequence E (Finset.range n) r.psp r.cv ∧
      runOnce e exSched n E method = runGraph e exSched m "dt" := by
  have hwrong : ∀ method ∈ ["pdt", "pdt_r"], runGraph exEnv exSched zeroMem method =
      .ok ⟨[{{0, 1, 2, 3}}, {{0, 2}, {1}, {3}}, {{0}, {1}, {2}, {3}}], [1, 4]⟩ := by decide +kernel
  have hdt : runGraph exEnv exSched zeroMem "dt" =
      .ok ⟨[{{0, 1, 2, 3}}, {{0, 2}, {1, 3}}, {{0, 2}, {1}, {3}}, {{0}, {1}, {2}, {3}}], [0, 2, 4]⟩ := by
    decide +kernel
  have honce : ∀ method ∈ ["pdt", "pdt_r"], runOnce exEnv exSched 4 zeroArcs method =
      .ok ⟨[{{0, 1, 2, 3}}, {{0, 2}, {1, 3}}, {{0, 2}, {1}, {3}}, {{0}, {1}, {2}, {3}}], [0, 2, 4]⟩ := by
    decide +kernel
  refine ⟨exEnv, exEnv_good, 4, zeroArcs, zeroMem, zeroMem_wf, rfl, zeroArcs_valid, by norm_num,
    zeroArcs_tolerance, fun method hm => ⟨_, hwrong method hm, fun h => ?_, ?_⟩⟩
  · obtain ⟨r, h1, h2⟩ := (C53_graph_plain exEnv_good exSched zeroMem_wf rfl zeroArcs_valid (by norm_num)
      (zeroArcs_tolerance.fine (by norm_num))).1 "dt" (by simp)
    rw [hdt] at h1
    cases h1
    have hpart := (h2.optimal 1 {{0, 2}, {1, 3}} 1 rfl
      (fun j c hc hj => by
        match j, hc with
        | 0, hc => simp at hc; linarith)
      (fun j c hc hj => by
        match j, hc with
        | 1, hc => simp at hc; linarith
        | 2, hc => simp at hc; linarith)).1
    have := (h.optimal 0 {{0, 1, 2, 3}} 1 rfl (by simp) (fun j c hc _ => by
      match j, hc with
      | 0, hc => simp at hc; linarith
      | 1, hc => simp at hc; linarith)).2 _ hpart
    revert this
    decide +kernel
  · rw [honce method hm, hdt]

/-! ### C54: the command line program -/

/-- Lines that show partitions and values in turn, beginning and ending with a partition. -/
structure IsReport (ls : List Line) (Ps : List (Finset (Finset ℕ))) (cv : List ℚ) : Prop where
  length : ls.length = 2 * cv.length + 1
  part : ∀ i ≤ cv.length, ls[2 * i]? = Ps[i]?.map .part
  value : ∀ i < cv.length, ls[2 * i + 1]? = cv[i]?.map .value

/-- The file the result is meant for: the one asked for, otherwise one named after the method and the graph. -/
structure IsTarget (a : Args) (g out : String) : Prop where
  default : a.result = "output.txt" → out = a.method ++ "-" ++ g ++ ".txt"
  asked : a.result ≠ "output.txt" → out = a.result

/-- The methods named in the help text. -/
def documented : List String := "agg_psp" :: methods

theorem isTarget_iff {a : Args} {g out : String} : IsTarget a g out ↔ out = resultName a g := by
  unfold resultName
  constructor
  · intro h
    split
    · exact h.default ‹_›
    · exact h.asked ‹_›
  · rintro rfl
    exact ⟨fun h => by rw [if_pos h], fun h => by rw [if_neg h]⟩

theorem mem_mainMethods {m : String} : m ∈ mainMethods ↔ m ∈ documented := by
  simp only [mainMethods, documented, methods, List.mem_cons, List.not_mem_nil, or_false]
  tauto

theorem mainLoop_report : ∀ (cv : List ℚ) (Ps : List Partition) (P : Partition), Ps.length = cv.length →
    ∃ ls, mainLoop Ps cv = .ok ls ∧ IsReport (.part P :: ls) (P :: Ps) cv := by
  intro cv
  induction cv with
  | nil =>
    intro Ps P h
    cases Ps with
    | nil => exact ⟨[], rfl, rfl, fun i hi => by obtain rfl : i = 0 := by simpa using hi
                                                 rfl, fun i hi => by simp at hi⟩
    | cons Q Ps => simp at h
  | cons c cv ih =>
    intro Ps P h
    cases Ps with
    | nil => simp at h
    | cons Q Ps =>
      obtain ⟨ls, h1, h2⟩ := ih Ps Q (by simpa using h)
      refine ⟨.value c :: .part Q :: ls, by rw [mainLoop, h1]; rfl, ?_, fun i hi => ?_, fun i hi => ?_⟩
      · have := h2.length
        simp only [List.length_cons] at this ⊢
        omega
      · cases i with
        | zero => rfl
        | succ i =>
          have := h2.part i (by simpa using hi)
          rw [show 2 * (i + 1) = 2 * i + 1 + 1 by ring]
          simpa using this
      · cases i with
        | zero => rfl
        | succ i =>
          have := h2.value i (by simpa using hi)
          rw [show 2 * (i + 1) + 1 = 2 * i + 1 + 1 + 1 by ring]
          simpa using this

theorem mainOutput_report (Ps : List Partition) (cv : List ℚ) (h : Ps.length = cv.length + 1) :
    ∃ ls, mainOutput Ps cv = .ok ls ∧ IsReport ls Ps cv := by
  cases Ps with
  | nil => simp at h
  | cons P Ps =>
    obtain ⟨ls, h1, h2⟩ := mainLoop_report cv Ps P (by simpa using h)
    exact ⟨_, by rw [mainOutput, h1]; rfl, h2⟩

theorem mainLists_eq (e : Env) (s : Schedule) (lgf : Option Content → Outcome Mem) {m : Mem} {method : String}
    {c : Option Content} (h : lgf c = .ok m) :
    mainLists (fun x o => o.run e s x) lgf method c = runGraph e s m method := by
  unfold mainLists
  rw [h]
  rfl

/-- **Partial**: if the graph file is read as a graph with positive weights and the method is one of the five
that are always built in, `main` returns 0 and writes to the result file the partitions and critical values
of the principal sequence in turn; no other file is touched. Missing: edges of weight zero (see
`C53_zero_violated`; `dt`, `psp_i` and `hpsp` are covered by `C54_main_plain`) and `agg_psp`
(`C54_agg_violated`). -/
theorem C54_main_partial {e : Env} (he : EnvGood e) (s : Schedule) (lgf : Option Content → Outcome Mem)
    {a : Args} {w : World} {g : String} (hhelp : a.help = false) (hgraph : a.graph = some g)
    (hmeth : a.method ∈ methods) {m : Mem} (hlgf : lgf (w.files g) = .ok m) (hw : MemWF m) {n : ℕ}
    {E : List Arc} (hm : m.graph = ⟨List.range n, E⟩) (hv : ValidInput n E) (hn : 2 ≤ n)
    (hf : PdtTolerance e.eps n E) (hpos : ∀ x ∈ E, 0 < x.cap) {out : String}
    (hout : IsTarget a g out) (hcan : w.canWrite out = true) :
    ∃ Ps cv ls, IsWeakPrincipalSequence E (Finset.range n) Ps cv ∧
      (a.method ∈ exactMethods → IsPrincipalSequence E (Finset.range n) Ps cv) ∧ IsReport ls Ps cv ∧
      ∃ w' msgs, mainRun (fun x o => o.run e s x) lgf a w = (w', msgs, .ok 0) ∧
        w'.files out = some (.lines ls) ∧
        (∀ f, f ≠ out → w'.files f = w.files f) ∧ w'.canWrite = w.canWrite ∧
        msgs = if a.time then [.timeUsed] else [] := by
  obtain rfl := isTarget_iff.1 hout
  obtain ⟨r, h1, h2, h3⟩ := C53_graph_partial he s hw hm hv hn hf hpos hmeth
  obtain ⟨ls, h4, h5⟩ := mainOutput_report r.psp r.cv h2.length
  refine ⟨r.psp, r.cv, ls, h2, h3, h5, w.write (resultName a g) (.lines ls), _, ?_, ?_, ?_, ?_, rfl⟩
  · have hmm : ¬ a.method ∉ mainMethods := by
      simp only [methods, mainMethods, List.mem_cons, List.not_mem_nil, or_false] at hmeth ⊢
      tauto
    unfold mainRun
    rw [hhelp, hgraph, if_neg (by simp), if_neg hmm]
    simp only [mainLists_eq e s lgf hlgf, h1, h4, mainWrite]
  · simp [World.write, hcan]
  · intro f hne
    simp [World.write, hcan, hne]
  · simp [World.write, hcan]

/-- The same for graphs with edges of weight zero, for `dt`, `psp_i` and `hpsp`. -/
theorem C54_main_plain {e : Env} (he : EnvGood e) (s : Schedule) (lgf : Option Content → Outcome Mem)
    {a : Args} {w : World} {g : String} (hhelp : a.help = false) (hgraph : a.graph = some g)
    (hmeth : a.method ∈ ["dt", "hpsp", "psp_i"]) {m : Mem} (hlgf : lgf (w.files g) = .ok m) (hw : MemWF m)
    {n : ℕ} {E : List Arc} (hm : m.graph = ⟨List.range n, E⟩) (hv : ValidInput n E) (hn : 2 ≤ n)
    (hf : FineTolerance e.eps n E) {out : String}
    (hout : IsTarget a g out) (hcan : w.canWrite out = true) :
    ∃ Ps cv ls, IsWeakPrincipalSequence E (Finset.range n) Ps cv ∧
      (a.method ≠ "psp_i" → IsPrincipalSequence E (Finset.range n) Ps cv) ∧ IsReport ls Ps cv ∧
      ∃ w' msgs, mainRun (fun x o => o.run e s x) lgf a w = (w', msgs, .ok 0) ∧
        w'.files out = some (.lines ls) ∧
        (∀ f, f ≠ out → w'.files f = w.files f) ∧ w'.canWrite = w.canWrite ∧
        msgs = if a.time then [.timeUsed] else [] := by
  obtain rfl := isTarget_iff.1 hout
  obtain ⟨hA, hB⟩ := C53_graph_plain he s hw hm hv hn hf
  obtain ⟨r, h1, h2, h3⟩ : ∃ r, runGraph e s m a.method = .ok r ∧
      IsWeakPrincipalSequence E (Finset.range n) r.psp r.cv ∧
      (a.method ≠ "psp_i" → IsPrincipalSequence E (Finset.range n) r.psp r.cv) := by
    by_cases hp : a.method = "psp_i"
    · obtain ⟨r, h1, h2⟩ := hB
      exact ⟨r, by rw [hp, h1], h2, fun h => absurd hp h⟩
    · obtain ⟨r, h1, h2⟩ := hA a.method (by
        simp only [List.mem_cons, List.not_mem_nil, or_false] at hmeth ⊢
        tauto)
      exact ⟨r, h1, h2.weak, fun _ => h2⟩
  obtain ⟨ls, h4, h5⟩ := mainOutput_report r.psp r.cv h2.length
  refine ⟨r.psp, r.cv, ls, h2, h3, h5, w.write (resultName a g) (.lines ls), _, ?_, ?_, ?_, ?_, rfl⟩
  · have hmm : ¬ a.method ∉ mainMethods := by
      simp only [mainMethods, List.mem_cons, List.not_mem_nil, or_false] at hmeth ⊢
      tauto
    unfold mainRun
    rw [hhelp, hgraph, if_neg (by simp), if_neg hmm]
    simp only [mainLists_eq e s lgf hlgf, h1, h4, mainWrite]
  · simp [World.write, hcan]
  · intro f hne
    simp [World.write, hcan, hne]
  · simp [World.write, hcan]

/-- A world with the graph of the examples in the file `g.lgf`, in which all names without a slash can be
written. -/
def exWorld : World :=
  ⟨fun f => if f = "g.lgf" ∨ f = "/tmp/g.lgf" then some (.other "graph") else none, fun f => !f.toList.contains '/'⟩

/-- A reader that reads this file. -/
def exLgf : Option Content → Outcome Mem
  | some (.other "graph") => .ok exMem
  | _ => .exc "FormatError"

example : ∃ ls w' msgs, mainRun (fun x o => o.run exEnv exSched x) exLgf { graph := some "g.lgf" } exWorld =
    (w', msgs, .ok 0) ∧ w'.files "dt-g.lgf.txt" = some (.lines ls) ∧ ls.length = 7 := by
  obtain ⟨Ps, cv, ls, _, h2, h3, w', msgs, h4, h5, _⟩ := C54_main_partial exEnv_good exSched exLgf
    (a := { graph := some "g.lgf" }) (w := exWorld) (g := "g.lgf") rfl rfl (by simp [methods]) (m := exMem)
    (by simp [exWorld, exLgf]) exMem_wf (n := 4) (E := exArcs) rfl exArcs_valid (by norm_num) exEnv_tolerance
    (by decide +kernel) (out := "dt-g.lgf.txt") ⟨fun _ => rfl, fun h => absurd rfl h⟩ (by decide +kernel)
  refine ⟨ls, w', msgs, h4, ?_, ?_⟩
  · exact h5
  · obtain ⟨r, h6, h7⟩ := runOnce_exact exEnv_good exSched exArcs_valid (by norm_num) exEnv_tolerance (m := "dt")
      (by simp [exactMethods])
    have h8 : runOnce exEnv exSched 4 exArcs "dt" = .ok ⟨[{{0, 1, 2, 3}}, {{0, 1}, {2, 3}}, {{0, 1}, {2}, {3}},
      {{0}, {1}, {2}, {3}}], [3, 4, 5]⟩ := by decide +kernel
    rw [h8] at h6
    cases h6
    have := (IsPrincipalSequence.eq exArcs_valid.nonneg (h2 (by simp [exactMethods])) h7).2
    rw [h3.length, this]
    rfl

/-- Whatever the arguments, the reader and the algorithms do: only the result file of an accepted method with
a graph can change, and only if the program ends normally. -/
theorem C54_frame (run : String → PSPObj → PSPObj × Outcome Unit) (lgf : Option Content → Outcome Mem) (a : Args)
    (w : World) : (mainRun run lgf a w).1.canWrite = w.canWrite ∧
    (∀ f, (mainRun run lgf a w).1.files f ≠ w.files f → (mainRun run lgf a w).2.2 = .ok 0 ∧ a.help = false ∧
      a.method ∈ documented ∧ ∃ g, a.graph = some g ∧ IsTarget a g f) ∧
    ∀ k, (mainRun run lgf a w).2.2 = .ok k → k = 0 := by
  unfold mainRun
  by_cases hh : a.help = true
  · rw [if_pos hh]
    exact ⟨rfl, fun f h => absurd rfl h, fun k hk => by cases hk; rfl⟩
  rw [if_neg hh]
  by_cases hm : a.method ∉ mainMethods
  · rw [if_pos hm]
    exact ⟨rfl, fun f h => absurd rfl h, fun k hk => by cases hk; rfl⟩
  rw [if_neg hm]
  cases hg : a.graph with
  | none => exact ⟨rfl, fun f h => absurd rfl h, fun k hk => by cases hk⟩
  | some g =>
    dsimp only
    cases mainLists run lgf a.method (w.files g) with
    | ok r =>
      dsimp only
      cases mainOutput r.psp r.cv with
      | ok ls =>
        dsimp only [mainWrite]
        refine ⟨by unfold World.write; split <;> rfl, fun f h => ⟨rfl, by simpa using hh,
          mem_mainMethods.1 (not_not.1 hm), g, rfl, isTarget_iff.2 ?_⟩,
          fun k hk => by cases hk; rfl⟩
        by_contra hne
        refine h ?_
        unfold World.write
        split
        · simp [hne]
        · rfl
      | _ => exact ⟨rfl, fun f h => absurd rfl h, fun k hk => by cases hk⟩
    | _ => exact ⟨rfl, fun f h => absurd rfl h, fun k hk => by cases hk⟩

/-- `--help`, an unknown method and a missing graph: nothing is read or written. An unknown method is
reported on the console but the exit code is 0 as after success. -/
theorem C54_idle (run : String → PSPObj → PSPObj × Outcome Unit) (lgf : Option Content → Outcome Mem) (a : Args)
    (w : World) :
    (a.help = true → mainRun run lgf a w = (w, [.usage], .ok 0)) ∧
    (a.help = false → a.method ∉ documented →
      mainRun run lgf a w = (w, [.unknownMethod a.method, .usage], .ok 0)) ∧
    (a.help = false → a.method ∈ documented → a.graph = none →
      mainRun run lgf a w = (w, [], .exc "bad_any_cast")) := by
  refine ⟨fun h => ?_, fun h1 h2 => ?_, fun h1 h2 h3 => ?_⟩
  · unfold mainRun; rw [if_pos h]
  · unfold mainRun; rw [if_neg (by simp [h1]), if_pos (fun h => h2 (mem_mainMethods.1 h))]
  · unfold mainRun; rw [if_neg (by simp [h1]), if_neg (not_not.2 (mem_mainMethods.2 h2)), h3]

example : mainRun (fun x o => o.run exEnv exSched x) exLgf { graph := some "g.lgf", method := "Dt" } exWorld =
    (exWorld, [.unknownMethod "Dt", .usage], .ok 0) :=
  (C54_idle _ _ _ _).2.1 rfl (by decide +kernel)

theorem resultName_ne {a : Args} {g : String} (hm : a.method ∈ mainMethods) : resultName a g ≠ "output.txt" := by
  unfold resultName
  split
  · intro h
    have h1 : (a.method ++ "-" ++ g ++ ".txt").toList.head? = some 'o' := by rw [h]; rfl
    simp only [mainMethods, List.mem_cons, List.not_mem_nil, or_false] at hm
    rcases hm with hm | hm | hm | hm | hm | hm <;> rw [hm] at h1 <;> simp at h1
  · assumption

/-- A result in the file `output.txt` cannot be had: that file is never written, not even if it is asked
for. -/
theorem C54_output_violated (run : String → PSPObj → PSPObj × Outcome Unit)
    (lgf : Option Content → Outcome Mem) (a : Args) (w : World) :
    (mainRun run lgf a w).1.files "output.txt" = w.files "output.txt" := by
  by_contra h
  obtain ⟨_, _, h1, g, _, h2⟩ := (C54_frame run lgf a w).2.1 _ h
  exact resultName_ne (mem_mainMethods.2 h1) (isTarget_iff.1 h2).symm

/-- If the result file cannot be opened the result is lost, and the program prints and returns the same as if
it could be opened. -/
theorem C54_lost_silently (run : String → PSPObj → PSPObj × Outcome Unit) (lgf : Option Content → Outcome Mem)
    {a : Args} {w : World} {g : String} (hgraph : a.graph = some g)
    {out : String} (hout : IsTarget a g out) (hcan : w.canWrite out = false) : (mainRun run lgf a w).1 = w ∧
      (mainRun run lgf a w).2 = (mainRun run lgf a { w with canWrite := fun _ => true }).2 := by
  obtain rfl := isTarget_iff.1 hout
  have key : ∀ ls, (w.write (resultName a g) (.lines ls)) = w := fun ls => by simp [World.write, hcan]
  unfold mainRun
  split
  · exact ⟨rfl, rfl⟩
  split
  · exact ⟨rfl, rfl⟩
  rw [hgraph]
  dsimp only
  cases mainLists run lgf a.method (w.files g) with
  | ok r =>
    dsimp only
    cases mainOutput r.psp r.cv with
    | ok ls => exact ⟨key ls, rfl⟩
    | _ => exact ⟨rfl, rfl⟩
  | _ => exact ⟨rfl, rfl⟩

/-- With the default name this happens whenever the graph is named by a path: the result of `dt` on
`/tmp/g.lgf` goes to a subdirectory of `dt-`, a directory that does not exist. -/
theorem C54_lost_violated : ∃ (e : Env) (lgf : Option Content → Outcome Mem) (w : World), EnvGood e ∧
    (∃ r, mainLists (fun x o => o.run e exSched x) lgf "dt" (w.files "/tmp/g.lgf") = .ok r) ∧
    IsTarget { graph := some "/tmp/g.lgf" } "/tmp/g.lgf" "dt-/tmp/g.lgf.txt" ∧
    mainRun (fun x o => o.run e exSched x) lgf { graph := some "/tmp/g.lgf" } w = (w, [], .ok 0) := by
  have hl : exLgf (exWorld.files "/tmp/g.lgf") = .ok exMem := by simp [exWorld, exLgf]
  obtain ⟨r, h1, h2⟩ := (C53_graph_plain exEnv_good exSched exMem_wf rfl exArcs_valid (by norm_num)
    (exEnv_tolerance.fine (by norm_num))).1 "dt" (by simp)
  have h3 : mainLists (fun x o => o.run exEnv exSched x) exLgf "dt" (exWorld.files "/tmp/g.lgf") = .ok r := by
    rw [mainLists_eq exEnv exSched exLgf hl, h1]
  refine ⟨exEnv, exLgf, exWorld, exEnv_good, ⟨r, h3⟩, ⟨fun _ => rfl, fun h => absurd rfl h⟩, ?_⟩
  obtain ⟨ls, h4, _⟩ := mainOutput_report r.psp r.cv h2.length
  unfold mainRun
  rw [if_neg (by simp), if_neg (by decide +kernel)]
  simp only [h3, h4, mainWrite]
  have : exWorld.write (resultName { graph := some "/tmp/g.lgf" } "/tmp/g.lgf") (.lines ls) = exWorld := by
    unfold World.write
    rw [if_neg (by decide +kernel)]
  rw [this]
  rfl

/-- `agg_psp` is listed in the help text and accepted, but in the default build (`AGG_FEATURE` is off) it ends
with an exception that nobody catches, whatever the graph. -/
theorem C54_agg_violated (e : Env) (s : Schedule) (lgf : Option Content → Outcome Mem) {a : Args} {w : World}
    {g : String} (hhelp : a.help = false) (hgraph : a.graph = some g) (hmeth : a.method = "agg_psp") {m : Mem}
    (hlgf : lgf (w.files g) = .ok m) :
    a.method ∈ documented ∧
      mainRun (fun x o => o.run e s x) lgf a w = (w, [], .exc "agg_psp not allowed") := by
  have h1 : mainLists (fun x o => o.run e s x) lgf "agg_psp" (w.files g) = .exc "agg_psp not allowed" := by
    rw [mainLists_eq e s lgf hlgf]
    rfl
  refine ⟨by rw [hmeth]; simp [documented], ?_⟩
  unfold mainRun
  rw [hhelp, hgraph, hmeth, if_neg (by simp), if_neg (by simp [mainMethods])]
  simp only [h1]

/-! ### C55: the example program -/

theorem exampleOutput_eq : ∀ (cv : List ℚ) (Ps : List Partition), Ps.length = cv.length + 1 →
    exampleOutput Ps cv = mainOutput Ps cv := by
  intro cv
  induction cv with
  | nil =>
    intro Ps h
    match Ps, h with
    | [P], _ => rfl
  | cons c cv ih =>
    intro Ps h
    match Ps, h with
    | P :: Q :: Ps, h =>
      have := ih (Q :: Ps) (by simpa using h)
      rw [exampleOutput, this, mainOutput, mainOutput, mainLoop]
      cases mainLoop Ps cv <;> rfl

/-- The loop of the example program shows the partitions and values in turn as `main` does. -/
theorem C55_report (Ps : List Partition) (cv : List ℚ) (h : Ps.length = cv.length + 1) :
    ∃ ls, exampleOutput Ps cv = .ok ls ∧ IsReport ls Ps cv := by
  rw [exampleOutput_eq cv Ps h]
  exact mainOutput_report Ps cv h

theorem exampleArcs_valid : ValidInput 3 exampleArcs := by decide +kernel

theorem exampleArcs_tolerance : PdtTolerance lemonEps 3 exampleArcs := by
  refine integer_weights_pdt (by norm_num) fun e he => ?_
  simp only [exampleArcs, List.mem_cons, List.not_mem_nil, or_false] at he
  rcases he with rfl | rfl | rfl
  · exact ⟨1, by norm_num⟩
  · exact ⟨5, by norm_num⟩
  · exact ⟨1, by norm_num⟩

/-- The critical values of a sequence over three nodes of which two are known. -/
theorem two_values {cv : List ℚ} {a b : ℚ} (hab : a < b) (ha : a ∈ cv) (hb : b ∈ cv)
    (hs : cv.Pairwise (· ≤ ·)) (hl : cv.length ≤ 2) : cv = [a, b] := by
  match cv, hl with
  | [], _ => simp at ha
  | [x], _ =>
    simp only [List.mem_singleton] at ha hb
    exact absurd (ha.trans hb.symm) hab.ne
  | [x, y], _ =>
    simp only [List.mem_cons, List.not_mem_nil, or_false] at ha hb
    have hxy : x ≤ y := by simpa using hs
    rcases ha with rfl | rfl <;> rcases hb with rfl | rfl
    · exact absurd hab (lt_irrefl _)
    · rfl
    · exact absurd hab (not_lt.2 hxy)
    · exact absurd hab (lt_irrefl _)
  | _ :: _ :: _ :: _, hl => simp at hl

/-- Whatever the solvers return within their contract and whatever the threads do, the example program of
the README prints the partition into one block, the value 2, the partition which separates node 1, the value
5 and the partition into single nodes. -/
theorem C55_example {e : Env} (he : EnvGood e) (s : Schedule) (hf : PdtTolerance e.eps 3 exampleArcs) :
    exampleMain e s = .ok [.part {{0, 1, 2}}, .value 2, .part {{0, 2}, {1}}, .value 5,
      .part {{0}, {1}, {2}}] := by
  have h0 : runOnce exEnv exSched 3 exampleArcs "dt" =
      .ok ⟨[{{0, 1, 2}}, {{0, 2}, {1}}, {{0}, {1}, {2}}], [2, 5]⟩ := by decide +kernel
  obtain ⟨r0, h1, h2⟩ := runOnce_exact exEnv_good exSched exampleArcs_valid (by norm_num) exampleArcs_tolerance
    (m := "dt") (by simp [exactMethods])
  rw [h0] at h1
  cases h1
  obtain ⟨⟨Ps, cv⟩, h3, h4⟩ := runOnce_weak he s exampleArcs_valid (by norm_num) hf (m := "psp_i")
    (by simp [methods])
  have hE := exampleArcs_valid.nonneg
  have hcv : cv = [2, 5] := by
    refine two_values (by norm_num) ((h4.mem_iff hE 2).2 ((h2.weak.mem_iff hE 2).1 (by simp)))
      ((h4.mem_iff hE 5).2 ((h2.weak.mem_iff hE 5).1 (by simp))) h4.nondecreasing ?_
    have := (weak_counts h4 ⟨0, by simp⟩).2.1
    have := h4.length
    simp only [Finset.card_range] at *
    omega
  subst hcv
  have h5 := (h4.strict hE (by norm_num)).eq hE h2
  obtain rfl : Ps = [{{0, 1, 2}}, {{0, 2}, {1}}, {{0}, {1}, {2}}] := h5.1
  unfold exampleMain
  rw [h3]
  rfl

example : exampleMain exEnv exSched = .ok [.part {{0, 1, 2}}, .value 2, .part {{0, 2}, {1}}, .value 5,
    .part {{0}, {1}, {2}}] := C55_example exEnv_good exSched exampleArcs_tolerance

end PSP.Props
