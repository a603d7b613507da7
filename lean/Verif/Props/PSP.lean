import Verif.Model.PSP
import Verif.Theory.Mem
import Verif.Theory.Transform
import Verif.Props.PSPI
import Verif.Props.HPSP
import Verif.Props.PDT
import Verif.Props.PDTR

/-!
# Properties of the class `PSP`: one interface to all methods
(C07, C11, C14, C15, C20, C21, C28, C29, C36, C41)
-/

namespace PSP.Props

open PSP.Model PSP.Spec PSP.Theory

/-- The solvers report extremal minimum cuts, and iterating over a `Partition` visits each block once. -/
structure EnvGood (e : Env) : Prop where
  flow : e.S.Minimal
  warm : e.W.Minimal
  src : e.R.Minimal
  enum : Enumerates e.ord

/-- The methods that do not change the graph. -/
def keepers : List String := ["dt", "pdt", "pdt_r"]

/-- The methods that return the principal sequence itself. -/
def exactMethods : List String := ["dt", "pdt", "pdt_r", "hpsp"]

/-- All methods. -/
def methods : List String := ["dt", "pdt", "pdt_r", "psp_i", "hpsp"]

/-- The environment of the examples. -/
def exEnv : Env := ⟨bruteSolver, bruteWarm, bruteSrc, lemonEps, exOrd⟩

theorem exEnv_good : EnvGood exEnv := ⟨bruteSolver_minimal, bruteWarm_minimal, bruteSrc_minimal, exOrd_enumerates⟩

/-- A schedule for the examples: both threads deliver. -/
def exSched : Schedule := fun _ _ _ => .both

/-! ### histories of runs -/

theorem run_result (e : Env) (s : Schedule) {m : String} (hm : m ∈ methods) {o o' : PSPObj} (hw : MemWF o.mem)
    (hw' : MemWF o'.mem) (hg : o.mem.graph = o'.mem.graph) :
    (o.run e s m).2 = (o'.run e s m).2 ∧ ((o.run e s m).2 = .ok () →
      (o.run e s m).1.psp = (o'.run e s m).1.psp ∧ (o.run e s m).1.gamma = (o'.run e s m).1.gamma) := by
  have key : ∀ (x y : Outcome (Mem × PSPOut)) (z : Outcome PSPOut),
      (x >>= fun r => Outcome.ok r.2) = z → (y >>= fun r => Outcome.ok r.2) = z →
      (o.finish x).2 = (o'.finish y).2 ∧ ((o.finish x).2 = .ok () →
        (o.finish x).1.psp = (o'.finish y).1.psp ∧ (o.finish x).1.gamma = (o'.finish y).1.gamma) := by
    rintro x y z rfl h
    cases x <;> cases y <;> simp_all [PSPObj.finish]
  simp only [methods, List.mem_cons, List.not_mem_nil, or_false] at hm
  rcases hm with rfl | rfl | rfl | rfl | rfl
  · obtain ⟨m1, _, _, _, h1⟩ := dtRunMem_sim e.S e.eps hw
    obtain ⟨m2, _, _, _, h2⟩ := dtRunMem_sim e.S e.eps hw'
    refine key _ _ (dtRun e.S e.eps o.mem.graph) ?_ ?_
    · rw [h1]; cases dtRun e.S e.eps o.mem.graph <;> rfl
    · rw [h2, hg]; cases dtRun e.S e.eps o'.mem.graph <;> rfl
  · refine key _ _ (pdtRun e.W e.eps o.mem.graph) ?_ ?_
    · rw [pdtRunIds_eq _ _ (show o.mem.graph.countNodes ≤ _ from hw.count_le)]
      cases pdtRun e.W e.eps o.mem.graph <;> rfl
    · rw [pdtRunIds_eq _ _ (show o'.mem.graph.countNodes ≤ _ from hw'.count_le), hg]
      cases pdtRun e.W e.eps o'.mem.graph <;> rfl
  · refine key _ _ (pdtrRun e.S e.R e.eps s o.mem.graph) ?_ ?_
    · cases pdtrRun e.S e.R e.eps s o.mem.graph <;> rfl
    · rw [hg]; cases pdtrRun e.S e.R e.eps s o'.mem.graph <;> rfl
  · refine key _ _ (pspiRun e.S e.eps e.ord o.mem.graph >>= fun r => .ok r.2) ?_ ?_
    · cases pspiRun e.S e.eps e.ord o.mem.graph <;> rfl
    · rw [hg]; cases pspiRun e.S e.eps e.ord o'.mem.graph <;> rfl
  · refine key _ _ (hpspRun e.S e.eps e.ord o.mem.graph >>= fun r => .ok r.2) ?_ ?_
    · cases hpspRun e.S e.eps e.ord o.mem.graph <;> rfl
    · rw [hg]; cases hpspRun e.S e.eps e.ord o'.mem.graph <;> rfl

theorem run_keeps (e : Env) (s : Schedule) {m : String} (hm : m ∈ keepers) {o : PSPObj} (hw : MemWF o.mem) :
    MemWF (o.run e s m).1.mem ∧ (o.run e s m).1.mem.graph = o.mem.graph := by
  simp only [keepers, List.mem_cons, List.not_mem_nil, or_false] at hm
  rcases hm with rfl | rfl | rfl
  · obtain ⟨m1, k1, k2, _, h1⟩ := dtRunMem_sim e.S e.eps hw
    have : (o.run e s "dt").1 = (o.finish (dtRunMem e.S e.eps o.mem)).1 := rfl
    rw [this, h1]
    cases dtRun e.S e.eps o.mem.graph
    · exact ⟨k1, k2⟩
    all_goals exact ⟨hw, rfl⟩
  · have : (o.run e s "pdt").1 = (o.finish (pdtRunIds e.W e.eps o.mem.ids o.mem.graph >>=
      fun r => pure (o.mem, r))).1 := rfl
    rw [this]
    cases pdtRunIds e.W e.eps o.mem.ids o.mem.graph <;> exact ⟨hw, rfl⟩
  · have : (o.run e s "pdt_r").1 = (o.finish (pdtrRun e.S e.R e.eps s o.mem.graph >>=
      fun r => pure (o.mem, r))).1 := rfl
    rw [this]
    cases pdtrRun e.S e.R e.eps s o.mem.graph <;> exact ⟨hw, rfl⟩

/-- After any sequence of `dt`, `pdt` and `pdt_r` runs on an object, whatever their outcome, the graph is
what it was, every further run (of any method) ends the same way as it would have on the original object,
and if it succeeds it returns the same lists. No assumption on the graph, the solvers or the tolerance. -/
theorem C20_history (e : Env) (hs : List (Schedule × String)) (hk : ∀ h ∈ hs, h.2 ∈ keepers) {o : PSPObj}
    (hw : MemWF o.mem) : (o.runs e hs).mem.graph = o.mem.graph ∧
    ∀ s, ∀ m ∈ methods, ((o.runs e hs).run e s m).2 = (o.run e s m).2 ∧ ((o.run e s m).2 = .ok () →
      ((o.runs e hs).run e s m).1.getPartitions = (o.run e s m).1.getPartitions ∧
      ((o.runs e hs).run e s m).1.getCriticalValues = (o.run e s m).1.getCriticalValues) := by
  have key : ∀ (hs : List (Schedule × String)) (o : PSPObj), (∀ h ∈ hs, h.2 ∈ keepers) → MemWF o.mem →
      MemWF (o.runs e hs).mem ∧ (o.runs e hs).mem.graph = o.mem.graph := by
    intro hs
    induction hs with
    | nil => exact fun o _ hw => ⟨hw, rfl⟩
    | cons h hs ih =>
      intro o hk hw
      obtain ⟨s, m⟩ := h
      obtain ⟨h1, h2⟩ := run_keeps e s (hk (s, m) (by simp)) hw
      obtain ⟨h3, h4⟩ := ih (o.run e s m).1 (fun x hx => hk x (by simp [hx])) h1
      exact ⟨h3, h4.trans h2⟩
  obtain ⟨h1, h2⟩ := key hs o hk hw
  refine ⟨h2, fun s m hm => ?_⟩
  obtain ⟨h3, h4⟩ := run_result e s hm h1 hw h2
  exact ⟨h3, fun h => h4 (h3 ▸ h)⟩

theorem new_wf {eps : ℚ} {n : ℕ} {E : List Arc} {o : PSPObj} (h : PSPObj.new eps n E = .ok o) :
    MemWF o.mem ∧ o.gamma = [] ∧ o.psp = [] ∧ o.mem.nodes = List.range n := by
  obtain ⟨g, hg, h⟩ := Outcome.bind_eq_ok h
  cases h
  obtain ⟨as, ha, hg⟩ := Outcome.bind_eq_ok hg
  cases hg
  have key : ∀ (l acc r : List Arc), makeDgraphArcs eps n l acc = .ok r →
      (∀ a ∈ acc, a.src < n ∧ a.dst < n) → ∀ a ∈ r, a.src < n ∧ a.dst < n := by
    intro l
    induction l with
    | nil => intro acc r h; cases h; exact id
    | cons b l ih =>
      intro acc r h hacc
      rw [makeDgraphArcs] at h
      split at h
      · exact ih acc r h hacc
      · split at h
        · cases h
        · refine ih _ r h fun a ha => ?_
          rcases List.mem_append.1 ha with ha | ha
          · exact hacc a ha
          · rw [List.mem_singleton.1 ha]; omega
  have hk := key E [] as ha (by simp)
  refine ⟨⟨fun a ha => ?_, fun v hv => List.mem_range.1 hv, fun v hv => ?_, List.nodup_nil,
    List.nodup_range⟩, rfl, rfl, rfl⟩
  · exact ⟨List.mem_range.2 (hk a ha).1, List.mem_range.2 (hk a ha).2⟩
  · cases hv

/-- A new object has a well-formed graph, so the theorem applies to its histories. -/
theorem C20_new (e : Env) (hs : List (Schedule × String)) (hk : ∀ h ∈ hs, h.2 ∈ keepers) {n : ℕ}
    {E : List Arc} {o : PSPObj} (ho : PSPObj.new e.eps n E = .ok o) :
    ∀ s, ∀ m ∈ methods, ((o.runs e hs).run e s m).2 = (o.run e s m).2 ∧ ((o.run e s m).2 = .ok () →
      ((o.runs e hs).run e s m).1.getPartitions = (o.run e s m).1.getPartitions ∧
      ((o.runs e hs).run e s m).1.getCriticalValues = (o.run e s m).1.getCriticalValues) :=
  (C20_history e hs hk (new_wf ho).1).2

/-! ### one run -/

theorem new_input {eps : ℚ} {n : ℕ} {E : List Arc} (hv : ValidInput n E) :
    ∃ o, PSPObj.new eps n E = .ok o ∧ o.mem.graph = inputGraph eps n E := by
  refine ⟨⟨⟨(inputGraph eps n E).nodes, (inputGraph eps n E).arcs, [], n⟩, [], []⟩, ?_, rfl⟩
  unfold PSPObj.new
  rw [makeDgraph_valid hv]
  rfl

theorem runOnce_of {e : Env} {s : Schedule} {n : ℕ} {E : List Arc} {m : String} (hv : ValidInput n E)
    {r : PSPOut} (h : ∀ o : PSPObj, MemWF o.mem → o.mem.graph = inputGraph e.eps n E →
      (o.run e s m).2 = .ok () ∧ (o.run e s m).1.psp = r.psp ∧ (o.run e s m).1.gamma = r.cv) :
    runOnce e s n E m = .ok r := by
  obtain ⟨o, ho, hg⟩ := new_input (eps := e.eps) hv
  obtain ⟨h1, h2, h3⟩ := h o (new_wf ho).1 hg
  unfold runOnce
  rw [ho, Outcome.ok_bind, h1, Outcome.ok_bind]
  unfold PSPObj.getPartitions PSPObj.getCriticalValues
  rw [h2, h3]
  rfl

theorem runOnce_dt {e : Env} (s : Schedule) {n : ℕ} {E : List Arc} (hv : ValidInput n E) {r : PSPOut}
    (h : dtRun e.S e.eps (inputGraph e.eps n E) = .ok r) : runOnce e s n E "dt" = .ok r := by
  refine runOnce_of hv fun o hw hg => ?_
  obtain ⟨m1, _, _, _, h1⟩ := dtRunMem_sim e.S e.eps hw
  have : o.run e s "dt" = o.finish (dtRunMem e.S e.eps o.mem) := rfl
  rw [this, h1, hg, h]
  exact ⟨rfl, rfl, rfl⟩

theorem runOnce_pdt {e : Env} (s : Schedule) {n : ℕ} {E : List Arc} (hv : ValidInput n E) {r : PSPOut}
    (h : pdtRun e.W e.eps (inputGraph e.eps n E) = .ok r) : runOnce e s n E "pdt" = .ok r := by
  refine runOnce_of hv fun o hw hg => ?_
  have : o.run e s "pdt" = o.finish (pdtRunIds e.W e.eps o.mem.ids o.mem.graph >>=
      fun r => pure (o.mem, r)) := rfl
  rw [this, pdtRunIds_eq _ _ (show o.mem.graph.countNodes ≤ _ from hw.count_le), hg, h]
  exact ⟨rfl, rfl, rfl⟩

theorem runOnce_pdtr {e : Env} (s : Schedule) {n : ℕ} {E : List Arc} (hv : ValidInput n E) {r : PSPOut}
    (h : pdtrRun e.S e.R e.eps s (inputGraph e.eps n E) = .ok r) : runOnce e s n E "pdt_r" = .ok r := by
  refine runOnce_of hv fun o hw hg => ?_
  have : o.run e s "pdt_r" = o.finish (pdtrRun e.S e.R e.eps s o.mem.graph >>=
      fun r => pure (o.mem, r)) := rfl
  rw [this, hg, h]
  exact ⟨rfl, rfl, rfl⟩

theorem runOnce_pspi {e : Env} (s : Schedule) {n : ℕ} {E : List Arc} (hv : ValidInput n E) {g : Digraph}
    {r : PSPOut} (h : pspiRun e.S e.eps e.ord (inputGraph e.eps n E) = .ok (g, r)) :
    runOnce e s n E "psp_i" = .ok r := by
  refine runOnce_of hv fun o hw hg => ?_
  have : o.run e s "psp_i" = o.finish (pspiRun e.S e.eps e.ord o.mem.graph >>=
      fun r => pure (o.mem.contracted r.1, r.2)) := rfl
  rw [this, hg, h]
  exact ⟨rfl, rfl, rfl⟩

theorem runOnce_hpsp {e : Env} (s : Schedule) {n : ℕ} {E : List Arc} (hv : ValidInput n E) {g : Digraph}
    {r : PSPOut} (h : hpspRun e.S e.eps e.ord (inputGraph e.eps n E) = .ok (g, r)) :
    runOnce e s n E "hpsp" = .ok r := by
  refine runOnce_of hv fun o hw hg => ?_
  have : o.run e s "hpsp" = o.finish (hpspRun e.S e.eps e.ord o.mem.graph >>=
      fun r => pure (o.mem.contracted r.1, r.2)) := rfl
  rw [this, hg, h]
  exact ⟨rfl, rfl, rfl⟩

/-- Every exact method returns the principal sequence. -/
theorem runOnce_exact {e : Env} (he : EnvGood e) (s : Schedule) {n : ℕ} {E : List Arc} (hv : ValidInput n E)
    (hn : 2 ≤ n) (hf : PdtTolerance e.eps n E) {m : String} (hm : m ∈ exactMethods) :
    ∃ r, runOnce e s n E m = .ok r ∧ IsPrincipalSequence E (Finset.range n) r.psp r.cv := by
  have hfine := hf.fine (by omega)
  simp only [exactMethods, List.mem_cons, List.not_mem_nil, or_false] at hm
  rcases hm with rfl | rfl | rfl | rfl
  · obtain ⟨r, h, _, h2⟩ := dt_input he.flow.toCorrect hv hn hfine
    exact ⟨r, runOnce_dt s hv h, h2 he.flow⟩
  · obtain ⟨r, h, h2⟩ := pdt_input he.warm hv hn hf
    exact ⟨r, runOnce_pdt s hv h, h2⟩
  · obtain ⟨r, h, h2⟩ := pdtr_input he.flow he.src hv hn hf s
    exact ⟨r, runOnce_pdtr s hv h, h2⟩
  · obtain ⟨g, r, Ps, h, h2, _, h3⟩ := hpsp_input he.flow.toCorrect he.enum hv hn hfine
    exact ⟨r, runOnce_hpsp s hv h, by rw [h2 (Or.inl he.flow)]; exact h3⟩

/-- Every method returns a weak principal sequence. -/
theorem runOnce_weak {e : Env} (he : EnvGood e) (s : Schedule) {n : ℕ} {E : List Arc} (hv : ValidInput n E)
    (hn : 2 ≤ n) (hf : PdtTolerance e.eps n E) {m : String} (hm : m ∈ methods) :
    ∃ r, runOnce e s n E m = .ok r ∧ IsWeakPrincipalSequence E (Finset.range n) r.psp r.cv := by
  by_cases hx : m ∈ exactMethods
  · obtain ⟨r, h1, h2⟩ := runOnce_exact he s hv hn hf hx
    exact ⟨r, h1, h2.weak⟩
  · have : m = "psp_i" := by
      simp only [methods, exactMethods, List.mem_cons, List.not_mem_nil, or_false, not_or] at hm hx
      tauto
    subst this
    obtain ⟨g, r, h1, h2⟩ := pspi_input he.flow.toCorrect he.enum hv hn (hf.fine (by omega))
    exact ⟨r, runOnce_pspi s hv h1, h2⟩

theorem out_eq {n : ℕ} {E : List Arc} (hv : ValidInput n E) {a b : PSPOut}
    (ha : IsPrincipalSequence E (Finset.range n) a.psp a.cv)
    (hb : IsPrincipalSequence E (Finset.range n) b.psp b.cv) : a = b := by
  obtain ⟨h1, h2⟩ := IsPrincipalSequence.eq hv.nonneg ha hb
  cases a; cases b
  simp only at h1 h2
  rw [h1, h2]

/-! ### C07: agreement -/

/-- `dt`, `pdt`, `pdt_r` and `hpsp` return the same lists, even with different solvers, iteration orders
and schedules. -/
theorem C07_agree {e e' : Env} (he : EnvGood e) (he' : EnvGood e') (s s' : Schedule) {n : ℕ} {E : List Arc}
    (hv : ValidInput n E) (hn : 2 ≤ n) (hf : PdtTolerance e.eps n E) (hf' : PdtTolerance e'.eps n E)
    {m m' : String} (hm : m ∈ exactMethods) (hm' : m' ∈ exactMethods) :
    ∃ r, runOnce e s n E m = .ok r ∧ runOnce e' s' n E m' = .ok r := by
  obtain ⟨r, h1, h2⟩ := runOnce_exact he s hv hn hf hm
  obtain ⟨r', h1', h2'⟩ := runOnce_exact he' s' hv hn hf' hm'
  exact ⟨r, h1, by rw [out_eq hv h2 h2']; exact h1'⟩

/-- The default method `psp_i` agrees with them after repeated critical values are dropped. -/
theorem C07_pspi {e : Env} (he : EnvGood e) (s : Schedule) {n : ℕ} {E : List Arc}
    (hv : ValidInput n E) (hn : 2 ≤ n) (hf : PdtTolerance e.eps n E) {m : String} (hm : m ∈ exactMethods) :
    ∃ r p, runOnce e s n E m = .ok r ∧ runOnce e s n E "psp_i" = .ok p ∧
      dropTies p.psp p.cv = (r.psp, r.cv) := by
  obtain ⟨r, h1, h2⟩ := runOnce_exact he s hv hn hf hm
  obtain ⟨p, h3, h4⟩ := runOnce_weak he s hv hn hf (m := "psp_i") (by simp [methods])
  have hV : (Finset.range n).Nonempty := ⟨0, by simp; omega⟩
  have h5 := h4.dropTies hv.nonneg (ValidInput.within hv) hV
  obtain ⟨k1, k2⟩ := IsPrincipalSequence.eq hv.nonneg h5 h2
  exact ⟨r, p, h1, h3, Prod.ext k1 k2⟩

theorem exEnv_tolerance : PdtTolerance exEnv.eps 4 exArcs := by
  refine integer_weights_pdt (by norm_num) fun e he => ?_
  simp only [exArcs, List.mem_cons, List.not_mem_nil, or_false] at he
  rcases he with rfl | rfl | rfl | rfl
  · exact ⟨5, by norm_num⟩
  · exact ⟨1, by norm_num⟩
  · exact ⟨4, by norm_num⟩
  · exact ⟨2, by norm_num⟩

example : ∀ m ∈ methods, runOnce exEnv exSched 4 exArcs m =
    .ok ⟨[{{0, 1, 2, 3}}, {{0, 1}, {2, 3}}, {{0, 1}, {2}, {3}}, {{0}, {1}, {2}, {3}}], [3, 4, 5]⟩ := by
  decide +kernel

example : ∃ r, runOnce exEnv exSched 4 exArcs "dt" = .ok r ∧ runOnce exEnv exSched 4 exArcs "hpsp" = .ok r :=
  C07_agree exEnv_good exEnv_good _ _ exArcs_valid (by norm_num) exEnv_tolerance exEnv_tolerance
    (by simp [exactMethods]) (by simp [exactMethods])

/-! ### C11: lengths, and the output of `main` -/

/-- The partitions among the lines. -/
def linePart : Line → Option (Finset (Finset ℕ))
  | .part P => some P
  | .value _ => none

/-- The values among the lines. -/
def lineValue : Line → Option ℚ
  | .part _ => none
  | .value c => some c

theorem mainOutput_spec : ∀ (Ps : List Partition) (cv : List ℚ), Ps.length = cv.length + 1 →
    ∃ ls, mainOutput Ps cv = .ok ls ∧ ls.length = 2 * cv.length + 1 ∧ ls.filterMap linePart = Ps ∧
      ls.filterMap lineValue = cv := by
  have key : ∀ (Ps : List Partition) (cv : List ℚ), Ps.length = cv.length →
      ∃ ls, mainLoop Ps cv = .ok ls ∧ ls.length = 2 * cv.length ∧ ls.filterMap linePart = Ps ∧
        ls.filterMap lineValue = cv := by
    intro Ps cv
    induction cv generalizing Ps with
    | nil =>
      intro h
      cases Ps with
      | nil => exact ⟨[], rfl, rfl, rfl, rfl⟩
      | cons P Ps => simp at h
    | cons c cv ih =>
      intro h
      cases Ps with
      | nil => simp at h
      | cons P Ps =>
        obtain ⟨ls, h1, h2, h3, h4⟩ := ih Ps (by simpa using h)
        refine ⟨.value c :: .part P :: ls, by rw [mainLoop, h1]; rfl, by simp [h2]; ring, ?_, ?_⟩
        · simp [List.filterMap_cons, linePart, h3]
        · simp [List.filterMap_cons, lineValue, h4]
  intro Ps cv h
  cases Ps with
  | nil => simp at h
  | cons P Ps =>
    obtain ⟨ls, h1, h2, h3, h4⟩ := key Ps cv (by simpa using h)
    refine ⟨.part P :: ls, by rw [mainOutput, h1]; rfl, by simp [h2], ?_, ?_⟩
    · simp [linePart, h3]
    · simp [List.filterMap_cons, lineValue, h4]

/-- Every method returns one partition more than critical values, from the whole set to the singletons,
and `main` writes all of them without reading past the end. -/
theorem C11_lists {e : Env} (he : EnvGood e) (s : Schedule) {n : ℕ} {E : List Arc} (hv : ValidInput n E)
    (hn : 2 ≤ n) (hf : PdtTolerance e.eps n E) {m : String} (hm : m ∈ methods) :
    ∃ r, runOnce e s n E m = .ok r ∧ r.psp.length = r.cv.length + 1 ∧
      r.psp.head? = some {Finset.range n} ∧ r.psp.getLast? = some (singletons (Finset.range n)) ∧
      ∃ ls, mainOutput r.psp r.cv = .ok ls ∧ ls.filterMap linePart = r.psp ∧ ls.filterMap lineValue = r.cv := by
  obtain ⟨r, h1, h2⟩ := runOnce_weak he s hv hn hf hm
  obtain ⟨ls, h3, _, h4, h5⟩ := mainOutput_spec r.psp r.cv h2.length
  exact ⟨r, h1, h2.length, h2.first, h2.last, ls, h3, h4, h5⟩

example : ∃ r, runOnce exEnv exSched 4 exArcs "psp_i" = .ok r ∧ r.psp.length = r.cv.length + 1 := by
  obtain ⟨r, h1, h2, _⟩ := C11_lists exEnv_good exSched exArcs_valid (by norm_num) exEnv_tolerance
    (m := "psp_i") (by simp [methods])
  exact ⟨r, h1, h2⟩

/-! ### C14: the order of the arcs -/

/-- Permuting the arc list does not change what the exact methods return. -/
theorem C14_order {e : Env} (he : EnvGood e) (s : Schedule) {n : ℕ} {E E' : List Arc} (hp : E.Perm E')
    (hv : ValidInput n E) (hn : 2 ≤ n) (hf : PdtTolerance e.eps n E) {m : String} (hm : m ∈ exactMethods) :
    ∃ r, runOnce e s n E m = .ok r ∧ runOnce e s n E' m = .ok r := by
  have hf' : PdtTolerance e.eps n E' := by
    obtain ⟨u, hu, hg, h1, h2⟩ := hf
    exact ⟨u, hu, fun e he => hg e (hp.symm.subset he), h1, h2⟩
  obtain ⟨r, h1, h2⟩ := runOnce_exact he s hv hn hf hm
  obtain ⟨r', h1', h2'⟩ := runOnce_exact he s (ValidInput.perm hp hv) hn hf' hm
  obtain ⟨k1, k2⟩ := IsPrincipalSequence.eq_of_optimal_iff hv.nonneg (ValidInput.perm hp hv).nonneg
    (fun lam P => isOptimal_perm hp lam P) h2 h2'
  refine ⟨r, h1, ?_⟩
  rw [h1']
  cases r; cases r'
  simp only at k1 k2
  rw [k1, k2]

/-- `psp_i` returns the same principal sequence for both orders once repeated values are dropped. -/
theorem C14_pspi {e : Env} (he : EnvGood e) (s : Schedule) {n : ℕ} {E E' : List Arc} (hp : E.Perm E')
    (hv : ValidInput n E) (hn : 2 ≤ n) (hf : PdtTolerance e.eps n E) :
    ∃ r r', runOnce e s n E "psp_i" = .ok r ∧ runOnce e s n E' "psp_i" = .ok r' ∧
      dropTies r.psp r.cv = dropTies r'.psp r'.cv := by
  have hf' : PdtTolerance e.eps n E' := by
    obtain ⟨u, hu, hg, h1, h2⟩ := hf
    exact ⟨u, hu, fun e he => hg e (hp.symm.subset he), h1, h2⟩
  obtain ⟨r, p, h1, h2, h3⟩ := C07_pspi he s hv hn hf (m := "dt") (by simp [exactMethods])
  obtain ⟨r', p', h1', h2', h3'⟩ := C07_pspi he s (ValidInput.perm hp hv) hn hf' (m := "dt")
    (by simp [exactMethods])
  obtain ⟨q, k1, k2⟩ := C14_order he s hp hv hn hf (m := "dt") (by simp [exactMethods])
  rw [h1] at k1
  rw [h1'] at k2
  cases k1; cases k2
  exact ⟨p, p', h2, h2', h3.trans h3'.symm⟩

example : ∃ r, runOnce exEnv exSched 4 exArcs "dt" = .ok r ∧
    runOnce exEnv exSched 4 [⟨2, 3, 4⟩, ⟨0, 1, 5⟩, ⟨0, 3, 2⟩, ⟨1, 2, 1⟩] "dt" = .ok r :=
  C14_order exEnv_good _ (by decide +kernel) exArcs_valid (by norm_num) exEnv_tolerance (by simp [exactMethods])

/-! ### C15: scaling -/

/-- Multiplying all weights by `c > 0` multiplies the critical values by `c` and keeps the partitions. -/
theorem C15_scale {e : Env} (he : EnvGood e) (s : Schedule) {n : ℕ} {E : List Arc} {c : ℚ} (hc : 0 < c)
    (hv : ValidInput n E) (hn : 2 ≤ n) (hf : PdtTolerance e.eps n E)
    (hf' : PdtTolerance e.eps n (E.map fun a => ⟨a.src, a.dst, c * a.cap⟩)) {m : String}
    (hm : m ∈ exactMethods) :
    ∃ r, runOnce e s n E m = .ok r ∧
      runOnce e s n (E.map fun a => ⟨a.src, a.dst, c * a.cap⟩) m = .ok ⟨r.psp, r.cv.map (c * ·)⟩ := by
  have hv' : ValidInput n (E.map fun a => (⟨a.src, a.dst, c * a.cap⟩ : Arc)) := ValidInput.scale hc hv
  obtain ⟨r, h1, h2⟩ := runOnce_exact he s hv hn hf hm
  obtain ⟨r', h1', h2'⟩ := runOnce_exact he s hv' hn hf' hm
  have h3 : IsPrincipalSequence (E.map fun a => (⟨a.src, a.dst, c * a.cap⟩ : Arc)) (Finset.range n) r.psp
      (r.cv.map (c * ·)) := h2.scale hc
  refine ⟨r, h1, ?_⟩
  rw [h1', out_eq hv' h2' (b := ⟨r.psp, r.cv.map (c * ·)⟩) h3]

example : runOnce exEnv exSched 4 (exArcs.map fun a => ⟨a.src, a.dst, (7 / 3 : ℚ) * a.cap⟩) "hpsp" =
    .ok ⟨[{{0, 1, 2, 3}}, {{0, 1}, {2, 3}}, {{0, 1}, {2}, {3}}, {{0}, {1}, {2}, {3}}],
      [7, 28 / 3, 35 / 3]⟩ := by decide +kernel

/-! ### C20, C21: concrete histories -/

/-- Three runs in a row, the last two on the same object. -/
example : (PSPObj.new lemonEps 4 exArcs >>= fun o =>
      .ok ((o.runs exEnv [(exSched, "dt"), (exSched, "pdt"), (exSched, "dt")]).run exEnv exSched "psp_i").1.gamma) =
    .ok [3, 4, 5] := by decide +kernel

/-- `dt` does leave a trace: the ids of the source and the sink stay on the free list. -/
example : (PSPObj.new lemonEps 3 [⟨0, 1, 5⟩, ⟨1, 2, 1⟩] >>= fun o =>
      .ok (o.run exEnv exSched "dt").1.mem) =
    .ok ⟨[0, 1, 2], [⟨0, 1, 5⟩, ⟨1, 2, 1⟩], [4, 3], 5⟩ := by decide +kernel

/-- The claim of C21 is false: `psp_i` contracts the graph, and a second run on the same object returns
something else. The same with `hpsp`. -/
theorem C21_violated : ∀ m ∈ ["psp_i", "hpsp"], ∃ n E, ValidInput n E ∧ 2 ≤ n ∧ ∃ o,
    PSPObj.new exEnv.eps n E = .ok o ∧ ∃ o1, o.run exEnv exSched m = (o1, .ok ()) ∧
    ∃ o2, o1.run exEnv exSched m = (o2, .ok ()) ∧
      o1.getCriticalValues = [1, 5] ∧ o2.getCriticalValues ≠ o1.getCriticalValues := by
  intro m hm
  refine ⟨3, [⟨0, 1, 5⟩, ⟨1, 2, 1⟩], by decide +kernel, by norm_num, ?_⟩
  obtain ⟨o, ho, _⟩ := new_input (eps := exEnv.eps) (n := 3) (E := [⟨0, 1, 5⟩, ⟨1, 2, 1⟩])
    (by decide +kernel)
  have key : ∀ m ∈ ["psp_i", "hpsp"], (PSPObj.new exEnv.eps 3 [⟨0, 1, 5⟩, ⟨1, 2, 1⟩] >>= fun o =>
      .ok ((o.run exEnv exSched m).2, (o.run exEnv exSched m).1.getCriticalValues,
        ((o.run exEnv exSched m).1.run exEnv exSched m).2,
        decide (((o.run exEnv exSched m).1.run exEnv exSched m).1.getCriticalValues ≠ [1, 5]))) =
      .ok (.ok (), [1, 5], .ok (), true) := by decide +kernel
  have := key m hm
  rw [ho, Outcome.ok_bind, Outcome.ok.injEq, Prod.mk.injEq, Prod.mk.injEq, Prod.mk.injEq] at this
  obtain ⟨h1, h2, h3, h4⟩ := this
  refine ⟨o, ho, (o.run exEnv exSched m).1, Prod.ext rfl h1, ((o.run exEnv exSched m).1.run exEnv exSched m).1,
    Prod.ext rfl h3, h2, ?_⟩
  rw [h2]
  simpa using h4

/-! ### C28: unknown methods -/

/-- An unknown method is rejected with an exception that names it, and the object does not change. -/
theorem C28_unknown (e : Env) (s : Schedule) (o : PSPObj) {m : String} (hm : m ∉ methods) :
    o.run e s m = (o, .exc (m ++ " not allowed")) := by
  simp only [methods, List.mem_cons, List.not_mem_nil, or_false, not_or] at hm
  obtain ⟨h1, h2, h3, h4, h5⟩ := hm
  unfold PSPObj.run
  rw [if_neg h1, if_neg h2, if_neg h3, if_neg h4, if_neg h5]

/-- A known method never ends with that exception. -/
theorem C28_known {e : Env} (he : EnvGood e) (s : Schedule) {n : ℕ} {E : List Arc} (hv : ValidInput n E)
    (hn : 2 ≤ n) (hf : PdtTolerance e.eps n E) {m : String} :
    (∃ r, runOnce e s n E m = .ok r) ↔ m ∈ methods := by
  constructor
  · rintro ⟨r, h⟩
    by_contra hm
    unfold runOnce at h
    obtain ⟨o, _, h⟩ := Outcome.bind_eq_ok h
    rw [C28_unknown e s o hm] at h
    cases h
  · intro hm
    obtain ⟨r, h, _⟩ := runOnce_weak he s hv hn hf hm
    exact ⟨r, h⟩

/-- Before the first run the lists are empty. -/
theorem C28_initial {eps : ℚ} {n : ℕ} {E : List Arc} {o : PSPObj} (h : PSPObj.new eps n E = .ok o) :
    o.getPartitions = [] ∧ o.getCriticalValues = [] := ⟨(new_wf h).2.2.1, (new_wf h).2.1⟩

example : "agg_psp" ∉ methods := by decide

/-! ### C29: one node -/

/-- On the one-node graph all methods but `dt` return the single partition, and `dt` divides zero by
zero, whatever the solvers. -/
theorem C29_one_node (e : Env) (s : Schedule) {E : List Arc} (hv : ValidInput 1 E) :
    (∀ m ∈ ["pdt", "pdt_r", "psp_i", "hpsp"], runOnce e s 1 E m = .ok ⟨[{{0}}], []⟩) ∧
    runOnce e s 1 E "dt" = .nan := by
  have hE : E = [] := by
    cases E with
    | nil => rfl
    | cons a E => have := hv.lowHigh a (by simp); omega
  subst hE
  refine ⟨fun m hm => ?_, rfl⟩
  simp only [List.mem_cons, List.not_mem_nil, or_false] at hm
  rcases hm with rfl | rfl | rfl | rfl
  · rfl
  · rfl
  · rfl
  · rfl

/-! ### C36: printing a vector -/

theorem showRest_eq : ∀ v : List ℤ, v ≠ [] → showRest v = ", ".intercalate (v.map toString) ++ "]"
  | [], h => absurd rfl h
  | [x], _ => by simp [showRest]
  | x :: y :: v, _ => by
    rw [showRest, showRest_eq (y :: v) (by simp)]
    · simp [String.intercalate_cons_cons, String.append_assoc]
    · simp

/-- A nonempty vector is printed as its entries separated by `", "` in brackets; printing an empty vector
reads out of bounds. -/
theorem C36_show (v : List ℤ) : showVector v = if v = [] then .ub "operator<<: index out of range"
    else .ok ("[" ++ ", ".intercalate (v.map toString) ++ "]") := by
  cases v with
  | nil => rfl
  | cons x v =>
    rw [if_neg (by simp), showVector, showRest_eq (x :: v) (by simp), String.append_assoc]
    simp

example : showVector [3, -1, 4] = .ok "[3, -1, 4]" := by decide +kernel

/-! ### C41: the constructor with three vectors -/

/-- Vectors of the same length with node ids `0..n-1` give the same object as the list of triples. -/
theorem C41_lists (eps : ℚ) (n : ℕ) (ts : List (ℕ × ℕ × ℚ)) (hn : n ≤ 2 ^ 31)
    (h : ∀ t ∈ ts, t.1 < n ∧ t.2.1 < n) :
    PSPObj.newLists eps n (ts.map fun t => (t.1 : ℤ)) (ts.map fun t => (t.2.1 : ℤ)) (ts.map fun t => t.2.2) =
      PSPObj.new eps n (ts.map fun t => ⟨t.1, t.2.1, t.2.2⟩) := by
  have hc : ∀ i : ℕ, i < n → toSizeT (i : ℤ) = i := by
    intro i hi
    unfold toSizeT
    omega
  have key : tripleList (ts.map fun t => (t.1 : ℤ)) (ts.map fun t => (t.2.1 : ℤ)) (ts.map fun t => t.2.2) =
      .ok (ts.map fun t => ⟨t.1, t.2.1, t.2.2⟩) := by
    induction ts with
    | nil => rfl
    | cons t ts ih =>
      simp only [List.map_cons]
      rw [tripleList, ih fun x hx => h x (by simp [hx])]
      rw [Outcome.ok_bind, hc _ (h t (by simp)).1, hc _ (h t (by simp)).2]
      rfl
  unfold PSPObj.newLists
  rw [key]
  rfl

/-- If one of the other vectors is shorter than `s_list` it is read out of bounds. -/
theorem C41_short (eps : ℚ) (n : ℕ) (ss ts : List ℤ) (ws : List ℚ)
    (h : ts.length < ss.length ∨ ws.length < ss.length) :
    PSPObj.newLists eps n ss ts ws = .ub "vector index out of range" := by
  have key : tripleList ss ts ws = .ub "vector index out of range" := by
    induction ss generalizing ts ws with
    | nil => simp at h
    | cons s ss ih =>
      cases ts with
      | nil => rfl
      | cons t ts =>
        cases ws with
        | nil => rfl
        | cons w ws =>
          rw [tripleList, ih ts ws (by simpa using h)]
          rfl
  unfold PSPObj.newLists
  rw [key]
  rfl

/-- A negative id reaches `addArc` as an id that is no node. -/
theorem C41_negative (eps : ℚ) {n : ℕ} (hn : n ≤ 2 ^ 31) {s t : ℤ} (hs : s < 0) (hs' : -2 ^ 31 ≤ s) {w : ℚ}
    (hw : eps < w) : PSPObj.newLists eps n [s] [t] [w] = .ub "addArc: node id out of range" := by
  have h1 : n ≤ toSizeT s := by unfold toSizeT; omega
  unfold PSPObj.newLists PSPObj.new makeDgraph
  simp only [tripleList, Outcome.ok_bind, Outcome.pure_eq, makeDgraphArcs]
  rw [if_neg (by simp [tolPositive, hw]), if_pos (Or.inl h1)]
  rfl

example : (PSPObj.newLists lemonEps 3 [0, 1] [1, 2] [5, 1] >>= fun o => .ok o.mem) =
    .ok ⟨[0, 1, 2], [⟨0, 1, 5⟩, ⟨1, 2, 1⟩], [], 3⟩ := by decide +kernel

end PSP.Props
