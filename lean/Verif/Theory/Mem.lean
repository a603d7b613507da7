import Verif.Model.Mem

/-!
# Theory: the code that changes the shared graph in place restores it
-/

namespace PSP.Theory

open PSP.Model PSP.Spec

/-- The state of a `ListDigraph`: arcs join valid nodes, valid nodes and free ids are among the ids given
out and disjoint. -/
structure MemWF (m : Mem) : Prop where
  arcs : ∀ a ∈ m.arcs, a.src ∈ m.nodes ∧ a.dst ∈ m.nodes
  nodes : ∀ v ∈ m.nodes, v < m.ids
  free : ∀ v ∈ m.free, v < m.ids ∧ v ∉ m.nodes
  nodup : m.free.Nodup
  distinct : m.nodes.Nodup

theorem MemWF.count_le {m : Mem} (h : MemWF m) : m.nodes.length ≤ m.ids := by
  have h1 : m.nodes.toFinset ⊆ Finset.range m.ids := fun v hv =>
    Finset.mem_range.2 (h.nodes v (List.mem_toFinset.1 hv))
  have h2 := Finset.card_le_card h1
  rwa [List.toFinset_card_of_nodup h.distinct, Finset.card_range] at h2

theorem addNode_spec {m : Mem} (h : MemWF m) : MemWF m.addNode.2 ∧
    m.addNode.2.nodes = m.nodes ++ [m.addNode.1] ∧ m.addNode.2.arcs = m.arcs ∧
    m.addNode.1 ∉ m.nodes ∧ m.addNode.1 ∉ m.addNode.2.free ∧ m.ids ≤ m.addNode.2.ids ∧
    m.addNode.2.ids ≤ m.ids + 1 := by
  unfold Mem.addNode
  cases hf : m.free with
  | nil =>
    dsimp only
    have hnew : m.ids ∉ m.nodes := fun hm => absurd (h.nodes _ hm) (lt_irrefl _)
    refine ⟨⟨fun a ha => ?_, fun v hv => ?_, fun v hv => ?_, ?_,
      List.nodup_append.2 ⟨h.distinct, List.nodup_singleton _, fun a ha b hb => ?_⟩⟩, rfl, rfl, hnew, ?_, ?_, ?_⟩
    · exact ⟨List.mem_append_left _ (h.arcs a ha).1, List.mem_append_left _ (h.arcs a ha).2⟩
    · rcases List.mem_append.1 hv with hv | hv
      · have := h.nodes v hv; dsimp only; omega
      · have := List.mem_singleton.1 hv; dsimp only; omega
    · cases hv
    · exact List.nodup_nil
    · rw [List.mem_singleton.1 hb]; exact fun e => hnew (e ▸ ha)
    · simp
    · omega
    · omega
  | cons v fr =>
    dsimp only
    have hnd := h.nodup
    have hfr := h.free
    rw [hf] at hnd hfr
    refine ⟨⟨fun a ha => ?_, fun u hu => ?_, fun u hu => ?_, ?_,
      List.nodup_append.2 ⟨h.distinct, List.nodup_singleton _, fun a ha b hb => ?_⟩⟩, rfl, rfl, ?_, ?_, ?_, ?_⟩
    · exact ⟨List.mem_append_left _ (h.arcs a ha).1, List.mem_append_left _ (h.arcs a ha).2⟩
    · rcases List.mem_append.1 hu with hu | hu
      · exact h.nodes u hu
      · rw [List.mem_singleton.1 hu]; exact (hfr v (by simp)).1
    · refine ⟨(hfr u (by simp [hu])).1, fun hm => ?_⟩
      rcases List.mem_append.1 hm with hm | hm
      · exact (hfr u (by simp [hu])).2 hm
      · rw [List.mem_singleton.1 hm] at hu
        exact (List.nodup_cons.1 hnd).1 hu
    · exact (List.nodup_cons.1 hnd).2
    · rw [List.mem_singleton.1 hb]; exact fun e => (hfr v (by simp)).2 (e ▸ ha)
    · exact (hfr v (by simp)).2
    · exact (List.nodup_cons.1 hnd).1
    · exact le_refl _
    · omega

/-- The arcs added at source and sink. -/
def termArcs (c : ℕ → ℚ) (s t : ℕ) : List ℕ → List ℚ → List Arc
  | i :: ns, x :: xs =>
    (if x < 0 then [⟨s, i, -x⟩] else []) ++
    (if 0 < max 0 x + c i then [⟨i, t, max 0 x + c i⟩] else []) ++ termArcs c s t ns xs
  | _, _ => []

theorem addTerminals_eq (c : ℕ → ℚ) (s t : ℕ) : ∀ (ns : List ℕ) (xs : List ℚ) (m : Mem),
    addTerminals c s t ns xs m = { m with arcs := m.arcs ++ termArcs c s t ns xs }
  | [], xs, m => by cases xs <;> simp [addTerminals, termArcs]
  | _ :: _, [], m => by simp [addTerminals, termArcs]
  | i :: ns, x :: xs, m => by
    rw [addTerminals, addTerminals_eq c s t ns xs, termArcs]
    split <;> split <;> simp [Mem.addArc]

theorem termArcs_ends (c : ℕ → ℚ) (s t : ℕ) : ∀ (ns : List ℕ) (xs : List ℚ), ∀ a ∈ termArcs c s t ns xs,
    (a.src = s ∧ a.dst ∈ ns) ∨ (a.src ∈ ns ∧ a.dst = t)
  | [], xs, a, h => by cases xs <;> simp [termArcs] at h
  | _ :: _, [], a, h => by simp [termArcs] at h
  | i :: ns, x :: xs, a, h => by
    rw [termArcs, List.mem_append, List.mem_append] at h
    rcases h with (h | h) | h
    · split at h
      · rw [List.mem_singleton.1 h]; simp
      · cases h
    · split at h
      · rw [List.mem_singleton.1 h]; simp
      · cases h
    · rcases termArcs_ends c s t ns xs a h with ⟨h1, h2⟩ | ⟨h1, h2⟩
      · exact Or.inl ⟨h1, by simp [h2]⟩
      · exact Or.inr ⟨by simp [h1], h2⟩

theorem termArcs_map (c : ℕ → ℚ) {s t : ℕ} (hst : s ≠ t) : ∀ (ns : List ℕ) (xs : List ℚ),
    s ∉ ns → t ∉ ns →
    (termArcs c s t ns xs).map (fun a => (⟨termNode s t a.src, termNode s t a.dst, a.cap⟩ : NArc)) =
      terminalArcs c ns xs
  | [], xs, _, _ => by cases xs <;> simp [termArcs, terminalArcs]
  | _ :: _, [], _, _ => by simp [termArcs, terminalArcs]
  | i :: ns, x :: xs, hs, ht => by
    simp only [List.mem_cons, not_or] at hs ht
    rw [termArcs, terminalArcs, List.map_append, List.map_append, termArcs_map c hst ns xs hs.2 ht.2]
    congr 1
    congr 1
    · split <;> simp [termNode, Ne.symm hs.1, Ne.symm ht.1]
    · split <;> simp [termNode, Ne.symm hs.1, Ne.symm ht.1, Ne.symm hst]

/-- `minimize` computes what the model of the flow network says and leaves the graph as it was. -/
theorem minimizeMem_spec (S : FlowSolver) {m : Mem} (h : MemWF m) (lam : ℚ) {ns : List ℕ} (l : ℕ)
    (xl : List ℚ) (hns : ∀ i ∈ ns, i ∈ m.nodes) :
    MemWF (minimizeMem S m lam ns l xl).1 ∧ (minimizeMem S m lam ns l xl).1.graph = m.graph ∧
    m.ids ≤ (minimizeMem S m lam ns l xl).1.ids ∧
    (minimizeMem S m lam ns l xl).1.ids ≤ m.ids + 2 ∧
    (minimizeMem S m lam ns l xl).2 = minimizeI S m.arcs lam ns l xl := by
  obtain ⟨hw1, hn1, ha1, hs, hsf, hi1, hi1'⟩ := addNode_spec h
  obtain ⟨hw2, hn2, ha2, ht, htf, hi2, hi2'⟩ := addNode_spec hw1
  have hff : ∀ v ∈ (m.addNode.2.addNode).2.free, v ∈ m.addNode.2.free := by
    intro v hv
    rw [Mem.addNode] at hv
    split at hv
    · exact hv
    · rename_i u fr hfr
      simp only [Mem.addNode] at *
      rw [hfr]
      exact List.mem_cons_of_mem _ hv
  generalize hms : m.addNode = ms at *
  obtain ⟨s, m1⟩ := ms
  generalize hmt : m1.addNode = mt at *
  obtain ⟨t, m2⟩ := mt
  dsimp only at *
  have hst : s ≠ t := by
    rintro rfl
    exact ht (by rw [hn1]; simp)
  have htm : t ∉ m.nodes := fun hm => ht (by rw [hn1]; exact List.mem_append_left _ hm)
  have hsn : s ∉ ns := fun hm => hs (hns s hm)
  have htn : t ∉ ns := fun hm => htm (hns t hm)
  have hfin : (minimizeMem S m lam ns l xl).1 =
      ⟨m.nodes, m.arcs, t :: s :: m2.free, m2.ids⟩ := by
    unfold minimizeMem
    rw [hms]
    dsimp only
    rw [hmt]
    dsimp only
    rw [addTerminals_eq]
    unfold Mem.erase
    simp only [Mem.mk.injEq, and_true]
    constructor
    · rw [hn2, hn1]
      simp only [List.filter_append, List.filter_filter]
      rw [List.filter_eq_self.2 (fun v hv => ?_)]
      · simp [hst]
      · simp only [ne_eq, decide_not, Bool.and_eq_true, Bool.not_eq_eq_eq_not, Bool.not_true,
          decide_eq_false_iff_not]
        exact ⟨fun e => htm (e ▸ hv), fun e => hs (e ▸ hv)⟩
    · rw [ha2, ha1]
      simp only [List.filter_append, List.filter_filter]
      rw [List.filter_eq_self.2 (fun a ha => ?_), List.filter_eq_nil_iff.2 (fun a ha => ?_)]
      · simp
      · simp only [Bool.and_eq_true, decide_eq_true_eq, not_and, not_not]
        rcases termArcs_ends _ _ _ _ _ a ha with ⟨h1, _⟩ | ⟨_, h1⟩
        · intro _ h2; exact absurd h1 h2
        · intro h2; exact absurd h1 h2.2
      · simp only [Bool.and_eq_true, decide_eq_true_eq]
        have h3 := h.arcs a ha
        exact ⟨⟨fun e => htm (e ▸ h3.1), fun e => htm (e ▸ h3.2)⟩,
          ⟨fun e => hs (e ▸ h3.1), fun e => hs (e ▸ h3.2)⟩⟩
  have htlt : t < m2.ids := hw2.nodes t (by rw [hn2]; simp)
  have hslt : s < m2.ids := hw2.nodes s (by rw [hn2, hn1]; simp)
  refine ⟨?_, by rw [hfin]; rfl, by rw [hfin]; dsimp only; omega, by rw [hfin]; dsimp only; omega, ?_⟩
  · rw [hfin]
    refine ⟨h.arcs, fun v hv => lt_of_lt_of_le (h.nodes v hv) (by dsimp only; omega), fun v hv => ?_, ?_,
      h.distinct⟩
    · simp only [List.mem_cons] at hv
      rcases hv with rfl | rfl | hv
      · exact ⟨htlt, htm⟩
      · exact ⟨hslt, hs⟩
      · have := hw2.free v hv
        exact ⟨this.1, fun hm => this.2 (by rw [hn2, hn1]; simp [hm])⟩
    · refine List.nodup_cons.2 ⟨?_, List.nodup_cons.2 ⟨fun hm => hsf (hff s hm), hw2.nodup⟩⟩
      simp only [List.mem_cons, not_or]
      exact ⟨Ne.symm hst, htf⟩
  · have hnet : (addTerminals (sinkCost m.arcs ns l) s t ns xl m2).net ns s t =
        dilworthNet m.arcs (sinkCost m.arcs ns l) ns xl := by
      rw [addTerminals_eq]
      unfold Mem.net dilworthNet interiorArcs
      simp only [Net.mk.injEq, true_and]
      rw [List.filter_append, List.map_append, ha2, ha1]
      congr 1
      · have hfeq : (m.arcs.filter fun a => (a.src ∈ ns ∨ a.src = s ∨ a.src = t) ∧
            (a.dst ∈ ns ∨ a.dst = s ∨ a.dst = t)) =
            m.arcs.filter fun a => a.src ∈ ns ∧ a.dst ∈ ns := by
          apply List.filter_congr
          intro a ha
          have h3 := h.arcs a ha
          have e1 : a.src ≠ s := fun e => hs (e ▸ h3.1)
          have e2 : a.src ≠ t := fun e => htm (e ▸ h3.1)
          have e3 : a.dst ≠ s := fun e => hs (e ▸ h3.2)
          have e4 : a.dst ≠ t := fun e => htm (e ▸ h3.2)
          simp [e1, e2, e3, e4]
        rw [hfeq]
        apply List.map_congr_left
        intro a ha
        have h3 := (List.mem_filter.1 ha).2
        simp only [Bool.decide_and, Bool.and_eq_true, decide_eq_true_eq] at h3
        have e1 : a.src ≠ s := fun e => hsn (e ▸ h3.1)
        have e2 : a.src ≠ t := fun e => htn (e ▸ h3.1)
        have e3 : a.dst ≠ s := fun e => hsn (e ▸ h3.2)
        have e4 : a.dst ≠ t := fun e => htn (e ▸ h3.2)
        simp [termNode, e1, e2, e3, e4]
      · rw [List.filter_eq_self.2 (fun a ha => ?_), termArcs_map _ hst _ _ hsn htn]
        simp only [decide_eq_true_eq]
        rcases termArcs_ends _ _ _ _ _ a ha with ⟨h1, h2⟩ | ⟨h1, h2⟩
        · exact ⟨Or.inr (Or.inl h1), Or.inl h2⟩
        · exact ⟨Or.inl h1, Or.inr (Or.inr h2)⟩
    unfold minimizeMem minimizeI
    rw [hms]
    dsimp only
    rw [hmt]
    dsimp only
    rw [hnet]

/-- The computation `x` on the shared graph, started in `m`, is the computation `y`, and the graph is the
same afterwards. -/
def Sim {α : Type} (m : Mem) (x : Outcome (Mem × α)) (y : Outcome α) : Prop :=
  ∃ m', MemWF m' ∧ m'.graph = m.graph ∧ m.ids ≤ m'.ids ∧ x = (y >>= fun r => .ok (m', r))

theorem Sim.bind {α β : Type} {m : Mem} {x : Outcome (Mem × α)} {y : Outcome α}
    {f : Mem × α → Outcome (Mem × β)} {f' : α → Outcome β} (h : Sim m x y)
    (hf : ∀ m' r, MemWF m' → m'.graph = m.graph → m.ids ≤ m'.ids → Sim m' (f (m', r)) (f' r)) :
    Sim m (x >>= f) (y >>= f') := by
  obtain ⟨m', h1, h2, h3, rfl⟩ := h
  cases y with
  | ok r =>
    obtain ⟨m'', k1, k2, k3, k4⟩ := hf m' r h1 h2 h3
    exact ⟨m'', k1, k2.trans h2, h3.trans k3, k4⟩
  | exc e => exact ⟨m', h1, h2, h3, rfl⟩
  | ub e => exact ⟨m', h1, h2, h3, rfl⟩
  | nan => exact ⟨m', h1, h2, h3, rfl⟩
  | fuel => exact ⟨m', h1, h2, h3, rfl⟩

theorem Sim.ok {α : Type} {m : Mem} (h : MemWF m) (r : α) : Sim m (.ok (m, r)) (.ok r) :=
  ⟨m, h, rfl, le_refl _, rfl⟩

theorem minimizeDTMem_sim (S : FlowSolver) {m : Mem} (h : MemWF m) (lam : ℚ) (xl : List ℚ) :
    Sim m (minimizeDTMem S m lam xl) (minimizeDT S m.graph lam xl) := by
  by_cases h1 : ¬ ∀ i ∈ List.range (xl.length + 1), i ∈ m.nodes
  · rw [show minimizeDTMem S m lam xl = _ from if_pos h1,
      show minimizeDT S m.graph lam xl = _ from if_pos h1]
    exact ⟨m, h, rfl, le_refl _, rfl⟩
  rw [show minimizeDTMem S m lam xl = _ from if_neg h1,
    show minimizeDT S m.graph lam xl = _ from if_neg h1]
  by_cases h2 : ∃ a ∈ m.arcs, a.src = xl.length ∧ a.dst = xl.length
  · have h2' : ∃ a ∈ m.graph.arcs, a.src = xl.length ∧ a.dst = xl.length := h2
    rw [if_pos h2, if_pos h2']
    exact ⟨m, h, rfl, le_refl _, rfl⟩
  · have h2' : ¬ ∃ a ∈ m.graph.arcs, a.src = xl.length ∧ a.dst = xl.length := h2
    rw [if_neg h2, if_neg h2']
    have hns : ∀ i ∈ List.range xl.length, i ∈ m.nodes := fun i hi =>
      (not_not.1 h1) i (List.mem_range.2 (by have := List.mem_range.1 hi; omega))
    obtain ⟨k1, k2, k3, _, k4⟩ := minimizeMem_spec S h lam xl.length xl hns
    refine ⟨_, k1, k2, k3, ?_⟩
    rw [Outcome.ok_bind]
    congr 1
    exact Prod.ext rfl k4

theorem runLoopDTMem_sim (S : FlowSolver) (lam : ℚ) : ∀ (k : ℕ) (xl : List ℚ) (P : Partition) (m : Mem),
    MemWF m → Sim m (runLoopDTMem S lam k xl P m) (runLoopDT S m.graph lam k xl P)
  | 0, xl, P, m, h => Sim.ok h _
  | k + 1, xl, P, m, h => by
    rw [runLoopDTMem, runLoopDT]
    refine (minimizeDTMem_sim S h lam xl).bind fun m' r h1 h2 _ => ?_
    rw [← h2]
    exact runLoopDTMem_sim S lam k _ _ m' h1

theorem dilworthDTMem_sim (S : FlowSolver) (lam : ℚ) {m : Mem} (h : MemWF m) :
    Sim m (dilworthDTMem S lam m) (dilworthDT S m.graph lam) := by
  unfold dilworthDTMem dilworthDT
  exact (runLoopDTMem_sim S lam _ [] ∅ m h).bind fun m' r h1 _ _ => Sim.ok h1 _

theorem dtSplitMem_sim (S : FlowSolver) (ε : ℚ) : ∀ (k : ℕ) (Q P : Partition) (m : Mem), MemWF m →
    Sim m (dtSplitMem S ε k Q P m) (dtSplit S ε m.graph k Q P)
  | 0, Q, P, m, h => ⟨m, h, rfl, le_refl _, rfl⟩
  | k + 1, Q, P, m, h => by
    rw [dtSplitMem, dtSplit]
    split
    · exact ⟨m, h, rfl, le_refl _, rfl⟩
    · refine (dilworthDTMem_sim S _ h).bind fun m' r h1 h2 _ => ?_
      dsimp only
      split
      · exact Sim.ok h1 _
      · rw [← h2]
        refine (dtSplitMem_sim S ε k Q r.2 m' h1).bind fun m2 a k1 k2 _ => ?_
        rw [← k2]
        refine (dtSplitMem_sim S ε k r.2 P m2 k1).bind fun m3 b k3 _ _ => ?_
        exact Sim.ok k3 _

theorem dtRunMem_sim (S : FlowSolver) (ε : ℚ) {m : Mem} (h : MemWF m) :
    Sim m (dtRunMem S ε m) (dtRun S ε m.graph) := by
  unfold dtRunMem dtRun
  exact (dtSplitMem_sim S ε _ _ _ m h).bind fun m' r h1 _ _ => Sim.ok h1 _

theorem runLoopIMem_spec (S : FlowSolver) (lam : ℚ) : ∀ (rest dn : List ℕ) (xl : List ℚ)
    (P : Partition) (m : Mem), MemWF m → (∀ i ∈ dn ++ rest, i ∈ m.nodes) →
    MemWF (runLoopIMem S lam dn rest xl P m).1 ∧ (runLoopIMem S lam dn rest xl P m).1.graph = m.graph ∧
    (runLoopIMem S lam dn rest xl P m).2 = runLoopI S m.arcs lam dn rest xl P
  | [], dn, xl, P, m, h, _ => ⟨h, rfl, rfl⟩
  | l :: rest, dn, xl, P, m, h, hn => by
    rw [runLoopIMem, runLoopI]
    obtain ⟨k1, k2, _, _, k4⟩ := minimizeMem_spec S h lam l xl (ns := dn)
      (fun i hi => hn i (List.mem_append_left _ hi))
    have k2n : (minimizeMem S m lam dn l xl).1.nodes = m.nodes := congrArg Digraph.nodes k2
    have k2a : (minimizeMem S m lam dn l xl).1.arcs = m.arcs := congrArg Digraph.arcs k2
    obtain ⟨j1, j2, j3⟩ := runLoopIMem_spec S lam rest (dn ++ [l])
      (xl ++ [(minimizeMem S m lam dn l xl).2.1]) (expand P (insert l (minimizeMem S m lam dn l xl).2.2))
      _ k1 (fun i hi => by rw [k2n]; exact hn i (by simpa using hi))
    refine ⟨j1, j2.trans k2, ?_⟩
    rw [j3, k4, k2a]

/-- `psp::DilworthTruncation::run` leaves the graph as it was. -/
theorem dilworthIMem_spec (S : FlowSolver) (lam : ℚ) {ns : List ℕ} {m : Mem} (h : MemWF m)
    (hn : ∀ i ∈ ns, i ∈ m.nodes) : MemWF (dilworthIMem S lam ns m).1 ∧
    (dilworthIMem S lam ns m).1.graph = m.graph ∧
    (dilworthIMem S lam ns m).2 = dilworthI S m.arcs lam ns := by
  obtain ⟨h1, h2, h3⟩ := runLoopIMem_spec S lam ns [] [] ∅ m h (by simpa using hn)
  refine ⟨h1, h2, ?_⟩
  unfold dilworthIMem dilworthI
  dsimp only
  rw [← h3]

/-! ### the number of ids does not matter to `PMF` -/

theorem pmfSlice_ids (W : WarmSolver) (ε : ℚ) (arcs : List Arc) {n n' j : ℕ} (hn : j < n) (hn' : j < n')
    (y : ℕ → YPair) : ∀ (k : ℕ) (Tl Tr : CSet) (f : List ℚ) (lam1 : ℚ) (lam3 : Option ℚ),
    (∀ i ∈ Tl, i ≤ j) → j ∈ Tr →
    pmfSlice W ε arcs n j y k Tl Tr f lam1 lam3 = pmfSlice W ε arcs n' j y k Tl Tr f lam1 lam3
  | 0, _, _, _, _, _, _, _ => rfl
  | k + 1, Tl, Tr, f, lam1, lam3, hl, hr => by
    have hf : ∀ N, j < N → (List.range (N - 1)).filter (fun i => i ∈ Tl ∧ i ∉ Tr) =
        (List.range j).filter fun i => i ∈ Tl ∧ i ∉ Tr := by
      intro N hN
      obtain ⟨d, hd⟩ : ∃ d, N - 1 = j + d := ⟨N - 1 - j, by omega⟩
      rw [hd, List.range_add, List.filter_append]
      conv_rhs => rw [← List.append_nil (List.filter _ (List.range j))]
      congr 1
      refine List.filter_eq_nil_iff.2 fun i hi => ?_
      obtain ⟨e, _, rfl⟩ := List.mem_map.1 hi
      simp only [decide_eq_true_eq, not_and, not_not]
      intro h1
      have := hl _ h1
      have : j + e = j := by omega
      rw [this]; exact hr
    rw [pmfSlice, pmfSlice, hf n hn, hf n' hn']
    have hT : ∀ N init, (∀ i ∈ pmfSide W (pmfNet ε arcs j y N) init j, i ≤ j) ∧
        j ∈ pmfSide W (pmfNet ε arcs j y N) init j := by
      intro N init
      refine ⟨fun i hi => ?_, Finset.mem_insert_self _ _⟩
      rcases Finset.mem_insert.1 hi with rfl | hi
      · exact le_refl _
      · have := Finset.mem_range.1 (Finset.mem_filter.1 hi).1
        omega
    cases hc : computeLambda ε (((List.range j).filter fun i => i ∈ Tl ∧ i ∉ Tr).map y)
        (getCutValue arcs Tl - getCutValue arcs Tr) with
    | ok lam2 =>
      simp only [Outcome.ok_bind]
      rw [pmfSlice_ids W ε arcs hn hn' y k Tl _ f lam1 (some lam2) hl (hT _ _).2,
        pmfSlice_ids W ε arcs hn hn' y k _ Tr _ lam2 lam3 (hT _ _).1 hr]
    | exc e => rfl
    | ub e => rfl
    | nan => rfl
    | fuel => rfl

theorem pmfRunIds_eq (W : WarmSolver) (ε : ℚ) {g : Digraph} {ids j : ℕ} (hj : j < g.countNodes)
    (hi : j < ids) (y : ℕ → YPair) : pmfRunIds W ε g ids j y = pmfRun W ε g j y := by
  unfold pmfRun pmfRunIds
  split
  · rfl
  · dsimp only
    rw [pmfSlice_ids W ε g.arcs hi hj y]
    · intro i hi
      rcases Finset.mem_insert.1 hi with rfl | hi
      · exact le_refl _
      · have := Finset.mem_range.1 (Finset.mem_filter.1 hi).1
        omega
    · simp

theorem pdtLoop_congr {pmf pmf' : ℕ → (ℕ → YPair) → Outcome (List CSet × List ℚ)} (g : Digraph) :
    ∀ (k i : ℕ) (st : PDTState), (∀ j y, j < i + k → pmf j y = pmf' j y) →
    pdtLoop pmf g k i st = pdtLoop pmf' g k i st
  | 0, _, _, _ => rfl
  | k + 1, i, st, h => by
    rw [pdtLoop, pdtLoop]
    have e : pdtStep pmf g i st = pdtStep pmf' g i st := by
      unfold pdtStep; rw [h i _ (by omega)]
    rw [e]
    congr 1
    funext st'
    exact pdtLoop_congr g k (i + 1) st' fun j y hj => h j y (by omega)

/-- The result of `pdt` does not depend on the ids given out. -/
theorem pdtRunIds_eq (W : WarmSolver) (ε : ℚ) {g : Digraph} {ids : ℕ} (h : g.countNodes ≤ ids) :
    pdtRunIds W ε ids g = pdtRun W ε g := by
  unfold pdtRunIds pdtRun pdtRunFrom pdtRunWith
  split
  · rfl
  · rw [pdtLoop_congr g _ _ _ fun j y hj => pmfRunIds_eq W ε (by omega) (by omega) y]

end PSP.Theory
