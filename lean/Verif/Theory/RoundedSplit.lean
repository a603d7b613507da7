import Verif.Theory.RoundedDT
import Verif.Theory.HPSPRun
import Verif.Model.RoundedPSPI

/-!
# `PSP_I::split` and `HPSP::split` with rounded arithmetic
-/

namespace PSP.Theory

open PSP.Spec PSP.Model

variable {fl : ℚ → ℚ} {u M : ℚ} {ao : List Arc → List Arc}

/-! ### sums of integer weights are exact -/

/-- The sum of the weights of the arcs with `p`. -/
theorem sum_if_bounds {E : List Arc} (hE : NonnegE E) (hi : IntegerCaps E) (p : Arc → Prop) [DecidablePred p] :
    0 ≤ (E.map fun a => if p a then a.cap else 0).sum ∧ (E.map fun a => if p a then a.cap else 0).sum ≤ totalCap E ∧
    ∃ k : ℤ, (E.map fun a => if p a then a.cap else 0).sum = k := by
  refine ⟨?_, ?_, int_sum fun x hx => ?_⟩
  · apply List.sum_nonneg
    intro y hy
    obtain ⟨a, ha, rfl⟩ := List.mem_map.1 hy
    split
    · exact hE a ha
    · exact le_rfl
  · unfold totalCap
    apply List.sum_le_sum
    intro a ha
    split
    · exact le_rfl
    · exact hE a ha
  · obtain ⟨a, ha, rfl⟩ := List.mem_map.1 hx
    split
    · exact hi a ha
    · exact ⟨0, by simp⟩

theorem flSum_filter (hfl : Rounds fl u M) (hao : ∀ l, (ao l).Perm l) {E : List Arc} (hE : NonnegE E)
    (hi : IntegerCaps E) (hM : totalCap E ≤ M) (p : Arc → Prop) [DecidablePred p] :
    flSum fl 0 (((ao E).filter fun a => p a).map (·.cap)) = (E.map fun a => if p a then a.cap else 0).sum := by
  have hsum : (((ao E).filter fun a => p a).map (·.cap)).sum = (E.map fun a => if p a then a.cap else 0).sum := by
    rw [sum_filter_map, ((hao E).map _).sum_eq]
    simp
  rw [hfl.flSum_int _ 0 _ le_rfl ⟨0, by simp⟩ (by
    rw [hsum, zero_add]; exact (sum_if_bounds hE hi p).2.1.trans hM), hsum, zero_add]
  intro x hx
  obtain ⟨a, ha, rfl⟩ := List.mem_map.1 hx
  have ha := (hao E).mem_iff.1 (List.mem_filter.1 ha).1
  exact ⟨hE a ha, hi a ha⟩

theorem capacityTo_sum (E : List Arc) (S : CSet) (v : ℕ) :
    capacityTo E S v = (E.map fun a => if (a.src ∈ S ∧ a.dst ∉ S ∧ a.dst = v) ∨
      (a.src ∉ S ∧ a.dst ∈ S ∧ a.src = v) then a.cap else 0).sum := by
  unfold capacityTo
  congr 1
  apply List.map_congr_left
  intro a _
  by_cases h1 : a.src ∈ S <;> by_cases h2 : a.dst ∈ S <;> simp [h1, h2]

theorem capacityToF_eq (hfl : Rounds fl u M) (hao : ∀ l, (ao l).Perm l) {E : List Arc} (hE : NonnegE E)
    (hi : IntegerCaps E) (hM : totalCap E ≤ M) (S : CSet) (v : ℕ) :
    capacityToF fl ao E S v = capacityTo E S v := by
  unfold capacityToF
  rw [flSum_filter hfl hao hE hi hM, capacityTo_sum]

theorem weightTotalF_eq (hfl : Rounds fl u M) (hao : ∀ l, (ao l).Perm l) {E : List Arc} (hE : NonnegE E)
    (hi : IntegerCaps E) (hM : totalCap E ≤ M) (ns : List ℕ) :
    weightTotalF fl ao E ns = weightTotal E ns := by
  unfold weightTotalF weightTotal
  rw [flSum_filter hfl hao hE hi hM, sum_filter_map]
  simp

/-! ### contraction -/

/-- What sums need: distinct nodes, integer weights, a bound on the total. -/
structure Whole (W : ℚ) (g : Digraph) : Prop where
  nodup : g.nodes.Nodup
  nonneg : NonnegE g.arcs
  int : IntegerCaps g.arcs
  total : totalCap g.arcs ≤ W

theorem contractF_eq (hfl : Rounds fl u M) (hao : ∀ l, (ao l).Perm l) {g : Digraph} (h : Whole M g) (ε : ℚ)
    (S : CSet) (i : ℕ) : contractF fl ao ε g S i = contract ε g S i := by
  unfold contractF contract
  congr 3
  funext v
  unfold contractArcF contractArc
  rw [capacityToF_eq hfl hao h.nonneg h.int h.total]

theorem contract_total {E : List Arc} (hE : NonnegE E) (D : Finset ℕ) (S : CSet) (k : Arc → Prop) [DecidablePred k]
    (hk : ∀ a, k a → a.src ∉ S ∧ a.dst ∉ S) :
    totalCap (E.filter fun a => k a) + ∑ v ∈ D, capacityTo E S v ≤ totalCap E := by
  unfold totalCap
  induction E with
  | nil => simp [capacityTo]
  | cons a E ih =>
    have ih := ih fun e he => hE e (List.mem_cons_of_mem _ he)
    have ha := hE a List.mem_cons_self
    have hc : ∀ v, capacityTo (a :: E) S v = (if a.src ∈ S ∧ a.dst ∉ S then (if a.dst = v then a.cap else 0)
        else if a.src ∉ S ∧ a.dst ∈ S then (if a.src = v then a.cap else 0) else 0) + capacityTo E S v := by
      intro v; unfold capacityTo; rw [List.map_cons, List.sum_cons]
    simp only [hc, Finset.sum_add_distrib]
    have hsum : ∀ w : ℕ, ∑ v ∈ D, (if w = v then a.cap else 0) ≤ a.cap := by
      intro w
      rw [Finset.sum_ite_eq]
      split
      · exact le_rfl
      · exact ha
    by_cases h : k a
    · obtain ⟨h1, h2⟩ := hk a h
      rw [List.filter_cons_of_pos (by simpa using h), List.map_cons, List.sum_cons, List.map_cons, List.sum_cons]
      simp only [h1, h2, false_and, and_false, if_false, Finset.sum_const_zero]
      linarith
    · rw [List.filter_cons_of_neg (by simpa using h), List.map_cons, List.sum_cons]
      by_cases h1 : a.src ∈ S ∧ a.dst ∉ S
      · simp only [h1]
        have := hsum a.dst
        simp only [not_false_eq_true, and_self, if_true]
        linarith
      · by_cases h2 : a.src ∉ S ∧ a.dst ∈ S
        · simp only [h2]
          have := hsum a.src
          simp only [not_false_eq_true, and_self, if_true]
          simp only [false_and, if_false]
          linarith
        · simp only [h1, h2, if_false, Finset.sum_const_zero]
          linarith

theorem filterMap_total (f : ℕ → Option Arc) (c : ℕ → ℚ) (h0 : ∀ v, 0 ≤ c v) (hf : ∀ v a, f v = some a → a.cap ≤ c v)
    (l : List ℕ) : totalCap (l.filterMap f) ≤ (l.map c).sum := by
  unfold totalCap
  induction l with
  | nil => simp
  | cons v l ih =>
    rw [List.map_cons, List.sum_cons]
    rcases h : f v with _ | a
    · rw [List.filterMap_cons_none h]
      have := h0 v
      linarith
    · rw [List.filterMap_cons_some h, List.map_cons, List.sum_cons]
      have := hf v a h
      linarith

theorem Whole.contract {W : ℚ} {g : Digraph} (h : Whole W g) (ε : ℚ) (S : CSet) (i : ℕ) :
    Whole W (contract ε g S i) := by
  have hc : ∀ v, 0 ≤ capacityTo g.arcs S v ∧ ∃ k : ℤ, capacityTo g.arcs S v = k := by
    intro v
    rw [capacityTo_sum]
    have := sum_if_bounds h.nonneg h.int fun a => (a.src ∈ S ∧ a.dst ∉ S ∧ a.dst = v) ∨
      (a.src ∉ S ∧ a.dst ∈ S ∧ a.src = v)
    exact ⟨this.1, this.2.2⟩
  have hcap : ∀ v a, contractArc ε g.arcs S i v = some a → a.cap = capacityTo g.arcs S v := by
    intro v a hva
    unfold contractArc at hva
    dsimp only at hva
    rw [abs_of_nonneg (hc v).1] at hva
    split at hva
    · exact absurd hva (by simp)
    · split at hva <;> (injection hva with hva; rw [← hva])
  refine ⟨h.nodup.filter _, ?_, ?_, ?_⟩
  · intro e he
    rcases List.mem_append.1 he with he | he
    · exact h.nonneg e (List.mem_filter.1 he).1
    · obtain ⟨v, _, hv⟩ := List.mem_filterMap.1 he
      rw [hcap v e hv]; exact (hc v).1
  · intro e he
    rcases List.mem_append.1 he with he | he
    · exact h.int e (List.mem_filter.1 he).1
    · obtain ⟨v, _, hv⟩ := List.mem_filterMap.1 he
      rw [hcap v e hv]; exact (hc v).2
  · refine le_trans ?_ h.total
    have h1 := contract_total h.nonneg g.nodes.toFinset S (fun a => ¬ (a.src = i ∨ a.dst = i) ∧
        ¬ (a.src ∈ S ∧ a.src ≠ i) ∧ ¬ (a.dst ∈ S ∧ a.dst ≠ i)) (by
      rintro a ⟨h1, h2, h3⟩
      push Not at h1 h2 h3
      exact ⟨fun h => h1.1 (h2 h), fun h => h1.2 (h3 h)⟩)
    have h2 := filterMap_total (contractArc ε g.arcs S i) (capacityTo g.arcs S) (fun v => (hc v).1)
      (fun v a hva => (hcap v a hva).le) (g.nodes.insertionSort (· ≤ ·))
    have h3 : ((g.nodes.insertionSort (· ≤ ·)).map (capacityTo g.arcs S)).sum =
        ∑ v ∈ g.nodes.toFinset, capacityTo g.arcs S v := by
      rw [((List.perm_insertionSort _ g.nodes).map _).sum_eq, List.sum_toFinset _ h.nodup]
    unfold Model.contract totalCap at *
    dsimp only
    rw [List.map_append, List.sum_append]
    linarith

/-! ### the same decisions with exact values -/

/-- What the code decides with rounded arithmetic. -/
def decideF (fl : ℚ → ℚ) (ao : List Arc → List Arc) (S : FlowSolver) (ε : ℚ) : Decide := fun arcs ns m =>
  let γ := splitGammaF fl ao arcs ns m
  let r := dilworthIF fl S arcs γ ns
  if splitDoneF fl ε γ m r then none else some r.2

/-- The tree with all values changed. -/
def mapVal (f : ℚ → ℚ) : PTree → PTree
  | .leaf K => .leaf K
  | .node K lam ch => .node K (lam.map f) (ch.map (mapVal f))

@[simp] theorem mapVal_leaf (f : ℚ → ℚ) (K : CSet) : mapVal f (.leaf K) = .leaf K := by rw [mapVal]

@[simp] theorem mapVal_node (f : ℚ → ℚ) (K : CSet) (lam : Option ℚ) (ch : List PTree) :
    mapVal f (.node K lam ch) = .node K (lam.map f) (ch.map (mapVal f)) := by rw [mapVal]

@[simp] theorem mapVal_K (f : ℚ → ℚ) (t : PTree) : (mapVal f t).K = t.K := by
  cases t <;> simp [PTree.K]

@[simp] theorem mapVal_val (f : ℚ → ℚ) (t : PTree) : (mapVal f t).val = t.val.map f := by
  cases t <;> simp [PTree.val]

@[simp] theorem mapVal_children (f : ℚ → ℚ) (t : PTree) : (mapVal f t).children = t.children.map (mapVal f) := by
  cases t <;> simp [PTree.children]

/-- The result of `split` with all values changed. -/
def mapSplit (f : ℚ → ℚ) (x : Digraph × Option ℚ × List PTree) : Digraph × Option ℚ × List PTree :=
  (x.1, x.2.1.map f, x.2.2.map (mapVal f))

theorem mapVal_filter (f : ℚ → ℚ) (p : CSet → Prop) [DecidablePred p] (ch : List PTree) :
    (ch.map (mapVal f)).filter (fun c => p c.K) = (ch.filter fun c => p c.K).map (mapVal f) := by
  rw [List.filter_map]
  congr 1
  apply List.filter_congr
  intro c _
  simp

theorem mapVal_mapK (f : ℚ → ℚ) (ch : List PTree) : (ch.map (mapVal f)).map PTree.K = ch.map PTree.K := by
  rw [List.map_map]
  apply List.map_congr_left
  intro c _
  simp

theorem pspiBlocksF_sim (hfl : Rounds fl u M) (hao : ∀ l, (ao l).Perm l) {ε : ℚ}
    {splitF splitO : Digraph → List PTree → Outcome (Digraph × Option ℚ × List PTree)}
    (h : ∀ g ch, Whole M g → splitF g (ch.map (mapVal fl)) = (splitO g ch >>= fun x => pure (mapSplit fl x)) ∧
      ∀ x, splitO g ch = .ok x → Whole M x.1) (Bs : List CSet) :
    ∀ g ch, Whole M g → pspiBlocksF fl ao ε splitF Bs g (ch.map (mapVal fl)) =
        (pspiBlocks ε splitO Bs g ch >>= fun x => pure (x.1, x.2.map (mapVal fl))) ∧
      ∀ x, pspiBlocks ε splitO Bs g ch = .ok x → Whole M x.1 := by
  induction Bs with
  | nil =>
    intro g ch hg
    refine ⟨rfl, fun x hx => ?_⟩
    rw [pspiBlocks] at hx
    injection hx with hx
    rw [← hx]; exact hg
  | cons B Bs ih =>
    intro g ch hg
    rw [pspiBlocksF, pspiBlocks]
    by_cases hB : B.card = 1
    · rw [if_pos hB, if_pos hB]
      exact ih g ch hg
    · rw [if_neg hB, if_neg hB]
      dsimp only
      have e1 := mapVal_filter fl (fun A => ¬ Disjoint A B) ch
      have e2 := mapVal_filter fl (fun A => Disjoint A B) ch
      rw [e1, e2, mapVal_mapK, ← List.map_reverse]
      obtain ⟨h1, h2⟩ := h g (ch.filter fun c => ¬ Disjoint c.K B).reverse hg
      rw [h1]
      generalize splitO g (ch.filter fun c => ¬ Disjoint c.K B).reverse = o at h2 ⊢
      cases o with
      | ok x =>
        have hx := h2 x rfl
        simp only [Outcome.ok_bind, Outcome.pure_eq, mapSplit]
        rw [contractF_eq hfl hao hx]
        have := ih (contract ε x.1 B (firstElem B))
          (.node (B ∪ ((ch.filter fun c => ¬ Disjoint c.K B).map PTree.K).foldr (· ∪ ·) ∅) x.2.1 x.2.2 ::
            ch.filter fun c => Disjoint c.K B) (hx.contract ε B _)
        simpa using this
      | exc s => exact ⟨rfl, fun x hx => by cases hx⟩
      | ub s => exact ⟨rfl, fun x hx => by cases hx⟩
      | nan => exact ⟨rfl, fun x hx => by cases hx⟩
      | fuel => exact ⟨rfl, fun x hx => by cases hx⟩

theorem splitGammaF_eq (hfl : Rounds fl u M) (hao : ∀ l, (ao l).Perm l) {g : Digraph} (hg : Whole M g)
    (ns : List ℕ) (m : ℕ) : splitGammaF fl ao g.arcs ns m = fl (weightTotal g.arcs ns / ((m : ℚ) - 1)) := by
  unfold splitGammaF
  rw [weightTotalF_eq hfl hao hg.nonneg hg.int hg.total]

/-- `PSP_I::split` with rounded arithmetic does the same as with exact values and the same decisions. -/
theorem pspiSplitF_sim (hfl : Rounds fl u M) (hao : ∀ l, (ao l).Perm l) (S : FlowSolver) (ε : ℚ)
    (ord : Partition → List CSet) (k : ℕ) :
    ∀ g ch, Whole M g → pspiSplitF fl ao S ε ord k g (ch.map (mapVal fl)) =
        (pspiSplitO (decideF fl ao S ε) ε ord k g ch >>= fun x => pure (mapSplit fl x)) ∧
      ∀ x, pspiSplitO (decideF fl ao S ε) ε ord k g ch = .ok x → Whole M x.1 := by
  induction k with
  | zero => intro g ch _; exact ⟨rfl, fun x hx => by cases hx⟩
  | succ k ih =>
    intro g ch hg
    have hids : (ch.map (mapVal fl)).map (fun c => firstElem c.K) = ch.map fun c => firstElem c.K := by
      rw [List.map_map]; apply List.map_congr_left; intro c _; simp
    rw [pspiSplitF, pspiSplitO]
    dsimp only
    rw [hids, List.length_map, splitGammaF_eq hfl hao hg]
    set ns := subNodes g (ch.map fun c => firstElem c.K).toFinset
    have hret : ∀ v : Option ℚ, (∀ x, (Outcome.ok (g, v, ch) : Outcome (Digraph × Option ℚ × List PTree)) = .ok x →
        Whole M x.1) := by
      intro v x hx; injection hx with hx; rw [← hx]; exact hg
    by_cases h1 : ch.length = 1
    · rw [if_pos h1, if_pos h1]
      exact ⟨rfl, hret _⟩
    · rw [if_neg h1, if_neg h1]
      by_cases h2 : ch.length = 2
      · rw [if_pos h2, if_pos h2]
        exact ⟨rfl, hret _⟩
      · rw [if_neg h2, if_neg h2]
        have hd : decideF fl ao S ε g.arcs ns ch.length =
            if splitDoneF fl ε (fl (weightTotal g.arcs ns / ((ch.length : ℚ) - 1))) ch.length
              (dilworthIF fl S g.arcs (fl (weightTotal g.arcs ns / ((ch.length : ℚ) - 1))) ns) then none
            else some (dilworthIF fl S g.arcs (fl (weightTotal g.arcs ns / ((ch.length : ℚ) - 1))) ns).2 := by
          unfold decideF
          dsimp only
          rw [splitGammaF_eq hfl hao hg]
        rw [hd]
        split
        · exact ⟨rfl, hret _⟩
        · dsimp only
          generalize dilworthIF fl S g.arcs (fl (weightTotal g.arcs ns / ((ch.length : ℚ) - 1))) ns = r
          obtain ⟨b1, b2⟩ := pspiBlocksF_sim (ε := ε) hfl hao ih (ord r.2) g ch hg
          rw [b1]
          generalize pspiBlocks ε (pspiSplitO (decideF fl ao S ε) ε ord k) (ord r.2) g ch = o at b2 ⊢
          cases o with
          | ok x =>
            simp only [Outcome.ok_bind, Outcome.pure_eq]
            exact ih x.1 x.2 (b2 x rfl)
          | exc s => exact ⟨rfl, fun x hx => by cases hx⟩
          | ub s => exact ⟨rfl, fun x hx => by cases hx⟩
          | nan => exact ⟨rfl, fun x hx => by cases hx⟩
          | fuel => exact ⟨rfl, fun x hx => by cases hx⟩

/-- The arrays of `HPSP` with all values changed. -/
def mapW (f : ℚ → ℚ) (st : HState) : HState := ⟨fun n => f (st.W n), st.K⟩

theorem mapW_assign (f : ℚ → ℚ) (st : HState) (C : CSet) (γ : ℚ) (s : ℕ) :
    (mapW f st).assign C (f γ) s = mapW f (st.assign C γ s) := by
  unfold mapW HState.assign
  congr 1
  funext n
  dsimp only
  split <;> rfl

theorem hpspBlocksF_sim (hfl : Rounds fl u M) (hao : ∀ l, (ao l).Perm l) {ε : ℚ}
    {splitF splitO : Digraph → HState → ℕ → CSet → Outcome (Digraph × HState)}
    (h : ∀ g st s C, Whole M g → splitF g (mapW fl st) s C = (splitO g st s C >>= fun x => pure (x.1, mapW fl x.2)) ∧
      ∀ x, splitO g st s C = .ok x → Whole M x.1) (Bs : List CSet) :
    ∀ g st N, Whole M g → hpspBlocksF fl ao ε splitF Bs g (mapW fl st) N =
        (hpspBlocks ε splitO Bs g st N >>= fun x => pure (x.1, mapW fl x.2.1, x.2.2)) ∧
      ∀ x, hpspBlocks ε splitO Bs g st N = .ok x → Whole M x.1 := by
  induction Bs with
  | nil =>
    intro g st N hg
    refine ⟨rfl, fun x hx => ?_⟩
    rw [hpspBlocks] at hx
    injection hx with hx
    rw [← hx]; exact hg
  | cons B Bs ih =>
    intro g st N hg
    rw [hpspBlocksF, hpspBlocks]
    by_cases hB : B.card = 1
    · rw [if_pos hB, if_pos hB]
      exact ih g st _ hg
    · rw [if_neg hB, if_neg hB]
      obtain ⟨h1, h2⟩ := h g st (firstElem B) B hg
      rw [h1]
      generalize splitO g st (firstElem B) B = o at h2 ⊢
      cases o with
      | ok x =>
        have hx := h2 x rfl
        simp only [Outcome.ok_bind, Outcome.pure_eq]
        rw [contractF_eq hfl hao hx]
        exact ih _ _ _ (hx.contract ε B _)
      | exc s => exact ⟨rfl, fun x hx => by cases hx⟩
      | ub s => exact ⟨rfl, fun x hx => by cases hx⟩
      | nan => exact ⟨rfl, fun x hx => by cases hx⟩
      | fuel => exact ⟨rfl, fun x hx => by cases hx⟩

/-- The same for `HPSP::split`. -/
theorem hpspSplitF_sim (hfl : Rounds fl u M) (hao : ∀ l, (ao l).Perm l) (S : FlowSolver) (ε : ℚ)
    (ord : Partition → List CSet) (k : ℕ) :
    ∀ g st s C, Whole M g → hpspSplitF fl ao S ε ord k g (mapW fl st) s C =
        (hpspSplitO (decideF fl ao S ε) ε ord k g st s C >>= fun x => pure (x.1, mapW fl x.2)) ∧
      ∀ x, hpspSplitO (decideF fl ao S ε) ε ord k g st s C = .ok x → Whole M x.1 := by
  induction k with
  | zero => intro g st s C _; exact ⟨rfl, fun x hx => by cases hx⟩
  | succ k ih =>
    intro g st s C hg
    rw [hpspSplitF, hpspSplitO]
    dsimp only
    rw [splitGammaF_eq hfl hao hg, mapW_assign]
    set ns := subNodes g C
    have hret : ∀ v : HState, (∀ x, (Outcome.ok (g, v) : Outcome (Digraph × HState)) = .ok x → Whole M x.1) := by
      intro v x hx; injection hx with hx; rw [← hx]; exact hg
    by_cases h1 : C.card = 1
    · rw [if_pos h1, if_pos h1]
      exact ⟨rfl, fun x hx => by cases hx⟩
    · rw [if_neg h1, if_neg h1]
      by_cases h2 : C.card = 2
      · rw [if_pos h2, if_pos h2]
        exact ⟨rfl, hret _⟩
      · rw [if_neg h2, if_neg h2]
        have hd : decideF fl ao S ε g.arcs ns C.card =
            if splitDoneF fl ε (fl (weightTotal g.arcs ns / ((C.card : ℚ) - 1))) C.card
              (dilworthIF fl S g.arcs (fl (weightTotal g.arcs ns / ((C.card : ℚ) - 1))) ns) then none
            else some (dilworthIF fl S g.arcs (fl (weightTotal g.arcs ns / ((C.card : ℚ) - 1))) ns).2 := by
          unfold decideF
          dsimp only
          rw [splitGammaF_eq hfl hao hg]
        rw [hd]
        split
        · exact ⟨rfl, hret _⟩
        · dsimp only
          generalize dilworthIF fl S g.arcs (fl (weightTotal g.arcs ns / ((C.card : ℚ) - 1))) ns = r
          obtain ⟨b1, b2⟩ := hpspBlocksF_sim (ε := ε) hfl hao ih (ord r.2) g st ∅ hg
          rw [b1]
          generalize hpspBlocks ε (hpspSplitO (decideF fl ao S ε) ε ord k) (ord r.2) g st ∅ = o at b2 ⊢
          cases o with
          | ok x =>
            simp only [Outcome.ok_bind, Outcome.pure_eq]
            exact ih x.1 x.2.1 s x.2.2 (b2 x rfl)
          | exc s => exact ⟨rfl, fun x hx => by cases hx⟩
          | ub s => exact ⟨rfl, fun x hx => by cases hx⟩
          | nan => exact ⟨rfl, fun x hx => by cases hx⟩
          | fuel => exact ⟨rfl, fun x hx => by cases hx⟩

end PSP.Theory
