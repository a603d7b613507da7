import Mathlib.Tactic.Tauto
import Mathlib.Algebra.BigOperators.Ring.Finset
import Verif.Model.Dilworth
import Verif.Theory.Dilworth

/-!
# Correctness of both `DilworthTruncation::run` for an arbitrary correct flow solver
-/

namespace PSP.Theory

open PSP.Spec PSP.Model

/-- No two arcs join the same ordered pair of nodes. -/
def SimpleE (E : List Arc) : Prop :=
  E.Pairwise fun a b => ¬ (a.src = b.src ∧ a.dst = b.dst)

/-- The input graphs for which the algorithms are meant: every arc goes from a lower to a higher
node id (the `_DEBUG` check of psp_i.cpp:24-27 insists on it), there are no parallel arcs, weights are
nonnegative, and end points are nodes. -/
structure GoodGraph (E : List Arc) (V : Finset ℕ) : Prop where
  lowHigh : ∀ e ∈ E, e.src < e.dst
  within : Within E V
  simple : SimpleE E
  nonneg : NonnegE E

theorem list_sum_ite_add {α : Type} (L : List α) (p q r : α → Prop) [DecidablePred p]
    [DecidablePred q] [DecidablePred r] (w : α → ℚ)
    (h : ∀ a ∈ L, (if p a then w a else 0) = (if q a then w a else 0) + (if r a then w a else 0)) :
    (L.map fun a => if p a then w a else 0).sum =
      (L.map fun a => if q a then w a else 0).sum + (L.map fun a => if r a then w a else 0).sum := by
  rw [← List.sum_map_add]
  congr 1
  exact List.map_congr_left h

theorem sum_filter_map {α : Type} (L : List α) (p : α → Bool) (w : α → ℚ) :
    ((L.filter p).map w).sum = (L.map fun a => if p a then w a else 0).sum := by
  induction L with
  | nil => rfl
  | cons a L ih =>
    by_cases h : p a
    · simp [h, ih]
    · simp [h, ih]

/-- With no parallel arcs the overwritten map holds the total weight. -/
theorem sinkCost_eq {E : List Arc} (hs : SimpleE E) {ns : List ℕ} {l i : ℕ} (hi : i ∈ ns) :
    sinkCost E ns l i = (E.map fun a => if a.dst = l ∧ a.src = i then a.cap else 0).sum := by
  unfold sinkCost
  induction E with
  | nil => simp
  | cons a E ih =>
    have hs' : SimpleE E := (List.pairwise_cons.1 hs).2
    by_cases h : a.dst = l ∧ a.src = i
    · have h0 : (E.map fun a => if a.dst = l ∧ a.src = i then a.cap else 0).sum = 0 := by
        apply List.sum_eq_zero
        intro y hy
        rw [List.mem_map] at hy
        obtain ⟨b, hb, rfl⟩ := hy
        rw [if_neg]
        intro hb'
        exact (List.pairwise_cons.1 hs).1 b hb ⟨h.2.trans hb'.2.symm, h.1.trans hb'.1.symm⟩
      rw [List.find?_cons_of_pos (by simp [h.1, h.2, hi])]
      simp [h.1, h.2, h0]
    · rw [List.find?_cons_of_neg (by
        simp only [decide_eq_true_eq]; intro hh; exact h ⟨hh.1, hh.2.1⟩)]
      rw [ih hs']
      simp [h]

theorem sinkCost_nonneg {E : List Arc} (hE : NonnegE E) (ns : List ℕ) (l i : ℕ) :
    0 ≤ sinkCost E ns l i := by
  unfold sinkCost
  split
  · rename_i a ha
    exact hE a (List.mem_of_find?_eq_some ha)
  · exact le_rfl

theorem max_neg_eq (x : ℚ) : (if x < 0 then -x else 0) = max 0 x - x := by
  split
  · rw [max_eq_left (by linarith)]; ring
  · rw [max_eq_right (by linarith)]; ring

/-- Contribution of the terminal arcs to a cut. -/
theorem terminalArcs_cut (c x : ℕ → ℚ) (hc : ∀ i, 0 ≤ c i) (ns : List ℕ) (X : Finset ℕ) :
    ((terminalArcs c ns (ns.map x)).map fun e =>
        if e.a.onSink X = false ∧ e.b.onSink X = true then e.cap else 0).sum =
      (ns.map fun i => if i ∈ X then max 0 (x i) - x i else max 0 (x i) + c i).sum := by
  induction ns with
  | nil => simp [terminalArcs]
  | cons i ns ih =>
    simp only [List.map_cons, terminalArcs, List.map_append, List.sum_append, List.sum_cons, ih]
    congr 1
    have hm : 0 ≤ max 0 (x i) := le_max_left _ _
    have hmc : 0 ≤ max 0 (x i) + c i := add_nonneg hm (hc i)
    by_cases hi : i ∈ X
    · have h2 : (if 0 < max 0 (x i) + c i then
          [(⟨.v i, .snk, max 0 (x i) + c i⟩ : NArc)] else []).map (fun e =>
          if e.a.onSink X = false ∧ e.b.onSink X = true then e.cap else 0) =
          (if 0 < max 0 (x i) + c i then [0] else []) := by
        split <;> simp [NV.onSink, hi]
      rw [h2, if_pos hi, ← max_neg_eq]
      split <;> split <;> simp [NV.onSink, hi]
    · rw [if_neg hi]
      have h1 : ((if x i < 0 then [(⟨.src, .v i, -x i⟩ : NArc)] else []).map (fun e =>
          if e.a.onSink X = false ∧ e.b.onSink X = true then e.cap else 0)).sum = 0 := by
        split <;> simp [NV.onSink, hi]
      rw [h1, zero_add]
      split
      · simp [NV.onSink, hi]
      · simp; linarith

theorem list_sum_toFinset {ns : List ℕ} (hn : ns.Nodup) (w : ℕ → ℚ) :
    (ns.map w).sum = ∑ i ∈ ns.toFinset, w i := (List.sum_toFinset w hn).symm

/-- The capacity of a cut of the network is the quantity to be minimised, up to the constant. -/
theorem dilworthNet_cutCap {E : List Arc} (hs : SimpleE E) (hE : NonnegE E) {done : List ℕ}
    (hn : done.Nodup) {l : ℕ} (hl : l ∉ done)
    (hpre : ∀ e ∈ E, e.dst ∈ done ∨ e.dst = l → e.src ∈ done) (x : ℕ → ℚ) {X : Finset ℕ}
    (hX : X ⊆ done.toFinset) :
    (dilworthNet E (sinkCost E done l) done (done.map x)).cutCap X =
      getCutValue E (insert l X) - vsum x X + (done.map fun i => max 0 (x i)).sum := by
  unfold Net.cutCap dilworthNet
  simp only [List.map_append, List.sum_append]
  rw [terminalArcs_cut _ _ (fun i => sinkCost_nonneg hE done l i)]
  have hint : ((interiorArcs E done).map fun e =>
      if e.a.onSink X = false ∧ e.b.onSink X = true then e.cap else 0).sum =
      (E.map fun a => if a.src ∉ X ∧ a.dst ∈ X then a.cap else 0).sum := by
    unfold interiorArcs
    rw [List.map_map, sum_filter_map]
    congr 1
    apply List.map_congr_left
    intro a ha
    by_cases h1 : a.src ∈ X <;> by_cases h2 : a.dst ∈ X
    · simp [NV.onSink, h1]
    · simp [NV.onSink, h1]
    · have hd : a.dst ∈ done := List.mem_toFinset.1 (hX h2)
      simp [NV.onSink, h1, h2, hd, hpre a ha (Or.inl hd)]
    · simp [NV.onSink, h2]
  rw [hint]
  have hterm : (done.map fun i => if i ∈ X then max 0 (x i) - x i
        else max 0 (x i) + sinkCost E done l i).sum =
      (done.map fun i => max 0 (x i)).sum - vsum x X +
        (E.map fun a => if a.dst = l ∧ a.src ∉ X then a.cap else 0).sum := by
    have hsplit : (done.map fun i => if i ∈ X then max 0 (x i) - x i
        else max 0 (x i) + sinkCost E done l i) =
        done.map fun i => max 0 (x i) +
          ((if i ∈ X then - x i else 0) + (if i ∈ X then 0 else sinkCost E done l i)) := by
      apply List.map_congr_left
      intro i _
      split <;> ring
    rw [hsplit, List.sum_map_add, List.sum_map_add]
    have hA : (done.map fun i => if i ∈ X then - x i else 0).sum = - vsum x X := by
      rw [list_sum_toFinset hn]
      unfold vsum
      rw [← Finset.sum_filter, ← Finset.sum_neg_distrib]
      congr 1
      ext v
      simp only [Finset.mem_filter]
      exact ⟨fun h => h.2, fun h => ⟨hX h, h⟩⟩
    have hB : (done.map fun i => if i ∈ X then 0 else sinkCost E done l i).sum =
        (E.map fun a => if a.dst = l ∧ a.src ∉ X then a.cap else 0).sum := by
      have : (done.map fun i => if i ∈ X then 0 else sinkCost E done l i) =
          done.map fun i => if i ∈ X then 0 else
            (E.map fun a => if a.dst = l ∧ a.src = i then a.cap else 0).sum := by
        apply List.map_congr_left
        intro i hi
        rw [sinkCost_eq hs hi]
      rw [this, list_sum_toFinset hn]
      have hpre' : ∀ e ∈ E, e.dst = l → e.src ∈ done := fun e he h => hpre e he (Or.inr h)
      clear this hsplit hint hs hE hpre
      induction E with
      | nil => simp
      | cons a E ih =>
        have ih := ih fun e he => hpre' e (List.mem_cons_of_mem _ he)
        simp only [List.map_cons, List.sum_cons]
        rw [← ih]
        have hdis : ∀ i, (if i ∈ X then (0:ℚ) else (if a.dst = l ∧ a.src = i then a.cap else 0) +
            (E.map fun a => if a.dst = l ∧ a.src = i then a.cap else 0).sum) =
            (if i ∈ X then 0 else if a.dst = l ∧ a.src = i then a.cap else 0) +
            (if i ∈ X then 0 else
              (E.map fun a => if a.dst = l ∧ a.src = i then a.cap else 0).sum) := by
          intro i; split <;> simp
        simp only [hdis]
        rw [Finset.sum_add_distrib]
        congr 1
        by_cases hd : a.dst = l
        · have hsrc := hpre' a List.mem_cons_self hd
          rw [Finset.sum_eq_single a.src]
          · by_cases h : a.src ∈ X <;> simp [h, hd]
          · intro b _ hb
            have : ¬ a.src = b := fun h => hb h.symm
            simp [this]
          · intro h; exact absurd (List.mem_toFinset.2 hsrc) h
        · simp [hd]
    rw [hA, hB]
    ring
  rw [hterm]
  unfold getCutValue
  have hfin : (E.map fun a => if a.src ∉ insert l X ∧ a.dst ∈ insert l X then a.cap else 0).sum =
      (E.map fun a => if a.src ∉ X ∧ a.dst ∈ X then a.cap else 0).sum +
      (E.map fun a => if a.dst = l ∧ a.src ∉ X then a.cap else 0).sum := by
    apply list_sum_ite_add
    intro a ha
    by_cases hd : a.dst = l
    · have hsrc : a.src ∈ done := hpre a ha (Or.inr hd)
      have hne : a.src ≠ l := fun h => hl (h ▸ hsrc)
      have hlX : l ∉ X := fun h => hl (List.mem_toFinset.1 (hX h))
      by_cases h1 : a.src ∈ X
      · simp [h1]
      · simp [hd, h1, hne, hlX]
    · by_cases h2 : a.dst ∈ X
      · have hdd : a.dst ∈ done := List.mem_toFinset.1 (hX h2)
        have hsrc : a.src ∈ done := hpre a ha (Or.inl hdd)
        have hne : a.src ≠ l := fun h => hl (h ▸ hsrc)
        simp [hd, h2, hne]
      · simp [hd, h2]
  rw [hfin]
  ring

theorem dilworthNet_nonneg {E : List Arc} (hE : NonnegE E) (c : ℕ → ℚ) (ns : List ℕ)
    (xl : List ℚ) : (dilworthNet E c ns xl).Nonneg := by
  intro e he
  rcases List.mem_append.1 he with he | he
  · unfold interiorArcs at he
    rw [List.mem_map] at he
    obtain ⟨a, ha, rfl⟩ := he
    exact hE a (List.mem_filter.1 ha).1
  · induction ns generalizing xl with
    | nil => simp [terminalArcs] at he
    | cons i ns ih =>
      cases xl with
      | nil => simp [terminalArcs] at he
      | cons y xl =>
        simp only [terminalArcs, List.mem_append] at he
        rcases he with (he | he) | he
        · split at he
          · simp at he; subst he; simp; linarith
          · simp at he
        · split at he
          · simp at he; subst he; simp; linarith
          · simp at he
        · exact ih xl (by simp [dilworthNet, he]) he

theorem cut_submodular {E : List Arc} (hE : NonnegE E) : Submodular (getCutValue E) :=
  fun S T _ => cutValue_submodular hE S T

/-- What `minimize` returns: a minimiser and the minimum. -/
theorem minimizeI_spec {S : FlowSolver} (hS : S.Correct) {E : List Arc} (hs : SimpleE E)
    (hE : NonnegE E) {done : List ℕ} (hn : done.Nodup) {l : ℕ} (hl : l ∉ done)
    (hpre : ∀ e ∈ E, e.dst ∈ done ∨ e.dst = l → e.src ∈ done) (lam : ℚ) (x : ℕ → ℚ)
    {v : ℚ} {X : Finset ℕ} (h : minimizeI S E lam done l (done.map x) = (v, X)) :
    X ⊆ done.toFinset ∧ v = getCutValue E (insert l X) - lam - vsum x X ∧
    (∀ Y ⊆ done.toFinset, getCutValue E (insert l X) - vsum x X ≤
        getCutValue E (insert l Y) - vsum x Y) ∧
    (S.Minimal → ∀ Y ⊆ done.toFinset, getCutValue E (insert l X) - vsum x X =
        getCutValue E (insert l Y) - vsum x Y → X ⊆ Y) := by
  unfold minimizeI at h
  simp only [Prod.mk.injEq] at h
  obtain ⟨hv, hXe⟩ := h
  set N := dilworthNet E (sinkCost E done l) done (done.map x) with hN
  have hNn : N.Nonneg := dilworthNet_nonneg hE _ _ _
  have hverts : N.verts = done.toFinset := rfl
  have hX : X ⊆ done.toFinset := by
    rw [← hXe, ← hverts]; exact Finset.filter_subset _ _
  have hcut : ∀ Y ⊆ done.toFinset, N.cutCap Y = getCutValue E (insert l Y) - vsum x Y +
      (done.map fun i => max 0 (x i)).sum := fun Y hY => dilworthNet_cutCap hs hE hn hl hpre x hY
  have hval := hS.value_eq N hNn
  rw [hXe, hcut X hX] at hval
  have hle : ∀ Y ⊆ done.toFinset, S.flowValue N ≤ N.cutCap Y := fun Y hY => hS.le_cut N hNn Y hY
  refine ⟨hX, ?_, ?_, ?_⟩
  · rw [← hv, hval]
    unfold constDifference
    rw [List.map_map]
    simp only [Function.comp_def]
    ring
  · intro Y hY
    have := hle Y hY
    rw [hval, hcut Y hY] at this
    linarith
  · intro hM Y hY heq
    rw [← hXe]
    apply hM.minimal N hNn Y hY
    rw [hcut Y hY, hval, heq]

/-- The main invariant of `DilworthTruncation::run`. -/
theorem runLoopI_spec {S : FlowSolver} (hS : S.Correct) {E : List Arc} (hs : SimpleE E)
    (hE : NonnegE E) (lam : ℚ) (rest : List ℕ) :
    ∀ (done : List ℕ) (x : ℕ → ℚ) (P : Partition), (done ++ rest).Nodup →
    (∀ a l b, done ++ rest = a ++ l :: b → ∀ e ∈ E, e.dst ∈ a ∨ e.dst = l → e.src ∈ a) →
    DInv (getCutValue E) lam done.toFinset x P →
    ∃ x' : ℕ → ℚ, (runLoopI S E lam done rest (done.map x) P).1 = (done ++ rest).map x' ∧
      DInv (getCutValue E) lam (done ++ rest).toFinset x'
        (runLoopI S E lam done rest (done.map x) P).2 ∧
      (S.Minimal → FinestTight (getCutValue E) lam done.toFinset x P →
        FinestTight (getCutValue E) lam (done ++ rest).toFinset x'
          (runLoopI S E lam done rest (done.map x) P).2) := by
  induction rest with
  | nil =>
    intro done x P _ _ hD
    exact ⟨x, by simp [runLoopI], by simpa [runLoopI] using hD, by simp [runLoopI]⟩
  | cons l rest ih =>
    intro done x P hn hpre hD
    have hn1 : done.Nodup := (List.nodup_append.1 hn).1
    have hl : l ∉ done := by
      intro hl
      exact (List.nodup_append.1 hn).2.2 l hl l List.mem_cons_self rfl
    have hpre1 : ∀ e ∈ E, e.dst ∈ done ∨ e.dst = l → e.src ∈ done := hpre done l rest rfl
    obtain ⟨v, X, hr⟩ : ∃ v X, minimizeI S E lam done l (done.map x) = (v, X) := ⟨_, _, rfl⟩
    obtain ⟨hX, hv, hmin, hminimal⟩ := minimizeI_spec hS hs hE hn1 hl hpre1 lam x hr
    let x' := Function.update x l v
    have hx' : ∀ i ∈ done.toFinset, x' i = x i := by
      intro i hi
      have : i ≠ l := fun h => hl (h ▸ List.mem_toFinset.1 hi)
      simp [x', this]
    have hval : x' l = getCutValue E (insert l X) - lam - vsum x X := by
      simp only [x', Function.update_self]; exact hv
    have hl' : l ∉ done.toFinset := fun h => hl (List.mem_toFinset.1 h)
    have hD' := hD.step (cut_submodular hE) hl' hX hx' hval hmin
    have hset : insert l done.toFinset = (done ++ [l]).toFinset := by
      ext v; simp
    rw [hset] at hD'
    have happ : done ++ l :: rest = (done ++ [l]) ++ rest := by simp
    have hmap : done.map x ++ [v] = (done ++ [l]).map x' := by
      rw [List.map_append]
      congr 1
      · apply List.map_congr_left
        intro i hi
        exact (hx' i (List.mem_toFinset.2 hi)).symm
      · simp [x']
    obtain ⟨y, hy1, hy2, hy3⟩ := ih (done ++ [l]) x' (expand P (insert l X))
      (by rwa [← happ]) (by rwa [← happ]) hD'
    have hrun : runLoopI S E lam done (l :: rest) (done.map x) P =
        runLoopI S E lam (done ++ [l]) rest ((done ++ [l]).map x') (expand P (insert l X)) := by
      conv_lhs => unfold runLoopI
      simp only [hr, hmap]
    refine ⟨y, ?_, ?_, ?_⟩
    · rw [hrun, happ]; exact hy1
    · rw [hrun, happ]; exact hy2
    · intro hM hfin
      rw [hrun, happ]
      apply hy3 hM
      rw [← hset]
      exact hfin.step (cut_submodular hE) hD hl' hX hx' hval hmin (hminimal hM)

theorem prefix_closed {E : List Arc} {ns : List ℕ} (hsort : ns.Pairwise (· < ·))
    (hlow : ∀ e ∈ E, e.src < e.dst) (hW : Within E ns.toFinset) :
    ∀ a l b, ns = a ++ l :: b → ∀ e ∈ E, e.dst ∈ a ∨ e.dst = l → e.src ∈ a := by
  intro a l b hns e he hd
  have hsrc : e.src ∈ ns := List.mem_toFinset.1 (hW e he).1
  have hlt := hlow e he
  have hdl : e.dst ≤ l := by
    rcases hd with hd | hd
    · subst hns
      exact le_of_lt ((List.pairwise_append.1 hsort).2.2 _ hd _ List.mem_cons_self)
    · exact le_of_eq hd
  subst hns
  rcases List.mem_append.1 hsrc with h | h
  · exact h
  · exfalso
    rcases List.mem_cons.1 h with h | h
    · omega
    · have := (List.pairwise_cons.1 (List.pairwise_append.1 hsort).2.1).1 _ h
      omega

/-- Correctness of `DilworthTruncation::run` on a well-formed graph. -/
theorem dilworthI_correct {S : FlowSolver} (hS : S.Correct) {E : List Arc} {ns : List ℕ}
    (hsort : ns.Pairwise (· < ·)) (hG : GoodGraph E ns.toFinset) (lam : ℚ) :
    IsOptimal E ns.toFinset lam (dilworthI S E lam ns).2 ∧
    (dilworthI S E lam ns).1 = cost E lam (dilworthI S E lam ns).2 ∧
    (S.Minimal → ∀ R, IsOptimal E ns.toFinset lam R → Refines (dilworthI S E lam ns).2 R) := by
  obtain ⟨x, hx1, hx2, hx3⟩ := runLoopI_spec hS hG.simple hG.nonneg lam ns [] (fun _ => 0) ∅
    (by rw [List.nil_append]; exact hsort.imp (fun h => Nat.ne_of_lt h))
    (by simpa using prefix_closed hsort hG.lowHigh hG.within) (by simpa using DInv.empty)
  simp only [List.map_nil, List.nil_append] at hx1 hx2 hx3
  set r := runLoopI S E lam [] ns [] ∅ with hr
  have hcost : ∀ R, IsPartition ns.toFinset R →
      ∑ B ∈ R, (getCutValue E B - lam) = cost E lam R := by
    intro R hR
    rw [Finset.sum_sub_distrib]
    unfold cost
    rw [← partitionValue_eq_crossWeight (fun e he => (hG.within e he).2) hR]
    simp [getPartitionValue, mul_comm]
  have hn : ns.Nodup := hsort.imp (fun h => Nat.ne_of_lt h)
  have hsum : r.1.sum = vsum x ns.toFinset := by
    rw [hx1, list_sum_toFinset hn]; rfl
  have hval : vsum x ns.toFinset = cost E lam r.2 := by
    rw [tight_sum hx2.part hx2.tight, hcost _ hx2.part]
  refine ⟨⟨hx2.part, fun R hR => ?_⟩, ?_, ?_⟩
  · show cost E lam r.2 ≤ _
    rw [← hval, ← hcost R hR]
    exact poly_le hx2.poly hR
  · show r.1.sum = cost E lam r.2
    rw [hsum, hval]
  · intro hM R hR
    have hf := hx3 hM (by simpa using FinestTight.empty)
    apply hf R hR.1
    apply tight_of_sum hx2.poly hR.1
    rw [hcost R hR.1, hval]
    exact le_antisymm (by rw [← hval, ← hcost R hR.1]; exact poly_le hx2.poly hR.1) (hR.2 _ hx2.part)

end PSP.Theory
