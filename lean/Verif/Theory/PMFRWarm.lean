import Verif.Theory.FlowWarm
import Verif.Theory.PMFREq

/-!
# `PMF_R` with its starting points
-/

namespace PSP.Theory

open PSP.Spec PSP.Model

open scoped Nat

variable {E : List Arc} {ε : ℚ} {j : ℕ} {y : ℕ → YPair} {lam : ℚ} {X V Xl Xr Xlc Xrc : Finset ℕ}
  {arcs : List NArc} {base : ℕ → ℚ × ℚ}

/-! ### starting points -/

/-- The flow of an arc after `modify_flow`. -/
def clampAt (e : NArc) (q : ℚ) : ℚ := if (e.b = .snk ∨ e.a = .src) ∧ e.cap < q then e.cap else q

theorem zip_clamp {f : List ℚ} (hf : f.length = arcs.length) :
    (updateDig y lam base arcs).zip (clampFlow (updateDig y lam base arcs) f) =
      (arcs.zip f).map fun z => (updateArc y lam base z.1, clampAt (updateArc y lam base z.1) z.2) := by
  have h1 : clampFlow (updateDig y lam base arcs) f =
      (arcs.zip f).map fun z => clampAt (updateArc y lam base z.1) z.2 := by
    unfold clampFlow
    rw [zip_updateDig, List.map_map]
    rfl
  have h2 : updateDig y lam base arcs = (arcs.zip f).map fun z => updateArc y lam base z.1 := by
    unfold updateDig
    conv_lhs => rw [← List.map_fst_zip (l₁ := arcs) (l₂ := f) (by omega)]
    rw [List.map_map]
    rfl
  rw [h1]
  conv_lhs => rw [h2]
  rw [List.zip_map']

theorem srcCap_mono {l m : ℚ} (h : l ≤ m) (i : ℕ) : srcCap y l base i ≤ srcCap y m base i := by
  have := yVal_anti h (y i)
  unfold srcCap
  split <;> split <;> linarith

theorem snkCap_anti {l m : ℚ} (h : l ≤ m) (i : ℕ) : snkCap y m base i ≤ snkCap y l base i := by
  have := yVal_anti h (y i)
  unfold snkCap
  have := max_le_max_left 0 this
  linarith

theorem updateArc_cap_other (e : NArc) (l m : ℚ) (h : ¬ (e.b = .snk ∨ e.a = .src)) :
    (updateArc y l base e).cap = (updateArc y m base e).cap := by
  obtain ⟨a, b, c⟩ := e
  cases a <;> cases b <;> simp at h <;> rfl

theorem clamp_bounds {f : List ℚ} {l : ℚ} (hf : FInv y base l arcs X f)
    (hn : ∀ e ∈ updateDig y lam base arcs, 0 ≤ e.cap) : ∀ z ∈ arcs.zip f,
    0 ≤ clampAt (updateArc y lam base z.1) z.2 ∧
      clampAt (updateArc y lam base z.1) z.2 ≤ (updateArc y lam base z.1).cap := by
  intro z hz
  have h0 := hf.nonneg z hz
  have h1 := hn _ (List.mem_map.2 ⟨z.1, (List.of_mem_zip hz).1, rfl⟩)
  unfold clampAt
  rw [(updateArc_ab z.1).1, (updateArc_ab z.1).2.1]
  by_cases hc : z.1.b = .snk ∨ z.1.a = .src
  · by_cases hlt : (updateArc y lam base z.1).cap < z.2
    · rw [if_pos ⟨hc, hlt⟩]; exact ⟨h1, le_rfl⟩
    · rw [if_neg (fun h => hlt h.2)]; exact ⟨h0, not_lt.1 hlt⟩
  · rw [if_neg (fun h => hc h.1)]
    refine ⟨h0, ?_⟩
    rw [updateArc_cap_other z.1 lam l hc]
    exact hf.cap z hz fun h => hc (Or.inr h.1)

theorem clamp_le (e : NArc) (q : ℚ) : clampAt e q ≤ q := by
  unfold clampAt
  split
  · rename_i h; exact h.2.le
  · exact le_rfl

/-- **What the left thread is started with is a preflow** (apart from the sink). -/
theorem left_start {f : List ℚ} {l : ℚ} (hf : FInv y base l arcs X f) (hl : l ≤ lam)
    (hn : ∀ e ∈ updateDig y lam base arcs, 0 ≤ e.cap) (W : Finset ℕ) :
    IsStart ⟨W, updateDig y lam base arcs⟩ (clampFlow (updateDig y lam base arcs) f) := by
  have hb := clamp_bounds hf hn
  refine ⟨?_, ?_, ?_⟩
  · simp [clampFlow, updateDig, hf.length]
  · dsimp only
    rw [zip_clamp hf.length]
    intro z hz
    obtain ⟨w, hw, rfl⟩ := List.mem_map.1 hz
    exact hb w hw
  · intro i
    dsimp only
    rw [excess_eq, zip_clamp hf.length, ← hf.conserve i]
    unfold exc
    rw [List.map_map]
    apply List.sum_le_sum
    intro z hz
    simp only [Function.comp, (updateArc_ab z.1).1, (updateArc_ab z.1).2.1]
    have h1 := clamp_le (updateArc y lam base z.1) z.2
    have h2 : z.1.b = .v i → clampAt (updateArc y lam base z.1) z.2 = z.2 := by
      intro hv
      unfold clampAt
      rw [if_neg]
      rintro ⟨h3 | h3, h4⟩
      · rw [(updateArc_ab z.1).2.1, hv] at h3; simp at h3
      · rw [(updateArc_ab z.1).1] at h3
        have h5 := hf.cap z hz (by rw [hv]; simp)
        obtain ⟨⟨a, b, c⟩, q⟩ := z
        dsimp only at hv h3
        subst hv h3
        have h6 := srcCap_mono (y := y) (base := base) hl i
        have h7 : q ≤ srcCap y l base i := h5
        have h8 : srcCap y lam base i < q := h4
        linarith
    by_cases h3 : z.1.b = .v i
    · rw [if_pos h3, if_pos h3, h2 h3]
    · rw [if_neg h3, if_neg h3]
      split <;> linarith

theorem zip_rev (as : List NArc) (f : List ℚ) (W : Finset ℕ) : (Net.rev ⟨W, as⟩).arcs.zip f =
    (as.zip f).map fun z => (⟨z.1.b.swap, z.1.a.swap, z.1.cap⟩, z.2) := by
  unfold Net.rev
  rw [List.zip_map_left]
  rfl

theorem swap_eq_v (x : NV) (i : ℕ) : x.swap = .v i ↔ x = .v i := by
  cases x <;> simp [NV.swap]

theorem exc_rev (as : List NArc) (f : List ℚ) (W : Finset ℕ) (i : ℕ) :
    excess (Net.rev ⟨W, as⟩).arcs f (.v i) = - excess as f (.v i) := by
  rw [excess_eq, excess_eq, zip_rev]
  unfold exc
  rw [List.map_map, eq_neg_iff_add_eq_zero, ← List.sum_map_add]
  apply List.sum_eq_zero
  intro q hq
  obtain ⟨z, hz, rfl⟩ := List.mem_map.1 hq
  simp only [Function.comp, swap_eq_v]
  ring

/-- **What the right thread is started with is a preflow of the reversed network** (apart from the sink). -/
theorem right_start {f : List ℚ} {l : ℚ} (hf : FInv y base l arcs X f) (hl : lam ≤ l)
    (hn : ∀ e ∈ updateDig y lam base arcs, 0 ≤ e.cap) (W : Finset ℕ) :
    IsStart (Net.rev ⟨W, updateDig y lam base arcs⟩) (clampFlow (updateDig y lam base arcs) f) := by
  have hb := clamp_bounds hf hn
  refine ⟨?_, ?_, ?_⟩
  · simp [clampFlow, updateDig, hf.length, Net.rev]
  · rw [zip_rev, zip_clamp hf.length, List.map_map]
    intro z hz
    obtain ⟨w, hw, rfl⟩ := List.mem_map.1 hz
    exact hb w hw
  · intro i
    rw [exc_rev, le_neg, neg_zero, excess_eq, zip_clamp hf.length, ← hf.conserve i]
    unfold exc
    rw [List.map_map]
    apply List.sum_le_sum
    intro z hz
    simp only [Function.comp, (updateArc_ab z.1).1, (updateArc_ab z.1).2.1]
    have h1 := clamp_le (updateArc y lam base z.1) z.2
    have h2 : z.1.a = .v i → clampAt (updateArc y lam base z.1) z.2 = z.2 := by
      intro hv
      unfold clampAt
      rw [if_neg]
      rintro ⟨h3 | h3, h4⟩
      · rw [(updateArc_ab z.1).2.1] at h3
        have h5 := hf.cap z hz (by rw [hv]; simp)
        obtain ⟨⟨a, b, c⟩, q⟩ := z
        dsimp only at hv h3
        subst hv h3
        have h6 := snkCap_anti (y := y) (base := base) hl i
        have h7 : q ≤ snkCap y l base i := h5
        have h8 : snkCap y lam base i < q := h4
        linarith
      · rw [(updateArc_ab z.1).1, hv] at h3; simp at h3
    by_cases h3 : z.1.a = .v i
    · rw [if_pos h3, if_pos h3, h2 h3]
    · rw [if_neg h3, if_neg h3]
      split <;> linarith

/-! ### the solvers -/

/-- Which schedules are considered: all, those in which only the left thread ever delivers, or those in
which only the right thread does. -/
inductive SchedMode where
  | any | left | right

def SchedMode.okW : SchedMode → Net → HLStart → Prop
  | .left => FitStart
  | _ => AnyStart

def SchedMode.okQ : SchedMode → Net → HLStart → Prop
  | .right => FitStart
  | _ => AnyStart

def SchedMode.Allows : SchedMode → (CSet → CSet → Finish × Bool) → Prop
  | .any, _ => True
  | .left, sched => ∀ A B, (sched A B).1 = .left
  | .right, sched => ∀ A B, (sched A B).1 = .right

/-- The elevators of the deciding thread fit, unless the network is about to be contracted. -/
def SchedMode.Inv : SchedMode → Finset ℕ → Bool → RWarm → Prop
  | .any, _, _, _ => True
  | .left, V, c, w => c = false → EleFits V w.leftEle
  | .right, V, c, w => c = false → EleFits V w.rightEle

theorem EleFits.out {V : Finset ℕ} {e : Option (Finset ℕ)} (h : EleFits V e) (done copied : Bool) :
    EleFits V (eleOut V done copied e) := by
  intro s hs
  cases e with
  | none =>
    simp only [eleOut] at hs
    split at hs <;> simp_all
  | some x =>
    simp only [eleOut] at hs
    split at hs
    · exact h s hs
    · cases hs

theorem SchedMode.Inv.startW {m : SchedMode} {N : Net} {c : Bool} {w : RWarm} (h : m.Inv N.verts c w)
    {f : List ℚ} (hf : IsStart N f) : m.okW N ⟨f, if c then none else w.leftEle⟩ := by
  cases m with
  | left =>
    refine ⟨hf, ?_⟩
    cases c with
    | true => intro s hs; simp at hs
    | false => exact h rfl
  | _ => exact hf

theorem SchedMode.Inv.startQ {m : SchedMode} {N : Net} {c : Bool} {w : RWarm} (h : m.Inv N.verts c w)
    {f : List ℚ} (hf : IsStart N f) : m.okQ N ⟨f, if c then none else w.rightEle⟩ := by
  cases m with
  | right =>
    refine ⟨hf, ?_⟩
    cases c with
    | true => intro s hs; simp at hs
    | false => exact h rfl
  | _ => exact hf

theorem Proper_rev {N : Net} (h : N.Proper) : N.rev.Proper := by
  refine ⟨?_, ?_, ?_⟩
  · intro e he
    obtain ⟨e', he', rfl⟩ := List.mem_map.1 he
    exact h.nonneg e' he'
  · intro e he i hi
    obtain ⟨e', he', rfl⟩ := List.mem_map.1 he
    exact h.head e' he' i ((swap_eq_v _ _).1 hi)
  · intro e he i hi
    obtain ⟨e', he', rfl⟩ := List.mem_map.1 he
    exact h.tail e' he' i ((swap_eq_v _ _).1 hi)

section Solver

variable {ok : Net → HLStart → Prop} {W Q : HLSolver} {N : Net} {s : Option HLStart}

theorem HL_left_ok (hW : W.LeastSink ok) (hN : N.Proper) (hs : ∀ t, s = some t → ok N t) :
    ResultOk N (W.sinkSide N s) (W.run N s).value := by
  refine ⟨Finset.filter_subset _ _, hW.value_eq N s hN hs, ?_, hW.least N s hN hs⟩
  intro Z _
  rw [← hW.flow_value N s hN hs]
  exact IsFlow.le_cut (hW.flow N s hN hs) Z

theorem sinkSide_eq : Q.sinkSide N s = N.verts \ Q.srcSide N s := by
  ext v
  simp only [HLSolver.sinkSide, HLSolver.srcSide, Finset.mem_sdiff, Finset.mem_filter]
  cases (Q.run N s).minCut v <;> simp

theorem HL_right_ok (hQ : Q.LeastSource ok) (hN : N.Proper) (hs : ∀ t, s = some t → ok N.rev t) :
    ResultOk N (Q.srcSide N.rev s) (Q.run N.rev s).value := by
  have hR := Proper_rev hN
  have hcut : ∀ Z, N.rev.cutCap (N.verts \ Z) = N.cutCap Z := rev_cut hN.tail hN.head
  refine ⟨Finset.filter_subset _ _, ?_, ?_, ?_⟩
  · rw [hQ.value_eq N.rev s hR hs, sinkSide_eq]
    exact hcut _
  · intro Z _
    rw [← hcut, ← hQ.flow_value N.rev s hR hs]
    exact IsFlow.le_cut (hQ.flow N.rev s hR hs) _
  · intro Z hZ h
    rw [← hcut] at h
    have := hQ.least N.rev s hR hs _ Finset.sdiff_subset h
    rwa [show N.rev.verts = N.verts from rfl, Finset.sdiff_sdiff_eq_self hZ] at this

end Solver

theorem ResultOk.unique {N : Net} {X X' : Finset ℕ} {v v' : ℚ} (h : ResultOk N X v) (h' : ResultOk N X' v') :
    X = X' ∧ v = v' := by
  have hv : v = v' := by
    apply le_antisymm
    · rw [h'.value_eq]; exact h.le _ h'.sub
    · rw [h.value_eq]; exact h'.le _ h.sub
  refine ⟨Finset.Subset.antisymm (h.least _ h'.sub ?_) (h'.least _ h.sub ?_), hv⟩
  · rw [hv, h'.value_eq]
  · rw [← hv, h.value_eq]

/-- The flow of a solver belongs to the parameter it was computed for. -/
theorem flow_FInv {f : List ℚ} (hinv : RInv E V arcs) {T : Finset ℕ} (hT : X = T ∩ V) (W : Finset ℕ)
    (hf : IsFlow ⟨W, updateDig y lam base arcs⟩ f)
    (hs : ∀ e ∈ (updateDig y lam base arcs).zip f, e.1.a.onSink X = true → e.1.b.onSink X = false → e.2 = 0) :
    FInv y base lam arcs T f := by
  have hz := zip_updateDig (y := y) (lam := lam) (base := base) (arcs := arcs) f
  have hmem : ∀ z ∈ arcs.zip f, (updateArc y lam base z.1, z.2) ∈ (updateDig y lam base arcs).zip f :=
    fun z hm => hz ▸ List.mem_map.2 ⟨z, hm, rfl⟩
  have hb := hf.bounds
  have hon : ∀ x : NV, (∀ i, x = .v i → i ∈ V) → x.onSink T = x.onSink X := by
    intro x hx
    cases x with
    | src => rfl
    | snk => rfl
    | v i => simp [NV.onSink, hT, hx i rfl]
  refine ⟨by simpa [updateDig] using hf.length, fun z hm => (hb _ (hmem z hm)).1,
    fun z hm _ => (hb _ (hmem z hm)).2, ?_, ?_⟩
  · intro i
    rw [← exc_updateDig (y := y) (lam := lam) (base := base)]
    exact hf.conserve i
  · intro z hm h1 h2
    have h3 := (List.of_mem_zip hm).1
    rw [hon _ (hinv.left _ h3)] at h1
    rw [hon _ (hinv.right _ h3)] at h2
    exact hs (updateArc y lam base z.1, z.2) (hmem z hm) (by rw [(updateArc_ab z.1).1]; exact h1) (by rw [(updateArc_ab z.1).2.1]; exact h2)

theorem IsFlow_rev {W : Finset ℕ} {f : List ℚ} (h : IsFlow (Net.rev ⟨W, arcs⟩) f) : IsFlow ⟨W, arcs⟩ f := by
  refine ⟨?_, ?_, ?_⟩
  · have := h.length
    simpa [Net.rev] using this
  · intro z hz
    exact h.bounds (⟨z.1.b.swap, z.1.a.swap, z.1.cap⟩, z.2) (zip_rev arcs f W ▸ List.mem_map.2 ⟨z, hz, rfl⟩)
  · intro i
    have := h.conserve i
    rw [exc_rev] at this
    exact neg_eq_zero.1 this

theorem slack_rev {W : Finset ℕ} {f : List ℚ} (hl : ∀ e ∈ arcs, ∀ i, e.a = .v i → i ∈ W)
    (hr : ∀ e ∈ arcs, ∀ i, e.b = .v i → i ∈ W) (h : IsFlow (Net.rev ⟨W, arcs⟩) f)
    (hv : (Net.mk W arcs).cutCap X = excess (Net.rev ⟨W, arcs⟩).arcs f .snk) :
    ∀ e ∈ arcs.zip f, e.1.a.onSink X = true → e.1.b.onSink X = false → e.2 = 0 := by
  have hcut : (Net.rev ⟨W, arcs⟩).cutCap (W \ X) = (Net.mk W arcs).cutCap X :=
    rev_cut (N := ⟨W, arcs⟩) hl hr X
  have hs := IsFlow.slack h (X := W \ X) (hcut.trans hv)
  intro e he h1 h2
  have h3 := (List.of_mem_zip he).1
  refine hs (⟨e.1.b.swap, e.1.a.swap, e.1.cap⟩, e.2) (zip_rev arcs f W ▸ List.mem_map.2 ⟨e, he, rfl⟩) ?_ ?_
  · dsimp only
    rw [onSink_swap X W e.1.b (hr _ h3), h2]; rfl
  · dsimp only
    rw [onSink_swap X W e.1.a (hl _ h3), h1]; rfl

/-! ### `slice` -/

/-- The arcs handed back by `slice` differ from those it got in the capacities set by `update_dig` only. -/
theorem pmfrSlice_arcs {S : FlowSolver} {R : SrcSolver} {finish : CSet → CSet → Finish} :
    ∀ (k : ℕ) (G : RNet) (Tl Tr : CSet) (lam1 lam3 : ℚ) (c : Bool) sets lams as,
    pmfrSlice S R ε E j y finish k G Tl Tr lam1 lam3 c = .ok (sets, lams, as) →
    ∀ l, updateDig y l G.base as = updateDig y l G.base G.arcs := by
  intro k
  induction k with
  | zero => intro G Tl Tr lam1 lam3 c sets lams as h; simp [pmfrSlice] at h
  | succ k ih =>
    intro G Tl Tr lam1 lam3 c sets lams as h l
    rw [pmfrSlice] at h
    dsimp only at h
    generalize computeLambda ε (((List.range (j + 1)).filter fun i => i ∈ Tl ∧ i ∉ Tr).map y)
      (getCutValue E Tl - getCutValue E Tr) = o at h
    cases o with
    | ok lam2 =>
      simp only [Outcome.ok_bind] at h
      split at h
      · simp only [Outcome.pure_eq, Outcome.ok.injEq, Prod.mk.injEq] at h
        rw [← h.2.2]
      · split at h
        · simp at h
        · have hH : c = false → (sliceNet ε E j y G Tl Tr lam2 c).arcs = updateDig y lam2 G.base G.arcs ∧
              (sliceNet ε E j y G Tl Tr lam2 c).base = G.base := by
            intro hc; subst hc; exact ⟨rfl, rfl⟩
          generalize sliceNet ε E j y G Tl Tr lam2 c = H at h hH
          generalize (if (leftResult S j ⟨H.verts, H.arcs⟩ (finish Tl Tr)).1.card = 0 then
            rightResult R j ⟨H.verts, H.arcs⟩ (finish Tl Tr) else
            leftResult S j ⟨H.verts, H.arcs⟩ (finish Tl Tr)) = r at h
          split at h
          · generalize ha : pmfrSlice S R ε E j y finish k H Tl (r.1 ∪ Tr) lam1 lam2 _ = oa at h
            cases oa with
            | ok a =>
              simp only [Outcome.ok_bind] at h
              generalize hb : pmfrSlice S R ε E j y finish k ⟨H.verts, a.2.2, H.base⟩ (r.1 ∪ Tr) Tr lam2 lam3
                _ = ob at h
              cases ob with
              | ok b =>
                simp only [Outcome.ok_bind, Outcome.pure_eq, Outcome.ok.injEq, Prod.mk.injEq] at h
                rw [← h.2.2]
                cases c with
                | true => rfl
                | false =>
                  rw [if_neg (by simp)]
                  obtain ⟨e1, e2⟩ := hH rfl
                  have h1 := ih _ _ _ _ _ _ _ _ _ ha l
                  have h2 := ih _ _ _ _ _ _ _ _ _ hb l
                  dsimp only at h2
                  rw [e2] at h1 h2
                  rw [h2, h1, e1, updateDig_twice]
              | _ => simp at h
            | _ => simp at h
          · simp only [Outcome.pure_eq, Outcome.ok.injEq, Prod.mk.injEq] at h
            rw [← h.2.2]
            cases c with
            | true => rfl
            | false =>
              rw [if_neg (by simp), (hH rfl).1, updateDig_twice]
    | _ => simp at h

theorem FInv.congr {as as' : List NArc} {f : List ℚ} (h : ∀ l, updateDig y l base as' = updateDig y l base as)
    (hf : FInv y base lam as X f) : FInv y base lam as' X f := by
  rw [← FInv.update lam, h lam, FInv.update]
  exact hf

theorem RStrict.congr {as as' : List NArc} (h : ∀ l, updateDig y l base as' = updateDig y l base as)
    (hs : RStrict ε as) : RStrict ε as' := by
  rw [← RStrict.update (y := y) (base := base) 0, h 0, RStrict.update]
  exact hs

/-- The flow maps `slice` works with. -/
theorem slice_FInv (hg : PGood E ε) {G : RNet} (h : RGood E j Xlc Xrc G) (hstrict : RStrict ε G.arcs)
    (hrr : Xrc ⊆ Xr) (hlr : Xr ⊆ Xl) (hll : Xl ⊆ Xlc) (hX : X = Xl ∨ X = Xr) {f : List ℚ} {l : ℚ}
    (hf : FInv y G.base l G.arcs X f) (c : Bool) :
    FInv y (sliceNet ε E j y G (insert j Xl) (insert j Xr) lam c).base l
      (sliceNet ε E j y G (insert j Xl) (insert j Xr) lam c).arcs X
      (sliceFlow ε j G (insert j Xl) (insert j Xr) c f) := by
  cases c with
  | false => exact (FInv.update lam).2 hf
  | true => exact (FInv.update lam).2 (hf.contract hg h hstrict hrr hlr hll hX)

theorem slice_strict {G : RNet} (h : RGood E j Xlc Xrc G) (hstrict : RStrict ε G.arcs)
    (hlr : Xr ⊆ Xl) (hll : Xl ⊆ Xlc) (c : Bool) :
    RStrict ε (sliceNet ε E j y G (insert j Xl) (insert j Xr) lam c).arcs := by
  cases c with
  | false => exact (RStrict.update lam).2 hstrict
  | true =>
    exact (RStrict.update lam).2 (contract_strict h.inv (Finset.sdiff_subset.trans h.range) hlr
      (hll.trans h.range) hstrict)

/-- **`PMF_R::slice` with its starting points** computes what it computes without them. -/
theorem pmfrSliceW_eq {S : FlowSolver} {R : SrcSolver} {W Q : HLSolver} (hS : S.Minimal) (hR : R.Minimal)
    {m : SchedMode} (hW : W.LeastSink m.okW) (hQ : Q.LeastSource m.okQ) (hg : PGood E ε)
    {sched : CSet → CSet → Finish × Bool} (hsched : m.Allows sched) :
    ∀ (k : ℕ) (Xl Xr Xlc Xrc : Finset ℕ) (G : RNet) (w : RWarm) (lam1 lam3 : ℚ) (c : Bool),
    LeastAt E j y lam1 Xl → LeastAt E j y lam3 Xr → Xr ⊆ Xl →
    RGood E j Xlc Xrc G → RStrict ε G.arcs → Xrc ⊆ Xr → Xl ⊆ Xlc →
    FInv y G.base lam1 G.arcs Xl w.left → FInv y G.base lam3 G.arcs Xr w.right →
    m.Inv G.verts c w →
    pmfrSliceW W Q ε E j y sched k G (insert j Xl) (insert j Xr) w lam1 lam3 c =
      pmfrSlice S R ε E j y (fun A B => (sched A B).1) k G (insert j Xl) (insert j Xr) lam1 lam3 c := by
  have hε0 := hg.pos
  have hEn := hg.nonneg
  intro k
  induction k with
  | zero =>
    intros
    rfl
  | succ k ih =>
    intro Xl Xr Xlc Xrc G w lam1 lam3 c hXlL hXrL hsub hG hstrict hrr hll hfl hfr hinvE
    have hXl := hXlL.sub
    have hXr := hXrL.sub
    have hjl : j ∉ Xl := fun h => by simpa using hXl h
    have hjr : j ∉ Xr := fun h => by simpa using hXr h
    rw [pmfrSliceW, pmfrSlice]
    dsimp only
    congr 1
    funext lam2
    by_cases hcn1 : ¬ tolDifferent ε lam2 lam1 = true ∨ ¬ tolDifferent ε lam2 lam3 = true
    · rw [if_pos hcn1, if_pos hcn1]
    by_cases hcn2 : lam2 < lam1 ∨ lam3 < lam2
    · rw [if_neg hcn1, if_pos hcn2, if_neg hcn1, if_pos hcn2]
    rw [if_neg hcn1, if_neg hcn2, if_neg hcn1, if_neg hcn2]
    push Not at hcn2
    obtain ⟨h12, h23⟩ := hcn2
    obtain ⟨Yl, Yr, hYr, hYl, hH, hctx, G', hG', hHe⟩ :=
      sliceNet_good (y := y) (lam := lam2) hg hG hrr hsub hll c
    have hfl' := slice_FInv (lam := lam2) hg hG hstrict hrr hsub hll (Or.inl rfl) hfl c
    have hfr' := slice_FInv (lam := lam2) hg hG hstrict hrr hsub hll (Or.inr rfl) hfr c
    have hst' := slice_strict (y := y) (lam := lam2) hG hstrict hsub hll c
    unfold leftStart rightStart
    set H := sliceNet ε E j y G (insert j Xl) (insert j Xr) lam2 c with hHdef
    set fl := sliceFlow ε j G (insert j Xl) (insert j Xr) c w.left with hfldef
    set fr := sliceFlow ε j G (insert j Xl) (insert j Xr) c w.right with hfrdef
    have hHarcs : H.arcs = updateDig y lam2 H.base H.arcs := by rw [hHe, updateDig_twice]
    have hNe : (⟨H.verts, H.arcs⟩ : Net) = ⟨G'.verts, updateDig y lam2 G'.base G'.arcs⟩ := by rw [hHe]
    have hbet : ∀ T, LeastAt E j y lam2 T → Xr ⊆ T ∧ T ⊆ Xl := fun T hT =>
      ⟨hXrL.subset hEn hT.toMinAt h23, hT.subset hEn hXlL.toMinAt h12⟩
    have hNN : (⟨H.verts, H.arcs⟩ : Net).Nonneg := hH.inv.nonneg
    have hNl : ∀ e ∈ H.arcs, ∀ i, e.a = .v i → i ∈ H.verts := by rw [hH.verts]; exact hH.inv.left
    have hNr : ∀ e ∈ H.arcs, ∀ i, e.b = .v i → i ∈ H.verts := by rw [hH.verts]; exact hH.inv.right
    have hProper : (⟨H.verts, H.arcs⟩ : Net).Proper := ⟨hNN, hNl, hNr⟩
    -- the starting points
    have hn2 : ∀ e ∈ updateDig y lam2 H.base H.arcs, 0 ≤ e.cap := by rw [← hHarcs]; exact hNN
    have hinvH : m.Inv H.verts c w := by
      cases c with
      | false => exact hinvE
      | true => cases m <;> simp [SchedMode.Inv]
    have hsl : ∀ t, some (⟨clampFlow H.arcs fl, if c = true then none else w.leftEle⟩ : HLStart) = some t →
        m.okW ⟨H.verts, H.arcs⟩ t := by
      rintro t ⟨⟩
      have := left_start hfl' h12 hn2 H.verts
      rw [← hHarcs] at this
      exact SchedMode.Inv.startW (N := ⟨H.verts, H.arcs⟩) hinvH this
    have hsr : ∀ t, some (⟨clampFlow H.arcs fr, if c = true then none else w.rightEle⟩ : HLStart) = some t →
        m.okQ (Net.rev ⟨H.verts, H.arcs⟩) t := by
      rintro t ⟨⟩
      have := right_start hfr' h23 hn2 H.verts
      rw [← hHarcs] at this
      exact SchedMode.Inv.startQ (N := Net.rev ⟨H.verts, H.arcs⟩) hinvH this
    have hwl := HL_left_ok hW hProper hsl
    have hqr := HL_right_ok hQ hProper hsr
    have hwf := hW.flow _ _ hProper hsl
    have hqf := hQ.flow _ _ (Proper_rev hProper) hsr
    have hwv := hW.flow_value _ _ hProper hsl
    have hqv := hQ.flow_value _ _ (Proper_rev hProper) hsr
    have hel : m.okW ⟨H.verts, H.arcs⟩ ⟨clampFlow H.arcs fl, if c = true then none else w.leftEle⟩ := hsl _ rfl
    have her : m.okQ (Net.rev ⟨H.verts, H.arcs⟩) ⟨clampFlow H.arcs fr, if c = true then none else w.rightEle⟩ :=
      hsr _ rfl
    clear hsl hsr
    generalize (if c = true then none else w.leftEle) = el at *
    generalize (if c = true then none else w.rightEle) = er at *
    have hl := left_ok hS hNN
    have hr := right_ok hR hNN hNl hNr
    obtain ⟨ul1, ul2⟩ := hwl.unique hl
    obtain ⟨ur1, ur2⟩ := hqr.unique hr
    have hLt : (if (sched (insert j Xl) (insert j Xr)).1.leftDone = true then
        (insert j (W.sinkSide ⟨H.verts, H.arcs⟩ (some ⟨clampFlow H.arcs fl, el⟩)),
          (W.run ⟨H.verts, H.arcs⟩ (some ⟨clampFlow H.arcs fl, el⟩)).value) else ((∅ : CSet), (-1 : ℚ))) =
        leftResult S j ⟨H.verts, H.arcs⟩ (sched (insert j Xl) (insert j Xr)).1 := by
      unfold leftResult
      rw [ul1, ul2]
    have hRt : (if (sched (insert j Xl) (insert j Xr)).1 = Finish.left then ((∅ : CSet), (-1 : ℚ)) else
        (insert j (Q.srcSide (Net.rev ⟨H.verts, H.arcs⟩) (some ⟨clampFlow H.arcs fr, er⟩)),
          (Q.run (Net.rev ⟨H.verts, H.arcs⟩) (some ⟨clampFlow H.arcs fr, er⟩)).value)) =
        rightResult R j ⟨H.verts, H.arcs⟩ (sched (insert j Xl) (insert j Xr)).1 := by
      unfold rightResult
      rw [ur1, ur2]
    rw [hLt, hRt]
    -- the result of the threads
    have hres : ∃ X value, ResultOk ⟨H.verts, H.arcs⟩ X value ∧
        (if (leftResult S j ⟨H.verts, H.arcs⟩ (sched (insert j Xl) (insert j Xr)).1).1.card = 0 then
          rightResult R j ⟨H.verts, H.arcs⟩ (sched (insert j Xl) (insert j Xr)).1
        else leftResult S j ⟨H.verts, H.arcs⟩ (sched (insert j Xl) (insert j Xr)).1) =
          (insert j X, value) ∧
        ∀ T, (⟨H.verts, H.arcs⟩ : Net).cutCap (T ∩ H.verts) = value → FInv y H.base lam2 H.arcs T
          (if (leftResult S j ⟨H.verts, H.arcs⟩ (sched (insert j Xl) (insert j Xr)).1).1.card = 0 then
            (Q.run (Net.rev ⟨H.verts, H.arcs⟩) (some ⟨clampFlow H.arcs fr, er⟩)).flow
          else (W.run ⟨H.verts, H.arcs⟩ (some ⟨clampFlow H.arcs fl, el⟩)).flow) := by
      have hinv : RInv E H.verts H.arcs := by rw [hH.verts]; exact hH.inv
      have hFl : ∀ T, (⟨H.verts, H.arcs⟩ : Net).cutCap (T ∩ H.verts) = S.flowValue ⟨H.verts, H.arcs⟩ →
          FInv y H.base lam2 H.arcs T (W.run ⟨H.verts, H.arcs⟩ (some ⟨clampFlow H.arcs fl, el⟩)).flow := by
        intro T hT
        refine flow_FInv hinv rfl H.verts (by rw [← hHarcs]; exact hwf) ?_
        rw [← hHarcs]
        exact IsFlow.slack (hwf) (by rw [hT, hwv, ul2])
      have hFr : ∀ T, (⟨H.verts, H.arcs⟩ : Net).cutCap (T ∩ H.verts) =
          R.flowValue (Net.rev ⟨H.verts, H.arcs⟩) → FInv y H.base lam2 H.arcs T
          (Q.run (Net.rev ⟨H.verts, H.arcs⟩) (some ⟨clampFlow H.arcs fr, er⟩)).flow := by
        intro T hT
        refine flow_FInv hinv rfl H.verts (by rw [← hHarcs]; exact IsFlow_rev hqf) ?_
        rw [← hHarcs]
        exact slack_rev hNl hNr hqf (by rw [hT, hqv, ur2])
      cases hf : (sched (insert j Xl) (insert j Xr)).1 with
      | left =>
        refine ⟨_, _, hl, by simp [leftResult, Finish.leftDone], fun T hT => ?_⟩
        rw [if_neg (by simp [leftResult, Finish.leftDone])]
        exact hFl T hT
      | right =>
        refine ⟨_, _, hr, by simp [leftResult, rightResult, Finish.leftDone], fun T hT => ?_⟩
        rw [if_pos (by simp [leftResult, Finish.leftDone])]
        exact hFr T hT
      | both =>
        refine ⟨_, _, hl, by simp [leftResult, Finish.leftDone], fun T hT => ?_⟩
        rw [if_neg (by simp [leftResult, Finish.leftDone])]
        exact hFl T hT
    obtain ⟨X, value, hres, hre, hFI⟩ := hres
    simp only [hre]
    rw [hNe] at hres
    obtain ⟨hleast, hval⟩ := result_least hS hg hG' hYr hYl hbet hres
    have hFI := hFI (X ∪ Xr) (by
      rw [hNe, hHe]
      dsimp only
      rw [hG'.verts, rcut (y := y) (lam := lam2) hg hG' Finset.inter_subset_right, hval]
      congr 2
      obtain ⟨h1, h2⟩ := hbet _ hleast
      ext v
      simp only [Finset.mem_union, Finset.mem_inter, Finset.mem_sdiff]
      constructor
      · rintro (h | h)
        · exact Or.inr (hYr h)
        · exact h.1
      · intro h
        by_cases hv : v ∈ Yr
        · exact Or.inl hv
        · exact Or.inr ⟨h, hYl (h2 (Finset.mem_union.2 h)), hv⟩)
    generalize (if (leftResult S j ⟨H.verts, H.arcs⟩ (sched (insert j Xl) (insert j Xr)).1).1.card = 0 then
            (Q.run (Net.rev ⟨H.verts, H.arcs⟩) (some ⟨clampFlow H.arcs fr, er⟩)).flow
          else (W.run ⟨H.verts, H.arcs⟩ (some ⟨clampFlow H.arcs fl, el⟩)).flow) = f at hFI ⊢
    have hun : insert j X ∪ insert j Xr = insert j (X ∪ Xr) := by
      rw [Finset.insert_union_distrib]
    rw [hun]
    set T := X ∪ Xr with hTdef
    have hjT : j ∉ T := fun h => by simpa using hleast.sub h
    have hinj : ∀ Z : Finset ℕ, j ∉ Z → (insert j T = insert j Z ↔ T = Z) := by
      intro Z hZ
      constructor
      · intro h
        have := congrArg (fun S => S.erase j) h
        simpa [Finset.erase_insert hjT, Finset.erase_insert hZ] using this
      · intro h; rw [h]
    simp only [ne_eq, hinj Xr hjr, hinj Xl hjl]
    split
    · rename_i hcond
      obtain ⟨hTr, hTl, hlt⟩ := hcond
      obtain ⟨hrT, hTXl⟩ := hbet T hleast
      have hia : m.Inv H.verts (decide (¬ (leftResult S j ⟨H.verts, H.arcs⟩
          (sched (insert j Xl) (insert j Xr)).1).1.card = 0))
          ⟨fl, f, w.leftEle, eleOut H.verts (decide (¬ (sched (insert j Xl) (insert j Xr)).1 = Finish.left))
            (sched (insert j Xl) (insert j Xr)).2 er⟩ := by
        cases m with
        | any => trivial
        | left =>
          intro h
          rw [hsched] at h
          simp [leftResult, Finish.leftDone] at h
        | right => exact fun _ => EleFits.out her.2 _ _
      have hib : m.Inv H.verts (decide ((leftResult S j ⟨H.verts, H.arcs⟩
          (sched (insert j Xl) (insert j Xr)).1).1.card = 0))
          ⟨f, fr, eleOut H.verts (sched (insert j Xl) (insert j Xr)).1.leftDone
            (sched (insert j Xl) (insert j Xr)).2 el, w.rightEle⟩ := by
        cases m with
        | any => trivial
        | left => exact fun _ => EleFits.out hel.2 _ _
        | right =>
          intro h
          rw [hsched] at h
          simp [leftResult, Finish.leftDone] at h
      rw [ih Xl T Yl Yr H _ lam1 lam2 _ hXlL hleast hTXl hH hst' (hYr.trans hrT) hYl hfl' hFI hia]
      cases ea : pmfrSlice S R ε E j y (fun A B => (sched A B).1) k H (insert j Xl) (insert j T) lam1 lam2
        (decide (¬ (leftResult S j ⟨H.verts, H.arcs⟩ (sched (insert j Xl) (insert j Xr)).1).1.card = 0)) with
      | ok o =>
        obtain ⟨sa, la, aa⟩ := o
        have hga := pmfrSlice_good hS hR hg hXlL hleast hTXl hH (hYr.trans hrT) hYl ea
        have hsame := pmfrSlice_arcs _ _ _ _ _ _ _ _ _ _ ea
        simp only [Outcome.ok_bind]
        rw [ih T Xr Yl Yr ⟨H.verts, aa, H.base⟩ _ lam2 lam3 _ hleast hXrL hrT hga (hst'.congr hsame) hYr
          (hTXl.trans hYl) (hFI.congr hsame) (hfr'.congr hsame) hib]
      | _ => rfl
    · rfl

end PSP.Theory
