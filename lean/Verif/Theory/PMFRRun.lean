import Verif.Theory.PMFRSlice

/-!
# `PMF_R::slice`, `PMF_R::run` and `PDT_R::run`
-/

namespace PSP.Theory

open PSP.Spec PSP.Model
open scoped Nat

variable {E : List Arc} {ε : ℚ} {j : ℕ} {y : ℕ → YPair} {lam : ℚ} {X V Xl Xr Xlc Xrc : Finset ℕ}
  {arcs : List NArc}

/-! ### the two solvers -/

theorem onSink_swap (X V : Finset ℕ) (x : NV) (hx : ∀ i, x = .v i → i ∈ V) :
    x.swap.onSink (V \ X) = !x.onSink X := by
  cases x with
  | src => rfl
  | snk => rfl
  | v i => simp [NV.swap, NV.onSink, hx i rfl]

theorem rev_cut {N : Net} (hl : ∀ e ∈ N.arcs, ∀ i, e.a = .v i → i ∈ N.verts)
    (hr : ∀ e ∈ N.arcs, ∀ i, e.b = .v i → i ∈ N.verts) (X : Finset ℕ) :
    N.rev.cutCap (N.verts \ X) = N.cutCap X := by
  unfold Net.cutCap Net.rev
  simp only [List.map_map]
  congr 1
  apply List.map_congr_left
  intro e he
  simp only [Function.comp]
  rw [onSink_swap _ _ _ (hl e he), onSink_swap _ _ _ (hr e he)]
  simp only [Bool.not_eq_eq_eq_not, Bool.not_false, Bool.not_true]
  exact if_congr and_comm rfl rfl

/-- A result of one of the threads. -/
structure ResultOk (N : Net) (X : Finset ℕ) (value : ℚ) : Prop where
  sub : X ⊆ N.verts
  value_eq : value = N.cutCap X
  le : ∀ Z ⊆ N.verts, value ≤ N.cutCap Z
  least : ∀ Z ⊆ N.verts, N.cutCap Z = value → X ⊆ Z

theorem left_ok {S : FlowSolver} (hS : S.Minimal) {N : Net} (hN : N.Nonneg) :
    ResultOk N (S.sinkSide N) (S.flowValue N) :=
  ⟨Finset.filter_subset _ _, hS.value_eq N hN, hS.le_cut N hN, hS.minimal N hN⟩

theorem right_ok {R : SrcSolver} (hR : R.Minimal) {N : Net} (hN : N.Nonneg)
    (hl : ∀ e ∈ N.arcs, ∀ i, e.a = .v i → i ∈ N.verts)
    (hr : ∀ e ∈ N.arcs, ∀ i, e.b = .v i → i ∈ N.verts) :
    ResultOk N (R.srcSide N.rev) (R.flowValue N.rev) := by
  have hN' : N.rev.Nonneg := by
    intro e he
    obtain ⟨e', he', rfl⟩ := List.mem_map.1 he
    exact hN e' he'
  have hcut : ∀ Z, N.rev.cutCap (N.verts \ Z) = N.cutCap Z := rev_cut hl hr
  have hsub : R.srcSide N.rev ⊆ N.verts := Finset.filter_subset _ _
  refine ⟨hsub, ?_, ?_, ?_⟩
  · rw [← hcut]; exact hR.value_eq N.rev hN'
  · intro Z hZ
    rw [← hcut]; exact hR.le_cut N.rev hN' _ Finset.sdiff_subset
  · intro Z hZ h
    rw [← hcut] at h
    have := hR.minimal N.rev hN' _ Finset.sdiff_subset h
    rwa [show N.rev.verts = N.verts from rfl, Finset.sdiff_sdiff_eq_self hZ] at this

/-- Whatever thread delivers, together with the right set it gives the least minimiser. -/
theorem result_least {S : FlowSolver} (hS : S.Minimal) (hg : PGood E ε) {G : RNet}
    (h : RGood E j Xlc Xrc G) (hrr : Xrc ⊆ Xr) (hll : Xl ⊆ Xlc)
    (hbet : ∀ T, LeastAt E j y lam T → Xr ⊆ T ∧ T ⊆ Xl) {value : ℚ}
    (hres : ResultOk ⟨G.verts, updateDig y lam G.base G.arcs⟩ X value) :
    LeastAt E j y lam (X ∪ Xr) ∧ value = obj E j y lam (X ∪ Xr) + rConst E j y lam Xlc Xrc G.arcs := by
  -- the least minimiser
  have hN := pmfNet_nonneg (j := j) (y := y) (lam := lam) hg
  have hcut : ∀ Z ⊆ Finset.range j, (pmfNet ε E j y lam).cutCap Z = obj E j y lam Z +
      ((List.range j).map fun i => max 0 (yAt y lam i)).sum := fun Z hZ => by
    rw [pmfNet_cutCap hg hZ]; rfl
  obtain ⟨T, hT⟩ : ∃ T, LeastAt E j y lam T := by
    have hsub : S.sinkSide (pmfNet ε E j y lam) ⊆ Finset.range j := Finset.filter_subset _ _
    have hv := hS.value_eq _ hN
    rw [hcut _ hsub] at hv
    refine ⟨_, ⟨hsub, fun Z hZ => ?_⟩, fun Z hZ h => ?_⟩
    · have := hS.le_cut _ hN Z hZ
      rw [hcut Z hZ, hv] at this
      linarith
    · apply hS.minimal _ hN Z hZ
      rw [hcut Z hZ, hv, h]
  obtain ⟨hrT, hTl⟩ := hbet T hT
  have hc := fun Z hZ => rcut (y := y) (lam := lam) hg h (X := Z) hZ G.verts
  rw [← h.verts] at hc
  have hXs := hres.sub
  have hTs : T \ Xrc ⊆ G.verts := by
    rw [h.verts]; exact Finset.sdiff_subset_sdiff (hTl.trans hll) subset_rfl
  have hTe : Xrc ∪ T \ Xrc = T := Finset.union_sdiff_of_subset (hrr.trans hrT)
  have hXj : Xrc ∪ X ⊆ Finset.range j := by
    refine Finset.union_subset (h.sub.trans h.range) ?_
    rw [h.verts] at hXs
    exact hXs.trans (Finset.sdiff_subset.trans h.range)
  have hv := hres.value_eq
  rw [hc X hXs] at hv
  have h1 := hres.le _ hTs
  rw [hc _ hTs, hTe, hv] at h1
  have h2 := hT.le _ hXj
  have heq : obj E j y lam (Xrc ∪ X) = obj E j y lam T := le_antisymm (by linarith) h2
  have h3 := hT.least _ hXj heq
  have h4 := hres.least _ hTs (by rw [hc _ hTs, hTe, hv, heq])
  have hfin : X ∪ Xr = T := by
    apply Finset.Subset.antisymm
    · exact Finset.union_subset (h4.trans Finset.sdiff_subset) hrT
    · intro v hv
      rcases Finset.mem_union.1 (h3 hv) with h' | h'
      · exact Finset.mem_union_right _ (hrr h')
      · exact Finset.mem_union_left _ h'
  rw [hfin]
  exact ⟨hT, by rw [hv, heq]⟩

/-- The network of a call of `slice`. -/
theorem sliceNet_good (hg : PGood E ε) {G : RNet} (h : RGood E j Xlc Xrc G) (hrr : Xrc ⊆ Xr) (hlr : Xr ⊆ Xl)
    (hll : Xl ⊆ Xlc) (c : Bool) :
    ∃ Yl Yr, Yr ⊆ Xr ∧ Xl ⊆ Yl ∧ RGood E j Yl Yr (sliceNet ε E j y G (insert j Xl) (insert j Xr) lam c) ∧
      (c = false → Yl = Xlc ∧ Yr = Xrc) ∧
      ∃ G' : RNet, RGood E j Yl Yr G' ∧
        sliceNet ε E j y G (insert j Xl) (insert j Xr) lam c =
          ⟨G'.verts, updateDig y lam G'.base G'.arcs, G'.base⟩ := by
  have hmono : Xl \ Xr ⊆ Xlc \ Xrc := Finset.sdiff_subset_sdiff hll hrr
  have hlj := hll.trans h.range
  have hjl : j ∉ Xl := fun h => by simpa using hlj h
  cases c with
  | false =>
    refine ⟨Xlc, Xrc, hrr, hll, ?_, fun _ => ⟨rfl, rfl⟩, G, h, rfl⟩
    refine ⟨h.sub, h.range, h.verts, updateDig_inv h.inv ?_, h.base⟩
    intro i hi
    rw [h.base i hi]
    exact newBase_nonneg hg.nonneg _ _ _
  | true =>
    set S := Finset.range (j + 2) \ insert j Xl with hS
    set G' : RNet := ⟨(Finset.range j).filter fun i => i ∉ S ∧ i ∉ insert j Xr,
      contractR ε j S (insert j Xr) G.arcs, newBase E S (insert j Xr)⟩ with hG'
    have hverts : G'.verts = Xl \ Xr := by
      ext i
      simp only [hG', Finset.mem_filter, Finset.mem_range, hS, Finset.mem_insert, Finset.mem_sdiff]
      constructor
      · rintro ⟨h1, h2, h3⟩
        push Not at h2 h3
        exact ⟨(h2 (by omega)).resolve_left h3.1, h3.2⟩
      · rintro ⟨h1, h2⟩
        have := Finset.mem_range.1 (hlj h1)
        refine ⟨this, fun h => h.2 (Or.inr h1), ?_⟩
        rintro (h | h)
        · omega
        · exact h2 h
    have hgood : RGood E j Xl Xr G' := ⟨hlr, hlj, hverts,
      contractR_inv hg.cap h.inv (Finset.sdiff_subset.trans h.range) hlr hlj hmono, fun i _ => rfl⟩
    refine ⟨Xl, Xr, subset_rfl, subset_rfl, ?_, by simp, G', hgood, rfl⟩
    refine ⟨hlr, hlj, hverts, updateDig_inv hgood.inv ?_, fun i _ => rfl⟩
    intro i _
    exact newBase_nonneg hg.nonneg _ _ _

/-- **`PMF_R::slice`**, whichever threads deliver. -/
theorem pmfrSlice_spec {S : FlowSolver} {R : SrcSolver} (hS : S.Minimal) (hR : R.Minimal) (hg : PGood E ε)
    {finish : CSet → CSet → Finish}
    {d : ℚ} {L : ℕ} (hd : 0 < d) (hL : L ≠ 0) (hLd : ∀ c, 0 < c → c ≤ j → c ∣ L)
    (hεd : 10 * ε < d / L) (hE : ∀ e ∈ E, Gran d e.cap) (hy : ∀ i < j, GranY d (y i)) :
    ∀ (k : ℕ) (Xl Xr Xlc Xrc : Finset ℕ) (G : RNet) (lam1 lam3 : ℚ) (c : Bool),
    Xl.card ≤ Xr.card + k → SlicePre E j y (d / L) Xl Xr lam1 (some lam3) →
    RGood E j Xlc Xrc G → Xrc ⊆ Xr → Xl ⊆ Xlc →
    ∃ sets lams arcs t, pmfrSlice S R ε E j y finish k G (insert j Xl) (insert j Xr) lam1 lam3 c =
        .ok (sets, lams, arcs) ∧
      SliceSpec E j y (d / L) Xl Xr lam1 (some lam3) sets lams t ∧
      RGood E j Xlc Xrc ⟨G.verts, arcs, G.base⟩ := by
  have hε0 := hg.pos
  have hEn := hg.nonneg
  intro k
  induction k with
  | zero =>
    intro Xl Xr Xlc Xrc G lam1 lam3 c hk hpre
    have := Finset.card_lt_card hpre.sub
    omega
  | succ k ih =>
    intro Xl Xr Xlc Xrc G lam1 lam3 c hk hpre hG hrr hll
    have hXl := hpre.left.sub
    have hXr := hpre.subr
    have hjl : j ∉ Xl := fun h => by simpa using hXl h
    have hjr : j ∉ Xr := fun h => by simpa using hXr h
    obtain ⟨lam2, hc, hlt12, hg2, heq2, hle23, hd1, hdn, hds⟩ :=
      slice_lambda hε0 (n := j + 2) (by omega) hd hL hLd hεd hE hy hpre
    unfold sliceList at hc
    unfold pmfrSlice
    dsimp only
    rw [show j + 2 - 1 = j + 1 from rfl] at hc
    rw [hc]
    simp only [Outcome.ok_bind]
    by_cases hlam : lam3 = lam2
    · have hds' : tolDifferent ε lam2 lam3 = false := hds (by rw [hlam])
      rw [if_pos (Or.inr (by simp [hds']))]
      have hminr := (hpre.right lam2 (by rw [hlam])).1.toMinAt
      exact ⟨[], [lam2], _, [(lam2, Xr)], rfl,
        .leaf hpre.sub (hminr.of_eq hXl heq2) hminr hlt12 hle23 hg2, hG⟩
    have hlt23 : lam2 < lam3 := lt_of_le_of_ne (hle23 lam3 rfl) fun h => hlam h.symm
    have hdn' : tolDifferent ε lam2 lam3 = true := hdn (by simpa using hlam)
    rw [if_neg (by simp [hd1, hdn']), if_neg (by
      rintro (h | h) <;> linarith)]
    obtain ⟨Yl, Yr, hYr, hYl, hH, hctx, G', hG', hHe⟩ :=
      sliceNet_good (y := y) (lam := lam2) hg hG hrr hpre.sub.1 hll c
    set H := sliceNet ε E j y G (insert j Xl) (insert j Xr) lam2 c with hHdef
    have hNe : (⟨H.verts, H.arcs⟩ : Net) = ⟨G'.verts, updateDig y lam2 G'.base G'.arcs⟩ := by rw [hHe]
    have hbet : ∀ T, LeastAt E j y lam2 T → Xr ⊆ T ∧ T ⊆ Xl := fun T hT =>
      hpre.between hEn hlt12.le hle23 hT
    have hNN : (⟨H.verts, H.arcs⟩ : Net).Nonneg := hH.inv.nonneg
    have hNl : ∀ e ∈ H.arcs, ∀ i, e.a = .v i → i ∈ H.verts := by rw [hH.verts]; exact hH.inv.left
    have hNr : ∀ e ∈ H.arcs, ∀ i, e.b = .v i → i ∈ H.verts := by rw [hH.verts]; exact hH.inv.right
    -- the result of the threads
    have hres : ∃ X value, ResultOk ⟨H.verts, H.arcs⟩ X value ∧
        (if (leftResult S j ⟨H.verts, H.arcs⟩ (finish (insert j Xl) (insert j Xr))).1.card = 0 then
          rightResult R j ⟨H.verts, H.arcs⟩ (finish (insert j Xl) (insert j Xr))
        else leftResult S j ⟨H.verts, H.arcs⟩ (finish (insert j Xl) (insert j Xr))) =
          (insert j X, value) := by
      have hl := left_ok hS hNN
      have hr := right_ok hR hNN hNl hNr
      cases hf : finish (insert j Xl) (insert j Xr) with
      | left => exact ⟨_, _, hl, by simp [leftResult, Finish.leftDone]⟩
      | right => exact ⟨_, _, hr, by simp [leftResult, rightResult, Finish.leftDone]⟩
      | both => exact ⟨_, _, hl, by simp [leftResult, Finish.leftDone]⟩
    obtain ⟨X, value, hres, hre⟩ := hres
    simp only [hre]
    rw [hNe] at hres
    obtain ⟨hleast, hval⟩ := result_least hS hg hG' hYr hYl hbet hres
    have horig : (⟨H.verts, H.arcs⟩ : Net).cutCap ((insert j Xr).erase j) = obj E j y lam2 Xr +
        rConst E j y lam2 Yl Yr G'.arcs := by
      rw [Finset.erase_insert hjr, cut_inter hH.inv, hNe]
      rw [rcut (y := y) (lam := lam2) hg hG' Finset.inter_subset_right]
      have : Yr ∪ Xr ∩ (Yl \ Yr) = Xr := by
        ext v
        simp only [Finset.mem_union, Finset.mem_inter, Finset.mem_sdiff]
        constructor
        · rintro (h | h)
          · exact hYr h
          · exact h.1
        · intro h
          by_cases hv : v ∈ Yr
          · exact Or.inl hv
          · exact Or.inr ⟨h, hYl (hpre.sub.1 h), hv⟩
      rw [this]
    rw [horig, hval]
    have hun : insert j X ∪ insert j Xr = insert j (X ∪ Xr) := by
      rw [Finset.insert_union_distrib]
    rw [hun]
    set T := X ∪ Xr with hTdef
    have hjT : j ∉ T := fun h => by simpa using hleast.sub h
    have hinj : ∀ Z : Finset ℕ, j ∉ Z → (insert j T = insert j Z ↔ T = Z) := by
      intro Z hZ
      constructor
      · intro h
        have := congrArg (fun S => S.erase j) h
        simpa [Finset.erase_insert hjT, Finset.erase_insert hZ] using this
      · intro h; rw [h]
    simp only [ne_eq, hinj Xr hjr, hinj Xl hjl]
    split
    · rename_i hcond
      obtain ⟨hTr, hTl, hlt⟩ := hcond
      obtain ⟨hpa, hpb⟩ := hpre.split hEn hlt12 (fun l hl => by cases hl; exact hlt23) hg2 hleast hTr hTl
      have hc1 := Finset.card_lt_card hpa.sub
      have hc2 := Finset.card_lt_card hpb.sub
      obtain ⟨sa, la, aa, ta, ea, ha, hga⟩ := ih Xl T Yl Yr H lam1 lam2
        (decide (¬ (leftResult S j ⟨H.verts, H.arcs⟩ (finish (insert j Xl) (insert j Xr))).1.card = 0))
        (by omega) hpa hH (hYr.trans hpb.sub.1) hYl
      rw [ea]
      simp only [Outcome.ok_bind]
      obtain ⟨sb, lb, ab, tb, eb, hb, hgb⟩ := ih T Xr Yl Yr ⟨H.verts, aa, H.base⟩ lam2 lam3
        (decide ((leftResult S j ⟨H.verts, H.arcs⟩ (finish (insert j Xl) (insert j Xr))).1.card = 0))
        (by omega) hpb hga hYr (hpa.sub.1.trans hYl)
      rw [eb]
      simp only [Outcome.ok_bind, Outcome.pure_eq]
      refine ⟨_, _, _, ta ++ tb, rfl, ha.append hb hlt12 hle23, ?_⟩
      cases c with
      | true => exact hG
      | false =>
        obtain ⟨h1, h2⟩ := hctx rfl
        rw [h1, h2] at hgb
        exact hgb
    · rename_i hcond
      have hminr := slice_none hd hL hεd hE hy hXr hg2 heq2 hleast.toMinAt (by
        rintro ⟨h1, h2, h3⟩
        exact hcond ⟨h1, h2, by linarith⟩)
      refine ⟨[], [lam2], _, [(lam2, Xr)], rfl,
        .leaf hpre.sub (hminr.of_eq hXl heq2) hminr hlt12 hle23 hg2, ?_⟩
      cases c with
      | true => exact hG
      | false =>
        obtain ⟨h1, h2⟩ := hctx rfl
        rw [h1, h2] at hH
        exact hH

/-! ### the upper end of the parameter -/

theorem foldl_ge {α : Type} (f : ℚ → α → ℚ) (hf : ∀ l a, l ≤ f l a) (L : List α) (l : ℚ) :
    l ≤ L.foldl f l := by
  induction L generalizing l with
  | nil => exact le_rfl
  | cons a L ih => exact (hf l a).trans (ih _)

theorem foldl_ge_of_mem {α : Type} (f : ℚ → α → ℚ) (hf : ∀ l a, l ≤ f l a) (v : α → ℚ)
    (hv : ∀ l a, v a ≤ f l a) (L : List α) (l : ℚ) : ∀ a ∈ L, v a ≤ L.foldl f l := by
  induction L generalizing l with
  | nil => simp
  | cons b L ih =>
    intro a ha
    rcases List.mem_cons.1 ha with rfl | ha
    · exact (hv l a).trans (foldl_ge f hf L _)
    · exact ih _ a ha

/-- One step of the loop for `lambda_3`. -/
def lambda3Step (E : List Arc) (j : ℕ) (y : ℕ → YPair) (l : ℚ) (i : ℕ) : ℚ :=
  let l1 := match (y i).2 with
    | none => l
    | some b => if l < (y i).1 - b then (y i).1 - b else l
  let l2 := if l1 < (y i).1 then (y i).1 else l1
  if l2 < sinkCapacity E j i + (y i).1 then sinkCapacity E j i + (y i).1 else l2

theorem lambda3_eq (n : ℕ) : lambda3 E j y n = (List.range n).foldl (lambda3Step E j y) 0 := rfl

theorem lambda3Step_ge (l : ℚ) (i : ℕ) :
    l ≤ lambda3Step E j y l i ∧ sinkCapacity E j i + (y i).1 ≤ lambda3Step E j y l i := by
  have h1 : l ≤ (match (y i).2 with
    | none => l
    | some b => if l < (y i).1 - b then (y i).1 - b else l) := by
    cases (y i).2 with
    | none => exact le_rfl
    | some b => dsimp only; split <;> linarith
  unfold lambda3Step
  dsimp only
  generalize (match (y i).2 with
    | none => l
    | some b => if l < (y i).1 - b then (y i).1 - b else l) = l1 at *
  split <;> split <;> constructor <;> linarith

theorem sinkCapacity_gran {d : ℚ} (hE : ∀ e ∈ E, Gran d e.cap) (i : ℕ) : Gran d (sinkCapacity E j i) := by
  unfold sinkCapacity
  split
  · rename_i a ha
    exact hE a (List.mem_of_find?_eq_some ha)
  · exact Gran.zero d

theorem lambda3_gran {d : ℚ} (hE : ∀ e ∈ E, Gran d e.cap) (hy : ∀ i, GranY d (y i)) (n : ℕ) :
    Gran d (lambda3 E j y n) := by
  rw [lambda3_eq]
  have : ∀ (L : List ℕ) l, Gran d l → Gran d (L.foldl (lambda3Step E j y) l) := by
    intro L
    induction L with
    | nil => intro l hl; exact hl
    | cons i L ih =>
      intro l hl
      refine ih _ ?_
      unfold lambda3Step
      dsimp only
      have h1 : Gran d (match (y i).2 with
        | none => l
        | some b => if l < (y i).1 - b then (y i).1 - b else l) := by
        have hb := (hy i).2
        cases hyi : (y i).2 with
        | none => exact hl
        | some b =>
          dsimp only
          split
          · exact (hy i).1.sub (hb b hyi)
          · exact hl
      generalize (match (y i).2 with
        | none => l
        | some b => if l < (y i).1 - b then (y i).1 - b else l) = l1 at *
      have h2 := (hy i).1
      have h3 := (sinkCapacity_gran (j := j) hE i).add h2
      split <;> split <;> assumption
  exact this _ _ (Gran.zero d)

open Classical in
/-- If the arcs to the sink outweigh the values `y`, the singleton is a best set. -/
theorem empty_le (hg : PGood E ε) {l c : ℚ} (hle : ∀ i < j, yAt y l i ≤ -sinkCapacity E j i + c) {Z : Finset ℕ}
    (hZ : Z ⊆ Finset.range j) : obj E j y l ∅ ≤ obj E j y l Z + Z.card * c := by
  have hs : vsum (yAt y l) Z ≤ -∑ i ∈ Z, sinkCapacity E j i + Z.card * c := by
    rw [← Finset.sum_neg_distrib, ← nsmul_eq_mul, ← Finset.sum_const, ← Finset.sum_add_distrib]
    exact Finset.sum_le_sum fun i hi => hle i (Finset.mem_range.1 (hZ hi))
  have hjZ : j ∉ Z := fun h => by simpa using hZ h
  have hc : getCutValue E {j} ≤ getCutValue E (insert j Z) + ∑ i ∈ Z, sinkCapacity E j i := by
    have h1 : ∑ i ∈ Z, sinkCapacity E j i =
        (E.map fun a => if a.src ∈ Z ∧ a.dst ∈ ({j} : Finset ℕ) then a.cap else 0).sum := by
      rw [← sum_swap]
      apply Finset.sum_congr rfl
      intro i hi
      have := congrArg Prod.snd (base_run hg (Finset.mem_range.1 (hZ hi)))
      rw [insert_empty_eq] at this
      exact this
    rw [h1]
    unfold getCutValue
    rw [← List.sum_map_add]
    apply List.sum_le_sum
    intro a ha
    have hcap := hg.nonneg a ha
    have hlt := hg.lowHigh a ha
    simp only [Finset.mem_singleton, Finset.mem_insert]
    by_cases hd : a.dst = j
    · have hsj : a.src ≠ j := by omega
      by_cases hz : a.src ∈ Z <;> simp [hd, hsj, hz]
    · simp only [hd, and_false, if_false, add_zero]
      split
      · exact hcap
      · exact le_rfl
  unfold obj
  rw [insert_empty_eq]
  simp only [vsum, Finset.sum_empty, sub_zero] at hs ⊢
  linarith

/-- At `lambda_3` the singleton is a best set. -/
theorem lambda3_empty (hg : PGood E ε) {n : ℕ} (hjn : j < n) : LeastAt E j y (lambda3 E j y n) ∅ := by
  refine ⟨⟨Finset.empty_subset _, fun Z hZ => ?_⟩, fun Z _ _ => Finset.empty_subset Z⟩
  set l3 := lambda3 E j y n with hl3
  have hle : ∀ i < j, yAt y l3 i ≤ -sinkCapacity E j i + 0 := by
    intro i hi
    have h1 : sinkCapacity E j i + (y i).1 ≤ l3 := by
      rw [hl3, lambda3_eq]
      exact foldl_ge_of_mem _ (fun l a => (lambda3Step_ge l a).1) (fun i => sinkCapacity E j i + (y i).1)
        (fun l a => (lambda3Step_ge l a).2) _ _ i (List.mem_range.2 (by omega))
    have h2 : yAt y l3 i ≤ (y i).1 - l3 := by
      unfold yAt yVal minO
      cases (y i).2 with
      | none => exact le_rfl
      | some b => exact min_le_left _ _
    linarith
  have := empty_le hg hle hZ
  linarith

/-- **`PMF_R::run`**, whichever threads deliver. -/
theorem pmfrRun_spec {S : FlowSolver} {R : SrcSolver} (hS : S.Minimal) (hR : R.Minimal) {g : Digraph}
    (hg : PGood g.arcs ε) {finish : ℕ → CSet → CSet → Finish}
    (hnodes : ∀ i < j + 1, i ∈ g.nodes) (hjn : j < g.countNodes)
    {d : ℚ} {L : ℕ} (hd : 0 < d) (hL : L ≠ 0) (hLd : ∀ c, 0 < c → c ≤ j → c ∣ L)
    (hεd : 10 * ε < d / L) (hE : ∀ e ∈ g.arcs, Gran d e.cap) (hy : ∀ i, GranY d (y i))
    (h0 : Gran (d / L) lam0) (hneg : ∃ Z ⊆ Finset.range j, obj g.arcs j y lam0 Z < obj g.arcs j y lam0 ∅) :
    ∃ X0 t, pmfrRun S R ε g finish j y = .ok ((X0 :: t.map Prod.snd).map (insert j), t.map Prod.fst) ∧
      RunSpec g.arcs j y (d / L) X0 t := by
  unfold pmfrRun
  rw [if_neg (by
    push Not
    intro i hi
    exact hnodes i (List.mem_range.1 hi))]
  dsimp only
  set base : ℕ → ℚ × ℚ := fun i => (0, sinkCapacity g.arcs j i) with hbase
  set dig0 := (pmfArcs ε g.arcs j).map (digArc g.arcs j) with hdig0
  have hbn : ∀ i ∈ Finset.range j, 0 ≤ (base i).1 ∧ 0 ≤ (base i).2 := fun i _ =>
    ⟨le_rfl, sinkCapacity_nonneg hg.nonneg i⟩
  have hmk : ∀ as, RInv g.arcs (Finset.range j) as →
      RGood g.arcs j (Finset.range j) ∅ ⟨Finset.range j, as, base⟩ := by
    intro as has
    refine ⟨Finset.empty_subset _, subset_rfl, by simp, by simpa using has, ?_⟩
    intro i hi
    have := Finset.mem_range.1 (Finset.sdiff_subset hi)
    exact base_run hg this
  have hi0 := dig_inv (j := j) hg
  rw [← hdig0] at hi0
  have hi1 := updateDig_inv (y := y) (lam := lam0) hi0 hbn
  set lam3 := lambda3 g.arcs j y g.countNodes with hlam3
  have hi3 := updateDig_inv (y := y) (lam := lam3) hi1 hbn
  -- the first cut
  have hres0 : ResultOk ⟨Finset.range j, updateDig y lam0 base dig0⟩ (S.sinkSide _) (S.flowValue _) :=
    left_ok hS hi1.nonneg
  have hleast := (result_least (Xr := ∅) (Xl := Finset.range j) hS hg (hmk dig0 hi0) subset_rfl subset_rfl
    (fun T hT => ⟨Finset.empty_subset _, hT.sub⟩) hres0).1
  rw [Finset.union_empty] at hleast
  change ∃ X0 t, (pmfrSlice S R ε g.arcs j y (finish j) (j + 1) ⟨Finset.range j, updateDig y lam3 base
    (updateDig y lam0 base dig0), base⟩
    (insert j (S.sinkSide ⟨Finset.range j, updateDig y lam0 base dig0⟩)) {j} lam0 lam3 false >>= _) = _ ∧ _
  set X0 := S.sinkSide ⟨Finset.range j, updateDig y lam0 base dig0⟩ with hX0
  have hmin := hleast.toMinAt
  have hne : (∅ : Finset ℕ) ⊂ X0 := by
    rw [Finset.empty_ssubset, Finset.nonempty_iff_ne_empty]
    intro h
    obtain ⟨Z, hZ, hneg⟩ := hneg
    have := hmin.le Z hZ
    rw [h] at this
    linarith
  have hge : (0 : ℚ) ≤ lam3 := by
    rw [hlam3, lambda3_eq]
    exact foldl_ge _ (fun l a => (lambda3Step_ge l a).1) _ _
  obtain ⟨sets, lams, as, t, he, hs, _⟩ := pmfrSlice_spec hS hR hg (finish := finish j) hd hL hLd hεd hE
    (fun i _ => hy i) (j + 1) X0 ∅ (Finset.range j) ∅ _ lam0 lam3 false
    (by
      have := Finset.card_le_card hmin.sub
      rw [Finset.card_range] at this
      simp; omega)
    ⟨hne, hleast, h0, by
      intro l hl
      cases hl
      refine ⟨lambda3_empty hg hjn, ?_, (lambda3_gran hE hy _).div hL⟩
      unfold lam0; linarith, by simp⟩
    (hmk _ hi3) subset_rfl hmin.sub
  rw [insert_empty_eq] at he
  rw [he]
  simp only [Outcome.ok_bind, Outcome.pure_eq]
  refine ⟨X0, t, ?_, ⟨hleast, hs.ne, hs.chain, hs.last, hs.lo, hs.inc, hs.gran⟩⟩
  congr 2
  · apply sort_chain
    · have e := slast_eq X0 hs.ne
      rw [hs.last] at e
      rw [e, List.map_cons, List.map_append]
      refine List.Perm.cons _ ?_
      refine (List.Perm.cons _ hs.sets).trans ?_
      simp only [List.map_cons, List.map_nil, insert_empty_eq]
      exact (List.perm_append_comm (l₁ := [({j} : Finset ℕ)]))
    · rw [List.pairwise_map]
      refine (hs.chain.pairwise.imp_of_mem ?_)
      intro a b ha hb hab
      have hjn : ∀ Z ∈ X0 :: t.map Prod.snd, j ∉ Z := by
        intro Z hZ hj
        rcases List.mem_cons.1 hZ with rfl | hZ
        · simpa using hmin.sub hj
        · simpa using hs.chain.mem_range Z hZ hj
      refine ⟨Finset.insert_subset_insert _ hab.1, fun h => hab.2 ?_⟩
      intro v hv
      have := h (Finset.mem_insert_of_mem hv)
      rcases Finset.mem_insert.1 this with h' | h'
      · exact absurd (h' ▸ hv) (hjn a ha)
      · exact h'
  · have := hs.lams
    have h1 := List.perm_insertionSort (· ≤ ·) lams
    have h2 := List.pairwise_insertionSort (· ≤ ·) lams
    exact List.Perm.eq_of_pairwise' (r := (· ≤ ·)) h2 (hs.inc.imp le_of_lt) (h1.trans this)

theorem pmfrRun_pmfSpec {S : FlowSolver} {R : SrcSolver} (hS : S.Minimal) (hR : R.Minimal) {g : Digraph}
    (hg : PGood g.arcs ε) {n : ℕ} (hnodes : ∀ i < n, i ∈ g.nodes) (hn : g.countNodes = n)
    (finish : ℕ → CSet → CSet → Finish) : PmfSpec (pmfrRun S R ε g finish) ε g.arcs n := by
  intro j _ hjn d hd hεd hE h0 y hy hneg
  have hL : j ! ≠ 0 := Nat.factorial_ne_zero j
  exact pmfrRun_spec (y := y) hS hR hg (fun i hi => hnodes i (by omega)) (by rw [hn]; exact hjn) hd hL
    (fun c hc hcj => Nat.dvd_factorial hc hcj) hεd hE hy (h0.div hL) hneg

/-- **`PDT_R::run`** on a new object, whichever threads deliver. -/
theorem pdtrRun_spec {S : FlowSolver} {R : SrcSolver} (hS : S.Minimal) (hR : R.Minimal) {g : Digraph} {n : ℕ}
    (hgd : GoodDigraph g n) (finish : ℕ → CSet → CSet → Finish)
    (hn : 0 < n) (hg : PGood g.arcs ε) {u : ℚ} (hu : 0 < u) (hE : ∀ e ∈ g.arcs, Gran u e.cap)
    (h0 : Gran u lam0) (hε : 10 * ε * (sf (n - 1) : ℕ) < u) :
    ∃ r, pdtrRun S R ε finish g = .ok r ∧ IsPrincipalSequence g.arcs (Finset.range n) r.psp r.cv := by
  obtain ⟨r, y, h1, h2⟩ := pdtRunWith_spec (pmfrRun_pmfSpec hS hR hg
    (fun i hi => by rw [hgd.nodes]; exact List.mem_range.2 hi) hgd.countNodes finish) hgd hn hg hu hE h0 hε
  refine ⟨r, ?_, h2⟩
  unfold pdtrRun pdtrRunFrom
  rw [h1]
  rfl

end PSP.Theory
