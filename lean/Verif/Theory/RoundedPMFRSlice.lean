import Verif.Theory.RoundedPMFRNet

/-!
# `PMF_R::slice` with rounded arithmetic
-/

namespace PSP.Theory

open PSP.Spec PSP.Model

variable {E : List Arc} {ε : ℚ} {j n : ℕ} {y : ℕ → YPair} {lam l m e e' d : ℚ} {X Y V Xl Xr A B : Finset ℕ}
  {fl : ℚ → ℚ} {r H v : ℚ} {arcs : List NArc} {base : ℕ → ℚ × ℚ} {σ τ : ℕ → ℚ} {ao io : List Arc → List Arc}
  {no : List NArc → List NArc} {W : WarmSolver}

/-! ### one-sided errors -/

/-- `X` costs at most `e` more than any larger set. -/
def UpAt (E : List Arc) (j : ℕ) (y : ℕ → YPair) (e lam : ℚ) (X : Finset ℕ) : Prop :=
  ∀ Z ⊆ Finset.range j, obj E j y lam X ≤ obj E j y lam (X ∪ Z) + e

/-- `X` costs at most `e` more than any smaller set. -/
def DownAt (E : List Arc) (j : ℕ) (y : ℕ → YPair) (e lam : ℚ) (X : Finset ℕ) : Prop :=
  ∀ Z ⊆ Finset.range j, obj E j y lam X ≤ obj E j y lam (X ∩ Z) + e

theorem UpAt.move (h : UpAt E j y e l X) (hlm : l ≤ m) : UpAt E j y e m X := by
  intro Z hZ
  have h1 := h Z hZ
  have h2 := obj_mono (E := E) (j := j) (y := y) hlm (Finset.subset_union_left : X ⊆ X ∪ Z)
  linarith

theorem DownAt.move (h : DownAt E j y e m X) (hlm : l ≤ m) : DownAt E j y e l X := by
  intro Z hZ
  have h1 := h Z hZ
  have h2 := obj_mono (E := E) (j := j) (y := y) hlm (Finset.inter_subset_left : X ∩ Z ⊆ X)
  linarith

theorem UpAt.mono (h : UpAt E j y e l X) (he : e ≤ e') : UpAt E j y e' l X := by
  intro Z hZ
  have h1 := h Z hZ
  linarith

theorem DownAt.mono (h : DownAt E j y e l X) (he : e ≤ e') : DownAt E j y e' l X := by
  intro Z hZ
  have h1 := h Z hZ
  linarith

theorem near_of (hE : NonnegE E) (hX : X ⊆ Finset.range j) (hu : UpAt E j y e l X) (hd : DownAt E j y e' l X) :
    NearAt E j y (e + e') l X := by
  refine ⟨hX, fun Z hZ => ?_⟩
  have h1 := hu Z hZ
  have h2 := hd Z hZ
  have h3 := obj_submodular (j := j) (y := y) hE l X Z
  linarith

theorem up_of_range (hE : NonnegE E) (hBY : B ⊆ Y) (hYA : Y ⊆ A) (hA : A ⊆ Finset.range j)
    (hle : ∀ Z, B ⊆ Z → Z ⊆ A → obj E j y l Y ≤ obj E j y l Z + d) (hu : UpAt E j y e l A) :
    UpAt E j y (e + d) l Y := by
  intro Z hZ
  have h1 := hle ((Y ∪ Z) ∩ A) (Finset.subset_inter (hBY.trans Finset.subset_union_left) (hBY.trans hYA))
    Finset.inter_subset_right
  have h2 := obj_submodular (j := j) (y := y) hE l (Y ∪ Z) A
  have h3 := hu (Y ∪ Z) (Finset.union_subset (hYA.trans hA) hZ)
  rw [Finset.union_comm A] at h3
  linarith

theorem down_of_range (hE : NonnegE E) (hBY : B ⊆ Y) (hYA : Y ⊆ A) (hA : A ⊆ Finset.range j)
    (hle : ∀ Z, B ⊆ Z → Z ⊆ A → obj E j y l Y ≤ obj E j y l Z + d) (hd : DownAt E j y e l B) :
    DownAt E j y (e + d) l Y := by
  intro Z hZ
  have h1 := hle ((Y ∩ Z) ∪ B) Finset.subset_union_right
    (Finset.union_subset (Finset.inter_subset_left.trans hYA) (hBY.trans hYA))
  have h2 := obj_submodular (j := j) (y := y) hE l (Y ∩ Z) B
  have h3 := hd (Y ∩ Z) (Finset.inter_subset_right.trans hZ)
  rw [Finset.inter_comm B] at h3
  linarith

/-! ### the results of the threads -/

/-- What a thread delivers: the least minimum cut and its capacity up to a relative error. -/
structure ResF (N : Net) (v : ℚ) (X : Finset ℕ) (value : ℚ) : Prop where
  sub : X ⊆ N.verts
  le : ∀ Z ⊆ N.verts, N.cutCap X ≤ N.cutCap Z
  least : ∀ Z ⊆ N.verts, N.cutCap Z ≤ N.cutCap X → X ⊆ Z
  value : |value - N.cutCap X| ≤ v * N.cutCap X

theorem left_resF {S : FlowSolver} (hS : FlowLeast S v) {N : Net} (hN : N.Nonneg) :
    ResF N v (S.sinkSide N) (S.flowValue N) :=
  ⟨Finset.filter_subset _ _, hS.le_cut N hN,
    fun Z hZ hle => hS.least N hN Z hZ (le_antisymm hle (hS.le_cut N hN Z hZ)), hS.value N hN⟩

theorem right_resF {R : SrcSolver} (hR : SrcLeast R v) {N : Net} (hN : N.Nonneg)
    (hl : ∀ e ∈ N.arcs, ∀ i, e.a = .v i → i ∈ N.verts) (hr : ∀ e ∈ N.arcs, ∀ i, e.b = .v i → i ∈ N.verts) :
    ResF N v (R.srcSide N.rev) (R.flowValue N.rev) := by
  have hN' : N.rev.Nonneg := by
    intro e he
    obtain ⟨e', he', rfl⟩ := List.mem_map.1 he
    exact hN e' he'
  have hcut : ∀ Z, N.rev.cutCap (N.verts \ Z) = N.cutCap Z := rev_cut hl hr
  have hsub : R.srcSide N.rev ⊆ N.verts := Finset.filter_subset _ _
  have hle : ∀ Z ⊆ N.verts, N.cutCap (R.srcSide N.rev) ≤ N.cutCap Z := by
    intro Z hZ
    rw [← hcut, ← hcut]
    exact hR.le_cut N.rev hN' _ Finset.sdiff_subset
  refine ⟨hsub, hle, ?_, ?_⟩
  · intro Z hZ h
    have h := le_antisymm h (hle Z hZ)
    rw [← hcut, ← hcut (R.srcSide N.rev)] at h
    have := hR.least N.rev hN' _ Finset.sdiff_subset h
    rwa [show N.rev.verts = N.verts from rfl, Finset.sdiff_sdiff_eq_self hZ] at this
  · rw [← hcut]; exact hR.value N.rev hN'

theorem resF_least {value : ℚ} (hinv : RInv E V arcs) (h : ResF ⟨V, setDig σ τ arcs⟩ v X value) :
    VLeast (gObj E V σ τ) V X := by
  have hc := fun Z => setDig_cut_eq (σ := σ) (τ := τ) (X := Z) hinv V
  refine ⟨h.sub, fun Z hZ => ?_, fun Z hZ hle => h.least Z hZ (by rw [hc, hc]; linarith)⟩
  have := h.le Z hZ
  rw [hc, hc] at this
  linarith

/-- The least minimiser of a contracted network almost minimises between `B` and `A`. -/
theorem vleast_close (h : RSetup fl ao no W v ε r H E n j y) (hinv : RInv E (A \ B) arcs) (hBA : B ⊆ A)
    (hA : A ⊆ Finset.range j) (hb : BaseOk E j (n * r) A B base) (hl : -1 ≤ lam) (hl2 : lam ≤ 2 * H)
    (hX : VLeast (gObj E (A \ B) (srcRF fl y base lam) (snkRF fl y base lam)) (A \ B) X) :
    ∀ Z, B ⊆ Z → Z ⊆ A → obj E j y lam (B ∪ X) ≤ obj E j y lam Z + 6 * (n * n * r) := by
  intro Z hBZ hZA
  obtain ⟨c, hc⟩ := gObj_close h hinv hBA hA hb hl hl2
  have hZ : Z \ B ⊆ A \ B := Finset.sdiff_subset_sdiff hZA subset_rfl
  have h1 := abs_le.1 (hc X hX.sub)
  have h2 := abs_le.1 (hc (Z \ B) hZ)
  rw [Finset.union_sdiff_of_subset hBZ] at h2
  have h3 := hX.le _ hZ
  linarith

/-! ### one call -/

/-- A network for the search between `B` and `A`. -/
structure FGood (E : List Arc) (j n : ℕ) (r H : ℚ) (A B : Finset ℕ) (G : RNet) : Prop where
  sub : B ⊆ A
  range : A ⊆ Finset.range j
  verts : G.verts = A \ B
  arcs : RArcs E j n H (A \ B) G.arcs
  base : BaseOk E j (n * r) A B G.base

/-- What a call of `slice` is given, with a network for the search between `B` and `A`. -/
structure FPre (fl : ℚ → ℚ) (n : ℕ) (r H : ℚ) (E : List Arc) (j : ℕ) (y : ℕ → YPair) (Xl Xr A B : Finset ℕ)
    (base : ℕ → ℚ × ℚ) (lam1 lam3 : ℚ) (c : Bool) : Prop where
  sub : Xr ⊂ Xl
  rr : B ⊆ Xr
  ll : Xl ⊆ A
  lo : -1 ≤ lam1
  hi : lam1 ≤ 2 * H
  le : lam1 ≤ lam3
  hi3 : lam3 ≤ 6 * H
  upA : UpAt E j y (6 * (n * n * r) * (j - (A \ B).card)) lam1 A
  downB : DownAt E j y (6 * (n * n * r) * (j - (A \ B).card)) lam3 B
  upl : UpAt E j y (6 * (n * n * r) * (j - (A \ B).card + 1)) lam1 Xl
  downl : DownAt E j y (6 * (n * n * r) * (j - (A \ B).card + 1)) lam1 Xl
  upr : UpAt E j y (6 * (n * n * r) * (j - (A \ B).card + 1)) lam3 Xr
  downr : DownAt E j y (6 * (n * n * r) * (j - (A \ B).card + 1)) lam3 Xr
  lt : c = true → (Xl \ Xr).card < (A \ B).card
  left : c = false → Xl = A ∨ VLeast (gObj E (A \ B) (srcRF fl y base lam1) (snkRF fl y base lam1)) (A \ B) (Xl \ B)
  right : c = false → Xr = B ∨ VLeast (gObj E (A \ B) (srcRF fl y base lam3) (snkRF fl y base lam3)) (A \ B) (Xr \ B)

/-- The network used by a call: contracted or not. -/
theorem sliceNetF_good (h : RSetup fl ao no W v ε r H E n j y) (hio : ∀ l, (io l).Perm l) {G : RNet} {lam1 lam3 : ℚ}
    {c : Bool} (hG : FGood E j n r H A B G) (hp : FPre fl n r H E j y Xl Xr A B G.base lam1 lam3 c) (lam : ℚ) :
    ∃ A' B' arcs' base', sliceNetF fl io no ε E j y G (insert j Xl) (insert j Xr) lam c =
        ⟨A' \ B', setDig (srcRF fl y base' lam) (snkRF fl y base' lam) arcs', base'⟩ ∧
      B' ⊆ A' ∧ A' ⊆ Finset.range j ∧ RInv E (A' \ B') arcs' ∧ stSum arcs' ≤ 11 * H * (j - (A' \ B').card) ∧
      (arcs'.length : ℚ) ≤ 3 * (n * n) ∧ BaseOk E j (n * r) A' B' base' ∧
      FPre fl n r H E j y Xl Xr A' B' base' lam1 lam3 false ∧ (c = false → A' = A ∧ B' = B) := by
  have hlj := hp.ll.trans hG.range
  cases c with
  | false =>
    refine ⟨A, B, G.arcs, G.base, ?_, hG.sub, hG.range, hG.arcs.inv, hG.arcs.st, hG.arcs.len, hG.base, hp,
      fun _ => ⟨rfl, rfl⟩⟩
    unfold sliceNetF
    simp only [Bool.false_eq_true, if_false]
    rw [updateDigF_eq, hG.verts]
  | true =>
    have hmono : Xl \ Xr ⊆ A \ B := Finset.sdiff_subset_sdiff hp.ll hp.rr
    have hlt := hp.lt rfl
    obtain ⟨c1, c2, c3⟩ := contract_arcs h hG.arcs (Finset.sdiff_subset.trans hG.range) hp.sub.1 hlj hmono hlt
    refine ⟨Xl, Xr, _, _, ?_, hp.sub.1, hlj, c1, c2, c3, newBaseF_ok h hio hlj hp.sub.1, ?_, by simp⟩
    · unfold sliceNetF
      simp only [if_true]
      rw [updateDigF_eq]
      congr 1
      ext i
      simp only [Finset.mem_filter, Finset.mem_range, Finset.mem_insert, Finset.mem_sdiff]
      constructor
      · rintro ⟨h1, h2, h3⟩
        push Not at h2 h3
        exact ⟨(h2 (by omega)).resolve_left h3.1, h3.2⟩
      · rintro ⟨h1, h2⟩
        have := Finset.mem_range.1 (hlj h1)
        refine ⟨this, fun h => h.2 (Or.inr h1), ?_⟩
        rintro (h | h)
        · omega
        · exact h2 h
    · obtain ⟨n1, n2, n3, hr, n5, n6, n7, n8, n9, n10, n11⟩ := h.nums
      have hlt' : ((Xl \ Xr).card : ℚ) + 1 ≤ (A \ B).card := by exact_mod_cast hlt
      have k1 : 6 * (n * n * r) * (j - (A \ B).card + 1) ≤ 6 * (n * n * r) * ((j : ℚ) - (Xl \ Xr).card) :=
        mul_le_mul_of_nonneg_left (by linarith) (by linarith)
      have k2 : 6 * (n * n * r) * (j - (A \ B).card + 1) ≤ 6 * (n * n * r) * ((j : ℚ) - (Xl \ Xr).card + 1) :=
        mul_le_mul_of_nonneg_left (by linarith) (by linarith)
      exact ⟨hp.sub, subset_rfl, subset_rfl, hp.lo, hp.hi, hp.le, hp.hi3, hp.upl.mono k1, hp.downr.mono k1,
        hp.upl.mono k2, hp.downl.mono k2, hp.upr.mono k2, hp.downr.mono k2, by simp, fun _ => Or.inl rfl,
        fun _ => Or.inl rfl⟩

/-- The number of rounds adds up to a small error. -/
theorem FPre.small (h : RSetup fl ao no W v ε r H E n j y) (hA : A ⊆ Finset.range j) {lam1 lam3 : ℚ} {c : Bool}
    (hp : FPre fl n r H E j y Xl Xr A B base lam1 lam3 c) :
    6 * (n * n * r) * ((j : ℚ) - (A \ B).card + 1) ≤ 6 * (n * n * n * r) := by
  obtain ⟨n1, n2, n3, hr, n5, n6, n7, n8, n9, n10, n11⟩ := h.nums
  obtain ⟨i, hil, hir⟩ := Finset.exists_of_ssubset hp.sub
  have h1 : 0 < (A \ B).card := Finset.card_pos.2
    ⟨i, Finset.mem_sdiff.2 ⟨hp.ll hil, fun h => hir (hp.rr h)⟩⟩
  have h2 : (1 : ℚ) ≤ (A \ B).card := by exact_mod_cast h1
  have h3 : 6 * (n * n * r) * ((j : ℚ) - (A \ B).card + 1) ≤ 6 * (n * n * r) * n :=
    mul_le_mul_of_nonneg_left (by linarith) (by linarith)
  linarith

theorem FPre.near_left (h : RSetup fl ao no W v ε r H E n j y) (hA : A ⊆ Finset.range j) {lam1 lam3 : ℚ} {c : Bool}
    (hp : FPre fl n r H E j y Xl Xr A B base lam1 lam3 c) : NearAt E j y (12 * (n * n * n * r)) lam1 Xl :=
  (near_of h.good.nonneg (hp.ll.trans hA) hp.upl hp.downl).mono (by linarith [hp.small h hA])

theorem FPre.near_right (h : RSetup fl ao no W v ε r H E n j y) (hA : A ⊆ Finset.range j) {lam1 lam3 : ℚ} {c : Bool}
    (hp : FPre fl n r H E j y Xl Xr A B base lam1 lam3 c) : NearAt E j y (12 * (n * n * n * r)) lam3 Xr :=
  (near_of h.good.nonneg (hp.sub.1.trans (hp.ll.trans hA)) hp.upr hp.downr).mono (by linarith [hp.small h hA])

/-- The set found between `Xr` and `Xl`. -/
theorem FPre.found (h : RSetup fl ao no W v ε r H E n j y) {lam1 lam3 : ℚ}
    (hp : FPre fl n r H E j y Xl Xr A B base lam1 lam3 false) (h1 : lam1 ≤ lam) (h3 : lam ≤ lam3)
    (hX : VLeast (gObj E (A \ B) (srcRF fl y base lam) (snkRF fl y base lam)) (A \ B) X) :
    X ∪ Xr = B ∪ X ∧ Xr ⊆ B ∪ X ∧ B ∪ X ⊆ Xl ∧ (B ∪ X) \ B = X := by
  have hm := h.err.mono
  have hrX : Xr ⊆ B ∪ X := by
    rcases hp.right rfl with h' | h'
    · rw [h']; exact Finset.subset_union_left
    · have := VLeast.subset h.good.nonneg (fun i _ => srcRF_mono hm h3 y base i) (fun i _ => snkRF_anti hm h3 y base i)
        hX h'
      intro i hi
      by_cases hB : i ∈ B
      · exact Finset.mem_union_left _ hB
      · exact Finset.mem_union_right _ (this (Finset.mem_sdiff.2 ⟨hi, hB⟩))
  have hXl : B ∪ X ⊆ Xl := by
    refine Finset.union_subset (hp.rr.trans hp.sub.1) ?_
    rcases hp.left rfl with h' | h'
    · rw [h']; exact hX.sub.trans Finset.sdiff_subset
    · have := VLeast.subset h.good.nonneg (fun i _ => srcRF_mono hm h1 y base i) (fun i _ => snkRF_anti hm h1 y base i)
        h' hX
      exact this.trans Finset.sdiff_subset
  refine ⟨?_, hrX, hXl, ?_⟩
  · apply Finset.Subset.antisymm
    · exact Finset.union_subset Finset.subset_union_right hrX
    · exact Finset.union_subset (hp.rr.trans Finset.subset_union_right) Finset.subset_union_left
  · rw [Finset.union_sdiff_cancel_left]
    exact Finset.disjoint_left.2 fun i hB hi => (Finset.mem_sdiff.1 (hX.sub hi)).2 hB

/-- The two calls for the parts. -/
theorem FPre.split (h : RSetup fl ao no W v ε r H E n j y) {lam1 lam3 : ℚ} (hinv : RInv E (A \ B) arcs) (hBA : B ⊆ A)
    (hA : A ⊆ Finset.range j) (hb : BaseOk E j (n * r) A B base)
    (hp : FPre fl n r H E j y Xl Xr A B base lam1 lam3 false) (h1 : lam1 ≤ lam) (h3 : lam ≤ lam3) (h2 : lam ≤ 2 * H)
    (hX : VLeast (gObj E (A \ B) (srcRF fl y base lam) (snkRF fl y base lam)) (A \ B) X) (hTr : B ∪ X ≠ Xr)
    (hTl : B ∪ X ≠ Xl) (c : Bool) :
    FPre fl n r H E j y Xl (B ∪ X) A B base lam1 lam c ∧ FPre fl n r H E j y (B ∪ X) Xr A B base lam lam3 c := by
  obtain ⟨_, hrX, hXl, hdiff⟩ := hp.found h h1 h3 hX
  have hlo : -1 ≤ lam := hp.lo.trans h1
  have hcl := vleast_close h hinv hBA hA hb hlo h2 hX
  have hBX : B ⊆ B ∪ X := Finset.subset_union_left
  have hTA : B ∪ X ⊆ A := hXl.trans hp.ll
  have hsa : B ∪ X ⊂ Xl := lt_of_le_of_ne hXl hTl
  have hsb : Xr ⊂ B ∪ X := lt_of_le_of_ne hrX fun h => hTr h.symm
  have e1 : 6 * (n * n * r) * ((j : ℚ) - (A \ B).card) + 6 * (n * n * r) =
      6 * (n * n * r) * ((j : ℚ) - (A \ B).card + 1) := by ring
  have hup := up_of_range h.good.nonneg hBX hTA hA hcl (hp.upA.move h1)
  have hdown := down_of_range h.good.nonneg hBX hTA hA hcl (hp.downB.move h3)
  rw [e1] at hup hdown
  constructor
  · refine ⟨hsa, hBX, hp.ll, hp.lo, hp.hi, h1, by linarith [h.H1], hp.upA, hp.downB.move h3, hp.upl, hp.downl, hup,
      hdown, ?_, fun _ => hp.left rfl, fun _ => Or.inr (by rw [hdiff]; exact hX)⟩
    intro _
    apply Finset.card_lt_card
    obtain ⟨i, hi, hi'⟩ := Finset.exists_of_ssubset hsb
    refine ⟨Finset.sdiff_subset_sdiff hp.ll hBX, fun hss => ?_⟩
    have := hss (Finset.mem_sdiff.2 ⟨hTA hi, fun h => hi' (hp.rr h)⟩)
    exact (Finset.mem_sdiff.1 this).2 hi
  · refine ⟨hsb, hp.rr, hTA, hlo, h2, h3, hp.hi3, hp.upA.move h1, hp.downB, hup, hdown, hp.upr, hp.downr, ?_,
      fun _ => Or.inr (by rw [hdiff]; exact hX), fun _ => hp.right rfl⟩
    intro _
    apply Finset.card_lt_card
    obtain ⟨i, hi, hi'⟩ := Finset.exists_of_ssubset hsa
    refine ⟨Finset.sdiff_subset_sdiff hTA hp.rr, fun hss => ?_⟩
    have := hss (Finset.mem_sdiff.2 ⟨hp.ll hi, fun h => hi' (hBX h)⟩)
    exact hi' (Finset.mem_sdiff.1 this).1

/-- If the value found is not smaller by the tolerance, `Xr` almost minimises. -/
theorem no_improvement (h : RSetup fl ao no W v ε r H E n j y) (hinv : RInv E (A \ B) arcs)
    (hst : stSum arcs ≤ 11 * H * (j - (A \ B).card)) (hlen : (arcs.length : ℚ) ≤ 3 * (n * n)) (hBA : B ⊆ A)
    (hA : A ⊆ Finset.range j) (hb : BaseOk E j (n * r) A B base) (hl : -1 ≤ lam) (hl2 : lam ≤ 2 * H) (hBr : B ⊆ Xr)
    (hrA : Xr ⊆ A) {value : ℚ}
    (hres : ResF ⟨A \ B, setDig (srcRF fl y base lam) (snkRF fl y base lam) arcs⟩ v X value)
    (hle : fl (netCutF fl no (setDig (srcRF fl y base lam) (snkRF fl y base lam) arcs) Xr - fl (10 * ε)) ≤ value) :
    obj E j y lam Xr ≤ obj E j y lam (B ∪ X) + (10 * ε + 12 * (v * n * H) + 47 * (n * n * n * r)) := by
  obtain ⟨n1, n2, n3, hr, n5, n6, n7, n8, n9, n10, n11⟩ := h.nums
  have hH1 := h.H1
  have hε1 := h.ε1
  have hε0 := h.good.pos
  have hcb := fun i hi => caps_bound (i := i) h hA hb hl (by linarith : lam ≤ 6 * H) hi
  have hVj : A \ B ⊆ Finset.range j := Finset.sdiff_subset.trans hA
  obtain ⟨c1, c2⟩ := cut_bound h hVj hinv hst (fun i hi => (hcb i hi).2) (fun i hi => (hcb i hi).1) (A \ B) X
  obtain ⟨c3, c4⟩ := cut_bound h hVj hinv hst (fun i hi => (hcb i hi).2) (fun i hi => (hcb i hi).1) (A \ B) Xr
  have hinv' := setDig_inv hinv fun i hi => (hcb i hi).1
  have hcut := netCutF_close (X := Xr) (U := A \ B) h hinv' (by unfold setDig; rwa [List.length_map]) c4
  obtain ⟨c, hc⟩ := gObj_close h hinv hBA hA hb hl hl2
  have k1 := abs_le.1 (hc X hres.sub)
  have k2 := abs_le.1 (hc (Xr ∩ (A \ B)) Finset.inter_subset_right)
  have hXr : B ∪ Xr ∩ (A \ B) = Xr := by
    ext i
    simp only [Finset.mem_union, Finset.mem_inter, Finset.mem_sdiff]
    constructor
    · rintro (h | h)
      · exact hBr h
      · exact h.1
    · intro h
      by_cases hv : i ∈ B
      · exact Or.inl hv
      · exact Or.inr ⟨h, hrA h, hv⟩
  rw [hXr] at k2
  have e1 := cut_inter (X := Xr) hinv' (A \ B)
  rw [setDig_cut_eq hinv, setDig_cut_eq hinv] at e1
  have hval := hres.value
  have hvb : v * (Net.mk (A \ B) (setDig (srcRF fl y base lam) (snkRF fl y base lam) arcs)).cutCap X ≤
      12 * (v * n * H) := by
    have : v * (Net.mk (A \ B) (setDig (srcRF fl y base lam) (snkRF fl y base lam) arcs)).cutCap X ≤
        v * (12 * n * H) := by
      apply mul_le_mul_of_nonneg_left _ h.v0
      refine c2.trans ?_
      nlinarith
    linarith
  have hval := hval.trans hvb
  have hjH : H ≤ j * H := by nlinarith
  have hjr : (j : ℚ) * r ≤ n * r := mul_le_mul_of_nonneg_right (by linarith) hr
  have hcut := abs_le.1 hcut
  have ha1 := abs_le.1 (h.err.err 10 (10 * ε) (by
    rw [abs_le]; constructor <;> linarith))
  have ha2 := abs_le.1 (h.err.errK (14 * j) (netCutF fl no (setDig (srcRF fl y base lam) (snkRF fl y base lam) arcs) Xr -
    fl (10 * ε)) (by rw [abs_le]; constructor <;> linarith) (by linarith) (by linarith))
  have hval := abs_le.1 hval
  rw [setDig_cut_eq hinv] at hcut hval
  linarith

set_option maxHeartbeats 1000000 in
/-- **`PMF_R::slice`** with rounded arithmetic, whichever threads deliver. -/
theorem pmfrSliceF_spec (h : RSetup fl ao no W v ε r H E n j y) (hio : ∀ l, (io l).Perm l) {S : FlowSolver}
    {R : SrcSolver} (hS : FlowLeast S v) (hR : SrcLeast R v) {finish : CSet → CSet → Finish} :
    ∀ (k : ℕ) (Xl Xr A B : Finset ℕ) (G : RNet) (lam1 lam3 : ℚ) (c : Bool),
    Xl.card ≤ Xr.card + k → FGood E j n r H A B G → FPre fl n r H E j y Xl Xr A B G.base lam1 lam3 c →
    OkOr False (pmfrSliceF fl ao io no S R ε E j y finish k G (insert j Xl) (insert j Xr) lam1 lam3 c) fun o =>
      (∃ t, RSpec E j y ((11 / 10 * j + 12) * ε) (11 / 10 * ε) (2 * H) Xl Xr lam1 (some lam3) o.1 o.2.1 t) ∧
      RArcs E j n H (A \ B) o.2.2 := by
  obtain ⟨n1, n2, n3, hr, n5, n6, n7, n8, n9, n10, n11⟩ := h.nums
  have hH1 := h.H1
  have hε1 := h.ε1
  have hε0 := h.good.pos
  have hsm := h.small
  have hv0 : (0 : ℚ) ≤ v * n * H := mul_nonneg (mul_nonneg h.v0 (by linarith)) (by linarith)
  have hjε : ε ≤ j * ε := by nlinarith
  intro k
  induction k with
  | zero =>
    intro Xl Xr A B G lam1 lam3 c hk _ hpre
    have := Finset.card_lt_card hpre.sub
    omega
  | succ k ih =>
    intro Xl Xr A B G lam1 lam3 c hk hG hpre
    have hXl := hpre.ll.trans hG.range
    have hXr := hpre.sub.1.trans hXl
    have hjl : j ∉ Xl := fun h => by simpa using hXl h
    have hjr : j ∉ Xr := fun h => by simpa using hXr h
    have hnl := hpre.near_left h hG.range
    have hnr := hpre.near_right h hG.range
    obtain ⟨lam2, hc, htop, hdiff⟩ := slice_lambda_close h (N := j + 2) (lam1 := lam1) (by omega) hpre.sub hXl (by
      have h1 := hpre.downl Xr hXr
      rw [Finset.inter_eq_right.2 hpre.sub.1] at h1
      have := hpre.small h hG.range
      linarith)
    have hdiff' := abs_le.1 hdiff
    unfold sliceList at hc
    unfold pmfrSliceF
    dsimp only
    rw [show j + 2 - 1 = j + 1 from rfl] at hc
    rw [hc]
    simp only [Outcome.ok_bind]
    by_cases hd1 : tolDifferentF fl ε lam2 lam1 = true
    swap
    · rw [if_pos (Or.inl hd1)]
      obtain ⟨c1, c2⟩ := close_of_not_different h.err (by linarith) (by linarith) hH1 hpre.lo hpre.hi hε0 hd1
      have hn := hnl.move (m := lam2) (c := 11 / 10 * ε) (by linarith) (by linarith)
      refine Or.inl ⟨_, rfl, ⟨[(lam2, Xr)], .leaf hpre.sub (hn.mono (by linarith))
        ((hn.of_diff hXr (c := ε + 73 * (n * n * n * r)) (by linarith)).mono (by linarith)) (by linarith) ?_ htop⟩,
        hG.arcs⟩
      intro l hl
      cases hl
      have := hpre.le
      linarith
    by_cases hd3 : tolDifferentF fl ε lam2 lam3 = true
    swap
    · rw [if_pos (Or.inr hd3)]
      obtain ⟨c1, c2⟩ := close_of_not_different_gen h.err (c := 7) (by norm_num) (by linarith) (by linarith) hH1
        (hpre.lo.trans hpre.le) (by linarith [hpre.hi3]) hε0 hd3
      have hn := hnr.move (m := lam2) (c := 11 / 10 * ε) (by linarith) (by linarith)
      refine Or.inl ⟨_, rfl, ⟨[(lam2, Xr)], .leaf hpre.sub
        ((hn.of_diff hXl (c := ε + 73 * (n * n * n * r)) (by linarith)).mono (by linarith))
        (hn.mono (by linarith)) (by linarith [hpre.le]) ?_ htop⟩, hG.arcs⟩
      intro l hl
      cases hl
      linarith
    rw [if_neg (by simp [hd1, hd3])]
    by_cases hmis : lam2 < lam1 ∨ lam3 < lam2
    · rw [if_pos hmis]
      exact Or.inr ⟨id, rfl⟩
    rw [if_neg hmis]
    push Not at hmis
    obtain ⟨h12, h23⟩ := hmis
    have hlo2 : -1 ≤ lam2 := hpre.lo.trans h12
    -- the network
    obtain ⟨A', B', arcs', base', hH, hBA, hA', hinv, hst, hlen, hb, hpe, hctx⟩ := sliceNetF_good h hio hG hpre lam2
    rw [hH]
    dsimp only
    rw [Finset.erase_insert hjr]
    have hcb := fun i hi => caps_bound (i := i) h hA' hb hlo2 (by linarith : lam2 ≤ 6 * H) hi
    have hinv' := setDig_inv hinv fun i hi => (hcb i hi).1
    have hra := setDig_arcs (n := n) hinv hst hlen (fun i hi => (hcb i hi).1) (fun i hi => (hcb i hi).2)
    set N : Net := ⟨A' \ B', setDig (srcRF fl y base' lam2) (snkRF fl y base' lam2) arcs'⟩ with hN
    -- the result of the threads
    have hres : ∃ X value, ResF N v X value ∧
        (if (leftResult S j N (finish (insert j Xl) (insert j Xr))).1.card = 0 then
          rightResult R j N (finish (insert j Xl) (insert j Xr))
        else leftResult S j N (finish (insert j Xl) (insert j Xr))) = (insert j X, value) := by
      have hl := left_resF hS (N := N) hinv'.nonneg
      have hr := right_resF hR (N := N) hinv'.nonneg hinv'.left hinv'.right
      cases hf : finish (insert j Xl) (insert j Xr) with
      | left => exact ⟨_, _, hl, by simp [leftResult, Finish.leftDone]⟩
      | right => exact ⟨_, _, hr, by simp [leftResult, rightResult, Finish.leftDone]⟩
      | both => exact ⟨_, _, hl, by simp [leftResult, Finish.leftDone]⟩
    obtain ⟨X, value, hres, hre⟩ := hres
    simp only [hre]
    have hX := resF_least hinv hres
    obtain ⟨hTe, hrT, hTl, hTB⟩ := hpe.found h h12 h23 hX
    have hun : insert j X ∪ insert j Xr = insert j (B' ∪ X) := by
      rw [← Finset.insert_union_distrib, hTe]
    rw [hun]
    have hTj := hTl.trans hXl
    have hcl := vleast_close h hinv hBA hA' hb hlo2 htop hX
    have hTA : B' ∪ X ⊆ A' := hTl.trans hpe.ll
    have hTn : NearAt E j y (12 * (n * n * n * r)) lam2 (B' ∪ X) := by
      have hup := up_of_range h.good.nonneg Finset.subset_union_left hTA hA' hcl (hpe.upA.move h12)
      have hdown := down_of_range h.good.nonneg Finset.subset_union_left hTA hA' hcl (hpe.downB.move h23)
      have := hpe.small h hA'
      exact (near_of h.good.nonneg hTj hup hdown).mono (by linarith)
    have hjT : j ∉ B' ∪ X := fun h => by simpa using hTj h
    have hinj : ∀ Z : Finset ℕ, j ∉ Z → (insert j (B' ∪ X) = insert j Z ↔ B' ∪ X = Z) := by
      intro Z hZ
      constructor
      · intro h
        have := congrArg (fun S => S.erase j) h
        simpa only [Finset.erase_insert hjT, Finset.erase_insert hZ] using this
      · intro h; rw [h]
    simp only [ne_eq, hinj Xr hjr, hinj Xl hjl]
    split
    · rename_i hcond
      obtain ⟨hTr, hTl', _⟩ := hcond
      have hsp := hpe.split h hinv hBA hA' hb h12 h23 htop hX hTr hTl'
      have hc1 := Finset.card_lt_card (hsp true).1.sub
      have hc2 := Finset.card_lt_card (hsp true).2.sub
      refine (ih Xl (B' ∪ X) A' B' ⟨A' \ B', setDig (srcRF fl y base' lam2) (snkRF fl y base' lam2) arcs', base'⟩
        lam1 lam2 _ (by omega) ⟨hBA, hA', rfl, hra, hb⟩ (hsp _).1).bind ?_
      rintro ⟨sa, la, aa⟩ ⟨⟨ta, ha⟩, hga⟩
      refine (ih (B' ∪ X) Xr A' B' ⟨A' \ B', aa, base'⟩ lam2 lam3 _ (by omega) ⟨hBA, hA', rfl, hga, hb⟩
        (hsp _).2).bind ?_
      rintro ⟨sb, lb, ab⟩ ⟨⟨tb, hb'⟩, hgb⟩
      refine Or.inl ⟨_, rfl, ⟨ta ++ tb, ha.append hb' h12 fun l hl => by cases hl; exact h23⟩, ?_⟩
      cases c with
      | true => exact hG.arcs
      | false =>
        obtain ⟨rfl, rfl⟩ := hctx rfl
        exact hgb
    · rename_i hcond
      have hnr : NearAt E j y ((11 / 10 * j + 12) * ε - (ε + 73 * (n * n * n * r))) lam2 Xr := by
        by_cases hTr : B' ∪ X = Xr
        · rw [← hTr]; exact hTn.mono (by linarith)
        · by_cases hTl : B' ∪ X = Xl
          · rw [hTl] at hTn
            exact (hTn.of_diff hXr (c := ε + 73 * (n * n * n * r)) (by linarith)).mono (by linarith)
          · have hnot := not_lt.1 fun hlt => hcond ⟨hTr, hTl, hlt⟩
            have hd := no_improvement h hinv hst hlen hBA hA' hb hlo2 htop hpe.rr (hrT.trans hTA) hres hnot
            exact (hTn.of_diff hXr hd).mono (by linarith)
      refine Or.inl ⟨_, rfl, ⟨[(lam2, Xr)], .leaf hpre.sub
        ((hnr.of_diff hXl (c := ε + 73 * (n * n * n * r)) (by linarith)).mono (by linarith))
        (hnr.mono (by linarith)) (by linarith) ?_ htop⟩, ?_⟩
      · intro l hl
        cases hl
        linarith
      · cases c with
        | true => exact hG.arcs
        | false =>
          obtain ⟨rfl, rfl⟩ := hctx rfl
          exact hra

end PSP.Theory
