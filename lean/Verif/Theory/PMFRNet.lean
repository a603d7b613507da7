import Verif.Model.PMFR
import Verif.Theory.PMFRun

/-!
# The networks of `PMF_R`: contraction and cut capacities
-/

namespace PSP.Theory

open PSP.Spec PSP.Model

variable {E : List Arc} {ε : ℚ} {j : ℕ} {y : ℕ → YPair} {lam : ℚ} {X V Xl Xr : Finset ℕ}
  {arcs : List NArc} {base : ℕ → ℚ × ℚ}

/-- An arc between ordinary nodes. -/
def innerOf (e : NArc) : Option Arc :=
  match e.a, e.b with
  | .v s, .v t => some ⟨s, t, e.cap⟩
  | _, _ => none

/-- Number of arcs from the source to node `i`. -/
def cntS (arcs : List NArc) (i : ℕ) : ℕ := arcs.countP fun e => e.a = .src ∧ e.b = .v i

/-- Number of arcs from node `i` to the sink. -/
def cntT (arcs : List NArc) (i : ℕ) : ℕ := arcs.countP fun e => e.a = .v i ∧ e.b = .snk

/-- Capacity of the arcs from the source to the sink. -/
def stSum (arcs : List NArc) : ℚ := (arcs.map fun e => if e.a = .src ∧ e.b = .snk then e.cap else 0).sum

/-- Shape of a network on the nodes `V`. -/
structure RInv (E : List Arc) (V : Finset ℕ) (arcs : List NArc) : Prop where
  inner : arcs.filterMap innerOf = E.filter fun a => a.src ∈ V ∧ a.dst ∈ V
  source : ∀ i ∈ V, cntS arcs i = 1
  sink : ∀ i ∈ V, cntT arcs i = 1
  left : ∀ e ∈ arcs, ∀ i, e.a = .v i → i ∈ V
  right : ∀ e ∈ arcs, ∀ i, e.b = .v i → i ∈ V
  nonneg : ∀ e ∈ arcs, 0 ≤ e.cap

/-- Capacity of the arc from the source to `i` after `update_dig`. -/
def srcCap (y : ℕ → YPair) (lam : ℚ) (base : ℕ → ℚ × ℚ) (i : ℕ) : ℚ :=
  (if yVal lam (y i) < 0 then -yVal lam (y i) else 0) + (base i).1

/-- Capacity of the arc from `i` to the sink after `update_dig`. -/
def snkCap (y : ℕ → YPair) (lam : ℚ) (base : ℕ → ℚ × ℚ) (i : ℕ) : ℚ :=
  (base i).2 + max 0 (yVal lam (y i))

/-- Set the capacities of the arcs from the source and to the sink. -/
def setArc (σ τ : ℕ → ℚ) : NArc → NArc
  | ⟨.src, .v i, _⟩ => ⟨.src, .v i, σ i⟩
  | ⟨.v i, .snk, _⟩ => ⟨.v i, .snk, τ i⟩
  | e => e

/-- The same for all arcs. -/
def setDig (σ τ : ℕ → ℚ) (arcs : List NArc) : List NArc := arcs.map (setArc σ τ)

theorem updateDig_eq (arcs : List NArc) : updateDig y lam base arcs = setDig (srcCap y lam base) (snkCap y lam base) arcs := by
  unfold updateDig setDig
  apply List.map_congr_left
  rintro ⟨a, b, c⟩ _
  cases a <;> cases b <;> rfl

theorem setDig_cut (σ τ : ℕ → ℚ) (hl : ∀ e ∈ arcs, ∀ i, e.a = .v i → i ∈ V)
    (hr : ∀ e ∈ arcs, ∀ i, e.b = .v i → i ∈ V) (W : Finset ℕ) :
    (Net.mk W (setDig σ τ arcs)).cutCap X =
      ((arcs.filterMap innerOf).map fun a => if a.src ∉ X ∧ a.dst ∈ X then a.cap else 0).sum +
      ∑ i ∈ V, (cntS arcs i : ℚ) * (if i ∈ X then σ i else 0) +
      ∑ i ∈ V, (cntT arcs i : ℚ) * (if i ∈ X then 0 else τ i) + stSum arcs := by
  unfold Net.cutCap setDig
  dsimp only
  rw [List.map_map]
  induction arcs with
  | nil => simp [cntS, cntT, stSum]
  | cons e arcs ih =>
    have ih := ih (fun e he => hl e (List.mem_cons_of_mem _ he))
      (fun e he => hr e (List.mem_cons_of_mem _ he))
    have hl := hl e List.mem_cons_self
    have hr := hr e List.mem_cons_self
    rw [List.map_cons, List.sum_cons, ih]
    obtain ⟨a, b, c⟩ := e
    cases a with
    | src =>
      cases b with
      | src => simp [List.filterMap_cons, innerOf, cntS, cntT, stSum, NV.onSink, setArc]
      | snk => simp [List.filterMap_cons, innerOf, cntS, cntT, stSum, NV.onSink, setArc]; ring
      | v k =>
        have hk := hr k rfl
        have h1 : ∑ i ∈ V, (cntS (⟨.src, .v k, c⟩ :: arcs) i : ℚ) *
              (if i ∈ X then σ i else 0) =
            ∑ i ∈ V, (cntS arcs i : ℚ) * (if i ∈ X then σ i else 0) +
              (if k ∈ X then σ k else 0) := by
          have : ∀ i, (cntS (⟨.src, .v k, c⟩ :: arcs) i : ℚ) * (if i ∈ X then σ i else 0) =
              (cntS arcs i : ℚ) * (if i ∈ X then σ i else 0) +
                (if i = k then (if i ∈ X then σ i else 0) else 0) := by
            intro i
            unfold cntS
            rw [List.countP_cons]
            by_cases hik : i = k
            · subst hik; by_cases hX : i ∈ X <;> simp [hX]; ring
            · simp [hik, Ne.symm hik]
          rw [Finset.sum_congr rfl fun i _ => this i, Finset.sum_add_distrib, Finset.sum_ite_eq' V k]
          simp [hk]
        rw [h1]
        simp only [cntT, stSum, List.countP_cons, List.filterMap_cons, innerOf, Function.comp, NV.onSink,
          List.map_cons, List.sum_cons, setArc]
        by_cases hkX : k ∈ X <;> simp [hkX] <;> ring
    | snk =>
      cases b <;> simp [List.filterMap_cons, innerOf, cntS, cntT, stSum, NV.onSink, setArc]
    | v k =>
      have hk := hl k rfl
      cases b with
      | src => simp [List.filterMap_cons, innerOf, cntS, cntT, stSum, NV.onSink, setArc]
      | snk =>
        have h1 : ∑ i ∈ V, (cntT (⟨.v k, .snk, c⟩ :: arcs) i : ℚ) *
              (if i ∈ X then 0 else τ i) =
            ∑ i ∈ V, (cntT arcs i : ℚ) * (if i ∈ X then 0 else τ i) +
              (if k ∈ X then 0 else τ k) := by
          have : ∀ i, (cntT (⟨.v k, .snk, c⟩ :: arcs) i : ℚ) * (if i ∈ X then 0 else τ i) =
              (cntT arcs i : ℚ) * (if i ∈ X then 0 else τ i) +
                (if i = k then (if i ∈ X then 0 else τ i) else 0) := by
            intro i
            unfold cntT
            rw [List.countP_cons]
            by_cases hik : i = k
            · subst hik; by_cases hX : i ∈ X <;> simp [hX]; ring
            · simp [hik, Ne.symm hik]
          rw [Finset.sum_congr rfl fun i _ => this i, Finset.sum_add_distrib, Finset.sum_ite_eq' V k]
          simp [hk]
        rw [h1]
        simp only [cntS, stSum, List.countP_cons, List.filterMap_cons, innerOf, Function.comp, NV.onSink,
          List.map_cons, List.sum_cons, setArc]
        by_cases hkX : k ∈ X <;> simp [hkX] <;> ring
      | v m =>
        simp [List.filterMap_cons, innerOf, cntS, cntT, stSum, NV.onSink, setArc]
        ring

theorem updateDig_cut (hl : ∀ e ∈ arcs, ∀ i, e.a = .v i → i ∈ V)
    (hr : ∀ e ∈ arcs, ∀ i, e.b = .v i → i ∈ V) (W : Finset ℕ) :
    (Net.mk W (updateDig y lam base arcs)).cutCap X =
      ((arcs.filterMap innerOf).map fun a => if a.src ∉ X ∧ a.dst ∈ X then a.cap else 0).sum +
      ∑ i ∈ V, (cntS arcs i : ℚ) * (if i ∈ X then srcCap y lam base i else 0) +
      ∑ i ∈ V, (cntT arcs i : ℚ) * (if i ∈ X then 0 else snkCap y lam base i) + stSum arcs := by
  rw [updateDig_eq]
  exact setDig_cut _ _ hl hr W

theorem updateArc_ab (e : NArc) : (updateArc y lam base e).a = e.a ∧ (updateArc y lam base e).b = e.b ∧
    innerOf (updateArc y lam base e) = innerOf e := by
  obtain ⟨a, b, c⟩ := e
  cases a <;> cases b <;> exact ⟨rfl, rfl, rfl⟩

theorem setArc_ab (σ τ : ℕ → ℚ) (e : NArc) : (setArc σ τ e).a = e.a ∧ (setArc σ τ e).b = e.b ∧
    innerOf (setArc σ τ e) = innerOf e := by
  obtain ⟨a, b, c⟩ := e
  cases a <;> cases b <;> exact ⟨rfl, rfl, rfl⟩

theorem setDig_inv {σ τ : ℕ → ℚ} (h : RInv E V arcs) (hb : ∀ i ∈ V, 0 ≤ σ i ∧ 0 ≤ τ i) :
    RInv E V (setDig σ τ arcs) := by
  refine ⟨?_, ?_, ?_, ?_, ?_, ?_⟩
  · rw [← h.inner]
    unfold setDig
    rw [List.filterMap_map]
    apply List.filterMap_congr
    intro e _
    exact (setArc_ab σ τ e).2.2
  · intro i hi
    rw [← h.source i hi]
    unfold cntS setDig
    rw [List.countP_map]
    apply List.countP_congr
    intro e _
    simp [(setArc_ab σ τ e).1, (setArc_ab σ τ e).2.1]
  · intro i hi
    rw [← h.sink i hi]
    unfold cntT setDig
    rw [List.countP_map]
    apply List.countP_congr
    intro e _
    simp [(setArc_ab σ τ e).1, (setArc_ab σ τ e).2.1]
  · intro f hf i hi
    obtain ⟨e, he, rfl⟩ := List.mem_map.1 hf
    exact h.left e he i ((setArc_ab σ τ e).1 ▸ hi)
  · intro f hf i hi
    obtain ⟨e, he, rfl⟩ := List.mem_map.1 hf
    exact h.right e he i ((setArc_ab σ τ e).2.1 ▸ hi)
  · intro f hf
    obtain ⟨e, he, rfl⟩ := List.mem_map.1 hf
    have h1 := h.nonneg e he
    have h2 := h.left e he
    have h3 := h.right e he
    obtain ⟨a, b, c⟩ := e
    cases a with
    | src =>
      cases b with
      | v i => exact (hb _ (h3 _ rfl)).1
      | _ => exact h1
    | snk => cases b <;> exact h1
    | v i =>
      cases b with
      | snk => exact (hb _ (h2 _ rfl)).2
      | _ => exact h1

theorem updateDig_inv (h : RInv E V arcs) (hb : ∀ i ∈ V, 0 ≤ (base i).1 ∧ 0 ≤ (base i).2) :
    RInv E V (updateDig y lam base arcs) := by
  rw [updateDig_eq]
  refine setDig_inv h fun i hi => ?_
  obtain ⟨h1, h2⟩ := hb i hi
  have h4 := le_max_left 0 (yVal lam (y i))
  unfold srcCap snkCap
  refine ⟨?_, by linarith⟩
  split <;> linarith

/-- A network for the search between `Xr` and `Xl`. -/
structure RGood (E : List Arc) (j : ℕ) (Xl Xr : Finset ℕ) (G : RNet) : Prop where
  sub : Xr ⊆ Xl
  range : Xl ⊆ Finset.range j
  verts : G.verts = Xl \ Xr
  inv : RInv E (Xl \ Xr) G.arcs
  base : ∀ i ∈ Xl \ Xr, G.base i = newBase E (Finset.range (j + 2) \ insert j Xl) (insert j Xr) i

theorem newBase_nonneg (hE : NonnegE E) (S T : CSet) (i : ℕ) :
    0 ≤ (newBase E S T i).1 ∧ 0 ≤ (newBase E S T i).2 := by
  constructor <;>
  · apply List.sum_nonneg
    intro z hz
    rw [List.mem_map] at hz
    obtain ⟨e, he, rfl⟩ := hz
    split
    · exact hE e he
    · exact le_rfl

theorem sum_swap (L : List Arc) (V : Finset ℕ) (p : Arc → Prop) [DecidablePred p] (f : Arc → ℕ) :
    ∑ i ∈ V, (L.map fun a => if f a = i ∧ p a then a.cap else 0).sum =
      (L.map fun a => if f a ∈ V ∧ p a then a.cap else 0).sum := by
  induction L with
  | nil => simp
  | cons a L ih =>
    simp only [List.map_cons, List.sum_cons, Finset.sum_add_distrib, ih]
    congr 1
    by_cases hp : p a
    · simp only [hp, and_true]
      rw [Finset.sum_ite_eq V (f a)]
    · simp [hp]

/-- The part of the capacity of a cut that does not depend on the cut. -/
def rConst (E : List Arc) (j : ℕ) (y : ℕ → YPair) (lam : ℚ) (Xl Xr : Finset ℕ) (arcs : List NArc) : ℚ :=
  stSum arcs + ∑ i ∈ Xl \ Xr, max 0 (yAt y lam i) + vsum (yAt y lam) Xr -
    (E.map fun a => if a.src ∈ Finset.range (j + 2) \ insert j Xl ∧ a.dst ∈ insert j Xr
      then a.cap else 0).sum

/-- **Capacity of a cut of a contracted network.** -/
theorem rcut (hg : PGood E ε) {G : RNet} (h : RGood E j Xl Xr G) (hX : X ⊆ Xl \ Xr) (W : Finset ℕ) :
    (Net.mk W (updateDig y lam G.base G.arcs)).cutCap X = obj E j y lam (Xr ∪ X) +
      rConst E j y lam Xl Xr G.arcs := by
  set V := Xl \ Xr with hV
  set S := Finset.range (j + 2) \ insert j Xl with hS
  rw [updateDig_cut h.inv.left h.inv.right, h.inv.inner]
  have h1 : ∑ i ∈ V, (cntS G.arcs i : ℚ) * (if i ∈ X then srcCap y lam G.base i else 0) =
      ∑ i ∈ X, (max 0 (yAt y lam i) - yAt y lam i) +
        (E.map fun a => if a.dst ∈ X ∧ a.src ∈ S then a.cap else 0).sum := by
    have e1 : ∑ i ∈ V, (cntS G.arcs i : ℚ) * (if i ∈ X then srcCap y lam G.base i else 0) =
        ∑ i ∈ X, srcCap y lam G.base i := by
      rw [Finset.sum_congr rfl (g := fun i => if i ∈ X then srcCap y lam G.base i else 0) fun i hi => by
        rw [h.inv.source i hi]; simp]
      rw [← Finset.sum_filter]
      congr 1
      ext v; simp only [Finset.mem_filter]; exact ⟨fun h => h.2, fun h => ⟨hX h, h⟩⟩
    rw [e1, Finset.sum_congr rfl (g := fun i => (max 0 (yAt y lam i) - yAt y lam i) +
      (E.map fun a => if a.dst = i ∧ a.src ∈ S then a.cap else 0).sum) fun i hi => by
        unfold srcCap
        rw [h.base i (hX hi), max_neg_eq]; rfl]
    rw [Finset.sum_add_distrib, sum_swap]
  have h2 : ∑ i ∈ V, (cntT G.arcs i : ℚ) * (if i ∈ X then 0 else snkCap y lam G.base i) =
      ∑ i ∈ V \ X, max 0 (yAt y lam i) +
        (E.map fun a => if a.src ∈ V \ X ∧ a.dst ∈ insert j Xr then a.cap else 0).sum := by
    have e1 : ∑ i ∈ V, (cntT G.arcs i : ℚ) * (if i ∈ X then 0 else snkCap y lam G.base i) =
        ∑ i ∈ V \ X, snkCap y lam G.base i := by
      rw [Finset.sum_congr rfl (g := fun i => if i ∉ X then snkCap y lam G.base i else 0) fun i hi => by
        rw [h.inv.sink i hi]; simp]
      rw [← Finset.sum_filter]
      congr 1
      ext v; simp
    rw [e1, Finset.sum_congr rfl (g := fun i => max 0 (yAt y lam i) +
      (E.map fun a => if a.src = i ∧ a.dst ∈ insert j Xr then a.cap else 0).sum) fun i hi => by
        unfold snkCap
        rw [h.base i (Finset.sdiff_subset hi), add_comm]; rfl]
    rw [Finset.sum_add_distrib, sum_swap]
  rw [h1, h2]
  -- the arcs of the graph
  have hdis : Disjoint Xr X := Finset.disjoint_of_subset_right hX Finset.disjoint_sdiff
  have h3 : getCutValue E (insert j (Xr ∪ X)) =
      ((E.filter fun a => decide (a.src ∈ V ∧ a.dst ∈ V)).map
        fun a => if a.src ∉ X ∧ a.dst ∈ X then a.cap else 0).sum +
      (E.map fun a => if a.dst ∈ X ∧ a.src ∈ S then a.cap else 0).sum +
      (E.map fun a => if a.src ∈ V \ X ∧ a.dst ∈ insert j Xr then a.cap else 0).sum +
      (E.map fun a => if a.src ∈ S ∧ a.dst ∈ insert j Xr then a.cap else 0).sum := by
    rw [sum_filter_map, ← List.sum_map_add, ← List.sum_map_add, ← List.sum_map_add]
    unfold getCutValue
    congr 1
    apply List.map_congr_left
    intro a ha
    have hlt := hg.lowHigh a ha
    have hXj : ∀ v ∈ Xl, v < j := fun v hv => Finset.mem_range.1 (h.range hv)
    have hXlX : ∀ v ∈ X, v ∈ Xl ∧ v ∉ Xr := fun v hv => Finset.mem_sdiff.1 (hX hv)
    have hsub := h.sub
    by_cases hd : a.dst ∈ insert j (Xr ∪ X)
    · have hdj : a.dst ≤ j := by
        rcases Finset.mem_insert.1 hd with h' | h'
        · omega
        · rcases Finset.mem_union.1 h' with h' | h'
          · exact (hXj _ (hsub h')).le
          · exact (hXj _ (hXlX _ h').1).le
      have hsj : a.src < j := by omega
      have hs1 : a.src ≠ j := by omega
      have hs2 : a.src < j + 2 := by omega
      by_cases hdX : a.dst ∈ X
      · have h4 := hXlX _ hdX
        have hdj' : a.dst ≠ j := by have := hXj _ h4.1; omega
        by_cases hsl : a.src ∈ Xl
        · by_cases hsr : a.src ∈ Xr
          · simp [hV, hS, hdX, h4, hsl, hsr, hs1, hs2, hdj']
          · by_cases hsX : a.src ∈ X
            · simp [hV, hS, hdX, h4, hsl, hsr, hs1, hs2, hdj', hsX]
            · simp [hV, hS, hdX, h4, hsl, hsr, hs1, hs2, hdj', hsX]
        · have hsr : a.src ∉ Xr := fun h => hsl (hsub h)
          have hsX : a.src ∉ X := fun h => hsl (hXlX _ h).1
          simp [hV, hS, hdX, h4, hsl, hsr, hs1, hs2, hdj', hsX]
      · have hdr : a.dst ∈ insert j Xr := by
          rcases Finset.mem_insert.1 hd with h' | h'
          · exact Finset.mem_insert.2 (Or.inl h')
          · rcases Finset.mem_union.1 h' with h' | h'
            · exact Finset.mem_insert_of_mem h'
            · exact absurd h' hdX
        by_cases hsl : a.src ∈ Xl
        · by_cases hsr : a.src ∈ Xr
          · simp only [hV, hS, hdX, hdr, hsl, hsr, hs1, hs2, hd, Finset.mem_insert, Finset.mem_union,
              Finset.mem_sdiff, Finset.mem_range]
            simp
          · by_cases hsX : a.src ∈ X
            · simp only [hV, hS, hdX, hdr, hsl, hsr, hs1, hs2, hd, hsX, Finset.mem_insert, Finset.mem_union,
                Finset.mem_sdiff, Finset.mem_range]
              simp
            · simp only [hV, hS, hdX, hdr, hsl, hsr, hs1, hs2, hd, hsX, Finset.mem_insert, Finset.mem_union,
                Finset.mem_sdiff, Finset.mem_range]
              simp
        · have hsr : a.src ∉ Xr := fun h => hsl (hsub h)
          have hsX : a.src ∉ X := fun h => hsl (hXlX _ h).1
          simp only [hV, hS, hdX, hdr, hsl, hsr, hs1, hs2, hd, hsX, Finset.mem_insert, Finset.mem_union,
            Finset.mem_sdiff, Finset.mem_range]
          simp
    · have hdX : a.dst ∉ X := fun h' => hd (by simp [h'])
      have hdr : a.dst ∉ insert j Xr := fun h' => hd (by
        rcases Finset.mem_insert.1 h' with h' | h' <;> simp [h'])
      simp [hd, hdX, hdr]
  have h4 : ∑ i ∈ V, max 0 (yAt y lam i) =
      ∑ i ∈ V \ X, max 0 (yAt y lam i) + ∑ i ∈ X, max 0 (yAt y lam i) := (Finset.sum_sdiff hX).symm
  have h5 : vsum (yAt y lam) (Xr ∪ X) = vsum (yAt y lam) Xr + vsum (yAt y lam) X :=
    Finset.sum_union hdis
  unfold obj rConst
  rw [h3, h5, ← hV, ← hS, h4, Finset.sum_sub_distrib]
  unfold vsum
  ring

/-- Only the part of the cut inside the network matters. -/
theorem cut_inter (h : RInv E V arcs) (W : Finset ℕ) :
    (Net.mk W arcs).cutCap X = (Net.mk W arcs).cutCap (X ∩ V) := by
  unfold Net.cutCap
  congr 1
  apply List.map_congr_left
  intro e he
  have h1 : ∀ x : NV, (∀ i, x = .v i → i ∈ V) → x.onSink X = x.onSink (X ∩ V) := by
    intro x hx
    cases x with
    | src => rfl
    | snk => rfl
    | v i => simp [NV.onSink, hx i rfl]
  rw [h1 e.a (h.left e he), h1 e.b (h.right e he)]

end PSP.Theory
