import Verif.Props.RoundedAIC
import Verif.Props.RoundedRun
import Verif.Theory.FactorAgg
import Verif.Theory.MinNormExists
import Verif.Theory.Entropy
import Verif.Theory.AggShape

/-!
# C78: `agg_psp` may go on for ever even if `min_norm_base` is exact
-/

namespace PSP.Props

open PSP.Spec PSP.Model PSP.Theory

/-- There are functions that return the minimum norm base of every submodular function. -/
theorem exists_exactPoints : ∃ mnb : SF → Outcome (List ℚ), ∀ F, Accurate 0 F (mnb F) := by
  classical
  have h : ∀ F : SF, ∃ r : Outcome (List ℚ), Accurate 0 F r := by
    intro F
    by_cases hφ : ∃ φ : Finset ℕ → ℚ, (∀ B : List ℕ, B.Nodup → (∀ b ∈ B, b < F.size) → F.val B = φ B.toFinset) ∧ φ ∅ = 0 ∧
        Submodular (Finset.range F.size) φ
    · obtain ⟨φ, h1, h2, h3⟩ := hφ
      obtain ⟨y, hy⟩ := exists_minNorm h3
      refine ⟨.ok ((List.range F.size).map y), fun ψ _ k1 k2 k3 => ⟨_, y, rfl, by simp, ?_, fun i hi => ?_⟩⟩
      · have e : ∀ S, S ⊆ Finset.range F.size → φ S = ψ S := by
          intro S hS
          have hb : ∀ b ∈ S.toList, b < F.size := fun b hb => Finset.mem_range.1 (hS (Finset.mem_toList.1 hb))
          have := (h1 S.toList S.nodup_toList hb).symm.trans (k1 S.toList S.nodup_toList hb)
          rwa [Finset.toList_toFinset] at this
        have hb : ∀ x, InBase (Finset.range F.size) φ x ↔ InBase (Finset.range F.size) ψ x := by
          intro x
          unfold InBase
          rw [h2, k2, e _ (Finset.Subset.refl _)]
          exact and_congr Iff.rfl (forall_congr' fun S => forall_congr' fun hS => by rw [e S hS])
        exact ⟨(hb y).1 hy.1, fun x hx => hy.2 x ((hb x).2 hx)⟩
      · rw [List.getD_eq_getElem _ _ (by simpa using hi)]
        simp
    · exact ⟨.nan, fun φ _ h1 h2 h3 => absurd ⟨φ, h1, h2, h3⟩ hφ⟩
  choose mnb hm using h
  exact ⟨mnb, hm⟩

/-- The decisions of `agglomerate` depend only on the points of its own calls. -/
theorem agglomerate_congr {mnb mnb' : SF → Outcome (List ℚ)} {f : SF} {tol : ℚ} {h : HC} {L : List (List ℕ)}
    (hL : h.getPartition ⊥ = .ok L) (hm : ∀ j, 1 ≤ j → j < L.length →
      mnb (sfJoin (sfContract f L) j) = mnb' (sfJoin (sfContract f L) j)) :
    agglomerate mnb f tol h = agglomerate mnb' f tol h := by
  have hp : ∀ js : List ℕ, (∀ j ∈ js, 1 ≤ j ∧ j < L.length) →
      aicPoints mnb (sfContract f L) js = aicPoints mnb' (sfContract f L) js := by
    intro js
    induction js with
    | nil => intro _; rfl
    | cons j js ih =>
      intro hjs
      obtain ⟨h1, h2⟩ := hjs j (by simp)
      unfold aicPoints
      rw [hm j h1 h2, ih fun i hi => hjs i (by simp [hi])]
  unfold agglomerate
  rw [hL]
  simp only [Outcome.ok_bind]
  rw [hp]
  intro j hj
  rw [List.range_eq_range', List.drop_range', List.mem_range'_1] at hj
  omega

/-- Six edges of weight 1 among the nodes 0 to 3, the nodes 4 and 5 attached to them with 2 - 4/10⁶, and node 6 attached to
4 and 5. -/
def slowArcs : List Arc :=
  [⟨0, 1, 1⟩, ⟨0, 2, 1⟩, ⟨0, 3, 1⟩, ⟨1, 2, 1⟩, ⟨1, 3, 1⟩, ⟨2, 3, 1⟩, ⟨0, 4, 2 - 4 / 10 ^ 6⟩, ⟨0, 5, 2 - 4 / 10 ^ 6⟩,
    ⟨4, 6, 1 + 1 / (2 * 10 ^ 6)⟩, ⟨5, 6, 1 + 1 / (2 * 10 ^ 6)⟩]

theorem slowArcs_valid : ValidInput 7 slowArcs := by decide +kernel

/-- The exact points of the calls that are made. -/
def slowPoints (F : SF) : Outcome (List ℚ) := mnbOf gaussNumerics (1 / 10 ^ 30) (1 / 10 ^ 15) 50 F

/-- What is checked for one call. -/
def checkPoint (φ : Finset ℕ → ℚ) (j : ℕ) (x : List ℚ) : Bool :=
  decide (x.length = j) && decide (∑ i ∈ Finset.range j, x.getD i 0 = φ (Finset.range j)) &&
  decide (∀ S ∈ (Finset.range j).powerset, ∑ i ∈ S, x.getD i 0 ≤ φ S) &&
  decide (∑ i ∈ Finset.range j, x.getD i 0 * x.getD i 0 ≤
    ∑ i ∈ Finset.range j, x.getD i 0 * (greedyPoint (pureSF j φ) (sortIdx x)).getD i 0)

theorem checkPoint_spec {φ : Finset ℕ → ℚ} {j : ℕ} {x : List ℚ} (h0 : φ ∅ = 0) (hφ : Submodular (Finset.range j) φ)
    (h : checkPoint φ j x = true) : x.length = j ∧ IsMinNorm (Finset.range j) φ fun i => x.getD i 0 := by
  unfold checkPoint at h
  simp only [Bool.and_eq_true, decide_eq_true_eq] at h
  obtain ⟨⟨⟨h1, h2⟩, h3⟩, h4⟩ := h
  refine ⟨h1, ⟨⟨by rw [h2, h0, sub_zero], fun S hS => by rw [h0, sub_zero]; exact h3 S (Finset.mem_powerset.2 hS)⟩,
    fun y hy => h4.trans ?_⟩⟩
  exact greedy_min (f := pureSF j φ) (pureSF_computes j φ) hφ h1 (sortIdx_spec x) hy

/-- What is checked for all calls of a round. -/
def checkRound (mnb : SF → Outcome (List ℚ)) (E : List Arc) (n : ℕ) (L : List (List ℕ)) : Bool :=
  (List.range L.length).all fun j => j == 0 ||
    match mnb (sfJoin (sfContract (digraphEntropy ⟨List.range n, E⟩) L) j) with
    | .ok x => checkPoint (joinFn (incident E) (blockAt L) j) j x
    | _ => false

/-- Exact points are unique. -/
theorem exact_eq {E : List Arc} {n : ℕ} (hE : ValidInput n E) {mnb : SF → Outcome (List ℚ)} (hm : ∀ F, Accurate 0 F (mnb F))
    {L : List (List ℕ)} {R : ℕ → ℕ → Prop} (hL : IsClustering n R L) {j : ℕ} (hj1 : 1 ≤ j) (hj : j < L.length) {x : List ℚ}
    (hx : checkPoint (joinFn (incident E) (blockAt L) j) j x = true) :
    mnb (sfJoin (sfContract (digraphEntropy ⟨List.range n, E⟩) L) j) = .ok x := by
  have hs : (digraphEntropy ⟨List.range n, E⟩).size = n := by simp [digraphEntropy, Digraph.countNodes]
  have hrep : Represents (digraphEntropy ⟨List.range n, E⟩) (incident E) := fun B hB _ _ =>
    digraphEntropy_val (g := ⟨List.range n, E⟩) (fun a ha => (hE.1 a ha).1) hB
  obtain ⟨h1, h2, -⟩ := join_computes (j := j) hrep (by rw [hs]; exact incident_intersecting hE.nonneg _)
    (by rw [hs]; exact hL) hj
  obtain ⟨z, y, k1, k2, k3, k4⟩ := hm _ _ hj1 h1 (joinFn_empty j) h2
  obtain ⟨c1, c2⟩ := checkPoint_spec (joinFn_empty j) h2 hx
  have k2' : z.length = j := k2
  rw [k1]
  congr 1
  refine List.ext_getElem (by omega) fun i hi hi' => ?_
  have e1 := k4 i (show i < j by omega)
  have e2 := minNorm_eq c2 k3 i (Finset.mem_range.2 (show i < j by omega))
  have e3 := abs_nonpos_iff.1 e1
  rw [List.getD_eq_getElem _ _ hi] at e3
  rw [List.getD_eq_getElem _ _ hi'] at e2
  linarith

theorem round_eq {E : List Arc} {n : ℕ} (hE : ValidInput n E) {mnb mnb' : SF → Outcome (List ℚ)}
    (hm : ∀ F, Accurate 0 F (mnb F)) {h : HC} {L : List (List ℕ)} {R : ℕ → ℕ → Prop} (hL : h.getPartition ⊥ = .ok L)
    (hc : IsClustering n R L) (hchk : checkRound mnb' E n L = true) (tol : ℚ) :
    agglomerate mnb (digraphEntropy ⟨List.range n, E⟩) tol h = agglomerate mnb' (digraphEntropy ⟨List.range n, E⟩) tol h := by
  refine agglomerate_congr hL fun j hj1 hj => ?_
  have h1 := List.all_eq_true.1 hchk j (List.mem_range.2 hj)
  have h0 : (j == 0) = false := by simp; omega
  rw [h0, Bool.false_or] at h1
  split at h1
  · rename_i x hx
    rw [hx]
    exact exact_eq hE hm hc hj1 hj h1
  · cases h1

/-- Even if `min_norm_base` returned exact minimum norm bases, `agg_psp` would not end on every graph: with the tolerance of the
code nodes are joined at a value that is a little too high for them, and the next value is higher still, which `merge`
refuses. -/
theorem C78_exact_points_violated : ∃ E : List Arc, ValidInput 7 E ∧ (∀ e ∈ E, 1 ≤ e.cap ∧ e.cap ≤ 2) ∧
    ∀ mnb : SF → Outcome (List ℚ), (∀ F, Accurate 0 F (mnb F)) →
      ∀ k ps cv, aggLoop mnb (digraphEntropy ⟨List.range 7, E⟩) (1 / 10 ^ 6) k (HC.new 7) ps cv = .fuel := by
  refine ⟨slowArcs, slowArcs_valid, by decide +kernel, fun mnb hm => ?_⟩
  have hstuck : secondStuck (agglomerate slowPoints (digraphEntropy ⟨List.range 7, slowArcs⟩) (1 / 10 ^ 6)) (HC.new 7) = true := by
    decide +kernel
  have hlast : (agglomerate slowPoints (digraphEntropy ⟨List.range 7, slowArcs⟩) (1 / 10 ^ 6) (HC.new 7) >>= fun r =>
      r.1.getPartition ⊥ >>= fun L => .ok (L, r.1.getCriticalValues.getLast?)) = .ok ([[0, 3, 1, 2, 4, 5], [6]], some 2) := by
    decide +kernel
  obtain ⟨h1, k1, k2, -⟩ := stepLoop_second (fun h h' b => agglomerate_grows) hstuck
  rw [k1, Outcome.ok_bind] at hlast
  dsimp only at hlast
  have hL0 : (HC.new 7).getPartition ⊥ = .ok [[0], [1], [2], [3], [4], [5], [6]] := by decide +kernel
  obtain ⟨L, hL, hcL⟩ : ∃ L, (HC.new 7).getPartition ⊥ = .ok L ∧ IsClustering 7 (FJ (HC.new 7) ⊥) L :=
    getPartition_spec (Forest.new 7) (by decide) ⊥
  rw [hL0] at hL
  cases hL
  have hf1 : Forest h1 ∧ h1.n = 7 := by
    obtain ⟨cs, g, r1, -, r2⟩ := (agglomerateWith_mergesOnly (n := 7) (by norm_num) slowPoints
      (sfContract (digraphEntropy ⟨List.range 7, slowArcs⟩)) fun g => -g + 1 / 10 ^ 6).more _ h1 [] (HCInv.new 7) rfl k1
    obtain ⟨h2, e1, e2, e3⟩ := mergeAll_from cs (HCInv.new 7) rfl r1
    rw [r2] at e1
    cases e1
    exact ⟨e3.forest, e2⟩
  obtain ⟨L1, hL1, hcL1⟩ := getPartition_spec hf1.1 (by rw [hf1.2]; norm_num) ⊥
  rw [hf1.2] at hcL1
  rw [hL1, Outcome.ok_bind] at hlast
  obtain ⟨rfl, hlast2⟩ := Prod.mk.inj (Outcome.ok.inj hlast)
  have s0 := (round_eq slowArcs_valid hm hL0 hcL (mnb' := slowPoints) (by decide +kernel) (1 / 10 ^ 6)).trans k1
  have s1 := (round_eq slowArcs_valid hm hL1 hcL1 (mnb' := slowPoints) (by decide +kernel) (1 / 10 ^ 6)).trans k2
  intro k ps cv
  cases k with
  | zero => rfl
  | succ k =>
    have hL1' : h1.getCoarsestPartition = .ok [[0, 3, 1, 2, 4, 5], [6]] := hL1
    simp only [aggLoop, s0, Outcome.ok_bind, if_true, hL1', hlast2]
    exact C78_stuck_forever s1 hL1' hlast2 k _ _

end PSP.Props
