import Verif.Theory.Gaussian2D
import Verif.Props.Compare

/-!
# Properties: `Gaussian2DGraph`, clusters of points of the plane (C85)
-/

namespace PSP.Props

open PSP.Model PSP.Spec PSP.Theory

/-- With an array of at least `np` points: the positions are its first `np` rows, the graph is a valid input for `PSP`, and
the weight between two points is their similarity, or 0 if that is not above the tolerance. -/
theorem C85_graph {eps : ℚ} (heps : 0 ≤ eps) (sim : ℚ × ℚ → ℚ × ℚ → ℚ) {np : ℕ} {a : List (ℚ × ℚ)} (ha : np ≤ a.length)
    (rnd : ℕ → ℚ) :
    ∃ E, gaussian2D eps sim np (some a) rnd = .ok (a.take np, E) ∧ ValidInput np E ∧
      ∀ i j p q, i < j → j < np → a[i]? = some p → a[j]? = some q →
        between E i j = if eps < sim p q then sim p q else 0 := by
  have hpos : cloudPositions np (some a) rnd = .ok (a.take np) := by simp [cloudPositions, ha]
  refine ⟨_, gaussian2D_of hpos (by simp [ha]), cloudArcs_valid heps np, fun i j p q hij hj hp hq => ?_⟩
  have e : ∀ k r, k < np → a[k]? = some r → (a.take np).getD k 0 = r := by
    intro k r hk hr
    rw [List.getD_eq_getElem?_getD, List.getElem?_take_of_lt hk, hr]
    rfl
  rw [between_cloud heps hij hj, e i p (by omega) hp, e j q hj hq]

/-- Random points: if `np` is a multiple of 4 there are `np` positions, `np / 4` around each of the points (3, 3), (3, -3),
(-3, -3) and (-3, 3) in this order, each displaced by the next two random numbers; and the graph is valid. -/
theorem C85_random {eps : ℚ} (heps : 0 ≤ eps) (sim : ℚ × ℚ → ℚ × ℚ → ℚ) {np : ℕ} (h4 : np % 4 = 0) (rnd : ℕ → ℚ) :
    ∃ pos E, gaussian2D eps sim np none rnd = .ok (pos, E) ∧ pos.length = np ∧ ValidInput np E ∧
      ∀ k, k < np → ∀ c, [((3 : ℚ), (3 : ℚ)), (3, -3), (-3, -3), (-3, 3)][k / (np / 4)]? = some c →
        pos[k]? = some (rnd (2 * k) + c.1, rnd (2 * k + 1) + c.2) := by
  obtain ⟨pos, hpos⟩ : ∃ pos, cloudPositions np none rnd = .ok pos := ⟨_, rfl⟩
  have hlen := cloudPositions_length hpos
  rw [if_pos rfl] at hlen
  exact ⟨pos, _, gaussian2D_of hpos (by omega), by omega, cloudArcs_valid heps np,
    fun k hk c hc => cloudPositions_random hpos h4 hk hc⟩

/-- Otherwise there are fewer positions than `np`, and the constructor reads beyond their end. -/
theorem C85_random_violated (eps : ℚ) (sim : ℚ × ℚ → ℚ × ℚ → ℚ) {np : ℕ} (hn : 2 ≤ np) (h4 : np % 4 ≠ 0) (rnd : ℕ → ℚ) :
    gaussian2D eps sim np none rnd = .ub "read outside of x_pos" := by
  obtain ⟨pos, hpos⟩ : ∃ pos, cloudPositions np none rnd = .ok pos := ⟨_, rfl⟩
  have hlen := cloudPositions_length hpos
  rw [if_pos rfl] at hlen
  unfold gaussian2D
  rw [hpos, Outcome.ok_bind, cloudEdges_ub (p := (0, np - 1)) (mem_upperPairs.2 ⟨by dsimp only; omega, by dsimp only; omega⟩)
    (Or.inr (by dsimp only; omega))]
  rfl

/-- The square of the distance. -/
def distSq (p q : ℚ × ℚ) : ℚ := (p.1 - q.1) ^ 2 + (p.2 - q.2) ^ 2

/-- Moving points closer together can only join clusters: if no distance grows, nodes that are together at some threshold
for the first points are together for the second points at every threshold that is lower by more than the errors of the
two runs; and each critical value is at most its counterpart plus these errors. This holds for all methods and arithmetics
in `RunResult`. -/
theorem C85_closer {eps γ : ℚ} (heps : 0 ≤ eps) (hγ : 0 ≤ γ) {ex : ℚ → ℚ} (hex : Antitone ex) {np : ℕ} (hn : 2 ≤ np)
    {a a' pos pos' : List (ℚ × ℚ)} {E E' : List Arc} {rnd rnd' : ℕ → ℚ}
    (h : gaussian2D eps (similarity ex γ) np (some a) rnd = .ok (pos, E))
    (h' : gaussian2D eps (similarity ex γ) np (some a') rnd' = .ok (pos', E'))
    (hd : ∀ i j p q p' q', i < j → j < np → a[i]? = some p → a[j]? = some q → a'[i]? = some p' → a'[j]? = some q' →
      distSq p' q' ≤ distSq p q) {C C' : ℚ} {Ps Ps' : List Partition} {cv cv' : List ℚ} (hr : RunResult np E C Ps cv)
    (hr' : RunResult np E' C' Ps' cv') :
    (∀ t t', t' + (C + C') < t → ∀ u v, Same (clustersAt Ps cv t) u v → Same (clustersAt Ps' cv' t') u v) ∧
      List.Forall₂ (fun x y => x ≤ y + (C + C')) (spectrum Ps cv) (spectrum Ps' cv') := by
  have hlen : ∀ {a pos : List (ℚ × ℚ)} {E : List Arc} {rnd : ℕ → ℚ},
      gaussian2D eps (similarity ex γ) np (some a) rnd = .ok (pos, E) → np ≤ a.length ∧ pos = a.take np := by
    intro a pos E rnd h
    by_cases ha : np ≤ a.length
    · obtain ⟨E0, h0, _⟩ := C85_graph heps (similarity ex γ) ha rnd
      rw [h] at h0
      cases h0
      exact ⟨ha, rfl⟩
    · unfold gaussian2D cloudPositions at h
      dsimp only at h
      rw [if_neg ha] at h
      cases h
  have hE : ∀ {a pos : List (ℚ × ℚ)} {E : List Arc} {rnd : ℕ → ℚ},
      gaussian2D eps (similarity ex γ) np (some a) rnd = .ok (pos, E) →
      E = cloudArcs eps (similarity ex γ) np pos := by
    intro a pos E rnd h
    obtain ⟨ha, rfl⟩ := hlen h
    have hpos : cloudPositions np (some a) rnd = .ok (a.take np) := by simp [cloudPositions, ha]
    rw [gaussian2D_of hpos (by simp [ha])] at h
    cases h
    rfl
  obtain ⟨l1, p1⟩ := hlen h
  obtain ⟨l2, p2⟩ := hlen h'
  have e1 := hE h
  have e2 := hE h'
  have hget : ∀ (a : List (ℚ × ℚ)) k, k < np → np ≤ a.length → a[k]? = some ((a.take np).getD k 0) := by
    intro a k hk hl
    rw [List.getD_eq_getElem?_getD, List.getElem?_take_of_lt hk, List.getElem?_eq_getElem (by omega)]
    rfl
  have hw : weightExcess np E E' = 0 := by
    rw [e1, e2]
    refine weightExcess_zero (between_cloud_mono heps fun i j hij hj => ?_)
    unfold similarity
    refine hex ?_
    have := hd i j _ _ _ _ hij hj (hget a i (by omega) l1) (hget a j hj l1) (hget a' i (by omega) l2) (hget a' j hj l2)
    rw [p1, p2]
    unfold distSq at this
    have := mul_le_mul_of_nonneg_left this hγ
    linarith
  have v1 : ValidInput np E := by rw [e1]; exact cloudArcs_valid heps np
  have v2 : ValidInput np E' := by rw [e2]; exact cloudArcs_valid heps np
  refine ⟨fun t t' htt => C83_clusters v2 v1 hn hr' hr (by rw [hw]; linarith), ?_⟩
  have := (C83_values v1 v2 hn hr hr').2
  rw [hw] at this
  refine this.imp fun x y hxy => ?_
  linarith [hxy.1]

/-! ### examples -/

/-- A decreasing function in the place of `exp(-t)`. -/
def exDecay (t : ℚ) : ℚ := if t ≤ 0 then 1 else 1 / (1 + t)

theorem exDecay_antitone : Antitone exDecay := by
  intro x y hxy
  unfold exDecay
  split <;> split
  · exact le_rfl
  · linarith
  · rename_i h1 h2
    rw [div_le_one (by linarith)]
    linarith
  · exact one_div_le_one_div_of_le (by linarith) (by linarith)

/-- Two pairs of points. -/
def farPoints : List (ℚ × ℚ) := [(0, 0), (1, 0), (4, 0), (4, 1)]

/-- The same with the pairs closer to each other. -/
def nearPoints : List (ℚ × ℚ) := [(0, 0), (1, 0), (2, 0), (2, 1)]

example : gaussian2D (1 / 10000000000) (similarity exDecay 1) 4 (some farPoints) (fun _ => 0) = .ok (farPoints,
    [⟨0, 1, 1 / 2⟩, ⟨0, 2, 1 / 17⟩, ⟨0, 3, 1 / 18⟩, ⟨1, 2, 1 / 10⟩, ⟨1, 3, 1 / 11⟩, ⟨2, 3, 1 / 2⟩]) := by decide +kernel

example := C85_graph (eps := 1 / 10000000000) (by norm_num) (similarity exDecay 1) (np := 4) (a := farPoints) (by decide)

example := C85_random (eps := 1 / 10000000000) (by norm_num) (similarity exDecay 1) (np := 8) (by norm_num)

example : gaussian2D (1 / 10000000000) (similarity exDecay 1) 6 none (fun _ => 0) = .ub "read outside of x_pos" :=
  C85_random_violated _ _ (by norm_num) (by norm_num) _

/-- `dt` for the points that are far apart and `psp_i` for the others. -/
example {pos pos' : List (ℚ × ℚ)} {E E' : List Arc} {r r' : PSPOut} {g : Digraph}
    (h : gaussian2D lemonEps (similarity exDecay 1) 4 (some farPoints) (fun _ => 0) = .ok (pos, E))
    (h' : gaussian2D lemonEps (similarity exDecay 1) 4 (some nearPoints) (fun _ => 0) = .ok (pos', E'))
    (hr : (makeDgraph lemonEps 4 E >>= dtRun bruteSolver lemonEps) = .ok r)
    (hr' : (makeDgraph lemonEps 4 E' >>= pspiRun bruteSolver lemonEps exOrd) = .ok (g, r')) :=
  C85_closer (by norm_num [lemonEps]) (by norm_num) exDecay_antitone (by norm_num) h h' (by
      intro i j p q p' q' hij hj h1 h2 h3 h4
      have : ∀ i < 4, ∀ j < 4, i < j → distSq (nearPoints.getD i 0) (nearPoints.getD j 0) ≤
          distSq (farPoints.getD i 0) (farPoints.getD j 0) := by decide +kernel
      have := this i (by omega) j hj hij
      simpa [List.getD_eq_getElem?_getD, h1, h2, h3, h4] using this)
    (.dt bruteSolver_minimal.toCorrect (by norm_num [lemonEps]) hr)
    (.pspi bruteSolver_minimal.toCorrect exOrd_enumerates (by norm_num [lemonEps]) hr')

end PSP.Props
