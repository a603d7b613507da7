import Verif.Theory.ChowLiu
import Verif.Props.HC
import Verif.Props.Spectrum
import Verif.Theory.Entropy
import Verif.Props.FLS

/-!
# Properties: the clusters of `CL` and the principal sequence (C90)

The comment of the constructor says that it returns "the PSP of the graph" (ChowLiu.hpp:32), the one of the class that
it is an approximation.
-/

namespace PSP.Props

open PSP.Model PSP.Spec PSP.Theory Relation

theorem edges_links (E : List Arc) :
    edges (E.map Arc.src) (E.map Arc.dst) (E.map Arc.cap) = links E := by
  unfold edges links
  induction E with
  | nil => rfl
  | cons e E ih => simp only [List.map_cons, List.zip_cons_cons, List.zipWith_cons_cons, ih]

/-- The clusters of `CL` for the edges of a graph. -/
theorem cl_clusters {n : ℕ} (hn : 0 < n) {E : List Arc} (hW : Within E (Finset.range n)) {idx : List ℕ}
    (hidx : SortedIndexes (E.map Arc.cap) idx) (γ : WithBot ℚ) :
    ∃ h L, CL.new n (E.map Arc.src) (E.map Arc.dst) (E.map Arc.cap) idx = .ok h ∧ h.getPartition γ = .ok L ∧
      IsPartition (Finset.range n) (toPartition L) ∧
      ∀ u v, u < n → v < n → (Same (toPartition L) u v ↔ Joined (links E) γ u v) := by
  obtain ⟨h, L, h1, h2, h3⟩ := C33_single_linkage hn (first := E.map Arc.src) (second := E.map Arc.dst)
    (info := E.map Arc.cap) (by simp) (by simp) (by
      rw [edges_links]
      intro c hc
      obtain ⟨e, he, rfl⟩ := List.mem_map.1 hc
      exact ⟨Finset.mem_range.1 (hW e he).1, Finset.mem_range.1 (hW e he).2⟩) hidx γ
  rw [edges_links] at h3
  exact ⟨h, L, h1, h2, clustering_partition h3, fun u v hu hv => clustering_same h3 hu hv⟩

/-- The partition for the threshold `γ` is optimal at `γ` and at some larger parameter. -/
theorem weak_at {E : List Arc} {V : Finset ℕ} {Ps : List Partition} {cv : List ℚ} (h : IsWeakPrincipalSequence E V Ps cv)
    (γ : ℚ) : ∃ P, Ps[cv.countP fun c => decide (c ≤ γ)]? = some P ∧ IsOptimal E V γ P ∧
      ∃ lam, γ < lam ∧ IsOptimal E V lam P := by
  have hlt : (cv.countP fun c => decide (c ≤ γ)) < Ps.length := by
    have := h.length
    have := List.countP_le_length (p := fun c => decide (c ≤ γ)) (l := cv)
    omega
  have hlow : ∀ j c, cv[j]? = some c → j < (cv.countP fun c => decide (c ≤ γ)) → c ≤ γ :=
    fun j c hj hlt => (countP_sorted h.nondecreasing j c hj).1 hlt
  have hhigh : ∀ j c, cv[j]? = some c → (cv.countP fun c => decide (c ≤ γ)) ≤ j → γ < c := by
    intro j c hj hle
    by_contra hcon
    have := (countP_sorted h.nondecreasing j c hj).2 (not_lt.1 hcon)
    omega
  refine ⟨Ps[cv.countP fun c => decide (c ≤ γ)]'hlt, List.getElem?_eq_getElem hlt,
    h.optimal _ _ γ (List.getElem?_eq_getElem hlt) hlow fun j c hj hle => (hhigh j c hj hle).le, ?_⟩
  by_cases hl : (cv.countP fun c => decide (c ≤ γ)) < cv.length
  · refine ⟨cv[cv.countP fun c => decide (c ≤ γ)], hhigh _ _ (List.getElem?_eq_getElem hl) le_rfl,
      h.optimal _ _ _ (List.getElem?_eq_getElem hlt) (fun j c hj hlt => ?_) fun j c hj hle => ?_⟩
    · exact (hlow j c hj hlt).trans (hhigh _ _ (List.getElem?_eq_getElem hl) le_rfl).le
    · obtain ⟨hj1, rfl⟩ := List.getElem?_eq_some_iff.1 hj
      rcases hle.eq_or_lt with e | e
      · simp [e]
      · exact List.pairwise_iff_getElem.1 h.nondecreasing _ _ hl hj1 e
  · refine ⟨γ + 1, by linarith, h.optimal _ _ _ (List.getElem?_eq_getElem hlt) (fun j c hj hlt => ?_) fun j c hj hle => ?_⟩
    · linarith [hlow j c hj hlt]
    · obtain ⟨hj1, -⟩ := List.getElem?_eq_some_iff.1 hj
      omega

/-- How good the approximation is, for any simple graph: at every threshold `γ` the clusters of `CL` lie inside the
clusters of the principal sequence, and these lie inside the clusters of `CL` at the threshold `4 γ / n²` and below. -/
theorem C90_between {n : ℕ} (hn : 0 < n) {E : List Arc} (hv : ValidInput n E) {idx : List ℕ}
    (hidx : SortedIndexes (E.map Arc.cap) idx) {Ps : List Partition} {cv : List ℚ}
    (hs : IsWeakPrincipalSequence E (Finset.range n) Ps cv) (γ δ : ℚ) :
    ∃ h L L' P, CL.new n (E.map Arc.src) (E.map Arc.dst) (E.map Arc.cap) idx = .ok h ∧
      h.getPartition (γ : ℚ) = .ok L ∧ h.getPartition (δ : ℚ) = .ok L' ∧
      Ps[cv.countP fun c => decide (c ≤ γ)]? = some P ∧ Refines (toPartition L) P ∧
      (0 ≤ γ → δ * n ^ 2 ≤ 4 * γ → Refines P (toPartition L')) := by
  have hW := ValidInput.within hv
  obtain ⟨P, hP, h1, lam, hlt, h2⟩ := weak_at hs γ
  obtain ⟨h, L, k1, k2, k3, k4⟩ := cl_clusters hn hW hidx (γ : ℚ)
  obtain ⟨h', L', k1', k2', k3', k4'⟩ := cl_clusters hn hW hidx (δ : ℚ)
  rw [k1] at k1'
  cases k1'
  refine ⟨h, L, L', P, k1, k2, k2', hP, ?_, fun h0 hδ => ?_⟩
  · refine refines_of_same k3 h1.1 fun u v huv => ?_
    have hu := Finset.mem_range.1 (huv.mem_left k3)
    have hv' := Finset.mem_range.1 (huv.mem_right k3)
    rcases same_of_joined hv.nonneg hW h1 ((k4 u v hu hv').1 huv) with rfl | h
    · exact h1.1.same_self (Finset.mem_range.2 hu)
    · exact h
  · refine refines_of_same h1.1 k3' fun u v huv => ?_
    have hu := Finset.mem_range.1 (huv.mem_left h1.1)
    have hv' := Finset.mem_range.1 (huv.mem_right h1.1)
    obtain ⟨B, hB, hub, hvb⟩ := huv
    exact (k4' u v hu hv').2 (blocks_joined hv hW (by simp) h0 hδ hlt h2 hB hub hvb)

/-- For a forest `CL` does return the principal sequence: at every threshold that is not negative the clusters are those of
the principal sequence. -/
theorem C90_forest {n : ℕ} (hn : 0 < n) {E : List Arc} (hE : ∀ e ∈ E, 0 ≤ e.cap ∧ e.src < n ∧ e.dst < n)
    (hf : IsForest E) {idx : List ℕ} (hidx : SortedIndexes (E.map Arc.cap) idx) {Ps : List Partition} {cv : List ℚ}
    (hs : IsWeakPrincipalSequence E (Finset.range n) Ps cv) {γ : ℚ} (h0 : 0 ≤ γ) :
    ∃ h L, CL.new n (E.map Arc.src) (E.map Arc.dst) (E.map Arc.cap) idx = .ok h ∧ h.getPartition (γ : ℚ) = .ok L ∧
      Ps[cv.countP fun c => decide (c ≤ γ)]? = some (toPartition L) := by
  have hW : Within E (Finset.range n) := fun e he =>
    ⟨Finset.mem_range.2 (hE e he).2.1, Finset.mem_range.2 (hE e he).2.2⟩
  obtain ⟨P, hP, h1, lam, hlt, h2⟩ := weak_at hs γ
  obtain ⟨h, L, k1, k2, k3, k4⟩ := cl_clusters hn hW hidx (γ : ℚ)
  refine ⟨h, L, k1, k2, ?_⟩
  rw [hP]
  refine congrArg some (Refines.antisymm h1.1 k3 (refines_of_same h1.1 k3 fun u v huv => ?_)
    (refines_of_same k3 h1.1 fun u v huv => ?_))
  · have hu := Finset.mem_range.1 (huv.mem_left h1.1)
    have hv' := Finset.mem_range.1 (huv.mem_right h1.1)
    obtain ⟨B, hB, hub, hvb⟩ := huv
    exact (k4 u v hu hv').2 (forest_joined hf hW h0 hlt h2 hB hub hvb)
  · have hu := Finset.mem_range.1 (huv.mem_left k3)
    have hv' := Finset.mem_range.1 (huv.mem_right k3)
    rcases same_of_joined (fun e he => (hE e he).1) hW h1 ((k4 u v hu hv').1 huv) with rfl | h
    · exact h1.1.same_self (Finset.mem_range.2 hu)
    · exact h

/-- So for a forest `CL` agrees with all methods of `PSP`. -/
theorem C90_methods {e : Env} (he : EnvGood e) (s : Schedule) {n : ℕ} {E : List Arc} (hv : ValidInput n E) (hn : 2 ≤ n)
    (hf : PdtTolerance e.eps n E) {m : String} (hm : m ∈ methods) (hforest : IsForest E) {idx : List ℕ}
    (hidx : SortedIndexes (E.map Arc.cap) idx) :
    ∃ r h, runOnce e s n E m = .ok r ∧ CL.new n (E.map Arc.src) (E.map Arc.dst) (E.map Arc.cap) idx = .ok h ∧
      ∀ γ : ℚ, 0 ≤ γ → ∃ L, h.getPartition (γ : ℚ) = .ok L ∧
        r.psp[r.cv.countP fun c => decide (c ≤ γ)]? = some (toPartition L) := by
  obtain ⟨r, h1, h2⟩ := runOnce_weak he s hv hn hf hm
  have hE : ∀ e ∈ E, 0 ≤ e.cap ∧ e.src < n ∧ e.dst < n := fun e he =>
    ⟨hv.nonneg e he, (hv.lowHigh e he).1.trans (hv.lowHigh e he).2, (hv.lowHigh e he).2⟩
  obtain ⟨h, L, k1, -, -⟩ := C90_forest (by omega) hE hforest hidx h2 le_rfl
  refine ⟨r, h, h1, k1, fun γ h0 => ?_⟩
  obtain ⟨h', L', k1', k2', k3'⟩ := C90_forest (by omega) hE hforest hidx h2 h0
  rw [k1] at k1'
  cases k1'
  exact ⟨L', k2', k3'⟩

/-- The constructor from an entropy function `f`: at every threshold `γ` the clusters lie inside the blocks of every
partition that is optimal at `γ`. -/
theorem C90_entropy {n : ℕ} (hn : 0 < n) {f : List ℕ → ℚ} {φ : Finset ℕ → ℚ} (hf1 : ∀ x, x < n → f [x] = φ {x})
    (hf2 : ∀ x y, x < n → y < x → f [x, y] = φ {x, y}) (hφ : Intersecting (Finset.range n) φ) {idx : List ℕ}
    (hidx : SortedIndexes ((clPairs n).map fun p => f [p.1] + f [p.2] - f [p.1, p.2]) idx) (γ : ℚ) :
    ∃ h L, CL.ofEntropy f n idx = .ok h ∧ h.getPartition (γ : ℚ) = .ok L ∧
      ∀ P, IsOptimalSF φ (Finset.range n) γ P → Refines (toPartition L) P := by
  obtain ⟨h, L, h1, h2, h3⟩ := C33_entropy hn f hidx (γ : ℚ)
  refine ⟨h, L, h1, h2, fun P hP => refines_of_same (clustering_partition h3) hP.1 fun u v huv => ?_⟩
  have hu := Finset.mem_range.1 (huv.mem_left (clustering_partition h3))
  have hv := Finset.mem_range.1 (huv.mem_right (clustering_partition h3))
  have hR : ∀ x y, (x < n ∧ y < x ∧ (γ : WithBot ℚ) < ((f [x] + f [y] - f [x, y] : ℚ) : WithBot ℚ)) → Same P x y := by
    rintro x y ⟨hx, hy, hlt⟩
    rw [hf1 x hx, hf1 y (hy.trans hx), hf2 x y hx hy] at hlt
    exact same_of_pair hφ hP (Finset.mem_range.2 hx) (Finset.mem_range.2 (hy.trans hx)) (WithBot.coe_lt_coe.1 hlt)
  rcases same_of_eqvGen hP.1 hR ((clustering_same h3 hu hv).1 huv) with rfl | h
  · exact hP.1.same_self (Finset.mem_range.2 hu)
  · exact h

/-- In particular for hypergraphs. -/
theorem C90_hypergraph (M : List (List ℚ)) (cols : ℕ) (hn : 0 < M.length) {idx : List ℕ}
    (hidx : SortedIndexes ((clPairs M.length).map fun p => (hypergraphEntropy M cols).val [p.1] +
      (hypergraphEntropy M cols).val [p.2] - (hypergraphEntropy M cols).val [p.1, p.2]) idx) (γ : ℚ) :
    ∃ h L, CL.ofEntropy (hypergraphEntropy M cols).val M.length idx = .ok h ∧ h.getPartition (γ : ℚ) = .ok L ∧
      ∀ P, IsOptimalSF (weightMax M cols) (Finset.range M.length) γ P → Refines (toPartition L) P :=
  C90_entropy hn (fun x _ => by rw [hypergraphEntropy_val _ _ (by simp)]; simp)
    (fun x y _ _ => by rw [hypergraphEntropy_val _ _ (by simp)]; simp) (weightMax_intersecting M cols _) hidx γ

/-- In particular for finite linear sources. -/
theorem C90_linear {F : Type} [Field F] [DecidableEq F] {unit : ℚ} (hu : 0 ≤ unit) {cols : ℕ} {M : List (List (List ℤ))}
    (hM : ∀ A ∈ M, ∀ r ∈ A, r.length = cols) (hn : 0 < M.length) {idx : List ℕ}
    (hidx : SortedIndexes ((clPairs M.length).map fun p => (finiteLinear F unit cols M).val [p.1] +
      (finiteLinear F unit cols M).val [p.2] - (finiteLinear F unit cols M).val [p.1, p.2]) idx) (γ : ℚ) :
    ∃ h L, CL.ofEntropy (finiteLinear F unit cols M).val M.length idx = .ok h ∧ h.getPartition (γ : ℚ) = .ok L ∧
      ∀ P, IsOptimalSF (fun B => unit * rowRank F cols M B) (Finset.range M.length) γ P → Refines (toPartition L) P :=
  C90_entropy (φ := fun B => unit * rowRank F cols M B) hn (fun x _ => by rw [finiteLinear_val hM]; simp)
    (fun x y _ _ => by rw [finiteLinear_val hM]; simp) (rowRank_intersecting hu cols M _) hidx γ

/-! ### What is not true, and examples -/

def clTriangle : List Arc := [⟨0, 1, 1⟩, ⟨0, 2, 1⟩, ⟨1, 2, 1⟩]

theorem clTriangle_sequence :
    IsPrincipalSequence clTriangle (Finset.range 3) [{{0, 1, 2}}, {{0}, {1}, {2}}] [3 / 2] := by
  have hf : FineTolerance lemonEps 3 clTriangle := by
    refine ⟨1, by norm_num, fun e he => ?_, by norm_num [lemonEps], by norm_num [lemonEps]⟩
    simp only [clTriangle, List.mem_cons, List.not_mem_nil, or_false] at he
    rcases he with rfl | rfl | rfl <;> exact ⟨1, by norm_num⟩
  obtain ⟨r, h, hp⟩ := C01_dt_exact bruteSolver_minimal (E := clTriangle) (n := 3) (by decide +kernel) (by norm_num) hf
  have h' : (makeDgraph lemonEps 3 clTriangle >>= dtRun bruteSolver lemonEps) =
      .ok ⟨[{{0, 1, 2}}, {{0}, {1}, {2}}], [3 / 2]⟩ := by decide +kernel
  rw [h'] at h
  cases h
  exact hp

/-- The comment of the constructor is wrong: for the triangle with the weights 1 the principal sequence has the critical
value 3/2, and `CL` has only clusters of one node for all thresholds from 1 on. -/
theorem C90_triangle_violated : ∃ (E : List Arc) (Ps : List Partition) (cv : List ℚ) (h : HC) (L : List (List ℕ)),
    ValidInput 3 E ∧ IsPrincipalSequence E (Finset.range 3) Ps cv ∧
    SortedIndexes (E.map Arc.cap) [0, 1, 2] ∧
    CL.new 3 (E.map Arc.src) (E.map Arc.dst) (E.map Arc.cap) [0, 1, 2] = .ok h ∧
    h.getPartition ((1 : ℚ) : WithBot ℚ) = .ok L ∧ L = [[0], [1], [2]] ∧ h.getCriticalValues = [1] ∧
    Ps[cv.countP fun c => decide (c ≤ 1)]? = some {{0, 1, 2}} ∧ cv = [3 / 2] := by
  obtain ⟨h, h1⟩ : ∃ h, CL.new 3 (clTriangle.map Arc.src) (clTriangle.map Arc.dst) (clTriangle.map Arc.cap) [0, 1, 2] =
      .ok h := by
    obtain ⟨h, -, h1, -⟩ := cl_clusters (n := 3) (by norm_num) (E := clTriangle) (ValidInput.within (by decide +kernel))
      (idx := [0, 1, 2]) (by unfold SortedIndexes; decide +kernel) ⊥
    exact ⟨h, h1⟩
  have e1 : (CL.new 3 (clTriangle.map Arc.src) (clTriangle.map Arc.dst) (clTriangle.map Arc.cap) [0, 1, 2] >>=
      fun h => h.getPartition ((1 : ℚ) : WithBot ℚ)) = .ok [[0], [1], [2]] := by decide +kernel
  have e2 : (CL.new 3 (clTriangle.map Arc.src) (clTriangle.map Arc.dst) (clTriangle.map Arc.cap) [0, 1, 2] >>=
      fun h => .ok h.getCriticalValues) = .ok [1] := by decide +kernel
  rw [h1] at e1 e2
  exact ⟨clTriangle, _, _, h, _, by decide +kernel, clTriangle_sequence, by unfold SortedIndexes; decide +kernel, h1, e1, rfl,
    Outcome.ok.inj e2, by decide +kernel, rfl⟩

/-- Two pairs of nodes with a heavy edge each, and all edges of weight 1 between the pairs. -/
def clPairsGraph : List Arc := [⟨0, 1, 10⟩, ⟨2, 3, 10⟩, ⟨0, 2, 1⟩, ⟨0, 3, 1⟩, ⟨1, 2, 1⟩, ⟨1, 3, 1⟩]

theorem clPairsGraph_sequence : IsPrincipalSequence clPairsGraph (Finset.range 4)
    [{{0, 1, 2, 3}}, {{0, 1}, {2, 3}}, {{0}, {1}, {2}, {3}}] [4, 10] := by
  have hf : FineTolerance lemonEps 4 clPairsGraph := by
    refine ⟨1, by norm_num, fun e he => ?_, by norm_num [lemonEps], by norm_num [lemonEps]⟩
    simp only [clPairsGraph, List.mem_cons, List.not_mem_nil, or_false] at he
    rcases he with rfl | rfl | rfl | rfl | rfl | rfl
    · exact ⟨10, by norm_num⟩
    · exact ⟨10, by norm_num⟩
    all_goals exact ⟨1, by norm_num⟩
  obtain ⟨r, h, hp⟩ := C01_dt_exact bruteSolver_minimal (E := clPairsGraph) (n := 4) (by decide +kernel) (by norm_num) hf
  have h' : (makeDgraph lemonEps 4 clPairsGraph >>= dtRun bruteSolver lemonEps) =
      .ok ⟨[{{0, 1, 2, 3}}, {{0, 1}, {2, 3}}, {{0}, {1}, {2}, {3}}], [4, 10]⟩ := by decide +kernel
  rw [h'] at h
  cases h
  exact hp

/-- The factor `n² / 4` in `C90_between` cannot be improved: here all nodes are together in the principal sequence at all
thresholds below 4, and `CL` separates the pairs at the threshold 1. -/
theorem C90_sharp : ∃ (E : List Arc) (Ps : List Partition) (cv : List ℚ) (idx : List ℕ),
    ValidInput 4 E ∧ IsPrincipalSequence E (Finset.range 4) Ps cv ∧ SortedIndexes (E.map Arc.cap) idx ∧
    (∀ γ : ℚ, γ < 4 → Ps[cv.countP fun c => decide (c ≤ γ)]? = some {{0, 1, 2, 3}}) ∧
    (CL.new 4 (E.map Arc.src) (E.map Arc.dst) (E.map Arc.cap) idx >>= fun h => h.getPartition ((1 : ℚ) : WithBot ℚ)) =
      .ok [[0, 1], [2, 3]] := by
  refine ⟨clPairsGraph, _, _, [0, 1, 2, 3, 4, 5], by decide +kernel, clPairsGraph_sequence,
    by unfold SortedIndexes; decide +kernel, fun γ hγ => ?_, by decide +kernel⟩
  rw [List.countP_cons_of_neg (by simpa using hγ), List.countP_cons_of_neg (by simp; linarith)]
  rfl

/-- `C90_between` on this graph. -/
example : ∃ h L L' P, CL.new 4 (clPairsGraph.map Arc.src) (clPairsGraph.map Arc.dst) (clPairsGraph.map Arc.cap)
    [0, 1, 2, 3, 4, 5] = .ok h ∧ h.getPartition ((3 : ℚ) : WithBot ℚ) = .ok L ∧
      h.getPartition ((3 / 4 : ℚ) : WithBot ℚ) = .ok L' ∧
      ([{{0, 1, 2, 3}}, {{0, 1}, {2, 3}}, {{0}, {1}, {2}, {3}}] : List Partition)[
        ([4, 10] : List ℚ).countP fun c => decide (c ≤ 3)]? = some P ∧ Refines (toPartition L) P ∧
      Refines P (toPartition L') := by
  have h := clPairsGraph_sequence
  obtain ⟨h, L, L', P, h1, h2, h3, h4, h5, h6⟩ := C90_between (n := 4) (by norm_num) (E := clPairsGraph) (by decide +kernel)
    (idx := [0, 1, 2, 3, 4, 5]) (by unfold SortedIndexes; decide +kernel)
    ⟨h.length, h.first, h.last, h.refine, h.increasing.imp le_of_lt, h.optimal⟩ 3 (3 / 4)
  exact ⟨h, L, L', P, h1, h2, h3, h4, h5, h6 (by norm_num) (by norm_num)⟩

/-- A hypergraph with three nodes: the order of the pairs (1,0), (2,0), (2,1) by mutual information. -/
example : SortedIndexes ((clPairs 3).map fun p => (hypergraphEntropy [[1, 0], [1, 2], [1, 1]] 2).val [p.1] +
    (hypergraphEntropy [[1, 0], [1, 2], [1, 1]] 2).val [p.2] -
    (hypergraphEntropy [[1, 0], [1, 2], [1, 1]] 2).val [p.1, p.2]) [2, 0, 1] := by
  unfold SortedIndexes; decide +kernel

/-- A path is a forest: its edges are told from the others by a set of nodes. -/
theorem forest_of_sides {E : List Arc} (side : ℕ → ℕ → Bool)
    (h : ∀ i, i < E.length → ∀ j, j < E.length →
      (side i (E.getD j ⟨0, 0, 0⟩).src = side i (E.getD j ⟨0, 0, 0⟩).dst ↔ i ≠ j)) : IsForest E := by
  rintro A e B rfl hj
  have key : ∀ u v, Joined (links (A ++ B)) ⊥ u v → side A.length u = side A.length v := by
    intro u v huv
    induction huv with
    | rel x y hxy =>
      obtain ⟨a, ha, rfl, rfl, -⟩ := hxy
      obtain ⟨a, ha', rfl⟩ := List.mem_map.1 ha
      rcases List.mem_append.1 ha' with ha | ha
      · obtain ⟨j, hj, rfl⟩ := List.mem_iff_getElem.1 ha
        have h1 := (h A.length (by simp) j (by simp; omega)).2 (by omega)
        rwa [List.getD_append _ _ _ _ hj, List.getD_eq_getElem _ _ hj] at h1
      · obtain ⟨j, hj, rfl⟩ := List.mem_iff_getElem.1 ha
        have h1 := (h A.length (by simp) (A.length + (j + 1)) (by simp; omega)).2 (by omega)
        rw [List.getD_append_right _ _ _ _ (by omega), Nat.add_sub_cancel_left, List.getD_cons_succ,
          List.getD_eq_getElem _ _ hj] at h1
        exact h1
    | refl x => rfl
    | symm x y _ ih => exact ih.symm
    | trans x y z _ _ i1 i2 => exact i1.trans i2
  have h1 := (h A.length (by simp) A.length (by simp)).1
  rw [List.getD_append_right _ _ _ _ le_rfl, Nat.sub_self, List.getD_cons_zero] at h1
  exact h1 (key _ _ hj) rfl

/-- A tree of five nodes. -/
def clTree : List Arc := [⟨0, 1, 3⟩, ⟨1, 2, 1⟩, ⟨1, 3, 2⟩, ⟨3, 4, 1⟩]

theorem clTree_forest : IsForest clTree :=
  forest_of_sides (fun i v => decide (v ∈ (([[0], [2], [3, 4], [4]] : List (List ℕ)).getD i []))) (by decide)

example : ∃ h, CL.new 5 (clTree.map Arc.src) (clTree.map Arc.dst) (clTree.map Arc.cap) [0, 2, 1, 3] = .ok h ∧
    ∀ γ : ℚ, 0 ≤ γ → ∃ L, h.getPartition (γ : ℚ) = .ok L ∧
      ([{{0, 1, 2, 3, 4}}, {{0, 1, 3}, {2}, {4}}, {{0, 1}, {2}, {3}, {4}}, {{0}, {1}, {2}, {3}, {4}}] :
        List Partition)[([1, 2, 3] : List ℚ).countP fun c => decide (c ≤ γ)]? = some (toPartition L) := by
  have hf : PdtTolerance exEnv.eps 5 clTree := by
    refine integer_weights_pdt (by norm_num) fun e he => ?_
    simp only [clTree, List.mem_cons, List.not_mem_nil, or_false] at he
    rcases he with rfl | rfl | rfl | rfl
    · exact ⟨3, by norm_num⟩
    · exact ⟨1, by norm_num⟩
    · exact ⟨2, by norm_num⟩
    · exact ⟨1, by norm_num⟩
  obtain ⟨r, h, h1, h2, h3⟩ := C90_methods exEnv_good exSched (E := clTree) (n := 5) (by decide +kernel) (by norm_num) hf
    (m := "dt") (by simp [methods]) clTree_forest (idx := [0, 2, 1, 3]) (by unfold SortedIndexes; decide +kernel)
  have h4 : runOnce exEnv exSched 5 clTree "dt" = .ok ⟨[{{0, 1, 2, 3, 4}}, {{0, 1, 3}, {2}, {4}}, {{0, 1}, {2}, {3}, {4}},
    {{0}, {1}, {2}, {3}, {4}}], [1, 2, 3]⟩ := by decide +kernel
  rw [h4] at h1
  cases h1
  exact ⟨h, h2, h3⟩

end PSP.Props
