import Verif.Props.ChowLiu
import Verif.Props.AggAnyFunctorF

/-!
# Properties: `CL` on entropy functions in floating-point arithmetic (C91)
-/

namespace PSP.Props

open PSP.Model PSP.Spec PSP.Theory Relation

/-- `x` and `y` are connected by pairs of elements whose mutual information under `φ` is above `γ`. -/
def InfoJoined (φ : Finset ℕ → ℚ) (n : ℕ) (γ : ℚ) : ℕ → ℕ → Prop :=
  EqvGen fun x y => x < n ∧ y < n ∧ x ≠ y ∧ γ < φ {x} + φ {y} - φ {x, y}

/-- The error of the mutual information of a pair. -/
theorem info_near {fl : ℚ → ℚ} {u M : ℚ} (h : Sums fl u M) (hu : u ≤ 1) {f : SF} {φ : Finset ℕ → ℚ} {n m : ℕ} {W : ℚ}
    (hf : NearFunctor fl f φ n m u W) (hm : 2 * (m : ℚ) * u ≤ 1) (hWM : 8 * W ≤ M) {x y : ℕ} (hx : x < n) (hy : y < n)
    (hne : x ≠ y) :
    |fl (fl (f.val [x] + f.val [y]) - f.val [x, y]) - (φ {x} + φ {y} - φ {x, y})| ≤ (6 * m + 14) * u * W := by
  have hu0 := h.nonneg
  have hm0 : (0 : ℚ) ≤ 2 * m * u := by positivity
  have e : ∀ B : List ℕ, B.Nodup → B ≠ [] → (∀ b ∈ B, b < n) → |f.val B - φ B.toFinset| ≤ 2 * m * u * W ∧
      fl (f.val B) = f.val B ∧ |f.val B| ≤ 2 * W ∧ 0 ≤ W := by
    intro B h1 h2 h3
    have hsub : B.toFinset ⊆ Finset.range n := fun b hb => Finset.mem_range.2 (h3 b (List.mem_toFinset.1 hb))
    obtain ⟨k1, k2⟩ := hf.near B h1 h2 h3
    have k3 := hf.nonneg _ hsub
    have k4 := hf.le _ hsub
    have k5 : 2 * m * u * φ B.toFinset ≤ 2 * m * u * W := mul_le_mul_of_nonneg_left k4 hm0
    have k6 : 2 * m * u * W ≤ 1 * W := mul_le_mul_of_nonneg_right hm (k3.trans k4)
    refine ⟨k1.trans k5, k2, ?_, k3.trans k4⟩
    rw [abs_le] at k1 ⊢
    constructor <;> linarith [k1.1, k1.2]
  obtain ⟨a1, a2, a3, hW⟩ := e [x] (by simp) (by simp) (by simpa using hx)
  obtain ⟨b1, b2, b3, -⟩ := e [y] (by simp) (by simp) (by simpa using hy)
  obtain ⟨c1, c2, c3, -⟩ := e [x, y] (by simpa using hne) (by simp) (by simp [hx, hy])
  simp only [List.toFinset_cons, List.toFinset_nil, insert_empty_eq] at a1 b1 c1
  have s1 := h.add _ _ a2 b2 (by linarith) (by linarith)
  have s2 : |f.val [x] + f.val [y]| ≤ 4 * W := (abs_add_le _ _).trans (by linarith)
  have s3 : |fl (f.val [x] + f.val [y]) - (f.val [x] + f.val [y])| ≤ u * (4 * W) :=
    s1.trans (mul_le_mul_of_nonneg_left s2 hu0)
  have s4 : u * (4 * W) ≤ 1 * (4 * W) := mul_le_mul_of_nonneg_right hu (by linarith)
  have s5 : |fl (f.val [x] + f.val [y])| ≤ 8 * W := by
    rw [abs_le] at s2 s3 ⊢
    constructor <;> linarith [s2.1, s2.2, s3.1, s3.2]
  have t1 := h.add (fl (f.val [x] + f.val [y])) (-f.val [x, y]) (h.idem _ (by linarith))
    (h.neg _ (by linarith) c2) (by linarith) (by rw [abs_neg]; linarith)
  rw [← sub_eq_add_neg] at t1
  have t2 : |fl (f.val [x] + f.val [y]) - f.val [x, y]| ≤ 10 * W := (abs_sub _ _).trans (by linarith)
  have t3 := t1.trans (mul_le_mul_of_nonneg_left t2 hu0)
  have key : (6 * (m : ℚ) + 14) * u * W = 3 * (2 * m * u * W) + u * (4 * W) + u * (10 * W) := by ring
  rw [key]
  rw [abs_le] at a1 b1 c1 s3 t3 ⊢
  constructor <;> linarith [a1.1, a1.2, b1.1, b1.2, c1.1, c1.2, s3.1, s3.2, t3.1, t3.2]

/-- The constructor of `CL` from a functor that computes a set function up to a relative error: the clusters at every
threshold `γ` lie between the exact clusters at `γ + e` and at `γ - e`, and inside the blocks of every partition that is
optimal at `γ - e` or below, where `e` is the error of one mutual information. -/
theorem clF_between {p : ℕ} {fl : ℚ → ℚ} (hfl : FloatingPoint p fl) {f : SF} {φ : Finset ℕ → ℚ} {n m : ℕ} {W : ℚ}
    (hn : 0 < n) (hf : NearFunctor fl f φ n m (2 ^ p)⁻¹ W) (hφ : Intersecting (Finset.range n) φ)
    (hm : 2 * (m : ℚ) * (2 ^ p)⁻¹ ≤ 1) (hW : 16 * W ≤ 4 ^ p) {idx : List ℕ}
    (hidx : SortedIndexes ((clPairs n).map fun q => fl (fl (f.val [q.1] + f.val [q.2]) - f.val [q.1, q.2])) idx)
    {e : ℚ} (he : (6 * m + 14) * W / 2 ^ p ≤ e) (γ : ℚ) :
    ∃ h L, CL.ofEntropyF fl f.val n idx = .ok h ∧ h.getPartition (γ : ℚ) = .ok L ∧
      IsPartition (Finset.range n) (toPartition L) ∧
      (∀ x y, x < n → y < n → InfoJoined φ n (γ + e) x y → Same (toPartition L) x y) ∧
      (∀ x y, x < n → y < n → Same (toPartition L) x y → InfoJoined φ n (γ - e) x y) ∧
      ∀ lam P, lam ≤ γ - e → IsOptimalSF φ (Finset.range n) lam P → Refines (toPartition L) P := by
  have h2 : (0 : ℚ) < 2 ^ p := by positivity
  have hu : ((2 : ℚ) ^ p)⁻¹ ≤ 1 := inv_le_one_of_one_le₀ (one_le_pow₀ (by norm_num))
  have hnear : ∀ x y, x < n → y < n → x ≠ y →
      |fl (fl (f.val [x] + f.val [y]) - f.val [x, y]) - (φ {x} + φ {y} - φ {x, y})| ≤ e := by
    intro x y hx hy hne
    refine (info_near (FloatingPoint.sums hfl) hu hf hm (by linarith) hx hy hne).trans (le_trans (le_of_eq ?_) he)
    rw [div_eq_mul_inv]; ring
  have hmem : ∀ a b, (a, b) ∈ clPairs n ↔ a < n ∧ b < a := by
    intro a b; simp [clPairs]
  set info : ℕ × ℕ → ℚ := fun q => fl (fl (f.val [q.1] + f.val [q.2]) - f.val [q.1, q.2]) with hinfo
  have hE : ∀ l, l ∈ edges ((clPairs n).map Prod.fst) ((clPairs n).map Prod.snd) ((clPairs n).map info) ↔
      ∃ a b, a < n ∧ b < a ∧ l = ⟨a, b, info (a, b)⟩ := by
    intro l
    have : edges ((clPairs n).map Prod.fst) ((clPairs n).map Prod.snd) ((clPairs n).map info) =
        (clPairs n).map fun q => ⟨q.1, q.2, info q⟩ := by
      unfold edges
      induction clPairs n with
      | nil => rfl
      | cons q qs ih => simp only [List.map_cons, List.zip_cons_cons, List.zipWith_cons_cons, ih]
    rw [this, List.mem_map]
    constructor
    · rintro ⟨⟨a, b⟩, hab, rfl⟩
      exact ⟨a, b, ((hmem a b).1 hab).1, ((hmem a b).1 hab).2, rfl⟩
    · rintro ⟨a, b, h1, h2, rfl⟩
      exact ⟨(a, b), (hmem a b).2 ⟨h1, h2⟩, rfl⟩
  obtain ⟨h, L, k1, k2, k3⟩ := C33_single_linkage hn (first := (clPairs n).map Prod.fst)
    (second := (clPairs n).map Prod.snd) (by simp) (by simp) (by
      intro l hl
      obtain ⟨a, b, h1, h2, rfl⟩ := (hE l).1 hl
      exact ⟨h1, by show b < n; omega⟩) hidx (γ : ℚ)
  have hpair : ∀ x y, φ {y} + φ {x} - φ {y, x} = φ {x} + φ {y} - φ {x, y} := by
    intro x y; rw [Finset.pair_comm]; ring
  have hback : ∀ x y, x < n → y < n → Same (toPartition L) x y → InfoJoined φ n (γ - e) x y := by
    intro x y hx hy hs
    refine eqvGen_le ?_ ((clustering_same k3 hx hy).1 hs)
    rintro a b ⟨l, hl, rfl, rfl, hlt⟩
    obtain ⟨a, b, ha, hb, rfl⟩ := (hE l).1 hl
    have h3 := WithBot.coe_lt_coe.1 hlt
    have h4 := (abs_le.1 (hnear a b ha (hb.trans ha) (by omega))).2
    refine ⟨ha, hb.trans ha, by show a ≠ b; omega, ?_⟩
    simp only [hinfo] at h3
    show γ - e < φ {a} + φ {b} - φ {a, b}
    linarith
  refine ⟨h, L, k1, k2, clustering_partition k3, fun x y hx hy hj => ?_, hback, fun lam P hle hP => ?_⟩
  · rw [clustering_same k3 hx hy]
    have key : ∀ a b, a < n → b < a → γ + e < φ {a} + φ {b} - φ {a, b} →
        Joined (edges ((clPairs n).map Prod.fst) ((clPairs n).map Prod.snd) ((clPairs n).map info)) (γ : ℚ) a b := by
      intro a b ha hb hlt
      refine EqvGen.rel _ _ ⟨⟨a, b, info (a, b)⟩, (hE _).2 ⟨a, b, ha, hb, rfl⟩, rfl, rfl, WithBot.coe_lt_coe.2 ?_⟩
      have h4 := (abs_le.1 (hnear a b ha (hb.trans ha) (by omega))).1
      simp only [hinfo]
      linarith
    have : ∀ a b, InfoJoined φ n (γ + e) a b →
        Joined (edges ((clPairs n).map Prod.fst) ((clPairs n).map Prod.snd) ((clPairs n).map info)) (γ : ℚ) a b := by
      intro a b hab
      induction hab with
      | rel a b hab =>
        obtain ⟨ha, hb, hne, hlt⟩ := hab
        rcases lt_or_gt_of_ne hne with h5 | h5
        · exact (key b a hb h5 (by rw [hpair]; exact hlt)).symm _ _
        · exact key a b ha h5 hlt
      | refl a => exact EqvGen.refl a
      | symm a b _ ih => exact ih.symm _ _
      | trans a b c _ _ i1 i2 => exact i1.trans _ _ _ i2
    exact this x y hj
  · refine refines_of_same (clustering_partition k3) hP.1 fun x y hs => ?_
    have hx := Finset.mem_range.1 (hs.mem_left (clustering_partition k3))
    have hy := Finset.mem_range.1 (hs.mem_right (clustering_partition k3))
    have hR : ∀ a b, (a < n ∧ b < n ∧ a ≠ b ∧ γ - e < φ {a} + φ {b} - φ {a, b}) → Same P a b := by
      rintro a b ⟨ha, hb, -, hlt⟩
      exact same_of_pair hφ hP (Finset.mem_range.2 ha) (Finset.mem_range.2 hb) (lt_of_le_of_lt hle hlt)
    rcases same_of_eqvGen hP.1 hR (hback x y hx hy hs) with rfl | h5
    · exact hP.1.same_self (Finset.mem_range.2 hx)
    · exact h5

/-- The clusters of `CL` on a hypergraph with weights that are not negative, in floating-point arithmetic with `p` digits:
they lie between the exact ones for thresholds that differ by `e = (6 c + 14) W / 2 ^ p` from the one asked for, where `c` is
the number of hyperedges and `W` a bound for the sum of the weights; and inside the clusters of info-clustering. -/
theorem C91_hypergraph {p : ℕ} {fl : ℚ → ℚ} (hfl : FloatingPoint p fl) {M : List (List ℚ)} {cols : ℕ} (hn : 0 < M.length)
    (h0 : ∀ row ∈ M, ∀ x ∈ row, 0 ≤ x) (hfix : ∀ row ∈ M, ∀ x ∈ row, fl x = x) {W : ℚ}
    (hW : ∑ v ∈ Finset.range M.length, weightMax M cols {v} ≤ W) (hWp : 16 * W ≤ 4 ^ p) (hc : 2 * cols ≤ 2 ^ p)
    {idx : List ℕ} (hidx : SortedIndexes ((clPairs M.length).map fun q => fl (fl ((hypergraphEntropyF fl M cols).val [q.1] +
      (hypergraphEntropyF fl M cols).val [q.2]) - (hypergraphEntropyF fl M cols).val [q.1, q.2])) idx)
    {e : ℚ} (he : (6 * cols + 14) * W / 2 ^ p ≤ e) (γ : ℚ) :
    ∃ h L, CL.ofEntropyF fl (hypergraphEntropyF fl M cols).val M.length idx = .ok h ∧ h.getPartition (γ : ℚ) = .ok L ∧
      IsPartition (Finset.range M.length) (toPartition L) ∧
      (∀ x y, x < M.length → y < M.length → InfoJoined (weightMax M cols) M.length (γ + e) x y → Same (toPartition L) x y) ∧
      (∀ x y, x < M.length → y < M.length → Same (toPartition L) x y → InfoJoined (weightMax M cols) M.length (γ - e) x y) ∧
      ∀ lam P, lam ≤ γ - e → IsOptimalSF (weightMax M cols) (Finset.range M.length) lam P → Refines (toPartition L) P := by
  have h2 : (0 : ℚ) < 2 ^ p := by positivity
  have hm : 2 * (cols : ℚ) * (2 ^ p)⁻¹ ≤ 1 := by
    rw [← div_eq_mul_inv, div_le_one h2]
    exact_mod_cast hc
  have hz : fl 0 = 0 := (FloatingPoint.sums hfl).zero
  have hW0 : 0 ≤ W := (Finset.sum_nonneg fun v _ =>
    weightMax_nonneg (getD_of_all (Q := fun x => 0 ≤ x) le_rfl h0) _).trans hW
  exact clF_between hfl hn (hypergraph_nearFunctor (FloatingPoint.sums hfl) (getD_of_all (Q := fun x => 0 ≤ x) le_rfl h0)
    (getD_of_all (Q := fun x => fl x = x) hz hfix) hW (by linarith) hm) (weightMax_intersecting M cols _) hm hWp hidx he γ

/-- The same for a finite linear source; `unit` is the number `k log2 p` as the code computes it. -/
theorem C91_linear {p : ℕ} {fl : ℚ → ℚ} (hfl : FloatingPoint p fl) {F : Type} [Field F] [DecidableEq F] {unit : ℚ}
    (hu : 1 ≤ unit) {cols : ℕ} {M : List (List (List ℤ))} (hM : ∀ A ∈ M, ∀ r ∈ A, r.length = cols) (hn : 0 < M.length)
    (hp : 4 ≤ p) {W : ℚ} (hW : ∑ v ∈ Finset.range M.length, unit * rowRank F cols M {v} ≤ W) (hWp : 2 * W ≤ 2 ^ p)
    {idx : List ℕ} (hidx : SortedIndexes ((clPairs M.length).map fun q => fl (fl ((finiteLinearF F fl unit cols M).val [q.1] +
      (finiteLinearF F fl unit cols M).val [q.2]) - (finiteLinearF F fl unit cols M).val [q.1, q.2])) idx)
    {e : ℚ} (he : 20 * W / 2 ^ p ≤ e) (γ : ℚ) :
    ∃ h L, CL.ofEntropyF fl (finiteLinearF F fl unit cols M).val M.length idx = .ok h ∧ h.getPartition (γ : ℚ) = .ok L ∧
      IsPartition (Finset.range M.length) (toPartition L) ∧
      (∀ x y, x < M.length → y < M.length → InfoJoined (fun B => unit * rowRank F cols M B) M.length (γ + e) x y →
        Same (toPartition L) x y) ∧
      (∀ x y, x < M.length → y < M.length → Same (toPartition L) x y →
        InfoJoined (fun B => unit * rowRank F cols M B) M.length (γ - e) x y) ∧
      ∀ lam P, lam ≤ γ - e → IsOptimalSF (fun B => unit * rowRank F cols M B) (Finset.range M.length) lam P →
        Refines (toPartition L) P := by
  have h2 : (0 : ℚ) < 2 ^ p := by positivity
  have h16 : (16 : ℚ) ≤ 2 ^ p := by
    calc (16 : ℚ) = 2 ^ 4 := by norm_num
      _ ≤ 2 ^ p := pow_le_pow_right₀ (by norm_num) hp
  have h4 : (4 : ℚ) ^ p = 2 ^ p * 2 ^ p := by rw [← mul_pow]; norm_num
  refine clF_between (m := 1) hfl hn (linear_nearFunctor hfl hu hM hW hWp) (rowRank_intersecting (by linarith) cols M _)
    ?_ ?_ hidx (le_trans (le_of_eq (by norm_num)) he) γ
  · rw [← div_eq_mul_inv, div_le_one h2]
    push_cast
    linarith
  · rw [h4]
    nlinarith

/-- The same for `DigraphEntropy`; here `InfoJoined` and the optimal partitions are those of the graph. -/
theorem C91_digraph {p : ℕ} {fl : ℚ → ℚ} (hfl : FloatingPoint p fl) {n : ℕ} (hn : 0 < n) {ai ao : List Arc → List Arc}
    (hai : ∀ l, (ai l).Perm l) (hao : ∀ l, (ao l).Perm l) {E : List Arc} (hv : ValidInput n E)
    (hfix : ∀ a ∈ E, fl a.cap = a.cap) {W : ℚ} (hW : (E.map Arc.cap).sum ≤ W) (hWp : 16 * W ≤ 4 ^ p)
    (hc : 2 * E.length ≤ 2 ^ p) {idx : List ℕ} (hidx : SortedIndexes ((clPairs n).map fun q =>
      fl (fl ((digraphEntropyF fl ai ao ⟨List.range n, E⟩).val [q.1] + (digraphEntropyF fl ai ao ⟨List.range n, E⟩).val [q.2]) -
        (digraphEntropyF fl ai ao ⟨List.range n, E⟩).val [q.1, q.2])) idx)
    {e : ℚ} (he : (6 * E.length + 14) * W / 2 ^ p ≤ e) (γ : ℚ) :
    ∃ h L, CL.ofEntropyF fl (digraphEntropyF fl ai ao ⟨List.range n, E⟩).val n idx = .ok h ∧
      h.getPartition (γ : ℚ) = .ok L ∧ IsPartition (Finset.range n) (toPartition L) ∧
      (∀ x y, x < n → y < n → InfoJoined (incident E) n (γ + e) x y → Same (toPartition L) x y) ∧
      (∀ x y, x < n → y < n → Same (toPartition L) x y → InfoJoined (incident E) n (γ - e) x y) ∧
      ∀ lam P, lam ≤ γ - e → IsOptimal E (Finset.range n) lam P → Refines (toPartition L) P := by
  have h2 : (0 : ℚ) < 2 ^ p := by positivity
  have hm : 2 * (E.length : ℚ) * (2 ^ p)⁻¹ ≤ 1 := by
    rw [← div_eq_mul_inv, div_le_one h2]
    exact_mod_cast hc
  have hW0 : 0 ≤ W := (List.sum_nonneg fun x hx => by
    obtain ⟨a, ha, rfl⟩ := List.mem_map.1 hx
    exact hv.nonneg a ha).trans hW
  obtain ⟨h, L, k1, k2, k3, k4, k5, k6⟩ := clF_between hfl hn (digraph_nearFunctor (FloatingPoint.sums hfl) hai hao
    (fun a ha => (hv.lowHigh a ha).1) hv.nonneg hfix hW (by linarith) hm) (incident_intersecting hv.nonneg _) hm hWp hidx he γ
  exact ⟨h, L, k1, k2, k3, k4, k5, fun lam P hle hP => k6 lam P hle (optimalSF_of_optimal (ValidInput.within hv) hP)⟩

/-! ### Runs with `double` -/

/-- The hypergraph of C89: the error is below `10⁻¹³`. The pairs (1,0) and (2,0) have the same mutual information, but not
after rounding. -/
example (γ : ℚ) : ∃ h L, CL.ofEntropyF roundDouble (hypergraphEntropyF roundDouble doubleWeights 3).val 3 [2, 1, 0] = .ok h ∧
    h.getPartition (γ : ℚ) = .ok L ∧
    ∀ lam P, lam ≤ γ - 1 / 10 ^ 13 → IsOptimalSF (weightMax doubleWeights 3) (Finset.range 3) lam P →
      Refines (toPartition L) P := by
  obtain ⟨h, L, h1, h2, -, -, -, h3⟩ := C91_hypergraph (fl := roundDouble) (p := 53) (M := doubleWeights) (cols := 3)
    roundDouble_spec (by decide) (by decide +kernel) (by decide +kernel) (W := 6) (by decide +kernel) (by norm_num) (by norm_num)
    (idx := [2, 1, 0]) (by unfold SortedIndexes; decide +kernel) (e := 1 / 10 ^ 13) (by norm_num) γ
  exact ⟨h, L, h1, h2, h3⟩

example : (CL.ofEntropyF roundDouble (hypergraphEntropyF roundDouble doubleWeights 3).val 3 [2, 1, 0] >>= fun h =>
    h.getPartition ((1 : ℚ) : WithBot ℚ)) = .ok [[0], [1, 2]] := by decide +kernel

private instance : Fact (Nat.Prime 3) := ⟨Nat.prime_three⟩

/-- Three sources over the field with three elements; the first two are multiples of each other. -/
def clMatrices : List (List (List ℤ)) := [[[1, 0, 0]], [[2, 0, 0]], [[0, 1, 2], [0, 0, 1]]]

example (γ : ℚ) : ∃ h L, CL.ofEntropyF roundDouble (finiteLinearF (ZMod 3) roundDouble log2Three 3 clMatrices).val 3 [0, 1, 2] =
    .ok h ∧ h.getPartition (γ : ℚ) = .ok L ∧
    ∀ lam P, lam ≤ γ - 1 / 10 ^ 13 →
      IsOptimalSF (fun B => log2Three * rowRank (ZMod 3) 3 clMatrices B) (Finset.range 3) lam P →
        Refines (toPartition L) P := by
  have hM : ∀ A ∈ clMatrices, ∀ r ∈ A, r.length = 3 := by decide
  have hW : ∑ v ∈ Finset.range clMatrices.length, log2Three * rowRank (ZMod 3) 3 clMatrices {v} ≤ 8 := by
    have hv : ∀ v, log2Three * (rowRank (ZMod 3) 3 clMatrices {v} : ℚ) =
        (finiteLinear (ZMod 3) log2Three 3 clMatrices).val [v] := fun v => by
      rw [C49_value hM]; rfl
    simp only [hv]
    decide +kernel
  obtain ⟨h, L, h1, h2, -, -, -, h3⟩ := C91_linear (F := ZMod 3) (fl := roundDouble) (p := 53) (M := clMatrices) (cols := 3)
    (unit := log2Three) roundDouble_spec (by decide +kernel) hM (by decide) (by norm_num) hW (by norm_num) (idx := [0, 1, 2])
    (by unfold SortedIndexes; decide +kernel) (e := 1 / 10 ^ 13) (by norm_num) γ
  exact ⟨h, L, h1, h2, h3⟩

example : (CL.ofEntropyF roundDouble (finiteLinearF (ZMod 3) roundDouble log2Three 3 clMatrices).val 3 [0, 1, 2] >>= fun h =>
    h.getPartition ((1 : ℚ) : WithBot ℚ)) = .ok [[0, 1], [2]] := by decide +kernel

/-- A path with the weights 1/3, rounded to double, and 2. -/
def clPath : List Arc := [⟨0, 1, roundDouble (1 / 3)⟩, ⟨1, 2, 2⟩]

example (γ : ℚ) : ∃ h L, CL.ofEntropyF roundDouble (digraphEntropyF roundDouble id id ⟨List.range 3, clPath⟩).val 3 [2, 0, 1] =
    .ok h ∧ h.getPartition (γ : ℚ) = .ok L ∧
    ∀ lam P, lam ≤ γ - 1 / 10 ^ 13 → IsOptimal clPath (Finset.range 3) lam P → Refines (toPartition L) P := by
  obtain ⟨h, L, h1, h2, -, -, -, h3⟩ := C91_digraph (fl := roundDouble) (p := 53) (n := 3) roundDouble_spec (by norm_num)
    (ai := id) (ao := id) (fun l => .refl l) (fun l => .refl l) (E := clPath) (by decide +kernel) (by decide +kernel) (W := 3)
    (by decide +kernel) (by norm_num) (by decide) (idx := [2, 0, 1]) (by unfold SortedIndexes; decide +kernel)
    (e := 1 / 10 ^ 13) (by norm_num [clPath]) γ
  exact ⟨h, L, h1, h2, h3⟩

end PSP.Props
