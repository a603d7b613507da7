import Verif.Theory.RoundedLast
import Verif.Theory.WolfeSafe
import Verif.Theory.AggLinks
import Verif.Props.Factor
import Verif.Props.Rounded

/-!
# Properties: `min_norm_base` and `agg_psp` in floating-point arithmetic (C77, C79), the end of `agg_psp` (C78)
-/

namespace PSP.Props

open PSP.Spec PSP.Model PSP.Theory

/-! ### what the test of optimality certifies (C77) -/

/-- The numbers after rounding: the solver is arbitrary, it only has to return a vector of the right length. The products
of vectors and of matrices have a relative error of at most `4c` with respect to the sum of the absolute values, and an
absolute error `u` that is small in comparison with the precision, the range of the function and the tolerance; the values
of the function have an error of at most `2cM`. Then the returned point is near the base polytope, and if `min_norm_base`
ended by its test, its squared distance to the minimum norm base is about the tolerance, unless it is the origin. -/
theorem C77_min_norm_base_partial {fl : ℚ → ℚ} {N : NumericsF} {f : SF} {φ : Finset ℕ → ℚ} {g u d R c η M tol eps : ℚ}
    {fuel : ℕ} (hN : CloseNumerics fl N g u R f.size) (hgc : g ≤ 4 * c) (hc : c ≤ 1 / 64) (hd : 0 ≤ d) (hu : u ≤ 1)
    (hud : 4 * u ≤ g * d) (heps : d ≤ eps) (hdM : d ≤ M) (htol : d ≤ tol) (hR : 8 * f.size * M ^ 2 + 4 * M + 1 ≤ R)
    (hfv : FormatValues fl f R) (hf : NearlyComputes f φ η)
    (hη : η ≤ 2 * c * M) (hφ : Submodular (Finset.range f.size) φ)
    (hM : ∀ S T, S ⊆ Finset.range f.size → T ⊆ Finset.range f.size → |φ S - φ T| ≤ M)
    (hn : 2 ≤ f.size) {x : List ℚ} {certified : Bool}
    (h : minNormBaseF fl N f tol eps fuel = .ok (x, certified)) :
    x.length = f.size ∧ (x = List.replicate f.size 0 ∨
      (∃ b, InBase (Finset.range f.size) φ b ∧ ∀ i < f.size, |x.getD i 0 - b i| ≤ 40 * c * M) ∧
      (certified = true → ∀ y, IsMinNorm (Finset.range f.size) φ y →
        ∑ i ∈ Finset.range f.size, (x.getD i 0 - y i) ^ 2 ≤ (1 + 8 * c) * tol + 90 * f.size * c * M ^ 2)) := by
  obtain ⟨h1, -, h2⟩ := minNormBaseF_certificate hN hc hgc hη hd hu hud heps hdM hR hfv hf hφ hM hn (fun _ => htol) h
  exact ⟨h1, h2⟩

/-- Products computed from left to right with the operations of a floating-point format, with limited exponents or not,
satisfy the assumption of `C77_min_norm_base_partial`, if the solver returns numbers of the format below a limit `K`. -/
theorem C77_sequential {p n : ℕ} {fl : ℚ → ℚ} (hfl : FloatingPoint p fl) {N : Numerics} (hN : PlainNumerics N) {K : ℚ}
    (hK : FormatSolver fl N K) (hKp : 4 * (n + 1) * K ≤ 4 ^ p) (hn : 64 * ((n : ℚ) + 1) ≤ 2 ^ p) :
    CloseNumerics fl (N.seqF fl) (4 * (n + 1) / 2 ^ p) (4 * (n + 1) / 2 ^ p * (1 / 2 ^ p)) (4 ^ p / 16) n := by
  have h2 : (0 : ℚ) < 2 ^ p := by positivity
  have hn0 : (0 : ℚ) ≤ n := n.cast_nonneg
  have h4 : (4 : ℚ) ^ p = 2 ^ p * 2 ^ p := by rw [← mul_pow]; norm_num
  have h64 : (64 : ℚ) ≤ 2 ^ p := by linarith
  have h1 := hN.close_seq (FloatingPoint.rounds hfl) (FloatingPoint.sums hfl) (n := n) (by
    rw [← div_eq_mul_inv, div_le_div_iff₀ h2 (by norm_num)]
    linarith) hK (by linarith) (R' := 4 ^ p / 16) (by
    rw [h4]
    field_simp
    norm_num) (by
    have : (64 : ℚ) * 64 ≤ 2 ^ p * 2 ^ p := mul_le_mul h64 h64 (by norm_num) h2.le
    rw [h4]
    linarith) (by positivity)
  rwa [← div_eq_mul_inv, ← one_div] at h1

/-- Without rounding: whatever the linear solver returns, a point other than the origin that `min_norm_base` returns is in
the base polytope, and if it ended by its test, its squared distance to the minimum norm base is at most the tolerance. -/
theorem C77_any_solver_partial {N : Numerics} (hN : PlainNumerics N) {f : SF} {φ : Finset ℕ → ℚ} (hf : Computes f φ)
    (hφ : Submodular (Finset.range f.size) φ) {tol eps : ℚ} {fuel : ℕ} (heps : 0 ≤ eps) (hn : 2 ≤ f.size) {x : List ℚ}
    {certified : Bool} (h : minNormBase N f tol eps fuel = .ok (x, certified)) :
    x = List.replicate f.size 0 ∨
      (InBase (Finset.range f.size) φ (fun i => x.getD i 0) ∧
      (certified = true → ∀ y, IsMinNorm (Finset.range f.size) φ y →
        ∑ i ∈ Finset.range f.size, (x.getD i 0 - y i) ^ 2 ≤ tol)) := by
  obtain ⟨M, hM⟩ : ∃ M, ∀ S T, S ⊆ Finset.range f.size → T ⊆ Finset.range f.size → |φ S - φ T| ≤ M := by
    have hne : ((Finset.range f.size).powerset ×ˢ (Finset.range f.size).powerset).Nonempty :=
      ⟨(∅, ∅), by simp⟩
    obtain ⟨p, -, hp⟩ := Finset.exists_max_image _ (fun p : Finset ℕ × Finset ℕ => |φ p.1 - φ p.2|) hne
    exact ⟨|φ p.1 - φ p.2|, fun S T hS hT => hp (S, T) (by simp [hS, hT])⟩
  have hM0 : 0 ≤ M := (abs_nonneg _).trans (hM ∅ ∅ (Finset.empty_subset _) (Finset.empty_subset _))
  rw [← minNormBaseF_id hN.solve] at h
  obtain ⟨R, hR⟩ : ∃ R, ∀ B : List ℕ, B.Nodup → (∀ b ∈ B, b < f.size) → |f.val B| ≤ R := by
    obtain ⟨S, -, hS⟩ := Finset.exists_max_image (Finset.range f.size).powerset (fun S => |φ S|) ⟨∅, by simp⟩
    refine ⟨|φ S|, fun B h1 h2 => ?_⟩
    rw [hf B h1 h2]
    exact hS _ (Finset.mem_powerset.2 fun b hb => Finset.mem_range.2 (h2 b (List.mem_toFinset.1 hb)))
  obtain ⟨h1, -, h2⟩ := minNormBaseF_certificate (c := 0) (η := 0) (d := 0) (u := 0)
    (hN.close_exact (max R (8 * f.size * M ^ 2 + 4 * M + 1)) f.size) (by norm_num) (by norm_num)
    (by simp) le_rfl zero_le_one (by simp) heps hM0 (le_max_right _ _)
    (fun B h1 h2 => ⟨rfl, (hR B h1 h2).trans (le_max_left _ _)⟩)
    (fun B h1 h2 => by rw [hf B h1 h2]; simp) hφ hM hn id h
  refine h2.imp_right fun ⟨⟨b, hb, hxb⟩, h3⟩ => ⟨?_, fun hc y hy => ?_⟩
  · have he : ∀ i ∈ Finset.range f.size, x.getD i 0 = b i := by
      intro i hi
      have := hxb i (Finset.mem_range.1 hi)
      simp only [mul_zero, zero_mul] at this
      exact sub_eq_zero.1 (abs_eq_zero.1 (le_antisymm this (abs_nonneg _)))
    refine ⟨by rw [Finset.sum_congr rfl he]; exact hb.1, fun S hS => ?_⟩
    rw [Finset.sum_congr rfl fun i hi => he i (hS hi)]
    exact hb.2 S hS
  · have := h3 hc y hy
    simpa using this

/-- The same with the factor `L` and its exception. -/
theorem C77_any_solver_factor_partial {N : Numerics} (hN : PlainNumerics N) {f : SF} {φ : Finset ℕ → ℚ}
    (hf : Computes f φ) (hφ : Submodular (Finset.range f.size) φ) {tol eps : ℚ} {fuel : ℕ} (heps : 0 ≤ eps)
    (hn : 2 ≤ f.size) {x : List ℚ} {certified : Bool}
    (h : minNormBaseL codeFactor N f tol eps fuel = .ok (x, certified)) :
    x = List.replicate f.size 0 ∨
      (InBase (Finset.range f.size) φ (fun i => x.getD i 0) ∧
      (certified = true → ∀ y, IsMinNorm (Finset.range f.size) φ y →
        ∑ i ∈ Finset.range f.size, (x.getD i 0 - y i) ^ 2 ≤ tol)) := by
  rcases C76_nothing_else N f tol eps fuel with h1 | h1 | h1 <;> rw [h1] at h
  · exact C77_any_solver_partial (N := N.quiet) ⟨hN.solve, hN.sort⟩ hf hφ heps hn h
  · cases h
  · cases h

/-- The minimum norm base exists, so the bounds above are about something. -/
theorem C77_exists {n : ℕ} {φ : Finset ℕ → ℚ} (hφ : Submodular (Finset.range n) φ) :
    ∃ y, IsMinNorm (Finset.range n) φ y := exists_minNorm hφ

/-- The origin has to be excepted: with an exact solver and a large precision `eps` all columns are removed, and the test of
optimality accepts the origin, which is not in the base polytope. -/
theorem C77_origin_violated : (∀ n, ExactNumerics gaussNumerics n) ∧
    Computes (digraphEntropy ⟨List.range 4, exArcs⟩) (incident exArcs) ∧
    minNormBase gaussNumerics (digraphEntropy ⟨List.range 4, exArcs⟩) (1 / 10 ^ 6) 1 20 = .ok ([0, 0, 0, 0], true) ∧
    ¬ InBase (Finset.range 4) (incident exArcs) (fun i => ([0, 0, 0, 0] : List ℚ).getD i 0) := by
  refine ⟨gaussNumerics_exact, fun B hB _ => digraphEntropy_val (fun a ha => (exArcs_valid.lowHigh a ha).1) hB, by decide +kernel, fun h => ?_⟩
  exact absurd h.1 (by decide +kernel)

/-- With an exact solver the origin need not be excepted, for any function and every precision `eps` below `1 / n` (the
code uses `10⁻¹⁵`): `min_norm_base` accesses no memory outside of its matrices and divides by no zero; if it ends, it
returns a base or throws the exception of the test on the factor; if it ended by its test, the squared distance of the
result to the minimum norm base is at most the tolerance. -/
theorem C77_exact_solver {N : Numerics} {f : SF} {φ : Finset ℕ → ℚ} (hN : ExactNumerics N f.size) (hn : 2 ≤ f.size)
    (hf : Computes f φ) (hφ : Submodular (Finset.range f.size) φ) {tol eps : ℚ} (heps : 0 < eps)
    (hsmall : f.size * eps < 1) (htol : 0 < tol) (fuel : ℕ) :
    (∃ x certified, minNormBase N f tol eps fuel = .ok (x, certified) ∧ x.length = f.size ∧
      InBase (Finset.range f.size) φ (fun i => x.getD i 0) ∧
      (certified = true → ∀ y, IsMinNorm (Finset.range f.size) φ y →
        ∑ i ∈ Finset.range f.size, (x.getD i 0 - y i) ^ 2 ≤ tol)) ∨
    (minNormBase N f tol eps fuel = .exc higherTolerance ∧ ∃ k Q, N.throws k Q = true) ∨
    minNormBase N f tol eps fuel = .fuel := by
  rcases minNormBase_safe hN hn hf hφ heps hsmall htol fuel with ⟨x, b, h1, h2⟩ | h | h
  · exact Or.inl ⟨x, b, h1, h2.length, h2.base, fun hb y hy =>
      near_dist h2.base (fun z hz => (h2.near hN hf hφ hb hz).le) hy⟩
  · exact Or.inr (Or.inl h)
  · exact Or.inr (Or.inr h)

/-- The same with the factor `L` and its exception. -/
theorem C77_exact_solver_factor {N : Numerics} {f : SF} {φ : Finset ℕ → ℚ} (hN : ExactNumerics N f.size)
    (hn : 2 ≤ f.size) (hf : Computes f φ) (hφ : Submodular (Finset.range f.size) φ) {tol eps : ℚ} (heps : 0 < eps)
    (hsmall : f.size * eps < 1) (htol : 0 < tol) {fuel : ℕ} {x : List ℚ} {certified : Bool}
    (h : minNormBaseL codeFactor N f tol eps fuel = .ok (x, certified)) :
    x.length = f.size ∧ InBase (Finset.range f.size) φ (fun i => x.getD i 0) ∧
      (certified = true → ∀ y, IsMinNorm (Finset.range f.size) φ y →
        ∑ i ∈ Finset.range f.size, (x.getD i 0 - y i) ^ 2 ≤ tol) := by
  rcases C76_nothing_else N f tol eps fuel with h1 | h1 | h1 <;> rw [h1] at h
  · rcases C77_exact_solver (N := N.quiet) ⟨hN.sort, hN.solve⟩ hn hf hφ heps hsmall htol fuel with
      ⟨x', b, h2, h3⟩ | ⟨h2, -⟩ | h2 <;> rw [h2] at h <;> cases h
    exact h3
  · cases h
  · cases h

/-- The bound on `eps` is sharp: on two nodes joined by an arc, with `eps = 1/2`, both columns are removed and the origin is
returned as if it were optimal. -/
theorem C77_bound_violated : ∃ E : List Arc, ValidInput 2 E ∧
    minNormBase gaussNumerics (digraphEntropy ⟨List.range 2, E⟩) (1 / 10 ^ 6) (1 / 2) 20 = .ok ([0, 0], true) ∧
    ¬ InBase (Finset.range 2) (incident E) (fun i => ([0, 0] : List ℚ).getD i 0) := by
  refine ⟨[⟨0, 1, 1⟩], by decide +kernel, by decide +kernel, fun h => ?_⟩
  exact absurd h.1 (by decide +kernel)

/-- A call that meets the assumptions, with the constants of the code. -/
example : (∃ x, minNormBaseL codeFactor gaussNumerics (digraphEntropy ⟨List.range 4, exArcs⟩) (1 / 10 ^ 6)
    (1 / 10 ^ 15) 20 = .ok (x, true)) ∧ (4 : ℚ) * (1 / 10 ^ 15) < 1 := by
  refine ⟨⟨[3, 3, 3, 3], ?_⟩, by norm_num⟩
  rw [minNormBaseL_sim codeFactor_sim]
  decide +kernel

theorem solveRows_length : ∀ (k : ℕ) (rows : List (List ℚ × ℚ)), (solveRows k rows).length = k
  | 0, _ => rfl
  | k + 1, rows => by
    unfold solveRows
    split
    · rw [List.length_cons, solveRows_length]
    · rw [List.length_cons, solveRows_length]

/-- Elimination, the solution limited to `2⁹⁰` and rounded to `double`. -/
def gaussDouble : Numerics :=
  ⟨sortIdx, fun Q => (gaussSolve Q).map fun a => roundDouble (max (-2 ^ 90) (min (2 ^ 90) a)), fun _ _ => false⟩

theorem gaussDouble_plain : PlainNumerics gaussDouble :=
  ⟨fun Q => by simp [gaussDouble, gaussSolve, solveRows_length], sortIdx_spec⟩

theorem gaussDouble_format : FormatSolver roundDouble gaussDouble (2 ^ 90) := by
  intro Q a ha
  obtain ⟨b, -, rfl⟩ := List.mem_map.1 ha
  have h1 : -2 ^ 90 ≤ max (-2 ^ 90) (min (2 ^ 90) b) := le_max_left _ _
  have h2 : max (-2 ^ 90) (min (2 ^ 90) b) ≤ 2 ^ 90 := max_le (by norm_num) (min_le_left _ _)
  refine ⟨(FloatingPoint.sums roundDouble_spec).idem _ ((abs_le.2 ⟨h1, h2⟩).trans (by norm_num)), abs_le.2 ⟨?_, ?_⟩⟩
  · have := roundDouble_inRange.1 h1
    rwa [show roundDouble (-2 ^ 90) = -2 ^ 90 by decide +kernel] at this
  · have := roundDouble_inRange.1 h2
    rwa [show roundDouble (2 ^ 90) = 2 ^ 90 by decide +kernel] at this

/-- `min_norm_base` as executed with `double`, products from left to right. -/
def doubleMnb (f : SF) : Outcome (List ℚ × Bool) :=
  minNormBaseF roundDouble (gaussDouble.seqF roundDouble) f (roundDouble (1 / 10 ^ 6))
    (roundDouble (1 / 10 ^ 15)) 50

example : doubleMnb (digraphEntropyF roundDouble id id ⟨List.range 4, exArcs⟩) =
    .ok ([3 + 1 / 2 ^ 51, 3, 3 + 1 / 2 ^ 51, 3], true) := by decide +kernel

/-- The arithmetic of `double` on four elements. -/
example : CloseNumerics roundDouble (gaussDouble.seqF roundDouble) (4 * (4 + 1) / 2 ^ 53)
    (4 * (4 + 1) / 2 ^ 53 * (1 / 2 ^ 53)) (4 ^ 53 / 16) 4 :=
  C77_sequential (n := 4) roundDouble_spec gaussDouble_plain gaussDouble_format (by norm_num) (by norm_num)

/-! ### the end of `agg_psp` (C78) -/

/-- Whatever `min_norm_base` returns, with and without rounding: the loop of `Agglomerative_PSP::run` ends after at most
as many rounds as there are elements, plus one, or it never ends. -/
theorem C78_ends_or_never (fl : ℚ → ℚ) (mnb : SF → Outcome (List ℚ)) (f : SF) (tol : ℚ) (n : ℕ)
    (ps : List Partition) (cv : List ℚ) :
    ((∀ k, aggLoop mnb f tol k (HC.new n) ps cv = .fuel) ∨
      ∃ o, o ≠ .fuel ∧ ∀ k, n < k → aggLoop mnb f tol k (HC.new n) ps cv = o) ∧
    ((∀ k, aggLoopF fl mnb f tol k (HC.new n) ps cv = .fuel) ∨
      ∃ o, o ≠ .fuel ∧ ∀ k, n < k → aggLoopF fl mnb f tol k (HC.new n) ps cv = o) := by
  simp only [aggLoop_step, aggLoopF_step]
  exact ⟨stepLoop_dichotomy (fun h h' b => agglomerate_grows) n _ _ _ (Nat.sub_le _ _),
    stepLoop_dichotomy (fun h h' b => agglomerateF_grows) n _ _ _ (Nat.sub_le _ _)⟩

/-- Without rounding: for any clustering built by calls of `merge`, a call of `agglomerate` on at least two clusters
returns `true`. It changes nothing if and only if the value of this round is above the last critical value; then every
later call does the same. -/
theorem C78_stuck_iff {mnb : SF → Outcome (List ℚ)} {f : SF} {tol : ℚ} (htol : 0 ≤ tol) {cs : List Link}
    (hcs : InRange f.size cs) {h : HC} (hh : (HC.new f.size).mergeAll cs = .ok h) {L : List (List ℕ)}
    (hL : h.getPartition ⊥ = .ok L) (hk : 2 ≤ L.length)
    (hm : ∀ j, 1 ≤ j → j < L.length → ∃ x, mnb (sfJoin (sfContract f L) j) = .ok x ∧ x.length = j) :
    ∃ xs g h', aicPoints mnb (sfContract f L) ((List.range L.length).drop 1) = .ok xs ∧
      aicGamma xs = ((g : ℚ) : WithBot ℚ) ∧ agglomerate mnb f tol h = .ok (h', true) ∧
      (h' = h ↔ ∃ b ∈ h.getCriticalValues.getLast?, b < g) := by
  obtain ⟨h0, h1, h2, h3⟩ := mergeAll_spec hcs
  rw [hh] at h1
  cases h1
  exact agglomerate_stuck_iff h3 h2 htol hm hL hk

/-- If a round changes nothing, the loop never ends: the lists of the results grow for ever. -/
theorem C78_stuck_forever {mnb : SF → Outcome (List ℚ)} {f : SF} {tol : ℚ} {h : HC} {L : List (List ℕ)} {c : ℚ}
    (hs : agglomerate mnb f tol h = .ok (h, true)) (hL : h.getCoarsestPartition = .ok L)
    (hc : h.getCriticalValues.getLast? = some c) (k : ℕ) (ps : List Partition) (cv : List ℚ) :
    aggLoop mnb f tol k h ps cv = .fuel := by
  rw [aggLoop_step]
  exact stepLoop_forever hs hL hc k ps cv

/-- A cycle of four nodes; three weights are 1, one is 1.000003. -/
def cycleArcs : List Arc := [⟨0, 1, 1 + 3 / 10 ^ 6⟩, ⟨0, 2, 1⟩, ⟨1, 3, 1⟩, ⟨2, 3, 1⟩]

theorem cycleArcs_valid : ValidInput 4 cycleArcs := by decide +kernel

/-- With exact arithmetic, an exact solver and the constants of AIC.hpp:299, `agg_psp` never ends on the cycle: the first
round finds a value near 4/3 and joins three of the nodes, the second finds the value 2, which `merge` refuses as too
large, and so do all others. The factor `L` of the code does not interfere. -/
theorem C78_cycle_violated : (∀ n, ExactNumerics gaussNumerics n) ∧ ∃ E : List Arc, ValidInput 4 E ∧
    (∀ e ∈ E, 1 ≤ e.cap ∧ e.cap ≤ 1 + 3 / 10 ^ 6) ∧
    ∃ h, agglomerate (mnbOfL codeFactor gaussNumerics (1 / 10 ^ 6) (1 / 10 ^ 15) 50)
        (digraphEntropy ⟨List.range 4, E⟩) (1 / 10 ^ 6) (HC.new 4) = .ok (h, true) ∧
      agglomerate (mnbOfL codeFactor gaussNumerics (1 / 10 ^ 6) (1 / 10 ^ 15) 50)
        (digraphEntropy ⟨List.range 4, E⟩) (1 / 10 ^ 6) h = .ok (h, true) ∧
      ∀ k ps cv, aggLoop (mnbOfL codeFactor gaussNumerics (1 / 10 ^ 6) (1 / 10 ^ 15) 50)
        (digraphEntropy ⟨List.range 4, E⟩) (1 / 10 ^ 6) k (HC.new 4) ps cv = .fuel := by
  refine ⟨gaussNumerics_exact, cycleArcs, cycleArcs_valid, by decide +kernel, ?_⟩
  simp only [aggLoop_step]
  apply stepLoop_second fun h h' b => agglomerate_grows
  rw [mnbOfL_sim codeFactor_sim]
  decide +kernel

/-- The same with `double`: the weight and the constants are rounded to 53 digits, and so is every operation. -/
theorem C78_cycle_double_violated : ∃ E : List Arc, ValidInput 4 E ∧ RoundsInRange 53 1074 1023 roundDouble ∧
    (∀ e ∈ E, roundDouble e.cap = e.cap ∧ 1 ≤ e.cap ∧ e.cap ≤ 1 + 4 / 10 ^ 6) ∧
    ∀ k ps cv, aggLoopF roundDouble (fun f => do let r ← doubleMnb f; return r.1)
      (digraphEntropyF roundDouble id id ⟨List.range 4, E⟩) (roundDouble (1 / 10 ^ 6)) k (HC.new 4) ps cv = .fuel := by
  refine ⟨cycleArcs.map fun a => { a with cap := roundDouble a.cap }, by decide +kernel, roundDouble_inRange,
    by decide +kernel, ?_⟩
  simp only [aggLoopF_step]
  exact (stepLoop_second (fun h h' b => agglomerateF_grows) (by decide +kernel)).choose_spec.2.2

/-- The triangle with weights near `10⁻⁴`. -/
theorem C78_triangle_violated : ∃ E : List Arc, ValidInput 3 E ∧
    ∀ k ps cv, aggLoop (mnbOf gaussNumerics (1 / 10 ^ 6) (1 / 10 ^ 15) 50) (digraphEntropy ⟨List.range 3, E⟩)
      (1 / 10 ^ 6) k (HC.new 3) ps cv = .fuel := by
  refine ⟨[⟨0, 1, 50 / 10 ^ 6⟩, ⟨0, 2, 55 / 10 ^ 6⟩, ⟨1, 2, 50 / 10 ^ 6⟩], by decide +kernel, ?_⟩
  simp only [aggLoop_step]
  exact (stepLoop_second (fun h h' b => agglomerate_grows) (by decide +kernel)).choose_spec.2.2

/-- Through the class `PSP` compiled with `AGG`; the model of `run` does as many rounds as could be needed. -/
theorem C78_run_once_violated :
    runOnceAGG exEnv (mnbOfL codeFactor gaussNumerics (1 / 10 ^ 6) (1 / 10 ^ 15) 50) (1 / 10 ^ 6) exSched 4 cycleArcs
      "agg_psp" = .fuel := by
  rw [mnbOfL_sim codeFactor_sim]
  decide +kernel

/-- The principal sequence of the cycle has one critical value, (1 + 1 + 1 + 1.000003) / 3. -/
theorem C78_cycle_sequence : IsPrincipalSequence cycleArcs (Finset.range 4) [{{0, 1, 2, 3}}, {{0}, {1}, {2}, {3}}]
    [(4 + 3 / 10 ^ 6) / 3] := by
  have hf : FineTolerance lemonEps 4 cycleArcs := by
    refine ⟨1 / 10 ^ 6, by norm_num, fun e he => ?_, by norm_num [lemonEps], by norm_num [lemonEps]⟩
    simp only [cycleArcs, List.mem_cons, List.not_mem_nil, or_false] at he
    rcases he with rfl | rfl | rfl | rfl
    · exact ⟨1000003, by norm_num⟩
    all_goals exact ⟨1000000, by norm_num⟩
  obtain ⟨r, h, hp⟩ := C01_dt_exact bruteSolver_minimal cycleArcs_valid (by norm_num) hf
  have h' : (makeDgraph lemonEps 4 cycleArcs >>= dtRun bruteSolver lemonEps) =
      .ok ⟨[{{0, 1, 2, 3}}, {{0}, {1}, {2}, {3}}], [(4 + 3 / 10 ^ 6) / 3]⟩ := by decide +kernel
  rw [h'] at h
  cases h
  exact hp

/-! ### critical values in floating-point arithmetic (C79) -/

/-- The relative error that the bounds below are stated with: `m` arcs, `n` nodes, `p` digits. -/
def aggError (p m n : ℕ) : ℚ := 4 * (m + n + 2) / 2 ^ p

theorem close_all {p m n : ℕ} {fl : ℚ → ℚ} (hfl : FloatingPoint p fl) {N : Numerics} (hN : PlainNumerics N) {K : ℚ}
    (hK : FormatSolver fl N K) (hKp : 4 * (n + 1) * K ≤ 4 ^ p) (hc : aggError p m n ≤ 1 / 64) {W eps tol : ℚ}
    (hn : 1 ≤ n) (hW : 4 / 2 ^ p ≤ W) (heps : 4 / 2 ^ p ≤ eps) (htol : 4 / 2 ^ p ≤ tol) (hr : 256 * n * W ^ 2 ≤ 4 ^ p) :
    CloseUpTo fl (N.seqF fl) (aggError p m n) (4 ^ p / 16) W eps tol n ∧ 8 * W ≤ 4 ^ p / 2 := by
  have h2 : (0 : ℚ) < 2 ^ p := by positivity
  have hm : (0 : ℚ) ≤ m := Nat.cast_nonneg m
  have hn1 : (1 : ℚ) ≤ n := by exact_mod_cast hn
  have h4 : (4 : ℚ) ^ p = 2 ^ p * 2 ^ p := by rw [← mul_pow]; norm_num
  have hK0 : ∀ j ≤ n, 4 * ((j : ℚ) + 1) * K ≤ 4 ^ p := by
    intro j hj
    have hjn : (j : ℚ) ≤ n := by exact_mod_cast hj
    have hj0 : (0 : ℚ) ≤ j := j.cast_nonneg
    rcases le_total 0 K with h0 | h0
    · exact (mul_le_mul_of_nonneg_right (by linarith) h0).trans hKp
    · exact (mul_nonpos_of_nonneg_of_nonpos (by positivity) h0).trans (by positivity)
  have hc' := hc
  unfold aggError at hc'
  rw [div_le_div_iff₀ h2 (by norm_num)] at hc'
  have h512 : (512 : ℚ) ≤ 2 ^ p := by linarith
  have hW0 : 0 ≤ W := le_trans (by positivity) hW
  have hW16 : 16 * W ≤ 2 ^ p := by
    refine le_of_sq_le_sq ?_ h2.le
    have h3 : 256 * 1 * W ^ 2 ≤ 256 * n * W ^ 2 := mul_le_mul_of_nonneg_right (by linarith) (sq_nonneg W)
    have e1 : (16 * W) ^ 2 = 256 * 1 * W ^ 2 := by ring
    have e2 : ((2 : ℚ) ^ p) ^ 2 = 4 ^ p := by rw [h4]; ring
    rw [e1, e2]
    exact h3.trans hr
  have h5 : 512 * (2 : ℚ) ^ p ≤ 4 ^ p := by rw [h4]; exact mul_le_mul_of_nonneg_right h512 h2.le
  refine ⟨⟨fun j hj => ?_, by linarith⟩, by linarith⟩
  have hjn : (j : ℚ) ≤ n := by exact_mod_cast hj
  have hj0 : (0 : ℚ) ≤ j := j.cast_nonneg
  have hg : 4 * ((j : ℚ) + 1) / 2 ^ p ≤ 4 * aggError p m n := by
    unfold aggError
    rw [← mul_div_assoc]
    exact div_le_div_of_nonneg_right (by linarith) h2.le
  refine ⟨4 * (j + 1) / 2 ^ p, 4 * (j + 1) / 2 ^ p * (1 / 2 ^ p), 4 / 2 ^ p, hg,
    C77_sequential hfl hN hK (hK0 j hj) (by linarith), by positivity, ?_, le_of_eq (by ring), heps, hW, htol⟩
  have e : 1 / (2 : ℚ) ^ p ≤ 1 := by rw [div_le_one h2]; linarith
  have e0 : 0 ≤ 1 / (2 : ℚ) ^ p := by positivity
  calc _ ≤ (1 : ℚ) * 1 := mul_le_mul (hg.trans (by linarith)) e e0 (by norm_num)
    _ = 1 := one_mul 1

/-- The critical value of a round of `agg_psp` in floating-point arithmetic, with limited exponents or not, for any linear
solver that returns numbers of the format below a limit `K`. From clusters `L` the round calls `merge` with one value. If
all calls of `min_norm_base` ended by the test of optimality (and none with the origin), the square of its distance to the
exact value at which clusters of `L` have to be merged is about the tolerance. `W` is a bound for the total weight. For
`double` the constants of the code are `tol = 10⁻⁶` and `eps = 10⁻¹⁵`, and `4 / 2 ^ p` is less than `5 · 10⁻¹⁶`. -/
theorem C79_round_partial {p n : ℕ} {fl : ℚ → ℚ} (hfl : FloatingPoint p fl) {ai ao : List Arc → List Arc}
    (hai : ∀ l, (ai l).Perm l) (hao : ∀ l, (ao l).Perm l) {E : List Arc} (hE : ∀ a ∈ E, a.src < a.dst ∧ a.dst < n)
    (h0 : NonnegE E) (hfix : ∀ a ∈ E, fl a.cap = a.cap) {N : Numerics} (hN : PlainNumerics N) {K : ℚ}
    (hK : FormatSolver fl N K) (hKp : 4 * (n + 1) * K ≤ 4 ^ p) (hc : aggError p E.length n ≤ 1 / 64) {W tol eps : ℚ}
    (hW : (E.map Arc.cap).sum ≤ W) (hWp : 4 / 2 ^ p ≤ W) (heps : 4 / 2 ^ p ≤ eps) (htol : 4 / 2 ^ p ≤ tol)
    (hr : 256 * n * W ^ 2 ≤ 4 ^ p) {fuel : ℕ} {cs : List Link} (hcs : InRange n cs) {h : HC}
    (hh : (HC.new n).mergeAll cs = .ok h) {L : List (List ℕ)} (hL : h.getPartition ⊥ = .ok L) (hk : 2 ≤ L.length)
    (hcert : AllCertified fl (N.seqF fl) (digraphEntropyF fl ai ao ⟨List.range n, E⟩) tol eps fuel L) :
    ∃ (value exact : ℚ) (links : List Link),
      agglomerateF fl (mnbOfF fl (N.seqF fl) tol eps fuel) (digraphEntropyF fl ai ao ⟨List.range n, E⟩) tol h =
        (do let h' ← h.mergeAll links; return (h', true)) ∧
      (∀ l ∈ links, l.val = value) ∧ IsMergeValue E (Finset.range n) (toPartition L) exact ∧
      (value - exact) ^ 2 ≤ (1 + 8 * aggError p E.length n) * tol + 90 * n * aggError p E.length n * W ^ 2 := by
  obtain ⟨h0', h1, h2, h3⟩ := mergeAll_spec hcs
  rw [hh] at h1
  cases h1
  have hpos : 0 < n := by
    rcases Nat.eq_zero_or_pos n with e | e
    · exfalso
      unfold HC.getPartition at hL
      rw [h2, e] at hL
      simp [HC.LinkList.new] at hL
    · exact e
  obtain ⟨L0, hL1, hL2⟩ := getPartition_spec h3.forest (by rw [h2]; exact hpos) ⊥
  rw [hL] at hL1
  cases hL1
  rw [h2] at hL2
  obtain ⟨hcl, hW8⟩ := close_all hfl hN hK hKp hc hpos hWp heps htol hr
  exact agglomerateF_gamma (FloatingPoint.sums hfl) hai hao hE h0 hfix hL hL2 hk hW hW8 hcl
    (by rw [aggError, div_eq_mul_inv]) hc (le_trans (by positivity) htol) hcert

/-- Without rounding, with an exact solver, a precision `eps` below `1 / n` and any tolerance, the origin need not be
excepted: if all calls of `min_norm_base` in a round of `agg_psp` ended by the test of optimality, the square of the distance
of the critical value to the exact one is at most the tolerance. -/
theorem C79_round_exact {n : ℕ} {E : List Arc} (hE : ∀ a ∈ E, a.src < a.dst ∧ a.dst < n) (h0 : NonnegE E) {N : Numerics}
    (hN : ∀ j, ExactNumerics N j) {tol eps : ℚ} {fuel : ℕ} (heps : 0 < eps) (hsmall : n * eps < 1) (htol : 0 < tol)
    {cs : List Link} (hcs : InRange n cs) {h : HC} (hh : (HC.new n).mergeAll cs = .ok h) {L : List (List ℕ)}
    (hL : h.getPartition ⊥ = .ok L) (hk : 2 ≤ L.length)
    (hcert : ∀ j, 1 ≤ j → j < L.length → ∃ x, minNormBaseL codeFactor N
      (sfJoin (sfContract (digraphEntropy ⟨List.range n, E⟩) L) j) tol eps fuel = .ok (x, true)) :
    ∃ (value exact : ℚ) (links : List Link),
      agglomerate (mnbOfL codeFactor N tol eps fuel) (digraphEntropy ⟨List.range n, E⟩) tol h =
        (do let h' ← h.mergeAll links; return (h', true)) ∧
      (∀ l ∈ links, l.val = value) ∧ IsMergeValue E (Finset.range n) (toPartition L) exact ∧
      (value - exact) ^ 2 ≤ tol := by
  obtain ⟨h0', h1, h2, h3⟩ := mergeAll_spec hcs
  rw [hh] at h1
  cases h1
  have hpos : 0 < n := by
    rcases Nat.eq_zero_or_pos n with e | e
    · exfalso
      unfold HC.getPartition at hL
      rw [h2, e] at hL
      simp [HC.LinkList.new] at hL
    · exact e
  obtain ⟨L0, hL1, hL2⟩ := getPartition_spec h3.forest (by rw [h2]; exact hpos) ⊥
  rw [hL] at hL1
  cases hL1
  rw [h2] at hL2
  obtain ⟨xs, gc, gam, hxs, hgc, hgam, hclose⟩ := gamma_of_points (mnb := mnbOfL codeFactor N tol eps fuel)
    (F := sfContract (digraphEntropy ⟨List.range n, E⟩) L) (δ := tol) hE h0 hL2 hk (by
    intro j hj1 hj2 y hy
    obtain ⟨x, hx⟩ := hcert j hj1 hj2
    refine ⟨x, bind_fst_ok hx, ?_⟩
    have hs := digraph_size n E
    obtain ⟨hF, hsub, hlen⟩ := join_computes (f := digraphEntropy ⟨List.range n, E⟩) (h := incident E)
      (represents_digraph hE) (by rw [hs]; exact incident_intersecting h0 _) (by rw [hs]; exact hL2) hj2
    rw [hs] at hlen
    rcases Nat.lt_or_ge j 2 with hj3 | hj3
    · have hj' : j = 1 := by omega
      subst hj'
      have h4 : minNormBaseL codeFactor N (sfJoin (sfContract (digraphEntropy ⟨List.range n, E⟩) L) 1) tol eps fuel =
          .ok ([(sfJoin (sfContract (digraphEntropy ⟨List.range n, E⟩) L) 1).val [0]], true) := rfl
      rw [h4] at hx
      cases hx
      have h5 := hF [0] (by simp) (by simp [sfJoin])
      have h6 := hy.1.1
      rw [joinFn_empty, sub_zero] at h6
      refine ⟨rfl, ?_⟩
      simp only [Finset.sum_range_one, List.getD_cons_zero, Finset.range_one, List.toFinset_cons, List.toFinset_nil,
        insert_empty_eq, Finset.sum_singleton] at h5 h6 ⊢
      rw [h5, h6, sub_self]
      nlinarith
    · have hjn : (j : ℚ) ≤ n := by exact_mod_cast hj2.le.trans hlen
      obtain ⟨h4, -, h5⟩ := C77_exact_solver_factor
        (f := sfJoin (sfContract (digraphEntropy ⟨List.range n, E⟩) L) j) (hN _) hj3 hF hsub heps
        (lt_of_le_of_lt (mul_le_mul_of_nonneg_right hjn heps.le) hsmall) htol hx
      exact ⟨h4, h5 rfl y hy⟩)
  refine ⟨gc, gam, aicMerges L xs tol gc, ?_, ?_, hgam, hclose⟩
  · unfold agglomerate
    rw [hL]
    simp only [Outcome.ok_bind]
    rw [if_neg (by omega), hxs]
    simp only [Outcome.ok_bind]
    rw [hgc]
  · intro l hl
    unfold aicMerges at hl
    obtain ⟨j, -, hl⟩ := List.mem_flatMap.1 hl
    obtain ⟨i, -, hl⟩ := List.mem_filterMap.1 hl
    split at hl
    · cases hl; rfl
    · cases hl

/-- A round that meets the assumptions of `C79_round_exact`. -/
example : (HC.new 4).mergeAll [] = .ok (HC.new 4) ∧ (HC.new 4).getPartition ⊥ = .ok [[0], [1], [2], [3]] ∧
    (∀ n, ExactNumerics gaussNumerics n) ∧ ∀ j, 1 ≤ j → j < 4 → ∃ x, minNormBaseL codeFactor gaussNumerics
      (sfJoin (sfContract (digraphEntropy ⟨List.range 4, exArcs⟩) [[0], [1], [2], [3]]) j) (1 / 10 ^ 6) (1 / 10 ^ 15) 20 =
        .ok (x, true) := by
  refine ⟨rfl, by decide +kernel, gaussNumerics_exact, ?_⟩
  intro j h1 h2
  interval_cases j
  · exact ⟨_, rfl⟩
  · refine ⟨[-3, -3], ?_⟩
    rw [minNormBaseL_sim codeFactor_sim]
    decide +kernel
  · refine ⟨[-4, -4, -4], ?_⟩
    rw [minNormBaseL_sim codeFactor_sim]
    decide +kernel

/-- Which clusters a round of `agg_psp` merges, for any functor and whatever `min_norm_base` returns: the value is the
largest negated coordinate; two clusters are asked to be merged, at this value, if their coordinate is within the tolerance
of the smallest one, and are not if it is above, up to the error of one rounding. The coordinates and the tolerance are
numbers of the format. -/
theorem C79_links {p n : ℕ} {fl : ℚ → ℚ} (hfl : FloatingPoint p fl) {mnb : SF → Outcome (List ℚ)} {f : SF} {tol : ℚ}
    {cs : List Link} (hcs : InRange n cs) {h : HC} (hh : (HC.new n).mergeAll cs = .ok h) {L : List (List ℕ)}
    (hL : h.getPartition ⊥ = .ok L) (hk : 2 ≤ L.length) {x : ℕ → List ℚ}
    (hx : ∀ j, 1 ≤ j → j < L.length → mnb (sfJoin (sfContractF fl f L) j) = .ok (x j) ∧ (x j).length = j)
    (hxf : ∀ j i, j < L.length → i < j → fl ((x j).getD i 0) = (x j).getD i 0 ∧ |(x j).getD i 0| ≤ 4 ^ p / 2)
    (htf : fl tol = tol ∧ |tol| ≤ 4 ^ p / 2) :
    ∃ (value : ℚ) (links : List Link),
      agglomerateF fl mnb f tol h = (do let h' ← h.mergeAll links; return (h', true)) ∧
      (∀ j i, j < L.length → i < j → -value ≤ (x j).getD i 0) ∧
      (∃ j i, j < L.length ∧ i < j ∧ (x j).getD i 0 = -value) ∧
      (∀ l ∈ links, ∃ j i, j < L.length ∧ i < j ∧ l = ⟨(L.getD j []).headD 0, (L.getD i []).headD 0, value⟩) ∧
      ∀ j i, j < L.length → i < j →
        ((x j).getD i 0 ≤ -value + tol - |-value + tol| / 2 ^ p →
          ⟨(L.getD j []).headD 0, (L.getD i []).headD 0, value⟩ ∈ links) ∧
        (⟨(L.getD j []).headD 0, (L.getD i []).headD 0, value⟩ ∈ links →
          (x j).getD i 0 ≤ -value + tol + |-value + tol| / 2 ^ p) := by
  obtain ⟨h0', h1, h2, h3⟩ := mergeAll_spec hcs
  rw [hh] at h1
  cases h1
  have hpos : 0 < n := by
    rcases Nat.eq_zero_or_pos n with e | e
    · exfalso
      unfold HC.getPartition at hL
      rw [h2, e] at hL
      simp [HC.LinkList.new] at hL
    · exact e
  obtain ⟨L0, hL1, hL2⟩ := getPartition_spec h3.forest (by rw [h2]; exact hpos) ⊥
  rw [hL] at hL1
  cases hL1
  rw [h2] at hL2
  obtain ⟨v, links, e1, e2, e3, e4⟩ := agglomerateF_links (fl := fl) (mnb := mnb) (f := f) (tol := tol) hL hL2 hk hx
  have hr : |fl (-v + tol) - (-v + tol)| ≤ (2 ^ p)⁻¹ * |-v + tol| := by
    obtain ⟨j, i, hj, hi, hji⟩ := e3
    have h4 := hxf j i hj hi
    rw [hji] at h4
    exact (FloatingPoint.sums hfl).add _ _ h4.1 htf.1 h4.2 htf.2
  rw [mul_comm, ← div_eq_mul_inv, abs_le] at hr
  refine ⟨v, links, e1, e2, e3, ?_, ?_⟩
  · intro l hl
    obtain ⟨j, i, a1, a2, -, a3⟩ := (e4 l).1 hl
    exact ⟨j, i, a1, a2, a3⟩
  · intro j i hj hi
    refine ⟨fun hle => (e4 _).2 ⟨j, i, hj, hi, by linarith, rfl⟩, fun hl => ?_⟩
    obtain ⟨j', i', a1, a2, a3, a4⟩ := (e4 _).1 hl
    have ej : j = j' := head_inj hL2 hj a1 (by injection a4)
    have ei : i = i' := head_inj hL2 (hi.trans hj) (a2.trans a1) (by injection a4)
    subst ej ei
    linarith

/-- The points of a round that meets the assumptions of `C79_links`. -/
example : (∀ j, 1 ≤ j → j < 4 → mnbOfF roundDouble (gaussDouble.seqF roundDouble) (roundDouble (1 / 10 ^ 6))
      (roundDouble (1 / 10 ^ 15)) 50 (sfJoin (sfContractF roundDouble
        (digraphEntropyF roundDouble id id ⟨List.range 4, exArcs⟩) [[0], [1], [2], [3]]) j) =
      .ok ([[], [-5], [-3 - 1 / 2 ^ 51, -3 - 1 / 2 ^ 51], [-4, -4 + 1 / 2 ^ 50, -4 + 1 / 2 ^ 51]].getD j [])) ∧
    ∀ x ∈ ([-5, -3 - 1 / 2 ^ 51, -4, -4 + 1 / 2 ^ 50, -4 + 1 / 2 ^ 51, roundDouble (1 / 10 ^ 6)] : List ℚ),
      roundDouble x = x ∧ |x| ≤ 4 ^ 53 / 2 := by
  refine ⟨?_, by decide +kernel⟩
  intro j h1 h2
  interval_cases j <;> decide +kernel

/-- The largest critical value that `agg_psp` returns. Only the calls of `min_norm_base` in the first round need to have
ended by the test of optimality. -/
theorem C79_largest_partial {p n : ℕ} {fl : ℚ → ℚ} (hfl : FloatingPoint p fl) {ai ao : List Arc → List Arc}
    (hai : ∀ l, (ai l).Perm l) (hao : ∀ l, (ao l).Perm l) {E : List Arc} (hE : ∀ a ∈ E, a.src < a.dst ∧ a.dst < n)
    (h0 : NonnegE E) (hfix : ∀ a ∈ E, fl a.cap = a.cap) (hn : 2 ≤ n) {N : Numerics} (hN : PlainNumerics N) {K : ℚ}
    (hK : FormatSolver fl N K) (hKp : 4 * (n + 1) * K ≤ 4 ^ p) (hc : aggError p E.length n ≤ 1 / 64) {W tol eps : ℚ}
    (hW : (E.map Arc.cap).sum ≤ W) (hWp : 4 / 2 ^ p ≤ W) (heps : 4 / 2 ^ p ≤ eps) (htol : 4 / 2 ^ p ≤ tol)
    (hr : 256 * n * W ^ 2 ≤ 4 ^ p) {fuel : ℕ} {ps ps' : List Partition} {cv cv' : List ℚ}
    (hcert : ∀ L, (HC.new n).getPartition ⊥ = .ok L →
      AllCertified fl (N.seqF fl) (digraphEntropyF fl ai ao ⟨List.range n, E⟩) tol eps fuel L)
    (hrun : aggRunF fl ai ao (mnbOfF fl (N.seqF fl) tol eps fuel) ⟨List.range n, E⟩ tol = .ok (ps', cv'))
    (hp : IsPrincipalSequence E (Finset.range n) ps cv) :
    ∃ a b, cv'.getLast? = some a ∧ cv.getLast? = some b ∧ (a - b) ^ 2 ≤
      (1 + 8 * aggError p E.length n) * tol + 90 * n * aggError p E.length n * W ^ 2 := by
  obtain ⟨hcl, hW8⟩ := close_all hfl hN hK hKp hc (by omega) hWp heps htol hr
  exact aggRunF_last (FloatingPoint.sums hfl) hai hao hE h0 hfix hn hW hW8 hcl (by rw [aggError, div_eq_mul_inv]) hc
    (le_trans (by positivity) htol) hcert hrun hp

/-- The merge value of the singletons is the largest critical value of the principal sequence. -/
theorem C79_merge_value {E : List Arc} {V : Finset ℕ} {ps : List (Finset (Finset ℕ))} {cv : List ℚ} {g : ℚ}
    (hp : IsPrincipalSequence E V ps cv) (hg : IsMergeValue E V (singletons V) g) (hne : cv ≠ []) :
    cv.getLast? = some g := mergeValue_last hp hg hne

/-- A run of `agg_psp` with `double` that meets the assumptions. -/
theorem exArcs_certified : ∀ L, (HC.new 4).getPartition ⊥ = .ok L →
    AllCertified roundDouble (gaussDouble.seqF roundDouble)
      (digraphEntropyF roundDouble id id ⟨List.range 4, exArcs⟩) (roundDouble (1 / 10 ^ 6))
      (roundDouble (1 / 10 ^ 15)) 50 L := by
  intro L hL
  have : (HC.new 4).getPartition ⊥ = .ok [[0], [1], [2], [3]] := by decide +kernel
  rw [this] at hL
  cases hL
  intro j h1 h2
  simp only [List.length_cons, List.length_nil] at h2
  interval_cases j
  · exact ⟨_, minNormBaseF_single rfl, fun h => by omega⟩
  · exact ⟨[-3 - 1 / 2 ^ 51, -3 - 1 / 2 ^ 51], by decide +kernel, fun _ => by decide +kernel⟩
  · exact ⟨[-4, -4 + 1 / 2 ^ 50, -4 + 1 / 2 ^ 51], by decide +kernel, fun _ => by decide +kernel⟩

example : aggRunF roundDouble id id (mnbOfF roundDouble (gaussDouble.seqF roundDouble)
    (roundDouble (1 / 10 ^ 6)) (roundDouble (1 / 10 ^ 15)) 50) ⟨List.range 4, exArcs⟩ (roundDouble (1 / 10 ^ 6)) =
    .ok ([{{0, 1, 2, 3}}, {{0, 1}, {2, 3}}, {{0, 1}, {2}, {3}}, {{0}, {1}, {2}, {3}}], [3, 4, 5]) := by
  decide +kernel

example {ps : List Partition} {cv : List ℚ} (hp : IsPrincipalSequence exArcs (Finset.range 4) ps cv) :
    ∃ b, cv.getLast? = some b ∧ (5 - b) ^ 2 ≤ 2 / 10 ^ 6 := by
  obtain ⟨a, b, h1, h2, h3⟩ := C79_largest_partial (N := gaussDouble) (fl := roundDouble) (p := 53) (n := 4)
    (ai := id) (ao := id) (E := exArcs) (tol := roundDouble (1 / 10 ^ 6)) (eps := roundDouble (1 / 10 ^ 15))
    (fuel := 50) (ps' := [{{0, 1, 2, 3}}, {{0, 1}, {2, 3}}, {{0, 1}, {2}, {3}}, {{0}, {1}, {2}, {3}}])
    (cv' := [3, 4, 5]) (K := 2 ^ 90) (W := 12) roundDouble_spec (fun _ => .refl _) (fun _ => .refl _)
    exArcs_valid.lowHigh exArcs_valid.nonneg (by decide +kernel) (by norm_num) gaussDouble_plain gaussDouble_format
    (by norm_num) (by decide +kernel) (by decide +kernel) (by norm_num) (by decide +kernel) (by decide +kernel)
    (by norm_num) exArcs_certified (by decide +kernel) hp
  cases h1
  refine ⟨b, h2, h3.trans (by decide +kernel)⟩

end PSP.Props
