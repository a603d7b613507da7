import Verif.Model.Agg
import Verif.Theory.Gauss
import Verif.Theory.Entropy
import Verif.Theory.WolfeStuck
import Verif.Theory.WolfeTrace
import Verif.Props.PSP

/-!
# Properties of `DigraphEntropy`, `edmonds_greedy`, `min_norm_base`, `AIC` and `agg_psp`
(C34, C35, C43, C44, C45)
-/

namespace PSP.Props

open PSP.Spec PSP.Model PSP.Theory

/-! ### C34: `DigraphEntropy` -/

/-- If every arc goes from a lower to a higher id, `DigraphEntropy` of a list without repetition is the
total weight of the arcs that touch it. -/
theorem C34_value {g : Digraph} (hg : ∀ a ∈ g.arcs, a.src < a.dst) {B : List ℕ} (hB : B.Nodup) :
    (digraphEntropy g).val B = incident g.arcs B.toFinset :=
  digraphEntropy_val hg hB

/-- The order of the list is irrelevant; the empty list has value 0; the function is monotone and
submodular. -/
theorem C34_entropy {g : Digraph} (hg : ∀ a ∈ g.arcs, a.src < a.dst) (h0 : NonnegE g.arcs) :
    (digraphEntropy g).val [] = 0 ∧
    (∀ B C : List ℕ, B.Nodup → B.Perm C → (digraphEntropy g).val B = (digraphEntropy g).val C) ∧
    (∀ B C : List ℕ, B.Nodup → C.Nodup → B ⊆ C →
      (digraphEntropy g).val B ≤ (digraphEntropy g).val C) ∧
    (∀ B C D I : List ℕ, B.Nodup → C.Nodup → D.Nodup → I.Nodup → (∀ v, v ∈ D ↔ v ∈ B ∨ v ∈ C) →
      (∀ v, v ∈ I ↔ v ∈ B ∧ v ∈ C) → (digraphEntropy g).val D + (digraphEntropy g).val I ≤
        (digraphEntropy g).val B + (digraphEntropy g).val C) := by
  refine ⟨?_, ?_, ?_, ?_⟩
  · rw [C34_value hg List.nodup_nil]; exact incident_empty _
  · intro B C hB hp
    rw [C34_value hg hB, C34_value hg (hp.nodup_iff.1 hB), List.toFinset_eq_of_perm _ _ hp]
  · intro B C hB hC hs
    rw [C34_value hg hB, C34_value hg hC]
    exact incident_mono h0 fun v hv => List.mem_toFinset.2 (hs (List.mem_toFinset.1 hv))
  · intro B C D I hB hC hD hI hu hi
    rw [C34_value hg hB, C34_value hg hC, C34_value hg hD, C34_value hg hI]
    have e1 : D.toFinset = B.toFinset ∪ C.toFinset := by ext v; simp [hu]
    have e2 : I.toFinset = B.toFinset ∩ C.toFinset := by ext v; simp [hi]
    rw [e1, e2]
    exact incident_submodular h0 _ _

example : (digraphEntropy ⟨List.range 4, exArcs⟩).val [2, 1] = 10 := by decide +kernel
example : (digraphEntropy ⟨List.range 4, exArcs⟩).val [2, 1] = incident exArcs {1, 2} :=
  C34_value (by decide +kernel) (by decide)

/-- An arc from a higher to a lower id inside `B` is counted twice. -/
theorem C34_reversed_violated : ∃ g : Digraph, NonnegE g.arcs ∧ ∃ B : List ℕ, B.Nodup ∧
    (digraphEntropy g).val B = 2 * incident g.arcs B.toFinset ∧ incident g.arcs B.toFinset = 1 :=
  ⟨⟨[0, 1], [⟨1, 0, 1⟩]⟩, by unfold NonnegE; decide +kernel, [0, 1], by decide, by decide +kernel,
    by decide +kernel⟩

/-! ### C35: `edmonds_greedy` -/

/-- For every result of the sort, `edmonds_greedy` returns a point of the base polytope whose inner
product with the weights is least. -/
theorem C35_edmonds_greedy {f : SF} {φ : Finset ℕ → ℚ} (hf : Computes f φ)
    (hφ : Submodular (Finset.range f.size) φ) {w : List ℚ} (hw : w.length = f.size) {idx : List ℕ}
    (hi : AscendingIndexes w idx) :
    ∃ x, edmondsGreedy f w idx = .ok x ∧ x.length = f.size ∧
      InBase (Finset.range f.size) φ (fun i => x.getD i 0) ∧
      ∀ y, InBase (Finset.range f.size) φ y →
        ∑ i ∈ Finset.range f.size, w.getD i 0 * x.getD i 0 ≤
          ∑ i ∈ Finset.range f.size, w.getD i 0 * y i := by
  refine ⟨greedyPoint f idx, ?_, ?_, ?_, fun y hy => greedy_min hf hφ hw hi hy⟩
  · unfold edmondsGreedy
    rw [if_neg (by simp [hw])]
    rfl
  · exact (greedyPoints_spec hf hφ (greedyPoint_mem hw hi)).1
  · exact (greedyPoints_spec hf hφ (greedyPoint_mem hw hi)).2

/-- A weight vector of another length makes it throw. -/
theorem C35_size {f : SF} {w : List ℚ} (hw : w.length ≠ f.size) (idx : List ℕ) :
    edmondsGreedy f w idx = .exc "w must have the same size as the ground set of f." := by
  unfold edmondsGreedy
  rw [if_pos (Ne.symm hw)]

/-- The digraph of the examples meets the hypotheses. -/
example : ∃ x, edmondsGreedy (digraphEntropy ⟨List.range 4, exArcs⟩) [3, 1, 2, 0] [3, 1, 2, 0] =
    .ok x ∧ InBase (Finset.range 4) (incident exArcs) (fun i => x.getD i 0) := by
  obtain ⟨x, h1, _, h2, _⟩ := C35_edmonds_greedy (f := digraphEntropy ⟨List.range 4, exArcs⟩)
    (φ := incident exArcs) (fun B hB _ => C34_value (by decide +kernel) hB)
    (fun S T _ _ => incident_submodular exArcs_valid.nonneg S T) (w := [3, 1, 2, 0]) rfl
    (idx := [3, 1, 2, 0]) ⟨by decide +kernel, by decide +kernel⟩
  exact ⟨x, h1, h2⟩
example : edmondsGreedy (digraphEntropy ⟨List.range 4, exArcs⟩) [3, 1, 2, 0] [3, 1, 2, 0] =
    .ok [0, 6, 0, 6] := by decide +kernel

/-! ### C44: `min_norm_base` -/

/-- With an exact linear solver and small enough precision, `min_norm_base` of a submodular function on
at least two elements accesses no memory outside of its matrices, divides by no zero, ends within as many
major cycles as there are corrals, and returns a base.  If it ended by the optimality test, no base has
an inner product with the result that is smaller by the tolerance; the squared distance to the minimum
norm base is at most the tolerance; and for a small enough tolerance the result is the minimum norm
base. -/
theorem C44_min_norm_base {N : Numerics} {f : SF} {φ : Finset ℕ → ℚ} (hN : ExactNumerics N f.size)
    (hth : ∀ k Q, N.throws k Q = false) (hn : 2 ≤ f.size) (hf : Computes f φ)
    (hφ : Submodular (Finset.range f.size) φ) :
    ∃ e t0 : ℚ, 0 < e ∧ 0 < t0 ∧ ∀ eps tol fuel, 0 < eps → eps ≤ e → 0 < tol →
      (candidates N f).card < fuel →
      ∃ x flag, minNormBase N f tol eps fuel = .ok (x, flag) ∧ x.length = f.size ∧
        InBase (Finset.range f.size) φ (fun i => x.getD i 0) ∧
        (flag = true →
          (∀ y, InBase (Finset.range f.size) φ y →
            ∑ i ∈ Finset.range f.size, x.getD i 0 * x.getD i 0 <
              ∑ i ∈ Finset.range f.size, x.getD i 0 * y i + tol) ∧
          (∀ y, IsMinNorm (Finset.range f.size) φ y →
            ∑ i ∈ Finset.range f.size, (x.getD i 0 - y i) ^ 2 ≤ tol) ∧
          (tol ≤ t0 → IsMinNorm (Finset.range f.size) φ fun i => x.getD i 0)) := by
  obtain ⟨e, t0, he, ht0, h⟩ := minNormBase_spec hN hn hf hφ
  refine ⟨e, t0, he, ht0, fun eps tol fuel h1 h2 h3 h4 => ?_⟩
  rcases h eps tol fuel h1 h2 h3 h4 with ⟨x, flag, h5, h6, h7⟩ | ⟨_, k, Q, hk⟩
  · refine ⟨x, flag, h5, h6.length, h6.base, fun hflag => ⟨fun y hy => h6.near hN hf hφ hflag hy,
      fun y hy => ?_, h7 hflag⟩⟩
    exact near_dist h6.base (fun z hz => (h6.near hN hf hφ hflag hz).le) hy
  · rw [hth k Q] at hk
    exact absurd hk (by simp)

/-- If the test on the incremental factor can throw, nothing else is added to the possible results. -/
theorem C44_may_throw {N : Numerics} {f : SF} {φ : Finset ℕ → ℚ} (hN : ExactNumerics N f.size)
    (hn : 2 ≤ f.size) (hf : Computes f φ) (hφ : Submodular (Finset.range f.size) φ) :
    ∃ e : ℚ, 0 < e ∧ ∀ eps tol fuel, 0 < eps → eps ≤ e → 0 < tol → (candidates N f).card < fuel →
      (∃ x flag, minNormBase N f tol eps fuel = .ok (x, flag) ∧ x.length = f.size ∧
        InBase (Finset.range f.size) φ (fun i => x.getD i 0)) ∨
      minNormBase N f tol eps fuel = .exc "Try to set a higher functional tolerance." := by
  obtain ⟨e, t0, he, ht0, h⟩ := minNormBase_spec hN hn hf hφ
  refine ⟨e, he, fun eps tol fuel h1 h2 h3 h4 => ?_⟩
  rcases h eps tol fuel h1 h2 h3 h4 with ⟨x, flag, h5, h6, _⟩ | ⟨h5, _⟩
  · exact Or.inl ⟨x, flag, h5, h6.length, h6.base⟩
  · exact Or.inr h5

/-- If there are fewer than 100 corrals (for example on three elements) the call always ends by the
optimality test. -/
theorem C44_not_stuck {N : Numerics} {f : SF} {φ : Finset ℕ → ℚ} (hN : ExactNumerics N f.size)
    (hth : ∀ k Q, N.throws k Q = false) (hf : Computes f φ)
    (hφ : Submodular (Finset.range f.size) φ) (hs : f.size ≤ 3) :
    ∃ e : ℚ, 0 < e ∧ ∀ eps tol fuel, 0 < eps → eps ≤ e → 0 < tol →
      ∀ x flag, minNormBase N f tol eps fuel = .ok (x, flag) → flag = true :=
  notStuck_of_few hN hth hf hφ (few_of_size hN hs)

/-- The call ends by the optimality test, or it gives up after 102 major cycles whose points have smaller and smaller norm, though the gap,
which is at least the tolerance, never gets smaller from one cycle to the next. -/
theorem C44_stuck {N : Numerics} {f : SF} {φ : Finset ℕ → ℚ} (hN : ExactNumerics N f.size) (hn : 2 ≤ f.size)
    (hf : Computes f φ) (hφ : Submodular (Finset.range f.size) φ) :
    ∃ e : ℚ, 0 < e ∧ ∀ eps tol fuel, 0 < eps → eps ≤ e → 0 < tol → ∀ x flag,
      minNormBase N f tol eps fuel = .ok (x, flag) → flag = true ∨ ∃ (t : ℕ → ℕ → ℚ) (g : ℕ → ℚ),
        (t 101 = fun i => x.getD i 0) ∧
        (∀ i ≤ 101, InBase (Finset.range f.size) φ (t i) ∧ IsGap (Finset.range f.size) φ (t i) (g i) ∧
          tol ≤ g i) ∧
        ∀ i < 101, g i ≤ g (i + 1) ∧ inner (Finset.range f.size) (t (i + 1)) (t (i + 1)) <
          inner (Finset.range f.size) (t i) (t i) := by
  obtain ⟨e, he, h⟩ := minNormBase_stalled hN hn hf hφ
  refine ⟨e, he, fun eps tol fuel h1 h2 h3 x flag h4 => ?_⟩
  cases flag with
  | true => exact Or.inl rfl
  | false =>
  right
  obtain ⟨t, g, h5, h6⟩ := h eps tol fuel h1 h2 h3 x h4
  exact ⟨t, g, h6, fun i hi => ⟨h5.base i hi, h5.gap i hi⟩, fun i hi => ⟨h5.mono i hi, h5.norm i hi⟩⟩

/-- The second part of the hypotheses is met by every digraph (C34), the first by Gaussian elimination. -/
example : (∀ n, ExactNumerics gaussNumerics n) ∧ ∀ k Q, gaussNumerics.throws k Q = false :=
  ⟨gaussNumerics_exact, fun _ _ => rfl⟩
example : minNormBase gaussNumerics (digraphEntropy ⟨List.range 4, exArcs⟩) (1 / 10 ^ 6) (1 / 10 ^ 15) 20
    = .ok ([3, 3, 3, 3], true) := by decide +kernel

/-- On one element the value of the empty set is not subtracted: the result is not in the documented
polytope `B(f - f(∅))`. -/
theorem C44_single_violated : ∃ (f : SF) (φ : Finset ℕ → ℚ), Computes f φ ∧
    Submodular (Finset.range f.size) φ ∧ f.size = 1 ∧ ∀ N tol eps fuel,
      minNormBase N f tol eps fuel = .ok ([1], true) ∧
      ¬ InBase (Finset.range f.size) φ (fun i => ([1] : List ℚ).getD i 0) := by
  refine ⟨⟨1, fun _ => 1⟩, fun _ => 1, fun B _ _ => rfl, fun S T _ _ => le_refl _, rfl,
    fun N tol eps fuel => ⟨rfl, fun h => ?_⟩⟩
  have := h.1
  simp at this

/-! ### C43: `agg_psp` -/

theorem represents_digraph {n : ℕ} {E : List Arc} (hE : ∀ a ∈ E, a.src < a.dst ∧ a.dst < n) :
    Represents (digraphEntropy ⟨List.range n, E⟩) (incident E) :=
  fun _ hB _ _ => digraphEntropy_val (fun a ha => (hE a ha).1) hB

theorem digraph_size (n : ℕ) (E : List Arc) : (digraphEntropy ⟨List.range n, E⟩).size = n := by
  simp [digraphEntropy, Digraph.countNodes]

theorem within_of {n : ℕ} {E : List Arc} (hE : ∀ a ∈ E, a.src < a.dst ∧ a.dst < n) :
    Within E (Finset.range n) := fun e he => by
  have := hE e he
  constructor <;> rw [Finset.mem_range] <;> omega

/-- No call of `min_norm_base` made for a partition of the nodes is ended by the counter of stuck cycles
(AIC.hpp:79-86). -/
def NeverStuck (N : Numerics) (g : Digraph) (tol eps : ℚ) (fuel : ℕ) : Prop :=
  ∀ L R j, IsClustering g.countNodes R L → j < L.length → ∀ x flag,
    minNormBase N (sfJoin (sfContract (digraphEntropy g) L) j) tol eps fuel = .ok (x, flag) → flag = true

/-- `agg_psp` returns the principal sequence, also with parallel arcs: for every digraph with arcs from
lower to higher ids there are a precision and a tolerance such that with an exact linear solver and
anything below them the result of `Agglomerative_PSP::run` is the principal sequence of partitions and
its critical values, provided no call of `min_norm_base` is ended by the counter of stuck cycles. -/
theorem C43_agg_psp {N : Numerics} (hN : ∀ n, ExactNumerics N n) (hth : ∀ k Q, N.throws k Q = false)
    {n : ℕ} {E : List Arc} (hn : 0 < n) (hE : ∀ a ∈ E, a.src < a.dst ∧ a.dst < n) (h0 : NonnegE E) :
    ∃ e t0 : ℚ, ∃ K : ℕ, 0 < e ∧ 0 < t0 ∧ ∀ eps tol fuel, 0 < eps → eps ≤ e → 0 < tol → tol ≤ t0 →
      K ≤ fuel → NeverStuck N ⟨List.range n, E⟩ tol eps fuel →
      ∃ ps cv, aggRun (mnbOf N tol eps fuel) ⟨List.range n, E⟩ tol = .ok (ps, cv) ∧
        IsPrincipalSequence E (Finset.range n) ps cv := by
  have hs := digraph_size n E
  obtain ⟨e, t0, K, he, ht0, h⟩ := aggRunSF_exact hN hth (represents_digraph hE) (by rw [hs]; exact hn)
    (incident_intersecting h0 _)
  refine ⟨e, t0, K, he, ht0, fun eps tol fuel h1 h2 h3 h4 h5 h6 => ?_⟩
  obtain ⟨ps, cv, h7, h8⟩ := h eps tol fuel h1 h2 h3 h4 h5 h6
  rw [hs] at h8
  exact ⟨ps, cv, h7, (principalSF_iff (within_of hE)).1 h8⟩

/-- On at most four nodes the proviso is not needed. -/
theorem C43_agg_psp_four {N : Numerics} (hN : ∀ n, ExactNumerics N n)
    (hth : ∀ k Q, N.throws k Q = false) {n : ℕ} {E : List Arc} (hn : 0 < n) (hn4 : n ≤ 4)
    (hE : ∀ a ∈ E, a.src < a.dst ∧ a.dst < n) (h0 : NonnegE E) :
    ∃ e t0 : ℚ, ∃ K : ℕ, 0 < e ∧ 0 < t0 ∧ ∀ eps tol fuel, 0 < eps → eps ≤ e → 0 < tol → tol ≤ t0 →
      K ≤ fuel → ∃ ps cv, aggRun (mnbOf N tol eps fuel) ⟨List.range n, E⟩ tol = .ok (ps, cv) ∧
        IsPrincipalSequence E (Finset.range n) ps cv := by
  have hs := digraph_size n E
  obtain ⟨e, t0, K, he, ht0, h⟩ := aggRunSF_exact hN hth (represents_digraph hE) (by rw [hs]; exact hn)
    (incident_intersecting h0 _)
  obtain ⟨e', he', h'⟩ := notStuck_small hN hth (represents_digraph hE) (incident_intersecting h0 _)
    (by rw [hs]; exact hn4)
  refine ⟨min e e', t0, K, lt_min he he', ht0, fun eps tol fuel h1 h2 h3 h4 h5 => ?_⟩
  obtain ⟨ps, cv, h7, h8⟩ := h eps tol fuel h1 (h2.trans (min_le_left _ _)) h3 h4 h5
    (h' eps tol fuel h1 (h2.trans (min_le_right _ _)) h3)
  rw [hs] at h8
  exact ⟨ps, cv, h7, (principalSF_iff (within_of hE)).1 h8⟩

/-- With any procedure that finds minimum norm bases up to `δ` in each coordinate, and a tolerance
between `2δ` and the resolution of the critical values, the partitions are exactly those of the principal
sequence and every critical value is within `δ`. -/
theorem C43_agg_psp_approx {mnb : SF → Outcome (List ℚ)} {tol δ u : ℚ}
    (hm : ∀ F : SF, Accurate δ F (mnb F)) {n : ℕ} {E : List Arc} (hn : 0 < n)
    (hE : ∀ a ∈ E, a.src < a.dst ∧ a.dst < n) (h0 : NonnegE E) (hu : ∀ a ∈ E, ∃ k : ℤ, a.cap = k * u)
    (hδ : 0 ≤ δ) (hcover : 2 * δ ≤ tol) (hfine : (tol + 2 * δ) * (n : ℚ) ^ 2 < u) :
    ∃ ps cv cv', aggRun mnb ⟨List.range n, E⟩ tol = .ok (ps, cv') ∧
      IsPrincipalSequence E (Finset.range n) ps cv ∧ List.Forall₂ (fun a b => |a - b| ≤ δ) cv' cv := by
  have hgrid : ∀ S, S ⊆ Finset.range n → S.Nonempty → ∃ k : ℤ, incident E S = k * u := by
    intro S _ _
    clear h0 hE
    induction E with
    | nil => exact ⟨0, by simp [incident]⟩
    | cons a E ih =>
      obtain ⟨k, hk⟩ := ih fun b hb => hu b (List.mem_cons_of_mem _ hb)
      obtain ⟨j, hj⟩ := hu a List.mem_cons_self
      unfold incident at hk ⊢
      rw [List.map_cons, List.sum_cons, hk]
      split
      · exact ⟨j + k, by rw [hj]; push_cast; ring⟩
      · exact ⟨k, by ring⟩
  obtain ⟨ps, cv, cv', h1, h2, h3⟩ := aggRunSF_spec (mnb := mnb) (represents_digraph hE)
    (digraph_size n E) hn (incident_intersecting h0 _) ⟨hgrid, hδ, hcover, hfine⟩
    (fun L R j _ _ => hm _)
  exact ⟨ps, cv, cv', h1, (principalSF_iff (within_of hE)).1 h2, h3⟩

/-- Through the class `PSP` compiled with `AGG`, on the same inputs as the other methods. -/
theorem C43_run_once (e : Env) (s : Schedule) {N : Numerics} (hN : ∀ n, ExactNumerics N n)
    (hth : ∀ k Q, N.throws k Q = false) {n : ℕ} {E : List Arc} (hv : ValidInput n E) (hn : 2 ≤ n)
    (hf : FineTolerance e.eps n E) :
    ∃ e0 t0 : ℚ, ∃ K : ℕ, 0 < e0 ∧ 0 < t0 ∧ ∀ eps tol fuel, 0 < eps → eps ≤ e0 → 0 < tol → tol ≤ t0 →
      K ≤ fuel → NeverStuck N (inputGraph e.eps n E) tol eps fuel →
      ∃ r, runOnceAGG e (mnbOf N tol eps fuel) tol s n E "agg_psp" = .ok r ∧
        IsPrincipalSequence E (Finset.range n) r.psp r.cv := by
  have hg := (inputGraph_good (ε := e.eps) hv)
  obtain ⟨e0, t0, K, he0, ht0, h⟩ := C43_agg_psp hN hth (n := n) (E := (inputGraph e.eps n E).arcs)
    (by omega) (fun a ha => hv.lowHigh a (List.mem_filter.1 ha).1)
    (fun a ha => hv.nonneg a (List.mem_filter.1 ha).1)
  refine ⟨e0, t0, K, he0, ht0, fun eps tol fuel h1 h2 h3 h4 h5 h6 => ?_⟩
  obtain ⟨ps, cv, h7, h8⟩ := h eps tol fuel h1 h2 h3 h4 h5 h6
  refine ⟨⟨ps, cv⟩, ?_, strict_input hv hn hf h8⟩
  have hnew : PSPObj.new e.eps n E = .ok ⟨⟨List.range n, (inputGraph e.eps n E).arcs, [], n⟩, [], []⟩ := by
    unfold PSPObj.new
    rw [makeDgraph_valid hv]
    rfl
  have hrun : (⟨⟨List.range n, (inputGraph e.eps n E).arcs, [], n⟩, [], []⟩ : PSPObj).runAGG e
      (mnbOf N tol eps fuel) tol s "agg_psp" =
      (⟨⟨List.range n, (inputGraph e.eps n E).arcs, [], n⟩, cv, ps⟩, .ok ()) := by
    unfold PSPObj.runAGG PSPObj.runAgg
    rw [if_pos rfl]
    have hc : Mem.contiguous ⟨List.range n, (inputGraph e.eps n E).arcs, [], n⟩ = true := by
      simp [Mem.contiguous]
    have hgr : Mem.graph ⟨List.range n, (inputGraph e.eps n E).arcs, [], n⟩ =
      ⟨List.range n, (inputGraph e.eps n E).arcs⟩ := rfl
    dsimp only
    rw [hc, hgr, h7]
    rfl
  unfold runOnceAGG
  rw [hnew, Outcome.ok_bind, hrun]
  rfl

theorem runOnceAGG_other (e : Env) (mnb : SF → Outcome (List ℚ)) (tol : ℚ) (s : Schedule) (n : ℕ)
    (E : List Arc) {m : String} (hm : m ≠ "agg_psp") :
    runOnceAGG e mnb tol s n E m = runOnce e s n E m := by
  unfold runOnceAGG runOnce PSPObj.runAGG
  simp only [if_neg hm]

/-- Then `agg_psp` and the other methods return the same. -/
theorem C43_agrees {e : Env} (he : EnvGood e) (s : Schedule) {N : Numerics}
    (hN : ∀ n, ExactNumerics N n) (hth : ∀ k Q, N.throws k Q = false) {n : ℕ} {E : List Arc}
    (hv : ValidInput n E) (hn : 2 ≤ n) (hf : PdtTolerance e.eps n E) :
    ∃ e0 t0 : ℚ, ∃ K : ℕ, 0 < e0 ∧ 0 < t0 ∧ ∀ eps tol fuel, 0 < eps → eps ≤ e0 → 0 < tol → tol ≤ t0 →
      K ≤ fuel → NeverStuck N (inputGraph e.eps n E) tol eps fuel →
      ∃ r, runOnceAGG e (mnbOf N tol eps fuel) tol s n E "agg_psp" = .ok r ∧
        ∀ m ∈ exactMethods, runOnceAGG e (mnbOf N tol eps fuel) tol s n E m = .ok r := by
  obtain ⟨e0, t0, K, he0, ht0, h⟩ := C43_run_once e s hN hth hv hn (hf.fine (by omega))
  refine ⟨e0, t0, K, he0, ht0, fun eps tol fuel h1 h2 h3 h4 h5 h6 => ?_⟩
  obtain ⟨r, h7, h8⟩ := h eps tol fuel h1 h2 h3 h4 h5 h6
  refine ⟨r, h7, fun m hm => ?_⟩
  obtain ⟨r', h9, h10⟩ := runOnce_exact he s hv hn hf hm
  rw [runOnceAGG_other _ _ _ _ _ _ (by rintro rfl; simp [exactMethods] at hm), h9, out_eq hv h8 h10]

/-- The hypotheses are met by Gaussian elimination and any digraph on four nodes. -/
example : ∃ eps tol : ℚ, ∃ fuel ps cv, 0 < tol ∧
    aggRun (mnbOf gaussNumerics tol eps fuel)
      ⟨List.range 4, [⟨0, 1, 2⟩, ⟨1, 2, 1⟩, ⟨1, 2, 1⟩, ⟨1, 3, 5⟩]⟩ tol = .ok (ps, cv) ∧
    IsPrincipalSequence [⟨0, 1, 2⟩, ⟨1, 2, 1⟩, ⟨1, 2, 1⟩, ⟨1, 3, 5⟩] (Finset.range 4) ps cv := by
  obtain ⟨e, t0, K, he, ht0, h⟩ := C43_agg_psp_four gaussNumerics_exact (fun _ _ => rfl) (n := 4)
    (E := [⟨0, 1, 2⟩, ⟨1, 2, 1⟩, ⟨1, 2, 1⟩, ⟨1, 3, 5⟩]) (by norm_num) le_rfl (by decide +kernel)
    (by unfold NonnegE; decide +kernel)
  obtain ⟨ps, cv, h1, h2⟩ := h e t0 K he le_rfl ht0 le_rfl le_rfl
  exact ⟨e, t0, K, ps, cv, ht0, h1, h2⟩

/-- With the constants of `agglomerate()` (AIC.hpp:299) the digraph of the examples comes out right. -/
example : runOnceAGG exEnv (mnbOf gaussNumerics (1 / 10 ^ 6) (1 / 10 ^ 15) 50) (1 / 10 ^ 6) exSched 4
    exArcs "agg_psp" =
    .ok ⟨[{{0, 1, 2, 3}}, {{0, 1}, {2, 3}}, {{0, 1}, {2}, {3}}, {{0}, {1}, {2}, {3}}], [3, 4, 5]⟩ := by
  decide +kernel

/-- The tolerance of `agglomerate()` is absolute: with exact arithmetic and the constants of AIC.hpp:299,
the triangle with weights `10⁻⁴` gives repeated and wrong critical values and an extra partition. -/
theorem C43_small_weights_violated :
    ∃ E : List Arc, ValidInput 3 E ∧
      aggRun (mnbOf gaussNumerics (1 / 10 ^ 6) (1 / 10 ^ 15) 50) ⟨List.range 3, E⟩ (1 / 10 ^ 6) =
        .ok ([{{0, 1, 2}}, {{0}, {1, 2}}, {{0}, {1}, {2}}], [2 / 10 ^ 4, 2 / 10 ^ 4]) ∧
      IsPrincipalSequence E (Finset.range 3) [{{0, 1, 2}}, {{0}, {1}, {2}}] [3 / 2 / 10 ^ 4] := by
  have hv : ValidInput 3 [⟨0, 1, 1 / 10 ^ 4⟩, ⟨0, 2, 1 / 10 ^ 4⟩, ⟨1, 2, 1 / 10 ^ 4⟩] := by decide +kernel
  refine ⟨_, hv, by decide +kernel, ?_⟩
  have hf : FineTolerance lemonEps 3 [⟨0, 1, 1 / 10 ^ 4⟩, ⟨0, 2, 1 / 10 ^ 4⟩, ⟨1, 2, 1 / 10 ^ 4⟩] := by
    refine ⟨1 / 10 ^ 4, by norm_num, fun e he => ⟨1, ?_⟩, by norm_num [lemonEps], by norm_num [lemonEps]⟩
    simp only [List.mem_cons, List.not_mem_nil, or_false] at he
    rcases he with rfl | rfl | rfl <;> norm_num
  obtain ⟨r, h, hp⟩ := C01_dt_exact bruteSolver_minimal hv (by norm_num) hf
  have h' : (makeDgraph lemonEps 3 [⟨0, 1, 1 / 10 ^ 4⟩, ⟨0, 2, 1 / 10 ^ 4⟩, ⟨1, 2, 1 / 10 ^ 4⟩] >>=
      dtRun bruteSolver lemonEps) = .ok ⟨[{{0, 1, 2}}, {{0}, {1}, {2}}], [3 / 2 / 10 ^ 4]⟩ := by
    decide +kernel
  rw [h'] at h
  cases h
  exact hp

/-- On a reversed arc `agg_psp` reports the critical value 0, though at `1 / 2` the whole set is still
cheaper than the singletons. -/
theorem C43_reversed_violated : ∃ E : List Arc, NonnegE E ∧ Within E (Finset.range 2) ∧
    aggRun (mnbOf gaussNumerics (1 / 10 ^ 6) (1 / 10 ^ 15) 50) ⟨List.range 2, E⟩ (1 / 10 ^ 6) =
      .ok ([{{0, 1}}, {{0}, {1}}], [0]) ∧
    cost E (1 / 2) {{0, 1}} < cost E (1 / 2) {{0}, {1}} :=
  ⟨[⟨1, 0, 1⟩], by unfold NonnegE; decide +kernel, by unfold Within; decide +kernel, by decide +kernel,
    by decide +kernel⟩

/-- Without nodes the constructor of `HC` reads outside of its vectors. -/
theorem C43_empty (mnb : SF → Outcome (List ℚ)) (tol : ℚ) (E : List Arc) :
    ∃ why, aggRun mnb ⟨[], E⟩ tol = .ub why := ⟨_, rfl⟩

/-- After `psp_i` the graph has one node left with a new id, and `agg_psp` asks for an erased one; after
`dt` it returns what it returns on a new object. -/
theorem C43_history : ∃ o, PSPObj.new lemonEps 4 exArcs = .ok o ∧
    (((o.run exEnv exSched "psp_i").1.runAGG exEnv (mnbOf gaussNumerics (1 / 10 ^ 6) (1 / 10 ^ 15) 50)
      (1 / 10 ^ 6) exSched "agg_psp").2 = .ub "nodeFromId of an erased node") ∧
    (((o.run exEnv exSched "dt").1.runAGG exEnv (mnbOf gaussNumerics (1 / 10 ^ 6) (1 / 10 ^ 15) 50)
      (1 / 10 ^ 6) exSched "agg_psp").1.getCriticalValues = [3, 4, 5]) :=
  ⟨⟨⟨List.range 4, exArcs, [], 4⟩, [], []⟩, by
    unfold PSPObj.new
    rw [makeDgraph_valid exArcs_valid]
    have : (inputGraph lemonEps 4 exArcs).arcs = exArcs := by decide +kernel
    rw [Outcome.ok_bind, this]
    rfl, by decide +kernel, by decide +kernel⟩

/-! ### C45: hypergraphs -/

/-- `HypergraphEntropy` of a nonempty list is the sum over the hyperedges of the largest weight in the
list; it is submodular on intersecting sets, also with negative entries. -/
theorem C45_value (M : List (List ℚ)) (cols : ℕ) :
    (∀ B : List ℕ, B ≠ [] → (hypergraphEntropy M cols).val B = weightMax M cols B.toFinset) ∧
    Intersecting (Finset.range M.length) (weightMax M cols) :=
  ⟨fun _ hB => hypergraphEntropy_val M cols hB, weightMax_intersecting M cols _⟩

/-- `AIC` on a hypergraph builds the principal sequence of its entropy. -/
theorem C45_aic {N : Numerics} (hN : ∀ n, ExactNumerics N n) (hth : ∀ k Q, N.throws k Q = false)
    {M : List (List ℚ)} (cols : ℕ) (hn : 0 < M.length) :
    ∃ e t0 : ℚ, ∃ K : ℕ, 0 < e ∧ 0 < t0 ∧ ∀ eps tol fuel, 0 < eps → eps ≤ e → 0 < tol → tol ≤ t0 →
      K ≤ fuel → (∀ L R j, IsClustering M.length R L → j < L.length →
        NotStuck N (sfJoin (sfContract (hypergraphEntropy M cols) L) j) tol eps fuel) →
      ∃ ps cv, aggRunSF (mnbOf N tol eps fuel) (hypergraphEntropy M cols) tol = .ok (ps, cv) ∧
        IsPrincipalSequenceSF (weightMax M cols) (Finset.range M.length) ps cv :=
  aggRunSF_exact hN hth (f := hypergraphEntropy M cols)
    (fun _ _ hB _ => hypergraphEntropy_val M cols hB) hn (weightMax_intersecting M cols _)

/-- With at most four nodes the proviso is not needed. -/
theorem C45_aic_four {N : Numerics} (hN : ∀ n, ExactNumerics N n) (hth : ∀ k Q, N.throws k Q = false)
    {M : List (List ℚ)} (cols : ℕ) (hn : 0 < M.length) (hn4 : M.length ≤ 4) :
    ∃ e t0 : ℚ, ∃ K : ℕ, 0 < e ∧ 0 < t0 ∧ ∀ eps tol fuel, 0 < eps → eps ≤ e → 0 < tol → tol ≤ t0 →
      K ≤ fuel →
      ∃ ps cv, aggRunSF (mnbOf N tol eps fuel) (hypergraphEntropy M cols) tol = .ok (ps, cv) ∧
        IsPrincipalSequenceSF (weightMax M cols) (Finset.range M.length) ps cv := by
  obtain ⟨e, t0, K, he, ht0, h⟩ := C45_aic hN hth cols hn
  obtain ⟨e', he', h'⟩ := notStuck_small hN hth (f := hypergraphEntropy M cols)
    (fun _ _ hB _ => hypergraphEntropy_val M cols hB) (weightMax_intersecting M cols _) hn4
  exact ⟨min e e', t0, K, lt_min he he', ht0, fun eps tol fuel h1 h2 h3 h4 h5 =>
    h eps tol fuel h1 (h2.trans (min_le_left _ _)) h3 h4 h5
      (h' eps tol fuel h1 (h2.trans (min_le_right _ _)) h3)⟩

/-- Three nodes and two hyperedges, one of them through all nodes. -/
example : aggRunSF (mnbOf gaussNumerics (1 / 10 ^ 6) (1 / 10 ^ 15) 50)
    (hypergraphEntropy [[1, 0], [1, 2], [1, 2]] 2) (1 / 10 ^ 6) =
    .ok ([{{0, 1, 2}}, {{0}, {1, 2}}, {{0}, {1}, {2}}], [1, 3]) := by decide +kernel

/-! ### C46: `SF::mutual_info` -/

/-- For a digraph with arcs from lower to higher ids, `mutual_info(B, C)` of disjoint lists is the total
weight of the arcs between them; in particular it is symmetric and not negative. -/
theorem C46_mutual_info {g : Digraph} (hg : ∀ a ∈ g.arcs, a.src < a.dst) {B C : List ℕ}
    (hB : B.Nodup) (hC : C.Nodup) (hd : B.Disjoint C) :
    (digraphEntropy g).mutualInfo B C = (g.arcs.map fun a =>
      if (a.src ∈ B ∧ a.dst ∈ C) ∨ (a.src ∈ C ∧ a.dst ∈ B) then a.cap else 0).sum := by
  unfold SF.mutualInfo
  rw [C34_value hg hB, C34_value hg hC, C34_value hg (List.nodup_append'.2 ⟨hB, hC, hd⟩)]
  unfold incident
  have key : ∀ l : List Arc, (l.map fun e => if e.src ∈ B.toFinset ∨ e.dst ∈ B.toFinset then e.cap else 0).sum +
      (l.map fun e => if e.src ∈ C.toFinset ∨ e.dst ∈ C.toFinset then e.cap else 0).sum -
      (l.map fun e => if e.src ∈ (B ++ C).toFinset ∨ e.dst ∈ (B ++ C).toFinset then e.cap else 0).sum =
      (l.map fun a => if (a.src ∈ B ∧ a.dst ∈ C) ∨ (a.src ∈ C ∧ a.dst ∈ B) then a.cap else 0).sum := by
    intro l
    induction l with
    | nil => simp
    | cons a l ih =>
      simp only [List.map_cons, List.sum_cons]
      rw [← ih]
      have h1 : a.src ∈ B → a.src ∉ C := fun h h' => hd h h'
      have h2 : a.dst ∈ B → a.dst ∉ C := fun h h' => hd h h'
      by_cases p1 : a.src ∈ B <;> by_cases p2 : a.src ∈ C <;> by_cases p3 : a.dst ∈ B <;>
        by_cases p4 : a.dst ∈ C <;> simp_all <;> linarith
  exact key g.arcs

example : (digraphEntropy ⟨List.range 4, exArcs⟩).mutualInfo [0] [3, 1] = 7 := by decide +kernel

end PSP.Props
