import Verif.Theory.RoundedAIC
import Verif.Theory.FormatSums
import Verif.Theory.Entropy

/-!
# The hypotheses of `Theory/RoundedAIC` for rounding to nearest
-/

namespace PSP.Theory

open PSP.Model PSP.Spec

/-! ### without rounding -/

theorem greedyLoopF_id (f : List ℕ → ℚ) : ∀ (is B : List ℕ) (F : ℚ) (x : ℕ → ℚ),
    greedyLoopF id f is B F x = greedyLoop f is B F x := by
  intro is
  induction is with
  | nil => intro B F x; rfl
  | cons i is ih => intro B F x; exact ih _ _ _

theorem edmondsGreedyF_id (f : SF) (w : List ℚ) (idx : List ℕ) : edmondsGreedyF id f w idx = edmondsGreedy f w idx := by
  unfold edmondsGreedyF edmondsGreedy
  split
  · rfl
  · congr 1
    exact List.map_congr_left fun i _ => by rw [greedyLoopF_id]

theorem minorCyclesF_id {N : Numerics} (hs : ∀ Q, (N.solve Q).length = Q.length) (n : ℕ) (eps : ℚ) :
    ∀ (k : ℕ) (Q : List (List ℚ)) (w : List ℚ), minorCyclesF id N.exactF n eps k Q w = minorCycles N n eps k Q w := by
  intro k
  induction k with
  | zero => intro Q w; rfl
  | succ k ih =>
    intro Q w
    have e : N.exactF.dot (List.replicate Q.length 1) (N.exactF.solve Q) = (N.solve Q).sum := by
      show Model.dot _ (N.solve Q) = _
      rw [← hs Q, dot_ones]
    unfold minorCyclesF minorCycles
    dsimp only
    rw [e]
    simp only [id, ih]
    rfl

theorem majorCyclesF_id {N : Numerics} (hs : ∀ Q, (N.solve Q).length = Q.length) (f : SF) (tol eps : ℚ) :
    ∀ (k : ℕ) (Q : List (List ℚ)) (w x : List ℚ) (prev : Option ℚ) (stuck : ℕ),
    majorCyclesF id N.exactF f tol eps k Q w x prev stuck = majorCycles N f tol eps k Q w x prev stuck := by
  intro k
  induction k with
  | zero => intro Q w x prev stuck; rfl
  | succ k ih =>
    intro Q w x prev stuck
    unfold majorCyclesF majorCycles
    rw [edmondsGreedyF_id]
    simp only [id, ih, minorCyclesF_id hs]
    rfl

theorem minNormBaseF_id {N : Numerics} (hs : ∀ Q, (N.solve Q).length = Q.length) (f : SF) (tol eps : ℚ) (fuel : ℕ) :
    minNormBaseF id N.exactF f tol eps fuel = minNormBase N f tol eps fuel := by
  unfold minNormBaseF minNormBase
  simp only [edmondsGreedyF_id, majorCyclesF_id hs]
  rfl

/-- A solver that returns a vector of the right length, and a sort. -/
structure PlainNumerics (N : Numerics) : Prop where
  solve : ∀ Q, (N.solve Q).length = Q.length
  sort : ∀ x : List ℚ, AscendingIndexes x (N.sort x)

theorem PlainNumerics.close_exact {N : Numerics} (h : PlainNumerics N) (R : ℚ) (n : ℕ) : CloseNumerics id N.exactF 0 0 R n where
  nonneg := le_rfl
  small := by norm_num
  abs_nonneg := le_rfl
  mono := monotone_id
  zero := rfl
  round x _ := by simp
  sub a b _ _ _ _ := by simp
  dot x y _ _ _ := by simp [Numerics.exactF]
  comb_length Q w := by simp [Numerics.exactF, combine]
  comb_nil := by
    refine List.ext_getElem (by simp [Numerics.exactF, combine]) fun i h1 h2 => ?_
    simp [Numerics.exactF, combine]
  total Q _ := by
    show |Model.dot _ (N.solve Q) - (N.solve Q).sum| ≤ _
    rw [← h.solve Q, dot_ones]
    simp
  comb Q w i hi _ _ _ := by
    show |(combine n Q w).getD i 0 - _| ≤ _
    unfold combine
    rw [List.getD_eq_getElem _ _ (by simpa using hi)]
    simp
  solve := h.solve
  sort x _ := h.sort x

/-! ### from left to right -/

variable {fl : ℚ → ℚ} {u M R : ℚ}

theorem abs_zipWith_sum {α β : Type} (F : α → β → ℚ) : ∀ (x : List α) (y : List β),
    ((List.zipWith F x y).map abs).sum = (List.zipWith (fun a b => |F a b|) x y).sum := by
  intro x
  induction x with
  | nil => intro y; simp
  | cons a x ih =>
    intro y
    cases y with
    | nil => simp
    | cons b y => simp [ih y]

theorem zipWith_abs_nonneg {α β : Type} (F : α → β → ℚ) (x : List α) (y : List β) :
    0 ≤ (List.zipWith (fun a b => |F a b|) x y).sum := by
  rw [← abs_zipWith_sum]
  exact List.sum_nonneg fun z hz => by
    obtain ⟨w, -, rfl⟩ := List.mem_map.1 hz
    exact abs_nonneg w

/-- Rounded products. -/
theorem zipWith_fl {α β : Type} (h : Rounds fl u M) (hs : Sums fl u R) (F : α → β → ℚ) : ∀ (x : List α) (y : List β),
    u * (List.zipWith (fun a b => |F a b|) x y).sum ≤ M → (List.zipWith (fun a b => |F a b|) x y).sum ≤ 2 * R →
    |(List.zipWith (fun a b => fl (F a b)) x y).sum - (List.zipWith F x y).sum| ≤
      u * (List.zipWith (fun a b => |F a b|) x y).sum + x.length * u ^ 2 ∧
    (List.zipWith (fun a b => |fl (F a b)|) x y).sum ≤
      (1 + u) * (List.zipWith (fun a b => |F a b|) x y).sum + x.length * u ^ 2 ∧
    ∀ z ∈ List.zipWith (fun a b => fl (F a b)) x y, fl z = z := by
  have hu := h.nonneg
  intro x
  induction x with
  | nil => intro y _ _; simp
  | cons a x ih =>
    intro y hM hR
    cases y with
    | nil =>
      have : (0 : ℚ) ≤ (x.length + 1) * u ^ 2 := by positivity
      simpa using this
    | cons b y =>
      simp only [List.zipWith_cons_cons, List.sum_cons, List.length_cons] at hM hR ⊢
      have h0 := zipWith_abs_nonneg F x y
      have h0' := abs_nonneg (F a b)
      have hMa : u * |F a b| ≤ M := (mul_le_mul_of_nonneg_left (by linarith) hu).trans hM
      obtain ⟨h1, h2, h3⟩ := ih y ((mul_le_mul_of_nonneg_left (by linarith) hu).trans hM) (by linarith)
      have h4 := h.rel' (F a b) hMa
      have h5 : u * max |F a b| u ≤ u * |F a b| + u ^ 2 := by
        rw [pow_two, ← mul_add]
        exact mul_le_mul_of_nonneg_left (max_le (by linarith) (by linarith)) hu
      have h6 := abs_sub_abs_le_abs_sub (fl (F a b)) (F a b)
      push_cast
      refine ⟨?_, by linarith, ?_⟩
      · rw [add_sub_add_comm]
        refine (abs_add_le _ _).trans ?_
        linarith
      · intro z hz
        rcases List.mem_cons.1 hz with rfl | hz
        · exact hs.idem _ (by linarith)
        · exact h3 z hz

/-- A sum of rounded products. -/
theorem seq_err {α β : Type} (h : Rounds fl u M) (hs : Sums fl u R) (F : α → β → ℚ) {x : List α} {y : List β} {n : ℕ}
    (hn : 4 * (n + 1) * u ≤ 1 / 16) (hx : x.length ≤ n + 1) {K : ℚ} (hK : (List.zipWith (fun a b => |F a b|) x y).sum ≤ K)
    (hKM : u * K ≤ M) (hKR : 4 * K + 1 ≤ R) :
    |flSum fl 0 (List.zipWith (fun a b => fl (F a b)) x y) - (List.zipWith F x y).sum| ≤
      4 * (n + 1) * u * (List.zipWith (fun a b => |F a b|) x y).sum + 4 * (n + 1) * u * u ∧
    fl (flSum fl 0 (List.zipWith (fun a b => fl (F a b)) x y)) =
      flSum fl 0 (List.zipWith (fun a b => fl (F a b)) x y) := by
  have hu := h.nonneg
  have hA0 := zipWith_abs_nonneg F x y
  obtain ⟨h1, h2, hfix⟩ := zipWith_fl h hs F x y ((mul_le_mul_of_nonneg_left hK hu).trans hKM) (by linarith)
  set A := (List.zipWith (fun a b => |F a b|) x y).sum with hA
  have hn0 : (0 : ℚ) ≤ n := n.cast_nonneg
  have hu1 : u ≤ 1 / 64 := by nlinarith
  have hx' : (x.length : ℚ) ≤ n + 1 := by exact_mod_cast hx
  have hxu : (x.length : ℚ) * u ^ 2 ≤ (n + 1) * u ^ 2 := mul_le_mul_of_nonneg_right hx' (sq_nonneg u)
  have hnu : ((n : ℚ) + 1) * u ^ 2 ≤ 1 / 64 * u := by
    have e : ((n : ℚ) + 1) * u ^ 2 = ((n + 1) * u) * u := by ring
    rw [e]
    exact mul_le_mul_of_nonneg_right (by linarith) hu
  have hl : (List.zipWith (fun a b => fl (F a b)) x y).length ≤ n + 1 := by
    rw [List.length_zipWith]
    exact (min_le_left _ _).trans hx
  have huA : u * A ≤ 1 / 64 * A := mul_le_mul_of_nonneg_right hu1 hA0
  obtain ⟨h3, h4⟩ := hs.flSum_err' (n := n + 1) (by push_cast; nlinarith) hl hfix (B := (1 + u) * A + (n + 1) * u ^ 2)
    (by rw [abs_zipWith_sum]; linarith) (by linarith)
  refine ⟨?_, h4⟩
  push_cast at h3
  have h5 := abs_sub_le (flSum fl 0 (List.zipWith (fun a b => fl (F a b)) x y))
    ((List.zipWith (fun a b => fl (F a b)) x y).sum) ((List.zipWith F x y).sum)
  have e1 : 0 ≤ ((n : ℚ) + 1) * u := by positivity
  have e0 : u ≤ (n + 1) * u := by nlinarith
  have e2 : ((n : ℚ) + 1) * u * ((1 + u) * A + (n + 1) * u ^ 2) ≤ (n + 1) * u * (65 / 64 * A + 1 / 64 * u) :=
    mul_le_mul_of_nonneg_left (by linarith) e1
  have e3 : u * A ≤ (n + 1) * u * A := mul_le_mul_of_nonneg_right e0 hA0
  have e4 : 0 ≤ ((n : ℚ) + 1) * u * A := mul_nonneg e1 hA0
  have e5 : 0 ≤ ((n : ℚ) + 1) * u * u := mul_nonneg e1 hu
  have e6 : ((n : ℚ) + 1) * u ^ 2 = (n + 1) * u * u := by ring
  linarith

/-- The solver returns numbers of the format, none of them above `K`. -/
def FormatSolver (fl : ℚ → ℚ) (N : Numerics) (K : ℚ) : Prop := ∀ Q, ∀ a ∈ N.solve Q, fl a = a ∧ |a| ≤ K

theorem zipWith_one_fl : ∀ l : List ℚ, (∀ a ∈ l, fl a = a) →
    List.zipWith (fun a b => fl (a * b)) (List.replicate l.length 1) l = l := by
  intro l
  induction l with
  | nil => intro _; rfl
  | cons a l ih =>
    intro hl
    rw [List.length_cons, List.replicate_succ, List.zipWith_cons_cons, ih fun b hb => hl b (List.mem_cons_of_mem _ hb),
      one_mul, hl a List.mem_cons_self]

theorem PlainNumerics.close_seq {N : Numerics} (hN : PlainNumerics N) (h : Rounds fl u M) (hs : Sums fl u R) {n : ℕ}
    (hn : 4 * (n + 1) * u ≤ 1 / 16) {K : ℚ} (hK : FormatSolver fl N K) (hKR : 2 * (n + 1) * K ≤ R) {R' : ℚ}
    (hM' : u * R' ≤ M) (hR' : 4 * R' + 1 ≤ R) (h0 : 0 ≤ R') :
    CloseNumerics fl (N.seqF fl) (4 * (n + 1) * u) (4 * (n + 1) * u * u) R' n := by
  have hu := h.nonneg
  have hn0 : (0 : ℚ) ≤ n := n.cast_nonneg
  have hug : u ≤ 4 * (n + 1) * u := by nlinarith [mul_nonneg hn0 hu]
  have hu1 : u ≤ 1 / 16 := hug.trans hn
  constructor
  case nonneg => positivity
  case small => exact hn
  case abs_nonneg => positivity
  case mono => exact h.mono
  case zero => exact h.zero
  case round =>
    intro x hx
    have h1 := h.rel' x (by
      have := mul_le_mul hu1 hx (abs_nonneg x) (by norm_num : (0 : ℚ) ≤ 1 / 16)
      linarith [h.one_le])
    refine h1.trans ?_
    have h2 : max |x| u ≤ |x| + u := max_le (by linarith) (by linarith [abs_nonneg x])
    calc u * max |x| u ≤ u * (|x| + u) := mul_le_mul_of_nonneg_left h2 hu
      _ ≤ 4 * (n + 1) * u * (|x| + u) := mul_le_mul_of_nonneg_right hug (by positivity)
      _ = _ := by ring
  case sub =>
    intro a b ha hb hra hrb
    exact (hs.sub ha hb (by linarith) (by linarith)).trans (mul_le_mul_of_nonneg_right hug (abs_nonneg _))
  case dot =>
    intro x y _ hx hxy
    exact seq_err h hs (fun a b => a * b) hn hx hxy hM' hR'
  case comb_length => intro Q w; simp [Numerics.seqF]
  case comb_nil =>
    refine List.ext_getElem (by simp [Numerics.seqF]) fun i h1 h2 => ?_
    simp [Numerics.seqF, flSum]
  case comb =>
    intro Q w i hi _ hQ hQw
    have e : (((N.seqF fl).comb n Q w).getD i 0) =
        flSum fl 0 (List.zipWith (fun (q : List ℚ) c => fl (q.getD i 0 * c)) Q w) := by
      unfold Numerics.seqF
      dsimp only
      rw [List.getD_eq_getElem _ _ (by simpa using hi)]
      simp
    rw [e]
    exact (seq_err h hs (fun (q : List ℚ) c => q.getD i 0 * c) hn hQ hQw hM' hR').1
  case solve => exact hN.solve
  case total =>
    intro Q hQ
    have hlen : (N.solve Q).length ≤ n + 1 := by rw [hN.solve]; exact hQ
    have hlen' : ((N.solve Q).length : ℚ) ≤ n + 1 := by exact_mod_cast hlen
    show |flSum fl 0 (List.zipWith (fun a b => fl (a * b)) (List.replicate Q.length 1) (N.solve Q)) - _| ≤ _
    rw [← hN.solve Q, zipWith_one_fl _ fun a ha => (hK Q a ha).1]
    have hB : ((N.solve Q).map abs).sum ≤ (N.solve Q).length * K := by
      have := List.sum_le_card_nsmul ((N.solve Q).map abs) K (by
        intro z hz
        obtain ⟨a, ha, rfl⟩ := List.mem_map.1 hz
        exact (hK Q a ha).2)
      simpa using this
    have h2B : 2 * ((N.solve Q).map abs).sum ≤ R := by
      rcases (N.solve Q).eq_nil_or_concat' with he | ⟨l, a, he⟩
      · rw [he]
        simp only [List.map_nil, List.sum_nil, mul_zero]
        linarith
      · have hK0 : 0 ≤ K := (abs_nonneg a).trans (hK Q a (by rw [he]; simp)).2
        have := mul_le_mul_of_nonneg_right hlen' hK0
        linarith
    have h3 := (hs.flSum_err' (n := n + 1) (by push_cast; linarith) hlen (fun a ha => (hK Q a ha).1) le_rfl h2B).1
    push_cast at h3
    refine h3.trans (mul_le_mul_of_nonneg_right ?_ ?_)
    · nlinarith [mul_nonneg hn0 hu]
    · exact List.sum_nonneg fun z hz => by
        obtain ⟨w, -, rfl⟩ := List.mem_map.1 hz
        exact abs_nonneg w
  case sort => exact fun x _ => hN.sort x

/-! ### the bounds in one number -/

/-- All errors in terms of `c`. -/
theorem err_le {c g η tol : ℚ} {n : ℕ} (hc : 0 ≤ c) (hc1 : c ≤ 1 / 64) (hg : 0 ≤ g) (hgc : g ≤ 4 * c) (hM : 0 ≤ M)
    (hη : 0 ≤ η) (hηc : η ≤ 2 * c * M) (htol : 0 ≤ tol) :
    pointErr M η g ≤ 40 * c * M ∧ gapErr n M η g tol ≤ (1 + 8 * c) * tol + 50 * n * c * M ^ 2 := by
  have hcM : 0 ≤ c * M := mul_nonneg hc hM
  have hκ : greedyErr M η g ≤ 9 * (c * M) := by
    unfold greedyErr
    have h1 : g * (M + 2 * η) ≤ 4 * c * (M + 2 * (2 * c * M)) :=
      mul_le_mul hgc (by linarith) (by linarith) (by linarith)
    have h2 : c * (c * M) ≤ 1 / 64 * (c * M) := mul_le_mul_of_nonneg_right hc1 hcM
    have e : 4 * c * (M + 2 * (2 * c * M)) = 4 * (c * M) + 16 * (c * (c * M)) := by ring
    linarith
  have hκ0 : 0 ≤ greedyErr M η g := by unfold greedyErr; positivity
  set κ := greedyErr M η g
  have hκM : κ ≤ M := by
    have : c * M ≤ 1 / 64 * M := mul_le_mul_of_nonneg_right hc1 hM
    linarith
  have hgM : g * M ≤ 4 * (c * M) := by
    have := mul_le_mul_of_nonneg_right hgc hM
    linarith
  have hgκ : g * κ ≤ 9 / 16 * (c * M) := by
    have h1 : g * κ ≤ 4 * c * (9 * (c * M)) := mul_le_mul hgc hκ hκ0 (by linarith)
    have h2 : c * (c * M) ≤ 1 / 64 * (c * M) := mul_le_mul_of_nonneg_right hc1 hcM
    linarith
  have hρ : pointErr M η g ≤ 40 * (c * M) := by
    unfold pointErr
    have e : 2 * g * (M + κ) + 2 * κ + 3 * g * M = 5 * (g * M) + 2 * (g * κ) + 2 * κ := by ring
    show 2 * g * (M + κ) + 2 * κ + 3 * g * M ≤ _
    rw [e]
    linarith
  refine ⟨by linarith, ?_⟩
  have hρ0 : 0 ≤ pointErr M η g := hκ0.trans (pointErr_ge hg hη hM)
  unfold gapErr
  set ρ := pointErr M η g
  have hρM : ρ ≤ M := by
    have : c * M ≤ 1 / 64 * M := mul_le_mul_of_nonneg_right hc1 hM
    linarith
  have h1 : tol * (1 + 2 * g) ≤ (1 + 8 * c) * tol := by
    have := mul_le_mul_of_nonneg_left (show 1 + 2 * g ≤ 1 + 8 * c by linarith) htol
    linarith
  have h2 : (M + ρ) * (g * (M + κ + (M + ρ)) + κ) ≤ 50 * (c * M ^ 2) := by
    have h3 : g * (M + κ + (M + ρ)) ≤ g * (4 * M) := mul_le_mul_of_nonneg_left (by linarith) hg
    have h4 : g * (M + κ + (M + ρ)) + κ ≤ 25 * (c * M) := by linarith
    have h5 : 0 ≤ g * (M + κ + (M + ρ)) + κ := by positivity
    calc _ ≤ (2 * M) * (25 * (c * M)) := mul_le_mul (by linarith) h4 h5 (by linarith)
      _ = _ := by ring
  have h3 := mul_le_mul_of_nonneg_left h2 (Nat.cast_nonneg (α := ℚ) n)
  have e : (n : ℚ) * (50 * (c * M ^ 2)) = 50 * n * c * M ^ 2 := by ring
  show tol * (1 + 2 * g) + n * ((M + ρ) * (g * (M + κ + (M + ρ)) + κ)) ≤ _
  linarith

end PSP.Theory
