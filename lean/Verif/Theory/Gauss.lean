import Verif.Theory.WolfeAgg

/-!
# A reference implementation of the linear solver

`min_norm_base` gets its linear solver from Eigen.  Here is one that is exact and computable, for the
concrete runs.
-/

namespace PSP.Theory

open PSP.Model PSP.Spec

/-- Subtract the multiple `c` of the row `p`. -/
def reduceRow (p : List ℚ × ℚ) (c : ℚ) (r : List ℚ × ℚ) : List ℚ × ℚ :=
  (List.zipWith (fun a b => a - c * b) r.1.tail p.1.tail, r.2 - c * p.2)

/-- Gaussian elimination of `k` unknowns; a row is the list of coefficients and the right side. -/
def solveRows : ℕ → List (List ℚ × ℚ) → List ℚ
  | 0, _ => []
  | k + 1, rows =>
    match rows.find? fun p => decide (p.1.headD 0 ≠ 0) with
    | none => 0 :: solveRows k (rows.map fun p => (p.1.tail, p.2))
    | some p =>
      let sol := solveRows k (rows.map fun r => reduceRow p (r.1.headD 0 / p.1.headD 0) r)
      ((p.2 - dot p.1.tail sol) / p.1.headD 0) :: sol

theorem dot_cons (a b : ℚ) (x y : List ℚ) : dot (a :: x) (b :: y) = a * b + dot x y := by
  simp [dot]

theorem dot_reduce (c : ℚ) (z : List ℚ) : ∀ (x y : List ℚ), x.length = z.length →
    y.length = z.length →
    dot (List.zipWith (fun a b => a - c * b) x y) z = dot x z - c * dot y z := by
  induction z with
  | nil => intro x y _ _; simp [dot]
  | cons d z ih =>
    intro x y h1 h2
    cases x with
    | nil => simp at h1
    | cons a x =>
      cases y with
      | nil => simp at h2
      | cons b y =>
        rw [List.zipWith_cons_cons, dot_cons, dot_cons, dot_cons,
          ih x y (by simpa using h1) (by simpa using h2)]
        ring

theorem solveRows_spec : ∀ (k : ℕ) (rows : List (List ℚ × ℚ)), (∀ p ∈ rows, p.1.length = k) →
    (∃ y : List ℚ, y.length = k ∧ ∀ p ∈ rows, dot p.1 y = p.2) →
    (solveRows k rows).length = k ∧ ∀ p ∈ rows, dot p.1 (solveRows k rows) = p.2
  | 0, rows, hl, ⟨y, hy, hs⟩ => by
    refine ⟨rfl, fun p hp => ?_⟩
    have h1 := hs p hp
    rw [List.length_eq_zero_iff.1 hy] at h1
    exact h1
  | k + 1, rows, hl, ⟨y, hy, hs⟩ => by
    have hrow : ∀ p ∈ rows, ∃ a l, p.1 = a :: l ∧ l.length = k := by
      intro p hp
      have := hl p hp
      cases hp1 : p.1 with
      | nil => rw [hp1] at this; simp at this
      | cons a l => rw [hp1] at this; exact ⟨a, l, rfl, by simpa using this⟩
    obtain ⟨b, z, rfl, hz⟩ : ∃ b z, y = b :: z ∧ z.length = k := by
      cases y with
      | nil => simp at hy
      | cons b z => exact ⟨b, z, rfl, by simpa using hy⟩
    unfold solveRows
    cases hf : rows.find? fun p => decide (p.1.headD 0 ≠ 0) with
    | none =>
      simp only
      have h0 : ∀ p ∈ rows, p.1.headD 0 = 0 := by
        intro p hp
        have := List.find?_eq_none.1 hf p hp
        simpa using this
      obtain ⟨ih1, ih2⟩ := solveRows_spec k (rows.map fun p => (p.1.tail, p.2))
        (by
          intro q hq
          obtain ⟨p, hp, rfl⟩ := List.mem_map.1 hq
          obtain ⟨a, l, e, hl'⟩ := hrow p hp
          simp [e, hl'])
        ⟨z, hz, by
          intro q hq
          obtain ⟨p, hp, rfl⟩ := List.mem_map.1 hq
          obtain ⟨a, l, e, hl'⟩ := hrow p hp
          have h1 := hs p hp
          have h2 := h0 p hp
          rw [e] at h2
          simp only [List.headD_cons] at h2
          rw [e, dot_cons, h2] at h1
          simp only [e, List.tail_cons]
          linarith⟩
      refine ⟨by simp [ih1], fun p hp => ?_⟩
      obtain ⟨a, l, e, hl'⟩ := hrow p hp
      have h2 := ih2 _ (List.mem_map.2 ⟨p, hp, rfl⟩)
      simp only [e, List.tail_cons] at h2
      rw [e, dot_cons, h2]
      ring
    | some p =>
      simp only
      have hpm := List.mem_of_find?_eq_some hf
      have hp0 : p.1.headD 0 ≠ 0 := by simpa using List.find?_some hf
      obtain ⟨a, l, e, hl'⟩ := hrow p hpm
      rw [e] at hp0
      simp only [List.headD_cons] at hp0
      have hred : ∀ q ∈ rows, ∀ (c : ℚ) (x : List ℚ), x.length = k →
          dot (reduceRow p c q).1 x = dot q.1.tail x - c * dot l x := by
        intro q hq c x hx
        obtain ⟨a', l', e', hl''⟩ := hrow q hq
        unfold reduceRow
        simp only [e, e', List.tail_cons]
        exact dot_reduce c x l' l (by omega) (by omega)
      obtain ⟨ih1, ih2⟩ := solveRows_spec k
        (rows.map fun r => reduceRow p (r.1.headD 0 / p.1.headD 0) r)
        (by
          intro q hq
          obtain ⟨r, hr, rfl⟩ := List.mem_map.1 hq
          obtain ⟨a', l', e', hl''⟩ := hrow r hr
          simp [reduceRow, e, e', hl', hl''])
        ⟨z, hz, by
          intro q hq
          obtain ⟨r, hr, rfl⟩ := List.mem_map.1 hq
          obtain ⟨a', l', e', hl''⟩ := hrow r hr
          have h1 := hs r hr
          have h2 := hs p hpm
          rw [hred r hr _ z hz]
          unfold reduceRow
          rw [e', dot_cons] at h1
          rw [e, dot_cons] at h2
          simp only [e, e', List.headD_cons, List.tail_cons]
          rw [← h1, ← h2]
          field_simp
          ring⟩
      refine ⟨by rw [List.length_cons, ih1], fun q hq => ?_⟩
      obtain ⟨a', l', e', hl''⟩ := hrow q hq
      have h1 := ih2 _ (List.mem_map.2 ⟨q, hq, rfl⟩)
      rw [hred q hq _ _ ih1] at h1
      generalize hsol : solveRows k _ = sol at h1 ih1 ⊢
      unfold reduceRow at h1
      simp only [e, e', List.headD_cons, List.tail_cons] at h1 ⊢
      rw [dot_cons]
      have h2 : a' * ((p.2 - dot l sol) / a) = a' / a * p.2 - a' / a * dot l sol := by ring
      linarith

/-- The system `(e eᵀ + Qᵀ Q) r = e`, solved by elimination. -/
def gaussSolve (Q : List (List ℚ)) : List ℚ :=
  solveRows Q.length (Q.map fun q => (Q.map fun p => 1 + dot p q, 1))

theorem dot_system (y : List ℚ) : ∀ (Q : List (List ℚ)) (r : List ℚ), r.length = Q.length →
    dot (Q.map fun p => 1 + dot p y) r = r.sum + cmb Q r y
  | [], [], _ => by simp [dot, cmb]
  | q :: Q, a :: r, h => by
    rw [List.map_cons, dot_cons, dot_system y Q r (by simpa using h), cmb_cons, List.sum_cons]
    ring

theorem gaussSolve_spec {n : ℕ} {Q : List (List ℚ)} (hlen : ∀ q ∈ Q, q.length = n) :
    Solves n Q (gaussSolve Q) := by
  obtain ⟨y, hy1, hy2⟩ := exists_solves Q hlen
  obtain ⟨h1, h2⟩ := solveRows_spec Q.length (Q.map fun q => (Q.map fun p => 1 + dot p q, 1))
    (by intro p hp; obtain ⟨q, hq, rfl⟩ := List.mem_map.1 hp; simp)
    ⟨y, hy1, by
      intro p hp
      obtain ⟨q, hq, rfl⟩ := List.mem_map.1 hp
      have h3 := hy2 q hq
      rw [dot_combine _ _ _ hlen (hlen q hq)] at h3
      simp only
      rw [dot_system q Q y hy1, h3]⟩
  refine ⟨h1, fun q hq => ?_⟩
  have h3 := h2 _ (List.mem_map.2 ⟨q, hq, rfl⟩)
  simp only at h3
  unfold gaussSolve
  rw [dot_combine _ _ _ hlen (hlen q hq), ← dot_system q Q _ h1]
  exact h3

/-- Exact numerics that can be executed. -/
def gaussNumerics : Numerics := ⟨sortIdx, gaussSolve, fun _ _ => false⟩

theorem gaussNumerics_exact (n : ℕ) : ExactNumerics gaussNumerics n :=
  ⟨fun x _ => sortIdx_spec x, fun _ _ hlen => gaussSolve_spec hlen⟩

end PSP.Theory
