import Verif.Theory.WolfeMinor
import Mathlib.Data.List.Permutation

/-!
# `min_norm_base`: the major cycles
-/

namespace PSP.Theory

open PSP.Model PSP.Spec

/-- The numerical environment is exact for vectors with `n` entries. -/
structure ExactNumerics (N : Numerics) (n : ℕ) : Prop where
  sort : ∀ x : List ℚ, x.length = n → AscendingIndexes x (N.sort x)
  solve : ∀ Q : List (List ℚ), Q ≠ [] → (∀ q ∈ Q, q.length = n) → Solves n Q (N.solve Q)

/-- The result of `edmonds_greedy` for a given order. -/
def greedyPoint (f : SF) (idx : List ℕ) : List ℚ :=
  (List.range f.size).map (greedyLoop f.val idx [] (f.val []) fun _ => 0)

/-- All results of `edmonds_greedy`. -/
def greedyPoints (f : SF) : Finset (List ℚ) :=
  (List.range f.size).permutations.toFinset.image (greedyPoint f)

theorem inBase_congr {V : Finset ℕ} {φ : Finset ℕ → ℚ} {x y : ℕ → ℚ} (h : ∀ i ∈ V, x i = y i)
    (hx : InBase V φ x) : InBase V φ y := by
  refine ⟨?_, fun S hS => ?_⟩
  · rw [← hx.1]; exact Finset.sum_congr rfl fun i hi => (h i hi).symm
  · rw [← Finset.sum_congr rfl fun i hi => h i (hS hi)]; exact hx.2 S hS

theorem inner_congr {V : Finset ℕ} {x x' y y' : ℕ → ℚ} (h : ∀ i ∈ V, x i = x' i)
    (h' : ∀ i ∈ V, y i = y' i) : inner V x y = inner V x' y' := by
  unfold inner
  exact Finset.sum_congr rfl fun i hi => by rw [h i hi, h' i hi]

theorem greedyPoint_getD (f : SF) (idx : List ℕ) {i : ℕ} (hi : i < f.size) :
    (greedyPoint f idx).getD i 0 = greedyLoop f.val idx [] (f.val []) (fun _ => 0) i := by
  rw [List.getD_eq_getElem _ _ (by simp [greedyPoint, hi])]
  simp [greedyPoint]

/-- The functor computes `φ` on all sets. -/
def Computes (f : SF) (φ : Finset ℕ → ℚ) : Prop :=
  ∀ B : List ℕ, B.Nodup → (∀ b ∈ B, b < f.size) → f.val B = φ B.toFinset

variable {f : SF} {φ : Finset ℕ → ℚ}

theorem greedyPoint_spec (hf : Computes f φ) (hφ : Submodular (Finset.range f.size) φ)
    {idx : List ℕ} (hp : idx.Perm (List.range f.size)) :
    IsGreedy (Finset.range f.size) φ idx (greedyLoop f.val idx [] (f.val []) fun _ => 0) := by
  have hnd : idx.Nodup := hp.nodup_iff.2 List.nodup_range
  refine greedy_spec hφ hnd ?_ ?_ _
  · ext i; simp [hp.mem_iff]
  · intro p s hps
    subst hps
    refine hf p (List.nodup_append.1 hnd).1 ?_
    intro b hb
    exact List.mem_range.1 (hp.mem_iff.1 (List.mem_append_left _ hb))

theorem greedyPoints_spec (hf : Computes f φ) (hφ : Submodular (Finset.range f.size) φ)
    {p : List ℚ} (hp : p ∈ greedyPoints f) :
    p.length = f.size ∧ InBase (Finset.range f.size) φ fun i => p.getD i 0 := by
  unfold greedyPoints at hp
  obtain ⟨idx, hidx, rfl⟩ := Finset.mem_image.1 hp
  rw [List.mem_toFinset, List.mem_permutations] at hidx
  refine ⟨by simp [greedyPoint], ?_⟩
  refine inBase_congr (fun i hi => ?_) (greedyPoint_spec hf hφ hidx).base
  exact (greedyPoint_getD f idx (Finset.mem_range.1 hi)).symm

/-- **Edmonds' greedy algorithm.** -/
theorem greedy_min (hf : Computes f φ) (hφ : Submodular (Finset.range f.size) φ) {x : List ℚ}
    (hx : x.length = f.size) {idx : List ℕ} (hs : AscendingIndexes x idx) {y : ℕ → ℚ}
    (hy : InBase (Finset.range f.size) φ y) :
    inner (Finset.range f.size) (fun i => x.getD i 0) (fun i => (greedyPoint f idx).getD i 0) ≤
      inner (Finset.range f.size) (fun i => x.getD i 0) y := by
  have hp : idx.Perm (List.range f.size) := by rw [← hx]; exact hs.1
  rw [inner_congr (fun _ _ => rfl) fun i hi => greedyPoint_getD f idx (Finset.mem_range.1 hi)]
  refine (greedyPoint_spec hf hφ hp).min (hp.nodup_iff.2 List.nodup_range) ?_ hs.2 hy
  ext i; simp [hp.mem_iff]

theorem greedyPoint_mem {x : List ℚ} (hx : x.length = f.size) {idx : List ℕ}
    (hs : AscendingIndexes x idx) : greedyPoint f idx ∈ greedyPoints f := by
  unfold greedyPoints
  refine Finset.mem_image.2 ⟨idx, ?_, rfl⟩
  rw [List.mem_toFinset, List.mem_permutations, ← hx]
  exact hs.1

/-! ### Convex combinations -/

theorem sum_combine {n : ℕ} (S : Finset ℕ) (hS : S ⊆ Finset.range n) :
    ∀ (Q : List (List ℚ)) (w : List ℚ), ∑ i ∈ S, (combine n Q w).getD i 0 =
      (List.zipWith (fun q c => (∑ i ∈ S, q.getD i 0) * c) Q w).sum := by
  intro Q
  induction Q with
  | nil =>
    intro w
    rw [Finset.sum_eq_zero]
    · simp
    · intro i hi
      rw [combine_getD _ _ (Finset.mem_range.1 (hS hi))]; simp
  | cons q Q ih =>
    intro w
    cases w with
    | nil =>
      rw [Finset.sum_eq_zero]
      · simp
      · intro i hi
        rw [combine_getD _ _ (Finset.mem_range.1 (hS hi))]; simp
    | cons c w =>
      rw [List.zipWith_cons_cons, List.sum_cons, ← ih w, Finset.sum_mul, ← Finset.sum_add_distrib]
      apply Finset.sum_congr rfl
      intro i hi
      rw [combine_getD _ _ (Finset.mem_range.1 (hS hi)), combine_getD _ _ (Finset.mem_range.1 (hS hi))]
      simp

theorem zip_sum_le {g : List ℚ → ℚ} {b : ℚ} : ∀ (Q : List (List ℚ)) (w : List ℚ),
    w.length = Q.length → (∀ q ∈ Q, g q ≤ b) → (∀ c ∈ w, 0 ≤ c) →
    (List.zipWith (fun q c => g q * c) Q w).sum ≤ b * w.sum := by
  intro Q
  induction Q with
  | nil =>
    intro w h _ _
    have : w = [] := List.eq_nil_of_length_eq_zero h
    subst this; simp
  | cons q Q ih =>
    intro w h hb hc
    cases w with
    | nil => simp at h
    | cons c w =>
      have := ih w (by simpa using h) (fun p hp => hb p (by simp [hp])) fun a ha => hc a (by simp [ha])
      rw [List.zipWith_cons_cons, List.sum_cons, List.sum_cons]
      have h1 := hb q (by simp)
      have h2 := hc c (by simp)
      nlinarith

theorem zip_sum_eq {g : List ℚ → ℚ} {b : ℚ} : ∀ (Q : List (List ℚ)) (w : List ℚ),
    w.length = Q.length → (∀ q ∈ Q, g q = b) →
    (List.zipWith (fun q c => g q * c) Q w).sum = b * w.sum := by
  intro Q
  induction Q with
  | nil =>
    intro w h _
    have : w = [] := List.eq_nil_of_length_eq_zero h
    subst this; simp
  | cons q Q ih =>
    intro w h hb
    cases w with
    | nil => simp at h
    | cons c w =>
      have := ih w (by simpa using h) fun p hp => hb p (by simp [hp])
      rw [List.zipWith_cons_cons, List.sum_cons, List.sum_cons, this, hb q (by simp)]
      ring

/-- Convex combinations of bases are bases. -/
theorem inBase_combine {n : ℕ} {Q : List (List ℚ)} {w : List ℚ}
    (hQ : ∀ q ∈ Q, InBase (Finset.range n) φ fun i => q.getD i 0) (hl : w.length = Q.length)
    (hs : w.sum = 1) (hw : ∀ c ∈ w, 0 ≤ c) :
    InBase (Finset.range n) φ fun i => (combine n Q w).getD i 0 := by
  refine ⟨?_, fun S hS => ?_⟩
  · rw [sum_combine _ (Finset.Subset.refl _), zip_sum_eq Q w hl (b := φ (Finset.range n) - φ ∅)
      (fun q hq => (hQ q hq).1), hs, mul_one]
  · rw [sum_combine _ hS]
    have := zip_sum_le (g := fun q => ∑ i ∈ S, q.getD i 0) (b := φ S - φ ∅) Q w hl
      (fun q hq => (hQ q hq).2 S hS) hw
    rw [hs, mul_one] at this
    exact this

/-! ### Finitely many corrals -/

/-- Lists over `G` of length at most `k`. -/
def listsOf {α : Type} [DecidableEq α] (G : Finset α) : ℕ → Finset (List α)
  | 0 => {[]}
  | k + 1 => insert [] ((G ×ˢ listsOf G k).image fun p => p.1 :: p.2)

theorem mem_listsOf {α : Type} [DecidableEq α] {G : Finset α} : ∀ {k : ℕ} {Q : List α},
    (∀ q ∈ Q, q ∈ G) → Q.length ≤ k → Q ∈ listsOf G k := by
  intro k
  induction k with
  | zero =>
    intro Q _ h
    have : Q = [] := List.eq_nil_of_length_eq_zero (by omega)
    subst this; simp [listsOf]
  | succ k ih =>
    intro Q hQ h
    cases Q with
    | nil => simp [listsOf]
    | cons q Q =>
      rw [listsOf, Finset.mem_insert]
      right
      refine Finset.mem_image.2 ⟨(q, Q), Finset.mem_product.2 ⟨hQ q (by simp), ?_⟩, rfl⟩
      exact ih (fun p hp => hQ p (by simp [hp])) (by simpa using h)

section major
variable {N : Numerics} {n : ℕ} {eps tol : ℚ}

/-- The affine coordinates that the code computes. -/
def vOf (N : Numerics) (Q : List (List ℚ)) : List ℚ := normalised (N.solve Q)

/-- The point of a corral. -/
def pointOf (N : Numerics) (n : ℕ) (Q : List (List ℚ)) : List ℚ := combine n Q (vOf N Q)

/-- The states at the start of the minor cycles. -/
def starts (N : Numerics) (f : SF) : Finset (List (List ℚ) × List ℚ) :=
  ((listsOf (greedyPoints f) f.size) ×ˢ greedyPoints f).image fun p =>
    (p.1 ++ [p.2], vOf N p.1 ++ [0])

/-- All points of corrals. -/
def candidates (N : Numerics) (f : SF) : Finset (List ℚ) :=
  (listsOf (greedyPoints f) f.size).image (pointOf N f.size)

/-- Number of candidates with smaller norm. -/
def rank (N : Numerics) (f : SF) (x : List ℚ) : ℕ :=
  (((candidates N f).image fun p => dot p p).filter (· < dot x x)).card

/-- What holds at the start of a major cycle. -/
structure MajInv (N : Numerics) (f : SF) (eps : ℚ) (Q : List (List ℚ)) (w x : List ℚ) : Prop where
  ne : Q ≠ []
  mem : ∀ q ∈ Q, q ∈ greedyPoints f
  indep : Indep f.size Q
  point : x = pointOf N f.size Q
  pos : ∀ a ∈ vOf N Q, eps < a
  weights : ∃ rest, w = vOf N Q ++ rest ∧ (∀ a ∈ rest, 0 ≤ a) ∧ Q.length + rest.length = f.size + 1

/-- What `min_norm_base` guarantees for its result, when it stops by the optimality test for `true`. -/
structure Result (N : Numerics) (f : SF) (φ : Finset ℕ → ℚ) (tol : ℚ) (x : List ℚ) (flag : Bool) :
    Prop where
  length : x.length = f.size
  cand : x ∈ candidates N f
  base : InBase (Finset.range f.size) φ fun i => x.getD i 0
  test : flag = true → dot x x - dot x (greedyPoint f (N.sort x)) < tol

theorem MajInv.base (hN : ExactNumerics N f.size) (hf : Computes f φ)
    (hφ : Submodular (Finset.range f.size) φ) (heps : 0 < eps) {Q : List (List ℚ)} {w x : List ℚ}
    (h : MajInv N f eps Q w x) : InBase (Finset.range f.size) φ fun i => x.getD i 0 := by
  have hlen : ∀ q ∈ Q, q.length = f.size := fun q hq => (greedyPoints_spec hf hφ (h.mem q hq)).1
  have hproj := (hN.solve Q h.ne hlen).proj h.ne hlen
  rw [h.point]
  exact inBase_combine (fun q hq => (greedyPoints_spec hf hφ (h.mem q hq)).2) hproj.length hproj.sum
    fun c hc => (heps.trans (h.pos c hc)).le

/-- The minor cycles start with their invariant. -/
theorem MajInv.start (hN : ExactNumerics N f.size) (hn : 0 < f.size) (hf : Computes f φ)
    (hφ : Submodular (Finset.range f.size) φ) (heps : 0 < eps)
    {Q : List (List ℚ)} {w x : List ℚ} (hI : MajInv N f eps Q w x)
    (hgap : dot x (greedyPoint f (N.sort x)) < dot x x) :
    ∃ s rest, w = vOf N Q ++ [s] ++ rest ∧ Q.length + 1 + rest.length = f.size + 1 ∧
      greedyPoint f (N.sort x) ∈ greedyPoints f ∧
      MInv f.size x Q (greedyPoint f (N.sort x)) (vOf N Q) 0 s rest ∧
      (∀ p : List ℚ, p.length = f.size →
        dot (combine f.size (Q ++ [greedyPoint f (N.sort x)]) (vOf N Q ++ [0])) p = dot x p) ∧
      Indep f.size (Q ++ [greedyPoint f (N.sort x)]) ∧
      (Q ++ [greedyPoint f (N.sort x)], vOf N Q ++ [0]) ∈ reach (vOf N) (starts N f) 0 := by
  have hlen : ∀ q ∈ Q, q.length = f.size := fun q hq => (greedyPoints_spec hf hφ (hI.mem q hq)).1
  have hproj := (hN.solve Q hI.ne hlen).proj hI.ne hlen
  have hxl : x.length = f.size := by rw [hI.point]; exact combine_length _ _ _
  have hsort := hN.sort x hxl
  set q := greedyPoint f (N.sort x) with hq
  have hqm : q ∈ greedyPoints f := greedyPoint_mem hxl hsort
  obtain ⟨hql, hqb⟩ := greedyPoints_spec hf hφ hqm
  have hQn := hI.indep.length_le
  obtain ⟨rest, hw, hrest, hrl⟩ := hI.weights
  obtain ⟨s, rest, rfl⟩ : ∃ s r, rest = s :: r := by
    cases rest with
    | nil => simp at hrl; omega
    | cons s r => exact ⟨s, r, rfl⟩
  have horth : ∀ p ∈ Q, dot x p = dot x x := by
    intro p hp
    rw [hI.point]
    exact hproj.orth p hp
  have hlen' : ∀ p ∈ Q ++ [q], p.length = f.size := by
    intro p hp
    rcases List.mem_append.1 hp with hp | hp
    · exact hlen p hp
    · rw [List.mem_singleton] at hp; rw [hp]; exact hql
  have hsame : ∀ p : List ℚ, p.length = f.size → dot (combine f.size (Q ++ [q]) (vOf N Q ++ [0])) p = dot x p := by
    intro p hp
    rw [dot_combine _ _ _ hlen' hp, cmb_append (by rw [vOf, hproj.length]), cmb_cons, cmb_nil_left,
      hI.point, pointOf, dot_combine _ _ _ hlen hp]
    ring
  have hM : MInv f.size x Q q (vOf N Q) 0 s rest := by
    refine ⟨hxl, hlen', horth, hgap, hproj.length, fun a ha => heps.trans (hI.pos a ha), le_rfl,
      hrest s (by simp), ?_, fun a ha => hrest a (by simp [ha]), Or.inl hsame⟩
    rw [add_zero]; exact hproj.sum
  have hind : Indep f.size (Q ++ [q]) := by
    refine hI.indep.snoc hn hxl (c := φ (Finset.range f.size) - φ ∅) (d := dot x x) ?_ hql hqb.1 hgap.ne
    intro p hp
    obtain ⟨h1, h2⟩ := greedyPoints_spec hf hφ (hI.mem p hp)
    exact ⟨h1, h2.1, horth p hp⟩
  have hstart : (Q ++ [q], vOf N Q ++ [0]) ∈ reach (vOf N) (starts N f) 0 :=
    Finset.mem_image.2 ⟨(Q, q), Finset.mem_product.2 ⟨mem_listsOf hI.mem hQn, hqm⟩, rfl⟩
  refine ⟨s, rest, by rw [hw]; simp, ?_, hqm, hM, hsame, hind, hstart⟩
  simp only [List.length_cons] at hrl
  omega

/-- One pass of the minor cycles keeps the invariant and makes the norm smaller. -/
theorem majorStep_spec (hN : ExactNumerics N f.size) (hn : 0 < f.size) (hf : Computes f φ)
    (hφ : Submodular (Finset.range f.size) φ) (heps : 0 < eps)
    (hsmall : SmallEps (vOf N) (reach (vOf N) (starts N f) (f.size + 1)) eps)
    {Q : List (List ℚ)} {w x : List ℚ} (hI : MajInv N f eps Q w x)
    (hgap : dot x (greedyPoint f (N.sort x)) < dot x x) :
    ∃ Q' w' x', minorCycles N f.size eps (Q.length + 2) (Q ++ [greedyPoint f (N.sort x)]) w =
        .ok (Q', w', x') ∧ MajInv N f eps Q' w' x' ∧ x' ∈ candidates N f ∧ dot x' x' < dot x x := by
  obtain ⟨s, rest, hw', hrl, hqm, hM, -, hind, hstart⟩ := hI.start hN hn hf hφ heps hgap
  have hQn := hI.indep.length_le
  set q := greedyPoint f (N.sort x) with hq
  obtain ⟨Q', rest', k1, k2, k3, k4, k5, k6, k7⟩ := minorCycles_spec hN.solve heps hsmall
    (Q.length + 2) 0 Q q (vOf N Q) 0 s rest hM hind hstart (by omega) (by omega)
  have hmem' : ∀ p ∈ Q', p ∈ greedyPoints f := by
    intro p hp
    rcases List.mem_append.1 (k2.subset hp) with hp | hp
    · exact hI.mem p hp
    · rw [List.mem_singleton] at hp; rw [hp]; exact hqm
  have hI' : MajInv N f eps Q' (vOf N Q' ++ rest') (pointOf N f.size Q') := by
    refine ⟨k3, hmem', hind.sublist k2, rfl, k4, rest', rfl, k5, ?_⟩
    rw [k6]
    omega
  have hcand' : pointOf N f.size Q' ∈ candidates N f :=
    Finset.mem_image.2 ⟨Q', mem_listsOf hmem' (hind.sublist k2).length_le, rfl⟩
  refine ⟨Q', _, _, by rw [hw']; exact k1, hI', hcand', k7⟩

theorem majorCycles_spec (hN : ExactNumerics N f.size) (hn : 0 < f.size) (hf : Computes f φ)
    (hφ : Submodular (Finset.range f.size) φ) (heps : 0 < eps) (htol : 0 < tol)
    (hsmall : SmallEps (vOf N) (reach (vOf N) (starts N f) (f.size + 1)) eps) :
    ∀ (fuel : ℕ) (Q : List (List ℚ)) (w x : List ℚ) (prev : Option ℚ) (stuck : ℕ),
      MajInv N f eps Q w x → rank N f x < fuel →
      (∃ x' flag, majorCycles N f tol eps fuel Q w x prev stuck = .ok (x', flag) ∧
        Result N f φ tol x' flag) ∨
      (majorCycles N f tol eps fuel Q w x prev stuck =
          .exc "Try to set a higher functional tolerance." ∧ ∃ k Q', N.throws k Q' = true) := by
  intro fuel
  induction fuel with
  | zero => intro Q w x prev stuck _ h; omega
  | succ fuel ih =>
    intro Q w x prev stuck hI hr
    have hlen : ∀ q ∈ Q, q.length = f.size := fun q hq => (greedyPoints_spec hf hφ (hI.mem q hq)).1
    have hproj := (hN.solve Q hI.ne hlen).proj hI.ne hlen
    have hxl : x.length = f.size := by rw [hI.point]; exact combine_length _ _ _
    have hbase := hI.base hN hf hφ heps
    have hsort := hN.sort x hxl
    set q := greedyPoint f (N.sort x) with hq
    have hqm : q ∈ greedyPoints f := greedyPoint_mem hxl hsort
    obtain ⟨hql, hqb⟩ := greedyPoints_spec hf hφ hqm
    have hmin := greedy_min hf hφ hxl hsort hbase
    rw [← dot_inner hxl hql, ← dot_inner hxl hxl] at hmin
    have hQn := hI.indep.length_le
    have hcand : x ∈ candidates N f :=
      Finset.mem_image.2 ⟨Q, mem_listsOf hI.mem hQn, hI.point.symm⟩
    have hgreedy : edmondsGreedy f x (N.sort x) = .ok q := by
      unfold edmondsGreedy
      rw [if_neg (by rw [hxl]; simp)]
      rfl
    have habs : |dot x q - dot x x| = dot x x - dot x q := by
      rw [abs_of_nonpos (by linarith)]; ring
    unfold majorCycles
    rw [hgreedy]
    simp only [Outcome.ok_bind]
    rw [habs]
    by_cases hopt : dot x x - dot x q < tol
    · rw [if_pos hopt]
      exact Or.inl ⟨x, true, rfl, hxl, hcand, hbase, fun _ => hopt⟩
    rw [if_neg hopt]
    by_cases hst : isStuck prev (dot x x - dot x q) = true ∧
        (if isStuck prev (dot x x - dot x q) = true then stuck + 1 else 0) > 100
    · rw [if_pos hst]
      exact Or.inl ⟨x, false, rfl, hxl, hcand, hbase, by simp⟩
    rw [if_neg hst, if_neg (by omega)]
    by_cases hthrow : N.throws fuel (Q ++ [q]) = true
    · right
      rw [if_pos hthrow]
      exact ⟨rfl, _, _, hthrow⟩
    rw [if_neg hthrow]
    have hgap : dot x q < dot x x := by linarith
    obtain ⟨Q', w', x', k1, hI', hcand', k7⟩ := majorStep_spec hN hn hf hφ heps hsmall hI hgap
    rw [k1]
    simp only [Outcome.ok_bind]
    refine ih Q' _ _ _ _ hI' ?_
    have hlt : rank N f x' < rank N f x := by
      apply Finset.card_lt_card
      rw [Finset.ssubset_iff_of_subset]
      · refine ⟨dot x' x', ?_, ?_⟩
        · rw [Finset.mem_filter]
          exact ⟨Finset.mem_image.2 ⟨_, hcand', rfl⟩, k7⟩
        · rw [Finset.mem_filter]
          exact fun h => absurd h.2 (lt_irrefl _)
      · intro a ha
        rw [Finset.mem_filter] at ha ⊢
        exact ⟨ha.1, ha.2.trans k7⟩
    exact lt_of_lt_of_le hlt (by omega)

/-- `x` minimises up to `tol`. -/
theorem Result.near {x : List ℚ} {flag : Bool} (hN : ExactNumerics N f.size) (hf : Computes f φ)
    (hφ : Submodular (Finset.range f.size) φ) (h : Result N f φ tol x flag) (hflag : flag = true)
    {y : ℕ → ℚ} (hy : InBase (Finset.range f.size) φ y) :
    inner (Finset.range f.size) (fun i => x.getD i 0) (fun i => x.getD i 0) <
      inner (Finset.range f.size) (fun i => x.getD i 0) y + tol := by
  have h1 := h.test hflag
  have h2 := greedy_min hf hφ h.length (hN.sort x h.length) hy
  rw [dot_inner h.length h.length, dot_inner h.length
    (greedyPoints_spec hf hφ (greedyPoint_mem h.length (hN.sort x h.length))).1] at h1
  linarith

/-- The start of the major cycles. -/
theorem minNormBase_begin (hN : ExactNumerics N f.size) (hn : 2 ≤ f.size) (hf : Computes f φ)
    (hφ : Submodular (Finset.range f.size) φ) (fuel : ℕ) :
    ∃ x0, x0 ∈ greedyPoints f ∧ vOf N [x0] = [1] ∧
      (eps < 1 → MajInv N f eps [x0] (1 :: List.replicate f.size 0) x0) ∧
      minNormBase N f tol eps fuel =
        majorCycles N f tol eps fuel [x0] (1 :: List.replicate f.size 0) x0 none 0 ∧
      edmondsGreedy f (List.replicate f.size 1) (N.sort (List.replicate f.size 1)) = .ok x0 := by
  have hol : (List.replicate f.size (1 : ℚ)).length = f.size := by simp
  have hos := hN.sort _ hol
  set x0 := greedyPoint f (N.sort (List.replicate f.size 1)) with hx0
  have hx0m : x0 ∈ greedyPoints f := greedyPoint_mem hol hos
  obtain ⟨hx0l, hx0b⟩ := greedyPoints_spec hf hφ hx0m
  have hgreedy : edmondsGreedy f (List.replicate f.size 1) (N.sort (List.replicate f.size 1)) =
      .ok x0 := by
    unfold edmondsGreedy
    rw [if_neg (by rw [hol]; simp)]
    rfl
  have hlen1 : ∀ q ∈ [x0], q.length = f.size := by
    intro q hq; rw [List.mem_singleton] at hq; rw [hq]; exact hx0l
  have hproj := (hN.solve [x0] (by simp) hlen1).proj (by simp) hlen1
  have hv1 : vOf N [x0] = [1] := by
    obtain ⟨a, ha⟩ : ∃ a, vOf N [x0] = [a] := by
      have := hproj.length
      simp only [List.length_singleton] at this
      exact List.length_eq_one_iff.1 this
    have hs := hproj.sum
    rw [vOf] at ha ⊢
    rw [ha] at hs ⊢
    simp only [List.sum_cons, List.sum_nil, add_zero] at hs
    rw [hs]
  have hpt : x0 = pointOf N f.size [x0] := by
    rw [pointOf, hv1]
    apply List.ext_getElem
    · rw [combine_length, hx0l]
    · intro i h1 h2
      rw [hx0l] at h1
      rw [← List.getD_eq_getElem _ 0 h2, combine_getD _ _ h1, ← List.getD_eq_getElem x0 0 (by omega)]
      simp
  have hI : eps < 1 → MajInv N f eps [x0] (1 :: List.replicate f.size 0) x0 := by
    intro heps1
    refine ⟨by simp, by simpa using hx0m, indep_single (by omega) _, hpt, ?_,
      List.replicate f.size 0, by rw [hv1]; rfl, ?_, by simp; omega⟩
    · rw [hv1]; simpa using heps1
    · intro a ha; rw [List.eq_of_mem_replicate ha]
  have hrun : minNormBase N f tol eps fuel =
      majorCycles N f tol eps fuel [x0] (1 :: List.replicate f.size 0) x0 none 0 := by
    unfold minNormBase
    rw [if_neg (by omega), if_neg (by omega)]
    dsimp only
    rw [hgreedy]
    rfl
  exact ⟨x0, hx0m, hv1, hI, hrun, hgreedy⟩

theorem minNormBase_start' (hN : ExactNumerics N f.size) (hn : 2 ≤ f.size) (hf : Computes f φ)
    (hφ : Submodular (Finset.range f.size) φ)
    (hsmall : SmallEps (vOf N) (reach (vOf N) (starts N f) (f.size + 1)) eps) (fuel : ℕ) :
    ∃ x0, MajInv N f eps [x0] (1 :: List.replicate f.size 0) x0 ∧
      minNormBase N f tol eps fuel =
        majorCycles N f tol eps fuel [x0] (1 :: List.replicate f.size 0) x0 none 0 ∧
      edmondsGreedy f (List.replicate f.size 1) (N.sort (List.replicate f.size 1)) = .ok x0 := by
  obtain ⟨x0, hx0m, hv1, hI, hrun, hgreedy⟩ := minNormBase_begin (tol := tol) hN hn hf hφ fuel
  refine ⟨x0, hI ?_, hrun, hgreedy⟩
  have := (hsmall ([] ++ [x0], vOf N [] ++ [0]) (reach_mono _ _ (Nat.zero_le _)
    (Finset.mem_image.2 ⟨([], x0), Finset.mem_product.2 ⟨mem_listsOf (by simp) (by simp), hx0m⟩,
      rfl⟩))).1 1
  rw [List.nil_append, hv1] at this
  exact this (by simp) (by norm_num)

theorem minNormBase_start (hN : ExactNumerics N f.size) (hn : 2 ≤ f.size) (hf : Computes f φ)
    (hφ : Submodular (Finset.range f.size) φ)
    (hsmall : SmallEps (vOf N) (reach (vOf N) (starts N f) (f.size + 1)) eps) (fuel : ℕ) :
    ∃ x0, MajInv N f eps [x0] (1 :: List.replicate f.size 0) x0 ∧
      minNormBase N f tol eps fuel =
        majorCycles N f tol eps fuel [x0] (1 :: List.replicate f.size 0) x0 none 0 := by
  obtain ⟨x0, h1, h2, _⟩ := minNormBase_start' (tol := tol) hN hn hf hφ hsmall fuel
  exact ⟨x0, h1, h2⟩

theorem minNormBase_spec (hN : ExactNumerics N f.size) (hn : 2 ≤ f.size) (hf : Computes f φ)
    (hφ : Submodular (Finset.range f.size) φ) :
    ∃ e t0 : ℚ, 0 < e ∧ 0 < t0 ∧ ∀ eps tol fuel, 0 < eps → eps ≤ e → 0 < tol →
      (candidates N f).card < fuel →
      (∃ x flag, minNormBase N f tol eps fuel = .ok (x, flag) ∧ Result N f φ tol x flag ∧
        (flag = true → tol ≤ t0 → IsMinNorm (Finset.range f.size) φ fun i => x.getD i 0)) ∨
      (minNormBase N f tol eps fuel = .exc "Try to set a higher functional tolerance." ∧
        ∃ k Q', N.throws k Q' = true) := by
  obtain ⟨e, he, hsm⟩ := exists_smallEps (vOf N) (reach (vOf N) (starts N f) (f.size + 1))
  obtain ⟨t0, ht0, hT⟩ := exists_below ((candidates N f).image fun x =>
    dot x x - dot x (greedyPoint f (N.sort x)))
  refine ⟨e, t0, he, ht0, ?_⟩
  intro eps tol fuel heps hle htol hK
  have hsmall := hsm eps hle
  obtain ⟨x0, hI, hrun⟩ := minNormBase_start (tol := tol) hN hn hf hφ hsmall fuel
  have hrank : rank N f x0 ≤ (candidates N f).card :=
    (Finset.card_filter_le _ _).trans Finset.card_image_le
  rw [hrun]
  rcases majorCycles_spec hN (by omega) hf hφ heps htol hsmall fuel [x0] _ x0 none 0 hI
    (by omega) with ⟨x, flag, h1, h2⟩ | h
  · refine Or.inl ⟨x, flag, h1, h2, fun hflag hle' => ⟨h2.base, fun y hy => ?_⟩⟩
    have h3 := h2.test hflag
    have h4 : dot x x - dot x (greedyPoint f (N.sort x)) ≤ 0 := by
      by_contra hcon
      rw [not_le] at hcon
      have := hT _ (Finset.mem_image.2 ⟨x, h2.cand, rfl⟩) hcon
      linarith
    have h5 := greedy_min hf hφ h2.length (hN.sort x h2.length) hy
    rw [dot_inner h2.length h2.length, dot_inner h2.length
      (greedyPoints_spec hf hφ (greedyPoint_mem h2.length (hN.sort x h2.length))).1] at h4
    linarith
  · exact Or.inr h

end major

end PSP.Theory
