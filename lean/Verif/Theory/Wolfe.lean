import Verif.Theory.Greedy
import Mathlib.Data.List.GetD
import Mathlib.LinearAlgebra.LinearIndependent.Lemmas
import Mathlib.LinearAlgebra.Dimension.Constructions
import Mathlib.LinearAlgebra.Dimension.StrongRankCondition
import Mathlib.LinearAlgebra.Dimension.Finite

/-!
# `min_norm_base`: vectors, affine projections, independence of the corral
-/

namespace PSP.Theory

open PSP.Model PSP.Spec

/-! ### Inner products of lists -/

theorem dot_comm (x y : List ℚ) : dot x y = dot y x := by
  unfold dot
  rw [List.zipWith_comm]
  congr 1
  congr 1
  funext a b
  exact mul_comm _ _

theorem dot_eq : ∀ (x y : List ℚ) (n : ℕ), x.length = n → y.length = n →
    dot x y = ∑ i ∈ Finset.range n, x.getD i 0 * y.getD i 0 := by
  intro x
  induction x with
  | nil =>
    intro y n hx hy
    simp only [List.length_nil] at hx
    subst hx
    simp [dot]
  | cons a x ih =>
    intro y n hx hy
    cases y with
    | nil => simp only [List.length_nil, List.length_cons] at hx hy; omega
    | cons b y =>
      simp only [List.length_cons] at hx hy
      obtain ⟨m, rfl⟩ : ∃ m, n = m + 1 := ⟨n - 1, by omega⟩
      rw [Finset.sum_range_succ']
      have := ih y m (by omega) (by omega)
      simp only [dot, List.zipWith_cons_cons, List.sum_cons, List.getD_cons_succ,
        List.getD_cons_zero] at this ⊢
      rw [this]; ring

theorem dot_inner {x y : List ℚ} {n : ℕ} (hx : x.length = n) (hy : y.length = n) :
    dot x y = inner (Finset.range n) (fun i => x.getD i 0) fun i => y.getD i 0 :=
  dot_eq x y n hx hy

theorem dot_sub_sq {x y : List ℚ} {n : ℕ} (hx : x.length = n) (hy : y.length = n) :
    dot x x - 2 * dot x y + dot y y =
      ∑ i ∈ Finset.range n, (x.getD i 0 - y.getD i 0) ^ 2 := by
  rw [dot_eq x x n hx hx, dot_eq x y n hx hy, dot_eq y y n hy hy, Finset.mul_sum,
    ← Finset.sum_sub_distrib, ← Finset.sum_add_distrib]
  apply Finset.sum_congr rfl
  intro i _
  ring

theorem dot_sub_nonneg {x y : List ℚ} {n : ℕ} (hx : x.length = n) (hy : y.length = n) :
    0 ≤ dot x x - 2 * dot x y + dot y y := by
  rw [dot_sub_sq hx hy]
  exact Finset.sum_nonneg fun i _ => sq_nonneg _

theorem dot_sub_zero {x y : List ℚ} {n : ℕ} (hx : x.length = n) (hy : y.length = n)
    (h : dot x x - 2 * dot x y + dot y y ≤ 0) {p : List ℚ} (hp : p.length = n) :
    dot x p = dot y p := by
  rw [dot_sub_sq hx hy] at h
  have h0 := (Finset.sum_eq_zero_iff_of_nonneg fun i _ => sq_nonneg (x.getD i 0 - y.getD i 0)).1
    (le_antisymm h (Finset.sum_nonneg fun i _ => sq_nonneg _))
  rw [dot_eq x p n hx hp, dot_eq y p n hy hp]
  apply Finset.sum_congr rfl
  intro i hi
  have := pow_eq_zero_iff (two_ne_zero) |>.1 (h0 i hi)
  rw [sub_eq_zero.1 this]

/-- `∑ c_q ⟨q, y⟩`. -/
def cmb (Q : List (List ℚ)) (w : List ℚ) (y : List ℚ) : ℚ :=
  (List.zipWith (fun q c => dot q y * c) Q w).sum

theorem combine_length (n : ℕ) (Q : List (List ℚ)) (w : List ℚ) : (combine n Q w).length = n := by
  simp [combine]

theorem combine_getD {n : ℕ} (Q : List (List ℚ)) (w : List ℚ) {i : ℕ} (hi : i < n) :
    (combine n Q w).getD i 0 = (List.zipWith (fun q c => q.getD i 0 * c) Q w).sum := by
  rw [List.getD_eq_getElem _ _ (by rw [combine_length]; exact hi)]
  simp [combine]

theorem dot_combine {n : ℕ} : ∀ (Q : List (List ℚ)) (w y : List ℚ), (∀ q ∈ Q, q.length = n) →
    y.length = n → dot (combine n Q w) y = cmb Q w y := by
  intro Q
  induction Q with
  | nil =>
    intro w y _ hy
    rw [dot_eq _ _ n (combine_length _ _ _) hy]
    have : ∑ i ∈ Finset.range n, (combine n [] w).getD i 0 * y.getD i 0 = 0 := by
      apply Finset.sum_eq_zero
      intro i hi
      rw [combine_getD _ _ (Finset.mem_range.1 hi)]
      simp
    rw [this]; simp [cmb]
  | cons q Q ih =>
    intro w y hQ hy
    cases w with
    | nil =>
      rw [dot_eq _ _ n (combine_length _ _ _) hy]
      have : ∑ i ∈ Finset.range n, (combine n (q :: Q) []).getD i 0 * y.getD i 0 = 0 := by
        apply Finset.sum_eq_zero
        intro i hi
        rw [combine_getD _ _ (Finset.mem_range.1 hi)]
        simp
      rw [this]; simp [cmb]
    | cons c w =>
      have h1 := ih w y (fun p hp => hQ p (by simp [hp])) hy
      rw [dot_eq _ _ n (combine_length _ _ _) hy] at h1 ⊢
      have h2 : cmb (q :: Q) (c :: w) y = dot q y * c + cmb Q w y := by simp [cmb]
      rw [h2, ← h1, dot_eq q y n (hQ q (by simp)) hy, Finset.sum_mul, ← Finset.sum_add_distrib]
      apply Finset.sum_congr rfl
      intro i hi
      rw [combine_getD _ _ (Finset.mem_range.1 hi), combine_getD _ _ (Finset.mem_range.1 hi)]
      simp only [List.zipWith_cons_cons, List.sum_cons]
      ring

theorem cmb_nil_left (w y : List ℚ) : cmb [] w y = 0 := by simp [cmb]
theorem cmb_nil_right (Q : List (List ℚ)) (y : List ℚ) : cmb Q [] y = 0 := by simp [cmb]
theorem cmb_cons (q : List ℚ) (Q : List (List ℚ)) (c : ℚ) (w y : List ℚ) :
    cmb (q :: Q) (c :: w) y = dot q y * c + cmb Q w y := by simp [cmb]

theorem cmb_append {Q Q' : List (List ℚ)} {w w' y : List ℚ} (h : Q.length = w.length) :
    cmb (Q ++ Q') (w ++ w') y = cmb Q w y + cmb Q' w' y := by
  unfold cmb
  rw [List.zipWith_append h, List.sum_append]

theorem cmb_const {y : List ℚ} {c : ℚ} : ∀ (Q : List (List ℚ)) (w : List ℚ),
    Q.length = w.length → (∀ q ∈ Q, dot q y = c) → cmb Q w y = c * w.sum := by
  intro Q
  induction Q with
  | nil =>
    intro w h _
    have : w = [] := List.eq_nil_of_length_eq_zero h.symm
    subst this; simp [cmb]
  | cons q Q ih =>
    intro w h hc
    cases w with
    | nil => simp at h
    | cons a w =>
      rw [cmb_cons, hc q (by simp), ih w (by simpa using h) fun p hp => hc p (by simp [hp]),
        List.sum_cons]
      ring

theorem cmb_mix (y : List ℚ) (t : ℚ) : ∀ (Q : List (List ℚ)) (w v : List ℚ),
    Q.length = w.length → Q.length = v.length →
    cmb Q (List.zipWith (fun a b => (1 - t) * a + t * b) w v) y =
      (1 - t) * cmb Q w y + t * cmb Q v y := by
  intro Q
  induction Q with
  | nil => intro w v _ _; simp [cmb]
  | cons q Q ih =>
    intro w v hw hv
    cases w with
    | nil => simp at hw
    | cons a w =>
      cases v with
      | nil => simp at hv
      | cons b v =>
        rw [List.zipWith_cons_cons, cmb_cons, cmb_cons, cmb_cons,
          ih w v (by simpa using hw) (by simpa using hv)]
        ring

theorem sum_mix (t : ℚ) : ∀ (w v : List ℚ), w.length = v.length →
    (List.zipWith (fun a b => (1 - t) * a + t * b) w v).sum = (1 - t) * w.sum + t * v.sum := by
  intro w
  induction w with
  | nil =>
    intro v h
    have : v = [] := List.eq_nil_of_length_eq_zero h.symm
    subst this; simp
  | cons a w ih =>
    intro v h
    cases v with
    | nil => simp at h
    | cons b v =>
      rw [List.zipWith_cons_cons, List.sum_cons, List.sum_cons, List.sum_cons,
        ih v (by simpa using h)]
      ring

/-- Dropping columns whose weight is zero. -/
theorem cmb_filter (y : List ℚ) (pr : List ℚ × ℚ → Bool) : ∀ (Q : List (List ℚ)) (w : List ℚ),
    (∀ p ∈ List.zip Q w, pr p = false → p.2 = 0) →
    cmb (((List.zip Q w).filter pr).map Prod.fst) (((List.zip Q w).filter pr).map Prod.snd) y =
      cmb Q w y := by
  intro Q
  induction Q with
  | nil => intro w _; simp [cmb]
  | cons q Q ih =>
    intro w h
    cases w with
    | nil => simp [cmb]
    | cons a w =>
      have ih' := ih w fun p hp => h p (by simp [hp])
      rw [List.zip_cons_cons, List.filter_cons, cmb_cons]
      by_cases hp : pr (q, a) = true
      · rw [if_pos hp, List.map_cons, List.map_cons, cmb_cons, ih']
      · rw [if_neg hp, ih']
        have := h (q, a) (by simp) (by simpa using hp)
        simp only at this
        rw [this]; ring

theorem sum_filter (pr : List ℚ × ℚ → Bool) : ∀ (Q : List (List ℚ)) (w : List ℚ),
    Q.length = w.length → (∀ p ∈ List.zip Q w, pr p = false → p.2 = 0) →
    (((List.zip Q w).filter pr).map Prod.snd).sum = w.sum := by
  intro Q
  induction Q with
  | nil =>
    intro w h _
    have : w = [] := List.eq_nil_of_length_eq_zero h.symm
    subst this; simp
  | cons q Q ih =>
    intro w hl h
    cases w with
    | nil => simp at hl
    | cons a w =>
      have ih' := ih w (by simpa using hl) fun p hp => h p (by simp [hp])
      rw [List.zip_cons_cons, List.filter_cons, List.sum_cons]
      by_cases hp : pr (q, a) = true
      · rw [if_pos hp, List.map_cons, List.sum_cons, ih']
      · rw [if_neg hp, ih']
        have := h (q, a) (by simp) (by simpa using hp)
        simp only at this
        rw [this]; ring

/-! ### The projection of the origin to the affine hull -/

/-- `r` solves `(e eᵀ + Qᵀ Q) r = e` (AIC.hpp:118). -/
def Solves (n : ℕ) (Q : List (List ℚ)) (r : List ℚ) : Prop :=
  r.length = Q.length ∧ ∀ q ∈ Q, r.sum + dot (combine n Q r) q = 1

/-- The normalised solution (AIC.hpp:119). -/
def normalised (r : List ℚ) : List ℚ := r.map fun a => a / r.sum

theorem sum_normalised {r : List ℚ} (h : r.sum ≠ 0) : (normalised r).sum = 1 := by
  have : ∀ (l : List ℚ) (s : ℚ), (l.map fun a => a / s).sum = l.sum / s := by
    intro l s
    induction l with
    | nil => simp
    | cons a l ih => rw [List.map_cons, List.sum_cons, List.sum_cons, ih]; ring
  unfold normalised
  rw [this, div_self h]

theorem cmb_map_div (y : List ℚ) (s : ℚ) : ∀ (Q : List (List ℚ)) (r : List ℚ),
    cmb Q (r.map fun a => a / s) y = cmb Q r y / s := by
  intro Q
  induction Q with
  | nil => intro r; simp [cmb]
  | cons q Q ih =>
    intro r
    cases r with
    | nil => simp [cmb]
    | cons a r => rw [List.map_cons, cmb_cons, cmb_cons, ih]; ring

variable {n : ℕ} {Q : List (List ℚ)} {r : List ℚ}

theorem Solves.sum_ne (h : Solves n Q r) (hQ : Q ≠ []) (hlen : ∀ q ∈ Q, q.length = n) :
    r.sum ≠ 0 := by
  intro hs
  have h1 : ∀ q ∈ Q, dot q (combine n Q r) = 1 := by
    intro q hq
    have := h.2 q hq
    rw [hs, zero_add, dot_comm] at this
    exact this
  have h2 : dot (combine n Q r) (combine n Q r) = 0 := by
    rw [dot_combine Q r _ hlen (combine_length _ _ _), cmb_const Q r h.1.symm h1, hs]
    ring
  obtain ⟨q, hq⟩ := List.exists_mem_of_ne_nil _ hQ
  have hz : (List.replicate n (0 : ℚ)).length = n := by simp
  have hz0 : ∀ p : List ℚ, p.length = n → dot (List.replicate n (0 : ℚ)) p = 0 := by
    intro p hp
    rw [dot_eq _ _ n hz hp]
    apply Finset.sum_eq_zero
    intro i hi
    rw [List.getD_replicate _ (Finset.mem_range.1 hi)]
    ring
  have h3 := dot_sub_zero (x := combine n Q r) (y := List.replicate n 0) (combine_length _ _ _) hz
    (by rw [h2, dot_comm (combine n Q r), hz0 _ (combine_length _ _ _), hz0 _ hz]; norm_num)
    (hlen q hq)
  rw [hz0 q (hlen q hq), dot_comm, h1 q hq] at h3
  norm_num at h3

/-- `v` are affine coordinates of the projection of the origin. -/
structure Proj (n : ℕ) (Q : List (List ℚ)) (v : List ℚ) : Prop where
  length : v.length = Q.length
  sum : v.sum = 1
  orth : ∀ q ∈ Q, dot (combine n Q v) q = dot (combine n Q v) (combine n Q v)

theorem Solves.proj (h : Solves n Q r) (hQ : Q ≠ []) (hlen : ∀ q ∈ Q, q.length = n) :
    Proj n Q (normalised r) := by
  have hs := h.sum_ne hQ hlen
  have hl : (normalised r).length = Q.length := by rw [normalised, List.length_map, h.1]
  have hd : ∀ p : List ℚ, p.length = n →
      dot (combine n Q (normalised r)) p = dot (combine n Q r) p / r.sum := by
    intro p hp
    rw [dot_combine Q _ p hlen hp, dot_combine Q r p hlen hp]
    exact cmb_map_div p r.sum Q r
  have h1 : ∀ q ∈ Q, dot (combine n Q (normalised r)) q = (1 - r.sum) / r.sum := by
    intro q hq
    rw [hd q (hlen q hq)]
    congr 1
    linarith [h.2 q hq]
  refine ⟨hl, sum_normalised hs, fun q hq => ?_⟩
  rw [h1 q hq, dot_combine Q _ _ hlen (combine_length _ _ _),
    cmb_const Q _ hl.symm (c := (1 - r.sum) / r.sum), sum_normalised hs, mul_one]
  intro p hp
  rw [dot_comm]
  exact h1 p hp

/-- The projection is orthogonal to the affine hull. -/
theorem Proj.dot_eq {v w : List ℚ} (h : Proj n Q v) (hlen : ∀ q ∈ Q, q.length = n)
    (hw : w.length = Q.length) (hs : w.sum = 1) :
    dot (combine n Q w) (combine n Q v) = dot (combine n Q v) (combine n Q v) := by
  rw [dot_combine Q w _ hlen (combine_length _ _ _), cmb_const Q w hw.symm
    (c := dot (combine n Q v) (combine n Q v)), hs, mul_one]
  intro q hq
  rw [dot_comm]
  exact h.orth q hq

theorem Proj.le {v w : List ℚ} (h : Proj n Q v) (hlen : ∀ q ∈ Q, q.length = n)
    (hw : w.length = Q.length) (hs : w.sum = 1) :
    dot (combine n Q v) (combine n Q v) ≤ dot (combine n Q w) (combine n Q w) := by
  have h1 := h.dot_eq hlen hw hs
  have h2 := dot_sub_nonneg (combine_length n Q w) (combine_length n Q v)
  rw [h1] at h2
  linarith

/-! ### Independence -/

/-- A point with the coordinate 0 replaced by 1. -/
def pvec (n : ℕ) (q : List ℚ) : Fin n → ℚ := fun i => if (i : ℕ) = 0 then 1 else q.getD i 0

/-- The points are different and affinely independent within the hyperplane of constant coordinate
sum. -/
def Indep (n : ℕ) (Q : List (List ℚ)) : Prop :=
  Q.Nodup ∧ LinearIndepOn ℚ (pvec n) {p | p ∈ Q}

theorem Indep.length_le (h : Indep n Q) : Q.length ≤ n := by
  have hfin : Fintype {p | p ∈ Q} := by
    have : {p | p ∈ Q} = (↑Q.toFinset : Set (List ℚ)) := by ext; simp
    rw [this]; infer_instance
  have h2 := LinearIndependent.fintype_card_le_finrank (R := ℚ) h.2
  rw [Module.finrank_fin_fun] at h2
  have h3 : Fintype.card {p | p ∈ Q} = Q.toFinset.card := by
    rw [Fintype.card_of_finset' Q.toFinset]
    intro x; simp
  rw [h3, List.toFinset_card_of_nodup h.1] at h2
  exact h2

theorem Indep.sublist {Q' : List (List ℚ)} (h : Indep n Q) (hs : Q'.Sublist Q) : Indep n Q' :=
  ⟨h.1.sublist hs, h.2.mono fun _ hp => hs.subset hp⟩

theorem indep_single (hn : 0 < n) (q : List ℚ) : Indep n [q] := by
  refine ⟨by simp, ?_⟩
  have : {p | p ∈ [q]} = ({q} : Set (List ℚ)) := by ext; simp
  rw [this]
  apply LinearIndepOn.singleton
  intro h0
  have := congrFun h0 ⟨0, hn⟩
  simp [pvec] at this

/-- A point on the other side of the hyperplane through the corral is independent of it. -/
theorem Indep.snoc (hn : 0 < n) (h : Indep n Q) {x q : List ℚ} {c d : ℚ} (hx : x.length = n)
    (hQ : ∀ p ∈ Q, p.length = n ∧ ∑ i ∈ Finset.range n, p.getD i 0 = c ∧ dot x p = d)
    (hq : q.length = n) (hqc : ∑ i ∈ Finset.range n, q.getD i 0 = c) (hqd : dot x q ≠ d) :
    Indep n (Q ++ [q]) := by
  -- the functional
  let l : (Fin n → ℚ) →ₗ[ℚ] ℚ := ∑ i : Fin n, (if (i : ℕ) = 0 then x.getD 0 0 * c - d
    else x.getD i 0 - x.getD 0 0) • LinearMap.proj i
  have hl : ∀ p : List ℚ, p.length = n → ∑ i ∈ Finset.range n, p.getD i 0 = c →
      l (pvec n p) = dot x p - d := by
    intro p hp hpc
    have e1 : l (pvec n p) = ∑ i : Fin n, (if (i : ℕ) = 0 then x.getD 0 0 * c - d
        else x.getD i 0 - x.getD 0 0) * pvec n p i := by
      simp only [l, LinearMap.sum_apply, LinearMap.smul_apply, LinearMap.proj_apply, smul_eq_mul]
    rw [e1, dot_eq x p n hx hp]
    obtain ⟨m, rfl⟩ : ∃ m, n = m + 1 := ⟨n - 1, by omega⟩
    rw [Finset.sum_range_succ'] at hpc ⊢
    rw [Fin.sum_univ_succ]
    simp only [pvec, Fin.val_zero, if_true, Fin.val_succ, Nat.add_eq_zero_iff, one_ne_zero,
      and_false, if_false]
    rw [Fin.sum_univ_eq_sum_range (fun i => (x.getD (i + 1) 0 - x.getD 0 0) * p.getD (i + 1) 0) m]
    simp only [sub_mul, Finset.sum_sub_distrib, ← Finset.mul_sum]
    have hp0 : ∑ k ∈ Finset.range m, p.getD (k + 1) 0 = c - p.getD 0 0 := by linarith
    rw [hp0]; ring
  have hker : Submodule.span ℚ (pvec n '' {p | p ∈ Q}) ≤ LinearMap.ker l := by
    rw [Submodule.span_le]
    rintro _ ⟨p, hp, rfl⟩
    obtain ⟨h1, h2, h3⟩ := hQ p hp
    simp only [SetLike.mem_coe, LinearMap.mem_ker]
    rw [hl p h1 h2, h3, sub_self]
  constructor
  · rw [List.nodup_append]
    refine ⟨h.1, by simp, ?_⟩
    intro a ha b hb hab
    rw [List.mem_singleton] at hb
    subst hb hab
    exact hqd (hQ _ ha).2.2
  · have : {p | p ∈ Q ++ [q]} = insert q {p | p ∈ Q} := by ext; simp [or_comm]
    rw [this]
    apply h.2.insert
    intro hmem
    have := LinearMap.mem_ker.1 (hker hmem)
    rw [hl q hq hqc] at this
    exact hqd (by linarith)

end PSP.Theory
