import Verif.Model.RoundedAIC
import Verif.Theory.WolfeAgg
import Mathlib.Tactic.Positivity
import Mathlib.Data.List.GetD

/-!
# `min_norm_base` in floating-point arithmetic certifies its result
-/

namespace PSP.Theory

open PSP.Model PSP.Spec

/-- Small errors for vectors of length at most `n + 1`; numbers `a` of the format are those with `fl a = a`. Differences
of two of them up to `R` have a relative error of at most `g`. For other operations there is also an absolute error `u`,
for underflow; the sum of the numbers that the solver returns is a sum of numbers of the format. -/
structure CloseNumerics (fl : ℚ → ℚ) (N : NumericsF) (g u R : ℚ) (n : ℕ) : Prop where
  nonneg : 0 ≤ g
  small : g ≤ 1 / 16
  abs_nonneg : 0 ≤ u
  mono : Monotone fl
  zero : fl 0 = 0
  round : ∀ x, |x| ≤ 2 → |fl x - x| ≤ g * |x| + u
  sub : ∀ a b, fl a = a → fl b = b → |a| ≤ R → |b| ≤ R → |fl (a - b) - (a - b)| ≤ g * |a - b|
  dot : ∀ x y : List ℚ, x.length = y.length → x.length ≤ n + 1 → (List.zipWith (fun a b => |a * b|) x y).sum ≤ R →
    |N.dot x y - Model.dot x y| ≤ g * (List.zipWith (fun a b => |a * b|) x y).sum + u ∧ fl (N.dot x y) = N.dot x y
  comb_length : ∀ Q w, (N.comb n Q w).length = n
  comb_nil : N.comb n [] [] = List.replicate n 0
  comb : ∀ (Q : List (List ℚ)) (w : List ℚ) (i : ℕ), i < n → w.length = Q.length → Q.length ≤ n + 1 →
    (List.zipWith (fun q c => |q.getD i 0 * c|) Q w).sum ≤ R →
    |(N.comb n Q w).getD i 0 - (List.zipWith (fun q c => q.getD i 0 * c) Q w).sum| ≤
      g * (List.zipWith (fun q c => |q.getD i 0 * c|) Q w).sum + u
  solve : ∀ Q, (N.solve Q).length = Q.length
  total : ∀ Q, Q.length ≤ n + 1 →
    |N.dot (List.replicate Q.length 1) (N.solve Q) - (N.solve Q).sum| ≤ g * ((N.solve Q).map abs).sum
  sort : ∀ x : List ℚ, x.length = n → AscendingIndexes x (N.sort x)

/-- The functor returns numbers of the format up to `R`. -/
def FormatValues (fl : ℚ → ℚ) (f : SF) (R : ℚ) : Prop :=
  ∀ B : List ℕ, B.Nodup → (∀ b ∈ B, b < f.size) → fl (f.val B) = f.val B ∧ |f.val B| ≤ R

/-- The functor returns the values of `φ` up to `η`. -/
def NearlyComputes (f : SF) (φ : Finset ℕ → ℚ) (η : ℚ) : Prop :=
  ∀ B : List ℕ, B.Nodup → (∀ b ∈ B, b < f.size) → |f.val B - φ B.toFinset| ≤ η

/-- Within `ρ` of a base, in every coordinate. -/
def NearBase (n : ℕ) (φ : Finset ℕ → ℚ) (ρ : ℚ) (x : List ℚ) : Prop :=
  x.length = n ∧ ∃ y, InBase (Finset.range n) φ y ∧ ∀ i < n, |x.getD i 0 - y i| ≤ ρ

/-! ### sums of lists -/

theorem zipWith_sum {α : Type} (F : α → ℚ → ℚ) (d : α) : ∀ (Q : List α) (v : List ℚ), v.length = Q.length →
    (List.zipWith F Q v).sum = ∑ k ∈ Finset.range Q.length, F (Q.getD k d) (v.getD k 0) := by
  intro Q
  induction Q with
  | nil => intro v _; simp
  | cons q Q ih =>
    intro v hv
    cases v with
    | nil => simp at hv
    | cons c v =>
      rw [List.zipWith_cons_cons, List.sum_cons, List.length_cons, Finset.sum_range_succ', ih v (by simpa using hv)]
      simp [add_comm]

theorem list_sum_getD (v : List ℚ) : v.sum = ∑ k ∈ Finset.range v.length, v.getD k 0 := by
  induction v with
  | nil => simp
  | cons a v ih =>
    rw [List.sum_cons, List.length_cons, Finset.sum_range_succ', ih]
    simp [add_comm]

/-! ### the greedy points -/

section greedy

variable {fl : ℚ → ℚ} {f : SF} {φ : Finset ℕ → ℚ} {η g M R : ℚ}

/-- Error of a point of `edmonds_greedy`. -/
def greedyErr (M η g : ℚ) : ℚ := 2 * η + g * (M + 2 * η)

theorem greedyLoopF_close (hg : 0 ≤ g)
    (hfl : ∀ a b, fl a = a → fl b = b → |a| ≤ R → |b| ≤ R → |fl (a - b) - (a - b)| ≤ g * |a - b|)
    (hfv : FormatValues fl f R) (hf : NearlyComputes f φ η)
    (hM : ∀ S T, S ⊆ Finset.range f.size → T ⊆ Finset.range f.size → |φ S - φ T| ≤ M) :
    ∀ (is B : List ℕ) (F F' : ℚ) (x x' : ℕ → ℚ), (B ++ is).Nodup → (∀ b ∈ B ++ is, b < f.size) →
    F = f.val B → F' = φ B.toFinset → (∀ i, |x i - x' i| ≤ greedyErr M η g) → ∀ i,
    |greedyLoopF fl f.val is B F x i - greedyLoop (fun B => φ B.toFinset) is B F' x' i| ≤ greedyErr M η g := by
  intro is
  induction is with
  | nil => intro B F F' x x' _ _ _ _ h i; exact h i
  | cons j is ih =>
    intro B F F' x x' hnd hlt hF hF' h i
    have e : B ++ j :: is = (B ++ [j]) ++ is := by simp
    rw [e] at hnd hlt
    have hndB : (B ++ [j]).Nodup := (List.nodup_append.1 hnd).1
    have hltB : ∀ b ∈ B ++ [j], b < f.size := fun b hb => hlt b (List.mem_append_left _ hb)
    refine ih (B ++ [j]) _ _ _ _ hnd hlt rfl rfl ?_ i
    intro i
    by_cases hij : i = j
    · subst hij
      rw [Function.update_self, Function.update_self]
      have h1 := hf B (List.nodup_append.1 hndB).1 fun b hb => hltB b (List.mem_append_left _ hb)
      have h2 := hf (B ++ [i]) hndB hltB
      have sub : ∀ C : List ℕ, (∀ b ∈ C, b < f.size) → C.toFinset ⊆ Finset.range f.size := fun C hC b hb =>
        Finset.mem_range.2 (hC b (List.mem_toFinset.1 hb))
      have h3 := hM (B ++ [i]).toFinset B.toFinset (sub _ hltB)
        (sub _ fun b hb => hltB b (List.mem_append_left _ hb))
      rw [hF, hF']
      set z := -f.val B + f.val (B ++ [i])
      set z' := -φ B.toFinset + φ (B ++ [i]).toFinset
      have h4 : |z - z'| ≤ 2 * η := by
        rw [abs_le] at h1 h2 ⊢
        constructor <;> simp only [z, z'] <;> linarith [h1.1, h1.2, h2.1, h2.2]
      have h5 : |z'| ≤ M := by
        rw [show z' = φ (B ++ [i]).toFinset - φ B.toFinset by simp only [z']; ring]; exact h3
      have v1 := hfv B (List.nodup_append.1 hndB).1 fun b hb => hltB b (List.mem_append_left _ hb)
      have v2 := hfv (B ++ [i]) hndB hltB
      have h6 : |fl z - z| ≤ g * |z| := by
        have := hfl _ _ v2.1 v1.1 v2.2 v1.2
        rwa [show f.val (B ++ [i]) - f.val B = z by simp only [z]; ring] at this
      have h7 : |z| ≤ M + 2 * η := by
        have := abs_sub_abs_le_abs_sub z z'
        linarith
      have h8 : |fl z - z'| ≤ |fl z - z| + |z - z'| := abs_sub_le _ _ _
      have h9 : g * |z| ≤ g * (M + 2 * η) := mul_le_mul_of_nonneg_left h7 hg
      unfold greedyErr
      linarith
    · rw [Function.update_of_ne hij, Function.update_of_ne hij]
      exact h i

theorem edmondsGreedyF_close (hg : 0 ≤ g) (hη : 0 ≤ η) (hM0 : 0 ≤ M)
    (hfl : ∀ a b, fl a = a → fl b = b → |a| ≤ R → |b| ≤ R → |fl (a - b) - (a - b)| ≤ g * |a - b|)
    (hfv : FormatValues fl f R) (hf : NearlyComputes f φ η)
    (hM : ∀ S T, S ⊆ Finset.range f.size → T ⊆ Finset.range f.size → |φ S - φ T| ≤ M)
    (hφ : Submodular (Finset.range f.size) φ) {x : List ℚ} (hx : x.length = f.size) {idx : List ℕ}
    (hi : AscendingIndexes x idx) :
    ∃ q y, edmondsGreedyF fl f x idx = .ok q ∧ q.length = f.size ∧ InBase (Finset.range f.size) φ y ∧
      (∀ i < f.size, |q.getD i 0 - y i| ≤ greedyErr M η g) ∧
      ∀ z, InBase (Finset.range f.size) φ z → Spec.inner (Finset.range f.size) (fun i => x.getD i 0) y ≤
        Spec.inner (Finset.range f.size) (fun i => x.getD i 0) z := by
  let f' : SF := ⟨f.size, fun B => φ B.toFinset⟩
  have hf' : Computes f' φ := fun B _ _ => rfl
  have hp : idx.Perm (List.range f.size) := by rw [← hx]; exact hi.1
  refine ⟨(List.range f.size).map (greedyLoopF fl f.val idx [] (f.val []) fun _ => 0),
    fun i => (greedyPoint f' idx).getD i 0, ?_, ?_, ?_, ?_, ?_⟩
  · unfold edmondsGreedyF
    rw [if_neg (by rw [hx]; simp)]
  · simp
  · exact (greedyPoints_spec (f := f') hf' hφ (greedyPoint_mem (f := f') hx hi)).2
  · intro i hi'
    dsimp only
    rw [greedyPoint_getD f' idx (show i < f'.size from hi'), List.getD_eq_getElem _ _ (by simpa using hi')]
    simp only [List.getElem_map, List.getElem_range]
    refine greedyLoopF_close hg hfl hfv hf hM idx [] _ _ _ _ ?_ ?_ rfl rfl ?_ i
    · simpa using hp.nodup_iff.2 List.nodup_range
    · intro b hb
      simpa using hp.mem_iff.1 (by simpa using hb)
    · intro i
      simp only [sub_self, abs_zero]
      unfold greedyErr
      positivity
  · intro z hz
    exact greedy_min (f := f') hf' hφ hx hi hz

end greedy

/-! ### convex combinations -/

/-- The weights after the normalisation. -/
theorem weights_close {fl : ℚ → ℚ} {g u eps s : ℚ} {raw : List ℚ} (hg : 0 ≤ g) (hg1 : g ≤ 1 / 16) (hmono : Monotone fl)
    (hzero : fl 0 = 0) (hfl : ∀ x, |x| ≤ 2 → |fl x - x| ≤ g * |x| + u) (hueps : 2 * u ≤ g * eps) (heps : 0 ≤ eps) (hs : s ≠ 0) (hsum : |s - raw.sum| ≤ g * (raw.map abs).sum)
    (hv : ∀ a ∈ raw, eps < fl (a / s)) :
    (∀ a ∈ raw, 0 < fl (a / s)) ∧ |(raw.map fun a => fl (a / s)).sum - 1| ≤ 3 * g := by
  have hpos : ∀ a ∈ raw, 0 < a / s := by
    intro a ha
    by_contra hn
    rw [not_lt] at hn
    have h1 := hmono hn
    have h2 := hv a ha
    rw [hzero] at h1
    linarith
  refine ⟨fun a ha => heps.trans_lt (hv a ha), ?_⟩
  set R := (raw.map fun a => a / s).sum with hR
  have e1 : raw.sum = s * R := by
    rw [hR, ← List.sum_map_mul_left]
    congr 1
    conv_lhs => rw [← List.map_id raw]
    exact List.map_congr_left fun a _ => by field_simp; rfl
  have e2 : (raw.map abs).sum = |s| * R := by
    rw [hR, ← List.sum_map_mul_left]
    congr 1
    refine List.map_congr_left fun a ha => ?_
    have := hpos a ha
    rw [← abs_of_pos this, ← abs_mul]
    congr 1
    field_simp
  have hs' : 0 < |s| := abs_pos.2 hs
  rw [e1, e2] at hsum
  have h1 : |1 - R| ≤ g * R := by
    have : |s| * |1 - R| ≤ |s| * (g * R) := by
      rw [← abs_mul, show s * (1 - R) = s - s * R by ring]
      linarith
    exact le_of_mul_le_mul_left this hs'
  have hR0 : 0 ≤ R := by
    rw [hR]
    exact List.sum_nonneg fun b hb => by
      obtain ⟨a, ha, rfl⟩ := List.mem_map.1 hb
      exact (hpos a ha).le
  have hR2 : R ≤ 16 / 15 := by nlinarith [(abs_le.1 h1).1]
  have hle : ∀ a ∈ raw, a / s ≤ R := by
    intro a ha
    rw [hR]
    exact List.single_le_sum (fun b hb => by
      obtain ⟨a, ha, rfl⟩ := List.mem_map.1 hb
      exact (hpos a ha).le) _ (List.mem_map_of_mem ha)
  have hrel : ∀ a ∈ raw, |fl (a / s) - a / s| ≤ 8 / 5 * g * (a / s) := by
    intro a ha
    have k1 := hpos a ha
    have k2 := hfl (a / s) (by rw [abs_of_pos k1]; linarith [hle a ha])
    rw [abs_of_pos k1] at k2
    have k3 := (abs_le.1 k2).2
    have k4 := hv a ha
    have k5 : g * eps ≤ 1 / 16 * eps := mul_le_mul_of_nonneg_right hg1 heps
    have k6 : g * (a / s) ≤ 1 / 16 * (a / s) := mul_le_mul_of_nonneg_right hg1 k1.le
    have k7 : eps ≤ 6 / 5 * (a / s) := by linarith
    have k8 := mul_le_mul_of_nonneg_left k7 hg
    linarith
  have h2 : ∀ l : List ℚ, (∀ a ∈ l, a ∈ raw) →
      |(l.map fun a => fl (a / s)).sum - (l.map fun a => a / s).sum| ≤ 8 / 5 * g * (l.map fun a => a / s).sum := by
    intro l
    induction l with
    | nil => intro _; simp
    | cons a l ih =>
      intro h
      simp only [List.map_cons, List.sum_cons]
      have k1 := ih fun b hb => h b (List.mem_cons_of_mem _ hb)
      have k2 := hrel a (h a List.mem_cons_self)
      have k3 := abs_add_le (fl (a / s) - a / s) ((l.map fun a => fl (a / s)).sum - (l.map fun a => a / s).sum)
      rw [show fl (a / s) + (l.map fun a => fl (a / s)).sum - (a / s + (l.map fun a => a / s).sum) =
        fl (a / s) - a / s + ((l.map fun a => fl (a / s)).sum - (l.map fun a => a / s).sum) by ring]
      linarith
  have h3 := h2 raw fun a ha => ha
  rw [← hR] at h3
  rw [abs_le] at h1 h3 ⊢
  have : g * R ≤ g * (16 / 15) := mul_le_mul_of_nonneg_left hR2 hg
  constructor <;> linarith [h1.1, h1.2, h3.1, h3.2]

variable {n : ℕ} {φ : Finset ℕ → ℚ}

theorem inBase_convex {m : ℕ} {y : ℕ → ℕ → ℚ} {c : ℕ → ℚ} (hy : ∀ k < m, InBase (Finset.range n) φ (y k))
    (hc : ∀ k < m, 0 ≤ c k) (h1 : ∑ k ∈ Finset.range m, c k = 1) :
    InBase (Finset.range n) φ fun i => ∑ k ∈ Finset.range m, c k * y k i := by
  have key : ∀ S : Finset ℕ, ∑ i ∈ S, ∑ k ∈ Finset.range m, c k * y k i =
      ∑ k ∈ Finset.range m, c k * ∑ i ∈ S, y k i := by
    intro S
    rw [Finset.sum_comm]
    exact Finset.sum_congr rfl fun k _ => (Finset.mul_sum _ _ _).symm
  constructor
  · rw [key, Finset.sum_congr rfl fun k hk => by rw [(hy k (Finset.mem_range.1 hk)).1], ← Finset.sum_mul, h1, one_mul]
  · intro S hS
    rw [key]
    calc _ ≤ ∑ k ∈ Finset.range m, c k * (φ S - φ ∅) := Finset.sum_le_sum fun k hk =>
          mul_le_mul_of_nonneg_left ((hy k (Finset.mem_range.1 hk)).2 S hS) (hc k (Finset.mem_range.1 hk))
      _ = _ := by rw [← Finset.sum_mul, h1, one_mul]

theorem inBase_bound {M : ℚ} {y : ℕ → ℚ} (hy : InBase (Finset.range n) φ y)
    (hM : ∀ S T, S ⊆ Finset.range n → T ⊆ Finset.range n → |φ S - φ T| ≤ M) {i : ℕ} (hi : i < n) : |y i| ≤ M := by
  have him : i ∈ Finset.range n := Finset.mem_range.2 hi
  have h1 := hy.2 {i} (Finset.singleton_subset_iff.2 him)
  have h2 := hy.2 ((Finset.range n).erase i) (Finset.erase_subset _ _)
  have h3 := hy.1
  rw [← Finset.add_sum_erase _ _ him] at h3
  rw [Finset.sum_singleton] at h1
  have h4 := hM {i} ∅ (Finset.singleton_subset_iff.2 him) (Finset.empty_subset _)
  have h5 := hM (Finset.range n) ((Finset.range n).erase i) (Finset.Subset.refl _) (Finset.erase_subset _ _)
  rw [abs_le] at h4 h5 ⊢
  constructor <;> linarith [h4.1, h4.2, h5.1, h5.2]

/-- Error of a point computed from the corral. -/
def pointErr (M η g : ℚ) : ℚ := 2 * g * (M + greedyErr M η g) + 2 * greedyErr M η g + 3 * g * M

theorem comb_near {fl : ℚ → ℚ} {N : NumericsF} {g u R M η : ℚ} (hN : CloseNumerics fl N g u R n) (hη : 0 ≤ η) (hM0 : 0 ≤ M)
    (huM : 2 * u ≤ g * M) (hR : 2 * (M + greedyErr M η g) ≤ R)
    (hM : ∀ S T, S ⊆ Finset.range n → T ⊆ Finset.range n → |φ S - φ T| ≤ M) {Q : List (List ℚ)} {v : List ℚ}
    (hQ : ∀ q ∈ Q, NearBase n φ (greedyErr M η g) q) (hl : v.length = Q.length) (hQn : Q.length ≤ n + 1)
    (hv : ∀ a ∈ v, 0 < a) (h1 : |v.sum - 1| ≤ 3 * g) :
    NearBase n φ (pointErr M η g) (N.comb n Q v) := by
  have hg := hN.nonneg
  have hg1 := hN.small
  set κ := greedyErr M η g with hκ
  have hκ0 : 0 ≤ κ := by rw [hκ]; unfold greedyErr; positivity
  set m := Q.length with hm
  set σ := v.sum with hσ
  have hσ' : σ = ∑ k ∈ Finset.range m, v.getD k 0 := by rw [hσ, list_sum_getD, hl]
  have hσ1 : 1 / 2 ≤ σ ∧ σ ≤ 2 := by
    rw [abs_le] at h1
    constructor <;> linarith [h1.1, h1.2]
  have hσ0 : 0 < σ := by linarith [hσ1.1]
  have hvk : ∀ k < m, 0 ≤ v.getD k 0 := by
    intro k hk
    rw [List.getD_eq_getElem _ _ (by rw [hl]; exact hk)]
    exact (hv _ (List.getElem_mem _)).le
  have hQk : ∀ k < m, Q.getD k [] ∈ Q := by
    intro k hk
    rw [List.getD_eq_getElem _ _ hk]
    exact List.getElem_mem _
  have hch : ∀ k, ∃ y : ℕ → ℚ, k < m → InBase (Finset.range n) φ y ∧
      ∀ i < n, |(Q.getD k []).getD i 0 - y i| ≤ κ := by
    intro k
    by_cases hk : k < m
    · obtain ⟨-, y, h⟩ := hQ _ (hQk k hk)
      exact ⟨y, fun _ => h⟩
    · exact ⟨fun _ => 0, fun h => absurd h hk⟩
  choose y hy using hch
  refine ⟨hN.comb_length Q v, fun i => ∑ k ∈ Finset.range m, v.getD k 0 / σ * y k i, ?_, ?_⟩
  · apply inBase_convex (fun k hk => (hy k hk).1) (fun k hk => div_nonneg (hvk k hk) hσ0.le)
    rw [← Finset.sum_div, ← hσ', div_self hσ0.ne']
  · intro i hi
    have e := hN.comb Q v i hi hl hQn
    rw [zipWith_sum (fun (q : List ℚ) c => q.getD i 0 * c) [] Q v hl,
      zipWith_sum (fun (q : List ℚ) c => |q.getD i 0 * c|) [] Q v hl] at e
    have hσ2 : σ ≤ 19 / 16 := by linarith [(abs_le.1 h1).2]
    have hyb : ∀ k < m, |y k i| ≤ M := fun k hk => inBase_bound (hy k hk).1 hM hi
    have hqb : ∀ k < m, |(Q.getD k []).getD i 0| ≤ M + κ := by
      intro k hk
      have h2 := (hy k hk).2 i hi
      have h3 := hyb k hk
      have h4 := abs_sub_abs_le_abs_sub ((Q.getD k []).getD i 0) (y k i)
      linarith
    have e1 : ∑ k ∈ Finset.range m, |(Q.getD k []).getD i 0 * v.getD k 0| ≤ σ * (M + κ) := by
      rw [hσ', Finset.sum_mul]
      refine Finset.sum_le_sum fun k hk => ?_
      have hk := Finset.mem_range.1 hk
      rw [abs_mul, abs_of_nonneg (hvk k hk), mul_comm]
      exact mul_le_mul_of_nonneg_left (hqb k hk) (hvk k hk)
    have hσR : σ * (M + κ) ≤ R := (mul_le_mul_of_nonneg_right hσ1.2 (by linarith)).trans hR
    have e := e (e1.trans hσR)
    have e2 : |∑ k ∈ Finset.range m, (Q.getD k []).getD i 0 * v.getD k 0 -
        ∑ k ∈ Finset.range m, v.getD k 0 / σ * y k i| ≤ σ * κ + |σ - 1| * M := by
      rw [← Finset.sum_sub_distrib]
      refine (Finset.abs_sum_le_sum_abs _ _).trans ?_
      have : σ * κ + |σ - 1| * M = ∑ k ∈ Finset.range m, v.getD k 0 * (κ + |σ - 1| / σ * M) := by
        rw [← Finset.sum_mul, ← hσ']
        field_simp
      rw [this]
      refine Finset.sum_le_sum fun k hk => ?_
      have hk := Finset.mem_range.1 hk
      have t1 : (Q.getD k []).getD i 0 * v.getD k 0 - v.getD k 0 / σ * y k i =
          v.getD k 0 * (((Q.getD k []).getD i 0 - y k i) + (σ - 1) / σ * y k i) := by
        field_simp
        ring
      rw [t1, abs_mul, abs_of_nonneg (hvk k hk)]
      refine mul_le_mul_of_nonneg_left ?_ (hvk k hk)
      refine (abs_add_le _ _).trans (add_le_add ((hy k hk).2 i hi) ?_)
      rw [abs_mul, abs_div, abs_of_pos hσ0]
      exact mul_le_mul_of_nonneg_left (hyb k hk) (by positivity)
    have e3 := abs_sub_le ((N.comb n Q v).getD i 0) (∑ k ∈ Finset.range m, (Q.getD k []).getD i 0 * v.getD k 0)
      (∑ k ∈ Finset.range m, v.getD k 0 / σ * y k i)
    have e4 : g * ∑ k ∈ Finset.range m, |(Q.getD k []).getD i 0 * v.getD k 0| ≤ g * (19 / 16 * (M + κ)) := by
      refine mul_le_mul_of_nonneg_left (e1.trans ?_) hg
      exact mul_le_mul_of_nonneg_right hσ2 (by linarith)
    have e5 : σ * κ ≤ 2 * κ := mul_le_mul_of_nonneg_right hσ1.2 hκ0
    have e6 : |σ - 1| * M ≤ 3 * g * M := mul_le_mul_of_nonneg_right h1 hM0
    have e7 : 0 ≤ g * M := mul_nonneg hg hM0
    have e8 : 0 ≤ g * κ := mul_nonneg hg hκ0
    unfold pointErr
    rw [← hκ]
    linarith

/-! ### the cycles -/

variable {fl : ℚ → ℚ} {N : NumericsF} {g u R M η eps : ℚ}

theorem dot_ones (l : List ℚ) : Model.dot (List.replicate l.length 1) l = l.sum := by
  induction l with
  | nil => simp [Model.dot]
  | cons a l ih =>
    unfold Model.dot at ih ⊢
    rw [List.length_cons, List.replicate_succ, List.zipWith_cons_cons, List.sum_cons, ih, List.sum_cons, one_mul]

/-- Near a base, or the point of an empty corral. -/
def GoodPoint (n : ℕ) (φ : Finset ℕ → ℚ) (ρ : ℚ) (x : List ℚ) : Prop :=
  NearBase n φ ρ x ∨ x = List.replicate n 0

theorem minorCyclesF_near (hN : CloseNumerics fl N g u R n) (hη : 0 ≤ η) (hM0 : 0 ≤ M) (heps : 0 ≤ eps)
    (hueps : 2 * u ≤ g * eps) (huM : 2 * u ≤ g * M) (hR : 2 * (M + greedyErr M η g) ≤ R)
    (hM : ∀ S T, S ⊆ Finset.range n → T ⊆ Finset.range n → |φ S - φ T| ≤ M) :
    ∀ (k : ℕ) (Q : List (List ℚ)) (w : List ℚ) {Q' : List (List ℚ)} {w' x' : List ℚ},
    (∀ q ∈ Q, NearBase n φ (greedyErr M η g) q) → Q.length ≤ n + 1 →
    minorCyclesF fl N n eps k Q w = .ok (Q', w', x') →
    (∀ q ∈ Q', NearBase n φ (greedyErr M η g) q) ∧ GoodPoint n φ (pointErr M η g) x' := by
  intro k
  induction k with
  | zero => intro Q w Q' w' x' _ _ h; simp [minorCyclesF] at h
  | succ k ih =>
    intro Q w Q' w' x' hQ hQn h
    unfold minorCyclesF at h
    dsimp only at h
    split at h
    · cases h
    · rename_i hs
      split at h
      · rename_i hv
        cases h
        refine ⟨hQ, ?_⟩
        rcases Q with _ | ⟨q, Q⟩
        · right
          have : N.solve [] = [] := List.length_eq_zero_iff.1 (hN.solve [])
          rw [this, List.map_nil]
          exact hN.comb_nil
        · left
          have hl := hN.solve (q :: Q)
          have hd := hN.total (q :: Q) hQn
          generalize N.solve (q :: Q) = raw at *
          rw [← hl] at hd
          have hs' : N.dot (List.replicate raw.length 1) raw ≠ 0 := by
            intro h0
            exact hs ⟨by simp, by rw [← hl]; exact h0⟩
          obtain ⟨h1, h2⟩ := weights_close hN.nonneg hN.small hN.mono hN.zero hN.round hueps heps hs' hd (by
            intro a ha
            by_contra hn
            exact hv ⟨_, List.mem_map_of_mem ha, by rw [← hl]; exact not_lt.1 hn⟩)
          refine comb_near hN hη hM0 huM hR hM hQ (by simpa using hl) hQn ?_ (by rw [← hl]; exact h2)
          intro a ha
          obtain ⟨b, hb, rfl⟩ := List.mem_map.1 ha
          have := h1 b hb
          rw [hl] at this
          exact this
      · split at h
        · cases h
        · refine ih _ _ ?_ ?_ h
          · intro q hq
            obtain ⟨p, hp, rfl⟩ := List.mem_map.1 hq
            exact hQ _ (List.of_mem_zip (List.mem_filter.1 hp).1).1
          · refine le_trans ?_ hQn
            rw [List.length_map]
            refine (List.length_filter_le _ _).trans ?_
            rw [List.length_zip]
            exact min_le_left _ _

theorem pointErr_ge (hg : 0 ≤ g) (hη : 0 ≤ η) (hM0 : 0 ≤ M) : greedyErr M η g ≤ pointErr M η g := by
  have h : 0 ≤ greedyErr M η g := by unfold greedyErr; positivity
  have h2 : 0 ≤ 2 * g * (M + greedyErr M η g) := by positivity
  have h3 : 0 ≤ 3 * g * M := by positivity
  unfold pointErr
  linarith

/-- The test of optimality at `x`. -/
def Certified (fl : ℚ → ℚ) (N : NumericsF) (f : SF) (tol : ℚ) (x : List ℚ) : Prop :=
  ∃ q, edmondsGreedyF fl f x (N.sort x) = .ok q ∧ |fl (N.dot x q - N.dot x x)| < tol

theorem majorCyclesF_near {f : SF} {tol : ℚ} (hN : CloseNumerics fl N g u R f.size) (hη : 0 ≤ η) (hM0 : 0 ≤ M)
    (heps : 0 ≤ eps) (hueps : 2 * u ≤ g * eps) (huM : 2 * u ≤ g * M) (hR : 2 * (M + greedyErr M η g) ≤ R)
    (hfv : FormatValues fl f R) (hf : NearlyComputes f φ η) (hφ : Submodular (Finset.range f.size) φ)
    (hM : ∀ S T, S ⊆ Finset.range f.size → T ⊆ Finset.range f.size → |φ S - φ T| ≤ M) :
    ∀ (k : ℕ) (Q : List (List ℚ)) (w x : List ℚ) (prev : Option ℚ) (stuck : ℕ) {x' : List ℚ} {b : Bool},
    (∀ q ∈ Q, NearBase f.size φ (greedyErr M η g) q) → GoodPoint f.size φ (pointErr M η g) x →
    majorCyclesF fl N f tol eps k Q w x prev stuck = .ok (x', b) →
    GoodPoint f.size φ (pointErr M η g) x' ∧ (b = true → Certified fl N f tol x') := by
  intro k
  induction k with
  | zero => intro Q w x prev stuck x' b _ _ h; simp [majorCyclesF] at h
  | succ k ih =>
    intro Q w x prev stuck x' b hQ hx h
    have hxl : x.length = f.size := by
      rcases hx with h | h
      · exact h.1
      · rw [h]; simp
    obtain ⟨q, y, hq, hql, hy, hqy, -⟩ := edmondsGreedyF_close hN.nonneg hη hM0 hN.sub hfv hf hM hφ hxl (hN.sort x hxl)
    unfold majorCyclesF at h
    rw [hq, Outcome.ok_bind] at h
    dsimp only at h
    generalize (if isStuck prev |fl (N.dot x q - N.dot x x)| then stuck + 1 else 0) = st at h
    split at h
    · rename_i ht
      cases h
      exact ⟨hx, fun _ => ⟨q, hq, ht⟩⟩
    · split at h
      · cases h
        exact ⟨hx, fun h => by cases h⟩
      · split at h
        · cases h
        · rename_i hn
          split at h
          · cases h
          · obtain ⟨⟨Q', w', x1⟩, hm, h⟩ := Outcome.bind_eq_ok h
            have hQ1 : ∀ p ∈ Q ++ [q], NearBase f.size φ (greedyErr M η g) p := by
              intro p hp
              rcases List.mem_append.1 hp with hp | hp
              · exact hQ p hp
              · rw [List.mem_singleton.1 hp]
                exact ⟨hql, y, hy, hqy⟩
            obtain ⟨h1, h2⟩ := minorCyclesF_near hN hη hM0 heps hueps huM hR hM _ _ _ hQ1 (by simp; omega) hm
            exact ih _ _ _ _ _ h1 h2 h

theorem minNormBaseF_near {f : SF} {tol : ℚ} {fuel : ℕ} (hN : CloseNumerics fl N g u R f.size) (hη : 0 ≤ η) (hM0 : 0 ≤ M)
    (heps : 0 ≤ eps) (hueps : 2 * u ≤ g * eps) (huM : 2 * u ≤ g * M) (hR : 2 * (M + greedyErr M η g) ≤ R)
    (hfv : FormatValues fl f R) (hf : NearlyComputes f φ η) (hφ : Submodular (Finset.range f.size) φ)
    (hM : ∀ S T, S ⊆ Finset.range f.size → T ⊆ Finset.range f.size → |φ S - φ T| ≤ M) (hn : 2 ≤ f.size)
    {x : List ℚ} {b : Bool} (h : minNormBaseF fl N f tol eps fuel = .ok (x, b)) :
    GoodPoint f.size φ (pointErr M η g) x ∧ (b = true → Certified fl N f tol x) := by
  unfold minNormBaseF at h
  rw [if_neg (by omega), if_neg (by omega)] at h
  dsimp only at h
  obtain ⟨q, y, hq, hql, hy, hqy, -⟩ := edmondsGreedyF_close hN.nonneg hη hM0 hN.sub hfv hf hM hφ
    (x := List.replicate f.size 1) (by simp) (hN.sort _ (by simp))
  rw [hq, Outcome.ok_bind] at h
  refine majorCyclesF_near hN hη hM0 heps hueps huM hR hfv hf hφ hM _ _ _ _ _ _ ?_ ?_ h
  · intro p hp
    rw [List.mem_singleton.1 hp]
    exact ⟨hql, y, hy, hqy⟩
  · exact .inl ⟨hql, y, hy, fun i hi => (hqy i hi).trans (pointErr_ge hN.nonneg hη hM0)⟩

/-! ### what the test certifies -/

/-- The gap left by the test of optimality. -/
def gapErr (n : ℕ) (M η g tol : ℚ) : ℚ :=
  tol * (1 + 2 * g) + n * ((M + pointErr M η g) * (g * (M + greedyErr M η g + (M + pointErr M η g)) + greedyErr M η g))

theorem dot_range {n : ℕ} {x y : List ℚ} (hx : x.length = n) (hy : y.length = n) :
    Model.dot x y = ∑ i ∈ Finset.range n, x.getD i 0 * y.getD i 0 := by
  unfold Model.dot
  rw [zipWith_sum (fun a b => a * b) 0 x y (by omega), hx]

theorem goodPoint_bound {ρ : ℚ} (hρ : 0 ≤ ρ) (hM0 : 0 ≤ M)
    (hM : ∀ S T, S ⊆ Finset.range n → T ⊆ Finset.range n → |φ S - φ T| ≤ M) {x : List ℚ} (hx : GoodPoint n φ ρ x)
    {i : ℕ} (hi : i < n) : |x.getD i 0| ≤ M + ρ := by
  rcases hx with ⟨-, y, hy, hxy⟩ | rfl
  · have h1 := hxy i hi
    have h2 := inBase_bound hy hM hi
    have h3 := abs_sub_abs_le_abs_sub (x.getD i 0) (y i)
    linarith
  · rw [List.getD_eq_getElem _ _ (by simpa using hi), List.getElem_replicate, abs_zero]
    linarith

theorem certified_gap {f : SF} {tol : ℚ} (hN : CloseNumerics fl N g u R f.size) (hη : 0 ≤ η) (hM0 : 0 ≤ M)
    (hutol : 4 * u ≤ g * tol) (hu1 : u ≤ 1) (hR : 2 * f.size * (M + pointErr M η g) ^ 2 + 1 ≤ R)
    (hfv : FormatValues fl f R) (hf : NearlyComputes f φ η) (hφ : Submodular (Finset.range f.size) φ)
    (hM : ∀ S T, S ⊆ Finset.range f.size → T ⊆ Finset.range f.size → |φ S - φ T| ≤ M) {x : List ℚ}
    (hx : GoodPoint f.size φ (pointErr M η g) x) (hc : Certified fl N f tol x) {z : ℕ → ℚ}
    (hz : InBase (Finset.range f.size) φ z) :
    Spec.inner (Finset.range f.size) (fun i => x.getD i 0) (fun i => x.getD i 0) ≤
      Spec.inner (Finset.range f.size) (fun i => x.getD i 0) z + gapErr f.size M η g tol := by
  have hg := hN.nonneg
  have hg1 := hN.small
  have hxl : x.length = f.size := by
    rcases hx with h | h
    · exact h.1
    · rw [h]; simp
  obtain ⟨q, y, hq, hql, hy, hqy, hmin⟩ :=
    edmondsGreedyF_close hN.nonneg hη hM0 hN.sub hfv hf hM hφ hxl (hN.sort x hxl)
  obtain ⟨q', hq', ht⟩ := hc
  rw [hq] at hq'
  cases hq'
  have hk0 : 0 ≤ greedyErr M η g := by unfold greedyErr; positivity
  have hr0 : 0 ≤ pointErr M η g := hk0.trans (pointErr_ge hg hη hM0)
  have hxb : ∀ i < f.size, |x.getD i 0| ≤ M + pointErr M η g := fun i hi => goodPoint_bound hr0 hM0 hM hx hi
  have hqb : ∀ i < f.size, |q.getD i 0| ≤ M + greedyErr M η g := by
    intro i hi
    have h1 := hqy i hi
    have h2 := inBase_bound hy hM hi
    have h3 := abs_sub_abs_le_abs_sub (q.getD i 0) (y i)
    linarith
  have hmin := hmin z hz
  unfold Spec.inner at hmin ⊢
  set b := M + pointErr M η g with hb
  set a := M + greedyErr M η g with ha
  set κ := greedyErr M η g with hκ
  have hb0 : 0 ≤ b := by linarith
  have ha0 : 0 ≤ a := by linarith
  -- the two products
  have d1 := hN.dot x q (by omega) (by omega)
  have d2 := hN.dot x x rfl (by omega)
  have hab : a ≤ b := by
    have := pointErr_ge hg hη hM0
    linarith
  rw [dot_range hxl hql, zipWith_sum (fun a b => |a * b|) 0 x q (by omega), hxl] at d1
  rw [dot_range hxl hxl, zipWith_sum (fun a b => |a * b|) 0 x x rfl, hxl] at d2
  have s1 : ∑ i ∈ Finset.range f.size, |x.getD i 0 * q.getD i 0| ≤ f.size * (b * a) := by
    refine (Finset.sum_le_card_nsmul _ _ (b * a) fun i hi => ?_).trans (by simp)
    rw [abs_mul]
    exact mul_le_mul (hxb i (Finset.mem_range.1 hi)) (hqb i (Finset.mem_range.1 hi)) (abs_nonneg _) hb0
  have s2 : ∑ i ∈ Finset.range f.size, |x.getD i 0 * x.getD i 0| ≤ f.size * (b * b) := by
    refine (Finset.sum_le_card_nsmul _ _ (b * b) fun i hi => ?_).trans (by simp)
    rw [abs_mul]
    exact mul_le_mul (hxb i (Finset.mem_range.1 hi)) (hxb i (Finset.mem_range.1 hi)) (abs_nonneg _) hb0
  have hn0 : (0 : ℚ) ≤ f.size := Nat.cast_nonneg _
  have hbb : (f.size : ℚ) * (b * a) ≤ f.size * (b * b) :=
    mul_le_mul_of_nonneg_left (mul_le_mul_of_nonneg_left hab hb0) hn0
  have hbb0 : (0 : ℚ) ≤ f.size * (b * b) := by positivity
  have hR' : 2 * (f.size * (b * b)) + 1 ≤ R := by
    rw [show 2 * (f.size * (b * b)) + 1 = 2 * f.size * b ^ 2 + 1 by ring]
    exact hR
  obtain ⟨d1, f1⟩ := d1 (by linarith)
  obtain ⟨d2, f2⟩ := d2 (by linarith)
  have g1 := mul_le_mul_of_nonneg_left s1 hg
  have g2 := mul_le_mul_of_nonneg_left s2 hg
  have g3 : g * (f.size * (b * b)) ≤ 1 / 16 * (f.size * (b * b)) := mul_le_mul_of_nonneg_right hg1 hbb0
  have g4 : g * (f.size * (b * a)) ≤ g * (f.size * (b * b)) := mul_le_mul_of_nonneg_left hbb hg
  have t1 : |N.dot x q| ≤ R := by
    have h1 := (Finset.abs_sum_le_sum_abs (fun i => x.getD i 0 * q.getD i 0) (Finset.range f.size)).trans s1
    have h2 := abs_sub_abs_le_abs_sub (N.dot x q) (∑ i ∈ Finset.range f.size, x.getD i 0 * q.getD i 0)
    linarith
  have t2 : |N.dot x x| ≤ R := by
    have h1 := (Finset.abs_sum_le_sum_abs (fun i => x.getD i 0 * x.getD i 0) (Finset.range f.size)).trans s2
    have h2 := abs_sub_abs_le_abs_sub (N.dot x x) (∑ i ∈ Finset.range f.size, x.getD i 0 * x.getD i 0)
    linarith
  have s3 : ∑ i ∈ Finset.range f.size, x.getD i 0 * q.getD i 0 ≤
      ∑ i ∈ Finset.range f.size, x.getD i 0 * y i + f.size * (b * κ) := by
    have : ∑ i ∈ Finset.range f.size, x.getD i 0 * (q.getD i 0 - y i) ≤ f.size * (b * κ) := by
      refine (Finset.sum_le_card_nsmul _ _ (b * κ) fun i hi => ?_).trans (by simp)
      refine (le_abs_self _).trans ?_
      rw [abs_mul]
      exact mul_le_mul (hxb i (Finset.mem_range.1 hi)) (hqy i (Finset.mem_range.1 hi)) (abs_nonneg _) hb0
    have e : ∑ i ∈ Finset.range f.size, x.getD i 0 * (q.getD i 0 - y i) =
        ∑ i ∈ Finset.range f.size, x.getD i 0 * q.getD i 0 - ∑ i ∈ Finset.range f.size, x.getD i 0 * y i := by
      rw [← Finset.sum_sub_distrib]
      exact Finset.sum_congr rfl fun i _ => by ring
    linarith
  -- the rounded difference
  set D := N.dot x q - N.dot x x with hD
  have r1 := hN.sub _ _ f1 f2 t1 t2
  rw [← hD] at r1
  have htol : 0 ≤ tol := (abs_nonneg _).trans ht.le
  have r2 : |D| ≤ tol * (1 + 2 * g) - 2 * u := by
    have h1 := abs_sub_abs_le_abs_sub D (fl D)
    rw [abs_sub_comm D (fl D)] at h1
    have h2 : |D| * (1 - g) ≤ tol := by linarith
    have h3 : tol ≤ (tol * (1 + 2 * g) - 2 * u) * (1 - g) := by
      have h4 : 0 ≤ g * tol * (1 / 2 - 2 * g) := mul_nonneg (mul_nonneg hg htol) (by linarith)
      have h5 : 0 ≤ u * g := mul_nonneg hN.abs_nonneg hg
      have e : (tol * (1 + 2 * g) - 2 * u) * (1 - g) =
        tol + g * tol / 2 + g * tol * (1 / 2 - 2 * g) - 2 * u + 2 * (u * g) := by ring
      linarith
    exact le_of_mul_le_mul_right (h2.trans h3) (by linarith)
  have r3 := (abs_le.1 r2).1
  rw [abs_le] at d1 d2
  unfold gapErr
  rw [← hκ, ← ha, ← hb]
  have : (f.size : ℚ) * (b * (g * (a + b) + κ)) = g * (f.size * (b * a)) + g * (f.size * (b * b)) + f.size * (b * κ) := by
    ring
  rw [this]
  linarith [d1.2, d2.1]

/-- Distance to the minimum norm base. -/
theorem gap_dist {ρ τ : ℚ} (hρ : 0 ≤ ρ)
    (hM : ∀ S T, S ⊆ Finset.range n → T ⊆ Finset.range n → |φ S - φ T| ≤ M) (hM0 : 0 ≤ M) {x : List ℚ}
    (hx : NearBase n φ ρ x) {y : ℕ → ℚ} (hy : IsMinNorm (Finset.range n) φ y)
    (hgap : Spec.inner (Finset.range n) (fun i => x.getD i 0) (fun i => x.getD i 0) ≤
      Spec.inner (Finset.range n) (fun i => x.getD i 0) y + τ) :
    ∑ i ∈ Finset.range n, (x.getD i 0 - y i) ^ 2 ≤ τ + n * (M * ρ) := by
  obtain ⟨-, x', hx', hxx⟩ := hx
  have h1 := hy.2 x' hx'
  unfold Spec.inner at *
  have e1 : ∑ i ∈ Finset.range n, (x.getD i 0 - y i) ^ 2 =
      ∑ i ∈ Finset.range n, x.getD i 0 * x.getD i 0 - ∑ i ∈ Finset.range n, x.getD i 0 * y i +
      (∑ i ∈ Finset.range n, y i * y i - ∑ i ∈ Finset.range n, y i * x' i) +
      ∑ i ∈ Finset.range n, y i * (x' i - x.getD i 0) := by
    rw [← Finset.sum_sub_distrib, ← Finset.sum_sub_distrib, ← Finset.sum_add_distrib, ← Finset.sum_add_distrib]
    exact Finset.sum_congr rfl fun i _ => by ring
  have e2 : ∑ i ∈ Finset.range n, y i * (x' i - x.getD i 0) ≤ n * (M * ρ) := by
    refine (Finset.sum_le_card_nsmul _ _ (M * ρ) fun i hi => ?_).trans (by simp)
    refine (le_abs_self _).trans ?_
    rw [abs_mul, abs_sub_comm]
    exact mul_le_mul (inBase_bound hy.1 hM (Finset.mem_range.1 hi)) (hxx i (Finset.mem_range.1 hi)) (abs_nonneg _) hM0
  rw [e1]
  linarith

end PSP.Theory
