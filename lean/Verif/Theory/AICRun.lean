import Verif.Theory.SFMerge
import Verif.Theory.HCSim
import Mathlib.Data.List.GetD

/-!
# `AIC::agglomerate` and `Agglomerative_PSP::run`
-/

namespace PSP.Theory

open PSP.Model PSP.Spec
open Relation (EqvGen)

/-- The functor computes the set function `h` on nonempty sets, whatever the order of the
elements. -/
def Represents (f : SF) (h : Finset ℕ → ℚ) : Prop :=
  ∀ B : List ℕ, B.Nodup → B ≠ [] → (∀ b ∈ B, b < f.size) → f.val B = h B.toFinset

/-- The result `r` for the functor `F` is the minimum norm base up to `δ` in each coordinate, provided
`F` computes a normalised submodular function. -/
def Accurate (δ : ℚ) (F : SF) (r : Outcome (List ℚ)) : Prop :=
  ∀ φ : Finset ℕ → ℚ, 1 ≤ F.size →
    (∀ B : List ℕ, B.Nodup → (∀ b ∈ B, b < F.size) → F.val B = φ B.toFinset) → φ ∅ = 0 →
    Submodular (Finset.range F.size) φ →
    ∃ x y, r = .ok x ∧ x.length = F.size ∧ IsMinNorm (Finset.range F.size) φ y ∧
      ∀ i, i < F.size → |x.getD i 0 - y i| ≤ δ

/-- The values are multiples of `u > 0`; the tolerance covers twice the error `δ` of the minimum norm
bases and stays below the resolution `u / n²` of the critical values. -/
structure AggTolerance (h : Finset ℕ → ℚ) (n : ℕ) (tol δ u : ℚ) : Prop where
  grid : ∀ S, S ⊆ Finset.range n → S.Nonempty → ∃ k : ℤ, h S = k * u
  nonneg : 0 ≤ δ
  cover : 2 * δ ≤ tol
  fine : (tol + 2 * δ) * (n : ℚ) ^ 2 < u

/-- `a` is a multiple of `u` divided by a number up to `n`. -/
def Ratio (u : ℚ) (n : ℕ) (a : ℚ) : Prop :=
  ∃ m : ℕ, 1 ≤ m ∧ m ≤ n ∧ ∃ k : ℤ, (m : ℚ) * a = k * u

theorem ratio_gap {u : ℚ} {n : ℕ} {a b : ℚ} (hu : 0 < u) (ha : Ratio u n a) (hb : Ratio u n b)
    (hab : a < b) : u ≤ (b - a) * (n : ℚ) ^ 2 := by
  obtain ⟨m, hm1, hmn, k, hk⟩ := ha
  obtain ⟨m', hm1', hmn', k', hk'⟩ := hb
  have h1 : (b - a) * ((m : ℚ) * m') = ((k' * m - k * m' : ℤ) : ℚ) * u := by
    push_cast
    have e1 : (m : ℚ) * a * m' = k * u * m' := by rw [hk]
    have e2 : (m' : ℚ) * b * m = k' * u * m := by rw [hk']
    linarith
  have hm : (1 : ℚ) ≤ m := by exact_mod_cast hm1
  have hm' : (1 : ℚ) ≤ m' := by exact_mod_cast hm1'
  have hpos : 0 < (b - a) * ((m : ℚ) * m') := mul_pos (by linarith) (by nlinarith)
  have hint : (1 : ℤ) ≤ k' * m - k * m' := by
    rw [h1] at hpos
    have : (0 : ℚ) < ((k' * m - k * m' : ℤ) : ℚ) := pos_of_mul_pos_left hpos hu.le
    have : 0 < k' * (m : ℤ) - k * m' := by exact_mod_cast this
    omega
  have hint' : (1 : ℚ) ≤ ((k' * m - k * m' : ℤ) : ℚ) := by exact_mod_cast hint
  have h2 : u ≤ (b - a) * ((m : ℚ) * m') := by rw [h1]; nlinarith
  have hmn1 : (m : ℚ) ≤ n := by exact_mod_cast hmn
  have hmn2 : (m' : ℚ) ≤ n := by exact_mod_cast hmn'
  have h3 : (m : ℚ) * m' ≤ (n : ℚ) ^ 2 := by nlinarith
  nlinarith

theorem Ratio.neg {u : ℚ} {n : ℕ} {a : ℚ} (ha : Ratio u n a) : Ratio u n (-a) := by
  obtain ⟨m, h1, h2, k, hk⟩ := ha
  exact ⟨m, h1, h2, -k, by push_cast; linarith⟩

/-! ### The blocks of a clustering -/

/-- Block number `i` of a list of lists. -/
def blockAt (L : List (List ℕ)) (i : ℕ) : Finset ℕ := (L.getD i []).toFinset

section clustering
variable {n : ℕ} {R : ℕ → ℕ → Prop} {L : List (List ℕ)}

theorem getD_mem {α : Type} {L : List (List α)} {i : ℕ} (hi : i < L.length) : L.getD i [] ∈ L := by
  rw [List.getD_eq_getElem _ _ hi]; exact List.getElem_mem _

theorem flatten_index (hn : L.flatten.Nodup) {i j v : ℕ} (hi : i < L.length) (hj : j < L.length)
    (h1 : v ∈ L.getD i []) (h2 : v ∈ L.getD j []) : i = j := by
  rw [List.nodup_flatten] at hn
  by_contra hne
  rw [List.getD_eq_getElem _ _ hi] at h1
  rw [List.getD_eq_getElem _ _ hj] at h2
  rcases Nat.lt_or_gt_of_ne hne with h | h
  · exact List.pairwise_iff_getElem.1 hn.2 i j hi hj h h1 h2
  · exact List.pairwise_iff_getElem.1 hn.2 j i hj hi h h2 h1

theorem clustering_blocks (hc : IsClustering n R L) :
    Blocks (Finset.range n) L.length (blockAt L) where
  nonempty i hi := by
    rw [blockAt, List.toFinset_nonempty_iff]
    exact hc.nonempty _ (getD_mem hi)
  disjoint i j v hi hj h1 h2 := by
    rw [blockAt, List.mem_toFinset] at h1 h2
    exact flatten_index hc.once hi hj h1 h2
  all v := by
    rw [Finset.mem_range, ← hc.all v, List.mem_flatten]
    constructor
    · rintro ⟨B, hB, hv⟩
      obtain ⟨i, hi, rfl⟩ := List.mem_iff_getElem.1 hB
      exact ⟨i, hi, by rw [blockAt, List.mem_toFinset, List.getD_eq_getElem _ _ hi]; exact hv⟩
    · rintro ⟨i, hi, hv⟩
      rw [blockAt, List.mem_toFinset] at hv
      exact ⟨_, getD_mem hi, hv⟩

theorem toPartition_eq (L : List (List ℕ)) : toPartition L = blockSet L.length (blockAt L) := by
  ext B
  unfold toPartition blockSet
  rw [List.mem_toFinset, List.mem_map, Finset.mem_image]
  constructor
  · rintro ⟨l, hl, rfl⟩
    obtain ⟨i, hi, rfl⟩ := List.mem_iff_getElem.1 hl
    exact ⟨i, Finset.mem_range.2 hi, by rw [blockAt, List.getD_eq_getElem _ _ hi]⟩
  · rintro ⟨i, hi, rfl⟩
    exact ⟨_, getD_mem (Finset.mem_range.1 hi), rfl⟩

theorem clustering_partition (hc : IsClustering n R L) :
    IsPartition (Finset.range n) (toPartition L) := by
  rw [toPartition_eq]; exact (clustering_blocks hc).partition

theorem clustering_same (hc : IsClustering n R L) {u v : ℕ} (hu : u < n) (hv : v < n) :
    Same (toPartition L) u v ↔ R u v := by
  rw [← hc.together u v hu hv]
  unfold Same toPartition
  simp

theorem headD_mem {B : List ℕ} (hB : B ≠ []) : B.headD 0 ∈ B := by
  cases B with
  | nil => exact absurd rfl hB
  | cons a B => simp

theorem clustering_head (hc : IsClustering n R L) {i : ℕ} (hi : i < L.length) :
    (L.getD i []).headD 0 ∈ blockAt L i := by
  rw [blockAt, List.mem_toFinset]
  exact headD_mem (hc.nonempty _ (getD_mem hi))

end clustering

/-! ### The functors handed to `min_norm_base` -/

theorem nodup_flatMap_blocks {L : List (List ℕ)} (hn : L.flatten.Nodup) {B : List ℕ} (hB : B.Nodup)
    (hBL : ∀ b ∈ B, b < L.length) : (B.flatMap fun i => L.getD i []).Nodup := by
  rw [List.nodup_flatMap]
  refine ⟨fun i hi => (List.nodup_flatten.1 hn).1 _ (getD_mem (hBL i hi)), ?_⟩
  refine hB.imp_of_mem ?_
  intro i j hi hj hne
  rw [Function.onFun, List.disjoint_left]
  intro v h1 h2
  exact hne (flatten_index hn (hBL i hi) (hBL j hj) h1 h2)

theorem toFinset_flatMap_blocks (L : List (List ℕ)) (B : List ℕ) :
    (B.flatMap fun i => L.getD i []).toFinset = B.toFinset.biUnion (blockAt L) := by
  ext v
  simp only [List.mem_toFinset, List.mem_flatMap, Finset.mem_biUnion, blockAt]

theorem sfJoin_val {f : SF} {h : Finset ℕ → ℚ} {R : ℕ → ℕ → Prop} {L : List (List ℕ)}
    (hf : Represents f h) (hc : IsClustering f.size R L) {j : ℕ} (hj : j < L.length) {B : List ℕ}
    (hB : B.Nodup) (hBj : ∀ b ∈ B, b < j) :
    (sfJoin (sfContract f L) j).val B = joinFn h (blockAt L) j B.toFinset := by
  have hmap : B.map (fun b => if b < j then b else 0) = B := by
    conv_rhs => rw [← List.map_id B]
    exact List.map_congr_left fun b hb => if_pos (hBj b hb)
  have hBL : ∀ b ∈ B ++ [j], b < L.length := by
    intro b hb
    rcases List.mem_append.1 hb with hb | hb
    · exact (hBj b hb).trans hj
    · rw [List.mem_singleton] at hb; omega
  have hnd : (B ++ [j]).Nodup := by
    rw [List.nodup_append]
    refine ⟨hB, by simp, ?_⟩
    intro a ha b hb
    rw [List.mem_singleton] at hb
    have := hBj a ha
    omega
  have hset : (B ++ [j]).toFinset = insert j B.toFinset := by
    ext v; simp
  have hval : ∀ b ∈ B ++ [j], f.val (L.getD b []) = h (blockAt L b) := by
    intro b hb
    have hbl := getD_mem (hBL b hb)
    refine hf _ ((List.nodup_flatten.1 hc.once).1 _ hbl) (hc.nonempty _ hbl) ?_
    intro v hv
    exact (hc.all v).1 (List.mem_flatten.2 ⟨_, hbl, hv⟩)
  simp only [sfJoin, sfContract]
  rw [hmap]
  unfold joinFn
  rw [hf _ (nodup_flatMap_blocks hc.once hnd hBL), toFinset_flatMap_blocks, hset,
    List.map_congr_left hval, sum_list_eq hnd, hset]
  · intro he
    have hne := hc.nonempty _ (getD_mem hj)
    rw [List.flatMap_eq_nil_iff] at he
    exact hne (he j (by simp))
  · intro v hv
    obtain ⟨b, hb, hvb⟩ := List.mem_flatMap.1 hv
    exact (hc.all v).1 (List.mem_flatten.2 ⟨_, getD_mem (hBL b hb), hvb⟩)

/-! ### Points, `gamma`, merges -/

theorem aicPoints_spec {mnb : SF → Outcome (List ℚ)} {F : SF} {Q : ℕ → List ℚ → Prop} :
    ∀ js : List ℕ, (∀ j ∈ js, ∃ x, mnb (sfJoin F j) = .ok x ∧ Q j x) →
    ∃ xs, aicPoints mnb F js = .ok xs ∧ List.Forall₂ Q js xs := by
  intro js
  induction js with
  | nil => intro _; exact ⟨[], rfl, List.Forall₂.nil⟩
  | cons j js ih =>
    intro hj
    obtain ⟨x, h1, h2⟩ := hj j (by simp)
    obtain ⟨xs, h3, h4⟩ := ih fun i hi => hj i (by simp [hi])
    refine ⟨x :: xs, ?_, List.Forall₂.cons h2 h4⟩
    simp only [aicPoints, h1, h3, Outcome.ok_bind, Outcome.pure_eq]

theorem minCoeff_le : ∀ (x : List ℚ) (a : ℚ), a ∈ x → minCoeff x ≤ a := by
  intro x
  induction x with
  | nil => intro a ha; simp at ha
  | cons b x ih =>
    intro a ha
    cases x with
    | nil =>
      rw [List.mem_singleton] at ha
      subst ha; exact le_rfl
    | cons c x =>
      rw [List.mem_cons] at ha
      simp only [minCoeff]
      rcases ha with rfl | ha
      · exact min_le_left _ _
      · exact (min_le_right _ _).trans (ih a ha)

theorem minCoeff_mem : ∀ (x : List ℚ), x ≠ [] → minCoeff x ∈ x := by
  intro x
  induction x with
  | nil => intro h; exact absurd rfl h
  | cons b x ih =>
    intro _
    cases x with
    | nil => simp [minCoeff]
    | cons c x =>
      simp only [minCoeff]
      rcases min_choice b (minCoeff (c :: x)) with h | h
      · rw [h]; simp
      · rw [h]; exact List.mem_cons_of_mem _ (ih (by simp))

theorem foldl_max_spec (p : List ℚ → ℚ) : ∀ (xs : List (List ℚ)) (g0 : WithBot ℚ),
    g0 ≤ xs.foldl (fun g x => max g ((p x : ℚ) : WithBot ℚ)) g0 ∧
    (∀ x ∈ xs, ((p x : ℚ) : WithBot ℚ) ≤ xs.foldl (fun g x => max g ((p x : ℚ) : WithBot ℚ)) g0) ∧
    (xs.foldl (fun g x => max g ((p x : ℚ) : WithBot ℚ)) g0 = g0 ∨
      ∃ x ∈ xs, xs.foldl (fun g x => max g ((p x : ℚ) : WithBot ℚ)) g0 = ((p x : ℚ) : WithBot ℚ)) := by
  intro xs
  induction xs with
  | nil => intro g0; simp
  | cons a xs ih =>
    intro g0
    obtain ⟨h1, h2, h3⟩ := ih (max g0 ((p a : ℚ) : WithBot ℚ))
    rw [List.foldl_cons]
    refine ⟨(le_max_left _ _).trans h1, ?_, ?_⟩
    · intro x hx
      rcases List.mem_cons.1 hx with rfl | hx
      · exact (le_max_right _ _).trans h1
      · exact h2 x hx
    · rcases h3 with h3 | ⟨x, hx, h3⟩
      · rcases max_choice g0 ((p a : ℚ) : WithBot ℚ) with h | h
        · left; rw [h3, h]
        · right; exact ⟨a, by simp, by rw [h3, h]⟩
      · right; exact ⟨x, by simp [hx], h3⟩

theorem aicGamma_spec {xs : List (List ℚ)} (hne : xs ≠ []) :
    ∃ g : ℚ, aicGamma xs = (g : WithBot ℚ) ∧ (∀ x ∈ xs, -(minCoeff x) ≤ g) ∧
      ∃ x ∈ xs, g = -(minCoeff x) := by
  obtain ⟨-, h2, h3⟩ := foldl_max_spec (fun x => -(minCoeff x)) xs ⊥
  obtain ⟨a, ha⟩ := List.exists_mem_of_ne_nil _ hne
  rcases h3 with h3 | ⟨x, hx, h3⟩
  · have := h2 a ha
    rw [h3] at this
    simp at this
  · refine ⟨-(minCoeff x), h3, ?_, x, hx, rfl⟩
    intro z hz
    have := h2 z hz
    rw [h3] at this
    exact WithBot.coe_le_coe.1 this

/-- `aicMerges` with any threshold for the critical value `g`. -/
def mergesAt (P : List (List ℕ)) (xs : List (List ℚ)) (thr : ℚ → ℚ) (g : ℚ) : List Link :=
  (List.range P.length).flatMap fun j => (List.range j).filterMap fun i =>
    if (xs.getD (j - 1) []).getD i 0 ≤ thr g then
      some ⟨(P.getD j []).headD 0, (P.getD i []).headD 0, g⟩ else none

/-- `agglomerate` with any threshold and any functors for the contractions, as with and without rounding. -/
def agglomerateWith (mnb : SF → Outcome (List ℚ)) (contract : List (List ℕ) → SF) (thr : ℚ → ℚ) (h : HC) :
    Outcome (HC × Bool) := do
  let P ← h.getPartition ⊥
  if P.length ≤ 1 then return (h, false)
  let xs ← aicPoints mnb (contract P) ((List.range P.length).drop 1)
  match aicGamma xs with
  | none => return (h, true)
  | some g =>
    let h' ← h.mergeAll (mergesAt P xs thr g)
    return (h', true)

theorem agglomerate_with (mnb : SF → Outcome (List ℚ)) (f : SF) (tol : ℚ) (h : HC) :
    agglomerate mnb f tol h = agglomerateWith mnb (sfContract f) (fun g => -g + tol) h := rfl

theorem mem_mergesAt {P : List (List ℕ)} {xs : List (List ℚ)} {thr : ℚ → ℚ} {g : ℚ} {c : Link} :
    c ∈ mergesAt P xs thr g ↔ ∃ j i, j < P.length ∧ i < j ∧
      (xs.getD (j - 1) []).getD i 0 ≤ thr g ∧
      c = ⟨(P.getD j []).headD 0, (P.getD i []).headD 0, g⟩ := by
  unfold mergesAt
  simp only [List.mem_flatMap, List.mem_range, List.mem_filterMap]
  constructor
  · rintro ⟨j, hj, i, hi, h⟩
    split_ifs at h with hc
    simp only [Option.some.injEq] at h
    exact ⟨j, i, hj, hi, hc, h.symm⟩
  · rintro ⟨j, i, hj, hi, hc, rfl⟩
    exact ⟨j, hj, i, hi, if_pos hc⟩

theorem mem_aicMerges {P : List (List ℕ)} {xs : List (List ℚ)} {tol g : ℚ} {c : Link} :
    c ∈ aicMerges P xs tol g ↔ ∃ j i, j < P.length ∧ i < j ∧
      (xs.getD (j - 1) []).getD i 0 ≤ -g + tol ∧
      c = ⟨(P.getD j []).headD 0, (P.getD i []).headD 0, g⟩ :=
  mem_mergesAt (thr := fun g => -g + tol)

/-- Merges are only ever appended. -/
theorem acceptedFrom_sub : ∀ (cs A : List Link), (∀ a ∈ A, a ∈ acceptedFrom A cs) ∧
    ∀ a ∈ acceptedFrom A cs, a ∈ A ∨ a ∈ cs := by
  classical
  intro cs
  induction cs with
  | nil => intro A; simp [acceptedFrom]
  | cons c cs ih =>
    intro A
    have hstep : acceptedFrom A (c :: cs) =
        acceptedFrom (if Accepts A c then A ++ [c] else A) cs := by
      unfold acceptedFrom
      simp only [List.foldl_cons]
    rw [hstep]
    obtain ⟨h1, h2⟩ := ih (if Accepts A c then A ++ [c] else A)
    constructor
    · intro a ha
      apply h1
      split_ifs
      · exact List.mem_append_left _ ha
      · exact ha
    · intro a ha
      rcases h2 a ha with h | h
      · split_ifs at h
        · rcases List.mem_append.1 h with h | h
          · exact Or.inl h
          · rw [List.mem_singleton] at h; subst h; exact Or.inr (by simp)
        · exact Or.inl h
      · exact Or.inr (by simp [h])

/-! ### One call of `agglomerate` -/

/-- The state between two calls: the accepted merges `A`, the partition `P`, and the chain of
partitions above it. -/
structure AggState (h : Finset ℕ → ℚ) (n : ℕ) (δ u : ℚ) (hc : HC) (A : List Link)
    (P : Finset (Finset ℕ)) (t : List (ℚ × Finset (Finset ℕ))) : Prop where
  inv : HCInv hc A
  size : hc.n = n
  same : ∀ v w, v < n → w < n → (Same P v w ↔ Joined A ⊥ v w)
  part : IsPartition (Finset.range n) P
  linked : LinkedSF h (Finset.range n) P t
  last : lastOf P t = singletons (Finset.range n)
  increasing : (t.map Prod.fst).Pairwise (· < ·)
  start : t = [] → A = []
  top : ∀ g B t', t = (g, B) :: t' → (∀ R, IsOptimalSF h (Finset.range n) g R → Refines R P) ∧
    Ratio u n g ∧ ∀ a ∈ A, g - δ ≤ a.val

variable {h : Finset ℕ → ℚ} {n : ℕ} {tol δ u : ℚ} {hc : HC} {A : List Link}
  {P : Finset (Finset ℕ)} {t : List (ℚ × Finset (Finset ℕ))} {f : SF}
  {mnb : SF → Outcome (List ℚ)}

theorem AggTolerance.upos (ht : AggTolerance h n tol δ u) : 0 < u := by
  refine lt_of_le_of_lt ?_ ht.fine
  have h1 := ht.nonneg
  have h2 := ht.cover
  have : (0 : ℚ) ≤ (n : ℚ) ^ 2 := by positivity
  exact mul_nonneg (by linarith) this

/-- The states of the object between the calls of `agglomerate`. -/
inductive Reached (step : HC → Outcome (HC × Bool)) (h0 : HC) : HC → Prop
  | start : Reached step h0 h0
  | next {h h' : HC} : Reached step h0 h → step h = .ok (h', true) → Reached step h0 h'

theorem Reached.trans_next {step : HC → Outcome (HC × Bool)} {h0 h1 h : HC} (h01 : step h0 = .ok (h1, true))
    (hr : Reached step h1 h) : Reached step h0 h := by
  induction hr with
  | start => exact .next .start h01
  | next _ hs ih => exact .next ih hs

/-- The points for the clusterings `D` are close to the minimum norm bases of the contractions, and the threshold is between
twice the error and the tolerance. -/
structure Close (mnb : SF → Outcome (List ℚ)) (contract : List (List ℕ) → SF) (thr : ℚ → ℚ) (h : Finset ℕ → ℚ) (n : ℕ)
    (tol δ : ℚ) (D : List (List ℕ) → Prop) : Prop where
  point : ∀ L R j, D L → IsClustering n R L → 1 ≤ j → j < L.length → ∃ x y, mnb (sfJoin (contract L) j) = .ok x ∧
    x.length = j ∧ IsMinNorm (Finset.range j) (joinFn h (blockAt L) j) y ∧ ∀ i, i < j → |x.getD i 0 - y i| ≤ δ
  thr : ∀ L R j y i g, IsClustering n R L → i < j → j < L.length →
    IsMinNorm (Finset.range j) (joinFn h (blockAt L) j) y → |g - -(y i)| ≤ δ → -g + 2 * δ ≤ thr g ∧ thr g ≤ -g + tol

variable {contract : List (List ℕ) → SF} {thr : ℚ → ℚ} {D : List (List ℕ) → Prop}

theorem agglomerateWith_spec (hn : 0 < n) (hh : Intersecting (Finset.range n) h) (ht : AggTolerance h n tol δ u)
    (hm : Close mnb contract thr h n tol δ D) (hD : ∀ L, hc.getPartition ⊥ = .ok L → D L)
    (hs : AggState h n δ u hc A P t) :
    (agglomerateWith mnb contract thr hc = .ok (hc, false) ∧ P = {Finset.range n}) ∨
    ∃ hc' A' L' g c, agglomerateWith mnb contract thr hc = .ok (hc', true) ∧
      hc'.getCoarsestPartition = .ok L' ∧ hc'.getCriticalValues.getLast? = some c ∧ |c - g| ≤ δ ∧
      (toPartition L').card < P.card ∧
      AggState h n δ u hc' A' (toPartition L') ((g, P) :: t) := by
  set V := Finset.range n with hV
  have hupos := ht.upos
  obtain ⟨L, hL1, hL2⟩ := getPartition_spec hs.inv.forest (by rw [hs.size]; exact hn) ⊥
  rw [hs.size] at hL2
  have hL3 := hL2.congr (hs.inv.fj ⊥)
  have hPL : toPartition L = P := eq_of_same (clustering_partition hL3) hs.part fun v w => by
    by_cases hv : v < n
    · by_cases hw : w < n
      · rw [clustering_same hL3 hv hw, hs.same v w hv hw]
      · constructor
        · intro hh'
          exact absurd (Finset.mem_range.1 (hh'.mem_right (clustering_partition hL3))) hw
        · intro hh'; exact absurd (Finset.mem_range.1 (hh'.mem_right hs.part)) hw
    · constructor
      · intro hh'
        exact absurd (Finset.mem_range.1 (hh'.mem_left (clustering_partition hL3))) hv
      · intro hh'; exact absurd (Finset.mem_range.1 (hh'.mem_left hs.part)) hv
  have hb := clustering_blocks hL3
  set k := L.length with hk
  set C := blockAt L with hC
  have hPC : blockSet k C = P := by rw [← hPL, toPartition_eq]
  have hcard : P.card = k := by rw [← hPC]; exact hb.card
  have hVne : V.Nonempty := ⟨0, Finset.mem_range.2 hn⟩
  by_cases hk1 : k ≤ 1
  · left
    constructor
    · unfold agglomerateWith
      rw [hL1]
      simp only [Outcome.ok_bind, ← hk, if_pos hk1, Outcome.pure_eq]
    · have := hs.part.card_pos hVne
      exact hs.part.eq_single_of_card (by omega)
  right
  rw [not_le] at hk1
  have hkn : k ≤ n := by
    have := hs.part.card_le
    rw [hcard, Finset.card_range] at this
    exact this
  -- the minimum norm bases
  have hpts : ∀ j ∈ (List.range k).drop 1, ∃ x, mnb (sfJoin (contract L) j) = .ok x ∧
      (x.length = j ∧ ∃ y, IsMinNorm (Finset.range j) (joinFn h C j) y ∧
        ∀ i, i < j → |x.getD i 0 - y i| ≤ δ) := by
    intro j hj
    have hjk : 1 ≤ j ∧ j < k := by
      rw [List.range_eq_range', List.drop_range', List.mem_range'_1] at hj
      omega
    obtain ⟨x, y, h1, h2, h3, h4⟩ := hm.point L _ j (hD L hL1) hL3 hjk.1 hjk.2
    exact ⟨x, h1, h2, y, h3, h4⟩
  obtain ⟨xs, hxs, hall⟩ := aicPoints_spec _ hpts
  have hxslen : xs.length = k - 1 := by
    rw [← hall.length_eq]; simp
  have hget : ∀ j, 1 ≤ j → j < k → (xs.getD (j - 1) []).length = j ∧
      ∃ y, IsMinNorm (Finset.range j) (joinFn h C j) y ∧
        ∀ i, i < j → |(xs.getD (j - 1) []).getD i 0 - y i| ≤ δ := by
    intro j hj1 hjk
    have hlt : j - 1 < xs.length := by omega
    have hlt' : j - 1 < ((List.range k).drop 1).length := by simp; omega
    have := List.forall₂_iff_get.1 hall |>.2 (j - 1) hlt' hlt
    simp only [List.get_eq_getElem, List.getElem_drop, List.getElem_range] at this
    have e : 1 + (j - 1) = j := by omega
    rw [e] at this
    rw [List.getD_eq_getElem _ _ hlt]
    exact this
  have hgetx : ∀ x ∈ xs, ∃ j, 1 ≤ j ∧ j < k ∧ x = xs.getD (j - 1) [] := by
    intro x hx
    obtain ⟨i, hi, rfl⟩ := List.mem_iff_getElem.1 hx
    refine ⟨i + 1, by omega, by omega, ?_⟩
    rw [Nat.add_sub_cancel, List.getD_eq_getElem _ _ hi]
  choose! y hy1 hy2 using fun j (hj : 1 ≤ j ∧ j < k) => (hget j hj.1 hj.2).2
  -- the exact critical value
  have hpairs : (((Finset.range k) ×ˢ (Finset.range k)).filter fun p => p.2 < p.1).Nonempty :=
    ⟨(1, 0), by simp; omega⟩
  obtain ⟨⟨j0, i0⟩, hji0, hmin⟩ := Finset.exists_min_image _ (fun p => y p.1 p.2) hpairs
  simp only [Finset.mem_filter, Finset.mem_product, Finset.mem_range] at hji0 hmin
  set gam := -(y j0 i0) with hgam
  have hbound : ∀ j i, j < k → i < j → -gam ≤ y j i := by
    intro j i hj hi
    rw [hgam, neg_neg]
    exact hmin (j, i) ⟨⟨hj, hi.trans hj⟩, hi⟩
  have hround : Round h k C y gam :=
    ⟨fun j h1 h2 => hy1 j ⟨h1, h2⟩, hbound, j0, i0, hji0.1.1, hji0.2, by rw [hgam, neg_neg]⟩
  have hratio : ∀ j i, j < k → i < j → Ratio u n (y j i) := by
    intro j i hj hi
    have hgrid : ∀ S, S ⊆ Finset.range j → ∃ k' : ℤ, joinFn h C j S = k' * u := by
      intro S hS
      have hSk := insert_subset_range hj hS
      obtain ⟨k1, hk1'⟩ := ht.grid ((insert j S).biUnion C) (hb.biUnion_subset hSk) (by
        obtain ⟨v, hv⟩ := hb.nonempty j hj
        exact ⟨v, Finset.mem_biUnion.2 ⟨j, by simp, hv⟩⟩)
      have hsum : ∃ k2 : ℤ, ∑ l ∈ insert j S, h (C l) = k2 * u := by
        have : ∀ T : Finset ℕ, T ⊆ Finset.range k → ∃ k2 : ℤ, ∑ l ∈ T, h (C l) = k2 * u := by
          intro T
          induction T using Finset.induction_on with
          | empty => intro _; exact ⟨0, by simp⟩
          | insert a T ha ih =>
            intro hT
            obtain ⟨k2, hk2⟩ := ih fun z hz => hT (Finset.mem_insert_of_mem hz)
            have hak := Finset.mem_range.1 (hT (Finset.mem_insert_self _ _))
            obtain ⟨k3, hk3⟩ := ht.grid (C a) (hb.subset hak) (hb.nonempty a hak)
            refine ⟨k3 + k2, ?_⟩
            rw [Finset.sum_insert ha, hk2, hk3]
            push_cast; ring
        exact this _ hSk
      obtain ⟨k2, hk2⟩ := hsum
      refine ⟨k1 - k2, ?_⟩
      unfold joinFn
      rw [hk1', hk2]
      push_cast; ring
    obtain ⟨m, h1, h2, h3⟩ := coordinate_ratio (hb.joinFn_submodular hh hj) (hy1 j ⟨by omega, hj⟩)
      hgrid (Finset.mem_range.2 hi)
    rw [Finset.card_range] at h2
    exact ⟨m, h1, by omega, h3⟩
  have hgratio : Ratio u n gam := (hratio j0 i0 hji0.1.1 hji0.2).neg
  -- the computed critical value
  have hxsne : xs ≠ [] := by
    intro he; rw [he] at hxslen; simp at hxslen; omega
  obtain ⟨g, hg1, hg2, x0, hx0, hg3⟩ := aicGamma_spec hxsne
  have hentry : ∀ j i, 1 ≤ j → j < k → i < j →
      (xs.getD (j - 1) []).getD i 0 ∈ xs.getD (j - 1) [] := by
    intro j i h1 h2 h3
    rw [List.getD_eq_getElem _ 0 (by rw [(hget j h1 h2).1]; exact h3)]
    exact List.getElem_mem _
  have hxsmem : ∀ j, 1 ≤ j → j < k → xs.getD (j - 1) [] ∈ xs := by
    intro j h1 h2
    exact getD_mem (by omega)
  have habs : |g - gam| ≤ δ := by
    rw [abs_le]
    constructor
    · have hj1 : 1 ≤ j0 := by omega
      have h1 := hg2 _ (hxsmem j0 hj1 hji0.1.1)
      have h2 := minCoeff_le _ _ (hentry j0 i0 hj1 hji0.1.1 hji0.2)
      have h3 := (abs_le.1 (hy2 j0 ⟨hj1, hji0.1.1⟩ i0 hji0.2)).2
      rw [hgam]; linarith
    · obtain ⟨j, h1, h2, rfl⟩ := hgetx x0 hx0
      have hne : xs.getD (j - 1) [] ≠ [] := by
        intro he
        have := (hget j h1 h2).1
        rw [he] at this; simp at this; omega
      obtain ⟨i, hi, he⟩ := List.mem_iff_getElem.1 (minCoeff_mem _ hne)
      have hij : i < j := by rw [(hget j h1 h2).1] at hi; exact hi
      have h3 := (abs_le.1 (hy2 j ⟨h1, h2⟩ i hij)).1
      rw [List.getD_eq_getElem _ 0 hi, he] at h3
      have h4 := hbound j i h2 hij
      rw [hg3]; linarith
  obtain ⟨ha1, ha2⟩ := abs_le.1 habs
  have htest : ∀ j i, j < k → i < j →
      ((xs.getD (j - 1) []).getD i 0 ≤ thr g ↔ y j i = -gam) := by
    intro j i hj hi
    obtain ⟨ht1, ht2⟩ := hm.thr L _ j0 (y j0) i0 g hL3 hji0.2 hji0.1.1 (hy1 j0 ⟨by omega, hji0.1.1⟩) habs
    have h3 := abs_le.1 (hy2 j ⟨by omega, hj⟩ i hi)
    have hc1 := ht.cover
    constructor
    · intro hle
      by_contra hne
      have hlt : -gam < y j i := lt_of_le_of_ne (hbound j i hj hi) (Ne.symm hne)
      have hgap := ratio_gap hupos hgratio.neg (hratio j i hj hi) hlt
      have hfine := ht.fine
      have hd : y j i - -gam ≤ tol + 2 * δ := by linarith [h3.1]
      have hn2 : (0 : ℚ) ≤ (n : ℚ) ^ 2 := by positivity
      have := mul_le_mul_of_nonneg_right hd hn2
      linarith
    · intro he
      linarith [h3.2]
  -- the merges
  set cs := mergesAt L xs thr g with hcs
  have hcsmem : ∀ c, c ∈ cs ↔ ∃ j i, j < k ∧ i < j ∧ y j i = -gam ∧
      c = ⟨(L.getD j []).headD 0, (L.getD i []).headD 0, g⟩ := by
    intro c
    rw [hcs, mem_mergesAt]
    constructor
    · rintro ⟨j, i, h1, h2, h3, h4⟩; exact ⟨j, i, h1, h2, (htest j i h1 h2).1 h3, h4⟩
    · rintro ⟨j, i, h1, h2, h3, h4⟩; exact ⟨j, i, h1, h2, (htest j i h1 h2).2 h3, h4⟩
  have hheadlt : ∀ i, i < k → (L.getD i []).headD 0 < n := fun i hi =>
    Finset.mem_range.1 (hb.subset hi (clustering_head hL3 hi))
  have hrange : InRange n cs := by
    intro c hc'
    obtain ⟨j, i, h1, h2, -, rfl⟩ := (hcsmem c).1 hc'
    exact ⟨hheadlt j h1, hheadlt i (h2.trans h1)⟩
  obtain ⟨hc', hc1, hc2, hc3⟩ := mergeAll_from cs hs.inv hs.size hrange
  have hval : ∀ c ∈ cs, c.val = g := by
    intro c hc'
    obtain ⟨j, i, -, -, -, rfl⟩ := (hcsmem c).1 hc'
    rfl
  -- old merges are above
  have hcoarse : ∀ R, IsOptimalSF h V gam R → Refines (blockSet k C) R := by
    intro R hR
    rw [hPC]
    cases t with
    | nil =>
      have : P = singletons V := hs.last
      rw [this]; exact singletons_refines hR.1
    | cons p t' =>
      obtain ⟨g1, B⟩ := p
      have hlt : gam < g1 := hround.lt hb hh (by rw [hPC]; exact hs.linked.1)
        (by rw [hPC]; exact (hs.top g1 B t' rfl).1)
      exact hR.refines hh hs.linked.1 hlt
  have hAabove : ∀ a ∈ A, g < a.val := by
    intro a ha
    cases t with
    | nil => rw [hs.start rfl] at ha; simp at ha
    | cons p t' =>
      obtain ⟨g1, B⟩ := p
      obtain ⟨h1, h2, h3⟩ := hs.top g1 B t' rfl
      have hlt : gam < g1 := hround.lt hb hh (by rw [hPC]; exact hs.linked.1) (by rw [hPC]; exact h1)
      have hgap := ratio_gap hupos hgratio h2 hlt
      have h4 := h3 a ha
      have hfine := ht.fine
      have hc1 := ht.cover
      have hn2 : (1 : ℚ) ≤ (n : ℚ) ^ 2 := by
        have : (1 : ℚ) ≤ n := by exact_mod_cast hn
        nlinarith
      by_contra hcon
      rw [not_lt] at hcon
      have hd : g1 - gam ≤ 2 * δ := by linarith
      have h0 := ht.nonneg
      have : (g1 - gam) * (n : ℚ) ^ 2 ≤ (tol + 2 * δ) * (n : ℚ) ^ 2 :=
        mul_le_mul_of_nonneg_right (by linarith) (by linarith)
      linarith
  have hjoin := joined_acceptedFrom cs A (fun a ha c hc' => by rw [hval c hc']; exact (hAabove a ha).le)
    (List.pairwise_of_forall_mem_list fun a ha b hb' => by rw [hval a ha, hval b hb'])
  obtain ⟨L', hL1', hL2'⟩ := getPartition_spec hc3.forest (by rw [hc2]; exact hn) ⊥
  rw [hc2] at hL2'
  have hL3' := hL2'.congr (hc3.fj ⊥)
  have hsameA : ∀ v w, v < n → w < n →
      (Joined A ⊥ v w ↔ ∃ i, i < k ∧ v ∈ C i ∧ w ∈ C i) := by
    intro v w hv hw
    rw [← hs.same v w hv hw, ← hPC, same_blockSet]
  -- connectivity after the merges
  have hrel : ∀ v w, Joined (A ++ cs) ⊥ v w ↔ RoundRel k C y gam v w := by
    intro v w
    refine eqvGen_congr ?_ ?_ v w
    · rintro a b ⟨c, hcm, rfl, rfl, -⟩
      rcases List.mem_append.1 hcm with hcm | hcm
      · obtain ⟨r1, r2⟩ := hs.inv.range c hcm
        rw [hs.size] at r1 r2
        refine EqvGen.rel _ _ (Or.inl ((hsameA _ _ r1 r2).1 (EqvGen.rel _ _ ⟨c, hcm, rfl, rfl, ?_⟩)))
        exact WithBot.bot_lt_coe _
      · obtain ⟨j, i, h1, h2, h3, rfl⟩ := (hcsmem c).1 hcm
        exact EqvGen.rel _ _ (Or.inr ⟨j, i, h1, h2, h3, clustering_head hL3 h1,
          clustering_head hL3 (h2.trans h1)⟩)
    · have hA : ∀ a b, Joined A ⊥ a b → Joined (A ++ cs) ⊥ a b := fun a b hab =>
        eqvGen_imp (fun x z ⟨c, h1, h2⟩ => EqvGen.rel _ _ ⟨c, List.mem_append_left _ h1, h2⟩) _ _ hab
      have hlt : ∀ i v, i < k → v ∈ C i → v < n := fun i v hi hv =>
        Finset.mem_range.1 (hb.subset hi hv)
      rintro a b (⟨i, hi, h1, h2⟩ | ⟨j, i, hj, hi, hx, h1, h2⟩)
      · exact hA a b ((hsameA a b (hlt i a hi h1) (hlt i b hi h2)).2 ⟨i, hi, h1, h2⟩)
      · have hik := hi.trans hj
        have e1 := hA a _ ((hsameA a _ (hlt j a hj h1) (hheadlt j hj)).2
          ⟨j, hj, h1, clustering_head hL3 hj⟩)
        have e2 := hA _ b ((hsameA _ b (hheadlt i hik) (hlt i b hik h2)).2
          ⟨i, hik, clustering_head hL3 hik, h2⟩)
        refine EqvGen.trans _ _ _ e1 (EqvGen.trans _ _ _ (EqvGen.rel _ _ ⟨_,
          List.mem_append_right _ ((hcsmem _).2 ⟨j, i, hj, hi, hx, rfl⟩), rfl, rfl, ?_⟩) e2)
        exact WithBot.bot_lt_coe _
  have hP' := clustering_partition hL3'
  have hsame' : ∀ v w, v ∈ V → w ∈ V → (Same (toPartition L') v w ↔ RoundRel k C y gam v w) := by
    intro v w hv hw
    rw [clustering_same hL3' (Finset.mem_range.1 hv) (Finset.mem_range.1 hw), hjoin, hrel]
  obtain ⟨o1, o2, o3, o4, o5⟩ := hround.step hb hh hcoarse hP' hsame'
  rw [hPC] at o1 o4 o5
  -- the last value
  obtain ⟨hsub1, hsub2⟩ := acceptedFrom_sub cs A
  have hnew : ∃ a ∈ acceptedFrom A cs, a.val = g := by
    by_contra hno
    apply o5
    apply eq_of_same hs.part hP'
    intro v w
    by_cases hv : v < n
    · by_cases hw : w < n
      · rw [hs.same v w hv hw, clustering_same hL3' hv hw]
        refine eqvGen_congr ?_ ?_ v w
        · rintro a b ⟨c, h1, h2⟩; exact EqvGen.rel _ _ ⟨c, hsub1 c h1, h2⟩
        · rintro a b ⟨c, h1, h2⟩
          rcases hsub2 c h1 with h3 | h3
          · exact EqvGen.rel _ _ ⟨c, h3, h2⟩
          · exact absurd ⟨c, h1, hval c h3⟩ hno
      · constructor
        · intro hh'; exact absurd (Finset.mem_range.1 (hh'.mem_right hs.part)) hw
        · intro hh'; exact absurd (Finset.mem_range.1 (hh'.mem_right hP')) hw
    · constructor
      · intro hh'; exact absurd (Finset.mem_range.1 (hh'.mem_left hs.part)) hv
      · intro hh'; exact absurd (Finset.mem_range.1 (hh'.mem_left hP')) hv
  have hlast : hc'.gamma.getLast? = some g := by
    obtain ⟨a, ha, hag⟩ := hnew
    have hgm : g ∈ hc'.gamma := (hc3.mem g).2 ⟨a, ha, hag⟩
    obtain ⟨l, hl⟩ : ∃ l, hc'.gamma.getLast? = some l := by
      cases hgl : hc'.gamma.getLast? with
      | none => rw [List.getLast?_eq_none_iff] at hgl; rw [hgl] at hgm; simp at hgm
      | some l => exact ⟨l, rfl⟩
    have h1 := hc3.last l hl a ha
    obtain ⟨b, hb', hbl⟩ := (hc3.mem l).1 (List.mem_of_getLast? hl)
    rw [hl]
    rcases hsub2 b hb' with h2 | h2
    · have := hAabove b h2
      rw [hag] at h1; linarith
    · rw [← hbl, hval b h2]
  refine ⟨hc', acceptedFrom A cs, L', gam, g, ?_, hL1', hlast, habs, ?_, ?_⟩
  · unfold agglomerateWith
    rw [hL1]
    simp only [Outcome.ok_bind, ← hk, if_neg (not_le.2 hk1), hxs, hg1, Outcome.pure_eq]
    show (do let h' ← hc.mergeAll (mergesAt L xs thr g); Outcome.ok (h', true)) = _
    rw [← hcs, hc1]
    rfl
  · exact o4.card_lt hs.part hP' o5
  · refine ⟨hc3, hc2, ?_, hP', ⟨o2, o1, ⟨o4, o5⟩, hs.linked⟩, ?_, ?_, ?_, ?_⟩
    · intro v w hv hw
      exact clustering_same hL3' hv hw
    · exact hs.last
    · rw [List.map_cons, List.pairwise_cons]
      refine ⟨?_, hs.increasing⟩
      cases t with
      | nil => simp
      | cons p t' =>
        obtain ⟨g1, B⟩ := p
        have hlt : gam < g1 := hround.lt hb hh (by rw [hPC]; exact hs.linked.1)
          (by rw [hPC]; exact (hs.top g1 B t' rfl).1)
        intro z hz
        rw [List.map_cons, List.mem_cons] at hz
        rcases hz with rfl | hz
        · exact hlt
        · have := hs.increasing
          rw [List.map_cons, List.pairwise_cons] at this
          exact hlt.trans (this.1 z hz)
    · intro he; simp at he
    · intro g2 B t' he
      simp only [List.cons.injEq, Prod.mk.injEq] at he
      obtain ⟨⟨rfl, rfl⟩, rfl⟩ := he
      refine ⟨o3, hgratio, ?_⟩
      intro a ha
      rcases hsub2 a ha with h1 | h1
      · have := hAabove a h1; linarith
      · rw [hval a h1]; linarith

theorem close_of_accurate (hf : Represents f h) (hfn : f.size = n) (hn : 0 < n)
    (hh : Intersecting (Finset.range n) h) (ht : AggTolerance h n tol δ u)
    (hm : ∀ L R j, IsClustering n R L → j < L.length →
      Accurate δ (sfJoin (sfContract f L) j) (mnb (sfJoin (sfContract f L) j))) :
    Close mnb (sfContract f) (fun g => -g + tol) h n tol δ fun _ => True := by
  subst hfn
  refine ⟨fun L R j _ hL hj1 hj => ?_, fun _ _ _ _ _ g _ _ _ _ _ => ⟨by linarith [ht.cover], le_rfl⟩⟩
  exact hm L R j hL hj (joinFn h (blockAt L) j) hj1 (fun B hB hBj => sfJoin_val hf hL hj hB hBj) (joinFn_empty j)
    ((clustering_blocks hL).joinFn_submodular hh hj)

/-! ### The whole run -/

/-- The loop of `run` with any `agglomerate`. -/
def loopWith (step : HC → Outcome (HC × Bool)) :
    ℕ → HC → List Partition → List ℚ → Outcome (List Partition × List ℚ)
  | 0, _, _, _ => .fuel
  | k + 1, h, ps, cv => do
    let (h', more) ← step h
    if more then
      let P ← h'.getCoarsestPartition
      match h'.getCriticalValues.getLast? with
      | none => .ub "back() of an empty vector"
      | some c => loopWith step k h' (toPartition P :: ps) (c :: cv)
    else return (ps, cv)

theorem aggLoop_with (mnb : SF → Outcome (List ℚ)) (f : SF) (tol : ℚ) : ∀ (k : ℕ) (h : HC) (ps : List Partition)
    (cv : List ℚ), aggLoop mnb f tol k h ps cv =
      loopWith (agglomerateWith mnb (sfContract f) fun g => -g + tol) k h ps cv := by
  intro k
  induction k with
  | zero => intros; rfl
  | succ k ih =>
    intro h ps cv
    simp only [aggLoop, loopWith, ih, agglomerate_with]
    rfl

theorem loopWith_spec (hn : 0 < n) (hh : Intersecting (Finset.range n) h) (ht : AggTolerance h n tol δ u)
    (hm : Close mnb contract thr h n tol δ D) :
    ∀ (fuel : ℕ) (hc : HC) (A : List Link) (P : Finset (Finset ℕ))
      (t : List (ℚ × Finset (Finset ℕ))) (cv : List ℚ), AggState h n δ u hc A P t →
      (∀ hc', Reached (agglomerateWith mnb contract thr) hc hc' → ∀ L, hc'.getPartition ⊥ = .ok L → D L) → P.card ≤ fuel → List.Forall₂ (fun a b => |a - b| ≤ δ) cv (t.map Prod.fst) →
      ∃ cv' t', loopWith (agglomerateWith mnb contract thr) fuel hc (P :: t.map Prod.snd) cv =
          .ok ({Finset.range n} :: t'.map Prod.snd, cv') ∧
        List.Forall₂ (fun a b => |a - b| ≤ δ) cv' (t'.map Prod.fst) ∧
        LinkedSF h (Finset.range n) {Finset.range n} t' ∧
        lastOf {Finset.range n} t' = singletons (Finset.range n) ∧
        (t'.map Prod.fst).Pairwise (· < ·) := by
  intro fuel
  induction fuel with
  | zero =>
    intro hc A P t cv hs _ hcard _
    have := hs.part.card_pos ⟨0, Finset.mem_range.2 hn⟩
    omega
  | succ fuel ih =>
    intro hc A P t cv hs hD hcard hcv
    rcases agglomerateWith_spec hn hh ht hm (hD hc .start) hs with ⟨h1, h2⟩ |
      ⟨hc', A', L', g, c, h1, h2, h3, h4, h5, h6⟩
    · refine ⟨cv, t, ?_, hcv, ?_, ?_, hs.increasing⟩
      · simp only [loopWith, h1, Outcome.ok_bind, h2]
        rfl
      · rw [← h2]; exact hs.linked
      · rw [← h2]; exact hs.last
    · obtain ⟨cv', t', k1, k2⟩ := ih hc' A' (toPartition L') ((g, P) :: t) (c :: cv) h6
        (fun hc' hr => hD hc' (hr.trans_next h1)) (by omega)
        (List.Forall₂.cons h4 hcv)
      refine ⟨cv', t', ?_, k2⟩
      simp only [loopWith, h1, Outcome.ok_bind, h2, h3]
      exact k1

theorem joined_nil {gam : WithBot ℚ} {v w : ℕ} : Joined [] gam v w ↔ v = w := by
  constructor
  · intro hj
    induction hj with
    | rel a b hab => obtain ⟨c, hc, -⟩ := hab; simp at hc
    | refl => rfl
    | symm _ _ _ ih => exact ih.symm
    | trans _ _ _ _ _ i1 i2 => exact i1.trans i2
  · rintro rfl; exact EqvGen.refl _

theorem same_singletons {V : Finset ℕ} {v w : ℕ} (hv : v ∈ V) : Same (singletons V) v w ↔ v = w := by
  unfold Same singletons
  simp only [Finset.mem_image]
  constructor
  · rintro ⟨B, ⟨a, -, rfl⟩, h1, h2⟩
    rw [Finset.mem_singleton] at h1 h2
    rw [h1, h2]
  · rintro rfl
    exact ⟨{v}, ⟨v, hv, rfl⟩, by simp, by simp⟩

/-- `run` returns the principal sequence of the set function; the critical values are off by at most
the error of the minimum norm bases. -/
theorem runWith_spec (hn : 0 < n) (hh : Intersecting (Finset.range n) h) (ht : AggTolerance h n tol δ u)
    (hm : Close mnb contract thr h n tol δ D)
    (hD : ∀ hc, Reached (agglomerateWith mnb contract thr) (HC.new n) hc → ∀ L, hc.getPartition ⊥ = .ok L → D L) :
    ∃ ps cv cv', (do
        let P ← (HC.new n).getCoarsestPartition
        loopWith (agglomerateWith mnb contract thr) (n + 1) (HC.new n) [toPartition P] []) = .ok (ps, cv') ∧
      IsPrincipalSequenceSF h (Finset.range n) ps cv ∧
      List.Forall₂ (fun a b => |a - b| ≤ δ) cv' cv := by
  have hinv := HCInv.new n
  obtain ⟨L, hL1, hL2⟩ := getPartition_spec hinv.forest (show 0 < (HC.new n).n from hn) ⊥
  have hL3 : IsClustering n (Joined [] ⊥) L := hL2.congr (hinv.fj ⊥)
  have hpart := clustering_partition hL3
  have hfine : toPartition L = singletons (Finset.range n) := by
    apply eq_of_same hpart (isPartition_singletons _)
    intro v w
    by_cases hv : v < n
    · rw [same_singletons (Finset.mem_range.2 hv)]
      by_cases hw : w < n
      · rw [clustering_same hL3 hv hw, joined_nil]
      · constructor
        · intro hh'; exact absurd (Finset.mem_range.1 (hh'.mem_right hpart)) hw
        · intro he; omega
    · constructor
      · intro hh'; exact absurd (Finset.mem_range.1 (hh'.mem_left hpart)) hv
      · intro hh'
        exact absurd (Finset.mem_range.1 (hh'.mem_left (isPartition_singletons _))) hv
  have hs : AggState h n δ u (HC.new n) [] (toPartition L) [] := by
    refine ⟨hinv, rfl, fun v w hv hw => clustering_same hL3 hv hw, hpart, trivial, hfine, by simp,
      fun _ => rfl, ?_⟩
    intro g B t' he; simp at he
  obtain ⟨cv', t', h1, h2, h3, h4, h5⟩ := loopWith_spec hn hh ht hm (n + 1) _ _ _ _ [] hs hD
    (by have := hpart.card_le; rw [Finset.card_range] at this; omega) List.Forall₂.nil
  refine ⟨_, _, cv', ?_, LinkedSF.principal hh ⟨0, Finset.mem_range.2 hn⟩ h3 h4 h5, h2⟩
  unfold HC.getCoarsestPartition
  rw [hL1]
  exact h1

theorem aggRunSF_spec (hf : Represents f h) (hfn : f.size = n) (hn : 0 < n)
    (hh : Intersecting (Finset.range n) h) (ht : AggTolerance h n tol δ u)
    (hm : ∀ L R j, IsClustering n R L → j < L.length →
      Accurate δ (sfJoin (sfContract f L) j) (mnb (sfJoin (sfContract f L) j))) :
    ∃ ps cv cv', aggRunSF mnb f tol = .ok (ps, cv') ∧
      IsPrincipalSequenceSF h (Finset.range n) ps cv ∧
      List.Forall₂ (fun a b => |a - b| ≤ δ) cv' cv := by
  obtain ⟨ps, cv, cv', h1, h2⟩ := runWith_spec hn hh ht (close_of_accurate hf hfn hn hh ht hm) fun _ _ _ _ => trivial
  refine ⟨ps, cv, cv', ?_, h2⟩
  unfold aggRunSF
  dsimp only
  rw [hfn]
  simp only [aggLoop_with]
  exact h1

end PSP.Theory
