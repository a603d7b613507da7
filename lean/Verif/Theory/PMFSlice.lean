import Mathlib.Algebra.Order.Ring.Abs
import Verif.Theory.PMFNet

/-!
# `PMF::slice` finds all minimum cuts of the parametric network
-/

namespace PSP.Theory

open PSP.Spec PSP.Model

variable {E : List Arc} {ε : ℚ} {j : ℕ} {y : ℕ → YPair} {X A B : Finset ℕ} {l m : ℚ}

/-- The quantity minimised for node `j`: `f(X ∪ {j}) - y_λ(X)`. -/
def obj (E : List Arc) (j : ℕ) (y : ℕ → YPair) (lam : ℚ) (X : Finset ℕ) : ℚ :=
  getCutValue E (insert j X) - vsum (yAt y lam) X

/-- `X` is a minimiser. -/
structure MinAt (E : List Arc) (j : ℕ) (y : ℕ → YPair) (lam : ℚ) (X : Finset ℕ) : Prop where
  sub : X ⊆ Finset.range j
  le : ∀ Z ⊆ Finset.range j, obj E j y lam X ≤ obj E j y lam Z

/-- `X` is the least minimiser. -/
structure LeastAt (E : List Arc) (j : ℕ) (y : ℕ → YPair) (lam : ℚ) (X : Finset ℕ) : Prop
    extends MinAt E j y lam X where
  least : ∀ Z ⊆ Finset.range j, obj E j y lam Z = obj E j y lam X → X ⊆ Z

theorem obj_submodular (hE : NonnegE E) (lam : ℚ) (A B : Finset ℕ) :
    obj E j y lam (A ∪ B) + obj E j y lam (A ∩ B) ≤ obj E j y lam A + obj E j y lam B := by
  unfold obj
  have h1 := cutValue_submodular hE (insert j A) (insert j B)
  have h2 := vsum_union_inter (yAt y lam) A B
  rw [← Finset.insert_union_distrib, ← Finset.insert_inter_distrib] at h1
  linarith

theorem vsum_sdiff (x : ℕ → ℚ) (h : B ⊆ A) : vsum x A = vsum x (A \ B) + vsum x B :=
  (Finset.sum_sdiff h).symm

theorem vsum_yAt_anti (h : l ≤ m) (A : Finset ℕ) : vsum (yAt y m) A ≤ vsum (yAt y l) A :=
  Finset.sum_le_sum fun i _ => yVal_anti h (y i)

theorem obj_mono (h : l ≤ m) (hBA : B ⊆ A) :
    obj E j y l A - obj E j y l B ≤ obj E j y m A - obj E j y m B := by
  unfold obj
  rw [vsum_sdiff (yAt y l) hBA, vsum_sdiff (yAt y m) hBA]
  have := vsum_yAt_anti (y := y) h (A \ B)
  linarith

/-- Minimisers shrink when the parameter grows. -/
theorem LeastAt.subset (hE : NonnegE E) (hB : LeastAt E j y m B) (hA : MinAt E j y l A)
    (h : l ≤ m) : B ⊆ A := by
  have h1 := obj_mono (E := E) (j := j) (y := y) h (Finset.subset_union_left : A ⊆ A ∪ B)
  have h2 := hA.le (A ∪ B) (Finset.union_subset hA.sub hB.sub)
  have h3 := obj_submodular (j := j) (y := y) hE m A B
  have hi : A ∩ B ⊆ Finset.range j := Finset.inter_subset_left.trans hA.sub
  have h4 := hB.le _ hi
  have h5 := hB.least _ hi (by linarith)
  exact h5.trans Finset.inter_subset_left

theorem MinAt.obj_eq (hA : MinAt E j y l A) (hB : MinAt E j y l B) :
    obj E j y l A = obj E j y l B := le_antisymm (hA.le B hB.sub) (hB.le A hA.sub)

theorem MinAt.of_eq (hA : MinAt E j y l A) (hB : B ⊆ Finset.range j)
    (h : obj E j y l B = obj E j y l A) : MinAt E j y l B :=
  ⟨hB, fun Z hZ => h ▸ hA.le Z hZ⟩

/-- What the flow solver returns on the network for `lam`. -/
theorem warm_min {W : WarmSolver} (hW : W.Correct) (hg : PGood E ε) {init : Option (List ℚ)}
    (hi : ∀ f, init = some f → IsPreflow (pmfNet ε E j y l) f) :
    MinAt E j y l (W.sinkSide (pmfNet ε E j y l) init) ∧
    (W.run (pmfNet ε E j y l) init).value =
      obj E j y l (W.sinkSide (pmfNet ε E j y l) init) +
        ((List.range j).map fun i => max 0 (yAt y l i)).sum ∧
    (W.Minimal → LeastAt E j y l (W.sinkSide (pmfNet ε E j y l) init)) := by
  have hN := pmfNet_nonneg (j := j) (y := y) (lam := l) hg
  have hsub : W.sinkSide (pmfNet ε E j y l) init ⊆ Finset.range j := Finset.filter_subset _ _
  have hv := hW.value_eq _ init hN hi
  have hcut : ∀ Z ⊆ Finset.range j, (pmfNet ε E j y l).cutCap Z = obj E j y l Z +
      ((List.range j).map fun i => max 0 (yAt y l i)).sum := fun Z hZ => by
    rw [pmfNet_cutCap hg hZ]; rfl
  rw [hcut _ hsub] at hv
  have hmin : MinAt E j y l (W.sinkSide (pmfNet ε E j y l) init) := by
    refine ⟨hsub, fun Z hZ => ?_⟩
    have := hW.le_cut _ init hN hi Z hZ
    rw [hcut Z hZ, hv] at this
    linarith
  refine ⟨hmin, hv, fun hM => ⟨hmin, fun Z hZ h => ?_⟩⟩
  apply hM.minimal _ init hN hi Z hZ
  rw [hcut Z hZ, hv, h]

/-! ### granularity -/

/-- `q` is an integer multiple of `d`. -/
def Gran (d q : ℚ) : Prop := ∃ k : ℤ, q = k * d

theorem Gran.zero (d : ℚ) : Gran d 0 := ⟨0, by simp⟩
theorem Gran.add {d a b : ℚ} (ha : Gran d a) (hb : Gran d b) : Gran d (a + b) := by
  obtain ⟨k, rfl⟩ := ha; obtain ⟨m, rfl⟩ := hb
  exact ⟨k + m, by push_cast; ring⟩
theorem Gran.neg {d a : ℚ} (ha : Gran d a) : Gran d (-a) := by
  obtain ⟨k, rfl⟩ := ha; exact ⟨-k, by push_cast; ring⟩
theorem Gran.sub {d a b : ℚ} (ha : Gran d a) (hb : Gran d b) : Gran d (a - b) := by
  rw [sub_eq_add_neg]; exact ha.add hb.neg
theorem Gran.div {d a : ℚ} (ha : Gran d a) {L : ℕ} (hL : L ≠ 0) : Gran (d / L) a := by
  obtain ⟨k, rfl⟩ := ha
  exact ⟨k * L, by push_cast; field_simp⟩
theorem Gran.list_sum {d : ℚ} {L : List ℚ} (h : ∀ a ∈ L, Gran d a) : Gran d L.sum := by
  induction L with
  | nil => exact Gran.zero d
  | cons a L ih =>
    rw [List.sum_cons]
    exact (h a List.mem_cons_self).add (ih fun b hb => h b (List.mem_cons_of_mem _ hb))
theorem Gran.vsum {d : ℚ} {x : ℕ → ℚ} {S : Finset ℕ} (h : ∀ i ∈ S, Gran d (x i)) :
    Gran d (vsum x S) := by
  unfold Theory.vsum
  exact Finset.sum_induction _ (Gran d) (fun a b => Gran.add) (Gran.zero d) h

theorem Gran.eq_zero {d a ε : ℚ} (h : Gran d a) (hd : ε < d) (hp : 0 < d) (ha : |a| ≤ ε) : a = 0 := by
  obtain ⟨k, rfl⟩ := h
  have hk : k = 0 := by
    by_contra hk
    have h1 : (1 : ℚ) ≤ |(k : ℚ)| := by exact_mod_cast Int.one_le_abs hk
    rw [abs_mul, abs_of_pos hp] at ha
    nlinarith
  simp [hk]

/-- A positive multiple is at least `d`. -/
theorem Gran.le_of_pos {d a : ℚ} (h : Gran d a) (hp : 0 < d) (ha : 0 < a) : d ≤ a := by
  obtain ⟨k, rfl⟩ := h
  have hk : 0 < k := by
    have : (0 : ℚ) < k := by
      by_contra hk
      have := mul_nonpos_of_nonpos_of_nonneg (not_lt.1 hk) hp.le
      linarith
    exact_mod_cast this
  have : (1 : ℚ) ≤ k := by exact_mod_cast hk
  nlinarith

theorem gran_cutValue {d : ℚ} (h : ∀ e ∈ E, Gran d e.cap) (S : Finset ℕ) : Gran d (getCutValue E S) := by
  unfold getCutValue
  apply Gran.list_sum
  intro a ha
  rw [List.mem_map] at ha
  obtain ⟨e, he, rfl⟩ := ha
  split
  · exact h e he
  · exact Gran.zero d

/-- `y = (a, b)` with multiples of `d`. -/
def GranY (d : ℚ) (p : YPair) : Prop := Gran d p.1 ∧ ∀ b, p.2 = some b → Gran d b

theorem GranY.yVal {d lam : ℚ} {p : YPair} (h : GranY d p) (hl : Gran d lam) : Gran d (yVal lam p) := by
  obtain ⟨a, b⟩ := p
  cases b with
  | none => exact h.1.sub hl
  | some b =>
    simp only [Model.yVal, minO]
    rcases min_choice (a - lam) b with h' | h' <;> rw [h']
    · exact h.1.sub hl
    · exact h.2 b rfl

theorem Gran.mono_div {d : ℚ} {p : YPair} (h : GranY d p) {L : ℕ} (hL : L ≠ 0) : GranY (d / L) p :=
  ⟨h.1.div hL, fun b hb => (h.2 b hb).div hL⟩

/-- A solution is a multiple of `d / c` for the number `c` of decreasing terms. -/
theorem root_gran {d lam : ℚ} {ps : List YPair} (h : ∀ p ∈ ps, GranY d p) :
    ∃ c : ℕ, c ≤ ps.length ∧ Gran d (ySum ps lam + c * lam) ∧
      (c = 0 → ∀ l, ySum ps l ≤ ySum ps lam) := by
  induction ps with
  | nil => exact ⟨0, le_rfl, by simp [ySum, Gran.zero], fun _ l => by simp [ySum]⟩
  | cons p ps ih =>
    obtain ⟨c, hc, hg, h0⟩ := ih fun q hq => h q (List.mem_cons_of_mem _ hq)
    have hp := h p List.mem_cons_self
    have hs : ∀ l, ySum (p :: ps) l = yVal l p + ySum ps l := fun l => by simp [ySum]
    obtain ⟨a, b⟩ := p
    have hact : ∀ (_ : yVal lam (a, b) = a - lam), ∃ c : ℕ, c ≤ ((a, b) :: ps).length ∧
        Gran d (ySum ((a, b) :: ps) lam + c * lam) ∧
        (c = 0 → ∀ l, ySum ((a, b) :: ps) l ≤ ySum ((a, b) :: ps) lam) := by
      intro hy
      refine ⟨c + 1, by simpa using hc, ?_, by simp⟩
      rw [hs, hy]
      have := hp.1.add hg
      obtain ⟨k, hk⟩ := this
      exact ⟨k, by rw [← hk]; push_cast; ring⟩
    cases b with
    | none => exact hact rfl
    | some b =>
      by_cases hy : a - lam ≤ b
      · exact hact (min_eq_left hy)
      · have hy' : yVal lam (a, some b) = b := min_eq_right (not_le.1 hy).le
        refine ⟨c, by simp; omega, ?_, ?_⟩
        · rw [hs, hy']
          have := (hp.2 b rfl).add hg
          rwa [← add_assoc] at this
        · intro hc0 l
          rw [hs, hs, hy']
          exact add_le_add (min_le_right _ _) (h0 hc0 l)

/-- With fine granularity `compute_lambda` returns the solution, which is again granular. -/
theorem computeLambda_exact {d : ℚ} {L : ℕ} (hε : 0 ≤ ε) (hd : 0 < d) (hL : L ≠ 0)
    (hεd : ε < d) {ps : List YPair} (hne : ps ≠ []) (h : ∀ p ∈ ps, GranY d p)
    (hLd : ∀ c, 0 < c → c ≤ ps.length → c ∣ L) {target : ℚ} (ht : Gran d target)
    (hl : target < ySum ps l) :
    ∃ lam, computeLambda ε ps target = .ok lam ∧ ySum ps lam = target ∧ l < lam ∧ Gran (d / L) lam := by
  have key : ∃ lam, computeLambda ε ps target = .ok lam ∧ ySum ps lam = target := by
    rcases computeLambda_spec hε hne target with ⟨lam, h1, h2⟩ | ⟨_, h2⟩
    · refine ⟨lam, h1, ?_⟩
      rcases h2 with h2 | ⟨⟨p, hp, b, hb, h3⟩, h2⟩
      · exact h2
      · have hlam : Gran d lam := by
          rw [h3]; exact (h p hp).1.sub ((h p hp).2 b hb)
        have : Gran d (ySum ps lam) := by
          unfold ySum
          apply Gran.list_sum
          intro a ha
          rw [List.mem_map] at ha
          obtain ⟨q, hq, rfl⟩ := ha
          exact (h q hq).yVal hlam
        have := (this.sub ht).eq_zero hεd hd h2
        linarith
    · have := h2 l; linarith
  obtain ⟨lam, h1, h2⟩ := key
  refine ⟨lam, h1, h2, ?_, ?_⟩
  · by_contra hc
    have := ySum_anti (not_lt.1 hc) ps
    linarith
  · obtain ⟨c, hc, hg, h0⟩ := root_gran (lam := lam) h
    have hc0 : 0 < c := by
      rcases Nat.eq_zero_or_pos c with hc' | hc'
      · have := h0 hc' l; linarith
      · exact hc'
    obtain ⟨k, hk⟩ := hLd c hc0 hc
    rw [h2] at hg
    obtain ⟨z, hz⟩ := hg.sub ht
    have hck : (c : ℚ) ≠ 0 := by exact_mod_cast hc0.ne'
    have hkk : (k : ℚ) ≠ 0 := by
      have : k ≠ 0 := by rintro rfl; simp at hk; exact hL hk
      exact_mod_cast this
    refine ⟨z * k, ?_⟩
    rw [hk]
    push_cast
    field_simp
    linarith

/-! ### chains of minimisers -/

/-- `A` followed by the sets of the list: neighbours are both minimisers at the parameter written
between them, and the sets strictly shrink. -/
def SChain (E : List Arc) (j : ℕ) (y : ℕ → YPair) : Finset ℕ → List (ℚ × Finset ℕ) → Prop
  | _, [] => True
  | A, (c, B) :: t => MinAt E j y c A ∧ MinAt E j y c B ∧ B ⊂ A ∧ SChain E j y B t

/-- Last set of a chain. -/
def slast : Finset ℕ → List (ℚ × Finset ℕ) → Finset ℕ
  | A, [] => A
  | _, (_, B) :: t => slast B t

variable {s t : List (ℚ × Finset ℕ)}

theorem SChain.append (hs : SChain E j y A s) (ht : SChain E j y (slast A s) t) :
    SChain E j y A (s ++ t) := by
  induction s generalizing A with
  | nil => exact ht
  | cons cb s ih =>
    obtain ⟨c, B⟩ := cb
    exact ⟨hs.1, hs.2.1, hs.2.2.1, ih hs.2.2.2 ht⟩

theorem slast_append (A : Finset ℕ) (s t : List (ℚ × Finset ℕ)) :
    slast A (s ++ t) = slast (slast A s) t := by
  induction s generalizing A with
  | nil => rfl
  | cons cb s ih => exact ih _

theorem slast_eq (A : Finset ℕ) {s : List (ℚ × Finset ℕ)} (hs : s ≠ []) :
    s.map Prod.snd = (s.map Prod.snd).dropLast ++ [slast A s] := by
  induction s generalizing A with
  | nil => simp at hs
  | cons cb s ih =>
    cases s with
    | nil => simp [slast]
    | cons cb' s =>
      have := ih cb.2 (by simp)
      simp only [List.map_cons, List.dropLast_cons_cons, slast] at this ⊢
      rw [List.cons_append, ← this]

/-- The list given to `compute_lambda` is `y` on `T_l \ T_r`. -/
theorem ySum_filter {n : ℕ} (hA : A ⊆ Finset.range j) (hjn : j < n) (lam : ℚ) :
    ySum (((List.range (n - 1)).filter fun i => decide (i ∈ insert j A ∧ i ∉ insert j B)).map y) lam =
      vsum (yAt y lam) (A \ B) := by
  unfold ySum
  rw [List.map_map, list_sum_toFinset (List.nodup_range.filter _)]
  unfold vsum
  apply Finset.sum_congr _ fun i _ => rfl
  ext v
  simp only [List.mem_toFinset, List.mem_filter, List.mem_range, decide_eq_true_eq, Finset.mem_insert,
    Finset.mem_sdiff]
  constructor
  · rintro ⟨_, h1, h2⟩; tauto
  · rintro ⟨h1, h2⟩
    have := Finset.mem_range.1 (hA h1)
    refine ⟨by omega, Or.inr h1, ?_⟩
    rintro (h | h)
    · omega
    · exact h2 h

/-- The result of a call of `slice`. -/
structure SliceSpec (E : List Arc) (j : ℕ) (y : ℕ → YPair) (d' : ℚ) (Xl Xr : Finset ℕ) (lam1 : ℚ)
    (lam3 : Option ℚ) (sets : List (Finset ℕ)) (lams : List ℚ) (t : List (ℚ × Finset ℕ)) : Prop where
  ne : t ≠ []
  chain : SChain E j y Xl t
  last : slast Xl t = Xr
  lams : lams.Perm (t.map Prod.fst)
  sets : sets.Perm ((t.map Prod.snd).dropLast.map (insert j))
  lo : ∀ c ∈ t.map Prod.fst, lam1 < c
  hi : ∀ c ∈ t.map Prod.fst, ∀ l ∈ lam3, c ≤ l
  inc : (t.map Prod.fst).Pairwise (· < ·)
  gran : ∀ c ∈ t.map Prod.fst, Gran d' c

theorem tolDifferent_of_gran {d' a b : ℚ} (ha : Gran d' a) (hb : Gran d' b) (hp : 0 < d') (hε : ε < d')
    (hne : a ≠ b) : tolDifferent ε a b = true := by
  unfold tolDifferent tolLess
  rcases lt_or_gt_of_ne hne with h | h
  · have := (hb.sub ha).le_of_pos hp (by linarith)
    simp; left; linarith
  · have := (ha.sub hb).le_of_pos hp (by linarith)
    simp; right; linarith

/-- A call of `slice` that finds nothing in between. -/
theorem SliceSpec.leaf {d' c : ℚ} {Xl Xr : Finset ℕ} {lam1 : ℚ} {lam3 : Option ℚ} (hsub : Xr ⊂ Xl)
    (hl : MinAt E j y c Xl) (hr : MinAt E j y c Xr) (h1 : lam1 < c) (h3 : ∀ l, lam3 = some l → c ≤ l)
    (hg : Gran d' c) : SliceSpec E j y d' Xl Xr lam1 lam3 [] [c] [(c, Xr)] :=
  ⟨by simp, ⟨hl, hr, hsub, trivial⟩, rfl, by simp, by simp, by simpa using h1, by simpa using h3, by simp,
    by simpa using hg⟩

/-- A call of `slice` that finds `T` in between. -/
theorem SliceSpec.append {d' lam1 lam2 : ℚ} {lam3 : Option ℚ} {Xl T Xr : Finset ℕ}
    {sa sb : List (Finset ℕ)} {la lb : List ℚ} {ta tb : List (ℚ × Finset ℕ)}
    (ha : SliceSpec E j y d' Xl T lam1 (some lam2) sa la ta)
    (hb : SliceSpec E j y d' T Xr lam2 lam3 sb lb tb) (h12 : lam1 < lam2)
    (h23 : ∀ l, lam3 = some l → lam2 ≤ l) :
    SliceSpec E j y d' Xl Xr lam1 lam3 (insert j T :: (sa ++ sb)) (la ++ lb) (ta ++ tb) := by
  have hsnd := slast_eq Xl ha.ne
  rw [ha.last] at hsnd
  refine ⟨by simp [ha.ne], ha.chain.append (by rw [ha.last]; exact hb.chain),
    by rw [slast_append, ha.last, hb.last], ?_, ?_, ?_, ?_, ?_, ?_⟩
  · rw [List.map_append]; exact ha.lams.append hb.lams
  · have e1 : ((ta ++ tb).map Prod.snd).dropLast = (ta.map Prod.snd) ++ (tb.map Prod.snd).dropLast := by
      rw [List.map_append, List.dropLast_append_of_ne_nil (by simpa using hb.ne)]
    rw [e1, List.map_append, hsnd, List.map_append]
    have := ((ha.sets.append hb.sets).cons (insert j T))
    refine this.trans ?_
    simp only [List.map_cons, List.map_nil, List.append_assoc, List.singleton_append]
    exact List.perm_middle.symm
  · intro c hc'
    rw [List.map_append] at hc'
    rcases List.mem_append.1 hc' with h | h
    · exact ha.lo c h
    · exact h12.trans (hb.lo c h)
  · intro c hc' l hl'
    rw [List.map_append] at hc'
    rcases List.mem_append.1 hc' with h | h
    · exact (ha.hi c h lam2 rfl).trans (h23 l hl')
    · exact hb.hi c h l hl'
  · rw [List.map_append, List.pairwise_append]
    exact ⟨ha.inc, hb.inc, fun a h1 b h2 => (ha.hi a h1 lam2 rfl).trans_lt (hb.lo b h2)⟩
  · intro c hc'
    rw [List.map_append] at hc'
    rcases List.mem_append.1 hc' with h | h
    · exact ha.gran c h
    · exact hb.gran c h

/-- The list given to `compute_lambda`. -/
def sliceList (n : ℕ) (y : ℕ → YPair) (Tl Tr : CSet) : List YPair :=
  ((List.range (n - 1)).filter fun i => i ∈ Tl ∧ i ∉ Tr).map y

/-- What every call of `slice` is given. -/
structure SlicePre (E : List Arc) (j : ℕ) (y : ℕ → YPair) (d' : ℚ) (Xl Xr : Finset ℕ) (lam1 : ℚ)
    (lam3 : Option ℚ) : Prop where
  sub : Xr ⊂ Xl
  left : LeastAt E j y lam1 Xl
  gran : Gran d' lam1
  right : ∀ l, lam3 = some l → LeastAt E j y l Xr ∧ lam1 < l ∧ Gran d' l
  none : lam3 = none → Xr = ∅

theorem SlicePre.subr {d' : ℚ} {Xl Xr : Finset ℕ} {lam1 : ℚ} {lam3 : Option ℚ}
    (h : SlicePre E j y d' Xl Xr lam1 lam3) : Xr ⊆ Finset.range j := h.sub.1.trans h.left.sub

/-- The parameter computed in `slice`. -/
theorem slice_lambda (hε0 : 0 < ε) {n : ℕ} (hjn : j < n)
    {d : ℚ} {L : ℕ} (hd : 0 < d) (hL : L ≠ 0) (hLd : ∀ c, 0 < c → c ≤ j → c ∣ L)
    (hεd : 10 * ε < d / L) (hE : ∀ e ∈ E, Gran d e.cap) (hy : ∀ i < j, GranY d (y i))
    {Xl Xr : Finset ℕ} {lam1 : ℚ} {lam3 : Option ℚ} (h : SlicePre E j y (d / L) Xl Xr lam1 lam3) :
    ∃ lam2, computeLambda ε (sliceList n y (insert j Xl) (insert j Xr))
        (getCutValue E (insert j Xl) - getCutValue E (insert j Xr)) = .ok lam2 ∧ lam1 < lam2 ∧
      Gran (d / L) lam2 ∧ obj E j y lam2 Xl = obj E j y lam2 Xr ∧ (∀ l, lam3 = some l → lam2 ≤ l) ∧
      tolDifferent ε lam2 lam1 = true ∧
      (lam3 ≠ some lam2 → tolDifferentO ε lam2 lam3 = true) ∧
      (lam3 = some lam2 → tolDifferentO ε lam2 lam3 = false) := by
  obtain ⟨hsub, hl, hgl, h3, h3n⟩ := h
  have hd' : 0 < d / L := div_pos hd (by exact_mod_cast Nat.pos_of_ne_zero hL)
  have hεd' : ε < d / L := by linarith
  have hεdd : ε < d := by
    have : d / L ≤ d := by
      have h1 : (1 : ℚ) ≤ L := by exact_mod_cast Nat.one_le_iff_ne_zero.2 hL
      rw [div_le_iff₀ (by linarith)]
      nlinarith
    linarith
  have hXl := hl.sub
  have hXr : Xr ⊆ Finset.range j := hsub.1.trans hXl
  have hlt1 : obj E j y lam1 Xl < obj E j y lam1 Xr := by
    refine lt_of_le_of_ne (hl.le Xr hXr) fun h => ?_
    exact hsub.2 (hl.least Xr hXr h.symm)
  have hobj : ∀ lam, obj E j y lam Xl - obj E j y lam Xr =
      (getCutValue E (insert j Xl) - getCutValue E (insert j Xr)) - vsum (yAt y lam) (Xl \ Xr) := by
    intro lam
    unfold obj
    rw [vsum_sdiff (yAt y lam) hsub.1]
    ring
  have hys := fun lam => ySum_filter (y := y) (A := Xl) (B := Xr) hXl hjn lam
  unfold sliceList
  set ps := ((List.range (n - 1)).filter fun i =>
    decide (i ∈ insert j Xl ∧ i ∉ insert j Xr)).map y with hps
  set const := getCutValue E (insert j Xl) - getCutValue E (insert j Xr) with hconst
  have hlen : ps.length ≤ j := by
    have : ((List.range (n - 1)).filter fun i =>
        decide (i ∈ insert j Xl ∧ i ∉ insert j Xr)).toFinset ⊆ Finset.range j := by
      intro v hv
      simp only [List.mem_toFinset, List.mem_filter, decide_eq_true_eq, Finset.mem_insert] at hv
      rcases hv.2.1 with h | h
      · exact absurd (Or.inl h) hv.2.2
      · exact hXl h
    have h' := Finset.card_le_card this
    rw [List.toFinset_card_of_nodup (List.nodup_range.filter _), Finset.card_range] at h'
    simpa [hps] using h'
  have hne : ps ≠ [] := by
    obtain ⟨v, hvl, hvr⟩ := Finset.exists_of_ssubset hsub
    have hvj := Finset.mem_range.1 (hXl hvl)
    intro h0
    have : y v ∈ ps := by
      rw [hps]
      apply List.mem_map.2 ⟨v, ?_, rfl⟩
      simp only [List.mem_filter, List.mem_range, decide_eq_true_eq, Finset.mem_insert]
      refine ⟨by omega, Or.inr hvl, ?_⟩
      rintro (h | h)
      · omega
      · exact hvr h
    rw [h0] at this
    simp at this
  have hgy : ∀ p ∈ ps, GranY d p := by
    intro p hp
    rw [hps, List.mem_map] at hp
    obtain ⟨i, hi, rfl⟩ := hp
    simp only [List.mem_filter, decide_eq_true_eq, Finset.mem_insert] at hi
    rcases hi.2.1 with h | h
    · exact absurd (Or.inl h) hi.2.2
    · exact hy i (Finset.mem_range.1 (hXl h))
  have hroot : const < ySum ps lam1 := by
    have := hobj lam1
    rw [hys]; linarith
  obtain ⟨lam2, hc, hsol, hlt12, hg2⟩ := computeLambda_exact hε0.le hd hL hεdd hne hgy
    (fun c h1 h2 => hLd c h1 (h2.trans hlen)) ((gran_cutValue hE _).sub (gran_cutValue hE _)) hroot
  have heq2 : obj E j y lam2 Xl = obj E j y lam2 Xr := by
    have := hobj lam2
    rw [hys] at hsol
    linarith
  have hle23 : ∀ l, lam3 = some l → lam2 ≤ l := by
    intro l hl'
    obtain ⟨hlr, h13, _⟩ := h3 l hl'
    by_contra hc
    have h1 := hlr.le Xl hXl
    have h2 := hobj l
    have h3' : ySum ps l ≤ const := by rw [hys]; linarith
    have := ySum_strict (ps := ps) h13.le (not_le.1 hc) (by linarith)
    linarith
  refine ⟨lam2, hc, hlt12, hg2, heq2, hle23, tolDifferent_of_gran hg2 hgl hd' hεd' hlt12.ne', ?_, ?_⟩
  · intro hlam
    cases lam3 with
    | none => rfl
    | some l =>
      refine tolDifferent_of_gran hg2 (h3 l rfl).2.2 hd' hεd' fun h => hlam ?_
      rw [h]
  · intro hlam
    rw [hlam]
    unfold tolDifferentO tolDifferent tolLess
    simp; linarith

/-- Nothing found: the right set is still a minimum. -/
theorem slice_none {d : ℚ} {L : ℕ} (hd : 0 < d) (hL : L ≠ 0)
    (hεd : 10 * ε < d / L) (hE : ∀ e ∈ E, Gran d e.cap) (hy : ∀ i < j, GranY d (y i))
    {Xl Xr T : Finset ℕ} {lam2 : ℚ} (hXr : Xr ⊆ Finset.range j) (hg2 : Gran (d / L) lam2)
    (heq2 : obj E j y lam2 Xl = obj E j y lam2 Xr) (hmin : MinAt E j y lam2 T)
    (hcond : ¬ (T ≠ Xr ∧ T ≠ Xl ∧ obj E j y lam2 T < obj E j y lam2 Xr - 10 * ε)) :
    MinAt E j y lam2 Xr := by
  have hd' : 0 < d / L := div_pos hd (by exact_mod_cast Nat.pos_of_ne_zero hL)
  by_cases hTr : T = Xr
  · rw [← hTr]; exact hmin
  · by_cases hTl : T = Xl
    · exact hmin.of_eq hXr (by rw [← heq2, hTl])
    · refine hmin.of_eq hXr ?_
      have hnot : ¬ (obj E j y lam2 T < obj E j y lam2 Xr - 10 * ε) := fun h => hcond ⟨hTr, hTl, h⟩
      have hle := hmin.le Xr hXr
      have hgo : ∀ Z ⊆ Finset.range j, Gran (d / L) (obj E j y lam2 Z) := by
        intro Z hZ
        unfold obj
        refine ((gran_cutValue hE _).div hL).sub (Gran.vsum fun i hi => ?_)
        exact (Gran.mono_div (hy i (Finset.mem_range.1 (hZ hi))) hL).yVal hg2
      have := ((hgo Xr hXr).sub (hgo T hmin.sub)).eq_zero (ε := 10 * ε) hεd hd' (by
        rw [abs_of_nonneg (by linarith)]; linarith)
      linarith

/-- Something found: the two recursive calls are given what they need. -/
theorem SlicePre.split (hEn : NonnegE E) {d' : ℚ} {Xl Xr T : Finset ℕ} {lam1 lam2 : ℚ} {lam3 : Option ℚ}
    (h : SlicePre E j y d' Xl Xr lam1 lam3) (h12 : lam1 < lam2) (h23 : ∀ l, lam3 = some l → lam2 < l)
    (hg2 : Gran d' lam2) (hT : LeastAt E j y lam2 T) (hTr : T ≠ Xr) (hTl : T ≠ Xl) :
    SlicePre E j y d' Xl T lam1 (some lam2) ∧ SlicePre E j y d' T Xr lam2 lam3 := by
  have hTsl : T ⊆ Xl := hT.subset hEn h.left.toMinAt h12.le
  have hrT : Xr ⊆ T := by
    cases lam3 with
    | none => rw [h.none rfl]; exact Finset.empty_subset _
    | some l =>
      obtain ⟨h, _, _⟩ := h.right l rfl
      exact h.subset hEn hT.toMinAt (h23 l rfl).le
  refine ⟨⟨lt_of_le_of_ne hTsl hTl, h.left, h.gran, ?_, by simp⟩,
    ⟨lt_of_le_of_ne hrT fun h => hTr h.symm, hT, hg2, ?_, h.none⟩⟩
  · intro l hl'
    cases hl'
    exact ⟨hT, h12, hg2⟩
  · intro l hl'
    obtain ⟨h1, _, h4⟩ := h.right l hl'
    exact ⟨h1, h23 l hl', h4⟩

/-- The sets between which `slice` searches contain the minimiser. -/
theorem SlicePre.between (hEn : NonnegE E) {d' : ℚ} {Xl Xr T : Finset ℕ} {lam1 lam2 : ℚ}
    {lam3 : Option ℚ} (h : SlicePre E j y d' Xl Xr lam1 lam3) (h12 : lam1 ≤ lam2)
    (h23 : ∀ l, lam3 = some l → lam2 ≤ l) (hT : LeastAt E j y lam2 T) : Xr ⊆ T ∧ T ⊆ Xl := by
  refine ⟨?_, hT.subset hEn h.left.toMinAt h12⟩
  cases lam3 with
  | none => rw [h.none rfl]; exact Finset.empty_subset _
  | some l =>
    obtain ⟨h, _, _⟩ := h.right l rfl
    exact h.subset hEn hT.toMinAt (h23 l rfl)

/-- **`PMF::slice`.** -/
theorem pmfSlice_spec {W : WarmSolver} (hW : W.Minimal) (hg : PGood E ε) {n : ℕ} (hjn : j < n)
    {d : ℚ} {L : ℕ} (hd : 0 < d) (hL : L ≠ 0) (hLd : ∀ c, 0 < c → c ≤ j → c ∣ L)
    (hεd : 10 * ε < d / L) (hE : ∀ e ∈ E, Gran d e.cap) (hy : ∀ i < j, GranY d (y i)) :
    ∀ (k : ℕ) (Xl Xr : Finset ℕ) (f : List ℚ) (lam1 : ℚ) (lam3 : Option ℚ),
    Xl.card ≤ Xr.card + k → SlicePre E j y (d / L) Xl Xr lam1 lam3 →
    IsPreflow (pmfNet ε E j y lam1) f →
    ∃ sets lams t, pmfSlice W ε E n j y k (insert j Xl) (insert j Xr) f lam1 lam3 = .ok (sets, lams) ∧
      SliceSpec E j y (d / L) Xl Xr lam1 lam3 sets lams t := by
  have hε0 := hg.pos
  have hEn := hg.nonneg
  intro k
  induction k with
  | zero =>
    intro Xl Xr f lam1 lam3 hk hpre
    have := Finset.card_lt_card hpre.sub
    omega
  | succ k ih =>
    intro Xl Xr f lam1 lam3 hk hpre hf
    have hXl := hpre.left.sub
    have hXr := hpre.subr
    have hjl : j ∉ Xl := fun h => by simpa using hXl h
    have hjr : j ∉ Xr := fun h => by simpa using hXr h
    obtain ⟨lam2, hc, hlt12, hg2, heq2, hle23, hd1, hdn, hds⟩ :=
      slice_lambda hε0 hjn hd hL hLd hεd hE hy hpre
    unfold sliceList at hc
    unfold pmfSlice
    dsimp only
    rw [hc]
    simp only [Outcome.ok_bind]
    by_cases hlam : lam3 = some lam2
    · rw [if_pos (Or.inr (by simp [hds hlam]))]
      have hminr := (hpre.right lam2 hlam).1.toMinAt
      exact ⟨[], [lam2], [(lam2, Xr)], rfl,
        .leaf hpre.sub (hminr.of_eq hXl heq2) hminr hlt12 hle23 hg2⟩
    have hlt23 : ∀ l, lam3 = some l → lam2 < l := by
      intro l hl'
      refine lt_of_le_of_ne (hle23 l hl') fun h => hlam ?_
      rw [hl', h]
    rw [if_neg (by simp [hd1, hdn hlam]), if_neg (by
      rintro (h | ⟨l, hl', h⟩)
      · linarith
      · have := hlt23 l hl'; linarith)]
    have hpf := modifyFlow_preflow hg hlt12.le hf
    set f' := modifyFlow E j y lam2 (pmfArcs ε E j) f with hf'
    obtain ⟨hmin, hval, hleast⟩ := warm_min (W := W) (l := lam2) (init := some f') hW.toCorrect hg (by
      intro g hg'; cases hg'; exact hpf)
    have hleast := hleast hW
    have horig : pmfCut ε E j y lam2 (insert j Xr) = obj E j y lam2 Xr +
        ((List.range j).map fun i => max 0 (yAt y lam2 i)).sum := by
      unfold pmfCut
      rw [Finset.erase_insert hjr, pmfNet_cutCap hg hXr]
      rfl
    unfold pmfSide
    rw [horig, hval]
    set N := pmfNet ε E j y lam2 with hN
    set T := W.sinkSide N (some f') with hT
    have hjT : j ∉ T := fun h => by simpa using hmin.sub h
    have hinj : ∀ Z : Finset ℕ, j ∉ Z → (insert j T = insert j Z ↔ T = Z) := by
      intro Z hZ
      constructor
      · intro h
        have := congrArg (fun S => S.erase j) h
        simpa [Finset.erase_insert hjT, Finset.erase_insert hZ] using this
      · intro h; rw [h]
    simp only [ne_eq, hinj Xr hjr, hinj Xl hjl]
    split
    · rename_i hcond
      obtain ⟨hTr, hTl, hlt⟩ := hcond
      obtain ⟨hpa, hpb⟩ := hpre.split hEn hlt12 hlt23 hg2 hleast hTr hTl
      have hc1 := Finset.card_lt_card hpa.sub
      have hc2 := Finset.card_lt_card hpb.sub
      obtain ⟨sa, la, ta, ea, ha⟩ := ih Xl T f lam1 (some lam2) (by omega) hpa hf
      obtain ⟨sb, lb, tb, eb, hb⟩ := ih T Xr f' lam2 lam3 (by omega) hpb hpf
      rw [ea, eb]
      simp only [Outcome.ok_bind, Outcome.pure_eq]
      exact ⟨_, _, ta ++ tb, rfl, ha.append hb hlt12 hle23⟩
    · rename_i hcond
      have hminr := slice_none hd hL hεd hE hy hXr hg2 heq2 hmin (by
        rintro ⟨h1, h2, h3⟩
        exact hcond ⟨h1, h2, by linarith⟩)
      exact ⟨[], [lam2], [(lam2, Xr)], rfl,
        .leaf hpre.sub (hminr.of_eq hXl heq2) hminr hlt12 hle23 hg2⟩

end PSP.Theory
