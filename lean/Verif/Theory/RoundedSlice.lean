import Verif.Theory.RoundedNet
import Verif.Theory.ApproxMin

/-!
# `PMF::slice` with rounded arithmetic
-/

namespace PSP.Theory

open PSP.Spec PSP.Model

variable {E : List Arc} {ε : ℚ} {j : ℕ} {y : ℕ → YPair} {lam : ℚ} {X : Finset ℕ} {fl : ℚ → ℚ} {r H : ℚ}
  {ao : List Arc → List Arc} {no : List NArc → List NArc} {W : WarmSolver} {v : ℚ} {n : ℕ}

/-- A call succeeds with `p`, or, if the arithmetic is not exact, throws the exception of `slice`. -/
def OkOr (exact : Prop) {α : Type} (o : Outcome α) (p : α → Prop) : Prop :=
  (∃ a, o = .ok a ∧ p a) ∨ (¬ exact ∧ o = .exc "lambda value mismatch")

theorem OkOr.bind {exact : Prop} {α β : Type} {o : Outcome α} {f : α → Outcome β} {p : α → Prop} {q : β → Prop}
    (h : OkOr exact o p) (hf : ∀ a, p a → OkOr exact (f a) q) : OkOr exact (o >>= f) q := by
  rcases h with ⟨a, rfl, ha⟩ | ⟨hx, rfl⟩
  · exact hf a ha
  · exact Or.inr ⟨hx, rfl⟩

theorem OkOr.mono {exact : Prop} {α : Type} {o : Outcome α} {p q : α → Prop} (h : OkOr exact o p)
    (hf : ∀ a, p a → q a) : OkOr exact o q := by
  rcases h with ⟨a, rfl, ha⟩ | ⟨hx, rfl⟩
  · exact Or.inl ⟨a, rfl, hf a ha⟩
  · exact Or.inr ⟨hx, rfl⟩

/-! ### the slope of the sum -/

theorem yVal_slope {l m k : ℚ} (hlm : l ≤ m) (hk : m ≤ k) {p : YPair} (h : yVal m p < yVal l p) :
    yVal k p = yVal m p - (k - m) := by
  obtain ⟨a, b⟩ := p
  cases b with
  | none => simp only [yVal, minO]; ring
  | some b =>
    simp only [yVal, minO] at *
    have hb : a - m < b := by
      by_contra hc
      rw [min_eq_right (not_lt.1 hc), min_eq_right (by linarith [not_lt.1 hc])] at h
      exact absurd h (lt_irrefl _)
    rw [min_eq_left (by linarith), min_eq_left hb.le]
    ring

theorem ySum_slope {l m k : ℚ} (hlm : l ≤ m) (hk : m ≤ k) {ps : List YPair} (hp : ySum ps m < ySum ps l) :
    ySum ps k ≤ ySum ps m - (k - m) := by
  unfold ySum at *
  induction ps with
  | nil => simp at hp
  | cons p ps ih =>
    simp only [List.map_cons, List.sum_cons] at *
    by_cases h : yVal m p < yVal l p
    · rw [yVal_slope hlm hk h]
      have : ySum ps k ≤ ySum ps m := ySum_anti hk ps
      unfold ySum at this
      linarith
    · have := ih (by linarith)
      have := yVal_anti hk p
      linarith

theorem ySum_turn {l m : ℚ} (hlm : l ≤ m) {ps : List YPair} {p : YPair} (hp : p ∈ ps) {b : ℚ} (hb : p.2 = some b)
    (hl : l = p.1 - b) : ySum ps m ≤ ySum ps l - (m - l) := by
  induction ps with
  | nil => simp at hp
  | cons q ps ih =>
    have e : ∀ l, ySum (q :: ps) l = yVal l q + ySum ps l := fun l => by simp [ySum]
    rw [e, e]
    rcases List.mem_cons.1 hp with rfl | hp'
    · have h1 := ySum_anti hlm ps
      have h2 : yVal m p ≤ yVal l p - (m - l) := by
        obtain ⟨a, b'⟩ := p
        simp only at hb hl
        subst hb
        simp only [yVal, minO]
        have : min (a - m) b ≤ a - m := min_le_left _ _
        have : min (a - l) b = b := min_eq_right (by linarith)
        linarith
      linarith
    · have h1 := ih hp'
      have h2 := yVal_anti hlm q
      linarith

theorem computeLambdaF_id (ε : ℚ) (ps : List YPair) (target : ℚ) :
    computeLambdaF id ε ps target = computeLambda ε ps target := by
  have hsum : ∀ (l : List ℚ) (s : ℚ), flSum id s l = s + l.sum := by
    intro l
    induction l with
    | nil => intro s; simp [flSum]
    | cons x l ih =>
      intro s
      have : flSum id s (x :: l) = flSum id (s + x) l := rfl
      rw [this, ih, List.sum_cons]; ring
  have hloop : ∀ (tps : List ℚ) (last : ℚ) (slope : ℤ) (sum : ℚ),
      lambdaLoopF id target tps last slope sum = lambdaLoop target tps last slope sum := by
    intro tps
    induction tps with
    | nil => intros; rfl
    | cons tp tps ih =>
      intro last slope sum
      unfold lambdaLoopF lambdaLoop
      simp only [id_eq, ih]
  have hbp : ∀ o : Outcome ℚ, (o >>= fun q => pure q) = o := fun o => by cases o <;> rfl
  unfold computeLambdaF computeLambda
  have ht : turningPointsF id ps = turningPoints ps := rfl
  rw [ht]
  split <;> rename_i heq
  · simp only [heq, hsum, id_eq]
    rw [show -target + (ps.map Prod.fst).sum = (ps.map Prod.fst).sum - target by ring, hbp]
  · simp only [heq, hsum, id_eq, zero_add, hloop, hbp]
    rfl

/-! ### one call -/

/-- What every call of `slice` is given. -/
structure RPre (fl : ℚ → ℚ) (ε H : ℚ) (E : List Arc) (j : ℕ) (y : ℕ → YPair) (Xl Xr : Finset ℕ) (lam1 : ℚ)
    (lam3 : Option ℚ) : Prop where
  sub : Xr ⊂ Xl
  left : OLeast (objF fl ε E j y lam1) j Xl
  lo : -1 ≤ lam1
  hi : lam1 ≤ 2 * H
  right : ∀ l, lam3 = some l → OLeast (objF fl ε E j y l) j Xr ∧ lam1 ≤ l ∧ l ≤ 2 * H
  none : lam3 = none → Xr = ∅

theorem RPre.subr {Xl Xr : Finset ℕ} {lam1 : ℚ} {lam3 : Option ℚ} (h : RPre fl ε H E j y Xl Xr lam1 lam3) :
    Xr ⊆ Finset.range j := h.sub.1.trans h.left.sub

/-- The least minimiser of the rounded objective almost minimises the exact one. -/
theorem OLeast.near (h : RSetup fl ao no W v ε r H E n j y) (hl : -1 ≤ lam) (hl2 : lam ≤ 2 * H)
    (hX : OLeast (objF fl ε E j y lam) j X) : NearAt E j y (18 * (j * r)) lam X := by
  refine ⟨hX.sub, fun Z hZ => ?_⟩
  have h1 := abs_le.1 (objF_close h hl hl2 hX.sub)
  have h2 := abs_le.1 (objF_close h hl hl2 hZ)
  have h3 := hX.le Z hZ
  linarith

/-- Rounding errors do not occur with exact arithmetic. -/
theorem RSetup.toExact (h : RSetup fl ao no W v ε r H E n j y) (hx : fl = id) :
    RSetup fl ao no W v ε 0 H E n j y where
  good := h.good
  err := by
    subst hx
    exact ⟨le_rfl, by linarith [h.H1], rfl, fun c x _ _ _ => by simp, monotone_id⟩
  solver := h.solver
  perm := h.perm
  H1 := h.H1
  v0 := h.v0
  bound := h.bound
  cut := h.cut
  cap := h.cap
  permA := h.permA
  len := h.len
  jn := h.jn
  j0 := h.j0
  ε1 := h.ε1
  small := by
    have h1 := h.small
    have h2 := h.nums.2.2.2.2.2.1
    have : (0 : ℚ) ≤ (n * n * n * r : ℚ) := h2
    simp only [mul_zero, add_zero]
    linarith

/-- The parameter computed in `slice` balances two sets if the larger one almost minimises at some parameter. -/
theorem slice_lambda_close (h : RSetup fl ao no W v ε r H E n j y) {Xl Xr : Finset ℕ} {lam1 : ℚ} {N : ℕ} (hN : j < N)
    (hsub : Xr ⊂ Xl) (hXl : Xl ⊆ Finset.range j)
    (hnear : obj E j y lam1 Xl ≤ obj E j y lam1 Xr + 6 * (n * n * n * r)) :
    ∃ lam2, computeLambdaF fl ε (sliceList N y (insert j Xl) (insert j Xr))
        (lambdaConstF fl ao E (insert j Xl) (insert j Xr)) = .ok lam2 ∧ lam2 ≤ 2 * H ∧
      |obj E j y lam2 Xl - obj E j y lam2 Xr| ≤ ε + 73 * (n * n * n * r) := by
  obtain ⟨n1, n2, n3, hr, n5, n6, n7, n8, n9, n10, n11⟩ := h.nums
  have hH1 := h.H1
  have hε1 := h.ε1
  have hε0 := h.good.pos
  have hXr := hsub.1.trans hXl
  have hobj : ∀ lam, obj E j y lam Xl - obj E j y lam Xr =
      (getCutValue E (insert j Xl) - getCutValue E (insert j Xr)) - vsum (yAt y lam) (Xl \ Xr) := by
    intro lam
    unfold obj
    rw [vsum_sdiff (yAt y lam) hsub.1]
    ring
  have hys := fun lam => ySum_filter (y := y) (A := Xl) (B := Xr) hXl hN lam
  have hcc := h.const_close (insert j Xl) (insert j Xr)
  unfold sliceList
  generalize lambdaConstF fl ao E (insert j Xl) (insert j Xr) = const' at hcc ⊢
  set ps := ((List.range (N - 1)).filter fun i =>
    decide (i ∈ insert j Xl ∧ i ∉ insert j Xr)).map y with hps
  set const := getCutValue E (insert j Xl) - getCutValue E (insert j Xr) with hconst
  have hlen : ps.length ≤ j := by
    have : ((List.range (N - 1)).filter fun i =>
        decide (i ∈ insert j Xl ∧ i ∉ insert j Xr)).toFinset ⊆ Finset.range j := by
      intro v hv
      simp only [List.mem_toFinset, List.mem_filter, decide_eq_true_eq, Finset.mem_insert] at hv
      rcases hv.2.1 with h | h
      · exact absurd (Or.inl h) hv.2.2
      · exact hXl h
    have h' := Finset.card_le_card this
    rw [List.toFinset_card_of_nodup (List.nodup_range.filter _), Finset.card_range] at h'
    simpa [hps] using h'
  have hne : ps ≠ [] := by
    obtain ⟨v, hvl, hvr⟩ := Finset.exists_of_ssubset hsub
    have hvj := Finset.mem_range.1 (hXl hvl)
    intro h0
    have : y v ∈ ps := by
      rw [hps]
      apply List.mem_map.2 ⟨v, ?_, rfl⟩
      simp only [List.mem_filter, List.mem_range, decide_eq_true_eq, Finset.mem_insert]
      refine ⟨by omega, Or.inr hvl, ?_⟩
      rintro (h | h)
      · omega
      · exact hvr h
    rw [h0] at this
    simp at this
  have hby : ∀ p ∈ ps, YBound H p := by
    intro p hp
    rw [hps, List.mem_map] at hp
    obtain ⟨i, hi, rfl⟩ := hp
    simp only [List.mem_filter, decide_eq_true_eq, Finset.mem_insert] at hi
    rcases hi.2.1 with h' | h'
    · exact absurd (Or.inl h') hi.2.2
    · exact h.bound i (Finset.mem_range.1 (hXl h'))
  have hc1 := h.cut (insert j Xl)
  have hc2 := h.cut (insert j Xr)
  have hc3 := cutValue_nonneg h.good.nonneg (insert j Xl)
  have hc4 := cutValue_nonneg h.good.nonneg (insert j Xr)
  have hcc := abs_le.1 hcc
  have htar : |const'| ≤ H := by rw [abs_le]; constructor <;> linarith
  have hlq : (ps.length : ℚ) ≤ j := by exact_mod_cast hlen
  have hl0 : (0 : ℚ) ≤ ps.length := by positivity
  have hKK : (ps.length : ℚ) * ps.length * r ≤ n * n * r := by
    apply mul_le_mul_of_nonneg_right _ hr
    nlinarith
  have hjr : (j : ℚ) * r ≤ n * r := mul_le_mul_of_nonneg_right (by linarith) hr
  have hsol : const' - (6 * (n * n * n * r) + (2 * (n * n * r) + r)) ≤ ySum ps lam1 := by
    have h2 := hobj lam1
    rw [hys]
    linarith
  obtain ⟨lam2, hc, he⟩ := computeLambdaF_spec (ε := ε) (δ := 6 * (n * n * n * r) + (2 * (n * n * r) + r)) h.err (by linarith) hby hne htar
    (K := ps.length) rfl (by linarith) ⟨lam1, hsol⟩ (by linarith)
  refine ⟨lam2, hc, ?_, ?_⟩
  · by_contra hgt
    have hgt := not_lt.1 (fun hh => hgt (le_of_lt hh)) |>.lt_or_eq
    have h2 : 2 * H ≤ lam2 := by rcases hgt with h | h <;> linarith
    have : ∀ qs : List YPair, (∀ p ∈ qs, YBound H p) → ySum qs lam2 ≤ qs.length * (-H) := by
      intro qs
      induction qs with
      | nil => simp [ySum]
      | cons p qs ih =>
        intro hq
        have e : ySum (p :: qs) lam2 = yVal lam2 p + ySum qs lam2 := by simp [ySum]
        have h3 := ih fun p hp => hq p (List.mem_cons_of_mem _ hp)
        have h4 := (abs_le.1 (hq p List.mem_cons_self).1).2
        have h5 : yVal lam2 p ≤ p.1 - lam2 := by
          obtain ⟨a, b⟩ := p
          cases b with
          | none => exact le_rfl
          | some b => exact min_le_left _ _
        rw [e, List.length_cons]
        push_cast
        linarith
    have h6 := this ps hby
    have h7 : (1 : ℚ) ≤ ps.length := by exact_mod_cast List.length_pos_of_ne_nil hne
    have h8 := (abs_le.1 he).1
    nlinarith
  · rw [hobj, ← hys, abs_sub_comm]
    have he := abs_le.1 he
    rw [abs_le]
    constructor <;> linarith

/-- The parameter computed in `slice`. -/
theorem slice_lambdaF (h : RSetup fl ao no W v ε r H E n j y) {Xl Xr : Finset ℕ} {lam1 : ℚ} {lam3 : Option ℚ}
    (hp : RPre fl ε H E j y Xl Xr lam1 lam3) :
    ∃ lam2, computeLambdaF fl ε (sliceList n y (insert j Xl) (insert j Xr))
        (lambdaConstF fl ao E (insert j Xl) (insert j Xr)) = .ok lam2 ∧ lam2 ≤ 2 * H ∧
      |obj E j y lam2 Xl - obj E j y lam2 Xr| ≤ ε + 73 * (n * n * n * r) ∧
      (fl = id → lam1 - ε ≤ lam2 ∧ ∀ l, lam3 = some l → lam2 ≤ l + ε) := by
  obtain ⟨n1, n2, n3, hr, n5, n6, n7, n8, n9, n10, n11⟩ := h.nums
  have hH1 := h.H1
  have hε1 := h.ε1
  have hε0 := h.good.pos
  have hXl := hp.left.sub
  have hXr := hp.subr
  have hobj : ∀ lam, obj E j y lam Xl - obj E j y lam Xr =
      (getCutValue E (insert j Xl) - getCutValue E (insert j Xr)) - vsum (yAt y lam) (Xl \ Xr) := by
    intro lam
    unfold obj
    rw [vsum_sdiff (yAt y lam) hp.sub.1]
    ring
  have hys := fun lam => ySum_filter (y := y) (A := Xl) (B := Xr) hXl h.jn lam
  have hcx : fl = id → lambdaConstF fl ao E (insert j Xl) (insert j Xr) =
      getCutValue E (insert j Xl) - getCutValue E (insert j Xr) := by
    intro hx
    have := (h.toExact hx).const_close (insert j Xl) (insert j Xr)
    simp only [mul_zero, add_zero] at this
    exact sub_eq_zero.1 (abs_nonpos_iff.1 this)
  have hjr : (j : ℚ) * r ≤ n * r := mul_le_mul_of_nonneg_right (by linarith) hr
  obtain ⟨lam2, hc, htop, hdiff⟩ := slice_lambda_close h (lam1 := lam1) h.jn hp.sub hXl (by
    have := (hp.left.near h hp.lo hp.hi).le Xr hXr
    linarith)
  refine ⟨lam2, hc, htop, hdiff, ?_⟩
  unfold sliceList at hc
  generalize lambdaConstF fl ao E (insert j Xl) (insert j Xr) = const' at hcx hc ⊢
  set ps := ((List.range (n - 1)).filter fun i =>
    decide (i ∈ insert j Xl ∧ i ∉ insert j Xr)).map y with hps
  set const := getCutValue E (insert j Xl) - getCutValue E (insert j Xr) with hconst
  have hne : ps ≠ [] := by
    obtain ⟨v, hvl, hvr⟩ := Finset.exists_of_ssubset hp.sub
    have hvj := Finset.mem_range.1 (hXl hvl)
    have hjn := h.jn
    intro h0
    have : y v ∈ ps := by
      rw [hps]
      apply List.mem_map.2 ⟨v, ?_, rfl⟩
      simp only [List.mem_filter, List.mem_range, decide_eq_true_eq, Finset.mem_insert]
      refine ⟨by omega, Or.inr hvl, ?_⟩
      rintro (h | h)
      · omega
      · exact hvr h
    rw [h0] at this
    simp at this
  intro hx
  have hcx := hcx hx
  subst hcx
  have h0 := h.toExact hx
  have hF : ∀ lam, -1 ≤ lam → lam ≤ 2 * H → ∀ Z ⊆ Finset.range j, objF fl ε E j y lam Z =
      obj E j y lam Z + ((List.range j).map fun i => max 0 (yAt y lam i)).sum := by
    intro lam h1 h2 Z hZ
    have := objF_close h0 h1 h2 hZ
    simp only [mul_zero] at this
    have := abs_nonpos_iff.1 this
    linarith
  have hlt : const < ySum ps lam1 := by
    by_contra hcon
    apply hp.sub.2
    apply hp.left.least Xr hXr
    rw [hF lam1 hp.lo hp.hi Xl hXl, hF lam1 hp.lo hp.hi Xr hXr]
    have h2 := hobj lam1
    rw [hys] at hcon
    linarith
  have hle3 : ∀ l, lam3 = some l → lam1 ≤ l ∧ ySum ps l ≤ const := by
    intro l hl
    obtain ⟨h1, h2, h3⟩ := hp.right l hl
    have h4 := h1.le Xl hXl
    rw [hF l (by linarith [hp.lo]) h3 Xl hXl, hF l (by linarith [hp.lo]) h3 Xr hXr] at h4
    have h2' := hobj l
    rw [hys]
    exact ⟨h2, by linarith⟩
  have hc' : computeLambda ε ps const = .ok lam2 := by rw [← computeLambdaF_id, ← hx]; exact hc
  rcases computeLambda_spec hε0.le hne const with ⟨lam, h1, h2⟩ | ⟨h1, _⟩
  · rw [hc'] at h1
    cases h1
    rcases h2 with h2 | ⟨⟨p, hpm, b, hb, h3⟩, h2⟩
    · constructor
      · by_contra hcc
        have := ySum_anti (ps := ps) (l := lam2) (m := lam1) (by linarith)
        linarith
      · intro l hl
        obtain ⟨h13, h4⟩ := hle3 l hl
        by_contra hcc
        have := ySum_strict (ps := ps) (k := lam2) h13 (by linarith) (by linarith)
        linarith
    · have h2' := abs_le.1 h2
      constructor
      · by_contra hcc
        have := ySum_turn (m := lam1) (by linarith) hpm hb h3
        linarith
      · intro l hl
        obtain ⟨h13, h4⟩ := hle3 l hl
        by_contra hcc
        have := ySum_slope (ps := ps) (k := lam2) h13 (by linarith) (by linarith)
        linarith
  · rw [hc'] at h1
    cases h1

/-- Values that do not count as different are close. -/
theorem close_of_not_different_gen (h : RErr fl r H) {c : ℚ} (hc : 3 ≤ c) (hr : c * r ≤ 1 / 4) (hε : ε ≤ 1 / 4)
    (hH : 1 ≤ H) {a b : ℚ} (hb1 : -1 ≤ b) (hb2 : b ≤ (c - 1) * H) (hε0 : 0 < ε) (hd : ¬ tolDifferentF fl ε a b = true) :
    b - (ε + c * r) ≤ a ∧ a ≤ b + (ε + c * r) := by
  have hr0 := h.nonneg
  have hcr : 0 ≤ c * r := mul_nonneg (by linarith) hr0
  have hcH : 3 * H ≤ c * H := mul_le_mul_of_nonneg_right hc (by linarith)
  unfold tolDifferentF tolLessF at hd
  simp only [Bool.or_eq_true, decide_eq_true_eq, not_or, not_lt] at hd
  obtain ⟨h1, h2⟩ := hd
  constructor
  · by_contra hcn
    have hcn := not_le.1 hcn
    have hz := h.errK c (max ((a + ε + (b - c * r)) / 2) (b - c * r - 1 / 4)) (by
      rw [abs_le]
      constructor
      · exact le_trans (by linarith) (le_max_right _ _)
      · exact max_le (by linarith) (by linarith)) (by linarith) (by linarith)
    have hm : fl (a + ε) ≤ fl (max ((a + ε + (b - c * r)) / 2) (b - c * r - 1 / 4)) :=
      h.mono (le_trans (by linarith) (le_max_left _ _))
    have : max ((a + ε + (b - c * r)) / 2) (b - c * r - 1 / 4) < b - c * r := max_lt (by linarith) (by linarith)
    have := (abs_le.1 hz).2
    linarith
  · have := h.errK c (b + ε) (by
      rw [abs_le]
      constructor <;> linarith) (by linarith) (by linarith)
    have := (abs_le.1 this).2
    linarith

/-- The same for parameters in the usual range. -/
theorem close_of_not_different (h : RErr fl r H) (hr : 3 * r ≤ 1 / 4) (hε : ε ≤ 1 / 4) (hH : 1 ≤ H) {a b : ℚ}
    (hb1 : -1 ≤ b) (hb2 : b ≤ 2 * H) (hε0 : 0 < ε) (hd : ¬ tolDifferentF fl ε a b = true) :
    b - (ε + 3 * r) ≤ a ∧ a ≤ b + (ε + 3 * r) :=
  close_of_not_different_gen h le_rfl hr hε hH hb1 (by linarith) hε0 hd

/-- What the flow solver returns on the rounded network. -/
theorem warm_least (h : RSetup fl ao no W v ε r H E n j y) {init : Option (List ℚ)}
    (hi : ∀ f, init = some f → IsPreflow (pmfNetF fl ε E j y lam) f) :
    OLeast (objF fl ε E j y lam) j (W.sinkSide (pmfNetF fl ε E j y lam) init) := by
  have hN := pmfNetF_nonneg (j := j) (y := y) h.err h.good lam
  refine ⟨Finset.filter_subset _ _, fun Z hZ => h.solver.le_cut _ init hN hi Z hZ, fun Z hZ hle => ?_⟩
  exact h.solver.least _ init hN hi Z hZ (le_antisymm hle (h.solver.le_cut _ init hN hi Z hZ))

/-- The value of a cut of the network, added up with rounded arithmetic. -/
theorem pmfCutF_close (h : RSetup fl ao no W v ε r H E n j y) (hl : -1 ≤ lam) (hl2 : lam ≤ 2 * H)
    (hX : X ⊆ Finset.range j) :
    |pmfCutF fl no ε E j y lam (insert j X) - objF fl ε E j y lam X| ≤ 22 * (n * n * n * r) := by
  obtain ⟨n1, n2, n3, hr, n5, n6, n7, n8, n9, n10, n11⟩ := h.nums
  have hH1 := h.H1
  have hε1 := h.ε1
  have hjX : j ∉ X := fun h => by simpa using hX h
  obtain ⟨hb0, hb⟩ := objF_bound h hl hl2 hX
  unfold pmfCutF
  rw [Finset.erase_insert hjX]
  have hN := pmfNetF_nonneg (j := j) (y := y) h.err h.good lam
  set A := (pmfNetF fl ε E j y lam).arcs with hA
  set L := ((no A).filter fun e => decide (e.a.onSink X = false ∧ e.b.onSink X = true)).map (·.cap) with hL
  have hsum : L.sum = objF fl ε E j y lam X := by
    have hp : L.Perm ((A.filter fun e => decide (e.a.onSink X = false ∧ e.b.onSink X = true)).map (·.cap)) :=
      ((h.perm A).filter _).map _
    rw [hp.sum_eq, sum_filter_map]
    unfold objF Net.cutCap
    rw [← hA]
    congr 1
    apply List.map_congr_left
    intro e _
    simp
  have hnn : ∀ x ∈ L, 0 ≤ x := by
    intro x hx
    obtain ⟨e, he, rfl⟩ := List.mem_map.1 hx
    exact hN e ((h.perm A).mem_iff.1 (List.mem_filter.1 he).1)
  have habs : (L.map abs).sum = L.sum := by
    congr 1
    conv_rhs => rw [← List.map_id L]
    exact List.map_congr_left fun x hx => abs_of_nonneg (hnn x hx)
  have hlen : L.length ≤ n * n + 2 * j := by
    have h1 : L.length ≤ A.length := by
      rw [hL, List.length_map]
      exact (List.length_filter_le _ _).trans (h.perm A).length_eq.le
    have h2 : A.length ≤ E.length + 2 * j := by
      rw [hA]
      unfold pmfNetF pmfArcs
      simp only [List.length_map, List.length_append, List.length_range]
      have h3 := List.length_filter_le (fun a : Arc => decide (a.src ≤ j ∧ a.dst ≤ j)) E
      have h4 := List.length_filter_le (fun i => decide (sinkCapacity E j i < ε)) (List.range j)
      rw [List.length_range] at h4
      omega
    have := h.len
    omega
  have hlen' : (L.length : ℚ) ≤ 2 * (n * n) := by
    have : (L.length : ℚ) ≤ n * n + 2 * j := by exact_mod_cast hlen
    nlinarith
  have hl0 : (0 : ℚ) ≤ L.length := by positivity
  have hLr : (L.length : ℚ) * (11 * j * r) ≤ 22 * (n * n * n * r) := by
    have e1 : (L.length : ℚ) * (11 * j) ≤ 2 * (n * n) * (11 * n) := by
      apply mul_le_mul hlen' (by linarith) (by linarith) (by positivity)
    have := mul_le_mul_of_nonneg_right e1 hr
    linarith
  have hjH : H ≤ j * H := by nlinarith
  have := h.err.flSum_err (N := 11 * j) (by linarith) (by nlinarith) L 0 (by
    rw [abs_zero, habs, hsum]
    linarith)
  rw [zero_add, hsum] at this
  linarith

/-! ### the result -/

/-- The result of a call of `slice`. -/
structure RSpec (E : List Arc) (j : ℕ) (y : ℕ → YPair) (e w top : ℚ) (Xl Xr : Finset ℕ) (lam1 : ℚ)
    (lam3 : Option ℚ) (sets : List (Finset ℕ)) (lams : List ℚ) (t : List (ℚ × Finset ℕ)) : Prop where
  ne : t ≠ []
  chain : AChain E j y e Xl t
  last : slast Xl t = Xr
  lams : lams.Perm (t.map Prod.fst)
  sets : sets.Perm ((t.map Prod.snd).dropLast.map (insert j))
  lo : ∀ c ∈ t.map Prod.fst, lam1 - w ≤ c
  hi : ∀ c ∈ t.map Prod.fst, ∀ l ∈ lam3, c ≤ l + w
  top : ∀ c ∈ t.map Prod.fst, c ≤ top
  inc : (t.map Prod.fst).Pairwise fun a b => a ≤ b + 2 * w

theorem RSpec.leaf {e w top c : ℚ} {Xl Xr : Finset ℕ} {lam1 : ℚ} {lam3 : Option ℚ} (hsub : Xr ⊂ Xl)
    (hl : NearAt E j y e c Xl) (hr : NearAt E j y e c Xr) (h1 : lam1 - w ≤ c) (h3 : ∀ l, lam3 = some l → c ≤ l + w)
    (ht : c ≤ top) : RSpec E j y e w top Xl Xr lam1 lam3 [] [c] [(c, Xr)] :=
  ⟨by simp, ⟨hl, hr, hsub, trivial⟩, rfl, by simp, by simp, by simpa using h1, by simpa using h3, by simpa using ht,
    by simp⟩

theorem RSpec.append {e w top lam1 lam2 : ℚ} {lam3 : Option ℚ} {Xl T Xr : Finset ℕ}
    {sa sb : List (Finset ℕ)} {la lb : List ℚ} {ta tb : List (ℚ × Finset ℕ)}
    (ha : RSpec E j y e w top Xl T lam1 (some lam2) sa la ta)
    (hb : RSpec E j y e w top T Xr lam2 lam3 sb lb tb) (h12 : lam1 ≤ lam2)
    (h23 : ∀ l, lam3 = some l → lam2 ≤ l) :
    RSpec E j y e w top Xl Xr lam1 lam3 (insert j T :: (sa ++ sb)) (la ++ lb) (ta ++ tb) := by
  have hsnd := slast_eq Xl ha.ne
  rw [ha.last] at hsnd
  refine ⟨by simp [ha.ne], ha.chain.append (by rw [ha.last]; exact hb.chain),
    by rw [slast_append, ha.last, hb.last], ?_, ?_, ?_, ?_, ?_, ?_⟩
  · rw [List.map_append]; exact ha.lams.append hb.lams
  · have e1 : ((ta ++ tb).map Prod.snd).dropLast = (ta.map Prod.snd) ++ (tb.map Prod.snd).dropLast := by
      rw [List.map_append, List.dropLast_append_of_ne_nil (by simpa using hb.ne)]
    rw [e1, List.map_append, hsnd, List.map_append]
    have := ((ha.sets.append hb.sets).cons (insert j T))
    refine this.trans ?_
    simp only [List.map_cons, List.map_nil, List.append_assoc, List.singleton_append]
    exact List.perm_middle.symm
  · intro c hc'
    rw [List.map_append] at hc'
    rcases List.mem_append.1 hc' with h | h
    · exact ha.lo c h
    · have := hb.lo c h; linarith
  · intro c hc' l hl'
    rw [List.map_append] at hc'
    rcases List.mem_append.1 hc' with h | h
    · have h1 := ha.hi c h lam2 rfl
      have h2 := h23 l hl'
      linarith
    · exact hb.hi c h l hl'
  · intro c hc'
    rw [List.map_append] at hc'
    rcases List.mem_append.1 hc' with h | h
    · exact ha.top c h
    · exact hb.top c h
  · rw [List.map_append, List.pairwise_append]
    refine ⟨ha.inc, hb.inc, fun a h1 b h2 => ?_⟩
    have h3 := ha.hi a h1 lam2 rfl
    have h4 := hb.lo b h2
    linarith

theorem NearAt.of_diff {e c : ℚ} {A B : Finset ℕ} (h : NearAt E j y e lam A) (hB : B ⊆ Finset.range j)
    (hd : obj E j y lam B ≤ obj E j y lam A + c) : NearAt E j y (e + c) lam B :=
  ⟨hB, fun Z hZ => by have := h.le Z hZ; linarith⟩

set_option maxHeartbeats 1000000 in
/-- **`PMF::slice`** with rounded arithmetic. -/
theorem pmfSliceF_spec (h : RSetup fl ao no W v ε r H E n j y) :
    ∀ (k : ℕ) (Xl Xr : Finset ℕ) (f : List ℚ) (lam1 : ℚ) (lam3 : Option ℚ),
    Xl.card ≤ Xr.card + k → RPre fl ε H E j y Xl Xr lam1 lam3 →
    IsPreflow (pmfNetF fl ε E j y lam1) f →
    OkOr (fl = id) (pmfSliceF fl ao no W ε E n j y k (insert j Xl) (insert j Xr) f lam1 lam3) fun o =>
      ∃ t, RSpec E j y ((11 / 10 * j + 12) * ε) (11 / 10 * ε) (2 * H) Xl Xr lam1 lam3 o.1 o.2 t := by
  obtain ⟨n1, n2, n3, hr, n5, n6, n7, n8, n9, n10, n11⟩ := h.nums
  have hH1 := h.H1
  have hε1 := h.ε1
  have hε0 := h.good.pos
  have hjr : (j : ℚ) * r ≤ n * r := mul_le_mul_of_nonneg_right (by linarith) hr
  have hsm := h.small
  have hv0 : (0 : ℚ) ≤ v * n * H := mul_nonneg (mul_nonneg h.v0 (by linarith)) (by linarith)
  have hjε : (0 : ℚ) ≤ j * ε := mul_nonneg (by linarith) hε0.le
  intro k
  induction k with
  | zero =>
    intro Xl Xr f lam1 lam3 hk hpre
    have := Finset.card_lt_card hpre.sub
    omega
  | succ k ih =>
    intro Xl Xr f lam1 lam3 hk hpre hf
    have hXl := hpre.left.sub
    have hXr := hpre.subr
    have hjl : j ∉ Xl := fun h => by simpa using hXl h
    have hjr' : j ∉ Xr := fun h => by simpa using hXr h
    obtain ⟨lam2, hc, htop, hdiff, hex⟩ := slice_lambdaF h hpre
    have hdiff' := abs_le.1 hdiff
    unfold sliceList at hc
    unfold pmfSliceF
    dsimp only
    rw [hc]
    simp only [Outcome.ok_bind]
    have hw : ε + 3 * r ≤ 11 / 10 * ε := by linarith
    -- near `lam1`
    by_cases hd1 : tolDifferentF fl ε lam2 lam1 = true
    swap
    · rw [if_pos (Or.inl hd1)]
      obtain ⟨c1, c2⟩ := close_of_not_different h.err (by linarith) (by linarith) hH1 hpre.lo hpre.hi hε0 hd1
      have hn := (hpre.left.near h hpre.lo hpre.hi).move (m := lam2) (c := 11 / 10 * ε) (by linarith) (by linarith)
      refine Or.inl ⟨_, rfl, [(lam2, Xr)], .leaf hpre.sub (hn.mono (by linarith))
        ((hn.of_diff hXr (c := ε + 73 * (n * n * n * r)) (by linarith)).mono (by linarith)) (by linarith) ?_ htop⟩
      intro l hl
      have := (hpre.right l hl).2.1
      linarith
    by_cases hd3 : tolDifferentOF fl ε lam2 lam3 = true
    swap
    · rw [if_pos (Or.inr hd3)]
      cases lam3 with
      | none => exact absurd rfl hd3
      | some l =>
        obtain ⟨r1, r2, r3⟩ := hpre.right l rfl
        have hlo : -1 ≤ l := hpre.lo.trans r2
        obtain ⟨c1, c2⟩ := close_of_not_different h.err (by linarith) (by linarith) hH1 hlo r3 hε0 hd3
        have hn := (r1.near h hlo r3).move (m := lam2) (c := 11 / 10 * ε) (by linarith) (by linarith)
        refine Or.inl ⟨_, rfl, [(lam2, Xr)], .leaf hpre.sub
          ((hn.of_diff hXl (c := ε + 73 * (n * n * n * r)) (by linarith)).mono (by linarith))
          (hn.mono (by linarith)) (by linarith) ?_ htop⟩
        intro l' hl'
        cases hl'
        linarith
    rw [if_neg (by simp [hd1, hd3])]
    by_cases hmis : lam2 < lam1 ∨ ∃ l ∈ lam3, l < lam2
    · rw [if_pos hmis]
      refine Or.inr ⟨fun hx => ?_, rfl⟩
      obtain ⟨x1, x2⟩ := hex hx
      subst hx
      rcases hmis with hm | ⟨l, hl, hm⟩
      · unfold tolDifferentF tolLessF at hd1
        simp only [id_eq, Bool.or_eq_true, decide_eq_true_eq] at hd1
        rcases hd1 with hd | hd <;> linarith
      · have x3 := x2 l hl
        cases hl
        unfold tolDifferentOF tolDifferentF tolLessF at hd3
        simp only [id_eq, Bool.or_eq_true, decide_eq_true_eq] at hd3
        rcases hd3 with hd | hd <;> linarith
    rw [if_neg hmis]
    push Not at hmis
    obtain ⟨h12, h23⟩ := hmis
    have h23 : ∀ l, lam3 = some l → lam2 ≤ l := fun l hl => h23 l hl
    have hlo2 : -1 ≤ lam2 := hpre.lo.trans h12
    -- the flow
    have hpf : IsPreflow (pmfNetF fl ε E j y lam2) (modifyFlowF fl E j y lam2 (pmfArcs ε E j) f) := by
      rw [pmfNetF_eq] at hf ⊢
      rw [modifyFlowF_eq]
      exact gModify_preflow h.good (srcF_mono h.err.mono h12 y) (srcF_nonneg fl y lam2)
        (snkF_nonneg h.err h.good.nonneg lam2) hf
    set f' := modifyFlowF fl E j y lam2 (pmfArcs ε E j) f with hf'
    have hT := warm_least (lam := lam2) (init := some f') h (by
      intro g hg'; cases hg'; exact hpf)
    have hval := h.solver.value (pmfNetF fl ε E j y lam2) (some f') (pmfNetF_nonneg h.err h.good lam2) (by
      intro g hg'; cases hg'; exact hpf)
    have hcut := pmfCutF_close h hlo2 htop hXr
    unfold pmfSide
    set N := pmfNetF fl ε E j y lam2 with hN
    set T := W.sinkSide N (some f') with hTdef
    have hjT : j ∉ T := fun h => by simpa using hT.sub h
    have hinj : ∀ Z : Finset ℕ, j ∉ Z → (insert j T = insert j Z ↔ T = Z) := by
      intro Z hZ
      constructor
      · intro h
        have := congrArg (fun S => S.erase j) h
        simpa [Finset.erase_insert hjT, Finset.erase_insert hZ] using this
      · intro h; rw [h]
    simp only [ne_eq, hinj Xr hjr', hinj Xl hjl]
    have hTn := hT.near h hlo2 htop
    split
    · rename_i hcond
      obtain ⟨hTr, hTl, _⟩ := hcond
      have hTsl : T ⊆ Xl := OLeast.subset h.err h.good h12 hpre.left hT
      have hrT : Xr ⊆ T := by
        cases lam3 with
        | none => rw [hpre.none rfl]; exact Finset.empty_subset _
        | some l => exact OLeast.subset h.err h.good (h23 l rfl) hT (hpre.right l rfl).1
      have hpa : RPre fl ε H E j y Xl T lam1 (some lam2) := ⟨lt_of_le_of_ne hTsl hTl, hpre.left, hpre.lo, hpre.hi, by
        intro l hl; cases hl; exact ⟨hT, h12, htop⟩, by simp⟩
      have hpb : RPre fl ε H E j y T Xr lam2 lam3 :=
        ⟨lt_of_le_of_ne hrT fun h => hTr h.symm, hT, hlo2, htop, by
          intro l hl
          exact ⟨(hpre.right l hl).1, h23 l hl, (hpre.right l hl).2.2⟩, hpre.none⟩
      have hc1 := Finset.card_lt_card hpa.sub
      have hc2 := Finset.card_lt_card hpb.sub
      refine (ih Xl T f lam1 (some lam2) (by omega) hpa hf).bind ?_
      rintro ⟨sa, la⟩ ⟨ta, ha⟩
      refine (ih T Xr f' lam2 lam3 (by omega) hpb hpf).bind ?_
      rintro ⟨sb, lb⟩ ⟨tb, hb⟩
      exact Or.inl ⟨_, rfl, ta ++ tb, ha.append hb h12 h23⟩
    · rename_i hcond
      have hnr : NearAt E j y ((11 / 10 * j + 12) * ε - (ε + 73 * (n * n * n * r))) lam2 Xr := by
        by_cases hTr : T = Xr
        · rw [← hTr]; exact hTn.mono (by linarith)
        · by_cases hTl : T = Xl
          · rw [hTl] at hTn
            exact (hTn.of_diff hXr (c := ε + 73 * (n * n * n * r)) (by linarith)).mono (by linarith)
          · have hnot : fl (pmfCutF fl no ε E j y lam2 (insert j Xr) - fl (10 * ε)) ≤ (W.run N (some f')).value :=
              not_lt.1 fun hlt => hcond ⟨hTr, hTl, hlt⟩
            obtain ⟨b0, b1⟩ := objF_bound h hlo2 htop hT.sub
            obtain ⟨b2, b3⟩ := objF_bound h hlo2 htop hXr
            have hjH : H ≤ j * H := by nlinarith
            have ha1 := h.err.err 10 (10 * ε) (by
              rw [abs_le]; constructor <;> linarith)
            have ha2 := h.err.errK (22 * j) (pmfCutF fl no ε E j y lam2 (insert j Xr) - fl (10 * ε)) (by
              rw [abs_le] at *
              constructor <;> linarith) (by linarith) (by
              have hjr : (j : ℚ) * r ≤ n * r := mul_le_mul_of_nonneg_right (by linarith) (by linarith)
              linarith)
            have hv2 : |(W.run N (some f')).value - objF fl ε E j y lam2 T| ≤ 10 * (v * n * H) := by
              refine hval.trans ?_
              have : v * N.cutCap T ≤ v * (10 * n * H) := by
                apply mul_le_mul_of_nonneg_left _ h.v0
                refine b1.trans ?_
                nlinarith
              linarith
            have hd : objF fl ε E j y lam2 Xr ≤ objF fl ε E j y lam2 T + (10 * ε + 10 * (v * n * H) +
                29 * (n * n * n * r)) := by
              rw [abs_le] at *
              linarith
            have k1 := abs_le.1 (objF_close h hlo2 htop hXr)
            have k2 := abs_le.1 (objF_close h hlo2 htop hT.sub)
            exact (hTn.of_diff hXr (c := 10 * ε + 10 * (v * n * H) + 29 * (n * n * n * r) + 18 * (j * r)) (by
              linarith)).mono (by linarith)
      refine Or.inl ⟨_, rfl, [(lam2, Xr)], .leaf hpre.sub
        ((hnr.of_diff hXl (c := ε + 73 * (n * n * n * r)) (by linarith)).mono (by linarith))
        (hnr.mono (by linarith)) (by linarith) ?_ htop⟩
      intro l hl
      have := h23 l hl
      linarith

end PSP.Theory
