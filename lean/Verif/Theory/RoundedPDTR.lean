import Verif.Theory.RoundedPMFRSlice
import Verif.Theory.PMFRRun
import Verif.Theory.RoundedPDTFinal

/-!
# `PMF_R::run` and `PDT_R::run` with rounded arithmetic
-/

namespace PSP.Theory

open PSP.Spec PSP.Model

variable {E : List Arc} {ε : ℚ} {j n : ℕ} {y : ℕ → YPair} {lam l : ℚ} {X : Finset ℕ} {fl : ℚ → ℚ} {r H v : ℚ}
  {ao io : List Arc → List Arc} {no : List NArc → List NArc} {W : WarmSolver}

/-! ### `lambda_3` -/

theorem lambda3StepF_ge (l : ℚ) (i : ℕ) :
    l ≤ lambda3StepF fl E j y l i ∧ fl (sinkCapacity E j i + (y i).1) ≤ lambda3StepF fl E j y l i := by
  unfold lambda3StepF
  cases (y i).2 with
  | none =>
    dsimp only
    constructor <;> (repeat' split) <;> linarith
  | some b =>
    dsimp only
    constructor <;> (repeat' split) <;> linarith

theorem lambda3F_nonneg : 0 ≤ lambda3F fl E j y n := foldl_ge _ (fun l a => (lambda3StepF_ge l a).1) _ _

theorem lambda3F_le (h : RSetup fl ao no W v ε r H E n j y) (hy : ∀ i, YBound H (y i)) (m : ℕ) :
    lambda3F fl E j y m ≤ 6 * H := by
  obtain ⟨n1, n2, n3, hr, n5, n6, n7, n8, n9, n10, n11⟩ := h.nums
  have hH1 := h.H1
  have hε1 := h.ε1
  unfold lambda3F
  have : ∀ (L : List ℕ) (l : ℚ), l ≤ 6 * H → L.foldl (lambda3StepF fl E j y) l ≤ 6 * H := by
    intro L
    induction L with
    | nil => intro l hl; exact hl
    | cons i L ih =>
      intro l hl
      refine ih _ ?_
      obtain ⟨h1, h2⟩ := hy i
      have h1 := abs_le.1 h1
      have h3 := sinkCapacity_le (j := j) h.cap (by linarith) i
      have h4 := sinkCapacity_nonneg (j := j) h.good.nonneg i
      have h5 := abs_le.1 (h.err.err 2 (sinkCapacity E j i + (y i).1) (by rw [abs_le]; constructor <;> linarith))
      unfold lambda3StepF
      cases hb : (y i).2 with
      | none =>
        dsimp only
        (repeat' split) <;> linarith
      | some b =>
        have h7 := abs_le.1 (h2 b hb)
        have h8 := abs_le.1 (h.err.err 5 ((y i).1 - b) (by rw [abs_le]; constructor <;> linarith))
        dsimp only
        (repeat' split) <;> linarith
  exact this _ _ (by linarith)

/-- At `lambda_3` the singleton is almost a best set. -/
theorem lambda3F_empty (h : RSetup fl ao no W v ε r H E n j y) :
    UpAt E j y (6 * (n * n * r)) (lambda3F fl E j y n) ∅ := by
  obtain ⟨n1, n2, n3, hr, n5, n6, n7, n8, n9, n10, n11⟩ := h.nums
  have hH1 := h.H1
  intro Z hZ
  rw [Finset.empty_union]
  have hle : ∀ i < j, yAt y (lambda3F fl E j y n) i ≤ -sinkCapacity E j i + 2 * r := by
    intro i hi
    have h1 : fl (sinkCapacity E j i + (y i).1) ≤ lambda3F fl E j y n :=
      foldl_ge_of_mem _ (fun l a => (lambda3StepF_ge l a).1) (fun i => fl (sinkCapacity E j i + (y i).1))
        (fun l a => (lambda3StepF_ge l a).2) _ _ i (List.mem_range.2 (by have := h.jn; omega))
    have h2 : yAt y (lambda3F fl E j y n) i ≤ (y i).1 - lambda3F fl E j y n := by
      unfold yAt yVal minO
      cases (y i).2 with
      | none => exact le_rfl
      | some b => exact min_le_left _ _
    have h3 := sinkCapacity_le (j := j) h.cap (by linarith) i
    have h4 := sinkCapacity_nonneg (j := j) h.good.nonneg i
    have h6 := abs_le.1 (h.bound i hi).1
    have h5 := abs_le.1 (h.err.err 2 (sinkCapacity E j i + (y i).1) (by rw [abs_le]; constructor <;> linarith))
    linarith
  have h1 := empty_le h.good hle hZ
  have h2 : (Z.card : ℚ) ≤ n := by have := card_le_j hZ; linarith
  have h3 : (Z.card : ℚ) * (2 * r) ≤ n * (2 * r) := mul_le_mul_of_nonneg_right h2 (by linarith)
  have h4 : (2 : ℚ) * (n * r) ≤ n * (n * r) := mul_le_mul_of_nonneg_right n1 (mul_nonneg (by linarith) hr)
  have h5 : 0 ≤ (n : ℚ) * (n * r) := mul_nonneg (by linarith) (mul_nonneg (by linarith) hr)
  linarith

/-! ### the first network -/

theorem dig_stSum : stSum ((pmfArcs ε E j).map (digArc E j)) = 0 := by
  unfold stSum
  apply List.sum_eq_zero
  intro x hx
  obtain ⟨e, he, rfl⟩ := List.mem_map.1 hx
  obtain ⟨p, hp, rfl⟩ := List.mem_map.1 he
  rw [if_neg]
  rintro ⟨h1, h2⟩
  have hpn : ∀ i, pmfNode j i ≠ .src := fun i => by unfold pmfNode; split <;> simp
  unfold pmfArcs at hp
  rcases List.mem_append.1 hp with hp | hp
  · rcases List.mem_append.1 hp with hp | hp
    · obtain ⟨a, _, rfl⟩ := List.mem_map.1 hp
      split at h1
      · exact hpn _ h1
      · exact hpn _ h1
    · obtain ⟨i, _, rfl⟩ := List.mem_map.1 hp
      simp [digArc] at h2
  · obtain ⟨i, _, rfl⟩ := List.mem_map.1 hp
    exact hpn _ h1

theorem dig_length (h : RSetup fl ao no W v ε r H E n j y) :
    (((pmfArcs ε E j).map (digArc E j)).length : ℚ) ≤ 3 * (n * n) := by
  have h1 : ((pmfArcs ε E j).map (digArc E j)).length ≤ E.length + j + j := by
    unfold pmfArcs
    simp only [List.length_map, List.length_append, List.length_range]
    have a := List.length_filter_le (fun a : Arc => decide (a.src ≤ j ∧ a.dst ≤ j)) E
    have b := List.length_filter_le (fun i => decide (sinkCapacity E j i < ε)) (List.range j)
    rw [List.length_range] at b
    omega
  have h2 := h.len
  have h3 := h.jn
  have h4 : n ≤ n * n := Nat.le_mul_self n
  exact_mod_cast (by omega : ((pmfArcs ε E j).map (digArc E j)).length ≤ 3 * (n * n))

theorem base_ok (h : RSetup fl ao no W v ε r H E n j y) :
    BaseOk E j (n * r) (Finset.range j) ∅ fun i => (0, sinkCapacity E j i) := by
  obtain ⟨n1, n2, n3, hr, n5, n6, n7, n8, n9, n10, n11⟩ := h.nums
  have hnr : 0 ≤ (n : ℚ) * r := mul_nonneg (by linarith) hr
  refine ⟨fun i _ => ⟨le_rfl, sinkCapacity_nonneg h.good.nonneg i⟩, ?_, ?_⟩
  · intro i hi
    rw [Finset.sdiff_empty] at hi
    rw [← base_run h.good (Finset.mem_range.1 hi)]
    simpa using hnr
  · intro i hi
    rw [Finset.sdiff_empty] at hi
    rw [← base_run h.good (Finset.mem_range.1 hi)]
    simpa using hnr

/-- **`PMF_R::run`** with rounded arithmetic, whichever threads deliver. -/
theorem pmfrRunF_spec {S : FlowSolver} {R : SrcSolver} (hS : FlowLeast S v) (hR : SrcLeast R v)
    (hio : ∀ l, (io l).Perm l) {g : Digraph} (h : RSetup fl ao no W v ε r H g.arcs n j y) (hn : g.countNodes = n)
    (hnodes : ∀ i < j + 1, i ∈ g.nodes) (hy : ∀ i, YBound H (y i)) (finish : ℕ → CSet → CSet → Finish)
    (hneg : ∃ Z ⊆ Finset.range j,
      obj g.arcs j y (startF fl) Z + 12 * (n * n * n * r) < obj g.arcs j y (startF fl) ∅) :
    OkOr False (pmfrRunF fl ao io no S R ε g finish j y) fun o => ∃ X0 t,
      o = ((X0 :: t.map Prod.snd).map (insert j), t.map Prod.fst) ∧
      RRunSpec g.arcs j y (4 * (n + 2) * ε) (lowF fl ε) (2 * H) X0 t := by
  obtain ⟨n1, n2, n3, hr, n5, n6, n7, n8, n9, n10, n11⟩ := h.nums
  have hH1 := h.H1
  have hε1 := h.ε1
  obtain ⟨s1, s2⟩ := startF_bounds h
  unfold pmfrRunF
  rw [if_neg (by
    push Not
    intro i hi
    exact hnodes i (List.mem_range.1 hi))]
  dsimp only
  rw [hn]
  have hb := base_ok h
  set base : ℕ → ℚ × ℚ := fun i => (0, sinkCapacity g.arcs j i) with hbase
  set dig0 := (pmfArcs ε g.arcs j).map (digArc g.arcs j) with hdig0
  set lam3 := lambda3F fl g.arcs j y n with hlam3
  have hl0 : 0 ≤ lam3 := lambda3F_nonneg
  have hl6 : lam3 ≤ 6 * H := lambda3F_le h hy n
  have hcard : ((Finset.range j \ ∅).card : ℚ) = j := by rw [Finset.sdiff_empty, Finset.card_range]
  have hi0 : RInv g.arcs (Finset.range j \ ∅) dig0 := by
    rw [Finset.sdiff_empty]; exact dig_inv h.good
  have hst0 : stSum dig0 ≤ 11 * H * (j - (Finset.range j \ ∅).card) := by
    rw [hcard, sub_self, mul_zero]; exact dig_stSum.le
  have hcb := fun i hi => caps_bound (i := i) h subset_rfl hb (by linarith : -1 ≤ startF fl)
    (by linarith : startF fl ≤ 6 * H) hi
  have hcb3 := fun i hi => caps_bound (i := i) h subset_rfl hb (by linarith : -1 ≤ lam3) hl6 hi
  have ha1 := setDig_arcs hi0 hst0 (dig_length h) (fun i hi => (hcb i hi).1) (fun i hi => (hcb i hi).2)
  rw [← updateDigF_eq] at ha1
  have ha3 := setDig_arcs ha1.inv ha1.st ha1.len (fun i hi => (hcb3 i hi).1) (fun i hi => (hcb3 i hi).2)
  rw [← updateDigF_eq] at ha3
  change OkOr _ (pmfrSliceF fl ao io no S R ε g.arcs j y (finish j) (j + 1) ⟨Finset.range j, updateDigF fl y lam3 base
    (updateDigF fl y (startF fl) base dig0), base⟩
    (insert j (S.sinkSide ⟨Finset.range j, updateDigF fl y (startF fl) base dig0⟩)) {j} (startF fl) lam3 false >>= _) _
  set X0 := S.sinkSide ⟨Finset.range j, updateDigF fl y (startF fl) base dig0⟩ with hX0
  -- the first cut
  have hv : VLeast (gObj g.arcs (Finset.range j \ ∅) (srcRF fl y base (startF fl)) (snkRF fl y base (startF fl)))
      (Finset.range j \ ∅) X0 := by
    have h1 : ResF ⟨Finset.range j \ ∅, updateDigF fl y (startF fl) base dig0⟩ v X0
        (S.flowValue ⟨Finset.range j, updateDigF fl y (startF fl) base dig0⟩) := by
      rw [Finset.sdiff_empty]
      exact left_resF hS ha1.inv.nonneg
    rw [updateDigF_eq] at h1
    exact resF_least hi0 h1
  have hcl := vleast_close h hi0 (Finset.empty_subset _) subset_rfl hb (by linarith : -1 ≤ startF fl)
    (by linarith) hv
  rw [Finset.empty_union] at hcl
  have hsub : X0 ⊆ Finset.range j := by have := hv.sub; rwa [Finset.sdiff_empty] at this
  have hupA : UpAt g.arcs j y 0 (startF fl) (Finset.range j) := by
    intro Z hZ
    rw [Finset.union_eq_left.2 hZ, add_zero]
  have hdownB : ∀ l, DownAt g.arcs j y 0 l ∅ := by
    intro l Z hZ
    rw [Finset.empty_inter, add_zero]
  have hup := up_of_range h.good.nonneg (Finset.empty_subset _) hsub subset_rfl hcl hupA
  have hdown := down_of_range h.good.nonneg (Finset.empty_subset _) hsub subset_rfl hcl (hdownB _)
  rw [zero_add] at hup hdown
  have hnear := (near_of h.good.nonneg hsub hup hdown).mono (by linarith : _ ≤ 12 * (n * n * n * r : ℚ))
  have hne : (∅ : Finset ℕ) ⊂ X0 := by
    rw [Finset.empty_ssubset, Finset.nonempty_iff_ne_empty]
    intro h0
    obtain ⟨Z, hZ, hneg⟩ := hneg
    have := hnear.le Z hZ
    rw [h0] at this
    linarith
  have hnnr : 0 ≤ 6 * (n * n * r : ℚ) := by linarith
  have e0 : 6 * (n * n * r) * ((j : ℚ) - (Finset.range j \ ∅).card) = 0 := by rw [hcard]; ring
  have e1 : 6 * (n * n * r) * ((j : ℚ) - (Finset.range j \ ∅).card + 1) = 6 * (n * n * r) := by rw [hcard]; ring
  have hpre : FPre fl n r H g.arcs j y X0 ∅ (Finset.range j) ∅ base (startF fl) lam3 false :=
    { sub := hne
      rr := subset_rfl
      ll := hsub
      lo := by linarith
      hi := by linarith
      le := by linarith
      hi3 := hl6
      upA := by rw [e0]; exact hupA
      downB := by rw [e0]; exact hdownB _
      upl := by rw [e1]; exact hup
      downl := by rw [e1]; exact hdown
      upr := by rw [e1]; exact lambda3F_empty h
      downr := by rw [e1]; exact (hdownB _).mono hnnr
      lt := by simp
      left := fun _ => Or.inr (by rwa [show X0 \ ∅ = X0 from Finset.sdiff_empty])
      right := fun _ => Or.inl rfl }
  have hs := pmfrSliceF_spec h hio hS hR (finish := finish j) (j + 1) X0 ∅ (Finset.range j) ∅
    ⟨Finset.range j, updateDigF fl y lam3 base (updateDigF fl y (startF fl) base dig0), base⟩ (startF fl) lam3 false
    (by
      have := Finset.card_le_card hsub
      rw [Finset.card_range] at this
      simp; omega)
    ⟨Finset.empty_subset _, subset_rfl, by simp, ha3, hb⟩ hpre
  rw [insert_empty_eq] at hs
  refine hs.bind ?_
  rintro ⟨sets, lams, arcs⟩ ⟨⟨t, hs⟩, _⟩
  exact Or.inl ⟨_, rfl, run_of_slice h hnear hs⟩

/-! ### the loop -/

theorem pdtUpdatesF_other {ts : List CSet} {ls : List ℚ} {y z : ℕ → YPair} : ∀ {k : ℕ},
    pdtUpdatesF fl ts ls y k = .ok z → ∀ i, k ≤ i → z i = y i := by
  intro k
  induction k generalizing z with
  | zero =>
    intro h i _
    cases h
    rfl
  | succ k ih =>
    intro h i hi
    unfold pdtUpdatesF at h
    obtain ⟨z', h1, h2⟩ := Outcome.bind_eq_ok h
    obtain ⟨p, _, h3⟩ := Outcome.bind_eq_ok h2
    cases h3
    rw [Function.update_of_ne (by omega)]
    exact ih h1 i (by omega)

theorem pdtStepF_other {pmf : ℕ → (ℕ → YPair) → Outcome (List CSet × List ℚ)} {g : Digraph} {st st' : PDTState}
    (h : pdtStepF fl ao pmf g j st = .ok st') : ∀ i, j + 1 ≤ i → st'.y i = st.y i := by
  intro i hi
  unfold pdtStepF at h
  obtain ⟨r, _, h⟩ := Outcome.bind_eq_ok h
  obtain ⟨z, hz, h⟩ := Outcome.bind_eq_ok h
  split at h
  · cases h
  · cases h
    change Function.update z j _ i = _
    rw [Function.update_of_ne (by omega)]
    exact pdtUpdatesF_other hz i (by omega)

theorem OkOr.and_ok {exact : Prop} {α : Type} {o : Outcome α} {p q : α → Prop} (h : OkOr exact o p)
    (hq : ∀ a, o = .ok a → q a) : OkOr exact o fun a => p a ∧ q a := by
  rcases h with ⟨a, h1, ha⟩ | h
  · exact Or.inl ⟨a, h1, ha, hq a h1⟩
  · exact Or.inr h

theorem pdtrLoopF_spec {S : FlowSolver} {R : SrcSolver} (hS : FlowLeast S v) (hR : SrcLeast R v)
    (hio : ∀ l, (io l).Perm l) {g : Digraph} (hs : PSetup fl ao no W v ε r H g.arcs n) (hn : g.countNodes = n)
    (hnodes : ∀ i < n, i ∈ g.nodes) (finish : ℕ → CSet → CSet → Finish) (k : ℕ) :
    ∀ (i : ℕ) (st : PDTState), 0 < i → i + k = n → RPInv g.arcs n i ε r H (lowF fl ε) st →
      (∀ u, i ≤ u → st.y u = (0, none)) →
      OkOr False (pdtLoopF fl ao (pmfrRunF fl ao io no S R ε g finish) g k i st) fun st' =>
        RPInv g.arcs n n ε r H (lowF fl ε) st' := by
  induction k with
  | zero =>
    intro i st hi hin h _
    have : i = n := by omega
    subst this
    exact Or.inl ⟨st, rfl, h⟩
  | succ k ih =>
    intro i st hi hin h hy
    unfold pdtLoopF
    have hset := hs.rsetup (by omega : i < n) hi h.bound
    have hneg := h.neg hs hi (by omega)
    have hH1 := hs.H1
    have hstep := pdtStepF_spec hs hi (by omega) h (pmfrRunF_spec hS hR hio hset hn (fun u hu => hnodes u (by omega))
      (fun u => by
        rcases Nat.lt_or_ge u i with hu | hu
        · exact h.bound u hu
        · rw [hy u hu]; exact ⟨by simp; linarith, by simp⟩) finish ⟨_, subset_rfl, hneg⟩)
    refine (hstep.and_ok fun a ha => pdtStepF_other ha).bind fun st' h' => ?_
    exact ih (i + 1) st' (by omega) (by omega) h'.1 fun u hu => by rw [h'.2 u hu]; exact hy u (by omega)

/-- **`PDT_R::run`** with rounded arithmetic, whichever threads deliver. -/
theorem pdtrRunF_spec {S : FlowSolver} {R : SrcSolver} (hS : FlowLeast S v) (hR : SrcLeast R v)
    (hio : ∀ l, (io l).Perm l) {g : Digraph} (hgd : GoodDigraph g n) (hn : 0 < n)
    (hs : PSetup fl ao no W v ε r H g.arcs n) (finish : ℕ → CSet → CSet → Finish) :
    OkOr False (pdtrRunF fl ao io no S R ε finish g) fun o =>
      IsApproximateSequence g.arcs (Finset.range n) (12 * (n * (n + 2) * (n + 2) * ε)) o.psp o.cv := by
  have hcn : g.countNodes = n := hgd.countNodes
  unfold pdtrRunF
  rw [if_neg (by omega), hcn]
  refine (pdtrLoopF_spec hS hR hio hs hcn (fun i hi => by rw [hgd.nodes]; exact List.mem_range.2 hi) finish (n - 1) 1 _
    Nat.one_pos (by omega) (rpinv_init hs hn _) (fun _ _ => rfl)).bind fun st hst => ?_
  obtain ⟨Ps, cv, h1, h2, happ⟩ := hst.result hgd hn hs
  refine Or.inl ⟨⟨Ps, cv⟩, ?_, happ⟩
  rw [h1, h2, if_neg (by simp)]
  simp

end PSP.Theory
