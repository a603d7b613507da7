import Verif.Theory.RoundedRun
import Verif.Theory.PDTFinal

/-!
# `PDT::run` with rounded arithmetic
-/

namespace PSP.Theory

open PSP.Spec PSP.Model

variable {E : List Arc} {ε : ℚ} {j : ℕ} {y : ℕ → YPair} {lam : ℚ} {X A : Finset ℕ} {fl : ℚ → ℚ} {r H e : ℚ}
  {ao : List Arc → List Arc} {no : List NArc → List NArc} {W : WarmSolver} {v : ℚ} {n : ℕ} {t : List (ℚ × Finset ℕ)}

/-! ### the update of `_y_lambda` -/

theorem AChain.count (h : AChain E j y e A t) (hlast : slast A t = ∅) {u : ℕ} (hj : u ≠ j) (hu : u ∈ A) :
    ∃ c, (((A :: t.map Prod.snd).map (insert j)).filter fun T => decide (u ∈ T)).length = c + 1 ∧
      (t.map Prod.fst)[c]? = some (leave t u) := by
  induction t generalizing A with
  | nil => rw [show A = ∅ from hlast] at hu; simp at hu
  | cons cb t ih =>
    obtain ⟨c, B⟩ := cb
    by_cases hB : u ∈ B
    · obtain ⟨k, h1, h2⟩ := ih h.2.2.2 hlast hB
      refine ⟨k + 1, ?_, ?_⟩
      · rw [List.map_cons, List.filter_cons_of_pos (by simp [hu])]
        simp only [List.length_cons]
        exact congrArg (· + 1) h1
      · simpa [leave, hB] using h2
    · refine ⟨0, ?_, by simp [leave, hB]⟩
      rw [List.map_cons, List.filter_cons_of_pos (by simp [hu]), List.length_cons]
      have : ((((c, B) :: t).map Prod.snd).map (insert j)).filter (fun T => decide (u ∈ T)) = [] := by
        rw [List.filter_eq_nil_iff]
        intro T hT
        rw [List.mem_map] at hT
        obtain ⟨Z, hZ, rfl⟩ := hT
        have hZB : Z ⊆ B := by
          rcases List.mem_cons.1 hZ with h' | h'
          · exact h'.subset
          · exact (h.2.2.2.lt Z h').1
        simp only [decide_eq_true_eq, Finset.mem_insert]
        rintro (h' | h')
        · exact hj h'
        · exact hB (hZB h')
      rw [this]
      rfl

theorem AChain.count_out (h : AChain E j y e A t) {u : ℕ} (hj : u ≠ j) (hu : u ∉ A) :
    (((A :: t.map Prod.snd).map (insert j)).filter fun T => decide (u ∈ T)).length = 0 := by
  rw [List.length_eq_zero_iff, List.filter_eq_nil_iff]
  intro T hT
  rw [List.mem_map] at hT
  obtain ⟨Z, hZ, rfl⟩ := hT
  have hZA : Z ⊆ A := by
    rcases List.mem_cons.1 hZ with h' | h'
    · exact h'.subset
    · exact (h.lt Z h').1
  simp only [decide_eq_true_eq, Finset.mem_insert]
  rintro (h' | h')
  · exact hj h'
  · exact hu (hZA h')

/-- The new pair for a node that leaves at `l`. -/
def stopAtF (fl : ℚ → ℚ) (p : YPair) (l : ℚ) : YPair :=
  match p.2 with
  | none => (p.1, some (fl (p.1 - l)))
  | some b => if fl (p.1 - b) < l then (p.1, some (fl (p.1 - l))) else p

theorem pdtUpdatesF_spec (h : AChain E j y e A t) (hlast : slast A t = ∅) (k : ℕ) (hk : k ≤ j) :
    ∃ z, pdtUpdatesF fl ((A :: t.map Prod.snd).map (insert j)) (t.map Prod.fst) y k = .ok z ∧
      (∀ u < k, u ∈ A → z u = stopAtF fl (y u) (leave t u)) ∧ (∀ u < k, u ∉ A → z u = y u) := by
  induction k with
  | zero => exact ⟨y, rfl, by simp, by simp⟩
  | succ k ih =>
    obtain ⟨z, h1, h2, h3⟩ := ih (by omega)
    have hkj : k ≠ j := by omega
    unfold pdtUpdatesF
    rw [h1]
    simp only [Outcome.ok_bind]
    by_cases hA : k ∈ A
    · have e1 : pdtUpdateF fl ((A :: t.map Prod.snd).map (insert j)) (t.map Prod.fst) (y k) k =
          .ok (stopAtF fl (y k) (leave t k)) := by
        obtain ⟨c, e1, e2⟩ := h.count hlast hkj hA
        unfold pdtUpdateF
        rw [e1]
        simp only [e2]
        rfl
      rw [e1]
      simp only [Outcome.ok_bind, Outcome.pure_eq]
      refine ⟨_, rfl, ?_, ?_⟩
      · intro u hu huA
        by_cases huk : u = k
        · subst huk; simp
        · rw [Function.update_of_ne huk]; exact h2 u (by omega) huA
      · intro u hu huA
        by_cases huk : u = k
        · subst huk; exact absurd hA huA
        · rw [Function.update_of_ne huk]; exact h3 u (by omega) huA
    · have e1 : pdtUpdateF fl ((A :: t.map Prod.snd).map (insert j)) (t.map Prod.fst) (y k) k = .ok (y k) := by
        unfold pdtUpdateF
        rw [h.count_out hkj hA]
      rw [e1]
      simp only [Outcome.ok_bind, Outcome.pure_eq]
      refine ⟨_, rfl, ?_, ?_⟩
      · intro u hu huA
        by_cases huk : u = k
        · subst huk; exact absurd huA hA
        · rw [Function.update_of_ne huk]; exact h2 u (by omega) huA
      · intro u hu huA
        by_cases huk : u = k
        · subst huk; simp
        · rw [Function.update_of_ne huk]; exact h3 u (by omega) huA

theorem min_close {a b b' c : ℚ} (h1 : b ≤ b' + c) (h2 : b' ≤ b + c) : |min a b - min a b'| ≤ c :=
  min_diff_le (by rw [abs_le]; constructor <;> linarith)

theorem stopAtF_close (h : RErr fl r H) {p : YPair} (hp : YBound H p) {k : ℚ} (hk : |k| ≤ 2 * H) (l : ℚ) :
    |yVal l (stopAtF fl p k) - yVal (max l k) p| ≤ 8 * r := by
  have hr := h.nonneg
  obtain ⟨a, b⟩ := p
  have hsub : a - max l k = min (a - l) (a - k) := by
    rcases le_total l k with h | h
    · rw [max_eq_right h, min_eq_right (by linarith)]
    · rw [max_eq_left h, min_eq_left (by linarith)]
  have ha : |a| ≤ H := hp.1
  have hak := h.err 3 (a - k) ((abs_sub a k).trans (by linarith))
  rw [abs_le] at hak
  cases b with
  | none =>
    simp only [stopAtF, yVal, minO, hsub]
    exact min_close (by linarith) (by linarith)
  | some b =>
    have hb : |b| ≤ 4 * H := hp.2 b rfl
    have hab := h.err 5 (a - b) ((abs_sub a b).trans (by linarith))
    rw [abs_le] at hab
    simp only [stopAtF]
    split
    · rename_i hlt
      simp only [yVal, minO, hsub]
      rw [min_assoc]
      apply min_close
      · rw [← min_add_add_right]
        exact le_min (by linarith) (by linarith)
      · exact (min_le_left _ _).trans (by linarith)
    · rename_i hlt
      have hlt := not_lt.1 hlt
      simp only [yVal, minO, hsub]
      rw [min_assoc]
      apply min_close
      · rw [← min_add_add_right]
        exact le_min (by linarith) (by linarith)
      · exact (min_le_right _ _).trans (by linarith)

theorem stopAtF_bound (h : RErr fl r H) (hr : 3 * r ≤ H) {p : YPair} (hp : YBound H p) {k : ℚ} (hk : |k| ≤ 2 * H) :
    YBound H (stopAtF fl p k) := by
  obtain ⟨a, b⟩ := p
  have ha : |a| ≤ H := hp.1
  have hak := h.err 3 (a - k) ((abs_sub a k).trans (by linarith))
  have hak2 := (abs_sub a k).trans (show |a| + |k| ≤ 3 * H by linarith)
  have hnew : YBound H (a, some (fl (a - k))) := ⟨ha, fun b hb => by
    simp only [Option.some.injEq] at hb
    rw [← hb]
    rw [abs_le] at *
    constructor <;> linarith⟩
  cases b with
  | none => exact hnew
  | some b =>
    simp only [stopAtF]
    split
    · exact hnew
    · exact hp

/-! ### one iteration -/

/-- What is fixed during a run. -/
structure PSetup (fl : ℚ → ℚ) (ao : List Arc → List Arc) (no : List NArc → List NArc) (W : WarmSolver) (v ε r H : ℚ)
    (E : List Arc) (n : ℕ) : Prop where
  good : PGood E ε
  err : RErr fl r H
  solver : WarmLeast W v
  perm : ∀ l, (no l).Perm l
  H1 : 1 ≤ H
  v0 : 0 ≤ v
  cut : ∀ S, getCutValue E S + 1 ≤ H
  cap : ∀ e ∈ E, e.cap ≤ H
  permA : ∀ l, (ao l).Perm l
  len : E.length ≤ n * n
  small : 10 * (v * n * H) + 120 * (n * n * n * r) ≤ ε
  fine : 240 * (n * (n + 2) * (n + 2) * ε) ≤ 1

theorem PSetup.eps1 (h : PSetup fl ao no W v ε r H E n) (hn : 0 < n) : 100 * ε ≤ 1 := by
  have h1 : (1 : ℚ) ≤ n := by exact_mod_cast hn
  have h2 := h.fine
  have h3 := h.good.pos
  have h4 : (9 : ℚ) ≤ (n + 2) * (n + 2) := by nlinarith
  have h5 : (9 : ℚ) ≤ n * ((n + 2) * (n + 2)) := by nlinarith
  have h6 := mul_le_mul_of_nonneg_right h5 h3.le
  linarith

theorem PSetup.rsetup (h : PSetup fl ao no W v ε r H E n) (hjn : j < n) (hj : 0 < j)
    (hb : ∀ i < j, YBound H (y i)) : RSetup fl ao no W v ε r H E n j y :=
  ⟨h.good, h.err, h.solver, h.perm, h.H1, h.v0, hb, h.cut, h.cap, h.permA, h.len, hjn, hj, h.eps1 (by omega), h.small⟩

/-- Error of the partitions after `j` nodes. -/
def errP (n : ℕ) (ε r : ℚ) (j : ℕ) : ℚ := 4 * (n + 1) * (n + 2) * ε + j * (n * (8 * r) + n * n * r)

/-- The state before iteration `j`. -/
structure RPInv (E : List Arc) (n j : ℕ) (ε r H a0 : ℚ) (st : PDTState) : Prop where
  bound : ∀ i < j, YBound H (st.y i)
  chain : WChain (fun l P => AInv (getCutValue E) l (errP n ε r j) (Finset.range j) (yAt st.y l) P) a0 st.parts
  finer : (st.parts.map Prod.fst).IsChain Finer

theorem errP_le (h : PSetup fl ao no W v ε r H E n) (hjn : j ≤ n) (hn : 1 ≤ n) :
    0 ≤ errP n ε r j ∧ errP n ε r j ≤ 4 * (n + 2) * (n + 2) * ε := by
  have hr := h.err.nonneg
  have hε := h.good.pos
  have hn' : (1 : ℚ) ≤ n := by exact_mod_cast hn
  have hj' : (j : ℚ) ≤ n := by exact_mod_cast hjn
  have hj0 : (0 : ℚ) ≤ j := by positivity
  have h4 : (0 : ℚ) ≤ v * n * H := mul_nonneg (mul_nonneg h.v0 (by linarith)) (by linarith [h.H1])
  have h5 := h.small
  unfold errP
  constructor
  · positivity
  · have h6 : (j : ℚ) * (n * (8 * r) + n * n * r) ≤ n * (n * (8 * r) + n * n * r) :=
      mul_le_mul_of_nonneg_right hj' (by positivity)
    have h7 : (n * n * r) ≤ (n * n * n * r : ℚ) := by
      have := mul_le_mul_of_nonneg_right hn' (by positivity : (0 : ℚ) ≤ n * n * r)
      linarith
    have h8 : (0 : ℚ) ≤ n * ε := by positivity
    nlinarith

theorem RPInv.neg (hs : PSetup fl ao no W v ε r H E n) (hj : 0 < j) (hjn : j < n) {st : PDTState}
    (h : RPInv E n j ε r H (lowF fl ε) st) :
    obj E j st.y (startF fl) (Finset.range j) + 12 * (n * n * n * r) < obj E j st.y (startF fl) ∅ := by
  obtain ⟨P, b, rest, _, hP⟩ := h.chain.head
  have hset := hs.rsetup hjn hj h.bound
  obtain ⟨n1, n2, n3, hr, n5, n6, n7, n8, n9, n10, n11⟩ := hset.nums
  obtain ⟨s1, s2⟩ := startF_bounds hset
  have hε := hs.good.pos
  obtain ⟨he0, he⟩ := errP_le hs hjn.le (by omega)
  have hge := hP.ge he0
  rw [Finset.card_range] at hge
  have hV : (Finset.range j).Nonempty := ⟨0, Finset.mem_range.2 hj⟩
  have h1 : ∑ B ∈ P, (getCutValue E B - lowF fl ε) ≥ ∑ B ∈ P, (9 / 100 : ℚ) := by
    apply Finset.sum_le_sum
    intro B _
    have := cutValue_nonneg hs.good.nonneg B
    unfold lowF
    linarith
  rw [Finset.sum_const, nsmul_eq_mul] at h1
  have h2 : (1 : ℚ) ≤ P.card := by exact_mod_cast hP.part.card_pos hV
  have h3 : getCutValue E (insert j (Finset.range j)) = 0 := by
    rw [← Finset.range_add_one]; exact cut_range hs.good.lowHigh _
  have h4 := cutValue_nonneg hs.good.nonneg (insert j ∅)
  have h5 := vsum_lip (y := st.y) (l := lowF fl ε) (m := startF fl) (c := 11 / 10 * ε) (X := Finset.range j) (j := j)
    (by unfold lowF; linarith) (by unfold lowF; linarith) subset_rfl
  have hfine := hs.fine
  have hjn' : (j : ℚ) ≤ n := by linarith
  have h6 : 2 * (j : ℚ) * errP n ε r j ≤ 2 * n * (4 * (n + 2) * (n + 2) * ε) :=
    mul_le_mul (by linarith) he he0 (by linarith)
  have h7 : (j : ℚ) * (11 / 10 * ε) ≤ n * (11 / 10 * ε) := mul_le_mul_of_nonneg_right hjn' (by linarith)
  have h8 : (16 : ℚ) * (n * ε) ≤ n * (n + 2) * (n + 2) * ε := by
    have : (0 : ℚ) ≤ n * ε := by positivity
    have h16 : (16 : ℚ) ≤ (n + 2) * (n + 2) := by nlinarith
    nlinarith
  have hjr : (j : ℚ) * r ≤ n * r := mul_le_mul_of_nonneg_right hjn' hr
  have hε2 : ε ≤ n * ε := by nlinarith
  unfold obj
  rw [h3]
  simp only [vsum, Finset.sum_empty] at *
  linarith

theorem pdtStepF_spec {g : Digraph} {pmf : ℕ → (ℕ → YPair) → Outcome (List CSet × List ℚ)}
    (hs : PSetup fl ao no W v ε r H g.arcs n) (hj : 0 < j) (hjn : j < n) {st : PDTState}
    (h : RPInv g.arcs n j ε r H (lowF fl ε) st)
    {exact : Prop} (hpmf : OkOr exact (pmf j st.y) fun o => ∃ X0 t,
      o = ((X0 :: t.map Prod.snd).map (insert j), t.map Prod.fst) ∧
      RRunSpec g.arcs j st.y (4 * (n + 2) * ε) (lowF fl ε) (2 * H) X0 t) :
    OkOr exact (pdtStepF fl ao pmf g j st) fun st' =>
      RPInv g.arcs n (j + 1) ε r H (lowF fl ε) st' := by
  have hset := hs.rsetup hjn hj h.bound
  obtain ⟨n1, n2, n3, hr, n5, n6, n7, n8, n9, n10, n11⟩ := hset.nums
  obtain ⟨s1, s2⟩ := startF_bounds hset
  have hε := hs.good.pos
  have hε1 := hset.ε1
  have hH1 := hs.H1
  obtain ⟨he0, he⟩ := errP_le hs hjn.le (by omega)
  unfold pdtStepF
  refine hpmf.bind ?_
  rintro _ ⟨X0, t, rfl, hrun⟩
  obtain ⟨z, hz, hzin, hzout⟩ := pdtUpdatesF_spec (fl := fl) hrun.chain hrun.last j le_rfl
  dsimp only
  rw [hz]
  simp only [Outcome.ok_bind]
  rw [if_neg (by simp)]
  refine Or.inl ⟨_, rfl, ?_⟩
  have hX0 := hrun.near.sub
  have hlv : ∀ u ∈ X0, |leave t u| ≤ 2 * H := by
    intro u hu
    have hm := leave_mem hrun.last hu
    have h1 := hrun.lo _ hm
    have h2 := hrun.top _ hm
    unfold lowF at h1
    rw [abs_le]
    constructor <;> linarith
  have hcj := hset.cut_close {j}
  generalize cutValueF fl ao g.arcs {j} = cj at hcj ⊢
  have hu : AUpdated g.arcs j (8 * r) (n * n * r) st.y (Function.update z j (cj, none)) X0 t := by
    refine ⟨?_, ?_, cj, by simp, hcj⟩
    · intro u hu l
      have huj := Finset.mem_range.1 (hX0 hu)
      unfold yAt
      rw [Function.update_of_ne (by omega), hzin u huj hu]
      exact stopAtF_close hs.err (h.bound u huj) (hlv u hu) l
    · intro u huj hu
      rw [Function.update_of_ne (by omega), hzout u huj hu]
  have hint := hrun.chain.intervals hs.good.nonneg hrun.last hrun.near hrun.lo hrun.inc
  have hint' := hint.map (f := insert j) (D' := fun l s => ∃ Z, s = insert j Z ∧
    AStepIn g.arcs j st.y (4 * (n + 2) * ε) X0 t l Z) (fun l _ Z hZ => ⟨Z, rfl, hZ⟩)
  rw [← List.zip_map_left] at hint'
  have hR : (st.parts.map Prod.fst).IsChain fun P Q => Refines Q P := h.finer.imp fun _ _ hPQ => hPQ.1
  have hT : ((((X0 :: t.map Prod.snd).map (insert j)).zip ((t.map Prod.fst).map some ++ [none])).map Prod.fst).IsChain
      (fun S T => T ⊆ S) := by
    rw [List.map_fst_zip (by simp)]
    apply List.Pairwise.isChain
    rw [List.pairwise_map]
    exact hrun.chain.pairwise.imp fun hab => Finset.insert_subset_insert _ hab.1
  have hm := pdtMerge_specW (D3 := fun l P => AInv (getCutValue g.arcs) l (errP n ε r (j + 1)) (Finset.range (j + 1))
      (yAt (Function.update z j (cj, none)) l) P) (a0 := lowF fl ε)
    (fun l _ p s hp hZ => by
      obtain ⟨Z, rfl, hZ⟩ := hZ
      refine hp.parametric hs.good.nonneg (by linarith) he0 hj hu hZ ?_ ?_
      · unfold errP
        have : (j : ℚ) * (8 * r) ≤ n * (8 * r) := mul_le_mul_of_nonneg_right (by linarith) (by linarith)
        have h0 : (0 : ℚ) ≤ n * n * r := n11
        push_cast
        linarith
      · unfold errP
        have h0 : (0 : ℚ) ≤ j * (n * n * r) := mul_nonneg (by linarith) n11
        have h1 : (j : ℚ) * (8 * r) ≤ (j + 1) * (n * (8 * r)) := by
          apply mul_le_mul (by linarith) _ (by linarith) (by linarith)
          have : (0 : ℚ) ≤ (n - 1) * (8 * r) := mul_nonneg (by linarith) (by linarith)
          linarith
        have h2 : (j + 2 : ℚ) * (4 * (n + 2) * ε) ≤ (n + 1) * (4 * (n + 2) * ε) := by
          apply mul_le_mul_of_nonneg_right (by linarith)
          positivity
        push_cast
        linarith)
    _ st.parts _ (lowF fl ε) [] le_rfl le_rfl h.chain hint' hR hT rfl (by simp) (by simp)
  refine ⟨?_, hm.1, hm.2⟩
  intro i hi
  dsimp only
  by_cases hij : i = j
  · subst hij
    rw [Function.update_self]
    refine ⟨?_, by simp⟩
    have h1 := hs.cut {i}
    have h2 := cutValue_nonneg hs.good.nonneg {i}
    have hcj := abs_le.1 hcj
    rw [abs_le]
    constructor <;> linarith
  · rw [Function.update_of_ne hij]
    have hij' : i < j := by omega
    by_cases hiX : i ∈ X0
    · rw [hzin i hij' hiX]
      exact stopAtF_bound hs.err (by linarith) (h.bound i hij') (hlv i hiX)
    · rw [hzout i hij' hiX]
      exact h.bound i hij'

/-! ### the loop -/

theorem pdtLoopF_spec {g : Digraph} (hs : PSetup fl ao no W v ε r H g.arcs n) (hn : g.countNodes = n)
    (hnodes : ∀ i < n, i ∈ g.nodes) (k : ℕ) :
    ∀ (i : ℕ) (st : PDTState), 0 < i → i + k = n → RPInv g.arcs n i ε r H (lowF fl ε) st →
      OkOr (fl = id) (pdtLoopF fl ao (pmfRunF fl ao no W ε g) g k i st) fun st' =>
        RPInv g.arcs n n ε r H (lowF fl ε) st' := by
  induction k with
  | zero =>
    intro i st hi hin h
    have : i = n := by omega
    subst this
    exact Or.inl ⟨st, rfl, h⟩
  | succ k ih =>
    intro i st hi hin h
    unfold pdtLoopF
    have hset := hs.rsetup (by omega : i < n) hi h.bound
    have hneg := h.neg hs hi (by omega)
    obtain ⟨n1, n2, n3, hr, n5, n6, n7, n8, n9, n10, n11⟩ := hset.nums
    have hir : (i : ℚ) * r ≤ n * r := mul_le_mul_of_nonneg_right (by linarith) hr
    refine (pdtStepF_spec hs hi (by omega) h (pmfRunF_spec hset hn (fun u hu => hnodes u (by omega))
      ⟨_, subset_rfl, by linarith⟩)).bind fun st' h' => ?_
    exact ih (i + 1) st' (by omega) (by omega) h'

end PSP.Theory
