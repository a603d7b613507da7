import Verif.Theory.RoundedLambda
import Verif.Theory.PMFSlice
import Verif.Theory.Brute

/-!
# The networks of `PMF` with rounded capacities
-/

namespace PSP.Theory

open PSP.Spec PSP.Model

variable {E : List Arc} {ε : ℚ} {j : ℕ} {y : ℕ → YPair} {lam : ℚ} {X : Finset ℕ}

/-- The arcs with capacities `σ` from the source and `τ` to the sink. -/
def gArc (j : ℕ) (σ τ : ℕ → ℚ) : PArc → NArc
  | .inner s t c => ⟨s, t, c⟩
  | .sink i => ⟨pmfNode j i, .snk, τ i⟩
  | .source i => ⟨.src, .v i, σ i⟩

/-- The network with these capacities. -/
def gNet (ε : ℚ) (E : List Arc) (j : ℕ) (σ τ : ℕ → ℚ) : Net where
  verts := Finset.range j
  arcs := (pmfArcs ε E j).map (gArc j σ τ)

/-- Capacities from the source (pmf.cpp:163-172). -/
def srcF (fl : ℚ → ℚ) (y : ℕ → YPair) (lam : ℚ) (i : ℕ) : ℚ :=
  if yValF fl lam (y i) < 0 then -yValF fl lam (y i) else 0

/-- Capacities to the sink (pmf.cpp:173-180). -/
def snkF (fl : ℚ → ℚ) (E : List Arc) (j : ℕ) (y : ℕ → YPair) (lam : ℚ) (i : ℕ) : ℚ :=
  fl (sinkCapacity E j i + max 0 (yValF fl lam (y i)))

theorem pmfNetF_eq (fl : ℚ → ℚ) (ε : ℚ) (E : List Arc) (j : ℕ) (y : ℕ → YPair) (lam : ℚ) :
    pmfNetF fl ε E j y lam = gNet ε E j (srcF fl y lam) (snkF fl E j y lam) := by
  have : pmfArcF fl E j y lam = gArc j (srcF fl y lam) (snkF fl E j y lam) := by
    funext p
    cases p <;> rfl
  unfold pmfNetF gNet
  rw [this]

open Classical in
theorem gNet_cutCap (hg : PGood E ε) (σ τ : ℕ → ℚ) (hX : X ⊆ Finset.range j) :
    (gNet ε E j σ τ).cutCap X = (E.map fun a => if a.src ∉ X ∧ a.dst ∈ X then a.cap else 0).sum +
      ((List.range j).map fun i => if i ∈ X then σ i else τ i).sum := by
  have hE := hg.nonneg
  unfold Net.cutCap gNet pmfArcs
  simp only [List.map_append, List.sum_append, List.map_map]
  -- sources
  have h2 : ((List.range j).map ((fun e : NArc =>
        if e.a.onSink X = false ∧ e.b.onSink X = true then e.cap else 0) ∘ gArc j σ τ ∘
        PArc.source)).sum =
      ((List.range j).map fun i => if i ∈ X then σ i else 0).sum := by
    congr 1
    apply List.map_congr_left
    intro i _
    simp only [Function.comp, gArc, NV.onSink]
    by_cases hi : i ∈ X <;> simp [hi]
  -- new sink arcs
  have h3 : (((List.range j).filter fun i => decide (sinkCapacity E j i < ε)).map ((fun e : NArc =>
        if e.a.onSink X = false ∧ e.b.onSink X = true then e.cap else 0) ∘ gArc j σ τ ∘
        PArc.sink)).sum =
      ((List.range j).map fun i => if hasArc E j i then 0 else if i ∈ X then 0 else τ i).sum := by
    rw [sum_filter_map]
    congr 1
    apply List.map_congr_left
    intro i hi
    have hi := List.mem_range.1 hi
    have hlt := sinkCapacity_lt hg hi
    by_cases ha : hasArc E j i
    · have : ¬ sinkCapacity E j i < ε := fun h => (hlt.1 h) ha
      simp [this, ha]
    · have : sinkCapacity E j i < ε := hlt.2 ha
      rw [if_pos (by simpa using this)]
      simp only [Function.comp, gArc, ha, if_false, pmfNode, hi.ne, NV.onSink]
      by_cases hiX : i ∈ X <;> simp [hiX]
  -- arcs of the graph
  have h1 : ((E.filter fun a => decide (a.src ≤ j ∧ a.dst ≤ j)).map ((fun e : NArc =>
        if e.a.onSink X = false ∧ e.b.onSink X = true then e.cap else 0) ∘ gArc j σ τ ∘
        fun a => if a.dst = j then PArc.sink a.src
          else PArc.inner (pmfNode j a.src) (pmfNode j a.dst) a.cap)).sum =
      (E.map fun a => if a.src ∉ X ∧ a.dst ∈ X then a.cap else 0).sum +
      (E.map fun a => if a.dst = j then (if a.src ∈ X then 0 else τ a.src) else 0).sum := by
    rw [sum_filter_map, ← List.sum_map_add]
    congr 1
    apply List.map_congr_left
    intro a ha
    have hlt := hg.lowHigh a ha
    have hjX : j ∉ X := fun h => by simpa using hX h
    by_cases hd : a.dst = j
    · have hs : a.src < j := by omega
      have hsne : a.src ≠ j := by omega
      have hd' : a.dst ≤ j := by omega
      rw [if_pos (by simp [hs.le, hd'])]
      simp only [Function.comp, hd, if_true, gArc, pmfNode, hsne,
        if_false, NV.onSink, hjX, and_false]
      by_cases h : a.src ∈ X <;> simp [h]
    · by_cases h2 : a.dst ∈ X
      · have hdj := Finset.mem_range.1 (hX h2)
        have hs : a.src ≤ j := by omega
        have hsne : a.src ≠ j := by omega
        have hd' : a.dst ≤ j := by omega
        simp only [hs, hd', and_self, decide_true, if_true, Function.comp, hd, if_false, gArc,
          pmfNode, hsne, NV.onSink, h2]
        by_cases h : a.src ∈ X <;> simp [h]
      · by_cases hcond : a.src ≤ j ∧ a.dst ≤ j
        · simp [hcond, hd, gArc, pmfNode, NV.onSink, h2]
        · simp [hcond, hd, h2]
  rw [h1, h2, h3, sum_into hg.simple hg.lowHigh fun i => if i ∈ X then 0 else τ i]
  have : ((List.range j).map fun i => if i ∈ X then σ i else τ i).sum =
      ((List.range j).map fun i => if hasArc E j i then (if i ∈ X then 0 else τ i) else 0).sum +
      ((List.range j).map fun i => if i ∈ X then σ i else 0).sum +
      ((List.range j).map fun i => if hasArc E j i then 0 else if i ∈ X then 0 else τ i).sum := by
    rw [← List.sum_map_add, ← List.sum_map_add]
    congr 1
    apply List.map_congr_left
    intro i _
    by_cases h1 : hasArc E j i <;> by_cases h2 : i ∈ X <;> simp [h1, h2]
  rw [this]
  ring

/-- The exact objective in the same form. -/
theorem obj_sums (hg : PGood E ε) (hX : X ⊆ Finset.range j) :
    obj E j y lam X + ((List.range j).map fun i => max 0 (yAt y lam i)).sum =
      (E.map fun a => if a.src ∉ X ∧ a.dst ∈ X then a.cap else 0).sum +
      ((List.range j).map fun i => if i ∈ X then max 0 (yAt y lam i) - yAt y lam i
        else sinkCapacity E j i + max 0 (yAt y lam i)).sum := by
  have h1 := pmfNet_cutCap (y := y) (lam := lam) hg hX
  have h2 : pmfNet ε E j y lam = gNet ε E j (fun i => max 0 (yAt y lam i) - yAt y lam i)
      (fun i => sinkCapacity E j i + max 0 (yAt y lam i)) := by
    unfold pmfNet gNet
    congr 2
    funext p
    cases p with
    | source i => simp only [pmfArc, gArc, yAt, NArc.mk.injEq, true_and]; exact (max_neg_eq _)
    | sink i => rfl
    | inner s t c => rfl
  rw [h2, gNet_cutCap hg _ _ hX] at h1
  unfold obj
  exact h1.symm

theorem gNet_nonneg (hg : PGood E ε) {σ τ : ℕ → ℚ} (hσ : ∀ i, 0 ≤ σ i) (hτ : ∀ i, 0 ≤ τ i) :
    (gNet ε E j σ τ).Nonneg := by
  intro e he
  unfold gNet at he
  simp only [List.mem_map] at he
  obtain ⟨p, hp, rfl⟩ := he
  have := pmfArcs_ok hg p hp
  cases p with
  | inner s t c => exact this.2
  | sink i => exact hτ i
  | source i => exact hσ i

/-- `modify_flow` for these capacities. -/
def gModify (σ τ : ℕ → ℚ) (as : List PArc) (f : List ℚ) : List ℚ :=
  (as.zip f).map fun e => match e.1 with
    | .inner _ _ _ => e.2
    | .sink i => if τ i < e.2 then τ i else e.2
    | .source i => σ i

theorem modifyFlowF_eq (fl : ℚ → ℚ) (E : List Arc) (j : ℕ) (y : ℕ → YPair) (lam : ℚ) (as : List PArc) (f : List ℚ) :
    modifyFlowF fl E j y lam as f = gModify (srcF fl y lam) (snkF fl E j y lam) as f := by
  unfold modifyFlowF gModify
  apply List.map_congr_left
  rintro ⟨p, q⟩ _
  cases p <;> rfl

/-- **The warm start.** If the capacities from the source do not decrease, the flow stays a preflow. -/
theorem gModify_preflow (hg : PGood E ε) {σ τ σ' τ' : ℕ → ℚ} (hσ : ∀ i, σ i ≤ σ' i) (hσ' : ∀ i, 0 ≤ σ' i)
    (hτ' : ∀ i, 0 ≤ τ' i) {f : List ℚ} (hf : IsPreflow (gNet ε E j σ τ) f) :
    IsPreflow (gNet ε E j σ' τ') (gModify σ' τ' (pmfArcs ε E j) f) := by
  have hok := pmfArcs_ok (j := j) hg
  obtain ⟨hlen, hb, hex⟩ := hf
  simp only [gNet, List.length_map] at hlen
  unfold gModify
  have hb' : ∀ e ∈ (pmfArcs ε E j).zip f, 0 ≤ e.2 ∧ e.2 ≤ (gArc j σ τ e.1).cap := by
    intro e he
    have := hb (gArc j σ τ e.1, e.2) (by
      simp only [gNet]
      rw [List.zip_map_left]
      exact List.mem_map.2 ⟨e, he, rfl⟩)
    exact this
  have hokz : ∀ e ∈ (pmfArcs ε E j).zip f, PArc.Ok j e.1 := fun e he => hok _ (List.of_mem_zip he).1
  have hzip : ∀ L : List (PArc × ℚ), ∀ w : PArc × ℚ → ℚ, ∀ g : PArc → NArc,
      ((L.map Prod.fst).map g).zip (L.map w) = L.map fun e => (g e.1, w e) := by
    intro L w g
    induction L with
    | nil => rfl
    | cons e L ih => simp only [List.map_cons, List.zip_cons_cons, ih]
  have hfst : ((pmfArcs ε E j).zip f).map Prod.fst = pmfArcs ε E j := by
    rw [List.map_fst_zip]; omega
  have hsnd : ((pmfArcs ε E j).zip f).map Prod.snd = f := by
    rw [List.map_snd_zip]; omega
  set L := (pmfArcs ε E j).zip f with hL
  refine ⟨?_, ?_, ?_⟩
  · simp only [gNet, List.length_map, hL, List.length_zip]; omega
  · intro e he
    simp only [gNet] at he
    rw [← hfst, hzip, List.mem_map] at he
    obtain ⟨⟨p, q⟩, hm, rfl⟩ := he
    have h1 := hb' _ hm
    cases p with
    | inner s t c => exact h1
    | sink i =>
      dsimp only
      split
      · exact ⟨hτ' i, le_rfl⟩
      · rename_i h; exact ⟨h1.1, not_lt.1 h⟩
    | source i => exact ⟨hσ' i, le_rfl⟩
  · intro x hx
    have hold := hex x hx
    unfold Model.excess at hold ⊢
    simp only [gNet] at hold ⊢
    rw [← hfst, hzip, List.map_map]
    have hold' : (((pmfArcs ε E j).map (gArc j σ τ)).zip f) =
        L.map fun e => (gArc j σ τ e.1, e.2) := by
      conv_lhs => rw [← hfst, ← hsnd]
      exact hzip L Prod.snd _
    rw [hold', List.map_map] at hold
    by_cases hxs : x = NV.snk
    · subst hxs
      apply List.sum_nonneg
      intro z hz
      rw [List.mem_map] at hz
      obtain ⟨⟨p, q⟩, hm, rfl⟩ := hz
      have h1 := hb' _ hm
      have h2 := hokz _ hm
      cases p with
      | inner s t c =>
        have hs : s ≠ NV.snk := h2.1
        simp only [Function.comp, gArc, hs, if_false, sub_zero]
        by_cases hc : t = NV.snk
        · simp only [hc, if_true]; exact h1.1
        · simp only [hc, if_false]; exact le_rfl
      | sink i =>
        have hi : i < j := h2
        simp only [Function.comp, gArc, pmfNode, hi.ne, if_false, if_true]
        simp only [reduceCtorEq, if_false, sub_zero]
        split
        · exact hτ' i
        · exact h1.1
      | source i =>
        simp [Function.comp, gArc]
    · refine hold.trans ?_
      have : ∀ M : List (PArc × ℚ), (∀ e ∈ M, e ∈ L) →
        (M.map ((fun e : NArc × ℚ => (if e.1.b = x then e.2 else 0) - if e.1.a = x then e.2 else 0) ∘
          fun e => (gArc j σ τ e.1, e.2))).sum ≤
        (M.map ((fun e : NArc × ℚ => (if e.1.b = x then e.2 else 0) - if e.1.a = x then e.2 else 0) ∘
          fun e => (gArc j σ' τ' e.1, match e.1 with
            | .inner _ _ _ => e.2
            | .sink i => if τ' i < e.2 then τ' i else e.2
            | .source i => σ' i))).sum := by
        intro M hM
        induction M with
        | nil => simp
        | cons e M ih =>
          simp only [List.map_cons, List.sum_cons]
          refine add_le_add ?_ (ih fun e he => hM e (List.mem_cons_of_mem _ he))
          have hm := hM e List.mem_cons_self
          obtain ⟨p, q⟩ := e
          have h1 := hb' _ hm
          have h2 := hokz _ hm
          cases p with
          | inner s t c => exact le_rfl
          | sink i =>
            have hxs' : ¬ NV.snk = x := fun h => hxs h.symm
            simp only [Function.comp, gArc, hxs', if_false]
            by_cases hc : pmfNode j i = x
            · simp only [hc, if_true]
              by_cases hq : τ' i < q
              · simp only [hq, if_true]; linarith
              · simp only [hq, if_false]; exact le_rfl
            · simp only [hc, if_false]
              exact le_rfl
          | source i =>
            have hx' : ¬ NV.src = x := fun h => hx h.symm
            have h3 := hσ i
            have h4 := h1.2
            simp only [Function.comp, gArc, hx', if_false] at h3 h4 ⊢
            by_cases hc : NV.v i = x
            · simp only [hc, if_true]
              linarith
            · simp only [hc, if_false]
              exact le_rfl
      exact this L fun e he => he

/-! ### the rounded objective -/

theorem WarmSolver.Minimal.least' {W : WarmSolver} (h : W.Minimal) : WarmLeast W 0 where
  le_cut N init hN hi X hX := by rw [← h.value_eq N init hN hi]; exact h.le_cut N init hN hi X hX
  least N init hN hi X hX he := h.minimal N init hN hi X hX (by rw [he, ← h.value_eq N init hN hi])
  value N init hN hi := by rw [h.value_eq N init hN hi]; simp
  flow := h.flow

/-- The least minimiser of `o` among the subsets of `0..j-1`. -/
structure OLeast (o : Finset ℕ → ℚ) (j : ℕ) (X : Finset ℕ) : Prop where
  sub : X ⊆ Finset.range j
  le : ∀ Z ⊆ Finset.range j, o X ≤ o Z
  least : ∀ Z ⊆ Finset.range j, o Z ≤ o X → X ⊆ Z

/-- What is fixed during one call of `PMF::run`: `r` is the rounding error at magnitude `H`. -/
structure RSetup (fl : ℚ → ℚ) (ao : List Arc → List Arc) (no : List NArc → List NArc) (W : WarmSolver) (v ε r H : ℚ)
    (E : List Arc) (n j : ℕ) (y : ℕ → YPair) : Prop where
  good : PGood E ε
  err : RErr fl r H
  solver : WarmLeast W v
  perm : ∀ l, (no l).Perm l
  H1 : 1 ≤ H
  v0 : 0 ≤ v
  bound : ∀ i < j, YBound H (y i)
  cut : ∀ S, getCutValue E S + 1 ≤ H
  cap : ∀ e ∈ E, e.cap ≤ H
  permA : ∀ l, (ao l).Perm l
  len : E.length ≤ n * n
  jn : j < n
  j0 : 0 < j
  ε1 : 100 * ε ≤ 1
  small : 10 * (v * n * H) + 120 * (n * n * n * r) ≤ ε

namespace RSetup

variable {fl : ℚ → ℚ} {ao : List Arc → List Arc} {no : List NArc → List NArc} {W : WarmSolver} {v r H : ℚ} {n : ℕ}

/-- Consequences of the bound on the rounding errors. -/
theorem nums (h : RSetup fl ao no W v ε r H E n j y) :
    (2 : ℚ) ≤ n ∧ (1 : ℚ) ≤ j ∧ (j : ℚ) + 1 ≤ n ∧ 0 ≤ r ∧ 120 * (n * n * n * r) ≤ ε ∧ 0 ≤ (n * n * n * r : ℚ) ∧
      (4 * (n * r) ≤ (n * n * n * r : ℚ)) ∧ (2 * (n * n * r) ≤ (n * n * n * r : ℚ)) ∧ (8 * r ≤ (n * n * n * r : ℚ)) ∧
      0 ≤ (n * r : ℚ) ∧ 0 ≤ (n * n * r : ℚ) := by
  have hr := h.err.nonneg
  have h1 : (1 : ℚ) ≤ j := by exact_mod_cast h.j0
  have h2 : (j : ℚ) + 1 ≤ n := by exact_mod_cast h.jn
  have h3 : (2 : ℚ) ≤ n := by linarith
  have hn0 : (0 : ℚ) ≤ n := by linarith
  have h4 : (0 : ℚ) ≤ v * n * H := mul_nonneg (mul_nonneg h.v0 hn0) (by linarith [h.H1])
  have e1 : (4 : ℚ) ≤ n * n := by nlinarith
  have e2 : (8 : ℚ) ≤ n * n * n := by nlinarith
  refine ⟨h3, h1, h2, hr, by linarith [h.small], by positivity, ?_, ?_, ?_, by positivity, by positivity⟩
  · have := mul_le_mul_of_nonneg_right e1 (by positivity : (0 : ℚ) ≤ n * r)
    linarith
  · have := mul_le_mul_of_nonneg_right h3 (by positivity : (0 : ℚ) ≤ n * n * r)
    linarith
  · exact mul_le_mul_of_nonneg_right e2 hr

end RSetup

/-- Error of `get_cut_value`. -/
theorem cutValueF_close {fl : ℚ → ℚ} {ao : List Arc → List Arc} {r H : ℚ} (herr : RErr fl r H)
    (hao : ∀ l, (ao l).Perm l) (hE : NonnegE E) {m : ℚ} (hlen : (E.length : ℚ) ≤ m) {S : Finset ℕ}
    (hc : getCutValue E S + m * r ≤ H) : |cutValueF fl ao E S - getCutValue E S| ≤ m * r := by
  have hr := herr.nonneg
  have hsum : (((ao E).filter fun a => a.src ∉ S ∧ a.dst ∈ S).map (·.cap)).sum = getCutValue E S := by
    rw [sum_filter_map, ((hao E).map _).sum_eq]
    unfold getCutValue
    simp
  have habs : ((((ao E).filter fun a => a.src ∉ S ∧ a.dst ∈ S).map (·.cap)).map abs) =
      ((ao E).filter fun a => a.src ∉ S ∧ a.dst ∈ S).map (·.cap) := by
    rw [List.map_map]
    apply List.map_congr_left
    intro a ha
    exact abs_of_nonneg (hE a ((hao E).mem_iff.1 (List.mem_filter.1 ha).1))
  have hl : ((((ao E).filter fun a => a.src ∉ S ∧ a.dst ∈ S).map (·.cap)).length : ℚ) ≤ m := by
    rw [List.length_map]
    refine le_trans ?_ hlen
    have := (List.length_filter_le (fun a => decide (a.src ∉ S ∧ a.dst ∈ S)) (ao E)).trans (hao E).length_eq.le
    exact_mod_cast this
  have hlr := mul_le_mul_of_nonneg_right hl hr
  have h1 := herr.flSum_err (N := 1) le_rfl (by linarith [herr.small]) (((ao E).filter fun a => a.src ∉ S ∧ a.dst ∈ S).map (·.cap)) 0 (by
    rw [habs, hsum, abs_zero, one_mul, one_mul]
    linarith)
  rw [hsum, zero_add, one_mul] at h1
  exact h1.trans hlr

namespace RSetup

variable {fl : ℚ → ℚ} {ao : List Arc → List Arc} {no : List NArc → List NArc} {W : WarmSolver} {v r H : ℚ} {n : ℕ}

theorem cut_close (h : RSetup fl ao no W v ε r H E n j y) (S : Finset ℕ) :
    |cutValueF fl ao E S - getCutValue E S| ≤ n * n * r := by
  obtain ⟨n1, n2, n3, hr, n5, n6, n7, n8, n9, n10, n11⟩ := h.nums
  refine cutValueF_close h.err h.permA h.good.nonneg (by exact_mod_cast h.len) ?_
  have := h.cut S
  have := h.ε1
  linarith

theorem const_close (h : RSetup fl ao no W v ε r H E n j y) (S T : Finset ℕ) :
    |lambdaConstF fl ao E S T - (getCutValue E S - getCutValue E T)| ≤ 2 * (n * n * r) + r := by
  obtain ⟨n1, n2, n3, hr, n5, n6, n7, n8, n9, n10, n11⟩ := h.nums
  have a1 := abs_le.1 (h.cut_close S)
  have a2 := abs_le.1 (h.cut_close T)
  have b1 := h.cut S
  have b2 := h.cut T
  have c1 := cutValue_nonneg h.good.nonneg S
  have c2 := cutValue_nonneg h.good.nonneg T
  have hε1 := h.ε1
  have := abs_le.1 (h.err.err 1 (cutValueF fl ao E S - cutValueF fl ao E T) (by
    rw [abs_le]; constructor <;> linarith))
  unfold lambdaConstF
  rw [abs_le]
  constructor <;> linarith

end RSetup

/-- The rounded objective. -/
def objF (fl : ℚ → ℚ) (ε : ℚ) (E : List Arc) (j : ℕ) (y : ℕ → YPair) (lam : ℚ) (X : Finset ℕ) : ℚ :=
  (pmfNetF fl ε E j y lam).cutCap X

theorem yValF_anti {fl : ℚ → ℚ} (hm : Monotone fl) {l m : ℚ} (h : l ≤ m) (p : YPair) : yValF fl m p ≤ yValF fl l p := by
  obtain ⟨a, b⟩ := p
  have : fl (a - m) ≤ fl (a - l) := hm (by linarith)
  cases b with
  | none => exact this
  | some b => exact min_le_min this le_rfl

theorem srcF_nonneg (fl : ℚ → ℚ) (y : ℕ → YPair) (lam : ℚ) (i : ℕ) : 0 ≤ srcF fl y lam i := by
  unfold srcF
  split <;> linarith

theorem srcF_mono {fl : ℚ → ℚ} (hm : Monotone fl) {l m : ℚ} (h : l ≤ m) (y : ℕ → YPair) (i : ℕ) :
    srcF fl y l i ≤ srcF fl y m i := by
  have := yValF_anti hm h (y i)
  unfold srcF
  split <;> split <;> linarith

theorem snkF_anti {fl : ℚ → ℚ} (hm : Monotone fl) {l m : ℚ} (h : l ≤ m) (E : List Arc) (j : ℕ) (y : ℕ → YPair) (i : ℕ) :
    snkF fl E j y m i ≤ snkF fl E j y l i := by
  unfold snkF
  apply hm
  have := max_le_max (le_refl (0 : ℚ)) (yValF_anti hm h (y i))
  linarith

variable {fl : ℚ → ℚ} {r H : ℚ}

theorem snkF_nonneg (h : RErr fl r H) (hE : NonnegE E) (lam : ℚ) (i : ℕ) : 0 ≤ snkF fl E j y lam i := by
  unfold snkF
  rw [← h.zero]
  apply h.mono
  rw [h.zero]
  exact add_nonneg (sinkCapacity_nonneg hE i) (le_max_left _ _)

theorem pmfNetF_nonneg (h : RErr fl r H) (hg : PGood E ε) (lam : ℚ) : (pmfNetF fl ε E j y lam).Nonneg := by
  rw [pmfNetF_eq]
  exact gNet_nonneg hg (srcF_nonneg fl y lam) (snkF_nonneg h hg.nonneg lam)

theorem objF_submodular (h : RErr fl r H) (hg : PGood E ε) (A B : Finset ℕ) :
    objF fl ε E j y lam (A ∪ B) + objF fl ε E j y lam (A ∩ B) ≤ objF fl ε E j y lam A + objF fl ε E j y lam B := by
  have := cutCap_submodular (pmfNetF_nonneg (j := j) (y := y) h hg lam) A B
  unfold objF
  linarith

/-- The larger the parameter, the more a larger set costs. -/
theorem objF_mono (h : RErr fl r H) (hg : PGood E ε) {l m : ℚ} (hlm : l ≤ m) {A B : Finset ℕ} (hBA : B ⊆ A)
    (hA : A ⊆ Finset.range j) :
    objF fl ε E j y l A - objF fl ε E j y l B ≤ objF fl ε E j y m A - objF fl ε E j y m B := by
  unfold objF
  simp only [pmfNetF_eq]
  rw [gNet_cutCap hg _ _ hA, gNet_cutCap hg _ _ (hBA.trans hA), gNet_cutCap hg _ _ hA, gNet_cutCap hg _ _ (hBA.trans hA)]
  have : ((List.range j).map fun i => if i ∈ A then srcF fl y l i else snkF fl E j y l i).sum +
      ((List.range j).map fun i => if i ∈ B then srcF fl y m i else snkF fl E j y m i).sum ≤
      ((List.range j).map fun i => if i ∈ A then srcF fl y m i else snkF fl E j y m i).sum +
      ((List.range j).map fun i => if i ∈ B then srcF fl y l i else snkF fl E j y l i).sum := by
    rw [← List.sum_map_add, ← List.sum_map_add]
    apply List.sum_le_sum
    intro i _
    have h1 := srcF_mono h.mono hlm y i
    have h2 := snkF_anti h.mono hlm E j y i
    by_cases hA' : i ∈ A
    · by_cases hB' : i ∈ B
      · simp only [hA', hB', if_true]; linarith
      · simp only [hA', hB', if_true, if_false]; linarith
    · have hB' : i ∉ B := fun h => hA' (hBA h)
      simp only [hA', hB', if_false]; linarith
  linarith

theorem OLeast.subset (h : RErr fl r H) (hg : PGood E ε) {l m : ℚ} (hlm : l ≤ m) {A B : Finset ℕ}
    (hA : OLeast (objF fl ε E j y l) j A) (hB : OLeast (objF fl ε E j y m) j B) : B ⊆ A := by
  have hsub := objF_submodular (j := j) (y := y) (lam := m) h hg A B
  have hmono := objF_mono (y := y) h hg hlm (Finset.subset_union_left : A ⊆ A ∪ B) (Finset.union_subset hA.sub hB.sub)
  have h1 := hA.le (A ∪ B) (Finset.union_subset hA.sub hB.sub)
  have h2 := hB.least (A ∩ B) (Finset.inter_subset_left.trans hA.sub) (by linarith)
  exact h2.trans Finset.inter_subset_left

theorem max_diff_le {a b c : ℚ} (h : |a - b| ≤ c) : |max 0 a - max 0 b| ≤ c := by
  have h' := abs_le.1 h
  rw [abs_le]
  rcases max_cases 0 a with h1 | h1 <;> rcases max_cases 0 b with h2 | h2 <;> rw [h1.1, h2.1] <;>
    constructor <;> linarith

theorem sinkCapacity_le (hE : ∀ e ∈ E, e.cap ≤ H) (hH : 0 ≤ H) (i : ℕ) : sinkCapacity E j i ≤ H := by
  unfold sinkCapacity
  split
  · rename_i a ha
    exact hE a (List.mem_of_find?_eq_some ha)
  · exact hH

/-- The rounded objective is close to the exact one. -/
theorem objF_close {ao : List Arc → List Arc} {no : List NArc → List NArc} {W : WarmSolver} {v : ℚ} {n : ℕ}
    (h : RSetup fl ao no W v ε r H E n j y) (hl : -1 ≤ lam) (hl2 : lam ≤ 2 * H) (hX : X ⊆ Finset.range j) :
    |objF fl ε E j y lam X - (obj E j y lam X + ((List.range j).map fun i => max 0 (yAt y lam i)).sum)| ≤
      j * (9 * r) := by
  obtain ⟨n1, n2, n3, hr, n5, n6, n7, n8, n9, n10, n11⟩ := h.nums
  have hH1 := h.H1
  have hε1 := h.ε1
  unfold objF
  rw [pmfNetF_eq, gNet_cutCap h.good _ _ hX, obj_sums h.good hX, add_sub_add_left_eq_sub]
  have := sum_diff_le (List.range j) (f := fun i => if i ∈ X then srcF fl y lam i else snkF fl E j y lam i)
    (g := fun i => if i ∈ X then max 0 (yAt y lam i) - yAt y lam i
        else sinkCapacity E j i + max 0 (yAt y lam i)) (c := 9 * r) (by
      intro i hi
      have hi := List.mem_range.1 hi
      have hb := h.bound i hi
      have ha : |(y i).1 - lam| ≤ 3 * H := by
        have := abs_le.1 hb.1
        rw [abs_le]; constructor <;> linarith
      have hy := yValF_err h.err ha
      have hyv : |yVal lam (y i)| ≤ 4 * H :=
        yVal_abs (a := (y i).1) (b := (y i).2) (d := 4 * H) (by linarith) hb.2 le_rfl
      by_cases hiX : i ∈ X
      · simp only [hiX, if_true]
        have h1 := max_diff_le (a := -yValF fl lam (y i)) (b := -yVal lam (y i)) (c := 3 * r) (by
          rw [neg_sub_neg, abs_sub_comm]; exact hy)
        have e1 : srcF fl y lam i = max 0 (-yValF fl lam (y i)) := by
          unfold srcF
          split
          · rename_i hlt; rw [max_eq_right (by linarith)]
          · rename_i hlt; rw [max_eq_left (by linarith)]
        have e2 : max 0 (yAt y lam i) - yAt y lam i = max 0 (-yVal lam (y i)) := by
          unfold yAt
          rcases le_total 0 (yVal lam (y i)) with hc | hc
          · rw [max_eq_right hc, max_eq_left (by linarith)]; ring
          · rw [max_eq_left hc, max_eq_right (by linarith)]; ring
        rw [e1, e2]
        linarith
      · simp only [hiX, if_false]
        have h1 := max_diff_le hy
        have h2 := sinkCapacity_le (j := j) h.cap (by linarith) i
        have h3 := sinkCapacity_nonneg (j := j) h.good.nonneg i
        have h4 : max 0 (yVal lam (y i)) ≤ 4 * H := max_le (by linarith) (abs_le.1 hyv).2
        have h5 : 0 ≤ max 0 (yValF fl lam (y i)) := le_max_left _ _
        have h6 := h.err.err 6 (sinkCapacity E j i + max 0 (yValF fl lam (y i))) (by
          rw [abs_le] at *
          constructor <;> linarith)
        unfold snkF yAt
        rw [abs_le] at *
        constructor <;> linarith)
  simpa using this

/-- The value of a cut of the network is bounded. -/
theorem objF_bound {ao : List Arc → List Arc} {no : List NArc → List NArc} {W : WarmSolver} {v : ℚ} {n : ℕ}
    (h : RSetup fl ao no W v ε r H E n j y) (hl : -1 ≤ lam) (hl2 : lam ≤ 2 * H) (hX : X ⊆ Finset.range j) :
    0 ≤ objF fl ε E j y lam X ∧ objF fl ε E j y lam X ≤ 10 * j * H := by
  obtain ⟨n1, n2, n3, hr, n5, n6, n7, n8, n9, n10, n11⟩ := h.nums
  have hH1 := h.H1
  have hε1 := h.ε1
  constructor
  · unfold objF
    rw [pmfNetF_eq, gNet_cutCap h.good _ _ hX]
    apply add_nonneg
    · apply List.sum_nonneg
      intro x hx
      obtain ⟨e, he, rfl⟩ := List.mem_map.1 hx
      split
      · exact h.good.nonneg e he
      · exact le_rfl
    · apply List.sum_nonneg
      intro x hx
      obtain ⟨i, _, rfl⟩ := List.mem_map.1 hx
      split
      · exact srcF_nonneg _ _ _ _
      · exact snkF_nonneg h.err h.good.nonneg _ _
  · have h1 := objF_close h hl hl2 hX
    have hyv : ∀ i < j, |yAt y lam i| ≤ 4 * H := by
      intro i hi
      have hb := h.bound i hi
      have ha : |(y i).1 - lam| ≤ 4 * H := by
        have := abs_le.1 hb.1
        rw [abs_le]; constructor <;> linarith
      exact yVal_abs (a := (y i).1) (b := (y i).2) (d := 4 * H) ha hb.2 le_rfl
    have h2 : ((List.range j).map fun i => max 0 (yAt y lam i)).sum ≤ j * (4 * H) := by
      have := sum_diff_le (List.range j) (f := fun i => max 0 (yAt y lam i)) (g := fun _ => 0) (c := 4 * H) (by
        intro i hi
        have := abs_le.1 (hyv i (List.mem_range.1 hi))
        rw [sub_zero, abs_of_nonneg (le_max_left _ _)]
        exact max_le (by linarith) this.2)
      have := (abs_le.1 this).2
      simpa using this
    have h3 : -(j * (4 * H)) ≤ vsum (yAt y lam) X := by
      have := vsum_le_add (j := j) (x := fun _ => 0) (x' := yAt y lam) (ρ := 4 * H) hX (by linarith) (fun i hi => by
        have := abs_le.1 (hyv i (Finset.mem_range.1 (hX hi))); linarith)
      simp only [vsum, Finset.sum_const_zero] at this ⊢
      linarith
    have h4 := h.cut (insert j X)
    unfold obj at h1
    have h5 := (abs_le.1 h1).2
    have h6 : (j : ℚ) * (9 * r) ≤ H := by
      have : (j : ℚ) * r ≤ n * r := mul_le_mul_of_nonneg_right (by linarith) hr
      linarith
    have h7 : H ≤ j * H := by nlinarith
    linarith

end PSP.Theory
