import Verif.Theory.DTRun
import Verif.Theory.Rounding
import Verif.Theory.RoundedGreedy

/-!
# The Dilworth truncation with rounded arithmetic
-/

namespace PSP.Theory

open PSP.Spec PSP.Model

/-- Sum of all weights. -/
def totalCap (E : List Arc) : ℚ := (E.map (·.cap)).sum

theorem sum_arcs_le {E : List Arc} (hE : NonnegE E) (D : Finset ℕ) (p : ℕ → Arc → Prop) [∀ i a, Decidable (p i a)]
    (hp : ∀ i j a, p i a → p j a → i = j) :
    ∑ i ∈ D, (E.map fun a => if p i a then a.cap else 0).sum ≤ totalCap E := by
  unfold totalCap
  induction E with
  | nil => simp
  | cons a E ih =>
    have ih := ih fun e he => hE e (List.mem_cons_of_mem _ he)
    have ha := hE a List.mem_cons_self
    simp only [List.map_cons, List.sum_cons, Finset.sum_add_distrib]
    have : ∑ i ∈ D, (if p i a then a.cap else 0) ≤ a.cap := by
      by_cases h : ∃ i ∈ D, p i a
      · obtain ⟨i, hi, hpi⟩ := h
        rw [Finset.sum_eq_single i]
        · simp [hpi]
        · intro j _ hj
          rw [if_neg fun hpj => hj (hp j i a hpj hpi)]
        · exact fun h => absurd hi h
      · push Not at h
        rw [Finset.sum_eq_zero fun i hi => if_neg (h i hi)]
        exact ha
    linarith

theorem cut_le_total {E : List Arc} (hE : NonnegE E) (X : Finset ℕ) :
    0 ≤ getCutValue E X ∧ getCutValue E X ≤ totalCap E := by
  unfold getCutValue totalCap
  constructor
  · apply List.sum_nonneg
    intro y hy
    obtain ⟨a, ha, rfl⟩ := List.mem_map.1 hy
    split
    · exact hE a ha
    · exact le_rfl
  · apply List.sum_le_sum
    intro a ha
    split
    · exact le_rfl
    · exact hE a ha

theorem sum_cut_singletons {E : List Arc} (hE : NonnegE E) (D : Finset ℕ) :
    ∑ i ∈ D, getCutValue E {i} ≤ totalCap E := by
  unfold getCutValue
  refine sum_arcs_le hE D (fun i a => a.src ∉ ({i} : Finset ℕ) ∧ a.dst ∈ ({i} : Finset ℕ)) ?_
  intro i j a hi hj
  rw [← Finset.mem_singleton.1 hi.2, ← Finset.mem_singleton.1 hj.2]

theorem sum_sinkCost {E : List Arc} (hs : SimpleE E) (hE : NonnegE E) {ns : List ℕ} (hn : ns.Nodup) (l : ℕ) :
    (ns.map (sinkCost E ns l)).sum ≤ totalCap E := by
  rw [list_sum_toFinset hn]
  have : ∑ i ∈ ns.toFinset, sinkCost E ns l i =
      ∑ i ∈ ns.toFinset, (E.map fun a => if a.dst = l ∧ a.src = i then a.cap else 0).sum :=
    Finset.sum_congr rfl fun i hi => sinkCost_eq hs (List.mem_toFinset.1 hi)
  rw [this]
  refine sum_arcs_le hE _ (fun i a => a.dst = l ∧ a.src = i) ?_
  intro i j a hi hj
  rw [← hi.2, ← hj.2]

theorem cap_le_total {E : List Arc} (hE : NonnegE E) {a : Arc} (ha : a ∈ E) : a.cap ≤ totalCap E := by
  unfold totalCap
  exact List.single_le_sum (by
    intro y hy; obtain ⟨b, hb, rfl⟩ := List.mem_map.1 hy; exact hE b hb) _ (List.mem_map.2 ⟨a, ha, rfl⟩)

/-- Cuts of the network with rounded capacities. -/
theorem terminalArcsF_cut {fl : ℚ → ℚ} {u M : ℚ} (hfl : Rounds fl u M) (c x : ℕ → ℚ) (hc : ∀ i, 0 ≤ c i)
    (ns : List ℕ) (hM : ∀ i ∈ ns, u * (max 0 (x i) + c i) ≤ M) (X : Finset ℕ) :
    |((terminalArcsF fl c ns (ns.map x)).map fun e =>
        if e.a.onSink X = false ∧ e.b.onSink X = true then e.cap else 0).sum -
      ((terminalArcs c ns (ns.map x)).map fun e =>
        if e.a.onSink X = false ∧ e.b.onSink X = true then e.cap else 0).sum| ≤
      u * ((ns.map fun i => max 0 (x i) + c i).sum + ns.length * u) := by
  induction ns with
  | nil => simp [terminalArcs, terminalArcsF]
  | cons i ns ih =>
    have ih := ih fun j hj => hM j (List.mem_cons_of_mem _ hj)
    have hMi := hM i List.mem_cons_self
    simp only [List.map_cons, terminalArcs, terminalArcsF, List.map_append, List.sum_append, List.sum_cons,
      List.length_cons]
    push_cast
    set y := max 0 (x i) + c i with hy
    have hy0 : 0 ≤ y := add_nonneg (le_max_left _ _) (hc i)
    have hfy := hfl.fl_nonneg hy0
    have hu := hfl.nonneg
    have hrel := hfl.rel' y (by rw [abs_of_nonneg hy0]; exact hMi)
    rw [abs_of_nonneg hy0] at hrel
    have hrel := hrel.trans (mul_le_mul_of_nonneg_left (max_le_add_of_nonneg hy0 hu) hu)
    have huu : 0 ≤ u * u := mul_nonneg hu hu
    have one : ∀ z : ℚ, 0 ≤ z → ((if 0 < z then [(⟨.v i, .snk, z⟩ : NArc)] else []).map (fun e =>
          if e.a.onSink X = false ∧ e.b.onSink X = true then e.cap else 0)).sum = if i ∈ X then 0 else z := by
      intro z hz
      by_cases hi : i ∈ X
      · split <;> simp [NV.onSink, hi]
      · split
        · simp [NV.onSink, hi]
        · simp; linarith
    rw [one y hy0, one _ hfy]
    set A := ((if x i < 0 then [(⟨.src, .v i, -x i⟩ : NArc)] else []).map (fun e =>
          if e.a.onSink X = false ∧ e.b.onSink X = true then e.cap else 0)).sum
    have h0 := abs_le.1 ih
    have h1 := abs_le.1 hrel
    rw [abs_le]
    have huy : 0 ≤ u * y := mul_nonneg hu hy0
    split
    · constructor <;> linarith
    · constructor <;> linarith

theorem dilworthNetF_cut {fl : ℚ → ℚ} {u M : ℚ} (hfl : Rounds fl u M) (E : List Arc) (c x : ℕ → ℚ)
    (hc : ∀ i, 0 ≤ c i) (ns : List ℕ) (hM : ∀ i ∈ ns, u * (max 0 (x i) + c i) ≤ M) (X : Finset ℕ) :
    |(dilworthNetF fl E c ns (ns.map x)).cutCap X - (dilworthNet E c ns (ns.map x)).cutCap X| ≤
      u * ((ns.map fun i => max 0 (x i) + c i).sum + ns.length * u) := by
  have := terminalArcsF_cut hfl c x hc ns hM X
  unfold Net.cutCap dilworthNet dilworthNetF
  simp only [List.map_append, List.sum_append]
  rwa [add_sub_add_left_eq_sub]

theorem mem_terminalArcsF {fl : ℚ → ℚ} {c x : ℕ → ℚ} {ns : List ℕ} {e : NArc}
    (he : e ∈ terminalArcsF fl c ns (ns.map x)) : 0 ≤ e.cap ∧
      ∃ i ∈ ns, e.cap = - x i ∨ e.cap = fl (max 0 (x i) + c i) := by
  induction ns with
  | nil => simp [terminalArcsF] at he
  | cons i ns ih =>
    simp only [List.map_cons, terminalArcsF, List.mem_append] at he
    rcases he with (he | he) | he
    · split at he
      · rw [List.mem_singleton] at he; subst he
        exact ⟨by simp; linarith, i, List.mem_cons_self, Or.inl rfl⟩
      · simp at he
    · split at he
      · rw [List.mem_singleton] at he; subst he
        exact ⟨by simp; linarith, i, List.mem_cons_self, Or.inr rfl⟩
      · simp at he
    · obtain ⟨h0, j, hj, h⟩ := ih he
      exact ⟨h0, j, List.mem_cons_of_mem _ hj, h⟩

/-- Standing assumptions: rounding error `u`, solver error `δ`, at most `n` nodes, weights at most `W` in total, and the
error `e` of one step. -/
structure Small (S : FlowSolver) (fl : ℚ → ℚ) (E : List Arc) (n : ℕ) (u M δ W e : ℚ) : Prop where
  rounds : Rounds fl u M
  solver : S.Approx δ (7 * W) n
  err : 0 ≤ δ
  one : 1 ≤ W
  total : totalCap E ≤ W
  pos : 1 ≤ n
  e_eq : e = δ + 20 * n * u * W
  e_le : n * e ≤ 1

/-- What `minimize` returns. -/
theorem minimizeIF_spec {S : FlowSolver} {fl : ℚ → ℚ} {E : List Arc} {n : ℕ} {u M δ W e : ℚ}
    (H : Small S fl E n u M δ W e) (hs : SimpleE E)
    (hE : NonnegE E) {done : List ℕ} (hn : done.Nodup) {l : ℕ} (hl : l ∉ done)
    (hpre : ∀ e ∈ E, e.dst ∈ done ∨ e.dst = l → e.src ∈ done) {lam : ℚ} (h0 : 0 ≤ lam) (hlam : lam ≤ 2 * W)
    {x : ℕ → ℚ} (hlen : done.length ≤ n)
    (hup : ∀ i ∈ done, x i ≤ getCutValue E {i} - lam + e) (hlow : ∀ i ∈ done, -(7 * W) ≤ x i)
    {v : ℚ} {X : Finset ℕ} (h : minimizeIF fl S E lam done l (done.map x) = (v, X)) :
    X ⊆ done.toFinset ∧ getCutValue E (insert l X) - lam - vsum x X ≤ v + e ∧
    (∀ Y ⊆ done.toFinset, v ≤ getCutValue E (insert l Y) - lam - vsum x Y + e) ∧ -(7 * W) ≤ v := by
  obtain ⟨hfl, hS, hδ, hW, htot, hn1, he, hne⟩ := H
  have hu := hfl.nonneg
  have hnq : (1 : ℚ) ≤ n := by exact_mod_cast hn1
  have hW0 : 0 ≤ W := by linarith
  have hnuW : 0 ≤ n * u * W := by positivity
  have huW : u * W ≤ n * u * W := by
    have : 0 ≤ u * W := by positivity
    nlinarith
  have huW0 : 0 ≤ u * W := by positivity
  have he0 : 0 ≤ e := by rw [he]; positivity
  have hee : e ≤ 1 := by nlinarith
  have hnuW1 : 20 * (n * u * W) ≤ 1 := by rw [he] at hee; linarith
  have h2nu : 2 * n * u ≤ 1 := by
    have : n * u ≤ n * u * W := by
      have : 0 ≤ n * u := by positivity
      nlinarith
    linarith
  have hδ1 : δ ≤ 1 := by rw [he] at hee; linarith
  unfold minimizeIF at h
  simp only [Prod.mk.injEq] at h
  obtain ⟨hv, hXe⟩ := h
  set c := sinkCost E done l with hcdef
  have hc : ∀ i, 0 ≤ c i := fun i => sinkCost_nonneg hE done l i
  set N := dilworthNetF fl E c done (done.map x) with hN
  set N0 := dilworthNet E c done (done.map x) with hN0
  set Sx := (done.map fun i => max 0 (x i)).sum with hSx
  have hSx0 : 0 ≤ Sx := List.sum_nonneg (by
    intro y hy; obtain ⟨i, _, rfl⟩ := List.mem_map.1 hy; exact le_max_left _ _)
  have hmax : ∀ i ∈ done, max 0 (x i) ≤ getCutValue E {i} + e := by
    intro i hi
    have h1 := hup i hi
    have h2 := (cut_le_total hE {i}).1
    exact max_le (by linarith) (by linarith)
  have hSx2 : Sx ≤ 2 * W := by
    have h1 : Sx ≤ (done.map fun i => getCutValue E {i} + e).sum := List.sum_le_sum hmax
    rw [list_sum_toFinset hn, Finset.sum_add_distrib, Finset.sum_const, nsmul_eq_mul] at h1
    have h2 := sum_cut_singletons hE done.toFinset
    have h3 : (done.toFinset.card : ℚ) ≤ n := by
      have := List.toFinset_card_le done
      exact_mod_cast this.trans hlen
    have h4 : (done.toFinset.card : ℚ) * e ≤ n * e := mul_le_mul_of_nonneg_right h3 he0
    linarith
  have hC : (done.map c).sum ≤ W := (sum_sinkCost hs hE hn l).trans htot
  have hsumc : (done.map fun i => max 0 (x i) + c i).sum = Sx + (done.map c).sum := by
    rw [List.sum_map_add]
  have hM1 := hfl.one_le
  have hterm : ∀ i ∈ done, max 0 (x i) + c i ≤ 3 * W := by
    intro i hi
    have h3 := hmax i hi
    have h4 := (cut_le_total hE {i}).2
    have h5 : c i ≤ W := by
      refine le_trans ?_ hC
      exact List.single_le_sum (by
        intro y hy; obtain ⟨b, hb, rfl⟩ := List.mem_map.1 hy; exact hc b) _ (List.mem_map.2 ⟨i, hi, rfl⟩)
    linarith
  have hu1 : u ≤ W := by nlinarith
  have hcutF : ∀ Y, |N.cutCap Y - N0.cutCap Y| ≤ 4 * (u * W) := by
    intro Y
    refine (dilworthNetF_cut hfl E c x hc done (fun i hi => ?_) Y).trans ?_
    · have := mul_le_mul_of_nonneg_left (hterm i hi) hu
      linarith
    rw [hsumc]
    have h1 : (done.length : ℚ) * u ≤ 1 := by
      have : (done.length : ℚ) ≤ n := by exact_mod_cast hlen
      have := mul_le_mul_of_nonneg_right this hu
      linarith
    have h2 : Sx + (done.map c).sum + done.length * u ≤ 4 * W := by linarith
    have := mul_le_mul_of_nonneg_left h2 hu
    linarith
  have hcut : ∀ Y ⊆ done.toFinset, N0.cutCap Y = getCutValue E (insert l Y) - vsum x Y + Sx :=
    fun Y hY => dilworthNet_cutCap hs hE hn hl hpre x hY
  have hmem : ∀ a ∈ N.arcs, 0 ≤ a.cap ∧ a.cap ≤ 7 * W := by
    intro a ha
    rcases List.mem_append.1 ha with ha | ha
    · unfold interiorArcs at ha
      obtain ⟨b, hb, rfl⟩ := List.mem_map.1 ha
      have hb := (List.mem_filter.1 hb).1
      have h1 := cap_le_total hE hb
      have h2 := hE b hb
      simp only
      exact ⟨h2, by linarith⟩
    · obtain ⟨h1, i, hi, h2⟩ := mem_terminalArcsF ha
      refine ⟨h1, ?_⟩
      rcases h2 with h2 | h2
      · have := hlow i hi
        linarith
      · have h7 : 0 ≤ max 0 (x i) + c i := add_nonneg (le_max_left _ _) (hc i)
        have h3 := hterm i hi
        have h6 := abs_le.1 (hfl.err (x := max 0 (x i) + c i) (K := 3 * W) (by rwa [abs_of_nonneg h7]) (by linarith)
          (by linarith))
        rw [h2]
        linarith
  have hNn : N.Nonneg := fun a ha => (hmem a ha).1
  have hNC : ∀ a ∈ N.arcs, a.cap ≤ 7 * W := fun a ha => (hmem a ha).2
  have hverts : N.verts = done.toFinset := rfl
  have hcard : N.verts.card ≤ n := by rw [hverts]; exact (List.toFinset_card_le done).trans hlen
  have hX : X ⊆ done.toFinset := by
    rw [← hXe, ← hverts]; exact Finset.filter_subset _ _
  set F := S.flowValue N with hF
  have hFle : ∀ Y ⊆ done.toFinset, F ≤ N.cutCap Y + δ := fun Y hY => hS.le_cut N hNn hNC hcard Y hY
  have hFge : N.cutCap X ≤ F + δ := by rw [← hXe]; exact hS.cut_le N hNn hNC hcard
  have hcutnn : 0 ≤ N.cutCap X := by
    unfold Net.cutCap
    apply List.sum_nonneg
    intro y hy
    obtain ⟨a, ha, rfl⟩ := List.mem_map.1 hy
    split
    · exact hNn a ha
    · exact le_rfl
  have hKF : |constDifferenceF fl lam (done.map x) - (lam + Sx)| ≤ 8 * (n * u * W) := by
    unfold constDifferenceF
    rw [List.map_map]
    have := hfl.flSum_err' (s := lam) (l := done.map ((fun x => max 0 x) ∘ x)) (B := 4 * W) h2nu (by simpa using hlen) (by
      rw [abs_of_nonneg h0, List.map_map]
      have : (done.map (abs ∘ (fun x => max 0 x) ∘ x)).sum = Sx := by
        congr 1
        apply List.map_congr_left
        intro i _
        simp only [Function.comp]
        exact abs_of_nonneg (le_max_left _ _)
      rw [this]
      linarith) (by linarith) (by linarith)
    refine this.trans (le_of_eq ?_)
    ring
  set KF := constDifferenceF fl lam (done.map x) with hKFdef
  have hFup : F ≤ 5 * W := by
    have h1 := hFle ∅ (by simp)
    have h2 := (abs_le.1 (hcutF ∅)).2
    rw [hcut ∅ (by simp)] at h2
    have h3 := (cut_le_total hE (insert l ∅)).2
    have h4 : vsum x ∅ = 0 := Finset.sum_empty
    rw [h4] at h2
    linarith
  have hKF' := abs_le.1 hKF
  have hbig : |F - KF| ≤ 6 * W := by
    rw [abs_le]
    constructor <;> linarith
  have hrel : |v - (F - KF)| ≤ 6 * (u * W) := by
    rw [← hv]
    refine (hfl.err hbig (by linarith) (by linarith)).trans (le_of_eq ?_)
    ring
  have hrel' := abs_le.1 hrel
  refine ⟨hX, ?_, ?_, ?_⟩
  · have h1 := (abs_le.1 (hcutF X)).1
    rw [hcut X hX] at h1
    rw [he]
    linarith
  · intro Y hY
    have h1 := (abs_le.1 (hcutF Y)).2
    rw [hcut Y hY] at h1
    have h2 := hFle Y hY
    rw [he]
    linarith
  · have := (abs_le.1 hbig).1
    linarith

/-- The loop. -/
theorem runLoopIF_spec {S : FlowSolver} {fl : ℚ → ℚ} {E : List Arc} {n : ℕ} {u M δ W e : ℚ}
    (H : Small S fl E n u M δ W e) (hs : SimpleE E) (hE : NonnegE E) {lam : ℚ} (h0 : 0 ≤ lam) (hlam : lam ≤ 2 * W)
    (rest : List ℕ) :
    ∀ (done : List ℕ) (x : ℕ → ℚ) (P : Partition), (done ++ rest).Nodup → (done ++ rest).length ≤ n →
    (∀ a l b, done ++ rest = a ++ l :: b → ∀ e ∈ E, e.dst ∈ a ∨ e.dst = l → e.src ∈ a) →
    AInv (getCutValue E) lam e done.toFinset x P → (∀ i ∈ done, -(7 * W) ≤ x i) →
    ∃ x' : ℕ → ℚ, (runLoopIF fl S E lam done rest (done.map x) P).1 = (done ++ rest).map x' ∧
      AInv (getCutValue E) lam e (done ++ rest).toFinset x'
        (runLoopIF fl S E lam done rest (done.map x) P).2 ∧ ∀ i ∈ done ++ rest, -(7 * W) ≤ x' i := by
  induction rest with
  | nil =>
    intro done x P _ _ _ hD hx
    exact ⟨x, by simp [runLoopIF], by simpa [runLoopIF] using hD, by simpa using hx⟩
  | cons l rest ih =>
    intro done x P hn hlen hpre hD hx
    have hn1 : done.Nodup := (List.nodup_append.1 hn).1
    have hl : l ∉ done := by
      intro hl
      exact (List.nodup_append.1 hn).2.2 l hl l List.mem_cons_self rfl
    have hpre1 : ∀ e ∈ E, e.dst ∈ done ∨ e.dst = l → e.src ∈ done := hpre done l rest rfl
    obtain ⟨v, X, hr⟩ : ∃ v X, minimizeIF fl S E lam done l (done.map x) = (v, X) := ⟨_, _, rfl⟩
    have hup : ∀ i ∈ done, x i ≤ getCutValue E {i} - lam + e := by
      intro i hi
      have := hD.poly {i} (by simpa using hi) ⟨i, by simp⟩
      simpa [vsum] using this
    obtain ⟨hX, hval, hmin, hlow⟩ := minimizeIF_spec H hs hE hn1 hl hpre1 h0 hlam
      (by rw [List.length_append] at hlen; omega) hup hx hr
    let x' := Function.update x l v
    have hx' : ∀ i ∈ done.toFinset, x' i = x i := by
      intro i hi
      have : i ≠ l := fun h => hl (h ▸ List.mem_toFinset.1 hi)
      simp [x', this]
    have hxl : x' l = v := by simp [x']
    have hl' : l ∉ done.toFinset := fun h => hl (List.mem_toFinset.1 h)
    have hD' := hD.step (cut_submodular hE) hl' hX hx' (by rw [hxl]; exact hval) (by rw [hxl]; exact hmin)
    have hset : insert l done.toFinset = (done ++ [l]).toFinset := by
      ext v; simp
    rw [hset] at hD'
    have happ : done ++ l :: rest = (done ++ [l]) ++ rest := by simp
    have hmap : done.map x ++ [v] = (done ++ [l]).map x' := by
      rw [List.map_append]
      congr 1
      · apply List.map_congr_left
        intro i hi
        exact (hx' i (List.mem_toFinset.2 hi)).symm
      · simp [x']
    obtain ⟨y, hy1, hy2, hy3⟩ := ih (done ++ [l]) x' (expand P (insert l X))
      (by rwa [← happ]) (by rwa [← happ]) (by rwa [← happ]) hD' (by
        intro i hi
        rcases List.mem_append.1 hi with hi | hi
        · rw [hx' i (List.mem_toFinset.2 hi)]; exact hx i hi
        · rw [List.mem_singleton.1 hi, hxl]; exact hlow)
    have hrun : runLoopIF fl S E lam done (l :: rest) (done.map x) P =
        runLoopIF fl S E lam (done ++ [l]) rest ((done ++ [l]).map x') (expand P (insert l X)) := by
      conv_lhs => unfold runLoopIF
      simp only [hr, hmap]
    refine ⟨y, ?_, ?_, ?_⟩
    · rw [hrun, happ]; exact hy1
    · rw [hrun, happ]; exact hy2
    · rw [happ]; exact hy3

/-- The result of the Dilworth truncation: a partition and a number close to the minimal cost. -/
theorem dilworthIF_spec {S : FlowSolver} {fl : ℚ → ℚ} {E : List Arc} {n : ℕ} {u M δ W e : ℚ}
    (H : Small S fl E n u M δ W e) {ns : List ℕ} (hsort : ns.Pairwise (· < ·)) (hlen : ns.length ≤ n)
    (hG : GoodGraph E ns.toFinset) {lam : ℚ} (h0 : 0 ≤ lam) (hlam : lam ≤ 2 * W) :
    IsPartition ns.toFinset (dilworthIF fl S E lam ns).2 ∧
    (∀ R, IsPartition ns.toFinset R → cost E lam (dilworthIF fl S E lam ns).2 ≤ cost E lam R + 3 * n * e) ∧
    (∀ R, IsPartition ns.toFinset R →
      (dilworthIF fl S E lam ns).1 ≤ cost E lam R + n * e + 14 * (n * n * u * W)) ∧
    cost E lam (dilworthIF fl S E lam ns).2 ≤ (dilworthIF fl S E lam ns).1 + 2 * n * e + 14 * (n * n * u * W) := by
  have hn : ns.Nodup := hsort.imp (fun h => Nat.ne_of_lt h)
  obtain ⟨x, hx1, hx2, hx3⟩ := runLoopIF_spec H hG.simple hG.nonneg h0 hlam ns [] (fun _ => 0) ∅
    (by rw [List.nil_append]; exact hn) (by simpa using hlen)
    (by simpa using prefix_closed hsort hG.lowHigh hG.within) (by simpa using AInv.empty) (by simp)
  simp only [List.map_nil, List.nil_append] at hx1 hx2 hx3
  set r := runLoopIF fl S E lam [] ns [] ∅ with hr
  have hcost : ∀ R, IsPartition ns.toFinset R →
      ∑ B ∈ R, (getCutValue E B - lam) = cost E lam R := by
    intro R hR
    rw [Finset.sum_sub_distrib]
    unfold cost
    rw [← partitionValue_eq_crossWeight (fun e he => (hG.within e he).2) hR]
    simp [getPartitionValue, mul_comm]
  obtain ⟨hfl, hS, hδ, hW, htot, hn1, he, hne⟩ := H
  have hu := hfl.nonneg
  have hnq : (1 : ℚ) ≤ n := by exact_mod_cast hn1
  have hW0 : 0 ≤ W := by linarith
  have hnuW : 0 ≤ n * u * W := by positivity
  have he0 : 0 ≤ e := by rw [he]; positivity
  have hee : e ≤ 1 := by nlinarith
  have hnuW1 : 20 * (n * u * W) ≤ 1 := by rw [he] at hee; linarith
  have h2nu : 2 * n * u ≤ 1 := by
    have : n * u ≤ n * u * W := by
      have : 0 ≤ n * u := by positivity
      nlinarith
    linarith
  have hcard : (ns.toFinset.card : ℚ) ≤ n := by exact_mod_cast (List.toFinset_card_le ns).trans hlen
  have habs : ∀ i ∈ ns, |x i| ≤ 7 * W := by
    intro i hi
    have h1 := hx2.poly {i} (by simpa using hi) ⟨i, by simp⟩
    have h2 := (cut_le_total hG.nonneg {i}).2
    simp only [vsum, Finset.sum_singleton] at h1
    rw [abs_le]
    exact ⟨hx3 i hi, by linarith⟩
  have hsum : |flSum fl 0 r.1 - vsum x ns.toFinset| ≤ 14 * (n * n * u * W) := by
    have h1 := hfl.flSum_err' (s := 0) (l := r.1) (B := n * (7 * W)) h2nu (by rw [hx1]; simpa using hlen) (by
      rw [abs_zero, zero_add, hx1, List.map_map]
      have h2 : (ns.map (abs ∘ x)).sum ≤ (ns.map fun _ => 7 * W).sum := List.sum_le_sum habs
      rw [List.map_const', List.sum_replicate, nsmul_eq_mul] at h2
      refine h2.trans (mul_le_mul_of_nonneg_right (by exact_mod_cast hlen) (by linarith)))
      (by nlinarith) (by have := hfl.one_le; linarith)
    rw [zero_add] at h1
    have h3 : r.1.sum = vsum x ns.toFinset := by rw [hx1, list_sum_toFinset hn]; rfl
    rw [h3] at h1
    refine h1.trans (le_of_eq ?_)
    ring
  have hsum' := abs_le.1 hsum
  have hge := hx2.ge he0
  rw [hcost _ hx2.part] at hge
  have hce : (ns.toFinset.card : ℚ) * e ≤ n * e := mul_le_mul_of_nonneg_right hcard he0
  have hle : ∀ R, IsPartition ns.toFinset R → vsum x ns.toFinset ≤ cost E lam R + n * e := by
    intro R hR
    have := hx2.le he0 hR
    rw [hcost R hR] at this
    linarith
  have hd1 : (dilworthIF fl S E lam ns).1 = flSum fl 0 r.1 := rfl
  have hd2 : (dilworthIF fl S E lam ns).2 = r.2 := rfl
  rw [hd1, hd2]
  refine ⟨hx2.part, fun R hR => ?_, fun R hR => ?_, ?_⟩
  · have := hle R hR; linarith
  · have := hle R hR; linarith
  · linarith

theorem runLoopDTF_eq (fl : ℚ → ℚ) (S : FlowSolver) (g : Digraph) (lam : ℚ) {n : ℕ}
    (hnodes : g.nodes = List.range n) (hlow : ∀ e ∈ g.arcs, e.src < e.dst) (k : ℕ) :
    ∀ (xl : List ℚ) (P : Partition), xl.length + k ≤ n →
      runLoopDTF fl S g lam k xl P =
        .ok (runLoopIF fl S g.arcs lam (List.range xl.length) (List.range' xl.length k) xl P) := by
  induction k with
  | zero => intro xl P _; simp [runLoopDTF, runLoopIF]
  | succ k ih =>
    intro xl P hk
    have h1 : ∀ i ∈ List.range (xl.length + 1), i ∈ g.nodes := by
      intro i hi
      rw [hnodes, List.mem_range]
      rw [List.mem_range] at hi
      omega
    have h2 : ¬ ∃ a ∈ g.arcs, a.src = xl.length ∧ a.dst = xl.length := by
      rintro ⟨a, ha, h⟩
      have := hlow a ha
      omega
    have h3 : minimizeDTF fl S g lam xl =
        .ok (minimizeIF fl S g.arcs lam (List.range xl.length) xl.length xl) := by
      unfold minimizeDTF minimizeIF
      simp only [h2, if_false]
      rw [if_neg (by push Not; exact h1)]
    conv_lhs => unfold runLoopDTF
    rw [h3]
    simp only [Outcome.ok_bind]
    rw [ih _ _ (by simp; omega)]
    conv_rhs => rw [List.range'_succ]; unfold runLoopIF
    congr 2
    · simp [List.range_succ]
    · simp

theorem dilworthDTF_eq (fl : ℚ → ℚ) (S : FlowSolver) (g : Digraph) (lam : ℚ) {n : ℕ}
    (hnodes : g.nodes = List.range n) (hlow : ∀ e ∈ g.arcs, e.src < e.dst) :
    dilworthDTF fl S g lam = .ok (dilworthIF fl S g.arcs lam g.nodes) := by
  unfold dilworthDTF Digraph.countNodes
  have hl : g.nodes.length = n := by rw [hnodes, List.length_range]
  rw [hl, runLoopDTF_eq fl S g lam hnodes hlow n [] ∅ (by simp)]
  simp only [Outcome.ok_bind, Outcome.pure_eq, List.length_nil, List.range_zero]
  unfold dilworthIF
  rw [hnodes, List.range_eq_range']

end PSP.Theory
