import Verif.Theory.RoundedPDT
import Verif.Theory.ApproxSeq

/-!
# The result of `PDT::run` with rounded arithmetic
-/

namespace PSP.Theory

open PSP.Spec PSP.Model

variable {E : List Arc} {ε : ℚ} {j : ℕ} {y : ℕ → YPair} {lam : ℚ} {fl : ℚ → ℚ} {r H e C : ℚ} {V : Finset ℕ}
  {ao : List Arc → List Arc} {no : List NArc → List NArc} {W : WarmSolver} {v : ℚ} {n : ℕ}

theorem AInv.isNearOptimal {x : ℕ → ℚ} {P : Partition} (hW : Within E V) (he : 0 ≤ e) (hC : 3 * V.card * e ≤ C)
    (h : AInv (getCutValue E) lam e V x P) : IsNearOptimal E V C lam P := by
  have hcost : ∀ R, IsPartition V R → ∑ B ∈ R, (getCutValue E B - lam) = cost E lam R := by
    intro R hR
    rw [Finset.sum_sub_distrib]
    unfold cost
    rw [← partitionValue_eq_crossWeight (fun e he => (hW e he).2) hR]
    simp [getPartitionValue, mul_comm]
  refine ⟨h.part, fun R hR => ?_⟩
  have h1 := h.le he hR
  have h2 := h.ge he
  rw [hcost R hR] at h1
  rw [hcost P h.part] at h2
  linarith

theorem PSetup.start (h : PSetup fl ao no W v ε r H E n) (hn : 0 < n) : startF fl ≤ -9 / 100 := by
  have h1 : (1 : ℚ) ≤ n := by exact_mod_cast hn
  have hr := h.err.nonneg
  have hε := h.good.pos
  have hε1 := h.eps1 hn
  have h4 : (0 : ℚ) ≤ v * n * H := mul_nonneg (mul_nonneg h.v0 (by linarith)) (by linarith [h.H1])
  have h5 := h.small
  have h6 : (1 : ℚ) ≤ n * n := by nlinarith
  have h7 : (1 : ℚ) ≤ n * n * n := by nlinarith
  have h8 := mul_le_mul_of_nonneg_right h7 hr
  have h9 := h.err.err 1 (-1 / 10) (by
    have := h.H1
    rw [abs_le]; constructor <;> linarith)
  unfold startF
  rw [abs_le] at h9
  linarith

theorem rpinv_init (h : PSetup fl ao no W v ε r H E n) (hn : 0 < n) (a0 : ℚ) :
    RPInv E n 1 ε r H a0 ⟨fun _ => (0, none), [({{0}}, none)]⟩ := by
  have he := (errP_le (j := 1) h hn hn).1
  refine ⟨?_, ⟨rfl, fun l _ => ⟨?_, ?_, ?_⟩⟩, by simp⟩
  · intro i _
    exact ⟨by simpa using (by linarith [h.H1] : (0 : ℚ) ≤ H), by simp⟩
  · have := isPartition_single (V := Finset.range 1) ⟨0, by simp⟩
    simpa using this
  · intro S hS hne
    have hS : S = Finset.range 1 := by
      rw [Finset.range_one] at hS ⊢
      exact hne.subset_singleton_iff.1 hS
    rw [hS, cut_range h.good.lowHigh]
    simpa [vsum, yAt, yVal, minO] using he
  · intro B hB
    have hB : B = Finset.range 1 := by simpa using hB
    rw [hB, cut_range h.good.lowHigh]
    have : vsum (yAt (fun _ => (0, none)) l) (Finset.range 1) = 0 - l := by simp [vsum, yAt, yVal, minO]
    rw [this, Finset.card_range]
    push_cast
    linarith

/-- From the chain of near optima to the specification. -/
theorem approx_of_chain (hnn : NonnegE E) (hW : Within E V) (hV : V.Nonempty) {a0 : ℚ} (ha0 : a0 ≤ -9 / 100)
    (hC : 20 * C ≤ 1) {parts : List (Partition × Option ℚ)}
    (hc : WChain (fun l P => IsNearOptimal E V C l P) a0 parts) (hf : (parts.map Prod.fst).IsChain Finer) :
    ∃ (Ps : List Partition) (cv : List ℚ), parts = Ps.zip (cv.map some ++ [none]) ∧ Ps.length = cv.length + 1 ∧
      IsApproximateSequence E V C Ps cv := by
  obtain ⟨Ps, cv, rfl, hlen, hinc, hlo⟩ := hc.zip
  have hget := WChain.get hlen hc
  rw [List.map_fst_zip (by simp [hlen])] at hf
  have hcpos : ∀ {P : Partition}, IsPartition V P → (1 : ℚ) ≤ P.card := fun h => by exact_mod_cast h.card_pos hV
  -- every partition occurs at some parameter
  have hpart : ∀ P ∈ Ps, IsPartition V P := by
    intro P hP
    obtain ⟨k, hk⟩ := List.mem_iff_getElem?.1 hP
    have hkl : k < Ps.length := (List.getElem?_eq_some_iff.1 hk).1
    cases k with
    | zero =>
      exact (hget 0 P a0 hk le_rfl (by simp) (fun i c hi _ => hlo c (List.mem_of_getElem? hi))).1
    | succ k =>
      have hkc : k < cv.length := by omega
      refine (hget (k + 1) P cv[k] hk (hlo _ (List.getElem_mem hkc)) ?_ ?_).1
      · intro i c hi hik
        obtain ⟨h1, rfl⟩ := List.getElem?_eq_some_iff.1 hi
        rcases Nat.lt_or_ge i k with h | h
        · exact List.pairwise_iff_getElem.1 hinc i k h1 hkc h
        · have : i = k := by omega
          subst this; exact le_rfl
      · intro i c hi hik
        obtain ⟨h1, rfl⟩ := List.getElem?_eq_some_iff.1 hi
        exact List.pairwise_iff_getElem.1 hinc k i hkc h1 (by omega)
  have hfirst : Ps.head? = some {V} := by
    cases Ps with
    | nil => simp at hlen
    | cons P Ps =>
      have hP := hget 0 P a0 (by simp) le_rfl (by simp) (fun i c hi _ => hlo c (List.mem_of_getElem? hi))
      have h1 := hP.2 {V} (isPartition_single hV)
      have h2 := crossWeight_nonneg hnn P
      have h3 : crossWeight E {V} = 0 := crossWeight_single (fun e he => hW e he)
      unfold cost at h1
      rw [h3, Finset.card_singleton] at h1
      have h4 := hcpos hP.1
      have hcard : P.card = 1 := by
        by_contra hne
        have h5 : (2 : ℚ) ≤ P.card := by
          have : 1 ≤ P.card := by exact_mod_cast h4
          exact_mod_cast (by omega : 2 ≤ P.card)
        push_cast at h1
        nlinarith
      rw [List.head?_cons, hP.1.eq_single_of_card hcard]
  refine ⟨Ps, cv, rfl, hlen, ?_⟩
  refine ⟨hlen, hfirst, ?_, finer_pairwise hpart hf, hinc, ?_⟩
  · rw [List.getLast?_eq_getElem?]
    have hlt : Ps.length - 1 < Ps.length := by omega
    rw [List.getElem?_eq_getElem hlt, Option.some.injEq]
    obtain ⟨b, hb⟩ : ∃ b, ∀ c ∈ cv, c ≤ b := by
      clear hinc hlo hget hc hlen
      refine ⟨cv.foldr max 0, fun c hcv => ?_⟩
      induction cv with
      | nil => simp at hcv
      | cons d cv ih =>
        rcases List.mem_cons.1 hcv with rfl | h
        · exact le_max_left _ _
        · exact (ih h).trans (le_max_right _ _)
    set P := Ps[Ps.length - 1] with hP
    set lam := max (max a0 b) (crossWeight E (singletons V) + 1) with hlam
    have hnear := hget (Ps.length - 1) P lam (by rw [List.getElem?_eq_getElem hlt])
      ((le_max_left _ _).trans (le_max_left _ _))
      (fun i c hi _ => (hb c (List.mem_of_getElem? hi)).trans ((le_max_right _ _).trans (le_max_left _ _)))
      (fun i c hi hik => by
        have := (List.getElem?_eq_some_iff.1 hi).1
        omega)
    have h1 := hnear.2 (singletons V) (isPartition_singletons V)
    have h2 := crossWeight_nonneg hnn P
    have h3 : crossWeight E (singletons V) + 1 ≤ lam := le_max_right _ _
    have h4 := crossWeight_nonneg hnn (singletons V)
    unfold cost at h1
    rw [card_singletons] at h1
    apply hnear.1.eq_singletons_of_card
    apply le_antisymm hnear.1.card_le
    by_contra hlt'
    have h5 : ((P.card + 1 : ℕ) : ℚ) ≤ V.card := by exact_mod_cast not_le.1 hlt'
    push_cast at h5
    nlinarith
  · intro i P lam hi h1 h2
    rcases le_total a0 lam with h | h
    · exact hget i P lam hi h h1 h2
    · cases i with
      | zero =>
        have hPV : P = {V} := by
          rw [← List.head?_eq_getElem?, hfirst, Option.some.injEq] at hi
          exact hi.symm
        have ho := isOptimal_single hnn hW hV (lam := lam) (by linarith)
        have hC0 : 0 ≤ C := by
          have h5 := hget 0 P a0 hi le_rfl (by simp) (fun i c hi _ => hlo c (List.mem_of_getElem? hi))
          have := h5.2 P h5.1
          linarith
        rw [hPV]
        exact ⟨ho.1, fun R hR => (ho.2 R hR).trans (by linarith)⟩
      | succ i =>
        have hil : i < cv.length := by
          have := (List.getElem?_eq_some_iff.1 hi).1
          omega
        have h5 := h1 i cv[i] (List.getElem?_eq_getElem hil) (by omega)
        have h6 := hlo cv[i] (List.getElem_mem hil)
        have : lam = a0 := by linarith
        exact hget (i + 1) P lam hi this.ge h1 h2

/-- From the invariant after the last round to the result. -/
theorem RPInv.result {g : Digraph} (hgd : GoodDigraph g n) (hn : 0 < n) (hs : PSetup fl ao no W v ε r H g.arcs n)
    {st : PDTState} {H' : ℚ} (hst : RPInv g.arcs n n ε r H' (lowF fl ε) st) :
    ∃ (Ps : List Partition) (cv : List ℚ), st.parts.dropLast.map Prod.snd = cv.map some ∧
      st.parts.map Prod.fst = Ps ∧
      IsApproximateSequence g.arcs (Finset.range n) (12 * (n * (n + 2) * (n + 2) * ε)) Ps cv := by
  have hwithin : Within g.arcs (Finset.range n) := by
    have := hgd.good.within
    simpa [hgd.nodes] using this
  have hV : (Finset.range n).Nonempty := ⟨0, Finset.mem_range.2 hn⟩
  obtain ⟨he0, he⟩ := errP_le (j := n) hs le_rfl hn
  have hε := hs.good.pos
  have hn' : (1 : ℚ) ≤ n := by exact_mod_cast hn
  obtain ⟨Ps, cv, hparts, hlen, happ⟩ := approx_of_chain (C := 12 * (n * (n + 2) * (n + 2) * ε)) hs.good.nonneg hwithin
    hV (a0 := lowF fl ε) (by
      have := hs.start hn
      unfold lowF
      linarith) (by linarith [hs.fine])
    (hst.chain.mono fun l _ P hP => hP.isNearOptimal hwithin he0 (by
      rw [Finset.card_range]
      have := mul_le_mul_of_nonneg_left he (by linarith : (0 : ℚ) ≤ 3 * n)
      linarith)) hst.finer
  refine ⟨Ps, cv, ?_, ?_, happ⟩
  · rw [List.map_dropLast, hparts, List.map_snd_zip (by simp [hlen]), List.dropLast_concat]
  · rw [hparts, List.map_fst_zip (by simp [hlen])]

/-- **`PDT::run` with rounded arithmetic.** -/
theorem pdtRunF_spec {g : Digraph} (hgd : GoodDigraph g n) (hn : 0 < n) (hs : PSetup fl ao no W v ε r H g.arcs n) :
    OkOr (fl = id) (pdtRunF fl ao no W ε g) fun o =>
      IsApproximateSequence g.arcs (Finset.range n) (12 * (n * (n + 2) * (n + 2) * ε)) o.psp o.cv := by
  have hcn : g.countNodes = n := hgd.countNodes
  unfold pdtRunF
  rw [if_neg (by omega), hcn]
  refine (pdtLoopF_spec hs hcn (fun i hi => by rw [hgd.nodes]; exact List.mem_range.2 hi) (n - 1) 1 _ Nat.one_pos
    (by omega) (rpinv_init hs hn _)).bind fun st hst => ?_
  obtain ⟨Ps, cv, h1, h2, happ⟩ := hst.result hgd hn hs
  refine Or.inl ⟨⟨Ps, cv⟩, ?_, happ⟩
  rw [h1, h2, if_neg (by simp)]
  simp

end PSP.Theory
