import Verif.Theory.TreeApprox

/-!
# `PSP_I::split` with a tolerance, for arbitrary weights
-/

namespace PSP.Theory

open PSP.Spec PSP.Model

variable {E L : List Arc} {V I : Finset ℕ} {φ : ℕ → ℕ} {P Q R : Partition} {u ε δ : ℚ} {g : Digraph}
  {M F : Prop}

/-! ### no arc is lost -/

/-- The contracted graph represents the original one, and its arcs are not below the tolerance. -/
structure RepA (E : List Arc) (V : Finset ℕ) (u ε : ℚ) (g : Digraph) (φ : ℕ → ℕ) : Prop extends Rep E V u g φ where
  low : ∀ e ∈ g.arcs, ε ≤ e.cap

theorem capacityTo_low (hε : 0 ≤ ε) (h : ∀ e ∈ L, ε ≤ e.cap) (S : Finset ℕ) (b : ℕ) :
    capacityTo L S b = 0 ∨ ε ≤ capacityTo L S b := by
  unfold capacityTo
  induction L with
  | nil => left; simp
  | cons e L ih =>
    have ih := ih fun e he => h e (List.mem_cons_of_mem _ he)
    have he := h e List.mem_cons_self
    rw [List.map_cons, List.sum_cons]
    split_ifs
    · right; rcases ih with ih | ih <;> linarith
    · rwa [zero_add]
    · right; rcases ih with ih | ih <;> linarith
    · rwa [zero_add]
    · rwa [zero_add]

theorem RepA.contract (h : RepA E V u ε g φ) (hW : Within E V) (hu : 0 < u) (hε : 0 < ε) {S : Finset ℕ}
    {i : ℕ} (hi : i ∈ S) (hin : i ∈ g.nodes) (hmin : ∀ j ∈ S, i ≤ j) :
    RepA E V u ε (Model.contract ε g S i) (collapse S i φ) := by
  refine ⟨h.toRep.contract_of hW hu (fun b _ _ hsmall => ?_) hi hin hmin, fun e he => ?_⟩
  · rcases capacityTo_low hε.le h.low S b with h1 | h1
    · exact h1
    · exact absurd (lt_of_le_of_lt (h1.trans (le_abs_self _)) hsmall) (lt_irrefl _)
  · simp only [Model.contract] at he
    rcases List.mem_append.1 he with he | he
    · exact h.low e (List.mem_filter.1 he).1
    · obtain ⟨v, _, hv⟩ := List.mem_filterMap.1 he
      unfold contractArc at hv
      dsimp only at hv
      split_ifs at hv with h1 h2
      · rw [not_or, not_lt] at h1
        obtain rfl := Option.some.inj hv
        exact h1.2
      · rw [not_or, not_lt] at h1
        obtain rfl := Option.some.inj hv
        exact h1.2

/-- Any list of rational weights lies on some grid. -/
theorem exists_granular (L : List Arc) : ∃ u : ℚ, 0 < u ∧ Granular u L := by
  induction L with
  | nil => exact ⟨1, one_pos, fun e he => absurd he (by simp)⟩
  | cons e L ih =>
    obtain ⟨u, hu, h⟩ := ih
    have hd : (0 : ℚ) < e.cap.den := by exact_mod_cast e.cap.den_pos
    have hu' : (0 : ℚ) < u.den := by exact_mod_cast u.den_pos
    refine ⟨1 / (e.cap.den * u.den), div_pos one_pos (mul_pos hd hu'), fun a ha => ?_⟩
    rcases List.mem_cons.1 ha with rfl | ha
    · refine ⟨a.cap.num * u.den, ?_⟩
      have := Rat.num_div_den a.cap
      push_cast
      have h1 := hd.ne'
      have h2 := hu'.ne'
      rw [div_eq_iff h1] at this
      field_simp
      linarith
    · obtain ⟨k, hk⟩ := h a ha
      refine ⟨k * u.num * e.cap.den, ?_⟩
      have := Rat.num_div_den u
      rw [hk]
      push_cast
      have h1 := hd.ne'
      have h2 := hu'.ne'
      rw [div_eq_iff h2] at this
      field_simp
      rw [this]
      ring

/-! ### optimality in the contracted graph -/

theorem Rep.rel_up (h : Rep E V u g φ) (hW : Within E V) (hI : I ⊆ g.nodes.toFinset) {lam : ℚ}
    (ho : IsNearOptimal (induced g.arcs I) I δ lam Q) :
    RelOpt E (pullB φ V I) (pull φ V (singletons I)) δ lam (pull φ V Q) := by
  have hon := h.onto hI
  refine ⟨pull_isPartition hon ho.1, fun R hR hr => ?_⟩
  obtain ⟨Q', hQ', rfl⟩ := exists_pull hon hR hr
  rw [← h.cost hW hI ho.1, ← h.cost hW hI hQ']
  exact ho.2 _ hQ'

theorem Rep.rel_down (h : Rep E V u g φ) (hW : Within E V) (hI : I ⊆ g.nodes.toFinset) {lam : ℚ}
    (hQ : IsPartition I Q) (ho : RelOpt E (pullB φ V I) (pull φ V (singletons I)) 0 lam (pull φ V Q)) :
    IsOptimal (induced g.arcs I) I lam Q := by
  have hon := h.onto hI
  refine ⟨hQ, fun R hR => ?_⟩
  rw [h.cost hW hI hQ, h.cost hW hI hR]
  have := ho.2 _ (pull_isPartition hon hR) ((refines_pull hon (isPartition_singletons I)).2 (singletons_refines hR))
  linarith

theorem near_zero {lam : ℚ} : IsNearOptimal E V 0 lam P ↔ IsOptimal E V lam P :=
  ⟨fun h => ⟨h.1, fun R hR => by have := h.2 R hR; linarith⟩,
    fun h => ⟨h.1, fun R hR => by have := h.2 R hR; linarith⟩⟩

/-! ### specification of `split` -/

/-- What `split` needs to know about the children. -/
def PreA (M : Prop) (E : List Arc) (φ : ℕ → ℕ) (V I : Finset ℕ) (ch : List PTree) : Prop :=
  ∃ mu : ℚ, (∀ c ∈ ch, ∀ m, c.val = some m → mu ≤ m ∧ (M → mu < m)) ∧
    RelOpt E (pullB φ V I) (pull φ V (singletons I)) 0 mu (pull φ V (singletons I))

/-- The state after `split`. -/
structure PostA (M : Prop) (E : List Arc) (u ε : ℚ) (V I : Finset ℕ) (φ : ℕ → ℕ) (g' : Digraph)
    (φ' : ℕ → ℕ) (I' : Finset ℕ) (ch' : List PTree) : Prop where
  rep : RepA E V u ε g' φ'
  sub : I' ⊆ I
  nodes : I' ⊆ g'.nodes.toFinset
  kids : Kids φ' V I' ch'
  out : ∀ v ∈ V, φ v ∉ I → φ' v = φ v
  inn : ∀ v ∈ V, φ v ∈ I → φ' v ∈ I'
  same : ∀ v ∈ V, ∀ w ∈ V, φ v = φ w → φ' v = φ' w
  good : ∀ c ∈ ch', GoodA M ε E c

theorem PostA.pullB_eq {g' : Digraph} {φ' : ℕ → ℕ} {I' : Finset ℕ} {ch' : List PTree}
    (h : PostA M E u ε V I φ g' φ' I' ch') : pullB φ' V I' = pullB φ V I := by
  ext v
  rw [mem_pullB, mem_pullB]
  constructor
  · rintro ⟨h1, h2⟩
    refine ⟨h1, ?_⟩
    by_contra h3
    rw [h.out v h1 h3] at h2
    exact h3 (h.sub h2)
  · rintro ⟨h1, h2⟩
    exact ⟨h1, h.inn v h1 h2⟩

theorem PostA.trans {g1 g2 : Digraph} {φ1 φ2 : ℕ → ℕ} {I1 I2 : Finset ℕ} {ch1 ch2 : List PTree}
    (h1 : PostA M E u ε V I φ g1 φ1 I1 ch1) (h2 : PostA M E u ε V I1 φ1 g2 φ2 I2 ch2) :
    PostA M E u ε V I φ g2 φ2 I2 ch2 where
  rep := h2.rep
  sub := h2.sub.trans h1.sub
  nodes := h2.nodes
  kids := h2.kids
  out v hv hn := by
    have e1 := h1.out v hv hn
    rw [h2.out v hv (by rw [e1]; exact fun h => hn (h1.sub h)), e1]
  inn v hv hi := h2.inn v hv (h1.inn v hv hi)
  same v hv w hw h := h2.same v hv w hw (h1.same v hv w hw h)
  good := h2.good

/-- Sets that were merged before `split` are not cut by the children found by it. -/
theorem PostA.coarser {g' : Digraph} {φ' : ℕ → ℕ} {I' : Finset ℕ} {ch' : List PTree}
    (h : PostA M E u ε V I φ g' φ' I' ch') (hon : Onto φ V I) {D : Finset ℕ} (hD : D ∈ pull φ V (singletons I)) :
    ∃ B ∈ (ch'.map PTree.K).toFinset, D ⊆ B := by
  obtain ⟨i, hi, rfl⟩ := mem_pull_singletons.1 hD
  obtain ⟨hiV, hiφ⟩ := hon i hi
  rw [h.kids.eq]
  refine ⟨_, mem_pull_singletons.2 ⟨φ' i, h.inn i hiV (by rw [hiφ]; exact hi), rfl⟩, fun v hv => ?_⟩
  rw [mem_pullB, Finset.mem_singleton] at hv ⊢
  exact ⟨hv.1, h.same v hv.1 i hiV (by rw [hv.2, hiφ])⟩

/-- Only the entries of the elements other than the least one matter. -/
theorem Enc.congrA {st st' : HState} {t : PTree} (hg : GoodA M ε E t) (h : Enc st t)
    (hs : ∀ n ∈ t.K, n ≠ firstElem t.K → st'.W n = st.W n ∧ st'.K n = st.K n) : Enc st' t := by
  induction hg with
  | leaf v => exact Enc.leaf _
  | node K l ch hch hval hlen hnd hne hopt hbal ih =>
    cases h with
    | node _ _ _ henc hv =>
    have hsub : ∀ c ∈ ch, c.K ⊆ K := fun c hc =>
      hopt.1.subset (List.mem_toFinset.2 (List.mem_map_of_mem hc))
    have hmem : ∀ c ∈ ch, firstElem c.K ∈ c.K := fun c hc => firstElem_mem (hch c hc).nonempty
    refine Enc.node _ _ _ (fun c hc => ih c hc (henc c hc) fun n hn hne => ?_) fun c hc hne => ?_
    · apply hs n (hsub c hc hn)
      rintro rfl
      apply hne
      exact le_antisymm (firstElem_le (hsub c hc (hmem c hc))) (firstElem_le hn)
    · obtain ⟨h1, h2⟩ := hs _ (hsub c hc (hmem c hc)) hne
      rw [h1, h2]
      exact hv c hc hne

theorem GoodA.shape {K : CSet} {l : ℚ} {ch : List PTree} (h : GoodA M ε E (.node K (some l) ch)) :
    2 ≤ ch.length ∧ (ch.map PTree.K).Nodup ∧ IsPartition K (ch.map PTree.K).toFinset ∧
      cost (induced E K) l (ch.map PTree.K).toFinset = -l := by
  cases h with
  | node _ _ _ _ _ hlen hnd _ hopt hbal => exact ⟨hlen, hnd, hopt.1, hbal⟩

/-- The decisions are right up to `δ`. -/
def DecideNear (M : Prop) (dec : Decide) (E : List Arc) (V : Finset ℕ) (u δ : ℚ) : Prop :=
  ∀ (g : Digraph) (φ : ℕ → ℕ) (I : Finset ℕ) (γ : ℚ), Rep E V u g φ → I ⊆ g.nodes.toFinset → 3 ≤ I.card →
    γ = weightTotal g.arcs (subNodes g I) / ((I.card : ℚ) - 1) →
    (dec g.arcs (subNodes g I) I.card = none → IsNearOptimal (induced g.arcs I) I δ γ (singletons I)) ∧
    ∀ P, dec g.arcs (subNodes g I) I.card = some P → IsOptimal (induced g.arcs I) I γ P ∧ P.card ≠ 1 ∧
      P.card ≠ I.card ∧ (M → ∀ R, IsOptimal (induced g.arcs I) I γ R → Refines P R)

/-- Without any assumption on the weights, `split` stops only if the optimum is within the tolerance. -/
theorem decideI_near {S : FlowSolver} (hS : S.Correct) (hε : 0 ≤ ε) :
    DecideNear S.Minimal (decideI S ε) E V u ε := by
  intro g φ I γ hr hI h3 hγ
  have hon := hr.onto hI
  set ns := subNodes g I with hns
  have hnsI : ns.toFinset = I := subNodes_toFinset hI
  have hsort : ns.Pairwise (· < ·) := hr.sorted.filter _
  set H := induced g.arcs I with hH
  have hHg : GoodGraph H I := hr.good.induced I
  have hIne : I.Nonempty := Finset.card_pos.1 (by omega)
  obtain ⟨hcs, hc1⟩ := cost_trivial hr hI (by omega) hγ
  obtain ⟨hro, hrv, hrf⟩ := dilworthI_correct hS hsort (by rw [hnsI]; exact hHg) γ
  rw [hnsI] at hro hrf
  have hdi : dilworthI S g.arcs γ ns = dilworthI S H γ ns := by
    rw [dilworthI_induced, hnsI]
  unfold decideI
  dsimp only
  rw [← hγ, hdi]
  set r := dilworthI S H γ ns with hr'
  constructor
  · intro hnone
    have hdone : splitDone ε γ I.card r = true := by
      by_contra h
      rw [if_neg h] at hnone
      exact absurd hnone (by simp)
    unfold splitDone at hdone
    rw [decide_eq_true_eq] at hdone
    have key : -γ ≤ cost H γ r.2 + ε := by
      by_cases hk1 : r.2.card = 1
      · rw [hro.1.eq_single_of_card hk1, hc1]; linarith
      · by_cases hkm : r.2.card = I.card
        · rw [hro.1.eq_singletons_of_card hkm, hcs]; linarith
        · have hmin : ¬ r.1 < -γ - ε := fun h => hdone ⟨hk1, hkm, h⟩
          push Not at hmin
          rw [hrv] at hmin
          linarith
    refine ⟨isPartition_singletons I, fun R hR => ?_⟩
    have := hro.2 R hR
    rw [hcs]
    linarith
  · intro P hP
    have hnd : ¬ splitDone ε γ I.card r = true := by
      intro h
      rw [if_pos h] at hP
      exact absurd hP (by simp)
    rw [if_neg hnd, Option.some.injEq] at hP
    subst hP
    unfold splitDone at hnd
    rw [decide_eq_true_eq, not_not] at hnd
    exact ⟨hro, hnd.1, hnd.2.1, hrf⟩

/-- Specification of `split` at fuel `k`. -/
def SplitNear (M : Prop) (dec : Decide) (ε : ℚ) (ord : Partition → List CSet) (E : List Arc) (V : Finset ℕ)
    (u : ℚ) (k : ℕ) : Prop :=
  ∀ (g : Digraph) (φ : ℕ → ℕ) (I : Finset ℕ) (ch : List PTree), RepA E V u ε g φ →
    I ⊆ g.nodes.toFinset → 2 ≤ I.card → I.card ≤ k → Kids φ V I ch →
    (∀ c ∈ ch, GoodA M ε E c) → PreA M E φ V I ch →
    ∃ g' φ' I' ch' l, pspiSplitO dec ε ord k g ch = .ok (g', some l, ch') ∧
      PostA M E u ε V I φ g' φ' I' ch' ∧
      GoodA M ε E (.node (pullB φ V I) (some l) ch') ∧
      HSim dec ε ord k g I ch g' (pullB φ V I) l ch'

theorem blocks_near {dec : Decide} {ord : Partition → List CSet} {k : ℕ}
    (hW : Within E V) (hε : 0 < ε) (hu : 0 < u)
    (hk : SplitNear M dec ε ord E V u k) {K : CSet} {γ mu : ℚ} {PP S0 : Partition}
    (hPP : RelOpt E K S0 0 γ PP) (hS0 : Refines S0 PP) (hS0n : ∀ D ∈ S0, D.Nonempty)
    (hfin : M → ∀ R, IsPartition K R → Refines S0 R → cost (induced E K) γ R ≤ cost (induced E K) γ PP → Refines PP R) :
    ∀ (Bs : List CSet) (g : Digraph) (φ : ℕ → ℕ) (I : Finset ℕ) (ch : List PTree) (P : Partition),
      RepA E V u ε g φ → I ⊆ g.nodes.toFinset → Kids φ V I ch → (∀ c ∈ ch, GoodA M ε E c) →
      IsPartition I P → pull φ V P = PP → Bs.Nodup → (∀ B ∈ Bs, B ∈ P ∧ B.card ≤ k) →
      (∀ B ∈ P, B ∉ Bs → B.card = 1) →
      (∀ B ∈ Bs, RelOpt E (pullB φ V B) (pull φ V (singletons B)) 0 mu (pull φ V (singletons B))) →
      (∀ B ∈ Bs, ∀ D ∈ S0, D ⊆ pullB φ V B → D ∈ pull φ V (singletons B)) →
      (∀ c ∈ ch, (∃ B ∈ Bs, c.K ⊆ pullB φ V B) → ∀ m, c.val = some m → mu ≤ m ∧ (M → mu < m)) →
      (∀ c ∈ ch, ∀ m, c.val = some m → γ ≤ m ∧ (M → γ < m)) →
      ∃ g' φ' I' ch', pspiBlocks ε (pspiSplitO dec ε ord k) Bs g ch = .ok (g', ch') ∧
        PostA M E u ε V I φ g' φ' I' ch' ∧ pull φ' V (singletons I') = PP ∧
        (∀ c ∈ ch', ∀ m, c.val = some m → γ ≤ m ∧ (M → γ < m)) ∧
        ∀ (st : HState) (newS : CSet), (∀ c ∈ ch, Enc st c) →
          ∃ st', hpspBlocks ε (hpspSplitO dec ε ord k) Bs g st newS =
              .ok (g', st', newS ∪ (Bs.map firstElem).toFinset) ∧
            (∀ c ∈ ch', Enc st' c) ∧ ∀ n, n ∉ I → st'.W n = st.W n ∧ st'.K n = st.K n := by
  intro Bs
  induction Bs with
  | nil =>
    intro g φ I ch P hr hI hkids hgood hP hpull _ _ hone _ _ _ hγ
    refine ⟨g, φ, I, ch, by rw [pspiBlocks], ⟨hr, subset_rfl, hI, hkids, fun _ _ _ => rfl, fun _ _ h => h, fun _ _ _ _ h => h, hgood⟩,
      ?_, hγ, fun st newS hst => ⟨st, by rw [hpspBlocks]; simp, hst, fun n _ => ⟨rfl, rfl⟩⟩⟩
    have : P = singletons I := by
      apply singletons_of_refines hP
      intro B hB
      obtain ⟨i, rfl⟩ := Finset.card_eq_one.1 (hone B hB (by simp))
      exact ⟨{i}, Finset.mem_image_of_mem _ (hP.subset hB (by simp)), subset_rfl⟩
    rw [← this, hpull]
  | cons B Bs ih =>
    intro g φ I ch P hr hI hkids hgood hP hpull hnd hBs hone hmo hsb hmv hγ
    have hBP := (hBs B List.mem_cons_self).1
    have hBI := hP.subset hBP
    have hBne := hP.nonempty hBP
    by_cases hc1 : B.card = 1
    · obtain ⟨g', φ', I', ch', he, hpost, hpp, hv, hsim⟩ := ih g φ I ch P hr hI hkids hgood hP hpull
        (List.nodup_cons.1 hnd).2 (fun C hC => hBs C (List.mem_cons_of_mem _ hC))
        (fun C hC hn => by
          by_cases hCB : C = B
          · rw [hCB]; exact hc1
          · exact hone C hC (by simp [hCB, hn]))
        (fun C hC => hmo C (List.mem_cons_of_mem _ hC))
        (fun C hC => hsb C (List.mem_cons_of_mem _ hC))
        (fun c hc ⟨C, hC, hs⟩ => hmv c hc ⟨C, List.mem_cons_of_mem _ hC, hs⟩) hγ
      refine ⟨g', φ', I', ch', ?_, hpost, hpp, hv, fun st newS hst => ?_⟩
      · rw [pspiBlocks, if_pos hc1, he]
      · obtain ⟨st', h1, h2, h3⟩ := hsim st (insert (firstElem B) newS) hst
        refine ⟨st', ?_, h2, h3⟩
        rw [hpspBlocks, if_pos hc1, h1]
        congr 3
        ext v; simp
    · -- split the block
      have hBn : B ⊆ g.nodes.toFinset := hBI.trans hI
      obtain ⟨hk1, hk2⟩ := kids_split hr.toRep hI hkids hBI
      have hcard : 2 ≤ B.card := by
        have := Finset.card_pos.2 hBne
        omega
      set moved := ch.filter fun c => ¬ Disjoint c.K B with hmoved
      set rest := ch.filter fun c => Disjoint c.K B with hrest
      have hsubB : ∀ c ∈ moved.reverse, c ∈ ch ∧ ∃ C ∈ B :: Bs, c.K ⊆ pullB φ V C := by
        intro c hc
        have hc' := List.mem_reverse.1 hc
        refine ⟨(List.mem_filter.1 hc').1, B, List.mem_cons_self, ?_⟩
        obtain ⟨i, hi, he⟩ := hk1.mem hc'
        intro v hv
        rw [← he, mem_pullB, Finset.mem_singleton] at hv
        exact mem_pullB.2 ⟨hv.1, hv.2 ▸ hi⟩
      have hKB : pullB φ V B ∈ PP := by rw [← hpull]; exact Finset.mem_image_of_mem _ hBP
      obtain ⟨g1, φ1, I1, ch1, l, he1, hpost1, hgood1, hsim1⟩ := hk g φ B moved.reverse hr hBn hcard
        (hBs B List.mem_cons_self).2 hk1.reverse
        (fun c hc => hgood c (List.mem_filter.1 (List.mem_reverse.1 hc)).1)
        ⟨mu, fun c hc m hm => hmv c (hsubB c hc).1 (hsubB c hc).2 m hm, hmo B List.mem_cons_self⟩
      -- contract
      set i := firstElem B with hi
      have hiB : i ∈ B := firstElem_mem hBne
      have hiV : i ∈ V := hr.sub i (List.mem_toFinset.1 (hBn hiB))
      have hiφ : φ i = i := hr.fix i (List.mem_toFinset.1 (hBn hiB))
      have hi1 : φ1 i = i := by
        apply le_antisymm (hpost1.rep.le i hiV)
        exact firstElem_le (hpost1.sub (hpost1.inn i hiV (by rw [hiφ]; exact hiB)))
      have hin : i ∈ g1.nodes := by rw [← hi1]; exact hpost1.rep.maps i hiV
      have hr2 := RepA.contract hpost1.rep hW hu hε hiB hin fun j hj => firstElem_le hj
      set φ2 := collapse B i φ1 with hφ2
      set g2 := contract ε g1 B i with hg2
      -- the map after the step
      have hφin : ∀ v ∈ V, φ v ∈ B → φ2 v = i := by
        intro v hv hvB
        rw [hφ2]; unfold collapse
        rw [if_pos (hpost1.sub (hpost1.inn v hv hvB))]
      have hφout : ∀ v ∈ V, φ v ∉ B → φ2 v = φ v := by
        intro v hv hvB
        rw [hφ2]; unfold collapse
        rw [hpost1.out v hv hvB, if_neg hvB]
      set I2 : Finset ℕ := insert i (I \ B) with hI2
      have hpullB : ∀ C : Finset ℕ, Disjoint C B → pullB φ2 V C = pullB φ V C := by
        intro C hCB
        ext v
        rw [mem_pullB, mem_pullB]
        apply and_congr_right
        intro hv
        by_cases hvB : φ v ∈ B
        · rw [hφin v hv hvB]
          exact ⟨fun h => absurd hiB (Finset.disjoint_left.1 hCB h),
            fun h => absurd hvB (Finset.disjoint_left.1 hCB h)⟩
        · rw [hφout v hv hvB]
      have hpulli : pullB φ2 V {i} = pullB φ V B := by
        ext v
        rw [mem_pullB, mem_pullB, Finset.mem_singleton]
        apply and_congr_right
        intro hv
        by_cases hvB : φ v ∈ B
        · simp [hφin v hv hvB, hvB]
        · rw [hφout v hv hvB]
          exact ⟨fun h => absurd (h ▸ hiB) hvB, fun h => absurd h hvB⟩
      have hps : ∀ C : Finset ℕ, Disjoint C B →
          pull φ2 V (singletons C) = pull φ V (singletons C) := by
        intro C hCB
        ext A
        rw [mem_pull_singletons, mem_pull_singletons]
        constructor
        · rintro ⟨j, hj, rfl⟩
          exact ⟨j, hj, (hpullB {j} (by simpa using Finset.disjoint_left.1 hCB hj)).symm⟩
        · rintro ⟨j, hj, rfl⟩
          exact ⟨j, hj, hpullB {j} (by simpa using Finset.disjoint_left.1 hCB hj)⟩
      have hI2n : I2 ⊆ g2.nodes.toFinset := by
        intro j hj
        rw [List.mem_toFinset]
        rcases Finset.mem_insert.1 hj with rfl | hj
        · have := hr2.maps i hiV
          rwa [hφin i hiV (by rw [hiφ]; exact hiB)] at this
        · rw [Finset.mem_sdiff] at hj
          have hjn := List.mem_toFinset.1 (hI hj.1)
          have := hr2.maps j (hr.sub j hjn)
          rwa [hφout j (hr.sub j hjn) (by rw [hr.fix j hjn]; exact hj.2), hr.fix j hjn] at this
      set t : PTree := .node (pullB φ V B) (some l) ch1 with ht
      have hkids2 : Kids φ2 V I2 (t :: rest) := by
        constructor
        · rw [List.map_cons, List.nodup_cons]
          refine ⟨?_, hk2.nodup⟩
          intro hm
          obtain ⟨c, hc, he⟩ := List.mem_map.1 hm
          obtain ⟨j, hj, he'⟩ := hk2.mem hc
          rw [Finset.mem_sdiff] at hj
          have hjn := List.mem_toFinset.1 (hI hj.1)
          have h1 : j ∈ pullB φ V {j} := mem_pullB.2 ⟨hr.sub j hjn, by simp [hr.fix j hjn]⟩
          rw [he', he] at h1
          have h2 := (mem_pullB.1 h1).2
          rw [hr.fix j hjn] at h2
          exact hj.2 h2
        · rw [List.map_cons, List.toFinset_cons, hk2.eq, ← hps (I \ B) Finset.sdiff_disjoint]
          ext A
          rw [Finset.mem_insert, mem_pull_singletons, mem_pull_singletons, hI2]
          simp only [Finset.mem_insert, exists_eq_or_imp, hpulli, ht, PTree.K]
          exact or_congr_left ⟨fun h => h.symm, fun h => h.symm⟩
      have hval : γ ≤ l ∧ (M → γ < l) := by
        obtain ⟨hlen1, hnd1, hpart1, hbal1⟩ := hgood1.shape
        refine value_ge hPP hS0 hfin hKB hpart1 (fun D hD hs => ?_) ?_ hS0n hbal1
        · exact hpost1.coarser (hr.onto hBn) (hsb B List.mem_cons_self D hD hs)
        · rw [List.toFinset_card_of_nodup hnd1, List.length_map]; exact hlen1
      have hK' : B ∪ (moved.map PTree.K).foldr (· ∪ ·) ∅ = pullB φ V B := hk1.union (hr.onto hBn)
      -- the partition after the step
      have hP2 : IsPartition I2 (insert {i} (P.erase B)) := by
        rw [isPartition_iff]
        refine ⟨?_, ?_, ?_⟩
        · intro C hC
          rcases Finset.mem_insert.1 hC with rfl | hC
          · exact ⟨by simp, by simp [hI2]⟩
          · have hC' := Finset.mem_of_mem_erase hC
            refine ⟨hP.nonempty hC', fun j hj => ?_⟩
            rw [hI2]
            refine Finset.mem_insert_of_mem (Finset.mem_sdiff.2 ⟨hP.subset hC' hj, fun hjB => ?_⟩)
            exact Finset.ne_of_mem_erase hC (hP.eq_of_mem hC' hBP hj hjB)
        · intro j hj
          rcases Finset.mem_insert.1 hj with rfl | hj
          · exact ⟨{i}, by simp, by simp⟩
          · rw [Finset.mem_sdiff] at hj
            obtain ⟨C, hC, hjC⟩ := hP.exists_block hj.1
            refine ⟨C, Finset.mem_insert_of_mem (Finset.mem_erase.2 ⟨?_, hC⟩), hjC⟩
            rintro rfl; exact hj.2 hjC
        · have hno : ∀ C ∈ P.erase B, i ∉ C := fun C hC hiC =>
            Finset.ne_of_mem_erase hC (hP.eq_of_mem (Finset.mem_of_mem_erase hC) hBP hiC hiB)
          intro C hC D hD v hv hv'
          rcases Finset.mem_insert.1 hC with rfl | hC <;> rcases Finset.mem_insert.1 hD with rfl | hD
          · rfl
          · rw [Finset.mem_singleton.1 hv] at hv'; exact absurd hv' (hno D hD)
          · rw [Finset.mem_singleton.1 hv'] at hv; exact absurd hv (hno C hC)
          · exact hP.eq_of_mem (Finset.mem_of_mem_erase hC) (Finset.mem_of_mem_erase hD) hv hv'
      have hdisB : ∀ C ∈ P, C ≠ B → Disjoint C B := fun C hC hne => hP.disjoint hC hBP hne
      have hpull2 : pull φ2 V (insert {i} (P.erase B)) = PP := by
        rw [← hpull]
        unfold pull
        rw [Finset.image_insert, hpulli]
        conv_rhs => rw [← Finset.insert_erase hBP, Finset.image_insert]
        congr 1
        apply Finset.image_congr
        intro C hC
        have hC := Finset.mem_erase.1 hC
        exact hpullB C (hdisB C hC.2 hC.1)
      have hBsne : ∀ C ∈ Bs, C ≠ B := fun C hC h => (List.nodup_cons.1 hnd).1 (h ▸ hC)
      have hBsdis : ∀ C ∈ Bs, Disjoint C B := fun C hC =>
        hdisB C (hBs C (List.mem_cons_of_mem _ hC)).1 (hBsne C hC)
      have hold : ∀ c ∈ t :: rest, (∃ C ∈ Bs, c.K ⊆ pullB φ2 V C) → c ∈ ch ∧ ∃ C ∈ B :: Bs, c.K ⊆ pullB φ V C := by
        rintro c hc ⟨C, hC, hs⟩
        rw [hpullB C (hBsdis C hC)] at hs
        rcases List.mem_cons.1 hc with rfl | hc
        · exfalso
          have h1 : i ∈ pullB φ V C := hs (mem_pullB.2 ⟨hiV, by rw [hiφ]; exact hiB⟩)
          have h2 := (mem_pullB.1 h1).2
          rw [hiφ] at h2
          exact Finset.disjoint_left.1 (hBsdis C hC) h2 hiB
        · exact ⟨(List.mem_filter.1 hc).1, C, List.mem_cons_of_mem _ hC, hs⟩
      obtain ⟨g', φ', I', ch', he, hpost, hpp, hv, hsim⟩ := ih g2 φ2 I2 (t :: rest) (insert {i} (P.erase B))
        hr2 hI2n hkids2
        (fun c hc => by
          rcases List.mem_cons.1 hc with rfl | hc
          · exact hgood1
          · exact hgood c (List.mem_filter.1 hc).1)
        hP2 hpull2 (List.nodup_cons.1 hnd).2
        (fun C hC => by
          obtain ⟨h1, h2⟩ := hBs C (List.mem_cons_of_mem _ hC)
          exact ⟨Finset.mem_insert_of_mem (Finset.mem_erase.2 ⟨hBsne C hC, h1⟩), h2⟩)
        (fun C hC hn => by
          rcases Finset.mem_insert.1 hC with rfl | hC
          · simp
          · exact hone C (Finset.mem_of_mem_erase hC) (by
              simp [Finset.ne_of_mem_erase hC, hn]))
        (fun C hC => by
          rw [hpullB C (hBsdis C hC), hps C (hBsdis C hC)]
          exact hmo C (List.mem_cons_of_mem _ hC))
        (fun C hC D hD => by
          rw [hpullB C (hBsdis C hC), hps C (hBsdis C hC)]
          exact hsb C (List.mem_cons_of_mem _ hC) D hD)
        (fun c hc hs => hmv c (hold c hc hs).1 (hold c hc hs).2)
        (fun c hc m hm => by
          rcases List.mem_cons.1 hc with rfl | hc
          · rw [ht, PTree.val, Option.some.injEq] at hm
            rw [← hm]; exact hval
          · exact hγ c (List.mem_filter.1 hc).1 m hm)
      have hI2I : I2 ⊆ I := by
        rw [hI2]
        exact Finset.insert_subset (hBI hiB) Finset.sdiff_subset
      refine ⟨g', φ', I', ch', ?_, ?_, hpp, hv, ?_⟩
      · rw [pspiBlocks, if_neg hc1, ← hmoved]
        dsimp only
        rw [he1, Outcome.ok_bind, hK']
        exact he
      · refine ⟨hpost.rep, hpost.sub.trans hI2I, hpost.nodes, hpost.kids, ?_, ?_, ?_, hpost.good⟩
        · intro v hvV hvI
          have e := hφout v hvV fun h => hvI (hBI h)
          rw [hpost.out v hvV (by rw [e]; exact fun h => hvI (hI2I h)), e]
        · intro v hvV hvI
          apply hpost.inn v hvV
          by_cases hvB : φ v ∈ B
          · rw [hφin v hvV hvB, hI2]; simp
          · rw [hφout v hvV hvB, hI2]
            exact Finset.mem_insert_of_mem (Finset.mem_sdiff.2 ⟨hvI, hvB⟩)
        · intro v hv w hw hvw
          apply hpost.same v hv w hw
          by_cases hvB : φ v ∈ B
          · rw [hφin v hv hvB, hφin w hw (hvw ▸ hvB)]
          · rw [hφout v hv hvB, hφout w hw (hvw ▸ hvB), hvw]
      · intro st newS hst
        obtain ⟨st1, h1, h2, _, _, h3⟩ := hsim1 st fun c hc =>
          hst c (List.mem_filter.1 (List.mem_reverse.1 hc)).1
        obtain ⟨st', h4, h5, h6⟩ := hsim st1 (insert i newS) (fun c hc => by
          rcases List.mem_cons.1 hc with rfl | hc
          · exact h2
          · have hc' := (List.mem_filter.1 hc).1
            refine (hst c hc').congrA (hgood c hc') fun n hn hne => h3 n fun hnB => ?_
            exact hkids.not_mem hr.toRep hI hc' hn hne (hBI hnB))
        refine ⟨st', ?_, h5, fun n hn => ?_⟩
        · rw [hpspBlocks, if_neg hc1, ← hi, h1, Outcome.ok_bind]
          dsimp only
          rw [h4]
          congr 3
          ext v; simp [hi]
        · obtain ⟨a, b⟩ := h6 n fun h => hn (hI2I h)
          obtain ⟨c, d⟩ := h3 n fun h => hn (hBI h)
          exact ⟨a.trans c, b.trans d⟩


/-! ### split -/

theorem split_near {dec : Decide} (hdec : DecideNear M dec E V u ε) {ord : Partition → List CSet}
    (hord : Enumerates ord) (hW : Within E V) (hε : 0 < ε) (hu : 0 < u) (k : ℕ) :
    SplitNear M dec ε ord E V u k := by
  induction k with
  | zero =>
    intro g φ I ch _ _ h2 hk
    omega
  | succ k ih =>
    intro g φ I ch hr hI h2 hcard hkids hgood hpre
    have hon := hr.onto hI
    have hlen := hkids.length hon
    have hids := hkids.ids hr.toRep hI
    set ns := subNodes g I with hns
    have hnsI : ns.toFinset = I := by
      ext i
      rw [List.mem_toFinset, hns, subNodes, List.mem_filter]
      simp only [decide_eq_true_eq]
      exact ⟨fun h => h.2, fun h => ⟨List.mem_toFinset.1 (hI h), h⟩⟩
    have hsort : ns.Pairwise (· < ·) := hr.sorted.filter _
    set H := induced g.arcs I with hH
    have hHg : GoodGraph H I := hr.good.induced I
    have hIne : I.Nonempty := Finset.card_pos.1 (by omega)
    have hm1 : (0 : ℚ) < (I.card : ℚ) - 1 := by
      have : (2 : ℚ) ≤ I.card := by exact_mod_cast h2
      linarith
    set γ := weightTotal g.arcs ns / ((ch.length : ℚ) - 1) with hγ
    have hwt : weightTotal g.arcs ns = crossWeight H (singletons I) := by
      rw [weightTotal_eq hr.good.lowHigh, hnsI]
    have hcs : cost H γ (singletons I) = -γ := by
      unfold cost
      rw [card_singletons, ← hwt, hγ, hlen]
      field_simp
      ring
    have hc1 : cost H γ {I} = -γ := by
      unfold cost
      rw [crossWeight_single hHg.within, Finset.card_singleton]
      push_cast
      ring
    obtain ⟨mu, hmu, hmo⟩ := hpre
    have hmd := hr.rel_down hW hI (isPartition_singletons I) hmo
    have hle : γ ≤ mu := by
      have h1 := hmd.2 _ (isPartition_single hIne)
      have h2 := cost_shift (E := H) (l := γ) (m := mu) (singletons I) {I}
      rw [card_singletons, Finset.card_singleton, hcs, hc1] at h2
      by_contra hlt
      push Not at hlt
      push_cast at h2
      nlinarith
    have hval0 : ∀ c ∈ ch, ∀ m, c.val = some m → γ ≤ m ∧ (M → γ < m) := fun c hc m hm =>
      ⟨hle.trans (hmu c hc m hm).1, fun h => lt_of_le_of_lt hle ((hmu c hc m hm).2 h)⟩
    -- finishing
    have hfinish : (∀ st : HState, hpspSplitO dec ε ord (k + 1) g st (firstElem I) I =
          .ok (g, st.assign I γ (firstElem I))) → IsNearOptimal H I ε γ (singletons I) → ∃ g' φ' I' ch' l,
        (Outcome.ok (g, some γ, ch) : Outcome (Digraph × Option ℚ × List PTree)) =
          .ok (g', some l, ch') ∧ PostA M E u ε V I φ g' φ' I' ch' ∧
        GoodA M ε E (.node (pullB φ V I) (some l) ch') ∧
        HSim dec ε ord (k + 1) g I ch g' (pullB φ V I) l ch' := by
      intro hh ho
      refine ⟨g, φ, I, ch, γ, rfl, ⟨hr, subset_rfl, hI, hkids, fun _ _ _ => rfl, fun _ _ h => h,
        fun _ _ _ _ h => h, hgood⟩, ?_, ?_⟩
      · have hup := hr.toRep.rel_up hW hI ho
        rw [← hkids.eq] at hup
        refine GoodA.node _ _ _ hgood hval0 (by omega) hkids.nodup ?_ hup ?_
        · obtain ⟨i, hi⟩ := hIne
          exact ⟨i, mem_pullB.2 ⟨(hon i hi).1, by rw [(hon i hi).2]; exact hi⟩⟩
        · rw [hkids.eq, ← hr.toRep.cost hW hI (isPartition_singletons I), hcs]
      · intro st hst
        have hfi := firstElem_mem hIne
        refine ⟨_, hh st, ?_, ?_, ?_, ?_⟩
        · refine Enc.node _ _ _ (fun c hc => (hst c hc).congrA (hgood c hc) fun n hn hne => ?_)
            fun c hc hne => ?_
          · have := hkids.not_mem hr.toRep hI hc hn hne
            simp [HState.assign, this]
          · obtain ⟨i, hi, he⟩ := hkids.mem hc
            rw [← he, hr.firstElem_group (List.mem_toFinset.1 (hI hi)), hr.firstElem_pullB hI hIne]
            simp [HState.assign, hi]
        · simp [HState.assign, hfi]
        · simp [HState.assign, hfi]
        · intro n hn
          simp [HState.assign, hn]
    have hcardq : ((I.card : ℚ) - 1) = (ch.length : ℚ) - 1 := by rw [hlen]
    rw [pspiSplitO]
    dsimp only
    rw [hids, ← hns, if_neg (by omega)]
    by_cases hl2 : ch.length = 2
    · rw [if_pos hl2]
      apply hfinish
      · intro st
        rw [hpspSplitO]
        dsimp only
        rw [← hns, if_neg (by omega), if_pos (by omega), hcardq]
      refine ⟨isPartition_singletons I, fun R hR => ?_⟩
      have h3 := hR.card_le
      have h4 := hR.card_pos hIne
      have : R.card = 1 ∨ R.card = I.card := by omega
      rcases this with h | h
      · rw [hR.eq_single_of_card h, hc1, hcs]; linarith
      · rw [hR.eq_singletons_of_card h]; linarith
    · rw [if_neg hl2]
      obtain ⟨hnone, hsome⟩ := hdec g φ I γ hr.toRep hI (by omega) (by rw [hγ, hcardq])
      rw [← hns, ← hH] at hnone hsome
      rw [← hγ, show dec g.arcs ns ch.length = dec g.arcs ns I.card by rw [hlen]]
      rcases hd : dec g.arcs ns I.card with _ | P'
      · apply hfinish
        · intro st
          rw [hpspSplitO]
          dsimp only
          rw [← hns, if_neg (by omega), if_neg (by omega), hcardq, ← hγ, hd]
        exact hnone hd
      · obtain ⟨hro, hk1, hkm, hrf⟩ := hsome P' hd
        dsimp only
        have hrlt : P'.card < I.card := lt_of_le_of_ne hro.1.card_le hkm
        have hrpos := hro.1.card_pos hIne
        have hPP := hr.toRep.rel_up hW hI (near_zero.2 hro)
        have hfin : M → ∀ R, IsPartition (pullB φ V I) R → Refines (pull φ V (singletons I)) R →
            cost (induced E (pullB φ V I)) γ R ≤ cost (induced E (pullB φ V I)) γ (pull φ V P') →
            Refines (pull φ V P') R := by
          intro hM R hR href hc
          obtain ⟨Q', hQ', rfl⟩ := exists_pull hon hR href
          rw [← hr.toRep.cost hW hI hQ', ← hr.toRep.cost hW hI hro.1] at hc
          exact (refines_pull hon hro.1).2 (hrf hM _ (hro.of_cost_le hQ' hc))
        have href : Refines (pull φ V (singletons I)) (pull φ V P') :=
          (refines_pull hon (isPartition_singletons I)).2 (singletons_refines hro.1)
        have hsp := pull_isPartition hon (isPartition_singletons I)
        obtain ⟨hond, hos⟩ := hord P'
        have hmemo : ∀ B, B ∈ ord P' ↔ B ∈ P' := by
          intro B; rw [← List.mem_toFinset, hos]
        obtain ⟨g1, φ1, I1, ch1, he1, hpost1, hpp1, hv1, hsim1⟩ := blocks_near (mu := mu)
          hW hε hu ih hPP href (fun D hD => hsp.nonempty hD) hfin
          (ord P') g φ I ch P' hr hI hkids hgood hro.1 rfl hond
          (fun B hB => by
            have hB := (hmemo B).1 hB
            refine ⟨hB, ?_⟩
            have hne : B ≠ I := by
              rintro rfl
              apply hk1
              have : P' = {B} := by
                ext C
                rw [Finset.mem_singleton]
                constructor
                · intro hC
                  obtain ⟨v, hv⟩ := hro.1.nonempty hC
                  exact hro.1.eq_of_mem hC hB hv (hro.1.subset hC hv)
                · rintro rfl; exact hB
              rw [this, Finset.card_singleton]
            have := Finset.card_lt_card (Finset.ssubset_iff_subset_ne.2 ⟨hro.1.subset hB, hne⟩)
            omega)
          (fun B hB hn => absurd ((hmemo B).2 hB) hn)
          (fun B hB => by
            have hB := (hmemo B).1 hB
            have hBI := hro.1.subset hB
            have h1 := hmd.part hHg.within hro.1 (singletons_refines hro.1) hB
            have h3 : Spec.part (singletons I) B = singletons B := by
              ext A
              rw [mem_part]
              unfold singletons
              rw [Finset.mem_image, Finset.mem_image]
              constructor
              · rintro ⟨⟨v, _, rfl⟩, hs⟩; exact ⟨v, by simpa using hs, rfl⟩
              · rintro ⟨v, hv, rfl⟩; exact ⟨⟨v, hBI hv, rfl⟩, by simpa using hv⟩
            rw [h3, induced_induced hBI] at h1
            exact hr.toRep.rel_up hW (hBI.trans hI) (near_zero.2 h1))
          (fun B hB D hD hs => by
            rw [← part_pull hro.1 ((hmemo B).1 hB) hon]
            exact mem_part.2 ⟨hD, hs⟩)
          (fun c hc _ m hm => hmu c hc m hm)
          hval0
        have hcard1 : I1.card = P'.card := by
          have h1 := card_pull (hpost1.rep.toRep.onto hpost1.nodes) (isPartition_singletons I1)
          rw [hpp1, card_pull hon hro.1, card_singletons] at h1
          exact h1.symm
        have hpb := hpost1.pullB_eq
        obtain ⟨g2, φ2, I2, ch2, l, he2, hpost2, hgood2, hsim2⟩ := ih g1 φ1 I1 ch1 hpost1.rep hpost1.nodes
          (by omega) (by omega) hpost1.kids hpost1.good
          ⟨γ, hv1, by rw [hpb, hpp1]; exact hPP.mono href⟩
        refine ⟨g2, φ2, I2, ch2, l, ?_, hpost1.trans hpost2, ?_, ?_⟩
        · rw [he1, Outcome.ok_bind, he2]
        · rw [← hpb]; exact hgood2
        · -- the simulation
          have hI1ne : I1.Nonempty := Finset.card_pos.1 (by omega)
          have hI1 : ∅ ∪ ((ord P').map firstElem).toFinset = I1 := by
            have e1 : (pull φ1 V (singletons I1)).image firstElem = I1 := by
              ext i
              rw [Finset.mem_image]
              constructor
              · rintro ⟨A, hA, rfl⟩
                obtain ⟨j, hj, rfl⟩ := mem_pull_singletons.1 hA
                rwa [hpost1.rep.firstElem_group (List.mem_toFinset.1 (hpost1.nodes hj))]
              · intro hi
                exact ⟨_, mem_pull_singletons.2 ⟨i, hi, rfl⟩,
                  hpost1.rep.firstElem_group (List.mem_toFinset.1 (hpost1.nodes hi))⟩
            rw [← e1, hpp1]
            ext i
            rw [Finset.empty_union, List.mem_toFinset, List.mem_map, Finset.mem_image]
            constructor
            · rintro ⟨B, hB, rfl⟩
              have hB' := (hmemo B).1 hB
              exact ⟨_, Finset.mem_image_of_mem _ hB', hr.firstElem_pullB
                ((hro.1.subset hB').trans hI) (hro.1.nonempty hB')⟩
            · rintro ⟨A, hA, rfl⟩
              obtain ⟨B, hB', rfl⟩ := Finset.mem_image.1 hA
              exact ⟨B, (hmemo B).2 hB', (hr.firstElem_pullB
                ((hro.1.subset hB').trans hI) (hro.1.nonempty hB')).symm⟩
          have hfe : firstElem I1 = firstElem I := by
            rw [← hr.firstElem_pullB hI hIne, ← hpb, hpost1.rep.firstElem_pullB hpost1.nodes hI1ne]
          intro st hst
          obtain ⟨st1, h1, h3, h4⟩ := hsim1 st ∅ hst
          rw [hI1] at h1
          obtain ⟨st2, h5, h6, h7, h8, h9⟩ := hsim2 st1 h3
          rw [hfe] at h5 h7 h8
          rw [hpb] at h6
          refine ⟨st2, ?_, h6, h7, h8, fun n hn => ?_⟩
          · rw [hpspSplitO]
            dsimp only
            rw [← hns, if_neg (by omega), if_neg (by omega), hcardq, ← hγ, hd]
            dsimp only
            rw [h1, Outcome.ok_bind, h5]
          · obtain ⟨a, b⟩ := h9 n fun h => hn (hpost1.sub h)
            obtain ⟨c, d⟩ := h4 n hn
            exact ⟨a.trans c, b.trans d⟩

/-! ### the run -/

theorem splitO_near {dec : Decide} {n : ℕ} (hn : 2 ≤ n) (hg : GoodDigraph g n)
    (hdec : DecideNear M dec g.arcs (Finset.range n) u ε) {ord : Partition → List CSet}
    (hord : Enumerates ord) (hε : 0 < ε) (hu : 0 < u) (hgr : Granular u g.arcs) (hlow : ∀ e ∈ g.arcs, ε ≤ e.cap) :
    ∃ g' ch l, pspiSplitO dec ε ord (n + 1) g ((List.range n).reverse.map fun i => PTree.leaf {i}) =
        .ok (g', some l, ch) ∧
      GoodA M ε g.arcs (.node (Finset.range n) (some l) ch) ∧
      HSim dec ε ord (n + 1) g (Finset.range n) ((List.range n).reverse.map fun i => PTree.leaf {i}) g'
        (Finset.range n) l ch := by
  set V := Finset.range n with hV
  have hVc : V.card = n := by simp [hV]
  have hE := hg.good.nonneg
  have hW := hg.good.within
  have hVn : V ⊆ g.nodes.toFinset := by
    intro i hi; rw [List.mem_toFinset, hg.nodes]; simpa [hV] using hi
  obtain ⟨g', φ', I', ch', l, he, hpost, hgood, hsim⟩ := split_near (M := M) hdec hord hW hε hu
    (n + 1) g id V _ ⟨rep_init hg hgr, hlow⟩ hVn (by omega) (by omega) (kids_init n)
    (fun c hc => by
      obtain ⟨i, _, rfl⟩ := List.mem_map.1 hc
      exact GoodA.leaf i)
    ⟨crossWeight g.arcs (singletons V), fun c hc m hm => by
      obtain ⟨i, _, rfl⟩ := List.mem_map.1 hc
      simp [PTree.val] at hm, by
      rw [pullB_id subset_rfl, pull_id _ _ subset_rfl]
      have := isOptimal_singletons (V := V) hE (le_refl (crossWeight g.arcs (singletons V)))
      refine ⟨this.1, fun R hR _ => ?_⟩
      rw [induced_self hW]
      have := this.2 R hR
      linarith⟩
  rw [pullB_id subset_rfl] at hgood hsim
  exact ⟨g', ch', l, he, hgood, hsim⟩

/-- The queue on a tree that is right up to an error. -/
theorem queue_near {n : ℕ} (hn : 2 ≤ n) (hg : GoodDigraph g n) {l : ℚ} {ch : List PTree} (hε : 0 ≤ ε)
    (hgood : GoodA M ε g.arcs (.node (Finset.range n) (some l) ch)) :
    ∃ t : List (ℚ × Partition), queueLoop (2 * n) [PTree.node (Finset.range n) (some l) ch] =
        .ok ({Finset.range n} :: t.map Prod.snd, t.map Prod.fst) ∧
      NChain g.arcs (Finset.range n) (((n : ℚ) - 1) * ε) 0 l {Finset.range n} (t.map fun x => (x.1, x.1, x.2)) ∧
      lastOf {Finset.range n} t = singletons (Finset.range n) := by
  set V := Finset.range n with hV
  have hVc : V.card = n := by simp [hV]
  have hVne : V.Nonempty := Finset.card_pos.1 (by omega)
  have hE := hg.good.nonneg
  have hW := hg.good.within
  have hsh : shown [PTree.node V (some l) ch] = {V} := by simp [shown, PTree.K]
  have hq : QInvA M ε g.arcs V l 0 [.node V (some l) ch] := by
    refine ⟨by simp, ?_, ?_, ?_, List.pairwise_singleton _ _, by simp⟩
    · rw [hsh]
      refine ⟨isPartition_single hVne, fun R hR hr => ?_⟩
      have : R = {V} := by
        obtain ⟨A, hA, hs⟩ := hr V (Finset.mem_singleton_self V)
        have hAV : A = V := Finset.Subset.antisymm (hR.subset hA) hs
        subst hAV
        apply Finset.eq_singleton_iff_unique_mem.2
        refine ⟨hA, fun B hB => ?_⟩
        obtain ⟨b, hb⟩ := hR.nonempty hB
        exact hR.eq_of_mem hB hA hb (hR.subset hB hb)
      rw [this]; simp
    · intro t ht; rw [List.mem_singleton.1 ht]; exact hgood
    · intro t ht m hm
      rw [List.mem_singleton.1 ht] at hm
      simp only [PTree.val, Option.some.injEq] at hm
      exact hm.le
  obtain ⟨t, ht, hlk, hls⟩ := queueLoop_near hE hW hVne hε (2 * n) l 0 _ hq (by
    rw [hVc]; simp; omega)
  rw [hsh] at ht hlk hls
  rw [hVc] at hlk
  exact ⟨t, ht, hlk, hls⟩

theorem chain_sorted {E : List Arc} {V : Finset ℕ} {C : ℚ} {t : List (ℚ × Partition)} : ∀ {a : ℚ} {Q : Partition},
    NChain E V C 0 a Q (t.map fun x => (x.1, x.1, x.2)) →
    (t.map Prod.fst).Pairwise (· ≤ ·) ∧ ∀ x ∈ t.map Prod.fst, a ≤ x := by
  induction t with
  | nil => intro a Q _; simp
  | cons y t ih =>
    intro a Q h
    obtain ⟨k1, _, _, _, _, _, k7⟩ := h
    obtain ⟨h1, h2⟩ := ih k7
    refine ⟨List.pairwise_cons.2 ⟨h2, h1⟩, fun x hx => ?_⟩
    rcases List.mem_cons.1 hx with rfl | hx
    · exact k1
    · exact k1.trans (h2 x hx)

/-- The result of the queue on a tree that is right up to an error. -/
theorem chain_approx {E : List Arc} {V : Finset ℕ} {C l : ℚ} {t : List (ℚ × Partition)} (hV : 2 ≤ V.card)
    (h : NChain E V C 0 l {V} (t.map fun x => (x.1, x.1, x.2))) (hl : lastOf {V} t = singletons V) :
    IsApproximateSequence E V C ({V} :: t.map Prod.snd) (t.map Prod.fst) := by
  have ht : t ≠ [] := by
    rintro rfl
    simp only [lastOf] at hl
    have := congrArg Finset.card hl
    rw [Finset.card_singleton, card_singletons] at this
    omega
  have h1 := NChain.approx (Finset.card_pos.1 (by omega)) le_rfl (by simpa using ht) h (by
    rw [List.map_map]
    rw [← hl]
    obtain ⟨s, x, rfl⟩ : ∃ s x, t = s ++ [x] := ⟨_, _, (List.dropLast_append_getLast ht).symm⟩
    have hx : ∀ (A : Partition), lastOf A (s ++ [x]) = x.2 := by
      intro A
      clear hl h ht
      induction s generalizing A with
      | nil => rfl
      | cons y s ih => exact ih _
    rw [hx]
    simp)
  simp only [List.map_map, Function.comp_def] at h1
  rw [show C + 2 * 0 * (V.card : ℚ) = C by ring] at h1
  have h2 : (t.map fun x => x.1).insertionSort (· ≤ ·) = t.map fun x => x.1 := (chain_sorted h).1.insertionSort_eq
  rw [h2] at h1
  exact h1

theorem pspiRun_near {S : FlowSolver} (hS : S.Correct) {ord : Partition → List CSet}
    (hord : Enumerates ord) {n : ℕ} (hn : 2 ≤ n) (hg : GoodDigraph g n) (hε : 0 < ε) (hlow : ∀ e ∈ g.arcs, ε ≤ e.cap) :
    ∃ g' r, pspiRun S ε ord g = .ok (g', r) ∧
      IsApproximateSequence g.arcs (Finset.range n) (((n : ℚ) - 1) * ε) r.psp r.cv := by
  obtain ⟨u, hu, hgr⟩ := exists_granular g.arcs
  have hcn : g.countNodes = n := by rw [Digraph.countNodes, hg.nodes, List.length_range]
  obtain ⟨g', ch, l, he, hgood, _⟩ := splitO_near hn hg (decideI_near (E := g.arcs) (V := Finset.range n) hS hε.le)
    hord hε hu hgr hlow
  obtain ⟨t, ht, hlk, hls⟩ := queue_near hn hg hε.le hgood
  refine ⟨g', ⟨_, _⟩, ?_, chain_approx (by simpa using hn) hlk hls⟩
  unfold pspiRun
  simp only [hcn]
  rw [if_neg (by omega), pspiSplit_eq, he, Outcome.ok_bind]
  simp only
  rw [show makeDense n = Finset.range n from rfl, ht]
  rfl

end PSP.Theory
