import Verif.Theory.Contract
import Verif.Model.HPSP

/-!
# Correctness of `PSP_I::split`
-/

namespace PSP.Theory

open PSP.Spec PSP.Model

variable {E L : List Arc} {V I : Finset ℕ} {φ : ℕ → ℕ} {P Q R : Partition} {u ε : ℚ} {g : Digraph}
  {M M1 F : Prop}

/-! ### the truncation only sees the induced subgraph -/

theorem interiorArcs_induced {arcs : List Arc} {ns done : List ℕ} (h : ∀ i ∈ done, i ∈ ns) :
    interiorArcs (induced arcs ns.toFinset) done = interiorArcs arcs done := by
  unfold interiorArcs induced
  rw [List.filter_filter]
  congr 1
  apply List.filter_congr
  intro a _
  by_cases h1 : a.src ∈ done <;> by_cases h2 : a.dst ∈ done <;> simp [h1, h2, h _]

theorem sinkCost_induced {arcs : List Arc} {ns done : List ℕ} (h : ∀ i ∈ done, i ∈ ns) {l : ℕ}
    (hl : l ∈ ns) (i : ℕ) :
    sinkCost (induced arcs ns.toFinset) done l i = sinkCost arcs done l i := by
  unfold sinkCost induced
  rw [List.find?_filter]
  congr 2
  funext a
  by_cases h1 : a.dst = l ∧ a.src = i ∧ (i ∈ done ∨ i = l)
  · have h2 : a.src ∈ ns := by
      rcases h1.2.2 with h3 | h3
      · rw [h1.2.1]; exact h i h3
      · rw [h1.2.1, h3]; exact hl
    simp [h1]
    rw [h1.2.1] at h2
    exact ⟨h2, hl⟩
  · simp only [h1, decide_false]; simp

theorem runLoopI_induced {S : FlowSolver} {arcs : List Arc} {ns : List ℕ} (lam : ℚ)
    (rest done : List ℕ) (xl : List ℚ) (P : Partition) (h1 : ∀ i ∈ done, i ∈ ns)
    (h2 : ∀ i ∈ rest, i ∈ ns) :
    runLoopI S (induced arcs ns.toFinset) lam done rest xl P = runLoopI S arcs lam done rest xl P := by
  induction rest generalizing done xl P with
  | nil => rfl
  | cons l rest ih =>
    have hl := h2 l List.mem_cons_self
    have : minimizeI S (induced arcs ns.toFinset) lam done l xl = minimizeI S arcs lam done l xl := by
      unfold minimizeI dilworthNet
      rw [interiorArcs_induced h1]
      have : sinkCost (induced arcs ns.toFinset) done l = sinkCost arcs done l :=
        funext fun i => sinkCost_induced h1 hl i
      rw [this]
    unfold runLoopI
    rw [this]
    apply ih
    · intro i hi
      rcases List.mem_append.1 hi with hi | hi
      · exact h1 i hi
      · rw [List.mem_singleton.1 hi]; exact hl
    · intro i hi; exact h2 i (List.mem_cons_of_mem _ hi)

theorem dilworthI_induced {S : FlowSolver} (arcs : List Arc) (ns : List ℕ) (lam : ℚ) :
    dilworthI S arcs lam ns = dilworthI S (induced arcs ns.toFinset) lam ns := by
  unfold dilworthI
  rw [runLoopI_induced lam ns [] [] ∅ (by simp) (fun i hi => hi)]

theorem GoodGraph.induced {N : Finset ℕ} (h : GoodGraph L N) (B : Finset ℕ) :
    GoodGraph (induced L B) B where
  lowHigh e he := h.lowHigh e (mem_induced.1 he).1
  within := induced_within L B
  simple := h.simple.filter _
  nonneg := induced_nonneg h.nonneg B

/-! ### least elements -/

theorem firstElem_mem {B : Finset ℕ} (h : B.Nonempty) : firstElem B ∈ B := by
  unfold firstElem; rw [dif_pos h]; exact B.min'_mem h

theorem firstElem_le {B : Finset ℕ} {j : ℕ} (hj : j ∈ B) : firstElem B ≤ j := by
  have h : B.Nonempty := ⟨j, hj⟩
  unfold firstElem; rw [dif_pos h]; exact B.min'_le j hj

theorem Rep.firstElem_group (h : Rep E V u g φ) {i : ℕ} (hi : i ∈ g.nodes) :
    firstElem (pullB φ V {i}) = i := by
  have hm : i ∈ pullB φ V {i} := mem_pullB.2 ⟨h.sub i hi, by simp [h.fix i hi]⟩
  apply le_antisymm (firstElem_le hm)
  have := mem_pullB.1 (firstElem_mem ⟨i, hm⟩)
  have h2 := h.le _ this.1
  rw [Finset.mem_singleton.1 this.2] at h2
  exact h2

/-! ### good trees -/

/-- A finished part of the tree: at the value of a node both its own set and the partition into its
children's sets are optimal in the subgraph induced by the set, and values do not decrease towards
the leaves (they increase if `M`). -/
inductive Good (M : Prop) (E : List Arc) : PTree → Prop
  | leaf (v : ℕ) : Good M E (.leaf {v})
  | node (K : CSet) (l : ℚ) (ch : List PTree) (hch : ∀ c ∈ ch, Good M E c)
      (hval : ∀ c ∈ ch, ∀ m, c.val = some m → l ≤ m ∧ (M → l < m)) (hlen : 2 ≤ ch.length)
      (hnd : (ch.map PTree.K).Nodup)
      (hopt : IsOptimal (induced E K) K l (ch.map PTree.K).toFinset)
      (htop : IsOptimal (induced E K) K l {K}) : Good M E (.node K (some l) ch)

theorem isOptimal_singleton (E : List Arc) (v : ℕ) (lam : ℚ) : IsOptimal E {v} lam {{v}} := by
  have hp : IsPartition {v} {({v} : Finset ℕ)} := isPartition_single (by simp)
  refine ⟨hp, fun R hR => ?_⟩
  have h1 := hR.card_le
  have h2 := hR.card_pos (by simp)
  rw [hR.eq_single_of_card (by simp at h1; omega)]

theorem Good.nonempty {t : PTree} (h : Good M E t) : t.K.Nonempty := by
  cases h with
  | leaf v => exact ⟨v, by simp [PTree.K]⟩
  | node K l ch _ _ _ _ _ htop => exact htop.1.nonempty (by simp [PTree.K])

/-- Below its value, the set of a good tree wants to stay together. -/
theorem Good.single {t : PTree} (h : Good M E t) {lam : ℚ} (hle : ∀ m, t.val = some m → lam ≤ m) :
    IsOptimal (induced E t.K) t.K lam {t.K} := by
  have hne := h.nonempty
  cases h with
  | leaf v => exact isOptimal_singleton _ v lam
  | node K l ch _ _ _ _ _ htop => exact htop.single_of_le hne (hle l rfl)

/-! ### the children of a node -/

/-- `ch` are the tree nodes standing for the nodes `I` of the contracted graph. -/
structure Kids (φ : ℕ → ℕ) (V I : Finset ℕ) (ch : List PTree) : Prop where
  nodup : (ch.map PTree.K).Nodup
  eq : (ch.map PTree.K).toFinset = pull φ V (singletons I)

theorem mem_pull_singletons {A : Finset ℕ} :
    A ∈ pull φ V (singletons I) ↔ ∃ i ∈ I, pullB φ V {i} = A := by
  simp [pull, singletons]

theorem Kids.mem {ch : List PTree} (h : Kids φ V I ch) {c : PTree} (hc : c ∈ ch) :
    ∃ i ∈ I, pullB φ V {i} = c.K := by
  rw [← mem_pull_singletons, ← h.eq]
  exact List.mem_toFinset.2 (List.mem_map_of_mem hc)

theorem Kids.exists {ch : List PTree} (h : Kids φ V I ch) {i : ℕ} (hi : i ∈ I) :
    ∃ c ∈ ch, c.K = pullB φ V {i} := by
  have : pullB φ V {i} ∈ (ch.map PTree.K).toFinset := by
    rw [h.eq]; exact mem_pull_singletons.2 ⟨i, hi, rfl⟩
  obtain ⟨c, hc, he⟩ := List.mem_map.1 (List.mem_toFinset.1 this)
  exact ⟨c, hc, he⟩

theorem Kids.length {ch : List PTree} (h : Kids φ V I ch) (ho : Onto φ V I) :
    ch.length = I.card := by
  rw [← List.length_map (f := PTree.K), ← List.toFinset_card_of_nodup h.nodup, h.eq,
    card_pull ho (isPartition_singletons I), card_singletons]

theorem Kids.ids {ch : List PTree} (h : Kids φ V I ch) (hr : Rep E V u g φ)
    (hI : I ⊆ g.nodes.toFinset) : (ch.map fun c => firstElem c.K).toFinset = I := by
  ext i
  rw [List.mem_toFinset, List.mem_map]
  constructor
  · rintro ⟨c, hc, rfl⟩
    obtain ⟨j, hj, he⟩ := h.mem hc
    rw [← he, hr.firstElem_group (List.mem_toFinset.1 (hI hj))]
    exact hj
  · intro hi
    obtain ⟨c, hc, he⟩ := h.exists hi
    exact ⟨c, hc, by rw [he, hr.firstElem_group (List.mem_toFinset.1 (hI hi))]⟩

/-- What `split` needs to know about the children. -/
def Pre (M : Prop) (E : List Arc) (φ : ℕ → ℕ) (V I : Finset ℕ) (ch : List PTree) : Prop :=
  ∃ mu : ℚ, (∀ c ∈ ch, ∀ m, c.val = some m → mu ≤ m) ∧
    IsOptimal (induced E (pullB φ V I)) (pullB φ V I) mu (pull φ V (singletons I)) ∧
    (M → (∀ c ∈ ch, ∀ m, c.val = some m → mu < m) ∨
      ∀ R, IsOptimal (induced E (pullB φ V I)) (pullB φ V I) mu R → Refines R (pull φ V (singletons I)))

/-- The state after `split`: the graph was only contracted inside `I`, and the tree node is good. -/
structure Post (M : Prop) (E : List Arc) (u : ℚ) (V I : Finset ℕ) (φ : ℕ → ℕ) (g' : Digraph)
    (φ' : ℕ → ℕ) (I' : Finset ℕ) (ch' : List PTree) : Prop where
  rep : Rep E V u g' φ'
  sub : I' ⊆ I
  nodes : I' ⊆ g'.nodes.toFinset
  kids : Kids φ' V I' ch'
  out : ∀ v ∈ V, φ v ∉ I → φ' v = φ v
  inn : ∀ v ∈ V, φ v ∈ I → φ' v ∈ I'
  good : ∀ c ∈ ch', Good M E c

theorem Post.pullB_eq {g' : Digraph} {φ' : ℕ → ℕ} {I' : Finset ℕ} {ch' : List PTree}
    (h : Post M E u V I φ g' φ' I' ch') : pullB φ' V I' = pullB φ V I := by
  ext v
  rw [mem_pullB, mem_pullB]
  constructor
  · rintro ⟨h1, h2⟩
    refine ⟨h1, ?_⟩
    by_contra h3
    rw [h.out v h1 h3] at h2
    exact h3 (h.sub h2)
  · rintro ⟨h1, h2⟩
    exact ⟨h1, h.inn v h1 h2⟩

theorem Post.trans {g1 g2 : Digraph} {φ1 φ2 : ℕ → ℕ} {I1 I2 : Finset ℕ} {ch1 ch2 : List PTree}
    (h1 : Post M E u V I φ g1 φ1 I1 ch1) (h2 : Post M E u V I1 φ1 g2 φ2 I2 ch2) :
    Post M E u V I φ g2 φ2 I2 ch2 where
  rep := h2.rep
  sub := h2.sub.trans h1.sub
  nodes := h2.nodes
  kids := h2.kids
  out v hv hn := by
    have e1 := h1.out v hv hn
    rw [h2.out v hv (by rw [e1]; exact fun h => hn (h1.sub h)), e1]
  inn v hv hi := h2.inn v hv (h1.inn v hv hi)
  good := h2.good

theorem weightTotal_eq {ns : List ℕ} (hlh : ∀ e ∈ L, e.src < e.dst) :
    weightTotal L ns = crossWeight (induced L ns.toFinset) (singletons ns.toFinset) := by
  unfold weightTotal crossWeight
  have : (L.filter fun a => a.src ∈ ns ∧ a.dst ∈ ns) = induced L ns.toFinset := by
    unfold induced
    apply List.filter_congr
    intro a _
    simp
  rw [this]
  congr 1
  apply List.map_congr_left
  intro e he
  rw [if_neg]
  rintro ⟨B, hB, h1, h2⟩
  obtain ⟨v, _, rfl⟩ := Finset.mem_image.1 hB
  have := hlh e (mem_induced.1 he).1
  rw [Finset.mem_singleton.1 h1, Finset.mem_singleton.1 h2] at this
  omega

theorem eq_single_of_refines (hQ : IsPartition V Q) (h : Refines {V} Q) (hV : V.Nonempty) :
    Q = {V} := Refines.antisymm hQ (isPartition_single hV) (refines_single hQ) h

theorem single_ne_singletons (h : 2 ≤ I.card) : ({I} : Partition) ≠ singletons I := by
  intro he
  have := congrArg Finset.card he
  rw [card_singletons, Finset.card_singleton] at this
  omega

theorem singletons_of_refines (hQ : IsPartition I Q) (h : Refines Q (singletons I)) :
    Q = singletons I := Refines.antisymm hQ (isPartition_singletons I) h (singletons_refines hQ)

/-- When both the one-block partition and the singletons are optimal in the contracted graph, the
value is right. -/
theorem finish (hE : NonnegE E) (hW : Within E V) (hr : Rep E V u g φ) (hI : I ⊆ g.nodes.toFinset)
    (h2 : 2 ≤ I.card) {ch : List PTree} (hk : Kids φ V I ch) (hg : ∀ c ∈ ch, Good M E c)
    (hpre : Pre M E φ V I ch) {γ : ℚ} (ho1 : IsOptimal (induced g.arcs I) I γ {I})
    (ho2 : IsOptimal (induced g.arcs I) I γ (singletons I)) :
    Good M E (.node (pullB φ V I) (some γ) ch) := by
  obtain ⟨mu, hmu, hmo, hst⟩ := hpre
  have hon := hr.onto hI
  have hmd := hr.opt_down hW hI (isPartition_singletons I) hmo
  have hle : γ ≤ mu := by
    by_contra hlt
    push Not at hlt
    exact single_ne_singletons h2 (singletons_of_refines ho1.1
      (hmd.refines (induced_nonneg hr.good.nonneg _) ho1 hlt))
  have hgr : ∀ A ∈ pull φ V (singletons I), IsOptimal (induced E A) A γ {A} := by
    intro A hA
    obtain ⟨i, hi, rfl⟩ := mem_pull_singletons.1 hA
    obtain ⟨c, hc, he⟩ := hk.exists hi
    rw [← he]
    exact (hg c hc).single fun m hm => hle.trans (hmu c hc m hm)
  have htop := hr.opt_up hE hW hI ho1 hgr
  refine Good.node _ _ _ hg ?_ ?_ hk.nodup ?_ ?_
  · intro c hc m hm
    refine ⟨hle.trans (hmu c hc m hm), fun h => ?_⟩
    rcases hst h with hs | hs
    · exact lt_of_le_of_lt hle (hs c hc m hm)
    · refine lt_of_lt_of_le (lt_of_le_of_ne hle fun he => ?_) (hmu c hc m hm)
      have h1 := hs _ (he ▸ htop)
      exact single_ne_singletons h2 (singletons_of_refines ho1.1 ((refines_pull hon ho1.1).1 h1))
  · rw [hk.length hon]; exact h2
  · rw [hk.eq]; exact hr.opt_up hE hW hI ho2 hgr
  · rwa [pull_single] at htop

/-- The value of a good tree node over a block of an optimal partition. -/
theorem good_value (hE : NonnegE E) {U : Finset ℕ} {γ l : ℚ}
    (hP : IsOptimal (induced E U) U γ P)
    (hfin : F → ∀ R, IsOptimal (induced E U) U γ R → Refines P R) {K : CSet} (hK : K ∈ P) {ch : List PTree}
    (hg : Good M E (.node K (some l) ch)) : γ ≤ l ∧ (F → γ < l) := by
  have hE' := induced_nonneg hE U
  have hW := induced_within E U
  cases hg with
  | node _ _ _ hch hval hlen hnd hopt htop =>
    have hKne := hP.1.nonempty hK
    rw [← induced_induced (hP.1.subset hK)] at hopt htop
    have hne : (ch.map PTree.K).toFinset ≠ {K} := by
      intro he
      have := congrArg Finset.card he
      rw [List.toFinset_card_of_nodup hnd, List.length_map, Finset.card_singleton] at this
      omega
    have hle : γ ≤ l := by
      by_contra hlt
      push Not at hlt
      exact hne (eq_single_of_refines hopt.1
        (hopt.refines (induced_nonneg hE' _) (hP.block hW hK) hlt) hKne)
    refine ⟨hle, fun hM => lt_of_le_of_ne hle ?_⟩
    rintro rfl
    have hglue : IsOptimal (induced E U) U γ (P.biUnion fun C => if C = K then (ch.map PTree.K).toFinset else {C}) := by
      apply hP.glue hE' hW le_rfl
      intro C hC
      by_cases hCK : C = K
      · simp only [hCK, if_true]; exact hopt
      · simp only [hCK, if_false]; exact hP.block hW hC
    obtain ⟨D, hD, hsub⟩ := hfin hM _ hglue K hK
    obtain ⟨C, hC, hDC⟩ := Finset.mem_biUnion.1 hD
    by_cases hCK : C = K
    · simp only [hCK, if_true] at hDC
      apply hne
      apply eq_single_of_refines hopt.1 _ hKne
      intro B hB
      rw [Finset.mem_singleton.1 hB]
      exact ⟨D, hDC, hsub⟩
    · simp only [hCK, if_false, Finset.mem_singleton] at hDC
      subst hDC
      obtain ⟨v, hv⟩ := hKne
      exact hCK (hP.1.eq_of_mem hC hK (hsub hv) hv)

/-! ### extremal partitions -/

/-- Partitions of the blocks, compared block by block. -/
theorem refines_of_biUnion {U : Finset ℕ} (hP : IsPartition U P) {X Y : Finset ℕ → Partition}
    (hX : ∀ C ∈ P, IsPartition C (X C)) (hY : ∀ C ∈ P, IsPartition C (Y C))
    (h : Refines (P.biUnion X) (P.biUnion Y)) {K : Finset ℕ} (hK : K ∈ P) : Refines (X K) (Y K) := by
  intro B hB
  obtain ⟨D, hD, hBD⟩ := h B (Finset.mem_biUnion.2 ⟨K, hK, hB⟩)
  obtain ⟨C, hC, hDC⟩ := Finset.mem_biUnion.1 hD
  obtain ⟨v, hv⟩ := (hX K hK).nonempty hB
  have : C = K := hP.eq_of_mem hC hK ((hY C hC).subset hDC (hBD hv)) ((hX K hK).subset hB hv)
  exact ⟨D, this ▸ hDC, hBD⟩

theorem NoBetween.block {U : Finset ℕ} (hE : NonnegE E) (hW : Within E U) (h : NoBetween E U) {lam0 : ℚ}
    (hP : IsOptimal E U lam0 P) {K : Finset ℕ} (hK : K ∈ P) : NoBetween (induced E K) K := by
  intro lam R hR
  rcases lt_or_ge lam lam0 with hlt | hge
  · left
    intro R' hR'
    have h1 := hR'.refines (induced_nonneg hE K) (hP.block hW hK) hlt
    intro B hB
    obtain ⟨C, hC, hKC⟩ := h1 K (Finset.mem_singleton_self K)
    exact ⟨C, hC, (hR.1.subset hB).trans hKC⟩
  · choose X hX using fun C : Finset ℕ => exists_optimal (induced E C) C lam
    have hglue : ∀ R', IsOptimal (induced E K) K lam R' →
        (∀ C ∈ P, IsOptimal (induced E C) C lam (if C = K then R' else X C)) := by
      intro R' hR' C _
      by_cases hCK : C = K
      · rw [if_pos hCK, hCK]; exact hR'
      · rw [if_neg hCK]; exact hX C
    have hg := fun R' hR' => hP.glue hE hW hge (hglue R' hR')
    have hpt := fun R' hR' C hC => (hglue R' hR' C hC).1
    have hK' : ∀ R', (if K = K then R' else X K) = R' := fun R' => if_pos rfl
    refine (h lam _ (hg R hR)).imp (fun hf R' hR' => ?_) fun hc R' hR' => ?_
    · have := refines_of_biUnion hP.1 (hpt R hR) (hpt R' hR') (hf _ (hg R' hR')) hK
      rwa [hK', hK'] at this
    · have := refines_of_biUnion hP.1 (hpt R' hR') (hpt R hR) (hc _ (hg R' hR')) hK
      rwa [hK', hK'] at this

/-- If `R` is the coarsest optimal partition, so are its restrictions to the blocks of a partition that is optimal
at a smaller parameter. -/
theorem coarsest_part {U : Finset ℕ} (hE : NonnegE E) (hW : Within E U) {γ mu : ℚ} (hle : γ ≤ mu)
    (hP : IsOptimal E U γ P) (hR : IsOptimal E U mu R) (href : Refines R P)
    (hc : ∀ Q, IsOptimal E U mu Q → Refines Q R) {K : Finset ℕ} (hK : K ∈ P) :
    ∀ Q, IsOptimal (induced E K) K mu Q → Refines Q (part R K) := by
  intro Q hQ
  have hgl : ∀ C ∈ P, IsOptimal (induced E C) C mu (if C = K then Q else part R C) := by
    intro C hC
    by_cases hCK : C = K
    · rw [if_pos hCK, hCK]; exact hQ
    · rw [if_neg hCK]; exact hR.part hW hP.1 href hC
  have h1 := hc _ (hP.glue hE hW hle hgl)
  have h1 : Refines (P.biUnion fun C => if C = K then Q else part R C) (P.biUnion (part R)) := by
    rw [biUnion_part href]; exact h1
  have h2 := refines_of_biUnion hP.1 (fun C hC => (hgl C hC).1) (fun C hC => part_isPartition hP.1 hR.1 href hC) h1 hK
  rwa [if_pos rfl] at h2

/-! ### the loop over the blocks -/

/-- `ord` lists the blocks of a partition, in some order, without repetition. -/
def Enumerates (ord : Partition → List CSet) : Prop := ∀ P, (ord P).Nodup ∧ (ord P).toFinset = P

theorem kids_split {ch : List PTree} (hr : Rep E V u g φ) (hI : I ⊆ g.nodes.toFinset)
    (hk : Kids φ V I ch) {B : Finset ℕ} (hB : B ⊆ I) :
    Kids φ V B (ch.filter fun c => ¬ Disjoint c.K B) ∧
    Kids φ V (I \ B) (ch.filter fun c => Disjoint c.K B) := by
  have hdis : ∀ i ∈ I, ¬ Disjoint (pullB φ V {i}) B ↔ i ∈ B := by
    intro i hi
    have hin := List.mem_toFinset.1 (hI hi)
    rw [Finset.not_disjoint_iff]
    constructor
    · rintro ⟨j, hj, hjB⟩
      have h1 := (mem_pullB.1 hj).2
      rw [Finset.mem_singleton, hr.fix j (List.mem_toFinset.1 (hI (hB hjB)))] at h1
      exact h1 ▸ hjB
    · intro hiB
      exact ⟨i, mem_pullB.2 ⟨hr.sub i hin, by simp [hr.fix i hin]⟩, hiB⟩
  have hsub : ∀ (p : PTree → Bool), ((ch.filter p).map PTree.K).Nodup := fun p =>
    hk.nodup.sublist (List.filter_sublist.map _)
  constructor
  · refine ⟨hsub _, ?_⟩
    ext A
    rw [List.mem_toFinset, List.mem_map, mem_pull_singletons]
    constructor
    · rintro ⟨c, hc, rfl⟩
      rw [List.mem_filter] at hc
      obtain ⟨i, hi, he⟩ := hk.mem hc.1
      refine ⟨i, ?_, he⟩
      rw [← hdis i hi, he]
      simpa using hc.2
    · rintro ⟨i, hi, rfl⟩
      obtain ⟨c, hc, he⟩ := hk.exists (hB hi)
      refine ⟨c, List.mem_filter.2 ⟨hc, ?_⟩, he⟩
      rw [he]
      simpa using (hdis i (hB hi)).2 hi
  · refine ⟨hsub _, ?_⟩
    ext A
    rw [List.mem_toFinset, List.mem_map, mem_pull_singletons]
    constructor
    · rintro ⟨c, hc, rfl⟩
      rw [List.mem_filter] at hc
      obtain ⟨i, hi, he⟩ := hk.mem hc.1
      refine ⟨i, ?_, he⟩
      rw [Finset.mem_sdiff]
      refine ⟨hi, fun hiB => ?_⟩
      rw [← hdis i hi, he] at hiB
      exact hiB (by simpa using hc.2)
    · rintro ⟨i, hi, rfl⟩
      rw [Finset.mem_sdiff] at hi
      obtain ⟨c, hc, he⟩ := hk.exists hi.1
      refine ⟨c, List.mem_filter.2 ⟨hc, ?_⟩, he⟩
      rw [he]
      have := mt (hdis i hi.1).1 hi.2
      rw [not_not] at this
      simpa using this

theorem Kids.reverse {ch : List PTree} (h : Kids φ V I ch) : Kids φ V I ch.reverse where
  nodup := by rw [List.map_reverse, List.nodup_reverse]; exact h.nodup
  eq := by rw [List.map_reverse, List.toFinset_reverse, h.eq]

theorem foldr_union (l : List CSet) : ∀ v, v ∈ l.foldr (· ∪ ·) ∅ ↔ ∃ A ∈ l, v ∈ A := by
  induction l with
  | nil => simp
  | cons A l ih => intro v; rw [List.foldr_cons, Finset.mem_union, ih]; simp

theorem Kids.union {ch : List PTree} (h : Kids φ V I ch) (ho : Onto φ V I) :
    I ∪ (ch.map PTree.K).foldr (· ∪ ·) ∅ = pullB φ V I := by
  ext v
  rw [Finset.mem_union, foldr_union, mem_pullB]
  constructor
  · rintro (hv | ⟨A, hA, hvA⟩)
    · exact mem_pullB.1 (ho.mem subset_rfl hv)
    · obtain ⟨c, hc, rfl⟩ := List.mem_map.1 hA
      obtain ⟨i, hi, he⟩ := h.mem hc
      rw [← he, mem_pullB, Finset.mem_singleton] at hvA
      exact ⟨hvA.1, hvA.2 ▸ hi⟩
  · rintro ⟨hv, hi⟩
    obtain ⟨c, hc, he⟩ := h.exists hi
    exact Or.inr ⟨c.K, List.mem_map_of_mem hc, he ▸ mem_pullB.2 ⟨hv, by simp⟩⟩

/-! ### the arrays of `HPSP` describe the tree of `PSP_I` -/

/-- The arrays `W` and `K` describe the tree: for every child of an inner node, except the one
containing the least element, the entry at its least element holds the value of the node and the least
element of the node. -/
inductive Enc (st : HState) : PTree → Prop
  | leaf (A : CSet) : Enc st (.leaf A)
  | node (A : CSet) (l : ℚ) (ch : List PTree) (hch : ∀ c ∈ ch, Enc st c)
      (hval : ∀ c ∈ ch, firstElem c.K ≠ firstElem A →
        st.W (firstElem c.K) = l ∧ st.K (firstElem c.K) = firstElem A) :
      Enc st (.node A (some l) ch)

/-- Only the entries of the elements other than the least one matter. -/
theorem Enc.congr {st st' : HState} {t : PTree} (hg : Good M E t) (h : Enc st t)
    (hs : ∀ n ∈ t.K, n ≠ firstElem t.K → st'.W n = st.W n ∧ st'.K n = st.K n) : Enc st' t := by
  induction hg with
  | leaf v => exact Enc.leaf _
  | node K l ch hch hval hlen hnd hopt htop ih =>
    cases h with
    | node _ _ _ henc hv =>
    have hsub : ∀ c ∈ ch, c.K ⊆ K := fun c hc =>
      hopt.1.subset (List.mem_toFinset.2 (List.mem_map_of_mem hc))
    have hmem : ∀ c ∈ ch, firstElem c.K ∈ c.K := fun c hc => firstElem_mem (hch c hc).nonempty
    refine Enc.node _ _ _ (fun c hc => ih c hc (henc c hc) fun n hn hne => ?_) fun c hc hne => ?_
    · apply hs n (hsub c hc hn)
      rintro rfl
      apply hne
      exact le_antisymm (firstElem_le (hsub c hc (hmem c hc))) (firstElem_le hn)
    · obtain ⟨h1, h2⟩ := hs _ (hsub c hc (hmem c hc)) hne
      rw [h1, h2]
      exact hv c hc hne

theorem Rep.firstElem_pullB (hr : Rep E V u g φ) {B : Finset ℕ} (hB : B ⊆ g.nodes.toFinset)
    (hne : B.Nonempty) : firstElem (pullB φ V B) = firstElem B := by
  have h1 := firstElem_mem hne
  have h2 := List.mem_toFinset.1 (hB h1)
  have h3 : firstElem B ∈ pullB φ V B := mem_pullB.2 ⟨hr.sub _ h2, by rw [hr.fix _ h2]; exact h1⟩
  apply le_antisymm (firstElem_le h3)
  have h4 := mem_pullB.1 (firstElem_mem ⟨_, h3⟩)
  exact (firstElem_le h4.2).trans (hr.le _ h4.1)

/-- Elements of a child other than its representative are not nodes of the contracted graph. -/
theorem Kids.not_mem {ch : List PTree} (h : Kids φ V I ch) (hr : Rep E V u g φ)
    (hI : I ⊆ g.nodes.toFinset) {c : PTree} (hc : c ∈ ch) {n : ℕ} (hn : n ∈ c.K)
    (hne : n ≠ firstElem c.K) : n ∉ I := by
  intro hnI
  obtain ⟨i, hi, he⟩ := h.mem hc
  rw [← he, hr.firstElem_group (List.mem_toFinset.1 (hI hi))] at hne
  rw [← he, mem_pullB, Finset.mem_singleton, hr.fix n (List.mem_toFinset.1 (hI hnI))] at hn
  exact hne hn.2

/-! ### split with any way to decide -/

/-- What `split` decides from the arcs, the nodes and their number: a partition, or that the value is final. -/
abbrev Decide := List Arc → List ℕ → ℕ → Option Partition

/-- `pspiSplit` with any way to decide. -/
def pspiSplitO (dec : Decide) (ε : ℚ) (ord : Partition → List CSet) :
    ℕ → Digraph → List PTree → Outcome (Digraph × Option ℚ × List PTree)
  | 0, _, _ => .fuel
  | k + 1, g, ch =>
    let ids : CSet := (ch.map fun c => firstElem c.K).toFinset
    let ns := subNodes g ids
    if ch.length = 1 then .ok (g, none, ch)
    else
      let γ := weightTotal g.arcs ns / ((ch.length : ℚ) - 1)
      if ch.length = 2 then .ok (g, some γ, ch)
      else match dec g.arcs ns ch.length with
        | none => .ok (g, some γ, ch)
        | some P => do
          let x ← pspiBlocks ε (pspiSplitO dec ε ord k) (ord P) g ch
          pspiSplitO dec ε ord k x.1 x.2

/-- `hpspSplit` with any way to decide. -/
def hpspSplitO (dec : Decide) (ε : ℚ) (ord : Partition → List CSet) :
    ℕ → Digraph → HState → ℕ → CSet → Outcome (Digraph × HState)
  | 0, _, _, _, _ => .fuel
  | k + 1, g, st, s, children =>
    let ns := subNodes g children
    if children.card = 1 then .nan
    else
      let γ := weightTotal g.arcs ns / ((children.card : ℚ) - 1)
      if children.card = 2 then .ok (g, st.assign children γ s)
      else match dec g.arcs ns children.card with
        | none => .ok (g, st.assign children γ s)
        | some P => do
          let x ← hpspBlocks ε (hpspSplitO dec ε ord k) (ord P) g st ∅
          hpspSplitO dec ε ord k x.1 x.2.1 s x.2.2

/-- What the code decides with exact arithmetic. -/
def decideI (S : FlowSolver) (ε : ℚ) : Decide := fun arcs ns m =>
  let γ := weightTotal arcs ns / ((m : ℚ) - 1)
  let r := dilworthI S arcs γ ns
  if splitDone ε γ m r then none else some r.2

theorem pspiSplit_eq (S : FlowSolver) (ε : ℚ) (ord : Partition → List CSet) (k : ℕ) :
    pspiSplit S ε ord k = pspiSplitO (decideI S ε) ε ord k := by
  induction k with
  | zero => rfl
  | succ k ih =>
    funext g ch
    rw [pspiSplit, pspiSplitO, ih]
    dsimp only [decideI]
    repeat' split
    all_goals simp_all

theorem hpspSplit_eq (S : FlowSolver) (ε : ℚ) (ord : Partition → List CSet) (k : ℕ) :
    hpspSplit S ε ord k = hpspSplitO (decideI S ε) ε ord k := by
  induction k with
  | zero => rfl
  | succ k ih =>
    funext g st s ch
    rw [hpspSplit, hpspSplitO, ih]
    dsimp only [decideI]
    repeat' split
    all_goals simp_all

/-- The decisions are right. -/
def DecideSpec (M1 : Prop) (dec : Decide) (E : List Arc) (V : Finset ℕ) (u : ℚ) : Prop :=
  ∀ (g : Digraph) (φ : ℕ → ℕ) (I : Finset ℕ) (γ : ℚ), Rep E V u g φ → I ⊆ g.nodes.toFinset → 3 ≤ I.card →
    γ = weightTotal g.arcs (subNodes g I) / ((I.card : ℚ) - 1) →
    (dec g.arcs (subNodes g I) I.card = none → IsOptimal (induced g.arcs I) I γ {I}) ∧
    ∀ P, dec g.arcs (subNodes g I) I.card = some P → IsOptimal (induced g.arcs I) I γ P ∧ P.card ≠ 1 ∧
      P.card ≠ I.card ∧ (M1 → ∀ R, IsOptimal (induced g.arcs I) I γ R → Refines P R)

theorem subNodes_toFinset (hI : I ⊆ g.nodes.toFinset) : (subNodes g I).toFinset = I := by
  ext i
  rw [List.mem_toFinset, subNodes, List.mem_filter]
  simp only [decide_eq_true_eq]
  exact ⟨fun h => h.2, fun h => ⟨List.mem_toFinset.1 (hI h), h⟩⟩

/-- At the value `split` computes, the two trivial partitions have the same cost. -/
theorem cost_trivial (hr : Rep E V u g φ) (hI : I ⊆ g.nodes.toFinset) (h2 : 2 ≤ I.card) {γ : ℚ}
    (hγ : γ = weightTotal g.arcs (subNodes g I) / ((I.card : ℚ) - 1)) :
    cost (induced g.arcs I) γ (singletons I) = -γ ∧ cost (induced g.arcs I) γ {I} = -γ := by
  have hwt : weightTotal g.arcs (subNodes g I) = crossWeight (induced g.arcs I) (singletons I) := by
    rw [weightTotal_eq hr.good.lowHigh, subNodes_toFinset hI]
  have hm1 : (0 : ℚ) < (I.card : ℚ) - 1 := by
    have : (2 : ℚ) ≤ I.card := by exact_mod_cast h2
    linarith
  constructor
  · unfold cost
    rw [card_singletons, ← hwt, hγ]
    field_simp
    ring
  · unfold cost
    rw [crossWeight_single (hr.good.induced I).within, Finset.card_singleton]
    push_cast
    ring

theorem decideI_spec {S : FlowSolver} (hS : S.Correct) (hε : 0 < ε) (hu : ε ≤ u)
    (hgap : ε * ((V.card : ℚ) - 1) < u) : DecideSpec S.Minimal (decideI S ε) E V u := by
  intro g φ I γ hr hI h3 hγ
  have hon := hr.onto hI
  set ns := subNodes g I with hns
  have hnsI : ns.toFinset = I := subNodes_toFinset hI
  have hsort : ns.Pairwise (· < ·) := hr.sorted.filter _
  set H := induced g.arcs I with hH
  have hHg : GoodGraph H I := hr.good.induced I
  have hIne : I.Nonempty := Finset.card_pos.1 (by omega)
  have hm1 : (0 : ℚ) < (I.card : ℚ) - 1 := by
    have : (3 : ℚ) ≤ I.card := by exact_mod_cast h3
    linarith
  obtain ⟨hcs, hc1⟩ := cost_trivial hr hI (by omega) hγ
  obtain ⟨hro, hrv, hrf⟩ := dilworthI_correct hS hsort (by rw [hnsI]; exact hHg) γ
  rw [hnsI] at hro hrf
  have hdi : dilworthI S g.arcs γ ns = dilworthI S H γ ns := by
    rw [dilworthI_induced, hnsI]
  unfold decideI
  dsimp only
  rw [← hγ, hdi]
  set r := dilworthI S H γ ns with hr'
  constructor
  · intro hnone
    have hdone : splitDone ε γ I.card r = true := by
      by_contra h
      rw [if_neg h] at hnone
      exact absurd hnone (by simp)
    unfold splitDone at hdone
    rw [decide_eq_true_eq] at hdone
    by_cases hk1 : r.2.card = 1
    · rwa [hro.1.eq_single_of_card hk1] at hro
    · by_cases hkm : r.2.card = I.card
      · rw [hro.1.eq_singletons_of_card hkm] at hro
        exact hro.of_cost_le (isPartition_single hIne) (by rw [hcs, hc1])
      · have hmin : ¬ r.1 < -γ - ε := fun h => hdone ⟨hk1, hkm, h⟩
        push Not at hmin
        rw [hrv] at hmin
        have hcV : (I.card : ℚ) ≤ V.card := by
          have : I ⊆ V := fun i hi => (hon i hi).1
          exact_mod_cast Finset.card_le_card this
        have hεI : ε * ((I.card : ℚ) - 1) < u := by nlinarith
        set ε' := u / ((I.card : ℚ) - 1) with hε'
        have hεε : ε < ε' := by rw [hε', lt_div_iff₀ hm1]; exact hεI
        refine gap (ε := ε') (lt_of_lt_of_le hε hu) (E := H)
          (fun e he => hr.gran e (mem_induced.1 he).1) hIne ?_ (hε.trans hεε)
          (isPartition_single hIne) (isPartition_singletons I)
          (by rw [card_singletons, Finset.card_singleton]; omega) (hc1.trans hcs.symm) ?_
        · rw [hε', div_mul_cancel₀ _ (ne_of_gt hm1)]
        · intro R hR
          have := hro.2 R hR
          rw [hc1]
          linarith
  · intro P hP
    have hnd : ¬ splitDone ε γ I.card r = true := by
      intro h
      rw [if_pos h] at hP
      exact absurd hP (by simp)
    rw [if_neg hnd, Option.some.injEq] at hP
    subst hP
    unfold splitDone at hnd
    rw [decide_eq_true_eq, not_not] at hnd
    exact ⟨hro, hnd.1, hnd.2.1, hrf⟩

/-! ### the loop over the blocks, continued -/

/-- What `HPSP::split` does next to `PSP_I::split`. -/
def HSim (dec : Decide) (ε : ℚ) (ord : Partition → List CSet) (k : ℕ) (g : Digraph)
    (I : Finset ℕ) (ch : List PTree) (g' : Digraph) (A : CSet) (l : ℚ) (ch' : List PTree) : Prop :=
  ∀ st : HState, (∀ c ∈ ch, Enc st c) → ∃ st', hpspSplitO dec ε ord k g st (firstElem I) I = .ok (g', st') ∧
    Enc st' (.node A (some l) ch') ∧ st'.W (firstElem I) = l ∧ st'.K (firstElem I) = firstElem I ∧
    ∀ n, n ∉ I → st'.W n = st.W n ∧ st'.K n = st.K n

/-- Specification of `split` at fuel `k`. -/
def SplitSpec (M M1 : Prop) (dec : Decide) (ε : ℚ) (ord : Partition → List CSet) (E : List Arc) (V : Finset ℕ)
    (u : ℚ) (k : ℕ) : Prop :=
  ∀ (g : Digraph) (φ : ℕ → ℕ) (I : Finset ℕ) (ch : List PTree), Rep E V u g φ →
    I ⊆ g.nodes.toFinset → 2 ≤ I.card → I.card ≤ k → Kids φ V I ch →
    (∀ c ∈ ch, Good M E c) → Pre M E φ V I ch → (M → M1 ∨ NoBetween (induced E (pullB φ V I)) (pullB φ V I)) →
    ∃ g' φ' I' ch' l, pspiSplitO dec ε ord k g ch = .ok (g', some l, ch') ∧
      Post M E u V I φ g' φ' I' ch' ∧
      Good M E (.node (pullB φ V I) (some l) ch') ∧
      HSim dec ε ord k g I ch g' (pullB φ V I) l ch'

theorem blocks_spec {dec : Decide} {ord : Partition → List CSet} {k : ℕ}
    (hE : NonnegE E) (hW : Within E V) (hε : 0 < ε) (hu : ε ≤ u)
    (hk : SplitSpec M M1 dec ε ord E V u k) {K : CSet} {γ mu : ℚ} {PP : Partition}
    (hPP : IsOptimal (induced E K) K γ PP)
    (hfin : F → ∀ R, IsOptimal (induced E K) K γ R → Refines PP R)
    (hnb : M → M1 ∨ NoBetween (induced E K) K) :
    ∀ (Bs : List CSet) (g : Digraph) (φ : ℕ → ℕ) (I : Finset ℕ) (ch : List PTree) (P : Partition),
      Rep E V u g φ → I ⊆ g.nodes.toFinset → Kids φ V I ch → (∀ c ∈ ch, Good M E c) →
      IsPartition I P → pull φ V P = PP → Bs.Nodup → (∀ B ∈ Bs, B ∈ P ∧ B.card ≤ k) →
      (∀ B ∈ P, B ∉ Bs → B.card = 1) →
      (∀ B ∈ Bs, IsOptimal (induced E (pullB φ V B)) (pullB φ V B) mu (pull φ V (singletons B))) →
      (∀ c ∈ ch, (∃ B ∈ Bs, c.K ⊆ pullB φ V B) → ∀ m, c.val = some m → mu ≤ m) →
      (M → (∀ c ∈ ch, (∃ B ∈ Bs, c.K ⊆ pullB φ V B) → ∀ m, c.val = some m → mu < m) ∨
        ∀ B ∈ Bs, ∀ R, IsOptimal (induced E (pullB φ V B)) (pullB φ V B) mu R → Refines R (pull φ V (singletons B))) →
      (∀ c ∈ ch, ∀ m, c.val = some m → γ ≤ m ∧ (F → γ < m)) →
      ∃ g' φ' I' ch', pspiBlocks ε (pspiSplitO dec ε ord k) Bs g ch = .ok (g', ch') ∧
        Post M E u V I φ g' φ' I' ch' ∧ pull φ' V (singletons I') = PP ∧
        (∀ c ∈ ch', ∀ m, c.val = some m → γ ≤ m ∧ (F → γ < m)) ∧
        ∀ (st : HState) (newS : CSet), (∀ c ∈ ch, Enc st c) →
          ∃ st', hpspBlocks ε (hpspSplitO dec ε ord k) Bs g st newS =
              .ok (g', st', newS ∪ (Bs.map firstElem).toFinset) ∧
            (∀ c ∈ ch', Enc st' c) ∧ ∀ n, n ∉ I → st'.W n = st.W n ∧ st'.K n = st.K n := by
  intro Bs
  induction Bs with
  | nil =>
    intro g φ I ch P hr hI hkids hgood hP hpull _ _ hone _ _ _ hγ
    refine ⟨g, φ, I, ch, by rw [pspiBlocks], ⟨hr, subset_rfl, hI, hkids, fun _ _ _ => rfl, fun _ _ h => h, hgood⟩,
      ?_, hγ, fun st newS hst => ⟨st, by rw [hpspBlocks]; simp, hst, fun n _ => ⟨rfl, rfl⟩⟩⟩
    have : P = singletons I := by
      apply singletons_of_refines hP
      intro B hB
      obtain ⟨i, rfl⟩ := Finset.card_eq_one.1 (hone B hB (by simp))
      exact ⟨{i}, Finset.mem_image_of_mem _ (hP.subset hB (by simp)), subset_rfl⟩
    rw [← this, hpull]
  | cons B Bs ih =>
    intro g φ I ch P hr hI hkids hgood hP hpull hnd hBs hone hmo hmv hms hγ
    have hBP := (hBs B List.mem_cons_self).1
    have hBI := hP.subset hBP
    have hBne := hP.nonempty hBP
    by_cases hc1 : B.card = 1
    · obtain ⟨g', φ', I', ch', he, hpost, hpp, hv, hsim⟩ := ih g φ I ch P hr hI hkids hgood hP hpull
        (List.nodup_cons.1 hnd).2 (fun C hC => hBs C (List.mem_cons_of_mem _ hC))
        (fun C hC hn => by
          by_cases hCB : C = B
          · rw [hCB]; exact hc1
          · exact hone C hC (by simp [hCB, hn]))
        (fun C hC => hmo C (List.mem_cons_of_mem _ hC))
        (fun c hc ⟨C, hC, hs⟩ => hmv c hc ⟨C, List.mem_cons_of_mem _ hC, hs⟩)
        (fun hM => (hms hM).imp (fun h c hc ⟨C, hC, hs⟩ => h c hc ⟨C, List.mem_cons_of_mem _ hC, hs⟩)
          fun h C hC => h C (List.mem_cons_of_mem _ hC)) hγ
      refine ⟨g', φ', I', ch', ?_, hpost, hpp, hv, fun st newS hst => ?_⟩
      · rw [pspiBlocks, if_pos hc1, he]
      · obtain ⟨st', h1, h2, h3⟩ := hsim st (insert (firstElem B) newS) hst
        refine ⟨st', ?_, h2, h3⟩
        rw [hpspBlocks, if_pos hc1, h1]
        congr 3
        ext v; simp
    · -- split the block
      have hBn : B ⊆ g.nodes.toFinset := hBI.trans hI
      obtain ⟨hk1, hk2⟩ := kids_split hr hI hkids hBI
      have hcard : 2 ≤ B.card := by
        have := Finset.card_pos.2 hBne
        omega
      set moved := ch.filter fun c => ¬ Disjoint c.K B with hmoved
      set rest := ch.filter fun c => Disjoint c.K B with hrest
      have hsubB : ∀ c ∈ moved.reverse, c ∈ ch ∧ ∃ C ∈ B :: Bs, c.K ⊆ pullB φ V C := by
        intro c hc
        have hc' := List.mem_reverse.1 hc
        refine ⟨(List.mem_filter.1 hc').1, B, List.mem_cons_self, ?_⟩
        obtain ⟨i, hi, he⟩ := hk1.mem hc'
        intro v hv
        rw [← he, mem_pullB, Finset.mem_singleton] at hv
        exact mem_pullB.2 ⟨hv.1, hv.2 ▸ hi⟩
      have hKB : pullB φ V B ∈ PP := by rw [← hpull]; exact Finset.mem_image_of_mem _ hBP
      obtain ⟨g1, φ1, I1, ch1, l, he1, hpost1, hgood1, hsim1⟩ := hk g φ B moved.reverse hr hBn hcard
        (hBs B List.mem_cons_self).2 hk1.reverse
        (fun c hc => hgood c (List.mem_filter.1 (List.mem_reverse.1 hc)).1)
        ⟨mu, fun c hc m hm => hmv c (hsubB c hc).1 (hsubB c hc).2 m hm, hmo B List.mem_cons_self,
          fun hM => (hms hM).imp (fun h c hc m hm => h c (hsubB c hc).1 (hsubB c hc).2 m hm)
            fun h => h B List.mem_cons_self⟩
        (fun hM => (hnb hM).imp id fun h => by
          have := NoBetween.block (induced_nonneg hE K) (induced_within E K) h hPP hKB
          rwa [induced_induced (hPP.1.subset hKB)] at this)
      -- contract
      set i := firstElem B with hi
      have hiB : i ∈ B := firstElem_mem hBne
      have hiV : i ∈ V := hr.sub i (List.mem_toFinset.1 (hBn hiB))
      have hiφ : φ i = i := hr.fix i (List.mem_toFinset.1 (hBn hiB))
      have hi1 : φ1 i = i := by
        apply le_antisymm (hpost1.rep.le i hiV)
        exact firstElem_le (hpost1.sub (hpost1.inn i hiV (by rw [hiφ]; exact hiB)))
      have hin : i ∈ g1.nodes := by rw [← hi1]; exact hpost1.rep.maps i hiV
      have hr2 := hpost1.rep.contract hW hu hε hiB hin fun j hj => firstElem_le hj
      set φ2 := collapse B i φ1 with hφ2
      set g2 := contract ε g1 B i with hg2
      -- the map after the step
      have hφin : ∀ v ∈ V, φ v ∈ B → φ2 v = i := by
        intro v hv hvB
        rw [hφ2]; unfold collapse
        rw [if_pos (hpost1.sub (hpost1.inn v hv hvB))]
      have hφout : ∀ v ∈ V, φ v ∉ B → φ2 v = φ v := by
        intro v hv hvB
        rw [hφ2]; unfold collapse
        rw [hpost1.out v hv hvB, if_neg hvB]
      set I2 : Finset ℕ := insert i (I \ B) with hI2
      have hpullB : ∀ C : Finset ℕ, Disjoint C B → pullB φ2 V C = pullB φ V C := by
        intro C hCB
        ext v
        rw [mem_pullB, mem_pullB]
        apply and_congr_right
        intro hv
        by_cases hvB : φ v ∈ B
        · rw [hφin v hv hvB]
          exact ⟨fun h => absurd hiB (Finset.disjoint_left.1 hCB h),
            fun h => absurd hvB (Finset.disjoint_left.1 hCB h)⟩
        · rw [hφout v hv hvB]
      have hpulli : pullB φ2 V {i} = pullB φ V B := by
        ext v
        rw [mem_pullB, mem_pullB, Finset.mem_singleton]
        apply and_congr_right
        intro hv
        by_cases hvB : φ v ∈ B
        · simp [hφin v hv hvB, hvB]
        · rw [hφout v hv hvB]
          exact ⟨fun h => absurd (h ▸ hiB) hvB, fun h => absurd h hvB⟩
      have hps : ∀ C : Finset ℕ, Disjoint C B →
          pull φ2 V (singletons C) = pull φ V (singletons C) := by
        intro C hCB
        ext A
        rw [mem_pull_singletons, mem_pull_singletons]
        constructor
        · rintro ⟨j, hj, rfl⟩
          exact ⟨j, hj, (hpullB {j} (by simpa using Finset.disjoint_left.1 hCB hj)).symm⟩
        · rintro ⟨j, hj, rfl⟩
          exact ⟨j, hj, hpullB {j} (by simpa using Finset.disjoint_left.1 hCB hj)⟩
      have hI2n : I2 ⊆ g2.nodes.toFinset := by
        intro j hj
        rw [List.mem_toFinset]
        rcases Finset.mem_insert.1 hj with rfl | hj
        · have := hr2.maps i hiV
          rwa [hφin i hiV (by rw [hiφ]; exact hiB)] at this
        · rw [Finset.mem_sdiff] at hj
          have hjn := List.mem_toFinset.1 (hI hj.1)
          have := hr2.maps j (hr.sub j hjn)
          rwa [hφout j (hr.sub j hjn) (by rw [hr.fix j hjn]; exact hj.2), hr.fix j hjn] at this
      set t : PTree := .node (pullB φ V B) (some l) ch1 with ht
      have hkids2 : Kids φ2 V I2 (t :: rest) := by
        constructor
        · rw [List.map_cons, List.nodup_cons]
          refine ⟨?_, hk2.nodup⟩
          intro hm
          obtain ⟨c, hc, he⟩ := List.mem_map.1 hm
          obtain ⟨j, hj, he'⟩ := hk2.mem hc
          rw [Finset.mem_sdiff] at hj
          have hjn := List.mem_toFinset.1 (hI hj.1)
          have h1 : j ∈ pullB φ V {j} := mem_pullB.2 ⟨hr.sub j hjn, by simp [hr.fix j hjn]⟩
          rw [he', he] at h1
          have h2 := (mem_pullB.1 h1).2
          rw [hr.fix j hjn] at h2
          exact hj.2 h2
        · rw [List.map_cons, List.toFinset_cons, hk2.eq, ← hps (I \ B) Finset.sdiff_disjoint]
          ext A
          rw [Finset.mem_insert, mem_pull_singletons, mem_pull_singletons, hI2]
          simp only [Finset.mem_insert, exists_eq_or_imp, hpulli, ht, PTree.K]
          exact or_congr_left ⟨fun h => h.symm, fun h => h.symm⟩
      have hval := good_value hE hPP hfin hKB hgood1
      have hK' : B ∪ (moved.map PTree.K).foldr (· ∪ ·) ∅ = pullB φ V B := hk1.union (hr.onto hBn)
      -- the partition after the step
      have hP2 : IsPartition I2 (insert {i} (P.erase B)) := by
        rw [isPartition_iff]
        refine ⟨?_, ?_, ?_⟩
        · intro C hC
          rcases Finset.mem_insert.1 hC with rfl | hC
          · exact ⟨by simp, by simp [hI2]⟩
          · have hC' := Finset.mem_of_mem_erase hC
            refine ⟨hP.nonempty hC', fun j hj => ?_⟩
            rw [hI2]
            refine Finset.mem_insert_of_mem (Finset.mem_sdiff.2 ⟨hP.subset hC' hj, fun hjB => ?_⟩)
            exact Finset.ne_of_mem_erase hC (hP.eq_of_mem hC' hBP hj hjB)
        · intro j hj
          rcases Finset.mem_insert.1 hj with rfl | hj
          · exact ⟨{i}, by simp, by simp⟩
          · rw [Finset.mem_sdiff] at hj
            obtain ⟨C, hC, hjC⟩ := hP.exists_block hj.1
            refine ⟨C, Finset.mem_insert_of_mem (Finset.mem_erase.2 ⟨?_, hC⟩), hjC⟩
            rintro rfl; exact hj.2 hjC
        · have hno : ∀ C ∈ P.erase B, i ∉ C := fun C hC hiC =>
            Finset.ne_of_mem_erase hC (hP.eq_of_mem (Finset.mem_of_mem_erase hC) hBP hiC hiB)
          intro C hC D hD v hv hv'
          rcases Finset.mem_insert.1 hC with rfl | hC <;> rcases Finset.mem_insert.1 hD with rfl | hD
          · rfl
          · rw [Finset.mem_singleton.1 hv] at hv'; exact absurd hv' (hno D hD)
          · rw [Finset.mem_singleton.1 hv'] at hv; exact absurd hv (hno C hC)
          · exact hP.eq_of_mem (Finset.mem_of_mem_erase hC) (Finset.mem_of_mem_erase hD) hv hv'
      have hdisB : ∀ C ∈ P, C ≠ B → Disjoint C B := fun C hC hne => hP.disjoint hC hBP hne
      have hpull2 : pull φ2 V (insert {i} (P.erase B)) = PP := by
        rw [← hpull]
        unfold pull
        rw [Finset.image_insert, hpulli]
        conv_rhs => rw [← Finset.insert_erase hBP, Finset.image_insert]
        congr 1
        apply Finset.image_congr
        intro C hC
        have hC := Finset.mem_erase.1 hC
        exact hpullB C (hdisB C hC.2 hC.1)
      have hBsne : ∀ C ∈ Bs, C ≠ B := fun C hC h => (List.nodup_cons.1 hnd).1 (h ▸ hC)
      have hBsdis : ∀ C ∈ Bs, Disjoint C B := fun C hC =>
        hdisB C (hBs C (List.mem_cons_of_mem _ hC)).1 (hBsne C hC)
      have hold : ∀ c ∈ t :: rest, (∃ C ∈ Bs, c.K ⊆ pullB φ2 V C) → c ∈ ch ∧ ∃ C ∈ B :: Bs, c.K ⊆ pullB φ V C := by
        rintro c hc ⟨C, hC, hs⟩
        rw [hpullB C (hBsdis C hC)] at hs
        rcases List.mem_cons.1 hc with rfl | hc
        · exfalso
          have h1 : i ∈ pullB φ V C := hs (mem_pullB.2 ⟨hiV, by rw [hiφ]; exact hiB⟩)
          have h2 := (mem_pullB.1 h1).2
          rw [hiφ] at h2
          exact Finset.disjoint_left.1 (hBsdis C hC) h2 hiB
        · exact ⟨(List.mem_filter.1 hc).1, C, List.mem_cons_of_mem _ hC, hs⟩
      obtain ⟨g', φ', I', ch', he, hpost, hpp, hv, hsim⟩ := ih g2 φ2 I2 (t :: rest) (insert {i} (P.erase B))
        hr2 hI2n hkids2
        (fun c hc => by
          rcases List.mem_cons.1 hc with rfl | hc
          · exact hgood1
          · exact hgood c (List.mem_filter.1 hc).1)
        hP2 hpull2 (List.nodup_cons.1 hnd).2
        (fun C hC => by
          obtain ⟨h1, h2⟩ := hBs C (List.mem_cons_of_mem _ hC)
          exact ⟨Finset.mem_insert_of_mem (Finset.mem_erase.2 ⟨hBsne C hC, h1⟩), h2⟩)
        (fun C hC hn => by
          rcases Finset.mem_insert.1 hC with rfl | hC
          · simp
          · exact hone C (Finset.mem_of_mem_erase hC) (by
              simp [Finset.ne_of_mem_erase hC, hn]))
        (fun C hC => by
          rw [hpullB C (hBsdis C hC), hps C (hBsdis C hC)]
          exact hmo C (List.mem_cons_of_mem _ hC))
        (fun c hc hs => hmv c (hold c hc hs).1 (hold c hc hs).2)
        (fun hM => (hms hM).imp (fun h c hc hs => h c (hold c hc hs).1 (hold c hc hs).2) fun h C hC => by
          rw [hpullB C (hBsdis C hC), hps C (hBsdis C hC)]
          exact h C (List.mem_cons_of_mem _ hC))
        (fun c hc m hm => by
          rcases List.mem_cons.1 hc with rfl | hc
          · rw [ht, PTree.val, Option.some.injEq] at hm
            rw [← hm]; exact hval
          · exact hγ c (List.mem_filter.1 hc).1 m hm)
      have hI2I : I2 ⊆ I := by
        rw [hI2]
        exact Finset.insert_subset (hBI hiB) Finset.sdiff_subset
      refine ⟨g', φ', I', ch', ?_, ?_, hpp, hv, ?_⟩
      · rw [pspiBlocks, if_neg hc1, ← hmoved]
        dsimp only
        rw [he1, Outcome.ok_bind, hK']
        exact he
      · refine ⟨hpost.rep, hpost.sub.trans hI2I, hpost.nodes, hpost.kids, ?_, ?_, hpost.good⟩
        · intro v hvV hvI
          have e := hφout v hvV fun h => hvI (hBI h)
          rw [hpost.out v hvV (by rw [e]; exact fun h => hvI (hI2I h)), e]
        · intro v hvV hvI
          apply hpost.inn v hvV
          by_cases hvB : φ v ∈ B
          · rw [hφin v hvV hvB, hI2]; simp
          · rw [hφout v hvV hvB, hI2]
            exact Finset.mem_insert_of_mem (Finset.mem_sdiff.2 ⟨hvI, hvB⟩)
      · intro st newS hst
        obtain ⟨st1, h1, h2, _, _, h3⟩ := hsim1 st fun c hc =>
          hst c (List.mem_filter.1 (List.mem_reverse.1 hc)).1
        obtain ⟨st', h4, h5, h6⟩ := hsim st1 (insert i newS) (fun c hc => by
          rcases List.mem_cons.1 hc with rfl | hc
          · exact h2
          · have hc' := (List.mem_filter.1 hc).1
            refine (hst c hc').congr (hgood c hc') fun n hn hne => h3 n fun hnB => ?_
            exact hkids.not_mem hr hI hc' hn hne (hBI hnB))
        refine ⟨st', ?_, h5, fun n hn => ?_⟩
        · rw [hpspBlocks, if_neg hc1, ← hi, h1, Outcome.ok_bind]
          dsimp only
          rw [h4]
          congr 3
          ext v; simp [hi]
        · obtain ⟨a, b⟩ := h6 n fun h => hn (hI2I h)
          obtain ⟨c, d⟩ := h3 n fun h => hn (hBI h)
          exact ⟨a.trans c, b.trans d⟩

/-! ### split -/

theorem part_pull (hP : IsPartition I P) {B : Finset ℕ} (hB : B ∈ P) (ho : Onto φ V I) :
    part (pull φ V (singletons I)) (pullB φ V B) = pull φ V (singletons B) := by
  ext A
  rw [mem_part, mem_pull_singletons, mem_pull_singletons]
  constructor
  · rintro ⟨⟨i, hi, rfl⟩, hsub⟩
    refine ⟨i, ?_, rfl⟩
    have h1 := hsub (ho.mem (by simpa using hi) (Finset.mem_singleton_self i))
    have h2 := (mem_pullB.1 h1).2
    rwa [(ho i hi).2] at h2
  · rintro ⟨i, hi, rfl⟩
    refine ⟨⟨i, hP.subset hB hi, rfl⟩, fun v hv => ?_⟩
    rw [mem_pullB, Finset.mem_singleton] at hv
    exact mem_pullB.2 ⟨hv.1, hv.2 ▸ hi⟩

theorem split_spec {dec : Decide} (hdec : DecideSpec M1 dec E V u) {ord : Partition → List CSet}
    (hord : Enumerates ord) (hE : NonnegE E) (hW : Within E V) (hε : 0 < ε) (hu : ε ≤ u) (k : ℕ) :
    SplitSpec M M1 dec ε ord E V u k := by
  induction k with
  | zero =>
    intro g φ I ch _ _ h2 hk
    omega
  | succ k ih =>
    intro g φ I ch hr hI h2 hcard hkids hgood hpre hnb
    have hon := hr.onto hI
    have hlen := hkids.length hon
    have hids := hkids.ids hr hI
    set ns := subNodes g I with hns
    have hnsI : ns.toFinset = I := by
      ext i
      rw [List.mem_toFinset, hns, subNodes, List.mem_filter]
      simp only [decide_eq_true_eq]
      exact ⟨fun h => h.2, fun h => ⟨List.mem_toFinset.1 (hI h), h⟩⟩
    have hsort : ns.Pairwise (· < ·) := hr.sorted.filter _
    set H := induced g.arcs I with hH
    have hHg : GoodGraph H I := hr.good.induced I
    have hIne : I.Nonempty := Finset.card_pos.1 (by omega)
    have hm1 : (0 : ℚ) < (I.card : ℚ) - 1 := by
      have : (2 : ℚ) ≤ I.card := by exact_mod_cast h2
      linarith
    set γ := weightTotal g.arcs ns / ((ch.length : ℚ) - 1) with hγ
    have hwt : weightTotal g.arcs ns = crossWeight H (singletons I) := by
      rw [weightTotal_eq hr.good.lowHigh, hnsI]
    have hcs : cost H γ (singletons I) = -γ := by
      unfold cost
      rw [card_singletons, ← hwt, hγ, hlen]
      field_simp
      ring
    have hc1 : cost H γ {I} = -γ := by
      unfold cost
      rw [crossWeight_single hHg.within, Finset.card_singleton]
      push_cast
      ring
    -- finishing
    have hfinish : (∀ st : HState, hpspSplitO dec ε ord (k + 1) g st (firstElem I) I =
          .ok (g, st.assign I γ (firstElem I))) → IsOptimal H I γ {I} → ∃ g' φ' I' ch' l,
        (Outcome.ok (g, some γ, ch) : Outcome (Digraph × Option ℚ × List PTree)) =
          .ok (g', some l, ch') ∧ Post M E u V I φ g' φ' I' ch' ∧
        Good M E (.node (pullB φ V I) (some l) ch') ∧
        HSim dec ε ord (k + 1) g I ch g' (pullB φ V I) l ch' := by
      intro hh ho
      refine ⟨g, φ, I, ch, γ, rfl, ⟨hr, subset_rfl, hI, hkids, fun _ _ _ => rfl, fun _ _ h => h,
        hgood⟩, ?_, ?_⟩
      · exact finish hE hW hr hI h2 hkids hgood hpre ho
          (ho.of_cost_le (isPartition_singletons I) (by rw [hcs, hc1]))
      · intro st hst
        have hfi := firstElem_mem hIne
        refine ⟨_, hh st, ?_, ?_, ?_, ?_⟩
        · refine Enc.node _ _ _ (fun c hc => (hst c hc).congr (hgood c hc) fun n hn hne => ?_)
            fun c hc hne => ?_
          · have := hkids.not_mem hr hI hc hn hne
            simp [HState.assign, this]
          · obtain ⟨i, hi, he⟩ := hkids.mem hc
            rw [← he, hr.firstElem_group (List.mem_toFinset.1 (hI hi)), hr.firstElem_pullB hI hIne]
            simp [HState.assign, hi]
        · simp [HState.assign, hfi]
        · simp [HState.assign, hfi]
        · intro n hn
          simp [HState.assign, hn]
    have hcardq : ((I.card : ℚ) - 1) = (ch.length : ℚ) - 1 := by rw [hlen]
    rw [pspiSplitO]
    dsimp only
    rw [hids, ← hns, if_neg (by omega)]
    by_cases hl2 : ch.length = 2
    · rw [if_pos hl2]
      apply hfinish
      · intro st
        rw [hpspSplitO]
        dsimp only
        rw [← hns, if_neg (by omega), if_pos (by omega), hcardq]
      refine ⟨isPartition_single hIne, fun R hR => ?_⟩
      have h3 := hR.card_le
      have h4 := hR.card_pos hIne
      have : R.card = 1 ∨ R.card = I.card := by omega
      rcases this with h | h
      · rw [hR.eq_single_of_card h]
      · rw [hR.eq_singletons_of_card h, hc1, hcs]
    · rw [if_neg hl2]
      obtain ⟨hnone, hsome⟩ := hdec g φ I γ hr hI (by omega) (by rw [hγ, hcardq])
      rw [← hns, ← hH] at hnone hsome
      rw [← hγ, show dec g.arcs ns ch.length = dec g.arcs ns I.card by rw [hlen]]
      rcases hd : dec g.arcs ns I.card with _ | P'
      · apply hfinish
        · intro st
          rw [hpspSplitO]
          dsimp only
          rw [← hns, if_neg (by omega), if_neg (by omega), hcardq, ← hγ, hd]
        exact hnone hd
      · obtain ⟨hro, hk1, hkm, hrf⟩ := hsome P' hd
        dsimp only
        have hrlt : P'.card < I.card := lt_of_le_of_ne hro.1.card_le hkm
        have hrpos := hro.1.card_pos hIne
        obtain ⟨mu, hmu, hmo, hms⟩ := hpre
        have hmd := hr.opt_down hW hI (isPartition_singletons I) hmo
        have hnots : P' ≠ singletons I := fun h => hkm (by rw [h, card_singletons])
        have hHn : NonnegE H := hHg.nonneg
        have hle : γ ≤ mu := by
          by_contra hlt
          push Not at hlt
          exact hnots (singletons_of_refines hro.1 (hmd.refines hHn hro hlt))
        have hgr : ∀ A ∈ pull φ V (singletons I), IsOptimal (induced E A) A γ {A} := by
          intro A hA
          obtain ⟨i, hi, rfl⟩ := mem_pull_singletons.1 hA
          obtain ⟨c, hc, he⟩ := hkids.exists hi
          rw [← he]
          exact (hgood c hc).single fun m hm => hle.trans (hmu c hc m hm)
        have hPP := hr.opt_up hE hW hI hro hgr
        have hfin : M1 → ∀ R, IsOptimal (induced E (pullB φ V I)) (pullB φ V I) γ R →
            Refines (pull φ V P') R := by
          intro hM R hR
          have hlt : γ < mu := by
            refine lt_of_le_of_ne hle fun heq => ?_
            rw [← heq] at hmd
            exact hnots (singletons_of_refines hro.1 (hrf hM _ hmd))
          have href := hR.refines (induced_nonneg hE _) hmo hlt
          obtain ⟨Q', hQ', rfl⟩ := exists_pull hon hR.1 href
          exact (refines_pull hon hro.1).2 (hrf hM _ (hr.opt_down hW hI hQ' hR))
        have hext : M → (∀ R, IsOptimal (induced E (pullB φ V I)) (pullB φ V I) γ R → Refines (pull φ V P') R) ∨
            ∀ R, IsOptimal (induced E (pullB φ V I)) (pullB φ V I) γ R → Refines R (pull φ V P') := fun hM =>
          (hnb hM).elim (fun h => Or.inl (hfin h)) fun h => h γ _ hPP
        have href : Refines (pull φ V (singletons I)) (pull φ V P') :=
          (refines_pull hon (isPartition_singletons I)).2 (singletons_refines hro.1)
        obtain ⟨hond, hos⟩ := hord P'
        have hmemo : ∀ B, B ∈ ord P' ↔ B ∈ P' := by
          intro B; rw [← List.mem_toFinset, hos]
        obtain ⟨g1, φ1, I1, ch1, he1, hpost1, hpp1, hv1, hsim1⟩ := blocks_spec (mu := mu)
          (F := M ∧ ∀ R, IsOptimal (induced E (pullB φ V I)) (pullB φ V I) γ R → Refines (pull φ V P') R)
          hE hW hε hu ih hPP (fun h => h.2) hnb
          (ord P') g φ I ch P' hr hI hkids hgood hro.1 rfl hond
          (fun B hB => by
            have hB := (hmemo B).1 hB
            refine ⟨hB, ?_⟩
            have hne : B ≠ I := by
              rintro rfl
              apply hk1
              have : P' = {B} := by
                ext C
                rw [Finset.mem_singleton]
                constructor
                · intro hC
                  obtain ⟨v, hv⟩ := hro.1.nonempty hC
                  exact hro.1.eq_of_mem hC hB hv (hro.1.subset hC hv)
                · rintro rfl; exact hB
              rw [this, Finset.card_singleton]
            have := Finset.card_lt_card (Finset.ssubset_iff_subset_ne.2 ⟨hro.1.subset hB, hne⟩)
            omega)
          (fun B hB hn => absurd ((hmemo B).2 hB) hn)
          (fun B hB => by
            have hB := (hmemo B).1 hB
            have := hmo.part (induced_within E _) hPP.1 (P := pull φ V P')
              ((refines_pull hon (isPartition_singletons I)).2 (singletons_refines hro.1))
              (Finset.mem_image_of_mem _ hB)
            rwa [part_pull hro.1 hB hon, induced_induced (hPP.1.subset (Finset.mem_image_of_mem _ hB))]
              at this)
          (fun c hc _ m hm => hmu c hc m hm)
          (fun hM => (hms hM).imp (fun h c hc _ m hm => h c hc m hm) fun h B hB => by
            have hB := (hmemo B).1 hB
            have hB' := Finset.mem_image_of_mem (pullB φ V) hB
            have := coarsest_part (induced_nonneg hE _) (induced_within E _) hle hPP hmo href h hB'
            rwa [part_pull hro.1 hB hon, induced_induced (hPP.1.subset hB')] at this)
          (fun c hc m hm => by
            refine ⟨hle.trans (hmu c hc m hm), fun ⟨hM, hf⟩ => ?_⟩
            rcases hms hM with h | h
            · exact lt_of_le_of_lt hle (h c hc m hm)
            · refine lt_of_lt_of_le (lt_of_le_of_ne hle fun he => ?_) (hmu c hc m hm)
              exact hnots (singletons_of_refines hro.1 ((refines_pull hon hro.1).1 (hf _ (he ▸ hmo)))))
        have hcard1 : I1.card = P'.card := by
          have h1 := card_pull (hpost1.rep.onto hpost1.nodes) (isPartition_singletons I1)
          rw [hpp1, card_pull hon hro.1, card_singletons] at h1
          exact h1.symm
        have hpb := hpost1.pullB_eq
        obtain ⟨g2, φ2, I2, ch2, l, he2, hpost2, hgood2, hsim2⟩ := ih g1 φ1 I1 ch1 hpost1.rep hpost1.nodes
          (by omega) (by omega) hpost1.kids hpost1.good
          ⟨γ, fun c hc m hm => (hv1 c hc m hm).1, by rw [hpb, hpp1]; exact hPP, fun hM => by
            rcases hext hM with h | h
            · exact Or.inl fun c hc m hm => (hv1 c hc m hm).2 ⟨hM, h⟩
            · right; rw [hpb, hpp1]; exact h⟩
          (by rw [hpb]; exact hnb)
        refine ⟨g2, φ2, I2, ch2, l, ?_, hpost1.trans hpost2, ?_, ?_⟩
        · rw [he1, Outcome.ok_bind, he2]
        · rw [← hpb]; exact hgood2
        · -- the simulation
          have hI1ne : I1.Nonempty := Finset.card_pos.1 (by omega)
          have hI1 : ∅ ∪ ((ord P').map firstElem).toFinset = I1 := by
            have e1 : (pull φ1 V (singletons I1)).image firstElem = I1 := by
              ext i
              rw [Finset.mem_image]
              constructor
              · rintro ⟨A, hA, rfl⟩
                obtain ⟨j, hj, rfl⟩ := mem_pull_singletons.1 hA
                rwa [hpost1.rep.firstElem_group (List.mem_toFinset.1 (hpost1.nodes hj))]
              · intro hi
                exact ⟨_, mem_pull_singletons.2 ⟨i, hi, rfl⟩,
                  hpost1.rep.firstElem_group (List.mem_toFinset.1 (hpost1.nodes hi))⟩
            rw [← e1, hpp1]
            ext i
            rw [Finset.empty_union, List.mem_toFinset, List.mem_map, Finset.mem_image]
            constructor
            · rintro ⟨B, hB, rfl⟩
              have hB' := (hmemo B).1 hB
              exact ⟨_, Finset.mem_image_of_mem _ hB', hr.firstElem_pullB
                ((hro.1.subset hB').trans hI) (hro.1.nonempty hB')⟩
            · rintro ⟨A, hA, rfl⟩
              obtain ⟨B, hB', rfl⟩ := Finset.mem_image.1 hA
              exact ⟨B, (hmemo B).2 hB', (hr.firstElem_pullB
                ((hro.1.subset hB').trans hI) (hro.1.nonempty hB')).symm⟩
          have hfe : firstElem I1 = firstElem I := by
            rw [← hr.firstElem_pullB hI hIne, ← hpb, hpost1.rep.firstElem_pullB hpost1.nodes hI1ne]
          intro st hst
          obtain ⟨st1, h1, h3, h4⟩ := hsim1 st ∅ hst
          rw [hI1] at h1
          obtain ⟨st2, h5, h6, h7, h8, h9⟩ := hsim2 st1 h3
          rw [hfe] at h5 h7 h8
          rw [hpb] at h6
          refine ⟨st2, ?_, h6, h7, h8, fun n hn => ?_⟩
          · rw [hpspSplitO]
            dsimp only
            rw [← hns, if_neg (by omega), if_neg (by omega), hcardq, ← hγ, hd]
            dsimp only
            rw [h1, Outcome.ok_bind, h5]
          · obtain ⟨a, b⟩ := h9 n fun h => hn (hpost1.sub h)
            obtain ⟨c, d⟩ := h4 n hn
            exact ⟨a.trans c, b.trans d⟩

end PSP.Theory
