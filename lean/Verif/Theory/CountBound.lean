import Verif.Theory.Count
import Verif.Theory.HPSPTree

/-!
# Bounds on the number of flow computations of `PSP_I` and `HPSP`

They do not depend on what the flow solver returns.
-/

namespace PSP.Theory

open PSP.Spec PSP.Model

/-- The bound for `p + 1` nodes. -/
def flowBound (p : ℕ) : ℕ := p * (p + 3) / 2 - 2

theorem flowBound_two (p : ℕ) (hp : 1 ≤ p) : 2 * flowBound p + 4 = p * (p + 3) := by
  unfold flowBound
  have h : 2 ∣ p * (p + 3) := by
    rcases Nat.even_or_odd p with h | h
    · exact (h.mul_right _).two_dvd
    · exact ((h.add_odd (by decide : Odd 3)).mul_left _).two_dvd
  obtain ⟨c, hc⟩ := h
  have : 4 ≤ p * (p + 3) := by nlinarith
  rw [hc]
  omega

theorem flowBound_split {a b : ℕ} (ha : 1 ≤ a) (hb : 1 ≤ b) :
    a + b + 1 + flowBound a + flowBound b ≤ flowBound (a + b) := by
  have h1 := flowBound_two a ha
  have h2 := flowBound_two b hb
  have h3 := flowBound_two (a + b) (by omega)
  have h4 : a + b ≤ a * b + 1 := by
    obtain ⟨a, rfl⟩ := Nat.exists_eq_add_of_le' ha
    obtain ⟨b, rfl⟩ := Nat.exists_eq_add_of_le' hb
    nlinarith
  nlinarith

theorem flowBound_add (a b : ℕ) : flowBound a + flowBound b ≤ flowBound (a + b) := by
  rcases Nat.eq_zero_or_pos a with rfl | ha
  · simp [flowBound]
  · rcases Nat.eq_zero_or_pos b with rfl | hb
    · simp [flowBound]
    · have := flowBound_split ha hb
      omega

theorem flowBound_ge {p : ℕ} (hp : 2 ≤ p) : p + 1 ≤ flowBound p := by
  have := flowBound_two p (by omega)
  nlinarith

/-! ### the truncation returns a partition, whatever the solver does -/

theorem runLoopI_partition (S : FlowSolver) (arcs : List Arc) (lam : ℚ) (rest : List ℕ) :
    ∀ done xl P, IsPartition done.toFinset P →
      IsPartition (done ++ rest).toFinset (runLoopI S arcs lam done rest xl P).2 := by
  induction rest with
  | nil => intro done xl P h; simpa [runLoopI] using h
  | cons l rest ih =>
    intro done xl P h
    rw [runLoopI]
    have hside : (minimizeI S arcs lam done l xl).2 ⊆ done.toFinset := by
      simp only [minimizeI, FlowSolver.sinkSide, dilworthNet]
      exact Finset.filter_subset _ _
    have h2 := expand_isPartition h (T := insert l (minimizeI S arcs lam done l xl).2) (by simp)
    have h3 : done.toFinset ∪ insert l (minimizeI S arcs lam done l xl).2 = (done ++ [l]).toFinset := by
      ext v
      simp only [Finset.mem_union, Finset.mem_insert, List.mem_toFinset, List.mem_append, List.mem_singleton]
      constructor
      · rintro (h | h | h)
        · exact Or.inl h
        · exact Or.inr h
        · exact Or.inl (List.mem_toFinset.1 (hside h))
      · rintro (h | h)
        · exact Or.inl h
        · exact Or.inr (Or.inl h)
    rw [h3] at h2
    have := ih (done ++ [l]) (xl ++ [(minimizeI S arcs lam done l xl).1]) _ h2
    simpa using this

theorem dilworthI_partition (S : FlowSolver) (arcs : List Arc) (lam : ℚ) (ns : List ℕ) :
    IsPartition ns.toFinset (dilworthI S arcs lam ns).2 := by
  have := runLoopI_partition S arcs lam ns [] [] ∅ ⟨by simp, by simp⟩
  simpa [dilworthI] using this

theorem subNodes_spec {g : Digraph} (hg : g.nodes.Nodup) {I : CSet} (hI : I ⊆ g.nodes.toFinset) :
    (subNodes g I).toFinset = I ∧ (subNodes g I).length = I.card := by
  have h1 : (subNodes g I).toFinset = I := by
    ext v
    simp only [subNodes, List.mem_toFinset, List.mem_filter, decide_eq_true_eq]
    exact ⟨fun h => h.2, fun h => ⟨List.mem_toFinset.1 (hI h), h⟩⟩
  refine ⟨h1, ?_⟩
  conv_rhs => rw [← h1]
  exact (List.toFinset_card_of_nodup (hg.filter _)).symm

theorem sum_card_blocks {V : Finset ℕ} {P : Finset (Finset ℕ)} (h : IsPartition V P) :
    ∑ B ∈ P, B.card = V.card := by
  conv_rhs => rw [← h.biUnion]
  rw [Finset.card_biUnion]
  · rfl
  · exact fun B hB C hC hne => h.disjoint hB hC hne

/-- Sum of the sizes of the blocks minus one each. -/
def excessSum (Bs : List CSet) : ℕ := (Bs.map fun B => B.card - 1).sum

theorem excessSum_partition {V : Finset ℕ} {P : Finset (Finset ℕ)} (h : IsPartition V P) {Bs : List CSet}
    (hnd : Bs.Nodup) (hB : Bs.toFinset = P) : excessSum Bs + P.card = V.card := by
  have h1 : excessSum Bs = ∑ B ∈ P, (B.card - 1) := by
    rw [← hB, List.sum_toFinset _ hnd]
    rfl
  rw [h1, Finset.card_eq_sum_ones, ← Finset.sum_add_distrib, ← sum_card_blocks h]
  refine Finset.sum_congr rfl fun B hB' => ?_
  have := (h.nonempty hB').card_pos
  omega

/-- The least elements of the blocks. -/
def firsts (Bs : List CSet) : CSet := (Bs.map firstElem).toFinset

theorem mem_firsts {Bs : List CSet} {v : ℕ} : v ∈ firsts Bs ↔ ∃ B ∈ Bs, firstElem B = v := by
  simp [firsts]

theorem card_firsts {V : Finset ℕ} {P : Finset (Finset ℕ)} (h : IsPartition V P) {Bs : List CSet}
    (hnd : Bs.Nodup) (hB : Bs.toFinset = P) : (firsts Bs).card = P.card := by
  have : firsts Bs = P.image firstElem := by
    ext v
    rw [mem_firsts, Finset.mem_image, ← hB]
    simp
  rw [this, Finset.card_image_of_injOn]
  intro B hB1 C hC1 he
  have h1 := firstElem_mem (h.nonempty hB1)
  have h2 := firstElem_mem (h.nonempty hC1)
  rw [he] at h1
  exact h.eq_of_mem hB1 hC1 h1 h2

theorem firsts_subset {V : Finset ℕ} {P : Finset (Finset ℕ)} (h : IsPartition V P) {Bs : List CSet}
    (hB : Bs.toFinset = P) : firsts Bs ⊆ V := by
  intro v hv
  obtain ⟨B, hB1, rfl⟩ := mem_firsts.1 hv
  have : B ∈ P := hB ▸ List.mem_toFinset.2 hB1
  exact h.subset this (firstElem_mem (h.nonempty this))

theorem firstElem_firsts {V : Finset ℕ} {P : Finset (Finset ℕ)} (h : IsPartition V P) {Bs : List CSet}
    (hB : Bs.toFinset = P) (hV : V.Nonempty) : firstElem (firsts Bs) = firstElem V := by
  refine firstElem_eq_of_subset (firsts_subset h hB) ?_
  obtain ⟨B, hB1, hv⟩ := h.exists_block (firstElem_mem hV)
  rw [mem_firsts]
  refine ⟨B, List.mem_toFinset.1 (hB ▸ hB1), ?_⟩
  exact firstElem_eq_of_subset (h.subset hB1) hv

theorem mem_contract_nodes {ε : ℚ} {g : Digraph} {B : CSet} {i v : ℕ} :
    v ∈ (contract ε g B i).nodes ↔ v ∈ g.nodes ∧ (v ∈ B → v = i) := by
  simp only [contract, List.mem_filter, decide_eq_true_eq, not_and, not_not]

/-! ### `HPSP` -/

/-- What a call of `split` on the set `c` does to the counter and the nodes. -/
def HBound (S : FlowSolver) (ε : ℚ) (ord : Partition → List CSet) (k : ℕ) : Prop :=
  ∀ g st s (c : CSet), g.nodes.Nodup → c ⊆ g.nodes.toFinset → 2 ≤ c.card → c.card ≤ k →
    ∃ r, hpspSplitC S ε ord k g st s c = .ok r ∧ r.2 ≤ flowBound (c.card - 1) ∧ r.1.1.nodes.Nodup ∧
      ∀ v ∈ g.nodes, (v ∈ c → v = firstElem c) → v ∈ r.1.1.nodes

theorem hpspBlocksC_bound {S : FlowSolver} {ε : ℚ} {ord : Partition → List CSet} {k : ℕ}
    (hk : HBound S ε ord k) (Bs : List CSet) :
    ∀ g st newS, g.nodes.Nodup → (∀ B ∈ Bs, B ⊆ g.nodes.toFinset ∧ B.Nonempty ∧ B.card ≤ k) →
      Bs.Pairwise Disjoint → ∃ r, hpspBlocksC ε (hpspSplitC S ε ord k) Bs g st newS = .ok r ∧
        r.2 ≤ flowBound (excessSum Bs) ∧ r.1.1.nodes.Nodup ∧ r.1.2.2 = newS ∪ firsts Bs ∧
        ∀ v ∈ g.nodes, (∀ B ∈ Bs, v ∈ B → v = firstElem B) → v ∈ r.1.1.nodes := by
  induction Bs with
  | nil =>
    intro g st newS hg _ _
    exact ⟨_, rfl, Nat.zero_le _, hg, by simp [firsts], fun v hv _ => hv⟩
  | cons B Bs ih =>
    intro g st newS hg hB hd
    rw [List.pairwise_cons] at hd
    obtain ⟨b1, b2, b3⟩ := hB B (by simp)
    have hset : ∀ newS : CSet, insert (firstElem B) newS ∪ firsts Bs = newS ∪ firsts (B :: Bs) := by
      intro newS
      ext v
      simp only [Finset.mem_union, Finset.mem_insert, mem_firsts, List.mem_cons, exists_eq_or_imp]
      tauto
    rw [hpspBlocksC]
    by_cases hc : B.card = 1
    · rw [if_pos hc]
      obtain ⟨r, r1, r2, r3, r4, r5⟩ := ih g st (insert (firstElem B) newS) hg
        (fun C hC => hB C (by simp [hC])) hd.2
      refine ⟨r, r1, ?_, r3, r4.trans (hset newS), fun v hv h => r5 v hv fun C hC => h C (by simp [hC])⟩
      have : excessSum (B :: Bs) = excessSum Bs := by simp [excessSum, hc]
      rw [this]
      exact r2
    · have hc2 : 2 ≤ B.card := by
        have := b2.card_pos
        omega
      obtain ⟨x, x1, x2, x3, x4⟩ := hk g st (firstElem B) B hg b1 hc2 b3
      have hsub : ∀ C ∈ Bs, C ⊆ (contract ε x.1.1 B (firstElem B)).nodes.toFinset := by
        intro C hC v hv
        have hvB : v ∉ B := fun h => Finset.disjoint_left.1 (hd.1 C hC) h hv
        rw [List.mem_toFinset, mem_contract_nodes]
        refine ⟨x4 v ?_ fun h => absurd h hvB, fun h => absurd h hvB⟩
        exact List.mem_toFinset.1 ((hB C (by simp [hC])).1 hv)
      obtain ⟨r, r1, r2, r3, r4, r5⟩ := ih (contract ε x.1.1 B (firstElem B)) x.1.2 (insert (firstElem B) newS)
        (x3.filter _) (fun C hC => ⟨hsub C hC, (hB C (by simp [hC])).2⟩) hd.2
      rw [if_neg hc, x1, Outcome.ok_bind, r1]
      refine ⟨(r.1, x.2 + r.2), rfl, ?_, r3, r4.trans (hset newS), fun v hv h => r5 v ?_ fun C hC => h C (by simp [hC])⟩
      · have h1 : excessSum (B :: Bs) = B.card - 1 + excessSum Bs := by simp [excessSum]
        rw [h1]
        exact (Nat.add_le_add x2 r2).trans (flowBound_add _ _)
      · have hvB := h B (by simp)
        rw [mem_contract_nodes]
        exact ⟨x4 v hv hvB, hvB⟩

theorem hpspSplitC_bound {S : FlowSolver} {ε : ℚ} {ord : Partition → List CSet} (hord : Enumerates ord) (k : ℕ) :
    HBound S ε ord k := by
  induction k with
  | zero => intro g st s c _ _ h1 h2; omega
  | succ k ih =>
    intro g st s c hg hc h2 hk
    rw [hpspSplitC]
    simp only [dilworthIC_eq]
    obtain ⟨n1, n2⟩ := subNodes_spec hg hc
    rw [if_neg (by omega)]
    by_cases hc2 : c.card = 2
    · rw [if_pos hc2]
      exact ⟨_, rfl, Nat.zero_le _, hg, fun v hv _ => hv⟩
    rw [if_neg hc2]
    generalize weightTotal g.arcs (subNodes g c) / ((c.card : ℚ) - 1) = γ
    have hp := dilworthI_partition S g.arcs γ (subNodes g c)
    rw [n1] at hp
    have hnum : (subNodes g c).length ≤ flowBound (c.card - 1) := by
      have := flowBound_ge (p := c.card - 1) (by omega)
      omega
    set P := (dilworthI S g.arcs γ (subNodes g c)) with hP
    by_cases hd : splitDone ε γ c.card P = true
    · rw [if_pos hd]
      exact ⟨_, rfl, hnum, hg, fun v hv _ => hv⟩
    rw [if_neg hd]
    have hdone : P.2.card ≠ 1 ∧ P.2.card ≠ c.card := by
      simp only [splitDone, decide_eq_true_eq, not_not] at hd
      exact ⟨hd.1, hd.2.1⟩
    have hcn : c.Nonempty := Finset.card_pos.1 (by omega)
    have hcp := hp.card_pos hcn
    have hcl := hp.card_le
    obtain ⟨o1, o2⟩ := hord P.2
    have hmem : ∀ B ∈ ord P.2, B ∈ P.2 := fun B hB => o2 ▸ List.mem_toFinset.2 hB
    have hex := excessSum_partition hp o1 o2
    have hcard : ∀ B ∈ ord P.2, B.card ≤ k := by
      intro B hB
      have h1 : (B.card - 1) ≤ excessSum (ord P.2) := by
        unfold excessSum
        exact List.single_le_sum (fun _ _ => Nat.zero_le _) _ (List.mem_map_of_mem hB)
      have := (hp.nonempty (hmem B hB)).card_pos
      omega
    obtain ⟨x, x1, x2, x3, x4, x5⟩ := hpspBlocksC_bound ih (ord P.2) g st ∅ hg
      (fun B hB => ⟨(hp.subset (hmem B hB)).trans hc, hp.nonempty (hmem B hB), hcard B hB⟩)
      (by
        refine o1.imp_of_mem fun {A B} hA hB hne => ?_
        exact hp.disjoint (hmem A hA) (hmem B hB) hne)
    rw [Finset.empty_union] at x4
    have hfc := card_firsts hp o1 o2
    have hfs := firsts_subset hp o2
    have hff := firstElem_firsts hp o2 hcn
    have hkeep : ∀ v ∈ g.nodes, (v ∈ c → v = firstElem c) → v ∈ x.1.1.nodes := by
      intro v hv h
      refine x5 v hv fun B hB hvB => ?_
      have h1 := h (hp.subset (hmem B hB) hvB)
      rw [h1] at hvB ⊢
      exact (firstElem_eq_of_subset (hp.subset (hmem B hB)) hvB).symm
    have hfn : firsts (ord P.2) ⊆ x.1.1.nodes.toFinset := by
      intro v hv
      rw [List.mem_toFinset]
      refine x5 v (List.mem_toFinset.1 (hc (hfs hv))) fun B hB hvB => ?_
      obtain ⟨C, hC, rfl⟩ := mem_firsts.1 hv
      have : B = C := hp.eq_of_mem (hmem B hB) (hmem C hC) hvB (firstElem_mem (hp.nonempty (hmem C hC)))
      rw [this]
    obtain ⟨y, y1, y2, y3, y4⟩ := ih x.1.1 x.1.2.1 s (firsts (ord P.2)) x3 hfn (by omega) (by omega)
    rw [x1, Outcome.ok_bind, x4, y1]
    refine ⟨(y.1, (subNodes g c).length + x.2 + y.2), rfl, ?_, y3, fun v hv h => ?_⟩
    · rw [hfc] at y2
      have h1 := flowBound_split (a := excessSum (ord P.2)) (b := P.2.card - 1) (by omega) (by omega)
      have h2 : excessSum (ord P.2) + (P.2.card - 1) = c.card - 1 := by omega
      rw [h2] at h1
      dsimp only
      omega
    · refine y4 v (hkeep v hv h) fun hvf => ?_
      rw [hff]
      exact h (hfs hvf)

/-! ### `PSP_I` -/

/-- The children `ch` of a node stand for the nodes `I` of the graph `g`. -/
structure Stand (g : Digraph) (ch : List PTree) (I : CSet) : Prop where
  nodup : (ch.map fun c => firstElem c.K).Nodup
  ids : (ch.map fun c => firstElem c.K).toFinset = I
  nodes : I ⊆ g.nodes.toFinset
  nonempty : ∀ c ∈ ch, c.K.Nonempty
  disjoint : ∀ c ∈ ch, ∀ d ∈ ch, ∀ v ∈ c.K, v ∈ d.K → firstElem c.K = firstElem d.K

theorem Stand.length {g : Digraph} {ch : List PTree} {I : CSet} (h : Stand g ch I) : ch.length = I.card := by
  have := List.toFinset_card_of_nodup h.nodup
  rw [h.ids, List.length_map] at this
  exact this.symm

theorem Stand.meets {g : Digraph} {ch : List PTree} {I : CSet} (h : Stand g ch I) {B : CSet} (hB : B ⊆ I)
    {c : PTree} (hc : c ∈ ch) : ¬ Disjoint c.K B ↔ firstElem c.K ∈ B := by
  constructor
  · intro hd
    obtain ⟨v, h1, h2⟩ := Finset.not_disjoint_iff.1 hd
    have hv := hB h2
    rw [← h.ids, List.mem_toFinset, List.mem_map] at hv
    obtain ⟨d, hd, rfl⟩ := hv
    rw [h.disjoint c hc d hd _ h1 (firstElem_mem (h.nonempty d hd))]
    exact h2
  · exact fun hm => Finset.not_disjoint_iff.2 ⟨_, firstElem_mem (h.nonempty c hc), hm⟩

/-- What a call of `split` on the children does to the counter and the nodes. -/
def IBound (S : FlowSolver) (ε : ℚ) (ord : Partition → List CSet) (k : ℕ) : Prop :=
  ∀ g ch (I : CSet), g.nodes.Nodup → Stand g ch I → 2 ≤ I.card → I.card ≤ k →
    ∃ r, pspiSplitC S ε ord k g ch = .ok r ∧ r.2 ≤ flowBound (I.card - 1) ∧ r.1.1.nodes.Nodup ∧
      ∀ v ∈ g.nodes, (v ∈ I → v = firstElem I) → v ∈ r.1.1.nodes

theorem Stand.filter {g : Digraph} {ch : List PTree} {I B : CSet} (h : Stand g ch I) (hB : B ⊆ I) :
    Stand g (ch.filter fun c => ¬ Disjoint c.K B).reverse B where
  nodup := by
    rw [List.map_reverse, List.nodup_reverse]
    exact h.nodup.sublist (List.filter_sublist.map _)
  ids := by
    ext v
    simp only [List.mem_toFinset, List.mem_map, List.mem_reverse, List.mem_filter, decide_eq_true_eq]
    constructor
    · rintro ⟨c, ⟨hc, hd⟩, rfl⟩
      exact (h.meets hB hc).1 hd
    · intro hv
      have := hB hv
      rw [← h.ids, List.mem_toFinset, List.mem_map] at this
      obtain ⟨c, hc, rfl⟩ := this
      exact ⟨c, ⟨hc, (h.meets hB hc).2 hv⟩, rfl⟩
  nodes := hB.trans h.nodes
  nonempty c hc := h.nonempty c (List.mem_filter.1 (List.mem_reverse.1 hc)).1
  disjoint c hc d hd := h.disjoint c (List.mem_filter.1 (List.mem_reverse.1 hc)).1 d
    (List.mem_filter.1 (List.mem_reverse.1 hd)).1

/-- The new node for the block `B`. -/
theorem Stand.join {g g' : Digraph} {ch : List PTree} {I B : CSet} (h : Stand g ch I) (hB : B ⊆ I)
    (hne : B.Nonempty) (hg : ∀ v ∈ I, (v ∈ B → v = firstElem B) → v ∈ g'.nodes) (l : Option ℚ) (ch' : List PTree) :
    Stand g' (.node (B ∪ ((ch.filter fun c => ¬ Disjoint c.K B).map PTree.K).foldr (· ∪ ·) ∅) l ch' ::
      ch.filter fun c => Disjoint c.K B) (insert (firstElem B) (I \ B)) := by
  have hK : ∀ v, v ∈ B ∪ ((ch.filter fun c => ¬ Disjoint c.K B).map PTree.K).foldr (· ∪ ·) ∅ ↔
      v ∈ B ∨ ∃ c ∈ ch, firstElem c.K ∈ B ∧ v ∈ c.K := by
    intro v
    rw [Finset.mem_union, foldr_union]
    simp only [List.mem_map, List.mem_filter, decide_eq_true_eq]
    constructor
    · rintro (hv | ⟨A, ⟨c, ⟨hc, hd⟩, rfl⟩, hv⟩)
      · exact Or.inl hv
      · exact Or.inr ⟨c, hc, (h.meets hB hc).1 hd, hv⟩
    · rintro (hv | ⟨c, hc, hm, hv⟩)
      · exact Or.inl hv
      · exact Or.inr ⟨_, ⟨c, ⟨hc, (h.meets hB hc).2 hm⟩, rfl⟩, hv⟩
  have hrest : ∀ c, c ∈ (ch.filter fun c => Disjoint c.K B) ↔ c ∈ ch ∧ firstElem c.K ∉ B := by
    intro c
    rw [List.mem_filter, decide_eq_true_eq]
    constructor
    · rintro ⟨hc, hd⟩
      exact ⟨hc, fun hm => (h.meets hB hc).2 hm hd⟩
    · rintro ⟨hc, hm⟩
      exact ⟨hc, by_contra fun hd => hm ((h.meets hB hc).1 hd)⟩
  set K' := B ∪ ((ch.filter fun c => ¬ Disjoint c.K B).map PTree.K).foldr (· ∪ ·) ∅ with hK'
  have hBK : B ⊆ K' := fun v hv => (hK v).2 (Or.inl hv)
  have hfirst : firstElem K' = firstElem B := by
    apply le_antisymm (firstElem_le (hBK (firstElem_mem hne)))
    rcases (hK _).1 (firstElem_mem (hne.mono hBK)) with hv | ⟨c, hc, hm, hv⟩
    · exact firstElem_le hv
    · exact (firstElem_le hm).trans (firstElem_le hv)
  have hnot : ∀ c ∈ (ch.filter fun c => Disjoint c.K B), ∀ v ∈ c.K, v ∉ K' := by
    intro c hc v hv hvK
    obtain ⟨hc, hm⟩ := (hrest c).1 hc
    rcases (hK v).1 hvK with hvB | ⟨d, hd, hdm, hvd⟩
    · exact hm ((h.meets hB hc).1 (Finset.not_disjoint_iff.2 ⟨v, hv, hvB⟩))
    · rw [h.disjoint c hc d hd v hv hvd] at hm
      exact hm hdm
  refine ⟨?_, ?_, ?_, ?_, ?_⟩
  · rw [List.map_cons, List.nodup_cons]
    refine ⟨?_, h.nodup.sublist (List.filter_sublist.map _)⟩
    have hk : (PTree.node K' l ch').K = K' := rfl
    rw [hk, hfirst, List.mem_map]
    rintro ⟨c, hc, he⟩
    have := ((hrest c).1 hc).2
    rw [he] at this
    exact this (firstElem_mem hne)
  · ext v
    have hk : (PTree.node K' l ch').K = K' := rfl
    simp only [List.map_cons, List.toFinset_cons, Finset.mem_insert, List.mem_toFinset, List.mem_map, hrest,
      Finset.mem_sdiff, hk, hfirst, ← h.ids]
    constructor
    · rintro (hv | ⟨c, ⟨hc, hm⟩, rfl⟩)
      · exact Or.inl hv
      · exact Or.inr ⟨⟨c, hc, rfl⟩, hm⟩
    · rintro (hv | ⟨⟨c, hc, rfl⟩, hm⟩)
      · exact Or.inl hv
      · exact Or.inr ⟨c, ⟨hc, hm⟩, rfl⟩
  · intro v hv
    rw [List.mem_toFinset]
    rcases Finset.mem_insert.1 hv with rfl | hv
    · exact hg _ (hB (firstElem_mem hne)) fun _ => rfl
    · obtain ⟨hv, hvB⟩ := Finset.mem_sdiff.1 hv
      exact hg v hv fun h => absurd h hvB
  · intro c hc
    rcases List.mem_cons.1 hc with rfl | hc
    · exact hne.mono hBK
    · exact h.nonempty c ((hrest c).1 hc).1
  · intro c hc d hd v hv hv'
    rcases List.mem_cons.1 hc with rfl | hc <;> rcases List.mem_cons.1 hd with rfl | hd
    · rfl
    · exact absurd hv (hnot d hd v hv')
    · exact absurd hv' (hnot c hc v hv)
    · exact h.disjoint c ((hrest c).1 hc).1 d ((hrest d).1 hd).1 v hv hv'

theorem pspiBlocksC_bound {S : FlowSolver} {ε : ℚ} {ord : Partition → List CSet} {k : ℕ}
    (hk : IBound S ε ord k) (Bs : List CSet) :
    ∀ g ch (I : CSet), g.nodes.Nodup → Stand g ch I → (∀ B ∈ Bs, B ⊆ I ∧ B.Nonempty ∧ B.card ≤ k) →
      Bs.Pairwise Disjoint → ∃ r, pspiBlocksC ε (pspiSplitC S ε ord k) Bs g ch = .ok r ∧
        r.2 ≤ flowBound (excessSum Bs) ∧ r.1.1.nodes.Nodup ∧
        Stand r.1.1 r.1.2 (I.filter fun v => ∀ B ∈ Bs, v ∈ B → v = firstElem B) ∧
        ∀ v ∈ g.nodes, (∀ B ∈ Bs, v ∈ B → v = firstElem B) → v ∈ r.1.1.nodes := by
  induction Bs with
  | nil =>
    intro g ch I hg hs _ _
    exact ⟨_, rfl, Nat.zero_le _, hg, by simpa using hs, fun v hv _ => hv⟩
  | cons B Bs ih =>
    intro g ch I hg hs hB hd
    rw [List.pairwise_cons] at hd
    obtain ⟨b1, b2, b3⟩ := hB B (by simp)
    rw [pspiBlocksC]
    by_cases hc : B.card = 1
    · rw [if_pos hc]
      obtain ⟨r, r1, r2, r3, r4, r5⟩ := ih g ch I hg hs (fun C hC => hB C (by simp [hC])) hd.2
      have hone : ∀ v ∈ B, v = firstElem B := by
        intro v hv
        exact Finset.card_le_one.1 hc.le v hv _ (firstElem_mem b2)
      refine ⟨r, r1, ?_, r3, ?_, fun v hv h => r5 v hv fun C hC => h C (by simp [hC])⟩
      · have : excessSum (B :: Bs) = excessSum Bs := by simp [excessSum, hc]
        rw [this]
        exact r2
      · have : (I.filter fun v => ∀ C ∈ B :: Bs, v ∈ C → v = firstElem C) =
            I.filter fun v => ∀ C ∈ Bs, v ∈ C → v = firstElem C := by
          refine Finset.filter_congr fun v _ => ?_
          rw [List.forall_mem_cons]
          exact ⟨fun h => h.2, fun h => ⟨hone v, h⟩⟩
        rw [this]
        exact r4
    · have hc2 : 2 ≤ B.card := by
        have := b2.card_pos
        omega
      obtain ⟨x, x1, x2, x3, x4⟩ := hk g _ B hg (hs.filter b1) hc2 b3
      have hjoin := hs.join (g' := contract ε x.1.1 B (firstElem B)) b1 b2 (fun v hv h => by
        rw [mem_contract_nodes]
        exact ⟨x4 v (List.mem_toFinset.1 (hs.nodes hv)) h, h⟩) x.1.2.1 x.1.2.2
      obtain ⟨r, r1, r2, r3, r4, r5⟩ := ih (contract ε x.1.1 B (firstElem B)) _ _ (x3.filter _) hjoin
        (fun C hC => ⟨fun v hv => by
          have hvB : v ∉ B := fun h => Finset.disjoint_left.1 (hd.1 C hC) h hv
          exact Finset.mem_insert_of_mem (Finset.mem_sdiff.2 ⟨(hB C (by simp [hC])).1 hv, hvB⟩),
          (hB C (by simp [hC])).2⟩) hd.2
      rw [if_neg hc]
      dsimp only
      rw [x1, Outcome.ok_bind, r1]
      refine ⟨(r.1, x.2 + r.2), rfl, ?_, r3, ?_, fun v hv h => r5 v ?_ fun C hC => h C (by simp [hC])⟩
      · have h1 : excessSum (B :: Bs) = B.card - 1 + excessSum Bs := by simp [excessSum]
        rw [h1]
        exact (Nat.add_le_add x2 r2).trans (flowBound_add _ _)
      · have : (I.filter fun v => ∀ C ∈ B :: Bs, v ∈ C → v = firstElem C) =
            (insert (firstElem B) (I \ B)).filter fun v => ∀ C ∈ Bs, v ∈ C → v = firstElem C := by
          ext v
          simp only [Finset.mem_filter, Finset.mem_insert, Finset.mem_sdiff, List.forall_mem_cons]
          constructor
          · rintro ⟨h1, h2, h3⟩
            refine ⟨?_, h3⟩
            by_cases hv : v ∈ B
            · exact Or.inl (h2 hv)
            · exact Or.inr ⟨h1, hv⟩
          · rintro ⟨rfl | ⟨h1, h2⟩, h3⟩
            · exact ⟨b1 (firstElem_mem b2), fun _ => rfl, h3⟩
            · exact ⟨h1, fun h => absurd h h2, h3⟩
        rw [this]
        exact r4
      · have hvB := h B (by simp)
        rw [mem_contract_nodes]
        exact ⟨x4 v hv hvB, hvB⟩

theorem pspiSplitC_bound {S : FlowSolver} {ε : ℚ} {ord : Partition → List CSet} (hord : Enumerates ord) (k : ℕ) :
    IBound S ε ord k := by
  induction k with
  | zero => intro g ch I _ _ h1 h2; omega
  | succ k ih =>
    intro g ch I hg hs h2 hk
    rw [pspiSplitC]
    simp only [dilworthIC_eq, hs.ids, hs.length]
    obtain ⟨n1, n2⟩ := subNodes_spec hg hs.nodes
    rw [if_neg (by omega)]
    by_cases hc2 : I.card = 2
    · rw [if_pos hc2]
      exact ⟨_, rfl, Nat.zero_le _, hg, fun v hv _ => hv⟩
    rw [if_neg hc2]
    generalize weightTotal g.arcs (subNodes g I) / ((I.card : ℚ) - 1) = γ
    have hp := dilworthI_partition S g.arcs γ (subNodes g I)
    rw [n1] at hp
    have hnum : (subNodes g I).length ≤ flowBound (I.card - 1) := by
      have := flowBound_ge (p := I.card - 1) (by omega)
      omega
    set P := (dilworthI S g.arcs γ (subNodes g I)) with hP
    by_cases hd : splitDone ε γ I.card P = true
    · rw [if_pos hd]
      exact ⟨_, rfl, hnum, hg, fun v hv _ => hv⟩
    rw [if_neg hd]
    have hdone : P.2.card ≠ 1 ∧ P.2.card ≠ I.card := by
      simp only [splitDone, decide_eq_true_eq, not_not] at hd
      exact ⟨hd.1, hd.2.1⟩
    have hcn : I.Nonempty := Finset.card_pos.1 (by omega)
    have hcp := hp.card_pos hcn
    have hcl := hp.card_le
    obtain ⟨o1, o2⟩ := hord P.2
    have hmem : ∀ B ∈ ord P.2, B ∈ P.2 := fun B hB => o2 ▸ List.mem_toFinset.2 hB
    have hex := excessSum_partition hp o1 o2
    have hcard : ∀ B ∈ ord P.2, B.card ≤ k := by
      intro B hB
      have h1 : (B.card - 1) ≤ excessSum (ord P.2) := by
        unfold excessSum
        exact List.single_le_sum (fun _ _ => Nat.zero_le _) _ (List.mem_map_of_mem hB)
      have := (hp.nonempty (hmem B hB)).card_pos
      omega
    obtain ⟨x, x1, x2, x3, x4, x5⟩ := pspiBlocksC_bound ih (ord P.2) g ch I hg hs
      (fun B hB => ⟨hp.subset (hmem B hB), hp.nonempty (hmem B hB), hcard B hB⟩)
      (by
        refine o1.imp_of_mem fun {A B} hA hB hne => ?_
        exact hp.disjoint (hmem A hA) (hmem B hB) hne)
    have hfilter : (I.filter fun v => ∀ B ∈ ord P.2, v ∈ B → v = firstElem B) = firsts (ord P.2) := by
      ext v
      rw [Finset.mem_filter, mem_firsts]
      constructor
      · rintro ⟨hv, h⟩
        obtain ⟨B, hB, hvB⟩ := hp.exists_block hv
        have hB' : B ∈ ord P.2 := by
          rw [← o2] at hB
          exact List.mem_toFinset.1 hB
        exact ⟨B, hB', (h B hB' hvB).symm⟩
      · rintro ⟨C, hC, rfl⟩
        have hf := firstElem_mem (hp.nonempty (hmem C hC))
        refine ⟨hp.subset (hmem C hC) hf, fun B hB hvB => ?_⟩
        rw [hp.eq_of_mem (hmem B hB) (hmem C hC) hvB hf]
    rw [hfilter] at x4
    have hfc := card_firsts hp o1 o2
    have hfs := firsts_subset hp o2
    have hff := firstElem_firsts hp o2 hcn
    have hkeep : ∀ v ∈ g.nodes, (v ∈ I → v = firstElem I) → v ∈ x.1.1.nodes := by
      intro v hv h
      refine x5 v hv fun B hB hvB => ?_
      have h1 := h (hp.subset (hmem B hB) hvB)
      rw [h1] at hvB ⊢
      exact (firstElem_eq_of_subset (hp.subset (hmem B hB)) hvB).symm
    obtain ⟨y, y1, y2, y3, y4⟩ := ih x.1.1 x.1.2 (firsts (ord P.2)) x3 x4 (by omega) (by omega)
    rw [x1, Outcome.ok_bind, y1]
    refine ⟨(y.1, (subNodes g I).length + x.2 + y.2), rfl, ?_, y3, fun v hv h => ?_⟩
    · rw [hfc] at y2
      have h1 := flowBound_split (a := excessSum (ord P.2)) (b := P.2.card - 1) (by omega) (by omega)
      have h2 : excessSum (ord P.2) + (P.2.card - 1) = I.card - 1 := by omega
      rw [h2] at h1
      dsimp only
      omega
    · refine y4 v (hkeep v hv h) fun hvf => ?_
      rw [hff]
      exact h (hfs hvf)

/-- The tree `PSP_I::run` starts with. -/
theorem stand_init {g : Digraph} {n : ℕ} (h : g.nodes = List.range n) :
    Stand g ((List.range n).reverse.map fun i => PTree.leaf {i}) (Finset.range n) := by
  have h3 : ∀ i, firstElem ({i} : Finset ℕ) = i := fun i => by
    have := firstElem_mem (B := {i}) ⟨i, by simp⟩
    simpa using this
  have hm : (((List.range n).reverse.map fun i => PTree.leaf {i}).map fun c => firstElem c.K) =
      (List.range n).reverse := by
    rw [List.map_map]
    conv_rhs => rw [← List.map_id (List.range n).reverse]
    refine List.map_congr_left fun i _ => ?_
    exact h3 i
  refine ⟨?_, ?_, ?_, ?_, ?_⟩
  · rw [hm]
    exact List.nodup_reverse.2 List.nodup_range
  · rw [hm]
    ext v
    simp
  · rw [h]
    intro v
    simp
  · intro c hc
    rw [List.mem_map] at hc
    obtain ⟨i, -, rfl⟩ := hc
    exact ⟨i, by simp [PTree.K]⟩
  · intro c hc d hd v h1 h2
    rw [List.mem_map] at hc hd
    obtain ⟨i, -, rfl⟩ := hc
    obtain ⟨j, -, rfl⟩ := hd
    simp only [PTree.K, Finset.mem_singleton] at h1 h2
    simp only [PTree.K]
    rw [← h1, ← h2]

/-- Whatever the solver returns, `HPSP::run` uses at most so many flow computations. -/
theorem hpspRunC_bound (S : FlowSolver) (ε : ℚ) {ord : Partition → List CSet} (hord : Enumerates ord) {g : Digraph}
    {n : ℕ} (hg : g.nodes = List.range n) (hn : 2 ≤ n) {r : Digraph × PSPOut} {c : ℕ}
    (h : hpspRunC S ε ord g = .ok (r, c)) : c ≤ flowBound (n - 1) := by
  have hc : g.countNodes = n := by rw [Digraph.countNodes, hg, List.length_range]
  unfold hpspRunC at h
  rw [hc] at h
  dsimp only at h
  rw [if_neg (by omega)] at h
  obtain ⟨x, x1, x2, -⟩ := hpspSplitC_bound (S := S) (ε := ε) hord (n + 1) g ⟨fun _ => 0, fun _ => 0⟩ 0
    (Finset.range n) (by rw [hg]; exact List.nodup_range) (by rw [hg]; intro v; simp)
    (by rw [Finset.card_range]; exact hn) (by rw [Finset.card_range]; omega)
  have hd : makeDense n = Finset.range n := rfl
  rw [hd, x1, Outcome.ok_bind] at h
  obtain ⟨y, -, h⟩ := Outcome.bind_eq_ok h
  cases h
  rwa [Finset.card_range] at x2

/-- Whatever the solver returns, `PSP_I::run` uses at most so many flow computations. -/
theorem pspiRunC_bound (S : FlowSolver) (ε : ℚ) {ord : Partition → List CSet} (hord : Enumerates ord) {g : Digraph}
    {n : ℕ} (hg : g.nodes = List.range n) (hn : 2 ≤ n) {r : Digraph × PSPOut} {c : ℕ}
    (h : pspiRunC S ε ord g = .ok (r, c)) : c ≤ flowBound (n - 1) := by
  have hc : g.countNodes = n := by rw [Digraph.countNodes, hg, List.length_range]
  unfold pspiRunC at h
  rw [hc] at h
  dsimp only at h
  rw [if_neg (by omega)] at h
  obtain ⟨x, x1, x2, -⟩ := pspiSplitC_bound (S := S) (ε := ε) hord (n + 1) g _ (Finset.range n)
    (by rw [hg]; exact List.nodup_range) (stand_init hg) (by rw [Finset.card_range]; exact hn)
    (by rw [Finset.card_range]; omega)
  rw [x1, Outcome.ok_bind] at h
  obtain ⟨y, -, h⟩ := Outcome.bind_eq_ok h
  cases h
  rwa [Finset.card_range] at x2

end PSP.Theory
