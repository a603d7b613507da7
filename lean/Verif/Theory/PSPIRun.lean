import Verif.Theory.PSPISplit

/-!
# Correctness of `PSP_I::run`
-/

namespace PSP.Theory

open PSP.Spec PSP.Model

variable {E L : List Arc} {V I : Finset ℕ} {P Q R : Partition} {u ε : ℚ} {g : Digraph} {M : Prop}

theorem valLt_iff {a b : Option ℚ} :
    valLt a b = true ↔ ∃ x, a = some x ∧ ∀ y, b = some y → x < y := by
  cases a with
  | none => simp [valLt]
  | some x => cases b with
    | none => simp [valLt]
    | some y => simp [valLt]

theorem not_valLt_trans {a b c : Option ℚ} (h1 : valLt a b = false) (h2 : valLt b c = false) :
    valLt a c = false := by
  rw [← Bool.not_eq_true, valLt_iff] at *
  rintro ⟨x, rfl, hx⟩
  apply h1
  refine ⟨x, rfl, fun y hy => ?_⟩
  subst hy
  by_contra hlt
  push Not at hlt
  apply h2
  exact ⟨y, rfl, fun z hz => lt_of_le_of_lt hlt (hx z hz)⟩

theorem valLt_asymm {a b : Option ℚ} (h : valLt a b = true) : valLt b a = false := by
  rw [← Bool.not_eq_true]
  rw [valLt_iff] at *
  rintro ⟨y, rfl, hy⟩
  obtain ⟨x, rfl, hx⟩ := h
  exact lt_asymm (hx y rfl) (hy x rfl)

/-- The queue is in decreasing order. -/
def Decreasing (q : List PTree) : Prop := q.Pairwise fun a b => valLt a.val b.val = false

theorem queueInsert_perm (t : PTree) (q : List PTree) : (queueInsert t q).Perm (t :: q) := by
  induction q with
  | nil => exact List.Perm.refl _
  | cons s q ih =>
    unfold queueInsert
    split_ifs
    · exact List.Perm.refl _
    · exact (ih.cons s).trans (List.Perm.swap _ _ _)

theorem queueInsert_decreasing (t : PTree) {q : List PTree} (h : Decreasing q) :
    Decreasing (queueInsert t q) := by
  induction q with
  | nil => exact List.pairwise_singleton _ _
  | cons s q ih =>
    obtain ⟨h1, h2⟩ := List.pairwise_cons.1 h
    unfold queueInsert
    split_ifs with hlt
    · refine List.pairwise_cons.2 ⟨fun a ha => ?_, h⟩
      have hts := valLt_asymm hlt
      rcases List.mem_cons.1 ha with rfl | ha
      · exact hts
      · exact not_valLt_trans hts (h1 a ha)
    · refine List.pairwise_cons.2 ⟨fun a ha => ?_, ih h2⟩
      rcases List.mem_cons.1 ((queueInsert_perm t q).mem_iff.1 ha) with rfl | ha
      · simpa using hlt
      · exact h1 a ha

theorem foldl_insert (ch q : List PTree) (h : Decreasing q) :
    (ch.foldl (fun q c => queueInsert c q) q).Perm (ch ++ q) ∧
      Decreasing (ch.foldl (fun q c => queueInsert c q) q) := by
  induction ch generalizing q with
  | nil => exact ⟨List.Perm.refl _, h⟩
  | cons c ch ih =>
    obtain ⟨h1, h2⟩ := ih (queueInsert c q) (queueInsert_decreasing c h)
    refine ⟨h1.trans ?_, h2⟩
    refine ((queueInsert_perm c q).append_left ch).trans ?_
    exact List.perm_middle

/-- The partition shown by the queue. -/
def shown (q : List PTree) : Partition := (q.map PTree.K).toFinset

/-- Invariant of the queue. -/
structure QInv (M : Prop) (E : List Arc) (V : Finset ℕ) (lam : ℚ) (q : List PTree) : Prop where
  nodup : (q.map PTree.K).Nodup
  opt : IsOptimal E V lam (shown q)
  good : ∀ t ∈ q, Good M E t
  ge : ∀ t ∈ q, ∀ m, t.val = some m → lam ≤ m
  dec : Decreasing q

theorem QInv.card {lam : ℚ} {q : List PTree} (h : QInv M E V lam q) : (shown q).card = q.length := by
  unfold shown
  rw [List.toFinset_card_of_nodup h.nodup, List.length_map]

theorem queueLoop_spec (hE : NonnegE E) (hW : Within E V) (hV : V.Nonempty) (k : ℕ) :
    ∀ (lam : ℚ) (q : List PTree), QInv M E V lam q → V.card + 1 ≤ k + q.length →
      ∃ t, queueLoop k q = .ok (shown q :: t.map Prod.snd, t.map Prod.fst) ∧
        Linked E V (shown q) t ∧ lastOf (shown q) t = singletons V := by
  induction k with
  | zero =>
    intro lam q h hk
    have := h.opt.1.card_le
    rw [h.card] at this
    omega
  | succ k ih =>
    intro lam q h hk
    have hqne : q ≠ [] := by
      rintro rfl
      have := h.opt.1.card_pos hV
      rw [h.card] at this
      simp at this
    obtain ⟨q0, t, rfl⟩ := List.eq_nil_or_concat q |>.resolve_left hqne
    rw [List.concat_eq_append] at *
    have hlast : (q0 ++ [t]).getLast? = some t := by simp
    have htm : t ∈ q0 ++ [t] := by simp
    have hgt := h.good t htm
    have hmin : ∀ s ∈ q0 ++ [t], valLt s.val t.val = false := by
      intro s hs
      rcases List.mem_append.1 hs with hs | hs
      · exact (List.pairwise_append.1 h.dec).2.2 s hs t (by simp)
      · rw [List.mem_singleton.1 hs, ← Bool.not_eq_true, valLt_iff]
        rintro ⟨x, hx, hx'⟩
        exact lt_irrefl x (hx' x hx)
    unfold queueLoop
    simp only [hlast]
    cases hv : t.val with
    | none =>
      refine ⟨[], rfl, trivial, ?_⟩
      show shown (q0 ++ [t]) = singletons V
      apply singletons_of_refines h.opt.1
      intro B hB
      obtain ⟨s, hs, rfl⟩ := List.mem_map.1 (List.mem_toFinset.1 hB)
      have hsn := hmin s hs
      rw [hv, ← Bool.not_eq_true, valLt_iff] at hsn
      cases hg : h.good s hs with
      | leaf v =>
        refine ⟨{v}, Finset.mem_image_of_mem _ ?_, subset_rfl⟩
        exact h.opt.1.subset hB (by simp [PTree.K])
      | node K l ch _ _ _ _ _ _ =>
        exact absurd ⟨l, rfl, by simp⟩ hsn
    | some l =>
      cases hgt with
      | leaf v => simp [PTree.val] at hv
      | node K l' ch hch hval hlen hnd hopt htop =>
        simp only [PTree.val, Option.some.injEq] at hv
        subst hv
        have hge : ∀ s ∈ q0 ++ [PTree.node K (some l') ch], ∀ m, s.val = some m → l' ≤ m := by
          intro s hs m hm
          have := hmin s hs
          rw [hm, ← Bool.not_eq_true, valLt_iff] at this
          by_contra hlt
          push Not at hlt
          apply this
          refine ⟨m, rfl, fun y hy => ?_⟩
          simp only [PTree.val, Option.some.injEq] at hy
          rw [← hy]; exact hlt
        set q1 := q0 ++ [PTree.node K (some l') ch] with hq1
        have hKm : K ∈ shown q1 := List.mem_toFinset.2 (List.mem_map.2 ⟨_, htm, rfl⟩)
        have hblk : ∀ B ∈ shown q1, IsOptimal (induced E B) B l' {B} := by
          intro B hB
          obtain ⟨s, hs, rfl⟩ := List.mem_map.1 (List.mem_toFinset.1 hB)
          exact (h.good s hs).single fun m hm => hge s hs m hm
        have hlaml : lam ≤ l' := h.ge _ htm l' rfl
        have ho1 : IsOptimal E V l' (shown q1) := h.opt.raise hE hW hlaml hblk
        have hq0n : K ∉ q0.map PTree.K := by
          have hn := h.nodup
          rw [List.map_append, List.nodup_append] at hn
          intro hm
          exact hn.2.2 K hm K (by simp [PTree.K]) rfl
        have hdec0 : Decreasing q0 := (List.pairwise_append.1 h.dec).1
        obtain ⟨hperm, hdec'⟩ := foldl_insert ch q0 hdec0
        set q' := ch.foldl (fun q c => queueInsert c q) q0 with hq'
        have hdrop : q1.dropLast = q0 := by rw [hq1]; simp
        have hshown : shown q' =
            (shown q1).biUnion fun C => if C = K then (ch.map PTree.K).toFinset else {C} := by
          ext A
          have hmem : A ∈ shown q' ↔ A ∈ ch.map PTree.K ∨ A ∈ q0.map PTree.K := by
            unfold shown
            rw [List.mem_toFinset, (hperm.map PTree.K).mem_iff, List.map_append, List.mem_append]
          have hmem1 : ∀ C, C ∈ shown q1 ↔ C ∈ q0.map PTree.K ∨ C = K := by
            intro C
            unfold shown
            rw [List.mem_toFinset, hq1, List.map_append, List.mem_append]
            simp [PTree.K]
          rw [hmem, Finset.mem_biUnion]
          constructor
          · rintro (hA | hA)
            · exact ⟨K, hKm, by simpa using hA⟩
            · refine ⟨A, (hmem1 A).2 (Or.inl hA), ?_⟩
              have hAK : A ≠ K := by rintro rfl; exact hq0n hA
              rw [if_neg hAK]; simp
          · rintro ⟨C, hC, hA⟩
            by_cases hCK : C = K
            · rw [if_pos hCK] at hA; exact Or.inl (List.mem_toFinset.1 hA)
            · rw [if_neg hCK, Finset.mem_singleton] at hA
              rw [hA]
              exact Or.inr (((hmem1 C).1 hC).resolve_right hCK)
        have hQp : ∀ C ∈ shown q1, IsOptimal (induced E C) C l'
            (if C = K then (ch.map PTree.K).toFinset else {C}) := by
          intro C hC
          by_cases hCK : C = K
          · rw [if_pos hCK, hCK]; exact hopt
          · rw [if_neg hCK]; exact hblk C hC
        have ho2 : IsOptimal E V l' (shown q') := by
          rw [hshown]; exact ho1.glue hE hW le_rfl hQp
        have hnd' : (q'.map PTree.K).Nodup := by
          rw [(hperm.map PTree.K).nodup_iff, List.map_append, List.nodup_append]
          have hn := h.nodup
          rw [List.map_append, List.nodup_append] at hn
          refine ⟨hnd, hn.1, ?_⟩
          rintro A hA B hB rfl
          have hAK := hopt.1.subset (List.mem_toFinset.2 hA)
          obtain ⟨v, hv⟩ := hopt.1.nonempty (List.mem_toFinset.2 hA)
          have hAq : A ∈ shown q1 := List.mem_toFinset.2 (by
            rw [List.map_append, List.mem_append]; exact Or.inl hB)
          exact hq0n (ho1.1.eq_of_mem hAq hKm hv (hAK hv) ▸ hB)
        have hinv : QInv M E V l' q' := by
          refine ⟨hnd', ho2, ?_, ?_, hdec'⟩
          · intro s hs
            rcases List.mem_append.1 (hperm.mem_iff.1 hs) with hs | hs
            · exact hch s hs
            · exact h.good s (by rw [hq1]; simp [hs])
          · intro s hs m hm
            rcases List.mem_append.1 (hperm.mem_iff.1 hs) with hs | hs
            · exact (hval s hs m hm).1
            · exact hge s (by rw [hq1]; simp [hs]) m hm
        have hlen' : q'.length = ch.length + q0.length := by rw [hperm.length_eq, List.length_append]
        have hl1 : q1.length = q0.length + 1 := by rw [hq1]; simp
        obtain ⟨t, ht, hlk, hls⟩ := ih l' q' hinv (by omega)
        refine ⟨(l', shown q') :: t, ?_, ?_, hls⟩
        · show (do
            let x ← queueLoop k (List.foldl (fun q c => queueInsert c q) q1.dropLast ch)
            pure ((q1.map PTree.K).toFinset :: x.1, l' :: x.2)) = _
          rw [hdrop, ← hq', ht]
          rfl
        · refine ⟨ho1, ho2, ⟨?_, ?_⟩, hlk⟩
          · rw [hshown]; exact biUnion_refines fun C hC => (hQp C hC).1
          · intro he
            have h1 := hinv.card
            have h2 := h.card
            rw [he] at h1
            omega

/-! ### run -/

theorem rep_init {n : ℕ} (hg : GoodDigraph g n) (hu : Granular u g.arcs) :
    Rep g.arcs (Finset.range n) u g id where
  sorted := by rw [hg.nodes]; exact List.pairwise_lt_range
  good := by
    have := hg.good
    rwa [hg.nodes, show (List.range n).toFinset = Finset.range n by ext; simp]
  gran := hu
  sub i hi := by rw [hg.nodes] at hi; simpa using hi
  fix _ _ := rfl
  maps v hv := by rw [hg.nodes]; simpa using hv
  le _ _ := le_rfl
  weight _ _ _ _ _ := rfl

theorem pull_id (V I : Finset ℕ) (h : I ⊆ V) : pull id V (singletons I) = singletons I := by
  ext A
  rw [mem_pull_singletons]
  simp only [singletons, Finset.mem_image]
  constructor
  · rintro ⟨i, hi, rfl⟩
    refine ⟨i, hi, ?_⟩
    ext v
    rw [mem_pullB, Finset.mem_singleton]
    constructor
    · rintro rfl; exact ⟨h hi, by simp⟩
    · intro e; simpa using e.2
  · rintro ⟨i, hi, rfl⟩
    refine ⟨i, hi, ?_⟩
    ext v
    rw [mem_pullB, Finset.mem_singleton]
    constructor
    · intro e; simpa using e.2
    · intro e; have e := Finset.mem_singleton.1 e; subst e; exact ⟨h hi, rfl⟩

theorem pullB_id {V I : Finset ℕ} (h : I ⊆ V) : pullB id V I = I := by
  ext v; rw [mem_pullB]; exact ⟨fun e => e.2, fun e => ⟨h e, e⟩⟩

theorem kids_init (n : ℕ) : Kids id (Finset.range n) (Finset.range n)
    ((List.range n).reverse.map fun i => PTree.leaf {i}) := by
  have hm : ((List.range n).reverse.map fun i => PTree.leaf {i}).map PTree.K =
      (List.range n).reverse.map fun i => ({i} : CSet) := by
    rw [List.map_map]; rfl
  constructor
  · rw [hm]
    refine List.Nodup.map (fun a b h => by simpa using h) ?_
    rw [List.nodup_reverse]; exact List.nodup_range
  · rw [hm, pull_id _ _ subset_rfl]
    ext A
    simp [singletons]

/-- The run of `split` on the whole graph, with any way to decide. -/
theorem splitO_run {dec : Decide} {n : ℕ} {M1 : Prop} (hn : 2 ≤ n) (hg : GoodDigraph g n)
    (hdec : DecideSpec M1 dec g.arcs (Finset.range n) u) {ord : Partition → List CSet}
    (hord : Enumerates ord) (hε : 0 < ε) (hεu : ε ≤ u) (hgr : Granular u g.arcs)
    (hnb : M → M1 ∨ NoBetween g.arcs (Finset.range n)) :
    ∃ g' ch l, pspiSplitO dec ε ord (n + 1) g ((List.range n).reverse.map fun i => PTree.leaf {i}) =
        .ok (g', some l, ch) ∧
      Good M g.arcs (.node (Finset.range n) (some l) ch) ∧
      HSim dec ε ord (n + 1) g (Finset.range n) ((List.range n).reverse.map fun i => PTree.leaf {i}) g'
        (Finset.range n) l ch := by
  set V := Finset.range n with hV
  have hVc : V.card = n := by simp [hV]
  have hE := hg.good.nonneg
  have hW := hg.good.within
  have hVn : V ⊆ g.nodes.toFinset := by
    intro i hi; rw [List.mem_toFinset, hg.nodes]; simpa [hV] using hi
  obtain ⟨g', φ', I', ch', l, he, hpost, hgood, hsim⟩ := split_spec (M := M) hdec hord hE hW hε hεu
    (n + 1) g id V _ (rep_init hg hgr) hVn (by omega) (by omega) (kids_init n)
    (fun c hc => by
      obtain ⟨i, _, rfl⟩ := List.mem_map.1 hc
      exact Good.leaf i)
    ⟨crossWeight g.arcs (singletons V), fun c hc m hm => by
      obtain ⟨i, _, rfl⟩ := List.mem_map.1 hc
      simp [PTree.val] at hm, by
      rw [pullB_id subset_rfl, pull_id _ _ subset_rfl, induced_self hW]
      exact isOptimal_singletons hE le_rfl, fun _ => Or.inl fun c hc m hm => by
      obtain ⟨i, _, rfl⟩ := List.mem_map.1 hc
      simp [PTree.val] at hm⟩
    (by rw [pullB_id subset_rfl, induced_self hW]; exact hnb)
  rw [pullB_id subset_rfl] at hgood hsim
  exact ⟨g', ch', l, he, hgood, hsim⟩

/-- The queue on a good tree. -/
theorem queue_run {n : ℕ} (hn : 2 ≤ n) (hg : GoodDigraph g n) {l : ℚ} {ch : List PTree}
    (hgood : Good M g.arcs (.node (Finset.range n) (some l) ch)) :
    ∃ t, queueLoop (2 * n) [PTree.node (Finset.range n) (some l) ch] =
        .ok ({Finset.range n} :: t.map Prod.snd, t.map Prod.fst) ∧
      Linked g.arcs (Finset.range n) {Finset.range n} t ∧
      lastOf {Finset.range n} t = singletons (Finset.range n) := by
  set V := Finset.range n with hV
  have hVc : V.card = n := by simp [hV]
  have hVne : V.Nonempty := Finset.card_pos.1 (by omega)
  have hE := hg.good.nonneg
  have hW := hg.good.within
  have hq : QInv M g.arcs V l [.node V (some l) ch] := by
    refine ⟨by simp, ?_, ?_, ?_, List.pairwise_singleton _ _⟩
    · have hs := hgood.single (lam := l) fun m hm => by
        simp only [PTree.val, Option.some.injEq] at hm; exact hm.le
      simp only [PTree.K] at hs
      rw [induced_self hW] at hs
      exact hs
    · intro t ht; rw [List.mem_singleton.1 ht]; exact hgood
    · intro t ht m hm
      rw [List.mem_singleton.1 ht] at hm
      simp only [PTree.val, Option.some.injEq] at hm
      exact hm.le
  obtain ⟨t, ht, hlk, hls⟩ := queueLoop_spec hE hW hVne (2 * n) l _ hq (by
    rw [hVc]; simp; omega)
  have hsh : shown [PTree.node V (some l) ch] = {V} := by simp [shown, PTree.K]
  rw [hsh] at ht hlk hls
  exact ⟨t, ht, hlk, hls⟩

theorem pspiRun_spec {S : FlowSolver} (hS : S.Correct) {ord : Partition → List CSet}
    (hord : Enumerates ord) {n : ℕ} (hn : 2 ≤ n) (hg : GoodDigraph g n) (hε : 0 < ε)
    (hgr : Granular u g.arcs) (hgap : ε * ((n : ℚ) - 1) < u) :
    ∃ g' t, pspiRun S ε ord g = .ok (g', ⟨{Finset.range n} :: t.map Prod.snd, t.map Prod.fst⟩) ∧
      Linked g.arcs (Finset.range n) {Finset.range n} t ∧
      lastOf {Finset.range n} t = singletons (Finset.range n) := by
  have hεu : ε ≤ u := by
    have : (2 : ℚ) ≤ n := by exact_mod_cast hn
    nlinarith
  have hcn : g.countNodes = n := by rw [Digraph.countNodes, hg.nodes, List.length_range]
  obtain ⟨g', ch, l, he, hgood, _⟩ := splitO_run hn hg (decideI_spec (E := g.arcs) (V := Finset.range n) hS hε hεu
    (by rw [Finset.card_range]; exact hgap)) hord hε hεu hgr (M := S.Minimal) Or.inl
  obtain ⟨t, ht, hlk, hls⟩ := queue_run hn hg hgood
  refine ⟨g', t, ?_, hlk, hls⟩
  unfold pspiRun
  simp only [hcn]
  rw [if_neg (by omega), pspiSplit_eq, he, Outcome.ok_bind]
  simp only
  rw [show makeDense n = Finset.range n from rfl, ht]
  rfl

end PSP.Theory
