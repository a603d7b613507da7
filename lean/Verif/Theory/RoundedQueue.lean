import Verif.Theory.RoundedPSPI

/-!
# `PSP_I::run` and `HPSP::run` with rounded arithmetic

The last parts of both methods only compare values. Rounding keeps the order of the values that occur.
-/

namespace PSP.Theory

open PSP.Spec PSP.Model

variable {E : List Arc} {M : Prop}

/-! ### the values that occur -/

/-- Quotients of an integer and a positive integer below `n`, between 0 and `W`. -/
def Slope (n : ℕ) (W l : ℚ) : Prop := (∃ (w : ℤ) (d : ℕ), 1 ≤ d ∧ d < n ∧ l * d = w) ∧ 0 ≤ l ∧ l ≤ W

/-- Rounding keeps two such values apart. -/
theorem Slope.lt {fl : ℚ → ℚ} {u N W a b : ℚ} {n : ℕ} (hfl : Rounds fl u N) (hn : 2 * (n * n * u * W) < 1)
    (ha : Slope n W a) (hb : Slope n W b) (h : a < b) : fl a < fl b := by
  obtain ⟨⟨w, d, hd, hdn, hw⟩, ha0, haW⟩ := ha
  obtain ⟨⟨w', d', hd', hdn', hw'⟩, hb0, hbW⟩ := hb
  have hdq : (1 : ℚ) ≤ d := by exact_mod_cast hd
  have hdq' : (1 : ℚ) ≤ d' := by exact_mod_cast hd'
  have hdn : (d : ℚ) ≤ n := by exact_mod_cast hdn.le
  have hdn' : (d' : ℚ) ≤ n := by exact_mod_cast hdn'.le
  have hdd : (0 : ℚ) < d * d' := by positivity
  have hu := hfl.nonneg
  have hWu : 0 ≤ u * W := mul_nonneg hu (ha0.trans haW)
  have h1 : (1 : ℚ) ≤ (b - a) * (d * d') := by
    have e : (b - a) * (d * d') = ((w' * d - w * d' : ℤ) : ℚ) := by
      push_cast; rw [← hw, ← hw']; ring
    have hp : 0 < (b - a) * (d * d') := mul_pos (by linarith) hdd
    rw [e] at hp ⊢
    have : (0 : ℤ) < w' * d - w * d' := by exact_mod_cast hp
    exact_mod_cast this
  have h2 : (b - a) * (d * d') ≤ (b - a) * (n * n) :=
    mul_le_mul_of_nonneg_left (mul_le_mul hdn hdn' (by linarith) (by linarith)) (by linarith)
  have hW0 : 0 ≤ W := ha0.trans haW
  have hnW : 1 ≤ n * W := by
    have hp : (0 : ℚ) < b * d' := mul_pos (by linarith) (by linarith)
    rw [hw'] at hp
    have h3 : (1 : ℚ) ≤ b * d' := by
      rw [hw']
      have : (0 : ℤ) < w' := by exact_mod_cast hp
      exact_mod_cast this
    have h4 : b * d' ≤ W * n := mul_le_mul hbW hdn' (by linarith) hW0
    linarith
  have huK : u ≤ W := by
    have h3 : (n * u) * 1 ≤ (n * u) * (n * W) := mul_le_mul_of_nonneg_left hnW (by positivity)
    have h4 : n * u ≤ n * W := by linarith
    exact le_of_mul_le_mul_left h4 (by linarith)
  have huM : u * W ≤ N := by
    have h3 : u * W ≤ n * (u * W) := by nlinarith
    have h4 : n * (u * W) ≤ n * (n * (u * W)) := by nlinarith
    linarith [hfl.one_le]
  have ra' := abs_le.1 (hfl.err (x := a) (by rw [abs_of_nonneg ha0]; exact haW) huK huM)
  have rb' := abs_le.1 (hfl.err (x := b) (by rw [abs_of_nonneg hb0]; exact hbW) huK huM)
  have h3 : 2 * (u * W) < b - a := by
    have hnn : (0 : ℚ) < n * n := by nlinarith
    have : 2 * (u * W) * (n * n) < (b - a) * (n * n) := by nlinarith
    exact lt_of_mul_lt_mul_right this hnn.le
  linarith

/-- `f` is strictly monotone on the values with `X`. -/
def StrictOn (X : ℚ → Prop) (f : ℚ → ℚ) : Prop := ∀ a b, X a → X b → a < b → f a < f b

theorem StrictOn.lt_iff {X : ℚ → Prop} {f : ℚ → ℚ} (h : StrictOn X f) {a b : ℚ} (ha : X a) (hb : X b) :
    f a < f b ↔ a < b := by
  refine ⟨fun hlt => ?_, h a b ha hb⟩
  rcases lt_trichotomy a b with h1 | h1 | h1
  · exact h1
  · rw [h1] at hlt; exact absurd hlt (lt_irrefl _)
  · exact absurd (h b a hb ha h1) (not_lt.2 hlt.le)

theorem StrictOn.eq_iff {X : ℚ → Prop} {f : ℚ → ℚ} (h : StrictOn X f) {a b : ℚ} (ha : X a) (hb : X b) :
    f a = f b ↔ a = b := by
  refine ⟨fun he => ?_, fun he => by rw [he]⟩
  rcases lt_trichotomy a b with h1 | h1 | h1
  · exact absurd he (h a b ha hb h1).ne
  · exact h1
  · exact absurd he.symm (h b a hb ha h1).ne

/-- All values in the tree satisfy `X`. -/
inductive Vals (X : ℚ → Prop) : PTree → Prop
  | leaf (K : CSet) : Vals X (.leaf K)
  | node (K : CSet) (l : ℚ) (ch : List PTree) (hl : X l) (hch : ∀ c ∈ ch, Vals X c) : Vals X (.node K (some l) ch)

theorem Vals.val {X : ℚ → Prop} {t : PTree} (h : Vals X t) {l : ℚ} (hl : t.val = some l) : X l := by
  cases h with
  | leaf K => simp [PTree.val] at hl
  | node K l' ch hX _ =>
    simp only [PTree.val, Option.some.injEq] at hl
    rw [← hl]; exact hX

theorem Vals.children {X : ℚ → Prop} {t : PTree} (h : Vals X t) : ∀ c ∈ t.children, Vals X c := by
  cases h with
  | leaf K => simp [PTree.children]
  | node K l ch _ hch => exact hch

/-- The values of a good tree. -/
theorem Good.vals (hE : NonnegE E) (hi : IntegerCaps E) {n : ℕ} {W : ℚ} (hW : totalCap E ≤ W) {t : PTree}
    (h : Good M E t) (hn : t.K.card ≤ n) : Vals (Slope n W) t := by
  induction h with
  | leaf v => exact Vals.leaf _
  | node K l ch hch hval hlen hnd hopt htop ih =>
    refine Vals.node _ _ _ ?_ fun c hc => ih c hc ?_
    · have hc := hopt.cost_eq htop
      unfold cost at hc
      rw [crossWeight_single (induced_within _ _)] at hc
      have hcard : (ch.map PTree.K).toFinset.card = ch.length := by
        rw [List.toFinset_card_of_nodup hnd, List.length_map]
      have hle := hopt.1.card_le
      rw [hcard] at hc hle
      have hk : K.card ≤ n := hn
      simp only [Finset.card_singleton, Nat.cast_one, mul_one] at hc
      obtain ⟨w, hw⟩ := (IntegerCaps.granular (E := induced E K) fun e he => hi e (mem_induced.1 he).1).crossWeight
        (ch.map PTree.K).toFinset
      have hb := crossWeight_le_total (induced_nonneg hE K) (ch.map PTree.K).toFinset
      have hb2 := totalCap_induced_le hE K
      have hq : (2 : ℚ) ≤ ch.length := by exact_mod_cast hlen
      have hl : l * ((ch.length : ℚ) - 1) = crossWeight (induced E K) (ch.map PTree.K).toFinset := by linarith
      have hl0 : 0 ≤ l := by
        by_contra hneg
        push Not at hneg
        nlinarith
      refine ⟨⟨w, ch.length - 1, by omega, by omega, ?_⟩, hl0, ?_⟩
      · rw [Nat.cast_sub (by omega), Nat.cast_one, hl, hw, mul_one]
      · nlinarith
    · have : c.K ∈ (ch.map PTree.K).toFinset := List.mem_toFinset.2 (List.mem_map_of_mem hc)
      exact (Finset.card_le_card (hopt.1.subset this)).trans hn

/-! ### the queue -/

theorem valLt_map {X : ℚ → Prop} {f : ℚ → ℚ} (hf : StrictOn X f) {s t : PTree} (hs : Vals X s) (ht : Vals X t) :
    valLt (mapVal f s).val (mapVal f t).val = valLt s.val t.val := by
  rw [mapVal_val, mapVal_val]
  rcases h1 : s.val with _ | a <;> rcases h2 : t.val with _ | b
  · rfl
  · rfl
  · rfl
  · show decide (f a < f b) = decide (a < b)
    rw [decide_eq_decide]
    exact hf.lt_iff (hs.val h1) (ht.val h2)

theorem queueInsert_map {X : ℚ → Prop} {f : ℚ → ℚ} (hf : StrictOn X f) {t : PTree} (ht : Vals X t) (q : List PTree)
    (hq : ∀ s ∈ q, Vals X s) : queueInsert (mapVal f t) (q.map (mapVal f)) = (queueInsert t q).map (mapVal f) ∧
      ∀ s ∈ queueInsert t q, Vals X s := by
  induction q with
  | nil => exact ⟨rfl, fun s hs => by rw [queueInsert, List.mem_singleton] at hs; rw [hs]; exact ht⟩
  | cons s q ih =>
    have hs := hq s List.mem_cons_self
    obtain ⟨h1, h2⟩ := ih fun x hx => hq x (List.mem_cons_of_mem _ hx)
    rw [List.map_cons, queueInsert, queueInsert, valLt_map hf hs ht]
    split
    · refine ⟨rfl, fun x hx => ?_⟩
      rcases List.mem_cons.1 hx with rfl | hx
      · exact ht
      · exact hq x hx
    · refine ⟨by rw [h1]; rfl, fun x hx => ?_⟩
      rcases List.mem_cons.1 hx with rfl | hx
      · exact hs
      · exact h2 x hx

theorem queueFold_map {X : ℚ → Prop} {f : ℚ → ℚ} (hf : StrictOn X f) (ch : List PTree) :
    ∀ q, (∀ c ∈ ch, Vals X c) → (∀ s ∈ q, Vals X s) →
      (ch.map (mapVal f)).foldl (fun q c => queueInsert c q) (q.map (mapVal f)) =
        (ch.foldl (fun q c => queueInsert c q) q).map (mapVal f) ∧
      ∀ s ∈ ch.foldl (fun q c => queueInsert c q) q, Vals X s := by
  induction ch with
  | nil => intro q _ hq; exact ⟨rfl, hq⟩
  | cons c ch ih =>
    intro q hch hq
    obtain ⟨h1, h2⟩ := queueInsert_map hf (hch c List.mem_cons_self) q hq
    simp only [List.map_cons, List.foldl_cons]
    rw [h1]
    exact ih _ (fun x hx => hch x (List.mem_cons_of_mem _ hx)) h2

theorem queueLoop_map {X : ℚ → Prop} {f : ℚ → ℚ} (hf : StrictOn X f) (k : ℕ) :
    ∀ q, (∀ s ∈ q, Vals X s) → queueLoop k (q.map (mapVal f)) =
      (queueLoop k q >>= fun x => pure (x.1, x.2.map f)) := by
  induction k with
  | zero => intro q _; rfl
  | succ k ih =>
    intro q hq
    rw [queueLoop, queueLoop, List.getLast?_map]
    rcases ht : q.getLast? with _ | t
    · rfl
    · have htq := hq t (List.mem_of_getLast? ht)
      simp only [Option.map_some]
      rw [mapVal_mapK, mapVal_val, mapVal_children]
      rcases hv : t.val with _ | l
      · rfl
      · simp only [Option.map_some]
        rw [← List.map_dropLast]
        obtain ⟨h1, h2⟩ := queueFold_map hf t.children q.dropLast htq.children
          fun s hs => hq s (List.mem_of_mem_dropLast hs)
        rw [h1, ih _ h2]
        generalize queueLoop k _ = o
        cases o <;> rfl

/-! ### the arrays of `HPSP` -/

theorem mergeGamma_map {X : ℚ → Prop} {f : ℚ → ℚ} (hf : StrictOn X f) (hX : ∀ x, X x → 0 ≤ x) (hf0 : ∀ x, 0 ≤ x → 0 ≤ f x)
    (W : ℕ → ℚ) (C : List ℕ) (hC : ∀ j ∈ C, X (W j)) (hne : C ≠ []) :
    mergeGamma (fun n => f (W n)) C = f (mergeGamma W C) ∧ X (mergeGamma W C) := by
  unfold mergeGamma
  have key : ∀ C : List ℕ, (∀ j ∈ C, X (W j)) → ∀ γ, X γ →
      C.foldl (fun γ j => if γ < f (W j) then f (W j) else γ) (f γ) =
        f (C.foldl (fun γ j => if γ < W j then W j else γ) γ) ∧
      X (C.foldl (fun γ j => if γ < W j then W j else γ) γ) := by
    intro C
    induction C with
    | nil => intro _ γ hγ; exact ⟨rfl, hγ⟩
    | cons j C ih =>
      intro hC γ hγ
      have hj := hC j List.mem_cons_self
      simp only [List.foldl_cons]
      by_cases h : γ < W j
      · rw [if_pos h, if_pos ((hf.lt_iff hγ hj).2 h)]
        exact ih (fun x hx => hC x (List.mem_cons_of_mem _ hx)) _ hj
      · rw [if_neg h, if_neg fun h' => h ((hf.lt_iff hγ hj).1 h')]
        exact ih (fun x hx => hC x (List.mem_cons_of_mem _ hx)) _ hγ
  cases C with
  | nil => exact absurd rfl hne
  | cons j C =>
    have hj := hC j List.mem_cons_self
    have h0 := hX _ hj
    have h1 := hf0 _ h0
    simp only [List.foldl_cons]
    rw [if_pos (by linarith), if_pos (by linarith)]
    exact key C (fun x hx => hC x (List.mem_cons_of_mem _ hx)) _ hj

theorem mergeLoop_map {X : ℚ → Prop} {f : ℚ → ℚ} (hf : StrictOn X f) (hX : ∀ x, X x → 0 ≤ x) (hf0 : ∀ x, 0 ≤ x → 0 ≤ f x)
    (n : ℕ) (st : HState) (k : ℕ) : ∀ C D psp cv, (∀ j ∈ C, X (st.W j)) →
      mergeLoop n (mapW f st) k C D psp (cv.map f) =
        (mergeLoop n st k C D psp cv >>= fun x => pure (x.1, x.2.map f)) := by
  induction k with
  | zero => intro C D psp cv _; rfl
  | succ k ih =>
    intro C D psp cv hC
    rw [mergeLoop, mergeLoop]
    by_cases hlen : C.length ≤ 1
    · rw [if_pos hlen, if_pos hlen]; rfl
    · rw [if_neg hlen, if_neg hlen]
      have hne : C ≠ [] := by rintro rfl; simp at hlen
      obtain ⟨h1, h2⟩ := mergeGamma_map hf hX hf0 st.W C hC hne
      dsimp only
      have e1 : mergeGamma (mapW f st).W C = f (mergeGamma st.W C) := h1
      rw [e1]
      set γ := mergeGamma st.W C
      have e2 : (C.filter fun j => ¬ (mapW f st).W j = f γ) = C.filter fun j => ¬ st.W j = γ := by
        apply List.filter_congr
        intro j hj
        rw [decide_eq_decide]
        exact not_congr (hf.eq_iff (hC j hj) h2)
      have e3 : mergeD (mapW f st).W (mapW f st).K (f γ) C D = mergeD st.W st.K γ C D := by
        unfold mergeD
        have : (C.filter fun j => (mapW f st).W j = f γ) = C.filter fun j => st.W j = γ := by
          apply List.filter_congr
          intro j hj
          rw [decide_eq_decide]
          exact hf.eq_iff (hC j hj) h2
        rw [this]
        rfl
      rw [e2, e3]
      exact ih _ _ _ (γ :: cv) fun j hj => hC j (List.mem_filter.1 hj).1

theorem pspConstruct_map {X : ℚ → Prop} {f : ℚ → ℚ} (hf : StrictOn X f) (hX : ∀ x, X x → 0 ≤ x)
    (hf0 : ∀ x, 0 ≤ x → 0 ≤ f x) (n : ℕ) (st : HState) (h : ∀ v < n, X (st.W v)) :
    pspConstruct n (mapW f st) = (pspConstruct n st >>= fun x => pure ⟨x.psp, x.cv.map f⟩) := by
  unfold pspConstruct
  have := mergeLoop_map hf hX hf0 n st (n + 1) (List.range n) (fun _ => none) [] [] fun j hj => h j (by simpa using hj)
  rw [List.map_nil] at this
  rw [this]
  generalize mergeLoop n st (n + 1) (List.range n) (fun _ => none) [] [] = o
  cases o <;> rfl

/-- All values in the arrays come from the tree. -/
theorem enc_vals {X : ℚ → Prop} {st : HState} {t : PTree} (hg : Good M E t) (henc : Enc st t) (hv : Vals X t) :
    ∀ v ∈ t.K, v ≠ firstElem t.K → X (st.W v) := by
  induction hg with
  | leaf w =>
    intro v hv hne
    simp only [PTree.K, Finset.mem_singleton] at hv hne
    exfalso
    apply hne
    rw [hv]
    have := firstElem_mem (B := {w}) (by simp)
    exact (Finset.mem_singleton.1 this).symm
  | node K l ch hch hval hlen hnd hopt htop ih =>
    cases henc with
    | node _ _ _ hce hcv =>
    cases hv with
    | node _ _ _ hXl hXc =>
    intro v hvK hne
    simp only [PTree.K] at hvK hne
    obtain ⟨B, hB, hvB⟩ := hopt.1.exists_block hvK
    obtain ⟨c, hc, rfl⟩ := List.mem_map.1 (List.mem_toFinset.1 hB)
    by_cases h : v = firstElem c.K
    · rw [h] at hne ⊢
      rw [(hcv c hc hne).1]
      exact hXl
    · exact ih c hc (hce c hc) (hXc c hc) v hvB h

/-! ### the runs -/

theorem wholeOf {S : FlowSolver} {fl : ℚ → ℚ} {g : Digraph} {n : ℕ} {u N δ W e : ℚ} (H : Small S fl g.arcs n u N δ W e)
    (hg : GoodDigraph g n) (hi : IntegerCaps g.arcs) (hM : n * W ≤ N) : Whole N g where
  nodup := by rw [hg.nodes]; exact List.nodup_range
  nonneg := hg.good.nonneg
  int := hi
  total := by
    have h1 : (1 : ℚ) ≤ n := by exact_mod_cast H.pos
    have h2 := H.one
    have h3 := H.total
    nlinarith

theorem strictOn_fl {S : FlowSolver} {fl : ℚ → ℚ} {E : List Arc} {n : ℕ} {u N δ W e ε : ℚ}
    (H : Small S fl E n u N δ W e) (hε : 2 * n * δ + 60 * (n * n * u * W) < ε) (hnε : 2 * n * ε ≤ 1) :
    StrictOn (Slope n W) fl := by
  intro a b ha hb hab
  refine Slope.lt H.rounds ?_ ha hb hab
  have h1 : (1 : ℚ) ≤ n := by exact_mod_cast H.pos
  have h2 := H.one
  have h3 := H.err
  have h4 := H.rounds.nonneg
  have h5 : 0 ≤ n * n * u * W := by positivity
  have h6 : 0 ≤ n * δ := by positivity
  have h7 : 0 < ε := by nlinarith
  nlinarith

/-- The run of `PSP_I` with rounded arithmetic: the partitions are exact, the values are rounded. -/
theorem pspiRunF_spec {S : FlowSolver} {fl : ℚ → ℚ} {g : Digraph} {n : ℕ} {u N δ W e ε : ℚ}
    (H : Small S fl g.arcs n u N δ W e) (hg : GoodDigraph g n) (hn : 2 ≤ n) (hi : IntegerCaps g.arcs)
    (hM : n * W ≤ N) (hε : 2 * n * δ + 60 * (n * n * u * W) < ε) (hnε : 2 * n * ε ≤ 1)
    {ord : Partition → List CSet} (hord : Enumerates ord) {ao : List Arc → List Arc} (hao : ∀ l, (ao l).Perm l) :
    ∃ g' t, pspiRunF fl ao S ε ord g =
        .ok (g', ⟨{Finset.range n} :: t.map Prod.snd, (t.map Prod.fst).map fl⟩) ∧
      Linked g.arcs (Finset.range n) {Finset.range n} t ∧
      lastOf {Finset.range n} t = singletons (Finset.range n) := by
  have hcn : g.countNodes = n := by rw [Digraph.countNodes, hg.nodes, List.length_range]
  have hnq : (2 : ℚ) ≤ n := by exact_mod_cast hn
  have h3 := H.err
  have h4 := H.rounds.nonneg
  have hε0 : 0 < ε := by
    have hW := H.one
    have h5 : 0 ≤ n * n * u * W := by positivity
    have h6 : 0 ≤ n * δ := by positivity
    linarith
  have hε1 : ε ≤ 1 := by nlinarith
  have hwh := wholeOf H hg hi hM
  obtain ⟨g', ch, l, he, hgood, _⟩ := splitO_run hn hg (decideF_spec H hg.good.nonneg hg.good.within
    (by rw [Finset.card_range]) hM hε hnε hao) hord hε0 hε1 hi.granular (M := False) False.elim
  obtain ⟨t, ht, hlk, hls⟩ := queue_run hn hg hgood
  have hvals : Vals (Slope n W) (.node (Finset.range n) (some l) ch) :=
    hgood.vals hg.good.nonneg hi H.total (by simp [PTree.K])
  have hsim := (pspiSplitF_sim H.rounds hao S ε ord (n + 1) g ((List.range n).reverse.map fun i => PTree.leaf {i})
    hwh).1
  have hleaf : ((List.range n).reverse.map fun i => PTree.leaf {i}).map (mapVal fl) =
      (List.range n).reverse.map fun i => PTree.leaf {i} := by
    rw [List.map_map]; apply List.map_congr_left; intro i _; simp
  rw [hleaf, he, Outcome.ok_bind, Outcome.pure_eq] at hsim
  have hq := queueLoop_map (strictOn_fl H hε hnε) (2 * n) [.node (Finset.range n) (some l) ch]
    (fun s hs => by rw [List.mem_singleton.1 hs]; exact hvals)
  rw [ht] at hq
  simp only [List.map_cons, List.map_nil, mapVal_node, Option.map_some, Outcome.ok_bind, Outcome.pure_eq] at hq
  refine ⟨g', t, ?_, hlk, hls⟩
  unfold pspiRunF
  simp only [hcn]
  rw [if_neg (by omega), hsim, Outcome.ok_bind]
  simp only [mapSplit, Option.map_some]
  rw [show makeDense n = Finset.range n from rfl, hq]
  rfl

/-- The values of a chain. -/
theorem linked_slope (hE : NonnegE E) (hi : IntegerCaps E) {V : Finset ℕ} {n : ℕ} (hn : V.card ≤ n) {W : ℚ}
    (hV : V.Nonempty) (hW : totalCap E ≤ W) {A : Partition} {t : List (ℚ × Partition)} (h : Linked E V A t)
    (hgl : ∀ c ∈ t.map Prod.fst, 0 ≤ c) : ∀ c ∈ t.map Prod.fst, Slope n W c := by
  induction t generalizing A with
  | nil => simp
  | cons x t ih =>
    obtain ⟨c, B⟩ := x
    obtain ⟨hA, hB, ⟨href, hne⟩, hl⟩ := h
    intro d hd
    rw [List.map_cons] at hd
    rcases List.mem_cons.1 hd with rfl | hd
    · have hc := hA.cost_eq hB
      have hlt := href.card_lt hB.1 hA.1 hne
      obtain ⟨a, ha⟩ := hi.granular.crossWeight A
      obtain ⟨b, hb⟩ := hi.granular.crossWeight B
      have hba := crossWeight_le_total hE A
      have hbb := crossWeight_le_total hE B
      have hBn := hB.1.card_le.trans hn
      have hA0 := hA.1.card_pos hV
      unfold cost at hc
      have e : d * ((B.card : ℚ) - A.card) = crossWeight E B - crossWeight E A := by linarith
      have h0 : 0 ≤ d := hgl d (by simp)
      refine ⟨⟨b - a, B.card - A.card, by omega, by omega, ?_⟩, h0, ?_⟩
      · rw [Nat.cast_sub hlt.le, e, ha, hb]; push_cast; ring
      · have h1 : (1 : ℚ) ≤ (B.card : ℚ) - A.card := by
          have : (A.card : ℚ) + 1 ≤ B.card := by exact_mod_cast hlt
          linarith
        nlinarith
    · exact ih hl (fun c hc => hgl c (by rw [List.map_cons]; exact List.mem_cons_of_mem _ hc)) d hd

/-- The run of `HPSP` with rounded arithmetic: the values are rounded, and there is a partition for each. -/
theorem hpspRunF_spec {S : FlowSolver} {fl : ℚ → ℚ} {g : Digraph} {n : ℕ} {u N δ W e ε : ℚ}
    (H : Small S fl g.arcs n u N δ W e) (hg : GoodDigraph g n) (hn : 2 ≤ n) (hi : IntegerCaps g.arcs)
    (hM : n * W ≤ N) (hε : 2 * n * δ + 60 * (n * n * u * W) < ε) (hnε : 2 * n * ε ≤ 1)
    {ord : Partition → List CSet} (hord : Enumerates ord) {ao : List Arc → List Arc} (hao : ∀ l, (ao l).Perm l) :
    ∃ g' t psp, hpspRunF fl ao S ε ord g = .ok (g', ⟨psp, (t.map Prod.fst).map fl⟩) ∧ psp.length = t.length + 1 ∧
      (NoBetween g.arcs (Finset.range n) → psp = {Finset.range n} :: t.map Prod.snd) ∧
      Linked g.arcs (Finset.range n) {Finset.range n} t ∧
      lastOf {Finset.range n} t = singletons (Finset.range n) ∧ (t.map Prod.fst).Pairwise (· < ·) ∧
      ((t.map Prod.fst).map fl).Pairwise (· < ·) := by
  have hcn : g.countNodes = n := by rw [Digraph.countNodes, hg.nodes, List.length_range]
  have hnq : (2 : ℚ) ≤ n := by exact_mod_cast hn
  have h3 := H.err
  have h4 := H.rounds.nonneg
  have hε0 : 0 < ε := by
    have hW := H.one
    have h5 : 0 ≤ n * n * u * W := by positivity
    have h6 : 0 ≤ n * δ := by positivity
    linarith
  have hε1 : ε ≤ 1 := by nlinarith
  have hwh := wholeOf H hg hi hM
  obtain ⟨g', ch, l, st, hsp, hgood, henc, ha⟩ := hpspSplitO_run hn hg (decideF_spec H hg.good.nonneg hg.good.within
    (by rw [Finset.card_range]) hM hε hnε hao) hord hε0 hε1 hi.granular (M := NoBetween g.arcs (Finset.range n)) Or.inr
  have hvals : Vals (Slope n W) (.node (Finset.range n) (some l) ch) :=
    hgood.vals hg.good.nonneg hi H.total (by simp [PTree.K])
  have hWv : ∀ v < n, Slope n W (st.W v) := by
    intro v hv
    by_cases h0 : v = 0
    · rw [h0, ha.zeroW]; exact hvals.val rfl
    · refine enc_vals hgood henc hvals v (by simpa [PTree.K] using hv) ?_
      simp only [PTree.K]
      rw [firstElem_range (by omega)]; exact h0
  have hst := strictOn_fl H hε hnε
  obtain ⟨t, psp, ht, hpsp, hlen, hlk, hls, hinc⟩ := pspConstruct_spec (by omega) hg.good.within ha
  have hsim := (hpspSplitF_sim H.rounds hao S ε ord (n + 1) g ⟨fun _ => 0, fun _ => 0⟩ 0 (Finset.range n) hwh).1
  have h0 : mapW fl ⟨fun _ => 0, fun _ => 0⟩ = ⟨fun _ => 0, fun _ => 0⟩ := by
    unfold mapW; simp only [H.rounds.zero]
  rw [h0, hsp, Outcome.ok_bind, Outcome.pure_eq] at hsim
  have hc := pspConstruct_map hst (fun x hx => hx.2.1) (fun x hx => H.rounds.fl_nonneg hx) n st hWv
  rw [ht] at hc
  have hcn0 : ∀ c ∈ t.map Prod.fst, 0 ≤ c := by
    clear ht hlen hls hc hpsp
    cases t with
    | nil => simp
    | cons x t =>
      obtain ⟨c, B⟩ := x
      obtain ⟨hA, hB, ⟨href, hne⟩, _⟩ := hlk
      have hcc := hA.cost_eq hB
      have hlt := href.card_lt hB.1 hA.1 hne
      have hbb := crossWeight_le_total hg.good.nonneg B
      unfold cost at hcc
      rw [crossWeight_single hg.good.within] at hcc
      have h1 : (1 : ℚ) < B.card := by exact_mod_cast (by simpa using hlt)
      rw [Finset.card_singleton, Nat.cast_one, mul_one] at hcc
      have hc0 : 0 ≤ c := by
        by_contra hneg
        push Not at hneg
        nlinarith
      rw [List.map_cons, List.pairwise_cons] at hinc
      intro d hd
      rw [List.map_cons] at hd
      rcases List.mem_cons.1 hd with rfl | hd
      · exact hc0
      · exact hc0.trans (hinc.1 d hd).le
  have hsl := linked_slope hg.good.nonneg hi (by rw [Finset.card_range]) ⟨0, by simp; omega⟩ H.total hlk hcn0
  refine ⟨g', t, psp, ?_, hlen, hpsp, hlk, hls, hinc, ?_⟩
  · unfold hpspRunF
    simp only [hcn]
    rw [if_neg (by omega), show makeDense n = Finset.range n from rfl, hsim, Outcome.ok_bind]
    simp only
    rw [hc]
    rfl
  · rw [List.pairwise_map]
    exact hinc.imp_of_mem fun ha hb hab => hst _ _ (hsl _ ha) (hsl _ hb) hab

end PSP.Theory
