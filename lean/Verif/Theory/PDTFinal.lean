import Mathlib.Data.Nat.Factorial.SuperFactorial
import Verif.Theory.PDTRun

/-!
# The loop of `PDT::run`, and the principal sequence
-/

namespace PSP.Theory

open PSP.Spec PSP.Model
open scoped Nat

variable {E : List Arc} {ε : ℚ} {j : ℕ} {y : ℕ → YPair} {X A B : Finset ℕ} {l m : ℚ}
  {t : List (ℚ × Finset ℕ)}

theorem IChain.map {α β : Type} {D : ℚ → α → Prop} {D' : ℚ → β → Prop} {f : α → β} {a : ℚ}
    {r : List (α × Option ℚ)} (h : IChain D a r) (hD : ∀ l, a ≤ l → ∀ x, D l x → D' l (f x)) :
    IChain D' a (r.map (Prod.map f id)) := by
  induction r generalizing a with
  | nil => exact h
  | cons xb r ih =>
    obtain ⟨x, b⟩ := xb
    cases b with
    | none =>
      obtain ⟨h1, h2⟩ := h
      subst h1
      exact ⟨rfl, fun l hl => hD l hl x (h2 l hl)⟩
    | some b =>
      exact ⟨h.1, fun l hl hlb => hD l hl x (h.2.1 l hl hlb),
        ih h.2.2 fun l hl => hD l (h.1.le.trans hl)⟩

theorem IChain.head {α : Type} {D : ℚ → α → Prop} {a : ℚ} {r : List (α × Option ℚ)} (h : IChain D a r) :
    ∃ x, D a x := by
  cases r with
  | nil => exact absurd h (by simp [IChain])
  | cons xb r =>
    obtain ⟨x, b⟩ := xb
    cases b with
    | none => exact ⟨x, h.2 a le_rfl⟩
    | some b => exact ⟨x, h.2.1 a le_rfl h.1.le⟩

/-- Access by index. -/
theorem IChain.get {α : Type} {D : ℚ → α → Prop} {a : ℚ} {xs : List α} {cs : List ℚ}
    (hlen : xs.length = cs.length + 1) (h : IChain D a (xs.zip (cs.map some ++ [none]))) :
    ∀ (k : ℕ) (x : α) (lam : ℚ), xs[k]? = some x → a ≤ lam →
      (∀ (i : ℕ) (c : ℚ), cs[i]? = some c → i < k → c ≤ lam) →
      (∀ (i : ℕ) (c : ℚ), cs[i]? = some c → k ≤ i → lam ≤ c) → D lam x := by
  induction xs generalizing cs a with
  | nil => simp at hlen
  | cons x0 xs ih =>
    intro k x lam hk ha h1 h2
    cases cs with
    | nil =>
      have hxs : xs = [] := by
        apply List.eq_nil_of_length_eq_zero
        simpa using hlen
      subst hxs
      cases k with
      | zero =>
        simp only [List.getElem?_cons_zero, Option.some.injEq] at hk
        subst hk
        exact h.2 lam ha
      | succ k => simp at hk
    | cons c cs =>
      cases k with
      | zero =>
        simp only [List.getElem?_cons_zero, Option.some.injEq] at hk
        subst hk
        exact h.2.1 lam ha (h2 0 c (by simp) le_rfl)
      | succ k =>
        have hk' : xs[k]? = some x := by simpa using hk
        exact ih (cs := cs) (by simpa using hlen) h.2.2 k x lam hk' (h1 0 c (by simp) (by omega))
          (fun i c' hi hik => h1 (i + 1) c' (by simpa using hi) (by omega))
          (fun i c' hi hik => h2 (i + 1) c' (by simpa using hi) (by omega))

/-! ### one iteration -/

/-- The state before iteration `j`. -/
structure PInv (E : List Arc) (j : ℕ) (d : ℚ) (st : PDTState) : Prop where
  gran : ∀ i, GranY d (st.y i)
  chain : IChain (fun l P => DInv (getCutValue E) l (Finset.range j) (yAt st.y l) P) lam0 st.parts
  ne : (st.parts.map Prod.fst).IsChain (· ≠ ·)

theorem cut_range (hlh : ∀ e ∈ E, e.src < e.dst) (k : ℕ) : getCutValue E (Finset.range k) = 0 := by
  unfold getCutValue
  apply List.sum_eq_zero
  intro q hq
  rw [List.mem_map] at hq
  obtain ⟨e, he, rfl⟩ := hq
  rw [if_neg]
  rintro ⟨h1, h2⟩
  have := hlh e he
  rw [Finset.mem_range] at h1 h2
  omega

theorem pdtUpdates_ge {ts : List CSet} {ls : List ℚ} {y z : ℕ → YPair} {k : ℕ}
    (h : pdtUpdates ts ls y k = .ok z) : ∀ u, k ≤ u → z u = y u := by
  induction k generalizing z with
  | zero =>
    cases h
    exact fun _ _ => rfl
  | succ k ih =>
    unfold pdtUpdates at h
    obtain ⟨z1, h1, h⟩ := Outcome.bind_eq_ok h
    obtain ⟨p, h2, h⟩ := Outcome.bind_eq_ok h
    cases h
    intro u hu
    rw [Function.update_of_ne (by omega)]
    exact ih h1 u (by omega)

theorem PInv.neg (hg : PGood E ε) (hj : 0 < j) {d : ℚ} {st : PDTState} (h : PInv E j d st) :
    obj E j st.y lam0 (Finset.range j) < obj E j st.y lam0 ∅ := by
  obtain ⟨P, hP⟩ := h.chain.head
  have hs := tight_sum hP.part hP.tight
  have hV : (Finset.range j).Nonempty := ⟨0, Finset.mem_range.2 hj⟩
  have h1 : ∑ B ∈ P, (getCutValue E B - lam0) ≥ ∑ B ∈ P, (1 / 10 : ℚ) := by
    apply Finset.sum_le_sum
    intro B _
    have := cutValue_nonneg hg.nonneg B
    unfold lam0
    linarith
  rw [Finset.sum_const, nsmul_eq_mul] at h1
  have h2 : (1 : ℚ) ≤ P.card := by exact_mod_cast hP.part.card_pos hV
  have h3 : getCutValue E (insert j (Finset.range j)) = 0 := by
    rw [← Finset.range_add_one]; exact cut_range hg.lowHigh _
  have h4 := cutValue_nonneg hg.nonneg (insert j ∅)
  unfold obj
  rw [h3, hs]
  simp only [vsum, Finset.sum_empty]
  linarith

/-- What `PDT::run` needs from the parametric flow for node `j`. -/
def PmfSpec (pmf : ℕ → (ℕ → YPair) → Outcome (List CSet × List ℚ)) (ε : ℚ) (E : List Arc) (n : ℕ) : Prop :=
  ∀ j, 0 < j → j < n → ∀ d : ℚ, 0 < d → 10 * ε < d / (j ! : ℕ) → (∀ e ∈ E, Gran d e.cap) → Gran d lam0 →
    ∀ y : ℕ → YPair, (∀ i, GranY d (y i)) →
      (∃ Z ⊆ Finset.range j, obj E j y lam0 Z < obj E j y lam0 ∅) →
      ∃ X0 t, pmf j y = .ok ((X0 :: t.map Prod.snd).map (insert j), t.map Prod.fst) ∧
        RunSpec E j y (d / (j ! : ℕ)) X0 t

theorem pmfRun_pmfSpec {W : WarmSolver} (hW : W.Minimal) {g : Digraph} (hg : PGood g.arcs ε)
    {n : ℕ} (hnodes : ∀ i < n, i ∈ g.nodes) (hn : g.countNodes = n) : PmfSpec (pmfRun W ε g) ε g.arcs n := by
  intro j _ hjn d hd hεd hE h0 y hy hneg
  have hL : j ! ≠ 0 := Nat.factorial_ne_zero j
  exact pmfRun_spec (y := y) hW hg (fun i hi => hnodes i (by omega)) (by rw [hn]; exact hjn) hd hL
    (fun c hc hcj => Nat.dvd_factorial hc hcj) hεd hE (fun i _ => hy i) (h0.div hL) hneg

theorem pdtStep_spec {pmf : ℕ → (ℕ → YPair) → Outcome (List CSet × List ℚ)} {g : Digraph} {n : ℕ}
    (hpmf : PmfSpec pmf ε g.arcs n) (hg : PGood g.arcs ε) (hjn : j < n) (hj : 0 < j)
    {d : ℚ} (hd : 0 < d) (hεd : 10 * ε < d / (j ! : ℕ)) (hE : ∀ e ∈ g.arcs, Gran d e.cap)
    (h0 : Gran d lam0) {st : PDTState} (h : PInv g.arcs j d st) :
    ∃ st', pdtStep pmf g j st = .ok st' ∧ PInv g.arcs (j + 1) (d / (j ! : ℕ)) st' := by
  have hL : j ! ≠ 0 := Nat.factorial_ne_zero j
  obtain ⟨X0, t, hrun, hs⟩ := hpmf j hj hjn d hd hεd hE h0 st.y h.gran ⟨_, subset_rfl, h.neg hg hj⟩
  obtain ⟨z, hz, hzin, hzout⟩ := pdtUpdates_spec hs.chain hs.last j le_rfl
  have hzge := pdtUpdates_ge hz
  unfold pdtStep
  rw [hrun]
  simp only [Outcome.ok_bind]
  rw [hz]
  simp only [Outcome.ok_bind]
  rw [if_neg (by simp)]
  refine ⟨_, rfl, ?_⟩
  have hX0 := hs.least.sub
  have hu : Updated g.arcs j st.y (Function.update z j (getCutValue g.arcs {j}, none)) X0 t := by
    refine ⟨?_, ?_, by simp⟩
    · intro u hu l
      have huj := Finset.mem_range.1 (hX0 hu)
      unfold yAt
      rw [Function.update_of_ne (by omega), hzin u huj hu, yVal_stopAt]
    · intro u huj hu
      rw [Function.update_of_ne (by omega), hzout u huj hu]
  have hint := hs.chain.intervals hg.nonneg hs.last hs.least.toMinAt hs.lo hs.inc
  have hint' := hint.map (f := insert j) (D' := fun l s => ∃ Z, s = insert j Z ∧
    StepIn g.arcs j st.y X0 t l Z) (fun l _ Z hZ => ⟨Z, rfl, hZ⟩)
  rw [← List.zip_map_left] at hint'
  have hm := pdtMerge_spec (D3 := fun l P => DInv (getCutValue g.arcs) l (Finset.range (j + 1))
      (yAt (Function.update z j (getCutValue g.arcs {j}, none)) l) P) (a0 := lam0)
    (fun l _ p s hp hZ => by
      obtain ⟨Z, rfl, hZ⟩ := hZ
      exact hp.parametric hg.nonneg hu hZ)
    _ st.parts _ lam0 [] le_rfl le_rfl h.chain hint' rfl (by simp)
  refine ⟨?_, hm.1, hm.2⟩
  intro i
  dsimp only
  by_cases hij : i = j
  · subst hij
    rw [Function.update_self]
    exact ⟨(gran_cutValue hE _).div hL, by simp⟩
  · rw [Function.update_of_ne hij]
    by_cases hij' : j ≤ i
    · rw [hzge i hij']
      exact Gran.mono_div (h.gran i) hL
    have hij' : i < j := by omega
    by_cases hiX : i ∈ X0
    · rw [hzin i hij' hiX]
      exact granY_stopAt (Gran.mono_div (h.gran i) hL) (hs.gran _ (leave_mem hs.last hiX))
    · rw [hzout i hij' hiX]
      exact Gran.mono_div (h.gran i) hL

/-! ### the loop -/

theorem pdtLoop_spec {pmf : ℕ → (ℕ → YPair) → Outcome (List CSet × List ℚ)} {g : Digraph} {n : ℕ}
    (hpmf : PmfSpec pmf ε g.arcs n) (hg : PGood g.arcs ε) {u : ℚ} (hu : 0 < u)
    (hE : ∀ e ∈ g.arcs, Gran u e.cap) (h0 : Gran u lam0) (hε : 10 * ε * (sf (n - 1) : ℕ) < u) (k : ℕ) :
    ∀ (i : ℕ) (st : PDTState), 0 < i → i + k = n → PInv g.arcs i (u / (sf (i - 1) : ℕ)) st →
      ∃ st', pdtLoop pmf g k i st = .ok st' ∧ PInv g.arcs n (u / (sf (n - 1) : ℕ)) st' := by
  induction k with
  | zero =>
    intro i st hi hin h
    have : i = n := by omega
    subst this
    exact ⟨st, rfl, h⟩
  | succ k ih =>
    intro i st hi hin h
    obtain ⟨i, rfl⟩ : ∃ i', i = i' + 1 := ⟨i - 1, by omega⟩
    simp only [Nat.add_sub_cancel] at h
    have hsf : sf i ≠ 0 := by
      have : ∀ i, sf i ≠ 0 := by
        intro i
        induction i with
        | zero => simp
        | succ i ih => rw [Nat.superFactorial_succ]; exact mul_ne_zero (Nat.factorial_ne_zero _) ih
      exact this i
    have hsfp : (0 : ℚ) < (sf i : ℕ) := by exact_mod_cast Nat.pos_of_ne_zero hsf
    have hmono : ∀ a b : ℕ, a ≤ b → sf a ≤ sf b := by
      intro a b hab
      induction hab with
      | refl => exact le_rfl
      | step _ ih =>
        rw [Nat.superFactorial_succ]
        exact ih.trans (Nat.le_mul_of_pos_left _ (Nat.factorial_pos _))
    have hdiv : u / (sf i : ℕ) / ((i + 1)! : ℕ) = u / (sf (i + 1) : ℕ) := by
      rw [Nat.superFactorial_succ, div_div]
      push_cast
      ring
    have hsfp' : (0 : ℚ) < (sf (i + 1) : ℕ) := by
      rw [Nat.superFactorial_succ]
      exact_mod_cast Nat.mul_pos (Nat.factorial_pos _) (Nat.pos_of_ne_zero hsf)
    obtain ⟨st1, h1, h2⟩ := pdtStep_spec hpmf hg (j := i + 1) (by omega) hi (d := u / (sf i : ℕ)) (div_pos hu hsfp) (by
        rw [hdiv, lt_div_iff₀ hsfp']
        have h1 : ((sf (i + 1) : ℕ) : ℚ) ≤ ((sf (n - 1) : ℕ) : ℚ) := by
          exact_mod_cast hmono _ _ (by omega)
        have := hg.pos
        nlinarith)
      (fun e he => (hE e he).div hsf) (h0.div hsf) h
    rw [hdiv] at h2
    obtain ⟨st2, h3, h4⟩ := ih (i + 2) st1 (by omega) (by omega) h2
    exact ⟨st2, by unfold pdtLoop; rw [h1]; exact h3, h4⟩

/-! ### the result -/

/-- A chain of distinct partitions optimal on consecutive intervals is linked. -/
theorem IChain.linked {V : Finset ℕ} (hE : NonnegE E) {a : ℚ} {parts : List (Partition × Option ℚ)}
    (h : IChain (fun l P => IsOptimal E V l P) a parts) (hne : (parts.map Prod.fst).IsChain (· ≠ ·)) :
    ∃ A s, parts = (A :: s.map Prod.snd).zip ((s.map Prod.fst).map some ++ [none]) ∧
      Linked E V A s ∧ IsOptimal E V a A ∧ (∃ b, a < b ∧ IsOptimal E V b A) ∧
      (∀ c ∈ s.map Prod.fst, a < c) ∧
      (s.map Prod.fst).Pairwise (· < ·) ∧ ∃ b, ∀ l, b ≤ l → IsOptimal E V l (lastOf A s) := by
  induction parts generalizing a with
  | nil => exact absurd h (by simp [IChain])
  | cons pb r ih =>
    obtain ⟨P, b⟩ := pb
    cases b with
    | none =>
      obtain ⟨rfl, h⟩ := h
      exact ⟨P, [], rfl, trivial, h a le_rfl, ⟨a + 1, by linarith, h _ (by linarith)⟩, by simp, by simp, a, h⟩
    | some b =>
      obtain ⟨hab, hP, hr⟩ := h
      obtain ⟨A, s, rfl, h1, h2, ⟨e, he, hAe⟩, h3, h4, c, h5⟩ := ih hr (by
        simp only [List.map_cons] at hne
        exact hne.tail)
      refine ⟨P, (b, A) :: s, by simp, ⟨hP b hab.le le_rfl, h2, ⟨?_, ?_⟩, h1⟩, hP a le_rfl hab.le,
        ⟨b, hab, hP b hab.le le_rfl⟩, ?_, ?_, c, h5⟩
      · exact (hP a le_rfl hab.le).refines hE hAe (hab.trans he)
      · have hA : (((A :: s.map Prod.snd).zip ((s.map Prod.fst).map some ++ [none])).map Prod.fst).head? =
            some A := by
          cases s <;> rfl
        rw [List.map_cons] at hne
        generalize (((A :: s.map Prod.snd).zip ((s.map Prod.fst).map some ++ [none])).map Prod.fst) = L
          at hne hA
        cases L with
        | nil => simp at hA
        | cons x L =>
          simp only [List.head?_cons, Option.some.injEq] at hA
          subst hA
          exact (List.isChain_cons_cons.1 hne).1.symm
      · intro q hq
        rcases List.mem_cons.1 hq with h' | h'
        · rw [h']; exact hab
        · exact hab.trans (h3 q h')
      · rw [List.map_cons, List.pairwise_cons]
        exact ⟨h3, h4⟩

theorem DInv.isOptimal {V : Finset ℕ} {x : ℕ → ℚ} {P : Partition} (hW : Within E V)
    (h : DInv (getCutValue E) l V x P) : IsOptimal E V l P := by
  have hcost : ∀ R, IsPartition V R → ∑ B ∈ R, (getCutValue E B - l) = cost E l R := by
    intro R hR
    rw [Finset.sum_sub_distrib]
    unfold cost
    rw [← partitionValue_eq_crossWeight (fun e he => (hW e he).2) hR]
    simp [getPartitionValue, mul_comm]
  refine ⟨h.part, fun R hR => ?_⟩
  rw [← hcost R hR, ← hcost P h.part, ← tight_sum h.part h.tight]
  exact poly_le h.poly hR

theorem zip_map_fst (A : Partition) (s : List (ℚ × Partition)) :
    ((A :: s.map Prod.snd).zip ((s.map Prod.fst).map some ++ [none])).map Prod.fst =
      A :: s.map Prod.snd := by
  rw [List.map_fst_zip (by simp)]

theorem zip_map_snd (A : Partition) (s : List (ℚ × Partition)) :
    ((A :: s.map Prod.snd).zip ((s.map Prod.fst).map some ++ [none])).map Prod.snd =
      (s.map Prod.fst).map some ++ [none] := by
  rw [List.map_snd_zip (by simp)]

/-- **`PDT::run`** on a new object, for any parametric flow that does what it should. -/
theorem pdtRunWith_spec {pmf : ℕ → (ℕ → YPair) → Outcome (List CSet × List ℚ)} {g : Digraph} {n : ℕ}
    (hpmf : PmfSpec pmf ε g.arcs n) (hgd : GoodDigraph g n) (hn : 0 < n) (hg : PGood g.arcs ε) {u : ℚ} (hu : 0 < u) (hE : ∀ e ∈ g.arcs, Gran u e.cap)
    (h0 : Gran u lam0) (hε : 10 * ε * (sf (n - 1) : ℕ) < u) :
    ∃ r y, pdtRunWith pmf g (fun _ => (0, none)) = .ok (r, y) ∧ IsPrincipalSequence g.arcs (Finset.range n) r.psp r.cv := by
  have hcn : g.countNodes = n := hgd.countNodes
  have hinit : PInv g.arcs 1 (u / (sf (1 - 1) : ℕ)) ⟨fun _ => (0, none), [({{0}}, none)]⟩ := by
    refine ⟨?_, ⟨rfl, fun l _ => ⟨?_, ?_, ?_⟩⟩, by simp⟩
    · intro i
      exact ⟨Gran.zero _, by simp⟩
    · have := isPartition_single (V := Finset.range 1) ⟨0, by simp⟩
      simpa using this
    · intro S hS hne
      have hS : S = Finset.range 1 := by
        obtain ⟨v, hv⟩ := hne
        have := Finset.mem_range.1 (hS hv)
        have hv0 : v = 0 := by omega
        subst hv0
        refine le_antisymm hS ?_
        intro w hw
        have := Finset.mem_range.1 hw
        have hw0 : w = 0 := by omega
        rw [hw0]; exact hv
      rw [hS, cut_range hg.lowHigh]
      simp [vsum, yAt, yVal, minO]
    · intro B hB
      have hB : B = Finset.range 1 := by simpa using hB
      unfold Tight
      rw [hB, cut_range hg.lowHigh]
      simp [vsum, yAt, yVal, minO]
  obtain ⟨st, h1, h2⟩ := pdtLoop_spec hpmf hg hu hE h0 hε (n - 1) 1 _
    Nat.one_pos (by omega) hinit
  have hopt : IChain (fun l P => IsOptimal g.arcs (Finset.range n) l P) lam0 st.parts :=
    h2.chain.mono fun l _ P hP => hP.isOptimal (by
      have := hgd.good.within
      simpa [hgd.nodes] using this)
  have hwithin : Within g.arcs (Finset.range n) := by
    have := hgd.good.within
    simpa [hgd.nodes] using this
  have hV : (Finset.range n).Nonempty := ⟨0, Finset.mem_range.2 hn⟩
  obtain ⟨A, s, hparts, hl, hA, _, _, hinc, b, hb⟩ := hopt.linked hg.nonneg h2.ne
  have hAV : A = {Finset.range n} := by
    apply hA.1.eq_single_of_card
    have h1 := hA.card_le hg.nonneg (isOptimal_single hg.nonneg hwithin hV (lam := 0) le_rfl)
      (by unfold lam0; norm_num)
    have h2 := hA.1.card_pos hV
    rw [Finset.card_singleton] at h1
    omega
  subst hAV
  have hlast : lastOf {Finset.range n} s = singletons (Finset.range n) := by
    set c := max b (crossWeight g.arcs (singletons (Finset.range n))) with hc
    have h1 := hb (c + 1) (le_trans (le_max_left _ _) (by linarith))
    have h2 : IsOptimal g.arcs (Finset.range n) c (singletons (Finset.range n)) :=
      isOptimal_singletons hg.nonneg (le_max_right _ _)
    have h3 := h2.card_le hg.nonneg h1 (by linarith)
    rw [card_singletons] at h3
    exact h1.1.eq_singletons_of_card (le_antisymm h1.1.card_le h3)
  refine ⟨⟨{Finset.range n} :: s.map Prod.snd, s.map Prod.fst⟩, st.y, ?_,
    hl.strict hg.nonneg hwithin hV hlast hinc⟩
  unfold pdtRunWith
  rw [hcn, if_neg (by omega), h1]
  simp only [Outcome.ok_bind, Outcome.pure_eq]
  rw [hparts, zip_map_fst, List.map_dropLast, zip_map_snd, List.dropLast_concat]
  rw [if_neg (by simp)]
  simp

/-- **`PDT::run`** on a new object. -/
theorem pdtRun_spec {W : WarmSolver} (hW : W.Minimal) {g : Digraph} {n : ℕ} (hgd : GoodDigraph g n)
    (hn : 0 < n) (hg : PGood g.arcs ε) {u : ℚ} (hu : 0 < u) (hE : ∀ e ∈ g.arcs, Gran u e.cap)
    (h0 : Gran u lam0) (hε : 10 * ε * (sf (n - 1) : ℕ) < u) :
    ∃ r, pdtRun W ε g = .ok r ∧ IsPrincipalSequence g.arcs (Finset.range n) r.psp r.cv := by
  obtain ⟨r, y, h1, h2⟩ := pdtRunWith_spec (pmfRun_pmfSpec hW hg
    (fun i hi => by rw [hgd.nodes]; exact List.mem_range.2 hi) hgd.countNodes) hgd hn hg hu hE h0 hε
  refine ⟨r, ?_, h2⟩
  unfold pdtRun pdtRunFrom
  rw [h1]
  rfl

end PSP.Theory
