import Verif.Theory.Count
import Verif.Theory.DTRun
import Verif.Theory.PDTRExtra

/-!
# Bounds on the number of flow computations of `DT`, `PDT` and `PDT_R`
-/

namespace PSP.Theory

open PSP.Spec PSP.Model
open scoped Nat

variable {ε : ℚ}

/-! ### `DT` -/

theorem runLoopDTC_count (S : FlowSolver) (g : Digraph) (lam : ℚ) (k : ℕ) :
    ∀ xl P r, runLoopDTC S g lam k xl P = .ok r → r.2 = k := by
  induction k with
  | zero =>
    intro xl P r h
    rw [runLoopDTC] at h
    cases h
    rfl
  | succ k ih =>
    intro xl P r h
    rw [runLoopDTC] at h
    obtain ⟨a, -, h⟩ := Outcome.bind_eq_ok h
    obtain ⟨b, h1, h⟩ := Outcome.bind_eq_ok h
    cases h
    have := ih _ _ _ h1
    dsimp only
    omega

theorem dilworthDTC_count {S : FlowSolver} {g : Digraph} {lam : ℚ} {r : (ℚ × Partition) × ℕ}
    (h : dilworthDTC S g lam = .ok r) : r.2 = g.countNodes := by
  unfold dilworthDTC at h
  obtain ⟨a, h1, h⟩ := Outcome.bind_eq_ok h
  cases h
  exact runLoopDTC_count _ _ _ _ _ _ _ h1

theorem dtSplitC_count (S : FlowSolver) (ε : ℚ) (g : Digraph) (k : ℕ) :
    ∀ Q P r, dtSplitC S ε g k Q P = .ok r → r.2 = g.countNodes * r.1.calls := by
  induction k with
  | zero => intro Q P r h; cases h
  | succ k ih =>
    intro Q P r h
    rw [dtSplitC] at h
    split_ifs at h
    obtain ⟨a, h1, h⟩ := Outcome.bind_eq_ok h
    have h1 := dilworthDTC_count h1
    split_ifs at h
    · cases h
      simp [h1]
    · obtain ⟨b, h2, h⟩ := Outcome.bind_eq_ok h
      obtain ⟨c, h3, h⟩ := Outcome.bind_eq_ok h
      have h2 := ih _ _ _ h2
      have h3 := ih _ _ _ h3
      cases h
      dsimp only
      rw [h1, h2, h3]
      ring

theorem ok_of_uncount {α : Type} {x : Outcome (α × ℕ)} {a : α} (h : uncount x = .ok a) : ∃ c, x = .ok (a, c) := by
  obtain ⟨⟨b, c⟩, h1, h2⟩ := Outcome.bind_eq_ok h
  cases h2
  exact ⟨c, h1⟩

theorem dtRunC_bound {S : FlowSolver} (hS : S.Correct) {g : Digraph} {n : ℕ} (hgood : GoodDigraph g n)
    (hε : 0 < ε) (hn : 2 ≤ n) : ∃ r c, dtRunC S ε g = .ok (r, c) ∧ c ≤ n * (2 * n - 3) := by
  have hV : (Finset.range n).Nonempty := ⟨0, by simp; omega⟩
  have hcard : (singletons (Finset.range n)).card = n := by rw [card_singletons, Finset.card_range]
  have h0 := crossWeight_nonneg hgood.good.nonneg (singletons (Finset.range n))
  have hW : Within g.arcs (Finset.range n) := by
    have := hgood.good.within
    simpa [hgood.nodes] using this
  obtain ⟨r, s, c, e, _, _, _, hc⟩ := dtSplit_spec hS hgood hε n (-1) _ {Finset.range n}
    (singletons (Finset.range n)) (isOptimal_single hgood.good.nonneg hW hV
      (by norm_num)) (isOptimal_singletons hgood.good.nonneg le_rfl) (by linarith)
    (by rw [hcard]; simp; omega) (by rw [hcard]; simp) (fun _ R hR => singletons_refines hR.1)
  rw [hcard] at hc
  simp only [Finset.card_singleton] at hc
  have e' : uncount (dtSplitC S ε g n {makeDense n} (makeFine n)) = .ok r := by
    rw [dtSplitC_uncount]
    exact e
  obtain ⟨m, hm⟩ := ok_of_uncount e'
  have hcount := dtSplitC_count _ _ _ _ _ _ _ hm
  dsimp only at hcount
  rw [hgood.countNodes] at hcount
  have hrun : dtRunC S ε g = .ok (⟨(({makeDense n} : Partition) :: makeFine n :: r.psp).insertionSort
            (fun P Q => P.card ≤ Q.card), r.cv.insertionSort (· ≤ ·)⟩, m) := by
    unfold dtRunC
    rw [hgood.countNodes]
    dsimp only
    rw [hm]
    rfl
  refine ⟨_, m, hrun, ?_⟩
  rw [hcount]
  exact Nat.mul_le_mul_left _ (by omega)

/-! ### `PDT` and `PDT_R` -/

/-- The parametric flow, with an exception if there are more than `j` critical values. -/
def capped (pmf : ℕ → (ℕ → YPair) → Outcome (List CSet × List ℚ)) (j : ℕ) (y : ℕ → YPair) :
    Outcome (List CSet × List ℚ) :=
  pmf j y >>= fun r => if r.2.length ≤ j then .ok r else .exc "more critical values than nodes"

theorem SChain.length_le {E : List Arc} {j : ℕ} {y : ℕ → YPair} {A : Finset ℕ} {t : List (ℚ × Finset ℕ)}
    (h : SChain E j y A t) : t.length ≤ A.card := by
  induction t generalizing A with
  | nil => simp
  | cons p t ih =>
    obtain ⟨c, B⟩ := p
    obtain ⟨-, -, h1, h2⟩ := h
    have := ih h2
    have := Finset.card_lt_card h1
    simp only [List.length_cons]
    omega

theorem PmfSpec.capped {pmf : ℕ → (ℕ → YPair) → Outcome (List CSet × List ℚ)} {E : List Arc} {n : ℕ}
    (h : PmfSpec pmf ε E n) : PmfSpec (capped pmf) ε E n := by
  intro j hj hjn d hd hεd hE h0 y hy hneg
  obtain ⟨X0, t, h1, h2⟩ := h j hj hjn d hd hεd hE h0 y hy hneg
  refine ⟨X0, t, ?_, h2⟩
  unfold Theory.capped
  rw [h1, Outcome.ok_bind, if_pos]
  have h3 := h2.chain.length_le
  have h4 := Finset.card_le_card h2.least.sub
  rw [Finset.card_range] at h4
  simp only [List.length_map]
  omega

section
variable {pmfC : ℕ → (ℕ → YPair) → Outcome ((List CSet × List ℚ) × ℕ)}
  {pmf : ℕ → (ℕ → YPair) → Outcome (List CSet × List ℚ)} {c : ℕ}

theorem pdtStepC_bound (hun : ∀ j y, uncount (pmfC j y) = pmf j y)
    (hc : ∀ j y r, pmfC j y = .ok r → r.2 ≤ c * r.1.2.length) {g : Digraph} {j : ℕ} {st st' : PDTState}
    (h : pdtStep (capped pmf) g j st = .ok st') : ∃ m, pdtStepC pmfC g j st = .ok (st', m) ∧ m ≤ c * j := by
  unfold pdtStep capped at h
  obtain ⟨r, h1, h⟩ := Outcome.bind_eq_ok h
  obtain ⟨r', h2, h1⟩ := Outcome.bind_eq_ok h1
  split_ifs at h1 with hlen
  cases h1
  rw [← hun] at h2
  obtain ⟨m, hm⟩ := ok_of_uncount h2
  refine ⟨m, ?_, (hc _ _ _ hm).trans (Nat.mul_le_mul_left _ hlen)⟩
  unfold pdtStepC
  rw [hm, Outcome.ok_bind]
  obtain ⟨y, h3, h⟩ := Outcome.bind_eq_ok h
  dsimp only
  rw [h3, Outcome.ok_bind]
  split_ifs at h with h4
  · cases h
    rw [if_neg (by simpa using h4)]
    rfl

theorem pdtLoopC_bound (hun : ∀ j y, uncount (pmfC j y) = pmf j y)
    (hc : ∀ j y r, pmfC j y = .ok r → r.2 ≤ c * r.1.2.length) {g : Digraph} (k : ℕ) :
    ∀ i st st', pdtLoop (capped pmf) g k i st = .ok st' →
      ∃ m, pdtLoopC pmfC g k i st = .ok (st', m) ∧ 2 * m + c * k ≤ c * k * (2 * i + k) := by
  induction k with
  | zero =>
    intro i st st' h
    rw [pdtLoop] at h
    cases h
    exact ⟨0, rfl, by simp⟩
  | succ k ih =>
    intro i st st' h
    rw [pdtLoop] at h
    obtain ⟨s1, h1, h⟩ := Outcome.bind_eq_ok h
    obtain ⟨m1, h2, h3⟩ := pdtStepC_bound hun hc h1
    obtain ⟨m2, h4, h5⟩ := ih _ _ _ h
    refine ⟨m1 + m2, ?_, ?_⟩
    · rw [pdtLoopC, h2, Outcome.ok_bind, h4]
      rfl
    · nlinarith

theorem pdtRunWithC_bound (hun : ∀ j y, uncount (pmfC j y) = pmf j y)
    (hc : ∀ j y r, pmfC j y = .ok r → r.2 ≤ c * r.1.2.length) {n : ℕ} {E : List Arc} (hv : ValidInput n E)
    (hn : 2 ≤ n) (hf : PdtTolerance ε n E) (hpmf : PmfSpec pmf ε (inputGraph ε n E).arcs n) :
    ∃ r m, pdtRunWithC pmfC (inputGraph ε n E) = .ok (r, m) ∧ 2 * m ≤ c * (n * (n - 1)) := by
  obtain ⟨r, y, h1, -⟩ := pdtWith_input hv hn hf hpmf.capped
  have hgd := inputGraph_good (ε := ε) hv
  unfold pdtRunWith at h1
  unfold pdtRunWithC
  rw [hgd.countNodes] at h1 ⊢
  rw [if_neg (by omega)] at h1 ⊢
  obtain ⟨st, h2, h1⟩ := Outcome.bind_eq_ok h1
  obtain ⟨m, h3, h4⟩ := pdtLoopC_bound hun hc _ _ _ _ h2
  rw [h3, Outcome.ok_bind]
  dsimp only at h1 ⊢
  split_ifs at h1 with h5
  rw [if_neg h5]
  refine ⟨_, m, rfl, ?_⟩
  obtain ⟨n, rfl⟩ := Nat.exists_eq_add_of_le' (show 1 ≤ n by omega)
  simp only [Nat.add_sub_cancel] at h4 ⊢
  nlinarith

end

theorem pmfSliceC_count (W : WarmSolver) (ε : ℚ) (arcs : List Arc) (n j : ℕ) (y : ℕ → YPair) (k : ℕ) :
    ∀ Tl Tr f l1 l3 r, pmfSliceC W ε arcs n j y k Tl Tr f l1 l3 = .ok r →
      r.1.2.length = r.1.1.length + 1 ∧ r.2 ≤ 2 * r.1.1.length + 1 := by
  induction k with
  | zero => intro Tl Tr f l1 l3 r h; cases h
  | succ k ih =>
    intro Tl Tr f l1 l3 r h
    rw [pmfSliceC] at h
    dsimp only at h
    obtain ⟨lam2, -, h⟩ := Outcome.bind_eq_ok h
    split_ifs at h
    · cases h; simp
    · obtain ⟨a, h1, h⟩ := Outcome.bind_eq_ok h
      obtain ⟨b, h2, h⟩ := Outcome.bind_eq_ok h
      have h1 := ih _ _ _ _ _ _ h1
      have h2 := ih _ _ _ _ _ _ h2
      cases h
      simp only [List.length_cons, List.length_append]
      omega
    · cases h; simp

theorem pmfRunC_count {W : WarmSolver} {g : Digraph} {j : ℕ} {y : ℕ → YPair}
    {r : (List CSet × List ℚ) × ℕ} (h : pmfRunC W ε g j y = .ok r) : r.2 ≤ 2 * r.1.2.length := by
  unfold pmfRunC at h
  dsimp only at h
  split_ifs at h
  obtain ⟨a, h1, h⟩ := Outcome.bind_eq_ok h
  have h1 := pmfSliceC_count _ _ _ _ _ _ _ _ _ _ _ _ _ h1
  cases h
  simp only [List.length_insertionSort]
  omega

theorem pmfrSliceC_count (S : FlowSolver) (R : SrcSolver) (ε : ℚ) (arcs : List Arc) (j : ℕ) (y : ℕ → YPair)
    (finish : CSet → CSet → Finish) (k : ℕ) :
    ∀ G Tl Tr l1 l3 c r, pmfrSliceC S R ε arcs j y finish k G Tl Tr l1 l3 c = .ok r →
      r.1.2.1.length = r.1.1.length + 1 ∧ r.2 ≤ 4 * r.1.1.length + 2 := by
  induction k with
  | zero => intro G Tl Tr l1 l3 c r h; cases h
  | succ k ih =>
    intro G Tl Tr l1 l3 c r h
    rw [pmfrSliceC] at h
    dsimp only at h
    obtain ⟨lam2, -, h⟩ := Outcome.bind_eq_ok h
    split_ifs at h
    all_goals first
      | (cases h; simp)
      | (obtain ⟨a, h1, h⟩ := Outcome.bind_eq_ok h
         obtain ⟨b, h2, h⟩ := Outcome.bind_eq_ok h
         have h1 := ih _ _ _ _ _ _ _ h1
         have h2 := ih _ _ _ _ _ _ _ h2
         cases h
         simp only [List.length_cons, List.length_append]
         omega)

theorem pmfrRunC_count {S : FlowSolver} {R : SrcSolver} {g : Digraph} {finish : ℕ → CSet → CSet → Finish}
    {j : ℕ} {y : ℕ → YPair} {r : (List CSet × List ℚ) × ℕ} (h : pmfrRunC S R ε g finish j y = .ok r) :
    r.2 ≤ 4 * r.1.2.length := by
  unfold pmfrRunC at h
  dsimp only at h
  split_ifs at h
  obtain ⟨a, h1, h⟩ := Outcome.bind_eq_ok h
  have h1 := pmfrSliceC_count _ _ _ _ _ _ _ _ _ _ _ _ _ _ _ h1
  cases h
  simp only [List.length_insertionSort]
  omega

theorem pdtRunC_bound {W : WarmSolver} (hW : W.Minimal) {n : ℕ} {E : List Arc} (hv : ValidInput n E)
    (hn : 2 ≤ n) (hf : PdtTolerance ε n E) :
    ∃ r m, pdtRunC W ε (inputGraph ε n E) = .ok (r, m) ∧ m ≤ n * (n - 1) := by
  obtain ⟨r, m, h1, h2⟩ := pdtRunWithC_bound (pmfRunC_uncount W ε _) (fun _ _ _ h => pmfRunC_count h) hv hn hf
    (pmfRun_inputSpec hW hv hf.pos)
  exact ⟨r, m, h1, by omega⟩

theorem pdtrRunC_bound {S : FlowSolver} {R : SrcSolver} (hS : S.Minimal) (hR : R.Minimal) {n : ℕ}
    {E : List Arc} (hv : ValidInput n E) (hn : 2 ≤ n) (hf : PdtTolerance ε n E)
    (finish : ℕ → CSet → CSet → Finish) :
    ∃ r m, pdtrRunC S R ε finish (inputGraph ε n E) = .ok (r, m) ∧ m ≤ 2 * (n * (n - 1)) := by
  obtain ⟨r, m, h1, h2⟩ := pdtRunWithC_bound (pmfrRunC_uncount S R ε _ finish) (fun _ _ _ h => pmfrRunC_count h)
    hv hn hf (pmfrRun_inputSpec hS hR hv hf.pos finish)
  exact ⟨r, m, h1, by omega⟩

end PSP.Theory
