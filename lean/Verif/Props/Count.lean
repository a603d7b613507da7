import Verif.Props.Main
import Verif.Theory.CountPDT
import Verif.Theory.CountStar

/-!
# C59: the number of maximum flow computations
-/

namespace PSP.Props

open PSP.Spec PSP.Model PSP.Theory

/-- The bound for a method on `n` nodes. -/
def flowLimit (method : String) (n : ℕ) : ℕ :=
  if method = "dt" then n * (2 * n - 3)
  else if method = "pdt" then n * (n - 1)
  else if method = "pdt_r" then 2 * (n * (n - 1))
  else n * (n + 1) / 2 - 3

theorem flowBound_eq {n : ℕ} (hn : 2 ≤ n) : flowBound (n - 1) = n * (n + 1) / 2 - 3 := by
  obtain ⟨m, rfl⟩ : ∃ m, n = m + 1 := ⟨n - 1, by omega⟩
  have h := flowBound_two m (by omega)
  rw [Nat.add_sub_cancel]
  have h2 : (m + 1) * (m + 1 + 1) = m * (m + 3) + 2 := by ring
  rw [h2]
  omega

theorem countOnce_graph {e : Env} (s : Schedule) {n : ℕ} {E : List Arc} (hv : ValidInput n E) (m : String) :
    countOnce e s n E m =
      if m = "dt" then dtRunC e.S e.eps (inputGraph e.eps n E)
      else if m = "pdt" then pdtRunC e.W e.eps (inputGraph e.eps n E)
      else if m = "pdt_r" then pdtrRunC e.S e.R e.eps s (inputGraph e.eps n E)
      else if m = "psp_i" then pspiRunC e.S e.eps e.ord (inputGraph e.eps n E) >>= fun r => .ok (r.1.2, r.2)
      else if m = "hpsp" then hpspRunC e.S e.eps e.ord (inputGraph e.eps n E) >>= fun r => .ok (r.1.2, r.2)
      else .exc (m ++ " not allowed") := by
  unfold countOnce
  rw [makeDgraph_valid hv, Outcome.ok_bind]
  rfl

/-- **C59.** Every method ends normally, and the number of maximum flow computations of its run is at most
`n (2n-3)` for `dt`, `n (n-1)` for `pdt`, twice that for `pdt_r`, and `n (n+1)/2 - 3` for `psp_i` and `hpsp`. -/
theorem C59_flow_count {e : Env} (he : EnvGood e) (s : Schedule) {n : ℕ} {E : List Arc} (hv : ValidInput n E)
    (hn : 2 ≤ n) (hf : PdtTolerance e.eps n E) {m : String} (hm : m ∈ methods) :
    ∃ r c, countOnce e s n E m = .ok (r, c) ∧ runOnce e s n E m = .ok r ∧ c ≤ flowLimit m n := by
  have hfine := hf.fine (by omega)
  have hgood := inputGraph_good (ε := e.eps) hv
  rw [countOnce_graph s hv]
  simp only [methods, List.mem_cons, List.not_mem_nil, or_false] at hm
  rcases hm with rfl | rfl | rfl | rfl | rfl
  · obtain ⟨r, c, h1, h2⟩ := dtRunC_bound he.flow.toCorrect hgood hf.pos hn
    refine ⟨r, c, h1, runOnce_dt s hv ?_, h2⟩
    rw [← dtRunC_uncount, h1]; rfl
  · obtain ⟨r, c, h1, h2⟩ := pdtRunC_bound he.warm hv hn hf
    refine ⟨r, c, h1, runOnce_pdt s hv ?_, h2⟩
    rw [← pdtRunC_uncount, h1]; rfl
  · obtain ⟨r, c, h1, h2⟩ := pdtrRunC_bound he.flow he.src hv hn hf s
    refine ⟨r, c, h1, runOnce_pdtr s hv ?_, h2⟩
    rw [← pdtrRunC_uncount, h1]; rfl
  · obtain ⟨g, r, h1, -⟩ := pspi_input he.flow.toCorrect he.enum hv hn hfine
    obtain ⟨c, h2⟩ := ok_of_uncount ((pspiRunC_uncount e.S e.eps e.ord _).trans h1)
    refine ⟨r, c, by simp [h2, Outcome.ok_bind], runOnce_pspi s hv h1, ?_⟩
    exact (pspiRunC_bound _ _ he.enum hgood.nodes hn h2).trans (flowBound_eq hn).le
  · obtain ⟨g, r, -, h1, -⟩ := hpsp_input he.flow.toCorrect he.enum hv hn hfine
    obtain ⟨c, h2⟩ := ok_of_uncount ((hpspRunC_uncount e.S e.eps e.ord _).trans h1)
    refine ⟨r, c, by simp [h2, Outcome.ok_bind], runOnce_hpsp s hv h1, ?_⟩
    exact (hpspRunC_bound _ _ he.enum hgood.nodes hn h2).trans (flowBound_eq hn).le

/-- For `psp_i` and `hpsp` the bound does not depend on what the flow solver returns, nor on the tolerance. -/
theorem C59_any_solver {e : Env} (henum : Enumerates e.ord) (s : Schedule) {n : ℕ} {E : List Arc}
    (hv : ValidInput n E) (hn : 2 ≤ n) {m : String} (hm : m = "psp_i" ∨ m = "hpsp") {r : PSPOut} {c : ℕ}
    (h : countOnce e s n E m = .ok (r, c)) : c ≤ flowLimit m n := by
  have hgood := inputGraph_good (ε := e.eps) hv
  rw [countOnce_graph s hv] at h
  rcases hm with rfl | rfl
  · obtain ⟨x, h1, h2⟩ := Outcome.bind_eq_ok (x := pspiRunC e.S e.eps e.ord (inputGraph e.eps n E)) h
    cases h2
    exact (pspiRunC_bound _ _ henum hgood.nodes hn h1).trans (flowBound_eq hn).le
  · obtain ⟨x, h1, h2⟩ := Outcome.bind_eq_ok (x := hpspRunC e.S e.eps e.ord (inputGraph e.eps n E)) h
    cases h2
    exact (hpspRunC_bound _ _ henum hgood.nodes hn h1).trans (flowBound_eq hn).le

/-! ### the bound of `psp_i` and `hpsp` is attained on stars -/

theorem starArcs_valid (K m : ℕ) : ValidInput (m + 1) (starArcs K m) where
  lowHigh := by
    intro e he
    obtain ⟨i, h, rfl⟩ := mem_starArcs.1 he
    dsimp only
    omega
  simple := (starArcs_good K m).simple
  nonneg := (starArcs_good K m).nonneg

theorem starArcs_input {ε : ℚ} (hε : ε < 1) {K : ℕ} (hK : 1 ≤ K) (m : ℕ) :
    inputGraph ε (m + 1) (starArcs K m) = starG K m := by
  unfold inputGraph starG
  congr 1
  rw [List.filter_eq_self]
  intro e he
  obtain ⟨i, h, rfl⟩ := mem_starArcs.1 he
  rw [decide_eq_true_eq]
  refine lt_of_lt_of_le hε ?_
  dsimp only
  exact_mod_cast Nat.mul_pos hK (Nat.factorial_pos _)

theorem starArcs_fine {ε : ℚ} (h0 : 0 < ε) (hε : ε < 1) {m : ℕ} (hm : 1 ≤ m) :
    FineTolerance ε (m + 1) (starArcs m m) := by
  have hm' : (1 : ℚ) ≤ m := by exact_mod_cast hm
  refine ⟨m, by linarith, ?_, h0, ?_⟩
  · intro e he
    obtain ⟨i, h, rfl⟩ := mem_starArcs.1 he
    refine ⟨((i + 2).factorial : ℤ), ?_⟩
    push_cast
    ring
  · push_cast
    nlinarith

/-- **C59 is tight**: on the star with `n - 1` leaves and the weights `(n-1) · 2!, …, (n-1) · n!`, `psp_i` and `hpsp`
make exactly `n (n+1)/2 - 3` maximum flow computations, for every correct solver and every tolerance below one. -/
theorem C59_attained {e : Env} (hS : e.S.Correct) (henum : Enumerates e.ord) (h0 : 0 < e.eps) (h1 : e.eps < 1)
    (s : Schedule) {n : ℕ} (hn : 2 ≤ n) {m : String} (hm : m = "psp_i" ∨ m = "hpsp") :
    ∃ r, countOnce e s n (starArcs (n - 1) (n - 1)) m = .ok (r, n * (n + 1) / 2 - 3) := by
  obtain ⟨p, rfl⟩ : ∃ p, n = p + 2 := ⟨n - 2, by omega⟩
  rw [show p + 2 - 1 = p + 1 from rfl]
  have hv := starArcs_valid (p + 1) (p + 1)
  have hf := starArcs_fine h0 h1 (m := p + 1) (by omega)
  have hin := starArcs_input h1 (K := p + 1) (by omega) (p + 1)
  have hb : flowBound (p + 1) = (p + 2) * (p + 2 + 1) / 2 - 3 := flowBound_eq (n := p + 2) hn
  have hc : (starG (p + 1) (p + 1)).countNodes = p + 2 := by simp [starG, Digraph.countNodes]
  rw [countOnce_graph s hv, hin, ← hb]
  rcases hm with rfl | rfl
  · obtain ⟨g, r, h2, -⟩ := pspi_input hS henum hv hn hf
    rw [hin] at h2
    obtain ⟨c, h3⟩ := ok_of_uncount ((pspiRunC_uncount e.S e.eps e.ord _).trans h2)
    refine ⟨r, ?_⟩
    have hcount : c = flowBound (p + 1) := by
      have h4 := h3
      unfold pspiRunC at h4
      rw [hc] at h4
      dsimp only at h4
      rw [if_neg (by omega)] at h4
      obtain ⟨x, x1, x2⟩ := star_pspi (K := p + 1) (by omega) hS h1 henum p (p + 2 + 1)
        ((List.range (p + 2)).reverse.map fun i => PTree.leaf {i}) (by omega) (stand_init rfl)
      rw [x1, Outcome.ok_bind] at h4
      obtain ⟨y, -, h4⟩ := Outcome.bind_eq_ok h4
      cases h4
      exact x2
    simp [h3, Outcome.ok_bind, hcount]
  · obtain ⟨g, r, -, h2, -⟩ := hpsp_input hS henum hv hn hf
    rw [hin] at h2
    obtain ⟨c, h3⟩ := ok_of_uncount ((hpspRunC_uncount e.S e.eps e.ord _).trans h2)
    refine ⟨r, ?_⟩
    have hcount : c = flowBound (p + 1) := by
      have h4 := h3
      unfold hpspRunC at h4
      rw [hc] at h4
      dsimp only at h4
      rw [if_neg (by omega)] at h4
      obtain ⟨x, x1, x2⟩ := star_hpsp (K := p + 1) (by omega) hS h1 henum p (p + 2 + 1)
        ⟨fun _ => 0, fun _ => 0⟩ 0 (by omega)
      have hd : makeDense (p + 2) = Finset.range (p + 2) := rfl
      rw [hd, x1, Outcome.ok_bind] at h4
      obtain ⟨y, -, h4⟩ := Outcome.bind_eq_ok h4
      cases h4
      exact x2
    simp [h3, Outcome.ok_bind, hcount]

/-- So the number of flow computations of `psp_i` and `hpsp` is not `O(n)`: it exceeds `C · n` for every `C`. -/
theorem C59_not_linear {e : Env} (hS : e.S.Correct) (henum : Enumerates e.ord) (h0 : 0 < e.eps) (h1 : e.eps < 1)
    (s : Schedule) {m : String} (hm : m = "psp_i" ∨ m = "hpsp") (C : ℕ) :
    ∃ n E r c, ValidInput n E ∧ 2 ≤ n ∧ countOnce e s n E m = .ok (r, c) ∧ C * n < c := by
  obtain ⟨r, h⟩ := C59_attained hS henum h0 h1 s (n := 2 * C + 3) (by omega) hm
  refine ⟨2 * C + 3, _, r, _, starArcs_valid _ _, by omega, h, ?_⟩
  have h2 : (2 * C + 3) * (2 * C + 3 + 1) = 2 * ((2 * C + 3) * (C + 2)) := by ring
  rw [h2, Nat.mul_div_cancel_left _ (by norm_num)]
  have h3 : (2 * C + 3) * (C + 2) = C * (2 * C + 3) + (4 * C + 6) := by ring
  omega

/-- The example: four nodes. -/
example : ∃ r c, countOnce exEnv exSched 4 exArcs "hpsp" = .ok (r, c) ∧ c ≤ 7 := by
  obtain ⟨r, c, h1, -, h3⟩ := C59_flow_count exEnv_good exSched exArcs_valid (by norm_num) exEnv_tolerance
    (m := "hpsp") (by decide)
  exact ⟨r, c, h1, h3⟩

/-- Its counts, method by method: 20 (attaining the bound), 8 of at most 12, 14 of at most 24, 7 and 7 (attained). -/
example : (dtRunC bruteSolver lemonEps ⟨List.range 4, exArcs⟩ >>= fun r => .ok r.2) = .ok 20 := by decide +kernel
example : (pdtRunC bruteWarm lemonEps ⟨List.range 4, exArcs⟩ >>= fun r => .ok r.2) = .ok 8 := by decide +kernel
example : (pdtrRunC bruteSolver bruteSrc lemonEps exSched ⟨List.range 4, exArcs⟩ >>= fun r => .ok r.2) = .ok 14 := by
  decide +kernel
example : (pspiRunC bruteSolver lemonEps exOrd ⟨List.range 4, exArcs⟩ >>= fun r => .ok r.2) = .ok 7 := by
  decide +kernel
example : (hpspRunC bruteSolver lemonEps exOrd ⟨List.range 4, exArcs⟩ >>= fun r => .ok r.2) = .ok 7 := by
  decide +kernel

end PSP.Props
