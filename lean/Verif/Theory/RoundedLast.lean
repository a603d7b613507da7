import Verif.Theory.RoundedRound
import Verif.Theory.AggStuck

/-!
# The largest critical value of `agg_psp`
-/

namespace PSP.Theory

open PSP.Model PSP.Spec

/-- The merge value of the singletons is the largest critical value. -/
theorem mergeValue_last {E : List Arc} {V : Finset ℕ} {ps : List (Finset (Finset ℕ))} {cv : List ℚ} {g : ℚ}
    (hp : IsPrincipalSequence E V ps cv) (hg : IsMergeValue E V (singletons V) g) (hne : cv ≠ []) :
    cv.getLast? = some g := by
  obtain ⟨c, hc⟩ : ∃ c, cv.getLast? = some c := by
    cases h : cv.getLast? with
    | none => exact absurd (List.getLast?_eq_none_iff.1 h) hne
    | some c => exact ⟨c, rfl⟩
  have hlen : 0 < cv.length := List.length_pos_iff.2 hne
  have hcl : cv[cv.length - 1]? = some c := by rw [← List.getLast?_eq_getElem?]; exact hc
  have hlast : ps[cv.length]? = some (singletons V) := by
    have := hp.last
    rw [List.getLast?_eq_getElem?, hp.length, Nat.add_sub_cancel] at this
    exact this
  have hbelow : ∀ j x, cv[j]? = some x → j ≠ cv.length - 1 → x < c := by
    intro j x hj hjn
    obtain ⟨hj1, rfl⟩ := List.getElem?_eq_some_iff.1 hj
    obtain ⟨hj2, rfl⟩ := List.getElem?_eq_some_iff.1 hcl
    exact List.pairwise_iff_getElem.1 hp.increasing _ _ _ _ (by omega)
  rw [hc]
  congr 1
  apply le_antisymm
  · by_contra hlt
    rw [not_le] at hlt
    -- a parameter just below `c`
    obtain ⟨lam, hlam1, hlam2, hlam3⟩ : ∃ lam, g ≤ lam ∧ lam < c ∧ ∀ j x, cv[j]? = some x → j < cv.length - 1 → x < lam := by
      by_cases h2 : cv.length = 1
      · exact ⟨g, le_rfl, hlt, fun j x _ hj => by omega⟩
      · have hl2 : cv.length - 2 < cv.length := by omega
        set b := cv[cv.length - 2] with hb
        have hbc : b < c := hbelow (cv.length - 2) b (List.getElem?_eq_getElem hl2) (by omega)
        refine ⟨(max g b + c) / 2, ?_, ?_, ?_⟩
        · have := le_max_left g b
          have := max_lt hlt hbc
          linarith
        · have := max_lt hlt hbc
          linarith
        · intro j x hj hj2
          have hxb : x ≤ b := by
            obtain ⟨hj1, rfl⟩ := List.getElem?_eq_some_iff.1 hj
            rcases Nat.lt_or_ge j (cv.length - 2) with h3 | h3
            · exact (List.pairwise_iff_getElem.1 hp.increasing _ _ _ _ h3).le
            · have : j = cv.length - 2 := by omega
              subst this; exact le_rfl
          have := le_max_right g b
          have := max_lt hlt hbc
          linarith
    have hopt : IsOptimal E V lam (singletons V) :=
      ⟨isPartition_singletons _, fun R hR => (hg lam).1 hlam1 R hR (singletons_refines hR)⟩
    have hpl : cv.length - 1 < ps.length := by have := hp.length; omega
    have hpi : ps[cv.length - 1]? = some ps[cv.length - 1] := List.getElem?_eq_getElem hpl
    have heq := hp.unique (cv.length - 1) _ lam hpi (fun j x hj hjlt => hlam3 j x hj hjlt)
      (fun j x hj hjge => by
        obtain ⟨hj1, rfl⟩ := List.getElem?_eq_some_iff.1 hj
        have : j = cv.length - 1 := by omega
        subst this
        obtain ⟨hj2, h4⟩ := List.getElem?_eq_some_iff.1 hcl
        rw [h4]; exact hlam2) _ hopt
    obtain ⟨hl1, hl2⟩ := List.getElem?_eq_some_iff.1 hlast
    have := (List.pairwise_iff_getElem.1 hp.refine (cv.length - 1) cv.length hpl hl1 (by omega)).2
    rw [hl2] at this
    exact this heq
  · rw [hg c]
    intro R hR _
    refine (hp.optimal cv.length _ c hlast ?_ ?_).2 R hR
    · intro j x hj _
      by_cases h2 : j = cv.length - 1
      · subst h2; rw [hcl] at hj; cases hj; exact le_rfl
      · exact (hbelow j x hj h2).le
    · intro j x hj hge
      obtain ⟨hj1, -⟩ := List.getElem?_eq_some_iff.1 hj
      omega

theorem mergeAll_gamma {g : ℚ} : ∀ (cs : List Link) {h h' : HC}, (∀ c ∈ cs, c.val = g) → (∀ x ∈ h.gamma, x = g) →
    h.mergeAll cs = .ok h' → ∀ x ∈ h'.gamma, x = g := by
  intro cs
  induction cs with
  | nil => intro h h' _ hg hm; cases hm; exact hg
  | cons c cs ih =>
    intro h h' hc hg hm
    unfold HC.mergeAll at hm
    obtain ⟨⟨h1, b⟩, h2, h3⟩ := Outcome.bind_eq_ok hm
    refine ih (fun c hc' => hc c (by simp [hc'])) ?_ h3
    have hcv := hc c (by simp)
    unfold HC.merge at h2
    obtain ⟨x, -, h2⟩ := Outcome.bind_eq_ok h2
    obtain ⟨y, -, h2⟩ := Outcome.bind_eq_ok h2
    simp only [Outcome.pure_eq, hcv] at h2
    split at h2
    · cases h2; exact hg
    have e : ∀ x ∈ (if h.gamma = [] ∨ ∃ b ∈ h.gamma.getLast?, b > g then { h with gamma := h.gamma ++ [g] } else h : HC).gamma,
        x = g := by
      split
      · intro x hx
        rcases List.mem_append.1 hx with hx | hx
        · exact hg x hx
        · simpa using hx
      · exact hg
    generalize (if h.gamma = [] ∨ ∃ b ∈ h.gamma.getLast?, b > g then { h with gamma := h.gamma ++ [g] } else h : HC) = h0
      at h2 e
    split at h2
    · split at h2
      · cases h2; exact e
      · cases h2; exact e
    · cases h2; exact e

theorem stepLoop_last {step : HC → Outcome (HC × Bool)} : ∀ (k : ℕ) (h : HC) (ps : List Partition) (cv : List ℚ)
    {ps' : List Partition} {cv' : List ℚ}, cv ≠ [] → stepLoop step k h ps cv = .ok (ps', cv') →
    cv'.getLast? = cv.getLast? := by
  intro k
  induction k with
  | zero => intro h ps cv ps' cv' _ hr; cases hr
  | succ k ih =>
    intro h ps cv ps' cv' hne hr
    unfold stepLoop at hr
    obtain ⟨⟨h', b⟩, h1, hr⟩ := Outcome.bind_eq_ok hr
    cases b with
    | false =>
      simp only [Bool.false_eq_true, if_false, Outcome.pure_eq] at hr
      cases hr
      rfl
    | true =>
      simp only [if_true] at hr
      obtain ⟨L, h2, hr⟩ := Outcome.bind_eq_ok hr
      split at hr
      · cases hr
      · rw [ih _ _ _ (by simp) hr]
        obtain ⟨a, l, rfl⟩ := List.exists_cons_of_ne_nil hne
        exact List.getLast?_cons_cons

theorem new_clustering {n : ℕ} (hn : 0 < n) : ∃ L, (HC.new n).getPartition ⊥ = .ok L ∧
    IsClustering n (Joined [] ⊥) L ∧ toPartition L = singletons (Finset.range n) := by
  have hinv := HCInv.new n
  obtain ⟨L, hL1, hL2⟩ := getPartition_spec hinv.forest (show 0 < (HC.new n).n from hn) ⊥
  have hL3 : IsClustering n (Joined [] ⊥) L := hL2.congr (hinv.fj ⊥)
  have hpart := clustering_partition hL3
  refine ⟨L, hL1, hL3, ?_⟩
  apply eq_of_same hpart (isPartition_singletons _)
  intro v w
  by_cases hv : v < n
  · rw [same_singletons (Finset.mem_range.2 hv)]
    by_cases hw : w < n
    · rw [clustering_same hL3 hv hw, joined_nil]
    · constructor
      · intro hh'; exact absurd (Finset.mem_range.1 (hh'.mem_right hpart)) hw
      · intro he; omega
  · constructor
    · intro hh'
      exact absurd (Finset.mem_range.1 (hh'.mem_left hpart)) hv
    · intro hh'
      exact absurd (Finset.mem_range.1 (hh'.mem_left (isPartition_singletons _))) hv

variable {fl : ℚ → ℚ} {N : NumericsF} {M c R W eps tol : ℚ} {E : List Arc} {n : ℕ} {ai ao : List Arc → List Arc}

/-- The largest critical value that `agg_psp` returns. -/
theorem aggRunF_last {v : ℚ} {fuel : ℕ} (hfl : Sums fl v M) (hai : ∀ l, (ai l).Perm l)
    (hao : ∀ l, (ao l).Perm l) (hE : ∀ a ∈ E, a.src < a.dst ∧ a.dst < n) (h0 : NonnegE E)
    (hfix : ∀ a ∈ E, fl a.cap = a.cap) (hn : 2 ≤ n) (hW : (E.map Arc.cap).sum ≤ W) (hWM : 8 * W ≤ M)
    (hN : CloseUpTo fl N c R W eps tol n) (hc : c = 4 * (E.length + n + 2) * v) (hc1 : c ≤ 1 / 64)
    (htol : 0 ≤ tol) {ps ps' : List Partition} {cv cv' : List ℚ}
    (hcert : ∀ L, (HC.new n).getPartition ⊥ = .ok L →
      AllCertified fl N (digraphEntropyF fl ai ao ⟨List.range n, E⟩) tol eps fuel L)
    (hrun : aggRunF fl ai ao (mnbOfF fl N tol eps fuel) ⟨List.range n, E⟩ tol = .ok (ps', cv'))
    (hp : IsPrincipalSequence E (Finset.range n) ps cv) :
    ∃ a b, cv'.getLast? = some a ∧ cv.getLast? = some b ∧
      (a - b) ^ 2 ≤ (1 + 8 * c) * tol + 90 * n * c * W ^ 2 := by
  obtain ⟨L, hL1, hL2, hL3⟩ := new_clustering (n := n) (by omega)
  have hlen : L.length = n := by
    have := (clustering_blocks hL2).card
    rw [← toPartition_eq, hL3] at this
    rw [← this]
    unfold singletons
    rw [Finset.card_image_of_injective _ Finset.singleton_injective, Finset.card_range]
  obtain ⟨gc, gam, cs, h1, h2, h3, h4⟩ := agglomerateF_gamma hfl hai hao hE h0 hfix hL1 hL2 (by omega) hW hWM hN hc hc1 htol
    (hcert L hL1)
  rw [hL3] at h3
  have hcv : cv ≠ [] := by
    intro he
    have h5 := hp.length
    rw [he] at h5
    obtain ⟨P, rfl⟩ := List.length_eq_one_iff.1 h5
    have h6 := hp.first
    have h7 := hp.last
    simp only [List.head?_cons, List.getLast?_singleton, Option.some.injEq] at h6 h7
    have h8 : ({Finset.range n} : Finset (Finset ℕ)).card = (singletons (Finset.range n)).card := by rw [← h6, ← h7]
    unfold singletons at h8
    rw [Finset.card_singleton, Finset.card_image_of_injective _ Finset.singleton_injective, Finset.card_range] at h8
    omega
  refine ⟨gc, gam, ?_, mergeValue_last hp h3 hcv, h4⟩
  unfold aggRunF at hrun
  have hcount : (⟨List.range n, E⟩ : Digraph).countNodes = n := List.length_range
  simp only [hcount, HC.getCoarsestPartition, hL1, Outcome.ok_bind] at hrun
  rw [aggLoopF_step] at hrun
  unfold stepLoop at hrun
  rw [h1] at hrun
  obtain ⟨⟨h', b⟩, h5, hrun⟩ := Outcome.bind_eq_ok hrun
  obtain ⟨h'', h6, h7⟩ := Outcome.bind_eq_ok h5
  cases h7
  simp only [if_true] at hrun
  obtain ⟨L', -, hrun⟩ := Outcome.bind_eq_ok hrun
  split at hrun
  · cases hrun
  · rename_i x hx
    rw [stepLoop_last _ _ _ _ (by simp) hrun]
    have := mergeAll_gamma cs h2 (h := HC.new n) (by simp [HC.new]) h6 x (List.mem_of_getLast? hx)
    rw [this]
    rfl

end PSP.Theory
