import Verif.Theory.WolfeMajor

/-!
# `min_norm_base`: what happened before the stuck counter ended the loop
-/

namespace PSP.Theory

open PSP.Model PSP.Spec

variable {N : Numerics} {f : SF} {φ : Finset ℕ → ℚ} {tol eps : ℚ}

/-- Points of `m + 1` major cycles in a row: the norms decrease, the gaps do not. -/
structure Stalled (V : Finset ℕ) (φ : Finset ℕ → ℚ) (tol : ℚ) (m : ℕ) (t : ℕ → ℕ → ℚ) (g : ℕ → ℚ) :
    Prop where
  base : ∀ i ≤ m, InBase V φ (t i)
  gap : ∀ i ≤ m, IsGap V φ (t i) (g i) ∧ tol ≤ g i
  norm : ∀ i < m, inner V (t (i + 1)) (t (i + 1)) < inner V (t i) (t i)
  mono : ∀ i < m, g i ≤ g (i + 1)

theorem Stalled.one {V : Finset ℕ} {x : ℕ → ℚ} {g : ℚ} (hx : InBase V φ x) (hg : IsGap V φ x g)
    (ht : tol ≤ g) : Stalled V φ tol 0 (fun _ => x) fun _ => g :=
  ⟨fun _ _ => hx, fun _ _ => ⟨hg, ht⟩, fun i hi => by omega, fun i hi => by omega⟩

theorem Stalled.push {V : Finset ℕ} {m : ℕ} {t : ℕ → ℕ → ℚ} {g : ℕ → ℚ} (h : Stalled V φ tol m t g)
    {x : ℕ → ℚ} {p : ℚ} (hx : InBase V φ x) (hg : IsGap V φ x p) (ht : tol ≤ p)
    (hn : inner V x x < inner V (t m) (t m)) (hp : g m ≤ p) :
    Stalled V φ tol (m + 1) (fun i => if i ≤ m then t i else x) fun i => if i ≤ m then g i else p := by
  refine ⟨fun i hi => ?_, fun i hi => ?_, fun i hi => ?_, fun i hi => ?_⟩
  · split_ifs with hc
    · exact h.base i hc
    · exact hx
  · split_ifs with hc
    · exact h.gap i hc
    · exact ⟨hg, ht⟩
  · rw [if_pos (show i ≤ m by omega)]
    split_ifs with hc
    · exact h.norm i (by omega)
    · obtain rfl : i = m := by omega
      exact hn
  · rw [if_pos (show i ≤ m by omega)]
    split_ifs with hc
    · exact h.mono i (by omega)
    · obtain rfl : i = m := by omega
      exact hp

theorem Stalled.last {V : Finset ℕ} {m k : ℕ} {t : ℕ → ℕ → ℚ} {g : ℕ → ℚ} (h : Stalled V φ tol m t g)
    (hk : k ≤ m) : Stalled V φ tol k (fun i => t (m - k + i)) fun i => g (m - k + i) :=
  ⟨fun i hi => h.base _ (by omega), fun i hi => h.gap _ (by omega),
    fun i hi => h.norm (m - k + i) (by omega), fun i hi => h.mono (m - k + i) (by omega)⟩

/-- What the arguments `prev` and `stuck` say about the cycles before. -/
def Hist (V : Finset ℕ) (φ : Finset ℕ → ℚ) (tol : ℚ) (x : ℕ → ℚ) (prev : Option ℚ) (stuck : ℕ) : Prop :=
  ∀ p, prev = some p → ∃ t g, Stalled V φ tol stuck t g ∧ g stuck = p ∧
    inner V x x < inner V (t stuck) (t stuck)

theorem Hist.step {V : Finset ℕ} {x : ℕ → ℚ} {prev : Option ℚ} {stuck : ℕ}
    (h : Hist V φ tol x prev stuck) {opt : ℚ} (hx : InBase V φ x) (hg : IsGap V φ x opt)
    (ht : tol ≤ opt) : ∃ t g, Stalled V φ tol (if isStuck prev opt = true then stuck + 1 else 0) t g ∧
      g (if isStuck prev opt = true then stuck + 1 else 0) = opt ∧
      t (if isStuck prev opt = true then stuck + 1 else 0) = x := by
  by_cases hs : isStuck prev opt = true
  · rw [if_pos hs]
    cases prev with
    | none => simp [isStuck] at hs
    | some p =>
      obtain ⟨t, g, h1, h2, h3⟩ := h p rfl
      have hle : p ≤ opt := by simpa [isStuck] using hs
      exact ⟨_, _, h1.push hx hg ht h3 (by rw [h2]; exact hle), by simp, by simp⟩
  · rw [if_neg hs]
    exact ⟨_, _, Stalled.one hx hg ht, rfl, rfl⟩

theorem majorCycles_stalled (hN : ExactNumerics N f.size) (hn : 0 < f.size) (hf : Computes f φ)
    (hφ : Submodular (Finset.range f.size) φ) (heps : 0 < eps) (htol : 0 < tol)
    (hsmall : SmallEps (vOf N) (reach (vOf N) (starts N f) (f.size + 1)) eps) :
    ∀ (fuel : ℕ) (Q : List (List ℚ)) (w x : List ℚ) (prev : Option ℚ) (stuck : ℕ) (r : List ℚ),
      MajInv N f eps Q w x → Hist (Finset.range f.size) φ tol (fun i => x.getD i 0) prev stuck →
      majorCycles N f tol eps fuel Q w x prev stuck = .ok (r, false) →
      ∃ t g, Stalled (Finset.range f.size) φ tol 101 t g ∧ t 101 = fun i => r.getD i 0 := by
  intro fuel
  induction fuel with
  | zero => intro Q w x prev stuck r _ _ h; simp [majorCycles] at h
  | succ fuel ih =>
    intro Q w x prev stuck r hI hH h
    have hxl : x.length = f.size := by rw [hI.point]; exact combine_length _ _ _
    have hbase := hI.base hN hf hφ heps
    have hsort := hN.sort x hxl
    set q := greedyPoint f (N.sort x) with hq
    have hqm : q ∈ greedyPoints f := greedyPoint_mem hxl hsort
    obtain ⟨hql, hqb⟩ := greedyPoints_spec hf hφ hqm
    have hmin := greedy_min hf hφ hxl hsort hbase
    have hgreedy : edmondsGreedy f x (N.sort x) = .ok q := by
      unfold edmondsGreedy
      rw [if_neg (by rw [hxl]; simp)]
      rfl
    have hgap : IsGap (Finset.range f.size) φ (fun i => x.getD i 0) (dot x x - dot x q) := by
      rw [dot_inner hxl hql, dot_inner hxl hxl]
      refine ⟨⟨_, hqb, rfl⟩, fun y hy => ?_⟩
      have := greedy_min hf hφ hxl hsort hy
      rw [← hq] at this
      linarith
    rw [← dot_inner hxl hql, ← dot_inner hxl hxl] at hmin
    have habs : |dot x q - dot x x| = dot x x - dot x q := by
      rw [abs_of_nonpos (by linarith)]; ring
    unfold majorCycles at h
    rw [hgreedy] at h
    simp only [Outcome.ok_bind] at h
    rw [habs] at h
    by_cases hopt : dot x x - dot x q < tol
    · rw [if_pos hopt] at h
      simp only [Outcome.pure_eq, Outcome.ok.injEq, Prod.mk.injEq] at h
      exact absurd h.2 (by simp)
    rw [if_neg hopt] at h
    obtain ⟨t, g, h1, h2, h3⟩ := hH.step hbase hgap (not_lt.1 hopt)
    by_cases hst : isStuck prev (dot x x - dot x q) = true ∧
        (if isStuck prev (dot x x - dot x q) = true then stuck + 1 else 0) > 100
    · rw [if_pos hst] at h
      simp only [Outcome.pure_eq, Outcome.ok.injEq, Prod.mk.injEq] at h
      refine ⟨_, _, h1.last (k := 101) (by omega), ?_⟩
      rw [← h.1, ← h3]
      congr 1
      omega
    rw [if_neg hst] at h
    by_cases hQ : f.size < Q.length
    · rw [if_pos hQ] at h; cases h
    rw [if_neg hQ] at h
    by_cases hthrow : N.throws fuel (Q ++ [q]) = true
    · rw [if_pos hthrow] at h; cases h
    rw [if_neg hthrow] at h
    obtain ⟨Q', w', x', k1, hI', -, k7⟩ := majorStep_spec hN hn hf hφ heps hsmall hI
      (by rw [← hq]; linarith)
    rw [← hq] at k1
    rw [k1] at h
    simp only [Outcome.ok_bind] at h
    have hxl' : x'.length = f.size := by rw [hI'.point]; exact combine_length _ _ _
    refine ih Q' w' x' _ _ r hI' ?_ h
    intro p hp
    refine ⟨t, g, h1, ?_, ?_⟩
    · rw [h2]; exact Option.some.inj hp
    · rw [h3, ← dot_inner hxl' hxl', ← dot_inner hxl hxl]; exact k7

/-- `min_norm_base` gives up only after 101 cycles in a row without progress of the gap. -/
theorem minNormBase_stalled (hN : ExactNumerics N f.size) (hn : 2 ≤ f.size) (hf : Computes f φ)
    (hφ : Submodular (Finset.range f.size) φ) :
    ∃ e : ℚ, 0 < e ∧ ∀ eps tol fuel, 0 < eps → eps ≤ e → 0 < tol → ∀ x,
      minNormBase N f tol eps fuel = .ok (x, false) →
      ∃ t g, Stalled (Finset.range f.size) φ tol 101 t g ∧ t 101 = fun i => x.getD i 0 := by
  obtain ⟨e, he, hsm⟩ := exists_smallEps (vOf N) (reach (vOf N) (starts N f) (f.size + 1))
  refine ⟨e, he, fun eps tol fuel h1 h2 h3 x h => ?_⟩
  have hsmall := hsm eps h2
  obtain ⟨x0, hI, hrun⟩ := minNormBase_start (tol := tol) hN hn hf hφ hsmall fuel
  rw [hrun] at h
  exact majorCycles_stalled hN (by omega) hf hφ h1 h3 hsmall fuel _ _ _ _ _ _ hI
    (fun p hp => by simp at hp) h

end PSP.Theory
