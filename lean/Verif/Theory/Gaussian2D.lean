import Verif.Model.Gaussian2D
import Verif.Theory.LgfPy
import Verif.Theory.CompareSpectrum

/-!
# The graph of points of the plane
-/

namespace PSP.Theory

open PSP.Model PSP.Spec

variable {eps : ℚ} {sim : ℚ × ℚ → ℚ × ℚ → ℚ} {pos : List (ℚ × ℚ)}

theorem cloudEdges_ok (ps : List (ℕ × ℕ)) (h : ∀ p ∈ ps, p.1 < pos.length ∧ p.2 < pos.length) :
    cloudEdges eps sim pos ps = .ok ((ps.filter fun p => eps < sim (pos.getD p.1 0) (pos.getD p.2 0)).map fun p =>
      ⟨p.1, p.2, sim (pos.getD p.1 0) (pos.getD p.2 0)⟩) := by
  induction ps with
  | nil => rfl
  | cons p ps ih =>
    obtain ⟨i, j⟩ := p
    have hij := h (i, j) (by simp)
    have e1 : pos[i]? = some (pos.getD i 0) := by
      rw [List.getD_eq_getElem?_getD, List.getElem?_eq_getElem hij.1]; rfl
    have e2 : pos[j]? = some (pos.getD j 0) := by
      rw [List.getD_eq_getElem?_getD, List.getElem?_eq_getElem hij.2]; rfl
    rw [cloudEdges, e1, e2]
    dsimp only
    rw [ih fun p hp => h p (List.mem_cons_of_mem _ hp), Outcome.ok_bind, List.filter_cons]
    by_cases hs : eps < sim (pos.getD i 0) (pos.getD j 0)
    · rw [if_pos hs, if_pos (by simpa using hs), List.map_cons]
    · rw [if_neg hs, if_neg (by simpa using hs)]

theorem cloudEdges_ub {ps : List (ℕ × ℕ)} {p : ℕ × ℕ} (hp : p ∈ ps) (h : pos.length ≤ p.1 ∨ pos.length ≤ p.2) :
    cloudEdges eps sim pos ps = .ub "read outside of x_pos" := by
  induction ps with
  | nil => simp at hp
  | cons q ps ih =>
    obtain ⟨i, j⟩ := q
    rw [cloudEdges]
    rcases List.mem_cons.1 hp with rfl | hp
    · rcases h with h | h
      · rw [List.getElem?_eq_none (by exact h)]
      · rw [List.getElem?_eq_none (i := j) (by exact h)]
        cases pos[i]? <;> rfl
    · rw [ih hp]
      cases pos[i]? with
      | none => rfl
      | some p =>
        cases pos[j]? with
        | none => rfl
        | some q => rfl

/-- The edges as a list. -/
def cloudArcs (eps : ℚ) (sim : ℚ × ℚ → ℚ × ℚ → ℚ) (np : ℕ) (pos : List (ℚ × ℚ)) : List Arc :=
  ((upperPairs np).filter fun p => eps < sim (pos.getD p.1 0) (pos.getD p.2 0)).map fun p =>
    ⟨p.1, p.2, sim (pos.getD p.1 0) (pos.getD p.2 0)⟩

theorem mem_cloudArcs {np : ℕ} {e : Arc} : e ∈ cloudArcs eps sim np pos ↔ e.src < e.dst ∧ e.dst < np ∧
    eps < sim (pos.getD e.src 0) (pos.getD e.dst 0) ∧ e.cap = sim (pos.getD e.src 0) (pos.getD e.dst 0) := by
  unfold cloudArcs
  simp only [List.mem_map, List.mem_filter, mem_upperPairs, decide_eq_true_eq, Prod.exists]
  constructor
  · rintro ⟨i, j, ⟨⟨h1, h2⟩, h3⟩, rfl⟩
    exact ⟨h1, h2, h3, rfl⟩
  · rintro ⟨h1, h2, h3, h4⟩
    refine ⟨e.src, e.dst, ⟨⟨h1, h2⟩, h3⟩, ?_⟩
    rw [← h4]

theorem cloudArcs_valid (heps : 0 ≤ eps) (np : ℕ) : ValidInput np (cloudArcs eps sim np pos) where
  lowHigh e he := ⟨(mem_cloudArcs.1 he).1, (mem_cloudArcs.1 he).2.1⟩
  simple := by
    unfold cloudArcs
    rw [List.pairwise_map]
    refine ((upperPairs_nodup np).filter _).imp fun {p q} hpq h => hpq (Prod.ext h.1 h.2)
  nonneg e he := by
    obtain ⟨_, _, h3, h4⟩ := mem_cloudArcs.1 he
    rw [h4]
    linarith

theorem between_cloud (heps : 0 ≤ eps) {np u v : ℕ} (huv : u < v) (hv : v < np) :
    between (cloudArcs eps sim np pos) u v =
      if eps < sim (pos.getD u 0) (pos.getD v 0) then sim (pos.getD u 0) (pos.getD v 0) else 0 := by
  have hval := cloudArcs_valid (sim := sim) (pos := pos) heps np
  split
  · rename_i h
    have he : (⟨u, v, sim (pos.getD u 0) (pos.getD v 0)⟩ : Arc) ∈ cloudArcs eps sim np pos :=
      mem_cloudArcs.2 ⟨huv, hv, h, rfl⟩
    exact between_of_mem hval.simple (fun e he => (hval.lowHigh e he).1) he
  · rename_i h
    refine between_zero fun e he hc => ?_
    obtain ⟨h1, _, h3, _⟩ := mem_cloudArcs.1 he
    rcases hc with ⟨rfl, rfl⟩ | ⟨rfl, rfl⟩
    · exact h h3
    · omega

theorem between_cloud_mono (heps : 0 ≤ eps) {sim' : ℚ × ℚ → ℚ × ℚ → ℚ} {pos' : List (ℚ × ℚ)} {np : ℕ}
    (h : ∀ i j, i < j → j < np → sim (pos.getD i 0) (pos.getD j 0) ≤ sim' (pos'.getD i 0) (pos'.getD j 0)) :
    ∀ u < np, ∀ v < np, u ≠ v →
      between (cloudArcs eps sim np pos) u v ≤ between (cloudArcs eps sim' np pos') u v := by
  have key : ∀ u v, u < v → v < np →
      between (cloudArcs eps sim np pos) u v ≤ between (cloudArcs eps sim' np pos') u v := by
    intro u v huv hv
    have := h u v huv hv
    rw [between_cloud heps huv hv, between_cloud heps huv hv]
    split <;> split <;> linarith
  intro u hu v hv huv
  rcases Nat.lt_or_gt_of_ne huv with h1 | h1
  · exact key u v h1 hv
  · rw [between_comm, between_comm (cloudArcs eps sim' np pos')]
    exact key v u h1 hu

theorem cloudPositions_length {np : ℕ} {a : Option (List (ℚ × ℚ))} {rnd : ℕ → ℚ}
    (h : cloudPositions np a rnd = .ok pos) : pos.length = if a = none then 4 * (np / 4) else np := by
  unfold cloudPositions at h
  cases a with
  | none =>
    dsimp only at h
    cases h
    rw [if_pos rfl]
    simp [List.length_flatMap]
    omega
  | some a =>
    dsimp only at h
    split at h
    · cases h
      rw [if_neg (by simp), List.length_take]
      omega
    · cases h

theorem gaussian2D_of {np : ℕ} {a : Option (List (ℚ × ℚ))} {rnd : ℕ → ℚ} (h : cloudPositions np a rnd = .ok pos)
    (hlen : pos.length = np) : gaussian2D eps sim np a rnd = .ok (pos, cloudArcs eps sim np pos) := by
  unfold gaussian2D
  rw [h, Outcome.ok_bind, cloudEdges_ok, Outcome.ok_bind]
  · rfl
  · intro p hp
    rw [mem_upperPairs] at hp
    omega

theorem getElem?_flatMap_const {α : Type*} (f : ℕ → List α) (m : ℕ) (hf : ∀ j, (f j).length = m) :
    ∀ n k, k < n * m → ((List.range n).flatMap f)[k]? = (f (k / m))[k % m]? := by
  intro n
  induction n with
  | zero => intro k hk; omega
  | succ n ih =>
    intro k hk
    have hl : ((List.range n).flatMap f).length = n * m := by simp [List.length_flatMap, hf]
    rw [List.range_succ, List.flatMap_append]
    by_cases hk' : k < n * m
    · rw [List.getElem?_append_left (by omega), ih k hk']
    · rw [List.getElem?_append_right (by omega), hl]
      have hm : 0 < m := by
        rcases Nat.eq_zero_or_pos m with h | h
        · subst h; omega
        · exact h
      have hlt : k - n * m < m := by
        have : (n + 1) * m = n * m + m := by ring
        omega
      have hk2 : k = (k - n * m) + n * m := by omega
      have e1 : k / m = n := by
        rw [hk2, Nat.add_mul_div_right _ _ hm, Nat.div_eq_of_lt hlt]; omega
      have e2 : k % m = k - n * m := by
        conv_lhs => rw [hk2]
        rw [Nat.add_mul_mod_self_right, Nat.mod_eq_of_lt hlt]
      rw [e1, e2]
      simp

/-- Where the random points are. -/
theorem cloudPositions_random {np : ℕ} {rnd : ℕ → ℚ} {pos : List (ℚ × ℚ)} (h : cloudPositions np none rnd = .ok pos)
    (h4 : np % 4 = 0) {k : ℕ} (hk : k < np) {c : ℚ × ℚ}
    (hc : [((3 : ℚ), (3 : ℚ)), (3, -3), (-3, -3), (-3, 3)][k / (np / 4)]? = some c) :
    pos[k]? = some (rnd (2 * k) + c.1, rnd (2 * k + 1) + c.2) := by
  unfold cloudPositions at h
  cases h
  have hm : 0 < np / 4 := by omega
  rw [getElem?_flatMap_const _ (np / 4) (fun j => by simp) 4 k (by omega)]
  have hc' : cloudCentres.getD (k / (np / 4)) 0 = c := by
    rw [List.getD_eq_getElem?_getD]
    unfold cloudCentres
    rw [hc]
    rfl
  have hkk : k / (np / 4) * (np / 4) + k % (np / 4) = k := by
    rw [Nat.mul_comm]
    exact Nat.div_add_mod k (np / 4)
  rw [List.getElem?_map, List.getElem?_range (Nat.mod_lt _ hm)]
  simp only [Option.map_some, hkk, hc']

end PSP.Theory
