import Verif.Spec.Uniform
import Verif.Theory.Cuts

/-!
# Theory: graphs without denser parts
-/

namespace PSP.Theory

open PSP.Spec PSP.Model

variable {V : Finset ℕ} {P : Finset (Finset ℕ)} {E : List Arc} {d : ℚ}

theorem sum_inside_edge (hP : IsPartition V P) {u v : ℕ} (hu : u ∈ V) (c : ℚ) :
    ∑ B ∈ P, (if u ∈ B ∧ v ∈ B then c else 0) = if Same P u v then c else 0 := by
  obtain ⟨A, hA, huA⟩ := hP.exists_block hu
  have h1 : ∀ C ∈ P, (if u ∈ C ∧ v ∈ C then c else 0) = (if u ∈ C then (if v ∈ C then c else 0) else 0) := by
    intro C _
    by_cases a : u ∈ C <;> by_cases b : v ∈ C <;> simp [a, b]
  rw [Finset.sum_congr rfl h1, sum_block hP hA huA]
  by_cases h : v ∈ A
  · rw [if_pos h, if_pos ⟨A, hA, huA, h⟩]
  · rw [if_neg h, if_neg]
    rintro ⟨C, hC, h2, h3⟩
    exact h (hP.eq_of_mem hA hC huA h2 ▸ h3)

/-- Every edge is inside a block or between two. -/
theorem cross_inside (hW : Within E V) (hP : IsPartition V P) :
    crossWeight E P + ∑ B ∈ P, insideWeight E B = totalWeight E := by
  induction E with
  | nil => simp [insideWeight, crossWeight, totalWeight]
  | cons e E ih =>
    have he := hW e List.mem_cons_self
    have ih := ih fun e' he' => hW e' (List.mem_cons_of_mem _ he')
    have h1 : crossWeight (e :: E) P = (if Same P e.src e.dst then 0 else e.cap) + crossWeight E P := by
      simp [crossWeight]
    have h2 : ∀ B, insideWeight (e :: E) B = (if e.src ∈ B ∧ e.dst ∈ B then e.cap else 0) + insideWeight E B := by
      intro B; simp [insideWeight]
    have h3 : totalWeight (e :: E) = e.cap + totalWeight E := by simp [totalWeight]
    rw [Finset.sum_congr rfl fun B _ => h2 B, Finset.sum_add_distrib, sum_inside_edge hP he.1, h1, h3, ← ih]
    split_ifs <;> ring

theorem inside_small (hl : ∀ e ∈ E, e.src ≠ e.dst) {S : Finset ℕ} (h : S.card < 2) : insideWeight E S = 0 := by
  refine List.sum_eq_zero fun x hx => ?_
  obtain ⟨e, he, rfl⟩ := List.mem_map.1 hx
  rw [if_neg]
  rintro ⟨h1, h2⟩
  have := Finset.one_lt_card.2 ⟨_, h1, _, h2, hl e he⟩
  omega

theorem sum_card_sub_one (hP : IsPartition V P) : ∑ B ∈ P, ((B.card : ℚ) - 1) = (V.card : ℚ) - P.card := by
  have := hP.sum_blocks fun _ => 1
  simp only [Finset.sum_const, nsmul_eq_mul, mul_one] at this
  rw [Finset.sum_sub_distrib, Finset.sum_const, nsmul_eq_mul, mul_one]
  linarith

theorem total_eq_density (hV : 2 ≤ V.card) : totalWeight E = meanDensity E V * ((V.card : ℚ) - 1) := by
  have : (2 : ℚ) ≤ V.card := by exact_mod_cast hV
  unfold meanDensity
  field_simp [show ((V.card : ℚ) - 1) ≠ 0 by linarith]

/-- In a graph without denser part every block weighs at most the mean density per additional node. -/
theorem inside_le (hl : ∀ e ∈ E, e.src ≠ e.dst) (h : NoDenserPart E V) {B : Finset ℕ} (hB : B ⊆ V) (hne : B.Nonempty) :
    insideWeight E B ≤ meanDensity E V * ((B.card : ℚ) - 1) := by
  by_cases h2 : 2 ≤ B.card
  · have h3 := h B hB h2
    have : (2 : ℚ) ≤ B.card := by exact_mod_cast h2
    rwa [div_le_iff₀ (by linarith)] at h3
  · rw [inside_small hl (by omega)]
    have : B.card = 1 := by
      have := hne.card_pos
      omega
    rw [this]
    simp

/-- A graph without denser part breaks into `k` pieces at a price of at least `k - 1` times the mean density. -/
theorem cross_ge (hW : Within E V) (hl : ∀ e ∈ E, e.src ≠ e.dst) (hV : 2 ≤ V.card) (h : NoDenserPart E V)
    (hP : IsPartition V P) : meanDensity E V * ((P.card : ℚ) - 1) ≤ crossWeight E P := by
  have h1 := cross_inside hW hP
  have h2 : ∑ B ∈ P, insideWeight E B ≤ ∑ B ∈ P, meanDensity E V * ((B.card : ℚ) - 1) :=
    Finset.sum_le_sum fun B hB => inside_le hl h (hP.subset hB) (hP.nonempty hB)
  rw [← Finset.mul_sum, sum_card_sub_one hP] at h2
  have h3 := total_eq_density (E := E) hV
  nlinarith

/-- The price is higher if the parts are less dense and the partition is not trivial. -/
theorem cross_gt (hW : Within E V) (hl : ∀ e ∈ E, e.src ≠ e.dst) (hV : 2 ≤ V.card) (h : NoDenserPart E V)
    (hs : PartsLessDense E V) (hP : IsPartition V P) (h1 : P ≠ {V}) (h2 : P ≠ singletons V) :
    meanDensity E V * ((P.card : ℚ) - 1) < crossWeight E P := by
  have hex : ∃ B ∈ P, 2 ≤ B.card := by
    by_contra hcon
    push Not at hcon
    refine h2 (hP.eq_singletons_of_card ?_)
    have h3 := sum_card_sub_one hP
    rw [Finset.sum_eq_zero] at h3
    · have : (P.card : ℚ) = V.card := by linarith
      exact_mod_cast this
    · intro B hB
      have := (hP.nonempty hB).card_pos
      have := hcon B hB
      rw [show B.card = 1 by omega]
      simp
  obtain ⟨A, hA, hA2⟩ := hex
  have hAV : A ⊂ V := by
    refine lt_of_le_of_ne (hP.subset hA) fun hAV => h1 (hP.eq_single_of_card ?_)
    refine Finset.card_eq_one.2 ⟨A, Finset.eq_singleton_iff_unique_mem.2 ⟨hA, fun C hC => ?_⟩⟩
    obtain ⟨x, hx⟩ := hP.nonempty hC
    exact hP.eq_of_mem hC hA hx (hAV ▸ hP.subset hC hx)
  have h3 := hs A hAV hA2
  have hA3 : (2 : ℚ) ≤ A.card := by exact_mod_cast hA2
  rw [div_lt_iff₀ (by linarith)] at h3
  have h4 := cross_inside hW hP
  have h5 : ∑ B ∈ P, insideWeight E B < ∑ B ∈ P, meanDensity E V * ((B.card : ℚ) - 1) :=
    Finset.sum_lt_sum (fun B hB => inside_le hl h (hP.subset hB) (hP.nonempty hB)) ⟨A, hA, h3⟩
  rw [← Finset.mul_sum, sum_card_sub_one hP] at h5
  have h6 := total_eq_density (E := E) hV
  nlinarith

theorem inside_all (hW : Within E V) : insideWeight E V = totalWeight E := by
  unfold insideWeight totalWeight
  congr 1
  exact List.map_congr_left fun e he => if_pos (hW e he)

theorem PartsLessDense.noDenser (hW : Within E V) (h : PartsLessDense E V) : NoDenserPart E V := by
  intro S hS h2
  rcases hS.eq_or_ssubset with rfl | hS
  · rw [inside_all hW]
    exact le_rfl
  · exact (h S hS h2).le

/-! ### complete graphs with equal weights -/

theorem inside_complete (w : ℚ) (n : ℕ) (S : Finset ℕ) : insideWeight (completeArcs n w) S =
    w * (((S ∩ Finset.range n).card : ℚ) * (((S ∩ Finset.range n).card : ℚ) - 1) / 2) := by
  induction n with
  | zero => simp [completeArcs, insideWeight]
  | succ n ih =>
    have h1 : completeArcs (n + 1) w = completeArcs n w ++ (List.range n).map fun i => ⟨i, n, w⟩ := by
      simp [completeArcs, List.range_succ]
    have h2 : ∀ A B : List Arc, insideWeight (A ++ B) S = insideWeight A S + insideWeight B S := by
      intro A B; simp [insideWeight]
    have h3 : ∀ m : ℕ, insideWeight ((List.range m).map fun i => ⟨i, n, w⟩) S =
        if n ∈ S then w * (S ∩ Finset.range m).card else 0 := by
      intro m
      induction m with
      | zero => simp [insideWeight]
      | succ m ihm =>
        rw [List.range_succ, List.map_append, h2, ihm, Finset.range_add_one]
        by_cases a : n ∈ S <;> by_cases b : m ∈ S
        · rw [Finset.inter_insert_of_mem b, Finset.card_insert_of_notMem (by simp)]
          simp [insideWeight, a, b]
          ring
        · rw [Finset.inter_insert_of_notMem b]
          simp [insideWeight, a, b]
        · simp [insideWeight, a]
        · simp [insideWeight, a]
    rw [h1, h2, ih, h3, Finset.range_add_one]
    by_cases a : n ∈ S
    · rw [if_pos a, Finset.inter_insert_of_mem a, Finset.card_insert_of_notMem (by simp)]
      push_cast
      ring
    · rw [if_neg a, Finset.inter_insert_of_notMem a, add_zero]

theorem complete_mem {w : ℚ} {n : ℕ} {e : Arc} (he : e ∈ completeArcs n w) : e.src < e.dst ∧ e.dst < n ∧ e.cap = w := by
  obtain ⟨j, hj, he⟩ := List.mem_flatMap.1 he
  obtain ⟨i, hi, rfl⟩ := List.mem_map.1 he
  exact ⟨List.mem_range.1 hi, List.mem_range.1 hj, rfl⟩

theorem complete_valid {w : ℚ} (hw : 0 ≤ w) (n : ℕ) : ValidInput n (completeArcs n w) := by
  refine ⟨fun e he => ⟨(complete_mem he).1, (complete_mem he).2.1⟩, ?_, fun e he => (complete_mem he).2.2 ▸ hw⟩
  unfold completeArcs
  rw [List.pairwise_flatMap]
  refine ⟨fun j _ => ?_, ?_⟩
  · rw [List.pairwise_map]
    exact List.nodup_range.imp fun h1 h2 => h1 h2.1
  · refine List.nodup_range.imp fun {a b} hab x hx y hy hxy => ?_
    obtain ⟨i, -, rfl⟩ := List.mem_map.1 hx
    obtain ⟨k, -, rfl⟩ := List.mem_map.1 hy
    exact hab hxy.2

theorem complete_density (w : ℚ) {n : ℕ} (hn : 2 ≤ n) : meanDensity (completeArcs n w) (Finset.range n) = n * w / 2 := by
  have hn' : (2 : ℚ) ≤ n := by exact_mod_cast hn
  have hW : Within (completeArcs n w) (Finset.range n) := fun e he =>
    ⟨Finset.mem_range.2 ((complete_mem he).1.trans (complete_mem he).2.1), Finset.mem_range.2 (complete_mem he).2.1⟩
  unfold meanDensity
  rw [← inside_all hW, inside_complete, Finset.inter_self, Finset.card_range,
    div_eq_iff (by linarith)]
  ring

theorem complete_lessDense {w : ℚ} (hw : 0 < w) {n : ℕ} (hn : 2 ≤ n) :
    PartsLessDense (completeArcs n w) (Finset.range n) := by
  intro S hS h2
  have h3 : (2 : ℚ) ≤ S.card := by exact_mod_cast h2
  have h4 : (S.card : ℚ) < n := by
    have := Finset.card_lt_card hS
    rw [Finset.card_range] at this
    exact_mod_cast this
  rw [complete_density w hn, inside_complete, Finset.inter_eq_left.2 hS.1, div_lt_iff₀ (by linarith)]
  have : 0 < w * ((S.card : ℚ) - 1) * (n - S.card) := mul_pos (mul_pos hw (by linarith)) (by linarith)
  nlinarith

end PSP.Theory
