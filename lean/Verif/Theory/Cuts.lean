import Verif.Spec.Cuts
import Verif.Theory.Spectrum

/-!
# Critical values, cuts and degrees
-/

namespace PSP.Theory

open PSP.Spec

variable {E : List Arc} {V : Finset ℕ} {P : Finset (Finset ℕ)}

theorem boundary_cons (e : Arc) (E : List Arc) (S : Finset ℕ) : boundaryWeight (e :: E) S =
    (if (e.src ∈ S ∧ e.dst ∉ S) ∨ (e.src ∉ S ∧ e.dst ∈ S) then e.cap else 0) + boundaryWeight E S := by
  simp [boundaryWeight]

/-- The block of a node is the only one that contains it. -/
theorem sum_block (hP : IsPartition V P) {u : ℕ} {B : Finset ℕ} (hB : B ∈ P) (hu : u ∈ B) (f : Finset ℕ → ℚ) :
    ∑ C ∈ P, (if u ∈ C then f C else 0) = f B := by
  rw [Finset.sum_eq_single B, if_pos hu]
  · intro C hC hne
    rw [if_neg]
    exact fun h => hne (hP.eq_of_mem hC hB h hu)
  · exact fun h => absurd hB h

theorem sum_boundary_edge (hP : IsPartition V P) {u v : ℕ} (hu : u ∈ V) (hv : v ∈ V) (c : ℚ) :
    ∑ B ∈ P, (if (u ∈ B ∧ v ∉ B) ∨ (u ∉ B ∧ v ∈ B) then c else 0) = if Same P u v then 0 else 2 * c := by
  obtain ⟨A, hA, huA⟩ := hP.exists_block hu
  obtain ⟨B, hB, hvB⟩ := hP.exists_block hv
  have h1 : ∀ C ∈ P, (if (u ∈ C ∧ v ∉ C) ∨ (u ∉ C ∧ v ∈ C) then c else 0) =
      (if u ∈ C then (if v ∈ C then 0 else c) else 0) + (if v ∈ C then (if u ∈ C then 0 else c) else 0) := by
    intro C _
    by_cases a : u ∈ C <;> by_cases b : v ∈ C <;> simp [a, b]
  rw [Finset.sum_congr rfl h1, Finset.sum_add_distrib, sum_block hP hA huA, sum_block hP hB hvB]
  by_cases h : Same P u v
  · obtain ⟨C, hC, h2, h3⟩ := h
    have e1 := hP.eq_of_mem hA hC huA h2
    have e2 := hP.eq_of_mem hB hC hvB h3
    rw [e1, e2, if_pos h3, if_pos h2, if_pos ⟨C, hC, h2, h3⟩, add_zero]
  · rw [if_neg fun h' => h ⟨A, hA, huA, h'⟩, if_neg fun h' => h ⟨B, hB, h', hvB⟩, if_neg h]
    ring

theorem sum_boundary (hW : Within E V) (hP : IsPartition V P) : ∑ B ∈ P, boundaryWeight E B = 2 * crossWeight E P := by
  induction E with
  | nil => simp [boundaryWeight, crossWeight]
  | cons e E ih =>
    have he := hW e List.mem_cons_self
    have hW' : Within E V := fun e' he' => hW e' (List.mem_cons_of_mem _ he')
    have h1 : crossWeight (e :: E) P = (if Same P e.src e.dst then 0 else e.cap) + crossWeight E P := by
      simp [crossWeight]
    rw [Finset.sum_congr rfl fun B _ => boundary_cons e E B, Finset.sum_add_distrib, ih hW',
      sum_boundary_edge hP he.1 he.2, h1]
    split_ifs <;> ring

theorem sum_degree_edge (S : Finset ℕ) {u v : ℕ} (huv : u ≠ v) (c : ℚ) (hc : 0 ≤ c) :
    2 * (if u ∈ S ∧ v ∈ S then c else 0) ≤
      ∑ x ∈ S, (if (u ∈ ({x} : Finset ℕ) ∧ v ∉ ({x} : Finset ℕ)) ∨ (u ∉ ({x} : Finset ℕ) ∧ v ∈ ({x} : Finset ℕ)) then c
        else 0) := by
  have h1 : ∀ x ∈ S, (if (u ∈ ({x} : Finset ℕ) ∧ v ∉ ({x} : Finset ℕ)) ∨ (u ∉ ({x} : Finset ℕ) ∧
      v ∈ ({x} : Finset ℕ)) then c else 0) = (if u = x then c else 0) + (if v = x then c else 0) := by
    intro x _
    simp only [Finset.mem_singleton]
    by_cases a : u = x <;> by_cases b : v = x
    · exact absurd (a.trans b.symm) huv
    all_goals simp [a, b]
  rw [Finset.sum_congr rfl h1, Finset.sum_add_distrib, Finset.sum_ite_eq, Finset.sum_ite_eq]
  by_cases a : u ∈ S <;> by_cases b : v ∈ S <;> simp [a, b, hc]
  linarith

theorem sum_degree (hE : NonnegE E) (hl : ∀ e ∈ E, e.src ≠ e.dst) (S : Finset ℕ) :
    2 * insideWeight E S ≤ ∑ v ∈ S, boundaryWeight E {v} := by
  induction E with
  | nil => simp [boundaryWeight, insideWeight]
  | cons e E ih =>
    have h1 : insideWeight (e :: E) S = (if e.src ∈ S ∧ e.dst ∈ S then e.cap else 0) + insideWeight E S := by
      simp [insideWeight]
    rw [Finset.sum_congr rfl fun v _ => boundary_cons e E {v}, Finset.sum_add_distrib, h1, mul_add]
    exact add_le_add (sum_degree_edge S (hl e List.mem_cons_self) _ (hE e List.mem_cons_self))
      (ih (fun e' he' => hE e' (List.mem_cons_of_mem _ he')) fun e' he' => hl e' (List.mem_cons_of_mem _ he'))

/-- Breaking a set into a node and the rest cuts edges at this node only. -/
theorem broken_node_le (hE : NonnegE E) {S : Finset ℕ} {u : ℕ} {Q : Finset (Finset ℕ)} (hQ : Q = {{u}, S.erase u}) :
    brokenWeight E S Q ≤ boundaryWeight E {u} := by
  unfold brokenWeight boundaryWeight
  refine List.sum_le_sum fun e he => ?_
  have h0 := hE e he
  simp only [Finset.mem_singleton]
  by_cases h : (e.src ∈ S ∧ e.dst ∈ S) ∧ ¬ Same Q e.src e.dst
  · rw [if_pos h, if_pos]
    by_contra hcon
    refine h.2 ?_
    by_cases a : e.src = u <;> by_cases b : e.dst = u
    · exact ⟨{u}, by simp [hQ], by simp [a], by simp [b]⟩
    · exact absurd (Or.inl ⟨a, b⟩) hcon
    · exact absurd (Or.inr ⟨a, b⟩) hcon
    · exact ⟨S.erase u, by simp [hQ], Finset.mem_erase.2 ⟨a, h.1.1⟩, Finset.mem_erase.2 ⟨b, h.1.2⟩⟩
  · rw [if_neg h]
    split_ifs
    · exact h0
    · exact le_rfl

/-- A node that holds together with another one has a degree above the threshold. -/
theorem degree_of_holds (hE : NonnegE E) {γ : ℚ} {S : Finset ℕ} (hS : HoldsTogether E γ S) {u v : ℕ} (hu : u ∈ S)
    (hv : v ∈ S) (huv : v ≠ u) : γ < boundaryWeight E {u} := by
  have hne : (S.erase u).Nonempty := ⟨v, Finset.mem_erase.2 ⟨huv, hv⟩⟩
  have hdiff : ({u} : Finset ℕ) ≠ S.erase u := fun h => by
    have : u ∈ S.erase u := h ▸ Finset.mem_singleton_self u
    exact (Finset.mem_erase.1 this).1 rfl
  have hQ : IsPartition S {{u}, S.erase u} := by
    constructor
    · intro B hB
      rcases Finset.mem_insert.1 hB with rfl | hB
      · exact ⟨⟨u, by simp⟩, by simpa using hu⟩
      · rw [Finset.mem_singleton.1 hB]
        exact ⟨hne, Finset.erase_subset _ _⟩
    · intro x hx
      by_cases hxu : x = u
      · refine ⟨{u}, ⟨by simp, by simp [hxu]⟩, ?_⟩
        rintro B ⟨hB, hxB⟩
        rcases Finset.mem_insert.1 hB with rfl | hB
        · rfl
        · rw [Finset.mem_singleton.1 hB] at hxB
          exact absurd hxu (Finset.mem_erase.1 hxB).1
      · refine ⟨S.erase u, ⟨by simp, Finset.mem_erase.2 ⟨hxu, hx⟩⟩, ?_⟩
        rintro B ⟨hB, hxB⟩
        rcases Finset.mem_insert.1 hB with rfl | hB
        · exact absurd (Finset.mem_singleton.1 hxB) hxu
        · exact Finset.mem_singleton.1 hB
  have hcard : (({{u}, S.erase u} : Finset (Finset ℕ)).card : ℚ) = 2 := by
    rw [Finset.card_pair hdiff]
    norm_num
  have := hS _ hQ (by rw [Finset.card_pair hdiff])
  rw [hcard] at this
  have h2 := broken_node_le (S := S) hE (u := u) rfl
  linarith

variable {Ps : List (Finset (Finset ℕ))} {cv : List ℚ}

theorem weak_first_le_cut (h : IsWeakPrincipalSequence E V Ps cv) (hW : Within E V) {a : ℚ} (ha : cv.head? = some a)
    {S : Finset ℕ} (hS : S ⊂ V) (hne : S.Nonempty) : a ≤ boundaryWeight E S := by
  have hne' : (V \ S).Nonempty := Finset.sdiff_nonempty.2 hS.2
  have hdiff : S ≠ V \ S := fun he => by
    obtain ⟨x, hx⟩ := hne
    have hx' := hx
    rw [he] at hx'
    exact (Finset.mem_sdiff.1 hx').2 hx
  have hQ : IsPartition V {S, V \ S} := by
    constructor
    · intro B hB
      rcases Finset.mem_insert.1 hB with rfl | hB
      · exact ⟨hne, hS.1⟩
      · rw [Finset.mem_singleton.1 hB]
        exact ⟨hne', Finset.sdiff_subset⟩
    · intro x hx
      by_cases hxS : x ∈ S
      · refine ⟨S, ⟨by simp, hxS⟩, ?_⟩
        rintro B ⟨hB, hxB⟩
        rcases Finset.mem_insert.1 hB with rfl | hB
        · rfl
        · rw [Finset.mem_singleton.1 hB] at hxB
          exact absurd hxS (Finset.mem_sdiff.1 hxB).2
      · refine ⟨V \ S, ⟨by simp, Finset.mem_sdiff.2 ⟨hx, hxS⟩⟩, ?_⟩
        rintro B ⟨hB, hxB⟩
        rcases Finset.mem_insert.1 hB with rfl | hB
        · exact absurd hxB hxS
        · exact Finset.mem_singleton.1 hB
  have h1 := (weak_first h hW ha).1 _ hQ
  rw [Finset.card_pair hdiff] at h1
  have h2 := sum_boundary hW hQ
  rw [Finset.sum_pair hdiff] at h2
  have h3 : boundaryWeight E (V \ S) = boundaryWeight E S := by
    unfold boundaryWeight
    congr 1
    refine List.map_congr_left fun e he => ?_
    have := hW e he
    simp only [Finset.mem_sdiff, this.1, this.2, true_and, not_not]
    by_cases a : e.src ∈ S <;> by_cases b : e.dst ∈ S <;> simp [a, b]
  push_cast at h1
  linarith

theorem weak_cut_le_first (h : IsWeakPrincipalSequence E V Ps cv) (hE : NonnegE E) (hW : Within E V) {a : ℚ}
    (ha : cv.head? = some a) {x : ℚ} (hx : ∀ S, S ⊂ V → S.Nonempty → x ≤ boundaryWeight E S) :
    x * V.card ≤ 2 * ((V.card : ℚ) - 1) * a := by
  obtain ⟨-, P, h1, h2, h3⟩ := weak_first h hW ha
  have hk : (2 : ℚ) ≤ P.card := by exact_mod_cast h2
  have hkn : (P.card : ℚ) ≤ V.card := by exact_mod_cast h1.card_le
  have ha0 : 0 ≤ a := by
    have hc : 0 ≤ crossWeight E P := by
      unfold crossWeight
      refine List.sum_nonneg fun y hy => ?_
      obtain ⟨e, he, rfl⟩ := List.mem_map.1 hy
      have := hE e he
      split_ifs
      · exact le_rfl
      · exact this
    rw [← h3] at hc
    by_contra hcon
    nlinarith
  rcases lt_or_ge x 0 with hx0 | hx0
  · nlinarith [mul_nonneg (by linarith : (0 : ℚ) ≤ (V.card : ℚ) - 1) ha0]
  · have hsum : (P.card : ℚ) * x ≤ ∑ B ∈ P, boundaryWeight E B := by
      rw [← nsmul_eq_mul]
      refine Finset.card_nsmul_le_sum _ _ _ fun B hB => hx B ?_ (h1.nonempty hB)
      refine (h1.subset hB).ssubset_of_ne fun he => ?_
      have : P ⊆ {B} := by
        intro C hC
        obtain ⟨z, hz⟩ := h1.nonempty hC
        have hzB : z ∈ B := he ▸ h1.subset hC hz
        exact Finset.mem_singleton.2 (h1.eq_of_mem hC hB hz hzB)
      have := Finset.card_le_card this
      rw [Finset.card_singleton] at this
      omega
    rw [sum_boundary hW h1, ← h3] at hsum
    -- `k x ≤ 2 (k - 1) a` and `k ≤ n`
    have hk1 : 0 < (P.card : ℚ) - 1 := by linarith
    have e1 : ((P.card : ℚ) - 1) * (x * V.card) ≤ ((P.card : ℚ) - 1) * (2 * ((V.card : ℚ) - 1) * a) := by
      have e2 : ((V.card : ℚ) - 1) * ((P.card : ℚ) * x) ≤ ((V.card : ℚ) - 1) * (2 * (a * ((P.card : ℚ) - 1))) :=
        mul_le_mul_of_nonneg_left hsum (by linarith)
      nlinarith [mul_nonneg hx0 (sub_nonneg.2 hkn)]
    exact le_of_mul_le_mul_left e1 hk1

theorem weak_last_le_degree (h : IsWeakPrincipalSequence E V Ps cv) (hE : NonnegE E) (hW : Within E V)
    (hl : ∀ e ∈ E, e.src ≠ e.dst) {b : ℚ} (hb : cv.getLast? = some b) {x : ℚ} (hx : ∀ v ∈ V, boundaryWeight E {v} ≤ x) :
    b ≤ x := by
  obtain ⟨-, S, h1, h2, h3⟩ := weak_last h hW hl hb
  have hk : (2 : ℚ) ≤ S.card := by exact_mod_cast h2
  have hsum : ∑ v ∈ S, boundaryWeight E {v} ≤ (S.card : ℚ) * x := by
    rw [← nsmul_eq_mul]
    exact Finset.sum_le_card_nsmul _ _ _ fun v hv => hx v (h1 hv)
  have h4 := sum_degree hE hl S
  rw [h3] at h4
  have hx0 : 0 ≤ x := by
    obtain ⟨v, hv⟩ := Finset.card_pos.1 (by omega : 0 < S.card)
    refine le_trans ?_ (hx v (h1 hv))
    unfold boundaryWeight
    refine List.sum_nonneg fun y hy => ?_
    obtain ⟨e, he, rfl⟩ := List.mem_map.1 hy
    have := hE e he
    split_ifs
    · exact this
    · exact le_rfl
  nlinarith

theorem weak_edge_le_last (h : IsWeakPrincipalSequence E V Ps cv) (hE : NonnegE E) (hW : Within E V)
    (hl : ∀ e ∈ E, e.src ≠ e.dst) {b : ℚ} (hb : cv.getLast? = some b) {e : Arc} (he : e ∈ E) : e.cap ≤ b := by
  obtain ⟨h1, -⟩ := weak_last h hW hl hb
  have h2 := h1 {e.src, e.dst} (by
    intro x hx
    rcases Finset.mem_insert.1 hx with rfl | hx
    · exact (hW e he).1
    · rw [Finset.mem_singleton.1 hx]
      exact (hW e he).2) ⟨e.src, by simp⟩
  rw [Finset.card_pair (hl e he)] at h2
  have h3 : e.cap ≤ insideWeight E {e.src, e.dst} := by
    unfold insideWeight
    refine le_trans ?_ (List.single_le_sum (l := E.map fun a => if a.src ∈ ({e.src, e.dst} : Finset ℕ) ∧
      a.dst ∈ ({e.src, e.dst} : Finset ℕ) then a.cap else 0) ?_ _ (List.mem_map_of_mem he))
    · simp
    · intro y hy
      obtain ⟨a, ha, rfl⟩ := List.mem_map.1 hy
      have := hE a ha
      split_ifs
      · exact this
      · exact le_rfl
  push_cast at h2
  linarith

end PSP.Theory
