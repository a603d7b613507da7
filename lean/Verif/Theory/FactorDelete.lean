import Verif.Theory.FactorGram

/-!
# `min_norm_base`: deleting one column from the factor `L`
-/

namespace PSP.Theory

open PSP.Model

theorem sum_two {k j : ℕ} (hj : j + 1 < k) {F F' : ℕ → ℚ} (h : ∀ t, t ≠ j → t ≠ j + 1 → t < k → F' t = F t)
    (h2 : F' j + F' (j + 1) = F j + F (j + 1)) : ∑ t ∈ Finset.range k, F' t = ∑ t ∈ Finset.range k, F t := by
  have key : ∀ g : ℕ → ℚ, ∑ t ∈ Finset.range k, g t =
      g j + g (j + 1) + ∑ t ∈ ((Finset.range k).erase j).erase (j + 1), g t := by
    intro g
    rw [← Finset.add_sum_erase _ g (Finset.mem_range.2 (show j < k by omega)),
      ← Finset.add_sum_erase ((Finset.range k).erase j) g (a := j + 1)
        (by rw [Finset.mem_erase, Finset.mem_range]; omega)]
    ring
  rw [key F', key F, h2]
  congr 1
  refine Finset.sum_congr rfl fun t ht => ?_
  rw [Finset.mem_erase, Finset.mem_erase, Finset.mem_range] at ht
  exact h t ht.2.1 ht.1 ht.2.2

/-- During the rotations for column `i`: they are done up to the column `j`. -/
structure Pass (k i j : ℕ) (G : ℕ → ℕ → ℚ) (S : Scaled) : Prop where
  pos : ∀ t < k, 0 < S.dd t
  diag : ∀ r < k, r < i ∨ j < r → S.uu r r ≠ 0
  zero : ∀ r < k, i < r → r ≤ j → S.uu r r = 0 ∧ S.uu r (r - 1) ≠ 0
  gram : ∀ r < k, r ≠ i → ∀ r' < k, r' ≠ i → ∑ t ∈ Finset.range k, lo S r t * lo S r' t * S.dd t = G r r'

theorem Pass.norm_pos {k i j : ℕ} {G : ℕ → ℕ → ℚ} {S : Scaled} (h : Pass k i j G S) (hj : j + 1 < k) :
    0 < S.uu (j + 1) j * S.uu (j + 1) j * S.dd j +
      S.uu (j + 1) (j + 1) * S.uu (j + 1) (j + 1) * S.dd (j + 1) := by
  have h1 := h.pos j (by omega)
  have h2 := h.pos (j + 1) hj
  have h3 := h.diag (j + 1) hj (Or.inr (by omega))
  have h4 : 0 < S.uu (j + 1) (j + 1) * S.uu (j + 1) (j + 1) := mul_self_pos.2 h3
  have h5 := mul_nonneg (mul_self_nonneg (S.uu (j + 1) j)) h1.le
  have h6 := mul_pos h4 h2
  linarith

theorem Pass.rotate {k i j : ℕ} {G : ℕ → ℕ → ℚ} {S : Scaled} (h : Pass k i j G S) (hij : i ≤ j) (hj : j + 1 < k) :
    Pass k i (j + 1) G (rotateS k j S) := by
  have hc := h.norm_pos hj
  have hx := h.pos j (by omega)
  have hy := h.pos (j + 1) hj
  have hB := h.diag (j + 1) hj (Or.inr (by omega))
  have huu := fun {r t : ℕ} (hr : r < k) (ht : t < k) => rotateS_uu (j := j) S hr ht
  have hdd := fun {t : ℕ} (ht : t < k) => rotateS_dd (j := j) S ht
  set S' := rotateS k j S with hS'
  set A := S.uu (j + 1) j with hA
  set B := S.uu (j + 1) (j + 1) with hBdef
  set c := A * A * S.dd j + B * B * S.dd (j + 1) with hcdef
  have hddj : S'.dd j = c := by rw [hdd (by omega)]; simp [hcdef]
  have hddj1 : S'.dd (j + 1) = S.dd j * S.dd (j + 1) / c := by rw [hdd hj]; simp [hcdef]
  have hddt : ∀ t, t ≠ j → t ≠ j + 1 → t < k → S'.dd t = S.dd t := by
    intro t h1 h2 h3
    rw [hdd h3]; simp [h1, h2]
  have hrow : ∀ r ≤ j, ∀ t < k, S'.uu r t = S.uu r t := by
    intro r hr t ht
    rw [huu (by omega) ht]; simp [hr]
  have huj : ∀ r, j < r → r < k → S'.uu r j = (S.uu r j * A * S.dd j + S.uu r (j + 1) * B * S.dd (j + 1)) / c := by
    intro r h1 h2
    rw [huu h2 (by omega)]; simp [not_le.2 h1, hcdef]
  have huj1 : ∀ r, j < r → r < k → S'.uu r (j + 1) = S.uu r (j + 1) * A - S.uu r j * B := by
    intro r h1 h2
    rw [huu h2 hj]; simp [not_le.2 h1]
  have hut : ∀ r, r < k → ∀ t, t ≠ j → t ≠ j + 1 → t < k → S'.uu r t = S.uu r t := by
    intro r hr t h1 h2 h3
    rw [huu hr h3]; simp [h1, h2]
  have hlot : ∀ r < k, ∀ t, t ≠ j → t ≠ j + 1 → t < k → lo S' r t = lo S r t := by
    intro r hr t h1 h2 h3
    unfold lo
    rw [hut r hr t h1 h2 h3]
  -- rows up to `j` have no entries in the two columns
  have hz : ∀ r < k, r ≠ i → r ≤ j → lo S r j = 0 ∧ lo S r (j + 1) = 0 ∧ lo S' r j = 0 ∧ lo S' r (j + 1) = 0 := by
    intro r hr hri hrj
    have e1 : lo S r j = 0 := by
      unfold lo
      split
      · have : r = j := by omega
        subst this
        exact (h.zero r hr (by omega) le_rfl).1
      · rfl
    have e2 : lo S' r j = lo S r j := by
      unfold lo; rw [hrow r hrj j (by omega)]
    have e3 : ∀ T : Scaled, lo T r (j + 1) = 0 := fun T => if_neg (by omega)
    exact ⟨e1, e3 S, e2.trans e1, e3 S'⟩
  constructor
  · intro t ht
    by_cases h1 : t = j
    · subst h1; rw [hddj]; exact hc
    by_cases h2 : t = j + 1
    · subst h2; rw [hddj1]; positivity
    rw [hddt t h1 h2 ht]; exact h.pos t ht
  · intro r hr hor
    rcases hor with h1 | h1
    · rw [hrow r (by omega) r hr]; exact h.diag r hr (Or.inl h1)
    · rw [hut r hr r (by omega) (by omega) hr]; exact h.diag r hr (Or.inr (by omega))
  · intro r hr h1 h2
    by_cases h3 : r = j + 1
    · subst h3
      rw [Nat.add_sub_cancel, huj1 _ (by omega) hj, huj _ (by omega) hj]
      refine ⟨by ring, ?_⟩
      rw [show A * A * S.dd j + B * B * S.dd (j + 1) = c from rfl, div_self hc.ne']
      norm_num
    · rw [hrow r (by omega) r hr, hrow r (by omega) (r - 1) (by omega)]
      exact h.zero r hr h1 (by omega)
  · intro r hr hri r' hr' hri'
    rw [← h.gram r hr hri r' hr' hri']
    refine sum_two hj (fun t h1 h2 h3 => ?_) ?_
    · rw [hlot r hr t h1 h2 h3, hlot r' hr' t h1 h2 h3, hddt t h1 h2 h3]
    · by_cases h1 : r ≤ j
      · obtain ⟨e1, e2, e3, e4⟩ := hz r hr hri h1
        rw [e1, e2, e3, e4]; ring
      by_cases h2 : r' ≤ j
      · obtain ⟨e1, e2, e3, e4⟩ := hz r' hr' hri' h2
        rw [e1, e2, e3, e4]; ring
      have hl : ∀ T : Scaled, ∀ r, j < r → lo T r j = T.uu r j ∧ lo T r (j + 1) = T.uu r (j + 1) :=
        fun T r hr => ⟨if_pos (by omega), if_pos (by omega)⟩
      rw [(hl S r (by omega)).1, (hl S r (by omega)).2, (hl S r' (by omega)).1, (hl S r' (by omega)).2,
        (hl S' r (by omega)).1, (hl S' r (by omega)).2, (hl S' r' (by omega)).1, (hl S' r' (by omega)).2,
        huj r (by omega) hr, huj r' (by omega) hr', huj1 r (by omega) hr, huj1 r' (by omega) hr', hddj, hddj1]
      have hc0 := hc.ne'
      field_simp
      rw [hcdef]
      ring

theorem Pass.from {k i : ℕ} {G : ℕ → ℕ → ℚ} : ∀ (m j : ℕ) (S : Scaled), Pass k i j G S → i ≤ j → j + m < k →
    ∃ S', rotateFromS k m j S = .ok S' ∧ Pass k i (j + m) G S' := by
  intro m
  induction m with
  | zero => intro j S h _ _; exact ⟨S, rfl, h⟩
  | succ m ih =>
    intro j S h hij hm
    have hc := h.norm_pos (show j + 1 < k by omega)
    obtain ⟨S', h1, h2⟩ := ih (j + 1) (rotateS k j S) (h.rotate hij (by omega)) (by omega) (by omega)
    refine ⟨S', ?_, by rw [show j + (m + 1) = j + 1 + m by omega]; exact h2⟩
    rw [rotateFromS, if_neg hc.ne', h1]

theorem rotateAllS_append (del : List Bool) : ∀ (l l' : List ℕ) (S : Scaled),
    rotateAllS del (l ++ l') S = rotateAllS del l S >>= fun S' => rotateAllS del l' S' := by
  intro l
  induction l with
  | nil => intro l' S; rfl
  | cons i l ih =>
    intro l' S
    rw [List.cons_append, rotateAllS, rotateAllS]
    split
    · rw [Outcome.bind_assoc]
      congr 1
      funext S'
      exact ih l' S'
    · exact ih l' S

theorem rotateAllS_none (del : List Bool) : ∀ (l : List ℕ) (S : Scaled), (∀ i ∈ l, del.getD i false = false) →
    rotateAllS del l S = .ok S := by
  intro l
  induction l with
  | nil => intro S _; rfl
  | cons i l ih =>
    intro S h
    rw [rotateAllS, h i (by simp)]
    simp only [Bool.false_eq_true, if_false]
    exact ih S fun i hi => h i (by simp [hi])

theorem kept_cons (b : Bool) (del : List Bool) :
    kept (b :: del) = (if b then [] else [0]) ++ (kept del).map Nat.succ := by
  unfold kept
  rw [List.length_cons, List.range_succ_eq_map, List.filter_cons, List.filter_map]
  cases b <;> simp [Function.comp_def]

/-- The corral after the deletion. -/
theorem keep_eq (eps : ℚ) : ∀ (w : List ℚ) (Q : List (List ℚ)), w.length ≤ Q.length →
    ((List.zip Q w).filter fun p => ¬ p.2 ≤ eps).map Prod.fst =
      (kept (w.map fun a => decide (a ≤ eps))).map fun i => Q.getD i [] := by
  intro w
  induction w with
  | nil => intro Q _; simp [kept]
  | cons a w ih =>
    intro Q h
    cases Q with
    | nil => simp at h
    | cons q Q =>
      have := ih Q (by simpa using h)
      rw [List.map_cons, kept_cons]
      by_cases ha : a ≤ eps
      · simpa [ha, Function.comp_def] using this
      · rw [not_le] at ha
        simpa [ha, not_le.2 ha, Function.comp_def] using this

theorem kept_none {del : List Bool} (h : ∀ i, del.getD i false = false) : kept del = List.range del.length := by
  unfold kept
  rw [List.filter_eq_self]
  intro i _
  rw [h i]; rfl

theorem kept_one {del : List Bool} {i : ℕ} (hi : i < del.length) (h1 : del.getD i false = true)
    (h : ∀ j, j ≠ i → del.getD j false = false) :
    kept del = (List.range (del.length - 1)).map fun m => if m < i then m else m + 1 := by
  obtain ⟨m, hm⟩ : ∃ m, del.length = i + 1 + m := ⟨del.length - 1 - i, by omega⟩
  have h2 : List.range del.length = List.range i ++ [i] ++ (List.range m).map (i + 1 + ·) := by
    rw [hm, List.range_add, List.range_succ]
  have h3 : List.range (del.length - 1) = List.range i ++ (List.range m).map (i + ·) := by
    rw [show del.length - 1 = i + m by omega, List.range_add]
  unfold kept
  rw [h2, h3, List.filter_append, List.filter_append, List.map_append]
  have e1 : (List.range i).filter (fun i => !del.getD i false) = List.range i := by
    rw [List.filter_eq_self]
    intro j hj
    rw [h j (by have := List.mem_range.1 hj; omega)]; rfl
  have e2 : [i].filter (fun i => !del.getD i false) = [] := by
    simp only [List.filter_cons, h1]; rfl
  have e3 : ((List.range m).map (i + 1 + ·)).filter (fun i => !del.getD i false) = (List.range m).map (i + 1 + ·) := by
    rw [List.filter_eq_self]
    intro j hj
    obtain ⟨t, _, rfl⟩ := List.mem_map.1 hj
    rw [h _ (by omega)]; rfl
  rw [e1, e2, e3, List.append_nil]
  congr 1
  · symm
    conv_rhs => rw [← List.map_id (List.range i)]
    apply List.map_congr_left
    intro j hj
    rw [if_pos (List.mem_range.1 hj)]; rfl
  · rw [List.map_map]
    apply List.map_congr_left
    intro j _
    simp only [Function.comp]
    rw [if_neg (by omega)]
    omega

theorem marked_cases : ∀ del : List Bool, del.count true ≤ 1 → (∀ i, del.getD i false = false) ∨
    ∃ i < del.length, del.getD i false = true ∧ ∀ j, j ≠ i → del.getD j false = false := by
  intro del
  induction del with
  | nil => intro _; left; intro i; simp
  | cons b del ih =>
    intro h
    cases b with
    | false =>
      rcases ih (by simpa using h) with h1 | ⟨i, h1, h2, h3⟩
      · left
        intro i
        cases i with
        | zero => rfl
        | succ i => simpa using h1 i
      · right
        refine ⟨i + 1, by simpa using h1, by simpa using h2, ?_⟩
        intro j hj
        cases j with
        | zero => rfl
        | succ j => simpa using h3 j (by omega)
    | true =>
      have h0 : del.count true = 0 := by
        rw [List.count_cons_self] at h; omega
      right
      refine ⟨0, by simp, rfl, ?_⟩
      intro j hj
      cases j with
      | zero => omega
      | succ j =>
        rw [List.getD_cons_succ]
        rw [List.count_eq_zero] at h0
        by_contra hne
        apply h0
        by_cases hlt : j < del.length
        · rw [List.getD_eq_getElem _ _ hlt] at hne
          rw [← (Bool.eq_true_of_not_eq_false hne)]
          exact List.getElem_mem _
        · rw [List.getD_eq_default _ _ (by omega)] at hne
          exact absurd rfl hne

theorem map_getD {α β : Type} (g : α → β) (l : List α) (d : α) (d' : β) {i : ℕ} (hi : i < l.length) :
    (l.map g).getD i d' = g (l.getD i d) := by
  rw [List.getD_eq_getElem _ _ (by simpa using hi), List.getD_eq_getElem _ _ hi]
  simp

theorem Gram.pass {Q : List (List ℚ)} {S : Scaled} (h : Gram Q S) (i : ℕ) :
    Pass Q.length i i (fun r r' => 1 + dot (Q.getD r []) (Q.getD r' [])) S where
  pos := h.pos
  diag r hr _ := h.diag r hr
  zero r _ h1 h2 := by omega
  gram r hr _ r' hr' _ := h.gram r hr r' hr'

/-- Deleting at most one column keeps the invariant. -/
theorem Gram.delete {Q : List (List ℚ)} {S : Scaled} (hG : Gram Q S) {del : List Bool} (hl : del.length = Q.length)
    (hc : del.count true ≤ 1) :
    ∃ S', scaledFactor.delete S del = .ok S' ∧ Gram ((kept del).map fun i => Q.getD i []) S' := by
  rcases marked_cases del hc with h | ⟨i, hi, h1, h2⟩
  · refine ⟨⟨(kept del).map fun i => S.u.getD i [], S.d⟩, ?_, ?_⟩
    · show (rotateAllS del (List.range del.length) S >>= _) = _
      rw [rotateAllS_none del _ S fun i _ => h i]
      rfl
    · rw [kept_none h, hl]
      have e1 : ((List.range Q.length).map fun i => Q.getD i []) = Q := by
        apply List.ext_getElem (by simp)
        intro i h1 h2
        simp only [List.getElem_map, List.getElem_range]
        exact List.getD_eq_getElem _ _ h2
      rw [e1]
      have e2 : ∀ i < Q.length, ∀ t, (⟨(List.range Q.length).map fun i => S.u.getD i [], S.d⟩ : Scaled).uu i t =
          S.uu i t := by
        intro i hi t
        show (((List.range Q.length).map fun i => S.u.getD i []).getD i []).getD t 0 = _
        have : (List.range Q.length).getD i 0 = i := by
          rw [List.getD_eq_getElem _ _ (by simpa using hi)]; simp
        rw [map_getD _ _ 0 _ (by simpa using hi), this]
        rfl
      have e3 : ∀ i < Q.length, ∀ t, lo (⟨(List.range Q.length).map fun i => S.u.getD i [], S.d⟩ : Scaled) i t =
          lo S i t := by
        intro i hi t
        unfold lo
        rw [e2 i hi t]
      refine ⟨hG.pos, fun i hi => by rw [e2 i hi]; exact hG.diag i hi, fun i hi j hj => ?_⟩
      rw [← hG.gram i hi j hj]
      refine Finset.sum_congr rfl fun t _ => ?_
      rw [e3 i hi, e3 j hj]
      rfl
  · rw [hl] at hi
    obtain ⟨S', hr, hP⟩ := Pass.from (Q.length - 1 - i) i S (hG.pass i) le_rfl (by omega)
    rw [show i + (Q.length - 1 - i) = Q.length - 1 by omega] at hP
    have hrun : rotateAllS del (List.range del.length) S = .ok S' := by
      obtain ⟨m, hm⟩ : ∃ m, del.length = i + 1 + m := ⟨del.length - 1 - i, by omega⟩
      have h3 : List.range del.length = List.range i ++ ([i] ++ (List.range m).map (i + 1 + ·)) := by
        rw [hm, List.range_add, List.range_succ, List.append_assoc]
      rw [h3, rotateAllS_append, rotateAllS_none del (List.range i) S fun j hj =>
        h2 j (by have := List.mem_range.1 hj; omega)]
      show rotateAllS del ([i] ++ (List.range m).map (i + 1 + ·)) S = _
      rw [rotateAllS_append]
      have e1 : rotateAllS del [i] S = .ok S' := by
        rw [rotateAllS, h1, if_pos rfl, hl, hr]
        rfl
      rw [e1]
      show rotateAllS del ((List.range m).map (i + 1 + ·)) S' = _
      apply rotateAllS_none
      intro j hj
      obtain ⟨t, _, rfl⟩ := List.mem_map.1 hj
      exact h2 _ (by omega)
    refine ⟨⟨(kept del).map fun i => S'.u.getD i [], S'.d⟩, ?_, ?_⟩
    · show (rotateAllS del (List.range del.length) S >>= _) = _
      rw [hrun]
      rfl
    have hk := kept_one (by rw [hl]; exact hi) h1 h2
    rw [hl] at hk
    set σ : ℕ → ℕ := fun m => if m < i then m else m + 1 with hσ
    set k := Q.length with hkdef
    set T : Scaled := ⟨(kept del).map fun i => S'.u.getD i [], S'.d⟩ with hT
    have hklen : (kept del).length = k - 1 := by rw [hk]; simp
    have hσne : ∀ m, σ m ≠ i := by intro m; simp only [hσ]; split <;> omega
    have hσlt : ∀ m < k - 1, σ m < k := by intro m hm; simp only [hσ]; split <;> omega
    have hkget : ∀ m < k - 1, (kept del).getD m 0 = σ m := by
      intro m hm
      rw [hk, map_getD _ _ 0 _ (by simpa using hm), List.getD_eq_getElem _ _ (by simpa using hm)]
      simp
    have hQget : ∀ m < k - 1, ((kept del).map fun i => Q.getD i []).getD m [] = Q.getD (σ m) [] := by
      intro m hm
      rw [map_getD _ _ 0 _ (by rw [hklen]; exact hm), hkget m hm]
    have huu : ∀ m < k - 1, ∀ t, T.uu m t = S'.uu (σ m) t := by
      intro m hm t
      show (((kept del).map fun i => S'.u.getD i []).getD m []).getD t 0 = _
      rw [map_getD _ _ 0 _ (by rw [hklen]; exact hm), hkget m hm]
      rfl
    have hlo : ∀ m < k - 1, ∀ t < k, lo T m t = lo S' (σ m) t := by
      intro m hm t ht
      unfold lo
      rw [huu m hm]
      by_cases hmi : m < i
      · simp only [hσ, hmi, if_true]
      · simp only [hσ, hmi, if_false]
        by_cases ht1 : t ≤ m
        · rw [if_pos ht1, if_pos (by omega)]
        · rw [if_neg ht1]
          split
          · have : t = m + 1 := by omega
            subst this
            exact (hP.zero (m + 1) ht (by omega) (by omega)).1.symm
          · rfl
    have hlen' : ((kept del).map fun i => Q.getD i []).length = k - 1 := by rw [List.length_map, hklen]
    constructor
    · rw [hlen']
      intro t ht
      exact hP.pos t (by omega)
    · rw [hlen']
      intro m hm
      rw [huu m hm]
      by_cases hmi : m < i
      · simp only [hσ, hmi, if_true]
        exact hP.diag m (by omega) (Or.inl hmi)
      · simp only [hσ, hmi, if_false]
        exact (hP.zero (m + 1) (by omega) (by omega) (by omega)).2
    · rw [hlen']
      intro m hm m' hm'
      rw [hQget m hm, hQget m' hm', ← hP.gram (σ m) (hσlt m hm) (hσne m) (σ m') (hσlt m' hm') (hσne m')]
      have : Finset.range k = Finset.range (k - 1 + 1) := by rw [show k - 1 + 1 = k by omega]
      rw [this, Finset.sum_range_succ, ← hlo m hm (k - 1) (by omega)]
      have hz : lo T m (k - 1) = 0 := if_neg (by omega)
      rw [hz, zero_mul, zero_mul, add_zero]
      refine Finset.sum_congr rfl fun t ht => ?_
      have ht' := Finset.mem_range.1 ht
      rw [hlo m hm t (by omega), hlo m' hm' t (by omega)]
      rfl

end PSP.Theory
