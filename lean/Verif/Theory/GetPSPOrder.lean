import Verif.Theory.GetPSPTree

/-!
# `get_psp` on trees whose merges come in an unsuitable order
-/

namespace PSP.Theory

open PSP.Spec PSP.Model

variable {m : ℕ} {p : ℕ → ℕ} {w : ℕ → ℚ} {K : List ℕ} {W : List ℚ} {D : PyDict}

/-- `a` is merged before `b`. -/
def MergedBefore (w : ℕ → ℚ) (a b : ℕ) : Prop := w b < w a ∨ (w a = w b ∧ a < b)

theorem MergedBefore.asymm {a b : ℕ} (h : MergedBefore w a b) (h' : MergedBefore w b a) : False := by
  rcases h with h | h <;> rcases h' with h' | h'
  · linarith
  · linarith [h'.1]
  · linarith [h.1]
  · omega

/-- The dictionary after merging the nodes of a list. -/
def joinAll (p : ℕ → ℕ) (l : List ℕ) (D : PyDict) : PyDict := l.foldl (fun D j => pyJoin D j (p j)) D

theorem joinAll_append (A B : List ℕ) (D : PyDict) : joinAll p (A ++ B) D = joinAll p B (joinAll p A D) := by
  simp [joinAll]

/-- `x` is in one of the lists. -/
def Listed (D : PyDict) (x : ℕ) : Prop := ∃ e ∈ D, x ∈ e.2

/-! ### what one merge does -/

theorem pyJoin_listed {j k x : ℕ} (h : Listed (pyJoin D j k) x) :
    Listed D x ∨ (j ∉ D.map Prod.fst ∧ (x = j ∨ (x = k ∧ k ∉ D.map Prod.fst))) := by
  unfold pyJoin at h
  cases hj : D.get j with
  | some dj =>
    rw [hj] at h
    have hdj := PyDict.get_mem hj
    simp only at h
    split_ifs at h with hkj
    · exact Or.inl h
    · cases hk : D.get k with
      | none =>
        rw [hk] at h
        obtain ⟨e, he, hx⟩ := h
        rcases PyDict.mem_set.1 (List.mem_filter.1 he).1 with rfl | h1
        · exact Or.inl ⟨_, hdj, hx⟩
        · exact Or.inl ⟨e, h1.1, hx⟩
      | some dk =>
        rw [hk] at h
        obtain ⟨e, he, hx⟩ := h
        rcases PyDict.mem_set.1 (List.mem_filter.1 he).1 with rfl | h1
        · rcases List.mem_append.1 hx with hx | hx
          · exact Or.inl ⟨_, PyDict.get_mem hk, hx⟩
          · exact Or.inl ⟨_, hdj, hx⟩
        · exact Or.inl ⟨e, h1.1, hx⟩
  | none =>
    rw [hj] at h
    have hnj := PyDict.get_none.1 hj
    cases hk : D.get k with
    | none =>
      rw [hk] at h
      obtain ⟨e, he, hx⟩ := h
      rcases PyDict.mem_set.1 he with rfl | h1
      · simp only [List.mem_cons, List.not_mem_nil, or_false] at hx
        rcases hx with rfl | rfl
        · exact Or.inr ⟨hnj, Or.inl rfl⟩
        · exact Or.inr ⟨hnj, Or.inr ⟨rfl, PyDict.get_none.1 hk⟩⟩
      · exact Or.inl ⟨e, h1.1, hx⟩
    | some dk =>
      rw [hk] at h
      obtain ⟨e, he, hx⟩ := h
      rcases PyDict.mem_set.1 he with rfl | h1
      · rcases List.mem_append.1 hx with hx | hx
        · exact Or.inl ⟨_, PyDict.get_mem hk, hx⟩
        · exact Or.inr ⟨hnj, Or.inl (List.mem_singleton.1 hx)⟩
      · exact Or.inl ⟨e, h1.1, hx⟩

theorem keys_of_set {k x : ℕ} {v : List ℕ} : x ∈ (D.set k v).map Prod.fst ↔ x = k ∨ x ∈ D.map Prod.fst := by
  simp only [List.mem_map, PyDict.mem_set]
  constructor
  · rintro ⟨e, rfl | h1, rfl⟩
    · exact Or.inl rfl
    · exact Or.inr ⟨e, h1.1, rfl⟩
  · rintro (rfl | ⟨e, h1, rfl⟩)
    · exact ⟨_, Or.inl rfl, rfl⟩
    · rcases eq_or_ne e.1 k with h2 | h2
      · exact ⟨(k, v), Or.inl rfl, h2.symm⟩
      · exact ⟨e, Or.inr ⟨h1, h2⟩, rfl⟩

theorem keys_of_pop {k x : ℕ} : x ∈ (D.pop k).map Prod.fst ↔ x ∈ D.map Prod.fst ∧ x ≠ k := by
  simp only [PyDict.pop, List.mem_map, List.mem_filter, decide_eq_true_eq]
  constructor
  · rintro ⟨e, h1, rfl⟩
    exact ⟨⟨e, h1.1, rfl⟩, h1.2⟩
  · rintro ⟨⟨e, h1, rfl⟩, h2⟩
    exact ⟨e, ⟨h1, h2⟩, rfl⟩

/-- The keys after a merge. -/
theorem pyJoin_keys {j k x : ℕ} : x ∈ (pyJoin D j k).map Prod.fst ↔ x = k ∨ (x ∈ D.map Prod.fst ∧ x ≠ j) := by
  unfold pyJoin
  cases hj : D.get j with
  | some dj =>
    have hdj : j ∈ D.map Prod.fst := List.mem_map_of_mem (f := Prod.fst) (PyDict.get_mem hj)
    simp only
    split_ifs with hkj
    · subst hkj
      constructor
      · intro h
        rcases eq_or_ne x k with h1 | h1
        · exact Or.inl h1
        · exact Or.inr ⟨h, h1⟩
      · rintro (rfl | h)
        · exact hdj
        · exact h.1
    · cases hk : D.get k with
      | none =>
        simp only
        rw [keys_of_pop, keys_of_set]
        constructor
        · rintro ⟨h1 | h1, h2⟩
          · exact Or.inl h1
          · exact Or.inr ⟨h1, h2⟩
        · rintro (rfl | h1)
          · exact ⟨Or.inl rfl, hkj⟩
          · exact ⟨Or.inr h1.1, h1.2⟩
      | some dk =>
        simp only
        rw [keys_of_pop, keys_of_set]
        constructor
        · rintro ⟨h1 | h1, h2⟩
          · exact Or.inl h1
          · exact Or.inr ⟨h1, h2⟩
        · rintro (rfl | h1)
          · exact ⟨Or.inl rfl, hkj⟩
          · exact ⟨Or.inr h1.1, h1.2⟩
  | none =>
    have hnj := PyDict.get_none.1 hj
    have hne : ∀ x, x ∈ D.map Prod.fst ↔ x ∈ D.map Prod.fst ∧ x ≠ j :=
      fun x => ⟨fun h => ⟨h, fun hxj => hnj (hxj ▸ h)⟩, fun h => h.1⟩
    cases hk : D.get k with
    | none =>
      simp only
      rw [keys_of_set, ← hne]
    | some dk =>
      simp only
      rw [keys_of_set, ← hne]

/-- Lists of keys other than the root do not contain the root. -/
theorem pyJoin_zero {j : ℕ} (hj : j = 0 ∨ p j < j) (h0 : p 0 = 0) (h : ∀ e ∈ D, e.1 ≠ 0 → 0 ∉ e.2) :
    ∀ e ∈ pyJoin D j (p j), e.1 ≠ 0 → 0 ∉ e.2 := by
  intro e he he0
  unfold pyJoin at he
  have hset : ∀ v : List ℕ, (p j ≠ 0 → 0 ∉ v) → e ∈ D.set (p j) v → 0 ∉ e.2 := by
    intro v hv hm
    rcases PyDict.mem_set.1 hm with rfl | h1
    · exact hv he0
    · exact h e h1.1 he0
  have hjne : p j ≠ 0 → j ≠ 0 := by
    rintro h1 rfl
    exact h1 h0
  cases hg : D.get j with
  | some dj =>
    rw [hg] at he
    simp only at he
    have hdj : p j ≠ 0 → 0 ∉ dj := fun h1 => h _ (PyDict.get_mem hg) (hjne h1)
    split_ifs at he with hkj
    · exact h e he he0
    · cases hk : D.get (p j) with
      | none =>
        rw [hk] at he
        exact hset _ hdj (List.mem_filter.1 he).1
      | some dk =>
        rw [hk] at he
        refine hset _ (fun h1 => ?_) (List.mem_filter.1 he).1
        rw [List.mem_append, not_or]
        exact ⟨h _ (PyDict.get_mem hk) h1, hdj h1⟩
  | none =>
    rw [hg] at he
    cases hk : D.get (p j) with
    | none =>
      rw [hk] at he
      refine hset _ (fun h1 => ?_) he
      have := hjne h1
      simp only [List.mem_cons, List.not_mem_nil, or_false, not_or]
      omega
    | some dk =>
      rw [hk] at he
      refine hset _ (fun h1 => ?_) he
      have := hjne h1
      rw [List.mem_append, List.mem_singleton, not_or]
      exact ⟨h _ (PyDict.get_mem hk) h1, by omega⟩

/-! ### all merges -/

theorem joinAll_zero (h0 : p 0 = 0) {l : List ℕ} (hl : ∀ j ∈ l, j = 0 ∨ p j < j)
    (h : ∀ e ∈ D, e.1 ≠ 0 → 0 ∉ e.2) : ∀ e ∈ joinAll p l D, e.1 ≠ 0 → 0 ∉ e.2 := by
  induction l generalizing D with
  | nil => exact h
  | cons j l ih =>
    exact ih (fun i hi => hl i (List.mem_cons_of_mem _ hi)) (pyJoin_zero (hl j List.mem_cons_self) h0 h)

/-- A key stays until it is merged itself. -/
theorem joinAll_key {l : List ℕ} {k : ℕ} (hk : k ∈ D.map Prod.fst) (hl : k ∉ l) :
    k ∈ (joinAll p l D).map Prod.fst := by
  induction l generalizing D with
  | nil => exact hk
  | cons j l ih =>
    rw [List.mem_cons, not_or] at hl
    exact ih (pyJoin_keys.2 (Or.inr ⟨hk, hl.1⟩)) hl.2

theorem joinAll_origin (l : List ℕ) {k : ℕ} (h : k ∈ (joinAll p l []).map Prod.fst) : ∃ i ∈ l, p i = k := by
  induction l using List.reverseRecOn with
  | nil => simp [joinAll] at h
  | append_singleton l j ih =>
    rw [joinAll_append] at h
    rcases pyJoin_keys.1 h with h1 | h1
    · exact ⟨j, by simp, h1.symm⟩
    · obtain ⟨i, hi, hik⟩ := ih h1.1
      exact ⟨i, by simp [hi], hik⟩

theorem joinAll_listed (l : List ℕ) {x : ℕ} (h : Listed (joinAll p l []) x) : x ∈ l ∨ ∃ i ∈ l, p i = x := by
  induction l using List.reverseRecOn with
  | nil =>
    obtain ⟨e, he, -⟩ := h
    cases he
  | append_singleton l j ih =>
    rw [joinAll_append] at h
    rcases pyJoin_listed h with h1 | ⟨-, rfl | ⟨rfl, -⟩⟩
    · rcases ih h1 with h2 | ⟨i, hi, hix⟩
      · exact Or.inl (by simp [h2])
      · exact Or.inr ⟨i, by simp [hi], hix⟩
    · exact Or.inl (by simp)
    · exact Or.inr ⟨j, by simp, rfl⟩

/-- A node that has a group or was merged without being in any list is lost, or its number is a key for ever. -/
theorem joinAll_lost (h0 : p 0 = 0) {A l : List ℕ} (hnd : (A ++ l).Nodup) {k : ℕ} (h1 : ¬ Listed D k)
    (h2 : k ∈ D.map Prod.fst ∨ (k ∈ A ∧ k ≠ 0)) :
    ¬ Listed (joinAll p l D) k ∨ (k ≠ 0 ∧ k ∈ (joinAll p l D).map Prod.fst) := by
  induction l generalizing D A with
  | nil => exact Or.inl h1
  | cons j l ih =>
    have hnd' : (A ++ [j] ++ l).Nodup := by simpa using hnd
    have hjA : j ∉ A := fun hh => (List.nodup_append.1 hnd).2.2 j hh j List.mem_cons_self rfl
    by_cases hp : Listed (pyJoin D j (p j)) k
    · rcases pyJoin_listed hp with h3 | ⟨h3, h4⟩
      · exact absurd h3 h1
      · rcases h4 with rfl | ⟨rfl, h4⟩
        · rcases h2 with h2 | h2
          · exact absurd h2 h3
          · exact absurd h2.1 hjA
        · rcases h2 with h2 | h2
          · exact absurd h2 h4
          · refine Or.inr ⟨h2.2, ?_⟩
            refine joinAll_key (D := pyJoin D j (p j)) (pyJoin_keys.2 (Or.inl rfl)) fun hh => ?_
            exact (List.nodup_append.1 hnd).2.2 _ h2.1 _ (List.mem_cons_of_mem _ hh) rfl
    · refine ih (A := A ++ [j]) hnd' hp ?_
      rcases h2 with h2 | h2
      · rcases eq_or_ne k j with rfl | hkj
        · rcases Nat.eq_zero_or_pos k with rfl | hk0
          · exact Or.inl (pyJoin_keys.2 (Or.inl h0.symm))
          · exact Or.inr ⟨by simp, by omega⟩
        · exact Or.inl (pyJoin_keys.2 (Or.inr ⟨h2, hkj⟩))
      · exact Or.inr ⟨by simp [h2.1], h2.2⟩

/-! ### the run -/

theorem pyMergeLoop_joinAll (hK : ∀ j < m + 1, K[j]? = some (p j)) (hW : ∀ j < m + 1, W[j]? = some (w j)) (γ : ℚ)
    {C : List ℕ} (hC : ∀ i ∈ C, i < m + 1) (D : PyDict) (acc : List ℕ) :
    pyMergeLoop K W γ C D acc =
      .ok (joinAll p (C.filter fun i => ¬ w i < γ) D, acc ++ C.filter fun i => w i < γ) := by
  induction C generalizing D acc with
  | nil => simp [pyMergeLoop, joinAll]
  | cons j C ih =>
    have hj := hC j List.mem_cons_self
    have hC' : ∀ i ∈ C, i < m + 1 := fun k hk => hC k (List.mem_cons_of_mem _ hk)
    simp only [pyMergeLoop, pyGet, hW j hj, hK j hj, Outcome.ok_bind]
    by_cases h : w j < γ
    · rw [if_pos h, ih hC']
      simp [h]
    · rw [if_neg h, ih hC', List.filter_cons_of_pos (by simpa using h), List.filter_cons_of_neg (by simpa using h)]
      rfl

/-- What is known between two iterations: the nodes of `l` were merged, in this order. -/
structure OrderInv (m : ℕ) (p : ℕ → ℕ) (w : ℕ → ℚ) (C l : List ℕ) (D : PyDict) (Q : List (List CSet)) : Prop where
  lt : ∀ i ∈ C, i < m + 1
  sorted : C.Pairwise (· < ·)
  dict : D = joinAll p l []
  ltl : ∀ i ∈ l, i < m + 1
  order : l.Pairwise (MergedBefore w)
  heavy : ∀ i ∈ l, ∀ j ∈ C, w j < w i
  all : ∀ i < m + 1, i ∈ l ∨ i ∈ C
  head : l = [] ∨ Q.head? = some (pyBlocks (m + 1) D)

theorem pyLoop_order (hK : ∀ j < m + 1, K[j]? = some (p j)) (hW : ∀ j < m + 1, W[j]? = some (w j)) (fuel : ℕ)
    {C l : List ℕ} {D : PyDict} {L : List ℚ} {Q : List (List CSet)} (h : OrderInv m p w C l D Q) {L' : List ℚ}
    {Q' : List (List CSet)} (hrun : pyLoop (m + 1) K W fuel C D L Q = .ok (L', Q')) :
    ∃ C' l' D', C'.length ≤ 1 ∧ OrderInv m p w C' l' D' Q' := by
  induction fuel generalizing C l D L Q with
  | zero =>
    rw [pyLoop] at hrun
    split_ifs at hrun with hlen
    cases hrun
    exact ⟨C, l, D, by omega, h⟩
  | succ fuel ih =>
    rw [pyLoop] at hrun
    split_ifs at hrun with hlen
    · obtain ⟨γ, g1, g2, g3, g4⟩ := pyGamma_spec hW h.lt (-1)
      rw [g1, Outcome.ok_bind, pyMergeLoop_joinAll hK hW γ h.lt, Outcome.ok_bind, List.nil_append] at hrun
      have hmem : ∀ i, i ∈ C.filter (fun i => ¬ w i < γ) ↔ i ∈ C ∧ w i = γ := by
        intro i
        rw [List.mem_filter, decide_eq_true_eq]
        exact and_congr_right fun hi => ⟨fun h1 => le_antisymm (g3 i hi) (not_lt.1 h1), fun h1 => by simp [h1]⟩
      refine ih (l := l ++ C.filter fun i => ¬ w i < γ) ?_ hrun
      refine ⟨fun i hi => h.lt i (List.mem_filter.1 hi).1, h.sorted.sublist List.filter_sublist, ?_, ?_, ?_, ?_, ?_,
        Or.inr rfl⟩
      · rw [joinAll_append, h.dict]
      · intro i hi
        rcases List.mem_append.1 hi with hi | hi
        · exact h.ltl i hi
        · exact h.lt i (List.mem_filter.1 hi).1
      · rw [List.pairwise_append]
        refine ⟨h.order, ?_, ?_⟩
        · refine List.Pairwise.imp_of_mem ?_ (h.sorted.sublist List.filter_sublist)
          intro a b ha hb hab
          exact Or.inr ⟨((hmem a).1 ha).2.trans ((hmem b).1 hb).2.symm, hab⟩
        · exact fun a ha b hb => Or.inl (h.heavy a ha b ((hmem b).1 hb).1)
      · intro i hi j hj
        rw [List.mem_filter, decide_eq_true_eq] at hj
        rcases List.mem_append.1 hi with hi | hi
        · exact h.heavy i hi j hj.1
        · rw [((hmem i).1 hi).2]
          exact hj.2
      · intro i hi
        rcases h.all i hi with h1 | h1
        · exact Or.inl (List.mem_append_left _ h1)
        · by_cases h2 : w i < γ
          · exact Or.inr (List.mem_filter.2 ⟨h1, by simpa using h2⟩)
          · exact Or.inl (List.mem_append_right _ (List.mem_filter.2 ⟨h1, by simpa using h2⟩))
    · cases hrun
      exact ⟨C, l, D, by omega, h⟩

/-- The first partition is right only if the order of the merges suits the script. -/
theorem orderly_of_whole (hp : ∀ j ∈ Finset.Icc 1 m, p j < j) (h0 : p 0 = 0) {l : List ℕ} (hl : ∀ i ∈ l, i < m + 1)
    (hord : l.Pairwise (MergedBefore w)) (hall : ∀ i ∈ Finset.Icc 1 m, i ∈ l)
    (hwhole : ∀ B ∈ pyBlocks (m + 1) (joinAll p l []), B = Finset.range (m + 1))
    (hne : pyBlocks (m + 1) (joinAll p l []) ≠ []) : OrderlyAt m p w := by
  have hlp : ∀ j ∈ l, j = 0 ∨ p j < j := by
    intro j hj
    rcases Nat.eq_zero_or_pos j with h1 | h1
    · exact Or.inl h1
    · have := hl j hj
      exact Or.inr (hp j (Finset.mem_Icc.2 ⟨h1, by omega⟩))
  have hnd : l.Nodup := hord.imp (by
    rintro a b h rfl
    exact h.asymm h)
  -- no other key than the root
  have hkey : ∀ k ∈ (joinAll p l []).map Prod.fst, k = 0 := by
    intro k hk
    by_contra hk0
    obtain ⟨e, he, rfl⟩ := List.mem_map.1 hk
    have h1 := joinAll_zero h0 hlp (D := []) (fun e he => absurd he List.not_mem_nil) e he hk0
    have h2 := hwhole e.2.toFinset (List.mem_append_left _ (List.mem_map_of_mem (f := fun e => e.2.toFinset) he))
    refine h1 ?_
    rw [← List.mem_toFinset, h2]
    simp
  -- nothing is lost
  have hlisted : ∀ j ∈ Finset.Icc 1 m, ∀ x < m + 1, Listed (joinAll p l []) x := by
    intro j hj x hx
    rw [Finset.mem_Icc] at hj
    obtain ⟨B, hB⟩ := List.exists_mem_of_ne_nil _ hne
    have hBx : x ∈ B := by
      rw [hwhole B hB]
      exact Finset.mem_range.2 hx
    have hBw := hwhole B hB
    rcases List.mem_append.1 hB with hB | hB
    · obtain ⟨e, he, rfl⟩ := List.mem_map.1 hB
      exact ⟨e, he, List.mem_toFinset.1 hBx⟩
    · split_ifs at hB
      · obtain ⟨i, -, rfl⟩ := List.mem_map.1 hB
        have := congrArg Finset.card hBw
        rw [Finset.card_singleton, Finset.card_range] at this
        omega
      · cases hB
  have hsplit : ∀ j ∈ l, ∃ A B, l = A ++ j :: B ∧ ∀ i ∈ l, MergedBefore w i j → i ∈ A := by
    intro j hj
    obtain ⟨A, B, rfl⟩ := List.append_of_mem hj
    refine ⟨A, B, rfl, fun i hi hij => ?_⟩
    rcases List.mem_append.1 hi with h1 | h1
    · exact h1
    · rw [List.pairwise_append, List.pairwise_cons] at hord
      rcases List.mem_cons.1 h1 with rfl | h2
      · exact (hij.asymm hij).elim
      · exact (hij.asymm (hord.2.1.1 i h2)).elim
  have hA : ∀ {A B : List ℕ} {j : ℕ}, l = A ++ j :: B → ∀ i ∈ A, MergedBefore w i j := by
    rintro A B j rfl i hi
    rw [List.pairwise_append] at hord
    exact hord.2.2 i hi j List.mem_cons_self
  have first : ∀ j ∈ Finset.Icc 1 m, 0 < p j → w (p j) < w j := by
    intro j hj hpos
    by_contra hcon
    have hpj := hp j hj
    have hjm := Finset.mem_Icc.1 hj
    have hbef : MergedBefore w (p j) j := by
      rcases (not_lt.1 hcon).lt_or_eq with h1 | h1
      · exact Or.inl h1
      · exact Or.inr ⟨h1.symm, hpj⟩
    obtain ⟨A, B, hlAB, hmemA⟩ := hsplit j (hall j hj)
    have hkA := hmemA (p j) (hall _ (Finset.mem_Icc.2 ⟨hpos, by omega⟩)) hbef
    have hkB : p j ∉ B := by
      intro hh
      rw [hlAB] at hnd
      exact (List.nodup_append.1 hnd).2.2 _ hkA _ (List.mem_cons_of_mem _ hh) rfl
    have h1 : p j ∈ (joinAll p l []).map Prod.fst := by
      rw [hlAB, joinAll_append]
      exact joinAll_key (D := pyJoin (joinAll p A []) j (p j)) (pyJoin_keys.2 (Or.inl rfl)) hkB
    exact absurd (hkey _ h1) (by omega)
  refine fun j hj => ⟨first j hj, ?_⟩
  rintro ⟨c, hc, hcj⟩
  by_contra hcon
  push Not at hcon
  have hpj := hp j hj
  have hjm := Finset.mem_Icc.1 hj
  obtain ⟨A, B, hlAB, hmemA⟩ := hsplit j (hall j hj)
  -- no sibling is merged earlier
  have hnos : ∀ i ∈ A, p i ≠ p j := by
    intro i hi hij
    have hil : i < m + 1 := hl i (by rw [hlAB]; exact List.mem_append_left _ hi)
    obtain ⟨c1, c2⟩ := hcon i hil hij
    rcases hA hlAB i hi with h1 | h1
    · exact absurd h1 (not_lt.2 c1)
    · exact absurd h1.2 (not_lt.2 (c2 h1.1))
  have hpA : p j ∉ A := by
    intro hh
    rcases Nat.eq_zero_or_pos (p j) with h1 | h1
    · exact hnos (p j) hh (by rw [h1, h0])
    · rcases hA hlAB _ hh with h2 | h2
      · exact absurd (first j hj h1) (not_lt.2 h2.le)
      · exact absurd (first j hj h1) (not_lt.2 h2.1.ge)
  have hknot : p j ∉ (joinAll p A []).map Prod.fst := by
    intro hh
    obtain ⟨i, hi, hik⟩ := joinAll_origin A hh
    exact hnos i hi hik
  have hlist : ¬ Listed (joinAll p A []) (p j) := by
    intro hh
    rcases joinAll_listed A hh with h1 | ⟨i, hi, hik⟩
    · exact hpA h1
    · exact hnos i hi hik
  -- the node has a group
  have hjkey : j ∈ (joinAll p A []).map Prod.fst := by
    have hcA : c ∈ A := hmemA c (hall c hc) (Or.inl (by
      have := first c hc (by omega)
      rwa [hcj] at this))
    obtain ⟨A1, A2, rfl⟩ := List.append_of_mem hcA
    rw [joinAll_append]
    refine joinAll_key (D := pyJoin (joinAll p A1 []) c (p c)) (pyJoin_keys.2 (Or.inl hcj.symm)) fun hh => ?_
    rw [hlAB] at hnd
    exact (List.nodup_append.1 hnd).2.2 j (by simp [hh]) j List.mem_cons_self rfl
  have h1 : ¬ Listed (pyJoin (joinAll p A []) j (p j)) (p j) := by
    intro hh
    rcases pyJoin_listed hh with h2 | h2
    · exact hlist h2
    · exact h2.1 hjkey
  have h2 := joinAll_lost (p := p) h0 (D := pyJoin (joinAll p A []) j (p j)) (A := A ++ [j]) (l := B)
    (by rw [hlAB] at hnd; simpa using hnd) h1 (Or.inl (pyJoin_keys.2 (Or.inl rfl)))
  have h3 : joinAll p B (pyJoin (joinAll p A []) j (p j)) = joinAll p l [] := by
    rw [hlAB, joinAll_append]
    rfl
  rw [h3] at h2
  rcases h2 with h2 | h2
  · exact h2 (hlisted j hj (p j) (by omega))
  · exact h2.1 (hkey _ h2.2)

theorem getPsp_orderly (hp : ∀ j ∈ Finset.Icc 1 m, p j < j) (h0 : p 0 = 0) (hK : ∀ j < m + 1, K[j]? = some (p j))
    (hW : ∀ j < m + 1, W[j]? = some (w j)) (hroot : ∀ j < m + 1, 0 < j → w 0 ≤ w j) {fuel : ℕ} {L : List ℚ}
    {Q : List (List CSet)} (hrun : getPsp fuel (m + 1) K W = .ok (L, Q))
    (hfirst : (Q.map List.toFinset).head? = some {Finset.range (m + 1)}) : OrderlyAt m p w := by
  obtain ⟨C, l, D, h1, h2⟩ := pyLoop_order hK hW fuel (C := List.range (m + 1)) (l := [])
    ⟨fun i hi => List.mem_range.1 hi, List.pairwise_lt_range, rfl, fun i hi => absurd hi List.not_mem_nil,
      List.Pairwise.nil, fun i hi => absurd hi List.not_mem_nil, fun i hi => Or.inr (List.mem_range.2 hi),
      Or.inl rfl⟩ hrun
  have hC : ∀ i ∈ Finset.Icc 1 m, i ∈ l := by
    intro i hi
    have him := Finset.mem_Icc.1 hi
    rcases h2.all i (by omega) with h3 | h3
    · exact h3
    · rcases h2.all 0 (by omega) with h4 | h4
      · have := h2.heavy 0 h4 i h3
        exact absurd (hroot i (by omega) (by omega)) (not_le.2 this)
      · match C, h1, h3, h4 with
        | [x], _, h3, h4 =>
          rw [List.mem_singleton] at h3 h4
          omega
  rcases Nat.eq_zero_or_pos m with rfl | hm
  · intro j hj
    rw [Finset.mem_Icc] at hj
    omega
  rcases h2.head with h3 | h3
  · have := hC 1 (Finset.mem_Icc.2 ⟨le_rfl, hm⟩)
    rw [h3] at this
    cases this
  · rw [List.head?_map, h3, Option.map_some, Option.some_inj, h2.dict] at hfirst
    refine orderly_of_whole hp h0 h2.ltl h2.order hC ?_ ?_
    · intro B hB
      rw [← List.mem_toFinset, hfirst, Finset.mem_singleton] at hB
      exact hB
    · intro hnil
      rw [hnil] at hfirst
      exact absurd hfirst.symm (Finset.singleton_ne_empty _)

end PSP.Theory
