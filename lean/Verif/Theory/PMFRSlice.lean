import Verif.Theory.PMFRNet
import Verif.Theory.PDTFinal

/-!
# `PMF_R::slice` and `PMF_R::run`
-/

namespace PSP.Theory

open PSP.Spec PSP.Model
open scoped Nat

variable {E : List Arc} {ε : ℚ} {j : ℕ} {y : ℕ → YPair} {lam : ℚ} {X V Xl Xr Xlc Xrc : Finset ℕ}
  {arcs : List NArc}

/-! ### the shape of the networks -/

theorem mem_S (i : ℕ) : i ∈ Finset.range (j + 2) \ insert j Xl ↔ i < j + 2 ∧ i ≠ j ∧ i ∉ Xl := by
  simp [Finset.mem_sdiff, Finset.mem_range, not_or]

theorem arcSum_nonneg (h : ∀ e ∈ arcs, 0 ≤ e.cap) (p : NArc → Bool) : 0 ≤ arcSum ε arcs p := by
  apply List.sum_nonneg
  intro z hz
  rw [List.mem_map] at hz
  obtain ⟨e, he, rfl⟩ := hz
  split
  · exact h e he
  · exact le_rfl

/-- One of the four groups of arcs added for a node by `contract`. -/
theorem countP_flat {f : ℕ → List NArc} {p : NArc → Bool} {l : List ℕ} (hl : l.Nodup) {i : ℕ} (hi : i ∈ l)
    (h1 : (f i).countP p = 1) (h0 : ∀ k ∈ l, k ≠ i → (f k).countP p = 0) : (l.flatMap f).countP p = 1 := by
  induction l with
  | nil => simp at hi
  | cons k l ih =>
    rw [List.flatMap_cons, List.countP_append]
    have hk := List.nodup_cons.1 hl
    by_cases hik : k = i
    · subst hik
      rw [h1]
      have : (l.flatMap f).countP p = 0 := by
        rw [List.countP_eq_zero]
        intro e he
        rw [List.mem_flatMap] at he
        obtain ⟨m, hm, he⟩ := he
        have hmk : m ≠ k := fun h => hk.1 (h ▸ hm)
        have := h0 m (List.mem_cons_of_mem _ hm) hmk
        rw [List.countP_eq_zero] at this
        exact this e he
      omega
    · rw [h0 k List.mem_cons_self hik, zero_add]
      have hi' : i ∈ l := by
        rcases List.mem_cons.1 hi with h | h
        · exact absurd h.symm hik
        · exact h
      exact ih hk.2 hi' fun m hm => h0 m (List.mem_cons_of_mem _ hm)

theorem contractRWith_inv {sum : (NArc → Bool) → ℚ} (hsum : ∀ p, 0 ≤ sum p) (hcap : ∀ e ∈ E, ε ≤ e.cap)
    (h : RInv E V arcs) (hV : V ⊆ Finset.range j)
    (hlr : Xr ⊆ Xl) (hlj : Xl ⊆ Finset.range j) (hsub : Xl \ Xr ⊆ V) :
    RInv E (Xl \ Xr) (contractRWith sum ε j (Finset.range (j + 2) \ insert j Xl) (insert j Xr) arcs) ∧
    stSum (contractRWith sum ε j (Finset.range (j + 2) \ insert j Xl) (insert j Xr) arcs) = sum (fun e =>
      decide (nvId j e.a ∈ Finset.range (j + 2) \ insert j Xl) && decide (nvId j e.b ∈ insert j Xr)) ∧
    (contractRWith sum ε j (Finset.range (j + 2) \ insert j Xl) (insert j Xr) arcs).length ≤
      E.length + 2 + 4 * j := by
  set S := Finset.range (j + 2) \ insert j Xl with hS
  set T := insert j Xr with hT
  have hjl : j ∉ Xl := fun h => by simpa using hlj h
  have hsrc : nvId j .src ∈ S := by
    rw [hS, mem_S]
    refine ⟨by simp [nvId], by simp [nvId], fun h => ?_⟩
    have := Finset.mem_range.1 (hlj h)
    simp [nvId] at this
  have hsnk : nvId j .snk ∈ T := Finset.mem_insert_self _ _
  have hv : ∀ i, i < j → ((nvId j (.v i) ∉ S ∧ nvId j (.v i) ∉ T) ↔ i ∈ Xl \ Xr) := by
    intro i hi
    rw [hS, mem_S, hT]
    simp only [nvId, Finset.mem_insert, Finset.mem_sdiff]
    constructor
    · rintro ⟨h1, h2⟩
      push Not at h1 h2
      exact ⟨h1 (by omega) h2.1, h2.2⟩
    · rintro ⟨h1, h2⟩
      refine ⟨fun h => h.2.2 h1, ?_⟩
      rintro (h | h)
      · omega
      · exact h2 h
  unfold contractRWith
  dsimp only
  set L := (List.range (j + 2)).filter fun i => decide (i ≠ j ∧ i ≠ j + 1 ∧ i ∉ S ∧ i ∉ T) with hL
  have hLmem : ∀ i, i ∈ L ↔ i ∈ Xl \ Xr := by
    intro i
    rw [hL, List.mem_filter, List.mem_range]
    simp only [decide_eq_true_eq]
    constructor
    · rintro ⟨h1, h2, h3, h4⟩
      exact (hv i (by omega)).1 h4
    · intro hi
      have := Finset.mem_range.1 (hlj (Finset.mem_sdiff.1 hi).1)
      exact ⟨by omega, by omega, by omega, (hv i this).2 hi⟩
  have hLn : L.Nodup := List.nodup_range.filter _
  -- the inner arcs
  have hin : ∀ e ∈ arcs, ((¬ e.cap < ε ∧ decide (nvId j e.a ∈ S) = false ∧ decide (nvId j e.a ∈ T) = false ∧
      decide (nvId j e.b ∈ S) = false ∧ decide (nvId j e.b ∈ T) = false) ↔
      ¬ e.cap < ε ∧ ∃ s t, e.a = .v s ∧ e.b = .v t ∧ s ∈ Xl \ Xr ∧ t ∈ Xl \ Xr) := by
    intro e he
    have h1 := h.left e he
    have h2 := h.right e he
    obtain ⟨a, b, c⟩ := e
    simp only [decide_eq_false_iff_not]
    constructor
    · rintro ⟨h0, h3, h4, h5, h6⟩
      refine ⟨h0, ?_⟩
      cases a with
      | src => exact absurd hsrc h3
      | snk => exact absurd hsnk h4
      | v s =>
        cases b with
        | src => exact absurd hsrc h5
        | snk => exact absurd hsnk h6
        | v t =>
          have hs := Finset.mem_range.1 (hV (h1 s rfl))
          have ht := Finset.mem_range.1 (hV (h2 t rfl))
          exact ⟨s, t, rfl, rfl, (hv s hs).1 ⟨h3, h4⟩, (hv t ht).1 ⟨h5, h6⟩⟩
    · rintro ⟨h0, s, t, ha, hb, hs, ht⟩
      subst ha hb
      have hs' := Finset.mem_range.1 (hlj (Finset.mem_sdiff.1 hs).1)
      have ht' := Finset.mem_range.1 (hlj (Finset.mem_sdiff.1 ht).1)
      have h3 := (hv s hs').2 hs
      have h4 := (hv t ht').2 ht
      exact ⟨h0, h3.1, h3.2, h4.1, h4.2⟩
  set I := arcs.filter fun e => decide (¬ e.cap < ε ∧ decide (nvId j e.a ∈ S) = false ∧
    decide (nvId j e.a ∈ T) = false ∧ decide (nvId j e.b ∈ S) = false ∧
    decide (nvId j e.b ∈ T) = false) with hI
  have hImem : ∀ e ∈ I, e ∈ arcs ∧ ∃ s t, e.a = .v s ∧ e.b = .v t ∧ s ∈ Xl \ Xr ∧ t ∈ Xl \ Xr := by
    intro e he
    rw [hI, List.mem_filter] at he
    exact ⟨he.1, ((hin e he.1).1 (by simpa using he.2)).2⟩
  have hIinner : I.filterMap innerOf = E.filter fun a => decide (a.src ∈ Xl \ Xr ∧ a.dst ∈ Xl \ Xr) := by
    have h1 : I.filterMap innerOf =
        (arcs.filterMap innerOf).filter fun a => decide (a.src ∈ Xl \ Xr ∧ a.dst ∈ Xl \ Xr) := by
      rw [hI, List.filterMap_filter, List.filter_filterMap]
      apply List.filterMap_congr
      intro e he
      have h2 := hin e he
      by_cases hc : ¬ e.cap < ε ∧ decide (nvId j e.a ∈ S) = false ∧ decide (nvId j e.a ∈ T) = false ∧
        decide (nvId j e.b ∈ S) = false ∧ decide (nvId j e.b ∈ T) = false
      · rw [if_pos (by simpa using hc)]
        obtain ⟨_, s, t, ha, hb, hs, ht⟩ := h2.1 hc
        obtain ⟨a, b, c⟩ := e
        dsimp only at ha hb
        subst ha hb
        simp only [innerOf, Option.filter]
        rw [if_pos (by simp only [decide_eq_true_eq]; exact ⟨hs, ht⟩)]
      · rw [if_neg (by simpa using hc)]
        obtain ⟨a, b, c⟩ := e
        cases a with
        | v s =>
          cases b with
          | v t =>
            have hmem : (⟨s, t, c⟩ : Arc) ∈ arcs.filterMap innerOf :=
              List.mem_filterMap.2 ⟨_, he, rfl⟩
            rw [h.inner, List.mem_filter] at hmem
            have hc' := hcap _ hmem.1
            simp only [innerOf, Option.filter]
            rw [if_neg]
            simp only [decide_eq_true_eq]
            rintro ⟨hs, ht⟩
            exact hc (h2.2 ⟨not_lt.2 hc', s, t, rfl, rfl, hs, ht⟩)
          | _ => rfl
        | _ => cases b <;> rfl
    rw [h1, h.inner, List.filter_filter]
    apply List.filter_congr
    intro a _
    rw [Bool.eq_iff_iff]
    simp only [Bool.and_eq_true, decide_eq_true_eq]
    constructor
    · rintro ⟨h1, h2⟩; exact h1
    · intro h1; exact ⟨h1, hsub h1.1, hsub h1.2⟩
  -- the arcs of a node
  set F : ℕ → List NArc := fun i =>
    [⟨.src, .v i, sum fun e => decide (nvId j e.a ∈ S) && !decide (nvId j e.b ∈ T) &&
      !decide (nvId j e.b ∈ S) && decide (nvId j e.b = i)⟩] ++
    (if ε < sum (fun e => !decide (nvId j e.a ∈ S) && !decide (nvId j e.a ∈ T) &&
      decide (nvId j e.b ∈ S) && decide (nvId j e.a = i)) then [⟨.v i, .src, sum (fun e =>
      !decide (nvId j e.a ∈ S) && !decide (nvId j e.a ∈ T) &&
      decide (nvId j e.b ∈ S) && decide (nvId j e.a = i))⟩] else []) ++
    [⟨.v i, .snk, sum fun e => !decide (nvId j e.a ∈ S) && !decide (nvId j e.a ∈ T) &&
      !decide (nvId j e.b ∈ S) && decide (nvId j e.b ∈ T) && decide (nvId j e.a = i)⟩] ++
    (if ε < sum (fun e => !decide (nvId j e.a ∈ S) && decide (nvId j e.a ∈ T) &&
      !decide (nvId j e.b ∈ S) && !decide (nvId j e.b ∈ T) && decide (nvId j e.b = i)) then
      [⟨.snk, .v i, sum (fun e => !decide (nvId j e.a ∈ S) && decide (nvId j e.a ∈ T) &&
      !decide (nvId j e.b ∈ S) && !decide (nvId j e.b ∈ T) && decide (nvId j e.b = i))⟩] else []) with hF
  have hFmem : ∀ i, ∀ e ∈ F i, ((e.a = .src ∧ e.b = .v i) ∨ (e.a = .v i ∧ e.b = .src) ∨
      (e.a = .v i ∧ e.b = .snk) ∨ (e.a = .snk ∧ e.b = .v i)) ∧ 0 ≤ e.cap := by
    intro i e he
    simp only [hF, List.mem_append, List.mem_singleton] at he
    rcases he with ((he | he) | he) | he
    · subst he; exact ⟨by simp, hsum _⟩
    · split at he
      · rw [List.mem_singleton] at he; subst he; exact ⟨by simp, hsum _⟩
      · simp at he
    · subst he; exact ⟨by simp, hsum _⟩
    · split at he
      · rw [List.mem_singleton] at he; subst he; exact ⟨by simp, hsum _⟩
      · simp at he
  have hFS : ∀ i, cntS (F i) i = 1 := by
    intro i
    simp only [hF, cntS, List.countP_append]
    split <;> split <;> simp
  have hFT : ∀ i, cntT (F i) i = 1 := by
    intro i
    simp only [hF, cntT, List.countP_append]
    split <;> split <;> simp
  have hI0 : ∀ i, cntS I i = 0 ∧ cntT I i = 0 := by
    intro i
    unfold cntS cntT
    rw [List.countP_eq_zero, List.countP_eq_zero]
    constructor
    · intro e he
      obtain ⟨_, s, t, ha, hb, _⟩ := hImem e he
      simp [ha]
    · intro e he
      obtain ⟨_, s, t, ha, hb, _⟩ := hImem e he
      simp [hb]
  refine ⟨⟨?_, ?_, ?_, ?_, ?_, ?_⟩, ?_, ?_⟩
  · rw [List.filterMap_append, List.filterMap_append, hIinner]
    have : (L.flatMap F).filterMap innerOf = [] := by
      rw [List.filterMap_eq_nil_iff]
      intro e he
      rw [List.mem_flatMap] at he
      obtain ⟨i, _, he⟩ := he
      obtain ⟨h1, _⟩ := hFmem i e he
      unfold innerOf
      rcases h1 with ⟨h1, h2⟩ | ⟨h1, h2⟩ | ⟨h1, h2⟩ | ⟨h1, h2⟩ <;> rw [h1, h2]
    rw [this]
    simp [innerOf]
  · intro i hi
    have h1 : (L.flatMap F).countP (fun e => decide (e.a = .src ∧ e.b = .v i)) = 1 :=
      countP_flat hLn ((hLmem i).2 hi) (hFS i) (by
        intro k _ hk
        rw [List.countP_eq_zero]
        intro e he
        obtain ⟨h1, _⟩ := hFmem k e he
        rcases h1 with ⟨h1, h2⟩ | ⟨h1, h2⟩ | ⟨h1, h2⟩ | ⟨h1, h2⟩ <;> simp [h1, h2, hk])
    have h2 := (hI0 i).1
    unfold cntS at h2 ⊢
    rw [List.countP_append, List.countP_append, h2, h1]
    simp
  · intro i hi
    have h1 : (L.flatMap F).countP (fun e => decide (e.a = .v i ∧ e.b = .snk)) = 1 :=
      countP_flat hLn ((hLmem i).2 hi) (hFT i) (by
        intro k _ hk
        rw [List.countP_eq_zero]
        intro e he
        obtain ⟨h1, _⟩ := hFmem k e he
        rcases h1 with ⟨h1, h2⟩ | ⟨h1, h2⟩ | ⟨h1, h2⟩ | ⟨h1, h2⟩ <;> simp [h1, h2, hk])
    have h2 := (hI0 i).2
    unfold cntT at h2 ⊢
    rw [List.countP_append, List.countP_append, h2, h1]
    simp
  · intro e he i hi
    rcases List.mem_append.1 he with he | he
    · rcases List.mem_append.1 he with he | he
      · obtain ⟨_, s, t, ha, hb, hs, ht⟩ := hImem e he
        rw [hi] at ha; cases ha; exact hs
      · simp only [List.mem_cons, List.not_mem_nil, or_false] at he
        rcases he with rfl | rfl <;> simp at hi
    · rw [List.mem_flatMap] at he
      obtain ⟨k, hk, he⟩ := he
      obtain ⟨h1, _⟩ := hFmem k e he
      have hk := (hLmem k).1 hk
      rcases h1 with ⟨h1, h2⟩ | ⟨h1, h2⟩ | ⟨h1, h2⟩ | ⟨h1, h2⟩ <;> rw [hi] at h1 <;> cases h1 <;> exact hk
  · intro e he i hi
    rcases List.mem_append.1 he with he | he
    · rcases List.mem_append.1 he with he | he
      · obtain ⟨_, s, t, ha, hb, hs, ht⟩ := hImem e he
        rw [hi] at hb; cases hb; exact ht
      · simp only [List.mem_cons, List.not_mem_nil, or_false] at he
        rcases he with rfl | rfl <;> simp at hi
    · rw [List.mem_flatMap] at he
      obtain ⟨k, hk, he⟩ := he
      obtain ⟨h1, _⟩ := hFmem k e he
      have hk := (hLmem k).1 hk
      rcases h1 with ⟨h1, h2⟩ | ⟨h1, h2⟩ | ⟨h1, h2⟩ | ⟨h1, h2⟩ <;> rw [hi] at h2 <;> cases h2 <;> exact hk
  · intro e he
    rcases List.mem_append.1 he with he | he
    · rcases List.mem_append.1 he with he | he
      · exact h.nonneg e (hImem e he).1
      · simp only [List.mem_cons, List.not_mem_nil, or_false] at he
        rcases he with rfl | rfl <;> exact hsum _
    · rw [List.mem_flatMap] at he
      obtain ⟨k, hk, he⟩ := he
      exact (hFmem k e he).2
  · have h1 : ∀ e ∈ I, e.a ≠ .src := by
      intro e he
      obtain ⟨_, s, t, ha, _⟩ := hImem e he
      simp [ha]
    have h2 : ∀ e ∈ L.flatMap F, ¬ (e.a = .src ∧ e.b = .snk) := by
      intro e he
      rw [List.mem_flatMap] at he
      obtain ⟨k, _, he⟩ := he
      obtain ⟨h1, _⟩ := hFmem k e he
      rcases h1 with ⟨h1, h2⟩ | ⟨h1, h2⟩ | ⟨h1, h2⟩ | ⟨h1, h2⟩ <;> simp [h1, h2]
    unfold stSum
    simp only [List.map_append, List.sum_append]
    have e1 : (I.map fun e => if e.a = .src ∧ e.b = .snk then e.cap else 0).sum = 0 := by
      apply List.sum_eq_zero
      intro z hz
      obtain ⟨e, he, rfl⟩ := List.mem_map.1 hz
      rw [if_neg fun hh => h1 e he hh.1]
    have e2 : ((L.flatMap F).map fun e => if e.a = .src ∧ e.b = .snk then e.cap else 0).sum = 0 := by
      apply List.sum_eq_zero
      intro z hz
      obtain ⟨e, he, rfl⟩ := List.mem_map.1 hz
      rw [if_neg (h2 e he)]
    rw [e1, e2]
    simp
  · have h1 : I.length ≤ E.length := by
      have h2 : (I.filterMap innerOf).length = I.length := by
        rw [List.length_filterMap_eq_countP, List.countP_eq_length]
        intro e he
        obtain ⟨_, s, t, ha, hb, _⟩ := hImem e he
        simp [innerOf, ha, hb]
      rw [← h2, hIinner]
      exact List.length_filter_le _ _
    have h2 : L.length ≤ j := by
      have h3 : L.toFinset ⊆ Finset.range j := by
        intro i hi
        exact hlj (Finset.mem_sdiff.1 ((hLmem i).1 (List.mem_toFinset.1 hi))).1
      have h4 := Finset.card_le_card h3
      rwa [List.toFinset_card_of_nodup hLn, Finset.card_range] at h4
    have h3 : ∀ l : List ℕ, (l.flatMap F).length ≤ 4 * l.length := by
      intro l
      induction l with
      | nil => simp
      | cons i l ih =>
        rw [List.flatMap_cons, List.length_append, List.length_cons]
        have : (F i).length ≤ 4 := by
          simp only [hF, List.length_append]
          split <;> split <;> simp
        omega
    have h4 := h3 L
    simp only [List.length_append, List.length_cons, List.length_nil]
    omega

theorem contractR_inv (hcap : ∀ e ∈ E, ε ≤ e.cap) (h : RInv E V arcs) (hV : V ⊆ Finset.range j)
    (hlr : Xr ⊆ Xl) (hlj : Xl ⊆ Finset.range j) (hsub : Xl \ Xr ⊆ V) :
    RInv E (Xl \ Xr) (contractR ε j (Finset.range (j + 2) \ insert j Xl) (insert j Xr) arcs) :=
  (contractRWith_inv (arcSum_nonneg h.nonneg) hcap h hV hlr hlj hsub).1

/-- The network built by `run`. -/
theorem dig_inv (hg : PGood E ε) : RInv E (Finset.range j) ((pmfArcs ε E j).map (digArc E j)) := by
  have hok := pmfArcs_ok (j := j) hg
  have hpn : ∀ i, i < j → pmfNode j i = .v i := fun i hi => by simp [pmfNode, hi.ne]
  set P1 := (E.filter fun a => decide (a.src ≤ j ∧ a.dst ≤ j)).map (fun a =>
    if a.dst = j then PArc.sink a.src else .inner (pmfNode j a.src) (pmfNode j a.dst) a.cap) with hP1
  have hform : ∀ p ∈ pmfArcs ε E j, (∃ i, i < j ∧ p = .sink i) ∨ (∃ i, i < j ∧ p = .source i) ∨
      ∃ s t c, s < j ∧ t < j ∧ 0 ≤ c ∧ p = .inner (.v s) (.v t) c := by
    intro p hp
    have := hok p hp
    unfold pmfArcs at hp
    rcases List.mem_append.1 hp with hp | hp
    · rcases List.mem_append.1 hp with hp | hp
      · rw [List.mem_map] at hp
        obtain ⟨a, ha, rfl⟩ := hp
        rw [List.mem_filter] at ha
        have hlt := hg.lowHigh a ha.1
        have hle : a.src ≤ j ∧ a.dst ≤ j := by simpa using ha.2
        by_cases hd : a.dst = j
        · rw [if_pos hd]; exact Or.inl ⟨a.src, by omega, rfl⟩
        · rw [if_neg hd, hpn a.src (by omega), hpn a.dst (by omega)]
          exact Or.inr (Or.inr ⟨a.src, a.dst, a.cap, by omega, by omega, hg.nonneg a ha.1, rfl⟩)
      · rw [List.mem_map] at hp
        obtain ⟨i, hi, rfl⟩ := hp
        exact Or.inr (Or.inl ⟨i, List.mem_range.1 hi, rfl⟩)
    · rw [List.mem_map] at hp
      obtain ⟨i, hi, rfl⟩ := hp
      exact Or.inl ⟨i, List.mem_range.1 (List.mem_filter.1 hi).1, rfl⟩
  refine ⟨?_, ?_, ?_, ?_, ?_, ?_⟩
  · unfold pmfArcs
    rw [← hP1]
    simp only [List.map_append, List.filterMap_append, List.map_map]
    have h2 : ((List.range j).map (digArc E j ∘ PArc.source)).filterMap innerOf = [] := by
      rw [List.filterMap_eq_nil_iff]
      intro e he
      obtain ⟨i, _, rfl⟩ := List.mem_map.1 he
      rfl
    have h3 : (((List.range j).filter fun i => decide (sinkCapacity E j i < ε)).map
        (digArc E j ∘ PArc.sink)).filterMap innerOf = [] := by
      rw [List.filterMap_eq_nil_iff]
      intro e he
      obtain ⟨i, hi, rfl⟩ := List.mem_map.1 he
      have hi := List.mem_range.1 (List.mem_filter.1 hi).1
      simp [digArc, hpn i hi, innerOf]
    rw [h2, h3, List.append_nil, List.append_nil, hP1, List.map_map, List.filterMap_map,
      List.filterMap_filter, ← List.filterMap_eq_filter]
    apply List.filterMap_congr
    intro a ha
    have hlt := hg.lowHigh a ha
    simp only [Function.comp, Option.guard, Finset.mem_range]
    by_cases hd : a.dst = j
    · simp only [hd, if_true]
      simp [digArc, hpn a.src (by omega), innerOf]
    · by_cases hle : a.dst < j
      · rw [if_pos (by simp; omega)]
        simp [hd, digArc, hpn a.src (by omega), hpn a.dst hle, innerOf, hle]
        omega
      · rw [if_neg (by simp; omega)]
        simp [hle]
  · intro i hi
    have hi := Finset.mem_range.1 hi
    unfold cntS
    rw [List.countP_map]
    unfold pmfArcs
    rw [← hP1, List.countP_append, List.countP_append]
    have h1 : P1.countP ((fun e : NArc => decide (e.a = .src ∧ e.b = .v i)) ∘ digArc E j) = 0 := by
      rw [List.countP_eq_zero]
      intro p hp
      rcases hform p (by unfold pmfArcs; rw [← hP1]; simp [hp]) with ⟨k, hk, rfl⟩ | ⟨k, hk, rfl⟩ |
        ⟨s, t, c, hs, ht, _, rfl⟩
      · simp [digArc, hpn k hk]
      · rw [hP1, List.mem_map] at hp
        obtain ⟨a, _, ha⟩ := hp
        split at ha <;> cases ha
      · simp [digArc]
    have h3 : (((List.range j).filter fun i => decide (sinkCapacity E j i < ε)).map PArc.sink).countP
        ((fun e : NArc => decide (e.a = .src ∧ e.b = .v i)) ∘ digArc E j) = 0 := by
      rw [List.countP_eq_zero]
      intro p hp
      obtain ⟨k, hk, rfl⟩ := List.mem_map.1 hp
      have hk := List.mem_range.1 (List.mem_filter.1 hk).1
      simp [digArc, hpn k hk]
    rw [h1, h3, List.countP_map]
    have h2 : (List.range j).countP (((fun e : NArc => decide (e.a = .src ∧ e.b = .v i)) ∘ digArc E j) ∘
        PArc.source) = (List.range j).count i := by
      unfold List.count
      apply List.countP_congr
      intro k _
      simp [digArc]
    rw [h2, List.count_eq_one_of_mem List.nodup_range (List.mem_range.2 hi)]
  · intro i hi
    have hi := Finset.mem_range.1 hi
    unfold cntT
    rw [List.countP_map]
    unfold pmfArcs
    rw [List.countP_append, List.countP_append]
    have h2 : ((List.range j).map PArc.source).countP
        ((fun e : NArc => decide (e.a = .v i ∧ e.b = .snk)) ∘ digArc E j) = 0 := by
      rw [List.countP_eq_zero]
      intro p hp
      obtain ⟨k, hk, rfl⟩ := List.mem_map.1 hp
      simp [digArc]
    have h3 : (((List.range j).filter fun i => decide (sinkCapacity E j i < ε)).map PArc.sink).countP
        ((fun e : NArc => decide (e.a = .v i ∧ e.b = .snk)) ∘ digArc E j) =
        if sinkCapacity E j i < ε then 1 else 0 := by
      rw [List.countP_map]
      have : ((List.range j).filter fun i => decide (sinkCapacity E j i < ε)).countP
          (((fun e : NArc => decide (e.a = .v i ∧ e.b = .snk)) ∘ digArc E j) ∘ PArc.sink) =
          ((List.range j).filter fun i => decide (sinkCapacity E j i < ε)).count i := by
        unfold List.count
        apply List.countP_congr
        intro k hk
        have hk := List.mem_range.1 (List.mem_filter.1 hk).1
        simp [digArc, hpn k hk]
      rw [this]
      split
      · rename_i hlt
        exact List.count_eq_one_of_mem (List.nodup_range.filter _)
          (List.mem_filter.2 ⟨List.mem_range.2 hi, by simpa using hlt⟩)
      · rename_i hlt
        rw [List.count_eq_zero]
        intro h
        exact hlt (by simpa using (List.mem_filter.1 h).2)
    have h1 : P1.countP ((fun e : NArc => decide (e.a = .v i ∧ e.b = .snk)) ∘ digArc E j) =
        if sinkCapacity E j i < ε then 0 else 1 := by
      rw [hP1, List.countP_map, List.countP_filter]
      have e1 : E.countP (fun a => (((fun e : NArc => decide (e.a = .v i ∧ e.b = .snk)) ∘ digArc E j) ∘
          fun a => if a.dst = j then PArc.sink a.src else .inner (pmfNode j a.src) (pmfNode j a.dst) a.cap) a &&
          decide (a.src ≤ j ∧ a.dst ≤ j)) = E.countP fun a => decide (a.dst = j ∧ a.src = i) := by
        apply List.countP_congr
        intro a ha
        have hlt := hg.lowHigh a ha
        simp only [Function.comp, Bool.and_eq_true, decide_eq_true_eq]
        by_cases hd : a.dst = j
        · simp only [hd, if_true, digArc, hpn a.src (by omega), NV.v.injEq, true_and, and_true, le_refl]
          exact ⟨fun h => h.1, fun h => ⟨h, by omega⟩⟩
        · simp only [hd, if_false, digArc, false_and, iff_false, not_and]
          intro h
          exfalso
          by_cases hd' : a.dst < j
          · rw [hpn a.dst hd'] at h; exact absurd h.2 (by simp)
          · have hp : pmfNode j a.dst = .v a.dst := by simp [pmfNode, hd]
            rw [hp] at h; exact absurd h.2 (by simp)
      have e1' := e1
      refine (Eq.trans ?_ e1').trans ?_
      · apply List.countP_congr
        intro a _
        rfl
      have huniq : E.countP (fun a => decide (a.dst = j ∧ a.src = i)) ≤ 1 := by
        have hs := hg.simple
        clear_value P1
        clear e1 e1' hok hform h2 h3 hP1 hg
        induction E with
        | nil => simp
        | cons a E ih =>
          obtain ⟨h1, h2⟩ := List.pairwise_cons.1 hs
          rw [List.countP_cons]
          by_cases hc : a.dst = j ∧ a.src = i
          · have : E.countP (fun a => decide (a.dst = j ∧ a.src = i)) = 0 := by
              rw [List.countP_eq_zero]
              intro b hb
              simp only [decide_eq_true_eq]
              rintro ⟨h3, h4⟩
              exact h1 b hb ⟨hc.2.trans h4.symm, hc.1.trans h3.symm⟩
            rw [this, if_pos (by simpa using hc)]
          · simp only [hc, decide_false, Bool.false_eq_true, if_false, add_zero]
            exact ih h2
      by_cases ha : hasArc E j i
      · rw [if_neg (fun h => (sinkCapacity_lt hg hi).1 h ha)]
        obtain ⟨a, ha, h3, h4⟩ := ha
        have : 0 < E.countP (fun a => decide (a.dst = j ∧ a.src = i)) :=
          List.countP_pos_iff.2 ⟨a, ha, by simp [h3, h4]⟩
        omega
      · rw [if_pos ((sinkCapacity_lt hg hi).2 ha), List.countP_eq_zero]
        intro a h
        simp only [decide_eq_true_eq]
        intro h3
        exact ha ⟨a, h, h3⟩
    rw [h2, h3]
    rw [← hP1, h1]
    split <;> rfl
  · intro e he i hi
    obtain ⟨p, hp, rfl⟩ := List.mem_map.1 he
    rcases hform p hp with ⟨k, hk, rfl⟩ | ⟨k, hk, rfl⟩ | ⟨s, t, c, hs, ht, _, rfl⟩
    · simp only [digArc, hpn k hk] at hi; cases hi; exact Finset.mem_range.2 hk
    · simp [digArc] at hi
    · cases hi; exact Finset.mem_range.2 hs
  · intro e he i hi
    obtain ⟨p, hp, rfl⟩ := List.mem_map.1 he
    rcases hform p hp with ⟨k, hk, rfl⟩ | ⟨k, hk, rfl⟩ | ⟨s, t, c, hs, ht, _, rfl⟩
    · simp [digArc] at hi
    · cases hi; exact Finset.mem_range.2 hk
    · cases hi; exact Finset.mem_range.2 ht
  · intro e he
    obtain ⟨p, hp, rfl⟩ := List.mem_map.1 he
    rcases hform p hp with ⟨k, hk, rfl⟩ | ⟨k, hk, rfl⟩ | ⟨s, t, c, hs, ht, hc, rfl⟩
    · exact sinkCapacity_nonneg hg.nonneg k
    · exact le_rfl
    · exact hc

/-- `sink_capacity` is the base of the network of all nodes. -/
theorem base_run (hg : PGood E ε) {i : ℕ} (hi : i < j) :
    ((0 : ℚ), sinkCapacity E j i) =
      newBase E (Finset.range (j + 2) \ insert j (Finset.range j)) (insert j ∅) i := by
  classical
  unfold newBase
  congr 1
  · symm
    apply List.sum_eq_zero
    intro z hz
    obtain ⟨a, ha, rfl⟩ := List.mem_map.1 hz
    have hlt := hg.lowHigh a ha
    rw [if_neg]
    rintro ⟨h1, h2⟩
    rw [mem_S] at h2
    have := h2.2.2
    simp only [Finset.mem_range] at this
    omega
  · have h1 : (E.map fun a => if a.src = i ∧ a.dst ∈ insert j (∅ : Finset ℕ) then a.cap else 0).sum =
        (E.map fun a => if a.dst = j then (if a.src = i then sinkCapacity E j i else 0) else 0).sum := by
      congr 1
      apply List.map_congr_left
      intro a ha
      simp only [insert_empty_eq, Finset.mem_singleton]
      by_cases h2 : a.src = i
      · by_cases h3 : a.dst = j
        · subst h2
          simp [h3, sinkCapacity_eq hg.simple ha h3 hi.le]
        · simp [h3]
      · simp [h2]
    rw [h1, sum_into hg.simple hg.lowHigh fun k => if k = i then sinkCapacity E j i else 0,
      list_sum_toFinset List.nodup_range]
    have h2 : ∑ k ∈ (List.range j).toFinset, (if hasArc E j k then
        (if k = i then sinkCapacity E j i else 0) else 0) =
        ∑ k ∈ (List.range j).toFinset, (if k = i then (if hasArc E j i then sinkCapacity E j i else 0)
          else 0) := by
      apply Finset.sum_congr rfl
      intro k _
      by_cases hk : k = i
      · subst hk; simp
      · simp [hk]
    rw [h2, Finset.sum_ite_eq']
    rw [if_pos (by simp [hi])]
    split
    · rfl
    · rename_i h; exact sinkCapacity_zero h

end PSP.Theory
