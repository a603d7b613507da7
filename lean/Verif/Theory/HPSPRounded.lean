import Verif.Theory.RoundedPSPIApprox
import Verif.Theory.HPSPRun

/-!
# `HPSP` with rounded arithmetic, for arbitrary weights: the critical values
-/

namespace PSP.Theory

open PSP.Spec PSP.Model

variable {E : List Arc} {V : Finset ℕ} {P Q : Partition} {n : ℕ} {st : HState} {τ β ε : ℚ} {g : Digraph}

/-! ### the values of a tree -/

/-- `m` is the value of some inner node. -/
inductive TVal : PTree → ℚ → Prop
  | here (K : CSet) (l : ℚ) (ch : List PTree) : TVal (.node K (some l) ch) l
  | child (K : CSet) (l : Option ℚ) (ch : List PTree) (c : PTree) (m : ℚ) (hc : c ∈ ch) (h : TVal c m) :
      TVal (.node K l ch) m

theorem TVal.leaf {K : CSet} {m : ℚ} : ¬ TVal (.leaf K) m := nofun

theorem TVal.node {K : CSet} {l m : ℚ} {ch : List PTree} :
    TVal (.node K (some l) ch) m ↔ m = l ∨ ∃ c ∈ ch, TVal c m := by
  constructor
  · intro h
    cases h with
    | here => exact Or.inl rfl
    | child _ _ _ c _ hc h => exact Or.inr ⟨c, hc, h⟩
  · rintro (rfl | ⟨c, hc, h⟩)
    · exact TVal.here _ _ _
    · exact TVal.child _ _ _ c _ hc h

/-- All values are nearly at least the value of the root. -/
theorem GoodF.ge {t : PTree} (hτ : 0 ≤ τ) (hg : GoodF τ β ε E t) {l m : ℚ} (hl : t.val = some l) (h : TVal t m) :
    l - t.K.card * τ ≤ m := by
  induction hg generalizing l m with
  | leaf v => simp [PTree.val] at hl
  | node K l' ch hch hval hlen hnd hne hopt hbal ih =>
    simp only [PTree.val, Option.some.injEq] at hl
    subst hl
    have hc0 : (0 : ℚ) ≤ K.card * τ := by positivity
    rcases TVal.node.1 h with rfl | ⟨c, hc, hm⟩
    · simp only [PTree.K]; linarith
    · cases hcv : c.val with
      | none =>
        exfalso
        cases hch c hc with
        | leaf v => exact TVal.leaf hm
        | node => simp [PTree.val] at hcv
      | some l'' =>
        have h1 := ih c hc hcv hm
        have h2 := hval c hc l'' hcv
        have h3 : (c.K.card : ℚ) + 1 ≤ K.card := by
          exact_mod_cast card_block_lt hopt.1 (by rw [List.toFinset_card_of_nodup hnd, List.length_map]; exact hlen)
            (List.mem_toFinset.2 (List.mem_map_of_mem hc))
        have h4 := mul_le_mul_of_nonneg_right h3 hτ
        simp only [PTree.K]
        linarith

/-- No value is much below zero. -/
theorem GoodF.low {t : PTree} (hE : NonnegE E) (hβ : 0 ≤ β) (hg : GoodF τ β ε E t) {m : ℚ} (h : TVal t m) : -β ≤ m := by
  induction hg with
  | leaf v => exact absurd h TVal.leaf
  | node K l ch hch hval hlen hnd hne hopt hbal ih =>
    rcases TVal.node.1 h with rfl | ⟨c, hc, hm⟩
    · have h1 := (abs_le.1 hbal).2
      have h2 := crossWeight_nonneg (E := induced E K) (fun e he => hE e (List.mem_filter.1 he).1)
        (ch.map PTree.K).toFinset
      have h3 : (2 : ℚ) ≤ (ch.map PTree.K).toFinset.card := by
        rw [List.toFinset_card_of_nodup hnd, List.length_map]; exact_mod_cast hlen
      unfold cost at h1
      by_contra hlt
      push Not at hlt
      nlinarith
    · exact ih c hc hm

/-- The array `W` holds the values of the tree. -/
theorem enc_values {t : PTree} (hg : GoodF τ β ε E t) (he : Enc st t) (m : ℚ) :
    (∃ v ∈ t.K, v ≠ firstElem t.K ∧ st.W v = m) ↔ TVal t m := by
  induction hg with
  | leaf v =>
    simp only [PTree.K, TVal.leaf, iff_false]
    rintro ⟨w, hw, hne, _⟩
    have h2 := firstElem_mem (B := {v}) ⟨v, by simp⟩
    rw [Finset.mem_singleton] at hw h2
    exact hne (hw.trans h2.symm)
  | node K l ch hch hval hlen hnd hne hopt hbal ih =>
    cases he with
    | node _ _ _ henc hv =>
    have hsub : ∀ c ∈ ch, c.K ⊆ K := fun c hc =>
      hopt.1.subset (List.mem_toFinset.2 (List.mem_map_of_mem hc))
    have hmem : ∀ c ∈ ch, firstElem c.K ∈ c.K := fun c hc => firstElem_mem (hch c hc).nonempty
    have hfK := firstElem_mem hne
    rw [TVal.node]
    simp only [PTree.K]
    constructor
    · rintro ⟨v, hvK, hvne, hvm⟩
      obtain ⟨A, hA, hvA⟩ := hopt.1.exists_block hvK
      obtain ⟨c, hc, rfl⟩ := List.mem_map.1 (List.mem_toFinset.1 hA)
      by_cases hvc : v = firstElem c.K
      · left
        rw [← hvm, hvc]
        exact (hv c hc (hvc ▸ hvne)).1
      · exact Or.inr ⟨c, hc, (ih c hc (henc c hc)).1 ⟨v, hvA, hvc, hvm⟩⟩
    · rintro (rfl | ⟨c, hc, hm⟩)
      · obtain ⟨A, hA, hAf⟩ := hopt.1.exists_block hfK
        have h2 : 1 < (ch.map PTree.K).toFinset.card := by
          rw [List.toFinset_card_of_nodup hnd, List.length_map]; omega
        obtain ⟨B, hB, hBA⟩ := Finset.exists_mem_ne h2 A
        obtain ⟨c, hc, rfl⟩ := List.mem_map.1 (List.mem_toFinset.1 hB)
        have hne' : firstElem c.K ≠ firstElem K := by
          intro h
          exact hBA (hopt.1.eq_of_mem hB hA (h ▸ hmem c hc) hAf)
        exact ⟨_, hsub c hc (hmem c hc), hne', (hv c hc hne').1⟩
      · obtain ⟨v, hvc, hvne, hvm⟩ := (ih c hc (henc c hc)).2 hm
        refine ⟨v, hsub c hc hvc, ?_, hvm⟩
        rintro rfl
        exact hvne (le_antisymm (firstElem_le (hsub c hc (hmem c hc))) (firstElem_le hvc))

/-- The queue reports the values of its trees. -/
theorem queueLoop_values (k : ℕ) : ∀ {q : List PTree} {psp : List Partition} {cv : List ℚ}, Decreasing q →
    (∀ t ∈ q, GoodF τ β ε E t) → queueLoop k q = .ok (psp, cv) → ∀ m, m ∈ cv ↔ ∃ t ∈ q, TVal t m := by
  induction k with
  | zero => intro q psp cv _ _ h; simp [queueLoop] at h
  | succ k ih =>
    intro q psp cv hd hg h m
    rcases List.eq_nil_or_concat q with rfl | ⟨q0, t, rfl⟩
    · simp only [queueLoop, List.getLast?_nil, Outcome.ok.injEq, Prod.mk.injEq] at h
      simp [← h.2]
    rw [List.concat_eq_append] at *
    have hlast : (q0 ++ [t]).getLast? = some t := by simp
    have hdrop : (q0 ++ [t]).dropLast = q0 := by simp
    unfold queueLoop at h
    simp only [hlast, hdrop] at h
    have hgt := hg t (by simp)
    have hmin : ∀ s ∈ q0, valLt s.val t.val = false := fun s hs =>
      (List.pairwise_append.1 hd).2.2 s hs t (by simp)
    cases hv : t.val with
    | none =>
      rw [hv] at h
      simp only [Outcome.ok.injEq, Prod.mk.injEq] at h
      rw [← h.2]
      simp only [List.not_mem_nil, false_iff]
      rintro ⟨s, hs, hsm⟩
      cases hg s hs with
      | leaf v => exact TVal.leaf hsm
      | node K l ch _ _ _ _ _ _ _ =>
        rcases List.mem_append.1 hs with hs | hs
        · have := hmin _ hs
          rw [hv, ← Bool.not_eq_true, valLt_iff] at this
          exact this ⟨l, rfl, by simp⟩
        · rw [← List.mem_singleton.1 hs] at hv
          simp [PTree.val] at hv
    | some l =>
      cases hgt with
      | leaf v => simp [PTree.val] at hv
      | node K l' ch hch hval hlen hnd hne hopt hbal =>
        simp only [PTree.val, Option.some.injEq] at hv
        subst hv
        simp only [PTree.val, PTree.children] at h
        obtain ⟨x, hx, hx'⟩ := Outcome.bind_eq_ok h
        simp only [Outcome.pure_eq, Outcome.ok.injEq, Prod.mk.injEq] at hx'
        obtain ⟨hperm, hdec'⟩ := foldl_insert ch q0 (List.pairwise_append.1 hd).1
        have h1 := ih hdec' (fun s hs => by
          rcases List.mem_append.1 (hperm.mem_iff.1 hs) with hs | hs
          · exact hch s hs
          · exact hg s (by simp [hs])) hx m
        rw [← hx'.2, List.mem_cons, h1]
        constructor
        · rintro (rfl | ⟨s, hs, hsm⟩)
          · exact ⟨_, List.mem_append_right _ (List.mem_singleton_self _), TVal.here _ _ _⟩
          · rcases List.mem_append.1 (hperm.mem_iff.1 hs) with hs | hs
            · exact ⟨_, List.mem_append_right _ (List.mem_singleton_self _), TVal.child _ _ _ s _ hs hsm⟩
            · exact ⟨s, by simp [hs], hsm⟩
        · rintro ⟨s, hs, hsm⟩
          rcases List.mem_append.1 hs with hs | hs
          · exact Or.inr ⟨s, hperm.mem_iff.2 (by simp [hs]), hsm⟩
          · rw [List.mem_singleton.1 hs] at hsm
            rcases TVal.node.1 hsm with rfl | ⟨c, hc, hm⟩
            · exact Or.inl rfl
            · exact Or.inr ⟨c, hperm.mem_iff.2 (by simp [hc]), hm⟩

/-! ### the values found by merging -/

theorem mergeGamma_above {W : ℕ → ℚ} {C : List ℕ} (hne : C ≠ []) (h0 : ∀ v ∈ C, -1 < W v) :
    (∃ v ∈ C, W v = mergeGamma W C) ∧ ∀ v ∈ C, W v ≤ mergeGamma W C := by
  have gen : ∀ (C : List ℕ) (a : ℚ),
      let r := C.foldl (fun γ j => if γ < W j then W j else γ) a
      (∀ v ∈ C, W v ≤ r) ∧ a ≤ r ∧ (r = a ∨ ∃ v ∈ C, W v = r) := by
    intro C
    induction C with
    | nil => intro a; simp
    | cons c C ih =>
      intro a
      rw [List.foldl_cons]
      obtain ⟨h2, h1, h3⟩ := ih (if a < W c then W c else a)
      have ha : a ≤ (if a < W c then W c else a) ∧ W c ≤ (if a < W c then W c else a) := by
        split
        · rename_i h; exact ⟨h.le, le_rfl⟩
        · rename_i h; exact ⟨le_rfl, not_lt.1 h⟩
      refine ⟨?_, ha.1.trans h1, ?_⟩
      · intro v hv
        rcases List.mem_cons.1 hv with rfl | hv
        · exact ha.2.trans h1
        · exact h2 v hv
      · rcases h3 with h3 | ⟨v, hv, h⟩
        · by_cases hc : a < W c
          · right; rw [if_pos hc] at h3
            exact ⟨c, List.mem_cons_self, by rw [if_pos hc]; exact h3.symm⟩
          · left; rw [if_neg hc] at h3; rw [if_neg hc]; exact h3
        · exact Or.inr ⟨v, List.mem_cons_of_mem _ hv, h⟩
  obtain ⟨h2, _, h3⟩ := gen C (-1)
  refine ⟨?_, h2⟩
  rcases h3 with h3 | h3
  · exfalso
    obtain ⟨v, hv⟩ := List.exists_mem_of_ne_nil C hne
    have h4 := h2 v hv
    rw [h3] at h4
    exact absurd h4 (not_le.2 (h0 v hv))
  · exact h3

/-- `psp_construct` reports the entries of `W` in increasing order, without repetitions; only the least may be missing, if
it occurs once. -/
theorem mergeLoop_values (hlow : ∀ v < n, -1 < st.W v) (k : ℕ) : ∀ (C : List ℕ) (D : DMap) (psp : List Partition)
    (cv : List ℚ), C.length + 1 ≤ k → (∀ v, v ∈ C ↔ v < n ∧ ∀ c ∈ cv, st.W v < c) → C.Nodup → psp.length = cv.length →
    cv.Pairwise (· < ·) → (∀ c ∈ cv, ∃ v < n, st.W v = c) → (∀ v < n, st.W v ∈ cv ∨ v ∈ C) →
    ∃ psp' cv', mergeLoop n st k C D psp cv = .ok (psp', cv') ∧ psp'.length = cv'.length ∧ cv'.Pairwise (· < ·) ∧
      (∀ c ∈ cv', ∃ v < n, st.W v = c) ∧
      (∀ v < n, st.W v ∈ cv' ∨ ∀ w < n, w ≠ v → st.W v < st.W w) := by
  induction k with
  | zero => intro C D psp cv hk; omega
  | succ k ih =>
    intro C D psp cv hk hC hnd hlen hinc hcv hall
    unfold mergeLoop
    by_cases hl : C.length ≤ 1
    · rw [if_pos hl]
      refine ⟨psp, cv, rfl, hlen, hinc, hcv, fun v hv => (hall v hv).imp id fun hvC w hw hne => ?_⟩
      rcases hall w hw with h | h
      · exact ((hC v).1 hvC).2 _ h
      · exfalso
        apply hne
        rcases C with _ | ⟨a, _ | ⟨b, C⟩⟩
        · simp at h
        · rw [List.mem_singleton.1 h, List.mem_singleton.1 hvC]
        · simp at hl
    · rw [if_neg hl]
      have hCne : C ≠ [] := by rintro rfl; simp at hl
      obtain ⟨⟨w, hwC, hwγ⟩, hmax⟩ := mergeGamma_above (W := st.W) hCne (fun v hv => hlow v ((hC v).1 hv).1)
      simp only
      set γ := mergeGamma st.W C with hγ
      have hγlt : ∀ c ∈ cv, γ < c := fun c hc => hwγ ▸ ((hC w).1 hwC).2 c hc
      refine ih _ _ (_ :: psp) (γ :: cv) ?_ ?_ (hnd.filter _) (by simp [hlen]) ?_ ?_ ?_
      · have : (C.filter fun j => ¬ st.W j = γ).length < C.length := by
          apply lt_of_le_of_ne (List.length_filter_le _ _)
          intro h
          have := List.length_filter_eq_length_iff.1 h w hwC
          simp [hwγ] at this
        omega
      · intro v
        rw [List.mem_filter, hC]
        simp only [decide_not, Bool.not_eq_true', decide_eq_false_iff_not, List.forall_mem_cons]
        constructor
        · rintro ⟨⟨h1, h2⟩, h3⟩
          exact ⟨h1, lt_of_le_of_ne (hmax v ((hC v).2 ⟨h1, h2⟩)) h3, h2⟩
        · rintro ⟨h1, h2, h3⟩
          exact ⟨⟨h1, h3⟩, h2.ne⟩
      · exact List.pairwise_cons.2 ⟨hγlt, hinc⟩
      · intro c hc
        rcases List.mem_cons.1 hc with rfl | hc
        · exact ⟨w, ((hC w).1 hwC).1, hwγ⟩
        · exact hcv c hc
      · intro v hv
        rcases hall v hv with h | h
        · exact Or.inl (List.mem_cons_of_mem _ h)
        · by_cases he : st.W v = γ
          · exact Or.inl (he ▸ List.mem_cons_self)
          · exact Or.inr (List.mem_filter.2 ⟨h, by simp [he]⟩)

theorem pspConstruct_values (hlow : ∀ v < n, -1 < st.W v) :
    ∃ r, pspConstruct n st = .ok r ∧ r.psp.length = r.cv.length + 1 ∧ r.psp.getLast? = some (makeFine n) ∧
      r.cv.Pairwise (· < ·) ∧ (∀ c ∈ r.cv, ∃ v < n, st.W v = c) ∧
      (∀ v < n, st.W v ∈ r.cv ∨ ∀ w < n, w ≠ v → st.W v < st.W w) := by
  obtain ⟨psp, cv, h1, h2, h3, h4, h5⟩ := mergeLoop_values hlow (n + 1) (List.range n) (fun _ => none) [] []
    (by simp) (by simp) List.nodup_range rfl List.Pairwise.nil (by simp) (by simp)
  refine ⟨⟨psp ++ [makeFine n], cv⟩, ?_, by simp [h2], by simp, h3, h4, h5⟩
  unfold pspConstruct
  rw [h1]
  rfl

/-! ### fewer critical values -/

/-- A critical value that is close to the next one can be left out. -/
theorem approx_drop {C η c c' : ℚ} {A B : List Partition} {a b : List ℚ} (hη : 0 ≤ η)
    (h : IsApproximateSequence E V C (A ++ P :: B) (a ++ c :: c' :: b)) (hA : A.length = a.length + 1) (hc : c' ≤ c + η) :
    IsApproximateSequence E V (C + η * V.card) (A ++ B) (a ++ c' :: b) := by
  have hlen := h.length
  simp only [List.length_append, List.length_cons] at hlen
  have hBne : B ≠ [] := by rintro rfl; simp only [List.length_nil] at hlen; omega
  have hAne : A ≠ [] := by rintro rfl; simp at hA
  have hsort := h.nondecreasing
  rw [List.pairwise_append] at hsort
  obtain ⟨ha, hcb, hacb⟩ := hsort
  rw [List.pairwise_cons] at hcb
  have hcc : c ≤ c' := hcb.1 c' (by simp)
  constructor
  · simp only [List.length_append, List.length_cons]; omega
  · have := h.first
    rwa [List.head?_append_of_ne_nil _ hAne] at this ⊢
  · have := h.last
    rw [List.getLast?_append_of_ne_nil _ (by simp), List.getLast?_cons] at this
    rw [List.getLast?_append_of_ne_nil _ hBne]
    obtain ⟨x, hx⟩ : ∃ x, B.getLast? = some x := by
      rw [List.getLast?_eq_some_getLast hBne]; exact ⟨_, rfl⟩
    rw [hx] at this ⊢
    exact this
  · refine h.refine.sublist ?_
    exact List.Sublist.append_left (List.sublist_cons_self _ _) _
  · refine h.nondecreasing.sublist ?_
    exact List.Sublist.append_left (List.sublist_cons_self _ _) _
  · intro i R lam hi hlo hhi
    by_cases hia : i ≤ a.length
    · have hi' : (A ++ P :: B)[i]? = some R := by
        rw [List.getElem?_append_left (by omega)] at hi ⊢
        exact hi
      have hno := h.optimal i R (min lam c) hi' (fun j x hj hji => ?_) (fun j x hj hij => ?_)
      · refine near_shift hno ?_
        have hlc : lam ≤ c' := hhi a.length c' (by simp) hia
        rw [abs_le]
        rcases min_cases lam c with ⟨he, h1⟩ | ⟨he, h1⟩ <;> rw [he] <;> constructor <;> linarith
      · have hj' : a[j]? = some x := by rw [List.getElem?_append_left (by omega)] at hj; exact hj
        refine le_min (hlo j x ?_ hji) (hacb x (List.mem_of_getElem? hj') c (by simp))
        rw [List.getElem?_append_left (by omega)]; exact hj'
      · rcases lt_trichotomy j a.length with hja | hja | hja
        · rw [List.getElem?_append_left hja] at hj
          refine (min_le_left _ _).trans (hhi j x ?_ hij)
          rw [List.getElem?_append_left hja]; exact hj
        · subst hja
          simp only [List.getElem?_append_right le_rfl, Nat.sub_self, List.getElem?_cons_zero,
            Option.some.injEq] at hj
          rw [← hj]; exact min_le_right _ _
        · have hx : x ∈ c' :: b := by
            rw [List.getElem?_append_right (by omega)] at hj
            obtain ⟨d, hd⟩ : ∃ d, j - a.length = d + 1 := ⟨j - a.length - 1, by omega⟩
            rw [hd, List.getElem?_cons_succ] at hj
            exact List.mem_of_getElem? hj
          exact (min_le_right _ _).trans (hcb.1 x hx)
    · have hi' : (A ++ P :: B)[i + 1]? = some R := by
        rw [List.getElem?_append_right (by omega)] at hi ⊢
        rw [show i + 1 - A.length = (i - A.length) + 1 by omega, List.getElem?_cons_succ]
        exact hi
      have hsucc : ∀ j x, a.length < j → (a ++ c :: c' :: b)[j]? = some x → (a ++ c' :: b)[j - 1]? = some x := by
        intro j x hj hx
        rw [List.getElem?_append_right (by omega)] at hx ⊢
        rwa [show j - a.length = (j - 1 - a.length) + 1 by omega, List.getElem?_cons_succ] at hx
      refine near_mono (h.optimal (i + 1) R lam hi' (fun j x hj hji => ?_) (fun j x hj hij => ?_)) ?_
      · rcases lt_trichotomy j a.length with hja | hja | hja
        · refine hlo j x ?_ (by omega)
          rw [List.getElem?_append_left hja] at hj ⊢; exact hj
        · subst hja
          simp only [List.getElem?_append_right le_rfl, Nat.sub_self, List.getElem?_cons_zero,
            Option.some.injEq] at hj
          rw [← hj]
          exact hcc.trans (hlo a.length c' (by simp) (by omega))
        · exact hlo (j - 1) x (hsucc j x hja hj) (by omega)
      · exact hhi (j - 1) x (hsucc j x (by omega) hj) (by omega)
      · have : 0 ≤ η * V.card := by positivity
        linarith

/-- Repeated critical values can be left out. -/
theorem approx_dedup {C : ℚ} {cv' : List ℚ} (hinc : cv'.Pairwise (· < ·)) : ∀ (k : ℕ) (Ps : List Partition) (cv : List ℚ),
    cv.length ≤ k → IsApproximateSequence E V C Ps cv → (∀ c, c ∈ cv ↔ c ∈ cv') →
    ∃ Ps', IsApproximateSequence E V C Ps' cv' := by
  intro k
  induction k with
  | zero =>
    intro Ps cv hk h hm
    obtain rfl : cv = [] := List.length_eq_zero_iff.1 (by omega)
    obtain rfl : cv' = [] := by
      rw [List.eq_nil_iff_forall_not_mem]
      intro c hc
      exact absurd ((hm c).2 hc) (by simp)
    exact ⟨Ps, h⟩
  | succ k ih =>
    intro Ps cv hk h hm
    by_cases hnd : cv.Nodup
    · have hs : cv.Pairwise (· < ·) := by
        refine (List.Pairwise.and h.nondecreasing hnd).imp fun hab => lt_of_le_of_ne hab.1 hab.2
      have : cv = cv' := by
        refine List.Perm.eq_of_pairwise (fun a b _ _ h1 h2 => absurd h2 (not_lt.2 h1.le)) hs hinc ?_
        exact (List.perm_ext_iff_of_nodup hnd (hinc.imp fun h => h.ne)).2 hm
      exact ⟨Ps, this ▸ h⟩
    · -- two neighbours are equal
      obtain ⟨a, c, b, rfl⟩ : ∃ a c b, cv = a ++ c :: c :: b := by
        by_contra hno
        apply hnd
        have : ∀ s : List ℚ, s.Pairwise (· ≤ ·) → (¬ ∃ a c b, s = a ++ c :: c :: b) → s.Pairwise (· < ·) := by
          intro s
          induction s with
          | nil => intro _ _; exact List.Pairwise.nil
          | cons x s ihs =>
            intro hp hn
            rw [List.pairwise_cons] at hp
            have h1 := ihs hp.2 (by rintro ⟨a, c, b, rfl⟩; exact hn ⟨x :: a, c, b, rfl⟩)
            rw [List.pairwise_cons]
            refine ⟨?_, h1⟩
            rcases s with _ | ⟨y, s⟩
            · simp
            · have hxy : x < y := by
                refine lt_of_le_of_ne (hp.1 y (by simp)) ?_
                rintro rfl
                exact hn ⟨[], x, s, rfl⟩
              intro z hz
              rcases List.mem_cons.1 hz with rfl | hz
              · exact hxy
              · exact hxy.trans ((List.pairwise_cons.1 h1).1 z hz)
        exact (this cv h.nondecreasing hno).imp fun h => h.ne
      have hlen := h.length
      simp only [List.length_append, List.length_cons] at hlen
      have hlt : a.length + 1 < Ps.length := by omega
      have hsplit : Ps = Ps.take (a.length + 1) ++ Ps[a.length + 1] :: Ps.drop (a.length + 2) := by
        rw [List.cons_getElem_drop_succ, List.take_append_drop]
      rw [hsplit] at h
      have h1 := approx_drop le_rfl h (by rw [List.length_take]; omega) (by linarith : c ≤ c + 0)
      rw [zero_mul, add_zero] at h1
      refine ih _ _ ?_ h1 ?_
      · simp only [List.length_append, List.length_cons] at hk ⊢; omega
      · intro x
        rw [← hm x]
        simp

/-- As `approx_dedup`, and also the least critical value can be left out if it is close to another one. -/
theorem approx_select {C η : ℚ} (hη : 0 ≤ η) {Ps : List Partition} {cv cv' : List ℚ} (h : IsApproximateSequence E V C Ps cv)
    (hinc : cv'.Pairwise (· < ·)) (hne : cv' ≠ []) (hsub : ∀ c ∈ cv', c ∈ cv)
    (hmiss : ∀ c ∈ cv, c ∉ cv' → ∀ d ∈ cv, c ≤ d) (hclose : ∀ c ∈ cv, c ∉ cv' → ∃ d ∈ cv', d ≤ c + η) :
    ∃ Ps', IsApproximateSequence E V (C + η * V.card) Ps' cv' := by
  by_cases hall : ∀ c ∈ cv, c ∈ cv'
  · obtain ⟨Ps', hp⟩ := approx_dedup hinc cv.length Ps cv le_rfl h fun c => ⟨hall c, hsub c⟩
    exact ⟨Ps', approx_mono hp (by have : 0 ≤ η * V.card := by positivity
                                   linarith)⟩
  · push Not at hall
    obtain ⟨m, hm, hm'⟩ := hall
    have hmin := hmiss m hm hm'
    obtain ⟨d, hd, hdm⟩ := hclose m hm hm'
    have hinc2 : (m :: cv').Pairwise (· < ·) := List.pairwise_cons.2
      ⟨fun c hc => lt_of_le_of_ne (hmin c (hsub c hc)) (by rintro rfl; exact hm' hc), hinc⟩
    obtain ⟨Ps', hp⟩ := approx_dedup hinc2 cv.length Ps cv le_rfl h fun c => by
      rw [List.mem_cons]
      constructor
      · intro hc
        by_cases hc' : c ∈ cv'
        · exact Or.inr hc'
        · exact Or.inl (le_antisymm (hmiss c hc hc' m hm) (hmin c hc))
      · rintro (rfl | hc)
        · exact hm
        · exact hsub c hc
    rcases cv' with _ | ⟨c0, cv'⟩
    · exact absurd rfl hne
    have hlen := hp.length
    rcases Ps' with _ | ⟨P0, _ | ⟨P1, Ps'⟩⟩
    · simp at hlen
    · simp at hlen
    refine ⟨P0 :: Ps', approx_drop (A := [P0]) (a := []) (P := P1) (B := Ps') (c := m) hη hp rfl ?_⟩
    rcases List.mem_cons.1 hd with rfl | hd
    · exact hdm
    · exact ((List.pairwise_cons.1 hinc).1 d hd).le.trans hdm

/-! ### the run -/

/-- `HPSP` and `PSP_I` report nearly the same critical values, and those of `HPSP` belong to a sequence of partitions that
is right up to errors. -/
theorem hpspRunF_near {S : FlowSolver} {fl : ℚ → ℚ} {ao : List Arc → List Arc} {ord : Partition → List CSet}
    {u M δ W e w y : ℚ} (hn : 2 ≤ n) (hg : GoodDigraph g n) (hlow : ∀ e ∈ g.arcs, ε ≤ e.cap)
    (H : ISetup S fl ao ord g.arcs (Finset.range n) n u M δ W e ε w y τ) :
    ∃ g' ri rh, pspiRunF fl ao S ε ord g = .ok (g', ri) ∧ hpspRunF fl ao S ε ord g = .ok (g', rh) ∧
      rh.psp.length = rh.cv.length + 1 ∧ rh.psp.getLast? = some (makeFine n) ∧ rh.cv.Pairwise (· < ·) ∧
      (∀ c ∈ rh.cv, c ∈ ri.cv) ∧
      (∀ c ∈ ri.cv, c ∉ rh.cv → (∀ d ∈ ri.cv, c ≤ d) ∧ ∃ d ∈ rh.cv, d ≤ c + 2 * n ^ 2 * y) ∧
      ((n * (n + 1) ^ 2 + 1) * y ≤ ε → ∀ c ∈ ri.cv, c ∈ rh.cv) ∧
      ∃ Ps, IsApproximateSequence g.arcs (Finset.range n) (((n : ℚ) - 1) * ε + 7 * n ^ 3 * y) Ps rh.cv := by
  obtain ⟨hw0, hy6⟩ := H.y_nonneg
  have hy0 : 0 ≤ y := by linarith
  set V := Finset.range n with hV
  have hVc : V.card = n := by simp [hV]
  have hE := hg.good.nonneg
  have hW := hg.good.within
  have hcn : g.countNodes = n := by rw [Digraph.countNodes, hg.nodes, List.length_range]
  have hVn : V ⊆ g.nodes.toFinset := by
    intro i hi; rw [List.mem_toFinset, hg.nodes]; simpa [hV] using hi
  obtain ⟨u', hu', hgr⟩ := exists_granular g.arcs
  have hsc : scale (fun _ => 1) g.arcs = g.arcs := by
    unfold scale
    simp
  have hrep : RepF g.arcs V (4 * n * u) ε n g id := by
    refine ⟨⟨fun _ => 1, u', fun e => ?_, hu', ?_⟩, hlow⟩
    · rw [show g.nodes.length = n from hcn]; simp
    · rw [hsc]; exact rep_init hg hgr
  obtain ⟨g', φ', I', ch', l, he, hpost, hgood, hsim, hgap⟩ := split_nearF H
    (n + 1) g id V _ (crossWeight g.arcs (singletons V)) 0 hrep hVn (by omega) (by omega) (kids_init n)
    (fun c hc => by
      obtain ⟨i, _, rfl⟩ := List.mem_map.1 hc
      exact GoodF.leaf i)
    le_rfl (by rw [H.τ_eq]; push_cast; linarith)
    (fun c hc m hm => by
      obtain ⟨i, _, rfl⟩ := List.mem_map.1 hc
      simp [PTree.val] at hm)
    (by
      rw [pullB_id subset_rfl, pull_id _ _ subset_rfl]
      have := isOptimal_singletons (V := V) hE (le_refl (crossWeight g.arcs (singletons V)))
      refine ⟨this.1, fun R hR _ => ?_⟩
      rw [induced_self hW]
      have := this.2 R hR
      linarith)
  rw [pullB_id subset_rfl] at hgood hsim
  have hτ0 : 0 ≤ τ := by rw [H.τ_eq]; positivity
  have hf0 : firstElem V = 0 := firstElem_range (by omega)
  obtain ⟨psp, cv, hq, happ, hclose⟩ := queue_nearF hn hE hW hτ0 (by linarith) (by linarith [H.pos]) hgood
  obtain ⟨st, hst, henc, hW0, hK0, _⟩ := hsim ⟨fun _ => 0, fun _ => 0⟩ fun c hc => by
    obtain ⟨i, _, rfl⟩ := List.mem_map.1 hc
    exact Enc.leaf _
  rw [hf0] at hst hW0 hK0
  have hnq : (2 : ℚ) ≤ n := by exact_mod_cast hn
  have hvals : ∀ m, m ∈ cv ↔ TVal (.node V (some l) ch') m := fun m => by
    rw [queueLoop_values (2 * n) (List.pairwise_singleton _ _) (fun t ht => by
      rw [List.mem_singleton.1 ht]; exact hgood) hq m]
    exact ⟨fun ⟨t, ht, h⟩ => List.mem_singleton.1 ht ▸ h, fun h => ⟨_, List.mem_singleton_self _, h⟩⟩
  have henv := enc_values hgood henc
  simp only [PTree.K, hf0] at henv
  have hWv : ∀ v < n, TVal (.node V (some l) ch') (st.W v) := by
    intro v hv
    by_cases hv0 : v = 0
    · rw [hv0, hW0]; exact TVal.here _ _ _
    · exact (henv _).1 ⟨v, by simpa [hV] using hv, hv0, rfl⟩
  obtain ⟨v1, hv1, hv10, hv1W⟩ := (henv l).2 (TVal.here _ _ _)
  have hβ1 : 6 * w < 1 := by
    have h1 := H.small.e_le
    have hδ := H.small.err
    rw [H.small.e_eq] at h1
    rw [H.w_eq]
    have e1 : n * (δ + 20 * n * u * W) = n * δ + 20 * (n * n * u * W) := by ring
    have e2 : (0 : ℚ) ≤ n * δ := by positivity
    linarith
  obtain ⟨r, hr, hr1, hr2, hr3, hr4, hr5⟩ := pspConstruct_values (n := n) (st := st) (fun v hv => by
    have := hgood.low hE (by linarith) (hWv v hv)
    linarith)
  have hlmem : l ∈ r.cv := by
    rcases hr5 0 (by omega) with h | h
    · rwa [hW0] at h
    · have := h v1 (by simpa [hV] using hv1) hv10
      rw [hW0, hv1W] at this
      exact absurd this (lt_irrefl l)
  have hsub : ∀ c ∈ r.cv, c ∈ cv := by
    intro c hc
    obtain ⟨v, hv, rfl⟩ := hr4 c hc
    exact (hvals _).2 (hWv v hv)
  have hmiss : ∀ c ∈ cv, c ∉ r.cv → (∀ d ∈ cv, c ≤ d) ∧ ∃ d ∈ r.cv, d ≤ c + n * τ := by
    intro c hc hcn
    have htv := (hvals c).1 hc
    obtain ⟨v, hv, hv0, hvW⟩ := (henv c).2 htv
    have hvn : v < n := by simpa [hV] using hv
    refine ⟨fun d hd => ?_, l, hlmem, ?_⟩
    · obtain ⟨w', hw', _, hwW⟩ := (henv d).2 ((hvals d).1 hd)
      by_cases hwv : w' = v
      · rw [← hvW, ← hwW, hwv]
      · rcases hr5 v hvn with h | h
        · rw [hvW] at h; exact absurd h hcn
        · have := h w' (by simpa [hV] using hw') hwv
          rw [hvW, hwW] at this
          exact this.le
    · have := hgood.ge hτ0 rfl htv
      simp only [PTree.K, hVc] at this
      linarith
  have hτy : (n : ℚ) * τ ≤ 2 * n ^ 2 * y := by
    rw [H.τ_eq]
    have h2 : (n : ℚ) * (n + 1) ≤ 2 * n ^ 2 := by nlinarith
    have h3 := mul_le_mul_of_nonneg_right h2 hy0
    linarith
  have hs : ∀ c, c ∈ cv.insertionSort (· ≤ ·) ↔ c ∈ cv := fun c => List.mem_insertionSort _
  obtain ⟨Ps, hPs⟩ := approx_select (η := n * τ) (by positivity) happ hr3 (List.ne_nil_of_mem hlmem)
    (fun c hc => (hs c).2 (hsub c hc)) (fun c hc hc' d hd => (hmiss c ((hs c).1 hc) hc').1 d ((hs d).1 hd))
    (fun c hc hc' => (hmiss c ((hs c).1 hc) hc').2)
  refine ⟨g', ⟨psp, cv⟩, r, ?_, ?_, hr1, hr2, hr3, hsub, fun c hc hc' => ?_, fun hyε c hc => ?_, Ps, ?_⟩
  · unfold pspiRunF
    simp only [hcn]
    rw [if_neg (by omega), he, Outcome.ok_bind]
    simp only
    rw [show makeDense n = Finset.range n from rfl, hq]
    rfl
  · unfold hpspRunF
    simp only [hcn]
    rw [if_neg (by omega), show makeDense n = Finset.range n from rfl, ← hV, hst, Outcome.ok_bind]
    simp only
    rw [hr]
    rfl
  · obtain ⟨h1, d, hd, h2⟩ := hmiss c hc hc'
    exact ⟨h1, d, hd, h2.trans (by linarith)⟩
  · by_contra hcr
    have hn3 : (0 : ℚ) ≤ n * (n + 1) ^ 2 := by positivity
    have hyle : y ≤ ε := by nlinarith
    have hτ1 : ((n : ℚ) + 1) * τ ≤ (ε - y) / n := by
      rw [le_div_iff₀ (by linarith), H.τ_eq]
      linarith
    have hge : ∀ m, TVal (.node V (some l) ch') m → l ≤ m := by
      intro m hm
      rcases TVal.node.1 hm with rfl | ⟨c, hc, hm⟩
      · exact le_rfl
      have hgc := hpost.good c hc
      rcases (hgap hyle).2 c hc with h | h
      · obtain ⟨i, _, rfl⟩ := List.mem_map.1 h
        exact absurd hm TVal.leaf
      · cases hcv : c.val with
        | none =>
          exfalso
          cases hgc with
          | leaf v => exact TVal.leaf hm
          | node => simp [PTree.val] at hcv
        | some m0 =>
          have h1 := h m0 hcv
          have h2 := hgc.ge hτ0 hcv hm
          have h3 : (c.K.card : ℚ) ≤ n := by
            have hp := hgood.shape.2.2.1
            have := Finset.card_le_card (hp.subset (List.mem_toFinset.2 (List.mem_map_of_mem hc)))
            rw [hVc] at this
            exact_mod_cast this
          have h4 := mul_le_mul_of_nonneg_right h3 hτ0
          linarith
    have htv := (hvals c).1 hc
    obtain ⟨v, hv, hv0, hvW⟩ := (henv c).2 htv
    rcases hr5 v (by simpa [hV] using hv) with h | h
    · rw [hvW] at h; exact hcr h
    · have := h 0 (by omega) (Ne.symm hv0)
      rw [hvW, hW0] at this
      exact absurd (hge c htv) (not_le.2 this)
  · refine approx_mono hPs ?_
    rw [hVc, H.τ_eq]
    have h1 : ((n : ℚ) - 1) * (6 * w) ≤ ((n : ℚ) - 1) * y := mul_le_mul_of_nonneg_left hy6 (by linarith)
    have h2 : (3 * (n : ℚ) ^ 3 + 3 * n ^ 2 + n - 3) ≤ 5 * n ^ 3 := by nlinarith
    have h3 := mul_le_mul_of_nonneg_right h2 hy0
    have h4 : (n : ℚ) ^ 2 * (n + 1) ≤ 2 * n ^ 3 := by nlinarith
    have h5 := mul_le_mul_of_nonneg_right h4 hy0
    linarith

end PSP.Theory
