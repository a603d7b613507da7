import Verif.Theory.ApproxMin

/-!
# Merging intervals that may consist of one point

`pdtMerge_spec` for `WChain`, with the fact that the partitions become finer.
-/

namespace PSP.Theory

open PSP.Spec PSP.Model

theorem expand_mono {P Q : Finset (Finset ℕ)} {S T : Finset ℕ} (h : Refines P Q) (hTS : T ⊆ S) :
    Refines (expand P T) (expand Q S) := by
  have hbig : ∀ D ∈ Q, ¬ Disjoint D S → D ⊆ bigBlock Q S := by
    intro D hD hd w hw
    exact Finset.mem_union_right _ (Finset.mem_sup.2 ⟨D, Finset.mem_filter.2 ⟨hD, hd⟩, hw⟩)
  intro C hC
  rcases mem_expand.1 hC with rfl | ⟨hC, hd⟩
  · refine ⟨bigBlock Q S, mem_expand.2 (Or.inl rfl), ?_⟩
    intro w hw
    rcases Finset.mem_union.1 hw with hw | hw
    · exact Finset.mem_union_left _ (hTS hw)
    · obtain ⟨B, hB, hwB⟩ := Finset.mem_sup.1 hw
      obtain ⟨hB, hd⟩ := Finset.mem_filter.1 hB
      obtain ⟨D, hD, hBD⟩ := h B hB
      refine hbig D hD (fun hdis => hd ?_) (hBD hwB)
      exact (hdis.mono hBD hTS)
  · obtain ⟨D, hD, hCD⟩ := h C hC
    by_cases hd' : Disjoint D S
    · exact ⟨D, mem_expand.2 (Or.inr ⟨hD, hd'⟩), hCD⟩
    · exact ⟨bigBlock Q S, mem_expand.2 (Or.inl rfl), hCD.trans (hbig D hD hd')⟩

section merge

variable {D1 D3 : ℚ → Partition → Prop} {D2 : ℚ → CSet → Prop} {a0 : ℚ}

/-- The accumulator covers `a0 … a`. -/
def WAccOk (D3 : ℚ → Partition → Prop) (a0 : ℚ) : List (Partition × Option ℚ) → ℚ → Prop
  | [], a => a = a0
  | (Q, e) :: rest, a => e = some a ∧ (∃ b, b ≤ a ∧ (∀ l, b ≤ l → l ≤ a → D3 l Q) ∧
      ∀ tail, WChain D3 b tail → WChain D3 a0 (rest.reverse ++ tail))

theorem WAccOk.cont {acc : List (Partition × Option ℚ)} {a : ℚ} (h : WAccOk D3 a0 acc a) :
    ∀ tail, WChain D3 a tail → WChain D3 a0 (acc.reverse ++ tail) := by
  intro tail ht
  cases acc with
  | nil =>
    have : a = a0 := h
    subst this
    exact ht
  | cons Qe rest =>
    obtain ⟨Q, e⟩ := Qe
    obtain ⟨rfl, b, hb, hQ, hc⟩ := h
    have := hc ((Q, some a) :: tail) ⟨hb, hQ, ht⟩
    simpa using this

theorem pushAcc_someW {acc : List (Partition × Option ℚ)} {a b : ℚ} (h : WAccOk D3 a0 acc a) (hab : a ≤ b)
    {Q : Partition} (hQ : ∀ l, a ≤ l → l ≤ b → D3 l Q) : WAccOk D3 a0 (pushAcc Q (some b) acc) b := by
  cases acc with
  | nil =>
    refine ⟨rfl, a, hab, hQ, ?_⟩
    have : a = a0 := h
    subst this
    simp
  | cons Qe rest =>
    obtain ⟨Q0, e⟩ := Qe
    unfold pushAcc
    dsimp only
    split
    · exact ⟨rfl, a, hab, hQ, h.cont⟩
    · rename_i heq
      have heq : Q = Q0 := by simpa using heq
      subst heq
      obtain ⟨rfl, c, hc, hQ0, hcont⟩ := h
      refine ⟨rfl, c, hc.trans hab, fun l h1 h2 => ?_, hcont⟩
      rcases le_total l a with h' | h'
      · exact hQ0 l h1 h'
      · exact hQ l h' h2

theorem pushAcc_noneW {acc : List (Partition × Option ℚ)} {a : ℚ} (h : WAccOk D3 a0 acc a)
    {Q : Partition} (hQ : ∀ l, a ≤ l → D3 l Q) : WChain D3 a0 (pushAcc Q none acc).reverse := by
  cases acc with
  | nil =>
    have : a = a0 := h
    subst this
    exact ⟨rfl, hQ⟩
  | cons Qe rest =>
    obtain ⟨Q0, e⟩ := Qe
    unfold pushAcc
    dsimp only
    split
    · have := h.cont [(Q, none)] ⟨rfl, hQ⟩
      simpa using this
    · rename_i heq
      have heq : Q = Q0 := by simpa using heq
      subst heq
      obtain ⟨rfl, c, hc, hQ0, hcont⟩ := h
      have := hcont [(Q, none)] ⟨rfl, fun l hl => by
        rcases le_total l a with h' | h'
        · exact hQ0 l hl h'
        · exact hQ l h'⟩
      simpa using this

/-- `Q` is a proper refinement of `P`. -/
def Finer (P Q : Partition) : Prop := Refines Q P ∧ Q ≠ P

theorem pushAcc_finer {acc : List (Partition × Option ℚ)} {Q : Partition} {m : Option ℚ}
    (h : (acc.map Prod.fst).IsChain fun Q P => Finer P Q) (hQ : ∀ P ∈ (acc.map Prod.fst).head?, Refines Q P) :
    ((pushAcc Q m acc).map Prod.fst).IsChain (fun Q P => Finer P Q) ∧
      ((pushAcc Q m acc).map Prod.fst).head? = some Q := by
  cases acc with
  | nil => simp [pushAcc]
  | cons Qe rest =>
    obtain ⟨Q0, e⟩ := Qe
    unfold pushAcc
    dsimp only
    split
    · rename_i hne
      simp only [List.map_cons] at h hQ ⊢
      exact ⟨List.isChain_cons_cons.2 ⟨⟨hQ Q0 (by simp), hne⟩, h⟩, by simp⟩
    · rename_i heq
      have heq : Q = Q0 := by simpa using heq
      subst heq
      exact ⟨by simpa using h, by simp⟩

theorem WChain.shrink {α : Type} {D : ℚ → α → Prop} {a b c : ℚ} {x : α} {r : List (α × Option ℚ)}
    (h : WChain D a ((x, some c) :: r)) (hab : a ≤ b) (hbc : b ≤ c) : WChain D b ((x, some c) :: r) :=
  ⟨hbc, fun l h1 h2 => h.2.1 l (hab.trans h1) h2, h.2.2⟩

theorem WChain.shrink_none {α : Type} {D : ℚ → α → Prop} {a b : ℚ} {x : α} {r : List (α × Option ℚ)}
    (h : WChain D a ((x, none) :: r)) (hab : a ≤ b) : WChain D b ((x, none) :: r) :=
  ⟨h.1, fun l h1 => h.2 l (hab.trans h1)⟩

theorem pdtMerge_specW (hD : ∀ l, a0 ≤ l → ∀ p s, D1 l p → D2 l s → D3 l (expand p s)) (k : ℕ) :
    ∀ (ps : List (Partition × Option ℚ)) (ts : List (CSet × Option ℚ)) (a : ℚ)
      (acc : List (Partition × Option ℚ)), ps.length + ts.length ≤ k → a0 ≤ a → WChain D1 a ps →
      WChain D2 a ts → (ps.map Prod.fst).IsChain (fun P Q => Refines Q P) →
      (ts.map Prod.fst).IsChain (fun S T => T ⊆ S) → WAccOk D3 a0 acc a →
      (acc.map Prod.fst).IsChain (fun Q P => Finer P Q) →
      (∀ p ∈ (ps.map Prod.fst).head?, ∀ s ∈ (ts.map Prod.fst).head?, ∀ P ∈ (acc.map Prod.fst).head?,
        Refines (expand p s) P) →
      WChain D3 a0 (pdtMerge k ps ts acc) ∧ ((pdtMerge k ps ts acc).map Prod.fst).IsChain Finer := by
  induction k with
  | zero =>
    intro ps ts a acc hk _ h1
    cases ps with
    | nil => exact absurd h1 (by simp [WChain])
    | cons p ps => simp at hk
  | succ k ih =>
    intro ps ts a acc hk ha h1 h2 hps hts hacc hch hhd
    cases ps with
    | nil => exact absurd h1 (by simp [WChain])
    | cons pd ps =>
    cases ts with
    | nil => exact absurd h2 (by simp [WChain])
    | cons sd ts =>
    obtain ⟨p, di⟩ := pd
    obtain ⟨s, dk⟩ := sd
    rw [pdtMerge_cons]
    simp only [List.length_cons] at hk
    have hpush := fun m => pushAcc_finer (m := m) hch (hhd p (by simp) s (by simp))
    have hch' : ∀ m, ((pushAcc (expand p s) m acc).map Prod.fst).IsChain (fun Q P => Finer P Q) :=
      fun m => (hpush m).1
    have hps' : (ps.map Prod.fst).IsChain (fun P Q => Refines Q P) := by
      simp only [List.map_cons] at hps; exact hps.tail
    have hts' : (ts.map Prod.fst).IsChain (fun S T => T ⊆ S) := by
      simp only [List.map_cons] at hts; exact hts.tail
    -- the heads after the step refine the heads before it
    have hp1 : ∀ q ∈ (ps.map Prod.fst).head?, Refines q p := by
      intro q hq
      simp only [List.map_cons] at hps
      exact (List.isChain_cons.1 hps).1 q hq
    have hs1 : ∀ q ∈ (ts.map Prod.fst).head?, q ⊆ s := by
      intro q hq
      simp only [List.map_cons] at hts
      exact (List.isChain_cons.1 hts).1 q hq
    have hp0 : ∀ q ∈ (((p, di) :: ps).map Prod.fst).head?, Refines q p := by
      intro q hq
      have : p = q := by simpa using hq
      rw [this]; exact Refines.refl q
    have hs0 : ∀ q ∈ (((s, dk) :: ts).map Prod.fst).head?, q ⊆ s := by
      intro q hq
      have : s = q := by simpa using hq
      rw [this]
    have hnew : ∀ m (ps' : List (Partition × Option ℚ)) (ts' : List (CSet × Option ℚ)),
        (∀ q ∈ (ps'.map Prod.fst).head?, Refines q p) → (∀ q ∈ (ts'.map Prod.fst).head?, q ⊆ s) →
        ∀ p' ∈ (ps'.map Prod.fst).head?, ∀ s' ∈ (ts'.map Prod.fst).head?,
          ∀ P ∈ ((pushAcc (expand p s) m acc).map Prod.fst).head?, Refines (expand p' s') P := by
      intro m ps' ts' a1 a2 p' hp' s' hs' P hP
      rw [(hpush m).2] at hP
      have : expand p s = P := by simpa using hP
      rw [← this]
      exact expand_mono (a1 p' hp') (a2 s' hs')
    cases di with
    | none =>
      cases dk with
      | none =>
        have e1 : ps = [] := h1.1
        have e2 : ts = [] := h2.1
        subst e1; subst e2
        have hf : pdtMerge k [] [] (pushAcc (expand p s) none acc) =
            (pushAcc (expand p s) none acc).reverse := by
          cases k <;> rfl
        simp only [leO, if_true, minOO, hf]
        refine ⟨pushAcc_noneW hacc fun l hl => hD l (ha.trans hl) p s (h1.2 l hl) (h2.2 l hl), ?_⟩
        rw [List.map_reverse, List.isChain_reverse]
        exact hch' none
      | some b =>
        simp only [leO, if_true, minOO, Bool.false_eq_true, if_false]
        exact ih _ _ b _ (by simp only [List.length_cons]; omega) (ha.trans h2.1)
          (h1.shrink_none h2.1) h2.2.2 hps hts'
          (pushAcc_someW hacc h2.1 fun l hl hlb => hD l (ha.trans hl) p s (h1.2 l hl) (h2.2.1 l hl hlb))
          (hch' _) (hnew _ _ _ hp0 hs1)
    | some c =>
      cases dk with
      | none =>
        simp only [leO, if_true, minOO, Bool.false_eq_true, if_false]
        exact ih _ _ c _ (by simp only [List.length_cons]; omega) (ha.trans h1.1)
          h1.2.2 (h2.shrink_none h1.1) hps' hts
          (pushAcc_someW hacc h1.1 fun l hl hlb => hD l (ha.trans hl) p s (h1.2.1 l hl hlb) (h2.2 l hl))
          (hch' _) (hnew _ _ _ hp1 hs0)
      | some b =>
        rcases lt_trichotomy c b with hcb | hcb | hcb
        · have e1 : leO (some c) (some b) = true := by simp [leO, hcb.le]
          have e2 : leO (some b) (some c) = false := by simp [leO, hcb]
          simp only [e1, e2, if_true, minOO, Bool.false_eq_true, if_false]
          exact ih _ _ c _ (by simp only [List.length_cons]; omega) (ha.trans h1.1)
            h1.2.2 (h2.shrink h1.1 hcb.le) hps' hts
            (pushAcc_someW hacc h1.1 fun l hl hlb => hD l (ha.trans hl) p s (h1.2.1 l hl hlb)
              (h2.2.1 l hl (hlb.trans hcb.le)))
            (hch' _) (hnew _ _ _ hp1 hs0)
        · subst hcb
          have e1 : leO (some c) (some c) = true := by simp [leO]
          simp only [e1, if_true, minOO]
          exact ih _ _ c _ (by omega) (ha.trans h1.1) h1.2.2 h2.2.2 hps' hts'
            (pushAcc_someW hacc h1.1 fun l hl hlb => hD l (ha.trans hl) p s (h1.2.1 l hl hlb)
              (h2.2.1 l hl hlb))
            (hch' _) (hnew _ _ _ hp1 hs1)
        · have e1 : leO (some c) (some b) = false := by simp [leO, hcb]
          have e2 : leO (some b) (some c) = true := by simp [leO, hcb.le]
          simp only [e1, e2, if_true, minOO, Bool.false_eq_true, if_false]
          exact ih _ _ b _ (by simp only [List.length_cons]; omega) (ha.trans h2.1)
            (h1.shrink h2.1 hcb.le) h2.2.2 hps hts'
            (pushAcc_someW hacc h2.1 fun l hl hlb => hD l (ha.trans hl) p s
              (h1.2.1 l hl (hlb.trans hcb.le)) (h2.2.1 l hl hlb))
            (hch' _) (hnew _ _ _ hp0 hs1)

end merge

end PSP.Theory
