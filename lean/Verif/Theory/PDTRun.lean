import Mathlib.Data.List.Chain
import Mathlib.Data.Nat.Factorial.Basic
import Verif.Theory.PMFRun
import Verif.Theory.Construct

/-!
# `PDT::run` returns the principal sequence
-/

namespace PSP.Theory

open PSP.Spec PSP.Model

variable {E : List Arc} {ε : ℚ} {j : ℕ} {y : ℕ → YPair} {X A B : Finset ℕ} {l m : ℚ}
  {t : List (ℚ × Finset ℕ)}

/-! ### one step of the truncation when the old coordinates may decrease inside the new set -/

theorem DInv.pstep {f : Finset ℕ → ℚ} {lam : ℚ} {U : Finset ℕ} {x x' : ℕ → ℚ}
    {P : Finset (Finset ℕ)} (hf : Submodular f) (h : DInv f lam U x P) {v : ℕ} (hv : v ∉ U)
    (hX : X ⊆ U) (hout : ∀ i ∈ U, i ∉ X → x' i = x i)
    (hT : Tight f lam x' (insert v X)) (hpoly : InPoly f lam (insert v U) x') :
    DInv f lam (insert v U) x' (expand P (insert v X)) := by
  have hU : ∀ B ∈ P, B ⊆ U := fun B hB => h.part.subset hB
  have hTW : insert v X ⊆ insert v U := Finset.insert_subset_insert v hX
  refine ⟨?_, hpoly, ?_⟩
  · have := expand_isPartition h.part (T := insert v X) ⟨v, Finset.mem_insert_self _ _⟩
    have e : U ∪ insert v X = insert v U := by
      ext w
      simp only [Finset.mem_union, Finset.mem_insert]
      constructor
      · rintro (h | h | h)
        · exact Or.inr h
        · exact Or.inl h
        · exact Or.inr (hX h)
      · rintro (h | h)
        · exact Or.inr (Or.inl h)
        · exact Or.inl h
    rwa [e] at this
  · intro C hC
    rcases mem_expand.1 hC with rfl | ⟨hC, hd⟩
    · -- the merged block
      have key : ∀ F : Finset (Finset ℕ), F ⊆ P.filter (fun B => ¬ Disjoint B (insert v X)) →
          Tight f lam x' (insert v X ∪ F.sup id) ∧ insert v X ∪ F.sup id ⊆ insert v U := by
        intro F
        induction F using Finset.induction_on with
        | empty => intro _; simp only [Finset.sup_empty, Finset.bot_eq_empty, Finset.union_empty]
                   exact ⟨hT, hTW⟩
        | insert B F hBF ih =>
          intro hsub
          obtain ⟨iht, ihW⟩ := ih ((Finset.subset_insert _ _).trans hsub)
          obtain ⟨hB, hd⟩ := Finset.mem_filter.1 (hsub (Finset.mem_insert_self _ _))
          have heq : insert v X ∪ (insert B F).sup id = (insert v X ∪ F.sup id) ∪ B := by
            rw [Finset.sup_insert]
            ext w
            simp only [id, Finset.mem_union, Finset.sup_eq_union]
            tauto
          rw [heq]
          have hBU := hU B hB
          have hvB : v ∉ B := fun h' => hv (hBU h')
          set T' := insert v X ∪ F.sup id with hT'
          -- `B` meets `T'` only inside `X`
          have hint : T' ∩ B = X ∩ B := by
            ext w
            simp only [hT', Finset.mem_inter, Finset.mem_union, Finset.mem_insert, Finset.mem_sup, id]
            constructor
            · rintro ⟨(h1 | h1) | ⟨C, hC, hwC⟩, h2⟩
              · exact absurd (h1 ▸ h2) hvB
              · exact ⟨h1, h2⟩
              · exfalso
                have hCP := (Finset.mem_filter.1 (hsub (Finset.mem_insert_of_mem hC))).1
                have := h.part.eq_of_mem hCP hB hwC h2
                exact hBF (this ▸ hC)
            · rintro ⟨h1, h2⟩
              exact ⟨Or.inl (Or.inr h1), h2⟩
          have hne : (X ∩ B).Nonempty := by
            obtain ⟨w, hw1, hw2⟩ := Finset.not_disjoint_iff.1 hd
            rcases Finset.mem_insert.1 hw2 with h' | h'
            · exact absurd (h' ▸ hw1) hvB
            · exact ⟨w, Finset.mem_inter.2 ⟨h', hw1⟩⟩
          have hsm := hf T' B (by rw [hint]; exact hne)
          rw [hint] at hsm
          have hxB := h.tight B hB
          have hxXB := h.poly (X ∩ B) (Finset.inter_subset_right.trans hBU) hne
          have hsplit : vsum x' (T' ∪ B) = vsum x' T' + vsum x' (B \ T') := by
            have := vsum_sdiff x' (B := T') (A := T' ∪ B) Finset.subset_union_left
            rw [Finset.union_sdiff_left] at this
            linarith
          have hBT : B \ T' = B \ (X ∩ B) := by
            rw [← hint, Finset.inter_comm, Finset.sdiff_inter_self_left]
          have hx'B : vsum x' (B \ T') = vsum x B - vsum x (X ∩ B) := by
            rw [hBT]
            have h1 := vsum_sdiff x (B := X ∩ B) (A := B) Finset.inter_subset_right
            have h2 : vsum x' (B \ (X ∩ B)) = vsum x (B \ (X ∩ B)) := by
              apply vsum_congr
              intro i hi
              have hi' := Finset.mem_sdiff.1 hi
              exact hout i (hBU hi'.1) fun h' => hi'.2 (Finset.mem_inter.2 ⟨h', hi'.1⟩)
            rw [h2]; linarith
          have hW' : T' ∪ B ⊆ insert v U :=
            Finset.union_subset ihW (hBU.trans (Finset.subset_insert _ _))
          have hup := hpoly (T' ∪ B) hW' ⟨v, Finset.mem_union_left _ (Finset.mem_union_left _
            (Finset.mem_insert_self _ _))⟩
          unfold Tight at *
          refine ⟨le_antisymm hup ?_, hW'⟩
          rw [hsplit, hx'B]
          linarith
      exact (key _ subset_rfl).1
    · -- an untouched block
      unfold Tight
      rw [← h.tight C hC]
      apply vsum_congr
      intro i hi
      exact hout i (hU C hC hi) fun h' =>
        Finset.disjoint_left.1 hd hi (Finset.mem_insert_of_mem h')

/-- The new `_y_lambda`: nodes of `X0` stop at the parameter where they leave the chain. -/
structure Updated (E : List Arc) (j : ℕ) (y y' : ℕ → YPair) (X0 : Finset ℕ)
    (t : List (ℚ × Finset ℕ)) : Prop where
  inside : ∀ u ∈ X0, ∀ l, yAt y' l u = yVal (max l (leave t u)) (y u)
  outside : ∀ u < j, u ∉ X0 → y' u = y u
  new : y' j = (getCutValue E {j}, none)

/-- The truncation invariant is preserved at every parameter. -/
theorem DInv.parametric (hE : NonnegE E) {y' : ℕ → YPair} {X0 Z : Finset ℕ}
    (hu : Updated E j y y' X0 t) (hZ : StepIn E j y X0 t l Z)
    {P : Partition} (h : DInv (getCutValue E) l (Finset.range j) (yAt y l) P) :
    DInv (getCutValue E) l (Finset.range (j + 1)) (yAt y' l) (expand P (insert j Z)) := by
  have hjU : j ∉ Finset.range j := by simp
  have hnew : yAt y' l j = getCutValue E {j} - l := by
    unfold yAt; rw [hu.new]; rfl
  obtain ⟨t2, hc2, hl2, he2⟩ := hZ.rest
  have hin : ∀ u ∈ Z, yAt y' l u = yLeave y t2 u := by
    intro u hu'
    rw [hu.inside u (hZ.sub hu'), max_eq_right (hZ.inside u hu')]
    unfold yLeave
    rw [he2 u hu']
  have hout : ∀ u ∈ Finset.range j, u ∉ Z → yAt y' l u = yAt y l u := by
    intro u hu1 hu2
    by_cases h0 : u ∈ X0
    · rw [hu.inside u h0, max_eq_left (hZ.outside u h0 hu2)]; rfl
    · unfold yAt; rw [hu.outside u (Finset.mem_range.1 hu1) h0]
  have hle : ∀ u ∈ Finset.range j, yAt y' l u ≤ yAt y l u := by
    intro u hu1
    by_cases h0 : u ∈ X0
    · rw [hu.inside u h0]; exact yVal_anti (le_max_left _ _) _
    · unfold yAt; rw [hu.outside u (Finset.mem_range.1 hu1) h0]
  rw [Finset.range_add_one]
  have hZj := hZ.min.sub
  have hjZ : j ∉ Z := fun h' => hjU (hZj h')
  apply h.pstep (cut_submodular hE) hjU hZj hout
  · unfold Tight
    rw [vsum_insert _ hjZ, hnew, vsum_congr hin, yLeave_eq hc2 hl2]
    ring
  · intro S hS hne
    by_cases hjS : j ∈ S
    · set Y := S.erase j with hY
      have hSY : S = insert j Y := (Finset.insert_erase hjS).symm
      have hjY : j ∉ Y := Finset.notMem_erase j S
      have hYj : Y ⊆ Finset.range j := by
        intro w hw
        have hw := Finset.mem_erase.1 hw
        exact (Finset.mem_insert.1 (hS hw.2)).resolve_left hw.1
      rw [hSY, vsum_insert _ hjY, hnew, vsum_split _ Y Z]
      have h1 : vsum (yAt y' l) (Y \ Z) = vsum (yAt y l) (Y \ Z) := by
        apply vsum_congr
        intro u hu'
        have := Finset.mem_sdiff.1 hu'
        exact hout u (hYj this.1) this.2
      have h2 : vsum (yAt y' l) (Y ∩ Z) = vsum (yLeave y t2) (Y ∩ Z) :=
        vsum_congr fun u hu' => hin u (Finset.mem_inter.1 hu').2
      rw [h1, h2]
      have h3 := outer_le hE hZ.min hYj
      have h4 := yLeave_le hE hc2 hl2 (Y ∩ Z) Finset.inter_subset_right
        (Finset.inter_subset_left.trans hYj)
      linarith
    · have hSj : S ⊆ Finset.range j := fun w hw =>
        (Finset.mem_insert.1 (hS hw)).resolve_left fun h' => hjS (h' ▸ hw)
      refine le_trans (Finset.sum_le_sum fun i hi => hle i (hSj hi)) (h.poly S hSj hne)

/-! ### the update of `_y_lambda` -/

theorem count_chain (h : SChain E j y A t) (hlast : slast A t = ∅) {u : ℕ} (hj : u ≠ j) (hu : u ∈ A) :
    ∃ c, (((A :: t.map Prod.snd).map (insert j)).filter fun T => decide (u ∈ T)).length = c + 1 ∧
      (t.map Prod.fst)[c]? = some (leave t u) := by
  induction t generalizing A with
  | nil => rw [show A = ∅ from hlast] at hu; simp at hu
  | cons cb t ih =>
    obtain ⟨c, B⟩ := cb
    by_cases hB : u ∈ B
    · obtain ⟨k, h1, h2⟩ := ih h.2.2.2 hlast hB
      refine ⟨k + 1, ?_, ?_⟩
      · rw [List.map_cons, List.filter_cons_of_pos (by simp [hu])]
        simp only [List.length_cons]
        exact congrArg (· + 1) h1
      · simpa [leave, hB] using h2
    · refine ⟨0, ?_, by simp [leave, hB]⟩
      rw [List.map_cons, List.filter_cons_of_pos (by simp [hu]), List.length_cons]
      have : ((((c, B) :: t).map Prod.snd).map (insert j)).filter (fun T => decide (u ∈ T)) = [] := by
        rw [List.filter_eq_nil_iff]
        intro T hT
        rw [List.mem_map] at hT
        obtain ⟨Z, hZ, rfl⟩ := hT
        have hZB : Z ⊆ B := by
          rcases List.mem_cons.1 hZ with h' | h'
          · exact h'.subset
          · exact (h.2.2.2.lt Z h').1
        simp only [decide_eq_true_eq, Finset.mem_insert]
        rintro (h' | h')
        · exact hj h'
        · exact hB (hZB h')
      rw [this]
      rfl

theorem count_out (h : SChain E j y A t) {u : ℕ} (hj : u ≠ j) (hu : u ∉ A) :
    (((A :: t.map Prod.snd).map (insert j)).filter fun T => decide (u ∈ T)).length = 0 := by
  rw [List.length_eq_zero_iff, List.filter_eq_nil_iff]
  intro T hT
  rw [List.mem_map] at hT
  obtain ⟨Z, hZ, rfl⟩ := hT
  have hZA : Z ⊆ A := by
    rcases List.mem_cons.1 hZ with h' | h'
    · exact h'.subset
    · exact (h.lt Z h').1
  simp only [decide_eq_true_eq, Finset.mem_insert]
  rintro (h' | h')
  · exact hj h'
  · exact hu (hZA h')

/-- The new pair for a node that leaves at `l`. -/
def stopAt (p : YPair) (l : ℚ) : YPair :=
  match p.2 with
  | none => (p.1, some (p.1 - l))
  | some b => if p.1 - b < l then (p.1, some (p.1 - l)) else p

theorem yVal_stopAt (p : YPair) (k l : ℚ) : yVal l (stopAt p k) = yVal (max l k) p := by
  obtain ⟨a, b⟩ := p
  have hsub : a - max l k = min (a - l) (a - k) := by
    rcases le_total l k with h | h
    · rw [max_eq_right h, min_eq_right (by linarith)]
    · rw [max_eq_left h, min_eq_left (by linarith)]
  cases b with
  | none => simp only [stopAt, yVal, minO, hsub]
  | some b =>
    simp only [stopAt]
    split
    · rename_i h
      simp only [yVal, minO, hsub]
      rw [min_assoc, min_eq_left (show a - k ≤ b by linarith)]
    · rename_i h
      simp only [yVal, minO, hsub]
      rw [min_assoc, min_eq_right (show b ≤ a - k by linarith [not_lt.1 h])]

theorem granY_stopAt {d l : ℚ} {p : YPair} (h : GranY d p) (hl : Gran d l) : GranY d (stopAt p l) := by
  obtain ⟨a, b⟩ := p
  have hnew : GranY d (a, some (a - l)) := ⟨h.1, fun b hb => by
    simp only [Option.some.injEq] at hb; rw [← hb]; exact h.1.sub hl⟩
  cases b with
  | none => exact hnew
  | some b =>
    simp only [stopAt]
    split
    · exact hnew
    · exact h

theorem pdtUpdate_in (h : SChain E j y A t) (hlast : slast A t = ∅) {u : ℕ} (hj : u ≠ j) (hu : u ∈ A)
    (p : YPair) : pdtUpdate ((A :: t.map Prod.snd).map (insert j)) (t.map Prod.fst) p u =
      .ok (stopAt p (leave t u)) := by
  obtain ⟨c, h1, h2⟩ := count_chain h hlast hj hu
  unfold pdtUpdate
  rw [h1]
  simp only [h2]
  rfl

theorem pdtUpdate_out (h : SChain E j y A t) {u : ℕ} (hj : u ≠ j) (hu : u ∉ A)
    (p : YPair) : pdtUpdate ((A :: t.map Prod.snd).map (insert j)) (t.map Prod.fst) p u = .ok p := by
  unfold pdtUpdate
  rw [count_out h hj hu]

theorem pdtUpdates_spec (h : SChain E j y A t) (hlast : slast A t = ∅) (k : ℕ) (hk : k ≤ j) :
    ∃ z, pdtUpdates ((A :: t.map Prod.snd).map (insert j)) (t.map Prod.fst) y k = .ok z ∧
      (∀ u < k, u ∈ A → z u = stopAt (y u) (leave t u)) ∧ (∀ u < k, u ∉ A → z u = y u) := by
  induction k with
  | zero => exact ⟨y, rfl, by simp, by simp⟩
  | succ k ih =>
    obtain ⟨z, h1, h2, h3⟩ := ih (by omega)
    have hkj : k ≠ j := by omega
    unfold pdtUpdates
    rw [h1]
    simp only [Outcome.ok_bind]
    by_cases hA : k ∈ A
    · rw [pdtUpdate_in h hlast hkj hA]
      simp only [Outcome.ok_bind, Outcome.pure_eq]
      refine ⟨_, rfl, ?_, ?_⟩
      · intro u hu huA
        by_cases huk : u = k
        · subst huk; simp
        · rw [Function.update_of_ne huk]; exact h2 u (by omega) huA
      · intro u hu huA
        by_cases huk : u = k
        · subst huk; exact absurd hA huA
        · rw [Function.update_of_ne huk]; exact h3 u (by omega) huA
    · rw [pdtUpdate_out h hkj hA]
      simp only [Outcome.ok_bind, Outcome.pure_eq]
      refine ⟨_, rfl, ?_, ?_⟩
      · intro u hu huA
        by_cases huk : u = k
        · subst huk; exact absurd huA hA
        · rw [Function.update_of_ne huk]; exact h2 u (by omega) huA
      · intro u hu huA
        by_cases huk : u = k
        · subst huk; simp
        · rw [Function.update_of_ne huk]; exact h3 u (by omega) huA

/-! ### merging -/

section merge

variable {D1 : ℚ → Partition → Prop} {D2 : ℚ → CSet → Prop} {D3 : ℚ → Partition → Prop} {a0 : ℚ}

/-- State of the accumulator when everything up to `a` has been output. -/
def AccOk (D3 : ℚ → Partition → Prop) (a0 : ℚ) : List (Partition × Option ℚ) → ℚ → Prop
  | [], a => a = a0
  | (Q, e) :: rest, a => e = some a ∧ (∃ b, b < a ∧ (∀ l, b ≤ l → l ≤ a → D3 l Q) ∧
      ∀ tail, IChain D3 b tail → IChain D3 a0 (rest.reverse ++ tail))

theorem AccOk.cont {acc : List (Partition × Option ℚ)} {a : ℚ} (h : AccOk D3 a0 acc a) :
    ∀ tail, IChain D3 a tail → IChain D3 a0 (acc.reverse ++ tail) := by
  intro tail ht
  cases acc with
  | nil =>
    have : a = a0 := h
    subst this
    exact ht
  | cons Qe rest =>
    obtain ⟨Q, e⟩ := Qe
    obtain ⟨rfl, b, hb, hQ, hc⟩ := h
    have := hc ((Q, some a) :: tail) ⟨hb, hQ, ht⟩
    simpa using this

/-- Pushing an interval on the accumulator. -/
def pushAcc (Q' : Partition) (m : Option ℚ) (acc : List (Partition × Option ℚ)) :
    List (Partition × Option ℚ) :=
  match acc with
  | [] => [(Q', m)]
  | (Q, m') :: rest => if Q' ≠ Q then (Q', m) :: (Q, m') :: rest else (Q, m) :: rest

theorem pushAcc_some {acc : List (Partition × Option ℚ)} {a b : ℚ} (h : AccOk D3 a0 acc a) (hab : a < b)
    {Q : Partition} (hQ : ∀ l, a ≤ l → l ≤ b → D3 l Q) : AccOk D3 a0 (pushAcc Q (some b) acc) b := by
  cases acc with
  | nil =>
    refine ⟨rfl, a, hab, hQ, ?_⟩
    have : a = a0 := h
    subst this
    simp
  | cons Qe rest =>
    obtain ⟨Q0, e⟩ := Qe
    unfold pushAcc
    dsimp only
    split
    · exact ⟨rfl, a, hab, hQ, h.cont⟩
    · rename_i heq
      have heq : Q = Q0 := by simpa using heq
      subst heq
      obtain ⟨rfl, c, hc, hQ0, hcont⟩ := h
      refine ⟨rfl, c, hc.trans hab, fun l h1 h2 => ?_, hcont⟩
      rcases le_total l a with h' | h'
      · exact hQ0 l h1 h'
      · exact hQ l h' h2

theorem pushAcc_none {acc : List (Partition × Option ℚ)} {a : ℚ} (h : AccOk D3 a0 acc a)
    {Q : Partition} (hQ : ∀ l, a ≤ l → D3 l Q) : IChain D3 a0 (pushAcc Q none acc).reverse := by
  cases acc with
  | nil =>
    have : a = a0 := h
    subst this
    exact ⟨rfl, hQ⟩
  | cons Qe rest =>
    obtain ⟨Q0, e⟩ := Qe
    unfold pushAcc
    dsimp only
    split
    · have := h.cont [(Q, none)] ⟨rfl, hQ⟩
      simpa using this
    · rename_i heq
      have heq : Q = Q0 := by simpa using heq
      subst heq
      obtain ⟨rfl, c, hc, hQ0, hcont⟩ := h
      have := hcont [(Q, none)] ⟨rfl, fun l hl => by
        rcases le_total l a with h' | h'
        · exact hQ0 l hl h'
        · exact hQ l h'⟩
      simpa using this

theorem pushAcc_chain {acc : List (Partition × Option ℚ)} {Q : Partition} {m : Option ℚ}
    (h : (acc.map Prod.fst).IsChain (· ≠ ·)) : ((pushAcc Q m acc).map Prod.fst).IsChain (· ≠ ·) := by
  cases acc with
  | nil => simp [pushAcc]
  | cons Qe rest =>
    obtain ⟨Q0, e⟩ := Qe
    unfold pushAcc
    dsimp only
    split
    · rename_i hne
      simp only [List.map_cons] at h ⊢
      exact List.isChain_cons_cons.2 ⟨hne, h⟩
    · simpa using h

theorem pdtMerge_cons (k : ℕ) (p : Partition) (di : Option ℚ) (ps : List (Partition × Option ℚ))
    (s : CSet) (dk : Option ℚ) (ts : List (CSet × Option ℚ)) (acc : List (Partition × Option ℚ)) :
    pdtMerge (k + 1) ((p, di) :: ps) ((s, dk) :: ts) acc =
      pdtMerge k (if leO di dk then ps else (p, di) :: ps) (if leO dk di then ts else (s, dk) :: ts)
        (pushAcc (expand p s) (minOO di dk) acc) := by
  cases acc <;> rfl

/-- Cutting off the beginning of an interval. -/
theorem IChain.shrink {α : Type} {D : ℚ → α → Prop} {a b c : ℚ} {x : α} {r : List (α × Option ℚ)}
    (h : IChain D a ((x, some c) :: r)) (hab : a ≤ b) (hbc : b < c) : IChain D b ((x, some c) :: r) :=
  ⟨hbc, fun l h1 h2 => h.2.1 l (hab.trans h1) h2, h.2.2⟩

theorem IChain.shrink_none {α : Type} {D : ℚ → α → Prop} {a b : ℚ} {x : α} {r : List (α × Option ℚ)}
    (h : IChain D a ((x, none) :: r)) (hab : a ≤ b) : IChain D b ((x, none) :: r) :=
  ⟨h.1, fun l h1 => h.2 l (hab.trans h1)⟩

theorem pdtMerge_spec (hD : ∀ l, a0 ≤ l → ∀ p s, D1 l p → D2 l s → D3 l (expand p s)) (k : ℕ) :
    ∀ (ps : List (Partition × Option ℚ)) (ts : List (CSet × Option ℚ)) (a : ℚ)
      (acc : List (Partition × Option ℚ)), ps.length + ts.length ≤ k → a0 ≤ a → IChain D1 a ps →
      IChain D2 a ts → AccOk D3 a0 acc a → (acc.map Prod.fst).IsChain (· ≠ ·) →
      IChain D3 a0 (pdtMerge k ps ts acc) ∧ ((pdtMerge k ps ts acc).map Prod.fst).IsChain (· ≠ ·) := by
  induction k with
  | zero =>
    intro ps ts a acc hk _ h1
    cases ps with
    | nil => exact absurd h1 (by simp [IChain])
    | cons p ps => simp at hk
  | succ k ih =>
    intro ps ts a acc hk ha h1 h2 hacc hch
    cases ps with
    | nil => exact absurd h1 (by simp [IChain])
    | cons pd ps =>
    cases ts with
    | nil => exact absurd h2 (by simp [IChain])
    | cons sd ts =>
    obtain ⟨p, di⟩ := pd
    obtain ⟨s, dk⟩ := sd
    rw [pdtMerge_cons]
    simp only [List.length_cons] at hk
    have hch' : ∀ m, ((pushAcc (expand p s) m acc).map Prod.fst).IsChain (· ≠ ·) :=
      fun m => pushAcc_chain hch
    cases di with
    | none =>
      cases dk with
      | none =>
        have e1 : ps = [] := h1.1
        have e2 : ts = [] := h2.1
        subst e1; subst e2
        have hf : pdtMerge k [] [] (pushAcc (expand p s) none acc) =
            (pushAcc (expand p s) none acc).reverse := by
          cases k <;> rfl
        simp only [leO, if_true, minOO, hf]
        refine ⟨pushAcc_none hacc fun l hl => hD l (ha.trans hl) p s (h1.2 l hl) (h2.2 l hl), ?_⟩
        rw [List.map_reverse, List.isChain_reverse]
        exact (hch' none).imp fun _ _ h => h.symm
      | some b =>
        simp only [leO, if_true, minOO, Bool.false_eq_true, if_false]
        exact ih _ _ b _ (by simp only [List.length_cons]; omega) (ha.trans h2.1.le)
          (h1.shrink_none h2.1.le) h2.2.2
          (pushAcc_some hacc h2.1 fun l hl hlb => hD l (ha.trans hl) p s (h1.2 l hl) (h2.2.1 l hl hlb))
          (hch' _)
    | some c =>
      cases dk with
      | none =>
        simp only [leO, if_true, minOO, Bool.false_eq_true, if_false]
        exact ih _ _ c _ (by simp only [List.length_cons]; omega) (ha.trans h1.1.le)
          h1.2.2 (h2.shrink_none h1.1.le)
          (pushAcc_some hacc h1.1 fun l hl hlb => hD l (ha.trans hl) p s (h1.2.1 l hl hlb) (h2.2 l hl))
          (hch' _)
      | some b =>
        rcases lt_trichotomy c b with hcb | hcb | hcb
        · have e1 : leO (some c) (some b) = true := by simp [leO, hcb.le]
          have e2 : leO (some b) (some c) = false := by simp [leO, hcb]
          simp only [e1, e2, if_true, minOO, Bool.false_eq_true, if_false]
          exact ih _ _ c _ (by simp only [List.length_cons]; omega) (ha.trans h1.1.le)
            h1.2.2 (h2.shrink h1.1.le hcb)
            (pushAcc_some hacc h1.1 fun l hl hlb => hD l (ha.trans hl) p s (h1.2.1 l hl hlb)
              (h2.2.1 l hl (hlb.trans hcb.le)))
            (hch' _)
        · subst hcb
          have e1 : leO (some c) (some c) = true := by simp [leO]
          simp only [e1, if_true, minOO]
          exact ih _ _ c _ (by omega) (ha.trans h1.1.le) h1.2.2 h2.2.2
            (pushAcc_some hacc h1.1 fun l hl hlb => hD l (ha.trans hl) p s (h1.2.1 l hl hlb)
              (h2.2.1 l hl hlb))
            (hch' _)
        · have e1 : leO (some c) (some b) = false := by simp [leO, hcb]
          have e2 : leO (some b) (some c) = true := by simp [leO, hcb.le]
          simp only [e1, e2, if_true, minOO, Bool.false_eq_true, if_false]
          exact ih _ _ b _ (by simp only [List.length_cons]; omega) (ha.trans h2.1.le)
            (h1.shrink h2.1.le hcb) h2.2.2
            (pushAcc_some hacc h2.1 fun l hl hlb => hD l (ha.trans hl) p s
              (h1.2.1 l hl (hlb.trans hcb.le)) (h2.2.1 l hl hlb))
            (hch' _)

end merge

end PSP.Theory
