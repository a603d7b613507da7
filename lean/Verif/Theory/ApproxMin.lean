import Verif.Theory.PDTRun
import Verif.Theory.RoundedGreedy

/-!
# The parametric Dilworth truncation with errors

The facts of `Verif.Theory.PMFRun` and `Verif.Theory.PDTRun` for sets that are minimisers only up to an error.
-/

namespace PSP.Theory

open PSP.Spec PSP.Model

variable {E : List Arc} {j : ℕ} {y : ℕ → YPair} {X A B : Finset ℕ} {e l m : ℚ} {t : List (ℚ × Finset ℕ)}

/-- `X` is a minimiser up to `e`. -/
structure NearAt (E : List Arc) (j : ℕ) (y : ℕ → YPair) (e lam : ℚ) (X : Finset ℕ) : Prop where
  sub : X ⊆ Finset.range j
  le : ∀ Z ⊆ Finset.range j, obj E j y lam X ≤ obj E j y lam Z + e

theorem NearAt.mono (h : NearAt E j y e l X) {e' : ℚ} (he : e ≤ e') : NearAt E j y e' l X :=
  ⟨h.sub, fun Z hZ => (h.le Z hZ).trans (by linarith)⟩

theorem NearAt.nonneg (h : NearAt E j y e l X) : 0 ≤ e := by
  have := h.le X h.sub
  linarith

theorem yVal_lip {c : ℚ} (hlm : l ≤ m) (hc : m ≤ l + c) (p : YPair) : yVal l p ≤ yVal m p + c := by
  obtain ⟨a, b⟩ := p
  cases b with
  | none => simp only [yVal, minO]; linarith
  | some b =>
    simp only [yVal, minO]
    rcases min_cases (a - m) b with h | h
    · rw [h.1]; exact (min_le_left _ _).trans (by linarith)
    · rw [h.1]; exact (min_le_right _ _).trans (by linarith)

theorem vsum_lip {c : ℚ} (hlm : l ≤ m) (hc : m ≤ l + c) (hX : X ⊆ Finset.range j) :
    vsum (yAt y l) X ≤ vsum (yAt y m) X + j * c := by
  have h1 : vsum (yAt y l) X ≤ ∑ i ∈ X, (yAt y m i + c) :=
    Finset.sum_le_sum fun i _ => yVal_lip hlm hc (y i)
  rw [Finset.sum_add_distrib, Finset.sum_const, nsmul_eq_mul] at h1
  have h2 : (X.card : ℚ) ≤ j := by
    have := Finset.card_le_card hX
    rw [Finset.card_range] at this
    exact_mod_cast this
  have h3 : (X.card : ℚ) * c ≤ j * c := mul_le_mul_of_nonneg_right h2 (by linarith)
  unfold vsum at *
  linarith

/-- Moving the parameter by `c` costs at most `j c`. -/
theorem NearAt.move {c : ℚ} (h : NearAt E j y e l X) (h1 : m ≤ l + c) (h2 : l ≤ m + c) :
    NearAt E j y (e + j * c) m X := by
  refine ⟨h.sub, fun Z hZ => ?_⟩
  have h3 := h.le Z hZ
  unfold obj at *
  rcases le_total l m with hlm | hlm
  · have a1 := vsum_lip (y := y) hlm h1 h.sub
    have a2 := vsum_yAt_anti (y := y) hlm Z
    linarith
  · have a1 := vsum_lip (y := y) hlm h2 hZ
    have a2 := vsum_yAt_anti (y := y) hlm X
    linarith

theorem NearAt.between (hE : NonnegE E) {a b : ℚ} (ha : NearAt E j y e a A) (hb : NearAt E j y e b A)
    (h1 : a ≤ l) (h2 : l ≤ b) : NearAt E j y (2 * e) l A := by
  refine ⟨ha.sub, fun Z hZ => ?_⟩
  have s := obj_submodular (j := j) (y := y) hE l A Z
  have u1 := obj_mono (E := E) (j := j) (y := y) h1 (Finset.subset_union_left : A ⊆ A ∪ Z)
  have u2 := ha.le _ (Finset.union_subset ha.sub hZ)
  have i1 := obj_mono (E := E) (j := j) (y := y) h2 (Finset.inter_subset_left : A ∩ Z ⊆ A)
  have i2 := hb.le (A ∩ Z) (Finset.inter_subset_left.trans ha.sub)
  linarith

theorem NearAt.empty_of_ge {a : ℚ} (ha : NearAt E j y e a ∅) (h1 : a ≤ l) : NearAt E j y e l ∅ := by
  refine ⟨ha.sub, fun Z hZ => ?_⟩
  have u1 := obj_mono (E := E) (j := j) (y := y) h1 (Finset.empty_subset Z)
  have u2 := ha.le _ hZ
  linarith

/-- `SChain` up to an error. -/
def AChain (E : List Arc) (j : ℕ) (y : ℕ → YPair) (e : ℚ) : Finset ℕ → List (ℚ × Finset ℕ) → Prop
  | _, [] => True
  | A, (c, B) :: t => NearAt E j y e c A ∧ NearAt E j y e c B ∧ B ⊂ A ∧ AChain E j y e B t

theorem AChain.append {s : List (ℚ × Finset ℕ)} (hs : AChain E j y e A s) (ht : AChain E j y e (slast A s) t) :
    AChain E j y e A (s ++ t) := by
  induction s generalizing A with
  | nil => exact ht
  | cons cb s ih =>
    obtain ⟨c, B⟩ := cb
    exact ⟨hs.1, hs.2.1, hs.2.2.1, ih hs.2.2.2 ht⟩

theorem AChain.lt (h : AChain E j y e A t) : ∀ B ∈ t.map Prod.snd, B ⊂ A := by
  induction t generalizing A with
  | nil => simp
  | cons cb t ih =>
    obtain ⟨c, B⟩ := cb
    intro Z hZ
    rcases List.mem_cons.1 hZ with h' | h'
    · rw [h']; exact h.2.2.1
    · exact (ih h.2.2.2 Z h').trans h.2.2.1

theorem AChain.pairwise (h : AChain E j y e A t) : (A :: t.map Prod.snd).Pairwise fun P Q => Q ⊂ P := by
  induction t generalizing A with
  | nil => simp
  | cons cb t ih =>
    obtain ⟨c, B⟩ := cb
    rw [List.map_cons, List.pairwise_cons]
    exact ⟨h.lt, ih h.2.2.2⟩

theorem AChain.mem_range (h : AChain E j y e A t) : ∀ B ∈ t.map Prod.snd, B ⊆ Finset.range j := by
  induction t generalizing A with
  | nil => simp
  | cons cb t ih =>
    obtain ⟨c, B⟩ := cb
    intro Z hZ
    rcases List.mem_cons.1 hZ with h' | h'
    · rw [h']; exact h.2.1.sub
    · exact ih h.2.2.2 Z h'

theorem AChain.length_le (h : AChain E j y e A t) : t.length ≤ A.card := by
  induction t generalizing A with
  | nil => simp
  | cons cb t ih =>
    obtain ⟨c, B⟩ := cb
    have h1 := ih h.2.2.2
    have h2 := Finset.card_lt_card h.2.2.1
    simp only [List.length_cons]
    omega

/-- Moving the parameters of a chain. -/
theorem AChain.move {w : ℚ} (h : AChain E j y e A t) {s : List ℚ}
    (hs : List.Forall₂ (fun a b => a ≤ b + w ∧ b ≤ a + w) s (t.map Prod.fst)) :
    AChain E j y (e + j * w) A (s.zip (t.map Prod.snd)) := by
  induction t generalizing A s with
  | nil => cases hs; trivial
  | cons cb t ih =>
    obtain ⟨c, B⟩ := cb
    cases hs with
    | cons h1 h2 =>
      exact ⟨h.1.move h1.1 h1.2, h.2.1.move h1.1 h1.2, h.2.2.1, ih h.2.2.2 h2⟩

/-- `IChain` with intervals that may consist of one point. -/
def WChain {α : Type} (D : ℚ → α → Prop) : ℚ → List (α × Option ℚ) → Prop
  | _, [] => False
  | a, (x, none) :: r => r = [] ∧ ∀ l, a ≤ l → D l x
  | a, (x, some b) :: r => a ≤ b ∧ (∀ l, a ≤ l → l ≤ b → D l x) ∧ WChain D b r

theorem WChain.mono {α : Type} {D D' : ℚ → α → Prop} {a : ℚ} {r : List (α × Option ℚ)}
    (h : WChain D a r) (hD : ∀ l, a ≤ l → ∀ x, D l x → D' l x) : WChain D' a r := by
  induction r generalizing a with
  | nil => exact h
  | cons xb r ih =>
    obtain ⟨x, b⟩ := xb
    cases b with
    | none => exact ⟨h.1, fun l hl => hD l hl x (h.2 l hl)⟩
    | some b =>
      exact ⟨h.1, fun l hl hlb => hD l hl x (h.2.1 l hl hlb),
        ih h.2.2 fun l hl => hD l (h.1.trans hl)⟩

theorem WChain.map {α β : Type} {D : ℚ → α → Prop} {D' : ℚ → β → Prop} {f : α → β} {a : ℚ}
    {r : List (α × Option ℚ)} (h : WChain D a r) (hD : ∀ l, a ≤ l → ∀ x, D l x → D' l (f x)) :
    WChain D' a (r.map (Prod.map f id)) := by
  induction r generalizing a with
  | nil => exact h
  | cons xb r ih =>
    obtain ⟨x, b⟩ := xb
    cases b with
    | none =>
      obtain ⟨h1, h2⟩ := h
      subst h1
      exact ⟨rfl, fun l hl => hD l hl x (h2 l hl)⟩
    | some b =>
      exact ⟨h.1, fun l hl hlb => hD l hl x (h.2.1 l hl hlb),
        ih h.2.2 fun l hl => hD l (h.1.trans hl)⟩

theorem WChain.head {α : Type} {D : ℚ → α → Prop} {a : ℚ} {r : List (α × Option ℚ)} (h : WChain D a r) :
    ∃ x b r', r = (x, b) :: r' ∧ D a x := by
  cases r with
  | nil => exact absurd h (by simp [WChain])
  | cons xb r =>
    obtain ⟨x, b⟩ := xb
    cases b with
    | none => exact ⟨x, _, _, rfl, h.2 a le_rfl⟩
    | some b => exact ⟨x, _, _, rfl, h.2.1 a le_rfl h.1⟩

/-- `StepIn` up to an error. -/
structure AStepIn (E : List Arc) (j : ℕ) (y : ℕ → YPair) (e : ℚ) (A : Finset ℕ) (t : List (ℚ × Finset ℕ))
    (l : ℚ) (Z : Finset ℕ) : Prop where
  near : NearAt E j y (2 * e) l Z
  sub : Z ⊆ A
  inside : ∀ u ∈ Z, l ≤ leave t u
  outside : ∀ u ∈ A, u ∉ Z → leave t u ≤ l
  rest : ∃ t2, AChain E j y e Z t2 ∧ slast Z t2 = ∅ ∧ ∀ u ∈ Z, leave t u = leave t2 u

theorem AChain.intervals (hE : NonnegE E) {a : ℚ} (h : AChain E j y e A t) (hlast : slast A t = ∅)
    (ha : NearAt E j y e a A) (hlo : ∀ c ∈ t.map Prod.fst, a ≤ c) (hinc : (t.map Prod.fst).Pairwise (· ≤ ·)) :
    WChain (AStepIn E j y e A t) a ((A :: t.map Prod.snd).zip ((t.map Prod.fst).map some ++ [none])) := by
  have he := ha.nonneg
  induction t generalizing A a with
  | nil =>
    have hA : A = ∅ := hlast
    subst hA
    refine ⟨rfl, fun l hl => ⟨(ha.empty_of_ge hl).mono (by linarith), subset_rfl, by simp, by simp, [], trivial, rfl,
      by simp⟩⟩
  | cons cb t ih =>
    obtain ⟨c, B⟩ := cb
    have hac : a ≤ c := hlo c (by simp)
    rw [List.map_cons, List.pairwise_cons] at hinc
    have hge : ∀ u ∈ A, c ≤ leave ((c, B) :: t) u := by
      intro u hu
      have := leave_mem (t := (c, B) :: t) hlast hu
      rcases List.mem_cons.1 this with h' | h'
      · exact h'.ge
      · exact hinc.1 _ h'
    refine ⟨hac, fun l hl hlb => ⟨ha.between hE h.1 hl hlb, subset_rfl, fun u hu => hlb.trans (hge u hu),
      fun u hu hu' => absurd hu hu', _, h, hlast, fun _ _ => rfl⟩, ?_⟩
    have hrec := ih (A := B) (a := c) h.2.2.2 hlast h.2.1 hinc.1 hinc.2
    refine hrec.mono fun l hl Z hZ => ?_
    have hBA := h.2.2.1.1
    have hleave : ∀ u ∈ B, leave ((c, B) :: t) u = leave t u := fun u hu => by simp [leave, hu]
    refine ⟨hZ.near, hZ.sub.trans hBA, fun u hu => ?_, fun u hu hu' => ?_, ?_⟩
    · rw [hleave u (hZ.sub hu)]; exact hZ.inside u hu
    · by_cases hB : u ∈ B
      · rw [hleave u hB]; exact hZ.outside u hB hu'
      · have : leave ((c, B) :: t) u = c := by simp [leave, hB]
        rw [this]; exact hl
    · obtain ⟨t2, h1, h2, h3⟩ := hZ.rest
      exact ⟨t2, h1, h2, fun u hu => by rw [hleave u (hZ.sub hu)]; exact h3 u hu⟩

/-! ### the sums along the chain -/

theorem NearAt.outer_le (hE : NonnegE E) {Z : Finset ℕ} (hZ : NearAt E j y e l Z) (hX : X ⊆ Finset.range j) :
    vsum (yAt y l) (X \ Z) ≤ getCutValue E (insert j X) - getCutValue E (insert j (X ∩ Z)) + e := by
  have h1 := hZ.le (X ∪ Z) (Finset.union_subset hX hZ.sub)
  have h2 := cutValue_submodular hE (insert j X) (insert j Z)
  rw [← Finset.insert_union_distrib, ← Finset.insert_inter_distrib] at h2
  unfold obj at h1
  have h3 : vsum (yAt y l) (X ∪ Z) = vsum (yAt y l) (X \ Z) + vsum (yAt y l) Z := by
    have := vsum_sdiff (yAt y l) (B := Z) (A := X ∪ Z) Finset.subset_union_right
    rwa [Finset.union_sdiff_right] at this
  linarith

theorem AChain.yLeave_le (hE : NonnegE E) (h : AChain E j y e A t) (hlast : slast A t = ∅) :
    ∀ X ⊆ A, X ⊆ Finset.range j →
      vsum (yLeave y t) X ≤ getCutValue E (insert j X) - getCutValue E {j} + t.length * e := by
  induction t generalizing A with
  | nil =>
    intro X hX _
    have hA : A = ∅ := hlast
    subst hA
    rw [Finset.subset_empty.1 hX]
    simp [vsum]
  | cons cb t ih =>
    obtain ⟨c, B⟩ := cb
    intro X hX hXj
    rw [vsum_split _ X B]
    have h1 : vsum (yLeave y ((c, B) :: t)) (X \ B) = vsum (yAt y c) (X \ B) := by
      apply vsum_congr
      intro u hu
      have := (Finset.mem_sdiff.1 hu).2
      simp [yLeave, leave, this, yAt]
    have h2 : vsum (yLeave y ((c, B) :: t)) (X ∩ B) = vsum (yLeave y t) (X ∩ B) := by
      apply vsum_congr
      intro u hu
      have := (Finset.mem_inter.1 hu).2
      simp [yLeave, leave, this]
    rw [h1, h2]
    have h3 := h.2.1.outer_le hE hXj
    have h4 := ih h.2.2.2 hlast (X ∩ B) Finset.inter_subset_right (Finset.inter_subset_left.trans hXj)
    simp only [List.length_cons]
    push_cast
    linarith

theorem AChain.yLeave_ge (h : AChain E j y e A t) (hlast : slast A t = ∅) :
    getCutValue E (insert j A) - getCutValue E {j} ≤ vsum (yLeave y t) A + t.length * e := by
  induction t generalizing A with
  | nil =>
    have hA : A = ∅ := hlast
    subst hA
    simp [vsum]
  | cons cb t ih =>
    obtain ⟨c, B⟩ := cb
    have hBA := h.2.2.1.1
    rw [vsum_sdiff _ hBA]
    have h1 : vsum (yLeave y ((c, B) :: t)) (A \ B) = vsum (yAt y c) (A \ B) := by
      apply vsum_congr
      intro u hu
      have := (Finset.mem_sdiff.1 hu).2
      simp [yLeave, leave, this, yAt]
    have h2 : vsum (yLeave y ((c, B) :: t)) B = vsum (yLeave y t) B := by
      apply vsum_congr
      intro u hu
      simp [yLeave, leave, hu]
    rw [h1, h2]
    have h4 := ih h.2.2.2 hlast
    have h3 := h.1.le B h.2.1.sub
    unfold obj at h3
    rw [vsum_sdiff (yAt y c) hBA] at h3
    simp only [List.length_cons]
    push_cast
    linarith

/-! ### one step of the truncation -/

/-- `DInv.pstep` up to errors. -/
theorem AInv.pstep {f : Finset ℕ → ℚ} {lam e e' ρ : ℚ} {U : Finset ℕ} {x x' : ℕ → ℚ}
    {P : Finset (Finset ℕ)} (hf : Submodular f) (h : AInv f lam e U x P) {v : ℕ} (hv : v ∉ U)
    (hX : X ⊆ U) (hρ : 0 ≤ ρ) (he : 0 ≤ e) (hee : e + ρ ≤ e') (hout : ∀ i ∈ U, i ∉ X → x i ≤ x' i + ρ)
    (hT : f (insert v X) - lam ≤ vsum x' (insert v X) + e')
    (hpoly : ∀ S ⊆ insert v U, S.Nonempty → vsum x' S ≤ f S - lam + e') :
    AInv f lam e' (insert v U) x' (expand P (insert v X)) := by
  have hU : ∀ B ∈ P, B ⊆ U := fun B hB => h.part.subset hB
  have hTW : insert v X ⊆ insert v U := Finset.insert_subset_insert v hX
  have hsum : ∀ S ⊆ U, Disjoint S X → vsum x S ≤ vsum x' S + S.card * ρ := by
    intro S hS hd
    have h1 : vsum x S ≤ ∑ i ∈ S, (x' i + ρ) :=
      Finset.sum_le_sum fun i hi => hout i (hS hi) (Finset.disjoint_left.1 hd hi)
    rw [Finset.sum_add_distrib, Finset.sum_const, nsmul_eq_mul] at h1
    exact h1
  refine ⟨?_, hpoly, ?_⟩
  · have := expand_isPartition h.part (T := insert v X) ⟨v, Finset.mem_insert_self _ _⟩
    have e : U ∪ insert v X = insert v U := by
      ext w
      simp only [Finset.mem_union, Finset.mem_insert]
      constructor
      · rintro (h | h | h)
        · exact Or.inr h
        · exact Or.inl h
        · exact Or.inr (hX h)
      · rintro (h | h)
        · exact Or.inr (Or.inl h)
        · exact Or.inl h
    rwa [e] at this
  · intro C hC
    rcases mem_expand.1 hC with rfl | ⟨hC, hd⟩
    · -- the merged block
      have key : ∀ F : Finset (Finset ℕ), F ⊆ P.filter (fun B => ¬ Disjoint B (insert v X)) →
          f (insert v X ∪ F.sup id) - lam ≤ vsum x' (insert v X ∪ F.sup id) + e' + 2 * (F.sup id).card * e' ∧
          insert v X ∪ F.sup id ⊆ insert v U ∧ F.sup id ⊆ U := by
        intro F
        induction F using Finset.induction_on with
        | empty =>
          intro _
          simp only [Finset.sup_empty, Finset.bot_eq_empty, Finset.union_empty]
          exact ⟨by simpa using hT, hTW, by simp⟩
        | insert B F hBF ih =>
          intro hsub
          obtain ⟨iht, ihW, ihU⟩ := ih ((Finset.subset_insert _ _).trans hsub)
          obtain ⟨hB, hd⟩ := Finset.mem_filter.1 (hsub (Finset.mem_insert_self _ _))
          have heq : insert v X ∪ (insert B F).sup id = (insert v X ∪ F.sup id) ∪ B := by
            rw [Finset.sup_insert]
            ext w
            simp only [id, Finset.mem_union, Finset.sup_eq_union]
            tauto
          have hdis : Disjoint B (F.sup id) := by
            rw [Finset.disjoint_left]
            intro v hv hvF
            obtain ⟨C, hC, hvC⟩ := Finset.mem_sup.1 hvF
            have hCP := (Finset.mem_filter.1 (hsub (Finset.mem_insert_of_mem hC))).1
            have : B = C := h.part.eq_of_mem hB hCP hv hvC
            exact hBF (this ▸ hC)
          have hcard : ((insert B F).sup id).card = B.card + (F.sup id).card := by
            rw [Finset.sup_insert]
            exact Finset.card_union_of_disjoint hdis
          have hBU := hU B hB
          have hvB : v ∉ B := fun h' => hv (hBU h')
          refine ⟨?_, by rw [heq]; exact Finset.union_subset ihW (hBU.trans (Finset.subset_insert _ _)), by
            rw [Finset.sup_insert]; exact Finset.union_subset hBU ihU⟩
          rw [heq, hcard]
          set T' := insert v X ∪ F.sup id with hT'
          -- `B` meets `T'` only inside `X`
          have hint : T' ∩ B = X ∩ B := by
            ext w
            simp only [hT', Finset.mem_inter, Finset.mem_union, Finset.mem_insert]
            constructor
            · rintro ⟨(h1 | h1) | h1, h2⟩
              · exact absurd (h1 ▸ h2) hvB
              · exact ⟨h1, h2⟩
              · exact absurd h1 (Finset.disjoint_left.1 hdis h2)
            · rintro ⟨h1, h2⟩
              exact ⟨Or.inl (Or.inr h1), h2⟩
          have hne : (X ∩ B).Nonempty := by
            obtain ⟨w, hw1, hw2⟩ := Finset.not_disjoint_iff.1 hd
            rcases Finset.mem_insert.1 hw2 with h' | h'
            · exact absurd (h' ▸ hw1) hvB
            · exact ⟨w, Finset.mem_inter.2 ⟨h', hw1⟩⟩
          have hsm := hf T' B (by rw [hint]; exact hne)
          rw [hint] at hsm
          have hxB := h.tight B hB
          have hxXB := h.poly (X ∩ B) (Finset.inter_subset_right.trans hBU) hne
          have hsplit : vsum x' (T' ∪ B) = vsum x' T' + vsum x' (B \ T') := by
            have := vsum_sdiff x' (B := T') (A := T' ∪ B) Finset.subset_union_left
            rw [Finset.union_sdiff_left] at this
            linarith
          have hBT : B \ T' = B \ (X ∩ B) := by
            rw [← hint, Finset.inter_comm, Finset.sdiff_inter_self_left]
          have h1 := vsum_sdiff x (B := X ∩ B) (A := B) Finset.inter_subset_right
          have h2 := hsum (B \ (X ∩ B)) (Finset.sdiff_subset.trans hBU) (by
            rw [Finset.disjoint_left]
            intro i hi hi'
            have hi := Finset.mem_sdiff.1 hi
            exact hi.2 (Finset.mem_inter.2 ⟨hi', hi.1⟩))
          rw [← hBT] at h1 h2
          have h3 : ((B \ T').card : ℚ) ≤ B.card := by exact_mod_cast Finset.card_le_card Finset.sdiff_subset
          have h4 : ((B \ T').card : ℚ) * ρ ≤ B.card * ρ := mul_le_mul_of_nonneg_right h3 hρ
          have h5 : (0 : ℚ) ≤ B.card := by positivity
          have h6 : (B.card : ℚ) * (2 * e + ρ) ≤ B.card * (2 * e') := mul_le_mul_of_nonneg_left (by linarith) h5
          rw [hsplit]
          push_cast
          linarith
      obtain ⟨k1, _, k3⟩ := key _ subset_rfl
      have hbb : bigBlock P (insert v X) =
          insert v X ∪ (P.filter fun B => ¬ Disjoint B (insert v X)).sup id := rfl
      rw [hbb]
      set G := (P.filter fun B => ¬ Disjoint B (insert v X)).sup id
      have hTG : insert v X ∪ G = insert v G := by
        ext w
        simp only [Finset.mem_union, Finset.mem_insert]
        constructor
        · rintro ((hw | hw) | hw)
          · exact Or.inl hw
          · right
            obtain ⟨B, ⟨hB, hvB⟩, _⟩ := h.part.2 w (hX hw)
            exact Finset.mem_sup.2 ⟨B, Finset.mem_filter.2 ⟨hB, Finset.not_disjoint_iff.2
              ⟨w, hvB, Finset.mem_insert_of_mem hw⟩⟩, hvB⟩
          · exact Or.inr hw
        · rintro (rfl | hw)
          · exact Or.inl (Or.inl rfl)
          · exact Or.inr hw
      have hc : (insert v X ∪ G).card = G.card + 1 := by
        rw [hTG, Finset.card_insert_of_notMem fun h => hv (k3 h)]
      rw [hc]
      push_cast
      linarith
    · -- an untouched block
      have h1 := h.tight C hC
      have h2 := hsum C (hU C hC) (by
        rw [Finset.disjoint_left]
        intro i hi hi'
        exact Finset.disjoint_left.1 hd hi (Finset.mem_insert_of_mem hi'))
      have h3 : (1 : ℚ) ≤ C.card := by exact_mod_cast (h.part.nonempty hC).card_pos
      have h4 : (2 * (C.card : ℚ) - 1) * (e + ρ) ≤ (2 * C.card - 1) * e' :=
        mul_le_mul_of_nonneg_left hee (by linarith)
      have h5 : (C.card : ℚ) * ρ ≤ (2 * C.card - 1) * ρ := mul_le_mul_of_nonneg_right (by linarith) hρ
      linarith

/-- The new `_y_lambda` up to errors. -/
structure AUpdated (E : List Arc) (j : ℕ) (ρ κ : ℚ) (y y' : ℕ → YPair) (X0 : Finset ℕ)
    (t : List (ℚ × Finset ℕ)) : Prop where
  inside : ∀ u ∈ X0, ∀ l, |yAt y' l u - yVal (max l (leave t u)) (y u)| ≤ ρ
  outside : ∀ u < j, u ∉ X0 → y' u = y u
  new : ∃ c, y' j = (c, none) ∧ |c - getCutValue E {j}| ≤ κ

theorem vsum_le_add {x x' : ℕ → ℚ} {ρ : ℚ} {S : Finset ℕ} (hS : S ⊆ Finset.range j) (hρ : 0 ≤ ρ)
    (h : ∀ i ∈ S, x i ≤ x' i + ρ) : vsum x S ≤ vsum x' S + j * ρ := by
  have h1 : vsum x S ≤ ∑ i ∈ S, (x' i + ρ) := Finset.sum_le_sum h
  rw [Finset.sum_add_distrib, Finset.sum_const, nsmul_eq_mul] at h1
  have h2 : (S.card : ℚ) ≤ j := by
    have := Finset.card_le_card hS
    rw [Finset.card_range] at this
    exact_mod_cast this
  have h3 : (S.card : ℚ) * ρ ≤ j * ρ := mul_le_mul_of_nonneg_right h2 hρ
  unfold vsum at *
  linarith

/-- The invariant is preserved at every parameter; the errors of the old partition and of the new chain do not add up. -/
theorem AInv.parametric (hE : NonnegE E) {y' : ℕ → YPair} {X0 Z : Finset ℕ} {ρ κ eo e' : ℚ} (hρ : 0 ≤ ρ) (heo : 0 ≤ eo)
    (hj : 0 < j) (hu : AUpdated E j ρ κ y y' X0 t) (hZ : AStepIn E j y e X0 t l Z)
    {P : Partition} (h : AInv (getCutValue E) l eo (Finset.range j) (yAt y l) P)
    (h1 : eo + j * ρ ≤ e') (h2 : (j + 2) * e + j * ρ + κ ≤ e') :
    AInv (getCutValue E) l e' (Finset.range (j + 1)) (yAt y' l) (expand P (insert j Z)) := by
  have hjU : j ∉ Finset.range j := by simp
  obtain ⟨c, hyj, hcj⟩ := hu.new
  have hnew : yAt y' l j = c - l := by
    unfold yAt; rw [hyj]; rfl
  have hκ := abs_le.1 hcj
  have he : 0 ≤ e := by have := hZ.near.nonneg; linarith
  obtain ⟨t2, hc2, hl2, he2⟩ := hZ.rest
  have hZj := hZ.near.sub
  have hjZ : j ∉ Z := fun h' => hjU (hZj h')
  have hlen : (t2.length : ℚ) * e ≤ j * e := by
    apply mul_le_mul_of_nonneg_right _ he
    have := hc2.length_le.trans (Finset.card_le_card hZj)
    rw [Finset.card_range] at this
    exact_mod_cast this
  have hin : ∀ u ∈ Z, |yAt y' l u - yLeave y t2 u| ≤ ρ := by
    intro u hu'
    have := hu.inside u (hZ.sub hu') l
    rw [max_eq_right (hZ.inside u hu'), he2 u hu'] at this
    exact this
  have hout : ∀ u ∈ Finset.range j, u ∉ Z → |yAt y' l u - yAt y l u| ≤ ρ := by
    intro u hu1 hu2
    by_cases h0 : u ∈ X0
    · have := hu.inside u h0 l
      rwa [max_eq_left (hZ.outside u h0 hu2)] at this
    · unfold yAt; rw [hu.outside u (Finset.mem_range.1 hu1) h0]; simpa using hρ
  have hle : ∀ u ∈ Finset.range j, yAt y' l u ≤ yAt y l u + ρ := by
    intro u hu1
    by_cases h0 : u ∈ X0
    · have h3 := abs_le.1 (hu.inside u h0 l)
      have h4 := yVal_anti (le_max_left l (leave t u)) (y u)
      unfold yAt at *
      linarith
    · unfold yAt; rw [hu.outside u (Finset.mem_range.1 hu1) h0]; linarith
  have hjq : (1 : ℚ) ≤ j := by exact_mod_cast hj
  have hjρ : ρ ≤ j * ρ := by nlinarith
  rw [Finset.range_add_one]
  refine h.pstep (ρ := ρ) (cut_submodular hE) hjU hZj hρ heo (by linarith) ?_ ?_ ?_
  · intro i hi hi'
    have := abs_le.1 (hout i hi hi')
    linarith
  · rw [vsum_insert _ hjZ, hnew]
    have a1 := hc2.yLeave_ge hl2
    have a2 := vsum_le_add (x := yLeave y t2) (x' := yAt y' l) hZj hρ (fun i hi => by
      have := abs_le.1 (hin i hi); linarith)
    linarith
  · intro S hS hne
    by_cases hjS : j ∈ S
    · set Y := S.erase j with hY
      have hSY : S = insert j Y := (Finset.insert_erase hjS).symm
      have hjY : j ∉ Y := Finset.notMem_erase j S
      have hYj : Y ⊆ Finset.range j := by
        intro w hw
        have hw := Finset.mem_erase.1 hw
        exact (Finset.mem_insert.1 (hS hw.2)).resolve_left hw.1
      rw [hSY, vsum_insert _ hjY, hnew]
      have a0 : vsum (yAt y' l) Y ≤ vsum (fun u => if u ∈ Z then yLeave y t2 u else yAt y l u) Y + j * ρ := by
        refine vsum_le_add hYj hρ fun u hu' => ?_
        split
        · rename_i hu2
          have := abs_le.1 (hin u hu2); linarith
        · rename_i hu2
          have := abs_le.1 (hout u (hYj hu') hu2); linarith
      rw [vsum_split (fun u => if u ∈ Z then yLeave y t2 u else yAt y l u) Y Z] at a0
      have a1 : vsum (fun u => if u ∈ Z then yLeave y t2 u else yAt y l u) (Y \ Z) = vsum (yAt y l) (Y \ Z) := by
        apply vsum_congr
        intro u hu'
        exact if_neg (Finset.mem_sdiff.1 hu').2
      have a2 : vsum (fun u => if u ∈ Z then yLeave y t2 u else yAt y l u) (Y ∩ Z) = vsum (yLeave y t2) (Y ∩ Z) := by
        apply vsum_congr
        intro u hu'
        exact if_pos (Finset.mem_inter.1 hu').2
      rw [a1, a2] at a0
      have a3 := hZ.near.outer_le hE hYj
      have a4 := hc2.yLeave_le hE hl2 (Y ∩ Z) Finset.inter_subset_right
        (Finset.inter_subset_left.trans hYj)
      linarith
    · have hSj : S ⊆ Finset.range j := fun w hw =>
        (Finset.mem_insert.1 (hS hw)).resolve_left fun h' => hjS (h' ▸ hw)
      have a1 := vsum_le_add (x := yAt y' l) (x' := yAt y l) hSj hρ fun i hi => hle i (hSj hi)
      have a2 := h.poly S hSj hne
      linarith

end PSP.Theory
