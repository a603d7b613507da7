import Verif.Model.HC
import Mathlib.Tactic

/-!
# The forest of `HC`: invariant, roots, connectivity
-/

namespace PSP.Theory

open PSP.Spec PSP.Model Relation

/-- Edges of the forest above the threshold. -/
def FEdge (h : HC) (gam : WithBot ℚ) (x y : ℕ) : Prop := h.parent x = y ∧ gam < h.weight x

/-- Connected by edges of the forest above the threshold. -/
def FJ (h : HC) (gam : WithBot ℚ) : ℕ → ℕ → Prop := EqvGen (FEdge h gam)

/-- The shape of the forest. -/
structure Forest (h : HC) : Prop where
  lt : ∀ i, i < h.n → h.parent i < h.n
  rank : ∀ i, i < h.n → h.parent i ≠ i → h.rank i < h.rank (h.parent i)
  bot : ∀ i, h.weight i = ⊥ ↔ h.parent i = i
  out : ∀ i, h.n ≤ i → h.parent i = i
  kids : ∀ i j, i ∈ h.children j ↔ h.parent i = j ∧ i ≠ j
  nodup : ∀ j, (h.children j).Nodup
  mono : ∀ i, h.parent i ≠ i → h.weight (h.parent i) ≤ h.weight i
  order : ∀ j, ((h.children j).map h.weight).Pairwise (· ≥ ·)

theorem Forest.new (n : ℕ) : Forest (HC.new n) where
  lt i hi := hi
  rank i _ hp := absurd rfl hp
  bot i := by simp [HC.new]
  out i _ := rfl
  kids i j := by simp [HC.new]
  nodup j := by simp [HC.new]
  mono i hp := absurd rfl hp
  order j := by simp [HC.new]

section
variable {h : HC} (hf : Forest h)
include hf

theorem Forest.pos_iff (i : ℕ) : (⊥ : WithBot ℚ) < h.weight i ↔ h.parent i ≠ i := by
  rw [bot_lt_iff_ne_bot, Ne, hf.bot]

theorem Forest.ne_of_lt {gam : WithBot ℚ} {i : ℕ} (hw : gam < h.weight i) : h.parent i ≠ i :=
  (hf.pos_iff i).1 (lt_of_le_of_lt bot_le hw)

/-- Number of nodes of greater rank. -/
def above (h : HC) (i : ℕ) : ℕ := ((Finset.range h.n).filter fun v => h.rank i < h.rank v).card

theorem above_parent {i : ℕ} (hi : i < h.n) (hp : h.parent i ≠ i) :
    above h (h.parent i) < above h i := by
  refine Finset.card_lt_card ⟨fun v hv => ?_, fun hs => ?_⟩
  · simp only [Finset.mem_filter] at hv ⊢
    exact ⟨hv.1, (hf.rank i hi hp).trans hv.2⟩
  · have : h.parent i ∈ (Finset.range h.n).filter fun v => h.rank i < h.rank v := by
      simp [hf.lt i hi, hf.rank i hi hp]
    have := hs this
    simp at this

omit hf in
theorem above_lt {i : ℕ} (hi : i < h.n) : above h i < h.n := by
  have : ((Finset.range h.n).filter fun v => h.rank i < h.rank v) ⊂ Finset.range h.n := by
    refine ⟨Finset.filter_subset _ _, fun hs => ?_⟩
    have := hs (Finset.mem_range.2 hi)
    simp at this
  simpa [above] using Finset.card_lt_card this

omit hf in
/-- The topmost node reachable upwards above the threshold. -/
inductive Top (h : HC) (gam : WithBot ℚ) : ℕ → ℕ → Prop
  | stop {i : ℕ} : ¬ gam < h.weight i → Top h gam i i
  | up {i t : ℕ} : gam < h.weight i → Top h gam (h.parent i) t → Top h gam i t

omit hf in
theorem Top.unique {gam : WithBot ℚ} {i t t' : ℕ} (h1 : Top h gam i t) (h2 : Top h gam i t') :
    t = t' := by
  induction h1 with
  | stop hn => cases h2 with
    | stop => rfl
    | up hy _ => exact absurd hy hn
  | up hy _ ih => cases h2 with
    | stop hn => exact absurd hy hn
    | up _ h2 => exact ih h2

omit hf in
theorem Top.end {gam : WithBot ℚ} {i t : ℕ} (h1 : Top h gam i t) : ¬ gam < h.weight t := by
  induction h1 with
  | stop hn => exact hn
  | up _ _ ih => exact ih

omit hf in
theorem Top.fj {gam : WithBot ℚ} {i t : ℕ} (h1 : Top h gam i t) : FJ h gam i t := by
  induction h1 with
  | stop _ => exact EqvGen.refl _
  | up hy _ ih => exact EqvGen.trans _ _ _ (EqvGen.rel _ _ ⟨rfl, hy⟩) ih

theorem Top.lt {gam : WithBot ℚ} {i t : ℕ} (h1 : Top h gam i t) (hi : i < h.n) : t < h.n := by
  induction h1 with
  | stop _ => exact hi
  | up _ _ ih => exact ih (hf.lt _ hi)

theorem Top.exists (gam : WithBot ℚ) (i : ℕ) : ∃ t, Top h gam i t := by
  by_cases hi : h.n ≤ i
  · refine ⟨i, .stop ?_⟩
    rw [(hf.bot i).2 (hf.out i hi)]; exact not_lt_bot
  · push Not at hi
    induction hk : above h i using Nat.strong_induction_on generalizing i with
    | _ k ih =>
      by_cases hw : gam < h.weight i
      · obtain ⟨t, ht⟩ := ih _ (hk ▸ above_parent hf hi (hf.ne_of_lt hw)) _ (hf.lt i hi) rfl
        exact ⟨t, .up hw ht⟩
      · exact ⟨i, .stop hw⟩

/-- Two nodes are connected above the threshold iff they have the same top. -/
theorem fj_iff {gam : WithBot ℚ} {i j : ℕ} :
    FJ h gam i j ↔ ∃ t, Top h gam i t ∧ Top h gam j t := by
  constructor
  · intro hfj
    induction hfj with
    | rel x y hxy =>
      obtain ⟨rfl, hw⟩ := hxy
      obtain ⟨t, ht⟩ := Top.exists hf gam (h.parent x)
      exact ⟨t, .up hw ht, ht⟩
    | refl x => obtain ⟨t, ht⟩ := Top.exists hf gam x; exact ⟨t, ht, ht⟩
    | symm x y _ ih => obtain ⟨t, h1, h2⟩ := ih; exact ⟨t, h2, h1⟩
    | trans x y z _ _ ih1 ih2 =>
      obtain ⟨t, h1, h2⟩ := ih1
      obtain ⟨t', h3, h4⟩ := ih2
      exact ⟨t, h1, (h2.unique h3) ▸ h4⟩
  · rintro ⟨t, h1, h2⟩
    exact EqvGen.trans _ _ _ h1.fj (EqvGen.symm _ _ h2.fj)

theorem findAux_spec {i r : ℕ} (ht : Top h ⊥ i r) (hi : i < h.n) :
    ∀ f, above h i < f → h.findAux f i = .ok r := by
  induction ht with
  | @stop i hn =>
    intro f hfuel
    obtain ⟨f, rfl⟩ : ∃ g, f = g + 1 := ⟨f - 1, by omega⟩
    have hp : h.parent i = i := by by_contra hp; exact hn ((hf.pos_iff _).2 hp)
    rw [HC.findAux, if_neg (by omega), if_pos hp]
  | @up i t hy _ ih =>
    intro f hfuel
    obtain ⟨f, rfl⟩ : ∃ g, f = g + 1 := ⟨f - 1, by omega⟩
    have hp := hf.ne_of_lt hy
    rw [HC.findAux, if_neg (by omega), if_neg hp]
    have := above_parent hf hi hp
    exact ih (hf.lt _ hi) f (by omega)

theorem find_spec {i r : ℕ} (ht : Top h ⊥ i r) (hi : i < h.n) : h.find i = .ok r :=
  findAux_spec hf ht hi _ (by have := above_lt (h := h) hi; omega)

end

/-! ### Adding an edge -/

theorem eqvGen_imp {R S : ℕ → ℕ → Prop} (hh : ∀ x y, R x y → EqvGen S x y) (x y : ℕ)
    (hxy : EqvGen R x y) : EqvGen S x y := by
  induction hxy with
  | rel _ _ hr => exact hh _ _ hr
  | refl => exact EqvGen.refl _
  | symm _ _ _ ih => exact EqvGen.symm _ _ ih
  | trans _ _ _ _ _ i1 i2 => exact EqvGen.trans _ _ _ i1 i2

theorem eqvGen_congr {R S : ℕ → ℕ → Prop} (h1 : ∀ x y, R x y → EqvGen S x y)
    (h2 : ∀ x y, S x y → EqvGen R x y) (x y : ℕ) : EqvGen R x y ↔ EqvGen S x y :=
  ⟨eqvGen_imp h1 x y, eqvGen_imp h2 x y⟩

/-- What holds of the object after the accepted merges `A`. -/
structure HCInv (h : HC) (A : List Link) : Prop where
  forest : Forest h
  sorted : h.gamma.Pairwise (· > ·)
  mem : ∀ g, g ∈ h.gamma ↔ ∃ a ∈ A, a.val = g
  weights : ∀ i, h.parent i ≠ i → ∀ g ∈ h.gamma.getLast?, (g : WithBot ℚ) ≤ h.weight i
  values : ∀ i, h.parent i ≠ i → ∃ g ∈ h.gamma, h.weight i = (g : WithBot ℚ)
  used : ∀ g ∈ h.gamma, ∃ i, i < h.n ∧ h.parent i ≠ i ∧ h.weight i = (g : WithBot ℚ)
  last : ∀ g ∈ h.gamma.getLast?, ∀ a ∈ A, g ≤ a.val
  range : InRange h.n A
  fj : ∀ gam i j, FJ h gam i j ↔ Joined A gam i j

theorem HCInv.new (n : ℕ) : HCInv (HC.new n) [] where
  forest := Forest.new n
  sorted := by simp [HC.new]
  mem g := by simp [HC.new]
  weights i hp := absurd rfl hp
  values i hp := absurd rfl hp
  used := by simp [HC.new]
  last := by simp [HC.new]
  range := by simp [InRange]
  fj gam i j := by
    refine eqvGen_congr ?_ ?_ i j
    · rintro x y ⟨-, hw⟩; exact absurd hw not_lt_bot
    · rintro x y ⟨a, ha, -⟩; simp at ha

/-- Attaching root `a` below root `b` keeps the shape. -/
theorem Forest.attach {h : HC} (hf : Forest h) {a b : ℕ} {g : ℚ} {rk : ℕ → ℕ} {gm : List ℚ}
    (ha : h.parent a = a) (hb : h.parent b = b) (hab : a ≠ b) (han : a < h.n) (hbn : b < h.n)
    (hw : ∀ i, h.parent i ≠ i → (g : WithBot ℚ) ≤ h.weight i)
    (hrk : ∀ i, i ≠ b → rk i = h.rank i) (hrb : h.rank b ≤ rk b) (hr : h.rank a < rk b) :
    Forest { h.attach a b g with rank := rk, gamma := gm } where
  lt i hi := by
    simp only [HC.attach, Function.update_apply] at *
    split_ifs with hia
    · exact hbn
    · exact hf.lt i hi
  rank i hi hp := by
    simp only [HC.attach, Function.update_apply] at *
    split_ifs at * with hia
    · rw [hrk i (by rw [hia]; exact hab), hia]; exact hr
    · have h1 := hf.rank i hi hp
      have hib : i ≠ b := by rintro rfl; exact hp hb
      rw [hrk i hib]
      by_cases hpb : h.parent i = b
      · rw [hpb] at h1 ⊢; omega
      · rw [hrk _ hpb]; exact h1
  bot i := by
    simp only [HC.attach, Function.update_apply]
    split_ifs with hia
    · simp only [WithBot.coe_ne_bot, false_iff]; rw [hia]; exact fun h => hab h.symm
    · exact hf.bot i
  out i hi := by
    simp only [HC.attach, Function.update_apply] at *
    rw [if_neg (by omega)]; exact hf.out i hi
  kids i j := by
    simp only [HC.attach, Function.update_apply]
    by_cases hjb : j = b
    · subst hjb
      rw [if_pos rfl, List.mem_append, List.mem_singleton, hf.kids]
      by_cases hia : i = a
      · subst hia; simp [hab]
      · simp [hia]
    · rw [if_neg hjb, hf.kids]
      by_cases hia : i = a
      · subst hia
        rw [if_pos rfl, ha]
        constructor
        · rintro ⟨h1, h2⟩; exact absurd h1 h2
        · rintro ⟨h1, -⟩; exact absurd h1.symm hjb
      · rw [if_neg hia]
  nodup j := by
    simp only [HC.attach, Function.update_apply]
    split_ifs with hjb
    · rw [List.nodup_append]
      refine ⟨hf.nodup b, by simp, ?_⟩
      intro x hx y hy
      rw [List.mem_singleton] at hy
      rintro rfl
      subst hy
      have := ((hf.kids _ _).1 hx).1
      rw [ha] at this; exact hab this
    · exact hf.nodup j
  mono i hp := by
    simp only [HC.attach, Function.update_apply] at *
    split_ifs at * with hia hba hpa
    · exact absurd hba.symm hab
    · rw [(hf.bot b).2 hb]; exact bot_le
    · exact hw i hp
    · exact hf.mono i hp
  order j := by
    simp only [HC.attach, Function.update_apply]
    have hcongr : ∀ j, (h.children j).map (Function.update h.weight a (g : WithBot ℚ)) =
        (h.children j).map h.weight := by
      intro j
      refine List.map_congr_left fun x hx => ?_
      rw [Function.update_of_ne]
      rintro rfl
      obtain ⟨h1, h2⟩ := (hf.kids _ _).1 hx
      rw [ha] at h1; exact h2 h1
    split_ifs with hjb
    · rw [List.map_append, hcongr, List.pairwise_append]
      refine ⟨hf.order b, by simp, ?_⟩
      intro x hx y hy
      obtain ⟨c, hc, rfl⟩ := List.mem_map.1 hx
      simp only [List.map_cons, Function.update_self, List.map_nil, List.mem_singleton] at hy
      subst hy
      obtain ⟨h1, h2⟩ := (hf.kids _ _).1 hc
      exact hw c (by rw [h1]; exact fun h => h2 h.symm)
    · rw [hcongr]; exact hf.order j

/-- Attaching root `a` below root `b` joins what `i` and `j` join, if `a`, `b` are their roots. -/
theorem fj_attach {h : HC} (hf : Forest h) {A : List Link} {i j a b : ℕ} {g : ℚ} {rk : ℕ → ℕ}
    {gm : List ℚ} (hfj : ∀ gam x y, FJ h gam x y ↔ Joined A gam x y)
    (hw : ∀ i, h.parent i ≠ i → (g : WithBot ℚ) ≤ h.weight i)
    (hi : Top h ⊥ i a ∧ Top h ⊥ j b ∨ Top h ⊥ i b ∧ Top h ⊥ j a) (ha : h.parent a = a)
    (gam : WithBot ℚ) (x y : ℕ) :
    FJ { h.attach a b g with rank := rk, gamma := gm } gam x y ↔
      Joined (A ++ [⟨i, j, g⟩]) gam x y := by
  have hmono : ∀ x y, Joined A gam x y → Joined (A ++ [⟨i, j, g⟩]) gam x y := by
    intro x y hxy
    refine eqvGen_imp ?_ _ _ hxy
    rintro x y ⟨l, hl, hh⟩
    exact EqvGen.rel _ _ ⟨l, List.mem_append_left _ hl, hh⟩
  have hmono' : ∀ x y, FJ h gam x y →
      FJ { h.attach a b g with rank := rk, gamma := gm } gam x y := by
    intro x y hxy
    refine eqvGen_imp ?_ _ _ hxy
    rintro x y ⟨h1, h2⟩
    have hxa : x ≠ a := by rintro rfl; exact hf.ne_of_lt h2 ha
    refine EqvGen.rel _ _ ⟨?_, ?_⟩
    · simp [HC.attach, Function.update_of_ne hxa, h1]
    · simpa [HC.attach, Function.update_of_ne hxa] using h2
  have htop : ∀ {x r}, gam < (g : WithBot ℚ) → Top h ⊥ x r → FJ h gam x r := by
    intro x r hg ht
    induction ht with
    | stop => exact EqvGen.refl _
    | up hy _ ih =>
      refine EqvGen.trans _ _ _ (EqvGen.rel _ _ ⟨rfl, ?_⟩) ih
      exact lt_of_lt_of_le hg (hw _ (hf.ne_of_lt hy))
  refine eqvGen_congr ?_ ?_ x y
  · rintro x y ⟨h1, h2⟩
    by_cases hxa : x = a
    · subst hxa
      simp only [HC.attach, Function.update_self] at h1 h2
      subst h1
      have e : Joined (A ++ [⟨i, j, g⟩]) gam i j :=
        EqvGen.rel _ _ ⟨⟨i, j, g⟩, by simp, rfl, rfl, h2⟩
      rcases hi with ⟨hi, hj⟩ | ⟨hi, hj⟩
      · have h1 := hmono _ _ ((hfj _ _ _).1 (htop h2 hi))
        have h3 := hmono _ _ ((hfj _ _ _).1 (htop h2 hj))
        exact ((h1.symm).trans _ _ _ e).trans _ _ _ h3
      · have h1 := hmono _ _ ((hfj _ _ _).1 (htop h2 hi))
        have h3 := hmono _ _ ((hfj _ _ _).1 (htop h2 hj))
        exact (h3.symm.trans _ _ _ e.symm).trans _ _ _ h1
    · refine hmono _ _ ((hfj _ _ _).1 (EqvGen.rel _ _ ⟨?_, ?_⟩))
      · simpa [HC.attach, Function.update_of_ne hxa] using h1
      · simpa [HC.attach, Function.update_of_ne hxa] using h2
  · rintro x y ⟨l, hl, h1, h2, h3⟩
    rcases List.mem_append.1 hl with hl | hl
    · exact hmono' _ _ ((hfj _ _ _).2 (EqvGen.rel _ _ ⟨l, hl, h1, h2, h3⟩))
    · rw [List.mem_singleton] at hl
      subst hl
      simp only at h1 h2 h3
      subst h1 h2
      have e : FJ { h.attach a b g with rank := rk, gamma := gm } gam a b :=
        EqvGen.rel _ _ ⟨by simp [HC.attach], by simpa [HC.attach] using h3⟩
      rcases hi with ⟨hi, hj⟩ | ⟨hi, hj⟩
      · have h1 := hmono' _ _ (htop h3 hi)
        have h4 := hmono' _ _ (htop h3 hj)
        exact (h1.trans _ _ _ e).trans _ _ _ h4.symm
      · have h1 := hmono' _ _ (htop h3 hi)
        have h4 := hmono' _ _ (htop h3 hj)
        exact (h1.trans _ _ _ e.symm).trans _ _ _ h4.symm

end PSP.Theory
