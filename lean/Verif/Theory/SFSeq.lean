import Mathlib.Tactic.Linarith
import Mathlib.Tactic.Ring
import Mathlib.Algebra.Order.BigOperators.Group.Finset
import Verif.Spec.SF
import Verif.Theory.Sequence

/-!
# Optimal partitions of an intersecting submodular function

The same facts as in `Theory/Cost.lean` and `Theory/Sequence.lean`, for set functions.
-/

namespace PSP.Spec

open PSP.Model (expand)

variable {h : Finset ℕ → ℚ} {V : Finset ℕ} {P Q R : Finset (Finset ℕ)}

theorem costSF_eq (h : Finset ℕ → ℚ) (lam : ℚ) (P : Finset (Finset ℕ)) :
    costSF h lam P = (∑ C ∈ P, h C) - lam * P.card := by
  unfold costSF
  rw [Finset.sum_sub_distrib, Finset.sum_const, nsmul_eq_mul, mul_comm]

/-- Uncrossing `B` with the blocks it meets. -/
theorem uncross_meeting (hh : Intersecting V h) (hP : IsPartition V P) {B : Finset ℕ} (hBV : B ⊆ V) :
    h (bigBlock P B) + ∑ A ∈ meeting P B, h (A ∩ B) ≤ h B + ∑ A ∈ meeting P B, h A := by
  have key : ∀ M, M ⊆ meeting P B →
      h (B ∪ M.sup id) + ∑ A ∈ M, h (A ∩ B) ≤ h B + ∑ A ∈ M, h A := by
    intro M
    induction M using Finset.induction_on with
    | empty => intro _; simp
    | insert A M hA ih =>
      intro hM
      have hAm := mem_meeting.1 (hM (Finset.mem_insert_self _ _))
      have hM' : M ⊆ meeting P B := fun x hx => hM (Finset.mem_insert_of_mem hx)
      have ih := ih hM'
      rw [Finset.sum_insert hA, Finset.sum_insert hA]
      have hU : B ∪ M.sup id ⊆ V := by
        refine Finset.union_subset hBV (Finset.sup_le fun C hC => ?_)
        exact hP.subset (mem_meeting.1 (hM' hC)).1
      have hint : (B ∪ M.sup id) ∩ A = A ∩ B := by
        ext v
        simp only [Finset.mem_inter, Finset.mem_union, Finset.mem_sup, id]
        constructor
        · rintro ⟨hv | ⟨C, hC, hvC⟩, hvA⟩
          · exact ⟨hvA, hv⟩
          · have := hP.eq_of_mem (mem_meeting.1 (hM' hC)).1 hAm.1 hvC hvA
            exact absurd (this ▸ hC) hA
        · rintro ⟨h1, h2⟩; exact ⟨Or.inl h2, h1⟩
      have hne : ((B ∪ M.sup id) ∩ A).Nonempty := by
        rw [hint]; exact Finset.not_disjoint_iff_nonempty_inter.1 hAm.2
      have := hh _ _ hU (hP.subset hAm.1) hne
      rw [hint] at this
      have hun : B ∪ (insert A M).sup id = (B ∪ M.sup id) ∪ A := by
        rw [Finset.sup_insert, id, Finset.sup_eq_union, Finset.union_comm A, Finset.union_assoc]
      rw [hun]
      linarith
  exact key _ subset_rfl

theorem sum_expand {B : Finset ℕ} (hB : B.Nonempty) :
    ∑ C ∈ expand P B, h C + ∑ A ∈ meeting P B, h A = h (bigBlock P B) + ∑ C ∈ P, h C := by
  have h1 : bigBlock P B ∉ P.filter fun A => Disjoint A B := by
    intro hc
    have hd := (Finset.mem_filter.1 hc).2
    obtain ⟨v, hv⟩ := hB
    exact Finset.disjoint_left.1 hd (subset_bigBlock hv) hv
  have h2 : ∑ C ∈ expand P B, h C = h (bigBlock P B) + ∑ C ∈ P.filter fun A => Disjoint A B, h C :=
    Finset.sum_insert h1
  have h3 := Finset.sum_filter_add_sum_filter_not P (fun A => Disjoint A B) h
  rw [h2]
  unfold meeting
  linarith

theorem sum_splitBlock (hQ : IsPartition V Q) (hP : IsPartition V P) {B : Finset ℕ}
    (hB : B ∈ Q) : ∑ C ∈ splitBlock Q P B, h C + h B =
      ∑ C ∈ Q, h C + ∑ A ∈ meeting P B, h (A ∩ B) := by
  have hdisj : Disjoint (Q.erase B) ((meeting P B).image fun A => A ∩ B) := by
    rw [Finset.disjoint_left]
    intro C hC hC'
    simp only [Finset.mem_image, mem_meeting] at hC'
    obtain ⟨A, ⟨hA, hd⟩, rfl⟩ := hC'
    obtain ⟨v, hvA, hvB⟩ := Finset.not_disjoint_iff.1 hd
    have h1 := Finset.mem_erase.1 hC
    exact h1.1 (hQ.eq_of_mem h1.2 hB (Finset.mem_inter.2 ⟨hvA, hvB⟩) hvB)
  have hinj : Set.InjOn (fun A => A ∩ B) (meeting P B : Set (Finset ℕ)) := by
    intro A hA A' hA' heq
    have hA := mem_meeting.1 hA
    have hA' := mem_meeting.1 hA'
    obtain ⟨v, hvA, hvB⟩ := Finset.not_disjoint_iff.1 hA.2
    have : v ∈ A' ∩ B := by
      rw [← show A ∩ B = A' ∩ B from heq]; exact Finset.mem_inter.2 ⟨hvA, hvB⟩
    exact hP.eq_of_mem hA.1 hA'.1 hvA (Finset.mem_inter.1 this).1
  unfold splitBlock
  rw [Finset.sum_union hdisj, Finset.sum_image hinj]
  have := Finset.sum_erase_add Q h hB
  linarith

/-- Minimisers are nested: a minimiser at a larger parameter refines every minimiser at a smaller
one. -/
theorem IsOptimalSF.refines (hh : Intersecting V h) {l1 l2 : ℚ} (hP : IsOptimalSF h V l1 P)
    (hQ : IsOptimalSF h V l2 Q) (hlt : l1 < l2) : Refines Q P := by
  intro B hB
  have hBne := hQ.1.nonempty hB
  have hBV := hQ.1.subset hB
  have e1 := hP.2 _ (expand_isPartition' hP.1 hBne hBV)
  have e2 := hQ.2 _ (splitBlock_isPartition hQ.1 hP.1 hB)
  have c1 := card_expand (P := P) hBne
  have c2 := card_splitBlock hQ.1 hP.1 hB
  have hu := uncross_meeting hh hP.1 hBV
  have s1 := sum_expand (P := P) (h := h) hBne
  have s2 := sum_splitBlock (h := h) hQ.1 hP.1 hB
  rw [costSF_eq, costSF_eq] at e1 e2
  have c1' : ((expand P B).card : ℚ) = P.card + 1 - (meeting P B).card := by
    have : ((expand P B).card : ℚ) + (meeting P B).card = P.card + 1 := by exact_mod_cast c1
    linarith
  have c2' : ((splitBlock Q P B).card : ℚ) = Q.card + (meeting P B).card - 1 := by
    have : ((splitBlock Q P B).card : ℚ) + 1 = Q.card + (meeting P B).card := by exact_mod_cast c2
    linarith
  rw [c1'] at e1
  rw [c2'] at e2
  have key : (l2 - l1) * ((meeting P B).card - 1 : ℚ) ≤ 0 := by nlinarith
  have hm : (meeting P B).card ≤ 1 := by
    by_contra hcon
    have h2 : (2 : ℚ) ≤ (meeting P B).card := by
      have : 2 ≤ (meeting P B).card := by omega
      exact_mod_cast this
    nlinarith
  obtain ⟨v, hv⟩ := hBne
  obtain ⟨A, hA, hvA⟩ := hP.1.exists_block (hBV hv)
  refine ⟨A, hA, fun w hw => ?_⟩
  obtain ⟨A', hA', hwA'⟩ := hP.1.exists_block (hBV hw)
  have m1 : A ∈ meeting P B := mem_meeting.2 ⟨hA, Finset.not_disjoint_iff.2 ⟨v, hvA, hv⟩⟩
  have m2 : A' ∈ meeting P B := mem_meeting.2 ⟨hA', Finset.not_disjoint_iff.2 ⟨w, hwA', hw⟩⟩
  rw [Finset.card_le_one.1 hm A m1 A' m2]
  exact hwA'

theorem IsOptimalSF.between {a b lam : ℚ} (ha : IsOptimalSF h V a P) (hb : IsOptimalSF h V b P)
    (h1 : a ≤ lam) (h2 : lam ≤ b) : IsOptimalSF h V lam P := by
  refine ⟨ha.1, fun R hR => ?_⟩
  have hA := ha.2 R hR
  have hB := hb.2 R hR
  rw [costSF_eq, costSF_eq] at *
  rcases le_total ((P.card : ℚ)) R.card with h | h
  · nlinarith [mul_le_mul_of_nonneg_right h2 (sub_nonneg.2 h)]
  · nlinarith [mul_le_mul_of_nonneg_right h1 (sub_nonneg.2 h)]

theorem IsOptimalSF.single_of_le {c lam : ℚ} (hV : V.Nonempty) (h' : IsOptimalSF h V c {V})
    (hle : lam ≤ c) : IsOptimalSF h V lam {V} := by
  refine ⟨h'.1, fun R hR => ?_⟩
  have hA := h'.2 R hR
  have hc : (1 : ℚ) ≤ R.card := by exact_mod_cast hR.card_pos hV
  rw [costSF_eq, costSF_eq] at *
  simp only [Finset.card_singleton, Nat.cast_one, mul_one] at *
  nlinarith

theorem IsOptimalSF.singletons_of_ge {c lam : ℚ} (h' : IsOptimalSF h V c (singletons V))
    (hle : c ≤ lam) : IsOptimalSF h V lam (singletons V) := by
  refine ⟨h'.1, fun R hR => ?_⟩
  have hA := h'.2 R hR
  have hc : (R.card : ℚ) ≤ V.card := by exact_mod_cast hR.card_le
  rw [costSF_eq, costSF_eq] at *
  rw [card_singletons] at *
  nlinarith

/-- Chains as in `Linked`, for set functions. -/
def LinkedSF (h : Finset ℕ → ℚ) (V : Finset ℕ) :
    Finset (Finset ℕ) → List (ℚ × Finset (Finset ℕ)) → Prop
  | _, [] => True
  | A, (c, B) :: t =>
    IsOptimalSF h V c A ∧ IsOptimalSF h V c B ∧ (Refines B A ∧ B ≠ A) ∧ LinkedSF h V B t

variable {A B : Finset (Finset ℕ)} {s t : List (ℚ × Finset (Finset ℕ))}

theorem LinkedSF.card_lt (hA : IsPartition V A) (h' : LinkedSF h V A t) :
    ∀ B ∈ t.map Prod.snd, A.card < B.card := by
  induction t generalizing A with
  | nil => simp
  | cons cb t ih =>
    obtain ⟨c, B⟩ := cb
    have h1 := h'.2.2.1.1.card_lt h'.2.1.1 hA h'.2.2.1.2
    intro B' hm
    rcases List.mem_cons.1 hm with hh | hh
    · rw [hh]; exact h1
    · exact h1.trans (ih h'.2.1.1 h'.2.2.2 B' hh)

theorem LinkedSF.refine (h' : LinkedSF h V A t) (hA : IsPartition V A) :
    (A :: t.map Prod.snd).Pairwise fun P Q => Refines Q P ∧ Q ≠ P := by
  induction t generalizing A with
  | nil => simp
  | cons cb t ih =>
    obtain ⟨c, B⟩ := cb
    have hrec := ih h'.2.2.2 h'.2.1.1
    have hlt := h'.card_lt hA
    rw [List.map_cons, List.pairwise_cons]
    refine ⟨?_, hrec⟩
    intro D hD
    have hne : D ≠ A := fun he => by
      have := hlt D hD; rw [he] at this; omega
    rcases List.mem_cons.1 hD with rfl | hD
    · exact ⟨h'.2.2.1.1, hne⟩
    · exact ⟨((List.pairwise_cons.1 hrec).1 D hD).1.trans h'.2.2.1.1, hne⟩

theorem LinkedSF.optimal_at (h' : LinkedSF h V A t) {lam : ℚ}
    (hlast : lastOf A t = singletons V) (hA : (∃ b, b ≤ lam ∧ IsOptimalSF h V b A)) :
    ∀ (i : ℕ) (P : Finset (Finset ℕ)), (A :: t.map Prod.snd)[i]? = some P →
    (∀ j c, (t.map Prod.fst)[j]? = some c → j < i → c ≤ lam) →
    (∀ j c, (t.map Prod.fst)[j]? = some c → i ≤ j → lam ≤ c) →
    IsOptimalSF h V lam P := by
  induction t generalizing A with
  | nil =>
    intro i P hi _ _
    obtain ⟨b, hb, hbA⟩ := hA
    cases i with
    | zero =>
      simp only [List.map_nil, List.getElem?_cons_zero, Option.some.injEq] at hi
      subst hi
      have : A = singletons V := hlast
      subst this
      exact hbA.singletons_of_ge hb
    | succ i => simp at hi
  | cons cb t ih =>
    obtain ⟨c, B⟩ := cb
    intro i P hi h1 h2
    cases i with
    | zero =>
      simp only [List.getElem?_cons_zero, Option.some.injEq] at hi
      subst hi
      obtain ⟨b, hb, hbA⟩ := hA
      exact hbA.between h'.1 hb (h2 0 c (by simp) (Nat.zero_le _))
    | succ i =>
      have hc : c ≤ lam := h1 0 c (by simp) (Nat.succ_pos _)
      apply ih h'.2.2.2 hlast ⟨c, hc, h'.2.1⟩ i P (by simpa using hi)
      · intro j c' hj hji
        exact h1 (j+1) c' (by simpa using hj) (by omega)
      · intro j c' hj hji
        exact h2 (j+1) c' (by simpa using hj) (by omega)

theorem LinkedSF.unique_at (hh : Intersecting V h) (h' : LinkedSF h V A t) {lam : ℚ}
    (hAp : IsPartition V A)
    (hlast : lastOf A t = singletons V)
    (hA : ∀ R, IsOptimalSF h V lam R → Refines R A) :
    ∀ (i : ℕ) (P : Finset (Finset ℕ)), (A :: t.map Prod.snd)[i]? = some P →
    (∀ j c, (t.map Prod.fst)[j]? = some c → j < i → c < lam) →
    (∀ j c, (t.map Prod.fst)[j]? = some c → i ≤ j → lam < c) →
    ∀ R, IsOptimalSF h V lam R → R = P := by
  induction t generalizing A with
  | nil =>
    intro i P hi _ _ R hR
    cases i with
    | zero =>
      simp only [List.map_nil, List.getElem?_cons_zero, Option.some.injEq] at hi
      subst hi
      have h' : A = singletons V := hlast
      subst h'
      exact Refines.antisymm hR.1 hAp (hA R hR) (singletons_refines hR.1)
    | succ i => simp at hi
  | cons cb t ih =>
    obtain ⟨c, B⟩ := cb
    intro i P hi h1 h2 R hR
    cases i with
    | zero =>
      simp only [List.getElem?_cons_zero, Option.some.injEq] at hi
      subst hi
      have hc := h2 0 c (by simp) (Nat.zero_le _)
      exact Refines.antisymm hR.1 hAp (hA R hR) (hR.refines hh h'.1 hc)
    | succ i =>
      have hc : c < lam := h1 0 c (by simp) (Nat.succ_pos _)
      apply ih h'.2.2.2 h'.2.1.1 hlast (fun R hR => h'.2.1.refines hh hR hc) i P (by simpa using hi)
      · intro j c' hj hji
        exact h1 (j+1) c' (by simpa using hj) (by omega)
      · intro j c' hj hji
        exact h2 (j+1) c' (by simpa using hj) (by omega)
      · exact hR

/-- A chain from the one-block partition to the singletons with increasing parameters is the
principal sequence. -/
theorem LinkedSF.principal (hh : Intersecting V h) (hV : V.Nonempty)
    (h' : LinkedSF h V {V} t) (hlast : lastOf {V} t = singletons V)
    (hinc : (t.map Prod.fst).Pairwise (· < ·)) :
    IsPrincipalSequenceSF h V ({V} :: t.map Prod.snd) (t.map Prod.fst) where
  length := by simp
  first := rfl
  last := by rw [getLast?_linked, hlast]
  refine := h'.refine (isPartition_single hV)
  increasing := hinc
  optimal i P lam hi h1 h2 := by
    apply h'.optimal_at hlast ?_ i P hi h1 h2
    cases t with
    | nil =>
      refine ⟨lam, le_rfl, isPartition_single hV, fun R hR => ?_⟩
      have hs : ({V} : Finset (Finset ℕ)) = singletons V := hlast
      have : R = {V} := Refines.antisymm hR (isPartition_single hV) (refines_single hR)
        (hs ▸ singletons_refines hR)
      rw [this]
    | cons cb t =>
      exact ⟨min cb.1 lam, min_le_right _ _, h'.1.single_of_le hV (min_le_left _ _)⟩
  unique i P lam hi h1 h2 := h'.unique_at hh (isPartition_single hV) hlast
    (fun R hR => refines_single hR.1) i P hi h1 h2

/-! ### The entropy of a graph -/

variable {E : List Arc}

theorem incident_empty (E : List Arc) : incident E ∅ = 0 := by
  unfold incident; simp

theorem incident_mono (hE : NonnegE E) {S T : Finset ℕ} (hST : S ⊆ T) :
    incident E S ≤ incident E T := by
  unfold incident
  apply List.sum_le_sum
  intro e he
  have := hE e he
  by_cases h1 : e.src ∈ S ∨ e.dst ∈ S
  · rw [if_pos h1, if_pos (h1.imp (@hST _) (@hST _))]
  · rw [if_neg h1]; split_ifs <;> linarith

theorem incident_submodular (hE : NonnegE E) (S T : Finset ℕ) :
    incident E (S ∪ T) + incident E (S ∩ T) ≤ incident E S + incident E T := by
  unfold incident
  rw [← List.sum_map_add, ← List.sum_map_add]
  apply List.sum_le_sum
  intro e he
  have := hE e he
  simp only [Finset.mem_union, Finset.mem_inter]
  by_cases a : e.src ∈ S <;> by_cases b : e.src ∈ T <;> by_cases c : e.dst ∈ S <;>
    by_cases d : e.dst ∈ T <;> simp [a, b, c, d] <;> linarith

theorem incident_intersecting (hE : NonnegE E) (V : Finset ℕ) : Intersecting V (incident E) :=
  fun S T _ _ _ => incident_submodular hE S T

/-- Summed over the blocks, edges inside a block count once and all others twice. -/
theorem sum_incident (hW : Within E V) (hP : IsPartition V P) :
    ∑ B ∈ P, incident E B = (E.map Arc.cap).sum + crossWeight E P := by
  unfold crossWeight
  induction E with
  | nil => simp [incident]
  | cons e E ih =>
    have hW' : Within E V := fun x hx => hW x (by simp [hx])
    have h0 : ∀ B, incident (e :: E) B =
        (if e.src ∈ B ∨ e.dst ∈ B then e.cap else 0) + incident E B := by
      intro B; simp [incident]
    simp only [h0, Finset.sum_add_distrib, ih hW', List.map_cons, List.sum_cons]
    have key : ∑ B ∈ P, (if e.src ∈ B ∨ e.dst ∈ B then e.cap else 0) =
        e.cap + (if Same P e.src e.dst then 0 else e.cap) := by
      obtain ⟨h1, h2⟩ := hW e (by simp)
      obtain ⟨B, hB, hsB⟩ := hP.exists_block h1
      obtain ⟨C, hC, hdC⟩ := hP.exists_block h2
      rw [← Finset.sum_filter, Finset.sum_const, nsmul_eq_mul]
      have hf : (P.filter fun D => e.src ∈ D ∨ e.dst ∈ D) = {B, C} := by
        ext D
        simp only [Finset.mem_filter, Finset.mem_insert, Finset.mem_singleton]
        constructor
        · rintro ⟨hD, hs | hd⟩
          · exact Or.inl (hP.eq_of_mem hD hB hs hsB)
          · exact Or.inr (hP.eq_of_mem hD hC hd hdC)
        · rintro (rfl | rfl)
          · exact ⟨hB, Or.inl hsB⟩
          · exact ⟨hC, Or.inr hdC⟩
      rw [hf]
      by_cases hs : Same P e.src e.dst
      · obtain ⟨D, hD, a, b⟩ := hs
        have hBD := hP.eq_of_mem hB hD hsB a
        have hCD := hP.eq_of_mem hC hD hdC b
        rw [hBD, hCD, if_pos ⟨D, hD, a, b⟩]
        simp
      · have hne : B ≠ C := fun he => hs ⟨B, hB, hsB, he ▸ hdC⟩
        rw [if_neg hs, Finset.card_pair hne]
        push_cast; ring
    rw [key]; ring

theorem optimalSF_iff (hW : Within E V) {lam : ℚ} :
    IsOptimalSF (incident E) V lam P ↔ IsOptimal E V lam P := by
  unfold IsOptimalSF IsOptimal
  refine and_congr_right fun hP => forall_congr' fun R => imp_congr_right fun hR => ?_
  rw [costSF_eq, costSF_eq, sum_incident hW hP, sum_incident hW hR]
  unfold cost
  constructor <;> intro h <;> linarith

/-- For a graph the two notions of principal sequence agree. -/
theorem principalSF_iff (hW : Within E V) {Ps : List (Finset (Finset ℕ))} {cv : List ℚ} :
    IsPrincipalSequenceSF (incident E) V Ps cv ↔ IsPrincipalSequence E V Ps cv := by
  constructor
  · intro h
    exact ⟨h.length, h.first, h.last, h.refine, h.increasing,
      fun i P lam h1 h2 h3 => (optimalSF_iff hW).1 (h.optimal i P lam h1 h2 h3),
      fun i P lam h1 h2 h3 R hR => h.unique i P lam h1 h2 h3 R ((optimalSF_iff hW).2 hR)⟩
  · intro h
    exact ⟨h.length, h.first, h.last, h.refine, h.increasing,
      fun i P lam h1 h2 h3 => (optimalSF_iff hW).2 (h.optimal i P lam h1 h2 h3),
      fun i P lam h1 h2 h3 R hR => h.unique i P lam h1 h2 h3 R ((optimalSF_iff hW).1 hR)⟩

end PSP.Spec
