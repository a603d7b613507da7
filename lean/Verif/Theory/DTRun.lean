import Mathlib.Tactic.FieldSimp
import Mathlib.Tactic.LinearCombination
import Verif.Model.DT
import Verif.Theory.Unique
import Verif.Theory.DilworthDT

/-!
# `DT::split` and `DT::run`
-/

namespace PSP.Theory

open PSP.Spec PSP.Model

/-! ### chains in which neighbours are optimal up to `ε` at the value between them -/

/-- `A` is optimal at `a`.  Every further entry `(c, b, B)` consists of a partition `B` optimal at
`b`, larger than its predecessor, and of the value `c` at which both have the same cost, less than
`ε` above the minimum. If `M` holds, `B` is the finest optimal partition at `b`. -/
def ALinked (M : Prop) (E : List Arc) (V : Finset ℕ) (ε : ℚ) :
    ℚ → Partition → List (ℚ × ℚ × Partition) → Prop
  | a, A, [] => IsOptimal E V a A
  | a, A, (c, b, B) :: t =>
    IsOptimal E V a A ∧ a < b ∧ A.card < B.card ∧ cost E c A = cost E c B ∧
    (∀ R, IsPartition V R → cost E c A < cost E c R + ε) ∧
    (M → ∀ R, IsOptimal E V b R → Refines B R) ∧ ALinked M E V ε b B t

variable {M : Prop} {E : List Arc} {V : Finset ℕ} {ε : ℚ}

theorem ALinked.head {a : ℚ} {A : Partition} {t} (h : ALinked M E V ε a A t) :
    IsOptimal E V a A := by
  cases t with
  | nil => exact h
  | cons x t => exact h.1

theorem ALinked.append {a b c : ℚ} {A B : Partition} {s t : List (ℚ × ℚ × Partition)}
    (hs : ALinked M E V ε a A (s ++ [(c, b, B)])) (ht : ALinked M E V ε b B t) :
    ALinked M E V ε a A (s ++ (c, b, B) :: t) := by
  induction s generalizing a A with
  | nil =>
    obtain ⟨h1, h2, h3, h4, h5, h6, _⟩ := hs
    exact ⟨h1, h2, h3, h4, h5, h6, ht⟩
  | cons x s ih =>
    obtain ⟨c', b', B'⟩ := x
    obtain ⟨h1, h2, h3, h4, h5, h6, h7⟩ := hs
    exact ⟨h1, h2, h3, h4, h5, h6, ih h7⟩

/-- The crossing point of two optimal partitions lies between the parameters. -/
theorem slope_ge {a c : ℚ} {A B : Partition} (hA : IsOptimal E V a A) (hB : IsPartition V B)
    (hc : A.card < B.card) (heq : cost E c A = cost E c B) : a ≤ c := by
  have h := hA.2 B hB
  have hc' : (A.card : ℚ) < B.card := by exact_mod_cast hc
  unfold cost at *
  by_contra hlt
  nlinarith [mul_pos (sub_pos.2 (not_le.1 hlt)) (sub_pos.2 hc')]

theorem slope_le {b c : ℚ} {A B : Partition} (hB : IsOptimal E V b B) (hA : IsPartition V A)
    (hc : A.card < B.card) (heq : cost E c A = cost E c B) : c ≤ b := by
  have h := hB.2 A hA
  have hc' : (A.card : ℚ) < B.card := by exact_mod_cast hc
  unfold cost at *
  by_contra hlt
  nlinarith [mul_pos (sub_pos.2 (not_le.1 hlt)) (sub_pos.2 hc')]

theorem ALinked.card_lt {a : ℚ} {A : Partition} {t} (h : ALinked M E V ε a A t) :
    ∀ x ∈ t, A.card < x.2.2.card := by
  induction t generalizing a A with
  | nil => simp
  | cons x t ih =>
    obtain ⟨c, b, B⟩ := x
    obtain ⟨h1, h2, h3, h4, h5, h6, h7⟩ := h
    intro y hy
    rcases List.mem_cons.1 hy with rfl | hy
    · exact h3
    · exact h3.trans (ih h7 y hy)

theorem ALinked.card_increasing {a : ℚ} {A : Partition} {t} (h : ALinked M E V ε a A t) :
    (A :: t.map (·.2.2)).Pairwise fun P Q => P.card < Q.card := by
  induction t generalizing a A with
  | nil => simp
  | cons x t ih =>
    have hlt := h.card_lt
    obtain ⟨c, b, B⟩ := x
    obtain ⟨h1, h2, h3, h4, h5, h6, h7⟩ := h
    rw [List.pairwise_cons]
    refine ⟨?_, ih h7⟩
    intro y hy
    obtain ⟨z, hz, rfl⟩ := List.mem_map.1 hy
    exact hlt z hz

theorem ALinked.refine (hE : NonnegE E) {a : ℚ} {A : Partition} {t}
    (h : ALinked M E V ε a A t) :
    (A :: t.map (·.2.2)).Pairwise fun P Q => Refines Q P ∧ Q ≠ P := by
  induction t generalizing a A with
  | nil => simp
  | cons x t ih =>
    have hlt := h.card_lt
    obtain ⟨c, b, B⟩ := x
    obtain ⟨h1, h2, h3, h4, h5, h6, h7⟩ := h
    have hrec := ih h7
    rw [List.pairwise_cons]
    refine ⟨?_, hrec⟩
    intro y hy
    obtain ⟨z, hz, hzy⟩ := List.mem_map.1 hy
    have hne : y ≠ A := by
      intro he
      have := hlt z hz
      rw [hzy, he] at this; omega
    have hBA : Refines B A := h1.refines hE h7.head h2
    rcases List.mem_cons.1 hy with rfl | hy
    · exact ⟨hBA, hne⟩
    · exact ⟨((List.pairwise_cons.1 hrec).1 y hy).1.trans hBA, hne⟩

/-- All values of the chain are at least `a`. -/
theorem ALinked.le_val {a : ℚ} {A : Partition} {t} (h : ALinked M E V ε a A t) :
    ∀ c ∈ t.map (·.1), a ≤ c := by
  induction t generalizing a A with
  | nil => simp
  | cons x t ih =>
    obtain ⟨c, b, B⟩ := x
    obtain ⟨h1, h2, h3, h4, h5, h6, h7⟩ := h
    intro y hy
    rcases List.mem_cons.1 hy with rfl | hy
    · exact slope_ge h1 h7.head.1 h3 h4
    · exact (le_of_lt h2).trans (ih h7 y hy)

theorem ALinked.nondecreasing {a : ℚ} {A : Partition} {t}
    (h : ALinked M E V ε a A t) : (t.map (·.1)).Pairwise (· ≤ ·) := by
  induction t generalizing a A with
  | nil => simp
  | cons x t ih =>
    obtain ⟨c, b, B⟩ := x
    obtain ⟨h1, h2, h3, h4, h5, h6, h7⟩ := h
    rw [List.map_cons, List.pairwise_cons]
    exact ⟨fun y hy => (slope_le h7.head h1.1 h3 h4).trans (h7.le_val y hy), ih h7⟩

/-- At every parameter between the ends some partition of the chain is optimal up to `ε`. -/
theorem ALinked.cover (hε : 0 ≤ ε) {a : ℚ} {A : Partition} {t}
    (h : ALinked M E V ε a A t) {lam : ℚ} (ha : a ≤ lam)
    (hup : ∀ b B, (t.getLast?.map (·.2) = some (b, B) ∨ (t = [] ∧ B = A ∧ b = a)) → lam ≤ b) :
    ∃ P ∈ A :: t.map (·.2.2), ∀ R, IsPartition V R → cost E lam P ≤ cost E lam R + ε := by
  induction t generalizing a A with
  | nil =>
    have : lam ≤ a := hup a A (Or.inr ⟨rfl, rfl, rfl⟩)
    have hal : a = lam := le_antisymm ha this
    subst hal
    exact ⟨A, by simp, fun R hR => by have := h.head.2 R hR; linarith⟩
  | cons x t ih =>
    obtain ⟨c, b, B⟩ := x
    obtain ⟨h1, h2, h3, h4, h5, h6, h7⟩ := h
    have interp : ∀ {l m : ℚ} {X : Partition}, l ≤ lam → lam ≤ m →
        (∀ R, IsPartition V R → cost E l X ≤ cost E l R + ε) →
        (∀ R, IsPartition V R → cost E m X ≤ cost E m R + ε) →
        ∀ R, IsPartition V R → cost E lam X ≤ cost E lam R + ε := by
      intro l m X hl hm hL hM R hR
      have hL := hL R hR
      have hM := hM R hR
      unfold cost at *
      rcases le_total ((X.card : ℚ)) R.card with h | h
      · nlinarith [mul_le_mul_of_nonneg_right hm (sub_nonneg.2 h)]
      · nlinarith [mul_le_mul_of_nonneg_right hl (sub_nonneg.2 h)]
    by_cases hc : lam ≤ c
    · refine ⟨A, by simp, interp ha hc ?_ ?_⟩
      · intro R hR; have := h1.2 R hR; linarith
      · intro R hR; exact le_of_lt (h5 R hR)
    · push Not at hc
      by_cases hb : lam ≤ b
      · refine ⟨B, by simp, interp (le_of_lt hc) hb ?_ ?_⟩
        · intro R hR; rw [← h4]; exact le_of_lt (h5 R hR)
        · intro R hR; have := h7.head.2 R hR; linarith
      · push Not at hb
        obtain ⟨P, hP, hh⟩ := ih h7 (le_of_lt hb) (by
          intro b' B' hb'
          rcases hb' with hb' | ⟨ht, rfl, rfl⟩
          · apply hup b' B'
            left
            cases t with
            | nil => simp at hb'
            | cons y t => rw [List.getLast?_cons_cons]; exact hb'
          · subst ht
            exact hup b' B' (Or.inl rfl))
        exact ⟨P, List.mem_cons_of_mem _ hP, hh⟩

/-! ### granularity: small `ε` means exact -/

/-- All weights are integer multiples of `u`. -/
def Granular (u : ℚ) (E : List Arc) : Prop := ∀ e ∈ E, ∃ k : ℤ, e.cap = k * u

theorem Granular.crossWeight {u : ℚ} (h : Granular u E) (P : Partition) :
    ∃ k : ℤ, crossWeight E P = k * u := by
  unfold PSP.Spec.crossWeight
  induction E with
  | nil => exact ⟨0, by simp⟩
  | cons e E ih =>
    obtain ⟨k, hk⟩ := ih fun e he => h e (List.mem_cons_of_mem _ he)
    obtain ⟨m, hm⟩ := h e List.mem_cons_self
    rw [List.map_cons, List.sum_cons, hk]
    split
    · exact ⟨k, by ring⟩
    · exact ⟨m + k, by rw [hm]; push_cast; ring⟩

/-- Two partitions of equal cost that are less than `ε` above the minimum are optimal. -/
theorem gap {u : ℚ} (hu : 0 < u) (hg : Granular u E) (hV : V.Nonempty)
    (hε : ε * ((V.card : ℚ) - 1) ≤ u) (hε0 : 0 < ε)
    {c : ℚ} {A B : Partition} (hA : IsPartition V A) (hB : IsPartition V B)
    (hc : A.card < B.card) (heq : cost E c A = cost E c B)
    (hlt : ∀ R, IsPartition V R → cost E c A < cost E c R + ε) : IsOptimal E V c A := by
  refine ⟨hA, fun R hR => ?_⟩
  have h := hlt R hR
  obtain ⟨ka, hka⟩ := hg.crossWeight A
  obtain ⟨kb, hkb⟩ := hg.crossWeight B
  obtain ⟨kr, hkr⟩ := hg.crossWeight R
  have hd : (0 : ℚ) < (B.card : ℚ) - A.card := by
    have : (A.card : ℚ) < B.card := by exact_mod_cast hc
    linarith
  have hd' : (B.card : ℚ) - A.card ≤ (V.card : ℚ) - 1 := by
    have h1 : (B.card : ℚ) ≤ V.card := by exact_mod_cast hB.card_le
    have h2 : (1 : ℚ) ≤ A.card := by exact_mod_cast hA.card_pos hV
    linarith
  have hdiff : ((B.card : ℚ) - A.card) * (cost E c A - cost E c R) =
      (((B.card - A.card : ℤ) * (ka - kr) + (kb - ka) * ((R.card : ℤ) - A.card) : ℤ) : ℚ) * u := by
    unfold cost at *
    rw [hka, hkb] at heq
    rw [hka, hkr]
    push_cast
    have : c * ((B.card : ℚ) - A.card) = (kb - ka) * u := by linarith
    linear_combination ((R.card : ℚ) - A.card) * this
  by_contra hgt
  push Not at hgt
  have hpos : 0 < ((B.card : ℚ) - A.card) * (cost E c A - cost E c R) :=
    mul_pos hd (by linarith)
  rw [hdiff] at hpos
  have hm := (pos_iff_pos_of_mul_pos hpos).2 hu
  have hm1 : (1 : ℚ) ≤ (((B.card - A.card : ℤ) * (ka - kr) +
      (kb - ka) * ((R.card : ℤ) - A.card) : ℤ) : ℚ) := by
    have : (0 : ℤ) < ((B.card - A.card : ℤ) * (ka - kr) +
      (kb - ka) * ((R.card : ℤ) - A.card) : ℤ) := by exact_mod_cast hm
    exact_mod_cast this
  have h1 : u ≤ ((B.card : ℚ) - A.card) * (cost E c A - cost E c R) := by
    rw [hdiff]; nlinarith
  have h2 : ((B.card : ℚ) - A.card) * (cost E c A - cost E c R) <
      ((B.card : ℚ) - A.card) * ε := mul_lt_mul_of_pos_left (by linarith) hd
  nlinarith

/-- With granular weights the chain is exact. -/
theorem ALinked.linked {u : ℚ} (hE : NonnegE E) (hu : 0 < u) (hg : Granular u E) (hV : V.Nonempty)
    (hε : ε * ((V.card : ℚ) - 1) ≤ u) (hε0 : 0 < ε) {a : ℚ} {A : Partition} {t}
    (h : ALinked M E V ε a A t) : Linked E V A (t.map fun x => (x.1, x.2.2)) := by
  induction t generalizing a A with
  | nil => trivial
  | cons x t ih =>
    obtain ⟨c, b, B⟩ := x
    obtain ⟨h1, h2, h3, h4, h5, h6, h7⟩ := h
    have hA := gap hu hg hV hε hε0 h1.1 h7.head.1 h3 h4 h5
    refine ⟨hA, hA.of_cost_le h7.head.1 (le_of_eq h4.symm), ⟨h1.refines hE h7.head h2, ?_⟩, ih h7⟩
    intro he
    have he : B = A := he
    rw [he] at h3; omega

/-- If partitions found are the finest ones the critical values are strictly increasing. -/
theorem ALinked.increasing {u : ℚ} (hu : 0 < u) (hg : Granular u E)
    (hV : V.Nonempty) (hε : ε * ((V.card : ℚ) - 1) ≤ u) (hε0 : 0 < ε) (hM : M) {a : ℚ}
    {A : Partition} {t} (h : ALinked M E V ε a A t) : (t.map (·.1)).Pairwise (· < ·) := by
  induction t generalizing a A with
  | nil => simp
  | cons x t ih =>
    obtain ⟨c, b, B⟩ := x
    obtain ⟨h1, h2, h3, h4, h5, h6, h7⟩ := h
    rw [List.map_cons, List.pairwise_cons]
    refine ⟨?_, ih h7⟩
    have hcb : c ≤ b := slope_le h7.head h1.1 h3 h4
    have hnd := h7.nondecreasing
    intro y hy
    cases t with
    | nil => simp at hy
    | cons z t =>
      obtain ⟨c', b', B'⟩ := z
      have hc' : c < c' := by
        obtain ⟨g1, g2, g3, g4, g5, g6, g7⟩ := h7
        have hbc' : b ≤ c' := slope_ge g1 g7.head.1 g3 g4
        rcases lt_or_eq_of_le (hcb.trans hbc') with h | h
        · exact h
        · exfalso
          have hb : b = c' := le_antisymm hbc' (by linarith)
          have hBo := gap hu hg hV hε hε0 g1.1 g7.head.1 g3 g4 g5
          have hB' : IsOptimal E V c' B' := hBo.of_cost_le g7.head.1 (le_of_eq g4.symm)
          rw [← hb] at hB'
          have hr := h6 hM B' hB'
          have := hr.card_le g1.1 hB'.1
          omega
      rcases List.mem_cons.1 hy with rfl | hy
      · exact hc'
      · exact hc'.trans_le ((List.pairwise_cons.1 hnd).1 y hy)

/-! ### `DT::split` -/

theorem gammaApos_eq {g : Digraph} {n : ℕ} (hg : GoodDigraph g n) {Q P : Partition}
    (hQ : IsPartition (Finset.range n) Q) (hP : IsPartition (Finset.range n) P)
    (hc : Q.card < P.card) :
    cost g.arcs (gammaApos g Q P) Q = cost g.arcs (gammaApos g Q P) P ∧
    hApos g Q P = cost g.arcs (gammaApos g Q P) Q := by
  have hd : (P.card : ℚ) - Q.card ≠ 0 := by
    have : (Q.card : ℚ) < P.card := by exact_mod_cast hc
    linarith
  have hw : ∀ e ∈ g.arcs, e.dst ∈ Finset.range n := fun e he => (hg.good.within e he).2
  unfold hApos gammaApos cost
  rw [partitionValue_eq_crossWeight hw hQ, partitionValue_eq_crossWeight hw hP]
  constructor <;> field_simp <;> ring

theorem dtSplit_spec {S : FlowSolver} (hS : S.Correct) {g : Digraph} {n : ℕ}
    (hg : GoodDigraph g n) (hε : 0 < ε) (k : ℕ) :
    ∀ (a b : ℚ) (Q P : Partition), IsOptimal g.arcs (Finset.range n) a Q →
      IsOptimal g.arcs (Finset.range n) b P → a < b → Q.card < P.card →
      P.card ≤ Q.card + k →
      (S.Minimal → ∀ R, IsOptimal g.arcs (Finset.range n) b R → Refines P R) →
      ∃ r s c, dtSplit S ε g k Q P = .ok r ∧
        ALinked S.Minimal g.arcs (Finset.range n) ε a Q (s ++ [(c, b, P)]) ∧
        r.cv = s.map (·.1) ++ [c] ∧ r.psp.Perm (s.map (·.2.2)) ∧
        r.calls + 1 ≤ 2 * (P.card - Q.card) := by
  induction k with
  | zero => intro a b Q P _ _ _ h1 h2; omega
  | succ k ih =>
    intro a b Q P hQ hP hab hc hk hfin
    obtain ⟨hγ, hh⟩ := gammaApos_eq hg hQ.1 hP.1 hc
    set γ := gammaApos g Q P with hγdef
    obtain ⟨P', hrun, hopt, hmin⟩ := dilworthDT_correct hS hg γ
    unfold dtSplit
    rw [if_neg (by omega), hrun]
    simp only [Outcome.ok_bind, Outcome.pure_eq]
    rw [hh]
    have base : (cost g.arcs γ Q < cost g.arcs γ P' + ε) →
        ∃ r s c, (Outcome.ok (⟨[γ], [], 1⟩ : DTOut)) = .ok r ∧
        ALinked S.Minimal g.arcs (Finset.range n) ε a Q (s ++ [(c, b, P)]) ∧
        r.cv = s.map (·.1) ++ [c] ∧ r.psp.Perm (s.map (·.2.2)) ∧
        r.calls + 1 ≤ 2 * (P.card - Q.card) := by
      intro hlt
      refine ⟨_, [], γ, rfl, ⟨hQ, hab, hc, hγ, ?_, hfin, hP⟩, rfl, List.Perm.refl _, ?_⟩
      · intro R hR
        have := hopt.2 R hR
        linarith
      · simp only; omega
    by_cases hcond : cost g.arcs γ P' > cost g.arcs γ Q - ε ∨ Q.card = P'.card ∨ P.card = P'.card
    · rw [if_pos hcond]
      apply base
      rcases hcond with h | h | h
      · linarith
      · have h1 := hQ.2 P' hopt.1
        unfold cost at *
        rw [h] at h1 ⊢
        linarith
      · have h1 := hP.2 P' hopt.1
        rw [hγ]
        unfold cost at *
        rw [h] at h1 ⊢
        linarith
    · rw [if_neg hcond]
      push Not at hcond
      obtain ⟨hlt, hne1, hne2⟩ := hcond
      have haγ : a < γ := by
        rcases lt_or_eq_of_le (slope_ge hQ hP.1 hc hγ) with h | h
        · exact h
        · exfalso
          have := hQ.2 P' hopt.1
          rw [h] at this; linarith
      have hγb : γ < b := by
        rcases lt_or_eq_of_le (slope_le hP hQ.1 hc hγ) with h | h
        · exact h
        · exfalso
          have := hP.2 P' hopt.1
          rw [← h] at this; linarith
      have hc1 : Q.card < P'.card :=
        lt_of_le_of_ne (hQ.card_le hg.good.nonneg hopt haγ) hne1
      have hc2 : P'.card < P.card :=
        lt_of_le_of_ne (hopt.card_le hg.good.nonneg hP hγb) (Ne.symm hne2)
      obtain ⟨r1, s1, c1, e1, l1, v1, p1, n1⟩ := ih a γ Q P' hQ hopt haγ hc1 (by omega) hmin
      obtain ⟨r2, s2, c2, e2, l2, v2, p2, n2⟩ := ih γ b P' P hopt hP hγb hc2 (by omega) hfin
      rw [e1, e2]
      simp only [Outcome.ok_bind]
      refine ⟨_, s1 ++ (c1, γ, P') :: s2, c2, rfl, ?_, ?_, ?_, ?_⟩
      · have := l1.append l2
        simpa using this
      · simp [v1, v2]
      · simp only [List.map_append, List.map_cons]
        exact (List.Perm.cons _ (p1.append p2)).trans List.perm_middle.symm
      · simp only; omega

theorem eq_of_perm_card {l m : List Partition} (hp : l.Perm m)
    (hl : l.Pairwise fun P Q => P.card ≤ Q.card) (hm : m.Pairwise fun P Q => P.card < Q.card) :
    l = m := by
  induction m generalizing l with
  | nil => exact hp.eq_nil
  | cons b m ih =>
    cases l with
    | nil => exact absurd hp.symm.eq_nil (by simp)
    | cons a l =>
      have hab : a = b := by
        have ha : a ∈ b :: m := hp.subset List.mem_cons_self
        rcases List.mem_cons.1 ha with h | h
        · exact h
        · have h1 := (List.pairwise_cons.1 hm).1 a h
          have hb : b ∈ a :: l := hp.symm.subset List.mem_cons_self
          rcases List.mem_cons.1 hb with h' | h'
          · exact h'.symm
          · have h2 := (List.pairwise_cons.1 hl).1 b h'
            omega
      subst hab
      rw [ih (List.Perm.cons_inv hp) (List.pairwise_cons.1 hl).2 (List.pairwise_cons.1 hm).2]

theorem makeFine_eq (n : ℕ) : makeFine n = singletons (Finset.range n) := rfl

/-- The run of `DT` on a graph with at least two nodes. -/
theorem dtRun_spec {S : FlowSolver} (hS : S.Correct) {g : Digraph} {n : ℕ}
    (hg : GoodDigraph g n) (hn : 2 ≤ n) (hε : 0 < ε) :
    ∀ a b : ℚ, a ≤ 0 → crossWeight g.arcs (singletons (Finset.range n)) ≤ b → a < b →
    ∃ s c, dtRun S ε g = .ok ⟨{Finset.range n} :: (s ++ [(c, b, singletons (Finset.range n))]).map (·.2.2),
        (s ++ [(c, b, singletons (Finset.range n))]).map (·.1)⟩ ∧
      ALinked S.Minimal g.arcs (Finset.range n) ε a {Finset.range n}
        (s ++ [(c, b, singletons (Finset.range n))]) := by
  intro a b ha hb hab
  have hV : (Finset.range n).Nonempty := ⟨0, by simp; omega⟩
  have hcard : (singletons (Finset.range n)).card = n := by rw [card_singletons, Finset.card_range]
  obtain ⟨r, s, c, e, l, v, p, _⟩ := dtSplit_spec hS hg hε n a b {Finset.range n}
    (singletons (Finset.range n)) (isOptimal_single hg.good.nonneg hg.good.within hV ha)
    (isOptimal_singletons hg.good.nonneg hb) hab (by rw [hcard]; simp; omega)
    (by rw [hcard]; simp) (fun _ R hR => singletons_refines hR.1)
  refine ⟨s, c, ?_, l⟩
  unfold dtRun
  rw [hg.countNodes]
  simp only [makeFine_eq, makeDense]
  rw [e]
  simp only [Outcome.ok_bind, Outcome.pure_eq]
  congr 2
  · apply eq_of_perm_card _ _ l.card_increasing
    · refine (List.perm_insertionSort _ _).trans (List.Perm.cons _ ?_)
      rw [List.map_append]
      refine (List.Perm.cons _ p).trans ?_
      exact (List.perm_append_comm (l₁ := [singletons (Finset.range n)]))
    · have : Std.Total (α := Partition) (fun P Q => P.card ≤ Q.card) := ⟨fun a b => le_total _ _⟩
      have : IsTrans Partition (fun P Q => P.card ≤ Q.card) := ⟨fun a b c => le_trans⟩
      exact List.pairwise_insertionSort _ _
  · rw [v, List.map_append, List.map_cons, List.map_nil]
    have := l.nondecreasing
    rw [List.map_append, List.map_cons, List.map_nil] at this
    exact this.insertionSort_eq

end PSP.Theory
