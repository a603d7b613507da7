import Mathlib.Algebra.BigOperators.Group.Finset.Basic
import Mathlib.Algebra.BigOperators.Group.Finset.Sigma
import Mathlib.Algebra.Order.Ring.Abs
import Verif.Model.PSPI
import Verif.Theory.Induced
import Verif.Theory.DTRun

/-!
# Contracted graphs represent the original graph
-/

namespace PSP.Theory

open PSP.Spec PSP.Model

variable {E L : List Arc} {V I : Finset ℕ} {φ : ℕ → ℕ} {P Q R : Partition}

/-- Total weight of the edges whose end points are mapped to `i` and `j`. -/
def pairW (L : List Arc) (φ : ℕ → ℕ) (i j : ℕ) : ℚ :=
  (L.map fun e => if (φ e.src = i ∧ φ e.dst = j) ∨ (φ e.src = j ∧ φ e.dst = i) then e.cap else 0).sum

theorem pairW_comm (L : List Arc) (φ : ℕ → ℕ) (i j : ℕ) : pairW L φ i j = pairW L φ j i := by
  unfold pairW
  congr 1
  apply List.map_congr_left
  intro e _
  by_cases h : (φ e.src = i ∧ φ e.dst = j) ∨ (φ e.src = j ∧ φ e.dst = i)
  · rw [if_pos h, if_pos h.symm]
  · rw [if_neg h, if_neg fun h' => h h'.symm]

/-- Weight of the edges of `L` crossing `Q` after mapping by `φ`. -/
theorem cross_pairs (hQ : IsPartition I Q) (L : List Arc) (φ : ℕ → ℕ) :
    (L.map fun e => if φ e.src ∈ I ∧ φ e.dst ∈ I ∧ ¬ Same Q (φ e.src) (φ e.dst) then e.cap else 0).sum =
      ∑ p ∈ (I ×ˢ I).filter (fun p => p.1 < p.2 ∧ ¬ Same Q p.1 p.2), pairW L φ p.1 p.2 := by
  induction L with
  | nil => simp [pairW]
  | cons e L ih =>
    rw [List.map_cons, List.sum_cons, ih]
    have hp : ∀ p : ℕ × ℕ, pairW (e :: L) φ p.1 p.2 =
        (if (φ e.src = p.1 ∧ φ e.dst = p.2) ∨ (φ e.src = p.2 ∧ φ e.dst = p.1) then e.cap else 0) +
          pairW L φ p.1 p.2 := by
      intro p; simp [pairW]
    simp only [hp]
    rw [Finset.sum_add_distrib]
    congr 1
    set a := φ e.src
    set b := φ e.dst
    by_cases h : a ∈ I ∧ b ∈ I ∧ ¬ Same Q a b
    · obtain ⟨ha, hb, hs⟩ := h
      have hne : a ≠ b := by
        intro h; rw [h] at hs; exact hs (hQ.same_self hb)
      rw [if_pos ⟨ha, hb, hs⟩, Finset.sum_eq_single (min a b, max a b)]
      · rw [if_pos]
        rcases le_total a b with hle | hle
        · left; simp [hle]
        · right; simp [hle]
      · intro p hp hpne
        rw [if_neg]
        have hlt := ((Finset.mem_filter.1 hp).2).1
        intro h
        apply hpne
        rcases h with ⟨h1, h2⟩ | ⟨h1, h2⟩
        · have : a < b := by rw [h1, h2]; exact hlt
          ext <;> simp [h1, h2, hlt.le]
        · ext <;> simp [h1, h2, hlt.le]
      · intro hn
        exfalso
        apply hn
        rw [Finset.mem_filter, Finset.mem_product]
        rcases lt_or_gt_of_ne hne with hlt | hlt
        · simp [min_eq_left hlt.le, max_eq_right hlt.le, ha, hb, hlt, hs]
        · have hs' : ¬ Same Q b a := fun h => hs h.symm
          simp [min_eq_right hlt.le, max_eq_left hlt.le, ha, hb, hlt, hs']
    · rw [if_neg h, Finset.sum_eq_zero]
      intro p hp
      rw [Finset.mem_filter, Finset.mem_product] at hp
      rw [if_neg]
      rintro (⟨h1, h2⟩ | ⟨h1, h2⟩)
      · exact h ⟨h1 ▸ hp.1.1, h2 ▸ hp.1.2, h1 ▸ h2 ▸ hp.2.2⟩
      · refine h ⟨h1 ▸ hp.1.2, h2 ▸ hp.1.1, fun hs => ?_⟩
        rw [h1, h2] at hs
        exact hp.2.2 hs.symm

/-! ### pulling partitions back along the contraction map -/

/-- The original nodes represented by the nodes in `B`. -/
def pullB (φ : ℕ → ℕ) (V B : Finset ℕ) : Finset ℕ := V.filter fun v => φ v ∈ B

/-- The partition of the original nodes represented by `Q`. -/
def pull (φ : ℕ → ℕ) (V : Finset ℕ) (Q : Partition) : Partition := Q.image (pullB φ V)

theorem mem_pullB {B : Finset ℕ} {v : ℕ} : v ∈ pullB φ V B ↔ v ∈ V ∧ φ v ∈ B := by simp [pullB]

/-- `φ` maps `V` onto a set containing `I`, which it fixes. -/
def Onto (φ : ℕ → ℕ) (V I : Finset ℕ) : Prop := ∀ i ∈ I, i ∈ V ∧ φ i = i

theorem Onto.mono {J : Finset ℕ} (h : Onto φ V I) (hJ : J ⊆ I) : Onto φ V J := fun i hi => h i (hJ hi)

theorem Onto.mem (h : Onto φ V I) {B : Finset ℕ} (hB : B ⊆ I) {i : ℕ} (hi : i ∈ B) :
    i ∈ pullB φ V B := mem_pullB.2 ⟨(h i (hB hi)).1, by rw [(h i (hB hi)).2]; exact hi⟩

theorem pullB_inj (h : Onto φ V I) {A B : Finset ℕ} (hA : A ⊆ I) (hB : B ⊆ I)
    (he : pullB φ V A = pullB φ V B) : A = B := by
  have key : ∀ {A B : Finset ℕ}, A ⊆ I → pullB φ V A = pullB φ V B → A ⊆ B := by
    intro A B hA he i hi
    have h1 := h.mem hA hi
    rw [he] at h1
    have h2 := (mem_pullB.1 h1).2
    rwa [(h i (hA hi)).2] at h2
  exact subset_antisymm (key hA he) (key hB he.symm)

theorem pull_isPartition (h : Onto φ V I) (hQ : IsPartition I Q) :
    IsPartition (pullB φ V I) (pull φ V Q) := by
  rw [isPartition_iff]
  refine ⟨?_, ?_, ?_⟩
  · intro C hC
    obtain ⟨B, hB, rfl⟩ := Finset.mem_image.1 hC
    obtain ⟨i, hi⟩ := hQ.nonempty hB
    refine ⟨⟨i, h.mem (hQ.subset hB) hi⟩, fun v hv => ?_⟩
    rw [mem_pullB] at hv ⊢
    exact ⟨hv.1, hQ.subset hB hv.2⟩
  · intro v hv
    rw [mem_pullB] at hv
    obtain ⟨B, hB, hvB⟩ := hQ.exists_block hv.2
    exact ⟨_, Finset.mem_image_of_mem _ hB, mem_pullB.2 ⟨hv.1, hvB⟩⟩
  · intro C hC D hD v hv hv'
    obtain ⟨B, hB, rfl⟩ := Finset.mem_image.1 hC
    obtain ⟨B', hB', rfl⟩ := Finset.mem_image.1 hD
    rw [hQ.eq_of_mem hB hB' (mem_pullB.1 hv).2 (mem_pullB.1 hv').2]

theorem card_pull (h : Onto φ V I) (hQ : IsPartition I Q) : (pull φ V Q).card = Q.card :=
  Finset.card_image_of_injOn fun _ hA _ hB he => pullB_inj h (hQ.subset hA) (hQ.subset hB) he

theorem same_pull {u v : ℕ} (hu : u ∈ V) (hv : v ∈ V) :
    Same (pull φ V Q) u v ↔ Same Q (φ u) (φ v) := by
  constructor
  · rintro ⟨C, hC, h1, h2⟩
    obtain ⟨B, hB, rfl⟩ := Finset.mem_image.1 hC
    exact ⟨B, hB, (mem_pullB.1 h1).2, (mem_pullB.1 h2).2⟩
  · rintro ⟨B, hB, h1, h2⟩
    exact ⟨_, Finset.mem_image_of_mem _ hB, mem_pullB.2 ⟨hu, h1⟩, mem_pullB.2 ⟨hv, h2⟩⟩

theorem refines_pull (h : Onto φ V I) (hP : IsPartition I P) :
    Refines (pull φ V P) (pull φ V Q) ↔ Refines P Q := by
  constructor
  · intro hr B hB
    obtain ⟨C, hC, hsub⟩ := hr _ (Finset.mem_image_of_mem _ hB)
    obtain ⟨D, hD, rfl⟩ := Finset.mem_image.1 hC
    refine ⟨D, hD, fun i hi => ?_⟩
    have := (mem_pullB.1 (hsub (h.mem (hP.subset hB) hi))).2
    rwa [(h i (hP.subset hB hi)).2] at this
  · intro hr C hC
    obtain ⟨B, hB, rfl⟩ := Finset.mem_image.1 hC
    obtain ⟨D, hD, hsub⟩ := hr B hB
    refine ⟨_, Finset.mem_image_of_mem _ hD, fun v hv => ?_⟩
    rw [mem_pullB] at hv ⊢
    exact ⟨hv.1, hsub hv.2⟩

/-- A partition that does not separate nodes with the same image is pulled back from one of `I`. -/
theorem exists_pull (h : Onto φ V I) (hR : IsPartition (pullB φ V I) R)
    (hr : Refines (pull φ V (singletons I)) R) : ∃ Q, IsPartition I Q ∧ pull φ V Q = R := by
  have hcl : ∀ B ∈ R, ∀ u ∈ B, ∀ v ∈ V, φ v = φ u → v ∈ B := by
    intro B hB u hu v hv he
    have hu' := mem_pullB.1 (hR.subset hB hu)
    obtain ⟨C, hC, hsub⟩ := hr (pullB φ V {φ u})
      (Finset.mem_image_of_mem _ (Finset.mem_image_of_mem _ hu'.2))
    have : B = C := hR.eq_of_mem hB hC hu (hsub (mem_pullB.2 ⟨hu'.1, by simp⟩))
    rw [this]
    exact hsub (mem_pullB.2 ⟨hv, by simp [he]⟩)
  have hpb : ∀ B ∈ R, pullB φ V (B.image φ) = B := by
    intro B hB
    ext v
    rw [mem_pullB, Finset.mem_image]
    constructor
    · rintro ⟨hv, u, hu, he⟩
      exact hcl B hB u hu v hv he.symm
    · intro hv
      exact ⟨(mem_pullB.1 (hR.subset hB hv)).1, v, hv, rfl⟩
  refine ⟨R.image fun B => B.image φ, ?_, ?_⟩
  · rw [isPartition_iff]
    refine ⟨?_, ?_, ?_⟩
    · intro C hC
      obtain ⟨B, hB, rfl⟩ := Finset.mem_image.1 hC
      refine ⟨(hR.nonempty hB).image _, fun i hi => ?_⟩
      obtain ⟨v, hv, rfl⟩ := Finset.mem_image.1 hi
      exact (mem_pullB.1 (hR.subset hB hv)).2
    · intro i hi
      obtain ⟨B, hB, hiB⟩ := hR.exists_block (h.mem subset_rfl hi)
      exact ⟨_, Finset.mem_image_of_mem _ hB, Finset.mem_image.2 ⟨i, hiB, (h i hi).2⟩⟩
    · intro C hC D hD i hi hi'
      obtain ⟨B, hB, rfl⟩ := Finset.mem_image.1 hC
      obtain ⟨B', hB', rfl⟩ := Finset.mem_image.1 hD
      obtain ⟨v, hv, rfl⟩ := Finset.mem_image.1 hi
      obtain ⟨v', hv', he⟩ := Finset.mem_image.1 hi'
      have := hcl B hB v hv v' (mem_pullB.1 (hR.subset hB' hv')).1 he
      rw [hR.eq_of_mem hB hB' this hv']
  · unfold pull
    rw [Finset.image_image]
    ext B
    rw [Finset.mem_image]
    constructor
    · rintro ⟨C, hC, rfl⟩
      simp only [Function.comp, hpb C hC]; exact hC
    · intro hB
      exact ⟨B, hB, hpb B hB⟩

theorem pull_single (φ : ℕ → ℕ) (V I : Finset ℕ) : pull φ V {I} = {pullB φ V I} := by
  simp [pull]

/-! ### the representation invariant -/

/-- The contracted graph `g` represents the graph `(V, E)`: node `i` of `g` stands for the original
nodes `v` with `φ v = i`. -/
structure Rep (E : List Arc) (V : Finset ℕ) (u : ℚ) (g : Digraph) (φ : ℕ → ℕ) : Prop where
  sorted : g.nodes.Pairwise (· < ·)
  good : GoodGraph g.arcs g.nodes.toFinset
  gran : Granular u g.arcs
  sub : ∀ i ∈ g.nodes, i ∈ V
  fix : ∀ i ∈ g.nodes, φ i = i
  maps : ∀ v ∈ V, φ v ∈ g.nodes
  le : ∀ v ∈ V, φ v ≤ v
  weight : ∀ i ∈ g.nodes, ∀ j ∈ g.nodes, i ≠ j → pairW g.arcs id i j = pairW E φ i j

variable {u ε : ℚ} {g : Digraph}

theorem Rep.onto (h : Rep E V u g φ) (hI : I ⊆ g.nodes.toFinset) : Onto φ V I := by
  intro i hi
  have := List.mem_toFinset.1 (hI hi)
  exact ⟨h.sub i this, h.fix i this⟩

/-- Crossing weights in the contracted graph are crossing weights in the original graph. -/
theorem Rep.cross (h : Rep E V u g φ) (hW : Within E V) (hI : I ⊆ g.nodes.toFinset)
    (hQ : IsPartition I Q) :
    crossWeight (induced g.arcs I) Q = crossWeight (induced E (pullB φ V I)) (pull φ V Q) := by
  have h1 : crossWeight (induced g.arcs I) Q = (g.arcs.map fun e =>
      if id e.src ∈ I ∧ id e.dst ∈ I ∧ ¬ Same Q (id e.src) (id e.dst) then e.cap else 0).sum := by
    unfold crossWeight induced
    rw [sum_filter_map]
    congr 1
    apply List.map_congr_left
    intro e _
    simp only [id]
    by_cases hs : Same Q e.src e.dst <;> by_cases hm : e.src ∈ I <;> by_cases hm' : e.dst ∈ I <;>
      simp [hs, hm, hm']
  have h2 : crossWeight (induced E (pullB φ V I)) (pull φ V Q) = (E.map fun e =>
      if φ e.src ∈ I ∧ φ e.dst ∈ I ∧ ¬ Same Q (φ e.src) (φ e.dst) then e.cap else 0).sum := by
    unfold crossWeight induced
    rw [sum_filter_map]
    congr 1
    apply List.map_congr_left
    intro e he
    have hs := same_pull (φ := φ) (Q := Q) (hW e he).1 (hW e he).2
    simp only [mem_pullB, (hW e he).1, (hW e he).2, true_and, hs]
    by_cases hs : Same Q (φ e.src) (φ e.dst) <;> by_cases hm : φ e.src ∈ I <;>
      by_cases hm' : φ e.dst ∈ I <;> simp [hs, hm, hm']
  rw [h1, h2, cross_pairs hQ, cross_pairs hQ]
  apply Finset.sum_congr rfl
  intro p hp
  rw [Finset.mem_filter, Finset.mem_product] at hp
  exact h.weight _ (List.mem_toFinset.1 (hI hp.1.1)) _ (List.mem_toFinset.1 (hI hp.1.2))
    (Nat.ne_of_lt hp.2.1)

theorem Rep.cost (h : Rep E V u g φ) (hW : Within E V) (hI : I ⊆ g.nodes.toFinset)
    (hQ : IsPartition I Q) (lam : ℚ) :
    cost (induced g.arcs I) lam Q = cost (induced E (pullB φ V I)) lam (pull φ V Q) := by
  unfold Spec.cost
  rw [h.cross hW hI hQ, card_pull (h.onto hI) hQ]

theorem Rep.opt_down (h : Rep E V u g φ) (hW : Within E V) (hI : I ⊆ g.nodes.toFinset)
    (hQ : IsPartition I Q) {lam : ℚ}
    (ho : IsOptimal (induced E (pullB φ V I)) (pullB φ V I) lam (pull φ V Q)) :
    IsOptimal (induced g.arcs I) I lam Q := by
  refine ⟨hQ, fun R hR => ?_⟩
  rw [h.cost hW hI hQ, h.cost hW hI hR]
  exact ho.2 _ (pull_isPartition (h.onto hI) hR)

theorem Rep.opt_up (h : Rep E V u g φ) (hE : NonnegE E) (hW : Within E V)
    (hI : I ⊆ g.nodes.toFinset) {lam : ℚ}
    (ho : IsOptimal (induced g.arcs I) I lam Q)
    (hg : ∀ A ∈ pull φ V (singletons I), IsOptimal (induced E A) A lam {A}) :
    IsOptimal (induced E (pullB φ V I)) (pullB φ V I) lam (pull φ V Q) := by
  have hon := h.onto hI
  refine ⟨pull_isPartition hon ho.1, fun R hR => ?_⟩
  have hsp := pull_isPartition hon (isPartition_singletons I)
  obtain ⟨R', hR', hc, hr⟩ := exists_coarser (induced_nonneg hE _) (induced_within E (pullB φ V I))
    (lam := lam) (pull φ V (singletons I)) (fun A hA => ⟨hsp.nonempty hA, hsp.subset hA, by
      rw [induced_induced (hsp.subset hA)]; exact hg A hA⟩) hR
  obtain ⟨Q', hQ', rfl⟩ := exists_pull hon hR' hr
  refine le_trans ?_ hc
  rw [← h.cost hW hI ho.1, ← h.cost hW hI hQ']
  exact ho.2 _ hQ'

/-! ### contraction preserves the representation -/

/-- The map after contracting `S` to `i`. -/
def collapse (S : Finset ℕ) (i : ℕ) (φ : ℕ → ℕ) : ℕ → ℕ := fun v => if φ v ∈ S then i else φ v

theorem pairW_sum (hm : ∀ e ∈ L, φ e.src ∈ I ∧ φ e.dst ∈ I) (S : Finset ℕ) {b : ℕ} (hb : b ∉ S) :
    (L.map fun e => if (φ e.src ∈ S ∧ φ e.dst = b) ∨ (φ e.src = b ∧ φ e.dst ∈ S) then e.cap
      else 0).sum = ∑ s ∈ S ∩ I, pairW L φ s b := by
  induction L with
  | nil => simp [pairW]
  | cons e L ih =>
    have hp : ∀ s, pairW (e :: L) φ s b =
        (if (φ e.src = s ∧ φ e.dst = b) ∨ (φ e.src = b ∧ φ e.dst = s) then e.cap else 0) +
          pairW L φ s b := by
      intro p; simp [pairW]
    rw [List.map_cons, List.sum_cons, ih fun e he => hm e (List.mem_cons_of_mem _ he)]
    simp only [hp]
    rw [Finset.sum_add_distrib]
    congr 1
    obtain ⟨ha, hb'⟩ := hm e List.mem_cons_self
    by_cases h1 : φ e.src ∈ S ∧ φ e.dst = b
    · rw [if_pos (Or.inl h1), Finset.sum_eq_single (φ e.src)]
      · rw [if_pos (Or.inl ⟨rfl, h1.2⟩)]
      · intro s _ hne
        rw [if_neg]
        rintro (⟨h3, _⟩ | ⟨h3, _⟩)
        · exact hne h3.symm
        · exact hb (h3 ▸ h1.1)
      · intro hn
        exact absurd (Finset.mem_inter.2 ⟨h1.1, ha⟩) hn
    · by_cases h2 : φ e.src = b ∧ φ e.dst ∈ S
      · rw [if_pos (Or.inr h2), Finset.sum_eq_single (φ e.dst)]
        · rw [if_pos (Or.inr ⟨h2.1, rfl⟩)]
        · intro s _ hne
          rw [if_neg]
          rintro (⟨_, h3⟩ | ⟨_, h3⟩)
          · exact hb (h3 ▸ h2.2)
          · exact hne h3.symm
        · intro hn
          exact absurd (Finset.mem_inter.2 ⟨h2.2, hb'⟩) hn
      · rw [if_neg (not_or.2 ⟨h1, h2⟩), Finset.sum_eq_zero]
        intro s hs
        rw [if_neg]
        rintro (⟨h3, h4⟩ | ⟨h3, h4⟩)
        · exact h1 ⟨h3 ▸ (Finset.mem_inter.1 hs).1, h4⟩
        · exact h2 ⟨h3, h4 ▸ (Finset.mem_inter.1 hs).1⟩

theorem capacityTo_eq (arcs : List Arc) (S : Finset ℕ) {b : ℕ} (hb : b ∉ S) :
    capacityTo arcs S b = (arcs.map fun e =>
      if (id e.src ∈ S ∧ id e.dst = b) ∨ (id e.src = b ∧ id e.dst ∈ S) then e.cap else 0).sum := by
  unfold capacityTo
  congr 1
  apply List.map_congr_left
  intro e _
  simp only [id]
  by_cases h1 : e.src ∈ S <;> by_cases h2 : e.dst ∈ S
  · have : e.src ≠ b := fun h => hb (h ▸ h1)
    have : e.dst ≠ b := fun h => hb (h ▸ h2)
    simp [*]
  · simp [h1, h2]
  · simp [h1, h2]
  · simp [h1, h2]

theorem granular_capacityTo (h : Granular u L) (S : Finset ℕ) (b : ℕ) :
    ∃ k : ℤ, capacityTo L S b = k * u := by
  unfold capacityTo
  induction L with
  | nil => exact ⟨0, by simp⟩
  | cons e L ih =>
    obtain ⟨k, hk⟩ := ih fun e he => h e (List.mem_cons_of_mem _ he)
    obtain ⟨m, hm⟩ := h e List.mem_cons_self
    rw [List.map_cons, List.sum_cons, hk]
    split_ifs
    · exact ⟨m + k, by rw [hm]; push_cast; ring⟩
    · exact ⟨k, by ring⟩
    · exact ⟨m + k, by rw [hm]; push_cast; ring⟩
    · exact ⟨k, by ring⟩
    · exact ⟨k, by ring⟩

theorem sum_filterMap_single {α β : Type} [DecidableEq α] (l : List α) (hl : l.Nodup) (f : α → Option β)
    (w : β → ℚ) (b : α) (hb : b ∈ l) (h0 : ∀ a ∈ l, a ≠ b → ∀ x, f a = some x → w x = 0) :
    ((l.filterMap f).map w).sum = match f b with | none => 0 | some x => w x := by
  induction l with
  | nil => simp at hb
  | cons a l ih =>
    have hsplit : (((a :: l).filterMap f).map w).sum =
        (match f a with | none => 0 | some x => w x) + ((l.filterMap f).map w).sum := by
      cases hfa : f a with
      | none => rw [List.filterMap_cons_none hfa]; simp
      | some x => rw [List.filterMap_cons_some hfa]; simp
    rw [hsplit]
    by_cases hab : a = b
    · subst hab
      have : ((l.filterMap f).map w).sum = 0 := by
        apply List.sum_eq_zero
        intro y hy
        obtain ⟨x, hx, rfl⟩ := List.mem_map.1 hy
        obtain ⟨c, hc, hcx⟩ := List.mem_filterMap.1 hx
        refine h0 c (List.mem_cons_of_mem _ hc) ?_ x hcx
        rintro rfl
        exact (List.nodup_cons.1 hl).1 hc
      rw [this, add_zero]
    · have hb' : b ∈ l := (List.mem_cons.1 hb).resolve_left fun h => hab h.symm
      rw [ih (List.nodup_cons.1 hl).2 hb' fun c hc => h0 c (List.mem_cons_of_mem _ hc)]
      have hz := h0 a List.mem_cons_self hab
      cases hfa : f a with
      | none => simp
      | some x => simp [hz x hfa]

theorem contractArc_some {S : Finset ℕ} {i v : ℕ} (hi : i ∈ S) {a : Arc}
    (h : contractArc ε L S i v = some a) :
    v ∉ S ∧ a.cap = |capacityTo L S v| ∧
      ((i < v ∧ a.src = i ∧ a.dst = v) ∨ (v < i ∧ a.src = v ∧ a.dst = i)) := by
  unfold contractArc at h
  dsimp only at h
  split_ifs at h with h1 h2
  · rw [not_or] at h1
    cases h
    exact ⟨h1.1, rfl, Or.inl ⟨h2, rfl, rfl⟩⟩
  · rw [not_or] at h1
    cases h
    refine ⟨h1.1, rfl, Or.inr ⟨?_, rfl, rfl⟩⟩
    have : v ≠ i := fun h => h1.1 (h ▸ hi)
    omega

/-- Contraction when no arc of positive weight is dropped. -/
theorem Rep.contract_of (h : Rep E V u g φ) (hW : Within E V) (hu0 : 0 < u) {S : Finset ℕ}
    (hdrop : ∀ b ∈ g.nodes, b ∉ S → |capacityTo g.arcs S b| < ε → capacityTo g.arcs S b = 0)
    {i : ℕ} (hi : i ∈ S) (hin : i ∈ g.nodes) (hmin : ∀ j ∈ S, i ≤ j) :
    Rep E V u (Model.contract ε g S i) (collapse S i φ) := by
  have hnd : g.nodes.Nodup := h.sorted.imp fun h => Nat.ne_of_lt h
  set l := g.nodes.insertionSort (· ≤ ·) with hl
  have hperm : l.Perm g.nodes := List.perm_insertionSort _ _
  have hlnd : l.Nodup := hperm.nodup_iff.2 hnd
  have hmem : ∀ v, v ∈ (Model.contract ε g S i).nodes ↔ v ∈ g.nodes ∧ (v ∈ S → v = i) := by
    intro v
    simp only [Model.contract, List.mem_filter, decide_eq_true_eq, not_and, not_not]
  have hkept : ∀ e, e ∈ (g.arcs.filter fun a => ¬ (a.src = i ∨ a.dst = i) ∧
        ¬ (a.src ∈ S ∧ a.src ≠ i) ∧ ¬ (a.dst ∈ S ∧ a.dst ≠ i)) ↔
      e ∈ g.arcs ∧ e.src ∉ S ∧ e.dst ∉ S := by
    intro e
    simp only [List.mem_filter, decide_eq_true_eq]
    constructor
    · rintro ⟨h1, h2, h3, h4⟩
      rw [not_or] at h2
      exact ⟨h1, fun h => h3 ⟨h, h2.1⟩, fun h => h4 ⟨h, h2.2⟩⟩
    · rintro ⟨h1, h2, h3⟩
      refine ⟨h1, ?_, fun h => h2 h.1, fun h => h3 h.1⟩
      rintro (h | h)
      · exact h2 (h ▸ hi)
      · exact h3 (h ▸ hi)
  have hadd : ∀ a, a ∈ l.filterMap (contractArc ε g.arcs S i) → ∃ v ∈ g.nodes, v ∉ S ∧
      a.cap = |capacityTo g.arcs S v| ∧
      ((i < v ∧ a.src = i ∧ a.dst = v) ∨ (v < i ∧ a.src = v ∧ a.dst = i)) := by
    intro a ha
    obtain ⟨v, hv, hva⟩ := List.mem_filterMap.1 ha
    exact ⟨v, hperm.mem_iff.1 hv, contractArc_some hi hva⟩
  have harcs : (Model.contract ε g S i).arcs = (g.arcs.filter fun a => ¬ (a.src = i ∨ a.dst = i) ∧
        ¬ (a.src ∈ S ∧ a.src ≠ i) ∧ ¬ (a.dst ∈ S ∧ a.dst ≠ i)) ++
      l.filterMap (contractArc ε g.arcs S i) := rfl
  constructor
  · exact h.sorted.filter _
  · constructor
    · intro e he
      rw [harcs, List.mem_append] at he
      rcases he with he | he
      · exact h.good.lowHigh e ((hkept e).1 he).1
      · obtain ⟨v, _, _, _, hv⟩ := hadd e he
        rcases hv with ⟨h1, h2, h3⟩ | ⟨h1, h2, h3⟩ <;> omega
    · intro e he
      rw [harcs, List.mem_append] at he
      simp only [List.mem_toFinset, hmem]
      rcases he with he | he
      · obtain ⟨h1, h2, h3⟩ := (hkept e).1 he
        have := h.good.within e h1
        simp only [List.mem_toFinset] at this
        exact ⟨⟨this.1, fun h => absurd h h2⟩, this.2, fun h => absurd h h3⟩
      · obtain ⟨v, hv1, hv2, _, hv⟩ := hadd e he
        rcases hv with ⟨_, h2, h3⟩ | ⟨_, h2, h3⟩
        · rw [h2, h3]; exact ⟨⟨hin, fun _ => rfl⟩, hv1, fun h => absurd h hv2⟩
        · rw [h2, h3]; exact ⟨⟨hv1, fun h => absurd h hv2⟩, hin, fun _ => rfl⟩
    · unfold SimpleE
      rw [harcs, List.pairwise_append]
      refine ⟨h.good.simple.filter _, ?_, ?_⟩
      · rw [List.pairwise_filterMap]
        refine hlnd.imp ?_
        intro v w hvw a ha b hb
        obtain ⟨_, _, ha⟩ := contractArc_some hi ha
        obtain ⟨_, _, hb⟩ := contractArc_some hi hb
        omega
      · intro a ha b hb
        obtain ⟨_, h2, h3⟩ := (hkept a).1 ha
        obtain ⟨v, _, _, _, hv⟩ := hadd b hb
        rintro ⟨h4, h5⟩
        rcases hv with ⟨_, h6, h7⟩ | ⟨_, h6, h7⟩
        · exact h2 (h4 ▸ h6 ▸ hi)
        · exact h3 (h5 ▸ h7 ▸ hi)
    · intro e he
      rw [harcs, List.mem_append] at he
      rcases he with he | he
      · exact h.good.nonneg e ((hkept e).1 he).1
      · obtain ⟨v, _, _, hc, _⟩ := hadd e he
        rw [hc]; exact abs_nonneg _
  · intro e he
    rw [harcs, List.mem_append] at he
    rcases he with he | he
    · exact h.gran e ((hkept e).1 he).1
    · obtain ⟨v, _, _, hc, _⟩ := hadd e he
      obtain ⟨k, hk⟩ := granular_capacityTo h.gran S v
      refine ⟨|k|, ?_⟩
      rw [hc, hk, abs_mul, abs_of_pos hu0]
      push_cast
      rfl
  · intro v hv
    exact h.sub v ((hmem v).1 hv).1
  · intro v hv
    obtain ⟨h1, h2⟩ := (hmem v).1 hv
    unfold collapse
    rw [h.fix v h1]
    split_ifs with h3
    · exact (h2 h3).symm
    · rfl
  · intro v hv
    rw [hmem]
    unfold collapse
    split_ifs with h3
    · exact ⟨hin, fun _ => rfl⟩
    · exact ⟨h.maps v hv, fun h => absurd h h3⟩
  · intro v hv
    unfold collapse
    split_ifs with h3
    · exact (hmin _ h3).trans (h.le v hv)
    · exact h.le v hv
  · -- weights
    have hwN : ∀ e ∈ g.arcs, id e.src ∈ g.nodes.toFinset ∧ id e.dst ∈ g.nodes.toFinset :=
      fun e he => h.good.within e he
    have hwE : ∀ e ∈ E, φ e.src ∈ g.nodes.toFinset ∧ φ e.dst ∈ g.nodes.toFinset := fun e he =>
      ⟨List.mem_toFinset.2 (h.maps _ (hW e he).1), List.mem_toFinset.2 (h.maps _ (hW e he).2)⟩
    -- one end is `i`
    have hone : ∀ b ∈ g.nodes, b ∉ S →
        pairW (Model.contract ε g S i).arcs id i b = pairW E (collapse S i φ) i b := by
      intro b hb hbS
      have hib : i ≠ b := fun h => hbS (h ▸ hi)
      have hcE : pairW E (collapse S i φ) i b = capacityTo g.arcs S b := by
        rw [capacityTo_eq _ _ hbS, pairW_sum hwN S hbS]
        have : pairW E (collapse S i φ) i b = (E.map fun e =>
            if (φ e.src ∈ S ∧ φ e.dst = b) ∨ (φ e.src = b ∧ φ e.dst ∈ S) then e.cap else 0).sum := by
          unfold pairW
          congr 1
          apply List.map_congr_left
          intro e _
          have hci : ∀ v, v ∈ ({e.src, e.dst} : Finset ℕ) → (collapse S i φ v = b ↔ φ v = b) := by
            intro v _
            unfold collapse
            split_ifs with h3
            · exact ⟨fun h => absurd h hib, fun h => absurd (h ▸ h3) hbS⟩
            · rfl
          have hcS : ∀ v, collapse S i φ v = i ↔ φ v ∈ S := by
            intro v
            unfold collapse
            split_ifs with h3
            · simp [h3]
            · exact ⟨fun h => absurd (h ▸ hi) h3, fun h => absurd h h3⟩
          simp only [hcS, hci e.src (by simp), hci e.dst (by simp)]
        rw [this, pairW_sum hwE S hbS]
        apply Finset.sum_congr rfl
        intro s hs
        rw [Finset.mem_inter, List.mem_toFinset] at hs
        exact (h.weight s hs.2 b hb fun h => hbS (h ▸ hs.1)).symm
      rw [hcE]
      have hnn : 0 ≤ capacityTo g.arcs S b := by
        rw [capacityTo_eq _ _ hbS]
        apply List.sum_nonneg
        intro x hx
        obtain ⟨e, he, rfl⟩ := List.mem_map.1 hx
        split_ifs
        · exact h.good.nonneg e he
        · exact le_rfl
      unfold pairW
      rw [harcs, List.map_append, List.sum_append]
      have hz : ((g.arcs.filter fun a => ¬ (a.src = i ∨ a.dst = i) ∧
          ¬ (a.src ∈ S ∧ a.src ≠ i) ∧ ¬ (a.dst ∈ S ∧ a.dst ≠ i)).map fun e =>
          if (id e.src = i ∧ id e.dst = b) ∨ (id e.src = b ∧ id e.dst = i) then e.cap else 0).sum = 0 := by
        apply List.sum_eq_zero
        intro x hx
        obtain ⟨e, he, rfl⟩ := List.mem_map.1 hx
        obtain ⟨_, h2, h3⟩ := (hkept e).1 he
        rw [if_neg]
        rintro (⟨h4, _⟩ | ⟨_, h4⟩)
        · exact h2 (by simp only [id] at h4; rw [h4]; exact hi)
        · exact h3 (by simp only [id] at h4; rw [h4]; exact hi)
      rw [hz, zero_add, sum_filterMap_single l hlnd (contractArc ε g.arcs S i) _ b (hperm.mem_iff.2 hb)]
      · cases hca : contractArc ε g.arcs S i b with
        | none =>
          dsimp only
          unfold contractArc at hca
          dsimp only at hca
          split_ifs at hca with h1
          exact (hdrop b hb hbS (h1.resolve_left hbS)).symm
        | some a =>
          dsimp only
          obtain ⟨_, hc, hv⟩ := contractArc_some hi hca
          rw [if_pos, hc, abs_of_nonneg hnn]
          simp only [id]
          rcases hv with ⟨_, h2, h3⟩ | ⟨_, h2, h3⟩
          · exact Or.inl ⟨h2, h3⟩
          · exact Or.inr ⟨h2, h3⟩
      · intro v _ hvb a hva
        obtain ⟨_, _, hv⟩ := contractArc_some hi hva
        rw [if_neg]
        simp only [id]
        omega
    intro a ha b hb hab
    obtain ⟨ha1, ha2⟩ := (hmem a).1 ha
    obtain ⟨hb1, hb2⟩ := (hmem b).1 hb
    by_cases haS : a ∈ S
    · have hai := ha2 haS
      rw [hai]
      apply hone b hb1
      intro hbS
      exact hab (hai.trans (hb2 hbS).symm)
    · by_cases hbS : b ∈ S
      · rw [hb2 hbS, pairW_comm, pairW_comm E]
        exact hone a ha1 haS
      · have hbi : b ≠ i := fun h => hbS (h ▸ hi)
        have hai : a ≠ i := fun h => haS (h ▸ hi)
        have hE' : pairW E (collapse S i φ) a b = pairW E φ a b := by
          unfold pairW
          congr 1
          apply List.map_congr_left
          intro e _
          have hc : ∀ v c, c ∉ S → (collapse S i φ v = c ↔ φ v = c) := by
            intro v c hcS
            unfold collapse
            split_ifs with h3
            · exact ⟨fun h => absurd (h ▸ hi) hcS, fun h => absurd (h ▸ h3) hcS⟩
            · rfl
          simp only [hc _ a haS, hc _ b hbS]
        rw [hE', ← h.weight a ha1 b hb1 hab]
        unfold pairW
        rw [harcs, List.map_append, List.sum_append]
        have hz : ((l.filterMap (contractArc ε g.arcs S i)).map fun e =>
            if (id e.src = a ∧ id e.dst = b) ∨ (id e.src = b ∧ id e.dst = a) then e.cap else 0).sum
            = 0 := by
          apply List.sum_eq_zero
          intro x hx
          obtain ⟨e, he, rfl⟩ := List.mem_map.1 hx
          obtain ⟨v, _, _, _, hv⟩ := hadd e he
          rw [if_neg]
          simp only [id]
          omega
        rw [hz, add_zero, sum_filter_map]
        congr 1
        apply List.map_congr_left
        intro e he
        simp only [id]
        by_cases hp : (e.src = a ∧ e.dst = b) ∨ (e.src = b ∧ e.dst = a)
        · rw [if_pos hp, if_pos]
          rcases hp with ⟨h1, h2⟩ | ⟨h1, h2⟩
          · rw [h1, h2]; simp [haS, hbS, hai, hbi]
          · rw [h1, h2]; simp [haS, hbS, hai, hbi]
        · rw [if_neg hp]; simp

theorem Rep.contract (h : Rep E V u g φ) (hW : Within E V) (hu : ε ≤ u)
    (hε : 0 < ε) {S : Finset ℕ}
    {i : ℕ} (hi : i ∈ S) (hin : i ∈ g.nodes) (hmin : ∀ j ∈ S, i ≤ j) :
    Rep E V u (Model.contract ε g S i) (collapse S i φ) := by
  have hu0 : 0 < u := lt_of_lt_of_le hε hu
  refine h.contract_of hW hu0 (fun b _ _ hsmall => ?_) hi hin hmin
  obtain ⟨k, hk⟩ := granular_capacityTo h.gran S b
  rw [hk, abs_mul, abs_of_pos hu0] at hsmall
  have hk1 : (|k| : ℚ) < 1 := by
    by_contra hge
    push Not at hge
    nlinarith
  have hk0 : k = 0 := by
    have : |k| < 1 := by exact_mod_cast hk1
    exact Int.abs_lt_one_iff.1 this
  rw [hk, hk0]; simp

end PSP.Theory
