import Verif.Spec.Forest
import Verif.Theory.Spectrum
import Verif.Theory.AICRun

/-!
# Theory: single linkage and the principal sequence
-/

namespace PSP.Theory

open PSP.Spec PSP.Model Relation

variable {V : Finset ℕ} {P : Finset (Finset ℕ)} {E : List Arc} {lam γ : ℚ}

/-! ### links above the parameter lie in the blocks -/

/-- Merging two blocks. -/
theorem merge_two (hP : IsPartition V P) {B C : Finset ℕ} (hB : B ∈ P) (hC : C ∈ P) (hne : B ≠ C) (h : Finset ℕ → ℚ) :
    IsPartition V (insert (B ∪ C) ((P.erase B).erase C)) ∧
      costSF h lam (insert (B ∪ C) ((P.erase B).erase C)) = costSF h lam P - (h B + h C - h (B ∪ C)) + lam := by
  have hnot : B ∪ C ∉ (P.erase B).erase C := by
    intro hm
    rw [Finset.mem_erase, Finset.mem_erase] at hm
    obtain ⟨v, hv⟩ := hP.nonempty hB
    exact hm.2.1 (hP.eq_of_mem hm.2.2 hB (Finset.mem_union_left _ hv) hv)
  refine ⟨?_, ?_⟩
  · rw [isPartition_iff]
    refine ⟨fun D hD => ?_, fun v hv => ?_, ?_⟩
    · rcases Finset.mem_insert.1 hD with rfl | hD
      · exact ⟨(hP.nonempty hB).mono Finset.subset_union_left, Finset.union_subset (hP.subset hB) (hP.subset hC)⟩
      · rw [Finset.mem_erase, Finset.mem_erase] at hD
        exact ⟨hP.nonempty hD.2.2, hP.subset hD.2.2⟩
    · obtain ⟨D, hD, hvD⟩ := hP.exists_block hv
      by_cases h1 : D = B
      · exact ⟨_, Finset.mem_insert_self _ _, Finset.mem_union_left _ (h1 ▸ hvD)⟩
      by_cases h2 : D = C
      · exact ⟨_, Finset.mem_insert_self _ _, Finset.mem_union_right _ (h2 ▸ hvD)⟩
      exact ⟨D, Finset.mem_insert_of_mem (by simp [h1, h2, hD]), hvD⟩
    · have key : ∀ D ∈ (P.erase B).erase C, ∀ v ∈ D, v ∉ B ∪ C := by
        intro D hD v hv hvu
        rw [Finset.mem_erase, Finset.mem_erase] at hD
        rcases Finset.mem_union.1 hvu with h1 | h1
        · exact hD.2.1 (hP.eq_of_mem hD.2.2 hB hv h1)
        · exact hD.1 (hP.eq_of_mem hD.2.2 hC hv h1)
      intro D hD D' hD' v hv hv'
      rcases Finset.mem_insert.1 hD with rfl | hD <;> rcases Finset.mem_insert.1 hD' with rfl | hD'
      · rfl
      · exact absurd hv (key _ hD' _ hv')
      · exact absurd hv' (key _ hD _ hv)
      · rw [Finset.mem_erase, Finset.mem_erase] at hD hD'
        exact hP.eq_of_mem hD.2.2 hD'.2.2 hv hv'
  · unfold costSF
    rw [Finset.sum_insert hnot]
    have e1 := Finset.add_sum_erase P (fun D => h D - lam) hB
    have e2 := Finset.add_sum_erase (P.erase B) (fun D => h D - lam) (Finset.mem_erase.2 ⟨hne.symm, hC⟩)
    linarith

/-- Sets have at least the mutual information of their elements. -/
theorem pair_le {h : Finset ℕ → ℚ} (hh : Intersecting V h) {B C : Finset ℕ} (hB : B ⊆ V) (hC : C ⊆ V) (hd : Disjoint B C)
    {x y : ℕ} (hx : x ∈ B) (hy : y ∈ C) : h {x} + h {y} - h {x, y} ≤ h B + h C - h (B ∪ C) := by
  have hyB : y ∉ B := fun hyB => Finset.disjoint_left.1 hd hyB hy
  have hs : ∀ {T : Finset ℕ} {v : ℕ}, T ⊆ V → v ∈ V → insert v T ⊆ V := fun hT hv => Finset.insert_subset hv hT
  -- first `B` and `{y}` against `{x}` and `{y}`
  have h1 := hh B {x, y} hB (hs (Finset.singleton_subset_iff.2 (hC hy)) (hB hx))
    ⟨x, Finset.mem_inter.2 ⟨hx, by simp⟩⟩
  have e1 : B ∪ {x, y} = insert y B := by
    ext v; simp only [Finset.mem_union, Finset.mem_insert, Finset.mem_singleton]
    constructor
    · rintro (h | rfl | h)
      · exact .inr h
      · exact .inr hx
      · exact .inl h
    · rintro (h | h)
      · exact .inr (.inr h)
      · exact .inl h
  have e2 : B ∩ {x, y} = {x} := by
    ext v; simp only [Finset.mem_inter, Finset.mem_insert, Finset.mem_singleton]
    constructor
    · rintro ⟨h, rfl | rfl⟩
      · rfl
      · exact absurd h hyB
    · rintro rfl; exact ⟨hx, .inl rfl⟩
  have h2 := hh C (insert y B) hC (hs hB (hC hy)) ⟨y, Finset.mem_inter.2 ⟨hy, by simp⟩⟩
  have e3 : C ∪ insert y B = B ∪ C := by
    ext v; simp only [Finset.mem_union, Finset.mem_insert]
    constructor
    · rintro (h | rfl | h)
      · exact .inr h
      · exact .inr hy
      · exact .inl h
    · rintro (h | h)
      · exact .inr (.inr h)
      · exact .inl h
  have e4 : C ∩ insert y B = {y} := by
    ext v; simp only [Finset.mem_inter, Finset.mem_insert, Finset.mem_singleton]
    constructor
    · rintro ⟨h, h' | h'⟩
      · exact h'
      · exact absurd h (Finset.disjoint_left.1 hd h')
    · rintro rfl; exact ⟨hy, .inl rfl⟩
  rw [e1, e2] at h1
  rw [e3, e4] at h2
  linarith

/-- Two elements with mutual information above the parameter lie in one block of every optimal partition. -/
theorem same_of_pair {h : Finset ℕ → ℚ} (hh : Intersecting V h) (hP : IsOptimalSF h V lam P) {x y : ℕ} (hx : x ∈ V)
    (hy : y ∈ V) (hxy : lam < h {x} + h {y} - h {x, y}) : Same P x y := by
  obtain ⟨B, hB, hxB⟩ := hP.1.exists_block hx
  obtain ⟨C, hC, hyC⟩ := hP.1.exists_block hy
  by_cases hne : B = C
  · exact ⟨B, hB, hxB, hne ▸ hyC⟩
  exfalso
  obtain ⟨h1, h2⟩ := merge_two (lam := lam) hP.1 hB hC hne h
  have h3 := hP.2 _ h1
  have h4 := pair_le hh (hP.1.subset hB) (hP.1.subset hC) (hP.1.disjoint hB hC hne) hxB hyC
  linarith

theorem same_of_eqvGen {R : ℕ → ℕ → Prop} (hP : IsPartition V P) (hR : ∀ x y, R x y → Same P x y) {u v : ℕ}
    (h : EqvGen R u v) : u = v ∨ Same P u v := by
  induction h with
  | rel x y h => exact .inr (hR x y h)
  | refl x => exact .inl rfl
  | symm x y _ ih =>
    rcases ih with rfl | ih
    · exact .inl rfl
    · exact .inr ih.symm
  | trans x y z _ _ i1 i2 =>
    rcases i1 with rfl | i1
    · exact i2
    rcases i2 with rfl | i2
    · exact .inr i1
    exact .inr (i1.trans hP i2)

theorem eqvGen_le {R T : ℕ → ℕ → Prop} (h : ∀ x y, R x y → T x y) {u v : ℕ} (hR : EqvGen R u v) : EqvGen T u v := by
  induction hR with
  | rel x y hxy => exact EqvGen.rel _ _ (h x y hxy)
  | refl x => exact EqvGen.refl x
  | symm x y _ ih => exact ih.symm _ _
  | trans x y z _ _ i1 i2 => exact i1.trans _ _ _ i2

theorem optimalSF_of_optimal (hW : Within E V) (hP : IsOptimal E V lam P) : IsOptimalSF (incident E) V lam P := by
  refine ⟨hP.1, fun R hR => ?_⟩
  have := hP.2 R hR
  rw [costSF_eq, costSF_eq, sum_incident hW hP.1, sum_incident hW hR]
  unfold cost at this
  linarith

/-- The edges with the ends `x` and `y` weigh what these nodes have in common. -/
theorem incident_pair (hE : NonnegE E) {e : Arc} (he : e ∈ E) :
    e.cap ≤ incident E {e.src} + incident E {e.dst} - incident E {e.src, e.dst} := by
  have h1 : ∀ (D : List Arc), NonnegE D → 0 ≤ incident D {e.src} + incident D {e.dst} - incident D {e.src, e.dst} := by
    intro D hD
    have := incident_submodular hD {e.src} {e.dst}
    rw [show ({e.src} : Finset ℕ) ∪ {e.dst} = {e.src, e.dst} from rfl] at this
    have := incident_mono hD (Finset.empty_subset ({e.src} ∩ {e.dst} : Finset ℕ))
    rw [incident_empty] at this
    linarith
  obtain ⟨A, B, rfl⟩ := List.append_of_mem he
  have h2 := h1 (A ++ B) fun x hx => hE x (by
    rcases List.mem_append.1 hx with h | h <;> simp [h])
  have h3 : ∀ S : Finset ℕ, incident (A ++ e :: B) S =
      incident (A ++ B) S + if e.src ∈ S ∨ e.dst ∈ S then e.cap else 0 := by
    intro S
    simp only [incident, List.map_append, List.sum_append, List.map_cons, List.sum_cons]
    ring
  rw [h3, h3, h3]
  simp
  linarith

/-- Links above the parameter are inside the blocks of every optimal partition. -/
theorem same_of_joined (hE : NonnegE E) (hW : Within E V) (hP : IsOptimal E V lam P) {u v : ℕ}
    (h : Joined (links E) (lam : ℚ) u v) : u = v ∨ Same P u v := by
  refine same_of_eqvGen hP.1 ?_ h
  rintro x y ⟨a, ha, rfl, rfl, hlt⟩
  obtain ⟨e, he, rfl⟩ := List.mem_map.1 ha
  exact same_of_pair (incident_intersecting hE V) (optimalSF_of_optimal hW hP) (hW e he).1 (hW e he).2
    (lt_of_lt_of_le (WithBot.coe_lt_coe.1 hlt) (incident_pair hE he))

/-! ### blocks are joined by links -/

/-- Breaking a block of an optimal partition in two cuts edges of at least the parameter. -/
theorem break_block (hW : Within E V) (hP : IsOptimal E V lam P) {B : Finset ℕ} (hB : B ∈ P) {S : Finset ℕ} (hS : S ⊆ B)
    (h1 : S.Nonempty) (h2 : S ≠ B) :
    lam ≤ ((induced E B).map fun e => if (e.src ∈ S ↔ e.dst ∈ S) then 0 else e.cap).sum := by
  have hd : (B \ S).Nonempty := by
    rw [Finset.sdiff_nonempty]
    exact fun h => h2 (Finset.Subset.antisymm hS h)
  have hne : S ≠ B \ S := by
    intro h
    obtain ⟨v, hv⟩ := h1
    exact (Finset.mem_sdiff.1 (h ▸ hv)).2 hv
  have hQ : IsPartition B {S, B \ S} := by
    rw [isPartition_iff]
    refine ⟨?_, fun v hv => ?_, ?_⟩
    · intro C hC
      rcases Finset.mem_insert.1 hC with rfl | hC
      · exact ⟨h1, hS⟩
      · rw [Finset.mem_singleton.1 hC]
        exact ⟨hd, Finset.sdiff_subset⟩
    · by_cases h : v ∈ S
      · exact ⟨S, by simp, h⟩
      · exact ⟨B \ S, by simp, Finset.mem_sdiff.2 ⟨hv, h⟩⟩
    · intro C hC D hD v hvC hvD
      rcases Finset.mem_insert.1 hC with rfl | hC <;> rcases Finset.mem_insert.1 hD with rfl | hD
      · rfl
      · rw [Finset.mem_singleton.1 hD] at hvD
        exact absurd hvC (Finset.mem_sdiff.1 hvD).2
      · rw [Finset.mem_singleton.1 hC] at hvC
        exact absurd hvD (Finset.mem_sdiff.1 hvC).2
      · rw [Finset.mem_singleton.1 hC, Finset.mem_singleton.1 hD]
  have h3 := (hP.block hW hB).2 _ hQ
  unfold cost at h3
  rw [crossWeight_single (induced_within E B), Finset.card_singleton, Finset.card_pair hne] at h3
  have h4 : crossWeight (induced E B) {S, B \ S} =
      ((induced E B).map fun e => if (e.src ∈ S ↔ e.dst ∈ S) then 0 else e.cap).sum := by
    unfold crossWeight
    congr 1
    refine List.map_congr_left fun e he => ?_
    obtain ⟨a, b⟩ := induced_within E B e he
    have : Same {S, B \ S} e.src e.dst ↔ (e.src ∈ S ↔ e.dst ∈ S) := by
      unfold Same
      simp only [Finset.mem_insert, Finset.mem_singleton, exists_eq_or_imp, exists_eq_left, Finset.mem_sdiff, a, b,
        true_and]
      tauto
    simp only [this]
  rw [← h4]
  push_cast at h3
  linarith

/-- If every broken edge inside a block weighs at most something, the block is connected above it. -/
theorem joined_of_cut (hW : Within E V) (hP : IsOptimal E V lam P) {B : Finset ℕ} (hB : B ∈ P) {R : ℕ → ℕ → Prop}
    (hcut : ∀ u ∈ B, ∀ S ⊆ B, (∀ v, v ∈ S ↔ v ∈ B ∧ EqvGen R u v) → S ≠ B →
      ((induced E B).map fun e => if (e.src ∈ S ↔ e.dst ∈ S) then 0 else e.cap).sum < lam)
    {u v : ℕ} (hu : u ∈ B) (hv : v ∈ B) : EqvGen R u v := by
  classical
  set S := B.filter fun v => EqvGen R u v with hS
  have hm : ∀ v, v ∈ S ↔ v ∈ B ∧ EqvGen R u v := fun v => Finset.mem_filter
  by_cases h : S = B
  · rw [← h] at hv
    exact ((hm v).1 hv).2
  · exfalso
    have h1 := break_block hW hP hB (Finset.filter_subset _ _) ⟨u, (hm u).2 ⟨hu, EqvGen.refl u⟩⟩ h
    have h2 := hcut u hu S (Finset.filter_subset _ _) hm h
    linarith

/-- In a forest, the blocks of a partition that is optimal above `γ` are connected by links above `γ`. -/
theorem forest_joined (hf : IsForest E) (hW : Within E V) (h0 : 0 ≤ γ) (hlt : γ < lam) (hP : IsOptimal E V lam P)
    {B : Finset ℕ} (hB : B ∈ P) {u v : ℕ} (hu : u ∈ B) (hv : v ∈ B) : Joined (links E) (γ : ℚ) u v := by
  classical
  have hall : ∀ e ∈ E, e.src ∈ B → e.dst ∈ B → γ < e.cap := by
    intro e he hs hd
    by_contra hle
    rw [not_lt] at hle
    obtain ⟨A, C, hAC⟩ := List.append_of_mem he
    have hno := hf A e C hAC
    set S := B.filter fun v => Joined (links (A ++ C)) ⊥ e.src v with hS
    have hm : ∀ v, v ∈ S ↔ v ∈ B ∧ Joined (links (A ++ C)) ⊥ e.src v := fun v => Finset.mem_filter
    have h1 := break_block hW hP hB (Finset.filter_subset _ _) ⟨e.src, (hm _).2 ⟨hs, EqvGen.refl _⟩⟩
      (fun h => hno ((hm _).1 (by rw [hS, h]; exact hd)).2)
    have hz : ∀ D : List Arc, (∀ a ∈ D, a ∈ A ++ C) →
        ((induced D B).map fun e => if (e.src ∈ S ↔ e.dst ∈ S) then 0 else e.cap).sum = 0 := by
      intro D hD
      refine List.sum_eq_zero fun x hx => ?_
      obtain ⟨a, ha, rfl⟩ := List.mem_map.1 hx
      obtain ⟨haD, has, had⟩ := mem_induced.1 ha
      have hj : Joined (links (A ++ C)) ⊥ a.src a.dst :=
        EqvGen.rel _ _ ⟨⟨a.src, a.dst, a.cap⟩, List.mem_map.2 ⟨a, hD a haD, rfl⟩, rfl, rfl, WithBot.bot_lt_coe _⟩
      rw [if_pos]
      rw [hm, hm]
      exact ⟨fun h => ⟨had, h.2.trans _ _ _ hj⟩, fun h => ⟨has, h.2.trans _ _ _ (hj.symm _ _)⟩⟩
    have he' : ((induced E B).map fun e => if (e.src ∈ S ↔ e.dst ∈ S) then 0 else e.cap).sum ≤ max e.cap 0 := by
      rw [hAC]
      unfold induced at hz ⊢
      rw [List.filter_append, List.filter_cons, if_pos (by simp [hs, hd]), List.map_append, List.sum_append, List.map_cons,
        List.sum_cons, hz A (fun a h => List.mem_append_left _ h), hz C (fun a h => List.mem_append_right _ h)]
      split_ifs <;> simp
    rcases le_total e.cap 0 with hc | hc
    · rw [max_eq_right hc] at he'; linarith
    · rw [max_eq_left hc] at he'; linarith
  refine eqvGen_le ?_ (joined_of_cut (R := fun x y => ∃ e ∈ E, e.src = x ∧ e.dst = y ∧ x ∈ B ∧ y ∈ B) hW hP hB ?_ hu hv)
  · rintro x y ⟨e, he, rfl, rfl, hs, hd⟩
    exact ⟨⟨e.src, e.dst, e.cap⟩, List.mem_map.2 ⟨e, he, rfl⟩, rfl, rfl, WithBot.coe_lt_coe.2 (hall e he hs hd)⟩
  · intro u hu S hS hm hne
    refine lt_of_le_of_lt (le_of_eq (List.sum_eq_zero fun x hx => ?_)) (lt_of_le_of_lt h0 hlt)
    obtain ⟨a, ha, rfl⟩ := List.mem_map.1 hx
    obtain ⟨haD, has, had⟩ := mem_induced.1 ha
    have hj : EqvGen (fun x y => ∃ e ∈ E, e.src = x ∧ e.dst = y ∧ x ∈ B ∧ y ∈ B) a.src a.dst :=
      EqvGen.rel _ _ ⟨a, haD, rfl, rfl, has, had⟩
    rw [if_pos]
    rw [hm, hm]
    exact ⟨fun h => ⟨had, h.2.trans _ _ _ hj⟩, fun h => ⟨has, h.2.trans _ _ _ (hj.symm _ _)⟩⟩

/-- In any simple graph, the blocks of a partition that is optimal above `γ` are connected by links above `4 γ / n²`. -/
theorem blocks_joined {n : ℕ} (hv : ValidInput n E) (hW : Within E V) (hn : V.card ≤ n) {δ : ℚ} (h0 : 0 ≤ γ)
    (hδ : δ * n ^ 2 ≤ 4 * γ) (hlt : γ < lam) (hP : IsOptimal E V lam P) {B : Finset ℕ} (hB : B ∈ P) {u v : ℕ} (hu : u ∈ B)
    (hv' : v ∈ B) : Joined (links E) (δ : ℚ) u v := by
  classical
  refine joined_of_cut hW hP hB (fun u hu S hS hm hne => lt_of_le_of_lt ?_ hlt) hu hv'
  set D := (induced E B).filter fun e => ¬ (e.src ∈ S ↔ e.dst ∈ S) with hD
  have hDm : ∀ e, e ∈ D ↔ e ∈ E ∧ e.src ∈ B ∧ e.dst ∈ B ∧ ¬ (e.src ∈ S ↔ e.dst ∈ S) := by
    intro e
    rw [hD, List.mem_filter, mem_induced]
    simp [and_assoc]
  have hsum : ((induced E B).map fun e => if (e.src ∈ S ↔ e.dst ∈ S) then 0 else e.cap).sum = (D.map Arc.cap).sum := by
    rw [hD]
    induction induced E B with
    | nil => rfl
    | cons e l ih =>
      by_cases h : (e.src ∈ S ↔ e.dst ∈ S)
      · simp only [List.map_cons, List.sum_cons, if_pos h, ih, zero_add]
        rw [List.filter_cons, if_neg (by simp [h])]
      · simp only [List.map_cons, List.sum_cons, if_neg h, ih]
        rw [List.filter_cons, if_pos (by simpa using h), List.map_cons, List.sum_cons]
  have hle : ∀ e ∈ D, e.cap ≤ δ := by
    intro e he
    obtain ⟨h1, h2, h3, h4⟩ := (hDm e).1 he
    by_contra hcon
    rw [not_le] at hcon
    have hj : Joined (links E) (δ : ℚ) e.src e.dst :=
      EqvGen.rel _ _ ⟨⟨e.src, e.dst, e.cap⟩, List.mem_map.2 ⟨e, h1, rfl⟩, rfl, rfl, WithBot.coe_lt_coe.2 hcon⟩
    apply h4
    rw [hm, hm]
    exact ⟨fun h => ⟨h3, h.2.trans _ _ _ hj⟩, fun h => ⟨h2, h.2.trans _ _ _ (hj.symm _ _)⟩⟩
  have hlen : D.length ≤ S.card * (B \ S).card := by
    set f : Arc → ℕ × ℕ := fun e => if e.src ∈ S then (e.src, e.dst) else (e.dst, e.src) with hf
    have hnd : (D.map f).Nodup := by
      rw [List.Nodup, List.pairwise_map]
      have hp : D.Pairwise fun a b => ¬ (a.src = b.src ∧ a.dst = b.dst) :=
        (hv.simple.sublist ((List.filter_sublist).trans List.filter_sublist))
      refine hp.imp_of_mem fun {a b} ha hb hab heq => ?_
      have la := (hv.lowHigh a ((hDm a).1 ha).1).1
      have lb := (hv.lowHigh b ((hDm b).1 hb).1).1
      simp only [hf] at heq
      split_ifs at heq <;> rw [Prod.mk.injEq] at heq
      · exact hab heq
      · omega
      · omega
      · exact hab ⟨heq.2, heq.1⟩
    calc D.length = (D.map f).toFinset.card := by rw [List.toFinset_card_of_nodup hnd, List.length_map]
      _ ≤ (S ×ˢ (B \ S)).card := by
        refine Finset.card_le_card fun p hp => ?_
        rw [List.mem_toFinset, List.mem_map] at hp
        obtain ⟨e, he, rfl⟩ := hp
        obtain ⟨h1, h2, h3, h4⟩ := (hDm e).1 he
        simp only [hf]
        split_ifs with hs
        · exact Finset.mem_product.2 ⟨hs, Finset.mem_sdiff.2 ⟨h3, fun h => h4 ⟨fun _ => h, fun _ => hs⟩⟩⟩
        · have hd : e.dst ∈ S := by
            by_contra hd
            exact h4 ⟨fun h => absurd h hs, fun h => absurd h hd⟩
          exact Finset.mem_product.2 ⟨hd, Finset.mem_sdiff.2 ⟨h2, hs⟩⟩
      _ = _ := Finset.card_product _ _
  rw [hsum]
  rcases lt_or_ge δ 0 with hneg | hpos
  · have hnil : D = [] := by
      rw [List.eq_nil_iff_forall_not_mem]
      intro e he
      have := hle e he
      have := hv.nonneg e ((hDm e).1 he).1
      linarith
    rw [hnil]
    simpa using h0
  · have h1 : (D.map Arc.cap).sum ≤ D.length * δ := by
      have := List.sum_le_card_nsmul (D.map Arc.cap) δ (by
        intro x hx
        obtain ⟨e, he, rfl⟩ := List.mem_map.1 hx
        exact hle e he)
      rwa [List.length_map, nsmul_eq_mul] at this
    have h2 : (D.length : ℚ) ≤ S.card * (B \ S).card := by exact_mod_cast hlen
    have h3 : S.card + (B \ S).card ≤ n := by
      rw [Finset.card_sdiff_of_subset hS, Nat.add_sub_cancel' (Finset.card_le_card hS)]
      exact (Finset.card_le_card (hP.1.subset hB)).trans hn
    have h3' : (S.card : ℚ) + (B \ S).card ≤ n := by exact_mod_cast h3
    have h4 : 4 * ((S.card : ℚ) * (B \ S).card) ≤ n ^ 2 := by
      have a : (0 : ℚ) ≤ S.card := Nat.cast_nonneg _
      have b : (0 : ℚ) ≤ (B \ S).card := Nat.cast_nonneg _
      nlinarith [sq_nonneg ((S.card : ℚ) - (B \ S).card)]
    have h5 : 4 * ((D.length : ℚ) * δ) ≤ n ^ 2 * δ := by nlinarith
    linarith

end PSP.Theory
