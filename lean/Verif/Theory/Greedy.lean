import Mathlib.Data.List.Sort
import Mathlib.Tactic.Linarith
import Mathlib.Tactic.Ring
import Mathlib.Algebra.Order.BigOperators.Group.Finset
import Mathlib.Algebra.BigOperators.Ring.Finset
import Mathlib.Algebra.BigOperators.Group.List.Lemmas
import Verif.Model.AIC

/-!
# Edmonds' greedy algorithm and the level sets of the minimum norm base
-/

namespace PSP.Theory

open PSP.Model PSP.Spec

/-! ### The loop -/

theorem greedyLoop_notMem (f : List ℕ → ℚ) : ∀ (is B : List ℕ) (F : ℚ) (x : ℕ → ℚ) (a : ℕ),
    a ∉ is → greedyLoop f is B F x a = x a := by
  intro is
  induction is with
  | nil => intros; rfl
  | cons i is ih =>
    intro B F x a ha
    rw [List.mem_cons, not_or] at ha
    simp only [greedyLoop]
    rw [ih _ _ _ _ ha.2, Function.update_of_ne ha.1]

theorem greedyLoop_head (f : List ℕ → ℚ) (i : ℕ) (is B : List ℕ) (F : ℚ) (x : ℕ → ℚ)
    (hi : i ∉ is) : greedyLoop f (i :: is) B F x i = f (B ++ [i]) - F := by
  simp only [greedyLoop]
  rw [greedyLoop_notMem _ _ _ _ _ _ hi, Function.update_self]
  ring

/-- Prefixes of the order are tight. -/
theorem greedyLoop_prefix (f : List ℕ → ℚ) : ∀ (p s B : List ℕ) (x : ℕ → ℚ), (p ++ s).Nodup →
    (p.map (greedyLoop f (p ++ s) B (f B) x)).sum = f (B ++ p) - f B := by
  intro p
  induction p with
  | nil => intro s B x _; simp
  | cons i p ih =>
    intro s B x hnd
    rw [List.cons_append, List.nodup_cons] at hnd
    rw [List.map_cons, List.sum_cons, List.cons_append, greedyLoop_head _ _ _ _ _ _ hnd.1]
    simp only [greedyLoop]
    rw [ih s _ _ hnd.2]
    simp

/-- No set exceeds the bound of the function. -/
theorem greedyLoop_le {V : Finset ℕ} {φ : Finset ℕ → ℚ} (hφ : Submodular V φ) (f : List ℕ → ℚ)
    (S : Finset ℕ) (hSV : S ⊆ V) : ∀ (is B : List ℕ) (x : ℕ → ℚ), (B ++ is).Nodup →
    (∀ v ∈ B ++ is, v ∈ V) →
    (∀ p s, B ++ is = p ++ s → f p = φ p.toFinset) →
    ((is.filter (· ∈ S)).map (greedyLoop f is B (f B) x)).sum ≤
      φ (S ∩ (B ++ is).toFinset) - φ (S ∩ B.toFinset) := by
  intro is
  induction is with
  | nil => intro B x _ _ _; simp
  | cons i is ih =>
    intro B x hnd hV hf
    have e1 : B ++ i :: is = (B ++ [i]) ++ is := by simp
    have hi : i ∉ is := by
      have := (List.nodup_append.1 hnd).2.1
      exact (List.nodup_cons.1 this).1
    have hiB : i ∉ B := by
      intro hh
      exact (List.nodup_append.1 hnd).2.2 i hh i (by simp) rfl
    have IH := ih (B ++ [i]) (Function.update x i (-(f B) + f (B ++ [i]))) (e1 ▸ hnd)
      (e1 ▸ hV) (e1 ▸ hf)
    have hgl : greedyLoop f (i :: is) B (f B) x =
      greedyLoop f is (B ++ [i]) (f (B ++ [i])) (Function.update x i (-(f B) + f (B ++ [i]))) := rfl
    rw [e1]
    by_cases hiS : i ∈ S
    · rw [List.filter_cons_of_pos (by simpa using hiS), List.map_cons, List.sum_cons,
        greedyLoop_head _ _ _ _ _ _ hi, hgl]
      have hs := hφ (S ∩ (B ++ [i]).toFinset) B.toFinset
        (Finset.inter_subset_left.trans hSV) (fun v hv => hV v (by simp at hv; simp [hv]))
      have h1 : S ∩ (B ++ [i]).toFinset ∪ B.toFinset = (B ++ [i]).toFinset := by
        ext v
        simp only [Finset.mem_union, Finset.mem_inter, List.mem_toFinset, List.mem_append,
          List.mem_singleton]
        constructor
        · rintro (⟨-, h⟩ | h)
          · exact h
          · exact Or.inl h
        · rintro (h | rfl)
          · exact Or.inr h
          · exact Or.inl ⟨hiS, Or.inr rfl⟩
      have h2 : S ∩ (B ++ [i]).toFinset ∩ B.toFinset = S ∩ B.toFinset := by
        ext v
        simp only [Finset.mem_inter, List.mem_toFinset, List.mem_append, List.mem_singleton]
        tauto
      rw [h1, h2] at hs
      have f1 := hf B (i :: is) rfl
      have f2 := hf (B ++ [i]) is e1
      linarith
    · rw [List.filter_cons_of_neg (by simpa using hiS), hgl]
      have h1 : S ∩ (B ++ [i]).toFinset = S ∩ B.toFinset := by
        ext v
        simp only [Finset.mem_inter, List.mem_toFinset, List.mem_append, List.mem_singleton]
        constructor
        · rintro ⟨h, h' | rfl⟩
          · exact ⟨h, h'⟩
          · exact absurd h hiS
        · tauto
      rw [h1] at IH
      exact IH

/-! ### Sums over lists and sets -/

theorem sum_list_eq {l : List ℕ} (hl : l.Nodup) (g : ℕ → ℚ) :
    (l.map g).sum = ∑ i ∈ l.toFinset, g i := (List.sum_toFinset g hl).symm

/-- Abel summation: if the partial sums of `d` along the list are nonnegative and `w` ascends, then
`∑ w d ≤ c ∑ d` for every upper bound `c` of `w`. -/
theorem abel (w d : ℕ → ℚ) : ∀ (l : List ℕ) (c : ℚ), (l.map w).Pairwise (· ≤ ·) →
    (∀ i ∈ l, w i ≤ c) → (∀ p s, l = p ++ s → 0 ≤ (p.map d).sum) →
    (l.map fun i => w i * d i).sum ≤ c * (l.map d).sum := by
  intro l
  induction l using List.reverseRecOn with
  | nil => intro c _ _ _; simp
  | append_singleton l a ih =>
    intro c hw hc hp
    rw [List.map_append, List.pairwise_append] at hw
    have h1 := ih (w a) hw.1 (fun i hi => hw.2.2 _ (List.mem_map_of_mem hi) _ (by simp))
      (fun p s hps => hp p (s ++ [a]) (by rw [hps]; simp))
    have h2 := hp (l ++ [a]) [] (by simp)
    have h3 := hc a (by simp)
    simp only [List.map_append, List.sum_append, List.map_cons, List.map_nil, List.sum_cons,
      List.sum_nil, add_zero] at h2 ⊢
    nlinarith

/-! ### Greedy bases -/

/-- A vector is a greedy base for the order `l`. -/
structure IsGreedy (V : Finset ℕ) (φ : Finset ℕ → ℚ) (l : List ℕ) (q : ℕ → ℚ) : Prop where
  base : InBase V φ q
  tight : ∀ p s, l = p ++ s → (p.map q).sum = φ p.toFinset - φ ∅

theorem greedy_spec {V : Finset ℕ} {φ : Finset ℕ → ℚ} (hφ : Submodular V φ) {f : List ℕ → ℚ}
    {l : List ℕ} (hl : l.Nodup) (hlV : l.toFinset = V)
    (hf : ∀ p s, l = p ++ s → f p = φ p.toFinset) (x : ℕ → ℚ) :
    IsGreedy V φ l (greedyLoop f l [] (f []) x) := by
  have hpre : ∀ p s, l = p ++ s → (p.map (greedyLoop f l [] (f []) x)).sum = φ p.toFinset - φ ∅ := by
    intro p s hps
    have := greedyLoop_prefix f p s [] x (hps ▸ hl)
    rw [← hps] at this
    rw [this, List.nil_append, hf p s hps, hf [] l rfl]
    rfl
  refine ⟨⟨?_, fun S hS => ?_⟩, hpre⟩
  · have := hpre l [] (by simp)
    rw [sum_list_eq hl, hlV] at this
    exact this
  · have := greedyLoop_le hφ f S hS l [] x (by simpa using hl)
      (fun v hv => by rw [← hlV]; simpa using hv) (fun p s hps => hf p s (by simpa using hps))
    rw [sum_list_eq (hl.filter _)] at this
    have e1 : (l.filter (· ∈ S)).toFinset = S := by
      ext v
      simp only [List.mem_toFinset, List.mem_filter, decide_eq_true_eq]
      constructor
      · exact fun h => h.2
      · intro h
        refine ⟨?_, h⟩
        have := hS h
        rw [← hlV] at this
        simpa using this
    have e2 : S ∩ ([] ++ l).toFinset = S := by
      rw [List.nil_append, hlV]; exact Finset.inter_eq_left.2 hS
    rw [e1, e2] at this
    simpa using this

/-- A greedy base for an order in which the weights ascend minimises the weighted sum; even for
weights that are different from those of the order. -/
theorem IsGreedy.min {V : Finset ℕ} {φ : Finset ℕ → ℚ} {l : List ℕ} {q : ℕ → ℚ}
    (hq : IsGreedy V φ l q) (hl : l.Nodup) (hlV : l.toFinset = V) {w : ℕ → ℚ}
    (hw : (l.map w).Pairwise (· ≤ ·)) {y : ℕ → ℚ} (hy : InBase V φ y) :
    inner V w q ≤ inner V w y := by
  obtain ⟨c, hc⟩ : ∃ c, ∀ i ∈ l, w i ≤ c := by
    refine ⟨∑ i ∈ V, |w i|, fun i hi => ?_⟩
    have hiV : i ∈ V := by rw [← hlV]; simpa using hi
    exact (le_abs_self _).trans (Finset.single_le_sum (f := fun i => |w i|)
      (fun _ _ => abs_nonneg _) hiV)
  have := abel w (fun i => q i - y i) l c hw hc ?_
  · rw [sum_list_eq hl, sum_list_eq hl, hlV] at this
    simp only [mul_sub, Finset.sum_sub_distrib] at this
    have h1 := hq.base.1
    have h2 := hy.1
    unfold PSP.Spec.inner
    rw [h1, h2] at this
    simp only [sub_self] at this
    linarith
  · intro p s hps
    have h1 := hq.tight p s hps
    have hp : p.Nodup := (List.nodup_append.1 (hps ▸ hl)).1
    have h2 := hy.2 p.toFinset (fun v hv => by
      rw [← hlV, hps]; simp at hv; simp [hv])
    rw [sum_list_eq hp] at h1 ⊢
    rw [Finset.sum_sub_distrib]
    linarith

/-- An ascending order exists. -/
theorem exists_order (V : Finset ℕ) (x : ℕ → ℚ) :
    ∃ l : List ℕ, l.Nodup ∧ l.toFinset = V ∧ (l.map x).Pairwise (· ≤ ·) := by
  refine ⟨V.toList.insertionSort (fun a b => x a ≤ x b), ?_, ?_, ?_⟩
  · exact (List.perm_insertionSort _ _).nodup_iff.2 V.nodup_toList
  · ext v
    rw [List.mem_toFinset, (List.perm_insertionSort _ _).mem_iff, Finset.mem_toList]
  · have : Std.Total (fun a b => x a ≤ x b) := ⟨fun a b => le_total _ _⟩
    have : IsTrans ℕ (fun a b => x a ≤ x b) := ⟨fun a b c h1 h2 => le_trans h1 h2⟩
    rw [List.pairwise_map]
    exact List.pairwise_insertionSort (fun a b => x a ≤ x b) _

/-! ### Level sets -/

/-- The sets `{x ≤ c}` of the minimum norm base are tight. -/
theorem level_tight {V : Finset ℕ} {φ : Finset ℕ → ℚ} (hφ : Submodular V φ) {x : ℕ → ℚ}
    (hx : IsMinNorm V φ x) (c : ℚ) :
    ∑ i ∈ V.filter (fun i => x i ≤ c), x i = φ (V.filter fun i => x i ≤ c) - φ ∅ := by
  set D := V.filter fun i => x i ≤ c with hD
  have hDV : D ⊆ V := Finset.filter_subset _ _
  apply le_antisymm (hx.1.2 D hDV)
  by_cases hall : V \ D = ∅
  · have : D = V := Finset.Subset.antisymm hDV (Finset.sdiff_eq_empty_iff_subset.1 hall)
    rw [this, hx.1.1]
  have hne : (V \ D).Nonempty := Finset.nonempty_iff_ne_empty.2 hall
  obtain ⟨m, hm, hmin⟩ := Finset.exists_min_image (V \ D) x hne
  have hmc : c < x m := by
    rw [Finset.mem_sdiff, hD, Finset.mem_filter] at hm
    by_contra hcon
    exact hm.2 ⟨hm.1, not_lt.1 hcon⟩
  -- raise `x` on `D`
  set t := x m - c with ht
  have htpos : 0 < t := by linarith
  let x' : ℕ → ℚ := fun i => if i ∈ D then x i + t else x i
  obtain ⟨l, hl, hlV, hord⟩ := exists_order V x
  have hord' : (l.map x').Pairwise (· ≤ ·) := by
    rw [List.pairwise_map] at hord ⊢
    refine hord.imp_of_mem ?_
    intro a b ha hb hab
    have haV : a ∈ V := by rw [← hlV]; simpa using ha
    have hbV : b ∈ V := by rw [← hlV]; simpa using hb
    simp only [x']
    by_cases h1 : a ∈ D <;> by_cases h2 : b ∈ D
    · rw [if_pos h1, if_pos h2]; linarith
    · rw [if_pos h1, if_neg h2]
      have h3 := (Finset.mem_filter.1 h1).2
      have h4 := hmin b (Finset.mem_sdiff.2 ⟨hbV, h2⟩)
      linarith
    · exact absurd (Finset.mem_filter.2 ⟨haV, hab.trans (Finset.mem_filter.1 h2).2⟩) h1
    · rw [if_neg h1, if_neg h2]; exact hab
  have hg := greedy_spec hφ (f := fun B => φ B.toFinset) hl hlV (fun _ _ _ => rfl) (fun _ => 0)
  -- greedy for `x` with the set `D` in front
  set q := greedyLoop (fun B => φ B.toFinset) l [] (φ [].toFinset) (fun _ => 0) with hq
  have h1 := hg.min hl hlV hord' hx.1
  have h2 := hx.2 q hg.base
  have e1 : ∀ y : ℕ → ℚ, PSP.Spec.inner V x' y = PSP.Spec.inner V x y + t * ∑ i ∈ D, y i := by
    intro y
    unfold PSP.Spec.inner
    rw [← Finset.sum_filter_add_sum_filter_not V (fun i => i ∈ D) (fun i => x' i * y i),
      ← Finset.sum_filter_add_sum_filter_not V (fun i => i ∈ D) (fun i => x i * y i)]
    have hfD : V.filter (fun i => i ∈ D) = D := by
      ext v; simp only [Finset.mem_filter]; exact ⟨fun h => h.2, fun h => ⟨hDV h, h⟩⟩
    rw [hfD, Finset.mul_sum]
    have a1 : ∑ i ∈ D, x' i * y i = ∑ i ∈ D, x i * y i + ∑ i ∈ D, t * y i := by
      rw [← Finset.sum_add_distrib]
      refine Finset.sum_congr rfl fun i hi => ?_
      simp only [x', if_pos hi]; ring
    have a2 : ∑ i ∈ V.filter (fun i => ¬ i ∈ D), x' i * y i =
        ∑ i ∈ V.filter (fun i => ¬ i ∈ D), x i * y i := by
      refine Finset.sum_congr rfl fun i hi => ?_
      simp only [x', if_neg (Finset.mem_filter.1 hi).2]
    rw [a1, a2]; ring
  rw [e1, e1] at h1
  -- `q` is tight on `D`, a prefix of the order
  have hqD : ∑ i ∈ D, q i = φ D - φ ∅ := by
    have hsplit : l = l.takeWhile (fun i => decide (x i ≤ c)) ++ l.dropWhile (fun i => decide (x i ≤ c)) :=
      (List.takeWhile_append_dropWhile).symm
    have hset : (l.takeWhile fun i => decide (x i ≤ c)).toFinset = D := by
      ext v
      rw [List.mem_toFinset]
      constructor
      · intro hv
        have hv1 := List.all_eq_true.1 (List.all_takeWhile (p := fun i => decide (x i ≤ c)) (l := l)) v hv
        have hv2 : v ∈ l := List.IsPrefix.subset (List.takeWhile_prefix _) hv
        refine Finset.mem_filter.2 ⟨by rw [← hlV]; simpa using hv2, by simpa using hv1⟩
      · intro hv
        obtain ⟨hvV, hvc⟩ := Finset.mem_filter.1 hv
        have hvl : v ∈ l := by rw [← hlV] at hvV; simpa using hvV
        rw [hsplit, List.mem_append] at hvl
        rcases hvl with h | h
        · exact h
        · exfalso
          have hne' : l.dropWhile (fun i => decide (x i ≤ c)) ≠ [] := List.ne_nil_of_mem h
          have hhead := List.head_dropWhile_not (fun i => decide (x i ≤ c)) hne'
          have hsub : ((l.dropWhile fun i => decide (x i ≤ c)).map x).Pairwise (· ≤ ·) :=
            hord.sublist ((List.dropWhile_sublist _).map x)
          obtain ⟨a, r, har⟩ := List.exists_cons_of_ne_nil hne'
          simp only [har, List.head_cons, decide_eq_false_iff_not, not_le] at hhead
          rw [har, List.map_cons, List.pairwise_cons] at hsub
          rw [har, List.mem_cons] at h
          rcases h with rfl | h
          · linarith
          · have := hsub.1 (x v) (List.mem_map_of_mem h)
            linarith
    have := hg.tight _ _ hsplit
    rw [hset, sum_list_eq ((List.takeWhile_sublist _).nodup hl), hset] at this
    exact this
  have h5 : t * (∑ i ∈ D, q i) ≤ t * ∑ i ∈ D, x i := by linarith
  have h6 := le_of_mul_le_mul_left h5 htpos
  rw [hqD] at h6
  exact h6

/-- The sets `{x < c}` are tight. -/
theorem level_tight_lt {V : Finset ℕ} {φ : Finset ℕ → ℚ} (hφ : Submodular V φ) {x : ℕ → ℚ}
    (hx : IsMinNorm V φ x) (c : ℚ) :
    ∑ i ∈ V.filter (fun i => x i < c), x i = φ (V.filter fun i => x i < c) - φ ∅ := by
  by_cases hne : (V.filter fun i => x i < c).Nonempty
  · obtain ⟨m, hm, hmax⟩ := Finset.exists_max_image _ x hne
    have : (V.filter fun i => x i < c) = V.filter fun i => x i ≤ x m := by
      ext v
      simp only [Finset.mem_filter]
      constructor
      · intro h; exact ⟨h.1, hmax v (Finset.mem_filter.2 h)⟩
      · intro h; exact ⟨h.1, lt_of_le_of_lt h.2 (Finset.mem_filter.1 hm).2⟩
    rw [this]
    exact level_tight hφ hx _
  · rw [Finset.not_nonempty_iff_eq_empty.1 hne]; simp

/-- If the function takes multiples of `u`, every coordinate is a multiple of `u` divided by the
number of coordinates that are equal to it. -/
theorem coordinate_ratio {V : Finset ℕ} {φ : Finset ℕ → ℚ} (hφ : Submodular V φ) {x : ℕ → ℚ}
    (hx : IsMinNorm V φ x) {u : ℚ} (hu : ∀ S, S ⊆ V → ∃ k : ℤ, φ S = k * u) {i : ℕ} (hi : i ∈ V) :
    ∃ m : ℕ, 1 ≤ m ∧ m ≤ V.card ∧ ∃ k : ℤ, (m : ℚ) * x i = k * u := by
  refine ⟨(V.filter fun v => x v = x i).card, ?_, Finset.card_le_card (Finset.filter_subset _ _), ?_⟩
  · exact Finset.card_pos.2 ⟨i, Finset.mem_filter.2 ⟨hi, rfl⟩⟩
  · have h1 := level_tight hφ hx (x i)
    have h2 := level_tight_lt hφ hx (x i)
    have hdis : Disjoint (V.filter fun v => x v < x i) (V.filter fun v => x v = x i) := by
      rw [Finset.disjoint_left]
      intro v hv hv'
      exact ne_of_lt (Finset.mem_filter.1 hv).2 (Finset.mem_filter.1 hv').2
    have hun : (V.filter fun v => x v ≤ x i) =
        (V.filter fun v => x v < x i) ∪ V.filter fun v => x v = x i := by
      ext v
      simp only [Finset.mem_filter, Finset.mem_union, le_iff_lt_or_eq]
      tauto
    have h3 : ∑ v ∈ V.filter (fun v => x v = x i), x v =
        ((V.filter fun v => x v = x i).card : ℚ) * x i := by
      rw [Finset.sum_congr rfl fun v hv => (Finset.mem_filter.1 hv).2, Finset.sum_const,
        nsmul_eq_mul]
    obtain ⟨k1, hk1⟩ := hu _ (Finset.filter_subset (fun v => x v ≤ x i) V)
    obtain ⟨k2, hk2⟩ := hu _ (Finset.filter_subset (fun v => x v < x i) V)
    refine ⟨k1 - k2, ?_⟩
    rw [← h3]
    have h4 := Finset.sum_union hdis (f := x)
    rw [← hun, h1, h2] at h4
    push_cast
    rw [sub_mul, ← hk1, ← hk2]
    linarith

end PSP.Theory
