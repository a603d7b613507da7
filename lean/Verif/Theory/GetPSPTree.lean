import Verif.Theory.GetPSP
import Verif.Theory.Tree

/-!
# `get_psp` on trees
-/

namespace PSP.Theory

open PSP.Spec PSP.Model

variable {m : ℕ} {p : ℕ → ℕ} {w : ℕ → ℚ} {S : Finset ℕ}

/-! ### components -/

theorem topOf_erase {j : ℕ} (hj : j ∈ S) (hpj : p j < j) (hk : topOf p S (p j) = p j) (i : ℕ) :
    topOf p (S.erase j) i = if topOf p S i = j then p j else topOf p S i := by
  induction i using Nat.strong_induction_on with
  | _ i ih =>
    have hjj : topOf p S j = j := topOf_of_fix fun h => h.1 hj
    rcases eq_or_ne i j with rfl | hij
    · rw [if_pos hjj, topOf, dif_pos ⟨by simp, hpj⟩, ih _ hpj, hk, if_neg hpj.ne]
    · by_cases h : i ∉ S ∧ p i < i
      · rw [topOf, dif_pos ⟨fun hh => h.1 (Finset.mem_of_mem_erase hh), h.2⟩, ih _ h.2]
        have : topOf p S i = topOf p S (p i) := by rw [topOf, dif_pos h]
        rw [this]
      · have h' : ¬ (i ∉ S.erase j ∧ p i < i) := fun hh => h ⟨fun hi => hh.1 (Finset.mem_erase.2 ⟨hij, hi⟩), hh.2⟩
        rw [topOf_of_fix h', topOf_of_fix h, if_neg hij]

theorem topOf_child {i j : ℕ} (h : topOf p S i = j) (hij : i ≠ j) : ∃ c ≤ i, c ∉ S ∧ p c < c ∧ p c = j := by
  induction i using Nat.strong_induction_on with
  | _ i ih =>
    by_cases hi : i ∉ S ∧ p i < i
    · rw [topOf, dif_pos hi] at h
      rcases eq_or_ne (p i) j with h1 | h1
      · exact ⟨i, le_rfl, hi.1, hi.2, h1⟩
      · obtain ⟨c, c1, c2⟩ := ih _ hi.2 h h1
        exact ⟨c, c1.trans hi.2.le, c2⟩
    · rw [topOf_of_fix hi] at h
      exact absurd h hij

theorem topOf_idem (p : ℕ → ℕ) (S : Finset ℕ) (i : ℕ) : topOf p S (topOf p S i) = topOf p S i :=
  topOf_of_fix (topOf_fix p S i)

theorem topOf_subset {S' : Finset ℕ} (h : S' ⊆ S) (i : ℕ) : topOf p S' (topOf p S i) = topOf p S' i := by
  induction i using Nat.strong_induction_on with
  | _ i ih =>
    by_cases hi : i ∉ S ∧ p i < i
    · have h1 : topOf p S i = topOf p S (p i) := by rw [topOf, dif_pos hi]
      have h2 : topOf p S' i = topOf p S' (p i) := by rw [topOf, dif_pos ⟨fun hh => hi.1 (h hh), hi.2⟩]
      rw [h1, h2, ih _ hi.2]
    · rw [topOf_of_fix hi]

theorem treePart_refines {S' : Finset ℕ} (h : S' ⊆ S) : Refines (treePart m p S) (treePart m p S') := by
  intro B hB
  obtain ⟨i, hi, rfl⟩ := mem_treePart.1 hB
  refine ⟨_, mem_treePart.2 ⟨i, hi, rfl⟩, fun u hu => ?_⟩
  rw [Finset.mem_filter] at hu ⊢
  refine ⟨hu.1, ?_⟩
  rw [← topOf_subset h u, hu.2, topOf_subset h]

/-! ### dictionaries -/

theorem PyDict.get_mem {D : PyDict} {k : ℕ} {l : List ℕ} (h : D.get k = some l) : (k, l) ∈ D := by
  unfold PyDict.get at h
  obtain ⟨e, he, rfl⟩ := Option.map_eq_some_iff.1 h
  have h1 := List.mem_of_find?_eq_some he
  have h2 := List.find?_some he
  rw [decide_eq_true_eq] at h2
  subst h2
  exact h1

theorem PyDict.get_none {D : PyDict} {k : ℕ} : D.get k = none ↔ k ∉ D.map Prod.fst := by
  unfold PyDict.get
  rw [Option.map_eq_none_iff, List.find?_eq_none]
  simp only [decide_eq_true_eq, List.mem_map, not_exists, not_and]

theorem PyDict.mem_set {D : PyDict} {k : ℕ} {v : List ℕ} {e : ℕ × List ℕ} :
    e ∈ D.set k v ↔ e = (k, v) ∨ (e ∈ D ∧ e.1 ≠ k) := by
  unfold PyDict.set
  split_ifs with h
  · rw [PyDict.get_none] at h
    rw [List.mem_append, List.mem_singleton]
    constructor
    · rintro (h1 | h1)
      · exact Or.inr ⟨h1, fun hk => h (List.mem_map.2 ⟨e, h1, hk⟩)⟩
      · exact Or.inl h1
    · rintro (h1 | h1)
      · exact Or.inr h1
      · exact Or.inl h1.1
  · rw [PyDict.get_none, not_not] at h
    obtain ⟨d, hd, rfl⟩ := List.mem_map.1 h
    rw [List.mem_map]
    constructor
    · rintro ⟨x, hx, rfl⟩
      split_ifs with hk
      · exact Or.inl rfl
      · exact Or.inr ⟨hx, hk⟩
    · rintro (rfl | ⟨h1, h2⟩)
      · exact ⟨d, hd, by rw [if_pos rfl]⟩
      · exact ⟨e, h1, by rw [if_neg h2]⟩

theorem PyDict.keys_set {D : PyDict} {k : ℕ} {v : List ℕ} (h : (D.map Prod.fst).Nodup) :
    ((D.set k v).map Prod.fst).Nodup := by
  unfold PyDict.set
  split_ifs with hk
  · rw [PyDict.get_none] at hk
    rw [List.map_append, List.nodup_append]
    refine ⟨h, by simp, ?_⟩
    rintro a ha b hb rfl
    simp only [List.map_cons, List.map_nil, List.mem_singleton] at hb
    exact hk (hb ▸ ha)
  · rw [List.map_map]
    convert h using 1
    refine List.map_congr_left fun e _ => ?_
    simp only [Function.comp]
    split_ifs with h1
    · exact h1.symm
    · rfl

theorem PyDict.keys_pop {D : PyDict} {k : ℕ} (h : (D.map Prod.fst).Nodup) : ((D.pop k).map Prod.fst).Nodup :=
  h.sublist (List.Sublist.map _ List.filter_sublist)

/-- The dictionary while the nodes of `S` and, unless `rd`, the root are not merged yet. -/
structure DictInv (m : ℕ) (p : ℕ → ℕ) (S : Finset ℕ) (rd : Prop) (D : PyDict) : Prop where
  keys : (D.map Prod.fst).Nodup
  lt : ∀ e ∈ D, e.1 < m + 1
  top : ∀ e ∈ D, topOf p S e.1 = e.1
  content : ∀ e ∈ D, e.2.toFinset = (Finset.range (m + 1)).filter fun i => topOf p S i = e.1
  child : ∀ i ∈ Finset.Icc 1 m, i ∉ S → topOf p S (p i) = p i → p i ∈ D.map Prod.fst
  origin : ∀ e ∈ D, (∃ i ∈ Finset.Icc 1 m, i ∉ S ∧ p i = e.1) ∨ (rd ∧ e.1 = 0)
  nodup : ¬ rd → ∀ e ∈ D, e.2.Nodup
  rootKey : rd → 0 ∈ D.map Prod.fst

variable {rd : Prop} {D : PyDict}

theorem DictInv.alone (h : DictInv m p S rd D) {j : ℕ} (hj : j < m + 1) (ht : topOf p S j = j)
    (hn : j ∉ D.map Prod.fst) : ((Finset.range (m + 1)).filter fun i => topOf p S i = j) = {j} := by
  ext i
  rw [Finset.mem_filter, Finset.mem_range, Finset.mem_singleton]
  constructor
  · rintro ⟨h1, h2⟩
    by_contra hij
    obtain ⟨c, c1, c2, c3, c4⟩ := topOf_child h2 hij
    exact hn (c4 ▸ h.child c (Finset.mem_Icc.2 ⟨by omega, by omega⟩) c2 (by rw [c4, ht]))
  · rintro rfl
    exact ⟨hj, ht⟩

/-- What happens to the dictionary when `j` is merged into its parent. -/
theorem DictInv.join (h : DictInv m p S rd D) {j : ℕ} (hjm : j < m + 1) (hj : j ∈ S) (hpj : p j < j)
    (hk : topOf p S (p j) = p j) {D' : PyDict} {v : List ℕ} (hkeys : (D'.map Prod.fst).Nodup)
    (hmem : ∀ e, e ∈ D' ↔ e = (p j, v) ∨ (e ∈ D ∧ e.1 ≠ p j ∧ e.1 ≠ j))
    (hv : v.toFinset = ((Finset.range (m + 1)).filter fun i => topOf p S i = p j) ∪
      (Finset.range (m + 1)).filter fun i => topOf p S i = j) (hnd : ¬ rd → v.Nodup) :
    DictInv m p (S.erase j) rd D' := by
  have hjj : topOf p S j = j := topOf_of_fix fun h => h.1 hj
  have hkey : ∀ e ∈ D', e.1 ∈ D'.map Prod.fst := fun e he => List.mem_map_of_mem he
  have hnew : (p j, v) ∈ D' := (hmem _).2 (Or.inl rfl)
  refine ⟨hkeys, ?_, ?_, ?_, ?_, ?_, ?_, ?_⟩
  · intro e he
    rcases (hmem e).1 he with rfl | he
    · show p j < m + 1
      omega
    · exact h.lt e he.1
  · intro e he
    rw [topOf_erase hj hpj hk]
    rcases (hmem e).1 he with rfl | he
    · show (if topOf p S (p j) = j then p j else topOf p S (p j)) = p j
      rw [hk]
      split_ifs <;> rfl
    · rw [h.top e he.1, if_neg he.2.2]
  · intro e he
    rcases (hmem e).1 he with rfl | he
    · rw [hv]
      ext i
      simp only [Finset.mem_union, Finset.mem_filter, topOf_erase hj hpj hk]
      constructor
      · rintro (⟨h1, h2⟩ | ⟨h1, h2⟩)
        · refine ⟨h1, ?_⟩
          rw [h2]
          split_ifs <;> rfl
        · exact ⟨h1, by rw [if_pos h2]⟩
      · rintro ⟨h1, h2⟩
        split_ifs at h2 with h3
        · exact Or.inr ⟨h1, h3⟩
        · exact Or.inl ⟨h1, h2⟩
    · rw [h.content e he.1]
      ext i
      simp only [Finset.mem_filter, topOf_erase hj hpj hk]
      refine and_congr_right fun _ => ?_
      split_ifs with h3
      · rw [h3]
        exact ⟨fun h => absurd h.symm he.2.2, fun h => absurd h.symm he.2.1⟩
      · rfl
  · intro i hi hiS hti
    rcases eq_or_ne i j with rfl | hij
    · exact hkey _ hnew
    · have hiS' : i ∉ S := fun hh => hiS (Finset.mem_erase.2 ⟨hij, hh⟩)
      rw [topOf_erase hj hpj hk] at hti
      split_ifs at hti with h3
      · rw [← hti]
        exact hkey _ hnew
      · obtain ⟨e, he, hei⟩ := List.mem_map.1 (h.child i hi hiS' hti)
        rcases eq_or_ne e.1 (p j) with h4 | h4
        · rw [← hei, h4]
          exact hkey _ hnew
        · rw [← hei]
          refine hkey e ((hmem e).2 (Or.inr ⟨he, h4, fun h5 => ?_⟩))
          rw [← hei, h5] at h3
          exact h3 hjj
  · intro e he
    rcases (hmem e).1 he with rfl | he
    · exact Or.inl ⟨j, Finset.mem_Icc.2 ⟨by omega, by omega⟩, by simp, rfl⟩
    · rcases h.origin e he.1 with ⟨i, i1, i2, i3⟩ | h1
      · exact Or.inl ⟨i, i1, fun hh => i2 (Finset.mem_of_mem_erase hh), i3⟩
      · exact Or.inr h1
  · intro hrd e he
    rcases (hmem e).1 he with rfl | he
    · exact hnd hrd
    · exact h.nodup hrd e he.1
  · intro hrd
    obtain ⟨e, he, he0⟩ := List.mem_map.1 (h.rootKey hrd)
    rcases eq_or_ne e.1 (p j) with h4 | h4
    · rw [← he0, h4]
      exact hkey _ hnew
    · rw [← he0]
      exact hkey e ((hmem e).2 (Or.inr ⟨he, h4, by omega⟩))

/-- One call of the body of the loop, for a node that is not the root. -/
theorem pyJoin_tree (h : DictInv m p S rd D) {j : ℕ} (hjm : j < m + 1) (hj : j ∈ S) (hpj : p j < j)
    (hk : topOf p S (p j) = p j)
    (hb : (∃ i ∈ Finset.Icc 1 m, p i = j) → (∃ i ∈ Finset.Icc 1 m, i ∉ S ∧ p i = p j) ∨ (rd ∧ p j = 0)) :
    DictInv m p (S.erase j) rd (pyJoin D j (p j)) := by
  have hjj : topOf p S j = j := topOf_of_fix fun h => h.1 hj
  have hdisj : ∀ x, topOf p S x = p j → topOf p S x = j → False := fun x h1 h2 => by omega
  have hne : p j ≠ j := hpj.ne
  unfold pyJoin
  cases hgj : D.get j with
  | some dj =>
    have hdj := PyDict.get_mem hgj
    have hcj := h.content _ hdj
    simp only [if_neg hne]
    have hex : (∃ i ∈ Finset.Icc 1 m, i ∉ S ∧ p i = p j) ∨ (rd ∧ p j = 0) := by
      refine hb ?_
      rcases h.origin _ hdj with ⟨i, i1, -, i3⟩ | ⟨-, h0⟩
      · exact ⟨i, i1, i3⟩
      · simp only at h0
        omega
    have hkk : p j ∈ D.map Prod.fst := by
      rcases hex with ⟨i, i1, i2, i3⟩ | ⟨h1, h2⟩
      · exact i3 ▸ h.child i i1 i2 (by rw [i3, hk])
      · rw [h2]
        exact h.rootKey h1
    cases hgk : D.get (p j) with
    | none => exact absurd hkk (PyDict.get_none.1 hgk)
    | some dk =>
      have hdk := PyDict.get_mem hgk
      have hck := h.content _ hdk
      refine h.join hjm hj hpj hk (v := dk ++ dj) (PyDict.keys_pop (PyDict.keys_set h.keys)) ?_ ?_ ?_
      · intro e
        unfold PyDict.pop
        rw [List.mem_filter, PyDict.mem_set, decide_eq_true_eq]
        constructor
        · rintro ⟨h1 | h1, h2⟩
          · exact Or.inl h1
          · exact Or.inr ⟨h1.1, h1.2, h2⟩
        · rintro (rfl | h1)
          · exact ⟨Or.inl rfl, hne⟩
          · exact ⟨Or.inr ⟨h1.1, h1.2.1⟩, h1.2.2⟩
      · rw [List.toFinset_append, hcj, hck]
      · intro hrd
        rw [List.nodup_append]
        refine ⟨h.nodup hrd _ hdk, h.nodup hrd _ hdj, ?_⟩
        rintro a ha b hb rfl
        have h1 : a ∈ dk.toFinset := List.mem_toFinset.2 ha
        have h2 : a ∈ dj.toFinset := List.mem_toFinset.2 hb
        rw [hck, Finset.mem_filter] at h1
        rw [hcj, Finset.mem_filter] at h2
        exact hdisj a h1.2 h2.2
  | none =>
    have haj := h.alone hjm hjj (PyDict.get_none.1 hgj)
    have hnj : ∀ e ∈ D, e.1 ≠ j := fun e he hej => PyDict.get_none.1 hgj (List.mem_map.2 ⟨e, he, hej⟩)
    cases hgk : D.get (p j) with
    | none =>
      have hak := h.alone (by omega) hk (PyDict.get_none.1 hgk)
      refine h.join hjm hj hpj hk (v := [j, p j]) (PyDict.keys_set h.keys) ?_ ?_ ?_
      · intro e
        rw [PyDict.mem_set]
        constructor
        · rintro (h1 | h1)
          · exact Or.inl h1
          · exact Or.inr ⟨h1.1, h1.2, hnj e h1.1⟩
        · rintro (h1 | h1)
          · exact Or.inl h1
          · exact Or.inr ⟨h1.1, h1.2.1⟩
      · rw [hak, haj]
        ext i
        simp [or_comm]
      · intro _
        simp [hne.symm]
    | some dk =>
      have hdk := PyDict.get_mem hgk
      have hck := h.content _ hdk
      refine h.join hjm hj hpj hk (v := dk ++ [j]) (PyDict.keys_set h.keys) ?_ ?_ ?_
      · intro e
        rw [PyDict.mem_set]
        constructor
        · rintro (h1 | h1)
          · exact Or.inl h1
          · exact Or.inr ⟨h1.1, h1.2, hnj e h1.1⟩
        · rintro (h1 | h1)
          · exact Or.inl h1
          · exact Or.inr ⟨h1.1, h1.2.1⟩
      · rw [List.toFinset_append, hck, haj]
        rfl
      · intro hrd
        rw [List.nodup_append]
        refine ⟨h.nodup hrd _ hdk, by simp, ?_⟩
        rintro a ha b hb rfl
        rw [List.mem_singleton] at hb
        subst hb
        have h1 : a ∈ dk.toFinset := List.mem_toFinset.2 ha
        rw [hck, Finset.mem_filter] at h1
        exact hdisj a h1.2 hjj

/-- One call of the body of the loop, for the root. -/
theorem pyJoin_root (h : DictInv m p S rd D) (h0 : p 0 = 0) : DictInv m p S True (pyJoin D 0 0) := by
  have ht : topOf p S 0 = 0 := topOf_of_fix (by omega)
  unfold pyJoin
  cases hg : D.get 0 with
  | some d =>
    simp only [if_true]
    refine ⟨h.keys, h.lt, h.top, h.content, h.child, fun e he => ?_, fun hn => absurd trivial hn,
      fun _ => List.mem_map_of_mem (f := Prod.fst) (PyDict.get_mem hg)⟩
    rcases h.origin e he with h1 | h1
    · exact Or.inl h1
    · exact Or.inr ⟨trivial, h1.2⟩
  | none =>
    have ha := h.alone (by omega) ht (PyDict.get_none.1 hg)
    refine ⟨PyDict.keys_set h.keys, ?_, ?_, ?_, ?_, ?_, fun hn => absurd trivial hn,
      fun _ => List.mem_map_of_mem (f := Prod.fst) (PyDict.mem_set.2 (Or.inl rfl) : (0, [0, 0]) ∈ D.set 0 [0, 0])⟩
    · intro e he
      rcases PyDict.mem_set.1 he with rfl | he
      · show 0 < m + 1
        omega
      · exact h.lt e he.1
    · intro e he
      rcases PyDict.mem_set.1 he with rfl | he
      · exact ht
      · exact h.top e he.1
    · intro e he
      rcases PyDict.mem_set.1 he with rfl | he
      · show ([0, 0] : List ℕ).toFinset = _
        rw [ha]
        rfl
      · exact h.content e he.1
    · intro i hi hiS hti
      obtain ⟨e, he, hei⟩ := List.mem_map.1 (h.child i hi hiS hti)
      refine List.mem_map.2 ⟨e, PyDict.mem_set.2 (Or.inr ⟨he, fun he0 => ?_⟩), hei⟩
      exact PyDict.get_none.1 hg (List.mem_map.2 ⟨e, he, he0⟩)
    · intro e he
      rcases PyDict.mem_set.1 he with rfl | he
      · exact Or.inr ⟨trivial, rfl⟩
      · rcases h.origin e he.1 with h1 | h1
        · exact Or.inl h1
        · exact Or.inr ⟨trivial, h1.2⟩

/-! ### the blocks -/

theorem pyBlocks_tree (h : DictInv m p S rd D) (hrd : rd → ∀ i < m + 1, topOf p S i ∈ D.map Prod.fst) :
    (pyBlocks (m + 1) D).Nodup ∧ (pyBlocks (m + 1) D).toFinset = treePart m p S := by
  have htot : ∀ i < m + 1, i ∈ (D.map Prod.snd).flatten ↔ topOf p S i ∈ D.map Prod.fst := by
    intro i hi
    rw [List.mem_flatten]
    constructor
    · rintro ⟨l, hl, hil⟩
      obtain ⟨e, he, rfl⟩ := List.mem_map.1 hl
      have h1 : i ∈ e.2.toFinset := List.mem_toFinset.2 hil
      rw [h.content e he, Finset.mem_filter] at h1
      exact List.mem_map.2 ⟨e, he, h1.2.symm⟩
    · intro ht
      obtain ⟨e, he, hei⟩ := List.mem_map.1 ht
      refine ⟨e.2, List.mem_map_of_mem he, ?_⟩
      rw [← List.mem_toFinset, h.content e he, Finset.mem_filter]
      exact ⟨Finset.mem_range.2 hi, hei.symm⟩
  have hpw : D.Pairwise fun a b => a.1 ≠ b.1 := List.pairwise_map.1 h.keys
  have hs : pyBlocks (m + 1) D = D.map (fun e => e.2.toFinset) ++
      ((List.range (m + 1)).filter fun i => i ∉ (D.map Prod.snd).flatten).map fun i => ({i} : Finset ℕ) := by
    unfold pyBlocks
    by_cases hlen : (D.map Prod.snd).flatten.length < m + 1
    · simp only [hlen, if_true]
    · simp only [hlen, if_false]
      congr 1
      symm
      rw [List.map_eq_nil_iff, List.filter_eq_nil_iff]
      intro i hi
      rw [List.mem_range] at hi
      simp only [decide_eq_true_eq, not_not]
      by_cases hr : rd
      · exact (htot i hi).2 (hrd hr i hi)
      · have hnd : (D.map Prod.snd).flatten.Nodup := by
          rw [List.nodup_flatten]
          refine ⟨?_, ?_⟩
          · intro l hl
            obtain ⟨e, he, rfl⟩ := List.mem_map.1 hl
            exact h.nodup hr e he
          · rw [List.pairwise_map]
            refine hpw.imp_of_mem fun {a b} ha hb hab => ?_
            intro x hx hx'
            have h1 : x ∈ a.2.toFinset := List.mem_toFinset.2 hx
            have h2 : x ∈ b.2.toFinset := List.mem_toFinset.2 hx'
            rw [h.content a ha, Finset.mem_filter] at h1
            rw [h.content b hb, Finset.mem_filter] at h2
            exact hab (h1.2.symm.trans h2.2)
        have hsub : (D.map Prod.snd).flatten.toFinset ⊆ Finset.range (m + 1) := by
          intro x hx
          obtain ⟨l, hl, hxl⟩ := List.mem_flatten.1 (List.mem_toFinset.1 hx)
          obtain ⟨e, he, rfl⟩ := List.mem_map.1 hl
          have h1 : x ∈ e.2.toFinset := List.mem_toFinset.2 hxl
          rw [h.content e he, Finset.mem_filter] at h1
          exact h1.1
        have hfull := Finset.eq_of_subset_of_card_le hsub (by
          rw [List.toFinset_card_of_nodup hnd, Finset.card_range]
          omega)
        rw [← List.mem_toFinset, hfull]
        exact Finset.mem_range.2 hi
  have hself : ∀ i < m + 1, i ∉ (D.map Prod.snd).flatten →
      ((Finset.range (m + 1)).filter fun k => topOf p S k = topOf p S i) = {i} ∧ topOf p S i = i := by
    intro i hi hit
    have hn : topOf p S i ∉ D.map Prod.fst := fun hh => hit ((htot i hi).2 hh)
    have h1 := h.alone (lt_of_le_of_lt (topOf_le p S i) hi) (topOf_idem p S i) hn
    have h2 : i ∈ (Finset.range (m + 1)).filter fun k => topOf p S k = topOf p S i := by simp [hi]
    rw [h1, Finset.mem_singleton] at h2
    rw [h1, ← h2]
    exact ⟨rfl, rfl⟩
  rw [hs]
  constructor
  · rw [List.nodup_append]
    refine ⟨?_, ((List.nodup_range).filter _).map Finset.singleton_injective, ?_⟩
    · refine List.pairwise_map.2 (hpw.imp_of_mem fun {a b} ha hb hab he => hab ?_)
      have h1 : a.1 ∈ a.2.toFinset := by
        rw [h.content a ha, Finset.mem_filter]
        exact ⟨Finset.mem_range.2 (h.lt a ha), h.top a ha⟩
      rw [he, h.content b hb, Finset.mem_filter, h.top a ha] at h1
      exact h1.2
    · rintro A hA B hB rfl
      obtain ⟨e, he, rfl⟩ := List.mem_map.1 hA
      obtain ⟨i, hi, hie⟩ := List.mem_map.1 hB
      rw [List.mem_filter, decide_eq_true_eq] at hi
      refine hi.2 (List.mem_flatten.2 ⟨e.2, List.mem_map_of_mem he, ?_⟩)
      rw [← List.mem_toFinset, ← hie]
      exact Finset.mem_singleton_self i
  · ext B
    rw [List.mem_toFinset, List.mem_append, mem_treePart]
    constructor
    · rintro (hB | hB)
      · obtain ⟨e, he, rfl⟩ := List.mem_map.1 hB
        exact ⟨e.1, h.lt e he, by rw [h.content e he, h.top e he]⟩
      · obtain ⟨i, hi, rfl⟩ := List.mem_map.1 hB
        rw [List.mem_filter, decide_eq_true_eq, List.mem_range] at hi
        exact ⟨i, hi.1, (hself i hi.1 hi.2).1.symm⟩
    · rintro ⟨i, hi, rfl⟩
      by_cases hit : i ∈ (D.map Prod.snd).flatten
      · obtain ⟨e, he, hei⟩ := List.mem_map.1 ((htot i hi).1 hit)
        exact Or.inl (List.mem_map.2 ⟨e, he, by rw [h.content e he, hei]⟩)
      · refine Or.inr (List.mem_map.2 ⟨i, ?_, (hself i hi hit).1.symm⟩)
        rw [List.mem_filter, decide_eq_true_eq, List.mem_range]
        exact ⟨hi, hit⟩

/-! ### the loops -/

variable {K : List ℕ} {W : List ℚ}

/-- The order of the merges suits the script: every edge is lighter than those below it, and every node with children has
a sibling that is merged earlier; the root counts as a sibling of its children. -/
def OrderlyAt (m : ℕ) (p : ℕ → ℕ) (w : ℕ → ℚ) : Prop := ∀ j ∈ Finset.Icc 1 m, (0 < p j → w (p j) < w j) ∧
  ((∃ i ∈ Finset.Icc 1 m, p i = j) → ∃ i < m + 1, p i = p j ∧ (w j < w i ∨ (w i = w j ∧ i < j)))

theorem pyMergeLoop_tree (hp : ∀ j ∈ Finset.Icc 1 m, p j < j) (h0 : p 0 = 0) (hK : ∀ j < m + 1, K[j]? = some (p j))
    (hW : ∀ j < m + 1, W[j]? = some (w j)) (ho : OrderlyAt m p w) (γ : ℚ) {C : List ℕ} (hC : ∀ i ∈ C, i < m + 1)
    (hsort : C.Pairwise (· < ·)) (hle : ∀ i ∈ C, w i ≤ γ) {S : Finset ℕ}
    (hS : ∀ i, i ∈ S ↔ i ∈ Finset.Icc 1 m ∧ (i ∈ C ∨ w i < γ)) {rd : Prop} (hrd : rd ∨ 0 ∈ C ∨ w 0 < γ) {D : PyDict} (h : DictInv m p S rd D)
    (acc : List ℕ) :
    ∃ D', pyMergeLoop K W γ C D acc = .ok (D', acc ++ C.filter fun i => w i < γ) ∧
      DictInv m p ((Finset.Icc 1 m).filter fun i => w i < γ) (rd ∨ (0 ∈ C ∧ ¬ w 0 < γ)) D' := by
  induction C generalizing S rd D acc with
  | nil =>
    refine ⟨D, by simp [pyMergeLoop], ?_⟩
    have : (Finset.Icc 1 m).filter (fun i => w i < γ) = S := by
      ext i
      rw [Finset.mem_filter, hS]
      simp
    rw [this]
    simpa using h
  | cons j C ih =>
    have hj := hC j List.mem_cons_self
    have hC' : ∀ i ∈ C, i < m + 1 := fun k hk => hC k (List.mem_cons_of_mem _ hk)
    have hle' : ∀ i ∈ C, w i ≤ γ := fun k hk => hle k (List.mem_cons_of_mem _ hk)
    rw [List.pairwise_cons] at hsort
    obtain ⟨hs1, hs2⟩ := hsort
    simp only [pyMergeLoop, pyGet, hW j hj, hK j hj, Outcome.ok_bind]
    by_cases hlt : w j < γ
    · rw [if_pos hlt]
      obtain ⟨D', d1, d2⟩ := ih hC' hs2 hle' (S := S) (by
        intro i
        rw [hS, List.mem_cons]
        refine and_congr_right fun _ => ?_
        constructor
        · rintro ((rfl | h1) | h1)
          · exact Or.inr hlt
          · exact Or.inl h1
          · exact Or.inr h1
        · rintro (h1 | h1)
          · exact Or.inl (Or.inr h1)
          · exact Or.inr h1) (by
        rcases hrd with h1 | h1 | h1
        · exact Or.inl h1
        · rcases List.mem_cons.1 h1 with h2 | h2
          · exact Or.inr (Or.inr (h2 ▸ hlt))
          · exact Or.inr (Or.inl h2)
        · exact Or.inr (Or.inr h1)) h (acc ++ [j])
      refine ⟨D', by rw [d1]; simp [hlt], ?_⟩
      convert d2 using 2
      constructor
      · rintro ⟨h1, h2⟩
        rcases List.mem_cons.1 h1 with rfl | h1
        · exact absurd hlt h2
        · exact ⟨h1, h2⟩
      · exact fun h1 => ⟨List.mem_cons_of_mem _ h1.1, h1.2⟩
    · rw [if_neg hlt]
      rcases Nat.eq_zero_or_pos j with rfl | hjpos
      · rw [h0]
        obtain ⟨D', d1, d2⟩ := ih hC' hs2 hle' (S := S) (by
          intro i
          rw [hS, List.mem_cons]
          refine and_congr_right fun hi => ?_
          rw [Finset.mem_Icc] at hi
          constructor
          · rintro ((h1 | h1) | h1)
            · omega
            · exact Or.inl h1
            · exact Or.inr h1
          · rintro (h1 | h1)
            · exact Or.inl (Or.inr h1)
            · exact Or.inr h1) (Or.inl trivial) (pyJoin_root h h0) acc
        refine ⟨D', by rw [d1]; simp [hlt], ?_⟩
        convert d2 using 1
        simp [hlt]
      · have hjI : j ∈ Finset.Icc 1 m := Finset.mem_Icc.2 ⟨hjpos, by omega⟩
        have hjγ : w j = γ := le_antisymm (hle j List.mem_cons_self) (not_lt.1 hlt)
        have hjS : j ∈ S := (hS j).2 ⟨hjI, Or.inl List.mem_cons_self⟩
        have hpj := hp j hjI
        obtain ⟨o1, o2⟩ := ho j hjI
        have hk : topOf p S (p j) = p j := by
          refine topOf_of_fix fun hh => ?_
          rcases Nat.eq_zero_or_pos (p j) with h1 | h1
          · rw [h1, h0] at hh
            omega
          · exact hh.1 ((hS _).2 ⟨Finset.mem_Icc.2 ⟨h1, by omega⟩, Or.inr (hjγ ▸ o1 h1)⟩)
        have hjC : j ∉ C := fun hh => lt_irrefl _ (hs1 j hh)
        obtain ⟨D', d1, d2⟩ := ih hC' hs2 hle' (S := S.erase j) (by
          intro i
          rw [Finset.mem_erase, hS, List.mem_cons]
          constructor
          · rintro ⟨h1, h2, (h3 | h3) | h3⟩
            · exact absurd h3 h1
            · exact ⟨h2, Or.inl h3⟩
            · exact ⟨h2, Or.inr h3⟩
          · rintro ⟨h1, h2 | h2⟩
            · exact ⟨fun hij => hjC (hij ▸ h2), h1, Or.inl (Or.inr h2)⟩
            · exact ⟨fun hij => hlt (hij ▸ h2), h1, Or.inr h2⟩)
          (by
            rcases hrd with h1 | h1 | h1
            · exact Or.inl h1
            · rcases List.mem_cons.1 h1 with h2 | h2
              · omega
              · exact Or.inr (Or.inl h2)
            · exact Or.inr (Or.inr h1))
          (pyJoin_tree h hj hjS hpj hk (by
            intro hch
            obtain ⟨i, i1, i2, i3⟩ := o2 hch
            rcases Nat.eq_zero_or_pos i with rfl | hipos
            · refine Or.inr ⟨?_, by rw [← i2, h0]⟩
              have hw0 : ¬ w 0 < γ := by
                rcases i3 with i3 | i3
                · exact not_lt.2 (hjγ ▸ i3.le)
                · exact not_lt.2 (hjγ ▸ i3.1.ge)
              rcases hrd with h1 | h1 | h1
              · exact h1
              · rcases List.mem_cons.1 h1 with h2 | h2
                · omega
                · exact absurd (hs1 0 h2) (by omega)
              · exact absurd h1 hw0
            refine Or.inl ⟨i, Finset.mem_Icc.2 ⟨hipos, by omega⟩, fun hiS => ?_, i2⟩
            rcases ((hS i).1 hiS).2 with h1 | h1
            · rcases List.mem_cons.1 h1 with rfl | h2
              · rcases i3 with i3 | i3
                · exact lt_irrefl _ i3
                · exact lt_irrefl _ i3.2
              · have := hs1 i h2
                rcases i3 with i3 | i3
                · exact absurd (hle' i h2) (not_le.2 (hjγ ▸ i3))
                · omega
            · rcases i3 with i3 | i3
              · linarith
              · linarith [i3.1])) acc
        refine ⟨D', by rw [d1]; simp [hlt], ?_⟩
        convert d2 using 2
        constructor
        · rintro ⟨h1, h2⟩
          rcases List.mem_cons.1 h1 with h1 | h1
          · omega
          · exact ⟨h1, h2⟩
        · exact fun h1 => ⟨List.mem_cons_of_mem _ h1.1, h1.2⟩

/-- What is known between two iterations. -/
structure TreeInv (m : ℕ) (p : ℕ → ℕ) (w : ℕ → ℚ) (C : List ℕ) (D : PyDict) (L : List ℚ) (Q : List (List CSet)) :
    Prop where
  lt : ∀ i ∈ C, i < m + 1
  sorted : C.Pairwise (· < ·)
  root : 0 ∈ C ∨ C = []
  dict : DictInv m p (C.toFinset.erase 0) (0 ∉ C) D
  blocks : ∀ P ∈ Q, P.Nodup
  low : ∀ i ∈ C, ∀ c ∈ L, w i < c
  heavy : ∀ i < m + 1, i ∉ C → i ≠ 0 → ∀ j ∈ C, w j < w i
  chain : ∃ t, Q.map List.toFinset = treePart m p (C.toFinset.erase 0) :: t.map Prod.snd ∧ L = t.map Prod.fst ∧
    Linked (treeE m p w) (Finset.range (m + 1)) (treePart m p (C.toFinset.erase 0)) t ∧
    lastOf (treePart m p (C.toFinset.erase 0)) t = singletons (Finset.range (m + 1)) ∧ L.Pairwise (· < ·)

theorem TreeInv.step (hp : ∀ j ∈ Finset.Icc 1 m, p j < j) (h0 : p 0 = 0) (hK : ∀ j < m + 1, K[j]? = some (p j))
    (hW : ∀ j < m + 1, W[j]? = some (w j)) (ho : OrderlyAt m p w)
    (hroot : ∀ j < m + 1, 0 < j → w 0 ≤ w j) (hnn : ∀ j ∈ Finset.Icc 1 m, 0 ≤ w j)
    {C : List ℕ} {D : PyDict} {L : List ℚ} {Q : List (List CSet)} (h : TreeInv m p w C D L Q) (hlen : 1 < C.length) :
    ∃ γ C' D', pyGamma W C (-1) = .ok γ ∧ pyMergeLoop K W γ C D [] = .ok (D', C') ∧ C'.length < C.length ∧
      TreeInv m p w C' D' (γ :: L) (pyBlocks (m + 1) D' :: Q) := by
  obtain ⟨γ, g1, g2, g3, g4⟩ := pyGamma_spec hW h.lt (-1)
  have hnodup : C.Nodup := h.sorted.imp fun hh => hh.ne
  obtain ⟨a, ha, ha0⟩ : ∃ a ∈ C, a ≠ 0 := by
    by_contra hno
    push Not at hno
    have hsub : C ⊆ [0] := fun x hx => by simpa using hno x hx
    have := (hnodup.subperm hsub).length_le
    simp at this
    omega
  have hI : ∀ i ∈ C, i ≠ 0 → i ∈ Finset.Icc 1 m := fun i hi hi0 => by
    have := h.lt i hi
    exact Finset.mem_Icc.2 ⟨by omega, by omega⟩
  have hγ0 : 0 ≤ γ := (hnn a (hI a ha ha0)).trans (g3 a ha)
  obtain ⟨b, hb, hbγ⟩ : ∃ b ∈ C, γ = w b := by
    rcases g4 with g4 | g4
    · linarith
    · exact g4
  obtain ⟨b, hb, hbγ, hb0⟩ : ∃ b ∈ C, γ = w b ∧ b ≠ 0 := by
    rcases eq_or_ne b 0 with rfl | hb0
    · exact ⟨a, ha, le_antisymm (hbγ ▸ hroot a (h.lt a ha) (Nat.pos_of_ne_zero ha0)) (g3 a ha), ha0⟩
    · exact ⟨b, hb, hbγ, hb0⟩
  have h0C : 0 ∈ C := by
    rcases h.root with h' | h'
    · exact h'
    · rw [h'] at hb; cases hb
  set C' := C.filter fun i => w i < γ with hC'
  have hmem : ∀ i, i ∈ C' ↔ i ∈ C ∧ w i < γ := by simp [hC']
  have hroot' : 0 ∈ C' ∨ C' = [] := by
    by_cases hw : w 0 < γ
    · exact Or.inl ((hmem 0).2 ⟨h0C, hw⟩)
    · refine Or.inr (List.eq_nil_iff_forall_not_mem.2 fun i hi => ?_)
      have hi' := (hmem i).1 hi
      rcases eq_or_ne i 0 with rfl | hi0
      · exact hw hi'.2
      · exact hw ((hroot i (h.lt i hi'.1) (Nat.pos_of_ne_zero hi0)).trans_lt hi'.2)
  have hlow : ∀ i ∈ Finset.Icc 1 m, w i < γ → i ∈ C := by
    intro i hi hiγ
    rw [Finset.mem_Icc] at hi
    by_contra hiC
    have := h.heavy i (by omega) hiC (by omega) b hb
    linarith
  have hSI : ∀ X : List ℕ, (∀ i ∈ X, i < m + 1) → X.toFinset.erase 0 ⊆ Finset.Icc 1 m := by
    intro X hX i hi
    rw [Finset.mem_erase, List.mem_toFinset] at hi
    have := hX i hi.2
    exact Finset.mem_Icc.2 ⟨by omega, by omega⟩
  have hCI := hSI C h.lt
  have hlt' : ∀ i ∈ C', i < m + 1 := fun i hi => h.lt i ((hmem i).1 hi).1
  have hCI' := hSI C' hlt'
  have hS' : (Finset.Icc 1 m).filter (fun i => w i < γ) = C'.toFinset.erase 0 := by
    ext i
    rw [Finset.mem_filter, Finset.mem_erase, List.mem_toFinset, hmem]
    constructor
    · rintro ⟨h1, h2⟩
      have := Finset.mem_Icc.1 h1
      exact ⟨by omega, hlow i h1 h2, h2⟩
    · rintro ⟨h1, h2, h3⟩
      exact ⟨hI i h2 h1, h3⟩
  obtain ⟨D', d1, d2⟩ := pyMergeLoop_tree hp h0 hK hW ho γ h.lt h.sorted g3 (S := C.toFinset.erase 0) (by
    intro i
    rw [Finset.mem_erase, List.mem_toFinset]
    constructor
    · rintro ⟨h1, h2⟩
      exact ⟨hI i h2 h1, Or.inl h2⟩
    · rintro ⟨h1, h2 | h2⟩
      · have := Finset.mem_Icc.1 h1
        exact ⟨by omega, h2⟩
      · have := Finset.mem_Icc.1 h1
        exact ⟨by omega, hlow i h1 h2⟩) (Or.inr (Or.inl h0C)) h.dict []
  rw [hS'] at d2
  have hrd : (0 ∉ C ∨ (0 ∈ C ∧ ¬ w 0 < γ)) ↔ 0 ∉ C' := by
    rw [hmem]
    tauto
  rw [hrd] at d2
  rw [List.nil_append] at d1
  have hblocks := pyBlocks_tree d2 (by
    intro h1
    have hnil : C' = [] := by
      rcases hroot' with h2 | h2
      · exact absurd h2 h1
      · exact h2
    have hm1 : 1 ≤ m := by
      have := Finset.mem_Icc.1 (hI a ha ha0)
      omega
    have hS0 : C'.toFinset.erase 0 = ∅ := by rw [hnil]; rfl
    have hp1 : p 1 = 0 := by
      have := hp 1 (Finset.mem_Icc.2 ⟨le_rfl, hm1⟩)
      omega
    have h3 := d2.child 1 (Finset.mem_Icc.2 ⟨le_rfl, hm1⟩) (by rw [hS0]; simp)
      (by rw [hp1]; exact topOf_of_fix (by omega))
    rw [hp1] at h3
    intro i hi
    have htop : topOf p (C'.toFinset.erase 0) i = 0 := by
      have hfix := topOf_fix p (C'.toFinset.erase 0) i
      have hle := topOf_le p (C'.toFinset.erase 0) i
      by_contra hne
      refine hfix ⟨by rw [hS0]; simp, hp _ (Finset.mem_Icc.2 ⟨by omega, by omega⟩)⟩
    rw [htop]
    exact h3)
  refine ⟨γ, C', D', g1, d1, ?_, ?_⟩
  · rw [hC', List.length_filter_lt_length_iff_exists]
    exact ⟨b, hb, by simp [hbγ]⟩
  obtain ⟨t, t1, t2, t3, t4, t5⟩ := h.chain
  refine ⟨hlt', h.sorted.sublist List.filter_sublist, hroot', d2, ?_, ?_, ?_, ?_⟩
  · intro P hP
    rcases List.mem_cons.1 hP with rfl | hP
    · exact hblocks.1
    · exact h.blocks P hP
  · intro i hi c hc
    rcases List.mem_cons.1 hc with rfl | hc
    · exact ((hmem i).1 hi).2
    · exact h.low i ((hmem i).1 hi).1 c hc
  · intro i hi hiC hi0 j hj
    have hj' := (hmem j).1 hj
    by_cases hiC0 : i ∈ C
    · exact hj'.2.trans_le (not_lt.1 fun hh => hiC ((hmem i).2 ⟨hiC0, hh⟩))
    · exact h.heavy i hi hiC0 hi0 j hj'.1
  · have hsub : C'.toFinset.erase 0 ⊆ C.toFinset.erase 0 := by
      intro i hi
      rw [Finset.mem_erase, List.mem_toFinset] at hi ⊢
      exact ⟨hi.1, ((hmem i).1 hi.2).1⟩
    refine ⟨(γ, treePart m p (C.toFinset.erase 0)) :: t, ?_, ?_, ⟨?_, ?_, ⟨treePart_refines hsub, ?_⟩, t3⟩, t4, ?_⟩
    · rw [List.map_cons, hblocks.2, t1]; rfl
    · rw [t2]; rfl
    · refine treePart_optimal hp hCI' ?_ ?_ hγ0
      · intro i hi hiγ
        rw [← hS', Finset.mem_filter]
        exact ⟨hi, hiγ⟩
      · intro i hi
        rw [← hS', Finset.mem_filter] at hi
        exact hi.2.le
    · refine treePart_optimal hp hCI ?_ ?_ hγ0
      · intro i hi hiγ
        have := Finset.mem_Icc.1 hi
        rw [Finset.mem_erase, List.mem_toFinset]
        exact ⟨by omega, hlow i hi hiγ⟩
      · intro i hi
        rw [Finset.mem_erase, List.mem_toFinset] at hi
        exact g3 i hi.2
    · intro he
      have h1 := treePart_broken hp hCI
      rw [he, treePart_broken hp hCI'] at h1
      have h2 : b ∈ C.toFinset.erase 0 := Finset.mem_erase.2 ⟨hb0, List.mem_toFinset.2 hb⟩
      rw [← h1, Finset.mem_erase, List.mem_toFinset, hmem, hbγ] at h2
      exact lt_irrefl _ h2.2.2
    · rw [List.pairwise_cons]
      refine ⟨fun c hc => ?_, t5⟩
      rw [hbγ]
      exact h.low b hb c hc

theorem treePart_all (hp : ∀ j ∈ Finset.Icc 1 m, p j < j) :
    treePart m p (Finset.Icc 1 m) = singletons (Finset.range (m + 1)) := by
  have htop : ∀ i < m + 1, topOf p (Finset.Icc 1 m) i = i := by
    intro i hi
    refine topOf_of_fix fun hh => hh.1 (Finset.mem_Icc.2 ⟨?_, by omega⟩)
    omega
  ext B
  rw [mem_treePart, singletons, Finset.mem_image]
  constructor
  · rintro ⟨i, hi, rfl⟩
    refine ⟨i, Finset.mem_range.2 hi, ?_⟩
    ext k
    rw [Finset.mem_singleton, Finset.mem_filter, Finset.mem_range, htop i hi]
    constructor
    · rintro rfl
      exact ⟨hi, htop k hi⟩
    · rintro ⟨h1, h2⟩
      rwa [htop k h1] at h2
  · rintro ⟨i, hi, rfl⟩
    rw [Finset.mem_range] at hi
    refine ⟨i, hi, ?_⟩
    ext k
    rw [Finset.mem_singleton, Finset.mem_filter, Finset.mem_range, htop i hi]
    constructor
    · rintro rfl
      exact ⟨hi, htop k hi⟩
    · rintro ⟨h1, h2⟩
      rwa [htop k h1] at h2

theorem TreeInv.start (hp : ∀ j ∈ Finset.Icc 1 m, p j < j) :
    TreeInv m p w (List.range (m + 1)) [] [] [(List.range (m + 1)).map fun i => {i}] := by
  have hS : (List.range (m + 1)).toFinset.erase 0 = Finset.Icc 1 m := by
    ext i
    rw [Finset.mem_erase, List.mem_toFinset, List.mem_range, Finset.mem_Icc]
    omega
  refine ⟨fun i hi => List.mem_range.1 hi, List.pairwise_lt_range, Or.inl (by simp), ?_, ?_, ?_, ?_, ?_⟩
  · rw [hS]
    refine ⟨by simp, ?_, ?_, ?_, fun i hi hiS => absurd hi hiS, ?_, ?_, ?_⟩ <;> simp
  · intro P hP
    rw [List.mem_singleton] at hP
    rw [hP]
    exact List.nodup_range.map Finset.singleton_injective
  · intro i _ c hc
    cases hc
  · exact fun i hi hiC => absurd (List.mem_range.2 hi) hiC
  · rw [hS]
    refine ⟨[], ?_, rfl, trivial, treePart_all hp, List.Pairwise.nil⟩
    rw [treePart_all hp]
    simp only [List.map_cons, List.map_nil]
    congr 1

theorem pyLoop_tree (hp : ∀ j ∈ Finset.Icc 1 m, p j < j) (h0 : p 0 = 0) (hK : ∀ j < m + 1, K[j]? = some (p j))
    (hW : ∀ j < m + 1, W[j]? = some (w j)) (ho : OrderlyAt m p w)
    (hroot : ∀ j < m + 1, 0 < j → w 0 ≤ w j) (hnn : ∀ j ∈ Finset.Icc 1 m, 0 ≤ w j) (fuel : ℕ)
    {C : List ℕ} {D : PyDict} {L : List ℚ} {Q : List (List CSet)} (h : TreeInv m p w C D L Q)
    (hf : C.length ≤ fuel + 1) :
    ∃ C' D' L' Q', pyLoop (m + 1) K W fuel C D L Q = .ok (L', Q') ∧ C'.length ≤ 1 ∧ TreeInv m p w C' D' L' Q' := by
  induction fuel generalizing C D L Q with
  | zero =>
    refine ⟨C, D, L, Q, ?_, by omega, h⟩
    rw [pyLoop, if_neg (by omega)]
  | succ fuel ih =>
    by_cases hlen : 1 < C.length
    · obtain ⟨γ, C', D', h1, h2, h3, h4⟩ := h.step hp h0 hK hW ho hroot hnn hlen
      obtain ⟨C'', D'', L', Q', e1, e2, e3⟩ := ih h4 (by omega)
      refine ⟨C'', D'', L', Q', ?_, e2, e3⟩
      rw [pyLoop, if_pos hlen, h1, Outcome.ok_bind, h2, Outcome.ok_bind]
      exact e1
    · refine ⟨C, D, L, Q, ?_, by omega, h⟩
      rw [pyLoop, if_neg hlen]

theorem getPsp_tree (hp : ∀ j ∈ Finset.Icc 1 m, p j < j) (h0 : p 0 = 0) (hK : ∀ j < m + 1, K[j]? = some (p j))
    (hW : ∀ j < m + 1, W[j]? = some (w j)) (ho : OrderlyAt m p w)
    (hroot : ∀ j < m + 1, 0 < j → w 0 ≤ w j) (hnn : ∀ j ∈ Finset.Icc 1 m, 0 ≤ w j) {fuel : ℕ} (hf : m ≤ fuel) :
    ∃ L Q, getPsp fuel (m + 1) K W = .ok (L, Q) ∧ (∀ P ∈ Q, P.Nodup) ∧
      IsPrincipalSequence (treeE m p w) (Finset.range (m + 1)) (Q.map List.toFinset) L := by
  obtain ⟨C, D, L, Q, h1, h2, h3⟩ := pyLoop_tree hp h0 hK hW ho hroot hnn fuel (TreeInv.start hp)
    (by rw [List.length_range]; omega)
  refine ⟨L, Q, h1, h3.blocks, ?_⟩
  obtain ⟨t, t1, t2, t3, t4, t5⟩ := h3.chain
  have hS : C.toFinset.erase 0 = ∅ := by
    rcases h3.root with h | h
    · obtain ⟨a, rfl⟩ := List.length_eq_one_iff.1 (show C.length = 1 by
        have := List.length_pos_of_mem h; omega)
      rw [List.mem_singleton] at h
      rw [← h]
      rfl
    · rw [h]; rfl
  have hone : treePart m p (C.toFinset.erase 0) = {Finset.range (m + 1)} :=
    treePart_partition.eq_single_of_card (by rw [treePart_card hp (by rw [hS]; simp), hS]; rfl)
  rw [hone] at t1 t3 t4
  rw [t1, t2]
  rw [t2] at t5
  exact Linked.strict (treeE_nonneg hnn) (treeE_within hp) ⟨0, by simp⟩ t3 t4 t5

end PSP.Theory
