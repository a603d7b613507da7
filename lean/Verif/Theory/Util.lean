import Mathlib.Logic.Function.Iterate
import Mathlib.Tactic.Linarith
import Mathlib.Algebra.BigOperators.Group.Finset.Sigma
import Mathlib.Algebra.Order.BigOperators.Group.List
import Verif.Model.Util
import Verif.Spec.Util

/-!
# Lemmas about `digraph_copy` and `digraph_contract`
-/

namespace PSP.Theory

open PSP.Model PSP.Spec

/-! ### the list of nodes -/

/-- The entry before `k`, if there is one. -/
def below (k : ℕ) : Option ℕ := if k = 0 then none else some (k - 1)

theorem below_succ (k : ℕ) : below (k + 1) = some k := by simp [below]

/-- `n` nodes added to a new graph. -/
structure Fresh (n : ℕ) (s : NodeStore) : Prop where
  size : s.size = n
  next : ∀ k < n, s.next k = below k
  prev : ∀ k < n, s.prev k = if k + 1 < n then some (k + 1) else none
  first : s.first = below n
  free : s.free = none

theorem fresh_addNode : ∀ n, Fresh n (NodeStore.addNode^[n] .empty) := by
  intro n
  induction n with
  | zero =>
    exact ⟨rfl, fun _ h => absurd h (Nat.not_lt_zero _), fun _ h => absurd h (Nat.not_lt_zero _), rfl, rfl⟩
  | succ n ih =>
    rw [Function.iterate_succ_apply']
    generalize NodeStore.addNode^[n] .empty = s at ih
    refine ⟨?_, ?_, ?_, ?_, ?_⟩
    · simp [NodeStore.addNode, ih.free, ih.size]
    · intro k hk
      simp only [NodeStore.addNode, ih.free, ih.size, Option.getD_none, ih.first]
      by_cases h : k = n
      · rw [h, Function.update_self]
      · rw [Function.update_of_ne h, ih.next k (by omega)]
    · intro k hk
      simp only [NodeStore.addNode, ih.free, ih.size, Option.getD_none, ih.first]
      cases n with
      | zero =>
        have : k = 0 := by omega
        subst this
        simp [below]
      | succ n =>
        rw [below_succ]
        simp only
        by_cases h : k = n
        · subst h; simp
        · rw [Function.update_of_ne h]
          by_cases h' : k = n + 1
          · subst h'; simp
          · rw [Function.update_of_ne h', ih.prev k (by omega), if_pos (by omega), if_pos (by omega)]
    · simp [NodeStore.addNode, ih.free, ih.size, below]
    · simp [NodeStore.addNode, ih.free]

/-- Every entry of the list is linked to the following one. -/
def NodesLinked (nx : ℕ → Option ℕ) : List ℕ → Prop
  | [] => True
  | a :: l => nx a = l.head? ∧ NodesLinked nx l

theorem NodesLinked.congr {nx ny : ℕ → Option ℕ} : ∀ {l : List ℕ}, NodesLinked nx l → (∀ a ∈ l, nx a = ny a) →
    NodesLinked ny l
  | [], _, _ => trivial
  | a :: l, h, hc => ⟨(hc a (by simp)).symm.trans h.1, h.2.congr fun b hb => hc b (by simp [hb])⟩

theorem listFrom_of_linked {s : NodeStore} : ∀ (l : List ℕ) (k : ℕ), l.length ≤ k →
    NodesLinked s.next l → s.listFrom k l.head? = l := by
  intro l
  induction l with
  | nil => intro k _ _; cases k <;> rfl
  | cons a l ih =>
    intro k hk hl
    cases k with
    | zero => simp at hk
    | succ k =>
      simp only [List.head?_cons, NodeStore.listFrom]
      rw [hl.1, ih k (by simpa using hk) hl.2]

theorem linked_down (v n : ℕ) :
    NodesLinked (fun k => if k = v then none else if k = v + 1 then below v else below k)
      ((List.range n).filter (fun k => k ≠ v)).reverse ∧
    ((List.range n).filter (fun k => k ≠ v)).reverse.head? =
      if n = v + 1 then below v else below n := by
  induction n with
  | zero => exact ⟨trivial, by simp [below]⟩
  | succ n ih =>
    rw [List.range_succ, List.filter_append, List.reverse_append]
    by_cases h : n = v
    · subst h
      rw [show List.filter (fun k => decide (k ≠ n)) [n] = [] by simp]
      simp only [List.reverse_nil, List.nil_append, if_true]
      refine ⟨ih.1, ?_⟩
      rw [ih.2, if_neg (by omega)]
    · rw [show List.filter (fun k => decide (k ≠ v)) [n] = [n] by simp [h]]
      simp only [List.reverse_singleton, List.singleton_append, List.head?_cons]
      refine ⟨⟨?_, ih.1⟩, ?_⟩
      · rw [ih.2]; simp only [h, if_false]
      · rw [if_neg (by omega), below_succ]

theorem linked_range (n : ℕ) : NodesLinked below (List.range n).reverse ∧
    (List.range n).reverse.head? = below n := by
  induction n with
  | zero => exact ⟨trivial, by simp [below]⟩
  | succ n ih =>
    rw [List.range_succ, List.reverse_append]
    simp only [List.reverse_singleton, List.singleton_append, List.head?_cons]
    exact ⟨⟨ih.2.symm, ih.1⟩, (below_succ n).symm⟩

/-- As long as the nodes are valid in the old graph the loop goes down the list. -/
theorem copyLoop_down {old : ℕ → Bool} {n : ℕ} {s : NodeStore} (hs : Fresh n s) (v : ℕ) :
    ∀ d k, v + d ≤ n → (∀ u, v ≤ u → u < v + d → old u = true) →
      copyLoop old (k + d) (below (v + d)) s = copyLoop old k (below v) s := by
  intro d
  induction d with
  | zero => intro k _ _; rfl
  | succ d ih =>
    intro k hd ho
    rw [show v + (d + 1) = (v + d) + 1 from rfl, below_succ, show k + (d + 1) = (k + d) + 1 from rfl]
    simp only [copyLoop, ho (v + d) (by omega) (by omega), if_true]
    rw [hs.next (v + d) (by omega)]
    exact ih k (by omega) fun u h1 h2 => ho u h1 (by omega)

theorem copyLoop_none (old : ℕ → Bool) (k : ℕ) (s : NodeStore) : copyLoop old k none s = .ok s := by
  cases k <;> rfl

/-- No id is missing: nothing is erased. -/
theorem digraphCopy_all {m : Mem} (h : ∀ v < m.ids, v ∈ m.nodes) :
    digraphCopy m = .ok ⟨List.range m.ids, m.arcs⟩ := by
  have hs := fresh_addNode m.ids
  unfold digraphCopy
  generalize NodeStore.addNode^[m.ids] .empty = s at hs
  have h1 := copyLoop_down (old := fun v => decide (v ∈ m.nodes)) hs 0 m.ids 0 (by omega)
    fun u _ hu => by simpa using h u (by omega)
  simp only [Nat.zero_add] at h1
  simp only [hs.first]
  rw [h1]
  have : below 0 = none := rfl
  rw [this, copyLoop_none, Outcome.ok_bind, Outcome.pure_eq]
  have hl : s.list = (List.range m.ids).reverse := by
    unfold NodeStore.list
    rw [hs.first, ← (linked_range m.ids).2, hs.size]
    apply listFrom_of_linked _ _ (by simp)
    exact (linked_range m.ids).1.congr fun a ha => (hs.next a (by simpa using ha)).symm
  rw [hl, List.reverse_reverse]

/-- `v` is the largest missing id: only `v` is erased. -/
theorem digraphCopy_missing {m : Mem} {v : ℕ} (hv : v < m.ids) (hm : v ∉ m.nodes)
    (hmax : ∀ u < m.ids, v < u → u ∈ m.nodes) :
    digraphCopy m = .ok ⟨(List.range m.ids).filter (fun k => k ≠ v), m.arcs⟩ := by
  have hs := fresh_addNode m.ids
  unfold digraphCopy
  generalize NodeStore.addNode^[m.ids] .empty = s at hs
  have h1 := copyLoop_down (old := fun v => decide (v ∈ m.nodes)) hs (v + 1) (m.ids - (v + 1)) (v + 1)
    (by omega) fun u hu hu' => by simpa using hmax u (by omega) (by omega)
  rw [show v + 1 + (m.ids - (v + 1)) = m.ids by omega, below_succ] at h1
  simp only [hs.first]
  rw [h1]
  simp only [copyLoop, hm, decide_false, Bool.false_eq_true, if_false]
  have hnv : (s.erase v).next v = none := by
    simp [NodeStore.erase, hs.free]
  rw [hnv, copyLoop_none, Outcome.ok_bind, Outcome.pure_eq]
  have hl : (s.erase v).list = ((List.range m.ids).filter (fun k => k ≠ v)).reverse := by
    have hld := linked_down v m.ids
    have hfirst : (s.erase v).first = if m.ids = v + 1 then below v else below m.ids := by
      simp only [NodeStore.erase]
      rw [hs.prev v hv, hs.next v hv, hs.first]
      by_cases h : m.ids = v + 1
      · rw [if_pos h, if_neg (by omega)]
      · rw [if_neg h, if_pos (by omega)]
    unfold NodeStore.list
    rw [hfirst, ← hld.2]
    apply listFrom_of_linked
    · rw [List.length_reverse]
      refine (List.length_filter_le _ _).trans ?_
      simp [NodeStore.erase, hs.size]
    · apply hld.1.congr
      intro a ha
      have ha' : a < m.ids ∧ a ≠ v := by simpa using ha
      simp only [NodeStore.erase]
      rw [hs.prev v hv, if_neg ha'.2, Function.update_of_ne ha'.2]
      by_cases h : a = v + 1
      · subst h
        rw [if_pos rfl, if_pos ha'.1]
        simp [hs.next v hv]
      · rw [if_neg h]
        by_cases h' : v + 1 < m.ids
        · rw [if_pos h']
          simp only
          rw [Function.update_of_ne h, hs.next a ha'.1]
        · rw [if_neg h']
          exact (hs.next a ha'.1).symm
  rw [hl, List.reverse_reverse]

/-! ### contraction -/

theorem capFromTo_append (E F : List Arc) (A B : Finset ℕ) :
    capFromTo (E ++ F) A B = capFromTo E A B + capFromTo F A B := by
  simp [capFromTo]

theorem capFromTo_congr {E : List Arc} {A B C D : Finset ℕ}
    (h : ∀ a ∈ E, (a.src ∈ A ∧ a.dst ∈ B) ↔ (a.src ∈ C ∧ a.dst ∈ D)) :
    capFromTo E A B = capFromTo E C D := by
  unfold capFromTo
  congr 1
  apply List.map_congr_left
  intro a ha
  by_cases h' : a.src ∈ A ∧ a.dst ∈ B
  · rw [if_pos h', if_pos ((h a ha).1 h')]
  · rw [if_neg h', if_neg fun h'' => h' ((h a ha).2 h'')]

theorem capFromTo_eq_zero {E : List Arc} {A B : Finset ℕ}
    (h : ∀ a ∈ E, ¬ (a.src ∈ A ∧ a.dst ∈ B)) : capFromTo E A B = 0 := by
  unfold capFromTo
  apply List.sum_eq_zero
  intro x hx
  obtain ⟨a, ha, rfl⟩ := List.mem_map.1 hx
  exact if_neg (h a ha)

theorem capFromTo_filter (E : List Arc) (p : Arc → Bool) {A B : Finset ℕ}
    (h : ∀ a ∈ E, a.src ∈ A ∧ a.dst ∈ B → p a = true) :
    capFromTo (E.filter p) A B = capFromTo E A B := by
  unfold capFromTo
  induction E with
  | nil => rfl
  | cons a E ih =>
    have ih' := ih fun b hb => h b (by simp [hb])
    by_cases hp : p a = true
    · rw [List.filter_cons_of_pos hp, List.map_cons, List.map_cons, List.sum_cons, List.sum_cons, ih']
    · rw [List.filter_cons_of_neg hp, List.map_cons, List.sum_cons, ih', if_neg, zero_add]
      exact fun h' => hp (h a (by simp) h')

theorem capFromTo_nonneg {E : List Arc} (h : ∀ a ∈ E, 0 ≤ a.cap) (A B : Finset ℕ) :
    0 ≤ capFromTo E A B := by
  apply List.sum_nonneg
  intro x hx
  obtain ⟨a, ha, rfl⟩ := List.mem_map.1 hx
  split
  · exact h a ha
  · exact le_rfl

/-- A sum of capacities each 0 or above the tolerance is 0 or above the tolerance. -/
theorem capFromTo_fine {ε : ℚ} {E : List Arc} (h0 : 0 ≤ ε) (h : ∀ a ∈ E, a.cap = 0 ∨ ε < a.cap)
    (A B : Finset ℕ) : capFromTo E A B = 0 ∨ ε < capFromTo E A B := by
  induction E with
  | nil => exact Or.inl rfl
  | cons a E ih =>
    have hn : ∀ b ∈ a :: E, 0 ≤ b.cap := fun b hb => by
      rcases h b hb with h | h <;> linarith
    have h1 : capFromTo (a :: E) A B = (if a.src ∈ A ∧ a.dst ∈ B then a.cap else 0) + capFromTo E A B := by
      simp [capFromTo]
    have h2 := capFromTo_nonneg (fun b hb => hn b (List.mem_cons_of_mem _ hb)) A B
    rcases ih (fun b hb => h b (by simp [hb])) with h3 | h3
    · rw [h1, h3, add_zero]
      split
      · exact h a (by simp)
      · exact Or.inl rfl
    · right
      rw [h1]
      have : 0 ≤ (if a.src ∈ A ∧ a.dst ∈ B then a.cap else 0) := by
        split
        · exact hn a (by simp)
        · exact le_rfl
      linarith

theorem sum_filterMap {α β : Type} (f : α → Option β) (h : β → ℚ) (l : List α) :
    ((l.filterMap f).map h).sum = (l.map fun w => ((f w).map h).getD 0).sum := by
  induction l with
  | nil => rfl
  | cons a l ih =>
    cases hf : f a with
    | none => rw [List.filterMap_cons_none hf, ih]; simp [hf]
    | some b => rw [List.filterMap_cons_some hf]; simp [hf, ih]

theorem sum_single {l : List ℕ} (hl : l.Nodup) {v : ℕ} (hv : v ∈ l) {F : ℕ → ℚ}
    (h : ∀ w ∈ l, w ≠ v → F w = 0) : (l.map F).sum = F v := by
  induction l with
  | nil => simp at hv
  | cons a l ih =>
    rw [List.nodup_cons] at hl
    rw [List.map_cons, List.sum_cons]
    rcases List.mem_cons.1 hv with rfl | hv'
    · rw [List.sum_eq_zero, add_zero]
      intro x hx
      obtain ⟨w, hw, rfl⟩ := List.mem_map.1 hx
      exact h w (by simp [hw]) fun e => hl.1 (e ▸ hw)
    · rw [h a (by simp) (fun e => hl.1 (e ▸ hv')), zero_add]
      exact ih hl.2 hv' fun w hw => h w (by simp [hw])

theorem capacityOut_eq {E : List Arc} {S : Finset ℕ} {v : ℕ} (hv : v ∉ S) :
    capacityOut E S v = capFromTo E S {v} := by
  unfold capacityOut capFromTo
  congr 1
  apply List.map_congr_left
  intro a _
  congr 1
  simp only [Finset.mem_singleton, eq_iff_iff]
  constructor
  · exact fun h => ⟨h.1, h.2.2⟩
  · exact fun h => ⟨h.1, h.2 ▸ hv, h.2⟩

theorem capacityIn_eq {E : List Arc} {S : Finset ℕ} {v : ℕ} (hv : v ∉ S) :
    capacityIn E S v = capFromTo E {v} S := by
  unfold capacityIn capFromTo
  congr 1
  apply List.map_congr_left
  intro a _
  congr 1
  simp only [Finset.mem_singleton, eq_iff_iff]
  constructor
  · exact fun h => ⟨h.2.2, h.2.1⟩
  · exact fun h => ⟨h.1 ▸ hv, h.2, h.1⟩

theorem utilArc_some {ε : ℚ} {E : List Arc} {S : Finset ℕ} {i v : ℕ} {a : Arc}
    (h : utilArc ε E S i v = some a) : v ∉ S ∧ ((a.src = i ∧ a.dst = v) ∨ (a.src = v ∧ a.dst = i)) := by
  unfold utilArc at h
  split at h
  · cases h
  · rename_i hv
    split at h
    · cases h; exact ⟨hv, .inl ⟨rfl, rfl⟩⟩
    · split at h
      · cases h; exact ⟨hv, .inr ⟨rfl, rfl⟩⟩
      · cases h

theorem mem_utilArcs {ε : ℚ} {g : Digraph} {S : Finset ℕ} {i : ℕ} {a : Arc}
    (h : a ∈ utilArcs ε g S i) :
    ∃ v ∈ g.nodes, v ∉ S ∧ ((a.src = i ∧ a.dst = v) ∨ (a.src = v ∧ a.dst = i)) := by
  obtain ⟨v, hv, he⟩ := List.mem_filterMap.1 h
  exact ⟨v, by simpa using hv, utilArc_some he⟩

theorem utilArcs_out {ε : ℚ} {g : Digraph} (hn : g.nodes.Nodup) {S : Finset ℕ} {i v : ℕ} (hi : i ∈ S)
    (hv : v ∈ g.nodes) (hvS : v ∉ S) :
    capFromTo (utilArcs ε g S i) {i} {v} =
      if capFromTo g.arcs S {v} > ε then capFromTo g.arcs S {v} else 0 := by
  have hne : i ≠ v := fun h => hvS (h ▸ hi)
  unfold utilArcs
  rw [capFromTo, sum_filterMap, sum_single (v := v)]
  · unfold utilArc
    rw [if_neg hvS, capacityOut_eq hvS, capacityIn_eq hvS]
    split
    · simp
    · split <;> simp [hne, hne.symm]
  · exact (List.perm_insertionSort _ _).nodup_iff.2 hn
  · simpa using hv
  · intro w _ hw
    cases hf : utilArc ε g.arcs S i w with
    | none => rfl
    | some a =>
      obtain ⟨hwS, h | h⟩ := utilArc_some hf
      · simp [h.1, h.2, hw]
      · simp [h.1, h.2, hne]

theorem utilArcs_in {ε : ℚ} {g : Digraph} (hn : g.nodes.Nodup) {S : Finset ℕ} {i v : ℕ} (hi : i ∈ S)
    (hv : v ∈ g.nodes) (hvS : v ∉ S) :
    capFromTo (utilArcs ε g S i) {v} {i} =
      if capFromTo g.arcs S {v} > ε then 0
      else if |capFromTo g.arcs {v} S| > ε then capFromTo g.arcs {v} S else 0 := by
  have hne : i ≠ v := fun h => hvS (h ▸ hi)
  unfold utilArcs
  rw [capFromTo, sum_filterMap, sum_single (v := v)]
  · unfold utilArc
    rw [if_neg hvS, capacityOut_eq hvS, capacityIn_eq hvS]
    split
    · simp [hne]
    · split <;> simp
  · exact (List.perm_insertionSort _ _).nodup_iff.2 hn
  · simpa using hv
  · intro w _ hw
    cases hf : utilArc ε g.arcs S i w with
    | none => rfl
    | some a =>
      obtain ⟨hwS, h | h⟩ := utilArc_some hf
      · simp [h.1, h.2, hne]
      · simp [h.1, h.2, hw]

/-- The result of a contraction that does something. -/
theorem digraphContract_eq {ε : ℚ} {g : Digraph} {S : Finset ℕ} {i : ℕ}
    (hi : i ∈ g.nodes) {j : ℕ} (hj : j ∈ g.nodes) (hjS : j ∈ S) (hji : j ≠ i) :
    digraphContract ε g S i = .ok
      { nodes := g.nodes.filter fun v => ¬ (v ∈ S ∧ v ≠ i)
        arcs := (g.arcs.filter fun a => ¬ (a.src = i ∨ a.dst = i) ∧
          ¬ (a.src ∈ S ∧ a.src ≠ i) ∧ ¬ (a.dst ∈ S ∧ a.dst ≠ i)) ++ utilArcs ε g S i } := by
  unfold digraphContract
  rw [if_neg, if_neg]
  · exact fun h => h.1 hi
  · exact fun h => hji (h j hj hjS)

/-- All capacities of the contracted graph. -/
theorem contract_cap {ε : ℚ} {g g' : Digraph} (hn : g.nodes.Nodup) {S : Finset ℕ} {i : ℕ} (hiS : i ∈ S)
    (hi : i ∈ g.nodes) {j : ℕ} (hj : j ∈ g.nodes) (hjS : j ∈ S) (hji : j ≠ i)
    (h : digraphContract ε g S i = .ok g') :
    g'.nodes = g.nodes.filter (fun v => ¬ (v ∈ S ∧ v ≠ i)) ∧
    (∀ u v, u ∉ S → v ∉ S → capFromTo g'.arcs {u} {v} = capFromTo g.arcs {u} {v}) ∧
    (∀ v ∈ g.nodes, v ∉ S → capFromTo g'.arcs {i} {v} =
      if capFromTo g.arcs S {v} > ε then capFromTo g.arcs S {v} else 0) ∧
    (∀ v ∈ g.nodes, v ∉ S → capFromTo g'.arcs {v} {i} =
      if capFromTo g.arcs S {v} > ε then 0
      else if |capFromTo g.arcs {v} S| > ε then capFromTo g.arcs {v} S else 0) := by
  rw [digraphContract_eq hi hj hjS hji] at h
  cases h
  refine ⟨rfl, ?_, ?_, ?_⟩
  · intro u v hu hv
    simp only
    rw [capFromTo_append, capFromTo_filter, capFromTo_eq_zero (E := utilArcs ε g S i), add_zero]
    · intro a ha hc
      obtain ⟨w, _, _, h | h⟩ := mem_utilArcs ha
      · rw [Finset.mem_singleton] at hc; exact hu (hc.1 ▸ h.1 ▸ hiS)
      · rw [Finset.mem_singleton, Finset.mem_singleton] at hc; exact hv (hc.2 ▸ h.2 ▸ hiS)
    · rintro a _ ⟨h1, h2⟩
      rw [Finset.mem_singleton] at h1 h2
      simp only [decide_eq_true_eq, h1, h2]
      exact ⟨fun h => h.elim (fun h => hu (h ▸ hiS)) (fun h => hv (h ▸ hiS)),
        fun h => hu h.1, fun h => hv h.1⟩
  · intro v hv hvS
    simp only
    rw [capFromTo_append, utilArcs_out hn hiS hv hvS, capFromTo_eq_zero, zero_add]
    intro a ha hc
    have := (List.mem_filter.1 ha).2
    simp only [decide_eq_true_eq] at this
    exact this.1 (.inl (Finset.mem_singleton.1 hc.1))
  · intro v hv hvS
    simp only
    rw [capFromTo_append, utilArcs_in hn hiS hv hvS, capFromTo_eq_zero, zero_add]
    intro a ha hc
    have := (List.mem_filter.1 ha).2
    simp only [decide_eq_true_eq] at this
    exact this.1 (.inr (Finset.mem_singleton.1 hc.2))

theorem capFromTo_sum (E : List Arc) (A B : Finset ℕ) :
    capFromTo E A B = ∑ u ∈ A, ∑ v ∈ B, capFromTo E {u} {v} := by
  induction E with
  | nil => simp [capFromTo]
  | cons a E ih =>
    have h1 : ∀ A B : Finset ℕ, capFromTo (a :: E) A B =
        (if a.src ∈ A ∧ a.dst ∈ B then a.cap else 0) + capFromTo E A B := by
      intro A B; simp [capFromTo]
    simp only [h1, Finset.sum_add_distrib]
    rw [← ih]
    congr 1
    simp only [Finset.mem_singleton]
    by_cases hs : a.src ∈ A
    · rw [Finset.sum_eq_single a.src]
      · by_cases hd : a.dst ∈ B
        · rw [Finset.sum_eq_single a.dst]
          · simp [hs, hd]
          · intro b _ hb; rw [if_neg fun h => hb h.2.symm]
          · intro h; exact absurd hd h
        · rw [if_neg (show ¬ (a.src ∈ A ∧ a.dst ∈ B) from fun h => hd h.2), Finset.sum_eq_zero]
          intro b hb; rw [if_neg]; rintro ⟨_, h⟩; exact hd (h ▸ hb)
      · intro u _ hu
        apply Finset.sum_eq_zero
        intro b _; rw [if_neg fun h => hu h.1.symm]
      · intro h; exact absurd hs h
    · rw [if_neg (show ¬ (a.src ∈ A ∧ a.dst ∈ B) from fun h => hs h.1), Finset.sum_eq_zero]
      intro u hu
      apply Finset.sum_eq_zero
      intro b _; rw [if_neg]; rintro ⟨h, _⟩; exact hs (h ▸ hu)

end PSP.Theory
