import Verif.Theory.LifeHC
import Verif.Props.AIC

/-!
# C61: what `HC::getPartition` and `Agglomerative_PSP::run` leave behind

Property C61: a query leaves no objects behind. The code violates it in every call: `to_cluster` is created
with `new` and never deleted (Core.hpp:229). What is proved instead is that nothing that existed before is
touched and the number of objects that remain.
-/

namespace PSP.Props

open PSP.Model PSP.Theory

/-- **C61 (part)**: `getPartition` deletes nothing of anybody else, and returns what it returns without regard to the
heap. Missing: no new objects remain. -/
theorem C61_partition_partial (h : HC) (gam : WithBot ℚ) (hp : Heap) (hw : ∀ a ∈ hp.live, a < hp.next) :
    (h.getPartitionM gam hp).2 = h.getPartition gam ∧
      ∀ hp' L, h.getPartitionM gam hp = (hp', .ok L) → hp.live ⊆ hp'.live :=
  ⟨getPartitionM_erases h gam hp, fun hp' L he => (getPartitionM_grows h gam hp hp' L hw he).2.1⟩

/-- **C61 is violated by every call of `getPartition` that returns**: one list and one node of it for every node of
the graph remain. -/
theorem C61_partition_violated (h : HC) (gam : WithBot ℚ) (hp hp' : Heap) (L : List (List ℕ))
    (hw : ∀ a ∈ hp.live, a < hp.next) (he : h.getPartitionM gam hp = (hp', .ok L)) :
    hp'.live.card = hp.live.card + (h.n + 1) :=
  (getPartitionM_grows h gam hp hp' L hw he).2.2

/-- `getPartition` of the clustering of four nodes with two merges does return. -/
example : ∃ h L hp', (HC.new 4).mergeAll [⟨0, 1, 3⟩, ⟨2, 1, 2⟩] = .ok h ∧
    h.getPartitionM ⊥ ⟨0, ∅⟩ = (hp', .ok L) ∧ L = [[0, 1, 2], [3]] ∧ hp'.live.card = 5 :=
  ⟨_, _, _, rfl, rfl, by decide +kernel, by decide +kernel⟩

/-- **C61 (part)**: the same for `Agglomerative_PSP::run`. -/
theorem C61_agg_partial (mnb : SF → Outcome (List ℚ)) (f : SF) (tol : ℚ) (hp : Heap)
    (hw : ∀ a ∈ hp.live, a < hp.next) :
    (aggRunM mnb f tol hp).2 = aggRunSF mnb f tol ∧
      ∀ hp' r, aggRunM mnb f tol hp = (hp', .ok r) → hp.live ⊆ hp'.live :=
  ⟨aggRunM_erases mnb f tol hp, fun hp' r he => (aggRunM_grows mnb f tol hp hp' r hw he).2.1⟩

/-- **C61 is violated by every run of `Agglomerative_PSP` that returns**: for a ground set of `n` elements and a result
of `k` partitions, `2 k (n + 1)` objects remain. -/
theorem C61_agg_violated (mnb : SF → Outcome (List ℚ)) (f : SF) (tol : ℚ) (ps : List Partition) (cv : List ℚ)
    (hr : aggRunSF mnb f tol = .ok (ps, cv)) (hp : Heap) (hw : ∀ a ∈ hp.live, a < hp.next) :
    ∃ hp', aggRunM mnb f tol hp = (hp', .ok (ps, cv)) ∧
      hp'.live.card = hp.live.card + 2 * ps.length * (f.size + 1) := by
  have h1 := aggRunM_erases mnb f tol hp
  rcases he : aggRunM mnb f tol hp with ⟨hp', o⟩
  rw [he] at h1
  simp only at h1
  rw [h1, hr] at he ⊢
  exact ⟨hp', rfl, (aggRunM_grows mnb f tol hp hp' (ps, cv) hw he).2.2⟩

/-- The example of a hypergraph: three nodes and three partitions, so 24 objects remain. -/
example : ∃ hp', aggRunM (mnbOf gaussNumerics (1 / 10 ^ 6) (1 / 10 ^ 15) 50)
    (hypergraphEntropy [[1, 0], [1, 2], [1, 2]] 2) (1 / 10 ^ 6) ⟨0, ∅⟩ =
      (hp', .ok ([{{0, 1, 2}}, {{0}, {1, 2}}, {{0}, {1}, {2}}], [1, 3])) ∧ hp'.live.card = 24 :=
  C61_agg_violated _ _ _ _ _ (by decide +kernel) ⟨0, ∅⟩ (by simp)

/-- **C61, the destructor of the list.** It would not be enough to delete the list: its destructor begins with
`lnode[1]` (Core.hpp:132-136), so that exactly one node of every list remains. -/
theorem C61_list_violated (n : ℕ) (hn : 0 < n) (hp : Heap) (hw : ∀ a ∈ hp.live, a < hp.next) :
    ∃ hp1 l hp2, LinkListMem.new n hp = (hp1, .ok l) ∧ l.destroy hp1 = (hp2, .ok ()) ∧ hp.live ⊆ hp2.live ∧
      hp2.live.card = hp.live.card + 1 := by
  obtain ⟨l, hl⟩ : ∃ l, HC.LinkList.new n = .ok l := by
    unfold HC.LinkList.new
    split_ifs with h1 h2
    · exact ⟨_, rfl⟩
    · omega
    · exact ⟨_, rfl⟩
  obtain ⟨hp1, ps, e, _, hlen, hnd, hge, hm⟩ := newN_spec n hp hw
  cases ps with
  | nil => simp at hlen; omega
  | cons p ps =>
    rw [List.nodup_cons] at hnd
    obtain ⟨hp2, e2, _, hm2⟩ := deleteAll_spec ps hp1 hnd.2 fun q hq => (hm q).2 (Or.inr (List.mem_cons_of_mem _ hq))
    have hnew : ∀ q ∈ p :: ps, q ∉ hp.live := fun q hq hc => absurd (hw q hc) (by have := hge q hq; omega)
    have hlive : hp2.live = insert p hp.live := by
      ext a
      rw [hm2, hm, Finset.mem_insert, List.mem_cons]
      constructor
      · tauto
      · rintro (rfl | ha)
        · exact ⟨Or.inr (Or.inl rfl), hnd.1⟩
        · exact ⟨Or.inl ha, fun hc => hnew a (List.mem_cons_of_mem _ hc) ha⟩
    refine ⟨hp1, ⟨l, p :: ps⟩, hp2, ?_, e2, ?_, ?_⟩
    · unfold LinkListMem.new
      rw [hl, HM.bind_ok (show HM.lift (Outcome.ok l) hp = (hp, .ok l) from rfl), HM.bind_ok e]
      rfl
    · rw [hlive]; exact Finset.subset_insert _ _
    · rw [hlive, Finset.card_insert_of_notMem (hnew p (List.mem_cons_self))]

end PSP.Props
