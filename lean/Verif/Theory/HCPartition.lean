import Verif.Theory.HCSearch
import Verif.Theory.HCMerge

/-!
# `HC::getPartition`: the linked list of nodes still to be clustered
-/

namespace PSP.Theory

open PSP.Spec PSP.Model Relation

/-- `l` links the elements of `S` in increasing order. -/
structure Linked (l : HC.LinkList) (S : Set ℕ) : Prop where
  next : ∀ a ∈ S, (l.next a ∈ S ∧ a < l.next a ∧ ∀ c ∈ S, a < c → l.next a ≤ c) ∨
    (l.next a = a ∧ ∀ c ∈ S, c ≤ a)
  prev : ∀ a ∈ S, (l.prev a ∈ S ∧ l.prev a < a ∧ ∀ c ∈ S, c < a → c ≤ l.prev a) ∨
    (l.prev a = a ∧ ∀ c ∈ S, a ≤ c)

theorem Linked.new {n : ℕ} (hn : 0 < n) :
    ∃ l, HC.LinkList.new n = .ok l ∧ l.head = 0 ∧ Linked l {v | v < n} := by
  unfold HC.LinkList.new
  by_cases h1 : 1 < n
  · rw [if_pos h1]
    refine ⟨_, rfl, rfl, ⟨?_, ?_⟩⟩
    · intro a ha
      simp only [Set.mem_ofPred_eq] at ha ⊢
      by_cases hl : a = n - 1
      · right; rw [if_pos hl]; exact ⟨hl.symm, fun c hc => by omega⟩
      · left; rw [if_neg hl]; exact ⟨by omega, by omega, fun c hc hac => by omega⟩
    · intro a ha
      simp only [Set.mem_ofPred_eq] at ha ⊢
      by_cases hl : a = 0
      · right; rw [if_pos hl]; exact ⟨hl.symm, fun c hc => by omega⟩
      · left; rw [if_neg hl]; exact ⟨by omega, by omega, fun c hc hac => by omega⟩
  · rw [if_neg h1, if_neg (by omega)]
    refine ⟨_, rfl, rfl, ⟨?_, ?_⟩⟩
    · intro a ha
      simp only [Set.mem_ofPred_eq] at ha ⊢
      right; exact ⟨by omega, fun c hc => by omega⟩
    · intro a ha
      simp only [Set.mem_ofPred_eq] at ha ⊢
      right; exact ⟨by omega, fun c hc => by omega⟩

theorem remove_head (l : HC.LinkList) (i : ℕ) : (l.remove i).head = l.head := by
  unfold HC.LinkList.remove
  dsimp only
  split_ifs <;> rfl

theorem Linked.remove {l : HC.LinkList} {S : Set ℕ} (hl : Linked l S) (hh : l.head ∈ S) {i : ℕ}
    (hi : i ∈ S) (hlt : l.head < i) : Linked (l.remove i) (S \ {i}) := by
  have hp : l.prev i ∈ S ∧ l.prev i < i ∧ ∀ c ∈ S, c < i → c ≤ l.prev i := by
    rcases hl.prev i hi with h | ⟨-, h⟩
    · exact h
    · have := h _ hh; omega
  obtain ⟨p1, p2, p3⟩ := hp
  have hnx := hl.next i hi
  unfold HC.LinkList.remove
  rw [if_pos (by omega)]
  dsimp only
  rw [if_pos (show l.prev i ≠ i by omega)]
  rw [if_pos (show l.prev i ≠ i by omega)]
  by_cases hn : l.next i = i
  · have hmax : ∀ c ∈ S, c ≤ i := by
      rcases hnx with h | h
      · omega
      · exact h.2
    rw [if_neg (by simpa using hn), if_neg (by simpa using hn)]
    refine ⟨?_, ?_⟩
    · rintro a ⟨ha, hai⟩
      simp only [Set.mem_singleton_iff] at hai
      simp only [Set.mem_sdiff, Set.mem_singleton_iff]
      by_cases hap : a = l.prev i
      · right
        rw [hap, Function.update_self]
        refine ⟨rfl, ?_⟩
        rintro c ⟨hc, hci⟩
        have := hmax c hc
        exact p3 c hc (by omega)
      · rw [Function.update_of_ne hap]
        have a1 := hmax a ha
        have a2 := p3 a ha (by omega)
        rcases hl.next a ha with ⟨b1, b2, b3⟩ | ⟨b1, b2⟩
        · left
          have := b3 _ p1 (by omega)
          exact ⟨⟨b1, by omega⟩, b2, fun c hc hac => b3 c hc.1 hac⟩
        · have := b2 _ p1; omega
    · rintro a ⟨ha, hai⟩
      simp only [Set.mem_singleton_iff] at hai
      simp only [Set.mem_sdiff, Set.mem_singleton_iff]
      rw [Function.update_of_ne hai]
      have a1 := hmax a ha
      rcases hl.prev a ha with ⟨b1, b2, b3⟩ | ⟨b1, b2⟩
      · left; exact ⟨⟨b1, by omega⟩, b2, fun c hc hac => b3 c hc.1 hac⟩
      · right; exact ⟨b1, fun c hc => b2 c hc.1⟩
  · have hnx' : l.next i ∈ S ∧ i < l.next i ∧ ∀ c ∈ S, i < c → l.next i ≤ c := by
      rcases hnx with h | h
      · exact h
      · exact absurd h.1 hn
    obtain ⟨n1, n2, n3⟩ := hnx'
    rw [if_pos hn, if_pos hn]
    refine ⟨?_, ?_⟩
    · rintro a ⟨ha, hai⟩
      simp only [Set.mem_singleton_iff] at hai
      simp only [Set.mem_sdiff, Set.mem_singleton_iff]
      rw [Function.update_of_ne hai]
      by_cases hap : a = l.prev i
      · left
        rw [hap, Function.update_self]
        refine ⟨⟨n1, by omega⟩, by omega, ?_⟩
        rintro c ⟨hc, hci⟩ hpc
        by_cases hci' : c < i
        · have := p3 c hc hci'; omega
        · exact n3 c hc (by omega)
      · rw [Function.update_of_ne hap]
        rcases hl.next a ha with ⟨b1, b2, b3⟩ | ⟨b1, b2⟩
        · left
          refine ⟨⟨b1, ?_⟩, b2, fun c hc hac => b3 c hc.1 hac⟩
          intro he
          have := p3 a ha (by omega)
          have := b3 _ p1 (by omega)
          omega
        · right; exact ⟨b1, fun c hc => b2 c hc.1⟩
    · rintro a ⟨ha, hai⟩
      simp only [Set.mem_singleton_iff] at hai
      simp only [Set.mem_sdiff, Set.mem_singleton_iff]
      by_cases hap : a = l.next i
      · left
        rw [hap, Function.update_self]
        refine ⟨⟨p1, by omega⟩, by omega, ?_⟩
        rintro c ⟨hc, hci⟩ hpc
        by_cases hci' : c < i
        · exact p3 c hc hci'
        · have := n3 c hc (by omega); omega
      · rw [Function.update_of_ne hap, Function.update_of_ne hai]
        rcases hl.prev a ha with ⟨b1, b2, b3⟩ | ⟨b1, b2⟩
        · left
          refine ⟨⟨b1, ?_⟩, b2, fun c hc hac => b3 c hc.1 hac⟩
          intro he
          have := n3 a ha (by omega)
          have := b3 _ n1 (by omega)
          omega
        · right; exact ⟨b1, fun c hc => b2 c hc.1⟩

/-- Removing a list of distinct nodes, the head possibly among them. -/
theorem Linked.removeAll : ∀ (D : List ℕ) {l : HC.LinkList} {S : Set ℕ}, Linked l S →
    l.head ∈ S → D.Nodup → (∀ x ∈ D, x ∈ S ∧ l.head ≤ x) →
    Linked (D.foldl HC.LinkList.remove l) {v | v ∈ S ∧ (v ∈ D → v = l.head)} ∧
      (D.foldl HC.LinkList.remove l).head = l.head := by
  intro D
  induction D with
  | nil => intro l S hl hh _ _; simpa using hl
  | cons d D ih =>
    intro l S hl hh hn hD
    obtain ⟨hdS, hdh⟩ := hD d (by simp)
    rw [List.nodup_cons] at hn
    rw [List.foldl_cons]
    by_cases hd : d = l.head
    · have hrem : l.remove d = l := by
        unfold HC.LinkList.remove; rw [if_neg (by simp [hd])]
      rw [hrem]
      obtain ⟨h1, h2⟩ := ih hl hh hn.2 (fun x hx => hD x (by simp [hx]))
      refine ⟨?_, h2⟩
      convert h1 using 1
      ext v
      simp only [Set.mem_ofPred_eq, List.mem_cons]
      constructor
      · rintro ⟨a, b⟩; exact ⟨a, fun h => b (.inr h)⟩
      · rintro ⟨a, b⟩
        refine ⟨a, ?_⟩
        rintro (rfl | h)
        exacts [hd, b h]
    · have h0 := hl.remove hh hdS (by omega)
      have hhead := remove_head l d
      obtain ⟨h1, h2⟩ := ih h0 (by rw [hhead]; exact ⟨hh, fun h => hd h.symm⟩) hn.2 (by
        intro x hx
        rw [hhead]
        refine ⟨⟨(hD x (by simp [hx])).1, ?_⟩, (hD x (by simp [hx])).2⟩
        rintro rfl
        exact hn.1 hx)
      rw [hhead] at h1 h2
      refine ⟨?_, h2⟩
      convert h1 using 1
      ext v
      simp only [Set.mem_ofPred_eq, List.mem_cons, Set.mem_sdiff, Set.mem_singleton_iff]
      constructor
      · rintro ⟨a, b⟩
        refine ⟨⟨a, ?_⟩, fun h => b (.inr h)⟩
        rintro rfl
        exact hd (b (.inl rfl))
      · rintro ⟨⟨a, c⟩, b⟩
        exact ⟨a, fun h => b (h.resolve_left c)⟩

/-- Invariant of the loop of `getPartition`. -/
structure PartInv (h : HC) (gam : WithBot ℚ) (l : HC.LinkList) (S : Set ℕ) (L : List (List ℕ)) :
    Prop where
  linked : Linked l S
  head : l.head ∈ S
  below : ∀ v, v < l.head → v ∈ L.flatten
  above : ∀ v, l.head ≤ v → (v ∈ S ↔ v < h.n ∧ v ∉ L.flatten)
  comp : ∀ B ∈ L, ∃ s, s < h.n ∧ IsComponent h gam s B
  nodup : L.flatten.Nodup

theorem IsComponent.head {h : HC} {gam : WithBot ℚ} {s : ℕ} {B : List ℕ}
    (hc : IsComponent h gam s B) : s ∈ B := (hc.mem s).2 (EqvGen.refl _)

theorem fj_lt {h : HC} (hf : Forest h) {gam : WithBot ℚ} {x y : ℕ} (hxy : FJ h gam x y) :
    x < h.n ↔ y < h.n := by
  induction hxy with
  | rel x y hr =>
    obtain ⟨rfl, hw⟩ := hr
    constructor
    · exact hf.lt x
    · intro _
      by_contra hx
      exact hf.ne_of_lt hw (hf.out x (by omega))
  | refl => exact Iff.rfl
  | symm _ _ _ ih => exact ih.symm
  | trans _ _ _ _ _ i1 i2 => exact i1.trans i2

/-- What `getPartition` has found at the end. -/
theorem clustering_of_components {h : HC} {gam : WithBot ℚ}
    {L : List (List ℕ)} (hcomp : ∀ B ∈ L, ∃ s, s < h.n ∧ IsComponent h gam s B)
    (hnd : L.flatten.Nodup) (hall : ∀ v, v ∈ L.flatten ↔ v < h.n) :
    IsClustering h.n (FJ h gam) L where
  nonempty B hB := by
    obtain ⟨s, -, hc⟩ := hcomp B hB
    exact List.ne_nil_of_mem hc.head
  once := hnd
  all := hall
  together u v hu _ := by
    constructor
    · rintro ⟨B, hB, h1, h2⟩
      obtain ⟨s, -, hc⟩ := hcomp B hB
      exact EqvGen.trans _ _ _ (EqvGen.symm _ _ ((hc.mem u).1 h1)) ((hc.mem v).1 h2)
    · intro huv
      obtain ⟨B, hB, hu'⟩ := List.mem_flatten.1 ((hall u).2 hu)
      obtain ⟨s, -, hc⟩ := hcomp B hB
      exact ⟨B, hB, hu', (hc.mem v).2 (EqvGen.trans _ _ _ ((hc.mem u).1 hu') huv)⟩

theorem partitionLoop_spec {h : HC} (hf : Forest h) {gam : WithBot ℚ} :
    ∀ (f : ℕ) (l : HC.LinkList) (S : Set ℕ) (L : List (List ℕ)), PartInv h gam l S L →
    h.n < f + l.head → ∃ L', h.partitionLoop gam f l L = .ok L' ∧
      IsClustering h.n (FJ h gam) L' := by
  intro f
  induction f with
  | zero =>
    intro l S L hv hl
    have := ((hv.above l.head le_rfl).1 hv.head).1
    omega
  | succ f ih =>
    intro l S L hv hl
    obtain ⟨hhn, hhL⟩ := (hv.above l.head le_rfl).1 hv.head
    obtain ⟨D, h1, h2⟩ := searchStart_spec hf hhn gam l
    rw [HC.partitionLoop, h1]
    simp only [Outcome.ok_bind, Outcome.pure_eq]
    -- the new component avoids the old ones
    have hdis : ∀ x ∈ D, x ∉ L.flatten := by
      intro x hx hxL
      obtain ⟨B, hB, hxB⟩ := List.mem_flatten.1 hxL
      obtain ⟨s, -, hc⟩ := hv.comp B hB
      apply hhL
      refine List.mem_flatten.2 ⟨B, hB, (hc.mem _).2 ?_⟩
      exact EqvGen.trans _ _ _ ((hc.mem x).1 hxB) (EqvGen.symm _ _ ((h2.mem x).1 hx))
    have hDlt : ∀ x ∈ D, x < h.n := fun x hx => (fj_lt hf ((h2.mem x).1 hx)).1 hhn
    have hDhead : ∀ x ∈ D, l.head ≤ x := by
      intro x hx
      by_contra hlt
      exact hdis x hx (hv.below x (by omega))
    obtain ⟨k1, k2⟩ := Linked.removeAll D hv.linked hv.head h2.nodup (fun x hx =>
      ⟨(hv.above x (hDhead x hx)).2 ⟨hDlt x hx, hdis x hx⟩, hDhead x hx⟩)
    set l' := D.foldl HC.LinkList.remove l with hl'
    set S' : Set ℕ := {v | v ∈ S ∧ (v ∈ D → v = l.head)} with hS'
    have hcomp' : ∀ B ∈ L ++ [D], ∃ s, s < h.n ∧ IsComponent h gam s B := by
      intro B hB
      rcases List.mem_append.1 hB with hB | hB
      · exact hv.comp B hB
      · rw [List.mem_singleton] at hB; subst hB; exact ⟨_, hhn, h2⟩
    have hflat : (L ++ [D]).flatten = L.flatten ++ D := by simp
    have hnd' : (L ++ [D]).flatten.Nodup := by
      rw [hflat, List.nodup_append]
      refine ⟨hv.nodup, h2.nodup, ?_⟩
      intro x hx y hy
      rintro rfl
      exact hdis _ hy hx
    have hheadS' : l.head ∈ S' := ⟨hv.head, fun _ => rfl⟩
    have hS'iff : ∀ v, l.head < v → (v ∈ S' ↔ v < h.n ∧ v ∉ (L ++ [D]).flatten) := by
      intro v hlv
      rw [hflat, List.mem_append, hS']
      simp only [Set.mem_ofPred_eq]
      rw [hv.above v hlv.le]
      constructor
      · rintro ⟨⟨a, b⟩, c⟩
        refine ⟨a, ?_⟩
        rintro (hh | hh)
        · exact b hh
        · have := c hh; omega
      · rintro ⟨a, b⟩
        push Not at b
        exact ⟨⟨a, b.1⟩, fun hh => absurd hh b.2⟩
    have hbelow' : ∀ v, v ≤ l.head → v ∈ (L ++ [D]).flatten := by
      intro v hlv
      rw [hflat, List.mem_append]
      rcases Nat.lt_or_ge v l.head with hh | hh
      · exact .inl (hv.below v hh)
      · right; rw [show v = l.head by omega]; exact h2.head
    unfold HC.LinkList.advance
    rw [k2]
    rcases k1.next l.head hheadS' with ⟨a1, a2, a3⟩ | ⟨a1, a2⟩
    · rw [if_neg (by omega)]
      dsimp only
      refine ih _ S' _ ?_ (by dsimp only; omega)
      refine { linked := ⟨k1.next, k1.prev⟩, head := a1, below := ?_, above := ?_, comp := hcomp',
               nodup := hnd' }
      · intro v hlv
        dsimp only at hlv
        rcases Nat.lt_or_ge l.head v with hh | hh
        · by_contra hc
          have hvn : v < h.n := by
            have := ((hS'iff _ a2).1 a1).1
            omega
          have := a3 v ((hS'iff v hh).2 ⟨hvn, hc⟩) hh
          omega
        · exact hbelow' v hh
      · intro v hlv
        dsimp only at hlv
        exact hS'iff v (by omega)
    · rw [if_pos a1]
      refine ⟨_, rfl, clustering_of_components hcomp' hnd' ?_⟩
      intro v
      constructor
      · intro hvm
        obtain ⟨B, hB, hvB⟩ := List.mem_flatten.1 hvm
        obtain ⟨s, hsn, hc⟩ := hcomp' B hB
        exact (fj_lt hf ((hc.mem v).1 hvB)).1 hsn
      · intro hvn
        rcases Nat.lt_or_ge l.head v with hh | hh
        · by_contra hc
          have := a2 v ((hS'iff v hh).2 ⟨hvn, hc⟩)
          omega
        · exact hbelow' v hh

theorem getPartition_spec {h : HC} (hf : Forest h) (hn : 0 < h.n) (gam : WithBot ℚ) :
    ∃ L, h.getPartition gam = .ok L ∧ IsClustering h.n (FJ h gam) L := by
  obtain ⟨l, h1, h2, h3⟩ := Linked.new hn
  unfold HC.getPartition
  rw [h1]
  simp only [Outcome.ok_bind]
  refine partitionLoop_spec hf _ l {v | v < h.n} [] ?_ (by omega)
  exact { linked := h3, head := by rw [h2]; exact hn, below := by rw [h2]; simp
          above := by simp, comp := by simp, nodup := by simp }

theorem _root_.PSP.Spec.IsClustering.congr {n : ℕ} {R R' : ℕ → ℕ → Prop} {L : List (List ℕ)}
    (hc : IsClustering n R L) (hR : ∀ u v, R u v ↔ R' u v) : IsClustering n R' L :=
  ⟨hc.nonempty, hc.once, hc.all, fun u v hu hv => (hc.together u v hu hv).trans (hR u v)⟩

end PSP.Theory
