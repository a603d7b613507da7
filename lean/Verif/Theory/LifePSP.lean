import Mathlib.Data.Finset.Card
import Verif.Model.LifePSP

/-!
# Lifetimes of `PSP` objects: proofs
-/

namespace PSP.Theory

open PSP.Model

/-- All objects have addresses given out before. -/
def HeapWF (h : Heap) : Prop := ∀ a ∈ h.live, a < h.next

theorem HM.new_eq (h : Heap) : HM.new h = (⟨h.next + 1, insert h.next h.live⟩, .ok h.next) := rfl

theorem HM.bind_ok {α β : Type} {m : HM α} {f : α → HM β} {h h' : Heap} {a : α} (hm : m h = (h', .ok a)) :
    (m >>= f) h = f a h' := by
  show HM.bind m f h = _
  unfold HM.bind
  rw [hm]

theorem HM.delete_ok {p : ℕ} {h : Heap} (hp : p ∈ h.live) :
    HM.delete p h = ({ h with live := h.live.erase p }, .ok ()) := if_pos hp

theorem HM.touch_ok {p : ℕ} {h : Heap} (hp : p ∈ h.live) : HM.touch p h = (h, .ok ()) := by
  unfold HM.touch; rw [if_pos hp]

/-- Two new objects. -/
def Heap.two (h : Heap) : Heap := ⟨h.next + 2, insert (h.next + 1) (insert h.next h.live)⟩

theorem newList_eq (np : ℤ) (h : Heap) :
    PSPMem.newList np h = (Heap.two h, .ok ⟨h.next, h.next + 1, np⟩) := by
  unfold PSPMem.newList
  rw [HM.bind_ok (HM.new_eq h), HM.bind_ok (HM.new_eq _), HM.bind_ok (HM.touch_ok (by simp)),
    HM.bind_ok (HM.touch_ok (by simp))]
  rfl

theorem delete_two {a b : ℕ} {h : Heap} (ha : a ∈ h.live) (hb : b ∈ h.live) (hab : a ≠ b) :
    (do HM.delete b; HM.delete a : HM Unit) h = (⟨h.next, (h.live.erase b).erase a⟩, .ok ()) := by
  rw [HM.bind_ok (HM.delete_ok hb), HM.delete_ok (by simp [ha, hab])]

/-- Who has to delete what. -/
structure LifeInv (base lost : Finset ℕ) (own : ℕ → Option (ℕ ⊕ ℕ)) (sc : PSPScope) (s : PSPVars) (h : Heap) :
    Prop where
  fresh : HeapWF h
  live : ∀ a, a ∈ h.live ↔ a ∈ base ∨ a ∈ lost ∨ own a ≠ none
  base_own : ∀ a ∈ base, own a = none
  lost_own : ∀ a ∈ lost, own a = none
  disj : ∀ a ∈ base, a ∉ lost
  free : ∀ v, sc.objs v = none → s.obj v = none
  mine : ∀ v, sc.objs v = some none → ∃ o, s.obj v = some o ∧
    ((0 < o.numPoints ∧ o.g ≠ o.edgeMap ∧ ∀ a, own a = some (.inl v) ↔ a = o.g ∨ a = o.edgeMap) ∨
      (o.numPoints ≤ 0 ∧ o.g ∈ lost ∧ o.edgeMap ∈ lost ∧ ∀ a, own a ≠ some (.inl v)))
  other : ∀ v k, sc.objs v = some (some k) → ∃ g m, s.obj v = some ⟨g, m, 0⟩ ∧ s.graph k = some (g, m) ∧
    sc.graphs k = true
  owner : ∀ a v, own a = some (.inl v) → sc.objs v = some none
  gnone : ∀ k, sc.graphs k = false → s.graph k = none ∧ ∀ a, own a ≠ some (.inr k)
  graph : ∀ k, sc.graphs k = true → ∃ g m, s.graph k = some (g, m) ∧ g ≠ m ∧
    ∀ a, own a = some (.inr k) ↔ a = g ∨ a = m

theorem LifeInv.next_own {base lost own sc s h} (I : LifeInv base lost own sc s h) {a : ℕ} (ha : h.next ≤ a) :
    own a = none ∧ a ∉ base ∧ a ∉ lost := by
  have : a ∉ h.live := fun hc => absurd (I.fresh a hc) (by omega)
  rw [I.live] at this
  push Not at this
  exact ⟨this.2.2, this.1, this.2.1⟩

theorem two_wf {h : Heap} (hw : HeapWF h) : HeapWF (Heap.two h) := by
  intro a ha
  simp only [Heap.two, Finset.mem_insert] at ha ⊢
  rcases ha with rfl | rfl | ha
  · omega
  · omega
  · have := hw a ha; omega

/-- A variable begins to use the graph of the caller. -/
theorem LifeInv.borrow {base lost own sc s h} (I : LifeInv base lost own sc s h) {v k g m : ℕ}
    (h1 : s.graph k = some (g, m)) (hk : sc.graphs k = true)
    (hv : sc.objs v = none ∨ ∃ k', sc.objs v = some (some k')) :
    LifeInv base lost own { sc with objs := Function.update sc.objs v (some (some k)) }
      { s with obj := Function.update s.obj v (some ⟨g, m, 0⟩) } h := by
  refine ⟨I.fresh, I.live, I.base_own, I.lost_own, I.disj, fun u hu => ?_, fun u hu => ?_, fun u k' hu => ?_,
    fun a u hu => ?_, I.gnone, I.graph⟩
  · have hne : u ≠ v := by rintro rfl; simp at hu
    simp only [Function.update_of_ne hne] at hu ⊢
    exact I.free u hu
  · have hne : u ≠ v := by rintro rfl; simp at hu
    simp only [Function.update_of_ne hne] at hu ⊢
    exact I.mine u hu
  · by_cases hne : u = v
    · subst hne
      simp only [Function.update_self, Option.some.injEq] at hu
      subst hu
      exact ⟨g, m, by simp, h1, hk⟩
    · simp only [Function.update_of_ne hne] at hu ⊢
      exact I.other u k' hu
  · have h5 := I.owner a u hu
    have hne : u ≠ v := by
      rintro rfl
      rcases hv with hv | ⟨_, hv⟩ <;> · rw [hv] at h5; simp at h5
    simp [hne, h5]

/-- One step. The number of objects lost for good grows by two for a construction for no nodes. -/
theorem step_inv {base lost : Finset ℕ} {own : ℕ → Option (ℕ ⊕ ℕ)} {sc sc' : PSPScope} {s : PSPVars}
    {h : Heap} {op : PSPOp} (I : LifeInv base lost own sc s h) (ha : op.Allowed sc sc') (hc : op.Careful sc) :
    ∃ h' s' lost' own', op.step s h = (h', .ok s') ∧ LifeInv base lost' own' sc' s' h' ∧
      lost'.card = lost.card + if op.isEmptyGraph then 2 else 0 := by
  cases ha with
  | @graph k _ hk =>
    refine ⟨Heap.two h, { s with graph := Function.update s.graph k (some (h.next, h.next + 1)) }, lost,
      fun a => if a = h.next ∨ a = h.next + 1 then some (.inr k) else own a, ?_, ?_, by simp [PSPOp.isEmptyGraph]⟩
    · rfl
    have n0 := I.next_own (le_refl h.next)
    have n1 := I.next_own (Nat.le_succ h.next)
    refine ⟨two_wf I.fresh, fun a => ?_, fun a hb => ?_, fun a hb => ?_, I.disj, I.free, fun v hv => ?_,
      fun v k' hv => ?_, fun a v hv => ?_, fun k' hk' => ?_, fun k' hk' => ?_⟩
    · simp only [Heap.two, Finset.mem_insert, I.live]
      by_cases h1 : a = h.next ∨ a = h.next + 1
      · rw [if_pos h1]; simp; tauto
      · rw [if_neg h1]; tauto
    · rw [if_neg, I.base_own a hb]
      rintro (rfl | rfl)
      · exact n0.2.1 hb
      · exact n1.2.1 hb
    · rw [if_neg, I.lost_own a hb]
      rintro (rfl | rfl)
      · exact n0.2.2 hb
      · exact n1.2.2 hb
    · obtain ⟨o, h1, h2⟩ := I.mine v hv
      refine ⟨o, h1, h2.imp (fun h3 => ⟨h3.1, h3.2.1, fun a => ?_⟩) fun h3 => ⟨h3.1, h3.2.1, h3.2.2.1, fun a => ?_⟩⟩
      · split_ifs with h4
        · refine iff_of_false (by simp) ?_
          rw [← h3.2.2 a]
          rcases h4 with rfl | rfl
          · rw [n0.1]; simp
          · rw [n1.1]; simp
        · exact h3.2.2 a
      · split_ifs with h4
        · simp
        · exact h3.2.2.2 a
    · obtain ⟨g, m, h1, h2, h3⟩ := I.other v k' hv
      have hne : k' ≠ k := by rintro rfl; rw [hk] at h3; simp at h3
      exact ⟨g, m, h1, by simp [hne, h2], by simp [hne, h3]⟩
    · split_ifs at hv with h4
      · simp at hv
      · exact I.owner a v hv
    · have hne : k' ≠ k := by rintro rfl; simp at hk'
      simp only [Function.update_of_ne hne] at hk' ⊢
      obtain ⟨h1, h2⟩ := I.gnone k' hk'
      refine ⟨h1, fun a => ?_⟩
      split_ifs with h4
      · simpa using hne.symm
      · exact h2 a
    · by_cases hne : k' = k
      · subst hne
        refine ⟨h.next, h.next + 1, by simp, by omega, fun a => ?_⟩
        split_ifs with h4
        · simpa using h4
        · exact iff_of_false ((I.gnone k' hk).2 a) h4
      · simp only [Function.update_of_ne hne] at hk' ⊢
        obtain ⟨g, m, h1, h2, h3⟩ := I.graph k' hk'
        refine ⟨g, m, h1, h2, fun a => ?_⟩
        split_ifs with h4
        · refine iff_of_false (by simpa using fun h => hne h.symm) ?_
          rw [← h3 a]
          rcases h4 with rfl | rfl
          · rw [n0.1]; simp
          · rw [n1.1]; simp
        · exact h3 a
  | @dropGraph k _ hk hno =>
    obtain ⟨g, m, h1, h2, h3⟩ := I.graph k hk
    have hg : g ∈ h.live := (I.live g).2 (Or.inr (Or.inr (by rw [(h3 g).2 (Or.inl rfl)]; simp)))
    have hm : m ∈ h.live := (I.live m).2 (Or.inr (Or.inr (by rw [(h3 m).2 (Or.inr rfl)]; simp)))
    refine ⟨⟨h.next, (h.live.erase m).erase g⟩, { s with graph := Function.update s.graph k none }, lost,
      fun a => if own a = some (.inr k) then none else own a, ?_, ?_, by simp [PSPOp.isEmptyGraph]⟩
    · simp only [PSPOp.step, h1]
      rw [HM.bind_ok (HM.delete_ok hm), HM.bind_ok (HM.delete_ok (by simp [hg, h2]))]
      rfl
    refine ⟨fun a ha => I.fresh a (Finset.mem_of_mem_erase (Finset.mem_of_mem_erase ha)), fun a => ?_,
      fun a hb => ?_, fun a hb => ?_, I.disj, I.free, fun v hv => ?_, fun v k' hv => ?_, fun a v hv => ?_,
      fun k' hk' => ?_, fun k' hk' => ?_⟩
    · simp only [Finset.mem_erase, I.live]
      by_cases h4 : own a = some (.inr k)
      · rw [if_pos h4]
        have h5 := (h3 a).1 h4
        have h6 : a ∉ base := fun hb => by rw [I.base_own a hb] at h4; simp at h4
        have h7 : a ∉ lost := fun hb => by rw [I.lost_own a hb] at h4; simp at h4
        simp only [h6, h7, false_or, ne_eq, not_true_eq_false, iff_false]
        tauto
      · rw [if_neg h4]
        have h5 : ¬ (a = g ∨ a = m) := fun hc => h4 ((h3 a).2 hc)
        push Not at h5
        tauto
    · rw [I.base_own a hb]; simp
    · rw [I.lost_own a hb]; simp
    · obtain ⟨o, h4, h5⟩ := I.mine v hv
      refine ⟨o, h4, h5.imp (fun h6 => ⟨h6.1, h6.2.1, fun a => ?_⟩) fun h6 => ⟨h6.1, h6.2.1, h6.2.2.1, fun a => ?_⟩⟩
      · split_ifs with h7
        · refine iff_of_false (by simp) ?_
          rw [← h6.2.2 a, h7]; simp
        · exact h6.2.2 a
      · split_ifs with h7
        · simp
        · exact h6.2.2.2 a
    · have hne : k' ≠ k := by rintro rfl; exact hno v hv
      obtain ⟨g', m', h4, h5, h6⟩ := I.other v k' hv
      exact ⟨g', m', h4, by simp [hne, h5], by simp [hne, h6]⟩
    · split_ifs at hv with h4
      exact I.owner a v hv
    · by_cases hne : k' = k
      · subst hne
        refine ⟨by simp, fun a => ?_⟩
        split_ifs with h4
        · simp
        · exact h4
      · simp only [Function.update_of_ne hne] at hk' ⊢
        obtain ⟨h4, h5⟩ := I.gnone k' hk'
        refine ⟨h4, fun a => ?_⟩
        split_ifs with h6
        · simp
        · exact h5 a
    · have hne : k' ≠ k := by rintro rfl; simp at hk'
      simp only [Function.update_of_ne hne] at hk' ⊢
      obtain ⟨g', m', h4, h5, h6⟩ := I.graph k' hk'
      refine ⟨g', m', h4, h5, fun a => ?_⟩
      split_ifs with h7
      · refine iff_of_false (by simp) ?_
        rw [← h6 a, h7]
        simpa using fun h => hne h.symm
      · exact h6 a
  | @newList v np _ hv =>
    have n0 := I.next_own (le_refl h.next)
    have n1 := I.next_own (Nat.le_succ h.next)
    have hrun : PSPOp.step (.newList v np) s h = (Heap.two h,
        .ok { s with obj := Function.update s.obj v (some ⟨h.next, h.next + 1, np⟩) }) := by
      simp only [PSPOp.step]
      rw [HM.bind_ok (newList_eq np h)]
      rfl
    have hlast : ∀ k', sc.graphs k' = true → ∃ g m, s.graph k' = some (g, m) ∧ g ≠ m ∧
        (∀ a, own a = some (.inr k') ↔ a = g ∨ a = m) := I.graph
    by_cases hnp : 0 < np
    · refine ⟨_, _, lost, fun a => if a = h.next ∨ a = h.next + 1 then some (.inl v) else own a, hrun, ?_, ?_⟩
      swap
      · rw [PSPOp.isEmptyGraph, decide_eq_false (by omega)]; simp
      refine ⟨two_wf I.fresh, fun a => ?_, fun a hb => ?_, fun a hb => ?_, I.disj, fun u hu => ?_,
        fun u hu => ?_, fun u k' hu => ?_, fun a u hu => ?_, fun k' hk' => ?_, fun k' hk' => ?_⟩
      · simp only [Heap.two, Finset.mem_insert, I.live]
        by_cases h1 : a = h.next ∨ a = h.next + 1
        · rw [if_pos h1]; simp; tauto
        · rw [if_neg h1]; tauto
      · rw [if_neg, I.base_own a hb]
        rintro (rfl | rfl)
        · exact n0.2.1 hb
        · exact n1.2.1 hb
      · rw [if_neg, I.lost_own a hb]
        rintro (rfl | rfl)
        · exact n0.2.2 hb
        · exact n1.2.2 hb
      · have hne : u ≠ v := by rintro rfl; simp at hu
        simp only [Function.update_of_ne hne] at hu ⊢
        exact I.free u hu
      · by_cases hne : u = v
        · subst hne
          refine ⟨⟨h.next, h.next + 1, np⟩, by simp, Or.inl ⟨hnp, by simp, fun a => ?_⟩⟩
          split_ifs with h4
          · simpa using h4
          · refine iff_of_false (fun hc => ?_) h4
            have := I.owner a u hc
            rw [hv] at this; simp at this
        · simp only [Function.update_of_ne hne] at hu ⊢
          obtain ⟨o, h1, h2⟩ := I.mine u hu
          refine ⟨o, h1, h2.imp (fun h3 => ⟨h3.1, h3.2.1, fun a => ?_⟩)
            fun h3 => ⟨h3.1, h3.2.1, h3.2.2.1, fun a => ?_⟩⟩
          · split_ifs with h4
            · refine iff_of_false (by simpa using fun h => hne h.symm) ?_
              rw [← h3.2.2 a]
              rcases h4 with rfl | rfl
              · rw [n0.1]; simp
              · rw [n1.1]; simp
            · exact h3.2.2 a
          · split_ifs with h4
            · simpa using fun h => hne h.symm
            · exact h3.2.2.2 a
      · have hne : u ≠ v := by rintro rfl; simp at hu
        simp only [Function.update_of_ne hne] at hu ⊢
        exact I.other u k' hu
      · split_ifs at hu with h4
        · simp only [Option.some.injEq, Sum.inl.injEq] at hu
          simp [hu]
        · have h5 := I.owner a u hu
          have hne : u ≠ v := by rintro rfl; rw [hv] at h5; simp at h5
          simp [hne, h5]
      · obtain ⟨h4, h5⟩ := I.gnone k' hk'
        refine ⟨h4, fun a => ?_⟩
        split_ifs with h6
        · simp
        · exact h5 a
      · obtain ⟨g, m, h4, h5, h6⟩ := I.graph k' hk'
        refine ⟨g, m, h4, h5, fun a => ?_⟩
        split_ifs with h7
        · refine iff_of_false (by simp) ?_
          rw [← h6 a]
          rcases h7 with rfl | rfl
          · rw [n0.1]; simp
          · rw [n1.1]; simp
        · exact h6 a
    · refine ⟨_, _, insert (h.next + 1) (insert h.next lost), own, hrun, ?_, ?_⟩
      swap
      · rw [PSPOp.isEmptyGraph, decide_eq_true (by omega),
          Finset.card_insert_of_notMem (by simp [n1.2.2]), Finset.card_insert_of_notMem n0.2.2]
        simp
      refine ⟨two_wf I.fresh, fun a => ?_, I.base_own, fun a hb => ?_, fun a hb => ?_, fun u hu => ?_,
        fun u hu => ?_, fun u k' hu => ?_, fun a u hu => ?_, I.gnone, I.graph⟩
      · simp only [Heap.two, Finset.mem_insert, I.live]
        tauto
      · simp only [Finset.mem_insert] at hb
        rcases hb with rfl | rfl | hb
        · exact n1.1
        · exact n0.1
        · exact I.lost_own a hb
      · simp only [Finset.mem_insert, not_or]
        refine ⟨?_, ?_, I.disj a hb⟩
        · rintro rfl; exact n1.2.1 hb
        · rintro rfl; exact n0.2.1 hb
      · have hne : u ≠ v := by rintro rfl; simp at hu
        simp only [Function.update_of_ne hne] at hu ⊢
        exact I.free u hu
      · by_cases hne : u = v
        · subst hne
          refine ⟨⟨h.next, h.next + 1, np⟩, by simp, Or.inr ⟨by simp; omega, by simp, by simp, fun a hc => ?_⟩⟩
          have := I.owner a u hc
          rw [hv] at this; simp at this
        · simp only [Function.update_of_ne hne] at hu ⊢
          obtain ⟨o, h1, h2⟩ := I.mine u hu
          exact ⟨o, h1, h2.imp id fun h3 => ⟨h3.1, by simp [h3.2.1], by simp [h3.2.2.1], h3.2.2.2⟩⟩
      · have hne : u ≠ v := by rintro rfl; simp at hu
        simp only [Function.update_of_ne hne] at hu ⊢
        exact I.other u k' hu
      · have h5 := I.owner a u hu
        have hne : u ≠ v := by rintro rfl; rw [hv] at h5; simp at h5
        simp [hne, h5]
  | @newGraph v k _ hv hk =>
    obtain ⟨g, m, h1, h2, h3⟩ := I.graph k hk
    refine ⟨h, { s with obj := Function.update s.obj v (some (PSPMem.newGraph g m)) }, lost, own, ?_, ?_,
      by simp [PSPOp.isEmptyGraph]⟩
    · simp only [PSPOp.step, h1]; rfl
    exact I.borrow h1 hk (Or.inl hv)
  | @copy v u _ hv hu =>
    cases hsc : sc.objs u with
    | none => exact absurd hsc hu
    | some x =>
      cases x with
      | none => exact absurd hsc hc
      | some k =>
        obtain ⟨g, m, h1, h2, h3⟩ := I.other u k hsc
        refine ⟨h, { s with obj := Function.update s.obj v (some ⟨g, m, 0⟩) }, lost, own, ?_, ?_,
          by simp [PSPOp.isEmptyGraph]⟩
        · simp only [PSPOp.step, h1]; rfl
        exact I.borrow h2 h3 (Or.inl hv)
  | @assign v u _ hv hu =>
    cases hsc : sc.objs u with
    | none => exact absurd hsc hu
    | some x =>
      cases x with
      | none => exact absurd hsc hc.2
      | some k =>
        obtain ⟨g, m, h1, h2, h3⟩ := I.other u k hsc
        cases hsv : sc.objs v with
        | none => exact absurd hsv hv
        | some y =>
          cases y with
          | none => exact absurd hsv hc.1
          | some k' =>
            obtain ⟨g', m', h4, h5, h6⟩ := I.other v k' hsv
            refine ⟨h, { s with obj := Function.update s.obj v (some ⟨g, m, 0⟩) }, lost, own, ?_, ?_,
              by simp [PSPOp.isEmptyGraph]⟩
            · simp only [PSPOp.step, h1, h4]; rfl
            exact I.borrow h2 h3 (Or.inr ⟨k', hsv⟩)
  | @run v known _ hv =>
    refine ⟨h, s, lost, own, ?_, I, by simp [PSPOp.isEmptyGraph]⟩
    have key : ∃ o, s.obj v = some o ∧ o.g ∈ h.live ∧ o.edgeMap ∈ h.live := by
      cases hsc : sc.objs v with
      | none => exact absurd hsc hv
      | some x =>
        cases x with
        | none =>
          obtain ⟨o, h1, h2⟩ := I.mine v hsc
          refine ⟨o, h1, ?_⟩
          rcases h2 with h2 | h2
          · exact ⟨(I.live _).2 (Or.inr (Or.inr (by rw [(h2.2.2 _).2 (Or.inl rfl)]; simp))),
              (I.live _).2 (Or.inr (Or.inr (by rw [(h2.2.2 _).2 (Or.inr rfl)]; simp)))⟩
          · exact ⟨(I.live _).2 (Or.inr (Or.inl h2.2.1)), (I.live _).2 (Or.inr (Or.inl h2.2.2.1))⟩
        | some k =>
          obtain ⟨g, m, h1, h2, h3⟩ := I.other v k hsc
          obtain ⟨g', m', h4, h5, h6⟩ := I.graph k h3
          rw [h2] at h4
          cases h4
          exact ⟨_, h1, (I.live _).2 (Or.inr (Or.inr (by rw [(h6 _).2 (Or.inl rfl)]; simp))),
              (I.live _).2 (Or.inr (Or.inr (by rw [(h6 _).2 (Or.inr rfl)]; simp)))⟩
    obtain ⟨o, h1, h2, h3⟩ := key
    simp only [PSPOp.step, h1]
    cases known with
    | true =>
      have : o.run true h = (h, .ok ()) := by
        show (do HM.touch o.g; HM.touch o.edgeMap : HM Unit) h = _
        rw [HM.bind_ok (HM.touch_ok h2), HM.touch_ok h3]
      rw [this]
    | false => rfl
  | @destroy v _ hv =>
    cases hsc : sc.objs v with
    | none => exact absurd hsc hv
    | some x =>
      cases x with
      | none =>
        obtain ⟨o, h1, h2⟩ := I.mine v hsc
        rcases h2 with h2 | h2
        · have hg : o.g ∈ h.live := (I.live _).2 (Or.inr (Or.inr (by rw [(h2.2.2 _).2 (Or.inl rfl)]; simp)))
          have hm : o.edgeMap ∈ h.live :=
            (I.live _).2 (Or.inr (Or.inr (by rw [(h2.2.2 _).2 (Or.inr rfl)]; simp)))
          refine ⟨⟨h.next, (h.live.erase o.edgeMap).erase o.g⟩, { s with obj := Function.update s.obj v none }, lost,
            fun a => if own a = some (.inl v) then none else own a, ?_, ?_, by simp [PSPOp.isEmptyGraph]⟩
          · simp only [PSPOp.step, h1]
            have : o.destroy h = (⟨h.next, (h.live.erase o.edgeMap).erase o.g⟩, .ok ()) := by
              unfold PSPMem.destroy
              rw [if_pos h2.1]
              exact delete_two hg hm h2.2.1
            rw [HM.bind_ok this]
            rfl
          refine ⟨fun a ha => I.fresh a (Finset.mem_of_mem_erase (Finset.mem_of_mem_erase ha)), fun a => ?_,
            fun a hb => ?_, fun a hb => ?_, I.disj, fun u hu => ?_, fun u hu => ?_, fun u k' hu => ?_,
            fun a u hu => ?_, fun k' hk' => ?_, fun k' hk' => ?_⟩
          · simp only [Finset.mem_erase, I.live]
            by_cases h4 : own a = some (.inl v)
            · rw [if_pos h4]
              have h5 := (h2.2.2 a).1 h4
              have h6 : a ∉ base := fun hb => by rw [I.base_own a hb] at h4; simp at h4
              have h7 : a ∉ lost := fun hb => by rw [I.lost_own a hb] at h4; simp at h4
              simp only [h6, h7, false_or, ne_eq, not_true_eq_false, iff_false]
              tauto
            · rw [if_neg h4]
              have h5 : ¬ (a = o.g ∨ a = o.edgeMap) := fun hc => h4 ((h2.2.2 a).2 hc)
              push Not at h5
              tauto
          · rw [I.base_own a hb]; simp
          · rw [I.lost_own a hb]; simp
          · by_cases hne : u = v
            · subst hne; simp
            · simp only [Function.update_of_ne hne] at hu ⊢
              exact I.free u hu
          · have hne : u ≠ v := by rintro rfl; simp at hu
            simp only [Function.update_of_ne hne] at hu ⊢
            obtain ⟨o', h4, h5⟩ := I.mine u hu
            refine ⟨o', h4, h5.imp (fun h6 => ⟨h6.1, h6.2.1, fun a => ?_⟩)
              fun h6 => ⟨h6.1, h6.2.1, h6.2.2.1, fun a => ?_⟩⟩
            · split_ifs with h7
              · refine iff_of_false (by simp) ?_
                rw [← h6.2.2 a, h7]
                simpa using fun h => hne h.symm
              · exact h6.2.2 a
            · split_ifs with h7
              · simp
              · exact h6.2.2.2 a
          · have hne : u ≠ v := by rintro rfl; simp at hu
            simp only [Function.update_of_ne hne] at hu ⊢
            exact I.other u k' hu
          · split_ifs at hu with h4
            have hne : u ≠ v := by rintro rfl; exact h4 hu
            simp only [Function.update_of_ne hne]
            exact I.owner a u hu
          · obtain ⟨h4, h5⟩ := I.gnone k' hk'
            refine ⟨h4, fun a => ?_⟩
            split_ifs with h6
            · simp
            · exact h5 a
          · obtain ⟨g', m', h4, h5, h6⟩ := I.graph k' hk'
            refine ⟨g', m', h4, h5, fun a => ?_⟩
            split_ifs with h7
            · refine iff_of_false (by simp) ?_
              rw [← h6 a, h7]; simp
            · exact h6 a
        · refine ⟨h, { s with obj := Function.update s.obj v none }, lost, own, ?_, ?_, by simp [PSPOp.isEmptyGraph]⟩
          · simp only [PSPOp.step, h1]
            have : o.destroy h = (h, .ok ()) := by
              unfold PSPMem.destroy
              rw [if_neg (by omega)]
              rfl
            rw [HM.bind_ok this]
            rfl
          refine ⟨I.fresh, I.live, I.base_own, I.lost_own, I.disj, fun u hu => ?_, fun u hu => ?_,
            fun u k' hu => ?_, fun a u hu => ?_, I.gnone, I.graph⟩
          · by_cases hne : u = v
            · subst hne; simp
            · simp only [Function.update_of_ne hne] at hu ⊢
              exact I.free u hu
          · have hne : u ≠ v := by rintro rfl; simp at hu
            simp only [Function.update_of_ne hne] at hu ⊢
            exact I.mine u hu
          · have hne : u ≠ v := by rintro rfl; simp at hu
            simp only [Function.update_of_ne hne] at hu ⊢
            exact I.other u k' hu
          · have hne : u ≠ v := by rintro rfl; exact h2.2.2.2 a hu
            simp only [Function.update_of_ne hne]
            exact I.owner a u hu
      | some k =>
        obtain ⟨g, m, h1, h2, h3⟩ := I.other v k hsc
        refine ⟨h, { s with obj := Function.update s.obj v none }, lost, own, ?_, ?_, by simp [PSPOp.isEmptyGraph]⟩
        · simp only [PSPOp.step, h1]; rfl
        refine ⟨I.fresh, I.live, I.base_own, I.lost_own, I.disj, fun u hu => ?_, fun u hu => ?_,
          fun u k' hu => ?_, fun a u hu => ?_, I.gnone, I.graph⟩
        · by_cases hne : u = v
          · subst hne; simp
          · simp only [Function.update_of_ne hne] at hu ⊢
            exact I.free u hu
        · have hne : u ≠ v := by rintro rfl; simp at hu
          simp only [Function.update_of_ne hne] at hu ⊢
          exact I.mine u hu
        · have hne : u ≠ v := by rintro rfl; simp at hu
          simp only [Function.update_of_ne hne] at hu ⊢
          exact I.other u k' hu
        · have h5 := I.owner a u hu
          have hne : u ≠ v := by rintro rfl; rw [hsc] at h5; simp at h5
          simp only [Function.update_of_ne hne]
          exact h5

/-- Any number of steps. -/
theorem steps_inv {base : Finset ℕ} : ∀ (ops : List PSPOp) {lost : Finset ℕ} {own : ℕ → Option (ℕ ⊕ ℕ)}
    {sc sc' : PSPScope} {s : PSPVars} {h : Heap}, LifeInv base lost own sc s h → PSPOp.AllAllowed PSPOp.Careful ops sc sc' →
    ∃ h' s' lost' own', PSPOp.steps ops s h = (h', .ok s') ∧ LifeInv base lost' own' sc' s' h' ∧
      lost'.card = lost.card + 2 * ops.countP PSPOp.isEmptyGraph := by
  intro ops
  induction ops with
  | nil =>
    intro lost own sc sc' s h I ha
    cases ha
    exact ⟨h, s, lost, own, rfl, I, by simp⟩
  | cons op ops ih =>
    intro lost own sc sc' s h I ha
    cases ha with
    | cons h1 hc h2 =>
      obtain ⟨ha, sa, la, oa, e1, I1, c1⟩ := step_inv I h1 hc
      obtain ⟨hb, sb, lb, ob, e2, I2, c2⟩ := ih I1 h2
      refine ⟨hb, sb, lb, ob, ?_, I2, ?_⟩
      · unfold PSPOp.steps
        rw [HM.bind_ok e1]
        exact e2
      · rw [c2, c1, List.countP_cons]
        split_ifs <;> omega

theorem LifeInv.start {h : Heap} (hw : HeapWF h) : LifeInv h.live ∅ (fun _ => none) .empty .empty h := by
  refine ⟨hw, by simp, by simp, by simp, by simp, fun v _ => rfl, fun v hv => ?_, fun v k hv => ?_,
    fun a v hv => by simp at hv, fun k _ => ⟨rfl, by simp⟩, fun k hk => ?_⟩
  · simp [PSPScope.empty] at hv
  · simp [PSPScope.empty] at hv
  · simp [PSPScope.empty] at hk

/-- What remains when all variables are gone. -/
theorem LifeInv.finish {base lost own s h} (I : LifeInv base lost own .empty s h) :
    (∀ a, a ∈ h.live ↔ a ∈ base ∨ a ∈ lost) ∧ h.live.card = base.card + lost.card := by
  have key : ∀ a, a ∈ h.live ↔ a ∈ base ∨ a ∈ lost := by
    intro a
    rw [I.live]
    have : own a = none := by
      cases ho : own a with
      | none => rfl
      | some x =>
        cases x with
        | inl v => exact absurd (I.owner a v ho) (by simp [PSPScope.empty])
        | inr k => exact absurd ho ((I.gnone k rfl).2 a)
    simp [this]
  refine ⟨key, ?_⟩
  have : h.live = base ∪ lost := by ext a; rw [key, Finset.mem_union]
  rw [this, Finset.card_union_of_disjoint]
  rw [Finset.disjoint_left]
  exact I.disj

end PSP.Theory
