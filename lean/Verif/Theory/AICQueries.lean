import Verif.Spec.Queries
import Verif.Model.AICQueries
import Verif.Theory.AggShape
import Verif.Theory.HCSim

/-!
# The queries of the `AIC` object after agglomeration
-/

namespace PSP.Theory

open PSP.Model PSP.Spec
open Relation (EqvGen)

/-- The loop with any `agglomerate`. -/
def objectWith (step : HC → Outcome (HC × Bool)) : ℕ → HC → Outcome HC
  | 0, _ => .fuel
  | k + 1, h => do
    let (h', more) ← step h
    if more then objectWith step k h' else return h'

theorem aicObject_with (mnb : SF → Outcome (List ℚ)) (f : SF) (tol : ℚ) : ∀ (k : ℕ) (h : HC),
    aicObject mnb f tol k h = objectWith (agglomerateWith mnb (sfContract f) fun g => -g + tol) k h := by
  intro k
  induction k with
  | zero => intro h; rfl
  | succ k ih =>
    intro h
    unfold aicObject objectWith
    rw [agglomerate_with]
    simp only [ih]

theorem aicObjectF_with (fl : ℚ → ℚ) (mnb : SF → Outcome (List ℚ)) (f : SF) (tol : ℚ) : ∀ (k : ℕ) (h : HC),
    aicObjectF fl mnb f tol k h = objectWith (agglomerateWith mnb (sfContractF fl f) fun g => fl (-g + tol)) k h := by
  intro k
  induction k with
  | zero => intro h; rfl
  | succ k ih =>
    intro h
    unfold aicObjectF objectWith
    have e : agglomerateF fl mnb f tol h = agglomerateWith mnb (sfContractF fl f) (fun g => fl (-g + tol)) h := rfl
    rw [e]
    simp only [ih]

/-- The state of the run, with the clusters at every threshold. -/
structure QueryState (n : ℕ) (hc : HC) (A : List Link) (Ps : List Partition) (cv : List ℚ) : Prop where
  inv : HCInv hc A
  size : hc.n = n
  links : ∀ x, (∃ a ∈ A, a.val = x) ↔ x ∈ cv
  at_ : ∀ gam : WithBot ℚ, ∃ P, PartitionAt Ps cv gam P ∧ IsPartition (Finset.range n) P ∧
    ∀ v w, v < n → w < n → (Same P v w ↔ Joined A gam v w)

theorem loopWith_queries {n : ℕ} (hn : 0 < n) {step : HC → Outcome (HC × Bool)} (hs : MergesOnly n step) :
    ∀ (k : ℕ) (hc : HC) (A : List Link) (ps : List Partition) (cv : List ℚ), QueryState n hc A ps cv →
      ∀ ps' cv', loopWith step k hc ps cv = .ok (ps', cv') →
      ∃ h A', objectWith step k hc = .ok h ∧ QueryState n h A' ps' cv' := by
  intro k
  induction k with
  | zero => intro hc A ps cv _ ps' cv' h; cases h
  | succ k ih =>
    intro hc A ps cv st ps' cv' h
    unfold loopWith at h
    unfold objectWith
    cases hst : step hc with
    | ok r =>
      obtain ⟨hc', b⟩ := r
      simp only [hst, Outcome.ok_bind] at h ⊢
      cases b with
      | false =>
        simp only [Bool.false_eq_true, if_false, Outcome.pure_eq] at h ⊢
        cases h
        obtain ⟨rfl, -⟩ := hs.done hc hc' hst
        exact ⟨hc', A, rfl, st⟩
      | true =>
        simp only [if_true] at h ⊢
        obtain ⟨cs, g0, hr, hval, hm⟩ := hs.more hc hc' A st.inv st.size hst
        rcases mergeAll_cases cs st.inv st.size hr hm with rfl | ⟨A', k1, k2, k3, k4, c, k5, k6, -, k7⟩
        · -- no progress
          exfalso
          cases hP : hc'.getCoarsestPartition with
          | ok L =>
            simp only [hP, Outcome.ok_bind] at h
            cases hg : hc'.getCriticalValues.getLast? with
            | none => rw [hg] at h; cases h
            | some g =>
              have hfe : ∀ (k : ℕ) (ps : List Partition) (cv : List ℚ), loopWith step k hc' ps cv = .fuel := by
                intro k
                induction k with
                | zero => intro ps cv; rfl
                | succ k ih =>
                  intro ps cv
                  simp only [loopWith, hst, Outcome.ok_bind, if_true, hP, hg]
                  exact ih _ _
              rw [hg] at h
              simp only [hfe] at h
              cases h
          | _ => rw [hP] at h; cases h
        · obtain ⟨L, hL1, hL2⟩ := getPartition_spec k1.forest (by rw [k2]; exact hn) ⊥
          rw [k2] at hL2
          have hL3 := hL2.congr (k1.fj ⊥)
          have hL1' : hc'.getCoarsestPartition = .ok L := hL1
          simp only [hL1', Outcome.ok_bind] at h
          have hcg : c.val = g0 := hval c k6
          have hlow : ∀ a ∈ A', g0 ≤ a.val := by
            intro a ha
            rcases k4 a ha with ha | ha
            · rw [← hcg]; exact k7 a ha
            · rw [hval a ha]
          cases hg : hc'.getCriticalValues.getLast? with
          | none => rw [hg] at h; cases h
          | some g =>
            rw [hg] at h
            have hgg : g = g0 := by
              apply le_antisymm
              · rw [← hcg]; exact k1.last g hg c k5
              · obtain ⟨a, ha, rfl⟩ := (k1.mem g).1 (List.mem_of_getLast? hg)
                exact hlow a ha
            subst hgg
            refine ih hc' A' _ _ ⟨k1, k2, fun x => ?_, fun gam => ?_⟩ ps' cv' h
            · rw [List.mem_cons, ← st.links]
              constructor
              · rintro ⟨a, ha, rfl⟩
                rcases k4 a ha with ha | ha
                · exact .inr ⟨a, ha, rfl⟩
                · exact .inl (hval a ha)
              · rintro (rfl | ⟨a, ha, rfl⟩)
                · exact ⟨c, k5, hcg⟩
                · exact ⟨a, k3 a ha, rfl⟩
            · by_cases hgam : (g : WithBot ℚ) ≤ gam
              · obtain ⟨P, ⟨i, h1, h2⟩, h3, h4⟩ := st.at_ gam
                refine ⟨P, ⟨i + 1, by simpa using h1, fun j d hj => ?_⟩, h3, fun v w hv hw => ?_⟩
                · cases j with
                  | zero =>
                    simp only [List.getElem?_cons_zero, Option.some.injEq] at hj
                    subst hj
                    exact ⟨fun _ => hgam, fun _ => by omega⟩
                  | succ j =>
                    rw [List.getElem?_cons_succ] at hj
                    rw [← h2 j d hj]
                    omega
                · rw [h4 v w hv hw]
                  constructor
                  · exact eqvGen_imp (fun x z ⟨a, h1, h2⟩ => EqvGen.rel _ _ ⟨a, k3 a h1, h2⟩) v w
                  · refine eqvGen_imp (fun x z ⟨a, h1, h2, h3, h5⟩ => EqvGen.rel _ _ ⟨a, ?_, h2, h3, h5⟩) v w
                    rcases k4 a h1 with ha | ha
                    · exact ha
                    · rw [hval a ha] at h5
                      exact absurd hgam (not_le.2 h5)
              · rw [not_le] at hgam
                have hall : ∀ a ∈ A', gam < (a.val : WithBot ℚ) := fun a ha =>
                  lt_of_lt_of_le hgam (WithBot.coe_le_coe.2 (hlow a ha))
                refine ⟨toPartition L, ⟨0, rfl, fun j d hj => ?_⟩, clustering_partition hL3, fun v w hv hw => ?_⟩
                · have hd : g ≤ d := by
                    rcases List.mem_cons.1 (List.mem_of_getElem? hj) with rfl | hd
                    · exact le_rfl
                    · obtain ⟨a, ha, rfl⟩ := (st.links d).2 hd
                      exact hlow a (k3 a ha)
                  exact iff_of_false (by omega) (not_le.2 (lt_of_lt_of_le hgam (WithBot.coe_le_coe.2 hd)))
                · rw [clustering_same hL3 hv hw]
                  constructor
                  · exact eqvGen_imp (fun x z ⟨a, h1, h2, h3, _⟩ => EqvGen.rel _ _ ⟨a, h1, h2, h3, hall a h1⟩) v w
                  · exact eqvGen_imp (fun x z ⟨a, h1, h2, h3, _⟩ =>
                      EqvGen.rel _ _ ⟨a, h1, h2, h3, WithBot.bot_lt_coe _⟩) v w
    | _ => rw [hst] at h; cases h

theorem runWith_queries {n : ℕ} (hn : 0 < n) {step : HC → Outcome (HC × Bool)} (hs : MergesOnly n step) (k : ℕ)
    {ps : List Partition} {cv : List ℚ}
    (h : loopWith step k (HC.new n) [singletons (Finset.range n)] [] = .ok (ps, cv)) :
    ∃ h A, objectWith step k (HC.new n) = .ok h ∧ QueryState n h A ps cv := by
  obtain ⟨L, hL1, hL3, hfine⟩ := new_coarsest hn
  refine loopWith_queries hn hs k _ [] _ _ ⟨HCInv.new n, rfl, by simp, fun gam => ⟨_, ⟨0, rfl, by simp⟩,
    isPartition_singletons _, fun v w hv hw => ?_⟩⟩ ps cv h
  rw [← hfine, clustering_same hL3 hv hw]
  constructor <;> exact eqvGen_imp (fun x z ⟨a, h1, _⟩ => absurd h1 (by simp)) v w

section answers

variable {n : ℕ} {hc : HC} {A : List Link} {Ps : List Partition} {cv : List ℚ}

theorem PartitionAt.unique {gam : WithBot ℚ} {P Q : Partition} (hl : Ps.length = cv.length + 1) (hP : PartitionAt Ps cv gam P)
    (hQ : PartitionAt Ps cv gam Q) : P = Q := by
  obtain ⟨i, h1, h2⟩ := hP
  obtain ⟨j, k1, k2⟩ := hQ
  obtain ⟨hi, -⟩ := List.getElem?_eq_some_iff.1 h1
  obtain ⟨hj, -⟩ := List.getElem?_eq_some_iff.1 k1
  have e : i = j := by
    rcases lt_trichotomy i j with hlt | he | hlt
    · have := (h2 i cv[i] (List.getElem?_eq_getElem (by omega))).trans
        (k2 i cv[i] (List.getElem?_eq_getElem (by omega))).symm
      omega
    · exact he
    · have := (h2 j cv[j] (List.getElem?_eq_getElem (by omega))).trans
        (k2 j cv[j] (List.getElem?_eq_getElem (by omega))).symm
      omega
  subst e
  rw [h1] at k1
  exact Option.some.inj k1

theorem QueryState.getPartition (st : QueryState n hc A Ps cv) (hn : 0 < n) (gam : WithBot ℚ) :
    ∃ L, hc.getPartition gam = .ok L ∧ IsClustering n (FJ hc gam) L ∧ PartitionAt Ps cv gam (toPartition L) := by
  obtain ⟨L, h1, h2⟩ := getPartition_spec st.inv.forest (by rw [st.size]; exact hn) gam
  rw [st.size] at h2
  have h3 := h2.congr (st.inv.fj gam)
  obtain ⟨P, k1, k2, k3⟩ := st.at_ gam
  refine ⟨L, h1, h2, ?_⟩
  have : toPartition L = P := eq_of_same (clustering_partition h3) k2 fun v w => by
    by_cases hv : v < n
    · by_cases hw : w < n
      · rw [clustering_same h3 hv hw, k3 v w hv hw]
      · exact iff_of_false (fun hh => hw (Finset.mem_range.1 (hh.mem_right (clustering_partition h3))))
          fun hh => hw (Finset.mem_range.1 (hh.mem_right k2))
    · exact iff_of_false (fun hh => hv (Finset.mem_range.1 (hh.mem_left (clustering_partition h3))))
        fun hh => hv (Finset.mem_range.1 (hh.mem_left k2))
  rw [this]
  exact k1

end answers

end PSP.Theory
