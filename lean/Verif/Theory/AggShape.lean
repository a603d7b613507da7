import Verif.Spec.Hierarchy
import Verif.Theory.AggApprox
import Verif.Theory.AggEnds

/-!
# The shape of the result of `AIC`, whatever `min_norm_base` returns
-/

namespace PSP.Theory

open PSP.Model PSP.Spec
open Relation (EqvGen)

/-- A refused request changes nothing. -/
theorem merge_false {h h' : HC} {i j : ℕ} {g : ℚ} (hm : h.merge i j g = .ok (h', false)) : h' = h := by
  unfold HC.merge at hm
  cases ha : h.find i with
  | ok a =>
    cases hb : h.find j with
    | ok b =>
      simp only [ha, hb, Outcome.ok_bind, Outcome.pure_eq] at hm
      split_ifs at hm <;> simp_all
    | _ => rw [ha, hb] at hm; simp [Outcome.ok_bind] at hm
  | _ => rw [ha] at hm; cases hm

/-- Requests either change nothing, or join clusters that were apart. -/
theorem mergeAll_cases {n : ℕ} : ∀ (cs : List Link) {h h' : HC} {A : List Link}, HCInv h A → h.n = n → InRange n cs →
    h.mergeAll cs = .ok h' → h' = h ∨ ∃ A', HCInv h' A' ∧ h'.n = n ∧ (∀ a ∈ A, a ∈ A') ∧ (∀ a ∈ A', a ∈ A ∨ a ∈ cs) ∧
      ∃ c ∈ A', c ∈ cs ∧ ¬ Joined A ⊥ c.i c.j ∧ ∀ a ∈ A, c.val ≤ a.val := by
  classical
  intro cs
  induction cs with
  | nil =>
    intro h h' A _ _ _ hm
    left
    simp only [HC.mergeAll] at hm
    cases hm; rfl
  | cons c cs ih =>
    intro h h' A hv hn hr hm
    subst hn
    obtain ⟨h1, h2, h3, h4⟩ := merge_spec hv c.val (hr c (by simp)).1 (hr c (by simp)).2
    have hr' : InRange h.n cs := fun x hx => hr x (by simp [hx])
    simp only [HC.mergeAll, h2, Outcome.ok_bind] at hm
    by_cases hacc : Accepts A c
    · rw [if_pos hacc] at h4
      right
      rcases ih h4 h3 hr' hm with rfl | ⟨A', k1, k2, k3, k4, -⟩
      · refine ⟨_, h4, h3, fun a ha => by simp [ha], fun a ha => ?_, c, by simp, by simp, hacc.1, hacc.2⟩
        rcases List.mem_append.1 ha with ha | ha
        · exact .inl ha
        · rw [List.mem_singleton.1 ha]; simp
      · refine ⟨A', k1, k2, fun a ha => k3 a (by simp [ha]), fun a ha => ?_, c, k3 c (by simp), by simp, hacc.1, hacc.2⟩
        rcases k4 a ha with ha | ha
        · rcases List.mem_append.1 ha with ha | ha
          · exact .inl ha
          · rw [List.mem_singleton.1 ha]; simp
        · exact .inr (by simp [ha])
    · rw [if_neg hacc] at h4
      have e : h1 = h := merge_false (by rw [h2]; simp [hacc])
      subst e
      rcases ih hv rfl hr' hm with rfl | ⟨A', k1, k2, k3, k4, d, k5, k6, k7⟩
      · exact .inl rfl
      · refine .inr ⟨A', k1, k2, k3, fun a ha => ?_, d, k5, by simp [k6], k7⟩
        rcases k4 a ha with ha | ha
        · exact .inl ha
        · exact .inr (by simp [ha])

/-- What is used of `agglomerate`: it ends the run only with a single cluster, and else calls `merge` some times, always with
the same value. -/
structure MergesOnly (n : ℕ) (step : HC → Outcome (HC × Bool)) : Prop where
  done : ∀ h h', step h = .ok (h', false) → h' = h ∧ ∃ L, h.getPartition ⊥ = .ok L ∧ L.length ≤ 1
  more : ∀ h h' A, HCInv h A → h.n = n → step h = .ok (h', true) →
    ∃ cs g, InRange n cs ∧ (∀ c ∈ cs, c.val = g) ∧ h.mergeAll cs = .ok h'

theorem agglomerateWith_mergesOnly {n : ℕ} (hn : 0 < n) (mnb : SF → Outcome (List ℚ)) (contract : List (List ℕ) → SF)
    (thr : ℚ → ℚ) : MergesOnly n (agglomerateWith mnb contract thr) where
  done h h' hs := by
    unfold agglomerateWith at hs
    cases hP : h.getPartition ⊥ with
    | ok P =>
      suffices hlen : P.length ≤ 1 by
        simp only [hP, Outcome.ok_bind, if_pos hlen, Outcome.pure_eq] at hs
        cases hs
        exact ⟨rfl, P, rfl, hlen⟩
      by_contra hk
      simp only [hP, Outcome.ok_bind, if_neg hk] at hs
      cases hx : aicPoints mnb (contract P) ((List.range P.length).drop 1) with
      | ok xs =>
        simp only [hx, Outcome.ok_bind] at hs
        cases hg : aicGamma xs with
        | bot => rw [hg] at hs; cases hs
        | coe g =>
          rw [hg] at hs
          change (h.mergeAll (mergesAt P xs thr g) >>= fun h' => Outcome.ok (h', true)) = _ at hs
          cases hm : h.mergeAll (mergesAt P xs thr g) <;> rw [hm] at hs <;> cases hs
      | _ => rw [hx] at hs; cases hs
    | _ => rw [hP] at hs; cases hs
  more h h' A hv hsize hs := by
    obtain ⟨L, hL1, hL2⟩ := getPartition_spec hv.forest (by rw [hsize]; exact hn) ⊥
    rw [hsize] at hL2
    have hL3 := hL2.congr (hv.fj ⊥)
    have hb := clustering_blocks hL3
    have hhead : ∀ i, i < L.length → (L.getD i []).headD 0 < n := fun i hi =>
      Finset.mem_range.1 (hb.subset hi (clustering_head hL3 hi))
    unfold agglomerateWith at hs
    simp only [hL1, Outcome.ok_bind] at hs
    by_cases hk : L.length ≤ 1
    · rw [if_pos hk] at hs; cases hs
    rw [if_neg hk] at hs
    cases hx : aicPoints mnb (contract L) ((List.range L.length).drop 1) with
    | ok xs =>
      simp only [hx, Outcome.ok_bind] at hs
      cases hg : aicGamma xs with
      | bot =>
        rw [hg] at hs
        refine ⟨[], 0, fun c hc => absurd hc (by simp), fun c hc => absurd hc (by simp), ?_⟩
        cases hs
        rfl
      | coe g =>
        rw [hg] at hs
        change (h.mergeAll (mergesAt L xs thr g) >>= fun h' => Outcome.ok (h', true)) = _ at hs
        refine ⟨mergesAt L xs thr g, g, ?_, ?_, ?_⟩
        · intro c hc
          obtain ⟨j, i, h1, h2, -, rfl⟩ := mem_mergesAt.1 hc
          exact ⟨hhead j h1, hhead i (h2.trans h1)⟩
        · intro c hc
          obtain ⟨j, i, -, -, -, rfl⟩ := mem_mergesAt.1 hc
          rfl
        · cases hm : h.mergeAll (mergesAt L xs thr g) with
          | ok h2 => rw [hm] at hs; cases hs; rfl
          | _ => rw [hm] at hs; cases hs
    | _ => rw [hx] at hs; cases hs

/-- The state of the run. -/
structure ShapeState (n : ℕ) (hc : HC) (A : List Link) (P : Partition) (ps : List Partition) (cv : List ℚ) : Prop where
  inv : HCInv hc A
  size : hc.n = n
  part : IsPartition (Finset.range n) P
  same : ∀ v w, v < n → w < n → (Same P v w ↔ Joined A ⊥ v w)
  length : ps.length = cv.length
  partition : ∀ Q ∈ ps, IsPartition (Finset.range n) Q
  last : (P :: ps).getLast? = some (singletons (Finset.range n))
  refine : (P :: ps).Pairwise fun P Q => Refines Q P ∧ Q ≠ P
  nondecreasing : cv.Pairwise (· ≤ ·)
  top : ∀ c ∈ cv, ∃ b ∈ hc.gamma, b ≤ c

theorem loopWith_shape {n : ℕ} (hn : 0 < n) {step : HC → Outcome (HC × Bool)} (hs : MergesOnly n step) :
    ∀ (k : ℕ) (hc : HC) (A : List Link) (P : Partition) (ps : List Partition) (cv : List ℚ), ShapeState n hc A P ps cv →
      ∀ ps' cv', loopWith step k hc (P :: ps) cv = .ok (ps', cv') → IsHierarchy (Finset.range n) ps' cv' := by
  intro k
  induction k with
  | zero => intro hc A P ps cv _ ps' cv' h; cases h
  | succ k ih =>
    intro hc A P ps cv st ps' cv' h
    have hVne : (Finset.range n).Nonempty := ⟨0, Finset.mem_range.2 hn⟩
    unfold loopWith at h
    cases hst : step hc with
    | ok r =>
      obtain ⟨hc', b⟩ := r
      simp only [hst, Outcome.ok_bind] at h
      cases b with
      | false =>
        simp only [Bool.false_eq_true, if_false, Outcome.pure_eq] at h
        cases h
        obtain ⟨-, L, hL1, hL⟩ := hs.done hc hc' hst
        obtain ⟨L', hL1', hL2⟩ := getPartition_spec st.inv.forest (by rw [st.size]; exact hn) ⊥
        rw [hL1] at hL1'
        cases hL1'
        rw [st.size] at hL2
        have hL3 := hL2.congr (st.inv.fj ⊥)
        have hPL : toPartition L = P := eq_of_same (clustering_partition hL3) st.part fun v w => by
          by_cases hv : v < n
          · by_cases hw : w < n
            · rw [clustering_same hL3 hv hw, st.same v w hv hw]
            · exact iff_of_false (fun hh => hw (Finset.mem_range.1 (hh.mem_right (clustering_partition hL3))))
                fun hh => hw (Finset.mem_range.1 (hh.mem_right st.part))
          · exact iff_of_false (fun hh => hv (Finset.mem_range.1 (hh.mem_left (clustering_partition hL3))))
              fun hh => hv (Finset.mem_range.1 (hh.mem_left st.part))
        have hcard : P.card = L.length := by
          rw [← hPL, toPartition_eq]; exact (clustering_blocks hL3).card
        have hpos := st.part.card_pos hVne
        have hP : P = {Finset.range n} := st.part.eq_single_of_card (by omega)
        refine ⟨by rw [List.length_cons, st.length], ?_, by rw [hP]; rfl, st.last, st.refine, st.nondecreasing⟩
        intro Q hQ
        rcases List.mem_cons.1 hQ with rfl | hQ
        · exact st.part
        · exact st.partition Q hQ
      | true =>
        simp only [if_true] at h
        obtain ⟨cs, g0, hr, -, hm⟩ := hs.more hc hc' A st.inv st.size hst
        rcases mergeAll_cases cs st.inv st.size hr hm with rfl | ⟨A', k1, k2, k3, -, c, k4, -, k5, -⟩
        · -- no progress
          exfalso
          cases hP : hc'.getCoarsestPartition with
          | ok L =>
            simp only [hP, Outcome.ok_bind] at h
            cases hg : hc'.getCriticalValues.getLast? with
            | none => rw [hg] at h; cases h
            | some g =>
              have hfe : ∀ (k : ℕ) (ps : List Partition) (cv : List ℚ), loopWith step k hc' ps cv = .fuel := by
                intro k
                induction k with
                | zero => intro ps cv; rfl
                | succ k ih =>
                  intro ps cv
                  simp only [loopWith, hst, Outcome.ok_bind, if_true, hP, hg]
                  exact ih _ _
              rw [hg] at h
              simp only [hfe] at h
              cases h
          | _ => rw [hP] at h; cases h
        · obtain ⟨L, hL1, hL2⟩ := getPartition_spec k1.forest (by rw [k2]; exact hn) ⊥
          rw [k2] at hL2
          have hL3 := hL2.congr (k1.fj ⊥)
          have hL1' : hc'.getCoarsestPartition = .ok L := hL1
          simp only [hL1', Outcome.ok_bind] at h
          cases hg : hc'.getCriticalValues.getLast? with
          | none => rw [hg] at h; cases h
          | some g =>
            rw [hg] at h
            have hP' := clustering_partition hL3
            have hmono : ∀ v w, Joined A ⊥ v w → Joined A' ⊥ v w := fun v w =>
              eqvGen_imp (fun x z ⟨a, h1, h2⟩ => EqvGen.rel _ _ ⟨a, k3 a h1, h2⟩) v w
            have href : Refines P (toPartition L) := by
              apply refines_of_same st.part hP'
              intro u v huv
              have hu := Finset.mem_range.1 (huv.mem_left st.part)
              have hv := Finset.mem_range.1 (huv.mem_right st.part)
              rw [clustering_same hL3 hu hv]
              exact hmono _ _ ((st.same u v hu hv).1 huv)
            have hne : P ≠ toPartition L := by
              intro he
              obtain ⟨r1, r2⟩ := k1.range c k4
              rw [k2] at r1 r2
              apply k5
              rw [← st.same _ _ r1 r2, he, clustering_same hL3 r1 r2]
              exact EqvGen.rel _ _ ⟨c, k4, rfl, rfl, WithBot.bot_lt_coe _⟩
            have hlow : ∀ c ∈ cv, g ≤ c := by
              intro d hd
              obtain ⟨b, hb, hbd⟩ := st.top d hd
              obtain ⟨a, ha, hab⟩ := (st.inv.mem b).1 hb
              have := k1.last g hg a (k3 a ha)
              linarith
            refine ih hc' A' (toPartition L) (P :: ps) (g :: cv) ⟨k1, k2, hP', fun v w hv hw => clustering_same hL3 hv hw,
              ?_, ?_, ?_, ?_, ?_, ?_⟩ ps' cv' h
            · rw [List.length_cons, List.length_cons, st.length]
            · intro Q hQ
              rcases List.mem_cons.1 hQ with rfl | hQ
              · exact st.part
              · exact st.partition Q hQ
            · rw [List.getLast?_cons, st.last]; rfl
            · refine List.pairwise_cons.2 ⟨fun Q hQ => ?_, st.refine⟩
              rcases List.mem_cons.1 hQ with rfl | hQ
              · exact ⟨href, hne⟩
              · obtain ⟨q1, q2⟩ := (List.pairwise_cons.1 st.refine).1 Q hQ
                refine ⟨q1.trans href, fun he => hne ?_⟩
                subst he
                exact Refines.antisymm st.part hP' href q1
            · exact List.pairwise_cons.2 ⟨hlow, st.nondecreasing⟩
            · intro d hd
              have hgm : g ∈ hc'.gamma := List.mem_of_getLast? hg
              rcases List.mem_cons.1 hd with rfl | hd
              · exact ⟨_, hgm, le_rfl⟩
              · exact ⟨g, hgm, hlow d hd⟩
    | _ => rw [hst] at h; cases h

/-- The whole run. -/
theorem runWith_shape {n : ℕ} (hn : 0 < n) {step : HC → Outcome (HC × Bool)} (hs : MergesOnly n step) (k : ℕ)
    {ps : List Partition} {cv : List ℚ}
    (h : loopWith step k (HC.new n) [singletons (Finset.range n)] [] = .ok (ps, cv)) : IsHierarchy (Finset.range n) ps cv := by
  obtain ⟨L, hL1, hL3, hfine⟩ := new_coarsest hn
  refine loopWith_shape hn hs k _ _ _ [] [] ⟨HCInv.new n, rfl, isPartition_singletons _, fun v w hv hw => ?_, rfl,
    by simp, rfl, by simp, by simp, by simp⟩ ps cv h
  rw [← hfine]; exact clustering_same hL3 hv hw

/-! ### the outcomes -/

/-- Some call of `min_norm_base` in the states that are reached does not return a point. -/
def SomeCallFails (mnb : SF → Outcome (List ℚ)) (contract : List (List ℕ) → SF) (step : HC → Outcome (HC × Bool)) (n : ℕ) :
    Prop :=
  ∃ h L j, Reached step (HC.new n) h ∧ h.getPartition ⊥ = .ok L ∧ 1 ≤ j ∧ j < L.length ∧
    ∀ x, mnb (sfJoin (contract L) j) ≠ .ok x

section outcome

variable {n : ℕ} {mnb : SF → Outcome (List ℚ)} {contract : List (List ℕ) → SF} {thr : ℚ → ℚ}

/-- A round in which all calls return points: it ends the run, or leaves at least one critical value. -/
theorem agglomerateWith_value (hn : 0 < n) {hc : HC} {A : List Link} (hv : HCInv hc A) (hsize : hc.n = n)
    {L : List (List ℕ)} (hL : hc.getPartition ⊥ = .ok L)
    (hm : ∀ j, 1 ≤ j → j < L.length → ∃ x, mnb (sfJoin (contract L) j) = .ok x ∧ x.length = j ∧ ∀ a ∈ x, a ≤ thr (-a)) :
    ∃ hc' b, agglomerateWith mnb contract thr hc = .ok (hc', b) ∧ hc'.n = n ∧ (∃ A', HCInv hc' A') ∧
      (b = true → hc'.gamma ≠ []) := by
  classical
  obtain ⟨L0, hL1, hL2⟩ := getPartition_spec hv.forest (by rw [hsize]; exact hn) ⊥
  rw [hL] at hL1
  cases hL1
  rw [hsize] at hL2
  have hL3 := hL2.congr (hv.fj ⊥)
  have hb := clustering_blocks hL3
  by_cases hk : L.length ≤ 1
  · refine ⟨hc, false, ?_, hsize, ⟨A, hv⟩, by simp⟩
    unfold agglomerateWith
    rw [hL]
    simp only [Outcome.ok_bind, if_pos hk, Outcome.pure_eq]
  have hpts : ∀ j ∈ (List.range L.length).drop 1, ∃ x, mnb (sfJoin (contract L) j) = .ok x ∧
      (x.length = j ∧ ∀ a ∈ x, a ≤ thr (-a)) := by
    intro j hj
    have hjk : 1 ≤ j ∧ j < L.length := by
      rw [List.range_eq_range', List.drop_range', List.mem_range'_1] at hj
      omega
    exact hm j hjk.1 hjk.2
  obtain ⟨xs, hxs, hall⟩ := aicPoints_spec _ hpts
  have hxslen : xs.length = L.length - 1 := by
    rw [← hall.length_eq]; simp
  have hget : ∀ j, 1 ≤ j → j < L.length → (xs.getD (j - 1) []).length = j ∧ ∀ a ∈ xs.getD (j - 1) [], a ≤ thr (-a) := by
    intro j hj1 hjk
    have hlt : j - 1 < xs.length := by omega
    have hlt' : j - 1 < ((List.range L.length).drop 1).length := by simp; omega
    have := List.forall₂_iff_get.1 hall |>.2 (j - 1) hlt' hlt
    simp only [List.get_eq_getElem, List.getElem_drop, List.getElem_range] at this
    have e : 1 + (j - 1) = j := by omega
    rw [e] at this
    rw [List.getD_eq_getElem _ _ hlt]
    exact this
  have hxsne : xs ≠ [] := by
    intro he; rw [he] at hxslen; simp at hxslen; omega
  obtain ⟨g, hg1, -, x0, hx0, hg3⟩ := aicGamma_spec hxsne
  obtain ⟨j1, i1, hj1, hi1, hxg⟩ : ∃ j i, j < L.length ∧ i < j ∧ (xs.getD (j - 1) []).getD i 0 ≤ thr g := by
    obtain ⟨i, hi, rfl⟩ := List.mem_iff_getElem.1 hx0
    have e : xs.getD (i + 1 - 1) [] = xs[i] := by rw [Nat.add_sub_cancel, List.getD_eq_getElem _ _ hi]
    obtain ⟨h1, h2⟩ := hget (i + 1) (by omega) (by omega)
    rw [e] at h1 h2
    have hne : xs[i] ≠ [] := by
      intro he
      rw [he] at h1; simp at h1
    obtain ⟨l, hl, he⟩ := List.mem_iff_getElem.1 (minCoeff_mem _ hne)
    refine ⟨i + 1, l, by omega, by omega, ?_⟩
    rw [e, List.getD_eq_getElem _ 0 hl, he, hg3]
    exact h2 _ (minCoeff_mem _ hne)
  have hheadlt : ∀ i, i < L.length → (L.getD i []).headD 0 < n := fun i hi =>
    Finset.mem_range.1 (hb.subset hi (clustering_head hL3 hi))
  have hrange : InRange n (mergesAt L xs thr g) := by
    intro c hc'
    obtain ⟨j, i, h1, h2, -, rfl⟩ := mem_mergesAt.1 hc'
    exact ⟨hheadlt j h1, hheadlt i (h2.trans h1)⟩
  obtain ⟨hc', hc1, hc2, hc3⟩ := mergeAll_from _ hv hsize hrange
  refine ⟨hc', true, ?_, hc2, ⟨_, hc3⟩, fun _ hnil => ?_⟩
  · unfold agglomerateWith
    rw [hL]
    simp only [Outcome.ok_bind, if_neg hk, hxs, hg1, Outcome.pure_eq]
    show (do let h' ← hc.mergeAll (mergesAt L xs thr g); Outcome.ok (h', true)) = _
    rw [hc1]
    rfl
  · have hno : ∀ a, a ∉ acceptedFrom A (mergesAt L xs thr g) := by
      intro a ha
      have := (hc3.mem a.val).2 ⟨a, ha, rfl⟩
      rw [hnil] at this
      simp at this
    have hA : A = [] := List.eq_nil_iff_forall_not_mem.2 fun a ha => hno a ((acceptedFrom_sub _ A).1 a ha)
    subst hA
    have hlink : (⟨(L.getD j1 []).headD 0, (L.getD i1 []).headD 0, g⟩ : Link) ∈ mergesAt L xs thr g :=
      mem_mergesAt.2 ⟨j1, i1, hj1, hi1, hxg, rfl⟩
    obtain ⟨c, cs, hcs⟩ := List.exists_cons_of_ne_nil (List.ne_nil_of_mem hlink)
    have hc0 : c ∈ mergesAt L xs thr g := by rw [hcs]; simp
    obtain ⟨j, i, h1, h2, -, rfl⟩ := mem_mergesAt.1 hc0
    have hacc : Accepts [] (⟨(L.getD j []).headD 0, (L.getD i []).headD 0, g⟩ : Link) := by
      refine ⟨?_, by simp⟩
      rw [joined_nil]
      intro he
      have e1 := hb.disjoint _ _ _ h1 (h2.trans h1) (clustering_head hL3 h1)
        ((show (L.getD j []).headD 0 = (L.getD i []).headD 0 from he) ▸ clustering_head hL3 (h2.trans h1))
      omega
    apply hno ⟨(L.getD j []).headD 0, (L.getD i []).headD 0, g⟩
    rw [hcs]
    have : acceptedFrom [] ((⟨(L.getD j []).headD 0, (L.getD i []).headD 0, g⟩ : Link) :: cs) =
        acceptedFrom [⟨(L.getD j []).headD 0, (L.getD i []).headD 0, g⟩] cs := by
      unfold acceptedFrom
      rw [List.foldl_cons, if_pos hacc]
      rfl
    rw [this]
    exact (acceptedFrom_sub cs _).1 _ (by simp)

theorem loopWith_outcome (hn : 0 < n)
    (hm : ∀ L j x, 1 ≤ j → j < L.length → mnb (sfJoin (contract L) j) = .ok x → x.length = j ∧ ∀ a ∈ x, a ≤ thr (-a))
    (hno : ¬ SomeCallFails mnb contract (agglomerateWith mnb contract thr) n) :
    ∀ (k : ℕ) (hc : HC) (A : List Link) (ps : List Partition) (cv : List ℚ), HCInv hc A → hc.n = n →
      Reached (agglomerateWith mnb contract thr) (HC.new n) hc →
      loopWith (agglomerateWith mnb contract thr) k hc ps cv = .fuel ∨
      ∃ r, loopWith (agglomerateWith mnb contract thr) k hc ps cv = .ok r := by
  intro k
  induction k with
  | zero => intros; exact .inl rfl
  | succ k ih =>
    intro hc A ps cv hv hsize hr
    obtain ⟨L, hL1, -⟩ := getPartition_spec hv.forest (by rw [hsize]; exact hn) ⊥
    have hcalls : ∀ j, 1 ≤ j → j < L.length → ∃ x, mnb (sfJoin (contract L) j) = .ok x ∧ x.length = j ∧
        ∀ a ∈ x, a ≤ thr (-a) := by
      intro j h1 h2
      by_contra hx
      exact hno ⟨hc, L, j, hr, hL1, h1, h2, fun x hx' => hx ⟨x, hx', hm L j x h1 h2 hx'⟩⟩
    obtain ⟨hc', b, h1, h2, ⟨A', h3⟩, h4⟩ := agglomerateWith_value hn hv hsize hL1 hcalls
    cases b with
    | false =>
      right
      exact ⟨(ps, cv), by simp only [loopWith, h1, Outcome.ok_bind]; rfl⟩
    | true =>
      obtain ⟨L', hL1', -⟩ := getPartition_spec h3.forest (by rw [h2]; exact hn) ⊥
      have hL' : hc'.getCoarsestPartition = .ok L' := hL1'
      cases hg : hc'.getCriticalValues.getLast? with
      | none => exact absurd (List.getLast?_eq_none_iff.1 hg) (h4 rfl)
      | some g =>
        simp only [loopWith, h1, Outcome.ok_bind, if_true, hL', hg]
        exact ih hc' A' _ _ h3 h2 (hr.next h1)

end outcome

/-! ### the points that `min_norm_base` returns -/

section points

variable {fl : ℚ → ℚ}

theorem greedyLoopF_fixed (hi : ∀ a, fl (fl a) = fl a) (f : List ℕ → ℚ) : ∀ (is B : List ℕ) (F : ℚ) (x : ℕ → ℚ),
    (∀ i, fl (x i) = x i) → ∀ i, fl (greedyLoopF fl f is B F x i) = greedyLoopF fl f is B F x i := by
  intro is
  induction is with
  | nil => intro B F x hx i; exact hx i
  | cons a is ih =>
    intro B F x hx i
    refine ih _ _ _ (fun l => ?_) i
    by_cases hl : l = a
    · subst hl; simp [hi]
    · simp [Function.update_of_ne hl, hx]

theorem edmondsGreedyF_fixed (hi : ∀ a, fl (fl a) = fl a) (h0 : fl 0 = 0) {f : SF} {w x : List ℚ} {idx : List ℕ}
    (h : edmondsGreedyF fl f w idx = .ok x) : x.length = f.size ∧ ∀ a ∈ x, fl a = a := by
  unfold edmondsGreedyF at h
  split_ifs at h
  cases h
  refine ⟨by simp, fun a ha => ?_⟩
  obtain ⟨i, -, rfl⟩ := List.mem_map.1 ha
  exact greedyLoopF_fixed hi _ _ _ _ _ (fun _ => h0) i

theorem flSum_fixed (hi : ∀ a, fl (fl a) = fl a) : ∀ (l : List ℚ) (s : ℚ), fl s = s → fl (flSum fl s l) = flSum fl s l := by
  intro l
  induction l with
  | nil => intro s hs; exact hs
  | cons a l ih => intro s _; exact ih _ (hi _)

theorem seqF_comb_fixed (hi : ∀ a, fl (fl a) = fl a) (h0 : fl 0 = 0) (N : Numerics) (n : ℕ) (Q : List (List ℚ)) (w : List ℚ) :
    ((N.seqF fl).comb n Q w).length = n ∧ ∀ a ∈ (N.seqF fl).comb n Q w, fl a = a := by
  unfold Numerics.seqF
  refine ⟨by simp, fun a ha => ?_⟩
  obtain ⟨i, -, rfl⟩ := List.mem_map.1 ha
  exact flSum_fixed hi _ _ h0

theorem minorCyclesF_fixed (hi : ∀ a, fl (fl a) = fl a) (h0 : fl 0 = 0) (N : Numerics) (n : ℕ) (eps : ℚ) :
    ∀ (k : ℕ) (Q : List (List ℚ)) (w : List ℚ) {Q' : List (List ℚ)} {w' x : List ℚ},
    minorCyclesF fl (N.seqF fl) n eps k Q w = .ok (Q', w', x) → x.length = n ∧ ∀ a ∈ x, fl a = a := by
  intro k
  induction k with
  | zero => intro Q w Q' w' x h; cases h
  | succ k ih =>
    intro Q w Q' w' x h
    unfold minorCyclesF at h
    dsimp only at h
    split at h
    · cases h
    split at h
    · cases h
      exact seqF_comb_fixed hi h0 N n _ _
    split at h
    · cases h
    · exact ih _ _ h

theorem majorCyclesF_fixed (hi : ∀ a, fl (fl a) = fl a) (h0 : fl 0 = 0) (N : Numerics) (f : SF) (tol eps : ℚ) :
    ∀ (k : ℕ) (Q : List (List ℚ)) (w x : List ℚ) (prev : Option ℚ) (stuck : ℕ) {r : List ℚ} {b : Bool},
    (x.length = f.size ∧ ∀ a ∈ x, fl a = a) → majorCyclesF fl (N.seqF fl) f tol eps k Q w x prev stuck = .ok (r, b) →
    r.length = f.size ∧ ∀ a ∈ r, fl a = a := by
  intro k
  induction k with
  | zero => intro Q w x prev stuck r b _ h; cases h
  | succ k ih =>
    intro Q w x prev stuck r b hx h
    unfold majorCyclesF at h
    obtain ⟨q, -, h⟩ := Outcome.bind_eq_ok h
    dsimp only at h
    generalize (if isStuck prev |fl ((N.seqF fl).dot x q - (N.seqF fl).dot x x)| then stuck + 1 else 0) = st at h
    split at h
    · cases h; exact hx
    split at h
    · cases h; exact hx
    split at h
    · cases h
    split at h
    · cases h
    obtain ⟨⟨Q', w', x'⟩, h1, h⟩ := Outcome.bind_eq_ok h
    exact ih _ _ _ _ _ (minorCyclesF_fixed hi h0 N _ _ _ _ _ h1) h

theorem mnbOfF_fixed (hi : ∀ a, fl (fl a) = fl a) (h0 : fl 0 = 0) (N : Numerics) {f : SF} (hf : fl (f.val [0]) = f.val [0])
    {tol eps : ℚ} {fuel : ℕ} {x : List ℚ} (h : mnbOfF fl (N.seqF fl) tol eps fuel f = .ok x) :
    x.length = f.size ∧ ∀ a ∈ x, fl a = a := by
  unfold mnbOfF at h
  obtain ⟨⟨r, b⟩, h1, h⟩ := Outcome.bind_eq_ok h
  cases h
  unfold minNormBaseF at h1
  split_ifs at h1 with h2 h3
  · cases h1
    exact ⟨by simp; omega, by simp⟩
  · cases h1
    exact ⟨by simp [h3], by simpa using hf⟩
  · obtain ⟨y, h4, h1⟩ := Outcome.bind_eq_ok h1
    exact majorCyclesF_fixed hi h0 N f tol eps fuel _ _ _ _ _ (edmondsGreedyF_fixed hi h0 h4) h1

end points

end PSP.Theory
