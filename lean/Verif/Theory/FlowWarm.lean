import Verif.Theory.FlowContract

/-!
# The flows handed on by `PMF_R::slice`
-/

namespace PSP.Theory

open PSP.Spec PSP.Model

variable {E : List Arc} {ε : ℚ} {j : ℕ} {y : ℕ → YPair} {lam : ℚ} {X V Xl Xr Xlc Xrc : Finset ℕ}
  {arcs : List NArc} {base : ℕ → ℚ × ℚ}

/-- Arcs whose capacity `update_dig` leaves alone are not tiny. -/
def RStrict (ε : ℚ) (arcs : List NArc) : Prop :=
  ∀ e ∈ arcs, ∀ i, (e.a = .v i ∧ e.b ≠ .snk) ∨ (e.a = .snk ∧ e.b = .v i) → ε < e.cap

/-- A flow for the parameter `lam`, not using the arcs that leave the sink side of the cut `X`. -/
structure FInv (y : ℕ → YPair) (base : ℕ → ℚ × ℚ) (lam : ℚ) (arcs : List NArc) (X : Finset ℕ)
    (f : List ℚ) : Prop where
  length : f.length = arcs.length
  nonneg : ∀ z ∈ arcs.zip f, 0 ≤ z.2
  cap : ∀ z ∈ arcs.zip f, ¬ (z.1.a = .src ∧ z.1.b = .snk) → z.2 ≤ (updateArc y lam base z.1).cap
  conserve : ∀ i, exc (arcs.zip f) (.v i) = 0
  back : ∀ z ∈ arcs.zip f, z.1.a.onSink X = true → z.1.b.onSink X = false → z.2 = 0

theorem updateArc_twice (lam' : ℚ) (e : NArc) :
    updateArc y lam base (updateArc y lam' base e) = updateArc y lam base e := by
  obtain ⟨a, b, c⟩ := e
  cases a <;> cases b <;> rfl

theorem updateDig_twice (lam' : ℚ) :
    updateDig y lam base (updateDig y lam' base arcs) = updateDig y lam base arcs := by
  unfold updateDig
  rw [List.map_map]
  apply List.map_congr_left
  intro e _
  exact updateArc_twice lam' e

theorem zip_updateDig (f : List ℚ) : (updateDig y lam base arcs).zip f =
    (arcs.zip f).map fun z => (updateArc y lam base z.1, z.2) := by
  unfold updateDig
  rw [List.zip_map_left]
  rfl

theorem exc_updateDig (f : List ℚ) (x : NV) :
    exc ((updateDig y lam base arcs).zip f) x = exc (arcs.zip f) x := by
  rw [zip_updateDig]
  unfold exc
  rw [List.map_map]
  congr 1
  apply List.map_congr_left
  intro z _
  simp only [Function.comp, (updateArc_ab z.1).1, (updateArc_ab z.1).2.1]

theorem FInv.update {f : List ℚ} (lam' : ℚ) :
    FInv y base lam (updateDig y lam' base arcs) X f ↔ FInv y base lam arcs X f := by
  have hz := zip_updateDig (y := y) (lam := lam') (base := base) (arcs := arcs) f
  have hab := fun e => updateArc_ab (y := y) (lam := lam') (base := base) e
  constructor
  · intro h
    refine ⟨by simpa [updateDig] using h.length, ?_, ?_, fun i => by rw [← h.conserve i, exc_updateDig], ?_⟩
    · intro z hm
      exact h.nonneg (updateArc y lam' base z.1, z.2) (hz ▸ List.mem_map.2 ⟨z, hm, rfl⟩)
    · intro z hm hn
      have := h.cap (updateArc y lam' base z.1, z.2) (hz ▸ List.mem_map.2 ⟨z, hm, rfl⟩)
        (by rw [(hab z.1).1, (hab z.1).2.1]; exact hn)
      rwa [updateArc_twice] at this
    · intro z hm h1 h2
      exact h.back (updateArc y lam' base z.1, z.2) (hz ▸ List.mem_map.2 ⟨z, hm, rfl⟩)
        (by rw [(hab z.1).1]; exact h1) (by rw [(hab z.1).2.1]; exact h2)
  · intro h
    refine ⟨by simpa [updateDig] using h.length, ?_, ?_, fun i => by rw [← h.conserve i, exc_updateDig], ?_⟩
    · intro z hm
      rw [hz] at hm
      obtain ⟨w, hw, rfl⟩ := List.mem_map.1 hm
      exact h.nonneg w hw
    · intro z hm hn
      rw [hz] at hm
      obtain ⟨w, hw, rfl⟩ := List.mem_map.1 hm
      rw [updateArc_twice]
      exact h.cap w hw (by rw [← (hab w.1).1, ← (hab w.1).2.1]; exact hn)
    · intro z hm h1 h2
      rw [hz] at hm
      obtain ⟨w, hw, rfl⟩ := List.mem_map.1 hm
      exact h.back w hw (by rw [← (hab w.1).1]; exact h1) (by rw [← (hab w.1).2.1]; exact h2)

theorem RStrict.update (lam' : ℚ) : RStrict ε (updateDig y lam' base arcs) ↔ RStrict ε arcs := by
  have hc : ∀ e : NArc, ∀ i, (e.a = .v i ∧ e.b ≠ .snk) ∨ (e.a = .snk ∧ e.b = .v i) →
      (updateArc y lam' base e).cap = e.cap := by
    rintro ⟨a, b, c⟩ i h
    cases a with
    | src => simp at h
    | snk => cases b <;> rfl
    | v k =>
      cases b with
      | snk => simp at h
      | _ => rfl
  constructor
  · intro h e he i hi
    have := h _ (List.mem_map.2 ⟨e, he, rfl⟩) i (by
      rw [(updateArc_ab e).1, (updateArc_ab e).2.1]; exact hi)
    rwa [hc e i hi] at this
  · intro h e' he' i hi
    obtain ⟨e, he, rfl⟩ := List.mem_map.1 he'
    rw [(updateArc_ab e).1, (updateArc_ab e).2.1] at hi
    rw [hc e i hi]
    exact h e he i hi

/-! ### contraction -/

/-- Capacity of the arcs into the kept node `i` from the new source. -/
theorem cap_source (hg : PGood E ε) {G : RNet} (h : RGood E j Xlc Xrc G) (hrr : Xrc ⊆ Xr) (hlr : Xr ⊆ Xl)
    (hll : Xl ⊆ Xlc) {i : ℕ} (hi : i ∈ Xl \ Xr) :
    (G.arcs.map fun e => if cS Xl e.a && decide (e.b = .v i) then (updateArc y lam G.base e).cap else 0).sum =
      srcCap y lam (newBase E (Finset.range (j + 2) \ insert j Xl) (insert j Xr)) i := by
  have hiV : i ∈ Xlc \ Xrc := Finset.sdiff_subset_sdiff hll hrr hi
  have h1 : (G.arcs.map fun e => if cS Xl e.a && decide (e.b = .v i) then
      (updateArc y lam G.base e).cap else 0).sum =
      ((G.arcs.filterMap innerOf).map fun a => if a.src ∉ Xl ∧ a.dst = i then a.cap else 0).sum +
      (cntS G.arcs i : ℚ) * srcCap y lam G.base i := by
    have hl := h.inv.left
    generalize G.arcs = as at *
    clear h hg
    induction as with
    | nil => simp [cntS]
    | cons e as ih =>
      rw [List.map_cons, List.sum_cons, ih]
      obtain ⟨a, b, c⟩ := e
      have hcn : cntS (⟨a, b, c⟩ :: as) i = cntS as i + (if a = .src ∧ b = .v i then 1 else 0) := by
        unfold cntS
        rw [List.countP_cons]
        simp
      rw [hcn]
      cases a with
      | src =>
        cases b with
        | src => simp [List.filterMap_cons, innerOf]
        | snk => simp [List.filterMap_cons, innerOf]
        | v k =>
          by_cases hk : k = i
          · subst hk
            simp [List.filterMap_cons, innerOf, cS, updateArc, srcCap]
            ring
          · simp [List.filterMap_cons, innerOf, hk]
      | snk => cases b <;> simp [List.filterMap_cons, innerOf, cS]
      | v s =>
        cases b with
        | src => simp [List.filterMap_cons, innerOf]
        | snk => simp [List.filterMap_cons, innerOf]
        | v k =>
          simp only [List.filterMap_cons, innerOf, List.map_cons, List.sum_cons, cS, updateArc]
          by_cases hk : k = i <;> by_cases hs : s ∈ Xl <;> simp [hk, hs]
          ring
      intro e he
      exact hl e (List.mem_cons_of_mem _ he)
  rw [h1, h.inv.source i hiV, h.inv.inner, sum_filter_map]
  unfold srcCap
  rw [h.base i hiV]
  have h2 : (newBase E (Finset.range (j + 2) \ insert j Xl) (insert j Xr) i).1 =
      (newBase E (Finset.range (j + 2) \ insert j Xlc) (insert j Xrc) i).1 +
      (E.map fun a => if decide (a.src ∈ Xlc \ Xrc ∧ a.dst ∈ Xlc \ Xrc) then
        (if a.src ∉ Xl ∧ a.dst = i then a.cap else 0) else 0).sum := by
    unfold newBase
    dsimp only
    rw [← List.sum_map_add]
    congr 1
    apply List.map_congr_left
    intro a ha
    have hlt := hg.lowHigh a ha
    simp only [mem_S, decide_eq_true_eq]
    by_cases hd : a.dst = i
    · have hij := Finset.mem_range.1 (h.range (Finset.mem_sdiff.1 hiV).1)
      have e1 : a.src < j + 2 := by omega
      have e2 : a.src ≠ j := by omega
      simp only [hd, hiV, e1, e2, and_true, true_and, ne_eq, not_false_eq_true]
      by_cases hs : a.src ∈ Xl
      · have := hll hs
        simp [hs, this]
      · by_cases hs' : a.src ∈ Xlc
        · have : a.src ∉ Xrc := fun h' => hs (hlr (hrr h'))
          simp [hs, hs', this]
        · simp [hs, hs']
    · simp [hd]
  rw [h2]
  push_cast
  ring

/-- Capacity of the arcs from the kept node `i` to the new sink. -/
theorem cap_sink {G : RNet} (h : RGood E j Xlc Xrc G) (hrr : Xrc ⊆ Xr) (hlr : Xr ⊆ Xl)
    (hll : Xl ⊆ Xlc) {i : ℕ} (hi : i ∈ Xl \ Xr) :
    (G.arcs.map fun e => if decide (e.a = .v i) && cT Xr e.b then (updateArc y lam G.base e).cap else 0).sum =
      snkCap y lam (newBase E (Finset.range (j + 2) \ insert j Xl) (insert j Xr)) i := by
  have hiV : i ∈ Xlc \ Xrc := Finset.sdiff_subset_sdiff hll hrr hi
  have h1 : (G.arcs.map fun e => if decide (e.a = .v i) && cT Xr e.b then
      (updateArc y lam G.base e).cap else 0).sum =
      ((G.arcs.filterMap innerOf).map fun a => if a.src = i ∧ a.dst ∈ Xr then a.cap else 0).sum +
      (cntT G.arcs i : ℚ) * snkCap y lam G.base i := by
    generalize G.arcs = as at *
    clear h
    induction as with
    | nil => simp [cntT]
    | cons e as ih =>
      rw [List.map_cons, List.sum_cons, ih]
      obtain ⟨a, b, c⟩ := e
      have hcn : cntT (⟨a, b, c⟩ :: as) i = cntT as i + (if a = .v i ∧ b = .snk then 1 else 0) := by
        unfold cntT
        rw [List.countP_cons]
        simp
      rw [hcn]
      cases a with
      | src => cases b <;> simp [List.filterMap_cons, innerOf]
      | snk => cases b <;> simp [List.filterMap_cons, innerOf]
      | v s =>
        cases b with
        | src => simp [List.filterMap_cons, innerOf, cT]
        | snk =>
          by_cases hk : s = i
          · subst hk
            simp [List.filterMap_cons, innerOf, cT, updateArc, snkCap]
            ring
          · simp [List.filterMap_cons, innerOf, hk]
        | v k =>
          simp only [List.filterMap_cons, innerOf, List.map_cons, List.sum_cons, cT, updateArc]
          by_cases hk : s = i <;> by_cases hs : k ∈ Xr <;> simp [hk, hs]
          ring
  rw [h1, h.inv.sink i hiV, h.inv.inner, sum_filter_map]
  unfold snkCap
  rw [h.base i hiV]
  have h2 : (newBase E (Finset.range (j + 2) \ insert j Xl) (insert j Xr) i).2 =
      (newBase E (Finset.range (j + 2) \ insert j Xlc) (insert j Xrc) i).2 +
      (E.map fun a => if decide (a.src ∈ Xlc \ Xrc ∧ a.dst ∈ Xlc \ Xrc) then
        (if a.src = i ∧ a.dst ∈ Xr then a.cap else 0) else 0).sum := by
    unfold newBase
    dsimp only
    rw [← List.sum_map_add]
    congr 1
    apply List.map_congr_left
    intro a ha
    simp only [decide_eq_true_eq, Finset.mem_insert]
    by_cases hd : a.src = i
    · simp only [hd, hiV, true_and]
      by_cases hj : a.dst = j
      · have e1 : a.dst ∉ Xr := fun h' => by
          have := Finset.mem_range.1 (h.range (hll (hlr h')))
          omega
        simp [hj] at e1 ⊢
        simp [e1]
      · simp only [hj, false_or]
        by_cases hs : a.dst ∈ Xr
        · by_cases hs' : a.dst ∈ Xrc
          · simp [hs, hs']
          · simp [hs, hs', hll (hlr hs)]
        · have : a.dst ∉ Xrc := fun h' => hs (hrr h')
          simp [hs, this]
    · simp [hd]
  rw [h2]
  push_cast
  ring

theorem fs_zero {Z : List (NArc × ℚ)} {p : NV → NV → Bool} (h : ∀ z ∈ Z, p z.1.a z.1.b = true → z.2 = 0) :
    fs Z p = 0 := by
  apply List.sum_eq_zero
  intro q hq
  obtain ⟨z, hz, rfl⟩ := List.mem_map.1 hq
  split
  · rename_i hp; exact h z hz hp
  · rfl

theorem fs_nonneg {Z : List (NArc × ℚ)} {p : NV → NV → Bool} (h : ∀ z ∈ Z, 0 ≤ z.2) : 0 ≤ fs Z p := by
  apply List.sum_nonneg
  intro q hq
  obtain ⟨z, hz, rfl⟩ := List.mem_map.1 hq
  split
  · exact h z hz
  · exact le_rfl

theorem fs_le {f : List ℚ} {p : NV → NV → Bool} {c : NArc → ℚ} (hf : f.length = arcs.length)
    (h : ∀ z ∈ arcs.zip f, p z.1.a z.1.b = true → z.2 ≤ c z.1) :
    fs (arcs.zip f) p ≤ (arcs.map fun e => if p e.a e.b then c e else 0).sum := by
  conv_rhs => rw [← List.map_fst_zip (l₁ := arcs) (l₂ := f) (by omega)]
  rw [List.map_map]
  apply List.sum_le_sum
  intro z hz
  simp only [Function.comp]
  split
  · rename_i hp; exact h z hz hp
  · exact le_rfl

/-- A sum over the inner arcs of the contracted network. -/
theorem sum_inner {f : List ℚ} (h : RInv E V arcs) (hs : SimpleE E) (hstrict : RStrict ε arcs)
    (hf : f.length = arcs.length) (p : NV → NV → Bool) :
    ((arcs.filter fun e => decide (¬ e.cap < ε) && cM Xl Xr e.a && cM Xl Xr e.b).map fun e =>
      if p e.a e.b then lastFlow arcs f e.a e.b else 0).sum =
      fs (arcs.zip f) fun a b => cM Xl Xr a && cM Xl Xr b && p a b := by
  have h1 : ((arcs.filter fun e => decide (¬ e.cap < ε) && cM Xl Xr e.a && cM Xl Xr e.b).map fun e =>
      if p e.a e.b then lastFlow arcs f e.a e.b else 0).sum =
      (arcs.map fun e => if (decide (¬ e.cap < ε) && cM Xl Xr e.a && cM Xl Xr e.b) then
        (if p e.a e.b then lastFlow arcs f e.a e.b else 0) else 0).sum := by
    generalize lastFlow arcs f = lf
    clear hstrict h hf
    induction arcs with
    | nil => rfl
    | cons e as ih =>
      rw [List.filter_cons, List.map_cons, List.sum_cons]
      split
      · rw [List.map_cons, List.sum_cons, ih]
      · rw [ih, zero_add]
  rw [h1]
  unfold fs
  conv_lhs =>
    rw [← List.map_fst_zip (l₁ := arcs) (l₂ := f) (by omega), List.map_map]
  congr 1
  apply List.map_congr_left
  intro z hz
  have hz1 := (List.of_mem_zip hz).1
  simp only [Function.comp, List.map_fst_zip (l₁ := arcs) (l₂ := f) (by omega)]
  by_cases hm : cM Xl Xr z.1.a = true ∧ cM Xl Xr z.1.b = true
  · obtain ⟨i, hi, hia⟩ := (cM_iff _).1 hm.1
    obtain ⟨k, hk, hkb⟩ := (cM_iff _).1 hm.2
    have hc := hstrict z.1 hz1 i (Or.inl ⟨hia, by rw [hkb]; simp⟩)
    have hn : ¬ z.1.cap < ε := by linarith
    rw [lastFlow_eq h hs hf hz hia hkb]
    simp [hm.1, hm.2, hn]
  · have : ¬ (cM Xl Xr z.1.a && cM Xl Xr z.1.b) = true := by simpa using hm
    have e1 : (decide (¬ z.1.cap < ε) && cM Xl Xr z.1.a && cM Xl Xr z.1.b) = false := by
      rw [Bool.and_assoc]
      simp only [Bool.not_eq_true] at this
      rw [this, Bool.and_false]
    have e2 : (cM Xl Xr z.1.a && cM Xl Xr z.1.b && p z.1.a z.1.b) = false := by
      simp only [Bool.not_eq_true] at this
      rw [this, Bool.false_and]
    rw [if_neg (by rw [e1]; simp), if_neg (by rw [e2]; simp)]

/-- If the arcs satisfying `p` are not tiny and their sum is, there are none. -/
theorem arcSum_small {p : NArc → Bool} (hn : ∀ e ∈ arcs, 0 ≤ e.cap) (hp : ∀ e ∈ arcs, p e = true → ε < e.cap)
    (h : ¬ ε < arcSum ε arcs p) : ∀ e ∈ arcs, p e = false := by
  intro e he
  by_contra hpe
  have hpe : p e = true := by simpa using hpe
  apply h
  have h1 := hp e he hpe
  refine h1.trans_le ?_
  have : (if ¬ e.cap < ε ∧ p e then e.cap else 0) ≤ arcSum ε arcs p := by
    unfold arcSum
    apply List.single_le_sum (l := arcs.map fun e => if ¬ e.cap < ε ∧ p e then e.cap else 0)
    · intro z hz
      obtain ⟨w, hw, rfl⟩ := List.mem_map.1 hz
      split
      · exact hn w hw
      · exact le_rfl
    · exact List.mem_map.2 ⟨e, he, rfl⟩
  rwa [if_pos ⟨not_lt.2 h1.le, hpe⟩] at this

theorem arcSum_eq {p : NV → NV → Bool} (hp : ∀ e ∈ arcs, p e.a e.b = true → ε < e.cap) :
    arcSum ε arcs (fun e => p e.a e.b) = (arcs.map fun e => if p e.a e.b then e.cap else 0).sum := by
  unfold arcSum
  congr 1
  apply List.map_congr_left
  intro e he
  by_cases h : p e.a e.b = true
  · have := hp e he h
    simp [h, not_lt.2 this.le]
  · simp [h]

theorem contract_strict (h : RInv E V arcs) (hV : V ⊆ Finset.range j)
    (hlr : Xr ⊆ Xl) (hlj : Xl ⊆ Finset.range j) (hstrict : RStrict ε arcs) :
    RStrict ε (contractR ε j (Finset.range (j + 2) \ insert j Xl) (insert j Xr) arcs) := by
  obtain ⟨L, c1, c2, u, w, hLn, hLm, hc2, hform⟩ := contractR_form (ε := ε) h hV hlr hlj
  rw [hform]
  intro e he i hi
  rcases List.mem_append.1 he with he | he
  · rcases List.mem_append.1 he with he | he
    · exact hstrict e (List.mem_filter.1 he).1 i hi
    · simp only [List.mem_cons, List.not_mem_nil, or_false] at he
      rcases he with rfl | rfl <;> simp at hi
  · rw [List.mem_flatMap] at he
    obtain ⟨k, _, he⟩ := he
    simp only [nodeArcs, List.mem_append, List.mem_singleton] at he
    rcases he with ((he | he) | he) | he
    · subst he; simp at hi
    · split at he
      · rw [List.mem_singleton] at he; subst he; assumption
      · simp at he
    · subst he; simp at hi
    · split at he
      · rw [List.mem_singleton] at he; subst he; assumption
      · simp at he

theorem zip_map_self {α β : Type} (l : List α) (g : α → β) : l.zip (l.map g) = l.map fun e => (e, g e) := by
  induction l with
  | nil => rfl
  | cons a l ih => simp [ih]

theorem exc_append (A B : List (NArc × ℚ)) (x : NV) : exc (A ++ B) x = exc A x + exc B x := by
  unfold exc
  rw [List.map_append, List.sum_append]

theorem exc_flat {l : List ℕ} (hl : l.Nodup) (F : ℕ → List (NArc × ℚ)) {i : ℕ}
    (h0 : ∀ k ∈ l, k ≠ i → exc (F k) (.v i) = 0) :
    exc (l.flatMap F) (.v i) = if i ∈ l then exc (F i) (.v i) else 0 := by
  induction l with
  | nil => simp [exc]
  | cons k l ih =>
    rw [List.flatMap_cons, exc_append, ih (List.nodup_cons.1 hl).2 fun m hm => h0 m (List.mem_cons_of_mem _ hm)]
    by_cases hk : k = i
    · subst hk
      have := (List.nodup_cons.1 hl).1
      simp [this]
    · rw [h0 k List.mem_cons_self hk, zero_add]
      simp [Ne.symm hk]

/-- The net flow into a kept node, by the kind of the other end. -/
theorem exc_split (hlr : Xr ⊆ Xl) {i : ℕ} (hi : i ∈ Xl \ Xr) (Z : List (NArc × ℚ)) : exc Z (.v i) =
    fs Z (fun a b => cM Xl Xr a && cM Xl Xr b && decide (b = .v i)) -
      fs Z (fun a b => cM Xl Xr a && cM Xl Xr b && decide (a = .v i)) +
    (fs Z (fun a b => cS Xl a && decide (b = .v i)) - fs Z (fun a b => decide (a = .v i) && cS Xl b) -
      fs Z (fun a b => decide (a = .v i) && cT Xr b) + fs Z (fun a b => cT Xr a && decide (b = .v i))) := by
  have m1 : cS Xl (.v i) = false := by simp [cS, (Finset.mem_sdiff.1 hi).1]
  have m2 : cT Xr (.v i) = false := by simp [cT, (Finset.mem_sdiff.1 hi).2]
  induction Z with
  | nil => simp [exc, fs]
  | cons z Z ih =>
    have h : ∀ p, fs (z :: Z) p = (if p z.1.a z.1.b then z.2 else 0) + fs Z p := fun p => by simp [fs]
    have h' : exc (z :: Z) (.v i) = ((if z.1.b = .v i then z.2 else 0) - (if z.1.a = .v i then z.2 else 0)) +
        exc Z (.v i) := by simp [exc]
    rw [h', ih]
    simp only [h]
    have ha := cT_not_cS (x := z.1.a) hlr
    have hb := cT_not_cS (x := z.1.b) hlr
    unfold cM
    generalize z.1.a = a at *
    generalize z.1.b = b at *
    by_cases h1 : a = .v i
    · by_cases h2 : b = .v i
      · subst h1 h2
        simp [m1, m2]
      · subst h1
        cases h3 : cT Xr b
        · cases h4 : cS Xl b <;> simp [m1, m2, h2] <;> ring
        · have h4 := hb h3
          simp [m1, m2, h2, h4]; ring
    · by_cases h2 : b = .v i
      · subst h2
        cases h3 : cT Xr a
        · cases h4 : cS Xl a <;> simp [m1, m2, h1] <;> ring
        · have h4 := ha h3
          simp [m1, m2, h1, h4]; ring
      · simp [h1, h2]

/-- **Contraction keeps the flow.** -/
theorem FInv.contract (hg : PGood E ε) {G : RNet} (h : RGood E j Xlc Xrc G)
    (hstrict : RStrict ε G.arcs) (hrr : Xrc ⊆ Xr) (hlr : Xr ⊆ Xl) (hll : Xl ⊆ Xlc) (hX : X = Xl ∨ X = Xr)
    {f : List ℚ} (hf : FInv y G.base lam G.arcs X f) :
    FInv y (newBase E (Finset.range (j + 2) \ insert j Xl) (insert j Xr)) lam
      (contractR ε j (Finset.range (j + 2) \ insert j Xl) (insert j Xr) G.arcs) X
      (contractFlow ε j (Finset.range (j + 2) \ insert j Xl) (insert j Xr) G.arcs f) := by
  have hlj := hll.trans h.range
  have hV : Xlc \ Xrc ⊆ Finset.range j := Finset.sdiff_subset.trans h.range
  obtain ⟨L, c1, c2, u, w, hLn, hLm, hc2, hform⟩ := contractR_form (ε := ε) h.inv hV hlr hlj
  obtain ⟨g1, g2, g3, g4⟩ := contractFlowAt_form h.inv hV hlr hlj f
  set S := Finset.range (j + 2) \ insert j Xl with hS
  set T := insert j Xr with hT
  set Z := G.arcs.zip f with hZ
  set g := contractFlowAt j S T G.arcs f with hgdef
  set nb := newBase E S T with hnb
  have hnn := fun p => fs_nonneg (p := p) hf.nonneg
  have hTX : ∀ x, cT Xr x = true → x.onSink X = true := by
    intro x hx
    cases x with
    | src => simp [cT] at hx
    | snk => rfl
    | v k =>
      have hk : k ∈ Xr := by simpa [cT] using hx
      rcases hX with rfl | rfl
      · simp [NV.onSink, hlr hk]
      · simp [NV.onSink, hk]
  have hSX : ∀ x, cS Xl x = true → x.onSink X = false := by
    intro x hx
    cases x with
    | src => rfl
    | snk => simp [cS] at hx
    | v k =>
      have hk : k ∉ Xl := by simpa [cS] using hx
      rcases hX with rfl | rfl
      · simp [NV.onSink, hk]
      · have : k ∉ X := fun h => hk (hlr h)
        simp [NV.onSink, this]
  have hts : fs Z (fun a b => cT Xr a && cS Xl b) = 0 := by
    apply fs_zero
    intro z hz hp
    simp only [Bool.and_eq_true] at hp
    exact hf.back z hz (hTX _ hp.1) (hSX _ hp.2)
  -- what is known about an arc of the new network
  have hinner : ∀ e ∈ (G.arcs.filter fun e => decide (¬ e.cap < ε) && cM Xl Xr e.a && cM Xl Xr e.b),
      ∃ z ∈ Z, z.1 = e ∧ g e = z.2 ∧ ∃ s t, e.a = .v s ∧ e.b = .v t := by
    intro e he
    obtain ⟨he1, he2⟩ := List.mem_filter.1 he
    simp only [Bool.and_eq_true] at he2
    obtain ⟨i, hi, hia⟩ := (cM_iff _).1 he2.1.2
    obtain ⟨k, hk, hkb⟩ := (cM_iff _).1 he2.2
    rw [← List.map_fst_zip (l₁ := G.arcs) (l₂ := f) (by rw [hf.length])] at he1
    obtain ⟨z, hz, rfl⟩ := List.mem_map.1 he1
    refine ⟨z, hz, rfl, ?_, i, k, hia, hkb⟩
    rw [g4 z.1 he2.1.2 he2.2]
    exact lastFlow_eq h.inv hg.simple hf.length hz hia hkb
  have hnodes : ∀ k, ∀ e ∈ nodeArcs ε Xl Xr G.arcs u w k,
      e = ⟨.src, .v k, u k⟩ ∨ (e = ⟨.v k, .src, backCap ε Xl G.arcs k⟩) ∨ e = ⟨.v k, .snk, w k⟩ ∨
        e = ⟨.snk, .v k, fromCap ε Xr G.arcs k⟩ := by
    intro k e he
    simp only [nodeArcs, List.mem_append, List.mem_singleton] at he
    rcases he with ((he | he) | he) | he
    · exact Or.inl he
    · split at he
      · exact Or.inr (Or.inl (by simpa using he))
      · simp at he
    · exact Or.inr (Or.inr (Or.inl he))
    · split at he
      · exact Or.inr (Or.inr (Or.inr (by simpa using he)))
      · simp at he
  have hbackcap : ∀ k, ∀ e ∈ G.arcs, (decide (e.a = .v k) && cS Xl e.b) = true → ε < e.cap := by
    intro k e he hp
    simp only [Bool.and_eq_true, decide_eq_true_eq] at hp
    refine hstrict e he k (Or.inl ⟨hp.1, ?_⟩)
    intro hb
    rw [hb] at hp
    simp [cS] at hp
  have hfromcap : ∀ k, k ∈ Xl \ Xr → ∀ e ∈ G.arcs, (cT Xr e.a && decide (e.b = .v k)) = true → ε < e.cap := by
    intro k hk e he hp
    simp only [Bool.and_eq_true, decide_eq_true_eq] at hp
    obtain ⟨a, b, c⟩ := e
    cases a with
    | src => simp [cT] at hp
    | snk => exact hstrict _ he k (Or.inr ⟨rfl, hp.2⟩)
    | v m => exact hstrict _ he m (Or.inl ⟨rfl, by rw [hp.2]; simp⟩)
  rw [show contractFlow ε j S T G.arcs f = (contractR ε j S T G.arcs).map g from rfl, hform]
  set I := G.arcs.filter fun e => decide (¬ e.cap < ε) && cM Xl Xr e.a && cM Xl Xr e.b with hI
  have hall : ∀ e ∈ I ++ [⟨.src, .snk, c1⟩, ⟨.snk, .src, c2⟩] ++ L.flatMap (nodeArcs ε Xl Xr G.arcs u w),
      0 ≤ g e ∧ (¬ (e.a = .src ∧ e.b = .snk) → g e ≤ (updateArc y lam nb e).cap) ∧
      (e.a.onSink X = true → e.b.onSink X = false → g e = 0) := by
    intro e he
    rcases List.mem_append.1 he with he | he
    · rcases List.mem_append.1 he with he | he
      · obtain ⟨z, hz, rfl, hge, s, t, ha, hb⟩ := hinner e he
        rw [hge]
        refine ⟨hf.nonneg z hz, ?_, hf.back z hz⟩
        intro hn
        have := hf.cap z hz hn
        obtain ⟨⟨a, b, c⟩, q⟩ := z
        dsimp only at ha hb
        subst ha hb
        exact this
      · simp only [List.mem_cons, List.not_mem_nil, or_false] at he
        rcases he with rfl | rfl
        · rw [g1, hts, sub_zero]
          exact ⟨hnn _, by simp, by simp [NV.onSink]⟩
        · rw [g2]
          exact ⟨le_rfl, fun _ => hc2, fun _ _ => rfl⟩
    · rw [List.mem_flatMap] at he
      obtain ⟨k, hk, he⟩ := he
      have hk := (hLm k).1 hk
      obtain ⟨g5, g6, g7, g8⟩ : _ ∧ _ ∧ _ ∧ _ := ⟨fun c => (g3 k hk c).1, fun c => (g3 k hk c).2.1,
        fun c => (g3 k hk c).2.2.1, fun c => (g3 k hk c).2.2.2⟩
      rcases hnodes k e he with rfl | rfl | rfl | rfl
      · rw [g5]
        refine ⟨hnn _, fun _ => ?_, by simp [NV.onSink]⟩
        have := fs_le (c := fun e => (updateArc y lam G.base e).cap)
          (p := fun a b => cS Xl a && decide (b = .v k)) hf.length (by
            intro z hz hp
            refine hf.cap z hz ?_
            rintro ⟨_, h2⟩
            simp [h2] at hp)
        rw [cap_source hg h hrr hlr hll hk] at this
        exact this
      · rw [g6]
        refine ⟨hnn _, fun _ => ?_, ?_⟩
        · have := fs_le (c := fun e => e.cap)
            (p := fun a b => decide (a = .v k) && cS Xl b) hf.length (by
              intro z hz hp
              simp only [Bool.and_eq_true, decide_eq_true_eq] at hp
              have h1 := hf.cap z hz (by rw [hp.1]; simp)
              obtain ⟨⟨a, b, c⟩, q⟩ := z
              dsimp only at hp
              obtain ⟨rfl, hp⟩ := hp
              cases b with
              | snk => simp [cS] at hp
              | _ => exact h1)
          rw [← arcSum_eq (p := fun a b => decide (a = .v k) && cS Xl b) (hbackcap k)] at this
          exact this
        · intro hk1 _
          apply fs_zero
          intro z hz hp
          simp only [Bool.and_eq_true, decide_eq_true_eq] at hp
          exact hf.back z hz (by rw [hp.1]; exact hk1) (hSX _ hp.2)
      · rw [g7]
        refine ⟨hnn _, fun _ => ?_, by simp [NV.onSink]⟩
        have := fs_le (c := fun e => (updateArc y lam G.base e).cap)
          (p := fun a b => decide (a = .v k) && cT Xr b) hf.length (by
            intro z hz hp
            refine hf.cap z hz ?_
            rintro ⟨h2, _⟩
            simp [h2] at hp)
        rw [cap_sink h hrr hlr hll hk] at this
        exact this
      · rw [g8]
        refine ⟨hnn _, fun _ => ?_, ?_⟩
        · have := fs_le (c := fun e => e.cap)
            (p := fun a b => cT Xr a && decide (b = .v k)) hf.length (by
              intro z hz hp
              simp only [Bool.and_eq_true, decide_eq_true_eq] at hp
              have h1 := hf.cap z hz (by rw [hp.2]; simp)
              obtain ⟨⟨a, b, c⟩, q⟩ := z
              dsimp only at hp
              obtain ⟨hp, rfl⟩ := hp
              cases a with
              | src => simp [cT] at hp
              | _ => exact h1)
          rw [← arcSum_eq (p := fun a b => cT Xr a && decide (b = .v k)) (hfromcap k hk)] at this
          exact this
        · intro _ hk1
          apply fs_zero
          intro z hz hp
          simp only [Bool.and_eq_true, decide_eq_true_eq] at hp
          exact hf.back z hz (hTX _ hp.1) (by rw [hp.2]; exact hk1)
  refine ⟨by simp, ?_, ?_, ?_, ?_⟩
  · rw [zip_map_self]
    intro z hz
    obtain ⟨e, he, rfl⟩ := List.mem_map.1 hz
    exact (hall e he).1
  · rw [zip_map_self]
    intro z hz
    obtain ⟨e, he, rfl⟩ := List.mem_map.1 hz
    exact (hall e he).2.1
  · intro i
    rw [zip_map_self, List.map_append, List.map_append, exc_append, exc_append, List.map_flatMap]
    have hIx : exc (I.map fun e => (e, g e)) (.v i) =
        fs Z (fun a b => cM Xl Xr a && cM Xl Xr b && decide (b = .v i)) -
          fs Z (fun a b => cM Xl Xr a && cM Xl Xr b && decide (a = .v i)) := by
      rw [← sum_inner h.inv hg.simple hstrict hf.length fun _ b => decide (b = .v i),
        ← sum_inner h.inv hg.simple hstrict hf.length fun a _ => decide (a = .v i), ← hI, eq_sub_iff_add_eq]
      unfold exc
      rw [List.map_map, ← List.sum_map_add]
      congr 1
      apply List.map_congr_left
      intro e he
      have he2 := (List.mem_filter.1 he).2
      simp only [Bool.and_eq_true] at he2
      simp only [Function.comp, g4 e he2.1.2 he2.2, decide_eq_true_eq]
      ring
    have hst : exc ([(⟨.src, .snk, c1⟩ : NArc), ⟨.snk, .src, c2⟩].map fun e => (e, g e)) (.v i) = 0 := by
      simp [exc]
    have hne : ∀ k, k ≠ i → exc ((nodeArcs ε Xl Xr G.arcs u w k).map fun e => (e, g e)) (.v i) = 0 := by
      intro k hk
      apply List.sum_eq_zero
      intro q hq
      rw [List.map_map] at hq
      obtain ⟨e, he, rfl⟩ := List.mem_map.1 hq
      rcases hnodes k e he with rfl | rfl | rfl | rfl <;> simp [hk]
    rw [hIx, hst, add_zero, exc_flat hLn _ fun k _ hk => hne k hk]
    by_cases hiL : i ∈ L
    · have hi := (hLm i).1 hiL
      rw [if_pos hiL]
      obtain ⟨g5, g6, g7, g8⟩ : _ ∧ _ ∧ _ ∧ _ := ⟨fun c => (g3 i hi c).1, fun c => (g3 i hi c).2.1,
        fun c => (g3 i hi c).2.2.1, fun c => (g3 i hi c).2.2.2⟩
      have hB : exc ((if ε < backCap ε Xl G.arcs i then
          [(⟨.v i, .src, backCap ε Xl G.arcs i⟩ : NArc)] else []).map fun e => (e, g e)) (.v i) =
          - fs Z (fun a b => decide (a = .v i) && cS Xl b) := by
        split
        · simp [exc, g6]
        · rename_i hb
          rw [fs_zero]
          · simp [exc]
          · intro z hz hp
            have := arcSum_small h.inv.nonneg (hbackcap i) hb z.1 (List.of_mem_zip hz).1
            rw [this] at hp
            simp at hp
      have hF : exc ((if ε < fromCap ε Xr G.arcs i then
          [(⟨.snk, .v i, fromCap ε Xr G.arcs i⟩ : NArc)] else []).map fun e => (e, g e)) (.v i) =
          fs Z (fun a b => cT Xr a && decide (b = .v i)) := by
        split
        · simp [exc, g8]
        · rename_i hb
          rw [fs_zero]
          · simp [exc]
          · intro z hz hp
            have := arcSum_small h.inv.nonneg (hfromcap i hi) hb z.1 (List.of_mem_zip hz).1
            rw [this] at hp
            simp at hp
      have hA : exc ([(⟨.src, .v i, u i⟩ : NArc)].map fun e => (e, g e)) (.v i) =
          fs Z (fun a b => cS Xl a && decide (b = .v i)) := by simp [exc, g5]
      have hC : exc ([(⟨.v i, .snk, w i⟩ : NArc)].map fun e => (e, g e)) (.v i) =
          - fs Z (fun a b => decide (a = .v i) && cT Xr b) := by simp [exc, g7]
      rw [nodeArcs, List.map_append, List.map_append, List.map_append, exc_append, exc_append, exc_append,
        hA, hB, hC, hF]
      have := exc_split hlr hi Z
      rw [hf.conserve i] at this
      linarith
    · rw [if_neg hiL, add_zero, fs_zero, fs_zero, sub_zero]
      · intro z _ hp
        simp only [Bool.and_eq_true, decide_eq_true_eq] at hp
        obtain ⟨k, hk, hka⟩ := (cM_iff _).1 hp.1.1
        rw [hp.2] at hka
        cases hka
        exact absurd ((hLm i).2 hk) hiL
      · intro z _ hp
        simp only [Bool.and_eq_true, decide_eq_true_eq] at hp
        obtain ⟨k, hk, hka⟩ := (cM_iff _).1 hp.1.2
        rw [hp.2] at hka
        cases hka
        exact absurd ((hLm i).2 hk) hiL
  · rw [zip_map_self]
    intro z hz
    obtain ⟨e, he, rfl⟩ := List.mem_map.1 hz
    exact (hall e he).2.2

end PSP.Theory
