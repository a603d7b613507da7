import Verif.Theory.DilworthRun
import Verif.Theory.Lambda

/-!
# The networks of `PMF`: cut capacities and the warm start
-/

namespace PSP.Theory

open PSP.Spec PSP.Model

variable {E : List Arc} {ε : ℚ} {j : ℕ} {y : ℕ → YPair} {lam : ℚ} {X : Finset ℕ}

/-- Hypotheses on the graph used for `PMF`: arcs go from low to high ids, there are no parallel arcs,
and capacities are at least the tolerance. -/
structure PGood (E : List Arc) (ε : ℚ) : Prop where
  lowHigh : ∀ e ∈ E, e.src < e.dst
  simple : SimpleE E
  pos : 0 < ε
  cap : ∀ e ∈ E, ε ≤ e.cap

theorem PGood.nonneg (h : PGood E ε) : NonnegE E := fun e he => h.pos.le.trans (h.cap e he)

/-- Is there an arc from `i` to `j`? -/
def hasArc (E : List Arc) (j i : ℕ) : Prop := ∃ a ∈ E, a.dst = j ∧ a.src = i

theorem simple_unique (hs : SimpleE E) {a b : Arc} (ha : a ∈ E) (hb : b ∈ E) (h1 : a.src = b.src)
    (h2 : a.dst = b.dst) : a = b := by
  induction E with
  | nil => simp at ha
  | cons c E ih =>
    obtain ⟨hc, hs⟩ := List.pairwise_cons.1 hs
    rcases List.mem_cons.1 ha with rfl | ha' <;> rcases List.mem_cons.1 hb with rfl | hb'
    · rfl
    · exact absurd ⟨h1, h2⟩ (hc b hb')
    · exact absurd ⟨h1.symm, h2.symm⟩ (hc a ha')
    · exact ih hs ha' hb'

theorem sinkCapacity_eq (hs : SimpleE E) {a : Arc} (ha : a ∈ E) (hd : a.dst = j) (hsj : a.src ≤ j) :
    sinkCapacity E j a.src = a.cap := by
  unfold sinkCapacity
  have hsome : ∃ b, E.find? (fun b => decide (b.dst = j ∧ b.src = a.src ∧ a.src ≤ j)) = some b := by
    rw [← Option.isSome_iff_exists, List.find?_isSome]
    exact ⟨a, ha, by simp [hd, hsj]⟩
  obtain ⟨b, hb⟩ := hsome
  rw [hb]
  have hbm := List.mem_of_find?_eq_some hb
  have hbp := List.find?_some hb
  simp only [decide_eq_true_eq] at hbp
  have : b = a := simple_unique hs hbm ha hbp.2.1 (hbp.1.trans hd.symm)
  rw [this]

theorem sinkCapacity_lt (hg : PGood E ε) {i : ℕ} (hi : i < j) :
    sinkCapacity E j i < ε ↔ ¬ hasArc E j i := by
  constructor
  · rintro h ⟨a, ha, hd, rfl⟩
    rw [sinkCapacity_eq hg.simple ha hd hi.le] at h
    exact absurd (hg.cap a ha) (not_le.2 h)
  · intro h
    unfold sinkCapacity
    split
    · rename_i a ha
      have h1 := List.mem_of_find?_eq_some ha
      have h2 := List.find?_some ha
      simp only [decide_eq_true_eq] at h2
      exact absurd ⟨a, h1, h2.1, h2.2.1⟩ h
    · exact hg.pos

theorem sinkCapacity_zero {i : ℕ} (h : ¬ hasArc E j i) : sinkCapacity E j i = 0 := by
  unfold sinkCapacity
  split
  · rename_i a ha
    have h1 := List.mem_of_find?_eq_some ha
    have h2 := List.find?_some ha
    simp only [decide_eq_true_eq] at h2
    exact absurd ⟨a, h1, h2.1, h2.2.1⟩ h
  · rfl

theorem sinkCapacity_nonneg (hE : NonnegE E) (i : ℕ) : 0 ≤ sinkCapacity E j i := by
  unfold sinkCapacity
  split
  · rename_i a ha
    exact hE a (List.mem_of_find?_eq_some ha)
  · exact le_rfl

open Classical in
/-- Summing over the arcs into `j` is summing over the nodes that have one. -/
theorem sum_into (hs : SimpleE E) (hl : ∀ e ∈ E, e.src < e.dst) (w : ℕ → ℚ) :
    (E.map fun a => if a.dst = j then w a.src else 0).sum =
      ((List.range j).map fun i => if hasArc E j i then w i else 0).sum := by
  induction E with
  | nil => simp [hasArc]
  | cons a E ih =>
    have hs' : SimpleE E := (List.pairwise_cons.1 hs).2
    have ih := ih hs' fun e he => hl e (List.mem_cons_of_mem _ he)
    simp only [List.map_cons, List.sum_cons]
    rw [ih]
    by_cases hd : a.dst = j
    · have hno : ¬ hasArc E j a.src := by
        rintro ⟨b, hb, hb1, hb2⟩
        exact (List.pairwise_cons.1 hs).1 b hb ⟨hb2.symm, hd.trans hb1.symm⟩
      have hlt : a.src < j := hd ▸ hl a List.mem_cons_self
      rw [if_pos hd]
      have h1 : w a.src = ((List.range j).map fun i => if i = a.src then w i else 0).sum := by
        rw [list_sum_toFinset List.nodup_range, Finset.sum_ite_eq' ]
        simp [hlt]
      rw [h1, ← List.sum_map_add]
      congr 1
      apply List.map_congr_left
      intro i _
      by_cases hi : i = a.src
      · subst hi
        have : hasArc (a :: E) j a.src := ⟨a, List.mem_cons_self, hd, rfl⟩
        simp [hno, this]
      · have : hasArc (a :: E) j i ↔ hasArc E j i := by
          unfold hasArc
          constructor
          · rintro ⟨b, hb, h⟩
            rcases List.mem_cons.1 hb with rfl | hb
            · exact absurd h.2.symm hi
            · exact ⟨b, hb, h⟩
          · rintro ⟨b, hb, h⟩
            exact ⟨b, List.mem_cons_of_mem _ hb, h⟩
        simp [hi, this]
    · rw [if_neg hd, zero_add]
      congr 1
      apply List.map_congr_left
      intro i _
      have : hasArc (a :: E) j i ↔ hasArc E j i := by
        unfold hasArc
        constructor
        · rintro ⟨b, hb, h⟩
          rcases List.mem_cons.1 hb with rfl | hb
          · exact absurd h.1 hd
          · exact ⟨b, hb, h⟩
        · rintro ⟨b, hb, h⟩
          exact ⟨b, List.mem_cons_of_mem _ hb, h⟩
      simp [this]

/-- The in-cut of `X ∪ {j}` splits into the arcs into `X` and the arcs into `j`. -/
theorem cutValue_insert (hl : ∀ e ∈ E, e.src < e.dst) (hX : X ⊆ Finset.range j) :
    getCutValue E (insert j X) =
      (E.map fun a => if a.src ∉ X ∧ a.dst ∈ X then a.cap else 0).sum +
      (E.map fun a => if a.dst = j ∧ a.src ∉ X then a.cap else 0).sum := by
  unfold getCutValue
  apply list_sum_ite_add
  intro a ha
  have hlt := hl a ha
  have hjX : j ∉ X := fun h => by simpa using hX h
  by_cases hd : a.dst = j
  · have hne : a.src ≠ j := by omega
    by_cases h1 : a.src ∈ X
    · simp [h1]
    · simp [hd, h1, hne, hjX]
  · by_cases h2 : a.dst ∈ X
    · have hne : a.src ≠ j := by
        have := Finset.mem_range.1 (hX h2); omega
      simp [hd, h2, hne]
    · simp [hd, h2]

/-- Value of `y` at `lam`, as a vector. -/
def yAt (y : ℕ → YPair) (lam : ℚ) (i : ℕ) : ℚ := yVal lam (y i)

open Classical in
/-- The capacity of a cut of the network is the quantity to be minimised, up to a constant. -/
theorem pmfNet_cutCap (hg : PGood E ε) (hX : X ⊆ Finset.range j) :
    (pmfNet ε E j y lam).cutCap X = getCutValue E (insert j X) - vsum (yAt y lam) X +
      ((List.range j).map fun i => max 0 (yAt y lam i)).sum := by
  have hE := hg.nonneg
  unfold Net.cutCap pmfNet pmfArcs
  simp only [List.map_append, List.sum_append, List.map_map]
  -- sources
  have h2 : ((List.range j).map ((fun e : NArc =>
        if e.a.onSink X = false ∧ e.b.onSink X = true then e.cap else 0) ∘ pmfArc E j y lam ∘
        PArc.source)).sum =
      ((List.range j).map fun i => if i ∈ X then max 0 (yAt y lam i) - yAt y lam i else 0).sum := by
    congr 1
    apply List.map_congr_left
    intro i _
    simp only [Function.comp, pmfArc, NV.onSink, yAt]
    by_cases hi : i ∈ X <;> simp [hi, max_neg_eq]
  -- new sink arcs
  have h3 : (((List.range j).filter fun i => decide (sinkCapacity E j i < ε)).map ((fun e : NArc =>
        if e.a.onSink X = false ∧ e.b.onSink X = true then e.cap else 0) ∘ pmfArc E j y lam ∘
        PArc.sink)).sum =
      ((List.range j).map fun i => if hasArc E j i then 0 else
        if i ∈ X then 0 else max 0 (yAt y lam i)).sum := by
    rw [sum_filter_map]
    congr 1
    apply List.map_congr_left
    intro i hi
    have hi := List.mem_range.1 hi
    have hlt := sinkCapacity_lt hg hi
    by_cases ha : hasArc E j i
    · have : ¬ sinkCapacity E j i < ε := fun h => (hlt.1 h) ha
      simp [this, ha]
    · have : sinkCapacity E j i < ε := hlt.2 ha
      rw [if_pos (by simpa using this)]
      simp only [Function.comp, pmfArc, ha, if_false, pmfNode, hi.ne, NV.onSink, yAt,
        sinkCapacity_zero ha]
      by_cases hiX : i ∈ X <;> simp [hiX]
  -- arcs of the graph
  have h1 : ((E.filter fun a => decide (a.src ≤ j ∧ a.dst ≤ j)).map ((fun e : NArc =>
        if e.a.onSink X = false ∧ e.b.onSink X = true then e.cap else 0) ∘ pmfArc E j y lam ∘
        fun a => if a.dst = j then PArc.sink a.src
          else PArc.inner (pmfNode j a.src) (pmfNode j a.dst) a.cap)).sum =
      ((E.map fun a => if a.src ∉ X ∧ a.dst ∈ X then a.cap else 0).sum +
      (E.map fun a => if a.dst = j ∧ a.src ∉ X then a.cap else 0).sum) +
      (E.map fun a => if a.dst = j then (if a.src ∈ X then 0 else max 0 (yAt y lam a.src))
        else 0).sum := by
    rw [sum_filter_map, ← List.sum_map_add, ← List.sum_map_add]
    congr 1
    apply List.map_congr_left
    intro a ha
    have hlt := hg.lowHigh a ha
    have hjX : j ∉ X := fun h => by simpa using hX h
    by_cases hd : a.dst = j
    · have hs : a.src < j := by omega
      have hsne : a.src ≠ j := by omega
      have hc := sinkCapacity_eq hg.simple ha hd hs.le
      have hd' : a.dst ≤ j := by omega
      rw [if_pos (by simp [hs.le, hd'])]
      simp only [Function.comp, hd, if_true, pmfArc, pmfNode, hsne,
        if_false, NV.onSink, hc, yAt, hjX, and_false, true_and]
      by_cases h : a.src ∈ X <;> simp [h]
    · by_cases h2 : a.dst ∈ X
      · have hdj := Finset.mem_range.1 (hX h2)
        have hs : a.src ≤ j := by omega
        have hsne : a.src ≠ j := by omega
        have hd' : a.dst ≤ j := by omega
        simp only [hs, hd', and_self, decide_true, if_true, Function.comp, hd, if_false, pmfArc,
          pmfNode, hsne, NV.onSink, h2]
        by_cases h : a.src ∈ X <;> simp [h]
      · by_cases hcond : a.src ≤ j ∧ a.dst ≤ j
        · simp [hcond, hd, pmfArc, pmfNode, NV.onSink, h2]
        · simp [hcond, hd, h2]
  rw [h1, h2, h3, ← cutValue_insert hg.lowHigh hX,
    sum_into hg.simple hg.lowHigh fun i => if i ∈ X then 0 else max 0 (yAt y lam i)]
  have hA : vsum (yAt y lam) X = ((List.range j).map fun i => if i ∈ X then yAt y lam i else 0).sum := by
    rw [list_sum_toFinset List.nodup_range, ← Finset.sum_filter]
    unfold vsum
    congr 1
    ext v
    simp only [Finset.mem_filter, List.mem_toFinset, List.mem_range]
    exact ⟨fun h => ⟨Finset.mem_range.1 (hX h), h⟩, fun h => h.2⟩
  rw [hA]
  have : ((List.range j).map fun i => max 0 (yAt y lam i)).sum =
      ((List.range j).map fun i => if hasArc E j i then
        (if i ∈ X then 0 else max 0 (yAt y lam i)) else 0).sum +
      ((List.range j).map fun i => if i ∈ X then max 0 (yAt y lam i) - yAt y lam i else 0).sum +
      ((List.range j).map fun i => if hasArc E j i then 0 else
        if i ∈ X then 0 else max 0 (yAt y lam i)).sum +
      ((List.range j).map fun i => if i ∈ X then yAt y lam i else 0).sum := by
    rw [← List.sum_map_add, ← List.sum_map_add, ← List.sum_map_add]
    congr 1
    apply List.map_congr_left
    intro i _
    by_cases h1 : hasArc E j i <;> by_cases h2 : i ∈ X <;> simp [h1, h2]
  rw [this]
  ring

/-! ### shape of the arcs, nonnegativity, preflows -/

/-- What the arcs look like. -/
def PArc.Ok (j : ℕ) : PArc → Prop
  | .inner s _ c => s ≠ NV.snk ∧ 0 ≤ c
  | .sink i => i < j
  | .source i => i < j

theorem pmfArcs_ok (hg : PGood E ε) : ∀ p ∈ pmfArcs ε E j, PArc.Ok j p := by
  intro p hp
  unfold pmfArcs at hp
  rcases List.mem_append.1 hp with hp | hp
  · rcases List.mem_append.1 hp with hp | hp
    · rw [List.mem_map] at hp
      obtain ⟨a, ha, rfl⟩ := hp
      rw [List.mem_filter] at ha
      have hlt := hg.lowHigh a ha.1
      have hle : a.src ≤ j ∧ a.dst ≤ j := by simpa using ha.2
      split
      · unfold PArc.Ok; omega
      · refine ⟨?_, hg.nonneg a ha.1⟩
        unfold pmfNode
        rw [if_neg (by omega)]
        simp
    · rw [List.mem_map] at hp
      obtain ⟨i, hi, rfl⟩ := hp
      exact List.mem_range.1 hi
  · rw [List.mem_map] at hp
    obtain ⟨i, hi, rfl⟩ := hp
    exact List.mem_range.1 (List.mem_filter.1 hi).1

theorem pmfArc_nonneg (hE : NonnegE E) {p : PArc} (hp : PArc.Ok j p) :
    0 ≤ (pmfArc E j y lam p).cap := by
  cases p with
  | inner s t c => exact hp.2
  | sink i => exact add_nonneg (sinkCapacity_nonneg hE i) (le_max_left _ _)
  | source i =>
    simp only [pmfArc]
    split <;> linarith

theorem pmfNet_nonneg (hg : PGood E ε) : (pmfNet ε E j y lam).Nonneg := by
  intro e he
  unfold pmfNet at he
  simp only [List.mem_map] at he
  obtain ⟨p, hp, rfl⟩ := he
  exact pmfArc_nonneg hg.nonneg (pmfArcs_ok hg p hp)

/-- **The warm start.** A preflow of the network at `l` becomes, by `modify_flow`, a preflow of the
network at a larger parameter `m`. -/
theorem modifyFlow_preflow (hg : PGood E ε) {l m : ℚ} (hlm : l ≤ m) {f : List ℚ}
    (hf : IsPreflow (pmfNet ε E j y l) f) :
    IsPreflow (pmfNet ε E j y m) (modifyFlow E j y m (pmfArcs ε E j) f) := by
  have hok := pmfArcs_ok (j := j) hg
  have hE := hg.nonneg
  obtain ⟨hlen, hb, hex⟩ := hf
  simp only [pmfNet, List.length_map] at hlen
  unfold modifyFlow
  have hb' : ∀ e ∈ (pmfArcs ε E j).zip f, 0 ≤ e.2 ∧ e.2 ≤ (pmfArc E j y l e.1).cap := by
    intro e he
    have := hb (pmfArc E j y l e.1, e.2) (by
      simp only [pmfNet]
      rw [List.zip_map_left]
      exact List.mem_map.2 ⟨e, he, rfl⟩)
    exact this
  have hokz : ∀ e ∈ (pmfArcs ε E j).zip f, PArc.Ok j e.1 := fun e he => hok _ (List.of_mem_zip he).1
  have hzip : ∀ L : List (PArc × ℚ), ∀ w : PArc × ℚ → ℚ, ∀ g : PArc → NArc,
      ((L.map Prod.fst).map g).zip (L.map w) = L.map fun e => (g e.1, w e) := by
    intro L w g
    induction L with
    | nil => rfl
    | cons e L ih => simp only [List.map_cons, List.zip_cons_cons, ih]
  have hfst : ((pmfArcs ε E j).zip f).map Prod.fst = pmfArcs ε E j := by
    rw [List.map_fst_zip]; omega
  have hsnd : ((pmfArcs ε E j).zip f).map Prod.snd = f := by
    rw [List.map_snd_zip]; omega
  set L := (pmfArcs ε E j).zip f with hL
  refine ⟨?_, ?_, ?_⟩
  · simp only [pmfNet, List.length_map, hL, List.length_zip]; omega
  · intro e he
    simp only [pmfNet] at he
    rw [← hfst, hzip, List.mem_map] at he
    obtain ⟨⟨p, q⟩, hm, rfl⟩ := he
    have h1 := hb' _ hm
    have h2 := hokz _ hm
    cases p with
    | inner s t c => exact h1
    | sink i =>
      dsimp only
      have h3 := pmfArc_nonneg (y := y) (lam := m) hE h2
      split
      · exact ⟨h3, le_rfl⟩
      · rename_i h; exact ⟨h1.1, not_lt.1 h⟩
    | source i => exact ⟨pmfArc_nonneg hE h2, le_rfl⟩
  · intro x hx
    have hold := hex x hx
    unfold Model.excess at hold ⊢
    simp only [pmfNet] at hold ⊢
    rw [← hfst, hzip, List.map_map]
    have hold' : (((pmfArcs ε E j).map (pmfArc E j y l)).zip f) =
        L.map fun e => (pmfArc E j y l e.1, e.2) := by
      conv_lhs => rw [← hfst, ← hsnd]
      exact hzip L Prod.snd _
    rw [hold', List.map_map] at hold
    have hcapmono : ∀ i, (pmfArc E j y l (.source i)).cap ≤ (pmfArc E j y m (.source i)).cap := by
      intro i
      simp only [pmfArc]
      have := yVal_anti hlm (y i)
      split <;> split <;> linarith
    by_cases hxs : x = NV.snk
    · subst hxs
      apply List.sum_nonneg
      intro z hz
      rw [List.mem_map] at hz
      obtain ⟨⟨p, q⟩, hm, rfl⟩ := hz
      have h1 := hb' _ hm
      have h2 := hokz _ hm
      cases p with
      | inner s t c =>
        have hs : s ≠ NV.snk := h2.1
        simp only [Function.comp, pmfArc, hs, if_false, sub_zero]
        by_cases hc : t = NV.snk
        · simp only [hc, if_true]; exact h1.1
        · simp only [hc, if_false]; exact le_rfl
      | sink i =>
        have hi : i < j := h2
        have h3 := pmfArc_nonneg (y := y) (lam := m) hE h2
        simp only [Function.comp, pmfArc, pmfNode, hi.ne, if_false, if_true] at h3 ⊢
        simp only [reduceCtorEq, if_false, sub_zero]
        split
        · exact h3
        · exact h1.1
      | source i =>
        simp [Function.comp, pmfArc]
    · refine hold.trans ?_
      have : ∀ M : List (PArc × ℚ), (∀ e ∈ M, e ∈ L) →
        (M.map ((fun e : NArc × ℚ => (if e.1.b = x then e.2 else 0) - if e.1.a = x then e.2 else 0) ∘
          fun e => (pmfArc E j y l e.1, e.2))).sum ≤
        (M.map ((fun e : NArc × ℚ => (if e.1.b = x then e.2 else 0) - if e.1.a = x then e.2 else 0) ∘
          fun e => (pmfArc E j y m e.1, match e.1 with
            | .inner _ _ _ => e.2
            | .sink i => if (pmfArc E j y m (.sink i)).cap < e.2 then (pmfArc E j y m (.sink i)).cap
                else e.2
            | .source i => (pmfArc E j y m (.source i)).cap))).sum := by
        intro M hM
        induction M with
        | nil => simp
        | cons e M ih =>
          simp only [List.map_cons, List.sum_cons]
          refine add_le_add ?_ (ih fun e he => hM e (List.mem_cons_of_mem _ he))
          have hm := hM e List.mem_cons_self
          obtain ⟨p, q⟩ := e
          have h1 := hb' _ hm
          have h2 := hokz _ hm
          cases p with
          | inner s t c => exact le_rfl
          | sink i =>
            have hxs' : ¬ NV.snk = x := fun h => hxs h.symm
            simp only [Function.comp, pmfArc, hxs', if_false]
            by_cases hc : pmfNode j i = x
            · simp only [hc, if_true]
              by_cases hq : sinkCapacity E j i + max 0 (yVal m (y i)) < q
              · simp only [hq, if_true]; linarith
              · simp only [hq, if_false]; exact le_rfl
            · simp only [hc, if_false]
              exact le_rfl
          | source i =>
            have hx' : ¬ NV.src = x := fun h => hx h.symm
            have h3 := hcapmono i
            have h4 := h1.2
            simp only [Function.comp, pmfArc, hx', if_false] at h3 h4 ⊢
            by_cases hc : NV.v i = x
            · simp only [hc, if_true]
              linarith
            · simp only [hc, if_false]
              exact le_rfl
      exact this L fun e he => he

end PSP.Theory
