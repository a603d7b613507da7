import Verif.Theory.FlowNet
import Verif.Theory.PMFRRun

/-!
# Contraction of flows
-/

namespace PSP.Theory

open PSP.Spec PSP.Model

variable {E : List Arc} {ε : ℚ} {j : ℕ} {y : ℕ → YPair} {lam : ℚ} {X V Xl Xr Xlc Xrc : Finset ℕ}
  {arcs : List NArc} {base : ℕ → ℚ × ℚ}

/-- Is the node contracted into the source? -/
def cS (Xl : Finset ℕ) : NV → Bool
  | .src => true
  | .snk => false
  | .v k => decide (k ∉ Xl)

/-- Is the node contracted into the sink? -/
def cT (Xr : Finset ℕ) : NV → Bool
  | .src => false
  | .snk => true
  | .v k => decide (k ∈ Xr)

/-- Is the node kept? -/
def cM (Xl Xr : Finset ℕ) (x : NV) : Bool := !cS Xl x && !cT Xr x

theorem cT_not_cS (h : Xr ⊆ Xl) {x : NV} (hx : cT Xr x = true) : cS Xl x = false := by
  cases x with
  | src => simp [cT] at hx
  | snk => rfl
  | v k =>
    have : k ∈ Xr := by simpa [cT] using hx
    simp [cS, h this]

theorem cM_iff (x : NV) : cM Xl Xr x = true ↔ ∃ i ∈ Xl \ Xr, x = .v i := by
  cases x with
  | src => simp [cM, cS]
  | snk => simp [cM, cT]
  | v k => simp [cM, cS, cT]

theorem inS_eq (hlj : Xl ⊆ Finset.range j) {x : NV} (hx : ∀ i, x = .v i → i < j) :
    decide (nvId j x ∈ Finset.range (j + 2) \ insert j Xl) = cS Xl x := by
  rw [Bool.eq_iff_iff, decide_eq_true_eq, mem_S]
  cases x with
  | src =>
    simp only [nvId, cS, iff_true]
    refine ⟨by omega, by omega, fun h => ?_⟩
    have := Finset.mem_range.1 (hlj h)
    omega
  | snk => simp [nvId, cS]
  | v k =>
    have := hx k rfl
    simp only [nvId, cS, decide_eq_true_eq]
    exact ⟨fun h => h.2.2, fun h => ⟨by omega, by omega, h⟩⟩

theorem inT_eq (hrj : Xr ⊆ Finset.range j) {x : NV} (hx : ∀ i, x = .v i → i < j) :
    decide (nvId j x ∈ insert j Xr) = cT Xr x := by
  rw [Bool.eq_iff_iff, decide_eq_true_eq, Finset.mem_insert]
  cases x with
  | src =>
    simp only [nvId, cT, Bool.false_eq_true, iff_false, not_or]
    refine ⟨by omega, fun h => ?_⟩
    have := Finset.mem_range.1 (hrj h)
    omega
  | snk => simp [nvId, cT]
  | v k =>
    have := hx k rfl
    simp only [nvId, cT, decide_eq_true_eq]
    exact ⟨fun h => h.resolve_left (by omega), Or.inr⟩

theorem nvId_eq {i : ℕ} (hi : i < j) (x : NV) : nvId j x = i ↔ x = .v i := by
  cases x <;> simp [nvId] <;> omega

/-- Capacity of the arcs from `i` into the source. -/
def backCap (ε : ℚ) (Xl : Finset ℕ) (old : List NArc) (i : ℕ) : ℚ :=
  arcSum ε old fun e => decide (e.a = .v i) && cS Xl e.b

/-- Capacity of the arcs from the sink to `i`. -/
def fromCap (ε : ℚ) (Xr : Finset ℕ) (old : List NArc) (i : ℕ) : ℚ :=
  arcSum ε old fun e => cT Xr e.a && decide (e.b = .v i)

theorem arcSum_congr {p q : NArc → Bool} (h : ∀ e ∈ arcs, p e = q e) : arcSum ε arcs p = arcSum ε arcs q := by
  unfold arcSum
  congr 1
  apply List.map_congr_left
  intro e he
  rw [h e he]

/-- The arcs added for a kept node. -/
def nodeArcs (ε : ℚ) (Xl Xr : Finset ℕ) (old : List NArc) (u w : ℕ → ℚ) (i : ℕ) : List NArc :=
  [⟨.src, .v i, u i⟩] ++ (if ε < backCap ε Xl old i then [⟨.v i, .src, backCap ε Xl old i⟩] else []) ++
    [⟨.v i, .snk, w i⟩] ++ (if ε < fromCap ε Xr old i then [⟨.snk, .v i, fromCap ε Xr old i⟩] else [])

/-- The arcs made by `contract`. -/
theorem contractR_form (h : RInv E V arcs) (hV : V ⊆ Finset.range j)
    (hlr : Xr ⊆ Xl) (hlj : Xl ⊆ Finset.range j) :
    ∃ (L : List ℕ) (c1 c2 : ℚ) (u w : ℕ → ℚ), L.Nodup ∧ (∀ i, i ∈ L ↔ i ∈ Xl \ Xr) ∧
      0 ≤ c2 ∧ contractR ε j (Finset.range (j + 2) \ insert j Xl) (insert j Xr) arcs =
        (arcs.filter fun e => decide (¬ e.cap < ε) && cM Xl Xr e.a && cM Xl Xr e.b) ++
        [⟨.src, .snk, c1⟩, ⟨.snk, .src, c2⟩] ++ L.flatMap (nodeArcs ε Xl Xr arcs u w) := by
  have ha : ∀ e ∈ arcs, ∀ i, e.a = .v i → i < j := fun e he i hi => Finset.mem_range.1 (hV (h.left e he i hi))
  have hb : ∀ e ∈ arcs, ∀ i, e.b = .v i → i < j := fun e he i hi => Finset.mem_range.1 (hV (h.right e he i hi))
  have hrj := hlr.trans hlj
  have h1 := fun e he => inS_eq (x := e.a) hlj (ha e he)
  have h2 := fun e he => inT_eq (x := e.a) hrj (ha e he)
  have h3 := fun e he => inS_eq (x := e.b) hlj (hb e he)
  have h4 := fun e he => inT_eq (x := e.b) hrj (hb e he)
  unfold contractR contractRWith
  dsimp only
  set S := Finset.range (j + 2) \ insert j Xl with hS
  set T := insert j Xr with hT
  refine ⟨(List.range (j + 2)).filter fun i => decide (i ≠ j ∧ i ≠ j + 1 ∧ i ∉ S ∧ i ∉ T),
    arcSum ε arcs fun e => decide (nvId j e.a ∈ S) && decide (nvId j e.b ∈ T),
    arcSum ε arcs fun e => !decide (nvId j e.a ∈ S) && decide (nvId j e.a ∈ T) && decide (nvId j e.b ∈ S),
    fun i => arcSum ε arcs fun e => decide (nvId j e.a ∈ S) && !decide (nvId j e.b ∈ T) &&
      !decide (nvId j e.b ∈ S) && decide (nvId j e.b = i),
    fun i => arcSum ε arcs fun e => !decide (nvId j e.a ∈ S) && !decide (nvId j e.a ∈ T) &&
      !decide (nvId j e.b ∈ S) && decide (nvId j e.b ∈ T) && decide (nvId j e.a = i),
    List.nodup_range.filter _, ?_, arcSum_nonneg h.nonneg _, ?_⟩
  · intro i
    rw [List.mem_filter, List.mem_range]
    simp only [decide_eq_true_eq]
    have e1 : ∀ hi : i < j, (i ∉ S ↔ i ∈ Xl) ∧ (i ∉ T ↔ i ∉ Xr) := by
      intro hi
      rw [hS, mem_S, hT, Finset.mem_insert]
      constructor
      · constructor
        · intro h; by_contra hn; exact h ⟨by omega, by omega, hn⟩
        · intro h h'; exact h'.2.2 h
      · constructor
        · intro h h'; exact h (Or.inr h')
        · rintro h (h' | h')
          · omega
          · exact h h'
    constructor
    · rintro ⟨h1, h2, h3, h4⟩
      have e1 := e1 (by omega)
      exact Finset.mem_sdiff.2 ⟨e1.1.1 h4.1, e1.2.1 h4.2⟩
    · intro hi
      have hi' := Finset.mem_sdiff.1 hi
      have hij := Finset.mem_range.1 (hlj hi'.1)
      have e1 := e1 hij
      exact ⟨by omega, by omega, by omega, e1.1.2 hi'.1, e1.2.2 hi'.2⟩
  · congr 1
    · congr 1
      apply List.filter_congr
      intro e he
      rw [Bool.eq_iff_iff]
      simp only [cM, ← h1 e he, ← h2 e he, ← h3 e he, ← h4 e he, decide_eq_true_eq, Bool.and_eq_true,
        Bool.not_eq_true', and_assoc]
    · apply List.flatMap_congr
      intro i hi
      have hi' : i ≠ j ∧ i ≠ j + 1 ∧ i ∉ S ∧ i ∉ T ∧ i < j + 2 := by
        rw [List.mem_filter, List.mem_range] at hi
        have := hi.2
        simp only [decide_eq_true_eq] at this
        exact ⟨this.1, this.2.1, this.2.2.1, this.2.2.2, hi.1⟩
      have hij : i < j := by omega
      have e2 := inS_eq (x := .v i) hlj (by intro k hk; cases hk; exact hij)
      have e3 := inT_eq (x := .v i) hrj (by intro k hk; cases hk; exact hij)
      have e2' : cS Xl (.v i) = false := by rw [← e2, decide_eq_false_iff_not]; exact hi'.2.2.1
      have e3' : cT Xr (.v i) = false := by rw [← e3, decide_eq_false_iff_not]; exact hi'.2.2.2.1
      have hback : (arcSum ε arcs fun e => !decide (nvId j e.a ∈ S) && !decide (nvId j e.a ∈ T) &&
          decide (nvId j e.b ∈ S) && decide (nvId j e.a = i)) = backCap ε Xl arcs i := by
        apply arcSum_congr
        intro e he
        rw [h1 e he, h2 e he, h3 e he, Bool.eq_iff_iff]
        simp only [Bool.and_eq_true, decide_eq_true_eq, nvId_eq hij, Bool.not_eq_true']
        constructor
        · rintro ⟨⟨_, h⟩, h'⟩; exact ⟨h', h⟩
        · rintro ⟨h', h⟩; rw [h']; exact ⟨⟨⟨e2', e3'⟩, h⟩, rfl⟩
      have hfrom : (arcSum ε arcs fun e => !decide (nvId j e.a ∈ S) && decide (nvId j e.a ∈ T) &&
          !decide (nvId j e.b ∈ S) && !decide (nvId j e.b ∈ T) && decide (nvId j e.b = i)) =
          fromCap ε Xr arcs i := by
        apply arcSum_congr
        intro e he
        rw [h1 e he, h2 e he, h3 e he, h4 e he, Bool.eq_iff_iff]
        simp only [Bool.and_eq_true, decide_eq_true_eq, nvId_eq hij, Bool.not_eq_true']
        constructor
        · rintro ⟨⟨⟨⟨_, h⟩, _⟩, _⟩, h'⟩; exact ⟨h, h'⟩
        · rintro ⟨h, h'⟩; rw [h']; exact ⟨⟨⟨⟨cT_not_cS hlr h, h⟩, e2'⟩, e3'⟩, rfl⟩
      rw [hback, hfrom]
      rfl

/-! ### the flow -/

/-- The flow of the arcs whose ends satisfy `p`. -/
def fs (Z : List (NArc × ℚ)) (p : NV → NV → Bool) : ℚ := (Z.map fun z => if p z.1.a z.1.b then z.2 else 0).sum

theorem flowSum_fs {old : List NArc} {f : List ℚ} {p : NArc → Bool} {q : NV → NV → Bool}
    (h : ∀ e ∈ old, p e = q e.a e.b) : flowSum old f p = fs (old.zip f) q := by
  unfold flowSum fs
  congr 1
  apply List.map_congr_left
  intro z hz
  rw [h z.1 (List.of_mem_zip hz).1]

theorem contractFlowAt_form (h : RInv E V arcs) (hV : V ⊆ Finset.range j)
    (hlr : Xr ⊆ Xl) (hlj : Xl ⊆ Finset.range j) (f : List ℚ) :
    let g := contractFlowAt j (Finset.range (j + 2) \ insert j Xl) (insert j Xr) arcs f
    let Z := arcs.zip f
    (∀ c, g ⟨.src, .snk, c⟩ = fs Z (fun a b => cS Xl a && cT Xr b) - fs Z (fun a b => cT Xr a && cS Xl b)) ∧
    (∀ c, g ⟨.snk, .src, c⟩ = 0) ∧
    (∀ i ∈ Xl \ Xr, ∀ c, g ⟨.src, .v i, c⟩ = fs Z (fun a b => cS Xl a && decide (b = .v i)) ∧
      g ⟨.v i, .src, c⟩ = fs Z (fun a b => decide (a = .v i) && cS Xl b) ∧
      g ⟨.v i, .snk, c⟩ = fs Z (fun a b => decide (a = .v i) && cT Xr b) ∧
      g ⟨.snk, .v i, c⟩ = fs Z (fun a b => cT Xr a && decide (b = .v i))) ∧
    (∀ e : NArc, cM Xl Xr e.a = true → cM Xl Xr e.b = true → g e = lastFlow arcs f e.a e.b) := by
  have ha : ∀ e ∈ arcs, ∀ i, e.a = .v i → i < j := fun e he i hi => Finset.mem_range.1 (hV (h.left e he i hi))
  have hb : ∀ e ∈ arcs, ∀ i, e.b = .v i → i < j := fun e he i hi => Finset.mem_range.1 (hV (h.right e he i hi))
  have hrj := hlr.trans hlj
  have h1 := fun e he => inS_eq (x := e.a) hlj (ha e he)
  have h2 := fun e he => inT_eq (x := e.a) hrj (ha e he)
  have h3 := fun e he => inS_eq (x := e.b) hlj (hb e he)
  have h4 := fun e he => inT_eq (x := e.b) hrj (hb e he)
  have s1 : decide (nvId j .src ∈ Finset.range (j + 2) \ insert j Xl) = true := inS_eq (x := .src) hlj (by simp)
  have s2 : decide (nvId j .snk ∈ Finset.range (j + 2) \ insert j Xl) = false := inS_eq (x := .snk) hlj (by simp)
  have t1 : decide (nvId j .src ∈ insert j Xr) = false := inT_eq (x := .src) hrj (by simp)
  have t2 : decide (nvId j .snk ∈ insert j Xr) = true := inT_eq (x := .snk) hrj (by simp)
  have hM : ∀ i ∈ Xl \ Xr, i < j ∧ cS Xl (.v i) = false ∧ cT Xr (.v i) = false := by
    intro i hi
    have hi' := Finset.mem_sdiff.1 hi
    exact ⟨Finset.mem_range.1 (hlj hi'.1), by simp [cS, hi'.1], by simp [cT, hi'.2]⟩
  intro g Z
  refine ⟨?_, ?_, ?_, ?_⟩
  · intro c
    simp only [g, contractFlowAt, s1, t2, if_true]
    congr 1
    · apply flowSum_fs
      intro e he
      rw [h1 e he, h4 e he]
    · apply flowSum_fs
      intro e he
      rw [h1 e he, h2 e he, h3 e he]
      have := cT_not_cS (x := e.a) hlr
      cases ht : cT Xr e.a
      · simp
      · simp [this ht]
  · intro c
    simp only [g, contractFlowAt, s1, s2, t2]
    simp
  · intro i hi c
    obtain ⟨hij, m1, m2⟩ := hM i hi
    have e2 := inS_eq (x := .v i) hlj (by intro k hk; cases hk; exact hij)
    have e3 := inT_eq (x := .v i) hrj (by intro k hk; cases hk; exact hij)
    rw [m1] at e2
    rw [m2] at e3
    refine ⟨?_, ?_, ?_, ?_⟩
    · simp only [g, contractFlowAt, s1, e3, if_true, Bool.false_eq_true, if_false]
      apply flowSum_fs
      intro e he
      rw [h1 e he, h4 e he, h3 e he, Bool.eq_iff_iff]
      simp only [Bool.and_eq_true, decide_eq_true_eq, Bool.not_eq_true',
        show nvId j (NV.v i) = i from rfl, nvId_eq hij]
      constructor
      · rintro ⟨⟨⟨h, _⟩, _⟩, h'⟩; exact ⟨h, h'⟩
      · rintro ⟨h, h'⟩; rw [h']; exact ⟨⟨⟨h, m2⟩, m1⟩, rfl⟩
    · simp only [g, contractFlowAt, s1, e2, e3, if_true, Bool.false_eq_true, if_false]
      apply flowSum_fs
      intro e he
      rw [h1 e he, h2 e he, h3 e he, Bool.eq_iff_iff]
      simp only [Bool.and_eq_true, decide_eq_true_eq, Bool.not_eq_true',
        show nvId j (NV.v i) = i from rfl, nvId_eq hij]
      constructor
      · rintro ⟨⟨⟨_, _⟩, h⟩, h'⟩; exact ⟨h', h⟩
      · rintro ⟨h', h⟩; rw [h']; exact ⟨⟨⟨m1, m2⟩, h⟩, rfl⟩
    · simp only [g, contractFlowAt, s2, t2, e2, e3, if_true, Bool.false_eq_true, if_false]
      apply flowSum_fs
      intro e he
      rw [h1 e he, h2 e he, h3 e he, h4 e he, Bool.eq_iff_iff]
      simp only [Bool.and_eq_true, decide_eq_true_eq, Bool.not_eq_true',
        show nvId j (NV.v i) = i from rfl, nvId_eq hij]
      constructor
      · rintro ⟨⟨⟨⟨_, _⟩, _⟩, h⟩, h'⟩; exact ⟨h', h⟩
      · rintro ⟨h', h⟩; rw [h']; exact ⟨⟨⟨⟨m1, m2⟩, cT_not_cS hlr h⟩, h⟩, rfl⟩
    · simp only [g, contractFlowAt, s2, t2, e2, e3, if_true, Bool.false_eq_true, if_false]
      apply flowSum_fs
      intro e he
      rw [h1 e he, h2 e he, h3 e he, h4 e he, Bool.eq_iff_iff]
      simp only [Bool.and_eq_true, decide_eq_true_eq, Bool.not_eq_true',
        show nvId j (NV.v i) = i from rfl, nvId_eq hij]
      constructor
      · rintro ⟨⟨⟨⟨_, h⟩, _⟩, _⟩, h'⟩; exact ⟨h, h'⟩
      · rintro ⟨h, h'⟩; rw [h']; exact ⟨⟨⟨⟨cT_not_cS hlr h, h⟩, m1⟩, m2⟩, rfl⟩
  · intro e he1 he2
    obtain ⟨i, hi, hia⟩ := (cM_iff _).1 he1
    obtain ⟨k, hk, hkb⟩ := (cM_iff _).1 he2
    obtain ⟨hij, m1, m2⟩ := hM i hi
    obtain ⟨hkj, m3, m4⟩ := hM k hk
    have e2 := inS_eq (x := .v i) hlj (by intro k hk; cases hk; exact hij)
    have e3 := inT_eq (x := .v i) hrj (by intro k hk; cases hk; exact hij)
    have e4 := inS_eq (x := .v k) hlj (by intro k hk; cases hk; exact hkj)
    have e5 := inT_eq (x := .v k) hrj (by intro k hk; cases hk; exact hkj)
    rw [m1] at e2
    rw [m2] at e3
    rw [m3] at e4
    rw [m4] at e5
    simp only [g, contractFlowAt, hia, hkb, e2, e3, e4, e5, Bool.false_eq_true, if_false]

/-- Among arcs with different ends, the last one with the given ends is the only one. -/
theorem lastFlow_eq {f : List ℚ} (h : RInv E V arcs) (hs : SimpleE E) (hf : f.length = arcs.length)
    {z : NArc × ℚ} (hz : z ∈ arcs.zip f) {s t : ℕ} (ha : z.1.a = .v s) (hb : z.1.b = .v t) :
    lastFlow arcs f z.1.a z.1.b = z.2 := by
  have hp : (arcs.filterMap innerOf).Pairwise fun a b => ¬ (a.src = b.src ∧ a.dst = b.dst) := by
    rw [h.inner]
    exact List.Pairwise.filter _ hs
  rw [List.pairwise_filterMap] at hp
  have hp' : (arcs.zip f).Pairwise fun z z' => (z.1.a = .v s ∧ z.1.b = .v t) →
      ¬ (z'.1.a = .v s ∧ z'.1.b = .v t) := by
    rw [← List.map_fst_zip (l₁ := arcs) (l₂ := f) (by omega), List.pairwise_map] at hp
    refine hp.imp ?_
    rintro ⟨⟨a, b, c⟩, q⟩ ⟨⟨a', b', c'⟩, q'⟩ h ⟨h1, h2⟩ ⟨h3, h4⟩
    dsimp only at h1 h2 h3 h4
    subst h1 h2 h3 h4
    exact h ⟨s, t, c⟩ rfl ⟨s, t, c'⟩ rfl ⟨rfl, rfl⟩
  have huniq : ∀ Z : List (NArc × ℚ), (Z.Pairwise fun z z' => (z.1.a = .v s ∧ z.1.b = .v t) →
      ¬ (z'.1.a = .v s ∧ z'.1.b = .v t)) → z ∈ Z →
      Z.filter (fun e => decide (e.1.a = .v s ∧ e.1.b = .v t)) = [z] := by
    intro Z
    induction Z with
    | nil => intro _ h; simp at h
    | cons w Z ih =>
      intro hpw hm
      obtain ⟨h1, h2⟩ := List.pairwise_cons.1 hpw
      by_cases hw : w.1.a = .v s ∧ w.1.b = .v t
      · have hzw : z = w := by
          rcases List.mem_cons.1 hm with h | h
          · exact h
          · exact absurd ⟨ha, hb⟩ (h1 z h hw)
        rw [List.filter_cons_of_pos (by simpa using hw), hzw]
        congr 1
        rw [List.filter_eq_nil_iff]
        intro x hx
        simpa using h1 x hx hw
      · rw [List.filter_cons_of_neg (by simpa using hw)]
        apply ih h2
        rcases List.mem_cons.1 hm with h | h
        · exact absurd (h ▸ ⟨ha, hb⟩) hw
        · exact h
  unfold lastFlow
  rw [ha, hb, huniq _ hp' hz]
  rfl

end PSP.Theory
