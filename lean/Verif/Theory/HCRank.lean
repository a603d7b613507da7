import Verif.Theory.HCSim

/-!
# Union by rank: the trees of `HC` have logarithmic depth
-/

namespace PSP.Theory

open PSP.Spec PSP.Model Relation

/-- Nodes below `n` whose root is `r`. -/
noncomputable def treeOf (h : HC) (r : ℕ) : Finset ℕ :=
  by classical exact (Finset.range h.n).filter fun v => Top h ⊥ v r

theorem mem_treeOf {h : HC} {r v : ℕ} : v ∈ treeOf h r ↔ v < h.n ∧ Top h ⊥ v r := by
  classical
  unfold treeOf
  rw [Finset.mem_filter, Finset.mem_range]

/-- A tree of rank `k` has at least `2 ^ k` nodes. -/
def RankInv (h : HC) : Prop :=
  ∀ r, r < h.n → h.parent r = r → 2 ^ h.rank r ≤ (treeOf h r).card

theorem RankInv.new (n : ℕ) : RankInv (HC.new n) := by
  intro r hr _
  have : r ∈ treeOf (HC.new n) r := mem_treeOf.2 ⟨hr, .stop not_lt_bot⟩
  have h1 := Finset.card_pos.2 ⟨r, this⟩
  simpa [HC.new] using h1

theorem top_attach {h : HC} (hf : Forest h) {a b : ℕ} {g : ℚ} {rk : ℕ → ℕ} {gm : List ℚ}
    (ha : h.parent a = a) (hb : h.parent b = b) (hab : a ≠ b) {v r : ℕ} (ht : Top h ⊥ v r) :
    Top { h.attach a b g with rank := rk, gamma := gm } ⊥ v (if r = a then b else r) := by
  induction ht with
  | @stop i hn =>
    have hi : h.parent i = i := by by_contra hp; exact hn ((hf.pos_iff _).2 hp)
    have hbw : ¬ (⊥ : WithBot ℚ) < h.weight b := by rw [hf.pos_iff]; exact not_not.2 hb
    by_cases hia : i = a
    · subst hia
      rw [if_pos rfl]
      refine .up (by simp [HC.attach]) ?_
      have e : ({ h.attach i b g with rank := rk, gamma := gm } : HC).parent i = b := by
        simp [HC.attach]
      rw [e]
      refine .stop ?_
      simp only [HC.attach, Function.update_of_ne hab.symm]
      exact hbw
    · rw [if_neg hia]
      refine .stop ?_
      simp only [HC.attach, Function.update_of_ne hia]
      exact hn
  | @up i t hy _ ih =>
    have hia : i ≠ a := by rintro rfl; exact hf.ne_of_lt hy ha
    refine .up ?_ ?_
    · simp only [HC.attach, Function.update_of_ne hia]; exact hy
    · have e : ({ h.attach a b g with rank := rk, gamma := gm } : HC).parent i = h.parent i := by
        simp only [HC.attach, Function.update_of_ne hia]
      rw [e]; exact ih

theorem RankInv.attach {h : HC} (hf : Forest h) (hr : RankInv h) {a b : ℕ} {g : ℚ} {rk : ℕ → ℕ}
    {gm : List ℚ} (han : a < h.n) (hbn : b < h.n) (ha : h.parent a = a) (hb : h.parent b = b)
    (hab : a ≠ b) (hrk : ∀ i, i ≠ b → rk i = h.rank i)
    (hrb : rk b = h.rank b ∨ rk b = h.rank b + 1 ∧ h.rank a = h.rank b) :
    RankInv { h.attach a b g with rank := rk, gamma := gm } := by
  intro r hrn hrp
  have hra : r ≠ a := by
    rintro rfl
    simp only [HC.attach, Function.update_self] at hrp
    exact hab hrp.symm
  have hrp' : h.parent r = r := by
    simpa [HC.attach, Function.update_of_ne hra] using hrp
  have hsub : treeOf h r ⊆ treeOf { h.attach a b g with rank := rk, gamma := gm } r := by
    intro v hv
    obtain ⟨h1, h2⟩ := mem_treeOf.1 hv
    have := top_attach hf (g := g) (rk := rk) (gm := gm) ha hb hab h2
    rw [if_neg hra] at this
    exact mem_treeOf.2 ⟨h1, this⟩
  have hcard := Finset.card_le_card hsub
  have h0 := hr r hrn hrp'
  by_cases hrb' : r = b
  · subst hrb'
    show 2 ^ rk r ≤ _
    rcases hrb with e | ⟨e, e2⟩
    · rw [e]; exact h0.trans hcard
    · have hsub2 : treeOf h r ∪ treeOf h a ⊆
          treeOf { h.attach a r g with rank := rk, gamma := gm } r := by
        intro v hv
        rcases Finset.mem_union.1 hv with hv | hv
        · exact hsub hv
        · obtain ⟨h1, h2⟩ := mem_treeOf.1 hv
          have := top_attach hf (g := g) (rk := rk) (gm := gm) ha hb hab h2
          rw [if_pos rfl] at this
          exact mem_treeOf.2 ⟨h1, this⟩
      have hdis : Disjoint (treeOf h r) (treeOf h a) := by
        rw [Finset.disjoint_left]
        intro v h1 h2
        exact hra ((mem_treeOf.1 h1).2.unique (mem_treeOf.1 h2).2)
      have hc2 := Finset.card_le_card hsub2
      rw [Finset.card_union_of_disjoint hdis] at hc2
      have h3 := hr a han ha
      rw [e2] at h3
      rw [e, pow_succ]
      omega
  · show 2 ^ rk r ≤ _
    rw [hrk r hrb']; exact h0.trans hcard

theorem merge_rank {h : HC} {A : List Link} (hv : HCInv h A) (hr : RankInv h) {i j : ℕ} {g : ℚ}
    (hi : i < h.n) (hj : j < h.n) {h' : HC} {b : Bool} (hm : h.merge i j g = .ok (h', b)) :
    RankInv h' := by
  have hf := hv.forest
  obtain ⟨a, ha⟩ := Top.exists hf ⊥ i
  obtain ⟨c, hc⟩ := Top.exists hf ⊥ j
  have root : ∀ {x r}, Top h ⊥ x r → h.parent r = r := by
    intro x r ht
    by_contra hp
    exact ht.end ((hf.pos_iff _).2 hp)
  have han := Top.lt hf ha hi
  have hcn := Top.lt hf hc hj
  unfold HC.merge at hm
  rw [find_spec hf ha hi, find_spec hf hc hj] at hm
  simp only [Outcome.ok_bind, Outcome.pure_eq] at hm
  have key : ∀ (P : Prop) [Decidable P] (c : ℕ) (d : ℕ), ((if P then { h with gamma := h.gamma ++ [g] } else h : HC).attach c d g)
      = { h.attach c d g with gamma := if P then h.gamma ++ [g] else h.gamma } := by
    intro P _ c d; split_ifs <;> rfl
  have keyr : ∀ (P : Prop) [Decidable P], (if P then { h with gamma := h.gamma ++ [g] } else h : HC).rank = h.rank := by
    intro P _; split_ifs <;> rfl
  simp only [keyr, key] at hm
  by_cases h1 : a = c ∨ ¬ (h.gamma = [] ∨ ∃ x ∈ h.gamma.getLast?, x ≥ g)
  · rw [if_pos h1] at hm
    simp only [Outcome.ok.injEq, Prod.mk.injEq] at hm
    rw [← hm.1]; exact hr
  · rw [if_neg h1] at hm
    have hac : a ≠ c := fun h => h1 (.inl h)
    by_cases h2 : h.rank a ≤ h.rank c
    · rw [if_pos h2] at hm
      by_cases h3 : h.rank a = h.rank c
      · rw [if_pos h3] at hm
        simp only [Outcome.ok.injEq, Prod.mk.injEq] at hm
        rw [← hm.1]
        exact hr.attach hf (rk := Function.update h.rank c (h.rank c + 1)) han hcn (root ha)
          (root hc) hac (fun x hx => Function.update_of_ne hx _ _) (.inr ⟨by simp, h3⟩)
      · rw [if_neg h3] at hm
        simp only [Outcome.ok.injEq, Prod.mk.injEq] at hm
        rw [← hm.1]
        exact hr.attach hf (rk := h.rank) han hcn (root ha) (root hc) hac (fun _ _ => rfl) (.inl rfl)
    · rw [if_neg h2] at hm
      simp only [Outcome.ok.injEq, Prod.mk.injEq] at hm
      rw [← hm.1]
      exact hr.attach hf (rk := h.rank) hcn han (root hc) (root ha) hac.symm (fun _ _ => rfl) (.inl rfl)

theorem mergeAll_rank : ∀ (cs : List Link) {h h' : HC} {A : List Link}, HCInv h A → RankInv h →
    InRange h.n cs → h.mergeAll cs = .ok h' → RankInv h' := by
  classical
  intro cs
  induction cs with
  | nil =>
    intro h h' A _ hr _ hm
    simp only [HC.mergeAll, Outcome.ok.injEq] at hm
    rw [← hm]; exact hr
  | cons c cs ih =>
    intro h h' A hv hr hin hm
    obtain ⟨h1, h2, h3, h4⟩ := merge_spec hv c.val (hin c (by simp)).1 (hin c (by simp)).2
    simp only [HC.mergeAll, h2, Outcome.ok_bind] at hm
    exact ih h4 (merge_rank hv hr (hin c (by simp)).1 (hin c (by simp)).2 h2)
      (by rw [h3]; exact fun x hx => hin x (by simp [hx])) hm

theorem top_rank {h : HC} (hf : Forest h) {i r : ℕ} (ht : Top h ⊥ i r) (hi : i < h.n) :
    h.rank i ≤ h.rank r := by
  induction ht with
  | stop => exact le_rfl
  | up hy _ ih => exact (hf.rank _ hi (hf.ne_of_lt hy)).le.trans (ih (hf.lt _ hi))

theorem findAux_rank {h : HC} (hf : Forest h) {i r : ℕ} (ht : Top h ⊥ i r) (hi : i < h.n) :
    ∀ f, h.rank r - h.rank i < f → h.findAux f i = .ok r := by
  induction ht with
  | @stop i hn =>
    intro f hfuel
    obtain ⟨f, rfl⟩ : ∃ g, f = g + 1 := ⟨f - 1, by omega⟩
    have hp : h.parent i = i := by by_contra hp; exact hn ((hf.pos_iff _).2 hp)
    rw [HC.findAux, if_neg (by omega), if_pos hp]
  | @up i t hy ht ih =>
    intro f hfuel
    obtain ⟨f, rfl⟩ : ∃ g, f = g + 1 := ⟨f - 1, by omega⟩
    have hp := hf.ne_of_lt hy
    rw [HC.findAux, if_neg (by omega), if_neg hp]
    have h1 := hf.rank i hi hp
    have h2 := top_rank hf ht (hf.lt _ hi)
    exact ih (hf.lt _ hi) f (by omega)

theorem rank_le_log {h : HC} (hr : RankInv h) {r : ℕ} (hrn : r < h.n) (hp : h.parent r = r) :
    h.rank r ≤ Nat.log 2 h.n := by
  have h1 := hr r hrn hp
  have h2 : (treeOf h r).card ≤ h.n := by
    have : treeOf h r ⊆ Finset.range h.n := fun v hv => Finset.mem_range.2 (mem_treeOf.1 hv).1
    simpa using Finset.card_le_card this
  exact Nat.le_log_of_pow_le (by norm_num) (h1.trans h2)

/-- `find` needs at most `log₂ n + 1` calls. -/
theorem find_log {h : HC} (hf : Forest h) (hr : RankInv h) {i : ℕ} (hi : i < h.n) :
    ∃ r, h.findAux (Nat.log 2 h.n + 1) i = .ok r ∧ h.find i = .ok r := by
  obtain ⟨r, ht⟩ := Top.exists hf ⊥ i
  have hp : h.parent r = r := by by_contra hp; exact ht.end ((hf.pos_iff _).2 hp)
  have := rank_le_log hr (Top.lt hf ht hi) hp
  exact ⟨r, findAux_rank hf ht hi _ (by omega), find_spec hf ht hi⟩

/-- With enough rank left, `similarity` ends. -/
theorem similarityAux_log {h : HC} (hf : Forest h) {N : ℕ}
    (hN : ∀ i, i < h.n → h.rank i ≤ N) : ∀ (f : ℕ) (i j : ℕ), i < h.n → j < h.n →
    (N - h.rank i) + (N - h.rank j) < f → ∃ s, h.similarityAux f i j = .ok s := by
  intro f
  induction f with
  | zero => intro i j _ _ hl; omega
  | succ f ih =>
    intro i j hi hj hl
    rw [HC.similarityAux]
    by_cases hij : i = j
    · rw [if_pos hij]; exact ⟨_, rfl⟩
    rw [if_neg hij, if_neg (by omega)]
    by_cases h1 : h.parent i = i ∧ h.parent j = j
    · rw [if_pos h1]; exact ⟨_, rfl⟩
    rw [if_neg h1]
    by_cases h2 : h.parent i = j
    · rw [if_pos h2]; exact ⟨_, rfl⟩
    rw [if_neg h2]
    by_cases h3 : h.parent j = i
    · rw [if_pos h3]; exact ⟨_, rfl⟩
    rw [if_neg h3]
    by_cases h4 : h.weight i ≥ h.weight j
    · rw [if_pos h4]
      have hp : h.parent i ≠ i := by
        intro hp
        have hb := (hf.bot i).2 hp
        rw [ge_iff_le, hb, le_bot_iff] at h4
        exact h1 ⟨hp, (hf.bot j).1 h4⟩
      have ha := hf.rank i hi hp
      have hb := hN _ (hf.lt i hi)
      exact ih (h.parent i) j (hf.lt i hi) hj (by omega)
    · rw [if_neg h4]
      have hlt : h.weight i < h.weight j := not_le.1 h4
      have hp : h.parent j ≠ j := hf.ne_of_lt hlt
      have ha := hf.rank j hj hp
      have hb := hN _ (hf.lt j hj)
      exact ih (h.parent j) i (hf.lt j hj) hi (by omega)

theorem rank_le_log' {h : HC} (hf : Forest h) (hr : RankInv h) {i : ℕ} (hi : i < h.n) :
    h.rank i ≤ Nat.log 2 h.n := by
  obtain ⟨r, ht⟩ := Top.exists hf ⊥ i
  have hp : h.parent r = r := by by_contra hp; exact ht.end ((hf.pos_iff _).2 hp)
  exact (top_rank hf ht hi).trans (rank_le_log hr (Top.lt hf ht hi) hp)

/-! ### `CL` with bad indices -/

theorem merge_range {h : HC} {A : List Link} (hv : HCInv h A) {i j : ℕ} {g : ℚ}
    (hb : h.n ≤ i ∨ h.n ≤ j) : ∃ e, h.merge i j g = .ub e := by
  have key : ∀ x, h.n ≤ x → ∃ e, h.find x = .ub e := by
    intro x hx
    exact ⟨_, by rw [HC.find, HC.findAux, if_pos hx]⟩
  unfold HC.merge
  by_cases hi : h.n ≤ i
  · obtain ⟨e, he⟩ := key i hi
    rw [he]; exact ⟨e, rfl⟩
  · obtain ⟨e, he⟩ := key j (by omega)
    obtain ⟨r, ht⟩ := Top.exists hv.forest ⊥ i
    rw [find_spec hv.forest ht (by omega), he]
    exact ⟨e, rfl⟩

theorem clLoop_bad {first second : List ℕ} {info : List ℚ} : ∀ (ks : List ℕ) {h : HC}
    {A : List Link}, HCInv h A →
    (∃ k ∈ ks, ¬ ∃ a b, first[k]? = some a ∧ second[k]? = some b ∧ a < h.n ∧ b < h.n) →
    ∃ e, clLoop first second info ks h = .ub e := by
  classical
  intro ks
  induction ks with
  | nil => intro h A _ hk; simp at hk
  | cons k ks ih =>
    intro h A hv hk
    rw [clLoop]
    rcases h1 : first[k]? with _ | a
    · exact ⟨_, rfl⟩
    rcases h2 : second[k]? with _ | b
    · exact ⟨_, rfl⟩
    rcases h3 : info[k]? with _ | w
    · exact ⟨_, rfl⟩
    dsimp only
    by_cases hab : a < h.n ∧ b < h.n
    · obtain ⟨h', m1, m2, m3⟩ := merge_spec hv w hab.1 hab.2
      rw [m1]
      simp only [Outcome.ok_bind]
      refine ih m3 ?_
      obtain ⟨k', hk', hn⟩ := hk
      rcases List.mem_cons.1 hk' with rfl | hk'
      · exact absurd ⟨a, b, h1, h2, hab.1, hab.2⟩ hn
      · exact ⟨k', hk', by rw [m2]; exact hn⟩
    · obtain ⟨e, he⟩ := merge_range hv (g := w) (i := a) (j := b) (by omega)
      rw [he]; exact ⟨e, rfl⟩

end PSP.Theory
