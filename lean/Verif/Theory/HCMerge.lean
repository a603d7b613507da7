import Verif.Theory.HCForest

/-!
# `HC::merge` keeps the invariant
-/

namespace PSP.Theory

open PSP.Spec PSP.Model Relation

theorem joined_ends {A : List Link} {n : ℕ} {gam : WithBot ℚ} {x y : ℕ} (hA : InRange n A)
    (hxy : Joined A gam x y) : x = y ∨ x < n ∧ y < n := by
  induction hxy with
  | rel x y hr => obtain ⟨a, ha, rfl, rfl, -⟩ := hr; exact .inr (hA a ha)
  | refl => exact .inl rfl
  | symm _ _ _ ih => rcases ih with rfl | ⟨h1, h2⟩; exacts [.inl rfl, .inr ⟨h2, h1⟩]
  | trans _ _ _ _ _ i1 i2 =>
    rcases i1 with rfl | ⟨h1, h2⟩
    · exact i2
    · rcases i2 with rfl | ⟨h3, h4⟩
      exacts [.inr ⟨h1, h2⟩, .inr ⟨h1, h4⟩]

theorem HCInv.getLast_mem {h : HC} {g : ℚ} (hg : g ∈ h.gamma.getLast?) : g ∈ h.gamma :=
  List.mem_of_getLast? hg

/-- The values a merge at `g` compares with. -/
theorem HCInv.accepts_iff {h : HC} {A : List Link} (hv : HCInv h A) {i j a b : ℕ} {g : ℚ}
    (hi : Top h ⊥ i a) (hj : Top h ⊥ j b) :
    Accepts A ⟨i, j, g⟩ ↔ ¬ (a = b ∨ ¬ (h.gamma = [] ∨ ∃ x ∈ h.gamma.getLast?, x ≥ g)) := by
  have h1 : Joined A ⊥ i j ↔ a = b := by
    rw [← hv.fj, fj_iff hv.forest]
    constructor
    · rintro ⟨t, t1, t2⟩; rw [hi.unique t1, hj.unique t2]
    · rintro rfl; exact ⟨a, hi, hj⟩
  have h2 : (∀ x ∈ A, g ≤ x.val) ↔ (h.gamma = [] ∨ ∃ x ∈ h.gamma.getLast?, x ≥ g) := by
    constructor
    · intro hall
      rcases hg : h.gamma.getLast? with _ | x
      · exact .inl (List.getLast?_eq_none_iff.1 hg)
      · refine .inr ⟨x, rfl, ?_⟩
        obtain ⟨a, ha, rfl⟩ := (hv.mem x).1 (List.mem_of_getLast? hg)
        exact hall a ha
    · rintro (hnil | ⟨x, hx, hxg⟩) a ha
      · have := (hv.mem a.val).2 ⟨a, ha, rfl⟩
        rw [hnil] at this; simp at this
      · exact hxg.trans (hv.last x hx a ha)
  unfold Accepts
  rw [h1, h2, not_or, not_not]

/-- The invariant after attaching one root to the other. -/
theorem HCInv.attach {h : HC} {A : List Link} (hv : HCInv h A) {i j a b : ℕ} {g : ℚ} {rk : ℕ → ℕ}
    (hin : i < h.n) (hjn : j < h.n)
    (hi : Top h ⊥ i a ∧ Top h ⊥ j b ∨ Top h ⊥ i b ∧ Top h ⊥ j a) (hab : a ≠ b)
    (hg : h.gamma = [] ∨ ∃ x ∈ h.gamma.getLast?, x ≥ g)
    (hrk : ∀ i, i ≠ b → rk i = h.rank i) (hrb : h.rank b ≤ rk b) (hr : h.rank a < rk b) :
    HCInv { h.attach a b g with
      rank := rk
      gamma := if h.gamma = [] ∨ ∃ x ∈ h.gamma.getLast?, x > g then h.gamma ++ [g] else h.gamma }
      (A ++ [⟨i, j, g⟩]) := by
  have hf := hv.forest
  have root : ∀ {x r}, Top h ⊥ x r → h.parent r = r := by
    intro x r ht
    by_contra hp
    exact ht.end ((hf.pos_iff _).2 hp)
  have hap : h.parent a = a := by rcases hi with hi | hi; exacts [root hi.1, root hi.2]
  have hbp : h.parent b = b := by rcases hi with hi | hi; exacts [root hi.2, root hi.1]
  have han : a < h.n := by
    rcases hi with hi | hi; exacts [Top.lt hf hi.1 hin, Top.lt hf hi.2 hjn]
  have hbn : b < h.n := by
    rcases hi with hi | hi; exacts [Top.lt hf hi.2 hjn, Top.lt hf hi.1 hin]
  have hw : ∀ i, h.parent i ≠ i → (g : WithBot ℚ) ≤ h.weight i := by
    intro i hp
    obtain ⟨v, hvm, -⟩ := hv.values i hp
    rcases hg with hg | ⟨x, hx, hxg⟩
    · rw [hg] at hvm; simp at hvm
    · exact (WithBot.coe_le_coe.2 hxg).trans (hv.weights i hp x hx)
  set gm := if h.gamma = [] ∨ ∃ x ∈ h.gamma.getLast?, x > g then h.gamma ++ [g] else h.gamma
    with hgm
  have hlast : gm.getLast? = some g := by
    rw [hgm]
    split_ifs with hc
    · simp
    · push Not at hc
      rcases hg with hg | ⟨x, hx, hxg⟩
      · exact absurd hg hc.1
      · rw [hx, le_antisymm (hc.2 x hx) hxg]
  have hmem : ∀ v, v ∈ gm ↔ v ∈ h.gamma ∨ v = g := by
    intro v
    rw [hgm]
    split_ifs with hc
    · simp
    · push Not at hc
      rcases hg with hg | ⟨x, hx, hxg⟩
      · exact absurd hg hc.1
      · constructor
        · exact .inl
        · rintro (hh | rfl)
          · exact hh
          · rw [← le_antisymm (hc.2 x hx) hxg]; exact List.mem_of_getLast? hx
  refine
    { forest := hf.attach hap hbp hab han hbn hw hrk hrb hr
      sorted := ?_, mem := ?_, weights := ?_, values := ?_, used := ?_, last := ?_, range := ?_
      fj := fj_attach hf hv.fj hw hi hap }
  · show gm.Pairwise (· > ·)
    rw [hgm]
    split_ifs with hc
    · rw [List.pairwise_append]
      refine ⟨hv.sorted, by simp, ?_⟩
      intro x hx y hy
      rw [List.mem_singleton] at hy
      subst hy
      rcases hc with hc | ⟨z, hz, hzg⟩
      · rw [hc] at hx; simp at hx
      · obtain ⟨u, hu, rfl⟩ := (hv.mem x).1 hx
        exact lt_of_lt_of_le hzg (hv.last z hz u hu)
    · exact hv.sorted
  · intro v
    show v ∈ gm ↔ _
    rw [hmem, hv.mem]
    simp [or_and_right, exists_or, eq_comm]
  · intro x hp v hvl
    simp only [HC.attach, Function.update_apply] at hp hvl ⊢
    rw [hlast] at hvl
    obtain rfl : g = v := by simpa using hvl
    split_ifs at hp ⊢ with hxa
    · exact le_rfl
    · exact hw x hp
  · intro x hp
    simp only [HC.attach, Function.update_apply] at hp ⊢
    split_ifs at hp ⊢ with hxa
    · exact ⟨g, (hmem g).2 (.inr rfl), rfl⟩
    · obtain ⟨v, h1, h2⟩ := hv.values x hp
      exact ⟨v, (hmem v).2 (.inl h1), h2⟩
  · intro v hvm
    simp only [HC.attach, Function.update_apply]
    rcases (hmem v).1 hvm with hvm | rfl
    · obtain ⟨x, h0, h1, h2⟩ := hv.used v hvm
      have hxa : x ≠ a := by rintro rfl; exact h1 hap
      exact ⟨x, h0, by rw [if_neg hxa]; exact h1, by rw [if_neg hxa]; exact h2⟩
    · exact ⟨a, han, by simp [hab.symm], by simp⟩
  · intro v hvl x hx
    simp only at hvl
    rw [hlast] at hvl
    obtain rfl : g = v := by simpa using hvl
    rcases List.mem_append.1 hx with hx | hx
    · rcases hg with hg | ⟨z, hz, hzg⟩
      · have := (hv.mem x.val).2 ⟨x, hx, rfl⟩
        rw [hg] at this; simp at this
      · exact hzg.trans (hv.last z hz x hx)
    · rw [List.mem_singleton] at hx; subst hx; exact le_rfl
  · intro x hx
    rcases List.mem_append.1 hx with hx | hx
    · exact hv.range x hx
    · rw [List.mem_singleton] at hx; subst hx; exact ⟨hin, hjn⟩

open Classical in
theorem merge_spec {h : HC} {A : List Link} (hv : HCInv h A) {i j : ℕ} (g : ℚ) (hi : i < h.n)
    (hj : j < h.n) : ∃ h' : HC, h.merge i j g = .ok (h', decide (Accepts A ⟨i, j, g⟩)) ∧
      h'.n = h.n ∧ HCInv h' (if Accepts A ⟨i, j, g⟩ then A ++ [⟨i, j, g⟩] else A) := by
  have hf := hv.forest
  obtain ⟨a, ha⟩ := Top.exists hf ⊥ i
  obtain ⟨b, hb⟩ := Top.exists hf ⊥ j
  have hacc := hv.accepts_iff (g := g) ha hb
  unfold HC.merge
  rw [find_spec hf ha hi, find_spec hf hb hj]
  simp only [Outcome.ok_bind, Outcome.pure_eq]
  by_cases hc : a = b ∨ ¬ (h.gamma = [] ∨ ∃ x ∈ h.gamma.getLast?, x ≥ g)
  · have hn : ¬ Accepts A ⟨i, j, g⟩ := by rw [hacc]; exact not_not.2 hc
    rw [if_pos hc, if_neg hn]
    exact ⟨h, by simp [hn], rfl, hv⟩
  · have hy : Accepts A ⟨i, j, g⟩ := hacc.2 hc
    rw [if_neg hc, if_pos hy]
    push Not at hc
    obtain ⟨hab, hg⟩ := hc
    have hg' : h.gamma = [] ∨ ∃ x ∈ h.gamma.getLast?, x ≥ g := hg
    have key : ∀ (P : Prop) [Decidable P] (c : ℕ) (d : ℕ), ((if P then { h with gamma := h.gamma ++ [g] } else h : HC).attach c d g)
        = { h.attach c d g with gamma := if P then h.gamma ++ [g] else h.gamma } := by
      intro P _ c d; split_ifs <;> rfl
    have keyr : ∀ (P : Prop) [Decidable P], (if P then { h with gamma := h.gamma ++ [g] } else h : HC).rank = h.rank := by
      intro P _; split_ifs <;> rfl
    simp only [keyr, key]
    by_cases hle : h.rank a ≤ h.rank b
    · rw [if_pos hle]
      by_cases he : h.rank a = h.rank b
      · rw [if_pos he]
        have hh := hv.attach (rk := Function.update h.rank b (h.rank b + 1)) hi hj (.inl ⟨ha, hb⟩) hab hg'
          (fun x hx => Function.update_of_ne hx _ _) (by simp) (by simp; omega)
        refine ⟨_, ?_, ?_, hh⟩
        · simp only [hy, decide_true]; congr 2
        · rfl
      · rw [if_neg he]
        have hh := hv.attach (rk := h.rank) hi hj (.inl ⟨ha, hb⟩) hab hg'
          (fun x _ => rfl) le_rfl (by omega)
        refine ⟨_, ?_, ?_, hh⟩
        · simp only [hy, decide_true]; congr 2
        · rfl
    · rw [if_neg hle]
      have hh := hv.attach (rk := h.rank) hi hj (.inr ⟨ha, hb⟩) (Ne.symm hab) hg'
        (fun x _ => rfl) le_rfl (by omega)
      refine ⟨_, ?_, ?_, hh⟩
      · simp only [hy, decide_true]; congr 2
      · rfl

open Classical in
/-- The accepted requests, from a given start. -/
noncomputable def acceptedFrom (A cs : List Link) : List Link :=
  cs.foldl (fun A c => if Accepts A c then A ++ [c] else A) A

theorem mergeAll_from {n : ℕ} : ∀ (cs : List Link) {h : HC} {A : List Link}, HCInv h A → h.n = n →
    InRange n cs → ∃ h', h.mergeAll cs = .ok h' ∧ h'.n = n ∧ HCInv h' (acceptedFrom A cs) := by
  classical
  intro cs
  induction cs with
  | nil => intro h A hv hn _; exact ⟨h, rfl, hn, hv⟩
  | cons c cs ih =>
    intro h A hv hn hr
    subst hn
    obtain ⟨h1, h2, h3, h4⟩ := merge_spec hv c.val (hr c (by simp)).1 (hr c (by simp)).2
    obtain ⟨h', h5, h6, h7⟩ := ih h4 h3 (fun x hx => hr x (by simp [hx]))
    refine ⟨h', ?_, h6, ?_⟩
    · simp only [HC.mergeAll, h2, Outcome.ok_bind]; exact h5
    · convert h7 using 1
      unfold acceptedFrom
      simp only [List.foldl_cons]

/-- After any sequence of merges the invariant holds. -/
theorem mergeAll_spec {n : ℕ} {cs : List Link} (hr : InRange n cs) :
    ∃ h, (HC.new n).mergeAll cs = .ok h ∧ h.n = n ∧ HCInv h (accepted cs) :=
  mergeAll_from cs (HCInv.new n) rfl hr

end PSP.Theory
