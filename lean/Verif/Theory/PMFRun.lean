import Verif.Theory.PMFSlice

/-!
# `PMF::run`, and which set is a minimum cut at which parameter
-/

namespace PSP.Theory

open PSP.Spec PSP.Model

variable {E : List Arc} {ε : ℚ} {j : ℕ} {y : ℕ → YPair} {X A B : Finset ℕ} {l m : ℚ}
  {t : List (ℚ × Finset ℕ)}

theorem SChain.lt (h : SChain E j y A t) : ∀ B ∈ t.map Prod.snd, B ⊂ A := by
  induction t generalizing A with
  | nil => simp
  | cons cb t ih =>
    obtain ⟨c, B⟩ := cb
    intro Z hZ
    rcases List.mem_cons.1 hZ with h' | h'
    · rw [h']; exact h.2.2.1
    · exact (ih h.2.2.2 Z h').trans h.2.2.1

theorem SChain.pairwise (h : SChain E j y A t) :
    (A :: t.map Prod.snd).Pairwise fun P Q => Q ⊂ P := by
  induction t generalizing A with
  | nil => simp
  | cons cb t ih =>
    obtain ⟨c, B⟩ := cb
    rw [List.map_cons, List.pairwise_cons]
    exact ⟨h.lt, ih h.2.2.2⟩

theorem SChain.mem_range (h : SChain E j y A t) : ∀ B ∈ t.map Prod.snd, B ⊆ Finset.range j := by
  induction t generalizing A with
  | nil => simp
  | cons cb t ih =>
    obtain ⟨c, B⟩ := cb
    intro Z hZ
    rcases List.mem_cons.1 hZ with h' | h'
    · rw [h']; exact h.2.1.sub
    · exact ih h.2.2.2 Z h'

/-- Sorting a chain of sets by inclusion. -/
theorem sort_chain {l m : List (Finset ℕ)} (hp : l.Perm m) (hm : m.Pairwise fun P Q => Q ⊂ P) :
    l.insertionSort (fun A B => B ⊆ A) = m := by
  -- on a chain inclusion is comparison of sizes
  have hcmp : ∀ A ∈ m, ∀ B ∈ m, (B ⊆ A ↔ B.card ≤ A.card) := by
    have hsym : m.Pairwise fun A B => A ⊂ B ∨ B ⊂ A := hm.imp fun h => Or.inr h
    have hall := List.Pairwise.forall_of_forall_of_flip (R := fun A B => A = B ∨ A ⊂ B ∨ B ⊂ A)
      (fun _ _ => Or.inl rfl) (hsym.imp fun h => Or.inr h)
      (hsym.imp fun {A B} h => (show B = A ∨ B ⊂ A ∨ A ⊂ B from Or.inr h.symm))
    intro A hA B hB
    rcases hall hA hB with h | h | h
    · subst h; simp
    · have := Finset.card_lt_card h
      constructor
      · intro h'; exact absurd h' h.2
      · omega
    · have := Finset.card_lt_card h
      exact ⟨fun _ => this.le, fun _ => h.1⟩
  have h1 := List.map_insertionSort (r := fun A B : Finset ℕ => B ⊆ A)
    (s := fun A B : Finset ℕ => B.card ≤ A.card) id l (by
      intro a ha b hb
      exact hcmp a (hp.subset ha) b (hp.subset hb))
  rw [List.map_id, List.map_id] at h1
  rw [h1]
  have htot : Std.Total (α := Finset ℕ) (fun P Q => Q.card ≤ P.card) := ⟨fun a b => le_total _ _⟩
  have htr : IsTrans (Finset ℕ) (fun P Q => Q.card ≤ P.card) := ⟨fun a b c h h' => le_trans h' h⟩
  have hs := List.pairwise_insertionSort (fun A B : Finset ℕ => B.card ≤ A.card) l
  have hp' := (List.perm_insertionSort (fun A B : Finset ℕ => B.card ≤ A.card) l).trans hp
  generalize l.insertionSort (fun A B : Finset ℕ => B.card ≤ A.card) = l' at hs hp'
  clear h1 hcmp hp
  induction m generalizing l' with
  | nil => exact hp'.eq_nil
  | cons b m ih =>
    cases l' with
    | nil => exact absurd hp'.symm.eq_nil (by simp)
    | cons a l' =>
      have hab : a = b := by
        have ha : a ∈ b :: m := hp'.subset List.mem_cons_self
        rcases List.mem_cons.1 ha with h | h
        · exact h
        · have h1 := Finset.card_lt_card ((List.pairwise_cons.1 hm).1 a h)
          have hb : b ∈ a :: l' := hp'.symm.subset List.mem_cons_self
          rcases List.mem_cons.1 hb with h' | h'
          · exact h'.symm
          · have h2 := (List.pairwise_cons.1 hs).1 b h'
            omega
      subst hab
      rw [ih (List.pairwise_cons.1 hm).2 _ (List.pairwise_cons.1 hs).2 (List.Perm.cons_inv hp')]

/-- The start value of the parameter (`init_lambda`). -/
def lam0 : ℚ := -1 / 10

/-- The result of `PMF::run`. -/
structure RunSpec (E : List Arc) (j : ℕ) (y : ℕ → YPair) (d' : ℚ) (X0 : Finset ℕ)
    (t : List (ℚ × Finset ℕ)) : Prop where
  least : LeastAt E j y lam0 X0
  ne : t ≠ []
  chain : SChain E j y X0 t
  last : slast X0 t = ∅
  lo : ∀ c ∈ t.map Prod.fst, lam0 < c
  inc : (t.map Prod.fst).Pairwise (· < ·)
  gran : ∀ c ∈ t.map Prod.fst, Gran d' c

/-- **`PMF::run`.** -/
theorem pmfRun_spec {W : WarmSolver} (hW : W.Minimal) {g : Digraph} (hg : PGood g.arcs ε)
    (hnodes : ∀ i < j + 1, i ∈ g.nodes) (hjn : j < g.countNodes)
    {d : ℚ} {L : ℕ} (hd : 0 < d) (hL : L ≠ 0) (hLd : ∀ c, 0 < c → c ≤ j → c ∣ L)
    (hεd : 10 * ε < d / L) (hE : ∀ e ∈ g.arcs, Gran d e.cap) (hy : ∀ i < j, GranY d (y i))
    (h0 : Gran (d / L) lam0) (hneg : ∃ Z ⊆ Finset.range j, obj g.arcs j y lam0 Z < obj g.arcs j y lam0 ∅) :
    ∃ X0 t, pmfRun W ε g j y = .ok ((X0 :: t.map Prod.snd).map (insert j), t.map Prod.fst) ∧
      RunSpec g.arcs j y (d / L) X0 t := by
  unfold pmfRun pmfRunIds
  rw [if_neg (by
    push Not
    intro i hi
    exact hnodes i (List.mem_range.1 hi))]
  dsimp only
  change ∃ X0 t, (pmfSlice W ε g.arcs g.countNodes j y (j + 1)
    (pmfSide W (pmfNet ε g.arcs j y lam0) none j) {j} (W.run (pmfNet ε g.arcs j y lam0) none).flow lam0
    none >>= _) = _ ∧ _
  obtain ⟨hmin, _, hleast⟩ := warm_min (W := W) (j := j) (y := y) (l := lam0) (init := none)
    hW.toCorrect hg (by simp)
  have hleast := hleast hW
  have hflow := hW.flow (pmfNet ε g.arcs j y lam0) none (pmfNet_nonneg hg) (by simp)
  unfold pmfSide
  set X0 := W.sinkSide (pmfNet ε g.arcs j y lam0) none with hX0
  have hne : (∅ : Finset ℕ) ⊂ X0 := by
    rw [Finset.empty_ssubset, Finset.nonempty_iff_ne_empty]
    intro h
    obtain ⟨Z, hZ, hneg⟩ := hneg
    have := hmin.le Z hZ
    rw [h] at this
    linarith
  obtain ⟨sets, lams, t, he, hs⟩ := pmfSlice_spec hW hg hjn hd hL hLd hεd hE hy (j + 1) X0 ∅ _ lam0 none
    (by
      have := Finset.card_le_card hmin.sub
      rw [Finset.card_range] at this
      simp; omega) ⟨hne, hleast, h0, by simp, by simp⟩ hflow
  rw [insert_empty_eq] at he
  rw [he]
  simp only [Outcome.ok_bind, Outcome.pure_eq]
  refine ⟨X0, t, ?_, ⟨hleast, hs.ne, hs.chain, hs.last, hs.lo, hs.inc, hs.gran⟩⟩
  congr 2
  · apply sort_chain
    · have e := slast_eq X0 hs.ne
      rw [hs.last] at e
      rw [e, List.map_cons, List.map_append]
      refine List.Perm.cons _ ?_
      refine (List.Perm.cons _ hs.sets).trans ?_
      simp only [List.map_cons, List.map_nil, insert_empty_eq]
      exact (List.perm_append_comm (l₁ := [({j} : Finset ℕ)]))
    · rw [List.pairwise_map]
      refine (hs.chain.pairwise.imp_of_mem ?_)
      intro a b ha hb hab
      have hjn : ∀ Z ∈ X0 :: t.map Prod.snd, j ∉ Z := by
        intro Z hZ hj
        rcases List.mem_cons.1 hZ with rfl | hZ
        · simpa using hmin.sub hj
        · simpa using hs.chain.mem_range Z hZ hj
      refine ⟨Finset.insert_subset_insert _ hab.1, fun h => hab.2 ?_⟩
      intro v hv
      have := h (Finset.mem_insert_of_mem hv)
      rcases Finset.mem_insert.1 this with h' | h'
      · exact absurd (h' ▸ hv) (hjn a ha)
      · exact h'
  · have := hs.lams
    have h1 := List.perm_insertionSort (· ≤ ·) lams
    have h2 := List.pairwise_insertionSort (· ≤ ·) lams
    exact List.Perm.eq_of_pairwise' (r := (· ≤ ·)) h2 (hs.inc.imp le_of_lt) (h1.trans this)

/-! ### which set is a minimiser where -/

theorem MinAt.between (hE : NonnegE E) {a b : ℚ} (ha : MinAt E j y a A) (hb : MinAt E j y b A)
    (h1 : a ≤ l) (h2 : l ≤ b) : MinAt E j y l A := by
  refine ⟨ha.sub, fun Z hZ => ?_⟩
  have s := obj_submodular (j := j) (y := y) hE l A Z
  have u1 := obj_mono (E := E) (j := j) (y := y) h1 (Finset.subset_union_left : A ⊆ A ∪ Z)
  have u2 := ha.le _ (Finset.union_subset ha.sub hZ)
  have i1 := obj_mono (E := E) (j := j) (y := y) h2 (Finset.inter_subset_left : A ∩ Z ⊆ A)
  have i2 := hb.le (A ∩ Z) (Finset.inter_subset_left.trans ha.sub)
  linarith

theorem MinAt.empty_of_ge {a : ℚ} (ha : MinAt E j y a ∅) (h1 : a ≤ l) : MinAt E j y l ∅ := by
  refine ⟨ha.sub, fun Z hZ => ?_⟩
  have u1 := obj_mono (E := E) (j := j) (y := y) h1 (Finset.empty_subset Z)
  have u2 := ha.le _ hZ
  linarith

/-- The parameter at which `u` leaves the chain. -/
def leave : List (ℚ × Finset ℕ) → ℕ → ℚ
  | [], _ => 0
  | (c, B) :: t, u => if u ∈ B then leave t u else c

theorem leave_mem (h : slast A t = ∅) {u : ℕ} (hu : u ∈ A) : leave t u ∈ t.map Prod.fst := by
  induction t generalizing A with
  | nil => rw [show A = ∅ from h] at hu; simp at hu
  | cons cb t ih =>
    obtain ⟨c, B⟩ := cb
    unfold leave
    split
    · rename_i hB
      exact List.mem_cons_of_mem _ (ih h hB)
    · exact List.mem_cons_self

/-- `x` on consecutive intervals: from `a` up to the given end, `none` meaning forever. -/
def IChain {α : Type} (D : ℚ → α → Prop) : ℚ → List (α × Option ℚ) → Prop
  | _, [] => False
  | a, (x, none) :: r => r = [] ∧ ∀ l, a ≤ l → D l x
  | a, (x, some b) :: r => a < b ∧ (∀ l, a ≤ l → l ≤ b → D l x) ∧ IChain D b r

theorem IChain.mono {α : Type} {D D' : ℚ → α → Prop} {a : ℚ} {r : List (α × Option ℚ)}
    (h : IChain D a r) (hD : ∀ l, a ≤ l → ∀ x, D l x → D' l x) : IChain D' a r := by
  induction r generalizing a with
  | nil => exact h
  | cons xb r ih =>
    obtain ⟨x, b⟩ := xb
    cases b with
    | none => exact ⟨h.1, fun l hl => hD l hl x (h.2 l hl)⟩
    | some b =>
      exact ⟨h.1, fun l hl hlb => hD l hl x (h.2.1 l hl hlb),
        ih h.2.2 fun l hl => hD l (h.1.le.trans hl)⟩

/-- `Z` is the set of the chain `A, t` for the parameter `l`. -/
structure StepIn (E : List Arc) (j : ℕ) (y : ℕ → YPair) (A : Finset ℕ) (t : List (ℚ × Finset ℕ))
    (l : ℚ) (Z : Finset ℕ) : Prop where
  min : MinAt E j y l Z
  sub : Z ⊆ A
  inside : ∀ u ∈ Z, l ≤ leave t u
  outside : ∀ u ∈ A, u ∉ Z → leave t u ≤ l
  rest : ∃ t2, SChain E j y Z t2 ∧ slast Z t2 = ∅ ∧ ∀ u ∈ Z, leave t u = leave t2 u

theorem SChain.intervals (hE : NonnegE E) {a : ℚ} (h : SChain E j y A t) (hlast : slast A t = ∅)
    (ha : MinAt E j y a A) (hlo : ∀ c ∈ t.map Prod.fst, a < c) (hinc : (t.map Prod.fst).Pairwise (· < ·)) :
    IChain (StepIn E j y A t) a ((A :: t.map Prod.snd).zip ((t.map Prod.fst).map some ++ [none])) := by
  induction t generalizing A a with
  | nil =>
    have hA : A = ∅ := hlast
    subst hA
    refine ⟨rfl, fun l hl => ⟨ha.empty_of_ge hl, subset_rfl, by simp, by simp, [], trivial, rfl, by simp⟩⟩
  | cons cb t ih =>
    obtain ⟨c, B⟩ := cb
    have hac : a < c := hlo c (by simp)
    rw [List.map_cons, List.pairwise_cons] at hinc
    have hge : ∀ u ∈ A, c ≤ leave ((c, B) :: t) u := by
      intro u hu
      have := leave_mem (t := (c, B) :: t) hlast hu
      rcases List.mem_cons.1 this with h' | h'
      · exact h'.ge
      · exact (hinc.1 _ h').le
    refine ⟨hac, fun l hl hlb => ⟨ha.between hE h.1 hl hlb, subset_rfl, fun u hu => hlb.trans (hge u hu),
      fun u hu hu' => absurd hu hu', _, h, hlast, fun _ _ => rfl⟩, ?_⟩
    have hrec := ih (A := B) (a := c) h.2.2.2 hlast h.2.1 hinc.1 hinc.2
    refine hrec.mono fun l hl Z hZ => ?_
    have hBA := h.2.2.1.1
    have hleave : ∀ u ∈ B, leave ((c, B) :: t) u = leave t u := fun u hu => by simp [leave, hu]
    refine ⟨hZ.min, hZ.sub.trans hBA, fun u hu => ?_, fun u hu hu' => ?_, ?_⟩
    · rw [hleave u (hZ.sub hu)]; exact hZ.inside u hu
    · by_cases hB : u ∈ B
      · rw [hleave u hB]; exact hZ.outside u hB hu'
      · have : leave ((c, B) :: t) u = c := by simp [leave, hB]
        rw [this]; exact hl
    · obtain ⟨t2, h1, h2, h3⟩ := hZ.rest
      exact ⟨t2, h1, h2, fun u hu => by rw [hleave u (hZ.sub hu)]; exact h3 u hu⟩

/-! ### the sums along the chain -/

/-- `y` at the parameters where the nodes leave. -/
def yLeave (y : ℕ → YPair) (t : List (ℚ × Finset ℕ)) (u : ℕ) : ℚ := yVal (leave t u) (y u)

theorem outer_le (hE : NonnegE E) {Z : Finset ℕ} (hZ : MinAt E j y l Z) (hX : X ⊆ Finset.range j) :
    vsum (yAt y l) (X \ Z) ≤ getCutValue E (insert j X) - getCutValue E (insert j (X ∩ Z)) := by
  have h1 := hZ.le (X ∪ Z) (Finset.union_subset hX hZ.sub)
  have h2 := cutValue_submodular hE (insert j X) (insert j Z)
  rw [← Finset.insert_union_distrib, ← Finset.insert_inter_distrib] at h2
  unfold obj at h1
  have h3 : vsum (yAt y l) (X ∪ Z) = vsum (yAt y l) (X \ Z) + vsum (yAt y l) Z := by
    have := vsum_sdiff (yAt y l) (B := Z) (A := X ∪ Z) Finset.subset_union_right
    rwa [Finset.union_sdiff_right] at this
  linarith

theorem vsum_split (x : ℕ → ℚ) (X Z : Finset ℕ) : vsum x X = vsum x (X \ Z) + vsum x (X ∩ Z) := by
  have := vsum_sdiff x (B := X ∩ Z) (A := X) Finset.inter_subset_left
  rwa [Finset.sdiff_inter_self_left] at this

theorem yLeave_le (hE : NonnegE E) (h : SChain E j y A t) (hlast : slast A t = ∅) :
    ∀ X ⊆ A, X ⊆ Finset.range j →
      vsum (yLeave y t) X ≤ getCutValue E (insert j X) - getCutValue E {j} := by
  induction t generalizing A with
  | nil =>
    intro X hX _
    have hA : A = ∅ := hlast
    subst hA
    rw [Finset.subset_empty.1 hX]
    simp [vsum]
  | cons cb t ih =>
    obtain ⟨c, B⟩ := cb
    intro X hX hXj
    rw [vsum_split _ X B]
    have h1 : vsum (yLeave y ((c, B) :: t)) (X \ B) = vsum (yAt y c) (X \ B) := by
      apply vsum_congr
      intro u hu
      have := (Finset.mem_sdiff.1 hu).2
      simp [yLeave, leave, this, yAt]
    have h2 : vsum (yLeave y ((c, B) :: t)) (X ∩ B) = vsum (yLeave y t) (X ∩ B) := by
      apply vsum_congr
      intro u hu
      have := (Finset.mem_inter.1 hu).2
      simp [yLeave, leave, this]
    rw [h1, h2]
    have h3 := outer_le hE h.2.1 hXj
    have h4 := ih h.2.2.2 hlast (X ∩ B) Finset.inter_subset_right (Finset.inter_subset_left.trans hXj)
    linarith

theorem yLeave_eq (h : SChain E j y A t) (hlast : slast A t = ∅) :
    vsum (yLeave y t) A = getCutValue E (insert j A) - getCutValue E {j} := by
  induction t generalizing A with
  | nil =>
    have hA : A = ∅ := hlast
    subst hA
    simp [vsum]
  | cons cb t ih =>
    obtain ⟨c, B⟩ := cb
    have hBA := h.2.2.1.1
    rw [vsum_sdiff _ hBA]
    have h1 : vsum (yLeave y ((c, B) :: t)) (A \ B) = vsum (yAt y c) (A \ B) := by
      apply vsum_congr
      intro u hu
      have := (Finset.mem_sdiff.1 hu).2
      simp [yLeave, leave, this, yAt]
    have h2 : vsum (yLeave y ((c, B) :: t)) B = vsum (yLeave y t) B := by
      apply vsum_congr
      intro u hu
      simp [yLeave, leave, hu]
    rw [h1, h2, ih h.2.2.2 hlast]
    have h3 := h.1.obj_eq h.2.1
    unfold obj at h3
    rw [vsum_sdiff (yAt y c) hBA] at h3
    linarith

end PSP.Theory
