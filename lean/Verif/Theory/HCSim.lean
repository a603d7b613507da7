import Verif.Theory.HCPartition

/-!
# `HC::similarity`, `HC::getCriticalValues` and the class `CL`
-/

namespace PSP.Theory

open PSP.Spec PSP.Model Relation

section
variable {h : HC} (hf : Forest h)
include hf

theorem fj_false {gam : WithBot ℚ} {i j : ℕ} (hij : i ≠ j) (hi : ¬ gam < h.weight i)
    (hj : ¬ gam < h.weight j) : ¬ FJ h gam i j := by
  rw [fj_iff hf]
  rintro ⟨t, h1, h2⟩
  exact hij (((Top.stop hi).unique h1).trans (h2.unique (.stop hj)))

theorem fj_parent {i : ℕ} (hp : h.parent i ≠ i) (gam : WithBot ℚ) :
    FJ h gam i (h.parent i) ↔ gam < h.weight i := by
  constructor
  · intro hfj
    by_contra hw
    exact fj_false hf hp.symm hw (fun h' => hw (lt_of_lt_of_le h' (hf.mono i hp))) hfj
  · intro hw
    exact EqvGen.rel _ _ ⟨rfl, hw⟩

theorem fj_step {i j : ℕ} (hp : h.parent i ≠ i) (hij : i ≠ j) (hpj : h.parent i ≠ j)
    (hw : h.weight j ≤ h.weight i) (gam : WithBot ℚ) : FJ h gam i j ↔ FJ h gam (h.parent i) j := by
  by_cases hg : gam < h.weight i
  · have e : FJ h gam i (h.parent i) := EqvGen.rel _ _ ⟨rfl, hg⟩
    exact ⟨fun h => EqvGen.trans _ _ _ (EqvGen.symm _ _ e) h, fun h => EqvGen.trans _ _ _ e h⟩
  · have h1 := fj_false hf hij hg (fun h' => hg (lt_of_lt_of_le h' hw))
    have h2 := fj_false hf hpj (fun h' => hg (lt_of_lt_of_le h' (hf.mono i hp)))
      (fun h' => hg (lt_of_lt_of_le h' hw))
    exact ⟨fun h => absurd h h1, fun h => absurd h h2⟩

/-- What `similarity` computes for two different nodes. -/
def SimSpec (h : HC) (i j : ℕ) (s : WithTop (WithBot ℚ)) : Prop :=
  (¬ FJ h ⊥ i j ∧ s = ((0 : ℚ) : WithBot ℚ)) ∨
    ∃ w : ℚ, s = ((w : WithBot ℚ) : WithTop (WithBot ℚ)) ∧ (∀ gam, FJ h gam i j ↔ gam < (w : WithBot ℚ)) ∧
      ∃ x, h.parent x ≠ x ∧ h.weight x = (w : WithBot ℚ)

theorem simSpec_edge {i : ℕ} (hp : h.parent i ≠ i) :
    SimSpec h i (h.parent i) (h.weight i : WithTop (WithBot ℚ)) := by
  right
  have hb : h.weight i ≠ ⊥ := fun hb => hp ((hf.bot i).1 hb)
  obtain ⟨w, hw⟩ := WithBot.ne_bot_iff_exists.1 hb
  refine ⟨w, by rw [hw], fun gam => ?_, i, hp, hw.symm⟩
  rw [fj_parent hf hp, hw]

omit hf in
theorem SimSpec.congr {i j i' j' : ℕ} {s : WithTop (WithBot ℚ)} (hs : SimSpec h i j s)
    (hc : ∀ gam, FJ h gam i' j' ↔ FJ h gam i j) : SimSpec h i' j' s := by
  rcases hs with ⟨h1, h2⟩ | ⟨w, h1, h2, h3⟩
  · exact .inl ⟨by rw [hc]; exact h1, h2⟩
  · exact .inr ⟨w, h1, fun gam => (hc gam).trans (h2 gam), h3⟩

omit hf in
theorem fj_comm (gam : WithBot ℚ) (i j : ℕ) : FJ h gam i j ↔ FJ h gam j i :=
  ⟨EqvGen.symm _ _, EqvGen.symm _ _⟩

theorem similarityAux_spec : ∀ (f : ℕ) (i j : ℕ), i < h.n → j < h.n → i ≠ j →
    above h i + above h j < f → ∃ s, h.similarityAux f i j = .ok s ∧ SimSpec h i j s := by
  intro f
  induction f with
  | zero => intro i j _ _ _ hl; omega
  | succ f ih =>
    intro i j hi hj hij hl
    rw [HC.similarityAux, if_neg hij, if_neg (by omega)]
    by_cases h1 : h.parent i = i ∧ h.parent j = j
    · rw [if_pos h1]
      refine ⟨_, rfl, .inl ⟨fj_false hf hij ?_ ?_, rfl⟩⟩
      · rw [hf.pos_iff]; exact not_not.2 h1.1
      · rw [hf.pos_iff]; exact not_not.2 h1.2
    rw [if_neg h1]
    by_cases h2 : h.parent i = j
    · rw [if_pos h2]
      refine ⟨_, rfl, ?_⟩
      have := simSpec_edge hf (i := i) (by rw [h2]; exact hij.symm)
      rwa [h2] at this
    rw [if_neg h2]
    by_cases h3 : h.parent j = i
    · rw [if_pos h3]
      refine ⟨_, rfl, ?_⟩
      have := simSpec_edge hf (i := j) (by rw [h3]; exact hij)
      rw [h3] at this
      exact this.congr (fun gam => fj_comm gam i j)
    rw [if_neg h3]
    by_cases h4 : h.weight i ≥ h.weight j
    · rw [if_pos h4]
      have hp : h.parent i ≠ i := by
        intro hp
        have hb := (hf.bot i).2 hp
        rw [ge_iff_le, hb, le_bot_iff] at h4
        exact h1 ⟨hp, (hf.bot j).1 h4⟩
      have ha := above_parent hf hi hp
      obtain ⟨s, hs1, hs2⟩ := ih (h.parent i) j (hf.lt i hi) hj h2 (by omega)
      exact ⟨s, hs1, hs2.congr (fun gam => fj_step hf hp hij h2 h4 gam)⟩
    · rw [if_neg h4]
      have hlt : h.weight i < h.weight j := not_le.1 h4
      have hp : h.parent j ≠ j := hf.ne_of_lt hlt
      have ha := above_parent hf hj hp
      obtain ⟨s, hs1, hs2⟩ := ih (h.parent j) i (hf.lt j hj) hi h3 (by omega)
      exact ⟨s, hs1, hs2.congr (fun gam =>
        (fj_comm gam i j).trans (fj_step hf hp hij.symm h3 hlt.le gam))⟩

theorem similarity_spec {i j : ℕ} (hi : i < h.n) (hj : j < h.n) (hij : i ≠ j) :
    ∃ s, h.similarity i j = .ok s ∧ SimSpec h i j s := by
  refine similarityAux_spec hf _ i j hi hj hij ?_
  have := above_lt (h := h) hi
  have := above_lt (h := h) hj
  omega

/-! ### `getCriticalValues(i)` -/

omit hf in
theorem pushSmaller_spec {l : List (WithBot ℚ)} (hl : l.Pairwise (· > ·)) {w : WithBot ℚ}
    (hw : ∀ v ∈ l, w ≤ v) :
    (HC.pushSmaller l w).Pairwise (· > ·) ∧ ∀ v, v ∈ HC.pushSmaller l w ↔ v ∈ l ∨ v = w := by
  unfold HC.pushSmaller
  split_ifs with hc
  · refine ⟨?_, by simp⟩
    rw [List.pairwise_append]
    refine ⟨hl, by simp, ?_⟩
    intro x hx y hy
    rw [List.mem_singleton] at hy
    subst hy
    rcases hc with rfl | ⟨b, hb, hbw⟩
    · simp at hx
    · obtain ⟨l', rfl⟩ : ∃ l', l = l' ++ [b] := by
        rw [Option.mem_def, List.getLast?_eq_some_iff] at hb; exact hb
      rcases List.mem_append.1 hx with hx | hx
      · exact lt_trans hbw ((List.pairwise_append.1 hl).2.2 x hx b (by simp))
      · rw [List.mem_singleton] at hx; subst hx; exact hbw
  · refine ⟨hl, fun v => ⟨.inl, ?_⟩⟩
    rintro (hv | rfl)
    · exact hv
    · push Not at hc
      obtain ⟨b, hb⟩ : ∃ b, l.getLast? = some b := by
        rcases hg : l.getLast? with _ | b
        · exact absurd (List.getLast?_eq_none_iff.1 hg) hc.1
        · exact ⟨b, rfl⟩
      have h1 := hc.2 b hb
      have h2 := hw b (List.mem_of_getLast? hb)
      rw [le_antisymm h2 h1]
      exact List.mem_of_getLast? hb

omit hf in
theorem foldl_pushSmaller : ∀ (ws : List (WithBot ℚ)) {l : List (WithBot ℚ)},
    l.Pairwise (· > ·) → (∀ w ∈ ws, ∀ v ∈ l, w ≤ v) → ws.Pairwise (· ≥ ·) →
    (ws.foldl HC.pushSmaller l).Pairwise (· > ·) ∧
      ∀ v, v ∈ ws.foldl HC.pushSmaller l ↔ v ∈ l ∨ v ∈ ws := by
  intro ws
  induction ws with
  | nil => intro l hl _ _; exact ⟨hl, by simp⟩
  | cons w ws ih =>
    intro l hl hle hws
    rw [List.pairwise_cons] at hws
    obtain ⟨h1, h2⟩ := pushSmaller_spec hl (hle w (by simp))
    obtain ⟨h3, h4⟩ := ih h1 (by
      intro w' hw' v hv
      rcases (h2 v).1 hv with hv | rfl
      · exact hle w' (by simp [hw']) v hv
      · exact hws.1 w' hw') hws.2
    refine ⟨h3, fun v => ?_⟩
    rw [List.foldl_cons, h4, h2]
    simp only [List.mem_cons]; tauto

/-- Weights met on the way from `i` to its root. -/
def PathWeight (h : HC) (i : ℕ) (v : WithBot ℚ) : Prop :=
  ∃ k, h.parent (h.parent^[k] i) ≠ h.parent^[k] i ∧ h.weight (h.parent^[k] i) = v

omit hf in
theorem pathWeight_root {i : ℕ} (hp : h.parent i = i) (v : WithBot ℚ) : ¬ PathWeight h i v := by
  rintro ⟨k, h1, -⟩
  rw [Function.iterate_fixed hp] at h1
  exact h1 hp

omit hf in
theorem pathWeight_step {i : ℕ} (hp : h.parent i ≠ i) (v : WithBot ℚ) :
    PathWeight h i v ↔ v = h.weight i ∨ PathWeight h (h.parent i) v := by
  constructor
  · rintro ⟨k, h1, h2⟩
    cases k with
    | zero => exact .inl h2.symm
    | succ k => exact .inr ⟨k, by simpa using h1, by simpa using h2⟩
  · rintro (rfl | ⟨k, h1, h2⟩)
    · exact ⟨0, hp, rfl⟩
    · exact ⟨k + 1, by simpa using h1, by simpa using h2⟩

theorem ancestorValues_spec : ∀ (f : ℕ) (i : ℕ) (l : List (WithBot ℚ)), i < h.n →
    above h i < f → l.Pairwise (· > ·) → (∀ v ∈ l, h.weight i ≤ v) →
    ∃ l', h.ancestorValues f i l = .ok l' ∧ l'.Pairwise (· > ·) ∧
      ∀ v, v ∈ l' ↔ v ∈ l ∨ PathWeight h i v := by
  intro f
  induction f with
  | zero => intro i l _ hl; omega
  | succ f ih =>
    intro i l hi hl hs hle
    rw [HC.ancestorValues]
    by_cases hp : h.parent i = i
    · rw [if_neg (by simpa using hp)]
      exact ⟨l, rfl, hs, fun v => by simp [pathWeight_root hp]⟩
    · rw [if_pos hp]
      obtain ⟨h1, h2⟩ := pushSmaller_spec hs hle
      have ha := above_parent hf hi hp
      obtain ⟨l', h3, h4, h5⟩ := ih (h.parent i) _ (hf.lt i hi) (by omega) h1 (by
        intro v hv
        have hm := hf.mono i hp
        rcases (h2 v).1 hv with hv | rfl
        · exact hm.trans (hle v hv)
        · exact hm)
      refine ⟨l', h3, h4, fun v => ?_⟩
      rw [h5, h2, pathWeight_step hp]; tauto

theorem getCriticalValuesOf_spec {i : ℕ} (hi : i < h.n) :
    ∃ l, h.getCriticalValuesOf i = .ok l ∧ l.Pairwise (· > ·) ∧
      ∀ v, v ∈ l ↔ (∃ c ∈ h.children i, h.weight c = v) ∨ PathWeight h i v := by
  unfold HC.getCriticalValuesOf
  rw [if_neg (by omega)]
  have e : (h.children i).foldl (fun l j => HC.pushSmaller l (h.weight j)) [] =
      ((h.children i).map h.weight).foldl HC.pushSmaller [] := by rw [List.foldl_map]
  rw [e]
  obtain ⟨h1, h2⟩ := foldl_pushSmaller ((h.children i).map h.weight) (l := []) (by simp) (by simp)
    (hf.order i)
  obtain ⟨l, h3, h4, h5⟩ := ancestorValues_spec hf (h.n + 1) i _ hi
    (by have := above_lt (h := h) hi; omega) h1 (by
      intro v hv
      rw [h2] at hv
      simp only [List.not_mem_nil, List.mem_map, false_or] at hv
      obtain ⟨c, hc, rfl⟩ := hv
      obtain ⟨k1, k2⟩ := (hf.kids _ _).1 hc
      have := hf.mono c (by rw [k1]; exact k2.symm)
      rwa [k1] at this)
  refine ⟨l, h3, h4, fun v => ?_⟩
  rw [h5, h2]; simp

omit hf in
theorem iterate_ne {i k : ℕ} (hk : h.parent (h.parent^[k] i) ≠ h.parent^[k] i) :
    ∀ m, m ≤ k → h.parent (h.parent^[m] i) ≠ h.parent^[m] i := by
  intro m hm hp
  apply hk
  obtain ⟨d, rfl⟩ := Nat.exists_eq_add_of_le hm
  rw [Nat.add_comm, Function.iterate_add_apply, Function.iterate_fixed hp, hp]

/-- From `i` up to an ancestor all edges are at least as heavy as the one above that ancestor. -/
theorem fj_ancestor {i : ℕ} : ∀ {k : ℕ} {gam : WithBot ℚ},
    h.parent (h.parent^[k] i) ≠ h.parent^[k] i → gam < h.weight (h.parent^[k] i) →
    FJ h gam i (h.parent^[k] i) := by
  intro k
  induction k with
  | zero => intro gam _ _; exact EqvGen.refl _
  | succ k ih =>
    intro gam hk hw
    have hk' := iterate_ne hk k (by omega)
    rw [Function.iterate_succ_apply'] at hw ⊢
    have hw' := lt_of_lt_of_le hw (hf.mono _ hk')
    exact EqvGen.trans _ _ _ (ih hk' hw') (EqvGen.rel _ _ ⟨rfl, hw'⟩)

/-- A path weight `v` of `i` is where `i` gets together with some node. -/
theorem pathWeight_joined {i : ℕ} (hi : i < h.n) {v : WithBot ℚ} (hv : PathWeight h i v) :
    ∃ j, j < h.n ∧ j ≠ i ∧ ∀ gam, FJ h gam i j ↔ gam < v := by
  obtain ⟨k, h1, rfl⟩ := hv
  have hr := chain_rank hf hi (Nat.zero_le k)
  have hr' := hf.rank _ (chain_lt hf hi k) h1
  simp only [Function.iterate_zero, id_eq] at hr
  refine ⟨h.parent (h.parent^[k] i), hf.lt _ (chain_lt hf hi k), ?_, fun gam => ⟨fun hfj => ?_, fun hw => ?_⟩⟩
  · intro he; rw [he] at hr'; omega
  · by_contra hw
    -- the top of `i` is below, the top of the parent is above
    have key : ∀ m, m ≤ k → ∀ t, Top h gam (h.parent^[m] i) t →
        ∃ l, m ≤ l ∧ l ≤ k ∧ t = h.parent^[l] i := by
      intro m hm
      induction hd : k - m generalizing m with
      | zero =>
        obtain rfl : m = k := by omega
        intro t ht
        exact ⟨m, le_rfl, le_rfl, ht.unique (.stop hw)⟩
      | succ d ih =>
        intro t ht
        cases ht with
        | stop _ => exact ⟨m, le_rfl, hm, rfl⟩
        | up _ ht =>
          rw [← Function.iterate_succ_apply' h.parent m i] at ht
          obtain ⟨l, a, b, c⟩ := ih (m + 1) (by omega) (by omega) t ht
          exact ⟨l, by omega, b, c⟩
    obtain ⟨t, t1, t2⟩ := (fj_iff hf).1 hfj
    obtain ⟨l, -, hl, ht⟩ := key 0 (by omega) t t1
    have hpar : ¬ gam < h.weight (h.parent (h.parent^[k] i)) :=
      fun h' => hw (lt_of_lt_of_le h' (hf.mono _ h1))
    have e := t2.unique (.stop hpar)
    have r1 := chain_rank hf hi hl
    rw [← ht, e] at r1
    omega
  · exact EqvGen.trans _ _ _ (fj_ancestor hf h1 hw) (EqvGen.rel _ _ ⟨rfl, hw⟩)

theorem criticalValuesOf_sound {i : ℕ} (hi : i < h.n) {v : WithBot ℚ}
    (hv : (∃ c ∈ h.children i, h.weight c = v) ∨ PathWeight h i v) :
    ∃ j, j < h.n ∧ j ≠ i ∧ ∀ gam, FJ h gam i j ↔ gam < v := by
  rcases hv with ⟨c, hc, rfl⟩ | hv
  · obtain ⟨k1, k2⟩ := (hf.kids _ _).1 hc
    have hp : h.parent c ≠ c := by rw [k1]; exact k2.symm
    refine ⟨c, ?_, k2, fun gam => ?_⟩
    · by_contra hcn; exact hp (hf.out c (by omega))
    · rw [fj_comm, ← fj_parent hf hp, k1]
  · exact pathWeight_joined hf hi hv

/-- Nothing joins `i` above its children's weights and its own. -/
theorem criticalValuesOf_first {i j : ℕ} {gam : WithBot ℚ} (hij : j ≠ i) (hfj : FJ h gam i j) :
    ∃ v, ((∃ c ∈ h.children i, h.weight c = v) ∨ PathWeight h i v) ∧ gam < v := by
  by_contra hn
  push Not at hn
  have hw : ¬ gam < h.weight i := by
    intro hw
    exact absurd hw (not_lt.2 (hn _ (.inr ⟨0, hf.ne_of_lt hw, rfl⟩)))
  have hc : ∀ x y, FJ h gam x y → (x = i ↔ y = i) := by
    intro x y hxy
    induction hxy with
    | rel x y hr =>
      obtain ⟨rfl, hx⟩ := hr
      constructor
      · rintro rfl; exact absurd hx hw
      · intro hp
        have hne := hf.ne_of_lt hx
        have : x ∈ h.children i := (hf.kids _ _).2 ⟨hp, fun hxi => hne (hp.trans hxi.symm)⟩
        exact absurd hx (not_lt.2 (hn _ (.inl ⟨x, this, rfl⟩)))
    | refl => exact Iff.rfl
    | symm _ _ _ ih => exact ih.symm
    | trans _ _ _ _ _ i1 i2 => exact i1.trans i2
  exact hij ((hc i j hfj).1 rfl)

end

/-! ### The class `CL` -/

theorem Joined.mono {A : List Link} {gam gam' : WithBot ℚ} (hle : gam' ≤ gam) {x y : ℕ}
    (hj : Joined A gam x y) : Joined A gam' x y :=
  eqvGen_imp (fun _ _ ⟨a, h1, h2, h3, h4⟩ => EqvGen.rel _ _ ⟨a, h1, h2, h3, lt_of_le_of_lt hle h4⟩)
    _ _ hj

/-- With descending values nothing is lost by the rejected requests. -/
theorem joined_acceptedFrom : ∀ (cs A : List Link), (∀ a ∈ A, ∀ c ∈ cs, c.val ≤ a.val) →
    cs.Pairwise (fun a b => b.val ≤ a.val) → ∀ gam x y,
    Joined (acceptedFrom A cs) gam x y ↔ Joined (A ++ cs) gam x y := by
  classical
  intro cs
  induction cs with
  | nil => intro A _ _ gam x y; simp [acceptedFrom]
  | cons c cs ih =>
    intro A hA hcs gam x y
    rw [List.pairwise_cons] at hcs
    have hstep : acceptedFrom A (c :: cs) =
        acceptedFrom (if Accepts A c then A ++ [c] else A) cs := by
      unfold acceptedFrom
      simp only [List.foldl_cons]
    rw [hstep]
    split_ifs with hacc
    · rw [ih _ _ hcs.2]
      · simp
      · intro a ha c' hc'
        rcases List.mem_append.1 ha with ha | ha
        · exact hA a ha c' (by simp [hc'])
        · rw [List.mem_singleton] at ha; subst ha; exact hcs.1 c' hc'
    · rw [ih _ (fun a ha c' hc' => hA a ha c' (by simp [hc'])) hcs.2]
      have hj : Joined A ⊥ c.i c.j := by
        by_contra hj
        exact hacc ⟨hj, fun a ha => hA a ha c (by simp)⟩
      refine eqvGen_congr ?_ ?_ x y
      · rintro x y ⟨a, ha, hh⟩
        refine EqvGen.rel _ _ ⟨a, ?_, hh⟩
        rcases List.mem_append.1 ha with ha | ha
        · exact List.mem_append_left _ ha
        · exact List.mem_append_right _ (by simp [ha])
      · rintro x y ⟨a, ha, h1, h2, h3⟩
        rcases List.mem_append.1 ha with ha | ha
        · exact EqvGen.rel _ _ ⟨a, List.mem_append_left _ ha, h1, h2, h3⟩
        · rcases List.mem_cons.1 ha with rfl | ha
          · subst h1 h2
            -- all of `A` is above the threshold
            refine eqvGen_imp ?_ _ _ hj
            rintro u v ⟨b, hb, k1, k2, -⟩
            refine EqvGen.rel _ _ ⟨b, List.mem_append_left _ hb, k1, k2, lt_of_lt_of_le h3 ?_⟩
            exact WithBot.coe_le_coe.2 (hA b hb _ (by simp))
          · exact EqvGen.rel _ _ ⟨a, List.mem_append_right _ ha, h1, h2, h3⟩

/-- The requests made by `CL::agglomerate`. -/
theorem clLoop_eq (first second : List ℕ) (info : List ℚ) : ∀ (ks : List ℕ) (h : HC),
    (∀ k ∈ ks, k < first.length ∧ k < second.length ∧ k < info.length) →
    clLoop first second info ks h =
      h.mergeAll (ks.map fun k => ⟨first.getD k 0, second.getD k 0, info.getD k 0⟩) := by
  intro ks
  induction ks with
  | nil => intro h _; rfl
  | cons k ks ih =>
    intro h hk
    obtain ⟨h1, h2, h3⟩ := hk k (by simp)
    rw [clLoop, List.getElem?_eq_getElem h1, List.getElem?_eq_getElem h2,
      List.getElem?_eq_getElem h3]
    simp only [List.map_cons, HC.mergeAll, List.getD_eq_getElem?_getD,
      List.getElem?_eq_getElem h1, List.getElem?_eq_getElem h2, List.getElem?_eq_getElem h3,
      Option.getD_some]
    cases h.merge first[k] second[k] info[k] with
    | ok r => 
      simp only [Outcome.ok_bind]
      rw [ih _ (fun k hk' => hk k (by simp [hk']))]
      simp only [List.getD_eq_getElem?_getD]
    | _ => rfl

end PSP.Theory
