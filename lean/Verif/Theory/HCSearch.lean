import Verif.Theory.HCForest

/-!
# The breadth first search of `HC` finds the component of its start
-/

namespace PSP.Theory

open PSP.Spec PSP.Model Relation

section
variable {h : HC} (hf : Forest h) {s : ℕ} (hs : s < h.n)

/-- `s` and its ancestors. -/
def OnChain (h : HC) (s x : ℕ) : Prop := ∃ k, x = h.parent^[k] s

theorem OnChain.self (h : HC) (s : ℕ) : OnChain h s s := ⟨0, rfl⟩

theorem OnChain.parent {x : ℕ} (hx : OnChain h s x) : OnChain h s (h.parent x) := by
  obtain ⟨k, rfl⟩ := hx
  exact ⟨k + 1, (Function.iterate_succ_apply' _ _ _).symm⟩

/-- `y` is the neighbour of `x` in the direction of `s`. -/
def Pred (h : HC) (s x y : ℕ) : Prop :=
  OnChain h s y ∧ h.parent y = x ∧ y ≠ x ∨ ¬ OnChain h s x ∧ h.parent x = y ∧ x ≠ y

include hf hs

theorem chain_lt (k : ℕ) : h.parent^[k] s < h.n := by
  induction k with
  | zero => exact hs
  | succ k ih => rw [Function.iterate_succ_apply']; exact hf.lt _ ih

theorem chain_rank {k l : ℕ} (hkl : k ≤ l) :
    h.rank (h.parent^[k] s) ≤ h.rank (h.parent^[l] s) := by
  induction l, hkl using Nat.le_induction with
  | base => exact le_rfl
  | succ l hl ih =>
    refine ih.trans ?_
    rw [Function.iterate_succ_apply']
    by_cases hp : h.parent (h.parent^[l] s) = h.parent^[l] s
    · rw [hp]
    · exact (hf.rank _ (chain_lt hf hs l) hp).le

theorem chain_unique {x y y' : ℕ} (h1 : OnChain h s y) (h2 : OnChain h s y')
    (e1 : h.parent y = x) (e2 : h.parent y' = x) (n1 : y ≠ x) (n2 : y' ≠ x) : y = y' := by
  have key : ∀ {k l : ℕ}, h.parent (h.parent^[k] s) = x → h.parent (h.parent^[l] s) = x →
      h.parent^[l] s ≠ x → ¬ k < l := by
    intro k l a1 a2 a3 hkl
    have r1 := chain_rank hf hs (show k + 1 ≤ l from hkl)
    rw [Function.iterate_succ_apply', a1] at r1
    have r2 := hf.rank _ (chain_lt hf hs l) (by rw [a2]; exact a3.symm)
    rw [a2] at r2
    omega
  obtain ⟨k, rfl⟩ := h1
  obtain ⟨l, rfl⟩ := h2
  have a := key e1 e2 n2
  have b := key e2 e1 n1
  have : k = l := by omega
  rw [this]

theorem Pred.unique {x y y' : ℕ} (h1 : Pred h s x y) (h2 : Pred h s x y') : y = y' := by
  rcases h1 with ⟨a1, a2, a3⟩ | ⟨a1, a2, a3⟩ <;> rcases h2 with ⟨b1, b2, b3⟩ | ⟨b1, b2, b3⟩
  · exact chain_unique hf hs a1 b1 a2 b2 a3 b3
  · exact absurd (a2 ▸ a1.parent) b1
  · exact absurd (b2 ▸ b1.parent) a1
  · exact a2.symm.trans b2

theorem Pred.not_start {y : ℕ} (h1 : Pred h s s y) : False := by
  rcases h1 with ⟨⟨k, rfl⟩, a2, a3⟩ | ⟨a1, -⟩
  · have r1 := chain_rank hf hs (Nat.zero_le k)
    have r2 := hf.rank _ (chain_lt hf hs k) (by rw [a2]; exact a3.symm)
    rw [a2] at r2
    simp only [Function.iterate_zero, id_eq] at r1
    omega
  · exact a1 (OnChain.self h s)

omit hf hs in
/-- Every edge leads towards `s` in exactly one of its directions. -/
theorem pred_of_edge {x : ℕ} (hp : h.parent x ≠ x) :
    Pred h s (h.parent x) x ∨ Pred h s x (h.parent x) := by
  by_cases hc : OnChain h s x
  · exact .inl (.inl ⟨hc, rfl, hp.symm⟩)
  · exact .inr (.inr ⟨hc, rfl, hp.symm⟩)

/-- Neighbours above the threshold. -/
def Adj (h : HC) (gam : WithBot ℚ) (x y : ℕ) : Prop := FEdge h gam x y ∨ FEdge h gam y x

theorem Adj.fj {gam : WithBot ℚ} {x y : ℕ} (ha : Adj h gam x y) : FJ h gam x y := by
  rcases ha with ha | ha
  · exact EqvGen.rel _ _ ha
  · exact EqvGen.symm _ _ (EqvGen.rel _ _ ha)

omit hs in
theorem Adj.lt {gam : WithBot ℚ} {x y : ℕ} (ha : Adj h gam x y) (hx : x < h.n) : y < h.n := by
  rcases ha with ⟨rfl, -⟩ | ⟨rfl, hw⟩
  · exact hf.lt x hx
  · by_contra hy
    exact hf.ne_of_lt hw (hf.out y (by omega))

theorem Adj.pred {gam : WithBot ℚ} {x y : ℕ} (ha : Adj h gam x y) :
    Pred h s y x ∨ Pred h s x y := by
  rcases ha with ⟨rfl, hw⟩ | ⟨rfl, hw⟩
  · exact pred_of_edge (hf.ne_of_lt hw)
  · exact (pred_of_edge (hf.ne_of_lt hw)).symm

omit hs in
/-- What a step pushes: the neighbours except the one it came from. -/
theorem mem_pushes {gam : WithBot ℚ} {p : ℕ × ℕ} {a b : ℕ} :
    (a, b) ∈ h.pushes gam p ↔ a = p.2 ∧ b ≠ p.1 ∧ Adj h gam p.2 b := by
  unfold HC.pushes
  simp only [List.mem_append, List.mem_filterMap]
  constructor
  · rintro (hm | ⟨c, hc, hm⟩)
    · split_ifs at hm with hcond
      · simp only [List.mem_singleton, Prod.mk.injEq] at hm
        obtain ⟨rfl, rfl⟩ := hm
        exact ⟨rfl, hcond.2.1, .inl ⟨rfl, hcond.2.2⟩⟩
      · simp at hm
    · split_ifs at hm with hcond
      simp only [Option.some.injEq, Prod.mk.injEq] at hm
      obtain ⟨rfl, rfl⟩ := hm
      exact ⟨rfl, hcond.1, .inr ⟨((hf.kids _ _).1 hc).1, hcond.2⟩⟩
  · rintro ⟨rfl, hb, ⟨rfl, hw⟩ | ⟨hpb, hw⟩⟩
    · left
      rw [if_pos ⟨hf.ne_of_lt hw, hb, hw⟩]; simp
    · right
      refine ⟨b, (hf.kids _ _).2 ⟨hpb, ?_⟩, by rw [if_pos ⟨hb, hw⟩]⟩
      rintro rfl
      exact hf.ne_of_lt hw hpb

omit hs in
theorem pushes_nodup {gam : WithBot ℚ} {p : ℕ × ℕ} (hp : p.2 < h.n) :
    ((h.pushes gam p).map Prod.snd).Nodup := by
  unfold HC.pushes
  simp only [List.map_append]
  rw [List.nodup_append]
  refine ⟨?_, ?_, ?_⟩
  · split_ifs <;> simp
  · have : List.map Prod.snd (List.filterMap (fun c => if c ≠ p.1 ∧ gam < h.weight c then
        some (p.2, c) else none) (h.children p.2)) =
        (h.children p.2).filter fun c => decide (c ≠ p.1 ∧ gam < h.weight c) := by
      induction h.children p.2 with
      | nil => rfl
      | cons c cs ih =>
        rw [List.filterMap_cons, List.filter_cons]
        by_cases hc : c ≠ p.1 ∧ gam < h.weight c
        · rw [if_pos hc, if_pos (decide_eq_true hc)]
          simp only [List.map_cons, ih]
        · rw [if_neg hc, if_neg (by simpa using hc)]
          exact ih
    rw [this]
    exact (hf.nodup _).filter _
  · intro x hx y hy
    simp only [List.mem_map, List.mem_filterMap] at hx hy
    obtain ⟨z, hz, rfl⟩ := hx
    obtain ⟨z', ⟨c, hc, hz'⟩, rfl⟩ := hy
    split_ifs at hz with h1
    · split_ifs at hz' with h2
      simp only [List.mem_singleton] at hz
      simp only [Option.some.injEq] at hz'
      subst hz hz'
      simp only
      rintro rfl
      have k := (hf.kids _ _).1 hc
      have r1 := hf.rank _ hp h1.1
      have r2 := hf.rank _ (hf.lt _ hp) (by rw [k.1]; exact k.2.symm)
      rw [k.1] at r2
      omega
    · simp at hz

/-- Invariant of the search: `C` the nodes seen, `Q` the queue. -/
structure SInv (h : HC) (s : ℕ) (gam : WithBot ℚ) (C : List ℕ) (Q : List (ℕ × ℕ)) : Prop where
  nodup : (C ++ Q.map Prod.snd).Nodup
  lt : ∀ x ∈ C ++ Q.map Prod.snd, x < h.n
  queue : ∀ p ∈ Q, p.2 = s ∧ p.1 = s ∨ p.1 ∈ C ∧ Pred h s p.2 p.1
  seen : ∀ x ∈ C, x = s ∨ ∃ y ∈ C, Pred h s x y
  conn : ∀ x ∈ C ++ Q.map Prod.snd, FJ h gam s x
  closed : ∀ x ∈ C, ∀ y, Adj h gam x y → y ∈ C ++ Q.map Prod.snd
  start : s ∈ C ++ Q.map Prod.snd

omit hf in
theorem SInv.init {gam : WithBot ℚ} : SInv h s gam [] [(s, s)] where
  nodup := by simp
  lt := by simp [hs]
  queue := by simp
  seen := by simp
  conn := by simp only [List.map_cons, List.map_nil, List.nil_append, List.mem_singleton, forall_eq]; exact EqvGen.refl _
  closed := by simp
  start := by simp

theorem SInv.step {gam : WithBot ℚ} {C : List ℕ} {p : ℕ × ℕ} {Q : List (ℕ × ℕ)}
    (hv : SInv h s gam C (p :: Q)) : SInv h s gam (C ++ [p.2]) (Q ++ h.pushes gam p) := by
  have hpn : p.2 < h.n := hv.lt p.2 (by simp)
  have hnod := hv.nodup
  rw [List.map_cons] at hnod
  -- every neighbour but the one we came from is behind `p.2`
  have hpred : ∀ b, b ≠ p.1 → Adj h gam p.2 b → Pred h s b p.2 := by
    intro b hb ha
    rcases ha.pred hf hs with hh | hh
    · exact hh
    · rcases hv.queue p (by simp) with ⟨h1, h2⟩ | ⟨h1, h2⟩
      · rw [h1] at hh; exact (hh.not_start hf hs).elim
      · exact absurd (hh.unique hf hs h2) hb
  have hnotC : p.2 ∉ C := by
    intro hc
    exact (List.nodup_append.1 hnod).2.2 _ hc p.2 (by simp) rfl
  have hfresh : ∀ b, b ≠ p.1 → Adj h gam p.2 b → b ∉ C ++ p.2 :: Q.map Prod.snd := by
    intro b hb ha hm
    have hp := hpred b hb ha
    have hs' : b ≠ s := by rintro rfl; exact hp.not_start hf hs
    have : ∃ y ∈ C, Pred h s b y := by
      rcases List.mem_append.1 hm with hm | hm
      · rcases hv.seen b hm with rfl | hh
        exacts [absurd rfl hs', hh]
      · rw [← List.map_cons, List.mem_map] at hm
        obtain ⟨q, hq, rfl⟩ := hm
        rcases hv.queue q hq with ⟨h1, -⟩ | ⟨h1, h2⟩
        exacts [absurd h1 hs', ⟨_, h1, h2⟩]
    obtain ⟨y, hy, hyp⟩ := this
    rw [hyp.unique hf hs hp] at hy
    exact hnotC hy
  have hmem : ∀ b, b ∈ (h.pushes gam p).map Prod.snd ↔ b ≠ p.1 ∧ Adj h gam p.2 b := by
    intro b
    rw [List.mem_map]
    constructor
    · rintro ⟨⟨x, y⟩, hq, rfl⟩
      exact ((mem_pushes hf).1 hq).2
    · intro hh
      exact ⟨(p.2, b), (mem_pushes hf).2 ⟨rfl, hh⟩, rfl⟩
  have hassoc : C ++ [p.2] ++ (Q ++ h.pushes gam p).map Prod.snd =
      (C ++ p.2 :: Q.map Prod.snd) ++ (h.pushes gam p).map Prod.snd := by simp
  refine { nodup := ?_, lt := ?_, queue := ?_, seen := ?_, conn := ?_, closed := ?_, start := ?_ }
  · rw [hassoc, List.nodup_append]
    refine ⟨hnod, pushes_nodup hf hpn, ?_⟩
    intro x hx y hy
    rintro rfl
    obtain ⟨h1, h2⟩ := (hmem _).1 hy
    exact hfresh _ h1 h2 hx
  · rw [hassoc]
    intro x hx
    rcases List.mem_append.1 hx with hx | hx
    · exact hv.lt x (by simpa using hx)
    · exact ((hmem _).1 hx).2.lt hf hpn
  · intro q hq
    rcases List.mem_append.1 hq with hq | hq
    · rcases hv.queue q (by simp [hq]) with h1 | ⟨h1, h2⟩
      exacts [.inl h1, .inr ⟨by simp [h1], h2⟩]
    · obtain ⟨a, b⟩ := q
      obtain ⟨rfl, h1, h2⟩ := (mem_pushes hf).1 hq
      exact .inr ⟨by simp, hpred b h1 h2⟩
  · intro x hx
    rcases List.mem_append.1 hx with hx | hx
    · rcases hv.seen x hx with h1 | ⟨y, h1, h2⟩
      exacts [.inl h1, .inr ⟨y, by simp [h1], h2⟩]
    · rw [List.mem_singleton] at hx
      subst hx
      rcases hv.queue p (by simp) with h1 | ⟨h1, h2⟩
      exacts [.inl h1.1, .inr ⟨p.1, by simp [h1], h2⟩]
  · rw [hassoc]
    intro x hx
    rcases List.mem_append.1 hx with hx | hx
    · exact hv.conn x (by simpa using hx)
    · have h1 : FJ h gam s p.2 := hv.conn p.2 (by simp)
      exact EqvGen.trans _ _ _ h1 (((hmem _).1 hx).2.fj hf hs)
  · rw [hassoc]
    intro x hx y hxy
    rcases List.mem_append.1 hx with hx | hx
    · exact List.mem_append_left _ (by simpa using hv.closed x hx y hxy)
    · rw [List.mem_singleton] at hx
      subst hx
      by_cases hy : y = p.1
      · rcases hv.queue p (by simp) with h1 | ⟨h1, -⟩
        · have : y = s := hy.trans h1.2
          rw [this]
          exact List.mem_append_left _ (by simpa using hv.start)
        · rw [hy]
          exact List.mem_append_left _ (by simp [h1])
      · exact List.mem_append_right _ ((hmem _).2 ⟨hy, hxy⟩)
  · rw [hassoc]
    exact List.mem_append_left _ (by simpa using hv.start)

/-- The nodes found are the component of the start. -/
structure IsComponent (h : HC) (gam : WithBot ℚ) (s : ℕ) (C : List ℕ) : Prop where
  nodup : C.Nodup
  mem : ∀ x, x ∈ C ↔ FJ h gam s x

theorem SInv.done {gam : WithBot ℚ} {C : List ℕ} (hv : SInv h s gam C []) :
    IsComponent h gam s C := by
  refine ⟨by simpa using hv.nodup, fun x => ⟨fun hx => hv.conn x (by simpa using hx), ?_⟩⟩
  intro hx
  have key : ∀ x y, FJ h gam x y → (x ∈ C ↔ y ∈ C) := by
    intro x y hxy
    induction hxy with
    | rel x y hr =>
      constructor
      · intro hx; simpa using hv.closed x hx y (.inl hr)
      · intro hx; simpa using hv.closed y hx x (.inr hr)
    | refl => exact Iff.rfl
    | symm _ _ _ ih => exact ih.symm
    | trans _ _ _ _ _ i1 i2 => exact i1.trans i2
  exact (key s x hx).1 (by simpa using hv.start)

omit hf hs in
theorem SInv.length {gam : WithBot ℚ} {C : List ℕ} {Q : List (ℕ × ℕ)} (hv : SInv h s gam C Q) :
    C.length + Q.length ≤ h.n := by
  have := List.Nodup.length_le_card (α := Fin h.n)
    (l := (C ++ Q.map Prod.snd).attach.map fun x => ⟨x.1, hv.lt x.1 x.2⟩) (by
      refine List.Nodup.map ?_ ?_
      · rintro ⟨x, hx⟩ ⟨y, hy⟩ hxy
        simpa using hxy
      · exact List.nodup_attach.2 hv.nodup)
  simpa using this

theorem search_spec {gam : WithBot ℚ} : ∀ (f : ℕ) (C : List ℕ) (Q : List (ℕ × ℕ)),
    SInv h s gam C Q → h.n < f + C.length →
    ∃ D, h.search gam f Q C = .ok D ∧ IsComponent h gam s D := by
  intro f
  induction f with
  | zero =>
    intro C Q hv hl
    have := hv.length
    omega
  | succ f ih =>
    intro C Q hv hl
    cases Q with
    | nil => exact ⟨C, rfl, hv.done hf hs⟩
    | cons p Q =>
      have := ih _ _ (hv.step hf hs) (by simp; omega)
      exact this

theorem searchRemove_spec {gam : WithBot ℚ} : ∀ (f : ℕ) (C : List ℕ) (Q : List (ℕ × ℕ))
    (l : HC.LinkList), SInv h s gam C Q → h.n < f + C.length →
    ∃ D, h.searchRemove gam f Q C l = .ok (C ++ D, D.foldl HC.LinkList.remove l) ∧
      IsComponent h gam s (C ++ D) := by
  intro f
  induction f with
  | zero =>
    intro C Q l hv hl
    have := hv.length
    omega
  | succ f ih =>
    intro C Q l hv hl
    cases Q with
    | nil => exact ⟨[], by simp [HC.searchRemove], by simpa using hv.done hf hs⟩
    | cons p Q =>
      obtain ⟨D, h1, h2⟩ := ih _ _ (l.remove p.2) (hv.step hf hs) (by simp; omega)
      refine ⟨p.2 :: D, ?_, by simpa using h2⟩
      rw [HC.searchRemove, h1]
      simp

end

theorem getCluster_spec {h : HC} (hf : Forest h) {s : ℕ} (hs : s < h.n) (gam : WithBot ℚ) :
    ∃ D, h.getCluster s gam = .ok D ∧ IsComponent h gam s D := by
  unfold HC.getCluster
  rw [if_neg (by omega)]
  exact search_spec hf hs _ _ _ (SInv.init hs) (by simp)

theorem searchStart_spec {h : HC} (hf : Forest h) {s : ℕ} (hs : s < h.n) (gam : WithBot ℚ)
    (l : HC.LinkList) :
    ∃ D, h.searchRemove gam (h.n + 1) [(s, s)] [] l = .ok (D, D.foldl HC.LinkList.remove l) ∧
      IsComponent h gam s D := by
  obtain ⟨D, h1, h2⟩ := searchRemove_spec hf hs (h.n + 1) [] [(s, s)] l (SInv.init (gam := gam) hs)
    (by simp)
  exact ⟨D, by simpa using h1, by simpa using h2⟩

end PSP.Theory
