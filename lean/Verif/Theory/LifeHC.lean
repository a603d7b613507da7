import Mathlib.Tactic.Ring
import Verif.Model.LifeHC
import Verif.Theory.LifePSP

/-!
# Lifetimes of the objects of class `HC`: proofs
-/

namespace PSP.Theory

open PSP.Model

/-- Without the objects, `m` is `x`. -/
def Erases {α : Type} (m : HM α) (x : Outcome α) : Prop := ∀ h, (m h).2 = x

theorem Erases.lift {α : Type} (x : Outcome α) : Erases (HM.lift x) x := fun _ => rfl

theorem Erases.pure {α : Type} (a : α) : Erases (pure a) (.ok a) := fun _ => rfl

theorem Erases.bind {α β : Type} {m : HM α} {x : Outcome α} {f : α → HM β} {y : α → Outcome β}
    (hm : Erases m x) (hf : ∀ a, Erases (f a) (y a)) : Erases (m >>= f) (x >>= y) := by
  intro h
  have h1 := hm h
  show (HM.bind m f h).2 = _
  unfold HM.bind
  rcases hmh : m h with ⟨h', o⟩
  rw [hmh] at h1
  simp only at h1
  subst h1
  cases o with
  | ok a => exact hf a h'
  | _ => rfl

/-- `m` deletes nothing and ends normally with `k` more objects, `k` depending on the result. -/
def Grows {α : Type} (m : HM α) (k : α → ℕ) : Prop :=
  ∀ h h' a, HeapWF h → m h = (h', .ok a) → HeapWF h' ∧ h.live ⊆ h'.live ∧ h'.live.card = h.live.card + k a

theorem Grows.lift {α : Type} (x : Outcome α) : Grows (HM.lift x) (fun _ => 0) := by
  intro h h' a hw he
  simp only [HM.lift, Prod.mk.injEq] at he
  obtain ⟨rfl, _⟩ := he
  exact ⟨hw, subset_rfl, rfl⟩

theorem HM.bind_eq_ok {α β : Type} {m : HM α} {f : α → HM β} {h h' : Heap} {b : β}
    (hb : (m >>= f) h = (h', .ok b)) : ∃ h1 a, m h = (h1, .ok a) ∧ f a h1 = (h', .ok b) := by
  have hb : HM.bind m f h = (h', .ok b) := hb
  unfold HM.bind at hb
  rcases hm : m h with ⟨h1, o⟩
  rw [hm] at hb
  cases o with
  | ok a => exact ⟨h1, a, rfl, hb⟩
  | _ => simp at hb

theorem Grows.bind {α β : Type} {m : HM α} {f : α → HM β} {k : α → ℕ} {l : β → ℕ}
    (hm : Grows m k) (hf : ∀ a, (∃ h h', m h = (h', .ok a)) → Grows (f a) fun b => l b - k a)
    (hk : ∀ a b, (∃ h h', m h = (h', .ok a)) → (∃ h h', f a h = (h', .ok b)) → k a ≤ l b) :
    Grows (m >>= f) l := by
  intro h h' b hw he
  obtain ⟨h1, a, e1, e2⟩ := HM.bind_eq_ok he
  obtain ⟨w1, s1, c1⟩ := hm h h1 a hw e1
  obtain ⟨w2, s2, c2⟩ := hf a ⟨h, h1, e1⟩ h1 h' b w1 e2
  refine ⟨w2, s1.trans s2, ?_⟩
  have := hk a b ⟨h, h1, e1⟩ ⟨h1, h', e2⟩
  simp only at c2
  omega

theorem Grows.new : Grows HM.new fun _ => 1 := by
  intro h h' a hw he
  rw [HM.new_eq] at he
  simp only [Prod.mk.injEq, Outcome.ok.injEq] at he
  obtain ⟨rfl, rfl⟩ := he
  refine ⟨fun a ha => ?_, Finset.subset_insert _ _, ?_⟩
  · rcases Finset.mem_insert.1 ha with rfl | ha
    · exact Nat.lt_succ_self _
    · exact (hw a ha).trans (Nat.lt_succ_self _)
  · exact Finset.card_insert_of_notMem fun hc => absurd (hw _ hc) (lt_irrefl _)

/-- `n` new objects with addresses of their own. -/
theorem newN_spec : ∀ (n : ℕ) (h : Heap), HeapWF h → ∃ h' ps, HM.newN n h = (h', .ok ps) ∧ HeapWF h' ∧
    ps.length = n ∧ ps.Nodup ∧ (∀ p ∈ ps, h.next ≤ p) ∧ ∀ a, a ∈ h'.live ↔ a ∈ h.live ∨ a ∈ ps := by
  intro n
  induction n with
  | zero => exact fun h hw => ⟨h, [], rfl, hw, rfl, List.nodup_nil, by simp, by simp⟩
  | succ n ih =>
    intro h hw
    have hw1 : HeapWF ⟨h.next + 1, insert h.next h.live⟩ := (Grows.new h _ _ hw (HM.new_eq h)).1
    obtain ⟨h', ps, e, w, hl, hn, hge, hm⟩ := ih _ hw1
    refine ⟨h', h.next :: ps, ?_, w, by simp [hl], ?_, ?_, fun a => ?_⟩
    · unfold HM.newN
      rw [HM.bind_ok (HM.new_eq h), HM.bind_ok e]
      rfl
    · rw [List.nodup_cons]
      exact ⟨fun hc => absurd (hge _ hc) (by simp), hn⟩
    · intro p hp
      rcases List.mem_cons.1 hp with rfl | hp
      · exact le_refl _
      · exact (Nat.le_succ _).trans (hge p hp)
    · rw [hm, Finset.mem_insert, List.mem_cons]
      tauto

theorem Grows.newN (n : ℕ) : Grows (HM.newN n) fun _ => n := by
  intro h h' ps hw he
  obtain ⟨h1, ps1, e, w, hl, hn, hge, hm⟩ := newN_spec n h hw
  rw [e] at he
  simp only [Prod.mk.injEq, Outcome.ok.injEq] at he
  obtain ⟨rfl, rfl⟩ := he
  refine ⟨w, fun a ha => (hm a).2 (Or.inl ha), ?_⟩
  have : h1.live = h.live ∪ ps1.toFinset := by ext a; simp [hm]
  rw [this, Finset.card_union_of_disjoint, List.toFinset_card_of_nodup hn, hl]
  rw [Finset.disjoint_left]
  intro a ha hp
  exact absurd (hw a ha) (by have := hge a (List.mem_toFinset.1 hp); omega)

theorem newN_total : ∀ (n : ℕ) (h : Heap), ∃ h' ps, HM.newN n h = (h', .ok ps) := by
  intro n
  induction n with
  | zero => exact fun h => ⟨h, [], rfl⟩
  | succ n ih =>
    intro h
    obtain ⟨h', ps, e⟩ := ih ⟨h.next + 1, insert h.next h.live⟩
    refine ⟨h', h.next :: ps, ?_⟩
    unfold HM.newN
    rw [HM.bind_ok (HM.new_eq h), HM.bind_ok e]
    rfl

theorem deleteAll_spec : ∀ (ps : List ℕ) (h : Heap), ps.Nodup → (∀ p ∈ ps, p ∈ h.live) →
    ∃ h', HM.deleteAll ps h = (h', .ok ()) ∧ h'.next = h.next ∧ ∀ a, a ∈ h'.live ↔ a ∈ h.live ∧ a ∉ ps := by
  intro ps
  induction ps with
  | nil => exact fun h _ _ => ⟨h, rfl, rfl, by simp⟩
  | cons p ps ih =>
    intro h hn hm
    rw [List.nodup_cons] at hn
    obtain ⟨h', e, hx, hl⟩ := ih ⟨h.next, h.live.erase p⟩ hn.2 fun q hq =>
      Finset.mem_erase.2 ⟨fun hc => hn.1 (hc ▸ hq), hm q (List.mem_cons_of_mem _ hq)⟩
    refine ⟨h', ?_, hx, fun a => ?_⟩
    · unfold HM.deleteAll
      rw [HM.bind_ok (HM.delete_ok (hm p (List.mem_cons_self)))]
      exact e
    · rw [hl, Finset.mem_erase, List.mem_cons]
      tauto

/-! ### `getPartition` -/

theorem linkListNew_erases {α : Type} (n : ℕ) {f : HC.LinkList → Outcome α} :
    Erases (LinkListMem.new n >>= fun l => HM.lift (f l.list)) (HC.LinkList.new n >>= f) := by
  intro h
  cases hl : HC.LinkList.new n with
  | ok l =>
    obtain ⟨h', ps, e⟩ := newN_total n h
    have : LinkListMem.new n h = (h', .ok ⟨l, ps⟩) := by
      unfold LinkListMem.new
      rw [hl, HM.bind_ok (show HM.lift (Outcome.ok l) h = (h, .ok l) from rfl), HM.bind_ok e]
      rfl
    rw [HM.bind_ok this]
    rfl
  | _ =>
    show (HM.bind (HM.bind (HM.lift (HC.LinkList.new n)) _) _ h).2 = _
    rw [hl]
    rfl

theorem getPartitionM_erases (h : HC) (gam : WithBot ℚ) : Erases (h.getPartitionM gam) (h.getPartition gam) := by
  intro hp
  unfold HC.getPartitionM
  rw [HM.bind_ok (HM.new_eq hp)]
  exact linkListNew_erases h.n (f := fun l => h.partitionLoop gam (h.n + 1) l []) _

theorem LinkList_new_pos {n : ℕ} {l : HC.LinkList} (h : HC.LinkList.new n = .ok l) : 0 < n := by
  unfold HC.LinkList.new at h
  split_ifs at h
  · omega
  · omega

theorem linkListNew_grows (n : ℕ) : Grows (LinkListMem.new n) fun _ => n := by
  unfold LinkListMem.new
  refine Grows.bind (Grows.lift _) (fun l _ => ?_) (fun _ _ _ _ => Nat.zero_le _)
  refine Grows.bind (k := fun _ => n) (Grows.newN n) (fun ps _ => ?_) (fun _ _ _ _ => by simp)
  intro h h' a hw he
  obtain ⟨rfl, _⟩ := Prod.mk.inj he
  exact ⟨hw, subset_rfl, by simp⟩

theorem getPartitionM_grows (h : HC) (gam : WithBot ℚ) : Grows (h.getPartitionM gam) fun _ => h.n + 1 := by
  unfold HC.getPartitionM
  refine Grows.bind (k := fun _ => 1) Grows.new (fun _ _ => ?_) (fun _ _ _ _ => by omega)
  refine Grows.bind (k := fun _ => h.n) (linkListNew_grows h.n) (fun l _ => ?_) (fun _ _ _ _ => by omega)
  intro h1 h2 a hw he
  obtain ⟨w, s, c⟩ := Grows.lift _ h1 h2 a hw he
  exact ⟨w, s, by simp only at c; simp only; omega⟩

/-! ### the number of nodes -/

theorem merge_n {h h' : HC} {i j : ℕ} {g : ℚ} {b : Bool} (hm : h.merge i j g = .ok (h', b)) : h'.n = h.n := by
  unfold HC.merge at hm
  obtain ⟨a, _, hm⟩ := Outcome.bind_eq_ok hm
  obtain ⟨c, _, hm⟩ := Outcome.bind_eq_ok hm
  have key : ∀ h1 : HC, h1.n = h.n →
      (if h1.rank a ≤ h1.rank c then
        let h2 := h1.attach a c g
        if h1.rank a = h1.rank c then
          (.ok ({ h2 with rank := Function.update h2.rank c (h2.rank c + 1) }, true) : Outcome (HC × Bool))
        else .ok (h2, true)
      else .ok (h1.attach c a g, true)) = .ok (h', b) → h'.n = h.n := by
    intro h1 hn he
    split_ifs at he <;>
    · simp only [Outcome.ok.injEq, Prod.mk.injEq] at he
      obtain ⟨rfl, _⟩ := he
      exact hn
  by_cases hc : a = c ∨ ¬ (h.gamma = [] ∨ ∃ b ∈ h.gamma.getLast?, b ≥ g)
  · rw [if_pos hc] at hm
    simp only [Outcome.pure_eq, Outcome.ok.injEq, Prod.mk.injEq] at hm
    rw [← hm.1]
  · rw [if_neg hc] at hm
    exact key _ (by split_ifs <;> rfl) hm

theorem mergeAll_n : ∀ (cs : List PSP.Spec.Link) {h h' : HC}, h.mergeAll cs = .ok h' → h'.n = h.n := by
  intro cs
  induction cs with
  | nil => intro h h' he; rw [← Outcome.ok.inj he]
  | cons c cs ih =>
    intro h h' he
    unfold HC.mergeAll at he
    obtain ⟨⟨h1, b⟩, e1, e2⟩ := Outcome.bind_eq_ok he
    rw [ih e2, merge_n e1]

theorem agglomerateFrom_n {mnb : SF → Outcome (List ℚ)} {f : SF} {tol : ℚ} {h h' : HC} {P : List (List ℕ)} {b : Bool}
    (he : agglomerateFrom mnb f tol h P = .ok (h', b)) : h'.n = h.n := by
  unfold agglomerateFrom at he
  split_ifs at he with hl
  · simp only [Outcome.pure_eq, Outcome.ok.injEq, Prod.mk.injEq] at he
    rw [← he.1]
  · obtain ⟨xs, _, he⟩ := Outcome.bind_eq_ok he
    cases hg : aicGamma xs with
    | bot =>
      rw [hg] at he
      simp only [Outcome.pure_eq, Outcome.ok.injEq, Prod.mk.injEq] at he
      rw [← he.1]
    | coe g =>
      rw [hg] at he
      obtain ⟨h1, e1, he⟩ := Outcome.bind_eq_ok he
      simp only [Outcome.pure_eq, Outcome.ok.injEq, Prod.mk.injEq] at he
      rw [← he.1]
      exact mergeAll_n _ e1

/-! ### `Agglomerative_PSP::run` -/

theorem agglomerateM_erases (mnb : SF → Outcome (List ℚ)) (f : SF) (tol : ℚ) (h : HC) :
    Erases (agglomerateM mnb f tol h) (agglomerate mnb f tol h) :=
  Erases.bind (getPartitionM_erases h ⊥) fun _ => Erases.lift _

theorem aggLoopM_erases (mnb : SF → Outcome (List ℚ)) (f : SF) (tol : ℚ) : ∀ (k : ℕ) (h : HC) (ps : List Partition)
    (cv : List ℚ), Erases (aggLoopM mnb f tol k h ps cv) (aggLoop mnb f tol k h ps cv) := by
  intro k
  induction k with
  | zero => exact fun h ps cv => Erases.lift _
  | succ k ih =>
    intro h ps cv
    unfold aggLoopM aggLoop
    refine Erases.bind (agglomerateM_erases mnb f tol h) fun x => ?_
    rcases x with ⟨h', more⟩
    cases more with
    | false => exact Erases.pure _
    | true =>
      simp only [if_true]
      refine Erases.bind (getPartitionM_erases h' ⊥) fun P => ?_
      cases h'.getCriticalValues.getLast? with
      | none => exact Erases.lift _
      | some c => exact ih _ _ _

theorem aggRunM_erases (mnb : SF → Outcome (List ℚ)) (f : SF) (tol : ℚ) :
    Erases (aggRunM mnb f tol) (aggRunSF mnb f tol) :=
  Erases.bind (getPartitionM_erases _ ⊥) fun _ => aggLoopM_erases _ _ _ _ _ _ _

theorem agglomerateM_grows (mnb : SF → Outcome (List ℚ)) (f : SF) (tol : ℚ) (h : HC) :
    Grows (agglomerateM mnb f tol h) fun _ => h.n + 1 := by
  refine Grows.bind (k := fun _ => h.n + 1) (getPartitionM_grows h ⊥) (fun P _ => ?_) (fun _ _ _ _ => le_refl _)
  intro h1 h2 a hw he
  obtain ⟨w, s, c⟩ := Grows.lift _ h1 h2 a hw he
  exact ⟨w, s, by simp only at c; simp only; omega⟩

theorem agglomerateM_n {mnb : SF → Outcome (List ℚ)} {f : SF} {tol : ℚ} {h h' : HC} {b : Bool} {h1 h2 : Heap}
    (he : agglomerateM mnb f tol h h1 = (h2, .ok (h', b))) : h'.n = h.n := by
  obtain ⟨_, P, _, e⟩ := HM.bind_eq_ok he
  exact agglomerateFrom_n (Prod.mk.inj e).2

theorem aggLoopM_grows (mnb : SF → Outcome (List ℚ)) (f : SF) (tol : ℚ) : ∀ (k : ℕ) (h : HC) (ps : List Partition)
    (cv : List ℚ) (h1 h2 : Heap) (r : List Partition × List ℚ), HeapWF h1 →
    aggLoopM mnb f tol k h ps cv h1 = (h2, .ok r) → HeapWF h2 ∧ h1.live ⊆ h2.live ∧ ps.length ≤ r.1.length ∧
      h2.live.card = h1.live.card + (2 * (r.1.length - ps.length) + 1) * (h.n + 1) := by
  intro k
  induction k with
  | zero => intro h ps cv h1 h2 r _ he; exact absurd (Prod.mk.inj he).2 (by simp)
  | succ k ih =>
    intro h ps cv h1 h2 r hw he
    unfold aggLoopM at he
    obtain ⟨ha, ⟨h', more⟩, e1, e2⟩ := HM.bind_eq_ok he
    obtain ⟨w1, s1, c1⟩ := agglomerateM_grows mnb f tol h h1 ha _ hw e1
    have hn := agglomerateM_n e1
    cases more with
    | false =>
      obtain ⟨rfl, e3⟩ := Prod.mk.inj e2
      cases e3
      exact ⟨w1, s1, le_refl _, by rw [c1, Nat.sub_self]; ring⟩
    | true =>
      simp only [if_true] at e2
      obtain ⟨hb, P, e3, e4⟩ := HM.bind_eq_ok e2
      obtain ⟨w2, s2, c2⟩ := getPartitionM_grows h' ⊥ ha hb P w1 e3
      cases hc : h'.getCriticalValues.getLast? with
      | none => rw [hc] at e4; exact absurd (Prod.mk.inj e4).2 (by simp)
      | some c =>
        rw [hc] at e4
        obtain ⟨w3, s3, l3, c3⟩ := ih _ _ _ _ _ _ w2 e4
        simp only [List.length_cons] at l3 c3
        refine ⟨w3, s1.trans (s2.trans s3), by omega, ?_⟩
        obtain ⟨d, hd⟩ := Nat.exists_eq_add_of_le l3
        rw [hd] at c3 ⊢
        rw [c3, c2, c1, hn, show ps.length + 1 + d - (ps.length + 1) = d by omega,
          show ps.length + 1 + d - ps.length = d + 1 by omega]
        ring

theorem aggRunM_grows (mnb : SF → Outcome (List ℚ)) (f : SF) (tol : ℚ) :
    Grows (aggRunM mnb f tol) fun r => 2 * r.1.length * (f.size + 1) := by
  intro h1 h2 r hw he
  obtain ⟨ha, P, e1, e2⟩ := HM.bind_eq_ok he
  obtain ⟨w1, s1, c1⟩ := getPartitionM_grows _ ⊥ h1 ha P hw e1
  obtain ⟨w2, s2, l2, c2⟩ := aggLoopM_grows _ _ _ _ _ _ _ _ _ _ w1 e2
  refine ⟨w2, s1.trans s2, ?_⟩
  simp only [List.length_cons, List.length_nil, Nat.zero_add] at l2 c2
  obtain ⟨d, hd⟩ := Nat.exists_eq_add_of_le l2
  rw [hd] at c2
  show _ = _ + 2 * r.1.length * (f.size + 1)
  rw [hd, c2, c1, show 1 + d - 1 = d by omega]
  show h1.live.card + (f.size + 1) + (2 * d + 1) * (f.size + 1) = _
  ring

end PSP.Theory
