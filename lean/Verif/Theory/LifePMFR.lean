import Verif.Model.LifePMFR
import Verif.Theory.LifeHC

/-!
# Lifetimes of the objects of `PMF_R`: proofs
-/

namespace PSP.Theory

open PSP.Model PSP.Spec

variable {α β : Type}

/-- `r` is what a piece of C++ makes of the heap `h`: the outcome is `x`, nothing outside `D` is deleted, and if
`clean` and the outcome is a value, then exactly the objects of `D` are gone and nothing remains. -/
structure Ends (h : Heap) (D : List ℕ) (r : Heap × Outcome α) (x : Outcome α) (clean : Prop) : Prop where
  out : r.2 = x
  wf : HeapWF r.1
  next : h.next ≤ r.1.next
  keep : ∀ a ∈ h.live, a ∉ D → a ∈ r.1.live
  clean : clean → ∀ v, x = .ok v → ∀ a, a ∈ r.1.live ↔ a ∈ h.live ∧ a ∉ D

theorem Ends.same {h : Heap} {D : List ℕ} {x : Outcome α} {c : Prop} (hw : HeapWF h) (hD : D = [] ∨ ∀ v, x ≠ .ok v) :
    Ends h D (h, x) x c := by
  refine ⟨rfl, hw, le_refl _, fun a ha _ => ha, fun _ v hv a => ?_⟩
  rcases hD with rfl | hD
  · simp
  · exact absurd hv (hD v)

theorem new_wf {h : Heap} (hw : HeapWF h) : HeapWF ⟨h.next + 1, insert h.next h.live⟩ :=
  (Grows.new h _ _ hw (HM.new_eq h)).1

theorem Ends.local_ {h : Heap} {D : List ℕ} {m : ℕ → HM α} {x : Outcome α} {c : Prop} (hw : HeapWF h)
    (hD : h.next ∉ D) (he : Ends ⟨h.next + 1, insert h.next h.live⟩ D (m h.next ⟨h.next + 1, insert h.next h.live⟩) x c) :
    Ends h D (HM.local_ m h) x c := by
  have hn : h.next ∉ h.live := fun hc => absurd (hw _ hc) (lt_irrefl _)
  rcases hm : m h.next ⟨h.next + 1, insert h.next h.live⟩ with ⟨h', o⟩
  rw [hm] at he
  obtain ⟨e1, e2, e3, e4, e5⟩ := he
  simp only at e1 e2 e3 e4 e5
  subst e1
  have hl : h.next ∈ h'.live := e4 _ (Finset.mem_insert_self _ _) hD
  have hkeep : ∀ a ∈ h.live, a ∉ D → a ∈ h'.live.erase h.next := fun a ha hd =>
    Finset.mem_erase.2 ⟨fun hc => hn (hc ▸ ha), e4 a (Finset.mem_insert_of_mem ha) hd⟩
  have hwf : HeapWF ⟨h'.next, h'.live.erase h.next⟩ := fun a ha => e2 a (Finset.mem_of_mem_erase ha)
  unfold HM.local_
  rw [hm]
  cases o with
  | ok v =>
    have : HM.bind (HM.delete h.next) (fun _ h'' => (h'', Outcome.ok v)) h' =
        (⟨h'.next, h'.live.erase h.next⟩, .ok v) := HM.bind_ok (m := HM.delete h.next) (HM.delete_ok hl)
    simp only [this]
    refine ⟨rfl, hwf, by simp only; omega, hkeep, fun hc w hw' a => ?_⟩
    rw [Finset.mem_erase, e5 hc w hw', Finset.mem_insert]
    constructor
    · tauto
    · exact fun ⟨h1, h2⟩ => ⟨fun hc => hn (hc ▸ h1), Or.inr h1, h2⟩
  | exc s =>
    have : HM.bind (HM.delete h.next) (fun _ h'' => (h'', (Outcome.exc s : Outcome α))) h' =
        (⟨h'.next, h'.live.erase h.next⟩, .exc s) := HM.bind_ok (m := HM.delete h.next) (HM.delete_ok hl)
    simp only [this]
    exact ⟨rfl, hwf, by simp only; omega, hkeep, fun _ v hv => by simp at hv⟩
  | _ => exact ⟨rfl, e2, by simp only; omega, fun a ha hd => Finset.mem_of_mem_erase (hkeep a ha hd),
      fun _ v hv => by simp at hv⟩

/-- Two pieces one after another. -/
theorem Ends.bind {h : Heap} {D : List ℕ} {m : HM α} {f : α → HM β} {x : Outcome α} {y : α → Outcome β} {c : Prop}
    (hm : Ends h [] (m h) x c)
    (hf : ∀ v h', HeapWF h' → (∀ a ∈ h.live, a ∈ h'.live) → h.next ≤ h'.next →
      (c → ∀ a, a ∈ h'.live ↔ a ∈ h.live) → x = .ok v → Ends h D (f v h') (y v) c) :
    Ends h D ((m >>= f) h) (x >>= y) c := by
  show Ends h D (HM.bind m f h) _ _
  unfold HM.bind
  rcases hmh : m h with ⟨h', o⟩
  rw [hmh] at hm
  obtain ⟨e1, e2, e3, e4, e5⟩ := hm
  simp only [List.not_mem_nil, not_false_eq_true, and_true] at e1 e2 e3 e4 e5
  subst e1
  cases o with
  | ok v => exact hf v h' e2 (fun a ha => e4 a ha trivial) e3 (fun hc => e5 hc v rfl) rfl
  | _ => exact ⟨rfl, e2, e3, fun a ha _ => e4 a ha trivial, fun _ v hv => by simp at hv⟩

/-! ### one thread -/

theorem threadM_spec {V : Finset ℕ} {done inited : Bool} {ele : EleP} {h : Heap} (hw : HeapWF h)
    (he : ∀ e, ele = some e → e.1 ∈ h.live) :
    ∃ h' o, threadM false V done inited ele h = (h', .ok o) ∧ HeapWF h' ∧ h.next ≤ h'.next ∧
      (∀ a ∈ h.live, a ∈ h'.live) ∧ o.map Prod.snd = eleOut V done inited (ele.map Prod.snd) ∧
      (∀ a ∈ o.map Prod.fst, h.next ≤ a ∧ a ∈ h'.live) ∧
      ((done = true ∨ inited = false) → ∀ a, a ∈ h'.live ↔ a ∈ h.live ∨ a ∈ o.map Prod.fst) := by
  have hins : ∀ a ∈ h.live, a ∈ insert h.next h.live := fun a ha => Finset.mem_insert_of_mem ha
  cases ele with
  | none =>
    cases done with
    | true =>
      refine ⟨⟨h.next + 1, insert h.next h.live⟩, some (h.next, V), rfl, new_wf hw, by simp, hins, rfl, ?_, ?_⟩
      · intro a ha; simp at ha; subst ha; simp
      · intro _ a; simp [or_comm, eq_comm]
    | false =>
      cases inited with
      | true =>
        refine ⟨⟨h.next + 1, insert h.next h.live⟩, none, rfl, new_wf hw, by simp, hins, rfl, by simp, by simp⟩
      | false => exact ⟨h, none, rfl, hw, le_refl _, fun a ha => ha, rfl, by simp, by simp⟩
  | some e =>
    by_cases hd : (done || inited) = true
    · refine ⟨⟨h.next + 1, insert h.next h.live⟩, some (h.next, e.2), ?_, new_wf hw, by simp, hins, ?_, ?_, ?_⟩
      · unfold threadM
        simp only [hd, if_true]
        rw [HM.bind_ok (HM.touch_ok (he e rfl)), HM.bind_ok (HM.new_eq h)]
        rfl
      · simp [eleOut, hd]
      · intro a ha; simp at ha; subst ha; simp
      · intro _ a; simp [or_comm, eq_comm]
    · refine ⟨h, none, ?_, hw, le_refl _, fun a ha => ha, ?_, by simp, by simp⟩
      · unfold threadM
        simp only [hd]
        rfl
      · simp [eleOut, hd]

/-- No interrupted thread had passed `init`. -/
def CleanFinish (c : Finish × Bool) : Prop := c.1 = .both ∨ c.2 = false

theorem threadsM_spec {V : Finset ℕ} {c : Finish × Bool} {p : RPtr} {le re : EleP} {h : Heap} (hw : HeapWF h)
    (hp : ∀ a ∈ [p.dig, p.aM, p.left, p.right], a ∈ h.live)
    (hl : ∀ e, le = some e → e.1 ∈ h.live) (hr : ∀ e, re = some e → e.1 ∈ h.live) :
    ∃ h' lo ro, threadsM false V c p le re h = (h', .ok (lo, ro)) ∧ HeapWF h' ∧ h.next ≤ h'.next ∧
      (∀ a ∈ h.live, a ∈ h'.live) ∧ lo.map Prod.snd = eleOut V c.1.leftDone c.2 (le.map Prod.snd) ∧
      ro.map Prod.snd = eleOut V (c.1 ≠ .left) c.2 (re.map Prod.snd) ∧
      (∀ a ∈ lo.map Prod.fst, h.next ≤ a ∧ a ∈ h'.live ∧ a ∉ ro.map Prod.fst) ∧
      (∀ a ∈ ro.map Prod.fst, h.next ≤ a ∧ a ∈ h'.live) ∧
      (CleanFinish c → ∀ a, a ∈ h'.live ↔ a ∈ h.live ∨ a ∈ lo.map Prod.fst ∨ a ∈ ro.map Prod.fst) := by
  have h0 : ∀ a ∈ h.live, a < h.next := hw
  let h1 : Heap := ⟨h.next + 1, insert h.next h.live⟩
  let h2 : Heap := ⟨h.next + 2, insert (h.next + 1) (insert h.next h.live)⟩
  have w2 : HeapWF h2 := new_wf (new_wf hw)
  have hs : ∀ a ∈ h.live, a ∈ h2.live := fun a ha => by simp [h2, ha]
  obtain ⟨h3, lo, e3, w3, n3, k3, s3, f3, c3⟩ := threadM_spec (V := V) (done := c.1.leftDone) (inited := c.2)
    (ele := le) w2 fun e he => hs _ (hl e he)
  obtain ⟨h4, ro, e4, w4, n4, k4, s4, f4, c4⟩ := threadM_spec (V := V) (done := c.1 ≠ .left) (inited := c.2)
    (ele := re) w3 fun e he => k3 _ (hs _ (hr e he))
  have hn2 : h.next ∈ h4.live := k4 _ (k3 _ (by simp [h2]))
  have hn3 : h.next + 1 ∈ h4.live := k4 _ (k3 _ (by simp [h2]))
  have e34 : h.next + 2 ≤ h3.next := n3
  refine ⟨⟨h4.next, (h4.live.erase h.next).erase (h.next + 1)⟩, lo, ro, ?_, ?_, ?_, ?_, s3, s4, ?_, ?_, ?_⟩
  · unfold threadsM
    rw [HM.bind_ok (HM.new_eq h), HM.bind_ok (HM.new_eq _),
      HM.bind_ok (HM.touch_ok (hs _ (hp _ (by simp)))), HM.bind_ok (HM.touch_ok (hs _ (hp _ (by simp)))),
      HM.bind_ok (HM.touch_ok (hs _ (hp _ (by simp)))), HM.bind_ok (HM.touch_ok (hs _ (hp _ (by simp)))),
      HM.bind_ok e3, HM.bind_ok e4, HM.bind_ok (HM.delete_ok hn2),
      HM.bind_ok (HM.delete_ok (by simp [hn3]))]
    rfl
  · exact fun a ha => w4 a (Finset.mem_of_mem_erase (Finset.mem_of_mem_erase ha))
  · simp only; omega
  · intro a ha
    have := h0 a ha
    simp only [Finset.mem_erase]
    exact ⟨by omega, by omega, k4 _ (k3 _ (hs a ha))⟩
  · intro a ha
    obtain ⟨g1, g2⟩ := f3 a ha
    have g1 : h.next + 2 ≤ a := g1
    simp only [Finset.mem_erase]
    refine ⟨by omega, ⟨by omega, by omega, k4 _ g2⟩, fun hc => ?_⟩
    have := (f4 a hc).1
    have := w3 a g2
    omega
  · intro a ha
    obtain ⟨g1, g2⟩ := f4 a ha
    simp only [Finset.mem_erase]
    exact ⟨by omega, by omega, by omega, g2⟩
  · intro hc a
    have q1 : c.1.leftDone = true ∨ c.2 = false := by
      rcases hc with hc | hc
      · left; rw [hc]; rfl
      · exact Or.inr hc
    have q2 : (decide (c.1 ≠ .left)) = true ∨ c.2 = false := by
      rcases hc with hc | hc
      · left; rw [hc]; rfl
      · exact Or.inr hc
    simp only [Finset.mem_erase]
    rw [c4 q2, c3 q1]
    simp only [h2, Finset.mem_insert]
    constructor
    · tauto
    · intro hx
      have : a ≠ h.next + 1 ∧ a ≠ h.next := by
        rcases hx with hx | hx | hx
        · have := h0 a hx; omega
        · have : h.next + 2 ≤ a := (f3 a hx).1; omega
        · have := (f4 a hx).1; omega
      tauto

/-! ### the objects of `slice` -/

/-- The objects a contracting call creates. -/
def RPtr.objects (p : RPtr) : List ℕ := [p.base, p.left, p.right, p.aM, p.dig]

theorem sliceObjects_spec {ic : Bool} {p : RPtr} {h : Heap} (hw : HeapWF h) (hp : ∀ a ∈ RPtr.objects p, a ∈ h.live) :
    ∃ h' q, sliceObjects ic p h = (h', .ok q) ∧ HeapWF h' ∧ h.next ≤ h'.next ∧
      (∀ a ∈ RPtr.objects q, a ∈ h'.live) ∧
      (∀ a, a ∈ h'.live ↔ a ∈ h.live ∨ a ∈ (if ic then RPtr.objects q else [])) ∧
      (if ic then RPtr.objects q else []).Nodup ∧ ∀ a ∈ (if ic then RPtr.objects q else []), h.next ≤ a := by
  simp only [RPtr.objects, List.mem_cons, List.not_mem_nil, or_false, forall_eq_or_imp, forall_eq] at hp
  obtain ⟨hb, hl, hr, ha, hd⟩ := hp
  cases ic with
  | false =>
    refine ⟨h, p, rfl, hw, le_refl _, ?_, by simp, by simp, by simp⟩
    simp [RPtr.objects, hb, hl, hr, ha, hd]
  | true =>
    refine ⟨⟨h.next + 5, insert (h.next + 4) (insert (h.next + 3) (insert (h.next + 2) (insert (h.next + 1)
      (insert h.next h.live))))⟩, ⟨h.next, h.next + 1, h.next + 2, h.next + 3, h.next + 4⟩, ?_, ?_, by simp, ?_, ?_, ?_, ?_⟩
    · unfold sliceObjects
      simp only [if_true]
      rw [HM.bind_ok (HM.new_eq h), HM.bind_ok (HM.new_eq _), HM.bind_ok (HM.touch_ok (by simp [hd])),
        HM.bind_ok (HM.touch_ok (by simp [ha])), HM.bind_ok (HM.new_eq _), HM.bind_ok (HM.new_eq _),
        HM.bind_ok (HM.touch_ok (by simp [hl])), HM.bind_ok (HM.new_eq _),
        HM.bind_ok (HM.touch_ok (by simp [hr]))]
      rfl
    · exact new_wf (new_wf (new_wf (new_wf (new_wf hw))))
    · simp [RPtr.objects]
    · intro a
      simp only [Finset.mem_insert, if_true, RPtr.objects, List.mem_cons, List.not_mem_nil, or_false]
      tauto
    · simp [RPtr.objects]
    · simp [RPtr.objects]

/-! ### `slice` -/

/-- What a call of `slice` needs. -/
def RNeeds (p : RPtr) (w : RWarmM) (a : ℕ) : Prop :=
  a ∈ RPtr.objects p ∨ a ∈ w.leftEle.map Prod.fst ∨ a ∈ w.rightEle.map Prod.fst

/-- A call of `slice` with anything for the part between the threads and the end. -/
theorem slice_frame {h : Heap} {ic : Bool} {p : RPtr} {V : Finset ℕ} {c : Finish × Bool} {le re : EleP}
    {rest : RPtr → ℕ → ℕ → EleP × EleP → HM β} {x : Outcome β} {C : Prop} (hw : HeapWF h)
    (hp : ∀ a ∈ RPtr.objects p, a ∈ h.live) (hl : ∀ e, le = some e → e.1 ∈ h.live)
    (hr : ∀ e, re = some e → e.1 ∈ h.live)
    (hrest : ∀ q fl fr lo ro h', HeapWF h' → (∀ a ∈ h.live, a ∈ h'.live) → (∀ a ∈ RPtr.objects q, a ∈ h'.live) →
      fl ∈ h'.live → fr ∈ h'.live → (∀ a ∈ lo.map Prod.fst, a ∈ h'.live) → (∀ a ∈ ro.map Prod.fst, a ∈ h'.live) →
      lo.map Prod.snd = eleOut V c.1.leftDone c.2 (le.map Prod.snd) →
      ro.map Prod.snd = eleOut V (c.1 ≠ .left) c.2 (re.map Prod.snd) →
      Ends h' [] (rest q fl fr (lo, ro) h') x C) :
    Ends h [] (sliceFrame false ic p V c le re rest h) x (C ∧ CleanFinish c) := by
  unfold sliceFrame
  obtain ⟨h1, q, e1, w1, n1, hq, l1, nd1, f1⟩ := sliceObjects_spec (ic := ic) hw hp
  have hq' := hq
  simp only [RPtr.objects, List.mem_cons, List.not_mem_nil, or_false, forall_eq_or_imp, forall_eq] at hq'
  rw [HM.bind_ok e1, HM.bind_ok (HM.touch_ok hq'.2.2.2.2), HM.bind_ok (HM.touch_ok hq'.2.2.2.1),
    HM.bind_ok (HM.touch_ok hq'.1), HM.bind_ok (HM.new_eq h1)]
  set O : List ℕ := if ic then RPtr.objects q else [] with hO
  have hO1 : ∀ a ∈ O, a < h1.next := fun a ha => w1 a ((l1 a).2 (Or.inr ha))
  set h2 : Heap := ⟨h1.next + 1, insert h1.next h1.live⟩ with h2d
  have w2 : HeapWF h2 := new_wf w1
  have key : Ends h2 (h1.next :: O) ((HM.local_ fun fl => HM.local_ fun fr => do
        let eo ← threadsM false V c q le re
        let res ← rest q fl fr eo
        houseKeeping ic q h1.next eo.1 eo.2
        return res : HM β) h2) x (C ∧ CleanFinish c) := by
    refine Ends.local_ w2 ?_ ?_
    · simp only [List.mem_cons, not_or]
      refine ⟨?_, fun hc => absurd (hO1 _ hc) ?_⟩
      · show h1.next + 1 ≠ h1.next
        omega
      · show ¬ h1.next + 1 < h1.next
        omega
    set h3 : Heap := ⟨h2.next + 1, insert h2.next h2.live⟩ with h3d
    have w3 : HeapWF h3 := new_wf w2
    refine Ends.local_ w3 ?_ ?_
    · simp only [List.mem_cons, not_or]
      refine ⟨?_, fun hc => absurd (hO1 _ hc) ?_⟩
      · show h1.next + 1 + 1 ≠ h1.next
        omega
      · show ¬ h1.next + 1 + 1 < h1.next
        omega
    set h4 : Heap := ⟨h3.next + 1, insert h3.next h3.live⟩ with h4d
    have w4 : HeapWF h4 := new_wf w3
    have k4 : ∀ a ∈ h1.live, a ∈ h4.live := fun a ha => by simp [h4d, h3d, h2d, ha]
    have k14 : ∀ a ∈ h.live, a ∈ h4.live := fun a ha => k4 a ((l1 a).2 (Or.inl ha))
    obtain ⟨h5, lo, ro, e5, w5, n5, k5, sl, sr, fl, fr, c5⟩ := threadsM_spec (V := V) (c := c) (p := q) (le := le)
      (re := re) w4 (fun a ha => k4 a (hq a (by
        simp only [List.mem_cons, List.not_mem_nil, or_false, RPtr.objects] at ha ⊢; tauto)))
      (fun e he => k14 _ (hl e he)) (fun e he => k14 _ (hr e he))
    rw [HM.bind_ok e5]
    have E5 := hrest q h2.next h3.next lo ro h5 w5 (fun a ha => k5 a (k14 a ha)) (fun a ha => k5 a (k4 a (hq a ha)))
      (k5 _ (by simp [h4d, h3d])) (k5 _ (by simp [h4d])) (fun a ha => (fl a ha).2.1) (fun a ha => (fr a ha).2) sl sr
    rcases hres : rest q h2.next h3.next (lo, ro) h5 with ⟨h6, o⟩
    rw [hres] at E5
    obtain ⟨g1, w6, n6, k6, c6⟩ := E5
    simp only [List.not_mem_nil, not_false_eq_true, and_true, forall_const] at g1 w6 n6 k6 c6
    have n45 : h3.next + 1 ≤ h5.next := n5
    subst g1
    cases o with
    | ok v =>
      rw [HM.bind_ok hres]
      have hO4 : ∀ a ∈ h1.next :: O, a ∈ h4.live ∧ a < h4.next := by
        intro a ha
        have : a ∈ h4.live := by
          rcases List.mem_cons.1 ha with rfl | ha
          · simp [h4d, h3d, h2d]
          · exact k4 a ((l1 a).2 (Or.inr ha))
        exact ⟨this, w4 a this⟩
      have hnd : ((lo.map Prod.fst).toList ++ ((ro.map Prod.fst).toList ++ (h1.next :: O))).Nodup := by
        rw [List.nodup_append', List.nodup_append', List.nodup_cons]
        refine ⟨?_, ⟨?_, ⟨fun hc => absurd (hO1 _ hc) (lt_irrefl _), nd1⟩, ?_⟩, ?_⟩
        · cases lo <;> simp
        · cases ro <;> simp
        · intro a ha hb
          have := (fr a (Option.mem_toList.1 ha)).1
          have := (hO4 a hb).2
          omega
        · intro a ha hb
          obtain ⟨q1, q2, q3⟩ := fl a (Option.mem_toList.1 ha)
          rcases List.mem_append.1 hb with hb | hb
          · exact q3 (Option.mem_toList.1 hb)
          · have := (hO4 a hb).2
            omega
      have hmem : ∀ a ∈ (lo.map Prod.fst).toList ++ ((ro.map Prod.fst).toList ++ (h1.next :: O)), a ∈ h6.live := by
        intro a ha
        refine k6 a ?_
        rcases List.mem_append.1 ha with ha | ha
        · exact (fl a (Option.mem_toList.1 ha)).2.1
        · rcases List.mem_append.1 ha with ha | ha
          · exact (fr a (Option.mem_toList.1 ha)).2
          · exact k5 a (hO4 a ha).1
      obtain ⟨h7, e7, n7, l7⟩ := deleteAll_spec _ h6 hnd hmem
      have e7' : houseKeeping ic q h1.next lo ro h6 = (h7, .ok ()) := e7
      rw [HM.bind_ok e7']
      refine ⟨rfl, fun a ha => ?_, by simp only [pure]; omega, fun a ha hD => ?_, fun hc v' _ a => ?_⟩
      · show a < h7.next
        rw [n7]
        exact w6 a ((l7 a).1 ha).1
      · refine (l7 a).2 ⟨k6 a (k5 a ha), ?_⟩
        have ha4 := w4 a ha
        simp only [List.mem_append, not_or]
        refine ⟨fun hc => ?_, fun hc => ?_, hD⟩
        · have := (fl a (Option.mem_toList.1 hc)).1; omega
        · have := (fr a (Option.mem_toList.1 hc)).1; omega
      · show a ∈ h7.live ↔ _
        rw [l7, c6 hc.1 v rfl, c5 hc.2]
        simp only [List.mem_append, Option.mem_toList, not_or]
        constructor
        · tauto
        · rintro ⟨ha, hD⟩
          have ha4 := w4 a ha
          refine ⟨Or.inl ha, fun hc => ?_, fun hc => ?_, hD⟩
          · have := (fl a hc).1; omega
          · have := (fr a hc).1; omega
    | _ =>
      show Ends _ _ (HM.bind (rest q h2.next h3.next (lo, ro)) _ h5) _ _
      unfold HM.bind
      rw [hres]
      exact ⟨rfl, w6, by simp only; omega, fun a ha _ => k6 a (k5 a ha), fun _ v hv => by simp at hv⟩
  obtain ⟨g1, g2, g3, g4, g5⟩ := key
  have hfresh : ∀ a ∈ h.live, a ∉ h1.next :: O := by
    intro a ha
    have := hw a ha
    simp only [List.mem_cons, not_or]
    refine ⟨by omega, fun hc => ?_⟩
    have := f1 a hc
    omega
  have n2 : h1.next + 1 ≤ _ := g3
  refine ⟨g1, g2, by omega, fun a ha _ => ?_, fun hc v hv a => ?_⟩
  · exact g4 a (by simp [h2d, (l1 a).2 (Or.inl ha)]) (hfresh a ha)
  · rw [g5 hc v hv]
    simp only [h2d, Finset.mem_insert, l1, List.not_mem_nil, not_false_eq_true, and_true, List.mem_cons, not_or]
    constructor
    · tauto
    · intro ha
      have := hfresh a ha
      simp only [List.mem_cons, not_or] at this
      tauto

variable {W Q : HLSolver} {ε : ℚ}

theorem Ends.mono {h : Heap} {D : List ℕ} {r : Heap × Outcome α} {x : Outcome α} {c c' : Prop} (he : Ends h D r x c)
    (hc : c' → c) : Ends h D r x c' :=
  ⟨he.out, he.wf, he.next, he.keep, fun h1 => he.clean (hc h1)⟩

/-- From another heap with the same objects if `c`, and more otherwise. -/
theorem Ends.from {h h' : Heap} {r : Heap × Outcome α} {x : Outcome α} {c : Prop} (he : Ends h' [] r x c)
    (hk : ∀ a ∈ h.live, a ∈ h'.live) (hn : h.next ≤ h'.next) (hc : c → ∀ a, a ∈ h'.live ↔ a ∈ h.live) :
    Ends h [] r x c :=
  ⟨he.out, he.wf, hn.trans he.next, fun a ha hD => he.keep a (hk a ha) hD,
    fun h1 v hv a => by rw [he.clean h1 v hv, hc h1]⟩

theorem sliceM_ends (arcs : List Arc) (j : ℕ) (y : ℕ → YPair) (sched : CSet → CSet → Finish × Bool) :
    ∀ (k : ℕ) (G : RNet) (p : RPtr) (Tl Tr : CSet) (w : RWarmM) (lam1 lam3 : ℚ) (ic : Bool) (h : Heap), HeapWF h →
      (∀ a, RNeeds p w a → a ∈ h.live) →
      Ends h [] (pmfrSliceM false W Q ε arcs j y sched k G p Tl Tr w lam1 lam3 ic h)
        (pmfrSliceW W Q ε arcs j y sched k G Tl Tr w.forget lam1 lam3 ic) (∀ Tl Tr, CleanFinish (sched Tl Tr)) := by
  intro k
  induction k with
  | zero => exact fun G p Tl Tr w lam1 lam3 ic h hw _ => Ends.same hw (Or.inl rfl)
  | succ k ih =>
    intro G p Tl Tr w lam1 lam3 ic h hw hp
    unfold pmfrSliceM pmfrSliceW
    refine Ends.bind (x := computeLambda ε _ _) (Ends.same hw (Or.inl rfl)) fun lam2 h0 w0 k0 n0 c0 _ => ?_
    refine Ends.from ?_ k0 n0 c0
    have hp0 : ∀ a, RNeeds p w a → a ∈ h0.live := fun a ha => k0 a (hp a ha)
    clear hp k0 n0 c0 hw
    by_cases hd : ¬ tolDifferent ε lam2 lam1 ∨ ¬ tolDifferent ε lam2 lam3
    · rw [if_pos hd, if_pos hd]
      exact Ends.same w0 (Or.inl rfl)
    rw [if_neg hd, if_neg hd]
    by_cases hm : lam2 < lam1 ∨ lam3 < lam2
    · rw [if_pos hm, if_pos hm]
      exact Ends.same w0 (Or.inl rfl)
    rw [if_neg hm, if_neg hm]
    have hle : ∀ e, (if ic then none else w.leftEle) = some e → e.1 ∈ h0.live := by
      intro e he
      cases ic with
      | true => simp at he
      | false =>
        simp only [Bool.false_eq_true, if_false] at he
        exact hp0 _ (Or.inr (Or.inl (by simp [he])))
    have hre : ∀ e, (if ic then none else w.rightEle) = some e → e.1 ∈ h0.live := by
      intro e he
      cases ic with
      | true => simp at he
      | false =>
        simp only [Bool.false_eq_true, if_false] at he
        exact hp0 _ (Or.inr (Or.inr (by simp [he])))
    refine Ends.mono (c := (∀ Tl Tr, CleanFinish (sched Tl Tr)) ∧ CleanFinish (sched Tl Tr)) ?_ fun h1 => ⟨h1, h1 _ _⟩
    refine slice_frame (c := sched Tl Tr) w0 (fun a ha => hp0 a (Or.inl ha)) hle hre ?_
    intro q fl fr lo ro h5 w5 k5 hq hfl hfr hlo hro slo sro
    simp only [RPtr.objects, List.mem_cons, List.not_mem_nil, or_false, forall_eq_or_imp, forall_eq] at hq
    obtain ⟨qb, ql, qr, qa, qd⟩ := hq
    have e1 : (if ic then none else w.leftEle).map Prod.snd = if ic then none else w.forget.leftEle := by
      cases ic <;> rfl
    have e2 : (if ic then none else w.rightEle).map Prod.snd = if ic then none else w.forget.rightEle := by
      cases ic <;> rfl
    rw [e1] at slo
    rw [e2] at sro
    have esl : (leftStart ε j G (sliceNet ε arcs j y G Tl Tr lam2 ic) Tl Tr ic w.forget).ele =
      if ic then none else w.forget.leftEle := rfl
    have esr : (rightStart ε j G (sliceNet ε arcs j y G Tl Tr lam2 ic) Tl Tr ic w.forget).ele =
      if ic then none else w.forget.rightEle := rfl
    rw [← esl] at slo
    rw [← esr] at sro
    clear esl esr e1 e2 hle hre
    dsimp only
    generalize sliceNet ε arcs j y G Tl Tr lam2 ic = H at *
    generalize leftStart ε j G H Tl Tr ic w.forget = sl at *
    generalize rightStart ε j G H Tl Tr ic w.forget = sr at *
    generalize (if (sched Tl Tr).1.leftDone = true then
      (insert j (W.sinkSide ⟨H.verts, H.arcs⟩ (some sl)), (W.run ⟨H.verts, H.arcs⟩ (some sl)).value)
      else (∅, -1) : CSet × ℚ) = L
    generalize (if L.1.card = 0 then
        (if (sched Tl Tr).1 = .left then (∅, -1)
          else (insert j (Q.srcSide (Net.rev ⟨H.verts, H.arcs⟩) (some sr)),
            (Q.run (Net.rev ⟨H.verts, H.arcs⟩) (some sr)).value))
        else L : CSet × ℚ) = r
    generalize (if L.1.card = 0 then (Q.run (Net.rev ⟨H.verts, H.arcs⟩) (some sr)).flow
      else (W.run ⟨H.verts, H.arcs⟩ (some sl)).flow) = f
    have hfm : (if L.1.card = 0 then fr else fl) ∈ h5.live := by
      split_ifs
      · exact hfr
      · exact hfl
    generalize (if L.1.card = 0 then fr else fl) = fm at *
    by_cases hT : r.1 ∪ Tr ≠ Tr ∧ r.1 ∪ Tr ≠ Tl ∧ r.2 < Net.cutCap ⟨H.verts, H.arcs⟩ (Tr.erase j) - 10 * ε
    · rw [if_pos hT, if_pos hT, ← sro, ← slo]
      refine Ends.bind (ih _ _ _ _ ⟨sliceFlow ε j G Tl Tr ic w.left, f, w.leftEle, ro⟩ _ _ _ _ w5 ?_)
        fun a h6 w6 k6 n6 c6 _ => ?_
      · rintro a (ha | ha | ha)
        · simp only [RPtr.objects, List.mem_cons, List.not_mem_nil, or_false] at ha
          rcases ha with rfl | rfl | rfl | rfl | rfl
          exacts [qb, ql, hfm, qa, qd]
        · exact k5 a (hp0 a (Or.inr (Or.inl ha)))
        · exact hro a ha
      refine Ends.from (Ends.bind (ih _ _ _ _ ⟨f, sliceFlow ε j G Tl Tr ic w.right, lo, w.rightEle⟩ _ _ _ _ w6 ?_)
        fun b h7 w7 k7 n7 c7 _ => ?_) k6 n6 c6
      · rintro a (ha | ha | ha)
        · simp only [RPtr.objects, List.mem_cons, List.not_mem_nil, or_false] at ha
          rcases ha with rfl | rfl | rfl | rfl | rfl
          exacts [k6 _ qb, k6 _ hfm, k6 _ qr, k6 _ qa, k6 _ qd]
        · exact k6 a (hlo a ha)
        · exact k6 a (k5 a (hp0 a (Or.inr (Or.inr ha))))
      exact Ends.from (Ends.same w7 (Or.inl rfl)) k7 n7 c7
    · rw [if_neg hT, if_neg hT]
      exact Ends.same w5 (Or.inl rfl)

/-! ### `run` -/

theorem unwindSolvers_false {e r : ℕ} {m : HM α} {h : Heap} : unwindSolvers false e r m h = m h := by
  unfold unwindSolvers
  split
  · simp_all [HM.bind, HM.deleteIf]
    rfl
  · simp_all

theorem withElevators_ends {m : ℕ → ℕ → HM α} {x : Outcome α} {c : Prop} {h : Heap} (hw : HeapWF h)
    (hm : ∀ h' e r, HeapWF h' → (∀ a ∈ h.live, a ∈ h'.live) → e ∈ h'.live → r ∈ h'.live → Ends h' [] (m e r h') x c) :
    Ends h [] (withElevators false m h) x c := by
  unfold withElevators
  rw [HM.bind_ok (HM.new_eq h), HM.bind_ok (HM.new_eq _)]
  have w2 : HeapWF ⟨h.next + 2, insert (h.next + 1) (insert h.next h.live)⟩ := new_wf (new_wf hw)
  have E := hm _ h.next (h.next + 1) w2 (fun a ha => by simp [ha]) (by simp) (by simp)
  have h0 : ∀ a ∈ h.live, a < h.next := hw
  rcases hmh : m h.next (h.next + 1) ⟨h.next + 2, insert (h.next + 1) (insert h.next h.live)⟩ with ⟨h3, o⟩
  rw [hmh] at E
  obtain ⟨g1, w3, n3, k3, c3⟩ := E
  simp only [List.not_mem_nil, not_false_eq_true, and_true, forall_const] at g1 w3 n3 k3 c3
  subst g1
  have l0 : ∀ a ∈ h.live, a ∈ h3.live := fun a ha => k3 a (by simp [ha])
  have hu : unwindSolvers false h.next (h.next + 1) (m h.next (h.next + 1))
      ⟨h.next + 2, insert (h.next + 1) (insert h.next h.live)⟩ = (h3, o) := unwindSolvers_false.trans hmh
  cases o with
  | ok v =>
    have le : h.next ∈ h3.live := k3 _ (by simp)
    have lr : h.next + 1 ∈ h3.live := k3 _ (by simp)
    rw [HM.bind_ok hu, HM.bind_ok (HM.delete_ok le), HM.bind_ok (HM.delete_ok (by simp [lr]))]
    show Ends h [] (⟨h3.next, (h3.live.erase h.next).erase (h.next + 1)⟩, .ok v) _ _
    refine ⟨rfl, fun a ha => w3 a (Finset.mem_of_mem_erase (Finset.mem_of_mem_erase ha)), by simp only; omega, ?_, ?_⟩
    · intro a ha _
      have := h0 a ha
      simp only [Finset.mem_erase]
      exact ⟨by omega, by omega, l0 a ha⟩
    · intro hc w hw' a
      simp only [Finset.mem_erase, c3 hc w hw', Finset.mem_insert, List.not_mem_nil, not_false_eq_true, and_true]
      constructor
      · tauto
      · intro ha
        have := h0 a ha
        exact ⟨by omega, by omega, Or.inr (Or.inr ha)⟩
  | _ =>
    show Ends h [] (HM.bind _ _ ⟨h.next + 2, insert (h.next + 1) (insert h.next h.live)⟩) _ _
    unfold HM.bind
    rw [hu]
    exact ⟨rfl, w3, by simp only; omega, fun a ha _ => l0 a ha, fun _ v hv => by simp at hv⟩

theorem Ends.bind_pure {h : Heap} {m : HM α} {x : Outcome α} {f : α → β} {c : Prop} (hm : Ends h [] (m h) x c) :
    Ends h [] ((do let v ← m; return f v : HM β) h) (do let v ← x; return f v) c :=
  Ends.bind hm fun _ _ hw hk hn hc _ => Ends.from (Ends.same hw (Or.inl rfl)) hk hn hc

theorem pmfrRunM_ends {g : Digraph} {sched : ℕ → CSet → CSet → Finish × Bool} (j : ℕ) (y : ℕ → YPair) {h : Heap}
    (hw : HeapWF h) :
    Ends h [] (pmfrRunM false W Q ε g sched j y h) (pmfrRunW W Q ε g sched j y)
      (∀ j Tl Tr, CleanFinish (sched j Tl Tr)) := by
  unfold pmfrRunM pmfrRunW
  by_cases hg : ¬ ∀ i ∈ List.range (j + 1), i ∈ g.nodes
  · rw [if_pos hg, if_pos hg]
    exact Ends.same hw (Or.inl rfl)
  rw [if_neg hg, if_neg hg]
  have w1 := new_wf hw
  have w2 := new_wf w1
  have w3 := new_wf w2
  have w4 := new_wf w3
  have w5 := new_wf w4
  refine Ends.local_ hw (by simp) (Ends.local_ w1 (by simp) (Ends.local_ w2 (by simp) (Ends.local_ w3 (by simp)
    (Ends.local_ w4 (by simp) (Ends.bind_pure (withElevators_ends w5 fun h' e r wh k he hr => ?_))))))
  refine Ends.mono (sliceM_ends _ _ _ _ _ _ _ _ _ _ _ _ _ _ wh ?_) fun hc => hc j
  rintro a (ha | ha | ha)
  · simp only [RPtr.objects, List.mem_cons, List.not_mem_nil, or_false] at ha
    rcases ha with rfl | rfl | rfl | rfl | rfl <;> exact k _ (by simp)
  · simp at ha; subst ha; exact he
  · simp at ha; subst ha; exact hr

theorem pdtStep_eq (pmf : ℕ → (ℕ → YPair) → Outcome (List CSet × List ℚ)) (g : Digraph) (j : ℕ) (st : PDTState) :
    pdtStep pmf g j st = pmf j st.y >>= fun r => pdtStep (fun _ _ => .ok r) g j st := by
  unfold pdtStep
  cases pmf j st.y <;> rfl

theorem pdtLoopM_ends {pmfM : ℕ → (ℕ → YPair) → HM (List CSet × List ℚ)}
    {pmf : ℕ → (ℕ → YPair) → Outcome (List CSet × List ℚ)} {c : Prop}
    (hp : ∀ j y h, HeapWF h → Ends h [] (pmfM j y h) (pmf j y) c) (g : Digraph) :
    ∀ (k i : ℕ) (st : PDTState) (h : Heap), HeapWF h →
      Ends h [] (pdtLoopM pmfM g k i st h) (pdtLoop pmf g k i st) c := by
  intro k
  induction k with
  | zero => exact fun i st h hw => Ends.same hw (Or.inl rfl)
  | succ k ih =>
    intro i st h hw
    unfold pdtLoopM pdtLoop
    refine Ends.bind ?_ fun st' h' w' k' n' c' _ => Ends.from (ih _ _ _ w') k' n' c'
    rw [pdtStep_eq]
    unfold pdtStepM
    exact Ends.bind (hp i st.y h hw) fun r h' w' k' n' c' _ => Ends.from (Ends.same w' (Or.inl rfl)) k' n' c'

theorem pdtrRunM_ends {sched : ℕ → CSet → CSet → Finish × Bool} {g : Digraph} {h : Heap} (hw : HeapWF h) :
    Ends h [] (pdtrRunM false W Q ε sched g h) (pdtrRunW W Q ε sched g)
      (∀ j Tl Tr, CleanFinish (sched j Tl Tr)) := by
  unfold pdtrRunM pdtrRunW pdtrRunFromW pdtRunWith
  by_cases hg : g.countNodes = 0
  · rw [if_pos hg, if_pos hg]
    exact Ends.same hw (Or.inl rfl)
  rw [if_neg hg, if_neg hg, Outcome.bind_assoc]
  refine Ends.bind (pdtLoopM_ends (fun j y h hw => pmfrRunM_ends j y hw) g _ _ _ _ hw) fun st h' w' k' n' c' _ => ?_
  refine Ends.from ?_ k' n' c'
  by_cases hc : none ∈ st.parts.dropLast.map Prod.snd
  · simp only [hc, if_true]
    exact Ends.same w' (Or.inl rfl)
  · simp only [hc, if_false]
    exact Ends.same w' (Or.inl rfl)

/-! ### solvers that delete their elevators -/

/-- The objects do not change the outcome, except that using them can be undefined behaviour. -/
def UbOr (m : HM α) (x : Outcome α) : Prop := ∀ h, (∃ s, (m h).2 = .ub s) ∨ (m h).2 = x

/-- The same for a value that depends on the addresses. -/
def UbOrVal (m : HM α) (P : α → Prop) : Prop := ∀ h, (∃ s, (m h).2 = .ub s) ∨ ∃ v, (m h).2 = .ok v ∧ P v

theorem UbOr.lift (x : Outcome α) : UbOr (HM.lift x) x := fun _ => Or.inr rfl

theorem UbOrVal.pure {a : α} {P : α → Prop} (h : P a) : UbOrVal (pure a) P := fun _ => Or.inr ⟨a, rfl, h⟩

theorem UbOrVal.new : UbOrVal HM.new fun _ => True := fun h => Or.inr ⟨h.next, rfl, trivial⟩

theorem UbOrVal.touch (p : ℕ) : UbOrVal (HM.touch p) fun _ => True := by
  intro h
  unfold HM.touch
  split_ifs
  · exact Or.inr ⟨(), rfl, trivial⟩
  · exact Or.inl ⟨_, rfl⟩

theorem UbOrVal.delete (p : ℕ) : UbOrVal (HM.delete p) fun _ => True := by
  intro h
  unfold HM.delete
  split_ifs
  · exact Or.inr ⟨(), rfl, trivial⟩
  · exact Or.inl ⟨_, rfl⟩

theorem UbOrVal.deleteIf (b : Bool) (p : ℕ) : UbOrVal (HM.deleteIf b p) fun _ => True := by
  unfold HM.deleteIf
  split_ifs
  · exact UbOrVal.delete p
  · exact UbOrVal.pure trivial

theorem UbOr.bind {m : HM α} {f : α → HM β} {x : Outcome α} {y : α → Outcome β} (hm : UbOr m x)
    (hf : ∀ v, UbOr (f v) (y v)) : UbOr (m >>= f) (x >>= y) := by
  intro h
  show (∃ s, (HM.bind m f h).2 = .ub s) ∨ (HM.bind m f h).2 = _
  have := hm h
  unfold HM.bind
  rcases hmh : m h with ⟨h', o⟩
  rw [hmh] at this
  simp only at this
  rcases this with ⟨s, rfl⟩ | rfl
  · exact Or.inl ⟨s, rfl⟩
  · cases o with
    | ok v => exact hf v h'
    | _ => exact Or.inr rfl

theorem UbOrVal.then {m : HM α} {f : α → HM β} {P : α → Prop} {y : Outcome β} (hm : UbOrVal m P)
    (hf : ∀ v, P v → UbOr (f v) y) : UbOr (m >>= f) y := by
  intro h
  show (∃ s, (HM.bind m f h).2 = .ub s) ∨ (HM.bind m f h).2 = _
  have := hm h
  unfold HM.bind
  rcases hmh : m h with ⟨h', o⟩
  rw [hmh] at this
  simp only at this
  rcases this with ⟨s, rfl⟩ | ⟨v, rfl, hv⟩
  · exact Or.inl ⟨s, rfl⟩
  · exact hf v hv h'

theorem UbOrVal.bind {m : HM α} {f : α → HM β} {P : α → Prop} {R : β → Prop} (hm : UbOrVal m P)
    (hf : ∀ v, P v → UbOrVal (f v) R) : UbOrVal (m >>= f) R := by
  intro h
  show (∃ s, (HM.bind m f h).2 = .ub s) ∨ ∃ v, (HM.bind m f h).2 = .ok v ∧ R v
  have := hm h
  unfold HM.bind
  rcases hmh : m h with ⟨h', o⟩
  rw [hmh] at this
  simp only at this
  rcases this with ⟨s, rfl⟩ | ⟨v, rfl, hv⟩
  · exact Or.inl ⟨s, rfl⟩
  · exact hf v hv h'

/-- Deletions after the outcome is known. -/
theorem UbOr.after {m : HM α} {f : α → HM α} {x : Outcome α} (hm : UbOr m x)
    (hf : ∀ v, UbOrVal (f v) (· = v)) : UbOr (m >>= f) x := by
  have := UbOr.bind (y := fun v => .ok v) hm fun v h => by
    rcases hf v h with h1 | ⟨w, h1, h2⟩
    · exact Or.inl h1
    · rw [h2] at h1; exact Or.inr h1
  cases x <;> exact this

theorem UbOr.local_ {m : ℕ → HM α} {x : Outcome α} (hm : ∀ p, UbOr (m p) x) : UbOr (HM.local_ m) x := by
  intro h
  have := hm h.next ⟨h.next + 1, insert h.next h.live⟩
  unfold HM.local_
  rcases hmh : m h.next ⟨h.next + 1, insert h.next h.live⟩ with ⟨h', o⟩
  rw [hmh] at this
  simp only at this
  rcases this with ⟨s, rfl⟩ | rfl
  · exact Or.inl ⟨s, rfl⟩
  · cases o with
    | ok v =>
      exact UbOrVal.then (f := fun _ h'' => (h'', .ok v)) (UbOrVal.delete h.next) (fun _ _ h'' => Or.inr rfl) h'
    | exc s =>
      exact UbOrVal.then (f := fun _ h'' => (h'', .exc s)) (UbOrVal.delete h.next) (fun _ _ h'' => Or.inr rfl) h'
    | _ => exact Or.inr rfl

theorem threadM_ub (own : Bool) (V : Finset ℕ) (done inited : Bool) (ele : EleP) :
    UbOrVal (threadM own V done inited ele) fun o => o.map Prod.snd = eleOut V done inited (ele.map Prod.snd) := by
  cases ele with
  | none =>
    cases done with
    | true => exact UbOrVal.new.bind fun p _ => (UbOrVal.deleteIf own p).bind fun _ _ => UbOrVal.pure rfl
    | false =>
      cases inited with
      | true => exact UbOrVal.new.bind fun p _ => (UbOrVal.deleteIf own p).bind fun _ _ => UbOrVal.pure rfl
      | false => exact UbOrVal.pure rfl
  | some e =>
    unfold threadM
    by_cases hd : (done || inited) = true
    · simp only [hd, if_true]
      exact (UbOrVal.touch e.1).bind fun _ _ => UbOrVal.new.bind fun q _ => UbOrVal.pure (by simp [eleOut, hd])
    · simp only [hd]
      exact UbOrVal.pure (by simp [eleOut, hd])

theorem threadsM_ub (own : Bool) (V : Finset ℕ) (c : Finish × Bool) (p : RPtr) (le re : EleP) :
    UbOrVal (threadsM own V c p le re) fun o => o.1.map Prod.snd = eleOut V c.1.leftDone c.2 (le.map Prod.snd) ∧
      o.2.map Prod.snd = eleOut V (c.1 ≠ .left) c.2 (re.map Prod.snd) :=
  UbOrVal.new.bind fun _ _ => UbOrVal.new.bind fun _ _ => (UbOrVal.touch _).bind fun _ _ =>
    (UbOrVal.touch _).bind fun _ _ => (UbOrVal.touch _).bind fun _ _ => (UbOrVal.touch _).bind fun _ _ =>
    (threadM_ub own V _ _ le).bind fun _ hl => (threadM_ub own V _ _ re).bind fun _ hr =>
    (UbOrVal.delete _).bind fun _ _ => (UbOrVal.delete _).bind fun _ _ => UbOrVal.pure ⟨hl, hr⟩

theorem deleteAll_ub : ∀ l : List ℕ, UbOrVal (HM.deleteAll l) fun _ => True
  | [] => UbOrVal.pure trivial
  | p :: ps => (UbOrVal.delete p).bind fun _ _ => deleteAll_ub ps

theorem sliceObjects_ub (ic : Bool) (p : RPtr) : UbOrVal (sliceObjects ic p) fun _ => True := by
  cases ic with
  | false => exact UbOrVal.pure trivial
  | true => exact UbOrVal.new.bind fun _ _ => UbOrVal.new.bind fun _ _ => (UbOrVal.touch _).bind fun _ _ =>
      (UbOrVal.touch _).bind fun _ _ => UbOrVal.new.bind fun _ _ => UbOrVal.new.bind fun _ _ =>
      (UbOrVal.touch _).bind fun _ _ => UbOrVal.new.bind fun _ _ => (UbOrVal.touch _).bind fun _ _ =>
      UbOrVal.pure trivial

theorem sliceFrame_ub {own ic : Bool} {p : RPtr} {V : Finset ℕ} {c : Finish × Bool} {le re : EleP}
    {rest : RPtr → ℕ → ℕ → EleP × EleP → HM β} {x : Outcome β}
    (hrest : ∀ q fl fr lo ro, lo.map Prod.snd = eleOut V c.1.leftDone c.2 (le.map Prod.snd) →
      ro.map Prod.snd = eleOut V (c.1 ≠ .left) c.2 (re.map Prod.snd) → UbOr (rest q fl fr (lo, ro)) x) :
    UbOr (sliceFrame own ic p V c le re rest) x :=
  (sliceObjects_ub ic p).then fun _ _ => (UbOrVal.touch _).then fun _ _ => (UbOrVal.touch _).then fun _ _ =>
    (UbOrVal.touch _).then fun _ _ => UbOrVal.new.then fun _ _ => UbOr.local_ fun _ => UbOr.local_ fun _ =>
    (threadsM_ub own V c _ le re).then fun eo he => UbOr.after (hrest _ _ _ eo.1 eo.2 he.1 he.2) fun _ =>
    (deleteAll_ub _).bind fun _ _ => UbOrVal.pure rfl

theorem sliceM_ub (own : Bool) (arcs : List Arc) (j : ℕ) (y : ℕ → YPair) (sched : CSet → CSet → Finish × Bool) :
    ∀ (k : ℕ) (G : RNet) (p : RPtr) (Tl Tr : CSet) (w : RWarmM) (lam1 lam3 : ℚ) (ic : Bool),
      UbOr (pmfrSliceM own W Q ε arcs j y sched k G p Tl Tr w lam1 lam3 ic)
        (pmfrSliceW W Q ε arcs j y sched k G Tl Tr w.forget lam1 lam3 ic) := by
  intro k
  induction k with
  | zero => exact fun G p Tl Tr w lam1 lam3 ic => UbOr.lift _
  | succ k ih =>
    intro G p Tl Tr w lam1 lam3 ic
    unfold pmfrSliceM pmfrSliceW
    refine UbOr.bind (UbOr.lift _) fun lam2 => ?_
    by_cases hd : ¬ tolDifferent ε lam2 lam1 ∨ ¬ tolDifferent ε lam2 lam3
    · rw [if_pos hd, if_pos hd]
      exact UbOr.lift _
    rw [if_neg hd, if_neg hd]
    by_cases hm : lam2 < lam1 ∨ lam3 < lam2
    · rw [if_pos hm, if_pos hm]
      exact UbOr.lift _
    rw [if_neg hm, if_neg hm]
    refine sliceFrame_ub (c := sched Tl Tr) ?_
    intro q fl fr lo ro slo sro
    have e1 : (if ic then none else w.leftEle).map Prod.snd = if ic then none else w.forget.leftEle := by
      cases ic <;> rfl
    have e2 : (if ic then none else w.rightEle).map Prod.snd = if ic then none else w.forget.rightEle := by
      cases ic <;> rfl
    rw [e1] at slo
    rw [e2] at sro
    have esl : (leftStart ε j G (sliceNet ε arcs j y G Tl Tr lam2 ic) Tl Tr ic w.forget).ele =
      if ic then none else w.forget.leftEle := rfl
    have esr : (rightStart ε j G (sliceNet ε arcs j y G Tl Tr lam2 ic) Tl Tr ic w.forget).ele =
      if ic then none else w.forget.rightEle := rfl
    rw [← esl] at slo
    rw [← esr] at sro
    clear esl esr e1 e2
    dsimp only
    generalize sliceNet ε arcs j y G Tl Tr lam2 ic = H at *
    generalize leftStart ε j G H Tl Tr ic w.forget = sl at *
    generalize rightStart ε j G H Tl Tr ic w.forget = sr at *
    generalize (if (sched Tl Tr).1.leftDone = true then
      (insert j (W.sinkSide ⟨H.verts, H.arcs⟩ (some sl)), (W.run ⟨H.verts, H.arcs⟩ (some sl)).value)
      else (∅, -1) : CSet × ℚ) = L
    generalize (if L.1.card = 0 then
        (if (sched Tl Tr).1 = .left then (∅, -1)
          else (insert j (Q.srcSide (Net.rev ⟨H.verts, H.arcs⟩) (some sr)),
            (Q.run (Net.rev ⟨H.verts, H.arcs⟩) (some sr)).value))
        else L : CSet × ℚ) = r
    generalize (if L.1.card = 0 then (Q.run (Net.rev ⟨H.verts, H.arcs⟩) (some sr)).flow
      else (W.run ⟨H.verts, H.arcs⟩ (some sl)).flow) = f
    by_cases hT : r.1 ∪ Tr ≠ Tr ∧ r.1 ∪ Tr ≠ Tl ∧ r.2 < Net.cutCap ⟨H.verts, H.arcs⟩ (Tr.erase j) - 10 * ε
    · rw [if_pos hT, if_pos hT, ← sro, ← slo]
      exact UbOr.bind (ih _ _ _ _ ⟨sliceFlow ε j G Tl Tr ic w.left, f, w.leftEle, ro⟩ _ _ _) fun a =>
        UbOr.bind (ih _ _ _ _ ⟨f, sliceFlow ε j G Tl Tr ic w.right, lo, w.rightEle⟩ _ _ _) fun b => UbOr.lift _
    · rw [if_neg hT, if_neg hT]
      exact UbOr.lift _

theorem unwindSolvers_ub {own : Bool} {e r : ℕ} {m : HM α} {x : Outcome α} (hm : UbOr m x) :
    UbOr (unwindSolvers own e r m) x := by
  intro h
  have := hm h
  unfold unwindSolvers
  rcases hmh : m h with ⟨h', o⟩
  rw [hmh] at this
  simp only at this
  rcases this with ⟨s, rfl⟩ | rfl
  · exact Or.inl ⟨s, rfl⟩
  · cases o with
    | exc s =>
      exact UbOrVal.then (f := fun _ h'' => (h'', .exc s))
        ((UbOrVal.deleteIf own r).bind fun _ _ => UbOrVal.deleteIf own e) (fun _ _ h'' => Or.inr rfl) h'
    | _ => exact Or.inr rfl

theorem withElevators_ub {own : Bool} {m : ℕ → ℕ → HM α} {x : Outcome α} (hm : ∀ e r, UbOr (m e r) x) :
    UbOr (withElevators own m) x :=
  UbOrVal.new.then fun e _ => UbOrVal.new.then fun r _ => UbOr.after (unwindSolvers_ub (hm e r)) fun _ =>
    (UbOrVal.delete _).bind fun _ _ => (UbOrVal.delete _).bind fun _ _ => (UbOrVal.deleteIf _ _).bind fun _ _ =>
    (UbOrVal.deleteIf _ _).bind fun _ _ => UbOrVal.pure rfl

/-- The right elevator has just been deleted when its solver ends. -/
theorem withElevators_own {m : ℕ → ℕ → HM α} {h h' : Heap} {v : α} : withElevators true m h ≠ (h', .ok v) := by
  intro hc
  unfold withElevators at hc
  obtain ⟨h1, e, e1, hc⟩ := HM.bind_eq_ok hc
  obtain ⟨h2, r, e2, hc⟩ := HM.bind_eq_ok hc
  obtain ⟨h3, x, e3, hc⟩ := HM.bind_eq_ok hc
  obtain ⟨h4, u4, e4, hc⟩ := HM.bind_eq_ok hc
  obtain ⟨h5, u5, e5, hc⟩ := HM.bind_eq_ok hc
  obtain ⟨h6, u6, e6, hc⟩ := HM.bind_eq_ok hc
  unfold HM.delete at e5
  split_ifs at e5 with hr
  · injection e5 with e5 _
    subst e5
    unfold HM.deleteIf HM.delete at e6
    simp at e6
  · simp at e5

theorem local_own {m : ℕ → HM α} (hm : ∀ p h h' v, m p h ≠ (h', .ok v)) (h h' : Heap) (v : α) :
    HM.local_ m h ≠ (h', .ok v) := by
  intro hc
  unfold HM.local_ at hc
  rcases hmh : m h.next ⟨h.next + 1, insert h.next h.live⟩ with ⟨h1, o⟩
  rw [hmh] at hc
  cases o with
  | ok a => exact hm _ _ _ _ hmh
  | exc s =>
    simp only [HM.bind, HM.delete] at hc
    split_ifs at hc <;> simp at hc
  | _ => simp at hc

theorem pmfrRunM_own {g : Digraph} {sched : ℕ → CSet → CSet → Finish × Bool} (j : ℕ) (y : ℕ → YPair) (h h' : Heap)
    (v : List CSet × List ℚ) : pmfrRunM true W Q ε g sched j y h ≠ (h', .ok v) := by
  unfold pmfrRunM
  split_ifs with hg
  · refine local_own (fun dp => local_own fun ap => local_own fun bp => local_own fun lp => local_own fun rp => ?_) h h' v
    intro h1 h2 w hc
    obtain ⟨h3, s, e, _⟩ := HM.bind_eq_ok hc
    exact withElevators_own e
  · intro hc
    simp [HM.lift] at hc

theorem pmfrRunM_ub {own : Bool} {g : Digraph} {sched : ℕ → CSet → CSet → Finish × Bool} (j : ℕ) (y : ℕ → YPair) :
    UbOr (pmfrRunM own W Q ε g sched j y) (pmfrRunW W Q ε g sched j y) := by
  unfold pmfrRunM pmfrRunW
  by_cases hg : ¬ ∀ i ∈ List.range (j + 1), i ∈ g.nodes
  · rw [if_pos hg, if_pos hg]
    exact UbOr.lift _
  rw [if_neg hg, if_neg hg]
  exact UbOr.local_ fun _ => UbOr.local_ fun _ => UbOr.local_ fun _ => UbOr.local_ fun _ => UbOr.local_ fun _ =>
    UbOr.bind (withElevators_ub fun e r => sliceM_ub own _ _ _ _ _ _ _ _ _ _ _ _ _) fun _ => UbOr.lift _

theorem pdtLoopM_ub {pmfM : ℕ → (ℕ → YPair) → HM (List CSet × List ℚ)}
    {pmf : ℕ → (ℕ → YPair) → Outcome (List CSet × List ℚ)} (hp : ∀ j y, UbOr (pmfM j y) (pmf j y)) (g : Digraph) :
    ∀ (k i : ℕ) (st : PDTState), UbOr (pdtLoopM pmfM g k i st) (pdtLoop pmf g k i st) := by
  intro k
  induction k with
  | zero => exact fun i st => UbOr.lift _
  | succ k ih =>
    intro i st
    unfold pdtLoopM pdtLoop
    refine UbOr.bind ?_ fun st' => ih _ _
    rw [pdtStep_eq]
    unfold pdtStepM
    exact UbOr.bind (hp i st.y) fun r => UbOr.lift _

theorem pdtrRunM_ub {own : Bool} {sched : ℕ → CSet → CSet → Finish × Bool} {g : Digraph} :
    UbOr (pdtrRunM own W Q ε sched g) (pdtrRunW W Q ε sched g) := by
  unfold pdtrRunM pdtrRunW pdtrRunFromW pdtRunWith
  by_cases hg : g.countNodes = 0
  · rw [if_pos hg, if_pos hg]
    exact UbOr.lift _
  rw [if_neg hg, if_neg hg, Outcome.bind_assoc]
  refine UbOr.bind (pdtLoopM_ub (fun j y => pmfrRunM_ub j y) g _ _ _) fun st => ?_
  by_cases hc : none ∈ st.parts.dropLast.map Prod.snd
  · simp only [hc, if_true]
    exact UbOr.lift _
  · simp only [hc, if_false]
    exact UbOr.lift _

/-- With at least two nodes there is a call of `PMF_R::run`. -/
theorem pdtrRunM_own {sched : ℕ → CSet → CSet → Finish × Bool} {g : Digraph} (hg : 2 ≤ g.countNodes) (h h' : Heap)
    (v : PSPOut) : pdtrRunM true W Q ε sched g h ≠ (h', .ok v) := by
  intro hc
  unfold pdtrRunM at hc
  obtain ⟨k, hk⟩ : ∃ k, g.countNodes - 1 = k + 1 := ⟨g.countNodes - 2, by omega⟩
  rw [if_neg (by omega), hk] at hc
  obtain ⟨h1, st, e1, _⟩ := HM.bind_eq_ok hc
  unfold pdtLoopM at e1
  obtain ⟨h2, st', e2, _⟩ := HM.bind_eq_ok e1
  unfold pdtStepM at e2
  obtain ⟨h3, r, e3, _⟩ := HM.bind_eq_ok e2
  exact pmfrRunM_own _ _ _ _ _ e3

end PSP.Theory
