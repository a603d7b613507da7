import Verif.Model.Race

/-!
# The threads of `PMF_R::slice`: invariant, termination, progress
-/

namespace PSP.Theory.Race

open PSP.Model PSP.Model.Race

variable {small big : State → Bool} {s s' : State} {κ : Kind} {k : ℕ} {t : Side} {x z : Worker}
  {m m' : MPc} {mu mu' : Option Owner}

/-- The main thread is past the decision on an interrupt. -/
def Late (m : MPc) : Prop := m = .joinL ∨ m = .joinR ∨ m = .fin

/-- What holds of a worker `x` on side `t`; `z` is the other one. -/
structure WInv (m : MPc) (mu : Option Owner) (t : Side) (x z : Worker) : Prop where
  crit : mu = some (.worker t) ↔ x.pc.crit = true
  value : (x.pc = .run ∨ x.pc = .crit0) → x.value = false
  value' : (x.pc = .crit1 ∨ x.pc = .crit2 ∨ x.pc = .crit3 ∨ x.pc = .done) → x.value = true
  cut : x.cut = true ↔ (x.pc = .crit2 ∨ x.pc = .crit3 ∨ x.pc = .done)
  pending : x.pending = true → Late m ∧ (z.pc = .done ∨ z.pc = .failed)
  intr : x.pc = .intr → x.pending = true
  waiting : m = .waiting → x.pc ≠ .crit3 ∧ x.pc ≠ .done

/-- The invariant. -/
structure Inv (s : State) : Prop where
  mutex : s.mutex = some .main ↔ (s.main = .check ∨ s.main = .hold1 ∨ s.main = .decide)
  w : ∀ t, WInv s.main s.mutex t (s.w t) (s.w t.other)
  joinR : s.main = .joinR → s.l.pc.ended = true
  fin : s.main = .fin → s.l.pc.ended = true ∧ s.r.pc.ended = true

/-- A step of the main thread. -/
theorem WInv.move (h : WInv m mu t x z) (h1 : mu ≠ some (.worker t)) (h2 : mu' ≠ some (.worker t))
    (hp : Late m → Late m') (hw : m' = .waiting → x.pc ≠ .crit3 ∧ x.pc ≠ .done) : WInv m' mu' t x z :=
  ⟨by rw [← h.crit]; simp [h1, h2], h.value, h.value', h.cut, fun hx => ⟨hp (h.pending hx).1, (h.pending hx).2⟩,
    h.intr, hw⟩

/-- A step of the other worker, which has not ended. -/
theorem WInv.other {z' : Worker} (h : WInv m mu t x z) (hz : z.pc ≠ .done ∧ z.pc ≠ .failed)
    (h1 : mu = some (.worker t) ↔ mu' = some (.worker t)) (hw : m' = .waiting → m = .waiting) :
    WInv m' mu' t x z' :=
  ⟨by rw [← h.crit, h1], h.value, h.value', h.cut, fun hx => by
    rcases (h.pending hx).2 with h' | h'
    · exact absurd h' hz.1
    · exact absurd h' hz.2, h.intr, fun h' => h.waiting (hw h')⟩

theorem inv_start : Inv {} := by
  refine ⟨by simp, ?_, by simp, by simp⟩
  intro t
  cases t <;> exact ⟨by simp [State.w, WPc.crit], by simp [State.w], by simp [State.w], by simp [State.w],
    by simp [State.w], by simp [State.w], by simp [State.w]⟩

@[simp] theorem setW_same (s : State) (t : Side) (x : Worker) : (s.setW t x).w t = x := by cases t <;> rfl
@[simp] theorem setW_other (s : State) (t : Side) (x : Worker) : (s.setW t x).w t.other = s.w t.other := by
  cases t <;> rfl
@[simp] theorem setW_main (s : State) (t : Side) (x : Worker) : (s.setW t x).main = s.main := by
  cases t <;> rfl
@[simp] theorem setW_mutex (s : State) (t : Side) (x : Worker) : (s.setW t x).mutex = s.mutex := by
  cases t <;> rfl
@[simp] theorem other_other (t : Side) : t.other.other = t := by cases t <;> rfl

/-- A step of the worker `t`, which has not ended. -/
theorem inv_worker (h : Inv s) {x' : Worker} (hpc : (s.w t).pc.ended = false)
    (hmain : m' = s.main ∨ m' = s.main.notify) (hmu : (s.mutex = some .main ↔ mu' = some .main))
    (hmo : s.mutex = some (.worker t.other) ↔ mu' = some (.worker t.other))
    (hx : WInv m' mu' t x' (s.w t.other)) :
    Inv ({ s with main := m', mutex := mu' }.setW t x') := by
  have hm : ∀ y : MPc, y ≠ .woken → (m' = y → s.main = y) := by
    intro y hy hy'
    rcases hmain with h1 | h1
    · rw [← h1, hy']
    · rw [h1] at hy'
      revert hy'
      cases s.main <;> simp [MPc.notify] <;> intro h2 <;> first | exact h2 | exact absurd h2.symm hy
  have hmr : ∀ y : MPc, y ≠ .waiting → (s.main = y → m' = y) := by
    intro y hy hy'
    rcases hmain with h1 | h1
    · rw [h1, hy']
    · rw [h1, hy']
      cases y <;> first | rfl | exact absurd rfl hy
  refine ⟨?_, ?_, ?_, ?_⟩
  · simp only [setW_main, setW_mutex]
    rw [← hmu, h.mutex]
    constructor
    · rintro (h1 | h1 | h1)
      · exact Or.inl (hmr _ (by simp) h1)
      · exact Or.inr (Or.inl (hmr _ (by simp) h1))
      · exact Or.inr (Or.inr (hmr _ (by simp) h1))
    · rintro (h1 | h1 | h1)
      · exact Or.inl (hm _ (by simp) h1)
      · exact Or.inr (Or.inl (hm _ (by simp) h1))
      · exact Or.inr (Or.inr (hm _ (by simp) h1))
  · intro u
    rcases eq_or_ne u t with rfl | hu
    · simp only [setW_main, setW_mutex, setW_same, setW_other]
      cases u <;> exact hx
    · have hu' : u = t.other := by cases u <;> cases t <;> simp_all [Side.other]
      subst hu'
      simp only [setW_main, setW_mutex, other_other, setW_same, setW_other]
      have := (h.w t.other).other (z' := x') (m' := m') (mu' := mu')
        (by rw [other_other]; constructor <;> intro h' <;> rw [h'] at hpc <;> simp [WPc.ended] at hpc) hmo
        (hm _ (by simp))
      cases t <;> exact this
  · intro h1
    simp only [setW_main] at h1
    have h2 := h.joinR (hm _ (by simp) h1)
    cases t with
    | L => simp only [State.w] at hpc; rw [h2] at hpc; simp at hpc
    | R => exact h2
  · intro h1
    simp only [setW_main] at h1
    have h2 := h.fin (hm _ (by simp) h1)
    cases t with
    | L => simp only [State.w] at hpc; rw [h2.1] at hpc; simp at hpc
    | R => simp only [State.w] at hpc; rw [h2.2] at hpc; simp at hpc

/-- A worker that holds the mutex. -/
theorem Inv.crit_mutex (h : Inv s) (hc : (s.w t).pc.crit = true) : s.mutex = some (.worker t) :=
  (h.w t).crit.2 hc

theorem other_ne (t : Side) : t.other ≠ t := by cases t <;> simp [Side.other]

/-- A step of the main thread that leaves the workers alone. -/
theorem inv_main (h : Inv s) (hmu : s.mutex = none ∨ s.mutex = some .main)
    (hmu' : (mu' = none ∧ ¬ (m' = .check ∨ m' = .hold1 ∨ m' = .decide)) ∨
      (mu' = some .main ∧ (m' = .check ∨ m' = .hold1 ∨ m' = .decide)))
    (hl : ¬ Late s.main) (hm' : m' ≠ .joinR ∧ m' ≠ .fin)
    (hw : m' = .waiting → s.l.value = false ∧ s.r.value = false) :
    Inv { s with main := m', mutex := mu' } := by
  have hnw : ∀ u, s.mutex ≠ some (.worker u) := by
    intro u; rcases hmu with h1 | h1 <;> rw [h1] <;> simp
  have hnw' : ∀ u, mu' ≠ some (.worker u) := by
    intro u; rcases hmu' with h1 | h1 <;> rw [h1.1] <;> simp
  refine ⟨?_, fun u => ?_, fun h1 => absurd h1 hm'.1, fun h1 => absurd h1 hm'.2⟩
  · rcases hmu' with h1 | h1
    · rw [h1.1]
      exact ⟨fun h => by simp at h, fun h => absurd h h1.2⟩
    · rw [h1.1]
      exact ⟨fun _ => h1.2, fun _ => rfl⟩
  · have := (h.w u).move (m' := m') (mu' := mu') (hnw u) (hnw' u) (fun h => absurd h hl) (by
      intro h1
      have h2 := hw h1
      have h3 : (s.w u).value = false := by cases u; exacts [h2.1, h2.2]
      have h4 := (h.w u).value'
      constructor <;> intro h5 <;> rw [h4 (by simp [h5])] at h3 <;> simp at h3)
    cases u <;> exact this

/-- The decision on an interrupt. -/
theorem inv_decide (h : Inv s) (hm : s.main = .decide) {l' r' : Worker}
    (hl : l' = s.l ∨ (l' = { s.l with pending := true } ∧ s.l.value = false ∧ s.r.value = true ∧ r' = s.r))
    (hr : r' = s.r ∨ (r' = { s.r with pending := true } ∧ s.r.value = false ∧ s.l.value = true ∧ l' = s.l)) :
    Inv { s with main := .joinL, mutex := none, l := l', r := r' } := by
  have hmu : s.mutex = some .main := h.mutex.2 (by simp [hm])
  have hnw : ∀ u, s.mutex ≠ some (.worker u) := by intro u; rw [hmu]; simp
  have hlate : ¬ Late s.main := by rw [hm]; simp [Late]
  have hold : ∀ u, WInv .joinL none u (s.w u) (s.w u.other) := fun u =>
    (h.w u).move (hnw u) (by simp) (fun h => absurd h hlate) (by simp)
  have hend : ∀ u, (s.w u).value = true → (s.w u).pc = .done ∨ (s.w u).pc = .failed := by
    intro u hv
    have h1 := (h.w u).crit
    have h2 := (h.w u).value
    have h3 := (h.w u).intr
    have h4 := (h.w u).pending
    have hc : (s.w u).pc.crit ≠ true := fun hc => hnw u (h1.2 hc)
    cases hp : (s.w u).pc <;> rw [hp] at hc h2 h3 <;> simp [WPc.crit] at hc h2 h3 ⊢
    · rw [h2] at hv; simp at hv
    · exact absurd (h4 h3).1 hlate
  have hpc : l'.pc = s.l.pc ∧ r'.pc = s.r.pc := by
    constructor
    · rcases hl with h1 | h1
      · rw [h1]
      · rw [h1.1]
    · rcases hr with h1 | h1
      · rw [h1]
      · rw [h1.1]
  refine ⟨by simp, fun u => ?_, by simp, by simp⟩
  cases u with
  | L =>
    change WInv .joinL none .L l' r'
    have h0 := hold .L
    have hpd : l'.pending = true → Late .joinL ∧ (r'.pc = .done ∨ r'.pc = .failed) := by
      intro hp
      refine ⟨by simp [Late], ?_⟩
      rw [hpc.2]
      rcases hl with h1 | h1
      · rw [h1] at hp
        exact absurd ((h.w .L).pending hp).1 hlate
      · exact hend .R h1.2.2.1
    rcases hl with h1 | h1
    · subst h1
      exact ⟨h0.crit, h0.value, h0.value', h0.cut, hpd, h0.intr, h0.waiting⟩
    · obtain ⟨h1, _⟩ := h1
      subst h1
      exact ⟨h0.crit, h0.value, h0.value', h0.cut, hpd, fun _ => rfl, h0.waiting⟩
  | R =>
    change WInv .joinL none .R r' l'
    have h0 := hold .R
    have hpd : r'.pending = true → Late .joinL ∧ (l'.pc = .done ∨ l'.pc = .failed) := by
      intro hp
      refine ⟨by simp [Late], ?_⟩
      rw [hpc.1]
      rcases hr with h1 | h1
      · rw [h1] at hp
        exact absurd ((h.w .R).pending hp).1 hlate
      · exact hend .L h1.2.2.1
    rcases hr with h1 | h1
    · subst h1
      exact ⟨h0.crit, h0.value, h0.value', h0.cut, hpd, h0.intr, h0.waiting⟩
    · obtain ⟨h1, _⟩ := h1
      subst h1
      exact ⟨h0.crit, h0.value, h0.value', h0.cut, hpd, fun _ => rfl, h0.waiting⟩

theorem inv_step (h : Inv s) (hs : Step small big κ s s') : Inv s' := by
  have hmx := h.mutex
  cases hs with
  | lock1 _ h1 h2 => exact inv_main h (Or.inl h2) (by simp) (by rw [h1]; simp [Late]) (by simp) (by simp)
  | wait _ h1 h2 h3 =>
    exact inv_main h (Or.inr (hmx.2 (by simp [h1]))) (by simp) (by rw [h1]; simp [Late]) (by simp)
      (fun _ => ⟨h2, h3⟩)
  | pass _ h1 h2 =>
    exact inv_main h (Or.inr (hmx.2 (by simp [h1]))) (by simp) (by rw [h1]; simp [Late]) (by simp) (by simp)
  | spurious _ h1 =>
    have hl : ¬ Late s.main := by rw [h1]; simp [Late]
    refine ⟨?_, fun u => ?_, by simp, by simp⟩
    · rw [show ({ s with main := MPc.woken } : State).mutex = s.mutex from rfl, hmx, h1]; simp
    · have h0 := h.w u
      cases u <;>
      exact ⟨h0.crit, h0.value, h0.value', h0.cut, fun hp => absurd (h0.pending hp).1 hl, h0.intr, by simp⟩
  | relock _ h1 h2 => exact inv_main h (Or.inl h2) (by simp) (by rw [h1]; simp [Late]) (by simp) (by simp)
  | unlock _ h1 =>
    exact inv_main h (Or.inr (hmx.2 (by simp [h1]))) (by simp) (by rw [h1]; simp [Late]) (by simp) (by simp)
  | lock2 _ h1 h2 => exact inv_main h (Or.inl h2) (by simp) (by rw [h1]; simp [Late]) (by simp) (by simp)
  | intL _ h1 h2 h3 h4 => exact inv_decide h h1 (Or.inr ⟨rfl, h4, h2, rfl⟩) (Or.inl rfl)
  | intR _ h1 h2 h3 h4 => exact inv_decide h h1 (Or.inl rfl) (Or.inr ⟨rfl, h2, h3, rfl⟩)
  | noInt _ h1 h2 h3 => exact inv_decide h h1 (Or.inl rfl) (Or.inl rfl)
  | joinL _ h1 h2 =>
    refine ⟨?_, fun u => ?_, fun _ => h2, by simp⟩
    · rw [show ({ s with main := MPc.joinR } : State).mutex = s.mutex from rfl, hmx, h1]; simp
    · have h0 := h.w u
      cases u <;>
      exact ⟨h0.crit, h0.value, h0.value', h0.cut, fun hp => ⟨by simp [Late], (h0.pending hp).2⟩, h0.intr,
        by simp⟩
  | joinR _ h1 h2 =>
    refine ⟨?_, fun u => ?_, by simp, fun _ => ⟨h.joinR h1, h2⟩⟩
    · rw [show ({ s with main := MPc.fin } : State).mutex = s.mutex from rfl, hmx, h1]; simp
    · have h0 := h.w u
      cases u <;>
      exact ⟨h0.crit, h0.value, h0.value', h0.cut, fun hp => ⟨by simp [Late], (h0.pending hp).2⟩, h0.intr,
        by simp⟩
  | wlock _ t h1 h2 =>
    have h0 := h.w t
    refine inv_worker h (by rw [h1]; rfl) (Or.inl rfl) (by simp [h2]) (by simp [h2, (other_ne t).symm]) ?_
    exact ⟨by simp [WPc.crit], fun _ => h0.value (by simp [h1]), by simp, by
      simp only [reduceCtorEq, or_self, iff_false]
      rw [h0.cut]; simp [h1], h0.pending, by simp, by simp⟩
  | wvalue _ t h1 =>
    have h0 := h.w t
    have hmu := h.crit_mutex (t := t) (by rw [h1]; rfl)
    refine inv_worker h (by rw [h1]; rfl) (Or.inl rfl) Iff.rfl Iff.rfl ?_
    exact ⟨by simp [WPc.crit, hmu], by simp, by simp, by
      simp only [reduceCtorEq, or_self, iff_false]
      rw [h0.cut]; simp [h1], h0.pending, by simp, by simp⟩
  | wcut _ t h1 =>
    have h0 := h.w t
    have hmu := h.crit_mutex (t := t) (by rw [h1]; rfl)
    refine inv_worker h (by rw [h1]; rfl) (Or.inl rfl) Iff.rfl Iff.rfl ?_
    exact ⟨by simp [WPc.crit, hmu], by simp, fun _ => h0.value' (by simp [h1]), by simp, h0.pending, by simp,
      by simp⟩
  | wnotify _ t h1 =>
    have h0 := h.w t
    have hmu := h.crit_mutex (t := t) (by rw [h1]; rfl)
    refine inv_worker h (mu' := s.mutex) (by rw [h1]; rfl) (Or.inr rfl) Iff.rfl Iff.rfl ?_
    refine ⟨by simp [WPc.crit, hmu], by simp, fun _ => h0.value' (by simp [h1]), ?_, ?_, by simp, ?_⟩
    · simp only [true_or, or_true, iff_true]
      rw [h0.cut]; simp [h1]
    · intro hp
      have := h0.pending hp
      refine ⟨?_, this.2⟩
      rcases this.1 with h2 | h2 | h2 <;> rw [h2] <;> simp [Late, MPc.notify]
    · intro h2
      exfalso
      revert h2
      cases s.main <;> simp [MPc.notify]
  | wdone _ t h1 =>
    have h0 := h.w t
    have hmu := h.crit_mutex (t := t) (by rw [h1]; rfl)
    refine inv_worker h (m' := s.main) (by rw [h1]; rfl) (Or.inl rfl) (by simp [hmu])
      (by simp [hmu, (other_ne t).symm]) ?_
    refine ⟨by simp [WPc.crit], by simp, fun _ => h0.value' (by simp [h1]), ?_, h0.pending, by simp, ?_⟩
    · simp only [or_true, iff_true]
      rw [h0.cut]; simp [h1]
    · intro h2
      exact absurd h1 (h0.waiting h2).1
  | wintr _ t h1 h2 =>
    have h0 := h.w t
    have hmu : s.mutex ≠ some (.worker t) := fun h' => by
      have := h0.crit.1 h'; rw [h2] at this; simp [WPc.crit] at this
    refine inv_worker h (by rw [h2]; rfl) (Or.inl rfl) Iff.rfl Iff.rfl ?_
    exact ⟨by simp [WPc.crit, hmu], by simp, by simp, by
      simp only [reduceCtorEq, or_self, iff_false]
      rw [h0.cut]; simp [h2], h0.pending, fun _ => h1, by simp⟩
  | wintr' _ t h1 h2 =>
    have h0 := h.w t
    have hmu := h.crit_mutex (t := t) (by rcases h2 with h2 | h2 <;> rw [h2] <;> rfl)
    refine inv_worker h (m' := s.main) (by rcases h2 with h2 | h2 <;> rw [h2] <;> rfl) (Or.inl rfl) (by simp [hmu])
      (by simp [hmu, (other_ne t).symm]) ?_
    exact ⟨by simp [WPc.crit], by simp, by simp, by
      simp only [reduceCtorEq, or_self, iff_false]
      rw [h0.cut]; rcases h2 with h2 | h2 <;> simp [h2], h0.pending, fun _ => h1, by simp⟩
  | wfail _ t h2 =>
    have h0 := h.w t
    have hmu : s.mutex ≠ some (.worker t) := fun h' => by
      have := h0.crit.1 h'; rw [h2] at this; simp [WPc.crit] at this
    refine inv_worker h (by rw [h2]; rfl) (Or.inl rfl) Iff.rfl Iff.rfl ?_
    exact ⟨by simp [WPc.crit, hmu], by simp, by simp, by
      simp only [reduceCtorEq, or_self, iff_false]
      rw [h0.cut]; simp [h2], h0.pending, by simp, by simp⟩
  | wfail' _ t h2 =>
    have h0 := h.w t
    have hmu := h.crit_mutex (t := t) (by rcases h2 with h2 | h2 <;> rw [h2] <;> rfl)
    refine inv_worker h (m' := s.main) (by rcases h2 with h2 | h2 <;> rw [h2] <;> rfl) (Or.inl rfl) (by simp [hmu])
      (by simp [hmu, (other_ne t).symm]) ?_
    exact ⟨by simp [WPc.crit], by simp, by simp, by
      simp only [reduceCtorEq, or_self, iff_false]
      rw [h0.cut]; rcases h2 with h2 | h2 <;> simp [h2], h0.pending, by simp, by simp⟩

theorem Reach.inv (h : Reach small big k s) : Inv s := by
  induction h with
  | start => exact inv_start
  | step _ hs ih => exact inv_step ih hs

/-! ### every execution is finite -/

/-- How far the main thread is from its end. -/
def MPc.rank : MPc → ℕ
  | .lock1 => 9 | .check => 8 | .waiting => 7 | .woken => 6 | .hold1 => 5 | .lock2 => 4 | .decide => 3
  | .joinL => 2 | .joinR => 1 | .fin => 0

/-- How far a worker is from its end. -/
def WPc.rank : WPc → ℕ
  | .run => 5 | .crit0 => 4 | .crit1 => 3 | .crit2 => 2 | .crit3 => 1 | _ => 0

/-- How far the execution is from its end. -/
def rank (s : State) : ℕ := MPc.rank s.main + WPc.rank s.l.pc + WPc.rank s.r.pc

theorem rank_setW {s0 : State} (h0 : rank s0 ≤ rank s) (hw : s0.w t = s.w t)
    (hx : WPc.rank x.pc < WPc.rank (s.w t).pc) : rank (s0.setW t x) < rank s := by
  rw [← hw] at hx
  cases t <;> simp only [rank, State.setW, State.w] at * <;> omega

theorem rank_notify (m : MPc) : MPc.rank m.notify ≤ MPc.rank m := by
  cases m <;> simp [MPc.notify, MPc.rank]

theorem rank_step (hs : Step small big κ s s') : rank s' < rank s := by
  cases hs with
  | lock1 _ h1 | wait _ h1 | pass _ h1 | spurious _ h1 | relock _ h1 | unlock _ h1 | lock2 _ h1 | intL _ h1
  | intR _ h1 | noInt _ h1 | joinL _ h1 | joinR _ h1 => simp [rank, h1, MPc.rank]
  | wlock _ t h1 h2 => exact rank_setW le_rfl (by cases t <;> rfl) (by rw [h1]; simp [WPc.rank])
  | wvalue _ t h1 => exact rank_setW le_rfl (by cases t <;> rfl) (by rw [h1]; simp [WPc.rank])
  | wcut _ t h1 => exact rank_setW le_rfl (by cases t <;> rfl) (by rw [h1]; simp [WPc.rank])
  | wnotify _ t h1 =>
    have hn := rank_notify s.main
    exact rank_setW (by simp only [rank]; omega) (by cases t <;> rfl) (by rw [h1]; simp [WPc.rank])
  | wdone _ t h1 => exact rank_setW le_rfl (by cases t <;> rfl) (by rw [h1]; simp [WPc.rank])
  | wintr _ t h1 h2 => exact rank_setW le_rfl (by cases t <;> rfl) (by rw [h2]; simp [WPc.rank])
  | wintr' _ t h1 h2 =>
    exact rank_setW le_rfl (by cases t <;> rfl) (by rcases h2 with h2 | h2 <;> rw [h2] <;> simp [WPc.rank])
  | wfail _ t h2 => exact rank_setW le_rfl (by cases t <;> rfl) (by rw [h2]; simp [WPc.rank])
  | wfail' _ t h2 =>
    exact rank_setW le_rfl (by cases t <;> rfl) (by rcases h2 with h2 | h2 <;> rw [h2] <;> simp [WPc.rank])

theorem Reach.bound (h : Reach small big k s) : k + rank s ≤ 19 := by
  induction h with
  | start => simp [rank, MPc.rank, WPc.rank]
  | step _ hs ih =>
    have := rank_step hs
    omega

/-! ### progress -/

/-- A worker that holds the mutex can go on. -/
theorem crit_step (hc : (s.w t).pc.crit = true) : ∃ s', Step small big .normal s s' := by
  cases hp : (s.w t).pc with
  | crit0 => exact ⟨_, .wvalue s t hp⟩
  | crit1 => exact ⟨_, .wcut s t hp⟩
  | crit2 => exact ⟨_, .wnotify s t hp⟩
  | crit3 => exact ⟨_, .wdone s t hp⟩
  | _ => rw [hp] at hc; simp [WPc.crit] at hc

theorem decide_step (h : s.main = .decide) : ∃ s', Step small big .normal s s' := by
  by_cases h1 : s.r.value = true ∧ small s = true ∧ s.l.value = false
  · exact ⟨_, .intL s h h1.1 h1.2.1 h1.2.2⟩
  · by_cases h2 : s.r.value = false ∧ s.l.value = true ∧ big s = true
    · exact ⟨_, .intR s h h2.1 h2.2.1 h2.2.2⟩
    · exact ⟨_, .noInt s h h1 h2⟩

theorem Inv.progress (h : Inv s) (hm : s.main ≠ .fin) :
    (∃ s', Step small big .normal s s') ∨
      (s.main = .waiting ∧ s.l.pc = .failed ∧ s.r.pc = .failed) := by
  cases hmu : s.mutex with
  | some o =>
    left
    cases o with
    | worker t => exact crit_step (t := t) ((h.w t).crit.1 hmu)
    | main =>
      rcases h.mutex.1 hmu with h1 | h1 | h1
      · by_cases h2 : s.l.value = true ∨ s.r.value = true
        · exact ⟨_, .pass s h1 h2⟩
        · rw [not_or, Bool.not_eq_true, Bool.not_eq_true] at h2
          exact ⟨_, .wait s h1 h2.1 h2.2⟩
      · exact ⟨_, .unlock s h1⟩
      · exact decide_step h1
  | none =>
    by_cases hr : ∃ t, (s.w t).pc = .run
    · obtain ⟨t, ht⟩ := hr
      exact Or.inl ⟨_, .wlock s t ht hmu⟩
    · have hend : ∀ t, (s.w t).pc.ended = true := by
        intro t
        have h1 : (s.w t).pc.crit ≠ true := fun hc => by
          have := (h.w t).crit.2 hc
          rw [hmu] at this; simp at this
        have h2 : (s.w t).pc ≠ .run := fun h' => hr ⟨t, h'⟩
        revert h1 h2
        cases (s.w t).pc <;> simp [WPc.crit, WPc.ended]
      have hl : s.l.pc.ended = true := hend .L
      have hr : s.r.pc.ended = true := hend .R
      cases hmain : s.main with
      | lock1 => exact Or.inl ⟨_, .lock1 s hmain hmu⟩
      | check => have := h.mutex.2 (by simp [hmain]); rw [hmu] at this; simp at this
      | waiting =>
        right
        have hf : ∀ t, (s.w t).pc = .failed := by
          intro t
          have h1 := hend t
          have h2 := (h.w t).waiting hmain
          have h3 : (s.w t).pc ≠ .intr := fun h' => by
            have := ((h.w t).pending ((h.w t).intr h')).1
            rw [hmain] at this
            simp [Late] at this
          revert h1 h2 h3
          cases (s.w t).pc <;> simp [WPc.ended]
        exact ⟨rfl, hf .L, hf .R⟩
      | woken => exact Or.inl ⟨_, .relock s hmain hmu⟩
      | hold1 => have := h.mutex.2 (by simp [hmain]); rw [hmu] at this; simp at this
      | lock2 => exact Or.inl ⟨_, .lock2 s hmain hmu⟩
      | decide => have := h.mutex.2 (by simp [hmain]); rw [hmu] at this; simp at this
      | joinL => exact Or.inl ⟨_, .joinL s hmain hl⟩
      | joinR => exact Or.inl ⟨_, .joinR s hmain hr⟩
      | fin => exact absurd hmain hm

/-! ### the result -/

/-- Once both threads have been joined, the cut of a worker is there iff it returned normally. -/
theorem Inv.cut_iff (h : Inv s) (hm : s.main = .fin) (t : Side) :
    (s.w t).cut = true ↔ (s.w t).pc = .done := by
  have h1 : (s.w t).pc.ended = true := by cases t; exacts [(h.fin hm).1, (h.fin hm).2]
  rw [(h.w t).cut]
  revert h1
  cases (s.w t).pc <;> simp [WPc.ended]

/-- If no worker failed, one of them returned normally. -/
theorem Inv.some_done (h : Inv s) (hm : s.main = .fin) (hf : ∀ t, (s.w t).pc ≠ .failed) :
    ∃ t, (s.w t).pc = .done := by
  by_contra hno
  push Not at hno
  have h1 : (s.w .L).pc.ended = true := (h.fin hm).1
  have h2 : (s.w .L).pc = .intr := by
    have h3 := hno .L
    have h4 := hf .L
    revert h1 h3 h4
    cases (s.w .L).pc <;> simp [WPc.ended]
  rcases ((h.w .L).pending ((h.w .L).intr h2)).2 with h3 | h3
  · exact hno _ h3
  · exact hf _ h3

end PSP.Theory.Race
