import Verif.Theory.Race

/-!
# Properties of the two threads of `PMF_R::slice` (C25)

`Reach small big k s`: the state `s` is reached after `k` steps of the main thread and the two workers in
some interleaving, with any number of spurious wake-ups, interrupts and failing workers.
-/

namespace PSP.Props

open PSP.Model PSP.Model.Race PSP.Theory.Race

variable {small big : State → Bool} {s s' : State} {k : ℕ} {t : Side}

/-- Every execution has at most 19 steps: no thread runs forever. -/
theorem C25_finite (h : Reach small big k s) : k ≤ 19 := by
  have := Reach.bound h
  omega

/-- Mutual exclusion: at most one thread is in a section that holds the mutex. -/
theorem C25_mutual_exclusion (h : Reach small big k s) :
    ¬ (s.l.pc.crit = true ∧ s.r.pc.crit = true) ∧
    (∀ t, (s.w t).pc.crit = true → s.main ≠ .check ∧ s.main ≠ .hold1 ∧ s.main ≠ .decide) := by
  have hi := Reach.inv h
  refine ⟨fun ⟨h1, h2⟩ => ?_, fun t h1 => ?_⟩
  · have e1 := hi.crit_mutex (t := .L) h1
    have e2 := hi.crit_mutex (t := .R) h2
    rw [e1] at e2
    simp at e2
  · have e1 := hi.crit_mutex h1
    refine ⟨fun h2 => ?_, fun h2 => ?_, fun h2 => ?_⟩ <;>
    · have e2 := hi.mutex.2 (by simp [h2])
      rw [e1] at e2
      simp at e2

/-- No lost wake-up: unless both workers have failed, some thread can go on until `slice` has joined both.
No spurious wake-up and no failure is needed for that. -/
theorem C25_progress (h : Reach small big k s) (hm : s.main ≠ .fin)
    (hf : s.l.pc ≠ .failed ∨ s.r.pc ≠ .failed) : ∃ s', Step small big .normal s s' := by
  rcases (Reach.inv h).progress (small := small) (big := big) hm with h1 | ⟨_, h1, h2⟩
  · exact h1
  · rcases hf with h3 | h3
    · exact absurd h1 h3
    · exact absurd h2 h3

/-- An execution that cannot go on has come to its end, or both workers have failed. -/
theorem C25_stuck (h : Reach small big k s) (hs : ∀ s', ¬ Step small big .normal s s') :
    s.main = .fin ∨ (s.main = .waiting ∧ s.l.pc = .failed ∧ s.r.pc = .failed) := by
  by_cases hm : s.main = .fin
  · exact Or.inl hm
  · rcases (Reach.inv h).progress (small := small) (big := big) hm with ⟨s', h1⟩ | h1
    · exact absurd h1 (hs s')
    · exact Or.inr h1

/-- Hand-over: once `slice` has joined both threads and none of them has failed, it finds a cut. It takes
the cut of a worker that returned normally and had stored its flow value. -/
theorem C25_hand_over (h : Reach small big k s) (hm : s.main = .fin) (hf : ∀ t, (s.w t).pc ≠ .failed) :
    ∃ f, outcome s = some f ∧ (f.leftDone = true ↔ s.l.pc = .done) ∧ (f ≠ .left ↔ s.r.pc = .done) ∧
      (s.l.pc = .done → s.l.value = true) ∧ (s.r.pc = .done → s.r.value = true) := by
  have hi := Reach.inv h
  have hl : s.l.cut = true ↔ s.l.pc = .done := hi.cut_iff hm .L
  have hr : s.r.cut = true ↔ s.r.pc = .done := hi.cut_iff hm .R
  have hv : (s.l.pc = .done → s.l.value = true) ∧ (s.r.pc = .done → s.r.value = true) :=
    ⟨fun h' => (hi.w .L).value' (Or.inr (Or.inr (Or.inr h'))),
      fun h' => (hi.w .R).value' (Or.inr (Or.inr (Or.inr h')))⟩
  obtain ⟨t, ht⟩ := hi.some_done hm hf
  unfold outcome
  by_cases h1 : s.l.pc = .done
  · by_cases h2 : s.r.pc = .done
    · exact ⟨.both, by rw [if_pos (hl.2 h1), if_pos (hr.2 h2)], by simp [Finish.leftDone, h1],
        by simp [h2], hv⟩
    · exact ⟨.left, by rw [if_pos (hl.2 h1), if_neg (fun h' => h2 (hr.1 h'))],
        by simp [Finish.leftDone, h1], by simp [h2], hv⟩
  · have h2 : s.r.pc = .done := by cases t with
      | L => exact absurd ht h1
      | R => exact ht
    exact ⟨.right, by rw [if_neg (fun h' => h1 (hl.1 h')), if_pos (hr.2 h2)],
      by simp [Finish.leftDone, h1], by simp [h2], hv⟩

/-- A worker is interrupted only after the other one has returned, and never both are. -/
theorem C25_interrupt (h : Reach small big k s) :
    (∀ t, (s.w t).pending = true → (s.w t.other).pc = .done ∨ (s.w t.other).pc = .failed) ∧
    (∀ t, (s.w t).pc = .intr → (s.w t).pending = true) ∧ ¬ (s.l.pc = .intr ∧ s.r.pc = .intr) := by
  have hi := Reach.inv h
  refine ⟨fun t ht => ((hi.w t).pending ht).2, fun t => (hi.w t).intr, fun ⟨h1, h2⟩ => ?_⟩
  rcases ((hi.w .L).pending ((hi.w .L).intr h1)).2 with h3 | h3
  · rw [show (State.w s Side.L.other).pc = s.r.pc from rfl, h2] at h3; simp at h3
  · rw [show (State.w s Side.L.other).pc = s.r.pc from rfl, h2] at h3; simp at h3

/-! ### witnesses -/

/-- A worker that returned normally. -/
def doneWorker : Worker := { pc := .done, value := true, cut := true }

/-- The left worker runs to its end before the main thread takes the lock. -/
theorem left_first : Reach small big 5 { l := doneWorker } :=
  .step (.step (.step (.step (.step .start (.wlock _ .L rfl rfl)) (.wvalue _ .L rfl)) (.wcut _ .L rfl))
    (.wnotify _ .L rfl)) (.wdone _ .L rfl)

/-- Both workers can deliver. -/
example : ∃ k, Reach small big k { main := .fin, l := doneWorker, r := doneWorker } ∧
    outcome { main := .fin, l := doneWorker, r := doneWorker } = some .both :=
  ⟨_, .step (.step (.step (.step (.step (.step (.step (.step (.step (.step (.step left_first
    (.wlock _ .R rfl rfl)) (.wvalue _ .R rfl)) (.wcut _ .R rfl)) (.wnotify _ .R rfl)) (.wdone _ .R rfl))
    (.lock1 _ rfl rfl)) (.pass _ rfl (Or.inl rfl))) (.lock2 _ rfl rfl))
    (.noInt _ rfl (fun h => nomatch h.2.2) (fun h => nomatch h.1))) (.joinL _ rfl rfl)) (.joinR _ rfl rfl), rfl⟩

/-- The left worker alone can deliver, the right one being interrupted while it computes. -/
example : ∃ k, Reach small (fun _ => true) k
      { main := .fin, l := doneWorker, r := { pc := .intr, pending := true } } ∧
    outcome { main := .fin, l := doneWorker, r := { pc := .intr, pending := true } } = some .left :=
  ⟨_, .step (.step (.step (.step (.step (.step (.step left_first
    (.lock1 _ rfl rfl)) (.pass _ rfl (Or.inl rfl))) (.lock2 _ rfl rfl)) (.intR _ rfl rfl rfl rfl))
    (.joinL _ rfl rfl)) (.wintr _ .R rfl rfl)) (.joinR _ rfl rfl), rfl⟩

/-- The right worker alone can deliver: the main thread waits, is notified, and interrupts the left one,
which is about to store its result. -/
example : ∃ k, Reach (fun _ => true) big k
      { main := .fin, r := doneWorker, l := { pc := .intr, pending := true } } ∧
    outcome { main := .fin, r := doneWorker, l := { pc := .intr, pending := true } } = some .right :=
  ⟨_, .step (.step (.step (.step (.step (.step (.step (.step (.step (.step (.step (.step (.step (.step
    .start (.lock1 _ rfl rfl)) (.wait _ rfl rfl rfl)) (.wlock _ .R rfl rfl)) (.wvalue _ .R rfl))
    (.wcut _ .R rfl)) (.wnotify _ .R rfl)) (.wdone _ .R rfl)) (.relock _ rfl rfl)) (.unlock _ rfl))
    (.lock2 _ rfl rfl)) (.intL _ rfl rfl rfl rfl)) (.wintr _ .L rfl rfl)) (.joinL _ rfl rfl))
    (.joinR _ rfl rfl), rfl⟩

/-- The state in which `slice` waits and both workers have failed. -/
def deadlocked : State := { main := .waiting, l := { pc := .failed }, r := { pc := .failed } }

/-- **Violation.** If both workers throw, `slice` waits forever: nobody notifies it, and only a spurious
wake-up of `cond.wait` could free it.  The exceptions stored by the workers are never reported. -/
theorem C25_deadlock : (∃ k, Reach small big k deadlocked) ∧
    ∀ κ s', Step small big κ deadlocked s' → κ = .spurious := by
  refine ⟨⟨4, ?_⟩, fun κ s' h => ?_⟩
  · exact .step (.step (.step (.step .start (.lock1 _ rfl rfl)) (.wait _ rfl rfl rfl)) (.wfail _ .L rfl))
      (.wfail _ .R rfl)
  · cases h with
    | spurious => rfl
    | wlock _ t h1 | wvalue _ t h1 | wcut _ t h1 | wnotify _ t h1 | wdone _ t h1 | wfail _ t h1 =>
      cases t <;> simp [deadlocked, State.w] at h1
    | wintr _ t h0 h1 | wintr' _ t h0 h1 => cases t <;> simp [deadlocked, State.w] at h1
    | wfail' _ t h1 => cases t <;> simp [deadlocked, State.w] at h1
    | lock1 _ h1 | wait _ h1 | pass _ h1 | relock _ h1 | unlock _ h1 | lock2 _ h1 | intL _ h1 | intR _ h1
    | noInt _ h1 | joinL _ h1 | joinR _ h1 => simp [deadlocked] at h1

end PSP.Props
