import Verif.Model.PMFR

/-!
# Model of the two threads of `PMF_R::slice` (`/repo/psp/pmf_r.cpp:314-406, 479-545`)

A transition system with sequentially consistent interleaving (the code accesses the shared variables
under a mutex, apart from reads after `join`).  `InterruptibleThread` (submodule `psp/preflow`, absent
from the tree) is modelled as a flag that makes the thread leave with `thread_interrupted` at some point
before it has stored its result; that it may do so at any such point over-approximates it.
-/

namespace PSP.Model.Race

/-- The two worker threads: `executePreflow` and `executePreflow_reverse`. -/
inductive Side where
  | L | R
deriving DecidableEq, Repr

/-- The other one. -/
def Side.other : Side → Side
  | .L => .R
  | .R => .L

/-- Where a worker is (pmf_r.cpp:326-357, 371-405). -/
inductive WPc where
  /-- computing the flow -/
  | run
  /-- holds the mutex (line 347) -/
  | crit0
  /-- has stored the flow value (line 348) -/
  | crit1
  /-- has stored the cut (line 349) -/
  | crit2
  /-- has notified (line 350) -/
  | crit3
  /-- has returned normally -/
  | done
  /-- has returned after `thread_interrupted` (line 352) -/
  | intr
  /-- has returned after another exception, stored in `thread_exception_ptr` (line 355) -/
  | failed
deriving DecidableEq, Repr

/-- Does the worker hold the mutex? -/
def WPc.crit : WPc → Bool
  | .crit0 | .crit1 | .crit2 | .crit3 => true
  | _ => false

/-- Has the worker returned? -/
def WPc.ended : WPc → Bool
  | .done | .intr | .failed => true
  | _ => false

/-- Where `slice` is (pmf_r.cpp:490-513). -/
inductive MPc where
  /-- before the first lock (line 491) -/
  | lock1
  /-- holds the mutex, about to test (line 492) -/
  | check
  /-- in `cond.wait` (line 493) -/
  | waiting
  /-- woken up, about to lock again -/
  | woken
  /-- `cond.wait` has returned -/
  | hold1
  /-- before the second lock (line 497) -/
  | lock2
  /-- holds the mutex, about to decide on an interrupt (line 498) -/
  | decide
  /-- in `left->join()` (line 512) -/
  | joinL
  /-- in `right->join()` (line 513) -/
  | joinR
  /-- both threads have been joined -/
  | fin
deriving DecidableEq, Repr

/-- A worker with what it shares with `slice`. -/
structure Worker where
  pc : WPc := .run
  /-- `new_flow_value >= 0` (initially -1) -/
  value : Bool := false
  /-- `T_apostrophe` has been stored (initially empty) -/
  cut : Bool := false
  /-- `interrupt()` has been called -/
  pending : Bool := false
deriving DecidableEq, Repr

/-- Who holds the mutex. -/
inductive Owner where
  | main | worker (t : Side)
deriving DecidableEq, Repr

/-- The state. -/
structure State where
  main : MPc := .lock1
  l : Worker := {}
  r : Worker := {}
  mutex : Option Owner := none
deriving DecidableEq, Repr

/-- The worker of a side. -/
def State.w (s : State) : Side → Worker
  | .L => s.l
  | .R => s.r

/-- Replace the worker of a side. -/
def State.setW (s : State) : Side → Worker → State
  | .L, x => { s with l := x }
  | .R, x => { s with r := x }

/-- `notify_all` (line 350): the main thread wakes up if it waits. -/
def MPc.notify : MPc → MPc
  | .waiting => .woken
  | m => m

/-- What a step is. -/
inductive Kind where
  /-- ordinary progress -/
  | normal
  /-- an exception in a worker -/
  | fault
  /-- a spurious wake-up of `cond.wait` -/
  | spurious
deriving DecidableEq, Repr

/-- The steps.  `small` is `2 * T_apostrophe_right.Cardinality() <= countNodes(*newDig)` and `big` is
`2 * T_apostrophe_left.Cardinality() > countNodes(*newDig)` (lines 499 and 505); they are functions of the
state, because a cut that has not been stored is empty. -/
inductive Step (small big : State → Bool) : Kind → State → State → Prop
  /-- line 491 -/
  | lock1 (s) : s.main = .lock1 → s.mutex = none →
      Step small big .normal s { s with main := .check, mutex := some .main }
  /-- lines 492-493: wait, releasing the mutex -/
  | wait (s) : s.main = .check → s.l.value = false → s.r.value = false →
      Step small big .normal s { s with main := .waiting, mutex := none }
  /-- lines 492, 495: a value is there, go on -/
  | pass (s) : s.main = .check → (s.l.value = true ∨ s.r.value = true) →
      Step small big .normal s { s with main := .lock2, mutex := none }
  /-- `cond.wait` returns without a notification -/
  | spurious (s) : s.main = .waiting → Step small big .spurious s { s with main := .woken }
  /-- `cond.wait` locks again -/
  | relock (s) : s.main = .woken → s.mutex = none →
      Step small big .normal s { s with main := .hold1, mutex := some .main }
  /-- line 495 -/
  | unlock (s) : s.main = .hold1 → Step small big .normal s { s with main := .lock2, mutex := none }
  /-- line 497 -/
  | lock2 (s) : s.main = .lock2 → s.mutex = none →
      Step small big .normal s { s with main := .decide, mutex := some .main }
  /-- lines 498-502: interrupt the left thread -/
  | intL (s) : s.main = .decide → s.r.value = true → small s = true → s.l.value = false →
      Step small big .normal s { s with main := .joinL, mutex := none, l := { s.l with pending := true } }
  /-- lines 504-508: interrupt the right thread -/
  | intR (s) : s.main = .decide → s.r.value = false → s.l.value = true → big s = true →
      Step small big .normal s { s with main := .joinL, mutex := none, r := { s.r with pending := true } }
  /-- no interrupt -/
  | noInt (s) : s.main = .decide → ¬ (s.r.value = true ∧ small s = true ∧ s.l.value = false) →
      ¬ (s.r.value = false ∧ s.l.value = true ∧ big s = true) →
      Step small big .normal s { s with main := .joinL, mutex := none }
  /-- line 512 -/
  | joinL (s) : s.main = .joinL → s.l.pc.ended = true → Step small big .normal s { s with main := .joinR }
  /-- line 513 -/
  | joinR (s) : s.main = .joinR → s.r.pc.ended = true → Step small big .normal s { s with main := .fin }
  /-- line 347 -/
  | wlock (s) (t : Side) : (s.w t).pc = .run → s.mutex = none →
      Step small big .normal s
        ({ s with mutex := some (.worker t) }.setW t { s.w t with pc := .crit0 })
  /-- line 348 -/
  | wvalue (s) (t : Side) : (s.w t).pc = .crit0 →
      Step small big .normal s (s.setW t { s.w t with pc := .crit1, value := true })
  /-- line 349 -/
  | wcut (s) (t : Side) : (s.w t).pc = .crit1 →
      Step small big .normal s (s.setW t { s.w t with pc := .crit2, cut := true })
  /-- line 350 -/
  | wnotify (s) (t : Side) : (s.w t).pc = .crit2 →
      Step small big .normal s ({ s with main := s.main.notify }.setW t { s.w t with pc := .crit3 })
  /-- line 351: the lock is released -/
  | wdone (s) (t : Side) : (s.w t).pc = .crit3 →
      Step small big .normal s ({ s with mutex := none }.setW t { s.w t with pc := .done })
  /-- line 352 before the lock is taken -/
  | wintr (s) (t : Side) : (s.w t).pending = true → (s.w t).pc = .run →
      Step small big .normal s (s.setW t { s.w t with pc := .intr })
  /-- line 352 while the lock is held, which releases it -/
  | wintr' (s) (t : Side) : (s.w t).pending = true → ((s.w t).pc = .crit0 ∨ (s.w t).pc = .crit1) →
      Step small big .normal s ({ s with mutex := none }.setW t { s.w t with pc := .intr })
  /-- line 355 before the lock is taken -/
  | wfail (s) (t : Side) : (s.w t).pc = .run →
      Step small big .fault s (s.setW t { s.w t with pc := .failed })
  /-- line 355 while the lock is held, which releases it -/
  | wfail' (s) (t : Side) : ((s.w t).pc = .crit0 ∨ (s.w t).pc = .crit1) →
      Step small big .fault s ({ s with mutex := none }.setW t { s.w t with pc := .failed })

/-- The states reached in `k` steps from the start of both threads. -/
inductive Reach (small big : State → Bool) : ℕ → State → Prop
  | start : Reach small big 0 {}
  | step {k : ℕ} {s s' : State} {κ : Kind} : Reach small big k s → Step small big κ s s' →
      Reach small big (k + 1) s'

/-- What `slice` reads after the joins (lines 515-545): an exception, or the thread(s) whose cut is there;
`none` if there is no cut at all. -/
def outcome (s : State) : Option Finish :=
  if s.l.cut then (if s.r.cut then some .both else some .left)
  else if s.r.cut then some .right else none

end PSP.Model.Race
