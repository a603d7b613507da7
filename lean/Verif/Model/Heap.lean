import Verif.Model.Basic

/-!
# Objects and their lifetimes

Which objects exist, whatever is in them. An address is never used twice, so that an object that is used
after its end is always noticed; in C++ the same address may belong to a new object by then.
-/

namespace PSP.Model

/-- The addresses of the objects that exist, and the next address to be given out. -/
structure Heap where
  next : ℕ
  live : Finset ℕ
deriving DecidableEq

/-- A piece of C++ that creates and destroys objects. The objects also remain after an exception. -/
def HM (α : Type) : Type := Heap → Heap × Outcome α

namespace HM
variable {α β : Type}

/-- Go on with `f` unless something ended the program. -/
def bind (m : HM α) (f : α → HM β) : HM β := fun h =>
  match m h with
  | (h', .ok a) => f a h'
  | (h', .exc s) => (h', .exc s)
  | (h', .ub s) => (h', .ub s)
  | (h', .nan) => (h', .nan)
  | (h', .fuel) => (h', .fuel)

instance : Monad HM where
  pure a := fun h => (h, .ok a)
  bind := bind

/-- A piece of C++ without objects of its own. -/
def lift (x : Outcome α) : HM α := fun h => (h, x)

/-- `new T(…)`, or the beginning of the lifetime of a local object. -/
def new : HM ℕ := fun h => (⟨h.next + 1, insert h.next h.live⟩, .ok h.next)

/-- Use of an object. -/
def touch (p : ℕ) : HM Unit := fun h => (h, if p ∈ h.live then .ok () else .ub "use of a deleted object")

/-- `delete p`, or the end of the lifetime of a local object. -/
def delete (p : ℕ) : HM Unit := fun h =>
  if p ∈ h.live then ({ h with live := h.live.erase p }, .ok ()) else (h, .ub "object deleted twice")

/-- `if (p) delete p`. -/
def deleteO : Option ℕ → HM Unit
  | none => pure ()
  | some p => delete p

/-- `if (b) delete p`. -/
def deleteIf (b : Bool) (p : ℕ) : HM Unit := if b then delete p else pure ()

/-- Delete the objects of a list one after another. -/
def deleteAll : List ℕ → HM Unit
  | [] => return ()
  | p :: ps => do
    delete p
    deleteAll ps

/-- A local object of the block `m`: it ends with the block, also after an exception. -/
def local_ (m : ℕ → HM α) : HM α := fun h =>
  match m h.next ⟨h.next + 1, insert h.next h.live⟩ with
  | (h', .ok a) => bind (delete h.next) (fun _ h'' => (h'', .ok a)) h'
  | (h', .exc s) => bind (delete h.next) (fun _ h'' => (h'', .exc s)) h'
  | r => r

end HM

end PSP.Model
