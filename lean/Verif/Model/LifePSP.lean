import Verif.Model.Heap

/-!
# Lifetimes of `PSP` objects and their graphs (`/repo/psp/psp.h`, `/repo/psp/psp.cpp`)

What the algorithms compute is in `Verif.Model.PSP`; here only the graphs matter.
-/

namespace PSP.Model

/-- The members `g`, `edge_map` and `num_points` (psp.h:32-34). -/
structure PSPMem where
  g : ℕ
  edgeMap : ℕ
  numPoints : ℤ
deriving DecidableEq

/-- The first two constructors (psp.cpp:11-26). `make_dgraph` changes the new graph. -/
def PSPMem.newList (np : ℤ) : HM PSPMem := do
  let g ← HM.new
  let m ← HM.new
  HM.touch g
  HM.touch m
  return ⟨g, m, np⟩

/-- The constructor from a graph (psp.cpp:27). -/
def PSPMem.newGraph (g m : ℕ) : PSPMem := ⟨g, m, 0⟩

/-- The destructor (psp.cpp:28-34). -/
def PSPMem.destroy (o : PSPMem) : HM Unit :=
  if o.numPoints > 0 then do
    HM.delete o.edgeMap
    HM.delete o.g
  else return ()

/-- `PSP::run(method)` (psp.cpp:35-82): every method reads the graph, an unknown one throws before. -/
def PSPMem.run (o : PSPMem) (known : Bool) : HM Unit :=
  if known then do
    HM.touch o.g
    HM.touch o.edgeMap
  else HM.lift (.exc "not allowed")

/-- What a program does with objects of class `PSP`, which it holds in variables with numbers, and with graphs
of its own, which it also holds in variables. The class declares neither copy constructor nor
assignment (psp.h:7-44), so the compiler's versions copy the members. -/
inductive PSPOp where
  /-- a graph and an arc map of the caller -/
  | graph (k : ℕ)
  /-- the end of that graph -/
  | dropGraph (k : ℕ)
  | newList (v : ℕ) (np : ℤ)
  | newGraph (v k : ℕ)
  /-- `PSP v(u);` -/
  | copy (v u : ℕ)
  /-- `v = u;` -/
  | assign (v u : ℕ)
  | run (v : ℕ) (known : Bool)
  | destroy (v : ℕ)
deriving DecidableEq

/-- The variables of the program. -/
structure PSPVars where
  obj : ℕ → Option PSPMem
  graph : ℕ → Option (ℕ × ℕ)

/-- No variables yet. -/
def PSPVars.empty : PSPVars := ⟨fun _ => none, fun _ => none⟩

/-- One step of the program. A variable that does not exist cannot be named in C++; such steps are skipped. An
exception of `run` is caught by the program. -/
def PSPOp.step (op : PSPOp) (s : PSPVars) : HM PSPVars :=
  match op with
  | .graph k => do
    let g ← HM.new
    let m ← HM.new
    return { s with graph := Function.update s.graph k (some (g, m)) }
  | .dropGraph k =>
    match s.graph k with
    | none => return s
    | some (g, m) => do
      HM.delete m
      HM.delete g
      return { s with graph := Function.update s.graph k none }
  | .newList v np => do
    let o ← PSPMem.newList np
    return { s with obj := Function.update s.obj v (some o) }
  | .newGraph v k =>
    match s.graph k with
    | none => return s
    | some (g, m) => return { s with obj := Function.update s.obj v (some (PSPMem.newGraph g m)) }
  | .copy v u =>
    match s.obj u with
    | none => return s
    | some o => return { s with obj := Function.update s.obj v (some o) }
  | .assign v u =>
    match s.obj v, s.obj u with
    | some _, some o => return { s with obj := Function.update s.obj v (some o) }
    | _, _ => return s
  | .run v known =>
    match s.obj v with
    | none => return s
    | some o => fun h =>
      match o.run known h with
      | (h', .exc _) => (h', .ok s)
      | (h', .ok _) => (h', .ok s)
      | (h', .ub x) => (h', .ub x)
      | (h', .nan) => (h', .nan)
      | (h', .fuel) => (h', .fuel)
  | .destroy v =>
    match s.obj v with
    | none => return s
    | some o => do
      o.destroy
      return { s with obj := Function.update s.obj v none }

/-- The whole program. -/
def PSPOp.steps : List PSPOp → PSPVars → HM PSPVars
  | [], s => return s
  | op :: ops, s => do
    let s' ← op.step s
    PSPOp.steps ops s'

/-! ### programs that keep to the rules of the language -/

/-- Which variables exist. For an object it is also noted whose graph it uses: `none` for its own. -/
structure PSPScope where
  objs : ℕ → Option (Option ℕ)
  graphs : ℕ → Bool

/-- Nothing exists. -/
def PSPScope.empty : PSPScope := ⟨fun _ => none, fun _ => false⟩

/-- The rules: names are new, objects are used while they exist, and a graph of the caller ends after the objects
made from it. -/
inductive PSPOp.Allowed : PSPOp → PSPScope → PSPScope → Prop
  | graph {k sc} : sc.graphs k = false → Allowed (.graph k) sc { sc with graphs := Function.update sc.graphs k true }
  | dropGraph {k sc} : sc.graphs k = true → (∀ v, sc.objs v ≠ some (some k)) →
      Allowed (.dropGraph k) sc { sc with graphs := Function.update sc.graphs k false }
  | newList {v np sc} : sc.objs v = none →
      Allowed (.newList v np) sc { sc with objs := Function.update sc.objs v (some none) }
  | newGraph {v k sc} : sc.objs v = none → sc.graphs k = true →
      Allowed (.newGraph v k) sc { sc with objs := Function.update sc.objs v (some (some k)) }
  | copy {v u sc} : sc.objs v = none → sc.objs u ≠ none →
      Allowed (.copy v u) sc { sc with objs := Function.update sc.objs v (sc.objs u) }
  | assign {v u sc} : sc.objs v ≠ none → sc.objs u ≠ none →
      Allowed (.assign v u) sc { sc with objs := Function.update sc.objs v (sc.objs u) }
  | run {v known sc} : sc.objs v ≠ none → Allowed (.run v known) sc sc
  | destroy {v sc} : sc.objs v ≠ none →
      Allowed (.destroy v) sc { sc with objs := Function.update sc.objs v none }

/-- A program that keeps to the rules, and all its steps have the property `P`. -/
inductive PSPOp.AllAllowed (P : PSPOp → PSPScope → Prop) : List PSPOp → PSPScope → PSPScope → Prop
  | nil {sc} : AllAllowed P [] sc sc
  | cons {op ops sc sc' sc''} : op.Allowed sc sc' → P op sc → AllAllowed P ops sc' sc'' →
      AllAllowed P (op :: ops) sc sc''

/-- A program that keeps to the rules and ends all its variables. -/
def PSPOp.Legal (ops : List PSPOp) : Prop := PSPOp.AllAllowed (fun _ _ => True) ops .empty .empty

/-- Objects with a graph of their own are not copied and nothing is assigned to them. -/
def PSPOp.Careful (op : PSPOp) (sc : PSPScope) : Prop :=
  match op with
  | .copy _ u => sc.objs u ≠ some none
  | .assign v u => sc.objs v ≠ some none ∧ sc.objs u ≠ some none
  | _ => True

/-- Constructions from a list for no nodes. -/
def PSPOp.isEmptyGraph : PSPOp → Bool
  | .newList _ np => decide (np ≤ 0)
  | _ => false

end PSP.Model
