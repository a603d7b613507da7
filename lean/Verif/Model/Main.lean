import Verif.Model.PSP

/-!
# Model of the command line program (`/repo/main.cpp`) and of the example program (`/repo/example/example.cpp`)

Not modelled: how boost turns the command line into option values (an option that cannot be parsed ends the
program before anything modelled here), how doubles and partitions are printed (a line of the result file is
a `Line`), and the number of seconds reported. `lemon::digraphReader` is a parameter.
-/

namespace PSP.Model

open PSP.Spec (Arc)

/-- What is in a file: a result of `main`, or anything else. -/
inductive Content where
  | lines (ls : List Line)
  | other (s : String)

/-- The file system: what is in each file that can be read, and which names can be opened for writing (not
so if the directory does not exist). -/
structure World where
  files : String → Option Content
  canWrite : String → Bool

/-- `std::ofstream fout(name); fout << text; fout.close()` (main.cpp:80-82): whether the file could be opened
is not asked. -/
def World.write (w : World) (name : String) (c : Content) : World :=
  if w.canWrite name then { w with files := fun x => if x = name then some c else w.files x } else w

/-- The option values (main.cpp:15-24), with the default values filled in (main.cpp:18-20). -/
structure Args where
  help : Bool := false
  graph : Option String
  method : String := "dt"
  result : String := "output.txt"
  time : Bool := false

/-- What `main` prints on the console. -/
inductive Msg where
  | usage
  | unknownMethod (m : String)
  | timeUsed
deriving DecidableEq

/-- The methods accepted by main.cpp:30. -/
def mainMethods : List String := ["dt", "psp_i", "pdt", "pdt_r", "agg_psp", "hpsp"]

/-- `result_filename` (main.cpp:45-49). -/
def resultName (a : Args) (graph : String) : String :=
  if a.result = "output.txt" then a.method ++ "-" ++ graph ++ ".txt" else a.result

/-- main.cpp:50-65: the graph is read and handed to a `PSP` object, which is run; then the lists are read.
`run` is `PSP::run`. A file that cannot be opened is read as `none`. -/
def mainLists (run : String → PSPObj → PSPObj × Outcome Unit) (lgf : Option Content → Outcome Mem)
    (method : String) (c : Option Content) : Outcome PSPOut := do
  let m ← lgf c
  (run method (PSPObj.newGraph m)).2
  return ⟨(run method (PSPObj.newGraph m)).1.getPartitions,
    (run method (PSPObj.newGraph m)).1.getCriticalValues⟩

/-- main.cpp:73-83: the result file is written only after all lines have been made. -/
def mainWrite (w : World) (name : String) : Outcome (List Line) → World × Outcome ℕ
  | .ok ls => (w.write name (.lines ls), .ok 0)
  | .exc s => (w, .exc s)
  | .ub s => (w, .ub s)
  | .nan => (w, .nan)
  | .fuel => (w, .fuel)

/-- The whole of `main` (main.cpp:13-84): the new state of the files, what is printed, and the exit code. -/
def mainRun (run : String → PSPObj → PSPObj × Outcome Unit) (lgf : Option Content → Outcome Mem) (a : Args)
    (w : World) : World × List Msg × Outcome ℕ :=
  if a.help then (w, [.usage], .ok 0)
  else if a.method ∉ mainMethods then (w, [.unknownMethod a.method, .usage], .ok 0)
  else match a.graph with
  | none => (w, [], .exc "bad_any_cast")
  | some graph =>
    match mainLists run lgf a.method (w.files graph) with
    | .ok r =>
      let p := mainWrite w (resultName a graph) (mainOutput r.psp r.cv)
      (p.1, if a.time then [.timeUsed] else [], p.2)
    | .exc s => (w, [], .exc s)
    | .ub s => (w, [], .ub s)
    | .nan => (w, [], .nan)
    | .fuel => (w, [], .fuel)

/-! ### `example.cpp` -/

/-- The loop of example.cpp:21-26 and the line after it. -/
def exampleOutput : List Partition → List ℚ → Outcome (List Line)
  | P :: Ps, c :: cv => do
    let r ← exampleOutput Ps cv
    return .part P :: .value c :: r
  | P :: _, [] => .ok [.part P]
  | [], _ => .ub "partition_list_iterator out of range"

/-- The arcs of example.cpp:8-11. -/
def exampleArcs : List Arc := [⟨0, 1, 1⟩, ⟨0, 2, 5⟩, ⟨1, 2, 1⟩]

/-- The whole of `main` in example.cpp:6-27: what is printed. `run()` means `run("psp_i")` (psp.h:24). -/
def exampleMain (e : Env) (sched : Schedule) : Outcome (List Line) := do
  let r ← runOnce e sched 3 exampleArcs "psp_i"
  exampleOutput r.psp r.cv

end PSP.Model
