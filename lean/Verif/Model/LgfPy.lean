import Verif.Model.Basic
import Mathlib.Data.List.Infix

/-!
# Model of `utility/gaussian2Dcase.py`: writing and reading files in the LEMON graph format

Texts are lists of characters. `convert` writes the file for an affinity matrix, `toNetworkX` reads one into a graph of
networkx, of which nodes, edges and labels are modelled. Simplifications: the encoding of files and the translation of other
line ends than `\n` are left out, `strip` only knows the white space of ASCII, and the printing of numbers of type `float` is
a parameter. Not modelled: the generation of the points and of the matrix by scikit-learn (gaussian2Dcase.py:57-69), and the
name of the file (`filename.replace('gml', 'lgf')`).
-/

namespace PSP.Model

abbrev Text := List Char

/-- The lines that successive calls of `f.readline()` return before they return the empty text: each with its `\n`. -/
def fileLines : Text → List Text
  | [] => []
  | c :: f =>
    if c = '\n' then [c] :: fileLines f
    else match fileLines f with
      | [] => [[c]]
      | l :: ls => (c :: l) :: ls

/-- `st.find(pat) >= 0`. -/
def hasSub (pat st : Text) : Bool := decide (pat <:+: st)

def isBlank (c : Char) : Bool := c = ' ' || c = '\t' || c = '\n' || c = '\r' || c = '\x0b' || c = '\x0c'

/-- `st.strip()`. -/
def pyStrip (st : Text) : Text := ((st.dropWhile isBlank).reverse.dropWhile isBlank).reverse

/-- `st.split(c)` for a text of one character. -/
def pySplit (c : Char) : Text → List Text
  | [] => [[]]
  | x :: t =>
    if x = c then [] :: pySplit c t
    else match pySplit c t with
      | [] => [[x]]
      | l :: ls => (x :: l) :: ls

/-- What is used of `nx.DiGraph`: nodes in the order of insertion, edges with their label, labels of nodes. -/
structure NxGraph where
  nodes : List Text := []
  edges : List ((Text × Text) × Text) := []
  marks : List (Text × Text) := []
deriving DecidableEq

/-- `dot.add_node(x)`. -/
def NxGraph.addNode (g : NxGraph) (x : Text) : NxGraph := if x ∈ g.nodes then g else { g with nodes := g.nodes ++ [x] }

/-- `dot.add_edge(s, t, label = c)`: missing nodes are added, an existing edge gets the new label. -/
def NxGraph.addEdge (g : NxGraph) (s t c : Text) : NxGraph :=
  let g := (g.addNode s).addNode t
  if (s, t) ∈ g.edges.map Prod.fst then { g with edges := g.edges.map fun e => if e.1 = (s, t) then ((s, t), c) else e }
  else { g with edges := g.edges ++ [((s, t), c)] }

/-- `dot.nodes[x]['label'] = m`. -/
def NxGraph.mark (g : NxGraph) (x m : Text) : Outcome NxGraph :=
  if x ∈ g.nodes then .ok { g with marks := g.marks.filter (fun e => e.1 ≠ x) ++ [(x, m)] } else .exc "KeyError"

/-- The loop over the nodes (gaussian2Dcase.py:12-20); `st` is the current line, the list holds the lines to come. After the
end of the file `readline` returns the empty text for ever, and the loop adds it as a node for ever: outcome `fuel`. -/
def nodeLoop : NxGraph → Text → List Text → Outcome (NxGraph × List Text)
  | g, st, [] => if hasSub "@arcs".toList st then .ok (g, []) else .fuel
  | g, st, l :: rest =>
    if hasSub "@arcs".toList st then .ok (g, l :: rest)
    else nodeLoop (if hasSub "label".toList st then g else g.addNode (pyStrip st)) l rest

/-- The loop over the arcs (gaussian2Dcase.py:21-30): also returns the line with which it ended (empty at the end of the
file) and the lines to come. -/
def arcLoop : NxGraph → List Text → Outcome (NxGraph × Text × List Text)
  | g, [] => .ok (g, [], [])
  | g, st :: rest =>
    if hasSub "@attributes".toList st then .ok (g, st, rest)
    else if hasSub "label".toList st then arcLoop g rest
    else match pySplit '\t' (pyStrip st) with
      | [s, t, _, c] => arcLoop (g.addEdge s t c) rest
      | _ => .exc "ValueError"

/-- One of the two attributes (gaussian2Dcase.py:31-33 and 35-37). -/
def readMark (key m st : Text) (g : NxGraph) : Outcome NxGraph :=
  if hasSub key st then
    match pySplit ' ' (pyStrip st) with
    | [_, x] => g.mark x m
    | _ => .exc "ValueError"
  else .ok g

/-- `toNetworkX` for the lines of a file. -/
def readLines (ls : List Text) : Outcome NxGraph := do
  let (g, rest) ← nodeLoop {} (ls.getD 1 []) (ls.drop 2)
  let (g, st, rest) ← arcLoop g rest
  let g ← readMark "source".toList ['s'] st g
  readMark "target".toList ['t'] (rest.headD []) g

/-- `toNetworkX` (gaussian2Dcase.py:7-38) for the content of the file. -/
def toNetworkX (file : Text) : Outcome NxGraph := readLines (fileLines file)

/-- `c.join(ls)` for a text of one character. -/
def strJoin (c : Char) : List Text → Text
  | [] => []
  | [a] => a
  | a :: b :: ls => a ++ c :: strJoin c (b :: ls)

/-- `str(i)` for a natural number. -/
def decimal (i : ℕ) : Text := Nat.toDigits 10 i

/-- The lines of the arcs (gaussian2Dcase.py:47-53) with the counter `edge_cnt`, for the pairs of nodes still to come. -/
def arcLines (A : ℕ → ℕ → ℚ) (str : ℚ → Text) : ℕ → List (ℕ × ℕ) → List Text
  | _, [] => []
  | cnt, (i, j) :: ps =>
    if A i j < 1 / 10000000000 then arcLines A str cnt ps
    else strJoin '\t' [decimal i, decimal j, decimal cnt, str (A i j)] :: arcLines A str (cnt + 1) ps

/-- The pairs `i < j` in the order of the two loops (gaussian2Dcase.py:47-48). -/
def upperPairs (n : ℕ) : List (ℕ × ℕ) :=
  (List.range n).flatMap fun i => (List.range' (i + 1) (n - (i + 1))).map fun j => (i, j)

/-- `convert` (gaussian2Dcase.py:40-55): the content of the file for an `n` by `n` matrix. -/
def convert (n : ℕ) (A : ℕ → ℕ → ℚ) (str : ℚ → Text) : Text :=
  strJoin '\n' (["@nodes".toList, "label".toList] ++ (List.range n).map decimal ++
    ["@arcs".toList, "\t\tlabel\tcapacity".toList] ++ arcLines A str 0 (upperPairs n))

end PSP.Model
